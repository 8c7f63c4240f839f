import Verif.Model.Py

/-!
# Digits of Unicode 14.0.0

Written as characters; the model has tables of code points.
-/

namespace OsUrl.Spec

/-- The zeros of the scripts with decimal digits; `1` to `9` follow each of them. -/
def zeros : List Char :=
  ['0', '٠', '۰', '\u07c0', '०', '০', '੦', '૦', '୦', '௦', '౦', '೦', '൦', '෦', '๐', '໐',
   '༠', '၀', '႐', '០', '᠐', '᥆', '᧐', '᪀', '᪐', '᭐', '᮰', '᱀', '᱐', '꘠', '꣐', '꤀',
   '꧐', '꧰', '꩐', '꯰', '０', '𐒠', '𐴰', '𑁦', '𑃰', '𑄶', '𑇐', '𑋰', '𑑐', '𑓐', '𑙐', '𑛀',
   '𑜰', '𑣠', '𑥐', '𑱐', '𑵐', '𑶠', '𖩠', '𖫀', '𖭐', '𝟎', '𝟘', '𝟢', '𝟬', '𝟶', '𞅀', '𞋰',
   '𞥐', '🯰']

/-- The digits that are not decimal. -/
def oddDigits : List Char :=
  c!"²³¹፩፪፫፬፭፮፯፰፱᧚⁰⁴⁵⁶⁷⁸⁹₀₁₂₃₄₅₆₇₈₉①②③④⑤⑥⑦⑧⑨⑴⑵⑶⑷⑸⑹⑺⑻⑼⒈⒉⒊⒋⒌⒍⒎⒏⒐⓪⓵⓶⓷⓸⓹⓺⓻⓼⓽⓿❶❷❸❹❺❻❼❽❾➀➁➂➃➄➅➆➇➈➊➋➌➍➎➏➐➑➒𐩀𐩁𐩂𐩃𐹠𐹡𐹢𐹣𐹤𐹥𐹦𐹧𐹨𑁒𑁓𑁔𑁕𑁖𑁗𑁘𑁙𑁚🄀🄁🄂🄃🄄🄅🄆🄇🄈🄉🄊"

/-- A decimal digit of some script, with its value. -/
def IsDecimal (c : Char) (v : Nat) : Prop := ∃ z ∈ zeros, v < 10 ∧ c.toNat = z.toNat + v

/-- The ASCII digit with value `v`. -/
def asciiDigit (v : Nat) : Char := Char.ofNat ('0'.toNat + v)

end OsUrl.Spec
