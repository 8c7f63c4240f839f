import Verif.Model.Py

/-!
# definition.py

/repo/src/os_urlpattern/definition.py: character tables and rule sets.
-/

namespace OsUrl

/-- `string.ascii_lowercase` membership (definition.py:61, :74). -/
def isLowerC (c : Char) : Bool := decide (97 ≤ c.toNat) && decide (c.toNat ≤ 122)

/-- `string.ascii_uppercase` membership (definition.py:63, :75). -/
def isUpperC (c : Char) : Bool := decide (65 ≤ c.toNat) && decide (c.toNat ≤ 90)

/-- `BasePatternRule.BASE_ASCII_LOWER`, definition.py:32 -/
def ruleLower : Str := c!"a-z"
/-- `BasePatternRule.BASE_ASCII_UPPER`, definition.py:33 -/
def ruleUpper : Str := c!"A-Z"
/-- `BasePatternRule.DIGIT`, definition.py:31 -/
def ruleDigit : Str := c!"0-9"
/-- `BasePatternRule.BASE_ASCII`, definition.py:34 -/
def ruleAscii : Str := c!"A-Za-z"
/-- `BasePatternRule.DOT`, definition.py:48 -/
def ruleDot : Str := c!"\\."
/-- `BasePatternRule.SINGLE_QUESTION`, definition.py:50 -/
def singleQuestion : Str := c!"[\\?]"

/-- `SYMBOL`, definition.py:79 -/
def symbolChars : Str := c!"%&_@#;:,=<>~/"

/-- `ESCAPE`, definition.py:85 -/
def escapeChars : Str := c!".+\\\"'()[]{}*$^?|!-"

/-- `c in ASCII_DIGIT_SET`, definition.py:76 -/
def isAlnumC (c : Char) : Bool := isLowerC c || isUpperC c || isDigitC c

/-- `c in SYMBOL_SET`, definition.py:80 -/
def isSymbolC (c : Char) : Bool := symbolChars.any (· == c)

/-- `c in ESCAPE_SET`, definition.py:86 -/
def isEscapeC (c : Char) : Bool := escapeChars.any (· == c)

/-- `CHAR_RULE_DICT.get(c)`, definition.py:59-91.  The four key lists are disjoint, so the order
in which the dict is filled does not matter. -/
def charRule (c : Char) : Option Str :=
  if isLowerC c then some ruleLower
  else if isUpperC c then some ruleUpper
  else if isDigitC c then some ruleDigit
  else if isSymbolC c then some [c]
  else if isEscapeC c then some ['\\', c]
  else none

/-- `RULE_SET`, definition.py:92 -/
def ruleSet : List Str :=
  [ruleLower, ruleUpper, ruleDigit] ++ symbolChars.map (fun c => [c])
    ++ escapeChars.map (fun c => ['\\', c])

/-- `SIGN_RULE_SET`, definition.py:95-97 -/
def signRuleSet : List Str :=
  symbolChars.map (fun c => [c]) ++ escapeChars.map (fun c => ['\\', c])

/-- `DIGIT_AND_ASCII_RULE_SET`, definition.py:104-111 -/
def digitAsciiRuleSet : List Str := [ruleDigit, ruleLower, ruleUpper, ruleAscii]

/-- `MIXED_RULE_SET`, definition.py:122 -/
def mixedRuleSet : List Str := digitAsciiRuleSet ++ [c!"%"]

end OsUrl
