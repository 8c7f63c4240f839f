import Verif.Proofs.PatString
import Verif.Spec.Regex

/-! Reading pattern texts as regular expressions. -/

namespace OsUrl
open Spec

/-- The range of characters of a space. -/
def Spec.Space.range : Space → Char × Char
  | .lower => ('a', 'z')
  | .upper => ('A', 'Z')
  | .digit => ('0', '9')
  | .sign c => (c, c)

theorem range_has {sp : Space} (hv : sp.Valid) (c : Char) :
    (sp.range.1.toNat ≤ c.toNat ∧ c.toNat ≤ sp.range.2.toNat) ↔ space? c = some sp := by
  have e1 : 'a'.toNat = 97 := rfl
  have e2 : 'z'.toNat = 122 := rfl
  have e3 : 'A'.toNat = 65 := rfl
  have e4 : 'Z'.toNat = 90 := rfl
  have e5 : '0'.toNat = 48 := rfl
  have e6 : '9'.toNat = 57 := rfl
  cases sp with
  | sign d =>
    simp only [Space.range]
    constructor
    · intro h
      have : c = d := Char.toNat_inj.mp (by omega)
      subst this
      exact signs_space hv
    · intro h
      have := space_sign h
      subst this; simp
  | lower =>
    simp only [Space.range, space?, e1, e2, e3, e4, e5, e6]
    split
    · simp_all
    · repeat' split
      all_goals simp_all
  | upper =>
    simp only [Space.range, space?, e1, e2, e3, e4, e5, e6]
    split
    · simp; omega
    · repeat' split
      all_goals simp_all
  | digit =>
    simp only [Space.range, space?, e1, e2, e3, e4, e5, e6]
    split
    · simp; omega
    · split
      · simp; omega
      · repeat' split
        all_goals simp_all

theorem class_has {sps : List Space} (hv : ∀ s ∈ sps, s.Valid) (c : Char) :
    Class.has (sps.map Space.range) c ↔ ∃ sp ∈ sps, space? c = some sp := by
  unfold Class.has
  constructor
  · rintro ⟨r, hr, h⟩
    obtain ⟨sp, hs, rfl⟩ := List.mem_map.mp hr
    exact ⟨sp, hs, (range_has (hv sp hs) c).mp h⟩
  · rintro ⟨sp, hs, h⟩
    exact ⟨_, List.mem_map_of_mem hs, (range_has (hv sp hs) c).mpr h⟩

theorem escaped_not_word {c : Char} (h : c ∈ escapedSigns) : isWord c = false := by
  revert h; revert c; decide

theorem bare_facts {c : Char} (h : c ∈ bareSigns) : c ≠ ']' ∧ c ≠ '\\' ∧ c ≠ '-' := by
  revert h; revert c; decide

theorem text_head_ne {sp : Space} (hv : sp.Valid) : sp.text.head? ≠ some '-' ∧ sp.text.head? ≠ some ']' := by
  cases sp with
  | sign c =>
    simp only [Space.text]
    split
    · rename_i h; have := bare_facts h; simp [this.1, this.2.2]
    · simp
  | _ => simp [Space.text]

theorem reClass_one {s R : Str} {lo : Char} {f : Nat} (h1 : s.head? ≠ some ']')
    (hc : reClassChar s = some (lo, R)) (hR : R.head? ≠ some '-') :
    reClass (f + 1) s = (reClass f R).map fun r => ((lo, lo) :: r.1, r.2) := by
  conv => lhs; unfold reClass
  split
  · simp [reClassChar] at hc
  · simp at h1
  · rw [hc]
    simp only
    split
    · simp at hR
    · rfl

/-- Reading one space inside a class. -/
theorem reClass_text {sp : Space} (hv : sp.Valid) {f : Nat} {R : Str} (hR : R.head? ≠ some '-') :
    reClass (f + 1) (sp.text ++ R) = (reClass f R).map fun r => (sp.range :: r.1, r.2) := by
  cases sp with
  | lower => rfl
  | upper => rfl
  | digit => rfl
  | sign c =>
    simp only [Space.text, Space.range]
    split
    · rename_i h
      obtain ⟨h1, h2, h3⟩ := bare_facts h
      apply reClass_one (by simpa using h1) _ hR
      simp only [List.cons_append, List.nil_append]
      unfold reClassChar
      split
      · rename_i heq; cases heq
      · rename_i heq; cases heq; exact absurd rfl h2
      · rename_i heq; cases heq; rfl
    · rename_i h
      have he : c ∈ escapedSigns := by
        rcases hv with hv | hv
        · exact absurd hv h
        · exact hv
      have hw := escaped_not_word he
      apply reClass_one (by simp) _ hR
      simp [reClassChar, hw]

theorem flatten_head {sps : List Space} (hv : ∀ s ∈ sps, s.Valid) (R : Str) :
    ((sps.map Space.text).flatten ++ ']' :: R).head? ≠ some '-' := by
  cases sps with
  | nil => simp
  | cons s sps =>
    have := (text_head_ne (hv s (by simp))).1
    have hne := text_ne_nil s
    cases ht : s.text with
    | nil => exact absurd ht hne
    | cons c w => rw [ht] at this; simpa [ht] using this

theorem reClass_flatten {sps : List Space} (hv : ∀ s ∈ sps, s.Valid) {fuel : Nat} {R : Str}
    (hf : sps.length + 1 ≤ fuel) :
    reClass fuel ((sps.map Space.text).flatten ++ ']' :: R) = some (sps.map Space.range, R) := by
  induction sps generalizing fuel with
  | nil =>
    obtain ⟨f, rfl⟩ : ∃ f, fuel = f + 1 := ⟨fuel - 1, by omega⟩
    simp [reClass]
  | cons s sps ih =>
    obtain ⟨f, rfl⟩ : ∃ f, fuel = f + 1 := ⟨fuel - 1, by omega⟩
    have hv' : ∀ x ∈ sps, x.Valid := fun x hx => hv x (by simp [hx])
    simp only [List.map_cons, List.flatten_cons, List.append_assoc]
    rw [reClass_text (hv s (by simp)) (flatten_head hv' R), ih hv' (by simp at hf; omega)]
    rfl

theorem length_flatten_texts (sps : List Space) : sps.length ≤ ((sps.map Space.text).flatten).length := by
  induction sps with
  | nil => simp
  | cons s sps ih =>
    have : 0 < s.text.length := List.length_pos_iff.mpr (text_ne_nil s)
    simp at ih ⊢; omega

/-- The quantifier that a number denotes. -/
def quantOf (n : Int) : Quant := if n < 0 then .plus else .times n.toNat

theorem reNum_digits {ds R : Str} (h : ∀ c ∈ ds, isDigitC c = true) (acc : Nat) (seen : Bool)
    (hs : seen = true ∨ ds ≠ []) :
    reNum acc seen (ds ++ '}' :: R) = some (strNatAux acc ds, R) := by
  induction ds generalizing acc seen with
  | nil =>
    rw [strNatAux_nil]
    rcases hs with rfl | hs
    · simp [reNum]
    · exact absurd rfl hs
  | cons c ds ih =>
    have hc := h c (by simp)
    have hne := (digit_ne hc).2.1
    have hd : '0'.toNat ≤ c.toNat ∧ c.toNat ≤ '9'.toNat := by
      simpa [isDigitC] using hc
    rw [strNatAux_cons _ _ _ hc]
    simp only [List.cons_append, reNum, hne, if_false]
    rw [if_pos hd]
    exact ih (fun x hx => h x (by simp [hx])) _ _ (.inl rfl)

theorem ascii_natStr (n : Nat) : AsciiText (natStr n) := by
  intro c hc
  have := natStr_digits c hc
  simp only [isDigitC, Bool.and_eq_true, decide_eq_true_eq] at this
  omega

/-- The quantifiers that the program writes are ASCII. -/
theorem spec_ascii {rule q : Str} {n : Int} (h : specStr rule n = '[' :: rule ++ ']' :: q) : AsciiText q := by
  have cut : ∀ {a b : Str}, '[' :: rule ++ ']' :: a = '[' :: rule ++ ']' :: b → a = b := by
    intro a b h
    have := List.append_cancel_left h
    injection this
  unfold specStr at h
  by_cases h1 : n = 1
  · rw [if_pos h1] at h
    have : ([] : Str) = q := cut (by simpa using h)
    subst this
    simp [AsciiText]
  · rw [if_neg h1] at h
    by_cases h2 : n < 0
    · rw [if_pos h2] at h
      have : ['+'] = q := cut (by simpa using h)
      subst this
      simp [AsciiText]
    · rw [if_neg h2] at h
      by_cases h3 : n > 1
      · rw [if_pos h3] at h
        have : '{' :: natStr n.toNat ++ ['}'] = q := cut (by simpa using h)
        subst this
        intro c hc
        simp only [List.cons_append, List.mem_cons, List.mem_append, List.not_mem_nil, or_false] at hc
        rcases hc with rfl | hc | rfl
        · decide
        · exact ascii_natStr _ c hc
        · decide
      · rw [if_neg h3] at h
        cases h

theorem reQuant_spec {q R : Str} {n : Int} (hq : QText q n) (ha : AsciiText q) (hR : NoQuant R) :
    reQuant (q ++ R) = some (quantOf n, R) := by
  cases hq with
  | one =>
    have : quantOf 1 = .times 1 := rfl
    simp only [List.nil_append, this]
    unfold reQuant
    split
    · exact absurd rfl hR.1
    · exact absurd rfl hR.2
    · rfl
  | plus => rfl
  | braces ds h =>
    obtain ⟨h1, h3⟩ := isDecimalStr_iff.mp h
    have h2 : ∀ c ∈ ds, isDigitC c = true := fun c hc =>
      ascii_isDigitC (decimal_isUniDigitC (h3 c hc)) (ha c (by simp [hc]))
    have e : ('{' :: ds ++ ['}']) ++ R = '{' :: (ds ++ '}' :: R) := by simp
    rw [e]
    simp only [reQuant, reNum_digits h2 0 false (.inr h1), Option.map_some]
    congr 1

/-- The text `u` reads as the items `is`, whatever follows. -/
def ReadsAs (u : Str) (is : List Item) : Prop :=
  ∀ rest fuel, NoQuant rest → (u ++ rest).length ≤ fuel →
    ∃ fuel', rest.length ≤ fuel' ∧ reItems fuel (u ++ rest) = (reItems fuel' rest).map (is ++ ·)

theorem ReadsAs.nil : ReadsAs [] [] := by
  intro rest fuel _ hf
  exact ⟨fuel, by simpa using hf, by simp⟩

theorem ReadsAs.append {u v : Str} {is js : List Item} (hu : ReadsAs u is) (hv : ReadsAs v js)
    (hn : ∀ r, NoQuant r → NoQuant (v ++ r)) : ReadsAs (u ++ v) (is ++ js) := by
  intro rest fuel hr hf
  obtain ⟨f1, a1, a2⟩ := hu (v ++ rest) fuel (hn rest hr) (by simpa using hf)
  obtain ⟨f2, b1, b2⟩ := hv rest f1 hr a1
  refine ⟨f2, b1, ?_⟩
  rw [List.append_assoc, a2, b2]
  cases reItems f2 rest <;> simp

theorem ReadsAs.reParse {u : Str} {is : List Item} (h : ReadsAs u is) : reParse u = some is := by
  obtain ⟨f, -, h2⟩ := h [] u.length (by simp [NoQuant]) (by simp)
  simp at h2
  unfold Spec.reParse
  rw [h2]
  cases f <;> simp [reItems]

/-- A plain character. -/
theorem readsAs_char {c : Char} (h : c ∉ special) : ReadsAs [c] [⟨[(c, c)], .times 1⟩] := by
  intro rest fuel hr hf
  cases fuel with
  | zero => simp at hf
  | succ f =>
    refine ⟨f, by simp at hf; exact hf, ?_⟩
    have h1 : c ≠ '[' := by rintro rfl; exact h (by decide)
    have h2 : c ≠ '\\' := by rintro rfl; exact h (by decide)
    have ha : reAtom (c :: rest) = some ([(c, c)], rest) := by
      unfold reAtom
      split
      · rename_i heq; cases heq
      · rename_i heq; cases heq; exact absurd rfl h1
      · rename_i heq; cases heq; exact absurd rfl h2
      · rename_i heq; cases heq; rw [if_neg h]
    have hq : reQuant rest = some (.times 1, rest) := reQuant_spec (q := []) .one (by simp [AsciiText]) hr
    simp only [List.cons_append, List.nil_append, reItems, ha, hq, bind, Option.bind]
    cases reItems f rest <;> rfl

/-- A class with a quantifier. -/
theorem readsAs_class {sps : List Space} {q : Str} {n : Int} (hne : sps ≠ []) (hv : ∀ s ∈ sps, s.Valid)
    (hq : QText q n) (haq : AsciiText q) :
    ReadsAs ('[' :: (sps.map Space.text).flatten ++ ']' :: q) [⟨sps.map Space.range, quantOf n⟩] := by
  intro rest fuel hr hf
  cases fuel with
  | zero => simp at hf
  | succ f =>
    refine ⟨f, by simp at hf; omega, ?_⟩
    have e : ('[' :: (sps.map Space.text).flatten ++ ']' :: q) ++ rest =
        '[' :: ((sps.map Space.text).flatten ++ ']' :: (q ++ rest)) := by simp
    have hl := length_flatten_texts sps
    have hc := reClass_flatten hv (R := q ++ rest)
      (fuel := ((sps.map Space.text).flatten ++ ']' :: (q ++ rest)).length)
      (by simp at hl ⊢; omega)
    have ha : reAtom ('[' :: ((sps.map Space.text).flatten ++ ']' :: (q ++ rest))) =
        some (sps.map Space.range, q ++ rest) := by
      simp only [reAtom]
      rw [hc]
      cases sps with
      | nil => exact absurd rfl hne
      | cons s sps => rfl
    rw [e]
    simp only [reItems, ha, reQuant_spec hq haq hr, bind, Option.bind]
    cases reItems f rest <;> rfl

theorem word_not_special {c : Char} {s : Space} (h : space? c = some s) (hs : s.isSign = false) :
    c ∉ special := by
  intro hc
  have key : ∀ d ∈ special, space? d = some (.sign d) := by decide
  rw [key c hc] at h
  simp at h
  subst h
  simp [Space.isSign] at hs

/-- A string of plain characters. -/
theorem readsAs_plain {w : Str} (h : ∀ c ∈ w, c ∉ special) :
    ReadsAs w (w.map (fun c => ⟨[(c, c)], .times 1⟩)) := by
  induction w with
  | nil => exact ReadsAs.nil
  | cons c w ih =>
    have hw : ∀ x ∈ w, x ∉ special := fun x hx => h x (by simp [hx])
    have := (readsAs_char (h c (by simp))).append (ih hw) (by
      intro r hr
      cases w with
      | nil => simpa using hr
      | cons d w =>
        have hd := h d (by simp)
        have h1 : d ≠ '{' := by rintro rfl; exact hd (by decide)
        have h2 : d ≠ '+' := by rintro rfl; exact hd (by decide)
        simp [NoQuant, h1, h2])
    simpa using this

/-! ### matching -/

theorem itemsMatch_nil {s : Str} : ItemsMatch [] s ↔ s = [] := by
  constructor
  · intro h; cases h; rfl
  · rintro rfl; exact .nil

theorem itemsMatch_cons {i : Item} {is : List Item} {s : Str} :
    ItemsMatch (i :: is) s ↔ ∃ a b, s = a ++ b ∧ i.Match a ∧ ItemsMatch is b := by
  constructor
  · intro h; cases h with
    | cons h1 h2 => exact ⟨_, _, rfl, h1, h2⟩
  · rintro ⟨a, b, rfl, h1, h2⟩; exact .cons h1 h2

theorem itemsMatch_append {is js : List Item} {s : Str} :
    ItemsMatch (is ++ js) s ↔ ∃ a b, s = a ++ b ∧ ItemsMatch is a ∧ ItemsMatch js b := by
  induction is generalizing s with
  | nil =>
    constructor
    · intro h; exact ⟨[], s, rfl, .nil, h⟩
    · rintro ⟨a, b, rfl, h1, h2⟩; rw [itemsMatch_nil.mp h1]; exact h2
  | cons i is ih =>
    rw [List.cons_append, itemsMatch_cons]
    constructor
    · rintro ⟨a, b, rfl, h1, h2⟩
      obtain ⟨c, d, rfl, h3, h4⟩ := ih.mp h2
      exact ⟨a ++ c, d, by simp, .cons h1 h3, h4⟩
    · rintro ⟨a, b, rfl, h1, h2⟩
      obtain ⟨c, d, rfl, h3, h4⟩ := itemsMatch_cons.mp h1
      exact ⟨c, d ++ b, by simp, h3, ih.mpr ⟨d, b, rfl, h4, h2⟩⟩

theorem itemsMatch_single {i : Item} {s : Str} : ItemsMatch [i] s ↔ i.Match s := by
  rw [itemsMatch_cons]
  constructor
  · rintro ⟨a, b, rfl, h1, h2⟩; rw [itemsMatch_nil.mp h2]; simpa using h1
  · intro h; exact ⟨s, [], by simp, h, .nil⟩

theorem itemsMatch_plain {w s : Str} : ItemsMatch (w.map (fun c => ⟨[(c, c)], .times 1⟩)) s ↔ s = w := by
  induction w generalizing s with
  | nil => exact itemsMatch_nil
  | cons c w ih =>
    rw [List.map_cons, itemsMatch_cons]
    constructor
    · rintro ⟨a, b, rfl, ⟨h1, h2⟩, h3⟩
      simp only at h2
      obtain ⟨d, rfl⟩ := List.length_eq_one_iff.mp h2
      have : d = c := by
        have := h1 d (by simp)
        simp only [Class.has, List.mem_singleton, exists_eq_left] at this
        exact Char.toNat_inj.mp (by omega)
      subst this
      simp only [List.singleton_append, ih.mp h3]
    · rintro rfl
      refine ⟨[c], w, by simp, ⟨?_, rfl⟩, ih.mpr rfl⟩
      intro x hx
      simp at hx; subst hx
      exact ⟨(x, x), by simp, by simp, by simp⟩

theorem reMatch_iff {p s : Str} {is : List Item} (h : ReadsAs p is) : ReMatch p s ↔ ItemsMatch is s := by
  unfold ReMatch
  rw [h.reParse]
  simp

end OsUrl
