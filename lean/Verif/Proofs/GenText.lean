import Verif.Proofs.MatchRe
import Verif.Spec.Gen

/-! Reading back the texts of generated patterns. -/

namespace OsUrl
open Spec

/-! ### order on strings -/

theorem strLt_iff {a b : Str} : strLt a b = true ↔ a < b := by
  induction a generalizing b with
  | nil => cases b <;> simp [strLt]
  | cons x a ih =>
    cases b with
    | nil => simp [strLt]
    | cons y b =>
      simp only [strLt, charLt, List.cons_lt_cons_iff]
      have hlt : ∀ c d : Char, c < d ↔ c.toNat < d.toNat := fun c d => Iff.rfl
      have heq : ∀ c d : Char, c = d ↔ c.toNat = d.toNat := fun c d => ⟨fun h => by rw [h], fun h => Char.toNat_inj.mp h⟩
      rw [← ih, hlt, heq]
      by_cases h1 : x.toNat < y.toNat
      · simp [h1]
      · by_cases h2 : y.toNat < x.toNat
        · simp [h1, h2]; omega
        · have : x.toNat = y.toNat := by omega
          simp [this]

/-! ### closing brackets -/

/-- No closing bracket is found in the text. -/
def skips : Char → Str → Bool
  | _, [] => true
  | p, c :: r => (c != ']' || p == '\\') && skips c r

theorem closeBracket_skip {p : Char} {r t : Str} (h : skips p r = true) :
    closeBracket p (r ++ t) = (closeBracket (r.getLast?.getD p) t).map (fun x => (r ++ x.1, x.2)) := by
  induction r generalizing p with
  | nil => simp
  | cons c r ih =>
    simp only [skips, Bool.and_eq_true, Bool.or_eq_true, bne_iff_ne, beq_iff_eq] at h
    simp only [List.cons_append, closeBracket]
    rw [if_neg (by rintro ⟨a, b⟩; rcases h.1 with h | h <;> contradiction), ih h.2]
    have : (c :: r).getLast?.getD p = r.getLast?.getD c := by
      cases r with
      | nil => rfl
      | cons d r => simp [List.getLast?_cons]
    rw [this]
    simp [Option.map_map, Function.comp_def]

theorem skips_rule {r : Str} (h : r ∈ ruleSet) (p : Char) : skips p r = true := by
  have h1 : ∀ r ∈ ruleSet, skips 'x' r = true ∧ r.head? ≠ some ']' := by decide
  obtain ⟨a, b⟩ := h1 r h
  cases r with
  | nil => rfl
  | cons c r =>
    simp only [List.head?_cons, ne_eq, Option.some.injEq] at b
    simp only [skips, Bool.and_eq_true] at a ⊢
    exact ⟨by simp [b], a.2⟩

theorem skips_append {p : Char} {a b : Str} (h1 : skips p a = true) (h2 : skips (a.getLast?.getD p) b = true) :
    skips p (a ++ b) = true := by
  induction a generalizing p with
  | nil => simpa using h2
  | cons c a ih =>
    simp only [skips, Bool.and_eq_true, List.cons_append] at h1 ⊢
    refine ⟨h1.1, ih h1.2 ?_⟩
    have : (c :: a).getLast?.getD p = a.getLast?.getD c := by
      cases a with
      | nil => rfl
      | cons d a => simp [List.getLast?_cons]
    rwa [this] at h2

theorem skips_rules {rs : List Str} (h : ∀ r ∈ rs, r ∈ ruleSet) (p : Char) : skips p rs.flatten = true := by
  induction rs generalizing p with
  | nil => rfl
  | cons r rs ih =>
    simp only [List.flatten_cons]
    exact skips_append (skips_rule (h r (by simp)) p) (ih (fun x hx => h x (by simp [hx])) _)

theorem rules_last {rs : List Str} (h : ∀ r ∈ rs, r ∈ ruleSet) (hb : rs.getLast? ≠ some c!"\\\\") {p : Char} (hp : p ≠ '\\') :
    rs.flatten.getLast?.getD p ≠ '\\' := by
  rcases List.eq_nil_or_concat rs with rfl | ⟨L, r, rfl⟩
  · simpa using hp
  · have h1 : ∀ r ∈ ruleSet, r ≠ c!"\\\\" → r.getLast? ≠ some '\\' ∧ r ≠ [] := by decide
    obtain ⟨a, b⟩ := h1 r (h r (by simp)) (by rintro rfl; exact hb (by simp))
    rw [List.concat_eq_append, List.flatten_append]
    simp only [List.flatten_cons, List.flatten_nil, List.append_nil]
    rw [List.getLast?_append]
    cases hl : r.getLast? with
    | none => exact absurd (List.getLast?_eq_none_iff.mp hl) b
    | some c =>
      rw [hl] at a
      simpa using a

theorem braUnit_shape {rs : List Str} {q : Str} (h : ∀ r ∈ rs, r ∈ ruleSet) (hb : rs.getLast? ≠ some c!"\\\\")
    (hq : QShape q) : BraUnit ('[' :: rs.flatten ++ ']' :: q) := by
  refine ⟨rs.flatten ++ ']' :: q, rfl, ?_⟩
  have hc := closeBracket_skip (t := ']' :: q) (skips_rules h '[')
  have hl := rules_last h hb (p := '[') (by decide)
  simp only [closeBracket, true_and] at hc
  rw [if_pos hl] at hc
  simp only [Option.map_some] at hc
  cases hq with
  | one => simp only [bracketUnit, hc, pure, Except.pure]
  | plus => simp only [bracketUnit, hc, pure, Except.pure, List.append_assoc, List.cons_append, List.nil_append]
  | braces ds hd =>
    have : '}' ∉ ds := fun hm => (uniDigit_ne ((isDigitStr_iff.mp hd).2 _ hm)).2.1 rfl
    simp only [List.cons_append] at hc ⊢
    clear hl
    have e1 : List.take ds.length (ds ++ ['}']) = ds := by simp
    have e2 : List.take (ds.length + 1) (ds ++ ['}']) = ds ++ ['}'] := List.take_of_length_le (by rw [List.length_append]; exact Nat.le_refl _)
    have e3 : List.drop (ds.length + 1) (ds ++ ['}']) = [] := List.drop_of_length_le (by rw [List.length_append]; exact Nat.le_refl _)
    simp only [bracketUnit, hc, quantBraces, findChar_append_cons this, e1, e2, e3, hd, if_true, bind, Except.bind, pure,
      Except.pure]
    simp

theorem braUnit_class {rs : List Str} {q : Str} {n : Int} (h : ∀ r ∈ rs, r ∈ ruleSet) (hb : rs.getLast? ≠ some c!"\\\\")
    (hq : QText q n) : BraUnit ('[' :: rs.flatten ++ ']' :: q) := braUnit_shape h hb hq.shape

/-! ### units -/

/-- A literal run of letters or digits. -/
def isAlnumRun : GUnit → Bool
  | .run sp _ => !sp.isSign
  | _ => false

/-- The parsed unit of a generated unit. -/
def guUnit (u : GUnit) : PatternUnit :=
  ⟨u.text, u.spaces.map Space.text, match u with
    | .run _ w => w.length
    | .cls _ n => n
    | .wild _ => -1⟩

theorem isClass_rules {R : List Space} (h : IsClass R) :
    (∀ r ∈ R.map Space.text, r ∈ ruleSet) ∧ (R.map Space.text).getLast? ≠ some c!"\\\\" ∧ SSorted (R.map Space.text) := by
  refine ⟨?_, ?_, ?_⟩
  · intro r hr
    obtain ⟨sp, hsp, rfl⟩ := List.mem_map.mp hr
    exact mem_ruleSet.mpr ⟨sp, h.valid sp hsp, rfl⟩
  · intro hr
    rw [List.getLast?_map, Option.map_eq_some_iff] at hr
    obtain ⟨sp, hsp, e⟩ := hr
    have : sp = .sign '\\' := text_inj (e.trans (by decide))
    exact h.readable (this ▸ hsp)
  · exact List.pairwise_map.mpr (h.sorted.imp (fun h => strLt_iff.mpr h))

theorem specStr_nat {rule : Str} {n : Nat} (h : n ≠ 0) :
    specStr rule n = '[' :: rule ++ ']' :: (if n = 1 then [] else '{' :: decimal n ++ ['}']) := by
  unfold specStr
  by_cases h1 : n = 1
  · subst h1; simp
  · have a1 : ¬ ((n : Int) = 1) := by omega
    have a2 : ¬ ((n : Int) < 0) := by omega
    have a3 : (n : Int) > 1 := by omega
    simp [h1, a1, a2, a3, natStr_decimal]

/-- The class text of spaces with a number, and how it is read. -/
theorem class_unit {R : List Space} (h : IsClass R) {n : Int} (h0 : n ≠ 0) (hn : n < 0 ∨ (R.length : Int) ≤ n) :
    BraUnit (specStr (R.map Space.text).flatten n) ∧
      parsePatternUnitString (specStr (R.map Space.text).flatten n) =
        .ok (R.map Space.text, if n < 0 then -1 else n) := by
  obtain ⟨h1, h2, h3⟩ := isClass_rules h
  obtain ⟨q, e, hq⟩ := QText.spec h0 (R.map Space.text).flatten
  rw [e]
  refine ⟨braUnit_class h1 h2 hq, ?_⟩
  rw [parseUnit_class h1 hq, sortedSet_of_ssorted h3, if_neg]
  rw [List.length_map]
  split <;> omega

theorem lit_parse {rule u : Str} (h : LitUnit rule u) : parsePatternUnitString u = .ok ([rule], (u.length : Int)) := by
  obtain ⟨hd, hne, hc⟩ := h
  cases u with
  | nil => exact absurd rfl hne
  | cons c t =>
    have hcb := (alnum_ne_bracket (hc c (by simp)) hd).1
    unfold parsePatternUnitString
    simp only [ne_eq, hcb, not_false_eq_true, if_true, hc c (by simp), pure, Except.pure, bind, Except.bind]
    rw [if_neg]
    simp only [List.length_cons, List.length_nil]
    omega

theorem single_class {sp : Space} (hv : sp.Valid) (hb : sp ≠ .sign '\\') : IsClass [sp] :=
  ⟨⟨by simp, by simpa using hv, by simp⟩, by simpa using hb⟩

theorem gu_unit {u : GUnit} (h : u.Valid) :
    (if isAlnumRun u then LitUnit (u.spaces.map Space.text).flatten u.text
      else BraUnit u.text) ∧ mkUnit u.text = .ok (guUnit u) := by
  have hcls : ∀ (R : List Space) (n : Int), IsClass R → n ≠ 0 → (n < 0 ∨ (R.length : Int) ≤ n) →
      u.text = specStr (R.map Space.text).flatten n → u.spaces = R → (guUnit u).num = (if n < 0 then -1 else n) →
      BraUnit u.text ∧ mkUnit u.text = .ok (guUnit u) := by
    intro R n hR h0 hn ht hs hnum
    obtain ⟨a, b⟩ := class_unit hR h0 hn
    rw [← ht] at a b
    refine ⟨a, ?_⟩
    unfold mkUnit
    rw [b]
    simp only [bind, Except.bind, pure, Except.pure, Except.ok.injEq]
    rw [← hnum, ← hs]
    rfl
  cases u with
  | run sp w =>
    obtain ⟨h1, h2, h3⟩ := h
    obtain ⟨c, hc⟩ := List.exists_mem_of_ne_nil _ h1
    have hv := space_valid (h3 c hc)
    have hl : 0 < w.length := List.length_pos_iff.mpr h1
    by_cases hs : sp.isSign = true
    · rw [if_neg (by simp [isAlnumRun, hs])]
      refine hcls [sp] w.length (single_class hv h2) (by omega) (.inr (by simp; omega)) ?_ rfl ?_
      · have := specStr_runText (w := w) h1 hs
        simp only [List.map_cons, List.map_nil, List.flatten_cons, List.flatten_nil, List.append_nil]
        exact this.symm
      · have : ¬ ((w.length : Int) < 0) := by omega
        rw [if_neg this]; rfl
    · rw [if_pos (by simp [isAlnumRun, hs])]
      have ht : (GUnit.run sp w).text = w := by simp [GUnit.text, runText, hs]
      have hlit : LitUnit sp.text w := by
        refine ⟨text_mem_digitAscii_iff.mpr (by simpa using hs), h1, ?_⟩
        intro x hx
        exact charRule_some_iff.mpr ⟨sp, h3 x hx, rfl⟩
      constructor
      · rw [ht]; simpa [GUnit.spaces] using hlit
      · unfold mkUnit
        rw [ht, lit_parse hlit]
        simp [bind, Except.bind, pure, Except.pure, guUnit, GUnit.spaces, ht]
  | cls R n =>
    obtain ⟨h1, h2⟩ := h
    have hp : 0 < R.length := List.length_pos_iff.mpr h1.ne
    rw [if_neg (by simp [isAlnumRun])]
    refine hcls R n h1 (by omega) (.inr (by omega)) ?_ rfl ?_
    · exact (specStr_nat (by omega)).symm
    · have : ¬ ((n : Int) < 0) := by omega
      rw [if_neg this]; rfl
  | wild R =>
    have h1 : IsClass R := h
    rw [if_neg (by simp [isAlnumRun])]
    refine hcls R (-1) h1 (by omega) (.inl (by omega)) ?_ rfl rfl
    simp [GUnit.text, specStr]

theorem gu_form {u : GUnit} (h : u.Valid) : BraUnit u.text ∨ ∃ rule, LitUnit rule u.text := by
  have := (gu_unit h).1
  split at this
  · exact .inr ⟨_, this⟩
  · exact .inl this

theorem gu_apart {u v : GUnit} (hu : u.Valid) (hv : v.Valid) (h : u.Differ v) : Apart u.text v.text := by
  intro rule ⟨l1, l2⟩
  have key : ∀ {u : GUnit}, u.Valid → LitUnit rule u.text → ∃ sp w, u = .run sp w ∧ sp.text = rule := by
    intro u hu l
    have := (gu_unit hu).1
    split at this
    · rename_i hr
      obtain ⟨sp, w, rfl⟩ : ∃ sp w, u = .run sp w := by
        cases u with
        | run sp w => exact ⟨sp, w, rfl⟩
        | cls R n => simp [isAlnumRun] at hr
        | wild R => simp [isAlnumRun] at hr
      refine ⟨sp, w, rfl, ?_⟩
      simp only [GUnit.spaces, List.map_cons, List.map_nil, List.flatten_cons, List.flatten_nil, List.append_nil] at this
      obtain ⟨-, hne, hc⟩ := this
      obtain ⟨c, hcm⟩ := List.exists_mem_of_ne_nil _ hne
      have a := hc c hcm
      rw [l.2.2 c hcm] at a
      simpa using a.symm
    · obtain ⟨t, e, -⟩ := this
      exfalso
      exact (alnum_ne_bracket (l.2.2 '[' (by rw [e]; simp)) l.1).1 rfl
  obtain ⟨sp, w, rfl, e1⟩ := key hu l1
  obtain ⟨sp', w', rfl, e2⟩ := key hv l2
  exact h (text_inj (e1.trans e2.symm))

/-- The units of a generated pattern. -/
theorem gen_units {us : List GUnit} (hv : ∀ u ∈ us, u.Valid) (ha : Neighbours GUnit.Differ us) (hne : us ≠ []) :
    patternUnits (patText us) = .ok (us.map guUnit) := by
  have h1 : parsePatternString (patText us) = .ok (us.map GUnit.text) := by
    refine parsePatternString_units (by simpa using hne) ?_ ?_
    · intro t ht
      obtain ⟨u, hu, rfl⟩ := List.mem_map.mp ht
      exact gu_form (hv u hu)
    · intro a x y b e
      obtain ⟨a', r1, e1, rfl, e2⟩ := List.map_eq_append_iff.mp e
      obtain ⟨x', r2, rfl, rfl, e3⟩ := List.map_eq_cons_iff.mp e2
      obtain ⟨y', b', rfl, rfl, rfl⟩ := List.map_eq_cons_iff.mp e3
      exact gu_apart (hv _ (by rw [e1]; simp)) (hv _ (by rw [e1]; simp)) (ha a' x' y' b' e1)
  unfold patternUnits
  rw [h1]
  simp only [bind, Except.bind]
  clear h1 ha hne
  induction us with
  | nil => rfl
  | cons u us ih =>
    simp only [List.map_cons, List.mapM_cons, (gu_unit (hv u (by simp))).2, ih (fun x hx => hv x (by simp [hx])), bind,
      Except.bind, pure, Except.pure]

end OsUrl
