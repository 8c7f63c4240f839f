import Verif.Spec.Args
import Verif.Props.C66

/-! From words to options and back. -/

namespace OsUrl
open Spec

/-- The table of option strings. -/
def optTable (F : OptNames) : OptTable := F.flatMap (fun x => [(['-', x.1], x.2.2), ('-' :: '-' :: x.2.1, x.2.2)])

theorem make_table : makeOptions = optTable makeNames := by decide
theorem match_table : matchOptions = optTable matchNames := by decide

/-- What is used of the tables. -/
structure NamesOK (F : OptNames) : Prop where
  dash : ∀ x ∈ F, x.1 ≠ '-' ∧ x.1 ≠ '=' ∧ '=' ∉ x.2.1
  one : ∀ x ∈ F, ∀ y ∈ F, x.1 = y.1 ∨ x.2.1 = y.2.1 → x = y
  nodup : F.Nodup
  two : 2 ≤ F.length
  long : ∀ x ∈ F, x.2.1 ≠ []

theorem makeNames_ok : NamesOK makeNames := ⟨by decide, by decide, by decide, by decide, by decide⟩
theorem matchNames_ok : NamesOK matchNames := ⟨by decide, by decide, by decide, by decide, by decide⟩

theorem get?_of_unique {κ α : Type} [DecidableEq κ] {k : κ} {v : α} {d : Dict κ α} (h : (k, v) ∈ d) (hu : ∀ v', (k, v') ∈ d → v' = v) :
    Dict.get? k d = some v := by
  cases hg : Dict.get? k d with
  | some w => rw [hu w (Dict.get?_mem hg)]
  | none =>
    exfalso
    induction d with
    | nil => cases h
    | cons x xs ih =>
      obtain ⟨k', v'⟩ := x
      simp only [Dict.get?] at hg
      by_cases hk : k' = k
      · rw [if_pos hk] at hg; cases hg
      · rw [if_neg hk] at hg
        refine ih ?_ (fun w hw => hu w (List.mem_cons_of_mem _ hw)) hg
        rcases List.mem_cons.mp h with e | h
        · cases e; exact absurd rfl hk
        · exact h

theorem mem_table {F : OptNames} {s : Str} {o : Opt} :
    (s, o) ∈ optTable F ↔ ∃ x ∈ F, x.2.2 = o ∧ (s = ['-', x.1] ∨ s = '-' :: '-' :: x.2.1) := by
  unfold optTable
  simp only [List.mem_flatMap, List.mem_cons, List.not_mem_nil, or_false, Prod.mk.injEq]
  constructor
  · rintro ⟨x, hx, ⟨h1, h2⟩ | ⟨h1, h2⟩⟩
    · exact ⟨x, hx, h2.symm, Or.inl h1⟩
    · exact ⟨x, hx, h2.symm, Or.inr h1⟩
  · rintro ⟨x, hx, h2, h1 | h1⟩
    · exact ⟨x, hx, Or.inl ⟨h1, h2.symm⟩⟩
    · exact ⟨x, hx, Or.inr ⟨h1, h2.symm⟩⟩

theorem table_get {F : OptNames} (hF : NamesOK F) {s : Str} {o : Opt} : Dict.get? s (optTable F) = some o ↔
    ∃ x ∈ F, x.2.2 = o ∧ (s = ['-', x.1] ∨ s = '-' :: '-' :: x.2.1) := by
  constructor
  · intro h; exact mem_table.mp (Dict.get?_mem h)
  · intro h
    refine get?_of_unique (mem_table.mpr h) ?_
    intro o' h'
    obtain ⟨x, hx, rfl, e⟩ := h
    obtain ⟨y, hy, rfl, e'⟩ := mem_table.mp h'
    have key : y = x := by
      rcases e with e | e <;> rcases e' with e' | e' <;> rw [e] at e'
      · refine hF.one y hy x hx (Or.inl ?_); simp at e'; exact e'.symm
      · exfalso; simp at e'; exact (hF.dash x hx).1 e'.1
      · exfalso; simp at e'; exact (hF.dash y hy).1 e'.1.symm
      · refine hF.one y hy x hx (Or.inr ?_); simp at e'; exact e'.symm
    rw [key]

theorem table_none {F : OptNames} (hF : NamesOK F) {s : Str} (h : ∀ x ∈ F, s ≠ ['-', x.1] ∧ s ≠ '-' :: '-' :: x.2.1) : Dict.get? s (optTable F) = none := by
  cases hg : Dict.get? s (optTable F) with
  | none => rfl
  | some o =>
    obtain ⟨x, hx, _, e | e⟩ := (table_get hF).mp hg
    · exact absurd e (h x hx).1
    · exact absurd e (h x hx).2

theorem partition_eq {a b : Str} (h : '=' ∉ a) :
    (a ++ '=' :: b).takeWhile (· != '=') = a ∧ ((a ++ '=' :: b).dropWhile (· != '=')).drop 1 = b ∧ hasChar '=' (a ++ '=' :: b) = true := by
  refine ⟨?_, ?_, hasChar_iff.mpr (by simp)⟩
  · induction a with
    | nil => simp
    | cons x xs ih =>
      have hx : (x != '=') = true := by simp; intro e; exact h (by simp [e])
      rw [List.cons_append, List.takeWhile_cons, hx]
      simp only [if_true]
      rw [ih (fun hm => h (by simp [hm]))]
  · induction a with
    | nil => simp
    | cons x xs ih =>
      have hx : (x != '=') = true := by simp; intro e; exact h (by simp [e])
      rw [List.cons_append, List.dropWhile_cons, hx]
      simp only [if_true]
      exact ih (fun hm => h (by simp [hm]))

theorem takeWhile_none {a : Str} (h : '=' ∉ a) : a.takeWhile (· != '=') = a := by
  induction a with
  | nil => rfl
  | cons x xs ih =>
    have hx : (x != '=') = true := by simp; intro e; exact h (by simp [e])
    rw [List.takeWhile_cons, hx]
    simp only [if_true]
    rw [ih (fun hm => h (by simp [hm]))]

/-- What stands behind an option letter. -/
def tailArg : Str → Option (Bool × Str)
  | [] => none
  | d :: r => if d = '=' then some (true, r) else some (false, d :: r)

theorem tailArg_cons (d : Char) (r : Str) : tailArg (d :: r) = if d = '=' then some (true, r) else some (false, d :: r) := rfl

theorem filterMap_single {α β : Type} {f : α → Option β} {l : List α} {x : α} {b : β} (hn : l.Nodup) (hx : x ∈ l) (hb : f x = some b)
    (hu : ∀ y ∈ l, f y ≠ none → y = x) : l.filterMap f = [b] := by
  induction l with
  | nil => cases hx
  | cons y ys ih =>
    rw [List.nodup_cons] at hn
    by_cases hy : y = x
    · subst hy
      rw [List.filterMap_cons_some hb]
      congr 1
      rw [List.filterMap_eq_nil_iff]
      intro z hz
      cases hf : f z with
      | none => rfl
      | some c =>
        have := hu z (List.mem_cons_of_mem _ hz) (by rw [hf]; simp)
        subst this
        exact absurd hz hn.1
    · have hfy : f y = none := by
        cases hf : f y with
        | none => rfl
        | some c => exact absurd (hu y (by simp) (by rw [hf]; simp)) hy
      rw [List.filterMap_cons_none hfy]
      refine ih hn.2 ?_ (fun z hz => hu z (List.mem_cons_of_mem _ hz))
      rcases List.mem_cons.mp hx with e | hx
      · exact absurd e.symm hy
      · exact hx

theorem tuples_gen {β : Type} {F : OptNames} {g : Str × Opt → Option β} {h : Char × Str × Opt → Option β}
    (H : ∀ x ∈ F, (g (['-', x.1], x.2.2) = none ∧ g ('-' :: '-' :: x.2.1, x.2.2) = h x) ∨
      (g (['-', x.1], x.2.2) = h x ∧ g ('-' :: '-' :: x.2.1, x.2.2) = none)) : (optTable F).filterMap g = F.filterMap h := by
  induction F with
  | nil => rfl
  | cons x xs ih =>
    have e : optTable (x :: xs) = (['-', x.1], x.2.2) :: ('-' :: '-' :: x.2.1, x.2.2) :: optTable xs := rfl
    rw [e]
    have ih := ih (fun y hy => H y (List.mem_cons_of_mem _ hy))
    rcases H x (by simp) with ⟨h1, h2⟩ | ⟨h1, h2⟩
    · rw [List.filterMap_cons_none h1]
      cases hh : h x with
      | none => rw [List.filterMap_cons_none (by rw [h2, hh]), List.filterMap_cons_none hh, ih]
      | some b => rw [List.filterMap_cons_some (by rw [h2, hh]), List.filterMap_cons_some hh, ih]
    · cases hh : h x with
      | none => rw [List.filterMap_cons_none (by rw [h1, hh]), List.filterMap_cons_none h2, List.filterMap_cons_none hh, ih]
      | some b => rw [List.filterMap_cons_some (by rw [h1, hh]), List.filterMap_cons_none h2, List.filterMap_cons_some hh, ih]

theorem startsWith_iff {p s : Str} : startsWith p s = true ↔ p <+: s := by unfold startsWith; exact List.isPrefixOf_iff_prefix

theorem tuples_long {F : OptNames} (hF : NamesOK F) {r : Str} :
    optionTuples (optTable F) ('-' :: '-' :: r) = F.filterMap (fun x =>
      if r.takeWhile (· != '=') <+: x.2.1 then
        some (.opt (some x.2.2) false (if hasChar '=' r then some (true, (r.dropWhile (· != '=')).drop 1) else none))
      else none) := by
  unfold optionTuples
  rw [if_pos (by rfl)]
  simp only
  have e1 : ('-' :: '-' :: r).takeWhile (· != '=') = '-' :: '-' :: r.takeWhile (· != '=') := by simp
  have e2 : ('-' :: '-' :: r).dropWhile (· != '=') = r.dropWhile (· != '=') := by simp
  have e3 : hasChar '=' ('-' :: '-' :: r) = hasChar '=' r := by simp [hasChar]
  rw [e1, e2, e3]
  apply tuples_gen
  intro x hx
  left
  refine ⟨?_, ?_⟩
  · simp only
    rw [if_neg]
    rw [startsWith_iff]
    intro hp
    have := (hF.dash x hx).1
    rw [List.cons_prefix_cons, List.cons_prefix_cons] at hp
    exact this hp.2.1.symm
  · simp only
    by_cases hp : r.takeWhile (· != '=') <+: x.2.1
    · rw [if_pos hp, if_pos (startsWith_iff.mpr (by simpa using hp))]; rfl
    · rw [if_neg hp, if_neg (fun h => hp (by simpa using startsWith_iff.mp h))]

theorem tuples_short {F : OptNames} (hF : NamesOK F) {c : Char} {r : Str} (hc : c ≠ '-') :
    optionTuples (optTable F) ('-' :: c :: r) = F.filterMap (fun x =>
      if x.1 = c then some (.opt (some x.2.2) true (some (false, r))) else none) := by
  unfold optionTuples
  rw [if_neg (by simpa using hc)]
  apply tuples_gen
  intro x hx
  right
  have hd := (hF.dash x hx).1
  refine ⟨?_, ?_⟩
  · by_cases hx : x.1 = c
    · rw [if_pos hx]
      simp only [List.take_succ_cons, List.take_zero, hx, if_true, List.drop_succ_cons, List.drop_zero]
      simp [singleDash, hc]
    · rw [if_neg hx]
      simp only [List.take_succ_cons, List.take_zero]
      rw [if_neg (by simpa using hx), if_neg]
      rw [startsWith_iff]
      intro hp
      rw [List.cons_prefix_cons, List.cons_prefix_cons] at hp
      exact hx hp.2.1.symm
  · simp only [List.take_succ_cons, List.take_zero]
    rw [if_neg (by intro e; simp at e; exact hc e.1.symm), if_neg]
    rw [startsWith_iff]
    intro hp
    rw [List.cons_prefix_cons, List.cons_prefix_cons] at hp
    exact hc hp.2.1

theorem parse_short {F : OptNames} (hF : NamesOK F) {c : Char} {l : Str} {o : Opt} (h : (c, l, o) ∈ F) (r : Str) :
    parseOptional (optTable F) ('-' :: c :: r) = some (.opt (some o) true (tailArg r)) := by
  obtain ⟨hc, he, _⟩ := hF.dash _ h
  simp only at hc he
  have hg : Dict.get? ['-', c] (optTable F) = some o := (table_get hF).mpr ⟨_, h, rfl, Or.inl rfl⟩
  have hs : singleDash ['-', c] = true := by simp [singleDash, hc]
  unfold parseOptional
  rw [if_neg (by simp)]
  cases r with
  | nil => rw [hg]; simp only [hs, tailArg]
  | cons d r =>
    have hnone : ∀ t : Str, Dict.get? ('-' :: c :: d :: t) (optTable F) = none := by
      intro t
      apply table_none hF
      intro x hx
      exact ⟨by simp, by intro e; simp at e; exact hc e.1⟩
    rw [hnone]
    simp only [List.length_cons, Nat.add_eq_right, Nat.add_eq_zero_iff, Nat.one_ne_zero, and_false, if_false]
    by_cases hd : d = '='
    · subst hd
      obtain ⟨h1, h2, h3⟩ := partition_eq (a := ['-', c]) (b := r) (by simp [Ne.symm he])
      simp only [List.cons_append, List.nil_append] at h1 h2 h3
      rw [h1, h2, h3, if_pos rfl, hg]
      simp only [hs, tailArg, if_true]
    · have hT : ('-' :: c :: d :: r).takeWhile (· != '=') = '-' :: c :: d :: r.takeWhile (· != '=') := by simp [he, hd]
      have : (if hasChar '=' ('-' :: c :: d :: r) = true then Dict.get? (('-' :: c :: d :: r).takeWhile (· != '=')) (optTable F) else none) = none := by
        rw [hT, hnone]; simp
      rw [this, tuples_short hF hc]
      have := filterMap_single (f := fun x : Char × Str × Opt =>
        if x.1 = c then some (WordKind.opt (some x.2.2) true (some (false, d :: r))) else none) hF.nodup h (if_pos rfl) (by
          intro y hy hn
          by_cases hyc : y.1 = c
          · exact hF.one y hy _ h (Or.inl hyc)
          · rw [if_neg hyc] at hn; exact absurd rfl hn)
      rw [this]
      simp [tailArg, hd]

theorem prefix_long {F : OptNames} (hF : NamesOK F) {w : Str} {o : Opt} (h : NamesOpt F ('-' :: '-' :: w) o) :
    ∃ x ∈ F, x.2.2 = o ∧ w <+: x.2.1 ∧ (w = x.2.1 ∨ ∀ y ∈ F, w <+: y.2.1 → y = x) := by
  generalize hv : '-' :: '-' :: w = v at h
  cases h with
  | short c l _ hm =>
    simp at hv
    exact absurd hv.1.symm (hF.dash _ hm).1
  | long c l _ hm =>
    simp at hv
    subst hv
    exact ⟨_, hm, rfl, List.prefix_refl _, Or.inl rfl⟩
  | abbreviation c l _ p hm hp hu =>
    simp at hv
    subst hv
    exact ⟨_, hm, rfl, hp, Or.inr hu⟩

theorem parse_long {F : OptNames} (hF : NamesOK F) {w : Str} {o : Opt} (h : NamesOpt F ('-' :: '-' :: w) o) : w ≠ [] ∧ '=' ∉ w ∧
    parseOptional (optTable F) ('-' :: '-' :: w) = some (.opt (some o) false none) ∧
    ∀ v, parseOptional (optTable F) ('-' :: '-' :: w ++ '=' :: v) = some (.opt (some o) false (some (true, v))) := by
  obtain ⟨x, hx, rfl, hp, hu⟩ := prefix_long hF h
  have hne : '=' ∉ w := fun hm => (hF.dash x hx).2.2 (hp.subset hm)
  have hune : ∀ y ∈ F, y.2.1 = w → y = x := by
    intro y hy e
    rcases hu with hu | hu
    · exact hF.one y hy x hx (Or.inr (by rw [e, hu]))
    · exact hu y hy (by rw [e]; exact List.prefix_refl _)
  have hs : ∀ t : Str, singleDash ('-' :: '-' :: t) = false := fun t => rfl
  have hget : Dict.get? ('-' :: '-' :: w) (optTable F) = some x.2.2 ∨
      (Dict.get? ('-' :: '-' :: w) (optTable F) = none ∧ ∀ y ∈ F, w <+: y.2.1 → y = x) := by
    by_cases he : w = x.2.1
    · left; exact (table_get hF).mpr ⟨x, hx, rfl, Or.inr (by rw [he])⟩
    · right
      refine ⟨?_, hu.resolve_left he⟩
      apply table_none hF
      intro y hy
      refine ⟨?_, ?_⟩
      · intro e; simp at e; exact (hF.dash y hy).1 e.1.symm
      · intro e
        simp at e
        have := hune y hy e.symm
        subst this
        exact he e
  have htup : ∀ (r : Str), r.takeWhile (· != '=') = w → (∀ y ∈ F, w <+: y.2.1 → y = x) → optionTuples (optTable F) ('-' :: '-' :: r) =
      [.opt (some x.2.2) false (if hasChar '=' r then some (true, (r.dropWhile (· != '=')).drop 1) else none)] := by
    intro r hr hu
    rw [tuples_long hF, hr]
    refine filterMap_single hF.nodup hx (if_pos hp) ?_
    intro y hy hn
    by_cases hyp : w <+: y.2.1
    · exact hu y hy hyp
    · rw [if_neg hyp] at hn; exact absurd rfl hn
  refine ⟨?_, hne, ?_, ?_⟩
  · intro e
    subst e
    have h2 := hF.two
    match F, hx, hu, hF, h2 with
    | a :: b :: t, hx, hu, hF, _ =>
      rcases hu with hu | hu
      · exact hF.long x hx hu.symm
      · have ha := hu a (by simp) (List.nil_prefix)
        have hb := hu b (by simp) (List.nil_prefix)
        have := hF.nodup
        rw [ha, hb] at this
        simp at this
  · unfold parseOptional
    rw [if_neg (by simp)]
    rcases hget with hg | ⟨hg, hu⟩
    · rw [hg]; rfl
    · rw [hg]
      simp only [List.length_cons, Nat.add_eq_right, Nat.add_eq_zero_iff, Nat.one_ne_zero, and_false, if_false]
      have hh : hasChar '=' ('-' :: '-' :: w) = false := by
        cases hc : hasChar '=' ('-' :: '-' :: w) with
        | false => rfl
        | true => exact absurd (by simpa using hasChar_iff.mp hc) hne
      have hh' : hasChar '=' w = false := by
        cases hc : hasChar '=' w with
        | false => rfl
        | true => exact absurd (hasChar_iff.mp hc) hne
      rw [hh, if_neg (by simp), htup w (takeWhile_none hne) hu, hh']
      rfl
  · intro v
    obtain ⟨h1, h2, h3⟩ := partition_eq (a := w) (b := v) hne
    obtain ⟨h4, h5, h6⟩ := partition_eq (a := '-' :: '-' :: w) (b := v) (by simpa using hne)
    simp only [List.cons_append] at h4 h5 h6 ⊢
    unfold parseOptional
    rw [if_neg (by simp)]
    have hnone : Dict.get? ('-' :: '-' :: (w ++ '=' :: v)) (optTable F) = none := by
      apply table_none hF
      intro y hy
      refine ⟨?_, ?_⟩
      · intro e; simp at e
      · intro e
        simp at e
        exact (hF.dash y hy).2.2 (by rw [← e]; simp)
    rw [hnone]
    simp only [List.length_cons, Nat.add_eq_right, Nat.add_eq_zero_iff, Nat.one_ne_zero, and_false, if_false]
    rw [h4, h5, h6, if_pos rfl]
    rcases hget with hg | ⟨hg, hu⟩
    · rw [hg]; rfl
    · rw [hg]
      simp only
      rw [htup _ h1 hu, h3, h2]
      rfl

theorem filterMap_single_inv {α β : Type} {f : α → Option β} {l : List α} {b : β} (h : l.filterMap f = [b]) :
    ∃ x ∈ l, f x = some b ∧ ∀ y ∈ l, f y ≠ none → y = x := by
  induction l with
  | nil => cases h
  | cons z zs ih =>
    cases hz : f z with
    | none =>
      rw [List.filterMap_cons_none hz] at h
      obtain ⟨x, hx, h1, h2⟩ := ih h
      refine ⟨x, List.mem_cons_of_mem _ hx, h1, ?_⟩
      intro y hy hn
      rcases List.mem_cons.mp hy with rfl | hy
      · exact absurd hz hn
      · exact h2 y hy hn
    | some c =>
      rw [List.filterMap_cons_some hz] at h
      simp only [List.cons.injEq] at h
      obtain ⟨rfl, h⟩ := h
      refine ⟨z, by simp, hz, ?_⟩
      intro y hy hn
      rcases List.mem_cons.mp hy with rfl | hy
      · rfl
      · exact absurd ((List.filterMap_eq_nil_iff.mp h) y hy) hn

theorem looksNegative_iff (w : Str) : looksNegative w = true ↔ NegativeNumber w := by
  have hd : ∀ {c : Char}, isDecimalC c = true ↔ ∃ v, IsDecimal c v := by
    intro c
    constructor
    · intro h; exact ⟨_, decimal_iff.mpr ⟨h, rfl⟩⟩
    · rintro ⟨v, h⟩; exact (decimal_iff.mp h).1
  have hnl : ¬ isDecimalC '\n' = true := by decide
  have core : ∀ s : Str, (match s with
      | '-' :: r => isDecimalStr r || (isDecimalStr ((r.dropWhile isDecimalC).drop 1) && (r.dropWhile isDecimalC).head? == some '.')
      | _ => false) = true ↔ ∃ ds es : Str, (∀ c ∈ ds ++ es, isDecimalC c = true) ∧
        ((ds ≠ [] ∧ s = '-' :: ds) ∨ (es ≠ [] ∧ s = '-' :: ds ++ '.' :: es)) := by
    intro s
    constructor
    · intro h
      split at h
      · rename_i r
        rw [Bool.or_eq_true, Bool.and_eq_true] at h
        rcases h with h | ⟨h1, h2⟩
        · obtain ⟨h1, h2⟩ := isDecimalStr_iff.mp h
          exact ⟨r, [], by simpa using h2, Or.inl ⟨h1, rfl⟩⟩
        · obtain ⟨h3, h4⟩ := isDecimalStr_iff.mp h1
          have e := List.takeWhile_append_dropWhile (p := isDecimalC) (l := r)
          cases hx : r.dropWhile isDecimalC with
          | nil => rw [hx] at h2; simp at h2
          | cons y ys =>
            rw [hx] at h2 h3 h4 e
            simp at h2
            subst h2
            refine ⟨r.takeWhile isDecimalC, ys, ?_, Or.inr ⟨by simpa using h3, by simp [e]⟩⟩
            intro c hc
            rcases List.mem_append.mp hc with hc | hc
            · exact (List.all_eq_true.mp (List.all_takeWhile (p := isDecimalC) (l := r))) c hc
            · exact h4 c (by simpa using hc)
      · cases h
    · rintro ⟨ds, es, h1, ⟨h2, rfl⟩ | ⟨h2, rfl⟩⟩
      · simp only [Bool.or_eq_true]
        left
        exact isDecimalStr_iff.mpr ⟨h2, fun c hc => h1 c (by simp [hc])⟩
      · simp only [List.cons_append, Bool.or_eq_true]
        right
        have : (ds ++ '.' :: es).dropWhile isDecimalC = '.' :: es := by
          have : ∀ c ∈ ds, isDecimalC c = true := fun c hc => h1 c (by simp [hc])
          clear h1
          induction ds with
          | nil => rw [List.nil_append, List.dropWhile_cons, if_neg (by decide)]
          | cons x xs ih =>
            rw [List.cons_append, List.dropWhile_cons, this x (by simp)]
            simp only [if_true]
            exact ih (fun c hc => this c (by simp [hc]))
        rw [this]
        simp only [List.drop_succ_cons, List.drop_zero, Bool.and_eq_true]
        exact ⟨isDecimalStr_iff.mpr ⟨h2, fun c hc => h1 c (by simp [hc])⟩, by simp⟩
  unfold looksNegative
  refine (core _).trans ?_
  unfold NegativeNumber
  simp only [← hd]
  constructor
  · rintro ⟨ds, es, h1, h2⟩
    by_cases hl : w.getLast? = some '\n'
    · rw [if_pos hl] at h2
      obtain ⟨ys, rfl⟩ := List.getLast?_eq_some_iff.mp hl
      rw [List.dropLast_concat] at h2
      refine ⟨ds, es, ['\n'], h1, Or.inr rfl, ?_⟩
      rcases h2 with ⟨h2, rfl⟩ | ⟨h2, rfl⟩
      · exact Or.inl ⟨h2, rfl⟩
      · exact Or.inr ⟨h2, rfl⟩
    · rw [if_neg hl] at h2
      refine ⟨ds, es, [], h1, Or.inl rfl, ?_⟩
      rcases h2 with ⟨h2, rfl⟩ | ⟨h2, rfl⟩
      · exact Or.inl ⟨h2, by simp⟩
      · exact Or.inr ⟨h2, by simp⟩
  · rintro ⟨ds, es, nl, h1, h2, h3⟩
    refine ⟨ds, es, h1, ?_⟩
    rcases h2 with rfl | rfl
    · have hl : ¬ w.getLast? = some '\n' := by
        intro hl
        obtain ⟨ys, e⟩ := List.getLast?_eq_some_iff.mp hl
        rcases h3 with ⟨h3, h4⟩ | ⟨h3, h4⟩
        · obtain ⟨zs, z, rfl⟩ : ∃ zs z, ds = zs ++ [z] := ⟨ds.dropLast, ds.getLast h3, (List.dropLast_concat_getLast h3).symm⟩
          rw [h4, List.append_nil, ← List.cons_append] at e
          have := (List.append_inj' e rfl).2
          simp at this
          exact hnl (this ▸ h1 z (by simp))
        · obtain ⟨zs, z, rfl⟩ : ∃ zs z, es = zs ++ [z] := ⟨es.dropLast, es.getLast h3, (List.dropLast_concat_getLast h3).symm⟩
          rw [h4, List.append_nil, ← List.cons_append, ← List.append_assoc] at e
          have := (List.append_inj' e rfl).2
          simp at this
          exact hnl (this ▸ h1 z (by simp))
      rw [if_neg hl]
      simpa using h3
    · have hl : w.getLast? = some '\n' := by
        rcases h3 with ⟨_, h4⟩ | ⟨_, h4⟩ <;> rw [h4] <;> exact List.getLast?_concat
      rw [if_pos hl]
      rcases h3 with ⟨h3, rfl⟩ | ⟨h3, rfl⟩
      · left; exact ⟨h3, by rw [List.dropLast_concat]⟩
      · right; exact ⟨h3, by rw [List.dropLast_concat]⟩

theorem isArg_parse {F : OptNames} (hF : NamesOK F) {w : Str} (h : IsArg F w) : w ≠ c!"--" ∧ parseOptional (optTable F) w = some .arg := by
  rcases h with h | rfl | ⟨h1, h2, h3⟩
  · refine ⟨fun e => h (by rw [e]; rfl), ?_⟩
    unfold parseOptional
    rw [if_pos h]
  · refine ⟨by decide, ?_⟩
    unfold parseOptional
    rw [if_neg (by simp), table_none hF (fun x hx => ⟨by simp, by simp⟩)]
    rfl
  · by_cases hh : w.head? = some '-'
    · obtain ⟨t, rfl⟩ : ∃ t, w = '-' :: t := by
        cases w with
        | nil => simp at hh
        | cons x xs => simp at hh; exact ⟨xs, by rw [hh]⟩
      cases t with
      | nil =>
        exfalso
        rcases h1 with ⟨ds, es, nl, h4, h5, ⟨h6, h7⟩ | ⟨h6, h7⟩⟩ | h1
        · simp at h7; exact h6 h7.1
        · simp at h7
        · simp at h1
      | cons d r =>
        have hc1 : looksNegative ('-' :: d :: r) = true ∨ hasChar ' ' ('-' :: d :: r) = true := by
          rcases h1 with h1 | h1
          · exact Or.inl ((looksNegative_iff _).mpr h1)
          · exact Or.inr (hasChar_iff.mpr h1)
        have hshort : ∀ x ∈ F, x.1 ≠ d := by
          intro x hx e
          exact h2 x hx (by rw [← e]; simp)
        by_cases hd : d = '-'
        · subst hd
          have hno : ∀ x ∈ F, ¬ r.takeWhile (· != '=') <+: x.2.1 := by
            intro x hx hp
            refine h3 (by simp) x hx ?_
            have : ('-' :: '-' :: r).takeWhile (· != '=') = '-' :: '-' :: r.takeWhile (· != '=') := by simp
            rw [this]
            simpa using hp
          have hrl : r ≠ [] := by
            rintro rfl
            obtain ⟨x, hx⟩ : ∃ x, x ∈ F := by
              cases hFe : F with
              | nil => have := hF.two; rw [hFe] at this; simp at this
              | cons a b => exact ⟨a, by simp⟩
            exact hno x hx (by simp)
          refine ⟨by simpa using hrl, ?_⟩
          have ht : ∀ t : Str, (t = r ∨ t = r.takeWhile (· != '=')) → Dict.get? ('-' :: '-' :: t) (optTable F) = none := by
            intro t ht
            apply table_none hF
            intro x hx
            refine ⟨?_, ?_⟩
            · intro e; simp at e; exact (hF.dash x hx).1 e.1.symm
            · intro e
              simp at e
              refine hno x hx ?_
              rcases ht with rfl | rfl
              · rw [e, takeWhile_none (hF.dash x hx).2.2]; exact List.prefix_refl _
              · rw [e]; exact List.prefix_refl _
          unfold parseOptional
          rw [if_neg (by simp), ht r (Or.inl rfl)]
          simp only [List.length_cons, Nat.add_eq_right, Nat.add_eq_zero_iff, Nat.one_ne_zero, and_false, if_false]
          have e1 : ('-' :: '-' :: r).takeWhile (· != '=') = '-' :: '-' :: r.takeWhile (· != '=') := by simp
          rw [e1, ht _ (Or.inr rfl)]
          have e2 : optionTuples (optTable F) ('-' :: '-' :: r) = [] := by
            rw [tuples_long hF, List.filterMap_eq_nil_iff]
            intro x hx
            rw [if_neg (hno x hx)]
          rw [e2]
          simp only [ite_self]
          rw [if_pos (by rw [Bool.or_eq_true]; exact hc1)]
        · refine ⟨by simp [hd], ?_⟩
          have ht : ∀ t : Str, Dict.get? ('-' :: d :: t) (optTable F) = none := by
            intro t
            apply table_none hF
            intro x hx
            refine ⟨?_, ?_⟩
            · intro e; simp at e; exact hshort x hx e.1.symm
            · intro e; simp at e; exact hd e.1
          unfold parseOptional
          rw [if_neg (by simp), ht]
          simp only [List.length_cons, Nat.add_eq_right, Nat.add_eq_zero_iff, Nat.one_ne_zero, and_false, if_false]
          have e1 : Dict.get? (('-' :: d :: r).takeWhile (· != '=')) (optTable F) = none := by
            by_cases he : d = '='
            · subst he
              have : ('-' :: '=' :: r).takeWhile (· != '=') = ['-'] := by simp
              rw [this]
              exact table_none hF (fun x hx => ⟨by simp, by simp⟩)
            · have : ('-' :: d :: r).takeWhile (· != '=') = '-' :: d :: r.takeWhile (· != '=') := by simp [he]
              rw [this, ht]
          have e2 : optionTuples (optTable F) ('-' :: d :: r) = [] := by
            rw [tuples_short hF hd, List.filterMap_eq_nil_iff]
            intro x hx
            rw [if_neg (hshort x hx)]
          rw [e1, e2]
          simp only [ite_self]
          rw [if_pos (by rw [Bool.or_eq_true]; exact hc1)]
    · refine ⟨fun e => hh (by rw [e]; rfl), ?_⟩
      unfold parseOptional
      rw [if_pos hh]

/-- What a word can be. -/
inductive WordIs (F : OptNames) : Str → WordKind → Prop
  | arg (w : Str) : IsArg F w → WordIs F w .arg
  | unknown (w : Str) (s : Bool) : WordIs F w (.opt none s none)
  | short (c : Char) (l : Str) (o : Opt) (r : Str) : (c, l, o) ∈ F → WordIs F ('-' :: c :: r) (.opt (some o) true (tailArg r))
  | long (p : Str) (o : Opt) : NamesOpt F ('-' :: '-' :: p) o → WordIs F ('-' :: '-' :: p) (.opt (some o) false none)
  | longEq (p : Str) (o : Opt) (v : Str) : NamesOpt F ('-' :: '-' :: p) o → WordIs F ('-' :: '-' :: p ++ '=' :: v) (.opt (some o) false (some (true, v)))

theorem parse_word {F : OptNames} (hF : NamesOK F) {w : Str} (hw : w ≠ c!"--") {k : WordKind} (h : parseOptional (optTable F) w = some k) :
    WordIs F w k := by
  by_cases hh : w.head? = some '-'
  · obtain ⟨t, rfl⟩ : ∃ t, w = '-' :: t := by
      cases w with
      | nil => simp at hh
      | cons x xs => simp at hh; exact ⟨xs, by rw [hh]⟩
    cases t with
    | nil =>
      rw [(isArg_parse hF (Or.inr (Or.inl rfl))).2] at h
      cases h
      exact .arg _ (Or.inr (Or.inl rfl))
    | cons d r =>
      have fin : ∀ (e2 : optionTuples (optTable F) ('-' :: d :: r) = []) (hno : NoOption F ('-' :: d :: r)),
          (if looksNegative ('-' :: d :: r) || hasChar ' ' ('-' :: d :: r) then some WordKind.arg
            else some (.opt none (singleDash ('-' :: d :: r)) none)) = some k → WordIs F ('-' :: d :: r) k := by
        intro e2 hno h
        by_cases hb : (looksNegative ('-' :: d :: r) || hasChar ' ' ('-' :: d :: r)) = true
        · rw [if_pos hb] at h
          cases h
          refine .arg _ (Or.inr (Or.inr ⟨?_, hno⟩))
          rw [Bool.or_eq_true] at hb
          rcases hb with hb | hb
          · exact Or.inl ((looksNegative_iff _).mp hb)
          · exact Or.inr (hasChar_iff.mp hb)
        · rw [if_neg hb] at h
          cases h
          exact .unknown _ _
      by_cases hd : d = '-'
      · subst hd
        have hr : r ≠ [] := fun e => hw (by rw [e])
        have e1 : ('-' :: '-' :: r).takeWhile (· != '=') = '-' :: '-' :: r.takeWhile (· != '=') := by simp
        have e2 : ('-' :: '-' :: r).dropWhile (· != '=') = r.dropWhile (· != '=') := by simp
        have e3 : hasChar '=' ('-' :: '-' :: r) = hasChar '=' r := by simp [hasChar]
        -- the word as name and argument
        have split : (hasChar '=' r = false ∧ r.takeWhile (· != '=') = r) ∨ (hasChar '=' r = true ∧
            r = r.takeWhile (· != '=') ++ '=' :: (r.dropWhile (· != '=')).drop 1) := by
          cases hc : hasChar '=' r with
          | false =>
            left
            refine ⟨rfl, takeWhile_none ?_⟩
            intro hm; rw [hasChar_iff.mpr hm] at hc; cases hc
          | true =>
            right
            refine ⟨rfl, ?_⟩
            have e := List.takeWhile_append_dropWhile (p := (· != '=')) (l := r)
            cases hd : r.dropWhile (· != '=') with
            | nil =>
              exfalso
              rw [hd, List.append_nil] at e
              have hm := hasChar_iff.mp hc
              rw [← e] at hm
              simpa using (List.all_eq_true.mp (List.all_takeWhile (p := (· != '=')) (l := r))) _ hm
            | cons y ys =>
              have hy := List.head?_dropWhile_not (· != '=') r
              rw [hd] at hy e
              simp at hy
              subst hy
              simpa using e.symm
        generalize hp : r.takeWhile (· != '=') = p at *
        have done : ∀ o, NamesOpt F ('-' :: '-' :: p) o →
            k = .opt (some o) false (if hasChar '=' r then some (true, (r.dropWhile (· != '=')).drop 1) else none) → WordIs F ('-' :: '-' :: r) k := by
          intro o hn hk
          rcases split with ⟨h1, h2⟩ | ⟨h1, h2⟩
          · rw [h1] at hk
            subst h2
            rw [hk]
            exact .long _ _ hn
          · rw [h1, if_pos rfl] at hk
            rw [hk]
            have := WordIs.longEq (F := F) p o ((r.dropWhile (· != '=')).drop 1) hn
            rw [List.cons_append, List.cons_append, ← h2] at this
            exact this
        have long : ∀ t o, Dict.get? ('-' :: '-' :: t) (optTable F) = some o → NamesOpt F ('-' :: '-' :: t) o ∧ '=' ∉ t := by
          intro t o hg
          obtain ⟨x, hx, rfl, e | e⟩ := (table_get hF).mp hg
          · simp at e; exact absurd e.1.symm (hF.dash x hx).1
          · simp at e; subst e; exact ⟨.long x.1 _ _ hx, (hF.dash x hx).2.2⟩
        unfold parseOptional at h
        rw [if_neg (by simp)] at h
        cases hg : Dict.get? ('-' :: '-' :: r) (optTable F) with
        | some o =>
          rw [hg] at h
          cases h
          exact .long _ _ (long _ _ hg).1
        | none =>
          rw [hg] at h
          simp only [List.length_cons, Nat.add_eq_right, Nat.add_eq_zero_iff, Nat.one_ne_zero, and_false, if_false] at h
          rw [e1, e2, e3] at h
          cases hg2 : (if hasChar '=' r = true then Dict.get? ('-' :: '-' :: p) (optTable F) else none) with
          | some o =>
            rw [hg2] at h
            by_cases hc : hasChar '=' r = true
            · rw [if_pos hc] at hg2
              refine done o (long _ _ hg2).1 ?_
              rw [if_pos hc]
              exact (Option.some.inj h).symm
            · rw [if_neg hc] at hg2; cases hg2
          | none =>
            rw [hg2] at h
            simp only at h
            cases ht : optionTuples (optTable F) ('-' :: '-' :: r) with
            | nil =>
              rw [ht] at h
              refine fin ht ⟨?_, ?_⟩ h
              · intro x hx hpre
                simp at hpre
                exact (hF.dash x hx).1 hpre
              · intro _ x hx hpre
                rw [e1] at hpre
                rw [tuples_long hF, List.filterMap_eq_nil_iff] at ht
                have := ht x hx
                rw [hp, if_pos (by simpa using hpre)] at this
                cases this
            | cons k1 ks =>
              cases ks with
              | cons k2 ks => rw [ht] at h; cases h
              | nil =>
                rw [ht] at h
                cases h
                rw [tuples_long hF, hp] at ht
                obtain ⟨x, hx, h1, h2⟩ := filterMap_single_inv ht
                by_cases hpx : p <+: x.2.1
                · rw [if_pos hpx] at h1
                  refine done x.2.2 (.abbreviation x.1 x.2.1 x.2.2 p hx hpx ?_) (Option.some.inj h1).symm
                  intro y hy hpy
                  exact h2 y hy (by rw [if_pos hpy]; simp)
                · rw [if_neg hpx] at h1; cases h1
      · by_cases hx : ∃ x ∈ F, x.1 = d
        · obtain ⟨⟨c, l, o⟩, hx, rfl⟩ := hx
          rw [parse_short hF hx] at h
          cases h
          exact .short _ _ _ _ hx
        · have hshort : ∀ x ∈ F, x.1 ≠ d := fun x hm e => hx ⟨x, hm, e⟩
          have ht : ∀ t : Str, Dict.get? ('-' :: d :: t) (optTable F) = none := by
            intro t
            apply table_none hF
            intro x hx
            refine ⟨?_, ?_⟩
            · intro e; simp at e; exact hshort x hx e.1.symm
            · intro e; simp at e; exact hd e.1
          have e1 : Dict.get? (('-' :: d :: r).takeWhile (· != '=')) (optTable F) = none := by
            by_cases he : d = '='
            · subst he
              have : ('-' :: '=' :: r).takeWhile (· != '=') = ['-'] := by simp
              rw [this]
              exact table_none hF (fun x hx => ⟨by simp, by simp⟩)
            · have : ('-' :: d :: r).takeWhile (· != '=') = '-' :: d :: r.takeWhile (· != '=') := by simp [he]
              rw [this, ht]
          have e2 : optionTuples (optTable F) ('-' :: d :: r) = [] := by
            rw [tuples_short hF hd, List.filterMap_eq_nil_iff]
            intro x hx
            rw [if_neg (hshort x hx)]
          unfold parseOptional at h
          rw [if_neg (by simp), ht] at h
          simp only [List.length_cons, Nat.add_eq_right, Nat.add_eq_zero_iff, Nat.one_ne_zero, and_false, if_false] at h
          rw [e1, e2] at h
          simp only [ite_self] at h
          refine fin e2 ⟨?_, ?_⟩ h
          · intro x hx hpre
            simp at hpre
            exact hshort x hx hpre
          · intro hpre
            simp at hpre
            exact absurd hpre.symm hd
  · have hi : IsArg F w := Or.inl hh
    rw [(isArg_parse hF hi).2] at h
    cases h
    exact .arg _ hi

/-! ### Arguments of an option -/

/-- The words do not begin with an argument. -/
def NoArgHead : List (Str × WordKind) → Prop
  | (_, .arg) :: _ => False
  | _ => True

def asArgs (vs : List Str) : List (Str × WordKind) := vs.map (fun v => (v, .arg))

theorem nargs_zero {o : Opt} : o.nargs = .zero ↔ Flag o := by cases o <;> simp [Opt.nargs, Flag]

theorem takeWhile_asArgs {vs : List Str} {rest : List (Str × WordKind)} (h : NoArgHead rest) :
    (asArgs vs ++ rest).takeWhile (fun w => w.2 == .arg) = asArgs vs ∧ (asArgs vs ++ rest).dropWhile (fun w => w.2 == .arg) = rest := by
  induction vs with
  | nil =>
    cases rest with
    | nil => exact ⟨rfl, rfl⟩
    | cons x xs =>
      obtain ⟨s, k⟩ := x
      have hk : (k == WordKind.arg) = false := by
        cases k <;> first | exact absurd h id | rfl
      show (List.takeWhile _ ((s, k) :: xs) = []) ∧ (List.dropWhile _ ((s, k) :: xs) = _)
      rw [List.takeWhile_cons, List.dropWhile_cons]
      simp [hk]
  | cons v vs ih =>
    show (List.takeWhile _ ((v, .arg) :: (asArgs vs ++ rest)) = (v, .arg) :: asArgs vs) ∧ (List.dropWhile _ ((v, .arg) :: (asArgs vs ++ rest)) = _)
    rw [List.takeWhile_cons, List.dropWhile_cons]
    have hk : ((WordKind.arg) == WordKind.arg) = true := by decide
    simp only [hk, if_true]
    exact ⟨by rw [ih.1], ih.2⟩

theorem map_asArgs (vs : List Str) : (asArgs vs).map (·.1) = vs := by
  unfold asArgs; rw [List.map_map]; exact List.map_id' vs

theorem takeArgs_args {o : Opt} {vs : List Str} {rest : List (Str × WordKind)} (h : ArgCount o vs.length) (hr : NoArgHead rest) :
    takeArgs o (asArgs vs ++ rest) = some (vs, rest) := by
  unfold takeArgs
  rcases h with ⟨h, hn⟩ | ⟨h, hn⟩ | ⟨h, hn⟩
  · rw [nargs_zero.mpr h]
    cases vs with
    | nil => rfl
    | cons v vs => simp at hn
  · have : o.nargs = .one := by rcases h with rfl | rfl | rfl <;> rfl
    rw [this]
    match vs, hn with
    | [v], _ => rfl
  · have : o.nargs = .some := by rcases h with rfl | rfl <;> rfl
    rw [this]
    obtain ⟨h1, h2⟩ := takeWhile_asArgs (vs := vs) hr
    simp only [h1, h2, map_asArgs]
    cases vs with
    | nil => simp at hn
    | cons v vs => rfl

/-- Classified words; behind `--` anything. -/
inductive Tagged (F : OptNames) : List (Str × WordKind) → Prop
  | nil : Tagged F []
  | word (w : Str) (k : WordKind) (ks : List (Str × WordKind)) : WordIs F w k → Tagged F ks → Tagged F ((w, k) :: ks)
  | dashes (w : Str) (ks : List (Str × WordKind)) : Tagged F ((w, .dashes) :: ks)

theorem tagged_arg {F : OptNames} {w : Str} {ks : List (Str × WordKind)} (h : Tagged F ((w, .arg) :: ks)) : IsArg F w ∧ Tagged F ks := by
  cases h with
  | word _ _ _ h1 h2 => cases h1 with | arg _ h1 => exact ⟨h1, h2⟩

theorem takeWhile_tagged {F : OptNames} {ks : List (Str × WordKind)} (h : Tagged F ks) :
    ∃ vs, ks.takeWhile (fun w => w.2 == .arg) = asArgs vs ∧ (∀ v ∈ vs, IsArg F v) ∧ Tagged F (ks.dropWhile (fun w => w.2 == .arg)) := by
  induction ks with
  | nil => exact ⟨[], rfl, by simp, h⟩
  | cons x xs ih =>
    obtain ⟨s, k⟩ := x
    rw [List.takeWhile_cons, List.dropWhile_cons]
    by_cases hk : k = .arg
    · subst hk
      obtain ⟨h1, h2⟩ := tagged_arg h
      obtain ⟨vs, h3, h4, h5⟩ := ih h2
      have hk : ((WordKind.arg) == WordKind.arg) = true := by decide
      simp only [hk, if_true]
      refine ⟨s :: vs, by rw [h3]; rfl, ?_, h5⟩
      intro v hv
      rcases List.mem_cons.mp hv with rfl | hv
      · exact h1
      · exact h4 v hv
    · have hk' : (k == WordKind.arg) = false := by
        cases k <;> first | exact absurd rfl hk | rfl
      simp only [hk']
      exact ⟨[], rfl, by simp, by simpa using h⟩

theorem takeArgs_inv {F : OptNames} {o : Opt} {rest r : List (Str × WordKind)} {vs : List Str} (ht : Tagged F rest)
    (h : takeArgs o rest = some (vs, r)) : rest = asArgs vs ++ r ∧ ArgCount o vs.length ∧ (∀ v ∈ vs, IsArg F v) ∧ Tagged F r := by
  unfold takeArgs at h
  cases hn : o.nargs with
  | zero =>
    rw [hn] at h
    cases h
    exact ⟨rfl, Or.inl ⟨nargs_zero.mp hn, rfl⟩, by simp, ht⟩
  | one =>
    rw [hn] at h
    simp only at h
    split at h
    · rename_i s r'
      cases h
      obtain ⟨h1, h2⟩ := tagged_arg ht
      refine ⟨rfl, Or.inr (Or.inl ⟨?_, rfl⟩), by simpa using h1, h2⟩
      cases o <;> simp [Opt.nargs] at hn ⊢
    · cases h
  | some =>
    rw [hn] at h
    simp only at h
    obtain ⟨us, h1, h2, h3⟩ := takeWhile_tagged ht
    rw [h1] at h
    by_cases he : (asArgs us).isEmpty = true
    · rw [if_pos he] at h; cases h
    · rw [if_neg he, map_asArgs] at h
      cases h
      refine ⟨?_, Or.inr (Or.inr ⟨?_, ?_⟩), h2, h3⟩
      · rw [← h1, List.takeWhile_append_dropWhile]
      · cases o <;> simp [Opt.nargs] at hn ⊢
      · cases vs with
        | nil => exact absurd rfl he
        | cons v vs => simp

/-! ### One item -/

theorem consume_chain {F : OptNames} (hF : NamesOK F) {o o' : Opt} {d : Char} {l r : Str} (hf : Flag o) (hd : (d, l, o') ∈ F) (rest : List (Str × WordKind)) :
    consumeOptional (optTable F) o true (some (false, d :: r)) rest =
      (consumeOptional (optTable F) o' true (tailArg r) rest).map (fun c => ⟨(o, []) :: c.actions, c.rest, c.extra⟩) := by
  have hz := nargs_zero.mpr hf
  obtain ⟨hd1, _, _⟩ := hF.dash _ hd
  simp only at hd1
  have hg : Dict.get? ['-', d] (optTable F) = some o' := (table_get hF).mpr ⟨_, hd, rfl, Or.inl rfl⟩
  have key : ∀ (b : Bool) (e : Str), (match (chainOptions (optTable F) o' true b e).map (fun x => (o :: x.1, x.2)) with
      | none => none
      | some (os, .value o' v) => some (Consumed.mk (os.map (fun o => (o, [])) ++ [(o', [v])]) rest false)
      | some (os, .extra) => some ⟨os.map (fun o => (o, [])), rest, true⟩
      | some (os, .follow o') => (takeArgs o' rest).map (fun x => ⟨os.map (fun o => (o, [])) ++ [(o', x.1)], x.2, false⟩)) =
      (consumeOptional (optTable F) o' true (some (b, e)) rest).map (fun c => ⟨(o, []) :: c.actions, c.rest, c.extra⟩) := by
    intro b e
    simp only [consumeOptional]
    cases chainOptions (optTable F) o' true b e with
    | none => rfl
    | some x =>
      obtain ⟨os, c⟩ := x
      cases c with
      | value o1 v => rfl
      | extra => rfl
      | follow o1 => simp only [Option.map_some, Option.map_map]; rfl
  cases r with
  | nil =>
    simp only [consumeOptional, chainOptions, hz, ne_eq, not_true_eq_false, if_false, hg, tailArg]
    rw [if_neg (by simpa using hd1)]
    simp only [Option.map_map]
    rfl
  | cons d' r' =>
    rw [tailArg_cons]
    by_cases he : d' = '='
    · rw [if_pos he, ← key]
      simp only [consumeOptional]
      conv => lhs; unfold chainOptions
      simp only [hz, ne_eq, not_true_eq_false, if_false, hg]
      rw [if_neg (by simpa using hd1), if_pos he]
      rfl
    · rw [if_neg he, ← key]
      simp only [consumeOptional]
      conv => lhs; unfold chainOptions
      simp only [hz, ne_eq, not_true_eq_false, if_false, hg]
      rw [if_neg (by simpa using hd1), if_neg he]
      rfl

theorem chain_value {T : OptTable} {o : Opt} {single eq : Bool} {v : Str} (h : ¬ Flag o) : chainOptions T o single eq v = some ([], .value o v) := by
  have hz : o.nargs ≠ .zero := fun e => h (nargs_zero.mp e)
  cases v with
  | nil => unfold chainOptions; rw [if_neg hz]
  | cons c v => unfold chainOptions; rw [if_pos hz]

theorem consume_value {T : OptTable} {o : Opt} {single eq : Bool} {v : Str} {rest : List (Str × WordKind)} (h : ¬ Flag o) :
    consumeOptional T o single (some (eq, v)) rest = some ⟨[(o, [v])], rest, false⟩ := by
  simp only [consumeOptional, chain_value h]; rfl

theorem consume_apart {T : OptTable} {o : Opt} {single : Bool} {vs : List Str} {rest : List (Str × WordKind)} (h : ArgCount o vs.length) (hr : NoArgHead rest) :
    consumeOptional T o single none (asArgs vs ++ rest) = some ⟨[(o, vs)], rest, false⟩ := by
  simp only [consumeOptional, takeArgs_args h hr]; rfl

theorem namesOpt_cases {F : OptNames} {w : Str} {o : Opt} (h : NamesOpt F w o) :
    (∃ c l, (c, l, o) ∈ F ∧ w = ['-', c]) ∨ (∃ p, w = '-' :: '-' :: p) := by
  cases h with
  | short c l _ h => exact Or.inl ⟨c, l, h, rfl⟩
  | long c l _ h => exact Or.inr ⟨_, rfl⟩
  | abbreviation c l _ p h _ _ => exact Or.inr ⟨_, rfl⟩

theorem item_consume {F : OptNames} (hF : NamesOK F) {ws : List Str} {gs : List (Opt × List Str)} (h : CmdItem F ws gs) :
    ∃ w vs o s ex, ws = w :: vs ∧ w ≠ c!"--" ∧ parseOptional (optTable F) w = some (.opt (some o) s ex) ∧ (∀ v ∈ vs, IsArg F v) ∧
      ∀ rest, NoArgHead rest → consumeOptional (optTable F) o s ex (asArgs vs ++ rest) = some ⟨gs, rest, false⟩ := by
  induction h with
  | apart w o vs h1 h2 h3 =>
    rcases namesOpt_cases h1 with ⟨c, l, hm, rfl⟩ | ⟨p, rfl⟩
    · refine ⟨_, vs, o, true, none, rfl, ?_, parse_short hF hm [], h3, fun rest hr => consume_apart h2 hr⟩
      intro e; simp at e; exact (hF.dash _ hm).1 e
    · obtain ⟨h4, _, h5, _⟩ := parse_long hF h1
      exact ⟨_, vs, o, false, none, rfl, by simpa using h4, h5, h3, fun rest hr => consume_apart h2 hr⟩
  | equals w o v h1 h2 =>
    rcases namesOpt_cases h1 with ⟨c, l, hm, rfl⟩ | ⟨p, rfl⟩
    · exact ⟨_, [], o, true, some (true, v), rfl, by simp, parse_short hF hm ('=' :: v), by simp, fun rest hr => consume_value h2⟩
    · obtain ⟨h4, _, _, h5⟩ := parse_long hF h1
      exact ⟨_, [], o, false, some (true, v), rfl, by simp, h5 v, by simp, fun rest hr => consume_value h2⟩
  | glued c l o v h1 h2 h3 h4 =>
    refine ⟨_, [], o, true, some (false, v), rfl, ?_, ?_, by simp, fun rest hr => consume_value h2⟩
    · intro e; simp at e; exact (hF.dash _ h1).1 e.1
    · rw [parse_short hF h1]
      cases v with
      | nil => exact absurd rfl h3
      | cons d v => rw [tailArg_cons]; rw [if_neg (by simpa using h4)]
  | flag c l o r ws gs h1 h2 h3 h4 ih =>
    obtain ⟨w, vs, o', s, ex, e, h5, h6, h7, h8⟩ := ih
    simp only [List.cons.injEq] at e
    obtain ⟨rfl, rfl⟩ := e
    generalize hw : '-' :: r = w at *
    generalize hk : WordKind.opt (some o') s ex = k at *
    have := parse_word hF h5 h6
    cases this with
    | arg _ _ => cases hk
    | unknown _ _ => cases hk
    | short c' l' o2 r' hm =>
      cases hk
      simp only [List.cons.injEq, true_and] at hw
      subst hw
      refine ⟨_, ws, o, true, some (false, c' :: r'), rfl, ?_, ?_, h7, ?_⟩
      · intro e; simp at e
      · rw [parse_short hF h1]
        rw [tailArg_cons]
        rw [if_neg (hF.dash _ hm).2.1]
      · intro rest hr
        rw [consume_chain hF h2 hm, h8 rest hr]
        rfl
    | long p o2 _ => simp at hw; rw [hw] at h3; simp at h3
    | longEq p o2 v _ => simp at hw; rw [hw] at h3; simp at h3

theorem item_of_consume {F : OptNames} (hF : NamesOK F) {w : Str} {o : Opt} {s : Bool} {ex : Option (Bool × Str)} {rest : List (Str × WordKind)}
    {c : Consumed} (hw : WordIs F w (.opt (some o) s ex)) (ht : Tagged F rest) (h : consumeOptional (optTable F) o s ex rest = some c)
    (hx : c.extra = false) : ∃ vs, rest = asArgs vs ++ c.rest ∧ CmdItem F (w :: vs) c.actions ∧ Tagged F c.rest := by
  have apart : ∀ {w o s c}, NamesOpt F w o → consumeOptional (optTable F) o s none rest = some c →
      ∃ vs, rest = asArgs vs ++ c.rest ∧ CmdItem F (w :: vs) c.actions ∧ Tagged F c.rest := by
    intro w o s c hn h
    simp only [consumeOptional] at h
    cases ha : takeArgs o rest with
    | none => rw [ha] at h; cases h
    | some x =>
      obtain ⟨vs, r⟩ := x
      rw [ha] at h
      cases h
      obtain ⟨h1, h2, h3, h4⟩ := takeArgs_inv ht ha
      exact ⟨vs, h1, .apart w o vs hn h2 h3, h4⟩
  have equals : ∀ {w o s v c}, NamesOpt F w o → consumeOptional (optTable F) o s (some (true, v)) rest = some c →
      ∃ vs, rest = asArgs vs ++ c.rest ∧ CmdItem F ((w ++ '=' :: v) :: vs) c.actions ∧ Tagged F c.rest := by
    intro w o s v c hn h
    by_cases hf : Flag o
    · exfalso
      have hz := nargs_zero.mpr hf
      cases v <;> simp [consumeOptional, chainOptions, hz] at h
    · rw [consume_value hf] at h
      cases h
      exact ⟨[], rfl, .equals w o v hn hf, ht⟩
  generalize hk : WordKind.opt (some o) s ex = k at hw
  cases hw with
  | arg _ _ => cases hk
  | unknown _ _ => cases hk
  | long p o2 hn => cases hk; exact apart hn h
  | longEq p o2 v hn => cases hk; exact equals hn h
  | short d l o2 r hm =>
    cases hk
    induction r generalizing d l o c with
    | nil => exact apart (.short d l o hm) h
    | cons d' r ih =>
      rw [tailArg_cons] at h
      by_cases he : d' = '='
      · rw [if_pos he] at h
        subst he
        exact equals (.short d l o hm) h
      · rw [if_neg he] at h
        by_cases hf : Flag o
        · have hz := nargs_zero.mpr hf
          by_cases hd' : d' = '-'
          · exfalso
            subst hd'
            simp [consumeOptional, chainOptions, hz] at h
          · cases hg : Dict.get? ['-', d'] (optTable F) with
            | none =>
              exfalso
              simp only [consumeOptional, chainOptions, hz, ne_eq, not_true_eq_false, if_false, hg] at h
              rw [if_neg (by simpa using hd')] at h
              cases h
              cases hx
            | some o' =>
              obtain ⟨x, hxm, rfl, e | e⟩ := (table_get hF).mp hg
              · simp at e
                subst e
                rw [consume_chain hF hf hxm] at h
                cases hc : consumeOptional (optTable F) x.2.2 true (tailArg r) rest with
                | none => rw [hc] at h; cases h
                | some c' =>
                  rw [hc] at h
                  cases h
                  obtain ⟨vs, h1, h2, h3⟩ := ih (c := c') hx x.1 x.2.1 hxm hc
                  exact ⟨vs, h1, .flag d l o _ vs _ hm hf (by simpa using hd') h2, h3⟩
              · simp at e
                exact absurd e.1 hd'
        · rw [consume_value hf] at h
          cases h
          exact ⟨[], rfl, .glued d l o _ hm hf (by simp) (by simpa using he), ht⟩

end OsUrl
