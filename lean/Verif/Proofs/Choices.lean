import Verif.Spec.Choices
import Verif.Spec.Listed
import Verif.Proofs.OneMatch
import Verif.Props.C90

/-! Lemmas on the patterns of pieces of one class and on choices of one of them for every piece. -/

namespace OsUrl
open Spec

/-- The units of the patterns of a piece of one space. -/
def pieceUnits (sp : Space) (s : Str) : List (List GUnit) :=
  if s = [] then [[]]
  else if sp = .sign '\\' then []
  else if sp.isSign then [[.run sp s], [.wild [sp]]] else [[.run sp s], [.cls [sp] s.length], [.wild [sp]]]

theorem pieceTexts_units {sp : Space} {s : Str} (hsp : ∀ c ∈ s, space? c = some sp) : pieceTexts s = (pieceUnits sp s).map patText := by
  unfold pieceTexts pieceUnits
  cases s with
  | nil => simp [patText]
  | cons c s =>
    simp only [hsp c (by simp), List.cons_ne_nil, if_false]
    by_cases hb : sp = .sign '\\'
    · simp [hb]
    · by_cases hs : sp.isSign = true
      · simp [hb, hs, patText, GUnit.text, runText]
      · simp [hb, hs, patText, GUnit.text, runText]

theorem kind_run (lp : Bool) (sp : Space) (w : Str) : kind lp [.run sp w] = .literal := by simp [kind, GUnit.rank]
theorem kind_wild_one (lp : Bool) (R : List Space) : kind lp [.wild R] = .wild := by simp [kind, GUnit.rank]
theorem kind_cls_one (lp : Bool) {sp : Space} (n : Nat) (h : sp.isSign = false) : kind lp [.cls [sp] n] = .length := by
  cases sp with
  | sign c => cases h
  | _ => simp [kind, GUnit.rank]

/-- These patterns can be read back and are found for the piece. -/
theorem units_found {sp : Space} {s : Str} (hsp : ∀ c ∈ s, space? c = some sp) (lp : Bool) :
    ∀ us ∈ pieceUnits sp s, Generated us ∧ Matches lp us s := by
  intro us hus
  unfold pieceUnits at hus
  split at hus
  · rename_i h0
    rw [List.mem_singleton] at hus
    subst hus; subst h0
    exact ⟨⟨by simp, by intro a x y b e; simp at e, by simp⟩, [], ⟨[], ⟨rfl, by simp, by simp, by intro a x y b e; simp at e⟩, rfl⟩, trivial⟩
  rename_i hne
  split at hus
  · cases hus
  rename_i hbs
  have hr : Runs s [(sp, s)] := by
    refine ⟨by simp, by simpa using hne, by simpa using hsp, ?_⟩
    intro a x y b e
    have := congrArg List.length e
    simp at this
    omega
  obtain ⟨c, hc⟩ := List.exists_mem_of_ne_nil _ hne
  have hv := space_valid (hsp c hc)
  have hcls : IsClass [sp] := ⟨⟨by simp, by simpa using hv, by simp⟩, by simpa using hbs⟩
  have gen : ∀ u : GUnit, u.Valid → Generated [u] := fun u hu =>
    ⟨by simpa using hu, by intro a x y b e; have := congrArg List.length e; simp at this; omega, by simp⟩
  have hspaces : SpacesOf s [sp] := by
    intro x
    constructor
    · intro hx
      rw [List.mem_singleton] at hx
      subst hx
      exact ⟨c, hc, hsp c hc⟩
    · rintro ⟨d, hd, e⟩
      rw [hsp d hd] at e
      injection e with e
      simp [e]
  have hm : sp.isSign = false → measured s = s.length := by
    intro hs
    apply measured_plain
    intro hx
    have h1 := hsp _ hx
    have h2 : space? '\\' = some (.sign '\\') := by decide
    rw [h2] at h1
    injection h1 with h1
    subst h1
    cases hs
  have c1 : Generated [.run sp s] ∧ Matches lp [.run sp s] s := by
    refine ⟨gen _ ⟨hne, hbs, hsp⟩, [s], ?_, rfl, trivial⟩
    rw [kind_run]
    exact ⟨_, hr, rfl⟩
  have c3 : Generated [.wild [sp]] ∧ Matches lp [.wild [sp]] s := by
    refine ⟨gen _ hcls, [s], ?_, hspaces, trivial⟩
    rw [kind_wild_one]
    rfl
  split at hus
  · simp only [List.mem_cons, List.not_mem_nil, or_false] at hus
    rcases hus with rfl | rfl
    · exact c1
    · exact c3
  · rename_i hs
    have hs' : sp.isSign = false := by simpa using hs
    simp only [List.mem_cons, List.not_mem_nil, or_false] at hus
    rcases hus with rfl | rfl | rfl
    · exact c1
    · refine ⟨gen _ ⟨hcls, List.length_pos_iff.mpr hne⟩, [s], ?_, ⟨hspaces, hm hs'⟩, trivial⟩
      rw [kind_cls_one _ _ hs']
      rfl
    · exact c3

/-- No other pattern is found for the piece. -/
theorem found_units {sp : Space} {s : Str} (hsp : ∀ c ∈ s, space? c = some sp) {lp : Bool} {us : List GUnit} (hg : Generated us) (h : Matches lp us s) :
    patText us ∈ pieceTexts s := by
  rw [pieceTexts_units hsp]
  rcases match_one hg h hsp with ⟨rfl, rfl⟩ | ⟨hne, u, rfl, hu⟩
  · simp [pieceUnits]
  have hv := hg.valid u (by simp)
  obtain ⟨c, hc⟩ := List.exists_mem_of_ne_nil _ hne
  have hbs : sp ≠ .sign '\\' := by
    rintro rfl
    have hcb := space_sign (hsp c hc)
    exact no_match_backslash hg ⟨_, hsp⟩ (hcb ▸ hc) h
  unfold pieceUnits
  rw [if_neg hne, if_neg hbs]
  have e1 : ∀ v : GUnit, patText [v] = v.text := fun v => by simp [patText]
  cases u with
  | run sp' w =>
    obtain rfl : s = w := hu
    have := (hv.2.2 c hc).symm.trans (hsp c hc)
    injection this with this
    subst this
    split <;> simp
  | cls R n =>
    obtain ⟨h1, h2⟩ := hu
    have hR := spacesOf_one hne hsp h1 hv.1.toWrittenClass
    subst hR
    have hm : measured s = s.length := by
      apply measured_plain
      intro hx
      have h3 := (hsp _ hx).symm.trans (show space? '\\' = some (.sign '\\') by decide)
      injection h3 with h3
      exact hbs h3
    rw [hm] at h2
    subst h2
    by_cases hs : sp.isSign = true
    · rw [if_pos hs]
      refine List.mem_map.mpr ⟨[.run sp s], by simp, ?_⟩
      rw [e1, e1]
      simp [GUnit.text, runText, hs]
    · rw [if_neg hs]
      exact List.mem_map_of_mem (by simp)
  | wild R =>
    have hR := spacesOf_one hne hsp hu hv.toWrittenClass
    subst hR
    split <;> exact List.mem_map_of_mem (by simp)

/-- The first of two texts is more special. -/
def TextBefore (lp : Bool) (x y : Str) : Prop :=
  ∃ us vs, Generated us ∧ Generated vs ∧ x = patText us ∧ y = patText vs ∧ ListedBefore lp us vs ∧ MoreGeneral lp vs us

theorem texts_order {sp : Space} {s : Str} (hsp : ∀ c ∈ s, space? c = some sp) (lp : Bool) : (pieceTexts s).Pairwise (TextBefore lp) := by
  rw [pieceTexts_units hsp, List.pairwise_map]
  have hgen := fun us hus => (units_found hsp lp us hus).1
  have : (pieceUnits sp s).Pairwise (fun us vs => (kind lp us).rank < (kind lp vs).rank) := by
    unfold pieceUnits
    split
    · simp
    split
    · simp
    split
    · simp [kind_run, kind_wild_one, Kind.rank]
    · rename_i hs
      simp [kind_run, kind_wild_one, kind_cls_one lp _ (by simpa using hs : sp.isSign = false), Kind.rank]
  refine List.Pairwise.imp_of_mem ?_ this
  intro us vs hus hvs h
  exact ⟨us, vs, hgen us hus, hgen vs hvs, rfl, rfl, .inl h, .inl h⟩

/-! ### choices -/

/-- One element of every list. -/
def Choose : List Str → List (List Str) → Prop
  | [], [] => True
  | x :: xs, l :: ls => x ∈ l ∧ Choose xs ls
  | _, _ => False

theorem mem_first : ∀ (ls : List (List Str)) (xs : List Str), xs ∈ firstChoices ls ↔ Choose xs ls
  | [], xs => by cases xs <;> simp [firstChoices, Choose]
  | l :: ls, [] => by simp [firstChoices, Choose]
  | l :: ls, x :: xs => by
    simp only [firstChoices, List.mem_flatMap, List.mem_map, Choose, ← mem_first ls]
    constructor
    · rintro ⟨a, ha, b, hb, e⟩
      cases e
      exact ⟨ha, hb⟩
    · rintro ⟨ha, hb⟩
      exact ⟨x, ha, xs, hb, rfl⟩

theorem mem_last : ∀ (ls : List (List Str)) (xs : List Str), xs ∈ lastChoices ls ↔ Choose xs ls
  | [], xs => by cases xs <;> simp [lastChoices, Choose]
  | l :: ls, [] => by simp [lastChoices, Choose]
  | l :: ls, x :: xs => by
    simp only [lastChoices, List.mem_flatMap, List.mem_map, Choose, ← mem_last ls]
    constructor
    · rintro ⟨a, ha, b, hb, e⟩
      cases e
      exact ⟨hb, ha⟩
    · rintro ⟨ha, hb⟩
      exact ⟨xs, hb, x, ha, rfl⟩

theorem first_order (T : Nat → Str → Str → Prop) : ∀ (ls : List (List Str)) (k : Nat), (∀ l ∈ ls, ∀ i, l.Pairwise (T i)) →
    (firstChoices ls).Pairwise (fun xs ys => ∃ a c d x y, xs = a ++ x :: c ∧ ys = a ++ y :: d ∧ T (k + a.length) x y)
  | [], k, _ => by simp [firstChoices]
  | l :: ls, k, h => by
    unfold firstChoices
    rw [List.pairwise_flatMap]
    constructor
    · intro x _
      rw [List.pairwise_map]
      refine (first_order T ls (k + 1) (fun l hl => h l (by simp [hl]))).imp ?_
      rintro xs ys ⟨a, c, d, p, q, rfl, rfl, ht⟩
      refine ⟨x :: a, c, d, p, q, rfl, rfl, ?_⟩
      rw [List.length_cons, show k + (a.length + 1) = k + 1 + a.length by omega]
      exact ht
    · refine (h l (by simp) k).imp ?_
      intro x y ht p hp q hq
      obtain ⟨xs, -, rfl⟩ := List.mem_map.mp hp
      obtain ⟨ys, -, rfl⟩ := List.mem_map.mp hq
      exact ⟨[], xs, ys, x, y, rfl, rfl, ht⟩

theorem last_order (T : Nat → Str → Str → Prop) : ∀ (ls : List (List Str)) (k : Nat), (∀ l ∈ ls, ∀ i, l.Pairwise (T i)) →
    (lastChoices ls).Pairwise (fun xs ys => ∃ a b c x y, xs = a ++ x :: c ∧ ys = b ++ y :: c ∧ a.length = b.length ∧ T (k + a.length) x y)
  | [], k, _ => by simp [lastChoices]
  | l :: ls, k, h => by
    unfold lastChoices
    rw [List.pairwise_flatMap]
    constructor
    · intro xs _
      rw [List.pairwise_map]
      refine (h l (by simp) k).imp ?_
      intro x y ht
      exact ⟨[], [], xs, x, y, rfl, rfl, rfl, ht⟩
    · refine (last_order T ls (k + 1) (fun l hl => h l (by simp [hl]))).imp ?_
      rintro xs ys ⟨a, b, c, p, q, rfl, rfl, hl, ht⟩ x hx y hy
      obtain ⟨x', -, rfl⟩ := List.mem_map.mp hx
      obtain ⟨y', -, rfl⟩ := List.mem_map.mp hy
      refine ⟨x' :: a, y' :: b, c, p, q, rfl, rfl, by simp [hl], ?_⟩
      rw [List.length_cons, show k + (a.length + 1) = k + 1 + a.length by omega]
      exact ht

end OsUrl
