import Verif.Proofs.Mix

/-! # C13: `mix` merges exactly the maximal runs of mixable sub-pieces -/

namespace OsUrl
open Spec

/-- `s` is the concatenation of the set of strings `rs`, each once, in increasing order. -/
def SortedUnion (rs : List Str) (s : Str) : Prop :=
  ∃ L : List Str, L.Pairwise (fun a b => strLt a b = true) ∧ (∀ r, r ∈ L ↔ r ∈ rs) ∧ s = L.flatten

/-- **C13**: the result of `mix` is the grouping into unmixable singles and maximal mixable runs;
the text of a group is the concatenation of its sub-pieces and its rule the sorted union of its
rules. -/
theorem C13_mix (pieces rules : List Str) :
    ∃ gs, Grouping (pieces.zip rules) gs ∧
      (mix pieces rules).1 = gs.map (fun g => (g.map Prod.fst).flatten) ∧
      (mix pieces rules).2.length = gs.length ∧
      ∀ gr ∈ gs.zip (mix pieces rules).2, SortedUnion (gr.1.map Prod.snd) gr.2 := by
  obtain ⟨gs, hg, e⟩ := mix_groups pieces rules
  refine ⟨gs, hg, by rw [e]; rfl, by rw [e]; simp, ?_⟩
  rw [e]
  intro gr hgr
  have : gr.2 = groupRule gr.1 := by
    simp only [List.zip_map_right, List.mem_map] at hgr
    obtain ⟨x, hx, rfl⟩ := hgr
    have hxx : x.1 = x.2 := by
      clear e hg
      induction gs with
      | nil => simp at hx
      | cons g gs ih =>
        simp at hx
        rcases hx with rfl | hx
        · rfl
        · exact ih hx
    simp [hxx]
  exact ⟨sortedSet (gr.1.map Prod.snd), ssorted_sortedSet _, fun r => mem_sortedSet, by rw [this]; rfl⟩

/-- **C13**: the rule of an unmixable single group is its own rule. -/
theorem C13_single_rule {r s : Str} (h : SortedUnion [r] s) : s = r := by
  obtain ⟨L, h1, h2, rfl⟩ := h
  have : L = [r] := ssorted_ext h1 (by simp [SSorted]) h2
  simp [this]

/-- **C13**: no text is lost. -/
theorem C13_concat (pieces rules : List Str) (h : pieces.length = rules.length) :
    (mix pieces rules).1.flatten = pieces.flatten := by
  obtain ⟨gs, hg, e, -⟩ := C13_mix pieces rules
  rw [e]
  have h1 : (gs.map (fun g => (g.map Prod.fst).flatten)).flatten = (gs.flatten.map Prod.fst).flatten := by
    clear e hg
    induction gs with
    | nil => rfl
    | cons g gs ih => simp [ih]
  rw [h1, hg.concat, List.map_fst_zip (by omega)]

/-- **C13**: the grouping is determined by the input. -/
theorem C13_grouping_unique {prs : List (Str × Str)} {gs hs : List (List (Str × Str))}
    (h1 : Grouping prs gs) (h2 : Grouping prs hs) : gs = hs := by
  induction gs generalizing prs hs with
  | nil =>
    cases hs with
    | nil => rfl
    | cons k ks =>
      have := h1.concat; have := h2.concat
      have hk := (h2.good k (by simp)).1
      simp_all
  | cons g gs ih =>
    cases hs with
    | nil =>
      have := h1.concat; have := h2.concat
      have hk := (h1.good g (by simp)).1
      simp_all
    | cons k ks =>
      have tail : ∀ {prs a as}, Grouping prs (a :: as) → Grouping as.flatten as := by
        intro prs a as h
        refine ⟨rfl, fun g hg => h.good g (by simp [hg]), ?_⟩
        intro u x y v e
        exact h.maximal (a :: u) x y v (by simp [e])
      have key : ∀ {g k : List (Str × Str)} {gs ks : List (List (Str × Str))} {prs},
          Grouping prs (g :: gs) → Grouping prs (k :: ks) → g.length ≤ k.length := by
        intro g k gs ks prs h1 h2
        rcases Nat.lt_or_ge k.length g.length with hlt | hge
        · exfalso
          have e : g ++ gs.flatten = k ++ ks.flatten := by
            have a := h1.concat; have b := h2.concat
            simp at a b; rw [a, b]
          have hkne := (h2.good k (by simp)).1
          obtain ⟨x, xs, rfl⟩ : ∃ x xs, k = x :: xs := by
            cases k with
            | nil => exact absurd rfl hkne
            | cons x xs => exact ⟨x, xs, rfl⟩
          obtain ⟨w, hw⟩ : ∃ w, g = (x :: xs) ++ w := by
            refine ⟨g.drop (x :: xs).length, ?_⟩
            have := congrArg (List.take (x :: xs).length) e
            rw [List.take_append_of_le_length (by omega), List.take_append_of_le_length (by simp)] at this
            simp only [List.take_length] at this
            have h3 := List.take_append_drop (x :: xs).length g
            rw [this] at h3
            exact h3.symm
          have hw0 : w ≠ [] := by intro h0; subst h0; simp at hw; simp [hw] at hlt
          rcases (h1.good g (by simp)).2 with hm | ⟨pr, hpr, _⟩
          · -- g is a mixable run: k is a proper part of it, the next group of k continues it
            have e2 : w ++ gs.flatten = ks.flatten := by
              rw [hw, List.append_assoc] at e
              exact List.append_cancel_left e
            cases ks with
            | nil => simp at e2; exact hw0 e2.1
            | cons k2 ks =>
              have hmk : MixGroup (x :: xs) := fun q hq => hm q (by rw [hw]; simp at hq ⊢; grind)
              have hk2 := h2.good k2 (by simp)
              have hmk2 : MixGroup k2 := by
                rcases hk2.2 with h | ⟨pr, rfl, hn⟩
                · exact h
                · exfalso; apply hn
                  apply hm
                  rw [hw]
                  cases w with
                  | nil => exact absurd rfl hw0
                  | cons y ys => simp at e2; rw [← e2.1]; simp
              exact h2.maximal [] (x :: xs) k2 ks rfl ⟨hmk, hmk2⟩
          · rw [hpr] at hlt; simp at hlt
        · exact hge
      have hlen : g.length = k.length := Nat.le_antisymm (key h1 h2) (key h2 h1)
      have e : g ++ gs.flatten = k ++ ks.flatten := by
        have a := h1.concat; have b := h2.concat
        simp at a b; rw [a, b]
      have := List.append_inj e hlen
      rw [this.1]
      congr 1
      have t1 := tail h1
      have t2 := tail h2
      rw [← this.2] at t2
      exact ih t1 t2

example : mix [c!"a", c!"1", c!"[_]", c!"%", c!"B"] [c!"a-z", c!"0-9", c!"_", c!"%", c!"A-Z"]
    = ([c!"a1", c!"[_]", c!"%B"], [c!"0-9a-z", c!"_", c!"%A-Z"]) := by decide

end OsUrl
