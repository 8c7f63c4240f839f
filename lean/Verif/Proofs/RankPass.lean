import Verif.Proofs.Passes
import Verif.Proofs.RankDrop

/-! The number of rounds for rows of single parts. -/

namespace OsUrl
open Spec

variable {nested : NestedCluster} {mcn : Int} {m : URLMeta} {kw : Bool} {n : Nat} {OK : Nat → List ParsedPiece → Prop} {F : LevelFn}

/-- Not too deep, and not too much work: `N` rows, `B` more rounds. -/
structure Rounds (N d B : Nat) (ps : List Pass) : Prop where
  depth : ∀ p ∈ ps, p.depth ≤ d + B
  work : (ps.map (fun p => p.before.paths.length)).sum ≤ N * (B + 1)

/-- The rounds, given a bound that decreases whenever rows are split. -/
theorem passes_rounds (h : Runtime) (hL : LevelOK h nested mcn m kw (n + 1) OK F) (hmcn : 2 ≤ mcn) (hd : m.depth = n + 1)
    (Bd : Nat → List Ins → Prop)
    (hB : ∀ B L g x0, Bd B L → x0 ∈ L → g.Perm (L.filter (fun y => decide (labs F (n + 1) 0 L y = labs F (n + 1) 0 L x0))) →
      g.length < L.length → ∃ B', B = B' + 1 ∧ Bd B' g) :
    ∀ (fuel d B : Nat) (L : List Ins), Normal (n + 1) L → RowsOK OK (n + 1) L → L ≠ [] → L.length ≤ fuel →
    HashSep h F (n + 1) (L.map Ins.bare) → Bd B (L.map Ins.bare) →
    ∃ ps, passesWith nested h mcn m kw fuel d (growTree (n + 1) L) = .ok ps ∧ Rounds L.length d B ps := by
  intro fuel
  induction fuel with
  | zero =>
    intro d B L _ _ hne hlen
    have := List.length_pos_iff.mpr hne
    omega
  | succ fuel ih =>
    intro d B L hN hS hne hlen hh hbd
    obtain ⟨t', split, h1, h2, -, h3⟩ := cluster_step h hL hmcn hd L hN hS hne hh
    have hpl : (growTree (n + 1) L).paths.length = L.length := by rw [paths_growTree hne, growPaths_count hN hne]
    have hpos := List.length_pos_iff.mpr hne
    rw [passesWith, if_neg (by omega), h1]
    simp only [bind, Except.bind, pure, Except.pure]
    cases split with
    | false =>
      refine ⟨_, rfl, ?_, ?_⟩
      · simp
      · simp [hpl, Nat.mul_succ]
    | true =>
      obtain ⟨gs, h4, h5, h6⟩ := h3 rfl
      simp only [if_true, h4]
      have hlen5 : (gs.map List.length).sum = L.length := by
        have := h5.length_eq
        rwa [List.length_map, List.length_map, List.length_flatten] at this
      obtain ⟨B', rfl⟩ : ∃ B', B = B' + 1 := by
        cases hgs : gs with
        | nil => rw [hgs] at hlen5; simp at hlen5; omega
        | cons g gs' =>
          obtain ⟨a1, a2, a3, a4, a5, x0, a6, a7⟩ := h6 g (by rw [hgs]; simp)
          obtain ⟨B', e, -⟩ := hB B _ _ x0 hbd a6 a7 (by simpa using a4)
          exact ⟨B', e⟩
      obtain ⟨ps, e1, e2, e3⟩ := mapM_pairs (f := fun g : List Ins => passesWith nested h mcn m kw fuel (d + 1) (growTree (n + 1) g))
        (r := fun ps : List Pass => ps) (l := gs) (P := fun g ps => Rounds g.length (d + 1) B' ps) (by
          intro g hg
          obtain ⟨a1, a2, a3, a4, a5, x0, a6, a7⟩ := h6 g hg
          obtain ⟨B'', e, hb⟩ := hB _ _ _ x0 hbd a6 a7 (by simpa using a4)
          have : B'' = B' := by omega
          subst this
          exact ih (d + 1) B'' g a1 a2 a3 (by omega) a5 hb)
      have e4 : (gs.map (growTree (n + 1))).mapM (passesWith nested h mcn m kw fuel (d + 1)) = .ok (ps.map (·.2)) := by
        rw [List.mapM_map]; exact e2
      rw [e4]
      refine ⟨_, rfl, ?_, ?_⟩
      · intro p hp
        rw [List.mem_cons] at hp
        rcases hp with rfl | hp
        · simp
        · obtain ⟨l, hl, hp⟩ := List.mem_flatten.mp hp
          obtain ⟨q, hq, rfl⟩ := List.mem_map.mp hl
          have := (e3 q hq).depth p hp
          omega
      · have hw : ∀ ps : List (List Ins × List Pass), (∀ q ∈ ps, Rounds q.1.length (d + 1) B' q.2) →
            (((ps.map (·.2)).flatten).map (fun p => p.before.paths.length)).sum ≤ ((ps.map (·.1)).map List.length).sum * (B' + 1) := by
          intro ps
          induction ps with
          | nil => intro _; simp
          | cons q ps ihp =>
            intro hq
            have a := ihp (fun q h => hq q (by simp [h]))
            have b := (hq q (by simp)).work
            simp only [List.map_cons, List.flatten_cons, List.map_append, List.sum_append, List.sum_cons, Nat.add_mul] at a ⊢
            omega
        have := hw ps e3
        rw [e1, hlen5] at this
        simp only [List.map_cons, List.sum_cons, hpl]
        rw [Nat.mul_succ]
        omega

/-- The rows are uniform, or their patterns leave room for fewer than `B` rounds. -/
def RankBd (mcn : Int) (m : URLMeta) (kw : Bool) (n B : Nat) (L : List Ins) : Prop :=
  FlatRows n L ∧ (unif (topF mcn m kw n) n L = true ∨ ∀ x ∈ L, rowRk x 0 (labs (topF mcn m kw n) n 0 L x) < B)

theorem rankBd_top {L : List Ins} (hL : FlatRows n L) : RankBd mcn m kw n (2 * n + 1) L := by
  refine ⟨hL, .inr ?_⟩
  intro x _
  have := rowRk_le x (labs (topF mcn m kw n) n 0 L x) 0
  rw [labs_length] at this
  omega

theorem rankBd_step (hm : 2 ≤ mcn) {B : Nat} {L g : List Ins} {x0 : Ins} (hb : RankBd mcn m kw n B L)
    (hp : g.Perm (L.filter (fun y => decide (labs (topF mcn m kw n) n 0 L y = labs (topF mcn m kw n) n 0 L x0))))
    (hx0 : x0 ∈ L) (hlt : g.length < L.length) : ∃ B', B = B' + 1 ∧ RankBd mcn m kw n B' g := by
  obtain ⟨hL, hb⟩ := hb
  have hmem : ∀ x ∈ g, x ∈ L ∧ labs (topF mcn m kw n) n 0 L x = labs (topF mcn m kw n) n 0 L x0 := by
    intro x hx
    have := List.mem_filter.mp (hp.mem_iff.mp hx)
    exact ⟨this.1, of_decide_eq_true this.2⟩
  rcases hb with hb | hb
  · exfalso
    rw [unif_iff] at hb
    have := hp.length_eq
    rw [List.filter_eq_self.mpr (fun y hy => by rw [hb y hy x0 hx0]; simp)] at this
    omega
  · have hpos := hb x0 hx0
    obtain ⟨B', rfl⟩ : ∃ B', B = B' + 1 := ⟨B - 1, by omega⟩
    refine ⟨B', rfl, hL.sub (fun x hx => (hmem x hx).1), ?_⟩
    have hg : FlatRows n g := hL.sub (fun x hx => (hmem x hx).1)
    rcases labs_drop hm (kw := kw) (N := n) (k := n) (j := 0) (S := L) (Q := g) (Ts := labs (flatF mcn kw n) n 0 L x0) hL (by omega)
      (fun x hx => (hmem x hx).1) (fun x hx => by
        rw [← labs_top hm (m := m) hL (by omega) (hmem x hx).1, ← labs_top hm (m := m) hL (by omega) hx0]
        exact (hmem x hx).2) with h | h
    · left
      rw [unif_top hm hg, unif_iff]
      intro x hx y hy
      rw [h x hx, h y hy]
    · right
      intro x hx
      have h1 := h x hx
      have h2 := hb x (hmem x hx).1
      rw [(hmem x hx).2, labs_top hm hL (by omega) hx0] at h2
      rw [labs_top hm hg (by omega) hx]
      omega

end OsUrl
