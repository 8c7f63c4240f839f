import Verif.Proofs.InnerTree
import Verif.Proofs.SelGen
import Verif.Model.MixedMatcher
import Verif.Spec.Blocks

/-! The blocks of a pattern in the model of `MixedPatternViewMatcher`. -/

namespace OsUrl
open Spec

/-- The pattern of a block. -/
def blockMP (b : List GUnit) : MatchPattern := ⟨patText b, b.map guUnit, viewClsFromUnits (b.map guUnit) false⟩

theorem guUnit_strs (b : List GUnit) : ((b.map guUnit).map (·.str)).flatten = patText b := by
  unfold patText
  rw [List.map_map]
  rfl

theorem mixedPattern_block {b : List GUnit} (hv : ∀ u ∈ b, u.Valid) (ha : Neighbours GUnit.Differ b) (hne : b ≠ []) :
    mixedPattern (b.map guUnit) = .ok (blockMP b) := by
  unfold mixedPattern mkMatchPattern
  rw [guUnit_strs, gen_units hv ha hne]
  rfl

theorem rank_zero_space {u : GUnit} (h : u.Valid) (h0 : u.rank = 0) : ∃ sp, u.spaces = [sp] := by
  cases u with
  | run sp w => exact ⟨sp, rfl⟩
  | wild R => simp [GUnit.rank] at h0
  | cls R n =>
    match R, h0 with
    | [.sign c], _ => exact ⟨_, rfl⟩
    | [], h0 => simp [GUnit.rank] at h0
    | [.lower], h0 => simp [GUnit.rank] at h0
    | [.upper], h0 => simp [GUnit.rank] at h0
    | [.digit], h0 => simp [GUnit.rank] at h0
    | _ :: _ :: _, h0 => simp [GUnit.rank] at h0

theorem mixed_mem (r : Str) : r ∈ mixedRuleSet ↔ Mixable r := Iff.rfl

/-- The test of the loop. -/
theorem joined_test {u : GUnit} (h : u.Valid) :
    ((guUnit u).isLiteral = false ∨ (guUnit u).fuzzyRule ∉ mixedRuleSet) ↔ ¬ u.Joined := by
  rw [gu_literal h]
  by_cases h0 : u.rank = 0
  · obtain ⟨sp, hsp⟩ := rank_zero_space h h0
    have hf : (guUnit u).fuzzyRule = sp.text := by
      unfold PatternUnit.fuzzyRule
      show joinSorted (u.spaces.map Space.text) = _
      rw [hsp]
      simp [joinSorted, sortedSet, insertStr]
    rw [hf, mixed_mem]
    unfold GUnit.Joined GUnit.Mix
    rw [hsp]
    simp [h0]
  · simp [h0, GUnit.Joined]

theorem mixedLoop_join {b : List GUnit} (hv : ∀ u ∈ b, u.Valid) (hj : ∀ u ∈ b, u.Joined) (rest t : List PatternUnit)
    (ps : List MatchPattern) : mixedLoop (b.map guUnit ++ rest) t ps = mixedLoop rest (t ++ b.map guUnit) ps := by
  induction b generalizing t with
  | nil => simp
  | cons u b ih =>
    rw [List.map_cons, List.cons_append, mixedLoop, if_neg (by rw [joined_test (hv u (by simp))]; exact fun h => h (hj u (by simp))),
      ih (fun v hv' => hv v (by simp [hv'])) (fun v hv' => hj v (by simp [hv']))]
    simp

theorem neighbours_part {α : Type} {R : α → α → Prop} {l a b c : List α} (h : Neighbours R l) (e : l = a ++ b ++ c) : Neighbours R b := by
  subst e
  exact neighbours_sub (a := a) (c := c) h

/-- The loop gives the patterns of the blocks. -/
theorem mixedLoop_blocks {bs : List (List GUnit)} (hv : ∀ b ∈ bs, ∀ u ∈ b, u.Valid)
    (ha : ∀ b ∈ bs, Neighbours GUnit.Differ b)
    (hg : ∀ b ∈ bs, b ≠ [] ∧ ((∀ u ∈ b, u.Joined) ∨ ∃ u, b = [u] ∧ ¬ u.Joined))
    (hm : Neighbours (fun b b' => ¬ ((∀ u ∈ b, u.Joined) ∧ ∀ u ∈ b', u.Joined)) bs) (ps : List MatchPattern) :
    mixedLoop (bs.flatten.map guUnit) [] ps = .ok (ps ++ bs.map blockMP) := by
  induction bs generalizing ps with
  | nil => simp [mixedLoop, mixedFlush]
  | cons b bs ih =>
    have hb := hg b (by simp)
    have hpat := mixedPattern_block (hv b (by simp)) (ha b (by simp)) hb.1
    have ih' := ih (fun x hx => hv x (by simp [hx])) (fun x hx => ha x (by simp [hx])) (fun x hx => hg x (by simp [hx]))
      (neighbours_tail hm)
    rw [List.flatten_cons, List.map_append]
    rcases hb.2 with hj | ⟨u, rfl, hn⟩
    · rw [mixedLoop_join (hv b (by simp)) hj, List.nil_append]
      have hbn : b.map guUnit ≠ [] := by simpa using hb.1
      have hflush : mixedFlush (b.map guUnit) ps = .ok (ps ++ [blockMP b]) := by
        unfold mixedFlush
        rw [if_neg hbn, hpat]
        rfl
      cases bs with
      | nil =>
        simp only [List.flatten_nil, List.map_nil, mixedLoop]
        rw [hflush]; rfl
      | cons b' bs =>
        have hb' := hg b' (by simp)
        have hnj : ¬ ∀ u ∈ b', u.Joined := fun h => hm [] b b' bs rfl ⟨hj, h⟩
        obtain ⟨v, rfl, hvn⟩ := hb'.2.resolve_left hnj
        have hvv : v.Valid := hv [v] (by simp) v (by simp)
        have := ih' (ps ++ [blockMP b])
        simp only [List.flatten_cons, List.map_append, List.map_cons, List.map_nil, List.cons_append, List.nil_append, mixedLoop] at this ⊢
        rw [if_pos ((joined_test hvv).mpr hvn)] at this ⊢
        rw [hflush]
        rw [show mixedFlush [] (ps ++ [blockMP b]) = .ok (ps ++ [blockMP b]) from rfl] at this
        rw [this]
        simp
    · have huv : u.Valid := hv [u] (by simp) u (by simp)
      simp only [List.map_cons, List.map_nil, List.cons_append, List.nil_append, mixedLoop]
      rw [if_pos ((joined_test huv).mpr hn), show mixedFlush [] ps = .ok ps from rfl]
      have hpat : mixedPattern [guUnit u] = .ok (blockMP [u]) := hpat
      simp only [bind, Except.bind]
      rw [hpat]
      simp only
      rw [ih']
      simp

/-- Every pattern has its blocks. -/
theorem blocks_exist (us : List GUnit) : ∃ bs, Blocks us bs := by
  induction us with
  | nil => exact ⟨[], rfl, by simp, by intro a x y b e; simp at e⟩
  | cons u us ih =>
    obtain ⟨bs, h1, h2, h3⟩ := ih
    by_cases hu : u.Joined
    · cases bs with
      | nil =>
        refine ⟨[[u]], by simpa using h1, ?_, neighbours_single _⟩
        intro b hb; rw [List.mem_singleton] at hb; subst hb
        exact ⟨by simp, .inl (by simpa using hu)⟩
      | cons b bs =>
        by_cases hb : ∀ v ∈ b, v.Joined
        · refine ⟨(u :: b) :: bs, by rw [← h1]; simp, ?_, ?_⟩
          · intro x hx
            rcases List.mem_cons.mp hx with rfl | hx
            · exact ⟨by simp, .inl (by simpa using ⟨hu, hb⟩)⟩
            · exact h2 x (by simp [hx])
          · intro a x y c e
            cases a with
            | nil =>
              simp only [List.nil_append, List.cons.injEq] at e
              obtain ⟨rfl, rfl⟩ := e
              rintro ⟨-, k⟩
              exact h3 [] b y c rfl ⟨hb, k⟩
            | cons z a =>
              simp only [List.cons_append, List.cons.injEq] at e
              exact h3 (b :: a) x y c (by rw [e.2]; rfl)
        · refine ⟨[u] :: b :: bs, by rw [← h1]; simp, ?_, ?_⟩
          · intro x hx
            rcases List.mem_cons.mp hx with rfl | hx
            · exact ⟨by simp, .inl (by simpa using hu)⟩
            · exact h2 x hx
          · intro a x y c e
            cases a with
            | nil =>
              simp only [List.nil_append, List.cons.injEq] at e
              obtain ⟨rfl, rfl, rfl⟩ := e
              exact fun k => hb k.2
            | cons z a =>
              simp only [List.cons_append, List.cons.injEq] at e
              exact h3 a x y c e.2
    · refine ⟨[u] :: bs, by rw [← h1]; simp, ?_, ?_⟩
      · intro x hx
        rcases List.mem_cons.mp hx with rfl | hx
        · exact ⟨by simp, .inr ⟨u, rfl, hu⟩⟩
        · exact h2 x hx
      · intro a x y c e
        cases a with
        | nil =>
          simp only [List.nil_append, List.cons.injEq] at e
          obtain ⟨rfl, rfl⟩ := e
          exact fun k => hu (k.1 u (by simp))
        | cons z a =>
          simp only [List.cons_append, List.cons.injEq] at e
          exact h3 a x y c e.2

theorem Spec.Blocks.valid {us : List GUnit} {bs : List (List GUnit)} (h : Blocks us bs) (hv : ∀ u ∈ us, u.Valid) :
    ∀ b ∈ bs, ∀ u ∈ b, u.Valid := fun b hb u hu => hv u (by rw [← h.flat]; exact List.mem_flatten.mpr ⟨b, hb, hu⟩)

theorem Spec.Blocks.apart {us : List GUnit} {bs : List (List GUnit)} (h : Blocks us bs) (ha : Neighbours GUnit.Differ us) :
    ∀ b ∈ bs, Neighbours GUnit.Differ b := by
  intro b hb
  obtain ⟨x, y, rfl⟩ := List.append_of_mem hb
  refine neighbours_part ha (a := x.flatten) (c := y.flatten) ?_
  rw [← h.flat]; simp

theorem Spec.Blocks.loop {us : List GUnit} {bs : List (List GUnit)} (h : Blocks us bs) (hv : ∀ u ∈ us, u.Valid)
    (ha : Neighbours GUnit.Differ us) : mixedLoop (us.map guUnit) [] [] = .ok (bs.map blockMP) := by
  have := mixedLoop_blocks (h.valid hv) (h.apart ha) h.good h.maximal []
  rwa [h.flat, List.nil_append] at this

/-! ### selection -/

theorem blockMP_single (u : GUnit) : blockMP [u] = unitMP (guUnit u) := by
  unfold blockMP unitMP
  rw [show patText [u] = u.text by simp [patText]]
  rfl

theorem blockMP_joined {b : List GUnit} (hv : ∀ u ∈ b, u.Valid) (hne : b ≠ []) (hj : ∀ u ∈ b, u.Joined) :
    (blockMP b).cls = .piece := by
  show viewClsFromUnits (b.map guUnit) false = _
  rw [units_cls hv hne]
  have : kind false b = .literal := by
    unfold kind
    rw [if_pos]
    rw [List.all_eq_true]
    intro u hu
    simp [(hj u hu).1]
  rw [this]; rfl

theorem mixable_backslash : ¬ Mixable (Space.sign '\\').text := by decide

/-- A block is selected for the parts it stands for. -/
theorem block_sel {b : List GUnit} (hv : ∀ u ∈ b, u.Valid) (ha : Neighbours GUnit.Differ b)
    (hg : b ≠ [] ∧ ((∀ u ∈ b, u.Joined) ∨ ∃ u, b = [u] ∧ ¬ u.Joined)) {w : Str} {g : List Run} (hr : Runs w g) :
    ((gpart g).fuzzyRule = unitsFuzzyRule (blockMP b).units ∧ SelU (gpart g) (blockMP b)) ↔ BlockFits b w := by
  match b, hv, ha, hg with
  | [u], hv, _, _ =>
    rw [blockMP_single]
    have h1 := unit_sel (hv u (by simp)) hr
    have : unitsFuzzyRule (unitMP (guUnit u)).units = (guUnit u).fuzzyRule := by
      simp [unitsFuzzyRule, PatternUnit.fuzzyRule, unitMP]
    rw [this]
    exact h1
  | [], _, _, hg => exact absurd rfl hg.1
  | u :: v :: b, hv, ha, hg =>
    generalize hB : u :: v :: b = B at *
    have hj : ∀ u ∈ B, u.Joined := by
      rcases hg.2 with h | ⟨x, hx, -⟩
      · exact h
      · rw [← hB] at hx; simp at hx
    have hfits : BlockFits B w ↔ FitsAll B (g.map (·.2)) := by
      rw [← hB]
      unfold BlockFits
      constructor
      · rintro ⟨rs, h1, h2⟩
        rwa [runs_unique hr h1]
      · intro h; exact ⟨g, hr, h⟩
    rw [hfits]
    have hsel : SelU (gpart g) (blockMP B) ↔ (g.map runText).flatten = patText B := by
      unfold SelU
      rw [blockMP_joined hv hg.1 hj]
      show (gpart g).piece = _ ↔ _
      rw [(gpart_pair g).1]
      rfl
    rw [hsel]
    have hf : (gpart g).fuzzyRule = (ppOf (runsOf w)).fuzzyRule := by rw [(gpart_pair g).2, gpair_ppOf, runsOf_runs hr]
    rw [hf]
    have hbs : SpacesOf w (B.flatMap GUnit.spaces) → '\\' ∉ w := by
      intro h hm
      obtain ⟨x, hx, hxs⟩ := List.mem_flatMap.mp ((h (.sign '\\')).mpr ⟨_, hm, by decide⟩)
      exact mixable_backslash ((hj x hx).2 _ hxs)
    have hp : (blockMP B).units = B.map guUnit := rfl
    constructor
    · rintro ⟨h1, h2⟩
      have h3 := (gen_rule_iff hv hr.known hp).mp h1.symm
      exact (literal_iff hv ha (fun u hu => (hj u hu).1) hr (hbs h3)).mp h2
    · intro h
      have h1 := matches_rule hv hr.known hp hr.concat h
      refine ⟨h1.symm, ?_⟩
      exact (literal_iff hv ha (fun u hu => (hj u hu).1) hr (hbs ((gen_rule_iff hv hr.known hp).mp h1))).mpr h

theorem blocks_sel {bs : List (List GUnit)} (hv : ∀ b ∈ bs, ∀ u ∈ b, u.Valid) (ha : ∀ b ∈ bs, Neighbours GUnit.Differ b)
    (hg : ∀ b ∈ bs, b ≠ [] ∧ ((∀ u ∈ b, u.Joined) ∨ ∃ u, b = [u] ∧ ¬ u.Joined)) {gs : List (List Run)}
    (hr : ∀ g ∈ gs, Runs (rawOf g) g) : SelI (gs.map gpart) (bs.map blockMP) ↔ BlocksFit bs (gs.map rawOf) := by
  induction bs generalizing gs with
  | nil =>
    cases gs with
    | nil => simp [SelI, BlocksFit]
    | cons g gs => simp [SelI, BlocksFit]
  | cons b bs ih =>
    cases gs with
    | nil => simp [SelI, BlocksFit]
    | cons g gs =>
      have h1 := block_sel (hv b (by simp)) (ha b (by simp)) (hg b (by simp)) (hr g (by simp))
      have h2 := ih (fun x hx => hv x (by simp [hx])) (fun x hx => ha x (by simp [hx])) (fun x hx => hg x (by simp [hx]))
        (gs := gs) (fun x hx => hr x (by simp [hx]))
      simp only [List.map_cons, BlocksFit]
      rw [← h1, ← h2]
      unfold SelI
      simp only [List.map_cons, List.cons.injEq]
      constructor
      · rintro ⟨⟨a, a'⟩, b⟩
        exact ⟨⟨a, b 0 _ _ (by simp) (by simp)⟩, a', fun i vp v c d => b (i + 1) vp v (by simpa using c) (by simpa using d)⟩
      · rintro ⟨⟨a1, a2⟩, b1, b2⟩
        refine ⟨⟨a1, b1⟩, ?_⟩
        intro i vp v c d
        cases i with
        | zero =>
          simp only [List.getElem?_cons_zero, Option.some.injEq] at c d
          subst c d
          exact a2
        | succ i => exact b2 i vp v (by simpa using c) (by simpa using d)

end OsUrl
