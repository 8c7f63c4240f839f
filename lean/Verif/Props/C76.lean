import Verif.Proofs.MixedMatch2
import Verif.Props.C21

/-! # C76: the matcher class for mixed patterns that the program does not use -/

namespace OsUrl
open Spec

/-- **C76**: a `MixedPatternViewMatcher` filled with any generated patterns of the mixed kind, asked about any piece, raises
nothing.  It returns only patterns it was filled with, and it returns a pattern exactly when the piece, cut into its mixable parts and the
runs of other signs, fits the pattern cut into blocks, where neighbouring literal runs that may be mixed make up one block. -/
theorem C76_match (lp : Bool) (uss : List (List GUnit)) (hg : ∀ us ∈ uss, Generated us ∧ kind lp us = .mixed) (s : Str) (pp : ParsedPiece)
    (hp : parsePiece s = .ok pp) :
    ∃ ps d ks, uss.mapM (fun us => mkMatchPattern (patText us) lp) = .ok ps ∧ mixedFill ps = .ok d ∧
      multiMatch .mixed (some pp) d = .ok ks ∧ (∀ k ∈ ks, ∃ us ∈ uss, k = patText us) ∧
      ∀ us ∈ uss, (patText us ∈ ks ↔ MatchesJoined us s) := by
  obtain ⟨hk, rfl⟩ := parsePiece_ok hp
  have hok := items_ok hg
  have hmp : uss.mapM (fun us => mkMatchPattern (patText us) lp) =
      .ok (uss.map (fun us => ⟨patText us, us.map guUnit, viewClsFromUnits (us.map guUnit) lp⟩)) := by
    clear hok
    induction uss with
    | nil => rfl
    | cons us uss ih =>
      have h1 := hg us (by simp)
      have hne : us ≠ [] := by
        have := kind_two (.inl h1.2)
        intro e; rw [e] at this; simp at this
      rw [List.mapM_cons, ih (fun x hx => hg x (by simp [hx]))]
      unfold mkMatchPattern
      rw [gen_units h1.1.valid h1.1.apart hne]
      rfl
  obtain ⟨d, ks, h1, h2, h3⟩ := inner_main hok (c := .mixed) (pp := ppOf (runsOf s))
    (by
      intro x hx e
      have htok : ∀ t ∈ x.1.map (fun q => unitsFuzzyRule q.units), Token t := by
        obtain ⟨us, hu, rfl⟩ := List.mem_map.mp hx
        obtain ⟨bs, hb, e⟩ := blockItem_spec us
        rw [e]
        intro t ht
        obtain ⟨p, hp, rfl⟩ := List.mem_map.mp ht
        obtain ⟨b, hbm, rfl⟩ := List.mem_map.mp hp
        exact block_token (hg us hu).1 (kind_two (.inl (hg us hu).2)) hb hbm
      rcases mixed_view_tokens hk with h0 | h0
      · exfalso
        rw [h0, show viewStr [ppOf []] = [] by decide] at e
        exact join_ne_nil htok (by simpa using hok.ne x hx) e.symm
      · exact join_inj h0 htok e)
    (by
      intro vp hvp
      obtain ⟨gs, e1, e2, -, -⟩ := view_split .mixed (runsOf s)
      have : vpair vp ∈ (viewPieces .mixed (ppOf (runsOf s))).map vpair := List.mem_map_of_mem hvp
      rw [e2] at this
      obtain ⟨g, hg, hgv⟩ := List.mem_map.mp this
      exact ⟨_, group_length (runs_group (runsOf_spec hk) e1 hg) hgv.symm⟩)
  have hname : ∀ us, (blockItem us).2 = patText us := by
    intro us
    obtain ⟨bs, -, e⟩ := blockItem_spec us
    rw [e]
  refine ⟨_, d, ks, hmp, ?_, h2, ?_, ?_⟩
  · rw [mixedFill_items (fun us hu => (hg us hu).1)]; exact h1
  · intro k hkk
    obtain ⟨x, hx, rfl, -⟩ := (h3 k).mp hkk
    obtain ⟨us, hu, rfl⟩ := List.mem_map.mp hx
    exact ⟨us, hu, hname us⟩
  · intro us hu
    have hnu : ∀ us ∈ uss, us ≠ [] := by
      intro us hu e
      have := kind_two (.inl (hg us hu).2)
      rw [e] at this; simp at this
    rw [h3, ← item_sel (hg us hu).1 (hg us hu).2 hk]
    constructor
    · rintro ⟨x, hx, e, hs⟩
      obtain ⟨vs, hv, rfl⟩ := List.mem_map.mp hx
      rw [hname] at e
      rwa [item_text (hg us hu).1 (hg vs hv).1 (hnu us hu) (hnu vs hv) e.symm]
    · intro hs
      exact ⟨blockItem us, List.mem_map_of_mem hu, hname us, hs⟩

/-- **C76**, compared with the class that is used: whatever `MultiPatternViewMatcher` finds for a pattern of the mixed kind,
`MixedPatternViewMatcher` finds as well. -/
theorem C76_more (lp : Bool) (us : List GUnit) (hg : Generated us) (hk : kind lp us = .mixed) (s : Str) (h : Matches lp us s) :
    MatchesJoined us s := by
  obtain ⟨parts, hp, hf⟩ := h
  rw [hk] at hp
  refine ⟨us.map (fun u => [u]), parts, ⟨?_, ?_, ?_⟩, hp, ?_⟩
  · clear hf hk hg
    induction us with
    | nil => rfl
    | cons u us ih => simp [ih]
  · intro b hb
    obtain ⟨u, -, rfl⟩ := List.mem_map.mp hb
    refine ⟨by simp, ?_⟩
    by_cases hj : u.Joined
    · exact .inl (by simpa using hj)
    · exact .inr ⟨u, rfl, hj⟩
  · obtain ⟨gs, h1, h2, h3, rfl⟩ := hp
    intro a x y b e
    rintro ⟨hx, hy⟩
    obtain ⟨l1, l2, rfl, rfl, e2⟩ := List.map_eq_append_iff.mp e
    obtain ⟨u, l3, rfl, rfl, e3⟩ := List.map_eq_cons_iff.mp e2
    obtain ⟨v, l4, rfl, rfl, rfl⟩ := List.map_eq_cons_iff.mp e3
    have hv := hg.valid
    have split : ∀ (l1 : List GUnit) (gs : List (List Run)) (r : List GUnit), FitsAll (l1 ++ r) (gs.map rawText) →
        ∃ g1 g2, gs = g1 ++ g2 ∧ FitsAll r (g2.map rawText) := by
      intro l1
      induction l1 with
      | nil => intro gs r h; exact ⟨[], gs, rfl, h⟩
      | cons w l1 ih =>
        intro gs r h
        cases gs with
        | nil => cases h
        | cons g gs =>
          obtain ⟨g1, g2, rfl, h'⟩ := ih gs r h.2
          exact ⟨g :: g1, g2, rfl, h'⟩
    obtain ⟨g1, g2, rfl, hf2⟩ := split l1 gs _ hf
    clear hf
    match g2, hf2 with
    | g :: g' :: g2, hf =>
      refine h3 g1 g g' g2 rfl ⟨?_, ?_⟩
      · have hs := fits_spaces (hv u (by simp)) hf.1
        intro r hr
        have hrun : Runs (rawText g) g := runs_group h1 rfl (by simp)
        obtain ⟨c, hc⟩ := List.exists_mem_of_ne_nil _ (hrun.nonempty r hr)
        refine (hx u (by simp)).2 r.1 ((hs r.1).mpr ⟨c, ?_, hrun.space r hr c hc⟩)
        exact List.mem_flatten.mpr ⟨r.2, List.mem_map_of_mem hr, hc⟩
      · have hs := fits_spaces (hv v (by simp)) hf.2.1
        intro r hr
        have hrun : Runs (rawText g') g' := runs_group h1 rfl (by simp)
        obtain ⟨c, hc⟩ := List.exists_mem_of_ne_nil _ (hrun.nonempty r hr)
        refine (hy v (by simp)).2 r.1 ((hs r.1).mpr ⟨c, ?_, hrun.space r hr c hc⟩)
        exact List.mem_flatten.mpr ⟨r.2, List.mem_map_of_mem hr, hc⟩
    | [], hf => cases hf
    | [g], hf => cases hf.2
  · clear hk hg hp
    induction us generalizing parts with
    | nil =>
      cases parts with
      | nil => trivial
      | cons x parts => cases hf
    | cons u us ih =>
      cases parts with
      | nil => cases hf
      | cons x parts => exact ⟨hf.1, ih parts hf.2⟩

/-- **C76**, on the patterns of the mixed stage: cut the piece into its mixable parts and the runs of other signs, and write
every part either run by run or as one class that stands for it: the pattern is found for the piece, wherever the literal
parts are. -/
theorem C76_stage (s : Str) (gs : List (List (Space × Str))) (uss : List (List GUnit)) (hr : Runs s gs.flatten)
    (hm : ∀ g ∈ gs, g ≠ [] ∧ (MixRuns g ∨ ∃ r, g = [r] ∧ ¬ Mixable r.1.text))
    (hn : Neighbours (fun g g' => ¬ (MixRuns g ∧ MixRuns g')) gs) (hl : uss.length = gs.length)
    (hu : ∀ (i : Nat) us g, uss[i]? = some us → gs[i]? = some g →
      us = g.map (fun r => .run r.1 r.2) ∨ ∃ u, us = [u] ∧ u.rank ≠ 0 ∧ u.Fits (rawText g)) :
    MatchesJoined uss.flatten s := by
  have hjm : ∀ (i : Nat) us g, uss[i]? = some us → gs[i]? = some g → (∀ u ∈ us, u.Joined) → MixRuns g := by
    intro i us g h1 h2 hj
    rcases hu i us g h1 h2 with rfl | ⟨u, rfl, h0, -⟩
    · intro r hrg
      exact (hj (.run r.1 r.2) (List.mem_map_of_mem (f := fun r : Space × Str => GUnit.run r.1 r.2) hrg)).2 r.1 (by simp [GUnit.spaces])
    · exact absurd (hj u (by simp)).1 h0
  have hlen : ∀ (i : Nat) us, uss[i]? = some us → ∃ g, gs[i]? = some g := by
    intro i us h
    have := (List.getElem?_eq_some_iff.mp h).1
    exact ⟨gs[i]'(by omega), List.getElem?_eq_getElem (by omega)⟩
  refine ⟨uss, gs.map rawText, ⟨rfl, ?_, ?_⟩, ⟨gs, hr, hm, hn, rfl⟩, ?_⟩
  · intro us hus
    obtain ⟨i, hi⟩ := List.getElem?_of_mem hus
    obtain ⟨g, hgi⟩ := hlen i us hi
    have hgm := hm g (List.mem_of_getElem? hgi)
    rcases hu i us g hi hgi with rfl | ⟨u, rfl, h0, -⟩
    · refine ⟨by simpa using hgm.1, ?_⟩
      rcases hgm.2 with hmix | ⟨r, rfl, hnm⟩
      · left
        intro u hu'
        obtain ⟨r, hrg, rfl⟩ := List.mem_map.mp hu'
        refine ⟨rfl, ?_⟩
        intro sp hsp
        simp only [GUnit.spaces, List.mem_singleton] at hsp
        subst hsp
        exact hmix r hrg
      · right
        exact ⟨_, rfl, fun h => hnm (h.2 r.1 (by simp [GUnit.spaces]))⟩
    · exact ⟨by simp, .inr ⟨u, rfl, fun h => h0 h.1⟩⟩
  · intro a x y b e
    rintro ⟨hx, hy⟩
    have h1 : uss[a.length]? = some x := by rw [e]; simp
    have h2 : uss[a.length + 1]? = some y := by rw [e]; simp
    obtain ⟨g, hg1⟩ := hlen _ _ h1
    obtain ⟨g', hg2⟩ := hlen _ _ h2
    have d1 := hjm _ _ _ h1 hg1 hx
    have d2 := hjm _ _ _ h2 hg2 hy
    obtain ⟨i1, j1⟩ := List.getElem?_eq_some_iff.mp hg1
    obtain ⟨i2, j2⟩ := List.getElem?_eq_some_iff.mp hg2
    refine hn (gs.take a.length) g g' (gs.drop (a.length + 2)) ?_ ⟨d1, d2⟩
    rw [← j1, ← j2, List.getElem_cons_drop, List.getElem_cons_drop, List.take_append_drop]
  · clear hjm hlen hn
    have hrg : ∀ g ∈ gs, Runs (rawText g) g := fun g hg => runs_group hr rfl hg
    clear hr
    induction uss generalizing gs with
    | nil =>
      cases gs with
      | nil => trivial
      | cons g gs => simp at hl
    | cons us uss ih =>
      cases gs with
      | nil => simp at hl
      | cons g gs =>
        refine ⟨?_, ih gs (fun x hx => hm x (by simp [hx])) (by simpa using hl)
          (fun i a b h1 h2 => hu (i + 1) a b (by simpa using h1) (by simpa using h2)) (fun x hx => hrg x (by simp [hx]))⟩
        rcases hu 0 us g (by simp) (by simp) with rfl | ⟨u, rfl, -, hf⟩
        · have hself : ∀ g : List (Space × Str), FitsAll (g.map (fun r => .run r.1 r.2)) (g.map (·.2)) := by
            intro g
            induction g with
            | nil => trivial
            | cons r g ih => exact ⟨rfl, ih⟩
          match g, hm g (by simp), hrg g (by simp), hself g with
          | [], h, _, _ => exact absurd rfl h.1
          | [r], _, _, _ =>
            show rawText [r] = r.2
            simp [rawText]
          | r :: r' :: g, _, h, hs => exact ⟨_, h, hs⟩
        · exact hf

/-! ### examples -/

/-- The patterns of `units` in a `MixedPatternViewMatcher` and in a `MultiPatternViewMatcher`: which are found for the piece. -/
def c76Find (uss : List (List GUnit)) (s : Str) : Py (List Str × List Str) := do
  let ps ← uss.mapM (fun us => mkMatchPattern (patText us))
  let pp ← parsePiece s
  let d ← mixedFill ps
  let a ← multiMatch .mixed (some pp) d
  let e ← ps.foldlM (fun d p => multiAdd p d) []
  let b ← multiMatch .mixed (some pp) e
  return (a, b)

def c76Units : List (List GUnit) :=
  [[.run .lower c!"a", .run .digit c!"1", .run .lower c!"b", .run .digit c!"2", .cls [.sign '-'] 1, .cls [.digit, .lower] 4],
    [.cls [.digit, .lower] 4, .cls [.sign '-'] 1, .run .lower c!"x", .run .digit c!"1", .run .lower c!"y", .run .digit c!"2"],
    [.wild [.digit, .lower], .cls [.sign '-'] 1, .cls [.digit, .lower] 4],
    [.run .lower c!"a", .cls [.digit] 1, .run .lower c!"b", .cls [.digit] 1, .cls [.sign '-'] 1, .cls [.digit, .lower] 4]]

/-- The hypothesis of `C76_match` can hold. -/
example : ∀ us ∈ c76Units, Generated us ∧ kind false us = .mixed := fun us hu =>
  ⟨generated_check (List.all_eq_true.mp (show c76Units.all genCheck = true by decide +kernel) us hu),
    (show ∀ us ∈ c76Units, kind false us = .mixed by decide +kernel) us hu⟩

/-- The first failure of `C21_false`, `a1b2[\-][0-9a-z]{4}` for `a1b2-x1y2`, does not occur with this class; the one in use finds the
third pattern only.  Classes are not taken together with their neighbours: the fourth is found by neither. -/
example : c76Find c76Units c!"a1b2-x1y2" =
    .ok ([c!"a1b2[\\-][0-9a-z]{4}", c!"[0-9a-z]{4}[\\-]x1y2", c!"[0-9a-z]+[\\-][0-9a-z]{4}"], [c!"[0-9a-z]+[\\-][0-9a-z]{4}"]) := by
  decide +kernel

/-- Another literal part is not taken for `a1b2`. -/
example : c76Find c76Units c!"a1b3-x1y2" =
    .ok ([c!"[0-9a-z]{4}[\\-]x1y2", c!"[0-9a-z]+[\\-][0-9a-z]{4}"], [c!"[0-9a-z]+[\\-][0-9a-z]{4}"]) := by
  decide +kernel

/-- The second pattern, as in `C76_stage`. -/
example : MatchesJoined [.cls [.digit, .lower] 4, .run (.sign '-') c!"-", .run .lower c!"x", .run .digit c!"1"] c!"a1b2-x1" := by
  have := C76_stage c!"a1b2-x1"
    [[(.lower, c!"a"), (.digit, c!"1"), (.lower, c!"b"), (.digit, c!"2")], [(.sign '-', c!"-")], [(.lower, c!"x"), (.digit, c!"1")]]
    [[.cls [.digit, .lower] 4], [.run (.sign '-') c!"-"], [.run .lower c!"x", .run .digit c!"1"]]
    (runsOf_spec (s := c!"a1b2-x1") (by decide)) (by
      intro g hg
      simp only [List.mem_cons, List.not_mem_nil, or_false] at hg
      rcases hg with rfl | rfl | rfl
      · exact ⟨by simp, .inl (by unfold MixRuns; decide)⟩
      · exact ⟨by simp, .inr ⟨_, rfl, by decide⟩⟩
      · exact ⟨by simp, .inl (by unfold MixRuns; decide)⟩)
    (by
      intro a x y b e
      match a, e with
      | [], e => simp at e; obtain ⟨rfl, rfl, rfl⟩ := e; exact fun h => absurd (h.2 (.sign '-', c!"-") (by simp)) (by decide)
      | [_], e => simp at e; obtain ⟨rfl, rfl, rfl, rfl⟩ := e; exact fun h => absurd (h.1 (.sign '-', c!"-") (by simp)) (by decide)
      | _ :: _ :: [], e => simp at e
      | _ :: _ :: _ :: _, e => simp at e) rfl
    (by
      intro i us g h1 h2
      match i, h1, h2 with
      | 0, h1, h2 =>
        simp at h1 h2; subst h1 h2
        exact .inr ⟨_, rfl, by decide, (spacesOf_iff (by decide) (by decide)).mp (by decide +kernel), by decide⟩
      | 1, h1, h2 => simp at h1 h2; subst h1 h2; exact .inl rfl
      | 2, h1, h2 => simp at h1 h2; subst h1 h2; exact .inl rfl
      | i + 3, h1, _ => simp at h1)
  simpa using this

end OsUrl
