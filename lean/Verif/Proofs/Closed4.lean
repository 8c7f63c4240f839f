import Verif.Proofs.Closed3

/-! The rule for the pieces of URLs is the level function of the clustering. -/

namespace OsUrl
open Spec

/-- The stage of the program. -/
def Spec.Stage.dst : Stage → Dst
  | .runs => .base
  | .mixed => .mixed
  | .dot => .lastDot
  | .whole => .length

theorem dst_iff {a b : Stage} : a.dst = b.dst ↔ a = b := by cases a <;> cases b <;> simp [Stage.dst]

/-- What is known about a piece of a column: `lp` tells the last piece of the path. -/
structure TopCell (lp : Bool) (g : Chunk) : Prop where
  runny : Runny g
  ne : g ≠ []
  slash : lp = true → '/' ∉ clsText g

theorem CutOK.noslash {Tok : Str → Prop} {V : Cutting} {V' : ParsedPiece → View} {g : Chunk} (hg : Runny g) (h : CutOK Tok V V' g)
    (hs : '/' ∉ clsText g) : CutOK (fun t => '/' ∉ t) V V' g := by
  refine ⟨h.pps, h.flat, h.ok.flat, h.ok.str, h.ok.ne, h.ok.parts, ?_⟩
  intro q hq
  rw [h.pps] at hq
  obtain ⟨c, hc, rfl⟩ := List.mem_map.mp hq
  intro hsl
  rw [(Prod.mk.inj (gpart_vpair c)).2] at hsl
  rw [← ppOf_rule hg] at hs
  exact hs (group_rule_sub h.flat hc hsl)

section
variable {cfg : LevelCfg} {g : Chunk}

theorem multi_len (g : Chunk) : (multiView (ppOf g)).pps.length = g.length := by
  have : (multiView (ppOf g)).pps = (byRun g).map gpart := multi_groups g
  rw [this]; simp [byRun]

theorem mixed_len (hne : g ≠ []) : (mixedView (ppOf g)).pps.length = (byMixed g).length := by
  have : (mixedView (ppOf g)).pps = (byMixed g).map gpart := byMixed_pps hne
  rw [this]; simp

theorem dot_len (g : Chunk) : (lastDotView (ppOf g)).pps.length = (byDot g).length := by
  have : (lastDotView (ppOf g)).pps = (byDot g).map gpart := (byDot_spec g).1
  rw [this]; simp

theorem run_dot (h : TopCell cfg.lastPath g) (hlp : cfg.lastPath = true) :
    (multiView (ppOf g)).view = (lastDotView (ppOf g)).view ↔ classes byRun g = classes byDot g :=
  view_classes joinInj_noslash h.runny h.runny ((byRun_ok h.runny h.ne).noslash h.runny (h.slash hlp)) (byDot_ok h.runny (h.slash hlp))

theorem mixed_dot (h : TopCell cfg.lastPath g) (hlp : cfg.lastPath = true) (hl : 2 ≤ g.length) :
    (mixedView (ppOf g)).view = (lastDotView (ppOf g)).view ↔ classes byMixed g = classes byDot g :=
  view_classes joinInj_noslash h.runny h.runny ((byMixed_ok h.runny hl).noslash h.runny (h.slash hlp)) (byDot_ok h.runny (h.slash hlp))

theorem run_mixed (h : TopCell cfg.lastPath g) (hl : 2 ≤ g.length) :
    (multiView (ppOf g)).view = (mixedView (ppOf g)).view ↔ classes byRun g = classes byMixed g :=
  view_classes joinInj_token h.runny h.runny (byRun_ok h.runny h.ne) (byMixed_ok h.runny hl)

theorem dstPiece_stage (h : TopCell cfg.lastPath g) : dstPiece cfg (ppOf g) = (firstStage cfg.mcn cfg.lastPath g).dst := by
  unfold dstPiece routePiece firstStage
  simp only
  rw [ppOf_pieces, multi_len, mixed_len h.ne]
  by_cases h1 : g.length = 1
  · rw [if_pos h1, if_pos h1]; rfl
  · have hl : 2 ≤ g.length := by
      have := List.length_pos_iff.mpr h.ne
      omega
    rw [if_neg h1, if_neg h1]
    by_cases h2 : g.length = 3 ∧ cfg.lastPath = true
    · rw [if_pos h2, if_pos h2]
      by_cases h3 : classes byRun g = classes byDot g
      · rw [if_pos h3, if_pos ((run_dot h h2.2).mpr h3)]; rfl
      · rw [if_neg h3, if_neg (fun e => h3 ((run_dot h h2.2).mp e))]; rfl
    · rw [if_neg h2, if_neg h2]
      by_cases h3 : g.length > 3
      · rw [if_pos h3, if_neg (show ¬ g.length ≤ 3 by omega)]
        by_cases h4 : (byMixed g).length = 1
        · rw [if_pos h4, if_pos h4]; rfl
        · rw [if_neg h4, if_neg h4]
          by_cases h5 : (g.length : Int) - ((byMixed g).length : Int) ≥ cfg.mcn
          · rw [if_pos h5, if_neg (show ¬ (g.length : Int) - ((byMixed g).length : Int) < cfg.mcn by omega)]
            by_cases h6 : (byMixed g).length = 3 ∧ cfg.lastPath = true
            · rw [if_pos h6]
              by_cases h7 : classes byMixed g = classes byDot g
              · rw [if_pos ((mixed_dot h h6.2 hl).mpr h7), if_pos ⟨h6.1, h6.2, h7⟩]; rfl
              · rw [if_neg (fun e => h7 ((mixed_dot h h6.2 hl).mp e)), if_neg (fun e => h7 e.2.2)]; rfl
            · rw [if_neg h6, if_neg (fun e => h6 ⟨e.1, e.2.1⟩)]; rfl
          · rw [if_neg h5, if_pos (show (g.length : Int) - ((byMixed g).length : Int) < cfg.mcn by omega)]; rfl
      · rw [if_neg h3, if_pos (show g.length ≤ 3 by omega)]; rfl

theorem dstBase_stage (h : TopCell cfg.lastPath g) (hl : 2 ≤ g.length) : dstBase cfg (ppOf g) = (afterRuns cfg.lastPath g).dst := by
  unfold dstBase routeBase afterRuns
  simp only
  rw [mixed_len h.ne, dot_len]
  by_cases h1 : classes byRun g = classes byMixed g
  · rw [if_pos h1, if_pos ((run_mixed h hl).mpr h1)]
    by_cases h2 : cfg.lastPath = true
    · rw [if_pos h2]
      by_cases h3 : (byDot g).length = 1
      · rw [if_pos h3, if_neg (fun e => e.2 h3)]; rfl
      · rw [if_neg h3, if_pos ⟨h2, h3⟩]; rfl
    · rw [if_neg h2, if_neg (fun e => h2 e.1)]; rfl
  · rw [if_neg h1, if_neg (fun e => h1 ((run_mixed h hl).mp e))]
    by_cases h4 : (byMixed g).length = 1
    · rw [if_pos h4, if_pos h4]; rfl
    · rw [if_neg h4, if_neg h4]
      by_cases h6 : (byMixed g).length = 3 ∧ cfg.lastPath = true
      · rw [if_pos h6]
        by_cases h7 : classes byMixed g = classes byDot g
        · rw [if_pos ((mixed_dot h h6.2 hl).mpr h7), if_pos ⟨h6.1, h6.2, h7⟩]; rfl
        · rw [if_neg (fun e => h7 ((mixed_dot h h6.2 hl).mp e)), if_neg (fun e => h7 e.2.2)]; rfl
      · rw [if_neg h6, if_neg (fun e => h6 ⟨e.1, e.2.1⟩)]; rfl

theorem dstMixed_stage : dstMixed cfg (ppOf g) = (afterMixed cfg.lastPath g).dst := by
  unfold dstMixed routeMixed afterMixed
  simp only
  rw [dot_len]
  by_cases h2 : cfg.lastPath = true
  · rw [if_pos h2]
    by_cases h3 : (byDot g).length = 1
    · rw [if_pos h3, if_neg (fun e => e.2 h3)]; rfl
    · rw [if_neg h3, if_pos ⟨h2, h3⟩]; rfl
  · rw [if_neg h2, if_neg (fun e => h2 e.1)]; rfl

theorem stage_decide {a : Dst} {b : Stage} (h : a = b.dst) (t : Stage) : decide (a = t.dst) = decide (b = t) := by
  rw [h]; exact decide_eq_decide.mpr dst_iff

theorem firstStage_runs {mcn : Int} {lp : Bool} (hne : g ≠ []) (h : firstStage mcn lp g ≠ .whole) : 2 ≤ g.length := by
  have := List.length_pos_iff.mpr hne
  have h1 : g.length ≠ 1 := by
    intro e
    apply h
    unfold firstStage
    simp only
    rw [if_pos e]
  omega

end

section
variable {cfg : LevelCfg} {E : Column} (hm : 2 ≤ cfg.mcn) (hE : ∀ e ∈ E, TopCell cfg.lastPath e.1 ∧ 1 ≤ e.2)
include hE

theorem filter_toEnts {f : ParsedPiece → Bool} {f' : Chunk → Bool} (h : ∀ e ∈ E, f (ppOf e.1) = f' e.1) :
    (toEnts ppOf E).filter (fun e => f e.1) = toEnts ppOf (E.filter (fun e => f' e.1)) := by
  unfold toEnts
  rw [List.filter_map]
  congr 1
  apply List.filter_congr
  intro e he
  exact h e he

theorem inB_eq {e : Chunk × Int} (he : e ∈ E) : inB cfg (ppOf e.1) = atRuns cfg.mcn cfg.lastPath e.1 :=
  stage_decide (dstPiece_stage (hE e he).1) .runs

theorem atRuns_len {e : Chunk × Int} (he : e ∈ E) (h : atRuns cfg.mcn cfg.lastPath e.1 = true) : 2 ≤ e.1.length := by
  apply firstStage_runs (mcn := cfg.mcn) (lp := cfg.lastPath) (hE e he).1.ne
  rw [of_decide_eq_true h]
  intro h; cases h

include hm

theorem stB_eq {e : Chunk × Int} (he : e ∈ E) (h : atRuns cfg.mcn cfg.lastPath e.1 = true) :
    stB cfg (toEnts ppOf E) (ppOf e.1) = setRuns cfg.mcn cfg.lastPath E e.1 := by
  unfold stB setRuns
  rw [filter_toEnts hE (fun e he => inB_eq hE he)]
  apply settle_eq hm false joinInj_token
  · intro e' he'
    have := (List.mem_filter.mp he').1
    exact ⟨(hE e' this).1.runny, (hE e' this).2, byRun_ok (hE e' this).1.runny (hE e' this).1.ne⟩
  · exact List.mem_map_of_mem (List.mem_filter.mpr ⟨he, h⟩)

theorem leftB_eq {e : Chunk × Int} (he : e ∈ E) (t : Stage) :
    (inB cfg (ppOf e.1) && (stB cfg (toEnts ppOf E) (ppOf e.1)).isNone && decide (dstBase cfg (ppOf e.1) = t.dst)) =
      leftRuns cfg.mcn cfg.lastPath E e.1 t := by
  unfold leftRuns
  rw [inB_eq hE he]
  cases h : atRuns cfg.mcn cfg.lastPath e.1
  · simp
  · rw [stB_eq hm hE he h, stage_decide (dstBase_stage (hE e he).1 (atRuns_len hE he h)) t]

theorem inM_eq {e : Chunk × Int} (he : e ∈ E) : inM cfg (toEnts ppOf E) (ppOf e.1) = atMixed cfg.mcn cfg.lastPath E e.1 := by
  unfold inM atMixed
  rw [← leftB_eq hm hE he .mixed, ← stage_decide (dstPiece_stage (hE e he).1) .mixed]
  rfl

theorem atMixed_len {e : Chunk × Int} (he : e ∈ E) (h : atMixed cfg.mcn cfg.lastPath E e.1 = true) : 2 ≤ e.1.length := by
  unfold atMixed leftRuns at h
  simp only [Bool.or_eq_true, Bool.and_eq_true] at h
  rcases h with h | ⟨⟨h, -⟩, -⟩
  · apply firstStage_runs (mcn := cfg.mcn) (lp := cfg.lastPath) (hE e he).1.ne
    rw [of_decide_eq_true h]
    intro h; cases h
  · exact atRuns_len hE he h

theorem stM_eq {e : Chunk × Int} (he : e ∈ E) (h : atMixed cfg.mcn cfg.lastPath E e.1 = true) :
    stM cfg (toEnts ppOf E) (ppOf e.1) = setMixed cfg.mcn cfg.lastPath E e.1 := by
  unfold stM setMixed
  rw [filter_toEnts (f := inM cfg (toEnts ppOf E)) hE (fun e he => inM_eq hm hE he)]
  apply settle_eq hm false joinInj_token
  · intro e' he'
    have := List.mem_filter.mp he'
    exact ⟨(hE e' this.1).1.runny, (hE e' this.1).2, byMixed_ok (hE e' this.1).1.runny (atMixed_len hm hE this.1 this.2)⟩
  · exact List.mem_map_of_mem (List.mem_filter.mpr ⟨he, h⟩)

theorem leftM_eq {e : Chunk × Int} (he : e ∈ E) (t : Stage) :
    (inM cfg (toEnts ppOf E) (ppOf e.1) && (stM cfg (toEnts ppOf E) (ppOf e.1)).isNone && decide (dstMixed cfg (ppOf e.1) = t.dst)) =
      leftMixed cfg.mcn cfg.lastPath E e.1 t := by
  unfold leftMixed
  rw [inM_eq hm hE he]
  cases h : atMixed cfg.mcn cfg.lastPath E e.1
  · simp
  · rw [stM_eq hm hE he h, stage_decide dstMixed_stage t]

theorem inL_eq {e : Chunk × Int} (he : e ∈ E) : inL cfg (toEnts ppOf E) (ppOf e.1) = atDot cfg.mcn cfg.lastPath E e.1 := by
  unfold inL atDot
  rw [← leftB_eq hm hE he .dot, ← leftM_eq hm hE he .dot, ← stage_decide (dstPiece_stage (hE e he).1) .dot, Bool.or_assoc]
  rfl

theorem atDot_lp {e : Chunk × Int} (he : e ∈ E) (h : atDot cfg.mcn cfg.lastPath E e.1 = true) : cfg.lastPath = true := by
  rw [← inL_eq hm hE he] at h
  unfold inL at h
  simp only [Bool.or_eq_true, Bool.and_eq_true, decide_eq_true_eq] at h
  rcases h with h | h | h
  · exact dst_lastPath (.inl h)
  · exact dst_lastPath (.inr (.inl h.2))
  · exact dst_lastPath (.inr (.inr h.2))

theorem stL_eq {e : Chunk × Int} (he : e ∈ E) (h : atDot cfg.mcn cfg.lastPath E e.1 = true) :
    stL cfg (toEnts ppOf E) (ppOf e.1) = setDot cfg.mcn cfg.lastPath E e.1 := by
  unfold stL setDot
  rw [filter_toEnts (f := inL cfg (toEnts ppOf E)) hE (fun e he => inL_eq hm hE he)]
  have hlp := atDot_lp hm hE he h
  apply settle_eq hm true joinInj_noslash
  · intro e' he'
    have := List.mem_filter.mp he'
    exact ⟨(hE e' this.1).1.runny, (hE e' this.1).2, byDot_ok (hE e' this.1).1.runny ((hE e' this.1).1.slash hlp)⟩
  · exact List.mem_map_of_mem (List.mem_filter.mpr ⟨he, h⟩)

theorem inN_eq {e : Chunk × Int} (he : e ∈ E) : inN cfg (toEnts ppOf E) (ppOf e.1) = atWhole cfg.mcn cfg.lastPath E e.1 := by
  unfold inN atWhole
  have e1 : (inL cfg (toEnts ppOf E) (ppOf e.1) && (stL cfg (toEnts ppOf E) (ppOf e.1)).isNone) =
      (atDot cfg.mcn cfg.lastPath E e.1 && (setDot cfg.mcn cfg.lastPath E e.1).isNone) := by
    rw [inL_eq hm hE he]
    cases h : atDot cfg.mcn cfg.lastPath E e.1
    · simp
    · rw [stL_eq hm hE he h]
  rw [← leftB_eq hm hE he .whole, ← leftM_eq hm hE he .whole, ← stage_decide (dstPiece_stage (hE e he).1) .whole, e1, Bool.or_assoc, Bool.or_assoc]
  rfl

theorem stagePat_eq {e : Chunk × Int} (he : e ∈ E) (hv : varied cfg.mcn (numbers E) = true) :
    stagePat cfg (toEnts ppOf E) (ppOf e.1) = pieceRuleText cfg.mcn cfg.lastPath E e.1 := by
  have b1 : (inB cfg (ppOf e.1) && (stB cfg (toEnts ppOf E) (ppOf e.1)).isSome) =
      (atRuns cfg.mcn cfg.lastPath e.1 && (setRuns cfg.mcn cfg.lastPath E e.1).isSome) := by
    rw [inB_eq hE he]
    cases h : atRuns cfg.mcn cfg.lastPath e.1
    · simp
    · rw [stB_eq hm hE he h]
  have b2 : (inM cfg (toEnts ppOf E) (ppOf e.1) && (stM cfg (toEnts ppOf E) (ppOf e.1)).isSome) =
      (atMixed cfg.mcn cfg.lastPath E e.1 && (setMixed cfg.mcn cfg.lastPath E e.1).isSome) := by
    rw [inM_eq hm hE he]
    cases h : atMixed cfg.mcn cfg.lastPath E e.1
    · simp
    · rw [stM_eq hm hE he h]
  have b3 : (inL cfg (toEnts ppOf E) (ppOf e.1) && (stL cfg (toEnts ppOf E) (ppOf e.1)).isSome) =
      (atDot cfg.mcn cfg.lastPath E e.1 && (setDot cfg.mcn cfg.lastPath E e.1).isSome) := by
    rw [inL_eq hm hE he]
    cases h : atDot cfg.mcn cfg.lastPath E e.1
    · simp
    · rw [stL_eq hm hE he h]
  unfold stagePat stageOf pieceRuleText
  rw [hv, b1, b2, b3]
  simp only [Bool.not_true, Bool.false_eq_true, if_false]
  by_cases h1 : (atRuns cfg.mcn cfg.lastPath e.1 && (setRuns cfg.mcn cfg.lastPath E e.1).isSome) = true
  · rw [if_pos h1, if_pos h1]
    simp only
    rw [stB_eq hm hE he (Bool.and_eq_true_iff.mp h1).1]
  · rw [if_neg h1, if_neg h1]
    by_cases h2 : (atMixed cfg.mcn cfg.lastPath E e.1 && (setMixed cfg.mcn cfg.lastPath E e.1).isSome) = true
    · rw [if_pos h2, if_pos h2]
      simp only
      rw [stM_eq hm hE he (Bool.and_eq_true_iff.mp h2).1]
    · rw [if_neg h2, if_neg h2]
      by_cases h3 : (atDot cfg.mcn cfg.lastPath E e.1 && (setDot cfg.mcn cfg.lastPath E e.1).isSome) = true
      · rw [if_pos h3, if_pos h3]
        simp only
        rw [stL_eq hm hE he (Bool.and_eq_true_iff.mp h3).1]
      · rw [if_neg h3, if_neg h3]
        simp only
        rw [filter_toEnts (f := inN cfg (toEnts ppOf E)) hE (fun e he => inN_eq hm hE he),
          wholeText_eq vpair_ppOf cfg.mcn (fun e he => (hE e (List.mem_filter.mp he).1).1.runny) (hE e he).1.runny (hE e he).1.ne]

end

/-- The columns of the pieces of URLs with the same structure. -/
def TopCol (d : Nat) (cls : Nat → Str) (j : Nat) (g : Chunk) : Prop := Runny g ∧ clsText g = cls j ∧ (d = j + 1 → '/' ∉ clsText g)

theorem ppOf_injOn (d : Nat) (cls : Nat → Str) : InjOn ppOf (TopCol d cls) := by
  intro j g g' h h' e
  apply lit_inj h.1 h'.1
  have := congrArg vpair e
  rw [vpair_ppOf, vpair_ppOf] at this
  exact (Prod.mk.inj this).1

theorem url_agree {mcn : Int} (hm : 2 ≤ mcn) (m : URLMeta) (n : Nat) (cls : Nat → Str) :
    AgreeF ppOf (TopCol m.pathDepth cls) n (urlRule mcn m.pathDepth) (topF mcn m false n) := by
  intro j hj E hE g hg
  obtain ⟨e0, he0, rfl⟩ := List.mem_map.mp hg
  have hg0 := hE.mem e0 he0
  unfold urlRule topF
  rw [Bool.and_false, Bool.false_or, litStop_varied]
  have hp : (ppOf e0.1).piece = litText e0.1 := (Prod.mk.inj (vpair_ppOf e0.1)).1
  cases hv : varied mcn (numbers E)
  · rw [Bool.not_false, if_pos rfl, hp]
    unfold pieceRuleText
    rw [hv, Bool.not_false, if_pos rfl]
  · have hne : e0.1 ≠ [] := by
      intro hne
      obtain ⟨c, hc, e⟩ := one_chunk hE (g := e0.1) (fun e he => by
        have := hE.mem e he
        rw [hne]
        apply cls_nil this.1
        rw [this.2.1, ← hg0.2.1, hne]; rfl) hg
      rw [e, varied_one hm hc] at hv
      cases hv
    rw [Bool.not_true, if_neg (by simp)]
    refine (stagePat_eq (cfg := cfgAt mcn m false n j) (E := E) hm ?_ he0 hv).symm
    intro e he
    have h1 := hE.mem e he
    refine ⟨⟨h1.1, ?_, ?_⟩, hE.pos e he⟩
    · intro h2
      apply hne
      apply cls_nil hg0.1
      rw [hg0.2.1, ← h1.2.1, h2]; rfl
    · intro hlp
      exact h1.2.2 (by simpa [cfgAt] using hlp)

end OsUrl
