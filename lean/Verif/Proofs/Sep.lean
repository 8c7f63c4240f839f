import Verif.Proofs.Fit

/-! Facts about the stages used to show that they do not share patterns. -/

namespace OsUrl
open Spec

/-! ### What settling tells -/

theorem labs_last_lit {mcn : Int} {N : Nat} : ∀ {k j : Nat} {S : List Ins} {x : Ins}, j + k = N → ∀ i, i + 1 = k →
    (labs (flatF mcn true N) k j S x)[i]? = some (x.pp (j + i)).piece := by
  intro k j S x hN i hi
  obtain ⟨S', -, -, e⟩ := labs_get (F := flatF mcn true N) (k := k) (j := j) (S := S) (x := x) (i := i) (by omega)
  rw [e]
  unfold lab flatF
  rw [if_pos (by simp; left; omega)]

/-- The texts fit the parts. -/
def FitList (ps : List ParsedPiece) (as : List Str) : Prop := ∀ (i : Nat) q a, ps[i]? = some q → as[i]? = some a → FitPart q a

theorem settle_labels {mcn : Int} (hm : 2 ≤ mcn) {kw : Bool} {Tok : Str → Prop} {V : ParsedPiece → View} (hj : JoinInj Tok) {B : List Ent}
    (hB : ∀ e ∈ B, ViewOK Tok V e.1) (hpos : ∀ e ∈ B, 1 ≤ e.2) {e : Ent} (he : e ∈ B) {q : Str} (hs : settle mcn kw V B e.1 = some q) :
    ∃ as : List Str, as.length = (V e.1).pps.length ∧ as.flatten = q ∧
      FitList (V e.1).pps as ∧
      (kw = true → ∀ (i : Nat) q, i + 1 = as.length → (V e.1).pps[i]? = some q → as[i]? = some q.piece) ∧
      ∀ e' ∈ B, (V e'.1).view = (V e.1).view → FitList (V e'.1).pps as → settle mcn kw V B e'.1 = some q := by
  have hgrp : ∀ e' ∈ vgrp V B e.1, e' ∈ B ∧ (V e'.1).view = (V e.1).view := by
    intro e' he'
    have := List.mem_filter.mp he'
    exact ⟨this.1, of_decide_eq_true this.2⟩
  have hself : e ∈ vgrp V B e.1 := List.mem_filter.mpr ⟨he, by simp⟩
  have hrul : ∀ e' ∈ B, (V e'.1).view = (V e.1).view → (V e'.1).pps.map (·.fuzzyRule) = (V e.1).pps.map (·.fuzzyRule) :=
    fun e' he' hv => same_rules hj (hB e' he') (hB e he) hv
  have hlen : ∀ e' ∈ B, (V e'.1).view = (V e.1).view → (V e'.1).pps.length = (V e.1).pps.length := by
    intro e' he' hv
    have := congrArg List.length (hrul e' he' hv)
    simpa using this
  generalize hn : (V e.1).pps.length = n at hlen ⊢
  generalize hRdef : (vgrp V B e.1).map (vrow V) = R
  have mem : ∀ x ∈ R, ∃ e' ∈ B, (V e'.1).view = (V e.1).view ∧ x = vrow V (e'.1, e'.2) := by
    intro x hx
    rw [← hRdef] at hx
    obtain ⟨e', he', rfl⟩ := List.mem_map.mp hx
    exact ⟨e', (hgrp e' he').1, (hgrp e' he').2, rfl⟩
  have memR : ∀ e' ∈ B, (V e'.1).view = (V e.1).view → vrow V e' ∈ R := by
    intro e' he' hv
    rw [← hRdef]
    exact List.mem_map.mpr ⟨e', List.mem_filter.mpr ⟨he', by simpa using hv⟩, rfl⟩
  have hR : FlatRows n R := by
    refine ⟨?_, ?_, ?_⟩
    · intro x hx
      obtain ⟨e', he', hv, rfl⟩ := mem x hx
      exact hpos e' he'
    · intro j hj'
      left
      intro x hx
      obtain ⟨e', he', hv, rfl⟩ := mem x hx
      exact vrow_part _ (hB e' he') (by rw [hlen e' he' hv]; exact hj')
    · intro x hx y hy j _
      obtain ⟨e', he', hv, rfl⟩ := mem x hx
      obtain ⟨e'', he'', hv', rfl⟩ := mem y hy
      exact vrow_rule _ _ ((hrul e' he' hv).trans (hrul e'' he'' hv').symm) j
  have settle_row : ∀ e' ∈ B, (V e'.1).view = (V e.1).view →
      settle mcn kw V B e'.1 = if cntE (vgrp V B e.1) < mcn then none else rowSettle mcn kw n R (vrow V e') := by
    intro e' he' hv
    have h1 : vgrp V B e'.1 = vgrp V B e.1 := by unfold vgrp; rw [hv]
    unfold settle
    rw [h1, hlen e' he' hv, hRdef, rowSettle_pp (y := vrow V e') (fun j => vrow_same V e'.1 0 e'.2 j)]
  have hs' := settle_row e he rfl
  rw [hs] at hs'
  have hc : ¬ cntE (vgrp V B e.1) < mcn := by
    intro hc; rw [if_pos hc] at hs'; cases hs'
  rw [if_neg hc] at hs'
  have hrow := hs'.symm
  have hx := memR e he rfl
  unfold rowSettle at hrow
  split at hrow
  · cases hrow
  · injection hrow with hrow
    generalize hC : famN (flatF mcn kw n) n (R.length + 1) R (vrow V e) = C at hrow
    have hCs : ∀ c ∈ C, c ∈ R := by intro c h; rw [← hC] at h; exact famN_sub _ _ _ c h
    have hxC : vrow V e ∈ C := by rw [← hC]; exact famN_self _ _ _ hx
    have hfit := labs_fit hm (kw := kw) (N := n) (k := n) (j := 0) (hR.sub hCs) (by omega) hxC
    have hL : (labs (flatF mcn kw n) n 0 C (vrow V e)).length = n := labs_length _ _ _ _ _
    have get : ∀ (e' : Ent) (i : Nat) q, (V e'.1).pps[i]? = some q → (vrow V e').pp i = q := by
      intro e' i q h
      have := vrow_pp V e' i
      rw [h] at this
      exact this
    refine ⟨_, hL, hrow, ?_, ?_, ?_⟩
    · intro i q a h1 h2
      obtain ⟨hi, rfl⟩ := List.getElem?_eq_some_iff.mp h2
      have := hfit i hi
      rw [Nat.zero_add, get e i q h1] at this
      exact this
    · rintro rfl i q hi hq
      have := labs_last_lit (mcn := mcn) (N := n) (k := n) (j := 0) (S := C) (x := vrow V e) (by omega) i (by omega)
      rw [Nat.zero_add, get e i q hq] at this
      exact this
    · intro e' he' hv hf
      rw [settle_row e' he' hv, if_neg hc, hs']
      refine rowSettle_close hm hR hx (memR e' he' hv) ?_
      rw [hC]
      intro i hi
      have h2 : i < (V e'.1).pps.length := by rw [hlen e' he' hv]; omega
      rw [Nat.zero_add, get e' i _ (List.getElem?_eq_getElem h2)]
      exact hf i _ _ (List.getElem?_eq_getElem h2) (List.getElem?_eq_getElem hi)

/-- The same in terms of groups. -/
theorem settle_groups {mcn : Int} (hm : 2 ≤ mcn) {kw : Bool} {Tok : Str → Prop} {V : ParsedPiece → View} (hj : JoinInj Tok) {B : List Ent}
    (hB : ∀ e ∈ B, ViewOK Tok V e.1) (hpos : ∀ e ∈ B, 1 ≤ e.2) {e : Ent} (he : e ∈ B) {q : Str} (hs : settle mcn kw V B e.1 = some q)
    {gs : List (List Run)} (hg : (V e.1).pps = gs.map gpart) :
    ∃ as : List Str, GFit gs as ∧ as.flatten = q ∧ (kw = true → ∀ gs0 g, gs = gs0 ++ [g] → ∃ as0, as = as0 ++ [(gpair g).1]) ∧
      ∀ e' ∈ B, (V e'.1).view = (V e.1).view → ∀ gs', (V e'.1).pps = gs'.map gpart → GFit gs' as → settle mcn kw V B e'.1 = some q := by
  obtain ⟨as, h1, h2, h3, h4, h5⟩ := settle_labels hm hj hB hpos he hs
  refine ⟨as, ?_, h2, ?_, ?_⟩
  · clear h4 h5
    rw [hg] at h1 h3
    clear hg hs h2
    induction gs generalizing as with
    | nil =>
      have : as = [] := List.length_eq_zero_iff.mp (by simpa using h1)
      subst this
      exact .nil
    | cons g gs ih =>
      cases as with
      | nil => simp at h1
      | cons a as =>
        refine .cons (h3 0 _ _ rfl rfl) (ih as (by simpa using h1) ?_)
        intro i q a hq ha
        exact h3 (i + 1) q a (by simpa using hq) (by simpa using ha)
  · intro hk gs0 g hgs
    have hl : as.length = gs0.length + 1 := by rw [h1, hg, hgs]; simp
    have h6 := h4 hk gs0.length (gpart g) (by omega) (by rw [hg, hgs]; simp)
    rw [(gpart_pair g).1] at h6
    refine ⟨as.take gs0.length, ?_⟩
    have h7 := List.take_append_drop gs0.length as
    obtain ⟨hi, h6⟩ := List.getElem?_eq_some_iff.mp h6
    have h8 : as.drop gs0.length = [as[gs0.length]] := by
      rw [List.drop_eq_getElem_cons (by omega), List.drop_of_length_le (by omega)]
    rw [h8, h6] at h7
    exact h7.symm
  · intro e' he' hv gs' hg' hf
    refine h5 e' he' hv ?_
    rw [hg']
    clear h1 h2 h3 h4 h5 hg' hv
    induction hf with
    | nil => intro i q a hq _; simp at hq
    | cons h hs ih =>
      intro i q a hq ha
      cases i with
      | zero => simp at hq ha; subst hq; subst ha; exact h
      | succ i => exact ih i q a (by simpa using hq) (by simpa using ha)

/-! ### The groups of the mixed view -/

/-- The group can be mixed. -/
def AllMix (g : List Run) : Prop := ∀ r ∈ g, Mixable r.1.text

/-- The groups of the mixed view. -/
structure MixG (gs : List (List Run)) : Prop where
  good : ∀ g ∈ gs, g ≠ [] ∧ (AllMix g ∨ ∃ r, g = [r] ∧ ¬ Mixable r.1.text)
  maximal : Neighbours (fun g g' => ¬ (AllMix g ∧ AllMix g')) gs

theorem MixG.tail {g : List Run} {gs : List (List Run)} (h : MixG (g :: gs)) : MixG gs :=
  ⟨fun x hx => h.good x (by simp [hx]), neighbours_drop (a := [g]) (by simpa using h.maximal)⟩

/-- In a group that starts with a mixable run all runs are. -/
theorem MixG.allMix {g : List Run} {gs : List (List Run)} (h : MixG gs) (hg : g ∈ gs) {r : Run} (hr : r ∈ g) (hm : Mixable r.1.text) : AllMix g := by
  rcases (h.good g hg).2 with h1 | ⟨r', rfl, h1⟩
  · exact h1
  · simp at hr; subst hr; exact absurd hm h1

theorem MixG.prefix {g h : List Run} {hs : List (List Run)} (hh : MixG (h :: hs)) (hg : AllMix g) (hhm : AllMix h)
    {t : List Run} (e : (h :: hs).flatten = g ++ t) : ∃ u, h = g ++ u := by
  rw [List.flatten_cons] at e
  rcases List.append_eq_append_iff.mp e with ⟨u, h1, h2⟩ | ⟨u, h1, h2⟩
  · -- g = h ++ u
    cases u with
    | nil => exact ⟨[], by simpa using h1.symm⟩
    | cons r u =>
      exfalso
      cases hs with
      | nil => simp at h2
      | cons h' hs =>
        have hne' := (hh.good h' (by simp)).1
        cases h' with
        | nil => exact hne' rfl
        | cons r' h'' =>
          rw [List.flatten_cons, List.cons_append, List.cons_append, List.cons.injEq] at h2
          have hr' : Mixable r'.1.text := by
            rw [h2.1]
            exact hg r (by rw [h1]; simp)
          exact hh.maximal [] h (r' :: h'') hs rfl ⟨hhm, hh.allMix (by simp) (r := r') (by simp) hr'⟩
  · exact ⟨u, h1⟩

theorem mixG_unique : ∀ {gs hs : List (List Run)}, MixG gs → MixG hs → gs.flatten = hs.flatten → gs = hs := by
  intro gs
  induction gs with
  | nil =>
    intro hs _ h2 e
    cases hs with
    | nil => rfl
    | cons h hs =>
      have := (h2.good h (by simp)).1
      rw [List.flatten_nil, List.flatten_cons] at e
      exact absurd (List.append_eq_nil_iff.mp e.symm).1 this
  | cons g gs ih =>
    intro hs h1 h2 e
    cases hs with
    | nil =>
      have := (h1.good g (by simp)).1
      rw [List.flatten_nil, List.flatten_cons] at e
      exact absurd (List.append_eq_nil_iff.mp e).1 this
    | cons h hs =>
      obtain ⟨n1, c1⟩ := h1.good g (by simp)
      obtain ⟨n2, c2⟩ := h2.good h (by simp)
      have hgh : g = h := by
        obtain ⟨r, g', rfl⟩ := List.exists_cons_of_ne_nil n1
        obtain ⟨r', h', rfl⟩ := List.exists_cons_of_ne_nil n2
        have er : r = r' := by
          have := e
          rw [List.flatten_cons, List.flatten_cons, List.cons_append, List.cons_append, List.cons.injEq] at this
          exact this.1
        subst er
        rcases c1 with c1 | ⟨x, hx, c1⟩
        · have hr := c1 r (by simp)
          have c2' : AllMix (r :: h') := h2.allMix (by simp) (r := r) (by simp) hr
          obtain ⟨u, hu⟩ := h2.prefix c1 c2' (t := gs.flatten) (by rw [← e, List.flatten_cons])
          obtain ⟨v, hv⟩ := h1.prefix c2' c1 (t := hs.flatten) (by rw [e, List.flatten_cons])
          rw [hu] at hv
          have : u ++ v = [] := by
            have := congrArg List.length hv
            simp only [List.length_append, List.length_cons] at this
            have h3 : u.length = 0 ∧ v.length = 0 := by omega
            rw [List.length_eq_zero_iff.mp h3.1, List.length_eq_zero_iff.mp h3.2]; rfl
          rw [hu, (List.append_eq_nil_iff.mp this).1, List.append_nil]
        · simp only [List.cons.injEq] at hx
          obtain ⟨rfl, rfl⟩ := hx
          rcases c2 with c2 | ⟨x, hx, -⟩
          · exact absurd (c2 r (by simp)) c1
          · simp only [List.cons.injEq] at hx
            rw [hx.2]
      subst hgh
      rw [List.flatten_cons, List.flatten_cons] at e
      rw [ih h1.tail h2.tail (List.append_cancel_left e)]

theorem mixg_exists (rs : List Run) : ∃ gs : List (List Run), gs.flatten = rs ∧
      mix (rs.map runText) (rs.map (·.1.text)) = (gs.map (fun g => (gpair g).1), gs.map (fun g => (gpair g).2)) ∧ MixG gs := by
  obtain ⟨gs', hg, hm⟩ := mix_groups (rs.map runText) (rs.map (·.1.text))
  obtain ⟨gs, e1, rfl⟩ := lift_groups (fun r : Space × Str => (runText r, r.1.text)) (by rw [hg.concat, zip_ppOf])
  have hmix : ∀ g : List Run, MixGroup (g.map (fun r : Space × Str => (runText r, r.1.text))) ↔ AllMix g := by
    intro g
    constructor
    · intro h r hr
      exact h _ (List.mem_map.mpr ⟨r, hr, rfl⟩)
    · intro h x hx
      obtain ⟨r, hr, rfl⟩ := List.mem_map.mp hx
      exact h r hr
  refine ⟨gs, e1, ?_, ?_, ?_⟩
  · rw [hm]
    simp [gpair, groupText, groupRule, Function.comp_def, List.map_map]
  · intro g hgm
    have := hg.good _ (List.mem_map.mpr ⟨g, hgm, rfl⟩)
    refine ⟨by have := this.1; simpa using this, ?_⟩
    rcases this.2 with h | ⟨pr, h, h'⟩
    · left
      exact (hmix g).mp h
    · right
      obtain ⟨r, h2, h3⟩ := List.map_eq_singleton_iff.mp h
      exact ⟨r, h2, by rw [← h3] at h'; exact h'⟩
  · intro a x y b e
    have := hg.maximal (a.map (List.map (fun r : Space × Str => (runText r, r.1.text)))) (x.map (fun r : Space × Str => (runText r, r.1.text))) (y.map (fun r : Space × Str => (runText r, r.1.text))) (b.map (List.map (fun r : Space × Str => (runText r, r.1.text)))) (by rw [e]; simp)
    simp only [hmix] at this
    exact this

theorem mixG_mix {rs : List Run} {gs : List (List Run)} (h : MixG gs) (hf : gs.flatten = rs) :
    mix (rs.map runText) (rs.map (·.1.text)) = (gs.map (fun g => (gpair g).1), gs.map (fun g => (gpair g).2)) := by
  obtain ⟨hs, e1, e2, e3⟩ := mixg_exists rs
  rw [e2, mixG_unique h e3 (hf.trans e1.symm)]

theorem mixed_groups {rs : List Run} (hl : 2 ≤ rs.length) {gs : List (List Run)} (h : MixG gs) (hf : gs.flatten = rs) :
    mixedPieces (ppOf rs) = gs.map gpart := by
  unfold mixedPieces
  rw [if_neg (by simp [ppOf]; omega)]
  simp only [ppOf, mixG_mix h hf]
  exact zip_gpair' gs

theorem multi_groups (rs : List Run) : multiPieces (ppOf rs) = (rs.map (fun r => [r])).map gpart := multi_pieces rs

/-! ### The groups of the last dot view -/

theorem lastDotIdx_go {rules : List Str} : ∀ (t : List Str) (i : Nat) (rest : List Str), (∀ r ∈ t, r ≠ ruleDot) → i + t.length ≤ 2 →
    lastDotIdx.go rules i (t ++ ruleDot :: rest) = some (rules.length - (i + t.length) - 1) := by
  intro t
  induction t with
  | nil =>
    intro i rest _ hi
    simp only [List.length_nil] at hi
    rw [List.nil_append, lastDotIdx.go, if_neg (by omega), if_pos rfl]; simp
  | cons r t ih =>
    intro i rest ht hi
    simp only [List.length_cons] at hi
    rw [List.cons_append, lastDotIdx.go, if_neg (by omega), if_neg (ht r (by simp)), ih (i + 1) rest (fun x hx => ht x (by simp [hx])) (by omega)]
    simp only [List.length_cons]
    congr 1
    omega

theorem lastDotIdx_inv {rules : List Str} {i : Nat} (h : lastDotIdx rules = some i) : i < rules.length ∧ rules.length - i ≤ 3 := by
  have key : ∀ (b : List Str) (k : Nat), lastDotIdx.go rules k b = some i → ∃ m, m ≤ 2 ∧ i = rules.length - m - 1 := by
    intro b
    induction b with
    | nil => intro k h; simp [lastDotIdx.go] at h
    | cons r b ih =>
      intro k h
      unfold lastDotIdx.go at h
      split at h
      · cases h
      · split at h
        · simp only [Option.some.injEq] at h
          exact ⟨k, by omega, h.symm⟩
        · exact ih _ h
  obtain ⟨m, h1, h2⟩ := key _ _ h
  have h3 := lastDotIdx_bound h
  have : i < rules.length := by
    rcases Nat.lt_or_ge i rules.length with h | h
    · exact h
    · rw [List.getElem?_eq_none h] at h3; cases h3
  omega

/-- The last dot view when the dot is among the last three runs. -/
theorem lastDot_split {d t : List Run} {r : Run} (hr : r.1.text = ruleDot) (ht : t.length ≤ 2) (hd : ∀ x ∈ t, x.1.text ∈ digitAsciiRuleSet)
    {gs : List (List Run)} (hm : MixG gs) (hf : gs.flatten = t) :
    lastDotPieces (ppOf (d ++ r :: t)) = (d :: [r] :: gs).map gpart := by
  have hnd : ∀ x ∈ digitAsciiRuleSet, x ≠ ruleDot := by decide
  have hidx : lastDotIdx (ppOf (d ++ r :: t)).rules = some d.length := by
    unfold lastDotIdx
    have e : (ppOf (d ++ r :: t)).rules.reverse = (t.map (·.1.text)).reverse ++ ruleDot :: (d.map (·.1.text)).reverse := by
      simp [ppOf, hr]
    rw [e, lastDotIdx_go]
    · simp [ppOf]; omega
    · intro x hx
      simp only [List.mem_reverse, List.mem_map] at hx
      obtain ⟨y, hy, rfl⟩ := hx
      exact hnd _ (hd y hy)
    · simpa using ht
  unfold lastDotPieces
  rw [hidx]
  simp only
  have hdrop : (ppOf (d ++ r :: t)).rules.drop (d.length + 1) = t.map (·.1.text) := by
    simp [ppOf, List.drop_append]
  have hdropP : (ppOf (d ++ r :: t)).pieces.drop (d.length + 1) = t.map runText := by
    simp [ppOf, List.drop_append]
  rw [hdrop, hdropP, mixG_mix hm hf, if_pos]
  · simp only
    have h1 : (ppOf (d ++ r :: t)).pieces.take d.length = d.map runText := by simp [ppOf]
    have h2 : (ppOf (d ++ r :: t)).rules.take d.length = d.map (·.1.text) := by simp [ppOf]
    have h3 : (ppOf (d ++ r :: t)).pieces.getD d.length [] = runText r := by simp [ppOf, List.getD_eq_getElem?_getD]
    have h4 : (ppOf (d ++ r :: t)).rules.getD d.length [] = r.1.text := by simp [ppOf, List.getD_eq_getElem?_getD]
    rw [h1, h2, h3, h4]
    have z := zip_gpair' (d :: [r] :: gs)
    rw [List.map_cons, List.map_cons, List.map_cons, List.map_cons, single_pair] at z
    exact z
  · rw [List.all_eq_true]
    intro x hx
    obtain ⟨y, hy, rfl⟩ := List.mem_map.mp hx
    simpa using hd y hy

theorem lastDot_cases (rs : List Run) : lastDotPieces (ppOf rs) = [rs].map gpart ∨
    ∃ d r t gs, rs = d ++ r :: t ∧ r.1.text = ruleDot ∧ t.length ≤ 2 ∧ (∀ x ∈ t, x.1.text ∈ digitAsciiRuleSet) ∧ MixG gs ∧ gs.flatten = t ∧
      lastDotPieces (ppOf rs) = (d :: [r] :: gs).map gpart := by
  have hfz : fuzzyPieces (ppOf rs) = [rs].map gpart := by
    unfold fuzzyPieces
    have := vpair_ppOf rs
    unfold vpair at this
    have h1 := congrArg Prod.fst this
    have h2 := congrArg Prod.snd this
    simp only at h1 h2
    simp [h1, h2, gpart]
  cases hi : lastDotIdx (ppOf rs).rules with
  | none => left; unfold lastDotPieces; rw [hi]; exact hfz
  | some i =>
    have hget := lastDotIdx_bound hi
    obtain ⟨hb1, hb2⟩ := lastDotIdx_inv hi
    simp only [ppOf, List.length_map] at hb1 hb2
    simp only [ppOf, List.getElem?_map, Option.map_eq_some_iff] at hget
    obtain ⟨r, hr, hrt⟩ := hget
    have hsplit : rs = rs.take i ++ r :: rs.drop (i + 1) := by
      conv => lhs; rw [← List.take_append_drop i rs]
      rw [List.drop_eq_getElem?_toList_append, hr]; rfl
    by_cases hall : ((ppOf rs).rules.drop (i + 1)).all (fun r => decide (r ∈ digitAsciiRuleSet)) = true
    · right
      have hd : ∀ x ∈ rs.drop (i + 1), x.1.text ∈ digitAsciiRuleSet := by
        intro x hx
        have := List.all_eq_true.mp hall x.1.text (by
          simp only [ppOf, ← List.map_drop]
          exact List.mem_map.mpr ⟨x, hx, rfl⟩)
        simpa using this
      obtain ⟨gs, e1, -, e3⟩ := mixg_exists (rs.drop (i + 1))
      have hlen : (rs.drop (i + 1)).length ≤ 2 := by rw [List.length_drop]; omega
      refine ⟨rs.take i, r, rs.drop (i + 1), gs, hsplit, hrt, hlen, hd, e3, e1, ?_⟩
      conv => lhs; rw [hsplit]
      exact lastDot_split hrt hlen hd e3 e1
    · left
      unfold lastDotPieces
      rw [hi]
      simp only
      rw [if_neg hall]
      exact hfz

end OsUrl
