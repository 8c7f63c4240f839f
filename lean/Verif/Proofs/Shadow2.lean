import Verif.Proofs.Shadow

/-! Exactly which patterns are returned: multi view matchers, URLs. -/

namespace OsUrl
open Spec

theorem lastMd_const {M : List (MIns Str)} {v : Str} (h : ∀ y ∈ M, y.2 = some v) (hne : M ≠ []) : lastMd M = some v := by
  revert h hne
  refine snoc_ind (P := fun M => (∀ y ∈ M, y.2 = some v) → M ≠ [] → lastMd M = some v) ?_ ?_ M
  · intro _ h; exact absurd rfl h
  · intro M y _ hM _
    simp [lastMd, List.foldl_append, hM y (by simp)]

/-- The patterns with a key, as insertions of their units. -/
def keyed (r : Str) (ps : List MatchPattern) : List (MIns Str) :=
  (ps.filter (fun p => decide (rkey p = r))).map unitIns

theorem multi_hits {c : ViewCls} (hc : MultiCls c) {ps : List MatchPattern} {s : FullStore}
    (h : fillStore urlOps c ps = .ok s) (hg : ∀ p ∈ ps, GoodPat p) (hi : StrInj ps) (hj : KeyInj ps) {pp : ParsedPiece}
    {keys : List Str} (hm : s.matches_ c (some pp) = .ok keys) {p : MatchPattern} (hp : p ∈ ps) :
    p.str ∈ keys ↔ rkey p = viewStr (viewPieces c pp) ∧
      Hits unitOps ((viewPieces c pp).map some) (keyed (viewStr (viewPieces c pp)) ps) (p.units.map unitMP) := by
  obtain ⟨d, rfl, hd⟩ := fill_multi hc h hg hj.len
  simp only [FullStore.matches_, multiMatch] at hm
  have hin := hd (viewStr (viewPieces c pp))
  cases hget : Dict.get? (viewStr (viewPieces c pp)) d with
  | none =>
    rw [hget] at hm hin
    simp at hm
    subst hm
    constructor
    · simp
    · rintro ⟨hr, -⟩; exact absurd hr (hin p hp)
  | some t =>
    obtain ⟨dt, kids⟩ := t
    rw [hget] at hm hin
    simp only at hm
    obtain ⟨ms, hms, hm⟩ := bind_ok hm
    simp only [pure, Except.pure, Except.ok.injEq] at hm
    subst hm
    obtain ⟨n, -, hlen, hT⟩ := hin
    have hcoh : Coh (keyed (viewStr (viewPieces c pp)) ps) :=
      unitIns_coh (fun q hq => hg q (List.mem_filter.mp hq).1)
    have hL : ∀ y ∈ keyed (viewStr (viewPieces c pp)) ps, y.1.length = n + 1 := by
      intro y hy
      obtain ⟨q, hq, rfl⟩ := List.mem_map.mp hy
      simp at hq
      simpa [unitIns] using hlen q hq.1 hq.2
    -- the meta of the leaf
    have hmeta : ∀ q ∈ ps, unitIns q ∈ keyed (viewStr (viewPieces c pp)) ps →
        lastMd ((keyed (viewStr (viewPieces c pp)) ps).filter (fun y => decide (y.1 = (unitIns q).1))) = some q.str := by
      intro q hq hqk
      refine lastMd_const ?_ (List.ne_nil_of_mem (List.mem_filter.mpr ⟨hqk, by simp⟩))
      intro y hy
      obtain ⟨hy1, hy2⟩ := List.mem_filter.mp hy
      obtain ⟨q', hq1, rfl⟩ := List.mem_map.mp hy1
      have hg' := hg q' (List.mem_filter.mp hq1).1
      have e : q'.units.map unitMP = q.units.map unitMP := of_decide_eq_true hy2
      have e2 := congrArg (List.map MatchPattern.str) e
      simp only [List.map_map] at e2
      have e3 : q'.units.map (·.str) = q.units.map (·.str) := e2
      simp only [unitIns, Option.some.injEq]
      rw [← hg'.flat, e3, (hg q hq).flat]
    constructor
    · intro hk
      obtain ⟨m, hmm, hmd⟩ := List.mem_filterMap.mp hk
      obtain ⟨x, hx, hpath, hhits, hmdx⟩ := mmatch_sound hT hL hcoh hms hmm
      have hx' := hx
      obtain ⟨q, hq, rfl⟩ := List.mem_map.mp hx
      have hq' := List.mem_filter.mp hq
      have e1 := hmeta q hq'.1 hx'
      have e2 : m.data.md = some q.str := hmdx.trans e1
      rw [hmd, Option.some.injEq] at e2
      have := hi p hp q hq'.1 e2
      subst this
      exact ⟨by simpa using hq'.2, hhits⟩
    · rintro ⟨hr, hh⟩
      have hpin : unitIns p ∈ keyed (viewStr (viewPieces c pp)) ps :=
        List.mem_map.mpr ⟨p, List.mem_filter.mpr ⟨hp, by simpa using hr⟩, rfl⟩
      obtain ⟨m, hm, hpath⟩ := mmatch_complete hT hL hcoh hms hpin hh
      rw [List.mem_filterMap]
      refine ⟨m, hm, ?_⟩
      obtain ⟨x, hx, hpx, -, hmd⟩ := mmatch_sound hT hL hcoh hms hm
      rw [hmd]
      have hxp : x.1 = (unitIns p).1 := by simpa using hpx.symm.trans hpath
      rw [hxp]
      exact hmeta p hp hpin

/-- A unit of the pattern `p` is hidden, in a node with the children `ps`. -/
def ShadF (ps : List MatchPattern) (p : MatchPattern) : Prop :=
  ∃ (j : Nat) (u v : PatternUnit), p.units[j]? = some u ∧ FixedClass u ∧ FixedClass v ∧ v.num = u.num ∧ v ≠ u ∧
    Overtaken (fun q => q.cls = p.cls ∧ q.units.map (·.fuzzyRule) = p.units.map (·.fuzzyRule) ∧
        q.units.take (j + 1) = p.units.take j ++ [u])
      (fun q => q.cls = p.cls ∧ q.units.map (·.fuzzyRule) = p.units.map (·.fuzzyRule) ∧
        q.units.take (j + 1) = p.units.take j ++ [v]) ps

theorem fixed_iff {u : PatternUnit} : FixedClass u ↔ unitCls u = .length := by
  unfold FixedClass unitCls
  cases u.isLiteral with
  | true => simp
  | false =>
    by_cases h : u.num < 0
    · simp [h]; 
    · simp [h]; omega

theorem unitMP_inj {u v : PatternUnit} (h : unitMP u = unitMP v) : u = v := by
  have := congrArg MatchPattern.units h
  simpa [unitMP] using this

theorem map_unitMP_prefix {us a : List PatternUnit} {w : PatternUnit} {j : Nat} (hj : a.length = j) :
    (∃ t, us.map unitMP = a.map unitMP ++ unitMP w :: t) ↔ us.take (j + 1) = a ++ [w] := by
  have inj : ∀ {xs ys : List PatternUnit}, xs.map unitMP = ys.map unitMP → xs = ys := by
    intro xs
    induction xs with
    | nil => intro ys h; cases ys with
      | nil => rfl
      | cons y ys => simp at h
    | cons x xs ih => intro ys h; cases ys with
      | nil => simp at h
      | cons y ys =>
        simp only [List.map_cons, List.cons.injEq] at h
        rw [unitMP_inj h.1, ih h.2]
  constructor
  · rintro ⟨t, e⟩
    apply inj
    rw [List.map_take, e, List.map_append]
    simp [List.take_append, hj]
    subst hj
    exact List.take_of_length_le (by simp)
  · intro e
    refine ⟨(us.drop (j + 1)).map unitMP, ?_⟩
    conv => lhs; rw [← List.take_append_drop (j + 1) us, e]
    simp

theorem multi_iff {c : ViewCls} (hc : MultiCls c) {ps : List MatchPattern} {s : FullStore}
    (h : fillStore urlOps c (ps.filter (fun q => decide (q.cls = c))) = .ok s) {pp : ParsedPiece} (hl : Lvl pp ps)
    (hlt : LvlT pp ps) {keys : List Str} (hm : s.matches_ c (some pp) = .ok keys) {p : MatchPattern} (hp : p ∈ ps)
    (hpc : p.cls = c) : p.str ∈ keys ↔ SelM (viewPieces c pp) p ∧ ¬ ShadF ps p := by
  have hpf : p ∈ ps.filter (fun q => decide (q.cls = c)) := List.mem_filter.mpr ⟨hp, by simpa using hpc⟩
  have hgf : ∀ q ∈ ps.filter (fun q => decide (q.cls = c)), GoodPat q := fun q hq => hl.good q (List.mem_filter.mp hq).1
  rw [multi_hits hc h hgf (fun a ha b hb => hl.inj a (List.mem_filter.mp ha).1 b (List.mem_filter.mp hb).1)
    (hl.keyInj hc) hm hpf]
  have hview := hl.view p hp (hpc ▸ hc)
  rw [hpc] at hview
  have hkey : (viewPieces c pp).map (·.fuzzyRule) = p.units.map (·.fuzzyRule) ↔ rkey p = viewStr (viewPieces c pp) := by
    constructor
    · intro e; unfold rkey viewStr; rw [e]
    · intro e; exact hview e.symm
  have hsm : SelM (viewPieces c pp) p ↔ rkey p = viewStr (viewPieces c pp) ∧
      ∀ (i : Nat) vp u, (viewPieces c pp)[i]? = some vp → p.units[i]? = some u → SelU vp (unitMP u) := by
    unfold SelM; rw [hkey]
  rw [hsm, and_assoc]
  apply and_congr_right
  intro hr
  have hcoh : Coh (keyed (viewStr (viewPieces c pp)) (ps.filter (fun q => decide (q.cls = c)))) :=
    unitIns_coh (fun q hq => hgf q (List.mem_filter.mp hq).1)
  have hpin : unitIns p ∈ keyed (viewStr (viewPieces c pp)) (ps.filter (fun q => decide (q.cls = c))) :=
    List.mem_map.mpr ⟨p, List.mem_filter.mpr ⟨hpf, by simpa using hr⟩, rfl⟩
  rw [unit_hits_iff (md := (unitIns p).2) ?_ hcoh hpin ?_ ?_]
  · refine and_congr ?_ ?_
    · constructor
      · intro h i vp u hv hu
        exact h i vp (unitMP u) hv (by simp [hu])
      · intro h i vp q hv hq
        simp only [List.getElem?_map, Option.map_eq_some_iff] at hq
        obtain ⟨u, hu, rfl⟩ := hq
        exact h i vp u hv hu
    · -- the order of the units
      have hov : ∀ (j : Nat) (u v : PatternUnit), p.units[j]? = some u →
          (Overtaken (fun x => ∃ t, x.1 = (p.units.map unitMP).take j ++ unitMP u :: t)
            (fun x => ∃ t, x.1 = (p.units.map unitMP).take j ++ unitMP v :: t)
            (keyed (viewStr (viewPieces c pp)) (ps.filter (fun q => decide (q.cls = c)))) ↔
          Overtaken (fun q => q.cls = p.cls ∧ q.units.map (·.fuzzyRule) = p.units.map (·.fuzzyRule) ∧
              q.units.take (j + 1) = p.units.take j ++ [u])
            (fun q => q.cls = p.cls ∧ q.units.map (·.fuzzyRule) = p.units.map (·.fuzzyRule) ∧
              q.units.take (j + 1) = p.units.take j ++ [v]) ps) := by
        intro j u v hu
        have hjl : (p.units.take j).length = j := by
          have := (List.getElem?_eq_some_iff.mp hu).1
          simp; omega
        rw [keyed, ov_map, ov_filter, ov_filter]
        have key : ∀ w : PatternUnit, ∀ q ∈ ps, ((decide (q.cls = c) = true ∧ decide (rkey q = viewStr (viewPieces c pp)) = true ∧
            ∃ t, (unitIns q).1 = (p.units.map unitMP).take j ++ unitMP w :: t) ↔
            (q.cls = p.cls ∧ q.units.map (·.fuzzyRule) = p.units.map (·.fuzzyRule) ∧
              q.units.take (j + 1) = p.units.take j ++ [w])) := by
          intro w q hq
          rw [decide_eq_true_eq, decide_eq_true_eq, ← List.map_take, hpc]
          apply and_congr_right
          intro hqc
          refine and_congr ?_ (map_unitMP_prefix hjl)
          constructor
          · intro e
            exact hl.key q hq p hp (hqc ▸ hc) (hqc.trans hpc.symm) (e.trans hr.symm)
          · intro e
            rw [← hr]; unfold rkey; rw [e]
        exact ov_congr (key u) (key v)
      constructor
      · rintro h ⟨j, u, v, hu, fu, fv, hn, hne, ho⟩
        refine h j (unitMP u) (by simp [hu]) ⟨fixed_iff.mp fu, unitMP v, fixed_iff.mp fv, ?_, ?_, (hov j u v hu).mpr ho⟩
        · simp [headNum, unitMP, hn]
        · exact fun e => hne (unitMP_inj e)
      · intro h j p' hp'
        simp only [List.getElem?_map, Option.map_eq_some_iff] at hp'
        obtain ⟨u, hu, rfl⟩ := hp'
        rintro ⟨cu, q, cq, hn, hne, ho⟩
        have hqv : ∃ v, q = unitMP v := by
          obtain ⟨x, hx, t, e⟩ := ov_right ho
          obtain ⟨q', -, rfl⟩ := List.mem_map.mp hx
          have : q ∈ (unitIns q').1 := by rw [e]; simp
          obtain ⟨v, -, rfl⟩ := List.mem_map.mp this
          exact ⟨v, rfl⟩
        obtain ⟨v, rfl⟩ := hqv
        refine h ⟨j, u, v, hu, fixed_iff.mpr cu, fixed_iff.mpr cq, ?_, fun e => hne (by rw [e]), (hov j u v hu).mp ho⟩
        simpa [headNum, unitMP] using hn
  · intro x hx q hq
    obtain ⟨q', -, rfl⟩ := List.mem_map.mp hx
    obtain ⟨u', -, rfl⟩ := List.mem_map.mp hq
    exact ⟨unitMP_simple u', by simp [unitMP]⟩
  · have := congrArg List.length (hkey.mpr hr)
    simp at this
    simp [this]
  · have := hlt.vlen p hp (hpc ▸ hc)
    rwa [hpc] at this

theorem length_single {p : MatchPattern} (hg : GoodPat p) (c : p.cls = .length) :
    ∃ u, p.units = [u] ∧ unitCls u = .length := by
  obtain ⟨b, hb⟩ := hg.2
  rcases hu : p.units with _ | ⟨u, _ | ⟨v, us⟩⟩
  · exact absurd hu hg.ne
  · refine ⟨u, rfl, ?_⟩
    rw [hu, c] at hb
    exact hb.symm
  · exfalso
    rw [hu, c] at hb
    unfold viewClsFromUnits at hb
    simp only at hb
    revert hb
    split <;> (repeat' split) <;> simp

theorem simple_not_fixed {p : MatchPattern} (hg : GoodPat p) (c : p.cls = .piece ∨ p.cls = .fuzzy) :
    ∀ u ∈ p.units, ¬ FixedClass u := by
  obtain ⟨b, hb⟩ := hg.2
  intro u hu
  rw [fixed_iff]
  rcases hus : p.units with _ | ⟨w, _ | ⟨v, us⟩⟩
  · exact absurd hus hg.ne
  · rw [hus] at hb hu
    have hb : p.cls = unitCls w := hb
    simp at hu
    subst hu
    rw [← hb]
    rcases c with c | c <;> rw [c] <;> decide
  · have hnl : p.cls = .piece ∧ (p.units.filter (fun u => !u.isLiteral)).isEmpty = true := by
      rw [hus] at hb ⊢
      unfold viewClsFromUnits at hb
      simp only at hb
      revert hb
      generalize List.filter (fun u => !u.isLiteral) (w :: v :: us) = nl
      intro hb
      have : p.cls = .piece → nl.isEmpty = true := by
        intro hc
        rw [hc] at hb
        cases hn : nl.isEmpty with
        | true => rfl
        | false =>
          exfalso
          rw [hn] at hb
          revert hb
          split <;> (repeat' split) <;> first | contradiction | simp
      have hnf : p.cls ≠ .fuzzy := by
        intro hc
        rw [hc] at hb
        revert hb
        split <;> (repeat' split) <;> simp
      have hp : p.cls = .piece := c.resolve_right hnf
      exact ⟨hp, this hp⟩
    have : u ∉ p.units.filter (fun u => !u.isLiteral) := by
      rw [List.isEmpty_iff.mp hnl.2]; simp
    rw [List.mem_filter] at this
    have hlit : u.isLiteral = true := by
      cases hb : u.isLiteral with
      | true => rfl
      | false => exact absurd ⟨hu, by simp [hb]⟩ this
    simp [unitCls, hlit]

/-- Single length patterns at a place have the same class of characters. -/
def SameRule (ps : List MatchPattern) : Prop :=
  ∀ p ∈ ps, ∀ q ∈ ps, p.cls = .length → q.cls = .length → p.units.map (·.fuzzyRule) = q.units.map (·.fuzzyRule)

theorem shad_iff {ps : List MatchPattern} (hg : ∀ p ∈ ps, GoodPat p) (hi : StrInj ps) (hr : SameRule ps)
    {p : MatchPattern} (hp : p ∈ ps) (hs : SimpleCls p.cls) : Shad ps p ↔ ShadF ps p := by
  by_cases hl : p.cls = .length
  · obtain ⟨u, hu, cu⟩ := length_single (hg p hp) hl
    have heq : ∀ q ∈ ps, ∀ q' ∈ ps, q.units = q'.units → q = q' := by
      intro q hq q' hq' e
      apply hi q hq q' hq'
      rw [← (hg q hq).flat, ← (hg q' hq').flat, e]
    constructor
    · rintro ⟨-, q, q1, q2, q3, q4⟩
      have hqm : q ∈ ps := by obtain ⟨x, hx, rfl⟩ := ov_right q4; exact hx
      obtain ⟨v, hv, cv⟩ := length_single (hg q hqm) q1
      refine ⟨0, u, v, by rw [hu]; rfl, fixed_iff.mpr cu, fixed_iff.mpr cv, ?_, ?_, ?_⟩
      · simpa [headNum, hu, hv] using q2
      · rintro rfl
        exact q3 (heq q hqm p hp (hv.trans hu.symm))
      · refine (ov_congr ?_ ?_).mp q4
        · intro x hx
          constructor
          · rintro rfl; exact ⟨rfl, rfl, by rw [hu]; rfl⟩
          · rintro ⟨x1, x2, x3⟩
            obtain ⟨w, hw, -⟩ := length_single (hg x hx) (x1.trans hl)
            rw [hw] at x3
            exact heq x hx p hp (by rw [hw, hu]; simpa using x3)
        · intro x hx
          constructor
          · rintro rfl; exact ⟨q1.trans hl.symm, hr x hx p hp q1 hl, by rw [hv]; rfl⟩
          · rintro ⟨x1, x2, x3⟩
            obtain ⟨w, hw, -⟩ := length_single (hg x hx) (x1.trans hl)
            rw [hw] at x3
            exact heq x hx q hqm (by rw [hw, hv]; simpa using x3)
    · rintro ⟨j, u', v, hj, fu, fv, hn, hne, ho⟩
      rw [hu] at hj
      cases j with
      | succ j => simp at hj
      | zero =>
        simp at hj
        subst hj
        obtain ⟨q, hqm, q1, q2, q3⟩ := ov_right ho
        obtain ⟨w, hw, -⟩ := length_single (hg q hqm) (q1.trans hl)
        have hwv : w = v := by rw [hw] at q3; simpa using q3
        subst hwv
        refine ⟨hl, q, q1.trans hl, by simp [headNum, hu, hw, hn], ?_, ?_⟩
        · rintro rfl
          rw [hw] at hu
          exact hne (by simpa using hu)
        · refine (ov_congr ?_ ?_).mp ho
          · intro x hx
            constructor
            · rintro ⟨x1, x2, x3⟩
              obtain ⟨w', hw', -⟩ := length_single (hg x hx) (x1.trans hl)
              rw [hw'] at x3
              exact heq x hx p hp (by rw [hw', hu]; simpa using x3)
            · rintro rfl; exact ⟨rfl, rfl, by rw [hu]; rfl⟩
          · intro x hx
            constructor
            · rintro ⟨x1, x2, x3⟩
              obtain ⟨w', hw', -⟩ := length_single (hg x hx) (x1.trans hl)
              rw [hw'] at x3
              exact heq x hx q hqm (by rw [hw', hw]; simpa using x3)
            · rintro rfl; exact ⟨q1, q2, q3⟩
  · constructor
    · rintro ⟨h, -⟩; exact absurd h hl
    · rintro ⟨j, u, v, hj, fu, -⟩
      refine absurd fu (simple_not_fixed (hg p hp) ?_ u (List.mem_of_getElem? hj))
      rcases hs with h | h | h
      · exact .inl h
      · exact absurd h hl
      · exact .inr h

theorem url_sel_iff {ps : List MatchPattern} {pp : ParsedPiece} (hl : Lvl pp ps) (hlt : LvlT pp ps) (hn : ps.Nodup)
    (hr : SameRule ps) {p : MatchPattern} (hp : p ∈ ps) : Sel urlOps (some pp) ps p ↔ SelF pp p ∧ ¬ ShadF ps p := by
  have hone : ∀ c s keys, fillStore urlOps c (ps.filter (fun q => decide (q.cls = c))) = .ok s →
      s.matches_ c (some pp) = .ok keys → p.cls = c → (p.str ∈ keys ↔ SelF pp p ∧ ¬ ShadF ps p) := by
    intro c s keys hf hk hpc
    unfold SelF
    rcases cls_cases c with hc | hc
    · obtain ⟨s0, rfl, hs0⟩ := fill_simple hc _ hf
      rw [if_pos (hpc ▸ hc), ← shad_iff hl.good hl.inj hr hp (hpc ▸ hc)]
      exact store_iff hc hl.inj hn hs0 hk hp hpc
    · rw [if_neg (by rw [hpc]; exact multi_not_simple hc), hpc]
      exact multi_iff hc hf hl hlt hk hp hpc
  constructor
  · rintro ⟨vms, c, s, keys, h1, h2, h3, h4⟩
    obtain ⟨⟨q0, hq0, e0⟩, hf⟩ := ((addAll_spec h1).2 (c, s)).mp h2
    simp only at e0 hf
    have hcls : ∀ q ∈ ps.filter (fun p => decide (p.cls = c)), q.cls = c := by
      intro q hq; simpa using (List.mem_filter.mp hq).2
    have hpc : p.cls = c := by
      rcases cls_cases c with hc | hc
      · obtain ⟨s0, rfl, hs0⟩ := fill_simple hc _ hf
        obtain ⟨q, hq, e, -⟩ := store_sound hc hcls hs0 h3 h4
        rw [← hl.inj q (List.mem_filter.mp hq).1 p hp e]
        exact hcls q hq
      · obtain ⟨q, hq, e, -⟩ := multi_sound hc hf (fun q hq => hl.good q (List.mem_filter.mp hq).1) (hl.keyInj hc)
          (hl.views hc) h3 h4
        rw [← hl.inj q (List.mem_filter.mp hq).1 p hp e]
        exact hcls q hq
    exact (hone c s keys hf h3 hpc).mp h4
  · intro h
    obtain ⟨vms, hv⟩ := addAll_ok (ops := urlOps) (fun p hp => urlAdd_total (hl.good p hp))
    have hfill : ∃ s, fillStore urlOps p.cls (ps.filter (fun q => decide (q.cls = p.cls))) = .ok s := fillStore_ok
      (fun q hq s => urlAdd_total (hl.good q (List.mem_filter.mp hq).1) s)
    obtain ⟨s, hs⟩ := hfill
    have hin := ((addAll_spec hv).2 (p.cls, s)).mpr ⟨⟨p, hp, rfl⟩, hs⟩
    obtain ⟨keys, hk⟩ := url_vms_total hl hlt hv hin
    exact ⟨vms, p.cls, s, keys, hv, hin, hk, (hone _ s keys hs hk rfl).mpr h⟩

end OsUrl
