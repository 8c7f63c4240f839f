import Verif.Proofs.Stores

/-! The multi view matchers: inner trees over pattern units. -/

namespace OsUrl
open Spec

theorem unit_hits_sound {vps : List ParsedPiece} {L : List (MIns Str)} {path : List MatchPattern} {md : Option Str}
    (hs : ∀ x ∈ L, ∀ p ∈ x.1, SimpleCls p.cls) (hc : Coh L) (hin : (path, md) ∈ L)
    (h : Hits unitOps (vps.map some) L path) :
    ∀ (i : Nat) vp p, vps[i]? = some vp → path[i]? = some p → SelU vp p := by
  induction path generalizing L vps with
  | nil => intro i vp p _ hp; simp at hp
  | cons p path ih =>
    cases vps with
    | nil => simp at *
    | cons vp vps =>
      obtain ⟨h1, h2⟩ := h
      have hp : p ∈ heads L := mem_heads.mpr ⟨_, _, hin⟩
      have hsel : SelU vp p := unit_sel_sound (ps := uniq (heads L))
        (by
          intro q hq
          obtain ⟨qs, qm, hqi⟩ := mem_heads.mp (mem_uniq.mp hq)
          exact hs _ hqi q (by simp))
        (by
          intro a ha b hb e
          exact hc.head (mem_uniq.mp ha) (mem_uniq.mp hb) e)
        (mem_uniq.mpr hp) h1
      have hrec := ih (L := sub p.str L) (vps := vps)
        (by
          intro x hx q hq
          obtain ⟨a, -, ha⟩ := mem_sub.mp hx
          exact hs _ ha q (by simp [hq]))
        (hc.sub _) (mem_sub.mpr ⟨p, rfl, hin⟩) h2
      intro i vp' p' hv hp'
      cases i with
      | zero => simp at hv hp'; subst hv; subst hp'; exact hsel
      | succ i => exact hrec i vp' p' (by simpa using hv) (by simpa using hp')

/-- At every position the lengths identify the length patterns. -/
def LenUniqAt (L : List (MIns Str)) : Prop :=
  ∀ x ∈ L, ∀ y ∈ L, ∀ (i : Nat) p q, x.1[i]? = some p → y.1[i]? = some q → p.cls = .length → q.cls = .length →
    headNum p = headNum q → p = q

theorem unit_hits_complete {vps : List ParsedPiece} {L : List (MIns Str)} {path : List MatchPattern} {md : Option Str}
    (hne : ∀ x ∈ L, ∀ p ∈ x.1, p.units ≠ []) (hl : LenUniqAt L) (hin : (path, md) ∈ L) (hlen : path.length ≤ vps.length)
    (h : ∀ (i : Nat) vp p, vps[i]? = some vp → path[i]? = some p → SelU vp p) :
    Hits unitOps (vps.map some) L path := by
  induction path generalizing L vps with
  | nil => simp [Hits]
  | cons p path ih =>
    cases vps with
    | nil => simp at hlen
    | cons vp vps =>
      have hp : p ∈ heads L := mem_heads.mpr ⟨_, _, hin⟩
      refine ⟨?_, ?_⟩
      · apply unit_sel_complete
        · intro q hq
          obtain ⟨qs, qm, hqi⟩ := mem_heads.mp (mem_uniq.mp hq)
          exact hne _ hqi q (by simp)
        · intro a ha b hb ca cb e
          obtain ⟨_, _, ha'⟩ := mem_heads.mp (mem_uniq.mp ha)
          obtain ⟨_, _, hb'⟩ := mem_heads.mp (mem_uniq.mp hb)
          exact hl _ ha' _ hb' 0 a b (by simp) (by simp) ca cb e
        · exact mem_uniq.mpr hp
        · exact h 0 vp p (by simp) (by simp)
      · apply ih
        · intro x hx q hq
          obtain ⟨a, -, ha⟩ := mem_sub.mp hx
          exact hne _ ha q (by simp [hq])
        · intro x hx y hy i a b ha hb
          obtain ⟨a', -, hx'⟩ := mem_sub.mp hx
          obtain ⟨b', -, hy'⟩ := mem_sub.mp hy
          exact hl _ hx' _ hy' (i + 1) a b (by simpa using ha) (by simpa using hb)
        · exact mem_sub.mpr ⟨p, rfl, hin⟩
        · simpa using hlen
        · intro i vp' p' hv hp'
          exact h (i + 1) vp' p' (by simpa using hv) (by simpa using hp')

/-- The key under which a multi pattern is stored. -/
def rkey (p : MatchPattern) : Str := fuzzyJoin (p.units.map (·.fuzzyRule))

/-- The insertion of a multi pattern into an inner tree. -/
def unitIns (p : MatchPattern) : MIns Str := (p.units.map unitMP, some p.str)

theorem unitIns_coh {ps : List MatchPattern} (h : ∀ p ∈ ps, GoodPat p) : Coh (ps.map unitIns) := by
  intro x hx y hy i a b ha hb e
  obtain ⟨p, hp, rfl⟩ := List.mem_map.mp hx
  obtain ⟨q, hq, rfl⟩ := List.mem_map.mp hy
  simp only [unitIns, List.getElem?_map, Option.map_eq_some_iff] at ha hb
  obtain ⟨u, hu, rfl⟩ := ha
  obtain ⟨v, hv, rfl⟩ := hb
  have := unit_eq_of_str ((h p hp).unit u (List.mem_of_getElem? hu)) ((h q hq).unit v (List.mem_of_getElem? hv)) e
  rw [this]

/-- The three multi view classes. -/
def MultiCls (c : ViewCls) : Prop := c = .multi ∨ c = .mixed ∨ c = .lastDot

theorem cls_cases (c : ViewCls) : SimpleCls c ∨ MultiCls c := by
  cases c <;> simp [SimpleCls, MultiCls]

/-- One inner tree. -/
def Inner (ps : List MatchPattern) (r : Str) : Option UnitTree → Prop
  | none => ∀ p ∈ ps, rkey p ≠ r
  | some t => ∃ n, (∃ p ∈ ps, rkey p = r) ∧ (∀ p ∈ ps, rkey p = r → p.units.length = n + 1) ∧
      T unitOps (n + 1) ((ps.filter (fun p => decide (rkey p = r))).map unitIns) t.1 t.2

theorem fill_multi {c : ViewCls} (hc : MultiCls c) {ps : List MatchPattern} {s : FullStore}
    (h : fillStore urlOps c ps = .ok s) (hg : ∀ p ∈ ps, GoodPat p)
    (hj : ∀ p ∈ ps, ∀ q ∈ ps, rkey p = rkey q → p.units.length = q.units.length) :
    ∃ d, s = .multi d ∧ ∀ r, Inner ps r (Dict.get? r d) := by
  revert h hg hj
  suffices ∀ s, fillStore urlOps c ps = .ok s → (∀ p ∈ ps, GoodPat p) →
    (∀ p ∈ ps, ∀ q ∈ ps, rkey p = rkey q → p.units.length = q.units.length) →
    ∃ d, s = .multi d ∧ ∀ r, Inner ps r (Dict.get? r d) from this s
  refine snoc_ind (P := fun ps => ∀ s, fillStore urlOps c ps = .ok s → (∀ p ∈ ps, GoodPat p) →
    (∀ p ∈ ps, ∀ q ∈ ps, rkey p = rkey q → p.units.length = q.units.length) →
    ∃ d, s = .multi d ∧ ∀ r, Inner ps r (Dict.get? r d)) ?_ ?_ ps
  · intro s h _ _
    have h : (.ok (FullStore.emptyOf c) : Py FullStore) = .ok s := h
    rcases hc with rfl | rfl | rfl <;>
    · simp [FullStore.emptyOf] at h
      exact ⟨[], h.symm, fun r => by simp [Dict.get?, Inner]⟩
  · intro ps p ih s h hg hj
    rw [fillStore_concat] at h
    obtain ⟨s0, h0, h⟩ := bind_ok h
    obtain ⟨d, rfl, hd⟩ := ih s0 h0 (fun q hq => hg q (by simp [hq])) (fun a ha b hb => hj a (by simp [ha]) b (by simp [hb]))
    have h : FullStore.add p (.multi d) = .ok s := h
    simp only [FullStore.add] at h
    obtain ⟨d', h1, h⟩ := bind_ok h
    simp only [pure, Except.pure, Except.ok.injEq] at h
    refine ⟨d', h.symm, ?_⟩
    have hgp : GoodPat p := hg p (by simp)
    unfold multiAdd at h1
    rw [hgp.mapM] at h1
    dsimp only at h1
    obtain ⟨pats, hp0, h1⟩ := bind_ok h1
    simp only [Except.ok.injEq] at hp0
    subst hp0
    obtain ⟨⟨dt, kids, isNew⟩, h2, h1⟩ := bind_ok h1
    have hne := hgp.ne
    obtain ⟨n, hn⟩ : ∃ n, p.units.length = n + 1 := ⟨p.units.length - 1, by
      have := List.length_pos_iff.mpr hne; omega⟩
    have hgr : ∀ q ∈ ps, rkey q = rkey p → q.units.length = n + 1 := by
      intro q hq e
      rw [← hn]
      exact hj q (by simp [hq]) p (by simp) e
    have hT0 : T unitOps (n + 1) ((ps.filter (fun q => decide (rkey q = rkey p))).map unitIns)
        ((Dict.get? (rkey p) d).getD (MData.new emptyMatchPattern, .nil)).1
        ((Dict.get? (rkey p) d).getD (MData.new emptyMatchPattern, .nil)).2 := by
      have := hd (rkey p)
      cases hget : Dict.get? (rkey p) d with
      | none =>
        rw [hget] at this
        have : ps.filter (fun q => decide (rkey q = rkey p)) = [] := by
          rw [List.filter_eq_nil_iff]; intro q hq; simpa using this q hq
        rw [this]
        exact T.new _ _
      | some t =>
        rw [hget] at this
        obtain ⟨m, ⟨q, hq, e⟩, hm, ht⟩ := this
        have : m = n := by have := hm q hq e; have := hgr q hq e; omega
        subst this
        exact ht
    have hfil : (ps ++ [p]).filter (fun q => decide (rkey q = rkey p)) =
        ps.filter (fun q => decide (rkey q = rkey p)) ++ [p] := by simp [List.filter_append]
    have hcoh : Coh (((ps.filter (fun q => decide (rkey q = rkey p))).map unitIns) ++ [unitIns p]) := by
      rw [← List.map_singleton (f := unitIns), ← List.map_append]
      apply unitIns_coh
      intro q hq
      simp at hq
      rcases hq with hq | rfl
      · exact hg q (by simp [hq.1])
      · exact hgp
    have hres := minsert_T (n := n + 1) (x := p.units.map unitMP) (by simpa using hn)
      (by
        intro y hy
        obtain ⟨q, hq, rfl⟩ := List.mem_map.mp hy
        simp at hq
        simpa [unitIns] using hgr q hq.1 hq.2) hT0 hcoh h2
    cases isNew with
    | none => simp at h1
    | some b =>
      simp only [pure, Except.pure, Except.ok.injEq] at h1
      subst h1
      intro r
      rw [Dict.get?_upd]
      by_cases hr : rkey p = r
      · subst hr
        rw [if_pos (show fuzzyJoin (p.units.map (·.fuzzyRule)) = rkey p from rfl)]
        refine ⟨n, ⟨p, by simp, rfl⟩, ?_, ?_⟩
        · intro q hq e
          simp at hq
          rcases hq with hq | rfl
          · exact hgr q hq e
          · exact hn
        · rw [hfil, List.map_append]
          exact hres.1
      · rw [if_neg (show ¬ fuzzyJoin (p.units.map (·.fuzzyRule)) = r from hr)]
        have hfil' : (ps ++ [p]).filter (fun q => decide (rkey q = r)) = ps.filter (fun q => decide (rkey q = r)) := by
          simp [List.filter_append, hr]
        have := hd r
        cases hget : Dict.get? r d with
        | none =>
          rw [hget] at this
          intro q hq e
          simp at hq
          rcases hq with hq | rfl
          · exact this q hq e
          · exact hr e
        | some t =>
          rw [hget] at this
          obtain ⟨m, ⟨q, hq, e⟩, hm, ht⟩ := this
          refine ⟨m, ⟨q, by simp [hq], e⟩, ?_, by rw [hfil']; exact ht⟩
          intro q' hq' e'
          simp at hq'
          rcases hq' with hq' | rfl
          · exact hm q' hq' e'
          · exact absurd e' hr

/-- When a multi pattern is selected: the view pieces and the units have the same rules, and unit for
unit they fit. -/
def SelM (vps : List ParsedPiece) (p : MatchPattern) : Prop :=
  vps.map (·.fuzzyRule) = p.units.map (·.fuzzyRule) ∧
  ∀ (i : Nat) vp u, vps[i]? = some vp → p.units[i]? = some u → SelU vp (unitMP u)

/-- The keys determine the unit rules. -/
def KeyInj (ps : List MatchPattern) : Prop :=
  ∀ p ∈ ps, ∀ q ∈ ps, rkey p = rkey q → p.units.map (·.fuzzyRule) = q.units.map (·.fuzzyRule)

theorem KeyInj.len {ps : List MatchPattern} (h : KeyInj ps) :
    ∀ p ∈ ps, ∀ q ∈ ps, rkey p = rkey q → p.units.length = q.units.length := by
  intro p hp q hq e
  have := congrArg List.length (h p hp q hq e)
  simpa using this

theorem multi_sound {c : ViewCls} (hc : MultiCls c) {ps : List MatchPattern} {s : FullStore}
    (h : fillStore urlOps c ps = .ok s) (hg : ∀ p ∈ ps, GoodPat p) (hj : KeyInj ps) {pp : ParsedPiece}
    (hv : ∀ p ∈ ps, viewStr (viewPieces c pp) = rkey p →
      (viewPieces c pp).map (·.fuzzyRule) = p.units.map (·.fuzzyRule))
    {keys : List Str} (hm : s.matches_ c (some pp) = .ok keys) {k : Str} (hk : k ∈ keys) :
    ∃ q ∈ ps, q.str = k ∧ SelM (viewPieces c pp) q := by
  obtain ⟨d, rfl, hd⟩ := fill_multi hc h hg hj.len
  simp only [FullStore.matches_, multiMatch] at hm
  have hin := hd (viewStr (viewPieces c pp))
  cases hget : Dict.get? (viewStr (viewPieces c pp)) d with
  | none => rw [hget] at hm; simp at hm; subst hm; simp at hk
  | some t =>
    obtain ⟨dt, kids⟩ := t
    rw [hget] at hm hin
    simp only at hm
    obtain ⟨ms, hms, hm⟩ := bind_ok hm
    simp only [pure, Except.pure, Except.ok.injEq] at hm
    subst hm
    obtain ⟨m, hmm, hmd⟩ := List.mem_filterMap.mp hk
    obtain ⟨n, -, hlen, hT⟩ := hin
    have hcoh : Coh ((ps.filter (fun p => decide (rkey p = viewStr (viewPieces c pp)))).map unitIns) :=
      unitIns_coh (fun q hq => hg q (List.mem_filter.mp hq).1)
    obtain ⟨x, hx, hpath, hhits, hmdx⟩ := mmatch_sound hT
      (by
        intro y hy
        obtain ⟨q, hq, rfl⟩ := List.mem_map.mp hy
        simp at hq
        simpa [unitIns] using hlen q hq.1 hq.2) hcoh hms hmm
    obtain ⟨q, hq, rfl⟩ := List.mem_map.mp hx
    have hq' := List.mem_filter.mp hq
    have hqr : rkey q = viewStr (viewPieces c pp) := by simpa using hq'.2
    have hsel : SelM (viewPieces c pp) q := by
      refine ⟨hv q hq'.1 hqr.symm, ?_⟩
      intro i vp u hvp hu
      refine unit_hits_sound (vps := viewPieces c pp) ?_ hcoh (by exact hx) hhits i vp (unitMP u) hvp ?_
      · intro y hy p hp
        obtain ⟨q', -, rfl⟩ := List.mem_map.mp hy
        obtain ⟨u', -, rfl⟩ := List.mem_map.mp hp
        exact unitMP_simple u'
      · simp [unitIns, hu]
    refine ⟨q, hq'.1, ?_, hsel⟩
    -- the meta of the leaf
    rw [hmd] at hmdx
    have hall : ∀ y ∈ (((ps.filter (fun p => decide (rkey p = viewStr (viewPieces c pp)))).map unitIns).filter
        (fun y => decide (y.1 = (unitIns q).1))), y.2 = some q.str := by
      intro y hy
      obtain ⟨hy1, hy2⟩ := List.mem_filter.mp hy
      obtain ⟨q', hq1, rfl⟩ := List.mem_map.mp hy1
      have hg' := hg q' (List.mem_filter.mp hq1).1
      have e : q'.units.map unitMP = q.units.map unitMP := of_decide_eq_true hy2
      have e2 := congrArg (List.map MatchPattern.str) e
      simp only [List.map_map] at e2
      have e3 : q'.units.map (·.str) = q.units.map (·.str) := e2
      simp only [unitIns, Option.some.injEq]
      rw [← hg'.flat, e3, (hg q hq'.1).flat]
    have hlast : ∀ {M : List (MIns Str)} {v : Str}, (∀ y ∈ M, y.2 = some v) → lastMd M = none ∨ lastMd M = some v := by
      intro M v
      refine snoc_ind (P := fun M => (∀ y ∈ M, y.2 = some v) → lastMd M = none ∨ lastMd M = some v) ?_ ?_ M
      · intro _; exact .inl rfl
      · intro M y _ hM
        right
        simp [lastMd, List.foldl_append, hM y (by simp)]
    rcases hlast hall with h0 | h0
    · rw [h0] at hmdx; simp at hmdx
    · rw [h0] at hmdx; simpa using hmdx.symm

theorem multi_total {c : ViewCls} (hc : MultiCls c) {ps : List MatchPattern} {s : FullStore}
    (h : fillStore urlOps c ps = .ok s) (hg : ∀ p ∈ ps, GoodPat p) (hj : KeyInj ps) {pp : ParsedPiece}
    (hv : ∀ p ∈ ps, viewStr (viewPieces c pp) = rkey p →
      (viewPieces c pp).map (·.fuzzyRule) = p.units.map (·.fuzzyRule))
    (hpl : ∀ vp ∈ viewPieces c pp, ∃ l, vp.pieceLength = .ok l) :
    ∃ keys, s.matches_ c (some pp) = .ok keys := by
  obtain ⟨d, rfl, hd⟩ := fill_multi hc h hg hj.len
  simp only [FullStore.matches_, multiMatch]
  have hin := hd (viewStr (viewPieces c pp))
  cases hget : Dict.get? (viewStr (viewPieces c pp)) d with
  | none => exact ⟨_, rfl⟩
  | some t =>
    obtain ⟨dt, kids⟩ := t
    rw [hget] at hin
    obtain ⟨n, ⟨q, hq, hqr⟩, hlen, hT⟩ := hin
    have hl : (viewPieces c pp).length = n + 1 := by
      have := congrArg List.length (hv q hq hqr.symm)
      simp at this
      rw [this]; exact hlen q hq hqr
    obtain ⟨ms, hms⟩ := mmatch_total (pps := (viewPieces c pp).map some) (pre := []) hT
      (by
        intro y hy
        obtain ⟨q, hq, rfl⟩ := List.mem_map.mp hy
        simp at hq
        simpa [unitIns] using hlen q hq.1 hq.2) (by simp [hl])
      (by
        intro i opp hi qs hqs hnd vms hvms vm hvm
        simp only [List.getElem?_map, Option.map_eq_some_iff] at hi
        obtain ⟨vp, hvp, rfl⟩ := hi
        obtain ⟨⟨q0, hq0, e0⟩, hf⟩ := ((addAll_spec hvms).2 vm).mp hvm
        have hsim : SimpleCls vm.1 := by
          rw [← e0]
          obtain ⟨x, hx, hxi⟩ := hqs q0 hq0
          obtain ⟨p, -, rfl⟩ := List.mem_map.mp hx
          simp only [unitIns, List.getElem?_map, Option.map_eq_some_iff] at hxi
          obtain ⟨u, -, rfl⟩ := hxi
          exact unitMP_simple u
        exact store_total hsim hf (hpl vp (List.mem_of_getElem? hvp)))
    simp only at hms ⊢
    exact ⟨_, by rw [hms]; rfl⟩

theorem multi_complete {c : ViewCls} (hc : MultiCls c) {ps : List MatchPattern} {s : FullStore}
    (h : fillStore urlOps c ps = .ok s) (hg : ∀ p ∈ ps, GoodPat p) (hj : KeyInj ps)
    (hcan : ∀ p ∈ ps, ∀ q ∈ ps, ∀ u ∈ p.units, ∀ v ∈ q.units, u.fuzzyRule = v.fuzzyRule → unitCls u = .length →
      unitCls v = .length → u.num = v.num → u = v) {pp : ParsedPiece}
    (hv : ∀ p ∈ ps, viewStr (viewPieces c pp) = rkey p →
      (viewPieces c pp).map (·.fuzzyRule) = p.units.map (·.fuzzyRule))
    (hpl : ∀ vp ∈ viewPieces c pp, ∃ l, vp.pieceLength = .ok l) {p : MatchPattern} (hp : p ∈ ps)
    (hsel : SelM (viewPieces c pp) p) :
    ∃ keys, s.matches_ c (some pp) = .ok keys ∧ p.str ∈ keys := by
  obtain ⟨keys, hkeys⟩ := multi_total hc h hg hj hv hpl
  refine ⟨keys, hkeys, ?_⟩
  obtain ⟨d, rfl, hd⟩ := fill_multi hc h hg hj.len
  simp only [FullStore.matches_, multiMatch] at hkeys
  have hrk : rkey p = viewStr (viewPieces c pp) := by
    unfold rkey viewStr; rw [hsel.1]
  have hin := hd (viewStr (viewPieces c pp))
  cases hget : Dict.get? (viewStr (viewPieces c pp)) d with
  | none => rw [hget] at hin; exact absurd hrk (hin p hp)
  | some t =>
    obtain ⟨dt, kids⟩ := t
    rw [hget] at hkeys hin
    simp only at hkeys
    obtain ⟨ms, hms, hkeys⟩ := bind_ok hkeys
    simp only [pure, Except.pure, Except.ok.injEq] at hkeys
    subst hkeys
    obtain ⟨n, -, hlen, hT⟩ := hin
    have hcoh : Coh ((ps.filter (fun p => decide (rkey p = viewStr (viewPieces c pp)))).map unitIns) :=
      unitIns_coh (fun q hq => hg q (List.mem_filter.mp hq).1)
    have hL : ∀ y ∈ (ps.filter (fun p => decide (rkey p = viewStr (viewPieces c pp)))).map unitIns, y.1.length = n + 1 := by
      intro y hy
      obtain ⟨q, hq, rfl⟩ := List.mem_map.mp hy
      simp at hq
      simpa [unitIns] using hlen q hq.1 hq.2
    have hpin : unitIns p ∈ (ps.filter (fun p => decide (rkey p = viewStr (viewPieces c pp)))).map unitIns :=
      List.mem_map.mpr ⟨p, List.mem_filter.mpr ⟨hp, by simpa using hrk⟩, rfl⟩
    have hh : Hits unitOps ((viewPieces c pp).map some)
        ((ps.filter (fun p => decide (rkey p = viewStr (viewPieces c pp)))).map unitIns) (unitIns p).1 := by
      refine unit_hits_complete (md := (unitIns p).2) ?_ ?_ hpin ?_ ?_
      · intro x hx q hq
        obtain ⟨q', -, rfl⟩ := List.mem_map.mp hx
        obtain ⟨u', -, rfl⟩ := List.mem_map.mp hq
        simp [unitMP]
      · intro x hx y hy i a b ha hb ca cb e
        obtain ⟨q1, hq1, rfl⟩ := List.mem_map.mp hx
        obtain ⟨q2, hq2, rfl⟩ := List.mem_map.mp hy
        have h1 := List.mem_filter.mp hq1
        have h2 := List.mem_filter.mp hq2
        have hkk : rkey q1 = rkey q2 := by
          have a1 := of_decide_eq_true h1.2
          have a2 := of_decide_eq_true h2.2
          rw [a1, a2]
        have hfr := hj q1 h1.1 q2 h2.1 hkk
        simp only [unitIns, List.getElem?_map, Option.map_eq_some_iff] at ha hb
        obtain ⟨u, hu, rfl⟩ := ha
        obtain ⟨v, hv', rfl⟩ := hb
        have hfe : u.fuzzyRule = v.fuzzyRule := by
          have e1 := congrArg (fun l => l[i]?) hfr
          simp only [List.getElem?_map, hu, hv', Option.map_some, Option.some.injEq] at e1
          exact e1
        have hnum : u.num = v.num := by simpa [headNum, unitMP] using e
        rw [hcan q1 h1.1 q2 h2.1 u (List.mem_of_getElem? hu) v (List.mem_of_getElem? hv') hfe ca cb hnum]
      · have := congrArg List.length hsel.1
        simp at this
        simp [unitIns, this]
      · intro i vp q hvp hq
        simp only [unitIns, List.getElem?_map, Option.map_eq_some_iff] at hq
        obtain ⟨u, hu, rfl⟩ := hq
        exact hsel.2 i vp u hvp hu
    obtain ⟨m, hm, hpath⟩ := mmatch_complete hT hL hcoh hms hpin hh
    rw [List.mem_filterMap]
    refine ⟨m, hm, ?_⟩
    obtain ⟨x, hx, hpx, -, hmd⟩ := mmatch_sound hT hL hcoh hms hm
    rw [hmd]
    have hxp : x.1 = (unitIns p).1 := by simpa using hpx.symm.trans hpath
    rw [hxp]
    have hall : ∀ y ∈ (((ps.filter (fun p => decide (rkey p = viewStr (viewPieces c pp)))).map unitIns).filter
        (fun y => decide (y.1 = (unitIns p).1))), y.2 = some p.str := by
      intro y hy
      obtain ⟨hy1, hy2⟩ := List.mem_filter.mp hy
      obtain ⟨q', hq1, rfl⟩ := List.mem_map.mp hy1
      have hg' := hg q' (List.mem_filter.mp hq1).1
      have e : q'.units.map unitMP = p.units.map unitMP := of_decide_eq_true hy2
      have e2 := congrArg (List.map MatchPattern.str) e
      simp only [List.map_map] at e2
      have e3 : q'.units.map (·.str) = p.units.map (·.str) := e2
      simp only [unitIns, Option.some.injEq]
      rw [← hg'.flat, e3, (hg p hp).flat]
    have hmem : unitIns p ∈ (((ps.filter (fun p => decide (rkey p = viewStr (viewPieces c pp)))).map unitIns).filter
        (fun y => decide (y.1 = (unitIns p).1))) := List.mem_filter.mpr ⟨hpin, by simp⟩
    have hlast : ∀ {M : List (MIns Str)} {v : Str}, (∀ y ∈ M, y.2 = some v) → M ≠ [] → lastMd M = some v := by
      intro M v
      refine snoc_ind (P := fun M => (∀ y ∈ M, y.2 = some v) → M ≠ [] → lastMd M = some v) ?_ ?_ M
      · intro _ h; exact absurd rfl h
      · intro M y _ hM _
        simp [lastMd, List.foldl_append, hM y (by simp)]
    exact hlast hall (List.ne_nil_of_mem hmem)

end OsUrl
