import Verif.Proofs.Stores2

/-! Inner trees over sequences of patterns, for any way to cut a pattern. -/

namespace OsUrl
open Spec

/-- A sequence of patterns with the name of the outer node. -/
abbrev InnerItem := List MatchPattern × Str

def InnerItem.key (x : InnerItem) : Str := fuzzyJoin (x.1.map (fun q => unitsFuzzyRule q.units))

def InnerItem.ins (x : InnerItem) : MIns Str := (x.1, some x.2)

/-- The insertion of a sequence. -/
def innerAdd (x : InnerItem) (d : Dict Str UnitTree) : Py (Dict Str UnitTree) := do
  let r := fuzzyJoin (x.1.map (fun q => unitsFuzzyRule q.units))
  let t := (Dict.get? r d).getD (MData.new emptyMatchPattern, .nil)
  let (dt, kids, isNew) ← minsert unitOps (some x.2) x.1 none t.1 t.2
  match isNew with
  | none => .error .unboundLocal
  | some _ => return Dict.upd r (fun _ => (dt, kids)) d

def innerFill (xs : List InnerItem) : Py (Dict Str UnitTree) := xs.foldlM (fun d x => innerAdd x d) []

theorem innerFill_concat (xs : List InnerItem) (x : InnerItem) : innerFill (xs ++ [x]) = innerFill xs >>= innerAdd x := by
  unfold innerFill
  rw [List.foldlM_append]
  simp

/-- What is needed of the sequences. -/
structure InnerOK (xs : List InnerItem) : Prop where
  ne : ∀ x ∈ xs, x.1 ≠ []
  units : ∀ x ∈ xs, ∀ p ∈ x.1, p.units ≠ []
  simple : ∀ x ∈ xs, ∀ p ∈ x.1, SimpleCls p.cls
  coh : ∀ x ∈ xs, ∀ y ∈ xs, ∀ p ∈ x.1, ∀ q ∈ y.1, p.str = q.str → p = q
  name : ∀ x ∈ xs, ∀ y ∈ xs, x.1 = y.1 → x.2 = y.2
  key : ∀ x ∈ xs, ∀ y ∈ xs, x.key = y.key →
    x.1.map (fun q => unitsFuzzyRule q.units) = y.1.map (fun q => unitsFuzzyRule q.units)
  lens : ∀ x ∈ xs, ∀ y ∈ xs, ∀ p ∈ x.1, ∀ q ∈ y.1, p.cls = .length → q.cls = .length →
    unitsFuzzyRule p.units = unitsFuzzyRule q.units → headNum p = headNum q → p = q

theorem InnerOK.mono {xs ys : List InnerItem} (h : InnerOK xs) (hs : ∀ y ∈ ys, y ∈ xs) : InnerOK ys :=
  ⟨fun x hx => h.ne x (hs x hx), fun x hx => h.units x (hs x hx), fun x hx => h.simple x (hs x hx),
    fun x hx y hy => h.coh x (hs x hx) y (hs y hy), fun x hx y hy => h.name x (hs x hx) y (hs y hy),
    fun x hx y hy => h.key x (hs x hx) y (hs y hy), fun x hx y hy => h.lens x (hs x hx) y (hs y hy)⟩

theorem InnerOK.len {xs : List InnerItem} (h : InnerOK xs) {x y : InnerItem} (hx : x ∈ xs) (hy : y ∈ xs) (e : x.key = y.key) :
    x.1.length = y.1.length := by
  have := congrArg List.length (h.key x hx y hy e)
  simpa using this

theorem InnerOK.cohL {xs : List InnerItem} (h : InnerOK xs) : Coh (xs.map InnerItem.ins) := by
  intro x hx y hy i a b ha hb e
  obtain ⟨p, hp, rfl⟩ := List.mem_map.mp hx
  obtain ⟨q, hq, rfl⟩ := List.mem_map.mp hy
  exact h.coh p hp q hq a (List.mem_of_getElem? ha) b (List.mem_of_getElem? hb) e

/-- One inner tree. -/
def InnerAt (xs : List InnerItem) (r : Str) : Option UnitTree → Prop
  | none => ∀ x ∈ xs, x.key ≠ r
  | some t => ∃ n, (∃ x ∈ xs, x.key = r) ∧ (∀ x ∈ xs, x.key = r → x.1.length = n + 1) ∧
      T unitOps (n + 1) ((xs.filter (fun x => decide (x.key = r))).map InnerItem.ins) t.1 t.2

theorem inner_fill {xs : List InnerItem} (h : InnerOK xs) : ∃ d, innerFill xs = .ok d ∧ ∀ r, InnerAt xs r (Dict.get? r d) := by
  revert h
  refine snoc_ind (P := fun xs => InnerOK xs → ∃ d, innerFill xs = .ok d ∧ ∀ r, InnerAt xs r (Dict.get? r d)) ?_ ?_ xs
  · intro _
    exact ⟨[], rfl, fun r => by simp [Dict.get?, InnerAt]⟩
  · intro xs x ih h
    obtain ⟨d, h0, hd⟩ := ih (h.mono (fun y hy => by simp [hy]))
    rw [innerFill_concat, h0]
    show ∃ d', innerAdd x d = .ok d' ∧ _
    have hxm : x ∈ xs ++ [x] := by simp
    obtain ⟨n, hn⟩ : ∃ n, x.1.length = n + 1 := ⟨x.1.length - 1, by
      have := List.length_pos_iff.mpr (h.ne x hxm); omega⟩
    have hgr : ∀ q ∈ xs, q.key = x.key → q.1.length = n + 1 := by
      intro q hq e
      rw [← hn]
      exact h.len (by simp [hq]) hxm e
    have hT0 : T unitOps (n + 1) ((xs.filter (fun q => decide (q.key = x.key))).map InnerItem.ins)
        ((Dict.get? x.key d).getD (MData.new emptyMatchPattern, .nil)).1
        ((Dict.get? x.key d).getD (MData.new emptyMatchPattern, .nil)).2 := by
      have := hd x.key
      cases hget : Dict.get? x.key d with
      | none =>
        rw [hget] at this
        have : xs.filter (fun q => decide (q.key = x.key)) = [] := by
          rw [List.filter_eq_nil_iff]; intro q hq; simpa using this q hq
        rw [this]
        exact T.new _ _
      | some t =>
        rw [hget] at this
        obtain ⟨m, ⟨q, hq, e⟩, hm, ht⟩ := this
        have : m = n := by have := hm q hq e; have := hgr q hq e; omega
        subst this
        exact ht
    have hfil : (xs ++ [x]).filter (fun q => decide (q.key = x.key)) =
        xs.filter (fun q => decide (q.key = x.key)) ++ [x] := by simp [List.filter_append]
    have hcoh : Coh (((xs.filter (fun q => decide (q.key = x.key))).map InnerItem.ins) ++ [x.ins]) := by
      rw [← List.map_singleton (f := InnerItem.ins), ← List.map_append]
      apply InnerOK.cohL
      apply h.mono
      intro q hq
      rcases List.mem_append.mp hq with hq | hq
      · exact List.mem_append_left _ (List.mem_filter.mp hq).1
      · exact List.mem_append_right _ hq
    obtain ⟨⟨dt, kids, isNew⟩, h2⟩ := minsert_total (ops := unitOps) (md := some x.2) (x := x.1)
      (fun q hq s => unitAdd_total (h.units x hxm q hq) s) none
      ((Dict.get? x.key d).getD (MData.new emptyMatchPattern, .nil)).1
      ((Dict.get? x.key d).getD (MData.new emptyMatchPattern, .nil)).2
    have hs := minsert_flag h2 (.inl (h.ne x hxm))
    have hres := minsert_T (n := n + 1) (x := x.1) hn
      (by
        intro y hy
        obtain ⟨q, hq, rfl⟩ := List.mem_map.mp hy
        have hq' := List.mem_filter.mp hq
        exact hgr q hq'.1 (of_decide_eq_true hq'.2)) hT0 hcoh h2
    cases isNew with
    | none => simp at hs
    | some b =>
      refine ⟨Dict.upd x.key (fun _ => (dt, kids)) d, ?_, ?_⟩
      · unfold innerAdd
        have h2' : minsert unitOps (some x.2) x.1 none
          ((Dict.get? (fuzzyJoin (x.1.map (fun q => unitsFuzzyRule q.units))) d).getD (MData.new emptyMatchPattern, .nil)).1
          ((Dict.get? (fuzzyJoin (x.1.map (fun q => unitsFuzzyRule q.units))) d).getD (MData.new emptyMatchPattern, .nil)).2 =
          .ok (dt, kids, some b) := h2
        simp only [h2', bind, Except.bind, pure, Except.pure]
        rfl
      intro r
      rw [Dict.get?_upd]
      by_cases hr : x.key = r
      · subst hr
        rw [if_pos rfl]
        refine ⟨n, ⟨x, by simp, rfl⟩, ?_, ?_⟩
        · intro q hq e
          rcases List.mem_append.mp hq with hq | hq
          · exact hgr q hq e
          · rw [List.mem_singleton] at hq; subst hq; exact hn
        · rw [hfil, List.map_append]
          exact hres.1
      · rw [if_neg hr]
        have hfil' : (xs ++ [x]).filter (fun q => decide (q.key = r)) = xs.filter (fun q => decide (q.key = r)) := by
          simp [List.filter_append, hr]
        have := hd r
        cases hget : Dict.get? r d with
        | none =>
          rw [hget] at this
          intro q hq e
          rcases List.mem_append.mp hq with hq | hq
          · exact this q hq e
          · rw [List.mem_singleton] at hq; subst hq; exact hr e
        | some t =>
          rw [hget] at this
          obtain ⟨m, ⟨q, hq, e⟩, hm, ht⟩ := this
          refine ⟨m, ⟨q, by simp [hq], e⟩, ?_, by rw [hfil']; exact ht⟩
          intro q' hq' e'
          rcases List.mem_append.mp hq' with hq' | hq'
          · exact hm q' hq' e'
          · rw [List.mem_singleton] at hq'; subst hq'; exact absurd e' hr

/-- When a sequence is selected. -/
def SelI (vps : List ParsedPiece) (pats : List MatchPattern) : Prop :=
  vps.map (·.fuzzyRule) = pats.map (fun q => unitsFuzzyRule q.units) ∧
  ∀ (i : Nat) vp q, vps[i]? = some vp → pats[i]? = some q → SelU vp q

theorem lastMd_const {M : List (MIns Str)} {v : Str} (h : ∀ y ∈ M, y.2 = some v) (hne : M ≠ []) : lastMd M = some v := by
  revert h hne
  refine snoc_ind (P := fun M => (∀ y ∈ M, y.2 = some v) → M ≠ [] → lastMd M = some v) ?_ ?_ M
  · intro _ h; exact absurd rfl h
  · intro M y _ hM _
    simp [lastMd, List.foldl_append, hM y (by simp)]

theorem inner_main {xs : List InnerItem} (h : InnerOK xs) {c : ViewCls} {pp : ParsedPiece}
    (hv : ∀ x ∈ xs, viewStr (viewPieces c pp) = x.key →
      (viewPieces c pp).map (·.fuzzyRule) = x.1.map (fun q => unitsFuzzyRule q.units))
    (hpl : ∀ vp ∈ viewPieces c pp, ∃ l, vp.pieceLength = .ok l) :
    ∃ d ks, innerFill xs = .ok d ∧ multiMatch c (some pp) d = .ok ks ∧
      ∀ k, k ∈ ks ↔ ∃ x ∈ xs, x.2 = k ∧ SelI (viewPieces c pp) x.1 := by
  obtain ⟨d, h0, hd⟩ := inner_fill h
  have hrk : ∀ x ∈ xs, SelI (viewPieces c pp) x.1 → x.key = viewStr (viewPieces c pp) := by
    intro x hx hs
    unfold InnerItem.key viewStr
    rw [hs.1]
  simp only [multiMatch]
  have hin := hd (viewStr (viewPieces c pp))
  cases hget : Dict.get? (viewStr (viewPieces c pp)) d with
  | none =>
    rw [hget] at hin
    refine ⟨d, [], h0, by rw [hget], ?_⟩
    intro k
    simp only [List.not_mem_nil, false_iff]
    rintro ⟨x, hx, -, hs⟩
    exact hin x hx (hrk x hx hs)
  | some t =>
    obtain ⟨dt, kids⟩ := t
    rw [hget] at hin
    obtain ⟨n, ⟨q, hq, hqr⟩, hlen, hT⟩ := hin
    have hl : (viewPieces c pp).length = n + 1 := by
      have := congrArg List.length (hv q hq hqr.symm)
      simp at this
      rw [this]; exact hlen q hq hqr
    have hsub : ∀ y ∈ xs.filter (fun p => decide (p.key = viewStr (viewPieces c pp))), y ∈ xs :=
      fun y hy => (List.mem_filter.mp hy).1
    have hok := h.mono hsub
    have hcoh := hok.cohL
    have hL : ∀ y ∈ (xs.filter (fun p => decide (p.key = viewStr (viewPieces c pp)))).map InnerItem.ins, y.1.length = n + 1 := by
      intro y hy
      obtain ⟨q, hq, rfl⟩ := List.mem_map.mp hy
      have hq' := List.mem_filter.mp hq
      exact hlen q hq'.1 (of_decide_eq_true hq'.2)
    have hsimp : ∀ y ∈ (xs.filter (fun p => decide (p.key = viewStr (viewPieces c pp)))).map InnerItem.ins, ∀ p ∈ y.1, SimpleCls p.cls := by
      intro y hy p hp
      obtain ⟨q, hq, rfl⟩ := List.mem_map.mp hy
      exact hok.simple q hq p hp
    obtain ⟨ms, hms⟩ := mmatch_total (pps := (viewPieces c pp).map some) (pre := []) hT hL (by simp [hl])
      (by
        intro i opp hi qs hqs hnd vms hvms vm hvm
        simp only [List.getElem?_map, Option.map_eq_some_iff] at hi
        obtain ⟨vp, hvp, rfl⟩ := hi
        obtain ⟨⟨q0, hq0, e0⟩, hf⟩ := ((addAll_spec hvms).2 vm).mp hvm
        have hsim : SimpleCls vm.1 := by
          rw [← e0]
          obtain ⟨x, hx, hxi⟩ := hqs q0 hq0
          exact hsimp x hx q0 (List.mem_of_getElem? hxi)
        exact store_total hsim hf (hpl vp (List.mem_of_getElem? hvp)))
    have hmd : ∀ x ∈ xs.filter (fun p => decide (p.key = viewStr (viewPieces c pp))),
        lastMd (((xs.filter (fun p => decide (p.key = viewStr (viewPieces c pp)))).map InnerItem.ins).filter
          (fun y => decide (y.1 = x.1))) = some x.2 := by
      intro x hx
      apply lastMd_const
      · intro y hy
        obtain ⟨hy1, hy2⟩ := List.mem_filter.mp hy
        obtain ⟨z, hz, rfl⟩ := List.mem_map.mp hy1
        have e : z.1 = x.1 := of_decide_eq_true hy2
        show some z.2 = some x.2
        rw [hok.name z hz x hx e]
      · exact List.ne_nil_of_mem (List.mem_filter.mpr ⟨List.mem_map_of_mem (f := InnerItem.ins) hx, by simp [InnerItem.ins]⟩)
    refine ⟨d, ms.filterMap (fun m => m.data.md), h0, by rw [hget]; simp only [hms]; rfl, ?_⟩
    intro k
    rw [List.mem_filterMap]
    constructor
    · rintro ⟨m, hm, hk⟩
      obtain ⟨y, hy, -, hhits, hmdy⟩ := mmatch_sound hT hL hcoh hms hm
      obtain ⟨x, hx, rfl⟩ := List.mem_map.mp hy
      have hx' := List.mem_filter.mp hx
      rw [hk] at hmdy
      have := hmd x hx
      refine ⟨x, hx'.1, ?_, hv x hx'.1 (of_decide_eq_true hx'.2).symm, ?_⟩
      · have : some k = some x.2 := hmdy.trans this
        exact (Option.some.inj this).symm
      · exact unit_hits_sound hsimp hcoh hy hhits
    · rintro ⟨x, hx, rfl, hs⟩
      have hxf : x ∈ xs.filter (fun p => decide (p.key = viewStr (viewPieces c pp))) :=
        List.mem_filter.mpr ⟨hx, by simpa using hrk x hx hs⟩
      have hh : Hits unitOps ((viewPieces c pp).map some)
          ((xs.filter (fun p => decide (p.key = viewStr (viewPieces c pp)))).map InnerItem.ins) x.ins.1 := by
        refine unit_hits_complete (md := x.ins.2) ?_ ?_ (List.mem_map_of_mem (f := InnerItem.ins) hxf) ?_ hs.2
        · intro y hy p hp
          obtain ⟨q, hq, rfl⟩ := List.mem_map.mp hy
          exact hok.units q hq p hp
        · intro y hy z hz i a b ha hb ca cb e
          obtain ⟨q1, hq1, rfl⟩ := List.mem_map.mp hy
          obtain ⟨q2, hq2, rfl⟩ := List.mem_map.mp hz
          have k1 := of_decide_eq_true (List.mem_filter.mp hq1).2
          have k2 := of_decide_eq_true (List.mem_filter.mp hq2).2
          have hfr := hok.key q1 hq1 q2 hq2 (k1.trans k2.symm)
          have ha : q1.1[i]? = some a := ha
          have hb : q2.1[i]? = some b := hb
          have e1 := congrArg (fun l => l[i]?) hfr
          simp only [List.getElem?_map, ha, hb, Option.map_some, Option.some.injEq] at e1
          exact hok.lens q1 hq1 q2 hq2 a (List.mem_of_getElem? ha) b (List.mem_of_getElem? hb) ca cb e1 e
        · have := congrArg List.length hs.1
          simp at this
          simp [InnerItem.ins, this]
      obtain ⟨m, hm, hpath⟩ := mmatch_complete hT hL hcoh hms (List.mem_map_of_mem (f := InnerItem.ins) hxf) hh
      refine ⟨m, hm, ?_⟩
      obtain ⟨y, hy, hpy, -, hmdy⟩ := mmatch_sound hT hL hcoh hms hm
      rw [hmdy]
      have hyx : y.1 = x.1 := by simpa [InnerItem.ins] using hpy.symm.trans hpath
      rw [hyx]
      exact hmd x hxf

end OsUrl
