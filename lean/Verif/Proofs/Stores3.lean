import Verif.Proofs.Stores2

/-! Selection at URL level and along whole paths. -/

namespace OsUrl
open Spec

theorem fill_simple {c : ViewCls} (hc : SimpleCls c) (ps : List MatchPattern) {s : FullStore}
    (h : fillStore urlOps c ps = .ok s) : ∃ s0, s = .simple s0 ∧ fillStore unitOps c ps = .ok s0 := by
  revert h
  suffices ∀ s, fillStore urlOps c ps = .ok s → ∃ s0, s = .simple s0 ∧ fillStore unitOps c ps = .ok s0 from this s
  refine snoc_ind (P := fun ps => ∀ s, fillStore urlOps c ps = .ok s →
    ∃ s0, s = .simple s0 ∧ fillStore unitOps c ps = .ok s0) ?_ ?_ ps
  · intro s h
    have h : (.ok (FullStore.emptyOf c) : Py FullStore) = .ok s := h
    simp only [Except.ok.injEq] at h
    refine ⟨Store.emptyOf c, ?_, rfl⟩
    rw [← h]
    rcases hc with rfl | rfl | rfl <;> rfl
  · intro ps p ih s h
    rw [fillStore_concat] at h ⊢
    obtain ⟨s1, h1, h⟩ := bind_ok h
    obtain ⟨s0, rfl, h0⟩ := ih s1 h1
    have h : FullStore.add p (.simple s0) = .ok s := h
    simp only [FullStore.add] at h
    obtain ⟨s2, h2, h⟩ := bind_ok h
    simp only [pure, Except.pure, Except.ok.injEq] at h
    refine ⟨s2, h.symm, ?_⟩
    rw [h0]
    exact h2

/-- When a child is selected for a piece. -/
def SelF (pp : ParsedPiece) (p : MatchPattern) : Prop :=
  if SimpleCls p.cls then SelU pp p else SelM (viewPieces p.cls pp) p

/-- What is needed of the children of a node (and the piece) for the selection to be sound. -/
structure Lvl (pp : ParsedPiece) (ps : List MatchPattern) : Prop where
  good : ∀ p ∈ ps, GoodPat p
  inj : StrInj ps
  key : ∀ p ∈ ps, ∀ q ∈ ps, MultiCls p.cls → p.cls = q.cls → rkey p = rkey q →
    p.units.map (·.fuzzyRule) = q.units.map (·.fuzzyRule)
  view : ∀ p ∈ ps, MultiCls p.cls → viewStr (viewPieces p.cls pp) = rkey p →
    (viewPieces p.cls pp).map (·.fuzzyRule) = p.units.map (·.fuzzyRule)

/-- What is needed in addition for the selection to be complete. -/
structure LvlC (pp : ParsedPiece) (ps : List MatchPattern) : Prop where
  lens : LenUniq ps
  can : ∀ p ∈ ps, ∀ q ∈ ps, ∀ u ∈ p.units, ∀ v ∈ q.units, u.fuzzyRule = v.fuzzyRule → unitCls u = .length →
    unitCls v = .length → u.num = v.num → u = v

/-- Lengths are defined. -/
structure LvlT (pp : ParsedPiece) (ps : List MatchPattern) : Prop where
  plen : ∃ l, pp.pieceLength = .ok l
  vlen : ∀ p ∈ ps, MultiCls p.cls → ∀ vp ∈ viewPieces p.cls pp, ∃ l, vp.pieceLength = .ok l

theorem Lvl.mono {pp : ParsedPiece} {ps qs : List MatchPattern} (h : Lvl pp ps) (hs : ∀ q ∈ qs, q ∈ ps) : Lvl pp qs :=
  ⟨fun p hp => h.good p (hs p hp), fun p hp q hq => h.inj p (hs p hp) q (hs q hq),
    fun p hp q hq => h.key p (hs p hp) q (hs q hq), fun p hp => h.view p (hs p hp)⟩

theorem LvlC.mono {pp : ParsedPiece} {ps qs : List MatchPattern} (h : LvlC pp ps) (hs : ∀ q ∈ qs, q ∈ ps) : LvlC pp qs :=
  ⟨fun p hp q hq => h.lens p (hs p hp) q (hs q hq), fun p hp q hq => h.can p (hs p hp) q (hs q hq)⟩

theorem LvlT.mono {pp : ParsedPiece} {ps qs : List MatchPattern} (h : LvlT pp ps) (hs : ∀ q ∈ qs, q ∈ ps) : LvlT pp qs :=
  ⟨h.plen, fun p hp => h.vlen p (hs p hp)⟩

theorem multi_not_simple {c : ViewCls} (h : MultiCls c) : ¬ SimpleCls c := by
  rcases h with rfl | rfl | rfl <;> simp [SimpleCls]

theorem Lvl.keyInj {pp : ParsedPiece} {ps : List MatchPattern} (h : Lvl pp ps) {c : ViewCls} (hc : MultiCls c) :
    KeyInj (ps.filter (fun p => decide (p.cls = c))) := by
  intro p hp q hq e
  have h1 := List.mem_filter.mp hp
  have h2 := List.mem_filter.mp hq
  have c1 : p.cls = c := of_decide_eq_true h1.2
  have c2 : q.cls = c := of_decide_eq_true h2.2
  exact h.key p h1.1 q h2.1 (c1 ▸ hc) (c1.trans c2.symm) e

theorem Lvl.views {pp : ParsedPiece} {ps : List MatchPattern} (h : Lvl pp ps) {c : ViewCls} (hc : MultiCls c) :
    ∀ p ∈ ps.filter (fun p => decide (p.cls = c)), viewStr (viewPieces c pp) = rkey p →
      (viewPieces c pp).map (·.fuzzyRule) = p.units.map (·.fuzzyRule) := by
  intro p hp
  have h1 := List.mem_filter.mp hp
  have c1 : p.cls = c := of_decide_eq_true h1.2
  have := h.view p h1.1 (c1 ▸ hc)
  rwa [c1] at this

theorem url_sel_sound {ps : List MatchPattern} {pp : ParsedPiece} (hl : Lvl pp ps)
    {p : MatchPattern} (hp : p ∈ ps) (h : Sel urlOps (some pp) ps p) : SelF pp p := by
  obtain ⟨vms, c, s, keys, h1, h2, h3, h4⟩ := h
  obtain ⟨⟨q0, hq0, e0⟩, hf⟩ := ((addAll_spec h1).2 (c, s)).mp h2
  simp only at e0 hf
  have hcls : ∀ q ∈ ps.filter (fun p => decide (p.cls = c)), q.cls = c := by
    intro q hq; simpa using (List.mem_filter.mp hq).2
  rcases cls_cases c with hc | hc
  · obtain ⟨s0, rfl, hs0⟩ := fill_simple hc _ hf
    obtain ⟨q, hq, e, hsel⟩ := store_sound hc hcls hs0 h3 h4
    have := hl.inj q (List.mem_filter.mp hq).1 p hp e
    subst this
    unfold SelF
    rw [if_pos (by rw [hcls q hq]; exact hc)]
    exact hsel
  · obtain ⟨q, hq, e, hsel⟩ := multi_sound hc hf (fun q hq => hl.good q (List.mem_filter.mp hq).1) (hl.keyInj hc)
      (hl.views hc) h3 h4
    have := hl.inj q (List.mem_filter.mp hq).1 p hp e
    subst this
    unfold SelF
    rw [if_neg (by rw [hcls q hq]; exact multi_not_simple hc), hcls q hq]
    exact hsel

theorem url_sel_complete {ps : List MatchPattern} {pp : ParsedPiece} (hl : Lvl pp ps) 
    (hlt : LvlT pp ps) {p : MatchPattern} (hlc : p.cls = .piece ∨ LvlC pp ps) (hp : p ∈ ps) (h : SelF pp p) : Sel urlOps (some pp) ps p := by
  obtain ⟨vms, hv⟩ := addAll_ok (ops := urlOps) (fun p hp => urlAdd_total (hl.good p hp))
  have hfill : ∃ s, fillStore urlOps p.cls (ps.filter (fun q => decide (q.cls = p.cls))) = .ok s := fillStore_ok
    (fun q hq s => urlAdd_total (hl.good q (List.mem_filter.mp hq).1) s)
  obtain ⟨s, hs⟩ := hfill
  have hin := ((addAll_spec hv).2 (p.cls, s)).mpr ⟨⟨p, hp, rfl⟩, hs⟩
  have hcls : ∀ q ∈ ps.filter (fun q => decide (q.cls = p.cls)), q.cls = p.cls := by
    intro q hq; simpa using (List.mem_filter.mp hq).2
  have hpf : p ∈ ps.filter (fun q => decide (q.cls = p.cls)) := List.mem_filter.mpr ⟨hp, by simp⟩
  rcases cls_cases p.cls with hc | hc
  · obtain ⟨s0, rfl, hs0⟩ := fill_simple hc _ hs
    unfold SelF at h
    rw [if_pos hc] at h
    obtain ⟨keys, k1, k2⟩ := store_complete hcls hs0 (hlc.imp id (fun hlc => hlc.lens.filter _)) hpf h
    exact ⟨vms, p.cls, _, keys, hv, hin, k1, k2⟩
  · unfold SelF at h
    rw [if_neg (multi_not_simple hc)] at h
    have hlc : LvlC pp ps := hlc.resolve_left (by rintro e; rw [e] at hc; exact multi_not_simple hc (.inl rfl))
    obtain ⟨keys, k1, k2⟩ := multi_complete hc hs (fun q hq => hl.good q (List.mem_filter.mp hq).1) (hl.keyInj hc)
      (fun a ha b hb => hlc.can a (List.mem_filter.mp ha).1 b (List.mem_filter.mp hb).1)
      (hl.views hc) (hlt.vlen p hp hc) hpf h
    exact ⟨vms, p.cls, _, keys, hv, hin, k1, k2⟩

theorem url_vms_total {ps : List MatchPattern} {pp : ParsedPiece} (hl : Lvl pp ps) (hlt : LvlT pp ps)
    {vms : List (ViewCls × FullStore)} (hv : addAll urlOps ps = .ok vms) {vm : ViewCls × FullStore} (hvm : vm ∈ vms) :
    ∃ keys, urlOps.matches_ vm.1 (some pp) vm.2 = .ok keys := by
  obtain ⟨⟨q0, hq0, e0⟩, hf⟩ := ((addAll_spec hv).2 vm).mp hvm
  obtain ⟨c, s⟩ := vm
  simp only at e0 hf ⊢
  show ∃ keys, FullStore.matches_ c (some pp) s = .ok keys
  rcases cls_cases c with hc | hc
  · obtain ⟨s0, rfl, hs0⟩ := fill_simple hc _ hf
    exact store_total hc hs0 hlt.plen
  · refine multi_total hc hf (fun q hq => hl.good q (List.mem_filter.mp hq).1) (hl.keyInj hc) (hl.views hc) ?_
    have := hlt.vlen q0 hq0 (e0 ▸ hc)
    rwa [e0] at this

/-! ### whole paths -/

/-- The patterns at a position. -/
def patsAt (i : Nat) (L : List (MIns Str)) : List MatchPattern := L.filterMap (fun x => x.1[i]?)

theorem mem_patsAt {i : Nat} {L : List (MIns Str)} {p : MatchPattern} :
    p ∈ patsAt i L ↔ ∃ x ∈ L, x.1[i]? = some p := by
  unfold patsAt; rw [List.mem_filterMap]

theorem patsAt_sub {i : Nat} {k : Str} {L : List (MIns Str)} : ∀ q ∈ patsAt i (sub k L), q ∈ patsAt (i + 1) L := by
  intro q hq
  obtain ⟨x, hx, hi⟩ := mem_patsAt.mp hq
  obtain ⟨a, -, ha⟩ := mem_sub.mp hx
  exact mem_patsAt.mpr ⟨_, ha, by simpa using hi⟩

theorem patsAt_zero {L : List (MIns Str)} : ∀ q ∈ uniq (heads L), q ∈ patsAt 0 L := by
  intro q hq
  obtain ⟨qs, qm, hqi⟩ := mem_heads.mp (mem_uniq.mp hq)
  exact mem_patsAt.mpr ⟨_, hqi, by simp⟩

theorem url_hits_sound {pps : List ParsedPiece} {L : List (MIns Str)} {path : List MatchPattern} {md : Option Str}
    (hl : ∀ (i : Nat) pp, pps[i]? = some pp → Lvl pp (patsAt i L)) (hin : (path, md) ∈ L)
    (h : Hits urlOps (pps.map some) L path) :
    ∀ (i : Nat) pp p, pps[i]? = some pp → path[i]? = some p → SelF pp p := by
  induction path generalizing L pps with
  | nil => intro i vp p _ hp; simp at hp
  | cons p path ih =>
    cases pps with
    | nil => simp at *
    | cons pp pps =>
      obtain ⟨h1, h2⟩ := h
      have hp : p ∈ heads L := mem_heads.mpr ⟨_, _, hin⟩
      have hsel : SelF pp p := url_sel_sound ((hl 0 pp (by simp)).mono patsAt_zero) (mem_uniq.mpr hp) h1
      have hrec := ih (L := sub p.str L) (pps := pps)
        (fun i q hq => (hl (i + 1) q (by simpa using hq)).mono patsAt_sub) (mem_sub.mpr ⟨p, rfl, hin⟩) h2
      intro i vp' p' hv hp'
      cases i with
      | zero => simp at hv hp'; subst hv; subst hp'; exact hsel
      | succ i => exact hrec i vp' p' (by simpa using hv) (by simpa using hp')

theorem url_hits_complete {pps : List ParsedPiece} {L : List (MIns Str)} {path : List MatchPattern} {md : Option Str}
    (hl : ∀ (i : Nat) pp, pps[i]? = some pp → Lvl pp (patsAt i L) ∧ LvlT pp (patsAt i L))
    (hin : (path, md) ∈ L) (hlen : path.length ≤ pps.length)
    (hlc : ∀ (i : Nat) pp p, pps[i]? = some pp → path[i]? = some p → p.cls = .piece ∨ LvlC pp (patsAt i L))
    (h : ∀ (i : Nat) pp p, pps[i]? = some pp → path[i]? = some p → SelF pp p) :
    Hits urlOps (pps.map some) L path := by
  induction path generalizing L pps with
  | nil => simp [Hits]
  | cons p path ih =>
    cases pps with
    | nil => simp at hlen
    | cons pp pps =>
      have hp : p ∈ heads L := mem_heads.mpr ⟨_, _, hin⟩
      obtain ⟨l1, l3⟩ := hl 0 pp (by simp)
      refine ⟨url_sel_complete (l1.mono patsAt_zero) (l3.mono patsAt_zero)
        ((hlc 0 pp p (by simp) (by simp)).imp id (fun l2 => l2.mono patsAt_zero)) (mem_uniq.mpr hp)
        (h 0 pp p (by simp) (by simp)), ?_⟩
      apply ih
      · intro i q hq
        obtain ⟨l1, l3⟩ := hl (i + 1) q (by simpa using hq)
        exact ⟨l1.mono patsAt_sub, l3.mono patsAt_sub⟩
      · exact mem_sub.mpr ⟨p, rfl, hin⟩
      · simpa using hlen
      · intro i q p' hq hp'
        exact (hlc (i + 1) q p' (by simpa using hq) (by simpa using hp')).imp id (fun l2 => l2.mono patsAt_sub)
      · intro i vp' p' hv hp'
        exact h (i + 1) vp' p' (by simpa using hv) (by simpa using hp')

/-- Matching in a tree succeeds. -/
theorem url_match_total {n : Nat} {L : List (MIns Str)} {d : MData FullStore Str} {kids : Forest (MData FullStore Str)}
    (hT : T urlOps (n + 1) L d kids) (hL : ∀ y ∈ L, y.1.length = n + 1) {pps : List ParsedPiece}
    (hlen : n + 1 ≤ pps.length)
    (hl : ∀ (i : Nat) pp, pps[i]? = some pp → Lvl pp (patsAt i L) ∧ LvlT pp (patsAt i L)) :
    ∃ rs, mmatch urlOps (pps.map some) [] d kids = .ok rs := by
  apply mmatch_total hT hL (by simpa using hlen)
  intro i opp hi qs hqs _ vms hvms vm hvm
  simp only [List.getElem?_map, Option.map_eq_some_iff] at hi
  obtain ⟨pp, hpp, rfl⟩ := hi
  obtain ⟨l1, l2⟩ := hl i pp hpp
  exact url_vms_total (l1.mono (fun q hq => mem_patsAt.mpr (hqs q hq))) (l2.mono (fun q hq => mem_patsAt.mpr (hqs q hq)))
    hvms hvm

/-- The nodes found. -/
theorem url_match_mem {n : Nat} {L : List (MIns Str)} {d : MData FullStore Str} {kids : Forest (MData FullStore Str)}
    (hT : T urlOps (n + 1) L d kids) (hL : ∀ y ∈ L, y.1.length = n + 1) (hc : Coh L) {pps : List ParsedPiece}
    (hlen : n + 1 ≤ pps.length)
    (hl : ∀ (i : Nat) pp, pps[i]? = some pp → Lvl pp (patsAt i L) ∧ LvlT pp (patsAt i L))
    {rs : List (Matched FullStore Str)} (h : mmatch urlOps (pps.map some) [] d kids = .ok rs) (path : List MatchPattern)
    (hlc : ∀ (i : Nat) pp p, pps[i]? = some pp → path[i]? = some p → p.cls = .piece ∨ LvlC pp (patsAt i L)) :
    (∃ m ∈ rs, m.path = path) ↔ (∃ md, (path, md) ∈ L) ∧
      ∀ (i : Nat) pp p, pps[i]? = some pp → path[i]? = some p → SelF pp p := by
  constructor
  · rintro ⟨m, hm, rfl⟩
    obtain ⟨x, hx, hp, hh, -⟩ := mmatch_sound hT hL hc h hm
    simp at hp
    rw [hp]
    exact ⟨⟨x.2, hx⟩, url_hits_sound (fun i pp hi => (hl i pp hi).1) (by exact hx) hh⟩
  · rintro ⟨⟨md, hin⟩, hsel⟩
    have := url_hits_complete hl hin (by rw [hL _ hin]; exact hlen) hlc hsel
    obtain ⟨m, hm, hp⟩ := mmatch_complete hT hL hc h hin this
    exact ⟨m, hm, by simpa using hp⟩

end OsUrl
