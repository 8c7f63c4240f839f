import Verif.Proofs.Shadow2

/-! Exactly which patterns are returned: along paths, and for whole URLs. -/

namespace OsUrl
open Spec

/-- A unit of the pattern `p` at piece `i` of a path is hidden. -/
def ShadFAt (L : List (MIns Str)) (path : List MatchPattern) (i : Nat) (p : MatchPattern) : Prop :=
  ∃ (j : Nat) (u v : PatternUnit), p.units[j]? = some u ∧ FixedClass u ∧ FixedClass v ∧ v.num = u.num ∧ v ≠ u ∧
    Overtaken (fun x => GoesThrough path i p j u x.1) (fun x => GoesThrough path i p j v x.1) L

theorem shadFAt_zero {L : List (MIns Str)} {path : List MatchPattern} {p : MatchPattern} :
    ShadFAt L path 0 p ↔ ShadF (uniq (heads L)) p := by
  unfold ShadFAt ShadF
  refine exists_congr fun j => exists_congr fun u => exists_congr fun v => and_congr Iff.rfl (and_congr Iff.rfl
    (and_congr Iff.rfl (and_congr Iff.rfl (and_congr Iff.rfl ?_))))
  rw [ov_heads]
  apply ov_congr <;>
  · rintro ⟨x, md⟩ _
    unfold GoesThrough
    cases x with
    | nil => simp
    | cons q t =>
      constructor
      · rintro ⟨-, q', e, h⟩
        simp only [List.getElem?_cons_zero, Option.some.injEq] at e
        subst e
        exact ⟨q, t, rfl, h⟩
      · rintro ⟨q', t', e, h⟩
        simp only [List.cons.injEq] at e
        obtain ⟨rfl, rfl⟩ := e
        exact ⟨rfl, q, rfl, h⟩

theorem goesThrough_succ {path x : List MatchPattern} {p0 p : MatchPattern} {i j : Nat} {w : PatternUnit} :
    GoesThrough (p0 :: path) (i + 1) p j w x ↔ ∃ t, x = p0 :: t ∧ GoesThrough path i p j w t := by
  unfold GoesThrough
  cases x with
  | nil => simp
  | cons q t =>
    simp only [List.take_succ_cons, List.cons.injEq, List.getElem?_cons_succ]
    constructor
    · rintro ⟨⟨rfl, h1⟩, h2⟩; exact ⟨t, ⟨rfl, rfl⟩, h1, h2⟩
    · rintro ⟨t', ⟨rfl, rfl⟩, h1, h2⟩; exact ⟨⟨rfl, h1⟩, h2⟩

theorem shadFAt_succ {L : List (MIns Str)} (hc : Coh L) {path : List MatchPattern} {p0 : MatchPattern} (hp : p0 ∈ heads L)
    {i : Nat} {p : MatchPattern} : ShadFAt L (p0 :: path) (i + 1) p ↔ ShadFAt (sub p0.str L) path i p := by
  unfold ShadFAt
  refine exists_congr fun j => exists_congr fun u => exists_congr fun v => and_congr Iff.rfl (and_congr Iff.rfl
    (and_congr Iff.rfl (and_congr Iff.rfl (and_congr Iff.rfl ?_))))
  rw [ov_sub (P := GoesThrough path i p j u) (Q := GoesThrough path i p j v) hc hp]
  apply ov_congr <;> (intro x _; exact goesThrough_succ)

theorem url_hits_iff {pps : List ParsedPiece} {L : List (MIns Str)} {path : List MatchPattern} {md : Option Str}
    (hc : Coh L)
    (hl : ∀ (i : Nat) pp, pps[i]? = some pp → Lvl pp (patsAt i L) ∧ LvlT pp (patsAt i L) ∧ SameRule (patsAt i L))
    (hin : (path, md) ∈ L) (hlen : path.length ≤ pps.length) :
    Hits urlOps (pps.map some) L path ↔
      (∀ (i : Nat) pp p, pps[i]? = some pp → path[i]? = some p → SelF pp p) ∧
      ∀ (i : Nat) p, path[i]? = some p → ¬ ShadFAt L path i p := by
  induction path generalizing L pps with
  | nil => simp [Hits]
  | cons p path ih =>
    cases pps with
    | nil => simp at hlen
    | cons pp pps =>
      have hp : p ∈ heads L := mem_heads.mpr ⟨_, _, hin⟩
      obtain ⟨l1, l2, l3⟩ := hl 0 pp (by simp)
      have h1 := url_sel_iff (ps := uniq (heads L)) (l1.mono patsAt_zero) (l2.mono patsAt_zero) (nodup_uniq _)
        (fun a ha b hb => l3 a (patsAt_zero a ha) b (patsAt_zero b hb)) (mem_uniq.mpr hp)
      have h2 := ih (L := sub p.str L) (pps := pps) (hc.sub _)
        (by
          intro i q hq
          obtain ⟨l1, l2, l3⟩ := hl (i + 1) q (by simpa using hq)
          exact ⟨l1.mono patsAt_sub, l2.mono patsAt_sub, fun a ha b hb => l3 a (patsAt_sub a ha) b (patsAt_sub b hb)⟩)
        (mem_sub.mpr ⟨p, rfl, hin⟩) (by simpa using hlen)
      show Sel urlOps (some pp) (uniq (heads L)) p ∧ Hits urlOps (pps.map some) (sub p.str L) path ↔ _
      rw [h1, h2]
      constructor
      · rintro ⟨⟨a1, a2⟩, b1, b2⟩
        constructor
        · intro i vp' p' hv hp'
          cases i with
          | zero => simp at hv hp'; subst hv; subst hp'; exact a1
          | succ i => exact b1 i vp' p' (by simpa using hv) (by simpa using hp')
        · intro i p' hp'
          cases i with
          | zero => simp at hp'; subst hp'; rw [shadFAt_zero]; exact a2
          | succ i => rw [shadFAt_succ hc hp]; exact b2 i p' (by simpa using hp')
      · rintro ⟨a, b⟩
        refine ⟨⟨a 0 pp p (by simp) (by simp), ?_⟩, ?_, ?_⟩
        · rw [← shadFAt_zero (path := p :: path)]; exact b 0 p (by simp)
        · intro i vp' p' hv hp'
          exact a (i + 1) vp' p' (by simpa using hv) (by simpa using hp')
        · intro i p' hp'
          rw [← shadFAt_succ hc hp]; exact b (i + 1) p' (by simpa using hp')

/-- The loads of the same structure, by their piece patterns. -/
def sameShape (hist : List (Str × Option Str)) (m : URLMeta) (fs : List Str) : List (List MatchPattern) :=
  ((macc hist).filter (fun r => decide (r.m = m ∧ r.ps.map (fun p => unitsFuzzyRule p.units) = fs))).map (·.ps)

/-- The result of `match` for tame patterns, exactly. -/
theorem match_exact {md5 : Str → Str} {hist : List (Str × Option Str)} {url : Str} {m : URLMeta} {pieces : List Str}
    {pps : List ParsedPiece} (h : parse url = .ok (m, .pieces pps)) (hk : ∀ s ∈ pieces, ∀ c ∈ s, Known c)
    (hpps : pps = pieces.map (fun s => ppOf (runsOf s)))
    (hc : NoClash md5 (url :: hist.map (·.1))) (ht : AllTame hist) :
    ∃ rs, (mloadAll md5 hist).match_ md5 url = .ok rs ∧
      ∀ r ∈ macc hist, r.m = m → ((∃ x ∈ rs, x.path = r.ps) ↔
        r.ps.map (fun p => unitsFuzzyRule p.units) = pps.map (·.fuzzyRule) ∧
        (∀ (i : Nat) (s : Str) (p : MatchPattern), pieces[i]? = some s → r.ps[i]? = some p → SelF (ppOf (runsOf s)) p) ∧
        ¬ Hidden (sameShape hist m (pps.map (·.fuzzyRule))) r.ps) := by
  obtain ⟨g, hg, hge, hcase⟩ := match_grp hc h
  have hgs : g.map (·.ps) = sameShape hist m (pps.map (·.fuzzyRule)) := by
    unfold sameShape
    rw [hge]
    congr 1
    apply List.filter_congr
    intro r hr
    have := hg r
    rw [hge, List.mem_filter, decide_eq_true_eq] at this
    rw [Bool.eq_iff_iff, decide_eq_true_eq, decide_eq_true_eq]
    constructor
    · intro e; exact (this.mp ⟨hr, e⟩).2
    · intro e; exact (this.mpr ⟨hr, e⟩).2
  rcases hcase with ⟨rfl, hnil⟩ | ⟨hne, d, kids, hT, hmm⟩
  · refine ⟨[], hnil, ?_⟩
    intro r hr hm
    constructor
    · rintro ⟨x, hx, -⟩; simp at hx
    · rintro ⟨hf, -⟩
      have := (hg r).mpr ⟨hr, hm, hf⟩
      simp at this
  · obtain ⟨r0, hr0⟩ := List.exists_mem_of_ne_nil _ hne
    obtain ⟨h01, h02, h03⟩ := (hg r0).mp hr0
    obtain ⟨hd1, hd2⟩ := rec_depth h01
    obtain ⟨n, hn⟩ : ∃ n, m.depth = n + 1 := ⟨m.depth - 1, by rw [h02] at hd2; omega⟩
    rw [hn] at hT
    have hL : ∀ y ∈ g.map MRec.ins, y.1.length = n + 1 := by
      intro y hy
      obtain ⟨r, hr, rfl⟩ := List.mem_map.mp hy
      obtain ⟨a1, a2, a3⟩ := (hg r).mp hr
      rw [← hn, ← a2]
      exact (rec_depth a1).1
    have hlen : n + 1 ≤ pps.length := by
      have := congrArg List.length h03
      simp only [List.length_map] at this
      rw [← this, hd1, h02, hn]
      exact Nat.le_refl _
    have hcoh : Coh (g.map MRec.ins) :=
      rec_coh (hist := hist) (fun r hr => ((hg r).mp hr).1)
        (fun r hr r' hr' => ((hg r).mp hr).2.1.trans ((hg r').mp hr').2.1.symm)
    have hat : ∀ (i : Nat) (s : Str) (p : MatchPattern), pieces[i]? = some s → p ∈ patsAt i (g.map MRec.ins) →
        AtPos s p ∧ Tame p := by
      intro i s p hi hp
      obtain ⟨x, hx, hxp⟩ := mem_patsAt.mp hp
      obtain ⟨r, hr, rfl⟩ := List.mem_map.mp hx
      obtain ⟨a1, a2, a3⟩ := (hg r).mp hr
      exact ⟨atPos_of h hk hpps a1 a2 a3 hi hxp, ht.rec a1 p (List.mem_of_getElem? hxp)⟩
    have hinj : ∀ i, StrInj (patsAt i (g.map MRec.ins)) := by
      intro i p hp q hq e
      obtain ⟨x, hx, hxp⟩ := mem_patsAt.mp hp
      obtain ⟨y, hy, hyq⟩ := mem_patsAt.mp hq
      exact hcoh x hx y hy i p q hxp hyq e
    have hl : ∀ (i : Nat) (pp : ParsedPiece), pps[i]? = some pp →
        Lvl pp (patsAt i (g.map MRec.ins)) ∧ LvlT pp (patsAt i (g.map MRec.ins)) ∧ SameRule (patsAt i (g.map MRec.ins)) := by
      intro i pp hi
      rw [hpps, List.getElem?_map] at hi
      simp only [Option.map_eq_some_iff] at hi
      obtain ⟨s, hs, rfl⟩ := hi
      have hks := hk s (List.mem_of_getElem? hs)
      refine ⟨lvl_of hks (fun p hp => (hat i s p hs hp).1) (fun p hp => (hat i s p hs hp).2) (hinj i),
        lvlT_of hks _, ?_⟩
      intro p hp q hq c1 c2
      obtain ⟨u, hu, -⟩ := length_single (hat i s p hs hp).1.good c1
      obtain ⟨v, hv, -⟩ := length_single (hat i s q hs hq).1.good c2
      have f := (hat i s p hs hp).1.fuzzy.trans (hat i s q hs hq).1.fuzzy.symm
      rw [hu, hv] at f ⊢
      simpa [unitsFuzzyRule, PatternUnit.fuzzyRule] using f
    obtain ⟨rs, hrs⟩ := url_match_total hT hL hlen (fun i pp hi => ⟨(hl i pp hi).1, (hl i pp hi).2.1⟩)
    refine ⟨rs, by rw [hmm, hrs], ?_⟩
    intro r hr hm
    have hit : ∀ r' ∈ g, (Hits urlOps (pps.map some) (g.map MRec.ins) r'.ps ↔
        (∀ (i : Nat) (s : Str) (p : MatchPattern), pieces[i]? = some s → r'.ps[i]? = some p → SelF (ppOf (runsOf s)) p) ∧
        ¬ Hidden (sameShape hist m (pps.map (·.fuzzyRule))) r'.ps) := by
      intro r' hr'
      have hin : (r'.ps, r'.md) ∈ g.map MRec.ins := List.mem_map.mpr ⟨r', hr', rfl⟩
      rw [url_hits_iff hcoh hl hin (by rw [hL _ hin]; exact hlen)]
      refine and_congr ?_ ?_
      · constructor
        · intro hh i s p hi hp
          exact hh i _ p (by rw [hpps, List.getElem?_map, hi]; rfl) hp
        · intro hh i pp p hi hp
          rw [hpps, List.getElem?_map] at hi
          simp only [Option.map_eq_some_iff] at hi
          obtain ⟨s, hs, rfl⟩ := hi
          exact hh i s p hs hp
      · rw [← hgs]
        have hov : ∀ (P Q : List MatchPattern → Prop), Overtaken (fun x => P x.1) (fun x => Q x.1) (g.map MRec.ins) ↔
            Overtaken P Q (g.map (·.ps)) := by
          intro P Q
          rw [ov_map, ov_map]
          exact Iff.rfl
        constructor
        · rintro hh ⟨i, p, j, u, v, h1, h2, h3, h4, h5, h6, h7⟩
          exact hh i p h1 ⟨j, u, v, h2, h3, h4, h5, h6, (hov _ _).mpr h7⟩
        · rintro hh i p h1 ⟨j, u, v, h2, h3, h4, h5, h6, h7⟩
          exact hh ⟨i, p, j, u, v, h1, h2, h3, h4, h5, h6, (hov _ _).mp h7⟩
    constructor
    · rintro ⟨x, hx, hxp⟩
      obtain ⟨y, hy, hp, hh, -⟩ := mmatch_sound hT hL hcoh hrs hx
      simp at hp
      obtain ⟨r', hr', rfl⟩ := List.mem_map.mp hy
      obtain ⟨a1, a2, a3⟩ := (hg r').mp hr'
      have e : r'.ps = r.ps := hp.symm.trans hxp
      have := (hit r' hr').mp hh
      rw [e] at this a3
      exact ⟨a3, this⟩
    · rintro ⟨hf, hsel⟩
      have hrg := (hg r).mpr ⟨hr, hm, hf⟩
      obtain ⟨x, hx, hp⟩ := mmatch_complete hT hL hcoh hrs (List.mem_map.mpr ⟨r, hrg, rfl⟩) ((hit r hrg).mpr hsel)
      exact ⟨x, hx, by simpa [MRec.ins] using hp⟩

end OsUrl
