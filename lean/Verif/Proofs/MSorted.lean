import Verif.Props.C20

/-! The order in which nodes are found. -/

namespace OsUrl
open Spec

section
variable {σ μ : Type}

/-- The two paths agree up to a point, at which they are related. -/
def FirstDiff (RP : MatchPattern → MatchPattern → Prop) (x y : Matched σ μ) : Prop :=
  ∃ pre p q a b, x.path = pre ++ p :: a ∧ y.path = pre ++ q :: b ∧ RP p q

theorem FirstDiff.of {RP : MatchPattern → MatchPattern → Prop} {x y : Matched σ μ} {pre : List MatchPattern} {p q : MatchPattern}
    {a b : List MatchPattern} (hx : x.path = pre ++ [p] ++ a) (hy : y.path = pre ++ [q] ++ b) (h : RP p q) :
    FirstDiff RP x y := ⟨pre, p, q, a, b, by simpa using hx, by simpa using hy, h⟩

/-- What is needed of the matchers. -/
def KeysSorted (RP : MatchPattern → MatchPattern → Prop) (ops : VMOps σ) (pp : Option ParsedPiece) (ps : List MatchPattern) : Prop :=
  ∀ vms, addAll ops ps = .ok vms → ∀ vm ∈ vms, ∀ keys, ops.matches_ vm.1 pp vm.2 = .ok keys →
    keys.Pairwise (fun k k' => ∀ p ∈ ps, ∀ q ∈ ps, p.str = k → q.str = k' → RP p q) ∧
    ∀ k ∈ keys, ∃ q ∈ ps, q.cls = vm.1 ∧ q.str = k

theorem mmatch_sorted {RP : MatchPattern → MatchPattern → Prop} {ops : VMOps σ} {n : Nat} {L : List (MIns μ)} {d : MData σ μ} {kids : Forest (MData σ μ)}
    (hT : T ops (n + 1) L d kids) (hL : ∀ y ∈ L, y.1.length = n + 1) (hc : Coh L)
    {pps : List (Option ParsedPiece)} {pre : List MatchPattern} {rs : List (Matched σ μ)}
    (h : mmatch ops pps pre d kids = .ok rs)
    (hm : ∀ (i : Nat) pp, pps[i]? = some pp → ∀ ps : List MatchPattern, (∀ p ∈ ps, ∃ x ∈ L, x.1[i]? = some p) →
      ps.Nodup → KeysSorted RP ops pp ps)
    (hR : ∀ p q : MatchPattern, viewOrder p.cls < viewOrder q.cls → RP p q) :
    rs.Pairwise (FirstDiff RP) := by
  induction n generalizing L d kids pps pre rs with
  | zero =>
    cases pps with
    | nil => simp [mmatch] at h
    | cons pp rest =>
      rw [mmatch_cons] at h
      obtain ⟨rss, h1, h⟩ := bind_ok h
      simp only [pure, Except.pure, Except.ok.injEq] at h
      rw [← h, List.pairwise_flatten]
      have hK := hm 0 pp (by simp) (uniq (heads L)) (by
          intro p hp
          obtain ⟨ps, md, hin⟩ := mem_heads.mp (mem_uniq.mp hp)
          exact ⟨_, hin, by simp⟩) (nodup_uniq _) d.vms hT.1
      have hvs := (addAll_spec hT.1).1
      constructor
      · refine mapM_all h1 ?_
        intro vm hvm bs hbs
        obtain ⟨keys, hk, hb⟩ : ∃ keys, ops.matches_ vm.1 pp vm.2 = .ok keys ∧
            bs = (derefs kids keys).map (fun n => (⟨pre ++ [n.1.pat], n.1⟩ : Matched σ μ)) := by
          unfold vmStep at hbs
          obtain ⟨keys, hk, hbs⟩ := bind_ok hbs
          refine ⟨keys, hk, ?_⟩
          cases hd : derefs kids keys with
          | nil => rw [hd] at hbs; simp [pure, Except.pure] at hbs; rw [hbs]; rfl
          | cons x xs =>
            have hx : x ∈ derefs kids keys := by rw [hd]; simp
            rw [hd] at hbs
            obtain ⟨k, -, hg⟩ := mem_derefs.mp hx
            obtain ⟨d0, k0⟩ := x
            obtain ⟨hs, -, -, hT'⟩ := hT.child hg
            simp only at hbs
            rw [if_pos ((hT'.isNil (sub_length hL) hs).mpr rfl)] at hbs
            simp only [pure, Except.pure, Except.ok.injEq] at hbs
            exact hbs.symm
        rw [hb, List.pairwise_map]
        unfold derefs
        rw [List.pairwise_filterMap]
        refine (hK vm hvm keys hk).1.imp ?_
        intro a b hab x hx y hy
        obtain ⟨-, w1, e1, -⟩ := hT.child (k := a) (d' := x.1) (kids' := x.2) hx
        obtain ⟨-, w2, e2, -⟩ := hT.child (k := b) (d' := y.1) (kids' := y.2) hy
        exact ⟨pre, x.1.pat, y.1.pat, [], [], rfl, rfl, hab _ (mem_uniq.mpr w1) _ (mem_uniq.mpr w2) e1 e2⟩
      · refine mapM_pairwise h1 hvs ?_
        intro v1 hv1 v2 hv2 hlt b1 b2 hb1 hb2 x hx y hy
        obtain ⟨k1, e1, p, a, hp, hp', ex⟩ := vmStep_first hT hL hc hb1 hx
        obtain ⟨k2, e2, q, b, hq, hq', ey⟩ := vmStep_first hT hL hc hb2 hy
        refine FirstDiff.of ex ey (hR _ _ ?_)
        obtain ⟨p1, hp1, c1, s1⟩ := (hK v1 hv1 k1 e1).2 _ hp
        obtain ⟨p2, hp2, c2, s2⟩ := (hK v2 hv2 k2 e2).2 _ hq
        rw [← hc.head (mem_uniq.mp hp1) hp' s1, ← hc.head (mem_uniq.mp hp2) hq' s2, c1, c2]
        exact hlt
  | succ n ih =>
    cases pps with
    | nil => simp [mmatch] at h
    | cons pp rest =>
      rw [mmatch_cons] at h
      obtain ⟨rss, h1, h⟩ := bind_ok h
      simp only [pure, Except.pure, Except.ok.injEq] at h
      rw [← h, List.pairwise_flatten]
      have hK := hm 0 pp (by simp) (uniq (heads L)) (by
          intro p hp
          obtain ⟨ps, md, hin⟩ := mem_heads.mp (mem_uniq.mp hp)
          exact ⟨_, hin, by simp⟩) (nodup_uniq _) d.vms hT.1
      have hvs := (addAll_spec hT.1).1
      constructor
      · refine mapM_all h1 ?_
        intro vm hvm bs hbs
        unfold vmStep at hbs
        obtain ⟨keys, hk, hbs⟩ := bind_ok hbs
        cases hd : derefs kids keys with
        | nil => rw [hd] at hbs; simp [pure, Except.pure] at hbs; rw [hbs]; exact List.Pairwise.nil
        | cons x xs =>
          have hx : x ∈ derefs kids keys := by rw [hd]; simp
          rw [hd] at hbs
          obtain ⟨k, -, hg⟩ := mem_derefs.mp hx
          obtain ⟨d0, k0⟩ := x
          obtain ⟨hs, -, -, hT'⟩ := hT.child hg
          simp only at hbs
          rw [if_neg (fun h' => absurd ((hT'.isNil (sub_length hL) hs).mp h') (by omega))] at hbs
          obtain ⟨ms, hms, hbs⟩ := bind_ok hbs
          simp only [pure, Except.pure, Except.ok.injEq] at hbs
          rw [← hbs, List.pairwise_flatten]
          rw [← hd] at hms
          constructor
          · refine mapM_all hms ?_
            rintro ⟨d1, k1⟩ hin bs1 hb1
            obtain ⟨k', -, hg'⟩ := mem_derefs.mp hin
            obtain ⟨-, -, -, hT1⟩ := hT.child hg'
            refine ih hT1 (sub_length hL) (hc.sub _) hb1 ?_
            intro i pp' hpp ps hps hnd
            refine hm (i + 1) pp' (by simpa using hpp) ps ?_ hnd
            intro p hp
            obtain ⟨x, hx, hxi⟩ := hps p hp
            obtain ⟨q, -, hin⟩ := mem_sub.mp hx
            exact ⟨_, hin, by simpa using hxi⟩
          · have hpw : (derefs kids keys).Pairwise (fun x y => RP x.1.pat y.1.pat) := by
              unfold derefs
              rw [List.pairwise_filterMap]
              refine (hK vm hvm keys hk).1.imp ?_
              intro a b hab x hx y hy
              obtain ⟨-, w1, e1, -⟩ := hT.child (k := a) (d' := x.1) (kids' := x.2) hx
              obtain ⟨-, w2, e2, -⟩ := hT.child (k := b) (d' := y.1) (kids' := y.2) hy
              exact hab _ (mem_uniq.mpr w1) _ (mem_uniq.mpr w2) e1 e2
            refine mapM_pairwise hms hpw ?_
            rintro ⟨d1, k1⟩ h1' ⟨d2, k2⟩ h2' hne b1 b2 hb1 hb2 x hx y hy
            obtain ⟨_, -, hg1⟩ := mem_derefs.mp h1'
            obtain ⟨_, -, hg2⟩ := mem_derefs.mp h2'
            obtain ⟨-, -, -, hT1⟩ := hT.child hg1
            obtain ⟨-, -, -, hT2⟩ := hT.child hg2
            obtain ⟨z1, -, ez1, -⟩ := mmatch_sound hT1 (sub_length hL) (hc.sub _) hb1 hx
            obtain ⟨z2, -, ez2, -⟩ := mmatch_sound hT2 (sub_length hL) (hc.sub _) hb2 hy
            exact FirstDiff.of ez1 ez2 hne
      · refine mapM_pairwise h1 hvs ?_
        intro v1 hv1 v2 hv2 hlt b1 b2 hb1 hb2 x hx y hy
        obtain ⟨k1, e1, p, a, hp, hp', ex⟩ := vmStep_first hT hL hc hb1 hx
        obtain ⟨k2, e2, q, b, hq, hq', ey⟩ := vmStep_first hT hL hc hb2 hy
        refine FirstDiff.of ex ey (hR _ _ ?_)
        obtain ⟨p1, hp1, c1, s1⟩ := (hK v1 hv1 k1 e1).2 _ hp
        obtain ⟨p2, hp2, c2, s2⟩ := (hK v2 hv2 k2 e2).2 _ hq
        rw [← hc.head (mem_uniq.mp hp1) hp' s1, ← hc.head (mem_uniq.mp hp2) hq' s2, c1, c2]
        exact hlt

end

/-! ### The stores -/

/-- The class of `p` comes first. -/
def ClsBefore (p q : MatchPattern) : Prop := viewOrder p.cls < viewOrder q.cls

theorem unit_sorted {ps : List MatchPattern} (hn : ps.Nodup) (hi : StrInj ps) (hs : ∀ p ∈ ps, SimpleCls p.cls) (vp : ParsedPiece)
    (hone : ∀ p ∈ ps, ∀ q ∈ ps, p.cls = q.cls → SelU vp p → SelU vp q → p.str = q.str) :
    KeysSorted ClsBefore unitOps (some vp) ps := by
  intro vms hv vm hvm keys hk
  obtain ⟨⟨q0, hq0, e0⟩, hf⟩ := ((addAll_spec hv).2 vm).mp hvm
  have hcls : ∀ q ∈ ps.filter (fun p => decide (p.cls = vm.1)), q.cls = vm.1 := by
    intro q hq; simpa using (List.mem_filter.mp hq).2
  have hc : SimpleCls vm.1 := e0 ▸ hs q0 hq0
  obtain ⟨h1, h2⟩ := unit_once hn hi hs vp vms hv vm hvm keys hk
  refine ⟨h1.imp_of_mem ?_, h2⟩
  intro k k' hk1 hk2 hne
  obtain ⟨q, hq, e, hs1⟩ := store_sound hc hcls hf hk hk1
  obtain ⟨q', hq', e', hs2⟩ := store_sound hc hcls hf hk hk2
  refine absurd ?_ hne
  rw [← e, ← e']
  exact hone q (List.mem_filter.mp hq).1 q' (List.mem_filter.mp hq').1 ((hcls q hq).trans (hcls q' hq').symm) hs1 hs2

/-- Equal units up to a point, at which the class of the unit of `p` comes first. -/
def UnitsBefore (p q : MatchPattern) : Prop :=
  ∃ pre u v a b, p.units = pre ++ u :: a ∧ q.units = pre ++ v :: b ∧ viewOrder (unitCls u) < viewOrder (unitCls v)

theorem unitMP_inj {u v : PatternUnit} (h : unitMP u = unitMP v) : u = v := by
  have := congrArg MatchPattern.units h
  simpa [unitMP] using this

/-- The leaves carry the texts of their patterns. -/
theorem multi_meta {c : ViewCls} {pp : ParsedPiece} {ps : List MatchPattern} (hg : ∀ p ∈ ps, GoodPat p) {n : Nat} {dt : MData Store Str}
    {kids : Forest (MData Store Str)}
    (hT : T unitOps (n + 1) ((ps.filter (fun p => decide (rkey p = viewStr (viewPieces c pp)))).map unitIns) dt kids)
    (hL : ∀ y ∈ (ps.filter (fun p => decide (rkey p = viewStr (viewPieces c pp)))).map unitIns, y.1.length = n + 1)
    (hcoh : Coh ((ps.filter (fun p => decide (rkey p = viewStr (viewPieces c pp)))).map unitIns))
    {vps : List (Option ParsedPiece)} {ms : List (Matched Store Str)} (hms : mmatch unitOps vps [] dt kids = .ok ms) :
    ∀ m ∈ ms, ∀ k, m.data.md = some k → ∃ q ∈ ps, q.str = k ∧ m.path = q.units.map unitMP := by
  intro m hmm k hmd
  obtain ⟨x, hx, hpath, -, hmdx⟩ := mmatch_sound hT hL hcoh hms hmm
  obtain ⟨q, hq, rfl⟩ := List.mem_map.mp hx
  have hq' := List.mem_filter.mp hq
  refine ⟨q, hq'.1, ?_, by simpa [unitIns] using hpath⟩
  rw [hmd] at hmdx
  have hall : ∀ y ∈ (((ps.filter (fun p => decide (rkey p = viewStr (viewPieces c pp)))).map unitIns).filter
      (fun y => decide (y.1 = (unitIns q).1))), y.2 = some q.str := by
    intro y hy
    obtain ⟨hy1, hy2⟩ := List.mem_filter.mp hy
    obtain ⟨q', hq1, rfl⟩ := List.mem_map.mp hy1
    have hg' := hg q' (List.mem_filter.mp hq1).1
    have e : q'.units.map unitMP = q.units.map unitMP := of_decide_eq_true hy2
    have e2 := congrArg (List.map MatchPattern.str) e
    simp only [List.map_map] at e2
    have e3 : q'.units.map (·.str) = q.units.map (·.str) := e2
    simp only [unitIns, Option.some.injEq]
    rw [← hg'.flat, e3, (hg q hq'.1).flat]
  have hlast : ∀ {M : List (MIns Str)} {v : Str}, (∀ y ∈ M, y.2 = some v) → lastMd M = none ∨ lastMd M = some v := by
    intro M v
    refine snoc_ind (P := fun M => (∀ y ∈ M, y.2 = some v) → lastMd M = none ∨ lastMd M = some v) ?_ ?_ M
    · intro _; exact .inl rfl
    · intro M y _ hM
      right
      simp [lastMd, List.foldl_append, hM y (by simp)]
  rcases hlast hall with h0 | h0
  · rw [h0] at hmdx; simp at hmdx
  · rw [h0] at hmdx; simpa using hmdx.symm

theorem multi_sorted {c : ViewCls} (hc : MultiCls c) {ps : List MatchPattern} {s : FullStore}
    (h : fillStore urlOps c ps = .ok s) (hg : ∀ p ∈ ps, GoodPat p) (hj : KeyInj ps) (hgen : ∀ p ∈ ps, ∀ u ∈ p.units, GenUnit u)
    {pp : ParsedPiece} {keys : List Str} (hm : s.matches_ c (some pp) = .ok keys) :
    keys.Pairwise (fun k k' => ∀ p ∈ ps, ∀ q ∈ ps, p.str = k → q.str = k' → UnitsBefore p q) := by
  obtain ⟨d, rfl, hd⟩ := fill_multi hc h hg hj.len
  simp only [FullStore.matches_, multiMatch] at hm
  have hin := hd (viewStr (viewPieces c pp))
  cases hget : Dict.get? (viewStr (viewPieces c pp)) d with
  | none => rw [hget] at hm; simp at hm; subst hm; exact List.Pairwise.nil
  | some t =>
    obtain ⟨dt, kids⟩ := t
    rw [hget] at hm hin
    simp only at hm
    obtain ⟨ms, hms, hm⟩ := bind_ok hm
    simp only [pure, Except.pure, Except.ok.injEq] at hm
    subst hm
    obtain ⟨n, -, hlen, hT⟩ := hin
    have hcoh : Coh ((ps.filter (fun p => decide (rkey p = viewStr (viewPieces c pp)))).map unitIns) :=
      unitIns_coh (fun q hq => hg q (List.mem_filter.mp hq).1)
    have hL : ∀ y ∈ (ps.filter (fun p => decide (rkey p = viewStr (viewPieces c pp)))).map unitIns, y.1.length = n + 1 := by
      intro y hy
      obtain ⟨q, hq, rfl⟩ := List.mem_map.mp hy
      simp at hq
      simpa [unitIns] using hlen q hq.1 hq.2
    have hnd := mmatch_sorted (RP := ClsBefore) hT hL hcoh hms (by
      intro i opp hi qs hqs hnd
      simp only [List.getElem?_map, Option.map_eq_some_iff] at hi
      obtain ⟨vp, -, rfl⟩ := hi
      refine unit_sorted hnd ?_ ?_ vp ?_
      · intro a ha b hb e
        obtain ⟨x, hx, hxi⟩ := hqs a ha
        obtain ⟨y, hy, hyi⟩ := hqs b hb
        exact hcoh x hx y hy i a b hxi hyi e
      · intro a ha
        obtain ⟨x, hx, hxi⟩ := hqs a ha
        obtain ⟨p, -, rfl⟩ := List.mem_map.mp hx
        simp only [unitIns, List.getElem?_map, Option.map_eq_some_iff] at hxi
        obtain ⟨u, -, rfl⟩ := hxi
        exact unitMP_simple u
      · intro a ha b hb e s1 s2
        obtain ⟨x, hx, hxi⟩ := hqs a ha
        obtain ⟨y, hy, hyi⟩ := hqs b hb
        obtain ⟨p, hp, rfl⟩ := List.mem_map.mp hx
        obtain ⟨q, hq, rfl⟩ := List.mem_map.mp hy
        simp only [List.mem_filter, decide_eq_true_eq] at hp hq
        simp only [unitIns, List.getElem?_map, Option.map_eq_some_iff] at hxi hyi
        obtain ⟨u, hu, rfl⟩ := hxi
        obtain ⟨v, hv, rfl⟩ := hyi
        have hf := congrArg (fun l => l[i]?) (hj p hp.1 q hq.1 (hp.2.trans hq.2.symm))
        simp only [List.getElem?_map, hu, hv, Option.map_some, Option.some.injEq] at hf
        exact unit_determined (hgen p hp.1 u (List.mem_of_getElem? hu)) (hgen q hq.1 v (List.mem_of_getElem? hv)) e hf s1 s2)
      (fun _ _ h => h)
    rw [List.pairwise_filterMap]
    refine hnd.imp_of_mem ?_
    rintro a b ha hb ⟨pre, P, Q, A, B, ea, eb, hlt⟩ k hk k' hk' p hp q hq ep eq
    obtain ⟨q1, hq1, s1, p1⟩ := multi_meta hg hT hL hcoh hms a ha k hk
    obtain ⟨q2, hq2, s2, p2⟩ := multi_meta hg hT hL hcoh hms b hb k' hk'
    rw [good_units_eq (hg q1 hq1) (hg p hp) (s1.trans ep.symm)] at p1
    rw [good_units_eq (hg q2 hq2) (hg q hq) (s2.trans eq.symm)] at p2
    rw [p1] at ea
    rw [p2] at eb
    obtain ⟨pu, pr, e1, e2, e3⟩ := List.map_eq_append_iff.mp ea
    obtain ⟨u, pa, rfl, rfl, e5⟩ := List.map_eq_cons_iff.mp e3
    obtain ⟨qu, qr, f1, f2, f3⟩ := List.map_eq_append_iff.mp eb
    obtain ⟨v, qa, rfl, rfl, f5⟩ := List.map_eq_cons_iff.mp f3
    have : pu = qu := (List.map_inj_right (fun _ _ => unitMP_inj)).mp (e2.trans f2.symm)
    subst this
    exact ⟨pu, u, v, pa, qa, e1, f1, hlt⟩

/-- The order of patterns at one position. -/
def PatBefore (p q : MatchPattern) : Prop :=
  viewOrder p.cls < viewOrder q.cls ∨ (p.cls = q.cls ∧ UnitsBefore p q)

theorem simple_determined {s : Str} {p q : MatchPattern} (hp : AtPos s p) (hq : AtPos s q) (gp : ∀ u ∈ p.units, GenUnit u)
    (gq : ∀ u ∈ q.units, GenUnit u) (hs : SimpleCls p.cls) (hc : p.cls = q.cls) (sp : SelU (ppOf (runsOf s)) p)
    (sq : SelU (ppOf (runsOf s)) q) : p.str = q.str := by
  rcases hs with c | c
  · simp only [SelU, c] at sp
    simp only [SelU, ← hc, c] at sq
    rw [← sp, ← sq]
  · obtain ⟨u, eu⟩ := simple_one hp.good c
    obtain ⟨v, ev⟩ := simple_one hq.good (hc ▸ c)
    have hf : u.fuzzyRule = v.fuzzyRule := by
      have := hp.fuzzy.trans hq.fuzzy.symm
      rw [eu, ev] at this
      simpa [unitsFuzzyRule, PatternUnit.fuzzyRule] using this
    have mk : ∀ {p : MatchPattern} {u}, GoodPat p → p.units = [u] → p = unitMP u := by
      intro p u hg e
      obtain ⟨b, hb⟩ := hg.2
      have hfl := hg.flat
      rw [e] at hb hfl
      have e3 : p.cls = unitCls u := hb
      have e4 : p.str = u.str := by simpa using hfl.symm
      cases p
      simp only at e e3 e4
      subst e e3 e4
      rfl
    have e1 := mk hp.good eu
    have e2 := mk hq.good ev
    have hcc : unitCls u = unitCls v := by rw [e1, e2] at hc; exact hc
    rw [e1] at sp
    rw [e2] at sq
    have := unit_determined (gp u (by simp [eu])) (gq v (by simp [ev])) hcc hf sp sq
    rw [← hp.good.flat, ← hq.good.flat, eu, ev]
    simp [this]

theorem url_sorted {ps : List MatchPattern} {s : Str} (hl : Lvl (ppOf (runsOf s)) ps) (hn : ps.Nodup) (hat : ∀ p ∈ ps, AtPos s p)
    (hgen : ∀ p ∈ ps, ∀ u ∈ p.units, GenUnit u) : KeysSorted PatBefore urlOps (some (ppOf (runsOf s))) ps := by
  intro vms hv vm hvm keys hk
  obtain ⟨h1, h2⟩ := url_once hl hn vms hv vm hvm keys hk
  obtain ⟨⟨q0, hq0, e0⟩, hf⟩ := ((addAll_spec hv).2 vm).mp hvm
  have hcls : ∀ q ∈ ps.filter (fun p => decide (p.cls = vm.1)), q.cls = vm.1 := by
    intro q hq; simpa using (List.mem_filter.mp hq).2
  refine ⟨?_, h2⟩
  obtain ⟨c, st⟩ := vm
  simp only at e0 hf hcls hk h2
  rcases cls_cases c with hc | hc
  · obtain ⟨s0, rfl, hs0⟩ := fill_simple hc _ hf
    refine h1.imp_of_mem ?_
    intro k k' hk1 hk2 hne
    obtain ⟨q, hq, e, hs1⟩ := store_sound hc hcls hs0 hk hk1
    obtain ⟨q', hq', e', hs2⟩ := store_sound hc hcls hs0 hk hk2
    refine absurd ?_ hne
    have m1 := (List.mem_filter.mp hq).1
    have m2 := (List.mem_filter.mp hq').1
    rw [← e, ← e']
    exact simple_determined (hat q m1) (hat q' m2) (hgen q m1) (hgen q' m2) (hcls q hq ▸ hc)
      ((hcls q hq).trans (hcls q' hq').symm) hs1 hs2
  · have hg := fun q (hq : q ∈ ps.filter (fun p => decide (p.cls = c))) => hl.good q (List.mem_filter.mp hq).1
    have := multi_sorted hc hf hg (hl.keyInj hc) (fun q hq => hgen q (List.mem_filter.mp hq).1) hk
    refine this.imp_of_mem ?_
    intro k k' hk1 hk2 hb p hp q hq ep eq
    obtain ⟨p1, hp1, c1, s1⟩ := h2 k hk1
    obtain ⟨q1, hq1, c2, s2⟩ := h2 k' hk2
    have := hl.inj p1 hp1 p hp (s1.trans ep.symm)
    subst this
    have := hl.inj q1 hq1 q hq (s2.trans eq.symm)
    subst this
    refine .inr ⟨c1.trans c2.symm, hb p1 ?_ q1 ?_ ep eq⟩
    · exact List.mem_filter.mpr ⟨hp1, by simp [c1]⟩
    · exact List.mem_filter.mpr ⟨hq1, by simp [c2]⟩

theorem match_sorted {md5 : Str → Str} {hist : List (Str × Option Str)} {url : Str} {m : URLMeta} {pieces : List Str}
    {pps : List ParsedPiece} (h : parse url = .ok (m, .pieces pps)) (hk : ∀ s ∈ pieces, ∀ c ∈ s, Known c)
    (hpps : pps = pieces.map (fun s => ppOf (runsOf s)))
    (hc : NoClash md5 (url :: hist.map (·.1))) (hgen : AllGen hist) {rs : List (Matched FullStore Str)}
    (hrs : (mloadAll md5 hist).match_ md5 url = .ok rs) : rs.Pairwise (FirstDiff PatBefore) := by
  have ht := hgen.tame
  obtain ⟨g, hg, -, hcase⟩ := match_grp hc h
  rcases hcase with ⟨rfl, hnil⟩ | ⟨hne, d, kids, hT, hmm⟩
  · rw [hnil] at hrs
    cases hrs
    exact List.Pairwise.nil
  · obtain ⟨r0, hr0⟩ := List.exists_mem_of_ne_nil _ hne
    obtain ⟨h01, h02, h03⟩ := (hg r0).mp hr0
    obtain ⟨hd1, hd2⟩ := rec_depth h01
    obtain ⟨n, hn⟩ : ∃ n, m.depth = n + 1 := ⟨m.depth - 1, by rw [h02] at hd2; omega⟩
    rw [hn] at hT
    have hL : ∀ y ∈ g.map MRec.ins, y.1.length = n + 1 := by
      intro y hy
      obtain ⟨r, hr, rfl⟩ := List.mem_map.mp hy
      obtain ⟨a1, a2, a3⟩ := (hg r).mp hr
      rw [← hn, ← a2]
      exact (rec_depth a1).1
    have hcoh : Coh (g.map MRec.ins) :=
      rec_coh (hist := hist) (fun r hr => ((hg r).mp hr).1)
        (fun r hr r' hr' => ((hg r).mp hr).2.1.trans ((hg r').mp hr').2.1.symm)
    have hat : ∀ (i : Nat) (s : Str) (p : MatchPattern), pieces[i]? = some s → p ∈ patsAt i (g.map MRec.ins) →
        AtPos s p ∧ Tame p := by
      intro i s p hi hp
      obtain ⟨x, hx, hxp⟩ := mem_patsAt.mp hp
      obtain ⟨r, hr, rfl⟩ := List.mem_map.mp hx
      obtain ⟨a1, a2, a3⟩ := (hg r).mp hr
      have hmem : p ∈ r.ps := List.mem_of_getElem? hxp
      exact ⟨atPos_of h hk hpps a1 a2 a3 hi hxp, ht.rec a1 p hmem⟩
    have hinj : ∀ i, StrInj (patsAt i (g.map MRec.ins)) := by
      intro i p hp q hq e
      obtain ⟨x, hx, hxp⟩ := mem_patsAt.mp hp
      obtain ⟨y, hy, hyq⟩ := mem_patsAt.mp hq
      exact hcoh x hx y hy i p q hxp hyq e
    rw [hmm] at hrs
    refine mmatch_sorted hT hL hcoh hrs ?_ (fun _ _ h => .inl h)
    intro i opp hi qs hqs hnd
    simp only [List.getElem?_map, Option.map_eq_some_iff] at hi
    obtain ⟨pp, hi, rfl⟩ := hi
    rw [hpps, List.getElem?_map] at hi
    simp only [Option.map_eq_some_iff] at hi
    obtain ⟨s, hs, rfl⟩ := hi
    refine url_sorted ((lvl_of (hk s (List.mem_of_getElem? hs)) (fun p hp => (hat i s p hs hp).1)
      (fun p hp => (hat i s p hs hp).2) (hinj i)).mono ?_) hnd ?_ ?_
    · intro q hq
      exact mem_patsAt.mpr (hqs q hq)
    · intro q hq
      exact (hat i s q hs (mem_patsAt.mpr (hqs q hq))).1
    · intro q hq
      have hp := mem_patsAt.mpr (hqs q hq)
      obtain ⟨x, hx, hxp⟩ := hqs q hq
      obtain ⟨r, hr, rfl⟩ := List.mem_map.mp hx
      obtain ⟨t, ht1, ht2⟩ := mem_macc.mp ((hg r).mp hr).1
      obtain ⟨us, g1, g2⟩ := hgen _ _ _ _ ht1 ht2 q (List.mem_of_getElem? hxp)
      exact gen_genUnit (hat i s q hs hp).1.good g1 g2

end OsUrl
