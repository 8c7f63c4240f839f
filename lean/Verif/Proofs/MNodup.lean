import Verif.Proofs.MatchSel

/-! Every node is found at most once. -/

namespace OsUrl
open Spec

theorem mapM_pairwise {α β : Type} {f : α → Py β} {R : α → α → Prop} {S : β → β → Prop} {l : List α} {bs : List β}
    (h : l.mapM f = .ok bs) (hl : l.Pairwise R)
    (hS : ∀ a ∈ l, ∀ b ∈ l, R a b → ∀ x y, f a = .ok x → f b = .ok y → S x y) : bs.Pairwise S := by
  induction l generalizing bs with
  | nil => rw [mapM_ok_nil h]; exact List.Pairwise.nil
  | cons a l ih =>
    obtain ⟨b, bs', h1, h2, rfl⟩ := mapM_ok_cons h
    obtain ⟨hl1, hl2⟩ := List.pairwise_cons.mp hl
    rw [List.pairwise_cons]
    refine ⟨?_, ih h2 hl2 (fun x hx y hy => hS x (by simp [hx]) y (by simp [hy]))⟩
    intro y hy
    obtain ⟨c, hc, hfc⟩ := mapM_ok_mem' h2 hy
    exact hS a (by simp) c (by simp [hc]) (hl1 c hc) b y h1 hfc

theorem mapM_all {α β : Type} {f : α → Py β} {S : β → Prop} {l : List α} {bs : List β}
    (h : l.mapM f = .ok bs) (hS : ∀ a ∈ l, ∀ x, f a = .ok x → S x) : ∀ b ∈ bs, S b := by
  intro b hb
  obtain ⟨c, hc, hfc⟩ := mapM_ok_mem' h hb
  exact hS c hc b hfc

section
variable {σ μ : Type}

/-- Different paths. -/
def PNe (x y : Matched σ μ) : Prop := x.path ≠ y.path

theorem path_first {pre : List MatchPattern} {p q : MatchPattern} {a b : List MatchPattern} (h : p.str ≠ q.str) :
    pre ++ p :: a ≠ pre ++ q :: b := by
  intro e
  have := List.append_cancel_left e
  simp only [List.cons.injEq] at this
  exact h (by rw [this.1])

theorem path_first' {pre x y : List MatchPattern} {p q : MatchPattern} {a b : List MatchPattern} (hx : x = pre ++ [p] ++ a)
    (hy : y = pre ++ [q] ++ b) (h : p.str ≠ q.str) : x ≠ y := by
  rw [hx, hy, List.append_assoc, List.append_assoc]
  exact path_first h

/-- All results of one matcher call start with one of its keys. -/
theorem vmStep_first {ops : VMOps σ} {n : Nat} {L : List (MIns μ)} {d : MData σ μ} {kids : Forest (MData σ μ)}
    (hT : T ops (n + 1) L d kids) (hL : ∀ y ∈ L, y.1.length = n + 1) (hc : Coh L)
    {pp : Option ParsedPiece} {rest : List (Option ParsedPiece)} {pre : List MatchPattern} {vm : ViewCls × σ}
    {rs : List (Matched σ μ)} (h : vmStep ops pp rest pre kids vm = .ok rs) {m : Matched σ μ} (hm : m ∈ rs) :
    ∃ keys, ops.matches_ vm.1 pp vm.2 = .ok keys ∧ ∃ p a, p.str ∈ keys ∧ p ∈ heads L ∧ m.path = pre ++ [p] ++ a := by
  obtain ⟨keys, hk, k, hk1, ⟨d', kids'⟩, hg, hm⟩ := (vmStep_mem hT hL h m).mp hm
  obtain ⟨hs, hpat, hstr, hT'⟩ := hT.child hg
  refine ⟨keys, hk, d'.pat, ?_⟩
  by_cases hn : n = 0
  · rw [if_pos hn] at hm
    subst hm
    exact ⟨[], hstr ▸ hk1, hpat, by simp⟩
  · rw [if_neg hn] at hm
    obtain ⟨ms, hms, hm⟩ := hm
    obtain ⟨n', rfl⟩ : ∃ n', n = n' + 1 := ⟨n - 1, by omega⟩
    obtain ⟨x, -, hp, -⟩ := mmatch_sound hT' (sub_length hL) (hc.sub _) hms hm
    exact ⟨x.1, hstr ▸ hk1, hpat, hp⟩

/-- What is needed of the matchers. -/
def KeysOnce (ops : VMOps σ) (pp : Option ParsedPiece) (ps : List MatchPattern) : Prop :=
  ∀ vms, addAll ops ps = .ok vms → ∀ vm ∈ vms, ∀ keys, ops.matches_ vm.1 pp vm.2 = .ok keys →
    keys.Nodup ∧ ∀ k ∈ keys, ∃ q ∈ ps, q.cls = vm.1 ∧ q.str = k

theorem mmatch_nodup {ops : VMOps σ} {n : Nat} {L : List (MIns μ)} {d : MData σ μ} {kids : Forest (MData σ μ)}
    (hT : T ops (n + 1) L d kids) (hL : ∀ y ∈ L, y.1.length = n + 1) (hc : Coh L)
    {pps : List (Option ParsedPiece)} {pre : List MatchPattern} {rs : List (Matched σ μ)}
    (h : mmatch ops pps pre d kids = .ok rs)
    (hm : ∀ (i : Nat) pp, pps[i]? = some pp → ∀ ps : List MatchPattern, (∀ p ∈ ps, ∃ x ∈ L, x.1[i]? = some p) →
      ps.Nodup → KeysOnce ops pp ps) :
    rs.Pairwise PNe := by
  induction n generalizing L d kids pps pre rs with
  | zero =>
    cases pps with
    | nil => simp [mmatch] at h
    | cons pp rest =>
      rw [mmatch_cons] at h
      obtain ⟨rss, h1, h⟩ := bind_ok h
      simp only [pure, Except.pure, Except.ok.injEq] at h
      rw [← h, List.pairwise_flatten]
      have hK := hm 0 pp (by simp) (uniq (heads L)) (by
          intro p hp
          obtain ⟨ps, md, hin⟩ := mem_heads.mp (mem_uniq.mp hp)
          exact ⟨_, hin, by simp⟩) (nodup_uniq _) d.vms hT.1
      have hvs := (addAll_spec hT.1).1
      constructor
      · refine mapM_all h1 ?_
        intro vm hvm bs hbs
        obtain ⟨keys, hk, hb⟩ : ∃ keys, ops.matches_ vm.1 pp vm.2 = .ok keys ∧
            bs = (derefs kids keys).map (fun n => (⟨pre ++ [n.1.pat], n.1⟩ : Matched σ μ)) := by
          unfold vmStep at hbs
          obtain ⟨keys, hk, hbs⟩ := bind_ok hbs
          refine ⟨keys, hk, ?_⟩
          cases hd : derefs kids keys with
          | nil => rw [hd] at hbs; simp [pure, Except.pure] at hbs; rw [hbs]; rfl
          | cons x xs =>
            have hx : x ∈ derefs kids keys := by rw [hd]; simp
            rw [hd] at hbs
            obtain ⟨k, -, hg⟩ := mem_derefs.mp hx
            obtain ⟨d0, k0⟩ := x
            obtain ⟨hs, -, -, hT'⟩ := hT.child hg
            simp only at hbs
            rw [if_pos ((hT'.isNil (sub_length hL) hs).mpr rfl)] at hbs
            simp only [pure, Except.pure, Except.ok.injEq] at hbs
            exact hbs.symm
        rw [hb, List.pairwise_map]
        unfold derefs
        rw [List.pairwise_filterMap]
        refine (hK vm hvm keys hk).1.imp ?_
        intro a b hab x hx y hy
        obtain ⟨-, -, e1, -⟩ := hT.child (k := a) (d' := x.1) (kids' := x.2) hx
        obtain ⟨-, -, e2, -⟩ := hT.child (k := b) (d' := y.1) (kids' := y.2) hy
        exact path_first' (p := x.1.pat) (q := y.1.pat) (a := []) (b := []) (List.append_nil _).symm (List.append_nil _).symm (by rw [e1, e2]; exact hab)
      · refine mapM_pairwise h1 hvs ?_
        intro v1 hv1 v2 hv2 hlt b1 b2 hb1 hb2 x hx y hy
        obtain ⟨k1, e1, p, a, hp, hp', ex⟩ := vmStep_first hT hL hc hb1 hx
        obtain ⟨k2, e2, q, b, hq, hq', ey⟩ := vmStep_first hT hL hc hb2 hy
        refine path_first' ex ey ?_
        intro e
        have := hc.head hp' hq' e
        subst this
        obtain ⟨p1, hp1, c1, s1⟩ := (hK v1 hv1 k1 e1).2 _ hp
        obtain ⟨p2, hp2, c2, s2⟩ := (hK v2 hv2 k2 e2).2 _ hq
        have := hc.head (mem_uniq.mp hp1) (mem_uniq.mp hp2) (s1.trans s2.symm)
        subst this
        rw [← c1, ← c2] at hlt
        omega
  | succ n ih =>
    cases pps with
    | nil => simp [mmatch] at h
    | cons pp rest =>
      rw [mmatch_cons] at h
      obtain ⟨rss, h1, h⟩ := bind_ok h
      simp only [pure, Except.pure, Except.ok.injEq] at h
      rw [← h, List.pairwise_flatten]
      have hK := hm 0 pp (by simp) (uniq (heads L)) (by
          intro p hp
          obtain ⟨ps, md, hin⟩ := mem_heads.mp (mem_uniq.mp hp)
          exact ⟨_, hin, by simp⟩) (nodup_uniq _) d.vms hT.1
      have hvs := (addAll_spec hT.1).1
      constructor
      · refine mapM_all h1 ?_
        intro vm hvm bs hbs
        unfold vmStep at hbs
        obtain ⟨keys, hk, hbs⟩ := bind_ok hbs
        cases hd : derefs kids keys with
        | nil => rw [hd] at hbs; simp [pure, Except.pure] at hbs; rw [hbs]; exact List.Pairwise.nil
        | cons x xs =>
          have hx : x ∈ derefs kids keys := by rw [hd]; simp
          rw [hd] at hbs
          obtain ⟨k, -, hg⟩ := mem_derefs.mp hx
          obtain ⟨d0, k0⟩ := x
          obtain ⟨hs, -, -, hT'⟩ := hT.child hg
          simp only at hbs
          rw [if_neg (fun h' => absurd ((hT'.isNil (sub_length hL) hs).mp h') (by omega))] at hbs
          obtain ⟨ms, hms, hbs⟩ := bind_ok hbs
          simp only [pure, Except.pure, Except.ok.injEq] at hbs
          rw [← hbs, List.pairwise_flatten]
          rw [← hd] at hms
          constructor
          · refine mapM_all hms ?_
            rintro ⟨d1, k1⟩ hin bs1 hb1
            obtain ⟨k', -, hg'⟩ := mem_derefs.mp hin
            obtain ⟨-, -, -, hT1⟩ := hT.child hg'
            refine ih hT1 (sub_length hL) (hc.sub _) hb1 ?_
            intro i pp' hpp ps hps hnd
            refine hm (i + 1) pp' (by simpa using hpp) ps ?_ hnd
            intro p hp
            obtain ⟨x, hx, hxi⟩ := hps p hp
            obtain ⟨q, -, hin⟩ := mem_sub.mp hx
            exact ⟨_, hin, by simpa using hxi⟩
          · have hpw : (derefs kids keys).Pairwise (fun x y => x.1.pat.str ≠ y.1.pat.str) := by
              unfold derefs
              rw [List.pairwise_filterMap]
              refine (hK vm hvm keys hk).1.imp ?_
              intro a b hab x hx y hy
              obtain ⟨-, -, e1, -⟩ := hT.child (k := a) (d' := x.1) (kids' := x.2) hx
              obtain ⟨-, -, e2, -⟩ := hT.child (k := b) (d' := y.1) (kids' := y.2) hy
              rw [e1, e2]; exact hab
            refine mapM_pairwise hms hpw ?_
            rintro ⟨d1, k1⟩ h1' ⟨d2, k2⟩ h2' hne b1 b2 hb1 hb2 x hx y hy
            obtain ⟨_, -, hg1⟩ := mem_derefs.mp h1'
            obtain ⟨_, -, hg2⟩ := mem_derefs.mp h2'
            obtain ⟨-, -, -, hT1⟩ := hT.child hg1
            obtain ⟨-, -, -, hT2⟩ := hT.child hg2
            obtain ⟨z1, -, ez1, -⟩ := mmatch_sound hT1 (sub_length hL) (hc.sub _) hb1 hx
            obtain ⟨z2, -, ez2, -⟩ := mmatch_sound hT2 (sub_length hL) (hc.sub _) hb2 hy
            exact path_first' ez1 ez2 hne
      · refine mapM_pairwise h1 hvs ?_
        intro v1 hv1 v2 hv2 hlt b1 b2 hb1 hb2 x hx y hy
        obtain ⟨k1, e1, p, a, hp, hp', ex⟩ := vmStep_first hT hL hc hb1 hx
        obtain ⟨k2, e2, q, b, hq, hq', ey⟩ := vmStep_first hT hL hc hb2 hy
        refine path_first' ex ey ?_
        intro e
        have := hc.head hp' hq' e
        subst this
        obtain ⟨p1, hp1, c1, s1⟩ := (hK v1 hv1 k1 e1).2 _ hp
        obtain ⟨p2, hp2, c2, s2⟩ := (hK v2 hv2 k2 e2).2 _ hq
        have := hc.head (mem_uniq.mp hp1) (mem_uniq.mp hp2) (s1.trans s2.symm)
        subst this
        rw [← c1, ← c2] at hlt
        omega

end

/-! ### The stores -/

theorem optToList_nodup {α : Type} (o : Option α) : o.toList.Nodup := by
  cases o <;> simp

theorem strs_nodup {ps : List MatchPattern} (hn : ps.Nodup) (hi : StrInj ps) : (ps.map (·.str)).Nodup := by
  rw [List.Nodup, List.pairwise_map]
  refine hn.imp_of_mem ?_
  intro a b ha hb hab e
  exact hab (hi a ha b hb e)

theorem store_nodup {c : ViewCls} (hc : SimpleCls c) {ps : List MatchPattern} (hn : ps.Nodup) (hi : StrInj ps) {s : Store}
    (h : fillStore unitOps c ps = .ok s) {pp : ParsedPiece} {keys : List Str}
    (hm : s.matches_ (some pp) = .ok keys) : keys.Nodup := by
  rcases hc with rfl | rfl | rfl
  · obtain ⟨d, rfl, -⟩ := fill_piece h
    simp only [Store.matches_, Except.ok.injEq] at hm
    rw [← hm]; exact optToList_nodup _
  · obtain ⟨d, rfl, -⟩ := fill_length h
    simp only [Store.matches_] at hm
    obtain ⟨l, -, hm⟩ := bind_ok hm
    simp only [pure, Except.pure, Except.ok.injEq] at hm
    rw [← hm]; exact optToList_nodup _
  · rw [fill_fuzzy h] at hm
    simp only [Store.matches_, Except.ok.injEq] at hm
    rw [← hm]; exact strs_nodup hn hi

theorem filter_nodup {α : Type} {l : List α} (h : l.Nodup) (p : α → Bool) : (l.filter p).Nodup :=
  List.Pairwise.filter p h

theorem unit_once {ps : List MatchPattern} (hn : ps.Nodup) (hi : StrInj ps) (hs : ∀ p ∈ ps, SimpleCls p.cls) (vp : ParsedPiece) :
    KeysOnce unitOps (some vp) ps := by
  intro vms hv vm hvm keys hk
  obtain ⟨⟨q0, hq0, e0⟩, hf⟩ := ((addAll_spec hv).2 vm).mp hvm
  have hcls : ∀ q ∈ ps.filter (fun p => decide (p.cls = vm.1)), q.cls = vm.1 := by
    intro q hq; simpa using (List.mem_filter.mp hq).2
  have hc : SimpleCls vm.1 := e0 ▸ hs q0 hq0
  refine ⟨store_nodup hc (filter_nodup hn _) ?_ hf hk, ?_⟩
  · intro a ha b hb
    exact hi a (List.mem_filter.mp ha).1 b (List.mem_filter.mp hb).1
  · intro k hkk
    obtain ⟨q, hq, e, -⟩ := store_sound hc hcls hf hk hkk
    exact ⟨q, (List.mem_filter.mp hq).1, hcls q hq, e⟩

theorem multi_once {c : ViewCls} (hc : MultiCls c) {ps : List MatchPattern} {s : FullStore}
    (h : fillStore urlOps c ps = .ok s) (hg : ∀ p ∈ ps, GoodPat p) (hj : KeyInj ps) {pp : ParsedPiece}
    {keys : List Str} (hm : s.matches_ c (some pp) = .ok keys) : keys.Nodup := by
  obtain ⟨d, rfl, hd⟩ := fill_multi hc h hg hj.len
  simp only [FullStore.matches_, multiMatch] at hm
  have hin := hd (viewStr (viewPieces c pp))
  cases hget : Dict.get? (viewStr (viewPieces c pp)) d with
  | none => rw [hget] at hm; simp at hm; subst hm; exact List.nodup_nil
  | some t =>
    obtain ⟨dt, kids⟩ := t
    rw [hget] at hm hin
    simp only at hm
    obtain ⟨ms, hms, hm⟩ := bind_ok hm
    simp only [pure, Except.pure, Except.ok.injEq] at hm
    subst hm
    obtain ⟨n, -, hlen, hT⟩ := hin
    have hcoh : Coh ((ps.filter (fun p => decide (rkey p = viewStr (viewPieces c pp)))).map unitIns) :=
      unitIns_coh (fun q hq => hg q (List.mem_filter.mp hq).1)
    have hL : ∀ y ∈ (ps.filter (fun p => decide (rkey p = viewStr (viewPieces c pp)))).map unitIns, y.1.length = n + 1 := by
      intro y hy
      obtain ⟨q, hq, rfl⟩ := List.mem_map.mp hy
      simp at hq
      simpa [unitIns] using hlen q hq.1 hq.2
    have hnd := mmatch_nodup hT hL hcoh hms (by
      intro i opp hi qs hqs hnd
      simp only [List.getElem?_map, Option.map_eq_some_iff] at hi
      obtain ⟨vp, -, rfl⟩ := hi
      refine unit_once hnd ?_ ?_ vp
      · intro a ha b hb e
        obtain ⟨x, hx, hxi⟩ := hqs a ha
        obtain ⟨y, hy, hyi⟩ := hqs b hb
        exact hcoh x hx y hy i a b hxi hyi e
      · intro a ha
        obtain ⟨x, hx, hxi⟩ := hqs a ha
        obtain ⟨p, -, rfl⟩ := List.mem_map.mp hx
        simp only [unitIns, List.getElem?_map, Option.map_eq_some_iff] at hxi
        obtain ⟨u, -, rfl⟩ := hxi
        exact unitMP_simple u)
    -- the leaves carry the texts of their patterns
    have hmeta : ∀ m ∈ ms, ∀ k, m.data.md = some k → ∃ q ∈ ps, q.str = k ∧ m.path = q.units.map unitMP := by
      intro m hmm k hmd
      obtain ⟨x, hx, hpath, -, hmdx⟩ := mmatch_sound hT hL hcoh hms hmm
      obtain ⟨q, hq, rfl⟩ := List.mem_map.mp hx
      have hq' := List.mem_filter.mp hq
      refine ⟨q, hq'.1, ?_, by simpa [unitIns] using hpath⟩
      rw [hmd] at hmdx
      have hall : ∀ y ∈ (((ps.filter (fun p => decide (rkey p = viewStr (viewPieces c pp)))).map unitIns).filter
          (fun y => decide (y.1 = (unitIns q).1))), y.2 = some q.str := by
        intro y hy
        obtain ⟨hy1, hy2⟩ := List.mem_filter.mp hy
        obtain ⟨q', hq1, rfl⟩ := List.mem_map.mp hy1
        have hg' := hg q' (List.mem_filter.mp hq1).1
        have e : q'.units.map unitMP = q.units.map unitMP := of_decide_eq_true hy2
        have e2 := congrArg (List.map MatchPattern.str) e
        simp only [List.map_map] at e2
        have e3 : q'.units.map (·.str) = q.units.map (·.str) := e2
        simp only [unitIns, Option.some.injEq]
        rw [← hg'.flat, e3, (hg q hq'.1).flat]
      have hlast : ∀ {M : List (MIns Str)} {v : Str}, (∀ y ∈ M, y.2 = some v) → lastMd M = none ∨ lastMd M = some v := by
        intro M v
        refine snoc_ind (P := fun M => (∀ y ∈ M, y.2 = some v) → lastMd M = none ∨ lastMd M = some v) ?_ ?_ M
        · intro _; exact .inl rfl
        · intro M y _ hM
          right
          simp [lastMd, List.foldl_append, hM y (by simp)]
      rcases hlast hall with h0 | h0
      · rw [h0] at hmdx; simp at hmdx
      · rw [h0] at hmdx; simpa using hmdx.symm
    rw [List.Nodup, List.pairwise_filterMap]
    refine hnd.imp_of_mem ?_
    intro a b ha hb hab k hk k' hk' e
    subst e
    obtain ⟨q1, hq1, s1, p1⟩ := hmeta a ha k hk
    obtain ⟨q2, hq2, s2, p2⟩ := hmeta b hb k hk'
    apply hab
    rw [p1, p2, good_units_eq (hg q1 hq1) (hg q2 hq2) (s1.trans s2.symm)]

theorem url_once {ps : List MatchPattern} {pp : ParsedPiece} (hl : Lvl pp ps) (hn : ps.Nodup) : KeysOnce urlOps (some pp) ps := by
  intro vms hv vm hvm keys hk
  obtain ⟨⟨q0, hq0, e0⟩, hf⟩ := ((addAll_spec hv).2 vm).mp hvm
  have hcls : ∀ q ∈ ps.filter (fun p => decide (p.cls = vm.1)), q.cls = vm.1 := by
    intro q hq; simpa using (List.mem_filter.mp hq).2
  obtain ⟨c, s⟩ := vm
  simp only at e0 hf hcls hk ⊢
  rcases cls_cases c with hc | hc
  · obtain ⟨s0, rfl, hs0⟩ := fill_simple hc _ hf
    refine ⟨store_nodup hc (filter_nodup hn _) ?_ hs0 hk, ?_⟩
    · intro a ha b hb
      exact hl.inj a (List.mem_filter.mp ha).1 b (List.mem_filter.mp hb).1
    · intro k hkk
      obtain ⟨q, hq, e, -⟩ := store_sound hc hcls hs0 hk hkk
      exact ⟨q, (List.mem_filter.mp hq).1, hcls q hq, e⟩
  · have hg := fun q (hq : q ∈ ps.filter (fun p => decide (p.cls = c))) => hl.good q (List.mem_filter.mp hq).1
    refine ⟨multi_once hc hf hg (hl.keyInj hc) hk, ?_⟩
    intro k hkk
    obtain ⟨q, hq, e, -⟩ := multi_sound hc hf hg (hl.keyInj hc) (hl.views hc) hk hkk
    exact ⟨q, (List.mem_filter.mp hq).1, hcls q hq, e⟩

theorem match_nodup {md5 : Str → Str} {hist : List (Str × Option Str)} {url : Str} {m : URLMeta} {pieces : List Str}
    {pps : List ParsedPiece} (h : parse url = .ok (m, .pieces pps)) (hk : ∀ s ∈ pieces, ∀ c ∈ s, Known c)
    (hpps : pps = pieces.map (fun s => ppOf (runsOf s)))
    (hc : NoClash md5 (url :: hist.map (·.1))) (ht : AllTame hist) {rs : List (Matched FullStore Str)}
    (hrs : (mloadAll md5 hist).match_ md5 url = .ok rs) : rs.Pairwise PNe := by
  obtain ⟨g, hg, -, hcase⟩ := match_grp hc h
  rcases hcase with ⟨rfl, hnil⟩ | ⟨hne, d, kids, hT, hmm⟩
  · rw [hnil] at hrs
    cases hrs
    exact List.Pairwise.nil
  · obtain ⟨r0, hr0⟩ := List.exists_mem_of_ne_nil _ hne
    obtain ⟨h01, h02, h03⟩ := (hg r0).mp hr0
    obtain ⟨hd1, hd2⟩ := rec_depth h01
    obtain ⟨n, hn⟩ : ∃ n, m.depth = n + 1 := ⟨m.depth - 1, by rw [h02] at hd2; omega⟩
    rw [hn] at hT
    have hL : ∀ y ∈ g.map MRec.ins, y.1.length = n + 1 := by
      intro y hy
      obtain ⟨r, hr, rfl⟩ := List.mem_map.mp hy
      obtain ⟨a1, a2, a3⟩ := (hg r).mp hr
      rw [← hn, ← a2]
      exact (rec_depth a1).1
    have hcoh : Coh (g.map MRec.ins) :=
      rec_coh (hist := hist) (fun r hr => ((hg r).mp hr).1)
        (fun r hr r' hr' => ((hg r).mp hr).2.1.trans ((hg r').mp hr').2.1.symm)
    have hat : ∀ (i : Nat) (s : Str) (p : MatchPattern), pieces[i]? = some s → p ∈ patsAt i (g.map MRec.ins) →
        AtPos s p ∧ Tame p := by
      intro i s p hi hp
      obtain ⟨x, hx, hxp⟩ := mem_patsAt.mp hp
      obtain ⟨r, hr, rfl⟩ := List.mem_map.mp hx
      obtain ⟨a1, a2, a3⟩ := (hg r).mp hr
      have hmem : p ∈ r.ps := List.mem_of_getElem? hxp
      exact ⟨atPos_of h hk hpps a1 a2 a3 hi hxp, ht.rec a1 p hmem⟩
    have hinj : ∀ i, StrInj (patsAt i (g.map MRec.ins)) := by
      intro i p hp q hq e
      obtain ⟨x, hx, hxp⟩ := mem_patsAt.mp hp
      obtain ⟨y, hy, hyq⟩ := mem_patsAt.mp hq
      exact hcoh x hx y hy i p q hxp hyq e
    rw [hmm] at hrs
    refine mmatch_nodup hT hL hcoh hrs ?_
    intro i opp hi qs hqs hnd
    simp only [List.getElem?_map, Option.map_eq_some_iff] at hi
    obtain ⟨pp, hi, rfl⟩ := hi
    rw [hpps, List.getElem?_map] at hi
    simp only [Option.map_eq_some_iff] at hi
    obtain ⟨s, hs, rfl⟩ := hi
    refine url_once ((lvl_of (hk s (List.mem_of_getElem? hs)) (fun p hp => (hat i s p hs hp).1)
      (fun p hp => (hat i s p hs hp).2) (hinj i)).mono ?_) hnd
    intro q hq
    exact mem_patsAt.mpr (hqs q hq)

end OsUrl
