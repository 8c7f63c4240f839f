import Verif.Proofs.AnyHash4
import Verif.Proofs.Make2
import Verif.Proofs.Witness

/-! `make()` with an arbitrary `hash`. -/

namespace OsUrl
open Spec

/-- The rows of a sub-maker, whatever the hash. -/
theorem rows_any {hist : List (Str × Option Str)} {g : List Rec} {m : URLMeta} {rules : List Str} (hne : g ≠ [])
    (hg : ∀ r ∈ g, r ∈ accepted hist) (hall : ∀ r ∈ g, r.m = m ∧ r.rules = rules) :
    RowsOK (AnyOK m) m.depth (norm (insOf g)) := by
  have h := (rows_ok (codeHash_ok (UrlRow hist)) hne hg hall).1
  exact ⟨h.len, h.pos, fun j hj => ⟨(h.ok j hj).parsed, (h.ok j hj).rule, (h.ok j hj).slash⟩, h.inj⟩

/-- What is known about the clusters of one sub-maker. -/
structure MadeAny (hist : List (Str × Option Str)) (M : Made) : Prop where
  ne : M.g ≠ []
  acc : ∀ r ∈ M.g, r ∈ accepted hist
  all : ∃ rules, ∀ r ∈ M.g, r.m = M.m ∧ r.rules = rules
  perm : (M.Cs.flatten.map Ins.bare).Perm (norm (insOf M.g))
  done : ∀ C ∈ M.Cs, Done M.m.depth C

theorem make_group_any {h : Runtime} {mcn : Int} (hm : 2 ≤ mcn) {hist : List (Str × Option Str)} {g : List Rec}
    {m : URLMeta} {rules : List Str} (hne : g ≠ []) (hg : ∀ r ∈ g, r ∈ accepted hist) (hall : ∀ r ∈ g, r.m = m ∧ r.rules = rules) :
    RecOr (MakerSt.make h mcn ⟨m, growTree m.depth (insOf g)⟩) (fun ts => ∃ Cs : List (List Ins), ts = Cs.map (doneTree m.depth) ∧
      (Cs.flatten.map Ins.bare).Perm (norm (insOf g)) ∧ ∀ C ∈ Cs, Done m.depth C) := by
  obtain ⟨r0, hr0⟩ := List.exists_mem_of_ne_nil _ hne
  obtain ⟨n, hn⟩ : ∃ n, m.depth = n + 1 := ⟨m.depth - 1, by
    have := (accepted_depth (hg r0 hr0)).2; rw [(hall r0 hr0).1] at this; omega⟩
  have hok := rows_any hne hg hall
  have hlen : ∀ i ∈ insOf g, i.path.length = m.depth := insOf_length (fun r hr => by rw [(accepted_depth (hg r hr)).1, (hall r hr).1])
  have hN : Normal m.depth (norm (insOf g)) := norm_normal hlen
  have hins : insOf g ≠ [] := by
    intro e
    have := insOf_keys g
    rw [e] at this
    have h2 := congrArg List.length this
    simp at h2
    exact hne (List.eq_nil_of_length_eq_zero h2.symm)
  have hne' := norm_ne_nil hins
  rw [hn] at hN hok
  have h1 := cluster_any h (top_any (h := h) hm m false (n + 1)) hm hn ((growTree m.depth (insOf g)).paths.length + 1)
    (norm (insOf g)) hN hok hne'
  rw [norm_bare, growTree_norm n (insOf g) (hn ▸ hlen), ← hn] at h1
  exact h1

theorem make_all_any (md5 : Str → Str) {h : Runtime} {mcn : Int} (hm : 2 ≤ mcn) {hist : List (Str × Option Str)}
    (hc : NoCollision md5 (accepted hist)) {Q : Nat → Prop} (hQ : ∀ (mk : MakerSt) ts, mk.make h mcn = .ok ts → Q ts.length) :
    RecOr (PatternMakerSt.make h mcn (loadAll md5 hist)) (fun cs => ∃ Ms : List Made,
      Ms.map (·.g) = (groupBy (Rec.sid md5) (accepted hist)).map (·.2) ∧ cs = Ms.flatMap Made.out ∧ ∀ M ∈ Ms, MadeAny hist M ∧ Q M.Cs.length) := by
  have key : ∀ kg ∈ groupBy (Rec.sid md5) (accepted hist), RecOr
      ((makerOf kg.2).make h mcn >>= fun ts => pure (ts.map (fun t => ((makerOf kg.2).urlMeta, t)))) (fun c => ∃ M : Made, c = M.out ∧
      (M.g = kg.2 ∧ MadeAny hist M ∧ Q M.Cs.length)) := by
    rintro ⟨k, g⟩ hkg
    have hne := groupBy_ne_nil hkg
    obtain ⟨-, hgf⟩ := mem_groupBy hkg
    have hg : ∀ r ∈ g, r ∈ accepted hist := fun r hr => by rw [hgf] at hr; exact (List.mem_filter.mp hr).1
    have hsid : ∀ r ∈ g, r.sid md5 = k := fun r hr => by
      rw [hgf] at hr; exact of_decide_eq_true (List.mem_filter.mp hr).2
    obtain ⟨r, g', rfl⟩ := List.exists_cons_of_ne_nil hne
    have hall : ∀ r' ∈ r :: g', r'.m = r.m ∧ r'.rules = r.rules := fun r' hr' =>
      (sid_eq_iff hc (hg r' hr') (hg r (by simp))).mp ((hsid r' hr').trans (hsid r (by simp)).symm)
    have hmk : makerOf (r :: g') = ⟨r.m, growTree r.m.depth (insOf (r :: g'))⟩ := rfl
    rcases make_group_any (h := h) hm hne hg hall with hrun | ⟨ts, hrun, Cs, rfl, h1, h2⟩
    · left
      simp only [hmk, hrun]; rfl
    have hq := hQ _ _ hrun
    rw [List.length_map] at hq
    refine .inr ⟨_, by simp only [hmk, hrun]; rfl, ⟨r :: g', r.m, Cs⟩, ?_, rfl, ⟨hne, hg, ⟨_, hall⟩, h1, h2⟩, hq⟩
    simp [Made.out, makerOf, Function.comp_def]
  have hmap := RecOr.mapM (r := Made.out) key
  have hrun : PatternMakerSt.make h mcn (loadAll md5 hist) = ((groupBy (Rec.sid md5) (accepted hist)).mapM (fun kg =>
      (makerOf kg.2).make h mcn >>= fun ts => pure (ts.map (fun t => ((makerOf kg.2).urlMeta, t)))) >>= fun cs => pure cs.flatten) := by
    unfold PatternMakerSt.make
    rw [loadAll_eq md5 hist hc, List.mapM_map]
    rfl
  rw [hrun]
  refine hmap.bind ?_
  rintro _ ⟨ps, e1, rfl, e3⟩
  refine .inr ⟨_, rfl, ps.map (·.2), ?_, ?_, ?_⟩
  · rw [← e1, List.map_map, List.map_map]
    exact List.map_congr_left (fun p hp => (e3 p hp).1)
  · simp [List.flatMap, List.map_map, Function.comp_def]
  · intro M hM
    obtain ⟨p, hp, rfl⟩ := List.mem_map.mp hM
    exact (e3 p hp).2

variable {hist : List (Str × Option Str)}

/-- One cluster of `make()`. -/
structure ClusterAny (M : Made) (C : List Ins) (t : Tree NodeData) : Prop where
  eq : t = doneTree M.m.depth C
  final : Done M.m.depth C
  sub : ∀ x ∈ C, x.bare ∈ norm (insOf M.g)
  rows : (t.paths.map rowOf).Perm C
  keys : ∀ p ∈ t.paths, p.map (·.1) = (rowOf p).keys
  pos : ∃ n, M.m.depth = n + 1
  count : t.root.count = C.length

theorem clusterAny {M : Made} (hM : MadeAny hist M) {C : List Ins} (hC : C ∈ M.Cs) : ClusterAny M C (doneTree M.m.depth C) := by
  obtain ⟨r0, hr0⟩ := List.exists_mem_of_ne_nil _ hM.ne
  obtain ⟨rules, hall⟩ := hM.all
  obtain ⟨n, hn⟩ : ∃ n, M.m.depth = n + 1 := ⟨M.m.depth - 1, by
    have := (accepted_depth (hM.acc r0 hr0)).2; rw [(hall r0 hr0).1] at this; omega⟩
  have hF := hM.done C hC
  have hsub : ∀ x ∈ C, x.bare ∈ norm (insOf M.g) := fun x hx =>
    hM.perm.mem_iff.mp (List.mem_map_of_mem (List.mem_flatten.mpr ⟨C, hC, hx⟩))
  have hfull : ∀ x ∈ C, x.Full := hF.full
  have hpaths : (doneTree M.m.depth C).paths = growPaths M.m.depth C := by rw [← paths_growTree hF.ne]; rfl
  refine ⟨rfl, hF, hsub, ?_, ?_, ⟨n, hn⟩, ?_⟩
  · rw [hpaths, hn]
    exact rows_of_paths (hn ▸ hF.normal) hF.coh hfull
  · rw [hpaths, hn]
    intro p hp
    obtain ⟨x, -, h1, h2⟩ := rowOf_path (hn ▸ hF.normal) hF.coh hfull hp
    rw [h1, h2]
  · show (growTree M.m.depth C).root.count = _
    rw [growTree_count]
    have : ∀ D : List Ins, (∀ x ∈ D, x ∈ C) → (D.map (·.count)).sum = D.length := by
      intro D
      induction D with
      | nil => intro _; rfl
      | cons x D ih =>
        intro hD
        have h1 : x.count = 1 := (norm_rows M.g _ (hsub x (hD x (by simp)))).count
        rw [List.map_cons, List.sum_cons, ih (fun y hy => hD y (by simp [hy])), h1, List.length_cons]
        push_cast; omega
    exact this C (fun x hx => hx)

theorem mem_out_any {Ms : List Made} (hMs : ∀ M ∈ Ms, MadeAny hist M) {c : URLMeta × Tree NodeData} (hc : c ∈ Ms.flatMap Made.out) :
    ∃ M ∈ Ms, MadeAny hist M ∧ ∃ C ∈ M.Cs, c.1 = M.m ∧ ClusterAny M C c.2 := by
  obtain ⟨M, hM, hcM⟩ := List.mem_flatMap.mp hc
  obtain ⟨C, hC, rfl⟩ := List.mem_map.mp hcM
  exact ⟨M, hM, hMs M hM, C, hC, rfl, clusterAny (hMs M hM) hC⟩

theorem row_of_path_any {M : Made} {C : List Ins} {t : Tree NodeData} (hC : ClusterAny M C t) {p : List (Str × NodeData)}
    (hp : p ∈ t.paths) : rowOf p ∈ C ∧ (rowOf p).bare ∈ norm (insOf M.g) := by
  have := hC.rows.mem_iff.mp (List.mem_map_of_mem hp)
  exact ⟨this, hC.sub _ this⟩

theorem path_of_row_any {M : Made} {C : List Ins} {t : Tree NodeData} (hC : ClusterAny M C t) {x : Ins}
    (hx : x ∈ C) : ∃ p ∈ t.paths, rowOf p = x := List.mem_map.mp (hC.rows.mem_iff.mpr hx)

theorem path_last_any {M : Made} {C : List Ins} {t : Tree NodeData} (hC : ClusterAny M C t) {p : List (Str × NodeData)}
    (hp : p ∈ t.paths) : ∃ k d, p.getLast? = some (k, d) ∧ (rowOf p).count = d.count ∧ (rowOf p).metas = d.metas.getD [] := by
  cases e : p.getLast? with
  | none =>
    rw [List.getLast?_eq_none_iff] at e
    subst e
    have h1 := hC.final.normal.len _ (row_of_path_any hC hp).1
    obtain ⟨n, hn⟩ := hC.pos
    rw [hn] at h1
    simp [rowOf] at h1
  | some kd =>
    refine ⟨kd.1, kd.2, rfl, ?_, ?_⟩ <;> simp [rowOf, e]

/-- The loaded URLs of a cluster: structure and pieces of every path. -/
def rowsIn (c : URLMeta × Tree NodeData) : List (URLMeta × List Str) := c.2.paths.map (fun p => (c.1, p.map (·.1)))

theorem made_rows_any {hist : List (Str × Option Str)} {M : Made} (hM : MadeAny hist M) :
    (M.out.flatMap rowsIn).Perm ((uniq (M.g.map Rec.keys)).map (fun k => (M.m, k))) := by
  have h1 : ∀ Cs : List (List Ins), (∀ C ∈ Cs, C ∈ M.Cs) →
      ((Cs.map (fun C => (M.m, doneTree M.m.depth C))).flatMap rowsIn).Perm ((Cs.flatten.map Ins.bare).map (fun x => (M.m, x.keys))) := by
    intro Cs
    induction Cs with
    | nil => intro _; exact .refl _
    | cons C Cs ih =>
      intro hC
      rw [List.map_cons, List.flatMap_cons, List.flatten_cons, List.map_append, List.map_append]
      refine List.Perm.append ?_ (ih (fun D hD => hC D (by simp [hD])))
      have hK := clusterAny hM (hC C (by simp))
      have e : rowsIn (M.m, doneTree M.m.depth C) = ((doneTree M.m.depth C).paths.map rowOf).map (fun x => (M.m, x.keys)) := by
        rw [rowsIn, List.map_map]
        exact List.map_congr_left (fun p hp => by simp [hK.keys p hp])
      rw [e, List.map_map (l := C)]
      have := hK.rows.map (fun x : Ins => (M.m, x.keys))
      simpa [Function.comp_def, bare_keys] using this
  refine (h1 M.Cs (fun C hC => hC)).trans ?_
  have h2 := hM.perm.map (fun x : Ins => (M.m, x.keys))
  refine h2.trans ?_
  have e : (norm (insOf M.g)).map (fun x : Ins => (M.m, x.keys)) = ((norm (insOf M.g)).map Ins.keys).map (fun k => (M.m, k)) := by
    rw [List.map_map]; rfl
  rw [e, norm_keys, insOf_keys]

theorem made_nodup_any (md5 : Str → Str) {hist : List (Str × Option Str)} {Ms : List Made}
    (hg : Ms.map (·.g) = (groupBy (Rec.sid md5) (accepted hist)).map (·.2)) (hMs : ∀ M ∈ Ms, MadeAny hist M) :
    ((Ms.flatMap Made.out).flatMap rowsIn).Nodup := by
  have hp : ((Ms.flatMap Made.out).flatMap rowsIn).Perm (Ms.flatMap (fun M => (uniq (M.g.map Rec.keys)).map (fun k => (M.m, k)))) := by
    clear hg
    induction Ms with
    | nil => exact .refl _
    | cons M Ms ih =>
      rw [List.flatMap_cons, List.flatMap_append, List.flatMap_cons]
      exact (made_rows_any (hMs M (by simp))).append (ih (fun M hM => hMs M (by simp [hM])))
  refine hp.nodup_iff.mpr ?_
  have hd : Ms.Pairwise (fun M M' => ∀ r ∈ M.g, ∀ r' ∈ M'.g, r.sid md5 ≠ r'.sid md5) := by
    have h1 : (Ms.map (·.g)).Pairwise (fun g g' : List Rec => ∀ r ∈ g, ∀ r' ∈ g', r.sid md5 ≠ r'.sid md5) := by
      rw [hg, groupBy_eq, List.map_map, List.pairwise_map]
      refine (nodup_uniq _).imp ?_
      intro k k' hk r hr r' hr'
      simp only [Function.comp_apply] at hr hr'
      have e1 := of_decide_eq_true (List.mem_filter.mp hr).2
      have e2 := of_decide_eq_true (List.mem_filter.mp hr').2
      rw [e1, e2]; exact hk
    rwa [List.pairwise_map] at h1
  rw [List.Nodup, List.pairwise_flatMap]
  refine ⟨?_, ?_⟩
  · intro M hM
    have := (nodup_uniq (M.g.map Rec.keys)).map (fun k => (M.m, k)) (S := (· ≠ ·)) (fun a b hab e => hab (by simpa using e))
    exact this
  · refine List.Pairwise.imp_of_mem ?_ hd
    intro M M' hM hM' hsep x hx y hy hxy
    subst hxy
    obtain ⟨k, hk, rfl⟩ := List.mem_map.mp hx
    obtain ⟨k', hk', e⟩ := List.mem_map.mp hy
    injection e with e1 e2
    subst e2
    rw [mem_uniq, List.mem_map] at hk hk'
    obtain ⟨r, hr, er⟩ := hk
    obtain ⟨r', hr', er'⟩ := hk'
    have e3 := same_pps ((hMs M hM).acc r hr) ((hMs M' hM').acc r' hr') (er.trans er'.symm)
    obtain ⟨_, a1⟩ := (hMs M hM).all
    obtain ⟨_, a2⟩ := (hMs M' hM').all
    refine hsep r hr r' hr' ?_
    unfold Rec.sid
    rw [e3, (a1 r hr).1, (a2 r' hr').1, e1]

theorem partition_any (md5 : Str → Str) {hist : List (Str × Option Str)} {Ms : List Made}
    (h1 : Ms.map (·.g) = (groupBy (Rec.sid md5) (accepted hist)).map (·.2)) (h3 : ∀ M ∈ Ms, MadeAny hist M) :
    ((Ms.flatMap Made.out).flatMap (fun c => c.2.paths.map (fun p => (c.1, p.map (·.1))))).Nodup ∧
      (∀ m ks, (m, ks) ∈ (Ms.flatMap Made.out).flatMap (fun c => c.2.paths.map (fun p => (c.1, p.map (·.1)))) ↔
        ∃ u md pps, (u, md) ∈ hist ∧ parse u = .ok (m, .pieces pps) ∧ ks = pps.map (·.piece)) ∧
      ∀ c ∈ Ms.flatMap Made.out, c.2.paths ≠ [] ∧ c.2.root.count = c.2.paths.length ∧
        ∀ p ∈ c.2.paths, ∃ k leaf, p.getLast? = some (k, leaf) ∧ leaf.count = 1 ∧ (leaf.metas.getD []).Nodup ∧
          ∀ x, x ∈ leaf.metas.getD [] ↔
            ∃ u pps, (u, some x) ∈ hist ∧ parse u = .ok (c.1, .pieces pps) ∧ pps.map (·.piece) = p.map (·.1) := by
  have hgm : ∀ r, r ∈ accepted hist ↔ ∃ M ∈ Ms, r ∈ M.g := by
    intro r
    constructor
    · intro hr
      have : (r.sid md5, (accepted hist).filter (fun x => decide (x.sid md5 = r.sid md5))) ∈ groupBy (Rec.sid md5) (accepted hist) := by
        rw [groupBy_eq, List.mem_map]
        exact ⟨_, mem_uniq.mpr (List.mem_map_of_mem hr), rfl⟩
      have h4 := List.mem_map_of_mem (f := (·.2)) this
      rw [← h1] at h4
      obtain ⟨M, hM, e⟩ := List.mem_map.mp h4
      refine ⟨M, hM, ?_⟩
      rw [e]
      exact List.mem_filter.mpr ⟨hr, by simp⟩
    · rintro ⟨M, hM, hr⟩
      exact (h3 M hM).acc r hr
  refine ⟨made_nodup_any md5 h1 h3, ?_, ?_⟩
  · intro m ks
    constructor
    · intro hx
      obtain ⟨c, hcm, hx⟩ := List.mem_flatMap.mp hx
      obtain ⟨M, hM, hcM⟩ := List.mem_flatMap.mp hcm
      have hx' : (m, ks) ∈ M.out.flatMap rowsIn := List.mem_flatMap.mpr ⟨c, hcM, hx⟩
      rw [(made_rows_any (h3 M hM)).mem_iff, List.mem_map] at hx'
      obtain ⟨k, hk, e⟩ := hx'
      injection e with e1 e2
      subst e1; subst e2
      rw [mem_uniq, List.mem_map] at hk
      obtain ⟨r, hr, er⟩ := hk
      obtain ⟨u, hu, hp⟩ := mem_accepted.mp ((h3 M hM).acc r hr)
      obtain ⟨_, hall⟩ := (h3 M hM).all
      exact ⟨u, r.md, r.pps, hu, by rw [hp, (hall r hr).1], er.symm⟩
    · rintro ⟨u, md, pps, hu, hp, rfl⟩
      have hr : (⟨m, pps, md⟩ : Rec) ∈ accepted hist := mem_accepted.mpr ⟨u, hu, hp⟩
      obtain ⟨M, hM, hrM⟩ := (hgm _).mp hr
      obtain ⟨_, hall⟩ := (h3 M hM).all
      have hx : (m, pps.map (·.piece)) ∈ M.out.flatMap rowsIn := by
        rw [(made_rows_any (h3 M hM)).mem_iff, List.mem_map]
        exact ⟨_, mem_uniq.mpr (List.mem_map_of_mem hrM), by rw [← (hall _ hrM).1]; rfl⟩
      obtain ⟨c, hcM, hx⟩ := List.mem_flatMap.mp hx
      exact List.mem_flatMap.mpr ⟨c, List.mem_flatMap.mpr ⟨M, hM, hcM⟩, hx⟩
  · intro c hcm
    obtain ⟨M, hM, hMok, C, hC, e1, hK⟩ := mem_out_any h3 hcm
    have hl := hK.rows.length_eq
    rw [List.length_map] at hl
    refine ⟨?_, by rw [hK.count, hl], ?_⟩
    · intro e
      rw [e] at hl
      exact hK.final.ne (List.eq_nil_of_length_eq_zero hl.symm)
    · intro p hp
      obtain ⟨k, d, h4, h5, h6⟩ := path_last_any hK hp
      obtain ⟨h7, h8⟩ := row_of_path_any hK hp
      have h9 := norm_rows _ _ h8
      refine ⟨k, d, h4, by rw [← h5]; exact h9.count, by rw [← h6]; exact hK.final.normal.metas _ h7, ?_⟩
      intro x
      have hk : p.map (·.1) = (rowOf p).bare.keys := by rw [hK.keys p hp, bare_keys]
      rw [← h6, hk, e1]
      refine (h9.metas x).trans ?_
      obtain ⟨_, hall⟩ := hMok.all
      constructor
      · rintro ⟨r, hr, e2, e3⟩
        obtain ⟨u, hu, hp'⟩ := mem_accepted.mp (hMok.acc r hr)
        exact ⟨u, r.pps, by rw [← e3]; exact hu, by rw [hp', (hall r hr).1], e2⟩
      · rintro ⟨u, pps, hu, hp', e2⟩
        have hr : (⟨M.m, pps, some x⟩ : Rec) ∈ accepted hist := mem_accepted.mpr ⟨u, hu, hp'⟩
        refine ⟨⟨M.m, pps, some x⟩, ?_, e2, rfl⟩
        obtain ⟨r0, hr0, hp0⟩ := h9.path
        have hk0 : r0.keys = (rowOf p).bare.keys := by
          rw [Ins.keys, hp0]; simp [Rec.keys, Function.comp_def]
        have e4 := same_pps hr (hMok.acc r0 hr0) (Eq.trans e2 hk0.symm)
        have hsid : Rec.sid md5 (⟨M.m, pps, some x⟩ : Rec) = r0.sid md5 := by
          unfold Rec.sid
          rw [(hall r0 hr0).1]
          simp only at e4
          rw [e4]
        have h4 : M.g ∈ Ms.map (·.g) := List.mem_map_of_mem hM
        rw [h1] at h4
        obtain ⟨⟨k', g'⟩, hkg, eg⟩ := List.mem_map.mp h4
        simp only at eg
        subst eg
        obtain ⟨-, hgf⟩ := mem_groupBy hkg
        rw [hgf] at hr0 ⊢
        have h5 := of_decide_eq_true (List.mem_filter.mp hr0).2
        exact List.mem_filter.mpr ⟨hr, by rw [hsid, h5]; simp⟩

theorem uniform_any {Ms : List Made} (h3 : ∀ M ∈ Ms, MadeAny hist M) :
    ∀ c ∈ Ms.flatMap Made.out, ∃ pats : List Str, pats.length = c.1.depth ∧
      ∀ p ∈ c.2.paths, p.map (fun kn => kn.2.pattern) = pats := by
  intro c hcm
  obtain ⟨M, hM, hMok, C, hC, e1, hK⟩ := mem_out_any h3 hcm
  obtain ⟨qs, hq⟩ := hK.final.unif
  have hpq : ∀ p ∈ c.2.paths, p.map (fun kn => kn.2.pattern) = qs := by
    intro p hp
    have := hq _ (row_of_path_any hK hp).1
    simp only [rowOf, List.map_map] at this
    have h2 := congrArg (List.map (fun o : Option Str => o.getD [])) this
    simpa [Function.comp_def] using h2
  refine ⟨qs, ?_, hpq⟩
  obtain ⟨x, hx⟩ := List.exists_mem_of_ne_nil _ hK.final.ne
  have h1 := hK.final.normal.len x hx
  have h2 := congrArg List.length (hq x hx)
  rw [List.length_map, List.length_map] at h2
  rw [e1]; omega

/-! ### A constant hash -/

theorem splitLoop_const {h : Runtime} (hh : ∀ s t : Str, h s = h t) (root : Str) :
    ∀ (ps : List (List (Str × NodeData))) (d d' : Dict Nat (Tree NodeData)), (∀ kv ∈ d, kv.1 = h []) → d.length ≤ 1 →
    splitLoop h root ps d = .ok d' → d'.length ≤ 1 := by
  intro ps
  induction ps with
  | nil =>
    intro d d' _ hl e
    injection e with e
    rw [← e]; exact hl
  | cons p ps ih =>
    intro d d' hk hl e
    unfold splitLoop at e
    simp only [bind, Except.bind] at e
    cases hb : buildFromNodes ((Dict.get? (h (join ['/'] (root :: p.map (fun kn => kn.2.pattern)))) d).getD emptyTree) (p.map (·.2)) with
    | error x => rw [hb] at e; cases e
    | ok sub =>
      rw [hb] at e
      simp only at e
      rw [hh _ []] at e
      match d, hk, hl with
      | [], _, _ =>
        refine ih _ _ ?_ ?_ e
        · intro kv hkv
          simp [Dict.upd] at hkv
          rw [hkv]
        · simp [Dict.upd]
      | [(k, v)], hk, _ =>
        have hk' : k = h [] := hk (k, v) (by simp)
        subst hk'
        refine ih _ _ ?_ ?_ e
        · intro kv hkv
          simp [Dict.upd] at hkv
          rw [hkv]
        · simp [Dict.upd]
      | _ :: _ :: _, _, hl => simp at hl

theorem clusterWith_const {h : Runtime} (hh : ∀ s t : Str, h s = h t) (nested : NestedCluster) (mcn : Int) (m : URLMeta) (kw : Bool) :
    ∀ (fuel : Nat) (t : Tree NodeData) (ts : List (Tree NodeData)), clusterWith nested h mcn m kw fuel t = .ok ts → ts.length ≤ 1 := by
  intro fuel
  induction fuel with
  | zero =>
    intro t ts e
    unfold clusterWith at e
    by_cases hc : t.root.count ≤ 0
    · rw [if_pos hc] at e; injection e with e; rw [← e]; simp
    · rw [if_neg hc] at e; cases e
  | succ fuel ih =>
    intro t ts e
    unfold clusterWith at e
    by_cases hc : t.root.count ≤ 0
    · rw [if_pos hc] at e; injection e with e; rw [← e]; simp
    · rw [if_neg hc] at e
      simp only [bind, Except.bind] at e
      cases hp : process h nested mcn m kw t with
      | error x => rw [hp] at e; cases e
      | ok r =>
        rw [hp] at e
        obtain ⟨t', b⟩ := r
        cases b with
        | false =>
          simp only [Bool.false_eq_true, if_false] at e
          injection e with e
          rw [← e]; simp
        | true =>
          simp only [if_true] at e
          unfold splitByPattern at e
          simp only [bind, Except.bind, pure, Except.pure] at e
          cases hs : splitLoop h t'.root.pattern t'.paths [] with
          | error x => rw [hs] at e; cases e
          | ok d =>
            rw [hs] at e
            simp only at e
            have hd := splitLoop_const hh _ _ _ _ (by simp) (by simp) hs
            match d, hd with
            | [], _ =>
              simp only [List.map_nil, List.mapM_nil, pure, Except.pure] at e
              injection e with e
              rw [← e]; simp
            | [kv], _ =>
              simp only [List.map_cons, List.map_nil, List.mapM_cons, List.mapM_nil, bind, Except.bind, pure, Except.pure] at e
              cases hr : clusterWith nested h mcn m kw fuel kv.2 with
              | error x => rw [hr] at e; cases e
              | ok us =>
                rw [hr] at e
                simp only at e
                injection e with e
                rw [← e]
                simpa using ih _ _ hr
            | _ :: _ :: _, hd => simp at hd

/-- The rules of a path of a cluster are those of its sub-maker. -/
theorem path_rules_any {M : Made} {C : List Ins} {t : Tree NodeData} (hK : ClusterAny M C t) {p : List (Str × NodeData)}
    (hp : p ∈ t.paths) : ∃ r ∈ M.g, p.map (fun kn => kn.2.pp.fuzzyRule) = r.rules := by
  obtain ⟨h1, h2⟩ := row_of_path_any hK hp
  obtain ⟨r, hr, e⟩ := (norm_rows _ _ h2).path
  refine ⟨r, hr, ?_⟩
  have := congrArg (List.map (fun a : ParsedPiece × Option Str => a.1.fuzzyRule)) e
  simpa [Ins.bare, rowOf, Function.comp_def, Rec.rules] using this

end OsUrl
