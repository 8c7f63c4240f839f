import Verif.Proofs.Proc2
import Verif.Proofs.MTree

/-! The recursion over the levels, continued. -/

namespace OsUrl

theorem mapM_post {α β : Type} {f : α → Py β} {l : List α} {P : α → β → Prop} (h : ∀ a ∈ l, ∃ b, f a = .ok b ∧ P a b) :
    ∃ bs, l.mapM f = .ok bs ∧ bs.length = l.length ∧ (∀ a ∈ l, ∃ b ∈ bs, P a b) ∧ ∀ b ∈ bs, ∃ a ∈ l, P a b := by
  obtain ⟨bs, hbs⟩ := mapM_total (f := f) (fun a ha => let ⟨b, hb, _⟩ := h a ha; ⟨b, hb⟩)
  refine ⟨bs, hbs, mapM_ok_length hbs, ?_, ?_⟩
  · intro a ha
    obtain ⟨b, hb, hp⟩ := h a ha
    obtain ⟨b', hb', e⟩ := mapM_ok_mem hbs ha
    rw [hb] at e; injection e with e; subst e
    exact ⟨b, hb', hp⟩
  · intro b hb
    obtain ⟨a, ha, e⟩ := mapM_ok_mem' hbs hb
    obtain ⟨b', hb', hp⟩ := h a ha
    rw [e] at hb'; injection hb' with e'; subst e'
    exact ⟨a, ha, hp⟩

variable {rt : Runtime} {nested : NestedCluster} {mcn : Int} {m : URLMeta} {kw : Bool} {n : Nat}
  {OK : Nat → List ParsedPiece → Prop} {F : LevelFn}

/-- The stages of a processor, on rows. -/
theorem level_run (hL : LevelOK rt nested mcn m kw n OK F) {j : Nat} {S : List Ins} {nodes : List PNode} (hj : j < n)
    (hS : RowsOK OK n S) (hN : NodesOf n j S nodes) (hne : S ≠ []) :
    ∃ st, processStages rt nested (cfgAt mcn m kw n j) (rt.bucket nodes) = .ok st ∧
      (∀ nd ∈ nodes, ∀ x ∈ rowsAt j S nd.path, st.assign.pattern nd.pc = lab F j S x) ∧
      (st.patternNum > 1 ↔ ∃ x ∈ S, ∃ y ∈ S, lab F j S x ≠ lab F j S y) := by
  have hent := bucket_ent rt hS hj hN
  have hF := hL.perm j _ _ hent
  obtain ⟨x0, hx0⟩ := List.exists_mem_of_ne_nil _ hne
  obtain ⟨nd0, hnd0, _⟩ := List.mem_map.mp (hN.cover x0 hx0)
  obtain ⟨b0, hb0, _⟩ := node_bag rt hnd0
  have hbag : ∀ x ∈ S, ∃ b ∈ rt.bucket nodes, b.pp = x.pp j := by
    intro x hx
    obtain ⟨nd, hnd, hp⟩ := List.mem_map.mp (hN.cover x hx)
    obtain ⟨b, hb, e⟩ := node_bag rt hnd
    refine ⟨b, hb, (((bag_piece_eq hS hj hN hb).2 x hx).mp ?_).symm⟩
    rw [e]; unfold PNode.pc
    rw [(hN.node nd hnd).pp x (mem_rowsAt.mpr ⟨hx, hp.symm⟩)]
  obtain ⟨st, h1, h2, h3⟩ := hL.run j (rt.bucket nodes) hj (List.ne_nil_of_mem hb0) (rtBucket_nodup rt nodes)
    (by
      intro b hb
      have hm : b.ent ∈ ent j S := hent.mem_iff.mp (List.mem_map.mpr ⟨b, hb, rfl⟩)
      unfold PieceBag.ent at hm
      rw [mem_ent] at hm
      rw [hm.2]
      obtain ⟨x, hx, e⟩ := List.mem_map.mp hm.1
      have : ∀ T : List Ins, (∀ y ∈ T, 1 ≤ y.count) → 0 ≤ total T := by
        intro T
        induction T with
        | nil => simp [total]
        | cons y T ih =>
          intro h
          rw [total_cons]
          have := ih (fun z hz => h z (by simp [hz]))
          have := h y (by simp)
          omega
      have hx' : x ∈ S.filter (fun x => decide (x.pp j = b.pp)) := List.mem_filter.mpr ⟨hx, by simp [e]⟩
      cases hf : S.filter (fun x => decide (x.pp j = b.pp)) with
      | nil => rw [hf] at hx'; simp at hx'
      | cons y ys =>
        have hmem : ∀ z ∈ y :: ys, 1 ≤ z.count := by
          intro z hz
          rw [← hf, List.mem_filter] at hz
          exact hS.pos z hz.1
        rw [total_cons]
        have := this ys (fun z hz => hmem z (by simp [hz]))
        have := hmem y (by simp)
        omega)
    (hL.mono j _ _ (by
      intro a ha
      obtain ⟨b, hb, rfl⟩ := List.mem_map.mp ha
      obtain ⟨x, hx, e⟩ := (bag_piece_eq hS hj hN hb).1
      exact List.mem_map.mpr ⟨x, hx, e.symm⟩) (hS.ok j hj))
  rw [hF] at h2 h3
  refine ⟨st, h1, ?_, ?_⟩
  · intro nd hnd x hx
    obtain ⟨b, hb, e⟩ := node_bag rt hnd
    rw [← e, h2 b hb]
    unfold lab
    have hx' := mem_rowsAt.mp hx
    rw [((bag_piece_eq hS hj hN hb).2 x hx'.1).mp (by
      rw [e]; unfold PNode.pc; rw [(hN.node nd hnd).pp x hx])]
  · rw [h3]
    constructor
    · rintro ⟨b, hb, b', hb', hd⟩
      obtain ⟨x, hx, e⟩ := (bag_piece_eq hS hj hN hb).1
      obtain ⟨x', hx', e'⟩ := (bag_piece_eq hS hj hN hb').1
      exact ⟨x, hx, x', hx', by unfold lab; rwa [← e, ← e']⟩
    · rintro ⟨x, hx, x', hx', hd⟩
      obtain ⟨b, hb, e⟩ := hbag x hx
      obtain ⟨b', hb', e'⟩ := hbag x' hx'
      exact ⟨b, hb, b', hb', by unfold lab at hd; rwa [e, e']⟩

/-- The children of the nodes that got the pattern `q`. -/
theorem next_nodes {j : Nat} {S : List Ins} {nodes : List PNode} (hj : j + 1 < n)
    (hS : RowsOK OK n S) (hN : NodesOf n j S nodes) (f : PNode → Str)
    (hf : ∀ nd ∈ nodes, ∀ x ∈ rowsAt j S nd.path, f nd = lab F j S x) (q : Str) (nodes' : List PNode)
    (hn' : nodes'.Perm (nodes.filter (fun nd => decide (f nd = q)))) :
    NodesOf n (j + 1) (S.filter (fun x => decide (lab F j S x = q))) (nodes'.flatMap childNodes) := by
  have hmem : ∀ nd, nd ∈ nodes' ↔ nd ∈ nodes ∧ f nd = q := by
    intro nd; rw [hn'.mem_iff, List.mem_filter, decide_eq_true_eq]
  have hrows : ∀ nd ∈ nodes', ∀ c ∈ childNodes nd, rowsAt (j + 1) (S.filter (fun x => decide (lab F j S x = q))) c.path
      = rowsAt (j + 1) S c.path := by
    intro nd hnd c hc
    have hnd' := (hmem nd).mp hnd
    have hcp := ((isNode_child hS hj (hN.node nd hnd'.1)).2.2 c hc).2
    unfold rowsAt
    rw [List.filter_filter]
    apply List.filter_congr
    intro x hx
    by_cases e : x.keys.take (j + 1 + 1) = c.path
    · have : lab F j S x = q := by
        rw [← hnd'.2, hf nd hnd'.1 x]
        rw [mem_rowsAt]
        refine ⟨hx, ?_⟩
        rw [← hcp, ← e, List.take_take]
        congr 1; omega
      simp [e, this]
    · simp [e]
  refine ⟨?_, ?_, ?_⟩
  · rw [List.map_flatMap]
    have hp := (hn'.map (·.path)).nodup_iff.mpr (hN.nodup.sublist (List.filter_sublist.map _))
    have hsub : ∀ nd ∈ nodes', nd ∈ nodes := fun nd h => ((hmem nd).mp h).1
    clear hrows hmem hn'
    induction nodes' with
    | nil => simp
    | cons nd nds ih =>
      rw [List.map_cons, List.nodup_cons] at hp
      rw [List.flatMap_cons, List.nodup_append]
      refine ⟨(isNode_child hS hj (hN.node nd (hsub nd (by simp)))).1, ih hp.2 (fun a ha => hsub a (by simp [ha])), ?_⟩
      intro a ha b hb e
      subst e
      obtain ⟨c, hc, rfl⟩ := List.mem_map.mp ha
      rw [List.mem_flatMap] at hb
      obtain ⟨nd2, hnd2, hb⟩ := hb
      obtain ⟨c2, hc2, e⟩ := List.mem_map.mp hb
      have e1 := ((isNode_child hS hj (hN.node nd (hsub nd (by simp)))).2.2 c hc).2
      have e2 := ((isNode_child hS hj (hN.node nd2 (hsub nd2 (by simp [hnd2])))).2.2 c2 hc2).2
      apply hp.1
      refine List.mem_map.mpr ⟨nd2, hnd2, ?_⟩
      rw [← e2, e, e1]
  · intro x hx
    rw [List.mem_filter, decide_eq_true_eq] at hx
    obtain ⟨nd, hnd, hp⟩ := List.mem_map.mp (hN.cover x hx.1)
    have hxr : x ∈ rowsAt j S nd.path := mem_rowsAt.mpr ⟨hx.1, hp.symm⟩
    have := (isNode_child hS hj (hN.node nd hnd)).2.1 x hxr
    obtain ⟨c, hc, e⟩ := List.mem_map.mp this
    refine List.mem_map.mpr ⟨c, List.mem_flatMap.mpr ⟨nd, ?_, hc⟩, e⟩
    rw [hmem]
    exact ⟨hnd, by rw [hf nd hnd x hxr]; exact hx.2⟩
  · intro c hc
    rw [List.mem_flatMap] at hc
    obtain ⟨nd, hnd, hc⟩ := hc
    have hI := ((isNode_child hS hj (hN.node nd ((hmem nd).mp hnd).1)).2.2 c hc).1
    have e := hrows nd hnd c hc
    exact ⟨by rw [e]; exact hI.ne, by rw [e]; exact hI.pp, by rw [e]; exact hI.count, by rw [e]; exact hI.kids⟩

/-- **The processors**: every node gets the pattern of its rows, and the tree is split when two rows
differ in some pattern. -/
theorem proc_spec (hL : LevelOK rt nested mcn m kw n OK F) : ∀ (rem j : Nat) (S : List Ins) (nodes : List PNode),
    j + rem + 1 = n → RowsOK OK n S → NodesOf n j S nodes → S ≠ [] →
    ∃ asg split, procLevel rt nested mcn m kw rem (j + 1) nodes = .ok (asg, split) ∧
      (∀ e ∈ asg, ∃ x ∈ S, ∃ k, k ≤ rem ∧ e.1 = x.keys.take (j + 1 + k) ∧ (labs F (rem + 1) j S x)[k]? = some e.2) ∧
      (∀ x ∈ S, ∀ k, k ≤ rem → ∃ q, (x.keys.take (j + 1 + k), q) ∈ asg) ∧
      (split = true ↔ ∃ x ∈ S, ∃ y ∈ S, labs F (rem + 1) j S x ≠ labs F (rem + 1) j S y) := by
  intro rem
  induction rem with
  | zero =>
    intro j S nodes hn hS hN hne
    obtain ⟨st, h1, h2, h3⟩ := level_run hL (by omega) hS hN hne
    have hcfg : cfgAt mcn m kw n j = ⟨mcn, j + 1, true, m.pathDepth == j + 1, kw⟩ := by
      unfold cfgAt; rw [decide_eq_true (show j + 1 = n by omega)]
    rw [hcfg] at h1
    refine ⟨_, _, by
      unfold procLevel
      simp only [h1, bind, Except.bind, pure, Except.pure]
      rfl, ?_, ?_, ?_⟩
    · intro e he
      obtain ⟨nd, hnd, rfl⟩ := List.mem_map.mp he
      rw [mem_bucket_nodes] at hnd
      obtain ⟨x, hx⟩ := List.exists_mem_of_ne_nil _ (hN.node nd hnd).ne
      have hx' := mem_rowsAt.mp hx
      refine ⟨x, hx'.1, 0, by omega, hx'.2.symm, ?_⟩
      have := h2 nd hnd x hx
      simp only [labs, List.getElem?_cons_zero]
      rw [← this]; rfl
    · intro x hx k hk
      obtain ⟨nd, hnd, hp⟩ := List.mem_map.mp (hN.cover x hx)
      have : k = 0 := by omega
      subst this
      exact ⟨_, List.mem_map.mpr ⟨nd, mem_bucket_nodes.mpr hnd, by rw [hp]⟩⟩
    · rw [decide_eq_true_eq, h3]
      simp [labs]
  | succ rem ih =>
    intro j S nodes hn hS hN hne
    obtain ⟨st, h1, h2, h3⟩ := level_run hL (by omega) hS hN hne
    have hcfg : cfgAt mcn m kw n j = ⟨mcn, j + 1, false, m.pathDepth == j + 1, kw⟩ := by
      unfold cfgAt; rw [decide_eq_false (show ¬ j + 1 = n by omega)]
    rw [hcfg] at h1
    -- the groups
    have hgroups := groupBy_eq (fun nd : PNode => st.assign.pattern nd.data.pp.piece) ((rt.bucket nodes).flatMap (·.nodes))
    have hsub : ∀ g ∈ (groupBy (fun nd : PNode => st.assign.pattern nd.data.pp.piece)
        ((rt.bucket nodes).flatMap (·.nodes))).map (·.2),
        ∃ r, procLevel rt nested mcn m kw rem (j + 1 + 1) (g.flatMap childNodes) = .ok r ∧
          ∃ x0 ∈ S, (∀ nd ∈ g, nd ∈ nodes ∧ st.assign.pattern nd.pc = lab F j S x0) ∧
            (∀ e ∈ r.1, ∃ x ∈ nxt F j S x0, ∃ k, k ≤ rem ∧ e.1 = x.keys.take (j + 1 + 1 + k) ∧
              (labs F (rem + 1) (j + 1) (nxt F j S x0) x)[k]? = some e.2) ∧
            (∀ x ∈ nxt F j S x0, ∀ k, k ≤ rem → ∃ q, (x.keys.take (j + 1 + 1 + k), q) ∈ r.1) ∧
            (r.2 = true ↔ ∃ x ∈ nxt F j S x0, ∃ y ∈ nxt F j S x0,
              labs F (rem + 1) (j + 1) (nxt F j S x0) x ≠ labs F (rem + 1) (j + 1) (nxt F j S x0) y) := by
      intro g hg
      obtain ⟨⟨q, g'⟩, hkg, rfl⟩ := List.mem_map.mp hg
      obtain ⟨hq, hg'⟩ := mem_groupBy hkg
      obtain ⟨nd0, hnd0, hq0⟩ := List.mem_map.mp hq
      rw [mem_bucket_nodes] at hnd0
      obtain ⟨x0, hx0⟩ := List.exists_mem_of_ne_nil _ (hN.node nd0 hnd0).ne
      have hx0S := (mem_rowsAt.mp hx0).1
      have hq' : lab F j S x0 = q := by rw [← h2 nd0 hnd0 x0 hx0]; exact hq0
      have hN' := next_nodes (n := n) (OK := OK) (F := F) (show j + 1 < n by omega) hS hN
        (fun nd => st.assign.pattern nd.pc) h2 q g'
        (by rw [hg']; exact (bucket_nodes_perm rt nodes).filter _)
      have hSub : S.filter (fun x => decide (lab F j S x = q)) = nxt F j S x0 := by unfold nxt; rw [hq']
      rw [hSub] at hN'
      obtain ⟨asg, split, e1, e2, e3, e4⟩ := ih (j + 1) (nxt F j S x0) (g'.flatMap childNodes) (by omega)
        (hS.sub hL.mono (fun x hx => (List.mem_filter.mp hx).1)) hN'
        (List.ne_nil_of_mem (a := x0) (List.mem_filter.mpr ⟨hx0S, by simp⟩))
      refine ⟨_, e1, x0, hx0S, ?_, e2, e3, e4⟩
      intro nd hnd
      rw [hg', List.mem_filter, mem_bucket_nodes, decide_eq_true_eq] at hnd
      exact ⟨hnd.1, by rw [hq']; exact hnd.2⟩
    obtain ⟨subs, hm1, hm2, hm3, hm4⟩ := mapM_post hsub
    -- every row lies in some group
    have hrow : ∀ x ∈ S, ∃ r ∈ subs, ∃ x0 ∈ S, lab F j S x = lab F j S x0 ∧
        (∀ y ∈ nxt F j S x0, ∀ k, k ≤ rem → ∃ q, (y.keys.take (j + 1 + 1 + k), q) ∈ r.1) := by
      intro x hx
      obtain ⟨nd, hnd, hp⟩ := List.mem_map.mp (hN.cover x hx)
      have hg : ∃ g ∈ (groupBy (fun nd : PNode => st.assign.pattern nd.data.pp.piece)
          ((rt.bucket nodes).flatMap (·.nodes))).map (·.2), nd ∈ g := by
        refine ⟨_, List.mem_map.mpr ⟨_, by rw [hgroups]; exact List.mem_map.mpr ⟨st.assign.pattern nd.data.pp.piece,
          mem_uniq.mpr (List.mem_map.mpr ⟨nd, mem_bucket_nodes.mpr hnd, rfl⟩), rfl⟩, rfl⟩, ?_⟩
        rw [List.mem_filter, mem_bucket_nodes]
        exact ⟨hnd, by simp⟩
      obtain ⟨g, hg, hndg⟩ := hg
      obtain ⟨r, hr, x0, hx0, h4, _, h6, _⟩ := hm3 g hg
      refine ⟨r, hr, x0, hx0, ?_, h6⟩
      rw [← (h4 nd hndg).2, h2 nd hnd x (mem_rowsAt.mpr ⟨hx, hp.symm⟩)]
    have hmem_nxt : ∀ x ∈ S, ∀ x0 ∈ S, x ∈ nxt F j S x0 ↔ lab F j S x = lab F j S x0 := by
      intro x hx x0 _; unfold nxt; rw [List.mem_filter, decide_eq_true_eq]; simp [hx]
    refine ⟨_, _, by
      unfold procLevel
      simp only [h1, bind, Except.bind, pure, Except.pure]
      rw [hm1], ?_, ?_, ?_⟩
    · intro e he
      rw [List.mem_append] at he
      rcases he with he | he
      · obtain ⟨nd, hnd, rfl⟩ := List.mem_map.mp he
        rw [mem_bucket_nodes] at hnd
        obtain ⟨x, hx⟩ := List.exists_mem_of_ne_nil _ (hN.node nd hnd).ne
        have hx' := mem_rowsAt.mp hx
        refine ⟨x, hx'.1, 0, by omega, hx'.2.symm, ?_⟩
        rw [labs, List.getElem?_cons_zero, ← h2 nd hnd x hx]; rfl
      · rw [List.mem_flatMap] at he
        obtain ⟨r, hr, he⟩ := he
        obtain ⟨g, hg, x0, hx0, _, h5, _, _⟩ := hm4 r hr
        obtain ⟨x, hx, k, hk, e1, e2⟩ := h5 e he
        have hxS := (List.mem_filter.mp hx).1
        refine ⟨x, hxS, k + 1, by omega, by rw [e1]; congr 1; omega, ?_⟩
        rw [labs, List.getElem?_cons_succ, nxt_congr ((hmem_nxt x hxS x0 hx0).mp hx)]
        exact e2
    · intro x hx k hk
      cases k with
      | zero =>
        obtain ⟨nd, hnd, hp⟩ := List.mem_map.mp (hN.cover x hx)
        exact ⟨_, List.mem_append_left _ (List.mem_map.mpr ⟨nd, mem_bucket_nodes.mpr hnd, by rw [hp]⟩)⟩
      | succ k =>
        obtain ⟨r, hr, x0, hx0, e, h6⟩ := hrow x hx
        obtain ⟨q, hq⟩ := h6 x ((hmem_nxt x hx x0 hx0).mpr e) k (by omega)
        refine ⟨q, List.mem_append_right _ (List.mem_flatMap.mpr ⟨r, hr, ?_⟩)⟩
        rwa [show j + 1 + (k + 1) = j + 1 + 1 + k by omega]
    · -- splitting
      by_cases hnum : st.patternNum > 1
      · rw [if_pos hnum]
        obtain ⟨x, hx, y, hy, hd⟩ := h3.mp hnum
        refine ⟨fun _ => ⟨x, hx, y, hy, ?_⟩, fun _ => rfl⟩
        intro e
        rw [labs, labs] at e
        injection e with e1 _
        exact hd e1
      · rw [if_neg hnum]
        have hall : ∀ x ∈ S, ∀ y ∈ S, lab F j S x = lab F j S y := by
          intro x hx y hy
          apply Classical.byContradiction
          intro hd
          exact hnum (h3.mpr ⟨x, hx, y, hy, hd⟩)
        have hone : subs.length = 1 := by
          rw [hm2, List.length_map, hgroups, List.length_map]
          obtain ⟨x0, hx0⟩ := List.exists_mem_of_ne_nil _ hne
          have hc : ∀ q ∈ ((rt.bucket nodes).flatMap (·.nodes)).map (fun nd : PNode => st.assign.pattern nd.data.pp.piece),
              q = lab F j S x0 := by
            intro q hq
            obtain ⟨nd, hnd, rfl⟩ := List.mem_map.mp hq
            rw [mem_bucket_nodes] at hnd
            obtain ⟨x, hx⟩ := List.exists_mem_of_ne_nil _ (hN.node nd hnd).ne
            have : st.assign.pattern nd.pc = lab F j S x := h2 nd hnd x hx
            unfold PNode.pc at this
            rw [this]
            exact hall x (mem_rowsAt.mp hx).1 x0 hx0
          obtain ⟨nd, hnd, hp⟩ := List.mem_map.mp (hN.cover x0 hx0)
          have hp := uniq_perm (xs := ((rt.bucket nodes).flatMap (·.nodes)).map
            (fun nd : PNode => st.assign.pattern nd.data.pp.piece)) (ys := [lab F j S x0]) (by
              intro q
              rw [List.mem_singleton]
              constructor
              · exact hc q
              · rintro rfl
                refine List.mem_map.mpr ⟨nd, mem_bucket_nodes.mpr hnd, ?_⟩
                exact h2 nd hnd x0 (mem_rowsAt.mpr ⟨hx0, hp.symm⟩))
          rw [hp.length_eq]; rfl
        match subs, hone, hm3, hm4, hrow with
        | [s], _, hm3, hm4, hrow =>
          simp only
          obtain ⟨g, hg, x0, hx0, _, _, _, h7⟩ := hm4 s (by simp)
          have hS' : nxt F j S x0 = S := by
            unfold nxt
            rw [List.filter_eq_self]
            intro y hy
            exact decide_eq_true (hall y hy x0 hx0)
          rw [hS'] at h7
          rw [h7]
          have hcons : ∀ x ∈ S, labs F (rem + 1 + 1) j S x = lab F j S x0 :: labs F (rem + 1) (j + 1) S x := by
            intro x hx
            rw [labs, nxt_congr (hall x hx x0 hx0), hS', hall x hx x0 hx0]
          constructor
          · rintro ⟨x, hx, y, hy, hd⟩
            refine ⟨x, hx, y, hy, ?_⟩
            rw [hcons x hx, hcons y hy]
            intro e; injection e with _ e; exact hd e
          · rintro ⟨x, hx, y, hy, hd⟩
            refine ⟨x, hx, y, hy, ?_⟩
            rw [hcons x hx, hcons y hy] at hd
            intro e; exact hd (by rw [e])

end OsUrl
