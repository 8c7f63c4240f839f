import Verif.Proofs.MultiStage2
import Verif.Proofs.Top2

/-! The clustering with an arbitrary `hash`: it runs into a `RecursionError` or divides its rows. -/

namespace OsUrl

/-- The run ends in a `RecursionError`, or returns something with `P`. -/
def RecOr {α : Type} (r : Py α) (P : α → Prop) : Prop := r = .error .recursionError ∨ ∃ a, r = .ok a ∧ P a

theorem RecOr.intro {α : Type} {r : Py α} {P : α → Prop} {a : α} (h : r = .ok a) (hp : P a) : RecOr r P := .inr ⟨a, h, hp⟩

theorem RecOr.mono {α : Type} {r : Py α} {P Q : α → Prop} (h : RecOr r P) (hpq : ∀ a, P a → Q a) : RecOr r Q := by
  rcases h with h | ⟨a, h, hp⟩
  · exact .inl h
  · exact .inr ⟨a, h, hpq a hp⟩

theorem RecOr.bind {α β : Type} {r : Py α} {f : α → Py β} {P : α → Prop} {Q : β → Prop} (h : RecOr r P)
    (hf : ∀ a, P a → RecOr (f a) Q) : RecOr (r >>= f) Q := by
  rcases h with h | ⟨a, h, hp⟩
  · left; rw [h]; rfl
  · rw [h]; exact hf a hp

theorem RecOr.mapM {α β γ : Type} {f : α → Py γ} {r : β → γ} {l : List α} {P : α → β → Prop}
    (h : ∀ a ∈ l, RecOr (f a) (fun c => ∃ b, c = r b ∧ P a b)) :
    RecOr (l.mapM f) (fun cs => ∃ ps : List (α × β), ps.map (·.1) = l ∧ cs = ps.map (fun p => r p.2) ∧ ∀ p ∈ ps, P p.1 p.2) := by
  induction l with
  | nil => exact .inr ⟨[], rfl, [], rfl, rfl, by simp⟩
  | cons a l ih =>
    rw [List.mapM_cons]
    refine (h a (by simp)).bind ?_
    rintro c ⟨b, rfl, hb⟩
    refine (ih (fun a ha => h a (by simp [ha]))).bind ?_
    rintro cs ⟨ps, h1, rfl, h3⟩
    refine .inr ⟨_, rfl, (a, b) :: ps, by simp [h1], by simp, ?_⟩
    intro p hp
    rw [List.mem_cons] at hp
    rcases hp with rfl | hp
    · exact hb
    · exact h3 p hp

/-- A level that assigns one pattern to all pieces when it counts at most one. -/
structure LevelAny (rt : Runtime) (nested : NestedCluster) (mcn : Int) (m : URLMeta) (kw : Bool) (n : Nat)
    (OK : Nat → List ParsedPiece → Prop) : Prop where
  mono : Mono OK
  run : ∀ j (bucket : Bucket), j < n → bucket ≠ [] → (bucket.map PieceBag.piece).Nodup →
    (∀ b ∈ bucket, 1 ≤ b.count) → OK j (bucket.map PieceBag.pp) →
    RecOr (processStages rt nested (cfgAt mcn m kw n j) bucket) (fun st => ¬ st.patternNum > 1 →
      ∀ b ∈ bucket, ∀ b' ∈ bucket, st.assign.pattern b.piece = st.assign.pattern b'.piece)

section
variable {rt : Runtime} {nested : NestedCluster} {mcn : Int} {m : URLMeta} {kw : Bool} {n : Nat}
  {OK : Nat → List ParsedPiece → Prop}

theorem LevelOK.any {F : LevelFn} (hL : LevelOK rt nested mcn m kw n OK F) : LevelAny rt nested mcn m kw n OK where
  mono := hL.mono
  run := by
    intro j bucket hj hne hnd hpos hok
    obtain ⟨st, h1, h2, h3⟩ := hL.run j bucket hj hne hnd hpos hok
    refine .inr ⟨st, h1, ?_⟩
    intro hnum b hb b' hb'
    rw [h2 b hb, h2 b' hb']
    apply Classical.byContradiction
    intro hd
    exact hnum (h3.mpr ⟨b, hb, b', hb', hd⟩)

/-- The stages of a processor, on rows. -/
theorem level_run_any (hL : LevelAny rt nested mcn m kw n OK) {j : Nat} {S : List Ins} {nodes : List PNode} (hj : j < n)
    (hS : RowsOK OK n S) (hN : NodesOf n j S nodes) (hne : S ≠ []) :
    RecOr (processStages rt nested (cfgAt mcn m kw n j) (rt.bucket nodes)) (fun st => ¬ st.patternNum > 1 →
      ∀ nd ∈ nodes, ∀ nd' ∈ nodes, st.assign.pattern nd.pc = st.assign.pattern nd'.pc) := by
  have hent := bucket_ent rt hS hj hN
  obtain ⟨x0, hx0⟩ := List.exists_mem_of_ne_nil _ hne
  obtain ⟨nd0, hnd0, _⟩ := List.mem_map.mp (hN.cover x0 hx0)
  obtain ⟨b0, hb0, _⟩ := node_bag rt hnd0
  refine (hL.run j (rt.bucket nodes) hj (List.ne_nil_of_mem hb0) (rtBucket_nodup rt nodes) ?_ ?_).mono ?_
  · intro b hb
    have hm : b.ent ∈ ent j S := hent.mem_iff.mp (List.mem_map.mpr ⟨b, hb, rfl⟩)
    unfold PieceBag.ent at hm
    rw [mem_ent] at hm
    rw [hm.2]
    obtain ⟨x, hx, e⟩ := List.mem_map.mp hm.1
    exact total_pos (fun y hy => hS.pos y (List.mem_filter.mp hy).1)
      (List.ne_nil_of_mem (List.mem_filter.mpr ⟨hx, by simp [e]⟩))
  · refine hL.mono j _ _ ?_ (hS.ok j hj)
    intro a ha
    obtain ⟨b, hb, rfl⟩ := List.mem_map.mp ha
    obtain ⟨x, hx, e⟩ := (bag_piece_eq hS hj hN hb).1
    exact List.mem_map.mpr ⟨x, hx, e.symm⟩
  · intro st h hnum nd hnd nd' hnd'
    obtain ⟨b, hb, e⟩ := node_bag rt hnd
    obtain ⟨b', hb', e'⟩ := node_bag rt hnd'
    rw [← e, ← e']
    exact h hnum b hb b' hb'

/-- What the processors say about the rows `S`. -/
structure ProcAny (S : List Ins) (rem j : Nat) (r : List (List Str × Str) × Bool) : Prop where
  from_ : ∀ e ∈ r.1, ∃ x ∈ S, ∃ k, k ≤ rem ∧ e.1 = x.keys.take (j + 1 + k)
  all : ∀ x ∈ S, ∀ k, k ≤ rem → ∃ q, (x.keys.take (j + 1 + k), q) ∈ r.1
  unif : r.2 = false → ∃ qs : List Str, qs.length = rem + 1 ∧ ∀ e ∈ r.1, ∀ k, e.1.length = j + 1 + k → qs[k]? = some e.2

theorem proc_any (hL : LevelAny rt nested mcn m kw n OK) : ∀ (rem j : Nat) (S : List Ins) (nodes : List PNode),
    j + rem + 1 = n → RowsOK OK n S → NodesOf n j S nodes → S ≠ [] →
    RecOr (procLevel rt nested mcn m kw rem (j + 1) nodes) (ProcAny S rem j) := by
  intro rem
  induction rem with
  | zero =>
    intro j S nodes hn hS hN hne
    have hplen : ∀ nd ∈ nodes, nd.path.length = j + 1 := by
      intro nd hnd
      obtain ⟨x, hx⟩ := List.exists_mem_of_ne_nil _ (hN.node nd hnd).ne
      have hx' := mem_rowsAt.mp hx
      rw [← hx'.2, List.length_take]
      have : x.keys.length = n := by simp [Ins.keys, hS.len x hx'.1]
      omega
    have h := level_run_any hL (by omega) hS hN hne
    have hcfg : cfgAt mcn m kw n j = ⟨mcn, j + 1, true, m.pathDepth == j + 1, kw⟩ := by
      unfold cfgAt; rw [decide_eq_true (show j + 1 = n by omega)]
    rw [hcfg] at h
    unfold procLevel
    refine h.bind ?_
    intro st hst
    refine .inr ⟨_, rfl, ?_, ?_, ?_⟩
    · intro e he
      obtain ⟨nd, hnd, rfl⟩ := List.mem_map.mp he
      rw [mem_bucket_nodes] at hnd
      obtain ⟨x, hx⟩ := List.exists_mem_of_ne_nil _ (hN.node nd hnd).ne
      have hx' := mem_rowsAt.mp hx
      exact ⟨x, hx'.1, 0, by omega, hx'.2.symm⟩
    · intro x hx k hk
      obtain ⟨nd, hnd, hp⟩ := List.mem_map.mp (hN.cover x hx)
      have : k = 0 := by omega
      subst this
      exact ⟨_, List.mem_map.mpr ⟨nd, mem_bucket_nodes.mpr hnd, by rw [hp]⟩⟩
    · intro hs
      have hs' := hst (of_decide_eq_false hs)
      obtain ⟨x0, hx0⟩ := List.exists_mem_of_ne_nil _ hne
      obtain ⟨nd0, hnd0, _⟩ := List.mem_map.mp (hN.cover x0 hx0)
      refine ⟨[st.assign.pattern nd0.pc], rfl, ?_⟩
      intro e he k hk
      obtain ⟨nd, hnd, rfl⟩ := List.mem_map.mp he
      rw [mem_bucket_nodes] at hnd
      simp only [hplen nd hnd] at hk
      have : k = 0 := by omega
      subst this
      simp only [List.getElem?_cons_zero, Option.some.injEq]
      exact hs' nd0 hnd0 nd hnd
  | succ rem ih =>
    intro j S nodes hn hS hN hne
    have hxlen : ∀ x ∈ S, x.keys.length = n := fun x hx => by simp [Ins.keys, hS.len x hx]
    have hplen : ∀ nd ∈ nodes, nd.path.length = j + 1 := by
      intro nd hnd
      obtain ⟨x, hx⟩ := List.exists_mem_of_ne_nil _ (hN.node nd hnd).ne
      have hx' := mem_rowsAt.mp hx
      rw [← hx'.2, List.length_take, hxlen x hx'.1]
      omega
    have h := level_run_any hL (by omega) hS hN hne
    have hcfg : cfgAt mcn m kw n j = ⟨mcn, j + 1, false, m.pathDepth == j + 1, kw⟩ := by
      unfold cfgAt; rw [decide_eq_false (show ¬ j + 1 = n by omega)]
    rw [hcfg] at h
    unfold procLevel
    refine h.bind ?_
    intro st hst
    have hF : ∀ nd ∈ nodes, ∀ x ∈ rowsAt j S nd.path,
        st.assign.pattern nd.pc = lab (fun _ _ p => st.assign.pattern p.piece) j S x := by
      intro nd hnd x hx
      unfold lab PNode.pc
      rw [(hN.node nd hnd).pp x hx]
    have hgroups := groupBy_eq (fun nd : PNode => st.assign.pattern nd.data.pp.piece) ((rt.bucket nodes).flatMap (·.nodes))
    have hsub : ∀ g ∈ (groupBy (fun nd : PNode => st.assign.pattern nd.data.pp.piece)
        ((rt.bucket nodes).flatMap (·.nodes))).map (·.2),
        RecOr (procLevel rt nested mcn m kw rem (j + 1 + 1) (g.flatMap childNodes)) (fun c => ∃ r, c = id r ∧
          ((∀ nd ∈ g, nd ∈ nodes) ∧ (∀ x ∈ S, ∀ nd ∈ g, x ∈ rowsAt j S nd.path →
            ∀ k, k ≤ rem → ∃ q, (x.keys.take (j + 1 + 1 + k), q) ∈ r.1) ∧
            (∀ e ∈ r.1, ∃ x ∈ S, ∃ k, k ≤ rem ∧ e.1 = x.keys.take (j + 1 + 1 + k)) ∧
            (r.2 = false → ∃ qs : List Str, qs.length = rem + 1 ∧
              ∀ e ∈ r.1, ∀ k, e.1.length = j + 1 + 1 + k → qs[k]? = some e.2))) := by
      intro g hg
      obtain ⟨⟨q, g'⟩, hkg, rfl⟩ := List.mem_map.mp hg
      obtain ⟨hq, hg'⟩ := mem_groupBy hkg
      obtain ⟨nd0, hnd0, hq0⟩ := List.mem_map.mp hq
      rw [mem_bucket_nodes] at hnd0
      obtain ⟨x0, hx0⟩ := List.exists_mem_of_ne_nil _ (hN.node nd0 hnd0).ne
      have hx0S := (mem_rowsAt.mp hx0).1
      have hq' : lab (fun _ _ p => st.assign.pattern p.piece) j S x0 = q := by rw [← hF nd0 hnd0 x0 hx0]; exact hq0
      have hN' := next_nodes (n := n) (OK := OK) (F := fun _ _ p => st.assign.pattern p.piece) (show j + 1 < n by omega) hS hN
        (fun nd => st.assign.pattern nd.pc) hF q g'
        (by rw [hg']; exact (bucket_nodes_perm rt nodes).filter _)
      refine (ih (j + 1) _ (g'.flatMap childNodes) (by omega)
        (hS.sub hL.mono (fun x hx => (List.mem_filter.mp hx).1)) hN'
        (List.ne_nil_of_mem (a := x0) (List.mem_filter.mpr ⟨hx0S, by simp [hq']⟩))).mono ?_
      intro r hr
      refine ⟨r, rfl, ?_, ?_, ?_, hr.unif⟩
      · intro nd hnd
        rw [hg', List.mem_filter, mem_bucket_nodes] at hnd
        exact hnd.1
      · intro x hx nd hnd hxr k hk
        refine hr.all x ?_ k hk
        rw [hg', List.mem_filter, mem_bucket_nodes, decide_eq_true_eq] at hnd
        rw [List.mem_filter, decide_eq_true_eq]
        exact ⟨hx, by rw [← hF nd hnd.1 x hxr]; exact hnd.2⟩
      · intro e he
        obtain ⟨x, hx, hr'⟩ := hr.from_ e he
        exact ⟨x, (List.mem_filter.mp hx).1, hr'⟩
    refine (RecOr.mapM hsub).bind ?_
    rintro subs ⟨ps, hps, rfl, hP⟩
    have hgmem : ∀ g ∈ (groupBy (fun nd : PNode => st.assign.pattern nd.data.pp.piece)
        ((rt.bucket nodes).flatMap (·.nodes))).map (·.2), ∃ p ∈ ps, p.1 = g := by
      intro g hg; rw [← hps] at hg; exact List.mem_map.mp hg
    have hingrp : ∀ nd ∈ nodes, ∃ p ∈ ps, nd ∈ p.1 := by
      intro nd hnd
      obtain ⟨p, hp, e⟩ := hgmem _ (List.mem_map.mpr ⟨_, by rw [hgroups]; exact List.mem_map.mpr ⟨st.assign.pattern nd.data.pp.piece,
          mem_uniq.mpr (List.mem_map.mpr ⟨nd, mem_bucket_nodes.mpr hnd, rfl⟩), rfl⟩, rfl⟩)
      refine ⟨p, hp, ?_⟩
      rw [e, List.mem_filter, mem_bucket_nodes]
      exact ⟨hnd, by simp⟩
    refine .inr ⟨_, rfl, ?_, ?_, ?_⟩
    · intro e he
      simp only [List.mem_append] at he
      rcases he with he | he
      · obtain ⟨nd, hnd, rfl⟩ := List.mem_map.mp he
        rw [mem_bucket_nodes] at hnd
        obtain ⟨x, hx⟩ := List.exists_mem_of_ne_nil _ (hN.node nd hnd).ne
        have hx' := mem_rowsAt.mp hx
        exact ⟨x, hx'.1, 0, by omega, hx'.2.symm⟩
      · rw [List.mem_flatMap] at he
        obtain ⟨r, hr, he⟩ := he
        obtain ⟨p, hp, rfl⟩ := List.mem_map.mp hr
        obtain ⟨x, hx, k, hk, e1⟩ := (hP p hp).2.2.1 e he
        exact ⟨x, hx, k + 1, by omega, by rw [e1]; congr 1; omega⟩
    · intro x hx k hk
      obtain ⟨nd, hnd, hpath⟩ := List.mem_map.mp (hN.cover x hx)
      cases k with
      | zero => exact ⟨_, List.mem_append_left _ (List.mem_map.mpr ⟨nd, mem_bucket_nodes.mpr hnd, by rw [hpath]⟩)⟩
      | succ k =>
        obtain ⟨p, hp, hndp⟩ := hingrp nd hnd
        obtain ⟨q, hq⟩ := (hP p hp).2.1 x hx nd hndp (mem_rowsAt.mpr ⟨hx, hpath.symm⟩) k (by omega)
        refine ⟨q, List.mem_append_right _ (List.mem_flatMap.mpr ⟨_, List.mem_map.mpr ⟨p, hp, rfl⟩, ?_⟩)⟩
        rwa [show j + 1 + (k + 1) = j + 1 + 1 + k by omega]
    · intro hs
      simp only at hs
      by_cases hnum : st.patternNum > 1
      · rw [if_pos hnum] at hs; cases hs
      · rw [if_neg hnum] at hs
        have hall := hst hnum
        obtain ⟨x0, hx0⟩ := List.exists_mem_of_ne_nil _ hne
        obtain ⟨nd0, hnd0, _⟩ := List.mem_map.mp (hN.cover x0 hx0)
        obtain ⟨p0, hp0, _⟩ := hingrp nd0 hnd0
        match ps, hp0, hP, hs with
        | [p], _, hP, hs =>
          simp only [List.map_cons, List.map_nil, id] at hs
          obtain ⟨qs, hl, hq⟩ := (hP p (by simp)).2.2.2 hs
          refine ⟨st.assign.pattern nd0.pc :: qs, by simp [hl], ?_⟩
          intro e he k hk
          simp only [List.mem_append, List.map_cons, List.map_nil, List.flatMap_cons, List.flatMap_nil, List.append_nil] at he
          rcases he with he | he
          · obtain ⟨nd, hnd, rfl⟩ := List.mem_map.mp he
            rw [mem_bucket_nodes] at hnd
            simp only [hplen nd hnd] at hk
            have : k = 0 := by omega
            subst this
            simp only [List.getElem?_cons_zero, Option.some.injEq]
            exact hall nd0 hnd0 nd hnd
          · obtain ⟨x, hx, k', hk', e1⟩ := (hP p (by simp)).2.2.1 e he
            have hlen := congrArg List.length e1
            rw [List.length_take, hxlen x hx] at hlen
            have : k = k' + 1 := by omega
            subst this
            rw [List.getElem?_cons_succ]
            exact hq e he k' (by omega)

end

end OsUrl
