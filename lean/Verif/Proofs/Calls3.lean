import Verif.Proofs.Calls2
import Verif.Proofs.ShortNest
import Verif.Props.C78

/-! The calls of `process` for one structure. -/

namespace OsUrl
open Spec

/-- `clusterNest h 1` that fails when it needs more calls than are expected. -/
def boundedNest (h : Runtime) : NestedCluster := fun mcn m kw t => do
  let ps ← passesWith (clusterNest h 0) h mcn m kw (t.paths.length + 1) 0 t
  if ps.length ≤ 2 * t.paths.length ∧ (ps.map (fun p => p.before.paths.length)).sum ≤ t.paths.length * t.paths.length ∧
      (((ps.filter (fun p => !p.split)).map Pass.after).map (fun c => c.paths.length)).sum ≤ t.paths.length then
    return (ps.filter (fun p => !p.split)).map Pass.after
  else .error .recursionError

theorem boundedNest_within (h : Runtime) {w : Tree NodeData → Nat} {B : Nat → Nat}
    (hw : ∀ (ps : List Pass) (k : Nat), ps.length ≤ 2 * k → (ps.map (fun p => p.before.paths.length)).sum ≤ k * k → (ps.map (fun p => w p.before)).sum ≤ B k) :
    Within w B (boundedNest h) (clusterNestC h 1 true) := by
  intro mcn m kw t r hr
  unfold boundedNest at hr
  obtain ⟨ps, h1, h2⟩ := bind_ok hr
  split at h2
  · rename_i hb
    injection h2 with h2
    subst h2
    obtain ⟨cs, g1, g2, g3, -⟩ := passes_calls (w := w) (B := fun _ => 0) (nc := clusterNestC h 0 true) (fun _ _ => Nat.le_refl _) (by
      intro mcn m kw t r hr
      cases hr) true h1
    refine ⟨cs, g1, ?_, hb.2.2, g3 rfl⟩
    simp only [Nat.mul_zero, Nat.add_zero] at g2
    exact Nat.le_trans g2 (hw ps _ hb.1 hb.2.1)
  · cases h2

theorem boundedNest_ok (h : Runtime) (N K : Nat) : NestOK h (boundedNest h) N K := by
  intro mcn kw n R hR _ _
  have hd : (⟨n + 1, [], false⟩ : URLMeta).depth = n + 1 := by simp [URLMeta.depth]
  have hlev := flat_level h (clusterNest h 0) hR.two ⟨n + 1, [], false⟩ kw (n + 1)
  have hpl := paths_length hR.normal hR.ne
  obtain ⟨ps, h1, h2⟩ := passes_spec h hlev hR.two hd (R.length + 1) 0 R hR.normal hR.rows hR.ne (by omega) hR.sep
  obtain ⟨Cs, h3, h4, h5, -⟩ := cluster_spec h hlev hR.two hd (R.length + 1) R hR.normal hR.rows hR.ne (by omega) hR.sep
  have he := passes_erase (nested := clusterNest h 0) (mcn := mcn) (m := ⟨n + 1, [], false⟩) (kw := kw) h (R.length + 1) 0 (growTree (n + 1) R)
  rw [h1, h3] at he
  have he : Cs.map (doneTree (n + 1)) = (ps.filter (fun p => !p.split)).map Pass.after := Except.ok.inj he
  have hsum : (((ps.filter (fun p => !p.split)).map Pass.after).map (fun c => c.paths.length)).sum ≤ R.length := by
    rw [← he, List.map_map]
    have e : Cs.map ((fun c => c.paths.length) ∘ doneTree (n + 1)) = Cs.map List.length := by
      refine List.map_congr_left (fun C hC => ?_)
      have hF := h5 C hC
      show (doneTree (n + 1) C).paths.length = C.length
      have hp : (doneTree (n + 1) C).paths = growPaths (n + 1) C := by rw [← paths_growTree hF.ne]; rfl
      rw [hp, growPaths_count hF.normal hF.ne]
    rw [e, ← List.length_flatten, ← List.length_map (f := Ins.bare), h4.length_eq, List.length_map]
    exact Nat.le_refl _
  have hlen : ps.length ≤ 2 * R.length := by
    have := h2.few
    have := h2.clusters
    have := pass_split_length ps
    omega
  have hwork : (ps.map (fun p => p.before.paths.length)).sum ≤ R.length * R.length :=
    Nat.le_trans h2.work (Nat.mul_le_mul_left _ h2.clusters)
  unfold boundedNest
  show _ = clusterWith (clusterNest h 0) h mcn ⟨n + 1, [], false⟩ kw ((growTree (n + 1) R).paths.length + 1) (growTree (n + 1) R)
  rw [hpl, passes_erase h _ 0, h1]
  simp only [bind, Except.bind]
  rw [if_pos ⟨hlen, hwork, hsum⟩]
  rfl

theorem bounded_level {h : Runtime} {mcn : Int} (hm : 2 ≤ mcn) (m : URLMeta) (kw : Bool) (n : Nat) :
    LevelOK h (boundedNest h) mcn m kw n (fun j ps => TopOK h m j ps ∧ True) (topF mcn m kw n) :=
  top_level_nest hm m kw n (Lim := fun _ => True) (fun _ _ _ _ => trivial)
    (fun ps _ => ⟨_, (ps.map (fun p => p.pieces.length + 1)).sum, boundedNest_ok h _ _, Nat.le_refl _,
      fun p hp => tot_mem (f := fun p : ParsedPiece => p.pieces.length + 1) hp⟩)

theorem supAdd_twice : SupAdd (fun k => 2 * k) := fun a b => by simp only; omega

theorem supAdd_square : SupAdd (fun k => k * k) := fun a b => by
  simp only [Nat.add_mul, Nat.mul_add]
  omega

theorem tot_mul {α : Type} (c : Nat) (f : α → Nat) (l : List α) : (l.map (fun a => c * f a)).sum = c * (l.map f).sum := by
  induction l with
  | nil => rfl
  | cons a l ih => simp only [List.map_cons, List.sum_cons, ih, Nat.mul_add]

/-- A nested clustering that fails less often gives the same calls. -/
theorem passes_mono {n n' : NestedCluster} {h : Runtime} {mcn : Int} {m : URLMeta} {kw : Bool}
    (hp : ∀ t r, process h n mcn m kw t = .ok r → process h n' mcn m kw t = .ok r) {fuel : Nat} : ∀ {d : Nat} {t : Tree NodeData} {ps : List Pass},
    passesWith n h mcn m kw fuel d t = .ok ps → passesWith n' h mcn m kw fuel d t = .ok ps := by
  induction fuel with
  | zero => intro d t ps h; exact h
  | succ fuel ih =>
    intro d t ps h1
    rw [passesWith] at h1 ⊢
    by_cases hc : t.root.count ≤ 0
    · rw [if_pos hc] at h1 ⊢; exact h1
    · rw [if_neg hc] at h1 ⊢
      obtain ⟨r, h2, h3⟩ := bind_ok h1
      obtain ⟨t', split⟩ := r
      rw [hp _ _ h2]
      simp only [bind, Except.bind] at h3 ⊢
      cases split with
      | false => exact h3
      | true =>
        simp only [if_true] at h3 ⊢
        cases hs : splitByPattern h t' with
        | error e => rw [hs] at h3; cases h3
        | ok subs =>
          rw [hs] at h3
          simp only at h3 ⊢
          cases hr : subs.mapM (passesWith n h mcn m kw fuel (d + 1)) with
          | error e => rw [hr] at h3; cases h3
          | ok rs =>
            rw [hr] at h3
            have key : ∀ (subs : List (Tree NodeData)) (rs : List (List Pass)), subs.mapM (passesWith n h mcn m kw fuel (d + 1)) = .ok rs →
                subs.mapM (passesWith n' h mcn m kw fuel (d + 1)) = .ok rs := by
              intro subs
              induction subs with
              | nil => intro rs h; exact h
              | cons s subs ihs =>
                intro rs h
                rw [List.mapM_cons] at h ⊢
                obtain ⟨a, ha, h⟩ := bind_ok h
                obtain ⟨b, hb, h⟩ := bind_ok h
                simp only [bind, Except.bind, ih ha, ihs b hb]
                exact h
            rw [key subs rs hr]
            exact h3

/-- What is known of the calls for one structure with `N` different URLs of `D` pieces. -/
structure CallsOK (N D : Nat) (ts : List (Tree NodeData)) (cs : List ProcCall) : Prop where
  some : 1 ≤ ts.length
  clusters : ts.length ≤ N
  outer : (cs.filter (fun c => !c.inner)).length ≤ 2 * ts.length - 1
  inner : (cs.filter (fun c => c.inner)).length ≤ 6 * (D + 1) * (N * ts.length)
  size : (cs.map (fun c => c.tree.paths.length)).sum ≤ N * ts.length + 3 * (D + 1) * (N * (N * ts.length))

theorem calls_group {h : Runtime} {mcn : Int} (hm : 2 ≤ mcn) {hist : List (Str × Option Str)} (hh : NoHashClash h (UrlRow hist)) {g : List Rec}
    {m : URLMeta} {rules : List Str} (hne : g ≠ []) (hg : ∀ r ∈ g, r ∈ accepted hist) (hall : ∀ r ∈ g, r.m = m ∧ r.rules = rules) :
    ∃ ts cs ps, MakerSt.makeC h mcn ⟨m, growTree m.depth (insOf g)⟩ = .ok (ts, cs) ∧ MakerSt.passes h mcn ⟨m, growTree m.depth (insOf g)⟩ = .ok ps ∧
      (cs.filter (fun c => !c.inner)).map ProcCall.tree = ps.map Pass.before ∧ CallsOK (uniq (g.map Rec.keys)).length m.depth ts cs := by
  obtain ⟨ps', hps', hK'⟩ := passes_group hm hh hne hg hall
  obtain ⟨r0, hr0⟩ := List.exists_mem_of_ne_nil _ hne
  obtain ⟨n, hn⟩ : ∃ n, m.depth = n + 1 := ⟨m.depth - 1, by
    have := (accepted_depth (hg r0 hr0)).2; rw [(hall r0 hr0).1] at this; omega⟩
  obtain ⟨hok, hrow⟩ := rows_ok hh hne hg hall
  have hlen : ∀ i ∈ insOf g, i.path.length = m.depth := insOf_length (fun r hr => by rw [(accepted_depth (hg r hr)).1, (hall r hr).1])
  have hN : Normal m.depth (norm (insOf g)) := norm_normal hlen
  have hins : insOf g ≠ [] := by
    intro e
    have := insOf_keys g
    rw [e] at this
    have h2 := congrArg List.length this
    simp at h2
    exact hne (List.eq_nil_of_length_eq_zero h2.symm)
  have hne' := norm_ne_nil hins
  have hlp : (growTree m.depth (insOf g)).paths.length = (norm (insOf g)).length := by
    rw [hn] at hlen hN ⊢
    rw [← growTree_norm n (insOf g) hlen, paths_growTree hne', growPaths_count hN hne']
  have hs := hashSep_of (kw := false) hm hh hok hrow
  have hok' : RowsOK (fun j ps => TopOK h m j ps ∧ True) m.depth (norm (insOf g)) :=
    ⟨hok.len, hok.pos, fun j hj => ⟨hok.ok j hj, trivial⟩, hok.inj⟩
  have hlen' := hlen
  rw [hn] at hN hok' hs hlen'
  obtain ⟨ps, h1, h2⟩ := passes_spec h (bounded_level (h := h) hm m false (n + 1)) hm hn ((norm (insOf g)).length + 1) 0 (norm (insOf g)) hN hok' hne'
    (by omega) (by rw [norm_bare]; exact hs)
  have htree : growTree (n + 1) (norm (insOf g)) = growTree m.depth (insOf g) := by
    rw [hn]; exact growTree_norm n (insOf g) hlen'
  rw [htree, ← hlp] at h1
  have hU : (norm (insOf g)).length = (uniq (g.map Rec.keys)).length := by
    rw [← List.length_map (f := Ins.keys), norm_keys, insOf_keys]
  rw [hU] at h2
  obtain ⟨cs, a1, a2, -, a4⟩ := passes_calls supAdd_twice (boundedNest_within h (w := fun _ => 1) (B := fun k => 2 * k)
    (fun ps k hk _ => by rw [ones_sum]; exact hk)) false h1
  obtain ⟨cs', b1, b2, -, -⟩ := passes_calls supAdd_square (boundedNest_within h (w := fun t => t.paths.length) (B := fun k => k * k)
    (fun ps k _ hk => hk)) false h1
  rw [a1] at b1
  obtain rfl : cs = cs' := (Prod.mk.inj (Except.ok.inj b1)).2
  have houter := a4 rfl
  -- the same calls as in `Model/Passes`
  have hpass : MakerSt.passes h mcn ⟨m, growTree m.depth (insOf g)⟩ = .ok ps := by
    refine passes_mono (n := boundedNest h) ?_ h1
    intro t r ht
    obtain ⟨c, e1, -, -⟩ := process_calls supAdd_twice (boundedNest_within h (w := fun _ => 1) (B := fun k => 2 * k)
      (fun ps k hk _ => by rw [ones_sum]; exact hk)) ht
    have e2 := processC_dr (fun mcn m kw t => clusterNestC_dr h 1 true mcn m kw t) h mcn m false t
    unfold Dr at e2
    rw [e1] at e2
    exact e2.symm
  have hlenK : ((ps.filter (fun p => !p.split)).map Pass.after).length = (ps.filter (fun p => !p.split)).length := List.length_map _
  have hlenO : (cs.filter (fun c => !c.inner)).length = ps.length := by
    have := congrArg List.length houter
    simpa using this
  have hsplit : cs.length = (cs.filter (fun c => c.inner)).length + (cs.filter (fun c => !c.inner)).length := by
    clear a1 a2 a4 b1 b2 houter hlenO
    induction cs with
    | nil => rfl
    | cons c cs ih =>
      rw [List.filter_cons, List.filter_cons]
      cases c.inner <;> simp <;> omega
  refine ⟨_, cs, ps, a1, hpass, houter, ?_, ?_, ?_, ?_, ?_⟩
  · rw [hlenK]; exact List.length_pos_iff.mpr h2.some
  · rw [hlenK]; exact h2.clusters
  · rw [hlenO, hlenK]
    have := h2.few
    have := pass_split_length ps
    omega
  · rw [hlenK]
    have e1 : wsum (fun _ => 1) cs = cs.length := by unfold wsum; exact ones_sum cs
    rw [e1, tot_add, ones_sum, hsplit, hlenO] at a2
    have e2 : (ps.map (fun p => 3 * (m.depth + 1) * (2 * p.before.paths.length))).sum = 6 * (m.depth + 1) * (ps.map (fun p => p.before.paths.length)).sum := by
      rw [← tot_mul]
      refine congrArg List.sum (List.map_congr_left (fun p _ => ?_))
      rw [← Nat.mul_assoc, Nat.mul_right_comm 3 _ 2]
    have e3 := Nat.mul_le_mul_left (6 * (m.depth + 1)) h2.work
    omega
  · rw [hlenK]
    have e1 : wsum (fun t => t.paths.length) cs = (cs.map (fun c => c.tree.paths.length)).sum := rfl
    rw [← e1]
    refine Nat.le_trans b2 ?_
    rw [tot_add]
    have e2 : (ps.map (fun p => 3 * (m.depth + 1) * (p.before.paths.length * p.before.paths.length))).sum ≤
        3 * (m.depth + 1) * ((uniq (g.map Rec.keys)).length * (ps.map (fun p => p.before.paths.length)).sum) := by
      rw [tot_mul, ← tot_mul (uniq (g.map Rec.keys)).length]
      refine Nat.mul_le_mul_left _ (tot_mono (fun p hp => Nat.mul_le_mul_right _ (h2.le p hp)))
    have e3 := Nat.mul_le_mul_left (3 * (m.depth + 1)) (Nat.mul_le_mul_left (uniq (g.map Rec.keys)).length h2.work)
    have := h2.work
    omega

end OsUrl
