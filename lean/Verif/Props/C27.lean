import Verif.Proofs.PatRe
import Verif.Props.C39
import Verif.Proofs.Witness

/-! # C27: a cluster is a single URL or has at least `min_cluster_num` URLs -/

namespace OsUrl
open Spec

theorem litStop_small {mcn : Int} {E : List Ent} (hpos : ∀ e ∈ E, 1 ≤ e.2) (h : cntE E < mcn) : litStop mcn E = true := by
  unfold litStop
  rw [C39_small _ _ _ h]
  have : (E.length : Int) ≤ cntE E := by
    unfold cntE
    clear h
    induction E with
    | nil => simp
    | cons e E ih =>
      rw [List.map_cons, List.sum_cons, List.length_cons]
      have h1 := hpos e (by simp)
      have h2 := ih (fun e he => hpos e (by simp [he]))
      push_cast; omega
  simp; omega

/-- Few rows keep their literal texts. -/
theorem labs_small {h : Runtime} {mcn : Int} {m : URLMeta} {kw : Bool} {n k j : Nat} (hjk : j + k = n) {S : List Ins}
    (hS : RowsOK (TopOK h m) n S) (ht : total S < mcn) {x : Ins} (hx : x ∈ S) :
    labs (topF mcn m kw n) k j S x = x.keys.drop j := by
  have hl : x.keys.length = n := by rw [Ins.keys, List.length_map]; exact hS.len x hx
  induction k generalizing j S with
  | zero => rw [List.drop_eq_nil_of_le (by omega)]; rfl
  | succ k ih =>
    have hj : j < x.keys.length := by omega
    have hsub : total (nxt (topF mcn m kw n) j S x) ≤ total S := by
      have : ∀ (T : List Ins) (f : Ins → Bool), (∀ y ∈ T, 1 ≤ y.count) → total (T.filter f) ≤ total T := by
        intro T f
        induction T with
        | nil => intro _; simp
        | cons y T ihT =>
          intro hT
          have h1 := hT y (by simp)
          have h2 := ihT (fun y hy => hT y (by simp [hy]))
          by_cases hy : f y = true
          · rw [List.filter_cons_of_pos hy, total_cons, total_cons]; omega
          · rw [List.filter_cons_of_neg hy, total_cons]; omega
      exact this S _ hS.pos
    rw [labs, ih (j := j + 1) (by omega) (hS.sub (topOK_mono h m) nxt_sub) (by omega) (nxt_self hx), List.drop_eq_getElem_cons hj]
    congr 1
    have hstop : litStop mcn (ent j S) = true := by
      apply litStop_small (ent_ok hS (by omega)).2.1
      have := ent_total j S
      unfold cntE
      rw [this]; exact ht
    unfold lab topF
    rw [hstop]
    have hjp : j < x.path.length := by rw [hS.len x hx]; omega
    simp [Ins.pp, Ins.keys, List.getElem?_eq_getElem hjp]

/-- **C27**: a cluster has one path only, with its pieces as patterns, or at least `min_cluster_num` paths. -/
theorem C27_size (md5 : Str → Str) (h : Runtime) (mcn : Int) (hm : 2 ≤ mcn) (hist : List (Str × Option Str))
    (hc : NoCollision md5 (accepted hist)) (hh : NoHashClash h (UrlRow hist)) :
    ∃ cs, PatternMakerSt.make h mcn (loadAll md5 hist) = .ok cs ∧
      ∀ c ∈ cs, (∃ p, c.2.paths = [p] ∧ p.map (fun kn => kn.2.pattern) = p.map (·.1)) ∨ mcn ≤ c.2.paths.length := by
  obtain ⟨Ms, h1, h2, h3⟩ := make_all md5 hm hc hh
  refine ⟨_, h2, ?_⟩
  intro c hcm
  obtain ⟨M, hM, hMok, C, hC, e1, hK⟩ := mem_out h3 hcm
  by_cases hs : mcn ≤ c.2.paths.length
  · exact .inr hs
  left
  have hl := hK.rows.length_eq
  rw [List.length_map] at hl
  have hrows := cluster_rows hh hMok hK
  have htot : total (C.map Ins.bare) < mcn := by
    have h4 := hK.count
    have h5 : (growTree M.m.depth C).root.count = (C.map (·.count)).sum := growTree_count _ _
    have h6 : c.2.root.count = (growTree M.m.depth C).root.count := by rw [hK.eq]; rfl
    have h7 : total (C.map Ins.bare) = (C.map (·.count)).sum := by
      unfold total; rw [List.map_map]; rfl
    rw [h7, ← h5, ← h6, h4, ← hl]; omega
  have hlit : ∀ p ∈ c.2.paths, p.map (fun kn => kn.2.pattern) = p.map (·.1) := by
    intro p hp
    rw [path_pats hK hp, labs_small (Nat.zero_add _) hrows htot (List.mem_map_of_mem (row_of_path hK hp).1), List.drop_zero,
      bare_keys, hK.keys p hp]
  match e : c.2.paths with
  | [] =>
    rw [e] at hl
    exact absurd (List.eq_nil_of_length_eq_zero hl.symm) hK.final.ne
  | [p] => exact ⟨p, rfl, hlit p (by rw [e]; simp)⟩
  | p :: q :: ps =>
    exfalso
    have hp : p ∈ c.2.paths := by rw [e]; simp
    have hq : q ∈ c.2.paths := by rw [e]; simp
    have h4 := path_uniform hK hp hq
    rw [hlit p hp, hlit q hq, hK.keys p hp, hK.keys q hq] at h4
    have h5 := (hK.rows.map Ins.keys).nodup_iff.mpr hK.final.normal.nodup
    rw [e, List.map_cons, List.map_cons, List.map_cons, List.map_cons, List.nodup_cons] at h5
    exact h5.1 (by rw [h4]; simp)

/-- Three URLs of one form are one cluster, the two others stay apart. -/
example : showMade [c!"http://h/a/1", c!"http://h/b/2", c!"http://h/c/3", c!"http://h/x1", c!"http://h/y2"] 3 =
    .ok [([c!"[a-z]", c!"[0-9]"], [[c!"a", c!"1"], [c!"b", c!"2"], [c!"c", c!"3"]]), ([c!"x1"], [[c!"x1"]]), ([c!"y2"], [[c!"y2"]])] := by
  decide +kernel

end OsUrl
