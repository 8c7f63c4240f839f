import Verif.Proofs.Clu
import Verif.Proofs.Load2

/-! # C29: `min_cluster_num < 2` makes `make()` raise -/

namespace OsUrl
open Spec

/-- The processor of the root with `min_cluster_num = 1`: the only bag is large enough, and the look
back at the previous level fails because there is none. -/
theorem root_one (rt : Runtime) (nested : NestedCluster) (m : URLMeta) (rem : Nat) (t : Tree NodeData) (hc : 0 < t.root.count) :
    procLevel rt nested 1 m false rem 0 [⟨[], t.root, t.kids, none⟩] = .error .attributeError := by
  have hp : ∀ ll : Bool, processStages rt nested ⟨1, 0, ll, m.pathDepth == 0, false⟩
      (rt.bucket [⟨[], t.root, t.kids, none⟩]) = .error .attributeError := by
    intro ll
    have hb : rt.bucket [⟨[], t.root, t.kids, none⟩] = [⟨⟨[], t.root, t.kids, none⟩, []⟩] := rtBucket_one rt _
    have h1 : ¬ (t.root.count < 1) := by omega
    have h2 : ¬ (t.root.count - t.root.count ≥ 1) := by omega
    rw [hb]
    unfold processStages pieceStage
    simp [bind, Except.bind, pure, Except.pure, pieceLoop, PieceBag.count, PieceBag.pNodesCount, PieceBag.nodes,
      preSeek, h1]
  cases rem with
  | zero => rw [procLevel]; simp only [hp, bind, Except.bind]
  | succ r => rw [procLevel]; simp only [hp, bind, Except.bind]

/-- The processor of the root with `min_cluster_num ≤ 0`: the empty piece of the root is sent to the
base stage and a tree is built from no pieces. -/
theorem root_zero (rt : Runtime) (nested : NestedCluster) (mcn : Int) (hm : mcn ≤ 0) (m : URLMeta) (rem : Nat) (t : Tree NodeData)
    (hc : 0 < t.root.count) (hpp : t.root.pp = emptyParsedPiece) :
    procLevel rt nested mcn m false rem 0 [⟨[], t.root, t.kids, none⟩] = .error .unboundLocal := by
  have hp : ∀ ll : Bool, processStages rt nested ⟨mcn, 0, ll, m.pathDepth == 0, false⟩
      (rt.bucket [⟨[], t.root, t.kids, none⟩]) = .error .unboundLocal := by
    intro ll
    have hb : rt.bucket [⟨[], t.root, t.kids, none⟩] = [⟨⟨[], t.root, t.kids, none⟩, []⟩] := rtBucket_one rt _
    have h1 : ¬ (t.root.count < mcn) := by omega
    have h2 : t.root.count - t.root.count ≥ mcn := by omega
    have h3 : ¬ ((1 : Int) < mcn) := by omega
    rw [hb]
    unfold processStages pieceStage
    simp [bind, Except.bind, pure, Except.pure, pieceLoop, PieceBag.count, PieceBag.pNodesCount, PieceBag.nodes,
      h1, hm, h3, routePiece, PieceBag.pp, hpp, emptyParsedPiece, multiView, multiPieces, LevelSt.forward,
      multiStage, groupBy, Dict.upd, multiBuckets, vbCount, vbTree, buildFromParsedPieces]
  cases rem with
  | zero => rw [procLevel]; simp only [hp, bind, Except.bind]
  | succ r => rw [procLevel]; simp only [hp, bind, Except.bind]

theorem cluster_one (h : Runtime) (m : URLMeta) (t : Tree NodeData) (hc : 0 < t.root.count) :
    cluster h 1 m t = .error .attributeError := by
  have : ¬ t.root.count ≤ 0 := by omega
  unfold cluster
  rw [clusterNest]
  simp only
  rw [clusterWith, if_neg this]
  unfold process
  simp only [root_one _ _ _ _ t hc, bind, Except.bind]

theorem cluster_zero (h : Runtime) (mcn : Int) (hm : mcn ≤ 0) (m : URLMeta) (t : Tree NodeData) (hc : 0 < t.root.count)
    (hpp : t.root.pp = emptyParsedPiece) : cluster h mcn m t = .error .unboundLocal := by
  have : ¬ t.root.count ≤ 0 := by omega
  unfold cluster
  rw [clusterNest]
  simp only
  rw [clusterWith, if_neg this]
  unfold process
  simp only [root_zero _ _ mcn hm _ _ t hc hpp, bind, Except.bind]

/-- Every sub-maker holds at least one path below an empty root. -/
theorem loaded_root (md5 : Str → Str) (hist : List (Str × Option Str)) (hc : NoCollision md5 (accepted hist))
    {sid : Str} {mk : MakerSt} (h : (sid, mk) ∈ loadAll md5 hist) :
    0 < mk.tree.root.count ∧ mk.tree.root.pp = emptyParsedPiece := by
  obtain ⟨r, hr, hs, rfl, -, -⟩ := mem_loadAll hc h
  simp only
  rw [growTree_count, insOf_count, growTree_root_pp]
  refine ⟨?_, rfl⟩
  have : r.keys ∈ uniq (((accepted hist).filter (fun x => decide (x.sid md5 = sid))).map Rec.keys) :=
    mem_uniq.mpr (List.mem_map.mpr ⟨r, List.mem_filter.mpr ⟨hr, by simp [hs]⟩, rfl⟩)
  have := List.length_pos_of_mem this
  omega

/-- **C29**: with `min_cluster_num = 1`, `make()` raises `AttributeError` as soon as anything is loaded. -/
theorem C29_one (md5 : Str → Str) (h : Runtime) (hist : List (Str × Option Str))
    (hc : NoCollision md5 (accepted hist)) (hne : loadAll md5 hist ≠ []) :
    PatternMakerSt.make h 1 (loadAll md5 hist) = .error .attributeError := by
  obtain ⟨⟨sid, mk⟩, rest, e⟩ := List.exists_cons_of_ne_nil hne
  have hm : (sid, mk) ∈ loadAll md5 hist := by rw [e]; simp
  have hr := loaded_root md5 hist hc hm
  unfold PatternMakerSt.make
  rw [e, List.mapM_cons]
  simp only [MakerSt.make, cluster_one h mk.urlMeta mk.tree hr.1, bind, Except.bind]

/-- **C29**: with `min_cluster_num ≤ 0`, `make()` raises `UnboundLocalError` as soon as anything is loaded. -/
theorem C29_zero (md5 : Str → Str) (h : Runtime) (mcn : Int) (hmcn : mcn ≤ 0) (hist : List (Str × Option Str))
    (hc : NoCollision md5 (accepted hist)) (hne : loadAll md5 hist ≠ []) :
    PatternMakerSt.make h mcn (loadAll md5 hist) = .error .unboundLocal := by
  obtain ⟨⟨sid, mk⟩, rest, e⟩ := List.exists_cons_of_ne_nil hne
  have hm : (sid, mk) ∈ loadAll md5 hist := by rw [e]; simp
  have hr := loaded_root md5 hist hc hm
  unfold PatternMakerSt.make
  rw [e, List.mapM_cons]
  simp only [MakerSt.make, cluster_zero h mcn hmcn mk.urlMeta mk.tree hr.1 hr.2, bind, Except.bind]

/-- Nothing loaded: nothing raised. -/
example : PatternMakerSt.make (inserted fun _ => 0) 1 [] = .ok [] := by rfl
example : loadAll id [(c!"http://h/a", none), (c!"http://h/b", none)] ≠ [] := by decide +kernel
example : NoCollision id (accepted [(c!"http://h/a", none), (c!"http://h/b", none)]) := fun _ _ _ _ e => e
/-- With `min_cluster_num = 2` the same URLs are clustered. -/
example : ((PatternMakerSt.make (inserted fun s => s.length) 2 (loadAll id [(c!"http://h/a", none), (c!"http://h/b", none)])).map
    (·.length)) = .ok 1 := by decide +kernel

end OsUrl
