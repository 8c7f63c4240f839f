import Verif.Proofs.Limit
import Verif.Proofs.Cover
import Verif.Spec.Sizes

/-!
# How many frames are enough
-/

namespace OsUrl

open Spec

/-- `L` frames are enough for the result. -/
def EvB {α : Type} (L : Nat) (x : Nat → Py α) (y : Py α) : Prop := ∀ r, y = .ok r → ∀ l, L ≤ l → x l = .ok r

theorem EvB.const {α : Type} (L : Nat) (y : Py α) : EvB L (fun _ => y) y := fun _ h _ _ => h

theorem EvB.mono {α : Type} {L L' : Nat} {x : Nat → Py α} {y : Py α} (h : EvB L x y) (hl : L ≤ L') : EvB L' x y :=
  fun r hr l hl' => h r hr l (Nat.le_trans hl hl')

theorem EvB.bind {α β : Type} {L : Nat} {x : Nat → Py α} {y : Py α} {f : Nat → α → Py β} {g : α → Py β} (h : EvB L x y)
    (hf : ∀ a, y = .ok a → EvB L (fun l => f l a) (g a)) : EvB L (fun l => x l >>= f l) (y >>= g) := by
  intro r hr l hl
  obtain ⟨a, h1, h2⟩ := bind_ok hr
  show (x l >>= f l) = _
  rw [h a h1 l hl]
  exact hf a h1 r h2 l hl

theorem EvB.mapM {α β : Type} {L : Nat} {f : Nat → α → Py β} {g : α → Py β} {l : List α} (h : ∀ a ∈ l, EvB L (fun n => f n a) (g a)) :
    EvB L (fun n => l.mapM (f n)) (l.mapM g) := by
  induction l with
  | nil => simp only [List.mapM_nil]; exact EvB.const _ _
  | cons a l ih =>
    simp only [List.mapM_cons]
    exact EvB.bind (h a (by simp)) (fun b _ => EvB.bind (ih (fun x hx => h x (by simp [hx]))) (fun _ _ => EvB.const _ _))

theorem EvB.shift {α : Type} {L : Nat} {x : Nat → Py α} {y : Py α} (h : EvB L (fun l => x (l + 1)) y) : EvB (L + 1) x y := by
  intro r hr l hl
  cases l with
  | zero => omega
  | succ l => exact h r hr l (by omega)

/-- The nested clustering succeeds with `L` frames. -/
def NestB (L : Nat) (nl : Nat → NestedCluster) (n : NestedCluster) : Prop := ∀ mcn m kw t, EvB L (fun l => nl l mcn m kw t) (n mcn m kw t)

section
variable {nl : Nat → NestedCluster} {n : NestedCluster} {L : Nat}

theorem evB_multiBuckets (hn : NestB L nl n) (cfg : LevelCfg) (kw : Bool)
    (fwd : View → PieceBag → Route) (bs : List (List ViewBag)) (st : MultiSt) :
    EvB L (fun l => multiBuckets (nl l) cfg kw fwd bs st) (multiBuckets n cfg kw fwd bs st) := by
  induction bs generalizing st with
  | nil => exact EvB.const _ _
  | cons b bs ih =>
    obtain ⟨st, pats⟩ := st
    simp only [multiBuckets]
    by_cases h : vbCount b < cfg.mcn
    · simp only [if_pos h]; exact ih _
    · simp only [if_neg h]
      exact EvB.bind (EvB.const _ _) (fun t _ => EvB.bind (hn _ _ _ _) (fun r _ => EvB.bind (EvB.const _ _) (fun s _ => ih s)))

theorem evB_multiStage (hn : NestB L nl n) (cfg : LevelCfg) (kw : Bool)
    (fwd : View → PieceBag → Route) (items : List ViewBag) (st : LevelSt) :
    EvB L (fun l => multiStage (nl l) cfg kw fwd items st) (multiStage n cfg kw fwd items st) := by
  unfold multiStage
  exact EvB.bind (evB_multiBuckets hn _ _ _ _ _) (fun _ _ => EvB.const _ _)

theorem evB_stages (hn : NestB L nl n) (rt : Runtime) (cfg : LevelCfg) (b : Bucket) :
    EvB L (fun l => processStages rt (nl l) cfg b) (processStages rt n cfg b) := by
  unfold processStages
  exact EvB.bind (EvB.const _ _) (fun _ _ => EvB.bind (evB_multiStage hn _ _ _ _ _) (fun _ _ => EvB.bind (evB_multiStage hn _ _ _ _ _)
    (fun _ _ => EvB.bind (evB_multiStage hn _ _ _ _ _) (fun _ _ => EvB.const _ _))))

theorem evB_procLevel (hn : NestB L nl n) (rt : Runtime) (mcn : Int) (m : URLMeta) (kw : Bool)
    (rem level : Nat) (nodes : List PNode) :
    EvB (L + rem + 1) (fun lim => procLevelL rt nl mcn m kw lim rem level nodes) (procLevel rt n mcn m kw rem level nodes) := by
  induction rem generalizing level nodes with
  | zero =>
    refine EvB.shift ?_
    simp only [procLevelL, procLevel]
    exact EvB.bind ((evB_stages hn _ _ _).mono (by omega)) (fun _ _ => EvB.const _ _)
  | succ rem ih =>
    refine EvB.shift ?_
    simp only [procLevelL, procLevel]
    exact EvB.bind ((evB_stages hn _ _ _).mono (by omega))
      (fun _ _ => EvB.bind (EvB.mapM (fun g _ => (ih _ _).mono (by omega))) (fun _ _ => EvB.const _ _))

theorem evB_process (hn : NestB L nl n) (rt : Runtime) (mcn : Int) (m : URLMeta) (kw : Bool)
    (t : Tree NodeData) : EvB (L + m.depth + 1) (fun lim => processL rt nl mcn m kw lim t) (process rt n mcn m kw t) := by
  unfold processL process
  exact EvB.bind (evB_procLevel hn _ _ _ _ _ _ _) (fun _ _ => EvB.const _ _)

theorem evB_cluster (hn : NestB L nl n) (rt : Runtime) (mcn : Int) (m : URLMeta) (kw : Bool)
    (fuel : Nat) (t : Tree NodeData) :
    EvB (L + m.depth + 1 + fuel) (fun lim => (clusterGenL rt nl mcn m kw lim t).toPy) (clusterWith n rt mcn m kw fuel t) := by
  induction fuel generalizing t with
  | zero =>
    refine EvB.shift ?_
    simp only [clusterGenL, clusterWith]
    by_cases h : t.root.count ≤ 0
    · simp only [if_pos h]; exact EvB.const _ _
    · simp only [if_neg h]; intro r hr; cases hr
  | succ fuel ih =>
    refine EvB.shift (L := L + m.depth + 1 + fuel) ?_
    simp only [clusterGenL, clusterWith]
    by_cases h : t.root.count ≤ 0
    · simp only [if_pos h]; exact EvB.const _ _
    · simp only [if_neg h]
      intro r hr l hl
      obtain ⟨⟨t', split⟩, h1, hr⟩ := bind_ok hr
      have e := evB_process hn rt mcn m kw t _ h1 l (by omega)
      simp only at e
      cases split with
      | false =>
        simp only [Bool.false_eq_true, if_false] at hr
        simp only at e ⊢
        rw [e]
        exact hr
      | true =>
        simp only [if_true] at hr
        obtain ⟨subs, h2, hr⟩ := bind_ok hr
        obtain ⟨rs, h3, hr⟩ := bind_ok hr
        have e2 := EvB.mapM (f := fun l x => (clusterGenL rt nl mcn m kw l x).toPy) (fun x _ => ih x) rs h3 l (by omega)
        simp only at e2 ⊢
        rw [e]
        simp only [if_true, h2]
        rw [chain_toPy, e2]
        exact hr

end

/-- The nested clustering, for small trees only. -/
def smallNest (h : Runtime) (N K : Nat) : NestedCluster := fun mcn m kw t =>
  if t.paths.length ≤ N ∧ m.depth ≤ K then clusterNest h 1 mcn m kw t else .error .recursionError

theorem smallNest_ok (h : Runtime) (N K : Nat) : NestOK h (smallNest h N K) N K := by
  intro mcn kw n R hR h1 h2
  unfold smallNest
  rw [if_pos ⟨by rw [paths_length hR.normal hR.ne]; exact h1, by simpa [URLMeta.depth] using h2⟩]

theorem smallNest_frames (h : Runtime) (N K : Nat) :
    NestB (N + K + 2) (fun lim mcn m kw t => (clusterNestL h 1 lim mcn m kw t).toPy) (smallNest h N K) := by
  intro mcn m kw t
  unfold smallNest
  by_cases hs : t.paths.length ≤ N ∧ m.depth ≤ K
  · simp only [if_pos hs, clusterNestL, clusterNest]
    refine (evB_cluster (L := 0) ?_ h mcn m kw (t.paths.length + 1) t).mono (by omega)
    intro mcn m kw t r hr
    cases hr
  · simp only [if_neg hs]
    intro r hr; cases hr

/-- The pieces of a level are few and short. -/
def Small (N K : Nat) (ps : List ParsedPiece) : Prop := (uniq (ps.map (·.piece))).length ≤ N ∧ ∀ p ∈ ps, p.pieces.length ≤ K

theorem small_mono {N K : Nat} (A B : List ParsedPiece) (hs : ∀ a ∈ A, a ∈ B) (h : Small N K B) : Small N K A := by
  refine ⟨Nat.le_trans (nodup_len (nodup_uniq _) ?_) h.1, fun p hp => h.2 p (hs p hp)⟩
  intro x hx
  rw [mem_uniq] at hx ⊢
  obtain ⟨a, ha, rfl⟩ := List.mem_map.mp hx
  exact List.mem_map_of_mem (hs a ha)

/-- The level function, with a nested clustering for small trees only. -/
theorem small_level {h : Runtime} {mcn : Int} (hm : 2 ≤ mcn) (m : URLMeta) (kw : Bool) (n N K : Nat) :
    LevelOK h (smallNest h N (K + 1)) mcn m kw n (fun j ps => TopOK h m j ps ∧ Small N K ps) (topF mcn m kw n) :=
  top_level_nest hm m kw n small_mono (fun _ hs => ⟨N, K + 1, smallNest_ok h N (K + 1), hs.1, fun p hp => by have := hs.2 p hp; omega⟩)

/-- Frames that are enough for one sub-maker. -/
theorem maker_frames {md5 : Str → Str} {h : Runtime} {mcn : Int} (hm : 2 ≤ mcn) {hist : List (Str × Option Str)}
    (hc : NoCollision md5 (accepted hist)) (hh : NoHashClash h (UrlRow hist)) {N D K : Nat} (hs : Spec.Sizes hist N D K) {kv : Str × MakerSt}
    (hkv : kv ∈ loadAll md5 hist) {lim : Nat} (hl : 2 * N + D + K + 5 ≤ lim) :
    ∃ ts, (clusterNestL h 2 lim mcn kv.2.urlMeta false kv.2.tree).toPy = .ok ts := by
  obtain ⟨sid, mk⟩ := kv
  obtain ⟨r0, hr0, hsid, e, hall, hlen⟩ := mem_loadAll hc hkv
  subst e
  simp only
  have hg : ∀ r ∈ (accepted hist).filter (fun x => decide (x.sid md5 = sid)), r ∈ accepted hist := fun r hr => (List.mem_filter.mp hr).1
  have hne : (accepted hist).filter (fun x => decide (x.sid md5 = sid)) ≠ [] :=
    List.ne_nil_of_mem (List.mem_filter.mpr ⟨hr0, by simpa using hsid⟩)
  have hins := insOf_ne (md5 := md5) hr0 hsid
  generalize (accepted hist).filter (fun x => decide (x.sid md5 = sid)) = g at hall hlen hg hne hins
  obtain ⟨n, hn⟩ : ∃ n, r0.m.depth = n + 1 := ⟨r0.m.depth - 1, by have := (accepted_depth hr0).2; omega⟩
  obtain ⟨hok, hrow⟩ := rows_ok hh hne hg hall
  have hN : Normal r0.m.depth (norm (insOf g)) := norm_normal hlen
  have hne' := norm_ne_nil hins
  have hlp : (growTree r0.m.depth (insOf g)).paths.length = (norm (insOf g)).length := by
    rw [hn] at hlen hN ⊢
    rw [← growTree_norm n (insOf g) hlen, paths_growTree hne', growPaths_count hN hne']
  have hsep := hashSep_of (kw := false) hm hh hok hrow
  -- the sizes
  have hpps : ∀ x ∈ norm (insOf g), ∃ r ∈ g, x.path.map (·.1) = r.pps := by
    intro x hx
    obtain ⟨r, hr, hp⟩ := (norm_rows g x hx).path
    exact ⟨r, hr, by rw [hp]; simp [Function.comp_def]⟩
  have hcnt : (norm (insOf g)).length ≤ N := by
    have := hs.rows r0.m r0.rules ((norm (insOf g)).map (fun x => x.path.map (·.1))) (by
      apply nodup_of_map (f := fun row : List ParsedPiece => row.map (·.piece))
      rw [List.map_map]
      have e : ((fun row : List ParsedPiece => row.map (·.piece)) ∘ fun x : Ins => x.path.map (·.1)) = Ins.keys := by
        funext x; simp [Ins.keys, Function.comp_def]
      rw [e, norm_keys]
      exact nodup_uniq _) (by
      intro row hrow'
      obtain ⟨x, hx, rfl⟩ := List.mem_map.mp hrow'
      obtain ⟨r, hr, er⟩ := hpps x hx
      obtain ⟨u, hu, hp⟩ := mem_accepted.mp (hg r hr)
      rw [er]
      refine ⟨(hall r hr).2, u, r.md, hu, ?_⟩
      rw [hp, ← (hall r hr).1])
    rw [List.length_map] at this
    exact this
  have hsmall : RowsOK (fun j ps => TopOK h r0.m j ps ∧ Small N K ps) r0.m.depth (norm (insOf g)) := by
    refine ⟨hok.len, hok.pos, fun j hj => ⟨hok.ok j hj, ?_, ?_⟩, hok.inj⟩
    · refine Nat.le_trans (uniq_length_le _) ?_
      rw [List.length_map, List.length_map]; exact hcnt
    · intro p hp
      obtain ⟨x, hx, rfl⟩ := List.mem_map.mp hp
      obtain ⟨r, hr, er⟩ := hpps x hx
      obtain ⟨u, hu, hpu⟩ := mem_accepted.mp (hg r hr)
      refine (hs.pieces u _ _ _ hu hpu).2 _ ?_
      rw [← er]
      have hxl := hok.len x hx
      have hjx : j < x.path.length := by omega
      have : x.pp j = (x.path[j]).1 := by
        unfold Ins.pp
        simp [List.getElem?_eq_getElem hjx]
      rw [this]
      exact List.mem_map_of_mem (List.getElem_mem hjx)
  have hD : r0.m.depth ≤ D := by
    obtain ⟨u, hu, hpu⟩ := mem_accepted.mp hr0
    rw [← (accepted_depth hr0).1]
    exact (hs.pieces u _ _ _ hu hpu).1
  rw [hn] at hN hsmall hsep
  obtain ⟨Cs, h1, -⟩ := cluster_spec h (small_level (h := h) hm r0.m false (n + 1) N K) hm hn ((norm (insOf g)).length + 1) (norm (insOf g)) hN hsmall
    hne' (by omega) (by rw [norm_bare]; exact hsep)
  refine ⟨Cs.map (doneTree (n + 1)), ?_⟩
  have hfr := evB_cluster (smallNest_frames h N (K + 1)) h mcn r0.m false ((norm (insOf g)).length + 1) (growTree (n + 1) (norm (insOf g))) _ h1 lim
    (by omega)
  simp only [clusterNestL] at hfr ⊢
  rw [hn] at hlen ⊢
  rw [← growTree_norm n (insOf g) hlen]
  exact hfr

end OsUrl
