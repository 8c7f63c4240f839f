import Verif.Model.Calls
import Verif.Proofs.Passes
import Verif.Proofs.MatchCost
import Verif.Proofs.Proc

/-! The calls of `process`, with those made by the multi stages. -/

namespace OsUrl
open Spec

/-! ### The list of calls does not change the result -/

/-- `y` is `x` without its second component. -/
def Dr {α β : Type} (x : Py (α × β)) (y : Py α) : Prop := Except.map Prod.fst x = y

theorem Dr.bind {α β γ δ : Type} {x : Py (α × β)} {y : Py α} {f : α × β → Py (γ × δ)} {g : α → Py γ} (h : Dr x y)
    (hf : ∀ a b, Dr (f (a, b)) (g a)) : Dr (x >>= f) (y >>= g) := by
  unfold Dr at h
  subst h
  cases x with
  | error e => rfl
  | ok r => exact hf r.1 r.2

theorem Dr.plain {α γ δ : Type} {y : Py α} {f : α → Py (γ × δ)} {g : α → Py γ} (hf : ∀ a, Dr (f a) (g a)) : Dr (y >>= f) (y >>= g) := by
  cases y with
  | error e => rfl
  | ok r => exact hf r

theorem Dr.mapM {α β γ δ ε : Type} {f : α → Py (β × γ)} {g : α → Py β} {l : List α} (h : ∀ a ∈ l, Dr (f a) (g a))
    {k : List (β × γ) → Py (δ × ε)} {k' : List β → Py δ} (hk : ∀ rs, Dr (k rs) (k' (rs.map (·.1)))) :
    Dr (l.mapM f >>= k) (l.mapM g >>= k') := by
  have e : Except.map (List.map Prod.fst) (l.mapM f) = l.mapM g := by
    clear hk
    induction l with
    | nil => rfl
    | cons a l ih =>
      have ih := ih (fun x hx => h x (by simp [hx]))
      have ha := h a (by simp)
      unfold Dr at ha
      rw [List.mapM_cons, List.mapM_cons, ← ih, ← ha]
      cases f a with
      | error e => rfl
      | ok b =>
        cases hl : l.mapM f with
        | error e => simp only [Bind.bind, Except.bind, Except.map, hl]
        | ok bs => simp only [Bind.bind, Except.bind, Except.map, Pure.pure, Except.pure, hl]; rfl
  rw [← e]
  cases hl : l.mapM f with
  | error e => rfl
  | ok rs => exact hk rs

theorem multiBucketsC_dr {nc : NestedCalls} {n : NestedCluster} (h : ∀ mcn m kw t, Dr (nc mcn m kw t) (n mcn m kw t)) (cfg : LevelCfg)
    (kw : Bool) (fwd : View → PieceBag → Route) (bs : List (List ViewBag)) (st : MultiSt) :
    Dr (multiBucketsC nc cfg kw fwd bs st) (multiBuckets n cfg kw fwd bs st) := by
  induction bs generalizing st with
  | nil => rfl
  | cons b bs ih =>
    obtain ⟨st, pats⟩ := st
    rw [multiBucketsC, multiBuckets]
    by_cases hc : vbCount b < cfg.mcn
    · rw [if_pos hc, if_pos hc]; exact ih _
    · rw [if_neg hc, if_neg hc]
      refine Dr.plain (fun t => Dr.bind (h _ _ _ _) (fun roots cs => Dr.plain (fun s => ?_)))
      have := ih s
      unfold Dr at this ⊢
      rw [← this]
      simp only
      cases multiBucketsC nc cfg kw fwd bs s <;> rfl

theorem multiStageC_dr {nc : NestedCalls} {n : NestedCluster} (h : ∀ mcn m kw t, Dr (nc mcn m kw t) (n mcn m kw t)) (cfg : LevelCfg)
    (kw : Bool) (fwd : View → PieceBag → Route) (items : List ViewBag) (st : LevelSt) :
    Dr (multiStageC nc cfg kw fwd items st) (multiStage n cfg kw fwd items st) := by
  unfold multiStageC multiStage
  exact Dr.bind (multiBucketsC_dr h cfg kw fwd _ _) (fun a b => rfl)

theorem processStagesC_dr {nc : NestedCalls} {n : NestedCluster} (h : ∀ mcn m kw t, Dr (nc mcn m kw t) (n mcn m kw t)) (rt : Runtime)
    (cfg : LevelCfg) (b : Bucket) : Dr (processStagesC rt nc cfg b) (processStages rt n cfg b) := by
  unfold processStagesC processStages
  refine Dr.plain (fun st => Dr.bind (multiStageC_dr h _ _ _ _ _) (fun _ _ => Dr.bind (multiStageC_dr h _ _ _ _ _) (fun _ _ =>
    Dr.bind (multiStageC_dr h _ _ _ _ _) (fun c _ => ?_))))
  simp only
  unfold Dr
  cases lengthFuzzyStage rt cfg c <;> rfl

theorem procLevelC_dr {nc : NestedCalls} {n : NestedCluster} (h : ∀ mcn m kw t, Dr (nc mcn m kw t) (n mcn m kw t)) (rt : Runtime)
    (mcn : Int) (m : URLMeta) (kw : Bool) (rem level : Nat) (nodes : List PNode) :
    Dr (procLevelC rt nc mcn m kw rem level nodes) (procLevel rt n mcn m kw rem level nodes) := by
  induction rem generalizing level nodes with
  | zero =>
    rw [procLevelC, procLevel]
    exact Dr.bind (processStagesC_dr h _ _ _) (fun _ _ => rfl)
  | succ rem ih =>
    rw [procLevelC, procLevel]
    exact Dr.bind (processStagesC_dr h _ _ _) (fun st _ => Dr.mapM (fun g _ => ih _ _) (fun rs => rfl))

theorem processC_dr {nc : NestedCalls} {n : NestedCluster} (h : ∀ mcn m kw t, Dr (nc mcn m kw t) (n mcn m kw t)) (rt : Runtime)
    (mcn : Int) (m : URLMeta) (kw : Bool) (t : Tree NodeData) : Dr (processC rt nc mcn m kw t) (process rt n mcn m kw t) := by
  unfold processC process
  exact Dr.bind (procLevelC_dr h _ _ _ _ _ _ _) (fun _ _ => rfl)

theorem clusterWithC_dr {nc : NestedCalls} {n : NestedCluster} (h : ∀ mcn m kw t, Dr (nc mcn m kw t) (n mcn m kw t)) (rt : Runtime)
    (inner : Bool) (mcn : Int) (m : URLMeta) (kw : Bool) (fuel : Nat) (t : Tree NodeData) :
    Dr (clusterWithC nc rt inner mcn m kw fuel t) (clusterWith n rt mcn m kw fuel t) := by
  induction fuel generalizing t with
  | zero =>
    rw [clusterWithC, clusterWith]
    by_cases hc : t.root.count ≤ 0
    · rw [if_pos hc, if_pos hc]; rfl
    · rw [if_neg hc, if_neg hc]; rfl
  | succ fuel ih =>
    rw [clusterWithC, clusterWith]
    by_cases hc : t.root.count ≤ 0
    · rw [if_pos hc, if_pos hc]; rfl
    · rw [if_neg hc, if_neg hc]
      refine Dr.bind (processC_dr h _ _ _ _ _) (fun r cs => ?_)
      obtain ⟨t', split⟩ := r
      cases split with
      | false => rfl
      | true =>
        simp only [if_true]
        refine Dr.plain (fun subs => Dr.mapM (fun s _ => ih s) (fun rs => ?_))
        simp [Dr, Except.map, pure, Except.pure, List.flatMap_def]

theorem clusterNestC_dr (rt : Runtime) (k : Nat) (inner : Bool) (mcn : Int) (m : URLMeta) (kw : Bool) (t : Tree NodeData) :
    Dr (clusterNestC rt k inner mcn m kw t) (clusterNest rt k mcn m kw t) := by
  induction k generalizing inner mcn m kw t with
  | zero => rfl
  | succ k ih => exact clusterWithC_dr (fun mcn m kw t => ih true mcn m kw t) rt inner mcn m kw _ t

/-! ### The size of the trees -/

theorem Tree.paths_pos {α : Type} (t : Tree α) : 0 < t.paths.length := by
  have key : ∀ f : Forest α, f ≠ .nil → 0 < f.paths.length := by
    intro f
    induction f with
    | nil => simp
    | cons k a kids sibs ih1 ih2 =>
      intro _
      cases kids with
      | nil => simp [Forest.paths]
      | cons k' a' kids' sibs' =>
        have := ih1 (by simp)
        rw [Forest.paths, List.length_append, List.length_map]
        omega
  unfold Tree.paths
  cases h : t.kids with
  | nil => simp
  | cons k a kids sibs => exact key _ (by simp)

theorem cons_leaves {α : Type} (k : Str) (a a' : α) (kids s : Forest α) :
    (Forest.cons k a kids s).paths.length = (Tree.mk a' kids).paths.length + s.paths.length := by
  unfold Tree.paths
  cases kids with
  | nil => simp [Forest.paths]; omega
  | cons => simp only [Forest.paths, List.length_append, List.length_map]

/-- The leaves below one node. -/
def leavesOf (n : PNode) : Nat := (Tree.mk n.data n.kids).paths.length

theorem childNodes_leaves (n : PNode) : ((childNodes n).map leavesOf).sum ≤ leavesOf n := by
  have key : ∀ f : Forest NodeData, ((f.children.map (fun (k, d, kids) => (⟨n.path ++ [k], d, kids, some (n.path, n.data.count)⟩ : PNode))).map leavesOf).sum
      = f.paths.length := by
    intro f
    induction f with
    | nil => rfl
    | cons k a kids sibs _ ih =>
      rw [Forest.children, List.map_cons, List.map_cons, List.sum_cons, ih]
      unfold leavesOf Tree.paths
      cases kids with
      | nil => simp [Forest.paths]; omega
      | cons k' a' kids' sibs' => simp only [Forest.paths, List.length_append, List.length_map]
  unfold childNodes
  rw [key]
  unfold leavesOf Tree.paths
  cases h : n.kids with
  | nil => simp [Forest.paths]
  | cons k a kids sibs => exact Nat.le_refl _

theorem buildPath_leaves (count : Int) (fin : NodeData → NodeData) (ps : List (ParsedPiece × Option Str)) (d d' : NodeData) (f : Forest NodeData) :
    (Tree.mk d' (buildPath count fin ps d f).2).paths.length ≤ f.paths.length + 1 := by
  induction ps generalizing d d' f with
  | nil =>
    unfold buildPath Tree.paths
    cases f with
    | nil => simp [Forest.paths]
    | cons => simp
  | cons p ps ih =>
    obtain ⟨pp, pat⟩ := p
    rw [buildPath]
    simp only
    have key : ∀ f : Forest NodeData, (f.upsert pp.piece (newNode pp pat) (buildPath count fin ps)).paths.length ≤ f.paths.length + 1 := by
      intro f
      induction f with
      | nil =>
        have := ih (newNode pp pat) (newNode pp pat) .nil
        unfold Tree.paths at this
        rw [Forest.upsert]
        generalize buildPath count fin ps (newNode pp pat) .nil = r at this
        obtain ⟨a, kids⟩ := r
        cases kids with
        | nil => simp [Forest.paths]
        | cons => simpa [Forest.paths] using this
      | cons k a kids sibs _ ih2 =>
        rw [Forest.upsert]
        by_cases hk : k = pp.piece
        · rw [if_pos hk]
          have := ih a a kids
          unfold Tree.paths at this
          generalize buildPath count fin ps a kids = r at this
          obtain ⟨a', kids'⟩ := r
          simp only at this ⊢
          rw [cons_leaves k a a, cons_leaves k a' a']
          have h3 : kids.paths.length ≤ (Tree.mk a kids).paths.length := by
            unfold Tree.paths
            cases kids <;> simp [Forest.paths]
          have h4 : (Tree.mk a' kids').paths.length ≤ kids.paths.length + 1 := this
          omega
        · rw [if_neg hk]
          rw [cons_leaves k a a, cons_leaves k a a]
          omega
    have h0 := key f
    unfold Tree.paths
    simp only
    split
    · rename_i e
      simp
    · exact h0

theorem vbTree_leaves (items : List ViewBag) (t0 t : Tree NodeData) (h : vbTree items t0 = .ok t) (hne : items ≠ []) :
    t.paths.length ≤ t0.kids.paths.length + items.length := by
  induction items generalizing t0 with
  | nil => exact absurd rfl hne
  | cons vb items ih =>
    obtain ⟨v, b⟩ := vb
    rw [vbTree] at h
    obtain ⟨r, hr, h⟩ := bind_ok h
    obtain ⟨t1, new⟩ := r
    simp only at h
    have h1 : t1.paths.length ≤ t0.kids.paths.length + 1 ∧ t1.kids.paths.length ≤ t1.paths.length := by
      constructor
      · unfold buildFromParsedPieces at hr
        split at hr
        · cases hr
        · simp only [Bool.false_and, Bool.false_eq_true, if_false] at hr
          injection hr with hr
          injection hr with hr _
          subst hr
          exact buildPath_leaves b.count _ _ t0.root _ t0.kids
      · unfold Tree.paths
        cases t1.kids <;> simp [Forest.paths]
    cases items with
    | nil =>
      rw [vbTree] at h
      injection h with h
      subst h
      simp; omega
    | cons vb' items =>
      have := ih t1 h (by simp)
      simp only [List.length_cons] at this ⊢
      omega

end OsUrl
