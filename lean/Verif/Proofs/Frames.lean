import Verif.Model.Frames
import Verif.Proofs.ShortNest

/-! All frames counted: no more is found than with the frames of the recursive functions only, and how many are enough. -/

namespace OsUrl
open Spec

/-! ### fewer frames -/

/-- The same, or out of frames. -/
def Less {α : Type} (x y : Py α) : Prop := x = y ∨ x = .error .recursionError

theorem Less.refl {α : Type} (x : Py α) : Less x x := .inl rfl

theorem Less.bind {α β : Type} {x y : Py α} {f g : α → Py β} (h : Less x y) (hf : ∀ a, Less (f a) (g a)) : Less (x >>= f) (y >>= g) := by
  rcases h with rfl | rfl
  · cases x with
    | error e => exact .inl rfl
    | ok a => exact hf a
  · exact .inr rfl

theorem Less.mapM {α β : Type} {f g : α → Py β} (h : ∀ a, Less (f a) (g a)) : ∀ l : List α, Less (l.mapM f) (l.mapM g)
  | [] => by rw [List.mapM_nil, List.mapM_nil]; exact Less.refl _
  | a :: l => by
    rw [List.mapM_cons, List.mapM_cons]
    exact Less.bind (h a) (fun b => Less.bind (Less.mapM h l) (fun _ => Less.refl _))

/-- The nested clustering with fewer frames. -/
def NestLess (nf nl : NestedCluster) : Prop := ∀ mcn m kw t, Less (nf mcn m kw t) (nl mcn m kw t)

section
variable {nf nl : NestedCluster}

theorem less_multiBuckets (hn : NestLess nf nl) (cfg : LevelCfg) (kw : Bool) (fwd : View → PieceBag → Route)
    (bs : List (List ViewBag)) (st : MultiSt) : Less (multiBuckets nf cfg kw fwd bs st) (multiBuckets nl cfg kw fwd bs st) := by
  induction bs generalizing st with
  | nil => exact Less.refl _
  | cons b bs ih =>
    obtain ⟨st, pats⟩ := st
    rw [multiBuckets, multiBuckets]
    by_cases h : vbCount b < cfg.mcn
    · rw [if_pos h, if_pos h]; exact ih _
    · rw [if_neg h, if_neg h]
      exact Less.bind (Less.refl _) (fun t => Less.bind (hn _ _ _ _) (fun r => Less.bind (Less.refl _) (fun s => ih s)))

theorem less_multiStage (hn : NestLess nf nl) (cfg : LevelCfg) (kw : Bool) (fwd : View → PieceBag → Route)
    (items : List ViewBag) (st : LevelSt) : Less (multiStage nf cfg kw fwd items st) (multiStage nl cfg kw fwd items st) := by
  unfold multiStage
  exact Less.bind (less_multiBuckets hn _ _ _ _ _) (fun _ => Less.refl _)

theorem less_stages (hn : NestLess nf nl) (rt : Runtime) (cfg : LevelCfg) (b : Bucket) :
    Less (processStages rt nf cfg b) (processStages rt nl cfg b) := by
  unfold processStages
  exact Less.bind (Less.refl _) (fun _ => Less.bind (less_multiStage hn _ _ _ _ _) (fun _ => Less.bind (less_multiStage hn _ _ _ _ _)
    (fun _ => Less.bind (less_multiStage hn _ _ _ _ _) (fun _ => Less.refl _))))

end

section
variable {nf nl : Nat → NestedCluster}

theorem less_procLevel (hn : ∀ l l', l ≤ l' → NestLess (nf l) (nl l')) (rt : Runtime) (H : Nat) (mcn : Int) (m : URLMeta) (kw : Bool)
    (lim lim' : Nat) (hl : lim ≤ lim') (rem level : Nat) (nodes : List PNode) :
    Less (procLevelF rt H nf mcn m kw lim rem level nodes) (procLevelL rt nl mcn m kw lim' rem level nodes) := by
  induction lim generalizing lim' rem level nodes with
  | zero => right; cases rem <;> rfl
  | succ lim ih =>
    obtain ⟨lim', rfl⟩ : ∃ k, lim' = k + 1 := ⟨lim' - 1, by omega⟩
    have hl : lim ≤ lim' := by omega
    cases rem with
    | zero =>
      rw [procLevelL, procLevelF]
      by_cases h : lim < H
      · rw [if_pos h]; exact .inr rfl
      · rw [if_neg h, procLevel, procLevel]
        exact Less.bind (less_stages (hn _ _ hl) _ _ _) (fun _ => Less.refl _)
    | succ rem =>
      rw [procLevelL, procLevelF]
      by_cases h : lim < H
      · rw [if_pos h]; exact .inr rfl
      · rw [if_neg h]
        exact Less.bind (less_stages (hn _ _ hl) _ _ _) (fun _ => Less.bind (Less.mapM (fun g => ih lim' hl _ _ _) _) (fun _ => Less.refl _))

theorem less_process (hn : ∀ l l', l ≤ l' → NestLess (nf l) (nl l')) (rt : Runtime) (H : Nat) (mcn : Int) (m : URLMeta) (kw : Bool)
    (lim lim' : Nat) (hl : lim ≤ lim') (t : Tree NodeData) : Less (processF rt H nf mcn m kw lim t) (processL rt nl mcn m kw lim' t) := by
  cases lim with
  | zero => exact .inr rfl
  | succ lim =>
    unfold processF processL
    exact Less.bind (less_procLevel hn rt H mcn m kw lim lim' (by omega) _ _ _) (fun _ => Less.refl _)

end

/-- The same generator, or one that runs out of frames after a part of the results. -/
def GenLess {α : Type} (g g' : Gen α) : Prop := g = g' ∨ (g.2 = some .recursionError ∧ g.1 <+: g'.1)

theorem GenLess.refl {α : Type} (g : Gen α) : GenLess g g := .inl rfl

theorem GenLess.out {α : Type} (g : Gen α) : GenLess ([], some .recursionError) g := .inr ⟨rfl, List.nil_prefix⟩

theorem GenLess.toPy {α : Type} {g g' : Gen α} (h : GenLess g g') : Less g.toPy g'.toPy := by
  rcases h with rfl | ⟨h1, -⟩
  · exact .inl rfl
  · right; unfold Gen.toPy; rw [h1]

theorem GenLess.chain {α β : Type} {f g : β → Gen α} (h : ∀ x, GenLess (f x) (g x)) : ∀ l : List β, GenLess (Gen.chain f l) (Gen.chain g l)
  | [] => .inl rfl
  | b :: l => by
    have ih := GenLess.chain h l
    rw [Gen.chain, Gen.chain]
    rcases h b with e | ⟨e, hp⟩
    · rw [e]
      cases hg : g b with
      | mk x o =>
        cases o with
        | some e => exact .inl rfl
        | none =>
          simp only
          rcases ih with e | ⟨e, hp⟩
          · left; rw [e]
          · right; exact ⟨e, (List.prefix_append_right_inj x).mpr hp⟩
    · cases hf : f b with
      | mk x o =>
        rw [hf] at e hp
        simp only at e hp
        subst e
        right
        refine ⟨rfl, ?_⟩
        cases hg : g b with
        | mk y o =>
          rw [hg] at hp
          cases o with
          | some e => exact hp
          | none => exact hp.trans (List.prefix_append _ _)

theorem GenLess.map {α β : Type} {g g' : Gen α} (h : GenLess g g') (f : α → β) : GenLess (g.1.map f, g.2) (g'.1.map f, g'.2) := by
  rcases h with rfl | ⟨h1, h2⟩
  · exact .inl rfl
  · exact .inr ⟨h1, h2.map f⟩

theorem less_cluster {nf nl : Nat → NestedCluster} (hn : ∀ l l', l ≤ l' → NestLess (nf l) (nl l')) (rt : Runtime) (H : Nat) (mcn : Int) (m : URLMeta)
    (kw : Bool) (lim lim' : Nat) (hl : lim ≤ lim') (t : Tree NodeData) :
    GenLess (clusterGenF rt H nf mcn m kw lim t) (clusterGenL rt nl mcn m kw lim' t) := by
  induction lim generalizing lim' t with
  | zero => exact GenLess.out _
  | succ lim ih =>
    obtain ⟨lim', rfl⟩ : ∃ k, lim' = k + 1 := ⟨lim' - 1, by omega⟩
    have hl : lim ≤ lim' := by omega
    rw [clusterGenF, clusterGenL]
    by_cases hH : lim < H
    · rw [if_pos hH]; exact GenLess.out _
    · rw [if_neg hH]
      by_cases h : t.root.count ≤ 0
      · rw [if_pos h, if_pos h]; exact GenLess.refl _
      · rw [if_neg h, if_neg h]
        rcases less_process hn rt H mcn m kw lim lim' hl t with e | e
        · rw [e]
          cases processL rt nl mcn m kw lim' t with
          | error e => exact GenLess.refl _
          | ok r =>
            obtain ⟨t', split⟩ := r
            cases split with
            | false => exact GenLess.refl _
            | true =>
              simp only [if_true]
              by_cases hr : lim < readFrames H m.depth
              · rw [if_pos hr]; exact GenLess.out _
              · rw [if_neg hr]
                cases splitByPattern rt t' with
                | error e => exact GenLess.refl _
                | ok subs => exact GenLess.chain (fun x => ih lim' hl x) subs
        · rw [e]; exact GenLess.out _

theorem less_nest (rt : Runtime) (H k : Nat) : ∀ lim lim', lim ≤ lim' → ∀ mcn m kw t,
    GenLess (clusterNestF rt H k lim mcn m kw t) (clusterNestL rt k lim' mcn m kw t) := by
  induction k with
  | zero => intro lim lim' _ mcn m kw t; exact GenLess.refl _
  | succ k ih =>
    intro lim lim' hl mcn m kw t
    simp only [clusterNestF, clusterNestL]
    refine less_cluster ?_ rt H mcn m kw lim lim' hl t
    intro l l' hl' mcn m kw t
    unfold stageNestF
    split
    · exact .inr rfl
    · exact (ih (l - 4) l' (by omega) mcn m kw t).toPy

theorem less_make (rt : Runtime) (H lim lim' : Nat) (hl : lim ≤ lim' + 2) (mcn : Int) (st : PatternMakerSt) :
    GenLess (st.makeF rt H lim mcn) (st.makeL rt lim' mcn) := by
  unfold PatternMakerSt.makeF PatternMakerSt.makeL
  split
  · exact GenLess.out _
  · exact GenLess.chain (fun kv => (less_nest rt H 2 (lim - 2) lim' (by omega) mcn _ false _).map _) st

/-! ### frames that are enough -/

theorem EvB.guard {α : Type} {L H : Nat} {x : Nat → Py α} {y : Py α} (hH : H ≤ L) (h : EvB L x y) :
    EvB L (fun l => if l < H then .error .recursionError else x l) y := by
  intro r hr l hl
  simp only
  rw [if_neg (by omega)]
  exact h r hr l hl

section
variable {nf : Nat → NestedCluster} {n : NestedCluster} {L H : Nat}

theorem evF_procLevel (hn : NestB L nf n) (hH : H ≤ L) (rt : Runtime) (mcn : Int) (m : URLMeta) (kw : Bool)
    (rem level : Nat) (nodes : List PNode) :
    EvB (L + rem + 1) (fun lim => procLevelF rt H nf mcn m kw lim rem level nodes) (procLevel rt n mcn m kw rem level nodes) := by
  induction rem generalizing level nodes with
  | zero =>
    refine EvB.shift ?_
    simp only [procLevelF, procLevel]
    exact EvB.guard (by omega) (EvB.bind ((evB_stages hn _ _ _).mono (by omega)) (fun _ _ => EvB.const _ _))
  | succ rem ih =>
    refine EvB.shift ?_
    simp only [procLevelF, procLevel]
    exact EvB.guard (by omega) (EvB.bind ((evB_stages hn _ _ _).mono (by omega))
      (fun _ _ => EvB.bind (EvB.mapM (fun g _ => (ih _ _).mono (by omega))) (fun _ _ => EvB.const _ _)))

theorem evF_process (hn : NestB L nf n) (hH : H ≤ L) (rt : Runtime) (mcn : Int) (m : URLMeta) (kw : Bool)
    (t : Tree NodeData) : EvB (L + m.depth + 2) (fun lim => processF rt H nf mcn m kw lim t) (process rt n mcn m kw t) := by
  refine EvB.shift (L := L + m.depth + 1) ?_
  simp only [processF, process]
  exact EvB.bind (evF_procLevel hn hH _ _ _ _ _ _ _) (fun _ _ => EvB.const _ _)

theorem evF_cluster (hn : NestB L nf n) (hH : H ≤ L) (rt : Runtime) (mcn : Int) (m : URLMeta) (kw : Bool)
    (fuel : Nat) (t : Tree NodeData) :
    EvB (L + m.depth + 3 + fuel) (fun lim => (clusterGenF rt H nf mcn m kw lim t).toPy) (clusterWith n rt mcn m kw fuel t) := by
  induction fuel generalizing t with
  | zero =>
    refine EvB.shift ?_
    intro r hr l hl
    simp only [clusterGenF, clusterWith] at hr ⊢
    rw [if_neg (by omega)]
    by_cases h : t.root.count ≤ 0
    · rw [if_pos h] at hr ⊢; exact hr
    · rw [if_neg h] at hr; cases hr
  | succ fuel ih =>
    refine EvB.shift (L := L + m.depth + 3 + fuel) ?_
    intro r hr l hl
    simp only [clusterGenF, clusterWith] at hr ⊢
    rw [if_neg (by omega)]
    by_cases h : t.root.count ≤ 0
    · rw [if_pos h] at hr ⊢; exact hr
    · rw [if_neg h] at hr ⊢
      obtain ⟨⟨t', split⟩, h1, hr⟩ := bind_ok hr
      have e := evF_process hn hH rt mcn m kw t _ h1 l (by omega)
      simp only at e
      rw [e]
      cases split with
      | false =>
        simp only [Bool.false_eq_true, if_false] at hr ⊢
        exact hr
      | true =>
        simp only [if_true] at hr ⊢
        obtain ⟨subs, h2, hr⟩ := bind_ok hr
        obtain ⟨rs, h3, hr⟩ := bind_ok hr
        have e2 := EvB.mapM (f := fun l x => (clusterGenF rt H nf mcn m kw l x).toPy) (fun x _ => ih x) rs h3 l (by omega)
        simp only at e2
        rw [if_neg (by unfold readFrames; omega), h2]
        simp only
        rw [chain_toPy, e2]
        exact hr

end

theorem shortNest_framesF (h : Runtime) (H K : Nat) : NestB (3 * K + 9 + H) (stageNestF H (clusterNestF h H 1)) (shortNest h K) := by
  intro mcn m kw t r hr l hl
  unfold shortNest at hr
  by_cases hs : m.depth ≤ K
  · rw [if_pos hs] at hr
    simp only [stageNestF]
    rw [if_neg (by unfold readFrames; omega)]
    simp only [clusterNestF]
    refine evF_cluster (L := H) (n := clusterNest h 0) ?_ (Nat.le_refl _) h mcn m kw (2 * m.depth + 2) t r hr (l - 4) (by omega)
    intro mcn m kw t r hr
    cases hr
  · rw [if_neg hs] at hr; cases hr

end OsUrl
