import Verif.Model.Limit
import Verif.Proofs.Make

/-!
# The limited call stack: what it can change, and when it is exceeded
-/

namespace OsUrl

/-- Running out of frames is the only thing that may happen instead of the result. -/
def Ref {α : Type} (x y : Py α) : Prop := ∀ r, y = .ok r → x = .ok r ∨ x = .error .recursionError

theorem Ref.refl {α : Type} (x : Py α) : Ref x x := fun _ h => .inl h

theorem Ref.bind {α β : Type} {x y : Py α} {f g : α → Py β} (h : Ref x y) (hf : ∀ a, y = .ok a → Ref (f a) (g a)) : Ref (x >>= f) (y >>= g) := by
  intro r hr
  cases y with
  | error e => cases hr
  | ok a =>
    have hr' : g a = .ok r := hr
    rcases h a rfl with h1 | h1
    · rcases hf a rfl r hr' with h2 | h2
      · left; rw [h1]; exact h2
      · right; rw [h1]; exact h2
    · right; rw [h1]; rfl

theorem Ref.mapM {α β : Type} {f g : α → Py β} {l : List α} (h : ∀ a ∈ l, Ref (f a) (g a)) : Ref (l.mapM f) (l.mapM g) := by
  induction l with
  | nil => rw [List.mapM_nil, List.mapM_nil]; exact Ref.refl _
  | cons a l ih =>
    rw [List.mapM_cons, List.mapM_cons]
    refine Ref.bind (h a (by simp)) (fun b _ => Ref.bind (ih (fun x hx => h x (by simp [hx]))) (fun _ _ => Ref.refl _))

theorem mapM_raises {α β : Type} {f : α → Py β} {l : List α} {a : α} (ha : a ∈ l) (h : ∀ r, f a ≠ .ok r) : ∀ r, l.mapM f ≠ .ok r := by
  induction l with
  | nil => cases ha
  | cons b l ih =>
    intro r hr
    rw [List.mapM_cons] at hr
    obtain ⟨x, h1, hr⟩ := bind_ok hr
    obtain ⟨y, h2, -⟩ := bind_ok hr
    rcases List.mem_cons.mp ha with rfl | ha
    · exact h x h1
    · exact ih ha y h2

/-! ### the stages -/

/-- The nested clustering with `l` frames may only run out of them. -/
def NestRef (nl n : NestedCluster) : Prop := ∀ mcn m kw t, Ref (nl mcn m kw t) (n mcn m kw t)

theorem ref_multiBuckets {nl n : NestedCluster} (hn : NestRef nl n) (cfg : LevelCfg) (kw : Bool) (fwd : View → PieceBag → Route)
    (bs : List (List ViewBag)) (st : MultiSt) : Ref (multiBuckets nl cfg kw fwd bs st) (multiBuckets n cfg kw fwd bs st) := by
  induction bs generalizing st with
  | nil => exact Ref.refl _
  | cons b bs ih =>
    obtain ⟨st, pats⟩ := st
    rw [multiBuckets, multiBuckets]
    by_cases h : vbCount b < cfg.mcn
    · rw [if_pos h, if_pos h]; exact ih _
    · rw [if_neg h, if_neg h]
      exact Ref.bind (Ref.refl _) (fun t _ => Ref.bind (hn _ _ _ _) (fun r _ => Ref.bind (Ref.refl _) (fun s _ => ih s)))

theorem ref_multiStage {nl n : NestedCluster} (hn : NestRef nl n) (cfg : LevelCfg) (kw : Bool) (fwd : View → PieceBag → Route)
    (items : List ViewBag) (st : LevelSt) : Ref (multiStage nl cfg kw fwd items st) (multiStage n cfg kw fwd items st) := by
  unfold multiStage
  exact Ref.bind (ref_multiBuckets hn _ _ _ _ _) (fun _ _ => Ref.refl _)

theorem ref_stages {nl n : NestedCluster} (hn : NestRef nl n) (rt : Runtime) (cfg : LevelCfg) (b : Bucket) :
    Ref (processStages rt nl cfg b) (processStages rt n cfg b) := by
  unfold processStages
  exact Ref.bind (Ref.refl _) (fun _ _ => Ref.bind (ref_multiStage hn _ _ _ _ _) (fun _ _ => Ref.bind (ref_multiStage hn _ _ _ _ _)
    (fun _ _ => Ref.bind (ref_multiStage hn _ _ _ _ _) (fun _ _ => Ref.refl _))))

theorem ref_procLevel {nl : Nat → NestedCluster} {n : NestedCluster} (hn : ∀ l, NestRef (nl l) n) (rt : Runtime) (mcn : Int) (m : URLMeta) (kw : Bool)
    (lim rem level : Nat) (nodes : List PNode) :
    Ref (procLevelL rt nl mcn m kw lim rem level nodes) (procLevel rt n mcn m kw rem level nodes) := by
  induction lim generalizing rem level nodes with
  | zero => intro r _; right; cases rem <;> rfl
  | succ lim ih =>
    cases rem with
    | zero =>
      rw [procLevelL, procLevel, procLevel]
      exact Ref.bind (ref_stages (hn lim) _ _ _) (fun _ _ => Ref.refl _)
    | succ rem =>
      rw [procLevelL, procLevel]
      refine Ref.bind (ref_stages (hn lim) _ _ _) (fun _ _ => Ref.bind (Ref.mapM (fun g _ => ih _ _ _)) (fun _ _ => Ref.refl _))

theorem ref_process {nl : Nat → NestedCluster} {n : NestedCluster} (hn : ∀ l, NestRef (nl l) n) (rt : Runtime) (mcn : Int) (m : URLMeta) (kw : Bool)
    (lim : Nat) (t : Tree NodeData) : Ref (processL rt nl mcn m kw lim t) (process rt n mcn m kw t) := by
  unfold processL process
  exact Ref.bind (ref_procLevel hn _ _ _ _ _ _ _ _) (fun _ _ => Ref.refl _)

/-! ### generators -/

/-- The generator yields what is in the list, or an initial part of it until it runs out of frames. -/
def GenRef {α : Type} (g : Gen α) (y : Py (List α)) : Prop :=
  ∀ r, y = .ok r → g = (r, none) ∨ (g.2 = some .recursionError ∧ g.1 <+: r)

theorem GenRef.toPy {α : Type} {g : Gen α} {y : Py (List α)} (h : GenRef g y) : Ref g.toPy y := by
  intro r hr
  rcases h r hr with rfl | ⟨h1, -⟩
  · exact .inl rfl
  · right; unfold Gen.toPy; rw [h1]

theorem GenRef.chain {α β : Type} {f : β → Gen α} {g : β → Py (List α)} {l : List β} (h : ∀ x ∈ l, GenRef (f x) (g x)) :
    GenRef (Gen.chain f l) (do let rs ← l.mapM g; pure rs.flatten) := by
  induction l with
  | nil =>
    intro r hr
    rw [List.mapM_nil] at hr
    cases hr
    exact .inl rfl
  | cons b l ih =>
    intro r hr
    obtain ⟨rs, h1, hr⟩ := bind_ok hr
    rw [List.mapM_cons] at h1
    obtain ⟨x, h2, h1⟩ := bind_ok h1
    obtain ⟨y, h3, h1⟩ := bind_ok h1
    cases h1
    cases hr
    have ih' := ih (fun x hx => h x (by simp [hx])) y.flatten (by rw [h3]; rfl)
    rw [Gen.chain]
    rcases h b (by simp) x h2 with e | ⟨e, hp⟩
    · rw [e]
      simp only [List.flatten_cons]
      rcases ih' with e' | ⟨e', hp'⟩
      · left; rw [e']
      · right; exact ⟨e', (List.prefix_append_right_inj x).mpr hp'⟩
    · right
      cases hfb : f b with
      | mk l1 o =>
        rw [hfb] at e hp
        simp only at e hp
        subst e
        exact ⟨rfl, hp.trans (by rw [List.flatten_cons]; exact List.prefix_append _ _)⟩

theorem ref_cluster {nl : Nat → NestedCluster} {n : NestedCluster} (hn : ∀ l, NestRef (nl l) n) (rt : Runtime) (mcn : Int) (m : URLMeta) (kw : Bool)
    (fuel lim : Nat) (t : Tree NodeData) : GenRef (clusterGenL rt nl mcn m kw lim t) (clusterWith n rt mcn m kw fuel t) := by
  induction fuel generalizing lim t with
  | zero =>
    intro r hr
    rw [clusterWith] at hr
    by_cases h : t.root.count ≤ 0
    · rw [if_pos h] at hr
      cases hr
      cases lim with
      | zero => right; exact ⟨rfl, List.prefix_refl _⟩
      | succ lim => left; rw [clusterGenL, if_pos h]
    · rw [if_neg h] at hr; cases hr
  | succ fuel ih =>
    intro r hr
    cases lim with
    | zero => right; exact ⟨rfl, List.nil_prefix⟩
    | succ lim =>
      rw [clusterWith] at hr
      rw [clusterGenL]
      by_cases h : t.root.count ≤ 0
      · rw [if_pos h] at hr
        cases hr
        rw [if_pos h]
        exact .inl rfl
      · rw [if_neg h] at hr
        rw [if_neg h]
        obtain ⟨⟨t', split⟩, h1, hr⟩ := bind_ok hr
        rcases ref_process hn rt mcn m kw lim t _ h1 with e | e
        · rw [e]
          simp only at hr ⊢
          cases split with
          | false => simp only [Bool.false_eq_true, if_false] at hr ⊢; cases hr; exact .inl rfl
          | true =>
            simp only [if_true] at hr ⊢
            obtain ⟨subs, h2, hr⟩ := bind_ok hr
            rw [h2]
            exact GenRef.chain (fun x _ => ih lim x) r hr
        · rw [e]
          right; exact ⟨rfl, List.nil_prefix⟩

theorem ref_nest (rt : Runtime) (k : Nat) : ∀ lim mcn m kw t, GenRef (clusterNestL rt k lim mcn m kw t) (clusterNest rt k mcn m kw t) := by
  induction k with
  | zero => intro lim mcn m kw t r hr; cases hr
  | succ k ih =>
    intro lim mcn m kw t
    rw [clusterNestL, clusterNest]
    exact ref_cluster (fun l mcn m kw t => (ih l mcn m kw t).toPy) _ _ _ _ _ _ _

theorem GenRef.map {α β : Type} {g : Gen α} {y : Py (List α)} (h : GenRef g y) (f : α → β) :
    GenRef (g.1.map f, g.2) (do let l ← y; pure (l.map f)) := by
  intro r hr
  obtain ⟨l, h1, hr⟩ := bind_ok hr
  cases hr
  rcases h l h1 with rfl | ⟨h2, h3⟩
  · exact .inl rfl
  · exact .inr ⟨h2, h3.map f⟩

theorem ref_make (rt : Runtime) (lim : Nat) (mcn : Int) (st : PatternMakerSt) : GenRef (st.makeL rt lim mcn) (st.make rt mcn) := by
  unfold PatternMakerSt.makeL PatternMakerSt.make
  exact GenRef.chain (fun kv _ => (ref_nest rt 2 lim mcn _ false _).map _)

/-! ### deep trees -/

/-- Every path below has at least `n` nodes. -/
def DeepF : Nat → Forest NodeData → Prop
  | 0, _ => True
  | n + 1, f => f.children ≠ [] ∧ ∀ c ∈ f.children, DeepF n c.2.2

theorem deep_paths {n : Nat} {f : Forest NodeData} (hf : f ≠ .nil) (h : ∀ p ∈ f.paths, p.length = n + 1) : DeepF (n + 1) f := by
  induction n generalizing f with
  | zero =>
    refine ⟨?_, fun _ _ => trivial⟩
    cases f with
    | nil => exact absurd rfl hf
    | cons => simp [Forest.children]
  | succ n ih =>
    refine ⟨?_, ?_⟩
    · cases f with
      | nil => exact absurd rfl hf
      | cons => simp [Forest.children]
    · clear hf
      induction f with
      | nil => intro c hc; cases hc
      | cons k a kids sibs _ ihs =>
        intro c hc
        rw [Forest.children] at hc
        rcases List.mem_cons.mp hc with rfl | hc
        · have hk : kids ≠ .nil := by
            rintro rfl
            have := h [(k, a)] (by simp [Forest.paths])
            simp at this
          refine ih hk ?_
          intro p hp
          have := h ((k, a) :: p) (by
            cases kids with
            | nil => exact absurd rfl hk
            | cons => simp only [Forest.paths, List.mem_append, List.mem_map] at hp ⊢; left; exact ⟨p, hp, rfl⟩)
          simpa using this
        · exact ihs (fun p hp => h p (by simp [Forest.paths, hp])) c hc

theorem deep_raises (rt : Runtime) (nested : Nat → NestedCluster) (mcn : Int) (m : URLMeta) (kw : Bool) {lim rem : Nat} (hl : lim ≤ rem)
    (level : Nat) {nodes : List PNode} (hne : nodes ≠ []) (hd : ∀ x ∈ nodes, DeepF rem x.kids) :
    ∀ r, procLevelL rt nested mcn m kw lim rem level nodes ≠ .ok r := by
  induction lim generalizing rem level nodes with
  | zero => intro r h; cases rem <;> cases h
  | succ lim ih =>
    cases rem with
    | zero => omega
    | succ rem =>
      intro r hr
      rw [procLevelL] at hr
      obtain ⟨st, -, hr⟩ := bind_ok hr
      obtain ⟨subs, h1, -⟩ := bind_ok hr
      obtain ⟨x, hx⟩ := List.exists_mem_of_ne_nil _ hne
      have hx' := (mem_bucket_nodes (rt := rt)).mpr hx
      obtain ⟨g, hg, hgx⟩ : ∃ g ∈ (groupBy (fun n : PNode => st.assign.pattern n.data.pp.piece) ((rt.bucket nodes).flatMap (·.nodes))).map (·.2),
          x ∈ g := by
        refine ⟨_, List.mem_map.mpr ⟨(st.assign.pattern x.data.pp.piece, _), by
          rw [groupBy_eq, List.mem_map]
          exact ⟨_, mem_uniq.mpr (List.mem_map_of_mem hx'), rfl⟩, rfl⟩, ?_⟩
        simp [List.mem_filter, hx']
      refine mapM_raises (f := fun g => procLevelL rt nested mcn m kw lim rem (level + 1) (g.flatMap childNodes)) hg
        (ih (rem := rem) (by omega) (level + 1) ?_ ?_) subs h1
      · intro e
        obtain ⟨c, hc⟩ := List.exists_mem_of_ne_nil _ (hd x hx).1
        have : (⟨x.path ++ [c.1], c.2.1, c.2.2, some (x.path, x.data.count)⟩ : PNode) ∈ g.flatMap childNodes :=
          List.mem_flatMap.mpr ⟨x, hgx, List.mem_map.mpr ⟨c, hc, rfl⟩⟩
        rw [e] at this
        cases this
      · intro y hy
        obtain ⟨z, hz, hy⟩ := List.mem_flatMap.mp hy
        obtain ⟨c, hc, rfl⟩ := List.mem_map.mp hy
        obtain ⟨kg, hkg, rfl⟩ := List.mem_map.mp hg
        have hz' : z ∈ nodes := by
          rw [(mem_groupBy (k := kg.1) (g := kg.2) hkg).2, List.mem_filter] at hz
          exact mem_bucket_nodes.mp hz.1
        exact (hd z hz').2 c hc

/-! ### enough frames -/

/-- With enough frames the result is the same. -/
def Ev {α : Type} (x : Nat → Py α) (y : Py α) : Prop := ∀ r, y = .ok r → ∃ L, ∀ l, L ≤ l → x l = .ok r

theorem Ev.const {α : Type} (y : Py α) : Ev (fun _ => y) y := fun _ h => ⟨0, fun _ _ => h⟩

theorem Ev.bind {α β : Type} {x : Nat → Py α} {y : Py α} {f : Nat → α → Py β} {g : α → Py β} (h : Ev x y)
    (hf : ∀ a, y = .ok a → Ev (fun l => f l a) (g a)) : Ev (fun l => x l >>= f l) (y >>= g) := by
  intro r hr
  obtain ⟨a, h1, h2⟩ := bind_ok hr
  obtain ⟨L1, h3⟩ := h a h1
  obtain ⟨L2, h4⟩ := hf a h1 r h2
  refine ⟨max L1 L2, fun l hl => ?_⟩
  show (x l >>= f l) = _
  rw [h3 l (by omega)]
  exact h4 l (by omega)

theorem Ev.mapM {α β : Type} {f : Nat → α → Py β} {g : α → Py β} {l : List α} (h : ∀ a ∈ l, Ev (fun n => f n a) (g a)) :
    Ev (fun n => l.mapM (f n)) (l.mapM g) := by
  induction l with
  | nil => simp only [List.mapM_nil]; exact Ev.const _
  | cons a l ih =>
    simp only [List.mapM_cons]
    exact Ev.bind (h a (by simp)) (fun b _ => Ev.bind (ih (fun x hx => h x (by simp [hx]))) (fun _ _ => Ev.const _))

theorem Ev.shift {α : Type} {x : Nat → Py α} {y : Py α} (h : Ev (fun l => x (l + 1)) y) : Ev x y := by
  intro r hr
  obtain ⟨L, hL⟩ := h r hr
  refine ⟨L + 1, fun l hl => ?_⟩
  cases l with
  | zero => omega
  | succ l => exact hL l (by omega)

/-- The nested clustering succeeds with enough frames. -/
def NestEv (nl : Nat → NestedCluster) (n : NestedCluster) : Prop := ∀ mcn m kw t, Ev (fun l => nl l mcn m kw t) (n mcn m kw t)

theorem ev_multiBuckets {nl : Nat → NestedCluster} {n : NestedCluster} (hn : NestEv nl n) (cfg : LevelCfg) (kw : Bool)
    (fwd : View → PieceBag → Route) (bs : List (List ViewBag)) (st : MultiSt) :
    Ev (fun l => multiBuckets (nl l) cfg kw fwd bs st) (multiBuckets n cfg kw fwd bs st) := by
  induction bs generalizing st with
  | nil => exact Ev.const _
  | cons b bs ih =>
    obtain ⟨st, pats⟩ := st
    simp only [multiBuckets]
    by_cases h : vbCount b < cfg.mcn
    · simp only [if_pos h]; exact ih _
    · simp only [if_neg h]
      exact Ev.bind (Ev.const _) (fun t _ => Ev.bind (hn _ _ _ _) (fun r _ => Ev.bind (Ev.const _) (fun s _ => ih s)))

theorem ev_multiStage {nl : Nat → NestedCluster} {n : NestedCluster} (hn : NestEv nl n) (cfg : LevelCfg) (kw : Bool)
    (fwd : View → PieceBag → Route) (items : List ViewBag) (st : LevelSt) :
    Ev (fun l => multiStage (nl l) cfg kw fwd items st) (multiStage n cfg kw fwd items st) := by
  unfold multiStage
  exact Ev.bind (ev_multiBuckets hn _ _ _ _ _) (fun _ _ => Ev.const _)

theorem ev_stages {nl : Nat → NestedCluster} {n : NestedCluster} (hn : NestEv nl n) (rt : Runtime) (cfg : LevelCfg) (b : Bucket) :
    Ev (fun l => processStages rt (nl l) cfg b) (processStages rt n cfg b) := by
  unfold processStages
  exact Ev.bind (Ev.const _) (fun _ _ => Ev.bind (ev_multiStage hn _ _ _ _ _) (fun _ _ => Ev.bind (ev_multiStage hn _ _ _ _ _)
    (fun _ _ => Ev.bind (ev_multiStage hn _ _ _ _ _) (fun _ _ => Ev.const _))))

theorem ev_procLevel {nl : Nat → NestedCluster} {n : NestedCluster} (hn : NestEv nl n) (rt : Runtime) (mcn : Int) (m : URLMeta) (kw : Bool)
    (rem level : Nat) (nodes : List PNode) :
    Ev (fun lim => procLevelL rt nl mcn m kw lim rem level nodes) (procLevel rt n mcn m kw rem level nodes) := by
  induction rem generalizing level nodes with
  | zero =>
    refine Ev.shift ?_
    simp only [procLevelL, procLevel]
    exact Ev.bind (ev_stages hn _ _ _) (fun _ _ => Ev.const _)
  | succ rem ih =>
    refine Ev.shift ?_
    simp only [procLevelL, procLevel]
    exact Ev.bind (ev_stages hn _ _ _) (fun _ _ => Ev.bind (Ev.mapM (fun g _ => ih _ _)) (fun _ _ => Ev.const _))

theorem ev_process {nl : Nat → NestedCluster} {n : NestedCluster} (hn : NestEv nl n) (rt : Runtime) (mcn : Int) (m : URLMeta) (kw : Bool)
    (t : Tree NodeData) : Ev (fun lim => processL rt nl mcn m kw lim t) (process rt n mcn m kw t) := by
  unfold processL process
  exact Ev.bind (ev_procLevel hn _ _ _ _ _ _ _) (fun _ _ => Ev.const _)

theorem chain_toPy {α β : Type} (f : β → Gen α) (l : List β) : (Gen.chain f l).toPy = (do let rs ← l.mapM (fun x => (f x).toPy); pure rs.flatten) := by
  induction l with
  | nil => rw [List.mapM_nil]; rfl
  | cons b l ih =>
    rw [List.mapM_cons, Gen.chain]
    cases hfb : f b with
    | mk x o =>
      cases o with
      | some e => rfl
      | none =>
        simp only [Gen.toPy] at ih ⊢
        cases hc : (Gen.chain f l).2 with
        | some e =>
          rw [hc] at ih
          simp only at ih ⊢
          cases hm : l.mapM (fun x => (f x).toPy) with
          | error e' =>
            simp only [Gen.toPy] at hm
            rw [hm] at ih ⊢
            exact ih
          | ok y => simp only [Gen.toPy] at hm; rw [hm] at ih; cases ih
        | none =>
          rw [hc] at ih
          simp only at ih ⊢
          cases hm : l.mapM (fun x => (f x).toPy) with
          | error e' => simp only [Gen.toPy] at hm; rw [hm] at ih; cases ih
          | ok y =>
            simp only [Gen.toPy] at hm
            rw [hm] at ih ⊢
            have := Except.ok.inj ih
            show Except.ok _ = Except.ok _
            rw [this]
            rfl

theorem ev_cluster {nl : Nat → NestedCluster} {n : NestedCluster} (hn : NestEv nl n) (rt : Runtime) (mcn : Int) (m : URLMeta) (kw : Bool)
    (fuel : Nat) (t : Tree NodeData) : Ev (fun lim => (clusterGenL rt nl mcn m kw lim t).toPy) (clusterWith n rt mcn m kw fuel t) := by
  induction fuel generalizing t with
  | zero =>
    refine Ev.shift ?_
    simp only [clusterGenL, clusterWith]
    by_cases h : t.root.count ≤ 0
    · simp only [if_pos h]; exact Ev.const _
    · simp only [if_neg h]; intro r hr; cases hr
  | succ fuel ih =>
    refine Ev.shift ?_
    simp only [clusterGenL, clusterWith]
    by_cases h : t.root.count ≤ 0
    · simp only [if_pos h]; exact Ev.const _
    · simp only [if_neg h]
      intro r hr
      obtain ⟨⟨t', split⟩, h1, hr⟩ := bind_ok hr
      obtain ⟨L1, hL1⟩ := ev_process hn rt mcn m kw t _ h1
      cases split with
      | false =>
        simp only [Bool.false_eq_true, if_false] at hr
        refine ⟨L1, fun l hl => ?_⟩
        have e := hL1 l hl
        simp only at e ⊢
        rw [e]
        exact hr
      | true =>
        simp only [if_true] at hr
        obtain ⟨subs, h2, hr⟩ := bind_ok hr
        obtain ⟨rs, h3, hr⟩ := bind_ok hr
        obtain ⟨L2, hL2⟩ := Ev.mapM (f := fun l x => (clusterGenL rt nl mcn m kw l x).toPy) (fun x _ => ih x) rs h3
        refine ⟨max L1 L2, fun l hl => ?_⟩
        have e := hL1 l (by omega)
        have e2 := hL2 l (by omega)
        simp only at e e2 ⊢
        rw [e]
        simp only [if_true, h2]
        rw [chain_toPy, e2]
        exact hr

theorem ev_nest (rt : Runtime) (k : Nat) :
    NestEv (fun lim mcn m kw t => (clusterNestL rt k lim mcn m kw t).toPy) (clusterNest rt k) := by
  induction k with
  | zero => intro mcn m kw t r hr; cases hr
  | succ k ih =>
    intro mcn m kw t
    simp only [clusterNestL, clusterNest]
    exact ev_cluster ih _ _ _ _ _ _

theorem ev_make (rt : Runtime) (mcn : Int) (st : PatternMakerSt) : Ev (fun lim => (st.makeL rt lim mcn).toPy) (st.make rt mcn) := by
  unfold PatternMakerSt.makeL PatternMakerSt.make
  simp only [chain_toPy]
  refine Ev.bind (Ev.mapM (fun kv _ => ?_)) (fun _ _ => Ev.const _)
  intro r hr
  obtain ⟨ts, h1, hr⟩ := bind_ok hr
  cases hr
  obtain ⟨L, hL⟩ := ev_nest rt 2 mcn kv.2.urlMeta false kv.2.tree ts h1
  refine ⟨L, fun l hl => ?_⟩
  have := hL l hl
  unfold Gen.toPy at this ⊢
  simp only at this ⊢
  cases ho : (clusterNestL rt 2 l mcn kv.2.urlMeta false kv.2.tree).2 with
  | some e => rw [ho] at this; cases this
  | none =>
    rw [ho] at this
    simp only at this ⊢
    rw [Except.ok.inj this]

/-! ### dump_tree -/

theorem forest_paths_ne {α : Type} {f : Forest α} (h : f ≠ .nil) : f.paths ≠ [] := by
  induction f with
  | nil => exact absurd rfl h
  | cons k a kids sibs ihk _ =>
    cases kids with
    | nil => simp [Forest.paths]
    | cons k' a' kids' sibs' =>
      have := ihk (by simp)
      rw [Forest.paths]
      simp [this]

theorem dumpL_ok {α : Type} {lim : Nat} {f : Forest α} (h : ∀ p ∈ f.paths, p.length ≤ lim) : f.dumpL lim = .ok f.paths := by
  induction f generalizing lim with
  | nil => cases lim <;> rfl
  | cons k a kids sibs ihk ihs =>
    cases lim with
    | zero =>
      exfalso
      cases kids with
      | nil => have := h [(k, a)] (by simp [Forest.paths]); simp at this
      | cons k' a' kids' sibs' =>
        have hne : (Forest.cons k' a' kids' sibs').paths ≠ [] := by
          exact forest_paths_ne (by simp)
        obtain ⟨p, hp⟩ := List.exists_mem_of_ne_nil _ hne
        have := h ((k, a) :: p) (by rw [Forest.paths]; exact List.mem_append_left _ (List.mem_map_of_mem hp))
        simp at this
    | succ lim =>
      have hs : sibs.dumpL (lim + 1) = .ok sibs.paths := ihs (fun p hp => h p (by cases kids <;> (rw [Forest.paths]; exact List.mem_append_right _ hp)))
      cases kids with
      | nil => rw [Forest.dumpL, hs]; rfl
      | cons k' a' kids' sibs' =>
        have hk := ihk (lim := lim) (fun p hp => by
          have := h ((k, a) :: p) (by rw [Forest.paths]; exact List.mem_append_left _ (List.mem_map_of_mem hp))
          simpa using this)
        rw [Forest.dumpL, hs, hk]
        rfl

theorem dumpL_error {α : Type} {lim : Nat} {f : Forest α} (h : ∃ p ∈ f.paths, lim < p.length) : f.dumpL lim = .error .recursionError := by
  induction f generalizing lim with
  | nil => obtain ⟨p, hp, -⟩ := h; cases hp
  | cons k a kids sibs ihk ihs =>
    cases lim with
    | zero => cases kids <;> rfl
    | succ lim =>
      by_cases hs : ∃ p ∈ sibs.paths, lim + 1 < p.length
      · have e := ihs hs
        cases kids with
        | nil => rw [Forest.dumpL, e]; rfl
        | cons k' a' kids' sibs' =>
          rw [Forest.dumpL, e]
          by_cases hk : ∃ p ∈ (Forest.cons k' a' kids' sibs').paths, lim < p.length
          · rw [ihk hk]; rfl
          · rw [dumpL_ok (fun p hp => by
              rcases Nat.lt_or_ge lim p.length with h1 | h1
              · exact absurd ⟨p, hp, h1⟩ hk
              · exact h1)]
            rfl
      · obtain ⟨p, hp, hl⟩ := h
        cases kids with
        | nil =>
          rw [Forest.paths] at hp
          rcases List.mem_append.mp hp with hp | hp
          · simp only [List.mem_singleton] at hp
            subst hp
            simp at hl
          · exact absurd ⟨p, hp, hl⟩ hs
        | cons k' a' kids' sibs' =>
          rw [Forest.paths] at hp
          rcases List.mem_append.mp hp with hp | hp
          · simp only [List.mem_map] at hp
            obtain ⟨q, hq, rfl⟩ := hp
            rw [Forest.dumpL, ihk ⟨q, hq, by simpa using hl⟩]
            rfl
          · exact absurd ⟨p, hp, hl⟩ hs

end OsUrl
