import Verif.Proofs.Calls

/-! How many calls of `process` the multi stages make. -/

namespace OsUrl
open Spec

/-- The total weight of the trees of a list of calls. -/
def wsum (w : Tree NodeData → Nat) (cs : List ProcCall) : Nat := (cs.map (fun c => w c.tree)).sum

theorem wsum_append (w : Tree NodeData → Nat) (a b : List ProcCall) : wsum w (a ++ b) = wsum w a + wsum w b := by
  simp [wsum]

/-- A bound that may be added up. -/
def SupAdd (B : Nat → Nat) : Prop := ∀ a b, B a + B b ≤ B (a + b)

theorem SupAdd.mono {B : Nat → Nat} (h : SupAdd B) {a b : Nat} (hab : a ≤ b) : B a ≤ B b := by
  have := h a (b - a)
  rw [Nat.add_sub_cancel' hab] at this
  omega

theorem SupAdd.sum {α : Type} {B : Nat → Nat} (h : SupAdd B) (f : α → Nat) (l : List α) : (l.map (fun a => B (f a))).sum ≤ B (l.map f).sum := by
  induction l with
  | nil => exact Nat.zero_le _
  | cons a l ih =>
    simp only [List.map_cons, List.sum_cons]
    have := h (f a) (l.map f).sum
    omega

/-- Where `n` succeeds `nc` gives the same clusters; its calls are inner ones of a weight within `B` of the leaves, and the clusters have
no more leaves than the tree. -/
def Within (w : Tree NodeData → Nat) (B : Nat → Nat) (n : NestedCluster) (nc : NestedCalls) : Prop :=
  ∀ mcn m kw t r, n mcn m kw t = .ok r → ∃ cs, nc mcn m kw t = .ok (r, cs) ∧ wsum w cs ≤ B t.paths.length ∧
    (r.map (fun c => c.paths.length)).sum ≤ t.paths.length ∧ ∀ c ∈ cs, c.inner = true

theorem upd_le {κ υ : Type} [DecidableEq κ] (k : κ) (f : Option υ → υ) (d : Dict κ υ) : (Dict.upd k f d).length ≤ d.length + 1 := by
  induction d with
  | nil => simp [Dict.upd]
  | cons x d ih =>
    rw [Dict.upd]
    split
    · simp
    · simp only [List.length_cons]; omega

theorem vbBags_le (items : List ViewBag) : (vbBags items).length ≤ items.length := by
  have key : ∀ d : Dict Str ViewBag, (items.foldl (fun d vb => Dict.upd vb.2.piece (fun _ => vb) d) d).length ≤ d.length + items.length := by
    induction items with
    | nil => simp
    | cons x items ih =>
      intro d
      rw [List.foldl_cons]
      have h1 := ih (Dict.upd x.2.piece (fun _ => x) d)
      have h2 := upd_le x.2.piece (fun _ => x) d
      rw [List.length_cons]
      omega
  have := key []
  simpa [vbBags] using this

/-- Two of the lists of a level are at most `k` longer. -/
def Longer (k : Nat) (st st' : LevelSt) : Prop :=
  st'.toMixed.length + st'.toLastDot.length ≤ st.toMixed.length + st.toLastDot.length + k ∧
    st'.toLastDot.length ≤ st.toLastDot.length + k

theorem Longer.trans {a b : Nat} {s1 s2 s3 : LevelSt} (h1 : Longer a s1 s2) (h2 : Longer b s2 s3) : Longer (a + b) s1 s3 := by
  unfold Longer at *
  omega

theorem Longer.le {a b : Nat} {s1 s2 : LevelSt} (h1 : Longer a s1 s2) (h : a ≤ b) : Longer b s1 s2 := by
  unfold Longer at *
  omega

theorem forward_longer (st : LevelSt) (r : Route) (b : PieceBag) : Longer 1 st (st.forward r b) := by
  unfold Longer LevelSt.forward
  cases r <;> simp <;> omega

theorem forwardAll_longer (fwd : View → PieceBag → Route) (items : List ViewBag) (st : LevelSt) :
    Longer items.length st (forwardAll fwd items st) := by
  have key : ∀ (d : Dict Str ViewBag) (st : LevelSt),
      Longer d.length st (d.foldl (fun st kvb => st.forward (fwd kvb.2.1 kvb.2.2) kvb.2.2) st) := by
    intro d
    induction d with
    | nil => intro st; exact ⟨Nat.le_refl _, Nat.le_refl _⟩
    | cons x d ih =>
      intro st
      rw [List.foldl_cons, List.length_cons, Nat.add_comm]
      exact (forward_longer st _ _).trans (ih _)
  exact (key _ st).le (vbBags_le items)

theorem transferBags_length {bags : Dict Str ViewBag} {ps : List (List (Str × NodeData))} {bs : List ViewBag}
    (h : transferBags bags ps = .ok bs) : bs.length = ps.length := by
  induction ps generalizing bs with
  | nil => rw [transferBags] at h; injection h with h; subst h; rfl
  | cons p ps ih =>
    rw [transferBags] at h
    split at h
    · cases h
    · obtain ⟨bs', h1, h2⟩ := bind_ok h
      injection h2 with h2
      subst h2
      simp [ih h1]

theorem transfer_length {bags : Dict Str ViewBag} {root : Tree NodeData} {bs : List ViewBag} {pat : Str}
    (h : transfer bags root = .ok (bs, pat)) : bs.length = root.paths.length := by
  unfold transfer at h
  split at h
  · cases h
  · rename_i p rest e
    obtain ⟨bs', h1, h2⟩ := bind_ok h
    injection h2 with h2
    injection h2 with h2 _
    subst h2
    rw [transferBags_length h1, e]

theorem multiClusters_longer {mcn : Int} {fwd : View → PieceBag → Route} {bags : Dict Str ViewBag} {roots : List (Tree NodeData)}
    {st st' : MultiSt} (h : multiClusters mcn fwd bags roots st = .ok st') :
    Longer (roots.map (fun c => c.paths.length)).sum st.1 st'.1 := by
  induction roots generalizing st with
  | nil =>
    rw [multiClusters] at h
    injection h with h
    subst h
    exact ⟨Nat.le_refl _, Nat.le_refl _⟩
  | cons root roots ih =>
    obtain ⟨st, pats⟩ := st
    rw [multiClusters] at h
    obtain ⟨r, h1, h2⟩ := bind_ok h
    obtain ⟨bs, pat⟩ := r
    have hl := transfer_length h1
    simp only [List.map_cons, List.sum_cons] at h2 ⊢
    split at h2
    · have h3 := forwardAll_longer fwd bs st
      rw [hl] at h3
      exact h3.trans (ih h2)
    · exact (ih h2).le (Nat.le_add_left _ _)

theorem multiBuckets_calls {w : Tree NodeData → Nat} {B : Nat → Nat} (hB : SupAdd B) {n : NestedCluster} {nc : NestedCalls}
    (hw : Within w B n nc) {cfg : LevelCfg} {kw : Bool} {fwd : View → PieceBag → Route} {bs : List (List ViewBag)} (hne : ∀ b ∈ bs, b ≠ [])
    {st st' : MultiSt} (h : multiBuckets n cfg kw fwd bs st = .ok st') :
    ∃ cs, multiBucketsC nc cfg kw fwd bs st = .ok (st', cs) ∧ wsum w cs ≤ B (bs.map List.length).sum ∧
      Longer (bs.map List.length).sum st.1 st'.1 ∧ ∀ c ∈ cs, c.inner = true := by
  induction bs generalizing st with
  | nil =>
    rw [multiBuckets] at h
    injection h with h
    subst h
    exact ⟨[], rfl, Nat.zero_le _, ⟨Nat.le_refl _, Nat.le_refl _⟩, by simp⟩
  | cons b bs ih =>
    have ih := fun st h => ih (fun x hx => hne x (by simp [hx])) (st := st) h
    obtain ⟨st, pats⟩ := st
    rw [multiBuckets] at h
    rw [multiBucketsC]
    have hadd := hB b.length (bs.map List.length).sum
    simp only [List.map_cons, List.sum_cons]
    by_cases hc : vbCount b < cfg.mcn
    · rw [if_pos hc] at h ⊢
      obtain ⟨cs, h1, h2, h3, h4⟩ := ih _ h
      exact ⟨cs, h1, by omega, (forwardAll_longer fwd b st).trans h3, h4⟩
    · rw [if_neg hc] at h ⊢
      obtain ⟨t, ht, h⟩ := bind_ok h
      obtain ⟨roots, hr, h⟩ := bind_ok h
      obtain ⟨s, hs, h⟩ := bind_ok h
      obtain ⟨cs, h1, h2, h3, h4⟩ := ih _ h
      obtain ⟨cs0, g1, g2, g3, g4⟩ := hw _ _ _ _ _ hr
      have hl := vbTree_leaves b emptyTree t ht (hne b (by simp))
      have hl' : t.paths.length ≤ b.length := by simpa [emptyTree, Forest.paths] using hl
      refine ⟨cs0 ++ cs, ?_, ?_, ?_, ?_⟩
      · simp only [bind, Except.bind, ht, g1, hs, h1, pure, Except.pure]
      · rw [wsum_append]
        have := hB.mono hl'
        omega
      · exact ((multiClusters_longer hs).le (by omega)).trans h3
      · intro c hc
        rcases List.mem_append.mp hc with hc | hc
        · exact g4 c hc
        · exact h4 c hc

theorem ones_sum {α : Type} (l : List α) : (l.map (fun _ => 1)).sum = l.length := by
  induction l with
  | nil => rfl
  | cons a l ih => simp only [List.map_cons, List.sum_cons, List.length_cons]; omega

theorem groupBy_lengths {α κ : Type} [DecidableEq κ] (key : α → κ) (f : α → Nat) (l : List α) :
    (((groupBy key l).map (·.2)).map (fun g => (g.map f).sum)).sum ≤ (l.map f).sum := by
  rw [groupBy_eq, List.map_map, List.map_map]
  exact tot_groups (nodup_uniq _) key f l

theorem lengths_le {α κ : Type} [DecidableEq κ] (key : α → κ) (l : List α) : (((groupBy key l).map (·.2)).map List.length).sum ≤ l.length := by
  have := groupBy_lengths key (fun _ => 1) l
  have e : ((groupBy key l).map (·.2)).map (fun g => (g.map (fun _ => 1)).sum) = ((groupBy key l).map (·.2)).map List.length :=
    List.map_congr_left (fun g _ => ones_sum g)
  rw [e, ones_sum] at this
  exact this

theorem multiStage_calls {w : Tree NodeData → Nat} {B : Nat → Nat} (hB : SupAdd B) {n : NestedCluster} {nc : NestedCalls}
    (hw : Within w B n nc) {cfg : LevelCfg} {kw : Bool} {fwd : View → PieceBag → Route} {items : List ViewBag}
    {st st' : LevelSt} (h : multiStage n cfg kw fwd items st = .ok st') :
    ∃ cs, multiStageC nc cfg kw fwd items st = .ok (st', cs) ∧ wsum w cs ≤ B items.length ∧ Longer items.length st st' ∧
      ∀ c ∈ cs, c.inner = true := by
  unfold multiStage at h
  obtain ⟨r, h1, h2⟩ := bind_ok h
  have hle := lengths_le (fun vb : ViewBag => vb.1.view) items
  obtain ⟨cs, g1, g2, g3, g4⟩ := multiBuckets_calls hB hw (by
    intro b hb
    obtain ⟨⟨k, g⟩, hg, rfl⟩ := List.mem_map.mp hb
    exact groupBy_ne_nil hg) h1
  injection h2 with h2
  subst h2
  refine ⟨cs, ?_, ?_, ?_, g4⟩
  · unfold multiStageC
    simp only [bind, Except.bind, g1, pure, Except.pure]
  · have := hB.mono hle
    omega
  · have := g3.le hle
    exact this

/-- The pieces that wait for a multi stage. -/
def waiting (st : LevelSt) : Nat := st.toBase.length + st.toMixed.length + st.toLastDot.length

theorem forward_waiting (st : LevelSt) (r : Route) (b : PieceBag) : waiting (st.forward r b) ≤ waiting st + 1 := by
  unfold waiting LevelSt.forward
  cases r <;> simp <;> omega

theorem pieceLoop_waiting {cfg : LevelCfg} {bs : List PieceBag} {st st' : LevelSt × List Str} (h : pieceLoop cfg bs st = .ok st') :
    waiting st'.1 ≤ waiting st.1 + bs.length := by
  induction bs generalizing st with
  | nil =>
    rw [pieceLoop] at h
    injection h with h
    subst h
    exact Nat.le_refl _
  | cons b bs ih =>
    obtain ⟨st, pats⟩ := st
    rw [pieceLoop] at h
    rw [List.length_cons]
    have e : waiting { st with assign := st.assign.set b.piece b.piece } = waiting st := rfl
    have h2 := forward_waiting { st with assign := st.assign.set b.piece b.piece } (routePiece cfg b.pp) b
    have fin : ∀ f : Bool, (if f = true then pieceLoop cfg bs (LevelSt.forward { st with assign := st.assign.set b.piece b.piece } (routePiece cfg b.pp) b, pats)
        else pieceLoop cfg bs ({ st with assign := st.assign.set b.piece b.piece }, setAdd b.piece pats)) = .ok st' →
        waiting st'.1 ≤ waiting st + (bs.length + 1) := by
      intro f h
      cases f with
      | true => have h1 := ih h; simp only at h1; omega
      | false => have h1 := ih h; simp only at h1; omega
    split at h
    · exact fin true h
    · obtain ⟨f, -, h⟩ := bind_ok h
      exact fin (!f) h

theorem pieceStage_waiting {cfg : LevelCfg} {bucket : Bucket} {st st' : LevelSt} (h : pieceStage cfg bucket st = .ok st') :
    waiting st' ≤ waiting st + bucket.length := by
  unfold pieceStage at h
  split at h
  · injection h with h; subst h; omega
  · split at h
    · injection h with h; subst h
      show waiting st ≤ _
      omega
    · have fin : ∀ f : Bool, (if f = true then pure (literalAll bucket st)
          else do
            let (st, pats) ← pieceLoop cfg bucket (st, [])
            pure { st with patternNum := st.patternNum + pats.length } : Py LevelSt) = .ok st' → waiting st' ≤ waiting st + bucket.length := by
        intro f h
        cases f with
        | true =>
          injection h with h
          subst h
          show waiting st ≤ _
          omega
        | false =>
          simp only [Bool.false_eq_true, if_false] at h
          obtain ⟨r, h1, h2⟩ := bind_ok h
          injection h2 with h2
          subst h2
          exact pieceLoop_waiting h1
      split at h
      · obtain ⟨mx, -, h⟩ := bind_ok h
        exact fin _ h
      · exact fin false h

theorem processStages_calls {w : Tree NodeData → Nat} {B : Nat → Nat} (hB : SupAdd B) {n : NestedCluster} {nc : NestedCalls}
    (hw : Within w B n nc) {rt : Runtime} {cfg : LevelCfg} {bucket : Bucket} {st : LevelSt} (h : processStages rt n cfg bucket = .ok st) :
    ∃ cs, processStagesC rt nc cfg bucket = .ok (st, cs) ∧ wsum w cs ≤ 3 * B bucket.length ∧ ∀ c ∈ cs, c.inner = true := by
  unfold processStages at h
  obtain ⟨s0, h0, h⟩ := bind_ok h
  obtain ⟨s1, h1, h⟩ := bind_ok h
  obtain ⟨s2, h2, h⟩ := bind_ok h
  obtain ⟨s3, h3, h⟩ := bind_ok h
  obtain ⟨c1, a1, a2, a3, a4⟩ := multiStage_calls hB hw h1
  obtain ⟨c2, b1, b2, b3, b4⟩ := multiStage_calls hB hw h2
  obtain ⟨c3, d1, d2, d3, d4⟩ := multiStage_calls hB hw h3
  have hp := pieceStage_waiting h0
  simp only [waiting, List.length_nil, Nat.add_zero, Nat.zero_add] at hp
  have e1 := hB.mono (show s0.toBase.length ≤ bucket.length by omega)
  have e2 := hB.mono (show s1.toMixed.length ≤ bucket.length by have := a3.1; omega)
  have e3 := hB.mono (show s2.toLastDot.length ≤ bucket.length by have := a3.1; have := b3.2; omega)
  refine ⟨c1 ++ c2 ++ c3, ?_, ?_, ?_⟩
  · unfold processStagesC
    simp only [bind, Except.bind, h0, a1, b1, d1, h, pure, Except.pure]
  · rw [wsum_append, wsum_append]; omega
  · intro c hc
    rw [List.mem_append, List.mem_append] at hc
    rcases hc with (hc | hc) | hc
    · exact a4 c hc
    · exact b4 c hc
    · exact d4 c hc

theorem children_leaves (g : List PNode) : ((g.flatMap childNodes).map leavesOf).sum ≤ (g.map leavesOf).sum := by
  induction g with
  | nil => exact Nat.le_refl _
  | cons x g ih =>
    rw [List.flatMap_cons, List.map_append, List.sum_append, List.map_cons, List.sum_cons]
    have := childNodes_leaves x
    omega

theorem procLevel_calls {w : Tree NodeData → Nat} {B : Nat → Nat} (hB : SupAdd B) {n : NestedCluster} {nc : NestedCalls}
    (hw : Within w B n nc) {rt : Runtime} {mcn : Int} {m : URLMeta} {kw : Bool} {rem level : Nat} {nodes : List PNode}
    {r : List (List Str × Str) × Bool} (h : procLevel rt n mcn m kw rem level nodes = .ok r) :
    ∃ cs, procLevelC rt nc mcn m kw rem level nodes = .ok (r, cs) ∧ wsum w cs ≤ 3 * (rem + 1) * B (nodes.map leavesOf).sum ∧
      ∀ c ∈ cs, c.inner = true := by
  have hbl : ∀ nodes : List PNode, (rt.bucket nodes).length ≤ (nodes.map leavesOf).sum := by
    intro nodes
    have h1 : ((rt.bucket nodes).flatMap (·.nodes)).length = nodes.length := (bucket_nodes_perm rt nodes).length_eq
    have h2 : (rt.bucket nodes).length ≤ ((rt.bucket nodes).flatMap (·.nodes)).length := by
      generalize rt.bucket nodes = l
      induction l with
      | nil => exact Nat.le_refl _
      | cons b l ih =>
        rw [List.flatMap_cons, List.length_append, List.length_cons]
        simp only [PieceBag.nodes, List.length_cons] at ih ⊢
        omega
    have h3 : nodes.length ≤ (nodes.map leavesOf).sum := by
      have := tot_mono (f := fun _ : PNode => 1) (g := leavesOf) (l := nodes) (fun x _ => Tree.paths_pos _)
      rw [ones_sum] at this
      exact this
    omega
  induction rem generalizing level nodes r with
  | zero =>
    rw [procLevel] at h
    obtain ⟨st, h1, h2⟩ := bind_ok h
    obtain ⟨cs, g1, g2, g3⟩ := processStages_calls hB hw h1
    injection h2 with h2
    subst h2
    refine ⟨cs, ?_, ?_, g3⟩
    · rw [procLevelC]
      simp only [bind, Except.bind, g1, pure, Except.pure]
    · have := hB.mono (hbl nodes)
      omega
  | succ rem ih =>
    rw [procLevel] at h
    obtain ⟨st, h1, h⟩ := bind_ok h
    obtain ⟨subs, h2, h3⟩ := bind_ok h
    obtain ⟨cs, g1, g2, g3⟩ := processStages_calls hB hw h1
    injection h3 with h3
    subst h3
    have key : ∀ (gs : List (List PNode)) (subs : List (List (List Str × Str) × Bool)),
        gs.mapM (fun g => procLevel rt n mcn m kw rem (level + 1) (g.flatMap childNodes)) = .ok subs →
        ∃ rs, gs.mapM (fun g => procLevelC rt nc mcn m kw rem (level + 1) (g.flatMap childNodes)) = .ok rs ∧ rs.map (·.1) = subs ∧
          wsum w (rs.flatMap (·.2)) ≤ 3 * (rem + 1) * B (gs.map (fun g => (g.map leavesOf).sum)).sum ∧
          ∀ c ∈ rs.flatMap (·.2), c.inner = true := by
      intro gs
      induction gs with
      | nil =>
        intro subs h
        rw [List.mapM_nil] at h
        injection h with h
        subst h
        exact ⟨[], rfl, rfl, by simp [wsum], by simp⟩
      | cons g gs ihg =>
        intro subs h
        rw [List.mapM_cons] at h
        obtain ⟨s, hs, h⟩ := bind_ok h
        obtain ⟨ss, hss, h⟩ := bind_ok h
        injection h with h
        subst h
        obtain ⟨c, a1, a2, a3⟩ := ih hs
        obtain ⟨rs, b1, b2, b3, b4⟩ := ihg ss hss
        refine ⟨(s, c) :: rs, ?_, by simp [b2], ?_, ?_⟩
        · rw [List.mapM_cons]
          simp only [bind, Except.bind, a1, b1, pure, Except.pure]
        · rw [List.flatMap_cons, wsum_append]
          simp only [List.map_cons, List.sum_cons]
          have hle := children_leaves g
          have e1 := hB.mono hle
          have e2 := hB (g.map leavesOf).sum (gs.map (fun g => (g.map leavesOf).sum)).sum
          have e3 := Nat.mul_le_mul_left (3 * (rem + 1)) (Nat.le_trans (Nat.add_le_add_right e1 _) e2)
          rw [Nat.mul_add] at e3
          omega
        · intro x hx
          rw [List.flatMap_cons, List.mem_append] at hx
          rcases hx with hx | hx
          · exact a3 x hx
          · exact b4 x hx
    obtain ⟨rs, k1, k2, k3, k4⟩ := key _ subs h2
    refine ⟨cs ++ rs.flatMap (·.2), ?_, ?_, ?_⟩
    · rw [procLevelC]
      simp only [bind, Except.bind, g1, k1, pure, Except.pure, k2]
      rfl
    · rw [wsum_append]
      have e1 := groupBy_lengths (fun n : PNode => st.assign.pattern n.data.pp.piece) leavesOf ((rt.bucket nodes).flatMap (·.nodes))
      have e2 : (((rt.bucket nodes).flatMap (·.nodes)).map leavesOf).sum = (nodes.map leavesOf).sum :=
        ((bucket_nodes_perm rt nodes).map leavesOf).sum_nat
      have e3 := hB.mono (Nat.le_trans e1 (Nat.le_of_eq e2))
      have e4 := hB.mono (hbl nodes)
      have e5 := Nat.mul_le_mul_left (3 * (rem + 1)) e3
      have e6 : 3 * (rem + 1 + 1) * B (nodes.map leavesOf).sum = 3 * (rem + 1) * B (nodes.map leavesOf).sum + 3 * B (nodes.map leavesOf).sum := by
        rw [Nat.mul_add, Nat.add_mul]
      omega
    · intro c hc
      rcases List.mem_append.mp hc with hc | hc
      · exact g3 c hc
      · exact k4 c hc

theorem process_calls {w : Tree NodeData → Nat} {B : Nat → Nat} (hB : SupAdd B) {n : NestedCluster} {nc : NestedCalls}
    (hw : Within w B n nc) {rt : Runtime} {mcn : Int} {m : URLMeta} {kw : Bool} {t : Tree NodeData} {r : Tree NodeData × Bool}
    (h : process rt n mcn m kw t = .ok r) :
    ∃ cs, processC rt nc mcn m kw t = .ok (r, cs) ∧ wsum w cs ≤ 3 * (m.depth + 1) * B t.paths.length ∧ ∀ c ∈ cs, c.inner = true := by
  unfold process at h
  obtain ⟨a, h1, h2⟩ := bind_ok h
  obtain ⟨cs, g1, g2, g3⟩ := procLevel_calls hB hw h1
  injection h2 with h2
  subst h2
  refine ⟨cs, ?_, ?_, g3⟩
  · unfold processC
    simp only [bind, Except.bind, g1, pure, Except.pure]
  · simpa [leavesOf] using g2

/-- The calls of `cluster`, from those listed in `Model/Passes`. -/
theorem passes_calls {w : Tree NodeData → Nat} {B : Nat → Nat} (hB : SupAdd B) {n : NestedCluster} {nc : NestedCalls}
    (hw : Within w B n nc) {rt : Runtime} {mcn : Int} {m : URLMeta} {kw : Bool} (inner : Bool) {fuel : Nat} : ∀ {d : Nat} {t : Tree NodeData} {ps : List Pass},
    passesWith n rt mcn m kw fuel d t = .ok ps →
    ∃ cs, clusterWithC nc rt inner mcn m kw fuel t = .ok ((ps.filter (fun p => !p.split)).map Pass.after, cs) ∧
      wsum w cs ≤ (ps.map (fun p => w p.before + 3 * (m.depth + 1) * B p.before.paths.length)).sum ∧
      (inner = true → ∀ c ∈ cs, c.inner = true) ∧
      (inner = false → (cs.filter (fun c => !c.inner)).map ProcCall.tree = ps.map Pass.before) := by
  induction fuel with
  | zero =>
    intro d t ps h
    rw [passesWith] at h
    rw [clusterWithC]
    by_cases hc : t.root.count ≤ 0
    · rw [if_pos hc] at h ⊢
      injection h with h
      subst h
      exact ⟨[], rfl, Nat.zero_le _, by simp, by simp⟩
    · rw [if_neg hc] at h; cases h
  | succ fuel ih =>
    intro d t ps h
    rw [passesWith] at h
    rw [clusterWithC]
    by_cases hc : t.root.count ≤ 0
    · rw [if_pos hc] at h ⊢
      injection h with h
      subst h
      exact ⟨[], rfl, Nat.zero_le _, by simp, by simp⟩
    · rw [if_neg hc] at h ⊢
      obtain ⟨r, h1, h⟩ := bind_ok h
      obtain ⟨t', split⟩ := r
      obtain ⟨cs, g1, g2, g3⟩ := process_calls hB hw h1
      have hnone : cs.filter (fun c => !c.inner) = [] := by
        rw [List.filter_eq_nil_iff]
        intro c hc
        simp [g3 c hc]
      simp only at h
      cases split with
      | false =>
        simp only [Bool.false_eq_true, if_false] at h
        injection h with h
        subst h
        refine ⟨⟨inner, t⟩ :: cs, ?_, ?_, ?_, ?_⟩
        · simp only [bind, Except.bind, g1, pure, Except.pure, Bool.false_eq_true, if_false]
          rfl
        · simp only [wsum, List.map_cons, List.sum_cons, List.map_nil, List.sum_nil] at g2 ⊢
          omega
        · intro hi c hc
          rcases List.mem_cons.mp hc with rfl | hc
          · exact hi
          · exact g3 c hc
        · intro hi
          subst hi
          simp [List.filter_cons, hnone]
      | true =>
        simp only [if_true] at h
        obtain ⟨subs, h2, h⟩ := bind_ok h
        obtain ⟨rs, h3, h⟩ := bind_ok h
        injection h with h
        subst h
        have key : ∀ (subs : List (Tree NodeData)) (rs : List (List Pass)),
            subs.mapM (passesWith n rt mcn m kw fuel (d + 1)) = .ok rs →
            ∃ qs, subs.mapM (clusterWithC nc rt inner mcn m kw fuel) = .ok qs ∧
              qs.flatMap (·.1) = (rs.flatten.filter (fun p => !p.split)).map Pass.after ∧
              wsum w (qs.flatMap (·.2)) ≤ (rs.flatten.map (fun p => w p.before + 3 * (m.depth + 1) * B p.before.paths.length)).sum ∧
              (inner = true → ∀ c ∈ qs.flatMap (·.2), c.inner = true) ∧
              (inner = false → ((qs.flatMap (·.2)).filter (fun c => !c.inner)).map ProcCall.tree = rs.flatten.map Pass.before) := by
          intro subs
          induction subs with
          | nil =>
            intro rs h
            rw [List.mapM_nil] at h
            injection h with h
            subst h
            exact ⟨[], rfl, rfl, Nat.zero_le _, by simp, by simp⟩
          | cons s subs ihs =>
            intro rs h
            rw [List.mapM_cons] at h
            obtain ⟨p, hp, h⟩ := bind_ok h
            obtain ⟨pp, hpp, h⟩ := bind_ok h
            injection h with h
            subst h
            obtain ⟨c, a1, a2, a3, a4⟩ := ih hp
            obtain ⟨qs, b1, b2, b3, b4, b5⟩ := ihs pp hpp
            refine ⟨((p.filter (fun p => !p.split)).map Pass.after, c) :: qs, ?_, ?_, ?_, ?_, ?_⟩
            · rw [List.mapM_cons]
              simp only [bind, Except.bind, a1, b1, pure, Except.pure]
            · simp [List.flatMap_cons, b2, List.filter_append]
            · rw [List.flatMap_cons, wsum_append, List.flatten_cons, List.map_append, List.sum_append]
              simp only
              omega
            · intro hi x hx
              rw [List.flatMap_cons, List.mem_append] at hx
              rcases hx with hx | hx
              · exact a3 hi x hx
              · exact b4 hi x hx
            · intro hi
              rw [List.flatMap_cons, List.filter_append, List.map_append, a4 hi, b5 hi, List.flatten_cons, List.map_append]
        obtain ⟨qs, k1, k2, k3, k4, k5⟩ := key subs rs h3
        refine ⟨⟨inner, t⟩ :: cs ++ qs.flatMap (·.2), ?_, ?_, ?_, ?_⟩
        · simp only [bind, Except.bind, g1, h2, k1, pure, Except.pure, if_true, k2, List.filter_cons, Bool.not_true, Bool.false_eq_true, if_false]
        · rw [wsum_append]
          simp only [wsum, List.map_cons, List.sum_cons] at g2 k3 ⊢
          omega
        · intro hi c hc
          rcases List.mem_append.mp hc with hc | hc
          · rcases List.mem_cons.mp hc with rfl | hc
            · exact hi
            · exact g3 c hc
          · exact k4 hi c hc
        · intro hi
          have k6 := k5 hi
          subst hi
          rw [List.filter_append, List.map_append, k6, List.filter_cons, hnone]
          rfl

end OsUrl
