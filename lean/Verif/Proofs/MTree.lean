import Verif.Proofs.Vms
import Verif.Proofs.Shape

/-! The match tree in terms of the sequence of insertions. -/

namespace OsUrl

theorem Forest.upsertM_ok {α β : Type} {k : Str} {init : α} {g : α → Forest α → Py (α × Forest α × β)}
    {f f' : Forest α} {r : β} (h : f.upsertM k init g = .ok (f', r)) :
    ∃ a kids, g ((f.get? k).getD (init, .nil)).1 ((f.get? k).getD (init, .nil)).2 = .ok (a, kids, r) ∧
      ∀ k', f'.get? k' = if k' = k then some (a, kids) else f.get? k' := by
  induction f generalizing f' with
  | nil =>
    simp only [Forest.upsertM] at h
    obtain ⟨⟨a, kids, r'⟩, h1, h2⟩ := bind_ok h
    simp [pure, Except.pure] at h2
    obtain ⟨rfl, rfl⟩ := h2
    refine ⟨a, kids, h1, ?_⟩
    intro k'
    simp only [Forest.get?]
    by_cases hk : k = k'
    · simp [hk]
    · have : ¬ k' = k := fun h => hk h.symm
      simp [hk, this]
  | cons k0 a0 kids0 sibs ih1 ih2 =>
    simp only [Forest.upsertM] at h
    by_cases hk : k0 = k
    · rw [if_pos hk] at h
      obtain ⟨⟨a, kids, r'⟩, h1, h2⟩ := bind_ok h
      simp [pure, Except.pure] at h2
      obtain ⟨rfl, rfl⟩ := h2
      refine ⟨a, kids, ?_, ?_⟩
      · simpa [Forest.get?, hk] using h1
      · intro k'
        simp only [Forest.get?]
        by_cases hk' : k0 = k'
        · simp [hk', hk'.symm.trans hk]
        · have : ¬ k' = k := fun h => hk' (hk.trans h.symm)
          simp [hk', this]
    · rw [if_neg hk] at h
      obtain ⟨⟨f2, r'⟩, h1, h2⟩ := bind_ok h
      simp [pure, Except.pure] at h2
      obtain ⟨rfl, rfl⟩ := h2
      obtain ⟨a, kids, h3, h4⟩ := ih2 h1
      refine ⟨a, kids, ?_, ?_⟩
      · simpa [Forest.get?, hk] using h3
      · intro k'
        simp only [Forest.get?, h4]
        by_cases hk' : k0 = k'
        · have : ¬ k' = k := fun h => hk (hk'.trans h)
          simp [hk', this]
        · simp [hk']

theorem Forest.upsertM_total {α β : Type} {k : Str} {init : α} {g : α → Forest α → Py (α × Forest α × β)}
    (f : Forest α) (h : ∀ a kids, (a, kids) = (f.get? k).getD (init, .nil) → ∃ r, g a kids = .ok r) :
    ∃ r, f.upsertM k init g = .ok r := by
  induction f with
  | nil =>
    obtain ⟨⟨a, kids, r⟩, hr⟩ := h init .nil rfl
    exact ⟨_, by simp only [Forest.upsertM, hr]; rfl⟩
  | cons k0 a0 kids0 sibs ih1 ih2 =>
    simp only [Forest.upsertM]
    by_cases hk : k0 = k
    · obtain ⟨⟨a, kids, r⟩, hr⟩ := h a0 kids0 (by simp [Forest.get?, hk])
      exact ⟨_, by simp only [if_pos hk, hr]; rfl⟩
    · obtain ⟨⟨f', r⟩, hr⟩ := ih2 (fun a kids e => h a kids (by simpa [Forest.get?, hk] using e))
      exact ⟨_, by simp only [if_neg hk, hr]; rfl⟩

section
variable {σ μ : Type}

/-- An insertion: the patterns from the root and the meta. -/
abbrev MIns (μ : Type) := List MatchPattern × Option μ

/-- The first patterns of the insertions. -/
def heads (L : List (MIns μ)) : List MatchPattern := L.filterMap (·.1.head?)

/-- The insertions that go to the child `k`, from there on. -/
def sub (k : Str) (L : List (MIns μ)) : List (MIns μ) :=
  (L.filter (fun x => decide (x.1.head?.map (·.str) = some k))).map (fun x => (x.1.tail, x.2))

/-- The meta a node ends with: the last one that is not `None`. -/
def lastMd (L : List (MIns μ)) : Option μ := L.foldl (fun acc x => x.2.or acc) none

/-- At every position a text has one pattern. -/
def Coh (L : List (MIns μ)) : Prop :=
  ∀ x ∈ L, ∀ y ∈ L, ∀ (i : Nat) p q, x.1[i]? = some p → y.1[i]? = some q → p.str = q.str → p = q

theorem mem_sub {k : Str} {L : List (MIns μ)} {z : MIns μ} :
    z ∈ sub k L ↔ ∃ p, p.str = k ∧ (p :: z.1, z.2) ∈ L := by
  unfold sub
  simp only [List.mem_map, List.mem_filter, decide_eq_true_eq]
  constructor
  · rintro ⟨⟨x, md⟩, ⟨h1, h2⟩, rfl⟩
    cases x with
    | nil => simp at h2
    | cons p x => simp at h2; exact ⟨p, h2, h1⟩
  · rintro ⟨p, rfl, h⟩
    exact ⟨_, ⟨h, by simp⟩, by simp⟩

theorem mem_heads {L : List (MIns μ)} {p : MatchPattern} : p ∈ heads L ↔ ∃ ps md, (p :: ps, md) ∈ L := by
  unfold heads
  rw [List.mem_filterMap]
  constructor
  · rintro ⟨⟨x, md⟩, h1, h2⟩
    cases x with
    | nil => simp at h2
    | cons q x => simp at h2; subst h2; exact ⟨x, md, h1⟩
  · rintro ⟨ps, md, h⟩
    exact ⟨_, h, rfl⟩

theorem sub_concat (k : Str) (L : List (MIns μ)) (p : MatchPattern) (ps : List MatchPattern) (md : Option μ) :
    sub k (L ++ [(p :: ps, md)]) = sub k L ++ (if p.str = k then [(ps, md)] else []) := by
  unfold sub
  by_cases h : p.str = k <;> simp [List.filter_append, h]

theorem heads_concat (L : List (MIns μ)) (p : MatchPattern) (ps : List MatchPattern) (md : Option μ) :
    heads (L ++ [(p :: ps, md)]) = heads L ++ [p] := by
  simp [heads, List.filterMap_append]

theorem Coh.sub {L : List (MIns μ)} (h : Coh L) (k : Str) : Coh (sub k L) := by
  intro x hx y hy i p q hp hq e
  obtain ⟨a, -, ha⟩ := mem_sub.mp hx
  obtain ⟨b, -, hb⟩ := mem_sub.mp hy
  exact h _ ha _ hb (i + 1) p q (by simpa using hp) (by simpa using hq) e

theorem Coh.head {L : List (MIns μ)} (h : Coh L) {p q : MatchPattern} (hp : p ∈ heads L) (hq : q ∈ heads L)
    (e : p.str = q.str) : p = q := by
  obtain ⟨_, _, ha⟩ := mem_heads.mp hp
  obtain ⟨_, _, hb⟩ := mem_heads.mp hq
  exact h _ ha _ hb 0 p q (by simp) (by simp) e

theorem Coh.left {L M : List (MIns μ)} (h : Coh (L ++ M)) : Coh L :=
  fun x hx y hy => h x (by simp [hx]) y (by simp [hy])

theorem sub_eq_nil {k : Str} {L : List (MIns μ)} : sub k L = [] ↔ ∀ p ∈ heads L, p.str ≠ k := by
  constructor
  · intro h p hp e
    obtain ⟨ps, md, hm⟩ := mem_heads.mp hp
    have : ((ps, md) : MIns μ) ∈ sub k L := mem_sub.mpr ⟨p, e, hm⟩
    rw [h] at this; simp at this
  · intro h
    rw [List.eq_nil_iff_forall_not_mem]
    intro z hz
    obtain ⟨p, e, hm⟩ := mem_sub.mp hz
    exact h p (mem_heads.mpr ⟨_, _, hm⟩) e

theorem sub_length {k : Str} {L : List (MIns μ)} {n : Nat} (h : ∀ y ∈ L, y.1.length = n + 1) :
    ∀ y ∈ sub k L, y.1.length = n := by
  intro y hy
  obtain ⟨p, -, hm⟩ := mem_sub.mp hy
  simpa using h _ hm

theorem lastMd_sub {L : List (MIns μ)} (hc : Coh L) {p : MatchPattern} {k : Str} (hp : p ∈ heads L) (hk : p.str = k)
    {ps : List MatchPattern} : lastMd ((sub k L).filter (fun y => decide (y.1 = ps))) =
      lastMd (L.filter (fun y => decide (y.1 = p :: ps))) := by
  unfold sub lastMd
  rw [List.filter_map, List.foldl_map, List.filter_filter]
  congr 1
  apply List.filter_congr
  intro y hy
  obtain ⟨yp, ymd⟩ := y
  cases yp with
  | nil => simp
  | cons q qs =>
    simp only [Function.comp_def, List.tail_cons, List.head?_cons, Option.map_some, Option.some.injEq, List.cons.injEq]
    rw [Bool.eq_iff_iff, Bool.and_eq_true]
    refine Iff.trans (b := qs = ps ∧ q.str = k) ?_ ?_
    · exact and_congr decide_eq_true_iff decide_eq_true_iff
    rw [decide_eq_true_eq]
    constructor
    · rintro ⟨h1, h2⟩
      exact ⟨hc.head (mem_heads.mpr ⟨_, _, hy⟩) hp (h2.trans hk.symm), h1⟩
    · rintro ⟨rfl, h1⟩
      exact ⟨h1, hk⟩

/-- The tree below a node is the result of the insertions `L`, all of length `n`. -/
def T (ops : VMOps σ) : Nat → List (MIns μ) → MData σ μ → Forest (MData σ μ) → Prop
  | 0, L, d, kids => kids = .nil ∧ d.md = lastMd L ∧ d.count = L.length
  | n + 1, L, d, kids =>
    addAll ops (uniq (heads L)) = .ok d.vms ∧
    (∀ k, match kids.get? k with
      | none => sub k L = []
      | some (d', kids') => sub k L ≠ [] ∧ d'.pat ∈ heads L ∧ d'.pat.str = k ∧ T ops n (sub k L) d' kids') ∧
    d.count = L.length

theorem T.new {ops : VMOps σ} (n : Nat) (p : MatchPattern) : T ops n ([] : List (MIns μ)) (MData.new p) .nil := by
  cases n with
  | zero => exact ⟨rfl, rfl, rfl⟩
  | succ n =>
    refine ⟨rfl, ?_, rfl⟩
    intro k
    rfl

theorem T.absent {ops : VMOps σ} {n : Nat} {L : List (MIns μ)} {d : MData σ μ} {kids : Forest (MData σ μ)}
    (h : T ops (n + 1) L d kids) (k : Str) : (kids.get? k).isNone = true ↔ sub k L = [] := by
  have := h.2.1 k
  cases hk : kids.get? k with
  | none => rw [hk] at this; simpa using this
  | some x => rw [hk] at this; simpa using this.1

theorem T.child {ops : VMOps σ} {n : Nat} {L : List (MIns μ)} {d : MData σ μ} {kids : Forest (MData σ μ)}
    (h : T ops (n + 1) L d kids) {k : Str} {d' : MData σ μ} {kids' : Forest (MData σ μ)}
    (hk : kids.get? k = some (d', kids')) :
    sub k L ≠ [] ∧ d'.pat ∈ heads L ∧ d'.pat.str = k ∧ T ops n (sub k L) d' kids' := by
  have := h.2.1 k
  rw [hk] at this
  exact this

/-- One step of an insertion. -/
theorem minsert_cons {ops : VMOps σ} {md : Option μ} {p : MatchPattern} {ps : List MatchPattern}
    {d d' : MData σ μ} {kids kids' : Forest (MData σ μ)} {r0 r : Option Bool}
    (h : minsert ops md (p :: ps) r0 d kids = .ok (d', kids', r)) :
    ∃ vms, (if (kids.get? p.str).isNone = true then addMatchNode ops p d.vms else .ok d.vms) = .ok vms ∧
      kids.upsertM p.str (MData.new p) (minsert ops md ps (some (kids.get? p.str).isNone)) = .ok (kids', r) ∧
      d' = { d with count := d.count + 1, vms := vms } := by
  simp only [minsert] at h
  by_cases hn : (kids.get? p.str).isNone = true
  · rw [if_pos hn] at h ⊢
    obtain ⟨vms, h1, h⟩ := bind_ok h
    obtain ⟨⟨kids2, r2⟩, h2, h⟩ := bind_ok h
    simp [pure, Except.pure] at h
    obtain ⟨rfl, rfl, rfl⟩ := h
    exact ⟨vms, h1, h2, rfl⟩
  · rw [if_neg hn] at h ⊢
    obtain ⟨vms, h1, h⟩ := bind_ok h
    obtain ⟨⟨kids2, r2⟩, h2, h⟩ := bind_ok h
    simp [pure, Except.pure] at h h1
    obtain ⟨rfl, rfl, rfl⟩ := h
    exact ⟨vms, by rw [h1], h2, rfl⟩

/-- One insertion. -/
theorem minsert_T {ops : VMOps σ} {md : Option μ} {n : Nat} {x : List MatchPattern} (hx : x.length = n)
    {L : List (MIns μ)} (hL : ∀ y ∈ L, y.1.length = n) {d d' : MData σ μ} {kids kids' : Forest (MData σ μ)} {r0 r : Option Bool}
    (hT : T ops n L d kids) (hc : Coh (L ++ [(x, md)]))
    (h : minsert ops md x r0 d kids = .ok (d', kids', r)) :
    T ops n (L ++ [(x, md)]) d' kids' ∧ d'.pat = d.pat ∧
      r = if x = [] then r0 else some (decide (∀ y ∈ L, y.1 ≠ x)) := by
  induction x generalizing n L d d' kids kids' r0 with
  | nil =>
    simp at hx; subst hx
    simp [minsert] at h
    obtain ⟨rfl, rfl, rfl⟩ := h
    refine ⟨⟨hT.1, ?_, ?_⟩, rfl, by simp⟩
    · simp [lastMd, List.foldl_append]
      exact congrArg (Option.or md) hT.2.1
    · simp [hT.2.2]
  | cons p ps ih =>
    cases n with
    | zero => simp at hx
    | succ n =>
      obtain ⟨vms, h1, h2, rfl⟩ := minsert_cons h
      obtain ⟨a, ks, h3, h4⟩ := Forest.upsertM_ok h2
      have hsub : sub p.str (L ++ [(p :: ps, md)]) = sub p.str L ++ [(ps, md)] := by
        rw [sub_concat, if_pos rfl]
      have hcs : Coh (sub p.str L ++ [(ps, md)]) := by rw [← hsub]; exact hc.sub _
      have hTc : T ops n (sub p.str L) ((kids.get? p.str).getD (MData.new p, .nil)).1
          ((kids.get? p.str).getD (MData.new p, .nil)).2 := by
        have := hT.2.1 p.str
        cases hk : kids.get? p.str with
        | none => rw [hk] at this; simp at this; rw [this]; exact T.new n p
        | some x => rw [hk] at this; exact this.2.2.2
      obtain ⟨hT', hpat, hr⟩ := ih (by simpa using hx) (sub_length hL) hTc hcs h3
      have hpin : p ∈ heads L ∨ ∀ q ∈ heads L, q.str ≠ p.str := by
        by_cases he : ∃ q ∈ heads L, q.str = p.str
        · obtain ⟨q, hq, e⟩ := he
          left
          have := hc.head (p := q) (q := p) (by rw [heads_concat]; simp [hq]) (by rw [heads_concat]; simp) e
          rw [← this]; exact hq
        · right; intro q hq e; exact he ⟨q, hq, e⟩
      have hnew := hT.absent p.str
      refine ⟨⟨?_, ?_, by simp [hT.2.2]⟩, rfl, ?_⟩
      · simp only
        rw [heads_concat, uniq_concat]
        by_cases hn : (kids.get? p.str).isNone = true
        · rw [if_pos hn] at h1
          have hno : p ∉ uniq (heads L) := by
            rw [mem_uniq]; intro hm
            exact sub_eq_nil.mp (hnew.mp hn) p hm rfl
          rw [show setAdd p (uniq (heads L)) = uniq (heads L) ++ [p] by simp [setAdd, hno], addAll_concat, hT.1]
          exact h1
        · rw [if_neg hn] at h1
          have hyes : p ∈ uniq (heads L) := by
            rw [mem_uniq]
            rcases hpin with h | h
            · exact h
            · exact absurd (hnew.mpr (sub_eq_nil.mpr h)) hn
          rw [show setAdd p (uniq (heads L)) = uniq (heads L) by simp [setAdd, hyes], hT.1]
          exact h1
      · intro k
        rw [h4]
        by_cases hk : k = p.str
        · rw [if_pos hk, hk]
          refine ⟨by rw [hsub]; simp, ?_, ?_, by rw [hsub]; exact hT'⟩
          · rw [hpat]
            cases hg : kids.get? p.str with
            | none => rw [heads_concat]; simp [MData.new]
            | some x => rw [heads_concat]; simp [(hT.child hg).2.1]
          · rw [hpat]
            cases hg : kids.get? p.str with
            | none => simp [MData.new]
            | some x => simp [(hT.child hg).2.2.1]
        · rw [if_neg hk]
          have hk' : ¬ p.str = k := fun h => hk h.symm
          have hs : sub k (L ++ [(p :: ps, md)]) = sub k L := by rw [sub_concat, if_neg hk']; simp
          have := hT.2.1 k
          cases hg : kids.get? k with
          | none => rw [hg] at this; simp only at this ⊢; rw [hs]; exact this
          | some x =>
            rw [hg] at this; simp only at this ⊢; rw [hs]
            refine ⟨this.1, ?_, this.2.2⟩
            rw [heads_concat]; simp [this.2.1]
      · rw [if_neg (by simp), hr]
        by_cases hps : ps = []
        · subst hps
          rw [if_pos rfl]
          congr 1
          rw [Bool.eq_iff_iff, hnew, decide_eq_true_eq, sub_eq_nil]
          have hn0 : n = 0 := by simpa using hx.symm
          constructor
          · intro hs y hy e
            exact hs p (mem_heads.mpr ⟨[], y.2, by rw [← e]; exact hy⟩) rfl
          · intro hs q hq e
            have hqp : q = p := hc.head (by rw [heads_concat]; simp [hq]) (by rw [heads_concat]; simp) e
            subst hqp
            obtain ⟨qs, qmd, hm⟩ := mem_heads.mp hq
            -- all insertions have length one: the child's insertions are empty
            have hlen : qs = [] := by
              have := hL _ hm
              rw [hn0] at this
              simpa using this
            subst hlen
            exact hs _ hm rfl
        · rw [if_neg hps]
          congr 1
          rw [Bool.eq_iff_iff, decide_eq_true_eq, decide_eq_true_eq]
          constructor
          · intro hs y hy e
            exact hs (ps, y.2) (mem_sub.mpr ⟨p, rfl, by rw [← e]; exact hy⟩) rfl
          · intro hs z hz e
            obtain ⟨q, hq, hm⟩ := mem_sub.mp hz
            have hqp : q = p := hc.head (by rw [heads_concat]; simp [mem_heads.mpr ⟨_, _, hm⟩])
              (by rw [heads_concat]; simp) hq
            subst hqp
            rw [e] at hm
            exact hs _ hm rfl

/-- An insertion succeeds if the patterns can be added. -/
theorem minsert_total {ops : VMOps σ} {md : Option μ} {x : List MatchPattern}
    (hx : ∀ p ∈ x, ∀ s, ∃ s', ops.add p s = .ok s') (r0 : Option Bool) (d : MData σ μ) (kids : Forest (MData σ μ)) :
    ∃ r, minsert ops md x r0 d kids = .ok r := by
  induction x generalizing r0 d kids with
  | nil => exact ⟨_, rfl⟩
  | cons p ps ih =>
    simp only [minsert]
    obtain ⟨vms, hv⟩ := addMatchNode_ok d.vms (hx p (by simp))
    obtain ⟨⟨kids2, r2⟩, h2⟩ := Forest.upsertM_total (k := p.str) (init := MData.new p)
      (g := minsert ops md ps (some (kids.get? p.str).isNone)) kids
      (fun a ks _ => ih (fun q hq => hx q (by simp [hq])) _ a ks)
    by_cases hn : (kids.get? p.str).isNone = true
    · rw [if_pos hn, hv]
      simp only [bind, Except.bind, h2, pure, Except.pure]
      exact ⟨_, rfl⟩
    · rw [if_neg hn]
      simp only [bind, Except.bind, h2, pure, Except.pure]
      exact ⟨_, rfl⟩

/-- The flag of an insertion is bound when the path is not empty. -/
theorem minsert_flag {ops : VMOps σ} {md : Option μ} {x : List MatchPattern} {r0 r : Option Bool}
    {d d' : MData σ μ} {kids kids' : Forest (MData σ μ)} (h : minsert ops md x r0 d kids = .ok (d', kids', r))
    (h0 : x ≠ [] ∨ r0.isSome = true) : r.isSome = true := by
  induction x generalizing r0 d d' kids kids' with
  | nil =>
    simp [minsert] at h
    rw [← h.2.2]
    simpa using h0
  | cons p ps ih =>
    obtain ⟨vms, h1, h2, rfl⟩ := minsert_cons h
    obtain ⟨a, ks, h3, h4⟩ := Forest.upsertM_ok h2
    exact ih h3 (.inr rfl)

/-! ### matching -/

/-- The child with pattern `p`, among children `ps`, is selected for the piece. -/
def Sel (ops : VMOps σ) (pp : Option ParsedPiece) (ps : List MatchPattern) (p : MatchPattern) : Prop :=
  ∃ vms c s keys, addAll ops ps = .ok vms ∧ (c, s) ∈ vms ∧ ops.matches_ c pp s = .ok keys ∧ p.str ∈ keys

/-- The path is selected at every level. -/
def Hits (ops : VMOps σ) : List (Option ParsedPiece) → List (MIns μ) → List MatchPattern → Prop
  | _, _, [] => True
  | [], _, _ :: _ => False
  | pp :: rest, L, p :: ps => Sel ops pp (uniq (heads L)) p ∧ Hits ops rest (sub p.str L) ps

theorem mem_derefs {kids : Forest (MData σ μ)} {keys : List Str} {x : MData σ μ × Forest (MData σ μ)} :
    x ∈ derefs kids keys ↔ ∃ k ∈ keys, kids.get? k = some x := by
  unfold derefs; rw [List.mem_filterMap]

theorem T.isNil {ops : VMOps σ} {n : Nat} {L : List (MIns μ)} {d : MData σ μ} {kids : Forest (MData σ μ)}
    (h : T ops n L d kids) (hL : ∀ y ∈ L, y.1.length = n) (hne : L ≠ []) : kids.isNil = true ↔ n = 0 := by
  cases n with
  | zero => rw [h.1]; simp [Forest.isNil]
  | succ n =>
    simp only [Nat.add_eq_zero_iff, Nat.one_ne_zero, and_false, iff_false]
    intro hn
    obtain ⟨y, hy⟩ := List.exists_mem_of_ne_nil _ hne
    obtain ⟨x, md⟩ := y
    cases x with
    | nil => have := hL _ hy; simp at this
    | cons p ps =>
      have hs : sub p.str L ≠ [] := by
        intro h0
        exact sub_eq_nil.mp h0 p (mem_heads.mpr ⟨_, _, hy⟩) rfl
      have := h.2.1 p.str
      cases kids with
      | nil => exact hs this
      | cons => simp [Forest.isNil] at hn

theorem mapM_flatten_mem {α β : Type} {f : α → Py (List β)} {l : List α} {bss : List (List β)}
    (h : l.mapM f = .ok bss) (b : β) : b ∈ bss.flatten ↔ ∃ a ∈ l, ∃ bs, f a = .ok bs ∧ b ∈ bs := by
  induction l generalizing bss with
  | nil => rw [mapM_ok_nil h]; simp
  | cons a l ih =>
    obtain ⟨bs, bss', h1, h2, rfl⟩ := mapM_ok_cons h
    simp only [List.flatten_cons, List.mem_append, ih h2, List.mem_cons, exists_eq_or_imp]
    simp [h1]

theorem mapM_total {α β : Type} {f : α → Py β} {l : List α} (h : ∀ a ∈ l, ∃ b, f a = .ok b) :
    ∃ bs, l.mapM f = .ok bs := by
  induction l with
  | nil => exact ⟨[], rfl⟩
  | cons a l ih =>
    obtain ⟨b, hb⟩ := h a (by simp)
    obtain ⟨bs, hbs⟩ := ih (fun x hx => h x (by simp [hx]))
    exact ⟨b :: bs, by simp [List.mapM_cons, hb, hbs, bind, Except.bind, pure, Except.pure]⟩

/-- What one view matcher contributes. -/
def vmStep (ops : VMOps σ) (pp : Option ParsedPiece) (rest : List (Option ParsedPiece)) (pre : List MatchPattern)
    (kids : Forest (MData σ μ)) (vm : ViewCls × σ) : Py (List (Matched σ μ)) := do
  let keys ← ops.matches_ vm.1 pp vm.2
  match derefs kids keys with
  | [] => return []
  | (d0, k0) :: ns =>
    if k0.isNil then
      return ((d0, k0) :: ns).map (fun n => (⟨pre ++ [n.1.pat], n.1⟩ : Matched σ μ))
    else do
      let ms ← ((d0, k0) :: ns).mapM (fun n => mmatch ops rest (pre ++ [n.1.pat]) n.1 n.2)
      return ms.flatten

theorem mmatch_cons (ops : VMOps σ) (pp : Option ParsedPiece) (rest : List (Option ParsedPiece))
    (pre : List MatchPattern) (d : MData σ μ) (kids : Forest (MData σ μ)) :
    mmatch ops (pp :: rest) pre d kids = (do
      let rs ← d.vms.mapM (vmStep ops pp rest pre kids)
      return rs.flatten) := by
  rw [mmatch]; rfl

/-- In a tree of insertions of length `n + 1`, the nodes found below a view matcher. -/
theorem vmStep_mem {ops : VMOps σ} {n : Nat} {L : List (MIns μ)} {d : MData σ μ} {kids : Forest (MData σ μ)}
    (hT : T ops (n + 1) L d kids) (hL : ∀ y ∈ L, y.1.length = n + 1)
    {pp : Option ParsedPiece} {rest : List (Option ParsedPiece)} {pre : List MatchPattern} {vm : ViewCls × σ}
    {rs : List (Matched σ μ)} (h : vmStep ops pp rest pre kids vm = .ok rs) (m : Matched σ μ) :
    m ∈ rs ↔ ∃ keys, ops.matches_ vm.1 pp vm.2 = .ok keys ∧ ∃ k ∈ keys, ∃ x, kids.get? k = some x ∧
      if n = 0 then m = ⟨pre ++ [x.1.pat], x.1⟩
      else ∃ ms, mmatch ops rest (pre ++ [x.1.pat]) x.1 x.2 = .ok ms ∧ m ∈ ms := by
  unfold vmStep at h
  obtain ⟨keys, hk, h⟩ := bind_ok h
  have hnil : ∀ x ∈ derefs kids keys, (x.2.isNil = true ↔ n = 0) := by
    intro x hx
    obtain ⟨k, -, hg⟩ := mem_derefs.mp hx
    obtain ⟨d', kids'⟩ := x
    obtain ⟨hs, -, -, hT'⟩ := hT.child hg
    exact hT'.isNil (sub_length hL) hs
  have key : (∃ x ∈ derefs kids keys, if n = 0 then m = ⟨pre ++ [x.1.pat], x.1⟩
        else ∃ ms, mmatch ops rest (pre ++ [x.1.pat]) x.1 x.2 = .ok ms ∧ m ∈ ms) ↔
      (∃ keys, ops.matches_ vm.1 pp vm.2 = .ok keys ∧ ∃ k ∈ keys, ∃ x, kids.get? k = some x ∧
      if n = 0 then m = ⟨pre ++ [x.1.pat], x.1⟩
      else ∃ ms, mmatch ops rest (pre ++ [x.1.pat]) x.1 x.2 = .ok ms ∧ m ∈ ms) := by
    constructor
    · rintro ⟨x, hx, h⟩
      obtain ⟨k, hk1, hg⟩ := mem_derefs.mp hx
      exact ⟨keys, hk, k, hk1, x, hg, h⟩
    · rintro ⟨keys', hk', k, hk1, x, hg, h⟩
      rw [hk] at hk'
      simp at hk'; subst hk'
      exact ⟨x, mem_derefs.mpr ⟨k, hk1, hg⟩, h⟩
  rw [← key]
  clear key
  cases hd : derefs kids keys with
  | nil =>
    rw [hd] at h
    simp [pure, Except.pure] at h
    rw [h]; simp
  | cons x xs =>
    rw [hd] at h hnil
    obtain ⟨d0, k0⟩ := x
    simp only at h
    by_cases hn : n = 0
    · rw [if_pos ((hnil (d0, k0) (by simp)).mpr hn)] at h
      simp only [pure, Except.pure, Except.ok.injEq] at h
      rw [← h, List.mem_map]
      simp only [if_pos hn]
      constructor
      · rintro ⟨x, hx, rfl⟩; exact ⟨x, hx, rfl⟩
      · rintro ⟨x, hx, rfl⟩; exact ⟨x, hx, rfl⟩
    · rw [if_neg (fun h' => hn ((hnil (d0, k0) (by simp)).mp h'))] at h
      obtain ⟨ms, hms, h⟩ := bind_ok h
      simp only [pure, Except.pure, Except.ok.injEq] at h
      rw [← h, mapM_flatten_mem hms]
      simp only [if_neg hn]

/-- All results of matching in a tree of insertions. -/
theorem mmatch_sound {ops : VMOps σ} {n : Nat} {L : List (MIns μ)} {d : MData σ μ} {kids : Forest (MData σ μ)}
    (hT : T ops (n + 1) L d kids) (hL : ∀ y ∈ L, y.1.length = n + 1) (hc : Coh L)
    {pps : List (Option ParsedPiece)} {pre : List MatchPattern} {rs : List (Matched σ μ)}
    (h : mmatch ops pps pre d kids = .ok rs) {m : Matched σ μ} (hm : m ∈ rs) :
    ∃ x ∈ L, m.path = pre ++ x.1 ∧ Hits ops pps L x.1 ∧
      m.data.md = lastMd (L.filter (fun y => decide (y.1 = x.1))) := by
  induction n generalizing L d kids pps pre rs with
  | zero =>
    cases pps with
    | nil => simp [mmatch] at h
    | cons pp rest =>
      rw [mmatch_cons] at h
      obtain ⟨rss, h1, h⟩ := bind_ok h
      simp only [pure, Except.pure, Except.ok.injEq] at h
      rw [← h, mapM_flatten_mem h1] at hm
      obtain ⟨vm, hvm, bs, hbs, hm⟩ := hm
      rw [vmStep_mem hT hL hbs] at hm
      obtain ⟨keys, hkeys, k, hk, x, hg, hm⟩ := hm
      rw [if_pos rfl] at hm
      subst hm
      obtain ⟨d', kids'⟩ := x
      obtain ⟨hs, hpat, hstr, hT'⟩ := hT.child hg
      obtain ⟨ps, md, hin⟩ := mem_heads.mp hpat
      have hps : ps = [] := by simpa using hL _ hin
      subst hps
      refine ⟨_, hin, rfl, ⟨⟨d.vms, vm.1, vm.2, keys, hT.1, hvm, hkeys, by rw [hstr]; exact hk⟩, by simp [Hits]⟩, ?_⟩
      rw [hT'.2.1]
      unfold sub lastMd
      rw [List.foldl_map]
      congr 1
      apply List.filter_congr
      intro y hy
      rw [decide_eq_decide]
      obtain ⟨yp, ymd⟩ := y
      have hy1 := hL _ hy
      simp only at hy1 ⊢
      obtain ⟨q, rfl⟩ := List.length_eq_one_iff.mp hy1
      simp only [List.head?_cons, Option.map_some, Option.some.injEq, List.cons.injEq, and_true]
      constructor
      · intro e
        exact hc.head (mem_heads.mpr ⟨_, _, hy⟩) hpat (e.trans hstr.symm)
      · intro e; rw [e]; exact hstr
  | succ n ih =>
    cases pps with
    | nil => simp [mmatch] at h
    | cons pp rest =>
      rw [mmatch_cons] at h
      obtain ⟨rss, h1, h⟩ := bind_ok h
      simp only [pure, Except.pure, Except.ok.injEq] at h
      rw [← h, mapM_flatten_mem h1] at hm
      obtain ⟨vm, hvm, bs, hbs, hm⟩ := hm
      rw [vmStep_mem hT hL hbs] at hm
      obtain ⟨keys, hkeys, k, hk, x, hg, hm⟩ := hm
      rw [if_neg (by omega)] at hm
      obtain ⟨ms, hms, hm⟩ := hm
      obtain ⟨d', kids'⟩ := x
      obtain ⟨hs, hpat, hstr, hT'⟩ := hT.child hg
      obtain ⟨y, hy, hpath, hhits, hmd⟩ := ih hT' (sub_length hL) (hc.sub _) hms hm
      obtain ⟨q, hq, hin⟩ := mem_sub.mp hy
      have hqp : q = d'.pat := hc.head (mem_heads.mpr ⟨_, _, hin⟩) hpat (hq.trans hstr.symm)
      subst hqp
      refine ⟨_, hin, by rw [hpath]; simp, ⟨⟨d.vms, vm.1, vm.2, keys, hT.1, hvm, hkeys, by rw [hstr]; exact hk⟩,
        by rw [hstr]; exact hhits⟩, ?_⟩
      rw [hmd, lastMd_sub hc hpat hstr]

theorem T.get {ops : VMOps σ} {n : Nat} {L : List (MIns μ)} {d : MData σ μ} {kids : Forest (MData σ μ)}
    (hT : T ops (n + 1) L d kids) {p : MatchPattern} (hp : p ∈ heads L) : ∃ x, kids.get? p.str = some x := by
  cases hg : kids.get? p.str with
  | some x => exact ⟨x, rfl⟩
  | none =>
    have := (hT.absent p.str).mp (by simp [hg])
    exact absurd rfl (sub_eq_nil.mp this p hp)

/-- Every insertion that is selected at all levels is found. -/
theorem mmatch_complete {ops : VMOps σ} {n : Nat} {L : List (MIns μ)} {d : MData σ μ} {kids : Forest (MData σ μ)}
    (hT : T ops (n + 1) L d kids) (hL : ∀ y ∈ L, y.1.length = n + 1) (hc : Coh L)
    {pps : List (Option ParsedPiece)} {pre : List MatchPattern} {rs : List (Matched σ μ)}
    (h : mmatch ops pps pre d kids = .ok rs) {x : MIns μ} (hx : x ∈ L) (hh : Hits ops pps L x.1) :
    ∃ m ∈ rs, m.path = pre ++ x.1 := by
  induction n generalizing L d kids pps pre rs x with
  | zero =>
    cases pps with
    | nil => simp [mmatch] at h
    | cons pp rest =>
      obtain ⟨xp, md⟩ := x
      cases xp with
      | nil => have := hL _ hx; simp at this
      | cons p ps =>
        obtain ⟨⟨vms, c, s, keys, h1, h2, h3, h4⟩, -⟩ := hh
        rw [hT.1] at h1
        simp at h1; subst h1
        have hp : p ∈ heads L := mem_heads.mpr ⟨_, _, hx⟩
        obtain ⟨⟨d', kids'⟩, hg⟩ := hT.get hp
        obtain ⟨-, hpat, hstr, hT'⟩ := hT.child hg
        have hpp : d'.pat = p := hc.head hpat hp hstr
        have hps : ps = [] := by simpa using hL _ hx
        subst hps
        rw [mmatch_cons] at h
        obtain ⟨rss, h5, h⟩ := bind_ok h
        simp only [pure, Except.pure, Except.ok.injEq] at h
        obtain ⟨bs, hbs, h6⟩ := mapM_ok_mem h5 h2
        refine ⟨⟨pre ++ [d'.pat], d'⟩, ?_, by rw [hpp]⟩
        rw [← h, List.mem_flatten]
        refine ⟨bs, hbs, ?_⟩
        rw [vmStep_mem hT hL h6]
        exact ⟨keys, h3, p.str, h4, (d', kids'), hg, by simp⟩
  | succ n ih =>
    cases pps with
    | nil => simp [mmatch] at h
    | cons pp rest =>
      obtain ⟨xp, md⟩ := x
      cases xp with
      | nil => have := hL _ hx; simp at this
      | cons p ps =>
        obtain ⟨⟨vms, c, s, keys, h1, h2, h3, h4⟩, hh'⟩ := hh
        rw [hT.1] at h1
        simp at h1; subst h1
        have hp : p ∈ heads L := mem_heads.mpr ⟨_, _, hx⟩
        obtain ⟨⟨d', kids'⟩, hg⟩ := hT.get hp
        obtain ⟨-, hpat, hstr, hT'⟩ := hT.child hg
        have hpp : d'.pat = p := hc.head hpat hp hstr
        rw [mmatch_cons] at h
        obtain ⟨rss, h5, h⟩ := bind_ok h
        simp only [pure, Except.pure, Except.ok.injEq] at h
        obtain ⟨bs, hbs, h6⟩ := mapM_ok_mem h5 h2
        -- the step succeeded, so did the search below the child
        have hsub : ∃ ms, mmatch ops rest (pre ++ [d'.pat]) d' kids' = .ok ms := by
          unfold vmStep at h6
          obtain ⟨keys', hk, h6⟩ := bind_ok h6
          simp only at hk
          rw [h3] at hk
          simp at hk; subst hk
          have hmem : (d', kids') ∈ derefs kids keys := mem_derefs.mpr ⟨p.str, h4, hg⟩
          cases hd : derefs kids keys with
          | nil => rw [hd] at hmem; simp at hmem
          | cons y ys =>
            rw [hd] at h6
            obtain ⟨d0, k0⟩ := y
            simp only at h6
            have hy : (d0, k0) ∈ derefs kids keys := by rw [hd]; simp
            obtain ⟨k, -, hg0⟩ := mem_derefs.mp hy
            obtain ⟨hs0, -, -, hT0⟩ := hT.child hg0
            have : ¬ k0.isNil = true := fun h' => absurd ((hT0.isNil (sub_length hL) hs0).mp h') (by omega)
            rw [if_neg this] at h6
            obtain ⟨ms, hms, -⟩ := bind_ok h6
            rw [hd] at hmem
            obtain ⟨r, -, hr⟩ := mapM_ok_mem hms hmem
            exact ⟨r, hr⟩
        obtain ⟨ms, hms⟩ := hsub
        have hsin : ((ps, md) : MIns μ) ∈ sub p.str L := mem_sub.mpr ⟨p, rfl, hx⟩
        obtain ⟨m, hm, hmp⟩ := ih hT' (sub_length hL) (hc.sub _) hms hsin hh'
        refine ⟨m, ?_, by rw [hmp, hpp]; simp⟩
        rw [← h, List.mem_flatten]
        refine ⟨bs, hbs, ?_⟩
        rw [vmStep_mem hT hL h6]
        refine ⟨keys, h3, p.str, h4, (d', kids'), hg, ?_⟩
        rw [if_neg (by omega)]
        exact ⟨ms, hms, hm⟩

/-- Matching succeeds when the view matchers do. -/
theorem mmatch_total {ops : VMOps σ} {n : Nat} {L : List (MIns μ)} {d : MData σ μ} {kids : Forest (MData σ μ)}
    (hT : T ops (n + 1) L d kids) (hL : ∀ y ∈ L, y.1.length = n + 1)
    {pps : List (Option ParsedPiece)} (hl : n + 1 ≤ pps.length) {pre : List MatchPattern}
    (hm : ∀ (i : Nat) pp, pps[i]? = some pp → ∀ ps : List MatchPattern, (∀ p ∈ ps, ∃ x ∈ L, x.1[i]? = some p) →
      ps.Nodup → ∀ vms, addAll ops ps = .ok vms → ∀ vm ∈ vms, ∃ keys, ops.matches_ vm.1 pp vm.2 = .ok keys) :
    ∃ rs, mmatch ops pps pre d kids = .ok rs := by
  induction n generalizing L d kids pps pre with
  | zero =>
    cases pps with
    | nil => simp at hl
    | cons pp rest =>
      rw [mmatch_cons]
      have : ∃ rss, d.vms.mapM (vmStep ops pp rest pre kids) = .ok rss := by
        apply mapM_total
        intro vm hvm
        obtain ⟨keys, hk⟩ := hm 0 pp (by simp) (uniq (heads L)) (by
          intro p hp
          obtain ⟨ps, md, hin⟩ := mem_heads.mp (mem_uniq.mp hp)
          exact ⟨_, hin, by simp⟩) (nodup_uniq _) d.vms hT.1 vm hvm
        unfold vmStep
        rw [hk]
        cases hd : derefs kids keys with
        | nil => simp [hd, bind, Except.bind, pure, Except.pure]
        | cons y ys =>
          obtain ⟨d0, k0⟩ := y
          have hy : (d0, k0) ∈ derefs kids keys := by rw [hd]; simp
          obtain ⟨k, -, hg0⟩ := mem_derefs.mp hy
          obtain ⟨hs0, -, -, hT0⟩ := hT.child hg0
          have := (hT0.isNil (sub_length hL) hs0).mpr rfl
          simp [hd, this, bind, Except.bind, pure, Except.pure]
      obtain ⟨rss, h⟩ := this
      exact ⟨rss.flatten, by rw [h]; rfl⟩
  | succ n ih =>
    cases pps with
    | nil => simp at hl
    | cons pp rest =>
      rw [mmatch_cons]
      have : ∃ rss, d.vms.mapM (vmStep ops pp rest pre kids) = .ok rss := by
        apply mapM_total
        intro vm hvm
        obtain ⟨keys, hk⟩ := hm 0 pp (by simp) (uniq (heads L)) (by
          intro p hp
          obtain ⟨ps, md, hin⟩ := mem_heads.mp (mem_uniq.mp hp)
          exact ⟨_, hin, by simp⟩) (nodup_uniq _) d.vms hT.1 vm hvm
        unfold vmStep
        rw [hk]
        cases hd : derefs kids keys with
        | nil => simp [hd, bind, Except.bind, pure, Except.pure]
        | cons y ys =>
          have hall : ∀ x ∈ y :: ys, ∃ r, mmatch ops rest (pre ++ [x.1.pat]) x.1 x.2 = .ok r := by
            intro x hx
            rw [← hd] at hx
            obtain ⟨k, -, hg0⟩ := mem_derefs.mp hx
            obtain ⟨d', kids'⟩ := x
            obtain ⟨hs0, -, -, hT0⟩ := hT.child hg0
            apply ih hT0 (sub_length hL) (by simpa using hl)
            intro i pp' hpp ps hps hnd vms hv vm hvm
            refine hm (i + 1) pp' (by simpa using hpp) ps ?_ hnd vms hv vm hvm
            intro p hp
            obtain ⟨x, hx, hxi⟩ := hps p hp
            obtain ⟨q, -, hin⟩ := mem_sub.mp hx
            exact ⟨_, hin, by simpa using hxi⟩
          obtain ⟨rs, hrs⟩ := mapM_total hall
          obtain ⟨d0, k0⟩ := y
          have hy : (d0, k0) ∈ derefs kids keys := by rw [hd]; simp
          obtain ⟨k, -, hg0⟩ := mem_derefs.mp hy
          obtain ⟨hs0, -, -, hT0⟩ := hT.child hg0
          have : ¬ k0.isNil = true := fun h' => absurd ((hT0.isNil (sub_length hL) hs0).mp h') (by omega)
          simp only [bind, Except.bind, pure, Except.pure, hd, this, hrs]
          exact ⟨_, rfl⟩
      obtain ⟨rss, h⟩ := this
      exact ⟨rss.flatten, by rw [h]; rfl⟩

end
end OsUrl
