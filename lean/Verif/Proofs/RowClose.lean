import Verif.Proofs.FlatClose

/-! Families of rows are closed: a row that fits the patterns of a family belongs to it. -/

namespace OsUrl
open Spec

/-- Rows of single parts or empty pieces, with the same rules at every place. -/
structure FlatRows (n : Nat) (S : List Ins) : Prop where
  pos : ∀ x ∈ S, 1 ≤ x.count
  part : ∀ j, j < n → (∀ x ∈ S, Part (x.pp j)) ∨ ∀ x ∈ S, x.pp j = ⟨[], []⟩
  rule : ∀ x ∈ S, ∀ y ∈ S, ∀ j, j < n → (x.pp j).fuzzyRule = (y.pp j).fuzzyRule

theorem FlatRows.sub {n : Nat} {S S' : List Ins} (h : FlatRows n S) (hs : ∀ x ∈ S', x ∈ S) : FlatRows n S' :=
  ⟨fun x hx => h.pos x (hs x hx), fun j hj => (h.part j hj).imp (fun h x hx => h x (hs x hx)) (fun h x hx => h x (hs x hx)), fun x hx y hy => h.rule x (hs x hx) y (hs y hy)⟩

theorem FlatRows.ent {n : Nat} {S : List Ins} (h : FlatRows n S) {j : Nat} (hj : j < n) (hp : ∀ x ∈ S, Part (x.pp j)) {x : Ins} (hx : x ∈ S) :
    EntOK (x.pp j).fuzzyRule (ent j S) := by
  have hmem : ∀ e ∈ OsUrl.ent j S, ∃ y ∈ S, y.pp j = e.1 := by
    intro e he
    obtain ⟨p, c⟩ := e
    have := (mem_ent.mp he).1
    obtain ⟨y, hy, e⟩ := List.mem_map.mp this
    exact ⟨y, hy, e⟩
  have hpr : ∀ e ∈ OsUrl.ent j S, Part e.1 ∧ e.1.fuzzyRule = (x.pp j).fuzzyRule := by
    intro e he
    obtain ⟨y, hy, e1⟩ := hmem e he
    rw [← e1]
    exact ⟨hp y hy, h.rule y hy x hx j hj⟩
  refine ⟨?_, ?_, hpr⟩
  · have hn : ((OsUrl.ent j S).map (·.1)).Nodup := by rw [ent_fst]; exact nodup_uniq _
    rw [List.nodup_iff_pairwise_ne, List.pairwise_map] at hn ⊢
    refine List.Pairwise.imp_of_mem ?_ hn
    intro a b ha hb hne hc
    apply hne
    rw [(hpr a ha).1.eq, (hpr b hb).1.eq, hc, (hpr a ha).2, (hpr b hb).2]
  · intro e he
    obtain ⟨p, c⟩ := e
    obtain ⟨h1, h2⟩ := mem_ent.mp he
    simp only
    rw [h2]
    obtain ⟨y, hy, e⟩ := List.mem_map.mp h1
    apply total_pos (fun x hx => h.pos x (List.mem_filter.mp hx).1)
    apply List.ne_nil_of_mem (a := y)
    rw [List.mem_filter]
    exact ⟨hy, by simpa using e⟩

theorem ent_of_row {j : Nat} {S : List Ins} {x : Ins} (hx : x ∈ S) : ∃ c, (x.pp j, c) ∈ ent j S :=
  ⟨_, mem_ent.mpr ⟨List.mem_map.mpr ⟨x, hx, rfl⟩, rfl⟩⟩

/-- The texts fit the row from the place `j` on. -/
def FitRow (y : Ins) (j : Nat) (as : List Str) : Prop := ∀ i (hi : i < as.length), FitPart (y.pp (j + i)) as[i]

theorem fitRow_cons {y : Ins} {j : Nat} {a : Str} {as : List Str} : FitRow y j (a :: as) ↔ FitPart (y.pp j) a ∧ FitRow y (j + 1) as := by
  constructor
  · intro h
    refine ⟨by have := h 0 (by simp); simpa using this, fun i hi => ?_⟩
    have := h (i + 1) (by simpa using hi)
    simp only [List.getElem_cons_succ] at this
    rw [show j + 1 + i = j + (i + 1) by omega]
    exact this
  · rintro ⟨h1, h2⟩ i hi
    cases i with
    | zero => simpa using h1
    | succ i =>
      simp only [List.getElem_cons_succ]
      rw [show j + (i + 1) = j + 1 + i by omega]
      exact h2 i (by simpa using hi)

/-- A level of empty pieces. -/
theorem litStop_blank {mcn : Int} (hm : 2 ≤ mcn) {j : Nat} {S : List Ins} (hpos : ∀ x ∈ S, 1 ≤ x.count) (hb : ∀ x ∈ S, x.pp j = ⟨[], []⟩)
    {x : Ins} (hx : x ∈ S) : litStop mcn (ent j S) = true := by
  have e : uniq (S.map (Ins.pp j)) = [⟨[], []⟩] := by
    have hn := nodup_uniq (S.map (Ins.pp j))
    have hm : ∀ p, p ∈ uniq (S.map (Ins.pp j)) ↔ p = ⟨[], []⟩ := by
      intro p
      rw [mem_uniq, List.mem_map]
      constructor
      · rintro ⟨y, hy, rfl⟩; exact hb y hy
      · rintro rfl; exact ⟨x, hx, hb x hx⟩
    generalize uniq (S.map (Ins.pp j)) = l at hn hm
    match l with
    | [] => exact absurd ((hm ⟨[], []⟩).mpr rfl) (by simp)
    | [p] => rw [(hm p).mp (by simp)]
    | p :: q :: l =>
      have e1 := (hm p).mp (by simp)
      have e2 := (hm q).mp (by simp)
      subst e1; subst e2
      simp at hn
  unfold ent
  rw [e]
  apply litStop_single hm
  simp only
  apply total_pos (fun y hy => hpos y (List.mem_filter.mp hy).1)
  exact List.ne_nil_of_mem (a := x) (List.mem_filter.mpr ⟨hx, by simp [hb x hx]⟩)

theorem lab_blank {mcn : Int} (hm : 2 ≤ mcn) {kw : Bool} {N j : Nat} {S : List Ins} (hpos : ∀ x ∈ S, 1 ≤ x.count) (hb : ∀ x ∈ S, x.pp j = ⟨[], []⟩)
    {x : Ins} (hx : x ∈ S) : lab (flatF mcn kw N) j S x = [] := by
  have h1 := litStop_blank hm hpos hb hx
  unfold lab flatF
  rw [h1, Bool.or_true, if_pos rfl, hb x hx]
  rfl

/-- The labels of a row fit the row. -/
theorem labs_fit {mcn : Int} (hm : 2 ≤ mcn) {kw : Bool} {n N : Nat} : ∀ {k j : Nat} {S : List Ins}, FlatRows n S → j + k ≤ n → ∀ {x : Ins}, x ∈ S →
    FitRow x j (labs (flatF mcn kw N) k j S x) := by
  intro k
  induction k with
  | zero => intro j S _ _ x _ i hi; simp [labs] at hi
  | succ k ih =>
    intro j S hS hj x hx
    rw [labs, fitRow_cons]
    constructor
    · rcases hS.part j (by omega) with hp | hb
      · obtain ⟨c, hc⟩ := ent_of_row (j := j) hx
        have h1 := flat_fit hm (kw := kw) (n := N) (j := j) (hS.ent (j := j) (by omega) hp hx) hc
        exact h1
      · left
        rw [lab_blank hm hS.pos hb hx, hb x hx]
        rfl
    · have hx' : x ∈ nxt (flatF mcn kw N) j S x := by unfold nxt; exact List.mem_filter.mpr ⟨hx, by simp⟩
      have hs' : ∀ y ∈ nxt (flatF mcn kw N) j S x, y ∈ S := by intro y hy; unfold nxt at hy; exact (List.mem_filter.mp hy).1
      exact ih (hS.sub hs') (by omega) hx'

theorem nxt_all {F : LevelFn} {j : Nat} {S : List Ins} {x : Ins} (h : ∀ c ∈ S, lab F j S c = lab F j S x) : nxt F j S x = S := by
  unfold nxt
  rw [List.filter_eq_self]
  intro c hc
  simpa using h c hc

/-- A row that fits the labels of a family has the label of the family in every larger set. -/
theorem labs_close {mcn : Int} (hm : 2 ≤ mcn) {kw : Bool} {n N : Nat} {y : Ins} :
    ∀ {k j : Nat} {S C : List Ins}, FlatRows n S → y ∈ S → j + k ≤ n → (∀ c ∈ C, c ∈ S) → ∀ {x : Ins}, x ∈ C →
    (∀ c ∈ C, labs (flatF mcn kw N) k j S c = labs (flatF mcn kw N) k j S x) →
    (∀ c ∈ C, labs (flatF mcn kw N) k j C c = labs (flatF mcn kw N) k j C x) →
    FitRow y j (labs (flatF mcn kw N) k j C x) → labs (flatF mcn kw N) k j S y = labs (flatF mcn kw N) k j S x := by
  intro k
  induction k with
  | zero => intros; rfl
  | succ k ih =>
    intro j S C hS hy hj hsub x hx h1 h2 hfit
    rw [labs, fitRow_cons] at hfit
    have hC := hS.sub hsub
    have l1 : ∀ c ∈ C, lab (flatF mcn kw N) j S c = lab (flatF mcn kw N) j S x := by
      intro c hc
      have := h1 c hc
      rw [labs, labs, List.cons.injEq] at this
      exact this.1
    have l2 : ∀ c ∈ C, lab (flatF mcn kw N) j C c = lab (flatF mcn kw N) j C x := by
      intro c hc
      have := h2 c hc
      rw [labs, labs, List.cons.injEq] at this
      exact this.1
    have hjn : j < n := by omega
    obtain ⟨cx, hcx⟩ := ent_of_row (j := j) hx
    have hlab : lab (flatF mcn kw N) j S y = lab (flatF mcn kw N) j S x := by
      rcases hS.part j hjn with hp | hb
      case inr => rw [lab_blank hm hS.pos hb hy, lab_blank hm hS.pos hb (hsub x hx)]
      refine flat_step hm (hS.ent hjn hp (hsub x hx)) (hC.ent hjn (fun c hc => hp c (hsub c hc)) hx) ?_ hcx ?_ (hp y hy)
        (hS.rule y hy x (hsub x hx) j hjn) hfit.1
      · intro e he
        obtain ⟨p, c⟩ := e
        obtain ⟨z, hz, e⟩ := List.mem_map.mp (mem_ent.mp he).1
        obtain ⟨c', hc'⟩ := ent_of_row (j := j) (hsub z hz)
        exact ⟨_, hc', e⟩
      · intro e he
        obtain ⟨p, c⟩ := e
        obtain ⟨z, hz, e⟩ := List.mem_map.mp (mem_ent.mp he).1
        simp only at e ⊢
        rw [← e]
        exact l1 z hz
    rw [labs, labs, hlab, nxt_congr hlab]
    congr 1
    have hCn : nxt (flatF mcn kw N) j C x = C := nxt_all l2
    rw [hCn] at hfit
    refine ih (C := C) (hS.sub (fun z hz => (List.mem_filter.mp hz).1)) ?_ (by omega) ?_ hx ?_ ?_ hfit.2
    · exact List.mem_filter.mpr ⟨hy, by simpa using hlab⟩
    · intro c hc
      exact List.mem_filter.mpr ⟨hsub c hc, by simpa using l1 c hc⟩
    · intro c hc
      have := h1 c hc
      rw [labs, labs, List.cons.injEq, nxt_congr (l1 c hc)] at this
      exact this.2
    · intro c hc
      have := h2 c hc
      rw [labs, labs, List.cons.injEq, nxt_congr (l2 c hc), hCn] at this
      exact this.2

theorem filter_shorter {α : Type} {f : α → Bool} {l : List α} {x : α} (hx : x ∈ l) (hf : f x = false) : (l.filter f).length < l.length := by
  rcases Nat.lt_or_ge (l.filter f).length l.length with h | h
  · exact h
  · exfalso
    have := List.filter_eq_self.mp (List.filter_sublist.eq_of_length (Nat.le_antisymm List.filter_sublist.length_le h)) x hx
    rw [hf] at this; cases this

/-- With enough steps the family is uniform. -/
theorem famN_unif {F : LevelFn} {n : Nat} : ∀ (f : Nat) (S : List Ins) {x : Ins}, x ∈ S → S.length ≤ f → unif F n (famN F n f S x) = true := by
  intro f
  induction f with
  | zero =>
    intro S x hx hl
    have : S = [] := List.length_eq_zero_iff.mp (by omega)
    subst this; cases hx
  | succ f ih =>
    intro S x hx hl
    rw [famN]
    by_cases hu : unif F n S = true
    · rw [if_pos hu]; exact hu
    · rw [if_neg hu]
      apply ih _ (List.mem_filter.mpr ⟨hx, by simp⟩)
      have : ∃ y ∈ S, labs F n 0 S y ≠ labs F n 0 S x := by
        apply Classical.byContradiction
        intro hc
        apply hu
        rw [unif_iff]
        intro a ha b hb
        have ha' : labs F n 0 S a = labs F n 0 S x := Classical.byContradiction fun h => hc ⟨a, ha, h⟩
        have hb' : labs F n 0 S b = labs F n 0 S x := Classical.byContradiction fun h => hc ⟨b, hb, h⟩
        rw [ha', hb']
      obtain ⟨y, hy, hne⟩ := this
      have := filter_shorter (f := fun y => decide (labs F n 0 S y = labs F n 0 S x)) hy (by simpa using hne)
      omega

/-- Members of a family have the same family. -/
theorem famN_eq {F : LevelFn} {n : Nat} : ∀ (f : Nat) (S : List Ins) {x y : Ins}, y ∈ famN F n f S x → famN F n f S y = famN F n f S x := by
  intro f
  induction f with
  | zero => intros; rfl
  | succ f ih =>
    intro S x y hy
    rw [famN] at hy ⊢
    rw [famN]
    by_cases hu : unif F n S = true
    · rw [if_pos hu, if_pos hu]
    · rw [if_neg hu] at hy ⊢
      rw [if_neg hu]
      have := famN_sub _ _ _ y hy
      have := of_decide_eq_true (List.mem_filter.mp this).2
      rw [this]
      exact ih _ hy

/-- Families are closed under fitting. -/
theorem famN_close {mcn : Int} (hm : 2 ≤ mcn) {kw : Bool} {n N : Nat} : ∀ (f : Nat) (S : List Ins), FlatRows n S → ∀ {x y : Ins}, x ∈ S → y ∈ S →
    unif (flatF mcn kw N) n (famN (flatF mcn kw N) n f S x) = true →
    FitRow y 0 (labs (flatF mcn kw N) n 0 (famN (flatF mcn kw N) n f S x) x) → y ∈ famN (flatF mcn kw N) n f S x := by
  intro f
  induction f with
  | zero => intro S _ x y _ hy _ _; exact hy
  | succ f ih =>
    intro S hS x y hx hy hun hfit
    rw [famN] at hun hfit ⊢
    by_cases hu : unif (flatF mcn kw N) n S = true
    · rw [if_pos hu]; exact hy
    · rw [if_neg hu] at hun hfit ⊢
      have hx' : x ∈ S.filter (fun y => decide (labs (flatF mcn kw N) n 0 S y = labs (flatF mcn kw N) n 0 S x)) :=
        List.mem_filter.mpr ⟨hx, by simp⟩
      have hself := famN_self (F := flatF mcn kw N) (n := n) f _ x hx'
      refine ih _ (hS.sub (fun z hz => (List.mem_filter.mp hz).1)) hx' (List.mem_filter.mpr ⟨hy, ?_⟩) hun hfit
      rw [decide_eq_true_eq]
      refine labs_close hm hS hy (by omega) (fun c hc => (List.mem_filter.mp (famN_sub _ _ _ c hc)).1) hself ?_ ?_ hfit
      · intro c hc
        exact of_decide_eq_true (List.mem_filter.mp (famN_sub _ _ _ c hc)).2
      · intro c hc
        exact unif_iff.mp hun c hc x hself

/-- A row that fits the pattern settled for another row is settled with it. -/
theorem rowSettle_close {mcn : Int} (hm : 2 ≤ mcn) {kw : Bool} {n : Nat} {R : List Ins} (hR : FlatRows n R) {x y : Ins} (hx : x ∈ R) (hy : y ∈ R)
    (hfit : FitRow y 0 (labs (flatF mcn kw n) n 0 (famN (flatF mcn kw n) n (R.length + 1) R x) x)) :
    rowSettle mcn kw n R y = rowSettle mcn kw n R x := by
  have hun := famN_unif (F := flatF mcn kw n) (n := n) (R.length + 1) R hx (by omega)
  have hmem := famN_close hm (R.length + 1) R hR hx hy hun hfit
  have hself := famN_self (F := flatF mcn kw n) (n := n) (R.length + 1) R x hx
  unfold rowSettle
  rw [famN_eq _ _ hmem, unif_iff.mp hun y hmem x hself]

end OsUrl
