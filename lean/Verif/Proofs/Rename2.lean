import Verif.Proofs.Rename

/-!
# Renaming: tables, families and the rules
-/

namespace OsUrl
open Spec

theorem firsts_map_inj {α β : Type} [DecidableEq α] [DecidableEq β] {f : α → β} (hf : ∀ a b, f a = f b → a = b) :
    ∀ (l : List α), firsts (l.map f) = (firsts l).map f
  | [] => rfl
  | x :: xs => by
    simp only [List.map_cons, firsts]
    rw [firsts_map_inj hf xs, List.filter_map]
    congr 2
    apply List.filter_congr
    intro y _
    simp only [Function.comp, decide_eq_decide]
    exact ⟨fun h e => h (by rw [e]), fun h e => h (hf _ _ e)⟩

/-- The table row renamed. -/
def renRow (f : Nat → Char → Char) (x : WRow) : WRow := (x.1.mapIdx (fun j g => ren1 (f j) g), x.2)

/-- The column renamed. -/
def renCol (f : Char → Char) (E : Column) : Column := E.map (fun e => (ren1 f e.1, e.2))

def TrueRow (x : WRow) : Prop := ∀ g ∈ x.1, TrueChunk g
def TrueCol (E : Column) : Prop := ∀ e ∈ E, TrueChunk e.1

theorem trueRow_at {x : WRow} (h : TrueRow x) (j : Nat) : TrueChunk (x.at j) := by
  unfold WRow.at
  rw [List.getD_eq_getElem?_getD]
  cases he : x.1[j]? with
  | none => intro r hr; cases hr
  | some g => exact h g (List.mem_of_getElem? he)

theorem renRow_at (f : Nat → Char → Char) (x : WRow) (j : Nat) : (renRow f x).at j = ren1 (f j) (x.at j) := by
  unfold WRow.at renRow
  rw [List.getD_eq_getElem?_getD, List.getD_eq_getElem?_getD, List.getElem?_mapIdx]
  cases x.1[j]? <;> rfl

theorem renCol_numbers (f : Char → Char) (E : Column) : numbers (renCol f E) = numbers E := by
  unfold numbers renCol; rw [List.map_map]; rfl

theorem column_ren {f : Nat → Char → Char} (hf : ∀ j, Renaming (f j)) (j : Nat) (S : List WRow) :
    column j (S.map (renRow f)) = renCol (f j) (column j S) := by
  unfold column renCol
  have e1 : (S.map (renRow f)).map (fun x => x.at j) = (S.map (fun x => x.at j)).map (ren1 (f j)) := by
    rw [List.map_map, List.map_map]; apply List.map_congr_left; intro x _; exact renRow_at f x j
  rw [e1, firsts_map_inj (fun a b h => ren1_inj (hf j) h), List.map_map, List.map_map]
  apply List.map_congr_left
  intro g _
  simp only [Function.comp]
  congr 1
  unfold weight
  rw [List.filter_map, List.map_map]
  have : List.filter ((fun x : WRow => decide (x.at j = ren1 (f j) g)) ∘ renRow f) S = S.filter (fun x => decide (x.at j = g)) := by
    apply List.filter_congr
    intro x _
    simp only [Function.comp, renRow_at, decide_eq_decide]
    exact ⟨fun h => ren1_inj (hf j) h, fun h => by rw [h]⟩
  rw [this]
  rfl

theorem column_true {S : List WRow} (h : ∀ x ∈ S, TrueRow x) (j : Nat) : TrueCol (column j S) := by
  intro e he
  unfold column at he
  obtain ⟨g, hg, rfl⟩ := List.mem_map.mp he
  obtain ⟨x, hx, rfl⟩ := List.mem_map.mp (mem_firsts.mp hg)
  exact trueRow_at (h x hx) j

/-- The rule commutes with the renaming. -/
def RenRule (f : Nat → Char → Char) (F : Rule) : Prop :=
  ∀ j E g, TrueCol E → TrueChunk g → Ren (f j) (F j E g) (F j (renCol (f j) E) (ren1 (f j) g))

/-- Texts renamed, one by one. -/
def RenAll (f : Nat → Char → Char) : Nat → List Str → List Str → Prop
  | _, [], [] => True
  | j, t :: ts, t' :: ts' => Ren (f j) t t' ∧ RenAll f (j + 1) ts ts'
  | _, _, _ => False

theorem renAll_iff {f : Nat → Char → Char} (hf : ∀ j, Renaming (f j)) : ∀ {ts us ts' us' : List Str} (j : Nat),
    RenAll f j ts ts' → RenAll f j us us' → (ts' = us' ↔ ts = us)
  | [], [], [], [], _, _, _ => by simp
  | [], _ :: _, [], _ :: _, _, _, _ => by simp
  | _ :: _, [], _ :: _, [], _, _, _ => by simp
  | t :: ts, u :: us, t' :: ts', u' :: us', j, h, h' => by
    rw [List.cons_eq_cons, List.cons_eq_cons, renamed_iff (hf j) h.1 h'.1, renAll_iff hf (j + 1) h.2 h'.2]
  | [], _, _ :: _, _, _, h, _ => h.elim
  | _ :: _, _, [], _, _, h, _ => h.elim
  | _, [], _, _ :: _, _, _, h => by simp [RenAll] at h
  | _, _ :: _, _, [], _, _, h => by simp [RenAll] at h

theorem renAll_flatten {f : Char → Char} : ∀ {ts ts' : List Str} (j : Nat), RenAll (fun _ => f) j ts ts' → Ren f ts.flatten ts'.flatten
  | [], [], _, _ => ren_nil f
  | t :: ts, t' :: ts', j, h => by
    rw [List.flatten_cons, List.flatten_cons]
    exact ren_append h.1 (renAll_flatten (j + 1) h.2)
  | [], _ :: _, _, h => h.elim
  | _ :: _, [], _, h => h.elim

theorem texts_ren {f : Nat → Char → Char} (hf : ∀ j, Renaming (f j)) {F : Rule} (hF : RenRule f F) :
    ∀ (k j : Nat) (S : List WRow) (x : WRow), (∀ y ∈ S, TrueRow y) → TrueRow x →
      RenAll f j (texts F k j S x) (texts F k j (S.map (renRow f)) (renRow f x))
  | 0, _, _, _, _, _ => trivial
  | k + 1, j, S, x, hS, hx => by
    have key : ∀ y, TrueRow y → Ren (f j) (textAt F j S y) (textAt F j (S.map (renRow f)) (renRow f y)) := by
      intro y hy
      unfold textAt
      rw [column_ren hf, renRow_at]
      exact hF j _ _ (column_true hS j) (trueRow_at hy j)
    simp only [texts, RenAll]
    refine ⟨key x hx, ?_⟩
    have e : (S.map (renRow f)).filter (fun y => decide (textAt F j (S.map (renRow f)) y = textAt F j (S.map (renRow f)) (renRow f x))) =
        (S.filter (fun y => decide (textAt F j S y = textAt F j S x))).map (renRow f) := by
      rw [List.filter_map]
      congr 1
      apply List.filter_congr
      intro y hy
      simp only [Function.comp, decide_eq_decide]
      exact renamed_iff (hf j) (key y (hS y hy)) (key x hx)
    rw [e]
    exact texts_ren hf hF k (j + 1) _ x (fun y hy => hS y (List.mem_filter.mp hy).1) hx

theorem texts_ren_iff {f : Nat → Char → Char} (hf : ∀ j, Renaming (f j)) {F : Rule} (hF : RenRule f F) (n : Nat) {S : List WRow}
    (hS : ∀ y ∈ S, TrueRow y) {x y : WRow} (hx : TrueRow x) (hy : TrueRow y) :
    texts F n 0 (S.map (renRow f)) (renRow f x) = texts F n 0 (S.map (renRow f)) (renRow f y) ↔ texts F n 0 S x = texts F n 0 S y :=
  renAll_iff hf 0 (texts_ren hf hF n 0 S x hS hx) (texts_ren hf hF n 0 S y hS hy)

theorem alike_ren {f : Nat → Char → Char} (hf : ∀ j, Renaming (f j)) {F : Rule} (hF : RenRule f F) (n : Nat) {S : List WRow}
    (hS : ∀ y ∈ S, TrueRow y) : alike F n (S.map (renRow f)) = alike F n S := by
  unfold alike
  rw [Bool.eq_iff_iff]
  simp only [List.all_eq_true, List.mem_map, decide_eq_true_eq]
  constructor
  · intro h x hx y hy
    exact (texts_ren_iff hf hF n hS (hS x hx) (hS y hy)).mp (h _ ⟨x, hx, rfl⟩ _ ⟨y, hy, rfl⟩)
  · rintro h _ ⟨x, hx, rfl⟩ _ ⟨y, hy, rfl⟩
    exact (texts_ren_iff hf hF n hS (hS x hx) (hS y hy)).mpr (h x hx y hy)

theorem family_ren {f : Nat → Char → Char} (hf : ∀ j, Renaming (f j)) {F : Rule} (hF : RenRule f F) (n : Nat) :
    ∀ (k : Nat) (S : List WRow) (x : WRow), (∀ y ∈ S, TrueRow y) → TrueRow x →
      family F n k (S.map (renRow f)) (renRow f x) = (family F n k S x).map (renRow f) ∧ ∀ y ∈ family F n k S x, TrueRow y
  | 0, _, _, hS, _ => ⟨rfl, hS⟩
  | k + 1, S, x, hS, hx => by
    simp only [family]
    rw [alike_ren hf hF n hS]
    by_cases ha : alike F n S = true
    · rw [if_pos ha, if_pos ha]
      exact ⟨rfl, hS⟩
    · rw [if_neg ha, if_neg ha]
      have e : (S.map (renRow f)).filter (fun y => decide (texts F n 0 (S.map (renRow f)) y = texts F n 0 (S.map (renRow f)) (renRow f x))) =
          (S.filter (fun y => decide (texts F n 0 S y = texts F n 0 S x))).map (renRow f) := by
        rw [List.filter_map]
        congr 1
        apply List.filter_congr
        intro y hy
        simp only [Function.comp, decide_eq_decide]
        exact texts_ren_iff hf hF n hS (hS y hy) hx
      rw [e]
      exact family_ren hf hF n k _ x (fun y hy => hS y (List.mem_filter.mp hy).1) hx

theorem renRow_const (f : Char → Char) (gs : List Chunk) (w : Int) : renRow (fun _ => f) (gs, w) = (gs.map (ren1 f), w) := by
  unfold renRow
  rw [List.mapIdx_eq_zipIdx_map]
  congr 1
  rw [show (fun (x : Chunk × Nat) => ren1 f x.1) = ren1 f ∘ Prod.fst from rfl, ← List.map_map, List.zipIdx_map_fst]

theorem weight_ren (f : Nat → Char → Char) (S : List WRow) : weight (S.map (renRow f)) = weight S := by
  unfold weight; rw [List.map_map]; rfl

/-- A cutting that commutes with renamings. -/
def RenCut (f : Char → Char) (V : Cutting) : Prop :=
  (∀ g, V (ren1 f g) = (V g).map (ren1 f)) ∧ ∀ g, TrueChunk g → ∀ p ∈ V g, TrueChunk p

theorem classes_ren {f : Char → Char} {V : Cutting} (hV : RenCut f V) (g : Chunk) : classes V (ren1 f g) = classes V g := by
  unfold classes
  rw [hV.1, List.map_map]
  apply List.map_congr_left
  intro p _
  exact ren1_cls f p

theorem filter_renCol {f : Char → Char} {E : Column} {P P' : Chunk → Bool} (h : ∀ e ∈ E, P' (ren1 f e.1) = P e.1) :
    (renCol f E).filter (fun e => P' e.1) = renCol f (E.filter (fun e => P e.1)) := by
  unfold renCol
  rw [List.filter_map]
  congr 1
  apply List.filter_congr
  intro e he
  exact h e he

theorem trueCol_filter {E : Column} (h : TrueCol E) (P : Chunk × Int → Bool) : TrueCol (E.filter P) :=
  fun e he => h e (List.mem_filter.mp he).1

theorem whole_ren {f : Char → Char} (hf : Renaming f) (mcn : Int) {E : Column} {g : Chunk} (hg : TrueChunk g) :
    Ren f (wholeText mcn E g) (wholeText mcn (renCol f E) (ren1 f g)) := by
  unfold wholeText
  have e1 : ∀ l, ofLength (renCol f E) l = renCol f (ofLength E l) := fun l => by
    unfold ofLength
    exact filter_renCol (P := fun g => decide (writtenLength g = l)) (P' := fun g => decide (writtenLength g = l))
      (fun e _ => by rw [ren1_written])
  have e2 : lengthNumbers (renCol f E) = lengthNumbers E := by
    unfold lengthNumbers
    have : (renCol f E).map (fun e => writtenLength e.1) = E.map (fun e => writtenLength e.1) := by
      unfold renCol; rw [List.map_map]; apply List.map_congr_left; intro e _; exact ren1_written f e.1
    rw [this]
    apply List.map_congr_left
    intro l _
    rw [e1, renCol_numbers]
  rw [e2, e1, renCol_numbers, ren1_written]
  split
  · exact ren_wild hf g
  · split
    · exact ren_len f g
    · exact ren_lit hg

theorem part_ren {f : Char → Char} (hf : Renaming f) (mcn : Int) (keep : Bool) (n : Nat) : RenRule (fun _ => f) (partRule mcn keep n) := by
  intro j E g hE hg
  unfold partRule
  simp only [renCol_numbers]
  split
  · exact ren_lit hg
  · exact whole_ren hf mcn hg

/-- Optional texts renamed. -/
def RenOpt (f : Char → Char) : Option Str → Option Str → Prop
  | none, none => True
  | some t, some t' => Ren f t t'
  | _, _ => False

theorem renOpt_isSome {f : Char → Char} {a b : Option Str} (h : RenOpt f a b) : b.isSome = a.isSome ∧ b.isNone = a.isNone := by
  cases a <;> cases b <;> first | exact ⟨rfl, rfl⟩ | exact h.elim

theorem renOpt_getD {f : Char → Char} {a b : Option Str} (h : RenOpt f a b) : Ren f (a.getD []) (b.getD []) := by
  cases a <;> cases b <;> first | exact ren_nil f | exact h | exact h.elim

theorem settled_ren {f : Char → Char} (hf : Renaming f) (mcn : Int) (keep : Bool) {V : Cutting} (hV : RenCut f V) {E : Column} (hE : TrueCol E)
    {g : Chunk} (hg : TrueChunk g) : RenOpt f (settled mcn keep V E g) (settled mcn keep V (renCol f E) (ren1 f g)) := by
  unfold settled
  simp only
  have hR : ((renCol f E).filter (fun e => decide (classes V e.1 = classes V (ren1 f g)))).map (fun e => (V e.1, e.2)) =
      ((E.filter (fun e => decide (classes V e.1 = classes V g))).map (fun e => ((V e.1, e.2) : WRow))).map (renRow (fun _ => f)) := by
    rw [filter_renCol (P := fun p => decide (classes V p = classes V g)) (P' := fun p => decide (classes V p = classes V (ren1 f g)))
      (fun e _ => by rw [classes_ren hV, classes_ren hV])]
    unfold renCol
    rw [List.map_map, List.map_map]
    apply List.map_congr_left
    intro e _
    simp only [Function.comp, renRow_const, hV.1]
  have hx : ((V (ren1 f g), 0) : WRow) = renRow (fun _ => f) (V g, 0) := by rw [renRow_const, hV.1]
  have hn : (V (ren1 f g)).length = (V g).length := by rw [hV.1, List.length_map]
  rw [hR, hx, hn]
  have hT : ∀ y ∈ (E.filter (fun e => decide (classes V e.1 = classes V g))).map (fun e => ((V e.1, e.2) : WRow)), TrueRow y := by
    intro y hy
    obtain ⟨e, he, rfl⟩ := List.mem_map.mp hy
    exact hV.2 _ (hE e (List.mem_filter.mp he).1)
  have hTx : TrueRow (V g, 0) := hV.2 g hg
  generalize (E.filter (fun e => decide (classes V e.1 = classes V g))).map (fun e => ((V e.1, e.2) : WRow)) = R at hT ⊢
  rw [List.length_map]
  have hF := part_ren hf mcn keep (V g).length
  obtain ⟨f1, f2⟩ := family_ren (fun _ => hf) hF (V g).length (R.length + 1) R (V g, 0) hT hTx
  rw [f1, weight_ren, weight_ren]
  split
  · trivial
  · exact renAll_flatten 0 (texts_ren (fun _ => hf) hF _ 0 _ _ f2 hTx)

end OsUrl
