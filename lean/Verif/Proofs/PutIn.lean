import Verif.Spec.PutIn
import Verif.Proofs.Command
import Verif.Proofs.Rename3

/-!
# One more column with the same piece in every row
-/

namespace OsUrl
open Spec

section lists
variable {α β : Type}

theorem putAt_length {i : Nat} {a : α} (l : List α) : (putAt i a l).length = l.length + 1 := by
  unfold putAt
  rw [List.length_append, List.length_cons, List.length_take, List.length_drop]
  omega

theorem putAt_get_lt {i j : Nat} {a : α} {l : List α} (hi : i ≤ l.length) (h : j < i) : (putAt i a l)[j]? = l[j]? := by
  unfold putAt
  rw [List.getElem?_append_left (by rw [List.length_take]; omega), List.getElem?_take_of_lt h]

theorem putAt_get_eq {i : Nat} {a : α} {l : List α} (hi : i ≤ l.length) : (putAt i a l)[i]? = some a := by
  unfold putAt
  rw [List.getElem?_append_right (by rw [List.length_take]; omega), List.length_take, Nat.min_eq_left hi, Nat.sub_self]
  rfl

theorem putAt_get_gt {i j : Nat} {a : α} {l : List α} (hi : i ≤ l.length) (h : i ≤ j) : (putAt i a l)[j + 1]? = l[j]? := by
  unfold putAt
  rw [List.getElem?_append_right (by rw [List.length_take]; omega), List.length_take, Nat.min_eq_left hi,
    show j + 1 - i = (j - i) + 1 by omega, List.getElem?_cons_succ, List.getElem?_drop, show i + (j - i) = j by omega]

theorem putAt_map (i : Nat) (a : α) (l : List α) (f : α → β) : (putAt i a l).map f = putAt i (f a) (l.map f) := by
  unfold putAt
  rw [List.map_append, List.map_cons, List.map_take, List.map_drop]

theorem putAt_inj {i : Nat} {a : α} {l l' : List α} (h : i ≤ l.length) (h' : i ≤ l'.length) (e : putAt i a l = putAt i a l') : l = l' := by
  unfold putAt at e
  obtain ⟨e1, e2⟩ := List.append_inj e (by rw [List.length_take, List.length_take]; omega)
  injection e2 with _ e2
  rw [← List.take_append_drop i l, ← List.take_append_drop i l', e1, e2]

theorem putAt_zip {i : Nat} {a : α} {b : β} {l : List α} {l' : List β} (h : i ≤ l.length) (h' : i ≤ l'.length) :
    (putAt i a l).zip (putAt i b l') = putAt i (a, b) (l.zip l') := by
  unfold putAt
  rw [List.zip_append (by rw [List.length_take, List.length_take]; omega), List.zip_cons_cons, List.zip_eq_zipWith, List.zip_eq_zipWith, List.zip_eq_zipWith, List.take_zipWith, List.drop_zipWith]

theorem putAt_zero (a : α) (l : List α) : putAt 0 a l = a :: l := by simp [putAt]

theorem putAt_succ (i : Nat) (a b : α) (l : List α) : putAt (i + 1) a (b :: l) = b :: putAt i a l := by simp [putAt]

end lists

/-- The row with one more chunk. -/
def putRow (i : Nat) (c : Chunk) (x : WRow) : WRow := (putAt i c x.1, x.2)

theorem putRow_lt {i j : Nat} {c : Chunk} {x : WRow} (hi : i ≤ x.1.length) (h : j < i) : (putRow i c x).at j = x.at j := by
  unfold WRow.at putRow
  rw [List.getD_eq_getElem?_getD, List.getD_eq_getElem?_getD, putAt_get_lt hi h]

theorem putRow_eq {i : Nat} {c : Chunk} {x : WRow} (hi : i ≤ x.1.length) : (putRow i c x).at i = c := by
  unfold WRow.at putRow
  rw [List.getD_eq_getElem?_getD, putAt_get_eq hi]; rfl

theorem putRow_gt {i j : Nat} {c : Chunk} {x : WRow} (hi : i ≤ x.1.length) (h : i ≤ j) : (putRow i c x).at (j + 1) = x.at j := by
  unfold WRow.at putRow
  rw [List.getD_eq_getElem?_getD, List.getD_eq_getElem?_getD, putAt_get_gt hi h]

theorem weight_map {ρ : WRow → WRow} (hw : ∀ x, (ρ x).2 = x.2) (S : List WRow) : weight (S.map ρ) = weight S := by
  unfold weight
  rw [List.map_map]
  congr 1
  apply List.map_congr_left
  intro x _
  exact hw x

theorem column_map {ρ : WRow → WRow} (hw : ∀ x, (ρ x).2 = x.2) {S : List WRow} {j j' : Nat} (hat : ∀ x ∈ S, (ρ x).at j' = x.at j) :
    column j' (S.map ρ) = column j S := by
  unfold column
  have e : (S.map ρ).map (fun x => x.at j') = S.map (fun x => x.at j) := by
    rw [List.map_map]; exact List.map_congr_left hat
  rw [e]
  apply List.map_congr_left
  intro g _
  congr 1
  rw [List.filter_map, weight_map hw]
  congr 1
  apply List.filter_congr
  intro x hx
  simp only [Function.comp, hat x hx]

theorem column_one {S : List WRow} {j : Nat} {c : Chunk} (hne : S ≠ []) (h : ∀ x ∈ S, x.at j = c) : column j S = [(c, weight S)] := by
  unfold column
  rw [firsts_const (a := c) (by simpa using hne) (by
    intro y hy
    obtain ⟨x, hx, rfl⟩ := List.mem_map.mp hy
    exact h x hx), List.map_singleton, List.filter_eq_self.mpr]
  intro x hx
  simp [h x hx]

theorem varied_oneNumber {mcn : Int} (hm : 2 ≤ mcn) (w : Int) : varied mcn [w] = false := by
  unfold varied
  rw [decide_eq_false_iff_not]
  simp only [List.length_singleton, List.sum_cons, List.sum_nil, biggest, List.foldl]
  omega

/-- The rule `G'` is `G` with one more column, and writes out what is the same in all rows. -/
structure PutRule (i : Nat) (G G' : Rule) : Prop where
  lt : ∀ j, j < i → G' j = G j
  ge : ∀ j, i ≤ j → G' (j + 1) = G j
  one : ∀ c w, G' i [(c, w)] c = litText c

theorem texts_put_after {i : Nat} {G G' : Rule} (hG : PutRule i G G') (c : Chunk) : ∀ (k j : Nat) (S : List WRow) (x : WRow), i ≤ j →
    (∀ y ∈ S, i ≤ y.1.length) → i ≤ x.1.length → texts G' k (j + 1) (S.map (putRow i c)) (putRow i c x) = texts G k j S x
  | 0, _, _, _, _, _, _ => rfl
  | k + 1, j, S, x, hj, hS, hx => by
    have ht : ∀ y, i ≤ y.1.length → textAt G' (j + 1) (S.map (putRow i c)) (putRow i c y) = textAt G j S y := by
      intro y hy
      unfold textAt
      rw [hG.ge j hj, putRow_gt hy hj, column_map (ρ := putRow i c) (fun _ => rfl) (fun z hz => putRow_gt (hS z hz) hj)]
    rw [texts, texts, ht x hx, List.filter_map]
    congr 1
    rw [← texts_put_after hG c k (j + 1) _ x (by omega) (fun y hy => hS y (List.mem_filter.mp hy).1) hx]
    congr 2
    apply List.filter_congr
    intro y hy
    simp only [Function.comp, ht y (hS y hy)]

theorem texts_put {i : Nat} {G G' : Rule} (hG : PutRule i G G') (c : Chunk) : ∀ (k j : Nat) (S : List WRow) (x : WRow), j ≤ i → i - j ≤ k →
    x ∈ S → (∀ y ∈ S, i ≤ y.1.length) →
    texts G' (k + 1) j (S.map (putRow i c)) (putRow i c x) = putAt (i - j) (litText c) (texts G k j S x) := by
  intro k
  induction k with
  | zero =>
    intro j S x hj hk hxS hS
    have : i = j := by omega
    subst this
    have hne : S.map (putRow i c) ≠ [] := by
      intro e; rw [List.map_eq_nil_iff] at e; rw [e] at hxS; cases hxS
    simp only [texts, Nat.sub_self, putAt_zero]
    congr 1
    unfold textAt
    rw [column_one hne (c := c) (by
      intro y hy
      obtain ⟨z, hz, rfl⟩ := List.mem_map.mp hy
      exact putRow_eq (hS z hz)), putRow_eq (hS x hxS), hG.one]
  | succ k ih =>
    intro j S x hj hk hxS hS
    by_cases hij : i = j
    · subst hij
      have hne : S.map (putRow i c) ≠ [] := by
        intro e; rw [List.map_eq_nil_iff] at e; rw [e] at hxS; cases hxS
      have ht : ∀ y ∈ S, textAt G' i (S.map (putRow i c)) (putRow i c y) = litText c := by
        intro y hy
        unfold textAt
        rw [column_one hne (c := c) (by
          intro y hy
          obtain ⟨z, hz, rfl⟩ := List.mem_map.mp hy
          exact putRow_eq (hS z hz)), putRow_eq (hS y hy), hG.one]
      rw [Nat.sub_self, putAt_zero, texts, ht x hxS]
      congr 1
      rw [List.filter_eq_self.mpr, texts_put_after hG c (k + 1) i S x (Nat.le_refl _) hS (hS x hxS)]
      intro y hy
      obtain ⟨z, hz, rfl⟩ := List.mem_map.mp hy
      rw [ht z hz]
      simp
    · have hlt : j < i := by omega
      have ht : ∀ y ∈ S, textAt G' j (S.map (putRow i c)) (putRow i c y) = textAt G j S y := by
        intro y hy
        unfold textAt
        rw [hG.lt j hlt, putRow_lt (hS y hy) hlt, column_map (ρ := putRow i c) (fun _ => rfl) (fun z hz => putRow_lt (hS z hz) hlt)]
      show textAt G' j _ _ :: texts G' (k + 1) (j + 1) _ _ = putAt (i - j) _ (textAt G j S x :: texts G k (j + 1) _ x)
      rw [ht x hxS, show i - j = (i - (j + 1)) + 1 by omega, putAt_succ, List.filter_map]
      congr 1
      rw [← ih (j + 1) _ x (by omega) (by omega) (List.mem_filter.mpr ⟨hxS, by simp⟩) (fun y hy => hS y (List.mem_filter.mp hy).1)]
      congr 2
      apply List.filter_congr
      intro y hy
      simp only [Function.comp, ht y hy]

section
variable {i n : Nat} {G G' : Rule} (hG : PutRule i G G') (c : Chunk) (hn : i ≤ n)
include hG hn

theorem texts_put_iff {S : List WRow} (hS : ∀ y ∈ S, i ≤ y.1.length) {x y : WRow} (hx : x ∈ S) (hy : y ∈ S) :
    texts G' (n + 1) 0 (S.map (putRow i c)) (putRow i c x) = texts G' (n + 1) 0 (S.map (putRow i c)) (putRow i c y) ↔
      texts G n 0 S x = texts G n 0 S y := by
  rw [texts_put hG c n 0 S x (by omega) (by omega) hx hS, texts_put hG c n 0 S y (by omega) (by omega) hy hS]
  constructor
  · exact putAt_inj (by rw [texts_length]; omega) (by rw [texts_length]; omega)
  · intro e; rw [e]

theorem alike_put {S : List WRow} (hS : ∀ y ∈ S, i ≤ y.1.length) : alike G' (n + 1) (S.map (putRow i c)) = alike G n S := by
  unfold alike
  rw [List.all_map, Bool.eq_iff_iff, List.all_eq_true, List.all_eq_true]
  refine forall_congr' fun x => forall_congr' fun hx => ?_
  simp only [Function.comp, List.all_map]
  rw [List.all_eq_true, List.all_eq_true]
  refine forall_congr' fun y => forall_congr' fun hy => ?_
  simp only [Function.comp]
  rw [decide_eq_true_iff, decide_eq_true_iff, texts_put_iff hG c hn hS hx hy]

theorem family_put : ∀ (k : Nat) (S : List WRow) (x : WRow), x ∈ S → (∀ y ∈ S, i ≤ y.1.length) →
    family G' (n + 1) k (S.map (putRow i c)) (putRow i c x) = (family G n k S x).map (putRow i c) ∧
      ∀ y ∈ family G n k S x, y ∈ S
  | 0, S, x, _, _ => ⟨rfl, fun _ h => h⟩
  | k + 1, S, x, hx, hS => by
    simp only [family]
    rw [alike_put hG c hn hS]
    cases ha : alike G n S with
    | true => exact ⟨rfl, fun _ h => h⟩
    | false =>
      obtain ⟨e1, e2⟩ := family_put k (S.filter (fun y => decide (texts G n 0 S y = texts G n 0 S x))) x
        (List.mem_filter.mpr ⟨hx, by simp⟩) (fun y hy => hS y (List.mem_filter.mp hy).1)
      refine ⟨?_, fun y hy => (List.mem_filter.mp (e2 y hy)).1⟩
      simp only [Bool.false_eq_true, if_false]
      rw [← e1, List.filter_map]
      congr 2
      apply List.filter_congr
      intro y hy
      simp only [Function.comp]
      rw [decide_eq_decide]
      exact texts_put_iff hG c hn hS hy hx

end

/-- One more piece before the last piece of the path, or after the path. -/
theorem urlRule_put {mcn : Int} (hm : 2 ≤ mcn) (d i : Nat) : PutRule i (urlRule mcn d) (urlRule mcn (if i < d then d + 1 else d)) := by
  refine ⟨?_, ?_, ?_⟩
  · intro j hj
    unfold urlRule
    funext E g
    congr 1
    rw [Bool.eq_iff_iff, beq_iff_eq, beq_iff_eq]
    split <;> omega
  · intro j hj
    unfold urlRule
    funext E g
    congr 1
    rw [Bool.eq_iff_iff, beq_iff_eq, beq_iff_eq]
    split <;> omega
  · intro c w
    unfold urlRule pieceRuleText
    rw [show numbers [(c, w)] = [w] from rfl, varied_oneNumber hm]
    rfl

/-- The closed form with one more column. -/
theorem clusterOf_put {mcn : Int} (hm : 2 ≤ mcn) (d i : Nat) (s : Str) (R : List (List Str)) (row : List Str) (hrow : row ∈ R)
    (hR : ∀ r ∈ R, i ≤ r.length) :
    clusterOf mcn (if i < d then d + 1 else d) (R.map (putAt i s)) (putAt i s row) =
      (clusterOf mcn d R row).map (putAt i (litText (cut s), litText (cut s))) := by
  unfold clusterOf
  simp only
  have hu : ∀ r, urlRow (putAt i s r) = putRow i (cut s) (urlRow r) := by
    intro r; unfold urlRow putRow; rw [putAt_map]
  have hl : (putAt i s row).length = row.length + 1 := putAt_length row
  have hm2 : (R.map (putAt i s)).map urlRow = (R.map urlRow).map (putRow i (cut s)) := by
    rw [List.map_map, List.map_map]; apply List.map_congr_left; intro r _; exact hu r
  rw [hl, hm2, hu, List.length_map]
  have hS : ∀ y ∈ R.map urlRow, i ≤ y.1.length := by
    intro y hy
    obtain ⟨r, hr, rfl⟩ := List.mem_map.mp hy
    unfold urlRow
    rw [List.length_map]
    exact hR r hr
  have hG := urlRule_put hm d i
  obtain ⟨f1, f2⟩ := family_put hG (cut s) (hR row hrow) (R.length + 1) (R.map urlRow) (urlRow row) (List.mem_map_of_mem hrow) hS
  rw [f1]
  generalize family (urlRule mcn d) row.length (R.length + 1) (R.map urlRow) (urlRow row) = C at f2 ⊢
  rw [List.map_map, List.map_map]
  apply List.map_congr_left
  intro x hx
  have hC : ∀ y ∈ C, i ≤ y.1.length := fun y hy => hS y (f2 y hy)
  simp only [Function.comp]
  rw [texts_put hG (cut s) row.length 0 C x (by omega) (by have := hR row hrow; omega) hx hC, Nat.sub_zero]
  show ((putAt i (cut s) x.1).map litText).zip _ = _
  rw [putAt_map, putAt_zip (by rw [List.length_map]; exact hC x hx) (by rw [texts_length]; exact hR row hrow)]

end OsUrl
