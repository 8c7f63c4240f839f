import Verif.Proofs.SpecPerm
import Verif.Spec.Table

/-! # Tables whose pattern is plain to see, and small tables (C51) -/

namespace OsUrl
open Spec

section basics

theorem firsts_const {α : Type} [DecidableEq α] {a : α} {l : List α} (hne : l ≠ []) (h : ∀ x ∈ l, x = a) : firsts l = [a] := by
  cases l with
  | nil => exact absurd rfl hne
  | cons x xs =>
    have hx := h x (by simp)
    subst hx
    rw [firsts]
    congr 1
    rw [List.filter_eq_nil_iff]
    intro y hy
    simp [h y (by simp [mem_firsts.mp hy])]

theorem firsts_le {α : Type} [DecidableEq α] : ∀ (l : List α), (firsts l).length ≤ l.length
  | [] => by simp [firsts]
  | x :: xs => by
    rw [firsts, List.length_cons, List.length_cons]
    exact Nat.succ_le_succ (Nat.le_trans (List.length_filter_le _ _) (firsts_le xs))

theorem firsts_map_firsts {α β : Type} [DecidableEq α] [DecidableEq β] (f : α → β) (l : List α) :
    (firsts ((firsts l).map f)).length = (firsts (l.map f)).length := by
  apply List.Perm.length_eq
  apply firsts_perm'
  intro x
  simp only [List.mem_map, mem_firsts]

theorem firsts_map_le {α β : Type} [DecidableEq α] [DecidableEq β] (f : α → β) (l : List α) :
    (firsts (l.map f)).length ≤ (firsts l).length := by
  rw [← firsts_map_firsts]
  exact Nat.le_trans (firsts_le _) (by simp)

theorem column_sum (j : Nat) (S : List WRow) : (numbers (column j S)).sum = weight S := by
  unfold numbers column
  rw [List.map_map]
  exact sum_firsts (fun x : WRow => x.at j) (·.2) S

theorem column_len (j : Nat) (S : List WRow) : (numbers (column j S)).length = (firsts (S.map (fun x => x.at j))).length := by
  simp [numbers, column]

theorem varied_many {mcn : Int} {ns : List Int} (h : mcn ≤ ns.length) : varied mcn ns = true := by
  simp [varied, h]

theorem varied_single {mcn : Int} (hm : 2 ≤ mcn) {c : Int} (hc : 1 ≤ c) : varied mcn [c] = false := varied_one hm hc []

theorem varied_small {mcn : Int} {ns : List Int} (h : (ns.length : Int) < mcn) (hs : ns.sum < mcn) : varied mcn ns = false := by
  unfold varied
  rw [decide_eq_false_iff_not]
  rintro (h1 | ⟨h1, -⟩) <;> omega

end basics

section rows
variable {F : Rule}

/-- When all rows have the text of `x` at every column, nothing is left behind. -/
theorem texts_same {S : List WRow} {x : WRow} {k j : Nat}
    (h : ∀ i, j ≤ i → i < j + k → ∀ y ∈ S, textAt F i S y = textAt F i S x) :
    texts F k j S x = (List.range' j k).map (fun i => textAt F i S x) := by
  induction k generalizing j with
  | zero => rfl
  | succ k ih =>
    rw [texts, List.range'_succ, List.map_cons]
    congr 1
    have hf : S.filter (fun y => decide (textAt F j S y = textAt F j S x)) = S := by
      rw [List.filter_eq_self]
      intro y hy
      exact decide_eq_true (h j (by omega) (by omega) y hy)
    rw [hf]
    exact ih (fun i h1 h2 => h i (by omega) (by omega))

theorem alike_same {S : List WRow} {n : Nat} (h : ∀ i, i < n → ∀ y ∈ S, ∀ x ∈ S, textAt F i S y = textAt F i S x) : alike F n S = true := by
  unfold alike
  rw [List.all_eq_true]
  intro x hx
  rw [List.all_eq_true]
  intro y hy
  rw [decide_eq_true_eq, texts_same (fun i _ h2 z hz => h i (by omega) z hz x hx), texts_same (fun i _ h2 z hz => h i (by omega) z hz y hy)]
  apply List.map_congr_left
  intro i hi
  rw [List.mem_range'_1] at hi
  exact h i (by omega) x hx y hy

theorem family_same {S : List WRow} {n k : Nat} {x : WRow} (h : alike F n S = true) : family F n k S x = S := by
  cases k with
  | zero => rfl
  | succ k => rw [family, if_pos h]

/-- The texts of a table in which every column has one text. -/
theorem texts_known {S : List WRow} {x : WRow} {ts : List Str} (hx : x.1 ∈ S.map (·.1))
    (h : ∀ i t, ts[i]? = some t → ∀ y ∈ S, textAt F i S y = t) : texts F ts.length 0 S x = ts := by
  obtain ⟨z, hz, e⟩ := List.mem_map.mp hx
  have hy : ∀ i t, ts[i]? = some t → textAt F i S x = t := fun i t hi => by
    rw [textAt_congr (F := F) e.symm]
    exact h i t hi z hz
  rw [texts_same (fun i _ hi y hyS => by
    have := List.getElem?_eq_getElem (l := ts) (i := i) (by omega)
    rw [h i _ this y hyS, hy i _ this])]
  apply List.ext_getElem?
  intro i
  by_cases hi : i < ts.length
  · have := List.getElem?_eq_getElem hi
    rw [List.getElem?_map, List.getElem?_range' hi]
    simp only [Option.map_some, Nat.zero_add, Nat.one_mul, hy i _ this, this]
  · rw [List.getElem?_eq_none (by simp; omega), List.getElem?_eq_none (by omega)]

theorem alike_known {S : List WRow} {ts : List Str}
    (h : ∀ i t, ts[i]? = some t → ∀ y ∈ S, textAt F i S y = t) : alike F ts.length S = true := by
  apply alike_same
  intro i hi y hy x hx
  have := List.getElem?_eq_getElem hi
  rw [h i _ this y hy, h i _ this x hx]

end rows

section cols
variable {mcn : Int}

/-- The cells of a column with their numbers. -/
structure Counted (E : Column) (cells : List Chunk) : Prop where
  eq : E.map (·.1) = firsts cells
  pos : ∀ e ∈ E, 1 ≤ e.2

theorem Counted.mem {E : Column} {cells : List Chunk} (h : Counted E cells) {e : Chunk × Int} (he : e ∈ E) : e.1 ∈ cells := by
  rw [← mem_firsts, ← h.eq]
  exact List.mem_map_of_mem he

theorem Counted.len {E : Column} {cells : List Chunk} (h : Counted E cells) : (numbers E).length = (firsts cells).length := by
  rw [← h.eq]
  simp [numbers]

theorem Counted.sum_pos {E : Column} {cells : List Chunk} (h : Counted E cells) (hne : cells ≠ []) : 1 ≤ (numbers E).sum := by
  have : E ≠ [] := by
    rintro rfl
    have := h.eq
    cases cells with
    | nil => exact hne rfl
    | cons c cs => simp [firsts] at this
  have := weight_pos (S := E.map (fun e => (([] : List Chunk), e.2))) (by
    intro x hx
    obtain ⟨e, he, rfl⟩ := List.mem_map.mp hx
    exact h.pos e he) (by simpa using this)
  simpa [weight, numbers, List.map_map, Function.comp_def] using this

theorem Counted.sum_le {E : Column} {cells : List Chunk} (h : Counted E cells) : ((firsts cells).length : Int) ≤ (numbers E).sum := by
  rw [← h.len]
  have hp := h.pos
  clear h
  unfold numbers
  induction E with
  | nil => simp
  | cons e E ih =>
    have h1 := hp e (by simp)
    have h2 := ih (fun e' he' => hp e' (by simp [he']))
    simp only [List.map_cons, List.length_cons, List.sum_cons]
    omega

theorem Counted.one {E : Column} {cells : List Chunk} (h : Counted E cells) (hne : cells ≠ []) {g : Chunk} (hg : ∀ c ∈ cells, c = g) :
    ∃ c, 1 ≤ c ∧ E = [(g, c)] := by
  have h1 := h.eq
  rw [firsts_const hne hg] at h1
  cases E with
  | nil => simp at h1
  | cons e E =>
    simp only [List.map_cons, List.cons.injEq, List.map_eq_nil_iff] at h1
    obtain ⟨h1, rfl⟩ := h1
    exact ⟨e.2, h.pos e (by simp), by rw [← h1]⟩

theorem Counted.notVaried (hm : 2 ≤ mcn) {E : Column} {cells : List Chunk} (h : Counted E cells) (hne : cells ≠ []) {g : Chunk} (hg : ∀ c ∈ cells, c = g) :
    varied mcn (numbers E) = false := by
  obtain ⟨c, hc, rfl⟩ := h.one hne hg
  exact varied_one hm hc g

theorem Counted.lengths {E : Column} {cells : List Chunk} (h : Counted E cells) :
    (lengthNumbers E).length = (firsts (cells.map writtenLength)).length := by
  unfold lengthNumbers
  rw [List.length_map, ← firsts_map_firsts writtenLength cells, ← h.eq, List.map_map]
  rfl

/-- A column that is not constant, taken as a whole. -/
theorem whole_text (hm : 2 ≤ mcn) {E : Column} {cells : List Chunk} (h : Counted E cells) {t : Str} (ht : PartText mcn cells t) {c : Chunk} (hc : c ∈ cells) :
    (varied mcn (numbers E) = true → wholeText mcn E c = t) ∧ (varied mcn (numbers E) = false → litText c = t) := by
  have hne : cells ≠ [] := List.ne_nil_of_mem hc
  cases ht with
  | same g hg =>
    refine ⟨fun hv => ?_, fun _ => by rw [hg c hc]⟩
    rw [h.notVaried hm hne hg] at hv
    simp at hv
  | sized g hg hn =>
    have hv : varied mcn (numbers E) = true := varied_many (by rw [h.len]; exact hn)
    refine ⟨fun _ => ?_, fun hv' => by rw [hv] at hv'; simp at hv'⟩
    have hl : lengthNumbers E = [(numbers E).sum] := by
      unfold lengthNumbers
      have h1 : firsts (E.map (fun e => writtenLength e.1)) = [writtenLength g] := by
        apply firsts_const
        · intro h0
          rw [List.map_eq_nil_iff] at h0
          subst h0
          have := h.sum_pos hne
          simp [numbers] at this
        · intro x hx
          obtain ⟨e, he, rfl⟩ := List.mem_map.mp hx
          exact (hg _ (h.mem he)).2
      rw [h1, List.map_singleton]
      congr 2
      unfold ofLength
      rw [List.filter_eq_self.mpr]
      intro e he
      exact decide_eq_true (hg _ (h.mem he)).2
    have ho : ofLength E (writtenLength c) = E := by
      unfold ofLength
      rw [List.filter_eq_self]
      intro e he
      exact decide_eq_true (by rw [(hg _ (h.mem he)).2, (hg c hc).2])
    unfold wholeText
    rw [hl, varied_single hm (h.sum_pos hne), ho, hv]
    simp only [Bool.false_eq_true, if_false, if_true]
    unfold lenText
    rw [(hg c hc).1, (hg c hc).2]
  | any g hg hn =>
    have hv : varied mcn (numbers E) = true := varied_many (by
      rw [h.len]
      have := firsts_map_le writtenLength cells
      omega)
    refine ⟨fun _ => ?_, fun hv' => by rw [hv] at hv'; simp at hv'⟩
    unfold wholeText
    rw [if_pos (varied_many (by rw [h.lengths]; exact hn))]
    unfold wildText
    rw [hg c hc]

theorem column_counted {S : List WRow} (h : ∀ x ∈ S, 1 ≤ x.2) (j : Nat) : Counted (column j S) (S.map (fun x => x.at j)) where
  eq := column_cells j S
  pos := by
    intro e he
    obtain ⟨g, hg, rfl⟩ := List.mem_map.mp he
    rw [mem_firsts] at hg
    obtain ⟨x, hx, rfl⟩ := List.mem_map.mp hg
    exact weight_pos (fun y hy => h y (List.mem_filter.mp hy).1)
      (List.ne_nil_of_mem (List.mem_filter.mpr ⟨hx, by simp⟩))

theorem Counted.filter_all {E : Column} {cells : List Chunk} (h : Counted E cells) {p : Chunk → Bool} (hp : ∀ c ∈ cells, p c = true) :
    E.filter (fun e => p e.1) = E := by
  rw [List.filter_eq_self]
  intro e he
  exact hp _ (h.mem he)

theorem partText_class {cells : List Chunk} {t : Str} (ht : PartText mcn cells t) {c c' : Chunk} (hc : c ∈ cells) (hc' : c' ∈ cells) :
    clsText c = clsText c' := by
  cases ht with
  | same g hg => rw [hg c hc, hg c' hc']
  | sized g hg => rw [(hg c hc).1, (hg c' hc').1]
  | any g hg => rw [hg c hc, hg c' hc']

/-- Pieces that are all cut in the same way are settled. -/
theorem settled_table (hm : 2 ≤ mcn) {keep : Bool} {V : Cutting} {E : Column} {cells : List Chunk} (h : Counted E cells) {ts : List Str}
    (hl : ∀ c ∈ cells, (V c).length = ts.length) (hn : mcn ≤ (firsts cells).length)
    (ht : ∀ i t, ts[i]? = some t → PartText mcn (cells.map (fun c => (V c).getD i [])) t)
    (hk : keep = true → ∃ g, ∀ c ∈ cells, (V c).getLast? = some g) {c : Chunk} (hc : c ∈ cells) :
    settled mcn keep V E c = some ts.flatten := by
  have hcls : ∀ c' ∈ cells, classes V c' = classes V c := by
    intro c' hc'
    unfold classes
    apply List.ext_getElem?
    intro i
    rw [List.getElem?_map, List.getElem?_map]
    by_cases hi : i < ts.length
    · have h1 : i < (V c').length := by rw [hl c' hc']; exact hi
      have h2 : i < (V c).length := by rw [hl c hc]; exact hi
      have h3 := partText_class (ht i _ (List.getElem?_eq_getElem hi)) (List.mem_map_of_mem (f := fun c => (V c).getD i []) hc')
        (List.mem_map_of_mem (f := fun c => (V c).getD i []) hc)
      simp only [List.getD, List.getElem?_eq_getElem h1, List.getElem?_eq_getElem h2, Option.getD_some] at h3
      rw [List.getElem?_eq_getElem h1, List.getElem?_eq_getElem h2, Option.map_some, Option.map_some, h3]
    · rw [List.getElem?_eq_none (by rw [hl c' hc']; omega), List.getElem?_eq_none (by rw [hl c hc]; omega)]
  have hf : E.filter (fun e => decide (classes V e.1 = classes V c)) = E :=
    h.filter_all (p := fun g => decide (classes V g = classes V c)) (fun c' hc' => decide_eq_true (hcls c' hc'))
  unfold settled
  simp only [hf, hl c hc]
  generalize hR : (E.map (fun e => (V e.1, e.2)) : List WRow) = R
  have hpos : ∀ x ∈ R, 1 ≤ x.2 := by
    subst hR
    intro x hx
    obtain ⟨e, he, rfl⟩ := List.mem_map.mp hx
    exact h.pos e he
  have hrow : ∀ x ∈ R, ∃ c' ∈ cells, x.1 = V c' := by
    subst hR
    intro x hx
    obtain ⟨e, he, rfl⟩ := List.mem_map.mp hx
    exact ⟨e.1, h.mem he, rfl⟩
  have hall : ∀ c' ∈ cells, V c' ∈ R.map (·.1) := by
    subst hR
    intro c' hc'
    rw [← mem_firsts, ← h.eq, List.mem_map] at hc'
    obtain ⟨e, he, rfl⟩ := hc'
    rw [List.map_map]
    exact List.mem_map.mpr ⟨e, he, rfl⟩
  -- the texts of the parts
  have htx : ∀ i t, ts[i]? = some t → ∀ y ∈ R, textAt (partRule mcn keep ts.length) i R y = t := by
    intro i t hi y hy
    have hil : i < ts.length := (List.getElem?_eq_some_iff.mp hi).1
    have hcc := column_counted hpos i
    have hpt : PartText mcn (R.map (fun x : WRow => x.at i)) t := by
      have := ht i t hi
      have hmem : ∀ d ∈ R.map (fun x : WRow => x.at i), d ∈ cells.map (fun c => (V c).getD i []) := by
        intro d hd
        obtain ⟨x, hx, rfl⟩ := List.mem_map.mp hd
        obtain ⟨c', hc', e⟩ := hrow x hx
        exact List.mem_map.mpr ⟨c', hc', by rw [WRow.at, e]⟩
      have hmem' : ∀ d ∈ cells.map (fun c => (V c).getD i []), d ∈ R.map (fun x : WRow => x.at i) := by
        intro d hd
        obtain ⟨c', hc', rfl⟩ := List.mem_map.mp hd
        obtain ⟨x, hx, e⟩ := List.mem_map.mp (hall c' hc')
        exact List.mem_map.mpr ⟨x, hx, by rw [WRow.at, e]⟩
      cases this with
      | same g hg => exact .same g (fun d hd => hg d (hmem d hd))
      | sized g hg hn =>
        refine .sized g (fun d hd => hg d (hmem d hd)) ?_
        rw [(firsts_perm' (fun d => ⟨hmem d, hmem' d⟩) : (firsts (R.map (fun x : WRow => x.at i))).Perm _).length_eq]
        exact hn
      | any g hg hn =>
        refine .any g (fun d hd => hg d (hmem d hd)) ?_
        have : (firsts ((R.map (fun x : WRow => x.at i)).map writtenLength)).Perm (firsts ((cells.map (fun c => (V c).getD i [])).map writtenLength)) := by
          apply firsts_perm'
          intro l
          constructor
          · intro hl
            obtain ⟨d, hd, rfl⟩ := List.mem_map.mp hl
            exact List.mem_map_of_mem (hmem d hd)
          · intro hl
            obtain ⟨d, hd, rfl⟩ := List.mem_map.mp hl
            exact List.mem_map_of_mem (hmem' d hd)
        rw [this.length_eq]
        exact hn
    have hyc : WRow.at y i ∈ R.map (fun x : WRow => x.at i) := List.mem_map_of_mem (f := fun x : WRow => x.at i) hy
    obtain ⟨w1, w2⟩ := whole_text hm hcc hpt hyc
    unfold textAt partRule
    by_cases hv : varied mcn (numbers (column i R)) = true
    · by_cases hkk : i + 1 = ts.length ∧ keep = true
      · obtain ⟨g, hg⟩ := hk hkk.2
        exfalso
        have : varied mcn (numbers (column i R)) = false := by
          apply hcc.notVaried hm (List.ne_nil_of_mem hyc) (g := g)
          intro d hd
          obtain ⟨x, hx, rfl⟩ := List.mem_map.mp hd
          obtain ⟨c', hc', e⟩ := hrow x hx
          have h1 := hg c' hc'
          rw [List.getLast?_eq_getElem?, hl c' hc', show ts.length - 1 = i by omega] at h1
          simp only [WRow.at, e, List.getD, h1, Option.getD_some]
        rw [this] at hv
        simp at hv
      · have hb : (decide (i + 1 = ts.length) && keep) = false := by
          cases keep with
          | false => simp
          | true => simp at hkk ⊢; omega
        rw [hb, hv]
        simpa using w1 hv
    · rw [Bool.not_eq_true] at hv
      rw [hv]
      simp only [Bool.not_false, Bool.or_true, if_true]
      exact w2 hv
  have hal := alike_known (F := partRule mcn keep ts.length) htx
  rw [family_same hal, texts_known (hall c hc) htx]
  have hw : mcn ≤ weight R := by
    have h1 := h.sum_le
    have h2 : weight R = (numbers E).sum := by
      subst hR
      simp [weight, numbers, List.map_map, Function.comp_def]
    omega
  rw [if_neg (by omega)]

/-- A column with one text. -/
theorem colText_rule (hm : 2 ≤ mcn) {lp : Bool} {E : Column} {cells : List Chunk} (h : Counted E cells) {t : Str} (ht : ColText mcn lp cells t) {c : Chunk} (hc : c ∈ cells) :
    pieceRuleText mcn lp E c = t := by
  have hne : cells ≠ [] := List.ne_nil_of_mem hc
  cases ht with
  | same g hg =>
    unfold pieceRuleText
    rw [h.notVaried hm hne hg, hg c hc]
    rfl
  | whole t hs hp =>
    obtain ⟨w1, w2⟩ := whole_text hm h hp hc
    unfold pieceRuleText
    by_cases hv : varied mcn (numbers E) = true
    · have hr : ∀ c ∈ cells, atRuns mcn lp c = false := fun c hc => by simp [atRuns, hs c hc]
      have hmx : ∀ c ∈ cells, atMixed mcn lp E c = false := fun c hc => by simp [atMixed, leftRuns, hr c hc, hs c hc]
      have hd : ∀ c ∈ cells, atDot mcn lp E c = false := fun c hc => by simp [atDot, leftRuns, leftMixed, hmx c hc, hr c hc, hs c hc]
      have hw : ∀ c ∈ cells, atWhole mcn lp E c = true := fun c hc => by simp [atWhole, hs c hc]
      rw [hv, hr c hc, hmx c hc, hd c hc, h.filter_all hw]
      simpa using w1 hv
    · rw [Bool.not_eq_true] at hv
      rw [hv]
      exact w2 hv
  | parts st keep V ts hcut hs hl hn hts hk =>
    have hv : varied mcn (numbers E) = true := varied_many (by rw [h.len]; exact hn)
    have hst := settled_table (keep := keep) hm h hl hn hts hk hc
    unfold pieceRuleText
    cases hcut with
    | runs =>
      have hr : ∀ c ∈ cells, atRuns mcn lp c = true := fun c hc => by simp [atRuns, hs c hc]
      have : setRuns mcn lp E c = some ts.flatten := by rw [setRuns, h.filter_all hr, hst]
      rw [hv, hr c hc, this]
      rfl
    | mixed =>
      have hr : ∀ c ∈ cells, atRuns mcn lp c = false := fun c hc => by simp [atRuns, hs c hc]
      have hmx : ∀ c ∈ cells, atMixed mcn lp E c = true := fun c hc => by simp [atMixed, hs c hc]
      have : setMixed mcn lp E c = some ts.flatten := by rw [setMixed, h.filter_all hmx, hst]
      rw [hv, hr c hc, hmx c hc, this]
      rfl
    | dot =>
      have hr : ∀ c ∈ cells, atRuns mcn lp c = false := fun c hc => by simp [atRuns, hs c hc]
      have hmx : ∀ c ∈ cells, atMixed mcn lp E c = false := fun c hc => by simp [atMixed, leftRuns, hr c hc, hs c hc]
      have hd : ∀ c ∈ cells, atDot mcn lp E c = true := fun c hc => by simp [atDot, hs c hc]
      have : setDot mcn lp E c = some ts.flatten := by rw [setDot, h.filter_all hd, hst]
      rw [hv, hr c hc, hmx c hc, hd c hc, this]
      rfl

end cols

end OsUrl
