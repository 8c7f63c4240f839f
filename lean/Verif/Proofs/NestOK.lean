import Verif.Proofs.ViewOK

/-! The trees which a stage gives to the nested clustering are small. -/

namespace OsUrl

/-- The rows of the trees which a stage gives to the nested clustering: single parts with the same rules. -/
structure StageRows (h : Runtime) (mcn : Int) (kw : Bool) (n : Nat) (R : List Ins) : Prop where
  two : 2 ≤ mcn
  normal : Normal (n + 1) R
  rows : RowsOK FlatOK (n + 1) R
  ne : R ≠ []
  sep : HashSep h (flatF mcn kw (n + 1)) (n + 1) (R.map Ins.bare)
  part : ∀ j, j < n + 1 → ∀ x ∈ R, Part (x.pp j)
  rule : ∀ x ∈ R, ∀ y ∈ R, ∀ j, (x.pp j).fuzzyRule = (y.pp j).fuzzyRule

/-- The nested clustering is that of the program for the trees of the stages with at most `N` leaves and at most `K` levels. -/
def NestOK (h : Runtime) (nested : NestedCluster) (N K : Nat) : Prop :=
  ∀ mcn kw n R, StageRows h mcn kw n R → R.length ≤ N → n + 1 ≤ K →
    nested mcn ⟨n + 1, [], false⟩ kw (growTree (n + 1) R) = clusterNest h 1 mcn ⟨n + 1, [], false⟩ kw (growTree (n + 1) R)

theorem multiBuckets_congr {n n' : NestedCluster} {cfg : LevelCfg} {kw : Bool} {fwd : View → PieceBag → Route} {bs : List (List ViewBag)}
    (h : ∀ items ∈ bs, ∀ t, vbTree items emptyTree = .ok t →
      n cfg.mcn ⟨vbDepth items, [], false⟩ kw t = n' cfg.mcn ⟨vbDepth items, [], false⟩ kw t) (st : MultiSt) :
    multiBuckets n cfg kw fwd bs st = multiBuckets n' cfg kw fwd bs st := by
  induction bs generalizing st with
  | nil => rfl
  | cons b bs ih =>
    obtain ⟨st, pats⟩ := st
    have ih' := fun st => ih (fun items hi => h items (by simp [hi])) st
    rw [multiBuckets, multiBuckets]
    by_cases hc : vbCount b < cfg.mcn
    · rw [if_pos hc, if_pos hc]; exact ih' _
    · rw [if_neg hc, if_neg hc]
      cases ht : vbTree b emptyTree with
      | error e => rfl
      | ok t =>
        simp only [bind, Except.bind]
        rw [h b (by simp) t ht]
        cases n' cfg.mcn ⟨vbDepth b, [], false⟩ kw t with
        | error e => rfl
        | ok roots =>
          simp only
          cases multiClusters cfg.mcn fwd (vbBags b) roots (st, pats) with
          | error e => rfl
          | ok s => exact ih' s

/-- A stage gives the nested clustering only trees with at most as many leaves as the stage has pieces, and as many levels as the view of a piece has
parts. -/
theorem multiStage_nest {h : Runtime} {kw : Bool} {V : ParsedPiece → View} {bs : List PieceBag} {cfg : LevelCfg} {Tok : Str → Prop}
    (hm : 2 ≤ cfg.mcn) (hj : JoinInj Tok) (hv : ∀ b ∈ bs, ViewOK Tok V b.pp)
    (hok : StageOK h cfg.mcn kw V bs) {nested : NestedCluster} {N K : Nat} (hn : NestOK h nested N K) (hN : bs.length ≤ N)
    (hK : ∀ b ∈ bs, (V b.pp).pps.length ≤ K) (fwd : View → PieceBag → Route) (st : LevelSt) :
    multiStage nested cfg kw fwd (withView V bs) st = multiStage (clusterNest h 1) cfg kw fwd (withView V bs) st := by
  unfold multiStage
  simp only
  rw [multiBuckets_congr (n := nested) (n' := clusterNest h 1)]
  intro items hi t ht
  obtain ⟨kg, hkg, rfl⟩ := List.mem_map.mp hi
  rw [groupBy_eq] at hkg
  obtain ⟨w, hw, rfl⟩ := List.mem_map.mp hkg
  obtain ⟨vb, hvb, rfl⟩ := List.mem_map.mp (mem_uniq.mp hw)
  obtain ⟨b0, hb0, rfl⟩ := List.mem_map.mp hvb
  have e : (withView V bs).filter (fun vb : ViewBag => decide (vb.1.view = (V b0.pp).view)) = withView V (bagView V bs (V b0.pp).view) := by
    unfold withView bagView
    rw [List.filter_map]
    rfl
  simp only at ht ⊢
  rw [e] at ht ⊢
  obtain ⟨n, hl, hG, hsep⟩ := hok.group b0 hb0
  have hlen : ∀ b ∈ bagView V bs (V b0.pp).view, (V b.pp).pps.length = n + 1 := by
    intro b hb
    have := hG.rows.len (vrow V b.ent) (List.mem_map.mpr ⟨b, hb, rfl⟩)
    simpa [vrow, PieceBag.ent] using this
  have ht' := vbTree_grow (bagView V bs (V b0.pp).view) hlen [] (by simp)
  rw [growTree_nil, List.nil_append, ht] at ht'
  obtain rfl := Except.ok.inj ht'
  have hmem : b0 ∈ bagView V bs (V b0.pp).view := List.mem_filter.mpr ⟨hb0, by simp⟩
  have hvne : vrows V (bagView V bs (V b0.pp).view) ≠ [] := List.ne_nil_of_mem (List.mem_map.mpr ⟨b0, hmem, rfl⟩)
  have hd : vbDepth (withView V (bagView V bs (V b0.pp).view)) = n + 1 := by
    cases hg : bagView V bs (V b0.pp).view with
    | nil => rw [hg] at hmem; cases hmem
    | cons b G => exact hlen b (by rw [hg]; simp)
  rw [hd]
  have hsub : ∀ b ∈ bagView V bs (V b0.pp).view, b ∈ bs ∧ (V b.pp).view = (V b0.pp).view := by
    intro b hb
    have := List.mem_filter.mp hb
    exact ⟨this.1, of_decide_eq_true this.2⟩
  refine hn _ _ _ _ ⟨hm, hG.normal, hG.rows, hvne, by rw [vrows_bare]; exact hsep, ?_, ?_⟩ ?_ ?_
  · intro j hj x hx
    obtain ⟨b, hb, rfl⟩ := List.mem_map.mp hx
    exact vrow_part _ (hv b (hsub b hb).1) (by rw [hlen b hb]; exact hj)
  · intro x hx y hy j
    obtain ⟨b, hb, rfl⟩ := List.mem_map.mp hx
    obtain ⟨b', hb', rfl⟩ := List.mem_map.mp hy
    exact vrow_rule _ _ (same_rules hj (hv b (hsub b hb).1) (hv b' (hsub b' hb').1) ((hsub b hb).2.trans (hsub b' hb').2.symm)) j
  · unfold vrows
    rw [List.length_map]
    exact Nat.le_trans (List.length_filter_le _ _) hN
  · rw [← hl]
    exact hK b0 hb0

/-! ### the number of parts -/

theorem groups_length {α : Type} {gs : List (List α)} (h : ∀ g ∈ gs, g ≠ []) : gs.length ≤ gs.flatten.length := by
  induction gs with
  | nil => simp
  | cons g gs ih =>
    have := List.length_pos_iff.mpr (h g (by simp))
    have := ih (fun x hx => h x (by simp [hx]))
    rw [List.flatten_cons, List.length_append, List.length_cons]
    omega

theorem multi_parts {p : ParsedPiece} (h : IsParsed p) : (multiView p).pps.length ≤ p.pieces.length + 1 := by
  obtain ⟨s, -, rfl⟩ := h
  show (multiPieces (ppOf (runsOf s))).length ≤ _
  rw [multi_pieces]
  simp [ppOf]

theorem mixed_parts {p : ParsedPiece} (h : IsParsed p) : (mixedView p).pps.length ≤ p.pieces.length + 1 := by
  obtain ⟨s, -, rfl⟩ := h
  show (mixedPieces (ppOf (runsOf s))).length ≤ _
  unfold mixedPieces
  by_cases h1 : (ppOf (runsOf s)).rules.length ≤ 1
  · rw [if_pos h1]; simp
  · rw [if_neg h1]
    obtain ⟨gs, e1, e2, e3⟩ := mix_split (runsOf s)
    simp only [ppOf, e2, List.length_map, List.length_zip]
    have := groups_length (fun g hg => (e3 g hg).1)
    rw [e1] at this
    omega

theorem lastDot_parts {p : ParsedPiece} (h : IsParsed p) : (lastDotView p).pps.length ≤ p.pieces.length + 1 := by
  obtain ⟨s, -, rfl⟩ := h
  show (lastDotPieces (ppOf (runsOf s))).length ≤ _
  unfold lastDotPieces
  cases hi : lastDotIdx (ppOf (runsOf s)).rules with
  | none => simp [fuzzyPieces]
  | some i =>
    simp only
    have hget := lastDotIdx_bound hi
    have hlt : i < (runsOf s).length := by
      have := (List.getElem?_eq_some_iff.mp hget).1
      simpa [ppOf] using this
    split
    · obtain ⟨gs, e1, e2, e3⟩ := mix_split ((runsOf s).drop (i + 1))
      simp only [ppOf, ← List.map_drop, e2, List.length_map, List.length_zip, List.length_append, List.length_cons, List.length_nil]
      have := groups_length (fun g hg => (e3 g hg).1)
      rw [e1, List.length_drop] at this
      omega
    · simp [fuzzyPieces]

end OsUrl
