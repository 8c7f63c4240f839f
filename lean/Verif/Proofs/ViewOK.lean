import Verif.Proofs.MultiStage2
import Verif.Proofs.MatchSel

/-! The views of parsed pieces are fit for the multi part stages. -/

namespace OsUrl
open Spec

/-- The piece comes from a string of known characters. -/
def IsParsed (p : ParsedPiece) : Prop := ∃ s : Str, (∀ c ∈ s, Known c) ∧ p = ppOf (runsOf s)

/-- A part of a view: one text and one rule, of a string. -/
def Part (q : ParsedPiece) : Prop :=
  ∃ g w, Runs w g ∧ q = single (gpair g).1 (gpair g).2

/-- A view of a piece that is fit for a stage; `Tok` restricts the rules of the parts. -/
structure ViewOK (Tok : Str → Prop) (V : ParsedPiece → View) (p : ParsedPiece) : Prop where
  flat : ((V p).pps.map (·.piece)).flatten = p.piece
  str : (V p).view = viewStr (V p).pps
  ne : (V p).pps ≠ []
  parts : ∀ q ∈ (V p).pps, Part q
  tok : ∀ q ∈ (V p).pps, Tok q.fuzzyRule

/-- Joined rules can be taken apart. -/
def JoinInj (Tok : Str → Prop) : Prop :=
  ∀ xs ys : List Str, xs ≠ [] → ys ≠ [] → (∀ t ∈ xs, Tok t) → (∀ t ∈ ys, Tok t) → join ['/'] xs = join ['/'] ys → xs = ys

theorem joinInj_token : JoinInj Token := fun _ _ _ _ h1 h2 e => join_inj h1 h2 e
theorem joinInj_noslash : JoinInj (fun t => '/' ∉ t) := fun _ _ h1 h2 h3 h4 e => join_split_inj h1 h2 h3 h4 e

theorem single_vpair {q : ParsedPiece} {a b : Str} (h : q = single a b) : q.piece = a ∧ q.fuzzyRule = b := by
  subst h
  have := vpair_single a b
  unfold vpair at this
  exact Prod.mk.inj this

theorem Part.eq {q : ParsedPiece} (h : Part q) : q = single q.piece q.fuzzyRule := by
  obtain ⟨g, w, -, rfl⟩ := h
  have := single_vpair (q := single (gpair g).1 (gpair g).2) rfl
  rw [this.1, this.2]

theorem Part.one {q : ParsedPiece} (h : Part q) : q.pieces.length = 1 := by
  obtain ⟨g, w, -, rfl⟩ := h; rfl

/-- The extra lengths are not negative. -/
theorem extra_sum_nonneg (rs : List (Space × Str)) : 0 ≤ (rs.map extra).sum := by
  induction rs with
  | nil => simp
  | cons r rs ih =>
    rw [List.map_cons, List.sum_cons]
    have : 0 ≤ extra r := by unfold extra; split <;> omega
    omega

/-- A part without rule is empty, the others have a length. -/
theorem Part.len {q : ParsedPiece} (h : Part q) :
    (q.fuzzyRule = [] ∧ q = single [] []) ∨ (q.fuzzyRule ≠ [] ∧ q.pieceLength = .ok (lenOf q) ∧ 1 ≤ lenOf q) := by
  obtain ⟨g, w, hr, rfl⟩ := h
  have hv := single_vpair (q := single (gpair g).1 (gpair g).2) rfl
  have hl := group_length hr (v := single (gpair g).1 (gpair g).2) (vpair_single _ _)
  cases g with
  | nil => left; exact ⟨by rw [hv.2]; rfl, rfl⟩
  | cons r g =>
    right
    refine ⟨?_, ?_, ?_⟩
    · rw [hv.2]
      intro e
      have := (group_rule hr (rs := []) (by simp) (by unfold gpair at e; simp only at e; rw [e]; rfl)).2.mpr rfl
      have h2 := hr.concat
      rw [this] at h2
      have h3 := hr.nonempty r (by simp)
      simp only [List.map_cons, List.flatten_cons, List.append_eq_nil_iff] at h2
      exact h3 h2.1
    · unfold lenOf; rw [hl]
    · unfold lenOf
      rw [hl]
      have h2 := hr.concat
      have h3 := List.length_pos_iff.mpr (hr.nonempty r (by simp))
      have h4 : 1 ≤ w.length := by rw [← h2]; simp; omega
      have := extra_sum_nonneg (runsOf w)
      simp only
      omega

section
variable {Tok : Str → Prop} {V : ParsedPiece → View}

/-- Pieces with the same view have the same rules. -/
theorem same_rules (hj : JoinInj Tok) {p p' : ParsedPiece} (h : ViewOK Tok V p) (h' : ViewOK Tok V p') (e : (V p).view = (V p').view) :
    (V p).pps.map (·.fuzzyRule) = (V p').pps.map (·.fuzzyRule) := by
  rw [h.str, h'.str] at e
  refine hj _ _ (by simpa using h.ne) (by simpa using h'.ne) ?_ ?_ e
  · intro t ht; obtain ⟨q, hq, rfl⟩ := List.mem_map.mp ht; exact h.tok q hq
  · intro t ht; obtain ⟨q, hq, rfl⟩ := List.mem_map.mp ht; exact h'.tok q hq

theorem vrow_part {p : ParsedPiece} (c : Int) (h : ViewOK Tok V p) {j : Nat} (hj : j < (V p).pps.length) :
    Part ((vrow V (p, c)).pp j) := by
  rw [vrow_pp, List.getElem?_eq_getElem hj]
  exact h.parts _ (List.getElem_mem hj)

theorem vrow_rule {p p' : ParsedPiece} (c c' : Int) (e : (V p).pps.map (·.fuzzyRule) = (V p').pps.map (·.fuzzyRule)) (j : Nat) :
    ((vrow V (p, c)).pp j).fuzzyRule = ((vrow V (p', c')).pp j).fuzzyRule := by
  rw [vrow_pp, vrow_pp]
  have := congrArg (·[j]?) e
  simp only [List.getElem?_map] at this
  cases h1 : (V p).pps[j]? <;> cases h2 : (V p').pps[j]? <;> simp [h1, h2] at this ⊢
  exact this

theorem groupOK (hj : JoinInj Tok) {bs : List PieceBag} (hn : (bs.map PieceBag.piece).Nodup) (hpos : ∀ b ∈ bs, 1 ≤ b.count)
    (hv : ∀ b ∈ bs, ViewOK Tok V b.pp) {b0 : PieceBag} (hb0 : b0 ∈ bs) :
    GroupOK V (V b0.pp).pps.length (bagView V bs (V b0.pp).view) := by
  have hsub : ∀ b ∈ bagView V bs (V b0.pp).view, b ∈ bs ∧ (V b.pp).view = (V b0.pp).view := by
    intro b hb
    have := List.mem_filter.mp hb
    exact ⟨this.1, of_decide_eq_true this.2⟩
  have hrul : ∀ b ∈ bagView V bs (V b0.pp).view, (V b.pp).pps.map (·.fuzzyRule) = (V b0.pp).pps.map (·.fuzzyRule) :=
    fun b hb => same_rules hj (hv b (hsub b hb).1) (hv b0 hb0) (hsub b hb).2
  have hlen : ∀ b ∈ bagView V bs (V b0.pp).view, (V b.pp).pps.length = (V b0.pp).pps.length := by
    intro b hb
    have := congrArg List.length (hrul b hb)
    simpa using this
  refine ⟨hn.sublist (List.filter_sublist.map _), fun b hb => (hv b (hsub b hb).1).flat, ?_⟩
  have mem : ∀ x ∈ vrows V (bagView V bs (V b0.pp).view), ∃ b ∈ bagView V bs (V b0.pp).view, x = vrow V (b.pp, b.count) := by
    intro x hx
    obtain ⟨b, hb, rfl⟩ := List.mem_map.mp hx
    exact ⟨b, hb, rfl⟩
  refine ⟨?_, ?_, ?_, ?_⟩
  · intro x hx
    obtain ⟨b, hb, rfl⟩ := mem x hx
    simp [vrow, hlen b hb]
  · intro x hx
    obtain ⟨b, hb, rfl⟩ := mem x hx
    exact hpos b (hsub b hb).1
  · intro j hj'
    have hp : ∀ p ∈ (vrows V (bagView V bs (V b0.pp).view)).map (Ins.pp j), Part p ∧
        p.fuzzyRule = ((vrow V (b0.pp, 0)).pp j).fuzzyRule := by
      intro p hp
      obtain ⟨x, hx, rfl⟩ := List.mem_map.mp hp
      obtain ⟨b, hb, rfl⟩ := mem x hx
      exact ⟨vrow_part _ (hv b (hsub b hb).1) (by rw [hlen b hb]; exact hj'), vrow_rule _ _ (hrul b hb) j⟩
    by_cases hr : ((vrow V (b0.pp, 0)).pp j).fuzzyRule = []
    · right
      refine ⟨single [] [], fun p hpm => ?_⟩
      obtain ⟨h1, h2⟩ := hp p hpm
      rcases h1.len with h | h
      · exact h.2
      · exact absurd (h2.trans hr) h.1
    · left
      refine ⟨((vrow V (b0.pp, 0)).pp j).fuzzyRule, fun p hpm => ?_⟩
      obtain ⟨h1, h2⟩ := hp p hpm
      rcases h1.len with h | h
      · exact absurd (h2.symm.trans h.1) hr
      · exact ⟨h1.one, h2, h.2⟩
  · intro j hj' x hx y hy e
    obtain ⟨b, hb, rfl⟩ := mem x hx
    obtain ⟨b', hb', rfl⟩ := mem y hy
    have p1 := (vrow_part b.count (hv b (hsub b hb).1) (by rw [hlen b hb]; exact hj')).eq
    have p2 := (vrow_part b'.count (hv b' (hsub b' hb').1) (by rw [hlen b' hb']; exact hj')).eq
    have r := vrow_rule b.count b'.count ((hrul b hb).trans (hrul b' hb').symm) j
    rw [p1, p2, e, r]

end

/-! ### The three views -/

theorem zip_gpair' (gs : List (List (Space × Str))) :
    ((gs.map (fun g => (gpair g).1)).zip (gs.map (fun g => (gpair g).2))).map (fun pr => single pr.1 pr.2) =
      gs.map (fun g => single (gpair g).1 (gpair g).2) := by
  induction gs with
  | nil => rfl
  | cons g gs ih => simp only [List.map_cons, List.zip_cons_cons, ih]

theorem multi_pieces (rs : List (Space × Str)) :
    multiPieces (ppOf rs) = (rs.map (fun r => [r])).map (fun g => single (gpair g).1 (gpair g).2) := by
  unfold multiPieces
  simp only [ppOf]
  rw [zip_ppOf, List.map_map, List.map_map]
  apply List.map_congr_left
  intro r _
  simp [gpair, joinSorted]

theorem mixed_pieces {rs : List (Space × Str)} (h : 2 ≤ rs.length) :
    ∃ gs : List (List (Space × Str)), gs.flatten = rs ∧
      mixedPieces (ppOf rs) = gs.map (fun g => single (gpair g).1 (gpair g).2) ∧
      ∀ g ∈ gs, g ≠ [] ∧ ((∀ r ∈ g, Mixable r.1.text) ∨ ∃ r, g = [r]) := by
  obtain ⟨gs, e1, e2, e3⟩ := mix_split rs
  refine ⟨gs, e1, ?_, e3⟩
  unfold mixedPieces
  rw [if_neg (by simp [ppOf]; omega)]
  simp only [ppOf, e2]
  exact zip_gpair' gs

theorem lastDot_pieces (rs : List (Space × Str)) :
    ∃ gs : List (List (Space × Str)), gs.flatten = rs ∧ gs ≠ [] ∧
      lastDotPieces (ppOf rs) = gs.map (fun g => single (gpair g).1 (gpair g).2) := by
  have hfz : fuzzyPieces (ppOf rs) = [rs].map (fun g => single (gpair g).1 (gpair g).2) := by
    unfold fuzzyPieces
    have := vpair_ppOf rs
    unfold vpair at this
    have h1 := congrArg Prod.fst this
    have h2 := congrArg Prod.snd this
    simp only at h1 h2
    simp [h1, h2]
  unfold lastDotPieces
  cases hi : lastDotIdx (ppOf rs).rules with
  | none => exact ⟨[rs], by simp, by simp, hfz⟩
  | some i =>
    simp only
    have hget := lastDotIdx_bound hi
    simp only [ppOf, List.getElem?_map, Option.map_eq_some_iff] at hget
    obtain ⟨r, hr, hrt⟩ := hget
    have hsplit : rs = rs.take i ++ r :: rs.drop (i + 1) := by
      conv => lhs; rw [← List.take_append_drop i rs]
      rw [List.drop_eq_getElem?_toList_append, hr]; rfl
    split
    · obtain ⟨gs, e1, e2, e3⟩ := mix_split (rs.drop (i + 1))
      refine ⟨rs.take i :: [r] :: gs, ?_, by simp, ?_⟩
      · simp only [List.flatten_cons, e1]
        exact hsplit.symm
      · simp only [ppOf, ← List.map_drop, e2]
        have z := zip_gpair' (rs.take i :: [r] :: gs)
        simp only [List.map_cons, gpair, List.map_nil, List.flatten_cons, List.flatten_nil, List.append_nil] at z
        have j1 : joinSorted [r.1.text] = r.1.text := by simp [joinSorted]
        rw [j1] at z
        simp only [← List.map_take, List.getD_eq_getElem?_getD, List.getElem?_map, hr, Option.map_some, Option.getD_some]
        rw [List.map_cons, List.map_cons]
        simpa [gpair, joinSorted] using z
    · exact ⟨[rs], by simp, by simp, hfz⟩

theorem flat_groups {rs : List (Space × Str)} {gs : List (List (Space × Str))} (hf : gs.flatten = rs) :
    ((gs.map (fun g => single (gpair g).1 (gpair g).2)).map (·.piece)).flatten = (ppOf rs).piece := by
  rw [List.map_map]
  have : (gs.map ((fun q : ParsedPiece => q.piece) ∘ fun g => single (gpair g).1 (gpair g).2)) = gs.map (fun g => (g.map runText).flatten) := by
    apply List.map_congr_left
    intro g _
    exact (single_vpair rfl).1
  rw [this, ← hf]
  have h2 : (ppOf gs.flatten).piece = (gs.flatten.map runText).flatten := by simp [ppOf, ParsedPiece.piece]
  rw [h2]
  clear this hf h2
  induction gs with
  | nil => rfl
  | cons g gs ih => simp [ih]

/-- A view made of groups of runs is fit. -/
theorem viewOK_groups {Tok : Str → Prop} {V : ParsedPiece → View} {s : Str} (hk : ∀ c ∈ s, Known c)
    {gs : List (List (Space × Str))} (hf : gs.flatten = runsOf s)
    (hp : (V (ppOf (runsOf s))).pps = gs.map (fun g => single (gpair g).1 (gpair g).2))
    (hs : (V (ppOf (runsOf s))).view = viewStr (V (ppOf (runsOf s))).pps) (hne : gs ≠ [])
    (ht : ∀ g ∈ gs, Tok (gpair g).2) : ViewOK Tok V (ppOf (runsOf s)) := by
  refine ⟨?_, hs, ?_, ?_, ?_⟩
  · rw [hp, flat_groups hf]
  · rw [hp]; simpa using hne
  · intro q hq
    rw [hp] at hq
    obtain ⟨g, hg, rfl⟩ := List.mem_map.mp hq
    exact ⟨g, _, runs_group (runsOf_spec hk) hf hg, rfl⟩
  · intro q hq
    rw [hp] at hq
    obtain ⟨g, hg, rfl⟩ := List.mem_map.mp hq
    rw [(single_vpair rfl).2]
    exact ht g hg

theorem single_token {s : Str} (hk : ∀ c ∈ s, Known c) {r : Space × Str} (h : r ∈ runsOf s) : Token (gpair [r]).2 := by
  have hv : r.1.text ∈ ruleSet := mem_ruleSet.mpr ⟨r.1, (runsOf_spec hk).valid r h, rfl⟩
  exact joinSorted_token (by simpa using hv) (by simp) (by intro h x hx; simp at h hx; rw [hx, h])

theorem multi_viewOK {p : ParsedPiece} (hp : IsParsed p) (h : p.pieces ≠ []) : ViewOK Token multiView p := by
  obtain ⟨s, hk, rfl⟩ := hp
  refine viewOK_groups hk (gs := (runsOf s).map (fun r => [r])) ?_ (multi_pieces _) rfl ?_ ?_
  · generalize runsOf s = rs
    induction rs with
    | nil => rfl
    | cons r rs ih => simp [ih]
  · intro e
    apply h
    rw [List.map_eq_nil_iff] at e
    simp [ppOf, e]
  · intro g hg
    obtain ⟨r, hr, rfl⟩ := List.mem_map.mp hg
    exact single_token hk hr

theorem mixed_viewOK {p : ParsedPiece} (hp : IsParsed p) (h : 2 ≤ p.pieces.length) : ViewOK Token mixedView p := by
  obtain ⟨s, hk, rfl⟩ := hp
  have h2 : 2 ≤ (runsOf s).length := by simpa [ppOf] using h
  obtain ⟨gs, e1, e2, e3⟩ := mixed_pieces h2
  refine viewOK_groups hk e1 e2 rfl ?_ ?_
  · rintro rfl
    rw [← e1] at h2; simp at h2
  · intro g hg
    obtain ⟨g1, g2⟩ := e3 g hg
    rcases g2 with g2 | ⟨r, rfl⟩
    · refine joinSorted_token (group_rules_mem (runs_group (runsOf_spec hk) e1 hg)) (by simpa using g1) ?_
      intro hsl
      obtain ⟨r, hrg, hrt⟩ := List.mem_map.mp hsl
      have := g2 r hrg
      rw [hrt] at this
      exact absurd this (by decide)
    · exact single_token hk (by rw [← e1]; exact List.mem_flatten.mpr ⟨_, hg, by simp⟩)

theorem lastDot_viewOK {p : ParsedPiece} (hp : IsParsed p) (h : '/' ∉ p.fuzzyRule) : ViewOK (fun t => '/' ∉ t) lastDotView p := by
  obtain ⟨s, hk, rfl⟩ := hp
  obtain ⟨gs, e1, e2, e3⟩ := lastDot_pieces (runsOf s)
  refine viewOK_groups hk e1 e3 rfl e2 ?_
  intro g hg hc
  exact h (group_rule_sub e1 hg hc)

end OsUrl
