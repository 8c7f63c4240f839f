import Verif.Proofs.RowClose
import Verif.Proofs.GenMatch

/-! Texts of groups carry over from one string to another. -/

namespace OsUrl
open Spec

abbrev Run := Space × Str

/-- The cells a group contributes for its text. -/
def PCell (g : List Run) (a : Str) (cs : List Cell) : Prop :=
  (a = (gpair g).1 ∧ cs = g.map (fun r => (r.1.text, runText r))) ∨
  (g ≠ [] ∧ ∃ n : Int, ((n = lenOf (gpart g) ∧ ¬ SignRule (gpair g).2) ∨ n = -1) ∧ a = specStr (gpair g).2 n ∧ cs = [((gpair g).2, a)])

/-- The cells of a list of groups. -/
inductive GCells : List (List Run) → List Str → List (List Cell) → Prop where
  | nil : GCells [] [] []
  | cons {g a cs gs as css} (h : PCell g a cs) (hs : GCells gs as css) : GCells (g :: gs) (a :: as) (cs :: css)

/-- The texts fit the groups. -/
inductive GFit : List (List Run) → List Str → Prop where
  | nil : GFit [] []
  | cons {g a gs as} (h : FitPart (gpart g) a) (hs : GFit gs as) : GFit (g :: gs) (a :: as)

theorem gpart_pair (g : List Run) : (gpart g).piece = (gpair g).1 ∧ (gpart g).fuzzyRule = (gpair g).2 := single_vpair rfl

theorem rule_ne {w : Str} {g : List Run} (h : Runs w g) (hg : g ≠ []) : (gpair g).2 ≠ [] := by
  intro e
  have hp : Part (gpart g) := ⟨g, w, h, rfl⟩
  have := lenOf_gpart h hg
  rcases hp.len with ⟨-, h2⟩ | h1
  · rw [h2] at this
    exact absurd this (by decide)
  · exact h1.1 ((gpart_pair g).2.trans e)

theorem rule_nil {w : Str} {g : List Run} (h : Runs w g) : (gpair g).2 = [] ↔ g = [] := by
  constructor
  · intro e
    exact Classical.byContradiction fun hg => rule_ne h hg e
  · rintro rfl; rfl

theorem fit_cell {g : List Run} {a : Str} (h : FitPart (gpart g) a) : ∃ cs, PCell g a cs := by
  unfold FitPart at h
  rw [(gpart_pair g).1, (gpart_pair g).2] at h
  have hne : (gpair g).2 ≠ [] → g ≠ [] := by rintro h rfl; exact h rfl
  rcases h with h | ⟨h0, ⟨h1, h2⟩ | h1⟩
  · exact ⟨_, .inl ⟨h, rfl⟩⟩
  · exact ⟨_, .inr ⟨hne h0, _, .inl ⟨rfl, h1⟩, h2, rfl⟩⟩
  · exact ⟨_, .inr ⟨hne h0, _, .inr rfl, h1, rfl⟩⟩

theorem cell_fit {w : Str} {g : List Run} (hr : Runs w g) {a : Str} {cs : List Cell} (h : PCell g a cs) : FitPart (gpart g) a := by
  unfold FitPart
  rw [(gpart_pair g).1, (gpart_pair g).2]
  rcases h with ⟨h, -⟩ | ⟨h0, n, ⟨rfl, h1⟩ | rfl, h2, -⟩
  · exact .inl h
  · exact .inr ⟨rule_ne hr h0, .inl ⟨h1, h2⟩⟩
  · exact .inr ⟨rule_ne hr h0, .inr h2⟩

theorem gfit_cells {gs : List (List Run)} {as : List Str} (h : GFit gs as) : ∃ css, GCells gs as css := by
  induction h with
  | nil => exact ⟨[], .nil⟩
  | cons h hs ih =>
    obtain ⟨css, ih⟩ := ih
    obtain ⟨cs, hc⟩ := fit_cell h
    exact ⟨cs :: css, .cons hc ih⟩

theorem Cover.append {rs rs' : List Run} {cs cs' : List Cell} (h : Cover rs cs) (h' : Cover rs' cs') : Cover (rs ++ rs') (cs ++ cs') := by
  induction h with
  | nil => exact h'
  | lit r h ih => exact .lit r ih
  | cls g n hg hn h ih =>
    rw [List.append_assoc]
    exact .cls g n hg hn ih

theorem Cover.split {rs : List Run} {cs cs' : List Cell} (h : Cover rs (cs ++ cs')) :
    ∃ a b, rs = a ++ b ∧ Cover a cs ∧ Cover b cs' := by
  induction cs generalizing rs with
  | nil => exact ⟨[], rs, rfl, .nil, h⟩
  | cons c cs ih =>
    rw [List.cons_append] at h
    cases h with
    | lit r h =>
      obtain ⟨a, b, rfl, h1, h2⟩ := ih h
      exact ⟨r :: a, b, rfl, .lit r h1, h2⟩
    | cls g n hg hn h =>
      obtain ⟨a, b, rfl, h1, h2⟩ := ih h
      exact ⟨g ++ a, b, by simp, .cls g n hg hn h1, h2⟩

theorem cell_cover {g : List Run} {a : Str} {cs : List Cell} (h : PCell g a cs) : Cover g cs ∧ cellText cs = a := by
  rcases h with ⟨h, rfl⟩ | ⟨h0, n, hn, h2, rfl⟩
  · exact ⟨cover_runs g, by rw [cellText_runs, h]⟩
  · refine ⟨?_, by simp⟩
    have := Cover.cls g n h0 hn .nil
    rw [List.append_nil, ← h2] at this
    exact this

theorem gcells_cover {gs : List (List Run)} {as : List Str} {css : List (List Cell)} (h : GCells gs as css) :
    Cover gs.flatten css.flatten ∧ cellText css.flatten = as.flatten := by
  induction h with
  | nil => exact ⟨.nil, rfl⟩
  | cons h hs ih =>
    obtain ⟨h1, h2⟩ := cell_cover h
    rw [List.flatten_cons, List.flatten_cons, List.flatten_cons, cellText_append, h2, ih.2]
    exact ⟨h1.append ih.1, rfl⟩

/-! ### Carrying over -/

theorem runText_inj {w w' : Str} {r r' : Run} (hr : Runs w [r]) (hr' : Runs w' [r']) (e1 : r.1.text = r'.1.text)
    (e2 : runText r = runText r') : r = r' := by
  have h1 := runs_exact hr
  have h2 := runs_exact hr'
  have c1 := hr.concat
  have c2 := hr'.concat
  simp only [List.map_cons, List.map_nil, List.flatten_cons, List.flatten_nil, List.append_nil] at h1 h2 c1 c2
  rw [e2] at h1
  have hw : w = w' := Exact.unique h1 h2
  have := text_inj e1
  obtain ⟨a, b⟩ := r
  obtain ⟨a', b'⟩ := r'
  simp only at c1 c2 this
  rw [this, c1, c2, hw]

theorem single_pair (r : Run) : gpair [r] = (runText r, r.1.text) := by simp [gpair, joinSorted_one]

/-- A run written out is not a class. -/
theorem lit_not_class {w : Str} {r : Run} (hr : Runs w [r]) {n : Int} (hn : 1 ≤ n ∨ n = -1) (e : runText r = specStr r.1.text n)
    (hs : (¬ SignRule r.1.text) ∨ n = -1) : False := by
  have hp : Part (gpart [r]) := ⟨[r], w, hr, rfl⟩
  have h1 := gpart_pair [r]
  rw [single_pair] at h1
  simp only at h1
  have h0 := rule_ne hr (by simp)
  rw [single_pair] at h0
  have := part_class hp (by rw [h1.2]; exact h0) hn (by rw [h1.1, h1.2]; exact e)
  rw [h1.2] at this
  rcases hs with h | h
  · exact h this.1
  · omega

theorem runs_one {w : Str} {rs : List Run} (h : Runs w rs) {r : Run} (hr : r ∈ rs) : Runs r.2 [r] := by
  refine ⟨by simp, fun x hx => ?_, fun x hx => ?_, neighbours_single _⟩
  · rw [List.mem_singleton] at hx; subst hx; exact h.nonempty _ hr
  · rw [List.mem_singleton] at hx; subst hx; exact h.space _ hr

/-- Runs written out cover only themselves. -/
theorem cover_lits {w w' : Str} {g rs : List Run} (hg : Runs w g) (hr : Runs w' rs) (h : Cover rs (g.map (fun r => (r.1.text, runText r)))) :
    rs = g := by
  induction g generalizing rs w w' with
  | nil => cases h; rfl
  | cons r g ih =>
    rw [List.map_cons] at h
    generalize hc : (r.1.text, runText r) = c at h
    cases h with
    | lit r' h =>
      simp only [Prod.mk.injEq] at hc
      have e := runText_inj (runs_one hg (r := r) (by simp)) (runs_one hr (r := r') (by simp)) hc.1 hc.2
      rw [e, ih (runs_drop (g := [r]) hg) (runs_drop (g := [r']) hr) h]
    | cls g' n hg' hn h =>
      exfalso
      simp only [Prod.mk.injEq] at hc
      have hl := lenOf_gpart (runs_take hr) hg'
      refine lit_not_class (runs_one hg (r := r) (by simp)) (n := n) (by omega) (by rw [hc.2, hc.1]) ?_
      rcases hn with ⟨-, h1⟩ | h1
      · left; rw [hc.1]; exact h1
      · exact .inr h1

/-- How two groups with the same text are related. -/
structure SameGrp (g : List Run) (a : Str) (g' : List Run) : Prop where
  rule : (gpair g').2 = (gpair g).2
  lit : a = (gpair g).1 → g' = g

theorem cell_move {w w' : Str} {g rs : List Run} (hg : Runs w g) (hr : Runs w' rs) {a : Str} {cs : List Cell} (h : PCell g a cs)
    (hc : Cover rs cs) : PCell rs a cs ∧ SameGrp g a rs := by
  rcases h with ⟨h, rfl⟩ | ⟨h0, n, hn, h2, rfl⟩
  · obtain rfl := cover_lits hg hr hc
    exact ⟨.inl ⟨h, rfl⟩, rfl, fun _ => rfl⟩
  · have hl := lenOf_gpart hg h0
    have hnr := rule_ne hg h0
    have hp := gpart_pair g
    have notlit : a ≠ (gpair g).1 := by
      intro e
      have := part_class (x := gpart g) ⟨g, w, hg, rfl⟩ (by rw [hp.2]; exact hnr) (n := n) (by omega) (by rw [hp.1, hp.2, ← e, h2])
      rw [hp.2] at this
      rcases hn with ⟨-, h1⟩ | h1
      · exact h1 this.1
      · omega
    generalize hcell : ((gpair g).2, a) = c at hc
    generalize hnil : ([] : List Cell) = cs at hc
    cases hc with
    | lit r' h =>
      exfalso
      simp only [Prod.mk.injEq] at hcell
      refine lit_not_class (runs_one hr (r := r') (by simp)) (n := n) (by omega) (by rw [← hcell.2, h2, hcell.1]) ?_
      rcases hn with ⟨-, h1⟩ | h1
      · left; rw [← hcell.1]; exact h1
      · exact .inr h1
    | cls g' n' hg' hn' h =>
      subst hnil
      cases h
      simp only [List.append_nil, Prod.mk.injEq] at hcell hr ⊢
      have hl' := lenOf_gpart hr hg'
      have en : n = n' := specStr_inj (r := (gpair g).2) (by omega) (by omega) (by rw [← h2, hcell.2, hcell.1])
      refine ⟨.inr ⟨hg', n', hn', hcell.2, by rw [hcell.2]⟩, hcell.1.symm, fun e => absurd e notlit⟩

/-- Pointwise relation of groups with the same texts. -/
inductive SameGrps : List (List Run) → List Str → List (List Run) → Prop where
  | nil : SameGrps [] [] []
  | cons {g a g' gs as gs'} (h : SameGrp g a g') (hs : SameGrps gs as gs') : SameGrps (g :: gs) (a :: as) (g' :: gs')

theorem runs_nil : Runs [] [] := ⟨rfl, by simp, by simp, neighbours_nil⟩

theorem cells_move {w w' : Str} {gs : List (List Run)} {rs : List Run} (hg : Runs w gs.flatten) (hr : Runs w' rs) {as : List Str}
    {css : List (List Cell)} (h : GCells gs as css) (hc : Cover rs css.flatten) :
    ∃ gs', gs'.flatten = rs ∧ GFit gs' as ∧ SameGrps gs as gs' := by
  induction h generalizing rs w w' with
  | nil =>
    cases hc
    exact ⟨[], rfl, .nil, .nil⟩
  | cons h hs ih =>
    rw [List.flatten_cons] at hc hg
    obtain ⟨a, b, rfl, h1, h2⟩ := hc.split
    obtain ⟨h3, h4⟩ := cell_move (runs_take hg) (runs_take hr) h h1
    obtain ⟨gs', rfl, h5, h6⟩ := ih (runs_drop hg) (runs_drop hr) h2
    exact ⟨a :: gs', rfl, .cons (cell_fit (runs_take hr) h3) h5, .cons h4 h6⟩

/-- Two strings with groups of the same text: the groups of the one carry over to the other. -/
theorem groups_move {w w' : Str} {gs hs : List (List Run)} (hg : Runs w gs.flatten) (hh : Runs w' hs.flatten) {as bs : List Str}
    (h : GFit gs as) (h' : GFit hs bs) (e : as.flatten = bs.flatten) :
    ∃ gs', gs'.flatten = hs.flatten ∧ GFit gs' as ∧ SameGrps gs as gs' := by
  obtain ⟨css, hc⟩ := gfit_cells h
  obtain ⟨dss, hd⟩ := gfit_cells h'
  obtain ⟨c1, c2⟩ := gcells_cover hc
  obtain ⟨d1, d2⟩ := gcells_cover hd
  have := cover_unique hg hh c1 d1 (by rw [c2, d2, e])
  rw [← this] at d1
  exact cells_move hg hh hc d1

/-- A class is not the text of several groups. -/
theorem cells_class {w : Str} {gs : List (List Run)} (hg : Runs w gs.flatten) {as : List Str} (h : GFit gs as)
    {r : List Str} (hr : ∀ x ∈ r, x ∈ ruleSet) {n : Int} (hn : 1 ≤ n ∨ n = -1) (e : as.flatten = specStr r.flatten n)
    {g g' : List Run} (hm : ∃ a b c, gs = a ++ g :: b ++ g' :: c) (h1 : g ≠ []) (h2 : g' ≠ []) : False := by
  obtain ⟨css, hc⟩ := gfit_cells h
  obtain ⟨c1, c2⟩ := gcells_cover hc
  obtain ⟨q, e1, hq⟩ := QText.spec (n := n) (by omega) r.flatten
  have good : Good [(r.flatten, specStr r.flatten n)] := by
    rw [e1]
    exact .bra r q _ hr hq (by simp) .nil
  have one := good_unique (cover_good hg c1) good (by rw [c2, e]; simp)
  have len : ∀ {gs as css}, GCells gs as css → (gs.filter (fun g => decide (g ≠ []))).length ≤ css.flatten.length := by
    intro gs as css h
    induction h with
    | nil => simp
    | cons h hs ih =>
      rename_i g a cs gs as css
      have : 1 ≤ cs.length ∨ g = [] := by
        rcases h with ⟨-, rfl⟩ | ⟨-, n, -, -, rfl⟩
        · cases g with
          | nil => exact .inr rfl
          | cons r g => left; simp
        · left; simp
      rw [List.flatten_cons, List.length_append, List.filter_cons]
      split
      · rename_i h0
        have := this.resolve_right (by simpa using h0)
        simp only [List.length_cons]; omega
      · omega
  have hl := len hc
  rw [one] at hl
  obtain ⟨a, b, c, rfl⟩ := hm
  simp only [List.filter_append, List.filter_cons, List.length_append] at hl
  rw [if_pos (by simpa using h1), if_pos (by simpa using h2)] at hl
  simp at hl
  omega

end OsUrl
