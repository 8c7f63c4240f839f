import Verif.Proofs.PatRe
import Verif.Spec.Tight

/-! Patterns are no wider than the pieces require. -/

namespace OsUrl
open Spec

/-- In a set of rows with the same labels no level makes the set smaller. -/
theorem labs_unif_get {F : LevelFn} : ∀ {k j : Nat} {S : List Ins} {x : Ins}, (∀ c ∈ S, labs F k j S c = labs F k j S x) → ∀ i, i < k →
    (labs F k j S x)[i]? = some (lab F (j + i) S x) := by
  intro k
  induction k with
  | zero => intro j S x _ i hi; omega
  | succ k ih =>
    intro j S x hu i hi
    have h0 : ∀ c ∈ S, lab F j S c = lab F j S x := by
      intro c hc
      have := hu c hc
      simp only [labs, List.cons.injEq] at this
      exact this.1
    have hn : ∀ c ∈ S, nxt F j S c = S := fun c hc => nxt_all (fun c' hc' => (h0 c' hc').trans (h0 c hc).symm)
    have hx : nxt F j S x = S := nxt_all h0
    cases i with
    | zero => simp [labs]
    | succ i =>
      simp only [labs, List.getElem?_cons_succ, hx]
      rw [show j + (i + 1) = j + 1 + i by omega]
      apply ih _ i (by omega)
      intro c hc
      have := hu c hc
      simp only [labs, List.cons.injEq] at this
      rw [hn c hc, hx] at this
      exact this.2

/-- What a stage of views tells about the parts of the pieces it puts together. -/
theorem settle_tight {mcn : Int} (hm : 2 ≤ mcn) {kw : Bool} {Tok : Str → Prop} {V : ParsedPiece → View} (hj : JoinInj Tok) {B : List Ent}
    (hB : ∀ e ∈ B, ViewOK Tok V e.1) (hpos : ∀ e ∈ B, 1 ≤ e.2) {e : Ent} (he : e ∈ B) {q : Str} (hs : settle mcn kw V B e.1 = some q) :
    ∃ as : List Str, as.length = (V e.1).pps.length ∧ as.flatten = q ∧ FitList (V e.1).pps as ∧
      ∀ (i : Nat) (a : Str) (p : ParsedPiece), as[i]? = some a → (V e.1).pps[i]? = some p → a = p.piece ∨
        ∃ e1 ∈ B, ∃ e2 ∈ B, ∃ p1 p2, (V e1.1).pps.length = as.length ∧ (V e2.1).pps.length = as.length ∧ FitList (V e1.1).pps as ∧
          FitList (V e2.1).pps as ∧ (V e1.1).pps[i]? = some p1 ∧ (V e2.1).pps[i]? = some p2 ∧
          ((a = specStr p.fuzzyRule (lenOf p) ∧ p1.piece ≠ p2.piece) ∨ (a = specStr p.fuzzyRule (-1) ∧ lenOf p1 ≠ lenOf p2)) := by
  have hgrp : ∀ e' ∈ vgrp V B e.1, e' ∈ B ∧ (V e'.1).view = (V e.1).view := by
    intro e' he'
    have := List.mem_filter.mp he'
    exact ⟨this.1, of_decide_eq_true this.2⟩
  have hself : e ∈ vgrp V B e.1 := List.mem_filter.mpr ⟨he, by simp⟩
  have hrul : ∀ e' ∈ B, (V e'.1).view = (V e.1).view → (V e'.1).pps.map (·.fuzzyRule) = (V e.1).pps.map (·.fuzzyRule) :=
    fun e' he' hv => same_rules hj (hB e' he') (hB e he) hv
  have hlen : ∀ e' ∈ B, (V e'.1).view = (V e.1).view → (V e'.1).pps.length = (V e.1).pps.length := by
    intro e' he' hv
    have := congrArg List.length (hrul e' he' hv)
    simpa using this
  generalize hn : (V e.1).pps.length = n at hlen ⊢
  generalize hRdef : (vgrp V B e.1).map (vrow V) = R
  have mem : ∀ x ∈ R, ∃ e' ∈ B, (V e'.1).view = (V e.1).view ∧ x = vrow V (e'.1, e'.2) := by
    intro x hx
    rw [← hRdef] at hx
    obtain ⟨e', he', rfl⟩ := List.mem_map.mp hx
    exact ⟨e', (hgrp e' he').1, (hgrp e' he').2, rfl⟩
  have memR : ∀ e' ∈ B, (V e'.1).view = (V e.1).view → vrow V e' ∈ R := by
    intro e' he' hv
    rw [← hRdef]
    exact List.mem_map.mpr ⟨e', List.mem_filter.mpr ⟨he', by simpa using hv⟩, rfl⟩
  have hpt : ∀ j, j < n → ∀ x ∈ R, Part (x.pp j) := by
    intro j hj' x hx
    obtain ⟨e', he', hv, rfl⟩ := mem x hx
    exact vrow_part _ (hB e' he') (by rw [hlen e' he' hv]; exact hj')
  have hR : FlatRows n R := by
    refine ⟨?_, fun j hj' => .inl (hpt j hj'), ?_⟩
    · intro x hx
      obtain ⟨e', he', hv, rfl⟩ := mem x hx
      exact hpos e' he'
    · intro x hx y hy j _
      obtain ⟨e', he', hv, rfl⟩ := mem x hx
      obtain ⟨e'', he'', hv', rfl⟩ := mem y hy
      exact vrow_rule _ _ ((hrul e' he' hv).trans (hrul e'' he'' hv').symm) j
  unfold settle at hs
  rw [hn, hRdef, rowSettle_pp (y := vrow V e) (fun j => vrow_same V e.1 0 e.2 j)] at hs
  split at hs
  · cases hs
  have hx := memR e he rfl
  unfold rowSettle at hs
  split at hs
  · cases hs
  injection hs with hrow
  have hu := unif_iff.mp (famN_unif (F := flatF mcn kw n) (n := n) (R.length + 1) R hx (by omega))
  generalize hC : famN (flatF mcn kw n) n (R.length + 1) R (vrow V e) = C at hrow hu
  have hCs : ∀ c ∈ C, c ∈ R := by intro c h; rw [← hC] at h; exact famN_sub _ _ _ c h
  have hxC : vrow V e ∈ C := by rw [← hC]; exact famN_self _ _ _ hx
  have hCf := hR.sub hCs
  have hfit : ∀ c ∈ C, FitRow c 0 (labs (flatF mcn kw n) n 0 C (vrow V e)) := by
    intro c hc
    rw [← hu c hc _ hxC]
    exact labs_fit hm (kw := kw) (N := n) (k := n) (j := 0) hCf (by omega) hc
  have hL : (labs (flatF mcn kw n) n 0 C (vrow V e)).length = n := labs_length _ _ _ _ _
  have get : ∀ (e' : Ent) (i : Nat) (q : ParsedPiece), (V e'.1).pps[i]? = some q → (vrow V e').pp i = q := by
    intro e' i q h
    have := vrow_pp V e' i
    rw [h] at this
    exact this
  have fitL : ∀ e' ∈ B, vrow V e' ∈ C → FitList (V e'.1).pps (labs (flatF mcn kw n) n 0 C (vrow V e)) := by
    intro e' _ hc i q a h1 h2
    obtain ⟨hi, rfl⟩ := List.getElem?_eq_some_iff.mp h2
    have := hfit _ hc i hi
    rw [Nat.zero_add, get e' i q h1] at this
    exact this
  refine ⟨_, hL, hrow, fitL e he hxC, ?_⟩
  intro i a p ha hp
  have hi : i < n := by
    obtain ⟨hi, -⟩ := List.getElem?_eq_some_iff.mp ha
    omega
  rw [labs_unif_get (fun c hc => hu c hc _ hxC) i hi, Nat.zero_add] at ha
  injection ha with ha
  have hppi : (vrow V e).pp i = p := get e i p hp
  obtain ⟨c, hce⟩ := ent_of_row (j := i) hxC
  have hE := hCf.ent hi (fun x hx => hpt i hi x (hCs x hx)) hxC
  -- the row of an entry
  have src : ∀ en ∈ ent i C, ∃ e' ∈ B, vrow V e' ∈ C ∧ (V e'.1).pps.length = n ∧ (V e'.1).pps[i]? = some en.1 := by
    intro en hen
    obtain ⟨pp, c⟩ := en
    obtain ⟨y, hy, e1⟩ := List.mem_map.mp (mem_ent.mp hen).1
    obtain ⟨e', he', hv, rfl⟩ := mem y (hCs y hy)
    have hl := hlen e' he' hv
    refine ⟨e', he', hy, hl, ?_⟩
    have h2 : i < (V e'.1).pps.length := by omega
    have h3 := get e' i _ (List.getElem?_eq_getElem h2)
    rw [List.getElem?_eq_getElem h2, ← h3]
    exact congrArg some e1
  have hval : flatF mcn kw n i (ent i C) p = a := by rw [← ha, ← hppi]; rfl
  rw [hppi] at hce hE
  rcases flat_cases hm (kw := kw) (n := n) (j := i) hE hce with h | ⟨h, ⟨en, hen, en', hen', -, -, hne⟩, -⟩ | ⟨h, ⟨en, hen, en', hen', hne⟩, -⟩
  · left; rw [← hval]; exact h
  · right
    obtain ⟨e1, b1, c1, l1, g1⟩ := src en hen
    obtain ⟨e2, b2, c2, l2, g2⟩ := src en' hen'
    exact ⟨e1, b1, e2, b2, _, _, by rw [hL]; exact l1, by rw [hL]; exact l2, fitL e1 b1 c1, fitL e2 b2 c2, g1, g2,
      .inl ⟨by rw [← hval]; exact h, hne⟩⟩
  · right
    obtain ⟨e1, b1, c1, l1, g1⟩ := src en hen
    obtain ⟨e2, b2, c2, l2, g2⟩ := src en' hen'
    exact ⟨e1, b1, e2, b2, _, _, by rw [hL]; exact l1, by rw [hL]; exact l2, fitL e1 b1 c1, fitL e2 b2 c2, g1, g2,
      .inr ⟨by rw [← hval]; exact h, hne⟩⟩

/-! ### Columns -/

/-- Two groups that fit the same text. -/
theorem same_grp {w w' : Str} {g g' : List Run} (hg : Runs w g) (hg' : Runs w' g') {a : Str} (h : FitPart (gpart g) a)
    (h' : FitPart (gpart g') a) : SameGrp g a g' := by
  obtain ⟨cs, hc⟩ := fit_cell h
  obtain ⟨cs', hc'⟩ := fit_cell h'
  obtain ⟨c1, c2⟩ := cell_cover hc
  obtain ⟨c1', c2'⟩ := cell_cover hc'
  have := cover_unique hg hg' c1 c1' (by rw [c2, c2'])
  subst this
  exact (cell_move hg hg' hc c1').2

/-- What the groups of a column must be like for its text to be tight. -/
theorem column_tight {G : List Run → Prop} {a : Str} (hr : ∀ g, G g → ∃ w, Runs w g) (hf : ∀ g, G g → FitPart (gpart g) a) {g0 : List Run}
    (h0 : G g0) (hw : a = (gpair g0).1 ∨ ∃ g1 g2, G g1 ∧ G g2 ∧ ((a = specStr (gpair g0).2 (lenOf (gpart g0)) ∧ (gpair g1).1 ≠ (gpair g2).1) ∨
      (a = specStr (gpair g0).2 (-1) ∧ lenOf (gpart g1) ≠ lenOf (gpart g2)))) : TightColumn G a := by
  have same : ∀ g g', G g → G g' → SameGrp g a g' := by
    intro g g' hg hg'
    obtain ⟨w, h1⟩ := hr g hg
    obtain ⟨w', h1'⟩ := hr g' hg'
    exact same_grp h1 h1' (hf g hg) (hf g' hg')
  by_cases hl : a = (gpair g0).1
  · rw [hl]
    exact .lit (fun g' hg' => (same g0 g' h0 hg').lit hl)
  · rcases hw with h | ⟨g1, g2, hg1, hg2, hw⟩
    · exact absurd h hl
    · have notlit : ∀ g, G g → a ≠ (gpair g).1 := by
        intro g hg e
        apply hl
        rw [(same g g0 hg h0).lit e]
        exact e
      have ne : ∀ g, G g → g ≠ [] := by
        rintro g hg rfl
        rcases hf _ hg with h | h
        · exact notlit _ hg (h.trans (gpart_pair _).1)
        · exact h.1 rfl
      have cls : ∀ g, G g → ClassOf g (gpair g0).2 := by
        intro g hg
        obtain ⟨w, h1⟩ := hr g hg
        rw [← (same g0 g h0 hg).rule]
        exact classOf_gpair h1
      obtain ⟨w0, hr0⟩ := hr g0 h0
      have p0 := lenOf_gpart hr0 (ne g0 h0)
      rcases hw with ⟨hw, hne⟩ | ⟨hw, hne⟩
      · have hn := lenOf_gpart_eq hr0
        have e : a = '[' :: (gpair g0).2 ++ ']' :: (if writtenLength g0 = 1 then [] else '{' :: decimal (writtenLength g0) ++ ['}']) := by
          rw [hw, hn]; exact specStr_nat (by omega)
        rw [e]
        refine .len (fun g hg => ⟨ne g hg, cls g hg, ?_⟩) ⟨g1, g2, hg1, hg2, fun e => hne (by rw [e])⟩
        obtain ⟨w, h1⟩ := hr g hg
        have h2 := lenOf_gpart h1 (ne g hg)
        have h3 := lenOf_gpart_eq h1
        have key : ∀ n : Int, 1 ≤ n ∨ n = -1 → a = specStr (gpart g).fuzzyRule n → lenOf (gpart g0) = n := by
          intro n hn h4
          rw [(gpart_pair g).2, (same g0 g h0 hg).rule] at h4
          exact specStr_inj (by omega) hn (hw.symm.trans h4)
        rcases hf g hg with h | ⟨-, ⟨-, h⟩ | h⟩
        · exact absurd (h.trans (gpart_pair g).1) (notlit g hg)
        · have := key _ (by omega) h; omega
        · have := key _ (by omega) h; omega
      · rw [hw, specStr_wild]
        refine .wild (fun g hg => ⟨ne g hg, cls g hg⟩) ⟨g1, g2, hg1, hg2, ?_⟩
        obtain ⟨w1, h1⟩ := hr g1 hg1
        obtain ⟨w2, h2⟩ := hr g2 hg2
        have := lenOf_gpart_eq h1
        have := lenOf_gpart_eq h2
        intro e
        apply hne
        omega

theorem GFit.length {gs : List (List Run)} {as : List Str} (h : GFit gs as) : gs.length = as.length := by
  induction h with
  | nil => rfl
  | cons _ _ ih => simp [ih]

theorem GFit.get {gs : List (List Run)} {as : List Str} (h : GFit gs as) : ∀ (i : Nat) (g : List Run) (a : Str), gs[i]? = some g → as[i]? = some a →
    FitPart (gpart g) a := by
  induction h with
  | nil => intro i g a hg; simp at hg
  | cons h hs ih =>
    intro i g a hg ha
    cases i with
    | zero => simp at hg ha; subst hg; subst ha; exact h
    | succ i => exact ih i g a (by simpa using hg) (by simpa using ha)

theorem gfit_of_list : ∀ {gs : List (List Run)} {as : List Str}, gs.length = as.length → FitList (gs.map gpart) as → GFit gs as := by
  intro gs
  induction gs with
  | nil =>
    intro as h _
    cases as with
    | nil => exact .nil
    | cons a as => simp at h
  | cons g gs ih =>
    intro as h hf
    cases as with
    | nil => simp at h
    | cons a as =>
      refine .cons (hf 0 _ _ rfl rfl) (ih (by simpa using h) ?_)
      intro i q a hq ha
      exact hf (i + 1) q a (by simpa using hq) (by simpa using ha)

theorem runs_of_groups {w : Str} {gs : List (List Run)} (h : Runs w gs.flatten) {g : List Run} (hg : g ∈ gs) : ∃ w', Runs w' g := by
  obtain ⟨a, b, rfl⟩ := List.append_of_mem hg
  rw [List.flatten_append, List.flatten_cons] at h
  exact ⟨_, runs_take (runs_drop h)⟩

/-- Strings whose groups fit texts of the same whole: one of them and witnesses in a fixed grouping `W` make the text tight. -/
theorem text_tight {P : Str → Prop} (hP : ∀ s, P s → Runs s (runsOf s)) {q : Str} {as : List Str} {W : Str → List (List Run)}
    (hW : ∀ s, P s → (W s).flatten = runsOf s) {s0 : Str} (h0 : P s0) (hf0 : GFit (W s0) as) (hq : as.flatten = q)
    (hall : ∀ s, P s → ∃ gs bs, gs.flatten = runsOf s ∧ GFit gs bs ∧ bs.flatten = q)
    (hw : ∀ (i : Nat) (a : Str) (g : List Run), as[i]? = some a → (W s0)[i]? = some g → a = (gpair g).1 ∨
      ∃ s1 s2 g1 g2, P s1 ∧ P s2 ∧ GFit (W s1) as ∧ GFit (W s2) as ∧ (W s1)[i]? = some g1 ∧ (W s2)[i]? = some g2 ∧
        ((a = specStr (gpair g).2 (lenOf (gpart g)) ∧ (gpair g1).1 ≠ (gpair g2).1) ∨
          (a = specStr (gpair g).2 (-1) ∧ lenOf (gpart g1) ≠ lenOf (gpart g2)))) : TightText P q := by
  have hcut : ∀ s, ∃ gs : List (List Run), P s → gs.flatten = runsOf s ∧ GFit gs as ∧ (GFit (W s) as → gs = W s) := by
    intro s
    by_cases hs : P s
    · by_cases hfit : GFit (W s) as
      · exact ⟨W s, fun _ => ⟨hW s hs, hfit, fun _ => rfl⟩⟩
      · obtain ⟨hs', bs, e1, e2, e3⟩ := hall s hs
        obtain ⟨gs', g1, g2, -⟩ := groups_move (w := s0) (w' := s) (by rw [hW s0 h0]; exact hP s0 h0) (by rw [e1]; exact hP s hs) hf0 e2
          (hq.trans e3.symm)
        exact ⟨gs', fun _ => ⟨g1.trans e1, g2, fun h => absurd h hfit⟩⟩
    · exact ⟨[], fun h => absurd h hs⟩
  obtain ⟨cut, hcut⟩ := Classical.axiomOfChoice hcut
  refine ⟨as, cut, hq, ?_, ?_⟩
  · intro s hs
    obtain ⟨h1, h2, -⟩ := hcut s hs
    exact ⟨h2.length, by rw [h1]; exact hP s hs⟩
  · intro i a ha
    have fit : ∀ s, P s → GFit (W s) as → cut s = W s := fun s hs h => (hcut s hs).2.2 h
    obtain ⟨hi, -⟩ := List.getElem?_eq_some_iff.mp ha
    have hl : i < (W s0).length := by rw [hf0.length]; exact hi
    have hg0 := List.getElem?_eq_getElem hl
    refine column_tight (g0 := (W s0)[i]) ?_ ?_ ⟨s0, h0, by rw [fit s0 h0 hf0]; exact hg0⟩ ?_
    · rintro g ⟨s, hs, hg⟩
      obtain ⟨h1, -, -⟩ := hcut s hs
      exact runs_of_groups (w := s) (by rw [h1]; exact hP s hs) (List.mem_of_getElem? hg)
    · rintro g ⟨s, hs, hg⟩
      obtain ⟨-, h2, -⟩ := hcut s hs
      exact h2.get i g a hg ha
    · rcases hw i a _ ha hg0 with h | ⟨s1, s2, g1, g2, p1, p2, f1, f2, k1, k2, h⟩
      · exact .inl h
      · exact .inr ⟨g1, g2, ⟨s1, p1, by rw [fit s1 p1 f1]; exact k1⟩, ⟨s2, p2, by rw [fit s2 p2 f2]; exact k2⟩, h⟩

/-! ### The stages -/

section
variable {cfg : LevelCfg} {E : List Ent} {r : Str}

/-- The strings of the pieces of a level. -/
def strOf (E : List Ent) (s : Str) : Prop := (∀ c ∈ s, Known c) ∧ ∃ e ∈ E, e.1 = pieceOf s

theorem strOf_runs {s : Str} (h : strOf E s) : Runs s (runsOf s) := runsOf_spec h.1

theorem ent_str {e : Ent} (h : LvOK cfg E r) (he : e ∈ E) : ∃ s, strOf E s ∧ e.1 = pieceOf s := by
  obtain ⟨s, hk, hp⟩ := h.parsed e he
  exact ⟨s, ⟨hk, e, he, hp⟩, hp⟩

/-- A stage of views. -/
theorem view_tight (h : LvOK cfg E r) {kw : Bool} {Tok : Str → Prop} {V : ParsedPiece → View} (hV : V ∈ [multiView, mixedView, lastDotView])
    (hj : JoinInj Tok) {B : List Ent} (hsub : ∀ e ∈ B, e ∈ E) (hB : ∀ e ∈ B, ViewOK Tok V e.1) {e : Ent} (he : e ∈ B) {q : Str}
    (hs : settle cfg.mcn kw V B e.1 = some q)
    (hall : ∀ s, strOf E s → ∃ gs bs, gs.flatten = runsOf s ∧ GFit gs bs ∧ bs.flatten = q) : TightText (strOf E) q := by
  have hne : ∀ s, strOf E s → runsOf s ≠ [] := by
    rintro s ⟨hk, e, he, hp⟩ h0
    exact h.pieces he (by rw [hp, pieceOf, h0]; rfl)
  have hW : ∀ s, ∃ gs : List (List Run), strOf E s → gs.flatten = runsOf s ∧ (V (pieceOf s)).pps = gs.map gpart := by
    intro s
    by_cases hs : strOf E s
    · obtain ⟨gs, h1, h2⟩ := view_groups hV (hne s hs)
      exact ⟨gs, fun _ => ⟨h1, h2⟩⟩
    · exact ⟨[], fun h => absurd h hs⟩
  obtain ⟨W, hW⟩ := Classical.axiomOfChoice hW
  obtain ⟨as, a1, a2, a3, a4⟩ := settle_tight h.mcn hj hB (fun e he => h.pos e (hsub e he)) he hs
  obtain ⟨s0, hs0, e0⟩ := ent_str h (hsub e he)
  have hv0 := (hW s0 hs0).2
  rw [e0] at a1 a3 a4
  rw [hv0] at a1 a3
  have fit : ∀ s, strOf E s → (V (pieceOf s)).pps.length = as.length → FitList (V (pieceOf s)).pps as → GFit (W s) as := by
    intro s hs hl hf
    rw [(hW s hs).2] at hl hf
    exact gfit_of_list (by simpa using hl) hf
  refine text_tight (fun s hs => strOf_runs hs) (fun s hs => (hW s hs).1) hs0 (gfit_of_list (by simpa using a1.symm) a3) a2 hall ?_
  intro i a g ha hg
  rcases a4 i a (gpart g) ha (by rw [hv0, List.getElem?_map, hg]; rfl) with h1 | ⟨e1, b1, e2, b2, p1, p2, l1, l2, f1, f2, k1, k2, h1⟩
  · left; rw [h1]; exact (gpart_pair g).1
  · right
    obtain ⟨s1, hs1, q1⟩ := ent_str h (hsub e1 b1)
    obtain ⟨s2, hs2, q2⟩ := ent_str h (hsub e2 b2)
    rw [q1] at l1 f1 k1
    rw [q2] at l2 f2 k2
    have k1' := k1
    have k2' := k2
    rw [(hW s1 hs1).2, List.getElem?_map] at k1'
    rw [(hW s2 hs2).2, List.getElem?_map] at k2'
    obtain ⟨g1, m1, rfl⟩ := Option.map_eq_some_iff.mp k1'
    obtain ⟨g2, m2, rfl⟩ := Option.map_eq_some_iff.mp k2'
    refine ⟨s1, s2, g1, g2, hs1, hs2, fit s1 hs1 l1 f1, fit s2 hs2 l2 f2, m1, m2, ?_⟩
    rw [(gpart_pair g).2, (gpart_pair g1).1, (gpart_pair g2).1] at h1
    exact h1

/-- The text of the length stage fits the piece. -/
theorem len_fit (h : LvOK cfg E r) {B : List Ent} (hsub : ∀ e ∈ B, e ∈ E) (hnd : (B.map (fun e => e.1.piece)).Nodup) {s : Str} (hs : strOf E s)
    (hin : ∃ e ∈ B, e.1 = pieceOf s) : FitPart (gpart (runsOf s)) (lenPat cfg.mcn B (pieceOf s)) ∧
      (lenPat cfg.mcn B (pieceOf s) = (gpair (runsOf s)).1 ∨ ∃ s1 s2, strOf E s1 ∧ strOf E s2 ∧
        FitPart (gpart (runsOf s1)) (lenPat cfg.mcn B (pieceOf s)) ∧ FitPart (gpart (runsOf s2)) (lenPat cfg.mcn B (pieceOf s)) ∧
        ((lenPat cfg.mcn B (pieceOf s) = specStr (gpair (runsOf s)).2 (lenOf (gpart (runsOf s))) ∧ (gpair (runsOf s1)).1 ≠ (gpair (runsOf s2)).1) ∨
          (lenPat cfg.mcn B (pieceOf s) = specStr (gpair (runsOf s)).2 (-1) ∧ lenOf (gpart (runsOf s1)) ≠ lenOf (gpart (runsOf s2))))) := by
  have hpc : ∀ s : Str, (pieceOf s).piece = (gpair (runsOf s)).1 ∧ (pieceOf s).fuzzyRule = (gpair (runsOf s)).2 ∧
      lenOf (pieceOf s) = lenOf (gpart (runsOf s)) := by
    intro s
    unfold pieceOf
    rw [gpair_ppOf, lenOf_ppOf]
    exact ⟨rfl, rfl, rfl⟩
  have hrule : ∀ s, strOf E s → (gpair (runsOf s)).2 = r := by
    rintro s ⟨hk, e, he, hp⟩
    rw [← (hpc s).2.1, ← hp]; exact h.rule e he
  have hpos : ∀ e ∈ B, 1 ≤ e.2 := fun e he => h.pos e (hsub e he)
  unfold lenPat
  obtain ⟨h1, h2, h3⟩ := hpc s
  by_cases c1 : lenStop cfg.mcn B = true
  · rw [if_pos c1]
    by_cases c2 : asClu cfg.mcn (lenGrp B (lenOf (pieceOf s))) = true
    · rw [if_pos c2]
      have hgn : ((lenGrp B (lenOf (pieceOf s))).map (fun e => e.1.piece)).Nodup := hnd.sublist (List.filter_sublist.map _)
      obtain ⟨e, he, e', he', hne⟩ := two_of_nodup hgn (asClu_two h.mcn (fun e he => hpos e (List.mem_filter.mp he).1) c2)
      have he := List.mem_filter.mp he
      have he' := List.mem_filter.mp he'
      have l1 : lenOf e.1 = lenOf (pieceOf s) := of_decide_eq_true he.2
      have l2 : lenOf e'.1 = lenOf (pieceOf s) := of_decide_eq_true he'.2
      obtain ⟨s1, hs1, q1⟩ := ent_str h (hsub e he.1)
      obtain ⟨s2, hs2, q2⟩ := ent_str h (hsub e' he'.1)
      rw [q1, (hpc s1).2.2, h3] at l1
      rw [q2, (hpc s2).2.2, h3] at l2
      rw [q1, q2, (hpc s1).1, (hpc s2).1] at hne
      have hsign : ¬ SignRule r := by
        intro hsr
        apply hne
        have := sign_len (x := gpart (runsOf s1)) (y := gpart (runsOf s2)) ⟨_, _, strOf_runs hs1, rfl⟩ ⟨_, _, strOf_runs hs2, rfl⟩
          (by rw [(gpart_pair _).2, (gpart_pair _).2, hrule s1 hs1, hrule s2 hs2]) (by rw [(gpart_pair _).2, hrule s1 hs1]; exact hsr)
          (l1.trans l2.symm)
        rwa [(gpart_pair _).1, (gpart_pair _).1] at this
      have fit : ∀ s', strOf E s' → lenOf (gpart (runsOf s')) = lenOf (gpart (runsOf s)) →
          FitPart (gpart (runsOf s')) (specStr (pieceOf s).fuzzyRule (lenOf (pieceOf s))) := by
        intro s' hs' hl
        refine .inr ⟨by rw [(gpart_pair _).2, hrule s' hs']; exact h.ne, .inl ⟨by rw [(gpart_pair _).2, hrule s' hs']; exact hsign, ?_⟩⟩
        rw [h2, h3, (gpart_pair _).2, hrule s hs, hrule s' hs', hl]
      exact ⟨fit s hs rfl, .inr ⟨s1, s2, hs1, hs2, fit s1 hs1 l1, fit s2 hs2 l2, .inl ⟨by rw [h2, h3], hne⟩⟩⟩
    · rw [if_neg c2]
      exact ⟨.inl (by rw [h1, (gpart_pair _).1]), .inl h1⟩
  · rw [if_neg c1]
    obtain ⟨e0, he0, -⟩ := hin
    obtain ⟨e, he, e', he', hne⟩ := lenStop_two h.mcn hpos (List.ne_nil_of_mem he0) (by simpa using c1)
    obtain ⟨s1, hs1, q1⟩ := ent_str h (hsub e he)
    obtain ⟨s2, hs2, q2⟩ := ent_str h (hsub e' he')
    have fit : ∀ s', strOf E s' → FitPart (gpart (runsOf s')) (specStr (pieceOf s).fuzzyRule (-1)) := by
      intro s' hs'
      refine .inr ⟨by rw [(gpart_pair _).2, hrule s' hs']; exact h.ne, .inr ?_⟩
      rw [h2, (gpart_pair _).2, hrule s hs, hrule s' hs']
    rw [q1, q2, (hpc s1).2.2, (hpc s2).2.2] at hne
    exact ⟨fit s hs, .inr ⟨s1, s2, hs1, hs2, fit s1 hs1, fit s2 hs2, .inr ⟨by rw [h2], hne⟩⟩⟩

/-- The text of a piece fits groups of its runs. -/
theorem stage_fit (h : LvOK cfg E r) {e : Ent} (he : e ∈ E) {s : Str} (hk : ∀ c ∈ s, Known c) (hp : e.1 = pieceOf s) :
    ∃ gs bs, gs.flatten = runsOf s ∧ GFit gs bs ∧ bs.flatten = stagePat cfg E e.1 := by
  have hlenE : ∀ e ∈ E, stageOf cfg E e.1 = .length → stagePat cfg E e.1 = lenPat cfg.mcn (E.filter (fun e => inN cfg E e.1)) e.1 := by
    intro e _ hs
    unfold stagePat; rw [hs]
  have hsubN : ∀ e ∈ E.filter (fun e => inN cfg E e.1), e ∈ E := fun e he => (List.mem_filter.mp he).1
  have hndN : ((E.filter (fun e => inN cfg E e.1)).map (fun e => e.1.piece)).Nodup := h.nodup.sublist (List.filter_sublist.map _)
  have lenInfo : ∀ s, strOf E s → ∀ e ∈ E, e.1 = pieceOf s → stageOf cfg E e.1 = .length → _ := fun s hs e he hp hst =>
    len_fit h hsubN hndN hs ⟨e, List.mem_filter.mpr ⟨he, stageOf_length.mp hst⟩, hp⟩
  have hr := runsOf_spec hk
  cases hs : stageOf cfg E e.1 with
  | base =>
    obtain ⟨-, as, a1, a2, -⟩ := base_info h he hs hr hp
    exact ⟨_, as, singles_flatten _, a1, a2⟩
  | mixed =>
    obtain ⟨-, gs, as, -, g2, -, a1, a2, -⟩ := mixed_info h he hs hr hp
    exact ⟨gs, as, g2, a1, a2⟩
  | lastDot =>
    obtain ⟨-, d, x, t, ts, bs, c1, -, -, -, -, c6, -, b1, b2, -⟩ := lastDot_info h he hs hr hp
    exact ⟨_, bs, by rw [c1, ← c6]; simp, b1, b2⟩
  | length =>
    have h1 := (lenInfo s ⟨hk, e, he, hp⟩ e he hp hs).1
    rw [hlenE e he hs]
    exact ⟨[runsOf s], [_], by simp, .cons h1 .nil, by rw [hp]; simp⟩

/-- The whole level. -/
theorem stage_tight (h : LvOK cfg E r) {q : Str} (hne : E ≠ []) (hq : ∀ e ∈ E, stagePat cfg E e.1 = q) : TightText (strOf E) q := by
  have hlenE : ∀ e ∈ E, stageOf cfg E e.1 = .length → stagePat cfg E e.1 = lenPat cfg.mcn (E.filter (fun e => inN cfg E e.1)) e.1 := by
    intro e _ hs
    unfold stagePat; rw [hs]
  have hsubN : ∀ e ∈ E.filter (fun e => inN cfg E e.1), e ∈ E := fun e he => (List.mem_filter.mp he).1
  have hndN : ((E.filter (fun e => inN cfg E e.1)).map (fun e => e.1.piece)).Nodup := h.nodup.sublist (List.filter_sublist.map _)
  have lenInfo : ∀ s, strOf E s → ∀ e ∈ E, e.1 = pieceOf s → stageOf cfg E e.1 = .length → _ := fun s hs e he hp hst =>
    len_fit h hsubN hndN hs ⟨e, List.mem_filter.mpr ⟨he, stageOf_length.mp hst⟩, hp⟩
  have hall : ∀ s, strOf E s → ∃ gs bs, gs.flatten = runsOf s ∧ GFit gs bs ∧ bs.flatten = q := by
    rintro s ⟨hk, e, he, hp⟩
    rw [← hq e he]
    exact stage_fit h he hk hp
  obtain ⟨e, he⟩ := List.exists_mem_of_ne_nil _ hne
  have hqe := hq e he
  have sub : ∀ f : Ent → Bool, ∀ e ∈ E.filter f, e ∈ E := fun f e he => (List.mem_filter.mp he).1
  cases hs : stageOf cfg E e.1 with
  | base =>
    obtain ⟨h1, h2⟩ := stageOf_base.mp hs
    obtain ⟨q', hq'⟩ := Option.isSome_iff_exists.mp h2
    have : q' = q := by rw [← hqe]; unfold stagePat; rw [hs]; simp only; rw [hq']; rfl
    subst this
    exact view_tight h (by simp) joinInj_token (sub _) h.fitB (List.mem_filter.mpr ⟨he, h1⟩) hq' hall
  | mixed =>
    obtain ⟨h1, h2⟩ := stageOf_mixed.mp hs
    obtain ⟨q', hq'⟩ := Option.isSome_iff_exists.mp h2
    have : q' = q := by rw [← hqe]; unfold stagePat; rw [hs]; simp only; rw [hq']; rfl
    subst this
    exact view_tight h (by simp) joinInj_token (sub _) h.fitM (List.mem_filter.mpr ⟨he, h1⟩) hq' hall
  | lastDot =>
    obtain ⟨h1, h2⟩ := stageOf_lastDot.mp hs
    obtain ⟨q', hq'⟩ := Option.isSome_iff_exists.mp h2
    have : q' = q := by rw [← hqe]; unfold stagePat; rw [hs]; simp only; rw [hq']; rfl
    subst this
    exact view_tight h (by simp) joinInj_noslash (sub _) h.fitL (List.mem_filter.mpr ⟨he, h1⟩) hq' hall
  | length =>
    obtain ⟨s, hsE, hp⟩ := ent_str h he
    have h1 := lenInfo s hsE e he hp hs
    rw [hlenE e he hs, hp] at hqe
    rw [hqe] at h1
    refine text_tight (as := [q]) (W := fun s => [runsOf s]) (fun s hs => strOf_runs hs) (fun s _ => by simp) hsE (.cons h1.1 .nil) (by simp) hall ?_
    intro i a g ha hg
    cases i with
    | succ i => simp at ha
    | zero =>
      simp only [List.getElem?_cons_zero, Option.some.injEq] at ha hg
      subst ha; subst hg
      rcases h1.2 with h2 | ⟨s1, s2, hs1, hs2, f1, f2, h2⟩
      · exact .inl h2
      · exact .inr ⟨s1, s2, _, _, hs1, hs2, .cons f1 .nil, .cons f2 .nil, rfl, rfl, h2⟩

end

/-- A level on which all rows get the same text. -/
theorem level_tight {h : Runtime} {mcn : Int} (hm : 2 ≤ mcn) {m : URLMeta} {kw : Bool} {n : Nat} {S : List Ins} (hS : RowsOK (TopOK h m) n S) {j : Nat}
    (hj : j < n) {q : Str} (hne : S ≠ []) (hq : ∀ x ∈ S, lab (topF mcn m kw n) j S x = q) :
    TightText (fun s => (∀ c ∈ s, Known c) ∧ ∃ x ∈ S, x.pp j = pieceOf s) q := by
  obtain ⟨h1, h2, h3⟩ := ent_ok hS hj
  obtain ⟨x, hx⟩ := List.exists_mem_of_ne_nil _ hne
  have hstr : strOf (ent j S) = fun s => (∀ c ∈ s, Known c) ∧ ∃ x ∈ S, x.pp j = pieceOf s := by
    funext s
    unfold strOf
    refine propext (and_congr_right fun _ => ⟨?_, ?_⟩)
    · rintro ⟨⟨p, c⟩, he, hp⟩
      obtain ⟨x, hx, e⟩ := List.mem_map.mp (mem_ent.mp he).1
      exact ⟨x, hx, e.trans hp⟩
    · rintro ⟨x, hx, hp⟩
      obtain ⟨c, hc⟩ := mem_ent_pp (j := j) hx
      exact ⟨_, hc, hp⟩
  by_cases hc : ((decide (j + 1 = n) && kw) || litStop mcn (ent j S)) = true
  · have hlit : ∀ x ∈ S, (x.pp j).piece = q := by
      intro x hx
      rw [← hq x hx]
      unfold lab topF
      rw [if_pos hc]
    obtain ⟨s0, hk0, hp0⟩ := (hS.ok j hj).parsed _ (List.mem_map_of_mem hx)
    have hr0 := runsOf_spec hk0
    have all : ∀ s, ((∀ c ∈ s, Known c) ∧ ∃ x ∈ S, x.pp j = pieceOf s) → s = s0 := by
      rintro s ⟨hk, y, hy, hp⟩
      refine pieceOf_inj (runsOf_spec hk) hr0 ?_
      rw [← hp, hlit y hy, ← hlit x hx, hp0]; rfl
    have hqt : q = ((runsOf s0).map runText).flatten := by
      rw [← hlit x hx, hp0]
      have := gpair_ppOf (runsOf s0)
      rw [show (ppOf (runsOf s0)).piece = (gpair (runsOf s0)).1 by rw [this]]
      rfl
    refine ⟨[q], fun s => [runsOf s], by simp, fun s hs => ⟨rfl, by simpa using runsOf_spec hs.1⟩, ?_⟩
    intro i a ha
    cases i with
    | succ i => simp at ha
    | zero =>
      simp only [List.getElem?_cons_zero, Option.some.injEq] at ha
      subst ha
      rw [hqt]
      refine .lit ?_
      rintro g ⟨s, hs, hg⟩
      simp only [List.getElem?_cons_zero, Option.some.injEq] at hg
      rw [← hg, all s hs]
  · have hc' := hc
    simp only [Bool.or_eq_true, not_or, Bool.not_eq_true] at hc'
    obtain ⟨c, hxe⟩ := mem_ent_pp (j := j) hx
    obtain ⟨r, hr⟩ := lvOK_of (kw := kw) (n := n) hm h1 h2 h3 hc'.2 (List.ne_nil_of_mem hxe)
    rw [← hstr]
    refine stage_tight hr (List.ne_nil_of_mem hxe) ?_
    rintro ⟨p, c⟩ he
    obtain ⟨y, hy, rfl⟩ := List.mem_map.mp (mem_ent.mp he).1
    rw [← hq y hy]
    unfold lab topF
    rw [if_neg hc]

end OsUrl
