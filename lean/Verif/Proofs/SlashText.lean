import Verif.Proofs.SelfSel2
import Verif.Proofs.OneSpace

/-!
# Printed patterns are generated patterns

`/` shares a class with other spaces only when the class is the whole pattern of the piece.
-/

namespace OsUrl
open Spec

def PieceTextS (s t : Str) : Prop := ∃ gts, TextGroups s gts ∧ t = (gts.map (·.2)).flatten ∧ SlashAlone gts

theorem gfit_textS {s : Str} {rs : List Run} {gs : List (List Run)} {as : List Str} (hr : Runs s rs) (hf : gs.flatten = rs) (h : GFit gs as)
    (hs : ∀ g ∈ gs, (∃ r ∈ g, r.1 = .sign '/') → g.length = 1) : PieceTextS s as.flatten := by
  subst hf
  obtain ⟨gts, h1, h2, h3⟩ := gfit_grouping hr h
  refine ⟨gts, ⟨by rw [h1]; exact hr, h3⟩, by rw [h2], ?_⟩
  intro _ gt hgt
  exact hs _ (by rw [← h1]; exact List.mem_map_of_mem hgt)

theorem singles_alone (rs : List Run) : ∀ g ∈ singles rs, (∃ r ∈ g, r.1 = .sign '/') → g.length = 1 := by
  intro g hg _
  obtain ⟨r, _, rfl⟩ := List.mem_map.mp hg
  rfl

theorem lit_textS {s : Str} {rs : List Run} (hr : Runs s rs) : PieceTextS s (ppOf rs).piece := by
  have := gfit_textS hr (singles_flatten rs) (gfit_lits rs) (singles_alone rs)
  have e : (rs.map runText).flatten = (ppOf rs).piece := by simp [ppOf, ParsedPiece.piece]
  rwa [e] at this

theorem one_textS {s : Str} {rs : List Run} (hr : Runs s rs) {a : Str} (h : GroupText rs a) : PieceTextS s a :=
  ⟨[(rs, a)], ⟨by simpa using hr, by simpa using h⟩, by simp, by intro h2; simp at h2⟩

theorem mix_alone {gs : List (List Run)} (h : MixG gs) : ∀ g ∈ gs, (∃ r ∈ g, r.1 = .sign '/') → g.length = 1 := by
  rintro g hg ⟨r, hr, e⟩
  rcases (h.good g hg).2 with h1 | ⟨x, rfl, -⟩
  · have := h1 r hr
    rw [e] at this
    exact absurd this (by decide)
  · rfl

theorem stagePat_textS {cfg : LevelCfg} {E : List Ent} {r : Str} (h : LvOK cfg E r) {e : Ent} (he : e ∈ E) {s : Str} {rs : List Run}
    (hr : Runs s rs) (hp : e.1 = ppOf rs) : PieceTextS s (stagePat cfg E e.1) := by
  cases hs : stageOf cfg E e.1 with
  | base =>
    obtain ⟨-, as, a1, a2, -⟩ := base_info h he hs hr hp
    rw [← a2]; exact gfit_textS hr (singles_flatten rs) a1 (singles_alone rs)
  | mixed =>
    obtain ⟨-, gs, as, g1, g2, -, a1, a2, -⟩ := mixed_info h he hs hr hp
    rw [← a2]; exact gfit_textS hr g2 a1 (mix_alone g1)
  | lastDot =>
    obtain ⟨-, d, x, t, ts, bs, c1, -, -, -, -, c6, -, b1, b2, -⟩ := lastDot_info h he hs hr hp
    have hfl : (d :: [x] :: ts).flatten = rs := by rw [c1, ← c6]; simp
    rw [← b2]
    refine gfit_textS hr hfl b1 ?_
    rintro g hg ⟨y, hy, ey⟩
    exfalso
    have hlp := inL_lastPath (stageOf_lastDot.mp hs).1
    apply h.slash hlp
    rw [← h.rule e he, hp, fuzzyRule_eq]
    refine List.mem_flatten.mpr ⟨y.1.text, mem_sortedSet.mpr (List.mem_map.mpr ⟨y, ?_, rfl⟩), by rw [ey]; decide⟩
    rw [← hfl]; exact List.mem_flatten.mpr ⟨g, hg, hy⟩
  | length =>
    have hlen : stagePat cfg E e.1 = lenPat cfg.mcn (E.filter (fun e => inN cfg E e.1)) e.1 := by
      unfold stagePat; rw [hs]
    have hne : rs ≠ [] := by rintro rfl; exact h.pieces he (by rw [hp]; rfl)
    rw [hlen]
    apply one_textS hr
    apply group_text hr
    rw [gpair_ppOf, ← lenOf_ppOf, ← hp]
    rcases lenPat_cases cfg.mcn (E.filter (fun e => inN cfg E e.1)) e.1 with h1 | ⟨n, hn, h1⟩
    · exact .inl h1
    · refine .inr ⟨hne, ?_⟩
      rcases hn with rfl | rfl
      · exact .inl h1
      · exact .inr h1

section
variable {h : Runtime} {mcn : Int} {m : URLMeta} {kw : Bool} {n : Nat} {hist : List (Str × Option Str)}

theorem lab_textS (hm : 2 ≤ mcn) {S : List Ins} (hS : RowsOK (TopOK h m) n S) {j : Nat} (hj : j < n) {x : Ins} (hx : x ∈ S) {s : Str}
    (hs : Runs s (runsOf s)) (hp : x.pp j = pieceOf s) : PieceTextS s (lab (topF mcn m kw n) j S x) := by
  unfold lab topF
  split
  · rw [hp]; exact lit_textS hs
  · rename_i hc
    simp only [Bool.or_eq_true, not_or, Bool.not_eq_true] at hc
    obtain ⟨h1, h2, h3⟩ := ent_ok hS hj
    obtain ⟨c, hc'⟩ := mem_ent_pp (j := j) hx
    obtain ⟨r, hr⟩ := lvOK_of (kw := kw) (n := n) hm h1 h2 h3 hc.2 (List.ne_nil_of_mem hc')
    exact stagePat_textS hr hc' hs hp

theorem labs_textS (hm : 2 ≤ mcn) {k j : Nat} (hjk : j + k = n) {S : List Ins} (hS : RowsOK (TopOK h m) n S) {x : Ins} (hx : x ∈ S)
    {row : List Str} (hr : RawRow x row) :
    ∃ sts : List (Str × Str), sts.map (·.1) = row.drop j ∧ (∀ st ∈ sts, PieceTextS st.1 st.2) ∧ labs (topF mcn m kw n) k j S x = sts.map (·.2) := by
  have hl : row.length = n := by rw [← hr.length]; exact hS.len x hx
  induction k generalizing j S with
  | zero => exact ⟨[], by rw [List.drop_eq_nil_of_le (by omega)]; rfl, by simp, rfl⟩
  | succ k ih =>
    obtain ⟨sts, h1, h2, h3⟩ := ih (j := j + 1) (by omega) (S := nxt (topF mcn m kw n) j S x) (hS.sub (topOK_mono h m) nxt_sub) (nxt_self hx)
    have hj : j < row.length := by omega
    have hg : row[j]? = some row[j] := List.getElem?_eq_getElem hj
    obtain ⟨p1, p2⟩ := hr.pp hg
    refine ⟨(row[j], lab (topF mcn m kw n) j S x) :: sts, ?_, ?_, ?_⟩
    · rw [List.drop_eq_getElem_cons hj, List.map_cons, h1]
    · intro st hst
      rw [List.mem_cons] at hst
      rcases hst with rfl | hst
      · exact lab_textS hm hS (by omega) hx p2 p1
      · exact h2 st hst
    · rw [labs, h3]; rfl

theorem path_textS (hm : 2 ≤ mcn) (hh : NoHashClash h (UrlRow hist)) {M : Made} (hM : MadeOK h mcn hist M) {C : List Ins} {t : Tree NodeData}
    (hC : ClusterOK h mcn hist M C t) {p : List (Str × NodeData)} (hp : p ∈ t.paths) {row : List Str} (hR : RawRow (rowOf p).bare row) :
    ∃ sts : List (Str × Str), sts.map (·.1) = row ∧ (∀ st ∈ sts, PieceTextS st.1 st.2) ∧ p.map (fun kn => kn.2.pattern) = sts.map (·.2) := by
  obtain ⟨h1, h2⟩ := row_of_path hC hp
  obtain ⟨sts, a1, a2, a3⟩ := labs_textS (kw := false) hm (Nat.zero_add _) (cluster_rows hh hM hC) (List.mem_map_of_mem h1) hR
  rw [List.drop_zero] at a1
  exact ⟨sts, a1, a2, by rw [path_pats hC hp, a3]⟩

/-- The rows of two equal key lists are equal. -/
theorem keys_row {row row' : List Str} (hk : ∀ s ∈ row, ∀ c ∈ s, Known c) (hk' : ∀ s ∈ row', ∀ c ∈ s, Known c)
    (he : row.map (fun s => (pieceOf s).piece) = row'.map (fun s => (pieceOf s).piece)) : row = row' := by
  induction row generalizing row' with
  | nil =>
    cases row' with
    | nil => rfl
    | cons s row' => simp at he
  | cons s row ih =>
    cases row' with
    | nil => simp at he
    | cons s' row' =>
      simp only [List.map_cons, List.cons.injEq] at he
      rw [pieceOf_inj (runsOf_spec (hk s (by simp))) (runsOf_spec (hk' s' (by simp))) he.1,
        ih (fun s hs => hk s (by simp [hs])) (fun s hs => hk' s (by simp [hs])) he.2]

end

/-- A printed pattern of a piece: its units and what they cover. -/
theorem textS_cov {s t : Str} (h : PieceTextS s t) : ∃ cov, Cov s t cov ∧ WrittenPat (cov.map (·.1)) := by
  obtain ⟨gts, g1, g2, g3⟩ := h
  obtain ⟨cov, c1, c2, c3, c4, c5⟩ := groups_cov g1.1 g1.2
  have hcov : Cov s t cov := ⟨by rw [c1]; exact g1.1, by rw [c2, g2], c3⟩
  refine ⟨cov, hcov, ⟨?_, cov_apart hcov, ?_⟩⟩
  · intro u hu
    obtain ⟨x, hx, rfl⟩ := List.mem_map.mp hu
    exact (c3 x hx).written
  · intro hl u hu hsl
    obtain ⟨x, hx, rfl⟩ := List.mem_map.mp hu
    rw [List.length_map] at hl
    have h1 : x.1.spaces.length = 1 := by
      by_cases hg : gts.length ≤ 1
      · rcases c5 hg with h | h
        · omega
        · exact h x hx
      · rcases c4 x hx with h | ⟨gt, hgt, e⟩
        · exact h
        · have := g3 (by omega) gt hgt (by
            obtain ⟨r, hr, h2⟩ := ((c3 x hx).spaces _).mp hsl
            exact ⟨r, by rw [← e]; exact hr, h2⟩)
          rw [one_space_run (c3 x hx) (cov_runs hcov hx)]
          rw [← e] at this
          exact List.length_eq_one_iff.mp this
    obtain ⟨sp, e⟩ := List.length_eq_one_iff.mp h1
    rw [e] at hsl ⊢
    rw [List.mem_singleton] at hsl
    rw [hsl]

/-! ### Two readings of a pattern have the same spaces -/

theorem gu_text_ne {u : GUnit} (h : u.Valid) : u.text ≠ [] := by
  cases u with
  | run sp w =>
    obtain ⟨h1, -⟩ := h
    unfold GUnit.text runText
    cases w with
    | nil => exact absurd rfl h1
    | cons c w => cases sp <;> simp <;> split <;> simp
  | cls R n => simp [GUnit.text]
  | wild R => simp [GUnit.text]

theorem texts_inj {R R' : List Space} (e : R.map Space.text = R'.map Space.text) : R = R' := by
  induction R generalizing R' with
  | nil => cases R' with
    | nil => rfl
    | cons a R' => simp at e
  | cons a R ih => cases R' with
    | nil => simp at e
    | cons b R' =>
      simp only [List.map_cons, List.cons.injEq] at e
      rw [text_inj e.1, ih e.2]

theorem readings_same {us us' : List GUnit} (h : Generated us) (h' : Generated us') {p : MatchPattern} (hp : GoodPat p) (e : p.str = patText us)
    (e' : p.str = patText us') : us.map (·.spaces) = us'.map (·.spaces) := by
  have hnil : ∀ {vs : List GUnit}, Generated vs → patText vs = [] → vs = [] := by
    intro vs hv ev
    cases vs with
    | nil => rfl
    | cons v vs =>
      unfold patText at ev
      rw [List.map_cons, List.flatten_cons, List.append_eq_nil_iff] at ev
      exact absurd ev.1 (gu_text_ne (hv.valid v (by simp)))
  by_cases h0 : us = []
  · subst h0
    rw [hnil h' (by rw [← e', e]; rfl)]
  · have h0' : us' ≠ [] := by
      rintro rfl
      exact h0 (hnil h (by rw [← e, e']; rfl))
    have a := good_gen hp h.valid h.apart e
    have b := good_gen hp h'.valid h'.apart e'
    rw [if_neg h0] at a
    rw [if_neg h0', a] at b
    have c := congrArg (List.map (fun u : PatternUnit => u.rules)) b
    rw [List.map_map, List.map_map] at c
    have d : ∀ vs : List GUnit, vs.map ((fun u : PatternUnit => u.rules) ∘ guUnit) = (vs.map (·.spaces)).map (List.map Space.text) := by
      intro vs
      rw [List.map_map]
      rfl
    rw [d, d] at c
    revert c
    generalize us.map (·.spaces) = A
    generalize us'.map (·.spaces) = B
    clear a b d e e' h h' h0 h0' hnil
    intro c
    induction A generalizing B with
    | nil => cases B with
      | nil => rfl
      | cons y B => simp at c
    | cons x A ih => cases B with
      | nil => simp at c
      | cons y B =>
        simp only [List.map_cons, List.cons.injEq] at c
        rw [texts_inj c.1, ih B c.2]

theorem mixPat_spaces {us us' : List GUnit} (e : us.map (·.spaces) = us'.map (·.spaces)) (h : MixPat us) : MixPat us' := by
  obtain ⟨h1, h2⟩ := h
  constructor
  · intro u hu
    have : u.spaces ∈ us.map (·.spaces) := by rw [e]; exact List.mem_map_of_mem hu
    obtain ⟨v, hv, ev⟩ := List.mem_map.mp this
    have := h1 v hv
    unfold GUnit.Mix at this ⊢
    rwa [ev] at this
  · intro a x y b e1
    have e2 : us.map (·.spaces) = a.map (·.spaces) ++ x.spaces :: y.spaces :: b.map (·.spaces) := by rw [e, e1]; simp
    obtain ⟨a', r1, e3, -, e4⟩ := List.map_eq_append_iff.mp e2
    obtain ⟨x', r2, rfl, hx, e5⟩ := List.map_eq_cons_iff.mp e4
    obtain ⟨y', b', rfl, hy, -⟩ := List.map_eq_cons_iff.mp e5
    have := h2 a' x' y' b' e3
    simp only at this hx hy
    unfold GUnit.Mix at this ⊢
    rwa [hx, hy] at this

theorem dotted_spaces {us us' : List GUnit} (e : us.map (·.spaces) = us'.map (·.spaces)) (h : Dotted us) : Dotted us' := by
  obtain ⟨a, d, b, rfl, h1, h2⟩ := h
  obtain ⟨a', r1, rfl, -, e2⟩ := List.map_eq_cons_iff.mp e.symm
  obtain ⟨d', r2, rfl, hd, e3⟩ := List.map_eq_cons_iff.mp e2
  obtain ⟨b', r3, rfl, hb, e4⟩ := List.map_eq_cons_iff.mp e3
  rw [List.map_nil, List.map_eq_nil_iff] at e4
  subst e4
  exact ⟨a', d', b', rfl, hd.trans h1, by intro sp hsp; exact h2 sp (by rw [show b.spaces = b'.spaces from hb.symm]; exact hsp)⟩

theorem plainPat_spaces {us us' : List GUnit} (e : us.map (·.spaces) = us'.map (·.spaces)) (h : PlainPat us) : PlainPat us' := by
  rcases h with h | h
  · left
    have := congrArg List.length e
    simp only [List.length_map] at this
    omega
  · right
    intro u hu
    have : u.spaces ∈ us.map (·.spaces) := by rw [e]; exact List.mem_map_of_mem hu
    obtain ⟨v, hv, ev⟩ := List.mem_map.mp this
    rw [← ev]; exact h v hv

theorem found_spaces {us us' : List GUnit} (e : us.map (·.spaces) = us'.map (·.spaces)) {lp : Prop} {s : Str} (h : Spec.Found lp us s) : Spec.Found lp us' s := by
  rcases h with h | ⟨h0, h1, h2⟩ | ⟨h0, h1⟩
  · exact .inl (plainPat_spaces e h)
  · exact .inr (.inl ⟨h0, dotted_spaces e h1, h2⟩)
  · exact .inr (.inr ⟨fun hc => h0 ⟨hc.1, dotted_spaces e.symm hc.2⟩, mixPat_spaces e h1⟩)

end OsUrl
