import Verif.Proofs.Cells

/-! Families of single parts are closed: a row that fits the patterns of a family belongs to it. -/

namespace OsUrl
open Spec

/-! ### Texts of classes -/

theorem qtext_fun {q : Str} {n n' : Int} (h : QText q n) (h' : QText q n') : n = n' := by
  cases h with
  | one =>
    cases h' with
    | one => rfl
  | plus =>
    cases h' with
    | plus => rfl
  | braces ds hd =>
    generalize e : '{' :: ds ++ ['}'] = q' at h'
    cases h' with
    | one => simp at e
    | plus => simp at e
    | braces ds' hd' =>
      have : ds = ds' := by simpa using e
      rw [this]

theorem specStr_inj {r : Str} {n n' : Int} (hn : 1 ≤ n ∨ n = -1) (hn' : 1 ≤ n' ∨ n' = -1) (e : specStr r n = specStr r n') : n = n' := by
  obtain ⟨q, e1, h1⟩ := QText.spec (n := n) (by omega) r
  obtain ⟨q', e2, h2⟩ := QText.spec (n := n') (by omega) r
  rw [e1, e2] at e
  have eq : q = q' := by simpa using e
  subst eq
  have := qtext_fun h1 h2
  split at this <;> split at this <;> omega

theorem joinSorted_one (t : Str) : joinSorted [t] = t := by simp [joinSorted, sortedSet, insertStr]

/-- A group of runs with one rule is one run. -/
theorem single_rule_group {w : Str} {g : List (Space × Str)} (h : Runs w g) {sp : Space} (hv : sp.Valid)
    (e : (gpair g).2 = sp.text) : ∃ u, g = [(sp, u)] := by
  have h1 := (joinSorted_inj (group_rules_mem h) (ts := [sp.text]) (by
    intro r hr
    simp at hr
    subst hr
    exact mem_ruleSet.mpr ⟨sp, hv, rfl⟩)).mp (by
    rw [joinSorted_one]; exact e)
  have hall : ∀ r ∈ g, r.1 = sp := by
    intro r hr
    have := (h1 r.1.text).mp (List.mem_map.mpr ⟨r, hr, rfl⟩)
    exact text_inj (by simpa using this)
  match g with
  | [] => have := (h1 sp.text).mpr (by simp); simp at this
  | [(sp', u)] => exact ⟨u, by rw [← hall (sp', u) (by simp)]⟩
  | r :: r' :: g' =>
    exact absurd ((hall r (by simp)).trans (hall r' (by simp)).symm) (h.maximal [] r r' g' rfl)

theorem cover_runs (g : List (Space × Str)) : Cover g (g.map (fun r => (r.1.text, runText r))) := by
  induction g with
  | nil => exact .nil
  | cons r g ih => exact .lit r ih

theorem cellText_runs (g : List (Space × Str)) : cellText (g.map (fun r => (r.1.text, runText r))) = (gpair g).1 := by
  unfold cellText gpair
  rw [List.map_map]; rfl

/-- A part written out looks like a class only if it is a run of one sign. -/
theorem part_class {x : ParsedPiece} (hx : Part x) (hr : x.fuzzyRule ≠ []) {n : Int} (hn : 1 ≤ n ∨ n = -1)
    (e : x.piece = specStr x.fuzzyRule n) : SignRule x.fuzzyRule ∧ 1 ≤ n := by
  obtain ⟨g, w, hg, rfl⟩ := hx
  have hv := single_vpair (q := single (gpair g).1 (gpair g).2) rfl
  rw [hv.1, hv.2] at e
  rw [hv.2] at hr ⊢
  have hgne : g ≠ [] := by rintro rfl; exact hr rfl
  obtain ⟨q, e1, hq⟩ := QText.spec (n := n) (by omega) (gpair g).2
  have good : Good [((gpair g).2, specStr (gpair g).2 n)] := by
    rw [e1]
    exact .bra (sortedSet (g.map (·.1.text))) q _ (by
      intro x hx
      rw [mem_sortedSet] at hx
      exact group_rules_mem hg x hx) hq (by simp) .nil
  have := good_unique (cover_good hg (cover_runs g)) good (by rw [cellText_runs]; simpa using e)
  match g, hgne with
  | [r], _ =>
    simp only [List.map_cons, List.map_nil, List.cons.injEq, Prod.mk.injEq, and_true] at this
    have hrule : (gpair [r]).2 = r.1.text := by simp [gpair, joinSorted_one]
    rw [hrule] at this ⊢
    have hne := hg.nonempty r (by simp)
    have hs : r.1.isSign = true := by
      cases hs : r.1.isSign with
      | true => rfl
      | false =>
        exfalso
        have h2 := this.2
        unfold runText at h2
        rw [hs] at h2
        simp only [Bool.false_eq_true, if_false] at h2
        rw [hrule] at e1
        rw [e1] at h2
        cases hu : r.2 with
        | nil => exact hne hu
        | cons c u =>
          rw [hu] at h2
          simp at h2
          exact not_bracket (hg.space r (by simp) c (by rw [hu]; simp)) hs h2.1
    refine ⟨⟨r.1, hs, hg.valid r (by simp), rfl⟩, ?_⟩
    have h3 : specStr r.1.text (r.2.length : Int) = runText r := specStr_runText hne hs
    have hl := List.length_pos_iff.mpr hne
    have := specStr_inj (n := (r.2.length : Int)) (.inl (by omega)) hn (by rw [h3]; exact this.2)
    omega
  | r :: r' :: g', _ => simp at this

/-- Runs of one sign with the same length are the same. -/
theorem sign_len {x y : ParsedPiece} (hx : Part x) (hy : Part y) (hr : x.fuzzyRule = y.fuzzyRule) (hs : SignRule x.fuzzyRule)
    (e : lenOf x = lenOf y) : x.piece = y.piece := by
  obtain ⟨sp, hsp, hv, hsr⟩ := hs
  have key : ∀ z : ParsedPiece, Part z → z.fuzzyRule = sp.text → ∃ u : Str, u ≠ [] ∧ z.piece = runText (sp, u) ∧
      lenOf z = (u.length : Int) + extra (sp, u) := by
    intro z hz hzr
    obtain ⟨g, w, hg, rfl⟩ := hz
    have hv' := single_vpair (q := single (gpair g).1 (gpair g).2) rfl
    rw [hv'.2] at hzr
    obtain ⟨u, rfl⟩ := single_rule_group hg hv hzr
    refine ⟨u, hg.nonempty (sp, u) (by simp), ?_, ?_⟩
    · rw [hv'.1]; simp [gpair]
    · unfold lenOf
      rw [group_length hg (v := single (gpair [(sp, u)]).1 (gpair [(sp, u)]).2) (vpair_single _ _)]
      have hw : w = u := by have := hg.concat; simpa using this.symm
      rw [runsOf_runs hg, hw]
      simp
  obtain ⟨u, hu, h1, h2⟩ := key x hx hsr
  obtain ⟨u', hu', h1', h2'⟩ := key y hy (hr.symm.trans hsr)
  have hl : u.length = u'.length := by
    rw [e, h2'] at h2
    unfold extra at h2
    simp only at h2
    omega
  rw [h1, h1']
  unfold runText
  simp only [hsp, if_true, hl]

/-! ### One level -/

/-- The text fits the part. -/
def FitPart (q : ParsedPiece) (a : Str) : Prop :=
  a = q.piece ∨ q.fuzzyRule ≠ [] ∧ ((¬ SignRule q.fuzzyRule ∧ a = specStr q.fuzzyRule (lenOf q)) ∨ a = specStr q.fuzzyRule (-1))

/-- A level of single parts with the rule `r`. -/
structure EntOK (r : Str) (E : List Ent) : Prop where
  nodup : (E.map (fun e => e.1.piece)).Nodup
  pos : ∀ e ∈ E, 1 ≤ e.2
  part : ∀ e ∈ E, Part e.1 ∧ e.1.fuzzyRule = r

theorem two_of_nodup {l : List Ent} (h : (l.map (fun e => e.1.piece)).Nodup) (h2 : 2 ≤ l.length) :
    ∃ e ∈ l, ∃ e' ∈ l, e.1.piece ≠ e'.1.piece := by
  match l with
  | [] => simp at h2
  | [e] => simp at h2
  | e :: e' :: l =>
    rw [List.map_cons, List.map_cons, List.nodup_cons] at h
    exact ⟨e, by simp, e', by simp, fun hc => h.1 (by rw [hc]; simp)⟩

theorem asClu_two {mcn : Int} (hm : 2 ≤ mcn) {G : List Ent} (hp : ∀ e ∈ G, 1 ≤ e.2) (h : asClu mcn G = true) : 2 ≤ G.length := by
  unfold asClu at h
  split at h
  · split at h
    · cases h
    · rename_i h1 h2
      match G with
      | [] => simp [cntE] at h2; omega
      | [e] =>
        exfalso
        have := hp e (by simp)
        simp only [cntE, List.map_cons, List.map_nil, List.sum_cons, List.sum_nil, Int.add_zero, mx, List.foldl_cons, List.foldl_nil] at h
        rw [show max 0 e.2 = e.2 by omega, confused_self _ _ this hm] at h
        cases h
      | _ :: _ :: _ => simp
  · rename_i h1
    omega

theorem lenStop_two {mcn : Int} (hm : 2 ≤ mcn) {E : List Ent} (hp : ∀ e ∈ E, 1 ≤ e.2) (hne : E ≠ []) (h : lenStop mcn E = false) :
    ∃ e ∈ E, ∃ e' ∈ E, lenOf e.1 ≠ lenOf e'.1 := by
  have h2 : 2 ≤ (lens E).length := by
    match hl : lens E with
    | [] =>
      exfalso
      unfold lens at hl
      rw [uniq_eq_nil] at hl
      simp at hl
      exact hne hl
    | [l] =>
      exfalso
      unfold lenStop at h
      rw [hl] at h
      simp only [List.length_singleton, List.map_cons, List.map_nil] at h
      have hg : lenGrp E l = E := by
        unfold lenGrp
        rw [List.filter_eq_self]
        intro e he
        rw [decide_eq_true_eq]
        have : lenOf e.1 ∈ lens E := mem_uniq.mpr (List.mem_map.mpr ⟨e, he, rfl⟩)
        rw [hl] at this
        simpa using this
      rw [hg] at h
      have hc : 1 ≤ cntE E := by
        cases E with
        | nil => exact absurd rfl hne
        | cons e E =>
          have h1 := hp e (by simp)
          have : 0 ≤ cntE E := by
            clear h1 hne h hg hl
            induction E with
            | nil => simp [cntE]
            | cons e' E ih =>
              have := hp e' (by simp)
              have := ih (fun x hx => hp x (by simp at hx ⊢; rcases hx with h | h; exact .inl h; exact .inr (.inr h)))
              unfold cntE at this ⊢
              rw [List.map_cons, List.sum_cons]; omega
          unfold cntE at this ⊢
          rw [List.map_cons, List.sum_cons]; omega
      simp only [mx, List.foldl_cons, List.foldl_nil] at h
      rw [show max 0 (cntE E) = cntE E by omega, confused_self _ _ hc hm] at h
      simp at h
      omega
    | _ :: _ :: _ => simp
  have := (uniq_gt_one (E.map (fun e => lenOf e.1))).mp (by unfold lens at h2; omega)
  obtain ⟨x, hx, y, hy, hxy⟩ := this
  obtain ⟨e, he, rfl⟩ := List.mem_map.mp hx
  obtain ⟨e', he', rfl⟩ := List.mem_map.mp hy
  exact ⟨e, he, e', he', hxy⟩

/-- The three kinds of labels. -/
theorem flat_cases {mcn : Int} (hm : 2 ≤ mcn) {kw : Bool} {n j : Nat} {r : Str} {E : List Ent} (hE : EntOK r E) {x : Ent} (hx : x ∈ E) :
    flatF mcn kw n j E x.1 = x.1.piece ∨
    (flatF mcn kw n j E x.1 = specStr r (lenOf x.1) ∧
      (∃ e ∈ E, ∃ e' ∈ E, lenOf e.1 = lenOf x.1 ∧ lenOf e'.1 = lenOf x.1 ∧ e.1.piece ≠ e'.1.piece) ∧ ¬ SignRule r ∧
      ∀ y : ParsedPiece, y.fuzzyRule = r → lenOf y = lenOf x.1 → flatF mcn kw n j E y = specStr r (lenOf x.1)) ∨
    (flatF mcn kw n j E x.1 = specStr r (-1) ∧ (∃ e ∈ E, ∃ e' ∈ E, lenOf e.1 ≠ lenOf e'.1) ∧
      ∀ y : ParsedPiece, y.fuzzyRule = r → flatF mcn kw n j E y = specStr r (-1)) := by
  by_cases h1 : ((decide (j + 1 = n) && kw) || litStop mcn E) = true
  · left; unfold flatF; rw [if_pos h1]
  · by_cases h2 : lenStop mcn E = true
    · by_cases h3 : asClu mcn (lenGrp E (lenOf x.1)) = true
      · right; left
        have hval : ∀ y : ParsedPiece, y.fuzzyRule = r → lenOf y = lenOf x.1 → flatF mcn kw n j E y = specStr r (lenOf x.1) := by
          intro y hy hl
          unfold flatF lenPat
          rw [if_neg h1, if_pos h2, hl, if_pos h3, hy]
        have hgn : ((lenGrp E (lenOf x.1)).map (fun e => e.1.piece)).Nodup := hE.nodup.sublist (List.filter_sublist.map _)
        obtain ⟨e, he, e', he', hne⟩ := two_of_nodup hgn (asClu_two hm (fun e he => hE.pos e (List.mem_filter.mp he).1) h3)
        have he := List.mem_filter.mp he
        have he' := List.mem_filter.mp he'
        have l1 : lenOf e.1 = lenOf x.1 := of_decide_eq_true he.2
        have l2 : lenOf e'.1 = lenOf x.1 := of_decide_eq_true he'.2
        refine ⟨hval x.1 (hE.part x hx).2 rfl, ⟨e, he.1, e', he'.1, l1, l2, hne⟩, ?_, hval⟩
        intro hs
        apply hne
        exact sign_len (hE.part e he.1).1 (hE.part e' he'.1).1 ((hE.part e he.1).2.trans (hE.part e' he'.1).2.symm)
          (by rw [(hE.part e he.1).2]; exact hs) (l1.trans l2.symm)
      · left
        unfold flatF lenPat
        rw [if_neg h1, if_pos h2, if_neg h3]
    · right; right
      have hval : ∀ y : ParsedPiece, y.fuzzyRule = r → flatF mcn kw n j E y = specStr r (-1) := by
        intro y hy
        unfold flatF lenPat
        rw [if_neg h1, if_neg h2, hy]
      exact ⟨hval x.1 (hE.part x hx).2, lenStop_two hm hE.pos (List.ne_nil_of_mem hx) (by simpa using h2), hval⟩

theorem flat_fit {mcn : Int} (hm : 2 ≤ mcn) {kw : Bool} {n j : Nat} {r : Str} {E : List Ent} (hE : EntOK r E) {x : Ent} (hx : x ∈ E) :
    FitPart x.1 (flatF mcn kw n j E x.1) := by
  have hr := (hE.part x hx).2
  have same : r = [] → ∀ e ∈ E, e.1 = single [] [] := by
    intro h0 e he
    obtain ⟨h1, h2⟩ := hE.part e he
    exact (h1.len.resolve_right (fun h => h.1 (h2.trans h0))).2
  rcases flat_cases hm (kw := kw) (n := n) (j := j) hE hx with h | ⟨h, ⟨e, he, e', he', -, -, hne⟩, h2, -⟩ | ⟨h, ⟨e, he, e', he', hne⟩, -⟩
  · exact .inl h
  · refine .inr ⟨?_, .inl ⟨by rw [hr]; exact h2, by rw [h, hr]⟩⟩
    rw [hr]
    intro h0
    exact hne (by rw [same h0 e he, same h0 e' he'])
  · refine .inr ⟨?_, .inr (by rw [h, hr])⟩
    rw [hr]
    intro h0
    exact hne (by rw [same h0 e he, same h0 e' he'])

/-- A part that fits the label of a smaller set gets the same label in the larger set. -/
theorem flat_step {mcn : Int} (hm : 2 ≤ mcn) {kw : Bool} {n j : Nat} {r : Str} {E Ef : List Ent} (hE : EntOK r E) (hf : EntOK r Ef)
    (hsub : ∀ e ∈ Ef, ∃ e' ∈ E, e'.1 = e.1) {x : Ent} (hx : x ∈ Ef)
    (hsame : ∀ e ∈ Ef, flatF mcn kw n j E e.1 = flatF mcn kw n j E x.1) {y : ParsedPiece} (hy : Part y) (hyr : y.fuzzyRule = r)
    (hfit : FitPart y (flatF mcn kw n j Ef x.1)) : flatF mcn kw n j E y = flatF mcn kw n j E x.1 := by
  obtain ⟨hxp, hxr⟩ := hf.part x hx
  by_cases hr0 : r = []
  · have h1 := hxp.len.resolve_right (fun h => h.1 (hxr.trans hr0))
    have h2 := hy.len.resolve_right (fun h => h.1 (hyr.trans hr0))
    rw [h1.2, h2.2]
  have lx : 1 ≤ lenOf x.1 := (hxp.len.resolve_left (fun h => hr0 (hxr.symm.trans h.1))).2.2
  have ly : 1 ≤ lenOf y := (hy.len.resolve_left (fun h => hr0 (hyr.symm.trans h.1))).2.2
  have lenE : ∀ e ∈ Ef, 1 ≤ lenOf e.1 := fun e he =>
    (((hf.part e he).1).len.resolve_left (fun h => hr0 ((hf.part e he).2.symm.trans h.1))).2.2
  have samep : ∀ {a b : ParsedPiece}, Part a → Part b → a.fuzzyRule = r → b.fuzzyRule = r → a.piece = b.piece → a = b := by
    intro a b ha hb hra hrb e
    rw [ha.eq, hb.eq, e, hra, hrb]
  have casesE : ∀ e ∈ Ef, flatF mcn kw n j E e.1 = e.1.piece ∨
    (flatF mcn kw n j E e.1 = specStr r (lenOf e.1) ∧ ¬ SignRule r ∧
      ∀ y : ParsedPiece, y.fuzzyRule = r → lenOf y = lenOf e.1 → flatF mcn kw n j E y = specStr r (lenOf e.1)) ∨
    (flatF mcn kw n j E e.1 = specStr r (-1) ∧
      ∀ y : ParsedPiece, y.fuzzyRule = r → flatF mcn kw n j E y = specStr r (-1)) := by
    intro e he
    obtain ⟨e', he', hee⟩ := hsub e he
    have := flat_cases hm (kw := kw) (n := n) (j := j) hE he'
    rw [hee] at this
    rcases this with h | ⟨h, -, h2, h3⟩ | ⟨h, -, h3⟩
    · exact .inl h
    · exact .inr (.inl ⟨h, h2, h3⟩)
    · exact .inr (.inr ⟨h, h3⟩)
  -- two pieces of the family that differ are not literal above
  have notlit : ∀ e ∈ Ef, ∀ e' ∈ Ef, e.1.piece ≠ e'.1.piece → flatF mcn kw n j E e.1 ≠ e.1.piece := by
    intro e he e' he' hne hl
    obtain ⟨hep, her⟩ := hf.part e he
    have hs : flatF mcn kw n j E e'.1 = e.1.piece := ((hsame e' he').trans (hsame e he).symm).trans hl
    rcases casesE e' he' with h | ⟨h, h2, -⟩ | ⟨h, -⟩
    · exact hne (hs.symm.trans h)
    · have := (part_class hep (by rw [her]; exact hr0) (n := lenOf e'.1) (.inl (lenE e' he')) (by rw [her, ← h, hs])).1
      rw [her] at this
      exact h2 this
    · have := (part_class hep (by rw [her]; exact hr0) (n := -1) (.inr rfl) (by rw [her, ← h, hs])).2
      omega
  rcases flat_cases hm (kw := kw) (n := n) (j := j) hf hx with h | ⟨h, ⟨e, he, e', he', l1, l2, hne⟩, hns, -⟩ | ⟨h, ⟨e, he, e', he', hl⟩, -⟩
  · -- literal
    rw [h] at hfit
    rcases hfit with h1 | ⟨-, ⟨h1, h2⟩ | h1⟩
    · rw [samep hy hxp hyr hxr h1.symm]
    · rw [hyr] at h1 h2
      exact absurd (by rw [← hxr]; exact (part_class hxp (by rw [hxr]; exact hr0) (n := lenOf y) (.inl ly) (by rw [hxr]; exact h2)).1) h1
    · rw [hyr] at h1
      have := (part_class hxp (by rw [hxr]; exact hr0) (n := -1) (.inr rfl) (by rw [hxr]; exact h1)).2
      omega
  · -- a length
    have hly : lenOf y = lenOf x.1 := by
      rw [h] at hfit
      rcases hfit with h1 | ⟨-, ⟨-, h1⟩ | h1⟩
      · have := (part_class hy (by rw [hyr]; exact hr0) (n := lenOf x.1) (.inl lx) (by rw [hyr]; exact h1.symm)).1
        rw [hyr] at this
        exact absurd this hns
      · rw [hyr] at h1
        exact (specStr_inj (.inl lx) (.inl ly) h1).symm
      · rw [hyr] at h1
        have := specStr_inj (.inl lx) (.inr rfl) h1
        omega
    rw [← hsame e he]
    rcases casesE e he with h1 | ⟨h1, -, h3⟩ | ⟨h1, h3⟩
    · exact absurd h1 (notlit e he e' he' hne)
    · rw [h1]; exact h3 y hyr (hly.trans l1.symm)
    · rw [h1]; exact h3 y hyr
  · -- any length
    have hne : e.1.piece ≠ e'.1.piece := by
      intro hc
      apply hl
      rw [samep (hf.part e he).1 (hf.part e' he').1 (hf.part e he).2 (hf.part e' he').2 hc]
    rw [← hsame e he]
    rcases casesE e he with h1 | ⟨h1, hns, h3⟩ | ⟨h1, h3⟩
    · exact absurd h1 (notlit e he e' he' hne)
    · exfalso
      have hs : flatF mcn kw n j E e'.1 = specStr r (lenOf e.1) := ((hsame e' he').trans (hsame e he).symm).trans h1
      rcases casesE e' he' with h4 | ⟨h4, -⟩ | ⟨h4, -⟩
      · exact notlit e' he' e he hne.symm h4
      · exact hl (specStr_inj (.inl (lenE e he)) (.inl (lenE e' he')) (hs.symm.trans h4))
      · have := specStr_inj (.inl (lenE e he)) (.inr rfl) (hs.symm.trans h4)
        have := lenE e he
        omega
    · rw [h1]; exact h3 y hyr

end OsUrl
