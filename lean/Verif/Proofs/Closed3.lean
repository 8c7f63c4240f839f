import Verif.Proofs.Closed2

/-! The ways to cut a piece are the views of the program; what the stages settle. -/

namespace OsUrl
open Spec

theorem dot_text {sp : Space} : sp.text = ruleDot ↔ sp = .sign '.' := by
  constructor
  · intro h; exact text_inj (h.trans (by decide))
  · rintro rfl; decide

theorem alnum_text {r : Space × Str} : r.1.text ∈ digitAsciiRuleSet ↔ alnum r = true := by
  obtain ⟨sp, w⟩ := r
  cases sp with
  | lower => exact ⟨fun _ => rfl, fun _ => by show Space.text .lower ∈ digitAsciiRuleSet; decide⟩
  | upper => exact ⟨fun _ => rfl, fun _ => by show Space.text .upper ∈ digitAsciiRuleSet; decide⟩
  | digit => exact ⟨fun _ => rfl, fun _ => by show Space.text .digit ∈ digitAsciiRuleSet; decide⟩
  | sign c =>
    constructor
    · intro h
      exfalso
      have hl : (Space.sign c).text.length ≤ 2 := by simp only [Space.text]; split <;> simp
      have key : ∀ t ∈ digitAsciiRuleSet, 3 ≤ t.length := by decide
      have h2 : 3 ≤ (Space.sign c).text.length := key _ h
      omega
    · intro h; exact absurd h (by simp [alnum, Space.isSign])

theorem byMixed_spec (g : Chunk) : MixG (byMixed g) ∧ (byMixed g).flatten = g := by
  induction g with
  | nil => exact ⟨⟨by simp [byMixed], by simp [byMixed]⟩, rfl⟩
  | cons r g ih =>
    obtain ⟨hg, hf⟩ := ih
    have one : [r] ≠ [] ∧ (AllMix [r] ∨ ∃ r', [r] = [r'] ∧ ¬ Mixable r'.1.text) := by
      refine ⟨by simp, ?_⟩
      by_cases h : Mixable r.1.text
      · left; intro x hx; simp at hx; rw [hx]; exact h
      · right; exact ⟨r, rfl, h⟩
    cases hb : byMixed g with
    | nil =>
      rw [byMixed, hb]
      simp only
      rw [hb] at hf
      refine ⟨⟨by intro x hx; simp at hx; rw [hx]; exact one, by simp⟩, by simp at hf; simp [hf]⟩
    | cons q ps =>
      rw [hb] at hg hf
      cases q with
      | nil => exact absurd rfl (hg.good [] (by simp)).1
      | cons r' p =>
        rw [byMixed, hb]
        simp only
        by_cases hm : Mixable r.1.text ∧ Mixable r'.1.text
        · rw [if_pos hm]
          have ha := hg.allMix (g := r' :: p) (by simp) (r := r') (by simp) hm.2
          have ha' : AllMix (r :: r' :: p) := by
            intro x hx
            rcases List.mem_cons.mp hx with rfl | hx
            · exact hm.1
            · exact ha x hx
          refine ⟨⟨?_, ?_⟩, by simp at hf ⊢; exact hf⟩
          · intro x hx
            rcases List.mem_cons.mp hx with rfl | hx
            · exact ⟨by simp, .inl ha'⟩
            · exact hg.good x (by simp [hx])
          · cases ps with
            | nil => simp
            | cons q ps =>
              have := hg.maximal
              rw [neighbours_cons_cons] at this ⊢
              exact ⟨fun h => this.1 ⟨ha, h.2⟩, this.2⟩
        · rw [if_neg hm]
          refine ⟨⟨?_, ?_⟩, by simp at hf ⊢; exact hf⟩
          · intro x hx
            rcases List.mem_cons.mp hx with rfl | hx
            · exact one
            · exact hg.good x hx
          · rw [neighbours_cons_cons]
            refine ⟨?_, hg.maximal⟩
            rintro ⟨h1, h2⟩
            exact hm ⟨h1 r (by simp), h2 r' (by simp)⟩

theorem afterDot_split {d t : Chunk} {r : Space × Str} (hr : r.1 = .sign '.') (ht : ∀ x ∈ t, x.1 ≠ .sign '.') :
    afterDot (d ++ r :: t) = t := by
  unfold afterDot
  rw [List.reverse_append, List.reverse_cons, List.append_assoc, List.takeWhile_append_of_pos (by
    intro x hx
    rw [decide_eq_true_eq]
    exact ht x (by simpa using hx))]
  rw [List.singleton_append, List.takeWhile_cons_of_neg (by simp [hr])]
  simp

theorem afterDot_inv {g : Chunk} (h : (afterDot g).length < g.length) :
    ∃ d r, g = d ++ r :: afterDot g ∧ r.1 = .sign '.' ∧ ∀ x ∈ afterDot g, x.1 ≠ .sign '.' := by
  have h1 := List.takeWhile_append_dropWhile (p := fun r : Space × Str => decide (r.1 ≠ .sign '.')) (l := g.reverse)
  have h2 : ∀ x ∈ afterDot g, x.1 ≠ .sign '.' := by
    intro x hx
    unfold afterDot at hx
    rw [List.mem_reverse] at hx
    have := List.all_eq_true.mp (List.all_takeWhile (p := fun r : Space × Str => decide (r.1 ≠ .sign '.')) (l := g.reverse)) x hx
    simpa using this
  cases hd : g.reverse.dropWhile (fun r : Space × Str => decide (r.1 ≠ .sign '.')) with
  | nil =>
    rw [hd, List.append_nil] at h1
    unfold afterDot at h
    rw [h1] at h
    simp at h
  | cons r d =>
    refine ⟨d.reverse, r, ?_, ?_, h2⟩
    · rw [hd] at h1
      have := congrArg List.reverse h1
      rw [List.reverse_append, List.reverse_cons, List.reverse_reverse, List.append_assoc] at this
      exact this.symm
    · have := List.head?_dropWhile_not (fun r : Space × Str => decide (r.1 ≠ .sign '.')) g.reverse
      rw [hd] at this
      simpa using this

theorem byDot_spec (g : Chunk) : lastDotPieces (ppOf g) = (byDot g).map gpart ∧ (byDot g).flatten = g ∧ byDot g ≠ [] := by
  by_cases hc : (afterDot g).length < g.length ∧ (afterDot g).length ≤ 2 ∧ (afterDot g).all alnum = true
  · obtain ⟨d, r, e, hr, ht⟩ := afterDot_inv hc.1
    have hb : byDot g = d :: [r] :: byMixed (afterDot g) := by
      unfold byDot
      simp only
      rw [if_pos hc]
      have hl : g.length - (afterDot g).length - 1 = d.length := by
        have := congrArg List.length e
        simp only [List.length_append, List.length_cons] at this
        omega
      rw [hl]
      generalize afterDot g = t at e ⊢
      subst e
      simp
    obtain ⟨hm, hf⟩ := byMixed_spec (afterDot g)
    rw [hb]
    refine ⟨?_, by simp only [List.flatten_cons, hf]; rw [List.singleton_append]; exact e.symm, by simp⟩
    have := lastDot_split (d := d) (t := afterDot g) (r := r) (dot_text.mpr hr) hc.2.1
      (fun x hx => alnum_text.mpr (List.all_eq_true.mp hc.2.2 x hx)) hm hf
    rw [← e] at this
    exact this
  · have hb : byDot g = [g] := by
      unfold byDot
      simp only
      rw [if_neg hc]
    rw [hb]
    refine ⟨?_, by simp, by simp⟩
    rcases lastDot_cases g with h | ⟨d, r, t, gs, e, h1, h2, h3, -⟩
    · exact h
    · exfalso
      apply hc
      have hs : ∀ x ∈ t, x.1 ≠ .sign '.' := by
        intro x hx hx2
        have := alnum_text.mp (h3 x hx)
        unfold alnum at this
        rw [hx2] at this
        simp [Space.isSign] at this
      rw [e, afterDot_split (dot_text.mp h1) hs]
      refine ⟨by simp; omega, h2, ?_⟩
      rw [List.all_eq_true]
      intro x hx
      exact alnum_text.mp (h3 x hx)

/-- The cutting and the view agree on the chunk. -/
structure CutOK (Tok : Str → Prop) (V : Cutting) (V' : ParsedPiece → View) (g : Chunk) : Prop where
  pps : (V' (ppOf g)).pps = (V g).map gpart
  flat : (V g).flatten = g
  ok : ViewOK Tok V' (ppOf g)

theorem runny_parsed {g : Chunk} (h : Runny g) : IsParsed (ppOf g) := by
  obtain ⟨w, hw⟩ := h
  exact ⟨w, hw.known, by rw [runsOf_runs hw]⟩

theorem ppOf_pieces (g : Chunk) : (ppOf g).pieces.length = g.length := by simp [ppOf]

theorem byRun_ok {g : Chunk} (h : Runny g) (hne : g ≠ []) : CutOK Token byRun multiView g := by
  refine ⟨multi_groups g, singles_flatten g, multi_viewOK (runny_parsed h) ?_⟩
  simpa [ppOf] using hne

theorem byMixed_pps {g : Chunk} (hne : g ≠ []) : mixedPieces (ppOf g) = (byMixed g).map gpart := by
  by_cases hl : 2 ≤ g.length
  · exact mixed_groups hl (byMixed_spec g).1 (byMixed_spec g).2
  · match g, hne, hl with
    | [r], _, _ =>
      have : byMixed [r] = [[r]] := rfl
      rw [this]
      unfold mixedPieces
      rw [if_pos (by simp [ppOf])]
      simp [ppOf, gpart, single_pair, single]
    | _ :: _ :: _, _, hl => simp at hl

theorem byMixed_ok {g : Chunk} (h : Runny g) (hl : 2 ≤ g.length) : CutOK Token byMixed mixedView g := by
  have hne : g ≠ [] := by rintro rfl; simp at hl
  exact ⟨byMixed_pps hne, (byMixed_spec g).2, mixed_viewOK (runny_parsed h) (by rw [ppOf_pieces]; exact hl)⟩

theorem ppOf_rule {g : Chunk} (h : Runny g) : (ppOf g).fuzzyRule = clsText g := by
  rw [cls_eq h]
  exact (Prod.mk.inj (vpair_ppOf g)).2

theorem byDot_ok {g : Chunk} (h : Runny g) (hs : '/' ∉ clsText g) : CutOK (fun t => '/' ∉ t) byDot lastDotView g :=
  ⟨(byDot_spec g).1, (byDot_spec g).2.1, lastDot_viewOK (runny_parsed h) (by rw [ppOf_rule h]; exact hs)⟩

section
variable {Tok : Str → Prop} {V : Cutting} {V' : ParsedPiece → View}

theorem cut_runny {g : Chunk} (hg : Runny g) (h : (V g).flatten = g) : ∀ q ∈ V g, Runny q := by
  obtain ⟨w, hw⟩ := hg
  intro q hq
  exact ⟨_, runs_group hw h hq⟩

theorem rules_classes {g : Chunk} (hg : Runny g) (h : (V g).flatten = g) :
    ((V g).map gpart).map (·.fuzzyRule) = classes V g := by
  unfold classes
  rw [List.map_map]
  apply List.map_congr_left
  intro q hq
  rw [cls_eq (cut_runny hg h q hq)]
  exact (Prod.mk.inj (gpart_vpair q)).2

theorem view_classes {W : Cutting} {W' : ParsedPiece → View} (hj : JoinInj Tok) {g g' : Chunk} (hg : Runny g) (hg' : Runny g')
    (h : CutOK Tok V V' g) (h' : CutOK Tok W W' g') : (V' (ppOf g)).view = (W' (ppOf g')).view ↔ classes V g = classes W g' := by
  rw [← rules_classes hg h.flat, ← rules_classes hg' h'.flat, ← h.pps, ← h'.pps]
  constructor
  · intro e
    have a1 := h.ok
    have a2 := h'.ok
    rw [a1.str, a2.str] at e
    refine hj _ _ (by simpa using a1.ne) (by simpa using a2.ne) ?_ ?_ e
    · intro t ht; obtain ⟨q, hq, rfl⟩ := List.mem_map.mp ht; exact a1.tok q hq
    · intro t ht; obtain ⟨q, hq, rfl⟩ := List.mem_map.mp ht; exact a2.tok q hq
  · intro e
    rw [h.ok.str, h'.ok.str]
    unfold viewStr
    rw [e]

theorem vrow_toIns {g : Chunk} (h : CutOK Tok V V' g) (c : Int) : vrow V' (ppOf g, c) = toIns gpart (V g, c) := by
  unfold vrow toIns
  simp only [h.pps, List.map_map]
  rfl

theorem settle_eq {mcn : Int} (hm : 2 ≤ mcn) (keep : Bool) (hj : JoinInj Tok) {E : Column} (hE : ∀ e ∈ E, Runny e.1 ∧ 1 ≤ e.2 ∧ CutOK Tok V V' e.1)
    {g : Chunk} (hg : g ∈ E.map (·.1)) : settle mcn keep V' (toEnts ppOf E) (ppOf g) = settled mcn keep V E g := by
  obtain ⟨e0, he0, rfl⟩ := List.mem_map.mp hg
  obtain ⟨hr0, -, hc0⟩ := hE e0 he0
  generalize hF : E.filter (fun e => decide (classes V e.1 = classes V e0.1)) = D
  have hD : ∀ e ∈ D, e ∈ E ∧ classes V e.1 = classes V e0.1 := by
    intro e he
    rw [← hF, List.mem_filter, decide_eq_true_eq] at he
    exact he
  have hvg : vgrp V' (toEnts ppOf E) (ppOf e0.1) = toEnts ppOf D := by
    unfold vgrp toEnts
    rw [List.filter_map, ← hF]
    congr 1
    apply List.filter_congr
    intro e he
    simp only [Function.comp_apply]
    apply decide_eq_decide.mpr
    exact view_classes hj (hE e he).1 hr0 (hE e he).2.2 hc0
  have hlen : ∀ e ∈ D, (V e.1).length = (V e0.1).length := by
    intro e he
    have := congrArg List.length (hD e he).2
    simpa [classes] using this
  generalize hRd : D.map (fun e => ((V e.1, e.2) : WRow)) = R
  have hrows : (toEnts ppOf D).map (vrow V') = R.map (toIns gpart) := by
    unfold toEnts
    rw [← hRd, List.map_map, List.map_map]
    apply List.map_congr_left
    intro e he
    exact vrow_toIns (hE e (hD e he).1).2.2 _
  have hT : Tab (PartCol (fun j => (classes V e0.1).getD j [])) (V e0.1).length R := by
    intro x hx
    rw [← hRd] at hx
    obtain ⟨e, he, rfl⟩ := List.mem_map.mp hx
    refine ⟨hlen e he, (hE e (hD e he).1).2.1, ?_⟩
    intro j hj
    have hj' : j < (V e.1).length := by rw [hlen e he]; exact hj
    unfold WRow.at
    simp only [List.getD_eq_getElem?_getD, List.getElem?_eq_getElem hj', Option.getD_some]
    refine ⟨cut_runny (hE e (hD e he).1).1 (hE e (hD e he).1).2.2.flat _ (List.getElem_mem hj'), ?_⟩
    rw [← (hD e he).2]
    unfold classes
    simp [hj']
  have hx : ((V e0.1, 0) : WRow).1 ∈ R.map (·.1) := by
    rw [← hRd, List.map_map, List.mem_map]
    exact ⟨e0, by rw [← hF, List.mem_filter]; exact ⟨he0, by simp⟩, rfl⟩
  have hi := gpart_inj (fun j => (classes V e0.1).getD j [])
  have hA := part_agree hm keep (V e0.1).length (fun j => (classes V e0.1).getD j [])
  have hfam := family_eq hi hA (k := R.length + 1) hT hx
  have hTf : Tab (PartCol (fun j => (classes V e0.1).getD j [])) (V e0.1).length
      (family (partRule mcn keep (V e0.1).length) (V e0.1).length (R.length + 1) R (V e0.1, 0)) := hT.sub (fun x hx => family_sub hx)
  have htx := texts_eq hi hA (k := (V e0.1).length) (j := 0) (by omega) hTf (x := (V e0.1, 0)) (family_self hx)
  have hnum : (numbers D).sum = weight R := by
    unfold numbers weight
    rw [← hRd, List.map_map]
    rfl
  unfold settle settled rowSettle
  simp only
  rw [hF, hRd, hvg, cntE_toEnts, hnum, hrows, vrow_toIns hc0, hc0.pps, List.length_map, List.length_map, ← hfam, ← htx, total_toIns]
  by_cases h1 : weight R < mcn
  · rw [if_pos h1, if_pos (.inl h1)]
  · rw [if_neg h1]
    by_cases h2 : weight (family (partRule mcn keep (V e0.1).length) (V e0.1).length (R.length + 1) R (V e0.1, 0)) < mcn
    · rw [if_pos h2, if_pos (.inr h2)]
    · rw [if_neg h2, if_neg (fun h => h.elim h1 h2)]

end

end OsUrl
