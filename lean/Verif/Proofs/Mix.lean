import Verif.Model.ParseUtils
import Verif.Spec.Mix
import Verif.Proofs.Order

namespace OsUrl
open Spec

theorem mem_mixedRuleSet {r : Str} : r ∈ mixedRuleSet ↔ Mixable r := by
  simp [mixedRuleSet, digitAsciiRuleSet, Mixable, ruleDigit, ruleLower, ruleUpper, ruleAscii]

theorem zip_map_self {α β : Type} (l : List (α × β)) : (l.map Prod.fst).zip (l.map Prod.snd) = l := by
  induction l with
  | nil => rfl
  | cons x xs ih => simp [ih]

/-- Text and rule of a group. -/
def groupText (g : List (Str × Str)) : Str := (g.map Prod.fst).flatten
def groupRule (g : List (Str × Str)) : Str := joinSorted (g.map Prod.snd)

/-- Loop invariant of `mix`: `gs` are the finished groups, `t` the pending pairs. -/
structure MixInv (st : MixSt) (gs : List (List (Str × Str))) (t : List (Str × Str)) : Prop where
  mp : st.mp = gs.map groupText
  mr : st.mr = gs.map groupRule
  tp : st.tp = t.map Prod.fst
  tr : st.tr = t.map Prod.snd
  good : ∀ g ∈ gs, GoodGroup g
  start : t = [] → gs = []
  mix : st.tmix = true → MixGroup t ∧ t ≠ [] ∧
    Neighbours (fun g g' => ¬ (MixGroup g ∧ MixGroup g')) (gs ++ [t])
  unmix : st.tmix = false → (∀ pr ∈ t, ¬ Mixable pr.2) ∧
    Neighbours (fun g g' => ¬ (MixGroup g ∧ MixGroup g')) (gs ++ t.map (fun pr => [pr]))

theorem groupText_single (pr : Str × Str) : groupText [pr] = pr.1 := by simp [groupText]
theorem groupRule_single (pr : Str × Str) : groupRule [pr] = pr.2 := by
  simp [groupRule, joinSorted]

theorem map_text_singles (t : List (Str × Str)) :
    (t.map (fun pr => [pr])).map groupText = t.map Prod.fst := by
  simp [groupText, List.map_map, Function.comp_def]

theorem map_rule_singles (t : List (Str × Str)) :
    (t.map (fun pr => [pr])).map groupRule = t.map Prod.snd := by
  simp [groupRule, joinSorted, List.map_map, Function.comp_def]

theorem flatten_singles (t : List (Str × Str)) : (t.map (fun pr => [pr])).flatten = t := by
  induction t with
  | nil => rfl
  | cons x xs ih => simp [ih]

@[simp] theorem neighbours_nil {α : Type} {R : α → α → Prop} : Neighbours R [] := by
  intro a x y b h; simp at h

@[simp] theorem neighbours_single {α : Type} {R : α → α → Prop} (z : α) : Neighbours R [z] := by
  intro a x y b h
  have := congrArg List.length h
  simp at this
  omega

theorem neighbours_cons_cons {α : Type} {R : α → α → Prop} {x y : α} {l : List α} :
    Neighbours R (x :: y :: l) ↔ R x y ∧ Neighbours R (y :: l) := by
  constructor
  · intro h
    refine ⟨h [] x y l rfl, fun a u v b e => h (x :: a) u v b (by simp [e])⟩
  · rintro ⟨h1, h2⟩ a u v b e
    cases a with
    | nil => simp at e; obtain ⟨rfl, rfl, rfl⟩ := e; exact h1
    | cons z zs => simp at e; exact h2 zs u v b e.2

theorem isChain_concat {α : Type} {R : α → α → Prop} {l : List α} {a : α} :
    Neighbours R (l ++ [a]) ↔ Neighbours R l ∧ ∀ b ∈ l.getLast?, R b a := by
  induction l with
  | nil => simp
  | cons x xs ih =>
    cases xs with
    | nil => simp [neighbours_cons_cons]
    | cons y ys =>
      simp only [List.cons_append] at ih ⊢
      rw [neighbours_cons_cons, ih, neighbours_cons_cons, List.getLast?_cons_cons]
      exact and_assoc.symm

theorem isChain_replace {l : List (List (Str × Str))} {a b : List (Str × Str)}
    (h : Neighbours (fun g g' => ¬ (MixGroup g ∧ MixGroup g')) (l ++ [a]))
    (ha : MixGroup a) : Neighbours (fun g g' => ¬ (MixGroup g ∧ MixGroup g')) (l ++ [b]) := by
  rw [isChain_concat] at *
  refine ⟨h.1, fun g hg => ?_⟩
  have := h.2 g hg
  intro hh; exact this ⟨hh.1, ha⟩

theorem mixStep_inv {st : MixSt} {gs t} (h : MixInv st gs t) (pr : Str × Str) :
    ∃ gs' t', MixInv (mixStep st pr) gs' t' ∧ gs'.flatten ++ t' = gs.flatten ++ t ++ [pr] := by
  have htr : st.tr ≠ [] ↔ t ≠ [] := by rw [h.tr]; simp
  by_cases hm : Mixable pr.2
  · have hm' : pr.2 ∈ mixedRuleSet := mem_mixedRuleSet.mpr hm
    by_cases hb : st.tr ≠ [] ∧ st.tmix = false
    · -- flush the pending unmixable pairs
      refine ⟨gs ++ t.map (fun pr => [pr]), [pr], ?_, by simp [flatten_singles]⟩
      have hu := h.unmix hb.2
      have hgood : ∀ g ∈ gs ++ t.map (fun pr => [pr]), GoodGroup g := by
        intro g hg
        rcases List.mem_append.mp hg with hg | hg
        · exact h.good g hg
        · obtain ⟨q, hq, rfl⟩ := List.mem_map.mp hg
          exact ⟨by simp, .inr ⟨q, rfl, hu.1 q hq⟩⟩
      have hst : mixStep st pr = ⟨st.mp ++ st.tp, st.mr ++ st.tr, [pr.1], [pr.2], true⟩ := by
        simp only [mixStep, if_pos hm', if_pos hb]; rfl
      rw [hst]
      refine ⟨?_, ?_, by simp, by simp, hgood, by simp, fun _ => ?_, by simp⟩
      · simp [h.mp, h.tp, groupText_single, List.map_map, Function.comp_def]
      · simp [h.mr, h.tr, groupRule_single, List.map_map, Function.comp_def]
      · refine ⟨?_, by simp, ?_⟩
        · intro q hq; simp at hq; subst hq; exact hm
        · rw [isChain_concat]
          refine ⟨hu.2, ?_⟩
          have hne : t ≠ [] := htr.mp hb.1
          intro g hg
          have : g ∈ t.map (fun pr => [pr]) := by
            rw [List.getLast?_append] at hg
            have hne' : (t.map (fun pr => [pr])) ≠ [] := by simpa using hne
            cases hl : (t.map (fun pr => [pr])).getLast? with
            | none => simp at hl; exact absurd hl hne
            | some x =>
              rw [hl] at hg; simp at hg; subst hg
              exact List.mem_of_getLast? hl
          obtain ⟨q, hq, rfl⟩ := List.mem_map.mp this
          intro hh
          exact hu.1 q hq (hh.1 q (by simp))
    · refine ⟨gs, t ++ [pr], ?_, by simp⟩
      have hst : mixStep st pr = ⟨st.mp, st.mr, st.tp ++ [pr.1], st.tr ++ [pr.2], true⟩ := by
        simp only [mixStep, if_pos hm', if_neg hb]
      rw [hst]
      refine ⟨h.mp, h.mr, by simp [h.tp], by simp [h.tr], h.good, by simp, fun _ => ?_, by simp⟩
      by_cases ht : t = []
      · subst ht
        refine ⟨?_, by simp, ?_⟩
        · intro q hq; simp at hq; subst hq; exact hm
        · simp [h.start rfl]
      · have hmx : st.tmix = true := by
          cases hmx : st.tmix with
          | true => rfl
          | false => exact absurd ⟨htr.mpr ht, hmx⟩ hb
        have hx := h.mix hmx
        refine ⟨?_, by simp, isChain_replace hx.2.2 hx.1⟩
        intro q hq
        rcases List.mem_append.mp hq with hq | hq
        · exact hx.1 q hq
        · simp at hq; subst hq; exact hm
  · have hm' : pr.2 ∉ mixedRuleSet := fun hh => hm (mem_mixedRuleSet.mp hh)
    by_cases hb : st.tr ≠ [] ∧ st.tmix = true
    · have hx := h.mix hb.2
      refine ⟨gs ++ [t], [pr], ?_, by simp⟩
      have hst : mixStep st pr = ⟨st.mp ++ [st.tp.flatten], st.mr ++ [joinSorted st.tr], [pr.1], [pr.2], false⟩ := by
        simp only [mixStep, if_neg hm', if_pos hb]; rfl
      rw [hst]
      refine ⟨?_, ?_, by simp, by simp, ?_, by simp, by simp, fun _ => ⟨?_, ?_⟩⟩
      · simp [h.mp, h.tp, groupText]
      · simp [h.mr, h.tr, groupRule]
      · intro g hg
        rcases List.mem_append.mp hg with hg | hg
        · exact h.good g hg
        · simp at hg; subst hg; exact ⟨hx.2.1, .inl hx.1⟩
      · intro q hq; simp at hq; subst hq; exact hm
      · rw [show [pr].map (fun pr => [pr]) = [[pr]] from rfl, isChain_concat]
        refine ⟨hx.2.2, fun g _ hh => hm (hh.2 pr (by simp))⟩
    · refine ⟨gs, t ++ [pr], ?_, by simp⟩
      have hst : mixStep st pr = ⟨st.mp, st.mr, st.tp ++ [pr.1], st.tr ++ [pr.2], false⟩ := by
        simp only [mixStep, if_neg hm', if_neg hb]
      rw [hst]
      refine ⟨h.mp, h.mr, by simp [h.tp], by simp [h.tr], h.good, by simp, by simp, fun _ => ?_⟩
      by_cases ht : t = []
      · subst ht
        refine ⟨?_, by simp [h.start rfl]⟩
        intro q hq; simp at hq; subst hq; exact hm
      · have hmx : st.tmix = false := by
          cases hmx : st.tmix with
          | false => rfl
          | true => exact absurd ⟨htr.mpr ht, hmx⟩ hb
        have hu := h.unmix hmx
        refine ⟨?_, ?_⟩
        · intro q hq
          rcases List.mem_append.mp hq with hq | hq
          · exact hu.1 q hq
          · simp at hq; subst hq; exact hm
        · rw [List.map_append, ← List.append_assoc,
            show [pr].map (fun pr => [pr]) = [[pr]] from rfl, isChain_concat]
          exact ⟨hu.2, fun g _ hh => hm (hh.2 pr (by simp))⟩

theorem mix_loop {prs : List (Str × Str)} {st gs t} (h : MixInv st gs t) :
    ∃ gs' t', MixInv (prs.foldl mixStep st) gs' t' ∧ gs'.flatten ++ t' = gs.flatten ++ t ++ prs := by
  induction prs generalizing st gs t with
  | nil => exact ⟨gs, t, h, by simp⟩
  | cons pr prs ih =>
    obtain ⟨gs1, t1, h1, e1⟩ := mixStep_inv h pr
    obtain ⟨gs2, t2, h2, e2⟩ := ih h1
    exact ⟨gs2, t2, h2, by rw [e2, e1]; simp⟩

theorem mix_groups (pieces rules : List Str) :
    ∃ gs, Grouping (pieces.zip rules) gs ∧
      mix pieces rules = (gs.map groupText, gs.map groupRule) := by
  have h0 : MixInv ⟨[], [], [], [], false⟩ [] [] :=
    ⟨rfl, rfl, rfl, rfl, by simp, by simp, by simp, by simp⟩
  obtain ⟨gs, t, h, e⟩ := mix_loop (prs := pieces.zip rules) h0
  simp at e
  cases hm : ((pieces.zip rules).foldl mixStep ⟨[], [], [], [], false⟩).tmix with
  | true =>
    have hx := h.mix hm
    refine ⟨gs ++ [t], ⟨by simpa using e, ?_, hx.2.2⟩, ?_⟩
    · intro g hg
      rcases List.mem_append.mp hg with hg | hg
      · exact h.good g hg
      · simp at hg; subst hg; exact ⟨hx.2.1, .inl hx.1⟩
    · simp only [mix, hm, if_true, h.mp, h.mr, h.tp, h.tr]
      simp [groupText, groupRule]
  | false =>
    have hu := h.unmix hm
    refine ⟨gs ++ t.map (fun pr => [pr]), ⟨by simpa [flatten_singles] using e, ?_, hu.2⟩, ?_⟩
    · intro g hg
      rcases List.mem_append.mp hg with hg | hg
      · exact h.good g hg
      · obtain ⟨q, hq, rfl⟩ := List.mem_map.mp hg
        exact ⟨by simp, .inr ⟨q, rfl, hu.1 q hq⟩⟩
    · simp only [mix, hm, h.mp, h.mr, h.tp, h.tr, List.map_append, map_text_singles,
        map_rule_singles]
      rfl

end OsUrl
