import Verif.Proofs.Tight2
import Verif.Proofs.OneSpace
import Verif.Proofs.Cover
import Verif.Spec.Sel

/-! A generated pattern found for a piece of one space is one of the texts of that piece. -/

namespace OsUrl
open Spec

/-- The units of a pattern found for a piece of one space. -/
theorem match_one {lp : Bool} {us : List GUnit} {s : Str} (hg : Generated us) (h : Matches lp us s) {sp : Space} (hsp : ∀ c ∈ s, space? c = some sp) :
    (us = [] ∧ s = []) ∨ (s ≠ [] ∧ ∃ u, us = [u] ∧ u.Fits s) := by
  have noFit : ∀ u ∈ us, ¬ u.Fits [] := by
    intro u hu hf
    have hv := hg.valid u hu
    cases u with
    | run sp w => exact hv.1 hf.symm
    | cls R n =>
      obtain ⟨x, hx⟩ := List.exists_mem_of_ne_nil _ hv.1.ne
      obtain ⟨c, hc, -⟩ := (hf.1 x).mp hx
      cases hc
    | wild R =>
      obtain ⟨x, hx⟩ := List.exists_mem_of_ne_nil _ hv.ne
      obtain ⟨c, hc, -⟩ := (hf x).mp hx
      cases hc
  obtain ⟨parts, hp, hf⟩ := h
  have one : parts = [s] → (us = [] ∧ s = []) ∨ (s ≠ [] ∧ ∃ u, us = [u] ∧ u.Fits s) := by
    rintro rfl
    match us, hf with
    | [u], hf =>
      have hu : u.Fits s := hf.1
      refine .inr ⟨?_, u, rfl, hu⟩
      rintro rfl
      exact noFit u (by simp) hu
    | u :: v :: us, hf => exact absurd hf.2 (by simp [FitsAll])
    | [], hf => exact absurd hf (by simp [FitsAll])
  have nil : parts = [] → s = [] → (us = [] ∧ s = []) ∨ (s ≠ [] ∧ ∃ u, us = [u] ∧ u.Fits s) := by
    rintro rfl rfl
    match us, hf with
    | [], _ => exact .inl ⟨rfl, rfl⟩
    | u :: us, hf => exact absurd hf (by simp [FitsAll])
  have runs : ∀ rs, Runs s rs → (rs = [] ∧ s = []) ∨ rs = [(sp, s)] := by
    intro rs hr
    rcases one_run hr (one_space_runs hr hsp) with rfl | rfl
    · exact .inl ⟨rfl, hr.concat.symm⟩
    · exact .inr rfl
  have byRuns : (∃ rs, Runs s rs ∧ parts = rs.map (·.2)) → (us = [] ∧ s = []) ∨ (s ≠ [] ∧ ∃ u, us = [u] ∧ u.Fits s) := by
    rintro ⟨rs, hr, e⟩
    rcases runs rs hr with ⟨rfl, h0⟩ | rfl
    · exact nil e h0
    · exact one e
  unfold Parts at hp
  split at hp
  · exact byRuns hp
  · exact byRuns hp
  · obtain ⟨gs, hr, hne, -, e⟩ := hp
    rcases runs _ hr with ⟨h1, h0⟩ | h1
    · have : gs = [] := by
        cases gs with
        | nil => rfl
        | cons g gs =>
          rw [List.flatten_cons, List.append_eq_nil_iff] at h1
          exact absurd h1.1 (hne g (by simp)).1
      subst this
      exact nil e h0
    · match gs, hne, h1, e with
      | [], _, h1, _ => simp at h1
      | [g], _, h1, e =>
        have hgr : g = [(sp, s)] := by simpa using h1
        apply one
        rw [e, hgr]
        simp [rawText]
      | g :: g' :: gs, hne, h1, _ =>
        obtain ⟨a, ha⟩ := List.exists_mem_of_ne_nil _ (hne g (by simp)).1
        obtain ⟨b, hb⟩ := List.exists_mem_of_ne_nil _ (hne g' (by simp)).1
        have l1 := List.length_pos_of_mem ha
        have l2 := List.length_pos_of_mem hb
        have := congrArg List.length h1
        simp at this
        omega
  · obtain ⟨ga, x, gb, hr, -, -, -, e⟩ := hp
    rcases runs _ hr with ⟨h1, -⟩ | h1
    · simp at h1
    · have hga : ga = [] := by
        have := congrArg List.length h1
        simp at this
        exact List.eq_nil_of_length_eq_zero (by omega)
      subst hga
      subst e
      match us, hf, noFit with
      | [], hf, _ => exact absurd hf (by simp [FitsAll])
      | u :: us, hf, noFit => exact absurd hf.1 (noFit u (by simp))
  · exact one hp
  · exact one hp

/-- The only class of a string of one space. -/
theorem spacesOf_one {s : Str} {R : List Space} {sp : Space} (hs : s ≠ []) (hsp : ∀ c ∈ s, space? c = some sp) (h : SpacesOf s R)
    (hR : WrittenClass R) : R = [sp] := by
  have hall : ∀ x ∈ R, x = sp := by
    intro x hx
    obtain ⟨c, hc, e⟩ := (h x).mp hx
    rw [hsp c hc] at e
    injection e with e
    exact e.symm
  match R, hR, hall with
  | [], hR, _ => exact absurd rfl hR.ne
  | [x], _, hall => rw [hall x (by simp)]
  | x :: y :: R, hR, hall =>
    have := (List.pairwise_cons.mp hR.sorted).1 y (by simp)
    rw [hall x (by simp), hall y (by simp)] at this
    exact absurd this (List.lt_irrefl _)

/-- The text of a pattern found for a piece of one space fits the piece. -/
theorem match_fit {lp : Bool} {us : List GUnit} {s : Str} (hg : Generated us) (h : Matches lp us s) (ho : OneSpace s) :
    FitPart (pieceOf s) (patText us) ∧ PieceText s (patText us) := by
  obtain ⟨sp, hsp⟩ := ho
  rcases match_one hg h hsp with ⟨rfl, rfl⟩ | ⟨hne, u, rfl, hu⟩
  · exact ⟨.inl rfl, [], ⟨⟨rfl, by simp, by simp, by intro a x y b e; simp at e⟩, by simp⟩, rfl⟩
  · have hr : Runs s [(sp, s)] := by
      refine ⟨by simp, by simpa using hne, by simpa using hsp, ?_⟩
      intro a x y b e
      have := congrArg List.length e
      simp at this
      omega
    have hru : runsOf s = [(sp, s)] := runsOf_runs hr
    have hpart : FitPart (gpart [(sp, s)]) (patText [u]) := by
      have hv := hg.valid u (by simp)
      have hpt : patText [u] = u.text := by simp [patText]
      have hrule : (gpair [(sp, s)]).2 = sp.text := joinSorted_one _
      have hlit : (gpair [(sp, s)]).1 = runText (sp, s) := by simp [gpair]
      have hlen := lenOf_gpart_eq hr
      rw [written_measured hr] at hlen
      unfold FitPart
      rw [(gpart_pair _).1, (gpart_pair _).2, hpt, hlit, hrule, hlen]
      have hne' : sp.text ≠ [] := by rw [← hrule]; exact rule_ne hr (by simp)
      cases u with
      | run sp' w =>
        left
        obtain rfl : s = w := hu
        obtain ⟨c, hc⟩ := List.exists_mem_of_ne_nil _ hne
        have := (hv.2.2 c hc).symm.trans (hsp c hc)
        injection this with this
        rw [this]; rfl
      | cls R n =>
        obtain ⟨h1, h2⟩ := hu
        have hR := spacesOf_one hne hsp h1 hv.1.toWrittenClass
        subst hR
        have hbs : sp ≠ .sign '\\' := by
          rintro rfl
          exact hv.1.readable rfl
        have hm : measured s = s.length := by
          apply measured_plain
          intro hc
          have := hsp _ hc
          injection this with this
          exact hbs this.symm
        by_cases hsg : sp.isSign = true
        · left
          unfold runText
          rw [if_pos hsg]
          simp only [GUnit.text, List.map_cons, List.map_nil, List.flatten_cons, List.flatten_nil, List.append_nil]
          rw [← h2, hm]
        · right
          refine ⟨hne', .inl ⟨?_, ?_⟩⟩
          · rintro ⟨sp', h3, -, h4⟩
            rw [text_inj h4] at hsg
            exact hsg h3
          · have : 1 ≤ measured s := by
              rw [hm]
              exact List.length_pos_iff.mpr hne
            rw [specStr_nat (by omega), ← h2]
            simp [GUnit.text]
      | wild R =>
        have hR := spacesOf_one hne hsp hu hv.toWrittenClass
        subst hR
        right
        refine ⟨hne', .inr ?_⟩
        rw [specStr_wild]
        simp [GUnit.text]
    refine ⟨?_, one_grouping hr (fit_text hr hpart)⟩
    unfold FitPart at hpart ⊢
    rw [(gpart_pair _).1, (gpart_pair _).2, gpair_ppOf, ← lenOf_ppOf] at hpart
    unfold pieceOf
    rw [hru]
    exact hpart

end OsUrl
