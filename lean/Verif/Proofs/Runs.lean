import Verif.Proofs.Chars
import Verif.Proofs.Mix
import Verif.Spec.Runs

/-! `PieceParser.parse` against the specification of maximal runs. -/

namespace OsUrl
open Spec

theorem natStr_decimal (n : Nat) : natStr n = decimal n := by
  have digit : ∀ k, k < 10 → digitChar k = Nat.digitChar k := by decide
  have aux : ∀ fuel n, n < fuel → natStrAux fuel n = Nat.toDigits 10 n := by
    intro fuel
    induction fuel with
    | zero => intro n h; omega
    | succ f ih =>
      intro n h
      simp only [natStrAux]
      split
      · rename_i h1
        rw [Nat.toDigits_of_lt_base h1, digit _ h1]
      · rename_i h1
        rw [Nat.toDigits_of_base_le (by omega) (by omega), ih _ (by omega), digit _ (by omega)]
  exact aux _ _ (by omega)

/-- The space of a character, with a default for unknown ones. -/
def spaceD (c : Char) : Space := (space? c).getD (.sign c)

theorem spaceD_eq {c : Char} (h : Known c) : space? c = some (spaceD c) := by
  unfold spaceD Known at *
  cases hs : space? c with
  | none => simp [hs] at h
  | some s => rfl

/-- The runs of a string, computed from the right. -/
def runsOf : Str → List (Space × Str)
  | [] => []
  | c :: s =>
    match runsOf s with
    | [] => [(spaceD c, [c])]
    | (sp, w) :: rest => if spaceD c = sp then (sp, c :: w) :: rest else (spaceD c, [c]) :: (sp, w) :: rest

theorem neighbours_tail {α : Type} {R : α → α → Prop} {x : α} {l : List α} (h : Neighbours R (x :: l)) :
    Neighbours R l := by
  intro a u v b e
  exact h (x :: a) u v b (by simp [e])

theorem runsOf_concat (s : Str) : ((runsOf s).map (·.2)).flatten = s := by
  induction s with
  | nil => rfl
  | cons c s ih =>
    simp only [runsOf]
    split
    · rename_i h; rw [h] at ih; simp at ih; simp [← ih]
    · rename_i sp w rest h
      rw [h] at ih; simp at ih
      split <;> simp [ih]

theorem runsOf_spec {s : Str} (h : ∀ c ∈ s, Known c) : Runs s (runsOf s) := by
  refine ⟨runsOf_concat s, ?_, ?_, ?_⟩
  · clear h
    induction s with
    | nil => simp [runsOf]
    | cons c s ih =>
      simp only [runsOf]
      split
      · simp
      · rename_i sp w rest h
        rw [h] at ih
        split
        · intro r hr; simp at hr; rcases hr with rfl | hr
          · simp
          · exact ih r (by simp [hr])
        · intro r hr; simp at hr; rcases hr with rfl | rfl | hr
          · simp
          · exact ih _ (by simp)
          · exact ih r (by simp [hr])
  · induction s with
    | nil => simp [runsOf]
    | cons c s ih =>
      have ih := ih (fun x hx => h x (by simp [hx]))
      have hc := spaceD_eq (h c (by simp))
      simp only [runsOf]
      split
      · simpa using hc
      · rename_i sp w rest he
        rw [he] at ih
        split
        · rename_i hsp
          intro r hr x hx; simp at hr; rcases hr with rfl | hr
          · simp at hx; rcases hx with rfl | hx
            · rw [hc, hsp]
            · exact ih (sp, w) (by simp) x hx
          · exact ih r (by simp [hr]) x hx
        · intro r hr x hx; simp at hr; rcases hr with rfl | rfl | hr
          · simp at hx; subst hx; exact hc
          · exact ih _ (by simp) x hx
          · exact ih r (by simp [hr]) x hx
  · clear h
    induction s with
    | nil => exact neighbours_nil
    | cons c s ih =>
      simp only [runsOf]
      split
      · exact neighbours_single _
      · rename_i sp w rest he
        rw [he] at ih
        split
        · cases rest with
          | nil => exact neighbours_single _
          | cons r rest =>
            rw [neighbours_cons_cons] at ih ⊢
            exact ih
        · rename_i hne
          rw [neighbours_cons_cons]
          exact ⟨hne, ih⟩

theorem runsOf_runs {s : Str} {rs : List (Space × Str)} (h : Runs s rs) : runsOf s = rs := by
  obtain ⟨h1, h2, h3, h4⟩ := h
  subst h1
  induction rs with
  | nil => rfl
  | cons r rs ih =>
    obtain ⟨sp, w⟩ := r
    have ih := ih (fun r hr => h2 r (by simp [hr])) (fun r hr => h3 r (by simp [hr])) (neighbours_tail h4)
    have hw := h2 (sp, w) (by simp)
    have hs := h3 (sp, w) (by simp)
    simp only at hw hs
    have hhead : ∀ r ∈ rs.head?, sp ≠ r.1 := by
      intro r hr
      cases rs with
      | nil => simp at hr
      | cons x xs => simp at hr; subst hr; exact (neighbours_cons_cons.mp h4).1
    simp only [List.map_cons, List.flatten_cons]
    generalize (List.map (fun r => r.2) rs).flatten = t at *
    clear h2 h3 h4
    induction w with
    | nil => exact absurd rfl hw
    | cons c w ihw =>
      have hc : spaceD c = sp := by simp [spaceD, hs c (by simp)]
      by_cases hw2 : w = []
      · subst hw2
        simp only [List.cons_append, List.nil_append, runsOf, ih]
        cases rs with
        | nil => simp [hc]
        | cons x xs =>
          obtain ⟨sp', w'⟩ := x
          have := hhead (sp', w') (by simp)
          simp [hc, this]
      · have := ihw hw2 (fun x hx => hs x (by simp [hx]))
        simp only [List.cons_append, runsOf, this, hc, if_true]

theorem runs_unique {s : Str} {rs rs' : List (Space × Str)} (h : Runs s rs) (h' : Runs s rs') : rs = rs' := by
  rw [← runsOf_runs h, runsOf_runs h']

theorem Spec.Runs.known {s : Str} {rs : List (Space × Str)} (h : Runs s rs) : ∀ c ∈ s, Known c := by
  intro c hc
  rw [← h.concat] at hc
  simp at hc
  obtain ⟨w, ⟨sp, hm⟩, hcw⟩ := hc
  have := h.space _ hm c hcw
  simp [Known, this]

theorem Spec.Runs.snoc_same {s : Str} {rs : List (Space × Str)} {sp : Space} {w : Str} {c : Char}
    (h : Runs s (rs ++ [(sp, w)])) (hc : space? c = some sp) :
    Runs (s ++ [c]) (rs ++ [(sp, w ++ [c])]) := by
  obtain ⟨h1, h2, h3, h4⟩ := h
  refine ⟨?_, ?_, ?_, ?_⟩
  · rw [← h1]; simp
  · intro r hr; simp at hr; rcases hr with hr | rfl
    · exact h2 r (by simp [hr])
    · simp
  · intro r hr x hx; simp at hr; rcases hr with hr | rfl
    · exact h3 r (by simp [hr]) x hx
    · simp at hx; rcases hx with hx | rfl
      · exact h3 (sp, w) (by simp) x hx
      · exact hc
  · clear h1 h2 h3
    induction rs with
    | nil => exact neighbours_single _
    | cons r rs ih =>
      have ih := ih (neighbours_tail h4)
      cases rs with
      | nil =>
        simp only [List.cons_append, List.nil_append] at h4 ⊢
        rw [neighbours_cons_cons] at h4 ⊢
        exact ⟨h4.1, neighbours_single _⟩
      | cons r2 rs =>
        simp only [List.cons_append] at h4 ih ⊢
        rw [neighbours_cons_cons] at h4 ⊢
        exact ⟨h4.1, ih⟩

theorem neighbours_snoc {α : Type} {R : α → α → Prop} {l : List α} {x y : α}
    (h : Neighbours R (l ++ [x])) (hr : R x y) : Neighbours R (l ++ [x, y]) := by
  induction l with
  | nil => exact neighbours_cons_cons.mpr ⟨hr, neighbours_single _⟩
  | cons z zs ih =>
    have ih := ih (neighbours_tail h)
    cases zs with
    | nil =>
      simp only [List.cons_append, List.nil_append] at h ih ⊢
      exact neighbours_cons_cons.mpr ⟨(neighbours_cons_cons.mp h).1, ih⟩
    | cons u zs =>
      simp only [List.cons_append] at h ih ⊢
      exact neighbours_cons_cons.mpr ⟨(neighbours_cons_cons.mp h).1, ih⟩

theorem Spec.Runs.snoc_new {s : Str} {rs : List (Space × Str)} {sp : Space} {c : Char}
    (h : Runs s rs) (hc : space? c = some sp) (hl : ∀ r ∈ rs.getLast?, r.1 ≠ sp) :
    Runs (s ++ [c]) (rs ++ [(sp, [c])]) := by
  obtain ⟨h1, h2, h3, h4⟩ := h
  refine ⟨?_, ?_, ?_, ?_⟩
  · rw [← h1]; simp
  · intro r hr; simp at hr; rcases hr with hr | rfl
    · exact h2 r hr
    · simp
  · intro r hr x hx; simp at hr; rcases hr with hr | rfl
    · exact h3 r hr x hx
    · simp at hx; subst hx; exact hc
  · rcases List.eq_nil_or_concat rs with rfl | ⟨rs', r, rfl⟩
    · exact neighbours_single _
    · simp only [List.concat_eq_append] at *
      simp only [List.append_assoc, List.cons_append, List.nil_append]
      exact neighbours_snoc h4 (hl r (by simp))

/-- How the parser represents runs while it works: reversed, with the text of the rule. -/
def encRuns (rs : List (Space × Str)) : List (Str × Str) := (rs.map (fun r => (r.2, r.1.text))).reverse

theorem parserDefine_known {done : Str} {rs : List (Space × Str)} {c : Char} (h : Runs done rs)
    (hc : Known c) :
    ∃ rs', Runs (done ++ [c]) rs' ∧ parserDefine (encRuns rs) c = .ok (encRuns rs') := by
  have hsp := spaceD_eq hc
  unfold parserDefine
  rw [charRule_eq, hsp]
  simp only [Option.map_some]
  rcases List.eq_nil_or_concat rs with rfl | ⟨rs0, r, rfl⟩
  · refine ⟨[(spaceD c, [c])], ?_, rfl⟩
    simpa using h.snoc_new hsp (by simp)
  · simp only [List.concat_eq_append] at *
    have e : encRuns (rs0 ++ [r]) = (r.2, r.1.text) :: encRuns rs0 := by simp [encRuns]
    rw [e]
    simp only
    by_cases hr : r.1.text = (spaceD c).text
    · rw [if_pos hr]
      have := text_inj hr
      refine ⟨rs0 ++ [(r.1, r.2 ++ [c])], ?_, by simp [encRuns]⟩
      exact h.snoc_same (by rw [hsp, this])
    · rw [if_neg hr]
      refine ⟨rs0 ++ [r] ++ [(spaceD c, [c])], ?_, by simp [encRuns]⟩
      refine h.snoc_new hsp ?_
      intro x hx
      simp at hx; subst hx
      intro he; exact hr (by rw [he])

theorem parserDefine_foldl {s done : Str} {rs : List (Space × Str)} (h : Runs done rs) :
    if ∀ c ∈ s, Known c then
      ∃ rs', Runs (done ++ s) rs' ∧ s.foldlM parserDefine (encRuns rs) = .ok (encRuns rs')
    else s.foldlM parserDefine (encRuns rs) = .error .invalidChar := by
  induction s generalizing done rs with
  | nil => simp; exact ⟨rs, h, rfl⟩
  | cons c s ih =>
    by_cases hc : Known c
    · obtain ⟨rs', h1, h2⟩ := parserDefine_known h hc
      have := ih h1
      simp only [List.foldlM_cons, h2, List.mem_cons, forall_eq_or_imp, hc, true_and]
      simp only [List.append_assoc, List.cons_append, List.nil_append] at this
      exact this
    · have hk : ¬ ∀ x ∈ c :: s, Known x := by intro hh; exact hc (hh c (by simp))
      rw [if_neg hk]
      have : charRule c = none := by
        have := mt known_iff.mpr hc
        simpa using this
      simp [List.foldlM_cons, parserDefine, this, bind, Except.bind]

theorem specStr_runText {sp : Space} {w : Str} (hw : w ≠ []) (hs : sp.isSign = true) :
    specStr sp.text w.length = runText (sp, w) := by
  have hl : 0 < w.length := List.length_pos_iff.mpr hw
  unfold specStr runText
  simp only [hs, if_true]
  by_cases h1 : w.length = 1
  · simp [h1]
  · have a1 : ¬ ((w.length : Int) = 1) := by omega
    have a2 : ¬ ((w.length : Int) < 0) := by omega
    have a3 : (w.length : Int) > 1 := by omega
    simp [h1, a1, a2, a3, natStr_decimal]

theorem parserNormalize_runText {sp : Space} {w : Str} (hw : w ≠ []) (hv : sp.Valid) :
    parserNormalize w sp.text = runText (sp, w) := by
  unfold parserNormalize
  by_cases hs : sp.isSign = true
  · rw [if_pos ((text_mem_sign_iff hv).mpr hs)]
    exact specStr_runText hw hs
  · rw [if_neg (fun h => hs ((text_mem_sign_iff hv).mp h))]
    simp [runText, hs]

theorem Spec.Runs.valid {s : Str} {rs : List (Space × Str)} (h : Runs s rs) : ∀ r ∈ rs, r.1.Valid := by
  intro r hr
  obtain ⟨c, hc⟩ := List.exists_mem_of_ne_nil _ (h.nonempty r hr)
  exact space_valid (h.space r hr c hc)

/-- The parsed piece made of runs. -/
def ppOf (rs : List (Space × Str)) : ParsedPiece := ⟨rs.map runText, rs.map (·.1.text)⟩

/-- Closed form of `PieceParser.parse`. -/
theorem parsePiece_eq (s : Str) :
    parsePiece s = if ∀ c ∈ s, Known c then .ok (ppOf (runsOf s)) else .error .invalidChar := by
  have h := parserDefine_foldl (s := s) (done := []) (rs := [])
    ⟨rfl, by simp, by simp, neighbours_nil⟩
  unfold parsePiece
  simp only [encRuns, List.map_nil, List.reverse_nil, List.nil_append] at h
  split at h
  · rename_i hk
    obtain ⟨rs', h1, h2⟩ := h
    rw [if_pos hk, h2, runsOf_runs h1]
    simp only [bind, Except.bind, pure, Except.pure, ppOf, List.reverse_reverse, List.map_map]
    congr 2
    apply List.map_congr_left
    intro r hr
    exact parserNormalize_runText (h1.nonempty r hr) (h1.valid r hr)
  · rename_i hk
    rw [if_neg hk, h]; rfl

end OsUrl
