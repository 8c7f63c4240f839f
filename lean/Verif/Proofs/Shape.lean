import Verif.Proofs.Structure
import Verif.Model.Matcher

/-! Shapes of parsed pieces. -/

namespace OsUrl
open Spec

theorem runText_ne_nil {r : Space × Str} (h : r.2 ≠ []) : runText r ≠ [] := by
  unfold runText
  split
  · simp
  · exact h

theorem mapM_ok_cons {α β : Type} {f : α → Py β} {a : α} {l : List α} {bs : List β}
    (h : (a :: l).mapM f = .ok bs) : ∃ b bs', f a = .ok b ∧ l.mapM f = .ok bs' ∧ bs = b :: bs' := by
  rw [List.mapM_cons] at h
  cases ha : f a with
  | error e => simp [ha, bind, Except.bind] at h
  | ok b =>
    cases hl : l.mapM f with
    | error e => simp [ha, hl, bind, Except.bind] at h
    | ok bs' =>
      simp [ha, hl, bind, Except.bind, pure, Except.pure] at h
      exact ⟨b, bs', rfl, rfl, h.symm⟩

theorem mapM_ok_nil {α β : Type} {f : α → Py β} {bs : List β} (h : ([] : List α).mapM f = .ok bs) : bs = [] := by
  simp [pure, Except.pure] at h; exact h

theorem mapM_ok_map {α β : Type} {f : α → Py β} {g : α → β} {l : List α} {bs : List β}
    (h : l.mapM f = .ok bs) (hg : ∀ a ∈ l, ∀ b, f a = .ok b → b = g a) : bs = l.map g := by
  induction l generalizing bs with
  | nil => exact mapM_ok_nil h
  | cons a l ih =>
    obtain ⟨b, bs', h1, h2, rfl⟩ := mapM_ok_cons h
    rw [List.map_cons, hg a (by simp) b h1, ih h2 (fun x hx => hg x (by simp [hx]))]

theorem mapM_ok_mem {α β : Type} {f : α → Py β} {l : List α} {bs : List β}
    (h : l.mapM f = .ok bs) {a : α} (ha : a ∈ l) : ∃ b ∈ bs, f a = .ok b := by
  induction l generalizing bs with
  | nil => simp at ha
  | cons x l ih =>
    obtain ⟨b, bs', h1, h2, rfl⟩ := mapM_ok_cons h
    simp at ha
    rcases ha with rfl | ha
    · exact ⟨b, by simp, h1⟩
    · obtain ⟨b', hb, h⟩ := ih h2 ha
      exact ⟨b', by simp [hb], h⟩

theorem mapM_ok_mem' {α β : Type} {f : α → Py β} {l : List α} {bs : List β}
    (h : l.mapM f = .ok bs) {b : β} (hb : b ∈ bs) : ∃ a ∈ l, f a = .ok b := by
  induction l generalizing bs with
  | nil => rw [mapM_ok_nil h] at hb; simp at hb
  | cons x l ih =>
    obtain ⟨b', bs', h1, h2, rfl⟩ := mapM_ok_cons h
    simp at hb
    rcases hb with rfl | hb
    · exact ⟨x, by simp, h1⟩
    · obtain ⟨a, ha, h⟩ := ih h2 hb
      exact ⟨a, by simp [ha], h⟩

theorem mapM_ok_length {α β : Type} {f : α → Py β} {l : List α} {bs : List β}
    (h : l.mapM f = .ok bs) : bs.length = l.length := by
  induction l generalizing bs with
  | nil => rw [mapM_ok_nil h]; rfl
  | cons x l ih =>
    obtain ⟨b', bs', h1, h2, rfl⟩ := mapM_ok_cons h
    simp [ih h2]

/-- All pieces accepted. -/
theorem parsePieces_ok {pieces : List Str} {pps : List ParsedPiece} (h : pieces.mapM parsePiece = .ok pps) :
    (∀ s ∈ pieces, ∀ c ∈ s, Known c) ∧ pps = pieces.map (fun s => ppOf (runsOf s)) := by
  constructor
  · intro s hs
    obtain ⟨p, -, hp⟩ := mapM_ok_mem h hs
    exact (parsePiece_ok hp).1
  · exact mapM_ok_map h (fun a _ b hb => (parsePiece_ok hb).2)

theorem mapM_shape {pieces : List Str} {pps : List ParsedPiece} (h : pieces.mapM parsePiece = .ok pps)
    (f : ParsedPiece → Str) (hf : ∀ {s pp}, parsePiece s = .ok pp → ShapeOf s (f pp)) :
    Shapes pieces (pps.map f) := by
  refine ⟨by rw [List.length_map, mapM_ok_length h], ?_⟩
  induction pieces generalizing pps with
  | nil => simp
  | cons s l ih =>
    obtain ⟨b, bs', h1, h2, rfl⟩ := mapM_ok_cons h
    intro x hx
    simp only [List.map_cons, List.zip_cons_cons, List.mem_cons] at hx
    rcases hx with rfl | hx
    · exact hf h1
    · exact ih h2 x hx

theorem piece_nil {s : Str} {pp : ParsedPiece} (h : parsePiece s = .ok pp) : pp.piece = [] ↔ s = [] := by
  obtain ⟨hk, rfl⟩ := parsePiece_ok h
  have hr := runsOf_spec hk
  constructor
  · intro h0
    cases hrs : runsOf s with
    | nil =>
      rw [← runsOf_concat s, hrs]; rfl
    | cons r rs =>
      rw [hrs] at h0
      simp [ppOf, ParsedPiece.piece] at h0
      exact absurd h0.1 (runText_ne_nil (hr.nonempty r (by simp [hrs])))
  · rintro rfl; rfl

theorem piece_shape {s : Str} {pp : ParsedPiece} (h : parsePiece s = .ok pp) : ShapeOf s pp.piece := by
  refine ⟨piece_nil h, ?_⟩
  obtain ⟨hk, rfl⟩ := parsePiece_ok h
  have hr := runsOf_spec hk
  intro c hc
  simp only [ParsedPiece.piece, ppOf, List.mem_flatten, List.mem_map] at hc
  obtain ⟨_, ⟨r, hrm, rfl⟩, hc⟩ := hc
  have hsub : ∀ x ∈ r.2, x ∈ s := by
    intro x hx
    rw [← runsOf_concat s]
    simp
    exact ⟨r.2, ⟨r.1, hrm⟩, hx⟩
  by_cases hs : r.1.isSign = true
  · have e := specStr_runText (sp := r.1) (hr.nonempty r hrm) hs
    have e' : runText r = runText (r.1, r.2) := rfl
    rw [e', ← e] at hc
    rcases specStr_chars hc with hc | hc
    · rcases ruleChar_text hc with hc | hc
      · exact .inr hc
      · left
        obtain ⟨x, hx⟩ := List.exists_mem_of_ne_nil _ (hr.nonempty r hrm)
        have := hr.space r hrm x hx
        rw [hc] at this
        have := space_sign this
        subst this
        exact hsub x hx
    · exact .inr hc
  · unfold runText at hc
    rw [if_neg hs] at hc
    exact .inl (hsub c hc)

theorem fuzzyRule_chars {s : Str} {pp : ParsedPiece} (h : parsePiece s = .ok pp) {c : Char}
    (hc : c ∈ pp.fuzzyRule) : c ∈ s ∨ ruleChar c = true := by
  obtain ⟨hk, rfl⟩ := parsePiece_ok h
  rw [fuzzyRule_ppOf hk] at hc
  simp only [joinSorted, List.mem_flatten, mem_sortedSet, List.mem_map] at hc
  obtain ⟨_, ⟨sp, hsp, rfl⟩, hc⟩ := hc
  obtain ⟨x, hx, hs⟩ := (space_mem_runs hk).mp hsp
  rcases ruleChar_text hc with h | h
  · exact .inr h
  · subst h
    rw [← space_sign hs]; exact .inl hx

theorem fuzzyRule_nil {s : Str} {pp : ParsedPiece} (h : parsePiece s = .ok pp) : pp.fuzzyRule = [] ↔ s = [] := by
  obtain ⟨hk, rfl⟩ := parsePiece_ok h
  rw [fuzzyRule_ppOf hk]
  constructor
  · intro h0
    cases s with
    | nil => rfl
    | cons c s =>
      have : ∃ sp, space? c = some sp := ⟨_, spaceD_eq (hk c (by simp))⟩
      obtain ⟨sp, hsp⟩ := this
      have hm : sp ∈ spacesOf (c :: s) := (space_mem_runs hk).mpr ⟨c, by simp, hsp⟩
      have hm' : sp.text ∈ sortedSet ((spacesOf (c :: s)).map Space.text) := by
        rw [mem_sortedSet]; exact List.mem_map.mpr ⟨sp, hm, rfl⟩
      obtain ⟨x, hx⟩ := List.exists_mem_of_ne_nil _ (text_ne_nil sp)
      have : x ∈ joinSorted ((spacesOf (c :: s)).map Space.text) := by
        simp only [joinSorted, List.mem_flatten]
        exact ⟨_, hm', hx⟩
      rw [h0] at this; simp at this
  · rintro rfl; rfl

theorem fuzzyRule_shape {s : Str} {pp : ParsedPiece} (h : parsePiece s = .ok pp) : ShapeOf s pp.fuzzyRule :=
  ⟨fuzzyRule_nil h, fun _ hc => fuzzyRule_chars h hc⟩

theorem specStr_ne_nil (r : Str) {n : Int} (h : n ≠ 0) : specStr r n ≠ [] := by
  unfold specStr; repeat' split
  all_goals simp
  omega

theorem fuzzy_shape {s : Str} {pp : ParsedPiece} (h : parsePiece s = .ok pp) {n : Int} (hn : n ≠ 0) :
    ShapeOf s (if pp.piece = [] then [] else specStr pp.fuzzyRule n) := by
  by_cases h0 : pp.piece = []
  · rw [if_pos h0]
    have := (piece_nil h).mp h0
    subst this
    exact ⟨by simp, by simp⟩
  · rw [if_neg h0]
    refine ⟨⟨fun h1 => absurd h1 (specStr_ne_nil _ hn), fun h1 => absurd ((piece_nil h).mpr h1) h0⟩, ?_⟩
    intro c hc
    rcases specStr_chars hc with hc | hc
    · exact fuzzyRule_chars h hc
    · exact .inr hc


/-! ### `parse` -/

theorem parse_pieces {url : Str} {m : URLMeta} {pps : List ParsedPiece} (h : parse url = .ok (m, .pieces pps)) :
    ∃ pieces, analyzeUrl url = .ok (m, pieces) ∧ pieces.mapM parsePiece = .ok pps := by
  unfold parse at h
  split at h
  · cases ha : analyzeUrlPatternString url with
    | error e => simp [ha, bind, Except.bind] at h
    | ok v =>
      simp only [ha, bind, Except.bind, pure, Except.pure] at h
      split at h
      · cases h
      · cases h
  · cases ha : analyzeUrl url with
    | error e => simp [ha, bind, Except.bind] at h
    | ok v =>
      obtain ⟨m', pieces⟩ := v
      cases hp : pieces.mapM parsePiece with
      | error e => simp [ha, hp, bind, Except.bind] at h
      | ok pps' =>
        simp [ha, hp, bind, Except.bind, pure, Except.pure] at h
        obtain ⟨rfl, rfl⟩ := h
        exact ⟨pieces, rfl, hp⟩

end OsUrl
