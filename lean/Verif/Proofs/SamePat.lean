import Verif.Proofs.PatRe
import Verif.Proofs.Shape

/-! What can be read off a pattern text: the structure of its URLs and the character spaces of every piece. -/

namespace OsUrl
open Spec

theorem wcover_nil {rs : List Run} (h : WCover rs []) : rs = [] := by
  cases h; rfl

theorem wcover_cons {rs : List Run} {c : Cell} {cs : List Cell} (h : WCover rs (c :: cs)) :
    ∃ g rs', rs = g ++ rs' ∧ c.1 = joinSorted (g.map (·.1.text)) ∧ WCover rs' cs := by
  cases h with
  | lit r h => exact ⟨[r], _, rfl, (joinSorted_one _).symm, h⟩
  | cls g n hg hn h => exact ⟨g, _, rfl, rfl, h⟩

theorem runs_rules {w : Str} {rs : List Run} (h : Runs w rs) : ∀ t ∈ rs.map (fun r => r.1.text), t ∈ ruleSet := by
  have e := runs_unique h (runsOf_spec h.known)
  have := rules_mem_ruleSet h.known
  intro t ht
  apply this
  obtain ⟨r, hr, rfl⟩ := List.mem_map.mp ht
  refine List.mem_map.mpr ⟨r.1, ?_, rfl⟩
  rw [space_mem_runs h.known]
  obtain ⟨x, hx⟩ := List.exists_mem_of_ne_nil _ (h.nonempty r hr)
  refine ⟨x, ?_, h.space r hr x hx⟩
  rw [← h.concat]
  exact List.mem_flatten.mpr ⟨r.2, List.mem_map_of_mem hr, hx⟩

/-- The same cells come from the same spaces. -/
theorem wcover_spaces {cs : List Cell} : ∀ {w w' : Str} {rs rs' : List Run}, Runs w rs → Runs w' rs' → WCover rs cs → WCover rs' cs →
    ∀ t, t ∈ rs.map (fun r => r.1.text) ↔ t ∈ rs'.map (fun r => r.1.text) := by
  induction cs with
  | nil =>
    intro w w' rs rs' _ _ h h' t
    rw [wcover_nil h, wcover_nil h']
  | cons c cs ih =>
    intro w w' rs rs' hr hr' h h' t
    obtain ⟨g, us, rfl, e, hc⟩ := wcover_cons h
    obtain ⟨g', us', rfl, e', hc'⟩ := wcover_cons h'
    rw [List.map_append, List.map_append, List.mem_append, List.mem_append, ih (runs_drop hr) (runs_drop hr') hc hc' t]
    rw [(joinSorted_inj (runs_rules (runs_take hr)) (runs_rules (runs_take hr'))).mp (e.symm.trans e') t]

/-- A pattern text determines the spaces of the piece. -/
theorem pieceText_spaces {s s' t : Str} (h : PieceText s t) (h' : PieceText s' t) : (pieceOf s).fuzzyRule = (pieceOf s').fuzzyRule := by
  obtain ⟨gts, ⟨h1, h2⟩, rfl⟩ := h
  obtain ⟨gts', ⟨h1', h2'⟩, e⟩ := h'
  obtain ⟨cs, e1, e2⟩ := groups_wcover h1 h2
  obtain ⟨cs', e1', e2'⟩ := groups_wcover h1' h2'
  have e3 : cs = cs' := good_unique (wcover_good h1 e1) (wcover_good h1' e1') (by rw [e2, e, e2'])
  subst e3
  have := wcover_spaces h1 h1' e1 e1'
  unfold pieceOf
  rw [← runs_unique h1 (runsOf_spec h1.known), ← runs_unique h1' (runsOf_spec h1'.known)]
  have e4 := (joinSorted_inj (runs_rules h1) (runs_rules h1')).mpr this
  rw [← show (gpair _).2 = (ppOf (gts.map (·.1)).flatten).fuzzyRule by rw [gpair_ppOf],
    ← show (gpair _).2 = (ppOf (gts'.map (·.1)).flatten).fuzzyRule by rw [gpair_ppOf]]
  exact e4

theorem ShapeOf.append {a b x y : Str} (h : ShapeOf a x) (h' : ShapeOf b y) : ShapeOf (a ++ b) (x ++ y) := by
  refine ⟨by rw [List.append_eq_nil_iff, List.append_eq_nil_iff, h.1, h'.1], ?_⟩
  intro c hc
  rcases List.mem_append.mp hc with hc | hc
  · rcases h.2 c hc with h | h
    · exact .inl (by simp [h])
    · exact .inr h
  · rcases h'.2 c hc with h | h
    · exact .inl (by simp [h])
    · exact .inr h

theorem parse_runs {w : Str} {g : List Run} (h : Runs w g) : parsePiece w = .ok (ppOf g) := by
  rw [parsePiece_eq, if_pos h.known, ← runs_unique h (runsOf_spec h.known)]

theorem wcover_shape {rs : List Run} {cs : List Cell} (h : WCover rs cs) : ∀ {w : Str}, Runs w rs → ShapeOf (rawOf rs) (cellText cs) := by
  induction h with
  | nil => intro _ _; exact ⟨by simp [rawOf, cellText], by simp [cellText]⟩
  | @lit r rs cs h ih =>
    intro w hr
    have h1 := ih (runs_drop (g := [r]) hr)
    have h2 := piece_shape (parse_runs (runs_take (g := [r]) hr))
    have e : (ppOf [r]).piece = runText r := by simp [ppOf, ParsedPiece.piece]
    rw [e] at h2
    have := h2.append h1
    simpa [rawOf, cellText] using this
  | @cls g n rs cs hg hn h ih =>
    intro w hr
    have h1 := ih (runs_drop hr)
    have h2 := fuzzy_shape (parse_runs (runs_take hr)) (n := n) (by omega)
    have hne : (ppOf g).piece ≠ [] := by
      intro e
      have := (piece_nil (parse_runs (runs_take hr))).mp e
      cases g with
      | nil => exact hg rfl
      | cons r g =>
        have hr0 := hr.nonempty r (by simp)
        simp [rawOf] at this
        exact hr0 this.1
    rw [if_neg hne, ← show (gpair g).2 = (ppOf g).fuzzyRule by rw [gpair_ppOf]] at h2
    have := h2.append h1
    simpa [rawOf, cellText] using this

/-- A pattern text fits into the URL at the place of its piece. -/
theorem pieceText_shape {s t : Str} (h : PieceText s t) : ShapeOf s t := by
  obtain ⟨gts, ⟨h1, h2⟩, rfl⟩ := h
  obtain ⟨cs, e1, e2⟩ := groups_wcover h1 h2
  have := wcover_shape e1 h1
  rw [e2, rawOf, h1.concat] at this
  exact this

end OsUrl
