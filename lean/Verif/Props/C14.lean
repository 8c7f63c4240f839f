import Verif.Model.Matcher
import Verif.Props.C13

/-! # C14: views never lose or reorder text -/

namespace OsUrl

/-- The text of a view: the concatenation of the texts of its parsed pieces. -/
def viewText (pps : List ParsedPiece) : Str := (pps.map (fun p => p.pieces.flatten)).flatten

theorem viewText_singles (ps rs : List Str) (h : ps.length = rs.length) :
    viewText ((ps.zip rs).map (fun pr => single pr.1 pr.2)) = ps.flatten := by
  induction ps generalizing rs with
  | nil => rfl
  | cons p ps ih =>
    cases rs with
    | nil => simp at h
    | cons r rs =>
      simp at h
      have := ih rs h
      simp [viewText, single] at this ⊢
      exact this

theorem mix_length (pieces rules : List Str) :
    (mix pieces rules).1.length = (mix pieces rules).2.length := by
  obtain ⟨gs, _, e⟩ := mix_groups pieces rules
  rw [e]; simp

theorem lastDotIdx_go_lt (rules : List Str) (rs : List Str) (i j : Nat)
    (hlen : i + rs.length = rules.length) (h : lastDotIdx.go rules i rs = some j) : j < rules.length := by
  induction rs generalizing i with
  | nil => simp [lastDotIdx.go] at h
  | cons r rs ih =>
    simp only [lastDotIdx.go] at h
    split at h
    · cases h
    · split at h
      · simp at h hlen; omega
      · simp at hlen
        exact ih (i + 1) (by omega) h

theorem lastDotIdx_lt {rules : List Str} {j : Nat} (h : lastDotIdx rules = some j) :
    j < rules.length := by
  unfold lastDotIdx at h
  exact lastDotIdx_go_lt rules _ 0 j (by simp) h

theorem C14_multi (p : ParsedPiece) (h : p.pieces.length = p.rules.length) :
    viewText (multiPieces p) = p.piece := viewText_singles _ _ h

theorem C14_fuzzy (p : ParsedPiece) : viewText (fuzzyPieces p) = p.piece := by
  simp [viewText, fuzzyPieces, single]

theorem C14_mixed (p : ParsedPiece) (h : p.pieces.length = p.rules.length) :
    viewText (mixedPieces p) = p.piece := by
  unfold mixedPieces
  split
  · simp [viewText, ParsedPiece.piece]
  · show viewText (((mix p.pieces p.rules).1.zip (mix p.pieces p.rules).2).map _) = _
    rw [viewText_singles _ _ (mix_length _ _), C13_concat _ _ h]; rfl

theorem C14_lastDot (p : ParsedPiece) (h : p.pieces.length = p.rules.length) :
    viewText (lastDotPieces p) = p.piece := by
  unfold lastDotPieces
  split
  · exact C14_fuzzy p
  · rename_i i hi
    have hlt : i < p.pieces.length := by rw [h]; exact lastDotIdx_lt hi
    split
    · have hl := mix_length (p.pieces.drop (i + 1)) (p.rules.drop (i + 1))
      have hc := C13_concat (p.pieces.drop (i + 1)) (p.rules.drop (i + 1)) (by simp [h])
      cases hm : mix (p.pieces.drop (i + 1)) (p.rules.drop (i + 1)) with
      | mk mp mr =>
        rw [hm] at hl hc
        simp only at hl hc
        dsimp only
        rw [viewText_singles _ _ (by simp [hl]), List.flatten_append, hc]
        have e : p.pieces = p.pieces.take i ++ p.pieces[i] :: p.pieces.drop (i + 1) := by
          rw [← List.drop_eq_getElem_cons hlt, List.take_append_drop]
        have e2 := congrArg List.flatten e
        simp only [ParsedPiece.piece]
        rw [e2, List.flatten_append, List.flatten_cons]
        have e3 : p.pieces.getD i [] = p.pieces[i] := by simp [List.getD_eq_getElem?_getD, hlt]
        simp only [e3, List.flatten_cons, List.flatten_nil, List.append_nil, List.append_assoc]
    · exact C14_fuzzy p

/-- **C14**: for every view class and every parsed piece (as many sub-pieces as rules, as every
parser and view produces them), the concatenated text of the view is the piece. -/
theorem C14_views_keep_text (p : ParsedPiece) (h : p.pieces.length = p.rules.length) :
    viewText (multiPieces p) = p.pieces.flatten ∧ viewText (mixedPieces p) = p.pieces.flatten ∧
      viewText (lastDotPieces p) = p.pieces.flatten ∧ viewText (fuzzyPieces p) = p.pieces.flatten :=
  ⟨C14_multi p h, C14_mixed p h, C14_lastDot p h, C14_fuzzy p⟩

example : lastDotPieces ⟨[c!"a", c!"1", c!"[\\.]", c!"mp", c!"3"], [c!"a-z", c!"0-9", c!"\\.", c!"a-z", c!"0-9"]⟩
    = [single c!"a1" c!"0-9a-z", single c!"[\\.]" c!"\\.", single c!"mp3" c!"0-9a-z"] := by decide

end OsUrl
