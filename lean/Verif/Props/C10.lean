import Verif.Proofs.Shape

/-! # C10: `pack` and `analyze_url_pattern_string` are inverse on URL structures -/

namespace OsUrl
open Spec

/-- The text `t` can stand for the piece `p` in a pattern: it is empty exactly when `p` is, and
consists of characters of `p`, letters, digits and the characters `[ ] { } + \ -` of classes and
quantifiers. -/
def PatternShape (p t : Str) : Prop :=
  (t = [] ↔ p = []) ∧
  ∀ c ∈ t, c ∈ p ∨ (∃ sp, space? c = some sp ∧ sp.isSign = false) ∨ c ∈ ['[', ']', '{', '}', '+', '\\', '-']

theorem shapeOf_iff {p t : Str} : ShapeOf p t ↔ PatternShape p t := by
  unfold ShapeOf PatternShape ruleChar
  simp only [Bool.or_eq_true, isAlnumC_iff, decide_eq_true_eq]

/-- **C10**: packing any patterns of the pieces of an accepted URL and analysing the result gives back
the same `URLMeta` and patterns. -/
theorem C10_roundtrip (url : Str) (m : URLMeta) (pieces pats : List Str)
    (h : analyzeUrl url = .ok (m, pieces)) (hl : pats.length = pieces.length)
    (hs : ∀ x ∈ pieces.zip pats, PatternShape x.1 x.2) :
    analyzeUrlPatternString (pack m pats) = .ok (m, pats) := by
  obtain ⟨ps, vs, fs, rfl, hst⟩ := analyzeUrl_struct h
  obtain ⟨ps', vs', fs', rfl, hst'⟩ := hst.shape ⟨hl, fun x hx => shapeOf_iff.mpr (hs x hx)⟩
  exact analyzePattern_pack hst'

/-- **C10** for the URL's own normalised pieces. -/
theorem C10_pieces (url : Str) (m : URLMeta) (pieces : List Str) (pps : List ParsedPiece)
    (h : analyzeUrl url = .ok (m, pieces)) (hp : pieces.mapM parsePiece = .ok pps) :
    analyzeUrlPatternString (pack m (pps.map (·.piece))) = .ok (m, pps.map (·.piece)) := by
  obtain ⟨hl, hz⟩ := mapM_shape hp (fun pp => pp.piece) (fun h => piece_shape h)
  exact C10_roundtrip url m pieces _ h hl (fun x hx => shapeOf_iff.mp (hz x hx))

/-- **C10** for classes: every piece replaced by its fuzzy rule with any quantifier (empty pieces stay
empty). -/
theorem C10_fuzzy (url : Str) (m : URLMeta) (pieces : List Str) (pps : List ParsedPiece) (n : Int) (hn : n ≠ 0)
    (h : analyzeUrl url = .ok (m, pieces)) (hp : pieces.mapM parsePiece = .ok pps)
    (f : ParsedPiece → Str) (hf : ∀ pp, f pp = if pp.piece = [] then [] else specStr pp.fuzzyRule n) :
    analyzeUrlPatternString (pack m (pps.map f)) = .ok (m, pps.map f) := by
  obtain ⟨hl, hz⟩ := mapM_shape hp f (fun h => by rw [hf]; exact fuzzy_shape h hn)
  exact C10_roundtrip url m pieces _ h hl (fun x hx => shapeOf_iff.mp (hz x hx))

example : analyzeUrl c!"http://h/a-b//c?k=1&z#f?" =
    .ok (⟨2, [c!"k=", c!"z"], true⟩, [c!"a-b", c!"c", c!"1", [], c!"f?"]) := by decide +kernel
example : pack ⟨2, [c!"k=", c!"z"], true⟩ [c!"[\\-a-z]{3}", c!"c", c!"[0-9]+", [], c!"f[\\?]"] =
    c!"/[\\-a-z]{3}/c[\\?]k=[0-9]+&z#f[\\?]" := by decide +kernel
example : analyzeUrlPatternString c!"/[\\-a-z]{3}/c[\\?]k=[0-9]+&z#f[\\?]" =
    .ok (⟨2, [c!"k=", c!"z"], true⟩, [c!"[\\-a-z]{3}", c!"c", c!"[0-9]+", [], c!"f[\\?]"]) := by decide +kernel

end OsUrl
