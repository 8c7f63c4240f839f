import Verif.Proofs.Length

/-! # C06: `piece_length` is the length of the raw piece -/

namespace OsUrl
open Spec

/-- **C06**: without backslash, `piece_length` of the parsed piece is the raw length; it does not
raise. -/
theorem C06_piece_length (s : Str) (p : ParsedPiece) (hp : parsePiece s = .ok p) (hb : '\\' ∉ s) :
    p.pieceLength = .ok (s.length : Int) := by
  obtain ⟨hk, rfl⟩ := parsePiece_ok hp
  rw [pieceLength_runs hk, extra_zero hk hb]
  simp

/-- **C06**, any string: `piece_length` never raises and every maximal run of backslashes adds one. -/
theorem C06_with_backslash (s : Str) (rs : List (Space × Str)) (hr : Runs s rs) (p : ParsedPiece)
    (hp : parsePiece s = .ok p) :
    p.pieceLength = .ok ((s.length : Int) + (rs.countP (fun r => decide (r.1 = .sign '\\')) : Nat)) := by
  obtain ⟨hk, rfl⟩ := parsePiece_ok hp
  rw [pieceLength_runs hk, runsOf_runs hr]
  congr 2
  clear hr hp hk
  induction rs with
  | nil => rfl
  | cons r rs ih =>
    simp only [List.map_cons, List.sum_cons, ih, List.countP_cons, extra, decide_eq_true_eq]
    split <;> simp <;> omega

/-- **C06**: with a backslash the length is wrong. -/
theorem C06_backslash_wrong :
    (parsePiece c!"a\\b").bind ParsedPiece.pieceLength = .ok 4 := by decide

example : (parsePiece c!"a[[}]9").bind ParsedPiece.pieceLength = .ok 6 := by decide

end OsUrl
