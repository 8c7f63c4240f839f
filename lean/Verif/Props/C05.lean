import Verif.Proofs.Runs

/-! # C05: `PieceParser.parse` is total, rejects exactly unknown characters, splits into maximal runs -/

namespace OsUrl
open Spec

/-- **C05**: `InvalidCharException` exactly when a character is not in the table, otherwise success. -/
theorem C05_rejects (s : Str) :
    ((∃ c ∈ s, ¬ Known c) → parsePiece s = .error .invalidChar) ∧
    ((∀ c ∈ s, Known c) → ∃ p, parsePiece s = .ok p) := by
  rw [parsePiece_eq]
  constructor
  · rintro ⟨c, h1, h2⟩
    rw [if_neg (fun h => h2 (h c h1))]
  · intro h; rw [if_pos h]; exact ⟨_, rfl⟩

/-- **C05**: every string of known characters has exactly one decomposition into maximal runs. -/
theorem C05_runs_exist (s : Str) (h : ∀ c ∈ s, Known c) :
    ∃ rs, Runs s rs ∧ ∀ rs', Runs s rs' → rs' = rs :=
  ⟨_, runsOf_spec h, fun _ h' => runs_unique h' (runsOf_spec h)⟩

/-- **C05**: the parse result is the list of runs, letters and digits verbatim and signs as
`[sign]{n}`, with the space of each run as its rule. -/
theorem C05_runs (s : Str) (rs : List (Space × Str)) (h : Runs s rs) :
    parsePiece s = .ok ⟨rs.map runText, rs.map (fun r => r.1.text)⟩ := by
  rw [parsePiece_eq, if_pos h.known, runsOf_runs h]; rfl

example : parsePiece c!"ab12--X" =
    .ok ⟨[c!"ab", c!"12", c!"[\\-]{2}", c!"X"], [c!"a-z", c!"0-9", c!"\\-", c!"A-Z"]⟩ := by decide
example : Runs c!"ab12--X"
    [(.lower, c!"ab"), (.digit, c!"12"), (.sign '-', c!"--"), (.upper, c!"X")] :=
  have h : runsOf c!"ab12--X" = [(.lower, c!"ab"), (.digit, c!"12"), (.sign '-', c!"--"), (.upper, c!"X")] := by decide
  h ▸ runsOf_spec (by decide)
example : parsePiece c!"a b" = .error .invalidChar := by decide

end OsUrl
