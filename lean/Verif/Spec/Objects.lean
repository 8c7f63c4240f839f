import Verif.Model.Objects

/-! # What the objects stand for -/

namespace OsUrl.Spec

/-- The object at `a` is the parsed piece `p`. -/
def PieceIs (h : Heap) (a : Nat) (p : ParsedPiece) : Prop := (h.pieces[a]?).map (·.val) = some p

/-- The object at `v` is a view of class `cls` of the parsed piece `p`. -/
def ViewIs (h : Heap) (v : Nat) (cls : ViewCls) (p : ParsedPiece) : Prop :=
  ∃ o, h.views[v]? = some o ∧ o.cls = cls ∧ PieceIs h o.pp p

/-- The object at `a` is the pattern with this text. -/
def PatIs (h : Heap) (a : Nat) (s : Str) : Prop := (h.pats[a]?).map (·.str) = some s

/-- The object at `a` is the match pattern `m`. -/
def MatchIs (h : Heap) (a : Nat) (m : MatchPattern) : Prop :=
  (h.pats[a]?).map (fun o => (o.str, o.cls)) = some (m.str, some m.cls) ∧ patternUnits m.str = .ok m.units

/-- The parts of a view, computed from nothing but its class and its parsed piece. -/
def partsOf : ViewCls → ParsedPiece → List ParsedPiece
  | .mixed, p => mixedPieces p
  | .lastDot, p => lastDotPieces p
  | .fuzzy, p => fuzzyPieces p
  | _, p => multiPieces p

/-- What a view is compared by, computed likewise. -/
def keyOf : ViewCls → ParsedPiece → Py ViewKey
  | .piece, p => .ok (.str p.piece)
  | .length, p => p.pieceLength.map .num
  | .fuzzy, p => .ok (.str p.fuzzyRule)
  | cls, p => .ok (.str (viewStr (partsOf cls p)))

/-- The addresses hold these parsed pieces, one each. -/
def PartsAre (h : Heap) : List Nat → List ParsedPiece → Prop
  | [], [] => True
  | a :: l, p :: ps => PieceIs h a p ∧ PartsAre h l ps
  | _, _ => False

/-- An operation that asks existing objects for something other than their parts. -/
def Live (h : Heap) : ObjCmd → Prop
  | .piece a | .fuzzy a | .length a | .hashPiece a => ∃ p, PieceIs h a p
  | .eqPiece a b => (∃ p, PieceIs h a p) ∧ ∃ q, PieceIs h b q
  | .view v | .hashView v => ∃ cls p, ViewIs h v cls p
  | .eqView v w => (∃ cls p, ViewIs h v cls p) ∧ ∃ cls q, ViewIs h w cls q
  | .units a | .patFuzzy a | .unitFuzzy a _ | .cmpKey a => ∃ s, PatIs h a s
  | .less a b => (∃ m, MatchIs h a m) ∧ ∃ m, MatchIs h b m
  | _ => False

/-- One parser for a list of pieces, exceptions caught. -/
def parseEach : ParserObj → List Str → List (Py ParsedPiece)
  | _, [] => []
  | s, x :: xs => (s.parse x).1 :: parseEach (s.parse x).2 xs

/-- No objects. -/
def noObjects : Heap := ⟨[], [], []⟩

end OsUrl.Spec
