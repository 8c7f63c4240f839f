import Verif.Model.Matcher

/-!
# Objects with cached attributes

Elsewhere `fuzzy_rule`, `piece_length`, `view`, `parsed_pieces`, `pattern_units`, `cmp_key` are functions of the fields that are set when an
object is made.  In the program they are properties that keep what they have computed in the object, and objects are shared.  Here are the objects
themselves, on a heap; an exception leaves the heap as it is at this moment.  Also the parser object, which is reset and reused.
-/

namespace OsUrl

/-- A `ParsedPiece` object, parse_utils.py:405-426: the two tuples and `_piece`, `_piece_length`, `_fuzzy_rule`. -/
structure PieceObj where
  val : ParsedPiece
  cPiece : Option Str
  cLen : Int
  cFuzzy : Option Str
  deriving DecidableEq, Repr

/-- `ParsedPiece.__init__`, parse_utils.py:415-426 -/
def PieceObj.new (p : ParsedPiece) : PieceObj where
  val := p
  cPiece := match p.pieces with
    | [x] => some x
    | _ => none
  cLen := -1
  cFuzzy := match p.rules with
    | [r] => some r
    | _ => none

/-- What `view` of a view object can be: a string, or a number for `LengthView`, parsed_piece_view.py:55-59. -/
inductive ViewKey where
  | str (s : Str)
  | num (n : Int)
  deriving DecidableEq, Repr

/-- A `ParsedPieceView` object, parsed_piece_view.py:11-23: its class, the parsed piece it refers to, `_parsed_pieces` and `_view`. -/
structure ViewObj where
  cls : ViewCls
  pp : Nat
  cParts : Option (List Nat)
  cView : Option ViewKey
  deriving DecidableEq, Repr

/-- A `Pattern` or, with a view class, `MatchPattern` object, pattern.py:55-65 and pattern_matcher.py:17-29; each unit has its `_fuzzy_rule`
(pattern.py:13-19).  `_pattern_regex` is left out: nothing but `Pattern.match` uses it. -/
structure PatObj where
  str : Str
  cls : Option ViewCls
  cUnits : Option (List (PatternUnit × Option Str))
  cFuzzy : Option Str
  cCmp : Option Str
  deriving DecidableEq, Repr

/-- The objects there are; an address is a position. -/
structure Heap where
  pieces : List PieceObj
  views : List ViewObj
  pats : List PatObj
  deriving DecidableEq, Repr

/-- A computation on objects: a value or an exception, and the heap afterwards. -/
abbrev HM (α : Type) := Heap → Py α × Heap

/-- One computation after another; an exception ends it. -/
def HM.then {α β : Type} (x : HM α) (f : α → HM β) : HM β := fun h =>
  match x h with
  | (.ok a, h') => f a h'
  | (.error e, h') => (.error e, h')

/-- A value without further effect. -/
def HM.val {α : Type} (a : α) : HM α := fun h => (.ok a, h)

/-- One computation for every element. -/
def HM.each {α β : Type} (f : α → HM β) : List α → HM (List β)
  | [] => HM.val []
  | a :: l => (f a).then (fun b => (HM.each f l).then (fun bs => HM.val (b :: bs)))

/-- Replace a piece object. -/
def Heap.setPiece (h : Heap) (a : Nat) (o : PieceObj) : Heap := { h with pieces := h.pieces.set a o }
/-- Replace a view object. -/
def Heap.setView (h : Heap) (v : Nat) (o : ViewObj) : Heap := { h with views := h.views.set v o }
/-- Replace a pattern object. -/
def Heap.setPat (h : Heap) (a : Nat) (o : PatObj) : Heap := { h with pats := h.pats.set a o }

/-- `ParsedPiece(pieces, rules)`: a new object. -/
def newPiece (p : ParsedPiece) : HM Nat := fun h =>
  (.ok h.pieces.length, { h with pieces := h.pieces ++ [PieceObj.new p] })

/-- The property `ParsedPiece.piece`, parse_utils.py:477-481. -/
def readPiece (a : Nat) : HM Str := fun h =>
  match h.pieces[a]? with
  | none => (.error .attributeError, h)
  | some o => match o.cPiece with
    | some s => (.ok s, h)
    | none =>
      let s := o.val.pieces.flatten
      (.ok s, h.setPiece a { o with cPiece := some s })

/-- The property `ParsedPiece.fuzzy_rule`, parse_utils.py:428-432: computed again while it is empty. -/
def readFuzzy (a : Nat) : HM Str := fun h =>
  match h.pieces[a]? with
  | none => (.error .attributeError, h)
  | some o => match o.cFuzzy with
    | some (c :: s) => (.ok (c :: s), h)
    | _ =>
      let s := joinSorted o.val.rules
      (.ok s, h.setPiece a { o with cFuzzy := some s })

/-- The property `ParsedPiece.piece_length`, parse_utils.py:434-467: computed while it is negative, from the property `piece`. -/
def readLength (a : Nat) : HM Int := fun h =>
  match h.pieces[a]? with
  | none => (.error .attributeError, h)
  | some o =>
    if o.cLen < 0 then
      (readPiece a).then (fun s h' =>
        match pieceLengthLoop s s.length none s s.length, h'.pieces[a]? with
        | .ok n, some o' => (.ok n, h'.setPiece a { o' with cLen := n })
        | .ok _, none => (.error .attributeError, h')
        | .error e, _ => (.error e, h')) h
    else (.ok o.cLen, h)

/-- A view object: `ParsedPieceView.__init__` and those of `PieceView`, `LengthView`, `FuzzyView`, parsed_piece_view.py:20-23, :49-59,
:126-130.  When `piece_length` raises there is no object. -/
def newView (cls : ViewCls) (a : Nat) : HM Nat := fun h =>
  match h.pieces[a]? with
  | none => (.error .attributeError, h)
  | some _ =>
    let made (k : Option ViewKey) : HM Nat := fun h' => (.ok h'.views.length, { h' with views := h'.views ++ [⟨cls, a, none, k⟩] })
    match cls with
    | .piece => (readPiece a).then (fun s => made (some (.str s))) h
    | .length => (readLength a).then (fun n => made (some (.num n))) h
    | .fuzzy => (readFuzzy a).then (fun s => made (some (.str s))) h
    | _ => made none h

/-- Keep `_parsed_pieces`. -/
def keepParts (v : Nat) (l : List Nat) : HM (List Nat) := fun h =>
  match h.views[v]? with
  | none => (.error .attributeError, h)
  | some o => (.ok l, h.setView v { o with cParts := some l })

/-- `[ParsedPiece((piece,), (rule,)) for piece, rule in zip(pieces, rules)]` -/
def newParts (pieces rules : List Str) : HM (List Nat) :=
  HM.each (fun pr : Str × Str => newPiece (single pr.1 pr.2)) (pieces.zip rules)

/-- The one part of `FuzzyView` and of `LastDotSplitFuzzyView` without a dot, parsed_piece_view.py:100-101, :136-137. -/
def newWhole (a : Nat) : HM (List Nat) :=
  (readPiece a).then (fun s => (readFuzzy a).then (fun r => newParts [s] [r]))

/-- The property `parsed_pieces` of the six classes, parsed_piece_view.py:39-46, :69-82, :87-123, :132-138: computed again while the list is
empty.  `MixedView` gives the parsed piece itself when there is nothing to join; `LastDotSplitFuzzyView` first keeps the list for a piece
without a dot and then replaces it. -/
def readParts (v : Nat) : HM (List Nat) := fun h =>
  match h.views[v]? with
  | none => (.error .attributeError, h)
  | some o => match o.cParts with
    | some (x :: xs) => (.ok (x :: xs), h)
    | _ => match h.pieces[o.pp]? with
      | none => (.error .attributeError, h)
      | some po =>
        let p := po.val
        match o.cls with
        | .mixed =>
          if p.rules.length ≤ 1 then keepParts v [o.pp] h
          else (newParts (mix p.pieces p.rules).1 (mix p.pieces p.rules).2).then (keepParts v) h
        | .fuzzy => (newWhole o.pp).then (keepParts v) h
        | .lastDot =>
          ((newWhole o.pp).then (keepParts v)).then (fun whole =>
            match lastDotIdx p.rules with
            | none => HM.val whole
            | some i =>
              if (p.rules.drop (i + 1)).all (fun r => decide (r ∈ digitAsciiRuleSet)) then
                (newParts ([(p.pieces.take i).flatten, p.pieces.getD i []] ++ (mix (p.pieces.drop (i + 1)) (p.rules.drop (i + 1))).1)
                  ([joinSorted (p.rules.take i), p.rules.getD i []] ++ (mix (p.pieces.drop (i + 1)) (p.rules.drop (i + 1))).2)).then (keepParts v)
              else HM.val whole) h
        | _ => (newParts p.pieces p.rules).then (keepParts v) h

/-- Keep `_view`. -/
def keepView (v : Nat) (k : ViewKey) : HM ViewKey := fun h =>
  match h.views[v]? with
  | none => (.error .attributeError, h)
  | some o => (.ok k, h.setView v { o with cView := some k })

/-- The property `view`, parsed_piece_view.py:33-37. -/
def readView (v : Nat) : HM ViewKey := fun h =>
  match h.views[v]? with
  | none => (.error .attributeError, h)
  | some o => match o.cView with
    | some k => (.ok k, h)
    | none => (readParts v).then (fun l => (HM.each readFuzzy l).then (fun rs => keepView v (.str (fuzzyJoin rs)))) h

/-- The property `Pattern.pattern_units`, pattern.py:67-75. -/
def readUnits (a : Nat) : HM (List PatternUnit) := fun h =>
  match h.pats[a]? with
  | none => (.error .attributeError, h)
  | some o => match o.cUnits with
    | some l => (.ok (l.map (·.1)), h)
    | none => match patternUnits o.str with
      | .error e => (.error e, h)
      | .ok us => (.ok us, h.setPat a { o with cUnits := some (us.map (fun u => (u, none))) })

/-- `Pattern(pattern_string)`, pattern.py:61-65. -/
def newPattern (s : Str) : HM Nat := fun h =>
  (.ok h.pats.length, { h with pats := h.pats ++ [⟨s, none, none, none, none⟩] })

/-- `MatchPattern(pattern_string, is_last_path)`, pattern_matcher.py:26-29: `view_cls_from_pattern` reads the units; when they can not be read there
is no object. -/
def newMatchPattern (s : Str) (last : Bool) : HM Nat := fun h =>
  match patternUnits s with
  | .error e => (.error e, h)
  | .ok us => (.ok h.pats.length,
      { h with pats := h.pats ++ [⟨s, some (viewClsFromUnits us last), some (us.map (fun u => (u, none))), none, none⟩] })

/-- The property `Pattern.fuzzy_rule`, pattern.py:94-100. -/
def readPatFuzzy (a : Nat) : HM Str := fun h =>
  match h.pats[a]? with
  | none => (.error .attributeError, h)
  | some o => match o.cFuzzy with
    | some s => (.ok s, h)
    | none => (readUnits a).then (fun us h' => match h'.pats[a]? with
      | none => (.error .attributeError, h')
      | some o' => (.ok (unitsFuzzyRule us), h'.setPat a { o' with cFuzzy := some (unitsFuzzyRule us) })) h

/-- The property `PatternUnit.fuzzy_rule` of unit number `i`, pattern.py:43-47. -/
def readUnitFuzzy (a i : Nat) : HM Str := fun h =>
  (readUnits a).then (fun _ h' => match h'.pats[a]? with
    | none => (.error .attributeError, h')
    | some o => match o.cUnits with
      | none => (.error .attributeError, h')
      | some l => match l[i]? with
        | none => (.error .indexError, h')
        | some (u, some s) => (.ok s, h')
        | some (u, none) => (.ok (joinSorted u.rules), h'.setPat a { o with cUnits := some (l.set i (u, some (joinSorted u.rules))) })) h

/-- The property `MatchPattern.cmp_key`, pattern_matcher.py:31-39: a match pattern for every unit, from the last to the first. -/
def readCmp (a : Nat) : HM Str := fun h =>
  match h.pats[a]? with
  | none => (.error .attributeError, h)
  | some o => match o.cCmp with
    | some s => (.ok s, h)
    | none => (readUnits a).then (fun us h' =>
        match us.reverse.mapM (fun u => mkMatchPattern u.str), h'.pats[a]? with
        | .error e, _ => (.error e, h')
        | .ok _, none => (.error .attributeError, h')
        | .ok l, some o' =>
          let s := (l.map (fun q => natStr (viewOrder q.cls))).flatten
          (.ok s, h'.setPat a { o' with cCmp := some s })) h

/-- Something a program does with these objects. -/
inductive ObjCmd where
  | newPiece (p : ParsedPiece) | piece (a : Nat) | fuzzy (a : Nat) | length (a : Nat)
  | newView (cls : ViewCls) (a : Nat) | parts (v : Nat) | view (v : Nat)
  | newPattern (s : Str) | newMatchPattern (s : Str) (last : Bool)
  | units (a : Nat) | patFuzzy (a : Nat) | unitFuzzy (a i : Nat) | cmpKey (a : Nat)
  | eqPiece (a b : Nat) | eqView (v w : Nat) | hashPiece (a : Nat) | hashView (v : Nat) | less (a b : Nat)
  deriving DecidableEq, Repr

/-- What it gets. -/
inductive ObjAns where
  | addr (a : Nat) | str (s : Str) | num (n : Int) | addrs (l : List Nat) | key (k : ViewKey) | units (us : List PatternUnit) | bool (b : Bool)
  deriving DecidableEq, Repr

/-- `MatchPattern.__lt__`, pattern_matcher.py:44-47. -/
def patLess (a b : Nat) : HM Bool := fun h =>
  match h.pats[a]?, h.pats[b]? with
  | some o, some o' => match o.cls, o'.cls with
    | some c, some c' =>
      if c = c' then (readCmp a).then (fun x => (readCmp b).then (fun y => HM.val (strLt y x))) h
      else (.ok (decide (viewOrder c > viewOrder c')), h)
    | _, _ => (.error .attributeError, h)
  | _, _ => (.error .attributeError, h)

/-- Do it.  Equality and hash: parse_utils.py:469-475 and parsed_piece_view.py:25-31; `hash` is Python's `hash`. -/
def objStep (hash : ViewKey → Int) : ObjCmd → HM ObjAns
  | .newPiece p => (newPiece p).then (fun a => HM.val (.addr a))
  | .piece a => (readPiece a).then (fun s => HM.val (.str s))
  | .fuzzy a => (readFuzzy a).then (fun s => HM.val (.str s))
  | .length a => (readLength a).then (fun n => HM.val (.num n))
  | .newView cls a => (newView cls a).then (fun v => HM.val (.addr v))
  | .parts v => (readParts v).then (fun l => HM.val (.addrs l))
  | .view v => (readView v).then (fun k => HM.val (.key k))
  | .newPattern s => (newPattern s).then (fun a => HM.val (.addr a))
  | .newMatchPattern s last => (newMatchPattern s last).then (fun a => HM.val (.addr a))
  | .units a => (readUnits a).then (fun us => HM.val (.units us))
  | .patFuzzy a => (readPatFuzzy a).then (fun s => HM.val (.str s))
  | .unitFuzzy a i => (readUnitFuzzy a i).then (fun s => HM.val (.str s))
  | .cmpKey a => (readCmp a).then (fun s => HM.val (.str s))
  | .eqPiece a b => (readPiece a).then (fun x => (readPiece b).then (fun y => HM.val (.bool (decide (x = y)))))
  | .eqView v w => (readView v).then (fun x => (readView w).then (fun y => HM.val (.bool (decide (x = y)))))
  | .hashPiece a => (readPiece a).then (fun s => HM.val (.num (hash (.str s))))
  | .hashView v => (readView v).then (fun k => HM.val (.num (hash k)))
  | .less a b => (patLess a b).then (fun x => HM.val (.bool x))

/-- One thing after another, exceptions caught. -/
def objRun (hash : ViewKey → Int) : List ObjCmd → Heap → Heap
  | [], h => h
  | c :: cs, h => objRun hash cs (objStep hash c h).2

/-- A `PieceParser` object, parse_utils.py:492-505: `_rules` and `_pieces`; a buffer is its text. -/
structure ParserObj where
  rules : List Str
  pieces : List Str
  deriving DecidableEq, Repr

/-- `PieceParser._define`, parse_utils.py:533-543, on the object. -/
def ParserObj.define (s : ParserObj) (c : Char) : Py Unit × ParserObj :=
  match charRule c with
  | none => (.error .invalidChar, s)
  | some rule =>
    let s := if s.rules.getLast? ≠ some rule then ⟨s.rules ++ [rule], s.pieces ++ [[]]⟩ else s
    (.ok (), { s with pieces := s.pieces.modify (s.pieces.length - 1) (· ++ [c]) })

/-- The first loop of `_preprocess`, parse_utils.py:525-526. -/
def ParserObj.defineAll (s : ParserObj) : Str → Py Unit × ParserObj
  | [] => (.ok (), s)
  | c :: cs => match s.define c with
    | (.ok _, s') => s'.defineAll cs
    | (.error e, s') => (.error e, s')

/-- The second loop of `_preprocess`, parse_utils.py:527-531: from buffer number `i` on, each is replaced by its text. -/
def ParserObj.normalizeFrom (s : ParserObj) : Nat → Nat → ParserObj
  | 0, _ => s
  | n + 1, i => ParserObj.normalizeFrom { s with pieces := s.pieces.modify i (fun t => parserNormalize t (s.rules.getD i [])) } n (i + 1)

/-- `PieceParser._reset`, parse_utils.py:503-505 -/
def ParserObj.reset (_ : ParserObj) : ParserObj := ⟨[], []⟩

/-- `PieceParser.parse`, parse_utils.py:507-531, :550-551. -/
def ParserObj.parse (s : ParserObj) (piece : Str) : Py ParsedPiece × ParserObj :=
  match s.reset.defineAll piece with
  | (.error e, s) => (.error e, s)
  | (.ok _, s) =>
    let s := s.normalizeFrom s.pieces.length 0
    (.ok ⟨s.pieces, s.rules⟩, s)

end OsUrl
