import Verif.Proofs.Objects2

/-!
# C86: cached attributes and reused objects make no difference

`ParsedPiece`, the views, `Pattern`, `PatternUnit` and `MatchPattern` keep computed attributes; `PieceParser` is reset and used again.  Whatever is
done with such objects, in whatever order and with whatever exceptions in between, each answer is the one that a computation from the fields set at
construction gives; so the functions used in all other properties describe the objects of the program.
-/

namespace OsUrl
open Spec

/-- Parsed pieces: `piece`, `fuzzy_rule`, `piece_length` after any sequence of operations. -/
theorem C86_pieces (hash : ViewKey → Int) (cs : List ObjCmd) (a : Nat) (p : ParsedPiece) (x : PieceIs (objRun hash cs noObjects) a p) :
    (objStep hash (.piece a) (objRun hash cs noObjects)).1 = .ok (.str p.piece) ∧
    (objStep hash (.fuzzy a) (objRun hash cs noObjects)).1 = .ok (.str p.fuzzyRule) ∧
    (objStep hash (.length a) (objRun hash cs noObjects)).1 = p.pieceLength.map .num := by
  have g := (objRun_step hash cs good_none).good
  obtain ⟨h1, e1, _⟩ := readPiece_ok g.pc x
  obtain ⟨h2, e2, _⟩ := readFuzzy_ok g.pc x
  obtain ⟨h3, e3, _⟩ := readLength_ok g.pc x
  refine ⟨by simp only [objStep]; rw [then_ok e1]; rfl, by simp only [objStep]; rw [then_ok e2]; rfl, ?_⟩
  simp only [objStep]
  cases hl : p.pieceLength with
  | error er => rw [hl] at e3; rw [then_error e3]; rfl
  | ok n => rw [hl] at e3; rw [then_ok e3]; rfl

/-- Views: `parsed_pieces` is a list of objects that hold the right parts, `view` is the right key. -/
theorem C86_views (hash : ViewKey → Int) (cs : List ObjCmd) (v : Nat) (cls : ViewCls) (p : ParsedPiece)
    (x : ViewIs (objRun hash cs noObjects) v cls p) :
    (∃ l, (objStep hash (.parts v) (objRun hash cs noObjects)).1 = .ok (.addrs l) ∧
      PartsAre (objStep hash (.parts v) (objRun hash cs noObjects)).2 l (partsOf cls p)) ∧
    ∃ k, keyOf cls p = .ok k ∧ (objStep hash (.view v) (objRun hash cs noObjects)).1 = .ok (.key k) := by
  have g := (objRun_step hash cs good_none).good
  obtain ⟨l, h1, e1, s1, ps, _⟩ := readParts_ok g x
  obtain ⟨k, h2, e2, hk, _⟩ := readView_ok g x
  refine ⟨⟨l, ?_, ?_⟩, k, hk, ?_⟩
  · simp only [objStep]; rw [then_ok e1]; rfl
  · simp only [objStep]; rw [then_ok e1]; exact ps
  · simp only [objStep]; rw [then_ok e2]; rfl

/-- Patterns: `pattern_units`, `fuzzy_rule`, the `fuzzy_rule` of a unit. -/
theorem C86_patterns (hash : ViewKey → Int) (cs : List ObjCmd) (a : Nat) (s : Str) (x : PatIs (objRun hash cs noObjects) a s) :
    (objStep hash (.units a) (objRun hash cs noObjects)).1 = (patternUnits s).map .units ∧
    (objStep hash (.patFuzzy a) (objRun hash cs noObjects)).1 = (patternUnits s).map (fun us => .str (unitsFuzzyRule us)) ∧
    ∀ i us, patternUnits s = .ok us →
      (∀ u, us[i]? = some u → (objStep hash (.unitFuzzy a i) (objRun hash cs noObjects)).1 = .ok (.str (joinSorted u.rules))) := by
  have g := (objRun_step hash cs good_none).good
  obtain ⟨h1, e1, _⟩ := readUnits_ok g x
  obtain ⟨h2, e2, _⟩ := readPatFuzzy_ok g x
  refine ⟨?_, ?_, ?_⟩
  · simp only [objStep]
    cases hu : patternUnits s with
    | error er => rw [hu] at e1; rw [then_error e1]; rfl
    | ok us => rw [hu] at e1; rw [then_ok e1]; rfl
  · simp only [objStep]
    cases hu : patternUnits s with
    | error er => rw [hu] at e2; rw [then_error e2]; rfl
    | ok us => rw [hu] at e2; rw [then_ok e2]; rfl
  · intro i us hu u hi
    obtain ⟨h3, e3, _⟩ := readUnitFuzzy_ok (i := i) g x
    rw [hu] at e3
    have e3 : readUnitFuzzy a i (objRun hash cs noObjects) = (match us[i]? with
        | none => .error .indexError
        | some u => .ok (joinSorted u.rules), h3) := e3
    rw [hi] at e3
    simp only [objStep]
    rw [then_ok e3]; rfl

/-- Match patterns: `cmp_key` and `<`. -/
theorem C86_match (hash : ViewKey → Int) (cs : List ObjCmd) (a b : Nat) (m n : MatchPattern) (x : MatchIs (objRun hash cs noObjects) a m)
    (y : MatchIs (objRun hash cs noObjects) b n) :
    (objStep hash (.cmpKey a) (objRun hash cs noObjects)).1 = m.cmpKey.map .str ∧
    (objStep hash (.less a b) (objRun hash cs noObjects)).1 = (m.lt n).map .bool := by
  have g := (objRun_step hash cs good_none).good
  obtain ⟨h1, e1, _⟩ := readCmp_ok g x.patIs m.cls
  rw [x.2] at e1
  have e1 : readCmp a (objRun hash cs noObjects) = (m.cmpKey, h1) := e1
  obtain ⟨h2, e2, _⟩ := patLess_ok g x y
  constructor
  · simp only [objStep]
    cases hk : m.cmpKey with
    | error er => rw [hk] at e1; rw [then_error e1]; rfl
    | ok us => rw [hk] at e1; rw [then_ok e1]; rfl
  · simp only [objStep]
    cases hk : m.lt n with
    | error er => rw [hk] at e2; rw [then_error e2]; rfl
    | ok us => rw [hk] at e2; rw [then_ok e2]; rfl

/-- An object made has the value it was made with.  Making a view raises exactly if its key can not be computed, making a match pattern exactly if
its units can not be read; then there is no object. -/
theorem C86_new (hash : ViewKey → Int) (cs : List ObjCmd) :
    (∀ p, ∃ a, (objStep hash (.newPiece p) (objRun hash cs noObjects)).1 = .ok (.addr a) ∧
      PieceIs (objStep hash (.newPiece p) (objRun hash cs noObjects)).2 a p) ∧
    (∀ cls a p, PieceIs (objRun hash cs noObjects) a p → match keyOf cls p with
      | .ok _ => ∃ v, (objStep hash (.newView cls a) (objRun hash cs noObjects)).1 = .ok (.addr v) ∧
          ViewIs (objStep hash (.newView cls a) (objRun hash cs noObjects)).2 v cls p
      | .error e => (objStep hash (.newView cls a) (objRun hash cs noObjects)).1 = .error e) ∧
    (∀ s, ∃ a, (objStep hash (.newPattern s) (objRun hash cs noObjects)).1 = .ok (.addr a) ∧
      PatIs (objStep hash (.newPattern s) (objRun hash cs noObjects)).2 a s) ∧
    ∀ s last, match mkMatchPattern s last with
      | .ok m => ∃ a, (objStep hash (.newMatchPattern s last) (objRun hash cs noObjects)).1 = .ok (.addr a) ∧
          MatchIs (objStep hash (.newMatchPattern s last) (objRun hash cs noObjects)).2 a m
      | .error e => (objStep hash (.newMatchPattern s last) (objRun hash cs noObjects)).1 = .error e := by
  have g := (objRun_step hash cs good_none).good
  refine ⟨?_, ?_, ?_, ?_⟩
  · intro p
    exact ⟨_, rfl, (newPiece_ok p _).2.2⟩
  · intro cls a p x
    rcases newView_ok (cls := cls) g x with ⟨k, hk, h', e, _, w⟩ | ⟨er, hk, h', e, _⟩
    · rw [hk]
      refine ⟨_, by simp only [objStep]; rw [then_ok e]; rfl, ?_⟩
      simp only [objStep]
      rw [then_ok e]; exact w
    · rw [hk]
      show (objStep hash (.newView cls a) _).1 = _
      simp only [objStep]
      rw [then_error e]
  · intro s
    obtain ⟨h', e, _, w⟩ := newPattern_ok _ g s
    refine ⟨_, by simp only [objStep]; rw [then_ok e]; rfl, ?_⟩
    simp only [objStep]
    rw [then_ok e]; exact w
  · intro s last
    rcases newMatchPattern_ok _ g s last with ⟨m, hm, h', e, _, w⟩ | ⟨er, hm, e⟩
    · rw [hm]
      refine ⟨_, by simp only [objStep]; rw [then_ok e]; rfl, ?_⟩
      simp only [objStep]
      rw [then_ok e]; exact w
    · rw [hm]
      show (objStep hash (.newMatchPattern s last) _).1 = _
      simp only [objStep]
      rw [then_error e]

/-- No operation changes the value of an object. -/
theorem C86_stay (hash : ViewKey → Int) (cs cs' : List ObjCmd) :
    (∀ a p, PieceIs (objRun hash cs noObjects) a p → PieceIs (objRun hash cs' (objRun hash cs noObjects)) a p) ∧
    (∀ v cls p, ViewIs (objRun hash cs noObjects) v cls p → ViewIs (objRun hash cs' (objRun hash cs noObjects)) v cls p) ∧
    (∀ a s, PatIs (objRun hash cs noObjects) a s → PatIs (objRun hash cs' (objRun hash cs noObjects)) a s) ∧
    ∀ a m, MatchIs (objRun hash cs noObjects) a m → MatchIs (objRun hash cs' (objRun hash cs noObjects)) a m := by
  have s := objRun_step hash cs' (objRun_step hash cs good_none).good
  exact ⟨s.keep, fun _ _ _ x => s.viewIs x, fun _ _ x => s.patIs x, fun _ _ x => s.matchIs x⟩

theorem objStep_parts {hash : ViewKey → Int} {h : Heap} {v : Nat} {l : List Nat} (e : (objStep hash (.parts v) h).1 = .ok (.addrs l)) :
    ∃ h', readParts v h = (.ok l, h') ∧ (objStep hash (.parts v) h).2 = h' := by
  simp only [objStep, HM.then] at e ⊢
  cases q : readParts v h with
  | mk r h' =>
    rw [q] at e
    cases r with
    | error er => cases e
    | ok l' =>
      have : l' = l := by
        have : (Except.ok (ObjAns.addrs l') : Py ObjAns) = .ok (.addrs l) := e
        injection this with this
        injection this
      subst this
      exact ⟨h', rfl, rfl⟩

/-- The parts of a view, once there are some, are the same objects ever after. -/
theorem C86_same (hash : ViewKey → Int) (cs cs' : List ObjCmd) (v x : Nat) (l : List Nat)
    (e : (objStep hash (.parts v) (objRun hash cs noObjects)).1 = .ok (.addrs (x :: l))) :
    (objStep hash (.parts v) (objRun hash cs' (objStep hash (.parts v) (objRun hash cs noObjects)).2)).1 = .ok (.addrs (x :: l)) := by
  have g := (objRun_step hash cs good_none).good
  obtain ⟨h', e1, e2⟩ := objStep_parts e
  rw [e2]
  cases ev : (objRun hash cs noObjects).views[v]? with
  | none => unfold readParts at e1; rw [ev] at e1; cases e1
  | some o =>
    obtain ⟨p, w⟩ := RightViews.is g ev
    obtain ⟨l2, h2, f1, s1, _, o2, f2, f3⟩ := readParts_ok g w
    rw [f1] at e1
    injection e1 with e1 e1'
    injection e1 with e1
    subst e1 e1'
    obtain ⟨o3, q1, _, _, q2⟩ := (objRun_step hash cs' s1.good).views v o2 f2
    have q3 := q2 x l f3
    simp only [objStep]
    rw [then_ok (a := x :: l) (h' := objRun hash cs' h2)]
    · rfl
    · unfold readParts
      rw [q1]; dsimp only
      rw [q3]

/-- Equality is equality of the texts, or of the keys; equal objects have the same hash. -/
theorem C86_equal (hash : ViewKey → Int) (cs : List ObjCmd) :
    (∀ a b p q, PieceIs (objRun hash cs noObjects) a p → PieceIs (objRun hash cs noObjects) b q →
      (objStep hash (.eqPiece a b) (objRun hash cs noObjects)).1 = .ok (.bool (decide (p.piece = q.piece))) ∧
      (objStep hash (.hashPiece a) (objRun hash cs noObjects)).1 = .ok (.num (hash (.str p.piece))) ∧
      (p.piece = q.piece → (objStep hash (.hashPiece a) (objRun hash cs noObjects)).1 = (objStep hash (.hashPiece b) (objRun hash cs noObjects)).1)) ∧
    ∀ v w c d p q, ViewIs (objRun hash cs noObjects) v c p → ViewIs (objRun hash cs noObjects) w d q →
      ∃ k k', keyOf c p = .ok k ∧ keyOf d q = .ok k' ∧
        (objStep hash (.eqView v w) (objRun hash cs noObjects)).1 = .ok (.bool (decide (k = k'))) ∧
        (objStep hash (.hashView v) (objRun hash cs noObjects)).1 = .ok (.num (hash k)) ∧
        (k = k' → (objStep hash (.hashView v) (objRun hash cs noObjects)).1 = (objStep hash (.hashView w) (objRun hash cs noObjects)).1) := by
  have g := (objRun_step hash cs good_none).good
  constructor
  · intro a b p q x y
    obtain ⟨h1, e1, g1⟩ := readPiece_ok g.pc x
    obtain ⟨h2, e2, _⟩ := readPiece_ok (g1.good g.pc) (g1.keep _ _ y)
    obtain ⟨h3, e3, _⟩ := readPiece_ok g.pc y
    have f1 : (objStep hash (.hashPiece a) (objRun hash cs noObjects)).1 = .ok (.num (hash (.str p.piece))) := by
      simp only [objStep]; rw [then_ok e1]; rfl
    refine ⟨by simp only [objStep]; rw [then_ok e1, then_ok e2]; rfl, f1, ?_⟩
    intro h
    rw [f1]
    simp only [objStep]; rw [then_ok e3, h]; rfl
  · intro v w c d p q x y
    obtain ⟨k, h1, e1, k1, s1⟩ := readView_ok g x
    obtain ⟨k', h2, e2, k2, _⟩ := readView_ok s1.good (s1.viewIs y)
    obtain ⟨k'', h3, e3, k3, _⟩ := readView_ok g y
    have : k' = k'' := by rw [k2] at k3; exact Except.ok.inj k3
    subst this
    have f1 : (objStep hash (.hashView v) (objRun hash cs noObjects)).1 = .ok (.num (hash k)) := by
      simp only [objStep]; rw [then_ok e1]; rfl
    refine ⟨k, k', k1, k2, by simp only [objStep]; rw [then_ok e1, then_ok e2]; rfl, f1, ?_⟩
    intro h
    rw [f1]
    simp only [objStep]; rw [then_ok e3, h]; rfl

theorem live_ans (hash : ViewKey → Int) (c : ObjCmd) {h h' : Heap} (g : Right h) (s : Step h h') (l : Live h c) :
    (objStep hash c h').1 = (objStep hash c h).1 := by
  have g' := s.good
  have pieceEq : ∀ {α : Type} (a : Nat) (p : ParsedPiece) (f : Str → α), PieceIs h a p →
      ((readPiece a).then (fun t => HM.val (f t)) h').1 = ((readPiece a).then (fun t => HM.val (f t)) h).1 := by
    intro α a p f x
    obtain ⟨_, e1, _⟩ := readPiece_ok g.pc x
    obtain ⟨_, e2, _⟩ := readPiece_ok g'.pc (s.keep _ _ x)
    rw [then_ok e1, then_ok e2]; rfl
  have viewEq : ∀ {α : Type} (v : Nat) (cls : ViewCls) (p : ParsedPiece) (f : ViewKey → α), ViewIs h v cls p →
      ((readView v).then (fun t => HM.val (f t)) h').1 = ((readView v).then (fun t => HM.val (f t)) h).1 := by
    intro α v cls p f x
    obtain ⟨k, _, e1, k1, _⟩ := readView_ok g x
    obtain ⟨k', _, e2, k2, _⟩ := readView_ok g' (s.viewIs x)
    rw [k1] at k2
    rw [then_ok e1, then_ok e2, Except.ok.inj k2]; rfl
  have strEq : ∀ {α β : Type} {x : HM α} {r : Py α} {t t' : Heap} (f : α → β), x h = (r, t) → x h' = (r, t') →
      (x.then (fun b => HM.val (f b)) h').1 = (x.then (fun b => HM.val (f b)) h).1 := by
    intro α β x r t t' f e1 e2
    cases r with
    | error er => rw [then_error e1, then_error e2]
    | ok a => rw [then_ok e1, then_ok e2]; rfl
  cases c with
  | piece a => obtain ⟨p, x⟩ := l; exact pieceEq a p _ x
  | hashPiece a => obtain ⟨p, x⟩ := l; exact pieceEq a p _ x
  | fuzzy a =>
    obtain ⟨p, x⟩ := l
    obtain ⟨_, e1, _⟩ := readFuzzy_ok g.pc x
    obtain ⟨_, e2, _⟩ := readFuzzy_ok g'.pc (s.keep _ _ x)
    exact strEq _ e1 e2
  | length a =>
    obtain ⟨p, x⟩ := l
    obtain ⟨_, e1, _⟩ := readLength_ok g.pc x
    obtain ⟨_, e2, _⟩ := readLength_ok g'.pc (s.keep _ _ x)
    exact strEq _ e1 e2
  | view v => obtain ⟨cls, p, x⟩ := l; exact viewEq v cls p _ x
  | hashView v => obtain ⟨cls, p, x⟩ := l; exact viewEq v cls p _ x
  | eqPiece a b =>
    obtain ⟨⟨p, x⟩, q, y⟩ := l
    obtain ⟨h1, e1, g1⟩ := readPiece_ok g.pc x
    obtain ⟨_, e2, _⟩ := readPiece_ok (g1.good g.pc) (g1.keep _ _ y)
    obtain ⟨h2, e3, g2⟩ := readPiece_ok g'.pc (s.keep _ _ x)
    obtain ⟨_, e4, _⟩ := readPiece_ok (g2.good g'.pc) (g2.keep _ _ (s.keep _ _ y))
    simp only [objStep]
    rw [then_ok e1, then_ok e2, then_ok e3, then_ok e4]; rfl
  | eqView v w =>
    obtain ⟨⟨cls, p, x⟩, cls', q, y⟩ := l
    obtain ⟨k1, h1, e1, f1, s1⟩ := readView_ok g x
    obtain ⟨k2, _, e2, f2, _⟩ := readView_ok s1.good (s1.viewIs y)
    obtain ⟨k3, h2, e3, f3, s2⟩ := readView_ok g' (s.viewIs x)
    obtain ⟨k4, _, e4, f4, _⟩ := readView_ok s2.good (s2.viewIs (s.viewIs y))
    rw [f1] at f3
    rw [f2] at f4
    simp only [objStep]
    rw [then_ok e1, then_ok e2, then_ok e3, then_ok e4, Except.ok.inj f3, Except.ok.inj f4]; rfl
  | units a =>
    obtain ⟨t, x⟩ := l
    obtain ⟨_, e1, _⟩ := readUnits_ok g x
    obtain ⟨_, e2, _⟩ := readUnits_ok g' (s.patIs x)
    exact strEq _ e1 e2
  | patFuzzy a =>
    obtain ⟨t, x⟩ := l
    obtain ⟨_, e1, _⟩ := readPatFuzzy_ok g x
    obtain ⟨_, e2, _⟩ := readPatFuzzy_ok g' (s.patIs x)
    exact strEq _ e1 e2
  | unitFuzzy a i =>
    obtain ⟨t, x⟩ := l
    obtain ⟨_, e1, _⟩ := readUnitFuzzy_ok (i := i) g x
    obtain ⟨_, e2, _⟩ := readUnitFuzzy_ok (i := i) g' (s.patIs x)
    exact strEq _ e1 e2
  | cmpKey a =>
    obtain ⟨t, x⟩ := l
    obtain ⟨_, e1, _⟩ := readCmp_ok g x .piece
    obtain ⟨_, e2, _⟩ := readCmp_ok g' (s.patIs x) .piece
    exact strEq _ e1 e2
  | less a b =>
    obtain ⟨⟨m, x⟩, n, y⟩ := l
    obtain ⟨_, e1, _⟩ := patLess_ok g x y
    obtain ⟨_, e2, _⟩ := patLess_ok g' (s.matchIs x) (s.matchIs y)
    exact strEq _ e1 e2
  | newPiece p => exact l.elim
  | newView cls a => exact l.elim
  | parts v => exact l.elim
  | newPattern p => exact l.elim
  | newMatchPattern p b => exact l.elim

/-- What happened before a question to existing objects does not change the answer. -/
theorem C86_invisible (hash : ViewKey → Int) (cs cs' : List ObjCmd) (c : ObjCmd) (l : Live (objRun hash cs noObjects) c) :
    (objStep hash c (objRun hash cs' (objRun hash cs noObjects))).1 = (objStep hash c (objRun hash cs noObjects)).1 :=
  live_ans hash c (objRun_step hash cs good_none).good (objRun_step hash cs' (objRun_step hash cs good_none).good) l

/-- One parser object gives for a sequence of pieces what a new one gives for each, also after a piece with a character that is not allowed. -/
theorem C86_parser : ∀ (xs : List Str) (s : ParserObj), parseEach s xs = xs.map parsePiece
  | [], _ => rfl
  | x :: xs, s => by
    show (s.parse x).1 :: parseEach (s.parse x).2 xs = _
    rw [parse_obj, C86_parser xs]; rfl

/-- A hash for the examples. -/
def keyHash : ViewKey → Int
  | .str s => s.length
  | .num n => n

/-- The answers of a sequence of operations. -/
def objAnswers : List ObjCmd → Heap → List (Py ObjAns)
  | [], _ => []
  | c :: cs, h => (objStep keyHash c h).1 :: objAnswers cs (objStep keyHash c h).2

/-- `ab1.c`: the parts of a multi view are new objects 1 to 4, the same ones when asked again, and can be asked themselves; of a mixed view 5 to 7. -/
example : objAnswers [.newPiece ⟨[c!"ab", c!"1", c!"[\\.]", c!"c"], [c!"a-z", c!"0-9", c!"\\.", c!"a-z"]⟩, .newView .multi 0, .parts 0, .view 0, .parts 0,
    .newView .mixed 0, .parts 1, .piece 5, .fuzzy 5, .length 0, .length 0, .newView .length 0, .view 2, .newView .fuzzy 0, .parts 3, .fuzzy 8] noObjects =
  [.ok (.addr 0), .ok (.addr 0), .ok (.addrs [1, 2, 3, 4]), .ok (.key (.str c!"a-z/0-9/\\./a-z")), .ok (.addrs [1, 2, 3, 4]),
    .ok (.addr 1), .ok (.addrs [5, 6, 7]), .ok (.str c!"ab1"), .ok (.str c!"0-9a-z"), .ok (.num 5), .ok (.num 5), .ok (.addr 2), .ok (.key (.num 5)),
    .ok (.addr 3), .ok (.addrs [8]), .ok (.str c!"0-9\\.a-z")] := by decide +kernel

/-- The empty piece has no parts, and the mixed view of a piece of one part has this very piece as its part. -/
example : objAnswers [.newPiece emptyParsedPiece, .newView .multi 0, .parts 0, .newView .mixed 0, .parts 1, .newView .lastDot 0, .parts 2, .fuzzy 1, .eqPiece 0 1]
    noObjects = [.ok (.addr 0), .ok (.addr 0), .ok (.addrs []), .ok (.addr 1), .ok (.addrs [0]), .ok (.addr 2), .ok (.addrs [1]), .ok (.str []),
      .ok (.bool true)] := by decide +kernel

/-- A length can be negative, and is then computed each time; a length that can not be computed leaves no view. -/
example : objAnswers [.newPiece ⟨[c!"[]{0}"], [c!"\\["]⟩, .length 0, .newView .length 0, .length 0, .view 0, .newPiece ⟨[c!"\\"], [c!"\\\\"]⟩, .newView .length 1,
    .piece 1, .newView .piece 1, .view 1] noObjects = [.ok (.addr 0), .ok (.num (-1)), .ok (.addr 0), .ok (.num (-1)), .ok (.key (.num (-1))),
      .ok (.addr 1), .error .indexError, .ok (.str c!"\\"), .ok (.addr 1), .ok (.key (.str c!"\\"))] := by decide +kernel

/-- Match patterns. -/
example : objAnswers [.newMatchPattern c!"[a-z]+[0-9]{2}" false, .cmpKey 0, .newMatchPattern c!"a[0-9]+" false, .less 0 1, .less 1 0, .patFuzzy 0, .unitFuzzy 0 1,
    .cmpKey 0] noObjects = [.ok (.addr 0), .ok (.str c!"45"), .ok (.addr 1), .ok (.bool false), .ok (.bool true), .ok (.str c!"0-9a-z"), .ok (.str c!"0-9"),
      .ok (.str c!"45")] := by decide +kernel

/-- A parser after an exception has something left, and is used again. -/
example : ((ParserObj.mk [] []).parse c!"ab1 c").2 = ⟨[c!"a-z", c!"0-9"], [c!"ab", c!"1"]⟩ ∧
    parseEach ⟨[], []⟩ [c!"ab1 c", c!"c--"] = [.error .invalidChar, .ok ⟨[c!"c", c!"[\\-]{2}"], [c!"a-z", c!"\\-"]⟩] := by decide +kernel

end OsUrl
