import Verif.Spec.Objects

/-! # Cached attributes hold what would be computed -/

namespace OsUrl
open Spec

theorem joinSorted_single (t : Str) : joinSorted [t] = t := by simp [joinSorted, sortedSet, insertStr]

/-- What is kept in a parsed piece is right. -/
structure RightPiece (o : PieceObj) : Prop where
  piece : ∀ s, o.cPiece = some s → s = o.val.piece
  fuzzy : ∀ s, o.cFuzzy = some s → s ≠ [] → s = o.val.fuzzyRule
  len : 0 ≤ o.cLen → o.val.pieceLength = .ok o.cLen

/-- What is kept in a view is right. -/
structure RightView (h : Heap) (o : ViewObj) (p : ParsedPiece) : Prop where
  pp : PieceIs h o.pp p
  parts : ∀ l, o.cParts = some l → PartsAre h l (partsOf o.cls p)
  key : ∀ k, o.cView = some k → keyOf o.cls p = .ok k
  made : ∃ k, keyOf o.cls p = .ok k
  eager : o.cView = none → o.cls ≠ .piece ∧ o.cls ≠ .length ∧ o.cls ≠ .fuzzy

/-- What is kept in a pattern is right. -/
structure RightPat (o : PatObj) : Prop where
  units : ∀ l, o.cUnits = some l → patternUnits o.str = .ok (l.map (·.1)) ∧ ∀ x ∈ l, ∀ s, x.2 = some s → s = joinSorted x.1.rules
  fuzzy : ∀ s, o.cFuzzy = some s → ∃ us, patternUnits o.str = .ok us ∧ s = unitsFuzzyRule us
  cmp : ∀ s, o.cCmp = some s → ∃ us, patternUnits o.str = .ok us ∧ ∀ cls, (⟨o.str, us, cls⟩ : MatchPattern).cmpKey = .ok s

def RightPieces (h : Heap) : Prop := ∀ (a : Nat) (o : PieceObj), h.pieces[a]? = some o → RightPiece o
def RightViews (h : Heap) : Prop := ∀ (v : Nat) (o : ViewObj), h.views[v]? = some o → ∃ p, RightView h o p
def RightPats (h : Heap) : Prop := ∀ (a : Nat) (o : PatObj), h.pats[a]? = some o → RightPat o

structure Right (h : Heap) : Prop where
  pc : RightPieces h
  vw : RightViews h
  pt : RightPats h

/-- Parsed pieces stay. -/
def Keeps (h h' : Heap) : Prop := ∀ a p, PieceIs h a p → PieceIs h' a p

/-- A step that only reads and makes parsed pieces. -/
structure Grow (h h' : Heap) : Prop where
  views : h'.views = h.views
  pats : h'.pats = h.pats
  keep : Keeps h h'
  good : RightPieces h → RightPieces h'

theorem Grow.refl (h : Heap) : Grow h h := ⟨rfl, rfl, fun _ _ x => x, fun x => x⟩
theorem Grow.trans {a b c : Heap} (x : Grow a b) (y : Grow b c) : Grow a c :=
  ⟨y.views.trans x.views, y.pats.trans x.pats, fun i p q => y.keep i p (x.keep i p q), fun g => y.good (x.good g)⟩

theorem Spec.PartsAre.keep {h h' : Heap} (k : Keeps h h') : ∀ {l : List Nat} {ps : List ParsedPiece}, PartsAre h l ps → PartsAre h' l ps
  | [], [], _ => trivial
  | _ :: _, _ :: _, ⟨a, b⟩ => ⟨k _ _ a, Spec.PartsAre.keep k b⟩
  | [], _ :: _, x => x.elim
  | _ :: _, [], x => x.elim

theorem Spec.PartsAre.length {h : Heap} : ∀ {l : List Nat} {ps : List ParsedPiece}, PartsAre h l ps → l.length = ps.length
  | [], [], _ => rfl
  | _ :: _, _ :: _, ⟨_, b⟩ => by simp [Spec.PartsAre.length b]
  | [], _ :: _, x => x.elim
  | _ :: _, [], x => x.elim

theorem RightView.keep {h h' : Heap} {o : ViewObj} {p : ParsedPiece} (g : RightView h o p) (k : Keeps h h') : RightView h' o p :=
  ⟨k _ _ g.pp, fun l e => (g.parts l e).keep k, g.key, g.made, g.eager⟩

theorem Right.grow {h h' : Heap} (g : Right h) (x : Grow h h') : Right h' :=
  ⟨x.good g.pc, fun v o e => by
      obtain ⟨p, q⟩ := g.vw v o (by rw [← x.views]; exact e)
      exact ⟨p, q.keep x.keep⟩,
    fun a o e => g.pt a o (by rw [← x.pats]; exact e)⟩

theorem then_ok {α β : Type} {x : HM α} {f : α → HM β} {h h' : Heap} {a : α} (e : x h = (.ok a, h')) : x.then f h = f a h' := by
  unfold HM.then; rw [e]

theorem then_error {α β : Type} {x : HM α} {f : α → HM β} {h h' : Heap} {e : PyErr} (q : x h = (.error e, h')) :
    x.then f h = (.error e, h') := by
  unfold HM.then; rw [q]

theorem Spec.PieceIs.get {h : Heap} {a : Nat} {p : ParsedPiece} (x : PieceIs h a p) : ∃ o, h.pieces[a]? = some o ∧ o.val = p := by
  unfold PieceIs at x
  cases e : h.pieces[a]? with
  | none => rw [e] at x; cases x
  | some o => rw [e] at x; exact ⟨o, rfl, Option.some.inj x⟩

/-- Replacing an object by one with the same value. -/
theorem Grow.set {h : Heap} {a : Nat} {o o' : PieceObj} (e : h.pieces[a]? = some o) (v : o'.val = o.val) (g : RightPiece o → RightPiece o') :
    Grow h (h.setPiece a o') := by
  refine ⟨rfl, rfl, ?_, ?_⟩
  · intro b p x
    obtain ⟨q, h1, h2⟩ := x.get
    show ((h.pieces.set a o')[b]?).map _ = _
    rw [List.getElem?_set]
    by_cases hb : a = b
    · subst hb
      rw [e] at h1
      injection h1 with h1
      subst h1
      have : a < h.pieces.length := by
        obtain ⟨hl, _⟩ := List.getElem?_eq_some_iff.mp e
        exact hl
      simp [this, v, h2]
    · rw [if_neg hb]; exact x
  · intro gp b q x
    have x : (h.pieces.set a o')[b]? = some q := x
    rw [List.getElem?_set] at x
    by_cases hb : a = b
    · subst hb
      rw [if_pos rfl] at x
      split at x
      · injection x with x
        subst x
        exact g (gp a o e)
      · cases x
    · rw [if_neg hb] at x
      exact gp b q x

theorem readPiece_ok {h : Heap} {a : Nat} {p : ParsedPiece} (g : RightPieces h) (x : PieceIs h a p) :
    ∃ h', readPiece a h = (.ok p.piece, h') ∧ Grow h h' := by
  obtain ⟨o, h1, h2⟩ := x.get
  unfold readPiece
  rw [h1]
  dsimp only
  cases e : o.cPiece with
  | some s => exact ⟨h, by rw [(g a o h1).piece s e, h2], Grow.refl h⟩
  | none =>
    subst h2
    refine ⟨h.setPiece a { o with cPiece := some o.val.pieces.flatten }, rfl, Grow.set h1 rfl (fun q => ⟨?_, q.fuzzy, q.len⟩)⟩
    intro s hs
    exact (Option.some.inj hs).symm

theorem fuzzyRule_joinSorted (p : ParsedPiece) : p.fuzzyRule = joinSorted p.rules := by
  unfold ParsedPiece.fuzzyRule
  split
  · rename_i r e
    rw [e, joinSorted_single, ite_self]
  · rfl

theorem readFuzzy_ok {h : Heap} {a : Nat} {p : ParsedPiece} (g : RightPieces h) (x : PieceIs h a p) :
    ∃ h', readFuzzy a h = (.ok p.fuzzyRule, h') ∧ Grow h h' := by
  obtain ⟨o, h1, h2⟩ := x.get
  have key : ∃ h', ((.ok (joinSorted o.val.rules), h.setPiece a { o with cFuzzy := some (joinSorted o.val.rules) }) : Py Str × Heap) =
      (.ok p.fuzzyRule, h') ∧ Grow h h' := by
    subst h2
    refine ⟨h.setPiece a { o with cFuzzy := some (joinSorted o.val.rules) }, by rw [fuzzyRule_joinSorted],
      Grow.set h1 rfl (fun q => ⟨q.piece, ?_, q.len⟩)⟩
    intro s hs _
    rw [fuzzyRule_joinSorted]
    exact (Option.some.inj hs).symm
  unfold readFuzzy
  rw [h1]
  dsimp only
  cases e : o.cFuzzy with
  | none => exact key
  | some s => cases s with
    | nil => exact key
    | cons c s =>
      refine ⟨h, ?_, Grow.refl h⟩
      have := (g a o h1).fuzzy _ e (by simp)
      rw [← h2, ← this]

theorem readLength_ok {h : Heap} {a : Nat} {p : ParsedPiece} (g : RightPieces h) (x : PieceIs h a p) :
    ∃ h', readLength a h = (p.pieceLength, h') ∧ Grow h h' := by
  obtain ⟨o, h1, h2⟩ := x.get
  unfold readLength
  rw [h1]
  dsimp only
  split
  · obtain ⟨h', e, gr⟩ := readPiece_ok g x
    rw [then_ok e]
    obtain ⟨o', k1, k2⟩ := (gr.keep _ _ x).get
    have : pieceLengthLoop p.piece p.piece.length none p.piece p.piece.length = p.pieceLength := rfl
    rw [this, k1]
    cases el : p.pieceLength with
    | error er => exact ⟨h', rfl, gr⟩
    | ok n =>
      refine ⟨_, rfl, gr.trans (Grow.set k1 (by rfl) (fun q => ⟨q.piece, q.fuzzy, ?_⟩))⟩
      intro _
      show o'.val.pieceLength = .ok n
      rw [k2, el]
  · rename_i hn
    exact ⟨h, by rw [← h2, (g a o h1).len (by omega)], Grow.refl h⟩

theorem RightPiece.new (p : ParsedPiece) : RightPiece (PieceObj.new p) := by
  refine ⟨?_, ?_, ?_⟩
  · intro s hs
    unfold PieceObj.new at hs ⊢
    dsimp only at hs ⊢
    unfold ParsedPiece.piece
    split at hs
    · rename_i x e
      injection hs with hs
      rw [e, ← hs]; simp
    · cases hs
  · intro s hs _
    unfold PieceObj.new at hs ⊢
    dsimp only at hs ⊢
    rw [fuzzyRule_joinSorted]
    split at hs
    · rename_i x e
      injection hs with hs
      rw [e, ← hs, joinSorted_single]
    · cases hs
  · intro hl
    have : (PieceObj.new p).cLen = -1 := rfl
    omega

theorem newPiece_ok (p : ParsedPiece) (h : Heap) :
    newPiece p h = (.ok h.pieces.length, { h with pieces := h.pieces ++ [PieceObj.new p] }) ∧
      Grow h { h with pieces := h.pieces ++ [PieceObj.new p] } ∧ PieceIs { h with pieces := h.pieces ++ [PieceObj.new p] } h.pieces.length p := by
  refine ⟨rfl, ⟨rfl, rfl, ?_, ?_⟩, ?_⟩
  · intro b q x
    obtain ⟨o, h1, h2⟩ := x.get
    obtain ⟨hl, _⟩ := List.getElem?_eq_some_iff.mp h1
    unfold PieceIs
    dsimp only
    rw [List.getElem?_append_left hl, h1, ← h2]; rfl
  · intro g b o e
    dsimp only at e
    rw [List.getElem?_append] at e
    split at e
    · exact g b o e
    · rw [List.getElem?_singleton] at e
      split at e
      · injection e with e
        subst e
        exact RightPiece.new p
      · cases e
  · unfold PieceIs
    simp [PieceObj.new]

theorem newParts_ok : ∀ (l : List (Str × Str)) (h : Heap),
    ∃ as h', HM.each (fun pr : Str × Str => newPiece (single pr.1 pr.2)) l h = (.ok as, h') ∧ Grow h h' ∧
      PartsAre h' as (l.map (fun pr => single pr.1 pr.2))
  | [], h => ⟨[], h, rfl, Grow.refl h, trivial⟩
  | pr :: l, h => by
    obtain ⟨e, g1, x⟩ := newPiece_ok (single pr.1 pr.2) h
    obtain ⟨as, h', e2, g2, ps⟩ := newParts_ok l { h with pieces := h.pieces ++ [PieceObj.new (single pr.1 pr.2)] }
    refine ⟨h.pieces.length :: as, h', ?_, g1.trans g2, g2.keep _ _ x, ps⟩
    show HM.then _ _ _ = _
    rw [then_ok e, then_ok e2]
    rfl

theorem newWhole_ok {h : Heap} {a : Nat} {p : ParsedPiece} (g : RightPieces h) (x : PieceIs h a p) :
    ∃ as h', newWhole a h = (.ok as, h') ∧ Grow h h' ∧ PartsAre h' as (fuzzyPieces p) := by
  obtain ⟨h1, e1, g1⟩ := readPiece_ok g x
  obtain ⟨h2, e2, g2⟩ := readFuzzy_ok (g1.good g) (g1.keep _ _ x)
  obtain ⟨as, h3, e3, g3, ps⟩ := newParts_ok [(p.piece, p.fuzzyRule)] h2
  refine ⟨as, h3, ?_, (g1.trans g2).trans g3, ps⟩
  unfold newWhole
  rw [then_ok e1, then_ok e2]
  exact e3

theorem getElem?_set_ne {α : Type} (l : List α) (i j : Nat) (x y : α) (h : (l.set i x)[j]? = some y) (e : i ≠ j) : l[j]? = some y := by
  rwa [List.getElem?_set, if_neg e] at h

theorem getElem?_set_at {α : Type} (l : List α) (i : Nat) (x y : α) (h : (l.set i x)[i]? = some y) : y = x := by
  rw [List.getElem?_set, if_pos rfl] at h
  split at h
  · injection h with h; exact h.symm
  · cases h

/-- What a step that may also fill in the caches of views does. -/
structure Step (h h' : Heap) : Prop where
  keep : Keeps h h'
  views : ∀ (v : Nat) (o : ViewObj), h.views[v]? = some o → ∃ o', h'.views[v]? = some o' ∧ o'.cls = o.cls ∧ o'.pp = o.pp ∧
    ∀ x l, o.cParts = some (x :: l) → o'.cParts = some (x :: l)
  pats : ∀ (a : Nat) (o : PatObj), h.pats[a]? = some o → ∃ o', h'.pats[a]? = some o' ∧ o'.str = o.str ∧ o'.cls = o.cls
  good : Right h'

theorem Step.trans {a b c : Heap} (x : Step a b) (y : Step b c) : Step a c := by
  refine ⟨fun i p q => y.keep i p (x.keep i p q), ?_, ?_, y.good⟩
  · intro v o e
    obtain ⟨o1, e1, c1, p1, q1⟩ := x.views v o e
    obtain ⟨o2, e2, c2, p2, q2⟩ := y.views v o1 e1
    exact ⟨o2, e2, c2.trans c1, p2.trans p1, fun z l h => q2 z l (q1 z l h)⟩
  · intro v o e
    obtain ⟨o1, e1, c1, p1⟩ := x.pats v o e
    obtain ⟨o2, e2, c2, p2⟩ := y.pats v o1 e1
    exact ⟨o2, e2, c2.trans c1, p2.trans p1⟩

theorem Grow.step {h h' : Heap} (x : Grow h h') (g : Right h) : Step h h' :=
  ⟨x.keep, fun v o e => ⟨o, by rw [x.views]; exact e, rfl, rfl, fun _ _ q => q⟩,
    fun v o e => ⟨o, by rw [x.pats]; exact e, rfl, rfl⟩, g.grow x⟩

theorem Step.refl {h : Heap} (g : Right h) : Step h h := (Grow.refl h).step g

/-- Filling in the caches of one view. -/
theorem Step.setView {h h' : Heap} {v : Nat} {o o' : ViewObj} (g : Right h) (e : h.views[v]? = some o) (gp : RightPieces h') (k : Keeps h h')
    (ev : h'.views = h.views.set v o') (ep : h'.pats = h.pats) (c : o'.cls = o.cls) (p : o'.pp = o.pp)
    (q : ∀ x l, o.cParts = some (x :: l) → o'.cParts = some (x :: l)) (gv : ∀ p, RightView h' o p → RightView h' o' p) : Step h h' := by
  obtain ⟨hl, _⟩ := List.getElem?_eq_some_iff.mp e
  refine ⟨k, ?_, fun a o e => ⟨o, by rw [ep]; exact e, rfl, rfl⟩, gp, ?_, ?_⟩
  · intro w u eu
    by_cases hw : v = w
    · subst hw
      rw [e] at eu
      injection eu with eu
      subst eu
      exact ⟨o', by rw [ev, List.getElem?_set]; simp [hl], c, p, q⟩
    · exact ⟨u, by rw [ev, List.getElem?_set, if_neg hw]; exact eu, rfl, rfl, fun _ _ q => q⟩
  · intro w u eu
    rw [ev] at eu
    by_cases hw : v = w
    · subst hw
      have := getElem?_set_at _ _ _ _ eu
      subst this
      obtain ⟨pp, x⟩ := g.vw _ _ e
      exact ⟨pp, gv pp (x.keep k)⟩
    · obtain ⟨pp, x⟩ := g.vw _ _ (getElem?_set_ne _ _ _ _ _ eu hw)
      exact ⟨pp, x.keep k⟩
  · intro a u eu
    exact g.pt a u (by rw [← ep]; exact eu)

theorem keepParts_ok {h : Heap} {v : Nat} {o : ViewObj} (e : h.views[v]? = some o) (l : List Nat) :
    keepParts v l h = (.ok l, h.setView v { o with cParts := some l }) := by
  unfold keepParts; rw [e]

/-- The lists of `partsOf`, as they are made. -/
theorem lastDotPieces_eq (p : ParsedPiece) : lastDotPieces p = match lastDotIdx p.rules with
    | none => fuzzyPieces p
    | some i =>
      if (p.rules.drop (i + 1)).all (fun r => decide (r ∈ digitAsciiRuleSet)) then
        (([(p.pieces.take i).flatten, p.pieces.getD i []] ++ (mix (p.pieces.drop (i + 1)) (p.rules.drop (i + 1))).1).zip
          ([joinSorted (p.rules.take i), p.rules.getD i []] ++ (mix (p.pieces.drop (i + 1)) (p.rules.drop (i + 1))).2)).map
            (fun pr => single pr.1 pr.2)
      else fuzzyPieces p := by
  unfold lastDotPieces; rfl

theorem Keeps.setView (h : Heap) (v : Nat) (o : ViewObj) : Keeps h (h.setView v o) := fun _ _ x => x
theorem Keeps.trans {a b c : Heap} (x : Keeps a b) (y : Keeps b c) : Keeps a c := fun i p q => y i p (x i p q)

/-- Making the parts and keeping them. -/
theorem keepParts_step {h h1 : Heap} {v : Nat} {o o1 : ViewObj} {p : ParsedPiece} (g : Right h) (e : h.views[v]? = some o) (x : PieceIs h o.pp p)
    (gp : RightPieces h1) (k : Keeps h h1) (e1 : h1.views = h.views.set v o1) (c1 : o1.cls = o.cls) (p1 : o1.pp = o.pp) (w1 : o1.cView = o.cView)
    (ep : h1.pats = h.pats) (n : ∀ y l, o.cParts ≠ some (y :: l)) {l : List Nat} (pa : PartsAre h1 l (partsOf o.cls p)) :
    ∃ h', keepParts v l h1 = (.ok l, h') ∧ Step h h' ∧ PartsAre h' l (partsOf o.cls p) ∧
      ∃ o', h'.views[v]? = some o' ∧ o'.cParts = some l := by
  obtain ⟨hl, _⟩ := List.getElem?_eq_some_iff.mp e
  have f1 : h1.views[v]? = some o1 := by rw [e1, List.getElem?_set]; simp [hl]
  refine ⟨_, keepParts_ok f1 l, ?_, pa.keep (Keeps.setView _ _ _), ⟨{ o1 with cParts := some l }, ?_, rfl⟩⟩
  · refine Step.setView (o' := { o1 with cParts := some l }) g e gp (k.trans (Keeps.setView _ _ _)) ?_ ep c1 p1
      (fun y m q => absurd q (n y m)) ?_
    · show (h1.views.set v _) = _
      rw [e1, List.set_set]
    · intro p' gv
      have hp : p' = p := by
        have a := gv.pp
        have b := k _ _ x
        unfold PieceIs at a b
        have a : (h1.pieces[o.pp]?).map (·.val) = some p' := a
        rw [b] at a
        exact (Option.some.inj a).symm
      subst hp
      refine ⟨by show PieceIs _ o1.pp _; rw [p1]; exact gv.pp, ?_, ?_, ?_, ?_⟩
      · intro l' hl'
        have : l' = l := (Option.some.inj hl').symm
        subst this
        show PartsAre _ _ (partsOf o1.cls p')
        rw [c1]
        exact pa.keep (Keeps.setView _ _ _)
      · intro k' hk'
        show keyOf o1.cls p' = _
        rw [c1]
        exact gv.key k' (by rw [← w1]; exact hk')
      · show ∃ k, keyOf o1.cls p' = _
        rw [c1]
        exact gv.made
      · intro hn
        show o1.cls ≠ _ ∧ o1.cls ≠ _ ∧ o1.cls ≠ _
        rw [c1]
        exact gv.eager (by rw [← w1]; exact hn)
  · show (h1.views.set v _)[v]? = _
    rw [List.getElem?_set]
    simp [e1, hl]

theorem readParts_ok {h : Heap} {v : Nat} {cls : ViewCls} {p : ParsedPiece} (g : Right h) (x : ViewIs h v cls p) :
    ∃ l h', readParts v h = (.ok l, h') ∧ Step h h' ∧ PartsAre h' l (partsOf cls p) ∧ ∃ o', h'.views[v]? = some o' ∧ o'.cParts = some l := by
  obtain ⟨o, e, rfl, hp⟩ := x
  obtain ⟨p', gv⟩ := g.vw v o e
  have hpp : p' = p := by
    have a := gv.pp
    unfold PieceIs at a hp
    rw [hp] at a
    exact (Option.some.inj a).symm
  subst hpp
  obtain ⟨po, f1, f2⟩ := hp.get
  -- the list is there
  by_cases hc : ∃ y l, o.cParts = some (y :: l)
  · obtain ⟨y, l, hc⟩ := hc
    refine ⟨y :: l, h, ?_, Step.refl g, gv.parts _ hc, o, e, hc⟩
    unfold readParts
    rw [e]; dsimp only
    rw [hc]
  have hn : ∀ y l, o.cParts ≠ some (y :: l) := fun y l q => hc ⟨y, l, q⟩
  have hself : h.views = h.views.set v o := by
    obtain ⟨hl, hv⟩ := List.getElem?_eq_some_iff.mp e
    rw [← hv, List.set_getElem_self]
  -- the computation
  have main : readParts v h = (match o.cls with
        | .mixed =>
          if p'.rules.length ≤ 1 then keepParts v [o.pp] h
          else (newParts (mix p'.pieces p'.rules).1 (mix p'.pieces p'.rules).2).then (keepParts v) h
        | .fuzzy => (newWhole o.pp).then (keepParts v) h
        | .lastDot =>
          ((newWhole o.pp).then (keepParts v)).then (fun whole =>
            match lastDotIdx p'.rules with
            | none => HM.val whole
            | some i =>
              if (p'.rules.drop (i + 1)).all (fun r => decide (r ∈ digitAsciiRuleSet)) then
                (newParts ([(p'.pieces.take i).flatten, p'.pieces.getD i []] ++ (mix (p'.pieces.drop (i + 1)) (p'.rules.drop (i + 1))).1)
                  ([joinSorted (p'.rules.take i), p'.rules.getD i []] ++ (mix (p'.pieces.drop (i + 1)) (p'.rules.drop (i + 1))).2)).then (keepParts v)
              else HM.val whole) h
        | _ => (newParts p'.pieces p'.rules).then (keepParts v) h) := by
    unfold readParts
    rw [e]; dsimp only
    split
    · rename_i y l q; exact absurd q (hn y l)
    · rw [f1]; dsimp only; rw [f2]; rfl
  rw [main]
  have simple : ∀ l : List (Str × Str), partsOf o.cls p' = l.map (fun pr => single pr.1 pr.2) →
      ∃ r h', ((HM.each (fun pr : Str × Str => newPiece (single pr.1 pr.2)) l).then (keepParts v)) h = (.ok r, h') ∧ Step h h' ∧
        PartsAre h' r (partsOf o.cls p') ∧ ∃ o', h'.views[v]? = some o' ∧ o'.cParts = some r := by
    intro l hl
    obtain ⟨as, h1, e1, g1, ps⟩ := newParts_ok l h
    rw [← hl] at ps
    obtain ⟨h2, e2, r⟩ := keepParts_step g e hp (g1.good g.pc) g1.keep (by rw [g1.views]; exact hself) rfl rfl rfl g1.pats hn ps
    exact ⟨as, h2, by rw [then_ok e1]; exact e2, r⟩
  cases hcls : o.cls with
  | piece => rw [hcls] at simple; exact simple _ rfl
  | multi => rw [hcls] at simple; exact simple _ rfl
  | length => rw [hcls] at simple; exact simple _ rfl
  | mixed =>
    dsimp only
    split
    · rename_i hr
      obtain ⟨h2, e2, r⟩ := keepParts_step (l := [o.pp]) g e hp g.pc (fun _ _ x => x) hself rfl rfl rfl rfl hn (by
        rw [hcls]
        show PartsAre h [o.pp] (mixedPieces p')
        unfold mixedPieces
        rw [if_pos hr]
        exact ⟨hp, trivial⟩)
      rw [hcls] at r
      exact ⟨_, h2, e2, r⟩
    · rename_i hr
      rw [hcls] at simple
      refine simple ((mix p'.pieces p'.rules).1.zip (mix p'.pieces p'.rules).2) ?_
      show mixedPieces p' = _
      unfold mixedPieces
      rw [if_neg hr]
  | fuzzy =>
    dsimp only
    obtain ⟨as, h1, e1, g1, ps⟩ := newWhole_ok g.pc hp
    obtain ⟨h2, e2, r⟩ := keepParts_step (l := as) g e hp (g1.good g.pc) g1.keep (by rw [g1.views]; exact hself) rfl rfl rfl g1.pats hn
      (by rw [hcls]; exact ps)
    rw [hcls] at r
    exact ⟨as, h2, by rw [then_ok e1]; exact e2, r⟩
  | lastDot =>
    dsimp only
    obtain ⟨as, h1, e1, g1, ps⟩ := newWhole_ok g.pc hp
    have f3 : h1.views[v]? = some o := by rw [g1.views]; exact e
    have e2 := keepParts_ok f3 as
    have e3 : ((newWhole o.pp).then (keepParts v)) h = (.ok as, h1.setView v { o with cParts := some as }) := by
      rw [then_ok e1]; exact e2
    rw [then_ok e3]
    have whole : lastDotPieces p' = fuzzyPieces p' →
        ∃ l h', HM.val as (h1.setView v { o with cParts := some as }) = (.ok l, h') ∧ Step h h' ∧ PartsAre h' l (partsOf .lastDot p') ∧
          ∃ o', h'.views[v]? = some o' ∧ o'.cParts = some l := by
      intro q
      obtain ⟨h2, e4, r⟩ := keepParts_step (l := as) g e hp (g1.good g.pc) g1.keep (by rw [g1.views]; exact hself) rfl rfl rfl g1.pats hn
        (by rw [hcls]; show PartsAre _ _ (lastDotPieces p'); rw [q]; exact ps)
      rw [e2] at e4
      injection e4 with _ e4
      subst e4
      refine ⟨as, _, rfl, r.1, ?_, r.2.2⟩
      have r2 := r.2.1
      have : partsOf o.cls p' = partsOf .lastDot p' := by rw [hcls]
      rw [this] at r2
      exact r2
    have eq := lastDotPieces_eq p'
    cases hd : lastDotIdx p'.rules with
    | none =>
      rw [hd] at eq
      exact whole eq
    | some i =>
      rw [hd] at eq
      dsimp only at eq ⊢
      by_cases ha : (p'.rules.drop (i + 1)).all (fun r => decide (r ∈ digitAsciiRuleSet)) = true
      · rw [if_pos ha] at eq ⊢
        obtain ⟨bs, h2, e4, g2, ps2⟩ := newParts_ok _ (h1.setView v { o with cParts := some as })
        unfold newParts
        rw [then_ok e4]
        rw [← eq] at ps2
        obtain ⟨h3, e5, r⟩ := keepParts_step (h1 := h2) (o1 := { o with cParts := some as }) (l := bs) g e hp
          (g2.good (g1.good g.pc)) (g1.keep.trans ((Keeps.setView _ _ _).trans g2.keep))
          (by rw [g2.views]; show h1.views.set v _ = _; rw [g1.views]) rfl rfl rfl (by rw [g2.pats]; exact g1.pats) hn (by rw [hcls]; exact ps2)
        rw [hcls] at r
        exact ⟨bs, h3, e5, r⟩
      · rw [if_neg ha] at eq ⊢
        exact whole eq

theorem eachFuzzy_ok : ∀ {l : List Nat} {ps : List ParsedPiece} {h : Heap}, RightPieces h → PartsAre h l ps →
    ∃ h', HM.each readFuzzy l h = (.ok (ps.map (·.fuzzyRule)), h') ∧ Grow h h'
  | [], [], h, _, _ => ⟨h, rfl, Grow.refl h⟩
  | a :: l, p :: ps, h, g, ⟨x, y⟩ => by
    obtain ⟨h1, e1, g1⟩ := readFuzzy_ok g x
    obtain ⟨h2, e2, g2⟩ := eachFuzzy_ok (g1.good g) (y.keep g1.keep)
    refine ⟨h2, ?_, g1.trans g2⟩
    show HM.then _ _ _ = _
    rw [then_ok e1, then_ok e2]
    rfl
  | [], _ :: _, _, _, x => x.elim
  | _ :: _, [], _, _, x => x.elim

theorem Spec.PieceIs.unique {h : Heap} {a : Nat} {p q : ParsedPiece} (x : PieceIs h a p) (y : PieceIs h a q) : p = q := by
  unfold PieceIs at x y
  rw [x] at y
  exact Option.some.inj y

theorem readView_ok {h : Heap} {v : Nat} {cls : ViewCls} {p : ParsedPiece} (g : Right h) (x : ViewIs h v cls p) :
    ∃ k h', readView v h = (.ok k, h') ∧ keyOf cls p = .ok k ∧ Step h h' := by
  have x0 := x
  obtain ⟨o, e, rfl, hp⟩ := x
  obtain ⟨p', gv⟩ := g.vw v o e
  have := gv.pp.unique hp
  subst this
  unfold readView
  rw [e]
  dsimp only
  cases hc : o.cView with
  | some k => exact ⟨k, h, rfl, gv.key k hc, Step.refl g⟩
  | none =>
    dsimp only
    obtain ⟨l, h1, e1, s1, ps, o1, f1, f2⟩ := readParts_ok g x0
    rw [then_ok e1]
    obtain ⟨h2, e2, g2⟩ := eachFuzzy_ok s1.good.pc ps
    rw [then_ok e2]
    obtain ⟨o', f3, c3, p3, _⟩ := s1.views v o e
    have f4 : h2.views[v]? = some o' := by rw [g2.views]; exact f3
    obtain ⟨n1, n2, n3⟩ := gv.eager hc
    have hk : keyOf o.cls p' = .ok (.str (fuzzyJoin ((partsOf o.cls p').map (·.fuzzyRule)))) := by
      cases hcls : o.cls with
      | piece => exact absurd hcls n1
      | length => exact absurd hcls n2
      | fuzzy => exact absurd hcls n3
      | multi => rfl
      | mixed => rfl
      | lastDot => rfl
    refine ⟨_, h2.setView v { o' with cView := some (.str (fuzzyJoin ((partsOf o.cls p').map (·.fuzzyRule)))) }, ?_, hk, ?_⟩
    · unfold keepView; rw [f4]
    · have s2 := s1.trans (g2.step s1.good)
      refine s2.trans (Step.setView (o' := { o' with cView := some _ }) s2.good f4 s2.good.pc (Keeps.setView _ _ _) rfl rfl rfl rfl
        (fun _ _ q => q) ?_)
      intro q gq
      have hq : q = p' := by
        have a := gq.pp
        rw [p3] at a
        exact Spec.PieceIs.unique (h := h2) a (s2.keep _ _ hp)
      subst hq
      refine ⟨gq.pp, gq.parts, ?_, gq.made, fun w => by cases w⟩
      intro k hk'
      have : k = .str (fuzzyJoin ((partsOf o.cls q).map (·.fuzzyRule))) := (Option.some.inj hk').symm
      subst this
      show keyOf o'.cls q = _
      rw [c3]
      exact hk

theorem Step.viewIs {h h' : Heap} (s : Step h h') {v : Nat} {cls : ViewCls} {p : ParsedPiece} (x : ViewIs h v cls p) : ViewIs h' v cls p := by
  obtain ⟨o, e, c, hp⟩ := x
  obtain ⟨o', e', c', p', _⟩ := s.views v o e
  exact ⟨o', e', c'.trans c, by rw [p']; exact s.keep _ _ hp⟩

/-- A new view. -/
theorem Step.addView {h : Heap} (g : Right h) {cls : ViewCls} {a : Nat} {p : ParsedPiece} (x : PieceIs h a p) (k : Option ViewKey)
    (hk : ∀ k', k = some k' → keyOf cls p = .ok k') (hm : ∃ k, keyOf cls p = .ok k) (he : k = none → cls ≠ .piece ∧ cls ≠ .length ∧ cls ≠ .fuzzy) :
    Step h { h with views := h.views ++ [⟨cls, a, none, k⟩] } ∧ ViewIs { h with views := h.views ++ [⟨cls, a, none, k⟩] } h.views.length cls p := by
  refine ⟨⟨fun _ _ q => q, ?_, fun a o e => ⟨o, e, rfl, rfl⟩, g.pc, ?_, g.pt⟩, ⟨⟨cls, a, none, k⟩, ?_, rfl, x⟩⟩
  · intro v o e
    obtain ⟨hl, _⟩ := List.getElem?_eq_some_iff.mp e
    exact ⟨o, by dsimp only; rw [List.getElem?_append_left hl]; exact e, rfl, rfl, fun _ _ q => q⟩
  · intro v o e
    dsimp only at e
    rw [List.getElem?_append] at e
    split at e
    · obtain ⟨p', gv⟩ := g.vw v o e
      exact ⟨p', gv.keep (fun _ _ q => q)⟩
    · rw [List.getElem?_singleton] at e
      split at e
      · injection e with e
        subst e
        exact ⟨p, ⟨x, fun _ w => (by cases w), hk, hm, he⟩⟩
      · cases e
  · simp

theorem newView_ok {h : Heap} {cls : ViewCls} {a : Nat} {p : ParsedPiece} (g : Right h) (x : PieceIs h a p) :
    (∃ k, keyOf cls p = .ok k ∧ ∃ h', newView cls a h = (.ok h.views.length, h') ∧ Step h h' ∧ ViewIs h' h.views.length cls p) ∨
    (∃ er, keyOf cls p = .error er ∧ ∃ h', newView cls a h = (.error er, h') ∧ Step h h') := by
  obtain ⟨o, e1, e2⟩ := x.get
  unfold newView
  rw [e1]
  dsimp only
  cases cls with
  | piece =>
    obtain ⟨h1, f, gr⟩ := readPiece_ok g.pc x
    have s := gr.step g
    obtain ⟨s2, w⟩ := Step.addView (cls := .piece) s.good (s.keep _ _ x) (some (.str p.piece)) (fun _ q => by rw [← Option.some.inj q]; rfl)
      ⟨_, rfl⟩ (fun q => by cases q)
    refine .inl ⟨_, rfl, _, by rw [then_ok f, gr.views], s.trans s2, ?_⟩
    rw [gr.views] at w
    rw [gr.views]; exact w
  | fuzzy =>
    obtain ⟨h1, f, gr⟩ := readFuzzy_ok g.pc x
    have s := gr.step g
    obtain ⟨s2, w⟩ := Step.addView (cls := .fuzzy) s.good (s.keep _ _ x) (some (.str p.fuzzyRule)) (fun _ q => by rw [← Option.some.inj q]; rfl)
      ⟨_, rfl⟩ (fun q => by cases q)
    refine .inl ⟨_, rfl, _, by rw [then_ok f, gr.views], s.trans s2, ?_⟩
    rw [gr.views] at w
    rw [gr.views]; exact w
  | length =>
    obtain ⟨h1, f, gr⟩ := readLength_ok g.pc x
    have s := gr.step g
    cases hl : p.pieceLength with
    | error er =>
      rw [hl] at f
      exact .inr ⟨er, by show p.pieceLength.map ViewKey.num = _; rw [hl]; rfl, h1, by rw [then_error f], s⟩
    | ok n =>
      rw [hl] at f
      have hk : keyOf .length p = .ok (.num n) := by show p.pieceLength.map ViewKey.num = _; rw [hl]; rfl
      obtain ⟨s2, w⟩ := Step.addView (cls := .length) s.good (s.keep _ _ x) (some (.num n)) (fun _ q => by rw [← Option.some.inj q]; exact hk)
        ⟨_, hk⟩ (fun q => by cases q)
      refine .inl ⟨_, hk, _, by rw [then_ok f, gr.views], s.trans s2, ?_⟩
      rw [gr.views] at w
      rw [gr.views]; exact w
  | multi =>
    obtain ⟨s2, w⟩ := Step.addView (cls := .multi) g x none (fun _ q => by cases q) ⟨_, rfl⟩ (fun _ => by decide)
    exact .inl ⟨_, rfl, _, rfl, s2, w⟩
  | mixed =>
    obtain ⟨s2, w⟩ := Step.addView (cls := .mixed) g x none (fun _ q => by cases q) ⟨_, rfl⟩ (fun _ => by decide)
    exact .inl ⟨_, rfl, _, rfl, s2, w⟩
  | lastDot =>
    obtain ⟨s2, w⟩ := Step.addView (cls := .lastDot) g x none (fun _ q => by cases q) ⟨_, rfl⟩ (fun _ => by decide)
    exact .inl ⟨_, rfl, _, rfl, s2, w⟩

end OsUrl
