import Verif.Proofs.Objects

/-! # Patterns, the parser object, and sequences of operations -/

namespace OsUrl
open Spec

theorem Spec.PatIs.get {h : Heap} {a : Nat} {s : Str} (x : PatIs h a s) : ∃ o, h.pats[a]? = some o ∧ o.str = s := by
  unfold PatIs at x
  cases e : h.pats[a]? with
  | none => rw [e] at x; cases x
  | some o => rw [e] at x; exact ⟨o, rfl, Option.some.inj x⟩

theorem Step.patIs {h h' : Heap} (s : Step h h') {a : Nat} {t : Str} (x : PatIs h a t) : PatIs h' a t := by
  obtain ⟨o, e, rfl⟩ := x.get
  obtain ⟨o', e', c, _⟩ := s.pats a o e
  unfold PatIs
  rw [e', ← c]; rfl

theorem Step.matchIs {h h' : Heap} (s : Step h h') {a : Nat} {m : MatchPattern} (x : MatchIs h a m) : MatchIs h' a m := by
  obtain ⟨x, y⟩ := x
  refine ⟨?_, y⟩
  cases e : h.pats[a]? with
  | none => rw [e] at x; cases x
  | some o =>
    obtain ⟨o', e', c, d⟩ := s.pats a o e
    rw [e] at x
    rw [e', ← x]
    show some (o'.str, o'.cls) = some (o.str, o.cls)
    rw [c, d]

theorem Spec.MatchIs.patIs {h : Heap} {a : Nat} {m : MatchPattern} (x : MatchIs h a m) : PatIs h a m.str := by
  obtain ⟨x, _⟩ := x
  unfold PatIs
  cases e : h.pats[a]? with
  | none => rw [e] at x; cases x
  | some o =>
    rw [e] at x
    have x := Option.some.inj x
    show some o.str = _
    rw [(Prod.mk.inj x).1]

/-- Filling in a cache of a pattern. -/
theorem Step.setPat {h : Heap} {a : Nat} {o o' : PatObj} (g : Right h) (e : h.pats[a]? = some o) (s : o'.str = o.str) (c : o'.cls = o.cls)
    (gp : RightPat o → RightPat o') : Step h (h.setPat a o') := by
  obtain ⟨hl, _⟩ := List.getElem?_eq_some_iff.mp e
  refine ⟨fun _ _ q => q, fun v o e => ⟨o, e, rfl, rfl, fun _ _ q => q⟩, ?_, g.pc, ?_, ?_⟩
  · intro b u eu
    show ∃ o'', (h.pats.set a o')[b]? = some o'' ∧ _
    by_cases hb : a = b
    · subst hb
      rw [e] at eu
      injection eu with eu
      subst eu
      exact ⟨o', by rw [List.getElem?_set]; simp [hl], s, c⟩
    · exact ⟨u, by rw [List.getElem?_set, if_neg hb]; exact eu, rfl, rfl⟩
  · intro v u eu
    obtain ⟨p, gv⟩ := g.vw v u eu
    exact ⟨p, gv.keep (fun _ _ q => q)⟩
  · intro b u eu
    have eu : (h.pats.set a o')[b]? = some u := eu
    by_cases hb : a = b
    · subst hb
      rw [getElem?_set_at _ _ _ _ eu]
      exact gp (g.pt _ _ e)
    · exact g.pt b u (getElem?_set_ne _ _ _ _ _ eu hb)

theorem readUnits_ok {h : Heap} {a : Nat} {s : Str} (g : Right h) (x : PatIs h a s) :
    ∃ h', readUnits a h = (patternUnits s, h') ∧ Step h h' ∧
      ∀ us, patternUnits s = .ok us → ∃ o l, h'.pats[a]? = some o ∧ o.cUnits = some l ∧ l.map (·.1) = us := by
  obtain ⟨o, e, rfl⟩ := x.get
  unfold readUnits
  rw [e]
  dsimp only
  cases hc : o.cUnits with
  | some l =>
    have := ((g.pt a o e).units l hc).1
    refine ⟨h, by rw [this], Step.refl g, ?_⟩
    intro us hus
    rw [this] at hus
    exact ⟨o, l, e, hc, Except.ok.inj hus⟩
  | none =>
    dsimp only
    cases hu : patternUnits o.str with
    | error er => exact ⟨h, rfl, Step.refl g, fun _ q => by cases q⟩
    | ok us =>
      obtain ⟨hl, _⟩ := List.getElem?_eq_some_iff.mp e
      have hmap : (us.map (fun u => (u, (none : Option Str)))).map (·.1) = us := by
        rw [List.map_map]; exact List.map_id _
      refine ⟨h.setPat a { o with cUnits := some (us.map (fun u => (u, none))) }, rfl, Step.setPat g e rfl rfl (fun q => ⟨?_, q.fuzzy, q.cmp⟩), ?_⟩
      · intro l hl'
        have hl' := (Option.some.inj hl').symm
        subst hl'
        refine ⟨by rw [hmap]; exact hu, ?_⟩
        intro x hx t ht
        obtain ⟨u, _, rfl⟩ := List.mem_map.mp hx
        cases ht
      · intro us' h'
        have := Except.ok.inj h'
        subst this
        exact ⟨_, _, by show (h.pats.set a _)[a]? = _; rw [List.getElem?_set]; simp [hl]; rfl, rfl, hmap⟩

theorem readPatFuzzy_ok {h : Heap} {a : Nat} {s : Str} (g : Right h) (x : PatIs h a s) :
    ∃ h', readPatFuzzy a h = ((patternUnits s).map unitsFuzzyRule, h') ∧ Step h h' := by
  have x0 := x
  obtain ⟨o, e, rfl⟩ := x.get
  unfold readPatFuzzy
  rw [e]
  dsimp only
  cases hc : o.cFuzzy with
  | some t =>
    obtain ⟨us, h1, h2⟩ := (g.pt a o e).fuzzy t hc
    exact ⟨h, by rw [h1, h2]; rfl, Step.refl g⟩
  | none =>
    dsimp only
    obtain ⟨h1, e1, s1, _⟩ := readUnits_ok g x0
    cases hu : patternUnits o.str with
    | error er =>
      rw [hu] at e1
      exact ⟨h1, by rw [then_error e1]; rfl, s1⟩
    | ok us =>
      rw [hu] at e1
      obtain ⟨o1, f1, c1⟩ := (s1.patIs x0).get
      refine ⟨h1.setPat a { o1 with cFuzzy := some (unitsFuzzyRule us) }, by rw [then_ok e1, f1]; rfl,
        s1.trans (Step.setPat s1.good f1 rfl rfl (fun q => ⟨q.units, ?_, q.cmp⟩))⟩
      intro t ht
      refine ⟨us, ?_, (Option.some.inj ht).symm⟩
      show patternUnits o1.str = _
      rw [c1]
      exact hu

theorem cmpKey_congr (s s' : Str) (us : List PatternUnit) (c c' : ViewCls) :
    (⟨s, us, c⟩ : MatchPattern).cmpKey = (⟨s', us, c'⟩ : MatchPattern).cmpKey := rfl

theorem readCmp_ok {h : Heap} {a : Nat} {s : Str} (g : Right h) (x : PatIs h a s) (cls : ViewCls) :
    ∃ h', readCmp a h = ((patternUnits s).bind (fun us => (⟨s, us, cls⟩ : MatchPattern).cmpKey), h') ∧ Step h h' := by
  have x0 := x
  obtain ⟨o, e, rfl⟩ := x.get
  unfold readCmp
  rw [e]
  dsimp only
  cases hc : o.cCmp with
  | some t =>
    obtain ⟨us, h1, h2⟩ := (g.pt a o e).cmp t hc
    exact ⟨h, by rw [h1]; show _ = (MatchPattern.cmpKey _, h); rw [h2 cls], Step.refl g⟩
  | none =>
    dsimp only
    obtain ⟨h1, e1, s1, _⟩ := readUnits_ok g x0
    cases hu : patternUnits o.str with
    | error er =>
      rw [hu] at e1
      exact ⟨h1, by rw [then_error e1]; rfl, s1⟩
    | ok us =>
      rw [hu] at e1
      obtain ⟨o1, f1, c1⟩ := (s1.patIs x0).get
      rw [then_ok e1]
      have key : ∀ c : ViewCls, (⟨o.str, us, c⟩ : MatchPattern).cmpKey =
          (us.reverse.mapM (fun u => mkMatchPattern u.str)).bind (fun l => .ok ((l.map (fun q => natStr (viewOrder q.cls))).flatten)) := fun _ => rfl
      cases hm : us.reverse.mapM (fun u => mkMatchPattern u.str) with
      | error er =>
        refine ⟨h1, ?_, s1⟩
        show _ = (MatchPattern.cmpKey _, h1)
        rw [key, hm]; rfl
      | ok l =>
        rw [hm] at key
        refine ⟨h1.setPat a { o1 with cCmp := some ((l.map (fun q => natStr (viewOrder q.cls))).flatten) }, ?_,
          s1.trans (Step.setPat s1.good f1 rfl rfl (fun q => ⟨q.units, q.fuzzy, ?_⟩))⟩
        · show _ = (MatchPattern.cmpKey _, _)
          rw [key, f1]; rfl
        · intro t ht
          refine ⟨us, by show patternUnits o1.str = _; rw [c1]; exact hu, fun c => ?_⟩
          show (⟨o1.str, us, c⟩ : MatchPattern).cmpKey = _
          rw [c1, key]
          show Except.ok _ = _
          rw [Option.some.inj ht]

theorem readUnitFuzzy_ok {h : Heap} {a i : Nat} {s : Str} (g : Right h) (x : PatIs h a s) :
    ∃ h', readUnitFuzzy a i h = ((patternUnits s).bind (fun us => match us[i]? with
        | none => .error .indexError
        | some u => .ok (joinSorted u.rules)), h') ∧ Step h h' := by
  unfold readUnitFuzzy
  obtain ⟨h1, e1, s1, c1⟩ := readUnits_ok g x
  cases hu : patternUnits s with
  | error er =>
    rw [hu] at e1
    exact ⟨h1, by rw [then_error e1]; rfl, s1⟩
  | ok us =>
    rw [hu] at e1
    obtain ⟨o, l, f1, f2, f3⟩ := c1 us hu
    rw [then_ok e1, f1]
    dsimp only
    rw [f2]
    dsimp only
    have hi : us[i]? = (l[i]?).map (·.1) := by rw [← f3, List.getElem?_map]
    show ∃ h', _ = (match us[i]? with
        | none => Except.error PyErr.indexError
        | some u => Except.ok (joinSorted u.rules), h') ∧ _
    have gd := (s1.good.pt a o f1).units l f2
    cases hl : l[i]? with
    | none =>
      rw [hi, hl]
      exact ⟨h1, rfl, s1⟩
    | some y =>
      obtain ⟨u, c⟩ := y
      rw [hi, hl]
      cases c with
      | some t =>
        have : t = joinSorted u.rules := gd.2 (u, some t) (List.mem_of_getElem? hl) t rfl
        exact ⟨h1, by rw [this]; rfl, s1⟩
      | none =>
        refine ⟨_, rfl, s1.trans (Step.setPat (o' := { o with cUnits := some (l.set i (u, some (joinSorted u.rules))) }) s1.good f1 rfl rfl
          (fun q => ⟨?_, q.fuzzy, q.cmp⟩))⟩
        intro l' hl'
        have hl' := (Option.some.inj hl').symm
        subst hl'
        constructor
        · rw [List.map_set]
          obtain ⟨hlt, hget⟩ := List.getElem?_eq_some_iff.mp hl
          have : (l.map (·.1)).set i u = l.map (·.1) := by
            have : u = (l.map (·.1))[i]'(by simpa using hlt) := by simp [hget]
            conv => lhs; rw [this]
            exact List.set_getElem_self _
          show patternUnits o.str = .ok ((l.map (·.1)).set i u)
          rw [this]
          exact gd.1
        · intro x hx t ht
          rcases List.mem_or_eq_of_mem_set hx with hx | rfl
          · exact gd.2 x hx t ht
          · exact (Option.some.inj ht).symm

theorem Step.addPat {h : Heap} (g : Right h) (o : PatObj) (go : RightPat o) : Step h { h with pats := h.pats ++ [o] } := by
  refine ⟨fun _ _ q => q, fun v o e => ⟨o, e, rfl, rfl, fun _ _ q => q⟩, ?_, g.pc, ?_, ?_⟩
  · intro b u eu
    obtain ⟨hl, _⟩ := List.getElem?_eq_some_iff.mp eu
    exact ⟨u, by dsimp only; rw [List.getElem?_append_left hl]; exact eu, rfl, rfl⟩
  · intro v u eu
    obtain ⟨p, gv⟩ := g.vw v u eu
    exact ⟨p, gv.keep (fun _ _ q => q)⟩
  · intro b u eu
    dsimp only at eu
    rw [List.getElem?_append] at eu
    split at eu
    · exact g.pt b u eu
    · rw [List.getElem?_singleton] at eu
      split at eu
      · injection eu with eu
        subst eu
        exact go
      · cases eu

theorem newPattern_ok (h : Heap) (g : Right h) (s : Str) :
    ∃ h', newPattern s h = (.ok h.pats.length, h') ∧ Step h h' ∧ PatIs h' h.pats.length s := by
  refine ⟨_, rfl, Step.addPat g ⟨s, none, none, none, none⟩ ⟨fun _ q => (by cases q), fun _ q => (by cases q), fun _ q => (by cases q)⟩, ?_⟩
  unfold PatIs
  simp

theorem newMatchPattern_ok (h : Heap) (g : Right h) (s : Str) (last : Bool) :
    (∃ m, mkMatchPattern s last = .ok m ∧ ∃ h', newMatchPattern s last h = (.ok h.pats.length, h') ∧ Step h h' ∧ MatchIs h' h.pats.length m) ∨
    (∃ e, mkMatchPattern s last = .error e ∧ newMatchPattern s last h = (.error e, h)) := by
  unfold newMatchPattern mkMatchPattern
  cases hu : patternUnits s with
  | error e => exact .inr ⟨e, rfl, rfl⟩
  | ok us =>
    refine .inl ⟨_, rfl, _, rfl, Step.addPat g _ ⟨?_, fun _ q => (by cases q), fun _ q => (by cases q)⟩, ?_, hu⟩
    · intro l hl
      have hl := (Option.some.inj hl).symm
      subst hl
      refine ⟨by rw [List.map_map]; show _ = Except.ok (us.map id); rw [List.map_id]; exact hu, ?_⟩
      intro x hx t ht
      obtain ⟨u, _, rfl⟩ := List.mem_map.mp hx
      cases ht
    · simp

theorem patLess_ok {h : Heap} {a b : Nat} {m n : MatchPattern} (g : Right h) (x : MatchIs h a m) (y : MatchIs h b n) :
    ∃ h', patLess a b h = (m.lt n, h') ∧ Step h h' := by
  obtain ⟨o, e1, s1⟩ := x.patIs.get
  obtain ⟨o', e2, s2⟩ := y.patIs.get
  have c1 : o.cls = some m.cls := by have q := x.1; rw [e1] at q; exact (Prod.mk.inj (Option.some.inj q)).2
  have c2 : o'.cls = some n.cls := by have q := y.1; rw [e2] at q; exact (Prod.mk.inj (Option.some.inj q)).2
  unfold patLess MatchPattern.lt
  rw [e1, e2]
  dsimp only
  rw [c1, c2]
  dsimp only
  split
  · obtain ⟨h1, f1, t1⟩ := readCmp_ok g x.patIs m.cls
    obtain ⟨h2, f2, t2⟩ := readCmp_ok t1.good (t1.patIs y.patIs) n.cls
    rw [x.2] at f1
    rw [y.2] at f2
    have f1 : readCmp a h = (m.cmpKey, h1) := f1
    have f2 : readCmp b h1 = (n.cmpKey, h2) := f2
    cases k1 : m.cmpKey with
    | error er => rw [k1] at f1; exact ⟨h1, by rw [then_error f1]; rfl, t1⟩
    | ok u =>
      rw [k1] at f1
      rw [then_ok f1]
      cases k2 : n.cmpKey with
      | error er => rw [k2] at f2; exact ⟨h2, by rw [then_error f2]; rfl, t1.trans t2⟩
      | ok w => rw [k2] at f2; exact ⟨h2, by rw [then_ok f2]; rfl, t1.trans t2⟩
  · exact ⟨h, rfl, Step.refl g⟩

/-- With no object at the address nothing changes. -/
theorem RightViews.is {h : Heap} (g : Right h) {v : Nat} {o : ViewObj} (e : h.views[v]? = some o) : ∃ p, ViewIs h v o.cls p := by
  obtain ⟨p, gv⟩ := g.vw v o e
  exact ⟨p, o, e, rfl, gv.pp⟩

theorem then_step {α β : Type} {x : HM α} {f : α → HM β} {h : Heap} (s : Step h (x h).2) (t : ∀ a h', Right h' → Step h' (f a h').2) :
    Step h (x.then f h).2 := by
  unfold HM.then
  split
  · rename_i a h' e
    rw [e] at s
    exact s.trans (t a h' s.good)
  · rename_i er h' e
    rw [e] at s
    exact s

theorem val_step {α : Type} (a : α) (h : Heap) (g : Right h) : Step h (HM.val a h).2 := Step.refl g

theorem readPiece_step (a : Nat) {h : Heap} (g : Right h) : Step h (readPiece a h).2 := by
  cases e : h.pieces[a]? with
  | none => unfold readPiece; rw [e]; exact Step.refl g
  | some o =>
    obtain ⟨h', f, s⟩ := readPiece_ok (p := o.val) g.pc (show PieceIs h a o.val by unfold PieceIs; rw [e]; rfl)
    rw [f]; exact s.step g

theorem readFuzzy_step (a : Nat) {h : Heap} (g : Right h) : Step h (readFuzzy a h).2 := by
  cases e : h.pieces[a]? with
  | none => unfold readFuzzy; rw [e]; exact Step.refl g
  | some o =>
    obtain ⟨h', f, s⟩ := readFuzzy_ok (p := o.val) g.pc (show PieceIs h a o.val by unfold PieceIs; rw [e]; rfl)
    rw [f]; exact s.step g

theorem readLength_step (a : Nat) {h : Heap} (g : Right h) : Step h (readLength a h).2 := by
  cases e : h.pieces[a]? with
  | none => unfold readLength; rw [e]; exact Step.refl g
  | some o =>
    obtain ⟨h', f, s⟩ := readLength_ok (p := o.val) g.pc (show PieceIs h a o.val by unfold PieceIs; rw [e]; rfl)
    rw [f]; exact s.step g

theorem newView_step (cls : ViewCls) (a : Nat) {h : Heap} (g : Right h) : Step h (newView cls a h).2 := by
  cases e : h.pieces[a]? with
  | none => unfold newView; rw [e]; exact Step.refl g
  | some o =>
    rcases newView_ok (cls := cls) g (show PieceIs h a o.val by unfold PieceIs; rw [e]; rfl) with ⟨_, _, h', f, s, _⟩ | ⟨_, _, h', f, s⟩
    · rw [f]; exact s
    · rw [f]; exact s

theorem readParts_step (v : Nat) {h : Heap} (g : Right h) : Step h (readParts v h).2 := by
  cases e : h.views[v]? with
  | none => unfold readParts; rw [e]; exact Step.refl g
  | some o =>
    obtain ⟨p, x⟩ := RightViews.is g e
    obtain ⟨l, h', f, s, _⟩ := readParts_ok g x
    rw [f]; exact s

theorem readView_step (v : Nat) {h : Heap} (g : Right h) : Step h (readView v h).2 := by
  cases e : h.views[v]? with
  | none => unfold readView; rw [e]; exact Step.refl g
  | some o =>
    obtain ⟨p, x⟩ := RightViews.is g e
    obtain ⟨l, h', f, _, s⟩ := readView_ok g x
    rw [f]; exact s

theorem readUnits_step (a : Nat) {h : Heap} (g : Right h) : Step h (readUnits a h).2 := by
  cases e : h.pats[a]? with
  | none => unfold readUnits; rw [e]; exact Step.refl g
  | some o =>
    obtain ⟨h', f, s, _⟩ := readUnits_ok (s := o.str) g (show PatIs h a o.str by unfold PatIs; rw [e]; rfl)
    rw [f]; exact s

theorem readPatFuzzy_step (a : Nat) {h : Heap} (g : Right h) : Step h (readPatFuzzy a h).2 := by
  cases e : h.pats[a]? with
  | none => unfold readPatFuzzy; rw [e]; exact Step.refl g
  | some o =>
    obtain ⟨h', f, s⟩ := readPatFuzzy_ok (s := o.str) g (show PatIs h a o.str by unfold PatIs; rw [e]; rfl)
    rw [f]; exact s

theorem readUnitFuzzy_step (a i : Nat) {h : Heap} (g : Right h) : Step h (readUnitFuzzy a i h).2 := by
  cases e : h.pats[a]? with
  | none => unfold readUnitFuzzy HM.then readUnits; rw [e]; exact Step.refl g
  | some o =>
    obtain ⟨h', f, s⟩ := readUnitFuzzy_ok (i := i) (s := o.str) g (show PatIs h a o.str by unfold PatIs; rw [e]; rfl)
    rw [f]; exact s

theorem readCmp_step (a : Nat) {h : Heap} (g : Right h) : Step h (readCmp a h).2 := by
  cases e : h.pats[a]? with
  | none => unfold readCmp; rw [e]; exact Step.refl g
  | some o =>
    obtain ⟨h', f, s⟩ := readCmp_ok (s := o.str) g (show PatIs h a o.str by unfold PatIs; rw [e]; rfl) .piece
    rw [f]; exact s

theorem patLess_step (a b : Nat) {h : Heap} (g : Right h) : Step h (patLess a b h).2 := by
  unfold patLess
  split
  · split
    · split
      · exact then_step (readCmp_step a g) (fun _ _ g => then_step (readCmp_step b g) (fun _ _ g => val_step _ _ g))
      · exact Step.refl g
    · exact Step.refl g
  · exact Step.refl g

theorem objStep_step (hash : ViewKey → Int) (c : ObjCmd) {h : Heap} (g : Right h) : Step h (objStep hash c h).2 := by
  cases c with
  | newPiece p => exact ((newPiece_ok p h).2.1).step g
  | piece a => exact then_step (readPiece_step a g) (fun _ _ g => val_step _ _ g)
  | fuzzy a => exact then_step (readFuzzy_step a g) (fun _ _ g => val_step _ _ g)
  | length a => exact then_step (readLength_step a g) (fun _ _ g => val_step _ _ g)
  | newView cls a => exact then_step (newView_step cls a g) (fun _ _ g => val_step _ _ g)
  | parts v => exact then_step (readParts_step v g) (fun _ _ g => val_step _ _ g)
  | view v => exact then_step (readView_step v g) (fun _ _ g => val_step _ _ g)
  | newPattern s =>
    obtain ⟨h', e, s', _⟩ := newPattern_ok h g s
    exact then_step (by rw [e]; exact s') (fun _ _ g => val_step _ _ g)
  | newMatchPattern s last =>
    refine then_step ?_ (fun _ _ g => val_step _ _ g)
    rcases newMatchPattern_ok h g s last with ⟨_, _, h', e, s', _⟩ | ⟨_, _, e⟩
    · rw [e]; exact s'
    · rw [e]; exact Step.refl g
  | units a => exact then_step (readUnits_step a g) (fun _ _ g => val_step _ _ g)
  | patFuzzy a => exact then_step (readPatFuzzy_step a g) (fun _ _ g => val_step _ _ g)
  | unitFuzzy a i => exact then_step (readUnitFuzzy_step a i g) (fun _ _ g => val_step _ _ g)
  | cmpKey a => exact then_step (readCmp_step a g) (fun _ _ g => val_step _ _ g)
  | eqPiece a b => exact then_step (readPiece_step a g) (fun _ _ g => then_step (readPiece_step b g) (fun _ _ g => val_step _ _ g))
  | eqView a b => exact then_step (readView_step a g) (fun _ _ g => then_step (readView_step b g) (fun _ _ g => val_step _ _ g))
  | hashPiece a => exact then_step (readPiece_step a g) (fun _ _ g => val_step _ _ g)
  | hashView v => exact then_step (readView_step v g) (fun _ _ g => val_step _ _ g)
  | less a b => exact then_step (patLess_step a b g) (fun _ _ g => val_step _ _ g)

theorem objRun_step (hash : ViewKey → Int) : ∀ (cs : List ObjCmd) {h : Heap}, Right h → Step h (objRun hash cs h)
  | [], _, g => Step.refl g
  | c :: cs, _, g => (objStep_step hash c g).trans (objRun_step hash cs (objStep_step hash c g).good)

theorem good_none : Right noObjects :=
  ⟨fun a o e => by simp [noObjects] at e, fun a o e => by simp [noObjects] at e, fun a o e => by simp [noObjects] at e⟩

/-! ## The parser object -/

theorem modify_mid {α : Type} (f : α → α) (t : α) (post : List α) : ∀ (pre : List α) (i : Nat), i = pre.length →
    (pre ++ t :: post).modify i f = pre ++ f t :: post
  | [], _, rfl => rfl
  | x :: pre, _, rfl => by
    show x :: ((pre ++ t :: post).modify pre.length f) = _
    rw [modify_mid f t post pre _ rfl]; rfl

/-- The runs of the model in the order of the object. -/
theorem defineAll_eq : ∀ (w : Str) (runs : List (Str × Str)),
    (ParserObj.defineAll ⟨(runs.reverse).map (·.2), (runs.reverse).map (·.1)⟩ w).1 = (w.foldlM parserDefine runs).map (fun _ => ()) ∧
    ∀ runs', w.foldlM parserDefine runs = .ok runs' →
      (ParserObj.defineAll ⟨(runs.reverse).map (·.2), (runs.reverse).map (·.1)⟩ w).2 = ⟨(runs'.reverse).map (·.2), (runs'.reverse).map (·.1)⟩
  | [], runs => ⟨rfl, fun runs' h => by
      have : runs = runs' := Except.ok.inj h
      subst this; rfl⟩
  | c :: w, runs => by
    have step : (charRule c = none ∧ parserDefine runs c = .error .invalidChar ∧
          ParserObj.define ⟨(runs.reverse).map (·.2), (runs.reverse).map (·.1)⟩ c =
            (.error .invalidChar, ⟨(runs.reverse).map (·.2), (runs.reverse).map (·.1)⟩)) ∨
        ∃ r1, parserDefine runs c = .ok r1 ∧
          ParserObj.define ⟨(runs.reverse).map (·.2), (runs.reverse).map (·.1)⟩ c = (.ok (), ⟨(r1.reverse).map (·.2), (r1.reverse).map (·.1)⟩) := by
      unfold parserDefine ParserObj.define
      cases hr : charRule c with
      | none => exact .inl ⟨rfl, rfl, rfl⟩
      | some rule =>
        refine .inr ?_
        cases runs with
        | nil => exact ⟨_, rfl, rfl⟩
        | cons q rest =>
          obtain ⟨buf, r⟩ := q
          dsimp only
          have hlast : (((buf, r) :: rest).reverse.map (·.2)).getLast? = some r := by simp
          rw [hlast]
          by_cases e : r = rule
          · subst e
            refine ⟨_, if_pos rfl, ?_⟩
            have := modify_mid (fun x : Str => x ++ [c]) buf [] (rest.map (·.1)).reverse rest.length (by simp)
            simpa using this
          · refine ⟨_, if_neg e, ?_⟩
            have : some r ≠ some rule := fun h => e (Option.some.inj h)
            rw [if_pos this]
            have := modify_mid (fun x : Str => x ++ [c]) [] [] ((rest.map (·.1)).reverse ++ [buf]) (rest.length + 1) (by simp)
            simpa using this
    unfold ParserObj.defineAll
    rcases step with ⟨_, s1, s2⟩ | ⟨r1, s1, s2⟩
    · rw [s2, List.foldlM_cons, s1]
      exact ⟨rfl, fun runs' h => by cases h⟩
    · rw [s2, List.foldlM_cons, s1]
      exact defineAll_eq w r1

theorem normalizeFrom_eq : ∀ (n i : Nat) (rules pre post : List Str), pre.length = i → post.length = n → rules.length = i + n →
    ParserObj.normalizeFrom ⟨rules, pre ++ post⟩ n i = ⟨rules, pre ++ (post.zip (rules.drop i)).map (fun q => parserNormalize q.1 q.2)⟩
  | 0, i, rules, pre, post, _, h2, _ => by
    cases post with
    | nil => simp [ParserObj.normalizeFrom]
    | cons _ _ => cases h2
  | n + 1, i, rules, pre, post, h1, h2, h3 => by
    cases post with
    | nil => cases h2
    | cons t post =>
      have hi : i < rules.length := by omega
      unfold ParserObj.normalizeFrom
      dsimp only
      have hd : rules.drop i = rules[i] :: rules.drop (i + 1) := List.drop_eq_getElem_cons hi
      have hm : (pre ++ t :: post).modify i (fun t => parserNormalize t (rules.getD i [])) = (pre ++ [parserNormalize t rules[i]]) ++ post := by
        subst h1
        rw [List.getD_eq_getElem?_getD, List.getElem?_eq_getElem hi]
        have := modify_mid (fun t : Str => parserNormalize t rules[pre.length]) t post pre _ rfl
        simpa using this
      rw [hm, normalizeFrom_eq n (i + 1) rules (pre ++ [parserNormalize t rules[i]]) post (by simp [h1]) (by simpa using h2) (by omega), hd,
        List.zip_cons_cons]
      simp

theorem parse_obj (s : ParserObj) (piece : Str) : (s.parse piece).1 = parsePiece piece := by
  have := defineAll_eq piece []
  unfold ParserObj.parse ParserObj.reset parsePiece
  have e1 := this.1
  have e2 := this.2
  simp only [List.reverse_nil, List.map_nil] at e1 e2
  cases hd : ParserObj.defineAll ⟨[], []⟩ piece with
  | mk r t =>
    rw [hd] at e1 e2
    dsimp only at e1 e2
    cases hf : piece.foldlM parserDefine [] with
    | error er =>
      rw [hf] at e1
      have : r = .error er := e1
      subst this
      rfl
    | ok runs =>
      rw [hf] at e1
      have : r = .ok () := e1
      subst this
      have ht := e2 runs hf
      subst ht
      dsimp only
      have := normalizeFrom_eq runs.length 0 (runs.reverse.map (·.2)) [] (runs.reverse.map (·.1)) rfl (by simp) (by simp)
      simp only [List.nil_append, List.drop_zero] at this
      have hl : (runs.reverse.map (·.1)).length = runs.length := by simp
      show Except.ok (ParsedPiece.mk (ParserObj.normalizeFrom _ (runs.reverse.map (·.1)).length 0).pieces (ParserObj.normalizeFrom _ (runs.reverse.map (·.1)).length 0).rules) = Except.ok _
      rw [hl, this]
      congr 2
      rw [List.zip_map', List.map_map]
      rfl

end OsUrl
