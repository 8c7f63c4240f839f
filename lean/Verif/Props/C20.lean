import Verif.Props.C18
import Verif.Props.C15

/-! # C20: match results are strictly ordered -/

namespace OsUrl
open Spec

/-- The key `MatchPattern.cmp_key` of a well-formed pattern. -/
def patKey (p : MatchPattern) : Str := (p.units.reverse.map (fun u => natStr (viewOrder (unitCls u)))).flatten

theorem cmpKey_eq {p : MatchPattern} (h : GoodPat p) : p.cmpKey = .ok (patKey p) := by
  have h1 : ∀ us : List PatternUnit, (∀ u ∈ us, patternUnits u.str = .ok [u]) →
      us.mapM (fun u => mkMatchPattern u.str) = .ok (us.map unitMP) := by
    intro us
    induction us with
    | nil => intro _; rfl
    | cons u us ih =>
      intro h
      simp only [List.mapM_cons, mk_unitMP (h u (by simp)), ih (fun v hv => h v (by simp [hv])), bind, Except.bind, pure,
        Except.pure, List.map_cons]
  unfold MatchPattern.cmpKey
  rw [h1 _ (fun u hu => h.unit u (List.mem_reverse.mp hu))]
  simp only [bind, Except.bind, pure, Except.pure, patKey, List.map_map]
  rfl

/-- `MatchPattern.__lt__` on well-formed patterns. -/
def ltB (p q : MatchPattern) : Bool :=
  if p.cls = q.cls then strLt (patKey q) (patKey p) else decide (viewOrder p.cls > viewOrder q.cls)

theorem lt_eq {p q : MatchPattern} (hp : GoodPat p) (hq : GoodPat q) : p.lt q = .ok (ltB p q) := by
  unfold MatchPattern.lt ltB
  by_cases h : p.cls = q.cls
  · rw [if_pos h, if_pos h, cmpKey_eq hp, cmpKey_eq hq]; rfl
  · rw [if_neg h, if_neg h]; rfl

theorem ltB_irrefl (p : MatchPattern) : ltB p p = false := by simp [ltB, strLt_irrefl]

theorem ltB_trans {p q r : MatchPattern} (h1 : ltB p q = true) (h2 : ltB q r = true) : ltB p r = true := by
  unfold ltB at *
  by_cases a : p.cls = q.cls <;> by_cases b : q.cls = r.cls
  · rw [if_pos a] at h1; rw [if_pos b] at h2; rw [if_pos (a.trans b)]
    exact strLt_trans h2 h1
  · rw [if_neg b] at h2; rw [if_neg (by rw [a]; exact b), a]; exact h2
  · rw [if_neg a] at h1; rw [if_neg (by rw [← b]; exact a), ← b]; exact h1
  · rw [if_neg a] at h1; rw [if_neg b] at h2
    simp only [decide_eq_true_eq] at h1 h2
    rw [if_neg (by intro e; rw [e] at h1; omega)]
    exact decide_eq_true (by omega)

/-- `ltUp` on well-formed patterns. -/
def ltUpB : List MatchPattern → List MatchPattern → Bool
  | [], _ => false
  | _ :: _, [] => false
  | p :: ps, q :: qs => if p.str = q.str then ltUpB ps qs else ltB p q

theorem ltUp_eq {a b : List MatchPattern} (ha : ∀ p ∈ a, GoodPat p) (hb : ∀ p ∈ b, GoodPat p) : ltUp a b = .ok (ltUpB a b) := by
  induction a generalizing b with
  | nil => rfl
  | cons p a ih =>
    cases b with
    | nil => rfl
    | cons q b =>
      unfold ltUp ltUpB
      by_cases h : p.str = q.str
      · rw [if_pos h, if_pos h]
        exact ih (fun x hx => ha x (by simp [hx])) (fun x hx => hb x (by simp [hx]))
      · rw [if_neg h, if_neg h]
        exact lt_eq (ha p (by simp)) (hb q (by simp))

/-- The same text at the same position is the same pattern. -/
def Same : List MatchPattern → List MatchPattern → Prop
  | p :: ps, q :: qs => (p.str = q.str → p = q) ∧ Same ps qs
  | [], [] => True
  | _, _ => False

theorem same_of {a b : List MatchPattern} (hl : a.length = b.length)
    (h : ∀ (i : Nat) (p q : MatchPattern), a[i]? = some p → b[i]? = some q → p.str = q.str → p = q) : Same a b := by
  induction a generalizing b with
  | nil =>
    cases b with
    | nil => trivial
    | cons q b => simp at hl
  | cons p a ih =>
    cases b with
    | nil => simp at hl
    | cons q b =>
      exact ⟨h 0 p q rfl rfl, ih (by simpa using hl) (fun i x y hx hy => h (i + 1) x y (by simpa using hx) (by simpa using hy))⟩

theorem ltUpB_cons (p q : MatchPattern) (a b : List MatchPattern) :
    ltUpB (p :: a) (q :: b) = if p.str = q.str then ltUpB a b else ltB p q := rfl

theorem ltUpB_trans {a b c : List MatchPattern} (hab : Same a b) (hbc : Same b c) (hac : Same a c) (h1 : ltUpB a b = true)
    (h2 : ltUpB b c = true) : ltUpB a c = true := by
  induction a generalizing b c with
  | nil => simp [ltUpB] at h1
  | cons p a ih =>
    cases b with
    | nil => simp [ltUpB] at h1
    | cons q b =>
      cases c with
      | nil => simp [ltUpB] at h2
      | cons r c =>
        rw [ltUpB_cons] at *
        by_cases e1 : p.str = q.str <;> by_cases e2 : q.str = r.str
        · rw [if_pos e1] at h1; rw [if_pos e2] at h2; rw [if_pos (e1.trans e2)]
          exact ih hab.2 hbc.2 hac.2 h1 h2
        · have := hab.1 e1
          subst this
          rw [if_neg e2] at h2 ⊢
          exact h2
        · have := hbc.1 e2
          subst this
          rw [if_neg e1] at h1 ⊢
          exact h1
        · rw [if_neg e1] at h1; rw [if_neg e2] at h2
          have h3 := ltB_trans h1 h2
          rw [if_neg]
          · exact h3
          · intro e3
            rw [hac.1 e3, ltB_irrefl] at h3
            cases h3

theorem ltUpB_asymm {a b : List MatchPattern} (h1 : ltUpB a b = true) : ltUpB b a = false := by
  induction a generalizing b with
  | nil => simp [ltUpB] at h1
  | cons p a ih =>
    cases b with
    | nil => simp [ltUpB] at h1
    | cons q b =>
      rw [ltUpB_cons] at *
      by_cases e1 : p.str = q.str
      · rw [if_pos e1] at h1; rw [if_pos e1.symm]
        exact ih h1
      · rw [if_neg e1] at h1; rw [if_neg (Ne.symm e1)]
        cases h : ltB q p with
        | false => rfl
        | true =>
          have := ltB_trans h1 h
          rw [ltB_irrefl] at this
          cases this

theorem Same.strs {a b : List MatchPattern} (h : Same a b) (e : a.map (·.str) = b.map (·.str)) : a = b := by
  induction a generalizing b with
  | nil =>
    cases b with
    | nil => rfl
    | cons q b => simp at e
  | cons p a ih =>
    cases b with
    | nil => simp at e
    | cons q b =>
      simp only [List.map_cons, List.cons.injEq] at e
      rw [h.1 e.1, ih h.2 e.2]

theorem ltUpB_irrefl (a : List MatchPattern) : ltUpB a a = false := by
  cases h : ltUpB a a with
  | false => rfl
  | true => have := ltUpB_asymm h; rw [h] at this; cases this

/-- What is known of two results for one URL. -/
structure Results (a b : List MatchPattern) : Prop where
  good : ∀ p ∈ a, GoodPat p
  good' : ∀ p ∈ b, GoodPat p
  same : Same a.reverse b.reverse

theorem matched_lt {a b : Matched FullStore Str} (h : Results a.path b.path) :
    a.lt b = .ok (ltUpB a.path.reverse b.path.reverse) := by
  unfold Matched.lt
  by_cases e : a.path.map (·.str) = b.path.map (·.str)
  · rw [if_pos e]
    have e' : a.path.reverse.map (·.str) = b.path.reverse.map (·.str) := by rw [List.map_reverse, e, List.map_reverse]
    rw [h.same.strs e', ltUpB_irrefl]
  · rw [if_neg e]
    exact ltUp_eq (fun p hp => h.good p (List.mem_reverse.mp hp)) (fun p hp => h.good' p (List.mem_reverse.mp hp))

theorem parse_same {s t : Str} {m : URLMeta} {a b : List MatchPattern} (h1 : parse s = .ok (m, .patterns a))
    (h2 : parse t = .ok (m, .patterns b)) : Results a b := by
  have hl : a.length = b.length := by
    have x := (rec_depth (hist := [(s, none), (t, none)]) (r := ⟨m, a, none⟩) (mem_macc.mpr ⟨s, by simp, h1⟩)).1
    have y := (rec_depth (hist := [(s, none), (t, none)]) (r := ⟨m, b, none⟩) (mem_macc.mpr ⟨t, by simp, h2⟩)).1
    exact x.trans y.symm
  refine ⟨fun p hp => parse_good h1 hp, fun p hp => parse_good h2 hp, same_of (by simpa using hl) ?_⟩
  intro i p q hp hq e
  have hi : i < a.length := by
    have := (List.getElem?_eq_some_iff.mp hp).1; simpa using this
  rw [List.getElem?_reverse (by omega)] at hp hq
  rw [← hl] at hq
  have x := parse_patterns_at h1 _ p hp
  have y := parse_patterns_at h2 _ q hq
  rw [e, y] at x
  simpa using x.symm

theorem result_parse {md5 : Str → Str} {hist : List (Str × Option Str)} {url : Str} {m : URLMeta}
    {pps : List ParsedPiece} (h : parse url = .ok (m, .pieces pps)) (hc : NoClash md5 (url :: hist.map (·.1)))
    {rs : List (Matched FullStore Str)} (hm : (mloadAll md5 hist).match_ md5 url = .ok rs)
    {x : Matched FullStore Str} (hx : x ∈ rs) : ∃ s, parse s = .ok (m, .patterns x.path) := by
  obtain ⟨⟨s, -, -, e⟩, -⟩ := C15_structure md5 hist url m pps h hc rs hm x hx
  exact ⟨s, e⟩

/-- **C20**: on the results of a `match`, `<` raises nothing and is irreflexive, asymmetric and
transitive. -/
theorem C20_strict (md5 : Str → Str) (hist : List (Str × Option Str)) (url : Str) (m : URLMeta)
    (pps : List ParsedPiece) (h : parse url = .ok (m, .pieces pps)) (hc : NoClash md5 (url :: hist.map (·.1)))
    (rs : List (Matched FullStore Str)) (hm : (mloadAll md5 hist).match_ md5 url = .ok rs) :
    (∀ x ∈ rs, ∀ y ∈ rs, x.lt y = .ok true ∨ x.lt y = .ok false) ∧
    (∀ x ∈ rs, x.lt x = .ok false) ∧
    (∀ x ∈ rs, ∀ y ∈ rs, x.lt y = .ok true → y.lt x = .ok false) ∧
    (∀ x ∈ rs, ∀ y ∈ rs, ∀ z ∈ rs, x.lt y = .ok true → y.lt z = .ok true → x.lt z = .ok true) := by
  have hr : ∀ x ∈ rs, ∀ y ∈ rs, Results x.path y.path := by
    intro x hx y hy
    obtain ⟨s, e1⟩ := result_parse h hc hm hx
    obtain ⟨t, e2⟩ := result_parse h hc hm hy
    exact parse_same e1 e2
  refine ⟨?_, ?_, ?_, ?_⟩
  · intro x hx y hy
    rw [matched_lt (hr x hx y hy)]
    cases ltUpB x.path.reverse y.path.reverse <;> simp
  · intro x hx
    rw [matched_lt (hr x hx x hx), ltUpB_irrefl]
  · intro x hx y hy e
    rw [matched_lt (hr x hx y hy), Except.ok.injEq] at e
    rw [matched_lt (hr y hy x hx), ltUpB_asymm e]
  · intro x hx y hy z hz e1 e2
    rw [matched_lt (hr x hx y hy), Except.ok.injEq] at e1
    rw [matched_lt (hr y hy z hz), Except.ok.injEq] at e2
    rw [matched_lt (hr x hx z hz), ltUpB_trans (hr x hx y hy).same (hr y hy z hz).same (hr x hx z hz).same e1 e2]

/-! ### generated patterns are comparable -/

theorem gu_fuzzyRule {u : GUnit} (h : u.Valid) : (guUnit u).fuzzyRule = (u.spaces.map Space.text).flatten := by
  obtain ⟨-, hs, -⟩ := gu_rules_mem h
  unfold PatternUnit.fuzzyRule joinSorted
  rw [sortedSet_of_ssorted hs]
  rfl

/-- A wildcard unit is written as the program writes it. -/
theorem gu_wild {u : GUnit} (h : u.Valid) (hc : unitCls (guUnit u) = .fuzzy) :
    (guUnit u).str = '[' :: (guUnit u).fuzzyRule ++ [']', '+'] := by
  have hn : (guUnit u).num < 0 := by
    unfold unitCls at hc
    split at hc
    · cases hc
    · split at hc
      · assumption
      · cases hc
  rw [gu_fuzzyRule h]
  cases u with
  | run sp w => simp [guUnit] at hn; omega
  | cls R n => simp [guUnit] at hn; omega
  | wild R => rfl

/-- A unit of a generated pattern (or of the empty one). -/
def GenUnit (u : PatternUnit) : Prop := u = ⟨[], [[]], 1⟩ ∨ ∃ g : GUnit, g.Valid ∧ u = guUnit g

/-- Two units of the same class and rule that are selected by the same piece are equal. -/
theorem unit_determined {u v : PatternUnit} (hu : GenUnit u) (hv : GenUnit v) (hc : unitCls u = unitCls v)
    (hf : u.fuzzyRule = v.fuzzyRule) {pp : ParsedPiece} (h1 : SelU pp (unitMP u)) (h2 : SelU pp (unitMP v)) :
    u.str = v.str := by
  have hlen : ∀ {u}, GenUnit u → unitCls u = .length → u.str = specStr u.fuzzyRule u.num := by
    rintro u (rfl | ⟨g, hg, rfl⟩) h
    · revert h; decide
    · exact gu_canon hg h
  have hwild : ∀ {u}, GenUnit u → unitCls u = .fuzzy → u.str = '[' :: u.fuzzyRule ++ [']', '+'] := by
    rintro u (rfl | ⟨g, hg, rfl⟩) h
    · revert h; decide
    · exact gu_wild hg h
  rcases unitMP_simple u with c | c | c
  · have c1 : unitCls u = .piece := c
    have c2 : unitCls v = .piece := hc ▸ c1
    simp only [SelU, unitMP, c1, c2] at h1 h2
    rw [← h1, ← h2]
  · have c1 : unitCls u = .length := c
    have c2 : unitCls v = .length := hc ▸ c1
    simp only [SelU, unitMP, c1, c2, headNum, List.head?_cons, Option.map_some, Option.some.injEq] at h1 h2
    obtain ⟨l, e1, e2⟩ := h1
    obtain ⟨l', e3, e4⟩ := h2
    rw [e1] at e3
    simp only [Except.ok.injEq] at e3
    rw [hlen hu c1, hlen hv c2, hf, e2, e4, e3]
  · have c1 : unitCls u = .fuzzy := c
    have c2 : unitCls v = .fuzzy := hc ▸ c1
    rw [hwild hu c1, hwild hv c2, hf]

theorem natStr_order_length (c : ViewCls) : ∃ d, natStr (viewOrder c) = [d] := by
  cases c <;> exact ⟨_, rfl⟩

theorem natStr_order_inj {a b : ViewCls} (h : natStr (viewOrder a) = natStr (viewOrder b)) : a = b := by
  cases a <;> cases b <;> first | rfl | (exfalso; revert h; decide)

theorem classes_of_key {us vs : List PatternUnit}
    (h : (us.map (fun u => natStr (viewOrder (unitCls u)))).flatten = (vs.map (fun u => natStr (viewOrder (unitCls u)))).flatten) :
    us.map unitCls = vs.map unitCls := by
  induction us generalizing vs with
  | nil =>
    cases vs with
    | nil => rfl
    | cons v vs =>
      obtain ⟨d, hd⟩ := natStr_order_length (unitCls v)
      simp [hd] at h
  | cons u us ih =>
    cases vs with
    | nil =>
      obtain ⟨d, hd⟩ := natStr_order_length (unitCls u)
      simp [hd] at h
    | cons v vs =>
      obtain ⟨d, hd⟩ := natStr_order_length (unitCls u)
      obtain ⟨e, he⟩ := natStr_order_length (unitCls v)
      simp only [List.map_cons, List.flatten_cons, hd, he, List.cons_append, List.nil_append, List.cons.injEq] at h
      have : unitCls u = unitCls v := natStr_order_inj (by rw [hd, he, h.1])
      rw [List.map_cons, List.map_cons, this, ih h.2]

theorem gen_genUnit {p : MatchPattern} (h : GoodPat p) {us : List GUnit} (hg : Generated us) (e : p.str = patText us) :
    ∀ u ∈ p.units, GenUnit u := by
  intro u hu
  rw [good_gen h hg.valid hg.apart e] at hu
  split at hu
  · simp at hu; exact .inl hu
  · obtain ⟨g, hgu, rfl⟩ := List.mem_map.mp hu
    exact .inr ⟨g, hg.valid g hgu, rfl⟩

/-- A class of single units: either a literal or one unit. -/
theorem simple_one {p : MatchPattern} (h : GoodPat p) (hc : p.cls = .length ∨ p.cls = .fuzzy) : ∃ u, p.units = [u] := by
  obtain ⟨b, hb⟩ := h.2
  rcases hu : p.units with _ | ⟨u, _ | ⟨v, us⟩⟩
  · exact absurd hu h.ne
  · exact ⟨u, rfl⟩
  · exfalso
    rw [hu] at hb
    unfold viewClsFromUnits at hb
    simp only at hb
    rcases hc with hc | hc <;>
    · rw [hc] at hb
      revert hb
      split <;> (repeat' split) <;> simp

/-- Two generated patterns selected by one piece are equal or comparable. -/
theorem pattern_total {s : Str} {p q : MatchPattern} (hp : AtPos s p) (hq : AtPos s q) (gp : ∀ u ∈ p.units, GenUnit u)
    (gq : ∀ u ∈ q.units, GenUnit u) (sp : SelF (ppOf (runsOf s)) p) (sq : SelF (ppOf (runsOf s)) q)
    (h1 : ltB p q = false) (h2 : ltB q p = false) : p.str = q.str := by
  unfold ltB at h1 h2
  by_cases hc : p.cls = q.cls
  · rw [if_pos hc] at h1
    rw [if_pos hc.symm] at h2
    have hk := strLt_total h2 h1
    have hcls : p.units.map unitCls = q.units.map unitCls := by
      have := classes_of_key hk
      rw [List.map_reverse, List.map_reverse] at this
      exact List.reverse_inj.mp this
    have hlen : p.units.length = q.units.length := by simpa using congrArg List.length hcls
    -- unit by unit
    have hunits : (∀ (i : Nat) u v, p.units[i]? = some u → q.units[i]? = some v → u.str = v.str) → p.str = q.str := by
      intro h
      rw [← hp.good.flat, ← hq.good.flat]
      congr 1
      apply List.ext_getElem?
      intro i
      simp only [List.getElem?_map]
      cases hi : p.units[i]? with
      | none =>
        have : q.units[i]? = none := by rw [List.getElem?_eq_none_iff] at hi ⊢; omega
        rw [this]
      | some u =>
        have hlt : i < q.units.length := by have := (List.getElem?_eq_some_iff.mp hi).1; omega
        have hv := List.getElem?_eq_getElem hlt
        rw [hv]
        simp only [Option.map_some, Option.some.injEq]
        exact h i u _ hi hv
    have hucls : ∀ (i : Nat) u v, p.units[i]? = some u → q.units[i]? = some v → unitCls u = unitCls v := by
      intro i u v e1 e2
      have := congrArg (fun l => l[i]?) hcls
      simpa [e1, e2] using this
    rcases cls_cases p.cls with hs | hm
    · unfold SelF at sp sq
      rw [if_pos hs] at sp
      rw [if_pos (hc ▸ hs)] at sq
      rcases hs with c | c
      · simp only [SelU, c] at sp
        simp only [SelU, ← hc, c] at sq
        rw [← sp, ← sq]
      · obtain ⟨u, eu⟩ := simple_one hp.good c
        obtain ⟨v, ev⟩ := simple_one hq.good (hc ▸ c)
        have hf : u.fuzzyRule = v.fuzzyRule := by
          have := hp.fuzzy.trans hq.fuzzy.symm
          rw [eu, ev] at this
          simpa [unitsFuzzyRule, PatternUnit.fuzzyRule] using this
        have mk : ∀ {p : MatchPattern} {u}, GoodPat p → p.units = [u] → p = unitMP u := by
          intro p u hg e
          obtain ⟨b, hb⟩ := hg.2
          have hfl := hg.flat
          rw [e] at hb hfl
          have e3 : p.cls = unitCls u := hb
          have e4 : p.str = u.str := by simpa using hfl.symm
          cases p
          simp only at e e3 e4
          subst e e3 e4
          rfl
        rw [mk hp.good eu] at sp
        rw [mk hq.good ev] at sq
        have := unit_determined (gp u (by simp [eu])) (gq v (by simp [ev])) (hucls 0 u v (by simp [eu]) (by simp [ev])) hf sp sq
        rw [← hp.good.flat, ← hq.good.flat, eu, ev]
        simp [this]
    · unfold SelF at sp sq
      have hns := multi_not_simple hm
      rw [if_neg hns] at sp
      rw [if_neg (hc ▸ hns), ← hc] at sq
      apply hunits
      intro i u v e1 e2
      have hvl : (viewPieces p.cls (ppOf (runsOf s))).length = p.units.length := by
        simpa using congrArg List.length sp.1
      have hlt : i < (viewPieces p.cls (ppOf (runsOf s))).length := by
        have := (List.getElem?_eq_some_iff.mp e1).1; omega
      have ev := List.getElem?_eq_getElem hlt
      refine unit_determined (gp u (List.mem_of_getElem? e1)) (gq v (List.mem_of_getElem? e2)) (hucls i u v e1 e2) ?_
        (sp.2 i _ u ev e1) (sq.2 i _ v ev e2)
      have := congrArg (fun l => l[i]?) (sp.1.symm.trans sq.1)
      simpa [e1, e2] using this
  · exfalso
    rw [if_neg hc] at h1
    rw [if_neg (Ne.symm hc)] at h2
    simp only [decide_eq_false_iff_not] at h1 h2
    exact hc (viewOrder_inj (by omega))

theorem ltUpB_total {a b : List MatchPattern} (hs : Same a b)
    (h : ∀ (i : Nat) p q, a[i]? = some p → b[i]? = some q → ltB p q = false → ltB q p = false → p.str = q.str)
    (h1 : ltUpB a b = false) (h2 : ltUpB b a = false) : a = b := by
  induction a generalizing b with
  | nil =>
    cases b with
    | nil => rfl
    | cons q b => exact absurd hs (by simp [Same])
  | cons p a ih =>
    cases b with
    | nil => exact absurd hs (by simp [Same])
    | cons q b =>
      rw [ltUpB_cons] at h1 h2
      by_cases e : p.str = q.str
      · rw [if_pos e] at h1
        rw [if_pos e.symm] at h2
        rw [hs.1 e, ih hs.2 (fun i x y hx hy => h (i + 1) x y (by simpa using hx) (by simpa using hy)) h1 h2]
      · rw [if_neg e] at h1
        rw [if_neg (Ne.symm e)] at h2
        exact absurd (h 0 p q rfl rfl h1 h2) e

/-- **C20**: when only generated patterns were loaded, any two different results are comparable. -/
theorem C20_total (md5 : Str → Str) (hist : List (Str × Option Str)) (url : Str) (m : URLMeta)
    (pps : List ParsedPiece) (h : parse url = .ok (m, .pieces pps)) (hc : NoClash md5 (url :: hist.map (·.1)))
    (hg : AllGen hist) (rs : List (Matched FullStore Str)) (hm : (mloadAll md5 hist).match_ md5 url = .ok rs) :
    ∀ x ∈ rs, ∀ y ∈ rs, x.path ≠ y.path → x.lt y = .ok true ∨ y.lt x = .ok true := by
  intro x hx y hy hne
  obtain ⟨pieces, ha, hk, hpps⟩ := parse_url h
  obtain ⟨rs', a1, a2, -⟩ := match_main h hk hpps hc hg.tame
  rw [hm] at a1
  cases a1
  obtain ⟨r1, m1, n1, p1, f1, s1⟩ := a2 x hx
  obtain ⟨r2, m2, n2, p2, f2, s2⟩ := a2 y hy
  obtain ⟨t1, i1, e1⟩ := mem_macc.mp m1
  obtain ⟨t2, i2, e2⟩ := mem_macc.mp m2
  rw [p1] at e1 s1 f1
  rw [p2] at e2 s2 f2
  rw [n1] at e1
  rw [n2] at e2
  have hr := parse_same e1 e2
  have hr' := parse_same e2 e1
  rw [matched_lt hr, matched_lt hr']
  cases c1 : ltUpB x.path.reverse y.path.reverse with
  | true => simp
  | false =>
    cases c2 : ltUpB y.path.reverse x.path.reverse with
    | true => simp
    | false =>
      exfalso
      apply hne
      apply List.reverse_inj.mp
      refine ltUpB_total hr.same ?_ c1 c2
      intro i p q hp hq b1 b2
      have l1 : x.path.length = pieces.length := by have := congrArg List.length f1; simpa [hpps] using this
      have l2 : y.path.length = pieces.length := by have := congrArg List.length f2; simpa [hpps] using this
      have hi : i < pieces.length := by
        have := (List.getElem?_eq_some_iff.mp hp).1; simp at this; omega
      rw [List.getElem?_reverse (by omega)] at hp hq
      rw [l1] at hp
      rw [l2] at hq
      have hsi := List.getElem?_eq_getElem (show pieces.length - 1 - i < pieces.length by omega)
      obtain ⟨a1, b3⟩ := s1 _ _ _ hsi hp
      obtain ⟨a3, b4⟩ := s2 _ _ _ hsi hq
      obtain ⟨us, g1, g2⟩ := hg _ _ _ _ i1 (n1 ▸ e1) p (List.mem_of_getElem? hp)
      obtain ⟨vs, g3, g4⟩ := hg _ _ _ _ i2 (n2 ▸ e2) q (List.mem_of_getElem? hq)
      exact pattern_total a1 a3 (gen_genUnit a1.good g1 g2) (gen_genUnit a3.good g3 g4) b3 b4 b1 b2

/-- The results of a match with `<` on every pair. -/
def ltTable (pats : List Str) (url : Str) : Py (List (List Bool)) := do
  let st := mloadAll id (pats.map (fun p => (p, none)))
  let rs ← st.match_ id url
  rs.mapM (fun x => rs.mapM (fun y => x.lt y))

/-- Three results in a strict order (the first is the greatest). -/
example : ltTable [c!"/[0-9a-z]+", c!"/a1", c!"/[a-z][0-9]", c!"/b1"] c!"http://h/a1" =
    .ok [[false, false, false], [true, false, false], [true, true, false]] := by decide +kernel

/-- **C20**: patterns that the program would not write can match the same URL and be incomparable. -/
theorem C20_incomparable :
    ltTable [c!"/[a-z0-9]+", c!"/[0-9a-z]+"] c!"http://h/a1" = .ok [[false, false], [false, false]] := by decide +kernel

end OsUrl
