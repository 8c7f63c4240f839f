import Verif.Model.Ordering
import Verif.Props.C36

/-!
# C87: all comparison operators of match results

C20 is about `<`; here are the operators that `total_ordering` derives from it, and `max` and `min`, which use `>` and `<`.
-/

namespace OsUrl
open Spec

/-- What is known of `<` on a list of results. -/
structure Strict {α : Type} (lt : α → α → Py Bool) (same : α → α → Prop) (rs : List α) : Prop where
  val : ∀ x ∈ rs, ∀ y ∈ rs, lt x y = .ok true ∨ lt x y = .ok false
  irr : ∀ x ∈ rs, ∀ y ∈ rs, same x y → lt x y = .ok false
  asym : ∀ x ∈ rs, ∀ y ∈ rs, lt x y = .ok true → lt y x = .ok false
  trans : ∀ x ∈ rs, ∀ y ∈ rs, ∀ z ∈ rs, lt x y = .ok true → lt y z = .ok true → lt x z = .ok true

theorem results_strict (md5 : Str → Str) (hist : List (Str × Option Str)) (url : Str) (m : URLMeta)
    (pps : List ParsedPiece) (h : parse url = .ok (m, .pieces pps)) (hc : NoClash md5 (url :: hist.map (·.1)))
    (rs : List (Matched FullStore Str)) (hm : (mloadAll md5 hist).match_ md5 url = .ok rs) :
    Strict Matched.lt (fun x y => x.path = y.path) rs ∧ ∀ x ∈ rs, ∀ y ∈ rs, x.same y = decide (x.path = y.path) := by
  obtain ⟨h1, h2, h3, h4⟩ := C20_strict md5 hist url m pps h hc rs hm
  refine ⟨⟨h1, ?_, h3, h4⟩, ?_⟩
  · intro x _ y _ e
    unfold Matched.lt
    rw [if_pos (by rw [e])]
  · intro x hx y hy
    obtain ⟨s, e1⟩ := result_parse h hc hm hx
    obtain ⟨t, e2⟩ := result_parse h hc hm hy
    unfold Matched.same
    congr 1
    apply propext
    constructor
    · intro e
      have e' : x.path.reverse.map (·.str) = y.path.reverse.map (·.str) := by rw [List.map_reverse, e, List.map_reverse]
      exact List.reverse_inj.mp ((parse_same e1 e2).same.strs e')
    · intro e; rw [e]

/-- **C87**: whatever patterns were loaded, the operators raise nothing, `x >= y` is the opposite of `x < y`, and when `x < y` the other operators
agree with it on both sides. -/
theorem C87_below (md5 : Str → Str) (hist : List (Str × Option Str)) (url : Str) (m : URLMeta)
    (pps : List ParsedPiece) (h : parse url = .ok (m, .pieces pps)) (hc : NoClash md5 (url :: hist.map (·.1)))
    (rs : List (Matched FullStore Str)) (hm : (mloadAll md5 hist).match_ md5 url = .ok rs) :
    ∀ x ∈ rs, ∀ y ∈ rs,
      (∃ b, x.lt y = .ok b ∧ x.ge y = .ok (!b)) ∧ (∃ b, x.gt y = .ok b ∧ x.le y = .ok (!b)) ∧
      (x.path = y.path → x.gt y = .ok false ∧ x.le y = .ok true ∧ x.ge y = .ok true) ∧
      (x.lt y = .ok true → x.le y = .ok true ∧ x.gt y = .ok false ∧ x.ge y = .ok false ∧
        y.gt x = .ok true ∧ y.ge x = .ok true ∧ y.le x = .ok false) := by
  obtain ⟨st, hs⟩ := results_strict md5 hist url m pps h hc rs hm
  intro x hx y hy
  have tf : ∀ b : Bool, x.lt y = .ok b → x.gt y = .ok (!b && !x.same y) ∧ x.le y = .ok (b || x.same y) ∧ x.ge y = .ok (!b) := by
    intro b e
    unfold Matched.gt Matched.le Matched.ge
    rw [e]
    exact ⟨rfl, rfl, rfl⟩
  have val : ∃ b, x.lt y = .ok b := by rcases st.val x hx y hy with e | e <;> exact ⟨_, e⟩
  obtain ⟨b, hb⟩ := val
  obtain ⟨g, l, k⟩ := tf b hb
  refine ⟨⟨b, hb, k⟩, ⟨_, g, by rw [l]; cases b <;> cases x.same y <;> rfl⟩, ?_, ?_⟩
  · intro e
    have := st.irr x hx y hy e
    rw [hb] at this
    have := Except.ok.inj this
    subst this
    have hsm : x.same y = true := by rw [hs x hx y hy]; exact decide_eq_true e
    rw [g, l, k, hsm]
    exact ⟨rfl, rfl, rfl⟩
  · intro e
    rw [hb] at e
    have := Except.ok.inj e
    subst this
    have hne : y.same x = false := by
      rw [hs y hy x hx]
      apply decide_eq_false
      intro q
      have := st.irr x hx y hy q.symm
      rw [hb] at this
      cases this
    have ha := st.asym x hx y hy hb
    have : y.gt x = .ok true ∧ y.ge x = .ok true ∧ y.le x = .ok false := by
      unfold Matched.gt Matched.le Matched.ge
      rw [ha, hne]
      exact ⟨rfl, rfl, rfl⟩
    exact ⟨by rw [l]; rfl, by rw [g]; rfl, by rw [k]; rfl, this⟩

/-- **C87**: when only generated patterns were loaded, the operators are those of one linear order: `>` and `>=` are `<` and `<=` read from the
other side, exactly one of `x < y`, `x == y`, `x > y` holds, and `<=` is transitive, total and antisymmetric. -/
theorem C87_linear (md5 : Str → Str) (hist : List (Str × Option Str)) (url : Str) (m : URLMeta)
    (pps : List ParsedPiece) (h : parse url = .ok (m, .pieces pps)) (hc : NoClash md5 (url :: hist.map (·.1)))
    (hg : AllGen hist) (rs : List (Matched FullStore Str)) (hm : (mloadAll md5 hist).match_ md5 url = .ok rs) :
    (∀ x ∈ rs, ∀ y ∈ rs, x.gt y = y.lt x ∧ x.ge y = y.le x ∧
      ((x.lt y = .ok true ∧ x.path ≠ y.path ∧ x.gt y = .ok false) ∨ (x.lt y = .ok false ∧ x.path = y.path ∧ x.gt y = .ok false) ∨
        (x.lt y = .ok false ∧ x.path ≠ y.path ∧ x.gt y = .ok true)) ∧
      (x.le y = .ok true ∨ y.le x = .ok true) ∧ (x.le y = .ok true → y.le x = .ok true → x.path = y.path)) ∧
    ∀ x ∈ rs, ∀ y ∈ rs, ∀ z ∈ rs, x.le y = .ok true → y.le z = .ok true → x.le z = .ok true := by
  obtain ⟨st, hs⟩ := results_strict md5 hist url m pps h hc rs hm
  have tot := C20_total md5 hist url m pps h hc hg rs hm
  have below := C87_below md5 hist url m pps h hc rs hm
  have three : ∀ x ∈ rs, ∀ y ∈ rs,
      (x.path = y.path ∧ x.lt y = .ok false ∧ y.lt x = .ok false) ∨ (x.path ≠ y.path ∧ x.lt y = .ok true ∧ y.lt x = .ok false) ∨
      (x.path ≠ y.path ∧ x.lt y = .ok false ∧ y.lt x = .ok true) := by
    intro x hx y hy
    by_cases e : x.path = y.path
    · exact .inl ⟨e, st.irr x hx y hy e, st.irr y hy x hx e.symm⟩
    · rcases tot x hx y hy e with q | q
      · exact .inr (.inl ⟨e, q, st.asym x hx y hy q⟩)
      · exact .inr (.inr ⟨e, st.asym y hy x hx q, q⟩)
  have leIff : ∀ x ∈ rs, ∀ y ∈ rs, x.le y = .ok true ↔ x.lt y = .ok true ∨ x.path = y.path := by
    intro x hx y hy
    obtain ⟨_, _, b3, b4⟩ := below x hx y hy
    obtain ⟨_, _, _, b4'⟩ := below y hy x hx
    rcases three x hx y hy with ⟨e, a, b⟩ | ⟨e, a, b⟩ | ⟨e, a, b⟩
    · exact ⟨fun _ => .inr e, fun _ => (b3 e).2.1⟩
    · exact ⟨fun _ => .inl a, fun _ => (b4 a).1⟩
    · constructor
      · intro q; rw [(b4' b).2.2.2.2.2] at q; cases q
      · rintro (q | q)
        · rw [a] at q; cases q
        · exact absurd q e
  refine ⟨?_, ?_⟩
  · intro x hx y hy
    obtain ⟨_, _, b3, b4⟩ := below x hx y hy
    obtain ⟨_, _, b3', b4'⟩ := below y hy x hx
    rcases three x hx y hy with ⟨e, a, b⟩ | ⟨e, a, b⟩ | ⟨e, a, b⟩
    · obtain ⟨c1, c2, c3⟩ := b3 e
      obtain ⟨d1, d2, d3⟩ := b3' e.symm
      exact ⟨by rw [c1, b], by rw [c3, d2], .inr (.inl ⟨a, e, c1⟩), .inl c2, fun _ _ => e⟩
    · obtain ⟨c1, c2, c3, c4, c5, c6⟩ := b4 a
      refine ⟨by rw [c2, b], by rw [c3, c6], .inl ⟨a, e, c2⟩, .inl c1, ?_⟩
      intro _ q; rw [c6] at q; cases q
    · obtain ⟨c1, c2, c3, c4, c5, c6⟩ := b4' b
      refine ⟨by rw [c4, b], by rw [c5, c1], .inr (.inr ⟨a, e, c4⟩), .inr c1, ?_⟩
      intro q; rw [c6] at q; cases q
  · intro x hx y hy z hz p q
    rw [leIff x hx y hy] at p
    rw [leIff y hy z hz] at q
    rw [leIff x hx z hz]
    rcases p with p | p
    · rcases q with q | q
      · exact .inl (st.trans x hx y hy z hz p q)
      · rcases three x hx z hz with ⟨e, _, _⟩ | ⟨_, a, _⟩ | ⟨_, _, b⟩
        · exact .inr e
        · exact .inl a
        · have := st.trans z hz x hx y hy b p
          rw [st.irr z hz y hy q.symm] at this; cases this
    · rcases q with q | q
      · rcases three x hx z hz with ⟨e, _, _⟩ | ⟨_, a, _⟩ | ⟨_, _, b⟩
        · exact .inr e
        · exact .inl a
        · have := st.trans y hy z hz x hx q b
          rw [st.irr y hy x hx p.symm] at this; cases this
      · exact .inr (p.trans q)

/-- Going through a list and keeping the better one. -/
theorem pyBest_ok {α : Type} {better : α → α → Py Bool} {P : α → Prop} (val : ∀ a b, P a → P b → ∃ r, better a b = .ok r)
    (irr : ∀ a, P a → better a a = .ok false)
    (trans : ∀ a b c, P a → P b → P c → better a b = .ok false → better b c = .ok false → better a c = .ok false)
    (anti : ∀ a b, P a → P b → better a b = .ok true → better b a = .ok false) :
    ∀ (l : List α), l ≠ [] → (∀ y ∈ l, P y) → ∃ z ∈ l, pyBest better l = .ok z ∧ ∀ y ∈ l, better y z = .ok false := by
  have key : ∀ (l : List α) (x : α), P x → (∀ y ∈ l, P y) →
      ∃ z, (z = x ∨ z ∈ l) ∧ l.foldlM (fun best y => do
        let b ← better y best
        return if b then y else best) x = .ok z ∧ better x z = .ok false ∧ ∀ y ∈ l, better y z = .ok false := by
    intro l
    induction l with
    | nil => intro x hx _; exact ⟨x, .inl rfl, rfl, irr x hx, fun y hy => by cases hy⟩
    | cons y l ih =>
      intro x hx hl
      have hy := hl y (by simp)
      have hl' : ∀ w ∈ l, P w := fun w hw => hl w (by simp [hw])
      obtain ⟨b, hb⟩ := val y x hy hx
      rw [List.foldlM_cons, hb]
      cases b with
      | true =>
        obtain ⟨z, hz, e, a1, a2⟩ := ih y hy hl'
        have hzP : P z := by rcases hz with rfl | hz; exact hy; exact hl' z hz
        refine ⟨z, ?_, e, trans x y z hx hy hzP (anti y x hy hx hb) a1, ?_⟩
        · rcases hz with rfl | hz
          · exact .inr (by simp)
          · exact .inr (by simp [hz])
        · intro w hw
          rcases List.mem_cons.mp hw with rfl | hw
          · exact a1
          · exact a2 w hw
      | false =>
        obtain ⟨z, hz, e, a1, a2⟩ := ih x hx hl'
        have hzP : P z := by rcases hz with rfl | hz; exact hx; exact hl' z hz
        refine ⟨z, ?_, e, a1, ?_⟩
        · rcases hz with rfl | hz
          · exact .inl rfl
          · exact .inr (by simp [hz])
        · intro w hw
          rcases List.mem_cons.mp hw with rfl | hw
          · exact trans w x z hy hx hzP hb a1
          · exact a2 w hw
  intro l hne hl
  cases l with
  | nil => exact absurd rfl hne
  | cons x l =>
    obtain ⟨z, hz, e, a1, a2⟩ := key l x (hl x (by simp)) (fun y hy => hl y (by simp [hy]))
    refine ⟨z, ?_, e, ?_⟩
    · rcases hz with rfl | hz
      · simp
      · simp [hz]
    · intro w hw
      rcases List.mem_cons.mp hw with rfl | hw
      · exact a1
      · exact a2 w hw

/-- **C87**: when only generated patterns were loaded, `max(results)` is `sorted(results, reverse=True)[0]`, the best result of README.rst:300-301, and all
other results are below it. -/
theorem C87_max (md5 : Str → Str) (hist : List (Str × Option Str)) (url : Str) (m : URLMeta)
    (pps : List ParsedPiece) (h : parse url = .ok (m, .pieces pps)) (hc : NoClash md5 (url :: hist.map (·.1)))
    (hg : AllGen hist) (rs : List (Matched FullStore Str)) (hm : (mloadAll md5 hist).match_ md5 url = .ok rs) (hne : rs ≠ []) :
    ∃ z ∈ rs, pyBest Matched.gt rs = .ok z ∧ (∀ y ∈ rs, y.path ≠ z.path → y.lt z = .ok true) ∧
      ∃ l z', pySortedDesc Matched.lt rs = .ok (z' :: l) ∧ z'.path = z.path := by
  obtain ⟨lin, letr⟩ := C87_linear md5 hist url m pps h hc hg rs hm
  obtain ⟨st, hs⟩ := results_strict md5 hist url m pps h hc rs hm
  have below := C87_below md5 hist url m pps h hc rs hm
  have gtle : ∀ x ∈ rs, ∀ y ∈ rs, x.gt y = .ok false ↔ x.le y = .ok true := by
    intro x hx y hy
    obtain ⟨_, ⟨b, b1, b2⟩, _⟩ := below x hx y hy
    rw [b1, b2]
    cases b <;> simp
  obtain ⟨z, hz, e, all⟩ := pyBest_ok (better := Matched.gt) (P := fun x => x ∈ rs)
    (fun a b ha hb => by obtain ⟨_, ⟨c, c1, _⟩, _⟩ := below a ha b hb; exact ⟨c, c1⟩)
    (fun a ha => ((below a ha a ha).2.2.1 rfl).1)
    (fun a b c ha hb hc p q => by
      rw [gtle a ha b hb] at p; rw [gtle b hb c hc] at q; rw [gtle a ha c hc]; exact letr a ha b hb c hc p q)
    (fun a b ha hb p => by
      rw [(lin a ha b hb).1] at p
      exact ((below b hb a ha).2.2.2 p).2.1)
    rs hne (fun y hy => hy)
  have best : ∀ y ∈ rs, y.path ≠ z.path → y.lt z = .ok true := by
    intro y hy q
    have a := all y hy
    rcases (lin y hy z hz).2.2.1 with ⟨c, _⟩ | ⟨_, c, _⟩ | ⟨_, _, c⟩
    · exact c
    · exact absurd c q
    · rw [c] at a; cases a
  refine ⟨z, hz, e, best, ?_⟩
  have val : ∀ a b, a ∈ rs → b ∈ rs → ∃ r, Matched.lt a b = .ok r := fun a b ha hb => by
    obtain ⟨⟨c, c1, _⟩, _⟩ := below a ha b hb; exact ⟨c, c1⟩
  obtain ⟨l, e1, e2⟩ := pySortedDesc_ok (lt := Matched.lt) (P := fun x => x ∈ rs) val (l := rs) (fun y hy => hy)
  cases l with
  | nil => exact absurd (List.nil_perm.mp e2) hne
  | cons z' l =>
    refine ⟨l, z', e1, ?_⟩
    have hz' : z' ∈ rs := e2.mem_iff.mp (by simp)
    have first := pySortedDesc_first (lt := Matched.lt) (P := fun x => x ∈ rs)
      (fun a b c ha hb hc => st.trans a ha b hb c hc) (fun a b ha hb p => by rw [st.asym a ha b hb p]; simp)
      (fun a ha => by rw [st.irr a ha a ha rfl]; simp) val (fun y hy => hy) e1 z' rfl z hz
    by_cases q : z'.path = z.path
    · exact q
    · exact absurd (best z' hz' q) first

/-- `<`, `<=`, `>` and `>=` on all pairs of results. -/
def opTable (pats : List Str) (url : Str) : Py (List (List (List Bool))) := do
  let st := mloadAll id (pats.map (fun p => (p, none)))
  let rs ← st.match_ id url
  rs.mapM (fun x => rs.mapM (fun y => do
    let a ← x.lt y
    let b ← x.le y
    let c ← x.gt y
    let d ← x.ge y
    return [a, b, c, d]))

/-- The paths of `max(results)` and of `sorted(results, reverse=True)[0]`. -/
def bestTwo (pats : List Str) (url : Str) : Py (List (List Str)) := do
  let st := mloadAll id (pats.map (fun p => (p, none)))
  let rs ← st.match_ id url
  let z ← pyBest Matched.gt rs
  let l ← pySortedDesc Matched.lt rs
  return [z.path.map (·.str), (l.headD z).path.map (·.str)]

/-- Three results. -/
example : opTable [c!"/[0-9a-z]+", c!"/a1", c!"/[a-z][0-9]"] c!"http://h/a1" =
    .ok [[[false, true, false, true], [false, false, true, true], [false, false, true, true]],
         [[true, true, false, false], [false, true, false, true], [false, false, true, true]],
         [[true, true, false, false], [true, true, false, false], [false, true, false, true]]] := by decide +kernel

/-- The best of the three. -/
example : bestTwo [c!"/[0-9a-z]+", c!"/a1", c!"/[a-z][0-9]"] c!"http://h/a1" = .ok [[c!"a1"], [c!"a1"]] := by decide +kernel

/-- **C87** is false without the condition: of two results for one URL each is greater than the other and neither is less or equal, and `max` and
`sorted(.., reverse=True)[0]` are different results. -/
theorem C87_false :
    opTable [c!"/[a-z0-9]+", c!"/[0-9a-z]+"] c!"http://h/a1" =
      .ok [[[false, true, false, true], [false, false, true, true]], [[false, false, true, true], [false, true, false, true]]] ∧
    bestTwo [c!"/[a-z0-9]+", c!"/[0-9a-z]+"] c!"http://h/a1" = .ok [[c!"[0-9a-z]+"], [c!"[a-z0-9]+"]] := by decide +kernel

/-- **C87**, patterns alone: between any two match patterns the operators raise nothing, `p >= q` is the opposite of `p < q`, `p <= q` of `p > q`,
and for different texts or the same position (last path piece or not) `p < q` is seen from the other side as `q > p`. -/
theorem C87_patterns (s t : Str) (a b : Bool) (p q : MatchPattern) (hp : mkMatchPattern s a = .ok p) (hq : mkMatchPattern t b = .ok q) :
    (∃ r, p.lt q = .ok r ∧ p.ge q = .ok (!r)) ∧ (∃ r, p.gt q = .ok r ∧ p.le q = .ok (!r)) ∧
    (s = t → p.gt q = .ok false ∧ p.le q = .ok true) ∧
    (s = t → a = b → p.lt q = .ok false ∧ p.ge q = .ok true) ∧
    (s ≠ t ∨ a = b → p.lt q = .ok true → p.le q = .ok true ∧ p.gt q = .ok false ∧ p.ge q = .ok false ∧
      q.gt p = .ok true ∧ q.ge p = .ok true ∧ q.le p = .ok false) := by
  have gp := (mkMatchPattern_good hp).2.1
  have gq := (mkMatchPattern_good hq).2.1
  have sp : p.str = s := (mkMatchPattern_good hp).1
  have sq : q.str = t := (mkMatchPattern_good hq).1
  have ops : p.gt q = .ok (!ltB p q && s != t) ∧ p.le q = .ok (ltB p q || s == t) ∧ p.ge q = .ok (!ltB p q) ∧
      q.gt p = .ok (!ltB q p && t != s) ∧ q.le p = .ok (ltB q p || t == s) ∧ q.ge p = .ok (!ltB q p) := by
    unfold MatchPattern.gt MatchPattern.le MatchPattern.ge
    rw [lt_eq gp gq, lt_eq gq gp, sp, sq]
    exact ⟨rfl, rfl, rfl, rfl, rfl, rfl⟩
  obtain ⟨o1, o2, o3, o4, o5, o6⟩ := ops
  have irr : s = t → a = b → ltB p q = false := by
    intro e f
    subst e; subst f
    rw [hp] at hq
    have := Except.ok.inj hq
    subst this
    exact ltB_irrefl p
  refine ⟨⟨_, lt_eq gp gq, o3⟩, ⟨_, o1, ?_⟩, ?_, ?_, ?_⟩
  · rw [o2]
    cases ltB p q <;> cases h : s == t <;> simp [bne, h]
  · intro e
    rw [o1, o2, e]
    simp
  · intro e f
    rw [o3, lt_eq gp gq, irr e f]
    exact ⟨rfl, rfl⟩
  · intro h e
    rw [lt_eq gp gq] at e
    have e := Except.ok.inj e
    have ne : s ≠ t := by
      intro e'
      rcases h with h | h
      · exact h e'
      · rw [irr e' h] at e; cases e
    have f : ltB q p = false := by
      cases h : ltB q p with
      | false => rfl
      | true => have := ltB_trans e h; rw [ltB_irrefl] at this; cases this
    rw [o1, o2, o3, o4, o5, o6, e, f]
    simp [bne, ne, Ne.symm ne]

/-- All operators from the left and from the right. -/
def patOps (s : Str) (a : Bool) (t : Str) (b : Bool) : Py (List Bool × List Bool) := do
  let p ← mkMatchPattern s a
  let q ← mkMatchPattern t b
  let l ← [MatchPattern.lt, MatchPattern.le, MatchPattern.gt, MatchPattern.ge].mapM (fun f => f p q)
  let r ← [MatchPattern.lt, MatchPattern.le, MatchPattern.gt, MatchPattern.ge].mapM (fun f => f q p)
  return (l, r)

/-- A pattern with a wildcard of one length is below its literal. -/
example : patOps c!"[a-z]{3}" false c!"abc" false = .ok ([true, true, false, false], [false, false, true, true]) := by decide +kernel

/-- **C87**, patterns alone: also two patterns that the program writes can each be greater than the other; and one text, read as last path piece and as
another piece, makes two patterns that are equal and one less than the other, but not the other greater. -/
theorem C87_patterns_false :
    patOps c!"[a-z]+" false c!"[0-9]+" false = .ok ([false, false, true, true], [false, false, true, true]) ∧
    patOps c!"[0-9]+[\\.][a-z]+" true c!"[0-9]+[\\.][a-z]+" false = .ok ([true, true, false, false], [false, true, false, true]) := by
  decide +kernel

/-- `max` of nothing. -/
example : pyBest Matched.gt ([] : List (Matched FullStore Str)) = .error .valueError := rfl

end OsUrl
