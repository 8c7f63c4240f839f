import Verif.Proofs.Shadow3
import Verif.Props.C17

/-! # C60: loaded patterns do not disturb each other, except that a length hides its other spelling -/

namespace OsUrl
open Spec

theorem sameShape_eq (hist : List (Str × Option Str)) (m : URLMeta) (fs : List Str) :
    sameShape hist m fs = loadsLike hist m fs := by
  unfold sameShape loadsLike
  induction hist with
  | nil => rfl
  | cons t hist ih =>
    obtain ⟨s, md⟩ := t
    cases hp : parse s with
    | error e => simp only [macc, hp, List.filterMap_cons]; exact ih
    | ok r =>
      obtain ⟨m', r⟩ := r
      cases r with
      | pieces x => simp only [macc, hp, List.filterMap_cons]; exact ih
      | patterns x =>
        simp only [macc, hp, List.filterMap_cons]
        by_cases hm : m' = m ∧ (Parsed.patterns x).fuzzyRules = fs
        · rw [if_pos hm, List.filter_cons_of_pos (by simpa [Parsed.fuzzyRules] using hm)]
          simp only [List.map_cons, ih]
        · rw [if_neg hm, List.filter_cons_of_neg (by simpa [Parsed.fuzzyRules] using hm)]
          exact ih

theorem not_hidden_one (s : Str) (md : Option Str) (m : URLMeta) (fs : List Str) (ps : List MatchPattern) :
    ¬ Hidden (loadsLike [(s, md)] m fs) ps := by
  rintro ⟨i, p, j, u, v, -, -, -, -, -, hne, a, b, e, ⟨x, hx, hpx⟩, h3, y, hy, hqy⟩
  have hle : (loadsLike [(s, md)] m fs).length ≤ 1 := by
    unfold loadsLike
    exact Nat.le_trans (List.length_filterMap_le _ _) (by simp)
  rw [e, List.length_append] at hle
  have := List.length_pos_of_mem hx
  have := List.length_pos_of_mem hy
  omega

/-- **C60**: after any history of tame loads, for a URL: the piece patterns of a loaded pattern are among the
results of `match` exactly when they are when this pattern is the only one loaded, and no unit with a fixed number
of characters was overtaken by another spelling with the same number at the same place. -/
theorem C60_exact (md5 : Str → Str) (hist : List (Str × Option Str)) (url : Str) (m : URLMeta)
    (pps : List ParsedPiece) (h : parse url = .ok (m, .pieces pps)) (hc : NoClash md5 (url :: hist.map (·.1)))
    (ht : AllTame hist) :
    ∃ rs, (mloadAll md5 hist).match_ md5 url = .ok rs ∧
      ∀ s md ps, (s, md) ∈ hist → parse s = .ok (m, .patterns ps) →
        ∃ rs1, (mloadAll md5 [(s, md)]).match_ md5 url = .ok rs1 ∧
          ((∃ x ∈ rs, x.path = ps) ↔ (∃ x ∈ rs1, x.path = ps) ∧
            ¬ Hidden (loadsLike hist m (pps.map (·.fuzzyRule))) ps) := by
  obtain ⟨pieces, -, hk, hpps⟩ := parse_url h
  obtain ⟨rs, h1, h2⟩ := match_exact h hk hpps hc ht
  refine ⟨rs, h1, ?_⟩
  intro s md ps hin hp
  have ht1 : AllTame [(s, md)] := by
    intro s' md' m' ps' hin' e
    simp only [List.mem_singleton, Prod.mk.injEq] at hin'
    obtain ⟨rfl, rfl⟩ := hin'
    exact ht _ _ _ _ hin e
  have hc1 : NoClash md5 (url :: ([(s, md)] : List (Str × Option Str)).map (·.1)) := hc.mono (by
    intro x hx
    simp at hx
    rcases hx with rfl | rfl
    · simp
    · simp only [List.mem_cons, List.mem_map]
      exact .inr ⟨_, hin, rfl⟩)
  obtain ⟨rs1, g1, g2⟩ := match_exact h hk hpps hc1 ht1
  refine ⟨rs1, g1, ?_⟩
  have e1 := h2 ⟨m, ps, md⟩ (mem_macc.mpr ⟨s, hin, hp⟩) rfl
  have e2 := g2 ⟨m, ps, md⟩ (mem_macc.mpr ⟨s, by simp, hp⟩) rfl
  rw [sameShape_eq] at e1 e2
  rw [e1, e2]
  have hn := not_hidden_one s md m (pps.map (·.fuzzyRule)) ps
  constructor
  · rintro ⟨a, b, c⟩; exact ⟨⟨a, b, hn⟩, c⟩
  · rintro ⟨⟨a, b, -⟩, c⟩; exact ⟨a, b, c⟩

/-- **C60**, a consequence: a pattern can be lost to a pattern that does not match itself. -/
theorem C60_lost :
    matchTexts [c!"/[a-z]{2}/x"] c!"http://h/ab/x" = .ok [[c!"[a-z]{2}", c!"x"]] ∧
    matchTexts [c!"/[a-z]{2}/x", c!"/[a-z]{02}/y"] c!"http://h/ab/x" = .ok [] ∧
    matchTexts [c!"/[a-z]{02}/y", c!"/[a-z]{2}/x"] c!"http://h/ab/x" = .ok [[c!"[a-z]{2}", c!"x"]] ∧
    matchTexts [c!"/[a-z]{2}[0-9]{3}"] c!"http://h/ab123" = .ok [[c!"[a-z]{2}[0-9]{3}"]] ∧
    matchTexts [c!"/[a-z]{2}[0-9]{3}", c!"/[a-z]{02}[0-9]{4}"] c!"http://h/ab123" = .ok [] := by
  refine ⟨?_, ?_, ?_, ?_, ?_⟩ <;> decide +kernel

/-! Non-vacuity: a hidden pattern, with the units that do it, and one that is not hidden. -/
def c60Hist : List (Str × Option Str) := [(c!"/[a-z]{2}/x", none), (c!"/[a-z]{02}/y", none)]
def c60Meta : URLMeta := ⟨2, [], false⟩
def c60Len (s : Str) : MatchPattern := ⟨s, [⟨s, [c!"a-z"], 2⟩], .length⟩
def c60Lit (s : Str) : MatchPattern := ⟨s, [⟨s, [c!"a-z"], 1⟩], .piece⟩

example : loadsLike c60Hist c60Meta [c!"a-z", c!"a-z"] =
    [[c60Len c!"[a-z]{2}", c60Lit c!"x"], [c60Len c!"[a-z]{02}", c60Lit c!"y"]] := by decide +kernel

example : Hidden [[c60Len c!"[a-z]{2}", c60Lit c!"x"], [c60Len c!"[a-z]{02}", c60Lit c!"y"]]
    [c60Len c!"[a-z]{2}", c60Lit c!"x"] := by
  refine ⟨0, c60Len c!"[a-z]{2}", 0, ⟨c!"[a-z]{2}", [c!"a-z"], 2⟩, ⟨c!"[a-z]{02}", [c!"a-z"], 2⟩, rfl, rfl,
    ⟨by decide, by decide⟩, ⟨by decide, by decide⟩,
    rfl, by decide, [[c60Len c!"[a-z]{2}", c60Lit c!"x"]], [[c60Len c!"[a-z]{02}", c60Lit c!"y"]], rfl,
    ⟨_, List.mem_singleton.mpr rfl, rfl, _, rfl, rfl, rfl, rfl⟩, ?_,
    ⟨_, List.mem_singleton.mpr rfl, rfl, c60Len c!"[a-z]{02}", rfl, rfl, rfl, rfl⟩⟩
  intro x hx
  rw [List.mem_singleton] at hx
  subst hx
  rintro ⟨-, q, e, -, -, h⟩
  simp only [List.getElem?_cons_zero, Option.some.injEq] at e
  subst e
  revert h
  decide

example : ¬ Hidden [[c60Len c!"[a-z]{2}", c60Lit c!"x"], [c60Len c!"[a-z]{02}", c60Lit c!"y"]]
    [c60Len c!"[a-z]{02}", c60Lit c!"y"] := by
  rintro ⟨i, p, j, u, v, hp, hu, -, -, -, -, a, b, e, ⟨x, hx, h1, q, h2, h3, h4, h5⟩, -, y, hy, -⟩
  rcases a with _ | ⟨a1, _ | ⟨a2, a⟩⟩
  · simp at hx
  · simp only [List.cons_append, List.cons.injEq] at e
    simp only [List.mem_singleton] at hx
    rw [hx, ← e.1] at h1 h2
    rcases i with _ | i
    · simp only [List.getElem?_cons_zero, Option.some.injEq] at hp h2
      subst hp h2
      rcases j with _ | j
      · simp only [c60Len, List.getElem?_cons_zero, Option.some.injEq] at hu
        subst hu
        revert h5; decide
      · simp [c60Len] at hu
    · simp only [List.take_succ_cons, List.cons.injEq] at h1
      exact absurd h1.1 (by decide)
  · have := (List.cons.inj (List.cons.inj e).2).2
    have : b = [] := by simp at this; exact this.2
    rw [this] at hy; simp at hy

end OsUrl
