import Verif.Proofs.MatchRe

/-! # C16: a returned match matches as a regular expression -/

namespace OsUrl
open Spec

/-- No character class of the pattern is empty (`[]`, `[]+`). -/
def NoEmptyClass (hist : List (Str × Option Str)) : Prop :=
  ∀ s md m ps, (s, md) ∈ hist → parse s = .ok (m, .patterns ps) → ∀ p ∈ ps, ∀ u ∈ p.units, u.rules ≠ []

/-- **C16**: if no loaded pattern has an empty class, and patterns of several units do not mix `/`
with other characters in one class, then for a URL without backslash `match` raises nothing and every
piece full-matches the returned pattern at its position, read as a regular expression, if the text of
that pattern is ASCII (only the digits of a quantifier can be other characters). -/
theorem C16_regex (md5 : Str → Str) (hist : List (Str × Option Str)) (url : Str) (m : URLMeta) (pieces : List Str)
    (pps : List ParsedPiece) (hs : startsWith ['/'] url = false) (ha : analyzeUrl url = .ok (m, pieces))
    (hp : pieces.mapM parsePiece = .ok pps) (hc : NoClash md5 (url :: hist.map (·.1)))
    (ht : AllTame hist) (he : NoEmptyClass hist) :
    ∃ rs, (mloadAll md5 hist).match_ md5 url = .ok rs ∧
      ∀ x ∈ rs, x.path.length = pieces.length ∧
        ∀ (i : Nat) (p : MatchPattern) (s : Str), x.path[i]? = some p → pieces[i]? = some s → '\\' ∉ s → AsciiText p.str → ReMatch p.str s := by
  have h : parse url = .ok (m, .pieces pps) := by
    simp [parse, hs, ha, hp, bind, Except.bind, pure, Except.pure]
  obtain ⟨hk, hpps⟩ := parsePieces_ok hp
  obtain ⟨rs, h1, h2, -⟩ := match_main h hk hpps hc ht
  refine ⟨rs, h1, ?_⟩
  intro x hx
  obtain ⟨r, hr, -, hrp, hf, hsel⟩ := h2 x hx
  rw [← hrp]
  constructor
  · have := congrArg List.length hf
    simpa [hpps] using this
  · intro i p s hpi hsi hb hap
    obtain ⟨a, b⟩ := hsel i s p hsi hpi
    have hsm := List.mem_of_getElem? hsi
    obtain ⟨t, htm, e⟩ := mem_macc.mp hr
    exact (sel_fits (hk s hsm) hb a (he t _ _ _ htm e p (List.mem_of_getElem? hpi)) hap b).reMatch

/-- Decidable consequence of a match: the number of characters, when all items have a fixed length. -/
theorem itemsMatch_times {is : List Item} {s : Str} (h : ItemsMatch is s) {ns : List Nat}
    (hq : is.map (·.q) = ns.map .times) : s.length = ns.sum := by
  induction h generalizing ns with
  | nil =>
    cases ns with
    | nil => rfl
    | cons n ns => simp at hq
  | @cons i is w ws h1 h2 ih =>
    cases ns with
    | nil => simp at hq
    | cons n ns =>
      simp only [List.map_cons, List.cons.injEq] at hq
      obtain ⟨q1, q2⟩ := hq
      have := h1.2
      rw [q1] at this
      simp only at this
      simp [this, ih q2]

theorem not_reMatch_of_length {p s : Str} (ns : List Nat)
    (h : (reParse p).map (fun is => is.map (·.q)) = some (ns.map .times)) (hl : s.length ≠ ns.sum) : ¬ ReMatch p s := by
  rintro ⟨is, h1, h2⟩
  rw [h1] at h
  simp only [Option.map_some, Option.some.injEq] at h
  exact hl (itemsMatch_times h2 h)

/-- The pattern texts of the results of `match` (md5 modelled by the identity, which never collides). -/
def matchTexts (loads : List Str) (url : Str) : Py (List (List Str)) := do
  let rs ← (mloadAll (fun s => s) (loads.map (fun s => (s, none)))).match_ (fun s => s) url
  return rs.map (fun x => x.path.map (·.str))

/-- **C16**, failure with a backslash: `[\\a-z]{4}` is returned for the three characters `a\b`. -/
theorem C16_backslash_false :
    matchTexts [c!"/[\\\\a-z]{4}"] c!"http://h/a\\b" = .ok [[c!"[\\\\a-z]{4}"]] ∧
      (analyzeUrl c!"http://h/a\\b").map (·.2) = .ok [c!"a\\b"] ∧ ¬ ReMatch c!"[\\\\a-z]{4}" c!"a\\b" :=
  ⟨by decide +kernel, by decide +kernel, not_reMatch_of_length [4] (by decide +kernel) (by decide)⟩

/-- **C16**, failure for a pattern that mixes `/` with other characters in a class of several units:
the joined rules `%//` + `/` + `/0-9` are ambiguous. -/
theorem C16_wild_false :
    matchTexts [c!"/x[\\?]k=[%/]{2}[/0-9]{2}"] c!"http://h/x?k=%%//5" = .ok [[c!"x", c!"[%/]{2}[/0-9]{2}"]] ∧
      (analyzeUrl c!"http://h/x?k=%%//5").map (·.2) = .ok [c!"x", c!"%%//5"] ∧
      ¬ ReMatch c!"[%/]{2}[/0-9]{2}" c!"%%//5" :=
  ⟨by decide +kernel, by decide +kernel, not_reMatch_of_length [2, 2] (by decide +kernel) (by decide)⟩

/-- **C16**, failure for an empty class: `[]+` is returned for an empty piece; it is no regular expression. -/
theorem C16_empty_false :
    matchTexts [c!"/[]+"] c!"http://h/" = .ok [[c!"[]+"]] ∧ ¬ ReMatch c!"[]+" [] :=
  ⟨by decide +kernel, by rintro ⟨is, h, -⟩; have : reParse c!"[]+" = none := by decide
                         rw [this] at h; cases h⟩

/-- **C16**, failure for a quantifier in other digits: `[a-z]{٣}` (with the Arabic-Indic digit three) is
returned for `abc`; for `re`, whose repetitions are written with ASCII digits, `{` stands for itself there
and the expression matches texts such as `a{٣}`. -/
theorem C16_digits_false :
    matchTexts [c!"/[a-z]{٣}"] c!"http://h/abc" = .ok [[c!"[a-z]{٣}"]] ∧ ¬ ReMatch c!"[a-z]{٣}" c!"abc" :=
  ⟨by decide +kernel, by rintro ⟨is, h, -⟩; have : reParse c!"[a-z]{٣}" = none := by decide +kernel
                         rw [this] at h; cases h⟩

/-! Non-vacuity: the hypotheses hold for a history with literal, length, wildcard and mixed patterns,
and the match finds all four patterns. -/
def c16Hist : List Str := [c!"/[0-9a-z]{4}[\\-][0-9a-z]{3}", c!"/[0-9\\-a-z]+", c!"/[0-9\\-a-z]{8}", c!"/a1b2[\\-]c3d"]

example : matchTexts c16Hist c!"http://h/a1b2-c3d" =
    .ok [[c!"a1b2[\\-]c3d"], [c!"[0-9a-z]{4}[\\-][0-9a-z]{3}"], [c!"[0-9\\-a-z]{8}"], [c!"[0-9\\-a-z]+"]] := by
  decide +kernel

/-- A check of all patterns of a history. -/
def allPats (f : MatchPattern → Bool) (hist : List (Str × Option Str)) : Bool :=
  hist.all (fun t => match parse t.1 with
    | .ok (_, .patterns ps) => ps.all f
    | _ => true)

theorem allPats_spec {f : MatchPattern → Bool} {hist : List (Str × Option Str)} (h : allPats f hist = true) :
    ∀ s md m ps, (s, md) ∈ hist → parse s = .ok (m, .patterns ps) → ∀ p ∈ ps, f p = true := by
  intro s md m ps hs e p hp
  have := List.all_eq_true.mp h (s, md) hs
  simp only [e] at this
  exact List.all_eq_true.mp this p hp

instance (p : MatchPattern) : Decidable (Tame p) := by unfold Tame; infer_instance
instance (p : MatchPattern) : Decidable (Canon p) := by unfold Canon; infer_instance

theorem allTame_check {hist : List (Str × Option Str)} (h : allPats (fun p => decide (Tame p)) hist = true) :
    AllTame hist := fun s md m ps h1 h2 p hp => of_decide_eq_true (allPats_spec h s md m ps h1 h2 p hp)

theorem allCanon_check {hist : List (Str × Option Str)} (h : allPats (fun p => decide (Canon p)) hist = true) :
    AllCanon hist := fun s md m ps h1 h2 p hp => of_decide_eq_true (allPats_spec h s md m ps h1 h2 p hp)

theorem noEmptyClass_check {hist : List (Str × Option Str)}
    (h : allPats (fun p => decide (∀ u ∈ p.units, u.rules ≠ [])) hist = true) : NoEmptyClass hist :=
  fun s md m ps h1 h2 p hp => of_decide_eq_true (allPats_spec h s md m ps h1 h2 p hp)

example : AllTame (c16Hist.map (fun s => (s, none))) ∧ NoEmptyClass (c16Hist.map (fun s => (s, none))) ∧
    AllCanon (c16Hist.map (fun s => (s, none))) :=
  ⟨allTame_check (by decide +kernel), noEmptyClass_check (by decide +kernel), allCanon_check (by decide +kernel)⟩

end OsUrl
