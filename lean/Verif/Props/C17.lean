import Verif.Props.C12

/-! # C17: literal, length and wildcard patterns are matched completely -/

namespace OsUrl
open Spec

/-- **C17**: after any loads of generated patterns, for every URL `match` raises nothing,
and a sequence of whole-piece patterns (literal, `[spaces]{n}`, `[spaces]+`) is among the results exactly
when it was loaded for the structure of the URL and every piece is the literal, consists of exactly the
spaces and has length `n`, or consists of exactly the spaces. -/
theorem C17_simple (md5 : Str → Str) (hist : List (Str × Option Str)) (url : Str) (m : URLMeta) (pieces : List Str)
    (pps : List ParsedPiece) (hs : startsWith ['/'] url = false) (ha : analyzeUrl url = .ok (m, pieces))
    (hp : pieces.mapM parsePiece = .ok pps) (hc : NoClash md5 (url :: hist.map (·.1)))
    (hg : AllGen hist) :
    ∃ rs, (mloadAll md5 hist).match_ md5 url = .ok rs ∧
      ∀ (ts : List PiecePat) (texts : List Str), texts.length = ts.length →
        (∀ (i : Nat) (t : PiecePat) (x : Str), ts[i]? = some t → texts[i]? = some x → t.Valid ∧ t.HasText x) →
        ((∃ x ∈ rs, x.path.map (·.str) = texts) ↔
          (∃ s md ps, (s, md) ∈ hist ∧ parse s = .ok (m, .patterns ps) ∧ ps.map (·.str) = texts) ∧
          ts.length = pieces.length ∧
          ∀ (i : Nat) (t : PiecePat) (s : Str), ts[i]? = some t → pieces[i]? = some s → t.Fits s) := by
  have h : parse url = .ok (m, .pieces pps) := by
    simp [parse, hs, ha, hp, bind, Except.bind, pure, Except.pure]
  obtain ⟨hk, hpps⟩ := parsePieces_ok hp
  obtain ⟨rs, h1, h2, h3⟩ := match_main h hk hpps hc hg.tame
  refine ⟨rs, h1, ?_⟩
  intro ts texts hlen hts
  -- the selection at one position
  have hsel : ∀ (ps : List MatchPattern), (∀ p ∈ ps, GoodPat p) → ps.map (·.str) = texts →
      ∀ (i : Nat) (t : PiecePat) (s : Str) (p : MatchPattern), ts[i]? = some t → pieces[i]? = some s → ps[i]? = some p →
        ((unitsFuzzyRule p.units = (ppOf (runsOf s)).fuzzyRule ∧ SelF (ppOf (runsOf s)) p) ↔ t.Fits s) := by
    intro ps hgood hstr i t s p hti hsi hpi
    have hx : texts[i]? = some p.str := by rw [← hstr, List.getElem?_map, hpi]; rfl
    obtain ⟨v1, v2⟩ := hts i t _ hti hx
    have hsm := List.mem_of_getElem? hsi
    exact piecePat_sel v1 (hk s hsm) (hgood p (List.mem_of_getElem? hpi)) v2
  constructor
  · rintro ⟨x, hx, hstr⟩
    obtain ⟨r, hr, hrm, hrp, hf, hall⟩ := h2 x hx
    obtain ⟨t, htm, e⟩ := mem_macc.mp hr
    rw [hrm] at e
    have hl : r.ps.length = pieces.length := by
      have := congrArg List.length hf
      simpa [hpps] using this
    have hl2 : r.ps.length = texts.length := by rw [← hstr, ← hrp, List.length_map]
    refine ⟨⟨t, r.md, r.ps, htm, e, by rw [hrp]; exact hstr⟩, by omega, ?_⟩
    intro i tp s hti hsi
    have hlt : i < ts.length := (List.getElem?_eq_some_iff.mp hti).1
    have hpi : r.ps[i]? = some (r.ps[i]'(by omega)) := List.getElem?_eq_getElem (by omega)
    obtain ⟨hat, hsf⟩ := hall i s _ hsi hpi
    exact (hsel r.ps (fun p hp => parse_good e hp) (by rw [hrp]; exact hstr) i tp s _ hti hsi hpi).mp ⟨hat.fuzzy, hsf⟩
  · rintro ⟨⟨s, md, ps, hin, e, hstr⟩, hl, hfit⟩
    have hl2 : ps.length = texts.length := by rw [← hstr, List.length_map]
    have hpos : ∀ (i : Nat) (s : Str) (p : MatchPattern), pieces[i]? = some s → ps[i]? = some p →
        unitsFuzzyRule p.units = (ppOf (runsOf s)).fuzzyRule ∧ SelF (ppOf (runsOf s)) p := by
      intro i s p hsi hpi
      have hlt : i < ps.length := (List.getElem?_eq_some_iff.mp hpi).1
      have hti : ts[i]? = some (ts[i]'(by omega)) := List.getElem?_eq_getElem (by omega)
      exact (hsel ps (fun p hp => parse_good e hp) hstr i _ s p hti hsi hpi).mpr (hfit i _ s hti hsi)
    obtain ⟨x, hx, hxp⟩ := h3 ⟨m, ps, md⟩ (mem_macc.mpr ⟨s, hin, e⟩) rfl (.inl hg.canon) (by
        apply List.ext_getElem?
        intro i
        simp only [List.getElem?_map, hpps]
        cases hi : ps[i]? with
        | none =>
          have : pieces[i]? = none := by rw [List.getElem?_eq_none_iff] at hi ⊢; omega
          simp [this]
        | some p =>
          have hlt : i < ps.length := (List.getElem?_eq_some_iff.mp hi).1
          have hsi : pieces[i]? = some (pieces[i]'(by omega)) := List.getElem?_eq_getElem (by omega)
          simp only [hsi, Option.map_some, Option.some.injEq]
          exact (hpos i _ p hsi hi).1)
      (fun i s p hi hpi => (hpos i s p hi hpi).2)
    exact ⟨x, hx, by rw [hxp]; exact hstr⟩

/-- **C17** fails for lengths that are not written as the program writes them: `[a-z]{02}` hides
`[a-z]{2}`, and `[\.]{1}` is never found. -/
theorem C17_noncanonical_false :
    matchTexts [c!"/[a-z]{2}", c!"/[a-z]{02}"] c!"http://h/ab" = .ok [[c!"[a-z]{02}"]] ∧
      matchTexts [c!"/[\\.]{1}"] c!"http://h/." = .ok [] := by decide +kernel

/-! ### example -/

instance (sp : Space) : Decidable sp.Valid := by
  cases sp <;> (simp only [Space.Valid]; infer_instance)

theorem isClass_iff (R : List Space) : IsClass R ↔ R ≠ [] ∧ (∀ sp ∈ R, sp.Valid) ∧ R.getLast? ≠ some (.sign '\\') ∧
    R.Pairwise (fun a b => a.text < b.text) :=
  ⟨fun h => ⟨h.ne, h.valid, h.readable, h.sorted⟩, fun h => ⟨⟨h.1, h.2.1, h.2.2.2⟩, h.2.2.1⟩⟩

instance (R : List Space) : Decidable (IsClass R) := decidable_of_iff' _ (isClass_iff R)

instance (u : GUnit) : Decidable u.Valid := by
  cases u <;> (simp only [GUnit.Valid]; infer_instance)

instance (u v : GUnit) : Decidable (u.Differ v) := by
  cases u <;> cases v <;> (simp only [GUnit.Differ]; infer_instance)

def neighboursB (R : GUnit → GUnit → Prop) [∀ a b, Decidable (R a b)] : List GUnit → Bool
  | a :: b :: l => decide (R a b) && neighboursB R (b :: l)
  | _ => true

theorem neighbours_of_check {R : GUnit → GUnit → Prop} [∀ a b, Decidable (R a b)] {l : List GUnit}
    (h : neighboursB R l = true) : Neighbours R l := by
  intro a x y b e
  induction a generalizing l with
  | nil =>
    subst e
    simp [neighboursB] at h
    exact h.1
  | cons c a ih =>
    subst e
    cases a with
    | nil => exact ih (l := x :: y :: b) (by simp [neighboursB] at h; simp [neighboursB, h]) rfl
    | cons d a => exact ih (l := d :: a ++ x :: y :: b) (by simp [neighboursB] at h; simp [h]) rfl

/-- Check that units are a generated pattern. -/
def genCheck (us : List GUnit) : Bool :=
  decide ((∀ u ∈ us, u.Valid) ∧ (us.length < 2 ∨ ∀ u ∈ us, .sign '/' ∈ u.spaces → u.spaces = [.sign '/'])) &&
    neighboursB GUnit.Differ us

theorem generated_check {us : List GUnit} (h : genCheck us = true) : Generated us := by
  simp only [genCheck, Bool.and_eq_true, decide_eq_true_eq] at h
  refine ⟨h.1.1, neighbours_of_check h.2, ?_⟩
  intro hl
  rcases h.1.2 with h1 | h1
  · omega
  · exact h1

/-- The pattern texts of a pattern line. -/
def lineTexts (s : Str) : List Str :=
  match analyzeUrlPatternString s with
  | .ok (_, ts) => ts
  | .error _ => []

/-- To check a history: the units of every pattern of every line. -/
theorem allGen_of {hist : List (Str × Option Str)} (uss : List (List (List GUnit)))
    (h : hist.map (fun h => lineTexts h.1) = uss.map (List.map patText))
    (hg : (uss.all (fun l => l.all genCheck)) = true) : AllGen hist := by
  intro s md m ps hin e p hp
  have h1 : lineTexts s = ps.map (·.str) := by simp [lineTexts, parse_patterns_strs e]
  have h2 : lineTexts s ∈ uss.map (List.map patText) := by
    rw [← h]; exact List.mem_map.mpr ⟨(s, md), hin, rfl⟩
  obtain ⟨l, hl, hl2⟩ := List.mem_map.mp h2
  have h3 : p.str ∈ l.map patText := by rw [hl2, h1]; exact List.mem_map.mpr ⟨p, hp, rfl⟩
  obtain ⟨us, hus, h4⟩ := List.mem_map.mp h3
  rw [List.all_eq_true] at hg
  have := hg l hl
  rw [List.all_eq_true] at this
  exact ⟨us, generated_check (this us hus), h4.symm⟩

/-- Three loads of generated patterns. -/
def c17Hist : List (Str × Option Str) :=
  [(c!"/news/[0-9a-z]{3}[\\?]id=[0-9]+", none), (c!"/news/a1b[\\?]id=[0-9]{2}", none),
    (c!"/news/[a-z]{2}[0-9][\\?]id=[0-9]{3}", none)]

/-- The hypothesis of `C17_simple` can hold. -/
example : AllGen c17Hist := allGen_of
  [[[.run .lower c!"news"], [.cls [.digit, .lower] 3], [.wild [.digit]]],
    [[.run .lower c!"news"], [.run .lower c!"a", .run .digit c!"1", .run .lower c!"b"], [.cls [.digit] 2]],
    [[.run .lower c!"news"], [.cls [.lower] 2, .cls [.digit] 1], [.cls [.digit] 3]]] (by decide +kernel) (by decide +kernel)

/-- The results: the first two patterns, of the three loaded. -/
example : matchTexts (c17Hist.map (·.1)) c!"http://h/news/a1b?id=12" =
    .ok [[c!"news", c!"a1b", c!"[0-9]{2}"], [c!"news", c!"[0-9a-z]{3}", c!"[0-9]+"]] := by decide +kernel

end OsUrl
