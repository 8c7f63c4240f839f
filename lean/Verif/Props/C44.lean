import Verif.Proofs.SelGen
import Verif.Props.C17

/-! # C44: exactly which loaded patterns are returned -/

namespace OsUrl
open Spec

/-- **C44**: after any loads of generated patterns, for every URL `match` raises nothing,
and a sequence of generated patterns is among the results exactly when it was loaded for the structure of
the URL and every piece, cut into parts as the kind of its pattern asks for, fits the pattern unit by unit. -/
theorem C44_complete (md5 : Str → Str) (hist : List (Str × Option Str)) (url : Str) (m : URLMeta) (pieces : List Str)
    (pps : List ParsedPiece) (hs : startsWith ['/'] url = false) (ha : analyzeUrl url = .ok (m, pieces))
    (hp : pieces.mapM parsePiece = .ok pps) (hc : NoClash md5 (url :: hist.map (·.1)))
    (hg : AllGen hist) :
    ∃ rs, (mloadAll md5 hist).match_ md5 url = .ok rs ∧
      ∀ uss : List (List GUnit), (∀ us ∈ uss, Generated us) →
        ((∃ x ∈ rs, x.path.map (·.str) = uss.map patText) ↔
          (∃ s md ps, (s, md) ∈ hist ∧ parse s = .ok (m, .patterns ps) ∧ ps.map (·.str) = uss.map patText) ∧
          uss.length = pieces.length ∧
          ∀ (i : Nat) (us : List GUnit) (s : Str), uss[i]? = some us → pieces[i]? = some s →
            Matches (i + 1 == m.pathDepth) us s) := by
  have h : parse url = .ok (m, .pieces pps) := by
    simp [parse, hs, ha, hp, bind, Except.bind, pure, Except.pure]
  obtain ⟨hk, hpps⟩ := parsePieces_ok hp
  obtain ⟨rs, h1, h2, h3⟩ := match_main h hk hpps hc hg.tame
  refine ⟨rs, h1, ?_⟩
  intro uss hus
  -- the selection at one position
  have hsel : ∀ (t : Str) (ps : List MatchPattern), parse t = .ok (m, .patterns ps) → ps.map (·.str) = uss.map patText →
      ∀ (i : Nat) (us : List GUnit) (s : Str) (p : MatchPattern), uss[i]? = some us → pieces[i]? = some s → ps[i]? = some p →
        ((unitsFuzzyRule p.units = (ppOf (runsOf s)).fuzzyRule ∧ SelF (ppOf (runsOf s)) p) ↔ Matches (i + 1 == m.pathDepth) us s) := by
    intro t ps e hstr i us s p hui hsi hpi
    have hx : p.str = patText us := by
      have := congrArg (fun l => l[i]?) hstr
      simpa [hpi, hui] using this
    have hsm := List.mem_of_getElem? hsi
    exact gen_sel (hus us (List.mem_of_getElem? hui)) (hk s hsm) (parse_patterns_at e i p hpi) hx
  constructor
  · rintro ⟨x, hx, hstr⟩
    obtain ⟨r, hr, hrm, hrp, hf, hall⟩ := h2 x hx
    obtain ⟨t, htm, e⟩ := mem_macc.mp hr
    rw [hrm] at e
    have hl : r.ps.length = pieces.length := by
      have := congrArg List.length hf
      simpa [hpps] using this
    have hl2 : r.ps.length = uss.length := by
      rw [hrp]
      simpa using congrArg List.length hstr
    refine ⟨⟨t, r.md, r.ps, htm, e, by rw [hrp]; exact hstr⟩, by omega, ?_⟩
    intro i us s hui hsi
    have hlt : i < uss.length := (List.getElem?_eq_some_iff.mp hui).1
    have hpi : r.ps[i]? = some (r.ps[i]'(by omega)) := List.getElem?_eq_getElem (by omega)
    obtain ⟨hat, hsf⟩ := hall i s _ hsi hpi
    exact (hsel t r.ps e (by rw [hrp]; exact hstr) i us s _ hui hsi hpi).mp ⟨hat.fuzzy, hsf⟩
  · rintro ⟨⟨s, md, ps, hin, e, hstr⟩, hl, hfit⟩
    have hl2 : ps.length = uss.length := by simpa using congrArg List.length hstr
    have hpos : ∀ (i : Nat) (s : Str) (p : MatchPattern), pieces[i]? = some s → ps[i]? = some p →
        unitsFuzzyRule p.units = (ppOf (runsOf s)).fuzzyRule ∧ SelF (ppOf (runsOf s)) p := by
      intro i t p hsi hpi
      have hlt : i < ps.length := (List.getElem?_eq_some_iff.mp hpi).1
      have hti : uss[i]? = some (uss[i]'(by omega)) := List.getElem?_eq_getElem (by omega)
      exact (hsel s ps e hstr i _ t p hti hsi hpi).mpr (hfit i _ t hti hsi)
    obtain ⟨x, hx, hxp⟩ := h3 ⟨m, ps, md⟩ (mem_macc.mpr ⟨s, hin, e⟩) rfl (.inl hg.canon) (by
        apply List.ext_getElem?
        intro i
        simp only [List.getElem?_map, hpps]
        cases hi : ps[i]? with
        | none =>
          have : pieces[i]? = none := by rw [List.getElem?_eq_none_iff] at hi ⊢; omega
          simp [this]
        | some p =>
          have hlt : i < ps.length := (List.getElem?_eq_some_iff.mp hi).1
          have hsi : pieces[i]? = some (pieces[i]'(by omega)) := List.getElem?_eq_getElem (by omega)
          simp only [hsi, Option.map_some, Option.some.injEq]
          exact (hpos i _ p hsi hi).1)
      (fun i s p hi hpi => (hpos i s p hi hpi).2)
    exact ⟨x, hx, by rw [hxp]; exact hstr⟩

/-! ### examples -/

/-- Four patterns that could all be meant for `v2-a1.mp4`. -/
def c44Hist : List (Str × Option Str) :=
  [(c!"/[a-z]2[\\-][a-z][0-9][\\.]mp[0-9]", none), (c!"/[0-9a-z]{2}[\\-][0-9a-z]+[\\.][0-9a-z]{3}", none),
    (c!"/[0-9\\-a-z]+[\\.][0-9a-z]{3}", none), (c!"/[0-9\\-a-z]{5}[\\.][a-z]{3}", none)]

def c44Units : List (List GUnit) :=
  [[.cls [.lower] 1, .run .digit c!"2", .cls [.sign '-'] 1, .cls [.lower] 1, .cls [.digit] 1, .cls [.sign '.'] 1, .run .lower c!"mp", .cls [.digit] 1],
    [.cls [.digit, .lower] 2, .cls [.sign '-'] 1, .wild [.digit, .lower], .cls [.sign '.'] 1, .cls [.digit, .lower] 3],
    [.wild [.digit, .sign '-', .lower], .cls [.sign '.'] 1, .cls [.digit, .lower] 3],
    [.cls [.digit, .sign '-', .lower] 5, .cls [.sign '.'] 1, .cls [.lower] 3]]

/-- The hypothesis of `C44_complete` can hold. -/
example : AllGen c44Hist := allGen_of (c44Units.map (fun us => [us])) (by decide +kernel) (by decide +kernel)

/-- Their kinds, at the end of the path. -/
example : c44Units.map (kind true) = [.runs, .mixed, .dotted, .dotted] := by decide +kernel

/-- Three are found; the fourth wants three letters after the dot. -/
example : matchTexts (c44Hist.map (·.1)) c!"http://h/v2-a1.mp4" =
    .ok [[c!"[a-z]2[\\-][a-z][0-9][\\.]mp[0-9]"], [c!"[0-9a-z]{2}[\\-][0-9a-z]+[\\.][0-9a-z]{3}"],
      [c!"[0-9\\-a-z]+[\\.][0-9a-z]{3}"]] := by decide +kernel

/-- A piece with a backslash has none of these shapes. -/
example : matchTexts (c44Hist.map (·.1)) c!"http://h/v2-\\a1.mp4" = .ok [] := by decide +kernel

/-- As in the specification: the piece cut at the last dot, and the three parts. -/
example : Matches true [.wild [.digit, .sign '-', .lower], .cls [.sign '.'] 1, .cls [.digit, .lower] 3] c!"v2-a1.mp4" := by
  refine ⟨[c!"v2-a1", c!".", c!"mp4"], ?_, ?_⟩
  · refine ⟨[(.lower, c!"v"), (.digit, c!"2"), (.sign '-', c!"-"), (.lower, c!"a"), (.digit, c!"1")], (.sign '.', c!"."),
      [(.lower, c!"mp"), (.digit, c!"4")], ?_, rfl, by decide, by decide, by decide⟩
    exact runsOf_spec (s := c!"v2-a1.mp4") (by decide)
  · refine ⟨?_, ⟨?_, rfl⟩, ⟨?_, rfl⟩, trivial⟩
    · exact (spacesOf_iff (by decide) (by decide)).mp (by decide +kernel)
    · exact (spacesOf_iff (by decide) (by decide)).mp (by decide +kernel)
    · exact (spacesOf_iff (by decide) (by decide)).mp (by decide +kernel)

end OsUrl
