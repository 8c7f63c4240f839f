import Verif.Proofs.PatRe
import Verif.Proofs.Witness
import Verif.Props.C16
import Verif.Model.Formatter

/-! # C25, C26: the pattern of a cluster speaks for all its URLs -/

namespace OsUrl
open Spec

/-- **C25**: all paths of a cluster carry the same patterns, and these are what is printed. -/
theorem C25_uniform (md5 : Str → Str) (h : Runtime) (mcn : Int) (hm : 2 ≤ mcn) (hist : List (Str × Option Str))
    (hc : NoCollision md5 (accepted hist)) (hh : NoHashClash h (UrlRow hist)) :
    ∃ cs, PatternMakerSt.make h mcn (loadAll md5 hist) = .ok cs ∧
      ∀ c ∈ cs, ∃ pats : List Str, pats.length = c.1.depth ∧ (∀ p ∈ c.2.paths, p.map (fun kn => kn.2.pattern) = pats) ∧
        formatPattern c.1 c.2 = [pack c.1 pats] := by
  obtain ⟨Ms, h1, h2, h3⟩ := make_all md5 hm hc hh
  refine ⟨_, h2, ?_⟩
  intro c hcm
  obtain ⟨M, hM, hMok, C, hC, e1, hK⟩ := mem_out h3 hcm
  cases hp : c.2.paths with
  | nil =>
    have hl := hK.rows.length_eq
    rw [hp] at hl
    exact absurd (List.eq_nil_of_length_eq_zero hl.symm) hK.final.ne
  | cons p ps =>
    have hpm : p ∈ c.2.paths := by rw [hp]; simp
    refine ⟨p.map (fun kn => kn.2.pattern), by rw [List.length_map, path_length hK hpm, e1], ?_, ?_⟩
    · intro q hq
      rw [← hp] at hq
      exact path_uniform hK hq hpm
    · unfold formatPattern
      rw [hp]; rfl

/-- **C26**: every piece without backslash of every URL of a cluster full-matches the pattern of the cluster at
its position, read as a regular expression. -/
theorem C26_regex (md5 : Str → Str) (h : Runtime) (mcn : Int) (hm : 2 ≤ mcn) (hist : List (Str × Option Str))
    (hc : NoCollision md5 (accepted hist)) (hh : NoHashClash h (UrlRow hist)) :
    ∃ cs, PatternMakerSt.make h mcn (loadAll md5 hist) = .ok cs ∧
      ∀ c ∈ cs, ∀ p ∈ c.2.paths, ∀ u md pieces pps, (u, md) ∈ hist → analyzeUrl u = .ok (c.1, pieces) →
        pieces.mapM parsePiece = .ok pps → pps.map (·.piece) = p.map (·.1) →
        p.length = pieces.length ∧
          ∀ (i : Nat) (k : Str) (d : NodeData) (s : Str), p[i]? = some (k, d) → pieces[i]? = some s → '\\' ∉ s → ReMatch d.pattern s := by
  obtain ⟨Ms, h1, h2, h3⟩ := make_all md5 hm hc hh
  refine ⟨_, h2, ?_⟩
  intro c hcm p hp u md pieces pps _ _ hpp he
  obtain ⟨M, hM, hMok, C, hC, e1, hK⟩ := mem_out h3 hcm
  obtain ⟨hk, rfl⟩ := parsePieces_ok hpp
  obtain ⟨sts, a1, a2, a3⟩ := path_text hm hh hMok hK hp hk (by rw [← he]; simp [pieceOf, Function.comp_def])
  constructor
  · have := congrArg List.length a3
    rw [List.length_map, List.length_map] at this
    rw [this, ← a1, List.length_map]
  · intro i k d s hi hs hb
    have b1 := congrArg (·[i]?) a3
    simp only [List.getElem?_map, hi, Option.map_some] at b1
    rw [← a1, List.getElem?_map] at hs
    cases e : sts[i]? with
    | none => rw [e] at hs; cases hs
    | some st =>
      rw [e] at hs b1
      simp only [Option.map_some, Option.some.injEq] at hs b1
      subst hs
      rw [b1]
      have hm := List.mem_of_getElem? e
      exact (pieceText_fits (a2 st hm) hb).reMatch

/-- Five URLs in two clusters. -/
example : showMade [c!"http://h/x-1", c!"http://h/y-1", c!"http://h/z-22", c!"http://h/u-33", c!"http://h/q"] 2 =
    .ok [([c!"[a-z][\\-][0-9]+"], [[c!"x[\\-]1"], [c!"y[\\-]1"], [c!"z[\\-]22"], [c!"u[\\-]33"]]),
      ([c!"q"], [[c!"q"]])] := by decide +kernel

/-- **C26**, the limit: with a backslash the length that is written is not the length of the piece, so the
piece `a\b` does not match the pattern of its own cluster. -/
theorem C26_backslash : showMade [c!"http://h/a\\b", c!"http://h/\\cd"] 2 =
      .ok [([c!"[\\\\a-z]{4}"], [[c!"a[\\\\]b"], [c!"[\\\\]cd"]])] ∧
    analyzeUrl c!"http://h/a\\b" = .ok (⟨1, [], false⟩, [c!"a\\b"]) ∧ ¬ ReMatch c!"[\\\\a-z]{4}" c!"a\\b" :=
  ⟨by decide +kernel, by decide +kernel, not_reMatch_of_length [4] (by decide +kernel) (by decide)⟩

end OsUrl
