import Verif.Proofs.MatchLimit
import Verif.Props.C64
import Verif.Props.C15

/-!
# C65: the call stack of the matcher

`match` needs two nested calls per piece of the URL, `pattern-make` about one: there are URLs whose pattern is printed, and for which `pattern-match`
answers `E`.
-/

namespace OsUrl

open Spec

/-- **C65**: a limited `match` raises `RecursionError` or does what the unlimited one does. -/
theorem C65_refines (md5 : Str → Str) (st : PatternMatcherSt) (url : Str) (lim : Nat) :
    st.matchL md5 lim url = .error .recursionError ∨ st.matchL md5 lim url = st.match_ md5 url := by
  unfold PatternMatcherSt.matchL PatternMatcherSt.match_
  refine rf_bind (Rf.refl _) (fun a => ?_)
  obtain ⟨m, parsed⟩ := a
  simp only
  cases Dict.get? (fuzzyDigest md5 m parsed) st with
  | none => exact .inr rfl
  | some ms => exact mmatchL_ref urlMatchL_ref _ _ _ _ _

/-- **C65**: frames that are always enough: two for each piece and for each run of characters of the longest piece. -/
theorem C65_enough (md5 : Str → Str) (st : PatternMatcherSt) (url : Str) (m : URLMeta) (pps : List ParsedPiece)
    (h : parse url = .ok (m, .pieces pps)) (k : Nat) (hk : ∀ pp ∈ pps, pp.rules.length ≤ k) (lim : Nat) (hl : 2 * (pps.length + k) + 4 ≤ lim) :
    st.matchL md5 lim url = st.match_ md5 url := by
  unfold PatternMatcherSt.matchL PatternMatcherSt.match_
  rw [h]
  simp only [bind, Except.bind]
  cases Dict.get? (fuzzyDigest md5 m (.pieces pps)) st with
  | none => rfl
  | some ms =>
    simp only
    refine mmatchL_eq (ops := urlOps) (K := 2 * k + 3) _ ?_ lim (by rw [List.length_map]; omega) _ _ _
    intro l hl c pp hp s
    refine urlMatchL_eq hl c pp ?_ s
    rintro q rfl
    obtain ⟨q', hq, e⟩ := List.mem_map.mp hp
    obtain rfl := Option.some.inj e
    exact hk _ hq

/-- **C65**: a URL with `n` pieces for which there is a matching pattern raises `RecursionError` with fewer than `2 * n` frames. -/
theorem C65_deep (md5 : Str → Str) (hist : List (Str × Option Str)) (url : Str) (m : URLMeta) (pps : List ParsedPiece)
    (h : parse url = .ok (m, .pieces pps)) (hc : NoClash md5 (url :: hist.map (·.1)))
    (rs : List (Matched FullStore Str)) (hm : (mloadAll md5 hist).match_ md5 url = .ok rs) (hne : rs ≠ []) (lim : Nat) (hl : lim < 2 * pps.length) :
    (mloadAll md5 hist).matchL md5 lim url = .error .recursionError := by
  obtain ⟨x, hx⟩ := List.exists_mem_of_ne_nil _ hne
  obtain ⟨-, hlen, -⟩ := C15_structure md5 hist url m pps h hc rs hm x hx
  unfold PatternMatcherSt.match_ at hm
  unfold PatternMatcherSt.matchL
  rw [h] at hm ⊢
  simp only [bind, Except.bind] at hm ⊢
  cases hg : Dict.get? (fuzzyDigest md5 m (.pieces pps)) (mloadAll md5 hist) with
  | none =>
    rw [hg] at hm
    simp only [pure, Except.pure, Except.ok.injEq] at hm
    exact absurd hm.symm hne
  | some ms =>
    rw [hg] at hm
    simp only at hm ⊢
    exact mmatchL_deep urlMatchL_ref _ _ _ _ _ hm hx (by rw [hlen]; simpa using hl)

theorem matchTryL_ref (env : Env) (lim : Nat) (st : PatternMatcherSt) (all : Bool) (raw : Bytes) :
    Rf (matchTryL env lim st all raw) (matchTry env st all raw) := by
  unfold matchTryL matchTry
  cases env.decode raw with
  | none => exact .inr rfl
  | some url =>
    refine rf_bind (C65_refines env.md5 st url lim) (fun ms => ?_)
    cases all with
    | true => exact Rf.refl _
    | false =>
      exact rf_bind (x := pySortedDesc (Matched.ltL lim) ms) (y := pySortedDesc Matched.lt ms) (pySortedDesc_ref (ltL_ref lim) ms) (fun _ => Rf.refl _)

theorem match_path_le {md5 : Str → Str} {st : PatternMatcherSt} {url : Str} {m : URLMeta} {pps : List ParsedPiece}
    (h : parse url = .ok (m, .pieces pps)) {rs : List (Matched FullStore Str)} (hm : st.match_ md5 url = .ok rs) :
    ∀ x ∈ rs, x.path.length ≤ pps.length := by
  intro x hx
  unfold PatternMatcherSt.match_ at hm
  rw [h] at hm
  simp only [bind, Except.bind] at hm
  cases hg : Dict.get? (fuzzyDigest md5 m (.pieces pps)) st with
  | none =>
    rw [hg] at hm
    simp only [pure, Except.pure, Except.ok.injEq] at hm
    subst hm; cases hx
  | some ms =>
    rw [hg] at hm
    simp only at hm
    simpa using mmatch_path_le _ _ _ _ hm hx

/-- **C65**: one line of `pattern-match`: what is printed without a limit, or `E`; with enough frames what is printed without a limit; and always `E`
for a URL that has a matching pattern and more pieces than half the frames. -/
theorem C65_line (env : Env) (patternLines : List Bytes) (all : Bool) (line : Bytes) :
    (∀ lim, matchLineL env lim (matchLoad env patternLines) all line = matchLine env (matchLoad env patternLines) all line ∨
      matchLineL env lim (matchLoad env patternLines) all line = [69, 9] ++ stripB line ++ [10]) ∧
    ∀ url m pps, env.decode (stripB line) = some url → parse url = .ok (m, .pieces pps) →
      (∀ k, (∀ pp ∈ pps, pp.rules.length ≤ k) → ∀ lim, 2 * (pps.length + k) + 4 ≤ lim →
        matchLineL env lim (matchLoad env patternLines) all line = matchLine env (matchLoad env patternLines) all line) ∧
      (NoClash env.md5 (url :: patternTexts env patternLines) → ∀ rs, (matchLoad env patternLines).match_ env.md5 url = .ok rs → rs ≠ [] →
        ∀ lim, lim < 2 * pps.length → matchLineL env lim (matchLoad env patternLines) all line = [69, 9] ++ stripB line ++ [10]) := by
  refine ⟨fun lim => ?_, fun url m pps hd hp => ⟨fun k hk lim hl => ?_, fun hc rs hm hne lim hl => ?_⟩⟩
  · unfold matchLineL matchLine matchResult
    rcases matchTryL_ref env lim (matchLoad env patternLines) all (stripB line) with e | e
    · right; simp only [e]; rfl
    · left; simp only [e]; rfl
  · have e : matchTryL env lim (matchLoad env patternLines) all (stripB line) = matchTry env (matchLoad env patternLines) all (stripB line) := by
      unfold matchTryL matchTry
      rw [hd]
      simp only
      rw [C65_enough env.md5 _ url m pps hp k hk lim hl]
      cases hm : (matchLoad env patternLines).match_ env.md5 url with
      | error e => rfl
      | ok rs =>
        cases all with
        | true => rfl
        | false =>
          simp only [bind, Except.bind]
          rw [pySortedDesc_eq (lt := Matched.ltL lim) (lt' := Matched.lt) rs
            (fun a ha b => ltL_eq lim a b (by have := match_path_le hp hm a ha; omega))]
          rfl
    unfold matchLineL matchLine matchResult
    simp only [e]
    rfl
  · have e : matchTryL env lim (matchLoad env patternLines) all (stripB line) = .error .recursionError := by
      unfold matchTryL
      rw [hd]
      simp only
      rw [matchLoad_eq] at hm ⊢
      rw [C65_deep env.md5 _ url m pps hp (by rw [List.map_map]; simpa [Function.comp_def] using hc) rs hm hne lim hl]
      rfl
    unfold matchLineL
    simp only [e]
    rfl

/-- **C65**: the whole output of `pattern-match`: line by line what is printed without a limit, or `E`; and the same output as without a limit if there
are enough frames for every line that is a URL. -/
theorem C65_run (env : Env) (lim : Nat) (all : Bool) (patternLines lines : List Bytes) :
    (∃ outs : List Bytes, matchRunL env lim all patternLines lines = outs.flatten ∧ outs.length = lines.length ∧
      ∀ (i : Nat) (out line : Bytes), outs[i]? = some out → lines[i]? = some line →
        out = matchLine env (matchLoad env patternLines) all line ∨ out = [69, 9] ++ stripB line ++ [10]) ∧
    ((∀ line ∈ lines, ∃ url m pps k, env.decode (stripB line) = some url ∧ parse url = .ok (m, .pieces pps) ∧
        (∀ pp ∈ pps, pp.rules.length ≤ k) ∧ 2 * (pps.length + k) + 4 ≤ lim) →
      matchRunL env lim all patternLines lines = matchRun env all patternLines lines) := by
  refine ⟨⟨_, rfl, by simp, ?_⟩, ?_⟩
  · intro i out line ho hl
    rw [List.getElem?_map, hl] at ho
    simp only [Option.map_some, Option.some.injEq] at ho
    rw [← ho]
    exact (C65_line env patternLines all line).1 lim
  · intro h
    unfold matchRunL matchRun
    congr 1
    apply List.map_congr_left
    intro line hl
    obtain ⟨url, m, pps, k, h1, h2, h3, h4⟩ := h line hl
    exact ((C65_line env patternLines all line).2 url m pps h1 h2).1 k h3 lim h4

/-! ### examples -/

/-- Two patterns for one URL: `-a` prints both, with a limit as well. -/
example : matchRunL c47Env 11 true ([c!"/[a-z]+\n", c!"/x\n"].map asciiBytesM) ([c!"http://h/x\n"].map asciiBytesM) ≠
    matchRunL c47Env 11 false ([c!"/[a-z]+\n", c!"/x\n"].map asciiBytesM) ([c!"http://h/x\n"].map asciiBytesM) := by decide +kernel

/-- With eight to eleven frames `pattern-make` prints the pattern of a URL with six pieces, and `pattern-match` answers `E` for this URL; for
another URL that is found among the patterns it answers as ever. -/
example : makeRunL c47Env 8 2 .pattern ([c!"http://h/a/b/c/d/e/f\n", c!"http://h/x\n"].map asciiBytesM) = ([c!"/a/b/c/d/e/f", c!"/x"], none) ∧
    matchRunL c47Env 11 false ([c!"/a/b/c/d/e/f\n", c!"/x\n"].map asciiBytesM) ([c!"http://h/a/b/c/d/e/f\n", c!"http://h/x\n"].map asciiBytesM) =
      asciiBytesM c!"E\thttp://h/a/b/c/d/e/f\n/x\thttp://h/x\n" ∧
    matchRunL c47Env 12 false ([c!"/a/b/c/d/e/f\n", c!"/x\n"].map asciiBytesM) ([c!"http://h/a/b/c/d/e/f\n", c!"http://h/x\n"].map asciiBytesM) =
      asciiBytesM c!"/a/b/c/d/e/f\thttp://h/a/b/c/d/e/f\n/x\thttp://h/x\n" := by decide +kernel

/-- A URL without a matching pattern is not explored to the end and still gets `N`. -/
example : matchRunL c47Env 6 false ([c!"/a/b/c/d/e/f\n"].map asciiBytesM) ([c!"http://h/a/b/d/d/e/f\n"].map asciiBytesM) =
    asciiBytesM c!"N\thttp://h/a/b/d/d/e/f\n" := by decide +kernel

/-- Units of one piece count as well: here one piece with five units and a pattern that keeps two of them. -/
example : matchRunL c47Env 11 false ([c!"/[a-z][\\-]b[\\-][a-z]\n"].map asciiBytesM) ([c!"http://h/a-b-c\n"].map asciiBytesM) =
      asciiBytesM c!"E\thttp://h/a-b-c\n" ∧
    matchRunL c47Env 12 false ([c!"/[a-z][\\-]b[\\-][a-z]\n"].map asciiBytesM) ([c!"http://h/a-b-c\n"].map asciiBytesM) =
      asciiBytesM c!"/[a-z][\\-]b[\\-][a-z]\thttp://h/a-b-c\n" := by decide +kernel

end OsUrl
