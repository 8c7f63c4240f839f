import Verif.Props.C41
import Verif.Props.C36

/-! # C42: the match command prints the most special pattern -/

namespace OsUrl
open Spec

/-- Two different lists of the same length have a last position at which they differ. -/
theorem last_diff {α : Type} [DecidableEq α] {l l' : List α} (hl : l.length = l'.length) (hne : l ≠ l') :
    ∃ a x c b y, l = a ++ x :: c ∧ l' = b ++ y :: c ∧ x ≠ y := by
  induction l generalizing l' with
  | nil =>
    cases l' with
    | nil => exact absurd rfl hne
    | cons _ _ => simp at hl
  | cons x l ih =>
    cases l' with
    | nil => simp at hl
    | cons y l' =>
      by_cases h : l = l'
      · subst h
        exact ⟨[], x, l, [], y, rfl, rfl, fun e => hne (by rw [e])⟩
      · obtain ⟨a, x', c, b, y', rfl, rfl, e⟩ := ih (by simpa using hl) h
        exact ⟨x :: a, x', c, y :: b, y', rfl, rfl, e⟩

/-- **C42**: when the pattern lines are generated patterns and the URL matches, the command without
`-a` prints the line of a matching pattern to which every other matching pattern is more general, at the
last piece at which the two differ. -/
theorem C42_best (env : Env) (hu : Utf8 env) (patternLines : List Bytes) (raw : Bytes) (url : Str) (m : URLMeta)
    (pps : List ParsedPiece) (hd : env.decode raw = some url) (hp : parse url = .ok (m, .pieces pps))
    (hc : NoClash env.md5 (url :: patternTexts env patternLines))
    (hg : AllGen ((patternTexts env patternLines).map (fun p => (p, some p))))
    (rs : List (Matched FullStore Str)) (hm : (matchLoad env patternLines).match_ env.md5 url = .ok rs) (hne : rs ≠ []) :
    ∃ x ∈ rs, ∃ t, x.data.md = some t ∧ parse t = .ok (m, .patterns x.path) ∧ matchResult env (matchLoad env patternLines) false raw = env.encode t ∧
      (∃ l ∈ patternLines, env.encode t = rstripB l) ∧
      ∀ y ∈ rs, y.path = x.path ∨ ∃ (a b c : List Str) (us vs : List GUnit), Generated us ∧ Generated vs ∧
        y.path.map (·.str) = a ++ patText us :: c ∧ x.path.map (·.str) = b ++ patText vs :: c ∧ patText us ≠ patText vs ∧
        MoreGeneral (a.length + 1 == m.pathDepth) us vs := by
  have hc0 : NoClash env.md5 (patternTexts env patternLines) := hc.mono (by simp +contextual)
  have hc1 : NoClash env.md5 (url :: ((patternTexts env patternLines).map (fun p => (p, some p))).map (·.1)) := by
    rw [List.map_map]
    simpa [Function.comp_def] using hc
  have ho := outcome_spec hu false patternLines hc0 raw
  obtain ⟨ms, ts, e1, e2, e3, e4, e5⟩ := ho.matched url rs hd hm hne
  simp only [Bool.false_eq_true, if_false] at e3
  obtain ⟨x, hx, rfl, hmax⟩ := e3
  rw [matchLoad_eq] at hm
  obtain ⟨t, rfl⟩ : ∃ t, ts = [t] := by
    have := congrArg List.length e2
    simp at this
    exact List.length_eq_one_iff.mp this.symm
  simp only [List.map_cons, List.map_nil, List.cons.injEq, and_true, tabbed] at e1 e2
  obtain ⟨s, es⟩ := result_parse hp hc1 hm hx
  obtain ⟨m', et⟩ := e4 x (by simp) t e2
  obtain ⟨h47, l, hl, el⟩ := e5 (env.encode t) (by simp)
  -- the printed line was loaded, hence has the same meta
  have hm' : m' = m := by
    obtain ⟨r, -, -, -, -, hmd⟩ := match_mem hp hc1 hm hx
    obtain ⟨A, p, B, hL, -⟩ := (lastMd_spec _).2 t (hmd.symm.trans e2)
    have hin : (p, some t) ∈ ((macc ((patternTexts env patternLines).map (fun p => (p, some p)))).filter
        (fun y => decide (y.m = m ∧ y.ps = x.path))).map MRec.ins := by rw [hL]; simp
    obtain ⟨y, hy, ey⟩ := List.mem_map.mp hin
    obtain ⟨hy1, hy2⟩ := List.mem_filter.mp hy
    have hy2 := of_decide_eq_true hy2
    obtain ⟨s', hs', es'⟩ := mem_macc.mp hy1
    have : y.md = some t := congrArg Prod.snd ey
    rw [this] at hs'
    obtain ⟨p', -, ep'⟩ := List.mem_map.mp hs'
    simp only [Prod.mk.injEq, Option.some.injEq] at ep'
    have : s' = t := by rw [← ep'.1, ep'.2]
    rw [this, hy2.1, hy2.2, et] at es'
    simp only [Except.ok.injEq, Prod.mk.injEq] at es'
    exact es'.1
  subst hm'
  have hres : matchResult env (matchLoad env patternLines) false raw = env.encode t := by
    by_cases hem : (matchResult env (matchLoad env patternLines) false raw).isEmpty = true
    · simp only [hem, if_true] at e1
      rw [← e1] at h47
      simp at h47
    · simp only [hem] at e1
      exact e1
  refine ⟨x, hx, t, e2, et, hres, ⟨l, hl, el⟩, ?_⟩
  intro y hy
  by_cases hpath : y.path = x.path
  · exact .inl hpath
  · right
    have hlt : y.lt x = .ok true := by
      rcases C20_total env.md5 _ url m' pps hp hc1 hg rs hm x hx y hy (Ne.symm hpath) with h | h
      · rw [hmax y hy] at h; cases h
      · exact h
    obtain ⟨sy, ey⟩ := result_parse hp hc1 hm hy
    have hr := parse_same ey es
    have hstrs : y.path.map (·.str) ≠ x.path.map (·.str) := by
      intro e
      apply hpath
      apply List.reverse_inj.mp
      exact hr.same.strs (by rw [List.map_reverse, e, List.map_reverse])
    have hlen : (y.path.map (·.str)).length = (x.path.map (·.str)).length := by
      have a1 := (rec_depth (hist := [(sy, none)]) (r := ⟨m', y.path, none⟩) (mem_macc.mpr ⟨sy, by simp, ey⟩)).1
      have a2 := (rec_depth (hist := [(s, none)]) (r := ⟨m', x.path, none⟩) (mem_macc.mpr ⟨s, by simp, es⟩)).1
      simpa using a1.trans a2.symm
    obtain ⟨a, w, c, b, w', d1, d2, d3⟩ := last_diff hlen hstrs
    obtain ⟨p, hp1, hp2⟩ : ∃ p ∈ y.path, p.str = w := by
      have : w ∈ y.path.map (·.str) := by rw [d1]; simp
      simpa using this
    obtain ⟨q, hq1, hq2⟩ : ∃ p ∈ x.path, p.str = w' := by
      have : w' ∈ x.path.map (·.str) := by rw [d2]; simp
      simpa using this
    obtain ⟨⟨sy', _, hy1, hy2⟩, -⟩ := C15_structure env.md5 _ url m' pps hp hc1 rs hm y hy
    obtain ⟨⟨sx', _, hx1, hx2⟩, -⟩ := C15_structure env.md5 _ url m' pps hp hc1 rs hm x hx
    obtain ⟨us, g1, g2⟩ := hg _ _ _ _ hy1 hy2 p hp1
    obtain ⟨vs, g3, g4⟩ := hg _ _ _ _ hx1 hx2 q hq1
    have e6 : w = patText us := hp2.symm.trans g2
    have e7 : w' = patText vs := hq2.symm.trans g4
    subst e6 e7
    exact ⟨a, b, c, us, vs, g1, g3, d1, d2, d3,
      (C41_order env.md5 _ url m' pps hp hc1 hg rs hm y x hy hx a b c us vs g1 g3 d1 d2 d3).mp hlt⟩

/-- Four matching patterns; the last piece decides. -/
example : matchRun asciiEnvM false [asciiBytesM c!"/a/[0-9]+\n", asciiBytesM c!"/[a-z]+/[0-9]{2}\n", asciiBytesM c!"/a/[0-9]{2}\n",
      asciiBytesM c!"/[a-z]+/12\n", asciiBytesM c!"/a/13\n"] [asciiBytesM c!"http://h/a/12\n"] =
    asciiBytesM c!"/[a-z]+/12\thttp://h/a/12\n" := by decide +kernel

end OsUrl
