import Verif.Proofs.GenMatch
import Verif.Props.C10
import Verif.Props.C16
import Verif.Props.C19

/-! # C12: the literal pattern of a URL is loadable and matches it -/

namespace OsUrl
open Spec

theorem pack_head (m : URLMeta) (pats : List Str) : startsWith ['/'] (pack m pats) = true := by
  simp [pack, startsWith, List.isPrefixOf]

theorem gen_patternUnits {us : List GUnit} (hv : ∀ u ∈ us, u.Valid) (ha : Neighbours GUnit.Differ us) :
    ∃ l, patternUnits (patText us) = .ok l := by
  by_cases h : us = []
  · subst h; exact ⟨_, units_empty⟩
  · exact ⟨_, gen_units hv ha h⟩

/-- A packed pattern whose pieces parse is loadable. -/
theorem parse_packed {m : URLMeta} {pats : List Str} (h : analyzeUrlPatternString (pack m pats) = .ok (m, pats))
    (hu : ∀ t ∈ pats, ∃ l, patternUnits t = .ok l) :
    ∃ ps, parse (pack m pats) = .ok (m, .patterns ps) ∧ ps.map (·.str) = pats := by
  have : ∃ ps, (pats.zipIdx 1).mapM (fun (x : Str × Nat) => mkMatchPattern x.1 (x.2 == m.pathDepth)) = .ok ps := by
    apply mapM_total
    rintro ⟨t, i⟩ hx
    obtain ⟨l, hl⟩ := hu t (List.fst_mem_of_mem_zipIdx hx)
    simp only [mkMatchPattern, hl]
    exact ⟨_, rfl⟩
  obtain ⟨ps, hps⟩ := this
  have hp : parse (pack m pats) = .ok (m, .patterns ps) := by
    unfold parse
    rw [if_pos (pack_head m pats), h]
    simp only [bind, Except.bind, hps, pure, Except.pure]
  refine ⟨ps, hp, ?_⟩
  have := parse_patterns_strs hp
  rw [h] at this
  simp only [Except.ok.injEq, Prod.mk.injEq, true_and] at this
  exact this.symm

/-- **C12**: for an accepted URL without backslash, `pack` of its own pieces loads into every matcher
(whose several-unit patterns have no empty class and no class mixing `/` with other signs), and `match`
then returns exactly that pattern among its results, without raising. -/
theorem C12_literal (md5 : Str → Str) (hist : List (Str × Option Str)) (md : Option Str) (url : Str) (m : URLMeta)
    (pieces : List Str) (pps : List ParsedPiece) (hs : startsWith ['/'] url = false)
    (ha : analyzeUrl url = .ok (m, pieces)) (hp : pieces.mapM parsePiece = .ok pps) (hb : ∀ s ∈ pieces, '\\' ∉ s)
    (hc : NoClash md5 (url :: pack m (pps.map (·.piece)) :: hist.map (·.1))) (ht : AllTame hist) :
    ∃ st b rs, (mloadAll md5 hist).load md5 (pack m (pps.map (·.piece))) md = .ok (st, b) ∧
      st.match_ md5 url = .ok rs ∧ ∃ x ∈ rs, x.path.map (·.str) = pps.map (·.piece) := by
  have hu : parse url = .ok (m, .pieces pps) := by
    simp [parse, hs, ha, hp, bind, Except.bind, pure, Except.pure]
  obtain ⟨hk, hpps⟩ := parsePieces_ok hp
  have han := C10_pieces url m pieces pps ha hp
  have hget : ∀ (i : Nat) (s : Str), pieces[i]? = some s →
      (pps.map (·.piece))[i]? = some ((runsOf s).map runText).flatten := by
    intro i s hi
    rw [hpps]
    simp only [List.map_map, List.getElem?_map, hi, Option.map_some]
    rfl
  obtain ⟨ps, hparse, hstr⟩ := parse_packed han (by
    intro t htm
    rw [hpps, List.map_map] at htm
    obtain ⟨s, hsm, rfl⟩ := List.mem_map.mp htm
    have hr := runsOf_spec (hk s hsm)
    have := gen_patternUnits (runUnits_valid hr (hb s hsm)) (runUnits_apart hr)
    rw [runUnits_text] at this
    exact this)
  obtain ⟨⟨st, b⟩, hload⟩ := mload_total md5 (mloadAll md5 hist) md hparse
  have hst : st = mloadAll md5 (hist ++ [(pack m (pps.map (·.piece)), md)]) := by
    rw [mloadAll_concat]
    simp only [hload]
  -- the new pattern is literal at every position
  have hlit : ∀ (i : Nat) (s : Str) (p : MatchPattern), pieces[i]? = some s → ps[i]? = some p →
      p.cls = .piece ∧ unitsFuzzyRule p.units = (ppOf (runsOf s)).fuzzyRule ∧ SelF (ppOf (runsOf s)) p := by
    intro i s p hi hpi
    have hsm := List.mem_of_getElem? hi
    have hr := runsOf_spec (hk s hsm)
    have hg := parse_good hparse (List.mem_of_getElem? hpi)
    have e : p.str = ((runsOf s).map runText).flatten := by
      have h1 := hget i s hi
      rw [← hstr, List.getElem?_map, hpi] at h1
      simpa using h1
    refine ⟨(lit_good hr (hb s hsm) hg e).1, ?_⟩
    exact (lit_sel hr (hb s hsm) (hk s hsm) hg e).mpr rfl
  have hlen : ps.length = pieces.length := by
    have := congrArg List.length hstr
    simpa [hpps] using this
  have hpiece : ∀ p ∈ ps, p.cls = .piece := by
    intro p hpm
    obtain ⟨i, hi⟩ := List.getElem?_of_mem hpm
    have hlt : i < ps.length := (List.getElem?_eq_some_iff.mp hi).1
    exact (hlit i _ p (List.getElem?_eq_getElem (by omega)) hi).1
  have htame : AllTame (hist ++ [(pack m (pps.map (·.piece)), md)]) := by
    intro s' md' m' ps' hin e
    rw [List.mem_append] at hin
    rcases hin with hin | hin
    · exact ht s' md' m' ps' hin e
    · simp only [List.mem_singleton, Prod.mk.injEq] at hin
      obtain ⟨rfl, rfl⟩ := hin
      rw [hparse] at e
      simp only [Except.ok.injEq, Prod.mk.injEq, Parsed.patterns.injEq] at e
      obtain ⟨rfl, rfl⟩ := e
      intro p hpm
      obtain ⟨i, hi⟩ := List.getElem?_of_mem hpm
      have hlt : i < ps.length := (List.getElem?_eq_some_iff.mp hi).1
      have hsi : pieces[i]? = some (pieces[i]'(by omega)) := List.getElem?_eq_getElem (by omega)
      have hsm := List.mem_of_getElem? hsi
      have hr := runsOf_spec (hk _ hsm)
      have e : p.str = ((runsOf (pieces[i]'(by omega))).map runText).flatten := by
        have h1 := hget i _ hsi
        rw [← hstr, List.getElem?_map, hi] at h1
        simpa using h1
      refine gen_tame (us := runUnits (runsOf (pieces[i]'(by omega)))) (parse_good hparse hpm)
        ⟨runUnits_valid hr (hb _ hsm), runUnits_apart hr, ?_⟩ (by rw [runUnits_text, e])
      intro _ u hu hsl
      obtain ⟨r, -, rfl⟩ := List.mem_map.mp hu
      simp only [GUnit.spaces, List.mem_singleton] at hsl ⊢
      rw [hsl]
  obtain ⟨rs, h1, -, h3⟩ := match_main (md5 := md5) (hist := hist ++ [(pack m (pps.map (·.piece)), md)]) hu hk hpps
    (hc.mono (by
      intro a ha
      simp only [List.map_append, List.mem_cons, List.mem_append, List.map_cons, List.map_nil, List.not_mem_nil, or_false] at ha ⊢
      rcases ha with h | h | h
      · exact .inl h
      · exact .inr (.inr h)
      · exact .inr (.inl h))) htame
  refine ⟨st, b, rs, hload, by rw [hst]; exact h1, ?_⟩
  have hin : (⟨m, ps, md⟩ : MRec) ∈ macc (hist ++ [(pack m (pps.map (·.piece)), md)]) :=
    mem_macc.mpr ⟨_, by simp, hparse⟩
  obtain ⟨x, hx, e⟩ := h3 ⟨m, ps, md⟩ hin rfl (.inr hpiece) (by
      apply List.ext_getElem?
      intro i
      simp only [List.getElem?_map, hpps]
      cases hi : ps[i]? with
      | none =>
        have : pieces[i]? = none := by rw [List.getElem?_eq_none_iff] at hi ⊢; omega
        simp [this]
      | some p =>
        have hlt : i < ps.length := (List.getElem?_eq_some_iff.mp hi).1
        have hsi : pieces[i]? = some (pieces[i]'(by omega)) := List.getElem?_eq_getElem (by omega)
        simp only [hsi, Option.map_some, Option.some.injEq]
        exact (hlit i _ p hsi hi).2.1)
    (fun i s p hi hpi => (hlit i s p hi hpi).2.2)
  exact ⟨x, hx, by rw [e]; exact hstr⟩

/-- **C12** with a backslash fails: the literal text of `a\` does not even load. -/
theorem C12_backslash_false :
    (analyzeUrl c!"http://h/a\\").map (·.2) = .ok [c!"a\\"] ∧
      pack ⟨1, [], false⟩ [c!"a[\\\\]"] = c!"/a[\\\\]" ∧
      (parsePiece c!"a\\").map (·.piece) = .ok c!"a[\\\\]" ∧
      (PatternMatcherSt.load (fun s => s) [] c!"/a[\\\\]" none).map (·.2) = .error .invalidPattern := by
  decide +kernel

example : matchTexts (c16Hist ++ [c!"/x[\\-]{2}1[\\?]q=[\\.]z#[\\[]"]) c!"http://h/x--1?q=.z#[" =
    .ok [[c!"x[\\-]{2}1", c!"[\\.]z", c!"[\\[]"]] := by decide +kernel

end OsUrl
