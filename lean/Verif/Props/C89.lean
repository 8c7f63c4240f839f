import Verif.Proofs.MixedMatch
import Verif.Props.C47
import Verif.Props.C88

/-!
# C89: the cluster of a URL and the pattern that `pattern-match` prints for it

`pattern-make` puts a URL into one cluster; `pattern-match` with the printed patterns prints one pattern for the URL.  The two need not be the same.
-/

namespace OsUrl
open Spec

/-- The pattern of the URL's own cluster, units `uss`, can be read back and is found for every piece (C21). -/
def OwnFound (m : URLMeta) (uss : List (List GUnit)) (pieces : List Str) : Prop :=
  (∀ us ∈ uss, ReadablePat us) ∧
  ∀ (i : Nat) (us : List GUnit) (s : Str), uss[i]? = some us → pieces[i]? = some s → Spec.Found (i + 1 = m.pathDepth) us s

/-- The printed patterns as a pattern file, a URL of the input and the pattern of its cluster: it is chosen exactly if the condition of C21 holds. -/
theorem own_chosen (env : Env) (hu : StrictUtf8 env) (mcn : Int) (hm : 2 ≤ mcn) (lines : List Bytes)
    (hc : NoCollision env.md5 (accepted (urlsOf env false lines))) (hh : NoHashClash env.rt (UrlRow (urlsOf env false lines))) :
    ∃ cs, PatternMakerSt.make env.rt mcn (loadAll env.md5 (urlsOf env false lines)) = .ok cs ∧
      patternTexts env (printFile env (printedLines cs)) = printedLines cs ∧
      ∀ l ∈ lines, stripB l ≠ [] → ∀ url m pieces pps, env.decode (stripB l) = some url → startsWith ['/'] url = false →
        analyzeUrl url = .ok (m, pieces) → pieces.mapM parsePiece = .ok pps →
        FileAndUrl env (printFile env (printedLines cs)) l url m pieces ∧
        ∃ c ∈ cs, c.1 = m ∧ ∃ p ∈ c.2.paths, p.map (·.1) = pps.map (·.piece) ∧
        formatPattern c.1 c.2 = [pack m (pathPatterns p)] ∧
        (∀ strs, Chosen (printedLines cs) m pieces (pack m (pathPatterns p)) strs → strs = pathPatterns p) ∧
        (∃ uss : List (List GUnit), (∀ us ∈ uss, WrittenPat us) ∧ uss.map patText = pathPatterns p) ∧
        ∀ uss : List (List GUnit), (∀ us ∈ uss, WrittenPat us) → uss.map patText = pathPatterns p →
          (Chosen (printedLines cs) m pieces (pack m (pathPatterns p)) (pathPatterns p) ↔ OwnFound m uss pieces) := by
  obtain ⟨cs, hcs, -, hpart, -⟩ := C24_partition env.md5 env.rt mcn hm _ hc hh
  obtain ⟨cs', hcs', hexact⟩ := C21_exact env.md5 env.rt mcn hm _ hc hh
  rw [hcs] at hcs'
  cases hcs'
  have hall := printed_all env.md5 hm hc hh hcs
  have htexts := texts_printed hu hall
  have hgen := allGen_printed hall
  refine ⟨cs, hcs, htexts, ?_⟩
  intro l hl hl0 url m pieces pps hdec hst ha hpp
  have hhist : (url, none) ∈ urlsOf env false lines := by
    unfold urlsOf
    refine List.mem_filterMap.mpr ⟨l, hl, ?_⟩
    have : urlOf env l = some url := by
      unfold urlOf
      rw [if_neg (by simpa using hl0)]
      exact hdec
    rw [this]; rfl
  have hparse : parse url = .ok (m, .pieces pps) := by
    simp [parse, hst, ha, hpp, bind, Except.bind, pure, Except.pure]
  obtain ⟨c, hcm, hin⟩ := List.mem_flatMap.mp ((hpart m (pps.map (·.piece))).mpr ⟨url, none, pps, hhist, hparse, rfl⟩)
  obtain ⟨p, hp, e⟩ := List.mem_map.mp hin
  injection e with e1 e2
  subst e1
  obtain ⟨f1, f2⟩ := printed_parse env.md5 hm hc hh hcs hcm hp
  have hrm : pack c.1 (pathPatterns p) ∈ printedLines cs := List.mem_flatMap.mpr ⟨c, hcm, by rw [f1]; simp⟩
  have hids : ((printedLines cs).map (fun r => (r, some r))).map (·.1) = printedLines cs := by
    rw [List.map_map]; exact List.map_id _
  have hclash : NoClash env.md5 (url :: printedLines cs) := by
    refine printed_noClash hc ?_
    intro s hs
    rcases List.mem_cons.mp hs with rfl | hs
    · exact .inr ⟨none, c.1, pps, hhist, hparse⟩
    · exact .inl (hall s hs)
  have hclash' : NoClash env.md5 (url :: ((printedLines cs).map (fun r => (r, some r))).map (·.1)) := by rw [hids]; exact hclash
  obtain ⟨rs, g1, g0, g4⟩ := hexact ((printedLines cs).map (fun r => (r, some r)))
    (fun x hx => by
      obtain ⟨r, hr, rfl⟩ := List.mem_map.mp hx
      exact List.mem_flatMap.mp hr) c hcm
    ⟨(_, some _), List.mem_map_of_mem hrm, by rw [f1]; simp⟩ p hp url pieces pps hst ha hpp e2.symm hclash'
  obtain ⟨rs', g1', g5⟩ := C44_complete env.md5 ((printedLines cs).map (fun r => (r, some r))) url c.1 pieces pps hst ha hpp hclash' hgen
  rw [g1] at g1'
  cases g1'
  -- a chosen text is the printed form of its piece patterns
  have hpack : ∀ t ∈ printedLines cs, ∀ strs, ReadAs t c.1 strs → t = pack c.1 strs := by
    rintro t ht strs ⟨ps, e, rfl⟩
    obtain ⟨ps', w1, w2, -⟩ := (hall t ht).parse _ _ e
    cases w1
    exact w2
  have hmemc : ∀ {t strs}, Chosen (printedLines cs) c.1 pieces t strs → t ∈ printedLines cs := by
    rintro t strs ⟨⟨pre, post, e, _⟩, _⟩
    rw [e]; simp
  have hown : ∀ uss : List (List GUnit), (∀ us ∈ uss, WrittenPat us) → uss.map patText = pathPatterns p →
      (Chosen (printedLines cs) c.1 pieces (pack c.1 (pathPatterns p)) (pathPatterns p) ↔ OwnFound c.1 uss pieces) := by
    intro uss g2 g3
    have hfound := g4 uss g2 g3
    unfold OwnFound
    rw [← hfound]
    constructor
    · rintro ⟨⟨pre, post, et, -⟩, ⟨ps, hps, hstr⟩, uss', eu, hlen, hM⟩
      have hg' : ∀ us ∈ uss', Generated us := by
        intro us hus
        obtain ⟨i, hi, e⟩ := List.mem_iff_getElem.mp hus
        exact (hM i us (pieces[i]'(by omega)) (by rw [List.getElem?_eq_getElem hi, e]) (List.getElem?_eq_getElem (by omega))).1
      obtain ⟨x, hx, e⟩ := (g5 uss' hg').mpr ⟨⟨_, _, ps, List.mem_map_of_mem hrm, hps, by rw [hstr, eu]⟩, hlen,
        fun i us s h1 h2 => (hM i us s h1 h2).2⟩
      exact ⟨x, hx, by rw [e, eu]⟩
    · intro hx
      have hF := hfound.mp hx
      have hg' : ∀ us ∈ uss, Generated us := fun us hus => generated_iff.mpr ⟨g2 us hus, hF.1 us hus⟩
      rw [← g3] at hx
      obtain ⟨⟨s, md, ps, hs, hps, hstr⟩, hlen, hM⟩ := (g5 uss hg').mp hx
      obtain ⟨s', hs', es⟩ := List.mem_map.mp hs
      injection es with es1 es2
      subst es1
      obtain ⟨t, pre, post, et, ht, hno⟩ := last_read (m := c.1) (strs := pathPatterns p) ⟨s', hs', ps, hps, by rw [hstr, g3]⟩
      have := hpack t (by rw [et]; simp) _ ht
      subst this
      exact ⟨⟨pre, post, et, hno⟩, ht, uss, g3.symm, hlen, fun i us s h1 h2 => ⟨hg' us (List.mem_of_getElem? h1), hM i us s h1 h2⟩⟩
  have hread : ∀ strs, Chosen (printedLines cs) c.1 pieces (pack c.1 (pathPatterns p)) strs → strs = pathPatterns p := by
    rintro strs ⟨-, ⟨ps, hps, rfl⟩, -⟩
    exact (f2 _ _ hps).2
  have hfile : FileAndUrl env (printFile env (printedLines cs)) l url c.1 pieces := by
    refine ⟨hu.toUtf8, hdec, hst, ha, ⟨pps, hpp⟩, ?_, ?_⟩
    · rw [htexts]; exact hclash
    · rw [htexts]; exact hgen
  exact ⟨hfile, c, hcm, rfl, p, hp, e2, f1, hread, g0, hown⟩

/-- **C89**: `pattern-make`, then `pattern-match` without `-a` on the same URLs.  The line of an accepted URL shows the pattern `r` of its own cluster,
which is then read back and found; or another printed pattern `t` that matches the URL, and if the own pattern was found, it is more general than `t` at the
last piece where they differ; or `N`, and then the own pattern was not found. -/
theorem C89_own (env : Env) (hu : StrictUtf8 env) (mcn : Int) (hm : 2 ≤ mcn) (lines : List Bytes)
    (hc : NoCollision env.md5 (accepted (urlsOf env false lines))) (hh : NoHashClash env.rt (UrlRow (urlsOf env false lines))) :
    ∃ cs, PatternMakerSt.make env.rt mcn (makeLoad env false lines).1 = .ok cs ∧
      makeRun env mcn .pattern lines = .ok (printedLines cs) ∧
      ∀ l ∈ lines, stripB l ≠ [] → ∀ url m pieces pps, env.decode (stripB l) = some url → startsWith ['/'] url = false →
        analyzeUrl url = .ok (m, pieces) → pieces.mapM parsePiece = .ok pps →
        ∃ c ∈ cs, c.1 = m ∧ ∃ p ∈ c.2.paths, p.map (·.1) = pps.map (·.piece) ∧
        ∃ (uss : List (List GUnit)) (r : Str), (∀ us ∈ uss, WrittenPat us) ∧ r = pack m (uss.map patText) ∧ formatPattern c.1 c.2 = [r] ∧
          ((OwnFound m uss pieces ∧ bestLine env (printFile env (printedLines cs)) l = textLine env r l) ∨
          (∃ t strs, t ≠ r ∧ Chosen (printedLines cs) m pieces t strs ∧
            bestLine env (printFile env (printedLines cs)) l = textLine env t l ∧
            (OwnFound m uss pieces → LastGeneral m (uss.map patText) strs)) ∨
          (¬ OwnFound m uss pieces ∧ bestLine env (printFile env (printedLines cs)) l = noLine l)) := by
  obtain ⟨cs, hcs, htexts, h⟩ := own_chosen env hu mcn hm lines hc hh
  refine ⟨cs, by rw [makeLoad_fst]; exact hcs, ?_, ?_⟩
  · unfold makeRun makeProcess
    rw [makeLoad_fst]
    show (PatternMakerSt.make env.rt mcn (loadAll env.md5 (urlsOf env false lines)) >>= _) = _
    rw [hcs]
    rfl
  intro l hl hl0 url m pieces pps hdec hst ha hpp
  obtain ⟨hfile, c, hcm, rfl, p, hp, e2, f1, hread, ⟨uss, g2, g3⟩, hown⟩ := h l hl hl0 url m pieces pps hdec hst ha hpp
  have hown := hown uss g2 g3
  refine ⟨c, hcm, rfl, p, hp, e2, uss, pack c.1 (pathPatterns p), g2, by rw [g3], f1, ?_⟩
  have hb := bestLine_spec hfile
  rw [htexts] at hb
  rcases hb with ⟨e, no⟩ | ⟨t, strs, hch, e, -, best⟩
  · exact .inr (.inr ⟨fun hF => no _ _ (hown.mpr hF), e⟩)
  · by_cases ht : t = pack c.1 (pathPatterns p)
    · subst ht
      have := hread _ hch
      subst this
      exact .inl ⟨hown.mp hch, e⟩
    · refine .inr (.inl ⟨t, strs, ht, hch, e, fun hF => ?_⟩)
      rcases (best _ _ (hown.mpr hF)).1 with he | lg
      · exact absurd (Prod.mk.inj he).1.symm ht
      · rw [g3]; exact lg

/-- The kind of a pattern does not depend on how its text is taken apart. -/
theorem kind_text {lp : Bool} {us vs : List GUnit} (hu : Generated us) (hv : Generated vs) (e : patText us = patText vs) : kind lp us = kind lp vs := by
  obtain ⟨p, hp⟩ := generated_loads hu lp
  have hs : p.str = patText us := (mkMatchPattern_good hp).1
  rw [← hs] at hp
  exact kindCls_inj ((gen_cls hp hu hs).symm.trans (gen_cls hp hv (hs.trans e)))

theorem literal_kind {lp : Bool} {us : List GUnit} (h : ∀ u ∈ us, u.rank = 0) : kind lp us = .literal := by
  unfold kind
  rw [if_pos]
  rw [List.all_eq_true]
  intro u hu
  simp [h u hu]

/-- Literal patterns are never more general than anything. -/
theorem literal_least {m : URLMeta} {uss : List (List GUnit)} {strs : List Str} (hg : ∀ us ∈ uss, Generated us)
    (h0 : ∀ us ∈ uss, ∀ u ∈ us, u.rank = 0) : ¬ LastGeneral m (uss.map patText) strs := by
  rintro ⟨a, b, c, us, vs, hus, -, e1, -, -, hM⟩
  obtain ⟨us0, hus0, e⟩ : ∃ us0 ∈ uss, patText us0 = patText us := by
    have : patText us ∈ uss.map patText := by rw [e1]; simp
    obtain ⟨x, hx, e⟩ := List.mem_map.mp this
    exact ⟨x, hx, e⟩
  have hk : kind (a.length + 1 == m.pathDepth) us = .literal := by
    rw [← kind_text (hg us0 hus0) hus e]
    exact literal_kind (h0 us0 hus0)
  rcases hM with h | ⟨-, x, u, as, b', v, bs, rfl, -, -, h⟩
  · rw [hk] at h
    exact Nat.not_lt_zero _ h
  · rw [kind_literal hk u (by simp)] at h
    exact Nat.not_lt_zero _ h

/-- **C89**, the case where both agree: if the pattern of the URL's cluster has no class that stands for several strings and can be read back, it is what
`pattern-match` prints, whatever other patterns were made. -/
theorem C89_literal (env : Env) (hu : StrictUtf8 env) (mcn : Int) (hm : 2 ≤ mcn) (lines : List Bytes)
    (hc : NoCollision env.md5 (accepted (urlsOf env false lines))) (hh : NoHashClash env.rt (UrlRow (urlsOf env false lines))) :
    ∃ cs, PatternMakerSt.make env.rt mcn (makeLoad env false lines).1 = .ok cs ∧
      ∀ l ∈ lines, stripB l ≠ [] → ∀ url m pieces pps, env.decode (stripB l) = some url → startsWith ['/'] url = false →
        analyzeUrl url = .ok (m, pieces) → pieces.mapM parsePiece = .ok pps →
        ∃ c ∈ cs, c.1 = m ∧ ∃ p ∈ c.2.paths, p.map (·.1) = pps.map (·.piece) ∧
        ∃ (uss : List (List GUnit)) (r : Str), (∀ us ∈ uss, WrittenPat us) ∧ r = pack m (uss.map patText) ∧ formatPattern c.1 c.2 = [r] ∧
          ((∀ us ∈ uss, ReadablePat us ∧ ∀ u ∈ us, u.rank = 0) →
            bestLine env (printFile env (printedLines cs)) l = textLine env r l) := by
  obtain ⟨cs, hcs, -, h⟩ := C89_own env hu mcn hm lines hc hh
  refine ⟨cs, hcs, ?_⟩
  intro l hl hl0 url m pieces pps hdec hst ha hpp
  obtain ⟨c, hcm, e1, p, hp, e2, uss, r, hw, hr, hf, hcase⟩ := h l hl hl0 url m pieces pps hdec hst ha hpp
  refine ⟨c, hcm, e1, p, hp, e2, uss, r, hw, hr, hf, fun h0 => ?_⟩
  have hg : ∀ us ∈ uss, Generated us := fun us hus => generated_iff.mpr ⟨hw us hus, (h0 us hus).1⟩
  have hF : OwnFound m uss pieces := by
    refine ⟨fun us hus => (h0 us hus).1, fun i us s hi _ => .inl (.inr fun u hu => ?_)⟩
    have hus := List.mem_of_getElem? hi
    obtain ⟨sp, e⟩ := rank_zero_space ((hg us hus).valid u hu) ((h0 us hus).2 u hu)
    rw [e]; rfl
  rcases hcase with ⟨-, e⟩ | ⟨t, strs, -, -, -, hl'⟩ | ⟨hn, -⟩
  · exact e
  · exact absurd (hl' hF) (literal_least hg (fun us hus => (h0 us hus).2))
  · exact absurd hF hn

/-! ### examples -/

/-- Four URLs in two clusters, and two more. -/
def c89Lines : List Bytes := [c!"http://h/1a1/a\n", c!"http://h/a1a/a\n", c!"http://h/a11/a\n", c!"http://h/a1/aa\n"].map asciiBytesM
def c89Dots : List Bytes := [c!"http://h/.a-\n", c!"http://h/-aa.\n", c!"http://h/a-.\n", c!"http://h/..a-.\n"].map asciiBytesM

/-- **C89**, the two programs can disagree: the URL `http://h/a11/a` is listed in the cluster of `/a[0-9]+/[a-z]+`, which matches it, but `pattern-match`
prints `/[0-9a-z]{3}/a` for it; with `-a` both are printed. -/
theorem C89_false :
    makeRun c47Env 2 .cluster c89Lines = .ok [c!"/[0-9a-z]{3}/a", c!"\thttp://h/1a1/a", c!"\thttp://h/a1a/a",
      c!"/a[0-9]+/[a-z]+", c!"\thttp://h/a11/a", c!"\thttp://h/a1/aa"] ∧
    makeRun c47Env 2 .pattern c89Lines = .ok [c!"/[0-9a-z]{3}/a", c!"/a[0-9]+/[a-z]+"] ∧
    matchRun c47Env false (printFile c47Env [c!"/[0-9a-z]{3}/a", c!"/a[0-9]+/[a-z]+"]) c89Lines =
      asciiBytesM (c!"/[0-9a-z]{3}/a\thttp://h/1a1/a\n/[0-9a-z]{3}/a\thttp://h/a1a/a\n" ++
        c!"/[0-9a-z]{3}/a\thttp://h/a11/a\n/a[0-9]+/[a-z]+\thttp://h/a1/aa\n") ∧
    matchRun c47Env true (printFile c47Env [c!"/[0-9a-z]{3}/a", c!"/a[0-9]+/[a-z]+"]) [asciiBytesM c!"http://h/a11/a"] =
      asciiBytesM c!"/a[0-9]+/[a-z]+\t/[0-9a-z]{3}/a\thttp://h/a11/a\n" := by
  refine ⟨?_, ?_, ?_, ?_⟩ <;> decide +kernel

/-- **C89**: the own pattern `/[\-a-z]+[\.]` of two URLs is not found (C21), but the pattern of the other cluster is, so the URLs change their cluster even
with `-a` and although every URL has one piece only. -/
theorem C89_other :
    makeRun c47Env 2 .cluster c89Dots = .ok [c!"/[\\-\\.a-z]+", c!"\thttp://h/.a-", c!"\thttp://h/..a-.",
      c!"/[\\-a-z]+[\\.]", c!"\thttp://h/-aa.", c!"\thttp://h/a-."] ∧
    matchRun c47Env true (printFile c47Env [c!"/[\\-\\.a-z]+", c!"/[\\-a-z]+[\\.]"]) c89Dots =
      asciiBytesM (c!"/[\\-\\.a-z]+\thttp://h/.a-\n/[\\-\\.a-z]+\thttp://h/-aa.\n" ++
        c!"/[\\-\\.a-z]+\thttp://h/a-.\n/[\\-\\.a-z]+\thttp://h/..a-.\n") := by
  refine ⟨?_, ?_⟩ <;> decide +kernel

/-- A literal pattern is printed for its URL although a general one matches too. -/
example : bestLine c47Env (printFile c47Env [c!"/a[\\-]b/x", c!"/[\\-a-z]+/[a-z]"]) (asciiBytesM c!"http://h/a-b/x") =
      textLine c47Env c!"/a[\\-]b/x" (asciiBytesM c!"http://h/a-b/x") ∧
    allLine c47Env (printFile c47Env [c!"/a[\\-]b/x", c!"/[\\-a-z]+/[a-z]"]) (asciiBytesM c!"http://h/a-b/x") =
      asciiBytesM c!"/a[\\-]b/x\t/[\\-a-z]+/[a-z]\thttp://h/a-b/x\n" := by
  refine ⟨?_, ?_⟩ <;> decide +kernel

end OsUrl
