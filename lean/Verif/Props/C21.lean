import Verif.Proofs.SlashText
import Verif.Proofs.Witness
import Verif.Props.C12
import Verif.Props.C17

/-! # C21: when a cluster's pattern is found for the cluster's own URLs -/

namespace OsUrl
open Spec

/-- Make clusters of the URLs with `mcn`, load all printed patterns, match `url`: printed patterns and results. -/
def roundTrip (mcn : Int) (urls : List Str) (url : Str) : Py (List Str × List (List Str)) := do
  let cs ← PatternMakerSt.make codeHash mcn (loadAll id (urls.map (fun u => (u, none))))
  let lines := cs.flatMap (fun c => formatPattern c.1 c.2)
  let rs ← matchTexts lines url
  return (lines, rs)

/-- **C21** fails in five ways: a literal beside a class where the matcher groups both alike; a dot that is followed by more
than two runs; a dot at the end; the same with an extension of letters and digits;
brackets that end in a backslash. -/
theorem C21_false :
    roundTrip 2 [c!"http://h/a1b2-x1y2", c!"http://h/a1b2-z3w4"] c!"http://h/a1b2-x1y2" = .ok ([c!"/a1b2[\\-][0-9a-z]{4}"], []) ∧
    roundTrip 2 [c!"http://h/a1b2.x1y2", c!"http://h/c3d4.z3w4"] c!"http://h/a1b2.x1y2" = .ok ([c!"/[0-9a-z]{4}[\\.][0-9a-z]{4}"], []) ∧
    roundTrip 2 [c!"http://h/a1-b2.", c!"http://h/c-3d-f.", c!"http://h/9-3d-f."] c!"http://h/a1-b2." = .ok ([c!"/[0-9\\-a-z]+[\\.]"], []) ∧
    roundTrip 2 [c!"http://h/a1-b2.mp3", c!"http://h/c-3d-f.mp3", c!"http://h/9-3d-f.mp3"] c!"http://h/a1-b2.mp3" =
      .ok ([c!"/[0-9\\-a-z]+[\\.]mp3"], []) ∧
    roundTrip 2 [c!"http://h/a\\b", c!"http://h/c\\d"] c!"http://h/a\\b" = .ok ([c!"/[a-z][\\\\][a-z]"], []) :=
  ⟨by decide +kernel, by decide +kernel, by decide +kernel, by decide +kernel, by decide +kernel⟩

section
variable {h : Runtime} {mcn : Int} {hist : List (Str × Option Str)}

/-- No accepted URL has a backslash. -/
def NoBackslash (hist : List (Str × Option Str)) : Prop :=
  ∀ (u : Str) (md : Option Str) (m : URLMeta) (row : List Str), (u, md) ∈ hist → analyzeUrl u = .ok (m, row) → ∀ s ∈ row, '\\' ∉ s

/-- The pieces of a path, their patterns, and the units of the patterns with what they cover. -/
theorem path_covs (hm : 2 ≤ mcn) (hh : NoHashClash h (UrlRow hist)) {M : Made} (hM : MadeOK h mcn hist M) {C : List Ins}
    {t : Tree NodeData} (hC : ClusterOK h mcn hist M C t) {p : List (Str × NodeData)} (hp : p ∈ t.paths) :
    ∃ xs : List (Str × Str × List (GUnit × List Run)), (∀ x ∈ xs, ∀ c ∈ x.1, Known c) ∧
      p.map (·.1) = xs.map (fun x => (pieceOf x.1).piece) ∧ pathPatterns p = xs.map (fun x => x.2.1) ∧
      (∀ x ∈ xs, Cov x.1 x.2.1 x.2.2 ∧ WrittenPat (x.2.2.map (·.1))) ∧ (NoBackslash hist → ∀ x ∈ xs, '\\' ∉ x.1) := by
  obtain ⟨r, hr, u, row, hu, ha, hk, -, he, hR⟩ := path_url hM hC hp
  obtain ⟨sts, a1, a2, a3⟩ := path_textS hm hh hM hC hp hR
  have hbs : NoBackslash hist → ∀ st ∈ sts, '\\' ∉ st.1 := fun hb st hst => hb u r.md M.m row hu ha st.1 (by rw [← a1]; exact List.mem_map_of_mem hst)
  have hex : ∀ st : Str × Str, ∃ cov, st ∈ sts → Cov st.1 st.2 cov ∧ WrittenPat (cov.map (·.1)) := by
    intro st
    by_cases hst : st ∈ sts
    · obtain ⟨cov, h1, h2⟩ := textS_cov (a2 st hst)
      exact ⟨cov, fun _ => ⟨h1, h2⟩⟩
    · exact ⟨[], fun h => absurd h hst⟩
  obtain ⟨f, hf⟩ := Classical.skolem.mp hex
  refine ⟨sts.map (fun st => (st.1, st.2, f st)), ?_, ?_, ?_, ?_, ?_⟩
  · intro x hx
    obtain ⟨st, hst, rfl⟩ := List.mem_map.mp hx
    exact hk st.1 (by rw [← a1]; exact List.mem_map_of_mem hst)
  · rw [he, ← a1, List.map_map, List.map_map]; rfl
  · unfold pathPatterns
    rw [a3, List.map_map]; rfl
  · intro x hx
    obtain ⟨st, hst, rfl⟩ := List.mem_map.mp hx
    exact hf st hst
  · intro hb x hx
    obtain ⟨st, hst, rfl⟩ := List.mem_map.mp hx
    exact hbs hb st hst

theorem generated_loads {us : List GUnit} (hg : Generated us) (b : Bool) : ∃ p, mkMatchPattern (patText us) b = .ok p := by
  unfold mkMatchPattern
  by_cases hne : us = []
  · subst hne
    rw [show patText [] = [] from rfl, units_empty]
    exact ⟨_, rfl⟩
  · rw [gen_units hg.valid hg.apart hne]
    exact ⟨_, rfl⟩

/-- A unit that covers no backslash can be read back. -/
theorem cov_plain {s t : Str} {cov : List (GUnit × List Run)} (h : Cov s t cov) (hb : '\\' ∉ s) : ReadablePat (cov.map (·.1)) := by
  intro u hu hl
  obtain ⟨x, hx, rfl⟩ := List.mem_map.mp hu
  obtain ⟨r, hr, e⟩ := ((h.ok x hx).spaces _).mp (List.mem_of_getLast? hl)
  have hm : r ∈ (cov.map (·.2)).flatten := List.mem_flatten.mpr ⟨x.2, List.mem_map_of_mem hx, hr⟩
  obtain ⟨c, hc⟩ := List.exists_mem_of_ne_nil _ (h.runs.nonempty r hm)
  have hsp := h.runs.space r hm c hc
  rw [e] at hsp
  rw [space_sign hsp] at hc
  apply hb
  rw [← h.runs.concat]
  exact List.mem_flatten.mpr ⟨r.2, List.mem_map_of_mem hm, hc⟩

/-- A printed pattern is read back if all its units can be read back, and not otherwise. -/
theorem parse_printed (hm : 2 ≤ mcn) (hh : NoHashClash h (UrlRow hist)) {M : Made} (hM : MadeOK h mcn hist M) {C : List Ins}
    {t : Tree NodeData} (hC : ClusterOK h mcn hist M C t) {p : List (Str × NodeData)} (hp : p ∈ t.paths) {uss : List (List GUnit)}
    (hw : ∀ us ∈ uss, WrittenPat us) (hu : uss.map patText = pathPatterns p) :
    ((∀ us ∈ uss, ReadablePat us) → ∃ ps, parse (pack M.m (pathPatterns p)) = .ok (M.m, .patterns ps) ∧ ps.map (·.str) = pathPatterns p) ∧
      ∀ m x, parse (pack M.m (pathPatterns p)) = .ok (m, x) → (∀ us ∈ uss, ReadablePat us) ∧ m = M.m ∧
        ∃ ps, x = .patterns ps ∧ ps.map (·.str) = pathPatterns p := by
  have hread := read_printed hm hh hM hC hp
  have hparse : parse (pack M.m (pathPatterns p)) =
      (((pathPatterns p).zipIdx 1).mapM (fun (p, i) => mkMatchPattern p (i == M.m.pathDepth))).map (fun ps => (M.m, Parsed.patterns ps)) := by
    unfold parse
    rw [if_pos (pack_head _ _)]
    unfold pathPatterns
    simp only [hread, bind, Except.bind, pure, Except.pure]
    cases ((p.map (fun kn => kn.2.pattern)).zipIdx 1).mapM (fun (p, i) => mkMatchPattern p (i == M.m.pathDepth)) <;> rfl
  have hstr : ∀ ps, parse (pack M.m (pathPatterns p)) = .ok (M.m, .patterns ps) → ps.map (·.str) = pathPatterns p := by
    intro ps e
    have := parse_patterns_strs e
    have e := hread.symm.trans this
    injection e with e
    injection e with _ e
    exact e.symm
  constructor
  · intro hr
    have hmap : ∃ ps, ((pathPatterns p).zipIdx 1).mapM (fun (p, i) => mkMatchPattern p (i == M.m.pathDepth)) = .ok ps := by
      apply mapM_total
      rintro ⟨a, i⟩ ha
      have ha : a ∈ pathPatterns p := List.fst_mem_of_mem_zipIdx ha
      rw [← hu] at ha
      obtain ⟨us, hus, rfl⟩ := List.mem_map.mp ha
      exact generated_loads (generated_iff.mpr ⟨hw us hus, hr us hus⟩) (i == M.m.pathDepth)
    obtain ⟨ps, hps⟩ := hmap
    rw [hps] at hparse
    exact ⟨ps, hparse, hstr ps hparse⟩
  · intro m x e
    have e' := e
    rw [hparse] at e
    cases hps : ((pathPatterns p).zipIdx 1).mapM (fun (p, i) => mkMatchPattern p (i == M.m.pathDepth)) with
    | error err => rw [hps] at e; cases e
    | ok ps =>
      rw [hps] at e
      cases e
      have hs := hstr ps e'
      refine ⟨?_, rfl, ps, rfl, hs⟩
      intro us hus
      have : patText us ∈ ps.map (·.str) := by rw [hs, ← hu]; exact List.mem_map_of_mem hus
      obtain ⟨q, hq, e⟩ := List.mem_map.mp this
      obtain ⟨i, hi⟩ := List.getElem?_of_mem hq
      obtain ⟨-, hgood, -⟩ := mkMatchPattern_good (parse_patterns_at e' i q hi)
      exact fun u hu => gu_readable (good_valid hgood (hw us hus).written e u hu)

/-- What a printed pattern is read as. -/
theorem printed_generated (hm : 2 ≤ mcn) (hh : NoHashClash h (UrlRow hist)) {M : Made} (hM : MadeOK h mcn hist M) {C : List Ins}
    {t : Tree NodeData} (hC : ClusterOK h mcn hist M C t) {p : List (Str × NodeData)} (hp : p ∈ t.paths) {m : URLMeta} {ps : List MatchPattern}
    (e : parse (pack M.m (pathPatterns p)) = .ok (m, .patterns ps)) :
    m = M.m ∧ ps.map (·.str) = pathPatterns p ∧ (∀ q ∈ ps, GoodPat q) ∧ ∀ q ∈ ps, ∃ us, Generated us ∧ q.str = patText us := by
  obtain ⟨xs, -, -, x3, x4, -⟩ := path_covs hm hh hM hC hp
  obtain ⟨hr, e1, ps', e2, e3⟩ := (parse_printed hm hh hM hC hp (uss := xs.map (fun x => x.2.2.map (·.1))) (by
      intro us hus
      obtain ⟨x, hx, rfl⟩ := List.mem_map.mp hus
      exact (x4 x hx).2) (by
      rw [x3, List.map_map]
      apply List.map_congr_left
      intro x hx
      exact (x4 x hx).1.text)).2 _ _ e
  cases e2
  refine ⟨e1, e3, ?_, ?_⟩
  · intro q hq
    obtain ⟨i, hi⟩ := List.getElem?_of_mem hq
    exact (mkMatchPattern_good (parse_patterns_at e i q hi)).2.1
  · intro q hq
    have : q.str ∈ pathPatterns p := by rw [← e3]; exact List.mem_map_of_mem hq
    rw [x3] at this
    obtain ⟨x, hx, ex⟩ := List.mem_map.mp this
    exact ⟨_, generated_iff.mpr ⟨(x4 x hx).2, hr _ (List.mem_map_of_mem hx)⟩, by rw [← ex]; exact (x4 x hx).1.text.symm⟩

theorem mem_printed {M : Made} {C : List Ins} {t : Tree NodeData} (hC : ClusterOK h mcn hist M C t) {p : List (Str × NodeData)} (hp : p ∈ t.paths)
    {l : Str} : l ∈ formatPattern M.m t ↔ l = pack M.m (pathPatterns p) := by
  unfold formatPattern
  cases hq : t.paths with
  | nil => rw [hq] at hp; cases hp
  | cons q qs =>
    have e : pathPatterns p = pathPatterns q := path_uniform hC hp (show q ∈ t.paths by rw [hq]; simp)
    simp [e]

/-- **C21**, exactly: make clusters, load any printed patterns, among them that of a
cluster.  Then every URL of the cluster can be matched, its patterns are sequences of units, and the cluster's pattern is among
the results exactly when no unit's brackets end in a backslash, and for every piece the pattern has at most one unit, or units of one space each; or it is the last path
piece, the pattern is of the form `X[\.]Y` with `Y` letters and digits, and at most two runs follow the last dot of the piece;
or it is not of this form and its units are the maximal mixable parts. -/
theorem C21_exact (md5 : Str → Str) (h : Runtime) (mcn : Int) (hm : 2 ≤ mcn) (hist : List (Str × Option Str))
    (hc : NoCollision md5 (accepted hist)) (hh : NoHashClash h (UrlRow hist)) :
    ∃ cs, PatternMakerSt.make h mcn (loadAll md5 hist) = .ok cs ∧
      ∀ lines : List (Str × Option Str), (∀ l ∈ lines, ∃ c ∈ cs, l.1 ∈ formatPattern c.1 c.2) →
        ∀ c ∈ cs, (∃ l ∈ lines, l.1 ∈ formatPattern c.1 c.2) → ∀ p ∈ c.2.paths,
          ∀ (url : Str) (pieces : List Str) (pps : List ParsedPiece), startsWith ['/'] url = false → analyzeUrl url = .ok (c.1, pieces) →
            pieces.mapM parsePiece = .ok pps → pps.map (·.piece) = p.map (·.1) → NoClash md5 (url :: lines.map (·.1)) →
            ∃ rs, (mloadAll md5 lines).match_ md5 url = .ok rs ∧
              (∃ uss : List (List GUnit), (∀ us ∈ uss, WrittenPat us) ∧ uss.map patText = pathPatterns p) ∧
              ∀ uss : List (List GUnit), (∀ us ∈ uss, WrittenPat us) → uss.map patText = pathPatterns p →
                ((∃ x ∈ rs, x.path.map (·.str) = pathPatterns p) ↔ (∀ us ∈ uss, ReadablePat us) ∧
                  ∀ (i : Nat) (us : List GUnit) (s : Str), uss[i]? = some us → pieces[i]? = some s → Spec.Found (i + 1 = c.1.pathDepth) us s) := by
  obtain ⟨Ms, -, h2, h3⟩ := make_all md5 hm hc hh
  refine ⟨_, h2, ?_⟩
  intro lines hlines c hcm ⟨l0, hl0, hl0c⟩ p hp url pieces pps hs ha hpp he hcl
  obtain ⟨M, -, hM, C, -, e1, hK⟩ := mem_out h3 hcm
  -- every line
  have hline : ∀ l ∈ lines, ∃ (M : Made) (C : List Ins) (t : Tree NodeData) (q : List (Str × NodeData)), MadeOK h mcn hist M ∧
      ClusterOK h mcn hist M C t ∧ q ∈ t.paths ∧ l.1 = pack M.m (pathPatterns q) := by
    intro l hl
    obtain ⟨c', hc', hm'⟩ := hlines l hl
    obtain ⟨M', -, hM', C', -, e1', hK'⟩ := mem_out h3 hc'
    obtain ⟨x, hx⟩ := List.exists_mem_of_ne_nil _ hK'.final.ne
    obtain ⟨q, hq, -⟩ := path_of_row hK' hx
    exact ⟨M', C', c'.2, q, hM', hK', hq, (mem_printed hK' hq).mp (by rw [← e1']; exact hm')⟩
  have hgen : AllGen lines := by
    intro l md m ps hl hpl q hq
    obtain ⟨M', C', t', q', hM', hK', hq', e'⟩ := hline (l, md) hl
    exact (printed_generated hm hh hM' hK' hq' (by rw [← e']; exact hpl)).2.2.2 q hq
  rw [e1] at ha
  have hpu : parse url = .ok (M.m, .pieces pps) := by
    simp [parse, hs, ha, hpp, bind, Except.bind, pure, Except.pure]
  obtain ⟨hk, hpps⟩ := parsePieces_ok hpp
  obtain ⟨rs, m1, m2, m3⟩ := match_main hpu hk hpps hcl hgen.tame
  obtain ⟨xs, x1, x2, x3, x4, -⟩ := path_covs hm hh hM hK hp
  have hrow : pieces = xs.map (·.1) := by
    refine keys_row hk ?_ ?_
    · intro s hs
      obtain ⟨x, hx, rfl⟩ := List.mem_map.mp hs
      exact x1 x hx
    · rw [List.map_map]
      show _ = xs.map (fun x => (pieceOf x.1).piece)
      rw [← x2, ← he, hpps, List.map_map]; rfl
  refine ⟨rs, m1, ⟨xs.map (fun x => x.2.2.map (·.1)), ?_, ?_⟩, ?_⟩
  · intro us hus
    obtain ⟨x, hx, rfl⟩ := List.mem_map.mp hus
    exact (x4 x hx).2
  · rw [x3, List.map_map]
    apply List.map_congr_left
    intro x hx
    exact (x4 x hx).1.text
  intro uss hg hu
  -- the selection at one position
  have hsel : ∀ ps : List MatchPattern, (∀ (i : Nat) (q : MatchPattern), ps[i]? = some q → mkMatchPattern q.str (i + 1 == M.m.pathDepth) = .ok q) →
      ps.map (·.str) = pathPatterns p →
      ∀ (i : Nat) (us : List GUnit) (s : Str) (q : MatchPattern), uss[i]? = some us → pieces[i]? = some s → ps[i]? = some q →
        unitsFuzzyRule q.units = (ppOf (runsOf s)).fuzzyRule ∧
          (SelF (ppOf (runsOf s)) q ↔ Spec.Found (i + 1 = c.1.pathDepth) us s) := by
    intro ps hmk hps i us s q hui hsi hqi
    obtain ⟨-, hgood, hcls⟩ := mkMatchPattern_good (hmk i q hqi)
    rw [hrow, List.getElem?_map, Option.map_eq_some_iff] at hsi
    obtain ⟨x, hxi, rfl⟩ := hsi
    have hx := List.mem_of_getElem? hxi
    have hstr : q.str = x.2.1 := by
      have e := congrArg (·[i]?) (hps.trans x3)
      simp only [List.getElem?_map, hqi, hxi, Option.map_some, Option.some.injEq] at e
      exact e
    have hus : patText us = x.2.1 := by
      have e := congrArg (·[i]?) (hu.trans x3)
      simp only [List.getElem?_map, hui, hxi, Option.map_some, Option.some.injEq] at e
      exact e
    obtain ⟨y1, y2⟩ := x4 x hx
    have good : ∀ {vs : List GUnit}, WrittenPat vs → q.str = patText vs → Generated vs := fun hv ev =>
      generated_iff.mpr ⟨hv, fun u hu => gu_readable (good_valid hgood hv.written ev u hu)⟩
    have hruns : runsOf x.1 = (x.2.2.map (·.2)).flatten := runs_unique (runsOf_spec (x1 x hx)) y1.runs
    have hsp := readings_same (good y2 (hstr.trans y1.text.symm)) (good (hg us (List.mem_of_getElem? hui)) (by rw [hstr, hus])) hgood (hstr.trans y1.text.symm) (by rw [hstr, hus])
    rw [hruns]
    refine ⟨cov_rule y1 hgood hstr, ?_⟩
    rw [found_sel y1 hgood hstr hcls]
    have hlp : ((i + 1 == M.m.pathDepth) = true) = (i + 1 = c.1.pathDepth) := by rw [e1]; simp
    rw [hlp]
    exact ⟨found_spaces hsp, found_spaces hsp.symm⟩
  have hl1 : uss.length = pieces.length := by
    have a := congrArg List.length (hu.trans x3)
    have b := congrArg List.length hrow
    simp only [List.length_map] at a b
    omega
  constructor
  · rintro ⟨x, hx, hstr⟩
    constructor
    · obtain ⟨r, hr, hrm, hrp, -⟩ := m2 x hx
      obtain ⟨t, htm, e⟩ := mem_macc.mp hr
      intro us hus u hu'
      have : patText us ∈ r.ps.map (·.str) := by rw [hrp, hstr, ← hu]; exact List.mem_map_of_mem hus
      obtain ⟨q, hq, eq⟩ := List.mem_map.mp this
      obtain ⟨i, hi⟩ := List.getElem?_of_mem hq
      obtain ⟨-, hgood, -⟩ := mkMatchPattern_good (parse_patterns_at e i q hi)
      exact gu_readable (good_valid hgood (hg us hus).written eq u hu')
    intro i us s hui hsi
    obtain ⟨r, hr, hrm, hrp, hf, hall⟩ := m2 x hx
    obtain ⟨t, htm, e⟩ := mem_macc.mp hr
    rw [hrm] at e
    have hl : r.ps.length = pieces.length := by
      have := congrArg List.length hf
      simpa [hpps] using this
    have hlt : i < pieces.length := (List.getElem?_eq_some_iff.mp hsi).1
    have hpi : r.ps[i]? = some (r.ps[i]'(by omega)) := List.getElem?_eq_getElem (by omega)
    exact (hsel r.ps (parse_patterns_at e) (by rw [hrp]; exact hstr) i us s _ hui hsi hpi).2.mp (hall i s _ hsi hpi).2
  · rintro ⟨hread, hall⟩
    obtain ⟨ps, h4, h5⟩ := (parse_printed hm hh hM hK hp hg hu).1 hread
    rw [← (mem_printed hK hp).mp (by rw [← e1]; exact hl0c)] at h4
    have hl : ps.length = pieces.length := by
      have a := congrArg List.length (h5.trans hu.symm)
      simp only [List.length_map] at a
      omega
    have hpos : ∀ (i : Nat) (s : Str) (q : MatchPattern), pieces[i]? = some s → ps[i]? = some q →
        unitsFuzzyRule q.units = (ppOf (runsOf s)).fuzzyRule ∧ SelF (ppOf (runsOf s)) q := by
      intro i s q hsi hqi
      have hlt : i < pieces.length := (List.getElem?_eq_some_iff.mp hsi).1
      have hui : uss[i]? = some (uss[i]'(by omega)) := List.getElem?_eq_getElem (by omega)
      obtain ⟨z1, z2⟩ := hsel ps (parse_patterns_at h4) h5 i _ s q hui hsi hqi
      exact ⟨z1, z2.mpr (hall i _ s hui hsi)⟩
    obtain ⟨x, hx, hxp⟩ := m3 ⟨M.m, ps, l0.2⟩ (mem_macc.mpr ⟨l0.1, hl0, h4⟩) rfl (.inl hgen.canon) (by
        apply List.ext_getElem?
        intro i
        simp only [List.getElem?_map, hpps]
        cases hi : ps[i]? with
        | none =>
          have : pieces[i]? = none := by rw [List.getElem?_eq_none_iff] at hi ⊢; omega
          simp [this]
        | some q =>
          have hlt : i < ps.length := (List.getElem?_eq_some_iff.mp hi).1
          have hsi : pieces[i]? = some (pieces[i]'(by omega)) := List.getElem?_eq_getElem (by omega)
          simp only [hsi, Option.map_some, Option.some.injEq]
          exact (hpos i _ q hsi hi).1)
      (fun i s q hi hqi => (hpos i s q hi hqi).2)
    exact ⟨x, hx, by rw [hxp]; exact h5⟩

/-- **C21**, the good case: if every piece's pattern has one unit, or only units of one space, the URLs of the cluster find it. -/
theorem C21_plain (md5 : Str → Str) (h : Runtime) (mcn : Int) (hm : 2 ≤ mcn) (hist : List (Str × Option Str))
    (hc : NoCollision md5 (accepted hist)) (hh : NoHashClash h (UrlRow hist)) :
    ∃ cs, PatternMakerSt.make h mcn (loadAll md5 hist) = .ok cs ∧
      ∀ lines : List (Str × Option Str), (∀ l ∈ lines, ∃ c ∈ cs, l.1 ∈ formatPattern c.1 c.2) →
        ∀ c ∈ cs, (∃ l ∈ lines, l.1 ∈ formatPattern c.1 c.2) → ∀ p ∈ c.2.paths,
          ∀ uss : List (List GUnit), (∀ us ∈ uss, Generated us ∧ PlainPat us) → uss.map patText = pathPatterns p →
          ∀ (url : Str) (pieces : List Str) (pps : List ParsedPiece), startsWith ['/'] url = false → analyzeUrl url = .ok (c.1, pieces) →
            pieces.mapM parsePiece = .ok pps → pps.map (·.piece) = p.map (·.1) → NoClash md5 (url :: lines.map (·.1)) →
            ∃ rs, (mloadAll md5 lines).match_ md5 url = .ok rs ∧ ∃ x ∈ rs, x.path.map (·.str) = pathPatterns p := by
  obtain ⟨cs, h1, h2⟩ := C21_exact md5 h mcn hm hist hc hh
  refine ⟨cs, h1, ?_⟩
  intro lines hl c hcm hlc p hp uss hu ht url pieces pps hs ha hpp he hcl
  obtain ⟨rs, h3, -, h4⟩ := h2 lines hl c hcm hlc p hp url pieces pps hs ha hpp he hcl
  refine ⟨rs, h3, (h4 uss (fun us hus => (generated_iff.mp (hu us hus).1).1) ht).mpr ⟨fun us hus => (generated_iff.mp (hu us hus).1).2, ?_⟩⟩
  intro i us s hui _
  exact .inl (hu us (List.mem_of_getElem? hui)).2

end

/-! ### examples -/

/-- Found again: an extension, a mixed pattern, a query, a class with a backslash that is not the last. -/
example :
    roundTrip 2 [c!"http://h/a1-b2.mp", c!"http://h/c-3d-f.mp", c!"http://h/9-3d-f.mp"] c!"http://h/a1-b2.mp" =
      .ok ([c!"/[0-9\\-a-z]+[\\.]mp"], [[c!"[0-9\\-a-z]+[\\.]mp"]]) ∧
    roundTrip 2 [c!"http://h/n?id=1", c!"http://h/n?id=22"] c!"http://h/n?id=1" =
      .ok ([c!"/n[\\?]id=[0-9]+"], [[c!"n", c!"[0-9]+"]]) ∧
    roundTrip 2 [c!"http://h/a\\b", c!"http://h/\\cd"] c!"http://h/a\\b" = .ok ([c!"/[\\\\a-z]{4}"], [[c!"[\\\\a-z]{4}"]]) :=
  ⟨by decide +kernel, by decide +kernel, by decide +kernel⟩

/-- The hypotheses can hold. -/
example : NoBackslash [(c!"http://h/a1-b2.mp", none), (c!"http://h/c-3d.mp", some c!"m")] := by
  intro u md m row hu ha s hs
  simp only [List.mem_cons, Prod.mk.injEq, List.not_mem_nil, or_false] at hu
  rcases hu with ⟨rfl, -⟩ | ⟨rfl, -⟩
  · have e : analyzeUrl c!"http://h/a1-b2.mp" = .ok (⟨1, [], false⟩, [c!"a1-b2.mp"]) := by decide +kernel
    rw [e] at ha; injection ha with ha; injection ha with _ ha; subst ha; revert s; decide
  · have e : analyzeUrl c!"http://h/c-3d.mp" = .ok (⟨1, [], false⟩, [c!"c-3d.mp"]) := by decide +kernel
    rw [e] at ha; injection ha with ha; injection ha with _ ha; subst ha; revert s; decide

/-- The first failing pattern: `a1b2[\-][0-9a-z]{4}` is not dotted, and its runs `a`, `1` are mixable neighbours. -/
example : ¬ Spec.Found True [.run .lower c!"a", .run .digit c!"1", .run .lower c!"b", .run .digit c!"2", .run (.sign '-') c!"-",
    .cls [.digit, .lower] 4] c!"a1b2-x1y2" := by
  rintro (h | ⟨-, ⟨a, d, b, e, -⟩, -⟩ | ⟨-, h⟩)
  · rcases h with h | h
    · exact absurd h (by decide)
    · exact absurd (h (.cls [.digit, .lower] 4) (by simp)) (by decide)
  · simp at e
  · have := h.2 [] (.run .lower c!"a") (.run .digit c!"1") [.run .lower c!"b", .run .digit c!"2", .run (.sign '-') c!"-",
      .cls [.digit, .lower] 4] rfl
    exact this ⟨by intro sp hsp; simp only [GUnit.spaces, List.mem_singleton] at hsp; subst hsp; decide,
      by intro sp hsp; simp only [GUnit.spaces, List.mem_singleton] at hsp; subst hsp; decide⟩

/-- `[0-9a-z]{4}[\-][0-9a-z]{4}` is found. -/
example : Spec.Found True [.cls [.digit, .lower] 4, .run (.sign '-') c!"-", .cls [.digit, .lower] 4] c!"a1b2-x1y2" := by
  refine .inr (.inr ⟨?_, ?_, ?_⟩)
  · rintro ⟨-, a, d, b, e, hd, -⟩
    simp only [List.cons.injEq, and_true] at e
    obtain ⟨-, rfl, -⟩ := e
    exact absurd hd (by decide)
  · intro u hu
    simp only [List.mem_cons, List.not_mem_nil, or_false] at hu
    rcases hu with rfl | rfl | rfl
    · right; intro sp hsp; revert sp; decide
    · left; rfl
    · right; intro sp hsp; revert sp; decide
  · intro a x y b e hxy
    rcases a with _ | ⟨a0, _ | ⟨a1, a⟩⟩
    · simp only [List.nil_append, List.cons.injEq] at e
      obtain ⟨-, rfl, -⟩ := e
      exact absurd (hxy.2 (.sign '-') (by decide)) (by decide)
    · simp only [List.cons_append, List.nil_append, List.cons.injEq] at e
      obtain ⟨-, rfl, -⟩ := e
      exact absurd (hxy.1 (.sign '-') (by decide)) (by decide)
    · have := congrArg List.length e
      simp at this
      omega

end OsUrl
