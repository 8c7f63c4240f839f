import Verif.Proofs.Pipe
import Verif.Props.C15
import Verif.Props.C24
import Verif.Props.C25
import Verif.Props.C16
import Verif.Props.C66

/-! # C47: pattern-make | pattern-match -/

namespace OsUrl
open Spec

theorem allGen_printed {hist : List (Str × Option Str)} {records : List Str} (hr : ∀ r ∈ records, PrintedOK hist r) :
    AllGen (records.map (fun p => (p, some p))) := by
  intro s md m ps hs e
  obtain ⟨r, hrm, e'⟩ := List.mem_map.mp hs
  cases e'
  obtain ⟨ps', e1, -, e2, -⟩ := (hr s hrm).parse _ _ e
  cases e1
  exact e2

theorem graph_not_odd : ∀ n : Fin 127, isUniDigitC (Char.ofNat n.1) = true → isDecimalC (Char.ofNat n.1) = true := by decide +kernel

theorem written_graph {us : List GUnit} (h : WrittenPat us) : ¬ OddDigit (patText us) := by
  rintro ⟨c, hc, h1, h2⟩
  have := (patText_graph h.written c hc).2
  have := graph_not_odd ⟨c.toNat, by omega⟩ (by rw [Char.ofNat_toNat]; exact h1)
  rw [Char.ofNat_toNat, h2] at this
  cases this

/-- A printed line that can not be read back raises `InvalidPatternException`. -/
theorem printed_rejected {hist : List (Str × Option Str)} {r : Str} (h : PrintedOK hist r) {e : PyErr} (he : OsUrl.parse r = .error e) :
    e = .invalidPattern := by
  obtain ⟨m, uss, -, hw, -, -, -, hread⟩ := h.units
  unfold OsUrl.parse at he
  rw [if_pos h.head, hread] at he
  simp only [bind, Except.bind, pure, Except.pure] at he
  cases hps : ((uss.map patText).zipIdx 1).mapM (fun (p, i) => mkMatchPattern p (i == m.pathDepth)) with
  | ok ps => rw [hps] at he; cases he
  | error e' =>
    rw [hps] at he
    cases he
    obtain ⟨⟨t, i⟩, ht, hm⟩ := mapM_error hps
    have ht : t ∈ uss.map patText := List.fst_mem_of_mem_zipIdx ht
    obtain ⟨us, hus, rfl⟩ := List.mem_map.mp ht
    unfold mkMatchPattern at hm
    dsimp only at hm
    cases hp : patternUnits (patText us) with
    | ok l => rw [hp] at hm; cases hm
    | error e'' =>
      rw [hp] at hm
      cases hm
      rcases patternUnits_error hp with h1 | ⟨-, h2⟩
      · exact h1
      · exact absurd h2 (written_graph (hw us hus))

theorem load_rejected (md5 : Str → Str) {r : Str} {e : PyErr} (h : parse r = .error e) (st : PatternMatcherSt) (md : Option Str) :
    st.load md5 r md = .error e := by
  unfold PatternMatcherSt.load
  rw [h]
  rfl

/-- **C47**, loading: the output of `pattern-make -F PATTERN`, given to `pattern-match -p`, is read line by line.  Every line is a
sequence of units for each piece.  If no unit's brackets end in a backslash, which is so when no URL has a backslash, the line is
loaded as the pattern it was printed as; otherwise it is rejected with `InvalidPatternException`. -/
theorem C47_load (env : Env) (hu : StrictUtf8 env) (mcn : Int) (hm : 2 ≤ mcn) (lines : List Bytes)
    (hc : NoCollision env.md5 (accepted (urlsOf env false lines))) (hh : NoHashClash env.rt (UrlRow (urlsOf env false lines))) :
    ∃ records, makeRun env mcn .pattern lines = .ok records ∧
      patternTexts env (printFile env records) = records ∧
      matchLoad env (printFile env records) = mloadAll env.md5 (records.map (fun r => (r, some r))) ∧
      ∀ r ∈ records, ∃ (m : URLMeta) (uss : List (List GUnit)), (∀ us ∈ uss, WrittenPat us) ∧ r = pack m (uss.map patText) ∧
        (NoBackslash (urlsOf env false lines) → ∀ us ∈ uss, ReadablePat us) ∧
        ((∀ us ∈ uss, ReadablePat us) → (∃ ps, parse r = .ok (m, .patterns ps) ∧ ps.map (·.str) = uss.map patText) ∧
          ∀ st, ∃ st' b, PatternMatcherSt.load env.md5 st r (some r) = .ok (st', b)) ∧
        ((∃ us ∈ uss, ¬ ReadablePat us) → ∀ st, PatternMatcherSt.load env.md5 st r (some r) = .error .invalidPattern) := by
  obtain ⟨cs, hcs⟩ := C28_total env.md5 env.rt mcn hm _ hc hh
  have hall := printed_all env.md5 hm hc hh hcs
  have htexts := texts_printed hu hall
  refine ⟨printedLines cs, ?_, htexts, ?_, ?_⟩
  · unfold makeRun makeProcess
    rw [makeLoad_fst]
    show (PatternMakerSt.make env.rt mcn (loadAll env.md5 (urlsOf env false lines)) >>= _) = _
    rw [hcs]
    rfl
  · rw [matchLoad_eq, htexts]
  · intro r hr
    obtain ⟨m, uss, e1, hw, e2, e3, e4, -⟩ := (hall r hr).units
    refine ⟨m, uss, hw, e1, e2, ?_, ?_⟩
    · intro hread
      obtain ⟨ps, e5, e6⟩ := e3 hread
      refine ⟨⟨ps, e5, e6⟩, fun st => ?_⟩
      obtain ⟨⟨st', b⟩, h⟩ := mload_total env.md5 st (some r) e5
      exact ⟨st', b, h⟩
    · rintro ⟨us, hus, hn⟩ st
      cases hp : parse r with
      | ok x => exact absurd (e4 x hp us hus) hn
      | error e =>
        rw [← printed_rejected (hall r hr) hp]
        exact load_rejected env.md5 hp st _

theorem printed_parse (md5 : Str → Str) {h : Runtime} {mcn : Int} (hm : 2 ≤ mcn) {hist : List (Str × Option Str)}
    (hc : NoCollision md5 (accepted hist)) (hh : NoHashClash h (UrlRow hist)) {cs : List (URLMeta × Tree NodeData)}
    (hcs : PatternMakerSt.make h mcn (loadAll md5 hist) = .ok cs) {c : URLMeta × Tree NodeData} (hcm : c ∈ cs)
    {p : List (Str × NodeData)} (hp : p ∈ c.2.paths) :
    formatPattern c.1 c.2 = [pack c.1 (pathPatterns p)] ∧
      ∀ m ps, parse (pack c.1 (pathPatterns p)) = .ok (m, .patterns ps) → m = c.1 ∧ ps.map (·.str) = pathPatterns p := by
  obtain ⟨Ms, -, h2, h3⟩ := make_all md5 hm hc hh
  rw [hcs] at h2
  cases h2
  obtain ⟨M, -, hM, C, -, e1, hK⟩ := mem_out h3 hcm
  rw [e1]
  refine ⟨?_, fun m ps e => ⟨(printed_generated hm hh hM hK hp e).1, (printed_generated hm hh hM hK hp e).2.1⟩⟩
  unfold formatPattern
  cases hq : c.2.paths with
  | nil => rw [hq] at hp; cases hp
  | cons q qs =>
    have e : pathPatterns p = pathPatterns q := path_uniform hK hp (show q ∈ c.2.paths by rw [hq]; simp)
    simp [e]

/-- **C47**: `pattern-make` followed by `pattern-match` on the same URLs.  For every accepted URL the output line is not `E`; the
results `ts` are printed patterns of the URL's structure that match the pieces without backslash of the URL, and the pattern `r` of the URL's own
cluster is one of them exactly when it can be read back and `Found` holds for every piece.  What is written is `N` without results, all results separated
by tabs, or one of them. -/
theorem C47_match (env : Env) (hu : StrictUtf8 env) (mcn : Int) (hm : 2 ≤ mcn) (lines : List Bytes)
    (hc : NoCollision env.md5 (accepted (urlsOf env false lines))) (hh : NoHashClash env.rt (UrlRow (urlsOf env false lines))) :
    ∃ cs, PatternMakerSt.make env.rt mcn (makeLoad env false lines).1 = .ok cs ∧
      makeRun env mcn .pattern lines = .ok (printedLines cs) ∧ ∀ allMatched : Bool, ∃ res : Bytes → Bytes,
        (∀ queries, matchRun env allMatched (printFile env (printedLines cs)) queries =
          (queries.map (fun l => res (stripB l) ++ [9] ++ stripB l ++ [10])).flatten) ∧
        ∀ l ∈ lines, stripB l ≠ [] → ∀ url m pieces pps, env.decode (stripB l) = some url → startsWith ['/'] url = false →
          analyzeUrl url = .ok (m, pieces) → pieces.mapM parsePiece = .ok pps →
          ∃ c ∈ cs, c.1 = m ∧ ∃ p ∈ c.2.paths, p.map (·.1) = pps.map (·.piece) ∧
          ∃ (uss : List (List GUnit)) (r : Str) (ts : List Str),
            (∀ us ∈ uss, WrittenPat us) ∧ uss.length = pieces.length ∧ r = pack m (uss.map patText) ∧ formatPattern c.1 c.2 = [r] ∧
            (∀ (i : Nat) (us : List GUnit) (s : Str), uss[i]? = some us → pieces[i]? = some s → '\\' ∉ s → ReMatch (patText us) s) ∧
            (∀ t ∈ ts, t ∈ printedLines cs ∧ ∃ pats : List Str, t = pack m pats ∧ pats.length = pieces.length ∧
              ∀ (i : Nat) (q s : Str), pats[i]? = some q → pieces[i]? = some s → '\\' ∉ s → ReMatch q s) ∧
            (r ∈ ts ↔ (∀ us ∈ uss, ReadablePat us) ∧ ∀ (i : Nat) (us : List GUnit) (s : Str), uss[i]? = some us → pieces[i]? = some s →
              Spec.Found (i + 1 = m.pathDepth) us s) ∧
            res (stripB l) ≠ [69] ∧ (ts = [] → res (stripB l) = [78]) ∧
            (ts ≠ [] → if allMatched then res (stripB l) = tabbed (ts.map env.encode) else ∃ t ∈ ts, res (stripB l) = env.encode t) := by
  obtain ⟨cs, hcs, -, hpart, -⟩ := C24_partition env.md5 env.rt mcn hm _ hc hh
  obtain ⟨cs', hcs', hexact⟩ := C21_exact env.md5 env.rt mcn hm _ hc hh
  obtain ⟨cs'', hcs'', hre⟩ := C26_regex env.md5 env.rt mcn hm _ hc hh
  rw [hcs] at hcs' hcs''
  cases hcs'; cases hcs''
  have hall := printed_all env.md5 hm hc hh hcs
  have htexts := texts_printed hu hall
  have hload : matchLoad env (printFile env (printedLines cs)) = mloadAll env.md5 ((printedLines cs).map (fun r => (r, some r))) := by
    rw [matchLoad_eq, htexts]
  have hgen := allGen_printed hall
  refine ⟨cs, by rw [makeLoad_fst]; exact hcs, ?_, ?_⟩
  · unfold makeRun makeProcess
    rw [makeLoad_fst]
    show (PatternMakerSt.make env.rt mcn (loadAll env.md5 (urlsOf env false lines)) >>= _) = _
    rw [hcs]
    rfl
  intro am
  refine ⟨fun raw => let r := matchResult env (matchLoad env (printFile env (printedLines cs))) am raw
    if r.isEmpty then [78] else r, fun queries => rfl, ?_⟩
  intro l hl hl0 url m pieces pps hdec hst ha hpp
  have hhist : (url, none) ∈ urlsOf env false lines := by
    unfold urlsOf
    refine List.mem_filterMap.mpr ⟨l, hl, ?_⟩
    have : urlOf env l = some url := by
      unfold urlOf
      rw [if_neg (by simpa using hl0)]
      exact hdec
    rw [this]; rfl
  have hparse : parse url = .ok (m, .pieces pps) := by
    simp [parse, hst, ha, hpp, bind, Except.bind, pure, Except.pure]
  obtain ⟨c, hcm, hin⟩ := List.mem_flatMap.mp ((hpart m (pps.map (·.piece))).mpr ⟨url, none, pps, hhist, hparse, rfl⟩)
  obtain ⟨p, hp, e⟩ := List.mem_map.mp hin
  injection e with e1 e2
  obtain ⟨f1, f2⟩ := printed_parse env.md5 hm hc hh hcs hcm hp
  have hrm : pack c.1 (pathPatterns p) ∈ printedLines cs := List.mem_flatMap.mpr ⟨c, hcm, by rw [f1]; simp⟩
  have hmem : ∀ x : Str × Option Str, x ∈ (printedLines cs).map (fun r => (r, some r)) → x.1 ∈ printedLines cs ∧ x.2 = some x.1 := by
    intro x hx
    obtain ⟨r, hr, rfl⟩ := List.mem_map.mp hx
    exact ⟨hr, rfl⟩
  have hids : ((printedLines cs).map (fun r => (r, some r))).map (·.1) = printedLines cs := by
    rw [List.map_map]; exact List.map_id _
  have hclash : NoClash env.md5 (url :: ((printedLines cs).map (fun r => (r, some r))).map (·.1)) := by
    rw [hids]
    refine printed_noClash hc ?_
    intro s hs
    rcases List.mem_cons.mp hs with rfl | hs
    · exact .inr ⟨none, m, pps, hhist, hparse⟩
    · exact .inl (hall s hs)
  obtain ⟨rs, g1, ⟨uss, g2, g3⟩, g4⟩ := hexact ((printedLines cs).map (fun r => (r, some r)))
    (fun x hx => List.mem_flatMap.mp (hmem x hx).1) c hcm
    ⟨(_, some _), List.mem_map_of_mem hrm, by rw [f1]; simp⟩ p hp url pieces pps hst (by rw [e1]; exact ha) hpp e2.symm hclash
  obtain ⟨rs', g1', g5⟩ := C16_regex env.md5 ((printedLines cs).map (fun r => (r, some r))) url m pieces pps hst ha hpp hclash
    hgen.tame hgen.nonempty
  rw [g1] at g1'
  cases g1'
  obtain ⟨k1, k2⟩ := hre c hcm p hp url none pieces pps hhist (by rw [e1]; exact ha) hpp e2.symm
  have hmeta : ∀ x ∈ rs, ∃ t, x.data.md = some t ∧ t ∈ printedLines cs ∧ parse t = .ok (m, .patterns x.path) ∧ t = pack m (x.path.map (·.str)) := by
    intro x hx
    obtain ⟨j1, j2⟩ := C15_meta env.md5 _ url m pps hparse hclash rs g1 x hx
    cases hmd : x.data.md with
    | none =>
      obtain ⟨⟨s, md, hs, hps⟩, -⟩ := C15_structure env.md5 _ url m pps hparse hclash rs g1 x hx
      have e3 := j1 hmd s md hs hps
      have e4 := (hmem _ hs).2
      rw [e3] at e4
      cases e4
    | some t =>
      obtain ⟨a, s, b, e, hps, -⟩ := j2 t hmd
      have hs : (s, some t) ∈ (printedLines cs).map (fun r => (r, some r)) := by rw [e]; simp
      obtain ⟨q1, q2⟩ := hmem _ hs
      have : t = s := by simpa using q2
      subst this
      refine ⟨t, rfl, q1, hps, ?_⟩
      obtain ⟨ps', w1, w2, -⟩ := (hall t q1).parse _ _ hps
      cases w1
      exact w2
  obtain ⟨ts, n1, n2, n3⟩ := mapM_metas (fun x hx => let ⟨t, h, _⟩ := hmeta x hx; ⟨t, h⟩)
  have hout := outcome_spec (hu.toUtf8) am (printFile env (printedLines cs)) (by rw [htexts]; rw [hids] at hclash; exact hclash.mono (by simp +contextual)) (stripB l)
  rw [hload] at hout ⊢
  have hts : ∀ t, t ∈ ts → ∃ x ∈ rs, x.data.md = some t := n3
  refine ⟨c, hcm, e1, p, hp, e2, uss, pack c.1 (pathPatterns p), ts, g2, ?_, by rw [e1, g3], f1, ?_, ?_, ?_, ?_, ?_, ?_⟩
  · have := congrArg List.length g3
    simp only [List.length_map, pathPatterns] at this
    omega
  · intro i us s hi hs hb
    have e3 := congrArg (·[i]?) g3
    simp only [List.getElem?_map, hi, pathPatterns, Option.map_some] at e3
    cases hpi : p[i]? with
    | none => rw [hpi] at e3; cases e3
    | some kd =>
      obtain ⟨k, d⟩ := kd
      rw [hpi] at e3
      have : patText us = d.pattern := by simpa using e3
      rw [this]
      exact k2 i k d s hpi hs hb
  · intro t ht
    obtain ⟨x, hx, hxt⟩ := hts t ht
    obtain ⟨t', hx', q1, q2, q3⟩ := hmeta x hx
    rw [hxt] at hx'
    cases hx'
    refine ⟨q1, _, q3, by rw [List.length_map]; exact (g5 x hx).1, ?_⟩
    intro i q s hq hs hb
    rw [List.getElem?_map] at hq
    cases hpi : x.path[i]? with
    | none => rw [hpi] at hq; cases hq
    | some y =>
      rw [hpi] at hq
      have : y.str = q := by simpa using hq
      rw [← this]
      refine (g5 x hx).2 i y s hpi hs hb ?_
      obtain ⟨ps', w1, -, w3, -⟩ := (hall t q1).parse _ _ q2
      cases w1
      obtain ⟨us, hus, e⟩ := w3 y (List.mem_of_getElem? hpi)
      rw [e]
      intro c hc
      have := patText_graph (generated_iff.mp hus).1.written c hc
      exact Nat.lt_of_le_of_lt this.2 (by decide)
  · rw [← e1] at *
    refine Iff.trans ?_ (g4 uss g2 g3)
    constructor
    · intro hr
      obtain ⟨x, hx, hxt⟩ := hts _ hr
      obtain ⟨t', hx', q1, q2, q3⟩ := hmeta x hx
      rw [hxt] at hx'
      cases hx'
      exact ⟨x, hx, (f2 _ _ q2).2⟩
    · rintro ⟨x, hx, hxp⟩
      obtain ⟨t', hx', q1, q2, q3⟩ := hmeta x hx
      rw [hxp] at q3
      subst q3
      have : some (pack c.1 (pathPatterns p)) ∈ ts.map some := by
        rw [← n2, ← hx']
        exact List.mem_map_of_mem (f := fun x : Matched FullStore Str => x.data.md) hx
      simpa using this
  · intro he
    rcases hout.error.mp he with h | ⟨u, e, h1, h2⟩
    · rw [hdec] at h; cases h
    · rw [hdec] at h1
      cases h1
      rw [g1] at h2
      cases h2
  · intro h0
    subst h0
    have : rs = [] := by simpa using n2
    subst this
    exact hout.nothing.mpr ⟨url, hdec, g1⟩
  · intro hne
    have hrs : rs ≠ [] := by
      rintro rfl
      apply hne
      simpa using n2.symm
    obtain ⟨ms, ts', o1, o2, o3, -⟩ := hout.matched url rs hdec g1 hrs
    cases am with
    | true =>
      have : ms = rs := by simpa using o3
      subst this
      rw [n2] at o2
      have : ts = ts' := by
        have := congrArg (List.map (fun o : Option Str => o.getD [])) o2
        simpa [List.map_map, Function.comp_def] using this
      subst this
      exact o1
    | false =>
      obtain ⟨x, hx, rfl, -⟩ : ∃ x ∈ rs, ms = [x] ∧ ∀ y ∈ rs, x.lt y = .ok false := by simpa using o3
      obtain ⟨t', hx', -⟩ := hmeta x hx
      have : ts' = [t'] := by
        cases ts' with
        | nil => simp at o2
        | cons a b =>
          simp only [List.map_cons, List.map_nil, hx', List.cons.injEq, Option.some.injEq] at o2
          obtain ⟨rfl, hb⟩ := o2
          have : b = [] := by simpa using hb.symm
          rw [this]
      subst this
      refine ⟨t', ?_, o1⟩
      have : some t' ∈ ts.map some := by
        rw [← n2, ← hx']
        exact List.mem_map_of_mem (f := fun x : Matched FullStore Str => x.data.md) hx
      simpa using this

/-- Strict UTF-8 recovers texts and keeps ASCII. -/
theorem utf8_strict (md5 : Str → Str) (rt : Runtime) : StrictUtf8 (utf8Env md5 rt) := by
  refine ⟨utf8_utf8 md5 rt, ?_, ?_⟩
  · intro s
    show utf8Decode (utf8Encode s) = some s
    unfold utf8Decode utf8Encode
    have := List.utf8Decode?_utf8Encode (l := s)
    simp only [Array.toArray_toList]
    show (ByteArray.utf8Decode? s.utf8Encode).map Array.toList = some s
    rw [this]
    rfl
  · intro c hc
    show utf8Encode [c] = _
    unfold utf8Encode
    rw [List.utf8Encode_singleton]
    have : String.utf8EncodeChar c = [UInt8.ofNat c.toNat] := by
      have hv : c.val.toNat ≤ 127 := Nat.le_of_lt_succ hc
      simp only [String.utf8EncodeChar, hv, if_true]
      rfl
    rw [this]
    simp

/-- **C47** for UTF-8: nothing printed is lost, and no URL that `pattern-make` accepted makes `pattern-match` print `E`. -/
theorem C47_utf8 (md5 : Str → Str) (rt : Runtime) (mcn : Int) (hm : 2 ≤ mcn) (lines : List Bytes)
    (hc : NoCollision md5 (accepted (urlsOf (utf8Env md5 rt) false lines)))
    (hh : NoHashClash rt (UrlRow (urlsOf (utf8Env md5 rt) false lines))) :
    ∃ records, makeRun (utf8Env md5 rt) mcn .pattern lines = .ok records ∧
      patternTexts (utf8Env md5 rt) (printFile (utf8Env md5 rt) records) = records := by
  obtain ⟨r, h1, h2, -⟩ := C47_load (utf8Env md5 rt) (utf8_strict md5 rt) mcn hm lines hc hh
  exact ⟨r, h1, h2⟩

/-! ### examples -/

/-- Five URLs: four are found again by the patterns made from them, one (`a1b2-x1y2`, see C21) is not. -/
def c47Lines : List Bytes :=
  [c!"http://h/p/1\n", c!"http://h/p/22\n", c!"x\n", c!"http://h/q?k=ab \n", c!"http://h/a1b2-x1y2\n", c!"http://h/a1b2-z3w4"].map asciiBytesM

/-- `asciiEnvM` with a hash that tells the strings apart. -/
def c47Env : Env := { asciiEnvM with rt := codeHash }

example : makeRun c47Env 2 .pattern c47Lines = .ok [c!"/p/[0-9]+", c!"/q[\\?]k=ab", c!"/a1b2[\\-][0-9a-z]{4}"] := by decide +kernel

example : matchRun c47Env true (printFile c47Env [c!"/p/[0-9]+", c!"/q[\\?]k=ab", c!"/a1b2[\\-][0-9a-z]{4}"]) c47Lines =
    asciiBytesM (c!"/p/[0-9]+\thttp://h/p/1\n/p/[0-9]+\thttp://h/p/22\nE\tx\n/q[\\?]k=ab\thttp://h/q?k=ab\nN\thttp://h/a1b2-x1y2\n" ++
      c!"N\thttp://h/a1b2-z3w4\n") := by decide +kernel

/-- URLs with a backslash: the first pattern is rejected, the second is loaded and found. -/
example : makeRun c47Env 2 .pattern ([c!"http://h/p/a\\b\n", c!"http://h/p/c\\d\n", c!"http://h/q/1/a\\b\n", c!"http://h/q/1/\\cd\n"].map asciiBytesM) =
      .ok [c!"/p/[a-z][\\\\][a-z]", c!"/q/1/[\\\\a-z]{4}"] ∧
    raisedBy (PatternMatcherSt.load c47Env.md5 [] c!"/p/[a-z][\\\\][a-z]" none) = some .invalidPattern ∧
    matchRun c47Env true (printFile c47Env [c!"/p/[a-z][\\\\][a-z]", c!"/q/1/[\\\\a-z]{4}"])
        ([c!"http://h/p/a\\b\n", c!"http://h/q/1/a\\b\n"].map asciiBytesM) =
      asciiBytesM c!"N\thttp://h/p/a\\b\n/q/1/[\\\\a-z]{4}\thttp://h/q/1/a\\b\n" := by decide +kernel

end OsUrl
