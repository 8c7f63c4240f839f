import Verif.Proofs.Lines
import Verif.Props.C52

/-! # C58: the commands on bytes -/

namespace OsUrl
open Spec

/-- **C58**: iterating a binary file gives its lines. -/
theorem C58_lines (b : Bytes) (ls : List Bytes) : ls = binaryLines b ↔ LinesOf b ls :=
  ⟨fun h => h ▸ binaryLines_spec b, linesOf_unique⟩

/-- **C58**: several input files are read like their concatenation exactly when no line runs on from one file into the next. -/
theorem C58_cat (a b : Bytes) : chainLines [a, b] = chainLines [a ++ b] ↔ a = [] ∨ b = [] ∨ a.getLast? = some 10 := by
  simp only [chainLines, List.flatMap_cons, List.flatMap_nil, List.append_nil]
  constructor
  · intro h
    by_cases ha : a = []
    · exact .inl ha
    by_cases hb : b = []
    · exact .inr (.inl hb)
    right; right
    have hla : binaryLines a ≠ [] := by
      intro e
      have := (binaryLines_spec a).all
      rw [e] at this
      exact ha this.symm
    have hlb : binaryLines b ≠ [] := by
      intro e
      have := (binaryLines_spec b).all
      rw [e] at this
      exact hb this.symm
    have hpa := List.length_pos_iff.mpr hla
    have hpb := List.length_pos_iff.mpr hlb
    obtain ⟨l, hl⟩ : ∃ l, (binaryLines a)[(binaryLines a).length - 1]? = some l := by
      rw [List.getElem?_eq_getElem (by omega)]
      exact ⟨_, rfl⟩
    have hl' : (binaryLines (a ++ b))[(binaryLines a).length - 1]? = some l := by
      rw [← h, List.getElem?_append_left (by omega)]
      exact hl
    obtain ⟨x, -, h2⟩ := (binaryLines_spec (a ++ b)).line _ l hl'
    rcases h2 with h2 | ⟨-, -, h4⟩
    · have hlast : (binaryLines a).getLast? = some l := by rw [List.getLast?_eq_getElem?]; exact hl
      obtain ⟨ys, e⟩ := List.getLast?_eq_some_iff.mp hlast
      rw [← (binaryLines_spec a).all, e, h2]
      simp
    · rw [← h, List.length_append] at h4
      omega
  · rintro (rfl | rfl | h)
    · rfl
    · simp [binaryLines]
    · apply linesOf_unique
      refine ⟨by rw [List.flatten_append, (binaryLines_spec a).all, (binaryLines_spec b).all], ?_⟩
      intro i l hl
      by_cases hi : i < (binaryLines a).length
      · rw [List.getElem?_append_left hi] at hl
        obtain ⟨x, h1, h2⟩ := (binaryLines_spec a).line i l hl
        refine ⟨x, h1, .inl ?_⟩
        rcases h2 with h2 | ⟨h2, h3, h4⟩
        · exact h2
        · exfalso
          have hlast : (binaryLines a).getLast? = some l := by
            rw [List.getLast?_eq_getElem?, ← h4]
            exact hl
          obtain ⟨ys, e⟩ := List.getLast?_eq_some_iff.mp hlast
          have hall := (binaryLines_spec a).all
          rw [e, h2] at hall
          rw [← hall] at h
          simp only [List.flatten_append, List.flatten_cons, List.flatten_nil, List.append_nil] at h
          rw [List.getLast?_append] at h
          cases hx : x.getLast? with
          | none => exact h3 (List.getLast?_eq_none_iff.mp hx)
          | some y =>
            rw [hx] at h
            simp only [Option.some_or, Option.some.injEq] at h
            exact h1 (h ▸ List.mem_of_getLast? hx)
      · rw [List.getElem?_append_right (by omega)] at hl
        obtain ⟨x, h1, h2⟩ := (binaryLines_spec b).line _ l hl
        refine ⟨x, h1, h2.imp id ?_⟩
        rintro ⟨h3, h4, h5⟩
        exact ⟨h3, h4, by rw [List.length_append]; omega⟩

theorem record_no_nl {env : Env} (hu : StrictUtf8 env) {mcn : Int} (hm : 2 ≤ mcn) {f : Fmt} {lines : List Bytes} (hl : ∀ l ∈ lines, IsLine l)
    (hc : NoCollision env.md5 (accepted (urlsOf env (loadsUrl f) lines))) (hh : NoHashClash env.rt (UrlRow (urlsOf env (loadsUrl f) lines))) :
    ∃ out B, makeRun env mcn f lines = .ok out ∧ Listing mcn urlInfo (inputUrls env lines) B ∧ Printed f B out ∧
      (∀ r ∈ out, (10 : UInt8) ∉ env.encode r) ∧ (∀ b ∈ B, ∀ c ∈ b.text, Graph c) ∧
      ∃ cs, PatternMakerSt.make env.rt mcn (loadAll env.md5 (urlsOf env (loadsUrl f) lines)) = .ok cs ∧ B.map (·.text) = printedLines cs := by
  obtain ⟨cs, out, h1, h2, h3, h4, h5⟩ := printed_blocks env mcn hm f lines hc hh
  have hg := printed_graph env.md5 hm hc hh h1
  obtain ⟨cs', h1', hcut⟩ := cutUp env.md5 env.rt mcn hm _ hc hh
  rw [h1] at h1'
  injection h1' with e
  subst e
  have htexts : (blocksOf env.rt f (urlsOf env (loadsUrl f) lines) cs).map (·.text) = printedLines cs := by
    unfold blocksOf printedLines
    rw [List.map_map]
    exact (flatMap_one _ _ _ (fun c hc => (treePats_eq hcut hc).2.2)).symm
  generalize hB : blocksOf env.rt f (urlsOf env (loadsUrl f) lines) cs = B at *
  have hgB : ∀ b ∈ B, ∀ c ∈ b.text, Graph c := by
    intro b hb
    exact hg b.text (by rw [← htexts]; exact List.mem_map_of_mem hb)
  have hurl : ∀ b ∈ B, ∀ u ∈ b.urls, (10 : UInt8) ∉ env.encode u := by
    intro b hb u hub
    exact url_no_nl hu hl ((h4.urls b hb u hub u).mp hub).1
  refine ⟨out, B, h2, h4, h5, ?_, hgB, cs, h1, htexts⟩
  cases f with
  | pattern =>
    simp only [Printed] at h5
    subst h5
    intro r hr
    obtain ⟨b, hb, rfl⟩ := List.mem_map.mp hr
    exact graph_no_nl hu (hgB b hb)
  | cluster =>
    simp only [Printed] at h5
    subst h5
    intro r hr
    obtain ⟨b, hb, hr⟩ := List.mem_flatMap.mp hr
    rcases List.mem_cons.mp hr with rfl | hr
    · exact graph_no_nl hu (hgB b hb)
    · obtain ⟨u, hub, rfl⟩ := List.mem_map.mp hr
      exact tab_no_nl hu (hurl b hb u hub)
  | inline =>
    simp only [Printed] at h5
    subst h5
    intro r hr
    obtain ⟨b, hb, hr⟩ := List.mem_flatMap.mp hr
    obtain ⟨u, hub, rfl⟩ := List.mem_map.mp hr
    rw [hu.append]
    have e1 := graph_no_nl hu (hgB b hb)
    have e2 := tab_no_nl hu (hurl b hb u hub)
    exact fun h => (List.mem_append.mp h).elim e1 e2
  | json =>
    intro r hr h10
    rw [h3] at hr
    obtain ⟨c, hc, hr⟩ := List.mem_flatMap.mp hr
    have hline := C35_line c.1 c.2 r hr
    have : ∀ (s : Str), (∀ c ∈ s, 32 ≤ c.toNat ∧ c.toNat ≤ 126) → (10 : UInt8) ∉ env.encode s := by
      intro s
      induction s with
      | nil => intro _; rw [hu.nil]; simp
      | cons c s ih =>
        intro hs
        rw [encode_cons hu, hu.ascii c (by have := (hs c (by simp)).2; omega)]
        intro hm
        rcases List.mem_append.mp hm with hm | hm
        · simp only [List.mem_singleton] at hm
          have h1 := hs c (by simp)
          have e := congrArg UInt8.toNat hm
          rw [UInt8.toNat_ofNat', Nat.mod_eq_of_lt (by omega)] at e
          have : (10 : UInt8).toNat = 10 := rfl
          omega
        · exact ih (fun d hd => hs d (by simp [hd])) hm
    exact this r hline h10
  | null =>
    simp only [Printed] at h5
    subst h5
    simp

/-- **C58**: `pattern-make` writes one line for every record, and from the bytes that it writes the records can be read back. -/
theorem C58_make (env : Env) (hu : StrictUtf8 env) (mcn : Int) (hm : 2 ≤ mcn) (f : Fmt) (files : List Bytes)
    (hc : NoCollision env.md5 (accepted (urlsOf env (loadsUrl f) (chainLines files))))
    (hh : NoHashClash env.rt (UrlRow (urlsOf env (loadsUrl f) (chainLines files)))) :
    ∃ out records B, makeMain env mcn f files = .ok out ∧ LinesOf out (records.map (fun r => env.encode r ++ [10])) ∧
      (binaryLines out).map (fun l => env.decode l.dropLast) = records.map some ∧
      Listing mcn urlInfo (inputUrls env (chainLines files)) B ∧ Printed f B records := by
  obtain ⟨records, B, h1, h2, h3, h4, -⟩ := record_no_nl hu hm (chainLines_isLine (files := files)) hc hh
  have hl := linesOf_map env.encode records h4
  refine ⟨printOut env records, records, B, ?_, hl, ?_, h2, h3⟩
  · unfold makeMain
    rw [h1]
    rfl
  · show (binaryLines (records.map (fun r => env.encode r ++ [10])).flatten).map _ = _
    rw [← linesOf_unique hl, List.map_map]
    apply List.map_congr_left
    intro r hr
    simp [hu.back]

/-- **C58**: `pattern-match` writes one line for every line of its input files, in order: the outcome of the line, a tab and the stripped line. -/
theorem C58_match (env : Env) (hu : Utf8 env) (allMatched : Bool) (pats files : List Bytes)
    (hc : NoClash env.md5 (patternTexts env (chainLines pats))) :
    ∃ res : Bytes → Bytes,
      LinesOf (matchMain env allMatched pats files) ((chainLines files).map (fun l => res (stripB l) ++ [9] ++ stripB l ++ [10])) ∧
      ∀ raw, Outcome env (matchLoad env (chainLines pats)) allMatched (chainLines pats) raw (res raw) := by
  obtain ⟨res, h1, h2, h3⟩ := C36_lines env hu allMatched (chainLines pats) (chainLines files) chainLines_isLine chainLines_isLine hc
  refine ⟨res, ?_, h2⟩
  unfold matchMain
  rw [h1]
  refine linesOf_map (fun l => res (stripB l) ++ [9] ++ stripB l) _ ?_
  intro l hl
  obtain ⟨g1, g2⟩ := h3 l hl
  simp [g1, g2]

theorem texts_blocks {env : Env} (hu : StrictUtf8 env) {B : List Block} {f : Fmt} {out : List Str} (hf : f = .pattern ∨ f = .cluster)
    (hp : Printed f B out) (hB : ∀ b ∈ B, ∀ c ∈ b.text, Graph c) (hs : ∀ b ∈ B, startsWith ['/'] b.text = true) :
    patternTexts env (printFile env out) = B.map (·.text) := by
  have one : ∀ b ∈ B, patternTexts env (printFile env [b.text]) = [b.text] := by
    intro b hb
    have hg := hB b hb
    have hhead : (env.encode b.text).head? = some 47 := by
      have := hs b hb
      rw [encode_graph hu hg]
      cases e : b.text with
      | nil => rw [e] at this; simp [startsWith] at this
      | cons c r =>
        rw [e] at this
        have hc : c = '/' := by
          simp only [startsWith, List.isPrefixOf, Bool.and_true, beq_iff_eq] at this
          exact this.symm
        subst hc
        rfl
    simp only [patternTexts, printFile, List.map_cons, List.map_nil, List.filterMap_cons, List.filterMap_nil, graph_rstrip hu hg, hhead, if_true, hu.back]
  have tab : ∀ us : List Str, patternTexts env (printFile env (us.map ('\t' :: ·))) = [] := by
    intro us
    unfold patternTexts printFile
    rw [List.filterMap_eq_nil_iff]
    intro l hl
    obtain ⟨r, hr, rfl⟩ := List.mem_map.mp hl
    obtain ⟨u, -, rfl⟩ := List.mem_map.mp hr
    have : (rstripB (env.encode ('\t' :: u) ++ [10])).head? ≠ some 47 := by
      rw [encode_cons hu, hu.tab, List.singleton_append, List.cons_append]
      unfold rstripB
      intro h
      rw [List.head?_reverse] at h
      have hsuf := List.dropWhile_suffix isSpaceB (l := (9 :: (env.encode u ++ [10]) : Bytes).reverse)
      obtain ⟨t, ht⟩ := hsuf
      have hl := congrArg List.getLast? ht
      obtain ⟨ys, e⟩ := List.getLast?_eq_some_iff.mp h
      rw [e, ← List.append_assoc, List.getLast?_concat, List.reverse_cons, List.getLast?_concat] at hl
      exact absurd hl (by decide)
    rw [if_neg this]
  have app : ∀ a b : List Str, patternTexts env (printFile env (a ++ b)) = patternTexts env (printFile env a) ++ patternTexts env (printFile env b) := by
    intro a b
    unfold patternTexts printFile
    rw [List.map_append, List.filterMap_append]
  rcases hf with rfl | rfl
  · simp only [Printed] at hp
    subst hp
    induction B with
    | nil => rfl
    | cons b B ih =>
      rw [List.map_cons, ← List.singleton_append, app, one b (by simp),
        ih (fun x hx => hB x (by simp [hx])) (fun x hx => hs x (by simp [hx])) (fun x hx => one x (by simp [hx]))]
  · simp only [Printed] at hp
    subst hp
    induction B with
    | nil => rfl
    | cons b B ih =>
      rw [List.flatMap_cons, List.cons_append, ← List.singleton_append, app, app, one b (by simp), tab,
        ih (fun x hx => hB x (by simp [hx])) (fun x hx => hs x (by simp [hx])) (fun x hx => one x (by simp [hx]))]
      rfl

theorem printed_bytes {env : Env} (hu : StrictUtf8 env) {mcn : Int} (hm : 2 ≤ mcn) {f : Fmt} (hf : f = .pattern ∨ f = .cluster) {files : List Bytes}
    (hc : NoCollision env.md5 (accepted (urlsOf env false (chainLines files))))
    (hh : NoHashClash env.rt (UrlRow (urlsOf env false (chainLines files)))) :
    ∃ out B, makeMain env mcn f files = .ok out ∧ Listing mcn urlInfo (inputUrls env (chainLines files)) B ∧
      patternTexts env (chainLines [out]) = B.map (·.text) ∧ ∀ b ∈ B, PrintedOK (urlsOf env false (chainLines files)) b.text := by
  have hc' := noCollision_flip (loadsUrl f) hc
  rw [urlRow_flip false (loadsUrl f)] at hh
  obtain ⟨records, B, h1, h2, h3, h4, h5, cs, h6, h7⟩ := record_no_nl hu hm (chainLines_isLine (files := files)) hc' hh
  have hok := printed_all env.md5 hm hc' hh h6
  have hBok : ∀ b ∈ B, PrintedOK (urlsOf env (loadsUrl f) (chainLines files)) b.text := fun b hbm =>
    hok b.text (by rw [← h7]; exact List.mem_map_of_mem hbm)
  have hl := linesOf_map env.encode records h4
  refine ⟨printOut env records, B, by unfold makeMain; rw [h1]; rfl, h2, ?_, ?_⟩
  · have : chainLines [printOut env records] = printFile env records := by
      simp only [chainLines, List.flatMap_cons, List.flatMap_nil, List.append_nil]
      exact (linesOf_unique hl).symm
    rw [this]
    refine texts_blocks hu hf h3 h5 ?_
    intro b hbm
    exact (hBok b hbm).head
  · intro b hbm
    obtain ⟨g, ⟨m, uss, u1, u2, u3, u4⟩, hp⟩ := hBok b hbm
    refine ⟨g, ⟨m, uss, u1, u2, fun hb => u3 (noBackslash_flip (loadsUrl f) hb), u4⟩, ?_⟩
    intro m x e
    obtain ⟨ps, e1, e2, e3, r0, hr0, e4, e5⟩ := hp m x e
    refine ⟨ps, e1, e2, e3, ?_⟩
    obtain ⟨u, hu', e6⟩ := mem_accepted.mp hr0
    obtain ⟨md, hmd⟩ := urlsOf_flip (b' := false) hu'
    exact ⟨⟨r0.m, r0.pps, md⟩, mem_accepted.mpr ⟨u, hmd, e6⟩, e4, e5⟩

/-- **C58**: the output file of `pattern-make`, in the pattern format or in the default one with the URLs below their patterns, is a pattern file for
`pattern-match` with exactly the patterns of the clusters; a pattern with brackets that end in a backslash is rejected by it. -/
theorem C58_file (env : Env) (hu : StrictUtf8 env) (mcn : Int) (hm : 2 ≤ mcn) (f : Fmt) (hf : f = .pattern ∨ f = .cluster) (files : List Bytes)
    (hc : NoCollision env.md5 (accepted (urlsOf env false (chainLines files))))
    (hh : NoHashClash env.rt (UrlRow (urlsOf env false (chainLines files)))) :
    ∃ out B, makeMain env mcn f files = .ok out ∧ Listing mcn urlInfo (inputUrls env (chainLines files)) B ∧
      matchLoad env (chainLines [out]) = mloadAll env.md5 (B.map (fun b => (b.text, some b.text))) ∧
      ∀ b ∈ B, ∃ (m : URLMeta) (uss : List (List GUnit)), (∀ us ∈ uss, WrittenPat us) ∧ b.text = pack m (uss.map patText) ∧
        (NoBackslash (urlsOf env false (chainLines files)) → ∀ us ∈ uss, ReadablePat us) ∧
        ((∀ us ∈ uss, ReadablePat us) → ∀ st, ∃ st' new, PatternMatcherSt.load env.md5 st b.text (some b.text) = .ok (st', new)) ∧
        ((∃ us ∈ uss, ¬ ReadablePat us) → ∀ st, PatternMatcherSt.load env.md5 st b.text (some b.text) = .error .invalidPattern) := by
  obtain ⟨out, B, h1, h2, h3, h4⟩ := printed_bytes hu hm hf hc hh
  refine ⟨out, B, h1, h2, by rw [matchLoad_eq, h3, List.map_map]; rfl, ?_⟩
  intro b hbm
  obtain ⟨m, uss, e1, hw, e2, e3, e4, -⟩ := (h4 b hbm).units
  refine ⟨m, uss, hw, e1, e2, fun hr st => ?_, ?_⟩
  · obtain ⟨ps, e5, -⟩ := e3 hr
    obtain ⟨⟨st', n⟩, h⟩ := mload_total env.md5 st (some b.text) e5
    exact ⟨st', n, h⟩
  · rintro ⟨us, hus, hn⟩ st
    cases hp : parse b.text with
    | ok x => exact absurd (e4 x hp us hus) hn
    | error e =>
      rw [← printed_rejected (h4 b hbm) hp]
      exact load_rejected env.md5 hp st _

/-- **C58**: for `pattern-match` it makes no difference which of the two formats the pattern file was written in. -/
theorem C58_formats (env : Env) (hu : StrictUtf8 env) (mcn : Int) (hm : 2 ≤ mcn) (files : List Bytes)
    (hc : NoCollision env.md5 (accepted (urlsOf env false (chainLines files))))
    (hh : NoHashClash env.rt (UrlRow (urlsOf env false (chainLines files)))) :
    ∃ out out', makeMain env mcn .pattern files = .ok out ∧ makeMain env mcn .cluster files = .ok out' ∧
      ∀ (allMatched : Bool) (queries : List Bytes),
        (∀ l ∈ chainLines queries, ∀ url, env.decode (stripB l) = some url → startsWith ['/'] url = false ∧
          NoClash env.md5 (url :: patternTexts env (chainLines [out]))) →
        matchMain env allMatched [out] queries = matchMain env allMatched [out'] queries := by
  obtain ⟨out, B, h1, h2, h3, h4⟩ := printed_bytes hu hm (.inl rfl) hc hh
  obtain ⟨out', B', h1', h2', h3', h4'⟩ := printed_bytes hu hm (.inr rfl) hc hh
  refine ⟨out, out', h1, h1', ?_⟩
  intro am queries hq
  have hperm := listing_texts h2 h2'
  have hprinted : ∀ t ∈ patternTexts env (chainLines [out]), PrintedOK (urlsOf env false (chainLines files)) t := by
    intro t ht
    rw [h3] at ht
    obtain ⟨b, hbm, rfl⟩ := List.mem_map.mp ht
    exact h4 b hbm
  unfold matchMain
  refine C52_command env hu.toUtf8 am _ _ _ ?_ ?_ (allGen_printed hprinted) hq (printed_noClash hc (fun s hs => .inl (hprinted s hs)))
  · intro t
    rw [h3, h3']
    exact hperm.mem_iff
  · intro t ht t' ht' r e e'
    obtain ⟨ps, g1, g2, -⟩ := (hprinted t ht).parse _ _ e
    obtain ⟨ps', g1', g2', -⟩ := (hprinted t' ht').parse _ _ e'
    rw [g1] at g1'
    cases g1'
    rw [g2, g2']

/-! ### examples -/

/-- Two files, the first without a newline at its end. -/
def c58Files : List Bytes := [asciiBytesM c!"http://h/p/1\n\nhttp://h/p/22", asciiBytesM c!"http://h/q?k=ab \nx\n"]

example : chainLines c58Files = [c!"http://h/p/1\n", c!"\n", c!"http://h/p/22", c!"http://h/q?k=ab \n", c!"x\n"].map asciiBytesM := by decide +kernel

example : makeMain c47Env 2 .cluster c58Files = .ok (asciiBytesM
    c!"/p/[0-9]+\n\thttp://h/p/1\n\thttp://h/p/22\n/q[\\?]k=ab\n\thttp://h/q?k=ab\n") := by decide +kernel

/-- Joined by `cat`, the last URL of the first file and the first URL of the second are one line. -/
example : makeMain c47Env 2 .pattern [c58Files.flatten] = .ok (asciiBytesM
    c!"/p/1\n/p/22http[:]/h/q[\\?]k=ab\n") := by decide +kernel

example : matchMain c47Env true [asciiBytesM c!"/p/[0-9]+\n\thttp://h/p/1\n\thttp://h/p/22\n/q[\\?]k=ab\n\thttp://h/q?k=ab\n"] c58Files =
    asciiBytesM c!"/p/[0-9]+\thttp://h/p/1\nE\t\n/p/[0-9]+\thttp://h/p/22\n/q[\\?]k=ab\thttp://h/q?k=ab\nE\tx\n" := by decide +kernel

end OsUrl
