import Verif.Props.C69
import Verif.Props.C47
import Verif.Props.C50
import Verif.Props.C58

/-!
# C70: the two programs, from the command line to what they print

`C69` says which command of the other properties a command line runs.  Here the results are put together.
-/

namespace OsUrl
open Spec

/-- What a command line of `pattern-make` says: the format, the number, the inputs. -/
structure Spec.MakeSays (lower upper : Str → Str) (text : Bytes → Str) (w : World) (argv : List Str) (f : Fmt) (k : Int) (files : List Bytes) : Prop where
  says : ∃ gs cfg c, CmdLine makeNames argv gs ∧ Fine upper w gs ∧
    ((lastOf gs .format = none ∧ f = .cluster) ∨ ∃ v, lastOf gs .format = some [v] ∧ (upper v, f) ∈ formatNames) ∧
    ((lastOf gs .config = none ∧ cfg = none) ∨ ∃ n b, lastOf gs .config = some [n] ∧ Content w False n b ∧ cfg = some (text b)) ∧
    commandConfig lower cfg = .ok c ∧ minClusterNum lower c = .ok k ∧
    Contents w (lastOf gs .config = some [['-']]) ((lastOf gs .inputs).getD [['-']]) files

theorem make_says {lower upper : Str → Str} (hu : upper c!"CLUSTER" = c!"CLUSTER") {text : Bytes → Str} (env : Env) {w : World} {argv : List Str} {f : Fmt} {k : Int}
    {files : List Bytes} (h : MakeSays lower upper text w argv f k files) {records : List Str} (hr : makeRun env k f (chainLines files) = .ok records) :
    makeProgram lower upper text env w argv = .prints (printOut env records) := by
  obtain ⟨gs, cfg, c, h1, h2, h3, h4, h5, h6, h7⟩ := h.says
  rw [C69_make hu text env w h1 h2 h3 h4 h7, ((C68_command lower env cfg f files).2 c h5).1 k h6]
  unfold makeMain
  rw [hr]
  rfl

/-- `pattern-make` prints the patterns (and URLs) of the clusters of the URLs in its input files (C50). -/
theorem C70_make {lower upper : Str → Str} (hu : upper c!"CLUSTER" = c!"CLUSTER") (text : Bytes → Str) (env : Env) (w : World) {argv : List Str} {f : Fmt} {k : Int}
    (hk : 2 ≤ k) {files : List Bytes} (h : MakeSays lower upper text w argv f k files)
    (hc : NoCollision env.md5 (accepted (urlsOf env (loadsUrl f) (chainLines files))))
    (hh : NoHashClash env.rt (UrlRow (urlsOf env (loadsUrl f) (chainLines files)))) :
    ∃ records B, makeProgram lower upper text env w argv = .prints (printOut env records) ∧
      Listing k urlInfo (inputUrls env (chainLines files)) B ∧ Printed f B records := by
  obtain ⟨out, B, h1, h2, h3⟩ := C50_output env k hk f _ hc hh
  exact ⟨out, B, make_says hu env h h1, h2, h3⟩

/-- Two command lines, in perhaps different surroundings, with the same format and number, whose files have the same URLs: the same patterns
are printed, perhaps in another order. -/
theorem C70_order {lower upper : Str → Str} (hu : upper c!"CLUSTER" = c!"CLUSTER") (text : Bytes → Str) (env : Env) (w w' : World) {argv argv' : List Str} {f : Fmt}
    (hf : f = .pattern ∨ f = .inline) {k : Int} (hk : 2 ≤ k) {files files' : List Bytes} (h : MakeSays lower upper text w argv f k files)
    (h' : MakeSays lower upper text w' argv' f k files')
    (hs : ∀ u, u ∈ inputUrls env (chainLines files) ↔ u ∈ inputUrls env (chainLines files'))
    (hc : NoCollision env.md5 (accepted (urlsOf env (loadsUrl f) (chainLines files))))
    (hh : NoHashClash env.rt (UrlRow (urlsOf env (loadsUrl f) (chainLines files))))
    (hc' : NoCollision env.md5 (accepted (urlsOf env (loadsUrl f) (chainLines files'))))
    (hh' : NoHashClash env.rt (UrlRow (urlsOf env (loadsUrl f) (chainLines files')))) :
    ∃ records records', makeProgram lower upper text env w argv = .prints (printOut env records) ∧
      makeProgram lower upper text env w' argv' = .prints (printOut env records') ∧ records.Perm records' := by
  obtain ⟨out, out', B, B', h1, h2, _, _, _, h3⟩ := C50_order env k hk f _ _ hs hc hh hc' hh'
  exact ⟨out, out', make_says hu env h h1, make_says hu env h' h2, h3 hf⟩

/-- `pattern-make -f pattern ... | pattern-match -p - -i ...` on the same files. -/
theorem C70_pipe {lower upper : Str → Str} (hup : upper c!"CLUSTER" = c!"CLUSTER") (text : Bytes → Str) (env : Env) (hu : StrictUtf8 env) (w : World)
    {argv argv' : List Str} {k : Int} (hk : 2 ≤ k) {files : List Bytes} (h : MakeSays lower upper text w argv .pattern k files)
    (hc : NoCollision env.md5 (accepted (urlsOf env false (chainLines files))))
    (hh : NoHashClash env.rt (UrlRow (urlsOf env false (chainLines files))))
    {gs : List (Opt × List Str)} (h' : CmdLine matchNames argv' gs) (hf : Fine upper w gs) (hp : lastOf gs .patterns = some [['-']])
    {names : List Str} (hn : lastOf gs .inputs = some names) (hd : ['-'] ∉ names) (hfiles : Contents w False names files) :
    ∃ (out : Bytes) (records : List Str) (res : Bytes → Bytes), makeProgram lower upper text env w argv = .prints out ∧ LinesOf out (printFile env records) ∧
      matchProgram upper env { w with stdin := out } argv' =
        .prints ((chainLines files).map (fun l => res (stripB l) ++ [9] ++ stripB l ++ [10])).flatten ∧
      ∀ l ∈ chainLines files, ∀ url m row, env.decode (stripB l) = some url → urlInfo url = some (m, row) →
        res (stripB l) ≠ [69] ∧ (res (stripB l) = [78] ∨ ∃ ts : List Str, ts ≠ [] ∧ (∀ t ∈ ts, t ∈ records ∧
            ∃ pats : List Str, t = pack m pats ∧ pats.length = row.length ∧
              ∀ (i : Nat) (q s : Str), pats[i]? = some q → row[i]? = some s → '\\' ∉ s → ReMatch q s) ∧
          ((∀ vs, (Opt.all, vs) ∉ gs) → ∃ t, ts = [t]) ∧ res (stripB l) = tabbed (ts.map env.encode)) := by
  obtain ⟨cs, hcs, hr, hres⟩ := C47_match env hu k hk (chainLines files) hc hh
  have hall : (gs.any (fun g => g.1 == .all)) = true ↔ ∃ vs, (Opt.all, vs) ∈ gs := by
    rw [List.any_eq_true]
    constructor
    · rintro ⟨g, hg, e⟩
      have e : g.1 = .all := by simpa using e
      exact ⟨g.2, e ▸ hg⟩
    · rintro ⟨vs, hm⟩
      exact ⟨_, hm, by simp⟩
  obtain ⟨res, hrun, hline⟩ := hres (gs.any (fun g => g.1 == .all))
  have hc' := noCollision_flip (loadsUrl .pattern) hc
  have hh' := hh
  rw [urlRow_flip false (loadsUrl .pattern)] at hh'
  obtain ⟨records, B, h1, h2, h3, h4, h5, _⟩ := record_no_nl hu hk (chainLines_isLine (files := files)) hc' hh'
  rw [hr] at h1
  cases h1
  have hl := linesOf_map env.encode (printedLines cs) h4
  have hprint : chainLines [printOut env (printedLines cs)] = printFile env (printedLines cs) := by
    simp only [chainLines, List.flatMap_cons, List.flatMap_nil, List.append_nil]
    exact (linesOf_unique hl).symm
  refine ⟨printOut env (printedLines cs), printedLines cs, res, make_says hup env h hr, hl, ?_, ?_⟩
  · have hf' : Fine upper { w with stdin := printOut env (printedLines cs) } gs := hf
    have c1 : Contents { w with stdin := printOut env (printedLines cs) } False [['-']] [printOut env (printedLines cs)] := by
      refine ⟨rfl, ?_⟩
      intro i n b hi hb
      cases i with
      | zero => simp at hi hb; subst hi; subst hb; exact .stdin (by simp)
      | succ i => simp at hi
    have c2 : Contents { w with stdin := printOut env (printedLines cs) } (['-'] ∈ [['-']]) ((lastOf gs .inputs).getD [['-']]) files := by
      rw [hn]
      refine ⟨hfiles.1, ?_⟩
      intro i n b hi hb
      have hm := List.mem_of_getElem? hi
      have := hfiles.2 i n b hi hb
      cases this with
      | file _ _ e1 e2 => exact .file _ _ e1 e2
      | stdin _ => exact absurd hm hd
      | again _ => exact absurd hm hd
    rw [C69_match upper env _ h' hf' hp c1 c2 hall]
    unfold matchMain
    rw [hprint, hrun]
  · intro l hlm url m row hdec hinfo
    obtain ⟨hs, ha, hk⟩ := urlInfo_iff.mp hinfo
    obtain ⟨row', ha', hpp⟩ := parse_pieces (parse_info.mpr ⟨row, hinfo, rfl⟩)
    rw [ha] at ha'
    cases ha'
    have hne : stripB l ≠ [] := by
      intro e
      have hb := hu.back []
      rw [hu.nil] at hb
      rw [e, hb] at hdec
      cases hdec
      have hnone : (urlInfo []).isSome = false := by decide +kernel
      rw [hinfo] at hnone
      cases hnone
    obtain ⟨_, _, _, _, _, _, _, _, ts, _, _, _, _, _, hts, _, h69, h78, hans⟩ := hline l hlm hne url m row _ hdec hs ha hpp
    refine ⟨h69, ?_⟩
    by_cases he : ts = []
    · exact .inl (h78 he)
    · right
      have := hans he
      by_cases hb : (gs.any (fun g => g.1 == .all)) = true
      · rw [if_pos hb] at this
        obtain ⟨vs, hvs⟩ := hall.mp hb
        exact ⟨ts, he, hts, fun h => absurd hvs (h vs), this⟩
      · rw [if_neg hb] at this
        obtain ⟨t, ht, e⟩ := this
        exact ⟨[t], by simp, by simpa using hts t ht, fun _ => ⟨t, rfl⟩, by simpa [tabbed] using e⟩

/-- Without `-c` the number is 3. -/
theorem C70_default {lower upper : Str → Str} (hl : IsLower lower) (text : Bytes → Str) (w : World) {argv : List Str} {gs : List (Opt × List Str)}
    (h : CmdLine makeNames argv gs) (hf : Fine upper w gs) (hc : lastOf gs .config = none) {f : Fmt}
    (hfmt : (lastOf gs .format = none ∧ f = .cluster) ∨ ∃ v, lastOf gs .format = some [v] ∧ (upper v, f) ∈ formatNames)
    {files : List Bytes} (hi : Contents w False ((lastOf gs .inputs).getD [['-']]) files) : MakeSays lower upper text w argv f 3 files := by
  obtain ⟨c, h1, h2⟩ := C68_default hl
  refine ⟨gs, none, c, h, hf, hfmt, .inl ⟨hc, rfl⟩, h1, h2, ?_⟩
  have e : (lastOf gs .config = some [['-']]) = False := by rw [hc]; simp
  rw [e]
  exact hi

/-! ### examples -/

namespace C70Ex

def disk : World where
  file := fun n => if n = c!"one" then some (asciiBytesM c!"http://h/p/1\n\nhttp://h/p/22")
    else if n = c!"two" then some (asciiBytesM c!"http://h/q?k=ab \nx\nhttp://h/a1b2-x1y2\nhttp://h/a1b2-z3w4\n")
    else if n = c!"my.cfg" then some (asciiBytesM c!"[make]\nmin_cluster_num = 2\n") else none
  stdin := []
  ete3 := false

def asciiText (b : Bytes) : Str := b.map (fun x => Char.ofNat x.toNat)

def makeWords : List Str := [c!"-i", c!"one", c!"two", c!"-c", c!"my.cfg", c!"--form=pattern"]
def matchWords : List Str := [c!"-p", c!"-", c!"-i", c!"one", c!"two"]

/-- The first program, -/
example : makeProgram asciiLower upperStr asciiText c47Env disk makeWords =
    .prints (asciiBytesM c!"/p/[0-9]+\n/q[\\?]k=ab\n/a1b2[\\-][0-9a-z]{4}\n") := by decide +kernel

/-- and the second with its output as input: four of the URLs are answered, two of them with `N` (C21), and the line `x` with `E`. -/
example : matchProgram upperStr c47Env { disk with stdin := asciiBytesM c!"/p/[0-9]+\n/q[\\?]k=ab\n/a1b2[\\-][0-9a-z]{4}\n" } matchWords =
    .prints (asciiBytesM (c!"/p/[0-9]+\thttp://h/p/1\nE\t\n/p/[0-9]+\thttp://h/p/22\n/q[\\?]k=ab\thttp://h/q?k=ab\nE\tx\n" ++
      c!"N\thttp://h/a1b2-x1y2\nN\thttp://h/a1b2-z3w4\n")) := by decide +kernel

/-- Without the configuration the two numbers are apart. -/
example : makeProgram asciiLower upperStr asciiText c47Env disk [c!"-i", c!"one", c!"-f", c!"inline"] =
    .prints (asciiBytesM c!"/p/1\thttp://h/p/1\n/p/22\thttp://h/p/22\n") := by decide +kernel

def diskFiles : List Bytes := [asciiBytesM c!"http://h/p/1\n\nhttp://h/p/22", asciiBytesM c!"http://h/q?k=ab \nx\nhttp://h/a1b2-x1y2\nhttp://h/a1b2-z3w4\n"]

theorem diskContents (used : Prop) : Contents disk used [c!"one", c!"two"] diskFiles := by
  refine ⟨rfl, ?_⟩
  intro i n b hi hb
  match i with
  | 0 => simp [diskFiles] at hi hb; subst hi; subst hb; exact .file _ _ (by decide) (by decide)
  | 1 => simp [diskFiles] at hi hb; subst hi; subst hb; exact .file _ _ (by decide) (by decide)
  | i + 2 => simp at hi

theorem makeWords_line : CmdLine makeNames makeWords [(.inputs, [c!"one", c!"two"]), (.config, [c!"my.cfg"]), (.format, [c!"pattern"])] := by
  refine .cons [c!"-i", c!"one", c!"two"] _ [_] _ (.apart _ _ _ (.short 'i' c!"inputs" _ (by decide)) (Or.inr (Or.inr ⟨Or.inl rfl, by decide⟩)) ?_) ?_
  · intro v hv
    simp at hv
    rcases hv with rfl | rfl <;> exact C69Ex.isArg_plain (by decide)
  refine .cons [c!"-c", c!"my.cfg"] _ [_] _ (.apart _ _ [c!"my.cfg"] (.short 'c' c!"config" _ (by decide))
    (Or.inr (Or.inl ⟨Or.inr (Or.inl rfl), by decide⟩)) (by intro v hv; simp at hv; subst hv; exact C69Ex.isArg_plain (by decide))) ?_
  exact .cons [c!"--form=pattern"] [] [_] [] (.equals c!"--form" _ c!"pattern" (.abbreviation 'f' c!"formatter" _ c!"form" (by decide) (by decide) (by decide))
    (by simp [Flag])) .nil

theorem makeWords_says : MakeSays asciiLower upperStr asciiText disk makeWords .pattern 2 diskFiles := by
  obtain ⟨c, h1, h2⟩ : ∃ c, commandConfig asciiLower (some c!"[make]\nmin_cluster_num = 2\n") = .ok c ∧ minClusterNum asciiLower c = .ok 2 := by
    cases h : commandConfig asciiLower (some c!"[make]\nmin_cluster_num = 2\n") with
    | error e =>
      have : (commandConfig asciiLower (some c!"[make]\nmin_cluster_num = 2\n")).toBool = true := by decide +kernel
      rw [h] at this
      cases this
    | ok c =>
      refine ⟨c, rfl, ?_⟩
      have : (commandConfig asciiLower (some c!"[make]\nmin_cluster_num = 2\n")).bind (minClusterNum asciiLower) = .ok 2 := by decide +kernel
      rw [h] at this
      exact this
  refine ⟨_, _, c, makeWords_line, ?_, .inr ⟨c!"pattern", by decide, by decide⟩, .inr ⟨c!"my.cfg", _, by decide, .file _ _ (by decide) rfl, rfl⟩,
    ?_, h2, diskContents _⟩
  · intro g hg
    simp only [List.mem_cons, List.not_mem_nil, or_false] at hg
    rcases hg with rfl | rfl | rfl <;> exact ⟨by unfold CanDo; decide +kernel, by decide, by decide⟩
  · rw [← h1]
    exact congrArg (fun t => commandConfig asciiLower (some t)) (by decide +kernel)

theorem matchWords_line : CmdLine matchNames matchWords [(.patterns, [c!"-"]), (.inputs, [c!"one", c!"two"])] := by
  refine .cons [c!"-p", c!"-"] _ [_] _ (.apart _ _ [c!"-"] (.short 'p' c!"pattern-files" _ (by decide)) (Or.inr (Or.inr ⟨Or.inr rfl, by decide⟩))
      (by intro v hv; simp at hv; subst hv; exact Or.inr (Or.inl rfl))) ?_
  refine .cons [c!"-i", c!"one", c!"two"] [] [_] [] (.apart _ _ _ (.short 'i' c!"inputs" _ (by decide)) (Or.inr (Or.inr ⟨Or.inl rfl, by decide⟩)) ?_) .nil
  intro v hv
  simp at hv
  rcases hv with rfl | rfl <;> exact C69Ex.isArg_plain (by decide)

/-- The theorem for these two command lines and real UTF-8. -/
example : ∃ (out : Bytes) (records : List Str) (res : Bytes → Bytes),
    makeProgram asciiLower upperStr asciiText (utf8Env id codeHash) disk makeWords = .prints out ∧ LinesOf out (printFile (utf8Env id codeHash) records) ∧
    matchProgram upperStr (utf8Env id codeHash) { disk with stdin := out } matchWords =
      .prints ((chainLines diskFiles).map (fun l => res (stripB l) ++ [9] ++ stripB l ++ [10])).flatten := by
  obtain ⟨out, records, res, h1, h2, h3, _⟩ := C70_pipe (by decide) asciiText (utf8Env id codeHash) (utf8_strict id codeHash) disk (Int.le_refl 2)
    makeWords_says (id_ok _) (codeHash_ok _) matchWords_line
    (by
      intro g hg
      simp only [List.mem_cons, List.not_mem_nil, or_false] at hg
      rcases hg with rfl | rfl <;> exact ⟨by unfold CanDo; decide +kernel, by decide, by decide⟩)
    (by decide) (names := [c!"one", c!"two"]) (by decide) (by decide) (diskContents _)
  exact ⟨out, records, res, h1, h2, h3⟩

end C70Ex

end OsUrl
