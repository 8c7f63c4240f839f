import Verif.Proofs.ArgLine
import Verif.Props.C68

/-!
# C69: the command line

Which command lines `pattern-make` and `pattern-match` accept, what they mean, and the exit status otherwise.
-/

namespace OsUrl
open Spec

theorem commands_table {x : OptTable × Bool × OptNames} (h : x ∈ commands) : x.1 = optTable x.2.2 ∧ NamesOK x.2.2 := by
  simp only [commands, List.mem_cons, List.not_mem_nil, or_false] at h
  rcases h with rfl | rfl
  · exact ⟨make_table, makeNames_ok⟩
  · exact ⟨match_table, matchNames_ok⟩

/-- A command line says one thing at most. -/
theorem C69_unique {T : OptTable} {required : Bool} {F : OptNames} (hc : (T, required, F) ∈ commands) {argv : List Str} {gs hs : List (Opt × List Str)}
    (h1 : CmdLine F argv gs) (h2 : CmdLine F argv hs) : gs = hs := line_unique (commands_table hc).2 h1 h2

/-- A command line as in the grammar, of which everything can be done, is accepted; of several values of an option the last one counts. -/
theorem C69_line {T : OptTable} {required : Bool} {F : OptNames} (hc : (T, required, F) ∈ commands) (upper : Str → Str) (w : World)
    {argv : List Str} {gs : List (Opt × List Str)} (h : CmdLine F argv gs) (hf : Fine upper w gs)
    (hp : required = true → ∃ vs, (Opt.patterns, vs) ∈ gs) :
    ∃ a, parseArgs T required upper w argv = .ok a ∧
      a.inputs = (lastOf gs .inputs).getD [['-']] ∧ a.patterns = lastOf gs .patterns ∧ a.config = (lastOf gs .config).bind List.head? ∧
      a.level = ((lastOf gs .loglevel).bind List.head?).map upper ∧ a.format = ((lastOf gs .format).bind List.head?).map upper ∧
      (a.all = true ↔ ∃ vs, (Opt.all, vs) ∈ gs) := by
  obtain ⟨ht, hF⟩ := commands_table hc
  simp only at ht hF
  subst ht
  have some_of : ∀ {o : Opt}, (lastOf gs o).isSome = true ↔ ∃ vs, (o, vs) ∈ gs := by
    intro o
    unfold lastOf
    rw [Option.isSome_map]
    constructor
    · intro h
      obtain ⟨g, hg⟩ := Option.isSome_iff_exists.mp h
      have := List.mem_of_getLast? hg
      rw [List.mem_filter] at this
      have e : g.1 = o := by simpa using this.2
      exact ⟨g.2, e ▸ this.1⟩
    · rintro ⟨vs, hm⟩
      cases hl : (gs.filter (fun g => g.1 == o)).getLast? with
      | some x => rfl
      | none =>
        rw [List.getLast?_eq_none_iff] at hl
        have : (o, vs) ∈ gs.filter (fun g => g.1 == o) := List.mem_filter.mpr ⟨hm, by simp⟩
        rw [hl] at this; cases this
  obtain ⟨h1, h2, h3, h4, h5, h6⟩ := fold_acted upper gs {}
  refine ⟨gs.foldl (acted upper) {}, ?_, h1, ?_, ?_, ?_, ?_, ?_⟩
  · rw [parse_line hF h, fold_fine (line_count h) hf]
    simp only [Except.bind]
    rw [if_neg]
    rw [h2]
    cases required with
    | false => simp
    | true =>
      have := some_of.mpr (hp rfl)
      obtain ⟨x, hx⟩ := Option.isSome_iff_exists.mp this
      rw [hx]
      simp
  · rw [h2]; cases lastOf gs .patterns <;> rfl
  · rw [h3]; cases lastOf gs .config <;> rfl
  · rw [h4]; cases lastOf gs .loglevel <;> rfl
  · rw [h5]; cases lastOf gs .format <;> rfl
  · rw [h6, ← some_of]; simp

/-- The first thing on the line that asks for the help or the version, or cannot be done, ends the command: with status 0 or 2. -/
theorem C69_stop {T : OptTable} {required : Bool} {F : OptNames} (hc : (T, required, F) ∈ commands) (upper : Str → Str) (w : World)
    {argv : List Str} {gs hs : List (Opt × List Str)} {g : Opt × List Str} (h : CmdLine F argv (gs ++ g :: hs)) (hf : Fine upper w gs) :
    (g.1 = .help ∨ g.1 = .version → parseArgs T required upper w argv = .error 0) ∧
    (¬ CanDo upper w g → parseArgs T required upper w argv = .error 2) := by
  obtain ⟨ht, hF⟩ := commands_table hc
  simp only at ht hF
  subst ht
  have hcount := line_count h
  have stop : ∀ {n}, (∀ a, takeAction upper w a g = .error n) → parseArgs (optTable F) required upper w argv = .error n := by
    intro n hg
    rw [parse_line hF h, fold_stop (fun g hg => hcount g (List.mem_append_left _ hg)) hf hg]
    rfl
  refine ⟨?_, ?_⟩
  · intro hg
    apply stop
    intro a
    unfold takeAction
    rcases hg with hg | hg <;> rw [hg]
  · intro hg
    exact stop (fun a => action_bad (hcount g (by simp)) a hg)

/-- `pattern-match` without `-p`. -/
theorem C69_required (upper : Str → Str) (w : World) {argv : List Str} {gs : List (Opt × List Str)} (h : CmdLine matchNames argv gs)
    (hf : Fine upper w gs) (hp : ∀ vs, (Opt.patterns, vs) ∉ gs) : parseArgs matchOptions true upper w argv = .error 2 := by
  rw [match_table, parse_line matchNames_ok h, fold_fine (line_count h) hf]
  simp only [Except.bind]
  rw [if_pos]
  have := (fold_acted upper gs {}).2.1
  simp only at this
  rw [this]
  have hn : lastOf gs .patterns = none := by
    unfold lastOf
    rw [List.filter_eq_nil_iff.mpr]
    · rfl
    · intro g hg e
      have e : g.1 = .patterns := by simpa using e
      exact hp g.2 (e ▸ hg)
  rw [hn]
  rfl

/-- Nothing else is accepted, and the exit status is 0 or 2. -/
theorem C69_only {T : OptTable} {required : Bool} {F : OptNames} (hc : (T, required, F) ∈ commands) (upper : Str → Str) (w : World) (argv : List Str) :
    (∀ a, parseArgs T required upper w argv = .ok a →
      ∃ gs, CmdLine F argv gs ∧ Fine upper w gs ∧ (required = true → ∃ vs, (Opt.patterns, vs) ∈ gs)) ∧
    (∀ n, parseArgs T required upper w argv = .error n → n = 0 ∨ n = 2) := by
  obtain ⟨ht, hF⟩ := commands_table hc
  simp only at ht hF
  subst ht
  refine ⟨?_, fun n hn => parse_exit hn⟩
  intro a ha
  obtain ⟨gs, h1, h2, h3⟩ := line_of_parse hF ha
  refine ⟨gs, h1, h2, fun hr => ?_⟩
  obtain ⟨x, hx⟩ := Option.isSome_iff_exists.mp (h3 hr)
  unfold lastOf at hx
  cases hl : (gs.filter (fun g => g.1 == Opt.patterns)).getLast? with
  | none => rw [hl] at hx; cases hx
  | some g =>
    have := List.mem_of_getLast? hl
    rw [List.mem_filter] at this
    have e : g.1 = .patterns := by simpa using this.2
    exact ⟨g.2, e ▸ this.1⟩

/-- `--` is never accepted. -/
theorem C69_dashes {T : OptTable} {required : Bool} {F : OptNames} (hc : (T, required, F) ∈ commands) (upper : Str → Str) (w : World) (argv : List Str)
    (h : c!"--" ∈ argv) : ∃ n, parseArgs T required upper w argv = .error n := by
  cases hp : parseArgs T required upper w argv with
  | error n => exact ⟨n, rfl⟩
  | ok a =>
    obtain ⟨gs, h1, _⟩ := (C69_only hc upper w argv).1 a hp
    exact absurd h (line_no_dashes (commands_table hc).2 h1)

theorem format_fmt (b : Bool) (v : Str) (f : Fmt) (h : (v, f) ∈ formatNames) : ((formatters b).bind (Dict.get? v)).bind FmtCls.fmt = some f := by
  simp only [formatNames, List.mem_cons, List.not_mem_nil, or_false, Prod.mk.injEq] at h
  rcases h with ⟨rfl, rfl⟩ | ⟨rfl, rfl⟩ | ⟨rfl, rfl⟩ | ⟨rfl, rfl⟩ | ⟨rfl, rfl⟩ <;> revert b <;> decide +kernel

theorem mem_of_lastOf {gs : List (Opt × List Str)} {o : Opt} {vs : List Str} (h : lastOf gs o = some vs) : (o, vs) ∈ gs := by
  unfold lastOf at h
  cases hl : (gs.filter (fun g => g.1 == o)).getLast? with
  | none => rw [hl] at h; cases h
  | some g =>
    rw [hl] at h
    cases h
    have := List.mem_of_getLast? hl
    rw [List.mem_filter] at this
    have e : g.1 = o := by simpa using this.2
    exact e ▸ this.1

/-- The inputs can be opened. -/
theorem inputs_open {upper : Str → Str} {w : World} {gs : List (Opt × List Str)} (hf : Fine upper w gs) :
    ∀ n ∈ (lastOf gs .inputs).getD [['-']], n = ['-'] ∨ (w.file n).isSome = true := by
  intro n hn
  cases hl : lastOf gs .inputs with
  | none => rw [hl] at hn; simp at hn; exact Or.inl hn
  | some vs =>
    rw [hl] at hn
    exact (hf _ (mem_of_lastOf hl)).1 n hn

/-- `pattern-make`: the command is the one of C68, with the format, the configuration file and the files of the command line.  The
configuration file is read before the inputs; what is read from standard input by then is not there any more. -/
theorem C69_make {lower upper : Str → Str} (hu : upper c!"CLUSTER" = c!"CLUSTER") (text : Bytes → Str) (env : Env) (w : World) {argv : List Str}
    {gs : List (Opt × List Str)} (h : CmdLine makeNames argv gs) (hf : Fine upper w gs) {f : Fmt}
    (hfmt : (lastOf gs .format = none ∧ f = .cluster) ∨ ∃ v, lastOf gs .format = some [v] ∧ (upper v, f) ∈ formatNames)
    {cfg : Option Str} (hcfg : (lastOf gs .config = none ∧ cfg = none) ∨
      ∃ n b, lastOf gs .config = some [n] ∧ Content w False n b ∧ cfg = some (text b))
    {files : List Bytes} (hfiles : Contents w (lastOf gs .config = some [['-']]) ((lastOf gs .inputs).getD [['-']]) files) :
    makeProgram lower upper text env w argv = match makeCommand lower env cfg f files with
      | .error e => .fails e
      | .ok out => .prints out := by
  obtain ⟨a, h1, h2, _, h3, _, h4, _⟩ := C69_line (T := makeOptions) (required := false) (by simp [commands]) upper w h hf (by simp)
  unfold makeProgram
  rw [h1]
  simp only
  have e1 : ((formatters w.ete3).bind (Dict.get? (a.format.getD (upper c!"CLUSTER")))).bind FmtCls.fmt = some f := by
    apply format_fmt
    rcases hfmt with ⟨h5, rfl⟩ | ⟨v, h5, h6⟩
    · rw [h4, h5]; simp [hu, formatNames]
    · rw [h4, h5]; exact h6
  have e2 : a.config.map (fun n => text ((w.read false [n]).headD [])) = cfg := by
    rcases hcfg with ⟨h5, rfl⟩ | ⟨n, b, h5, h6, rfl⟩
    · rw [h3, h5]; rfl
    · rw [h3, h5]
      simp only [Option.bind_some, List.head?_cons, Option.map_some, Option.some.injEq]
      congr 1
      cases h6 with
      | file _ _ h7 h8 => simp only [World.read, if_neg h7, h8]; rfl
      | stdin _ => rfl
      | again h7 => exact h7.elim
  have e3 : w.read (a.config == some c!"-") a.inputs = files := by
    rw [h2]
    refine contents_unique (read_contents (inputs_open hf)) ?_
    have : ((a.config == some c!"-") = true) = (lastOf gs .config = some [['-']]) := by
      rw [h3, beq_iff_eq]
      rcases hcfg with ⟨h5, rfl⟩ | ⟨n, b, h5, h6, rfl⟩ <;> rw [h5] <;> simp
    rw [this]
    exact hfiles
  rw [e1, e2, e3]
  simp only
  cases makeCommand lower env cfg f files <;> rfl

/-- `ETE` is accepted only with ete3, and goes another way (C30). -/
theorem C69_ete (lower : Str → Str) {upper : Str → Str} (text : Bytes → Str) (env : Env) (w : World) {argv : List Str}
    {gs : List (Opt × List Str)} (h : CmdLine makeNames argv gs) (hf : Fine upper w gs) {v : Str} (hv : lastOf gs .format = some [v]) (he : upper v = c!"ETE") :
    w.ete3 = true ∧ makeProgram lower upper text env w argv = .ete := by
  obtain ⟨a, h1, h2, _, h3, _, h4, _⟩ := C69_line (T := makeOptions) (required := false) (by simp [commands]) upper w h hf (by simp)
  have hm : upper v ∈ formats w.ete3 := (hf _ (mem_of_lastOf hv)).1 v (by simp)
  refine ⟨?_, ?_⟩
  · rw [he] at hm
    cases hw : w.ete3 with
    | true => rfl
    | false => rw [hw] at hm; revert hm; decide
  · unfold makeProgram
    rw [h1]
    have : a.format.getD (upper c!"CLUSTER") = c!"ETE" := by rw [h4, hv]; exact he
    simp only [this]
    have : ∀ b, ((formatters b).bind (Dict.get? c!"ETE")).bind FmtCls.fmt = none := by decide +kernel
    rw [this]

/-- `pattern-match`: the command of C36, with the pattern files and the inputs of the command line; the pattern files are read first. -/
theorem C69_match (upper : Str → Str) (env : Env) (w : World) {argv : List Str} {gs : List (Opt × List Str)} (h : CmdLine matchNames argv gs)
    (hf : Fine upper w gs) {ps : List Str} (hp : lastOf gs .patterns = some ps) {pats files : List Bytes} (hpats : Contents w False ps pats)
    (hfiles : Contents w (['-'] ∈ ps) ((lastOf gs .inputs).getD [['-']]) files) {all : Bool} (ha : all = true ↔ ∃ vs, (Opt.all, vs) ∈ gs) :
    matchProgram upper env w argv = .prints (matchMain env all pats files) := by
  obtain ⟨a, h1, h2, h3, _, _, _, h4⟩ := C69_line (T := matchOptions) (required := true) (by simp [commands]) upper w h hf (fun _ => ⟨_, mem_of_lastOf hp⟩)
  unfold matchProgram
  rw [h1]
  simp only
  rw [h3, hp]
  simp only [Option.getD_some]
  have e1 : w.read false ps = pats := by
    have := read_contents (w := w) (used := false) (ns := ps) ((hf _ (mem_of_lastOf hp)).1)
    simp only [Bool.false_eq_true] at this
    exact contents_unique this hpats
  have e2 : w.read (ps.contains c!"-") a.inputs = files := by
    rw [h2]
    refine contents_unique (read_contents (inputs_open hf)) ?_
    have : ((ps.contains c!"-") = true) = (['-'] ∈ ps) := by rw [List.contains_iff_mem]
    rw [this]
    exact hfiles
  have e3 : a.all = all := by
    rw [Bool.eq_iff_iff, h4, ha]
  rw [e1, e2, e3]

/-- Whatever `makeProgram` and `matchProgram` do with a command line that is not accepted, it is an exit. -/
theorem C69_exit (lower upper : Str → Str) (text : Bytes → Str) (env : Env) (w : World) (argv : List Str) :
    (∀ n, makeProgram lower upper text env w argv = .exit n ↔ parseArgs makeOptions false upper w argv = .error n) ∧
    (∀ n, matchProgram upper env w argv = .exit n ↔ parseArgs matchOptions true upper w argv = .error n) := by
  refine ⟨fun n => ?_, fun n => ?_⟩
  · unfold makeProgram
    cases parseArgs makeOptions false upper w argv with
    | error m => simp
    | ok a =>
      simp only [reduceCtorEq, iff_false]
      cases ((formatters w.ete3).bind (Dict.get? (a.format.getD (upper c!"CLUSTER")))).bind FmtCls.fmt with
      | none => simp
      | some f =>
        simp only
        cases makeCommand lower env (a.config.map (fun n => text ((w.read false [n]).headD []))) f (w.read (a.config == some c!"-") a.inputs) <;> simp
  · unfold matchProgram
    cases parseArgs matchOptions true upper w argv with
    | error m => simp
    | ok a => simp

/-- Patterns from standard input leave nothing for the inputs: `pattern-match -p -` without `-i` prints nothing, whatever standard input is. -/
theorem C69_stdin (upper : Str → Str) (env : Env) (w : World) {argv : List Str} {gs : List (Opt × List Str)} (h : CmdLine matchNames argv gs)
    (hf : Fine upper w gs) {ps : List Str} (hp : lastOf gs .patterns = some ps) (hd : ['-'] ∈ ps)
    (hi : ∀ vs, lastOf gs .inputs = some vs → ∀ v ∈ vs, v = ['-']) : matchProgram upper env w argv = .prints [] := by
  have hpats := read_contents (w := w) (used := false) (ns := ps) ((hf _ (mem_of_lastOf hp)).1)
  simp only [Bool.false_eq_true] at hpats
  have hall : ∀ n ∈ (lastOf gs .inputs).getD [['-']], n = ['-'] := by
    cases hl : lastOf gs .inputs with
    | none => simp
    | some vs => exact hi vs hl
  have hfiles : Contents w (['-'] ∈ ps) ((lastOf gs .inputs).getD [['-']]) (((lastOf gs .inputs).getD [['-']]).map (fun _ => [])) := by
    refine ⟨by simp, ?_⟩
    intro i n b hn hb
    rw [List.getElem?_map, hn] at hb
    cases hb
    have := hall n (List.mem_of_getElem? hn)
    subst this
    exact .again (Or.inl hd)
  rw [C69_match upper env w h hf hp hpats hfiles (all := (gs.any (fun g => g.1 == .all))) (by
    rw [List.any_eq_true]
    constructor
    · rintro ⟨g, hg, e⟩
      have e : g.1 = .all := by simpa using e
      exact ⟨g.2, e ▸ hg⟩
    · rintro ⟨vs, hm⟩
      exact ⟨_, hm, by simp⟩)]
  congr 1
  unfold matchMain matchRun
  have : chainLines (((lastOf gs .inputs).getD [['-']]).map (fun _ => [])) = [] := by
    unfold chainLines
    rw [List.flatMap_map]
    rw [List.flatMap_eq_nil_iff]
    intro x _
    rfl
  rw [this]
  rfl

/-! ### Examples -/

namespace C69Ex

/-- Files `a`, `b`, `c.cfg`, `-5` and `my file`. -/
def world : World where
  file := fun n => if n ∈ [c!"a", c!"b", c!"-5", c!"-my file"] then some [47, 10] else if n = c!"c.cfg" then some [] else none
  stdin := [47]
  ete3 := false

def makeLine1 : List Str := [c!"-i", c!"a", c!"-", c!"--form", c!"json", c!"-lDebug", c!"-c=c.cfg", c!"--in=b", c!"-l", c!"Fatal", c!"-i", c!"-5", c!"-my file"]

def makeSays1 : List (Opt × List Str) :=
  [(.inputs, [c!"a", c!"-"]), (.format, [c!"json"]), (.loglevel, [c!"Debug"]), (.config, [c!"c.cfg"]), (.inputs, [c!"b"]), (.loglevel, [c!"Fatal"]),
   (.inputs, [c!"-5", c!"-my file"])]

theorem isArg_plain {F : OptNames} {w : Str} (h : w.head? ≠ some '-') : IsArg F w := Or.inl h

/-- A line with all the ways to write an option. -/
theorem makeLine1_says : CmdLine makeNames makeLine1 makeSays1 := by
  refine .cons [c!"-i", c!"a", c!"-"] _ [_] _ (.apart _ _ _ (.short 'i' c!"inputs" _ (by decide)) (Or.inr (Or.inr ⟨Or.inl rfl, by decide⟩)) ?_) ?_
  · intro v hv
    simp at hv
    rcases hv with rfl | rfl
    · exact isArg_plain (by decide)
    · exact Or.inr (Or.inl rfl)
  refine .cons [c!"--form", c!"json"] _ [_] _ (.apart _ _ [c!"json"] (.abbreviation 'f' c!"formatter" _ c!"form" (by decide) (by decide) (by decide))
    (Or.inr (Or.inl ⟨Or.inr (Or.inr rfl), by decide⟩)) (by intro v hv; simp at hv; subst hv; exact isArg_plain (by decide))) ?_
  refine .cons [c!"-lDebug"] _ [_] _ (.glued 'l' c!"loglevel" _ c!"Debug" (by decide) (by simp [Flag]) (by decide) (by decide)) ?_
  refine .cons [c!"-c=c.cfg"] _ [_] _ (.equals c!"-c" _ c!"c.cfg" (.short 'c' c!"config" _ (by decide)) (by simp [Flag])) ?_
  refine .cons [c!"--in=b"] _ [_] _ (.equals c!"--in" _ c!"b" (.abbreviation 'i' c!"inputs" _ c!"in" (by decide) (by decide) (by decide)) (by simp [Flag])) ?_
  refine .cons [c!"-l", c!"Fatal"] _ [_] _ (.apart _ _ [c!"Fatal"] (.short 'l' c!"loglevel" _ (by decide))
    (Or.inr (Or.inl ⟨Or.inl rfl, by decide⟩)) (by intro v hv; simp at hv; subst hv; exact isArg_plain (by decide))) ?_
  refine .cons [c!"-i", c!"-5", c!"-my file"] [] [_] [] (.apart _ _ _ (.short 'i' c!"inputs" _ (by decide)) (Or.inr (Or.inr ⟨Or.inl rfl, by decide⟩)) ?_) .nil
  intro v hv
  simp at hv
  rcases hv with rfl | rfl
  · exact Or.inr (Or.inr ⟨Or.inl ((looksNegative_iff _).mp (by decide +kernel)), by unfold NoOption; decide⟩)
  · exact Or.inr (Or.inr ⟨Or.inr (by decide), by unfold NoOption; decide⟩)

theorem makeSays1_fine : Fine upperStr world makeSays1 := by
  intro g hg
  simp only [makeSays1, List.mem_cons, List.not_mem_nil, or_false] at hg
  rcases hg with rfl | rfl | rfl | rfl | rfl | rfl | rfl <;> exact ⟨by unfold CanDo; decide +kernel, by decide, by decide⟩

example : parseArgs makeOptions false upperStr world makeLine1 =
    .ok { inputs := [c!"-5", c!"-my file"], level := some c!"FATAL", config := some c!"c.cfg", format := some c!"JSON" } := by decide +kernel

example : ∃ a, parseArgs makeOptions false upperStr world makeLine1 = .ok a ∧ a.inputs = [c!"-5", c!"-my file"] ∧ a.format = some c!"JSON" := by
  obtain ⟨a, h1, h2, _, _, _, h3, _⟩ := C69_line (T := makeOptions) (required := false) (F := makeNames) (by simp [commands]) upperStr world
    makeLine1_says makeSays1_fine (by simp)
  exact ⟨a, h1, h2.trans (by decide), h3.trans (by decide)⟩

/-- Flags in one word with the option that follows. -/
theorem matchLine1_says : CmdLine matchNames [c!"-ap", c!"a", c!"-i", c!"b"] [(.all, []), (.patterns, [c!"a"]), (.inputs, [c!"b"])] := by
  refine .cons [c!"-ap", c!"a"] _ [_, _] _ (.flag 'a' c!"all-matched" _ c!"p" _ [_] (by decide) (by simp [Flag]) (by decide)
    (.apart c!"-p" _ [c!"a"] (.short 'p' c!"pattern-files" _ (by decide)) (Or.inr (Or.inr ⟨Or.inr rfl, by decide⟩))
      (by intro v hv; simp at hv; subst hv; exact isArg_plain (by decide)))) ?_
  exact .cons [c!"-i", c!"b"] [] [_] [] (.apart _ _ [c!"b"] (.short 'i' c!"inputs" _ (by decide)) (Or.inr (Or.inr ⟨Or.inl rfl, by decide⟩))
    (by intro v hv; simp at hv; subst hv; exact isArg_plain (by decide))) .nil

example : parseArgs matchOptions true upperStr world [c!"-ap", c!"a", c!"-i", c!"b"] =
    .ok { inputs := [c!"b"], patterns := some [c!"a"], all := true } := by decide +kernel

/-- A file is read for every `-i`, standard input once. -/
example : Contents world False [c!"a", c!"-", c!"-"] [[47, 10], [47], []] := by
  have := read_contents (w := world) (used := false) (ns := [c!"a", c!"-", c!"-"]) (by decide +kernel)
  simp only [Bool.false_eq_true] at this
  exact this

/-- `pattern-match -p -` prints nothing though there are lines in standard input. -/
example (env : Env) : matchProgram upperStr env world [c!"-p", c!"-"] = .prints [] := by
  refine C69_stdin upperStr env world (gs := [(.patterns, [c!"-"])]) (ps := [c!"-"]) ?_ ?_ (by decide) (by decide) (by decide)
  · exact .cons [c!"-p", c!"-"] [] [_] [] (.apart _ _ [c!"-"] (.short 'p' c!"pattern-files" _ (by decide)) (Or.inr (Or.inr ⟨Or.inr rfl, by decide⟩))
      (by intro v hv; simp at hv; subst hv; exact Or.inr (Or.inl rfl))) .nil
  · intro g hg
    simp at hg
    subst hg
    exact ⟨by unfold CanDo; decide, by decide, by decide⟩

/-- Help wins over what comes later; a missing file, level or format, a word that belongs to no option, `--`, a missing or a superfluous
argument, and a missing `-p` are usage errors. -/
example : [[c!"-vf", c!"xml"], [c!"-f", c!"xml", c!"-h"], [c!"-i", c!"nofile"], [c!"-l", c!"TRACE"], [c!"-f", c!"ete"], [c!"a"],
    [c!"-i", c!"a", c!"--"], [c!"-i"], [c!"-c", c!"a", c!"b"], [c!"--help=a"]].map (parseArgs makeOptions false upperStr world) =
    [.error 0, .error 2, .error 2, .error 2, .error 2, .error 2, .error 2, .error 2, .error 2, .error 2] := by decide +kernel

example : [[c!"-i", c!"a"], [c!"-p", c!"a", c!"--pat", c!"b", c!"--all"], [c!"-p", c!"a", c!"-f", c!"json"]].map
    (parseArgs matchOptions true upperStr world) = [.error 2, .ok { patterns := some [c!"b"], all := true }, .error 2] := by decide +kernel

end C69Ex

end OsUrl
