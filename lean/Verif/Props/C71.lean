import Verif.Model.NewPython
import Verif.Props.C47

/-! # C71: the program on newer versions of Python -/

namespace OsUrl

/-- Nothing is removed from such a URL. -/
def Spec.NothingRemoved (u : Str) : Prop := (∀ c ∈ u, c ≠ '\t' ∧ c ≠ '\r' ∧ c ≠ '\n') ∧ ∀ c, u.head? = some c → 32 < c.toNat

/-- The URL without its leading control characters and blanks, and without tabs, CR and LF. -/
def Spec.Removed (u v : Str) : Prop :=
  ∃ a b, u = a ++ b ∧ (∀ c ∈ a, c.toNat ≤ 32) ∧ (∀ c, b.head? = some c → 32 < c.toNat) ∧
    v = b.filter (fun c => decide (c ≠ '\t' ∧ c ≠ '\r' ∧ c ≠ '\n'))

/-- Newer versions reject the host. -/
def Spec.HostRejected (bad : Str → Bool) (u : Str) : Prop := ∃ r, urlparse u = .ok r ∧ bad r.netloc = true

open Spec

theorem removedC_iff (c : Char) : (!removedC c) = decide (c ≠ '\t' ∧ c ≠ '\r' ∧ c ≠ '\n') := by
  unfold removedC
  by_cases h1 : c = '\t'
  · subst h1; decide
  · by_cases h2 : c = '\r'
    · subst h2; decide
    · by_cases h3 : c = '\n'
      · subst h3; decide
      · simp [h1, h2, h3]

theorem dropWhile_removed (a b : Str) (ha : ∀ c ∈ a, c.toNat ≤ 32) (hb : ∀ c, b.head? = some c → 32 < c.toNat) :
    (a ++ b).dropWhile leadingC = b := by
  induction a with
  | nil =>
    cases b with
    | nil => rfl
    | cons c b =>
      have : leadingC c = false := by simp [leadingC]; exact hb c rfl
      simp [this]
  | cons c a ih =>
    have : leadingC c = true := by simp [leadingC]; exact ha c (by simp)
    rw [List.cons_append, List.dropWhile_cons_of_pos this]
    exact ih (fun d hd => ha d (by simp [hd]))

/-- What is removed. -/
theorem C71_removed (u v : Str) : Removed u v ↔ v = cleanUrl u := by
  constructor
  · rintro ⟨a, b, rfl, ha, hb, rfl⟩
    unfold cleanUrl
    rw [dropWhile_removed a b ha hb]
    exact List.filter_congr (fun c _ => (removedC_iff c).symm)
  · rintro rfl
    refine ⟨u.takeWhile leadingC, u.dropWhile leadingC, (List.takeWhile_append_dropWhile).symm, ?_, ?_, ?_⟩
    · intro c hc
      have := List.all_takeWhile (p := leadingC) (l := u)
      rw [List.all_eq_true] at this
      simpa [leadingC] using this c hc
    · intro c hc
      have := List.head?_dropWhile_not leadingC u
      rw [hc] at this
      simpa [leadingC] using this
    · unfold cleanUrl
      exact List.filter_congr (fun c _ => removedC_iff c)

theorem clean_plain {u : Str} (h : NothingRemoved u) : cleanUrl u = u := by
  symm
  rw [← C71_removed]
  refine ⟨[], u, rfl, by simp, h.2, ?_⟩
  symm
  rw [List.filter_eq_self]
  intro c hc
  simpa using h.1 c hc

/-- The two versions of `parse_url` differ in `urlparse` only. -/
theorem parseUrlNew_plain (bad : Str → Bool) {u : Str} (h : NothingRemoved u) :
    (HostRejected bad u → parseUrlNew bad u = .error .valueError) ∧ (¬ HostRejected bad u → parseUrlNew bad u = parseUrl u) := by
  unfold parseUrlNew parseUrl urlparseNew HostRejected
  rw [clean_plain h]
  cases hr : urlparse u with
  | error e => exact ⟨fun ⟨r, h, _⟩ => (by cases h), fun _ => rfl⟩
  | ok r =>
    cases hb : bad r.netloc with
    | true =>
      refine ⟨fun _ => ?_, fun hn => absurd ⟨r, rfl, hb⟩ hn⟩
      simp [bind, Except.bind, hb]
    | false =>
      refine ⟨fun ⟨r', h, h'⟩ => (by cases h; rw [hb] at h'; cases h'), fun _ => ?_⟩
      simp only [bind, Except.bind, hb]
      rfl

/-- **C71**: a URL from which nothing is removed is read as before, or its host is rejected. -/
theorem C71_same (bad : Str → Bool) (u : Str) (h : NothingRemoved u) (hs : u.head? ≠ some '/') :
    (HostRejected bad u → parseNew bad u = .error .valueError) ∧ (¬ HostRejected bad u → parseNew bad u = parse u) := by
  have hs' : startsWith ['/'] u = false := by
    cases u with
    | nil => rfl
    | cons c u =>
      have : c ≠ '/' := by simpa using hs
      simp [startsWith, List.isPrefixOf, Ne.symm this]
  obtain ⟨h1, h2⟩ := parseUrlNew_plain bad h
  unfold parseNew parse analyzeUrlNew analyzeUrl
  rw [hs']
  constructor
  · intro hr
    rw [h1 hr]
    rfl
  · intro hr
    rw [h2 hr]
    rfl

/-- **C71**: a string that begins with a slash is a pattern, and is read as before. -/
theorem C71_pattern (bad : Str → Bool) (s : Str) (h : s.head? = some '/') : parseNew bad s = parse s := by
  have : startsWith ['/'] s = true := by
    cases s with
    | nil => cases h
    | cons c s => simp at h; subst h; rfl
  unfold parseNew
  rw [if_pos this]


/-! ### URLs from which something is removed -/

theorem pyIndex_end (a w b : Str) (k : Nat) (h1 : 1 ≤ k) (hk : k ≤ b.length) : pyIndex (a ++ b) (-(k : Int)) = pyIndex (w ++ b) (-(k : Int)) := by
  have key : ∀ x : Str, pyIndex (x ++ b) (-(k : Int)) = (match b[b.length - k]? with | some c => .ok c | none => .error .indexError) := by
    intro x
    unfold pyIndex
    have e : (if -(k : Int) < 0 then -(k : Int) + (x ++ b).length else -(k : Int)) = ((x.length + (b.length - k) : Nat) : Int) := by
      rw [if_pos (by omega), List.length_append]; omega
    simp only [e]
    rw [if_neg (by omega), Int.toNat_natCast, List.getElem?_append_right (by omega)]
    rw [show x.length + (b.length - k) - x.length = b.length - k by omega]
    cases b[b.length - k]? <;> rfl
  rw [key a, key w]

theorem pyIndex_wrap (s : Str) (i : Int) (h : i < s.length) (h0 : 0 ≤ i) : pyIndex s i = pyIndex s (i - s.length) := by
  unfold pyIndex
  have e1 : (if i < 0 then i + s.length else i) = i := if_neg (by omega)
  have e2 : (if i - (s.length : Int) < 0 then i - (s.length : Int) + s.length else i - (s.length : Int)) = i := by rw [if_pos (by omega)]; omega
  simp only [e1, e2]

/-- **C71**: let `b` be the end of the URL, from before its first `#` on (or at least its last character), and let nothing in `b` be removed.
Then the newer version reads the URL as the older one reads the cleaned URL, or its host is rejected. -/
theorem C71_cleaned (bad : Str → Bool) (a b v : Str) (hv : Removed (a ++ b) v) (hb : NothingRemoved b) (hne : b ≠ []) (ha : '#' ∉ a)
    (hh : b.head? ≠ some '#') :
    (HostRejected bad v → analyzeUrlNew bad (a ++ b) = .error .valueError) ∧
    (¬ HostRejected bad v → analyzeUrlNew bad (a ++ b) = analyzeUrl v) := by
  have hv := (C71_removed _ _).mp hv
  have hclean : ∃ w, v = w ++ b ∧ '#' ∉ w := by
    have hfb : b.filter (fun c => !removedC c) = b := by
      rw [List.filter_eq_self]
      intro c hc
      rw [removedC_iff]
      simpa using hb.1 c hc
    have : ∀ a : Str, '#' ∉ a → ∃ w, cleanUrl (a ++ b) = w ++ b ∧ '#' ∉ w := by
      intro a
      induction a with
      | nil => exact fun _ => ⟨[], by exact clean_plain hb, by simp⟩
      | cons c a ih =>
        intro hc
        have hc' : '#' ∉ a := fun h => hc (by simp [h])
        by_cases hl : leadingC c = true
        · obtain ⟨w, h1, h2⟩ := ih hc'
          refine ⟨w, ?_, h2⟩
          rw [← h1]
          unfold cleanUrl
          rw [List.cons_append, List.dropWhile_cons_of_pos hl]
        · refine ⟨(c :: a).filter (fun c => !removedC c), ?_, fun h => hc (List.mem_filter.mp h).1⟩
          unfold cleanUrl
          rw [List.cons_append, List.dropWhile_cons_of_neg (by simpa using hl), ← List.cons_append, List.filter_append, hfb]
    obtain ⟨w, h1, h2⟩ := this a ha
    exact ⟨w, hv.trans h1, h2⟩
  obtain ⟨w, rfl, hw⟩ := hclean
  have hlen : 1 ≤ b.length := by
    cases b with
    | nil => exact absurd rfl hne
    | cons c b => simp
  have hlast : pyIndex (a ++ b) (-1) = pyIndex (w ++ b) (-1) := pyIndex_end a w b 1 (Nat.le_refl 1) hlen
  have core : parseUrlNew bad (a ++ b) = (urlparse (w ++ b)).bind (fun r => if bad r.netloc = true then .error .valueError else parseUrl (w ++ b)) := by
    unfold parseUrlNew urlparseNew
    rw [← hv]
    cases hr : urlparse (w ++ b) with
    | error e => rfl
    | ok r =>
      simp only [bind, Except.bind]
      by_cases hbad : bad r.netloc = true
      · rw [if_pos hbad, if_pos hbad]
      · rw [if_neg hbad, if_neg hbad]
        obtain ⟨hf, hq⟩ := urlparse_frag_query hr
        rw [cutChar_append hw] at hf
        simp only at hf
        unfold parseUrl
        rw [hr]
        simp only [bind, Except.bind]
        by_cases h1 : r.fragment = []
        · rw [if_pos h1, if_pos h1, hlast]
          cases hp : pyIndex (w ++ b) (-1) with
          | error e => rfl
          | ok last =>
            simp only
            by_cases h2 : last ≠ '#'
            · rw [if_pos h2, if_pos h2]
            · rw [if_neg h2, if_neg h2]
              have h2 : last = '#' := by simpa using h2
              have hl2 : 2 ≤ b.length := by
                match b, hne, hh with
                | [c], _, hh =>
                  exfalso
                  rw [h2] at hp
                  have := (pyIndex_end w [] [c] 1 (Nat.le_refl 1) (Nat.le_refl 1)).symm.trans hp
                  simp [pyIndex] at this
                  exact hh (by simp [this])
                | c :: d :: b, _, _ => simp
              have := pyIndex_end a w b 2 (by omega) hl2
              rw [show (-2 : Int) = -((2 : Nat) : Int) by rfl, this]
        · rw [if_neg h1, if_neg h1]
          by_cases h2 : r.query = []
          · rw [if_pos h2, if_pos h2]
            have hl : r.fragment.length + 2 ≤ b.length := by
              obtain ⟨c1, c2⟩ := cutChar_spec '#' b
              rcases c2 with ⟨-, c2⟩ | ⟨c2, -⟩
              · have hx : (cutChar '#' b).1 ≠ [] := by
                  intro e
                  rw [e] at c2
                  rw [c2] at hh
                  exact hh rfl
                have := congrArg List.length c2
                rw [List.length_append, List.length_cons, ← hf] at this
                have : 1 ≤ (cutChar '#' b).1.length := by
                  cases hx' : (cutChar '#' b).1 with
                  | nil => exact absurd hx' hx
                  | cons _ _ => simp
                omega
              · exact absurd (hf.trans (by rw [cutChar_of_not_mem c2])) h1
            have := pyIndex_end a w b (r.fragment.length + 2) (by omega) hl
            have e1 := pyIndex_wrap (a ++ b) (((a ++ b).length : Int) - (r.fragment.length : Int) - 2) (by omega) (by rw [List.length_append]; omega)
            have e2 := pyIndex_wrap (w ++ b) (((w ++ b).length : Int) - (r.fragment.length : Int) - 2) (by omega) (by rw [List.length_append]; omega)
            rw [e1, e2]
            rw [show ((a ++ b).length : Int) - (r.fragment.length : Int) - 2 - (a ++ b).length = -((r.fragment.length + 2 : Nat) : Int) by omega,
              show ((w ++ b).length : Int) - (r.fragment.length : Int) - 2 - (w ++ b).length = -((r.fragment.length + 2 : Nat) : Int) by omega, this]
          · rw [if_neg h2, if_neg h2]
  unfold analyzeUrlNew analyzeUrl
  rw [core]
  cases hr : urlparse (w ++ b) with
  | error e =>
    refine ⟨fun ⟨r, h, _⟩ => (by rw [hr] at h; cases h), fun _ => ?_⟩
    unfold parseUrl
    rw [hr]
    rfl
  | ok r =>
    constructor
    · rintro ⟨r', h, h'⟩
      rw [hr] at h
      cases h
      simp [Except.bind, bind, h']
    · intro hn
      have : ¬ bad r.netloc = true := fun h => hn ⟨r, hr, h⟩
      simp only [Except.bind, if_neg this]

/-- **C71**, negative: elsewhere the two differ, because `parse_url` counts in the URL that is not cleaned.  A tab in the fragment, or before
a final `#`, makes an empty query disappear; a tab at the end makes an empty fragment disappear. -/
theorem C71_lost (bad : Str → Bool) (hb : bad c!"h" = false) :
    (analyzeUrlNew bad c!"http://h/a?#x\ty").map (·.1) ≠ (analyzeUrl c!"http://h/a?#xy").map (·.1) ∧
    (analyzeUrlNew bad c!"http://h/a?\t#").map (·.1) ≠ (analyzeUrl c!"http://h/a?#").map (·.1) ∧
    (analyzeUrlNew bad c!"http://h/a#\t").map (·.1) ≠ (analyzeUrl c!"http://h/a#").map (·.1) := by
  have key : ∀ u v r, cleanUrl u = v → urlparse v = .ok r → r.netloc = c!"h" → analyzeUrlNew bad u = analyzeUrlNew (fun _ => false) u := by
    intro u v r h1 h2 h3
    have : urlparseNew bad u = urlparseNew (fun _ => false) u := by
      unfold urlparseNew
      rw [h1, h2]
      simp only [bind, Except.bind, h3, hb]
    unfold analyzeUrlNew parseUrlNew
    rw [this]
  rw [key c!"http://h/a?#x\ty" c!"http://h/a?#xy" ⟨c!"http", c!"h", c!"/a", [], [], c!"xy"⟩ (by decide) (by decide) rfl,
    key c!"http://h/a?\t#" c!"http://h/a?#" ⟨c!"http", c!"h", c!"/a", [], [], []⟩ (by decide) (by decide) rfl,
    key c!"http://h/a#\t" c!"http://h/a#" ⟨c!"http", c!"h", c!"/a", [], [], []⟩ (by decide) (by decide) rfl]
  decide +kernel

/-! ### the commands -/

/-- The line is a URL whose host is rejected. -/
def Spec.LineRejected (bad : Str → Bool) (env : Env) (l : Bytes) : Prop :=
  ∃ u, env.decode (stripB l) = some u ∧ u.head? ≠ some '/' ∧ HostRejected bad u

/-- Nothing is removed from the URL in the line. -/
def Spec.LineKept (env : Env) (l : Bytes) : Prop := ∀ u, env.decode (stripB l) = some u → u.head? ≠ some '/' → NothingRemoved u

theorem parseNew_line (bad : Str → Bool) {env : Env} {l : Bytes} (hk : LineKept env l) {u : Str} (hu : env.decode (stripB l) = some u) :
    (LineRejected bad env l → parseNew bad u = .error .valueError) ∧ (¬ LineRejected bad env l → parseNew bad u = parse u) := by
  by_cases hs : u.head? = some '/'
  · refine ⟨fun ⟨u', h1, h2, _⟩ => ?_, fun _ => C71_pattern bad u hs⟩
    rw [hu] at h1
    cases h1
    exact absurd hs h2
  · obtain ⟨h1, h2⟩ := C71_same bad u (hk u hu hs) hs
    refine ⟨fun ⟨u', h3, _, h4⟩ => ?_, fun hn => h2 (fun h => hn ⟨u, hu, hs, h⟩)⟩
    rw [hu] at h3
    cases h3
    exact h1 h4

theorem makeLineNew_eq (bad : Str → Bool) {env : Env} {b : Bool} {l : Bytes} (hk : LineKept env l) (st : PatternMakerSt) (n : MakeStats) :
    (LineRejected bad env l → makeLineNew bad env b st l = st) ∧
    (¬ LineRejected bad env l → makeLineNew bad env b st l = (makeLine env b (st, n) l).1) := by
  unfold makeLineNew makeLine
  by_cases he : (stripB l).isEmpty = true
  · simp only [if_pos he]
    exact ⟨fun _ => trivial, fun _ => trivial⟩
  · simp only [if_neg he]
    cases hd : env.decode (stripB l) with
    | none => exact ⟨fun _ => rfl, fun _ => rfl⟩
    | some u =>
      obtain ⟨h1, h2⟩ := parseNew_line bad hk hd
      constructor
      · intro hr
        simp only [PatternMakerSt.loadNew, h1 hr]
        rfl
      · intro hr
        have : PatternMakerSt.loadNew bad env.md5 st u (if b = true then some u else none) =
            PatternMakerSt.load env.md5 st u (if b = true then some u else none) := by
          unfold PatternMakerSt.loadNew PatternMakerSt.load
          rw [h2 hr]
          rfl
        simp only [this]
        cases PatternMakerSt.load env.md5 st u (if b = true then some u else none) with
        | error e => rfl
        | ok x => rfl

/-- **C71**: `pattern-make` on the newer version prints what it prints on the older one for the lines whose host is not rejected. -/
theorem C71_make (bad : Str → Bool) (env : Env) (mcn : Int) (f : Fmt) (lines : List Bytes) (hk : ∀ l ∈ lines, LineKept env l)
    (p : Bytes → Bool) (hp : ∀ l ∈ lines, p l = true ↔ ¬ LineRejected bad env l) :
    makeRunNew bad env mcn f lines = makeRun env mcn f (lines.filter p) := by
  have key : ∀ (lines : List Bytes) (st : PatternMakerSt × MakeStats), (∀ l ∈ lines, LineKept env l) →
      (∀ l ∈ lines, p l = true ↔ ¬ LineRejected bad env l) →
      lines.foldl (makeLineNew bad env (loadsUrl f)) st.1 = ((lines.filter p).foldl (makeLine env (loadsUrl f)) st).1 := by
    intro lines
    induction lines with
    | nil => intro st _ _; rfl
    | cons l lines ih =>
      intro st hk hp
      obtain ⟨h1, h2⟩ := makeLineNew_eq bad (b := loadsUrl f) (hk l (by simp)) st.1 st.2
      have hk' : ∀ l ∈ lines, LineKept env l := fun x hx => hk x (by simp [hx])
      have hp' : ∀ l ∈ lines, p l = true ↔ ¬ LineRejected bad env l := fun x hx => hp x (by simp [hx])
      by_cases hpl : p l = true
      · rw [List.filter_cons_of_pos hpl, List.foldl_cons, List.foldl_cons, h2 ((hp l (by simp)).mp hpl)]
        exact ih _ hk' hp'
      · have : LineRejected bad env l := Classical.not_not.mp (fun h => hpl ((hp l (by simp)).mpr h))
        rw [List.filter_cons_of_neg hpl, List.foldl_cons, h1 this]
        exact ih _ hk' hp'
  unfold makeRunNew makeRun makeLoad
  rw [← key lines ([], {}) hk hp]

/-- **C71**: the patterns are loaded as before, whatever is in the file. -/
theorem C71_load (bad : Str → Bool) (env : Env) (lines : List Bytes) : lines.foldl (matchLoadLineNew bad env) [] = matchLoad env lines := by
  have key : matchLoadLineNew bad env = matchLoadLine env := by
    funext st l
    unfold matchLoadLineNew matchLoadLine
    by_cases h : (rstripB l).head? ≠ some 47
    · simp only [if_pos h]
    · simp only [if_neg h]
      cases hd : env.decode (rstripB l) with
      | none => rfl
      | some s =>
        simp only
        by_cases hs : s.head? = some '/'
        · have : PatternMatcherSt.loadNew bad env.md5 st s (some s) = PatternMatcherSt.load env.md5 st s (some s) := by
            unfold PatternMatcherSt.loadNew PatternMatcherSt.load
            rw [C71_pattern bad s hs]
            rfl
          rw [this]
          cases PatternMatcherSt.load env.md5 st s (some s) with
          | error e => rfl
          | ok x => rfl
        · have hs' : ¬ startsWith ['/'] s = true := by
            cases s with
            | nil => simp [startsWith, List.isPrefixOf]
            | cons c s =>
              have : c ≠ '/' := by simpa using hs
              simp [startsWith, List.isPrefixOf, Ne.symm this]
          have e1 : ∃ e, PatternMatcherSt.loadNew bad env.md5 st s (some s) = .error e := by
            unfold PatternMatcherSt.loadNew parseNew
            rw [if_neg hs']
            simp only [bind, Except.bind]
            cases analyzeUrlNew bad s with
            | error e => exact ⟨e, rfl⟩
            | ok x =>
              simp only
              cases x.2.mapM parsePiece with
              | error e => exact ⟨e, rfl⟩
              | ok y => exact ⟨_, rfl⟩
          have e2 : ∃ e, PatternMatcherSt.load env.md5 st s (some s) = .error e := by
            unfold PatternMatcherSt.load parse
            rw [if_neg hs']
            simp only [bind, Except.bind]
            cases analyzeUrl s with
            | error e => exact ⟨e, rfl⟩
            | ok x =>
              simp only
              cases x.2.mapM parsePiece with
              | error e => exact ⟨e, rfl⟩
              | ok y => exact ⟨_, rfl⟩
          obtain ⟨e1, h1⟩ := e1
          obtain ⟨e2, h2⟩ := e2
          rw [h1, h2]
  unfold matchLoad
  rw [key]

/-- **C71**: `pattern-match` on the newer version answers a line as before, or with `E` if the host is rejected. -/
theorem C71_match (bad : Str → Bool) (env : Env) (all : Bool) (patternLines lines : List Bytes) (hk : ∀ l ∈ lines, LineKept env l) :
    ∃ answer : Bytes → Bytes, matchRunNew bad env all patternLines lines = (lines.map answer).flatten ∧
      ∀ l ∈ lines, (LineRejected bad env l → answer l = [69, 9] ++ stripB l ++ [10]) ∧
        (¬ LineRejected bad env l → answer l = matchRun env all patternLines [l]) := by
  refine ⟨matchLineNew bad env (patternLines.foldl (matchLoadLineNew bad env) []) all, rfl, ?_⟩
  intro l hl
  rw [C71_load]
  have hone : matchRun env all patternLines [l] = matchLine env (matchLoad env patternLines) all l := by simp [matchRun]
  rw [hone]
  unfold matchLineNew matchLine matchResult
  cases hd : env.decode (stripB l) with
  | none =>
    refine ⟨fun ⟨u, h, _⟩ => (by rw [hd] at h; cases h), fun _ => ?_⟩
    simp only [matchTryNew, matchTry, hd]
  | some u =>
    obtain ⟨h1, h2⟩ := parseNew_line bad (hk l hl) hd
    constructor
    · intro hr
      simp only [matchTryNew, hd, PatternMatcherSt.matchNew, h1 hr]
      rfl
    · intro hr
      have : matchTryNew bad env (matchLoad env patternLines) all (stripB l) = matchTry env (matchLoad env patternLines) all (stripB l) := by
        simp only [matchTryNew, matchTry, hd, PatternMatcherSt.matchNew, PatternMatcherSt.match_, h2 hr]
        rfl
      simp only [this]
      cases matchTry env (matchLoad env patternLines) all (stripB l) with
      | error e => rfl
      | ok x => rfl

/-! ### examples -/

namespace C71Ex

/-- Hosts in brackets are rejected here. -/
def brackets (netloc : Str) : Bool := hasChar '[' netloc

/-- A tab in the path: rejected by the older version, read without the tab by the newer one. -/
example : raisedBy (parse c!"http://h/a\tb") = some .invalidChar ∧
    (analyzeUrlNew brackets c!"http://h/a\tb").map (·.2) = .ok [c!"ab"] := by decide +kernel

example : ¬ HostRejected brackets c!"http://h/ab?k=1#f" ∧ analyzeUrlNew brackets c!"\x02ht\ntp://h/a\tb?k=1#f" = analyzeUrl c!"http://h/ab?k=1#f" := by
  have hn : ¬ HostRejected brackets c!"http://h/ab?k=1#f" := by
    rintro ⟨r, h, h'⟩
    rw [show urlparse c!"http://h/ab?k=1#f" = .ok ⟨c!"http", c!"h", c!"/ab", [], c!"k=1", c!"f"⟩ by decide] at h
    cases h
    revert h'
    decide
  exact ⟨hn, (C71_cleaned brackets c!"\x02ht\ntp://h/a\tb?k=" c!"1#f" _ ((C71_removed _ _).mpr (by decide)) (by unfold NothingRemoved; decide) (by decide)
    (by decide) (by decide)).2 hn⟩

def lines : List Bytes := [c!"http://h/p/1\n", c!"http://[x]/p/22\n", c!"http://h/p/3"].map asciiBytesM

example : makeRunNew brackets c47Env 2 .pattern lines = .ok [c!"/p/[0-9]"] ∧ makeRun c47Env 2 .pattern lines = .ok [c!"/p/[0-9]+"] := by decide +kernel

theorem lines_kept : ∀ l ∈ lines, LineKept c47Env l := by
  intro l hl u hu _
  simp only [lines, List.map_cons, List.map_nil, List.mem_cons, List.not_mem_nil, or_false] at hl
  rcases hl with rfl | rfl | rfl
  · have : u = c!"http://h/p/1" := (Option.some.inj (hu.symm.trans (by decide)))
    subst this; unfold NothingRemoved; decide
  · have : u = c!"http://[x]/p/22" := (Option.some.inj (hu.symm.trans (by decide)))
    subst this; unfold NothingRemoved; decide
  · have : u = c!"http://h/p/3" := (Option.some.inj (hu.symm.trans (by decide)))
    subst this; unfold NothingRemoved; decide

example : ∃ answer : Bytes → Bytes, matchRunNew brackets c47Env false [asciiBytesM c!"/p/[0-9]+"] lines = (lines.map answer).flatten :=
  (C71_match brackets c47Env false _ lines lines_kept).imp fun _ h => h.1

example : matchRunNew brackets c47Env false [asciiBytesM c!"/p/[0-9]+"] lines =
    asciiBytesM c!"/p/[0-9]+\thttp://h/p/1\nE\thttp://[x]/p/22\n/p/[0-9]+\thttp://h/p/3\n" := by decide +kernel

end C71Ex

end OsUrl
