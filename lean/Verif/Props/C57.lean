import Verif.Model.Api
import Verif.Proofs.MLoad
import Verif.Proofs.Load

/-! # C57: what the entry points accept -/

namespace OsUrl
open Spec

/-- **C57**: `parse` reads a text that starts with a slash as a pattern and any other as a URL; it returns one object for every piece of
the structure, at least one. -/
theorem C57_parse (s : Str) (m : URLMeta) (p : Parsed) (h : parse s = .ok (m, p)) :
    (if s.head? = some '/' then ∃ ps, p = .patterns ps ∧ ps.length = m.depth else ∃ pps, p = .pieces pps ∧ pps.length = m.depth) ∧
      0 < m.depth := by
  have hd : startsWith ['/'] s = true ↔ s.head? = some '/' := by
    cases s with
    | nil => simp [startsWith]
    | cons c s =>
      rw [show startsWith ['/'] (c :: s) = (('/' == c) && true) from rfl, Bool.and_true, beq_iff_eq, List.head?_cons, Option.some.injEq]
      exact eq_comm
  cases p with
  | patterns ps =>
    have hs : startsWith ['/'] s = true := by
      cases e : startsWith ['/'] s with
      | true => rfl
      | false =>
        exfalso
        unfold parse at h
        rw [e] at h
        simp only [bind, Except.bind, pure, Except.pure, Bool.false_eq_true, if_false] at h
        cases h1 : analyzeUrl s with
        | error e => rw [h1] at h; cases h
        | ok x =>
          rw [h1] at h
          simp only at h
          cases h2 : x.2.mapM parsePiece with
          | error e => rw [h2] at h; cases h
          | ok y => rw [h2] at h; simp at h
    obtain ⟨h1, h2⟩ := parse_patterns_depth h
    rw [if_pos (hd.mp hs)]
    exact ⟨⟨ps, rfl, h1⟩, h2⟩
  | pieces pps =>
    have hs : ¬ startsWith ['/'] s = true := by
      intro e
      unfold parse at h
      rw [e] at h
      simp only [bind, Except.bind, pure, Except.pure, if_true] at h
      cases h1 : analyzeUrlPatternString s with
      | error e => rw [h1] at h; cases h
      | ok x =>
        rw [h1] at h
        simp only at h
        split at h
        · cases h
        · simp at h
    have := accepted_depth (h := [(s, none)]) (r := ⟨m, pps, none⟩) (by simp [accepted, h])
    rw [if_neg (fun e => hs (hd.mpr e))]
    exact ⟨⟨pps, rfl, this.1⟩, this.2⟩

theorem upd_ensure {α : Type} (sid : Str) (new v : α) (d : Dict Str α) :
    Dict.upd sid (fun _ => v) (ensure sid new d) = Dict.upd sid (fun _ => v) d ∧
      Dict.get? sid (ensure sid new d) = some ((Dict.get? sid d).getD new) := by
  unfold ensure
  cases h : Dict.get? sid d with
  | some w => simp [h]
  | none =>
    simp only [Option.isSome_none, Bool.false_eq_true, if_false, Option.getD_none]
    induction d with
    | nil => simp [Dict.upd, Dict.get?]
    | cons x xs ih =>
      obtain ⟨k, w⟩ := x
      simp only [Dict.get?] at h
      by_cases hk : k = sid
      · rw [if_pos hk] at h; cases h
      · rw [if_neg hk] at h
        simp only [List.cons_append, Dict.upd, Dict.get?, if_neg hk]
        exact ⟨by rw [(ih h).1], (ih h).2⟩

theorem maker_total (mk : MakerSt) {pps : List ParsedPiece} (md : Option Str) (h : pps ≠ []) : ∃ r, mk.load pps md = .ok r := by
  unfold MakerSt.load buildFromParsedPieces
  cases pps with
  | nil => exact absurd rfl h
  | cons p ps => exact ⟨_, rfl⟩

/-- **C57**: `PatternMaker.load` raises for every text that starts with a slash (`ValueError` when it is a pattern) and for every text
that `parse` rejects, and then nothing is changed; it accepts everything else.  So the state after a call is that of `PatternMakerSt.load`. -/
theorem C57_maker_load (md5 : Str → Str) (st : PatternMakerSt) (u : Str) (md : Option Str) :
    st.loadStmts md5 u md = (match st.load md5 u md with | .ok (st', b) => (st', .ok b) | .error e => (st, .error e)) ∧
    ((∃ b, (st.loadStmts md5 u md).2 = .ok b) ↔ u.head? ≠ some '/' ∧ ∃ r, parse u = .ok r) ∧
    ((∃ e, (st.loadStmts md5 u md).2 = .error e) → (st.loadStmts md5 u md).1 = st) := by
  have key : st.loadStmts md5 u md = (match st.load md5 u md with | .ok (st', b) => (st', .ok b) | .error e => (st, .error e)) ∧
      ((∃ b, (st.loadStmts md5 u md).2 = .ok b) ↔ u.head? ≠ some '/' ∧ ∃ r, parse u = .ok r) := by
    unfold PatternMakerSt.loadStmts PatternMakerSt.load
    cases hp : parse u with
    | error e => simp [bind, Except.bind]
    | ok x =>
      obtain ⟨m, p⟩ := x
      have h := C57_parse u m p hp
      cases p with
      | patterns ps =>
        have hh : u.head? = some '/' := by
          by_cases e : u.head? = some '/'
          · exact e
          · rw [if_neg e] at h; obtain ⟨⟨_, e, -⟩, -⟩ := h; cases e
        rw [if_pos hh] at h
        obtain ⟨⟨ps', e, hl⟩, h0⟩ := h
        injection e with e; subst e
        have hne : ps ≠ [] := by rintro rfl; simp at hl; omega
        simp [bind, Except.bind, hh, hne]
      | pieces pps =>
        have hh : ¬ u.head? = some '/' := by
          intro e
          rw [if_pos e] at h; obtain ⟨⟨_, e, -⟩, -⟩ := h; cases e
        rw [if_neg hh] at h
        obtain ⟨⟨ps', e, hl⟩, h0⟩ := h
        injection e with e; subst e
        have hne : pps ≠ [] := by rintro rfl; simp at hl; omega
        have hem : pps.isEmpty = false := by simpa using hne
        simp only [bind, Except.bind, pure, Except.pure, hem]
        obtain ⟨hu, hg⟩ := upd_ensure (fuzzyDigest md5 m (.pieces pps)) (MakerSt.new m)
          ((Dict.get? (fuzzyDigest md5 m (.pieces pps)) st).getD (MakerSt.new m)) st
        rw [hg]
        obtain ⟨⟨mk', b⟩, hr⟩ := maker_total ((Dict.get? (fuzzyDigest md5 m (.pieces pps)) st).getD (MakerSt.new m)) md hne
        simp only [hr]
        refine ⟨?_, ?_⟩
        · simp only [Bool.false_eq_true, if_false]
          rw [(upd_ensure (fuzzyDigest md5 m (.pieces pps)) (MakerSt.new m) mk' st).1]
        · simp [hh]
  refine ⟨key.1, key.2, ?_⟩
  rw [key.1]
  rintro ⟨e, he⟩
  cases hl : st.load md5 u md with
  | error e => rfl
  | ok r => rw [hl] at he; cases he

/-- **C57**: likewise `PatternMatcher.load` raises, and changes nothing, exactly for the texts that do not start with a slash
(`ValueError` when it is a URL) and for those that `parse` rejects. -/
theorem C57_matcher_load (md5 : Str → Str) (st : PatternMatcherSt) (u : Str) (md : Option Str) :
    st.loadStmts md5 u md = (match st.load md5 u md with | .ok (st', b) => (st', .ok b) | .error e => (st, .error e)) ∧
    ((∃ b, (st.loadStmts md5 u md).2 = .ok b) ↔ u.head? = some '/' ∧ ∃ r, parse u = .ok r) ∧
    ((∃ e, (st.loadStmts md5 u md).2 = .error e) → (st.loadStmts md5 u md).1 = st) := by
  have key : st.loadStmts md5 u md = (match st.load md5 u md with | .ok (st', b) => (st', .ok b) | .error e => (st, .error e)) ∧
      ((∃ b, (st.loadStmts md5 u md).2 = .ok b) ↔ u.head? = some '/' ∧ ∃ r, parse u = .ok r) := by
    have htot := fun m ps => mload_total md5 st (s := u) md (m := m) (ps := ps)
    unfold PatternMatcherSt.loadStmts
    unfold PatternMatcherSt.load at htot ⊢
    cases hp : parse u with
    | error e => simp [bind, Except.bind]
    | ok x =>
      obtain ⟨m, p⟩ := x
      have h := C57_parse u m p hp
      cases p with
      | pieces ps =>
        have hh : ¬ u.head? = some '/' := by
          intro e
          rw [if_pos e] at h; obtain ⟨⟨_, e, -⟩, -⟩ := h; cases e
        rw [if_neg hh] at h
        obtain ⟨⟨ps', e, hl⟩, h0⟩ := h
        injection e with e; subst e
        have hne : ps ≠ [] := by rintro rfl; simp at hl; omega
        simp [bind, Except.bind, hh, hne]
      | patterns pps =>
        have hh : u.head? = some '/' := by
          by_cases e : u.head? = some '/'
          · exact e
          · rw [if_neg e] at h; obtain ⟨⟨_, e, -⟩, -⟩ := h; cases e
        rw [if_pos hh] at h
        obtain ⟨⟨ps', e, hl⟩, h0⟩ := h
        injection e with e; subst e
        have hne : pps ≠ [] := by rintro rfl; simp at hl; omega
        have hem : pps.isEmpty = false := by simpa using hne
        obtain ⟨r, hr⟩ := htot m pps hp
        rw [hp] at hr
        simp only [bind, Except.bind, pure, Except.pure, hem] at hr ⊢
        obtain ⟨hu, hg⟩ := upd_ensure (fuzzyDigest md5 m (.patterns pps)) (MatcherSt.new m)
          ((Dict.get? (fuzzyDigest md5 m (.patterns pps)) st).getD (MatcherSt.new m)) st
        rw [hg]
        cases hl : MatcherSt.load ((Dict.get? (fuzzyDigest md5 m (.patterns pps)) st).getD (MatcherSt.new m)) pps md with
        | error e => rw [hl] at hr; cases hr
        | ok x =>
          obtain ⟨mk', b⟩ := x
          simp only [hl]
          refine ⟨?_, ?_⟩
          · simp only [Bool.false_eq_true, if_false]
            rw [(upd_ensure (fuzzyDigest md5 m (.patterns pps)) (MatcherSt.new m) mk' st).1]
          · simp [hh]
  refine ⟨key.1, key.2, ?_⟩
  rw [key.1]
  rintro ⟨e, he⟩
  cases hl : st.load md5 u md with
  | error e => rfl
  | ok r => rw [hl] at he; cases he

/-- **C57**: `fuzzy_digest` of one text is that of what `parse` returns, and fails as `parse` does; any other number of arguments than
one or two is a `ValueError`. -/
theorem C57_digest (md5 : Str → Str) :
    (∀ s, fuzzyDigestArgs md5 (.one s) = match parse s with | .ok (m, p) => fuzzyDigestArgs md5 (.two m p) | .error e => .error e) ∧
    (∀ m p, fuzzyDigestArgs md5 (.two m p) = .ok (fuzzyDigest md5 m p)) ∧ fuzzyDigestArgs md5 .other = .error .valueError := by
  refine ⟨?_, fun _ _ => rfl, rfl⟩
  intro s
  rw [fuzzyDigestArgs]
  cases h : parse s with
  | error e => rfl
  | ok x => rfl

/-- **C57**: the table of formatters: the names in the order of the class names, `ETE` only when the package is there. -/
theorem C57_formatters (ete3 : Bool) : formatters ete3 = some (
    [(c!"CLUSTER", FmtCls.cluster)] ++ (if ete3 then [(c!"ETE", .ete)] else []) ++
      [(c!"NULL", .base), (c!"INLINE", .inline), (c!"JSON", .json), (c!"PATTERN", .pattern)]) := by
  cases ete3 <;> decide +kernel

/-- **C57**: names are read without regard to case, unknown names are a `KeyError`, and the command refuses them; without the option
the name is `CLUSTER`. -/
theorem C57_names (ete3 : Bool) (name : Str) :
    (∀ c, formatterOf ete3 name = .ok c ↔
      (upperStr name = c!"CLUSTER" ∧ c = .cluster) ∨ (upperStr name = c!"ETE" ∧ c = .ete ∧ ete3 = true) ∨
      (upperStr name = c!"NULL" ∧ c = .base) ∨ (upperStr name = c!"INLINE" ∧ c = .inline) ∨
      (upperStr name = c!"JSON" ∧ c = .json) ∨ (upperStr name = c!"PATTERN" ∧ c = .pattern)) ∧
    ((∀ c, formatterOf ete3 name ≠ .ok c) → formatterOf ete3 name = .error .keyError ∧ formatArg ete3 (some name) = none) ∧
    (∀ c, formatterOf ete3 name = .ok c → formatArg ete3 (some name) = some (upperStr name) ∧
      (c.fmt = none ↔ formatFlags (upperStr name) = (false, true)) ∧
      (∀ f, c.fmt = some f → formatFlags (upperStr name) = (loadsUrl f, false))) ∧
    formatArg ete3 none = some c!"CLUSTER" := by
  have hlook : ∀ c, formatterOf ete3 name = .ok c ↔
      (upperStr name = c!"CLUSTER" ∧ c = .cluster) ∨ (upperStr name = c!"ETE" ∧ c = .ete ∧ ete3 = true) ∨
      (upperStr name = c!"NULL" ∧ c = .base) ∨ (upperStr name = c!"INLINE" ∧ c = .inline) ∨
      (upperStr name = c!"JSON" ∧ c = .json) ∨ (upperStr name = c!"PATTERN" ∧ c = .pattern) := by
    intro c
    unfold formatterOf
    rw [C57_formatters]
    generalize upperStr name = u
    by_cases h1 : u = c!"CLUSTER"
    · subst h1; cases ete3 <;> cases c <;> decide
    by_cases h2 : u = c!"ETE"
    · subst h2; cases ete3 <;> cases c <;> decide
    by_cases h3 : u = c!"NULL"
    · subst h3; cases ete3 <;> cases c <;> decide
    by_cases h4 : u = c!"INLINE"
    · subst h4; cases ete3 <;> cases c <;> decide
    by_cases h5 : u = c!"JSON"
    · subst h5; cases ete3 <;> cases c <;> decide
    by_cases h6 : u = c!"PATTERN"
    · subst h6; cases ete3 <;> cases c <;> decide
    simp only [h1, h2, h3, h4, h5, h6, false_and, or_false, iff_false]
    have n1 := Ne.symm h1; have n2 := Ne.symm h2; have n3 := Ne.symm h3; have n4 := Ne.symm h4; have n5 := Ne.symm h5
    have n6 := Ne.symm h6
    cases ete3 <;> simp [Dict.get?, n1, n2, n3, n4, n5, n6]
  refine ⟨hlook, ?_, ?_, rfl⟩
  · intro h
    have hn : (formatters ete3).bind (Dict.get? (upperStr name)) = none := by
      cases e : (formatters ete3).bind (Dict.get? (upperStr name)) with
      | none => rfl
      | some c => exact absurd (by unfold formatterOf; rw [e]) (h c)
    refine ⟨by unfold formatterOf; rw [hn], ?_⟩
    unfold formatArg
    simp only
    rw [C57_formatters] at hn ⊢
    simp only [Option.bind_some] at hn
    exact if_neg (Dict.get?_none.mp hn)
  · intro c hc
    have hk : upperStr name ∈ ((formatters ete3).getD []).map (·.1) := by
      unfold formatterOf at hc
      rw [C57_formatters] at hc ⊢
      simp only [Option.bind_some, Option.getD_some] at hc ⊢
      generalize (([(c!"CLUSTER", FmtCls.cluster)] ++ (if ete3 then [(c!"ETE", .ete)] else []) ++
        [(c!"NULL", .base), (c!"INLINE", .inline), (c!"JSON", .json), (c!"PATTERN", .pattern)]) : Dict Str FmtCls) = d at hc ⊢
      cases e : Dict.get? (upperStr name) d with
      | none => rw [e] at hc; cases hc
      | some v => exact List.mem_map.mpr ⟨_, Dict.get?_mem e, rfl⟩
    refine ⟨by unfold formatArg; simp only; rw [if_pos hk], ?_⟩
    rcases (hlook c).mp hc with ⟨e, rfl⟩ | ⟨e, rfl, -⟩ | ⟨e, rfl⟩ | ⟨e, rfl⟩ | ⟨e, rfl⟩ | ⟨e, rfl⟩ <;> rw [e] <;>
      exact ⟨by decide, by intro f hf; cases hf <;> decide⟩

/-- **C57**: what "without regard to case" means: every one of the 26 small letters becomes the capital one, all else stays. -/
theorem C57_upper (s : Str) : upperStr s =
    s.map (fun c => ((c!"abcdefghijklmnopqrstuvwxyz".zip c!"ABCDEFGHIJKLMNOPQRSTUVWXYZ").lookup c).getD c) := by
  unfold upperStr
  apply List.map_congr_left
  intro c _
  have small : ∀ n, n < 26 → upperC (Char.ofNat (97 + n)) =
      ((c!"abcdefghijklmnopqrstuvwxyz".zip c!"ABCDEFGHIJKLMNOPQRSTUVWXYZ").lookup (Char.ofNat (97 + n))).getD (Char.ofNat (97 + n)) := by
    decide +kernel
  by_cases h : 97 ≤ c.toNat ∧ c.toNat ≤ 122
  · have := small (c.toNat - 97) (by omega)
    rwa [show 97 + (c.toNat - 97) = c.toNat by omega, Char.ofNat_toNat] at this
  · rw [upperC, if_neg (show ¬ ('a'.toNat ≤ c.toNat ∧ c.toNat ≤ 'z'.toNat) from h)]
    cases e : (c!"abcdefghijklmnopqrstuvwxyz".zip c!"ABCDEFGHIJKLMNOPQRSTUVWXYZ").lookup c with
    | none => rfl
    | some d =>
      exfalso
      have hin : ∀ x ∈ c!"abcdefghijklmnopqrstuvwxyz".zip c!"ABCDEFGHIJKLMNOPQRSTUVWXYZ", 97 ≤ x.1.toNat ∧ x.1.toNat ≤ 122 := by
        decide
      obtain ⟨l1, l2, el, -⟩ := List.lookup_eq_some_iff.mp e
      exact h (hin (c, d) (by rw [el]; simp))

/-- **C57**: which records a name stands for; `ETE` needs the package and has none here. -/
theorem C57_records (ete3 : Bool) (name : Str) (c : FmtCls) (h : formatterOf ete3 name = .ok c) :
    ([(c!"CLUSTER", some Fmt.cluster), (c!"NULL", some .null), (c!"INLINE", some .inline), (c!"JSON", some .json),
      (c!"PATTERN", some .pattern), (c!"ETE", none)]).lookup (upperStr name) = some c.fmt := by
  rcases ((C57_names ete3 name).1 c).mp h with ⟨e, rfl⟩ | ⟨e, rfl, -⟩ | ⟨e, rfl⟩ | ⟨e, rfl⟩ | ⟨e, rfl⟩ | ⟨e, rfl⟩ <;> rw [e] <;> decide

/-- Names in any case; a URL, a pattern and a text that is neither given to the two `load`s. -/
example : formatterOf false c!"json" = .ok .json ∧ formatterOf false c!"Null" = .ok .base ∧ formatterOf false c!"ete" = .error .keyError ∧
    formatterOf true c!"ete" = .ok .ete ∧ formatArg false (some c!"xml") = none := by decide +kernel

example : (PatternMakerSt.loadStmts id [] c!"http://h/a" none).2 = .ok true ∧
    PatternMakerSt.loadStmts id [] c!"/a" none = ([], .error .valueError) ∧
    PatternMakerSt.loadStmts id [] c!"/[a" none = ([], .error .invalidPattern) ∧
    (PatternMatcherSt.loadStmts id [] c!"/a" none).2 = .ok true ∧
    (PatternMatcherSt.loadStmts id [] c!"http://h/a" none).2 = .error .valueError ∧
    fuzzyDigestArgs id (.one c!"http://h/a") = fuzzyDigestArgs id (.one c!"/b") := by decide +kernel

end OsUrl
