import Verif.Model.Counters
import Verif.Spec.Counters
import Verif.Props.C37
import Verif.Props.C36
import Verif.Props.C22

/-! # C53: the counters that the two commands log -/

namespace OsUrl
open Spec

/-! ### a counter is a tally of events -/

/-- The counter after a sequence of events. -/
def tallied (evs : List Str) : Dict Str Nat := evs.foldl (fun c k => counterInc k c) []

theorem tallied_append (a b : List Str) : tallied (a ++ b) = b.foldl (fun c k => counterInc k c) (tallied a) := by
  simp [tallied, List.foldl_append]

theorem tallied_groupBy (evs : List Str) :
    tallied evs = (groupBy (fun k => k) evs).map (fun kv => (kv.1, kv.2.length)) := by
  refine snoc_ind (P := fun evs => tallied evs = (groupBy (fun k => k) evs).map (fun kv => (kv.1, kv.2.length))) rfl ?_ evs
  intro evs k ih
  rw [tallied_append, groupBy_concat, Dict.upd_map (fun l : List Str => l.length) k _ (fun o => o.getD 0 + 1), ← ih]
  · rfl
  · cases Dict.get? k (groupBy (fun k => k) evs) <;> simp

theorem tallied_eq (evs : List Str) : tallied evs = (firsts evs).map (fun k => (k, evs.count k)) := by
  rw [tallied_groupBy, groupBy_eq, firsts_eq_uniq, List.map_map]
  simp only [List.map_id']
  refine List.map_congr_left fun k _ => ?_
  simp only [Function.comp, Prod.mk.injEq, true_and]
  rw [List.count, List.countP_eq_length_filter]
  congr 1
  refine List.filter_congr fun x _ => ?_
  by_cases h : x = k <;> simp [h]

theorem join_intercalate (sep : Str) (l : List Str) : join sep l = List.intercalate sep l := by
  induction l with
  | nil => rfl
  | cons x xs ih =>
    cases xs with
    | nil => simp [join, List.intercalate]
    | cons y ys =>
      rw [join, ih]
      simp [List.intercalate]

theorem pretty_tallied (evs : List Str) : prettyCounter (tallied evs) = tallyText evs := by
  rw [prettyCounter, tallied_eq, join_intercalate, tallyText, List.map_map]
  congr 1
  refine List.map_congr_left fun k _ => ?_
  simp [natStr_decimal]

/-- **C53**: `pretty_counter` of a `Counter` filled one event at a time. -/
theorem C53_pretty (evs : List Str) :
    prettyCounter (evs.foldl (fun c k => counterInc k c) []) = tallyText evs := pretty_tallied evs

example : tallyText [c!"ALL", c!"UNKNOW", c!"ALL", c!"VALID", c!"ALL", c!"VALID"] = c!"ALL:3, UNKNOW:1, VALID:2" := by
  decide +kernel

/-! ### the match command -/

/-- The text reads as a pattern. -/
def readsAsPattern (s : Str) : Bool :=
  match parse s with
  | .ok (_, .patterns _) => true
  | _ => false

theorem readsAsPattern_iff (s : Str) : readsAsPattern s = true ↔ ∃ m ps, parse s = .ok (m, .patterns ps) := by
  unfold readsAsPattern
  split
  · rename_i m ps h; simp [h]
  · rename_i h
    simp only [Bool.false_eq_true, false_iff, not_exists]
    exact fun m ps e => h m ps e

/-- What a line of a pattern file is. -/
def patternKind (env : Env) (l : Bytes) : Str :=
  patternLine (decide ((rstripB l).head? = some 47)) (env.decode (rstripB l)) readsAsPattern

theorem matchLoadC_eq (env : Env) (lines : List Bytes) :
    matchLoadC env lines = (matchLoad env lines, tallied (patternEvents (lines.map (patternKind env)))) := by
  refine snoc_ind (P := fun lines => matchLoadC env lines =
    (matchLoad env lines, tallied (patternEvents (lines.map (patternKind env))))) rfl ?_ lines
  intro lines l ih
  have e1 : matchLoadC env (lines ++ [l]) = matchLoadLineC env (matchLoadC env lines) l := by
    simp [matchLoadC, List.foldl_append]
  have e2 : matchLoad env (lines ++ [l]) = matchLoadLine env (matchLoad env lines) l := by
    simp [matchLoad, List.foldl_append]
  have e3 : patternEvents ((lines ++ [l]).map (patternKind env)) =
      patternEvents (lines.map (patternKind env)) ++ [c!"ALL", patternKind env l] := by
    simp [patternEvents]
  rw [e1, e2, e3, ih, tallied_append]
  generalize tallied (patternEvents (lines.map (patternKind env))) = c
  generalize matchLoad env lines = st
  simp only [matchLoadLineC, matchLoadLine, List.foldl_cons, List.foldl_nil, patternKind, patternLine]
  by_cases h : (rstripB l).head? = some 47
  · simp only [h, ne_eq, not_true_eq_false, if_false, decide_true, if_true]
    cases hd : env.decode (rstripB l) with
    | none => rfl
    | some p =>
      simp only
      have hl := C19_loads env.md5 st p (some p)
      rw [← readsAsPattern_iff] at hl
      cases hr : PatternMatcherSt.load env.md5 st p (some p) with
      | error e =>
        rw [hr] at hl
        have : readsAsPattern p = false := by
          cases hb : readsAsPattern p with
          | false => rfl
          | true => obtain ⟨r, h'⟩ := hl.mpr hb; cases h'
        simp [this]
      | ok x =>
        rw [hr] at hl
        have : readsAsPattern p = true := hl.mp ⟨_, rfl⟩
        simp [this]
  · simp [h]

/-- **C53**: the message of the match command after loading is the tally of its lines, every line counted once
as `ALL` and once as `UNKNOW` (does not start with a slash), `VALID` (decodes and reads as a pattern) or
`INVALID`; the loaded patterns are those of the run without counters. -/
theorem C53_match (env : Env) (lines : List Bytes) :
    (matchLoadC env lines).1 = matchLoad env lines ∧
    matchFinishedMsg env lines = c!"[LOAD] Finished " ++ tallyText (patternEvents (lines.map (fun l =>
      patternLine (decide ((rstripB l).head? = some 47)) (env.decode (rstripB l)) readsAsPattern))) := by
  refine ⟨by rw [matchLoadC_eq], ?_⟩
  rw [matchFinishedMsg, matchLoadC_eq, pretty_tallied]
  rfl

/-- **C53**: the number of lines counted as valid is the number of patterns given to the matcher and
accepted by it. -/
theorem C53_valid (env : Env) (lines : List Bytes) :
    (Dict.get? c!"VALID" (matchLoadC env lines).2).getD 0 =
      ((patternTexts env lines).filter readsAsPattern).length := by
  rw [matchLoadC_eq]
  refine snoc_ind (P := fun lines => (Dict.get? c!"VALID" (tallied (patternEvents (lines.map (patternKind env))))).getD 0 =
      ((patternTexts env lines).filter readsAsPattern).length) rfl ?_ lines
  intro lines l ih
  have e3 : patternEvents ((lines ++ [l]).map (patternKind env)) =
      patternEvents (lines.map (patternKind env)) ++ [c!"ALL", patternKind env l] := by
    simp [patternEvents]
  have e4 : patternTexts env (lines ++ [l]) = patternTexts env lines ++
      (if (rstripB l).head? = some 47 then env.decode (rstripB l) else none).toList := by
    unfold patternTexts
    rw [List.filterMap_append]
    congr 1
  rw [e3, e4, tallied_append, List.filter_append, List.length_append, ← ih]
  simp only [List.foldl_cons, List.foldl_nil, counterInc, Dict.get?_upd, patternKind, patternLine]
  by_cases h : (rstripB l).head? = some 47
  · simp only [h, decide_true, if_true]
    cases hd : env.decode (rstripB l) with
    | none => simp
    | some p =>
      cases hb : readsAsPattern p <;> simp [hb]
  · simp [h]

/-- A pattern, a comment, a blank line, a bad quantifier, bytes that do not decode, a URL. -/
example : matchFinishedMsg asciiEnv [lineB c!"/a/[0-9]{2}  ", lineB c!"# none", lineB c!"  ", lineB c!"/a?b?c", [47, 200, 10],
      lineB c!"http://h/a"] = c!"[LOAD] Finished ALL:6, VALID:1, UNKNOW:3, INVALID:2" := by decide +kernel

example : matchFinishedMsg asciiEnv [] = c!"[LOAD] Finished " := by decide +kernel

/-- **C53**: the first message: the number of pattern files, in the plural when there are several, and their names. -/
theorem C53_files (a b : Str) (names : List Str) :
    matchFilesMsg [a] = c!"[LOAD] 1 pattern file: " ++ a ∧
    matchFilesMsg (a :: b :: names) = c!"[LOAD] " ++ decimal (names.length + 2) ++ c!" pattern files: " ++ a ++
      ((b :: names).map (c!", " ++ ·)).flatten := by
  have hj : ∀ (l : List Str) (x : Str), join c!", " (x :: l) = x ++ (l.map (c!", " ++ ·)).flatten := by
    intro l
    induction l with
    | nil => intro x; simp [join]
    | cons y l ih =>
      intro x
      rw [show join c!", " (x :: y :: l) = x ++ c!", " ++ join c!", " (y :: l) from rfl, ih]
      simp
  unfold matchFilesMsg
  rw [hj, hj, natStr_decimal, natStr_decimal]
  refine ⟨?_, ?_⟩
  · rw [List.length_singleton, show decimal 1 = ['1'] from by decide]
    simp
  · rw [if_pos (by simp), List.length_cons, List.length_cons]
    simp only [List.append_assoc]
    rfl

example : matchFilesMsg [c!"a.txt"] = c!"[LOAD] 1 pattern file: a.txt" ∧
    matchFilesMsg [c!"a.txt", c!"b.txt"] = c!"[LOAD] 2 pattern files: a.txt, b.txt" := by decide +kernel

/-! ### the make command -/

/-- What a line of a URL file is: its reading is the structure of the URL with its pieces and their classes. -/
def urlKind (env : Env) (l : Bytes) : UrlLine (URLMeta × List Str × List Str) :=
  if stripB l = [] then .empty
  else
    match env.decode (stripB l) with
    | none => .bad
    | some u =>
      match parse u with
      | .ok (m, .pieces pps) => .url (m, pps.map (·.fuzzyRule), pps.map (·.piece))
      | _ => .bad

/-- The readings of the lines. -/
def readings {ρ : Type} (ls : List (UrlLine ρ)) : List ρ :=
  ls.filterMap (fun l => match l with | .url r => some r | _ => none)

theorem urlEvents_append {ρ : Type} [DecidableEq ρ] (seen : List ρ) (a b : List (UrlLine ρ)) :
    ∃ seen', (∀ x, x ∈ seen' ↔ x ∈ seen ∨ x ∈ readings a) ∧
      urlEvents seen (a ++ b) = urlEvents seen a ++ urlEvents seen' b := by
  induction a generalizing seen with
  | nil => exact ⟨seen, by simp [readings], rfl⟩
  | cons l ls ih =>
    cases l with
    | empty =>
      obtain ⟨s, h1, h2⟩ := ih seen
      exact ⟨s, by simpa [readings] using h1, by simp [urlEvents, h2]⟩
    | bad =>
      obtain ⟨s, h1, h2⟩ := ih seen
      exact ⟨s, by simpa [readings] using h1, by simp [urlEvents, h2]⟩
    | url r =>
      obtain ⟨s, h1, h2⟩ := ih (r :: seen)
      refine ⟨s, ?_, by simp [urlEvents, h2]⟩
      intro x
      rw [h1]
      simp only [readings, List.filterMap_cons, List.mem_cons]
      constructor
      · rintro ((h | h) | h)
        · exact Or.inr (Or.inl h)
        · exact Or.inl h
        · exact Or.inr (Or.inr h)
      · rintro (h | h | h)
        · exact Or.inl (Or.inr h)
        · exact Or.inl (Or.inl h)
        · exact Or.inr h

theorem readings_accepted (env : Env) (loadUrl : Bool) (lines : List Bytes) :
    readings (lines.map (urlKind env)) = (accepted (urlsOf env loadUrl lines)).map (fun r => (r.m, r.rules, r.keys)) := by
  induction lines with
  | nil => rfl
  | cons l ls ih =>
    have e : urlsOf env loadUrl (l :: ls) =
        ((urlOf env l).map (fun u => (u, if loadUrl then some u else none))).toList ++ urlsOf env loadUrl ls := by
      unfold urlsOf
      rw [List.filterMap_cons]
      cases urlOf env l <;> simp
    have e' : readings ((l :: ls).map (urlKind env)) = readings [urlKind env l] ++ readings (ls.map (urlKind env)) := by
      simp only [readings, List.map_cons, List.filterMap_cons, List.filterMap_nil]
      split <;> simp
    rw [e', e, accepted_append, List.map_append, ← ih]
    congr 1
    unfold urlKind urlOf
    by_cases h : stripB l = []
    · simp [h, readings, accepted]
    · simp only [h, if_false]
      cases hd : env.decode (stripB l) with
      | none => simp [readings, accepted]
      | some u =>
        simp only [Option.map_some, Option.toList_some, accepted]
        split <;> simp_all [readings, Rec.keys, Rec.rules]

theorem makeLoadC_eq (env : Env) (loadUrl : Bool) (lines : List Bytes)
    (hc : NoCollision env.md5 (accepted (urlsOf env loadUrl lines))) :
    makeLoadC env loadUrl lines = ((makeLoad env loadUrl lines).1, tallied (urlEvents [] (lines.map (urlKind env)))) := by
  revert hc
  refine snoc_ind (P := fun lines => NoCollision env.md5 (accepted (urlsOf env loadUrl lines)) → makeLoadC env loadUrl lines =
    ((makeLoad env loadUrl lines).1, tallied (urlEvents [] (lines.map (urlKind env))))) (fun _ => rfl) ?_ lines
  intro lines l ih hc
  have hc' : NoCollision env.md5 (accepted (urlsOf env loadUrl lines)) := by
    rw [urlsOf_concat, accepted_append] at hc; exact hc.of_append
  have e1 : makeLoadC env loadUrl (lines ++ [l]) = makeLineC env loadUrl (makeLoadC env loadUrl lines) l := by
    simp [makeLoadC, List.foldl_append]
  obtain ⟨seen, h1, h2⟩ := urlEvents_append [] (lines.map (urlKind env)) [urlKind env l]
  rw [e1, makeLoad_concat, List.map_append, List.map_singleton, h2, ih hc', tallied_append]
  rw [urlsOf_concat] at hc
  have hst := makeLoad_fst env loadUrl lines
  have hr := readings_accepted env loadUrl lines
  generalize tallied (urlEvents [] (lines.map (urlKind env))) = c
  generalize hms : makeLoad env loadUrl lines = ms at hst ⊢
  obtain ⟨st, stats⟩ := ms
  simp only at hst
  unfold makeLineC makeLine urlKind
  unfold urlOf at hc
  by_cases h : stripB l = []
  · simp [h, urlEvents]
  · have h' : (stripB l).isEmpty = false := by simpa [List.isEmpty_iff] using h
    simp only [h', h, if_false, Bool.false_eq_true] at hc ⊢
    cases hd : env.decode (stripB l) with
    | none => simp [urlEvents]
    | some u =>
      rw [hd] at hc
      simp only [Option.map_some, Option.toList_some] at hc ⊢
      by_cases hp : ∃ m pps, parse u = .ok (m, .pieces pps)
      · obtain ⟨m, pps, hp⟩ := hp
        obtain ⟨st', isNew, hl, hn⟩ := C22_isNew env.md5 (urlsOf env loadUrl lines) u (if loadUrl = true then some u else none) m pps hp hc
        have hn' : isNew = true ↔ (m, pps.map (·.fuzzyRule), pps.map (·.piece)) ∉ seen := by
          rw [hn, h1, hr]
          simp only [List.not_mem_nil, false_or, List.mem_map, not_exists, not_and]
          constructor
          · intro hn r hra e
            obtain ⟨u', h3, h4⟩ := mem_accepted.mp hra
            simp only [Prod.mk.injEq] at e
            exact hn u' r.md r.m r.pps h3 h4 e.1 e.2.1 e.2.2
          · intro hn u' md' m' pps' h3 h4 a b c
            exact hn ⟨m', pps', md'⟩ (mem_accepted.mpr ⟨u', h3, h4⟩) (by simp [Rec.rules, Rec.keys, a, b, c])
        rw [hst, hl, hp]
        simp only [urlEvents, List.append_nil]
        cases isNew with
        | true => rw [if_pos rfl, if_neg (hn'.mp rfl)]; rfl
        | false =>
          have : (m, pps.map (·.fuzzyRule), pps.map (·.piece)) ∈ seen :=
            Classical.byContradiction fun h => by have := hn'.mpr h; cases this
          rw [if_pos this]; rfl
      · have hp' : ∀ m pps, parse u ≠ .ok (m, .pieces pps) := fun m pps e => hp ⟨m, pps, e⟩
        obtain ⟨e, he⟩ := load_reject env.md5 st (if loadUrl = true then some u else none) hp'
        simp only [he]
        simp [urlEvents]

/-- **C53**: the message of the make command after loading is the tally of its lines: every line counts for
`ALL`; a blank one for `EMPTY`; one that does not decode or does not read as a URL for `INVALID`; a URL for
`VALID` and, just before, for `UNIQ` when no earlier line has the same reading. -/
theorem C53_make (env : Env) (loadUrl : Bool) (lines : List Bytes)
    (hc : NoCollision env.md5 (accepted (urlsOf env loadUrl lines))) :
    (makeLoadC env loadUrl lines).1 = (makeLoad env loadUrl lines).1 ∧
    makeLoadedMsg env loadUrl lines = c!"[LOADED] " ++ tallyText (urlEvents [] (lines.map (fun l =>
      if stripB l = [] then .empty
      else match env.decode (stripB l) with
        | none => .bad
        | some u => match parse u with
          | .ok (m, .pieces pps) => .url (m, pps.map (·.fuzzyRule), pps.map (·.piece))
          | _ => .bad))) := by
  refine ⟨by rw [makeLoadC_eq _ _ _ hc], ?_⟩
  rw [makeLoadedMsg, makeLoadC_eq _ _ _ hc, pretty_tallied]
  rfl

/-- **C53**: the counter holds the numbers of `C37`, whatever the digest. -/
theorem C53_stats (env : Env) (loadUrl : Bool) (lines : List Bytes) :
    (makeLoadC env loadUrl lines).1 = (makeLoad env loadUrl lines).1 ∧
    let count := fun k => (Dict.get? k (makeLoadC env loadUrl lines).2).getD 0
    let s := (makeLoad env loadUrl lines).2
    count c!"ALL" = s.all ∧ count c!"EMPTY" = s.empty ∧ count c!"UNIQ" = s.uniq ∧ count c!"VALID" = s.valid ∧
      count c!"INVALID" = s.invalid := by
  refine snoc_ind (P := fun lines => (makeLoadC env loadUrl lines).1 = (makeLoad env loadUrl lines).1 ∧
    let count := fun k => (Dict.get? k (makeLoadC env loadUrl lines).2).getD 0
    let s := (makeLoad env loadUrl lines).2
    count c!"ALL" = s.all ∧ count c!"EMPTY" = s.empty ∧ count c!"UNIQ" = s.uniq ∧ count c!"VALID" = s.valid ∧
      count c!"INVALID" = s.invalid) ⟨rfl, rfl, rfl, rfl, rfl, rfl⟩ ?_ lines
  intro lines l ih
  have e1 : makeLoadC env loadUrl (lines ++ [l]) = makeLineC env loadUrl (makeLoadC env loadUrl lines) l := by
    simp [makeLoadC, List.foldl_append]
  rw [e1, makeLoad_concat]
  generalize makeLoadC env loadUrl lines = a at ih ⊢
  generalize makeLoad env loadUrl lines = b at ih ⊢
  obtain ⟨sa, ca⟩ := a
  obtain ⟨sb, cb⟩ := b
  simp only at ih
  obtain ⟨rfl, i1, i2, i3, i4, i5⟩ := ih
  unfold makeLineC makeLine
  by_cases h : stripB l = []
  · simp [h, counterInc, Dict.get?_upd, i1, i2, i3, i4, i5]
  · have h' : (stripB l).isEmpty = false := by simpa [List.isEmpty_iff] using h
    simp only [h', if_false, Bool.false_eq_true]
    cases hd : env.decode (stripB l) with
    | none => simp [counterInc, Dict.get?_upd, i1, i2, i3, i4, i5]
    | some u =>
      simp only
      cases hl : PatternMakerSt.load env.md5 sa u (if loadUrl = true then some u else none) with
      | error e => simp [counterInc, Dict.get?_upd, i1, i2, i3, i4, i5]
      | ok x =>
        obtain ⟨mk, isNew⟩ := x
        cases isNew <;> simp [counterInc, Dict.get?_upd, i1, i2, i3, i4, i5]

/-- The order is that of the first occurrence; the second `http://x/a` is not new. -/
example : makeLoadedMsg asciiEnv true [lineB c!"  ", lineB c!"http://h/a", lineB c!" http://x/a ", lineB c!"http://h/b",
      [200, 10], lineB c!"/a", lineB c!"http://h/a b"] = c!"[LOADED] ALL:7, EMPTY:1, UNIQ:2, VALID:3, INVALID:3" := by
  decide +kernel

end OsUrl
