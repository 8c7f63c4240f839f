import Verif.Model.Log
import Verif.Proofs.Pipe
import Verif.Props.C16
import Verif.Props.C24
import Verif.Props.C33
import Verif.Props.C47
import Verif.Props.C53
import Verif.Props.C66

/-! # C67: what the two commands log -/

namespace OsUrl
open Spec

/-! ### the specification -/

/-- The records of a loop over lines: at every line whose number (from 1) is a multiple of `interval` its number, then what `problem` says about
the line. -/
def lineLog (tag : Str) (interval : Nat) (problem : Bytes → Option LogRec) (lines : List Bytes) : List LogRec :=
  (lines.zipIdx 1).flatMap (fun x => (if interval ∣ x.2 then [⟨.debug, .speed tag x.2⟩] else []) ++ (problem x.1).toList)

/-- What `pattern-make` says about a line: nothing about a blank line or a URL; a warning about bytes that do not decode, about a pattern and
about a text that does not parse, but an error if the text is `#` (or empty). -/
def makeProblem (env : Env) (l : Bytes) : Option LogRec :=
  if stripB l = [] then none
  else match env.decode (stripB l) with
    | none => some ⟨.warn, .rejected .valueError (stripB l)⟩
    | some u => match parse u with
      | .ok (_, .pieces _) => none
      | .ok (_, .patterns _) => some ⟨.warn, .rejected .valueError (stripB l)⟩
      | .error e => some ⟨if u = [] ∨ u = c!"#" then .error else .warn, .rejected e (stripB l)⟩

/-- What `pattern-match` says about a line of a pattern file: a warning when it begins with a slash and does not decode or does not parse. -/
def patternProblem (env : Env) (l : Bytes) : Option LogRec :=
  if (rstripB l).head? ≠ some 47 then none
  else match env.decode (rstripB l) with
    | none => some ⟨.warn, .rejected .valueError (rstripB l)⟩
    | some p => match parse p with
      | .ok (_, .patterns _) => none
      | .ok (_, .pieces _) => some ⟨.warn, .rejected .valueError (rstripB l)⟩
      | .error e => some ⟨.warn, .rejected e (rstripB l)⟩

/-! ### the loops -/

theorem lineLog_concat (tag : Str) (interval : Nat) (problem : Bytes → Option LogRec) (lines : List Bytes) (l : Bytes) :
    lineLog tag interval problem (lines ++ [l]) = lineLog tag interval problem lines ++
      ((if interval ∣ lines.length + 1 then [⟨.debug, .speed tag (lines.length + 1)⟩] else []) ++ (problem l).toList) := by
  unfold lineLog
  rw [List.zipIdx_append, List.flatMap_append]
  simp [Nat.add_comm]

theorem speed_eq (tag : Str) (interval count : Nat) : speedDebug tag interval count =
    (count + 1, if interval ∣ count + 1 then [⟨.debug, .speed tag (count + 1)⟩] else []) := by
  unfold speedDebug logStep
  by_cases h : interval ∣ count + 1
  · simp [h, Nat.mod_eq_zero_of_dvd h]
  · simp [h, mt Nat.dvd_of_mod_eq_zero h]

/-- A loop whose step counts, logs the speed and then a problem of the line. -/
theorem loop_log {σ : Type} {f : Logged σ → Bytes → Logged σ} {tag : Str} {interval : Nat} {problem : Bytes → Option LogRec}
    (h : ∀ s l, (f s l).count = s.count + 1 ∧ (f s l).log = s.log ++
      ((if interval ∣ s.count + 1 then [⟨.debug, .speed tag (s.count + 1)⟩] else []) ++ (problem l).toList)) (s0 : σ) (log0 : List LogRec)
    (lines : List Bytes) :
    (lines.foldl f ⟨s0, 0, log0⟩).count = lines.length ∧
      (lines.foldl f ⟨s0, 0, log0⟩).log = log0 ++ lineLog tag interval problem lines := by
  refine snoc_ind (P := fun lines => (lines.foldl f ⟨s0, 0, log0⟩).count = lines.length ∧
      (lines.foldl f ⟨s0, 0, log0⟩).log = log0 ++ lineLog tag interval problem lines) ⟨rfl, by simp [lineLog]⟩ ?_ lines
  intro lines l ih
  rw [List.foldl_append]
  simp only [List.foldl_cons, List.foldl_nil]
  obtain ⟨h1, h2⟩ := h (lines.foldl f ⟨s0, 0, log0⟩) l
  rw [h1, h2, ih.1, ih.2, lineLog_concat]
  simp

/-- The level of an exception of `parse`. -/
theorem parse_level {u : Str} {e : PyErr} (h : parse u = .error e) :
    exceptLevel e = if u = [] ∨ u = c!"#" then .error else .warn := by
  cases hs : startsWith ['/'] u with
  | false =>
    rcases C66_url u e hs h with ⟨rfl, h1⟩ | ⟨rfl, h1⟩ | rfl | ⟨rfl, h1⟩
    · rw [if_pos h1]; rfl
    · rw [if_neg]; rfl
      rintro (rfl | rfl)
      · simp at h1
      · revert h1; decide
    · rw [if_neg]; rfl
      rintro (rfl | rfl)
      · have : (parse []) = .error .indexError := rfl
        rw [this] at h; cases h
      · have : (parse c!"#") = .error .indexError := rfl
        rw [this] at h; cases h
    · rw [if_neg]; rfl
      rintro (rfl | rfl)
      · have : (parse []) = .error .indexError := rfl
        rw [this] at h; cases h
      · have : (parse c!"#") = .error .indexError := rfl
        rw [this] at h; cases h
  | true =>
    have hl : PatternMatcherSt.load (fun x => x) [] u none = .error e := by
      unfold PatternMatcherSt.load; rw [h]; rfl
    rw [if_neg]
    · rcases C66_pattern _ _ u none e hs hl with rfl | rfl | ⟨rfl, -⟩ <;> rfl
    · rintro (rfl | rfl)
      · exact absurd hs (by decide)
      · exact absurd hs (by decide)

theorem make_step (env : Env) (loadUrl : Bool) (s : Logged (PatternMakerSt × Dict Str Nat)) (l : Bytes) :
    (makeLineLog env loadUrl s l).state = makeLineC env loadUrl s.state l ∧ (makeLineLog env loadUrl s l).count = s.count + 1 ∧
      (makeLineLog env loadUrl s l).log = s.log ++
        ((if 5000 ∣ s.count + 1 then [⟨.debug, .speed c!"[LOADING]" (s.count + 1)⟩] else []) ++ (makeProblem env l).toList) := by
  unfold makeLineLog makeLineC makeProblem
  rw [speed_eq]
  by_cases h : stripB l = []
  · simp [h]
  · have h' : (stripB l).isEmpty = false := by simpa [List.isEmpty_iff] using h
    simp only [h, h', Bool.false_eq_true, if_false]
    cases hd : env.decode (stripB l) with
    | none => simp [exceptLevel]
    | some u =>
      simp only
      cases hp : parse u with
      | error e =>
        have hl : PatternMakerSt.load env.md5 s.state.1 u (if loadUrl = true then some u else none) = .error e := by
          unfold PatternMakerSt.load; rw [hp]; rfl
        rw [hl]
        simp only [parse_level hp, Option.toList_some, List.append_assoc, and_self]
      | ok x =>
        obtain ⟨m, x⟩ := x
        cases x with
        | patterns ps =>
          have hl : PatternMakerSt.load env.md5 s.state.1 u (if loadUrl = true then some u else none) = .error .valueError := by
            unfold PatternMakerSt.load; rw [hp]; rfl
          rw [hl]
          simp [exceptLevel]
        | pieces pps =>
          obtain ⟨⟨mk, isNew⟩, hl⟩ := (load_ok_iff env.md5 s.state.1 u (if loadUrl = true then some u else none)).mpr ⟨m, pps, hp⟩
          rw [hl]
          simp

/-- **C67**: the log of `pattern-make` while it loads.  Every 5000th line there is a `[LOADING]` record; every line that is neither blank nor a URL
gets one record with the exception, a warning except for the text `#`; at the end the counters (C53).  The maker and the counters are those of the
model without log. -/
theorem C67_make (env : Env) (loadUrl : Bool) (lines : List Bytes) :
    (makeLoadLog env loadUrl lines).1 = makeLoadC env loadUrl lines ∧
    (makeLoadLog env loadUrl lines).2 = lineLog c!"[LOADING]" 5000 (fun l =>
      if stripB l = [] then none
      else match env.decode (stripB l) with
        | none => some ⟨.warn, .rejected .valueError (stripB l)⟩
        | some u => match parse u with
          | .ok (_, .pieces _) => none
          | .ok (_, .patterns _) => some ⟨.warn, .rejected .valueError (stripB l)⟩
          | .error e => some ⟨if u = [] ∨ u = c!"#" then .error else .warn, .rejected e (stripB l)⟩) lines ++
      [⟨.debug, .msg (makeLoadedMsg env loadUrl lines)⟩] := by
  have hst : ∀ (ls : List Bytes) s, (ls.foldl (makeLineLog env loadUrl) s).state = ls.foldl (makeLineC env loadUrl) s.state := by
    intro ls
    induction ls with
    | nil => intro s; rfl
    | cons l ls ih => intro s; simp only [List.foldl_cons, ih, (make_step env loadUrl s l).1]
  have hlog := (loop_log (fun s l => (make_step env loadUrl s l).2) (([], []) : PatternMakerSt × Dict Str Nat) [] lines).2
  unfold makeLoadLog makeLoadedMsg makeLoadC
  refine ⟨hst lines _, ?_⟩
  simp only [hst, hlog, List.nil_append]
  rfl

/-- A record of level `warn` or above. -/
def serious (r : LogRec) : Bool := decide (30 ≤ r.level.num)

theorem speed_silent (tag : Str) (interval n : Nat) :
    (if interval ∣ n then [(⟨.debug, .speed tag n⟩ : LogRec)] else []).filter serious = [] := by
  by_cases h : interval ∣ n
  · rw [if_pos h]; rfl
  · rw [if_neg h]; rfl

theorem serious_lines {tag : Str} {interval : Nat} {problem : Bytes → Option LogRec} (hs : ∀ l r, problem l = some r → serious r = true)
    (lines : List Bytes) : (lineLog tag interval problem lines).filter serious = lines.filterMap problem := by
  refine snoc_ind (P := fun lines => (lineLog tag interval problem lines).filter serious = lines.filterMap problem) rfl ?_ lines
  intro lines l ih
  rw [lineLog_concat, List.filter_append, List.filter_append, ih, speed_silent, List.nil_append, List.filterMap_append]
  congr 1
  cases hp : problem l with
  | none => simp [hp]
  | some r => simp [hp, hs l r hp]

theorem makeProblem_serious (env : Env) : ∀ l r, makeProblem env l = some r → serious r = true := by
  intro l r h
  unfold makeProblem at h
  by_cases h1 : stripB l = []
  · rw [if_pos h1] at h; cases h
  · rw [if_neg h1] at h
    cases hd : env.decode (stripB l) with
    | none => rw [hd] at h; cases h; rfl
    | some u =>
      rw [hd] at h
      simp only at h
      cases hp : parse u with
      | error e =>
        rw [hp] at h
        cases h
        by_cases hu : u = [] ∨ u = c!"#"
        · simp only [if_pos hu]; rfl
        · simp only [if_neg hu]; rfl
      | ok x =>
        obtain ⟨m, x⟩ := x
        rw [hp] at h
        cases x <;> cases h
        rfl

theorem makeProblem_none (env : Env) (l : Bytes) : makeProblem env l = none ↔ stripB l = [] ∨ lineOK env l = true := by
  unfold makeProblem lineOK urlOf
  by_cases h1 : stripB l = []
  · simp [h1]
  · simp only [h1, if_false, false_or]
    cases hd : env.decode (stripB l) with
    | none => simp
    | some u =>
      simp only
      cases hp : parse u with
      | error e => simp
      | ok x =>
        obtain ⟨m, x⟩ := x
        cases x <;> simp

theorem lineOK_blank {env : Env} {l : Bytes} (h : stripB l = []) : lineOK env l = false := by
  unfold lineOK urlOf
  rw [if_pos h]

theorem problems_count (env : Env) (lines : List Bytes) :
    (lines.filter (fun l => decide (stripB l = []))).length + (lines.filter (lineOK env)).length + (lines.filterMap (makeProblem env)).length =
      lines.length := by
  induction lines with
  | nil => rfl
  | cons l ls ih =>
    simp only [List.filter_cons, List.filterMap_cons, List.length_cons]
    by_cases h1 : stripB l = []
    · have := (makeProblem_none env l).mpr (.inl h1)
      simp only [this, h1, lineOK_blank h1, decide_true, if_true, Bool.false_eq_true, if_false, List.length_cons]
      omega
    · by_cases h2 : lineOK env l = true
      · have := (makeProblem_none env l).mpr (.inr h2)
        simp only [this, h1, h2, decide_false, if_true, Bool.false_eq_true, if_false, List.length_cons]
        omega
      · cases hp : makeProblem env l with
        | none => exact absurd ((makeProblem_none env l).mp hp) (by rintro (h | h); exact h1 h; exact h2 h)
        | some r =>
          simp only [h1, h2, decide_false, Bool.false_eq_true, if_false, List.length_cons]
          omega

/-- **C67**: the warnings and errors of `pattern-make` are as many as its counter `INVALID` says, in the order of the lines. -/
theorem C67_invalid (env : Env) (loadUrl : Bool) (lines : List Bytes) :
    (makeLoadLog env loadUrl lines).2.filter (fun r => decide (30 ≤ r.level.num)) = lines.filterMap (makeProblem env) ∧
    (lines.filterMap (makeProblem env)).length = (Dict.get? c!"INVALID" (makeLoadLog env loadUrl lines).1.2).getD 0 := by
  obtain ⟨h1, h2⟩ := C67_make env loadUrl lines
  constructor
  · rw [h2, List.filter_append]
    have := serious_lines (tag := c!"[LOADING]") (interval := 5000) (makeProblem_serious env) lines
    exact (congrArg (· ++ []) this).trans (List.append_nil _)
  · obtain ⟨-, -, -, -, -, h3⟩ := C53_stats env loadUrl lines
    rw [h1]
    refine Eq.trans ?_ h3.symm
    obtain ⟨a1, a2, -⟩ := C37_sum env loadUrl lines
    obtain ⟨b1, b2, -⟩ := C37_valid env loadUrl lines
    have := problems_count env lines
    omega

/-- **C67**: an error (not a warning) is logged by `pattern-make` only for a line that is `#`, and always for it. -/
theorem C67_error (env : Env) (hu : StrictUtf8 env) (loadUrl : Bool) (lines : List Bytes) (r : LogRec) :
    (r ∈ (makeLoadLog env loadUrl lines).2 ∧ r.level = .error) ↔
      r = ⟨.error, .rejected .indexError [35]⟩ ∧ ∃ l ∈ lines, stripB l = [35] := by
  have hdec : env.decode [35] = some c!"#" := by
    have := hu.back c!"#"
    rwa [hu.ascii '#' (by decide)] at this
  have key : ∀ l r, makeProblem env l = some r → r.level = .error → r = ⟨.error, .rejected .indexError [35]⟩ ∧ stripB l = [35] := by
    intro l r h hr
    unfold makeProblem at h
    by_cases h1 : stripB l = []
    · rw [if_pos h1] at h; cases h
    · rw [if_neg h1] at h
      cases hd : env.decode (stripB l) with
      | none => rw [hd] at h; cases h; cases hr
      | some u =>
        rw [hd] at h
        simp only at h
        cases hp : parse u with
        | error e =>
          rw [hp] at h
          cases h
          by_cases hu' : u = [] ∨ u = c!"#"
          · have hb := hu.decode _ _ hd
            rcases hu' with rfl | rfl
            · rw [hu.nil] at hb
              exact absurd hb.symm h1
            · rw [hu.ascii '#' (by decide)] at hb
              have he : (parse c!"#") = .error .indexError := rfl
              rw [he] at hp
              cases hp
              rw [← hb]
              exact ⟨rfl, rfl⟩
          · simp only [if_neg hu'] at hr
            cases hr
        | ok x =>
          obtain ⟨m, x⟩ := x
          rw [hp] at h
          cases x with
          | pieces pps => cases h
          | patterns ps => cases h; cases hr
  rw [(C67_make env loadUrl lines).2]
  constructor
  · rintro ⟨h, hr⟩
    have h' : r ∈ (lineLog c!"[LOADING]" 5000 (makeProblem env) lines).filter serious := by
      rcases List.mem_append.mp h with h | h
      · exact List.mem_filter.mpr ⟨h, by unfold serious; rw [hr]; rfl⟩
      · rw [List.mem_singleton.mp h] at hr; cases hr
    rw [serious_lines (makeProblem_serious env)] at h'
    obtain ⟨l, hl, e⟩ := List.mem_filterMap.mp h'
    obtain ⟨e1, e2⟩ := key l r e hr
    exact ⟨e1, l, hl, e2⟩
  · rintro ⟨rfl, l, hl, e⟩
    refine ⟨List.mem_append_left _ ?_, rfl⟩
    have h' : (⟨.error, .rejected .indexError [35]⟩ : LogRec) ∈ (lineLog c!"[LOADING]" 5000 (makeProblem env) lines).filter serious := by
      rw [serious_lines (makeProblem_serious env)]
      refine List.mem_filterMap.mpr ⟨l, hl, ?_⟩
      unfold makeProblem
      rw [e, if_neg (by decide), hdec]
      rfl
    exact (List.mem_filter.mp h').1

/-! ### clusters -/

theorem cbuild_count (count : Int) (ps : List Str) (d : CNode) (f : Forest CNode) : (cbuild count ps d f).1.count = d.count + count := by
  cases ps <;> rfl

theorem combine_count {cs : List (Tree NodeData)} {t t' : Tree CNode} (h : combineLoop cs t = .ok t') :
    t'.root.count = t.root.count + (cs.map (fun c => c.root.count)).sum := by
  induction cs generalizing t with
  | nil => cases h; simp
  | cons c cs ih =>
    unfold combineLoop at h
    cases hp : c.paths with
    | nil => rw [hp] at h; cases h
    | cons p ps =>
      rw [hp] at h
      have := ih h
      rw [this]
      simp only [cbuild_count, List.map_cons, List.sum_cons]
      omega

theorem mapM_sum {α β γ : Type} {f : α → Py β} {g : α → Py γ} {wf : β → Int} {wg : γ → Int}
    (h : ∀ a b c, f a = .ok b → g a = .ok c → wf b = wg c) {l : List α} {bs : List β} {cs : List γ} (h1 : l.mapM f = .ok bs)
    (h2 : l.mapM g = .ok cs) : (bs.map wf).sum = (cs.map wg).sum := by
  induction l generalizing bs cs with
  | nil => cases h1; cases h2; rfl
  | cons a l ih =>
    rw [List.mapM_cons] at h1 h2
    obtain ⟨b, hb, h1⟩ := bind_ok h1
    obtain ⟨bs', hbs, h1⟩ := bind_ok h1
    obtain ⟨c, hc, h2⟩ := bind_ok h2
    obtain ⟨cs', hcs, h2⟩ := bind_ok h2
    cases h1
    cases h2
    simp only [List.map_cons, List.sum_cons, h a b c hb hc, ih hbs hcs]

theorem sum_flatten {α : Type} (w : α → Int) (ls : List (List α)) :
    (ls.flatten.map w).sum = (ls.map (fun l => (l.map w).sum)).sum := by
  induction ls with
  | nil => rfl
  | cons l ls ih => simp only [List.flatten_cons, List.map_append, List.sum_append, List.map_cons, List.sum_cons, ih]

theorem make_counts {h : Runtime} {mcn : Int} {st : PatternMakerSt} {cs : List (URLMeta × Tree NodeData)}
    {Ts : List (URLMeta × Tree CNode)} (h1 : st.make h mcn = .ok cs) (h2 : st.makeCombined h mcn = .ok Ts) :
    (cs.map (fun c => c.2.root.count)).sum = (Ts.map (fun T => T.2.root.count)).sum := by
  unfold PatternMakerSt.make at h1
  obtain ⟨rs, hrs, h1⟩ := bind_ok h1
  cases h1
  rw [sum_flatten]
  refine mapM_sum ?_ hrs h2
  intro kv ts T e1 e2
  obtain ⟨ts', h3, e1⟩ := bind_ok e1
  cases e1
  obtain ⟨T', h4, e2⟩ := bind_ok e2
  cases e2
  unfold MakerSt.makeCombined at h4
  rw [h3] at h4
  have := combine_count (t' := T') h4
  simp only [Int.zero_add] at this
  rw [List.map_map]
  exact this.symm

theorem combined_uniq (env : Env) (mcn : Int) (hm : 2 ≤ mcn) (loadUrl : Bool) (lines : List Bytes)
    (hc : NoCollision env.md5 (accepted (urlsOf env loadUrl lines))) (hh : NoHashClash env.rt (UrlRow (urlsOf env loadUrl lines))) :
    ∃ Ts, (makeLoad env loadUrl lines).1.makeCombined env.rt mcn = .ok Ts ∧
      (Ts.map (fun T => T.2.root.count)).sum = ((makeLoad env loadUrl lines).2.uniq : Int) := by
  obtain ⟨Ts, h1, h2, h3⟩ := C33_combined env.md5 env.rt mcn hm _ hc hh
  refine ⟨Ts, by rw [makeLoad_fst]; exact h1, ?_⟩
  rw [C37_uniq]
  have hp := C37_paths env loadUrl lines hc
  rw [makeLoad_fst] at hp ⊢
  have e : Ts.map (fun T => T.2.root.count) = (loadAll env.md5 (urlsOf env loadUrl lines)).map (fun km => km.2.tree.root.count) := by
    apply List.ext_getElem?
    intro i
    rw [List.getElem?_map, List.getElem?_map]
    cases hT : Ts[i]? with
    | none =>
      have := List.getElem?_eq_none_iff.mp hT
      rw [List.getElem?_eq_none_iff.mpr (by omega)]
      rfl
    | some T =>
      obtain ⟨hi, -⟩ := List.getElem?_eq_some_iff.mp hT
      have hkv := List.getElem?_eq_getElem (l := loadAll env.md5 (urlsOf env loadUrl lines)) (i := i) (by omega)
      rw [hkv]
      have := (h3 i _ T hkv hT).root
      simp only [Option.map_some, this]
      exact congrArg some (hp _ _ (List.mem_of_getElem? hkv)).1.symm
  rw [e]

/-- **C67**: after loading, `pattern-make` logs one `[CLUSTER]` record per cluster; the printed lines are those of the model without log, and the
counts of the clusters, which are positive, add up to the counter `UNIQ`. -/
theorem C67_clusters (env : Env) (mcn : Int) (hm : 2 ≤ mcn) (f : Fmt) (lines : List Bytes)
    (hc : NoCollision env.md5 (accepted (urlsOf env (loadsUrl f) lines)))
    (hh : NoHashClash env.rt (UrlRow (urlsOf env (loadsUrl f) lines))) :
    ∃ cs, (makeLoad env (loadsUrl f) lines).1.make env.rt mcn = .ok cs ∧ ∃ out, makeRun env mcn f lines = .ok out ∧
      makeRunLog env mcn f lines = .ok (out, (makeLoadLog env (loadsUrl f) lines).2 ++
        cs.map (fun c => ⟨.debug, .cluster c.2.root.count⟩)) ∧
      (∀ c ∈ cs, 1 ≤ c.2.root.count) ∧
      (cs.map (fun c => c.2.root.count)).sum =
        ((Dict.get? c!"UNIQ" (makeLoadLog env (loadsUrl f) lines).1.2).getD 0 : Nat) := by
  obtain ⟨cs, h1, -, -, h4⟩ := C24_partition env.md5 env.rt mcn hm _ hc hh
  obtain ⟨Ts, e1, e2⟩ := combined_uniq env mcn hm (loadsUrl f) lines hc hh
  obtain ⟨a0, -⟩ := C67_make env (loadsUrl f) lines
  obtain ⟨a1, a2⟩ := C53_stats env (loadsUrl f) lines
  have hmk : (makeLoad env (loadsUrl f) lines).1.make env.rt mcn = .ok cs := by rw [makeLoad_fst]; exact h1
  have hlog : (makeLoadLog env (loadsUrl f) lines).1.1 = (makeLoad env (loadsUrl f) lines).1 := by rw [a0, a1]
  refine ⟨cs, hmk, cs.flatMap (fun mt => pformat env.rt f mt.1 mt.2), ?_, ?_, ?_, ?_⟩
  · unfold makeRun makeProcess
    rw [hmk]
    rfl
  · unfold makeRunLog makeProcessLog
    simp only [hlog, hmk]
    rfl
  · intro c hcm
    obtain ⟨b1, b2, -⟩ := h4 c hcm
    rw [b2]
    have := List.length_pos_iff.mpr b1
    omega
  · rw [a0, make_counts hmk e1, e2]
    have := a2.2.2.1
    simp only at this
    rw [this]

/-- **C67**: with the format `ETE` there is one `[CLUSTER]` record per group of URLs of one structure; the counts add up as well. -/
theorem C67_ete (env : Env) (mcn : Int) (hm : 2 ≤ mcn) (lines : List Bytes)
    (hc : NoCollision env.md5 (accepted (urlsOf env false lines))) (hh : NoHashClash env.rt (UrlRow (urlsOf env false lines))) :
    ∃ ns : List Int, makeProcessEteLog env mcn (makeLoad env false lines).1 = .ok (ns.map (fun n => ⟨.debug, .cluster n⟩)) ∧
      ns.length = (makeLoad env false lines).1.length ∧ ns.sum = ((makeLoad env false lines).2.uniq : Int) := by
  obtain ⟨Ts, e1, e2⟩ := combined_uniq env mcn hm false lines hc hh
  refine ⟨Ts.map (fun T => T.2.root.count), ?_, ?_, e2⟩
  · unfold makeProcessEteLog
    rw [e1, List.map_map]
    rfl
  · obtain ⟨Ts', h1, h2, -⟩ := C33_combined env.md5 env.rt mcn hm _ hc hh
    rw [makeLoad_fst] at e1 ⊢
    rw [e1] at h1
    cases h1
    rw [List.length_map, h2]

/-! ### `pattern-match` -/

theorem match_load_step (env : Env) (s : Logged (PatternMatcherSt × Dict Str Nat)) (l : Bytes) :
    (matchLoadLineLog env s l).state = matchLoadLineC env s.state l ∧ (matchLoadLineLog env s l).count = s.count + 1 ∧
      (matchLoadLineLog env s l).log = s.log ++
        ((if 1000 ∣ s.count + 1 then [⟨.debug, .speed c!"[LOADING]" (s.count + 1)⟩] else []) ++ (patternProblem env l).toList) := by
  unfold matchLoadLineLog matchLoadLineC patternProblem
  rw [speed_eq]
  by_cases h : (rstripB l).head? ≠ some 47
  · simp only [if_pos h]; simp
  · simp only [if_neg h]
    cases hd : env.decode (rstripB l) with
    | none => simp
    | some p =>
      simp only
      cases hp : parse p with
      | error e =>
        have hl : PatternMatcherSt.load env.md5 s.state.1 p (some p) = .error e := by
          unfold PatternMatcherSt.load; rw [hp]; rfl
        rw [hl]
        simp
      | ok x =>
        obtain ⟨m, x⟩ := x
        cases x with
        | patterns ps =>
          obtain ⟨⟨st, b⟩, hl⟩ := mload_total env.md5 s.state.1 (some p) hp
          rw [hl]
          simp
        | pieces pps =>
          have hl : PatternMatcherSt.load env.md5 s.state.1 p (some p) = .error .valueError := by
            unfold PatternMatcherSt.load; rw [hp]; rfl
          rw [hl]
          simp

/-- **C67**: the log of `pattern-match` while it loads the pattern files: their names; every 1000th line a `[LOADING]` record; a warning for every
line that begins with a slash and is not loaded, whatever the exception; the counters (C53). -/
theorem C67_match_load (env : Env) (names : List Str) (lines : List Bytes) :
    (matchLoadLog env names lines).1 = matchLoadC env lines ∧
    (matchLoadLog env names lines).2 = [⟨.debug, .msg (matchFilesMsg names)⟩] ++ lineLog c!"[LOADING]" 1000 (fun l =>
      if (rstripB l).head? ≠ some 47 then none
      else match env.decode (rstripB l) with
        | none => some ⟨.warn, .rejected .valueError (rstripB l)⟩
        | some p => match parse p with
          | .ok (_, .patterns _) => none
          | .ok (_, .pieces _) => some ⟨.warn, .rejected .valueError (rstripB l)⟩
          | .error e => some ⟨.warn, .rejected e (rstripB l)⟩) lines ++
      [⟨.debug, .msg (matchFinishedMsg env lines)⟩] := by
  have hst : ∀ (ls : List Bytes) s, (ls.foldl (matchLoadLineLog env) s).state = ls.foldl (matchLoadLineC env) s.state := by
    intro ls
    induction ls with
    | nil => intro s; rfl
    | cons l ls ih => intro s; simp only [List.foldl_cons, ih, (match_load_step env s l).1]
  have hlog := (loop_log (fun s l => (match_load_step env s l).2) (([], []) : PatternMatcherSt × Dict Str Nat)
    [⟨.debug, .msg (matchFilesMsg names)⟩] lines).2
  unfold matchLoadLog matchFinishedMsg matchLoadC
  refine ⟨hst lines _, ?_⟩
  simp only [hst, hlog]
  rfl

/-- What `pattern-match` says about a line to be matched. -/
def matchProblem (env : Env) (st : PatternMatcherSt) (allMatched : Bool) (l : Bytes) : Option LogRec :=
  match matchTry env st allMatched (stripB l) with
  | .ok _ => none
  | .error e => some ⟨exceptLevel e, .rejected e (stripB l)⟩

/-- **C67**: what `pattern-match` writes is what the model without log says; its log is that of loading, every 5000th line a `[MATCHING]` record, and
one record for every line that ends in an exception. -/
theorem C67_match (env : Env) (allMatched : Bool) (names : List Str) (patternLines lines : List Bytes) :
    (matchRunLog env allMatched names patternLines lines).1 = matchRun env allMatched patternLines lines ∧
    (matchRunLog env allMatched names patternLines lines).2 = (matchLoadLog env names patternLines).2 ++
      lineLog c!"[MATCHING]" 5000 (matchProblem env (matchLoad env patternLines) allMatched) lines := by
  have hst := (C67_match_load env names patternLines).1
  have hst' : (matchLoadLog env names patternLines).1.1 = matchLoad env patternLines := by rw [hst, (C53_match env patternLines).1]
  have step : ∀ st (s : Logged Bytes) (l : Bytes), (matchLineLog env st allMatched s l).state = s.state ++ matchLine env st allMatched l ∧
      (matchLineLog env st allMatched s l).count = s.count + 1 ∧
      (matchLineLog env st allMatched s l).log = s.log ++
        ((if 5000 ∣ s.count + 1 then [⟨.debug, .speed c!"[MATCHING]" (s.count + 1)⟩] else []) ++ (matchProblem env st allMatched l).toList) := by
    intro st s l
    unfold matchLineLog matchLine matchProblem matchResultLog matchResult
    rw [speed_eq]
    simp only
    cases matchTry env st allMatched (stripB l) <;> simp
  have hall : ∀ st (ls : List Bytes) (s : Logged Bytes), (ls.foldl (matchLineLog env st allMatched) s).state =
      s.state ++ (ls.map (matchLine env st allMatched)).flatten := by
    intro st ls
    induction ls with
    | nil => intro s; simp
    | cons l ls ih => intro s; simp only [List.foldl_cons, ih, (step st s l).1, List.map_cons, List.flatten_cons, List.append_assoc]
  have hlog := (loop_log (fun s l => (step (matchLoad env patternLines) s l).2) ([] : Bytes) [] lines).2
  unfold matchRunLog
  simp only [hst']
  refine ⟨?_, by rw [hlog]; rfl⟩
  rw [hall]
  rfl

/-- What is raised for a line: bytes that do not decode, or what `match` raises. -/
theorem try_error {env : Env} (hu : Utf8 env) {allMatched : Bool} {patternLines : List Bytes}
    (hc : NoClash env.md5 (patternTexts env patternLines)) {raw : Bytes} {e : PyErr}
    (h : matchTry env (matchLoad env patternLines) allMatched raw = .error e) :
    (env.decode raw = none ∧ e = .valueError) ∨
      ∃ url, env.decode raw = some url ∧ (matchLoad env patternLines).match_ env.md5 url = .error e := by
  have ho := (outcome_spec hu allMatched patternLines hc raw).error
  have hr : matchResult env (matchLoad env patternLines) allMatched raw = [69] := by
    unfold matchResult; rw [h]
  rw [hr] at ho
  rcases ho.mp rfl with hd | ⟨url, e', hd, hm⟩
  · refine .inl ⟨hd, ?_⟩
    unfold matchTry at h
    rw [hd] at h
    cases h
    rfl
  · refine .inr ⟨url, hd, ?_⟩
    unfold matchTry at h
    rw [hd] at h
    simp only [hm] at h
    cases h
    exact hm

/-- **C67**: `pattern-match` answers `E` for a line if and only if it logs a record for it. -/
theorem C67_answer (env : Env) (hu : Utf8 env) (allMatched : Bool) (patternLines : List Bytes)
    (hc : NoClash env.md5 (patternTexts env patternLines)) (l : Bytes) :
    matchLine env (matchLoad env patternLines) allMatched l = [69, 9] ++ stripB l ++ [10] ↔
      ∃ r, matchProblem env (matchLoad env patternLines) allMatched l = some r := by
  have ho := (outcome_spec hu allMatched patternLines hc (stripB l)).error
  unfold matchLine matchProblem
  simp only
  cases ht : matchTry env (matchLoad env patternLines) allMatched (stripB l) with
  | error e =>
    have : matchResult env (matchLoad env patternLines) allMatched (stripB l) = [69] := by unfold matchResult; rw [ht]
    rw [this]
    simp
  | ok r =>
    simp only [reduceCtorEq, exists_false, iff_false]
    intro h
    have hr : (let r := matchResult env (matchLoad env patternLines) allMatched (stripB l)
      if r.isEmpty then [78] else r) = [69] := by
      have h' : (if (matchResult env (matchLoad env patternLines) allMatched (stripB l)).isEmpty then [78]
          else matchResult env (matchLoad env patternLines) allMatched (stripB l)) ++ ([9] ++ stripB l ++ [10]) = [69] ++ ([9] ++ stripB l ++ [10]) := by
        simpa using h
      exact List.append_cancel_right h'
    rcases ho.mp hr with hd | ⟨url, e, hd, hm⟩
    · unfold matchTry at ht
      rw [hd] at ht
      cases ht
    · unfold matchTry at ht
      rw [hd] at ht
      simp only [hm] at ht
      cases ht

/-- **C67**: the record for a line that is matched against tame patterns (no empty class and `/` alone in its class, in patterns of several units)
and does not begin with a slash: none if the text parses; otherwise what `parse` raises, a warning unless the text is empty or `#`. -/
theorem C67_match_level (env : Env) (hu : Utf8 env) (allMatched : Bool) (patternLines : List Bytes) (l : Bytes) (url : Str)
    (hd : env.decode (stripB l) = some url) (hs : startsWith ['/'] url = false)
    (hc : NoClash env.md5 (url :: patternTexts env patternLines))
    (ht : AllTame ((patternTexts env patternLines).map (fun p => (p, some p)))) :
    matchProblem env (matchLoad env patternLines) allMatched l =
      match parse url with
      | .ok _ => none
      | .error e => some ⟨if url = [] ∨ url = c!"#" then .error else .warn, .rejected e (stripB l)⟩ := by
  have hc' : NoClash env.md5 (patternTexts env patternLines) := hc.mono (fun a ha => List.mem_cons_of_mem _ ha)
  unfold matchProblem
  cases hp : parse url with
  | error e =>
    have hm : matchTry env (matchLoad env patternLines) allMatched (stripB l) = .error e := by
      unfold matchTry
      rw [hd]
      simp only [PatternMatcherSt.match_, hp]
      rfl
    rw [hm]
    simp only [parse_level hp]
  | ok x =>
    simp only
    cases hm : matchTry env (matchLoad env patternLines) allMatched (stripB l) with
    | ok r => rfl
    | error e =>
      exfalso
      rcases try_error hu hc' hm with ⟨h1, -⟩ | ⟨url', h1, h2⟩
      · rw [hd] at h1; cases h1
      · rw [hd] at h1
        cases h1
        have hp' := hp
        unfold parse at hp
        rw [if_neg (by rw [hs]; decide)] at hp
        obtain ⟨⟨m, pieces⟩, ha, hp⟩ := bind_ok hp
        obtain ⟨pps, hpp, hp⟩ := bind_ok hp
        cases hp
        obtain ⟨hk, hpps⟩ := parsePieces_ok hpp
        obtain ⟨rs, h3, -⟩ := match_main (md5 := env.md5) (hist := (patternTexts env patternLines).map (fun p => (p, some p))) hp' hk hpps
          (by rw [List.map_map]; simpa [Function.comp_def] using hc) ht
        rw [matchLoad_eq, h3] at h2
        cases h2

/-! ### what is shown -/

/-- Debug records are about progress and counts, warnings and errors about rejected lines. -/
def KindOK (r : LogRec) : Prop :=
  (r.level = .debug ∧ ∀ e l, r.text ≠ .rejected e l) ∨ ((r.level = .warn ∨ r.level = .error) ∧ ∃ e l, r.text = .rejected e l)

theorem lineLog_kind {tag : Str} {interval : Nat} {problem : Bytes → Option LogRec} (h : ∀ l r, problem l = some r → KindOK r) {lines : List Bytes}
    {r : LogRec} (hr : r ∈ lineLog tag interval problem lines) : KindOK r := by
  unfold lineLog at hr
  obtain ⟨x, -, hr⟩ := List.mem_flatMap.mp hr
  rcases List.mem_append.mp hr with hr | hr
  · by_cases hd : interval ∣ x.2
    · rw [if_pos hd] at hr
      rw [List.mem_singleton.mp hr]
      exact .inl ⟨rfl, fun e l => by simp⟩
    · rw [if_neg hd] at hr
      cases hr
  · exact h x.1 r (by simpa using hr)

theorem makeProblem_kind (env : Env) : ∀ l r, makeProblem env l = some r → KindOK r := by
  intro l r h
  unfold makeProblem at h
  by_cases h1 : stripB l = []
  · rw [if_pos h1] at h; cases h
  · rw [if_neg h1] at h
    cases hd : env.decode (stripB l) with
    | none => rw [hd] at h; cases h; exact .inr ⟨.inl rfl, _, _, rfl⟩
    | some u =>
      rw [hd] at h
      simp only at h
      cases hp : parse u with
      | error e =>
        rw [hp] at h
        cases h
        by_cases hu : u = [] ∨ u = c!"#"
        · simp only [if_pos hu]; exact .inr ⟨.inr rfl, _, _, rfl⟩
        · simp only [if_neg hu]; exact .inr ⟨.inl rfl, _, _, rfl⟩
      | ok x =>
        obtain ⟨m, x⟩ := x
        rw [hp] at h
        cases x <;> cases h
        exact .inr ⟨.inl rfl, _, _, rfl⟩

theorem patternProblem_kind (env : Env) : ∀ l r, patternProblem env l = some r → KindOK r := by
  intro l r h
  unfold patternProblem at h
  by_cases h1 : (rstripB l).head? ≠ some 47
  · rw [if_pos h1] at h; cases h
  · rw [if_neg h1] at h
    cases hd : env.decode (rstripB l) with
    | none => rw [hd] at h; cases h; exact .inr ⟨.inl rfl, _, _, rfl⟩
    | some u =>
      rw [hd] at h
      simp only at h
      cases hp : parse u with
      | error e => rw [hp] at h; cases h; exact .inr ⟨.inl rfl, _, _, rfl⟩
      | ok x =>
        obtain ⟨m, x⟩ := x
        rw [hp] at h
        cases x <;> cases h
        exact .inr ⟨.inl rfl, _, _, rfl⟩

theorem exceptLevel_kind (e : PyErr) : exceptLevel e = .warn ∨ exceptLevel e = .error := by cases e <;> decide

/-- **C67**: the record for any line to be matched, whatever the patterns: a warning for the exceptions of the program and for `ValueError`, an
error for every other one. -/
theorem C67_match_except (env : Env) (allMatched : Bool) (patternLines : List Bytes) (l : Bytes) (e : PyErr) :
    matchTry env (matchLoad env patternLines) allMatched (stripB l) = .error e →
    matchProblem env (matchLoad env patternLines) allMatched l = some
      ⟨if e = .invalidPattern ∨ e = .irregularURL ∨ e = .invalidChar ∨ e = .valueError then .warn else .error, .rejected e (stripB l)⟩ := by
  intro h
  unfold matchProblem
  rw [h]
  cases e <;> simp [exceptLevel]

/-- **C67**: in both logs a record is a debug record about progress and counts, or a warning or error about one rejected line. -/
theorem C67_kinds (env : Env) (mcn : Int) (f : Fmt) (allMatched : Bool) (names : List Str) (patternLines lines : List Bytes) :
    (∀ out log, makeRunLog env mcn f lines = .ok (out, log) → ∀ r ∈ log,
      (r.level = .debug ∧ ∀ e l, r.text ≠ .rejected e l) ∨ ((r.level = .warn ∨ r.level = .error) ∧ ∃ e l, r.text = .rejected e l)) ∧
    (∀ r ∈ (matchRunLog env allMatched names patternLines lines).2,
      (r.level = .debug ∧ ∀ e l, r.text ≠ .rejected e l) ∨ ((r.level = .warn ∨ r.level = .error) ∧ ∃ e l, r.text = .rejected e l)) := by
  have dbg : ∀ t : LogText, (∀ e l, t ≠ .rejected e l) → KindOK ⟨.debug, t⟩ := fun t h => .inl ⟨rfl, h⟩
  constructor
  · intro out log h r hr
    unfold makeRunLog makeProcessLog at h
    obtain ⟨⟨out', log'⟩, h1, h⟩ := bind_ok h
    cases h
    obtain ⟨cs, -, h2⟩ := bind_ok h1
    cases h2
    change r ∈ (makeLoadLog env (loadsUrl f) lines).2 ++ _ at hr
    rw [(C67_make env (loadsUrl f) lines).2] at hr
    rcases List.mem_append.mp hr with hr | hr
    · rcases List.mem_append.mp hr with hr | hr
      · exact lineLog_kind (makeProblem_kind env) hr
      · rw [List.mem_singleton.mp hr]
        exact dbg _ (fun e l => by simp)
    · obtain ⟨c, -, rfl⟩ := List.mem_map.mp hr
      exact dbg _ (fun e l => by simp)
  · intro r hr
    rw [(C67_match env allMatched names patternLines lines).2, (C67_match_load env names patternLines).2] at hr
    rcases List.mem_append.mp hr with hr | hr
    · rcases List.mem_append.mp hr with hr | hr
      · rcases List.mem_append.mp hr with hr | hr
        · rw [List.mem_singleton.mp hr]
          exact dbg _ (fun e l => by simp)
        · exact lineLog_kind (patternProblem_kind env) hr
      · rw [List.mem_singleton.mp hr]
        exact dbg _ (fun e l => by simp)
    · refine lineLog_kind ?_ hr
      intro l r h
      unfold matchProblem at h
      cases ht : matchTry env (matchLoad env patternLines) allMatched (stripB l) with
      | ok x => rw [ht] at h; cases h
      | error e => rw [ht] at h; cases h; exact .inr ⟨exceptLevel_kind e, _, _, rfl⟩

/-- **C67**: `--loglevel`: by default nothing is shown; `DEBUG` shows everything; `INFO` and `WARN` show the rejected lines alone; `ERROR` those that
are errors; `FATAL` nothing. -/
theorem C67_shown (log : List LogRec) (h : ∀ r ∈ log, (r.level = .debug ∧ ∀ e l, r.text ≠ .rejected e l) ∨
      ((r.level = .warn ∨ r.level = .error) ∧ ∃ e l, r.text = .rejected e l)) :
    shownRecords none log = [] ∧ shownRecords (some .debug) log = log ∧
    shownRecords (some .info) log = shownRecords (some .warn) log ∧
    (∀ r, r ∈ shownRecords (some .warn) log ↔ r ∈ log ∧ ∃ e l, r.text = .rejected e l) ∧
    (∀ r, r ∈ shownRecords (some .error) log ↔ r ∈ log ∧ r.level = .error) ∧ shownRecords (some .fatal) log = [] := by
  refine ⟨rfl, ?_, ?_, ?_, ?_, ?_⟩
  · refine List.filter_eq_self.mpr ?_
    intro r hr
    rcases h r hr with ⟨e, -⟩ | ⟨e | e, -⟩ <;> rw [e] <;> rfl
  · refine List.filter_congr ?_
    intro r hr
    rcases h r hr with ⟨e, -⟩ | ⟨e | e, -⟩ <;> rw [e] <;> rfl
  · intro r
    show r ∈ List.filter _ log ↔ _
    rw [List.mem_filter]
    constructor
    · rintro ⟨hr, h1⟩
      rcases h r hr with ⟨e, -⟩ | ⟨-, e⟩
      · rw [e] at h1; exact absurd h1 (by decide)
      · exact ⟨hr, e⟩
    · rintro ⟨hr, e, l, h1⟩
      refine ⟨hr, ?_⟩
      rcases h r hr with ⟨-, h2⟩ | ⟨e | e, -⟩
      · exact absurd h1 (h2 e l)
      · rw [e]; rfl
      · rw [e]; rfl
  · intro r
    show r ∈ List.filter _ log ↔ _
    rw [List.mem_filter]
    constructor
    · rintro ⟨hr, h1⟩
      rcases h r hr with ⟨e, -⟩ | ⟨e | e, -⟩
      · rw [e] at h1; exact absurd h1 (by decide)
      · rw [e] at h1; exact absurd h1 (by decide)
      · exact ⟨hr, e⟩
    · rintro ⟨hr, h1⟩
      exact ⟨hr, by rw [h1]; rfl⟩
  · refine List.filter_eq_nil_iff.mpr ?_
    intro r hr
    rcases h r hr with ⟨e, -⟩ | ⟨e | e, -⟩ <;> rw [e] <;> decide

/-! ### examples -/

/-- Loading: a URL, `#`, a blank line, bytes that do not decode, a pattern, a text that does not parse, the first URL again. -/
example : (makeLoadLog asciiEnvM false ([c!"http://h/a\n", c!" #\n", c!" \n"].map asciiBytesM ++ [[255, 10]] ++
      [c!"/[a-z]+\n", c!"x y\n", c!"http://h/a"].map asciiBytesM)).2 =
    [⟨.error, .rejected .indexError [35]⟩, ⟨.warn, .rejected .valueError [255]⟩, ⟨.warn, .rejected .valueError (asciiBytesM c!"/[a-z]+")⟩,
      ⟨.warn, .rejected .irregularURL (asciiBytesM c!"x y")⟩,
      ⟨.debug, .msg c!"[LOADED] ALL:7, UNIQ:1, VALID:2, INVALID:4, EMPTY:1"⟩] := by decide +kernel

example : lineLog c!"[LOADING]" 2 (fun l => if l = [] then some ⟨.warn, .rejected .valueError l⟩ else none) [[1], [], [2], [3], []] =
    [⟨.debug, .speed c!"[LOADING]" 2⟩, ⟨.warn, .rejected .valueError []⟩, ⟨.debug, .speed c!"[LOADING]" 4⟩, ⟨.warn, .rejected .valueError []⟩] := by
  decide +kernel

/-- The empty line is an error for `pattern-match`, but not for `pattern-make`. -/
example : (matchRunLog asciiEnvM false [c!"p.txt"] [asciiBytesM c!"/[a-z]+\n", asciiBytesM c!"/[a-z]{2\n", asciiBytesM c!"no pattern\n"]
      [asciiBytesM c!"http://h/ab\n", [10], asciiBytesM c!"http://h\n"]).2 =
    [⟨.debug, .msg c!"[LOAD] 1 pattern file: p.txt"⟩, ⟨.warn, .rejected .invalidPattern (asciiBytesM c!"/[a-z]{2")⟩,
      ⟨.debug, .msg c!"[LOAD] Finished ALL:3, VALID:1, INVALID:1, UNKNOW:1"⟩, ⟨.error, .rejected .indexError []⟩,
      ⟨.warn, .rejected .irregularURL (asciiBytesM c!"http://h")⟩] := by decide +kernel

/-- Three clusters with 2 + 1 + 2 = 5 URLs. -/
example : (makeRunLog c47Env 2 .pattern c47Lines).map (·.2) = .ok [⟨.warn, .rejected .irregularURL (asciiBytesM c!"x")⟩,
    ⟨.debug, .msg c!"[LOADED] ALL:6, UNIQ:5, VALID:5, INVALID:1"⟩, ⟨.debug, .cluster 2⟩, ⟨.debug, .cluster 1⟩, ⟨.debug, .cluster 2⟩] := by
  decide +kernel

example : makeProcessEteLog c47Env 2 (makeLoad c47Env false c47Lines).1 =
    .ok [⟨.debug, .cluster 2⟩, ⟨.debug, .cluster 1⟩, ⟨.debug, .cluster 2⟩] := by decide +kernel

example : shownRecords (some .error) [⟨.debug, .cluster 2⟩, ⟨.warn, .rejected .irregularURL [65]⟩, ⟨.error, .rejected .indexError [35]⟩] =
    [⟨.error, .rejected .indexError [35]⟩] := by decide

end OsUrl
