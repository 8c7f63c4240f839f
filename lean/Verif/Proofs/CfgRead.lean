import Verif.Proofs.CfgText

/-! Reading a configuration file line by line. -/

namespace OsUrl
open Spec

theorem Dict.upd_upd {κ α : Type} [DecidableEq κ] (k : κ) (f g : Option α → α) (d : Dict κ α) :
    Dict.upd k g (Dict.upd k f d) = Dict.upd k (fun v => g (some (f v))) d := by
  induction d with
  | nil => simp [Dict.upd]
  | cons x xs ih =>
    obtain ⟨a, v⟩ := x
    by_cases h : a = k
    · simp [Dict.upd, h]
    · simp [Dict.upd, h, ih]

theorem Dict.get?_append {κ α : Type} [DecidableEq κ] (k : κ) (d e : Dict κ α) :
    Dict.get? k (d ++ e) = (Dict.get? k d).orElse (fun _ => Dict.get? k e) := by
  induction d with
  | nil => simp [Dict.get?]
  | cons x xs ih =>
    obtain ⟨a, v⟩ := x
    by_cases h : a = k
    · simp [Dict.get?, h]
    · simp [Dict.get?, h, ih]

theorem Cfg.set_set (c : Cfg) (sec o : Str) (f g : Option Str → Str) :
    (c.set sec o f).set sec o g = c.set sec o (fun v => g (some (f v))) := by
  simp only [Cfg.set]
  rw [Dict.upd_upd]
  congr 1
  funext d
  simp [Dict.upd_upd]

theorem Cfg.look_set (c : Cfg) (sec o n k : Str) (f : Option Str → Str) :
    (c.set sec o f).look n k = if sec = n ∧ o = k then some (f (c.look sec o)) else c.look n k := by
  simp only [Cfg.set, Cfg.look, Dict.get?_upd]
  by_cases h1 : sec = n
  · subst h1
    simp only [if_true, Option.bind_some, Dict.get?_upd, true_and]
    by_cases h2 : o = k
    · subst h2
      simp only [if_true]
      cases Dict.get? sec c <;> rfl
    · rw [if_neg h2, if_neg h2]
      cases Dict.get? sec c <;> rfl
  · rw [if_neg h1, if_neg (fun h => h1 h.1)]

theorem Cfg.has_set (c : Cfg) (sec o n : Str) (f : Option Str → Str) :
    (Dict.get? n (c.set sec o f)).isSome = true ↔ n = sec ∨ (Dict.get? n c).isSome = true := by
  simp only [Cfg.set, Dict.get?_upd]
  by_cases h1 : sec = n
  · subst h1; simp
  · rw [if_neg h1]; simp [Ne.symm h1]

theorem cfgLine_comment (lower : Str → Str) (s : CfgRd) {l : Str} (h : CommentLine l) : cfgLine lower s l = .ok s := by
  simp only [cfgLine]
  rw [if_pos (commentLine_iff.mp h)]

theorem blank_not_comment {l : Str} (h : BlankLine l) : ¬ CommentLine l := by
  rw [commentLine_iff, stripS_eq_nil.mpr h]; simp

theorem cfgLine_blank (lower : Str → Str) (s : CfgRd) {l : Str} (h : BlankLine l) :
    cfgLine lower s l = match s.open? with | some (sec, o) => .ok (s.append sec o []) | none => .ok s := by
  simp only [cfgLine]
  rw [if_neg (fun hc => blank_not_comment h (commentLine_iff.mpr hc)), stripS_eq_nil.mpr h]
  rfl

theorem indent_pos {l : Str} (h : IndentedLine l) : 0 < (l.takeWhile isSpaceC).length := by
  obtain ⟨⟨c, h1, h2⟩, _⟩ := h
  cases l with
  | nil => simp at h1
  | cons x xs => simp at h1; subst h1; simp [h2]

theorem cfgLine_indented (lower : Str → Str) (s : CfgRd) {l sec o : Str} (h : IndentedLine l) (hs : s.open? = some (sec, o)) (hi : s.indent = 0) :
    cfgLine lower s l = .ok (s.append sec o (stripS l)) := by
  simp only [cfgLine]
  have hne : (stripS l).isEmpty = false := by
    cases hl : stripS l with
    | nil => exact absurd (stripS_eq_nil.mp hl) h.2.1
    | cons _ _ => rfl
  rw [if_neg (fun hc => h.2.2 (commentLine_iff.mpr hc)), hne, hs, hi]
  have := indent_pos h
  simp [this]

/-- A line that begins at the margin and is neither blank nor a comment. -/
theorem cfgLine_margin (lower : Str → Str) (s : CfgRd) {c : Char} {t : Str} (h : isSpaceC c = false) (h2 : c ≠ '#') (h3 : c ≠ ';') :
    cfgLine lower s (c :: t) =
      match cfgHeader (c :: rstripS t) with
      | some name => cfgSection { s with indent := 0 } name
      | none =>
        match s.cur with
        | none => .error .missingSectionHeader
        | some sec =>
          match cfgOption (c :: rstripS t) with
          | none => .ok { s with indent := 0, bad := true }
          | some (o, v) =>
            if (sec, some (lower (rstripS o))) ∈ s.added then .error .duplicateOption
            else .ok { s with
              indent := 0, cfg := s.cfg.set sec (lower (rstripS o)) (fun _ => stripS v)
              added := (sec, some (lower (rstripS o))) :: s.added, opt := some (lower (rstripS o))
              bad := s.bad || (rstripS o).isEmpty } := by
  have hv : stripS (c :: t) = c :: rstripS t := by
    rw [stripS_nonspace h]; exact rstripS_keep [] t h
  simp only [cfgLine]
  rw [hv, if_neg (by simp [h2, h3])]
  simp only [List.isEmpty_cons, List.takeWhile_cons, h, Bool.false_eq_true, if_false, List.length_nil, Nat.not_lt_zero, decide_false]
  cases s.open? with
  | none => rfl
  | some p => rfl

theorem cfgLine_header (lower : Str → Str) (s : CfgRd) {name rest : Str} (hn : name ≠ []) (hr : ']' ∉ rest) :
    cfgLine lower s ('[' :: name ++ ']' :: rest) = cfgSection { s with indent := 0 } name := by
  rw [List.cons_append, cfgLine_margin lower s (by decide) (by decide) (by decide)]
  rw [rstripS_keep name rest (by decide)]
  have hr' : ']' ∉ rstripS rest := by
    obtain ⟨t, h1, _⟩ := rstripS_split rest
    intro hm; apply hr; rw [h1]; exact List.mem_append_left _ hm
  have := cfgHeader_cut hn hr'
  rw [List.cons_append] at this
  rw [this]

theorem cfgLine_option (lower : Str → Str) (s : CfgRd) {o : CfgOpt} (h : o.OK) {sec : Str} (hc : s.cur = some sec) :
    cfgLine lower s (o.name ++ o.delim :: o.text) =
      if (sec, some (lower (rstripS o.name))) ∈ s.added then .error .duplicateOption
      else .ok { s with
        indent := 0, cfg := s.cfg.set sec (lower (rstripS o.name)) (fun _ => stripS o.text)
        added := (sec, some (lower (rstripS o.name))) :: s.added, opt := some (lower (rstripS o.name)) } := by
  obtain ⟨c, h1, h2, h3, h4, h5⟩ := h.first
  have hdel := h.delim
  have hnm := h.name
  obtain ⟨name, delim, text, more⟩ := o
  simp only at h1 hdel hnm ⊢
  cases name with
  | nil => simp at h1
  | cons x t =>
    simp only [List.head?_cons, Option.some.injEq] at h1
    subst h1
    rw [List.cons_append, cfgLine_margin lower s h2 h4 h5, cfgHeader_ne h3, hc]
    have hd : isSpaceC delim = false := by rcases hdel with e | e <;> rw [e] <;> decide
    have e : x :: rstripS (t ++ delim :: text) = (x :: t) ++ delim :: rstripS text := by
      rw [rstripS_keep t text hd]; rfl
    rw [e, cfgOption_cut hdel hnm]
    have hne : (rstripS (x :: t)).isEmpty = false := by
      have := rstripS_keep [] t h2
      rw [List.nil_append] at this
      rw [this]; rfl
    simp only [stripS_rstripS, hne, Bool.or_false]

/-! ### The lines after an option -/

/-- What the lines after an option add to its value. -/
noncomputable def moreText (ls : List Str) : Str :=
  open Classical in ((ls.filter (fun l => decide (¬ CommentLine l))).map stripS).flatMap (fun t => '\n' :: t)

theorem join_more (x : Str) (xs : List Str) : join ['\n'] (x :: xs) = x ++ xs.flatMap (fun t => '\n' :: t) := by
  induction xs generalizing x with
  | nil => simp [join]
  | cons y ys ih => simp only [join]; rw [ih y]; simp

theorem more_lines (lower : Str → Str) {sec o : Str} (ho : o ≠ []) : ∀ (ls : List Str) (s : CfgRd) (v : Str) (c : Cfg),
    (∀ l ∈ ls, BlankLine l ∨ CommentLine l ∨ IndentedLine l) → s.cur = some sec → s.opt = some o → s.indent = 0 →
    s.cfg = c.set sec o (fun _ => v) →
    ls.foldlM (cfgLine lower) s = .ok { s with cfg := c.set sec o (fun _ => v ++ moreText ls) } := by
  intro ls
  induction ls with
  | nil =>
    intro s v c _ _ _ _ hcfg
    simp only [List.foldlM_nil, pure, Except.pure, moreText]
    obtain ⟨cfg, added, cur, opt, indent, bad⟩ := s
    simp only at hcfg
    simp [hcfg]
  | cons l ls ih =>
    intro s v c h hc hopt hi hcfg
    have hop : s.open? = some (sec, o) := by
      simp only [CfgRd.open?, hc, hopt]
      cases o with
      | nil => exact absurd rfl ho
      | cons _ _ => rfl
    rw [List.foldlM_cons]
    have hstep : ∀ t, (s.append sec o t).cfg = c.set sec o (fun _ => v ++ '\n' :: t) := by
      intro t
      simp only [CfgRd.append, hcfg, Cfg.set_set]
      rfl
    rcases h l (by simp) with hl | hl | hl
    · rw [cfgLine_blank lower s hl, hop]
      simp only [bind, Except.bind]
      rw [ih (s.append sec o []) (v ++ ['\n']) c (fun x hx => h x (by simp [hx])) hc hopt hi (hstep [])]
      have : moreText (l :: ls) = ['\n'] ++ moreText ls := by
        simp [moreText, blank_not_comment hl, stripS_eq_nil.mpr hl]
      rw [this]
      simp [CfgRd.append]
    · rw [cfgLine_comment lower s hl]
      simp only [bind, Except.bind]
      rw [ih s v c (fun x hx => h x (by simp [hx])) hc hopt hi hcfg]
      have : moreText (l :: ls) = moreText ls := by simp [moreText, hl]
      rw [this]
    · rw [cfgLine_indented lower s hl hop hi]
      simp only [bind, Except.bind]
      rw [ih (s.append sec o (stripS l)) (v ++ '\n' :: stripS l) c (fun x hx => h x (by simp [hx])) hc hopt hi (hstep _)]
      have : moreText (l :: ls) = '\n' :: stripS l ++ moreText ls := by simp [moreText, hl.2.2]
      rw [this]
      simp [CfgRd.append]

theorem junk_lines (lower : Str → Str) : ∀ (ls : List Str) (s : CfgRd), (∀ l ∈ ls, BlankLine l ∨ CommentLine l) → s.open? = none →
    ls.foldlM (cfgLine lower) s = .ok s := by
  intro ls
  induction ls with
  | nil => intro s _ _; rfl
  | cons l ls ih =>
    intro s h ho
    rw [List.foldlM_cons]
    have : cfgLine lower s l = .ok s := by
      rcases h l (by simp) with hl | hl
      · rw [cfgLine_blank lower s hl, ho]
      · exact cfgLine_comment lower s hl
    rw [this]
    exact ih s (fun x hx => h x (by simp [hx])) ho

/-- The value before the blanks at its end are removed. -/
noncomputable def rawValue (o : CfgOpt) : Str := stripS o.text ++ moreText o.more

theorem rawValue_value (o : CfgOpt) : rstripS (rawValue o) = o.value := by
  simp only [rawValue, CfgOpt.value, join_more, moreText]

theorem opt_lines (lower : Str → Str) (hl : ∀ s, lower s = [] → s = []) (s : CfgRd) {o : CfgOpt} (h : o.OK) {sec : Str} (hc : s.cur = some sec) :
    o.lines.foldlM (cfgLine lower) s =
      if (sec, some (lower (rstripS o.name))) ∈ s.added then .error .duplicateOption
      else .ok { s with
        indent := 0, cfg := s.cfg.set sec (lower (rstripS o.name)) (fun _ => rawValue o)
        added := (sec, some (lower (rstripS o.name))) :: s.added, opt := some (lower (rstripS o.name)) } := by
  simp only [CfgOpt.lines, List.foldlM_cons]
  rw [cfgLine_option lower s h hc]
  by_cases hm : (sec, some (lower (rstripS o.name))) ∈ s.added
  · rw [if_pos hm, if_pos hm]; rfl
  · rw [if_neg hm, if_neg hm]
    simp only [bind, Except.bind]
    have hne : lower (rstripS o.name) ≠ [] := by
      intro e
      have := hl _ e
      obtain ⟨c, h1, h2, _⟩ := h.first
      cases hn : o.name with
      | nil => rw [hn] at h1; simp at h1
      | cons x t =>
        rw [hn] at h1 this
        simp only [List.head?_cons, Option.some.injEq] at h1
        subst h1
        have h3 := rstripS_keep [] t h2
        rw [List.nil_append] at h3
        rw [h3] at this; simp at this
    rw [more_lines lower hne o.more { s with
        indent := 0, cfg := s.cfg.set sec (lower (rstripS o.name)) (fun _ => stripS o.text)
        added := (sec, some (lower (rstripS o.name))) :: s.added, opt := some (lower (rstripS o.name)) } (stripS o.text) s.cfg h.more hc rfl rfl rfl]
    rfl

/-! ### Whole files -/

/-- What is known after some sections were read: `E` are the options so far, `N` the sections. -/
structure RdInv (base : Cfg) (E : List ((Str × Str) × Str)) (N : List Str) (s : CfgRd) : Prop where
  bad : s.bad = false
  addS : ∀ n, (n, none) ∈ s.added ↔ n ≠ cfgDefault ∧ n ∈ N
  addO : ∀ n k, (n, some k) ∈ s.added ↔ (n, k) ∈ E.map Prod.fst
  look : ∀ n k, s.cfg.look n k = (Dict.get? (n, k) E).orElse (fun _ => base.look n k)
  has : ∀ n, (Dict.get? n s.cfg).isSome = true ↔ (Dict.get? n base).isSome = true ∨ n ∈ N

/-- An exception about something written twice. -/
def DupErr (e : CfgErr) : Prop := e = .duplicateSection ∨ e = .duplicateOption

theorem inv_opt (lower : Str → Str) (hl : ∀ s, lower s = [] → s = []) {base : Cfg} {E : List ((Str × Str) × Str)} {N : List Str} {s : CfgRd}
    (hi : RdInv base E N s) {o : CfgOpt} (h : o.OK) {sec : Str} (hc : s.cur = some sec) (hs : (Dict.get? sec s.cfg).isSome = true) :
    ((sec, lower (rstripS o.name)) ∈ E.map Prod.fst ∧ o.lines.foldlM (cfgLine lower) s = .error .duplicateOption) ∨
    ((sec, lower (rstripS o.name)) ∉ E.map Prod.fst ∧ ∃ s', o.lines.foldlM (cfgLine lower) s = .ok s' ∧ s'.cur = some sec ∧
      RdInv base (E ++ [((sec, lower (rstripS o.name)), rawValue o)]) N s' ∧ (Dict.get? sec s'.cfg).isSome = true) := by
  rw [opt_lines lower hl s h hc]
  by_cases hm : (sec, some (lower (rstripS o.name))) ∈ s.added
  · left; exact ⟨(hi.addO _ _).mp hm, by rw [if_pos hm]⟩
  · right
    have hn : (sec, lower (rstripS o.name)) ∉ E.map Prod.fst := fun hh => hm ((hi.addO _ _).mpr hh)
    refine ⟨hn, { s with
        indent := 0, cfg := s.cfg.set sec (lower (rstripS o.name)) (fun _ => rawValue o)
        added := (sec, some (lower (rstripS o.name))) :: s.added, opt := some (lower (rstripS o.name)) }, by rw [if_neg hm], hc, ⟨hi.bad, ?_, ?_, ?_, ?_⟩, ?_⟩
    · intro n; simp [hi.addS]
    · intro n k
      simp only [List.mem_cons, Prod.mk.injEq, Option.some.injEq, hi.addO, List.map_append, List.mem_append, List.map_cons, List.map_nil,
        List.not_mem_nil, or_false]
      exact Or.comm
    · intro n k
      simp only [Cfg.look_set, Dict.get?_append]
      by_cases hk : sec = n ∧ lower (rstripS o.name) = k
      · obtain ⟨rfl, rfl⟩ := hk
        have : Dict.get? (sec, lower (rstripS o.name)) E = none := Dict.get?_none.mpr hn
        simp [this, Dict.get?]
      · rw [if_neg hk, hi.look]
        have : Dict.get? (n, k) [((sec, lower (rstripS o.name)), rawValue o)] = none := by
          simp only [Dict.get?]
          rw [if_neg (by intro e; simp only [Prod.mk.injEq] at e; exact hk e)]
        rw [this]; cases Dict.get? (n, k) E <;> rfl
    · intro n
      simp only [Cfg.has_set, hi.has]
      constructor
      · rintro (rfl | h')
        · exact (hi.has _).mp hs
        · exact h'
      · exact Or.inr
    · simp [Cfg.has_set]

theorem inv_opts (lower : Str → Str) (hl : ∀ s, lower s = [] → s = []) {base : Cfg} {N : List Str} {sec : Str} : ∀ (os : List CfgOpt)
    (E : List ((Str × Str) × Str)) (s : CfgRd), RdInv base E N s → (∀ o ∈ os, o.OK) → s.cur = some sec → (Dict.get? sec s.cfg).isSome = true →
    (E.map Prod.fst).Nodup →
    (¬ ((E ++ os.map (fun o => ((sec, lower (rstripS o.name)), rawValue o))).map Prod.fst).Nodup ∧
      (os.flatMap CfgOpt.lines).foldlM (cfgLine lower) s = .error .duplicateOption) ∨
    (((E ++ os.map (fun o => ((sec, lower (rstripS o.name)), rawValue o))).map Prod.fst).Nodup ∧
      ∃ s', (os.flatMap CfgOpt.lines).foldlM (cfgLine lower) s = .ok s' ∧
        RdInv base (E ++ os.map (fun o => ((sec, lower (rstripS o.name)), rawValue o))) N s') := by
  intro os
  induction os with
  | nil => intro E s hi _ _ _ hE; right; exact ⟨by simpa using hE, s, rfl, by simpa using hi⟩
  | cons o os ih =>
    intro E s hi ho hc hs hE
    rw [List.flatMap_cons, List.foldlM_append]
    have e : E ++ (o :: os).map (fun o => ((sec, lower (rstripS o.name)), rawValue o)) =
        (E ++ [((sec, lower (rstripS o.name)), rawValue o)]) ++ os.map (fun o => ((sec, lower (rstripS o.name)), rawValue o)) := by simp
    rw [e]
    rcases inv_opt lower hl hi (ho o (by simp)) hc hs with ⟨h1, h2⟩ | ⟨h1, s', h2, h3, h4, h5⟩
    · left
      refine ⟨?_, by rw [h2]; rfl⟩
      intro hn
      rw [List.map_append, List.map_append] at hn
      have := (List.nodup_append.mp (List.nodup_append.mp hn).1).2.2
      exact this _ h1 _ (by simp) rfl
    · rw [h2]
      simp only [bind, Except.bind]
      refine ih _ s' h4 (fun x hx => ho x (by simp [hx])) h3 h5 ?_
      rw [List.map_append, List.nodup_append]
      refine ⟨hE, by simp, ?_⟩
      intro a ha b hb
      simp only [List.map_cons, List.map_nil, List.mem_cons, List.not_mem_nil, or_false] at hb
      rintro rfl
      rw [hb] at ha
      exact h1 ha

theorem inv_header {base : Cfg} (hd : (Dict.get? cfgDefault base).isSome = true) {E : List ((Str × Str) × Str)} {N : List Str} {s : CfgRd}
    (hi : RdInv base E N s) (name : Str) :
    ((name ≠ cfgDefault ∧ name ∈ N) ∧ cfgSection { s with indent := 0 } name = .error .duplicateSection) ∨
    (¬ (name ≠ cfgDefault ∧ name ∈ N) ∧ ∃ s', cfgSection { s with indent := 0 } name = .ok s' ∧ s'.cur = some name ∧ s'.opt = none ∧
      RdInv base E (N ++ [name]) s' ∧ (Dict.get? name s'.cfg).isSome = true) := by
  simp only [cfgSection]
  by_cases h1 : name = cfgDefault
  · right
    have hh := (hi.has name).mpr (Or.inl (by rw [h1]; exact hd))
    refine ⟨fun h => h.1 h1, { s with indent := 0, cur := some name, opt := none }, by rw [if_pos h1], rfl, rfl, ⟨hi.bad, ?_, hi.addO, hi.look, ?_⟩, hh⟩
    · intro n
      rw [hi.addS]
      simp only [List.mem_append, List.mem_cons, List.not_mem_nil, or_false]
      constructor
      · rintro ⟨a, b⟩; exact ⟨a, Or.inl b⟩
      · rintro ⟨a, b | b⟩
        · exact ⟨a, b⟩
        · exact absurd (b.trans h1) a
    · intro n
      simp only [List.mem_append, List.mem_cons, List.not_mem_nil, or_false]
      rw [hi.has]
      constructor
      · rintro (a | a)
        · exact Or.inl a
        · exact Or.inr (Or.inl a)
      · rintro (a | a | a)
        · exact Or.inl a
        · exact Or.inr a
        · left; rw [a, h1]; exact hd
  · rw [if_neg h1]
    have hadd : ∀ n, (n, none) ∈ (name, none) :: s.added ↔ n ≠ cfgDefault ∧ n ∈ N ++ [name] := by
      intro n
      simp only [List.mem_cons, Prod.mk.injEq, and_true, hi.addS, List.mem_append, List.not_mem_nil, or_false]
      constructor
      · rintro (a | ⟨a, b⟩)
        · exact ⟨by rw [a]; exact h1, Or.inr a⟩
        · exact ⟨a, Or.inl b⟩
      · rintro ⟨a, b | b⟩
        · exact Or.inr ⟨a, b⟩
        · exact Or.inl b
    have haddO : ∀ n k, (n, some k) ∈ (name, none) :: s.added ↔ (n, k) ∈ E.map Prod.fst := by
      intro n k; rw [← hi.addO]; simp
    by_cases h2 : (Dict.get? name s.cfg).isSome = true
    · rw [if_pos h2]
      by_cases h3 : (name, none) ∈ s.added
      · left; exact ⟨(hi.addS _).mp h3, by rw [if_pos h3]⟩
      · right
        refine ⟨fun h => h3 ((hi.addS _).mpr h), { s with indent := 0, cur := some name, opt := none, added := (name, none) :: s.added }, by rw [if_neg h3], rfl, rfl, ⟨hi.bad, hadd, haddO, hi.look, ?_⟩, h2⟩
        intro n
        simp only [List.mem_append, List.mem_cons, List.not_mem_nil, or_false]
        rw [hi.has]
        constructor
        · rintro (a | a)
          · exact Or.inl a
          · exact Or.inr (Or.inl a)
        · rintro (a | a | a)
          · exact Or.inl a
          · exact Or.inr a
          · rw [a]; exact (hi.has name).mp h2
    · right
      rw [if_neg h2]
      have hnone : Dict.get? name s.cfg = none := by
        cases hg : Dict.get? name s.cfg with
        | none => rfl
        | some x => rw [hg] at h2; exact absurd rfl h2
      refine ⟨fun h => h2 ((hi.has _).mpr (Or.inr h.2)), _, rfl, rfl, rfl, ⟨hi.bad, hadd, haddO, ?_, ?_⟩, ?_⟩
      · intro n k
        rw [← hi.look]
        simp only [Cfg.look, Dict.get?_append]
        by_cases hn : name = n
        · subst hn; rw [hnone]; simp [Dict.get?]
        · have : Dict.get? n [(name, ([] : Dict Str Str))] = none := by simp [Dict.get?, hn]
          rw [this]; cases Dict.get? n s.cfg <;> rfl
      · intro n
        simp only [Dict.get?_append, List.mem_append, List.mem_cons, List.not_mem_nil, or_false]
        have hh := hi.has n
        by_cases hn : name = n
        · subst hn; rw [hnone]; simp [Dict.get?]
        · have : Dict.get? n [(name, ([] : Dict Str Str))] = none := by simp [Dict.get?, hn]
          rw [this]
          have e : ((Dict.get? n s.cfg).orElse fun _ => none) = Dict.get? n s.cfg := by cases Dict.get? n s.cfg <;> rfl
          rw [e, hh]
          constructor
          · rintro (a | a)
            · exact Or.inl a
            · exact Or.inr (Or.inl a)
          · rintro (a | a | a)
            · exact Or.inl a
            · exact Or.inr a
            · exact absurd a.symm hn
      · simp [Dict.get?_append, hnone, Dict.get?]

/-- The options of a section, before the blanks at the end of the values are removed. -/
noncomputable def rawSec (lower : Str → Str) (c : CfgSec) : List ((Str × Str) × Str) :=
  c.opts.map (fun o => ((c.name, lower (rstripS o.name)), rawValue o))

/-- Names other than `DEFAULT`. -/
def realNames (N : List Str) : List Str := N.filter (fun n => decide (n ≠ cfgDefault))

theorem inv_sec (lower : Str → Str) (hl : ∀ s, lower s = [] → s = []) {base : Cfg} (hd : (Dict.get? cfgDefault base).isSome = true)
    {E : List ((Str × Str) × Str)} {N : List Str} {s : CfgRd} (hi : RdInv base E N s) {c : CfgSec} (hc : c.OK) (hE : (E.map Prod.fst).Nodup)
    (hN : (realNames N).Nodup) :
    (¬ ((realNames (N ++ [c.name])).Nodup ∧ ((E ++ rawSec lower c).map Prod.fst).Nodup) ∧
      ∃ e, DupErr e ∧ c.lines.foldlM (cfgLine lower) s = .error e) ∨
    (((realNames (N ++ [c.name])).Nodup ∧ ((E ++ rawSec lower c).map Prod.fst).Nodup) ∧
      ∃ s', c.lines.foldlM (cfgLine lower) s = .ok s' ∧ RdInv base (E ++ rawSec lower c) (N ++ [c.name]) s') := by
  simp only [CfgSec.lines, List.cons_append, List.foldlM_cons]
  have := cfgLine_header lower s hc.name hc.rest
  rw [List.cons_append] at this
  rw [this]
  rcases inv_header hd hi c.name with ⟨⟨h1, h2⟩, h3⟩ | ⟨h1, s', h2, h3, h4, h5, h6⟩
  · left
    refine ⟨?_, .duplicateSection, Or.inl rfl, by rw [h3]; rfl⟩
    rintro ⟨hn, _⟩
    simp only [realNames, List.filter_append] at hn
    refine (List.nodup_append.mp hn).2.2 c.name ?_ c.name ?_ rfl
    · rw [List.mem_filter]; exact ⟨h2, by simpa using h1⟩
    · rw [List.mem_filter]; exact ⟨by simp, by simpa using h1⟩
  · rw [h2]
    simp only [bind, Except.bind]
    rw [List.foldlM_append]
    have hop : s'.open? = none := by simp [CfgRd.open?, h4]
    rw [junk_lines lower c.junk s' hc.junk hop]
    simp only [bind, Except.bind]
    have hN' : (realNames (N ++ [c.name])).Nodup := by
      simp only [realNames, List.filter_append]
      rw [List.nodup_append]
      refine ⟨hN, ?_, ?_⟩
      · exact List.Nodup.sublist List.filter_sublist (by simp)
      · intro a ha b hb hab
        subst hab
        rw [List.mem_filter] at ha hb
        simp only [List.mem_cons, List.not_mem_nil, or_false] at hb
        apply h1
        rw [← hb.1]
        exact ⟨by simpa using ha.2, ha.1⟩
    rcases inv_opts lower hl c.opts E s' h5 hc.opts h3 h6 hE with ⟨a, b⟩ | ⟨a, s'', b, d⟩
    · left; exact ⟨fun h => a h.2, _, Or.inr rfl, b⟩
    · right; exact ⟨⟨hN', a⟩, s'', b, d⟩

theorem inv_secs (lower : Str → Str) (hl : ∀ s, lower s = [] → s = []) {base : Cfg} (hd : (Dict.get? cfgDefault base).isSome = true) :
    ∀ (cs : List CfgSec) (E : List ((Str × Str) × Str)) (N : List Str) (s : CfgRd), RdInv base E N s → (∀ c ∈ cs, c.OK) →
    (E.map Prod.fst).Nodup → (realNames N).Nodup →
    (¬ ((realNames (N ++ cs.map CfgSec.name)).Nodup ∧ ((E ++ cs.flatMap (rawSec lower)).map Prod.fst).Nodup) ∧
      ∃ e, DupErr e ∧ (cs.flatMap CfgSec.lines).foldlM (cfgLine lower) s = .error e) ∨
    (((realNames (N ++ cs.map CfgSec.name)).Nodup ∧ ((E ++ cs.flatMap (rawSec lower)).map Prod.fst).Nodup) ∧
      ∃ s', (cs.flatMap CfgSec.lines).foldlM (cfgLine lower) s = .ok s' ∧ RdInv base (E ++ cs.flatMap (rawSec lower)) (N ++ cs.map CfgSec.name) s') := by
  intro cs
  induction cs with
  | nil =>
    intro E N s hi _ hE hN
    right
    exact ⟨⟨by simpa using hN, by simpa using hE⟩, s, rfl, by simpa using hi⟩
  | cons c cs ih =>
    intro E N s hi hc hE hN
    have e0 : (c :: cs).flatMap CfgSec.lines = c.lines ++ cs.flatMap CfgSec.lines := by simp
    rw [e0, List.foldlM_append]
    have e1 : N ++ (c :: cs).map CfgSec.name = (N ++ [c.name]) ++ cs.map CfgSec.name := by simp
    have e2 : E ++ (c :: cs).flatMap (rawSec lower) = (E ++ rawSec lower c) ++ cs.flatMap (rawSec lower) := by simp
    rw [e1, e2]
    rcases inv_sec lower hl hd hi (hc c (by simp)) hE hN with ⟨h1, e, h2, h3⟩ | ⟨⟨h1, h1'⟩, s', h2, h3⟩
    · left
      refine ⟨?_, e, h2, by rw [h3]; rfl⟩
      rintro ⟨a, b⟩
      apply h1
      constructor
      · simp only [realNames, List.filter_append] at a ⊢
        exact (List.nodup_append.mp a).1
      · rw [List.map_append] at b
        exact (List.nodup_append.mp b).1
    · rw [h2]
      simp only [bind, Except.bind]
      exact ih _ _ s' h3 (fun x hx => hc x (by simp [hx])) h1' h1

end OsUrl
