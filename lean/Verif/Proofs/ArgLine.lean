import Verif.Proofs.Args

/-!
# From words to a command line
-/

namespace OsUrl

open Spec

theorem wordKinds_args {F : OptNames} (hF : NamesOK F) {vs argv : List Str} {ks : List (Str × WordKind)} (h : ∀ v ∈ vs, IsArg F v)
    (hk : wordKinds (optTable F) argv = some ks) : wordKinds (optTable F) (vs ++ argv) = some (asArgs vs ++ ks) := by
  induction vs with
  | nil => exact hk
  | cons v vs ih =>
    obtain ⟨h1, h2⟩ := isArg_parse hF (h v (by simp))
    rw [List.cons_append]
    unfold wordKinds
    rw [if_neg h1, h2, ih (fun u hu => h u (by simp [hu]))]
    rfl

theorem line_kinds {F : OptNames} (hF : NamesOK F) {argv : List Str} {gs : List (Opt × List Str)} (h : CmdLine F argv gs) :
    ∃ ks, wordKinds (optTable F) argv = some ks ∧ NoArgHead ks ∧ ∀ (upper : Str → Str) (w : World) (fuel : Nat) (a : Args) (x : Bool),
      ks.length ≤ fuel → argLoop (optTable F) upper w fuel a x ks = (gs.foldlM (takeAction upper w) a).map (fun a => (a, x)) := by
  induction h with
  | nil => exact ⟨[], rfl, trivial, fun upper w fuel a x _ => by cases fuel <;> rfl⟩
  | cons ws argv gs hs h1 h2 ih =>
    obtain ⟨ks, h3, h4, h5⟩ := ih
    obtain ⟨w, vs, o, s, ex, rfl, h6, h7, h8, h9⟩ := item_consume hF h1
    refine ⟨(w, .opt (some o) s ex) :: (asArgs vs ++ ks), ?_, trivial, ?_⟩
    · rw [List.cons_append]
      unfold wordKinds
      rw [if_neg h6, h7, wordKinds_args hF h8 h3]
      rfl
    · intro upper wd fuel a x hf
      cases fuel with
      | zero => simp at hf
      | succ fuel =>
        simp only [List.length_cons, List.length_append] at hf
        unfold argLoop
        simp only [h9 ks h4]
        rw [List.foldlM_append]
        simp only [bind, Except.bind]
        cases gs.foldlM (takeAction upper wd) a with
        | error e => rfl
        | ok a' =>
          simp only [Bool.or_false]
          exact h5 upper wd fuel a' x (by omega)

theorem kinds_tagged {F : OptNames} (hF : NamesOK F) {argv : List Str} {ks : List (Str × WordKind)} (h : wordKinds (optTable F) argv = some ks) :
    Tagged F ks ∧ ks.map (·.1) = argv := by
  induction argv generalizing ks with
  | nil => cases h; exact ⟨.nil, rfl⟩
  | cons v argv ih =>
    unfold wordKinds at h
    by_cases hv : v = c!"--"
    · rw [if_pos hv] at h
      cases h
      refine ⟨.dashes _ _, ?_⟩
      rw [List.map_cons, List.map_map]
      congr 1
      exact List.map_id' _
    · rw [if_neg hv] at h
      cases hp : parseOptional (optTable F) v with
      | none => rw [hp] at h; cases h
      | some k =>
        cases hk : wordKinds (optTable F) argv with
        | none => rw [hp, hk] at h; cases h
        | some ks' =>
          rw [hp, hk] at h
          cases h
          obtain ⟨h1, h2⟩ := ih hk
          exact ⟨.word _ _ _ (parse_word hF hv hp) h1, by rw [List.map_cons, h2]⟩

theorem loop_extra {T : OptTable} {upper : Str → Str} {w : World} {fuel : Nat} {a a' : Args} {ks : List (Str × WordKind)} {b : Bool}
    (h : argLoop T upper w fuel a true ks = .ok (a', b)) : b = true := by
  induction fuel generalizing a ks with
  | zero => cases ks <;> (cases h; rfl)
  | succ fuel ih =>
    cases ks with
    | nil => cases h; rfl
    | cons x rest =>
      obtain ⟨s, k⟩ := x
      unfold argLoop at h
      cases k with
      | arg => exact ih h
      | dashes => exact ih h
      | opt o single ex =>
        cases o with
        | none => exact ih h
        | some o =>
          simp only at h
          cases hc : consumeOptional T o single ex rest with
          | none => rw [hc] at h; cases h
          | some c =>
            rw [hc] at h
            simp only [bind, Except.bind] at h
            cases hf : c.actions.foldlM (takeAction upper w) a with
            | error e => rw [hf] at h; cases h
            | ok a1 =>
              rw [hf] at h
              simp only [Bool.true_or] at h
              exact ih h

theorem line_of_loop {F : OptNames} (hF : NamesOK F) {upper : Str → Str} {w : World} {fuel : Nat} {a a' : Args} {ks : List (Str × WordKind)}
    (ht : Tagged F ks) (hf : ks.length ≤ fuel) (h : argLoop (optTable F) upper w fuel a false ks = .ok (a', false)) :
    ∃ gs, CmdLine F (ks.map (·.1)) gs := by
  induction fuel generalizing a ks with
  | zero =>
    cases ks with
    | nil => exact ⟨[], .nil⟩
    | cons x xs => simp at hf
  | succ fuel ih =>
    cases ks with
    | nil => exact ⟨[], .nil⟩
    | cons x rest =>
      obtain ⟨s, k⟩ := x
      unfold argLoop at h
      cases ht with
      | dashes => exact absurd (loop_extra h) (by simp)
      | word _ _ _ hw ht =>
        cases k with
        | arg => exact absurd (loop_extra h) (by simp)
        | dashes => exact absurd (loop_extra h) (by simp)
        | opt o single ex =>
          cases o with
          | none => exact absurd (loop_extra h) (by simp)
          | some o =>
            simp only at h
            cases hc : consumeOptional (optTable F) o single ex rest with
            | none => rw [hc] at h; cases h
            | some c =>
              rw [hc] at h
              simp only [bind, Except.bind] at h
              cases hfo : c.actions.foldlM (takeAction upper w) a with
              | error e => rw [hfo] at h; cases h
              | ok a1 =>
                rw [hfo] at h
                simp only [Bool.false_or] at h
                cases hx : c.extra with
                | true => rw [hx] at h; exact absurd (loop_extra h) (by simp)
                | false =>
                  rw [hx] at h
                  obtain ⟨vs, h1, h2, h3⟩ := item_of_consume hF hw ht hc hx
                  have hl : c.rest.length ≤ fuel := by
                    rw [h1] at hf
                    simp only [List.length_cons, List.length_append] at hf
                    omega
                  obtain ⟨gs, h4⟩ := ih h3 hl h
                  refine ⟨c.actions ++ gs, ?_⟩
                  rw [h1, List.map_cons, List.map_append, map_asArgs]
                  exact .cons (s :: vs) _ _ _ h2 h4

/-! ### The actions -/

theorem item_count {F : OptNames} {ws : List Str} {gs : List (Opt × List Str)} (h : CmdItem F ws gs) : ∀ g ∈ gs, ArgCount g.1 g.2.length := by
  have one : ∀ {o : Opt}, ¬ Flag o → ArgCount o 1 := by
    intro o h
    cases o <;> simp [Flag, ArgCount] at h ⊢
  induction h with
  | apart w o vs h1 h2 h3 => intro g hg; simp at hg; subst hg; exact h2
  | equals w o v h1 h2 => intro g hg; simp at hg; subst hg; exact one h2
  | glued c l o v h1 h2 h3 h4 => intro g hg; simp at hg; subst hg; exact one h2
  | flag c l o r ws gs h1 h2 h3 h4 ih =>
    intro g hg
    rcases List.mem_cons.mp hg with rfl | hg
    · exact Or.inl ⟨h2, rfl⟩
    · exact ih g hg

theorem line_count {F : OptNames} {argv : List Str} {gs : List (Opt × List Str)} (h : CmdLine F argv gs) : ∀ g ∈ gs, ArgCount g.1 g.2.length := by
  induction h with
  | nil => simp
  | cons ws argv gs hs h1 h2 ih =>
    intro g hg
    rcases List.mem_append.mp hg with hg | hg
    · exact item_count h1 g hg
    · exact ih g hg

theorem opens_iff {w : World} {n : Str} : w.opens n = true ↔ n = ['-'] ∨ (w.file n).isSome = true := by
  unfold World.opens
  rw [Bool.or_eq_true, beq_iff_eq]

theorem opens_all {w : World} {vs : List Str} : vs.all w.opens = true ↔ ∀ n ∈ vs, n = ['-'] ∨ (w.file n).isSome = true := by
  rw [List.all_eq_true]
  exact ⟨fun h n hn => opens_iff.mp (h n hn), fun h n hn => opens_iff.mpr (h n hn)⟩

theorem format_names (b : Bool) (v : Str) : v ∈ ((formatters b).getD []).map (·.1) ↔ v ∈ formats b := by
  have h1 : ∀ b, ∀ v ∈ ((formatters b).getD []).map (·.1), v ∈ formats b := by decide +kernel
  have h2 : ∀ b, ∀ v ∈ formats b, v ∈ ((formatters b).getD []).map (·.1) := by decide +kernel
  exact ⟨h1 b v, h2 b v⟩

/-- The namespace after one action that can be done. -/
def acted (upper : Str → Str) (a : Args) (g : Opt × List Str) : Args :=
  match g.1 with
  | .help | .version => a
  | .all => { a with all := true }
  | .inputs => { a with inputs := g.2 }
  | .patterns => { a with patterns := some g.2 }
  | .config => { a with config := g.2.head? }
  | .loglevel => { a with level := g.2.head?.map upper }
  | .format => { a with format := g.2.head?.map upper }

theorem action_ok {upper : Str → Str} {w : World} {g : Opt × List Str} (hc : ArgCount g.1 g.2.length) (a : Args)
    (h : CanDo upper w g) (h1 : g.1 ≠ .help) (h2 : g.1 ≠ .version) : takeAction upper w a g = .ok (acted upper a g) := by
  obtain ⟨o, vs⟩ := g
  unfold CanDo at h
  unfold takeAction acted
  have one : ∀ {o : Opt}, (o = .loglevel ∨ o = .format) → ArgCount o vs.length → ∃ v, vs = [v] := by
    intro o ho hc
    have : vs.length = 1 := by
      rcases ho with rfl | rfl <;> simpa [ArgCount, Flag] using hc
    match vs, this with
    | [v], _ => exact ⟨v, rfl⟩
  cases o with
  | help => exact absurd rfl h1
  | version => exact absurd rfl h2
  | all => rfl
  | inputs => exact if_pos (opens_all.mpr h)
  | patterns => exact if_pos (opens_all.mpr h)
  | config => exact if_pos (opens_all.mpr h)
  | loglevel =>
    obtain ⟨v, rfl⟩ := one (Or.inl rfl) hc
    exact if_pos (h v (by simp))
  | format =>
    obtain ⟨v, rfl⟩ := one (Or.inr rfl) hc
    refine if_pos ?_
    rw [format_names]
    exact h v (by simp)

theorem action_bad {upper : Str → Str} {w : World} {g : Opt × List Str} (hc : ArgCount g.1 g.2.length) (a : Args)
    (h : ¬ CanDo upper w g) : takeAction upper w a g = .error 2 := by
  obtain ⟨o, vs⟩ := g
  unfold CanDo at h
  unfold takeAction
  have one : ∀ {o : Opt}, (o = .loglevel ∨ o = .format) → ArgCount o vs.length → ∃ v, vs = [v] := by
    intro o ho hc
    have : vs.length = 1 := by
      rcases ho with rfl | rfl <;> simpa [ArgCount, Flag] using hc
    match vs, this with
    | [v], _ => exact ⟨v, rfl⟩
  cases o with
  | help => exact absurd trivial h
  | version => exact absurd trivial h
  | all => exact absurd trivial h
  | inputs => exact if_neg (fun e => h (opens_all.mp e))
  | patterns => exact if_neg (fun e => h (opens_all.mp e))
  | config => exact if_neg (fun e => h (opens_all.mp e))
  | loglevel =>
    obtain ⟨v, rfl⟩ := one (Or.inl rfl) hc
    refine if_neg (fun e => h ?_)
    intro u hu
    simp at hu
    subst hu
    exact e
  | format =>
    obtain ⟨v, rfl⟩ := one (Or.inr rfl) hc
    refine if_neg (fun e => h ?_)
    rw [format_names] at e
    intro u hu
    simp at hu
    subst hu
    exact e

theorem action_exit {upper : Str → Str} {w : World} {g : Opt × List Str} {a : Args} {n : Nat} (h : takeAction upper w a g = .error n) : n = 0 ∨ n = 2 := by
  unfold takeAction at h
  cases hg : g.1 <;> rw [hg] at h <;> simp only at h
  · cases h; exact Or.inl rfl
  · cases h; exact Or.inl rfl
  all_goals
    first
    | (split at h <;> cases h; exact Or.inr rfl)
    | cases h

theorem fold_fine {upper : Str → Str} {w : World} {gs : List (Opt × List Str)} (hc : ∀ g ∈ gs, ArgCount g.1 g.2.length) (h : Fine upper w gs) (a : Args) :
    gs.foldlM (takeAction upper w) a = .ok (gs.foldl (acted upper) a) := by
  induction gs generalizing a with
  | nil => rfl
  | cons g gs ih =>
    obtain ⟨h1, h2, h3⟩ := h g (by simp)
    rw [List.foldlM_cons, action_ok (hc g (by simp)) a h1 h2 h3]
    exact ih (fun g hg => hc g (by simp [hg])) (fun g hg => h g (by simp [hg])) _

theorem fold_stop {upper : Str → Str} {w : World} {gs hs : List (Opt × List Str)} {g : Opt × List Str} {n : Nat} (hc : ∀ g ∈ gs, ArgCount g.1 g.2.length) (h : Fine upper w gs)
    (hg : ∀ a, takeAction upper w a g = .error n) (a : Args) : (gs ++ g :: hs).foldlM (takeAction upper w) a = .error n := by
  rw [List.foldlM_append, fold_fine hc h]
  simp only [bind, Except.bind]
  rw [List.foldlM_cons, hg]
  rfl

theorem fine_of_fold {upper : Str → Str} {w : World} {gs : List (Opt × List Str)} (hc : ∀ g ∈ gs, ArgCount g.1 g.2.length) {a a' : Args}
    (h : gs.foldlM (takeAction upper w) a = .ok a') : Fine upper w gs := by
  induction gs generalizing a with
  | nil => intro g hg; cases hg
  | cons g gs ih =>
    rw [List.foldlM_cons] at h
    cases ht : takeAction upper w a g with
    | error e => rw [ht] at h; cases h
    | ok a1 =>
      rw [ht] at h
      have := ih (fun g hg => hc g (by simp [hg])) h
      intro g' hg'
      rcases List.mem_cons.mp hg' with rfl | hg'
      · refine ⟨?_, ?_, ?_⟩
        · exact Classical.byContradiction (fun hn => by rw [action_bad (hc _ (by simp)) a hn] at ht; cases ht)
        · intro e; unfold takeAction at ht; rw [e] at ht; cases ht
        · intro e; unfold takeAction at ht; rw [e] at ht; cases ht
      · exact this g' hg'

theorem fold_exit {upper : Str → Str} {w : World} {gs : List (Opt × List Str)} {a : Args} {n : Nat} (h : gs.foldlM (takeAction upper w) a = .error n) : n = 0 ∨ n = 2 := by
  induction gs generalizing a with
  | nil => cases h
  | cons g gs ih =>
    rw [List.foldlM_cons] at h
    cases ht : takeAction upper w a g with
    | error e => rw [ht] at h; cases h; exact action_exit ht
    | ok a1 => rw [ht] at h; exact ih h

theorem lastOf_cons (g : Opt × List Str) (gs : List (Opt × List Str)) (o : Opt) :
    lastOf (g :: gs) o = (lastOf gs o).or (if g.1 = o then some g.2 else none) := by
  unfold lastOf
  by_cases h : g.1 = o
  · rw [List.filter_cons_of_pos (by simpa using h), if_pos h]
    cases hf : gs.filter (fun g => g.1 == o) with
    | nil => rfl
    | cons x xs => rw [List.getLast?_cons_cons]; cases hl : (x :: xs).getLast? with
      | none => simp at hl
      | some y => rfl
  · rw [List.filter_cons_of_neg (by simpa using h), if_neg h]
    cases hf : gs.filter (fun g => g.1 == o) with
    | nil => rfl
    | cons x xs => cases hl : (x :: xs).getLast? with
      | none => simp at hl
      | some y => rfl

theorem fold_acted (upper : Str → Str) (gs : List (Opt × List Str)) (a : Args) :
    let r := gs.foldl (acted upper) a
    r.inputs = (lastOf gs .inputs).getD a.inputs ∧ r.patterns = (lastOf gs .patterns).or a.patterns ∧
    r.config = ((lastOf gs .config).map List.head?).getD a.config ∧
    r.level = ((lastOf gs .loglevel).map (fun vs => vs.head?.map upper)).getD a.level ∧
    r.format = ((lastOf gs .format).map (fun vs => vs.head?.map upper)).getD a.format ∧
    r.all = ((lastOf gs .all).isSome || a.all) := by
  induction gs generalizing a with
  | nil => simp [lastOf]
  | cons g gs ih =>
    obtain ⟨h1, h2, h3, h4, h5, h6⟩ := ih (acted upper a g)
    simp only [List.foldl_cons, lastOf_cons]
    rw [h1, h2, h3, h4, h5, h6]
    obtain ⟨o, vs⟩ := g
    cases o <;> simp only [acted, reduceCtorEq, if_false, if_true, Option.or_none] <;>
      simp only [true_and, and_true, and_self] <;> first | trivial | skip
    · cases lastOf gs .inputs <;> rfl
    · cases lastOf gs .loglevel <;> rfl
    · cases lastOf gs .config <;> rfl
    · cases lastOf gs .format <;> rfl
    · cases lastOf gs .patterns <;> rfl
    · cases lastOf gs .all <;> simp

/-! ### The whole line -/

theorem parse_line {F : OptNames} (hF : NamesOK F) {argv : List Str} {gs : List (Opt × List Str)} (h : CmdLine F argv gs) (required : Bool)
    (upper : Str → Str) (w : World) : parseArgs (optTable F) required upper w argv =
      (gs.foldlM (takeAction upper w) ({} : Args)).bind (fun a => if (required && a.patterns.isNone) = true then .error 2 else .ok a) := by
  obtain ⟨ks, h1, _, h2⟩ := line_kinds hF h
  unfold parseArgs
  rw [h1]
  simp only [h2 upper w ks.length {} false (Nat.le_refl _), bind]
  cases gs.foldlM (takeAction upper w) ({} : Args) with
  | error e => rfl
  | ok a => simp only [Except.map, Except.bind, Bool.or_false]; rfl

theorem line_of_parse {F : OptNames} (hF : NamesOK F) {argv : List Str} {required : Bool} {upper : Str → Str} {w : World} {a : Args}
    (h : parseArgs (optTable F) required upper w argv = .ok a) : ∃ gs, CmdLine F argv gs ∧ Fine upper w gs ∧ (required = true → (lastOf gs .patterns).isSome = true) := by
  have hl : ∃ gs, CmdLine F argv gs := by
    unfold parseArgs at h
    cases hk : wordKinds (optTable F) argv with
    | none => rw [hk] at h; cases h
    | some ks =>
      rw [hk] at h
      simp only [bind, Except.bind] at h
      cases ha : argLoop (optTable F) upper w ks.length {} false ks with
      | error e => rw [ha] at h; cases h
      | ok x =>
        obtain ⟨a', extra⟩ := x
        rw [ha] at h
        simp only at h
        cases extra with
        | true => simp at h
        | false =>
          obtain ⟨h1, h2⟩ := kinds_tagged hF hk
          obtain ⟨gs, h3⟩ := line_of_loop hF h1 (Nat.le_refl _) ha
          rw [h2] at h3
          exact ⟨gs, h3⟩
  obtain ⟨gs, hl⟩ := hl
  rw [parse_line hF hl] at h
  cases hf : gs.foldlM (takeAction upper w) ({} : Args) with
  | error e => rw [hf] at h; cases h
  | ok a1 =>
    have hfine := fine_of_fold (line_count hl) hf
    refine ⟨gs, hl, hfine, ?_⟩
    intro hr
    rw [hf] at h
    simp only [Except.bind, hr, Bool.true_and] at h
    rw [fold_fine (line_count hl) hfine] at hf
    have := (fold_acted upper gs {}).2.1
    simp only at this
    cases hf
    rw [this] at h
    cases hp : lastOf gs .patterns with
    | none => rw [hp] at h; simp at h
    | some v => rfl

theorem parse_exit {F : OptNames} {argv : List Str} {required : Bool} {upper : Str → Str} {w : World} {n : Nat}
    (h : parseArgs (optTable F) required upper w argv = .error n) : n = 0 ∨ n = 2 := by
  have loop : ∀ fuel a x ks, argLoop (optTable F) upper w fuel a x ks = .error n → n = 0 ∨ n = 2 := by
    intro fuel
    induction fuel with
    | zero => intro a x ks h; cases ks <;> cases h
    | succ fuel ih =>
      intro a x ks h
      cases ks with
      | nil => cases h
      | cons y rest =>
        obtain ⟨s, k⟩ := y
        unfold argLoop at h
        cases k with
        | arg => exact ih _ _ _ h
        | dashes => exact ih _ _ _ h
        | opt o single ex =>
          cases o with
          | none => exact ih _ _ _ h
          | some o =>
            simp only at h
            cases hc : consumeOptional (optTable F) o single ex rest with
            | none => rw [hc] at h; cases h; exact Or.inr rfl
            | some c =>
              rw [hc] at h
              simp only [bind, Except.bind] at h
              cases hfo : c.actions.foldlM (takeAction upper w) a with
              | error e => rw [hfo] at h; cases h; exact fold_exit hfo
              | ok a1 => rw [hfo] at h; exact ih _ _ _ h
  unfold parseArgs at h
  cases hk : wordKinds (optTable F) argv with
  | none => rw [hk] at h; cases h; exact Or.inr rfl
  | some ks =>
    rw [hk] at h
    simp only [bind, Except.bind] at h
    cases ha : argLoop (optTable F) upper w ks.length {} false ks with
    | error e => rw [ha] at h; cases h; exact loop _ _ _ _ ha
    | ok x =>
      obtain ⟨a', extra⟩ := x
      rw [ha] at h
      simp only at h
      split at h <;> cases h
      exact Or.inr rfl

/-- Only the actions of a line. -/
def lineActs (T : OptTable) : Nat → List (Str × WordKind) → List (Opt × List Str)
  | fuel + 1, (_, .opt (some o) single explicit) :: rest =>
    match consumeOptional T o single explicit rest with
    | none => []
    | some c => c.actions ++ lineActs T fuel c.rest
  | _, _ => []

theorem line_acts {F : OptNames} (hF : NamesOK F) {argv : List Str} {gs : List (Opt × List Str)} (h : CmdLine F argv gs) :
    ∃ ks, wordKinds (optTable F) argv = some ks ∧ NoArgHead ks ∧ ∀ fuel, ks.length ≤ fuel → lineActs (optTable F) fuel ks = gs := by
  induction h with
  | nil => exact ⟨[], rfl, trivial, fun fuel _ => by cases fuel <;> rfl⟩
  | cons ws argv gs hs h1 h2 ih =>
    obtain ⟨ks, h3, h4, h5⟩ := ih
    obtain ⟨w, vs, o, s, ex, rfl, h6, h7, h8, h9⟩ := item_consume hF h1
    refine ⟨(w, .opt (some o) s ex) :: (asArgs vs ++ ks), ?_, trivial, ?_⟩
    · rw [List.cons_append]
      unfold wordKinds
      rw [if_neg h6, h7, wordKinds_args hF h8 h3]
      rfl
    · intro fuel hf
      cases fuel with
      | zero => simp at hf
      | succ fuel =>
        simp only [List.length_cons, List.length_append] at hf
        unfold lineActs
        simp only [h9 ks h4]
        rw [h5 fuel (by omega)]

theorem line_unique {F : OptNames} (hF : NamesOK F) {argv : List Str} {gs hs : List (Opt × List Str)} (h1 : CmdLine F argv gs) (h2 : CmdLine F argv hs) :
    gs = hs := by
  obtain ⟨ks, h3, _, h4⟩ := line_acts hF h1
  obtain ⟨ks', h5, _, h6⟩ := line_acts hF h2
  rw [h3] at h5
  cases h5
  rw [← h4 ks.length (Nat.le_refl _), ← h6 ks.length (Nat.le_refl _)]

theorem line_no_dashes {F : OptNames} (hF : NamesOK F) {argv : List Str} {gs : List (Opt × List Str)} (h : CmdLine F argv gs) : c!"--" ∉ argv := by
  induction h with
  | nil => simp
  | cons ws argv gs hs h1 h2 ih =>
    obtain ⟨w, vs, o, s, ex, rfl, h6, h7, h8, h9⟩ := item_consume hF h1
    intro hm
    rcases List.mem_append.mp hm with hm | hm
    · rcases List.mem_cons.mp hm with e | hm
      · exact h6 e.symm
      · exact (isArg_parse hF (h8 _ hm)).1 rfl
    · exact ih hm

/-! ### Reading the files -/

theorem read_length (w : World) (used : Bool) (ns : List Str) : (w.read used ns).length = ns.length := by
  induction ns generalizing used with
  | nil => rfl
  | cons n ns ih =>
    unfold World.read
    by_cases h : n = c!"-"
    · rw [if_pos h, List.length_cons, List.length_cons, ih]
    · rw [if_neg h, List.length_cons, List.length_cons, ih]

theorem read_get {w : World} {used : Bool} {ns : List Str} (ho : ∀ n ∈ ns, n = ['-'] ∨ (w.file n).isSome = true) {i : Nat} {n : Str} (h : ns[i]? = some n) :
    ∃ b, (w.read used ns)[i]? = some b ∧ Content w (used = true ∨ c!"-" ∈ ns.take i) n b := by
  induction ns generalizing used i with
  | nil => simp at h
  | cons m ns ih =>
    have ho' : ∀ n ∈ ns, n = ['-'] ∨ (w.file n).isSome = true := fun n hn => ho n (by simp [hn])
    cases i with
    | zero =>
      simp only [List.getElem?_cons_zero, Option.some.injEq] at h
      subst h
      unfold World.read
      by_cases hm : m = c!"-"
      · rw [if_pos hm]
        refine ⟨_, List.getElem?_cons_zero, ?_⟩
        subst hm
        cases used with
        | true => exact .again (Or.inl rfl)
        | false => exact .stdin (by simp)
      · rw [if_neg hm]
        refine ⟨_, List.getElem?_cons_zero, ?_⟩
        obtain ⟨b, hb⟩ := Option.isSome_iff_exists.mp ((ho m (by simp)).resolve_left hm)
        rw [hb]
        exact .file _ _ hm hb
    | succ i =>
      simp only [List.getElem?_cons_succ] at h
      unfold World.read
      by_cases hm : m = c!"-"
      · rw [if_pos hm, List.getElem?_cons_succ]
        obtain ⟨b, h1, h2⟩ := ih (used := true) ho' h
        refine ⟨b, h1, ?_⟩
        have : (true = true ∨ c!"-" ∈ ns.take i) ↔ (used = true ∨ c!"-" ∈ (m :: ns).take (i + 1)) := by simp [hm]
        rw [← this]
        exact h2
      · rw [if_neg hm, List.getElem?_cons_succ]
        obtain ⟨b, h1, h2⟩ := ih (used := used) ho' h
        refine ⟨b, h1, ?_⟩
        have : (used = true ∨ c!"-" ∈ ns.take i) ↔ (used = true ∨ c!"-" ∈ (m :: ns).take (i + 1)) := by
          rw [List.take_succ_cons, List.mem_cons]
          constructor
          · rintro (h | h)
            · exact Or.inl h
            · exact Or.inr (Or.inr h)
          · rintro (h | h | h)
            · exact Or.inl h
            · exact absurd h.symm hm
            · exact Or.inr h
        rw [← this]
        exact h2

theorem read_contents {w : World} {used : Bool} {ns : List Str} (ho : ∀ n ∈ ns, n = ['-'] ∨ (w.file n).isSome = true) :
    Contents w (used = true) ns (w.read used ns) := by
  refine ⟨read_length w used ns, ?_⟩
  intro i n b hn hb
  obtain ⟨b', h1, h2⟩ := read_get (used := used) ho hn
  rw [hb] at h1
  cases h1
  exact h2

theorem content_unique {w : World} {p : Prop} {n : Str} {b b' : Bytes} (h : Content w p n b) (h' : Content w p n b') : b = b' := by
  cases h with
  | file _ _ h1 h2 =>
    cases h' with
    | file _ _ _ h3 => rw [h2] at h3; cases h3; rfl
    | stdin _ => exact absurd rfl h1
    | again _ => exact absurd rfl h1
  | stdin h1 =>
    cases h' with
    | file _ _ h2 _ => exact absurd rfl h2
    | stdin _ => rfl
    | again h2 => exact absurd h2 h1
  | again h1 =>
    cases h' with
    | file _ _ h2 _ => exact absurd rfl h2
    | stdin h2 => exact absurd h1 h2
    | again _ => rfl

theorem contents_unique {w : World} {p : Prop} {ns : List Str} {bs bs' : List Bytes} (h : Contents w p ns bs) (h' : Contents w p ns bs') : bs = bs' := by
  apply List.ext_getElem?
  intro i
  by_cases hi : i < ns.length
  · have h1 : bs[i]? = some (bs[i]'(by rw [h.1]; exact hi)) := List.getElem?_eq_getElem _
    have h2 : bs'[i]? = some (bs'[i]'(by rw [h'.1]; exact hi)) := List.getElem?_eq_getElem _
    have h3 : ns[i]? = some ns[i] := List.getElem?_eq_getElem _
    rw [h1, h2, content_unique (h.2 i _ _ h3 h1) (h'.2 i _ _ h3 h2)]
  · rw [List.getElem?_eq_none (by rw [h.1]; omega), List.getElem?_eq_none (by rw [h'.1]; omega)]

end OsUrl
