import Verif.Proofs.CfgInt
import Verif.Props.C50

/-! Whole files: those that are written as they should be, and any others. -/

namespace OsUrl
open Spec

theorem Cfg.look_joined (c : Cfg) (n k : Str) : c.joined.look n k = (c.look n k).map rstripS := by
  unfold Cfg.joined Cfg.look
  rw [Dict.get?_map (fun d : Dict Str Str => d.map (fun ov => (ov.1, rstripS ov.2))) n c]
  cases Dict.get? n c with
  | none => rfl
  | some d => exact Dict.get?_map rstripS k d

theorem Cfg.has_joined (c : Cfg) (n : Str) : (Dict.get? n c.joined).isSome = (Dict.get? n c).isSome := by
  unfold Cfg.joined
  rw [Dict.get?_map (fun d : Dict Str Str => d.map (fun ov => (ov.1, rstripS ov.2))) n c]
  cases Dict.get? n c <;> rfl

theorem get?_mem_nodup {κ α : Type} [DecidableEq κ] {E : Dict κ α} (h : (E.map Prod.fst).Nodup) {k : κ} {v : α} :
    Dict.get? k E = some v ↔ (k, v) ∈ E := by
  induction E with
  | nil => simp [Dict.get?]
  | cons x xs ih =>
    obtain ⟨k', v'⟩ := x
    rw [List.map_cons, List.nodup_cons] at h
    simp only [Dict.get?]
    by_cases hk : k' = k
    · rw [if_pos hk]
      subst hk
      constructor
      · intro e; cases e; simp
      · intro hm
        rcases List.mem_cons.mp hm with e | hm
        · cases e; rfl
        · exact absurd (List.mem_map_of_mem (f := Prod.fst) hm) h.1
    · rw [if_neg hk, ih h.2]
      constructor
      · intro hm; exact List.mem_cons_of_mem _ hm
      · intro hm
        rcases List.mem_cons.mp hm with e | hm
        · cases e; exact absurd rfl hk
        · exact hm

theorem raw_entries (lower : Str → Str) (f : CfgFile) :
    (f.secs.flatMap (rawSec lower)).map (fun x => (x.1, rstripS x.2)) = f.entries lower := by
  unfold CfgFile.entries
  rw [List.map_flatMap]
  congr 1
  funext c
  simp [rawSec, rawValue_value]

theorem raw_keys (lower : Str → Str) (f : CfgFile) :
    (f.secs.flatMap (rawSec lower)).map Prod.fst = (f.entries lower).map Prod.fst := by
  rw [← raw_entries, List.map_map]; rfl

theorem read_file (lower : Str → Str) (hl : ∀ s, lower s = [] → s = []) {base : Cfg} (hd : (Dict.get? cfgDefault base).isSome = true)
    (hb : ∀ n k v, base.look n k = some v → rstripS v = v) {f : CfgFile} (hf : f.OK) :
    (¬ f.Distinct lower ∧ ∃ e, DupErr e ∧ cfgRead lower base f.lines = .error e) ∨
    (f.Distinct lower ∧ ∃ c, cfgRead lower base f.lines = .ok c ∧
      (∀ n k, c.look n k = (Dict.get? (n, k) (f.entries lower)).orElse (fun _ => base.look n k)) ∧
      (∀ n, (Dict.get? n c).isSome = true ↔ (Dict.get? n base).isSome = true ∨ n ∈ f.secs.map CfgSec.name)) := by
  have h0 : RdInv base [] [] { cfg := base } := by
    refine ⟨rfl, ?_, ?_, ?_, ?_⟩
    · intro n; simp
    · intro n k; simp
    · intro n k; simp [Dict.get?]
    · intro n; simp
  have hj := junk_lines lower f.junk { cfg := base } hf.junk rfl
  have hr : ∀ r, (f.secs.flatMap CfgSec.lines).foldlM (cfgLine lower) { cfg := base } = r → f.lines.foldlM (cfgLine lower) { cfg := base } = r := by
    intro r h
    unfold CfgFile.lines
    rw [List.foldlM_append, hj]
    exact h
  have hD : f.Distinct lower ↔ (realNames ([] ++ f.secs.map CfgSec.name)).Nodup ∧ (([] ++ f.secs.flatMap (rawSec lower)).map Prod.fst).Nodup := by
    rw [List.nil_append, List.nil_append, raw_keys]
    exact ⟨fun h => ⟨h.secs, h.opts⟩, fun h => ⟨h.1, h.2⟩⟩
  rcases inv_secs lower hl hd f.secs [] [] { cfg := base } h0 hf.secs (by simp) (by simp [realNames]) with ⟨h1, e, h2, h3⟩ | ⟨h1, s', h2, h3⟩
  · refine Or.inl ⟨fun h => h1 (hD.mp h), e, h2, ?_⟩
    simp only [cfgRead, hr _ h3, bind, Except.bind]
  · refine Or.inr ⟨hD.mpr h1, s'.cfg.joined, ?_, ?_, ?_⟩
    · simp only [cfgRead, hr _ h2, bind, Except.bind, h3.bad, pure, Except.pure, Bool.false_eq_true, if_false]
    · intro n k
      rw [Cfg.look_joined, h3.look, ← raw_entries, Dict.get?_map rstripS, List.nil_append]
      cases Dict.get? (n, k) (f.secs.flatMap (rawSec lower)) with
      | none =>
        simp only [Option.orElse_none, Option.map_none]
        cases hbl : base.look n k with
        | none => rfl
        | some v => simp [hb n k v hbl]
      | some v => rfl
    · intro n
      rw [Cfg.has_joined, h3.has, List.nil_append]

/-- One step of reading. -/
inductive CfgStep (lower : Str → Str) (s : CfgRd) (line : Str) : CfgRd → Prop
  | skip (i : Nat) (b : Bool) : CfgStep lower s line { s with indent := i, bad := b }
  | append (sec o t : Str) (h : s.open? = some (sec, o)) : CfgStep lower s line (s.append sec o t)
  | old (i : Nat) (name : Str) (a : List (Str × Option Str)) : CfgStep lower s line { s with indent := i, cur := some name, opt := none, added := a }
  | new (i : Nat) (name : Str) (a : List (Str × Option Str)) (h : Dict.get? name s.cfg = none) :
      CfgStep lower s line { s with indent := i, cfg := s.cfg ++ [(name, [])], cur := some name, opt := none, added := a }
  | opt (i : Nat) (b : Bool) (sec x v : Str) (h : s.cur = some sec) (h2 : cfgOption (stripS line) = some (x, v)) (a : List (Str × Option Str)) :
      CfgStep lower s line { s with
        indent := i, cfg := s.cfg.set sec (lower (rstripS x)) (fun _ => stripS v), added := a, opt := some (lower (rstripS x)), bad := b }

theorem cfgSection_step {lower : Str → Str} {s s' : CfgRd} {line : Str} {i : Nat} {name : Str} (h : cfgSection { s with indent := i } name = .ok s') :
    CfgStep lower s line s' := by
  unfold cfgSection at h
  by_cases h1 : name = cfgDefault
  · rw [if_pos h1] at h; cases h; exact .old i name s.added
  · rw [if_neg h1] at h
    by_cases h2 : (Dict.get? name s.cfg).isSome = true
    · rw [if_pos h2] at h
      by_cases h3 : (name, none) ∈ s.added
      · rw [if_pos h3] at h; cases h
      · rw [if_neg h3] at h; cases h; exact .old i name _
    · rw [if_neg h2] at h
      cases h
      exact .new i name _ (by simpa using h2)

theorem cfgLine_step {lower : Str → Str} {s s' : CfgRd} {line : Str} (h : cfgLine lower s line = .ok s') : CfgStep lower s line s' := by
  unfold cfgLine at h
  simp only at h
  by_cases h1 : (stripS line).head? = some '#' ∨ (stripS line).head? = some ';'
  · rw [if_pos h1] at h; cases h; exact .skip s.indent s.bad
  · rw [if_neg h1] at h
    by_cases h2 : (stripS line).isEmpty = true
    · rw [if_pos h2] at h
      cases ho : s.open? with
      | none => rw [ho] at h; cases h; exact .skip s.indent s.bad
      | some x => rw [ho] at h; cases h; exact .append _ _ _ ho
    · rw [if_neg h2] at h
      have key : ∀ i, (match cfgHeader (stripS line) with
        | some name => cfgSection { s with indent := i } name
        | none => match s.cur with
          | none => .error .missingSectionHeader
          | some sec => match cfgOption (stripS line) with
            | none => .ok { s with indent := i, bad := true }
            | some (o, v) =>
              if (sec, some (lower (rstripS o))) ∈ s.added then .error .duplicateOption
              else .ok { s with
                indent := i, cfg := s.cfg.set sec (lower (rstripS o)) (fun _ => stripS v), added := (sec, some (lower (rstripS o))) :: s.added,
                opt := some (lower (rstripS o)), bad := s.bad || (rstripS o).isEmpty }) = Except.ok s' → CfgStep lower s line s' := by
        intro i h
        cases hh : cfgHeader (stripS line) with
        | some name => rw [hh] at h; exact cfgSection_step h
        | none =>
          rw [hh] at h
          cases hc : s.cur with
          | none => rw [hc] at h; cases h
          | some sec =>
            rw [hc] at h
            cases hp : cfgOption (stripS line) with
            | none => rw [hp] at h; simp only at h; cases h; rw [← hc]; exact .skip i true
            | some ov =>
              obtain ⟨o, v⟩ := ov
              rw [hp] at h
              simp only at h
              by_cases hm : (sec, some (lower (rstripS o))) ∈ s.added
              · rw [if_pos hm] at h; cases h
              · rw [if_neg hm] at h
                cases h
                rw [← hc]
                exact .opt i _ sec o v hc hp _
      cases ho : s.open? with
      | none => rw [ho] at h; exact key _ h
      | some x =>
        rw [ho] at h
        cases hi : decide (s.indent < (line.takeWhile isSpaceC).length) with
        | false => rw [hi] at h; exact key _ h
        | true => rw [hi] at h; cases h; exact .append _ _ _ ho

theorem look_new {c : Cfg} {name : Str} (h : Dict.get? name c = none) (n k : Str) : Cfg.look (c ++ [(name, [])]) n k = c.look n k := by
  unfold Cfg.look
  rw [Dict.get?_append]
  cases hn : Dict.get? n c with
  | some d => rfl
  | none =>
    simp only [Option.orElse_none, Option.bind_none, Dict.get?]
    by_cases he : name = n
    · rw [if_pos he]; rfl
    · rw [if_neg he]; rfl

theorem step_some {lower : Str → Str} {s s' : CfgRd} {line : Str} (h : CfgStep lower s line s') {n k : Str} (hs : (s.cfg.look n k).isSome = true) :
    (s'.cfg.look n k).isSome = true := by
  cases h with
  | skip i b => exact hs
  | append sec o t h =>
    simp only [CfgRd.append, Cfg.look_set]
    split
    · rfl
    · exact hs
  | old i name a => exact hs
  | new i name a h => simp only [look_new h]; exact hs
  | opt i b sec x v h h2 a =>
    simp only [Cfg.look_set]
    split
    · rfl
    · exact hs

theorem open_opt {s : CfgRd} {sec o : Str} (h : s.open? = some (sec, o)) : s.opt = some o := by
  unfold CfgRd.open? at h
  split at h
  · rename_i ho
    split at h
    · cases h
    · cases h; exact ho
  · cases h

/-- The line does not set the option `k`. -/
def Leaves (lower : Str → Str) (k line : Str) : Prop :=
  ∀ a d b, stripS line = a ++ d :: b → (d = '=' ∨ d = ':') → '=' ∉ a → ':' ∉ a → lower (rstripS a) ≠ k

theorem step_keep {lower : Str → Str} {s s' : CfgRd} {line k : Str} (h : CfgStep lower s line s') (hl : Leaves lower k line) (ho : s.opt ≠ some k) :
    s'.opt ≠ some k ∧ ∀ n, s'.cfg.look n k = s.cfg.look n k := by
  cases h with
  | skip i b => exact ⟨ho, fun n => rfl⟩
  | append sec o t h =>
    refine ⟨ho, fun n => ?_⟩
    simp only [CfgRd.append, Cfg.look_set]
    rw [if_neg]
    rintro ⟨_, e⟩
    rw [open_opt h, e] at ho
    exact ho rfl
  | old i name a => exact ⟨by simp, fun n => rfl⟩
  | new i name a h => exact ⟨by simp, fun n => look_new h n k⟩
  | opt i b sec x v h h2 a =>
    obtain ⟨d, h3, h4, h5, h6⟩ := cfgOption_some h2
    have hne := hl x d v h4 h3 h5 h6
    refine ⟨by simpa using hne, fun n => ?_⟩
    simp only [Cfg.look_set]
    rw [if_neg]
    exact fun e => hne e.2

theorem fold_some {lower : Str → Str} : ∀ (ls : List Str) (s s' : CfgRd), ls.foldlM (cfgLine lower) s = .ok s' → ∀ n k,
    (s.cfg.look n k).isSome = true → (s'.cfg.look n k).isSome = true := by
  intro ls
  induction ls with
  | nil => intro s s' h n k hs; cases h; exact hs
  | cons l ls ih =>
    intro s s' h n k hs
    simp only [List.foldlM_cons, bind, Except.bind] at h
    cases h1 : cfgLine lower s l with
    | error e => rw [h1] at h; cases h
    | ok s1 => rw [h1] at h; exact ih s1 s' h n k (step_some (cfgLine_step h1) hs)

theorem fold_keep {lower : Str → Str} {k : Str} : ∀ (ls : List Str) (s s' : CfgRd), ls.foldlM (cfgLine lower) s = .ok s' →
    (∀ l ∈ ls, Leaves lower k l) → s.opt ≠ some k → ∀ n, s'.cfg.look n k = s.cfg.look n k := by
  intro ls
  induction ls with
  | nil => intro s s' h _ _ n; cases h; rfl
  | cons l ls ih =>
    intro s s' h hk ho n
    simp only [List.foldlM_cons, bind, Except.bind] at h
    cases h1 : cfgLine lower s l with
    | error e => rw [h1] at h; cases h
    | ok s1 =>
      rw [h1] at h
      obtain ⟨h2, h3⟩ := step_keep (cfgLine_step h1) (hk l (by simp)) ho
      rw [ih s1 s' h (fun x hx => hk x (by simp [hx])) h2 n, h3 n]

theorem cfgRead_ok {lower : Str → Str} {c c' : Cfg} {ls : List Str} (h : cfgRead lower c ls = .ok c') :
    ∃ s, ls.foldlM (cfgLine lower) { cfg := c } = .ok s ∧ c' = s.cfg.joined := by
  simp only [cfgRead, bind, Except.bind] at h
  cases h1 : ls.foldlM (cfgLine lower) { cfg := c } with
  | error e => rw [h1] at h; cases h
  | ok s =>
    rw [h1] at h
    simp only at h
    by_cases hb : s.bad = true
    · rw [if_pos hb] at h; cases h
    · rw [if_neg hb] at h; cases h; exact ⟨s, rfl, rfl⟩

theorem default_config (lower : Str → Str) :
    getDefaultConfig lower = .ok [(cfgDefault, []), (c!"make", [(lower c!"min_cluster_num", c!"3")])] := by rfl

theorem lower_mcn {lower : Str → Str} (h : IsLower lower) : lower c!"min_cluster_num" = c!"min_cluster_num" := by
  rw [h.ascii _ (by decide)]; decide

/-- The configuration without a file. -/
def cfg0 : Cfg := [(cfgDefault, []), (c!"make", [(c!"min_cluster_num", c!"3")])]

theorem default_cfg0 {lower : Str → Str} (h : IsLower lower) : getDefaultConfig lower = .ok cfg0 := by
  rw [default_config, lower_mcn h]; rfl

theorem cfg0_look (n k : Str) : cfg0.look n k = if n = c!"make" ∧ k = c!"min_cluster_num" then some c!"3" else none := by
  unfold cfg0 Cfg.look
  simp only [Dict.get?]
  by_cases h1 : cfgDefault = n
  · rw [if_pos h1, if_neg (by rintro ⟨e, _⟩; rw [← h1] at e; revert e; decide)]; rfl
  · rw [if_neg h1]
    by_cases h2 : c!"make" = n
    · rw [if_pos h2]
      by_cases h3 : c!"min_cluster_num" = k
      · rw [if_pos ⟨h2.symm, h3.symm⟩]; simp [Dict.get?, h3]
      · rw [if_neg (fun e => h3 e.2.symm)]; simp [Dict.get?, h3]
    · rw [if_neg h2, if_neg (fun e => h2 e.1.symm)]; rfl

theorem interp_err {lower : Str → Str} {look : Str → Option Str} : ∀ (d : Nat) (v : Str) (e : CfgErr), interpolate lower look d v = .error e →
    e = .interpolationSyntax ∨ e = .interpolationMissing ∨ e = .interpolationDepth := by
  have loop : ∀ (deep : Str → Except CfgErr Str), (∀ v e, deep v = .error e → e = .interpolationSyntax ∨ e = .interpolationMissing ∨
      e = .interpolationDepth) → ∀ (fuel : Nat) (s : Str) (e : CfgErr), interpLoop lower look deep fuel s = .error e →
      e = .interpolationSyntax ∨ e = .interpolationMissing ∨ e = .interpolationDepth := by
    intro deep hd fuel
    induction fuel with
    | zero =>
      intro s e h
      cases s with
      | nil => simp only [interpLoop] at h; cases h
      | cons c s => simp only [interpLoop] at h; cases h; exact Or.inr (Or.inr rfl)
    | succ n ih =>
      intro s e h
      cases s with
      | nil => simp only [interpLoop] at h; cases h
      | cons c s =>
        simp only [interpLoop] at h
        by_cases hc : c = '%'
        · rw [if_neg (by simpa using hc)] at h
          split at h
          · rename_i r
            simp only [bind, Except.bind, pure, Except.pure] at h
            cases h1 : interpLoop lower look deep n r with
            | error e' => rw [h1] at h; cases h; exact ih _ _ h1
            | ok r1 => rw [h1] at h; cases h
          · rename_i r
            split at h
            · rename_i k hk
              split at h
              · split at h
                · cases h; exact Or.inr (Or.inl rfl)
                · rename_i v hv
                  simp only [bind, Except.bind, pure, Except.pure] at h
                  by_cases hp : hasChar '%' v = true
                  · rw [if_pos hp] at h
                    cases hw : deep v with
                    | error e' => rw [hw] at h; cases h; exact hd _ _ hw
                    | ok w =>
                      rw [hw] at h
                      simp only at h
                      cases h1 : interpLoop lower look deep n (r.drop (k + 3)) with
                      | error e' => rw [h1] at h; cases h; exact ih _ _ h1
                      | ok r1 => rw [h1] at h; cases h
                  · rw [if_neg hp] at h
                    cases h1 : interpLoop lower look deep n (r.drop (k + 3)) with
                    | error e' => rw [h1] at h; cases h; exact ih _ _ h1
                    | ok r1 => rw [h1] at h; cases h
              · cases h; exact Or.inl rfl
            · cases h; exact Or.inl rfl
          · cases h; exact Or.inl rfl
        · rw [if_pos (by simpa using hc)] at h
          simp only [bind, Except.bind, pure, Except.pure] at h
          cases h1 : interpLoop lower look deep n s with
          | error e' => rw [h1] at h; cases h; exact ih _ _ h1
          | ok r1 => rw [h1] at h; cases h
  intro d
  induction d with
  | zero => intro v e h; simp only [interpolate] at h; cases h; exact Or.inr (Or.inr rfl)
  | succ d ih => intro v e h; exact loop _ ih _ _ _ h

theorem Dict.upd_ne_nil {κ α : Type} [DecidableEq κ] (k : κ) (f : Option α → α) (d : Dict κ α) : Dict.upd k f d ≠ [] := by
  intro e
  have h1 := Dict.get?_upd k k f d
  rw [e] at h1
  simp [Dict.get?] at h1

theorem loadAll_ne_nil (md5 : Str → Str) (hist : List (Str × Option Str)) :
    loadAll md5 hist ≠ [] ↔ ∃ u md m pps, (u, md) ∈ hist ∧ parse u = .ok (m, .pieces pps) := by
  suffices H : ∀ r : List (Str × Option Str), loadAll md5 r.reverse ≠ [] ↔ ∃ u md m pps, (u, md) ∈ r.reverse ∧ parse u = .ok (m, .pieces pps) by
    have := H hist.reverse; rwa [List.reverse_reverse] at this
  intro r
  induction r with
  | nil => simp [loadAll]
  | cons x xs ih =>
    obtain ⟨u, md⟩ := x
    rw [List.reverse_cons, loadAll_concat]
    have hiff := load_ok_iff md5 (loadAll md5 xs.reverse) u md
    cases hl : (loadAll md5 xs.reverse).load md5 u md with
    | ok r =>
      obtain ⟨st', b⟩ := r
      obtain ⟨m, pps, hp⟩ := hiff.mp ⟨_, hl⟩
      constructor
      · intro _; exact ⟨u, md, m, pps, by simp, hp⟩
      · intro _
        simp only [PatternMakerSt.load, hp, bind, Except.bind, pure, Except.pure] at hl
        split at hl
        · cases hl
        · cases hl
          exact Dict.upd_ne_nil _ _ _
    | error e =>
      simp only
      rw [ih]
      constructor
      · rintro ⟨u', md', m, pps, h1, h2⟩; exact ⟨u', md', m, pps, by simp at h1; simp [h1], h2⟩
      · rintro ⟨u', md', m, pps, h1, h2⟩
        rcases List.mem_append.mp h1 with h1 | h1
        · exact ⟨u', md', m, pps, h1, h2⟩
        · have e1 : u' = u := by simp at h1; exact h1.1
          subst e1
          obtain ⟨r, hr⟩ := hiff.mpr ⟨m, pps, h2⟩
          rw [hl] at hr; cases hr

end OsUrl
