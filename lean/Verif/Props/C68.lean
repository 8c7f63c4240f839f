import Verif.Proofs.CfgAny
import Verif.Props.C29
import Verif.Props.C58

/-!
# C68: the configuration file

What `pattern-make -c FILE` does with the file, and what `min_cluster_num` is afterwards.
-/

namespace OsUrl
open Spec

/-- What the option `name` is in the section `make`: what the file says there; or `3` for `min_cluster_num`; or what the file says under
`[DEFAULT]`. -/
def Spec.CfgFile.Gives (lower : Str → Str) (f : CfgFile) (name v : Str) : Prop :=
  ((c!"make", name), v) ∈ f.entries lower ∨
  (∀ w, ((c!"make", name), w) ∉ f.entries lower) ∧
    (name = c!"min_cluster_num" ∧ v = c!"3" ∨ name ≠ c!"min_cluster_num" ∧ ((c!"DEFAULT", name), v) ∈ f.entries lower)

/-- The blanks are these 29 characters, and `strip` takes them away at both ends. -/
theorem C68_strip (s t : Str) : stripS s = t ↔ StrippedText s t :=
  ⟨fun h => h ▸ stripS_stripped s, stripped_unique⟩

/-- The same at the right end only. -/
theorem C68_rstrip (s t : Str) : rstripS s = t ↔
    ∃ b, s = t ++ b ∧ (∀ c ∈ b, c.toNat ∈ blankCodes) ∧ ∀ c, t.getLast? = some c → c.toNat ∉ blankCodes := by
  constructor
  · rintro rfl
    obtain ⟨b, h1, h2⟩ := rstripS_split s
    exact ⟨b, h1, fun c hc => (isSpaceC_iff c).mp (h2 c hc), fun c hc => (isSpaceC_iff_false c).mp (rstripS_last hc)⟩
  · rintro ⟨b, rfl, h1, h2⟩
    rw [rstripS_append_spaces (fun c hc => (isSpaceC_iff c).mpr (h1 c hc))]
    cases hl : t.getLast? with
    | none => rw [List.getLast?_eq_none_iff] at hl; rw [hl]; rfl
    | some c =>
      obtain ⟨ys, rfl⟩ := List.getLast?_eq_some_iff.mp hl
      exact rstripS_snoc ((isSpaceC_iff_false c).mpr (h2 c hl))

/-- Blank lines, comments and indented lines, said with the list of blanks. -/
theorem C68_lines (l : Str) : (BlankLine l ↔ ∀ c ∈ l, c.toNat ∈ blankCodes) ∧
    (CommentLine l ↔ ∃ ws t, l = ws ++ t ∧ (∀ c ∈ ws, c.toNat ∈ blankCodes) ∧ (t.head? = some '#' ∨ t.head? = some ';')) ∧
    (IndentedLine l ↔ (∃ c, l.head? = some c ∧ c.toNat ∈ blankCodes) ∧ ¬ BlankLine l ∧ ¬ CommentLine l) := by
  unfold IndentedLine BlankLine CommentLine
  simp only [isSpaceC_iff, and_self]

/-- `int` of a text: exactly the whole numbers written as in `IntText`. -/
theorem C68_int (v : Str) : (∀ k, pyIntText v = .ok k ↔ IntText v k) ∧ ((∀ k, ¬ IntText v k) → pyIntText v = .error .notInt) := by
  refine ⟨intText_iff v, fun h => ?_⟩
  cases hv : pyIntText v with
  | ok k => exact absurd ((intText_iff v k).mp hv) (h k)
  | error e =>
    unfold pyIntText at hv
    split at hv
    · cases hv
    · cases hv; rfl

/-- `%`: at most ten values deep. -/
theorem C68_interpolation (lower : Str → Str) (look : Str → Option Str) (v w : Str) :
    interpolate lower look 10 v = .ok w ↔ Expand lower look 9 v w := interpolate_iff lower look 9 v w

theorem command_file {lower : Str → Str} (hl : IsLower lower) {f : CfgFile} (hf : f.OK) (hn : ∀ l ∈ f.lines, '\n' ∉ l ∧ '\r' ∉ l) :
    (¬ f.Distinct lower ∧ ∃ e, DupErr e ∧ commandConfig lower (some (fileText f.lines)) = .error e) ∨
    (f.Distinct lower ∧ ∃ c, commandConfig lower (some (fileText f.lines)) = .ok c ∧
      (∀ n k, c.look n k = (Dict.get? (n, k) (f.entries lower)).orElse (fun _ => cfg0.look n k)) ∧
      (∀ n, (Dict.get? n c).isSome = true ↔ (Dict.get? n cfg0).isSome = true ∨ n ∈ f.secs.map CfgSec.name)) := by
  have hc : commandConfig lower (some (fileText f.lines)) = cfgRead lower cfg0 f.lines := by
    simp only [commandConfig, default_cfg0 hl, bind, Except.bind, textLines_file hn]
  rw [hc]
  refine read_file lower hl.ne (by decide) ?_ hf
  intro n k v hv
  rw [cfg0_look] at hv
  split at hv
  · cases hv; decide
  · cases hv

/-- A file that is written as it should be is read if nothing in it is set twice, and then every option has the value written there; everything
else is as without the file. -/
theorem C68_file {lower : Str → Str} (hl : IsLower lower) {f : CfgFile} (hf : f.OK) (hn : ∀ l ∈ f.lines, '\n' ∉ l ∧ '\r' ∉ l) :
    (f.Distinct lower → ∃ c, commandConfig lower (some (fileText f.lines)) = .ok c ∧
      (∀ n k v, ((n, k), v) ∈ f.entries lower → c.look n k = some v) ∧
      (∀ n k, (∀ v, ((n, k), v) ∉ f.entries lower) → c.look n k = if n = c!"make" ∧ k = c!"min_cluster_num" then some c!"3" else none)) ∧
    (¬ f.Distinct lower → commandConfig lower (some (fileText f.lines)) = .error .duplicateSection ∨
      commandConfig lower (some (fileText f.lines)) = .error .duplicateOption) := by
  rcases command_file hl hf hn with ⟨h1, e, h2, h3⟩ | ⟨h1, c, h2, h3, h4⟩
  · refine ⟨fun h => absurd h h1, fun _ => ?_⟩
    rcases h2 with rfl | rfl
    · exact Or.inl h3
    · exact Or.inr h3
  · refine ⟨fun _ => ⟨c, h2, ?_, ?_⟩, fun h => absurd h1 h⟩
    · intro n k v hv
      rw [h3, (get?_mem_nodup h1.opts).mpr hv]; rfl
    · intro n k hv
      have : Dict.get? (n, k) (f.entries lower) = none := by
        cases hg : Dict.get? (n, k) (f.entries lower) with
        | none => rfl
        | some v => exact absurd ((get?_mem_nodup h1.opts).mp hg) (hv v)
      rw [h3, this, Option.orElse_none, cfg0_look]

theorem minClusterNum_iff {lower : Str → Str} {c : Cfg} {d : Dict Str Str} (h : Dict.get? c!"make" c = some d) (k : Int) :
    minClusterNum lower c = .ok k ↔ ∃ v w, (c.look c!"make" c!"min_cluster_num").orElse (fun _ => c.look cfgDefault c!"min_cluster_num") = some v ∧
      Expand lower (fun k => (c.look c!"make" k).orElse (fun _ => c.look cfgDefault k)) 9 v w ∧ IntText w k := by
  have e : (fun k => (Dict.get? k d).orElse (fun _ => c.look cfgDefault k)) = fun k => (c.look c!"make" k).orElse (fun _ => c.look cfgDefault k) := by
    funext k; simp [Cfg.look, h]
  simp only [minClusterNum, cfgGet, h, e, bind, Except.bind]
  have e2 : (Dict.get? c!"min_cluster_num" d).orElse (fun _ => c.look cfgDefault c!"min_cluster_num") =
      (c.look c!"make" c!"min_cluster_num").orElse (fun _ => c.look cfgDefault c!"min_cluster_num") := congrFun e _
  rw [e2]
  cases hv : (c.look c!"make" c!"min_cluster_num").orElse (fun _ => c.look cfgDefault c!"min_cluster_num") with
  | none => simp
  | some v =>
    simp only
    cases hw : interpolate lower (fun k => (c.look c!"make" k).orElse (fun _ => c.look cfgDefault k)) 10 v with
    | error e =>
      simp only
      constructor
      · intro h; cases h
      · rintro ⟨v', w, h1, h2, h3⟩
        cases h1
        rw [← C68_interpolation, hw] at h2; cases h2
    | ok w =>
      simp only
      rw [intText_iff]
      constructor
      · intro h; exact ⟨v, w, rfl, (C68_interpolation ..).mp hw, h⟩
      · rintro ⟨v', w', h1, h2, h3⟩
        cases h1
        rw [← C68_interpolation, hw] at h2; cases h2; exact h3

theorem expand_one {lower : Str → Str} {look : Str → Option Str} {d : Nat} {v w w' : Str} (h : Expand lower look d v w) (h' : Expand lower look d v w') :
    w = w' := by
  rw [← interpolate_iff] at h h'
  rw [h] at h'; cases h'; rfl

theorem gives_iff {lower : Str → Str} {f : CfgFile} (hd : f.Distinct lower) {c : Cfg}
    (h3 : ∀ n k, c.look n k = (Dict.get? (n, k) (f.entries lower)).orElse (fun _ => cfg0.look n k)) (n v : Str) :
    (c.look c!"make" n).orElse (fun _ => c.look cfgDefault n) = some v ↔ f.Gives lower n v := by
  rw [h3, h3, cfg0_look, cfg0_look]
  unfold CfgFile.Gives
  cases hg : Dict.get? (c!"make", n) (f.entries lower) with
  | some x =>
    have hx := (get?_mem_nodup hd.opts).mp hg
    simp only [Option.orElse_some, Option.some.injEq]
    constructor
    · rintro rfl; exact Or.inl hx
    · rintro (h | ⟨h, _⟩)
      · have := (get?_mem_nodup hd.opts).mpr h
        rw [hg] at this; cases this; rfl
      · exact absurd hx (h x)
  | none =>
    have hx : ∀ w, ((c!"make", n), w) ∉ f.entries lower := by
      intro w hw
      have := (get?_mem_nodup hd.opts).mpr hw
      rw [hg] at this; cases this
    simp only [Option.orElse_none, true_and]
    by_cases hm : n = c!"min_cluster_num"
    · rw [if_pos hm]
      simp only [Option.orElse_some, Option.some.injEq]
      constructor
      · rintro rfl; exact Or.inr ⟨hx, Or.inl ⟨hm, rfl⟩⟩
      · rintro (h | ⟨_, ⟨_, h⟩ | ⟨h, _⟩⟩)
        · exact absurd h (hx v)
        · exact h.symm
        · exact absurd hm h
    · rw [if_neg hm, Option.orElse_none, if_neg (by rintro ⟨e, _⟩; revert e; decide)]
      cases hg2 : Dict.get? (cfgDefault, n) (f.entries lower) with
      | some x =>
        simp only [Option.orElse_some, Option.some.injEq]
        constructor
        · rintro rfl; exact Or.inr ⟨hx, Or.inr ⟨hm, (get?_mem_nodup hd.opts).mp hg2⟩⟩
        · rintro (h | ⟨_, ⟨h, _⟩ | ⟨_, h⟩⟩)
          · exact absurd h (hx v)
          · exact absurd h hm
          · have := (get?_mem_nodup hd.opts).mpr h
            change Dict.get? (cfgDefault, n) _ = _ at this
            rw [hg2] at this; cases this; rfl
      | none =>
        simp only [Option.orElse_none]
        constructor
        · intro h; cases h
        · rintro (h | ⟨_, ⟨h, _⟩ | ⟨_, h⟩⟩)
          · exact absurd h (hx v)
          · exact absurd h hm
          · have := (get?_mem_nodup hd.opts).mpr h
            change Dict.get? (cfgDefault, n) _ = _ at this
            rw [hg2] at this; cases this


/-- `min_cluster_num` for such a file: the value it has there, with the `%(name)s` in it replaced, as a whole number. -/
theorem C68_value {lower : Str → Str} (hl : IsLower lower) {f : CfgFile} (hf : f.OK) (hn : ∀ l ∈ f.lines, '\n' ∉ l ∧ '\r' ∉ l)
    (hd : f.Distinct lower) : ∃ c look, commandConfig lower (some (fileText f.lines)) = .ok c ∧
      (∀ n v, look n = some v ↔ f.Gives lower n v) ∧
      (∀ k, minClusterNum lower c = .ok k ↔ ∃ v w, f.Gives lower c!"min_cluster_num" v ∧ Expand lower look 9 v w ∧ IntText w k) := by
  rcases command_file hl hf hn with ⟨h1, _⟩ | ⟨_, c, h2, h3, h4⟩
  · exact absurd hd h1
  · have hmake : (Dict.get? c!"make" c).isSome = true := (h4 _).mpr (Or.inl (by decide))
    obtain ⟨d, hd2⟩ := Option.isSome_iff_exists.mp hmake
    refine ⟨c, fun k => (c.look c!"make" k).orElse (fun _ => c.look cfgDefault k), h2, gives_iff hd h3, ?_⟩
    intro k
    rw [minClusterNum_iff hd2]
    constructor
    · rintro ⟨v, w, h5, h6, h7⟩; exact ⟨v, w, (gives_iff hd h3 _ v).mp h5, h6, h7⟩
    · rintro ⟨v, w, h5, h6, h7⟩; exact ⟨v, w, (gives_iff hd h3 _ v).mpr h5, h6, h7⟩

theorem gives_one {lower : Str → Str} {f : CfgFile} (hd : f.Distinct lower) {n v w : Str} (h : f.Gives lower n v) (h' : f.Gives lower n w) : v = w := by
  have key : ∀ {a : Str × Str} {x y : Str}, (a, x) ∈ f.entries lower → (a, y) ∈ f.entries lower → x = y := by
    intro a x y hx hy
    have h1 := (get?_mem_nodup hd.opts).mpr hx
    have h2 := (get?_mem_nodup hd.opts).mpr hy
    rw [h1] at h2; cases h2; rfl
  rcases h with h | ⟨h, h1 | h1⟩ <;> rcases h' with h' | ⟨h', h1' | h1'⟩
  · exact key h h'
  · exact absurd h (h' v)
  · exact absurd h (h' v)
  · exact absurd h' (h w)
  · rw [h1.2, h1'.2]
  · exact absurd h1.1 h1'.1
  · exact absurd h' (h w)
  · exact absurd h1'.1 h1.1
  · exact key h1.2 h1'.2

/-- The usual cases: `min_cluster_num` stands in the section `make` without `%`; or it does not stand there, whatever `[DEFAULT]` says. -/
theorem C68_plain {lower : Str → Str} (hl : IsLower lower) {f : CfgFile} (hf : f.OK) (hn : ∀ l ∈ f.lines, '\n' ∉ l ∧ '\r' ∉ l)
    (hd : f.Distinct lower) : ∃ c, commandConfig lower (some (fileText f.lines)) = .ok c ∧
      (∀ v, ((c!"make", c!"min_cluster_num"), v) ∈ f.entries lower → '%' ∉ v → ∀ k, minClusterNum lower c = .ok k ↔ IntText v k) ∧
      ((∀ v, ((c!"make", c!"min_cluster_num"), v) ∉ f.entries lower) → minClusterNum lower c = .ok 3) := by
  obtain ⟨c, look, h1, h2, h3⟩ := C68_value hl hf hn hd
  refine ⟨c, h1, ?_, ?_⟩
  · intro v hv hp k
    rw [h3]
    constructor
    · rintro ⟨v', w, h4, h5, h6⟩
      have := gives_one hd h4 (Or.inl hv)
      subst this
      rw [expand_one h5 (expand_plain hp)] at h6
      exact h6
    · intro h; exact ⟨v, v, Or.inl hv, expand_plain hp, h⟩
  · intro hv
    rw [h3]
    exact ⟨c!"3", c!"3", Or.inr ⟨hv, Or.inl ⟨rfl, rfl⟩⟩, expand_plain (by decide), (intText_iff _ _).mp (by decide)⟩

theorem config_any {lower : Str → Str} (hl : IsLower lower) {t : Str} {c : Cfg} (h : commandConfig lower (some t) = .ok c) :
    ∃ s, (textLines t).foldlM (cfgLine lower) { cfg := cfg0 } = .ok s ∧ c = s.cfg.joined := by
  simp only [commandConfig, default_cfg0 hl, bind, Except.bind] at h
  exact cfgRead_ok h

/-- Any file whatsoever, if it is read at all: `min_cluster_num` is there, so that only `%` and `int` can fail; it is 3 unless some line of the
file has it before the first `=` or `:`. -/
theorem C68_any {lower : Str → Str} (hl : IsLower lower) (t : Str) (c : Cfg) (h : commandConfig lower (some t) = .ok c) :
    (∃ v, c.look c!"make" c!"min_cluster_num" = some v) ∧
    (∀ e, minClusterNum lower c = .error e → e = .interpolationSyntax ∨ e = .interpolationMissing ∨ e = .interpolationDepth ∨ e = .notInt) ∧
    ((∀ l ∈ textLines t, Leaves lower c!"min_cluster_num" l) → minClusterNum lower c = .ok 3) := by
  obtain ⟨s, h1, rfl⟩ := config_any hl h
  have h2 := fold_some _ _ _ h1 c!"make" c!"min_cluster_num" (by rw [cfg0_look, if_pos ⟨rfl, rfl⟩]; rfl)
  obtain ⟨v, hv⟩ := Option.isSome_iff_exists.mp h2
  have hj : s.cfg.joined.look c!"make" c!"min_cluster_num" = some (rstripS v) := by rw [Cfg.look_joined, hv]; rfl
  obtain ⟨d, hd⟩ : ∃ d, Dict.get? c!"make" s.cfg.joined = some d := by
    cases hg : Dict.get? c!"make" s.cfg.joined with
    | none => simp [Cfg.look, hg] at hj
    | some d => exact ⟨d, rfl⟩
  refine ⟨⟨_, hj⟩, ?_, ?_⟩
  · intro e he
    have hj' : Dict.get? c!"min_cluster_num" d = some (rstripS v) := by simpa [Cfg.look, hd] using hj
    simp only [minClusterNum, cfgGet, hd, hj', Option.orElse_some, bind, Except.bind] at he
    split at he
    · rename_i e' h3
      cases he
      rcases interp_err _ _ _ h3 with h | h | h
      · exact Or.inl h
      · exact Or.inr (Or.inl h)
      · exact Or.inr (Or.inr (Or.inl h))
    · rename_i w h3
      unfold pyIntText at he
      split at he
      · cases he
      · cases he; exact Or.inr (Or.inr (Or.inr rfl))
  · intro hk
    have h3 := fold_keep _ _ _ h1 hk (by simp) c!"make"
    rw [cfg0_look, if_pos ⟨rfl, rfl⟩, hv] at h3
    cases h3
    rw [minClusterNum_iff hd]
    refine ⟨c!"3", c!"3", ?_, expand_plain (by decide), (intText_iff _ _).mp (by decide)⟩
    rw [hj]; rfl

/-- Without `-c` it is 3. -/
theorem C68_default {lower : Str → Str} (hl : IsLower lower) : ∃ c, commandConfig lower none = .ok c ∧ minClusterNum lower c = .ok 3 := by
  refine ⟨cfg0, by simp only [commandConfig, default_cfg0 hl, bind, Except.bind]; rfl, ?_⟩
  rw [minClusterNum_iff (d := [(c!"min_cluster_num", c!"3")]) (by decide)]
  exact ⟨c!"3", c!"3", by decide, expand_plain (by decide), (intText_iff _ _).mp (by decide)⟩

/-- The command: a file that cannot be read ends it before any URL; a value that is no number ends it after the last URL, if there was one that
is accepted; else the command is the one of C58 and C50 with this number. -/
theorem C68_command (lower : Str → Str) (env : Env) (text : Option Str) (f : Fmt) (files : List Bytes) :
    (∀ e, commandConfig lower text = .error e → makeCommand lower env text f files = .error (.cfg e)) ∧
    (∀ c, commandConfig lower text = .ok c →
      (∀ k, minClusterNum lower c = .ok k → makeCommand lower env text f files =
        match makeMain env k f files with | .ok out => .ok out | .error e => .error (.py e)) ∧
      (∀ e, minClusterNum lower c = .error e →
        ((∃ u ∈ inputUrls env (chainLines files), (urlInfo u).isSome = true) → makeCommand lower env text f files = .error (.cfg e)) ∧
        ((∀ u ∈ inputUrls env (chainLines files), urlInfo u = none) → makeCommand lower env text f files = .ok []))) := by
  have hne : (makeLoad env (loadsUrl f) (chainLines files)).1 ≠ [] ↔ ∃ u ∈ inputUrls env (chainLines files), (urlInfo u).isSome = true := by
    rw [makeLoad_fst, loadAll_ne_nil, ← urlsOf_fst env (loadsUrl f)]
    constructor
    · rintro ⟨u, md, m, pps, h1, h2⟩
      obtain ⟨row, h3, _⟩ := parse_info.mp h2
      exact ⟨u, List.mem_map.mpr ⟨(u, md), h1, rfl⟩, by rw [h3]; rfl⟩
    · rintro ⟨u, h1, h2⟩
      obtain ⟨⟨u', md⟩, h3, rfl⟩ := List.mem_map.mp h1
      obtain ⟨⟨m, row⟩, h4⟩ := Option.isSome_iff_exists.mp h2
      exact ⟨u', md, m, row.map pieceOf, h3, parse_info.mpr ⟨row, h4, rfl⟩⟩
  refine ⟨?_, ?_⟩
  · intro e he; simp only [makeCommand, he]
  · intro c hc
    refine ⟨?_, ?_⟩
    · intro k hk
      simp only [makeCommand, hc, hk]
      cases hst : (makeLoad env (loadsUrl f) (chainLines files)).1 with
      | nil =>
        simp only [makeMain, makeRun, makeProcess, hst, PatternMakerSt.make]
        rfl
      | cons x xs =>
        simp only [makeMain, makeRun, hst, List.isEmpty_cons, Bool.false_eq_true, if_false, bind, Except.bind, pure, Except.pure]
        cases makeProcess env k f (x :: xs) <;> rfl
    · intro e he
      refine ⟨?_, ?_⟩
      · intro hu
        have := hne.mpr hu
        simp only [makeCommand, hc, he]
        rw [if_neg (by simpa using this)]
      · intro hu
        have : (makeLoad env (loadsUrl f) (chainLines files)).1 = [] := by
          by_cases h : (makeLoad env (loadsUrl f) (chainLines files)).1 = []
          · exact h
          · obtain ⟨u, h1, h2⟩ := hne.mp h
            rw [hu u h1] at h2; cases h2
        simp only [makeCommand, hc, this]
        rfl

/-! Examples; `asciiLower` is `str.lower` on ASCII. -/

def asciiLower (s : Str) : Str := s.map Char.toLower

theorem asciiLower_isLower : IsLower asciiLower := ⟨fun s h => by simpa [asciiLower] using h, fun _ _ => rfl⟩

/-- `min_cluster_num` with a configuration file. -/
def numberWith (text : Str) : Except CfgErr Int := (commandConfig asciiLower (some text)).bind (minClusterNum asciiLower)

/-- A file as it should be written: comments, a default, an option over several lines with another spelling. -/
def c68File : CfgFile where
  junk := [c!"; urls", c!""]
  secs := [
    ⟨c!"DEFAULT", c!"", [], [⟨c!"n", '=', c!" 5", []⟩, ⟨c!"min_cluster_num ", '=', c!" 9", []⟩]⟩,
    ⟨c!"make", c!" # x", [c!"# y"], [⟨c!"Min_Cluster_Num ", ':', c!" 1", [c!"  ;z", c!""]⟩, ⟨c!"k", '=', c!"%(n)s", [c!" b ", c!"", c!"  c"]⟩]⟩]

theorem c68File_ok : c68File.OK := by
  have comment : ∀ {l : Str}, ((stripS l).head? = some '#' ∨ (stripS l).head? = some ';') → CommentLine l := fun h => commentLine_iff.mpr h
  have blank : BlankLine [] := fun c hc => by cases hc
  have indented : ∀ {l : Str}, (∃ c, l.head? = some c ∧ isSpaceC c = true) → stripS l ≠ [] →
      ¬ ((stripS l).head? = some '#' ∨ (stripS l).head? = some ';') → IndentedLine l :=
    fun h1 h2 h3 => ⟨h1, fun h => h2 (stripS_eq_nil.mpr h), fun h => h3 (commentLine_iff.mp h)⟩
  refine ⟨?_, ?_⟩
  · intro l hl
    simp only [c68File, List.mem_cons, List.not_mem_nil, or_false] at hl
    rcases hl with rfl | rfl
    · exact Or.inr (comment (by decide))
    · exact Or.inl blank
  · intro s hs
    simp only [c68File, List.mem_cons, List.not_mem_nil, or_false] at hs
    rcases hs with rfl | rfl
    · refine ⟨by decide, by decide, by simp, ?_⟩
      intro o ho
      simp only [List.mem_cons, List.not_mem_nil, or_false] at ho
      rcases ho with rfl | rfl
      · exact ⟨by decide, by decide, ⟨'n', by decide⟩, by simp⟩
      · exact ⟨by decide, by decide, ⟨'m', by decide⟩, by simp⟩
    · refine ⟨by decide, by decide, ?_, ?_⟩
      · intro l hl
        simp only [List.mem_cons, List.not_mem_nil, or_false] at hl
        subst hl
        exact Or.inr (comment (by decide))
      · intro o ho
        simp only [List.mem_cons, List.not_mem_nil, or_false] at ho
        rcases ho with rfl | rfl
        · refine ⟨by decide, by decide, ⟨'M', by decide⟩, ?_⟩
          intro l hl
          simp only [List.mem_cons, List.not_mem_nil, or_false] at hl
          rcases hl with rfl | rfl
          · exact Or.inr (Or.inl (comment (by decide)))
          · exact Or.inl blank
        · refine ⟨by decide, by decide, ⟨'k', by decide⟩, ?_⟩
          intro l hl
          simp only [List.mem_cons, List.not_mem_nil, or_false] at hl
          rcases hl with rfl | rfl | rfl
          · exact Or.inr (Or.inr (indented ⟨' ', by decide⟩ (by decide) (by decide)))
          · exact Or.inl blank
          · exact Or.inr (Or.inr (indented ⟨' ', by decide⟩ (by decide) (by decide)))

theorem c68File_distinct : c68File.Distinct asciiLower := by
  refine ⟨by decide, ?_⟩
  rw [← raw_keys]
  show ([(c!"DEFAULT", c!"n"), (c!"DEFAULT", c!"min_cluster_num"), (c!"make", c!"min_cluster_num"), (c!"make", c!"k")] : List (Str × Str)).Nodup
  decide

example : fileText c68File.lines =
    c!"; urls\n\n[DEFAULT]\nn= 5\nmin_cluster_num = 9\n[make] # x\n# y\nMin_Cluster_Num : 1\n  ;z\n\nk=%(n)s\n b \n\n  c\n" := by decide +kernel

example : commandConfig asciiLower (some (fileText c68File.lines)) = .ok
    [(c!"DEFAULT", [(c!"n", c!"5"), (c!"min_cluster_num", c!"9")]), (c!"make", [(c!"min_cluster_num", c!"1"), (c!"k", c!"%(n)s\nb\n\nc")])] := by
  decide +kernel

example : numberWith (fileText c68File.lines) = .ok 1 := by decide +kernel

/-! `DEFAULT` does not change the number, another section neither; an unknown section is no error. -/
example : numberWith c!"[DEFAULT]\nmin_cluster_num = 9\n[mke]\nmin_cluster_num = x\n" = .ok 3 := by decide +kernel

/-! A comment behind the number, or an indented line after it, makes it no number. -/
example : numberWith c!"[make]\nmin_cluster_num = 5 # five\n" = .error .notInt := by decide +kernel
example : numberWith c!"[make]\nmin_cluster_num = 5\n  max = 7\n" = .error .notInt := by decide +kernel
example : numberWith c!"[make]\nmin_cluster_num =\n" = .error .notInt := by decide +kernel
example : numberWith c!"[make]\nmin_cluster_num = %(n)s0%(m)s\nn = +1_0\n[DEFAULT]\nm = %(n)s\n" = .error .notInt := by decide +kernel
example : numberWith c!"[make]\nmin_cluster_num = %(N)s0\n[DEFAULT]\nm = 4\nn= +1_%(m)s" = .ok 140 := by decide +kernel

/-! Arabic-Indic digits, an underscore, a sign, blanks of other kinds. -/
example : numberWith c!"[make]\rmin_cluster_num=\u00a0-١_0\u2003\r\n" = .ok (-10) := by decide +kernel
example : numberWith c!"[make]\nmin_cluster_num=1__0" = .error .notInt := by decide +kernel

/-! What is not read at all. -/
example : numberWith c!"min_cluster_num = 5\n" = .error .missingSectionHeader := by decide +kernel
example : numberWith c!"[make]\n[make]\n" = .error .duplicateSection := by decide +kernel
example : numberWith c!"[make]\na=1\nA:2\n" = .error .duplicateOption := by decide +kernel
example : numberWith c!"[make]\nmin_cluster_num\n" = .error .parsing := by decide +kernel
example : numberWith c!"[make]\nmin_cluster_num = %(min_cluster_num)s\n" = .error .interpolationDepth := by decide +kernel
example : numberWith c!"[make]\nmin_cluster_num = 5%\n" = .error .interpolationSyntax := by decide +kernel
example : numberWith c!"[make]\nmin_cluster_num = %(m)s\n" = .error .interpolationMissing := by decide +kernel

/-! The command: with 2 the two numbers are a pattern; a bad number is an error although all URLs were read, but not if there is none. -/
example : makeCommand asciiLower c47Env (some c!"[make]\nmin_cluster_num: 2") .pattern c58Files =
    .ok (asciiBytesM c!"/p/[0-9]+\n/q[\\?]k=ab\n") := by decide +kernel
example : makeCommand asciiLower c47Env (some c!"[make]\nmin_cluster_num: two") .pattern c58Files = .error (.cfg .notInt) := by decide +kernel
example : makeCommand asciiLower c47Env (some c!"[make]\nmin_cluster_num: two") .pattern [asciiBytesM c!"x\n\n"] = .ok [] := by decide +kernel
example : makeCommand asciiLower c47Env (some c!"[make]\nmin_cluster_num: 1") .pattern c58Files = .error (.py .attributeError) := by decide +kernel
example : makeCommand asciiLower c47Env (some c!"[make") .pattern [] = .error (.cfg .missingSectionHeader) := by decide +kernel

/-- The lines of a text: `\n`, `\r\n` and `\r` end a line; the last line need not be ended. -/
theorem C68_textLines : textLines [] = [] ∧
    (∀ l : Str, l ≠ [] → '\n' ∉ l → '\r' ∉ l → textLines l = [l]) ∧
    ∀ l t e : Str, '\n' ∉ l → '\r' ∉ l → e ∈ [c!"\n", c!"\r\n", c!"\r"] → (e = c!"\r" → t.head? ≠ some '\n') →
      textLines (l ++ e ++ t) = l :: textLines t := by
  refine ⟨rfl, ?_, ?_⟩
  · intro l
    induction l with
    | nil => intro h; exact absurd rfl h
    | cons x xs ih =>
      intro _ h1 h2
      simp only [List.mem_cons, not_or] at h1 h2
      simp only [textLines]
      rw [if_neg (by rintro (e | ⟨e, _⟩); exact h1.1 e.symm; exact h2.1 e.symm), if_neg (fun e => h2.1 e.symm)]
      cases xs with
      | nil => rfl
      | cons y ys => rw [ih (by simp) h1.2 h2.2]
  · intro l t e h1 h2 he ht
    induction l with
    | nil =>
      simp only [List.mem_cons, List.not_mem_nil, or_false] at he
      rcases he with rfl | rfl | rfl
      · simp [textLines]
      · simp [textLines]
      · have := ht rfl
        show textLines ('\r' :: t) = _
        rw [textLines, if_pos (.inr ⟨rfl, this⟩)]
    | cons x xs ih =>
      simp only [List.mem_cons, not_or] at h1 h2
      have hi := ih h1.2 h2.2
      rw [List.cons_append, List.cons_append, textLines]
      rw [if_neg (by rintro (e | ⟨e, _⟩); exact h1.1 e.symm; exact h2.1 e.symm), if_neg (fun e => h2.1 e.symm), hi]

theorem cfgSection_bad {s s' : CfgRd} {name : Str} (h : cfgSection s name = .ok s') : s'.bad = s.bad := by
  unfold cfgSection at h
  split at h
  · injection h with h; rw [← h]
  · split at h
    · split at h
      · cases h
      · injection h with h; rw [← h]
    · injection h with h; rw [← h]

theorem cfgLine_bad {lower : Str → Str} {s s' : CfgRd} {l : Str} (hb : s.bad = true) (h : cfgLine lower s l = .ok s') : s'.bad = true := by
  unfold cfgLine at h
  simp only at h
  split at h
  · injection h with h; rw [← h]; exact hb
  · split at h
    · split at h <;> (injection h with h; rw [← h]; exact hb)
    · split at h
      · injection h with h; rw [← h]; exact hb
      · split at h
        · rw [cfgSection_bad h]; exact hb
        · split at h
          · cases h
          · split at h
            · injection h with h; rw [← h]
            · split at h
              · cases h
              · injection h with h; rw [← h]; simp [hb]

theorem foldlM_bad {lower : Str → Str} (ls : List Str) {s s' : CfgRd} (hb : s.bad = true) (h : ls.foldlM (cfgLine lower) s = .ok s') :
    s'.bad = true := by
  induction ls generalizing s with
  | nil =>
    simp only [List.foldlM_nil, pure, Except.pure] at h
    injection h with h; rw [← h]; exact hb
  | cons l ls ih =>
    simp only [List.foldlM_cons, bind, Except.bind] at h
    cases hl : cfgLine lower s l with
    | error e => rw [hl] at h; cases h
    | ok s1 => rw [hl] at h; exact ih (cfgLine_bad hb hl) h

/-- A line at the margin that is no comment, no header of a section with a name, and no option with a name. -/
def Spec.BrokenLine (l : Str) : Prop :=
  ∃ c t, l = c :: t ∧ c.toNat ∉ blankCodes ∧ c ≠ '#' ∧ c ≠ ';' ∧
    (c = '=' ∨ c = ':' ∨ ('=' ∉ t ∧ ':' ∉ t ∧ ¬ ∃ name rest, name ≠ [] ∧ l = '[' :: name ++ ']' :: rest))

theorem rfindChar_some {c : Char} {s : Str} {k : Nat} (h : rfindChar c s = some k) : ∃ a b, s = a ++ c :: b ∧ a.length = k := by
  induction s generalizing k with
  | nil => cases h
  | cons x xs ih =>
    simp only [rfindChar] at h
    cases hr : rfindChar c xs with
    | some j =>
      rw [hr] at h
      obtain ⟨a, b, e1, e2⟩ := ih hr
      simp only [Option.some.injEq] at h
      exact ⟨x :: a, b, by rw [e1]; rfl, by rw [List.length_cons, e2]; exact h⟩
    | none =>
      rw [hr] at h
      simp only at h
      split at h
      · rename_i hx
        injection h with h
        exact ⟨[], xs, by simp_all, h⟩
      · cases h

theorem cfgHeader_some {s name : Str} (h : cfgHeader s = some name) : ∃ rest, name ≠ [] ∧ s = '[' :: name ++ ']' :: rest := by
  unfold cfgHeader at h
  split at h
  · rename_i rest
    cases hf : rfindChar ']' rest with
    | none => rw [hf] at h; cases h
    | some k =>
      rw [hf] at h
      cases k with
      | zero => cases h
      | succ k =>
        injection h with h
        obtain ⟨pre, post, e1, e2⟩ := rfindChar_some hf
        refine ⟨post, ?_, ?_⟩
        · rw [← h, e1]
          cases pre with
          | nil => simp at e2
          | cons x xs => simp
        · rw [← h]
          have : rest.take (k + 1) = pre := by rw [e1, ← e2]; simp
          rw [this, e1]; rfl
  · cases h

/-- A file with a line that means nothing is not read. -/
theorem C68_broken (lower : Str → Str) (t l : Str) (hl : l ∈ textLines t) (hb : BrokenLine l) :
    ∀ c, commandConfig lower (some t) ≠ .ok c := by
  intro c h
  unfold commandConfig at h
  simp only [bind, Except.bind] at h
  cases hd : getDefaultConfig lower with
  | error e => rw [hd] at h; cases h
  | ok c0 =>
    rw [hd] at h
    simp only at h
    unfold cfgRead at h
    simp only [bind, Except.bind] at h
    cases hf : (textLines t).foldlM (cfgLine lower) { cfg := c0 } with
    | error e => rw [hf] at h; cases h
    | ok s =>
      rw [hf] at h
      simp only at h
      have : s.bad = true := by
        generalize ({ cfg := c0 } : CfgRd) = s0 at hf
        clear h hd
        generalize textLines t = ls at hl hf
        induction ls generalizing s0 with
        | nil => cases hl
        | cons x xs ih =>
          simp only [List.foldlM_cons, bind, Except.bind] at hf
          cases hx : cfgLine lower s0 x with
          | error e => rw [hx] at hf; cases hf
          | ok s1 =>
            rw [hx] at hf
            simp only at hf
            rcases List.mem_cons.mp hl with rfl | hm
            · refine foldlM_bad xs ?_ hf
              obtain ⟨ch, t', rfl, h1, h2, h3, h4⟩ := hb
              rw [cfgLine_margin lower s0 ((isSpaceC_iff_false ch).mpr h1) h2 h3] at hx
              have hh : cfgHeader (ch :: rstripS t') = none := by
                cases he : cfgHeader (ch :: rstripS t') with
                | none => rfl
                | some name =>
                  exfalso
                  obtain ⟨rest, n1, n2⟩ := cfgHeader_some he
                  rw [List.cons_append] at n2
                  injection n2 with n3 n4
                  obtain ⟨b, r1, r2⟩ := rstripS_split t'
                  rcases h4 with h4 | h4 | h4
                  · rw [n3] at h4; cases h4
                  · rw [n3] at h4; cases h4
                  · refine h4.2.2 ⟨name, rest ++ b, n1, ?_⟩
                    rw [r1, n3, n4]; simp
              rw [hh] at hx
              simp only at hx
              cases hc : s0.cur with
              | none => rw [hc] at hx; cases hx
              | some sec =>
                rw [hc] at hx
                simp only at hx
                have he : ch = '=' ∨ ch = ':' → cfgOption (ch :: rstripS t') = some ([], rstripS t') := fun e => by
                  unfold cfgOption; rw [if_pos e]
                have ho : cfgOption (ch :: rstripS t') = none ∨ cfgOption (ch :: rstripS t') = some ([], rstripS t') := by
                  rcases h4 with h4 | h4 | h4
                  · exact .inr (he (.inl h4))
                  · exact .inr (he (.inr h4))
                  · by_cases e : ch = '=' ∨ ch = ':'
                    · exact .inr (he e)
                    · left
                      obtain ⟨b, r1, r2⟩ := rstripS_split t'
                      have hn : ∀ u : Str, '=' ∉ u → ':' ∉ u → cfgOption u = none := by
                        intro u
                        induction u with
                        | nil => intro _ _; rfl
                        | cons y ys ihy =>
                          intro u1 u2
                          simp only [List.mem_cons, not_or] at u1 u2
                          unfold cfgOption
                          rw [if_neg (by rintro (e | e); exact u1.1 e.symm; exact u2.1 e.symm), ihy u1.2 u2.2]; rfl
                      apply hn
                      · simp only [List.mem_cons, not_or] at e ⊢
                        exact ⟨fun h => e.1 h.symm, fun h => h4.1 (by rw [r1]; exact List.mem_append_left _ h)⟩
                      · simp only [List.mem_cons, not_or] at e ⊢
                        exact ⟨fun h => e.2 h.symm, fun h => h4.2.1 (by rw [r1]; exact List.mem_append_left _ h)⟩
                rcases ho with ho | ho
                · rw [ho] at hx
                  injection hx with hx
                  rw [← hx]
                · rw [ho] at hx
                  simp only at hx
                  split at hx
                  · cases hx
                  · injection hx with hx
                    rw [← hx]; simp [rstripS]
            · exact ih s1 hm hf
      rw [this, if_pos rfl] at h
      cases h

example : BrokenLine c!"[]" := ⟨'[', c!"]", rfl, by decide, by decide, by decide, .inr (.inr ⟨by decide, by decide, by
  rintro ⟨name, rest, h1, h2⟩
  cases name with
  | nil => exact h1 rfl
  | cons x xs =>
    simp only [List.cons_append, List.cons.injEq] at h2
    have := congrArg List.length h2.2.2
    simp at this⟩)⟩
example : commandConfig asciiLower (some c!"[make]\n[]\n") = .error .parsing := by decide +kernel
example : commandConfig asciiLower (some c!"[make]\n= 5\n") = .error .parsing := by decide +kernel
example : textLines c!"a\r\n\r\rb\n\nc" = [c!"a", [], [], c!"b", [], c!"c"] := by decide +kernel

end OsUrl
