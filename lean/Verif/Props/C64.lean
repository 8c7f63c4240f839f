import Verif.Proofs.Limit2
import Verif.Props.C24
import Verif.Props.C37
import Verif.Props.C47

/-!
# C64: the call stack

A URL with more pieces than Python allows nested calls ends `pattern-make`: the clusters that were found before are printed, the others are lost.
-/

namespace OsUrl

open Spec

theorem chain_mem {α β : Type} {f : β → Gen α} {l : List β} {c : α} (h : c ∈ (Gen.chain f l).1) : ∃ x ∈ l, c ∈ (f x).1 := by
  induction l with
  | nil => cases h
  | cons b l ih =>
    rw [Gen.chain] at h
    cases hfb : f b with
    | mk x o =>
      rw [hfb] at h
      cases o with
      | some e => exact ⟨b, by simp, by rw [hfb]; exact h⟩
      | none =>
        simp only at h
        rcases List.mem_append.mp h with h | h
        · exact ⟨b, by simp, by rw [hfb]; exact h⟩
        · obtain ⟨y, hy, hc⟩ := ih h
          exact ⟨y, by simp [hy], hc⟩

theorem chain_raises {α β : Type} {f : β → Gen α} {l : List β} {x : β} (hx : x ∈ l) (h : (f x).2 ≠ none) : (Gen.chain f l).2 ≠ none := by
  induction l with
  | nil => cases hx
  | cons b l ih =>
    rw [Gen.chain]
    cases hfb : f b with
    | mk y o =>
      cases o with
      | some e => simp
      | none =>
        simp only
        rcases List.mem_cons.mp hx with rfl | hx
        · rw [hfb] at h; exact absurd rfl h
        · exact ih hx

/-- A maker whose URLs have too many pieces finds no cluster at all. -/
theorem deep_maker {md5 : Str → Str} {hist : List (Str × Option Str)} (hc : NoCollision md5 (accepted hist)) {kv : Str × MakerSt}
    (hkv : kv ∈ loadAll md5 hist) (h : Runtime) (mcn : Int) {lim : Nat} (hl : lim ≤ kv.2.urlMeta.depth + 1) :
    ∃ e, clusterNestL h 2 lim mcn kv.2.urlMeta false kv.2.tree = ([], some e) := by
  obtain ⟨sid, mk⟩ := kv
  obtain ⟨r, hr, hs, e, hall, hlen⟩ := mem_loadAll hc hkv
  subst e
  simp only at hl ⊢
  have hne := insOf_ne (md5 := md5) hr hs
  obtain ⟨n, hn⟩ : ∃ n, r.m.depth = n + 1 := ⟨r.m.depth - 1, by have := (accepted_depth hr).2; omega⟩
  have hcnt : ¬ (growTree r.m.depth (insOf ((accepted hist).filter (fun x => decide (x.sid md5 = sid))))).root.count ≤ 0 := by
    rw [growTree_count, insOf_count]
    have hm : r.keys ∈ uniq (((accepted hist).filter (fun x => decide (x.sid md5 = sid))).map Rec.keys) :=
      mem_uniq.mpr (List.mem_map_of_mem (List.mem_filter.mpr ⟨hr, by simpa using hs⟩))
    have := List.length_pos_of_mem hm
    omega
  generalize insOf ((accepted hist).filter (fun x => decide (x.sid md5 = sid))) = L at hne hlen hcnt
  cases lim with
  | zero => exact ⟨_, rfl⟩
  | succ lim =>
    show ∃ e, clusterGenL h (fun l mcn m kw t => (clusterNestL h 1 l mcn m kw t).toPy) mcn r.m false (lim + 1) (growTree r.m.depth L) = ([], some e)
    rw [clusterGenL, if_neg hcnt]
    have hraise : ∀ x, processL h (fun l mcn m kw t => (clusterNestL h 1 l mcn m kw t).toPy) mcn r.m false lim (growTree r.m.depth L) ≠ .ok x := by
      intro x hx
      unfold processL at hx
      obtain ⟨y, hy, -⟩ := bind_ok hx
      refine deep_raises h _ mcn r.m false (by omega) 0 (by simp) ?_ y hy
      intro x hx
      rw [List.mem_singleton] at hx
      subst hx
      simp only
      rw [hn]
      refine deep_paths (grow_eq_nil (n := n) hne) ?_
      intro p hp
      have hp' : p ∈ (growTree (n + 1) L).paths := by
        rw [Tree.paths_of_ne (t := growTree (n + 1) L) (grow_eq_nil (n := n) hne)]; exact hp
      rw [paths_growTree hne] at hp'
      exact growPaths_length p hp'
    cases hp : processL h (fun l mcn m kw t => (clusterNestL h 1 l mcn m kw t).toPy) mcn r.m false lim (growTree r.m.depth L) with
    | error e => exact ⟨e, rfl⟩
    | ok x => exact absurd hp (hraise x)

/-- **C64**: with a limited call stack `make` yields the same clusters, or an initial part of them and then `RecursionError`; with enough frames it
yields all of them.  With at most one frame more than the pieces of some URL it raises, and what was yielded before are clusters of URLs with fewer
pieces. -/
theorem C64_make (md5 : Str → Str) (h : Runtime) (mcn : Int) (hm : 2 ≤ mcn) (hist : List (Str × Option Str))
    (hc : NoCollision md5 (accepted hist)) (hh : NoHashClash h (UrlRow hist)) :
    ∃ cs, PatternMakerSt.make h mcn (loadAll md5 hist) = .ok cs ∧
      (∀ lim, (PatternMakerSt.makeL h lim mcn (loadAll md5 hist)) = (cs, none) ∨
        ((PatternMakerSt.makeL h lim mcn (loadAll md5 hist)).2 = some .recursionError ∧
          (PatternMakerSt.makeL h lim mcn (loadAll md5 hist)).1 <+: cs)) ∧
      (∃ L, ∀ lim, L ≤ lim → PatternMakerSt.makeL h lim mcn (loadAll md5 hist) = (cs, none)) ∧
      ∀ u md m pps, (u, md) ∈ hist → parse u = .ok (m, .pieces pps) → ∀ lim, lim ≤ pps.length + 1 →
        (PatternMakerSt.makeL h lim mcn (loadAll md5 hist)).2 = some .recursionError ∧
        ∀ c ∈ (PatternMakerSt.makeL h lim mcn (loadAll md5 hist)).1, c.1.depth < pps.length := by
  obtain ⟨cs, hcs⟩ := C28_total md5 h mcn hm hist hc hh
  have href := fun lim => ref_make h lim mcn (loadAll md5 hist) cs hcs
  refine ⟨cs, hcs, href, ?_, ?_⟩
  · obtain ⟨L, hL⟩ := ev_make h mcn (loadAll md5 hist) cs hcs
    refine ⟨L, fun lim hl => ?_⟩
    rcases href lim with e | ⟨e, -⟩
    · exact e
    · have := hL lim hl
      unfold Gen.toPy at this
      simp only [e] at this
      cases this
  · intro u md m pps hu hp lim hl
    have hr : (⟨m, pps, md⟩ : Rec) ∈ accepted hist := mem_accepted.mpr ⟨u, hu, hp⟩
    have hd := (accepted_depth hr).1
    simp only at hd
    obtain ⟨mk, hmk⟩ := get?_loadAll hc hr
    have hmkm : mk.urlMeta = m := by
      obtain ⟨r', hr', hs, e, hall, -⟩ := mem_loadAll hc hmk
      rw [e]
      exact (hall _ (List.mem_filter.mpr ⟨hr, by simp⟩)).1.symm
    refine ⟨?_, ?_⟩
    · have hne : (PatternMakerSt.makeL h lim mcn (loadAll md5 hist)).2 ≠ none := by
        unfold PatternMakerSt.makeL
        refine chain_raises hmk ?_
        obtain ⟨e, he⟩ := deep_maker hc hmk h mcn (lim := lim) (by simp only [hmkm]; omega)
        simp only [he]
        simp
      rcases href lim with e | ⟨e, -⟩
      · rw [e] at hne; exact absurd rfl hne
      · exact e
    · intro c hcm
      unfold PatternMakerSt.makeL at hcm
      obtain ⟨kv, hkv, hcm⟩ := chain_mem hcm
      simp only [List.mem_map] at hcm
      obtain ⟨t, ht, rfl⟩ := hcm
      rcases Nat.lt_or_ge kv.2.urlMeta.depth pps.length with h1 | h1
      · exact h1
      · obtain ⟨e, he⟩ := deep_maker hc hkv h mcn (lim := lim) (by omega)
        rw [he] at ht
        cases ht

theorem formatPattern_ne {m : URLMeta} {t : Tree NodeData} (h : t.paths ≠ []) : formatPattern m t ≠ [] := by
  unfold formatPattern
  cases hp : t.paths with
  | nil => exact absurd hp h
  | cons p ps => simp

theorem pformat_ne {rt : Runtime} {f : Fmt} {m : URLMeta} {t : Tree NodeData} (h : t.paths ≠ []) (hf : f = .pattern ∨ f = .cluster ∨ f = .json) :
    pformat rt f m t ≠ [] := by
  rcases hf with rfl | rfl | rfl
  · exact formatPattern_ne h
  · intro e
    exact formatPattern_ne h (List.append_eq_nil_iff.mp e).1
  · show formatJson m t ≠ []
    unfold formatJson
    cases hp : t.paths with
    | nil => exact absurd hp h
    | cons p ps => simp

theorem flatMap_prefix {α β : Type} {f : α → List β} {a b : List α} (h : a <+: b) : a.flatMap f <+: b.flatMap f := by
  obtain ⟨c, rfl⟩ := h
  rw [List.flatMap_append]
  exact List.prefix_append _ _

theorem flatMap_shorter {α β : Type} {f : α → List β} {a b : List α} (h : a <+: b) (hne : a ≠ b) (hf : ∀ x ∈ b, f x ≠ []) :
    (a.flatMap f).length < (b.flatMap f).length := by
  obtain ⟨c, rfl⟩ := h
  cases c with
  | nil => simp at hne
  | cons x c =>
    rw [List.flatMap_append, List.length_append, List.flatMap_cons, List.length_append]
    have := List.length_pos_iff.mpr (hf x (by simp))
    omega

/-- The URLs of the input lines: a line that is not blank and that decodes. -/
def Spec.inputUrl (env : Env) (lines : List Bytes) (u : Str) : Prop := ∃ l ∈ lines, stripB l ≠ [] ∧ env.decode (stripB l) = some u

/-- **C64**: with a limited call stack `pattern-make` prints all its records, or the first ones and ends with `RecursionError`; with enough frames it
prints all of them.  With at most one frame more than the pieces of some input URL it ends with `RecursionError`, and in the formats which print each
cluster, records are missing. -/
theorem C64_command (env : Env) (mcn : Int) (hm : 2 ≤ mcn) (f : Fmt) (lines : List Bytes)
    (hc : NoCollision env.md5 (accepted (urlsOf env (loadsUrl f) lines))) (hh : NoHashClash env.rt (UrlRow (urlsOf env (loadsUrl f) lines))) :
    ∃ records, makeRun env mcn f lines = .ok records ∧
      (∀ lim, makeRunL env lim mcn f lines = (records, none) ∨
        ((makeRunL env lim mcn f lines).2 = some .recursionError ∧ (makeRunL env lim mcn f lines).1 <+: records)) ∧
      (∃ L, ∀ lim, L ≤ lim → makeRunL env lim mcn f lines = (records, none)) ∧
      ∀ u, inputUrl env lines u → ∀ m pps, parse u = .ok (m, .pieces pps) → ∀ lim, lim ≤ pps.length + 1 →
        (makeRunL env lim mcn f lines).2 = some .recursionError ∧
        (f = .pattern ∨ f = .cluster ∨ f = .json → (makeRunL env lim mcn f lines).1.length < records.length) := by
  obtain ⟨cs, h1, h2, h3, h4⟩ := C64_make env.md5 env.rt mcn hm _ hc hh
  obtain ⟨cs', h1', -, hrow, hne⟩ := C24_partition env.md5 env.rt mcn hm _ hc hh
  obtain rfl : cs = cs' := by rw [h1] at h1'; exact Except.ok.inj h1'
  have hL : ∀ lim, makeRunL env lim mcn f lines =
      ((PatternMakerSt.makeL env.rt lim mcn (loadAll env.md5 (urlsOf env (loadsUrl f) lines))).1.flatMap (fun mt => pformat env.rt f mt.1 mt.2),
        (PatternMakerSt.makeL env.rt lim mcn (loadAll env.md5 (urlsOf env (loadsUrl f) lines))).2) := by
    intro lim
    unfold makeRunL
    rw [makeLoad_fst]
  refine ⟨cs.flatMap (fun mt => pformat env.rt f mt.1 mt.2), ?_, ?_, ?_, ?_⟩
  · unfold makeRun makeProcess
    rw [makeLoad_fst, h1]; rfl
  · intro lim
    rw [hL]
    rcases h2 lim with e | ⟨e, hp⟩
    · rw [e]; exact .inl rfl
    · exact .inr ⟨e, flatMap_prefix hp⟩
  · obtain ⟨L, hL'⟩ := h3
    refine ⟨L, fun lim hl => ?_⟩
    rw [hL, hL' lim hl]
  · rintro u ⟨l, hl, hl1, hl2⟩ m pps hp lim hlim
    have hu : (u, if loadsUrl f then some u else none) ∈ urlsOf env (loadsUrl f) lines := by
      unfold urlsOf
      refine List.mem_filterMap.mpr ⟨l, hl, ?_⟩
      unfold urlOf
      rw [if_neg hl1, hl2]; rfl
    obtain ⟨he, hd⟩ := h4 u _ m pps hu hp lim hlim
    rw [hL]
    refine ⟨he, fun hf => ?_⟩
    have hpre : (PatternMakerSt.makeL env.rt lim mcn (loadAll env.md5 (urlsOf env (loadsUrl f) lines))).1 <+: cs := by
      rcases h2 lim with e | ⟨-, e⟩
      · rw [e]; exact List.prefix_rfl
      · exact e
    refine flatMap_shorter hpre ?_ (fun c hcm => pformat_ne (hne c hcm).1 hf)
    intro e
    have := (hrow m (pps.map (·.piece))).mpr ⟨u, _, pps, hu, hp, rfl⟩
    obtain ⟨c, hcm, hp'⟩ := List.mem_flatMap.mp this
    obtain ⟨p, -, ep⟩ := List.mem_map.mp hp'
    rw [e] at hd
    have h5 := hd c hcm
    have hr : (⟨m, pps, if loadsUrl f then some u else none⟩ : Rec) ∈ accepted (urlsOf env (loadsUrl f) lines) := mem_accepted.mpr ⟨u, hu, hp⟩
    have h6 := (accepted_depth hr).1
    have h7 : c.1 = m := (Prod.mk.inj ep).1
    rw [h7] at h5
    simp only at h6
    omega

/-- **C64**: how many frames are enough: twice the number of different URLs in the largest group, the number of pieces of the longest URL, the number of
runs of the longest piece, and five. -/
theorem C64_enough (md5 : Str → Str) (h : Runtime) (mcn : Int) (hm : 2 ≤ mcn) (hist : List (Str × Option Str))
    (hc : NoCollision md5 (accepted hist)) (hh : NoHashClash h (UrlRow hist)) (N D K : Nat) (hs : Sizes hist N D K) (lim : Nat)
    (hl : 2 * N + D + K + 5 ≤ lim) :
    ∃ cs, PatternMakerSt.make h mcn (loadAll md5 hist) = .ok cs ∧ PatternMakerSt.makeL h lim mcn (loadAll md5 hist) = (cs, none) := by
  obtain ⟨cs, h1, h2, -, -⟩ := C64_make md5 h mcn hm hist hc hh
  refine ⟨cs, h1, ?_⟩
  rcases h2 lim with e | ⟨e, -⟩
  · exact e
  · exfalso
    have hok : ∃ r, (PatternMakerSt.makeL h lim mcn (loadAll md5 hist)).toPy = .ok r := by
      unfold PatternMakerSt.makeL
      rw [chain_toPy]
      obtain ⟨bs, hbs⟩ := mapM_total (f := fun kv : Str × MakerSt => Gen.toPy
        ((clusterNestL h 2 lim mcn kv.2.urlMeta false kv.2.tree).1.map (fun t => (kv.2.urlMeta, t)),
          (clusterNestL h 2 lim mcn kv.2.urlMeta false kv.2.tree).2)) (l := loadAll md5 hist) (by
        intro kv hkv
        obtain ⟨ts, ht⟩ := maker_frames hm hc hh hs hkv hl
        unfold Gen.toPy at ht ⊢
        simp only
        cases ho : (clusterNestL h 2 lim mcn kv.2.urlMeta false kv.2.tree).2 with
        | some e => rw [ho] at ht; cases ht
        | none => exact ⟨_, rfl⟩)
      refine ⟨bs.flatten, ?_⟩
      simp only
      rw [hbs]; rfl
    obtain ⟨r, hr⟩ := hok
    unfold Gen.toPy at hr
    rw [e] at hr
    cases hr

/-- **C64**: the same for `pattern-make`. -/
theorem C64_enough_command (env : Env) (mcn : Int) (hm : 2 ≤ mcn) (f : Fmt) (lines : List Bytes)
    (hc : NoCollision env.md5 (accepted (urlsOf env (loadsUrl f) lines))) (hh : NoHashClash env.rt (UrlRow (urlsOf env (loadsUrl f) lines)))
    (N D K : Nat) (hs : Sizes (urlsOf env (loadsUrl f) lines) N D K) (lim : Nat) (hl : 2 * N + D + K + 5 ≤ lim) :
    ∃ records, makeRun env mcn f lines = .ok records ∧ makeRunL env lim mcn f lines = (records, none) := by
  obtain ⟨cs, h1, h2⟩ := C64_enough env.md5 env.rt mcn hm _ hc hh N D K hs lim hl
  refine ⟨cs.flatMap (fun mt => pformat env.rt f mt.1 mt.2), ?_, ?_⟩
  · unfold makeRun makeProcess
    rw [makeLoad_fst, h1]; rfl
  · unfold makeRunL
    rw [makeLoad_fst, h2]

/-- The lists of pieces of the URLs of one meta and with the same rules. -/
def rowsList (hist : List (Str × Option Str)) (m : URLMeta) (rules : List Str) : List (List ParsedPiece) :=
  hist.filterMap (fun e => match parse e.1 with
    | .ok (m', .pieces row) => if m' = m ∧ row.map (·.fuzzyRule) = rules then some row else none
    | _ => none)

/-- `Sizes`, computed. -/
def sizesB (hist : List (Str × Option Str)) (N D K : Nat) : Bool :=
  hist.all (fun e => match parse e.1 with
    | .ok (m, .pieces row) => decide (row.length ≤ D) && row.all (fun p => decide (p.pieces.length ≤ K)) &&
        decide ((uniq (rowsList hist m (row.map (·.fuzzyRule)))).length ≤ N)
    | _ => true)

theorem sizes_of {hist : List (Str × Option Str)} {N D K : Nat} (h : sizesB hist N D K = true) : Sizes hist N D K := by
  have key : ∀ u md m pps, (u, md) ∈ hist → parse u = .ok (m, .pieces pps) → (pps.length ≤ D ∧ ∀ p ∈ pps, p.pieces.length ≤ K) ∧
      (uniq (rowsList hist m (pps.map (·.fuzzyRule)))).length ≤ N := by
    intro u md m pps hu hp
    have := List.all_eq_true.mp h (u, md) hu
    simp only [hp, Bool.and_eq_true, decide_eq_true_eq, List.all_eq_true] at this
    exact this
  refine ⟨fun m rules rows hn hr => ?_, fun u md m pps hu hp => (key u md m pps hu hp).1⟩
  cases hrows : rows with
  | nil => simp
  | cons row0 rows0 =>
    rw [← hrows]
    obtain ⟨hr0, u0, md0, hu0, hp0⟩ := hr row0 (by rw [hrows]; simp)
    refine Nat.le_trans (nodup_len hn (fun row hrow => ?_)) (key u0 md0 m row0 hu0 hp0).2
    obtain ⟨hr1, u, md, hu, hp⟩ := hr row hrow
    refine mem_uniq.mpr (List.mem_filterMap.mpr ⟨(u, md), hu, ?_⟩)
    simp only [hp]
    rw [if_pos ⟨trivial, by rw [hr0, hr1]⟩]

/-- **C64**: `dump_tree` needs one frame more than the longest path has nodes below the root, and with fewer raises `RecursionError`. -/
theorem C64_dump {α : Type} (t : Tree α) (lim : Nat) :
    ((∀ p ∈ t.paths, p.length < lim) → t.dumpL lim = .ok t.paths) ∧
    ((∃ p ∈ t.paths, lim ≤ p.length) → t.dumpL lim = .error .recursionError) := by
  cases lim with
  | zero =>
    refine ⟨fun h => ?_, fun _ => rfl⟩
    exfalso
    cases hk : t.kids with
    | nil => exact Nat.not_lt_zero _ (h [] (by unfold Tree.paths; rw [hk]; simp))
    | cons k a f g =>
      have hne : t.kids ≠ .nil := by rw [hk]; simp
      rw [Tree.paths_of_ne hne] at h
      cases hp : t.kids.paths with
      | nil => exact forest_paths_ne hne hp
      | cons p ps => exact Nat.not_lt_zero _ (h p (by rw [hp]; simp))
  | succ lim =>
    cases hk : t.kids with
    | nil =>
      have e : t.paths = [[]] := by unfold Tree.paths; rw [hk]
      refine ⟨fun _ => ?_, ?_⟩
      · rw [e]; unfold Tree.dumpL; rw [hk]
      · rintro ⟨p, hp, hl⟩
        rw [e, List.mem_singleton] at hp
        subst hp
        simp at hl
    | cons k a f g =>
      have hne : t.kids ≠ .nil := by rw [hk]; simp
      have ed : t.dumpL (lim + 1) = t.kids.dumpL lim := by unfold Tree.dumpL; rw [hk]
      rw [Tree.paths_of_ne hne, ed]
      exact ⟨fun h => dumpL_ok (fun p hp => by have := h p hp; omega), fun ⟨p, hp, hl⟩ => dumpL_error ⟨p, hp, by omega⟩⟩

/-! ### examples -/

/-- The third URL has six pieces. -/
def c64Lines : List Bytes := [c!"http://h/p/1\n", c!"http://h/p/22\n", c!"http://h/a/b/c/d/e/f\n", c!"http://h/q?k=ab\n"].map asciiBytesM

/-- With seven frames the command ends at the group of that URL; the last group is not printed either. -/
example : makeRunL c47Env 7 2 .pattern c64Lines = ([c!"/p/[0-9]+"], some .recursionError) := by decide +kernel

/-- Eight frames are enough. -/
example : makeRunL c47Env 8 2 .pattern c64Lines = ([c!"/p/[0-9]+", c!"/a/b/c/d/e/f", c!"/q[\\?]k=ab"], none) := by decide +kernel

/-- A single piece can be too deep as well: its sub-pieces are clustered in a tree of their own. -/
def c64Sub : List Bytes := [c!"http://h/q?k=ab\n", c!"http://h/a-b-a-b-a\n", c!"http://h/c-d-c-d-d\n"].map asciiBytesM

example : makeRunL c47Env 12 2 .pattern c64Sub = ([c!"/q[\\?]k=ab"], some .recursionError) ∧
    makeRunL c47Env 15 2 .pattern c64Sub =
      ([c!"/q[\\?]k=ab", c!"/[a-z][\\-][a-z][\\-][a-z][\\-][a-z][\\-][a-z]"], none) := by decide +kernel

/-- The bound of `C64_enough`: groups of at most two URLs, at most two pieces, at most nine runs in a piece. -/
example : Sizes (urlsOf c47Env (loadsUrl .pattern) c64Sub) 2 2 9 := sizes_of (by decide +kernel)

example (lim : Nat) (hl : 20 ≤ lim) : ∃ records, makeRun c47Env 2 .pattern c64Sub = .ok records ∧ makeRunL c47Env lim 2 .pattern c64Sub = (records, none) :=
  C64_enough_command c47Env 2 (by decide) .pattern c64Sub (id_ok _) (codeHash_ok _) 2 2 9 (sizes_of (by decide +kernel)) lim hl

/-- A tree with the paths `a b` and `c` is dumped with three frames, not with two. -/
def c64Tree : Tree Nat := ⟨0, .cons c!"a" 1 (.cons c!"b" 2 .nil .nil) (.cons c!"c" 3 .nil .nil)⟩

example : c64Tree.dumpL 3 = .ok [[(c!"a", 1), (c!"b", 2)], [(c!"c", 3)]] ∧ c64Tree.dumpL 2 = .error .recursionError := by decide

end OsUrl
