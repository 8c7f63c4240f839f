import Verif.Model.Cmdline
import Verif.Proofs.Load2

/-! # C37: the counters of `pattern-make` add up -/

namespace OsUrl
open Spec

/-- The URL on a line: stripped, not empty, decodable. -/
def urlOf (env : Env) (line : Bytes) : Option Str :=
  if stripB line = [] then none else env.decode (stripB line)

/-- The URLs of the lines, with the metas that are loaded. -/
def urlsOf (env : Env) (loadUrl : Bool) (lines : List Bytes) : List (Str × Option Str) :=
  lines.filterMap (fun l => (urlOf env l).map (fun u => (u, if loadUrl then some u else none)))

theorem urlsOf_concat (env : Env) (loadUrl : Bool) (lines : List Bytes) (l : Bytes) :
    urlsOf env loadUrl (lines ++ [l]) = urlsOf env loadUrl lines ++
      ((urlOf env l).map (fun u => (u, if loadUrl then some u else none))).toList := by
  unfold urlsOf
  rw [List.filterMap_append]
  cases h : urlOf env l <;> simp [h]

theorem makeLoad_concat (env : Env) (loadUrl : Bool) (lines : List Bytes) (l : Bytes) :
    makeLoad env loadUrl (lines ++ [l]) = makeLine env loadUrl (makeLoad env loadUrl lines) l := by
  unfold makeLoad; rw [List.foldl_append]; rfl

/-- The line is accepted: its URL parses and is not a pattern string. -/
def lineOK (env : Env) (l : Bytes) : Bool :=
  match urlOf env l with
  | none => false
  | some u => match parse u with
    | .ok (_, .pieces _) => true
    | _ => false

/-- The sub-makers, and what each line does. -/
theorem makeLoad_fst (env : Env) (loadUrl : Bool) (lines : List Bytes) :
    (makeLoad env loadUrl lines).1 = loadAll env.md5 (urlsOf env loadUrl lines) := by
  refine snoc_ind (P := fun lines => (makeLoad env loadUrl lines).1 = loadAll env.md5 (urlsOf env loadUrl lines))
    rfl ?_ lines
  intro lines l ih
  rw [makeLoad_concat, urlsOf_concat]
  unfold makeLine urlOf
  by_cases h : stripB l = []
  · simp [h, ih]
  · have h' : (stripB l).isEmpty = false := by simpa [List.isEmpty_iff] using h
    simp only [h', h, if_false, Bool.false_eq_true]
    cases hd : env.decode (stripB l) with
    | none => simp [ih]
    | some u =>
      simp only [Option.map_some, Option.toList_some]
      rw [loadAll_concat, ← ih]
      generalize PatternMakerSt.load env.md5 (makeLoad env loadUrl lines).1 u (if loadUrl = true then some u else none) = r
      cases r with
      | error e => rfl
      | ok x => obtain ⟨a, b⟩ := x; rfl

theorem load_ok_iff (md5 : Str → Str) (st : PatternMakerSt) (u : Str) (md : Option Str) :
    (∃ r, st.load md5 u md = .ok r) ↔ ∃ m pps, parse u = .ok (m, .pieces pps) := by
  constructor
  · rintro ⟨r, hr⟩
    refine Classical.byContradiction fun hn => ?_
    obtain ⟨e, he⟩ := load_reject md5 st (u := u) md (fun m pps e => hn ⟨m, pps, e⟩)
    rw [he] at hr; cases hr
  · rintro ⟨m, pps, h⟩
    have hd := accepted_depth (h := [(u, md)]) (r := ⟨m, pps, md⟩) (mem_accepted.mpr ⟨u, by simp, h⟩)
    rw [load_parse md5 st md h]
    cases pps with
    | nil => simp at hd; omega
    | cons pp rest =>
      simp [MakerSt.load, buildFromParsedPieces, bind, Except.bind, pure, Except.pure]

/-- **C37**: the counters add up. -/
theorem C37_sum (env : Env) (loadUrl : Bool) (lines : List Bytes) :
    let st := (makeLoad env loadUrl lines).2
    st.all = lines.length ∧ st.all = st.empty + st.valid + st.invalid ∧ st.uniq ≤ st.valid := by
  refine snoc_ind (P := fun lines =>
    (makeLoad env loadUrl lines).2.all = lines.length ∧
    (makeLoad env loadUrl lines).2.all = (makeLoad env loadUrl lines).2.empty +
      (makeLoad env loadUrl lines).2.valid + (makeLoad env loadUrl lines).2.invalid ∧
    (makeLoad env loadUrl lines).2.uniq ≤ (makeLoad env loadUrl lines).2.valid) ⟨rfl, rfl, Nat.le_refl _⟩ ?_ lines
  intro lines l ⟨h1, h2, h3⟩
  rw [makeLoad_concat]
  generalize makeLoad env loadUrl lines = st at *
  rw [List.length_append, List.length_singleton]
  dsimp only [makeLine]
  generalize PatternMakerSt.load env.md5 st.1 = ld
  by_cases hs : (stripB l).isEmpty = true
  · simp only [hs, if_true]; omega
  · simp only [hs, Bool.false_eq_true, if_false]
    cases env.decode (stripB l) with
    | none => simp only; omega
    | some u =>
      simp only
      generalize ld u (if loadUrl = true then some u else none) = r
      cases r with
      | error e => simp only; omega
      | ok x =>
        obtain ⟨a, b⟩ := x
        cases b <;> simp <;> omega

/-- **C37**: `EMPTY` counts the blank lines and `VALID` the lines whose URL is accepted; the sub-makers
are those of the accepted lines alone. -/
theorem C37_valid (env : Env) (loadUrl : Bool) (lines : List Bytes) :
    let st := makeLoad env loadUrl lines
    st.2.empty = (lines.filter (fun l => decide (stripB l = []))).length ∧
    st.2.valid = (lines.filter (lineOK env)).length ∧
    st.1 = (makeLoad env loadUrl (lines.filter (lineOK env))).1 := by
  refine snoc_ind (P := fun lines => 
    (makeLoad env loadUrl lines).2.empty = (lines.filter (fun l => decide (stripB l = []))).length ∧
    (makeLoad env loadUrl lines).2.valid = (lines.filter (lineOK env)).length ∧
    (makeLoad env loadUrl lines).1 = (makeLoad env loadUrl (lines.filter (lineOK env))).1) ?_ ?_ lines
  · exact ⟨rfl, rfl, rfl⟩
  · intro lines l ⟨h1, h2, h3⟩
    rw [List.filter_append, List.filter_append, makeLoad_concat]
    by_cases h : stripB l = []
    · have hu : urlOf env l = none := by simp [urlOf, h]
      have hok : lineOK env l = false := by simp [lineOK, hu]
      simp [makeLine, h, hok, h1, h2, h3]
    · have h' : (stripB l).isEmpty = false := by simpa [List.isEmpty_iff] using h
      cases hd : env.decode (stripB l) with
      | none =>
        have hu : urlOf env l = none := by simp [urlOf, h, hd]
        have hok : lineOK env l = false := by simp [lineOK, hu]
        simp [makeLine, h', h, hd, hok, h1, h2, h3]
      | some u =>
        have hu : urlOf env l = some u := by simp [urlOf, h, hd]
        have hiff := load_ok_iff env.md5 (makeLoad env loadUrl lines).1 u (if loadUrl = true then some u else none)
        by_cases hok : lineOK env l = true
        · have hp : ∃ m pps, parse u = .ok (m, .pieces pps) := by
            unfold lineOK at hok
            rw [hu] at hok
            simp only at hok
            split at hok
            · rename_i m pps e; exact ⟨m, pps, e⟩
            · simp at hok
          obtain ⟨⟨a, b⟩, hr⟩ := hiff.mpr hp
          have hr' := hr
          rw [h3] at hr'
          simp only [List.filter_cons, hok, if_true, List.filter_nil, decide_eq_true_eq, h, if_false, List.append_nil,
            List.length_append, List.length_singleton]
          rw [makeLoad_concat]
          simp only [makeLine, h', hd, Bool.false_eq_true, if_false, hr, hr']
          exact ⟨h1, by rw [h2], trivial⟩
        · have hp : ¬∃ m pps, parse u = .ok (m, .pieces pps) := by
            rintro ⟨m, pps, e⟩
            exact hok (by simp [lineOK, hu, e])
          have hr : ∃ e, PatternMakerSt.load env.md5 (makeLoad env loadUrl lines).1 u
              (if loadUrl = true then some u else none) = .error e := by
            cases hx : PatternMakerSt.load env.md5 (makeLoad env loadUrl lines).1 u
              (if loadUrl = true then some u else none) with
            | error e => exact ⟨e, rfl⟩
            | ok x => exact absurd (hiff.mp ⟨x, hx⟩) hp
          obtain ⟨e, hr⟩ := hr
          simp only [Bool.not_eq_true] at hok
          simp only [makeLine, h', hd, Bool.false_eq_true, if_false, hr, List.filter_cons, hok, List.filter_nil,
            decide_eq_true_eq, h, List.append_nil]
          exact ⟨h1, h2, h3⟩

theorem sum_upd {κ α : Type} [DecidableEq κ] (k : κ) (f : Option α → α) (w : α → Int) (d : Dict κ α) :
    ((Dict.upd k f d).map (fun kv => w kv.2)).sum =
      (d.map (fun kv => w kv.2)).sum + w (f (Dict.get? k d)) - ((Dict.get? k d).map w).getD 0 := by
  induction d with
  | nil => simp [Dict.upd, Dict.get?]
  | cons x xs ih =>
    obtain ⟨a, v⟩ := x
    by_cases h : a = k
    · simp [Dict.upd, Dict.get?, h]; omega
    · simp [Dict.upd, Dict.get?, h, ih]; omega

theorem load_count {mk0 mk : MakerSt} {pps : List ParsedPiece} {md : Option Str} {isNew : Bool}
    (h : mk0.load pps md = .ok (mk, isNew)) :
    mk.tree.root.count = mk0.tree.root.count + if isNew then 1 else 0 := by
  unfold MakerSt.load buildFromParsedPieces at h
  cases pps with
  | nil => simp [bind, Except.bind] at h
  | cons pp rest =>
    simp only [bind, Except.bind, pure, Except.pure, Except.ok.injEq, Prod.mk.injEq] at h
    obtain ⟨rfl, rfl⟩ := h
    simp only [Bool.true_and]
    cases isNewPath ((pp :: rest).map (·.piece)) mk0.tree.kids with
    | true => simp [buildPath, NodeData.incr]
    | false => simp [buildPath, incrPath, NodeData.incr]; omega

/-- **C37**: `UNIQ` is the total number of distinct paths held by the sub-makers. -/
theorem C37_uniq (env : Env) (loadUrl : Bool) (lines : List Bytes) :
    ((makeLoad env loadUrl lines).2.uniq : Int) =
      ((makeLoad env loadUrl lines).1.map (fun km => km.2.tree.root.count)).sum := by
  refine snoc_ind (P := fun lines => ((makeLoad env loadUrl lines).2.uniq : Int) =
        ((makeLoad env loadUrl lines).1.map (fun km => km.2.tree.root.count)).sum) rfl ?_ lines
  intro lines l ih
  rw [makeLoad_concat]
  by_cases h : stripB l = []
  · simpa [makeLine, h] using ih
  · have h' : (stripB l).isEmpty = false := by simpa [List.isEmpty_iff] using h
    cases hd : env.decode (stripB l) with
    | none => simpa [makeLine, h', hd] using ih
    | some u =>
      simp only [makeLine, h', hd, Bool.false_eq_true, if_false]
      by_cases hp : ∃ m pps, parse u = .ok (m, .pieces pps)
      · obtain ⟨m, pps, hp⟩ := hp
        have hload := load_parse env.md5 (makeLoad env loadUrl lines).1 (if loadUrl = true then some u else none) hp
        obtain ⟨_, hok⟩ := (load_ok_iff env.md5 (makeLoad env loadUrl lines).1 u
          (if loadUrl = true then some u else none)).mpr ⟨m, pps, hp⟩
        rw [hload] at hok ⊢
        simp only [bind, Except.bind, pure, Except.pure] at hok ⊢
        cases hmk : MakerSt.load ((Dict.get? (fuzzyDigest env.md5 m (.pieces pps)) (makeLoad env loadUrl lines).1).getD
            (MakerSt.new m)) pps (if loadUrl = true then some u else none) with
        | error e => rw [hmk] at hok; simp at hok
        | ok x =>
          obtain ⟨mk, isNew⟩ := x
          simp only
          rw [sum_upd (fuzzyDigest env.md5 m (.pieces pps)) (fun _ => mk) (fun mk => mk.tree.root.count), ← ih]
          have hold : ((Dict.get? (fuzzyDigest env.md5 m (.pieces pps)) (makeLoad env loadUrl lines).1).map
              (fun mk => mk.tree.root.count)).getD 0 =
              ((Dict.get? (fuzzyDigest env.md5 m (.pieces pps)) (makeLoad env loadUrl lines).1).getD
                (MakerSt.new m)).tree.root.count := by
            cases Dict.get? (fuzzyDigest env.md5 m (.pieces pps)) (makeLoad env loadUrl lines).1 <;> rfl
          rw [hold, load_count hmk]
          cases isNew <;> simp <;> omega
      · have hp' : ∀ m pps, parse u ≠ .ok (m, .pieces pps) := fun m pps e => hp ⟨m, pps, e⟩
        obtain ⟨e, he⟩ := load_reject env.md5 (makeLoad env loadUrl lines).1
          (if loadUrl = true then some u else none) hp'
        simp only [he]
        exact ih

/-- **C37**: the count of a sub-maker is the number of its distinct paths (no md5 collision). -/
theorem C37_paths (env : Env) (loadUrl : Bool) (lines : List Bytes)
    (hc : NoCollision env.md5 (accepted (urlsOf env loadUrl lines))) (sid : Str) (mk : MakerSt)
    (h : (sid, mk) ∈ (makeLoad env loadUrl lines).1) :
    mk.tree.root.count = (mk.tree.paths.length : Int) ∧ (mk.tree.paths.map (fun p => p.map (·.1))).Nodup := by
  rw [makeLoad_fst] at h
  obtain ⟨r, hr, hs, rfl, hall, hlen⟩ := mem_loadAll hc h
  have hne := insOf_ne hr hs
  simp only
  rw [growTree_count, insOf_count, paths_growTree hne]
  refine ⟨?_, growPaths_nodup⟩
  have hp : (uniq ((insOf ((accepted (urlsOf env loadUrl lines)).filter
      (fun x => decide (x.sid env.md5 = sid)))).map Ins.keys)).Perm
      ((growPaths r.m.depth (insOf ((accepted (urlsOf env loadUrl lines)).filter
        (fun x => decide (x.sid env.md5 = sid))))).map (fun p => p.map (·.1))) := by
    rw [List.perm_ext_iff_of_nodup (nodup_uniq _) growPaths_nodup]
    intro ks
    rw [mem_uniq, growPaths_keys hlen hne]
  have := hp.length_eq
  rw [List.length_map, insOf_keys] at this
  rw [this]

/-- An environment for the examples: ASCII, no hashing. -/
def asciiEnv : Env where
  md5 := id
  decode := fun b => if b.all (fun x => decide (x.toNat < 128)) then some (b.map (fun x => Char.ofNat x.toNat)) else none
  encode := fun s => s.map (fun c => UInt8.ofNat c.toNat)
  rt := inserted fun s => s.foldl (fun a c => a * 1114112 + c.toNat + 1) 0

/-- A text as a line of bytes. -/
def lineB (s : Str) : Bytes := s.map (fun c => UInt8.ofNat c.toNat) ++ [10]

/-- Two equal URLs, another one, a blank line, one that is not ASCII, a pattern string, an unknown
character. -/
example : (makeLoad asciiEnv true [lineB c!"http://h/a", lineB c!"  ", lineB c!" http://x/a ", lineB c!"http://h/b",
      [200, 10], lineB c!"/a", lineB c!"http://h/a b"]).2 =
    { all := 7, empty := 1, uniq := 2, valid := 3, invalid := 3 } := by decide +kernel

end OsUrl
