import Verif.Proofs.Load2

/-! # C40: `dump_tree` enumerates the tree that `build_tree` built -/

namespace OsUrl
open Spec

/-- A sequence of `build_from_parsed_pieces(root, pieces, count, uniq=False)` calls (which is
`build_tree` with the pieces as keys) on a fresh root. -/
def buildAll : List (List ParsedPiece × Int) → Tree NodeData → Py (Tree NodeData)
  | [], t => .ok t
  | (pps, c) :: rest, t => do
    let (t, _) ← buildFromParsedPieces t pps c none false
    buildAll rest t

theorem buildAll_grow (n : Nat) (calls : List (List ParsedPiece × Int)) (hc : ∀ x ∈ calls, x.1.length = n + 1)
    (L : List Ins) (hL : ∀ i ∈ L, i.path.length = n + 1) :
    buildAll calls (growTree (n + 1) L) =
      .ok (growTree (n + 1) (L ++ calls.map (fun x => ⟨x.1.map (fun pp => (pp, none)), x.2, []⟩))) := by
  induction calls generalizing L with
  | nil => simp [buildAll]
  | cons x calls ih =>
    obtain ⟨pps, c⟩ := x
    have hx : pps.length = n + 1 := hc (pps, c) (by simp)
    have hb := growTree_concat hL (i := ⟨pps.map (fun pp => (pp, none)), c, []⟩) (by simp [hx])
    have e : buildFromParsedPieces (growTree (n + 1) L) pps c none false =
        .ok (growTree (n + 1) (L ++ [⟨pps.map (fun pp => (pp, none)), c, []⟩]),
          isNewPath (pps.map (·.piece)) (growTree (n + 1) L).kids) := by
      unfold buildFromParsedPieces
      cases hp : pps with
      | nil => simp [hp] at hx
      | cons pp rest =>
        simp only [← hp, addMeta_updateMeta]
        rw [← hb]
        simp
    simp only [buildAll, e, bind, Except.bind]
    rw [ih (fun y hy => hc y (by simp [hy])) _ (by
      intro i hi
      rw [List.mem_append, List.mem_singleton] at hi
      rcases hi with hi | rfl
      · exact hL i hi
      · simp [hx])]
    simp

/-- **C40**: the calls succeed; `dump_tree` yields the distinct key paths, grouped by shared prefixes in
order of first insertion. -/
theorem C40_paths (n : Nat) (calls : List (List ParsedPiece × Int)) (hne : calls ≠ [])
    (hc : ∀ x ∈ calls, x.1.length = n + 1) :
    ∃ t, buildAll calls emptyTree = .ok t ∧
      t.paths.map (fun p => p.map (·.1)) = grouped (n + 1) (calls.map (fun x => x.1.map (·.piece))) := by
  have h := buildAll_grow n calls hc [] (by simp)
  refine ⟨_, h, ?_⟩
  rw [List.nil_append, paths_growTree (by simpa using hne), growPaths_grouped]
  · congr 1
    rw [List.map_map]
    apply List.map_congr_left
    intro x _
    simp [Ins.keys]
  · intro i hi
    obtain ⟨x, hx, rfl⟩ := List.mem_map.mp hi
    simp [hc x hx]
  · simpa using hne

/-- **C40**: each distinct key path is yielded exactly once, and nothing else. -/
theorem C40_once (n : Nat) (calls : List (List ParsedPiece × Int)) (hne : calls ≠ [])
    (hc : ∀ x ∈ calls, x.1.length = n + 1) :
    ∃ t, buildAll calls emptyTree = .ok t ∧ (t.paths.map (fun p => p.map (·.1))).Nodup ∧
      ∀ ks, ks ∈ t.paths.map (fun p => p.map (·.1)) ↔ ∃ x ∈ calls, x.1.map (·.piece) = ks := by
  have h := buildAll_grow n calls hc [] (by simp)
  refine ⟨_, h, ?_⟩
  rw [List.nil_append, paths_growTree (by simpa using hne)]
  refine ⟨growPaths_nodup, fun ks => ?_⟩
  rw [growPaths_keys]
  · simp [Ins.keys, List.mem_map, Function.comp_def]
  · intro i hi
    obtain ⟨x, hx, rfl⟩ := List.mem_map.mp hi
    simp [hc x hx]
  · simpa using hne

/-- **C40**: the count of every node is the sum of the counts added through it; the node at depth `j`
carries the piece it was created for. -/
theorem C40_counts (n : Nat) (calls : List (List ParsedPiece × Int)) (hne : calls ≠ [])
    (hc : ∀ x ∈ calls, x.1.length = n + 1) :
    ∃ t, buildAll calls emptyTree = .ok t ∧ t.root.count = (calls.map (·.2)).sum ∧
      ∀ p ∈ t.paths, p.length = n + 1 ∧ ∀ j k d, p[j]? = some (k, d) →
        d.count = ((calls.filter (fun x =>
          decide ((x.1.map (·.piece)).take (j + 1) = (p.map (·.1)).take (j + 1)))).map (·.2)).sum ∧
        d.pp.piece = k := by
  have h := buildAll_grow n calls hc [] (by simp)
  have hL : ∀ i ∈ calls.map (fun x => (⟨x.1.map (fun pp => (pp, none)), x.2, []⟩ : Ins)), i.path.length = n + 1 := by
    intro i hi
    obtain ⟨x, hx, rfl⟩ := List.mem_map.mp hi
    simp [hc x hx]
  have hne' : calls.map (fun x => (⟨x.1.map (fun pp => (pp, none)), x.2, []⟩ : Ins)) ≠ [] := by simpa using hne
  refine ⟨_, h, ?_, ?_⟩
  · rw [List.nil_append, growTree_count, List.map_map]; rfl
  · rw [List.nil_append, paths_growTree hne']
    intro p hp
    refine ⟨growPaths_length p hp, fun j k d hj => ?_⟩
    have hd := growPaths_data hL hp hj
    rw [List.filter_map] at hd
    have e : calls.filter ((fun i : Ins => decide (i.keys.take (j + 1) = (p.map (·.1)).take (j + 1))) ∘
        fun x => (⟨x.1.map (fun pp => (pp, none)), x.2, []⟩ : Ins)) =
        calls.filter (fun x => decide ((x.1.map (·.piece)).take (j + 1) = (p.map (·.1)).take (j + 1))) := by
      apply List.filter_congr
      intro x _
      simp [Ins.keys, Function.comp_def]
    rw [e] at hd
    constructor
    · rw [hd, headData_count, List.map_map, List.map_map]; rfl
    · have hks := (growPaths_keys hL hne' (p.map (·.1))).mp (List.mem_map_of_mem hp)
      obtain ⟨i, hi, ei⟩ := List.mem_map.mp hks
      obtain ⟨x, hx, rfl⟩ := List.mem_map.mp hi
      have hjl : j < p.length := by
        rw [List.getElem?_eq_some_iff] at hj; exact hj.1
      have hxk : x.1.map (·.piece) = p.map (·.1) := by rw [← ei]; simp [Ins.keys]
      have hmem : x ∈ calls.filter (fun x => decide ((x.1.map (·.piece)).take (j + 1) = (p.map (·.1)).take (j + 1))) := by
        rw [List.mem_filter, hxk]; simp [hx]
      generalize hG : calls.filter (fun x => decide ((x.1.map (·.piece)).take (j + 1) = (p.map (·.1)).take (j + 1))) = G at *
      cases G with
      | nil => simp at hmem
      | cons y G =>
        have hy : y ∈ calls ∧ (y.1.map (·.piece)).take (j + 1) = (p.map (·.1)).take (j + 1) := by
          have : y ∈ calls.filter (fun x => decide ((x.1.map (·.piece)).take (j + 1) = (p.map (·.1)).take (j + 1))) := by
            rw [hG]; simp
          simpa [List.mem_filter] using this
        rw [hd, List.map_cons, List.map_cons, headData_pp, newHead_piece]
        · have h1 : (y.1.map (·.piece))[j]? = some k := by
            have : ((y.1.map (·.piece)).take (j + 1))[j]? = ((p.map (·.1)).take (j + 1))[j]? := by rw [hy.2]
            rw [List.getElem?_take_of_lt (by omega), List.getElem?_take_of_lt (by omega)] at this
            rw [this, List.getElem?_map, hj]; rfl
          rw [List.getElem?_map] at h1
          obtain ⟨pp, hpp, e1⟩ := Option.map_eq_some_iff.mp h1
          have hdr : y.1.drop j = pp :: y.1.drop (j + 1) := by
            rw [List.getElem?_eq_some_iff] at hpp
            obtain ⟨hl, e2⟩ := hpp
            rw [List.drop_eq_getElem_cons hl, e2]
          simp only [Ins.key, Ins.drop, ← List.map_drop, hdr, List.map_cons]
          exact e1
        · have := hc y hy.1
          have hp' := growPaths_length p hp
          simp only [Ins.drop, ne_eq, List.drop_eq_nil_iff, List.length_map]
          omega

/-- Three paths, two of them equal, the last one sharing its first key with the first: it is enumerated
right after it. -/
example : let pp := fun s : Str => (⟨[s], [c!"a-z"]⟩ : ParsedPiece)
    (buildAll [([pp c!"a", pp c!"x"], 2), ([pp c!"b", pp c!"y"], 3), ([pp c!"a", pp c!"z"], 5),
      ([pp c!"b", pp c!"y"], 7)] emptyTree).map (fun t => (t.root.count, t.paths.map (fun p => p.map
        (fun kn => (kn.1, kn.2.count))))) =
    .ok (17, [[(c!"a", 7), (c!"x", 2)], [(c!"a", 7), (c!"z", 5)], [(c!"b", 10), (c!"y", 10)]]) := by decide +kernel
example : grouped 2 [[c!"a", c!"x"], [c!"b", c!"y"], [c!"a", c!"z"], [c!"b", c!"y"]] =
    [[c!"a", c!"x"], [c!"a", c!"z"], [c!"b", c!"y"]] := by decide +kernel

end OsUrl
