import Verif.Proofs.Make2

/-! The combined tree of a maker as an image of a grown tree. -/

namespace OsUrl

/-- Change the data of all nodes. -/
def Forest.mapD {α β : Type} (φ : α → β) : Forest α → Forest β
  | .nil => .nil
  | .cons k a kids sibs => .cons k (φ a) (Forest.mapD φ kids) (Forest.mapD φ sibs)

/-- Change the data of all nodes of a tree. -/
def Tree.mapD {α β : Type} (φ : α → β) (t : Tree α) : Tree β := ⟨φ t.root, t.kids.mapD φ⟩

theorem paths_mapD {α β : Type} (φ : α → β) : (f : Forest α) → (f.mapD φ).paths = f.paths.map (fun p => p.map (fun kn => (kn.1, φ kn.2)))
  | .nil => rfl
  | .cons k d .nil sibs => by
    simp only [Forest.mapD, Forest.paths, paths_mapD φ sibs, List.map_append, List.map_cons, List.map_nil]
  | .cons k d (.cons k' d' kids' sibs') sibs => by
    have h1 := paths_mapD φ (.cons k' d' kids' sibs')
    have h2 := paths_mapD φ sibs
    have e : (Forest.mapD φ (.cons k d (.cons k' d' kids' sibs') sibs)).paths =
      ((Forest.mapD φ (.cons k' d' kids' sibs')).paths).map ((k, φ d) :: ·) ++ (Forest.mapD φ sibs).paths := by
      simp only [Forest.mapD, Forest.paths]
    have e2 : (Forest.cons k d (.cons k' d' kids' sibs') sibs).paths = ((Forest.cons k' d' kids' sibs').paths).map ((k, d) :: ·) ++ sibs.paths := rfl
    rw [e, e2, h1, h2, List.map_append, List.map_map, List.map_map]
    rfl

theorem treePaths_mapD {α β : Type} (φ : α → β) (t : Tree α) : (t.mapD φ).paths = t.paths.map (fun p => p.map (fun kn => (kn.1, φ kn.2))) := by
  obtain ⟨d, f⟩ := t
  cases f with
  | nil => rfl
  | cons k d kids sibs => exact paths_mapD φ (.cons k d kids sibs)

theorem upsert_mapD {α β : Type} {φ : α → β} {k : Str} {init : α} {g : α → Forest α → α × Forest α} {g' : β → Forest β → β × Forest β}
    (hg : ∀ d f, g' (φ d) (f.mapD φ) = (φ (g d f).1, (g d f).2.mapD φ)) :
    (f : Forest α) → (f.mapD φ).upsert k (φ init) g' = (f.upsert k init g).mapD φ
  | .nil => by
    have := hg init .nil
    have h1 := congrArg Prod.fst this
    have h2 := congrArg Prod.snd this
    simp only [Forest.mapD] at h1 h2
    simp only [Forest.upsert, Forest.mapD, h1, h2]
  | .cons k' d kids sibs => by
    simp only [Forest.upsert, Forest.mapD]
    split
    · rw [hg d kids]; rfl
    · rw [Forest.mapD, upsert_mapD hg sibs]

/-- The combined node of a node. -/
def NodeData.comb (d : NodeData) : CNode := ⟨d.pp.piece, d.count⟩

/-- The insertion of a cluster: the patterns of its first path, with its count. -/
def combIns (c : Tree NodeData) : Ins := ⟨(c.paths.headD []).map (fun kn => (⟨[kn.2.pattern], []⟩, none)), c.root.count, []⟩

theorem cbuild_comb (count : Int) (ps : List Str) (d : NodeData) (f : Forest NodeData) :
    cbuild count ps d.comb (f.mapD NodeData.comb) =
      ((buildPath count (fun d => d.updateMeta (some [])) (ps.map (fun p => (⟨[p], []⟩, none))) d f).1.comb,
       (buildPath count (fun d => d.updateMeta (some [])) (ps.map (fun p => (⟨[p], []⟩, none))) d f).2.mapD NodeData.comb) := by
  induction ps generalizing d f with
  | nil => rfl
  | cons p ps ih =>
    simp only [cbuild, List.map_cons, buildPath]
    have hp : (⟨[p], []⟩ : ParsedPiece).piece = p := by simp [ParsedPiece.piece]
    have := upsert_mapD (φ := NodeData.comb) (k := p) (init := newNode ⟨[p], []⟩ none) ih f
    rw [hp, ← this]
    have e : (newNode ⟨[p], []⟩ none).comb = ⟨p, 0⟩ := by simp [NodeData.comb, newNode, hp]
    rw [e]
    rfl

theorem combine_grow {n : Nat} (cs : List (Tree NodeData)) : ∀ (L : List Ins), (∀ i ∈ L, i.path.length = n) →
    (∀ c ∈ cs, ∃ p rest, c.paths = p :: rest ∧ p.length = n) →
    combineLoop cs ((growTree n L).mapD NodeData.comb) = .ok ((growTree n (L ++ cs.map combIns)).mapD NodeData.comb) := by
  induction cs with
  | nil => intro L _ _; simp [combineLoop]
  | cons c cs ih =>
    intro L hL hcs
    obtain ⟨p, rest, hp, hpl⟩ := hcs c (by simp)
    have hi : combIns c = ⟨(p.map (fun kn => kn.2.pattern)).map (fun q => (⟨[q], []⟩, none)), c.root.count, []⟩ := by
      simp [combIns, hp, Function.comp_def]
    have hlen : (combIns c).path.length = n := by rw [hi]; simp [hpl]
    have h1 := growTree_concat hL hlen
    have h2 := cbuild_comb c.root.count (p.map (fun kn => kn.2.pattern)) (growTree n L).root (growTree n L).kids
    rw [combineLoop, hp]
    simp only [Tree.mapD] at h2 ⊢
    rw [h2]
    rw [hi] at h1
    have h3 := ih (L ++ [combIns c]) (by
      intro i hi
      simp only [List.mem_append, List.mem_singleton] at hi
      rcases hi with hi | rfl
      · exact hL i hi
      · exact hlen) (fun c hc => hcs c (by simp [hc]))
    rw [List.append_assoc] at h3
    rw [List.map_cons]
    rw [show L ++ combIns c :: cs.map combIns = L ++ ([combIns c] ++ cs.map combIns) from rfl]
    rw [hi, ← h1] at h3
    rw [hi]
    exact h3

theorem children_mapD {α β : Type} (φ : α → β) : (f : Forest α) → (f.mapD φ).children = f.children.map (fun x => (x.1, φ x.2.1, x.2.2.mapD φ))
  | .nil => rfl
  | .cons k d kids sibs => by simp only [Forest.mapD, Forest.children, List.map_cons, children_mapD φ sibs]

/-- The counts of the children add up. -/
theorem grow_children_sum (n : Nat) (L : List Ins) : ((grow (n + 1) L).children.map (fun x => x.2.1.count)).sum = total L := by
  rw [grow, Forest.children_ofList, List.map_map, groupBy_eq, List.map_map]
  have hp := perm_partition Ins.key L (uniq (L.map Ins.key)) (nodup_uniq _) (fun x hx => mem_uniq.mpr (List.mem_map_of_mem hx))
  rw [← total_perm hp]
  generalize uniq (L.map Ins.key) = ks
  induction ks with
  | nil => rfl
  | cons k ks ih =>
    rw [List.map_cons, List.sum_cons, ih, List.flatMap_cons, total_append]
    congr 1
    exact headData_count _

end OsUrl
