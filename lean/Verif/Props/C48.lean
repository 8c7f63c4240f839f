import Verif.Proofs.OneSpace
import Verif.Props.C33

/-! # C48: the ETE tree shows the printed patterns -/

namespace OsUrl
open Spec

/-- The names from below the root to each leaf. -/
def Ete.paths : Ete → List (List Str)
  | .nil => []
  | .cons n kids sibs => (match kids with
    | .nil => [[n]]
    | .cons .. => kids.paths.map (n :: ·)) ++ sibs.paths

theorem ete_paths (m : URLMeta) : (f : Forest CNode) → (level : Nat) →
    (eteAdd m level f).paths = f.paths.map (fun p => (p.zipIdx level).map (fun x => eteLabel m x.2 x.1.2))
  | .nil, _ => rfl
  | .cons k d .nil sibs, level => by
    simp only [eteAdd, Ete.paths, Forest.paths, List.map_append, ete_paths m sibs level]
    rfl
  | .cons k d (.cons k' d' kids' sibs') sibs, level => by
    have h1 := ete_paths m (.cons k' d' kids' sibs') (level + 1)
    have h2 := ete_paths m sibs level
    have e : (eteAdd m level (.cons k d (.cons k' d' kids' sibs') sibs)).paths =
        (eteAdd m (level + 1) (.cons k' d' kids' sibs')).paths.map (eteLabel m level d :: ·) ++ (eteAdd m level sibs).paths := rfl
    have e' : (Forest.cons k d (.cons k' d' kids' sibs') sibs).paths =
        (Forest.cons k' d' kids' sibs').paths.map ((k, d) :: ·) ++ sibs.paths := rfl
    rw [e, e', h1, h2, List.map_append, List.map_map, List.map_map]
    rfl

/-- How a name is written: the part of the URL pattern and a count. -/
def eteName (part : Str) (n : Nat) : Str := ' ' :: part ++ '(' :: decimal n ++ c!") "

/-- The parts of a path put together. -/
def spelled (pathDepth : Nat) (parts : List Str) : Str := '/' :: join ['/'] (parts.take pathDepth) ++ (parts.drop pathDepth).flatten

/-- What a label shows besides the count. -/
def etePart (m : URLMeta) (level : Nat) (pat : Str) : Str :=
  (if m.pathDepth < level ∧ level ≤ m.pathDepth + m.queryKeys.length then
      (if level = m.pathDepth + 1 then singleQuestion else ['&']) ++ m.queryKeys.getD (level - m.pathDepth - 1) []
    else if level = m.pathDepth + m.queryKeys.length + 1 then ['#'] else []) ++ pat

theorem eteLabel_eq (m : URLMeta) (level : Nat) (d : CNode) :
    eteLabel m level d = ' ' :: etePart m level d.pat ++ '(' :: intStr d.count ++ c!") " := by
  unfold eteLabel etePart
  simp only
  by_cases h1 : m.pathDepth < level ∧ level ≤ m.pathDepth + m.queryKeys.length
  · rw [if_pos h1, if_pos h1]; simp
  · rw [if_neg h1, if_neg h1]
    by_cases h2 : level = m.pathDepth + m.queryKeys.length + 1
    · rw [if_pos h2, if_pos h2]; simp
    · rw [if_neg h2, if_neg h2]; simp

theorem join_amp (x : Str) (l : List Str) : x ++ (l.map (fun y => '&' :: y)).flatten = join ['&'] (x :: l) := by
  induction l generalizing x with
  | nil => simp [join]
  | cons y l ih =>
    rw [join, ← ih]
    simp

theorem zipIdx_amp (l : List Str) (k : Nat) :
    ((l.zipIdx (k + 1)).map (fun x => (if x.2 = 0 then singleQuestion else ['&']) ++ x.1)).flatten = (l.map (fun y => '&' :: y)).flatten := by
  induction l generalizing k with
  | nil => rfl
  | cons y l ih =>
    rw [List.zipIdx_cons, List.map_cons, List.flatten_cons, ih, List.map_cons, List.flatten_cons]
    rw [if_neg (by omega)]
    rfl

/-- The parts spell the packed pattern. -/
theorem spelled_pack {m : URLMeta} {pats : List Str} (h : pats.length = m.depth) :
    spelled m.pathDepth ((pats.zipIdx 1).map (fun x => etePart m x.2 x.1)) = pack m pats := by
  have hd : m.depth = m.pathDepth + m.queryKeys.length + (if m.hasFragment then 1 else 0) := rfl
  have e1 : ((pats.zipIdx 1).map (fun x => etePart m x.2 x.1)).take m.pathDepth = pats.take m.pathDepth := by
    apply List.ext_getElem?
    intro i
    rw [List.getElem?_take, List.getElem?_take]
    by_cases hi : i < m.pathDepth
    · rw [if_pos hi, if_pos hi, List.getElem?_map, List.getElem?_zipIdx]
      cases pats[i]? with
      | none => rfl
      | some p =>
        simp only [Option.map_some, etePart]
        rw [if_neg (by omega), if_neg (by omega)]
        rfl
    · rw [if_neg hi, if_neg hi]
  have e2 : ((pats.zipIdx 1).map (fun x => etePart m x.2 x.1)).drop m.pathDepth =
      (((m.queryKeys.zip ((pats.take (m.pathDepth + m.queryKeys.length)).drop m.pathDepth)).map (fun kv => kv.1 ++ kv.2)).zipIdx 0).map
        (fun x => (if x.2 = 0 then singleQuestion else ['&']) ++ x.1) ++ (pats.drop (m.pathDepth + m.queryKeys.length)).map ('#' :: ·) := by
    have hl : (m.queryKeys.zip ((pats.take (m.pathDepth + m.queryKeys.length)).drop m.pathDepth)).length = m.queryKeys.length := by
      rw [List.length_zip, List.length_drop, List.length_take]
      split at hd <;> omega
    apply List.ext_getElem?
    intro i
    rw [List.getElem?_drop, List.getElem?_map, List.getElem?_zipIdx, List.getElem?_append]
    simp only [List.length_map, List.length_zipIdx, hl]
    by_cases hi : i < m.queryKeys.length
    · rw [if_pos hi, List.getElem?_map, List.getElem?_zipIdx, List.getElem?_map]
      have hi' : m.pathDepth + i < pats.length := by split at hd <;> omega
      have hp : pats[m.pathDepth + i]? = some (pats[m.pathDepth + i]'hi') := List.getElem?_eq_getElem _
      have hz : (m.queryKeys.zip ((pats.take (m.pathDepth + m.queryKeys.length)).drop m.pathDepth))[i]? =
          some (m.queryKeys[i], pats[m.pathDepth + i]'hi') := by
        rw [List.getElem?_zip_eq_some]
        refine ⟨List.getElem?_eq_getElem hi, ?_⟩
        rw [List.getElem?_drop, List.getElem?_take, if_pos (by omega)]
        exact hp
      rw [hz, hp]
      simp only [Option.map_some, etePart, Option.some.injEq]
      rw [if_pos (by omega)]
      have e : 1 + (m.pathDepth + i) - m.pathDepth - 1 = i := by omega
      rw [e]
      have e3 : m.queryKeys.getD i [] = m.queryKeys[i] := by simp [List.getD, List.getElem?_eq_getElem hi]
      rw [e3]
      by_cases h0 : i = 0
      · subst h0
        rw [if_pos (by omega), if_pos (by omega)]
        simp
      · rw [if_neg (by omega), if_neg (by omega)]
        simp
    · rw [if_neg hi, List.getElem?_map, List.getElem?_drop]
      have e : m.pathDepth + m.queryKeys.length + (i - m.queryKeys.length) = m.pathDepth + i := by omega
      rw [e]
      cases hp : pats[m.pathDepth + i]? with
      | none => rfl
      | some p =>
        have := (List.getElem?_eq_some_iff.mp hp).1
        simp only [Option.map_some, etePart, Option.some.injEq]
        rw [if_neg (by omega), if_pos (by split at hd <;> omega)]
        rfl
  unfold spelled pack
  rw [e1, e2]
  simp only [List.flatten_append]
  have e3 : (((((m.queryKeys.zip ((pats.take (m.pathDepth + m.queryKeys.length)).drop m.pathDepth)).map (fun kv => kv.1 ++ kv.2)).zipIdx 0).map
        (fun x => (if x.2 = 0 then singleQuestion else ['&']) ++ x.1)).flatten) =
      if m.queryKeys.length > 0 then singleQuestion ++ join ['&']
        ((m.queryKeys.zip ((pats.take (m.pathDepth + m.queryKeys.length)).drop m.pathDepth)).map (fun kv => kv.1 ++ kv.2)) else [] := by
    have hl : ((m.queryKeys.zip ((pats.take (m.pathDepth + m.queryKeys.length)).drop m.pathDepth)).map (fun kv => kv.1 ++ kv.2)).length = m.queryKeys.length := by
      rw [List.length_map, List.length_zip, List.length_drop, List.length_take]
      split at hd <;> omega
    cases hz : (m.queryKeys.zip ((pats.take (m.pathDepth + m.queryKeys.length)).drop m.pathDepth)).map (fun kv => kv.1 ++ kv.2) with
    | nil =>
      rw [hz] at hl
      rw [if_neg (by rw [← hl]; simp)]
      rfl
    | cons x l =>
      rw [hz] at hl
      rw [if_pos (by rw [← hl]; simp), List.zipIdx_cons, List.map_cons, List.flatten_cons, zipIdx_amp, if_pos rfl, List.append_assoc, join_amp]
  have e4 : ((pats.drop (m.pathDepth + m.queryKeys.length)).map ('#' :: ·)).flatten =
      if m.hasFragment then c!"#" ++ (pats.drop (m.pathDepth + m.queryKeys.length)).flatten else [] := by
    have hl : (pats.drop (m.pathDepth + m.queryKeys.length)).length = if m.hasFragment then 1 else 0 := by
      rw [List.length_drop]; omega
    cases hf : m.hasFragment with
    | false =>
      rw [hf] at hl
      rw [List.eq_nil_of_length_eq_zero hl]
      rfl
    | true =>
      rw [hf] at hl
      obtain ⟨x, e⟩ := List.length_eq_one_iff.mp hl
      rw [e]
      rfl
  rw [e3, e4]
  simp [List.append_assoc]

/-- The tree of names of a tree with parts as keys and counts as data. -/
def named : Forest Nat → Ete
  | .nil => .nil
  | .cons part n kids sibs => .cons (eteName part n) (named kids) (named sibs)

/-- The sum of the counts of the children. -/
def topSum : Forest Nat → Nat
  | .nil => 0
  | .cons _ n _ sibs => n + topSum sibs

/-- Everywhere the count of a node with children is the sum of their counts. -/
def Adds : Forest Nat → Prop
  | .nil => True
  | .cons _ n kids sibs => (kids ≠ .nil → n = topSum kids) ∧ Adds kids ∧ Adds sibs

/-- All nodes have a property. -/
def Every (P : Str → CNode → Prop) : Forest CNode → Prop
  | .nil => True
  | .cons k d kids sibs => P k d ∧ Every P kids ∧ Every P sibs

theorem paths_some {α : Type} : (f : Forest α) → f ≠ .nil → ∃ p, p ∈ f.paths
  | .nil, h => absurd rfl h
  | .cons k d .nil sibs, _ => ⟨[(k, d)], by simp [Forest.paths]⟩
  | .cons k d (.cons k' d' kids' sibs') sibs, _ => by
    obtain ⟨p, hp⟩ := paths_some (.cons k' d' kids' sibs') (by simp)
    exact ⟨(k, d) :: p, List.mem_append_left _ (List.mem_map_of_mem hp)⟩

theorem every_of_paths {P : Str → CNode → Prop} : (f : Forest CNode) → (∀ p ∈ f.paths, ∀ kn ∈ p, P kn.1 kn.2) → Every P f
  | .nil, _ => trivial
  | .cons k d .nil sibs, h =>
    ⟨h [(k, d)] (by simp [Forest.paths]) (k, d) (by simp), trivial, every_of_paths sibs (fun p hp => h p (by simp [Forest.paths, hp]))⟩
  | .cons k d (.cons k' d' kids' sibs') sibs, h => by
    have e' : (Forest.cons k d (.cons k' d' kids' sibs') sibs).paths =
        (Forest.cons k' d' kids' sibs').paths.map ((k, d) :: ·) ++ sibs.paths := rfl
    rw [e'] at h
    obtain ⟨p, hp⟩ := paths_some (.cons k' d' kids' sibs') (by simp)
    exact ⟨h ((k, d) :: p) (List.mem_append_left _ (List.mem_map_of_mem hp)) (k, d) (by simp),
      every_of_paths _ (fun q hq kn hkn => h ((k, d) :: q) (List.mem_append_left _ (List.mem_map_of_mem hq)) kn (by simp [hkn])),
      every_of_paths sibs (fun q hq => h q (List.mem_append_right _ hq))⟩

theorem childSum_cons (k : Str) (d : CNode) (kids sibs : Forest CNode) : childSum (.cons k d kids sibs) = d.count + childSum sibs := by
  simp [childSum, Forest.children]

/-- Counts are not negative when those of the leaves are not. -/
theorem counts_nonneg : (f : Forest CNode) → Summed f → (∀ p ∈ f.paths, ∀ k d, p.getLast? = some (k, d) → 0 ≤ d.count) →
    0 ≤ childSum f ∧ Every (fun _ d => 0 ≤ d.count) f
  | .nil, _, _ => ⟨by simp [childSum, Forest.children], trivial⟩
  | .cons k d .nil sibs, hs, hl => by
    obtain ⟨i1, i2⟩ := counts_nonneg sibs hs.2.2 (fun p hp => hl p (by simp [Forest.paths, hp]))
    have h0 : 0 ≤ d.count := hl [(k, d)] (by simp [Forest.paths]) k d rfl
    refine ⟨?_, h0, trivial, i2⟩
    rw [childSum_cons]
    omega
  | .cons k d (.cons k' d' kids' sibs') sibs, hs, hl => by
    have e' : (Forest.cons k d (.cons k' d' kids' sibs') sibs).paths =
        (Forest.cons k' d' kids' sibs').paths.map ((k, d) :: ·) ++ sibs.paths := rfl
    rw [e'] at hl
    obtain ⟨i1, i2⟩ := counts_nonneg sibs hs.2.2 (fun p hp => hl p (by simp [hp]))
    obtain ⟨j1, j2⟩ := counts_nonneg (.cons k' d' kids' sibs') hs.2.1 (by
      intro p hp k0 d0 hlast
      refine hl ((k, d) :: p) (List.mem_append_left _ (List.mem_map_of_mem hp)) k0 d0 ?_
      cases p with
      | nil => cases hlast
      | cons x p => rw [List.getLast?_cons_cons]; exact hlast)
    have h0 : d.count = childSum (.cons k' d' kids' sibs') := hs.1 (by simp)
    refine ⟨?_, by omega, j2, i2⟩
    rw [childSum_cons]
    omega

/-- The tree shown for a combined tree. -/
def shown (m : URLMeta) (level : Nat) : Forest CNode → Forest Nat
  | .nil => .nil
  | .cons _ d kids sibs => .cons (etePart m level d.pat) d.count.toNat (shown m (level + 1) kids) (shown m level sibs)

theorem intStr_decimal {n : Int} (h : 0 ≤ n) : intStr n = decimal n.toNat := by
  unfold intStr
  rw [if_neg (by omega), natStr_decimal]

theorem named_shown (m : URLMeta) : (f : Forest CNode) → (level : Nat) → Every (fun _ d => 0 ≤ d.count) f →
    eteAdd m level f = named (shown m level f)
  | .nil, _, _ => rfl
  | .cons k d kids sibs, level, h => by
    rw [eteAdd, shown, named, named_shown m kids _ h.2.1, named_shown m sibs _ h.2.2, eteLabel_eq, intStr_decimal h.1]
    rfl

theorem topSum_shown (m : URLMeta) : (f : Forest CNode) → (level : Nat) → Every (fun _ d => 0 ≤ d.count) f →
    (topSum (shown m level f) : Int) = childSum f
  | .nil, _, _ => rfl
  | .cons k d kids sibs, level, h => by
    rw [shown, topSum, childSum_cons, ← topSum_shown m sibs level h.2.2]
    have := h.1
    omega

theorem adds_shown (m : URLMeta) : (f : Forest CNode) → (level : Nat) → Every (fun _ d => 0 ≤ d.count) f → Summed f → Adds (shown m level f)
  | .nil, _, _, _ => trivial
  | .cons k d kids sibs, level, h, hs => by
    refine ⟨?_, adds_shown m kids _ h.2.1 hs.2.1, adds_shown m sibs _ h.2.2 hs.2.2⟩
    intro hne
    have h1 := hs.1 (by intro e; rw [e] at hne; exact hne rfl)
    have h2 := topSum_shown m kids (level + 1) h.2.1
    have := h.1
    omega

theorem children_shown (m : URLMeta) : (f : Forest CNode) → (level : Nat) →
    (shown m level f).children.map (·.1) = f.children.map (fun x => etePart m level x.2.1.pat)
  | .nil, _ => rfl
  | .cons k d kids sibs, level => by
    rw [shown, Forest.children, Forest.children, List.map_cons, List.map_cons, children_shown m sibs level]

theorem every_children {P : Str → CNode → Prop} : (f : Forest CNode) → Every P f → ∀ x ∈ f.children, P x.1 x.2.1
  | .nil, _ => by simp [Forest.children]
  | .cons k d kids sibs, h => by
    intro x hx
    rw [Forest.children] at hx
    rcases List.mem_cons.mp hx with rfl | hx
    · exact h.1
    · exact every_children sibs h.2.2 x hx

theorem sibs_shown (m : URLMeta) : (f : Forest CNode) → (level : Nat) → Every (fun k d => d.pat = k) f → SibsDiffer f → SibsDiffer (shown m level f)
  | .nil, _, _, _ => trivial
  | .cons k d kids sibs, level, h, hs => by
    refine ⟨?_, sibs_shown m kids _ h.2.1 hs.2.1, sibs_shown m sibs _ h.2.2 hs.2.2⟩
    rw [children_shown]
    intro hx
    obtain ⟨x, hx, e⟩ := List.mem_map.mp hx
    apply hs.1
    have e1 := every_children sibs h.2.2 x hx
    have e2 := h.1
    unfold etePart at e
    have e := List.append_cancel_left e
    rw [← e2, ← e, e1]
    exact List.mem_map_of_mem hx

theorem paths_shown (m : URLMeta) : (f : Forest CNode) → (level : Nat) →
    (shown m level f).paths = f.paths.map (fun p => (p.zipIdx level).map (fun x => (etePart m x.2 x.1.2.pat, x.1.2.count.toNat)))
  | .nil, _ => rfl
  | .cons k d .nil sibs, level => by
    simp only [shown, Forest.paths, List.map_append, paths_shown m sibs level]
    rfl
  | .cons k d (.cons k' d' kids' sibs') sibs, level => by
    have h1 := paths_shown m (.cons k' d' kids' sibs') (level + 1)
    have h2 := paths_shown m sibs level
    have e : (shown m level (.cons k d (.cons k' d' kids' sibs') sibs)).paths =
        (shown m (level + 1) (.cons k' d' kids' sibs')).paths.map ((etePart m level d.pat, d.count.toNat) :: ·) ++ (shown m level sibs).paths := rfl
    have e' : (Forest.cons k d (.cons k' d' kids' sibs') sibs).paths =
        (Forest.cons k' d' kids' sibs').paths.map ((k, d) :: ·) ++ sibs.paths := rfl
    rw [e, e', h1, h2, List.map_append, List.map_map, List.map_map]
    rfl

theorem filter_sum {α β : Type} (f : α → List β) (p : β → Bool) (q : α → Bool) (l : List α) (h : ∀ a ∈ l, ∀ b ∈ f a, p b = q a) :
    ((l.flatMap f).filter p).length = ((l.filter q).map (fun a => (f a).length)).sum := by
  induction l with
  | nil => rfl
  | cons a l ih =>
    rw [List.flatMap_cons, List.filter_append, List.length_append, ih (fun a ha => h a (by simp [ha]))]
    cases hq : q a with
    | true =>
      rw [List.filter_eq_self.mpr (fun b hb => (h a (by simp) b hb).trans hq), List.filter_cons_of_pos hq]
      simp
    | false =>
      rw [List.filter_eq_nil_iff.mpr (fun b hb => by rw [h a (by simp) b hb, hq]; simp), List.filter_cons_of_neg (by simp [hq])]
      simp

theorem tree_paths_pos {α : Type} (t : Tree α) : 0 < t.paths.length := by
  unfold Tree.paths
  cases hk : t.kids with
  | nil => simp
  | cons k d kids sibs =>
    obtain ⟨p, hp⟩ := paths_some (Forest.cons k d kids sibs) (by simp)
    exact List.length_pos_of_mem hp

theorem nodup_map_on {α β : Type} {f : α → β} {l : List α} (hf : ∀ a ∈ l, ∀ b ∈ l, f a = f b → a = b) (h : l.Nodup) : (l.map f).Nodup := by
  induction l with
  | nil => simp
  | cons a l ih =>
    rw [List.nodup_cons] at h
    rw [List.map_cons, List.nodup_cons]
    refine ⟨?_, ih (fun a ha b hb => hf a (by simp [ha]) b (by simp [hb])) h.2⟩
    intro hx
    obtain ⟨b, hb, e⟩ := List.mem_map.mp hx
    have := hf b (by simp [hb]) a (by simp) e
    rw [← this] at h
    exact h.1 hb

/-- What the drawn tree `E` below the name `root` shows of the clusters `cs` of the structure `m`. -/
structure EteShows (m : URLMeta) (cs : List (Tree NodeData)) (total : Nat) (root : Str) (E : Ete) : Prop where
  /-- The root shows how many paths were loaded. -/
  root : root = eteName [] total
  tree : ∃ N : Forest Nat, E = named N ∧
    -- counts add up, from the root to the leaves
    total = topSum N ∧ Adds N ∧
    -- the children of a node show different parts
    SibsDiffer N ∧
    (∀ p ∈ N.paths, p.length = m.depth) ∧
    -- the parts on the way to a leaf spell a printed pattern, each printed pattern once
    (N.paths.map (fun p => spelled m.pathDepth (p.map (·.1)))).Nodup ∧
    (∀ line, (∃ p ∈ N.paths, spelled m.pathDepth (p.map (·.1)) = line) ↔ ∃ c ∈ cs, formatPattern m c = [line]) ∧
    -- the leaf shows how many paths the clusters with this pattern have
    ∀ p ∈ N.paths, ∃ part, p.getLast? = some (part,
      ((cs.filter (fun c => decide (formatPattern m c = [spelled m.pathDepth (p.map (·.1))]))).map (fun c => c.paths.length)).sum)

theorem format_of {M : Made} {C : List Ins} {t : Tree NodeData} (hC : ClusterOK h mcn hist M C t) {p : List (Str × NodeData)} (hp : p ∈ t.paths) :
    formatPattern M.m t = [pack M.m (p.map (fun kn => kn.2.pattern))] := by
  unfold formatPattern
  cases hq : t.paths with
  | nil => rw [hq] at hp; cases hp
  | cons q qs =>
    have e : pathPatterns p = pathPatterns q := path_uniform hC hp (show q ∈ t.paths by rw [hq]; simp)
    simp only
    rw [← e]
    rfl

/-- **C48**: for every sub-maker the ETE formatter draws a tree that shows exactly the printed patterns of its clusters. -/
theorem C48_ete (md5 : Str → Str) (h : Runtime) (mcn : Int) (hm : 2 ≤ mcn) (hist : List (Str × Option Str))
    (hc : NoCollision md5 (accepted hist)) (hh : NoHashClash h (UrlRow hist)) :
    ∃ Ts, (loadAll md5 hist).makeCombined h mcn = .ok Ts ∧ Ts.length = (loadAll md5 hist).length ∧
      ∀ (i : Nat) (kv : Str × MakerSt) (T : URLMeta × Tree CNode), (loadAll md5 hist)[i]? = some kv → Ts[i]? = some T →
        T.1 = kv.2.urlMeta ∧ ∃ cs root E, kv.2.make h mcn = .ok cs ∧ formatEte T.1 T.2 = some (root, E) ∧
          EteShows T.1 cs kv.2.tree.paths.length root E := by
  obtain ⟨Ts, h1, h2, h3⟩ := C33_combined md5 h mcn hm hist hc hh
  refine ⟨Ts, h1, h2, ?_⟩
  intro i kv T hkv hT
  have K := h3 i kv T hkv hT
  refine ⟨K.mt, ?_⟩
  obtain ⟨cs, hcs, hks, hleaf⟩ := K.leaves
  -- the clusters
  have hkv' := List.mem_of_getElem? hkv
  rw [loadAll_eq md5 hist hc] at hkv'
  obtain ⟨⟨k, g⟩, hkg, rfl⟩ := List.mem_map.mp hkv'
  have hne := groupBy_ne_nil hkg
  obtain ⟨-, hgf⟩ := mem_groupBy hkg
  have hg : ∀ r ∈ g, r ∈ accepted hist := fun r hr => by rw [hgf] at hr; exact (List.mem_filter.mp hr).1
  have hsid : ∀ r ∈ g, r.sid md5 = k := fun r hr => by
    rw [hgf] at hr; exact of_decide_eq_true (List.mem_filter.mp hr).2
  obtain ⟨r, g', rfl⟩ := List.exists_cons_of_ne_nil hne
  have hall : ∀ r' ∈ r :: g', r'.m = r.m ∧ r'.rules = r.rules := fun r' hr' =>
    (sid_eq_iff hc (hg r' hr') (hg r (by simp))).mp ((hsid r' hr').trans (hsid r (by simp)).symm)
  obtain ⟨Cs, ⟨g1, g2⟩, -⟩ := make_group hm hh hne hg hall
  have hM : MadeOK h mcn hist ⟨r :: g', r.m, Cs⟩ := ⟨hne, hg, ⟨_, hall⟩, g2⟩
  have hcs' : cs = Cs.map (doneTree r.m.depth) := by
    have := hcs.symm.trans g1
    injection this
  have hcl : ∀ c ∈ cs, ∃ C, ClusterOK h mcn hist ⟨r :: g', r.m, Cs⟩ C c := by
    intro c hc
    rw [hcs'] at hc
    obtain ⟨C, hC, rfl⟩ := List.mem_map.mp hc
    exact ⟨C, clusterOK hM hC⟩
  have hmt : T.1 = r.m := K.mt
  have hpk : ∀ c ∈ cs, ∀ q ∈ c.paths, q.length = r.m.depth ∧ formatPattern r.m c = [pack r.m (q.map (fun kn => kn.2.pattern))] ∧
      analyzeUrlPatternString (pack r.m (q.map (fun kn => kn.2.pattern))) = .ok (r.m, q.map (fun kn => kn.2.pattern)) := by
    intro c hc q hq
    obtain ⟨C, hC⟩ := hcl c hc
    exact ⟨path_length hC hq, format_of hC hq, read_printed hm hh hM hC hq⟩
  have hone : ∀ c ∈ cs, ∃ q, q ∈ c.paths := by
    intro c hc
    obtain ⟨C, hC⟩ := hcl c hc
    obtain ⟨x, hx⟩ := List.exists_mem_of_ne_nil _ hC.final.ne
    obtain ⟨p, hp, -⟩ := path_of_row hC hx
    exact ⟨p, hp⟩
  -- counts
  have hlen : 0 < (makerOf (r :: g')).tree.paths.length := tree_paths_pos _
  have hkids : T.2.kids ≠ .nil := by
    intro e
    have h4 := K.top
    rw [e] at h4
    have h5 := K.root
    have : childSum .nil = 0 := rfl
    simp only at h5
    omega
  have hTp : T.2.paths = T.2.kids.paths := by
    unfold Tree.paths
    cases hk : T.2.kids with
    | nil => exact absurd hk hkids
    | cons => rfl
  rw [hTp] at hks hleaf
  have honce := K.once
  have hnames := K.names
  rw [hTp] at honce hnames
  have hpos : ∀ p ∈ T.2.kids.paths, ∀ k d, p.getLast? = some (k, d) → 0 ≤ d.count := by
    intro p hp k d e
    obtain ⟨k', d', e1, e2⟩ := hleaf p hp
    rw [e1] at e
    injection e with e
    injection e with _ e
    rw [← e, e2]
    omega
  obtain ⟨n1, n2⟩ := counts_nonneg T.2.kids K.sums hpos
  have hroot := K.root
  have htop := K.top
  -- a path of the combined tree
  have hpath : ∀ p ∈ T.2.kids.paths, ∃ c ∈ cs, ∃ q ∈ c.paths, q.map (fun kn => kn.2.pattern) = p.map (·.1) := by
    intro p hp
    obtain ⟨q, hq, e⟩ := (hks _).mp (List.mem_map_of_mem (f := fun p => p.map (·.1)) hp)
    obtain ⟨c, hc, hq⟩ := List.mem_flatMap.mp hq
    exact ⟨c, hc, q, hq, e⟩
  have hpl : ∀ p ∈ T.2.kids.paths, (p.map (·.1)).length = r.m.depth := by
    intro p hp
    obtain ⟨c, hc, q, hq, e⟩ := hpath p hp
    rw [← e, List.length_map, (hpk c hc q hq).1]
  have hread : ∀ p ∈ T.2.kids.paths, analyzeUrlPatternString (pack r.m (p.map (·.1))) = .ok (r.m, p.map (·.1)) := by
    intro p hp
    obtain ⟨c, hc, q, hq, e⟩ := hpath p hp
    rw [← e]
    exact (hpk c hc q hq).2.2
  have hsp : ∀ p ∈ T.2.kids.paths, spelled r.m.pathDepth (((p.zipIdx 1).map (fun x => (etePart r.m x.2 x.1.2.pat, x.1.2.count.toNat))).map (·.1)) =
      pack r.m (p.map (·.1)) := by
    intro p hp
    rw [← spelled_pack (hpl p hp)]
    congr 1
    rw [List.map_map]
    have e : p.map (·.1) = p.map (fun kn => kn.2.pat) := List.map_congr_left (fun kn hkn => (hnames p hp kn hkn).symm)
    rw [e, List.zipIdx_map, List.map_map]
    rfl
  have hfmt : ∀ p ∈ T.2.kids.paths, ∀ c ∈ cs, ∀ q ∈ c.paths,
      (formatPattern r.m c = [pack r.m (p.map (·.1))] ↔ q.map (fun kn => kn.2.pattern) = p.map (·.1)) := by
    intro p hp c hc q hq
    obtain ⟨-, e1, e2⟩ := hpk c hc q hq
    constructor
    · intro e
      rw [e1] at e
      injection e with e
      rw [e] at e2
      have := e2.symm.trans (hread p hp)
      injection this with this
      injection this
    · intro e
      rw [e1, e]
  rw [hmt]
  refine ⟨cs, eteLabel r.m 0 T.2.root, eteAdd r.m 1 T.2.kids, hcs, ?_, ?_, shown r.m 1 T.2.kids, named_shown _ _ _ n2, ?_, adds_shown _ _ _ n2 K.sums,
    sibs_shown _ _ _ (every_of_paths _ hnames) K.apart, ?_, ?_, ?_, ?_⟩
  · unfold formatEte
    rw [if_neg (by rw [hroot]; simp only; omega)]
  · rw [eteLabel_eq, K.rootPat, hroot, intStr_decimal (by omega)]
    unfold etePart eteName
    rw [if_neg (by omega), if_neg (by omega)]
    rfl
  · have := topSum_shown r.m T.2.kids 1 n2
    omega
  · intro p hp
    rw [paths_shown] at hp
    obtain ⟨q, hq, rfl⟩ := List.mem_map.mp hp
    rw [List.length_map, List.length_zipIdx, ← hpl q hq, List.length_map]
  · rw [paths_shown, List.map_map]
    have e : (T.2.kids.paths.map ((fun p : List (Str × Nat) => spelled r.m.pathDepth (p.map (·.1))) ∘
        fun p => (p.zipIdx 1).map (fun x => (etePart r.m x.2 x.1.2.pat, x.1.2.count.toNat)))) =
        (T.2.kids.paths.map (fun p => p.map (·.1))).map (pack r.m) := by
      rw [List.map_map]
      exact List.map_congr_left hsp
    rw [e]
    refine nodup_map_on ?_ honce
    intro a ha b hb e
    obtain ⟨p, hp, rfl⟩ := List.mem_map.mp ha
    obtain ⟨q, hq, rfl⟩ := List.mem_map.mp hb
    have e1 := hread p hp
    rw [e, hread q hq] at e1
    injection e1 with e1
    injection e1 with _ e1
    exact e1.symm
  · intro line
    rw [paths_shown]
    constructor
    · rintro ⟨p, hp, rfl⟩
      obtain ⟨q, hq, rfl⟩ := List.mem_map.mp hp
      obtain ⟨c, hc, q', hq', e⟩ := hpath q hq
      refine ⟨c, hc, ?_⟩
      rw [hsp q hq]
      exact (hfmt q hq c hc q' hq').mpr e
    · rintro ⟨c, hc, e⟩
      obtain ⟨q, hq⟩ := hone c hc
      obtain ⟨p, hp, e1⟩ := List.mem_map.mp ((hks (q.map (fun kn => kn.2.pattern))).mpr ⟨q, List.mem_flatMap.mpr ⟨c, hc, hq⟩, rfl⟩)
      refine ⟨_, List.mem_map_of_mem hp, ?_⟩
      rw [hsp p hp]
      have := (hfmt p hp c hc q hq).mpr e1.symm
      rw [this] at e
      injection e
  · intro p hp
    rw [paths_shown] at hp
    obtain ⟨q, hq, rfl⟩ := List.mem_map.mp hp
    rw [hsp q hq]
    obtain ⟨k, d, e1, e2⟩ := hleaf q hq
    have hfs := filter_sum (fun c : Tree NodeData => c.paths) (fun x => decide (x.map (fun kn => kn.2.pattern) = q.map (·.1)))
      (fun c => decide (formatPattern r.m c = [pack r.m (q.map (·.1))])) cs (by
        intro c hc x hx
        rw [decide_eq_decide]
        exact (hfmt q hq c hc x hx).symm)
    rw [← hfs]
    have hq0 : q ≠ [] := by rintro rfl; cases e1
    refine ⟨etePart r.m (1 + (q.length - 1)) d.pat, ?_⟩
    have e3 : (q.zipIdx 1).getLast? = some ((k, d), 1 + (q.length - 1)) := by
      rw [List.getLast?_eq_getElem?, List.length_zipIdx, List.getElem?_zipIdx, ← List.getLast?_eq_getElem?, e1]
      rfl
    rw [List.getLast?_map, e3]
    simp only [Option.map_some]
    have : d.count.toNat = ((cs.flatMap (fun c => c.paths)).filter (fun x => decide (x.map (fun kn => kn.2.pattern) = q.map (·.1)))).length := by
      rw [e2]
      exact Int.toNat_natCast _
    rw [this]

/-- Six URLs: one cluster of four, two of one. -/
example : ((loadAll id hist33).makeCombined codeHash 3).map (fun Ts => Ts.map (fun T => formatEte T.1 T.2)) =
    .ok [some (c!" (6) ", .cons c!" a(4) " (.cons c!" [a-z]+(4) " .nil .nil) (.cons c!" b(2) " (.cons c!" x(1) " .nil (.cons c!" yy(1) " .nil .nil)) .nil))] := by
  decide +kernel

def hist48 : List (Str × Option Str) := [(c!"http://h/p?k=1&l=x#f", none), (c!"http://h/p?k=2&l=x#f", none), (c!"http://h/p?k=3&l=x#f", none)]

/-- Queries and fragments: the parts carry separators and keys, so that they spell the printed pattern. -/
example : ((loadAll id hist48).makeCombined codeHash 3).map (fun Ts => Ts.map (fun T => formatEte T.1 T.2)) =
    .ok [some (c!" (3) ", .cons c!" p(3) " (.cons c!" [\\?]k=[0-9](3) " (.cons c!" &l=x(3) " (.cons c!" #f(3) " .nil .nil) .nil) .nil) .nil)] := by
  decide +kernel
example : ((PatternMakerSt.make codeHash 3 (loadAll id hist48))).map (fun cs => cs.map (fun c => formatPattern c.1 c.2)) =
    .ok [[c!"/p[\\?]k=[0-9]&l=x#f"]] := by decide +kernel
example : spelled 1 [c!"p", c!"[\\?]k=[0-9]", c!"&l=x", c!"#f"] = c!"/p[\\?]k=[0-9]&l=x#f" := by decide
/-- The hypotheses hold for these URLs. -/
example : ∃ Ts, (loadAll id hist48).makeCombined codeHash 3 = .ok Ts ∧ Ts.length = (loadAll id hist48).length ∧
      ∀ (i : Nat) (kv : Str × MakerSt) (T : URLMeta × Tree CNode), (loadAll id hist48)[i]? = some kv → Ts[i]? = some T →
        T.1 = kv.2.urlMeta ∧ ∃ cs root E, kv.2.make codeHash 3 = .ok cs ∧ formatEte T.1 T.2 = some (root, E) ∧
          EteShows T.1 cs kv.2.tree.paths.length root E :=
  C48_ete id codeHash 3 (by decide) hist48 (id_ok _) (codeHash_ok _)

end OsUrl
