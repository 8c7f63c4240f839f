import Verif.Proofs.Rename2
import Verif.Props.C49

/-!
# Renaming: the stages of a piece and the clusters
-/

namespace OsUrl
open Spec

theorem byRun_ren (f : Char → Char) : RenCut f byRun := by
  constructor
  · intro g; unfold byRun ren1; rw [List.map_map, List.map_map]; rfl
  · intro g hg p hp
    obtain ⟨r, hr, rfl⟩ := List.mem_map.mp hp
    intro x hx
    rw [List.mem_singleton.mp hx]
    exact hg r hr

theorem byMixed_ren (f : Char → Char) : RenCut f byMixed := by
  constructor
  · intro g
    induction g with
    | nil => rfl
    | cons r g ih =>
      show byMixed ((r.1, r.2.map f) :: ren1 f g) = _
      simp only [byMixed]
      rw [ih]
      cases h : byMixed g with
      | nil => rfl
      | cons p ps =>
        cases p with
        | nil => rfl
        | cons r' p =>
          simp only [List.map_cons]
          simp only [ren1, List.map_cons]
          split <;> rfl
  · intro g
    induction g with
    | nil => intro _ p hp; cases hp
    | cons r g ih =>
      intro hg p hp
      have hr := hg r (by simp)
      have ih' := ih (fun x hx => hg x (List.mem_cons_of_mem _ hx))
      have single : TrueChunk [r] := fun x hx => by rw [List.mem_singleton.mp hx]; exact hr
      simp only [byMixed] at hp
      cases h : byMixed g with
      | nil =>
        rw [h] at hp
        rw [List.mem_singleton.mp hp]; exact single
      | cons q ps =>
        rw [h] at hp ih'
        cases q with
        | nil =>
          rcases List.mem_cons.mp hp with rfl | hp
          · exact single
          · exact ih' p hp
        | cons r' q =>
          simp only at hp
          split at hp
          · rcases List.mem_cons.mp hp with rfl | hp
            · intro x hx
              rcases List.mem_cons.mp hx with rfl | hx
              · exact hr
              · exact ih' (r' :: q) (by simp) x hx
            · exact ih' p (List.mem_cons_of_mem _ hp)
          · rcases List.mem_cons.mp hp with rfl | hp
            · exact single
            · exact ih' p hp

theorem afterDot_ren (f : Char → Char) (g : Chunk) : afterDot (ren1 f g) = ren1 f (afterDot g) := by
  unfold afterDot ren1
  rw [← List.map_reverse, List.takeWhile_map, List.map_reverse]
  rfl

theorem afterDot_true {g : Chunk} (h : TrueChunk g) : TrueChunk (afterDot g) := by
  intro r hr
  unfold afterDot at hr
  exact h r (List.mem_reverse.mp ((List.takeWhile_sublist _).mem (List.mem_reverse.mp hr)))

theorem byDot_ren (f : Char → Char) : RenCut f byDot := by
  constructor
  · intro g
    unfold byDot
    simp only [afterDot_ren, ren1_length]
    have ha : (ren1 f (afterDot g)).all alnum = (afterDot g).all alnum := by
      unfold ren1; rw [List.all_map]; rfl
    rw [ha]
    split
    · rw [(byMixed_ren f).1]
      simp only [List.map_cons]
      unfold ren1
      rw [List.map_take, List.map_take, List.map_drop]
    · rfl
  · intro g hg p hp
    unfold byDot at hp
    simp only at hp
    split at hp
    · rcases List.mem_cons.mp hp with rfl | hp
      · exact fun r hr => hg r (List.mem_of_mem_take hr)
      · rcases List.mem_cons.mp hp with rfl | hp
        · exact fun r hr => hg r (List.mem_of_mem_drop (List.mem_of_mem_take hr))
        · exact (byMixed_ren f).2 _ (afterDot_true hg) p hp
    · rw [List.mem_singleton.mp hp]; exact hg

section
variable {f : Char → Char} (hf : Renaming f) (mcn : Int) (lp : Bool)

theorem byMixed_length_ren (f : Char → Char) (g : Chunk) : (byMixed (ren1 f g)).length = (byMixed g).length := by
  rw [(byMixed_ren f).1, List.length_map]

theorem byDot_length_ren (f : Char → Char) (g : Chunk) : (byDot (ren1 f g)).length = (byDot g).length := by
  rw [(byDot_ren f).1, List.length_map]

theorem firstStage_ren (f : Char → Char) (g : Chunk) : firstStage mcn lp (ren1 f g) = firstStage mcn lp g := by
  unfold firstStage
  simp only [ren1_length, byMixed_length_ren, classes_ren (byRun_ren f), classes_ren (byMixed_ren f), classes_ren (byDot_ren f)]

theorem afterRuns_ren (f : Char → Char) (g : Chunk) : afterRuns lp (ren1 f g) = afterRuns lp g := by
  unfold afterRuns
  simp only [byMixed_length_ren, byDot_length_ren, classes_ren (byRun_ren f), classes_ren (byMixed_ren f), classes_ren (byDot_ren f)]

theorem afterMixed_ren (f : Char → Char) (g : Chunk) : afterMixed lp (ren1 f g) = afterMixed lp g := by
  unfold afterMixed
  simp only [byDot_length_ren]

theorem atRuns_ren (f : Char → Char) (g : Chunk) : atRuns mcn lp (ren1 f g) = atRuns mcn lp g := by
  unfold atRuns; rw [firstStage_ren]

include hf

theorem setRuns_ren {E : Column} (hE : TrueCol E) {g : Chunk} (hg : TrueChunk g) :
    RenOpt f (setRuns mcn lp E g) (setRuns mcn lp (renCol f E) (ren1 f g)) := by
  unfold setRuns
  rw [filter_renCol (P := fun p => atRuns mcn lp p) (P' := fun p => atRuns mcn lp p) (fun e _ => atRuns_ren mcn lp f e.1)]
  exact settled_ren hf mcn false (byRun_ren f) (trueCol_filter hE _) hg

theorem leftRuns_ren {E : Column} (hE : TrueCol E) {g : Chunk} (hg : TrueChunk g) (t : Stage) :
    leftRuns mcn lp (renCol f E) (ren1 f g) t = leftRuns mcn lp E g t := by
  unfold leftRuns
  rw [atRuns_ren, (renOpt_isSome (setRuns_ren hf mcn lp hE hg)).2, afterRuns_ren]

theorem atMixed_ren {E : Column} (hE : TrueCol E) {g : Chunk} (hg : TrueChunk g) :
    atMixed mcn lp (renCol f E) (ren1 f g) = atMixed mcn lp E g := by
  unfold atMixed
  rw [firstStage_ren, leftRuns_ren hf mcn lp hE hg]

theorem setMixed_ren {E : Column} (hE : TrueCol E) {g : Chunk} (hg : TrueChunk g) :
    RenOpt f (setMixed mcn lp E g) (setMixed mcn lp (renCol f E) (ren1 f g)) := by
  unfold setMixed
  rw [filter_renCol (P := fun p => atMixed mcn lp E p) (P' := fun p => atMixed mcn lp (renCol f E) p)
    (fun e he => atMixed_ren hf mcn lp hE (hE e he))]
  exact settled_ren hf mcn false (byMixed_ren f) (trueCol_filter hE _) hg

theorem leftMixed_ren {E : Column} (hE : TrueCol E) {g : Chunk} (hg : TrueChunk g) (t : Stage) :
    leftMixed mcn lp (renCol f E) (ren1 f g) t = leftMixed mcn lp E g t := by
  unfold leftMixed
  rw [atMixed_ren hf mcn lp hE hg, (renOpt_isSome (setMixed_ren hf mcn lp hE hg)).2, afterMixed_ren]

theorem atDot_ren {E : Column} (hE : TrueCol E) {g : Chunk} (hg : TrueChunk g) :
    atDot mcn lp (renCol f E) (ren1 f g) = atDot mcn lp E g := by
  unfold atDot
  rw [firstStage_ren, leftRuns_ren hf mcn lp hE hg, leftMixed_ren hf mcn lp hE hg]

theorem setDot_ren {E : Column} (hE : TrueCol E) {g : Chunk} (hg : TrueChunk g) :
    RenOpt f (setDot mcn lp E g) (setDot mcn lp (renCol f E) (ren1 f g)) := by
  unfold setDot
  rw [filter_renCol (P := fun p => atDot mcn lp E p) (P' := fun p => atDot mcn lp (renCol f E) p)
    (fun e he => atDot_ren hf mcn lp hE (hE e he))]
  exact settled_ren hf mcn true (byDot_ren f) (trueCol_filter hE _) hg

theorem atWhole_ren {E : Column} (hE : TrueCol E) {g : Chunk} (hg : TrueChunk g) :
    atWhole mcn lp (renCol f E) (ren1 f g) = atWhole mcn lp E g := by
  unfold atWhole
  rw [firstStage_ren, leftRuns_ren hf mcn lp hE hg, leftMixed_ren hf mcn lp hE hg, atDot_ren hf mcn lp hE hg,
    (renOpt_isSome (setDot_ren hf mcn lp hE hg)).2]

theorem pieceRule_ren {E : Column} (hE : TrueCol E) {g : Chunk} (hg : TrueChunk g) :
    Ren f (pieceRuleText mcn lp E g) (pieceRuleText mcn lp (renCol f E) (ren1 f g)) := by
  unfold pieceRuleText
  rw [renCol_numbers, atRuns_ren, (renOpt_isSome (setRuns_ren hf mcn lp hE hg)).1, atMixed_ren hf mcn lp hE hg,
    (renOpt_isSome (setMixed_ren hf mcn lp hE hg)).1, atDot_ren hf mcn lp hE hg, (renOpt_isSome (setDot_ren hf mcn lp hE hg)).1,
    filter_renCol (P := fun p => atWhole mcn lp E p) (P' := fun p => atWhole mcn lp (renCol f E) p)
    (fun e he => atWhole_ren hf mcn lp hE (hE e he))]
  split
  · exact ren_lit hg
  · split
    · exact renOpt_getD (setRuns_ren hf mcn lp hE hg)
    · split
      · exact renOpt_getD (setMixed_ren hf mcn lp hE hg)
      · split
        · exact renOpt_getD (setDot_ren hf mcn lp hE hg)
        · exact whole_ren hf mcn hg

end

theorem urlRule_ren {f : Nat → Char → Char} (hf : ∀ j, Renaming (f j)) (mcn : Int) (d : Nat) : RenRule f (urlRule mcn d) := by
  intro j E g hE hg
  exact pieceRule_ren (hf j) mcn _ hE hg

theorem cut_ren {f : Char → Char} (hf : Renaming f) : ∀ (s : Str), cut (s.map f) = ren1 f (cut s)
  | [] => rfl
  | c :: s => by
    simp only [List.map_cons, cut, hf.2, cut_ren hf s]
    cases space? c with
    | none => rfl
    | some sp =>
      cases cut s with
      | nil => rfl
      | cons r g =>
        simp only [ren1, List.map_cons]
        split <;> rfl

theorem cut_true : ∀ (s : Str), TrueChunk (cut s)
  | [] => fun r hr => by cases hr
  | c :: s => by
    have ih := cut_true s
    simp only [cut]
    cases hc : space? c with
    | none => exact ih
    | some sp =>
      have single : ∀ x ∈ [c], space? x = some sp := fun x hx => by rw [List.mem_singleton.mp hx]; exact hc
      cases h : cut s with
      | nil =>
        intro r hr
        rw [List.mem_singleton.mp hr]
        exact single
      | cons r' g =>
        rw [h] at ih
        simp only
        split
        · rename_i e
          intro r hr
          rcases List.mem_cons.mp hr with rfl | hr
          · intro x hx
            rcases List.mem_cons.mp hx with rfl | hx
            · rw [hc, e]
            · exact ih r' (by simp) x hx
          · exact ih r (List.mem_cons_of_mem _ hr)
        · intro r hr
          rcases List.mem_cons.mp hr with rfl | hr
          · exact single
          · exact ih r hr

theorem urlRow_ren {f : Nat → Char → Char} (hf : ∀ j, Renaming (f j)) (row : List Str) : urlRow (renameRow f row) = renRow f (urlRow row) := by
  unfold urlRow renRow renameRow
  congr 1
  apply List.ext_getElem?
  intro j
  simp only [List.getElem?_map, List.getElem?_mapIdx]
  cases row[j]? with
  | none => rfl
  | some s => exact congrArg some (cut_ren (hf j) s)

theorem urlRow_true (row : List Str) : TrueRow (urlRow row) := by
  intro g hg
  obtain ⟨s, _, rfl⟩ := List.mem_map.mp hg
  exact cut_true s

theorem renAll_get {f : Nat → Char → Char} : ∀ {ts ts' : List Str} (j i : Nat), RenAll f j ts ts' →
    ts'[i]? = (ts[i]?).map (renamed (f (j + i)) .out)
  | [], [], _, _, _ => by simp
  | t :: ts, t' :: ts', j, 0, h => by simp [ren_eq h.1]
  | t :: ts, t' :: ts', j, i + 1, h => by
    have := renAll_get (j + 1) i h.2
    simp only [List.getElem?_cons_succ]
    rw [this, show j + 1 + i = j + (i + 1) by omega]
  | [], _ :: _, _, _, h => h.elim
  | _ :: _, [], _, _, h => h.elim

theorem zip_get {α β : Type} (a : List α) (b : List β) (i : Nat) : (a.zip b)[i]? = (a[i]?).bind (fun x => (b[i]?).map (fun y => (x, y))) := by
  rw [List.zip_eq_zipWith, List.getElem?_zipWith]
  cases a[i]? <;> cases b[i]? <;> rfl

/-- The closed form commutes with renamings. -/
theorem clusterOf_ren {f : Nat → Char → Char} (hf : ∀ j, Renaming (f j)) (mcn : Int) (d : Nat) (R : List (List Str)) (row : List Str) :
    clusterOf mcn d (R.map (renameRow f)) (renameRow f row) = (clusterOf mcn d R row).map (renameMember f) := by
  unfold clusterOf
  simp only
  have hF := urlRule_ren hf mcn d
  have hl : (renameRow f row).length = row.length := by unfold renameRow; rw [List.length_mapIdx]
  have hR : (R.map (renameRow f)).map urlRow = (R.map urlRow).map (renRow f) := by
    rw [List.map_map, List.map_map]; apply List.map_congr_left; intro r _; exact urlRow_ren hf r
  rw [hl, hR, urlRow_ren hf, List.length_map]
  have hT : ∀ y ∈ R.map urlRow, TrueRow y := by
    intro y hy
    obtain ⟨r, _, rfl⟩ := List.mem_map.mp hy
    exact urlRow_true r
  obtain ⟨f1, f2⟩ := family_ren hf hF row.length (R.length + 1) (R.map urlRow) (urlRow row) hT (urlRow_true row)
  rw [f1]
  generalize family (urlRule mcn d) row.length (R.length + 1) (R.map urlRow) (urlRow row) = C at f2 ⊢
  rw [List.map_map, List.map_map]
  apply List.map_congr_left
  intro x hx
  simp only [Function.comp, renameMember]
  apply List.ext_getElem?
  intro i
  have ht := renAll_get 0 i (texts_ren hf hF row.length 0 C x f2 (f2 x hx))
  rw [List.getElem?_mapIdx, zip_get, zip_get, ht]
  rw [List.getElem?_map, List.getElem?_map]
  unfold renRow
  rw [List.getElem?_mapIdx, Nat.zero_add]
  cases hg : x.1[i]? with
  | none => rfl
  | some g =>
    cases (texts (urlRule mcn d) row.length 0 C x)[i]? with
    | none => rfl
    | some t =>
      simp only [Option.map_some, Option.bind_some]
      rw [ren_eq (ren_lit (f2 x hx g (List.mem_of_getElem? hg)))]

end OsUrl
