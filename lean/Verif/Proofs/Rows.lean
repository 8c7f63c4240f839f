import Verif.Model.Cluster
import Verif.Proofs.Grow2

/-! Clustering seen on rows: a row is one path of the piece tree with its count.  A level gives each
piece a pattern depending on the pieces and counts of the rows that have the same patterns so far. -/

namespace OsUrl

/-- A distinct piece of a level with the number of URLs that have it. -/
abbrev Ent := ParsedPiece × Int

/-- The piece of the row at level `j` (from 0). -/
def Ins.pp (j : Nat) (i : Ins) : ParsedPiece := ((i.path[j]?).map (·.1)).getD emptyParsedPiece

/-- Sum of the counts. -/
def total (S : List Ins) : Int := (S.map (·.count)).sum

/-- The distinct pieces of level `j` with their counts. -/
def ent (j : Nat) (S : List Ins) : List Ent :=
  (uniq (S.map (Ins.pp j))).map (fun p => (p, total (S.filter (fun x => decide (x.pp j = p)))))

/-- The patterns that a level gives to its pieces. -/
abbrev LevelFn := Nat → List Ent → ParsedPiece → Str

/-- The pattern of the row at level `j` among the rows `S`. -/
def lab (F : LevelFn) (j : Nat) (S : List Ins) (x : Ins) : Str := F j (ent j S) (x.pp j)

/-- The rows with the same pattern at level `j`. -/
def nxt (F : LevelFn) (j : Nat) (S : List Ins) (x : Ins) : List Ins :=
  S.filter (fun y => decide (lab F j S y = lab F j S x))

/-- The patterns of the row at the levels `j .. j+k-1`. -/
def labs (F : LevelFn) : Nat → Nat → List Ins → Ins → List Str
  | 0, _, _, _ => []
  | k + 1, j, S, x => lab F j S x :: labs F k (j + 1) (nxt F j S x) x

/-- The level function does not look at the order of the pieces. -/
def PermInv (F : LevelFn) : Prop := ∀ j (E E' : List Ent), E.Perm E' → F j E = F j E'

theorem sum_perm {l l' : List Int} (h : l.Perm l') : l.sum = l'.sum := by
  induction h with
  | nil => rfl
  | cons x _ ih => simp [ih]
  | swap x y l => simp only [List.sum_cons]; omega
  | trans _ _ h1 h2 => rw [h1, h2]

theorem total_perm {S S' : List Ins} (h : S.Perm S') : total S = total S' := sum_perm (h.map _)

theorem total_nil : total [] = 0 := rfl

theorem total_cons (x : Ins) (S : List Ins) : total (x :: S) = x.count + total S := by simp [total]

theorem total_append (S S' : List Ins) : total (S ++ S') = total S + total S' := by simp [total]

theorem ent_perm {j : Nat} {S S' : List Ins} (h : S.Perm S') : (ent j S).Perm (ent j S') := by
  unfold ent
  have : (fun p => (p, total (S.filter (fun x => decide (x.pp j = p))))) =
      (fun p => (p, total (S'.filter (fun x => decide (x.pp j = p))))) := by
    funext p; rw [total_perm (h.filter _)]
  rw [this]
  exact (uniq_perm (fun a => (h.map _).mem_iff)).map _

theorem lab_perm {F : LevelFn} (hF : PermInv F) {j : Nat} {S S' : List Ins} (h : S.Perm S') (x : Ins) :
    lab F j S x = lab F j S' x := by
  unfold lab; rw [hF j _ _ (ent_perm h)]

theorem nxt_perm {F : LevelFn} (hF : PermInv F) {j : Nat} {S S' : List Ins} (h : S.Perm S') (x : Ins) :
    (nxt F j S x).Perm (nxt F j S' x) := by
  unfold nxt
  have : (fun y => decide (lab F j S y = lab F j S x)) = (fun y => decide (lab F j S' y = lab F j S' x)) := by
    funext y; rw [lab_perm hF h y, lab_perm hF h x]
  rw [this]; exact h.filter _

theorem labs_perm {F : LevelFn} (hF : PermInv F) {k j : Nat} {S S' : List Ins} (h : S.Perm S') (x : Ins) :
    labs F k j S x = labs F k j S' x := by
  induction k generalizing j S S' with
  | zero => rfl
  | succ k ih => rw [labs, labs, lab_perm hF h, ih (nxt_perm hF h x)]

theorem labs_length (F : LevelFn) (k j : Nat) (S : List Ins) (x : Ins) : (labs F k j S x).length = k := by
  induction k generalizing j S with
  | zero => rfl
  | succ k ih => simp [labs, ih]

/-- Rows with the same pattern at this level continue with the same rows. -/
theorem nxt_congr {F : LevelFn} {j : Nat} {S : List Ins} {x y : Ins} (h : lab F j S x = lab F j S y) :
    nxt F j S x = nxt F j S y := by unfold nxt; rw [h]

/-- Rows that agree up to level `j+k` have the same patterns there. -/
theorem labs_prefix {F : LevelFn} {k j : Nat} {S : List Ins} {x y : Ins} {i : Nat}
    (h : ∀ l, l ≤ i → x.pp (j + l) = y.pp (j + l)) : (labs F k j S x)[i]? = (labs F k j S y)[i]? := by
  induction k generalizing j S i with
  | zero => rfl
  | succ k ih =>
    have e : lab F j S x = lab F j S y := by unfold lab; rw [show x.pp j = y.pp j from h 0 (by omega)]
    rw [labs, labs]
    cases i with
    | zero => simp [e]
    | succ i =>
      rw [List.getElem?_cons_succ, List.getElem?_cons_succ, nxt_congr e]
      apply ih
      intro l hl
      have := h (l + 1) (by omega)
      rwa [show j + (l + 1) = j + 1 + l by omega] at this

/-- Two rows have the same pieces and counts. -/
def SameRow (x y : Ins) : Prop := x.path.map (·.1) = y.path.map (·.1) ∧ x.count = y.count

theorem SameRow.pp {x y : Ins} (h : SameRow x y) (j : Nat) : x.pp j = y.pp j := by
  have : (x.path.map (·.1))[j]? = (y.path.map (·.1))[j]? := by rw [h.1]
  rw [List.getElem?_map, List.getElem?_map] at this
  unfold Ins.pp; rw [this]

theorem total_map {S : List Ins} {f : Ins → Ins} (hf : ∀ x ∈ S, SameRow (f x) x) : total (S.map f) = total S := by
  unfold total
  rw [List.map_map]
  congr 1
  apply List.map_congr_left
  intro x hx; exact (hf x hx).2

theorem filter_map_same {S : List Ins} {f : Ins → Ins} {p : Ins → Bool} {q : Ins → Bool} (h : ∀ x ∈ S, p (f x) = q x) :
    (S.map f).filter p = (S.filter q).map f := by
  induction S with
  | nil => rfl
  | cons x xs ih =>
    have e := h x (by simp)
    have := ih (fun y hy => h y (by simp [hy]))
    simp only [List.map_cons, List.filter_cons, e]
    split <;> simp [this]

theorem ent_map {j : Nat} {S : List Ins} {f : Ins → Ins} (hf : ∀ x ∈ S, SameRow (f x) x) : ent j (S.map f) = ent j S := by
  unfold ent
  have e : (S.map f).map (Ins.pp j) = S.map (Ins.pp j) := by
    rw [List.map_map]; apply List.map_congr_left; intro x hx; exact (hf x hx).pp j
  rw [e]
  apply List.map_congr_left
  intro p _
  rw [filter_map_same (q := fun x => decide (x.pp j = p)) (fun x hx => by rw [(hf x hx).pp j]), total_map]
  intro x hx; exact hf x (List.mem_filter.mp hx).1

theorem labs_map {F : LevelFn} {k j : Nat} {S : List Ins} {f : Ins → Ins} (hf : ∀ x ∈ S, SameRow (f x) x)
    {x y : Ins} (h : SameRow y x) : labs F k j (S.map f) y = labs F k j S x := by
  induction k generalizing j S with
  | zero => rfl
  | succ k ih =>
    have e : lab F j (S.map f) y = lab F j S x := by unfold lab; rw [ent_map hf, h.pp j]
    have en : nxt F j (S.map f) y = (nxt F j S x).map f := by
      unfold nxt
      apply filter_map_same
      intro z hz
      rw [e]
      unfold lab; rw [ent_map hf, (hf z hz).pp j]
    rw [labs, labs, e, en, ih]
    intro z hz; exact hf z (List.mem_filter.mp hz).1

theorem mem_ent {j : Nat} {S : List Ins} {p : ParsedPiece} {c : Int} :
    (p, c) ∈ ent j S ↔ p ∈ S.map (Ins.pp j) ∧ c = total (S.filter (fun x => decide (x.pp j = p))) := by
  unfold ent
  rw [List.mem_map]
  constructor
  · rintro ⟨a, ha, e⟩
    injection e with e1 e2; subst e1
    exact ⟨mem_uniq.mp ha, e2.symm⟩
  · rintro ⟨h1, h2⟩
    exact ⟨p, mem_uniq.mpr h1, by rw [h2]⟩

theorem ent_fst (j : Nat) (S : List Ins) : (ent j S).map (·.1) = uniq (S.map (Ins.pp j)) := by
  unfold ent; rw [List.map_map]; exact List.map_id _

/-- Dividing the rows by a value does not change the total. -/
theorem total_partition {κ : Type} [DecidableEq κ] (f : Ins → κ) (S : List Ins) (ks : List κ) (hn : ks.Nodup)
    (hS : ∀ x ∈ S, f x ∈ ks) : (ks.map (fun k => total (S.filter (fun x => decide (f x = k))))).sum = total S := by
  induction S with
  | nil =>
    simp only [List.filter_nil, total_nil]
    clear hn hS
    induction ks with
    | nil => rfl
    | cons k ks ih => simpa using ih
  | cons x S ih =>
    have ih' := ih (fun y hy => hS y (by simp [hy]))
    rw [total_cons, ← ih']
    have hx := hS x (by simp)
    clear ih ih' hS
    induction ks with
    | nil => simp at hx
    | cons k ks ihk =>
      rw [List.nodup_cons] at hn
      simp only [List.map_cons, List.sum_cons, List.filter_cons]
      by_cases e : f x = k
      · have : (ks.map (fun k => total (if decide (f x = k) = true then x :: S.filter (fun x => decide (f x = k))
            else S.filter (fun x => decide (f x = k))))).sum
          = (ks.map (fun k => total (S.filter (fun x => decide (f x = k))))).sum := by
          congr 1; apply List.map_congr_left
          intro k' hk'
          have : f x ≠ k' := by rintro rfl; exact hn.1 (e ▸ hk')
          simp [this]
        rw [this]; simp [e, total_cons]; omega
      · have hx' : f x ∈ ks := by
          rw [List.mem_cons] at hx; exact hx.resolve_left e
        have := ihk hn.2 hx'
        simp only [List.filter_cons] at this
        rw [this]; simp [e]; omega

theorem ent_total (j : Nat) (S : List Ins) : ((ent j S).map (·.2)).sum = total S := by
  unfold ent
  rw [List.map_map]
  exact total_partition (Ins.pp j) S _ (nodup_uniq _) (fun x hx => mem_uniq.mpr (List.mem_map.mpr ⟨x, hx, rfl⟩))

end OsUrl
