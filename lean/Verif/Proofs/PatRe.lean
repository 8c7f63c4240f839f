import Verif.Proofs.Make2
import Verif.Proofs.MatchRe

/-! The patterns of a cluster, read as regular expressions. -/

namespace OsUrl
open Spec

theorem written_plain {w : Str} {g : List (Space × Str)} (h : Runs w g) (hb : '\\' ∉ w) : writtenLength g = w.length := by
  have hs : ∀ r ∈ g, ¬ r.1 = .sign '\\' := by
    intro r hr e
    obtain ⟨c, hc⟩ := List.exists_mem_of_ne_nil _ (h.nonempty r hr)
    have h1 := h.space r hr c hc
    rw [e] at h1
    have h2 : c = '\\' := by
      unfold space? at h1
      repeat' split at h1
      all_goals first | (injection h1 with h1; injection h1) | cases h1
    subst h2
    exact hb (by rw [← h.concat]; exact List.mem_flatten.mpr ⟨r.2, List.mem_map_of_mem hr, hc⟩)
  rw [← h.concat]
  clear h hb
  unfold writtenLength
  induction g with
  | nil => rfl
  | cons r g ih =>
    rw [List.map_cons, List.sum_cons, ih (fun r hr => hs r (by simp [hr])), if_neg (hs r (by simp))]
    simp

theorem groupText_fits {w : Str} {g : List (Space × Str)} (h : Runs w g) (hb : '\\' ∉ w) {a : Str} (ha : GroupText g a) : Fits a w := by
  have hcls : ∀ {k : Str}, g ≠ [] → ClassOf g k → ∀ {q : Str} {n : Int}, QText q n → AsciiText q → (if n < 0 then w ≠ [] else (w.length : Int) = n) →
      Fits ('[' :: k ++ ']' :: q) w := by
    intro k hg hk q n hq haq hl
    obtain ⟨R, h1, -, rfl⟩ := hk
    refine fits_class ?_ ?_ hq haq ?_ hl
    · intro r hr
      obtain ⟨sp, hsp, rfl⟩ := List.mem_map.mp hr
      obtain ⟨x, hx, rfl⟩ := (h1 sp).mp hsp
      exact mem_ruleSet.mpr ⟨x.1, h.valid x hx, rfl⟩
    · obtain ⟨x, hx⟩ := List.exists_mem_of_ne_nil _ hg
      exact List.ne_nil_of_mem (List.mem_map_of_mem ((h1 x.1).mpr ⟨x, hx, rfl⟩))
    · intro c hc
      rw [← h.concat, List.mem_flatten] at hc
      obtain ⟨l, hl, hc⟩ := hc
      obtain ⟨x, hx, rfl⟩ := List.mem_map.mp hl
      exact ⟨x.1, h.space x hx c hc, List.mem_map_of_mem ((h1 x.1).mpr ⟨x, hx, rfl⟩)⟩
  have hw : g ≠ [] → w ≠ [] := by
    intro hg
    obtain ⟨x, hx⟩ := List.exists_mem_of_ne_nil _ hg
    obtain ⟨c, hc⟩ := List.exists_mem_of_ne_nil _ (h.nonempty x hx)
    rw [← h.concat]
    exact List.ne_nil_of_mem (List.mem_flatten.mpr ⟨x.2, List.mem_map_of_mem hx, hc⟩)
  cases ha with
  | lit => exact (runs_exact h).fits
  | @len k hg hk =>
    rw [written_plain h hb]
    have hl : w.length ≠ 0 := fun e => hw hg (List.eq_nil_of_length_eq_zero e)
    obtain ⟨q, e, hq⟩ := QText.spec (n := (w.length : Int)) (by omega) []
    have haq := spec_ascii e
    rw [specStr_nat hl] at e
    simp only [List.cons_append, List.nil_append, List.cons.injEq, true_and] at e
    rw [if_neg (by omega), ← e] at hq
    rw [← e] at haq
    exact hcls hg hk hq haq (by rw [if_neg (by omega)])
  | @wild k hg hk => exact hcls hg hk .plus (by simp [AsciiText]) (by simpa using hw hg)

theorem pieceText_fits {s t : Str} (h : PieceText s t) (hb : '\\' ∉ s) : Fits t s := by
  obtain ⟨gts, ⟨h1, h2⟩, rfl⟩ := h
  induction gts generalizing s with
  | nil =>
    have : s = [] := by rw [← h1.concat]; rfl
    subst this
    exact Exact.nil.fits
  | cons gt gts ih =>
    rw [List.map_cons, List.flatten_cons] at h1
    have e : s = rawOf gt.1 ++ rawOf (gts.map (·.1)).flatten := by
      rw [← h1.concat, List.map_append, List.flatten_append]; rfl
    rw [e, List.map_cons, List.flatten_cons]
    rw [e, List.mem_append, not_or] at hb
    exact (groupText_fits (runs_take h1) hb.1 (h2 gt (by simp))).append (ih hb.2 (runs_drop h1) (fun gt hgt => h2 gt (by simp [hgt])))

variable {h : Runtime} {mcn : Int} {hist : List (Str × Option Str)}

theorem path_pats {M : Made} {C : List Ins} {t : Tree NodeData} (hC : ClusterOK h mcn hist M C t) {p : List (Str × NodeData)}
    (hp : p ∈ t.paths) : p.map (fun kn => kn.2.pattern) =
      labs (topF mcn M.m false M.m.depth) M.m.depth 0 (C.map Ins.bare) (rowOf p).bare := by
  have h1 := hC.final.pats _ (row_of_path hC hp).1
  have h2 : (rowOf p).path.map (·.2) = (p.map (fun kn => kn.2.pattern)).map some := by
    simp [rowOf, Function.comp_def]
  rw [h2] at h1
  exact (List.map_inj_right (by simp)).mp h1

theorem path_length {M : Made} {C : List Ins} {t : Tree NodeData} (hC : ClusterOK h mcn hist M C t) {p : List (Str × NodeData)}
    (hp : p ∈ t.paths) : p.length = M.m.depth := by
  have := hC.final.normal.len _ (row_of_path hC hp).1
  simpa [rowOf] using this

/-- All paths of a cluster have the same patterns. -/
theorem path_uniform {M : Made} {C : List Ins} {t : Tree NodeData} (hC : ClusterOK h mcn hist M C t) {p q : List (Str × NodeData)}
    (hp : p ∈ t.paths) (hq : q ∈ t.paths) : p.map (fun kn => kn.2.pattern) = q.map (fun kn => kn.2.pattern) := by
  rw [path_pats hC hp, path_pats hC hq]
  exact unif_iff.mp hC.final.unif _ (List.mem_map_of_mem (row_of_path hC hp).1) _ (List.mem_map_of_mem (row_of_path hC hq).1)

/-- The rows of a cluster are fit for the stages. -/
theorem cluster_rows (hh : NoHashClash h (UrlRow hist)) {M : Made} (hM : MadeOK h mcn hist M) {C : List Ins} {t : Tree NodeData}
    (hC : ClusterOK h mcn hist M C t) : RowsOK (TopOK h M.m) M.m.depth (C.map Ins.bare) := by
  obtain ⟨rules, hall⟩ := hM.all
  refine (rows_ok hh hM.ne hM.acc hall).1.sub (topOK_mono h M.m) ?_
  intro x hx
  obtain ⟨y, hy, rfl⟩ := List.mem_map.mp hx
  exact hC.sub y hy

/-- The pattern of a path is a pattern text for every piece of a URL on it. -/
theorem path_text (hm : 2 ≤ mcn) (hh : NoHashClash h (UrlRow hist)) {M : Made} (hM : MadeOK h mcn hist M) {C : List Ins} {t : Tree NodeData}
    (hC : ClusterOK h mcn hist M C t) {p : List (Str × NodeData)} (hp : p ∈ t.paths) {row : List Str} (hk : ∀ s ∈ row, ∀ c ∈ s, Known c)
    (he : p.map (·.1) = row.map (fun s => (pieceOf s).piece)) :
    ∃ sts : List (Str × Str), sts.map (·.1) = row ∧ (∀ st ∈ sts, PieceText st.1 st.2) ∧ p.map (fun kn => kn.2.pattern) = sts.map (·.2) := by
  obtain ⟨h1, h2⟩ := row_of_path hC hp
  obtain ⟨r, hr, hrp⟩ := (norm_rows _ _ h2).path
  obtain ⟨row', -, k', e', -⟩ := accepted_row (hM.acc r hr)
  have hkeys : r.keys = p.map (·.1) := by
    rw [hC.keys p hp, ← bare_keys, Ins.keys, hrp]; simp [Rec.keys, Function.comp_def]
  have hrow : row.map pieceOf = row'.map pieceOf := by
    rw [Rec.keys, e', he, List.map_map] at hkeys
    clear he e' hrp h1 h2
    induction row generalizing row' with
    | nil =>
      cases row' with
      | nil => rfl
      | cons s row' => simp at hkeys
    | cons s row ih =>
      cases row' with
      | nil => simp at hkeys
      | cons s' row' =>
        simp only [List.map_cons, List.cons.injEq, Function.comp_apply] at hkeys
        have := pieceOf_inj (runsOf_spec (k' s' (by simp))) (runsOf_spec (hk s (by simp))) hkeys.1
        rw [List.map_cons, List.map_cons, this, ih (fun s hs => hk s (by simp [hs])) row' (fun s hs => k' s (by simp [hs])) hkeys.2]
  have hR : RawRow (rowOf p).bare row := ⟨hk, by
    rw [hrp, hrow, ← e']; simp [Function.comp_def]⟩
  obtain ⟨sts, a1, a2, a3⟩ := labs_text (kw := false) hm (Nat.zero_add _) (cluster_rows hh hM hC) (List.mem_map_of_mem h1) hR
  rw [List.drop_zero] at a1
  exact ⟨sts, a1, a2, by rw [path_pats hC hp, a3]⟩

end OsUrl
