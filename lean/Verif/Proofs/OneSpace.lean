import Verif.Proofs.SamePat
import Verif.Proofs.FlatTop
import Verif.Props.C10
import Verif.Model.Formatter

/-! Clusters with the same printed pattern. -/

namespace OsUrl
open Spec

/-- All characters in one space. -/
def OneSpace (s : Str) : Prop := ∃ sp, ∀ c ∈ s, space? c = some sp

variable {h : Runtime} {mcn : Int} {hist : List (Str × Option Str)}

/-- The URL behind a path of a cluster. -/
theorem path_url {M : Made} (hM : MadeOK h mcn hist M) {C : List Ins} {t : Tree NodeData} (hC : ClusterOK h mcn hist M C t)
    {p : List (Str × NodeData)} (hp : p ∈ t.paths) :
    ∃ r ∈ M.g, ∃ u row, (u, r.md) ∈ hist ∧ analyzeUrl u = .ok (M.m, row) ∧ (∀ s ∈ row, ∀ c ∈ s, Known c) ∧ r.pps = row.map pieceOf ∧
      p.map (·.1) = row.map (fun s => (pieceOf s).piece) ∧ RawRow (rowOf p).bare row := by
  obtain ⟨h1, h2⟩ := row_of_path hC hp
  obtain ⟨r, hr, e⟩ := (norm_rows M.g _ h2).path
  obtain ⟨u, hu, hpar⟩ := mem_accepted.mp (hM.acc r hr)
  obtain ⟨row, ha, hmp⟩ := parse_pieces hpar
  obtain ⟨hk, e2⟩ := parsePieces_ok hmp
  obtain ⟨_, hall⟩ := hM.all
  refine ⟨r, hr, u, row, hu, by rw [ha, (hall r hr).1], hk, e2, ?_, ⟨hk, ?_⟩⟩
  · rw [hC.keys p hp, ← bare_keys]
    unfold Ins.keys
    rw [e, e2]
    simp [Function.comp_def, pieceOf]
  · rw [e, e2]; simp [Function.comp_def, pieceOf]

/-- The printed pattern of a cluster can be read back. -/
theorem read_printed (hm : 2 ≤ mcn) (hh : NoHashClash h (UrlRow hist)) {M : Made} (hM : MadeOK h mcn hist M) {C : List Ins} {t : Tree NodeData}
    (hC : ClusterOK h mcn hist M C t) {p : List (Str × NodeData)} (hp : p ∈ t.paths) :
    analyzeUrlPatternString (pack M.m (p.map (fun kn => kn.2.pattern))) = .ok (M.m, p.map (fun kn => kn.2.pattern)) := by
  obtain ⟨r, hr, u, row, hu, ha, hk, -, he, -⟩ := path_url hM hC hp
  obtain ⟨sts, a1, a2, a3⟩ := path_text hm hh hM hC hp hk he
  rw [a3]
  refine C10_roundtrip u M.m row _ ha (by rw [← a1, List.length_map, List.length_map]) ?_
  intro x hx
  rw [← a1, List.zip_map'] at hx
  obtain ⟨st, hst, rfl⟩ := List.mem_map.mp hx
  exact shapeOf_iff.mp (pieceText_shape (a2 st hst))

/-- The same printed pattern means the same structure and patterns. -/
theorem same_printed (hm : 2 ≤ mcn) (hh : NoHashClash h (UrlRow hist)) {M M' : Made} (hM : MadeOK h mcn hist M) (hM' : MadeOK h mcn hist M')
    {C C' : List Ins} {t t' : Tree NodeData} (hC : ClusterOK h mcn hist M C t) (hC' : ClusterOK h mcn hist M' C' t')
    (e : formatPattern M.m t = formatPattern M'.m t') {p p' : List (Str × NodeData)} (hp : p ∈ t.paths) (hp' : p' ∈ t'.paths) :
    M.m = M'.m ∧ p.map (fun kn => kn.2.pattern) = p'.map (fun kn => kn.2.pattern) := by
  have key : ∀ {M : Made} {C : List Ins} {t : Tree NodeData}, ClusterOK h mcn hist M C t → ∀ {p : List (Str × NodeData)}, p ∈ t.paths →
      formatPattern M.m t = [pack M.m (p.map (fun kn => kn.2.pattern))] := by
    intro M C t hC p hp
    cases hq : t.paths with
    | nil => rw [hq] at hp; cases hp
    | cons q qs =>
      rw [path_uniform hC hp (show q ∈ t.paths by rw [hq]; simp)]
      unfold formatPattern
      rw [hq]; rfl
  rw [key hC hp, key hC' hp', List.cons.injEq] at e
  have h1 := read_printed hm hh hM hC hp
  rw [e.1, read_printed hm hh hM' hC' hp'] at h1
  injection h1 with h1
  injection h1 with h1 h2
  exact ⟨h1.symm, h2.symm⟩

/-- The same patterns mean the same spaces. -/
theorem same_spaces (hm : 2 ≤ mcn) (hh : NoHashClash h (UrlRow hist)) {M M' : Made} (hM : MadeOK h mcn hist M) (hM' : MadeOK h mcn hist M')
    {C C' : List Ins} {t t' : Tree NodeData} (hC : ClusterOK h mcn hist M C t) (hC' : ClusterOK h mcn hist M' C' t')
    {p p' : List (Str × NodeData)} (hp : p ∈ t.paths) (hp' : p' ∈ t'.paths)
    (e : p.map (fun kn => kn.2.pattern) = p'.map (fun kn => kn.2.pattern)) {row row' : List Str}
    (hk : ∀ s ∈ row, ∀ c ∈ s, Known c) (he : p.map (·.1) = row.map (fun s => (pieceOf s).piece))
    (hk' : ∀ s ∈ row', ∀ c ∈ s, Known c) (he' : p'.map (·.1) = row'.map (fun s => (pieceOf s).piece)) :
    row.map (fun s => (pieceOf s).fuzzyRule) = row'.map (fun s => (pieceOf s).fuzzyRule) := by
  obtain ⟨sts, a1, a2, a3⟩ := path_text hm hh hM hC hp hk he
  obtain ⟨sts', b1, b2, b3⟩ := path_text hm hh hM' hC' hp' hk' he'
  rw [a3, b3] at e
  rw [← a1, ← b1, List.map_map, List.map_map]
  clear a1 a3 b1 b3 he he' hk hk' hp hp'
  induction sts generalizing sts' with
  | nil =>
    cases sts' with
    | nil => rfl
    | cons _ _ => simp at e
  | cons st sts ih =>
    cases sts' with
    | nil => simp at e
    | cons st' sts' =>
      rw [List.map_cons, List.map_cons, List.cons.injEq] at e
      rw [List.map_cons, List.map_cons, ih (fun x hx => a2 x (List.mem_cons_of_mem _ hx)) sts' e.2 (fun x hx => b2 x (List.mem_cons_of_mem _ hx))]
      congr 1
      have h1 := a2 st (by simp)
      rw [e.1] at h1
      exact pieceText_spaces h1 (b2 st' (by simp))

/-- A piece with the rule of a string of one space. -/
theorem pieceOf_one {s s0 : Str} (hs : ∀ c ∈ s, Known c) (hs0 : ∀ c ∈ s0, Known c) (h0 : OneSpace s0) (e : (pieceOf s).fuzzyRule = (pieceOf s0).fuzzyRule) :
    (s0 ≠ [] → Part (pieceOf s)) ∧ (s0 = [] → pieceOf s = ⟨[], []⟩) := by
  have hr := runsOf_spec hs
  have hr0 := runsOf_spec hs0
  have e1 : (gpair (runsOf s)).2 = (gpair (runsOf s0)).2 := by rw [gpair_ppOf, gpair_ppOf]; exact e
  constructor
  · intro hne
    obtain ⟨sp, hsp⟩ := h0
    obtain ⟨c, hc⟩ := List.exists_mem_of_ne_nil _ hne
    have e0 : runsOf s0 = [(sp, s0)] := by
      apply (runs_unique ⟨by simp, by simpa using hne, by simpa using hsp, ?_⟩ hr0).symm
      intro a x y b e
      have := congrArg List.length e
      simp at this
      omega
    have e2 : (gpair (runsOf s0)).2 = sp.text := by rw [e0]; exact joinSorted_one _
    obtain ⟨u, hu⟩ := single_rule_group hr (space_valid (hsp c hc)) (e1.trans e2)
    refine ⟨runsOf s, s, hr, ?_⟩
    unfold pieceOf
    rw [hu, gpair_ppOf]
    simp [ppOf, single, ParsedPiece.piece, ParsedPiece.fuzzyRule, joinSorted_one]
  · rintro rfl
    have h1 : (pieceOf s).fuzzyRule = [] := by rw [e]; rfl
    have h2 : s = [] := (fuzzyRule_nil (parse_runs hr)).mp h1
    rw [h2]
    rfl

/-- The rows of a sub-maker one of whose URLs has only pieces of one space. -/
theorem one_rows_of (hh : NoHashClash h (UrlRow hist)) {g : List Rec} {m : URLMeta} {rules : List Str} (hne : g ≠ [])
    (hacc : ∀ r ∈ g, r ∈ accepted hist) (hall : ∀ r ∈ g, r.m = m ∧ r.rules = rules) {r0 : Rec} (hr0 : r0 ∈ g) {row0 : List Str}
    (hk0 : ∀ s ∈ row0, ∀ c ∈ s, Known c) (h0 : r0.pps = row0.map pieceOf) (hone : ∀ s ∈ row0, OneSpace s) :
    FlatRows m.depth (norm (insOf g)) := by
  obtain ⟨hok, hrow⟩ := rows_ok hh hne hacc hall
  have hrul : ∀ x ∈ norm (insOf g), ∀ j, j < m.depth → ∃ s s0, (∀ c ∈ s, Known c) ∧ s0 ∈ row0 ∧ row0[j]? = some s0 ∧ x.pp j = pieceOf s ∧
      (pieceOf s).fuzzyRule = (pieceOf s0).fuzzyRule := by
    intro x hx j hj
    obtain ⟨row, -, hraw⟩ := hrow x hx
    obtain ⟨r, hr, hp⟩ := (norm_rows g x hx).path
    have hl := hok.len x hx
    have e1 : row.map pieceOf = r.pps := by rw [← hraw.path, hp]; simp [Function.comp_def]
    have e2 : row.map (fun s => (pieceOf s).fuzzyRule) = row0.map (fun s => (pieceOf s).fuzzyRule) := by
      have a1 : r.rules = r0.rules := by rw [(hall r hr).2, (hall r0 hr0).2]
      unfold Rec.rules at a1
      rw [← e1, h0, List.map_map, List.map_map] at a1
      exact a1
    have hj1 : j < row.length := by rw [← hraw.length, hl]; exact hj
    obtain ⟨s, hs⟩ : ∃ s, row[j]? = some s := ⟨row[j], List.getElem?_eq_getElem hj1⟩
    have e3 := congrArg (·[j]?) e2
    simp only [List.getElem?_map, hs, Option.map_some] at e3
    cases h4 : row0[j]? with
    | none => rw [h4] at e3; cases e3
    | some s0 =>
      rw [h4] at e3
      simp only [Option.map_some, Option.some.injEq] at e3
      exact ⟨s, s0, hraw.known s (List.mem_of_getElem? hs), List.mem_of_getElem? h4, rfl, (hraw.pp hs).1, e3⟩
  refine ⟨hok.pos, ?_, ?_⟩
  · intro j hj
    by_cases hb : row0[j]? = some []
    · right
      intro x hx
      obtain ⟨s, s0, a1, a2, a3, a4, a5⟩ := hrul x hx j hj
      rw [a3, Option.some.injEq] at hb
      rw [a4]
      exact (pieceOf_one a1 (hk0 s0 a2) (hone s0 a2) a5).2 hb
    · left
      intro x hx
      obtain ⟨s, s0, a1, a2, a3, a4, a5⟩ := hrul x hx j hj
      rw [a4]
      apply (pieceOf_one a1 (hk0 s0 a2) (hone s0 a2) a5).1
      rintro rfl
      exact hb a3
  · intro x hx y hy j hj
    obtain ⟨s, s0, -, -, a3, a4, a5⟩ := hrul x hx j hj
    obtain ⟨s', s0', -, -, b3, b4, b5⟩ := hrul y hy j hj
    rw [a4, b4, a5, b5]
    rw [a3] at b3
    injection b3 with b3
    rw [b3]

theorem one_rows (hh : NoHashClash h (UrlRow hist)) {M : Made} (hM : MadeOK h mcn hist M) {r0 : Rec} (hr0 : r0 ∈ M.g) {row0 : List Str}
    (hk0 : ∀ s ∈ row0, ∀ c ∈ s, Known c) (h0 : r0.pps = row0.map pieceOf) (hone : ∀ s ∈ row0, OneSpace s) :
    FlatRows M.m.depth (norm (insOf M.g)) := by
  obtain ⟨rules, hall⟩ := hM.all
  exact one_rows_of hh hM.ne hM.acc hall hr0 hk0 h0 hone

/-- In such a sub-maker a row that carries the patterns of another belongs to its cluster. -/
theorem one_close (hm : 2 ≤ mcn) (hh : NoHashClash h (UrlRow hist)) {M : Made} (hM : MadeOK h mcn hist M) (hR : FlatRows M.m.depth (norm (insOf M.g)))
    {C C' : List Ins} {t t' : Tree NodeData} (hC : ClusterOK h mcn hist M C t) (hC' : ClusterOK h mcn hist M C' t')
    {p p' : List (Str × NodeData)} (hp : p ∈ t.paths) (hp' : p' ∈ t'.paths)
    (e : p.map (fun kn => kn.2.pattern) = p'.map (fun kn => kn.2.pattern)) : ∃ q ∈ t.paths, q.map (·.1) = p'.map (·.1) := by
  obtain ⟨h1, h2⟩ := row_of_path hC hp
  obtain ⟨h1', h2'⟩ := row_of_path hC' hp'
  have hfam := hC.final.fam _ h1
  rw [famN_top hm _ _ hR h2] at hfam
  have hun : unif (flatF mcn false M.m.depth) M.m.depth (famN (flatF mcn false M.m.depth) M.m.depth ((norm (insOf M.g)).length + 1) (norm (insOf M.g)) (rowOf p).bare) = true :=
    famN_unif _ _ h2 (by omega)
  have hsub : ∀ x ∈ C.map Ins.bare, x ∈ norm (insOf M.g) := by
    intro x hx
    obtain ⟨y, hy, rfl⟩ := List.mem_map.mp hx
    exact hC.sub y hy
  have hsub' : ∀ x ∈ C'.map Ins.bare, x ∈ norm (insOf M.g) := by
    intro x hx
    obtain ⟨y, hy, rfl⟩ := List.mem_map.mp hx
    exact hC'.sub y hy
  have hfit : FitRow (rowOf p').bare 0 (labs (flatF mcn false M.m.depth) M.m.depth 0 (C'.map Ins.bare) (rowOf p').bare) :=
    labs_fit hm (hR.sub hsub') (by omega) (List.mem_map_of_mem h1')
  rw [← labs_top hm (m := M.m) (hR.sub hsub') (by omega) (List.mem_map_of_mem h1'), ← path_pats hC' hp', ← e, path_pats hC hp,
    labs_top hm (hR.sub hsub) (by omega) (List.mem_map_of_mem h1), labs_perm (flatF_perm _ _ _) hfam] at hfit
  have hmem := famN_close hm _ _ hR h2 h2' hun hfit
  rw [← hfam.mem_iff] at hmem
  obtain ⟨y, hy, ey⟩ := List.mem_map.mp hmem
  obtain ⟨q, hq, rfl⟩ := path_of_row hC hy
  refine ⟨q, hq, ?_⟩
  rw [hC.keys q hq, hC'.keys p' hp', ← bare_keys, ey, bare_keys]

end OsUrl
