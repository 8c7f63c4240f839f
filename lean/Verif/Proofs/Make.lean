import Verif.Proofs.RowText
import Verif.Proofs.Load2
import Verif.Proofs.Structure

/-! `PatternMaker.make` after a history of loads. -/

namespace OsUrl
open Spec

/-- The pieces of the URLs of a history. -/
def UrlRow (hist : List (Str × Option Str)) (row : List Str) : Prop := ∃ u md m, (u, md) ∈ hist ∧ analyzeUrl u = .ok (m, row)

theorem insOf_path {g : List Rec} : ∀ i ∈ insOf g, ∃ r ∈ g, i.path = r.pps.map (fun pp => (pp, none)) := by
  refine snoc_ind (P := fun g => ∀ i ∈ insOf g, ∃ r ∈ g, i.path = r.pps.map (fun pp => (pp, none))) (by simp [insOf]) ?_ g
  intro g r ih i hi
  rw [insOf_concat, insStep, List.mem_append] at hi
  rcases hi with hi | hi
  · obtain ⟨r', h1, h2⟩ := ih i hi
    exact ⟨r', by simp [h1], h2⟩
  · simp at hi
    exact ⟨r, by simp, by rw [hi]⟩

theorem insOf_one (g : List Rec) (k : List Str) :
    (((insOf g).filter (fun x => decide (x.keys = k))).map (·.count)).sum = if k ∈ g.map Rec.keys then 1 else 0 := by
  refine snoc_ind (P := fun g => (((insOf g).filter (fun x => decide (x.keys = k))).map (·.count)).sum = if k ∈ g.map Rec.keys then 1 else 0)
    (by simp [insOf]) ?_ g
  intro g r ih
  rw [insOf_concat, insStep, List.filter_append, List.map_append, List.sum_append, ih, insOf_keys]
  by_cases hk : r.keys = k
  · have : [(⟨r.pps.map (fun pp => (pp, none)), if r.keys ∈ g.map Rec.keys then 0 else 1, r.md.toList⟩ : Ins)].filter (fun x => decide (x.keys = k)) =
        [⟨r.pps.map (fun pp => (pp, none)), if r.keys ∈ g.map Rec.keys then 0 else 1, r.md.toList⟩] := by
      rw [List.filter_cons_of_pos (by simp [insKeys, hk])]; rfl
    rw [this]
    simp only [List.map_cons, List.map_nil, List.sum_cons, List.sum_nil, List.map_append, List.mem_append, List.mem_cons, List.not_mem_nil, or_false]
    rw [hk]
    by_cases h : k ∈ g.map Rec.keys <;> simp [h]
  · have : [(⟨r.pps.map (fun pp => (pp, none)), if r.keys ∈ g.map Rec.keys then 0 else 1, r.md.toList⟩ : Ins)].filter (fun x => decide (x.keys = k)) = [] := by
      rw [List.filter_cons_of_neg (by simp [insKeys, hk])]; rfl
    rw [this]
    simp only [List.map_nil, List.sum_nil, List.map_append, List.mem_append, List.map_cons, List.mem_cons, List.not_mem_nil, or_false]
    have hk' : ¬ k = r.keys := fun e => hk e.symm
    simp [hk']

/-- The rows of a sub-maker. -/
structure RowOf (g : List Rec) (x : Ins) : Prop where
  path : ∃ r ∈ g, x.path = r.pps.map (fun pp => (pp, none))
  count : x.count = 1
  metas : ∀ md, md ∈ x.metas ↔ ∃ r ∈ g, r.keys = x.keys ∧ r.md = some md

theorem norm_rows (g : List Rec) : ∀ x ∈ norm (insOf g), RowOf g x := by
  intro x hx
  have hk : x.keys ∈ (insOf g).map Ins.keys := by
    have : x.keys ∈ (norm (insOf g)).map Ins.keys := List.mem_map_of_mem hx
    rwa [norm_keys, mem_uniq] at this
  rw [norm_eq] at hx
  obtain ⟨k, hk', rfl⟩ := List.mem_map.mp hx
  rw [mem_uniq] at hk'
  have hke := mergeRow_keys hk'
  obtain ⟨y, hy, hy2, hy3, -⟩ := mergeRow_head hk'
  obtain ⟨r, hr, hrp⟩ := insOf_path y hy
  refine ⟨⟨r, hr, by rw [hy3, hrp]⟩, ?_, ?_⟩
  · show (((insOf g).filter (fun x => decide (x.keys = k))).map (·.count)).sum = 1
    rw [insOf_one, if_pos (by rw [← insOf_keys]; exact hk')]
  · intro md
    rw [hke]
    have := insOf_metas (g := g) (ks := k) (x := md)
    rw [← this]
    show md ∈ uniq (((insOf g).filter (fun x => decide (x.keys = k))).flatMap (·.metas)) ↔ _
    rw [mem_uniq, List.mem_flatMap]
    constructor
    · rintro ⟨i, hi, h⟩
      rw [List.mem_filter, decide_eq_true_eq] at hi
      exact ⟨i, hi.1, hi.2, h⟩
    · rintro ⟨i, hi, h1, h2⟩
      exact ⟨i, List.mem_filter.mpr ⟨hi, by simp [h1]⟩, h2⟩

theorem norm_bare (g : List Rec) : (norm (insOf g)).map Ins.bare = norm (insOf g) := by
  rw [List.map_congr_left (g := id), List.map_id]
  intro x hx
  obtain ⟨r, -, hp⟩ := (norm_rows g x hx).path
  obtain ⟨path, c, ms⟩ := x
  simp only at hp
  subst hp
  simp [Ins.bare, Function.comp_def]

theorem growPaths_count {n : Nat} {L : List Ins} (hL : Normal n L) (hne : L ≠ []) : (growPaths n L).length = L.length := by
  have h := (List.perm_ext_iff_of_nodup growPaths_nodup hL.nodup).mpr (growPaths_keys hL.len hne)
  simpa using h.length_eq

/-- The strings of a record. -/
theorem accepted_row {hist : List (Str × Option Str)} {r : Rec} (hr : r ∈ accepted hist) :
    ∃ row, UrlRow hist row ∧ (∀ s ∈ row, ∀ c ∈ s, Known c) ∧ r.pps = row.map pieceOf ∧ ∀ j p, r.m.pathDepth = j + 1 → r.pps[j]? = some p → '/' ∉ p.fuzzyRule := by
  obtain ⟨u, hu, hp⟩ := mem_accepted.mp hr
  obtain ⟨pieces, h1, h2⟩ := parse_pieces hp
  obtain ⟨hk, he⟩ := parsePieces_ok h2
  refine ⟨pieces, ⟨u, r.md, r.m, hu, h1⟩, hk, he, ?_⟩
  intro j p hj hpj hs
  obtain ⟨ps, vs, fs, e, hS⟩ := analyzeUrl_struct h1
  rw [he, List.getElem?_map] at hpj
  cases hsj : pieces[j]? with
  | none => rw [hsj] at hpj; cases hpj
  | some s =>
    rw [hsj] at hpj
    have hpp : parsePiece s = .ok p := by
      rw [parsePiece_eq, if_pos (hk s (List.mem_of_getElem? hsj))]
      simp only [Option.map_some, Option.some.injEq] at hpj
      rw [hpj]
    have hjl : j < ps.length := by rw [← hS.depth]; omega
    rw [e, List.append_assoc, List.getElem?_append_left hjl] at hsj
    have := (hS.path.chars s (List.mem_of_getElem? hsj)).1
    rcases fuzzyRule_chars hpp hs with h | h
    · exact this h
    · revert h; decide

/-- What `make` does for one sub-maker. -/
structure Clusters (h : Runtime) (mcn : Int) (m : URLMeta) (g : List Rec) (Cs : List (List Ins)) : Prop where
  perm : (Cs.flatten.map Ins.bare).Perm (norm (insOf g))
  final : ∀ C ∈ Cs, Final (topF mcn m false m.depth) m.depth ((norm (insOf g)).length + 1) (norm (insOf g)) C

theorem rows_ok {h : Runtime} {hist : List (Str × Option Str)} (hh : NoHashClash h (UrlRow hist)) {g : List Rec}
    {m : URLMeta} {rules : List Str} (hne : g ≠ []) (hg : ∀ r ∈ g, r ∈ accepted hist) (hall : ∀ r ∈ g, r.m = m ∧ r.rules = rules) :
    RowsOK (TopOK h m) m.depth (norm (insOf g)) ∧ (∀ x ∈ norm (insOf g), ∃ row, UrlRow hist row ∧ RawRow x row) := by
  have hrow : ∀ x ∈ norm (insOf g), ∃ row, UrlRow hist row ∧ RawRow x row := by
    intro x hx
    obtain ⟨r, hr, hp⟩ := (norm_rows g x hx).path
    obtain ⟨row, h1, h2, h3, -⟩ := accepted_row (hg r hr)
    exact ⟨row, h1, h2, by rw [hp, ← h3]; simp [Function.comp_def]⟩
  refine ⟨rowsOK_of hh ?_ ?_ hrow ?_, hrow⟩
  · intro x hx
    obtain ⟨r, hr, hp⟩ := (norm_rows g x hx).path
    rw [hp, List.length_map, (accepted_depth (hg r hr)).1, (hall r hr).1]
  · intro x hx
    rw [(norm_rows g x hx).count]; omega
  · refine ⟨rules, ?_, ?_⟩
    · intro x hx
      obtain ⟨r, hr, hp⟩ := (norm_rows g x hx).path
      rw [← (hall r hr).2, hp]
      simp [Rec.rules, Function.comp_def]
    · cases g with
      | nil => exact absurd rfl hne
      | cons r g =>
        intro j q hj hq
        obtain ⟨row, -, -, -, h4⟩ := accepted_row (hg r (by simp))
        rw [← (hall r (by simp)).2, Rec.rules, List.getElem?_map] at hq
        cases hp : r.pps[j]? with
        | none => rw [hp] at hq; cases hq
        | some p =>
          rw [hp] at hq
          simp only [Option.map_some, Option.some.injEq] at hq
          rw [← hq]
          exact h4 j p (by rw [(hall r (by simp)).1]; exact hj) hp

theorem make_group {h : Runtime} {mcn : Int} (hm : 2 ≤ mcn) {hist : List (Str × Option Str)} (hh : NoHashClash h (UrlRow hist)) {g : List Rec}
    {m : URLMeta} {rules : List Str} (hne : g ≠ []) (hg : ∀ r ∈ g, r ∈ accepted hist) (hall : ∀ r ∈ g, r.m = m ∧ r.rules = rules) :
    ∃ Cs, (MakerSt.make h mcn ⟨m, growTree m.depth (insOf g)⟩ = .ok (Cs.map (doneTree m.depth)) ∧ Clusters h mcn m g Cs) ∧
      ∀ h' : Runtime, NoHashClash h' (UrlRow hist) → MakerSt.make h' mcn ⟨m, growTree m.depth (insOf g)⟩ = .ok (Cs.map (doneTree m.depth)) := by
  obtain ⟨r0, hr0⟩ := List.exists_mem_of_ne_nil _ hne
  obtain ⟨n, hn⟩ : ∃ n, m.depth = n + 1 := ⟨m.depth - 1, by
    have := (accepted_depth (hg r0 hr0)).2; rw [(hall r0 hr0).1] at this; omega⟩
  obtain ⟨hok, hrow⟩ := rows_ok hh hne hg hall
  have hlen : ∀ i ∈ insOf g, i.path.length = m.depth := insOf_length (fun r hr => by rw [(accepted_depth (hg r hr)).1, (hall r hr).1])
  have hN : Normal m.depth (norm (insOf g)) := norm_normal hlen
  have hins : insOf g ≠ [] := by
    intro e
    have := insOf_keys g
    rw [e] at this
    have h2 := congrArg List.length this
    simp at h2
    exact hne (List.eq_nil_of_length_eq_zero h2.symm)
  have hne' := norm_ne_nil hins
  have hlp : (growTree m.depth (insOf g)).paths.length = (norm (insOf g)).length := by
    rw [hn] at hlen hN ⊢
    rw [← growTree_norm n (insOf g) hlen, paths_growTree hne', growPaths_count hN hne']
  have hs := hashSep_of (kw := false) hm hh hok hrow
  rw [hn] at hN hok hs
  obtain ⟨Cs, h1, h2, h3, h4⟩ := cluster_spec h (top_level_ok (h := h) hm m false (n + 1)) hm hn ((norm (insOf g)).length + 1) (norm (insOf g)) hN hok hne'
    (by omega) (by rw [norm_bare]; exact hs)
  rw [norm_bare] at h2 h3
  refine ⟨Cs, ⟨?_, h2, ?_⟩, ?_⟩
  · unfold MakerSt.make cluster
    simp only [clusterNest]
    rw [hlp, hn, ← h1]
    rw [hn] at hlen
    rw [growTree_norm n (insOf g) hlen]
    rfl
  · rw [hn]; exact h3
  · intro h' hh'
    obtain ⟨hok', -⟩ := rows_ok hh' hne hg hall
    have hs' := hashSep_of (kw := false) hm hh' hok' hrow
    rw [hn] at hok' hs'
    have h5 := h4 h' (clusterNest h' 1) (TopOK h' m) (top_level_ok (h := h') hm m false (n + 1)) hok' (by rw [norm_bare]; exact hs')
    unfold MakerSt.make cluster
    simp only [clusterNest]
    rw [hlp, hn, ← h5]
    rw [hn] at hlen
    rw [growTree_norm n (insOf g) hlen]
    rfl

end OsUrl
