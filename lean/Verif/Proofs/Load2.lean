import Verif.Proofs.Load

/-! Counts and metas of loaded makers. -/

namespace OsUrl
open Spec

theorem insOf_count (g : List Rec) :
    ((insOf g).map (·.count)).sum = (uniq (g.map Rec.keys)).length := by
  refine snoc_ind (P := fun g => ((insOf g).map (·.count)).sum = (uniq (g.map Rec.keys)).length) rfl ?_ g
  intro g r ih
  rw [insOf_concat, insStep, List.map_append, List.sum_append, ih, insOf_keys, List.map_append, List.map_singleton,
    List.map_singleton, uniq_concat]
  unfold setAdd
  simp only [mem_uniq]
  by_cases h : r.keys ∈ g.map Rec.keys
  · simp [h]
  · simp [h]

theorem growTree_count (n : Nat) (L : List Ins) : (growTree n L).root.count = (L.map (·.count)).sum := by
  have := foldl_act_count L id (fun _ => rfl) (newNode emptyParsedPiece none)
  simp only [growTree]
  simp only [id] at this
  rw [this]; simp [newNode]

/-- The sub-makers of a history. -/
theorem mem_loadAll {md5 : Str → Str} {hist : List (Str × Option Str)} (hc : NoCollision md5 (accepted hist))
    {sid : Str} {mk : MakerSt} (h : (sid, mk) ∈ loadAll md5 hist) :
    ∃ r ∈ accepted hist, r.sid md5 = sid ∧
      mk = ⟨r.m, growTree r.m.depth (insOf ((accepted hist).filter (fun x => decide (x.sid md5 = sid))))⟩ ∧
      (∀ r' ∈ (accepted hist).filter (fun x => decide (x.sid md5 = sid)), r'.m = r.m ∧ r'.rules = r.rules) ∧
      ∀ i ∈ insOf ((accepted hist).filter (fun x => decide (x.sid md5 = sid))), i.path.length = r.m.depth := by
  rw [loadAll_eq md5 hist hc, List.mem_map] at h
  obtain ⟨⟨k, g⟩, hkg, e⟩ := h
  injection e with e1 e2
  simp only at e1 e2
  subst e1
  obtain ⟨hk, hg⟩ := mem_groupBy hkg
  have hne := groupBy_ne_nil hkg
  cases g with
  | nil => exact absurd rfl hne
  | cons r g =>
    have hr : r ∈ (accepted hist).filter (fun x => decide (Rec.sid md5 x = k)) := by rw [← hg]; simp
    rw [List.mem_filter, decide_eq_true_eq] at hr
    have hall : ∀ r' ∈ (accepted hist).filter (fun x => decide (x.sid md5 = k)), r'.m = r.m ∧ r'.rules = r.rules := by
      intro r' hr'
      rw [List.mem_filter, decide_eq_true_eq] at hr'
      exact (sid_eq_iff hc hr'.1 hr.1).mp (hr'.2.trans hr.2.symm)
    refine ⟨r, hr.1, hr.2, ?_, hall, ?_⟩
    · rw [← e2, ← hg]; rfl
    · apply insOf_length
      intro r' hr'
      rw [← (hall r' hr').1]
      exact (accepted_depth (List.mem_filter.mp hr').1).1

theorem insOf_ne {md5 : Str → Str} {rs : List Rec} {sid : Str} {r : Rec} (hr : r ∈ rs) (hs : r.sid md5 = sid) :
    insOf (rs.filter (fun x => decide (x.sid md5 = sid))) ≠ [] := by
  intro e
  have := insOf_keys (rs.filter (fun x => decide (x.sid md5 = sid)))
  rw [e] at this
  have := this.symm
  rw [List.map_nil, List.map_eq_nil_iff, List.filter_eq_nil_iff] at this
  simpa [hs] using this r hr

theorem get?_loadAll {md5 : Str → Str} {hist : List (Str × Option Str)} (hc : NoCollision md5 (accepted hist))
    {r : Rec} (hr : r ∈ accepted hist) : ∃ mk, (r.sid md5, mk) ∈ loadAll md5 hist := by
  rw [loadAll_eq md5 hist hc]
  refine ⟨makerOf ((accepted hist).filter (fun x => decide (x.sid md5 = r.sid md5))), ?_⟩
  rw [groupBy_eq, List.map_map, List.mem_map]
  exact ⟨r.sid md5, mem_uniq.mpr (List.mem_map_of_mem hr), rfl⟩

theorem loadAll_nodup {md5 : Str → Str} {hist : List (Str × Option Str)} (hc : NoCollision md5 (accepted hist)) :
    ((loadAll md5 hist).map (·.1)).Nodup := by
  rw [loadAll_eq md5 hist hc, groupBy_eq, List.map_map, List.map_map]
  have : (((fun x : Str × MakerSt => x.1) ∘ (fun kg : Str × List Rec => (kg.1, makerOf kg.2))) ∘
      fun k => (k, (accepted hist).filter (fun x => decide (Rec.sid md5 x = k)))) = id := rfl
  rw [this, List.map_id]
  exact nodup_uniq _

theorem insOf_metas {g : List Rec} {ks : List Str} {x : Str} :
    (∃ i ∈ insOf g, i.keys = ks ∧ x ∈ i.metas) ↔ ∃ r ∈ g, r.keys = ks ∧ r.md = some x := by
  refine snoc_ind (P := fun g => (∃ i ∈ insOf g, i.keys = ks ∧ x ∈ i.metas) ↔ ∃ r ∈ g, r.keys = ks ∧ r.md = some x)
    ?_ ?_ g
  · simp [insOf]
  · intro g r ih
    rw [insOf_concat, insStep]
    simp only [List.mem_append, List.mem_singleton, or_and_right, exists_or, ih, exists_eq_left, insKeys]
    simp [Option.mem_toList, eq_comm]

theorem headData_fold (g : List Ins) :
    ∃ d0 : NodeData, d0.metas = none ∧ headData g = g.foldl (fun d i => i.tail.act d) d0 := by
  unfold headData
  refine ⟨_, ?_, rfl⟩
  cases g with
  | nil => rfl
  | cons i g => exact newHead_metas i

/-- The leaf of a path of a grown tree. -/
theorem growPaths_leaf {n : Nat} {L : List Ins} (hL : ∀ i ∈ L, i.path.length = n + 1) {p : List (Str × NodeData)}
    (hp : p ∈ growPaths (n + 1) L) : ∃ k d, p.getLast? = some (k, d) ∧
      d.count = ((L.filter (fun i => decide (i.keys = p.map (·.1)))).map (·.count)).sum ∧
      (∀ x, x ∈ d.metas.getD [] ↔ ∃ i ∈ L, i.keys = p.map (·.1) ∧ x ∈ i.metas) ∧ (d.metas.getD []).Nodup := by
  have hlen := growPaths_length p hp
  obtain ⟨⟨k, d⟩, hj⟩ : ∃ x, p[n]? = some x := ⟨p[n], List.getElem?_eq_getElem (by omega)⟩
  have hd := growPaths_data hL hp hj
  have e : L.filter (fun i => decide (i.keys.take (n + 1) = (p.map (·.1)).take (n + 1))) =
      L.filter (fun i => decide (i.keys = p.map (·.1))) := by
    apply List.filter_congr
    intro i hi
    rw [List.take_of_length_le (by simp [Ins.keys, hL i hi]), List.take_of_length_le (by simp [hlen])]
  rw [e] at hd
  refine ⟨k, d, ?_, ?_, ?_, ?_⟩
  · rw [List.getLast?_eq_getElem?, hlen]; exact hj
  · rw [hd, headData_count, List.map_map]; rfl
  · intro x
    have hF : ∀ i ∈ (L.filter (fun i => decide (i.keys = p.map (·.1)))).map (Ins.drop n), (Ins.tail i).path = [] := by
      intro i hi
      obtain ⟨i', hi', rfl⟩ := List.mem_map.mp hi
      have := hL i' (List.mem_filter.mp hi').1
      simp [Ins.tail, Ins.drop, List.drop_eq_nil_iff, this]
    obtain ⟨d0, h0, e0⟩ := headData_fold ((L.filter (fun i : Ins => decide (i.keys = p.map (·.1)))).map (Ins.drop n))
    rw [hd, e0, foldl_act_metas _ Ins.tail hF _ x (fun _ => rfl), h0]
    simp only [Option.getD_none, List.not_mem_nil, false_or, List.mem_map, List.mem_filter, decide_eq_true_eq]
    constructor
    · rintro ⟨_, ⟨i, ⟨h1, h2⟩, rfl⟩, h3⟩; exact ⟨i, h1, h2, h3⟩
    · rintro ⟨i, h1, h2, h3⟩; exact ⟨_, ⟨i, ⟨h1, h2⟩, rfl⟩, h3⟩
  · obtain ⟨d0, h0, e0⟩ := headData_fold ((L.filter (fun i : Ins => decide (i.keys = p.map (·.1)))).map (Ins.drop n))
    rw [hd, e0]
    replace h0 : (d0.metas.getD []).Nodup := by rw [h0]; simp
    clear e0 hd
    generalize (L.filter (fun i => decide (i.keys = p.map (·.1)))).map (Ins.drop n) = g
    induction g generalizing d0 with
    | nil => exact h0
    | cons i g ih =>
      rw [List.foldl_cons]
      apply ih
      unfold Ins.act
      split
      · exact updateMeta_nodup _ _ h0
      · exact h0

end OsUrl
