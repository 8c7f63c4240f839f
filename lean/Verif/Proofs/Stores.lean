import Verif.Proofs.MTree
import Verif.Props.C09

/-! What the view matchers return, in terms of the children added to them. -/

namespace OsUrl
open Spec

/-- The pattern is the parse of its string. -/
def GoodPat (p : MatchPattern) : Prop :=
  patternUnits p.str = .ok p.units ∧ ∃ b, p.cls = viewClsFromUnits p.units b

theorem mkMatchPattern_good {s : Str} {b : Bool} {p : MatchPattern} (h : mkMatchPattern s b = .ok p) :
    p.str = s ∧ GoodPat p ∧ p.cls = viewClsFromUnits p.units b := by
  unfold mkMatchPattern at h
  obtain ⟨us, h1, h⟩ := bind_ok h
  simp [pure, Except.pure] at h
  subst h
  exact ⟨rfl, ⟨h1, b, rfl⟩, rfl⟩

theorem mkUnit_str {s : Str} {u : PatternUnit} (h : mkUnit s = .ok u) : u.str = s := by
  unfold mkUnit at h
  obtain ⟨⟨rs, n⟩, h1, h⟩ := bind_ok h
  simp [pure, Except.pure] at h
  rw [← h]

theorem mapM_mkUnit {ss : List Str} {us : List PatternUnit} (h : ss.mapM mkUnit = .ok us) :
    us.map (·.str) = ss ∧ ∀ u ∈ us, mkUnit u.str = .ok u := by
  induction ss generalizing us with
  | nil => rw [mapM_ok_nil h]; simp
  | cons s ss ih =>
    obtain ⟨u, us', h1, h2, rfl⟩ := mapM_ok_cons h
    obtain ⟨e1, e2⟩ := ih h2
    have e := mkUnit_str h1
    refine ⟨by simp [e1, e], ?_⟩
    intro v hv
    simp at hv
    rcases hv with rfl | hv
    · rw [e]; exact h1
    · exact e2 v hv

/-- The units of a pattern. -/
theorem patternUnits_ok {s : Str} {us : List PatternUnit} (h : patternUnits s = .ok us) :
    parsePatternString s = .ok (us.map (·.str)) ∧ (∀ u ∈ us, mkUnit u.str = .ok u) ∧
      (us.map (·.str)).flatten = s ∧ us ≠ [] ∧ ∀ u ∈ us, patternUnits u.str = .ok [u] := by
  unfold patternUnits at h
  obtain ⟨ss, h1, h⟩ := bind_ok h
  obtain ⟨e1, e2⟩ := mapM_mkUnit h
  subst e1
  have hfl := C09_lossless _ _ h1
  refine ⟨h1, e2, hfl, ?_, ?_⟩
  · rintro rfl
    simp at hfl
    subst hfl
    simp [parsePatternString] at h1
  · intro u hu
    have := C09_stable _ _ h1 u.str (List.mem_map.mpr ⟨u, hu, rfl⟩)
    unfold patternUnits
    rw [this]
    simp [List.mapM_cons, e2 u hu, bind, Except.bind, pure, Except.pure]

/-- The view class of a single unit. -/
def unitCls (u : PatternUnit) : ViewCls :=
  if u.isLiteral then .piece else if u.num < 0 then .fuzzy else .length

/-- The match pattern of a single unit. -/
def unitMP (u : PatternUnit) : MatchPattern := ⟨u.str, [u], unitCls u⟩

theorem mk_unitMP {u : PatternUnit} (h : patternUnits u.str = .ok [u]) : mkMatchPattern u.str = .ok (unitMP u) := by
  unfold mkMatchPattern
  rw [h]
  simp [bind, Except.bind, pure, Except.pure, unitMP, viewClsFromUnits, unitCls]

theorem unitMP_good {u : PatternUnit} (h : patternUnits u.str = .ok [u]) : GoodPat (unitMP u) :=
  ⟨h, false, rfl⟩

theorem GoodPat.unit {p : MatchPattern} (h : GoodPat p) : ∀ u ∈ p.units, patternUnits u.str = .ok [u] :=
  (patternUnits_ok h.1).2.2.2.2

theorem GoodPat.ne {p : MatchPattern} (h : GoodPat p) : p.units ≠ [] := (patternUnits_ok h.1).2.2.2.1

theorem GoodPat.flat {p : MatchPattern} (h : GoodPat p) : (p.units.map (·.str)).flatten = p.str :=
  (patternUnits_ok h.1).2.2.1

theorem GoodPat.mapM {p : MatchPattern} (h : GoodPat p) :
    p.units.mapM (fun u => mkMatchPattern u.str) = .ok (p.units.map unitMP) := by
  have := h.unit
  generalize p.units = us at *
  clear h
  induction us with
  | nil => rfl
  | cons u us ih =>
    rw [List.mapM_cons, mk_unitMP (this u (by simp)), ih (fun v hv => this v (by simp [hv]))]
    rfl

theorem good_units_eq {p q : MatchPattern} (hp : GoodPat p) (hq : GoodPat q) (e : p.str = q.str) :
    p.units = q.units := by
  have h1 := hp.1
  have h2 := hq.1
  rw [e, h2] at h1
  simpa using h1.symm

theorem unit_eq_of_str {u v : PatternUnit} (hu : patternUnits u.str = .ok [u]) (hv : patternUnits v.str = .ok [v])
    (e : u.str = v.str) : u = v := by
  rw [e, hv] at hu
  simpa using hu.symm

/-! ### totality -/

theorem unitAdd_total {p : MatchPattern} (h : p.units ≠ []) (s : Store) : ∃ s', unitOps.add p s = .ok s' := by
  show ∃ s', Store.add p s = .ok s'
  cases s with
  | piece d => exact ⟨_, rfl⟩
  | fuzzy l => exact ⟨_, rfl⟩
  | length d =>
    cases hu : p.units with
    | nil => exact absurd hu h
    | cons u us => exact ⟨_, by simp only [Store.add, hu]; rfl⟩

theorem multiAdd_total {p : MatchPattern} (h : GoodPat p) (d : Dict Str UnitTree) :
    ∃ d', multiAdd p d = .ok d' := by
  unfold multiAdd
  rw [h.mapM]
  dsimp only
  obtain ⟨⟨dt, kids, r⟩, hr⟩ := minsert_total (ops := unitOps) (md := some p.str) (x := p.units.map unitMP)
    (by
      intro q hq s
      obtain ⟨u, hu, rfl⟩ := List.mem_map.mp hq
      exact unitAdd_total (by simp [unitMP]) s) none
      ((Dict.get? (fuzzyJoin (p.units.map (·.fuzzyRule))) d).getD (MData.new emptyMatchPattern, .nil)).1
      ((Dict.get? (fuzzyJoin (p.units.map (·.fuzzyRule))) d).getD (MData.new emptyMatchPattern, .nil)).2
  have hs := minsert_flag hr (.inl (by simpa using h.ne))
  cases r with
  | none => simp at hs
  | some b =>
    simp only [bind, Except.bind, hr, pure, Except.pure]
    exact ⟨_, rfl⟩

theorem urlAdd_total {p : MatchPattern} (h : GoodPat p) (s : FullStore) : ∃ s', urlOps.add p s = .ok s' := by
  show ∃ s', FullStore.add p s = .ok s'
  cases s with
  | simple s =>
    obtain ⟨s', hs⟩ := unitAdd_total h.ne s
    have hs : s.add p = .ok s' := hs
    exact ⟨.simple s', by simp only [FullStore.add, hs, bind, Except.bind, pure, Except.pure]⟩
  | multi d =>
    obtain ⟨d', hd⟩ := multiAdd_total h d
    exact ⟨.multi d', by simp only [FullStore.add, hd, bind, Except.bind, pure, Except.pure]⟩

/-! ### contents of the simple stores -/

theorem fill_piece {ps : List MatchPattern} {s : Store} (h : fillStore unitOps .piece ps = .ok s) :
    ∃ d, s = .piece d ∧ ∀ k, Dict.get? k d = if k ∈ ps.map (·.str) then some k else none := by
  revert h
  suffices ∀ s, fillStore unitOps .piece ps = .ok s →
    ∃ d, s = .piece d ∧ ∀ k, Dict.get? k d = if k ∈ ps.map (·.str) then some k else none from this s
  refine snoc_ind (P := fun ps => ∀ s, fillStore unitOps .piece ps = .ok s →
    ∃ d, s = .piece d ∧ ∀ k, Dict.get? k d = if k ∈ ps.map (·.str) then some k else none) ?_ ?_ ps
  · intro s h
    simp [fillStore, pure, Except.pure, unitOps, Store.emptyOf] at h
    exact ⟨[], h.symm, by simp [Dict.get?]⟩
  · intro ps p ih s h
    rw [fillStore_concat] at h
    obtain ⟨s0, h0, h⟩ := bind_ok h
    obtain ⟨d, rfl, hd⟩ := ih s0 h0
    have h : Store.add p (.piece d) = .ok s := h
    simp only [Store.add, Except.ok.injEq] at h
    refine ⟨_, h.symm, ?_⟩
    intro k
    by_cases hin : p.str ∈ ps.map (·.str)
    · rw [if_pos (by rw [hd, if_pos hin]; rfl), hd]
      have : k ∈ (ps ++ [p]).map (·.str) ↔ k ∈ ps.map (·.str) := by
        simp only [List.map_append, List.map_cons, List.map_nil, List.mem_append, List.mem_singleton]
        constructor
        · rintro (h | rfl)
          · exact h
          · exact hin
        · exact .inl
      simp only [this]
    · rw [if_neg (by rw [hd, if_neg hin]; simp), Dict.get?_upd, hd]
      by_cases hk : p.str = k
      · subst hk; simp
      · have hk' : ¬ k = p.str := fun e => hk e.symm
        simp [hk, hk']

theorem fill_fuzzy {ps : List MatchPattern} {s : Store} (h : fillStore unitOps .fuzzy ps = .ok s) :
    s = .fuzzy (ps.map (·.str)) := by
  revert h
  suffices ∀ s, fillStore unitOps .fuzzy ps = .ok s → s = .fuzzy (ps.map (·.str)) from this s
  refine snoc_ind (P := fun ps => ∀ s, fillStore unitOps .fuzzy ps = .ok s → s = .fuzzy (ps.map (·.str))) ?_ ?_ ps
  · intro s h
    simp [fillStore, pure, Except.pure, unitOps, Store.emptyOf] at h
    exact h.symm
  · intro ps p ih s h
    rw [fillStore_concat] at h
    obtain ⟨s0, h0, h⟩ := bind_ok h
    rw [ih s0 h0] at h
    have h : Store.add p (.fuzzy (ps.map (·.str))) = .ok s := h
    simp only [Store.add, Except.ok.injEq] at h
    rw [← h]; simp

/-- The number of the first unit. -/
def headNum (p : MatchPattern) : Option Int := p.units.head?.map (·.num)

theorem fill_length {ps : List MatchPattern} {s : Store} (h : fillStore unitOps .length ps = .ok s) :
    ∃ d, s = .length d ∧ ∀ l, Dict.get? l d =
      (ps.reverse.find? (fun p => decide (headNum p = some l))).map (·.str) := by
  revert h
  suffices ∀ s, fillStore unitOps .length ps = .ok s → ∃ d, s = .length d ∧ ∀ l, Dict.get? l d =
      (ps.reverse.find? (fun p => decide (headNum p = some l))).map (·.str) from this s
  refine snoc_ind (P := fun ps => ∀ s, fillStore unitOps .length ps = .ok s → ∃ d, s = .length d ∧ ∀ l, Dict.get? l d =
      (ps.reverse.find? (fun p => decide (headNum p = some l))).map (·.str)) ?_ ?_ ps
  · intro s h
    simp [fillStore, pure, Except.pure, unitOps, Store.emptyOf] at h
    exact ⟨[], h.symm, by simp [Dict.get?]⟩
  · intro ps p ih s h
    rw [fillStore_concat] at h
    obtain ⟨s0, h0, h⟩ := bind_ok h
    obtain ⟨d, rfl, hd⟩ := ih s0 h0
    have h : Store.add p (.length d) = .ok s := h
    cases hu : p.units with
    | nil => simp [Store.add, hu] at h
    | cons u us =>
      simp only [Store.add, hu, Except.ok.injEq] at h
      refine ⟨_, h.symm, ?_⟩
      intro l
      rw [Dict.get?_upd, List.reverse_append]
      simp only [List.reverse_singleton, List.singleton_append, List.find?_cons]
      have hn : headNum p = some u.num := by simp [headNum, hu]
      by_cases hk : u.num = l
      · subst hk; simp [hn]
      · have hk' : ¬ l = u.num := fun e => hk e.symm
        have : decide (headNum p = some l) = false := by simp [hn, hk]
        rw [this, if_neg (by first | exact hk | exact hk'), hd]

/-! ### selection by the simple stores -/

theorem fillStore_ok {σ : Type} {ops : VMOps σ} {c : ViewCls} {ps : List MatchPattern}
    (h : ∀ p ∈ ps, ∀ s, ∃ s', ops.add p s = .ok s') : ∃ s, fillStore ops c ps = .ok s := by
  revert h
  refine snoc_ind (P := fun ps => (∀ p ∈ ps, ∀ s, ∃ s', ops.add p s = .ok s') → ∃ s, fillStore ops c ps = .ok s) ?_ ?_ ps
  · intro _; exact ⟨_, rfl⟩
  · intro ps p ih h
    obtain ⟨s, hs⟩ := ih (fun q hq => h q (by simp [hq]))
    rw [fillStore_concat, hs]
    exact h p (by simp) s

/-- When a child whose class is not a multi class is selected for a piece. -/
def SelU (pp : ParsedPiece) (p : MatchPattern) : Prop :=
  match p.cls with
  | .piece => pp.piece = p.str
  | .length => ∃ l, pp.pieceLength = .ok l ∧ headNum p = some l
  | .fuzzy => True
  | _ => False

/-- The classes of single units. -/
def SimpleCls (c : ViewCls) : Prop := c = .piece ∨ c = .length ∨ c = .fuzzy

instance : DecidablePred SimpleCls := fun _ => inferInstanceAs (Decidable (_ ∨ _))

theorem unitMP_simple (u : PatternUnit) : SimpleCls (unitMP u).cls := by
  show SimpleCls (unitCls u)
  unfold unitCls SimpleCls
  split
  · exact .inl rfl
  · split
    · exact .inr (.inr rfl)
    · exact .inr (.inl rfl)

/-- Texts identify the patterns. -/
def StrInj (ps : List MatchPattern) : Prop := ∀ p ∈ ps, ∀ q ∈ ps, p.str = q.str → p = q

/-- Among the length patterns the lengths identify the patterns. -/
def LenUniq (ps : List MatchPattern) : Prop :=
  ∀ p ∈ ps, ∀ q ∈ ps, p.cls = .length → q.cls = .length → headNum p = headNum q → p = q

theorem store_sound {c : ViewCls} (hc : SimpleCls c) {ps : List MatchPattern} (hps : ∀ p ∈ ps, p.cls = c) {s : Store}
    (h : fillStore unitOps c ps = .ok s) {pp : ParsedPiece} {keys : List Str}
    (hm : s.matches_ (some pp) = .ok keys) {k : Str} (hk : k ∈ keys) : ∃ q ∈ ps, q.str = k ∧ SelU pp q := by
  rcases hc with rfl | rfl | rfl
  · obtain ⟨d, rfl, hd⟩ := fill_piece h
    simp only [Store.matches_, Except.ok.injEq] at hm
    subst hm
    rw [hd] at hk
    split at hk
    · rename_i hin
      simp at hk
      obtain ⟨q, hq, e⟩ := List.mem_map.mp hin
      refine ⟨q, hq, by rw [hk]; exact e, ?_⟩
      simp only [SelU, hps q hq]
      exact e.symm
    · simp at hk
  · obtain ⟨d, rfl, hd⟩ := fill_length h
    simp only [Store.matches_] at hm
    obtain ⟨l, hl, hm⟩ := bind_ok hm
    simp only [pure, Except.pure, Except.ok.injEq] at hm
    subst hm
    rw [hd] at hk
    simp only [Option.mem_toList, Option.map_eq_some_iff] at hk
    obtain ⟨q, hq, rfl⟩ := hk
    have h1 := List.mem_of_find?_eq_some hq
    have h2 := List.find?_some hq
    simp at h1 h2
    refine ⟨q, h1, rfl, ?_⟩
    simp only [SelU, hps q h1]
    exact ⟨l, hl, h2⟩
  · have := fill_fuzzy h
    subst this
    simp only [Store.matches_, Except.ok.injEq] at hm
    subst hm
    obtain ⟨q, hq, rfl⟩ := List.mem_map.mp hk
    exact ⟨q, hq, rfl, by simp only [SelU, hps q hq]⟩

theorem store_complete {c : ViewCls} {ps : List MatchPattern} (hps : ∀ p ∈ ps, p.cls = c) {s : Store}
    (h : fillStore unitOps c ps = .ok s) (hl : c = .piece ∨ LenUniq ps) {pp : ParsedPiece} {p : MatchPattern} (hp : p ∈ ps)
    (hsel : SelU pp p) : ∃ keys, s.matches_ (some pp) = .ok keys ∧ p.str ∈ keys := by
  have hpc := hps p hp
  subst hpc
  unfold SelU at hsel
  cases hcl : p.cls with
  | piece =>
    rw [hcl] at h hsel
    obtain ⟨d, rfl, hd⟩ := fill_piece h
    refine ⟨_, rfl, ?_⟩
    rw [hd]
    simp only at hsel
    rw [hsel, if_pos (List.mem_map.mpr ⟨p, hp, rfl⟩)]
    simp
  | length =>
    rw [hcl] at h hsel
    obtain ⟨d, rfl, hd⟩ := fill_length h
    obtain ⟨l, h1, h2⟩ := hsel
    have hl : LenUniq ps := hl.resolve_left (by rw [hcl]; decide)
    refine ⟨(Dict.get? l d).toList, by simp only [Store.matches_, h1, bind, Except.bind, pure, Except.pure], ?_⟩
    rw [hd]
    cases hf : ps.reverse.find? (fun p => decide (headNum p = some l)) with
    | none =>
      have := List.find?_eq_none.mp hf p (by simpa using hp)
      simp [h2] at this
    | some q =>
      have h3 := List.mem_of_find?_eq_some hf
      have h4 := List.find?_some hf
      simp at h3 h4
      have : q = p := hl q h3 p hp ((hps q h3).trans hcl) hcl (h4.trans h2.symm)
      simp [this]
  | fuzzy =>
    rw [hcl] at h
    have := fill_fuzzy h
    subst this
    exact ⟨_, rfl, List.mem_map.mpr ⟨p, hp, rfl⟩⟩
  | multi => rw [hcl] at hsel; exact hsel.elim
  | mixed => rw [hcl] at hsel; exact hsel.elim
  | lastDot => rw [hcl] at hsel; exact hsel.elim

theorem store_total {c : ViewCls} (hc : SimpleCls c) {ps : List MatchPattern} {s : Store}
    (h : fillStore unitOps c ps = .ok s) {pp : ParsedPiece} (hpl : ∃ l, pp.pieceLength = .ok l) :
    ∃ keys, s.matches_ (some pp) = .ok keys := by
  rcases hc with rfl | rfl | rfl
  · obtain ⟨d, rfl, hd⟩ := fill_piece h; exact ⟨_, rfl⟩
  · obtain ⟨d, rfl, hd⟩ := fill_length h
    obtain ⟨l, hl⟩ := hpl
    exact ⟨_, by simp only [Store.matches_, hl, bind, Except.bind, pure, Except.pure]; rfl⟩
  · rw [fill_fuzzy h]; exact ⟨_, rfl⟩

theorem LenUniq.filter {ps : List MatchPattern} (h : LenUniq ps) (f : MatchPattern → Bool) : LenUniq (ps.filter f) :=
  fun p hp q hq => h p (List.mem_filter.mp hp).1 q (List.mem_filter.mp hq).1

theorem unit_sel_sound {ps : List MatchPattern} (hs : ∀ p ∈ ps, SimpleCls p.cls) (hi : StrInj ps) {pp : ParsedPiece}
    {p : MatchPattern} (hp : p ∈ ps) (h : Sel unitOps (some pp) ps p) : SelU pp p := by
  obtain ⟨vms, c, s, keys, h1, h2, h3, h4⟩ := h
  obtain ⟨⟨q0, hq0, e0⟩, hf⟩ := ((addAll_spec h1).2 (c, s)).mp h2
  simp only at e0 hf
  have hc : SimpleCls c := e0 ▸ hs q0 hq0
  obtain ⟨q, hq, e, hsel⟩ := store_sound hc (by intro p hp; simpa using (List.mem_filter.mp hp).2) hf h3 h4
  have := hi q (List.mem_filter.mp hq).1 p hp e
  rw [← this]; exact hsel

theorem unit_sel_complete {ps : List MatchPattern} (hne : ∀ p ∈ ps, p.units ≠ []) (hl : LenUniq ps) {pp : ParsedPiece}
    {p : MatchPattern} (hp : p ∈ ps) (h : SelU pp p) : Sel unitOps (some pp) ps p := by
  obtain ⟨vms, hv⟩ := addAll_ok (ops := unitOps) (fun p hp => unitAdd_total (hne p hp))
  have hfill : ∃ s, fillStore unitOps p.cls (ps.filter (fun q => decide (q.cls = p.cls))) = .ok s := fillStore_ok
    (fun q hq s => unitAdd_total (hne q (List.mem_filter.mp hq).1) s)
  obtain ⟨s, hs⟩ := hfill
  have hin := ((addAll_spec hv).2 (p.cls, s)).mpr ⟨⟨p, hp, rfl⟩, hs⟩
  obtain ⟨keys, h1, h2⟩ := store_complete (c := p.cls) (by intro q hq; simpa using (List.mem_filter.mp hq).2) hs
    (.inr (hl.filter _)) (p := p) (List.mem_filter.mpr ⟨hp, by simp⟩) h
  exact ⟨vms, p.cls, s, keys, hv, hin, h1, h2⟩

end OsUrl
