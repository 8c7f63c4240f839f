import Verif.Proofs.Grow2
import Verif.Props.C11

/-! `PatternMaker.load` over a history of URLs, in closed form. -/

namespace OsUrl
open Spec

/-- What `PatternMaker.load` gets out of an accepted URL. -/
structure Rec where
  m : URLMeta
  pps : List ParsedPiece
  md : Option Str

/-- The keys of its path. -/
def Rec.keys (r : Rec) : List Str := r.pps.map (·.piece)

/-- Its fuzzy rules. -/
def Rec.rules (r : Rec) : List Str := r.pps.map (·.fuzzyRule)

/-- Its sub-maker. -/
def Rec.sid (md5 : Str → Str) (r : Rec) : Str := fuzzyDigest md5 r.m (.pieces r.pps)

/-- The accepted loads of a history of URLs with metas. -/
def accepted : List (Str × Option Str) → List Rec
  | [] => []
  | (u, md) :: rest =>
    match parse u with
    | .ok (m, .pieces pps) => ⟨m, pps, md⟩ :: accepted rest
    | _ => accepted rest

theorem accepted_append (a b : List (Str × Option Str)) : accepted (a ++ b) = accepted a ++ accepted b := by
  induction a with
  | nil => rfl
  | cons x xs ih =>
    obtain ⟨u, md⟩ := x
    simp only [List.cons_append, accepted]
    split <;> simp [ih]

theorem mem_accepted {h : List (Str × Option Str)} {r : Rec} :
    r ∈ accepted h ↔ ∃ u, (u, r.md) ∈ h ∧ parse u = .ok (r.m, .pieces r.pps) := by
  induction h with
  | nil => simp [accepted]
  | cons x xs ih =>
    obtain ⟨u, md⟩ := x
    simp only [accepted]
    split
    · rename_i m pps e
      rw [List.mem_cons, ih]
      constructor
      · rintro (rfl | ⟨u', h1, h2⟩)
        · exact ⟨u, by simp, e⟩
        · exact ⟨u', by simp [h1], h2⟩
      · rintro ⟨u', h1, h2⟩
        rw [List.mem_cons] at h1
        rcases h1 with h1 | h1
        · injection h1 with a b
          subst a
          rw [e] at h2
          injection h2 with h2; injection h2 with h2 h3; injection h3 with h3
          left; cases r; simp_all
        · exact .inr ⟨u', h1, h2⟩
    · rename_i hno
      rw [ih]
      constructor
      · rintro ⟨u', h1, h2⟩; exact ⟨u', by simp [h1], h2⟩
      · rintro ⟨u', h1, h2⟩
        rw [List.mem_cons] at h1
        rcases h1 with h1 | h1
        · injection h1 with a b
          subst a
          exact absurd h2 (hno _ _)
        · exact ⟨u', h1, h2⟩

/-- md5 does not collide on the structures of these loads. -/
def NoCollision (md5 : Str → Str) (rs : List Rec) : Prop :=
  ∀ r ∈ rs, ∀ r' ∈ rs, md5 (pack r.m r.rules) = md5 (pack r'.m r'.rules) → pack r.m r.rules = pack r'.m r'.rules

theorem sid_eq_iff {md5 : Str → Str} {h : List (Str × Option Str)} (hc : NoCollision md5 (accepted h)) {r r' : Rec}
    (hr : r ∈ accepted h) (hr' : r' ∈ accepted h) :
    r.sid md5 = r'.sid md5 ↔ r.m = r'.m ∧ r.rules = r'.rules := by
  obtain ⟨u, _, e⟩ := mem_accepted.mp hr
  obtain ⟨u', _, e'⟩ := mem_accepted.mp hr'
  exact C11_digest md5 u u' r.m r'.m r.pps r'.pps e e' (hc r hr r' hr')

theorem accepted_depth {h : List (Str × Option Str)} {r : Rec} (hr : r ∈ accepted h) :
    r.pps.length = r.m.depth ∧ 0 < r.m.depth := by
  obtain ⟨u, _, e⟩ := mem_accepted.mp hr
  obtain ⟨pieces, h1, h2⟩ := parse_pieces e
  rw [mapM_ok_length h2]
  obtain ⟨ps, vs, fs, rfl, hst⟩ := analyzeUrl_struct h1
  have hp : ps ≠ [] := hst.path.ne
  have hq := hst.query.length
  have hf := hst.frag
  have hd := hst.depth
  have : 0 < ps.length := List.length_pos_iff.mpr hp
  unfold URLMeta.depth
  simp only [List.length_append]
  constructor <;> omega

/-- One more insertion. -/
def insStep (L : List Ins) (r : Rec) : List Ins :=
  L ++ [⟨r.pps.map (fun pp => (pp, none)), if r.keys ∈ L.map Ins.keys then 0 else 1, r.md.toList⟩]

/-- The insertions that the loads of one sub-maker amount to: a path seen before counts 0. -/
def insOf (g : List Rec) : List Ins := g.foldl insStep []

theorem insOf_concat (g : List Rec) (r : Rec) : insOf (g ++ [r]) = insStep (insOf g) r := by
  simp [insOf, List.foldl_append]

/-- The sub-maker after the loads `g`. -/
def makerOf (g : List Rec) : MakerSt :=
  match g with
  | [] => MakerSt.new ⟨0, [], false⟩
  | r :: _ => ⟨r.m, growTree r.m.depth (insOf g)⟩

theorem insKeys (r : Rec) (c : Int) (ms : List Str) : Ins.keys ⟨r.pps.map (fun pp => (pp, none)), c, ms⟩ = r.keys := by
  simp [Ins.keys, Rec.keys]

theorem insOf_keys (g : List Rec) : (insOf g).map Ins.keys = g.map Rec.keys := by
  refine snoc_ind (P := fun g => (insOf g).map Ins.keys = g.map Rec.keys) rfl ?_ g
  intro g r ih
  rw [insOf_concat, insStep, List.map_append, ih, List.map_append]
  simp [insKeys]

theorem insOf_length {g : List Rec} {n : Nat} (hg : ∀ r ∈ g, r.pps.length = n) : ∀ i ∈ insOf g, i.path.length = n := by
  revert hg
  refine snoc_ind (P := fun g => (∀ r ∈ g, r.pps.length = n) → ∀ i ∈ insOf g, i.path.length = n) ?_ ?_ g
  · intro _ i hi; simp [insOf] at hi
  · intro g r ih hg i hi
    rw [insOf_concat, insStep, List.mem_append] at hi
    rcases hi with hi | hi
    · exact ih (fun r hr => hg r (by simp [hr])) i hi
    · rw [List.mem_singleton] at hi; subst hi
      simp [hg r (by simp)]

theorem addMeta_updateMeta (d : NodeData) (md : Option Str) : d.addMeta md = d.updateMeta (some md.toList) := by
  cases md with
  | none => rfl
  | some m => rfl

theorem updateMeta_incr (d : NodeData) (ms : Option (List Str)) (a c : Int) :
    ((d.incr a).updateMeta ms).incr c = (d.incr (a + c)).updateMeta ms := by
  unfold NodeData.updateMeta NodeData.incr
  split <;> simp [Int.add_assoc]

theorem growTree_concat {n : Nat} {L : List Ins} (hL : ∀ i ∈ L, i.path.length = n) {i : Ins} (hi : i.path.length = n) :
    (⟨(buildPath i.count (fun d => d.updateMeta (some i.metas)) i.path (growTree n L).root (growTree n L).kids).1,
      (buildPath i.count (fun d => d.updateMeta (some i.metas)) i.path (growTree n L).root (growTree n L).kids).2⟩
      : Tree NodeData) = growTree n (L ++ [i]) := by
  have := buildPath_grow n L hL i hi (growTree n L).root
  rw [show (growTree n L).kids = grow n L from rfl, this]
  simp [growTree, List.foldl_append]

theorem load_grow {m : URLMeta} {n : Nat} {L : List Ins} (hL : ∀ i ∈ L, i.path.length = n + 1) {r : Rec}
    (hr : r.pps.length = n + 1) :
    MakerSt.load ⟨m, growTree (n + 1) L⟩ r.pps r.md =
      .ok (⟨m, growTree (n + 1) (insStep L r)⟩, !decide (r.keys ∈ L.map Ins.keys)) := by
  have hne : r.pps ≠ [] := by intro e; simp [e] at hr
  have hnew := isNewPath_grow n L hL r.keys (by simp [Rec.keys, hr])
  have hlen : (r.pps.map (fun pp => ((pp, none) : ParsedPiece × Option Str))).length = n + 1 := by simp [hr]
  have hb := growTree_concat hL (i := ⟨r.pps.map (fun pp => (pp, none)),
    if r.keys ∈ L.map Ins.keys then 0 else 1, r.md.toList⟩) hlen
  have hkeys : (r.pps.map (fun pp => ((pp, none) : ParsedPiece × Option Str))).map (·.1.piece) = r.pps.map (·.piece) := by
    simp
  unfold MakerSt.load buildFromParsedPieces
  cases hp : r.pps with
  | nil => exact absurd hp hne
  | cons pp rest =>
    simp only [← hp]
    rw [show (growTree (n + 1) L).kids = grow (n + 1) L from rfl] at *
    rw [show r.pps.map (·.piece) = r.keys from rfl] at *
    rw [hnew]
    simp only [addMeta_updateMeta]
    by_cases h : r.keys ∈ L.map Ins.keys
    · have hi := incrPath_buildPath (0 - 1) 1 (fun d => d.updateMeta (some r.md.toList))
        (fun d => updateMeta_incr d _ 1 (0 - 1)) (r.pps.map (fun pp => (pp, none))) (growTree (n + 1) L).root
        (grow (n + 1) L)
      rw [hkeys] at hi
      simp only [h, decide_true, Bool.not_true, Bool.not_false, Bool.and_self, if_true] at hb ⊢
      rw [show (1 : Int) + (0 - 1) = 0 from rfl] at hi
      simp only [hi, bind, Except.bind, pure, Except.pure, hb]
      simp [insStep, h]
    · simp only [h, decide_false, Bool.not_true, Bool.not_false, Bool.and_false, if_false] at hb ⊢
      simp only [bind, Except.bind, pure, Except.pure, insStep, h, if_false, ← hb]
      simp

/-- The sub-makers after a history, ignoring the URLs that are rejected. -/
def loadAll (md5 : Str → Str) (hist : List (Str × Option Str)) : PatternMakerSt :=
  hist.foldl (fun st um => match st.load md5 um.1 um.2 with | .ok (st', _) => st' | .error _ => st) []

theorem load_parse (md5 : Str → Str) (st : PatternMakerSt) {u : Str} (md : Option Str) {m : URLMeta} {pps : List ParsedPiece}
    (h : parse u = .ok (m, .pieces pps)) :
    st.load md5 u md = (do
      let sid := fuzzyDigest md5 m (.pieces pps)
      let (mk, isNew) ← ((Dict.get? sid st).getD (MakerSt.new m)).load pps md
      return (Dict.upd sid (fun _ => mk) st, isNew)) := by
  unfold PatternMakerSt.load; rw [h]; rfl

theorem load_reject (md5 : Str → Str) (st : PatternMakerSt) {u : Str} (md : Option Str)
    (h : ∀ m pps, parse u ≠ .ok (m, .pieces pps)) : ∃ e, st.load md5 u md = .error e := by
  unfold PatternMakerSt.load
  cases hp : parse u with
  | error e => exact ⟨e, rfl⟩
  | ok x =>
    obtain ⟨m, x⟩ := x
    cases x with
    | patterns ps => exact ⟨_, rfl⟩
    | pieces pps => exact absurd hp (h m pps)

/-- The closed form of the state, and of the answer of the next load. -/
theorem load_step (md5 : Str → Str) {hist : List (Str × Option Str)} {st : PatternMakerSt}
    (hst : st = (groupBy (Rec.sid md5) (accepted hist)).map (fun kg => (kg.1, makerOf kg.2)))
    {u : Str} {md : Option Str} {m : URLMeta} {pps : List ParsedPiece} (h : parse u = .ok (m, .pieces pps))
    (hc : NoCollision md5 (accepted (hist ++ [(u, md)]))) :
    st.load md5 u md = .ok
      ((groupBy (Rec.sid md5) (accepted (hist ++ [(u, md)]))).map (fun kg => (kg.1, makerOf kg.2)),
        !decide (∃ r ∈ accepted hist, r.m = m ∧ r.rules = pps.map (·.fuzzyRule) ∧ r.keys = pps.map (·.piece))) := by
  have hacc : accepted (hist ++ [(u, md)]) = accepted hist ++ [⟨m, pps, md⟩] := by
    rw [accepted_append]; simp [accepted, h]
  have hrr : (⟨m, pps, md⟩ : Rec) ∈ accepted (hist ++ [(u, md)]) := by rw [hacc]; simp
  obtain ⟨hlen, hpos⟩ := accepted_depth hrr
  have hmem : ∀ r ∈ accepted hist, r ∈ accepted (hist ++ [(u, md)]) := by
    intro r hr; rw [accepted_append]; simp [hr]
  simp only at hlen hpos
  obtain ⟨n, hn⟩ : ∃ n, m.depth = n + 1 := ⟨m.depth - 1, by omega⟩
  rw [load_parse md5 st md h, hacc, groupBy_concat]
  have hsid : fuzzyDigest md5 m (.pieces pps) = Rec.sid md5 ⟨m, pps, md⟩ := rfl
  rw [hsid]
  subst hst
  dsimp only
  rw [Dict.get?_map makerOf, get?_groupBy]
  by_cases hk : Rec.sid md5 ⟨m, pps, md⟩ ∈ (accepted hist).map (Rec.sid md5)
  · simp only [hk, if_true, Option.map_some, Option.getD_some]
    have hget := get?_groupBy (Rec.sid md5) (accepted hist) (Rec.sid md5 ⟨m, pps, md⟩)
    simp only [hk, if_true] at hget
    have hg : ∀ r ∈ (accepted hist).filter (fun x => decide (Rec.sid md5 x = Rec.sid md5 ⟨m, pps, md⟩)),
        r.m = m ∧ r.rules = pps.map (·.fuzzyRule) ∧ r ∈ accepted hist := by
      intro r hr
      rw [List.mem_filter, decide_eq_true_eq] at hr
      have := (sid_eq_iff hc (hmem r hr.1) hrr).mp hr.2
      exact ⟨this.1, this.2, hr.1⟩
    have hg' : ∀ r ∈ accepted hist, r.m = m → r.rules = pps.map (·.fuzzyRule) →
        r ∈ (accepted hist).filter (fun x => decide (Rec.sid md5 x = Rec.sid md5 ⟨m, pps, md⟩)) := by
      intro r hr h1 h2
      rw [List.mem_filter, decide_eq_true_eq]
      exact ⟨hr, (sid_eq_iff hc (hmem r hr) hrr).mpr ⟨h1, h2⟩⟩
    have hne : (accepted hist).filter (fun x => decide (Rec.sid md5 x = Rec.sid md5 ⟨m, pps, md⟩)) ≠ [] := by
      intro e
      obtain ⟨r, hr, e2⟩ := List.mem_map.mp hk
      have := List.filter_eq_nil_iff.mp e r hr
      simp [e2] at this
    generalize (accepted hist).filter (fun x => decide (Rec.sid md5 x = Rec.sid md5 ⟨m, pps, md⟩)) = g at *
    have hm : makerOf g = ⟨m, growTree (n + 1) (insOf g)⟩ := by
      cases g with
      | nil => exact absurd rfl hne
      | cons r g => simp only [makerOf]; rw [(hg r (by simp)).1, hn]
    have hgl : ∀ r ∈ g, r.pps.length = n + 1 := by
      intro r hr
      have := (accepted_depth (hmem r (hg r hr).2.2)).1
      rw [this, (hg r hr).1, hn]
    have hl := load_grow (m := m) (insOf_length hgl) (r := ⟨m, pps, md⟩) (by rw [← hn]; exact hlen)
    simp only at hl
    rw [hm, hl]
    simp only [bind, Except.bind, pure, Except.pure]
    congr 2
    · rw [Dict.upd_map makerOf _ _ (fun _ => ⟨m, growTree (n + 1) (insStep (insOf g) ⟨m, pps, md⟩)⟩)]
      rw [hget]
      simp only [Option.getD_some]
      rw [← insOf_concat]
      cases g with
      | nil => exact absurd rfl hne
      | cons r g => simp only [List.cons_append, makerOf]; rw [(hg r (by simp)).1, hn]
    · congr 1
      rw [decide_eq_decide, insOf_keys, List.mem_map]
      constructor
      · rintro ⟨r, hr, e⟩
        exact ⟨r, (hg r hr).2.2, (hg r hr).1, (hg r hr).2.1, e⟩
      · rintro ⟨r, hr, h1, h2, h3⟩
        exact ⟨r, hg' r hr h1 h2, h3⟩
  · simp only [hk, if_false, Option.map_none, Option.getD_none]
    have hget := get?_groupBy (Rec.sid md5) (accepted hist) (Rec.sid md5 ⟨m, pps, md⟩)
    simp only [hk, if_false] at hget
    have hnew : MakerSt.new m = ⟨m, growTree (n + 1) []⟩ := by
      unfold MakerSt.new emptyTree growTree; rw [grow_nil]; rfl
    have hl := load_grow (m := m) (n := n) (L := []) (by simp) (r := ⟨m, pps, md⟩) (by rw [← hn]; exact hlen)
    simp only at hl
    rw [hnew, hl]
    simp only [bind, Except.bind, pure, Except.pure]
    congr 2
    · rw [Dict.upd_map makerOf _ _ (fun _ => ⟨m, growTree (n + 1) (insStep [] ⟨m, pps, md⟩)⟩)]
      rw [hget]
      simp only [Option.getD_none, List.nil_append, makerOf]
      rw [hn]; rfl
    · congr 1
      rw [decide_eq_decide]
      simp only [List.map_nil, List.not_mem_nil, false_iff]
      rintro ⟨r, hr, h1, h2, _⟩
      exact hk (List.mem_map.mpr ⟨r, hr, (sid_eq_iff hc (hmem r hr) hrr).mpr ⟨h1, h2⟩⟩)

theorem NoCollision.of_append {md5 : Str → Str} {a b : List Rec} (h : NoCollision md5 (a ++ b)) : NoCollision md5 a :=
  fun r hr r' hr' => h r (by simp [hr]) r' (by simp [hr'])

theorem loadAll_concat (md5 : Str → Str) (hist : List (Str × Option Str)) (um : Str × Option Str) :
    loadAll md5 (hist ++ [um]) =
      match (loadAll md5 hist).load md5 um.1 um.2 with | .ok (st', _) => st' | .error _ => loadAll md5 hist := by
  unfold loadAll; rw [List.foldl_append]; rfl

/-- The state after any history. -/
theorem loadAll_eq (md5 : Str → Str) (hist : List (Str × Option Str)) (hc : NoCollision md5 (accepted hist)) :
    loadAll md5 hist = (groupBy (Rec.sid md5) (accepted hist)).map (fun kg => (kg.1, makerOf kg.2)) := by
  revert hc
  refine snoc_ind (P := fun hist => NoCollision md5 (accepted hist) →
    loadAll md5 hist = (groupBy (Rec.sid md5) (accepted hist)).map (fun kg => (kg.1, makerOf kg.2))) ?_ ?_ hist
  · intro _; rfl
  · intro hist um ih hc
    obtain ⟨u, md⟩ := um
    have ih := ih (by rw [accepted_append] at hc; exact hc.of_append)
    rw [loadAll_concat]
    by_cases h : ∃ m pps, parse u = .ok (m, .pieces pps)
    · obtain ⟨m, pps, h⟩ := h
      rw [load_step md5 ih h hc]
    · have h' : ∀ m pps, parse u ≠ .ok (m, .pieces pps) := fun m pps e => h ⟨m, pps, e⟩
      obtain ⟨e, he⟩ := load_reject md5 (loadAll md5 hist) md h'
      simp only [he]
      rw [ih, accepted_append]
      have : accepted [(u, md)] = [] := by
        simp only [accepted]
      rw [this, List.append_nil]

end OsUrl
