import Verif.Props.C31
import Verif.Spec.Lazy

/-! The generator of `make()`: what one `next` does. -/

namespace OsUrl
open Spec

theorem accepted_structs (md5 : Str → Str) (H : List (Str × Option Str)) :
    (accepted H).map (Rec.sid md5) = H.filterMap (fun um => structOf md5 um.1) := by
  induction H with
  | nil => rfl
  | cons um H ih =>
    obtain ⟨u, md⟩ := um
    rw [List.filterMap_cons]
    unfold accepted structOf
    cases parse u with
    | error e => exact ih
    | ok r =>
      obtain ⟨m, p⟩ := r
      cases p with
      | pieces pps => simp only [List.map_cons]; rw [ih]; rfl
      | patterns ps => exact ih

theorem structs_eq (md5 : Str → Str) (H : List (Str × Option Str)) : structs md5 H = (groupBy (Rec.sid md5) (accepted H)).map (·.1) := by
  rw [structs, ← accepted_structs, firsts_eq_uniq, groupBy_eq, List.map_map]
  exact (List.map_id _).symm

theorem loadAll_structs (md5 : Str → Str) {H : List (Str × Option Str)} (hc : NoCollision md5 (accepted H)) :
    (loadAll md5 H).map (·.1) = structs md5 H := by
  rw [loadAll_eq md5 H hc, structs_eq, List.map_map]
  rfl

theorem accepted_ofStruct (md5 : Str → Str) (s : Str) (H : List (Str × Option Str)) :
    accepted (ofStruct md5 s H) = (accepted H).filter (fun r => decide (r.sid md5 = s)) := by
  induction H with
  | nil => rfl
  | cons um H ih =>
    obtain ⟨u, md⟩ := um
    unfold ofStruct at ih ⊢
    rw [List.filter_cons]
    cases hp : parse u with
    | error e =>
      have h1 : structOf md5 u = none := by unfold structOf; rw [hp]
      rw [if_neg (by simp [h1]), ih]
      conv => rhs; rw [accepted, hp]
    | ok r =>
      obtain ⟨m, p⟩ := r
      cases p with
      | patterns ps =>
        have h1 : structOf md5 u = none := by unfold structOf; rw [hp]
        rw [if_neg (by simp [h1]), ih]
        conv => rhs; rw [accepted, hp]
      | pieces pps =>
        have h1 : structOf md5 u = some (fuzzyDigest md5 m (.pieces pps)) := by unfold structOf; rw [hp]
        have e : accepted ((u, md) :: H) = ⟨m, pps, md⟩ :: accepted H := by rw [accepted, hp]
        rw [e, List.filter_cons]
        by_cases hs : fuzzyDigest md5 m (.pieces pps) = s
        · rw [if_pos (by simp [h1, hs]), if_pos (by simp [Rec.sid, hs]), accepted, hp]
          simp only
          rw [ih]
        · rw [if_neg (by simp [h1, hs]), if_neg (by simp [Rec.sid, hs]), ih]

theorem groupBy_const {κ α : Type} [DecidableEq κ] {key : α → κ} {xs : List α} {k : κ} (hne : xs ≠ []) (h : ∀ x ∈ xs, key x = k) :
    groupBy key xs = [(k, xs)] := by
  rw [groupBy_eq, ← firsts_eq_uniq]
  have : xs.map key = xs.map (fun _ => k) := List.map_congr_left h
  rw [this]
  have h2 : firsts (xs.map (fun _ => k)) = [k] := by
    clear h this
    induction xs with
    | nil => exact absurd rfl hne
    | cons x xs ih =>
      rw [List.map_cons, firsts]
      congr 1
      cases xs with
      | nil => rfl
      | cons y ys => rw [ih (by simp)]; simp
  rw [h2, List.map_cons, List.map_nil]
  congr 2
  exact List.filter_eq_self.mpr (fun x hx => by simp [h x hx])

/-- The sub-maker of the loads with one digest. -/
theorem loadAll_ofStruct (md5 : Str → Str) {H : List (Str × Option Str)} (hc : NoCollision md5 (accepted H)) {s : Str} {g : List Rec}
    (hg : (s, g) ∈ groupBy (Rec.sid md5) (accepted H)) : loadAll md5 (ofStruct md5 s H) = [(s, makerOf g)] := by
  obtain ⟨-, e⟩ := mem_groupBy hg
  have hc' : NoCollision md5 (accepted (ofStruct md5 s H)) := by
    rw [accepted_ofStruct]
    exact fun r hr r' hr' => hc r (List.mem_filter.mp hr).1 r' (List.mem_filter.mp hr').1
  rw [loadAll_eq md5 _ hc', accepted_ofStruct, ← e, groupBy_const (groupBy_ne_nil hg)
    (fun r hr => by rw [e] at hr; exact of_decide_eq_true (List.mem_filter.mp hr).2)]
  rfl

/-- One sub-maker that is the loaded one up to patterns: its clusters. -/
theorem yields_spec (md5 : Str → Str) {h : Runtime} {mcn : Int} (hm : 2 ≤ mcn) {H : List (Str × Option Str)}
    (hc : NoCollision md5 (accepted H)) (hh : NoHashClash h (UrlRow H)) {st : PatternMakerSt} (hst : st.unpat = loadAll md5 H)
    {s : Str} {mk : MakerSt} (hk : (s, mk) ∈ st) :
    ∃ ys mk', mk.yields h mcn s = .ok (ys, mk') ∧ mk'.unpat = mk.unpat ∧ Turn md5 h mcn s H ys := by
  obtain ⟨h1, mk', h2, h3⟩ := state_key md5 hm hc hh hst _ hk
  simp only at h1 h2 h3
  have hmem : (s, mk.unpat) ∈ loadAll md5 H := by rw [← hst]; exact List.mem_map.mpr ⟨_, hk, rfl⟩
  rw [loadAll_eq md5 H hc] at hmem
  obtain ⟨⟨s', g⟩, hg, e⟩ := List.mem_map.mp hmem
  injection e with e1 e2
  subst e1
  simp only at e2
  have hone := loadAll_ofStruct md5 hc hg
  -- the clusters of the sub-maker
  have hne := groupBy_ne_nil hg
  obtain ⟨-, hgf⟩ := mem_groupBy hg
  have hga : ∀ r ∈ g, r ∈ accepted H := fun r hr => by rw [hgf] at hr; exact (List.mem_filter.mp hr).1
  have hsid : ∀ r ∈ g, r.sid md5 = s' := fun r hr => by rw [hgf] at hr; exact of_decide_eq_true (List.mem_filter.mp hr).2
  obtain ⟨r, g', rfl⟩ := List.exists_cons_of_ne_nil hne
  have hall : ∀ r' ∈ r :: g', r'.m = r.m ∧ r'.rules = r.rules := fun r' hr' =>
    (sid_eq_iff hc (hga r' hr') (hga r (by simp))).mp ((hsid r' hr').trans (hsid r (by simp)).symm)
  obtain ⟨Cs, ⟨hmake, hcl⟩, -⟩ := make_group hm hh hne hga hall
  have hmk : mk.make h mcn = .ok (Cs.map (doneTree r.m.depth)) := by rw [h1, ← e2]; exact hmake
  have hmeta : mk.urlMeta = r.m := by
    have : mk.unpat.urlMeta = r.m := by rw [← e2]; rfl
    exact this
  have hCs : Cs ≠ [] := by
    rintro rfl
    have := hcl.perm.length_eq
    simp only [List.flatten_nil, List.map_nil, List.length_nil] at this
    have hins : insOf (r :: g') ≠ [] := by
      intro e
      have := congrArg List.length (insOf_keys (r :: g'))
      rw [e] at this
      simp at this
    exact norm_ne_nil hins (List.eq_nil_of_length_eq_zero this.symm)
  have hown : ∃ own, mk.ownRoot h mcn = .ok own ∧ (own = true → ∃ t, mk.make h mcn = .ok [t]) := by
    unfold MakerSt.ownRoot
    unfold MakerSt.after at h2
    by_cases hcnt : mk.tree.root.count ≤ 0
    · rw [if_pos hcnt]; exact ⟨false, rfl, by simp⟩
    · rw [if_neg hcnt] at h2 ⊢
      cases hpr : process h (clusterNest h 1) mcn mk.urlMeta false mk.tree with
      | error e => rw [hpr] at h2; cases h2
      | ok x =>
        obtain ⟨t', b⟩ := x
        refine ⟨!b, rfl, ?_⟩
        intro hb
        have hb' : b = false := by cases b <;> simp_all
        subst hb'
        refine ⟨t', ?_⟩
        show clusterWith (clusterNest h 1) h mcn mk.urlMeta false (mk.tree.paths.length + 1) mk.tree = _
        rw [clusterWith, if_neg hcnt, hpr]
        rfl
  obtain ⟨own, ho1, ho2⟩ := hown
  refine ⟨(Cs.map (doneTree r.m.depth)).map (fun t => ⟨mk.urlMeta, t, if own then some s' else none⟩), mk', ?_, h3, ?_, ?_, ?_⟩
  · unfold MakerSt.yields
    rw [hmk, ho1, h2]
    rfl
  · rw [hone]
    unfold PatternMakerSt.make
    simp only [List.mapM_cons, List.mapM_nil]
    have : (makerOf (r :: g')).make h mcn = .ok (Cs.map (doneTree r.m.depth)) := hmake
    rw [this]
    simp only [bind, Except.bind, pure, Except.pure, List.flatten_cons, List.flatten_nil, List.append_nil, List.map_map]
    have : (makerOf (r :: g')).urlMeta = mk.urlMeta := hmeta.symm
    rw [this]
    rfl
  · simp [hCs]
  · intro y hy hyo
    obtain ⟨t, ht, rfl⟩ := List.mem_map.mp hy
    cases own with
    | false => simp at hyo
    | true =>
      refine ⟨rfl, ?_⟩
      obtain ⟨t0, ht0⟩ := ho2 rfl
      rw [hmk] at ht0
      injection ht0 with ht0
      rw [ht0] at ht ⊢
      simp only [List.mem_singleton] at ht
      rw [ht]
      rfl

theorem unpat_set {st : PatternMakerSt} {pos : Nat} {s : Str} {mk mk' : MakerSt} (hp : st[pos]? = some (s, mk)) (he : mk'.unpat = mk.unpat) :
    PatternMakerSt.unpat (st.set pos (s, mk')) = st.unpat := by
  unfold PatternMakerSt.unpat
  rw [List.map_set]
  simp only [he]
  refine List.ext_getElem? (fun j => ?_)
  rw [List.getElem?_set]
  split
  · rename_i e
    subst e
    rw [List.getElem?_map, hp]
    split
    · rfl
    · rename_i hlt
      have := (List.getElem?_eq_some_iff.mp hp).1
      simp at hlt
      omega
  · rfl

theorem state_structs (md5 : Str → Str) {H : List (Str × Option Str)} (hc : NoCollision md5 (accepted H)) {st : PatternMakerSt}
    (hst : st.unpat = loadAll md5 H) : st.map (·.1) = structs md5 H := by
  rw [← loadAll_structs md5 hc, ← hst, PatternMakerSt.unpat, List.map_map]
  rfl

theorem state_length (md5 : Str → Str) {H : List (Str × Option Str)} (hc : NoCollision md5 (accepted H)) {st : PatternMakerSt}
    (hst : st.unpat = loadAll md5 H) : st.length = (structs md5 H).length := by
  rw [← state_structs md5 hc hst, List.length_map]

/-- The turn of a sub-maker. -/
theorem turn_some (md5 : Str → Str) {h : Runtime} {mcn : Int} (hm : 2 ≤ mcn) {H : List (Str × Option Str)}
    (hc : NoCollision md5 (accepted H)) (hh : NoHashClash h (UrlRow H)) {st : PatternMakerSt} (hst : st.unpat = loadAll md5 H)
    (size : Nat) {pos : Nat} {s : Str} (hs : (structs md5 H)[pos]? = some s) :
    ∃ y ys st', MakeGen.turn h mcn size (st.drop pos) pos st = (.yielded y, .running size (pos + 1) ys, st') ∧
      st'.unpat = loadAll md5 H ∧ Turn md5 h mcn s H (y :: ys) := by
  rw [← state_structs md5 hc hst, List.getElem?_map] at hs
  cases hp : st[pos]? with
  | none => rw [hp] at hs; cases hs
  | some kv =>
    obtain ⟨s', mk⟩ := kv
    rw [hp] at hs
    injection hs with hs
    simp only at hs
    subst hs
    obtain ⟨ys, mk', h1, h2, h3⟩ := yields_spec md5 hm hc hh hst (List.mem_of_getElem? hp)
    obtain ⟨y, ys', rfl⟩ := List.exists_cons_of_ne_nil h3.ne
    obtain ⟨hlt, hget⟩ := List.getElem?_eq_some_iff.mp hp
    refine ⟨y, ys', st.set pos (s', mk'), ?_, by rw [unpat_set hp h2, hst], h3⟩
    rw [List.drop_eq_getElem_cons hlt, hget, MakeGen.turn, h1]

theorem turn_none {h : Runtime} {mcn : Int} (size : Nat) {st : PatternMakerSt} {pos : Nat} (hp : st.length ≤ pos) :
    MakeGen.turn h mcn size (st.drop pos) pos st = (.stopped, .done, st) := by
  rw [List.drop_eq_nil_of_le hp, MakeGen.turn]

theorem step_next_none (md5 : Str → Str) (h : Runtime) (mcn : Int) {w : MakerWorld} {i : Nat} (hi : w.gens[i]? = none) :
    w.step md5 h mcn (.next i) = (w, none) := by
  unfold MakerWorld.step
  simp only [hi]

theorem step_next_some (md5 : Str → Str) (h : Runtime) (mcn : Int) {w : MakerWorld} {i : Nat} {g : MakeGen} (hi : w.gens[i]? = some g) :
    w.step md5 h mcn (.next i) = (⟨(g.next h mcn w.st).2.2, w.gens.set i (g.next h mcn w.st).2.1⟩, some (i, (g.next h mcn w.st).1)) := by
  unfold MakerWorld.step
  simp only [hi]

/-- One call keeps the sub-makers those of the loads, up to patterns. -/
theorem step_unpat (md5 : Str → Str) {h : Runtime} {mcn : Int} (hm : 2 ≤ mcn) {H : List (Str × Option Str)} {w : MakerWorld}
    (hst : w.st.unpat = loadAll md5 H) (op : Op) (hc : NoCollision md5 (accepted (H ++ loads [op]))) (hh : NoHashClash h (UrlRow (H ++ loads [op]))) :
    (w.step md5 h mcn op).1.st.unpat = loadAll md5 (H ++ loads [op]) := by
  cases op with
  | load u md =>
    have h1 := load_unpat md5 w.st u md
    rw [hst] at h1
    simp only [loads]
    rw [loadAll_concat, h1]
    show PatternMakerSt.unpat (match w.st.load md5 u md with | .ok (st', _) => st' | .error _ => w.st) = _
    cases w.st.load md5 u md with
    | error e => exact hst
    | ok r => rfl
  | make => simp only [loads, List.append_nil]; exact hst
  | next i =>
    simp only [loads, List.append_nil] at hc hh ⊢
    cases hi : w.gens[i]? with
    | none => rw [step_next_none md5 h mcn hi]; exact hst
    | some g =>
      rw [step_next_some md5 h mcn hi]
      show (g.next h mcn w.st).2.2.unpat = _
      have key : ∀ size pos, (MakeGen.turn h mcn size (w.st.drop pos) pos w.st).2.2.unpat = loadAll md5 H := by
        intro size pos
        cases hs : (structs md5 H)[pos]? with
        | none =>
          rw [turn_none size (by rw [state_length md5 hc hst]; exact List.getElem?_eq_none_iff.mp hs)]
          exact hst
        | some s =>
          obtain ⟨y, ys, st', h1, h2, -⟩ := turn_some md5 hm hc hh hst size hs
          rw [h1]; exact h2
      cases g with
      | fresh => exact key w.st.length 0
      | done => exact hst
      | running size pos rest =>
        cases rest with
        | cons y ys => exact hst
        | nil =>
          simp only [MakeGen.next]
          split
          · exact hst
          · exact key size pos

end OsUrl
