import Verif.Proofs.Tight
import Verif.Proofs.FlatTop
import Verif.Proofs.OneSpace

/-! Tight patterns of whole clusters, and what they are for pieces of one class. -/

namespace OsUrl
open Spec

variable {h : Runtime} {mcn : Int} {hist : List (Str × Option Str)}

/-- The text of a level fits groups of the piece. -/
theorem lab_fit (hm : 2 ≤ mcn) {m : URLMeta} {kw : Bool} {n : Nat} {S : List Ins} (hS : RowsOK (TopOK h m) n S) {j : Nat} (hj : j < n) {x : Ins} (hx : x ∈ S)
    {s : Str} (hk : ∀ c ∈ s, Known c) (hp : x.pp j = pieceOf s) :
    ∃ gs bs, gs.flatten = runsOf s ∧ GFit gs bs ∧ bs.flatten = lab (topF mcn m kw n) j S x := by
  unfold lab topF
  split
  · refine ⟨_, _, singles_flatten _, gfit_lits _, ?_⟩
    rw [hp]; simp [pieceOf, ppOf, ParsedPiece.piece]
  · rename_i hc
    simp only [Bool.or_eq_true, not_or, Bool.not_eq_true] at hc
    obtain ⟨h1, h2, h3⟩ := ent_ok hS hj
    obtain ⟨c, hc'⟩ := mem_ent_pp (j := j) hx
    obtain ⟨r, hr⟩ := lvOK_of (kw := kw) (n := n) hm h1 h2 h3 hc.2 (List.ne_nil_of_mem hc')
    exact stage_fit hr hc' hk hp

/-- The row of a path comes from every row of strings with the keys of the path. -/
theorem path_raw {M : Made} (hM : MadeOK h mcn hist M) {C : List Ins} {t : Tree NodeData}
    (hC : ClusterOK h mcn hist M C t) {p : List (Str × NodeData)} (hp : p ∈ t.paths) {row : List Str} (hk : ∀ s ∈ row, ∀ c ∈ s, Known c)
    (he : p.map (·.1) = row.map (fun s => (pieceOf s).piece)) : RawRow (rowOf p).bare row := by
  obtain ⟨h1, h2⟩ := row_of_path hC hp
  obtain ⟨r, hr, hrp⟩ := (norm_rows _ _ h2).path
  obtain ⟨row', -, k', e', -⟩ := accepted_row (hM.acc r hr)
  have hkeys : r.keys = p.map (·.1) := by
    rw [hC.keys p hp, ← bare_keys, Ins.keys, hrp]; simp [Rec.keys, Function.comp_def]
  have hrow : row.map pieceOf = row'.map pieceOf := by
    rw [Rec.keys, e', he, List.map_map] at hkeys
    clear he e' hrp h1 h2
    induction row generalizing row' with
    | nil =>
      cases row' with
      | nil => rfl
      | cons s row' => simp at hkeys
    | cons s row ih =>
      cases row' with
      | nil => simp at hkeys
      | cons s' row' =>
        simp only [List.map_cons, List.cons.injEq, Function.comp_apply] at hkeys
        have := pieceOf_inj (runsOf_spec (k' s' (by simp))) (runsOf_spec (hk s (by simp))) hkeys.1
        rw [List.map_cons, List.map_cons, this, ih (fun s hs => hk s (by simp [hs])) row' (fun s hs => k' s (by simp [hs])) hkeys.2]
  exact ⟨hk, by rw [hrp, hrow, ← e']; simp [Function.comp_def]⟩

/-- The pattern of a path at a level, as the label of the level among all rows. -/
theorem path_level {M : Made} {C : List Ins} {t : Tree NodeData} (hC : ClusterOK h mcn hist M C t) {p : List (Str × NodeData)}
    (hp : p ∈ t.paths) {i : Nat} {k : Str} {d : NodeData} (hi : p[i]? = some (k, d)) :
    i < M.m.depth ∧ ∀ x ∈ C.map Ins.bare, lab (topF mcn M.m false M.m.depth) i (C.map Ins.bare) x = d.pattern := by
  have hl := path_length hC hp
  have hlt : i < M.m.depth := by
    obtain ⟨h1, -⟩ := List.getElem?_eq_some_iff.mp hi
    omega
  refine ⟨hlt, ?_⟩
  have hu := unif_iff.mp hC.final.unif
  have hx0 : (rowOf p).bare ∈ C.map Ins.bare := List.mem_map_of_mem (row_of_path hC hp).1
  have e := congrArg (·[i]?) (path_pats hC hp)
  simp only [List.getElem?_map, hi, Option.map_some] at e
  intro x hx
  rw [hu _ hx0 x hx, labs_unif_get (fun c hc => hu c hc x hx) i hlt, Nat.zero_add] at e
  injection e with e
  exact e.symm

/-! ### Pieces of one class -/

theorem one_run {s : Str} {rs : List (Space × Str)} (hr : Runs s rs) {sp : Space} (h : ∀ r ∈ rs, r.1 = sp) : rs = [] ∨ rs = [(sp, s)] := by
  match rs with
  | [] => exact .inl rfl
  | [r] =>
    right
    have := hr.concat
    simp at this
    have h1 := h r (by simp)
    rw [← this, ← h1]
  | r :: r' :: rs => exact absurd ((h r (by simp)).trans (h r' (by simp)).symm) (hr.maximal [] r r' rs rfl)

theorem one_space_runs {s : Str} {rs : List (Space × Str)} (hr : Runs s rs) {sp : Space} (h : ∀ c ∈ s, space? c = some sp) : ∀ r ∈ rs, r.1 = sp := by
  intro r hm
  obtain ⟨c, hc⟩ := List.exists_mem_of_ne_nil _ (hr.nonempty r hm)
  have h1 := hr.space r hm c hc
  rw [h c (by rw [← hr.concat]; exact List.mem_flatten.mpr ⟨r.2, List.mem_map_of_mem hm, hc⟩)] at h1
  injection h1 with h1
  exact h1.symm

theorem classOf_one {sp : Space} (hv : sp.Valid) {g g' : List (Space × Str)} {s w' : Str} (hg : g = [(sp, s)]) (hr' : Runs w' g') {k : Str} (h : ClassOf g k)
    (h' : ClassOf g' k) : k = sp.text ∧ ∀ r ∈ g', r.1 = sp := by
  have hk : k = sp.text := by
    rw [classOf_rules h, hg, single_pair]
  refine ⟨hk, ?_⟩
  have h2 := classOf_rules h'
  obtain ⟨u, hu⟩ := single_rule_group hr' hv (by rw [← h2, hk])
  rw [hu]; simp

/-- One string of one class: what the text of the level is. -/
theorem tight_one {P : Str → Prop} {t : Str} (ht : TightText P t) {s : Str} (hs : P s) {sp : Space} (hsp : ∀ c ∈ s, space? c = some sp) :
    ((∀ s', P s' → s' = s) ∧ t = if s = [] then [] else runText (sp, s)) ∨
    ((∀ s', P s' → (∀ c ∈ s', space? c = some sp) ∧ s'.length = s.length) ∧ (∃ s1 s2, P s1 ∧ P s2 ∧ s1 ≠ s2) ∧
      t = '[' :: sp.text ++ ']' :: (if s.length = 1 then [] else '{' :: decimal s.length ++ ['}'])) ∨
    ((∀ s', P s' → ∀ c ∈ s', space? c = some sp) ∧ (∃ s1 s2, P s1 ∧ P s2 ∧ s1.length ≠ s2.length) ∧ t = '[' :: sp.text ++ [']', '+']) := by
  obtain ⟨as, cut, rfl, hcut, hcol⟩ := ht
  obtain ⟨hl, hr⟩ := hcut s hs
  -- columns with an empty group
  have blank : ∀ (i : Nat), (cut s)[i]? = some [] → as[i]? = some [] ∧ ∀ s', P s' → (cut s')[i]? = some [] := by
    intro i hi
    have hlt : i < as.length := by
      obtain ⟨h1, -⟩ := List.getElem?_eq_some_iff.mp hi
      omega
    have ha := List.getElem?_eq_getElem hlt
    have hc := hcol i _ ha
    generalize as[i] = a at ha hc
    cases hc with
    | @lit g h =>
      have hg : ([] : List (Space × Str)) = g := h [] ⟨s, hs, hi⟩
      refine ⟨by rw [ha, ← hg]; rfl, ?_⟩
      intro s' hs'
      have hlt' : i < (cut s').length := by rw [(hcut s' hs').1]; exact hlt
      have h1 := List.getElem?_eq_getElem hlt'
      rw [h1, h _ ⟨s', hs', h1⟩, ← hg]
    | len h _ => exact absurd rfl (h [] ⟨s, hs, hi⟩).1
    | wild h _ => exact absurd rfl (h [] ⟨s, hs, hi⟩).1
  -- a list in which all places but one are empty
  have only : ∀ {α : Type} (l : List (List α)) (j : Nat) (x : List α), l[j]? = some x → (∀ i, i ≠ j → ∀ y, l[i]? = some y → y = []) → l.flatten = x := by
    intro α l
    induction l with
    | nil => intro j x hj; simp at hj
    | cons a l ih =>
      intro j x hj hn
      cases j with
      | zero =>
        simp only [List.getElem?_cons_zero, Option.some.injEq] at hj
        subst hj
        have : l.flatten = [] := by
          rw [List.flatten_eq_nil_iff]
          intro y hy
          obtain ⟨i, hi⟩ := List.getElem?_of_mem hy
          exact hn (i + 1) (by omega) y (by simpa using hi)
        simp [this]
      | succ j =>
        have h0 := hn 0 (by omega) a rfl
        subst h0
        rw [List.flatten_cons, List.nil_append]
        exact ih j x (by simpa using hj) (fun i hi y hy => hn (i + 1) (by omega) y (by simpa using hy))
  rcases one_run hr (one_space_runs hr hsp) with h0 | h1
  · -- no runs
    left
    have hall : ∀ i, i < (cut s).length → (cut s)[i]? = some [] := by
      intro i hi
      rw [List.getElem?_eq_getElem hi, (List.flatten_eq_nil_iff.mp h0) _ (List.getElem_mem hi)]
    have hs0 : s = [] := by rw [← hr.concat, h0]; rfl
    refine ⟨?_, ?_⟩
    · intro s' hs'
      have hf : (cut s').flatten = [] := by
        rw [List.flatten_eq_nil_iff]
        intro g hg
        obtain ⟨i, hi⟩ := List.getElem?_of_mem hg
        have hlt : i < (cut s).length := by
          obtain ⟨h1, -⟩ := List.getElem?_eq_some_iff.mp hi
          rw [hl, ← (hcut s' hs').1]; exact h1
        have := (blank i (hall i hlt)).2 s' hs'
        rw [hi] at this
        injection this
      rw [← (hcut s' hs').2.concat, hf, hs0]; rfl
    · rw [if_pos hs0, List.flatten_eq_nil_iff]
      intro a ha
      obtain ⟨i, hi⟩ := List.getElem?_of_mem ha
      have hlt : i < (cut s).length := by
        obtain ⟨h1, -⟩ := List.getElem?_eq_some_iff.mp hi
        omega
      have := (blank i (hall i hlt)).1
      rw [hi] at this
      injection this
  · -- one run, in one of the groups
    have hne : s ≠ [] := hr.nonempty (sp, s) (by rw [h1]; simp)
    have hv : sp.Valid := hr.valid (sp, s) (by rw [h1]; simp)
    obtain ⟨j, hj⟩ : ∃ j : Nat, (cut s)[j]? = some [(sp, s)] ∧ ∀ i, i ≠ j → ∀ g, (cut s)[i]? = some g → g = [] := by
      have : ∀ l : List (List (Space × Str)), l.flatten = [(sp, s)] → ∃ j : Nat, l[j]? = some [(sp, s)] ∧ ∀ (i : Nat), i ≠ j → ∀ g, l[i]? = some g → g = [] := by
        intro l
        induction l with
        | nil => intro h; simp at h
        | cons a l ih =>
          intro h
          rw [List.flatten_cons] at h
          cases a with
          | nil =>
            obtain ⟨j, h1, h2⟩ := ih (by simpa using h)
            refine ⟨j + 1, by simpa using h1, ?_⟩
            intro i hi g hg
            cases i with
            | zero => simp at hg; exact hg
            | succ i => exact h2 i (by omega) g (by simpa using hg)
          | cons x a =>
            rw [List.cons_append, List.cons.injEq] at h
            obtain ⟨rfl, h⟩ := h
            obtain ⟨h2, h3⟩ := List.append_eq_nil_iff.mp h
            subst h2
            refine ⟨0, rfl, ?_⟩
            intro i hi g hg
            cases i with
            | zero => omega
            | succ i =>
              exact (List.flatten_eq_nil_iff.mp h3) g (List.mem_of_getElem? (by simpa using hg))
      exact this _ h1
    obtain ⟨hj, hjn⟩ := hj
    have hlt : j < as.length := by
      obtain ⟨h1, -⟩ := List.getElem?_eq_some_iff.mp hj
      omega
    have ha := List.getElem?_eq_getElem hlt
    have hc := hcol j _ ha
    generalize as[j] = a at ha hc
    have bl : ∀ i, i ≠ j → i < as.length → (cut s)[i]? = some [] := by
      intro i hi hlt
      have hlt' : i < (cut s).length := by omega
      have := List.getElem?_eq_getElem hlt'
      rw [this, hjn i hi _ this]
    have hflat : as.flatten = a := by
      refine only as j a ha ?_
      intro i hi y hy
      obtain ⟨hlt, -⟩ := List.getElem?_eq_some_iff.mp hy
      have := (blank i (bl i hi hlt)).1
      rw [hy] at this
      injection this
    have hgrp : ∀ s', P s' → ∃ g', (cut s')[j]? = some g' ∧ Runs s' g' := by
      intro s' hs'
      obtain ⟨l', r'⟩ := hcut s' hs'
      have hlt' : j < (cut s').length := by omega
      have hg' := List.getElem?_eq_getElem hlt'
      refine ⟨_, hg', ?_⟩
      rw [only (cut s') j _ hg' ?_] at r'
      · exact r'
      · intro i hi y hy
        obtain ⟨hlt, -⟩ := List.getElem?_eq_some_iff.mp hy
        have := (blank i (bl i hi (by omega))).2 s' hs'
        rw [hy] at this
        injection this
    have written : ∀ {u : Str} {g : List (Space × Str)}, g = [(sp, u)] → writtenLength g = u.length + if sp = .sign '\\' then 1 else 0 := by
      rintro u g rfl
      simp [writtenLength]
    have cls : ∀ {k : Str}, (∀ g, (∃ s, P s ∧ (cut s)[j]? = some g) → g ≠ [] ∧ ClassOf g k) → k = sp.text ∧
        ∀ s', P s' → ∀ g', (cut s')[j]? = some g' → g' = [(sp, s')] ∧ ∀ c ∈ s', space? c = some sp := by
      intro k hk
      have h2 := (hk _ ⟨s, hs, hj⟩).2
      have e1 : k = sp.text := (classOf_one hv rfl (h1 ▸ hr) h2 h2).1
      refine ⟨e1, ?_⟩
      intro s' hs' g' hg'
      obtain ⟨g'', hg'', r'⟩ := hgrp s' hs'
      rw [hg'] at hg''
      injection hg'' with hg''
      subst hg''
      obtain ⟨n', c'⟩ := hk g' ⟨s', hs', hg'⟩
      have h3 := (classOf_one hv rfl r' h2 c').2
      refine ⟨(one_run r' h3).resolve_left n', ?_⟩
      have h4 := (one_run r' h3).resolve_left n'
      intro c hc
      exact r'.space (sp, s') (by rw [h4]; simp) c hc
    rw [hflat]
    cases hc with
    | @lit g h =>
      left
      have hg : [(sp, s)] = g := h _ ⟨s, hs, hj⟩
      refine ⟨?_, ?_⟩
      · intro s' hs'
        obtain ⟨g', hg', r'⟩ := hgrp s' hs'
        have := h g' ⟨s', hs', hg'⟩
        rw [this, ← hg] at r'
        rw [← r'.concat]; simp
      · rw [if_neg hne, ← hg]; simp
    | @len k n h two =>
      right; left
      obtain ⟨e1, e2⟩ := cls (fun g hg => ⟨(h g hg).1, (h g hg).2.1⟩)
      have hn := (h _ ⟨s, hs, hj⟩).2.2
      rw [written rfl] at hn
      have hlen : ∀ s', P s' → s'.length = s.length := by
        intro s' hs'
        obtain ⟨g', hg', r'⟩ := hgrp s' hs'
        have h2 := (h g' ⟨s', hs', hg'⟩).2.2
        rw [written (e2 s' hs' g' hg').1] at h2
        omega
      have hsub : ∀ s', P s' → ∀ c ∈ s', space? c = some sp := by
        intro s' hs'
        obtain ⟨g', hg', r'⟩ := hgrp s' hs'
        exact (e2 s' hs' g' hg').2
      obtain ⟨g1, g2, ⟨s1, p1, q1⟩, ⟨s2, p2, q2⟩, hdiff⟩ := two
      have hd : s1 ≠ s2 := by
        intro e
        apply hdiff
        rw [(e2 s1 p1 g1 q1).1, (e2 s2 p2 g2 q2).1, e]
      have hns : ¬ sp = .sign '\\' := by
        intro e
        apply hd
        have key : ∀ u : Str, (∀ c ∈ u, space? c = some sp) → u = List.replicate u.length '\\' := by
          intro u hu
          rw [List.eq_replicate_iff]
          refine ⟨rfl, fun c hc => ?_⟩
          have h1 := hu c hc
          rw [e] at h1
          unfold space? at h1
          repeat' split at h1
          all_goals first | (injection h1 with h1; injection h1) | cases h1
        rw [key s1 (hsub s1 p1), key s2 (hsub s2 p2), hlen s1 p1, hlen s2 p2]
      rw [if_neg hns] at hn
      refine ⟨fun s' hs' => ⟨hsub s' hs', hlen s' hs'⟩, ⟨s1, s2, p1, p2, hd⟩, ?_⟩
      rw [e1, ← hn]; rfl
    | @wild k h two =>
      right; right
      obtain ⟨e1, e2⟩ := cls h
      obtain ⟨g1, g2, ⟨s1, p1, q1⟩, ⟨s2, p2, q2⟩, hdiff⟩ := two
      refine ⟨?_, ⟨s1, s2, p1, p2, ?_⟩, by rw [e1]⟩
      · intro s' hs'
        obtain ⟨g', hg', r'⟩ := hgrp s' hs'
        exact (e2 s' hs' g' hg').2
      · intro e
        apply hdiff
        rw [written (e2 s1 p1 g1 q1).1, written (e2 s2 p2 g2 q2).1, e]

end OsUrl
