import Verif.Proofs.RankPass

/-! For rows of single parts the patterns only become narrower from round to round. -/

namespace OsUrl
open Spec

/-- At every level the first text is the second one, or closer to the part. -/
def PtLe (x : Ins) (j : Nat) (as bs : List Str) : Prop :=
  ∀ (i : Nat) (a b : Str), as[i]? = some a → bs[i]? = some b → a = b ∨ rk a (x.pp (j + i)) < rk b (x.pp (j + i))

theorem PtLe.refl (x : Ins) (j : Nat) (as : List Str) : PtLe x j as as := by
  intro i a b ha hb
  rw [ha] at hb
  exact .inl (Option.some.inj hb)

theorem PtLe.trans {x : Ins} {j : Nat} {as bs cs : List Str} (h1 : PtLe x j as bs) (h2 : PtLe x j bs cs) (hl : as.length = bs.length) :
    PtLe x j as cs := by
  intro i a c ha hc
  have hi : i < bs.length := by
    have := (List.getElem?_eq_some_iff.mp ha).1
    omega
  have hb : bs[i]? = some bs[i] := List.getElem?_eq_getElem hi
  rcases h1 i a _ ha hb with e | e
  · rw [e]; exact h2 i _ c hb hc
  · rcases h2 i _ c hb hc with e' | e'
    · rw [← e']; exact .inr e
    · right; omega

theorem labs_pt {mcn : Int} (hm : 2 ≤ mcn) {kw : Bool} {n N : Nat} : ∀ {k j : Nat} {S Q : List Ins}, FlatRows n S → j + k ≤ n →
    (∀ x ∈ Q, x ∈ S) → ∀ {Ts : List Str}, (∀ x ∈ Q, labs (flatF mcn kw N) k j S x = Ts) →
    ∀ x ∈ Q, PtLe x j (labs (flatF mcn kw N) k j Q x) Ts := by
  intro k
  induction k with
  | zero =>
    intro j S Q _ _ _ Ts hT x hx i a b ha
    rw [labs] at ha
    simp at ha
  | succ k ih =>
    intro j S Q hS hj hQ Ts hT x0 hx0
    obtain ⟨T, Ts', rfl⟩ : ∃ T Ts', Ts = T :: Ts' := by
      have := hT x0 hx0
      rw [labs] at this
      exact ⟨_, _, this.symm⟩
    have hhead : ∀ x ∈ Q, lab (flatF mcn kw N) j S x = T := fun x hx => (List.cons.inj (hT x hx)).1
    have htail : ∀ x ∈ Q, labs (flatF mcn kw N) k (j + 1) (nxt (flatF mcn kw N) j S x) x = Ts' := fun x hx => (List.cons.inj (hT x hx)).2
    have hnx : ∀ x ∈ Q, nxt (flatF mcn kw N) j S x = nxt (flatF mcn kw N) j S x0 := by
      intro x hx; unfold nxt; rw [hhead x hx, hhead x0 hx0]
    have hS' : FlatRows n (nxt (flatF mcn kw N) j S x0) := hS.sub (fun z hz => (List.mem_filter.mp hz).1)
    have hsub : ∀ z ∈ nxt (flatF mcn kw N) j Q x0, z ∈ Q := fun z hz => (List.mem_filter.mp hz).1
    have hxin : x0 ∈ nxt (flatF mcn kw N) j Q x0 := List.mem_filter.mpr ⟨hx0, by simp⟩
    have h2 := ih (j := j + 1) hS' (by omega) (Q := nxt (flatF mcn kw N) j Q x0)
      (fun z hz => List.mem_filter.mpr ⟨hQ z (hsub z hz), by rw [hhead z (hsub z hz), hhead x0 hx0]; simp⟩)
      (fun z hz => by rw [← hnx z (hsub z hz)]; exact htail z (hsub z hz)) x0 hxin
    intro i a b ha hb
    rw [labs] at ha
    cases i with
    | zero =>
      simp only [List.getElem?_cons_zero, Option.some.injEq] at ha hb
      subst ha; subst hb
      rcases lab_drop hm (N := N) hS (by omega) hQ hhead with hk | hd
      · exact .inl (hk x0 hx0)
      · exact .inr (hd x0 hx0)
    | succ i =>
      simp only [List.getElem?_cons_succ] at ha hb
      have := h2 i a b ha hb
      rwa [show j + 1 + i = j + (i + 1) by omega] at this

/-- The three texts of a single part. -/
def Three (a : Str) (q : ParsedPiece) : Prop :=
  a = q.piece ∨ (a = specStr q.fuzzyRule (lenOf q) ∧ 1 ≤ lenOf q) ∨ (a = specStr q.fuzzyRule (-1) ∧ q.fuzzyRule ≠ [])

theorem labs_three {mcn : Int} (hm : 2 ≤ mcn) {kw : Bool} {n N : Nat} : ∀ {k j : Nat} {S : List Ins}, FlatRows n S → j + k ≤ n →
    ∀ x ∈ S, ∀ (i : Nat) (a : Str), (labs (flatF mcn kw N) k j S x)[i]? = some a → Three a (x.pp (j + i)) := by
  intro k
  induction k with
  | zero => intro j S _ _ x _ i a ha; rw [labs] at ha; simp at ha
  | succ k ih =>
    intro j S hS hj x hx i a ha
    rw [labs] at ha
    cases i with
    | zero =>
      simp only [List.getElem?_cons_zero, Option.some.injEq] at ha
      subst ha
      rw [Nat.add_zero]
      rcases hS.part j (by omega) with hp | hb
      · have h1 := hS.ent (by omega) hp hx
        obtain ⟨c, hc⟩ := ent_of_row (j := j) hx
        unfold lab
        rcases flat_cases hm (kw := kw) (n := N) (j := j) h1 (x := (x.pp j, c)) hc with h | ⟨h, ⟨e, he, e', he', l1, l2, hne⟩, -⟩ | ⟨h, ⟨e, he, e', he', hne⟩, -⟩
        · exact .inl h
        · refine .inr (.inl ⟨h, ?_⟩)
          rcases (h1.part _ hc).1.len with h3 | h3
          · exfalso
            apply hne
            have key : ∀ f ∈ ent j S, f.1 = single [] [] := fun f hf =>
              ((h1.part f hf).1.len.resolve_right (fun h => h.1 ((h1.part f hf).2.trans h3.1))).2
            rw [key e he, key e' he']
          · exact h3.2.2
        · refine .inr (.inr ⟨h, ?_⟩)
          intro h3
          apply hne
          have key : ∀ f ∈ ent j S, f.1 = single [] [] := fun f hf =>
            ((h1.part f hf).1.len.resolve_right (fun h => h.1 ((h1.part f hf).2.trans h3))).2
          rw [key e he, key e' he']
      · left
        rw [lab_blank hm hS.pos hb hx, hb x hx]; rfl
    | succ i =>
      simp only [List.getElem?_cons_succ] at ha
      have := ih (j := j + 1) (hS.sub (fun z hz => (List.mem_filter.mp hz).1)) (by omega) x (List.mem_filter.mpr ⟨hx, by simp⟩) i a ha
      rwa [show j + 1 + i = j + (i + 1) by omega] at this

theorem eq_of_keys {α β : Type} {f : α → β} {l : List α} (h : (l.map f).Nodup) {a b : α} (ha : a ∈ l) (hb : b ∈ l) (e : f a = f b) : a = b := by
  induction l with
  | nil => cases ha
  | cons c l ih =>
    rw [List.map_cons, List.nodup_cons] at h
    rw [List.mem_cons] at ha hb
    rcases ha with rfl | ha <;> rcases hb with rfl | hb
    · rfl
    · exact absurd (List.mem_map.mpr ⟨b, hb, e.symm⟩) h.1
    · exact absurd (List.mem_map.mpr ⟨a, ha, e⟩) h.1
    · exact ih h.2 ha hb

theorem disjoint_parts {α : Type} {ls : List (List α)} (h : ls.flatten.Nodup) {i j : Nat} (hij : i ≠ j) {a b : List α} (ha : ls[i]? = some a)
    (hb : ls[j]? = some b) {x : α} (hxa : x ∈ a) (hxb : x ∈ b) : False := by
  induction ls generalizing i j with
  | nil => simp at ha
  | cons l ls ih =>
    rw [List.flatten_cons, List.nodup_append] at h
    cases i with
    | zero =>
      cases j with
      | zero => exact hij rfl
      | succ j =>
        simp only [List.getElem?_cons_zero, Option.some.injEq] at ha
        subst ha
        rw [List.getElem?_cons_succ] at hb
        exact h.2.2 x hxa x (List.mem_flatten.mpr ⟨b, List.mem_of_getElem? hb, hxb⟩) rfl
    | succ i =>
      cases j with
      | zero =>
        simp only [List.getElem?_cons_zero, Option.some.injEq] at hb
        subst hb
        rw [List.getElem?_cons_succ] at ha
        exact h.2.2 x hxb x (List.mem_flatten.mpr ⟨a, List.mem_of_getElem? ha, hxa⟩) rfl
      | succ j =>
        rw [List.getElem?_cons_succ] at ha hb
        exact ih h.2.1 (by omega) ha hb

/-- The patterns of a path. -/
def pats (p : List (Str × NodeData)) : List Str := p.map (fun kn => kn.2.pattern)

/-- The calls of `process` on the rows `L`: patterns become narrower. -/
structure NarrowOK (F : LevelFn) (k d : Nat) (L : List Ins) (ps : List Pass) : Prop where
  deep : ∀ p ∈ ps, d ≤ p.depth
  down : ∀ p ∈ ps, ∀ x ∈ p.after.paths, ∃ r ∈ L.map Ins.bare, x.map (·.1) = r.keys ∧ (pats x).length = k ∧
    PtLe r 0 (pats x) (labs F k 0 (L.map Ins.bare) r)
  three : ∀ p ∈ ps, ∀ x ∈ p.after.paths, ∃ r ∈ L.map Ins.bare, x.map (·.1) = r.keys ∧ ∀ (i : Nat) (a : Str), (pats x)[i]? = some a → Three a (r.pp i)
  pair : ∀ p ∈ ps, ∀ q ∈ ps, p.depth ≤ q.depth → ∀ x ∈ p.after.paths, ∀ y ∈ q.after.paths, x.map (·.1) = y.map (·.1) →
    ∃ r ∈ L.map Ins.bare, x.map (·.1) = r.keys ∧ PtLe r 0 (pats y) (pats x)

variable {nested : NestedCluster} {mcn : Int} {m : URLMeta} {kw : Bool} {n : Nat} {OK : Nat → List ParsedPiece → Prop}

theorem bare_of_keys {L : List Ins} (hN : Normal n L) {r r' : Ins} (hr : r ∈ L.map Ins.bare) (hr' : r' ∈ L.map Ins.bare) (e : r.keys = r'.keys) : r = r' := by
  obtain ⟨x, hx, rfl⟩ := List.mem_map.mp hr
  obtain ⟨y, hy, rfl⟩ := List.mem_map.mp hr'
  rw [bare_keys, bare_keys] at e
  rw [eq_of_keys hN.nodup hx hy e]

theorem passes_narrow (h : Runtime) (hL : LevelOK h nested mcn m kw (n + 1) OK (topF mcn m kw (n + 1))) (hm : 2 ≤ mcn) (hd : m.depth = n + 1) :
    ∀ (fuel d : Nat) (L : List Ins) (ps : List Pass), Normal (n + 1) L → RowsOK OK (n + 1) L → L ≠ [] →
    HashSep h (topF mcn m kw (n + 1)) (n + 1) (L.map Ins.bare) → FlatRows (n + 1) (L.map Ins.bare) →
    passesWith nested h mcn m kw fuel d (growTree (n + 1) L) = .ok ps → NarrowOK (topF mcn m kw (n + 1)) (n + 1) d L ps := by
  intro fuel
  induction fuel with
  | zero =>
    intro d L ps hN hS hne hh hF hp
    obtain ⟨t', split, h1, h2, -⟩ := cluster_step h hL hm hd L hN hS hne hh
    rw [passesWith, if_neg (by omega)] at hp
    cases hp
  | succ fuel ih =>
    intro d L ps hN hS hne hh hF hp
    obtain ⟨t', split, h1, h2, ht, h3⟩ := cluster_step h hL hm hd L hN hS hne hh
    rw [passesWith, if_neg (by omega), h1] at hp
    simp only [bind, Except.bind, pure, Except.pure] at hp
    -- the head
    have hrow : ∀ x ∈ t'.paths, ∃ r ∈ L.map Ins.bare, x.map (·.1) = r.keys ∧ pats x = labs (topF mcn m kw (n + 1)) (n + 1) 0 (L.map Ins.bare) r := by
      intro x hx
      obtain ⟨y, hy, e1, e2⟩ := ht x hx
      exact ⟨y.bare, List.mem_map_of_mem hy, by rw [e1, bare_keys], e2⟩
    have hdown : ∀ x ∈ t'.paths, ∃ r ∈ L.map Ins.bare, x.map (·.1) = r.keys ∧ (pats x).length = n + 1 ∧
        PtLe r 0 (pats x) (labs (topF mcn m kw (n + 1)) (n + 1) 0 (L.map Ins.bare) r) := by
      intro x hx
      obtain ⟨r, hr, e1, e2⟩ := hrow x hx
      exact ⟨r, hr, e1, by rw [e2, labs_length], by rw [e2]; exact PtLe.refl _ _ _⟩
    have hthree : ∀ x ∈ t'.paths, ∃ r ∈ L.map Ins.bare, x.map (·.1) = r.keys ∧ ∀ (i : Nat) (a : Str), (pats x)[i]? = some a → Three a (r.pp i) := by
      intro x hx
      obtain ⟨r, hr, e1, e2⟩ := hrow x hx
      refine ⟨r, hr, e1, ?_⟩
      intro i a ha
      rw [e2, labs_top hm hF (by omega) hr] at ha
      have := labs_three hm hF (by omega) r hr i a ha
      rwa [Nat.zero_add] at this
    have hpair : ∀ x ∈ t'.paths, ∀ y ∈ t'.paths, x.map (·.1) = y.map (·.1) → ∃ r ∈ L.map Ins.bare, x.map (·.1) = r.keys ∧ PtLe r 0 (pats y) (pats x) := by
      intro x hx y hy e
      obtain ⟨r, hr, e1, e2⟩ := hrow x hx
      obtain ⟨r', hr', e1', e2'⟩ := hrow y hy
      have : r' = r := bare_of_keys hN hr' hr (by rw [← e1, ← e1', e])
      subst this
      exact ⟨r', hr', e1, by rw [e2, e2']; exact PtLe.refl _ _ _⟩
    cases split with
    | false =>
      simp only [Bool.false_eq_true, if_false] at hp
      injection hp with hp
      subst hp
      refine ⟨by simp, ?_, ?_, ?_⟩
      · intro p hp; rw [List.mem_singleton] at hp; subst hp; exact hdown
      · intro p hp; rw [List.mem_singleton] at hp; subst hp; exact hthree
      · intro p hp q hq _; rw [List.mem_singleton] at hp hq; subst hp; subst hq; exact hpair
    | true =>
      obtain ⟨gs, h4, h5, h6⟩ := h3 rfl
      simp only [if_true, h4] at hp
      -- the calls of the parts
      have hsubs : ∀ (gs : List (List Ins)) (rs : List (List Pass)),
          (gs.map (growTree (n + 1))).mapM (passesWith nested h mcn m kw fuel (d + 1)) = .ok rs → rs.length = gs.length ∧
          ∀ (i : Nat) (g : List Ins) (r : List Pass), gs[i]? = some g → rs[i]? = some r →
            passesWith nested h mcn m kw fuel (d + 1) (growTree (n + 1) g) = .ok r := by
        intro gs
        induction gs with
        | nil =>
          intro rs hr
          rw [List.map_nil, List.mapM_nil] at hr
          injection hr with hr
          subst hr
          simp
        | cons g gs ihg =>
          intro rs hr
          rw [List.map_cons, List.mapM_cons] at hr
          simp only [bind, Except.bind, pure, Except.pure] at hr
          cases hg : passesWith nested h mcn m kw fuel (d + 1) (growTree (n + 1) g) with
          | error e => rw [hg] at hr; cases hr
          | ok r0 =>
            rw [hg] at hr
            simp only at hr
            generalize hx : List.mapM (m := Except PyErr) _ (List.map (growTree (n + 1)) gs) = x at hr
            cases x with
            | error e => cases hr
            | ok rs' =>
              simp only at hr
              injection hr with hr
              subst hr
              obtain ⟨a1, a2⟩ := ihg rs' hx
              refine ⟨by simp [a1], ?_⟩
              intro i g' r' hg' hr'
              cases i with
              | zero =>
                simp only [List.getElem?_cons_zero, Option.some.injEq] at hg' hr'
                subst hg'; subst hr'; exact hg
              | succ i => exact a2 i g' r' (by simpa using hg') (by simpa using hr')
      generalize hx : List.mapM (m := Except PyErr) _ (List.map (growTree (n + 1)) gs) = x at hp
      cases x with
      | error e => cases hp
      | ok rs =>
        simp only at hp
        injection hp with hp
        subst hp
        obtain ⟨hlen, hrun⟩ := hsubs gs rs hx
        -- every call below belongs to a part
        have hpart : ∀ p ∈ rs.flatten, ∃ (i : Nat) (g : List Ins) (r : List Pass), gs[i]? = some g ∧ rs[i]? = some r ∧ p ∈ r ∧
            g ∈ gs ∧ NarrowOK (topF mcn m kw (n + 1)) (n + 1) (d + 1) g r := by
          intro p hp
          obtain ⟨r, hr, hpr⟩ := List.mem_flatten.mp hp
          obtain ⟨i, hi, e⟩ := List.mem_iff_getElem.mp hr
          have hgi : gs[i]? = some gs[i] := List.getElem?_eq_getElem (by omega)
          have hri : rs[i]? = some r := by rw [List.getElem?_eq_getElem hi, e]
          obtain ⟨a1, a2, a3, a4, a5, x0, a6, a7⟩ := h6 gs[i] (List.getElem_mem _)
          refine ⟨i, gs[i], r, hgi, hri, hpr, List.getElem_mem _, ?_⟩
          refine ih (d + 1) gs[i] r a1 a2 a3 a5 (hF.sub ?_) (hrun i _ _ hgi hri)
          intro z hz
          exact (List.mem_filter.mp (a7.mem_iff.mp hz)).1
        have hgsub : ∀ g ∈ gs, ∀ r ∈ g.map Ins.bare, r ∈ L.map Ins.bare := by
          intro g hg r hr
          obtain ⟨a1, a2, a3, a4, a5, x0, a6, a7⟩ := h6 g hg
          exact (List.mem_filter.mp (a7.mem_iff.mp hr)).1
        have hgpt : ∀ g ∈ gs, ∀ r ∈ g.map Ins.bare, PtLe r 0 (labs (topF mcn m kw (n + 1)) (n + 1) 0 (g.map Ins.bare) r)
            (labs (topF mcn m kw (n + 1)) (n + 1) 0 (L.map Ins.bare) r) := by
          intro g hg r hr
          obtain ⟨a1, a2, a3, a4, a5, x0, a6, a7⟩ := h6 g hg
          have hmem : ∀ z ∈ g.map Ins.bare, z ∈ L.map Ins.bare ∧ labs (flatF mcn kw (n + 1)) (n + 1) 0 (L.map Ins.bare) z =
              labs (flatF mcn kw (n + 1)) (n + 1) 0 (L.map Ins.bare) x0 := by
            intro z hz
            have hz' := List.mem_filter.mp (a7.mem_iff.mp hz)
            refine ⟨hz'.1, ?_⟩
            rw [← labs_top hm (m := m) hF (by omega) hz'.1, ← labs_top hm (m := m) hF (by omega) a6]
            exact of_decide_eq_true hz'.2
          rw [labs_top hm (hF.sub (fun z hz => (hmem z hz).1)) (by omega) hr, labs_top hm hF (by omega) (hmem r hr).1, (hmem r hr).2]
          exact labs_pt hm hF (by omega) (fun z hz => (hmem z hz).1) (fun z hz => (hmem z hz).2) r hr
        have hddown : ∀ p ∈ rs.flatten, ∀ x ∈ p.after.paths, ∃ r ∈ L.map Ins.bare, x.map (·.1) = r.keys ∧ (pats x).length = n + 1 ∧
            PtLe r 0 (pats x) (labs (topF mcn m kw (n + 1)) (n + 1) 0 (L.map Ins.bare) r) := by
          intro p hp x hx
          obtain ⟨i, g, r, -, -, hpr, hg, hok⟩ := hpart p hp
          obtain ⟨y, hy, e1, e2, e3⟩ := hok.down p hpr x hx
          exact ⟨y, hgsub g hg y hy, e1, e2, e3.trans (hgpt g hg y hy) (by rw [e2, labs_length])⟩
        refine ⟨?_, ?_, ?_, ?_⟩
        · intro p hp
          rcases List.mem_cons.mp hp with rfl | hp
          · simp
          · obtain ⟨i, g, r, -, -, hpr, -, hok⟩ := hpart p hp
            have := hok.deep p hpr
            omega
        · intro p hp
          rcases List.mem_cons.mp hp with rfl | hp
          · exact hdown
          · exact hddown p hp
        · intro p hp
          rcases List.mem_cons.mp hp with rfl | hp
          · exact hthree
          · intro x hx
            obtain ⟨i, g, r, -, -, hpr, hg, hok⟩ := hpart p hp
            obtain ⟨y, hy, e1, e2⟩ := hok.three p hpr x hx
            exact ⟨y, hgsub g hg y hy, e1, e2⟩
        · intro p hp q hq hle x hx y hy e
          rcases List.mem_cons.mp hp with rfl | hp
          · rcases List.mem_cons.mp hq with rfl | hq
            · exact hpair x hx y hy e
            · obtain ⟨r, hr, e1, e2⟩ := hrow x hx
              obtain ⟨r', hr', e1', -, e3'⟩ := hddown q hq y hy
              have : r' = r := bare_of_keys hN hr' hr (by rw [← e1, ← e1', e])
              subst this
              exact ⟨r', hr', e1, by rw [e2]; exact e3'⟩
          · obtain ⟨i, g, r, hgi, hri, hpr, hg, hok⟩ := hpart p hp
            rcases List.mem_cons.mp hq with rfl | hq
            · exfalso
              have := hok.deep p hpr
              simp only at hle
              omega
            · obtain ⟨i', g', r', hgi', hri', hqr, hg', hok'⟩ := hpart q hq
              have hii : i = i' := by
                apply Classical.byContradiction
                intro hne'
                obtain ⟨z, hz, e1, -⟩ := hok.three p hpr x hx
                obtain ⟨z', hz', e1', -⟩ := hok'.three q hqr y hy
                have hzz : z = z' := bare_of_keys hN (hgsub g hg z hz) (hgsub g' hg' z' hz') (by rw [← e1, ← e1', e])
                subst hzz
                -- a row is in one part only
                have hnd : ((gs.map (List.map Ins.bare)).flatten).Nodup := by
                  rw [← List.map_flatten]
                  exact (h5.nodup_iff).mpr (nodup_bare hN)
                exact disjoint_parts hnd hne' (by rw [List.getElem?_map, hgi]; rfl) (by rw [List.getElem?_map, hgi']; rfl) hz hz'
              subst hii
              rw [hgi] at hgi'
              rw [hri] at hri'
              injection hgi' with hgi'
              injection hri' with hri'
              subst hgi'; subst hri'
              obtain ⟨z, hz, e1, e2⟩ := hok.pair p hpr q hqr hle x hx y hy e
              exact ⟨z, hgsub g hg z hz, e1, e2⟩

end OsUrl
