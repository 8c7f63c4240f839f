import Verif.Proofs.Group
import Verif.Model.Matcher

/-! The view matchers of a node: `_get_matcher` and `add_match_node`. -/

namespace OsUrl

theorem viewOrder_inj {a b : ViewCls} (h : viewOrder a = viewOrder b) : a = b := by
  cases a <;> cases b <;> first | rfl | (simp [viewOrder] at h)

section
variable {σ : Type}

/-- Strictly sorted by view order. -/
def VSorted (vms : List (ViewCls × σ)) : Prop := vms.Pairwise (fun a b => viewOrder a.1 < viewOrder b.1)

theorem split_at {α : Type} {l : List α} {t : Nat} {x : α} (h : l[t]? = some x) :
    l = l.take t ++ x :: l.drop (t + 1) ∧ (l.take t).length = t := by
  obtain ⟨ht, rfl⟩ := List.getElem?_eq_some_iff.mp h
  refine ⟨?_, by simp; omega⟩
  rw [← List.drop_eq_getElem_cons ht, List.take_append_drop]

/-- What the binary search returns. -/
inductive Found (vms : List (ViewCls × σ)) (cls : ViewCls) : Nat × Bool → Prop where
  | found {A B s} : vms = A ++ (cls, s) :: B → Found vms cls (A.length, true)
  | absent {A B} : vms = A ++ B → (∀ x ∈ A, viewOrder x.1 < viewOrder cls) →
      (∀ x ∈ B, viewOrder cls < viewOrder x.1) → Found vms cls (A.length, false)

theorem getMatcher_spec {vms : List (ViewCls × σ)} (hs : VSorted vms) (cls : ViewCls) (fuel s e : Nat)
    (hf : e - s < fuel) (he : e ≤ vms.length) (hse : s ≤ e)
    (h1 : ∀ x ∈ vms.take s, viewOrder x.1 < viewOrder cls)
    (h2 : ∀ x ∈ vms.drop e, viewOrder cls < viewOrder x.1) :
    Found vms cls (getMatcher vms cls fuel s e) := by
  induction fuel generalizing s e with
  | zero => omega
  | succ fuel ih =>
    unfold getMatcher
    by_cases h : e > s
    · rw [if_pos h]
      have ht : (e - s) / 2 + s < vms.length := by omega
      have ht2 : (e - s) / 2 + s < e := by omega
      have ht3 : s ≤ (e - s) / 2 + s := by omega
      generalize (e - s) / 2 + s = t at *
      obtain ⟨c, st, hx'⟩ : ∃ c st, vms[t] = (c, st) := ⟨_, _, rfl⟩
      have hget : vms[t]? = some (c, st) := by rw [List.getElem?_eq_getElem ht, hx']
      obtain ⟨hsp, hlen⟩ := split_at hget
      dsimp only
      rw [hget]
      dsimp only
      have hpw := hs
      unfold VSorted at hpw
      rw [hsp, List.pairwise_append, List.pairwise_cons] at hpw
      obtain ⟨p1, ⟨p2, p3⟩, p4⟩ := hpw
      split
      · rename_i hc
        subst hc
        have := Found.found (cls := c) hsp
        rwa [hlen] at this
      · rename_i hc
        split
        · rename_i hlt
          apply ih _ _ (by omega) he (by omega) _ h2
          intro x hx
          have : x ∈ vms.take t ++ [(c, st)] := by
            rw [List.take_add_one, hget] at hx
            simpa using hx
          rw [List.mem_append, List.mem_singleton] at this
          rcases this with this | rfl
          · have := p4 x this (c, st) (by simp)
            simp only at this
            omega
          · exact hlt
        · rename_i hlt
          have hgt : viewOrder cls < viewOrder c := by
            have : viewOrder c ≠ viewOrder cls := fun h => hc (viewOrder_inj h)
            omega
          apply ih _ _ (by omega) (by omega) ht3 h1
          intro x hx
          rw [List.drop_eq_getElem_cons ht, hx'] at hx
          rw [List.mem_cons] at hx
          rcases hx with rfl | hx
          · exact hgt
          · have := p2 x hx
            simp only at this
            omega
    · rw [if_neg h]
      have : e = s := by omega
      subst this
      have := Found.absent (vms := vms) (cls := cls) (List.take_append_drop e vms).symm h1 h2
      rwa [List.length_take, Nat.min_eq_left he] at this

theorem VSorted.uniq {vms : List (ViewCls × σ)} (h : VSorted vms) {A B : List (ViewCls × σ)} {c : ViewCls} {s : σ}
    (e : vms = A ++ (c, s) :: B) : (∀ x ∈ A, x.1 ≠ c) ∧ (∀ x ∈ B, x.1 ≠ c) := by
  unfold VSorted at h
  rw [e, List.pairwise_append, List.pairwise_cons] at h
  obtain ⟨p1, ⟨p2, p3⟩, p4⟩ := h
  constructor
  · intro x hx hc
    have := p4 x hx (c, s) (by simp)
    rw [hc] at this; simp at this
  · intro x hx hc
    have := p2 x hx
    rw [hc] at this; simp at this

theorem insertIdx_at {α : Type} (A B : List α) (x : α) : (A ++ B).insertIdx A.length x = A ++ x :: B := by
  induction A with
  | nil => simp
  | cons a A ih => simp [ih]

/-- `add_match_node` through `_get_matcher`: the matcher of the pattern's class is replaced or
created, the others stay, and the order is kept. -/
theorem addMatchNode_spec {ops : VMOps σ} {p : MatchPattern} {vms vms' : List (ViewCls × σ)} (hs : VSorted vms)
    (h : addMatchNode ops p vms = .ok vms') :
    VSorted vms' ∧ ∃ s s', ((p.cls, s) ∈ vms ∨ (s = ops.empty p.cls ∧ ∀ x ∈ vms, x.1 ≠ p.cls)) ∧
      ops.add p s = .ok s' ∧ ∀ x, x ∈ vms' ↔ x = (p.cls, s') ∨ (x ∈ vms ∧ x.1 ≠ p.cls) := by
  unfold addMatchNode at h
  have hg := getMatcher_spec hs p.cls (vms.length + 1) 0 vms.length (by omega) (by omega) (by omega)
    (by simp) (by simp)
  generalize getMatcher vms p.cls (vms.length + 1) 0 vms.length = r at *
  cases hg with
  | @found A B s e =>
    have hu := hs.uniq e
    have e1 : vms[A.length]? = some (p.cls, s) := by rw [e]; simp
    simp only [if_true, e1] at h
    cases ha : ops.add p s with
    | error err => simp [ha, bind, Except.bind] at h
    | ok s' =>
      simp only [ha, bind, Except.bind, pure, Except.pure, Except.ok.injEq] at h
      have e2 : vms' = A ++ (p.cls, s') :: B := by
        rw [← h, e]; simp [List.set_append_right]
      refine ⟨?_, s, s', .inl (by rw [e]; simp), ha, ?_⟩
      · unfold VSorted at hs ⊢
        rw [e, List.pairwise_append, List.pairwise_cons] at hs
        rw [e2, List.pairwise_append, List.pairwise_cons]
        obtain ⟨p1, ⟨p2, p3⟩, p4⟩ := hs
        refine ⟨p1, ⟨p2, p3⟩, ?_⟩
        intro a ha' b hb
        rw [List.mem_cons] at hb
        rcases hb with rfl | hb
        · exact p4 a ha' (p.cls, s) (by simp)
        · exact p4 a ha' b (by simp [hb])
      · intro x
        rw [e2, e]
        simp only [List.mem_append, List.mem_cons]
        constructor
        · rintro (hx | rfl | hx)
          · exact .inr ⟨.inl hx, hu.1 x hx⟩
          · exact .inl rfl
          · exact .inr ⟨.inr (.inr hx), hu.2 x hx⟩
        · rintro (rfl | ⟨hx | rfl | hx, hc⟩)
          · exact .inr (.inl rfl)
          · exact .inl hx
          · exact absurd rfl hc
          · exact .inr (.inr hx)
  | @absent A B e hA hB =>
    have e1 : vms.insertIdx A.length (p.cls, ops.empty p.cls) = A ++ (p.cls, ops.empty p.cls) :: B := by
      rw [e]; exact insertIdx_at A B _
    simp only [Bool.false_eq_true, if_false, e1] at h
    have e3 : (A ++ (p.cls, ops.empty p.cls) :: B)[A.length]? = some (p.cls, ops.empty p.cls) := by simp
    simp only [e3] at h
    have hne : ∀ x ∈ vms, x.1 ≠ p.cls := by
      intro x hx hc
      rw [e, List.mem_append] at hx
      rcases hx with hx | hx
      · have := hA x hx; rw [hc] at this; omega
      · have := hB x hx; rw [hc] at this; omega
    cases ha : ops.add p (ops.empty p.cls) with
    | error err => simp [ha, bind, Except.bind] at h
    | ok s' =>
      simp only [ha, bind, Except.bind, pure, Except.pure, Except.ok.injEq] at h
      have e2 : vms' = A ++ (p.cls, s') :: B := by
        rw [← h]; simp [List.set_append_right]
      refine ⟨?_, ops.empty p.cls, s', .inr ⟨rfl, hne⟩, ha, ?_⟩
      · unfold VSorted at hs ⊢
        rw [e, List.pairwise_append] at hs
        rw [e2, List.pairwise_append, List.pairwise_cons]
        obtain ⟨p1, p3, p4⟩ := hs
        refine ⟨p1, ⟨hB, p3⟩, ?_⟩
        intro a ha' b hb
        rw [List.mem_cons] at hb
        rcases hb with rfl | hb
        · exact hA a ha'
        · exact p4 a ha' b hb
      · intro x
        rw [e2]
        simp only [List.mem_append, List.mem_cons]
        constructor
        · rintro (hx | rfl | hx)
          · have : x ∈ vms := by rw [e]; simp [hx]
            exact .inr ⟨this, hne x this⟩
          · exact .inl rfl
          · have : x ∈ vms := by rw [e]; simp [hx]
            exact .inr ⟨this, hne x this⟩
        · rintro (rfl | ⟨hx, hc⟩)
          · exact .inr (.inl rfl)
          · rw [e, List.mem_append] at hx
            rcases hx with hx | hx
            · exact .inl hx
            · exact .inr (.inr hx)

theorem getMatcher_range (vms : List (ViewCls × σ)) (cls : ViewCls) (fuel s e : Nat) (he : e ≤ vms.length) :
    ((getMatcher vms cls fuel s e).2 = true → ∃ x, vms[(getMatcher vms cls fuel s e).1]? = some x) ∧
      (getMatcher vms cls fuel s e).1 ≤ vms.length := by
  induction fuel generalizing s e with
  | zero => simp [getMatcher, he]
  | succ fuel ih =>
    unfold getMatcher
    split
    · rename_i h
      dsimp only
      have ht : (e - s) / 2 + s < e := by omega
      generalize (e - s) / 2 + s = t at *
      have ht' : t < vms.length := by omega
      cases hg : vms[t]? with
      | none => simp [he]
      | some x =>
        obtain ⟨c, st⟩ := x
        dsimp only
        split
        · exact ⟨fun _ => ⟨_, hg⟩, by simp; omega⟩
        · split
          · exact ih _ _ he
          · exact ih _ _ (by omega)
    · simp [he]

/-- Adding never fails in the search. -/
theorem addMatchNode_ok {ops : VMOps σ} {p : MatchPattern} (vms : List (ViewCls × σ))
    (hadd : ∀ s, ∃ s', ops.add p s = .ok s') : ∃ vms', addMatchNode ops p vms = .ok vms' := by
  unfold addMatchNode
  have hg := getMatcher_range vms p.cls (vms.length + 1) 0 vms.length (by omega)
  generalize getMatcher vms p.cls (vms.length + 1) 0 vms.length = r at *
  obtain ⟨i, f⟩ := r
  cases f with
  | true =>
    obtain ⟨⟨c, s⟩, hx⟩ := hg.1 rfl
    simp only at hx
    obtain ⟨s', h'⟩ := hadd s
    simp [hx, h', bind, Except.bind, pure, Except.pure]
  | false =>
    have hi : i ≤ vms.length := hg.2
    obtain ⟨x, hx⟩ : ∃ x, (vms.insertIdx i (p.cls, ops.empty p.cls))[i]? = some x := by
      have hl : i < (vms.insertIdx i (p.cls, ops.empty p.cls)).length := by
        rw [List.length_insertIdx_of_le_length hi]; omega
      exact ⟨_, List.getElem?_eq_getElem hl⟩
    obtain ⟨c, s⟩ := x
    obtain ⟨s', h'⟩ := hadd s
    simp [hx, h', bind, Except.bind, pure, Except.pure]

/-- The view matchers of a node whose children have been added in the order `ps`. -/
def addAll (ops : VMOps σ) (ps : List MatchPattern) : Py (List (ViewCls × σ)) :=
  ps.foldlM (fun vms p => addMatchNode ops p vms) []

theorem addAll_concat (ops : VMOps σ) (ps : List MatchPattern) (p : MatchPattern) :
    addAll ops (ps ++ [p]) = (do let vms ← addAll ops ps; addMatchNode ops p vms) := by
  simp [addAll, List.foldlM_append]

/-- The store of a class that has received the patterns `ps`. -/
def fillStore (ops : VMOps σ) (c : ViewCls) (ps : List MatchPattern) : Py σ :=
  ps.foldlM (fun s p => ops.add p s) (ops.empty c)

theorem fillStore_concat (ops : VMOps σ) (c : ViewCls) (ps : List MatchPattern) (p : MatchPattern) :
    fillStore ops c (ps ++ [p]) = (do let s ← fillStore ops c ps; ops.add p s) := by
  simp [fillStore, List.foldlM_append]

theorem bind_ok {α β : Type} {x : Py α} {f : α → Py β} {b : β} (h : (do let a ← x; f a) = .ok b) :
    ∃ a, x = .ok a ∧ f a = .ok b := by
  cases x with
  | error e => simp [bind, Except.bind] at h
  | ok a => exact ⟨a, rfl, h⟩

/-- The view matchers in terms of the children. -/
theorem addAll_spec {ops : VMOps σ} {ps : List MatchPattern} {vms : List (ViewCls × σ)} (h : addAll ops ps = .ok vms) :
    VSorted vms ∧ ∀ x, x ∈ vms ↔ (∃ p ∈ ps, p.cls = x.1) ∧
      fillStore ops x.1 (ps.filter (fun p => decide (p.cls = x.1))) = .ok x.2 := by
  revert h
  suffices ∀ vms, addAll ops ps = .ok vms → VSorted vms ∧ ∀ x, x ∈ vms ↔ (∃ p ∈ ps, p.cls = x.1) ∧
      fillStore ops x.1 (ps.filter (fun p => decide (p.cls = x.1))) = .ok x.2 from this vms
  refine snoc_ind (P := fun ps => ∀ vms, addAll ops ps = .ok vms → VSorted vms ∧ ∀ x, x ∈ vms ↔ (∃ p ∈ ps, p.cls = x.1) ∧
      fillStore ops x.1 (ps.filter (fun p => decide (p.cls = x.1))) = .ok x.2) ?_ ?_ ps
  · intro vms h
    simp [addAll, pure, Except.pure] at h
    subst h
    exact ⟨List.Pairwise.nil, by simp⟩
  · intro ps p ih vms' h
    rw [addAll_concat] at h
    obtain ⟨vms, h1, h2⟩ := bind_ok h
    obtain ⟨hs, hm⟩ := ih vms h1
    obtain ⟨hs', s, s', hcase, hadd, hm'⟩ := addMatchNode_spec hs h2
    refine ⟨hs', ?_⟩
    intro x
    rw [hm']
    by_cases hc : x.1 = p.cls
    · have e1 : (ps ++ [p]).filter (fun q => decide (q.cls = x.1)) = ps.filter (fun q => decide (q.cls = x.1)) ++ [p] := by
        simp [List.filter_append, hc]
      rw [e1, fillStore_concat]
      have e2 : fillStore ops x.1 (ps.filter (fun q => decide (q.cls = x.1))) = .ok s := by
        rw [hc]
        rcases hcase with hin | ⟨rfl, hno⟩
        · exact ((hm _).mp hin).2
        · have : ps.filter (fun q => decide (q.cls = p.cls)) = [] := by
            rw [List.filter_eq_nil_iff]
            intro q hq
            simp only [decide_eq_true_eq]
            intro hqc
            -- a child of this class would have a matcher
            obtain ⟨s0, hs0⟩ : ∃ s0, (q.cls, s0) ∈ vms := by
              clear hm' hadd h2 hs' e1 h hno hm hs ih hqc hc
              revert vms
              revert hq
              refine snoc_ind (P := fun ps => q ∈ ps → ∀ vms, addAll ops ps = .ok vms → ∃ s0, (q.cls, s0) ∈ vms) ?_ ?_ ps
              · intro h; simp at h
              · intro l y ih hq vms h
                rw [addAll_concat] at h
                obtain ⟨v, h1, h2⟩ := bind_ok h
                have hv : VSorted v := by
                  clear h2 ih hq
                  revert v
                  refine snoc_ind (P := fun l => ∀ v, addAll ops l = .ok v → VSorted v) ?_ ?_ l
                  · intro v h; simp [addAll, pure, Except.pure] at h; subst h; exact List.Pairwise.nil
                  · intro l z ih v h
                    rw [addAll_concat] at h
                    obtain ⟨w, h1, h2⟩ := bind_ok h
                    exact (addMatchNode_spec (ih w h1) h2).1
                obtain ⟨-, t, t', -, -, hm⟩ := addMatchNode_spec hv h2
                rw [List.mem_append, List.mem_singleton] at hq
                rcases hq with hq | rfl
                · obtain ⟨s0, h0⟩ := ih hq v h1
                  by_cases hc : q.cls = y.cls
                  · exact ⟨t', by rw [hc]; exact (hm _).mpr (.inl rfl)⟩
                  · exact ⟨s0, (hm _).mpr (.inr ⟨h0, hc⟩)⟩
                · exact ⟨t', (hm _).mpr (.inl rfl)⟩
            exact hno _ hs0 hqc
          rw [this]; rfl
      rw [e2]
      simp only [bind, Except.bind, hadd, Except.ok.injEq]
      constructor
      · rintro (rfl | ⟨-, h⟩)
        · exact ⟨⟨p, by simp, rfl⟩, rfl⟩
        · exact absurd hc h
      · rintro ⟨-, h⟩
        left
        rw [h, ← hc]
    · have e1 : (ps ++ [p]).filter (fun q => decide (q.cls = x.1)) = ps.filter (fun q => decide (q.cls = x.1)) := by
        have : ¬ p.cls = x.1 := fun h => hc h.symm
        simp [List.filter_append, this]
      rw [e1]
      have e2 : (∃ q ∈ ps ++ [p], q.cls = x.1) ↔ (∃ q ∈ ps, q.cls = x.1) := by
        have : ¬ p.cls = x.1 := fun h => hc h.symm
        simp [this]
      rw [e2, ← hm]
      constructor
      · rintro (rfl | ⟨h, -⟩)
        · exact absurd rfl hc
        · exact h
      · intro h; exact .inr ⟨h, hc⟩

theorem addAll_ok {ops : VMOps σ} {ps : List MatchPattern} (h : ∀ p ∈ ps, ∀ s, ∃ s', ops.add p s = .ok s') :
    ∃ vms, addAll ops ps = .ok vms := by
  revert h
  refine snoc_ind (P := fun ps => (∀ p ∈ ps, ∀ s, ∃ s', ops.add p s = .ok s') → ∃ vms, addAll ops ps = .ok vms) ?_ ?_ ps
  · intro _; exact ⟨[], rfl⟩
  · intro ps p ih h
    obtain ⟨vms, hv⟩ := ih (fun q hq => h q (by simp [hq]))
    rw [addAll_concat, hv]
    exact addMatchNode_ok vms (h p (by simp))

end
end OsUrl
