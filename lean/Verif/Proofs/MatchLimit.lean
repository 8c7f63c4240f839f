import Verif.Model.MatchLimit
import Verif.Proofs.MTree
import Verif.Proofs.Limit
import Verif.Proofs.Sep

/-!
# Matching with a limited call stack: refinement
-/

namespace OsUrl

/-- The limited program raises `RecursionError` or does what the unlimited one does. -/
def Rf {α : Type} (x y : Py α) : Prop := x = .error .recursionError ∨ x = y

theorem Rf.refl {α : Type} (x : Py α) : Rf x x := .inr rfl

theorem rf_bind {α β : Type} {x y : Py α} {f g : α → Py β} (h : Rf x y) (hf : ∀ a, Rf (f a) (g a)) :
    Rf (x >>= f) (y >>= g) := by
  rcases h with rfl | rfl
  · exact .inl rfl
  · cases x with
    | error e => exact .inr rfl
    | ok a => exact hf a

theorem rf_mapM {α β : Type} {f g : α → Py β} {l : List α} (h : ∀ a ∈ l, Rf (f a) (g a)) : Rf (l.mapM f) (l.mapM g) := by
  induction l with
  | nil => exact .inr rfl
  | cons a l ih =>
    rw [List.mapM_cons, List.mapM_cons]
    exact rf_bind (h a (by simp)) (fun b => rf_bind (ih (fun c hc => h c (by simp [hc]))) (fun _ => Rf.refl _))

theorem rf_raises {α : Type} {x y : Py α} {r : α} (h : Rf x y) (hy : y = .ok r) (hx : ∀ r, x ≠ .ok r) : x = .error .recursionError := by
  rcases h with h | h
  · exact h
  · exact absurd (h.trans hy) (hx r)

variable {σ μ : Type}

/-- One view matcher, with frames. -/
def vmStepL (mt : Nat → ViewCls → Option ParsedPiece → σ → Py (List Str)) (pp : Option ParsedPiece) (rest : List (Option ParsedPiece)) (lim : Nat)
    (pre : List MatchPattern) (kids : Forest (MData σ μ)) (vm : ViewCls × σ) : Py (List (Matched σ μ)) :=
  match lim with
  | 0 => .error .recursionError
  | l + 1 => do
    let keys ← mt l vm.1 pp vm.2
    match derefs kids keys with
    | [] => return []
    | (d0, k0) :: ns =>
      if k0.isNil then
        return ((d0, k0) :: ns).map (fun n => (⟨pre ++ [n.1.pat], n.1⟩ : Matched σ μ))
      else do
        let ms ← ((d0, k0) :: ns).mapM (fun n => mmatchL mt rest l (pre ++ [n.1.pat]) n.1 n.2)
        return ms.flatten

theorem mmatchL_cons (mt : Nat → ViewCls → Option ParsedPiece → σ → Py (List Str)) (pp : Option ParsedPiece) (rest : List (Option ParsedPiece))
    (lim : Nat) (pre : List MatchPattern) (d : MData σ μ) (kids : Forest (MData σ μ)) :
    mmatchL mt (pp :: rest) (lim + 1) pre d kids = (do
      let rs ← d.vms.mapM (vmStepL mt pp rest lim pre kids)
      return rs.flatten) := by
  rw [mmatchL]; rfl

theorem vmStepL_ref {mt : Nat → ViewCls → Option ParsedPiece → σ → Py (List Str)} {ops : VMOps σ}
    (h : ∀ l c pp s, Rf (mt l c pp s) (ops.matches_ c pp s)) {pp : Option ParsedPiece} {rest : List (Option ParsedPiece)}
    {pre : List MatchPattern} {kids : Forest (MData σ μ)}
    (ih : ∀ l pre d (k : Forest (MData σ μ)), Rf (mmatchL mt rest l pre d k) (mmatch ops rest pre d k)) (lim : Nat) (vm : ViewCls × σ) :
    Rf (vmStepL mt pp rest lim pre kids vm) (vmStep ops pp rest pre kids vm) := by
  cases lim with
  | zero => exact .inl rfl
  | succ l =>
    unfold vmStepL vmStep
    refine rf_bind (h l vm.1 pp vm.2) (fun keys => ?_)
    cases derefs kids keys with
    | nil => exact Rf.refl _
    | cons n ns =>
      obtain ⟨d0, k0⟩ := n
      simp only
      by_cases hk : k0.isNil = true
      · rw [if_pos hk, if_pos hk]; exact Rf.refl _
      · rw [if_neg hk, if_neg hk]
        exact rf_bind (rf_mapM (fun n _ => ih l _ _ _)) (fun _ => Rf.refl _)

theorem mmatchL_ref {mt : Nat → ViewCls → Option ParsedPiece → σ → Py (List Str)} {ops : VMOps σ}
    (h : ∀ l c pp s, Rf (mt l c pp s) (ops.matches_ c pp s)) (pps : List (Option ParsedPiece)) (lim : Nat) (pre : List MatchPattern)
    (d : MData σ μ) (kids : Forest (MData σ μ)) : Rf (mmatchL mt pps lim pre d kids) (mmatch ops pps pre d kids) := by
  induction pps generalizing lim pre d kids with
  | nil => cases lim with
    | zero => exact .inl (by rw [mmatchL])
    | succ l => exact .inr (by rw [mmatchL, mmatch])
  | cons pp rest ih =>
    cases lim with
    | zero => exact .inl (by rw [mmatchL])
    | succ l =>
      rw [mmatchL_cons, mmatch_cons]
      exact rf_bind (rf_mapM (fun vm _ => vmStepL_ref h ih l vm)) (fun _ => Rf.refl _)

theorem mmatchL_eq {mt : Nat → ViewCls → Option ParsedPiece → σ → Py (List Str)} {ops : VMOps σ} {K : Nat} (pps : List (Option ParsedPiece))
    (h : ∀ l, K ≤ l → ∀ c, ∀ pp ∈ pps, ∀ s, mt l c pp s = ops.matches_ c pp s) (lim : Nat) (hl : 2 * pps.length + K + 1 ≤ lim)
    (pre : List MatchPattern) (d : MData σ μ) (kids : Forest (MData σ μ)) : mmatchL mt pps lim pre d kids = mmatch ops pps pre d kids := by
  induction pps generalizing lim pre d kids with
  | nil => cases lim with
    | zero => simp at hl
    | succ l => rw [mmatchL, mmatch]
  | cons pp rest ih =>
    obtain ⟨l, rfl⟩ : ∃ l, lim = l + 2 := ⟨lim - 2, by simp at hl; omega⟩
    rw [mmatchL_cons, mmatch_cons]
    have e : vmStepL mt pp rest (l + 1) pre kids = vmStep ops pp rest pre kids := by
      funext vm
      unfold vmStepL vmStep
      simp only [List.length_cons] at hl
      simp only
      rw [h l (by omega) vm.1 pp (by simp) vm.2]
      have e2 : ∀ n : MData σ μ × Forest (MData σ μ), mmatchL mt rest l (pre ++ [n.1.pat]) n.1 n.2 = mmatch ops rest (pre ++ [n.1.pat]) n.1 n.2 :=
        fun n => ih (fun l hl c pp hp s => h l hl c pp (by simp [hp]) s) l (by omega) _ _ _
      simp only [e2]
      rfl
    rw [e]

/-- A node at depth `k` is only found with `2 * k` frames. -/
theorem mmatchL_deep {mt : Nat → ViewCls → Option ParsedPiece → σ → Py (List Str)} {ops : VMOps σ}
    (h : ∀ l c pp s, Rf (mt l c pp s) (ops.matches_ c pp s)) (pps : List (Option ParsedPiece)) (lim : Nat) (pre : List MatchPattern)
    (d : MData σ μ) (kids : Forest (MData σ μ)) {rs : List (Matched σ μ)} (hm : mmatch ops pps pre d kids = .ok rs) {x : Matched σ μ} (hx : x ∈ rs)
    (hl : lim + 2 * pre.length < 2 * x.path.length) : mmatchL mt pps lim pre d kids = .error .recursionError := by
  induction pps generalizing lim pre d kids rs with
  | nil => rw [mmatch] at hm; cases hm
  | cons pp rest ih =>
    cases lim with
    | zero => rw [mmatchL]
    | succ lim =>
      refine rf_raises (mmatchL_ref h _ _ _ _ _) hm ?_
      rw [mmatch_cons] at hm
      obtain ⟨bss, hb, hm⟩ := bind_ok hm
      simp only [pure, Except.pure, Except.ok.injEq] at hm
      subst hm
      obtain ⟨vm, hvm, bs, hbs, hx⟩ := (mapM_flatten_mem hb x).mp hx
      rw [mmatchL_cons]
      intro r hr
      obtain ⟨css, hc, -⟩ := bind_ok hr
      refine mapM_raises (f := vmStepL mt pp rest lim pre kids) hvm ?_ css hc
      intro r' hr'
      cases lim with
      | zero => cases hr'
      | succ l =>
        unfold vmStep at hbs
        unfold vmStepL at hr'
        obtain ⟨keys, hk, hbs⟩ := bind_ok hbs
        obtain ⟨keys', hk', hr'⟩ := bind_ok hr'
        have ek : keys' = keys := by
          rcases h l vm.1 pp vm.2 with e | e
          · rw [e] at hk'; cases hk'
          · rw [e, hk] at hk'; exact (Except.ok.inj hk').symm
        subst ek
        cases hd : derefs kids keys' with
        | nil =>
          rw [hd] at hbs
          simp only [pure, Except.pure, Except.ok.injEq] at hbs
          subst hbs; cases hx
        | cons n ns =>
          obtain ⟨d0, k0⟩ := n
          rw [hd] at hbs hr'
          simp only at hbs hr'
          by_cases hnil : k0.isNil = true
          · rw [if_pos hnil] at hbs
            simp only [pure, Except.pure, Except.ok.injEq] at hbs
            subst hbs
            obtain ⟨n, -, rfl⟩ := List.mem_map.mp hx
            simp at hl
            omega
          · rw [if_neg hnil] at hbs hr'
            obtain ⟨mss, hms, hbs⟩ := bind_ok hbs
            simp only [pure, Except.pure, Except.ok.injEq] at hbs
            subst hbs
            obtain ⟨n, hn, ms, hms', hx⟩ := (mapM_flatten_mem hms x).mp hx
            obtain ⟨mss', hmsL, -⟩ := bind_ok hr'
            refine mapM_raises (f := fun n : MData σ μ × Forest (MData σ μ) => mmatchL mt rest l (pre ++ [n.1.pat]) n.1 n.2) hn ?_ mss' hmsL
            intro r2 hr2
            rw [ih l _ _ _ hms' hx (by simp only [List.length_append, List.length_singleton]; omega)] at hr2
            cases hr2

theorem mmatch_path_le {ops : VMOps σ} (pps : List (Option ParsedPiece)) (pre : List MatchPattern)
    (d : MData σ μ) (kids : Forest (MData σ μ)) {rs : List (Matched σ μ)} (hm : mmatch ops pps pre d kids = .ok rs) {x : Matched σ μ} (hx : x ∈ rs) :
    x.path.length ≤ pre.length + pps.length := by
  induction pps generalizing pre d kids rs with
  | nil => rw [mmatch] at hm; cases hm
  | cons pp rest ih =>
    rw [mmatch_cons] at hm
    obtain ⟨bss, hb, hm⟩ := bind_ok hm
    simp only [pure, Except.pure, Except.ok.injEq] at hm
    subst hm
    obtain ⟨vm, hvm, bs, hbs, hx⟩ := (mapM_flatten_mem hb x).mp hx
    unfold vmStep at hbs
    obtain ⟨keys, hk, hbs⟩ := bind_ok hbs
    cases hd : derefs kids keys with
    | nil =>
      rw [hd] at hbs
      simp only [pure, Except.pure, Except.ok.injEq] at hbs
      subst hbs; cases hx
    | cons n ns =>
      obtain ⟨d0, k0⟩ := n
      rw [hd] at hbs
      simp only at hbs
      by_cases hnil : k0.isNil = true
      · rw [if_pos hnil] at hbs
        simp only [pure, Except.pure, Except.ok.injEq] at hbs
        subst hbs
        obtain ⟨n, -, rfl⟩ := List.mem_map.mp hx
        simp
      · rw [if_neg hnil] at hbs
        obtain ⟨mss, hms, hbs⟩ := bind_ok hbs
        simp only [pure, Except.pure, Except.ok.injEq] at hbs
        subst hbs
        obtain ⟨n, hn, ms, hms', hx⟩ := (mapM_flatten_mem hms x).mp hx
        have := ih _ _ _ hms' hx
        simp only [List.length_append, List.length_cons, List.length_nil] at this ⊢
        omega

theorem unitMatchL_ref (l : Nat) (c : ViewCls) (pp : Option ParsedPiece) (s : Store) : Rf (unitMatchL l c pp s) (unitOps.matches_ c pp s) := .inr rfl

theorem urlMatchL_ref (l : Nat) (c : ViewCls) (pp : Option ParsedPiece) (s : FullStore) : Rf (urlMatchL l c pp s) (urlOps.matches_ c pp s) := by
  cases s with
  | simple s => exact .inr rfl
  | multi d =>
    show Rf (multiMatchL l c pp d) (multiMatch c pp d)
    unfold multiMatchL multiMatch
    cases pp with
    | none => exact .inr rfl
    | some pp =>
      simp only
      cases Dict.get? (viewStr (viewPieces c pp)) d with
      | none => exact .inr rfl
      | some t => exact rf_bind (mmatchL_ref unitMatchL_ref _ _ _ _ _) (fun _ => Rf.refl _)

theorem mixStep_length (st : MixSt) (pr : Str × Str) :
    (mixStep st pr).mr.length + (mixStep st pr).tr.length ≤ st.mr.length + st.tr.length + 1 ∧ (mixStep st pr).tr ≠ [] := by
  unfold mixStep
  by_cases h : pr.2 ∈ mixedRuleSet
  · simp only [if_pos h]
    by_cases h2 : st.tr ≠ [] ∧ st.tmix = false
    · rw [if_pos h2]; simp
    · rw [if_neg h2]; simp; omega
  · simp only [if_neg h]
    by_cases h2 : st.tr ≠ [] ∧ st.tmix = true
    · rw [if_pos h2]
      have := List.length_pos_iff.mpr h2.1
      simp; omega
    · rw [if_neg h2]; simp; omega

theorem mixLoop_length (prs : List (Str × Str)) (st : MixSt) (h : st.tmix = true → st.tr ≠ []) :
    (prs.foldl mixStep st).mr.length + (prs.foldl mixStep st).tr.length ≤ st.mr.length + st.tr.length + prs.length ∧
      ((prs.foldl mixStep st).tmix = true → (prs.foldl mixStep st).tr ≠ []) := by
  induction prs generalizing st with
  | nil => exact ⟨by simp, h⟩
  | cons pr prs ih =>
    obtain ⟨h1, h2⟩ := mixStep_length st pr
    obtain ⟨h3, h4⟩ := ih (mixStep st pr) (fun _ => h2)
    refine ⟨?_, h4⟩
    simp only [List.foldl_cons, List.length_cons]
    omega

theorem mix_rules_length (ps rs : List Str) : (mix ps rs).2.length ≤ rs.length := by
  obtain ⟨h1, h2⟩ := mixLoop_length (ps.zip rs) ⟨[], [], [], [], false⟩ (by simp)
  have hz : (ps.zip rs).length ≤ rs.length := by rw [List.length_zip]; omega
  unfold mix
  simp only at h1 ⊢
  by_cases ht : ((ps.zip rs).foldl mixStep ⟨[], [], [], [], false⟩).tmix = true
  · rw [if_pos ht]
    have := List.length_pos_iff.mpr (h2 ht)
    simp at h1 ⊢
    omega
  · rw [if_neg ht]
    simp at h1 ⊢
    omega

theorem viewPieces_length (c : ViewCls) (pp : ParsedPiece) : (viewPieces c pp).length ≤ pp.rules.length + 1 := by
  have hmulti : (multiPieces pp).length ≤ pp.rules.length + 1 := by
    unfold multiPieces
    rw [List.length_map, List.length_zip]; omega
  have hmixed : (mixedPieces pp).length ≤ pp.rules.length + 1 := by
    unfold mixedPieces
    by_cases h : pp.rules.length ≤ 1
    · rw [if_pos h]; simp
    · rw [if_neg h]
      have := mix_rules_length pp.pieces pp.rules
      simp only [List.length_map, List.length_zip]; omega
  have hlast : (lastDotPieces pp).length ≤ pp.rules.length + 1 := by
    unfold lastDotPieces
    cases hi : lastDotIdx pp.rules with
    | none => simp [fuzzyPieces]
    | some i =>
      simp only
      by_cases h : (pp.rules.drop (i + 1)).all (fun r => decide (r ∈ digitAsciiRuleSet)) = true
      · rw [if_pos h]
        have := mix_rules_length (pp.pieces.drop (i + 1)) (pp.rules.drop (i + 1))
        rw [List.length_drop] at this
        have hlt : i < pp.rules.length := (lastDotIdx_inv hi).1
        simp only [List.length_map, List.length_zip, List.length_append, List.length_cons, List.length_nil]
        omega
      · rw [if_neg h]; simp [fuzzyPieces]
  unfold viewPieces
  cases c <;> assumption

theorem urlMatchL_eq {k l : Nat} (hl : 2 * k + 3 ≤ l) (c : ViewCls) (pp : Option ParsedPiece) (hp : ∀ q, pp = some q → q.rules.length ≤ k) (s : FullStore) :
    urlMatchL l c pp s = urlOps.matches_ c pp s := by
  cases s with
  | simple s => rfl
  | multi d =>
    show multiMatchL l c pp d = multiMatch c pp d
    unfold multiMatchL multiMatch
    cases pp with
    | none => rfl
    | some pp =>
      simp only
      cases Dict.get? (viewStr (viewPieces c pp)) d with
      | none => rfl
      | some t =>
        simp only
        rw [mmatchL_eq (ops := unitOps) (K := 0) _ (mt := unitMatchL) (fun _ _ _ _ _ _ => rfl) l ?_]
        have := viewPieces_length c pp
        have := hp pp rfl
        rw [List.length_map]
        omega

/-! ### comparing nodes -/

theorem ltUp_same (a b : List MatchPattern) (h : a.map (·.str) = b.map (·.str)) : ltUp a b = .ok false := by
  induction a generalizing b with
  | nil => rw [ltUp]
  | cons p ps ih =>
    cases b with
    | nil => cases h
    | cons q qs =>
      simp only [List.map_cons, List.cons.injEq] at h
      rw [ltUp, if_pos h.1]
      exact ih qs h.2

theorem ltUpL_ref (lim : Nat) (a b : List MatchPattern) : Rf (ltUpL lim a b) (ltUp a b) := by
  induction a generalizing lim b with
  | nil => cases lim with
    | zero => exact .inl (by rw [ltUpL])
    | succ l => exact .inr (by rw [ltUpL, ltUp])
  | cons p ps ih =>
    cases lim with
    | zero => exact .inl (by rw [ltUpL])
    | succ l =>
      cases b with
      | nil => exact .inr (by rw [ltUpL, ltUp])
      | cons q qs =>
        by_cases h : (p :: ps).map (·.str) = (q :: qs).map (·.str)
        · refine .inr ?_
          rw [ltUp_same _ _ h]
          cases l <;> rw [ltUpL, if_pos h]
        · cases l with
          | zero => exact .inl (by rw [ltUpL, if_neg h])
          | succ l =>
            rw [ltUpL, if_neg h, ltUp]
            by_cases e : p.str = q.str
            · rw [if_pos e, if_pos e]; exact ih _ _
            · rw [if_neg e, if_neg e]; exact Rf.refl _

theorem ltUpL_eq (lim : Nat) (a b : List MatchPattern) (hl : a.length + 1 ≤ lim) : ltUpL lim a b = ltUp a b := by
  induction a generalizing lim b with
  | nil => cases lim with
    | zero => simp at hl
    | succ l => rw [ltUpL, ltUp]
  | cons p ps ih =>
    obtain ⟨l, rfl⟩ : ∃ l, lim = l + 2 := ⟨lim - 2, by simp at hl; omega⟩
    cases b with
    | nil => rw [ltUpL, ltUp]
    | cons q qs =>
      rw [ltUpL]
      by_cases h : (p :: ps).map (·.str) = (q :: qs).map (·.str)
      · rw [if_pos h, ltUp_same _ _ h]
      · rw [if_neg h, ltUp]
        by_cases e : p.str = q.str
        · rw [if_pos e, if_pos e]; exact ih _ _ (by simp at hl; omega)
        · rw [if_neg e, if_neg e]

theorem ltL_ref (lim : Nat) (a b : Matched σ μ) : Rf (Matched.ltL lim a b) (Matched.lt a b) := by
  unfold Matched.ltL Matched.lt
  by_cases h : a.path.map (·.str) = b.path.map (·.str)
  · rw [if_pos h]
    have := ltUpL_ref lim a.path.reverse b.path.reverse
    rwa [ltUp_same _ _ (by rw [List.map_reverse, List.map_reverse, h])] at this
  · rw [if_neg h]; exact ltUpL_ref _ _ _

theorem ltL_eq (lim : Nat) (a b : Matched σ μ) (hl : a.path.length + 1 ≤ lim) : Matched.ltL lim a b = Matched.lt a b := by
  unfold Matched.ltL Matched.lt
  rw [ltUpL_eq lim _ _ (by simpa using hl)]
  by_cases h : a.path.map (·.str) = b.path.map (·.str)
  · rw [if_pos h]
    exact ltUp_same _ _ (by rw [List.map_reverse, List.map_reverse, h])
  · rw [if_neg h]

theorem insertAsc_ref {α : Type} {lt lt' : α → α → Py Bool} (h : ∀ a b, Rf (lt a b) (lt' a b)) (x : α) (l : List α) :
    Rf (insertAsc lt x l) (insertAsc lt' x l) := by
  induction l with
  | nil => exact .inr rfl
  | cons y ys ih =>
    rw [insertAsc, insertAsc]
    refine rf_bind (h x y) (fun b => ?_)
    cases b with
    | true => exact Rf.refl _
    | false => exact rf_bind ih (fun _ => Rf.refl _)

theorem pySorted_ref {α : Type} {lt lt' : α → α → Py Bool} (h : ∀ a b, Rf (lt a b) (lt' a b)) (xs acc : List α) :
    Rf (xs.foldlM (fun acc x => insertAsc lt x acc) acc) (xs.foldlM (fun acc x => insertAsc lt' x acc) acc) := by
  induction xs generalizing acc with
  | nil => exact .inr rfl
  | cons x xs ih =>
    rw [List.foldlM_cons, List.foldlM_cons]
    exact rf_bind (insertAsc_ref h x acc) (fun b => ih b)

theorem insertAsc_eq {α : Type} {lt lt' : α → α → Py Bool} {x : α} (h : ∀ b, lt x b = lt' x b) (l : List α) :
    insertAsc lt x l = insertAsc lt' x l := by
  induction l with
  | nil => rfl
  | cons y ys ih => rw [insertAsc, insertAsc, h, ih]

theorem pySorted_eq {α : Type} {lt lt' : α → α → Py Bool} (xs acc : List α) (h : ∀ a ∈ xs, ∀ b, lt a b = lt' a b) :
    xs.foldlM (fun acc x => insertAsc lt x acc) acc = xs.foldlM (fun acc x => insertAsc lt' x acc) acc := by
  induction xs generalizing acc with
  | nil => rfl
  | cons x xs ih =>
    rw [List.foldlM_cons, List.foldlM_cons, insertAsc_eq (h x (by simp))]
    congr 1
    funext b
    exact ih b (fun a ha => h a (by simp [ha]))

theorem pySortedDesc_ref {α : Type} {lt lt' : α → α → Py Bool} (h : ∀ a b, Rf (lt a b) (lt' a b)) (xs : List α) :
    Rf (pySortedDesc lt xs) (pySortedDesc lt' xs) := by
  unfold pySortedDesc pySorted
  exact rf_bind (pySorted_ref h _ _) (fun _ => Rf.refl _)

theorem pySortedDesc_eq {α : Type} {lt lt' : α → α → Py Bool} (xs : List α) (h : ∀ a ∈ xs, ∀ b, lt a b = lt' a b) :
    pySortedDesc lt xs = pySortedDesc lt' xs := by
  unfold pySortedDesc pySorted
  rw [pySorted_eq _ _ (fun a ha => h a (List.mem_reverse.mp ha))]

end OsUrl
