import Verif.Proofs.Lazy

/-! The generator of `make()`: all answers of one generator. -/

namespace OsUrl
open Spec

theorem loads_append (a b : List Op) : loads (a ++ b) = loads a ++ loads b := by
  induction a with
  | nil => rfl
  | cons op a ih => cases op <;> simp [loads, ih]

theorem loads_cons (op : Op) (ops : List Op) : loads (op :: ops) = loads [op] ++ loads ops := by rw [← loads_append]; rfl

theorem firsts_prefix {α : Type} [DecidableEq α] : ∀ {l l' : List α}, l <+: l' → firsts l <+: firsts l'
  | [], _, _ => List.nil_prefix
  | x :: l, l', ⟨r, e⟩ => by
    subst e
    rw [List.cons_append, firsts, firsts]
    exact List.cons_prefix_cons.mpr ⟨rfl, (firsts_prefix (List.prefix_append l r)).filter _⟩

theorem structs_prefix (md5 : Str → Str) {H H' : List (Str × Option Str)} (h : H <+: H') : structs md5 H <+: structs md5 H' :=
  firsts_prefix (h.filterMap _)

theorem structs_same (md5 : Str → Str) {H H' : List (Str × Option Str)} (h : H <+: H') :
    structs md5 H' = structs md5 H ↔ (structs md5 H').length = (structs md5 H).length :=
  ⟨fun e => by rw [e], fun e => ((structs_prefix md5 h).eq_of_length e.symm).symm⟩

/-- The end of a generator. -/
def Ended (md5 : Str → Str) (h : Runtime) (mcn : Int) (ss : List Str) (as : List (List (Str × Option Str) × Next)) : Prop :=
  ∃ T Hend later, Turns md5 h mcn ss T ∧ (∀ x ∈ later, x.2 = .stopped) ∧
    ((T.length = ss.length ∧ structs md5 Hend = ss ∧ as = T.flatten.map yieldedAt ++ (Hend, .stopped) :: later) ∨
      (structs md5 Hend ≠ ss ∧ as = T.flatten.map yieldedAt ++ (Hend, .changed) :: later))

/-- A generator in the middle of its work. -/
def Going (md5 : Str → Str) (h : Runtime) (mcn : Int) (ss : List Str) (as : List (List (Str × Option Str) × Next)) (pos : Nat) (rest : List Yielded) : Prop :=
  ∃ T cur, Turns md5 h mcn ss T ∧ TurnAt md5 h mcn ss T.length cur rest ∧ pos = T.length + 1 ∧ as = (T.flatten ++ cur).map yieldedAt

def GenInv (md5 : Str → Str) (h : Runtime) (mcn : Int) (ss : List Str) (as : List (List (Str × Option Str) × Next)) : MakeGen → Prop
  | .fresh => False
  | .running size pos rest => size = ss.length ∧ Going md5 h mcn ss as pos rest
  | .done => Ended md5 h mcn ss as

theorem turns_snoc {md5 : Str → Str} {h : Runtime} {mcn : Int} {ss : List Str} {T : List (List (List (Str × Option Str) × Yielded))}
    {cur : List (List (Str × Option Str) × Yielded)} (hT : Turns md5 h mcn ss T) (hc : TurnAt md5 h mcn ss T.length cur []) :
    Turns md5 h mcn ss (T ++ [cur]) := by
  intro k t ht
  rcases Nat.lt_or_ge k T.length with hk | hk
  · rw [List.getElem?_append_left hk] at ht; exact hT k t ht
  · rw [List.getElem?_append_right hk] at ht
    cases hd : k - T.length with
    | zero =>
      rw [hd] at ht
      have : k = T.length := by omega
      simp only [List.getElem?_cons_zero, Option.some.injEq] at ht
      rw [this, ← ht]; exact hc
    | succ n => rw [hd] at ht; simp at ht

/-- The next turn of a generator that has made the turns `T`. -/
theorem next_turn (md5 : Str → Str) {h : Runtime} {mcn : Int} (hm : 2 ≤ mcn) {H : List (Str × Option Str)}
    (hc : NoCollision md5 (accepted H)) (hh : NoHashClash h (UrlRow H)) {st : PatternMakerSt} (hst : st.unpat = loadAll md5 H)
    {ss : List Str} (hs : structs md5 H = ss) {T : List (List (List (Str × Option Str) × Yielded))} (hT : Turns md5 h mcn ss T) (hle : T.length ≤ ss.length) :
    ∃ n g' st', MakeGen.turn h mcn ss.length (st.drop T.length) T.length st = (n, g', st') ∧
      GenInv md5 h mcn ss (T.flatten.map yieldedAt ++ [(H, n)]) g' := by
  cases hp : ss[T.length]? with
  | none =>
    have hge := List.getElem?_eq_none_iff.mp hp
    rw [turn_none _ (by rw [state_length md5 hc hst, hs]; exact hge)]
    exact ⟨_, _, _, rfl, T, H, [], hT, by simp, .inl ⟨by omega, hs, rfl⟩⟩
  | some s =>
    obtain ⟨y, ys, st', h1, -, h3⟩ := turn_some md5 hm hc hh hst ss.length (by rw [hs]; exact hp)
    rw [h1]
    refine ⟨_, _, _, rfl, rfl, T, [(H, y)], hT, ⟨H, y, [], s, rfl, hs, hp, h3⟩, rfl, ?_⟩
    rw [List.map_append]
    rfl

theorem next_inv (md5 : Str → Str) {h : Runtime} {mcn : Int} (hm : 2 ≤ mcn) {H0 H : List (Str × Option Str)} (hpre : H0 <+: H)
    (hc : NoCollision md5 (accepted H)) (hh : NoHashClash h (UrlRow H)) {st : PatternMakerSt} (hst : st.unpat = loadAll md5 H)
    {as : List (List (Str × Option Str) × Next)} {g : MakeGen} (hg : GenInv md5 h mcn (structs md5 H0) as g) :
    ∃ n g' st', g.next h mcn st = (n, g', st') ∧ GenInv md5 h mcn (structs md5 H0) (as ++ [(H, n)]) g' := by
  cases g with
  | fresh => exact hg.elim
  | done =>
    refine ⟨_, _, _, rfl, ?_⟩
    obtain ⟨T, Hend, later, h1, h2, h3⟩ := hg
    refine ⟨T, Hend, later ++ [(H, .stopped)], h1, ?_, ?_⟩
    · intro x hx
      rcases List.mem_append.mp hx with hx | hx
      · exact h2 x hx
      · rw [List.mem_singleton.mp hx]
    · rcases h3 with ⟨a, b, e⟩ | ⟨a, e⟩
      · exact .inl ⟨a, b, by rw [e]; simp⟩
      · exact .inr ⟨a, by rw [e]; simp⟩
  | running size pos rest =>
    obtain ⟨rfl, T, cur, h1, h2, rfl, rfl⟩ := hg
    cases rest with
    | cons y ys =>
      refine ⟨_, _, _, rfl, rfl, T, cur ++ [(H, y)], h1, ?_, rfl, ?_⟩
      · obtain ⟨H', y', t', s, e1, e2, e3, e4⟩ := h2
        refine ⟨H', y', t' ++ [(H, y)], s, by rw [e1]; rfl, e2, e3, ?_⟩
        simpa using e4
      · simp [yieldedAt]
    | nil =>
      simp only [MakeGen.next]
      by_cases hlen : st.length = (structs md5 H0).length
      · rw [if_neg (by simpa using hlen)]
        have hs : structs md5 H = structs md5 H0 := (structs_same md5 hpre).mpr (by rw [← state_length md5 hc hst]; exact hlen)
        have hlt : T.length < (structs md5 H0).length := by
          obtain ⟨_, _, _, s, _, _, e3, _⟩ := h2
          exact (List.getElem?_eq_some_iff.mp e3).1
        have hk := next_turn md5 hm hc hh hst hs (turns_snoc h1 h2) (by rw [List.length_append]; exact hlt)
        rw [List.length_append, List.flatten_append] at hk
        simpa using hk
      · rw [if_pos hlen]
        refine ⟨_, _, _, rfl, T ++ [cur], H, [], turns_snoc h1 h2, by simp, .inr ⟨?_, by simp⟩⟩
        intro e
        exact hlen (by rw [state_length md5 hc hst, e])

theorem first_inv (md5 : Str → Str) {h : Runtime} {mcn : Int} (hm : 2 ≤ mcn) {H : List (Str × Option Str)}
    (hc : NoCollision md5 (accepted H)) (hh : NoHashClash h (UrlRow H)) {st : PatternMakerSt} (hst : st.unpat = loadAll md5 H) :
    ∃ n g' st', MakeGen.fresh.next h mcn st = (n, g', st') ∧ GenInv md5 h mcn (structs md5 H) [(H, n)] g' := by
  have hT : Turns md5 h mcn (structs md5 H) [] := by intro k t ht; simp at ht
  have := next_turn md5 hm hc hh hst rfl hT (by simp)
  rw [← state_length md5 hc hst] at this
  exact this

theorem mem_append_pre {H H' : List (Str × Option Str)} (h : H <+: H') : ∀ x ∈ H, x ∈ H' := fun _ hx => h.subset hx

theorem noCollision_pre {md5 : Str → Str} {H H' : List (Str × Option Str)} (h : H <+: H') (hc : NoCollision md5 (accepted H')) :
    NoCollision md5 (accepted H) := by
  obtain ⟨r, rfl⟩ := h
  rw [accepted_append] at hc
  exact hc.of_append

theorem run_unpat (md5 : Str → Str) {h : Runtime} {mcn : Int} (hm : 2 ≤ mcn) (ops : List Op) : ∀ {H : List (Str × Option Str)} {w : MakerWorld},
    w.st.unpat = loadAll md5 H → NoCollision md5 (accepted (H ++ loads ops)) → NoHashClash h (UrlRow (H ++ loads ops)) →
    (MakerWorld.run md5 h mcn ops w).st.unpat = loadAll md5 (H ++ loads ops) := by
  induction ops with
  | nil => intro H w hst _ _; simpa [loads, MakerWorld.run] using hst
  | cons op ops ih =>
    intro H w hst hc hh
    rw [loads_cons, ← List.append_assoc] at hc hh ⊢
    have hp : H ++ loads [op] <+: H ++ loads [op] ++ loads ops := List.prefix_append _ _
    exact ih (step_unpat md5 hm hst op (noCollision_pre hp hc) (urlRow_mono (mem_append_pre hp) hh)) hc hh

theorem run_append (md5 : Str → Str) (h : Runtime) (mcn : Int) (a b : List Op) (w : MakerWorld) :
    MakerWorld.run md5 h mcn (a ++ b) w = MakerWorld.run md5 h mcn b (MakerWorld.run md5 h mcn a w) := by
  induction a generalizing w with
  | nil => rfl
  | cons op a ih => exact ih _

theorem answers_append (md5 : Str → Str) (h : Runtime) (mcn : Int) (i : Nat) (a b : List Op) (w : MakerWorld) (H : List (Str × Option Str)) :
    answers md5 h mcn i (a ++ b) w H = answers md5 h mcn i a w H ++ answers md5 h mcn i b (MakerWorld.run md5 h mcn a w) (H ++ loads a) := by
  induction a generalizing w H with
  | nil => simp [answers, loads, MakerWorld.run]
  | cons op a ih =>
    rw [List.cons_append, answers, answers, ih, List.append_assoc, loads_cons op a, List.append_assoc]
    rfl

theorem run_inv (md5 : Str → Str) {h : Runtime} {mcn : Int} (hm : 2 ≤ mcn) {H0 : List (Str × Option Str)} {i : Nat} (ops : List Op) :
    ∀ {H : List (Str × Option Str)} {w : MakerWorld} {g : MakeGen} {as : List (List (Str × Option Str) × Next)}, H0 <+: H → w.st.unpat = loadAll md5 H →
      NoCollision md5 (accepted (H ++ loads ops)) → NoHashClash h (UrlRow (H ++ loads ops)) →
      w.gens[i]? = some g → GenInv md5 h mcn (structs md5 H0) as g →
      ∃ g', GenInv md5 h mcn (structs md5 H0) (as ++ answers md5 h mcn i ops w H) g' := by
  induction ops with
  | nil => intro H w g as _ _ _ _ _ hg; exact ⟨g, by simpa [answers] using hg⟩
  | cons op ops ih =>
    intro H w g as hpre hst hc hh hi hg
    rw [loads_cons, ← List.append_assoc] at hc hh
    have hp : H ++ loads [op] <+: H ++ loads [op] ++ loads ops := List.prefix_append _ _
    have hp' : H <+: H ++ loads [op] := List.prefix_append _ _
    have hst' := step_unpat md5 hm hst op (noCollision_pre hp hc) (urlRow_mono (mem_append_pre hp) hh)
    rw [answers, ← List.append_assoc]
    have hpre' := hpre.trans hp'
    have same : ∀ {w' : MakerWorld} {o}, w.step md5 h mcn op = (w', o) → w'.gens[i]? = some g → (∀ j n, o = some (j, n) → j ≠ i) →
        ∃ g', GenInv md5 h mcn (structs md5 H0) (as ++ answerOf i H (w.step md5 h mcn op).2 ++ answers md5 h mcn i ops (w.step md5 h mcn op).1 (H ++ loads [op])) g' := by
      intro w' o e1 e2 e3
      rw [e1] at hst' ⊢
      have : answerOf i H o = [] := by
        cases o with
        | none => rfl
        | some x => obtain ⟨j, n⟩ := x; exact if_neg (e3 j n rfl)
      rw [this, List.append_nil]
      exact ih hpre' hst' hc hh e2 hg
    cases op with
    | load u md => exact same rfl hi (by simp)
    | make =>
      refine same rfl ?_ (by simp)
      show (w.gens ++ [.fresh])[i]? = some g
      rw [List.getElem?_append_left (List.getElem?_eq_some_iff.mp hi).1]
      exact hi
    | next j =>
      by_cases hj : j = i
      · subst hj
        have hst0 : w.st.unpat = loadAll md5 H := hst
        have hc0 := noCollision_pre (hp'.trans hp) hc
        have hh0 := urlRow_mono (mem_append_pre (hp'.trans hp)) hh
        obtain ⟨n, g', st', e, hg'⟩ := next_inv md5 hm hpre hc0 hh0 hst0 hg
        have e1 : w.step md5 h mcn (.next j) = (⟨st', w.gens.set j g'⟩, some (j, n)) := by
          rw [step_next_some md5 h mcn hi, e]
        rw [e1] at hst' ⊢
        simp only [answerOf, if_true]
        exact ih hpre' hst' hc hh (by
          show (w.gens.set j g')[j]? = some g'
          rw [List.getElem?_set]
          simp [(List.getElem?_eq_some_iff.mp hi).1]) hg'
      · cases hj' : w.gens[j]? with
        | none => exact same (step_next_none md5 h mcn hj') hi (by simp)
        | some gj =>
          refine same (step_next_some md5 h mcn hj') ?_ (by intro k n e; injection e with e; injection e with e _; rw [← e]; exact hj)
          show (w.gens.set j _)[i]? = some g
          rw [List.getElem?_set, if_neg hj]
          exact hi

/-- The number of `make()` calls. -/
def makes : List Op → Nat
  | [] => 0
  | .make :: ops => makes ops + 1
  | _ :: ops => makes ops

theorem fresh_run (md5 : Str → Str) (h : Runtime) (mcn : Int) (i : Nat) (ops : List Op) (hn : Op.next i ∉ ops) : ∀ (w : MakerWorld) (H : List (Str × Option Str)),
    (w.gens[i]? = some .fresh ∨ (w.gens.length ≤ i ∧ i < w.gens.length + makes ops)) →
    (MakerWorld.run md5 h mcn ops w).gens[i]? = some .fresh ∧ answers md5 h mcn i ops w H = [] := by
  induction ops with
  | nil =>
    intro w H hw
    refine ⟨?_, rfl⟩
    rcases hw with hw | ⟨h1, h2⟩
    · exact hw
    · simp only [makes] at h2; omega
  | cons op ops ih =>
    intro w H hw
    have hn' : Op.next i ∉ ops := fun hx => hn (by simp [hx])
    cases op with
    | load u md => exact ih hn' _ _ hw
    | make =>
      refine ih hn' ⟨w.st, w.gens ++ [.fresh]⟩ _ ?_
      rcases hw with hw | ⟨h1, h2⟩
      · left
        show (w.gens ++ [.fresh])[i]? = _
        rw [List.getElem?_append_left (List.getElem?_eq_some_iff.mp hw).1]
        exact hw
      · simp only [makes] at h2
        by_cases e : w.gens.length = i
        · left
          show (w.gens ++ [.fresh])[i]? = _
          rw [← e]; simp
        · right
          rw [List.length_append]
          simp only [List.length_singleton]
          omega
    | next j =>
      have hj : j ≠ i := fun e => hn (by simp [e])
      rw [MakerWorld.run, answers]
      cases hj' : w.gens[j]? with
      | none =>
        rw [step_next_none md5 h mcn hj']
        exact ih hn' _ _ hw
      | some gj =>
        rw [step_next_some md5 h mcn hj']
        simp only [answerOf, if_neg hj, List.nil_append]
        refine ih hn' _ _ ?_
        simp only [List.length_set]
        rcases hw with hw | hw
        · left
          rw [List.getElem?_set, if_neg hj]
          exact hw
        · exact .inr hw

/-- All answers of a generator, from its first `next` on. -/
theorem gen_answers (md5 : Str → Str) {h : Runtime} {mcn : Int} (hm : 2 ≤ mcn) (i : Nat) (ops0 ops1 : List Op) (hi : i < makes ops0)
    (hn : Op.next i ∉ ops0) (hc : NoCollision md5 (accepted (loads (ops0 ++ ops1)))) (hh : NoHashClash h (UrlRow (loads (ops0 ++ ops1)))) :
    ∃ g, GenInv md5 h mcn (structs md5 (loads ops0)) (answers md5 h mcn i (ops0 ++ Op.next i :: ops1) ⟨[], []⟩ []) g := by
  obtain ⟨h1, h2⟩ := fresh_run md5 h mcn i ops0 hn ⟨[], []⟩ [] (.inr ⟨by simp, by simpa using hi⟩)
  rw [loads_append] at hc hh
  have hp : loads ops0 <+: loads ops0 ++ loads ops1 := List.prefix_append _ _
  have hc0 := noCollision_pre hp hc
  have hh0 := urlRow_mono (mem_append_pre hp) hh
  have hst := run_unpat md5 hm ops0 (H := []) (w := ⟨[], []⟩) rfl (by simpa using hc0) (by simpa using hh0)
  rw [List.nil_append] at hst
  rw [answers_append, h2, List.nil_append, List.nil_append, answers]
  obtain ⟨n, g', st', e, hg⟩ := first_inv md5 hm hc0 hh0 hst
  have hst' := step_unpat (h := h) (mcn := mcn) md5 hm hst (.next i) (by simpa [loads] using hc0) (by simpa [loads] using hh0)
  rw [step_next_some md5 h mcn h1, e] at hst' ⊢
  simp only [answerOf, if_true]
  simp only [loads, List.append_nil] at hst' ⊢
  exact run_inv md5 hm ops1 (List.prefix_refl _) hst' hc hh (by
    show (List.set _ i g')[i]? = some g'
    rw [List.getElem?_set]
    simp [(List.getElem?_eq_some_iff.mp h1).1]) hg

end OsUrl
