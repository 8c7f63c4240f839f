import Verif.Proofs.Calls2
import Verif.Spec.Calls

/-! The list of calls is complete. -/

namespace OsUrl
open Spec

theorem Spec.Answered.append {nc : NestedCalls} : ∀ {a b : List ProcCall} {la lb : List (List ProcCall)}, Answered nc a la → Answered nc b lb →
    Answered nc (a ++ b) (la ++ lb)
  | [], _, [], _, _, hb => hb
  | _ :: _, _, _ :: _, _, ha, hb => ⟨ha.1, ha.2.append hb⟩
  | [], _, _ :: _, _, ha, _ => ha.elim
  | _ :: _, _, [], _, ha, _ => ha.elim

theorem Spec.Answered.mem {nc : NestedCalls} : ∀ {a : List ProcCall} {la : List (List ProcCall)}, Answered nc a la → ∀ c ∈ a,
    ∃ mcn m kw r l, nc mcn m kw c.tree = .ok (r, l)
  | [], _, _, _, hc => by cases hc
  | _ :: _, [], ha, _, _ => ha.elim
  | x :: a, l :: la, ha, c, hc => by
    rcases List.mem_cons.mp hc with rfl | hc
    · obtain ⟨mcn, m, kw, r, h⟩ := ha.1
      exact ⟨mcn, m, kw, r, l, h⟩
    · exact ha.2.mem c hc

/-- `nc` gives on the trees of `cs` the clusters of `n`, or fails. -/
def Agrees (n : NestedCluster) (nc : NestedCalls) (cs : List ProcCall) : Prop :=
  ∀ c ∈ cs, ∀ mcn m kw, (∃ e, nc mcn m kw c.tree = .error e) ∨ ∃ r l, nc mcn m kw c.tree = .ok (r, l) ∧ n mcn m kw c.tree = .ok r

theorem Agrees.left {n : NestedCluster} {nc : NestedCalls} {a b : List ProcCall} (h : Agrees n nc (a ++ b)) : Agrees n nc a :=
  fun c hc => h c (List.mem_append_left _ hc)

theorem Agrees.right {n : NestedCluster} {nc : NestedCalls} {a b : List ProcCall} (h : Agrees n nc (a ++ b)) : Agrees n nc b :=
  fun c hc => h c (List.mem_append_right _ hc)

/-- The result `x` with the lists of the calls in `cs`, or an error because one of them fails. -/
def Out {α : Type} (n : NestedCluster) (nc : NestedCalls) (x : α) (cs : List ProcCall) (res : Py (α × List ProcCall)) : Prop :=
  (∃ ls, res = .ok (x, ls.flatten) ∧ Answered nc cs ls) ∨
    ((∃ e, res = .error e) ∧ ∃ c ∈ cs, ∃ mcn m kw e r, nc mcn m kw c.tree = .error e ∧ n mcn m kw c.tree = .ok r)

theorem Out.nil {α : Type} {n : NestedCluster} {nc : NestedCalls} {x : α} : Out n nc x [] (.ok (x, [])) := .inl ⟨[], rfl, trivial⟩

/-- Two steps, one after the other. -/
theorem Out.bind {α β γ : Type} {n : NestedCluster} {nc : NestedCalls} {x : α} {y : β} {a b : List ProcCall} {p : Py (α × List ProcCall)} {q : Py (β × List ProcCall)}
    {k : α × List ProcCall → Py (γ × List ProcCall)} {z : γ} (hp : Out n nc x a p) (hq : Out n nc y b q)
    (hk : ∀ l, k (x, l) = (q >>= fun s => pure (z, l ++ s.2))) : Out n nc z (a ++ b) (p >>= k) := by
  rcases hp with ⟨la, rfl, ha⟩ | ⟨⟨e, rfl⟩, c, hc, hb⟩
  · show Out n nc z (a ++ b) (k (x, la.flatten))
    rw [hk]
    rcases hq with ⟨lb, rfl, hb⟩ | ⟨⟨e, rfl⟩, c, hc, hb⟩
    · exact .inl ⟨la ++ lb, by simp [Bind.bind, Except.bind, pure, Except.pure], ha.append hb⟩
    · exact .inr ⟨⟨e, rfl⟩, c, List.mem_append_right _ hc, hb⟩
  · exact .inr ⟨⟨e, rfl⟩, c, List.mem_append_left _ hc, hb⟩

/-- A last step without calls. -/
theorem Out.map {α γ : Type} {n : NestedCluster} {nc : NestedCalls} {x : α} {a : List ProcCall} {p : Py (α × List ProcCall)}
    {k : α × List ProcCall → Py (γ × List ProcCall)} {z : γ} (hp : Out n nc x a p) (hk : ∀ l, k (x, l) = .ok (z, l)) : Out n nc z a (p >>= k) := by
  rcases hp with ⟨la, rfl, ha⟩ | ⟨⟨e, rfl⟩, c, hc, hb⟩
  · exact .inl ⟨la, hk _, ha⟩
  · exact .inr ⟨⟨e, rfl⟩, c, hc, hb⟩

theorem multiBuckets_asked {n : NestedCluster} {nc : NestedCalls} {cfg : LevelCfg} {kw : Bool} {fwd : View → PieceBag → Route}
    {bs : List (List ViewBag)} {st st' : MultiSt} {cs : List ProcCall} (h : multiBucketsC (asked n) cfg kw fwd bs st = .ok (st', cs))
    (ha : Agrees n nc cs) : Out n nc st' cs (multiBucketsC nc cfg kw fwd bs st) := by
  induction bs generalizing st cs with
  | nil =>
    rw [multiBucketsC] at h
    injection h with h
    injection h with h1 h2
    subst h1; subst h2
    exact Out.nil
  | cons b bs ih =>
    obtain ⟨st, pats⟩ := st
    rw [multiBucketsC] at h ⊢
    by_cases hc : vbCount b < cfg.mcn
    · rw [if_pos hc] at h ⊢; exact ih h ha
    · rw [if_neg hc] at h ⊢
      obtain ⟨t, ht, h⟩ := bind_ok h
      obtain ⟨r, hr, h⟩ := bind_ok h
      obtain ⟨s, hs, h⟩ := bind_ok h
      obtain ⟨q, hq, h⟩ := bind_ok h
      injection h with h
      injection h with h1 h2
      subst h1; subst h2
      obtain ⟨roots, hroots, rfl⟩ : ∃ roots, n cfg.mcn ⟨vbDepth b, [], false⟩ kw t = .ok roots ∧ r = (roots, [⟨true, t⟩]) := by
        unfold asked at hr
        cases hn : n cfg.mcn ⟨vbDepth b, [], false⟩ kw t with
        | error e => rw [hn] at hr; cases hr
        | ok roots =>
          rw [hn] at hr
          exact ⟨roots, rfl, (Except.ok.inj hr).symm⟩
      have hih := ih hq ha.right
      rw [ht]
      show Out n nc _ _ (nc cfg.mcn ⟨vbDepth b, [], false⟩ kw t >>= _)
      have hone : Out n nc roots [⟨true, t⟩] (nc cfg.mcn ⟨vbDepth b, [], false⟩ kw t) := by
        rcases ha ⟨true, t⟩ (by simp) cfg.mcn ⟨vbDepth b, [], false⟩ kw with ⟨e, he⟩ | ⟨r, l, h1, h2⟩
        · exact .inr ⟨⟨e, he⟩, ⟨true, t⟩, by simp, _, _, _, e, _, he, hroots⟩
        · rw [hroots] at h2
          injection h2 with h2
          subst h2
          exact .inl ⟨[l], by rw [h1]; simp, ⟨_, _, _, _, h1⟩, trivial⟩
      refine Out.bind hone hih (fun l => ?_)
      simp only at hs ⊢
      rw [hs]
      show (multiBucketsC nc cfg kw fwd bs s >>= fun s => pure (s.1, l ++ s.2)) = _
      rcases hih with ⟨ls, e, -⟩ | ⟨⟨e, he⟩, -⟩
      · rw [e]; rfl
      · rw [he]; rfl

theorem multiStage_asked {n : NestedCluster} {nc : NestedCalls} {cfg : LevelCfg} {kw : Bool} {fwd : View → PieceBag → Route}
    {items : List ViewBag} {st st' : LevelSt} {cs : List ProcCall} (h : multiStageC (asked n) cfg kw fwd items st = .ok (st', cs))
    (ha : Agrees n nc cs) : Out n nc st' cs (multiStageC nc cfg kw fwd items st) := by
  unfold multiStageC at h ⊢
  obtain ⟨r, h1, h2⟩ := bind_ok h
  injection h2 with h2
  injection h2 with h2 h3
  subst h2; subst h3
  exact Out.map (multiBuckets_asked h1 ha) (fun l => rfl)

theorem processStages_asked {n : NestedCluster} {nc : NestedCalls} {rt : Runtime} {cfg : LevelCfg} {bucket : Bucket} {st : LevelSt}
    {cs : List ProcCall} (h : processStagesC rt (asked n) cfg bucket = .ok (st, cs)) (ha : Agrees n nc cs) :
    Out n nc st cs (processStagesC rt nc cfg bucket) := by
  unfold processStagesC at h ⊢
  obtain ⟨s0, h0, h⟩ := bind_ok h
  obtain ⟨s1, h1, h⟩ := bind_ok h
  obtain ⟨s2, h2, h⟩ := bind_ok h
  obtain ⟨s3, h3, h⟩ := bind_ok h
  obtain ⟨s4, h4, h⟩ := bind_ok h
  injection h with h
  injection h with h5 h6
  subst h5; subst h6
  have o1 := multiStage_asked h1 ha.left.left
  have o2 := multiStage_asked h2 ha.left.right
  have o3 := multiStage_asked h3 ha.right
  rw [h0]
  show Out n nc _ _ (multiStageC nc cfg false _ s0.toBase s0 >>= _)
  rw [List.append_assoc]
  have o23 : Out n nc s3.1 (s2.2 ++ s3.2) (do
      let b ← multiStageC nc cfg false (fun _ b => routeMixed cfg b.pp) s1.1.toMixed s1.1
      let c ← multiStageC nc cfg true (fun _ _ => .length) b.1.toLastDot b.1
      return (c.1, b.2 ++ c.2)) := by
    refine Out.bind o2 o3 (fun l => ?_)
    simp only
    rcases o3 with ⟨ls, e, -⟩ | ⟨⟨e, he⟩, -⟩
    · rw [e]; rfl
    · rw [he]; rfl
  refine Out.bind o1 o23 (fun l => ?_)
  simp only
  rcases o2 with ⟨ls, e, -⟩ | ⟨⟨e, he⟩, -⟩
  · rw [e]
    rcases o3 with ⟨ls', e', -⟩ | ⟨⟨e', he'⟩, -⟩
    · simp only [bind, Except.bind, e', pure, Except.pure, h4, List.append_assoc]
    · simp only [bind, Except.bind, he']
  · rw [he]; rfl

theorem procLevel_asked {n : NestedCluster} {nc : NestedCalls} {rt : Runtime} {mcn : Int} {m : URLMeta} {kw : Bool} {rem level : Nat}
    {nodes : List PNode} {r : List (List Str × Str) × Bool} {cs : List ProcCall}
    (h : procLevelC rt (asked n) mcn m kw rem level nodes = .ok (r, cs)) (ha : Agrees n nc cs) :
    Out n nc r cs (procLevelC rt nc mcn m kw rem level nodes) := by
  induction rem generalizing level nodes r cs with
  | zero =>
    rw [procLevelC] at h ⊢
    obtain ⟨st, h1, h2⟩ := bind_ok h
    injection h2 with h2
    injection h2 with h2 h3
    subst h2; subst h3
    exact Out.map (processStages_asked h1 ha) (fun l => rfl)
  | succ rem ih =>
    rw [procLevelC] at h ⊢
    obtain ⟨st, h1, h⟩ := bind_ok h
    obtain ⟨rs, h2, h3⟩ := bind_ok h
    injection h3 with h3
    injection h3 with h3 h4
    subst h3; subst h4
    have key : ∀ (gs : List (List PNode)) (rs : List ((List (List Str × Str) × Bool) × List ProcCall)),
        gs.mapM (fun g => procLevelC rt (asked n) mcn m kw rem (level + 1) (g.flatMap childNodes)) = .ok rs →
        Agrees n nc (rs.flatMap (·.2)) →
        Out n nc (rs.map (·.1)) (rs.flatMap (·.2)) (do
          let rs ← gs.mapM (fun g => procLevelC rt nc mcn m kw rem (level + 1) (g.flatMap childNodes))
          return (rs.map (·.1), rs.flatMap (·.2))) := by
      intro gs
      induction gs with
      | nil =>
        intro rs h _
        rw [List.mapM_nil] at h
        injection h with h
        subst h
        exact Out.nil
      | cons g gs ihg =>
        intro rs h ha
        rw [List.mapM_cons] at h ⊢
        obtain ⟨s, hs, h⟩ := bind_ok h
        obtain ⟨ss, hss, h⟩ := bind_ok h
        injection h with h
        subst h
        rw [List.flatMap_cons] at ha ⊢
        have o1 := ih hs ha.left
        have o2 := ihg ss hss ha.right
        rw [bind_assoc]
        refine Out.bind o1 o2 (fun l => ?_)
        generalize List.mapM (m := Except PyErr) _ gs = x at o2 ⊢
        cases x with
        | error e => rfl
        | ok q =>
          rcases o2 with ⟨ls, e, -⟩ | ⟨⟨e, he⟩, -⟩
          · have e := Except.ok.inj e
            injection e with e1 e2
            simp only [bind, Except.bind, pure, Except.pure, List.map_cons, List.flatMap_cons, e1]
          · cases he
    have o1 := processStages_asked h1 ha.left
    have o2 := key _ rs h2 ha.right
    refine Out.bind o1 o2 (fun l => ?_)
    simp only
    generalize List.mapM (m := Except PyErr) _ _ = x at o2 ⊢
    cases x with
    | error e => rfl
    | ok q =>
      rcases o2 with ⟨ls, e, -⟩ | ⟨⟨e, he⟩, -⟩
      · have e := Except.ok.inj e
        injection e with e1 e2
        simp only [bind, Except.bind, pure, Except.pure, e1]
      · cases he

theorem process_asked {n : NestedCluster} {nc : NestedCalls} {rt : Runtime} {mcn : Int} {m : URLMeta} {kw : Bool} {t : Tree NodeData}
    {r : Tree NodeData × Bool} {cs : List ProcCall} (h : processC rt (asked n) mcn m kw t = .ok (r, cs)) (ha : Agrees n nc cs) :
    Out n nc r cs (processC rt nc mcn m kw t) := by
  unfold processC at h ⊢
  obtain ⟨a, h1, h2⟩ := bind_ok h
  injection h2 with h2
  injection h2 with h2 h3
  subst h2; subst h3
  exact Out.map (procLevel_asked h1 ha) (fun l => rfl)

theorem Spec.Nested.append {h : Runtime} {nc : NestedCalls} {inner : Bool} {mcn : Int} {m : URLMeta} {kw : Bool} {ps qs : List Pass} {a b : List ProcCall}
    (ha : Nested h nc inner mcn m kw ps a) (hb : Nested h nc inner mcn m kw qs b) : Nested h nc inner mcn m kw (ps ++ qs) (a ++ b) := by
  induction ps generalizing a with
  | nil => rw [show a = [] from ha]; exact hb
  | cons p ps ih =>
    obtain ⟨inside, rest, h1, h2, h3⟩ := ha
    exact ⟨inside, rest ++ b, h1, by rw [h2, List.append_assoc], ih h3⟩

/-- The calls of `cluster` are its own calls, each followed by those made inside it. -/
theorem passes_nested {n : NestedCluster} {nc : NestedCalls} (hd : ∀ mcn m kw t, Dr (nc mcn m kw t) (n mcn m kw t)) {h : Runtime} {inner : Bool}
    {mcn : Int} {m : URLMeta} {kw : Bool} {fuel : Nat} : ∀ (d : Nat) {t : Tree NodeData} {ts : List (Tree NodeData)} {cs : List ProcCall},
    clusterWithC nc h inner mcn m kw fuel t = .ok (ts, cs) →
    ∃ ps, passesWith n h mcn m kw fuel d t = .ok ps ∧ Nested h nc inner mcn m kw ps cs := by
  induction fuel with
  | zero =>
    intro d t ts cs h1
    rw [clusterWithC] at h1
    rw [passesWith]
    by_cases hc : t.root.count ≤ 0
    · rw [if_pos hc] at h1 ⊢
      injection h1 with h1
      injection h1 with h1 h2
      exact ⟨[], rfl, h2.symm⟩
    · rw [if_neg hc] at h1; cases h1
  | succ fuel ih =>
    intro d t ts cs h1
    rw [clusterWithC] at h1
    rw [passesWith]
    by_cases hc : t.root.count ≤ 0
    · rw [if_pos hc] at h1 ⊢
      injection h1 with h1
      injection h1 with h1 h2
      exact ⟨[], rfl, h2.symm⟩
    · rw [if_neg hc] at h1 ⊢
      obtain ⟨r, hr, h1⟩ := bind_ok h1
      obtain ⟨⟨t', split⟩, inside⟩ := r
      have hp : process h n mcn m kw t = .ok (t', split) := by
        have := processC_dr hd h mcn m kw t
        unfold Dr at this
        rw [hr] at this
        exact this.symm
      rw [hp]
      simp only [bind, Except.bind] at h1 ⊢
      cases split with
      | false =>
        simp only [Bool.false_eq_true, if_false] at h1 ⊢
        injection h1 with h1
        injection h1 with h1 h2
        subst h2
        exact ⟨_, rfl, inside, [], hr, by simp, rfl⟩
      | true =>
        simp only [if_true] at h1 ⊢
        cases hs : splitByPattern h t' with
        | error e => rw [hs] at h1; cases h1
        | ok subs =>
          rw [hs] at h1
          simp only at h1 ⊢
          have key : ∀ (subs : List (Tree NodeData)) (rs : List (List (Tree NodeData) × List ProcCall)),
              subs.mapM (clusterWithC nc h inner mcn m kw fuel) = .ok rs →
              ∃ ps : List (List Pass), subs.mapM (passesWith n h mcn m kw fuel (d + 1)) = .ok ps ∧ Nested h nc inner mcn m kw ps.flatten (rs.flatMap (·.2)) := by
            intro subs
            induction subs with
            | nil =>
              intro rs h
              rw [List.mapM_nil] at h
              injection h with h
              subst h
              exact ⟨[], rfl, rfl⟩
            | cons s subs ihs =>
              intro rs h
              rw [List.mapM_cons] at h
              obtain ⟨a, hx, h⟩ := bind_ok h
              obtain ⟨b, hy, h⟩ := bind_ok h
              injection h with h
              subst h
              obtain ⟨p, e1, e2⟩ := ih (d + 1) hx
              obtain ⟨ps, e3, e4⟩ := ihs b hy
              refine ⟨p :: ps, ?_, ?_⟩
              · rw [List.mapM_cons]
                simp only [bind, Except.bind, e1, e3, pure, Except.pure]
              · rw [List.flatten_cons, List.flatMap_cons]
                exact e2.append e4
          cases hm : subs.mapM (clusterWithC nc h inner mcn m kw fuel) with
          | error e => rw [hm] at h1; cases h1
          | ok rs =>
            rw [hm] at h1
            obtain ⟨ps, e1, e2⟩ := key subs rs hm
            injection h1 with h1
            injection h1 with h1 h2
            subst h2
            rw [e1]
            exact ⟨_, rfl, inside, rs.flatMap (·.2), hr, rfl, e2⟩

end OsUrl
