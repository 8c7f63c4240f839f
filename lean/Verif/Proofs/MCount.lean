import Verif.Spec.Times
import Verif.Proofs.MLoad

/-! How often each node of a match tree was passed. -/

namespace OsUrl
open Spec

variable {σ μ : Type}

/-- The node reached from a node with data `d` and children `kids` by the keys `ks`
(`node._children[k]`, utils.py:112-121). -/
def nodeAt {α : Type} (d : α) (kids : Forest α) : List Str → Option α
  | [] => some d
  | k :: ks =>
    match kids.get? k with
    | none => none
    | some (d', kids') => nodeAt d' kids' ks

theorem times_filter {α : Type} (P : α → Prop) [DecidablePred P] (l : List α) :
    Times P l (l.filter (fun x => decide (P x))).length := by
  induction l with
  | nil => exact .nil
  | cons x l ih =>
    by_cases h : P x
    · rw [List.filter_cons_of_pos (by simpa using h)]
      exact .yes h ih
    · rw [List.filter_cons_of_neg (by simpa using h)]
      exact .no h ih

theorem sub_prefix {L : List (MIns μ)} (hc : Coh L) {p : MatchPattern} (hp : p ∈ heads L) (ps : List MatchPattern) :
    ((sub p.str L).filter (fun y => decide (y.1.take ps.length = ps))).length =
      (L.filter (fun y => decide (y.1.take (p :: ps).length = p :: ps))).length := by
  unfold sub
  rw [List.filter_map, List.length_map, List.filter_filter]
  congr 1
  apply List.filter_congr
  intro y hy
  obtain ⟨yp, ymd⟩ := y
  cases yp with
  | nil => simp
  | cons q qs =>
    simp only [Function.comp_def, List.tail_cons, List.head?_cons, Option.map_some, Option.some.injEq, List.length_cons,
      List.take_succ_cons, List.cons.injEq]
    rw [Bool.eq_iff_iff, Bool.and_eq_true]
    refine Iff.trans (b := qs.take ps.length = ps ∧ q.str = p.str) ?_ ?_
    · exact and_congr decide_eq_true_iff decide_eq_true_iff
    rw [decide_eq_true_eq]
    constructor
    · rintro ⟨h1, h2⟩
      exact ⟨hc.head (mem_heads.mpr ⟨_, _, hy⟩) hp h2, h1⟩
    · rintro ⟨rfl, h1⟩
      exact ⟨h1, rfl⟩

/-- A prefix of an insertion leads to a node with its number. -/
theorem T.reach {ops : VMOps σ} {n : Nat} {L : List (MIns μ)} {d : MData σ μ} {kids : Forest (MData σ μ)}
    (hT : T ops n L d kids) (hc : Coh L) (hL : ∀ y ∈ L, y.1.length = n) {pre : List MatchPattern}
    (hpre : pre = [] ∨ ∃ y ∈ L, y.1.take pre.length = pre) :
    ∃ d', nodeAt d kids (pre.map (·.str)) = some d' ∧
      d'.count = (L.filter (fun y => decide (y.1.take pre.length = pre))).length ∧
      ∀ p, pre.getLast? = some p → d'.pat = p := by
  induction pre generalizing n L d kids with
  | nil =>
    refine ⟨d, rfl, ?_, by simp⟩
    have e : L.filter (fun y => decide (y.1.take ([] : List MatchPattern).length = [])) = L := by
      rw [List.filter_eq_self]; simp
    rw [e]
    cases n with
    | zero => exact hT.2.2
    | succ n => exact hT.2.2
  | cons p ps ih =>
    rcases hpre with h | ⟨y, hy, e⟩
    · simp at h
    obtain ⟨yp, ymd⟩ := y
    cases yp with
    | nil => simp at e
    | cons q qs =>
      simp only [List.length_cons, List.take_succ_cons, List.cons.injEq] at e
      obtain ⟨rfl, e⟩ := e
      cases n with
      | zero => have := hL _ hy; simp at this
      | succ n =>
        have hq : q ∈ heads L := mem_heads.mpr ⟨_, _, hy⟩
        have hg := hT.2.1 q.str
        cases hk : kids.get? q.str with
        | none =>
          rw [hk] at hg
          exact absurd rfl (sub_eq_nil.mp hg q hq)
        | some x =>
          obtain ⟨d1, kids1⟩ := x
          obtain ⟨-, hp, hs, hT1⟩ := hT.child hk
          obtain ⟨d', h1, h2, h3⟩ := ih hT1 (hc.sub _) (sub_length hL)
            (.inr ⟨(qs, ymd), mem_sub.mpr ⟨q, rfl, hy⟩, e⟩)
          refine ⟨d', ?_, ?_, ?_⟩
          · simp only [List.map_cons, nodeAt, hk]
            exact h1
          · rw [h2, sub_prefix hc hq]
          · intro p hp'
            cases ps with
            | nil =>
              simp at hp'
              subst hp'
              simp [nodeAt] at h1
              subst h1
              exact hc.head hp hq hs
            | cons a as =>
              rw [List.getLast?_cons_cons] at hp'
              exact h3 p hp'

/-- Every node is on the path of an insertion. -/
theorem T.reach_only {ops : VMOps σ} {n : Nat} {L : List (MIns μ)} {d : MData σ μ} {kids : Forest (MData σ μ)}
    (hT : T ops n L d kids) {ks : List Str} (hne : ks ≠ []) {d' : MData σ μ}
    (h : nodeAt d kids ks = some d') : ∃ y ∈ L, (y.1.take ks.length).map (·.str) = ks := by
  induction ks generalizing n L d kids with
  | nil => exact absurd rfl hne
  | cons k ks ih =>
    simp only [nodeAt] at h
    cases hk : kids.get? k with
    | none => rw [hk] at h; simp at h
    | some x =>
      obtain ⟨d1, kids1⟩ := x
      rw [hk] at h
      simp only at h
      cases n with
      | zero => rw [hT.1] at hk; simp [Forest.get?] at hk
      | succ n =>
        obtain ⟨hs, hp, e, hT1⟩ := hT.child hk
        cases ks with
        | nil =>
          obtain ⟨ps, md, hm⟩ := mem_heads.mp hp
          exact ⟨_, hm, by simp [e]⟩
        | cons k1 ks =>
          obtain ⟨y, hy, e1⟩ := ih hT1 (by simp) h
          obtain ⟨q, hq, hm⟩ := mem_sub.mp hy
          exact ⟨_, hm, by simp only [List.length_cons, List.take_succ_cons, List.map_cons, hq] at e1 ⊢; rw [e1]⟩

/-- The results of a match are nodes of the tree. -/
theorem mmatch_nodeAt {ops : VMOps σ} {n : Nat} {L : List (MIns μ)} {d : MData σ μ} {kids : Forest (MData σ μ)}
    (hT : T ops (n + 1) L d kids) (hL : ∀ y ∈ L, y.1.length = n + 1)
    {pps : List (Option ParsedPiece)} {pre : List MatchPattern} {rs : List (Matched σ μ)}
    (h : mmatch ops pps pre d kids = .ok rs) {m : Matched σ μ} (hm : m ∈ rs) :
    ∃ x, m.path = pre ++ x ∧ nodeAt d kids (x.map (·.str)) = some m.data := by
  induction n generalizing L d kids pps pre rs with
  | zero =>
    cases pps with
    | nil => simp [mmatch] at h
    | cons pp rest =>
      rw [mmatch_cons] at h
      obtain ⟨rss, h1, h⟩ := bind_ok h
      simp only [pure, Except.pure, Except.ok.injEq] at h
      rw [← h, mapM_flatten_mem h1] at hm
      obtain ⟨vm, hvm, bs, hbs, hm⟩ := hm
      rw [vmStep_mem hT hL hbs] at hm
      obtain ⟨keys, hkeys, k, hk, x, hg, hm⟩ := hm
      rw [if_pos rfl] at hm
      subst hm
      obtain ⟨d', kids'⟩ := x
      obtain ⟨hs, hpat, hstr, hT'⟩ := hT.child hg
      refine ⟨[d'.pat], rfl, ?_⟩
      simp [nodeAt, hstr, hg]
  | succ n ih =>
    cases pps with
    | nil => simp [mmatch] at h
    | cons pp rest =>
      rw [mmatch_cons] at h
      obtain ⟨rss, h1, h⟩ := bind_ok h
      simp only [pure, Except.pure, Except.ok.injEq] at h
      rw [← h, mapM_flatten_mem h1] at hm
      obtain ⟨vm, hvm, bs, hbs, hm⟩ := hm
      rw [vmStep_mem hT hL hbs] at hm
      obtain ⟨keys, hkeys, k, hk, x, hg, hm⟩ := hm
      rw [if_neg (by omega)] at hm
      obtain ⟨ms, hms, hm⟩ := hm
      obtain ⟨d', kids'⟩ := x
      obtain ⟨hs, hpat, hstr, hT'⟩ := hT.child hg
      obtain ⟨y, hpath, hn⟩ := ih hT' (sub_length hL) hms hm
      refine ⟨d'.pat :: y, by rw [hpath]; simp, ?_⟩
      simp only [List.map_cons, nodeAt, hstr, hg]
      exact hn

end OsUrl
