import Verif.Proofs.Overtake
import Verif.Proofs.MatchSel

/-! Exactly which patterns the view matchers return, with the patterns that are hidden. -/

namespace OsUrl
open Spec

/-- A length pattern is hidden by one with the same length, in the matcher of a node with the children `ps`. -/
def Shad (ps : List MatchPattern) (p : MatchPattern) : Prop :=
  p.cls = .length ∧ ∃ q, q.cls = .length ∧ headNum q = headNum p ∧ q ≠ p ∧ Overtaken (· = p) (· = q) ps

theorem Nodup.filt {α : Type} {l : List α} (h : l.Nodup) (f : α → Bool) : (l.filter f).Nodup :=
  h.sublist List.filter_sublist

theorem store_iff {c : ViewCls} (hc : SimpleCls c) {ps : List MatchPattern} (hi : StrInj ps) (hn : ps.Nodup) {s : Store}
    (h : fillStore unitOps c (ps.filter (fun q => decide (q.cls = c))) = .ok s) {pp : ParsedPiece} {keys : List Str}
    (hm : s.matches_ (some pp) = .ok keys) {p : MatchPattern} (hp : p ∈ ps) (hpc : p.cls = c) :
    p.str ∈ keys ↔ SelU pp p ∧ ¬ Shad ps p := by
  have hcls : ∀ q ∈ ps.filter (fun q => decide (q.cls = c)), q.cls = c := by
    intro q hq; simpa using (List.mem_filter.mp hq).2
  have hpf : p ∈ ps.filter (fun q => decide (q.cls = c)) := List.mem_filter.mpr ⟨hp, by simpa using hpc⟩
  by_cases hl : c = .length
  · subst hl
    obtain ⟨d, rfl, hd⟩ := fill_length h
    simp only [Store.matches_] at hm
    obtain ⟨l, hl, hm⟩ := bind_ok hm
    simp only [pure, Except.pure, Except.ok.injEq] at hm
    subst hm
    rw [hd]
    simp only [Option.mem_toList, Option.map_eq_some_iff]
    have hinj : (∃ a, (ps.filter (fun q => decide (q.cls = .length))).reverse.find?
        (fun p => decide (headNum p = some l)) = some a ∧ a.str = p.str) ↔
        (ps.filter (fun q => decide (q.cls = .length))).reverse.find? (fun p => decide (headNum p = some l)) = some p := by
      constructor
      · rintro ⟨a, ha, e⟩
        have h1 := List.mem_of_find?_eq_some ha
        rw [List.mem_reverse] at h1
        rw [hi p hp a (List.mem_filter.mp h1).1 e.symm]
        exact ha
      · intro e; exact ⟨p, e, rfl⟩
    rw [hinj, find_last (Nodup.filt hn _)]
    simp only [decide_eq_true_eq]
    have hsel : SelU pp p ↔ headNum p = some l := by
      simp only [SelU, hpc, hl, Except.ok.injEq]
      constructor
      · rintro ⟨l', rfl, h⟩; exact h
      · intro h; exact ⟨l, rfl, h⟩
    rw [hsel]
    constructor
    · rintro ⟨-, h2, h3⟩
      refine ⟨h2, ?_⟩
      rintro ⟨-, q, q1, q2, q3, q4⟩
      refine h3 q (q2.trans h2) q3 ((ov_filter _).mpr ?_)
      refine (ov_congr ?_ ?_).mp q4
      · intro x _; constructor
        · rintro rfl; exact ⟨by simpa using hpc, rfl⟩
        · exact (·.2)
      · intro x _; constructor
        · rintro rfl; exact ⟨by simpa using q1, rfl⟩
        · exact (·.2)
    · rintro ⟨h2, h3⟩
      refine ⟨hpf, h2, ?_⟩
      intro q hq hne ho
      have ho := (ov_filter _).mp ho
      obtain ⟨x, -, hx, rfl⟩ := ov_right ho
      refine h3 ⟨hpc, x, by simpa using hx, hq.trans h2.symm, hne, ?_⟩
      refine (ov_congr ?_ ?_).mp ho
      · intro y _; constructor
        · exact (·.2)
        · rintro rfl; exact ⟨by simpa using hpc, rfl⟩
      · intro y _; constructor
        · exact (·.2)
        · rintro rfl; exact ⟨hx, rfl⟩
  · have hns : ¬ Shad ps p := fun hs => hl (hpc.symm.trans hs.1)
    constructor
    · intro hk
      obtain ⟨q, hq, e, hsel⟩ := store_sound hc hcls h hm hk
      rw [hi p hp q (List.mem_filter.mp hq).1 e.symm]
      refine ⟨hsel, ?_⟩
      rw [← hi p hp q (List.mem_filter.mp hq).1 e.symm]
      exact hns
    · rintro ⟨hsel, -⟩
      rcases hc with rfl | rfl | rfl
      · obtain ⟨keys', h1, h2⟩ := store_complete hcls h (.inl rfl) hpf hsel
        rw [hm] at h1
        cases h1
        exact h2
      · exact absurd rfl hl
      · obtain ⟨keys', h1, h2⟩ := store_complete hcls h (.inr (fun a ha b hb ca => by
          rw [hcls a ha] at ca; cases ca)) hpf hsel
        rw [hm] at h1
        cases h1
        exact h2

theorem unit_sel_iff {ps : List MatchPattern} (hs : ∀ p ∈ ps, SimpleCls p.cls) (hne : ∀ p ∈ ps, p.units ≠ [])
    (hi : StrInj ps) (hn : ps.Nodup) {pp : ParsedPiece} (hpl : ∃ l, pp.pieceLength = .ok l)
    {p : MatchPattern} (hp : p ∈ ps) : Sel unitOps (some pp) ps p ↔ SelU pp p ∧ ¬ Shad ps p := by
  constructor
  · rintro ⟨vms, c, s, keys, h1, h2, h3, h4⟩
    obtain ⟨⟨q0, hq0, e0⟩, hf⟩ := ((addAll_spec h1).2 (c, s)).mp h2
    simp only at e0 hf
    have hc : SimpleCls c := e0 ▸ hs q0 hq0
    obtain ⟨q, hq, e, -⟩ := store_sound hc (by intro p hp; simpa using (List.mem_filter.mp hp).2) hf h3 h4
    have hqp := hi q (List.mem_filter.mp hq).1 p hp e
    have hpc : p.cls = c := by rw [← hqp]; simpa using (List.mem_filter.mp hq).2
    exact (store_iff hc hi hn hf h3 hp hpc).mp h4
  · intro h
    obtain ⟨vms, hv⟩ := addAll_ok (ops := unitOps) (fun p hp => unitAdd_total (hne p hp))
    have hfill : ∃ s, fillStore unitOps p.cls (ps.filter (fun q => decide (q.cls = p.cls))) = .ok s := fillStore_ok
      (fun q hq s => unitAdd_total (hne q (List.mem_filter.mp hq).1) s)
    obtain ⟨s, hs'⟩ := hfill
    have hin := ((addAll_spec hv).2 (p.cls, s)).mpr ⟨⟨p, hp, rfl⟩, hs'⟩
    obtain ⟨keys, hk⟩ := store_total (hs p hp) hs' hpl
    exact ⟨vms, p.cls, s, keys, hv, hin, hk, (store_iff (hs p hp) hi hn hs' hk hp rfl).mpr h⟩

/-- A unit of a path is hidden. -/
def ShadAt (L : List (MIns Str)) (path : List MatchPattern) (i : Nat) (p : MatchPattern) : Prop :=
  p.cls = .length ∧ ∃ q, q.cls = .length ∧ headNum q = headNum p ∧ q ≠ p ∧
    Overtaken (fun x => ∃ t, x.1 = path.take i ++ p :: t) (fun x => ∃ t, x.1 = path.take i ++ q :: t) L

theorem shadAt_zero {L : List (MIns Str)} {path : List MatchPattern} {p : MatchPattern} :
    ShadAt L path 0 p ↔ Shad (uniq (heads L)) p := by
  unfold ShadAt Shad
  refine and_congr Iff.rfl (exists_congr fun q => and_congr Iff.rfl (and_congr Iff.rfl (and_congr Iff.rfl ?_)))
  rw [ov_heads]
  apply ov_congr <;>
  · intro x _
    constructor
    · rintro ⟨t, e⟩; exact ⟨_, t, by simpa using e, rfl⟩
    · rintro ⟨_, t, e, rfl⟩; exact ⟨t, by simpa using e⟩

theorem shadAt_succ {L : List (MIns Str)} (hc : Coh L) {path : List MatchPattern} {p0 : MatchPattern} (hp : p0 ∈ heads L)
    {i : Nat} {p : MatchPattern} : ShadAt L (p0 :: path) (i + 1) p ↔ ShadAt (sub p0.str L) path i p := by
  unfold ShadAt
  refine and_congr Iff.rfl (exists_congr fun q => and_congr Iff.rfl (and_congr Iff.rfl (and_congr Iff.rfl ?_)))
  have := ov_sub (P := fun l => ∃ t, l = path.take i ++ p :: t) (Q := fun l => ∃ t, l = path.take i ++ q :: t) hc hp
  rw [this]
  apply ov_congr <;>
  · intro x _
    constructor
    · rintro ⟨t, e⟩; exact ⟨_, by simpa using e, t, rfl⟩
    · rintro ⟨_, e, t, rfl⟩; exact ⟨t, by simpa using e⟩

theorem unit_hits_iff {vps : List ParsedPiece} {L : List (MIns Str)} {path : List MatchPattern} {md : Option Str}
    (hs : ∀ x ∈ L, ∀ p ∈ x.1, SimpleCls p.cls ∧ p.units ≠ []) (hc : Coh L) (hin : (path, md) ∈ L)
    (hlen : path.length ≤ vps.length) (hpl : ∀ vp ∈ vps, ∃ l, vp.pieceLength = .ok l) :
    Hits unitOps (vps.map some) L path ↔
      (∀ (i : Nat) vp p, vps[i]? = some vp → path[i]? = some p → SelU vp p) ∧
      ∀ (i : Nat) p, path[i]? = some p → ¬ ShadAt L path i p := by
  induction path generalizing L vps with
  | nil => simp [Hits]
  | cons p path ih =>
    cases vps with
    | nil => simp at hlen
    | cons vp vps =>
      have hp : p ∈ heads L := mem_heads.mpr ⟨_, _, hin⟩
      have h1 := unit_sel_iff (ps := uniq (heads L)) (pp := vp) (p := p)
        (by
          intro q hq
          obtain ⟨qs, qm, hqi⟩ := mem_heads.mp (mem_uniq.mp hq)
          exact (hs _ hqi q (by simp)).1)
        (by
          intro q hq
          obtain ⟨qs, qm, hqi⟩ := mem_heads.mp (mem_uniq.mp hq)
          exact (hs _ hqi q (by simp)).2)
        (fun a ha b hb e => hc.head (mem_uniq.mp ha) (mem_uniq.mp hb) e) (nodup_uniq _)
        (hpl vp (by simp)) (mem_uniq.mpr hp)
      have h2 := ih (L := sub p.str L) (vps := vps)
        (by
          intro x hx q hq
          obtain ⟨a, -, ha⟩ := mem_sub.mp hx
          exact hs _ ha q (by simp [hq]))
        (hc.sub _) (mem_sub.mpr ⟨p, rfl, hin⟩) (by simpa using hlen) (fun v hv => hpl v (by simp [hv]))
      show Sel unitOps (some vp) (uniq (heads L)) p ∧ Hits unitOps (vps.map some) (sub p.str L) path ↔ _
      rw [h1, h2]
      constructor
      · rintro ⟨⟨a1, a2⟩, b1, b2⟩
        constructor
        · intro i vp' p' hv hp'
          cases i with
          | zero => simp at hv hp'; subst hv; subst hp'; exact a1
          | succ i => exact b1 i vp' p' (by simpa using hv) (by simpa using hp')
        · intro i p' hp'
          cases i with
          | zero => simp at hp'; subst hp'; rw [shadAt_zero]; exact a2
          | succ i => rw [shadAt_succ hc hp]; exact b2 i p' (by simpa using hp')
      · rintro ⟨a, b⟩
        refine ⟨⟨a 0 vp p (by simp) (by simp), ?_⟩, ?_, ?_⟩
        · rw [← shadAt_zero (path := p :: path)]; exact b 0 p (by simp)
        · intro i vp' p' hv hp'
          exact a (i + 1) vp' p' (by simpa using hv) (by simpa using hp')
        · intro i p' hp'
          rw [← shadAt_succ hc hp]; exact b (i + 1) p' (by simpa using hp')

end OsUrl
