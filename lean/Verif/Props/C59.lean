import Verif.Proofs.MCount
import Verif.Props.C15

/-! # C59: the match tree counts the loads -/

namespace OsUrl
open Spec

/-- Loads whose piece patterns begin with `pre`. -/
theorem times_macc {hist : List (Str × Option Str)} {P : MRec → Prop} [DecidablePred P] :
    Times (fun x : Str × Option Str => ∃ m ps, parse x.1 = .ok (m, .patterns ps) ∧ P ⟨m, ps, x.2⟩) hist
      ((macc hist).filter (fun r => decide (P r))).length := by
  induction hist with
  | nil => exact .nil
  | cons x xs ih =>
    obtain ⟨u, md⟩ := x
    simp only [macc]
    cases hp : parse u with
    | error e => exact .no (by rintro ⟨m, ps, e', -⟩; simp [hp] at e') ih
    | ok r =>
      obtain ⟨m, r⟩ := r
      cases r with
      | pieces ps => exact .no (by rintro ⟨m, ps, e', -⟩; simp [hp] at e') ih
      | patterns ps =>
        simp only
        by_cases h : P ⟨m, ps, md⟩
        · rw [List.filter_cons_of_pos (by simpa using h)]
          exact .yes ⟨m, ps, hp, h⟩ ih
        · rw [List.filter_cons_of_neg (by simpa using h)]
          refine .no ?_ ih
          rintro ⟨m', ps', e, h'⟩
          simp only [hp, Except.ok.injEq, Prod.mk.injEq, Parsed.patterns.injEq] at e
          obtain ⟨rfl, rfl⟩ := e
          exact h h'

theorem times_congr {α : Type} {P Q : α → Prop} {l : List α} {n : Nat} (h : Times P l n)
    (hpq : ∀ x ∈ l, (P x ↔ Q x)) : Times Q l n := by
  induction h with
  | nil => exact .nil
  | yes hx _ ih => exact .yes ((hpq _ (by simp)).mp hx) (ih (fun x hx => hpq x (by simp [hx])))
  | no hx _ ih => exact .no (fun h => hx ((hpq _ (by simp)).mpr h)) (ih (fun x hx => hpq x (by simp [hx])))

/-- **C59**: after any history of loads, every prefix of the piece patterns of a loaded pattern is a node of the tree
of its structure; the node has the last of these patterns, and its count is the number of loads of that
structure and those fuzzy rules whose piece patterns begin with the prefix. -/
theorem C59_nodes (md5 : Str → Str) (hist : List (Str × Option Str)) (hc : NoClash md5 (hist.map (·.1)))
    (s : Str) (md : Option Str) (hs : (s, md) ∈ hist) (m : URLMeta) (ps : List MatchPattern)
    (hp : parse s = .ok (m, .patterns ps)) :
    ∃ ms, Dict.get? (fuzzyDigest md5 m (.patterns ps)) (mloadAll md5 hist) = some ms ∧ ms.urlMeta = m ∧
      ∀ i, i ≤ ps.length → ∃ d, nodeAt ms.root ms.kids ((ps.take i).map (·.str)) = some d ∧
        (∀ p, (ps.take i).getLast? = some p → d.pat = p) ∧
        ∃ n : Nat, d.count = n ∧ Times (fun x : Str × Option Str => ∃ ps', parse x.1 = .ok (m, .patterns ps') ∧
          (Parsed.patterns ps').fuzzyRules = (Parsed.patterns ps).fuzzyRules ∧ ps'.take i = ps.take i) hist n := by
  have hst := mloadAll_state md5 hist hc (fuzzyDigest md5 m (.patterns ps))
  have hr : (⟨m, ps, md⟩ : MRec) ∈ macc hist := mem_macc.mpr ⟨s, hs, hp⟩
  have hg : (⟨m, ps, md⟩ : MRec) ∈ grp md5 (macc hist) (fuzzyDigest md5 m (.patterns ps)) := mem_grp.mpr ⟨hr, rfl⟩
  cases hk : Dict.get? (fuzzyDigest md5 m (.patterns ps)) (mloadAll md5 hist) with
  | none => rw [hk] at hst; exact absurd rfl (hst _ hr)
  | some ms =>
    rw [hk] at hst
    obtain ⟨r, hr1, hr2, hr3, hT⟩ := hst
    have hrm : r.m = m := (grp_meta hc (mem_grp.mpr ⟨hr1, hr2⟩) hg).1
    refine ⟨ms, rfl, by rw [hr3, hrm], ?_⟩
    intro i hi
    rw [hrm] at hT
    have hL : ∀ y ∈ (grp md5 (macc hist) (fuzzyDigest md5 m (.patterns ps))).map MRec.ins, y.1.length = m.depth := by
      intro y hy
      obtain ⟨q, hq, rfl⟩ := List.mem_map.mp hy
      have := rec_depth (mem_grp.mp hq).1
      rw [(grp_meta hc hq hg).1] at this
      exact this.1
    obtain ⟨d, h1, h2, h3⟩ := hT.reach (grp_coh hc _) hL (pre := ps.take i)
      (.inr ⟨(ps, md), List.mem_map.mpr ⟨_, hg, rfl⟩, by simp⟩)
    refine ⟨d, h1, h3, _, h2, ?_⟩
    rw [List.filter_map, List.length_map]
    unfold grp
    rw [List.filter_filter]
    have := times_macc (hist := hist) (P := fun r => r.ps.take (ps.take i).length = ps.take i ∧
      r.sid md5 = fuzzyDigest md5 m (.patterns ps))
    simp only [Bool.decide_and] at this
    refine times_congr this ?_
    rintro ⟨u, umd⟩ hu
    have hlen : (ps.take i).length = i := by simp; omega
    rw [hlen]
    have hinj : ∀ m' ps', parse u = .ok (m', .patterns ps') → (MRec.sid md5 ⟨m', ps', umd⟩ =
        fuzzyDigest md5 m (.patterns ps) ↔ m' = m ∧ (Parsed.patterns ps').fuzzyRules = (Parsed.patterns ps).fuzzyRules) :=
      fun m' ps' e => hc.inj (List.mem_map.mpr ⟨_, hu, rfl⟩) (List.mem_map.mpr ⟨_, hs, rfl⟩) e hp
    constructor
    · rintro ⟨m', ps', e, h1, h2⟩
      obtain ⟨rfl, h3⟩ := (hinj m' ps' e).mp h2
      exact ⟨ps', e, h3, h1⟩
    · rintro ⟨ps', e, h1, h2⟩
      exact ⟨m, ps', e, h2, (hinj m ps' e).mpr ⟨rfl, h1⟩⟩

/-- **C59**: there are no other trees and no other nodes. -/
theorem C59_only (md5 : Str → Str) (hist : List (Str × Option Str)) (hc : NoClash md5 (hist.map (·.1)))
    (sid : Str) (ms : MatcherSt) (hms : Dict.get? sid (mloadAll md5 hist) = some ms) :
    (∃ s md ps, (s, md) ∈ hist ∧ parse s = .ok (ms.urlMeta, .patterns ps) ∧
      fuzzyDigest md5 ms.urlMeta (.patterns ps) = sid) ∧
    ∀ ks d, ks ≠ [] → nodeAt ms.root ms.kids ks = some d →
      ∃ s md ps, (s, md) ∈ hist ∧ parse s = .ok (ms.urlMeta, .patterns ps) ∧
        fuzzyDigest md5 ms.urlMeta (.patterns ps) = sid ∧ (ps.take ks.length).map (·.str) = ks := by
  have hst := mloadAll_state md5 hist hc sid
  rw [hms] at hst
  obtain ⟨r, hr1, hr2, hr3, hT⟩ := hst
  constructor
  · obtain ⟨s, hs, e⟩ := mem_macc.mp hr1
    exact ⟨s, r.md, r.ps, hs, by rw [hr3]; exact e, by rw [hr3]; exact hr2⟩
  · intro ks d hne h
    obtain ⟨y, hy, e⟩ := hT.reach_only hne h
    obtain ⟨q, hq, rfl⟩ := List.mem_map.mp hy
    obtain ⟨s, hs, e'⟩ := mem_macc.mp (mem_grp.mp hq).1
    have hm : q.m = ms.urlMeta := by rw [hr3]; exact (grp_meta hc hq (mem_grp.mpr ⟨hr1, hr2⟩)).1
    rw [hm] at e'
    exact ⟨s, q.md, q.ps, hs, e', by rw [← hm]; exact (mem_grp.mp hq).2, e⟩

/-- **C59**: the count of a node returned by `match` is the number of times its pattern was loaded. -/
theorem C59_count (md5 : Str → Str) (hist : List (Str × Option Str)) (url : Str) (m : URLMeta)
    (pps : List ParsedPiece) (h : parse url = .ok (m, .pieces pps)) (hc : NoClash md5 (url :: hist.map (·.1)))
    (rs : List (Matched FullStore Str)) (hm : (mloadAll md5 hist).match_ md5 url = .ok rs)
    (x : Matched FullStore Str) (hx : x ∈ rs) :
    ∃ n : Nat, 0 < n ∧ x.data.count = n ∧
      Times (fun y : Str × Option Str => parse y.1 = .ok (m, .patterns x.path)) hist n := by
  obtain ⟨g, hg, hgf, hcase⟩ := match_grp hc h
  rcases hcase with ⟨-, e⟩ | ⟨hne, d, kids, hT, e⟩
  · rw [e] at hm; simp at hm; subst hm; simp at hx
  · rw [e] at hm
    have hdep : ∀ r ∈ g, r.ps.length = m.depth ∧ 0 < m.depth := by
      intro r hr
      have := rec_depth ((hg r).mp hr).1
      rwa [((hg r).mp hr).2.1] at this
    obtain ⟨n, hn⟩ : ∃ n, m.depth = n + 1 := by
      obtain ⟨r, hr⟩ := List.exists_mem_of_ne_nil _ hne
      exact ⟨m.depth - 1, by have := hdep r hr; omega⟩
    rw [hn] at hT
    have hL : ∀ y ∈ g.map MRec.ins, y.1.length = n + 1 := by
      intro y hy
      obtain ⟨r, hr, rfl⟩ := List.mem_map.mp hy
      rw [← hn]; exact (hdep r hr).1
    have hcoh : Coh (g.map MRec.ins) := rec_coh (hist := hist) (fun r hr => ((hg r).mp hr).1)
      (fun r hr r' hr' => ((hg r).mp hr).2.1.trans ((hg r').mp hr').2.1.symm)
    obtain ⟨y, hy, hp, -, -⟩ := mmatch_sound hT hL hcoh hm hx
    obtain ⟨p, hp', hnode⟩ := mmatch_nodeAt hT hL hm hx
    simp only [List.nil_append] at hp hp'
    subst hp'
    obtain ⟨d', h1, h2, -⟩ := hT.reach hcoh hL (pre := x.path) (.inr ⟨y, hy, by rw [hp]; simp⟩)
    rw [hnode] at h1
    simp only [Option.some.injEq] at h1
    subst h1
    refine ⟨_, ?_, h2, ?_⟩
    · exact List.length_pos_iff.mpr (List.ne_nil_of_mem (List.mem_filter.mpr ⟨hy, by rw [hp]; simp⟩))
    · rw [List.filter_map, List.length_map, hgf, List.filter_filter]
      have := times_macc (hist := hist) (P := fun r => r.ps.take x.path.length = x.path ∧
        r.sid md5 = fuzzyDigest md5 m (.pieces pps))
      simp only [Bool.decide_and] at this
      refine times_congr this ?_
      rintro ⟨u, umd⟩ hu
      obtain ⟨r, hr, rfl⟩ := List.mem_map.mp hy
      have hr' := (hg r).mp hr
      constructor
      · rintro ⟨m', ps', e1, e2, e3⟩
        have hin : (⟨m', ps', umd⟩ : MRec) ∈ g := by
          rw [hgf, List.mem_filter]
          exact ⟨mem_macc.mpr ⟨u, hu, e1⟩, decide_eq_true e3⟩
        obtain rfl : m' = m := ((hg _).mp hin).2.1
        have hl1 := (hdep _ hin).1
        have hl2 := (hdep _ hr).1
        have hpr : x.path = r.ps := hp
        simp only at e2 hl1 ⊢
        rw [hpr, List.take_of_length_le (by rw [hl1, hl2]; exact Nat.le_refl _)] at e2
        rw [e1, hpr, e2]
      · intro e1
        refine ⟨m, x.path, e1, by simp, ?_⟩
        have hin : (⟨m, x.path, umd⟩ : MRec) ∈ g :=
          (hg _).mpr ⟨mem_macc.mpr ⟨u, hu, e1⟩, rfl, by have hpr : x.path = r.ps := hp; rw [hpr]; exact hr'.2.2⟩
        rw [hgf, List.mem_filter] at hin
        exact of_decide_eq_true hin.2

/-- Loaded twice, once and not at all (rejected). -/
example : ((mloadAll id [(c!"/[a-z]{2}/[0-9]+", some c!"1"), (c!"/[a-z]+/[0-9]+", none),
      (c!"/[a-z]{2}/[0-9]+", none), (c!"nonsense", none), (c!"/[a-z]{2}/[0-9]{2}", none)]).match_ id c!"http://h/ab/77").map
        (fun rs => rs.map (fun x => (x.path.map (·.str), x.data.count))) =
    .ok [([c!"[a-z]{2}", c!"[0-9]{2}"], 1), ([c!"[a-z]{2}", c!"[0-9]+"], 2), ([c!"[a-z]+", c!"[0-9]+"], 1)] := by
  decide +kernel

/-- Four loads pass the root, three the node `[a-z]{2}`. -/
example : ((mloadAll id [(c!"/[a-z]{2}/[0-9]+", some c!"1"), (c!"/[a-z]+/[0-9]+", none),
      (c!"/[a-z]{2}/[0-9]+", none), (c!"/[a-z]{2}/[0-9]{2}", none)]).map (fun x =>
        ((nodeAt x.2.root x.2.kids []).map (·.count), (nodeAt x.2.root x.2.kids [c!"[a-z]{2}"]).map (·.count)))) =
    [(some 4, some 3)] := by
  decide +kernel

end OsUrl
