import Verif.Proofs.MatchCost
import Verif.Proofs.PatStruct
import Verif.Props.C02

/-! The number of calls of `match` and the length of the patterns. -/

namespace OsUrl
open Spec

/-! ### Patterns are as long as their parts -/

theorem find_le {t s : Str} {i : Nat} (h : find t s = some i) : i ≤ s.length := by
  induction s generalizing i with
  | nil =>
    simp only [find] at h
    split at h
    · simp at h; omega
    · simp at h
  | cons x xs ih =>
    simp only [find] at h
    split at h
    · simp at h; omega
    · simp only [Option.map_eq_some_iff] at h
      obtain ⟨j, hj, rfl⟩ := h
      have := ih hj
      simp; omega

/-- The parts of a pattern string and a separator each fit into it. -/
theorem pqf_length {s p : Str} (h : (parseUrlPatternString s).path = some p) :
    p.length + (match (parseUrlPatternString s).query with | none => 0 | some q => q.length + 1) +
      (match (parseUrlPatternString s).fragment with | none => 0 | some f => f.length + 1) ≤ s.length := by
  unfold parseUrlPatternString at h ⊢
  cases hq : find singleQuestion s with
  | none =>
    cases hf : findChar '#' s with
    | none => rw [hq, hf] at h; simp only [Option.some.injEq] at h; subst h; simp
    | some f =>
      obtain ⟨a, b, rfl, -, rfl⟩ := findChar_some hf
      rw [hq, hf] at h
      simp only at h ⊢
      split at h
      · rename_i h0
        simp only [Option.some.injEq] at h
        subst h
        rw [if_pos h0]
        simp
      · cases h
  | some q =>
    have hlq : q + 4 ≤ s.length := by
      have : find singleQuestion s = some q → q + 4 ≤ s.length := by
        intro hq
        clear h
        induction s generalizing q with
        | nil =>
          have : find singleQuestion ([] : Str) = none := by decide
          rw [this] at hq; cases hq
        | cons x xs ih =>
          simp only [find] at hq
          split at hq
          · rename_i hst
            simp only [Option.some.injEq] at hq
            subst hq
            have hp : singleQuestion <+: (x :: xs) := by
              simpa [startsWith] using hst
            have := hp.length_le
            have h4 : singleQuestion.length = 4 := by decide
            omega
          · simp only [Option.map_eq_some_iff] at hq
            obtain ⟨j, hj, rfl⟩ := hq
            have := ih j hj hj
            simp; omega
      exact this hq
    cases hf : findChar '#' s with
    | none =>
      rw [hq, hf] at h
      simp only at h ⊢
      split at h
      · rename_i h0
        simp only [Option.some.injEq] at h
        subst h
        rw [if_pos h0]
        simp; omega
      · cases h
    | some f =>
      have hlf : f < s.length := by
        obtain ⟨a, b, rfl, -, rfl⟩ := findChar_some hf
        simp
      rw [hq, hf] at h
      simp only at h ⊢
      split at h
      · rename_i h0
        rw [if_pos h0]
        split at h
        · rename_i h1
          rw [if_pos h1]
          simp only [Option.some.injEq] at h
          subst h
          simp; omega
        · rename_i h1
          rw [if_neg h1]
          simp only [Option.some.injEq] at h
          subst h
          simp; omega
      · cases h

/-- Characters and one separator each. -/
def partsLen (l : List Str) : Nat := (l.map (fun p => p.length + 1)).sum

theorem join_len (c : Char) {l : List Str} (h : l ≠ []) : (join [c] l).length + 1 = partsLen l := by
  induction l with
  | nil => exact absurd rfl h
  | cons a l ih =>
    cases l with
    | nil => simp [join, partsLen]
    | cons b l =>
      have := ih (by simp)
      have e : join [c] (a :: b :: l) = a ++ c :: join [c] (b :: l) := by simp [join]
      rw [e]
      simp only [partsLen, List.map_cons, List.sum_cons, List.length_append, List.length_cons] at this ⊢
      omega

theorem partsLen_filter (l : List Str) : partsLen (filterUseless l) ≤ partsLen l := by
  induction l with
  | nil => simp [filterUseless]
  | cons x l ih =>
    cases l with
    | nil => simp [filterUseless]
    | cons y l =>
      simp only [filterUseless]
      split
      · simp only [partsLen, List.map_cons, List.sum_cons] at ih ⊢; omega
      · simp only [partsLen, List.map_cons, List.sum_cons] at ih ⊢; omega

theorem query_len {q : Str} {ks vs : List Str} (h : parseQueryString (some q) = .ok (ks, vs)) : partsLen vs ≤ q.length + 1 := by
  by_cases hq : q = []
  · subst hq
    have : parseQueryString (some []) = .ok ([[]], [[]]) := rfl
    rw [this] at h
    simp only [Except.ok.injEq, Prod.mk.injEq] at h
    rw [← h.2]; decide
  · have hl := C02_lossless q hq ks vs h
    obtain ⟨h1, h2, -⟩ := C02_pairs q hq _ ks vs (items_exist q) h
    have hlen : ks.length = vs.length := by rw [h1, h2]
    by_cases hv : vs = []
    · subst hv; simp [partsLen]
    · have hz : ((ks.zip vs).map (fun kv => kv.1 ++ kv.2)) ≠ [] := by
        intro e
        have := congrArg List.length e
        simp only [List.length_map, List.length_zip, List.length_nil] at this
        have := List.length_pos_iff.mpr hv
        omega
      have := join_len '&' hz
      rw [hl] at this
      have e : partsLen vs = ((ks.zip vs).map (fun kv => kv.2.length + 1)).sum := by
        have : vs = (ks.zip vs).map (·.2) := (List.map_snd_zip (by omega)).symm
        rw [partsLen]
        conv => lhs; rw [this]
        rw [List.map_map]
        rfl
      rw [e, this, partsLen, List.map_map]
      refine tot_mono ?_
      intro x _
      simp only [Function.comp_apply, List.length_append]
      omega

theorem partsLen_append (a b : List Str) : partsLen (a ++ b) = partsLen a + partsLen b := by
  simp [partsLen, List.sum_append]

/-- The pieces of a pattern string with one separator each fit into it. -/
theorem analyzePattern_len {s : Str} {m : URLMeta} {strs : List Str} (h : analyzeUrlPatternString s = .ok (m, strs)) :
    partsLen strs ≤ s.length := by
  unfold analyzeUrlPatternString unpack at h
  cases hpath : (parseUrlPatternString s).path with
  | none => rw [hpath] at h; cases h
  | some path =>
    have hl := pqf_length hpath
    rw [hpath] at h
    simp only at h
    split at h
    · cases h
    · obtain ⟨⟨ks, vs⟩, h1, h⟩ := bind_ok h
      simp only [Bool.false_eq_true, if_false, pure, Except.pure, Except.ok.injEq, Prod.mk.injEq] at h
      obtain ⟨rfl, rfl⟩ := h
      rw [partsLen_append, partsLen_append]
      have hp : partsLen (filterUseless ((splitChar '/' path).drop 1)) ≤ path.length := by
        refine Nat.le_trans (partsLen_filter _) ?_
        by_cases hs : splitChar '/' path = []
        · rw [hs]; simp [partsLen]
        · have := join_len '/' hs
          rw [join_splitChar] at this
          cases hc : splitChar '/' path with
          | nil => exact absurd hc hs
          | cons a l =>
            rw [hc] at this
            simp only [partsLen, List.map_cons, List.sum_cons, List.drop_succ_cons, List.drop_zero] at this ⊢
            omega
      have hqv : partsLen vs ≤ (match (parseUrlPatternString s).query with | none => 0 | some q => q.length + 1) := by
        cases hq : (parseUrlPatternString s).query with
        | none =>
          rw [hq] at h1
          simp only [parseQueryString, Except.ok.injEq, Prod.mk.injEq] at h1
          rw [← h1.2]; simp [partsLen]
        | some q => rw [hq] at h1; exact query_len h1
      have hfr : partsLen (parseUrlPatternString s).fragment.toList ≤
          (match (parseUrlPatternString s).fragment with | none => 0 | some f => f.length + 1) := by
        cases (parseUrlPatternString s).fragment <;> simp [partsLen]
      omega

theorem units_len {p : MatchPattern} (h : GoodPat p) : inW p ≤ 2 * p.str.length := by
  unfold inW
  split
  · rename_i hc
    have h2 := multi_two h hc
    have hne := two_units h h2
    have hf := h.flat
    have : ∀ us : List PatternUnit, (∀ u ∈ us, u.str ≠ []) → us.length ≤ ((us.map (·.str)).flatten).length := by
      intro us
      induction us with
      | nil => intro _; simp
      | cons u us ih =>
        intro hu
        have h1 := ih (fun v hv => hu v (by simp [hv]))
        have h2 := List.length_pos_iff.mpr (hu u (by simp))
        simp only [List.map_cons, List.flatten_cons, List.length_append, List.length_cons]
        omega
    have := this p.units (fun u hu => (hne u hu).2)
    rw [hf] at this
    omega
  · omega

theorem wt_len {ps : List MatchPattern} (h : ∀ p ∈ ps, GoodPat p) : wt inW ps ≤ 2 * partsLen (ps.map (·.str)) := by
  induction ps with
  | nil => simp [wt]
  | cons p ps ih =>
    have h1 := units_len (h p (by simp))
    have h2 := ih (fun q hq => h q (by simp [hq]))
    by_cases hp : ps = []
    · subst hp
      simp only [wt, partsLen, List.map_cons, List.map_nil, List.sum_cons, List.sum_nil]
      omega
    · rw [wt_cons hp]
      simp only [partsLen, List.map_cons, List.sum_cons] at h2 ⊢
      omega

theorem wt_chars {s : Str} {m : URLMeta} {ps : List MatchPattern} (h : parse s = .ok (m, .patterns ps)) : wt inW ps ≤ 2 * s.length := by
  have h1 := wt_len (parse_patterns_good h)
  have h2 := analyzePattern_len (parse_patterns_strs h)
  omega

/-! ### Matching -/

theorem matchC_grp {md5 : Str → Str} {hist : List (Str × Option Str)} {url : Str}
    (hc : NoClash md5 (url :: hist.map (·.1))) {m : URLMeta} {pps : List ParsedPiece}
    (h : parse url = .ok (m, .pieces pps)) :
    ∃ g : List MRec, (∀ r, r ∈ g ↔ r ∈ macc hist ∧ r.m = m ∧
        r.ps.map (fun p => unitsFuzzyRule p.units) = pps.map (·.fuzzyRule)) ∧
      ((g = [] ∧ (mloadAll md5 hist).matchC md5 url = .ok ([], 0)) ∨
       (g ≠ [] ∧ ∃ d kids, T urlOps m.depth (g.map MRec.ins) d kids ∧
        (mloadAll md5 hist).matchC md5 url = mmatchC urlMatchC (pps.map some) [] d kids)) := by
  have hc' : NoClash md5 (hist.map (·.1)) := hc.mono (by simp +contextual)
  have hst := mloadAll_state md5 hist hc'
  have hmem : ∀ r, r ∈ grp md5 (macc hist) (fuzzyDigest md5 m (.pieces pps)) ↔ r ∈ macc hist ∧ r.m = m ∧
        r.ps.map (fun p => unitsFuzzyRule p.units) = pps.map (·.fuzzyRule) := by
    intro r
    rw [mem_grp]
    apply and_congr_right
    intro hr
    obtain ⟨s, hs, e⟩ := mem_macc.mp hr
    exact hc.inj (by simp; right; exact ⟨_, hs⟩) (by simp) e h
  refine ⟨grp md5 (macc hist) (fuzzyDigest md5 m (.pieces pps)), hmem, ?_⟩
  have hs := hst (fuzzyDigest md5 m (.pieces pps))
  have hm : (mloadAll md5 hist).matchC md5 url = (match Dict.get? (fuzzyDigest md5 m (.pieces pps)) (mloadAll md5 hist) with
      | none => .ok ([], 0)
      | some ms => mmatchC urlMatchC (pps.map some) [] ms.root ms.kids) := by
    unfold PatternMatcherSt.matchC
    rw [h]
    rfl
  rw [hm]
  cases hk : Dict.get? (fuzzyDigest md5 m (.pieces pps)) (mloadAll md5 hist) with
  | none =>
    left
    rw [hk] at hs
    refine ⟨?_, rfl⟩
    rw [List.eq_nil_iff_forall_not_mem]
    intro r hr
    obtain ⟨a, b⟩ := mem_grp.mp hr
    exact hs r a b
  | some ms =>
    right
    rw [hk] at hs
    obtain ⟨r, hr, e1, e2, hT⟩ := hs
    have hrg := mem_grp.mpr ⟨hr, e1⟩
    refine ⟨List.ne_nil_of_mem hrg, ms.root, ms.kids, ?_, rfl⟩
    rw [((hmem r).mp hrg).2.1] at hT
    exact hT

/-- The number of calls is bounded by the weights of the different loaded patterns of the URL's structure. -/
theorem matchC_cost {md5 : Str → Str} {hist : List (Str × Option Str)} {url : Str} {m : URLMeta} {pieces : List Str}
    {pps : List ParsedPiece} (h : parse url = .ok (m, .pieces pps)) (hk : ∀ s ∈ pieces, ∀ c ∈ s, Known c)
    (hpps : pps = pieces.map (fun s => ppOf (runsOf s)))
    (hc : NoClash md5 (url :: hist.map (·.1))) (ht : AllTame hist) {K : List (List MatchPattern)}
    (hK : ∀ r ∈ macc hist, r.m = m → r.ps.map (fun p => unitsFuzzyRule p.units) = pps.map (·.fuzzyRule) → r.ps ∈ K)
    {r : List (Matched FullStore Str) × Nat} (hr : (mloadAll md5 hist).matchC md5 url = .ok r) :
    r.2 ≤ 1 + (K.map (wt inW)).sum := by
  obtain ⟨g, hg, hcase⟩ := matchC_grp hc h
  rcases hcase with ⟨rfl, hnil⟩ | ⟨hne, d, kids, hT, hmm⟩
  · rw [hnil] at hr
    cases hr
    exact Nat.zero_le _
  · obtain ⟨r0, hr0⟩ := List.exists_mem_of_ne_nil _ hne
    obtain ⟨h01, h02, h03⟩ := (hg r0).mp hr0
    obtain ⟨hd1, hd2⟩ := rec_depth h01
    obtain ⟨n, hn⟩ : ∃ n, m.depth = n + 1 := ⟨m.depth - 1, by rw [h02] at hd2; omega⟩
    rw [hn] at hT
    have hL : ∀ y ∈ g.map MRec.ins, y.1.length = n + 1 := by
      intro y hy
      obtain ⟨r, hr, rfl⟩ := List.mem_map.mp hy
      obtain ⟨a1, a2, a3⟩ := (hg r).mp hr
      rw [← hn, ← a2]
      exact (rec_depth a1).1
    have hcoh : Coh (g.map MRec.ins) :=
      rec_coh (hist := hist) (fun r hr => ((hg r).mp hr).1)
        (fun r hr r' hr' => ((hg r).mp hr).2.1.trans ((hg r').mp hr').2.1.symm)
    have hat : ∀ (i : Nat) (s : Str) (p : MatchPattern), pieces[i]? = some s → p ∈ patsAt i (g.map MRec.ins) →
        AtPos s p ∧ Tame p := by
      intro i s p hi hp
      obtain ⟨x, hx, hxp⟩ := mem_patsAt.mp hp
      obtain ⟨r, hr, rfl⟩ := List.mem_map.mp hx
      obtain ⟨a1, a2, a3⟩ := (hg r).mp hr
      have hmem : p ∈ r.ps := List.mem_of_getElem? hxp
      exact ⟨atPos_of h hk hpps a1 a2 a3 hi hxp, ht.rec a1 p hmem⟩
    have hinj : ∀ i, StrInj (patsAt i (g.map MRec.ins)) := by
      intro i p hp q hq e
      obtain ⟨x, hx, hxp⟩ := mem_patsAt.mp hp
      obtain ⟨y, hy, hyq⟩ := mem_patsAt.mp hq
      exact hcoh x hx y hy i p q hxp hyq e
    rw [hmm] at hr
    refine mmatchC_cost urlMatchC_er hT hL hcoh ?_ hr ?_
    · intro y hy
      obtain ⟨r, hr, rfl⟩ := List.mem_map.mp hy
      obtain ⟨a1, a2, a3⟩ := (hg r).mp hr
      exact hK r a1 a2 a3
    intro i opp hi qs hqs hnd
    simp only [List.getElem?_map, Option.map_eq_some_iff] at hi
    obtain ⟨pp, hi, rfl⟩ := hi
    rw [hpps, List.getElem?_map] at hi
    simp only [Option.map_eq_some_iff] at hi
    obtain ⟨s, hs, rfl⟩ := hi
    have hl := (lvl_of (hk s (List.mem_of_getElem? hs)) (fun p hp => (hat i s p hs hp).1)
      (fun p hp => (hat i s p hs hp).2) (hinj i)).mono (fun q hq => mem_patsAt.mpr (hqs q hq))
    exact ⟨url_once hl hnd, url_inner hl⟩

/-! ### Literal patterns -/

theorem literal_vms {ps : List MatchPattern} {vms : List (ViewCls × FullStore)} (h : addAll urlOps ps = .ok vms) (hp : ∀ p ∈ ps, p.cls = .piece) :
    vms.length ≤ 1 ∧ ∀ vm ∈ vms, ∀ pp r, urlMatchC vm.1 pp vm.2 = .ok r → r.1.length ≤ 1 ∧ r.2 = 0 := by
  have hs := addAll_spec h
  have hcls : ∀ vm ∈ vms, vm.1 = .piece := by
    intro vm hvm
    obtain ⟨⟨q, hq, e⟩, -⟩ := (hs.2 vm).mp hvm
    rw [← e, hp q hq]
  constructor
  · match vms, hs.1, hcls with
    | [], _, _ => simp
    | [_], _, _ => simp
    | a :: b :: l, hv, hcls =>
      have h1 := (List.pairwise_cons.mp hv).1 b (by simp)
      rw [hcls a (by simp), hcls b (by simp)] at h1
      omega
  · intro vm hvm pp r hr
    obtain ⟨-, hf⟩ := (hs.2 vm).mp hvm
    have hc := hcls vm hvm
    obtain ⟨c, s⟩ := vm
    simp only at hc hf hr
    subst hc
    obtain ⟨s0, rfl, hs0⟩ := fill_simple (.inl rfl) _ hf
    obtain ⟨d, rfl, -⟩ := fill_piece hs0
    simp only [urlMatchC, unitMatchC] at hr
    obtain ⟨keys, hk, hr⟩ := bind_ok hr
    simp only [pure, Except.pure, Except.ok.injEq] at hr
    subst hr
    refine ⟨?_, rfl⟩
    cases pp with
    | none => simp [Store.matches_] at hk
    | some pp =>
      simp only [Store.matches_, Except.ok.injEq] at hk
      rw [← hk]
      cases Dict.get? pp.piece d <;> simp

/-- Literal patterns are found by one look-up on each level. -/
theorem literal_cost {n : Nat} {L : List (MIns Str)} {d : MData FullStore Str} {kids : Forest (MData FullStore Str)}
    (hT : T urlOps (n + 1) L d kids) (hL : ∀ y ∈ L, y.1.length = n + 1) (hp : ∀ y ∈ L, ∀ p ∈ y.1, p.cls = .piece)
    {pps : List (Option ParsedPiece)} {pre : List MatchPattern} {r : List (Matched FullStore Str) × Nat}
    (h : mmatchC urlMatchC pps pre d kids = .ok r) : r.2 ≤ 2 * (n + 1) := by
  induction n generalizing L d kids pps pre r with
  | zero =>
    cases pps with
    | nil => simp [mmatchC] at h
    | cons pp rest =>
      rw [mmatchC_cons] at h
      obtain ⟨rs, h1, h⟩ := bind_ok h
      simp only [pure, Except.pure, Except.ok.injEq] at h
      rw [← h]
      obtain ⟨hv1, hv2⟩ := literal_vms hT.1 (by
        intro p hpm
        obtain ⟨ps, md, hin⟩ := mem_heads.mp (mem_uniq.mp hpm)
        exact hp _ hin p (by simp))
      have := mapM_tot (g := fun _ => 1) h1 (by
        intro vm hvm b hb
        unfold vmStepC at hb
        obtain ⟨q, hq, hb⟩ := bind_ok hb
        obtain ⟨-, h0⟩ := hv2 vm hvm _ q hq
        cases hd : derefs kids q.1 with
        | nil => rw [hd] at hb; simp only [pure, Except.pure, Except.ok.injEq] at hb; rw [← hb]; simp only; omega
        | cons x xs =>
          have hx : x ∈ derefs kids q.1 := by rw [hd]; simp
          rw [hd] at hb
          obtain ⟨k, -, hg⟩ := mem_derefs.mp hx
          obtain ⟨d0, k0⟩ := x
          obtain ⟨hs, -, -, hT'⟩ := hT.child hg
          simp only at hb
          rw [if_pos ((hT'.isNil (sub_length hL) hs).mpr rfl)] at hb
          simp only [pure, Except.pure, Except.ok.injEq] at hb
          rw [← hb]; simp only; omega)
      rw [List.map_const', List.sum_replicate_nat] at this
      simp only
      omega
  | succ n ih =>
    cases pps with
    | nil => simp [mmatchC] at h
    | cons pp rest =>
      rw [mmatchC_cons] at h
      obtain ⟨rs, h1, h⟩ := bind_ok h
      simp only [pure, Except.pure, Except.ok.injEq] at h
      rw [← h]
      obtain ⟨hv1, hv2⟩ := literal_vms hT.1 (by
        intro p hpm
        obtain ⟨ps, md, hin⟩ := mem_heads.mp (mem_uniq.mp hpm)
        exact hp _ hin p (by simp))
      have := mapM_tot (g := fun _ => 1 + 2 * (n + 1)) h1 (by
        intro vm hvm b hb
        unfold vmStepC at hb
        obtain ⟨q, hq, hb⟩ := bind_ok hb
        obtain ⟨h2, h0⟩ := hv2 vm hvm _ q hq
        cases hd : derefs kids q.1 with
        | nil => rw [hd] at hb; simp only [pure, Except.pure, Except.ok.injEq] at hb; rw [← hb]; simp only; omega
        | cons x xs =>
          have hx : x ∈ derefs kids q.1 := by rw [hd]; simp
          rw [hd] at hb
          obtain ⟨k, -, hg⟩ := mem_derefs.mp hx
          obtain ⟨d0, k0⟩ := x
          obtain ⟨hs, -, -, hT'⟩ := hT.child hg
          simp only at hb
          rw [if_neg (fun e => by have := (hT'.isNil (sub_length hL) hs).mp e; omega)] at hb
          rw [← hd] at hb
          obtain ⟨ms, hms, hb⟩ := bind_ok hb
          simp only [pure, Except.pure, Except.ok.injEq] at hb
          have := derefs_sum (g := fun _ => 2 * (n + 1)) hms (by
            intro k' _ x hx b hb
            obtain ⟨d1, k1⟩ := x
            obtain ⟨-, -, -, hT1⟩ := hT.child hx
            refine ih hT1 (sub_length hL) ?_ hb
            intro y hy p hpm
            obtain ⟨p', hp', hin⟩ := mem_sub.mp hy
            exact hp _ hin p (by simp [hpm]))
          rw [List.map_const', List.sum_replicate_nat] at this
          have h3 : q.1.length * (2 * (n + 1)) ≤ 1 * (2 * (n + 1)) := Nat.mul_le_mul_right _ h2
          rw [← hb]
          simp only
          omega)
      rw [List.map_const', List.sum_replicate_nat] at this
      have h3 : d.vms.length * (1 + 2 * (n + 1)) ≤ 1 * (1 + 2 * (n + 1)) := Nat.mul_le_mul_right _ hv1
      simp only
      omega

theorem matchC_literal {md5 : Str → Str} {hist : List (Str × Option Str)} {url : Str} {m : URLMeta}
    {pps : List ParsedPiece} (h : parse url = .ok (m, .pieces pps)) (hc : NoClash md5 (url :: hist.map (·.1)))
    (hp : ∀ r ∈ macc hist, r.m = m → ∀ p ∈ r.ps, p.cls = .piece)
    {r : List (Matched FullStore Str) × Nat} (hr : (mloadAll md5 hist).matchC md5 url = .ok r) :
    r.2 ≤ 2 * m.depth := by
  obtain ⟨g, hg, hcase⟩ := matchC_grp hc h
  rcases hcase with ⟨rfl, hnil⟩ | ⟨hne, d, kids, hT, hmm⟩
  · rw [hnil] at hr
    cases hr
    exact Nat.zero_le _
  · obtain ⟨r0, hr0⟩ := List.exists_mem_of_ne_nil _ hne
    obtain ⟨h01, h02, h03⟩ := (hg r0).mp hr0
    obtain ⟨hd1, hd2⟩ := rec_depth h01
    obtain ⟨n, hn⟩ : ∃ n, m.depth = n + 1 := ⟨m.depth - 1, by rw [h02] at hd2; omega⟩
    rw [hn] at hT ⊢
    rw [hmm] at hr
    refine literal_cost hT ?_ ?_ hr
    · intro y hy
      obtain ⟨r, hr, rfl⟩ := List.mem_map.mp hy
      obtain ⟨a1, a2, a3⟩ := (hg r).mp hr
      rw [← hn, ← a2]
      exact (rec_depth a1).1
    · intro y hy
      obtain ⟨r, hr, rfl⟩ := List.mem_map.mp hy
      obtain ⟨a1, a2, a3⟩ := (hg r).mp hr
      exact hp r a1 a2

end OsUrl
