import Verif.Model.Cmdline
import Verif.Spec.Lines
import Verif.Props.C20

/-! # C36: the match command writes one line per input line -/

namespace OsUrl
open Spec

/-! ### the results of `match`, for any argument -/

theorem lastMd_some {μ : Type} {L : List (MIns μ)} (hne : L ≠ []) (h : ∀ x ∈ L, ∃ t, x.2 = some t) :
    ∃ x ∈ L, ∃ t, x.2 = some t ∧ lastMd L = some t := by
  revert hne h
  refine snoc_ind (P := fun L => L ≠ [] → (∀ x ∈ L, ∃ t, x.2 = some t) → ∃ x ∈ L, ∃ t, x.2 = some t ∧ lastMd L = some t) ?_ ?_ L
  · intro h; exact absurd rfl h
  · intro L x _ _ h
    obtain ⟨t, ht⟩ := h x (by simp)
    refine ⟨x, by simp, t, ht, ?_⟩
    simp [lastMd, List.foldl_append, ht]

/-- Every result of `match`, whatever it was called with, is a loaded pattern with a meta given by a load. -/
theorem match_any {md5 : Str → Str} {hist : List (Str × Option Str)} {url : Str}
    (hc : NoClash md5 (hist.map (·.1))) (hs : ∀ x ∈ hist, ∃ t, x.2 = some t)
    {rs : List (Matched FullStore Str)} (hm : (mloadAll md5 hist).match_ md5 url = .ok rs) {x : Matched FullStore Str}
    (hx : x ∈ rs) : (∀ p ∈ x.path, GoodPat p) ∧
      (∃ s t m', (s, some t) ∈ hist ∧ x.data.md = some t ∧ parse s = .ok (m', .patterns x.path)) ∧
      ∀ y ∈ rs, Results x.path y.path := by
  unfold PatternMatcherSt.match_ at hm
  obtain ⟨⟨m, parsed⟩, hp, hm⟩ := bind_ok hm
  simp only at hm
  have hst := mloadAll_state md5 hist hc (fuzzyDigest md5 m parsed)
  cases hk : Dict.get? (fuzzyDigest md5 m parsed) (mloadAll md5 hist) with
  | none =>
    rw [hk] at hm
    simp [pure, Except.pure] at hm
    subst hm
    simp at hx
  | some ms =>
    rw [hk] at hm hst
    obtain ⟨r, hr, e1, e2, hT⟩ := hst
    have hrg := mem_grp.mpr ⟨hr, e1⟩
    have hdep : ∀ q ∈ grp md5 (macc hist) (fuzzyDigest md5 m parsed), q.ps.length = r.m.depth ∧ 0 < r.m.depth := by
      intro q hq
      have := rec_depth (mem_grp.mp hq).1
      rwa [(grp_meta hc hq hrg).1] at this
    obtain ⟨n, hn⟩ : ∃ n, r.m.depth = n + 1 := ⟨r.m.depth - 1, by have := hdep r hrg; omega⟩
    rw [hn] at hT
    have hL : ∀ y ∈ (grp md5 (macc hist) (fuzzyDigest md5 m parsed)).map MRec.ins, y.1.length = n + 1 := by
      intro y hy
      obtain ⟨q, hq, rfl⟩ := List.mem_map.mp hy
      rw [← hn]; exact (hdep q hq).1
    have hcoh : Coh ((grp md5 (macc hist) (fuzzyDigest md5 m parsed)).map MRec.ins) :=
      rec_coh (hist := hist) (fun q hq => (mem_grp.mp hq).1) (fun q hq q' hq' => (grp_meta hc hq hq').1)
    obtain ⟨y, hy, hp, -, hmd⟩ := mmatch_sound hT hL hcoh hm hx
    obtain ⟨q, hq, rfl⟩ := List.mem_map.mp hy
    simp only [List.nil_append] at hp
    have hpar : ∀ z ∈ rs, ∃ s, parse s = .ok (q.m, .patterns z.path) := by
      intro z hz
      obtain ⟨y', hy', hp', -⟩ := mmatch_sound hT hL hcoh hm hz
      obtain ⟨q', hq', rfl⟩ := List.mem_map.mp hy'
      simp only [List.nil_append] at hp'
      obtain ⟨s, -, es⟩ := mem_macc.mp (mem_grp.mp hq').1
      rw [(grp_meta hc hq' hq).1] at es
      exact ⟨s, by rw [hp']; exact es⟩
    refine ⟨by rw [hp]; exact rec_good (mem_grp.mp hq).1, ?_, ?_⟩
    rotate_left
    · intro z hz
      obtain ⟨s1, e1⟩ := hpar x hx
      obtain ⟨s2, e2⟩ := hpar z hz
      exact parse_same e1 e2
    have hall : ∀ z ∈ ((grp md5 (macc hist) (fuzzyDigest md5 m parsed)).map MRec.ins).filter (fun z => decide (z.1 = q.ins.1)),
        ∃ t s m', z.2 = some t ∧ (s, some t) ∈ hist ∧ parse s = .ok (m', .patterns x.path) := by
      intro z hz
      have hz1 := of_decide_eq_true (List.mem_filter.mp hz).2
      obtain ⟨w, hw, rfl⟩ := List.mem_map.mp (List.mem_filter.mp hz).1
      obtain ⟨s, hs1, hs2⟩ := mem_macc.mp (mem_grp.mp hw).1
      obtain ⟨t, ht⟩ := hs _ hs1
      simp only at ht
      have hz2 : w.ps = q.ps := hz1
      have hp2 : x.path = q.ps := hp
      exact ⟨t, s, w.m, ht, ht ▸ hs1, by rw [hp2, ← hz2]; exact hs2⟩
    obtain ⟨z, hz, t, h1, h2⟩ := lastMd_some (List.ne_nil_of_mem (List.mem_filter.mpr ⟨hy, decide_eq_true rfl⟩))
      (fun z hz => by obtain ⟨t, s, m', h1, -⟩ := hall z hz; exact ⟨t, h1⟩)
    obtain ⟨t', s, m', h3, h4, h5⟩ := hall z hz
    rw [h1] at h3
    cases h3
    exact ⟨s, t, m', h4, hmd.trans h2, h5⟩

theorem lt_total {a b : Matched FullStore Str} (ha : ∀ p ∈ a.path, GoodPat p) (hb : ∀ p ∈ b.path, GoodPat p) :
    ∃ r, a.lt b = .ok r := by
  unfold Matched.lt
  split
  · exact ⟨_, rfl⟩
  · exact ⟨_, ltUp_eq (fun p hp => ha p (List.mem_reverse.mp hp)) (fun p hp => hb p (List.mem_reverse.mp hp))⟩

/-! ### sorting -/

theorem insertAsc_ok {α : Type} {lt : α → α → Py Bool} {P : α → Prop} (hlt : ∀ a b, P a → P b → ∃ r, lt a b = .ok r)
    {x : α} {l : List α} (hx : P x) (hl : ∀ y ∈ l, P y) : ∃ l', insertAsc lt x l = .ok l' ∧ List.Perm l' (x :: l) := by
  induction l with
  | nil => exact ⟨[x], rfl, .refl _⟩
  | cons y ys ih =>
    obtain ⟨r, hr⟩ := hlt x y hx (hl y (by simp))
    obtain ⟨l', h1, h2⟩ := ih (fun z hz => hl z (by simp [hz]))
    unfold insertAsc
    rw [hr]
    cases r with
    | true => exact ⟨x :: y :: ys, rfl, .refl _⟩
    | false =>
      refine ⟨y :: l', by simp [bind, Except.bind, pure, Except.pure, h1], ?_⟩
      exact (h2.cons y).trans (.swap x y ys)

theorem pySorted_ok {α : Type} {lt : α → α → Py Bool} {P : α → Prop} (hlt : ∀ a b, P a → P b → ∃ r, lt a b = .ok r)
    {l : List α} (hl : ∀ y ∈ l, P y) : ∃ l', pySorted lt l = .ok l' ∧ List.Perm l' l := by
  have key : ∀ (l acc : List α), (∀ y ∈ l, P y) → (∀ y ∈ acc, P y) →
      ∃ l', l.foldlM (fun acc x => insertAsc lt x acc) acc = .ok l' ∧ List.Perm l' (acc ++ l) := by
    intro l
    induction l with
    | nil => intro acc _ _; exact ⟨acc, rfl, by simp⟩
    | cons x l ih =>
      intro acc hl hacc
      obtain ⟨a', h1, h2⟩ := insertAsc_ok hlt (hl x (by simp)) hacc
      obtain ⟨l', h3, h4⟩ := ih a' (fun y hy => hl y (by simp [hy]))
        (fun y hy => by
          have := h2.mem_iff.mp hy
          rcases List.mem_cons.mp this with rfl | h
          · exact hl _ (by simp)
          · exact hacc y h)
      refine ⟨l', ?_, h4.trans ?_⟩
      · rw [List.foldlM_cons, h1]; exact h3
      · have h5 := h2.append_right l
        refine h5.trans ?_
        simpa using (List.perm_middle (a := x) (l₁ := acc) (l₂ := l)).symm
  obtain ⟨l', h1, h2⟩ := key l [] hl (by simp)
  exact ⟨l', h1, by simpa using h2⟩

theorem pySortedDesc_ok {α : Type} {lt : α → α → Py Bool} {P : α → Prop} (hlt : ∀ a b, P a → P b → ∃ r, lt a b = .ok r)
    {l : List α} (hl : ∀ y ∈ l, P y) : ∃ l', pySortedDesc lt l = .ok l' ∧ List.Perm l' l := by
  obtain ⟨l', h1, h2⟩ := pySorted_ok hlt (l := l.reverse) (fun y hy => hl y (List.mem_reverse.mp hy))
  refine ⟨l'.reverse, ?_, (List.reverse_perm l').trans (h2.trans (List.reverse_perm l))⟩
  unfold pySortedDesc
  rw [h1]
  rfl

/-- The last element of the insertion sort is below no other. -/
theorem insertAsc_last {α : Type} {lt : α → α → Py Bool} {P : α → Prop}
    (htr : ∀ a b c, P a → P b → P c → lt a b = .ok true → lt b c = .ok true → lt a c = .ok true)
    (has : ∀ a b, P a → P b → lt a b = .ok true → lt b a ≠ .ok true) (hir : ∀ a, P a → lt a a ≠ .ok true)
    {x : α} {l l' : List α} (hx : P x) (hl : ∀ y ∈ l, P y) (h : insertAsc lt x l = .ok l')
    (hm : ∀ z, l.getLast? = some z → ∀ y ∈ l, lt z y ≠ .ok true) :
    ∃ z, l'.getLast? = some z ∧ ∀ y ∈ l', lt z y ≠ .ok true := by
  have key : ∀ l l', (∀ y ∈ l, P y) → insertAsc lt x l = .ok l' →
      (l' = l ++ [x] ∧ ∀ y ∈ l, lt x y ≠ .ok true) ∨
      ∃ A y B, l = A ++ y :: B ∧ l' = A ++ x :: y :: B ∧ lt x y = .ok true := by
    intro l
    induction l with
    | nil => intro l' _ h; cases h; exact .inl ⟨rfl, by simp⟩
    | cons y ys ih =>
      intro l' hl h
      unfold insertAsc at h
      obtain ⟨b, hb, h⟩ := bind_ok h
      cases b with
      | true =>
        simp only [if_true, pure, Except.pure, Except.ok.injEq] at h
        exact .inr ⟨[], y, ys, rfl, h.symm, hb⟩
      | false =>
        simp only [Bool.false_eq_true, if_false] at h
        obtain ⟨r, hr, h⟩ := bind_ok h
        simp only [pure, Except.pure, Except.ok.injEq] at h
        rcases ih r (fun z hz => hl z (by simp [hz])) hr with ⟨e, hall⟩ | ⟨A, z, B, e1, e2, e3⟩
        · refine .inl ⟨by rw [← h, e]; rfl, ?_⟩
          intro z hz
          rcases List.mem_cons.mp hz with rfl | hz
          · rw [hb]; simp
          · exact hall z hz
        · exact .inr ⟨y :: A, z, B, by rw [e1]; rfl, by rw [← h, e2]; rfl, e3⟩
  rcases key l l' hl h with ⟨rfl, hall⟩ | ⟨A, y, B, rfl, rfl, hlt⟩
  · refine ⟨x, by simp, ?_⟩
    intro y hy
    rcases List.mem_append.mp hy with hy | hy
    · exact hall y hy
    · rw [List.mem_singleton.mp hy]; exact hir x hx
  · have hlast : (A ++ y :: B).getLast? = (A ++ x :: y :: B).getLast? := by
      simp [List.getLast?_append, List.getLast?_cons]
    obtain ⟨z, hz⟩ : ∃ z, (A ++ y :: B).getLast? = some z := by
      cases h : (A ++ y :: B).getLast? with
      | none => simp [List.getLast?_eq_none_iff] at h
      | some z => exact ⟨z, rfl⟩
    have hzl := List.mem_of_getLast? hz
    refine ⟨z, hlast ▸ hz, ?_⟩
    intro w hw
    have : w = x ∨ w ∈ A ++ y :: B := by
      simp only [List.mem_append, List.mem_cons] at hw ⊢
      rcases hw with hw | hw | hw | hw
      · exact .inr (.inl hw)
      · exact .inl hw
      · exact .inr (.inr (.inl hw))
      · exact .inr (.inr (.inr hw))
    rcases this with rfl | hw
    · intro hzw
      exact hm z hz y (by simp) (htr z w y (hl z hzl) hx (hl y (by simp)) hzw hlt)
    · exact hm z hz w hw

theorem pySortedDesc_first {α : Type} {lt : α → α → Py Bool} {P : α → Prop}
    (htr : ∀ a b c, P a → P b → P c → lt a b = .ok true → lt b c = .ok true → lt a c = .ok true)
    (has : ∀ a b, P a → P b → lt a b = .ok true → lt b a ≠ .ok true) (hir : ∀ a, P a → lt a a ≠ .ok true)
    (hlt : ∀ a b, P a → P b → ∃ r, lt a b = .ok r)
    {l l' : List α} (hl : ∀ y ∈ l, P y) (h : pySortedDesc lt l = .ok l') :
    ∀ z, l'.head? = some z → ∀ y ∈ l, lt z y ≠ .ok true := by
  have key : ∀ l : List α, (∀ y ∈ l, P y) → ∀ r, pySorted lt l = .ok r → ∀ z, r.getLast? = some z → ∀ y ∈ r, lt z y ≠ .ok true := by
    intro l
    refine snoc_ind (P := fun l => (∀ y ∈ l, P y) → ∀ r, pySorted lt l = .ok r → ∀ z, r.getLast? = some z →
      ∀ y ∈ r, lt z y ≠ .ok true) ?_ ?_ l
    · intro _ r h z hz
      cases h
      simp at hz
    · intro l x ih hl r h z hz
      unfold pySorted at h
      rw [List.foldlM_append] at h
      obtain ⟨acc, h1, h2⟩ := bind_ok h
      rw [List.foldlM_cons] at h2
      obtain ⟨r', h2, h3⟩ := bind_ok h2
      cases h3
      have hl0 : ∀ y ∈ l, P y := fun y hy => hl y (by simp [hy])
      obtain ⟨acc', e1, e2⟩ := pySorted_ok hlt hl0
      have : acc' = acc := by
        have e1' : List.foldlM (fun acc x => insertAsc lt x acc) [] l = .ok acc' := e1
        rw [e1'] at h1; exact Except.ok.inj h1
      subst this
      obtain ⟨z', hz', hall⟩ := insertAsc_last htr has hir (hl x (by simp)) (fun y hy => hl0 y (e2.mem_iff.mp hy)) h2
        (fun z hz => ih hl0 acc' e1 z hz)
      rw [hz] at hz'
      cases hz'
      exact hall
  intro z hz y hy
  unfold pySortedDesc at h
  obtain ⟨r, h1, h2⟩ := bind_ok h
  simp only [pure, Except.pure, Except.ok.injEq] at h2
  subst h2
  have hr : ∀ y ∈ l.reverse, P y := fun y hy => hl y (List.mem_reverse.mp hy)
  obtain ⟨r', e1, e2⟩ := pySorted_ok hlt hr
  rw [h1] at e1
  cases e1
  refine key l.reverse hr r h1 z ?_ y (e2.mem_iff.mpr (List.mem_reverse.mpr hy))
  rw [← hz, List.head?_reverse]

/-! ### bytes -/

/-- What is used of UTF-8. -/
structure Utf8 (env : Env) : Prop where
  /-- decoding is strict: the bytes can be recovered -/
  decode : ∀ b s, env.decode b = some s → env.encode s = b
  append : ∀ s t, env.encode (s ++ t) = env.encode s ++ env.encode t
  tab : env.encode ['\t'] = [9]
  nil : env.encode [] = []

/-- Byte strings separated by tabs. -/
def tabbed : List Bytes → Bytes
  | [] => []
  | [x] => x
  | x :: y :: rest => x ++ [9] ++ tabbed (y :: rest)

theorem encode_join {env : Env} (hu : Utf8 env) (ts : List Str) : env.encode (join ['\t'] ts) = tabbed (ts.map env.encode) := by
  induction ts with
  | nil => exact hu.nil
  | cons t ts ih =>
    cases ts with
    | nil => rfl
    | cons t' ts => simp only [join, hu.append, hu.tab, ih, List.map_cons, tabbed]

/-- A line of a file: the newline is at most at its end. -/
def IsLine (l : Bytes) : Prop := ∃ x, (10 : UInt8) ∉ x ∧ (l = x ∨ l = x ++ [10])

theorem isLine_drop {l : Bytes} (h : IsLine l) (p : UInt8 → Bool) : IsLine (l.dropWhile p) := by
  obtain ⟨x, hx, e⟩ := h
  have key : ∀ (x : Bytes), (10 : UInt8) ∉ x → ∀ t : Bytes, (t = [] ∨ t = [10]) → IsLine ((x ++ t).dropWhile p) := by
    intro x
    induction x with
    | nil =>
      rintro - t (rfl | rfl)
      · exact ⟨[], by simp, .inl rfl⟩
      · by_cases h : p 10 = true
        · exact ⟨[], by simp, .inl (by simp [h])⟩
        · exact ⟨[], by simp, .inr (by simp [h])⟩
    | cons c x ih =>
      intro hx t ht
      by_cases h : p c = true
      · simp only [List.cons_append, List.dropWhile_cons, h, if_true]
        exact ih (fun h => hx (by simp [h])) t ht
      · simp only [List.cons_append, List.dropWhile_cons, h]
        rcases ht with rfl | rfl
        · exact ⟨c :: x, hx, .inl (by simp)⟩
        · exact ⟨c :: x, hx, .inr (by simp)⟩
  rcases e with rfl | rfl
  · simpa using key l hx [] (.inl rfl)
  · exact key x hx [10] (.inr rfl)

theorem rstrip_no_nl {l : Bytes} (h : IsLine l) : (10 : UInt8) ∉ rstripB l := by
  obtain ⟨x, hx, e⟩ := h
  have hd : ∀ y : Bytes, (10 : UInt8) ∉ y → (10 : UInt8) ∉ y.dropWhile isSpaceB :=
    fun y hy h => hy ((List.dropWhile_sublist _).subset h)
  have hx' : (10 : UInt8) ∉ x.reverse := by simpa using hx
  unfold rstripB
  rw [List.mem_reverse]
  rcases e with rfl | rfl
  · exact hd _ hx'
  · rw [List.reverse_append]
    have : isSpaceB 10 = true := by decide
    simp only [List.reverse_cons, List.reverse_nil, List.nil_append, List.cons_append, List.dropWhile_cons, this, if_true]
    exact hd _ hx'

theorem strip_no_nl {l : Bytes} (h : IsLine l) : (10 : UInt8) ∉ stripB l := rstrip_no_nl (isLine_drop h _)

theorem tabbed_no_nl {ts : List Bytes} (h : ∀ t ∈ ts, (10 : UInt8) ∉ t) : (10 : UInt8) ∉ tabbed ts := by
  induction ts with
  | nil => simp [tabbed]
  | cons t ts ih =>
    cases ts with
    | nil => simpa [tabbed] using h t (by simp)
    | cons t' ts =>
      simp only [tabbed, List.mem_append, not_or]
      exact ⟨⟨h t (by simp), by decide⟩, ih (fun x hx => h x (by simp [hx]))⟩

/-! ### loading -/

/-- The pattern texts of the pattern files: the lines, stripped on the right, that start with `/` and
can be decoded. -/
def patternTexts (env : Env) (lines : List Bytes) : List Str :=
  lines.filterMap (fun l => if (rstripB l).head? = some 47 then env.decode (rstripB l) else none)

theorem matchLoad_eq (env : Env) (lines : List Bytes) :
    matchLoad env lines = mloadAll env.md5 ((patternTexts env lines).map (fun p => (p, some p))) := by
  refine snoc_ind (P := fun lines => matchLoad env lines = mloadAll env.md5 ((patternTexts env lines).map (fun p => (p, some p)))) ?_ ?_ lines
  · rfl
  · intro lines l ih
    unfold matchLoad at *
    rw [List.foldl_append, ih]
    simp only [List.foldl_cons, List.foldl_nil, matchLoadLine, patternTexts, List.filterMap_append, List.map_append]
    by_cases h : (rstripB l).head? = some 47
    · cases hd : env.decode (rstripB l) with
      | none => simp [h, hd]
      | some p =>
        simp only [h, hd, ne_eq, not_true_eq_false, if_false, if_true, List.filterMap_cons, List.filterMap_nil, List.map_cons,
          List.map_nil, mloadAll_concat]
        split <;> simp_all
    · simp [h]

theorem patternTexts_mem {env : Env} (hu : Utf8 env) {lines : List Bytes} {t : Str} (h : t ∈ patternTexts env lines) :
    ∃ l ∈ lines, env.encode t = rstripB l ∧ (rstripB l).head? = some 47 := by
  obtain ⟨l, hl, e⟩ := List.mem_filterMap.mp h
  split at e
  · rename_i h1
    exact ⟨l, hl, hu.decode _ _ e, h1⟩
  · cases e

/-! ### the property -/

/-- The outcome for one stripped URL line. -/
structure Outcome (env : Env) (st : PatternMatcherSt) (allMatched : Bool) (patternLines : List Bytes) (raw : Bytes)
    (res : Bytes) : Prop where
  /-- `E` exactly when the line cannot be decoded or `match` raises -/
  error : res = [69] ↔ env.decode raw = none ∨ ∃ url e, env.decode raw = some url ∧ st.match_ env.md5 url = .error e
  /-- `N` exactly when nothing matches -/
  nothing : res = [78] ↔ ∃ url, env.decode raw = some url ∧ st.match_ env.md5 url = .ok []
  /-- otherwise the lines of all results in order, separated by tabs, or the line of a result that is
  below no other; the line of a result is the one that was parsed to its pattern -/
  matched : ∀ url rs, env.decode raw = some url → st.match_ env.md5 url = .ok rs → rs ≠ [] →
    ∃ (ms : List (Matched FullStore Str)) (ts : List Str), res = tabbed (ts.map env.encode) ∧ ms.map (·.data.md) = ts.map some ∧
      (if allMatched then ms = rs else ∃ x ∈ rs, ms = [x] ∧ ∀ y ∈ rs, x.lt y = .ok false) ∧
      (∀ x ∈ ms, ∀ t, x.data.md = some t → ∃ m', parse t = .ok (m', .patterns x.path)) ∧
      ∀ t ∈ ts.map env.encode, t.head? = some 47 ∧ ∃ l ∈ patternLines, t = rstripB l

theorem tabbed_head {ts : List Bytes} (hne : ts ≠ []) (h : ∀ t ∈ ts, t.head? = some (47 : UInt8)) :
    (tabbed ts).head? = some 47 := by
  cases ts with
  | nil => exact absurd rfl hne
  | cons t ts =>
    have ht := h t (by simp)
    cases t with
    | nil => simp at ht
    | cons c t =>
      cases ts with
      | nil => simpa [tabbed] using ht
      | cons t' ts => simpa [tabbed] using ht

theorem mapM_metas {rs : List (Matched FullStore Str)} (h : ∀ x ∈ rs, ∃ t, x.data.md = some t) :
    ∃ ts : List Str, rs.mapM (fun m => match m.data.md with
      | some x => (pure x : Py Str)
      | none => .error .attributeError) = .ok ts ∧ rs.map (·.data.md) = ts.map some ∧ ∀ t ∈ ts, ∃ x ∈ rs, x.data.md = some t := by
  induction rs with
  | nil => exact ⟨[], rfl, rfl, by simp⟩
  | cons x rs ih =>
    obtain ⟨t, ht⟩ := h x (by simp)
    obtain ⟨ts, h1, h2, h3⟩ := ih (fun y hy => h y (by simp [hy]))
    refine ⟨t :: ts, ?_, by simp [h2, ht], ?_⟩
    · rw [List.mapM_cons, h1, ht]; rfl
    · intro u hu
      rcases List.mem_cons.mp hu with rfl | hu
      · exact ⟨x, by simp, ht⟩
      · obtain ⟨y, hy, e⟩ := h3 u hu
        exact ⟨y, by simp [hy], e⟩

theorem outcome_spec {env : Env} (hu : Utf8 env) (allMatched : Bool) (patternLines : List Bytes)
    (hc : NoClash env.md5 (patternTexts env patternLines)) (raw : Bytes) :
    Outcome env (matchLoad env patternLines) allMatched patternLines raw
      (let r := matchResult env (matchLoad env patternLines) allMatched raw
       if r.isEmpty then [78] else r) := by
  have hc' : NoClash env.md5 (((patternTexts env patternLines).map (fun p => (p, some p))).map (·.1)) := by
    rw [List.map_map]
    simpa [Function.comp_def] using hc
  have hsome : ∀ x ∈ (patternTexts env patternLines).map (fun p => (p, some p)), ∃ t, x.2 = some t := by
    intro x hx
    obtain ⟨p, -, rfl⟩ := List.mem_map.mp hx
    exact ⟨p, rfl⟩
  cases hd : env.decode raw with
  | none =>
    have e : matchResult env (matchLoad env patternLines) allMatched raw = [69] := by
      simp [matchResult, matchTry, hd]
    rw [e]
    refine ⟨?_, ?_, ?_⟩ <;> simp [hd]
  | some url =>
    cases hm : (matchLoad env patternLines).match_ env.md5 url with
    | error e =>
      have e : matchResult env (matchLoad env patternLines) allMatched raw = [69] := by
        simp [matchResult, matchTry, hd, hm, bind, Except.bind]
      rw [e]
      refine ⟨?_, ?_, ?_⟩
      · simp [hd, hm]
      · simp [hd, hm]
      · intro url' rs e5 e6
        rw [hd] at e5
        cases e5
        rw [hm] at e6
        cases e6
    | ok rs =>
      have hres : ∀ x ∈ rs, ∀ y ∈ rs, Results x.path y.path := by
        rw [matchLoad_eq] at hm
        exact fun x hx => (match_any hc' hsome hm hx).2.2
      have hany : ∀ x ∈ rs, (∀ p ∈ x.path, GoodPat p) ∧ ∃ t ∈ patternTexts env patternLines, x.data.md = some t ∧
          ∃ m', parse t = .ok (m', .patterns x.path) := by
        intro x hx
        rw [matchLoad_eq] at hm
        obtain ⟨h1, ⟨s, t, m', h2, h3, h4⟩, -⟩ := match_any hc' hsome hm hx
        obtain ⟨p, hp, e⟩ := List.mem_map.mp h2
        simp only [Prod.mk.injEq, Option.some.injEq] at e
        refine ⟨h1, t, ?_, h3, m', ?_⟩
        · rw [← e.2]; exact hp
        · rw [← e.2, e.1]; exact h4
      -- the chosen results
      obtain ⟨ms, e1, e2, e3⟩ : ∃ ms : List (Matched FullStore Str),
          (if allMatched then (pure rs : Py _) else do
            let s ← pySortedDesc Matched.lt rs
            pure (s.take 1)) = .ok ms ∧ (rs ≠ [] → if allMatched then ms = rs else ∃ x ∈ rs, ms = [x] ∧ ∀ y ∈ rs, x.lt y = .ok false) ∧
          ∀ x ∈ ms, x ∈ rs := by
        cases allMatched with
        | true => exact ⟨rs, rfl, fun _ => rfl, fun x h => h⟩
        | false =>
          have hlt : ∀ a b, a ∈ rs → b ∈ rs → ∃ r, Matched.lt a b = .ok r := fun a b ha hb => ⟨_, matched_lt (hres a ha b hb)⟩
          obtain ⟨l, h1, h2⟩ := pySortedDesc_ok (lt := Matched.lt) (P := fun x => x ∈ rs) hlt (fun y hy => hy)
          refine ⟨l.take 1, ?_, ?_, fun x hx => h2.mem_iff.mp (List.mem_of_mem_take hx)⟩
          · simp [h1, bind, Except.bind, pure, Except.pure]
          · intro hne
            have hmax := pySortedDesc_first (lt := Matched.lt) (P := fun x => x ∈ rs) (by
                intro a b c ha hb hc e1 e2
                rw [matched_lt (hres a ha b hb), Except.ok.injEq] at e1
                rw [matched_lt (hres b hb c hc), Except.ok.injEq] at e2
                rw [matched_lt (hres a ha c hc), ltUpB_trans (hres a ha b hb).same (hres b hb c hc).same (hres a ha c hc).same e1 e2])
              (by
                intro a b ha hb e1
                rw [matched_lt (hres a ha b hb), Except.ok.injEq] at e1
                rw [matched_lt (hres b hb a ha), ltUpB_asymm e1]; simp)
              (by
                intro a ha
                rw [matched_lt (hres a ha a ha), ltUpB_irrefl]; simp)
              hlt (fun y hy => hy) h1
            cases l with
            | nil => exact absurd (List.perm_nil.mp h2.symm) hne
            | cons z l =>
              have hz : z ∈ rs := h2.mem_iff.mp (by simp)
              refine ⟨z, hz, rfl, ?_⟩
              intro y hy
              obtain ⟨r, hr⟩ := hlt z y hz hy
              have := hmax z rfl y hy
              rw [hr] at this ⊢
              cases r
              · rfl
              · exact absurd rfl this
      obtain ⟨ts, h1, h2, h3⟩ := mapM_metas (rs := ms) (fun x hx => by
        obtain ⟨-, t, -, e, -⟩ := hany x (e3 x hx); exact ⟨t, e⟩)
      have e : matchResult env (matchLoad env patternLines) allMatched raw = tabbed (ts.map env.encode) := by
        have : matchTry env (matchLoad env patternLines) allMatched raw = .ok (env.encode (join ['\t'] ts)) := by
          unfold matchTry
          rw [hd]
          simp only [hm, bind, Except.bind]
          cases allMatched with
          | true =>
            simp only [if_true, pure, Except.pure, Except.ok.injEq] at e1
            subst e1
            simp only [if_true, pure, Except.pure] at h1 ⊢
            erw [h1]
          | false =>
            simp only [Bool.false_eq_true, if_false, bind, Except.bind, pure, Except.pure] at e1 h1 ⊢
            cases hs : pySortedDesc Matched.lt rs with
            | error e => rw [hs] at e1; cases e1
            | ok l =>
              rw [hs] at e1
              simp only [Except.ok.injEq] at e1
              subst e1
              simp only
              erw [h1]
        simp only [matchResult, this, encode_join hu]
      have hts : ∀ t ∈ ts.map env.encode, t.head? = some 47 ∧ ∃ l ∈ patternLines, t = rstripB l := by
        intro b hb
        obtain ⟨t, ht, rfl⟩ := List.mem_map.mp hb
        obtain ⟨x, hx, ex⟩ := h3 t ht
        obtain ⟨-, t', ht', ex', -⟩ := hany x (e3 x hx)
        rw [ex] at ex'
        cases ex'
        obtain ⟨l, hl, e4, e5⟩ := patternTexts_mem hu ht'
        exact ⟨by rw [e4]; exact e5, l, hl, e4⟩
      rw [e]
      by_cases hrs : rs = []
      · have hms : ms = [] := by
          rw [List.eq_nil_iff_forall_not_mem]
          intro x hx
          have := e3 x hx
          simp [hrs] at this
        have : ts = [] := by
          have := h2
          rw [hms] at this
          simpa using this
        subst this
        subst hrs
        simp only [List.map_nil, tabbed, List.isEmpty_nil, if_true]
        refine ⟨by simp [hd, hm], by simp [hd, hm], ?_⟩
        intro url' rs' e5 e6 h0
        rw [hd] at e5
        cases e5
        rw [hm] at e6
        cases e6
        exact absurd rfl h0
      · have hlr : 0 < rs.length := List.length_pos_iff.mpr hrs
        have hmsne : ms ≠ [] := by
          have := e2 hrs
          cases allMatched with
          | true => rw [this]; exact hrs
          | false =>
            obtain ⟨x, -, e, -⟩ := this
            rw [e]; simp
        have hne : ts.map env.encode ≠ [] := by
          intro h0
          apply hmsne
          have : ts = [] := by simpa using h0
          rw [this] at h2
          simpa using h2
        have hh := tabbed_head hne (fun t ht => (hts t ht).1)
        have hnn : (tabbed (ts.map env.encode)).isEmpty = false := by
          cases h : tabbed (ts.map env.encode) with
          | nil => rw [h] at hh; simp at hh
          | cons a b => rfl
        simp only [hnn, Bool.false_eq_true, if_false]
        refine ⟨?_, ?_, ?_⟩
        · constructor
          · intro h; rw [h] at hh; simp at hh
          · simp [hd, hm]
        · constructor
          · intro h; rw [h] at hh; simp at hh
          · rintro ⟨url', e5, e6⟩
            rw [hd] at e5
            cases e5
            rw [hm] at e6
            cases e6
            exact absurd rfl hrs
        · intro url' rs' e5 e6 _
          rw [hd] at e5
          cases e5
          rw [hm] at e6
          cases e6
          refine ⟨ms, ts, rfl, h2, e2 hrs, ?_, hts⟩
          intro x hx t ht
          obtain ⟨-, t', -, ex', hp'⟩ := hany x (e3 x hx)
          rw [ht] at ex'
          cases ex'
          exact hp'

/-- **C36**: the output is, for every input line in order, the outcome of this line alone, a tab, the
stripped line and a newline; nothing else contains a newline. -/
theorem C36_lines (env : Env) (hu : Utf8 env) (allMatched : Bool) (patternLines lines : List Bytes)
    (hp : ∀ l ∈ patternLines, IsLine l) (hl : ∀ l ∈ lines, IsLine l)
    (hc : NoClash env.md5 (patternTexts env patternLines)) :
    ∃ res : Bytes → Bytes,
      matchRun env allMatched patternLines lines =
        (lines.map (fun l => res (stripB l) ++ [9] ++ stripB l ++ [10])).flatten ∧
      (∀ raw, Outcome env (matchLoad env patternLines) allMatched patternLines raw (res raw)) ∧
      ∀ l ∈ lines, (10 : UInt8) ∉ res (stripB l) ∧ (10 : UInt8) ∉ stripB l := by
  refine ⟨fun raw =>
    let r := matchResult env (matchLoad env patternLines) allMatched raw
    if r.isEmpty then [78] else r, rfl, outcome_spec hu allMatched patternLines hc, ?_⟩
  intro l hlm
  refine ⟨?_, strip_no_nl (hl l hlm)⟩
  have ho := outcome_spec hu allMatched patternLines hc (stripB l)
  simp only at ho ⊢
  generalize (if (matchResult env (matchLoad env patternLines) allMatched (stripB l)).isEmpty = true then ([78] : Bytes) else
    matchResult env (matchLoad env patternLines) allMatched (stripB l)) = res at ho ⊢
  cases hd : env.decode (stripB l) with
  | none => rw [ho.error.mpr (.inl hd)]; decide
  | some url =>
    cases hm : (matchLoad env patternLines).match_ env.md5 url with
    | error e => rw [ho.error.mpr (.inr ⟨url, e, hd, hm⟩)]; decide
    | ok rs =>
      by_cases hrs : rs = []
      · subst hrs
        rw [ho.nothing.mpr ⟨url, hd, hm⟩]; decide
      · obtain ⟨ms, ts, e, -, -, -, h2⟩ := ho.matched url rs hd hm hrs
        rw [e]
        apply tabbed_no_nl
        intro t ht
        obtain ⟨-, l', hl', rfl⟩ := h2 t ht
        exact rstrip_no_nl (hp l' hl')

/-- **C36**: what is matched against: the pattern lines that start with `/` once white space is taken off
their end and that can be decoded, each loaded with itself as its meta. -/
theorem C36_patterns (env : Env) (patternLines : List Bytes) :
    matchLoad env patternLines = mloadAll env.md5 ((patternTexts env patternLines).map (fun p => (p, some p))) :=
  matchLoad_eq env patternLines

/-! ### white space -/

theorem isSpaceB_iff (b : UInt8) : isSpaceB b = true ↔ White b := by
  have key : ∀ n : Fin 256, isSpaceB (UInt8.ofNat n.val) = true ↔ White (UInt8.ofNat n.val) := by decide +kernel
  have := key ⟨b.toNat, b.toNat_lt⟩
  simpa using this

theorem dropWhile_unique {p : UInt8 → Bool} {a x : Bytes} (ha : ∀ w ∈ a, p w = true) (hx : ∀ w, x.head? = some w → p w = false) :
    (a ++ x).dropWhile p = x := by
  induction a with
  | nil =>
    cases x with
    | nil => rfl
    | cons c x => simp [hx c rfl]
  | cons c a ih =>
    rw [List.cons_append, List.dropWhile_cons, if_pos (ha c (by simp)), ih (fun w hw => ha w (by simp [hw]))]

theorem dropWhile_spec (p : UInt8 → Bool) (l : Bytes) : ∃ a, l = a ++ l.dropWhile p ∧ (∀ w ∈ a, p w = true) ∧
    ∀ w, (l.dropWhile p).head? = some w → p w = false := by
  refine ⟨l.takeWhile p, (List.takeWhile_append_dropWhile).symm, fun w hw => ?_, fun w hw => ?_⟩
  · have := List.all_takeWhile (p := p) (l := l)
    exact List.all_eq_true.mp this w hw
  · have := List.head?_dropWhile_not p l
    rw [hw] at this
    simpa using this

theorem rstrip_iff (l x : Bytes) : rstripB l = x ↔ RightStripped l x := by
  constructor
  · rintro rfl
    obtain ⟨a, h1, h2, h3⟩ := dropWhile_spec isSpaceB l.reverse
    refine ⟨⟨a.reverse, ?_, ?_⟩, ?_⟩
    · have := congrArg List.reverse h1
      rw [List.reverse_reverse, List.reverse_append] at this
      exact this
    · intro w hw
      exact (isSpaceB_iff w).mp (h2 w (by simpa using hw))
    · intro w hw
      unfold rstripB at hw
      rw [List.getLast?_reverse] at hw
      rw [← isSpaceB_iff, h3 w hw]
      simp
  · rintro ⟨⟨b, rfl, h2⟩, h3⟩
    unfold rstripB
    rw [List.reverse_append, dropWhile_unique, List.reverse_reverse]
    · intro w hw
      exact (isSpaceB_iff w).mpr (h2 w (by simpa using hw))
    · intro w hw
      rw [List.head?_reverse] at hw
      have := h3 w hw
      rw [← isSpaceB_iff] at this
      simpa using this

theorem strip_iff (l x : Bytes) : stripB l = x ↔ Stripped l x := by
  unfold stripB
  rw [rstrip_iff]
  obtain ⟨a, h1, h2, h3⟩ := dropWhile_spec isSpaceB l
  constructor
  · rintro ⟨⟨b, e, hb⟩, hx⟩
    refine ⟨⟨a, b, ?_, fun w hw => (isSpaceB_iff w).mp (h2 w hw), hb⟩, ?_, hx⟩
    · rw [List.append_assoc, ← e]; exact h1
    · intro w hw
      have : (l.dropWhile isSpaceB).head? = some w := by rw [e, List.head?_append, hw]; rfl
      rw [← isSpaceB_iff, h3 w this]
      simp
  · rintro ⟨⟨a', b', e, ha', hb'⟩, hx, hy⟩
    refine ⟨?_, hy⟩
    cases x with
    | nil =>
      refine ⟨[], ?_, by simp⟩
      have := dropWhile_unique (p := isSpaceB) (a := l) (x := []) (fun w hw => by
        rw [e, List.append_nil] at hw
        exact (isSpaceB_iff w).mpr ((List.mem_append.mp hw).elim (ha' w) (hb' w))) (by simp)
      rw [List.append_nil] at this
      rw [this]; rfl
    | cons c x =>
      refine ⟨b', ?_, hb'⟩
      rw [e, List.append_assoc, dropWhile_unique (fun w hw => (isSpaceB_iff w).mpr (ha' w hw))]
      intro w hw
      have := hx w hw
      rw [← isSpaceB_iff] at this
      simpa using this

/-- **C36**: the line is written (and decoded) without the white space at both ends; a line of a pattern file is taken without the white space at its end. -/
theorem C36_strip (l x : Bytes) : (stripB l = x ↔ Stripped l x) ∧ (rstripB l = x ↔ RightStripped l x) := ⟨strip_iff l x, rstrip_iff l x⟩

example : stripB [9, 32, 97, 32, 98, 13, 10] = [97, 32, 98] ∧ rstripB [9, 32, 97, 32, 98, 13, 10] = [9, 32, 97, 32, 98] := by decide
/-! ### UTF-8 -/

/-- Strict UTF-8 decoding. -/
def utf8Decode (b : Bytes) : Option Str := (ByteArray.utf8Decode? ⟨b.toArray⟩).map Array.toList

/-- UTF-8 encoding. -/
noncomputable def utf8Encode (s : Str) : Bytes := s.utf8Encode.data.toList

/-- The command with strict UTF-8 and given digest and hash functions. -/
noncomputable def utf8Env (md5 : Str → Str) (rt : Runtime) : Env := ⟨md5, utf8Decode, utf8Encode, rt⟩

/-- Strict UTF-8 has the properties used. -/
theorem utf8_utf8 (md5 : Str → Str) (rt : Runtime) : Utf8 (utf8Env md5 rt) := by
  refine ⟨?_, ?_, ?_, ?_⟩
  · intro b s h
    simp only [utf8Env, utf8Decode, Option.map_eq_some_iff] at h
    obtain ⟨a, h1, rfl⟩ := h
    have := ByteArray.utf8Encode_get_utf8Decode? (b := ⟨b.toArray⟩) (h := by rw [h1]; rfl)
    simp only [h1, Option.get_some] at this
    simp only [utf8Env, utf8Encode, this]
  · intro s t
    simp [utf8Env, utf8Encode, List.utf8Encode_append]
  · show utf8Encode ['\t'] = [9]
    decide
  · show utf8Encode [] = []
    decide

/-- **C36** for UTF-8. -/
theorem C36_utf8 (md5 : Str → Str) (rt : Runtime) (allMatched : Bool) (patternLines lines : List Bytes)
    (hp : ∀ l ∈ patternLines, IsLine l) (hl : ∀ l ∈ lines, IsLine l)
    (hc : NoClash md5 (patternTexts (utf8Env md5 rt) patternLines)) :
    ∃ res : Bytes → Bytes,
      matchRun (utf8Env md5 rt) allMatched patternLines lines =
        (lines.map (fun l => res (stripB l) ++ [9] ++ stripB l ++ [10])).flatten ∧
      (∀ raw, Outcome (utf8Env md5 rt) (matchLoad (utf8Env md5 rt) patternLines) allMatched patternLines raw (res raw)) ∧
      ∀ l ∈ lines, (10 : UInt8) ∉ res (stripB l) ∧ (10 : UInt8) ∉ stripB l :=
  C36_lines _ (utf8_utf8 md5 rt) allMatched patternLines lines hp hl hc

/-- ASCII bytes of a text, for the examples. -/
def asciiBytesM (s : Str) : Bytes := s.map (fun c => UInt8.ofNat c.toNat)

/-- A decoder for ASCII that the kernel evaluates quickly. -/
def asciiEnvM : Env :=
  ⟨id, fun b => if b.all (fun x => decide (x.toNat < 128)) then some (b.map (fun x => Char.ofNat x.toNat)) else none, asciiBytesM,
    inserted (fun _ => 0)⟩

/-- A match, an undecodable line, a URL that is rejected, a URL without match. -/
example : matchRun asciiEnvM false [asciiBytesM c!"/[a-z]+\n", asciiBytesM c!"/ab\n", asciiBytesM c!"#"]
      [asciiBytesM c!" http://h/ab \n", [255, 10], asciiBytesM c!"x\n", asciiBytesM c!"http://h/1"] =
    asciiBytesM c!"/ab\thttp://h/ab\n" ++ (asciiBytesM c!"E\t" ++ [255, 10]) ++ asciiBytesM c!"E\tx\nN\thttp://h/1\n" := by
  decide +kernel

/-- With all matches. -/
example : matchRun asciiEnvM true [asciiBytesM c!"/[a-z]+\n", asciiBytesM c!"/ab\n"] [asciiBytesM c!"http://h/ab"] =
    asciiBytesM c!"/ab\t/[a-z]+\thttp://h/ab\n" := by
  decide +kernel

end OsUrl
