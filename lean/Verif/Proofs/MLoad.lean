import Verif.Proofs.PatStruct
import Verif.Proofs.Stores3
import Verif.Proofs.Group
import Verif.Proofs.Load

/-! The state of a `PatternMatcher` after any history of loads. -/

namespace OsUrl
open Spec

/-! ### what `parse` returns -/

theorem parse_patterns {s : Str} {m : URLMeta} {ps : List MatchPattern} (h : parse s = .ok (m, .patterns ps)) :
    startsWith ['/'] s = true ∧ ∃ strs, analyzeUrlPatternString s = .ok (m, strs) ∧
      (strs.zipIdx 1).mapM (fun (p, i) => mkMatchPattern p (i == m.pathDepth)) = .ok ps := by
  unfold parse at h
  by_cases hs : startsWith ['/'] s = true
  · rw [if_pos hs] at h
    obtain ⟨⟨m', strs⟩, h1, h⟩ := bind_ok h
    obtain ⟨ps', h2, h⟩ := bind_ok h
    simp only [pure, Except.pure, Except.ok.injEq, Prod.mk.injEq, Parsed.patterns.injEq] at h
    obtain ⟨rfl, rfl⟩ := h
    exact ⟨hs, strs, h1, h2⟩
  · rw [if_neg hs] at h
    obtain ⟨⟨m', strs⟩, h1, h⟩ := bind_ok h
    obtain ⟨ps', h2, h⟩ := bind_ok h
    simp [pure, Except.pure] at h

theorem mapM_ok_getElem {α β : Type} {f : α → Py β} {l : List α} {bs : List β} (h : l.mapM f = .ok bs) (i : Nat) (b : β)
    (hb : bs[i]? = some b) : ∃ a, l[i]? = some a ∧ f a = .ok b := by
  induction l generalizing bs i with
  | nil => rw [mapM_ok_nil h] at hb; simp at hb
  | cons x l ih =>
    obtain ⟨b', bs', h1, h2, rfl⟩ := mapM_ok_cons h
    cases i with
    | zero => simp at hb; subst hb; exact ⟨x, by simp, h1⟩
    | succ i => simpa using ih h2 i (by simpa using hb)

/-- The patterns of a pattern string, position by position. -/
theorem parse_patterns_at {s : Str} {m : URLMeta} {ps : List MatchPattern} (h : parse s = .ok (m, .patterns ps))
    (i : Nat) (p : MatchPattern) (hp : ps[i]? = some p) :
    mkMatchPattern p.str (i + 1 == m.pathDepth) = .ok p := by
  obtain ⟨-, strs, -, h2⟩ := parse_patterns h
  obtain ⟨⟨a, j⟩, ha, hm⟩ := mapM_ok_getElem h2 i p hp
  simp only at hm
  rw [List.getElem?_zipIdx] at ha
  simp only [Option.map_eq_some_iff, Prod.mk.injEq] at ha
  obtain ⟨_, _, rfl, rfl⟩ := ha
  rw [(mkMatchPattern_good hm).1, Nat.add_comm]
  exact hm

theorem parse_patterns_strs {s : Str} {m : URLMeta} {ps : List MatchPattern} (h : parse s = .ok (m, .patterns ps)) :
    analyzeUrlPatternString s = .ok (m, ps.map (·.str)) := by
  obtain ⟨-, strs, h1, h2⟩ := parse_patterns h
  rw [h1]
  have hl := mapM_ok_length h2
  simp only [List.length_zipIdx] at hl
  have : strs = ps.map (·.str) := by
    apply List.ext_getElem?
    intro i
    rw [List.getElem?_map]
    cases hp : ps[i]? with
    | none =>
      rw [List.getElem?_eq_none_iff] at hp
      simp; omega
    | some p =>
      obtain ⟨⟨a, j⟩, ha, hm⟩ := mapM_ok_getElem h2 i p hp
      rw [List.getElem?_zipIdx] at ha
      simp only [Option.map_eq_some_iff, Prod.mk.injEq] at ha
      obtain ⟨_, h0, rfl, rfl⟩ := ha
      rw [h0, ← (mkMatchPattern_good hm).1]
      rfl
  rw [this]

theorem parse_patterns_good {s : Str} {m : URLMeta} {ps : List MatchPattern} (h : parse s = .ok (m, .patterns ps)) :
    ∀ p ∈ ps, GoodPat p := by
  intro p hp
  obtain ⟨i, hi⟩ := List.getElem?_of_mem hp
  exact (mkMatchPattern_good (parse_patterns_at h i p hi)).2.1

theorem StructP.len {m : URLMeta} {ps vs fs : List Str} (h : StructP m ps vs fs) :
    (ps ++ vs ++ fs).length = m.depth ∧ 0 < m.depth := by
  have hq := h.query.length
  have hf := h.frag
  have hd := h.depth
  have : 0 < ps.length := List.length_pos_iff.mpr h.ne
  unfold URLMeta.depth
  simp only [List.length_append]
  constructor <;> omega

theorem parse_patterns_depth {s : Str} {m : URLMeta} {ps : List MatchPattern} (h : parse s = .ok (m, .patterns ps)) :
    ps.length = m.depth ∧ 0 < m.depth := by
  obtain ⟨a, b, c, e, hs⟩ := analyzePattern_struct (parse_patterns_strs h)
  have := hs.len
  rw [← e] at this
  simpa using this

/-- The text hashed for a URL or a pattern determines its structure and fuzzy rules. -/
theorem parse_struct {s : Str} {m : URLMeta} {x : Parsed} (h : parse s = .ok (m, x)) :
    ∃ ps vs fs, x.fuzzyRules = ps ++ vs ++ fs ∧ StructW m ps vs fs := by
  cases x with
  | pieces pps =>
    obtain ⟨pieces, h1, h2⟩ := parse_pieces h
    obtain ⟨ps, vs, fs, rfl, hst⟩ := analyzeUrl_struct h1
    obtain ⟨a, b, c, e1, hs1⟩ := hst.shape (mapM_shape h2 (fun pp => pp.fuzzyRule) (fun h => fuzzyRule_shape h))
    exact ⟨a, b, c, e1, hs1.weak⟩
  | patterns ps =>
    obtain ⟨a, b, c, e, hs⟩ := analyzePattern_struct (parse_patterns_strs h)
    refine hs.wshape ⟨?_, ?_⟩
    · rw [← e]; simp [Parsed.fuzzyRules]
    · rw [← e]
      intro x hx
      simp only [Parsed.fuzzyRules] at hx
      rw [List.zip_map', List.mem_map] at hx
      obtain ⟨p, hp, rfl⟩ := hx
      exact fuzzy_of_units (parse_patterns_good h p hp).1

theorem text_inj' {s s' : Str} {m m' : URLMeta} {x x' : Parsed} (h : parse s = .ok (m, x)) (h' : parse s' = .ok (m', x'))
    (e : pack m x.fuzzyRules = pack m' x'.fuzzyRules) : m = m' ∧ x.fuzzyRules = x'.fuzzyRules := by
  obtain ⟨a, b, c, e1, hs⟩ := parse_struct h
  obtain ⟨a', b', c', e1', hs'⟩ := parse_struct h'
  rw [e1, e1'] at e ⊢
  exact pack_injW hs hs' e

/-! ### histories -/

/-- A loaded pattern: structure, piece patterns and meta. -/
structure MRec where
  m : URLMeta
  ps : List MatchPattern
  md : Option Str

/-- Its digest. -/
def MRec.sid (md5 : Str → Str) (r : MRec) : Str := fuzzyDigest md5 r.m (.patterns r.ps)

/-- The insertion it amounts to. -/
def MRec.ins (r : MRec) : MIns Str := (r.ps, r.md)

/-- The pattern strings that load. -/
def macc : List (Str × Option Str) → List MRec
  | [] => []
  | (s, md) :: rest =>
    match parse s with
    | .ok (m, .patterns ps) => ⟨m, ps, md⟩ :: macc rest
    | _ => macc rest

theorem macc_append (a b : List (Str × Option Str)) : macc (a ++ b) = macc a ++ macc b := by
  induction a with
  | nil => rfl
  | cons x xs ih =>
    obtain ⟨u, md⟩ := x
    simp only [List.cons_append, macc]
    split <;> simp [ih]

theorem mem_macc {h : List (Str × Option Str)} {r : MRec} :
    r ∈ macc h ↔ ∃ s, (s, r.md) ∈ h ∧ parse s = .ok (r.m, .patterns r.ps) := by
  induction h with
  | nil => simp [macc]
  | cons x xs ih =>
    obtain ⟨u, md⟩ := x
    simp only [macc]
    split
    · rename_i m pps e
      rw [List.mem_cons, ih]
      constructor
      · rintro (rfl | ⟨u', h1, h2⟩)
        · exact ⟨u, by simp, e⟩
        · exact ⟨u', by simp [h1], h2⟩
      · rintro ⟨u', h1, h2⟩
        rw [List.mem_cons] at h1
        rcases h1 with h1 | h1
        · injection h1 with a b
          subst a
          rw [e] at h2
          injection h2 with h2; injection h2 with h2 h3; injection h3 with h3
          left; cases r; simp_all
        · exact .inr ⟨u', h1, h2⟩
    · rename_i hno
      rw [ih]
      constructor
      · rintro ⟨u', h1, h2⟩; exact ⟨u', by simp [h1], h2⟩
      · rintro ⟨u', h1, h2⟩
        rw [List.mem_cons] at h1
        rcases h1 with h1 | h1
        · injection h1 with a b
          subst a
          exact absurd h2 (hno _ _)
        · exact ⟨u', h1, h2⟩

/-- The state after a history, ignoring the strings that are rejected. -/
def mloadAll (md5 : Str → Str) (hist : List (Str × Option Str)) : PatternMatcherSt :=
  hist.foldl (fun st x => match st.load md5 x.1 x.2 with | .ok (st', _) => st' | .error _ => st) []

theorem mloadAll_concat (md5 : Str → Str) (hist : List (Str × Option Str)) (x : Str × Option Str) :
    mloadAll md5 (hist ++ [x]) =
      match (mloadAll md5 hist).load md5 x.1 x.2 with | .ok (st', _) => st' | .error _ => mloadAll md5 hist := by
  unfold mloadAll; rw [List.foldl_append]; rfl

/-- md5 does not collide on the texts hashed for these strings. -/
def NoClash (md5 : Str → Str) (S : List Str) : Prop :=
  ∀ a ∈ S, ∀ b ∈ S, ∀ m m' x x', parse a = .ok (m, x) → parse b = .ok (m', x') →
    md5 (pack m x.fuzzyRules) = md5 (pack m' x'.fuzzyRules) → pack m x.fuzzyRules = pack m' x'.fuzzyRules

theorem NoClash.mono {md5 : Str → Str} {S S' : List Str} (h : NoClash md5 S) (hs : ∀ a ∈ S', a ∈ S) : NoClash md5 S' :=
  fun a ha b hb => h a (hs a ha) b (hs b hb)

theorem NoClash.inj {md5 : Str → Str} {S : List Str} (h : NoClash md5 S) {a b : Str} (ha : a ∈ S) (hb : b ∈ S)
    {m m' : URLMeta} {x x' : Parsed} (h1 : parse a = .ok (m, x)) (h2 : parse b = .ok (m', x')) :
    fuzzyDigest md5 m x = fuzzyDigest md5 m' x' ↔ m = m' ∧ x.fuzzyRules = x'.fuzzyRules := by
  constructor
  · intro e
    exact text_inj' h1 h2 (h a ha b hb m m' x x' h1 h2 e)
  · rintro ⟨rfl, e⟩
    unfold fuzzyDigest
    rw [e]

/-- The loads of one digest. -/
def grp (md5 : Str → Str) (acc : List MRec) (sid : Str) : List MRec := acc.filter (fun r => decide (r.sid md5 = sid))

theorem mem_grp {md5 : Str → Str} {acc : List MRec} {sid : Str} {r : MRec} :
    r ∈ grp md5 acc sid ↔ r ∈ acc ∧ r.sid md5 = sid := by
  unfold grp; rw [List.mem_filter, decide_eq_true_eq]

/-- The loads of one digest have one structure. -/
theorem grp_meta {md5 : Str → Str} {hist : List (Str × Option Str)} (hc : NoClash md5 (hist.map (·.1))) {sid : Str}
    {r r' : MRec} (h : r ∈ grp md5 (macc hist) sid) (h' : r' ∈ grp md5 (macc hist) sid) :
    r.m = r'.m ∧ r.ps.map (fun p => unitsFuzzyRule p.units) = r'.ps.map (fun p => unitsFuzzyRule p.units) := by
  obtain ⟨h1, h2⟩ := mem_grp.mp h
  obtain ⟨h1', h2'⟩ := mem_grp.mp h'
  obtain ⟨s, hs, e⟩ := mem_macc.mp h1
  obtain ⟨s', hs', e'⟩ := mem_macc.mp h1'
  exact (hc.inj (List.mem_map.mpr ⟨_, hs, rfl⟩) (List.mem_map.mpr ⟨_, hs', rfl⟩) e e').mp (h2.trans h2'.symm)

theorem rec_depth {hist : List (Str × Option Str)} {r : MRec} (h : r ∈ macc hist) :
    r.ps.length = r.m.depth ∧ 0 < r.m.depth := by
  obtain ⟨s, hs, e⟩ := mem_macc.mp h
  exact parse_patterns_depth e

theorem rec_good {hist : List (Str × Option Str)} {r : MRec} (h : r ∈ macc hist) : ∀ p ∈ r.ps, GoodPat p := by
  obtain ⟨s, hs, e⟩ := mem_macc.mp h
  exact parse_patterns_good e

/-- At one position, among loads of one structure, a text has one pattern. -/
theorem rec_coh {hist : List (Str × Option Str)} {g : List MRec} (hg : ∀ r ∈ g, r ∈ macc hist)
    (hm : ∀ r ∈ g, ∀ r' ∈ g, r.m = r'.m) : Coh (g.map MRec.ins) := by
  intro x hx y hy i p q hp hq e
  obtain ⟨r, hr, rfl⟩ := List.mem_map.mp hx
  obtain ⟨r', hr', rfl⟩ := List.mem_map.mp hy
  obtain ⟨s, hs, e1⟩ := mem_macc.mp (hg r hr)
  obtain ⟨s', hs', e2⟩ := mem_macc.mp (hg r' hr')
  have a := parse_patterns_at e1 i p hp
  have b := parse_patterns_at e2 i q hq
  rw [e, hm r hr r' hr', b] at a
  simpa using a.symm

theorem grp_coh {md5 : Str → Str} {hist : List (Str × Option Str)} (hc : NoClash md5 (hist.map (·.1))) (sid : Str) :
    Coh ((grp md5 (macc hist) sid).map MRec.ins) :=
  rec_coh (hist := hist) (fun _ hr => (mem_grp.mp hr).1) (fun _ hr _ hr' => (grp_meta hc hr hr').1)

/-- The state is the result of the loads. -/
def MState (md5 : Str → Str) (acc : List MRec) (st : PatternMatcherSt) : Prop :=
  ∀ sid, match Dict.get? sid st with
    | none => ∀ r ∈ acc, r.sid md5 ≠ sid
    | some ms => ∃ r ∈ acc, r.sid md5 = sid ∧ ms.urlMeta = r.m ∧
        T urlOps r.m.depth ((grp md5 acc sid).map MRec.ins) ms.root ms.kids

theorem mload_parse (md5 : Str → Str) (st : PatternMatcherSt) {s : Str} (md : Option Str) {m : URLMeta}
    {ps : List MatchPattern} (h : parse s = .ok (m, .patterns ps)) :
    st.load md5 s md = (do
      let sid := fuzzyDigest md5 m (.patterns ps)
      let (ms, isNew) ← ((Dict.get? sid st).getD (MatcherSt.new m)).load ps md
      return (Dict.upd sid (fun _ => ms) st, isNew)) := by
  unfold PatternMatcherSt.load; rw [h]; rfl

theorem mload_reject (md5 : Str → Str) (st : PatternMatcherSt) {s : Str} (md : Option Str)
    (h : ∀ m ps, parse s ≠ .ok (m, .patterns ps)) : ∃ e, st.load md5 s md = .error e := by
  unfold PatternMatcherSt.load
  cases hp : parse s with
  | error e => exact ⟨e, rfl⟩
  | ok x =>
    obtain ⟨m, x⟩ := x
    cases x with
    | pieces ps => exact ⟨_, rfl⟩
    | patterns pps => exact absurd hp (h m pps)

/-- Loading a pattern string that parses succeeds. -/
theorem mload_total (md5 : Str → Str) (st : PatternMatcherSt) {s : Str} (md : Option Str) {m : URLMeta}
    {ps : List MatchPattern} (h : parse s = .ok (m, .patterns ps)) : ∃ r, st.load md5 s md = .ok r := by
  rw [mload_parse md5 st md h]
  obtain ⟨hl, hpos⟩ := parse_patterns_depth h
  dsimp only
  generalize (Dict.get? (fuzzyDigest md5 m (.patterns ps)) st).getD (MatcherSt.new m) = ms
  obtain ⟨⟨d, kids, isNew⟩, hr⟩ := minsert_total (ops := urlOps) (md := md) (x := ps)
    (fun p hp => urlAdd_total (parse_patterns_good h p hp)) none ms.root ms.kids
  have hf := minsert_flag hr (.inl (by intro h0; rw [h0] at hl; simp at hl; omega))
  obtain ⟨b, rfl⟩ := Option.isSome_iff_exists.mp hf
  simp only [MatcherSt.load, hr, bind, Except.bind, pure, Except.pure]
  exact ⟨_, rfl⟩

theorem grp_concat (md5 : Str → Str) (acc : List MRec) (r : MRec) (sid : Str) :
    grp md5 (acc ++ [r]) sid = grp md5 acc sid ++ (if r.sid md5 = sid then [r] else []) := by
  unfold grp
  by_cases h : r.sid md5 = sid <;> simp [List.filter_append, h]

/-- One more load. -/
theorem mload_step (md5 : Str → Str) {hist : List (Str × Option Str)} {st : PatternMatcherSt}
    (hst : MState md5 (macc hist) st) {s : Str} {md : Option Str} {m : URLMeta} {ps : List MatchPattern}
    (h : parse s = .ok (m, .patterns ps)) (hc : NoClash md5 ((hist ++ [(s, md)]).map (·.1)))
    {st' : PatternMatcherSt} {isNew : Bool} (hload : st.load md5 s md = .ok (st', isNew)) :
    MState md5 (macc (hist ++ [(s, md)])) st' ∧
      (isNew = true ↔ ∀ r ∈ macc hist, ¬ (r.m = m ∧ r.ps = ps)) := by
  have hacc : macc (hist ++ [(s, md)]) = macc hist ++ [⟨m, ps, md⟩] := by
    rw [macc_append]; simp [macc, h]
  have hrr : (⟨m, ps, md⟩ : MRec) ∈ macc (hist ++ [(s, md)]) := by rw [hacc]; simp
  obtain ⟨hlen, hpos⟩ := parse_patterns_depth h
  have hsid : fuzzyDigest md5 m (.patterns ps) = MRec.sid md5 ⟨m, ps, md⟩ := rfl
  rw [mload_parse md5 st md h] at hload
  dsimp only at hload
  rw [hsid] at hload
  obtain ⟨⟨ms, b⟩, h1, h2⟩ := bind_ok hload
  simp only [pure, Except.pure, Except.ok.injEq, Prod.mk.injEq] at h2
  obtain ⟨rfl, rfl⟩ := h2
  have hmem : ∀ r ∈ macc hist, r ∈ macc (hist ++ [(s, md)]) := by
    intro r hr; rw [hacc]; simp [hr]
  have hgm : ∀ r ∈ grp md5 (macc hist) (MRec.sid md5 ⟨m, ps, md⟩), r.m = m := by
    intro r hr
    obtain ⟨a, e⟩ := mem_grp.mp hr
    exact (grp_meta hc (sid := MRec.sid md5 ⟨m, ps, md⟩) (mem_grp.mpr ⟨hmem r a, e⟩) (mem_grp.mpr ⟨hrr, rfl⟩)).1
  have hT : T urlOps m.depth ((grp md5 (macc hist) (MRec.sid md5 ⟨m, ps, md⟩)).map MRec.ins)
      ((Dict.get? (MRec.sid md5 ⟨m, ps, md⟩) st).getD (MatcherSt.new m)).root
      ((Dict.get? (MRec.sid md5 ⟨m, ps, md⟩) st).getD (MatcherSt.new m)).kids ∧
      ((Dict.get? (MRec.sid md5 ⟨m, ps, md⟩) st).getD (MatcherSt.new m)).urlMeta = m := by
    have := hst (MRec.sid md5 ⟨m, ps, md⟩)
    cases hk : Dict.get? (MRec.sid md5 ⟨m, ps, md⟩) st with
    | none =>
      rw [hk] at this
      simp only at this
      have e : grp md5 (macc hist) (MRec.sid md5 ⟨m, ps, md⟩) = [] := by
        rw [List.eq_nil_iff_forall_not_mem]
        intro r hr
        obtain ⟨a, b⟩ := mem_grp.mp hr
        exact this r a b
      rw [e]
      exact ⟨T.new _ _, rfl⟩
    | some ms =>
      rw [hk] at this
      obtain ⟨r, hr, e1, e2, hT⟩ := this
      have := hgm r (mem_grp.mpr ⟨hr, e1⟩)
      rw [this] at hT e2
      exact ⟨hT, e2⟩
  obtain ⟨hT, hum⟩ := hT
  have hcoh := grp_coh hc (MRec.sid md5 ⟨m, ps, md⟩)
  rw [hacc, grp_concat, if_pos rfl, List.map_append] at hcoh
  unfold MatcherSt.load at h1
  generalize (Dict.get? (MRec.sid md5 ⟨m, ps, md⟩) st).getD (MatcherSt.new m) = ms0 at h1 hT hum
  obtain ⟨⟨d, kids, fl⟩, h3, h4⟩ := bind_ok h1
  cases fl with
  | none => simp at h4
  | some fl =>
    simp only [pure, Except.pure, Except.ok.injEq, Prod.mk.injEq] at h4
    obtain ⟨rfl, rfl⟩ := h4
    have hL : ∀ y ∈ (grp md5 (macc hist) (MRec.sid md5 ⟨m, ps, md⟩)).map MRec.ins, y.1.length = m.depth := by
      intro y hy
      obtain ⟨r, hr, rfl⟩ := List.mem_map.mp hy
      have := (rec_depth (mem_grp.mp hr).1).1
      rw [hgm r hr] at this
      exact this
    obtain ⟨t1, t2, t3⟩ := minsert_T hlen hL hT hcoh h3
    have hne : ps ≠ [] := by intro h0; rw [h0] at hlen; simp at hlen; omega
    rw [if_neg hne] at t3
    simp only [Option.some.injEq] at t3
    constructor
    · intro sid
      rw [Dict.get?_upd]
      by_cases hs : sid = MRec.sid md5 ⟨m, ps, md⟩
      · subst hs
        rw [if_pos rfl]
        refine ⟨_, hrr, rfl, hum, ?_⟩
        rw [hacc, grp_concat, if_pos rfl, List.map_append]
        exact t1
      · rw [if_neg (by first | exact hs | exact fun e => hs e.symm)]
        have := hst sid
        rw [hacc]
        cases hk : Dict.get? sid st with
        | none =>
          rw [hk] at this
          intro r hr
          rw [List.mem_append, List.mem_singleton] at hr
          rcases hr with hr | rfl
          · exact this r hr
          · exact fun e => hs e.symm
        | some ms =>
          rw [hk] at this
          obtain ⟨r, hr, e1, e2, hT'⟩ := this
          refine ⟨r, by simp [hr], e1, e2, ?_⟩
          rw [grp_concat, if_neg (fun e => hs e.symm), List.append_nil]
          exact hT'
    · rw [t3, decide_eq_true_eq]
      constructor
      · intro hn r hr ⟨e1, e2⟩
        refine hn r.ins (List.mem_map.mpr ⟨r, mem_grp.mpr ⟨hr, ?_⟩, rfl⟩) e2
        unfold MRec.sid; rw [e1, e2]
      · intro hn y hy e
        obtain ⟨r, hr, rfl⟩ := List.mem_map.mp hy
        exact hn r (mem_grp.mp hr).1 ⟨hgm r hr, e⟩

/-- The state after any history. -/
theorem mloadAll_state (md5 : Str → Str) (hist : List (Str × Option Str)) (hc : NoClash md5 (hist.map (·.1))) :
    MState md5 (macc hist) (mloadAll md5 hist) := by
  revert hc
  refine snoc_ind (P := fun hist => NoClash md5 (hist.map (·.1)) → MState md5 (macc hist) (mloadAll md5 hist)) ?_ ?_ hist
  · intro _ sid; simp [mloadAll, macc, Dict.get?]
  · intro hist x ih hc
    obtain ⟨s, md⟩ := x
    have ih := ih (hc.mono (by intro a ha; rw [List.map_append]; simp [ha]))
    rw [mloadAll_concat]
    by_cases h : ∃ m ps, parse s = .ok (m, .patterns ps)
    · obtain ⟨m, ps, h⟩ := h
      obtain ⟨⟨st', b⟩, hl⟩ := mload_total md5 (mloadAll md5 hist) md h
      have := (mload_step md5 ih h hc hl).1
      simp only [hl]
      exact this
    · have h' : ∀ m ps, parse s ≠ .ok (m, .patterns ps) := fun m ps e => h ⟨m, ps, e⟩
      obtain ⟨e, he⟩ := mload_reject md5 (mloadAll md5 hist) md h'
      simp only [he]
      have : macc (hist ++ [(s, md)]) = macc hist := by
        rw [macc_append]
        have : macc [(s, md)] = [] := by
          simp only [macc]
        rw [this, List.append_nil]
      rw [this]
      exact ih

/-- The nodes a match looks at: the loads of the URL's structure and fuzzy rules. -/
theorem match_grp {md5 : Str → Str} {hist : List (Str × Option Str)} {url : Str}
    (hc : NoClash md5 (url :: hist.map (·.1))) {m : URLMeta} {pps : List ParsedPiece}
    (h : parse url = .ok (m, .pieces pps)) :
    ∃ g : List MRec, (∀ r, r ∈ g ↔ r ∈ macc hist ∧ r.m = m ∧
        r.ps.map (fun p => unitsFuzzyRule p.units) = pps.map (·.fuzzyRule)) ∧
      g = (macc hist).filter (fun r => decide (r.sid md5 = fuzzyDigest md5 m (.pieces pps))) ∧
      ((g = [] ∧ (mloadAll md5 hist).match_ md5 url = .ok []) ∨
       (g ≠ [] ∧ ∃ d kids, T urlOps m.depth (g.map MRec.ins) d kids ∧
        (mloadAll md5 hist).match_ md5 url = mmatch urlOps (pps.map some) [] d kids)) := by
  have hc' : NoClash md5 (hist.map (·.1)) := hc.mono (by simp +contextual)
  have hst := mloadAll_state md5 hist hc'
  have hmem : ∀ r, r ∈ grp md5 (macc hist) (fuzzyDigest md5 m (.pieces pps)) ↔ r ∈ macc hist ∧ r.m = m ∧
        r.ps.map (fun p => unitsFuzzyRule p.units) = pps.map (·.fuzzyRule) := by
    intro r
    rw [mem_grp]
    apply and_congr_right
    intro hr
    obtain ⟨s, hs, e⟩ := mem_macc.mp hr
    exact hc.inj (by simp; right; exact ⟨_, hs⟩) (by simp) e h
  refine ⟨grp md5 (macc hist) (fuzzyDigest md5 m (.pieces pps)), hmem, rfl, ?_⟩
  have hs := hst (fuzzyDigest md5 m (.pieces pps))
  have hm : (mloadAll md5 hist).match_ md5 url = (match Dict.get? (fuzzyDigest md5 m (.pieces pps)) (mloadAll md5 hist) with
      | none => .ok []
      | some ms => mmatch urlOps (pps.map some) [] ms.root ms.kids) := by
    unfold PatternMatcherSt.match_
    rw [h]
    rfl
  rw [hm]
  cases hk : Dict.get? (fuzzyDigest md5 m (.pieces pps)) (mloadAll md5 hist) with
  | none =>
    left
    rw [hk] at hs
    refine ⟨?_, rfl⟩
    rw [List.eq_nil_iff_forall_not_mem]
    intro r hr
    obtain ⟨a, b⟩ := mem_grp.mp hr
    exact hs r a b
  | some ms =>
    right
    rw [hk] at hs
    obtain ⟨r, hr, e1, e2, hT⟩ := hs
    have hrg := mem_grp.mpr ⟨hr, e1⟩
    refine ⟨List.ne_nil_of_mem hrg, ms.root, ms.kids, ?_, rfl⟩
    rw [((hmem r).mp hrg).2.1] at hT
    exact hT

end OsUrl
