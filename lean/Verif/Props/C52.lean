import Verif.Spec.Listed
import Verif.Proofs.MSorted
import Verif.Proofs.SelGen
import Verif.Props.C42

/-! # C52: the order in which results are listed -/

namespace OsUrl
open Spec

/-! ### the order is antisymmetric -/

theorem first_split {α : Type} {P : α → α → Prop} (hP : ∀ a, ¬ P a a) {pre pre' : List α} {p q p' q' : α} {a b a' b' x y : List α}
    (hx : x = pre ++ p :: a) (hy : y = pre ++ q :: b) (h : P p q) (hx' : y = pre' ++ p' :: a') (hy' : x = pre' ++ q' :: b')
    (h' : P p' q') : p = q' ∧ q = p' := by
  subst hx hy
  induction pre generalizing pre' with
  | nil =>
    cases pre' with
    | nil =>
      simp only [List.nil_append, List.cons.injEq] at hx' hy'
      exact ⟨hy'.1, hx'.1⟩
    | cons z pre' =>
      simp only [List.nil_append, List.cons_append, List.cons.injEq] at hx' hy'
      rw [hx'.1, hy'.1] at h
      exact absurd h (hP _)
  | cons z pre ih =>
    cases pre' with
    | nil =>
      simp only [List.nil_append, List.cons_append, List.cons.injEq] at hx' hy'
      rw [← hx'.1, ← hy'.1] at h'
      exact absurd h' (hP _)
    | cons z' pre' =>
      simp only [List.cons_append, List.cons.injEq] at hx' hy'
      exact ih hy'.2 hx'.2

theorem UnitsBefore.asymm {p q : MatchPattern} (h : UnitsBefore p q) (h' : UnitsBefore q p) : False := by
  obtain ⟨pre, u, v, a, b, e1, e2, hlt⟩ := h
  obtain ⟨pre', u', v', a', b', e3, e4, hlt'⟩ := h'
  obtain ⟨rfl, rfl⟩ := first_split (P := fun u v => viewOrder (unitCls u) < viewOrder (unitCls v)) (fun a => by simp)
    e1 e2 hlt e3 e4 hlt'
  omega

theorem PatBefore.asymm {p q : MatchPattern} (h : PatBefore p q) (h' : PatBefore q p) : False := by
  rcases h with h | ⟨h1, h2⟩ <;> rcases h' with h' | ⟨h3, h4⟩
  · omega
  · rw [h3] at h; omega
  · rw [h1] at h'; omega
  · exact h2.asymm h4

/-- `FirstDiff`, for paths. -/
def PathBefore (x y : List MatchPattern) : Prop :=
  ∃ pre p q a b, x = pre ++ p :: a ∧ y = pre ++ q :: b ∧ PatBefore p q

theorem PathBefore.asymm {x y : List MatchPattern} (h : PathBefore x y) (h' : PathBefore y x) : False := by
  obtain ⟨pre, u, v, a, b, e1, e2, hlt⟩ := h
  obtain ⟨pre', u', v', a', b', e3, e4, hlt'⟩ := h'
  obtain ⟨rfl, rfl⟩ := first_split (P := PatBefore) (fun a h => h.asymm h) e1 e2 hlt e3 e4 hlt'
  exact hlt.asymm hlt'

/-! ### the order of generated patterns -/

theorem order_rank {u v : GUnit} (hu : u.Valid) (hv : v.Valid)
    (h : viewOrder (unitCls (guUnit u)) < viewOrder (unitCls (guUnit v))) : u.rank < v.rank := by
  rw [gu_order hu, gu_order hv] at h
  have h1 := rank_le u
  have h2 := rank_le v
  revert h
  generalize u.rank = a at *
  generalize v.rank = b at *
  match a, b with
  | 0, 0 | 0, 1 | 0, 2 | 1, 0 | 1, 1 | 1, 2 | 2, 0 | 2, 1 | 2, 2 => simp
  | n + 3, _ => omega
  | _, n + 3 => omega

theorem before_gen {p q : MatchPattern} {lp : Bool} (hp : mkMatchPattern p.str lp = .ok p)
    (hq : mkMatchPattern q.str lp = .ok q) {us vs : List GUnit} (gu : Generated us) (gv : Generated vs)
    (e1 : p.str = patText us) (e2 : q.str = patText vs) (h : PatBefore p q) : ListedBefore lp us vs := by
  have c1 := gen_cls hp gu e1
  have c2 := gen_cls hq gv e2
  rcases h with h | ⟨h, pre, u, v, a, b, h1, h2, hlt⟩
  · rw [c1, c2, kindCls_order, kindCls_order] at h
    exact .inl h
  · rw [c1, c2] at h
    refine .inr ⟨kindCls_inj h, ?_⟩
    have g1 := (mkMatchPattern_good hp).2.1
    have g2 := (mkMatchPattern_good hq).2.1
    rw [good_gen g1 gu.valid gu.apart e1] at h1
    rw [good_gen g2 gv.valid gv.apart e2] at h2
    have hvs : vs ≠ [] := by
      rintro rfl
      rw [if_pos rfl] at h2
      have : v = ⟨[], [[]], 1⟩ := by
        have : v ∈ [(⟨[], [[]], 1⟩ : PatternUnit)] := by rw [h2]; simp
        simpa using this
      subst this
      have : viewOrder (unitCls ⟨[], [[]], 1⟩) = 0 := by decide
      omega
    rw [if_neg hvs] at h2
    obtain ⟨vp, vr, f1, f2, f3⟩ := List.map_eq_append_iff.mp h2
    obtain ⟨w, va, rfl, rfl, f5⟩ := List.map_eq_cons_iff.mp f3
    have hw : w.Valid := gv.valid w (by rw [f1]; simp)
    have hus : us ≠ [] := by
      rintro rfl
      have hk := kindCls_inj h
      have : w.rank = 0 := by
        refine kind_literal (lp := lp) (us := vs) ?_ w (by rw [f1]; simp)
        rw [← hk]
        rfl
      rw [gu_order hw, this] at hlt
      simp at hlt
    rw [if_neg hus] at h1
    obtain ⟨up, ur, d1, d2, d3⟩ := List.map_eq_append_iff.mp h1
    obtain ⟨x, ua, rfl, rfl, d5⟩ := List.map_eq_cons_iff.mp d3
    have hx : x.Valid := gu.valid x (by rw [d1]; simp)
    refine ⟨up, x, ua, vp, w, va, d1, f1, ?_, order_rank hx hw hlt⟩
    have := congrArg (List.map PatternUnit.str) (d2.trans f2.symm)
    simpa [List.map_map, Function.comp_def, guUnit] using this

/-! ### the list of results -/

/-- **C52**: with generated patterns loaded, of two results the one that is listed first has the same
patterns as the other up to some piece, at which its pattern comes first. -/
theorem C52_order (md5 : Str → Str) (hist : List (Str × Option Str)) (url : Str) (m : URLMeta)
    (pps : List ParsedPiece) (h : parse url = .ok (m, .pieces pps)) (hc : NoClash md5 (url :: hist.map (·.1)))
    (hg : AllGen hist) (rs : List (Matched FullStore Str)) (hm : (mloadAll md5 hist).match_ md5 url = .ok rs) :
    rs.Pairwise (fun x y => ∃ (a c d : List Str) (us vs : List GUnit), Generated us ∧ Generated vs ∧
      x.path.map (·.str) = a ++ patText us :: c ∧ y.path.map (·.str) = a ++ patText vs :: d ∧
      ListedBefore (a.length + 1 == m.pathDepth) us vs) := by
  obtain ⟨pieces, ha, hk, hpps⟩ := parse_url h
  refine (match_sorted h hk hpps hc hg hm).imp_of_mem ?_
  rintro x y hx hy ⟨pre, p, q, a, b, ex, ey, hb⟩
  obtain ⟨⟨s, md, i1, d1⟩, -⟩ := C15_structure md5 hist url m pps h hc rs hm x hx
  obtain ⟨⟨t, md', i2, d2⟩, -⟩ := C15_structure md5 hist url m pps h hc rs hm y hy
  have px : x.path[pre.length]? = some p := by rw [ex]; simp
  have py : y.path[pre.length]? = some q := by rw [ey]; simp
  obtain ⟨us, g1, g2⟩ := hg _ _ _ _ i1 d1 p (List.mem_of_getElem? px)
  obtain ⟨vs, g3, g4⟩ := hg _ _ _ _ i2 d2 q (List.mem_of_getElem? py)
  refine ⟨pre.map (·.str), a.map (·.str), b.map (·.str), us, vs, g1, g3, by rw [ex]; simp [g2], by rw [ey]; simp [g4], ?_⟩
  rw [List.length_map]
  exact before_gen (parse_patterns_at d1 _ p px) (parse_patterns_at d2 _ q py) g1 g3 g2 g4 hb

theorem same_lists {md5 : Str → Str} {hist hist' : List (Str × Option Str)} {url : Str} {m : URLMeta}
    {pps : List ParsedPiece} (hp : parse url = .ok (m, .pieces pps)) (hc : NoClash md5 (url :: hist.map (·.1)))
    (hg : AllGen hist) (hs : SameTexts hist hist') :
    ∃ rs rs', (mloadAll md5 hist).match_ md5 url = .ok rs ∧ (mloadAll md5 hist').match_ md5 url = .ok rs' ∧
      rs.map (·.path) = rs'.map (·.path) := by
  obtain ⟨pieces, ha, hk, hpps⟩ := parse_url hp
  have hc' : NoClash md5 (url :: hist'.map (·.1)) := by
    refine hc.mono ?_
    intro a ha
    rw [List.mem_cons] at ha ⊢
    refine ha.imp id ?_
    intro ha
    obtain ⟨⟨t, md⟩, hx, rfl⟩ := List.mem_map.mp ha
    obtain ⟨md', h1⟩ := (hs t).mpr ⟨md, hx⟩
    exact List.mem_map.mpr ⟨(t, md'), h1, rfl⟩
  obtain ⟨rs, rs', e, e', -⟩ := C18_order md5 hist hist' url m pps hp hc hg hs
  refine ⟨rs, rs', e, e', ?_⟩
  have hperm := C18_perm md5 hist hist' url m pps hp hc hg hs rs rs' e e'
  refine hperm.eq_of_pairwise (le := PathBefore) (fun a b _ _ h1 h2 => (h1.asymm h2).elim) ?_ ?_
  · rw [List.pairwise_map]
    exact match_sorted hp hk hpps hc hg e
  · rw [List.pairwise_map]
    exact match_sorted hp hk hpps hc' (hg.same hs) e'

/-- **C52**: two matchers that were given the same generated patterns, in any order and any number of
times, list the same patterns in the same order. -/
theorem C52_lists (md5 : Str → Str) (hist hist' : List (Str × Option Str)) (url : Str) (m : URLMeta)
    (pps : List ParsedPiece) (hp : parse url = .ok (m, .pieces pps)) (hc : NoClash md5 (url :: hist.map (·.1)))
    (hg : AllGen hist) (hs : SameTexts hist hist') :
    ∃ rs rs', (mloadAll md5 hist).match_ md5 url = .ok rs ∧ (mloadAll md5 hist').match_ md5 url = .ok rs' ∧
      rs.map (·.path) = rs'.map (·.path) := same_lists hp hc hg hs

/-! ### the command -/

/-- The meta of a result is the text it was loaded from. -/
theorem result_text {md5 : Str → Str} {texts : List Str} {url : Str} {m : URLMeta} {pps : List ParsedPiece}
    (h : parse url = .ok (m, .pieces pps)) (hc : NoClash md5 (url :: texts))
    {rs : List (Matched FullStore Str)} (hm : (mloadAll md5 (texts.map (fun p => (p, some p)))).match_ md5 url = .ok rs)
    {x : Matched FullStore Str} (hx : x ∈ rs) : ∃ t ∈ texts, x.data.md = some t ∧ parse t = .ok (m, .patterns x.path) := by
  have hc1 : NoClash md5 (url :: (texts.map (fun p => (p, some p))).map (·.1)) := by
    rw [List.map_map]
    simpa [Function.comp_def] using hc
  obtain ⟨r, hr, rm, rp, -, hmd⟩ := match_mem h hc1 hm hx
  cases e : x.data.md with
  | none =>
    rw [e] at hmd
    have := (lastMd_spec _).1 hmd.symm r.ins (List.mem_map.mpr ⟨r, List.mem_filter.mpr ⟨hr, by simp [rm, rp]⟩, rfl⟩)
    obtain ⟨s, hs, -⟩ := mem_macc.mp hr
    obtain ⟨p, -, ep⟩ := List.mem_map.mp hs
    simp only [Prod.mk.injEq] at ep
    have : r.md = none := this
    rw [this] at ep
    cases ep.2
  | some t =>
    rw [e] at hmd
    obtain ⟨A, p, B, hL, -⟩ := (lastMd_spec _).2 t hmd.symm
    have hin : (p, some t) ∈ ((macc (texts.map (fun p => (p, some p)))).filter
        (fun y => decide (y.m = m ∧ y.ps = x.path))).map MRec.ins := by rw [hL]; simp
    obtain ⟨y, hy, ey⟩ := List.mem_map.mp hin
    obtain ⟨hy1, hy2⟩ := List.mem_filter.mp hy
    have hy2 := of_decide_eq_true hy2
    obtain ⟨s', hs', es'⟩ := mem_macc.mp hy1
    have : y.md = some t := congrArg Prod.snd ey
    rw [this] at hs'
    obtain ⟨p', hp', ep'⟩ := List.mem_map.mp hs'
    simp only [Prod.mk.injEq, Option.some.injEq] at ep'
    have : s' = t := by rw [← ep'.1, ep'.2]
    rw [this, hy2.1, hy2.2] at es'
    exact ⟨t, ep'.2 ▸ hp', rfl, es'⟩

/-- No two texts are read as the same pattern. -/
def ReadApart (texts : List Str) : Prop :=
  ∀ t ∈ texts, ∀ t' ∈ texts, ∀ r, parse t = .ok r → parse t' = .ok r → t = t'

/-- The results carry the same metas. -/
theorem same_metas {texts texts' : List Str} (ht : ∀ t, t ∈ texts ↔ t ∈ texts') (ha : ReadApart texts) {m : URLMeta}
    {x y : Matched FullStore Str} (hx : ∃ t ∈ texts, x.data.md = some t ∧ parse t = .ok (m, .patterns x.path))
    (hy : ∃ t ∈ texts', y.data.md = some t ∧ parse t = .ok (m, .patterns y.path)) (e : x.path = y.path) : x.data.md = y.data.md := by
  obtain ⟨t, h1, h2, h3⟩ := hx
  obtain ⟨t', h4, h5, h6⟩ := hy
  rw [h2, h5]
  congr 1
  exact ha t h1 t' ((ht t').mpr h4) _ h3 (e ▸ h6)

theorem metas_eq {texts texts' : List Str} (ht : ∀ t, t ∈ texts ↔ t ∈ texts') (ha : ReadApart texts) {m : URLMeta}
    {ms ms' : List (Matched FullStore Str)} (hpath : ms.map (·.path) = ms'.map (·.path))
    (t1 : ∀ x ∈ ms, ∃ t ∈ texts, x.data.md = some t ∧ parse t = .ok (m, .patterns x.path))
    (t2 : ∀ x ∈ ms', ∃ t ∈ texts', x.data.md = some t ∧ parse t = .ok (m, .patterns x.path)) :
    ms.map (·.data.md) = ms'.map (·.data.md) := by
  induction ms generalizing ms' with
  | nil =>
    have : ms' = [] := by simpa using hpath.symm
    rw [this]
  | cons x ms ih =>
    cases ms' with
    | nil => simp at hpath
    | cons y ms' =>
      simp only [List.map_cons, List.cons.injEq] at hpath ⊢
      exact ⟨same_metas ht ha (t1 x (by simp)) (t2 y (by simp)) hpath.1,
        ih hpath.2 (fun z hz => t1 z (by simp [hz])) (fun z hz => t2 z (by simp [hz]))⟩

theorem result_same {env : Env} (hu : Utf8 env) (allMatched : Bool) {pats pats' : List Bytes}
    (ht : ∀ t, t ∈ patternTexts env pats ↔ t ∈ patternTexts env pats') (ha : ReadApart (patternTexts env pats))
    (hg : AllGen ((patternTexts env pats).map (fun p => (p, some p)))) {raw : Bytes}
    (hraw : ∀ url, env.decode raw = some url → startsWith ['/'] url = false ∧ NoClash env.md5 (url :: patternTexts env pats))
    (hc : NoClash env.md5 (patternTexts env pats)) :
    (let r := matchResult env (matchLoad env pats) allMatched raw; if r.isEmpty then [78] else r) =
      (let r := matchResult env (matchLoad env pats') allMatched raw; if r.isEmpty then [78] else r) := by
  have hc' : NoClash env.md5 (patternTexts env pats') := hc.mono (fun a h => (ht a).mpr h)
  have o1 := outcome_spec hu allMatched pats hc raw
  have o2 := outcome_spec hu allMatched pats' hc' raw
  generalize e1 : (let r := matchResult env (matchLoad env pats) allMatched raw; if r.isEmpty then [78] else r) = r1 at o1 ⊢
  generalize e2 : (let r := matchResult env (matchLoad env pats') allMatched raw; if r.isEmpty then [78] else r) = r2 at o2 ⊢
  cases hd : env.decode raw with
  | none => rw [o1.error.mpr (.inl hd), o2.error.mpr (.inl hd)]
  | some url =>
    obtain ⟨hsl, hcu⟩ := hraw url hd
    cases hp : parse url with
    | error e =>
      rw [o1.error.mpr (.inr ⟨url, e, hd, by simp [PatternMatcherSt.match_, hp, bind, Except.bind]⟩),
        o2.error.mpr (.inr ⟨url, e, hd, by simp [PatternMatcherSt.match_, hp, bind, Except.bind]⟩)]
    | ok r =>
      obtain ⟨m, pps, rfl⟩ : ∃ m pps, r = (m, .pieces pps) := by
        unfold parse at hp
        rw [if_neg (by simp [hsl])] at hp
        obtain ⟨⟨m, ps⟩, -, hp⟩ := bind_ok hp
        obtain ⟨pps, -, hp⟩ := bind_ok hp
        simp only [pure, Except.pure, Except.ok.injEq] at hp
        exact ⟨m, pps, hp.symm⟩
      have hc1 : NoClash env.md5 (url :: ((patternTexts env pats).map (fun p => (p, some p))).map (·.1)) := by
        rw [List.map_map]
        simpa [Function.comp_def] using hcu
      have hcu' : NoClash env.md5 (url :: patternTexts env pats') := by
        refine hcu.mono ?_
        intro a ha
        rw [List.mem_cons] at ha ⊢
        exact ha.imp id (ht a).mpr
      have hst : SameTexts ((patternTexts env pats).map (fun p => (p, some p))) ((patternTexts env pats').map (fun p => (p, some p))) := by
        intro s
        simp [ht]
      obtain ⟨rs, rs', m1, m2, hpath⟩ := same_lists hp hc1 hg hst
      have n1 : (matchLoad env pats).match_ env.md5 url = .ok rs := by rw [matchLoad_eq]; exact m1
      have n2 : (matchLoad env pats').match_ env.md5 url = .ok rs' := by rw [matchLoad_eq]; exact m2
      have t1 := fun x hx => result_text (x := x) hp hcu m1 hx
      have t2 := fun x hx => result_text (x := x) hp hcu' m2 hx
      have hmem : ∀ y ∈ rs', ∃ x ∈ rs, x.path = y.path := by
        intro y hy
        have : y.path ∈ rs.map (·.path) := by rw [hpath]; exact List.mem_map_of_mem hy
        simpa using this
      by_cases hne : rs = []
      · subst hne
        have : rs' = [] := by simpa using hpath.symm
        subst this
        rw [o1.nothing.mpr ⟨url, hd, n1⟩, o2.nothing.mpr ⟨url, hd, n2⟩]
      · have hne' : rs' ≠ [] := by
          rintro rfl
          simp at hpath
          exact hne hpath
        obtain ⟨ms, ts, a1, a2, a3, -, -⟩ := o1.matched url rs hd n1 hne
        obtain ⟨ms', ts', b1, b2, b3, -, -⟩ := o2.matched url rs' hd n2 hne'
        rw [a1, b1]
        congr 2
        have hts : ts.map some = ts'.map some := by
          rw [← a2, ← b2]
          cases allMatched with
          | true =>
            simp only [if_true] at a3 b3
            subst a3 b3
            exact metas_eq ht ha hpath t1 t2
          | false =>
            simp only [Bool.false_eq_true, if_false] at a3 b3
            obtain ⟨x, hx, rfl, hmax⟩ := a3
            obtain ⟨y, hy, rfl, hmax'⟩ := b3
            simp only [List.map_cons, List.map_nil, List.cons.injEq, and_true]
            refine same_metas ht ha (t1 x hx) (t2 y hy) ?_
            refine Classical.byContradiction fun hxy => ?_
            obtain ⟨y0, hy0, ey⟩ := hmem y hy
            obtain ⟨x0, hx0, ex⟩ : ∃ x0 ∈ rs', x0.path = x.path := by
              have : x.path ∈ rs'.map (·.path) := by rw [← hpath]; exact List.mem_map_of_mem hx
              simpa using this
            rcases C20_total env.md5 _ url m pps hp hc1 hg rs m1 x hx y0 hy0 (by rw [ey]; exact hxy) with h | h
            · rw [hmax y0 hy0] at h; cases h
            · have h2 := hmax' x0 hx0
              unfold Matched.lt at h h2
              rw [ey] at h
              rw [ex] at h2
              rw [h] at h2
              cases h2
        exact (List.map_inj_right (fun _ _ h => Option.some.inj h)).mp hts

/-- **C52**: the output of `pattern-match`, with and without `-a`, does not depend on the order of the
lines of the pattern files nor on repetitions in them. -/
theorem C52_command (env : Env) (hu : Utf8 env) (allMatched : Bool) (pats pats' lines : List Bytes)
    (ht : ∀ t, t ∈ patternTexts env pats ↔ t ∈ patternTexts env pats') (ha : ReadApart (patternTexts env pats))
    (hg : AllGen ((patternTexts env pats).map (fun p => (p, some p))))
    (hl : ∀ l ∈ lines, ∀ url, env.decode (stripB l) = some url → startsWith ['/'] url = false ∧
      NoClash env.md5 (url :: patternTexts env pats))
    (hc : NoClash env.md5 (patternTexts env pats)) :
    matchRun env allMatched pats lines = matchRun env allMatched pats' lines := by
  unfold matchRun
  congr 1
  apply List.map_congr_left
  intro l hlm
  have := result_same hu allMatched ht ha hg (hl l hlm) hc
  simp only [matchLine]
  simp only at this
  rw [this]

/-- **C52**: two lines that are read as the same pattern: the one that stands last is printed. -/
theorem C52_alike : parse c!"/a" = parse c!"//a" ∧
    matchRun asciiEnvM true [asciiBytesM c!"/a", asciiBytesM c!"//a"] [asciiBytesM c!"http://h/a"] =
      asciiBytesM c!"//a\thttp://h/a\n" ∧
    matchRun asciiEnvM true [asciiBytesM c!"//a", asciiBytesM c!"/a"] [asciiBytesM c!"http://h/a"] =
      asciiBytesM c!"/a\thttp://h/a\n" := by
  refine ⟨rfl, ?_, ?_⟩ <;> decide +kernel

/-! ### examples -/

/-- Two pattern files with the same lines. -/
example : matchRun asciiEnvM true [asciiBytesM c!"/[a-z]+\n", asciiBytesM c!"/ab\n", asciiBytesM c!"/[a-z]{2}\n"]
      [asciiBytesM c!"http://h/ab\n", asciiBytesM c!"http://h/c\n"] =
      asciiBytesM c!"/ab\t/[a-z]{2}\t/[a-z]+\thttp://h/ab\n/[a-z]+\thttp://h/c\n" ∧
    matchRun asciiEnvM true [asciiBytesM c!"/[a-z]{2}\n", asciiBytesM c!"/[a-z]+\n", asciiBytesM c!"/ab\n", asciiBytesM c!"/[a-z]+\n"]
      [asciiBytesM c!"http://h/ab\n", asciiBytesM c!"http://h/c\n"] =
      asciiBytesM c!"/ab\t/[a-z]{2}\t/[a-z]+\thttp://h/ab\n/[a-z]+\thttp://h/c\n" := by
  constructor <;> decide +kernel

/-- The results of a match, in order. -/
def listed (pats : List Str) (url : Str) : Py (List Str) := do
  let rs ← (mloadAll id (pats.map (fun p => (p, none)))).match_ id url
  return rs.map (fun x => join c!"/" (x.path.map (·.str)))

/-- One pattern of every kind, the most special first, whatever the order of loading. -/
example : listed [c!"/[0-9\\.a-z]+", c!"/[a-z]1[\\.]b", c!"/a1[\\.]b", c!"/[0-9\\.a-z]{4}", c!"/[0-9a-z]+[\\.]b"] c!"http://h/a1.b" =
    .ok [c!"a1[\\.]b", c!"[a-z]1[\\.]b", c!"[0-9a-z]+[\\.]b", c!"[0-9\\.a-z]{4}", c!"[0-9\\.a-z]+"] := by decide +kernel

/-- The first piece decides, then the second; within a kind the first unit. -/
example : listed [c!"/[a-z]+/x", c!"/a[0-9]/[a-z]+", c!"/[a-z]1/[a-z]+", c!"/a[0-9]/x", c!"/[a-z]+[0-9]/x"] c!"http://h/a1/x" =
    .ok [c!"a[0-9]/x", c!"a[0-9]/[a-z]+", c!"[a-z]1/[a-z]+", c!"[a-z]+[0-9]/x"] := by decide +kernel

end OsUrl
