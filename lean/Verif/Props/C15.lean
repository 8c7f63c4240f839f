import Verif.Proofs.MLoad

/-! # C15: a returned match has the structure of the URL -/

namespace OsUrl
open Spec

theorem match_mem {md5 : Str → Str} {hist : List (Str × Option Str)} {url : Str} {m : URLMeta} {pps : List ParsedPiece}
    (h : parse url = .ok (m, .pieces pps)) (hc : NoClash md5 (url :: hist.map (·.1)))
    {rs : List (Matched FullStore Str)} (hm : (mloadAll md5 hist).match_ md5 url = .ok rs) {x : Matched FullStore Str}
    (hx : x ∈ rs) :
    ∃ r ∈ macc hist, r.m = m ∧ r.ps = x.path ∧
      r.ps.map (fun p => unitsFuzzyRule p.units) = pps.map (·.fuzzyRule) ∧
      x.data.md = lastMd (((macc hist).filter (fun y => decide (y.m = m ∧ y.ps = x.path))).map MRec.ins) := by
  obtain ⟨g, hg, hgf, hcase⟩ := match_grp hc h
  rcases hcase with ⟨-, e⟩ | ⟨hne, d, kids, hT, e⟩
  · rw [e] at hm; simp at hm; subst hm; simp at hx
  · rw [e] at hm
    have hdep : ∀ r ∈ g, r.ps.length = m.depth ∧ 0 < m.depth := by
      intro r hr
      have := rec_depth ((hg r).mp hr).1
      rwa [((hg r).mp hr).2.1] at this
    obtain ⟨n, hn⟩ : ∃ n, m.depth = n + 1 := by
      obtain ⟨r, hr⟩ := List.exists_mem_of_ne_nil _ hne
      exact ⟨m.depth - 1, by have := hdep r hr; omega⟩
    rw [hn] at hT
    have hL : ∀ y ∈ g.map MRec.ins, y.1.length = n + 1 := by
      intro y hy
      obtain ⟨r, hr, rfl⟩ := List.mem_map.mp hy
      rw [← hn]; exact (hdep r hr).1
    have hcoh : Coh (g.map MRec.ins) := rec_coh (hist := hist) (fun r hr => ((hg r).mp hr).1)
      (fun r hr r' hr' => ((hg r).mp hr).2.1.trans ((hg r').mp hr').2.1.symm)
    obtain ⟨y, hy, hp, -, hmd⟩ := mmatch_sound hT hL hcoh hm hx
    obtain ⟨r, hr, rfl⟩ := List.mem_map.mp hy
    obtain ⟨h1, h2, h3⟩ := (hg r).mp hr
    simp only [List.nil_append] at hp
    refine ⟨r, h1, h2, hp.symm, h3, ?_⟩
    rw [hmd, List.filter_map]
    congr 2
    rw [hgf, List.filter_filter]
    apply List.filter_congr
    intro q hq
    simp only [Function.comp]
    rw [← Bool.decide_and, decide_eq_decide]
    rw [hp]
    constructor
    · rintro ⟨e1, e2⟩
      have := (hg q).mp (by rw [hgf, List.mem_filter]; exact ⟨hq, decide_eq_true e2⟩)
      exact ⟨this.2.1, e1⟩
    · rintro ⟨e1, e2⟩
      refine ⟨e2, ?_⟩
      have e2 : q.ps = r.ps := e2
      have := (hg q).mpr ⟨hq, e1, by rw [e2]; exact h3⟩
      rw [hgf, List.mem_filter] at this
      exact of_decide_eq_true this.2

/-- **C15**: every pattern returned by `match` was loaded, has the `URLMeta` of the URL and its fuzzy
rules. -/
theorem C15_structure (md5 : Str → Str) (hist : List (Str × Option Str)) (url : Str) (m : URLMeta)
    (pps : List ParsedPiece) (h : parse url = .ok (m, .pieces pps)) (hc : NoClash md5 (url :: hist.map (·.1)))
    (rs : List (Matched FullStore Str)) (hm : (mloadAll md5 hist).match_ md5 url = .ok rs)
    (x : Matched FullStore Str) (hx : x ∈ rs) :
    (∃ s md, (s, md) ∈ hist ∧ parse s = .ok (m, .patterns x.path)) ∧
      x.path.length = pps.length ∧
      ∀ (i : Nat) (p : MatchPattern) (pp : ParsedPiece), x.path[i]? = some p → pps[i]? = some pp → unitsFuzzyRule p.units = pp.fuzzyRule := by
  obtain ⟨r, hr, rfl, hp, hf, -⟩ := match_mem h hc hm hx
  obtain ⟨s, hs, e⟩ := mem_macc.mp hr
  rw [hp] at e hf
  refine ⟨⟨s, r.md, hs, e⟩, ?_, ?_⟩
  · have := congrArg List.length hf; simpa using this
  · intro i p pp h1 h2
    have := congrArg (fun l => l[i]?) hf
    simp only [List.getElem?_map, h1, h2, Option.map_some, Option.some.injEq] at this
    exact this

/-- **C15**: position by position, the character spaces that the returned pattern mentions are exactly
those of the raw piece. -/
theorem C15_spaces (md5 : Str → Str) (hist : List (Str × Option Str)) (url : Str) (m : URLMeta) (pieces : List Str)
    (pps : List ParsedPiece) (hs : startsWith ['/'] url = false) (ha : analyzeUrl url = .ok (m, pieces))
    (hp : pieces.mapM parsePiece = .ok pps) (hc : NoClash md5 (url :: hist.map (·.1)))
    (rs : List (Matched FullStore Str)) (hm : (mloadAll md5 hist).match_ md5 url = .ok rs)
    (x : Matched FullStore Str) (hx : x ∈ rs) (i : Nat) (p : MatchPattern) (s : Str)
    (h1 : x.path[i]? = some p) (h2 : pieces[i]? = some s) (sp : Space) :
    (∃ u ∈ p.units, sp.text ∈ u.rules) ↔ ∃ c ∈ s, space? c = some sp := by
  have h : parse url = .ok (m, .pieces pps) := by
    simp [parse, hs, ha, hp, bind, Except.bind, pure, Except.pure]
  obtain ⟨hk, hpps⟩ := parsePieces_ok hp
  have hks := hk s (List.mem_of_getElem? h2)
  have h3 : pps[i]? = some (ppOf (runsOf s)) := by rw [hpps, List.getElem?_map, h2]; rfl
  obtain ⟨⟨s0, md, -, e⟩, -, hf⟩ := C15_structure md5 hist url m pps h hc rs hm x hx
  have hf := hf i p _ h1 h3
  have hgood := parse_patterns_good e p (List.mem_of_getElem? h1)
  have hrw : (∃ u ∈ p.units, sp.text ∈ u.rules) ↔ sp.text ∈ p.units.flatMap (·.rules) := by
    rw [List.mem_flatMap]
  rw [hrw, ← space_mem_runs hks]
  rw [fuzzyRule_ppOf hks] at hf
  unfold unitsFuzzyRule at hf
  rcases patternUnits_form hgood.1 with ⟨e0, eu⟩ | ⟨e0, eu⟩
  · rw [eu] at hf ⊢
    have hj : joinSorted (([⟨[], [[]], 1⟩] : List PatternUnit).flatMap (·.rules)) = joinSorted ([] : List Str) := by decide
    rw [hj] at hf
    have := (joinSorted_inj (by simp) (rules_mem_ruleSet hks)).mp hf
    have hno : ∀ r, r ∉ (spacesOf s).map Space.text := fun r hr => by simpa using (this r).mpr hr
    constructor
    · intro ht
      simp at ht
      exact absurd ht (by cases sp <;> simp [Space.text]; split <;> simp)
    · intro ht
      exact absurd (List.mem_map.mpr ⟨sp, ht, rfl⟩) (hno sp.text)
  · have hall : ∀ r ∈ p.units.flatMap (·.rules), r ∈ ruleSet := by
      intro r hr
      obtain ⟨u, hu, hr⟩ := List.mem_flatMap.mp hr
      exact ((eu u hu).1.rules (eu u hu).2).1 r hr
    rw [(joinSorted_inj hall (rules_mem_ruleSet hks)).mp hf, List.mem_map]
    constructor
    · rintro ⟨sp', h1, h2⟩
      rwa [← text_inj h2]
    · intro h1; exact ⟨sp, h1, rfl⟩

theorem lastMd_spec {μ : Type} (L : List (MIns μ)) :
    (lastMd L = none → ∀ x ∈ L, x.2 = none) ∧
      ∀ v, lastMd L = some v → ∃ a p b, L = a ++ (p, some v) :: b ∧ ∀ x ∈ b, x.2 = none := by
  refine snoc_ind (P := fun L => (lastMd L = none → ∀ x ∈ L, x.2 = none) ∧
      ∀ v, lastMd L = some v → ∃ a p b, L = a ++ (p, some v) :: b ∧ ∀ x ∈ b, x.2 = none) ?_ ?_ L
  · exact ⟨by simp, by simp [lastMd]⟩
  · intro L x ih
    obtain ⟨p, md⟩ := x
    have e : lastMd (L ++ [(p, md)]) = md.or (lastMd L) := by simp [lastMd, List.foldl_append]
    rw [e]
    cases md with
    | none =>
      simp only [Option.none_or]
      refine ⟨?_, ?_⟩
      · intro h y hy
        rw [List.mem_append, List.mem_singleton] at hy
        rcases hy with hy | rfl
        · exact ih.1 h y hy
        · rfl
      · intro v hv
        obtain ⟨a, q, b, e, hb⟩ := ih.2 v hv
        refine ⟨a, q, b ++ [(p, none)], by rw [e]; simp, ?_⟩
        intro y hy
        rw [List.mem_append, List.mem_singleton] at hy
        rcases hy with hy | rfl
        · exact hb y hy
        · rfl
    | some w =>
      simp only [Option.some_or]
      refine ⟨by simp, ?_⟩
      intro v hv
      simp at hv
      subst hv
      exact ⟨L, p, [], rfl, by simp⟩

theorem macc_split {hist : List (Str × Option Str)} {a b : List MRec} {r : MRec} (h : macc hist = a ++ r :: b) :
    ∃ ha s hb, hist = ha ++ (s, r.md) :: hb ∧ parse s = .ok (r.m, .patterns r.ps) ∧ macc hb = b := by
  induction hist generalizing a with
  | nil => simp [macc] at h
  | cons x xs ih =>
    obtain ⟨u, md⟩ := x
    simp only [macc] at h
    split at h
    · rename_i m ps e
      cases a with
      | nil =>
        simp only [List.nil_append, List.cons.injEq] at h
        obtain ⟨rfl, rfl⟩ := h
        exact ⟨[], u, xs, rfl, e, rfl⟩
      | cons r0 a =>
        simp only [List.cons_append, List.cons.injEq] at h
        obtain ⟨ha, s, hb, e1, e2, e3⟩ := ih h.2
        exact ⟨(u, md) :: ha, s, hb, by rw [e1]; rfl, e2, e3⟩
    · obtain ⟨ha, s, hb, e1, e2, e3⟩ := ih h
      exact ⟨(u, md) :: ha, s, hb, by rw [e1]; rfl, e2, e3⟩

theorem filter_split {α : Type} {f : α → Bool} {l a b : List α} {x : α} (h : l.filter f = a ++ x :: b) :
    ∃ c d, l = c ++ x :: d ∧ d.filter f = b := by
  induction l generalizing a with
  | nil => simp at h
  | cons y l ih =>
    rw [List.filter_cons] at h
    split at h
    · cases a with
      | nil =>
        simp only [List.nil_append, List.cons.injEq] at h
        obtain ⟨rfl, rfl⟩ := h
        exact ⟨[], l, rfl, rfl⟩
      | cons z a =>
        simp only [List.cons_append, List.cons.injEq] at h
        obtain ⟨c, d, e1, e2⟩ := ih h.2
        exact ⟨y :: c, d, by rw [e1]; rfl, e2⟩
    · obtain ⟨c, d, e1, e2⟩ := ih h
      exact ⟨y :: c, d, by rw [e1]; rfl, e2⟩

/-- **C15**: the meta of a result is the last one, not `None`, loaded with that pattern. -/
theorem C15_meta (md5 : Str → Str) (hist : List (Str × Option Str)) (url : Str) (m : URLMeta)
    (pps : List ParsedPiece) (h : parse url = .ok (m, .pieces pps)) (hc : NoClash md5 (url :: hist.map (·.1)))
    (rs : List (Matched FullStore Str)) (hm : (mloadAll md5 hist).match_ md5 url = .ok rs)
    (x : Matched FullStore Str) (hx : x ∈ rs) :
    (x.data.md = none → ∀ s md, (s, md) ∈ hist → parse s = .ok (m, .patterns x.path) → md = none) ∧
    (∀ v, x.data.md = some v → ∃ a s b, hist = a ++ (s, some v) :: b ∧ parse s = .ok (m, .patterns x.path) ∧
      ∀ s' md', (s', md') ∈ b → parse s' = .ok (m, .patterns x.path) → md' = none) := by
  obtain ⟨r, hr, rfl, hp, hf, hmd⟩ := match_mem h hc hm hx
  obtain ⟨h1, h2⟩ := lastMd_spec (((macc hist).filter (fun y : MRec => decide (y.m = r.m ∧ y.ps = x.path))).map MRec.ins)
  rw [← hmd] at h1 h2
  constructor
  · intro hn s md hs e
    have : (⟨r.m, x.path, md⟩ : MRec) ∈ macc hist := mem_macc.mpr ⟨s, hs, e⟩
    exact h1 hn _ (List.mem_map.mpr ⟨_, List.mem_filter.mpr ⟨this, by simp⟩, rfl⟩)
  · intro v hv
    obtain ⟨a, p, b, e, hb⟩ := h2 v hv
    obtain ⟨a', q, e1, rfl, e2⟩ := List.map_eq_append_iff.mp e
    obtain ⟨r1, b', rfl, e3, rfl⟩ := List.map_eq_cons_iff.mp e2
    have hr1 : r1.m = r.m ∧ r1.ps = x.path := by
      have : r1 ∈ (macc hist).filter (fun y => decide (y.m = r.m ∧ y.ps = x.path)) := by rw [e1]; simp
      exact of_decide_eq_true (List.mem_filter.mp this).2
    obtain ⟨c, d, e4, e5⟩ := filter_split e1
    obtain ⟨ha, s, hb', e6, e7, e8⟩ := macc_split e4
    have hmd1 : r1.md = some v := by have := congrArg Prod.snd e3; exact this
    refine ⟨ha, s, hb', by rw [← hmd1]; exact e6, by rw [← hr1.1, ← hr1.2]; exact e7, ?_⟩
    intro s' md' hs' e'
    have h9 : (⟨r.m, x.path, md'⟩ : MRec) ∈ macc hb' := mem_macc.mpr ⟨s', hs', e'⟩
    rw [e8] at h9
    refine hb _ (List.mem_map.mpr ⟨⟨r.m, x.path, md'⟩, ?_, rfl⟩)
    rw [← e5]
    exact List.mem_filter.mpr ⟨h9, by simp⟩

/-- Two patterns of the URL's structure are returned, the others are not; the first was loaded twice. -/
example : ((mloadAll id [(c!"/[a-z]{2}/[0-9]+", some c!"1"), (c!"/[a-z]+/[0-9]+", none), (c!"/[a-z]+", none),
      (c!"/[a-z]{2}/[0-9]+", some c!"2"), (c!"/[a-z]+/[0-9][\\?]k=1", none), (c!"nonsense", none),
      (c!"/[0-9a-z]+/[0-9]+", none)]).match_ id c!"http://h/ab/77").map
        (fun rs => rs.map (fun x => (x.path.map (·.str), x.data.md))) =
    .ok [([c!"[a-z]{2}", c!"[0-9]+"], some c!"2"), ([c!"[a-z]+", c!"[0-9]+"], none)] := by decide +kernel

end OsUrl
