import Verif.Proofs.SelfSel

/-! When a generated pattern is selected: the view classes. -/

namespace OsUrl
open Spec

/-! ### The class of a pattern of several units -/

def baseCls (us : List PatternUnit) : ViewCls :=
  if (us.filter (fun u => !u.isLiteral)).any (fun u => decide (u.rules.length > 1)) then .mixed
  else if (us.filter (fun u => !u.isLiteral)).isEmpty then .piece
  else .multi

def DottedU (us : List PatternUnit) : Prop :=
  ∃ a d b, us = [a, d, b] ∧ d.rules = [ruleDot] ∧ ∀ r ∈ b.rules, r ∈ digitAsciiRuleSet

theorem viewCls_dot {us : List PatternUnit} (hc : baseCls us ≠ .piece) (hd : DottedU us) : viewClsFromUnits us true = .lastDot := by
  obtain ⟨a, d, b, rfl, h1, h2⟩ := hd
  have : b.rules.all (fun r => decide (r ∈ digitAsciiRuleSet)) = true := by
    rw [List.all_eq_true]; intro r hr; simpa using h2 r hr
  unfold viewClsFromUnits
  simp only
  rw [if_pos ⟨trivial, hc, h1, this⟩]

theorem viewCls_base {us : List PatternUnit} (h2 : 2 ≤ us.length) {lp : Bool} (hd : ¬ (lp = true ∧ baseCls us ≠ .piece ∧ DottedU us)) :
    viewClsFromUnits us lp = baseCls us := by
  match us, h2 with
  | [a, b], _ => rfl
  | a :: b :: c :: d :: us, _ => rfl
  | [a, d, b], _ =>
    unfold viewClsFromUnits
    simp only
    rw [if_neg]
    · rfl
    · rintro ⟨h1, h3, h4, h5⟩
      refine hd ⟨h1, h3, a, d, b, rfl, h4, ?_⟩
      intro r hr
      simpa using List.all_eq_true.mp h5 r hr

theorem dottedU_iff {us : List GUnit} : DottedU (us.map guUnit) ↔ Dotted us := by
  constructor
  · rintro ⟨a, d, b, e, h1, h2⟩
    obtain ⟨a', r1, rfl, rfl, e1⟩ := List.map_eq_cons_iff.mp e
    obtain ⟨d', r2, rfl, rfl, e2⟩ := List.map_eq_cons_iff.mp e1
    obtain ⟨b', r3, rfl, rfl, e3⟩ := List.map_eq_cons_iff.mp e2
    rw [List.map_eq_nil_iff] at e3
    subst e3
    refine ⟨a', d', b', rfl, ?_, ?_⟩
    · have h1 : d'.spaces.map Space.text = [ruleDot] := h1
      obtain ⟨sp, r, e1, e2, e3⟩ := List.map_eq_cons_iff.mp h1
      rw [List.map_eq_nil_iff] at e3
      subst e3
      rw [e1, text_inj (e2.trans (by decide : ruleDot = (Space.sign '.').text))]
    · intro sp hsp
      exact text_mem_digitAscii_iff.mp (h2 sp.text (List.mem_map_of_mem hsp))
  · rintro ⟨a, d, b, rfl, h1, h2⟩
    refine ⟨guUnit a, guUnit d, guUnit b, rfl, ?_, ?_⟩
    · show d.spaces.map Space.text = _
      rw [h1]; decide
    · intro r hr
      obtain ⟨sp, hsp, rfl⟩ := List.mem_map.mp hr
      exact text_mem_digitAscii_iff.mpr (h2 sp hsp)

/-! ### Groups of one space -/

theorem covOK_nodup {x : GUnit × List Run} (h : CovOK x) : x.1.spaces.Nodup := by
  have key : ∀ {R : List Space}, WrittenClass R → R.Nodup := by
    intro R hR
    refine hR.sorted.imp ?_
    intro a b h e
    subst e
    exact absurd (strLt_iff.mpr h) (by rw [strLt_irrefl]; decide)
  have hv := h.written
  obtain ⟨u, g⟩ := x
  cases u with
  | run sp w => simp [GUnit.spaces]
  | cls R n => exact key hv.1
  | wild R => exact key hv

theorem one_space_run {x : GUnit × List Run} (h : CovOK x) {w : Str} (hr : Runs w x.2) : x.1.spaces.length = 1 ↔ ∃ r, x.2 = [r] := by
  constructor
  · intro hl
    obtain ⟨sp, e⟩ := List.length_eq_one_iff.mp hl
    obtain ⟨u, hu⟩ := same_space_one hr (sp := sp) (fun r hrg => by
      have := (h.spaces r.1).mpr ⟨r, hrg, rfl⟩
      rw [e] at this
      simpa using this) h.ne
    exact ⟨_, hu⟩
  · rintro ⟨r, e⟩
    have h1 : ∀ sp ∈ x.1.spaces, sp = r.1 := by
      intro sp hsp
      obtain ⟨r', hr', rfl⟩ := (h.spaces sp).mp hsp
      rw [e, List.mem_singleton] at hr'
      rw [hr']
    have h2 := nodup_len (covOK_nodup h) (l' := [r.1]) (fun sp hsp => by rw [h1 sp hsp]; simp)
    have h3 := List.length_pos_iff.mpr (written_spaces h.written)
    simp at h2
    omega

theorem singles_of {gs : List (List Run)} (h : ∀ g ∈ gs, ∃ r, g = [r]) : gs = gs.flatten.map (fun r => [r]) := by
  induction gs with
  | nil => rfl
  | cons g gs ih =>
    obtain ⟨r, rfl⟩ := h g (by simp)
    rw [List.flatten_cons, List.map_append, ← ih (fun g hg => h g (by simp [hg]))]
    rfl

/-! ### The last dot -/

theorem last_cut {a a' t t' : Str} {c : Char} (h : c ∉ t) (h' : c ∉ t') (e : a ++ c :: t = a' ++ c :: t') : t = t' := by
  rcases List.append_eq_append_iff.mp e with ⟨b, -, hb⟩ | ⟨b, -, hb⟩
  · cases b with
    | nil => simpa using hb
    | cons d b =>
      exfalso
      rw [List.cons_append, List.cons.injEq] at hb
      exact h (by rw [hb.2]; simp)
  · cases b with
    | nil => simpa using hb.symm
    | cons d b =>
      exfalso
      rw [List.cons_append, List.cons.injEq] at hb
      exact h' (by rw [hb.2]; simp)

theorem alnum_no_dot {w : Str} {g : List Run} (h : Runs w g) (ha : ∀ r ∈ g, r.1.isSign = false) : '.' ∉ w := by
  intro hm
  rw [← h.concat] at hm
  obtain ⟨u, hu, hc⟩ := List.mem_flatten.mp hm
  obtain ⟨r, hr, rfl⟩ := List.mem_map.mp hu
  have h1 := h.space r hr '.' hc
  have : space? '.' = some (.sign '.') := by decide
  rw [this] at h1
  have := ha r hr
  rw [← Option.some.inj h1] at this
  cases this

theorem shortTail_iff {s : Str} {ga gb : List Run} {x : Run} (h : Runs s (ga ++ x :: gb)) (hx : x.1 = .sign '.') (ha : ∀ r ∈ gb, r.1.isSign = false) :
    ShortTail s ↔ gb.length ≤ 2 := by
  have hb : Runs (rawOf gb) gb := runs_drop (g := ga ++ [x]) (by simpa using h)
  have hnd := alnum_no_dot hb ha
  have hxm : x ∈ ga ++ x :: gb := by simp
  have hdot : ∀ c ∈ x.2, c = '.' := by
    intro c hc
    have := h.space x hxm c hc
    rw [hx] at this
    exact space_sign this
  have hxs : ∃ d, x.2 = d ++ ['.'] := by
    rcases List.eq_nil_or_concat x.2 with e | ⟨d, c, e⟩
    · exact absurd e (h.nonempty x hxm)
    · refine ⟨d, ?_⟩
      rw [e, List.concat_eq_append, hdot c (by rw [e]; simp)]
  obtain ⟨d, hd⟩ := hxs
  have hs : s = (rawOf ga ++ d) ++ '.' :: rawOf gb := by
    rw [← h.concat]
    simp [rawOf, hd]
  constructor
  · rintro ⟨a, t, rs, e, h1, h2, h3⟩
    have := last_cut hnd h1 (hs.symm.trans e)
    rw [← this] at h2
    rw [runs_unique hb h2]; exact h3
  · intro hl
    exact ⟨_, _, gb, hs, hnd, hb, hl⟩

theorem mixG_alnum {gb : List Run} (hne : gb ≠ []) (ha : ∀ r ∈ gb, r.1.isSign = false) : MixG [gb] := by
  refine ⟨?_, neighbours_single _⟩
  intro g hg
  rw [List.mem_singleton] at hg
  subst hg
  refine ⟨hne, .inl ?_⟩
  intro r hr
  have := ha r hr
  cases hsp : r.1 with
  | sign c => rw [hsp] at this; cases this
  | digit => decide
  | lower => decide
  | upper => decide

theorem lastDot_iff {rs ga gb : List Run} {x : Run} (e : rs = ga ++ x :: gb) (hx : x.1 = .sign '.') (hne : gb ≠ []) (ha : ∀ r ∈ gb, r.1.isSign = false) :
    (gb.length ≤ 2 → lastDotPieces (ppOf rs) = [ga, [x], gb].map gpart) ∧ (¬ gb.length ≤ 2 → (lastDotPieces (ppOf rs)).length = 1) := by
  have hd : x.1.text = ruleDot := by rw [hx]; decide
  constructor
  · intro hl
    rw [e]
    exact lastDot_split hd hl (fun r hr => text_mem_digitAscii_iff.mpr (ha r hr)) (mixG_alnum hne ha) (by simp)
  · intro hl
    rcases lastDot_cases rs with h | ⟨d, r, t, gs, h1, h2, h3, -⟩
    · rw [h]; rfl
    · exfalso
      rw [e] at h1
      have hr : r ∈ gb := by
        rcases List.append_eq_append_iff.mp h1 with ⟨b, -, hb⟩ | ⟨b, -, hb⟩
        · cases b with
          | nil =>
            rw [List.nil_append, List.cons.injEq] at hb
            rw [hb.2] at hl; exact absurd h3 hl
          | cons y b =>
            rw [List.cons_append, List.cons.injEq] at hb
            rw [hb.2]; simp
        · have := congrArg List.length hb
          simp at this
          omega
      have := ha r hr
      rw [← text_mem_digitAscii_iff, h2] at this
      exact absurd this (by decide)

/-! ### Selection -/

theorem mixPat_iff {s t : Str} {cov : List (GUnit × List Run)} (h : Cov s t cov) : MixPat (cov.map (·.1)) ↔ MixG (cov.map (·.2)) := by
  have hmix : ∀ x ∈ cov, x.1.Mix ↔ AllMix x.2 := by
    intro x hx
    constructor
    · intro hm r hr
      exact hm _ (((h.ok x hx).spaces _).mpr ⟨r, hr, rfl⟩)
    · intro hm sp hsp
      obtain ⟨r, hr, rfl⟩ := ((h.ok x hx).spaces sp).mp hsp
      exact hm r hr
  have hone : ∀ x ∈ cov, x.1.spaces.length = 1 ↔ ∃ r, x.2 = [r] := fun x hx => one_space_run (h.ok x hx) (cov_runs h hx)
  constructor
  · rintro ⟨h1, h2⟩
    constructor
    · intro g hg
      obtain ⟨x, hx, rfl⟩ := List.mem_map.mp hg
      refine ⟨(h.ok x hx).ne, ?_⟩
      rcases h1 x.1 (List.mem_map_of_mem hx) with h3 | h3
      · obtain ⟨r, e⟩ := (hone x hx).mp h3
        by_cases hm : Mixable r.1.text
        · left; rw [e]; intro y hy; rw [List.mem_singleton] at hy; subst hy; exact hm
        · exact .inr ⟨r, e, hm⟩
      · exact .inl ((hmix x hx).mp h3)
    · intro a x y b e
      obtain ⟨a', r1, e1, rfl, e2⟩ := List.map_eq_append_iff.mp e
      obtain ⟨x', r2, rfl, rfl, e3⟩ := List.map_eq_cons_iff.mp e2
      obtain ⟨y', b', rfl, rfl, rfl⟩ := List.map_eq_cons_iff.mp e3
      have := h2 (a'.map (·.1)) x'.1 y'.1 (b'.map (·.1)) (by rw [e1]; simp)
      simp only at this ⊢
      rwa [hmix x' (by rw [e1]; simp), hmix y' (by rw [e1]; simp)] at this
  · intro hg
    constructor
    · intro u hu
      obtain ⟨x, hx, rfl⟩ := List.mem_map.mp hu
      rcases (hg.good x.2 (List.mem_map_of_mem hx)).2 with h1 | ⟨r, h1, -⟩
      · exact .inr ((hmix x hx).mpr h1)
      · exact .inl ((hone x hx).mpr ⟨r, h1⟩)
    · intro a x y b e
      obtain ⟨a', r1, e1, rfl, e2⟩ := List.map_eq_append_iff.mp e
      obtain ⟨x', r2, rfl, rfl, e3⟩ := List.map_eq_cons_iff.mp e2
      obtain ⟨y', b', rfl, rfl, rfl⟩ := List.map_eq_cons_iff.mp e3
      have := hg.maximal (a'.map (·.2)) x'.2 y'.2 (b'.map (·.2)) (by rw [e1]; simp)
      simp only at this ⊢
      rwa [← hmix x' (by rw [e1]; simp), ← hmix y' (by rw [e1]; simp)] at this

theorem cov_rule {s t : Str} {cov : List (GUnit × List Run)} (h : Cov s t cov) {p : MatchPattern} (hp : GoodPat p) (e : p.str = t) :
    unitsFuzzyRule p.units = (ppOf (cov.map (·.2)).flatten).fuzzyRule := by
  by_cases hne : cov = []
  · subst hne
    have hu := good_gen hp (us := []) (by simp) (by intro a x y b e; simp at e) (by rw [e, ← h.text]; rfl)
    rw [if_pos rfl] at hu
    rw [hu]
    decide
  · rw [cov_units h hp e hne, ← show (gpair _).2 = (ppOf (cov.map (·.2)).flatten).fuzzyRule by rw [gpair_ppOf]]
    show joinSorted _ = joinSorted _
    rw [joinSorted_inj ?_ (runs_rules h.runs)]
    · intro r
      simp only [List.mem_flatMap, List.mem_map, List.mem_flatten]
      constructor
      · rintro ⟨u, ⟨g, ⟨x, hx, rfl⟩, rfl⟩, hr⟩
        obtain ⟨sp, hsp, rfl⟩ := List.mem_map.mp (show r ∈ x.1.spaces.map Space.text from hr)
        obtain ⟨y, hy, rfl⟩ := ((h.ok x hx).spaces sp).mp hsp
        exact ⟨y, ⟨x.2, ⟨x, hx, rfl⟩, hy⟩, rfl⟩
      · rintro ⟨y, ⟨g, ⟨x, hx, rfl⟩, hy⟩, rfl⟩
        exact ⟨guUnit x.1, ⟨x.1, ⟨x, hx, rfl⟩, rfl⟩, List.mem_map_of_mem (f := Space.text) (((h.ok x hx).spaces y.1).mpr ⟨y, hy, rfl⟩)⟩
    · intro r hr
      obtain ⟨u, hu, hr⟩ := List.mem_flatMap.mp hr
      obtain ⟨g, hg, rfl⟩ := List.mem_map.mp hu
      obtain ⟨x, hx, rfl⟩ := List.mem_map.mp hg
      exact written_rules (h.ok x hx).written r hr

theorem selF_multi {pp : ParsedPiece} {p : MatchPattern} (h : ¬ SimpleCls p.cls) : SelF pp p ↔ SelM (viewPieces p.cls pp) p := by
  unfold SelF
  rw [if_neg h]

/-- The dotted form. -/
theorem dotted_sel {s t : Str} {cov : List (GUnit × List Run)} (h : Cov s t cov) {p : MatchPattern} (hp : GoodPat p) (e : p.str = t)
    (hc : p.cls = .lastDot) (hd : Dotted (cov.map (·.1))) : SelF (ppOf (cov.map (·.2)).flatten) p ↔ ShortTail s := by
  obtain ⟨a, d, b, e1, h1, h2⟩ := hd
  obtain ⟨xa, r1, rfl, rfl, e2⟩ := List.map_eq_cons_iff.mp e1
  obtain ⟨xd, r2, rfl, rfl, e3⟩ := List.map_eq_cons_iff.mp e2
  obtain ⟨xb, r3, rfl, rfl, e4⟩ := List.map_eq_cons_iff.mp e3
  rw [List.map_eq_nil_iff] at e4
  subst e4
  have okd := h.ok xd (by simp)
  obtain ⟨r, hr⟩ := (one_space_run okd (cov_runs h (by simp))).mp (by rw [h1]; rfl)
  have hrd : r.1 = .sign '.' := by
    have := (okd.spaces r.1).mpr ⟨r, by rw [hr]; simp, rfl⟩
    rw [h1] at this
    simpa using this
  have hbs : ∀ x ∈ xb.2, x.1.isSign = false := fun x hx => h2 x.1 (((h.ok xb (by simp)).spaces _).mpr ⟨x, hx, rfl⟩)
  have hbn : xb.2 ≠ [] := (h.ok xb (by simp)).ne
  have hfl : (([xa, xd, xb] : List (GUnit × List Run)).map (·.2)).flatten = xa.2 ++ r :: xb.2 := by simp [hr]
  have hruns := h.runs
  rw [hfl] at hruns
  rw [shortTail_iff hruns hrd hbs, selF_multi (by rw [hc]; decide), hc]
  show SelM (lastDotPieces _) p ↔ _
  obtain ⟨c1, c2⟩ := lastDot_iff hfl hrd hbn hbs
  by_cases hl : xb.2.length ≤ 2
  · refine ⟨fun _ => hl, fun _ => ?_⟩
    refine selM_groups h hp e (by simp) ?_
    rw [c1 hl]
    simp [hr]
  · refine ⟨fun hs => ?_, fun h => absurd h hl⟩
    have h3 := congrArg List.length hs.1
    rw [cov_units h hp e (by simp)] at h3
    simp only [List.length_map, c2 hl] at h3
    simp at h3

theorem found_sel {s t : Str} {cov : List (GUnit × List Run)} (h : Cov s t cov) {p : MatchPattern} (hp : GoodPat p) (e : p.str = t)
    {lp : Bool} (hcls : p.cls = viewClsFromUnits p.units lp) :
    SelF (ppOf (cov.map (·.2)).flatten) p ↔ Spec.Found (lp = true) (cov.map (·.1)) s := by
  rcases hcov : cov with _ | ⟨x, _ | ⟨y, cov'⟩⟩
  · subst hcov
    refine iff_of_true ?_ (.inl (.inl (by simp)))
    have hu := good_gen hp (us := []) (by simp) (by intro a x y b e; simp at e) (by rw [e, ← h.text]; rfl)
    rw [if_pos rfl] at hu
    rw [hu] at hcls
    have hc : p.cls = .piece := by rw [hcls]; cases lp <;> decide
    unfold SelF SelU
    rw [hc]
    rw [if_pos (by decide)]
    show _ = p.str
    rw [e, ← h.text]; rfl
  · subst hcov
    refine iff_of_true ?_ (.inl (.inl (by simp)))
    have hu := cov_units h hp e (by simp)
    rw [List.map_cons, List.map_nil, List.map_cons, List.map_nil] at hu
    have hpe : p = unitMP (guUnit x.1) := by
      obtain ⟨str, units, cls⟩ := p
      simp only at hu hcls e
      subst hu
      have e1 : str = x.1.text := by rw [e, ← h.text]; simp [patText]
      subst e1
      rw [hcls]; rfl
    have hx := cov_runs h (x := x) (by simp)
    have := part_sel (h.ok x (by simp)) (cov_valid h hp e x (by simp)) hx (vp := ppOf x.2) (vpair_ppOf _)
    unfold SelF
    rw [hpe, if_pos (unitMP_simple _)]
    simpa using this
  · rw [← hcov]
    have hne : cov ≠ [] := by rw [hcov]; simp
    have h2 : 2 ≤ cov.length := by rw [hcov]; simp
    have hu := cov_units h hp e hne
    rw [hu] at hcls
    have h2u : 2 ≤ ((cov.map (·.1)).map guUnit).length := by simpa using h2
    have hmem : ∀ u ∈ (cov.map (·.1)).map guUnit, ∃ x ∈ cov, u = guUnit x.1 := by
      intro u hu
      obtain ⟨g, hg, rfl⟩ := List.mem_map.mp hu
      obtain ⟨x, hx, rfl⟩ := List.mem_map.mp hg
      exact ⟨x, hx, rfl⟩
    by_cases hpl : ∀ x ∈ cov, x.1.spaces.length = 1
    · refine iff_of_true ?_ (.inl (.inr (by intro u hu; obtain ⟨x, hx, rfl⟩ := List.mem_map.mp hu; exact hpl x hx)))
      have hsing : ∀ g ∈ cov.map (·.2), ∃ r, g = [r] := by
        intro g hg
        obtain ⟨x, hx, rfl⟩ := List.mem_map.mp hg
        exact (one_space_run (h.ok x hx) (cov_runs h hx)).mp (hpl x hx)
      by_cases hlit : ∀ x ∈ cov, ∃ sp w, x.1 = .run sp w
      · have hc : p.cls = .piece := by
          rw [hcls]
          apply literal_cls
          intro u hu
          obtain ⟨x, hx, rfl⟩ := hmem u hu
          exact (cov_literal (h.ok x hx) (cov_valid h hp e x hx)).mpr (hlit x hx)
        unfold SelF SelU
        rw [hc, if_pos (by decide)]
        show (List.map runText _).flatten = p.str
        rw [e, ← h.text]
        unfold patText
        rw [List.map_map]
        clear hpl hsing hcls hu h2u hmem hc hcov h2 hne e
        have hok := h.ok
        clear h
        induction cov with
        | nil => rfl
        | cons x cov ih =>
          rw [List.map_cons, List.flatten_cons, List.map_append, List.flatten_append, ih (fun x hx => hlit x (by simp [hx])) (fun x hx => hok x (by simp [hx])),
            List.map_cons, List.flatten_cons]
          congr 1
          obtain ⟨sp, w, ex⟩ := hlit x (by simp)
          have hx := (hok x (by simp)).unit
          rw [ex] at hx
          have hx : x.2 = [(sp, w)] := hx
          rw [hx]
          simp only [Function.comp_apply, ex]
          simp [GUnit.text]
      · have hb2 : baseCls ((cov.map (·.1)).map guUnit) = .multi := by
          unfold baseCls
          rw [if_neg, if_neg]
          · intro hemp
            rw [List.isEmpty_iff, List.filter_eq_nil_iff] at hemp
            apply hlit
            intro x hx
            have := hemp (guUnit x.1) (List.mem_map_of_mem (List.mem_map_of_mem hx))
            exact (cov_literal (h.ok x hx) (cov_valid h hp e x hx)).mp (by simpa using this)
          · intro hany
            obtain ⟨u, hu, h3⟩ := List.any_eq_true.mp hany
            obtain ⟨x, hx, rfl⟩ := hmem u (List.mem_filter.mp hu).1
            have h3 := of_decide_eq_true h3
            have : (guUnit x.1).rules.length = x.1.spaces.length := by simp [guUnit]
            rw [this, hpl x hx] at h3
            omega
        by_cases hdot : lp = true ∧ Dotted (cov.map (·.1))
        · have hc : p.cls = .lastDot := by
            rw [hcls, hdot.1]
            exact viewCls_dot (by rw [hb2]; decide) (dottedU_iff.mpr hdot.2)
          rw [dotted_sel h hp e hc hdot.2]
          obtain ⟨a, d, b, e1, h1, h2⟩ := hdot.2
          obtain ⟨xa, r1, e0, rfl, e2⟩ := List.map_eq_cons_iff.mp e1
          obtain ⟨xd, r2, rfl, rfl, e3⟩ := List.map_eq_cons_iff.mp e2
          obtain ⟨xb, r3, rfl, rfl, e4⟩ := List.map_eq_cons_iff.mp e3
          rw [List.map_eq_nil_iff] at e4
          subst e4
          obtain ⟨rd, hrd⟩ := hsing xd.2 (by rw [e0]; simp)
          obtain ⟨rb, hrb⟩ := hsing xb.2 (by rw [e0]; simp)
          have okd := h.ok xd (by rw [e0]; simp)
          have okb := h.ok xb (by rw [e0]; simp)
          have hruns := h.runs
          rw [e0] at hruns
          have hruns : Runs s (xa.2 ++ rd :: [rb]) := by simpa [hrd, hrb] using hruns
          rw [shortTail_iff hruns]
          · simp
          · have := (okd.spaces rd.1).mpr ⟨rd, by rw [hrd]; simp, rfl⟩
            rw [h1] at this
            simpa using this
          · intro r hr
            rw [List.mem_singleton] at hr
            subst hr
            exact h2 _ ((okb.spaces _).mpr ⟨r, by rw [hrb]; simp, rfl⟩)
        · have hc : p.cls = .multi := by
            rw [hcls, viewCls_base h2u, hb2]
            rintro ⟨h1, -, h3⟩
            exact hdot ⟨h1, dottedU_iff.mp h3⟩
          rw [selF_multi (by rw [hc]; decide), hc]
          refine selM_groups h hp e hne ?_
          show multiPieces _ = _
          rw [multi_groups, ← singles_of hsing]
    · have hnp : ¬ PlainPat (cov.map (·.1)) := by
        rintro (h1 | h1)
        · rw [List.length_map] at h1; omega
        · exact hpl (fun x hx => h1 x.1 (List.mem_map_of_mem hx))
      have hb2 : baseCls ((cov.map (·.1)).map guUnit) = .mixed := by
        unfold baseCls
        rw [if_pos]
        rw [List.any_eq_true]
        simp only [Classical.not_forall] at hpl
        obtain ⟨x, hx, hl⟩ := hpl
        refine ⟨guUnit x.1, List.mem_filter.mpr ⟨List.mem_map_of_mem (List.mem_map_of_mem hx), ?_⟩, ?_⟩
        · have : ¬ (guUnit x.1).isLiteral = true := by
            rw [cov_literal (h.ok x hx) (cov_valid h hp e x hx)]
            rintro ⟨sp, w, ex⟩
            rw [ex] at hl
            exact hl rfl
          simpa using this
        · have h3 : (guUnit x.1).rules.length = x.1.spaces.length := by simp [guUnit]
          have h4 := List.length_pos_iff.mpr (written_spaces (h.ok x hx).written)
          rw [h3]
          simp only [decide_eq_true_eq]
          omega
      by_cases hdot : lp = true ∧ Dotted (cov.map (·.1))
      · have hc : p.cls = .lastDot := by
          rw [hcls, hdot.1]
          exact viewCls_dot (by rw [hb2]; decide) (dottedU_iff.mpr hdot.2)
        rw [dotted_sel h hp e hc hdot.2]
        unfold Spec.Found
        constructor
        · intro hs; exact .inr (.inl ⟨hdot.1, hdot.2, hs⟩)
        · rintro (h1 | ⟨-, -, h1⟩ | ⟨h1, -⟩)
          · exact absurd h1 hnp
          · exact h1
          · exact absurd hdot h1
      · have hc : p.cls = .mixed := by
          rw [hcls, viewCls_base h2u, hb2]
          rintro ⟨h1, -, h3⟩
          exact hdot ⟨h1, dottedU_iff.mp h3⟩
        have hl : 2 ≤ (cov.map (·.2)).flatten.length := by
          rw [hcov]
          have l1 := List.length_pos_iff.mpr (h.ok x (by rw [hcov]; simp)).ne
          have l2 := List.length_pos_iff.mpr (h.ok y (by rw [hcov]; simp)).ne
          simp only [List.map_cons, List.flatten_cons, List.length_append]
          omega
        have hF : Spec.Found (lp = true) (cov.map (·.1)) s ↔ MixPat (cov.map (·.1)) := by
          unfold Spec.Found
          constructor
          · rintro (h1 | ⟨h0, h1, -⟩ | ⟨-, h1⟩)
            · exact absurd h1 hnp
            · exact absurd ⟨h0, h1⟩ hdot
            · exact h1
          · intro h1; exact .inr (.inr ⟨hdot, h1⟩)
        rw [hF, mixPat_iff h, selF_multi (by rw [hc]; decide), hc]
        show SelM (mixedPieces _) p ↔ _
        obtain ⟨gs, g1, -, g3⟩ := mixg_exists (cov.map (·.2)).flatten
        have hview := mixed_groups hl g3 g1
        constructor
        · intro hs
          have h3 := hs.1
          rw [hview, hu, List.map_map, List.map_map, List.map_map] at h3
          have : gs = cov.map (·.2) := by
            refine mixed_same g3 ?_ h.runs g1 ?_
            · intro c hc
              obtain ⟨x, hx, rfl⟩ := List.mem_map.mp hc
              exact (h.ok x hx).ne
            · rw [List.map_map]
              have e5 : ∀ gs : List (List Run), gs.map ((fun x : ParsedPiece => x.fuzzyRule) ∘ gpart) = gs.map (fun g => (gpair g).2) := by
                intro gs
                apply List.map_congr_left
                intro g _
                exact (gpart_pair g).2
              rw [e5] at h3
              rw [h3]
              apply List.map_congr_left
              intro x hx
              exact (unit_rule (h.ok x hx) (cov_runs h hx)).symm
          rw [← this]; exact g3
        · intro hg
          refine selM_groups h hp e hne ?_
          exact mixed_groups hl hg rfl

end OsUrl
