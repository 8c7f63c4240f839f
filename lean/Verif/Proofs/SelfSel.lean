import Verif.Proofs.Cover

/-! When a generated pattern is selected for a piece it stands over. -/

namespace OsUrl
open Spec

/-! ### Groups with the same spaces -/

theorem gpair_spaces {w w' : Str} {g g' : List Run} (h : Runs w g) (h' : Runs w' g') (e : (gpair g).2 = (gpair g').2) (sp : Space) :
    (∃ r ∈ g, r.1 = sp) ↔ ∃ r ∈ g', r.1 = sp := by
  have := (joinSorted_inj (runs_rules h) (runs_rules h')).mp e
  have key : ∀ {g : List Run}, (∃ r ∈ g, r.1 = sp) ↔ sp.text ∈ g.map (fun r => r.1.text) := by
    intro g
    rw [List.mem_map]
    constructor
    · rintro ⟨r, hr, rfl⟩; exact ⟨r, hr, rfl⟩
    · rintro ⟨r, hr, e⟩; exact ⟨r, hr, text_inj e⟩
  rw [key, key, this]

/-- The mixed groups are told by their rules. -/
theorem mixed_same {gs cs : List (List Run)} {s : Str} (hg : MixG gs) (hc : ∀ c ∈ cs, c ≠ []) (hr : Runs s cs.flatten) (hf : gs.flatten = cs.flatten)
    (he : gs.map (fun g => (gpair g).2) = cs.map (fun g => (gpair g).2)) : gs = cs := by
  induction gs generalizing cs s with
  | nil =>
    cases cs with
    | nil => rfl
    | cons _ _ => simp at he
  | cons g gs ih =>
    cases cs with
    | nil => simp at he
    | cons c cs =>
      rw [List.map_cons, List.map_cons, List.cons.injEq] at he
      rw [List.flatten_cons, List.flatten_cons] at hf
      have hrg : Runs s (g ++ gs.flatten) := by rw [hf]; simpa using hr
      rw [List.flatten_cons] at hr
      have hsp := gpair_spaces (runs_take hrg) (runs_take hr) he.1
      have hgood := hg.good g (by simp)
      have hcne := hc c (by simp)
      rcases List.append_eq_append_iff.mp hf with ⟨a, ha, hb⟩ | ⟨a, ha, hb⟩
      · cases a with
        | nil =>
          rw [List.append_nil] at ha
          subst ha
          rw [List.nil_append] at hb
          rw [ih hg.tail (fun x hx => hc x (by simp [hx])) (runs_drop hr) hb he.2]
        | cons r a =>
          exfalso
          rcases hgood.2 with hm | ⟨r0, rfl, hm⟩
          · obtain ⟨x, hx, e⟩ := (hsp r.1).mpr ⟨r, by rw [ha]; simp, rfl⟩
            have hmr : Mixable r.1.text := by rw [← e]; exact hm x hx
            cases gs with
            | nil => simp at hb
            | cons g2 gs =>
              have h2 := (hg.good g2 (by simp)).1
              cases g2 with
              | nil => exact h2 rfl
              | cons y g2 =>
                rw [List.flatten_cons, List.cons_append, List.cons_append, List.cons.injEq] at hb
                refine hg.maximal [] g (y :: g2) gs rfl ⟨hm, hg.allMix (by simp) (r := y) (by simp) ?_⟩
                rw [hb.1]; exact hmr
          · obtain ⟨u, hu⟩ := same_space_one (runs_take hr) (sp := r0.1) (fun x hx => by
              obtain ⟨y, hy, e⟩ := (hsp x.1).mpr ⟨x, hx, rfl⟩
              rw [List.mem_singleton] at hy
              subst hy
              exact e.symm) hcne
            rw [hu] at ha
            simp at ha
      · cases a with
        | nil =>
          rw [List.append_nil] at ha
          subst ha
          rw [List.nil_append] at hb
          rw [ih hg.tail (fun x hx => hc x (by simp [hx])) (runs_drop hr) hb.symm he.2]
        | cons r a =>
          exfalso
          have hm : AllMix g := by
            rcases hgood.2 with hm | ⟨r0, e0, -⟩
            · exact hm
            · exfalso
              rw [e0] at ha
              cases c with
              | nil => exact hcne rfl
              | cons _ c => simp at ha
          have hmr : Mixable r.1.text := hm r (by rw [ha]; simp)
          cases cs with
          | nil => simp at hb
          | cons c2 cs =>
            have h2 := hc c2 (by simp)
            cases gs with
            | nil => simp at he
            | cons g2 gs =>
              cases c2 with
              | nil => exact h2 rfl
              | cons y c2 =>
                rw [List.map_cons, List.map_cons, List.cons.injEq] at he
                have e2 := he.2.1
                rw [List.flatten_cons, List.cons_append, List.cons_append, List.cons.injEq] at hb
                have hr2 := runs_drop hr
                rw [List.flatten_cons] at hr2
                have hrg2 := runs_drop hrg
                rw [List.flatten_cons] at hrg2
                obtain ⟨x, hx, e⟩ := (gpair_spaces (runs_take hrg2) (runs_take hr2) e2 y.1).mpr ⟨y, by simp, rfl⟩
                refine hg.maximal [] g g2 gs rfl ⟨hm, hg.allMix (by simp) hx ?_⟩
                rw [e, hb.1]; exact hmr

/-! ### Units -/

theorem cov_apart {s t : Str} {cov : List (GUnit × List Run)} (h : Cov s t cov) : Neighbours GUnit.Differ (cov.map (·.1)) := by
  intro a x y b e
  obtain ⟨a', r1, e1, rfl, e2⟩ := List.map_eq_append_iff.mp e
  obtain ⟨x', r2, rfl, rfl, e3⟩ := List.map_eq_cons_iff.mp e2
  obtain ⟨y', b', rfl, rfl, rfl⟩ := List.map_eq_cons_iff.mp e3
  have hx := h.ok x' (by rw [e1]; simp)
  have hy := h.ok y' (by rw [e1]; simp)
  obtain ⟨ux, gx⟩ := x'
  obtain ⟨uy, gy⟩ := y'
  cases ux with
  | run a wa =>
    cases uy with
    | run b wb =>
      have h1 : gx = [(a, wa)] := hx.unit
      have h2 : gy = [(b, wb)] := hy.unit
      subst h1 h2
      have := h.runs.maximal (a'.map (·.2)).flatten (a, wa) (b, wb) (b'.map (·.2)).flatten (by rw [e1]; simp)
      exact this
    | cls _ _ => trivial
    | wild _ => trivial
  | cls _ _ => trivial
  | wild _ => trivial

theorem cov_valid {s t : Str} {cov : List (GUnit × List Run)} (h : Cov s t cov) {p : MatchPattern} (hp : GoodPat p) (e : p.str = t) :
    ∀ x ∈ cov, x.1.Valid := by
  intro x hx
  refine good_valid hp (us := cov.map (·.1)) ?_ (by rw [e, h.text]) x.1 (List.mem_map_of_mem hx)
  intro u hu
  obtain ⟨y, hy, rfl⟩ := List.mem_map.mp hu
  exact (h.ok y hy).written

theorem cov_units {s t : Str} {cov : List (GUnit × List Run)} (h : Cov s t cov) {p : MatchPattern} (hp : GoodPat p) (e : p.str = t) (hne : cov ≠ []) :
    p.units = (cov.map (·.1)).map guUnit := by
  have := good_gen hp (us := cov.map (·.1)) (by
    intro u hu
    obtain ⟨x, hx, rfl⟩ := List.mem_map.mp hu
    exact cov_valid h hp e x hx) (cov_apart h) (by rw [e, h.text])
  rwa [if_neg (by simpa using hne)] at this

theorem written_rules {u : GUnit} (h : u.Written) : ∀ r ∈ u.spaces.map Space.text, r ∈ ruleSet := by
  have hv : ∀ sp ∈ u.spaces, sp.Valid := by
    cases u with
    | run sp w =>
      obtain ⟨c, hc⟩ := List.exists_mem_of_ne_nil _ h.1
      simpa [GUnit.spaces] using space_valid (h.2 c hc)
    | cls R n => exact h.1.valid
    | wild R => exact WrittenClass.valid h
  intro r hr
  obtain ⟨sp, hsp, rfl⟩ := List.mem_map.mp hr
  exact mem_ruleSet.mpr ⟨sp, hv sp hsp, rfl⟩

theorem unit_rule {x : GUnit × List Run} (h : CovOK x) {w : Str} (hr : Runs w x.2) : (gpair x.2).2 = (guUnit x.1).fuzzyRule := by
  show joinSorted _ = joinSorted (x.1.spaces.map Space.text)
  rw [joinSorted_inj (runs_rules hr) (written_rules h.written)]
  intro t
  show _ ↔ t ∈ x.1.spaces.map Space.text
  rw [List.mem_map, List.mem_map]
  constructor
  · rintro ⟨r, hr, rfl⟩; exact ⟨r.1, (h.spaces _).mpr ⟨r, hr, rfl⟩, rfl⟩
  · rintro ⟨sp, hsp, rfl⟩
    obtain ⟨r, hr, rfl⟩ := (h.spaces sp).mp hsp
    exact ⟨r, hr, rfl⟩

theorem cls_not_literal {R : List Space} {n : Nat} (h : (GUnit.cls R n).Valid) (hs : ¬ ∃ c, R = [.sign c] ∧ c ≠ '\\') : (guUnit (.cls R n)).isLiteral = false := by
  refine text_bracket ?_ (by simp [GUnit.text, startsWith])
  by_cases h1 : R.length = 1
  · right; right
    obtain ⟨sp, rfl⟩ := List.length_eq_one_iff.mp h1
    refine ⟨sp, rfl, ?_⟩
    cases sp with
    | sign c => exact absurd ⟨c, rfl, by rintro rfl; exact h.1.readable rfl⟩ hs
    | _ => rfl
  · left; simpa [guUnit, GUnit.spaces] using h1

theorem wild_not_literal (R : List Space) : (guUnit (.wild R)).isLiteral = false :=
  text_bracket (.inr (.inl (show (-1 : Int) < 0 by decide))) (by simp [GUnit.text, startsWith])

/-- Only runs are literal. -/
theorem cov_literal {x : GUnit × List Run} (h : CovOK x) (hv : x.1.Valid) : (guUnit x.1).isLiteral = true ↔ ∃ sp w, x.1 = .run sp w := by
  obtain ⟨u, g⟩ := x
  cases u with
  | run sp w => exact ⟨fun _ => ⟨sp, w, rfl⟩, fun _ => run_literal hv⟩
  | cls R n =>
    show (guUnit (.cls R n)).isLiteral = true ↔ ∃ sp w, GUnit.cls R n = .run sp w
    rw [cls_not_literal hv h.unit.2]
    simp
  | wild R =>
    show (guUnit (.wild R)).isLiteral = true ↔ ∃ sp w, GUnit.wild R = .run sp w
    rw [wild_not_literal]
    simp

/-- A unit is selected for the part it stands over. -/
theorem part_sel {x : GUnit × List Run} (h : CovOK x) (hval : x.1.Valid) {w : Str} (hr : Runs w x.2) {vp : ParsedPiece} (hv : vpair vp = gpair x.2) :
    SelU vp (unitMP (guUnit x.1)) := by
  obtain ⟨u, g⟩ := x
  have hv1 : vp.piece = (gpair g).1 := congrArg Prod.fst hv
  cases u with
  | run sp wd =>
    have hg : g = [(sp, wd)] := h.unit
    subst hg
    have hc : (unitMP (guUnit (.run sp wd))).cls = .piece := by
      show unitCls _ = _
      unfold unitCls; rw [run_literal hval]; rfl
    unfold SelU
    rw [hc]
    show vp.piece = (GUnit.run sp wd).text
    rw [hv1]
    simp [gpair, GUnit.text]
  | cls R n =>
    have hc : (unitMP (guUnit (.cls R n))).cls = .length := by
      show unitCls _ = _
      unfold unitCls
      rw [cls_not_literal hval h.unit.2]
      have : ¬ (guUnit (.cls R n)).num < 0 := by show ¬ ((n : Int) < 0); omega
      simp [this]
    unfold SelU
    rw [hc]
    refine ⟨(measured w : Int), ?_, ?_⟩
    · rw [group_length hr hv, runsOf_runs hr, measured_runs hr]
    · have e : n = writtenLength g := h.unit.1
      rw [written_measured hr] at e
      show some (n : Int) = _
      rw [e]
  | wild R =>
    have hc : (unitMP (guUnit (.wild R))).cls = .fuzzy := by
      show unitCls _ = _
      unfold unitCls; rw [wild_not_literal]; rfl
    unfold SelU
    rw [hc]
    trivial

theorem cov_runs {s t : Str} {cov : List (GUnit × List Run)} (h : Cov s t cov) {x : GUnit × List Run} (hx : x ∈ cov) :
    Runs (rawOf x.2) x.2 := runs_group h.runs rfl (List.mem_map_of_mem hx)

/-- The view has the groups of the units: the pattern is selected. -/
theorem selM_groups {s t : Str} {cov : List (GUnit × List Run)} (h : Cov s t cov) {p : MatchPattern} (hp : GoodPat p) (e : p.str = t)
    (hne : cov ≠ []) {vps : List ParsedPiece} (hv : vps = (cov.map (·.2)).map gpart) : SelM vps p := by
  have hu := cov_units h hp e hne
  subst hv
  constructor
  · rw [hu, List.map_map, List.map_map, List.map_map, List.map_map]
    apply List.map_congr_left
    intro x hx
    show (gpart x.2).fuzzyRule = (guUnit x.1).fuzzyRule
    rw [(gpart_pair x.2).2]
    exact unit_rule (h.ok x hx) (cov_runs h hx)
  · intro i vp u hi hu'
    rw [hu, List.getElem?_map, List.getElem?_map] at hu'
    rw [List.getElem?_map, List.getElem?_map] at hi
    cases hx : cov[i]? with
    | none => rw [hx] at hi; cases hi
    | some x =>
      rw [hx] at hi hu'
      simp only [Option.map_some, Option.some.injEq] at hi hu'
      subst hi hu'
      have hm := List.mem_of_getElem? hx
      exact part_sel (h.ok x hm) (cov_valid h hp e x hm) (cov_runs h hm) (vpair_single _ _)

end OsUrl
