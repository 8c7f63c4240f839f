import Verif.Proofs.MatchSel

/-! What the matcher selects, read as regular expressions. -/

namespace OsUrl
open Spec

/-- The text is read as items which match the string. -/
def Fits (u t : Str) : Prop :=
  (∃ is, ReadsAs u is ∧ ItemsMatch is t) ∧ ∀ r, NoQuant r → NoQuant (u ++ r)

theorem Exact.fits {u t : Str} (h : Exact u t) : Fits u t := by
  obtain ⟨⟨is, h1, h2⟩, h3⟩ := h
  exact ⟨⟨is, h1, (h2 t).mpr rfl⟩, h3⟩

theorem Fits.reMatch {u t : Str} (h : Fits u t) : ReMatch u t := by
  obtain ⟨⟨is, h1, h2⟩, -⟩ := h
  exact (reMatch_iff h1).mpr h2

theorem Fits.append {u v s t : Str} (h1 : Fits u s) (h2 : Fits v t) : Fits (u ++ v) (s ++ t) := by
  obtain ⟨⟨is, a1, a2⟩, a3⟩ := h1
  obtain ⟨⟨js, b1, b2⟩, b3⟩ := h2
  refine ⟨⟨is ++ js, a1.append b1 b3, itemsMatch_append.mpr ⟨s, t, rfl, a2, b2⟩⟩, ?_⟩
  intro r hr
  rw [List.append_assoc]
  exact a3 _ (b3 r hr)

theorem Fits.flatten {l : List (Str × Str)} (h : ∀ p ∈ l, Fits p.1 p.2) :
    Fits (l.map (·.1)).flatten (l.map (·.2)).flatten := by
  induction l with
  | nil => exact Exact.nil.fits
  | cons p l ih =>
    simp only [List.map_cons, List.flatten_cons]
    exact (h p (by simp)).append (ih (fun q hq => h q (by simp [hq])))

/-- Rules are the texts of spaces. -/
theorem rules_spaces {rs : List Str} (h : ∀ r ∈ rs, r ∈ ruleSet) :
    ∃ sps : List Space, sps.map Space.text = rs ∧ ∀ sp ∈ sps, sp.Valid := by
  induction rs with
  | nil => exact ⟨[], rfl, by simp⟩
  | cons r rs ih =>
    obtain ⟨sps, e, hv⟩ := ih (fun x hx => h x (by simp [hx]))
    obtain ⟨sp, hsp, rfl⟩ := mem_ruleSet.mp (h r (by simp))
    refine ⟨sp :: sps, by simp [e], ?_⟩
    intro x hx
    simp only [List.mem_cons] at hx
    rcases hx with rfl | hx
    · exact hsp
    · exact hv x hx

/-- A class with a quantifier and a string of its spaces. -/
theorem fits_class {rs : List Str} {q : Str} {n : Int} {t : Str} (hr : ∀ r ∈ rs, r ∈ ruleSet) (hne : rs ≠ [])
    (hq : QText q n) (haq : AsciiText q) (ht : ∀ c ∈ t, ∃ sp, space? c = some sp ∧ sp.text ∈ rs)
    (hl : if n < 0 then t ≠ [] else (t.length : Int) = n) : Fits ('[' :: rs.flatten ++ ']' :: q) t := by
  obtain ⟨sps, rfl, hv⟩ := rules_spaces hr
  refine ⟨⟨_, readsAs_class (by simpa using hne) hv hq haq, itemsMatch_single.mpr ⟨?_, ?_⟩⟩, ?_⟩
  · intro c hc
    rw [class_has hv]
    obtain ⟨sp, h1, h2⟩ := ht c hc
    obtain ⟨sp', h3, h4⟩ := List.mem_map.mp h2
    exact ⟨sp', h3, by rw [text_inj h4]; exact h1⟩
  · simp only [quantOf]
    by_cases hn : n < 0
    · rw [if_pos hn] at hl ⊢
      exact List.length_pos_iff.mpr hl
    · rw [if_neg hn] at hl ⊢
      simp only
      omega
  · intro r _
    simp [NoQuant]

/-- The form of a unit that is not literal. -/
theorem UnitForm.nonlit {u : PatternUnit} (h : UnitForm u) (hl : u.isLiteral = false) :
    ∃ rs q, (∀ r ∈ rs, r ∈ ruleSet) ∧ QText q u.num ∧ u.str = '[' :: rs.flatten ++ ']' :: q ∧ u.rules = sortedSet rs := by
  cases h with
  | empty h => rw [h] at hl; simp [PatternUnit.isLiteral, startsWith] at hl
  | lit rule h hr hn =>
    exfalso
    obtain ⟨hd, hne, hc⟩ := h
    unfold PatternUnit.isLiteral at hl
    rw [if_pos] at hl
    · cases hl
    · cases hs : u.str with
      | nil => exact absurd hs hne
      | cons c t =>
        have := (alnum_ne_bracket (hc c (by rw [hs]; simp)) hd).1
        simp [startsWith, List.isPrefixOf, Ne.symm this]
  | cls rs q hrs hq hs hr hn => exact ⟨rs, q, hrs, hq, hs, hr⟩

theorem unitCls_lit {u : PatternUnit} : unitCls u = .piece ↔ u.isLiteral = true := by
  unfold unitCls
  split
  · simp_all
  · split <;> simp_all

theorem unitCls_length {u : PatternUnit} (h : unitCls u = .length) : u.isLiteral = false ∧ ¬ u.num < 0 := by
  unfold unitCls at h
  split at h
  · cases h
  · split at h
    · cases h
    · rename_i h1 h2; exact ⟨by simpa using h1, h2⟩

theorem unitCls_fuzzy {u : PatternUnit} (h : unitCls u = .fuzzy) : u.isLiteral = false ∧ u.num < 0 := by
  unfold unitCls at h
  split at h
  · cases h
  · split at h
    · rename_i h1 h2; exact ⟨by simpa using h1, h2⟩
    · cases h

/-- A part of a view selected for a unit. -/
theorem unit_fits {u : PatternUnit} (hu : UnitForm u) (hne : u.rules ≠ []) (hau : AsciiText u.str) {t : Str} {g : List (Space × Str)}
    (hr : Runs t g) (hb : '\\' ∉ t) {v : ParsedPiece} (hv : vpair v = gpair g) (hf : v.fuzzyRule = u.fuzzyRule)
    (hsel : SelU v (unitMP u)) : Fits u.str t := by
  have hlen := group_length hr hv
  rw [extra_zero hr.known hb] at hlen
  simp only [Int.add_zero] at hlen
  have hrule : u.isLiteral = false → (∀ c ∈ t, ∃ sp, space? c = some sp ∧ sp.text ∈ u.rules) ∧ t ≠ [] := by
    intro hl
    obtain ⟨rs, q, h1, h2, h3, h4⟩ := hu.nonlit hl
    have hur : ∀ r ∈ u.rules, r ∈ ruleSet := by rw [h4]; exact fun r h => h1 r (mem_sortedSet.mp h)
    have e : joinSorted (g.map (·.1.text)) = joinSorted u.rules := by
      have := congrArg Prod.snd hv
      simp only [vpair, gpair] at this
      rw [← this, hf]; rfl
    obtain ⟨a, b⟩ := group_rule hr hur e
    exact ⟨a, fun h => hne (b.mp h)⟩
  have hcls : ∀ {q : Str} {rs : List Str}, u.rules = sortedSet rs → (∀ r ∈ u.rules, r ∈ rs) ∧ rs ≠ [] := by
    intro q rs e
    refine ⟨fun r hr => by rw [e] at hr; exact mem_sortedSet.mp hr, ?_⟩
    rintro rfl
    exact hne (by rw [e]; rfl)
  unfold SelU at hsel
  cases hc : unitCls u with
  | piece =>
    have hc' : (unitMP u).cls = .piece := hc
    rw [hc'] at hsel
    have hsel : v.piece = u.str := hsel
    have := congrArg Prod.fst hv
    simp only [vpair, gpair] at this
    rw [← hsel, this]
    exact (runs_exact hr).fits
  | length =>
    have hc' : (unitMP u).cls = .length := hc
    rw [hc'] at hsel
    obtain ⟨l, hl, hn⟩ := hsel
    rw [hlen] at hl
    simp only [Except.ok.injEq] at hl
    simp only [headNum, unitMP, List.head?_cons, Option.map_some, Option.some.injEq] at hn
    obtain ⟨c1, c2⟩ := unitCls_length hc
    obtain ⟨rs, q, h1, h2, h3, h4⟩ := hu.nonlit c1
    obtain ⟨k1, k2⟩ := hrule c1
    obtain ⟨m1, m2⟩ := hcls (q := q) h4
    rw [h3]
    refine fits_class h1 m2 h2 (fun c hc => hau c (by rw [h3]; simp [hc])) (fun c hc => ?_) (by rw [if_neg c2]; omega)
    obtain ⟨sp, a, b⟩ := k1 c hc
    exact ⟨sp, a, m1 _ b⟩
  | fuzzy =>
    obtain ⟨c1, c2⟩ := unitCls_fuzzy hc
    obtain ⟨rs, q, h1, h2, h3, h4⟩ := hu.nonlit c1
    obtain ⟨k1, k2⟩ := hrule c1
    obtain ⟨m1, m2⟩ := hcls (q := q) h4
    rw [h3]
    refine fits_class h1 m2 h2 (fun c hc => hau c (by rw [h3]; simp [hc])) (fun c hc => ?_) (by rw [if_pos c2]; exact k2)
    obtain ⟨sp, a, b⟩ := k1 c hc
    exact ⟨sp, a, m1 _ b⟩
  | multi => have := unitMP_simple u; simp [unitMP, SimpleCls, hc] at this
  | mixed => have := unitMP_simple u; simp [unitMP, SimpleCls, hc] at this
  | lastDot => have := unitMP_simple u; simp [unitMP, SimpleCls, hc] at this

theorem units_form {p : MatchPattern} (h : GoodPat p) : ∀ u ∈ p.units, UnitForm u := by
  rcases patternUnits_form h.1 with ⟨-, e⟩ | ⟨-, hu⟩
  · rw [e]; intro u hu; simp at hu; exact .empty hu
  · exact fun u h => (hu u h).1

/-- A pattern with several units and a simple class is literal. -/
theorem simple_units {p : MatchPattern} (h : GoodPat p) (hc : SimpleCls p.cls) :
    (∃ u, p.units = [u] ∧ p.cls = unitCls u ∧ p.str = u.str) ∨ p.cls = .piece := by
  obtain ⟨b, hb⟩ := h.2
  have hfl := h.flat
  rcases hu : p.units with _ | ⟨u, _ | ⟨v, us⟩⟩
  · exact absurd hu h.ne
  · left
    rw [hu] at hb hfl
    simp at hfl
    exact ⟨u, rfl, by rw [hb]; rfl, hfl.symm⟩
  · right
    rw [hu] at hb
    rcases hc with hc | hc | hc
    · exact hc
    all_goals
      exfalso
      rw [hc] at hb
      unfold viewClsFromUnits at hb
      simp only at hb
      revert hb
      split <;> (repeat' split) <;> simp

/-- A selected pattern matches the raw piece. -/
theorem sel_fits {s : Str} (hk : ∀ c ∈ s, Known c) (hb : '\\' ∉ s) {p : MatchPattern} (ha : AtPos s p)
    (hne : ∀ u ∈ p.units, u.rules ≠ []) (hap : AsciiText p.str) (hsel : SelF (ppOf (runsOf s)) p) : Fits p.str s := by
  have hr := runsOf_spec hk
  have huf := units_form ha.good
  have hau : ∀ u ∈ p.units, AsciiText u.str := by
    intro u hu c hc
    refine hap c ?_
    rw [← ha.good.flat]
    exact List.mem_flatten.mpr ⟨u.str, List.mem_map_of_mem hu, hc⟩
  unfold SelF at hsel
  by_cases hc : SimpleCls p.cls
  · rw [if_pos hc] at hsel
    rcases simple_units ha.good hc with ⟨u, hu, hcu, hsu⟩ | hp
    · rw [hsu]
      refine unit_fits (huf u (by rw [hu]; simp)) (hne u (by rw [hu]; simp)) (hau u (by rw [hu]; simp)) hr hb (vpair_ppOf _) ?_ ?_
      · have := ha.fuzzy
        rw [hu] at this
        rw [← this]
        simp [unitsFuzzyRule, PatternUnit.fuzzyRule]
      · have e : headNum p = headNum (unitMP u) := by simp [headNum, unitMP, hu]
        unfold SelU at hsel ⊢
        rw [hcu, hsu, e] at hsel
        exact hsel
    · unfold SelU at hsel
      rw [hp] at hsel
      have hsel : (ppOf (runsOf s)).piece = p.str := hsel
      rw [← hsel]
      exact (runs_exact hr).fits
  · rw [if_neg hc] at hsel
    obtain ⟨e, hs⟩ := hsel
    obtain ⟨gs, e1, e2, -, -⟩ := view_split p.cls (runsOf s)
    have ev := view_rules e2
    have hlen : gs.length = p.units.length := by
      have := congrArg List.length (ev.symm.trans e)
      simpa using this
    have hfl := ha.good.flat
    have hcat := raw_concat hr e1
    have key : ∀ x ∈ p.units.zip gs, Fits x.1.str (rawOf x.2) := by
      intro x hx
      obtain ⟨i, hi⟩ := List.getElem?_of_mem hx
      rw [List.getElem?_zip_eq_some] at hi
      obtain ⟨i1, i2⟩ := hi
      have hg : x.2 ∈ gs := List.mem_of_getElem? i2
      have hu : x.1 ∈ p.units := List.mem_of_getElem? i1
      have hv : ∃ v, (viewPieces p.cls (ppOf (runsOf s)))[i]? = some v ∧ vpair v = gpair x.2 := by
        have := congrArg (fun l => l[i]?) e2
        simp only [List.getElem?_map, i2, Option.map_some, Option.map_eq_some_iff] at this
        exact this
      obtain ⟨v, hv1, hv2⟩ := hv
      have hf : v.fuzzyRule = x.1.fuzzyRule := by
        have := congrArg (fun l => l[i]?) e
        simpa [List.getElem?_map, hv1, i1] using this
      exact unit_fits (huf _ hu) (hne _ hu) (hau _ hu) (runs_group hr e1 hg)
        (fun h => hb (raw_mem hr e1 hg h)) hv2 hf (hs i v x.1 hv1 i1)
    have := Fits.flatten (l := (p.units.zip gs).map (fun x => (x.1.str, rawOf x.2))) (by
      intro y hy
      obtain ⟨x, hx, rfl⟩ := List.mem_map.mp hy
      exact key x hx)
    simp only [List.map_map, Function.comp_def] at this
    have a1 : (p.units.zip gs).map (fun x => x.1.str) = p.units.map (·.str) := by
      rw [show (fun x : PatternUnit × List (Space × Str) => x.1.str) = (fun u : PatternUnit => u.str) ∘ Prod.fst from rfl,
        ← List.map_map, List.map_fst_zip (by omega)]
    have a2 : (p.units.zip gs).map (fun x => rawOf x.2) = gs.map rawOf := by
      rw [show (fun x : PatternUnit × List (Space × Str) => rawOf x.2) = rawOf ∘ Prod.snd from rfl,
        ← List.map_map, List.map_snd_zip (by omega)]
    rw [a1, a2, hfl, hcat] at this
    exact this

end OsUrl
