import Verif.Props.C20
import Verif.Proofs.SelfSel2
import Verif.Spec.Order

/-! The order of match results on generated patterns. -/

namespace OsUrl
open Spec

/-! ### Ranks of units and kinds of patterns -/

theorem gu_literal {u : GUnit} (h : u.Valid) : (guUnit u).isLiteral = decide (u.rank = 0) := by
  cases u with
  | run sp w => rw [run_literal h]; rfl
  | cls R n =>
    by_cases hs : ∃ c, R = [.sign c]
    · obtain ⟨c, rfl⟩ := hs
      have hn : n ≠ 0 := by have := h.2; simp at this; omega
      have hnot : (Space.sign c).text ∉ digitAsciiRuleSet := by
        intro hm
        have := text_mem_digitAscii_iff.mp hm
        simp [Space.isSign] at this
      show PatternUnit.isLiteral _ = true
      unfold PatternUnit.isLiteral
      have h1 : startsWith ['['] (guUnit (.cls [.sign c] n)).str = true := by simp [guUnit, GUnit.text, startsWith]
      rw [h1]
      simp only [Bool.not_true, Bool.false_eq_true, if_false]
      show (decide ((n : Int) > 0) && decide ((Space.sign c).text ∉ digitAsciiRuleSet)) = true
      simp only [Bool.and_eq_true, decide_eq_true_eq]
      exact ⟨by omega, hnot⟩
    · rw [cls_not_literal h (fun ⟨c, hc, _⟩ => hs ⟨c, hc⟩)]
      symm
      rw [decide_eq_false_iff_not]
      intro h0
      match R, h0, hs with
      | [.sign c], _, hs => exact hs ⟨c, rfl⟩
  | wild R => rw [wild_not_literal]; rfl

theorem gu_order {u : GUnit} (h : u.Valid) : viewOrder (unitCls (guUnit u)) = match u.rank with | 0 => 0 | 1 => 4 | _ => 5 := by
  unfold unitCls
  rw [gu_literal h]
  by_cases h0 : u.rank = 0
  · rw [h0]; rfl
  · rw [if_neg (by simpa using h0)]
    cases u with
    | run sp w => exact absurd rfl h0
    | cls R n =>
      have : ¬ (guUnit (.cls R n)).num < 0 := by simp [guUnit]
      rw [if_neg this]
      have : (GUnit.cls R n).rank = 1 := by
        unfold GUnit.rank at h0 ⊢
        split at h0 <;> simp_all
      rw [this]; rfl
    | wild R =>
      have : (guUnit (.wild R)).num < 0 := by simp [guUnit]
      rw [if_pos this]; rfl

def kindCls : Kind → ViewCls
  | .literal => .piece
  | .runs => .multi
  | .mixed => .mixed
  | .dotted => .lastDot
  | .length => .length
  | .wild => .fuzzy

theorem kindCls_order (k : Kind) : viewOrder (kindCls k) = k.rank := by cases k <;> rfl

theorem kindCls_inj {a b : Kind} (h : kindCls a = kindCls b) : a = b := by
  cases a <;> cases b <;> first | rfl | (exfalso; revert h; decide)

theorem isDotted_iff {us : List GUnit} : isDotted us = true ↔ Dotted us := by
  constructor
  · intro h
    match us, h with
    | [a, d, b], h =>
      simp only [isDotted, Bool.and_eq_true, decide_eq_true_eq, List.all_eq_true, Bool.not_eq_true'] at h
      exact ⟨a, d, b, rfl, h.1, h.2⟩
  · rintro ⟨a, d, b, rfl, h1, h2⟩
    simp only [isDotted, Bool.and_eq_true, decide_eq_true_eq, List.all_eq_true, Bool.not_eq_true']
    exact ⟨h1, h2⟩

theorem units_cls {us : List GUnit} (hv : ∀ u ∈ us, u.Valid) (hne : us ≠ []) (lp : Bool) :
    viewClsFromUnits (us.map guUnit) lp = kindCls (kind lp us) := by
  unfold kind
  by_cases hl : us.all (fun u => u.rank == 0) = true
  · rw [if_pos hl]
    refine literal_cls ?_ lp
    intro x hx
    obtain ⟨u, hu, rfl⟩ := List.mem_map.mp hx
    rw [gu_literal (hv u hu)]
    simpa using List.all_eq_true.mp hl u hu
  · rw [if_neg hl]
    match us, hne with
    | [u], _ =>
      have h0 : u.rank ≠ 0 := by simpa using hl
      have hu := gu_order (hv u (by simp))
      show unitCls (guUnit u) = _
      have hr : u.rank = 1 ∨ u.rank = 2 := by
        cases u with
        | run => exact absurd rfl h0
        | cls R n =>
          left
          unfold GUnit.rank at h0 ⊢
          split at h0 <;> simp_all
        | wild => right; rfl
      rcases hr with hr | hr
      · rw [hr] at hu
        simp only [hr]
        exact viewOrder_inj hu
      · rw [hr] at hu
        simp only [hr]
        exact viewOrder_inj hu
    | u :: v :: us, _ =>
      have hcons : ((u :: v :: us).map guUnit).filter (fun x => !x.isLiteral) =
          ((u :: v :: us).filter (fun g => g.rank != 0)).map guUnit := by
        rw [List.filter_map]
        congr 1
        apply List.filter_congr
        intro g hg
        simp only [Function.comp]
        rw [gu_literal (hv g hg)]
        cases h : decide (g.rank = 0) <;> simp_all
      have hpne : baseCls ((u :: v :: us).map guUnit) ≠ .piece := by
        unfold baseCls
        split
        · simp
        · rw [if_neg]
          · simp
          · rw [hcons]
            intro he
            apply hl
            rw [List.all_eq_true]
            intro g hg
            rw [List.isEmpty_iff, List.map_eq_nil_iff, List.filter_eq_nil_iff] at he
            simpa using he g hg
      simp only
      by_cases hd : lp = true ∧ isDotted (u :: v :: us) = true
      · rw [if_pos (by simp [hd.1, hd.2]), hd.1]
        exact viewCls_dot hpne (dottedU_iff.mpr (isDotted_iff.mp hd.2))
      · rw [if_neg (by simpa using hd), viewCls_base (by simp)
          (fun hx => hd ⟨hx.1, isDotted_iff.mpr (dottedU_iff.mp hx.2.2)⟩)]
        have hany : (((u :: v :: us).map guUnit).filter (fun x => !x.isLiteral)).any (fun x => decide (x.rules.length > 1)) =
            (u :: v :: us).any (fun g => g.rank != 0 && decide (2 ≤ g.spaces.length)) := by
          rw [hcons, List.any_map, List.any_filter]
          congr 1
          funext g
          simp [guUnit]
          rfl
        unfold baseCls at hpne ⊢
        rw [hany] at hpne ⊢
        by_cases ha : (u :: v :: us).any (fun g => g.rank != 0 && decide (2 ≤ g.spaces.length)) = true
        · rw [if_pos ha, if_pos ha]; rfl
        · rw [if_neg ha] at hpne ⊢
          rw [if_neg ha]
          by_cases he : (((u :: v :: us).map guUnit).filter (fun x => !x.isLiteral)).isEmpty = true
          · rw [if_pos he] at hpne; exact absurd rfl hpne
          · rw [if_neg he]; rfl

/-- The view class of a generated pattern is its kind. -/
theorem gen_cls {p : MatchPattern} {lp : Bool} (hmk : mkMatchPattern p.str lp = .ok p) {us : List GUnit} (hg : Generated us)
    (e : p.str = patText us) : p.cls = kindCls (kind lp us) := by
  obtain ⟨-, h, hc⟩ := mkMatchPattern_good hmk
  rw [hc, good_gen h hg.valid hg.apart e]
  by_cases h0 : us = []
  · subst h0; rfl
  · rw [if_neg h0]; exact units_cls hg.valid h0 lp

/-! ### The keys -/

def rankDigit : Nat → Char
  | 0 => '0'
  | 1 => '4'
  | _ => '5'

theorem gu_key {u : GUnit} (h : u.Valid) : natStr (viewOrder (unitCls (guUnit u))) = [rankDigit u.rank] := by
  rw [gu_order h]
  match u.rank with
  | 0 => rfl
  | 1 => rfl
  | (n + 2) => rfl

theorem rank_le (u : GUnit) : u.rank ≤ 2 := by
  unfold GUnit.rank; split <;> omega

theorem rankDigit_lt {u v : GUnit} : charLt (rankDigit u.rank) (rankDigit v.rank) = decide (u.rank < v.rank) := by
  have h1 := rank_le u
  have h2 := rank_le v
  generalize u.rank = a at *
  generalize v.rank = b at *
  have : a = 0 ∨ a = 1 ∨ a = 2 := by omega
  have : b = 0 ∨ b = 1 ∨ b = 2 := by omega
  rcases ‹a = 0 ∨ a = 1 ∨ a = 2› with rfl | rfl | rfl <;> rcases ‹b = 0 ∨ b = 1 ∨ b = 2› with rfl | rfl | rfl <;> decide

/-- The comparison of the keys, from the first unit. -/
theorem keys_lt {us vs : List GUnit} (hl : us.length = vs.length) :
    strLt (us.map (fun u => rankDigit u.rank)) (vs.map (fun u => rankDigit u.rank)) = true ↔
    ∃ a u as b v bs, us = a ++ u :: as ∧ vs = b ++ v :: bs ∧ a.map GUnit.rank = b.map GUnit.rank ∧ u.rank < v.rank := by
  induction us generalizing vs with
  | nil =>
    cases vs with
    | nil => simp [strLt]
    | cons v vs => simp at hl
  | cons u us ih =>
    cases vs with
    | nil => simp at hl
    | cons v vs =>
      have hl' : us.length = vs.length := by simpa using hl
      simp only [List.map_cons, strLt]
      rw [rankDigit_lt, rankDigit_lt]
      by_cases h1 : u.rank < v.rank
      · simp only [h1, decide_true, if_true, true_iff]
        exact ⟨[], u, us, [], v, vs, rfl, rfl, rfl, h1⟩
      · by_cases h2 : v.rank < u.rank
        · simp only [h1, h2, decide_true, decide_false, if_true, Bool.false_eq_true, if_false, false_iff]
          rintro ⟨a, x, as, b, y, bs, e1, e2, e3, e4⟩
          cases a with
          | nil =>
            cases b with
            | nil => simp at e1 e2; rw [← e1.1, ← e2.1] at e4; omega
            | cons _ _ => simp at e3
          | cons a0 a =>
            cases b with
            | nil => simp at e3
            | cons b0 b => simp at e1 e2 e3; rw [← e1.1, ← e2.1] at e3; omega
        · simp only [h1, h2, decide_false, Bool.false_eq_true, if_false]
          rw [ih hl']
          have heq : u.rank = v.rank := by omega
          constructor
          · rintro ⟨a, x, as, b, y, bs, rfl, rfl, e3, e4⟩
            exact ⟨u :: a, x, as, v :: b, y, bs, rfl, rfl, by simp [heq, e3], e4⟩
          · rintro ⟨a, x, as, b, y, bs, e1, e2, e3, e4⟩
            cases a with
            | nil =>
              cases b with
              | nil => simp at e1 e2; rw [← e1.1, ← e2.1] at e4; omega
              | cons _ _ => simp at e3
            | cons a0 a =>
              cases b with
              | nil => simp at e3
              | cons b0 b =>
                simp at e1 e2 e3
                exact ⟨a, x, as, b, y, bs, e1.2, e2.2, e3.2, e4⟩

theorem patKey_gen {p : MatchPattern} {us : List GUnit} (hv : ∀ u ∈ us, u.Valid) (e : p.units = us.map guUnit) :
    patKey p = us.reverse.map (fun u => rankDigit u.rank) := by
  unfold patKey
  rw [e, ← List.map_reverse, List.map_map]
  have : ∀ l : List GUnit, (∀ u ∈ l, u.Valid) →
      (l.map ((fun u => natStr (viewOrder (unitCls u))) ∘ guUnit)).flatten = l.map (fun u => rankDigit u.rank) := by
    intro l
    induction l with
    | nil => intro _; rfl
    | cons u l ih =>
      intro h
      simp only [List.map_cons, List.flatten_cons, Function.comp]
      rw [gu_key (h u (by simp)), ← ih (fun v hv => h v (by simp [hv]))]
      rfl
  exact this _ (fun u hu => hv u (List.mem_reverse.mp hu))

/-- The order on two generated patterns that are selected by the same piece. -/
theorem ltB_gen {s : Str} {p q : MatchPattern} {lp : Bool} (hp : mkMatchPattern p.str lp = .ok p)
    (hq : mkMatchPattern q.str lp = .ok q) {us vs : List GUnit} (gu : Generated us) (gv : Generated vs)
    (e1 : p.str = patText us) (e2 : q.str = patText vs)
    (sp : SelF (ppOf (runsOf s)) p) (sq : SelF (ppOf (runsOf s)) q) (hne : p.str ≠ q.str) :
    ltB p q = true ↔ MoreGeneral lp us vs := by
  have gp : GoodPat p := (mkMatchPattern_good hp).2.1
  have gq : GoodPat q := (mkMatchPattern_good hq).2.1
  have c1 := gen_cls hp gu e1
  have c2 := gen_cls hq gv e2
  unfold ltB MoreGeneral
  by_cases hc : p.cls = q.cls
  · have hk : kind lp us = kind lp vs := kindCls_inj (by rw [← c1, ← c2, hc])
    rw [if_pos hc, hk]
    simp only [Nat.lt_irrefl, true_and, false_or]
    have hnl : p.cls ≠ .piece := by
      intro h
      have h' : q.cls = .piece := hc ▸ h
      have s1 : SimpleCls p.cls := .inl h
      have s2 : SimpleCls q.cls := .inl h'
      unfold SelF at sp sq
      rw [if_pos s1] at sp
      rw [if_pos s2] at sq
      simp only [SelU, h] at sp
      simp only [SelU, h'] at sq
      exact hne (sp.symm.trans sq)
    have hu0 : us ≠ [] := by
      intro h
      apply hnl
      rw [c1, h]; rfl
    have hv0 : vs ≠ [] := by
      intro h
      apply hnl
      rw [c1, hk, h]; rfl
    have u1 := good_gen gp gu.valid gu.apart e1
    have u2 := good_gen gq gv.valid gv.apart e2
    rw [if_neg hu0] at u1
    rw [if_neg hv0] at u2
    have hlen : us.length = vs.length := by
      rcases cls_cases p.cls with hs | hm
      · rcases hs with c | c
        · exact absurd c hnl
        · obtain ⟨a, ea⟩ := simple_one gp c
          obtain ⟨b, eb⟩ := simple_one gq (hc ▸ c)
          have h1 := congrArg List.length (u1.symm.trans ea)
          have h2 := congrArg List.length (u2.symm.trans eb)
          simp at h1 h2
          omega
      · have hns := multi_not_simple hm
        unfold SelF at sp sq
        rw [if_neg hns] at sp
        rw [if_neg (hc ▸ hns), ← hc] at sq
        have h1 := congrArg List.length (sp.1.symm.trans sq.1)
        rw [u1, u2] at h1
        simpa using h1
    rw [patKey_gen gu.valid u1, patKey_gen gv.valid u2, keys_lt (by simp [hlen])]
    constructor
    · rintro ⟨a, u, as, b, v, bs, h1, h2, h3, h4⟩
      refine ⟨bs.reverse, v, b.reverse, as.reverse, u, a.reverse, ?_, ?_, ?_, h4⟩
      · have := congrArg List.reverse h2; simpa using this
      · have := congrArg List.reverse h1; simpa using this
      · rw [List.map_reverse, List.map_reverse, h3]
    · rintro ⟨a, u, as, b, v, bs, h1, h2, h3, h4⟩
      refine ⟨bs.reverse, v, b.reverse, as.reverse, u, a.reverse, ?_, ?_, ?_, h4⟩
      · have := congrArg List.reverse h2; simpa using this
      · have := congrArg List.reverse h1; simpa using this
      · rw [List.map_reverse, List.map_reverse, h3]
  · rw [if_neg hc, c1, c2, kindCls_order, kindCls_order, decide_eq_true_eq]
    have hk : kind lp us ≠ kind lp vs := by intro h; apply hc; rw [c1, c2, h]
    simp [hk]

theorem ltUpB_app {a b c d : List MatchPattern} {p q : MatchPattern} (h : a.map (·.str) = b.map (·.str)) (hne : p.str ≠ q.str) :
    ltUpB (a ++ p :: c) (b ++ q :: d) = ltB p q := by
  induction a generalizing b with
  | nil =>
    cases b with
    | nil => simp [ltUpB_cons, hne]
    | cons _ _ => simp at h
  | cons x a ih =>
    cases b with
    | nil => simp at h
    | cons y b =>
      simp only [List.map_cons, List.cons.injEq] at h
      rw [List.cons_append, List.cons_append, ltUpB_cons, if_pos h.1]
      exact ih h.2

end OsUrl
