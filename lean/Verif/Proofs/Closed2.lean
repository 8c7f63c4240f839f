import Verif.Proofs.Closed1
import Verif.Proofs.RowText

/-! The rule for parts is the level function of the nested clustering. -/

namespace OsUrl
open Spec

/-- The chunk is a list of maximal runs. -/
def Runny (g : Chunk) : Prop := ∃ w, Runs w g

theorem valid_order {sp : Space} (h : sp.Valid) : sp ∈ spaceOrder := by
  cases sp with
  | lower => decide
  | upper => decide
  | digit => decide
  | sign c =>
    have key : ∀ c ∈ bareSigns ++ escapedSigns, Space.sign c ∈ spaceOrder := by decide
    exact key c (List.mem_append.mpr h)

theorem order_sorted : spaceOrder.Pairwise (fun a b => a.text < b.text) := by decide

theorem classOf_cls {g : Chunk} (h : Runny g) : ClassOf g (clsText g) := by
  obtain ⟨w, hw⟩ := h
  refine ⟨spaceOrder.filter (fun sp => decide (sp ∈ g.map (·.1))), ?_, order_sorted.sublist List.filter_sublist, rfl⟩
  intro sp
  rw [List.mem_filter, decide_eq_true_eq, List.mem_map]
  constructor
  · exact fun h => h.2
  · rintro ⟨r, hr, rfl⟩
    exact ⟨valid_order (hw.valid r hr), r, hr, rfl⟩

theorem cls_eq {g : Chunk} (h : Runny g) : clsText g = (gpair g).2 := classOf_rules (classOf_cls h)

theorem cls_nil {g : Chunk} (h : Runny g) (e : clsText g = []) : g = [] := by
  cases g with
  | nil => rfl
  | cons r g =>
    obtain ⟨w, hw⟩ := h
    rw [cls_eq ⟨w, hw⟩] at e
    have := (group_rule hw (rs := []) (by simp) (by unfold gpair at e; simp only at e; rw [e]; rfl)).2.mpr rfl
    have h2 := hw.concat
    rw [this] at h2
    simp only [List.map_cons, List.flatten_cons, List.append_eq_nil_iff] at h2
    exact absurd h2.1 (hw.nonempty r (by simp))

theorem lit_inj {g g' : Chunk} (h : Runny g) (h' : Runny g') (e : litText g = litText g') : g = g' := by
  obtain ⟨w, hw⟩ := h
  obtain ⟨w', hw'⟩ := h'
  exact sep_literal hw hw' (singles_flatten _) (gfit_lits _) e

theorem varied_confused (mcn : Int) (ns : List Int) :
    varied mcn ns = (decide (mcn ≤ ns.length) || confused ns.sum (mx ns) mcn) := by
  have hb : biggest ns = mx ns := rfl
  unfold varied confused
  rw [hb]
  rw [Bool.eq_iff_iff]
  simp only [decide_eq_true_eq, Bool.or_eq_true, ge_iff_le]
  by_cases h1 : ns.sum < mcn
  · rw [if_pos h1]
    constructor
    · rintro (h | ⟨h, -⟩)
      · exact .inl h
      · omega
    · rintro (h | h)
      · exact .inl h
      · cases h
  · rw [if_neg h1]
    by_cases h2 : mcn ≤ mx ns ∧ mcn ≤ ns.sum - mx ns
    · rw [if_pos h2]
      constructor
      · intro _; exact .inr rfl
      · intro _; exact .inr ⟨by omega, .inl h2⟩
    · rw [if_neg h2]
      simp only [decide_eq_true_eq]
      constructor
      · rintro (h | ⟨-, h | h⟩)
        · exact .inl h
        · exact absurd h h2
        · exact .inr h
      · rintro (h | h)
        · exact .inl h
        · exact .inr ⟨by omega, .inr h⟩

section
variable {φ : Chunk → ParsedPiece}

theorem cntE_toEnts (E : Column) : cntE (toEnts φ E) = (numbers E).sum := by
  unfold cntE toEnts numbers
  rw [List.map_map]; rfl

theorem counts_toEnts (E : Column) : (toEnts φ E).map (·.2) = numbers E := by
  unfold toEnts numbers
  rw [List.map_map]; rfl

theorem litStop_varied (mcn : Int) (E : Column) : litStop mcn (toEnts φ E) = !varied mcn (numbers E) := by
  unfold litStop
  rw [varied_confused, cntE_toEnts, counts_toEnts, Bool.not_or]
  congr 1
  rw [← decide_not]
  simp [toEnts, numbers]

theorem asClu_varied (mcn : Int) (E : Column) : asClu mcn (toEnts φ E) = varied mcn (numbers E) := by
  unfold asClu
  rw [varied_confused, cntE_toEnts, counts_toEnts]
  have hl : ((toEnts φ E).length : Int) = (numbers E).length := by simp [toEnts, numbers]
  rw [hl]
  by_cases h1 : ((numbers E).length : Int) < mcn
  · rw [if_pos h1, decide_eq_false (by omega), Bool.false_or]
    by_cases h2 : (numbers E).sum < mcn
    · rw [if_pos h2]; unfold confused; rw [if_pos h2]
    · rw [if_neg h2]
  · rw [if_neg h1, decide_eq_true (by omega), Bool.true_or]

theorem sum_split {κ : Type} [DecidableEq κ] {D : List κ} (hn : D.Nodup) (S : κ → Int) (a : κ) (ha : a ∉ D → S a = 0) :
    (D.map S).sum = S a + ((D.filter (fun b => decide (b ≠ a))).map S).sum := by
  induction D with
  | nil => simp [ha]
  | cons d D ih =>
    rw [List.nodup_cons] at hn
    rw [List.map_cons, List.sum_cons]
    by_cases e : d = a
    · subst e
      have : (d :: D).filter (fun b => decide (b ≠ d)) = D := by
        rw [List.filter_cons_of_neg (by simp), List.filter_eq_self]
        intro b hb
        rw [decide_eq_true_eq]
        rintro rfl
        exact hn.1 hb
      rw [this]
    · rw [List.filter_cons_of_pos (by simpa using e), List.map_cons, List.sum_cons, ih hn.2 (fun h => ha (by
        intro h'; rcases List.mem_cons.mp h' with h' | h'
        · exact e h'.symm
        · exact h h'))]
      omega

theorem sum_firsts {α κ : Type} [DecidableEq κ] (f : α → κ) (c : α → Int) (E : List α) :
    ((firsts (E.map f)).map (fun l => ((E.filter (fun e => decide (f e = l))).map c).sum)).sum = (E.map c).sum := by
  induction E with
  | nil => rfl
  | cons x E ih =>
    rw [List.map_cons, firsts, List.map_cons, List.sum_cons, List.map_cons, List.sum_cons, ← ih]
    rw [sum_split (firsts_nodup _) _ (f x) (by
      intro h
      rw [firsts_mem] at h
      have : E.filter (fun e => decide (f e = f x)) = [] := by
        rw [List.filter_eq_nil_iff]
        intro e he
        rw [decide_eq_true_eq]
        intro e'
        exact h (List.mem_map.mpr ⟨e, he, e'⟩)
      rw [this]; rfl)]
    have e1 : ((x :: E).filter (fun e => decide (f e = f x))) = x :: E.filter (fun e => decide (f e = f x)) :=
      List.filter_cons_of_pos (by simp)
    rw [e1, List.map_cons, List.sum_cons]
    have e2 : ((firsts (E.map f)).filter (fun y => decide (y ≠ f x))).map (fun l => (((x :: E).filter (fun e => decide (f e = l))).map c).sum) =
        ((firsts (E.map f)).filter (fun y => decide (y ≠ f x))).map (fun l => ((E.filter (fun e => decide (f e = l))).map c).sum) := by
      apply List.map_congr_left
      intro l hl
      have := of_decide_eq_true (List.mem_filter.mp hl).2
      rw [List.filter_cons_of_neg (by simpa using fun e => this e.symm)]
    rw [e2]
    omega

theorem lengthNumbers_sum (E : Column) : (lengthNumbers E).sum = (numbers E).sum :=
  sum_firsts (fun e : Chunk × Int => writtenLength e.1) (fun e => e.2) E

theorem lenOf_pair {g : Chunk} {p : ParsedPiece} (h : Runny g) (hp : vpair p = gpair g) : lenOf p = writtenLength g := by
  obtain ⟨w, hw⟩ := h
  unfold lenOf
  rw [group_length hw hp, runsOf_runs hw, writtenLength_eq, hw.concat]

theorem written_pos {g : Chunk} (h : Runny g) (hne : g ≠ []) : 1 ≤ writtenLength g := by
  obtain ⟨w, hw⟩ := h
  have h1 := writtenLength_eq g
  have h2 := extra_sum_nonneg g
  cases g with
  | nil => exact absurd rfl hne
  | cons r g =>
    have h3 := List.length_pos_iff.mpr (hw.nonempty r (by simp))
    rw [List.map_cons, List.flatten_cons, List.length_append] at h1
    omega

theorem wild_spec (k : Str) : specStr k (-1) = '[' :: k ++ [']', '+'] := by
  unfold specStr
  rw [if_neg (by omega), if_pos (by omega)]
  simp

theorem len_spec (k : Str) {n : Nat} (hn : 1 ≤ n) :
    specStr k n = '[' :: k ++ ']' :: (if n = 1 then [] else '{' :: decimal n ++ ['}']) := by
  unfold specStr
  by_cases h : n = 1
  · subst h; simp
  · rw [if_neg (by omega), if_neg (by omega), if_pos (by omega), if_neg h, Int.toNat_natCast, natStr_decimal]
    simp

variable (hφ : ∀ g, vpair (φ g) = gpair g)
include hφ

theorem lenGrp_toEnts {E : Column} (hE : ∀ e ∈ E, Runny e.1) (l : Nat) : lenGrp (toEnts φ E) l = toEnts φ (ofLength E l) := by
  unfold lenGrp toEnts ofLength
  rw [List.filter_map]
  congr 1
  apply List.filter_congr
  intro e he
  simp only [Function.comp_apply]
  rw [lenOf_pair (hE e he) (hφ e.1)]
  by_cases h : writtenLength e.1 = l
  · simp [h]
  · rw [decide_eq_false h, decide_eq_false (by omega)]

theorem lens_toEnts {E : Column} (hE : ∀ e ∈ E, Runny e.1) : lens (toEnts φ E) = (firsts (E.map (fun e => writtenLength e.1))).map (fun l : Nat => (l : Int)) := by
  unfold lens toEnts
  rw [← firsts_eq_uniq, List.map_map, ← uniq_map_inj (fun a _ b _ e => by omega), List.map_map]
  congr 1
  apply List.map_congr_left
  intro e he
  exact lenOf_pair (hE e he) (hφ e.1)

theorem lenStop_varied (mcn : Int) {E : Column} (hE : ∀ e ∈ E, Runny e.1) : lenStop mcn (toEnts φ E) = !varied mcn (lengthNumbers E) := by
  unfold lenStop
  rw [varied_confused, lengthNumbers_sum, cntE_toEnts, Bool.not_or, lens_toEnts hφ hE]
  have e1 : ((firsts (E.map (fun e => writtenLength e.1))).map (fun l : Nat => (l : Int))).map (fun l => cntE (lenGrp (toEnts φ E) l)) = lengthNumbers E := by
    unfold lengthNumbers
    rw [List.map_map]
    apply List.map_congr_left
    intro l _
    simp only [Function.comp_apply]
    rw [lenGrp_toEnts hφ hE, cntE_toEnts]
  rw [e1]
  congr 1
  rw [← decide_not]
  simp [lengthNumbers]

theorem wholeText_eq (mcn : Int) {E : Column} (hE : ∀ e ∈ E, Runny e.1) {g : Chunk} (hg : Runny g) (hne : g ≠ []) :
    wholeText mcn E g = lenPat mcn (toEnts φ E) (φ g) := by
  have hp := hφ g
  unfold vpair at hp
  have h1 : (φ g).piece = litText g := (Prod.mk.inj hp).1
  have h2 : (φ g).fuzzyRule = clsText g := by rw [cls_eq hg]; exact (Prod.mk.inj hp).2
  have hl := lenOf_pair hg (hφ g)
  unfold wholeText lenPat
  rw [lenStop_varied hφ mcn hE, h1, h2, hl, lenGrp_toEnts hφ hE, asClu_varied]
  cases varied mcn (lengthNumbers E)
  · simp only [Bool.false_eq_true, if_false, Bool.not_false, if_true]
    rw [len_spec _ (written_pos hg hne)]
    rfl
  · simp only [if_true, Bool.not_true, Bool.false_eq_true, if_false]
    rw [wild_spec]; rfl

end

theorem gpart_vpair (g : Chunk) : vpair (gpart g) = gpair g := vpair_single _ _

/-- The columns of parts with the same class. -/
def PartCol (cls : Nat → Str) (j : Nat) (g : Chunk) : Prop := Runny g ∧ clsText g = cls j

theorem gpart_inj (cls : Nat → Str) : InjOn gpart (PartCol cls) := by
  intro j g g' h h' e
  apply lit_inj h.1 h'.1
  have := congrArg vpair e
  rw [gpart_vpair, gpart_vpair] at this
  exact (Prod.mk.inj this).1

theorem one_chunk {P : Chunk → Prop} {E : Column} (hE : ColOK P E) {g : Chunk} (h : ∀ e ∈ E, e.1 = g) (hg : g ∈ E.map (·.1)) :
    ∃ c, 1 ≤ c ∧ E = [(g, c)] := by
  cases E with
  | nil => simp at hg
  | cons e E =>
    cases E with
    | nil => exact ⟨e.2, hE.pos e (by simp), by rw [← h e (by simp)]⟩
    | cons e' E =>
      have := hE.nodup
      simp only [List.map_cons, List.nodup_cons, List.mem_cons, not_or] at this
      exact absurd (by rw [h e (by simp), h e' (by simp)]) this.1.1

theorem varied_one {mcn : Int} (hm : 2 ≤ mcn) {c : Int} (hc : 1 ≤ c) (g : Chunk) : varied mcn (numbers [(g, c)]) = false := by
  have h := litStop_single hm (gpart g, c) hc
  have h2 := litStop_varied (φ := gpart) mcn [(g, c)]
  unfold toEnts at h2
  rw [List.map_cons, List.map_nil, h] at h2
  cases h3 : varied mcn (numbers [(g, c)])
  · rfl
  · rw [h3] at h2; cases h2

theorem part_agree {mcn : Int} (hm : 2 ≤ mcn) (keep : Bool) (n : Nat) (cls : Nat → Str) :
    AgreeF gpart (PartCol cls) n (partRule mcn keep n) (flatF mcn keep n) := by
  intro j hj E hE g hg
  obtain ⟨e0, he0, rfl⟩ := List.mem_map.mp hg
  have hg0 := hE.mem e0 he0
  have h1 : (gpart e0.1).piece = litText e0.1 := (Prod.mk.inj (gpart_vpair e0.1)).1
  unfold partRule flatF
  rw [litStop_varied, h1]
  by_cases hne : e0.1 = []
  · obtain ⟨c, hc, e⟩ := one_chunk hE (g := e0.1) (fun e he => by
      have := hE.mem e he
      rw [hne]
      apply cls_nil this.1
      rw [this.2, ← hg0.2, hne]; rfl) hg
    rw [e, varied_one hm hc]
    simp
  · rw [wholeText_eq gpart_vpair mcn (fun e he => (hE.mem e he).1) hg0.1 hne]

end OsUrl
