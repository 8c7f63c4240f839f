import Verif.Spec.Url
import Verif.Proofs.Url
import Verif.Proofs.Path

/-! How absolute URLs are read. -/

namespace OsUrl
open Spec

theorem val_toNat (c : Char) : c.val.toNat = c.toNat := rfl

theorem isLower_iff (c : Char) : c.isLower = isLowerC c := by
  unfold Char.isLower isLowerC
  simp only [ge_iff_le, UInt32.le_iff_toNat_le, val_toNat]
  rfl

theorem isUpper_iff (c : Char) : c.isUpper = isUpperC c := by
  unfold Char.isUpper isUpperC
  simp only [ge_iff_le, UInt32.le_iff_toNat_le, val_toNat]
  rw [Bool.decide_and]
  rfl

theorem isAlpha_iff (c : Char) : c.isAlpha = (isLowerC c || isUpperC c) := by
  unfold Char.isAlpha
  rw [isLower_iff, isUpper_iff, Bool.or_comm]

theorem isDigit_iff (c : Char) : c.isDigit = isDigitC c := by
  unfold Char.isDigit isDigitC
  simp only [ge_iff_le, UInt32.le_iff_toNat_le, val_toNat]
  rfl

theorem toLower_iff (c : Char) : c.toLower = lowerC c := by
  by_cases h : isUpperC c = true
  · have h2 := h
    unfold isUpperC at h2
    simp only [Bool.and_eq_true, decide_eq_true_eq] at h2
    have key : ∀ n, 65 ≤ n → n ≤ 90 → (Char.ofNat n).toLower = lowerC (Char.ofNat n) := by
      intro n h1 h2
      have : ∀ n < 91, 65 ≤ n → (Char.ofNat n).toLower = lowerC (Char.ofNat n) := by decide
      exact this n (by omega) h1
    have := key c.toNat h2.1 h2.2
    rwa [Char.ofNat_toNat] at this
  · unfold lowerC
    rw [if_neg h]
    unfold Char.toLower
    rw [dif_neg]
    intro hc
    apply h
    rw [← isUpper_iff]
    unfold Char.isUpper
    simp only [Bool.and_eq_true, decide_eq_true_eq]
    exact hc

theorem splitNetloc_host {h rest : Str} (hh : ∀ c ∈ h, c ∉ ['/', '?', '#']) (hr : rest.head? = some '/') :
    splitNetloc (h ++ rest) = (h, rest) := by
  induction h with
  | nil =>
    cases rest with
    | nil => cases hr
    | cons x xs =>
      simp at hr
      subst hr
      simp [splitNetloc]
  | cons x xs ih =>
    have hx := hh x (by simp)
    simp only [List.mem_cons, List.not_mem_nil, or_false, not_or] at hx
    rw [List.cons_append, splitNetloc, if_neg (by simp [hx]), ih (fun c hc => hh c (by simp [hc]))]

theorem splitScheme_abs {scheme rest : Str}
    (h : ∃ c t, scheme = c :: t ∧ c.isAlpha = true ∧ ∀ d ∈ t, d.isAlphanum = true ∨ d ∈ ['+', '-', '.']) :
    splitScheme (scheme ++ ':' :: rest) = (scheme.map Char.toLower, rest) := by
  obtain ⟨c, t, rfl, h1, h2⟩ := h
  have hc : ∀ d ∈ c :: t, isSchemeC d = true := by
    intro d hd
    rcases List.mem_cons.mp hd with rfl | hd
    · rw [isAlpha_iff] at h1
      unfold isSchemeC isAlnumC
      rw [h1]; rfl
    · rcases h2 d hd with h | h
      · unfold Char.isAlphanum at h
        rw [isAlpha_iff, isDigit_iff] at h
        unfold isSchemeC isAlnumC
        rw [h]; rfl
      · simp only [List.mem_cons, List.not_mem_nil, or_false] at h
        rcases h with rfl | rfl | rfl <;> decide
  have hn : ':' ∉ c :: t := by
    intro hm
    have := hc _ hm
    revert this; decide
  unfold splitScheme
  rw [findChar_append_cons hn]
  simp only [List.cons_append]
  rw [if_pos]
  · congr 1
    · rw [← List.cons_append, List.take_left]
      exact List.map_congr_left fun d _ => (toLower_iff d).symm
    · rw [← List.cons_append, List.drop_append]
      simp
  · refine ⟨by simp, by rw [← isAlpha_iff]; exact h1, ?_⟩
    rw [← List.cons_append, List.take_left, List.all_eq_true]
    exact hc

theorem pathText_concat (ss : List Str) (s : Str) : pathText (ss ++ [s]) = pathText ss ++ '/' :: s := by
  induction ss with
  | nil => simp [pathText]
  | cons x xs ih => simp [pathText, ih]

theorem pathText_head {ss : List Str} (h : ss ≠ []) : (pathText ss).head? = some '/' := by
  cases ss with
  | nil => exact absurd rfl h
  | cons x xs => rfl

theorem pathText_mem {ss : List Str} {c : Char} (h : c ∈ pathText ss) : c = '/' ∨ ∃ s ∈ ss, c ∈ s := by
  induction ss with
  | nil => simp [pathText] at h
  | cons x xs ih =>
    simp only [pathText, List.cons_append, List.mem_cons, List.mem_append] at h
    rcases h with h | h | h
    · exact .inl h
    · exact .inr ⟨x, by simp, h⟩
    · rcases ih h with h | ⟨s, hs, hc⟩
      · exact .inl h
      · exact .inr ⟨s, by simp [hs], hc⟩

theorem takeWhile_cut {c : Char} {a b : Str} (h : c ∉ a) : (a ++ c :: b).takeWhile (· ≠ c) = a := by
  induction a with
  | nil => simp
  | cons x xs ih =>
    have : x ≠ c := fun e => h (by simp [e])
    simp only [List.cons_append, List.takeWhile_cons, this, ne_eq, not_false_eq_true, decide_true, if_true]
    rw [ih (fun hm => h (by simp [hm]))]

theorem takeWhile_all {c : Char} {a : Str} (h : c ∉ a) : a.takeWhile (· ≠ c) = a := by
  induction a with
  | nil => rfl
  | cons x xs ih =>
    have : x ≠ c := fun e => h (by simp [e])
    simp only [List.takeWhile_cons, this, ne_eq, not_false_eq_true, decide_true, if_true]
    rw [ih (fun hm => h (by simp [hm]))]

theorem dropWhile_cut {c : Char} {a b : Str} (h : c ∉ a) : (a ++ c :: b).dropWhile (· ≠ c) = c :: b := by
  induction a with
  | nil => simp
  | cons x xs ih =>
    have : x ≠ c := fun e => h (by simp [e])
    simp only [List.cons_append, List.dropWhile_cons, this, ne_eq, not_false_eq_true, decide_true, if_true]
    rw [ih (fun hm => h (by simp [hm]))]

theorem dropWhile_none {c : Char} {a : Str} (h : c ∉ a) : a.dropWhile (· ≠ c) = [] := by
  induction a with
  | nil => rfl
  | cons x xs ih =>
    have : x ≠ c := fun e => h (by simp [e])
    simp only [List.dropWhile_cons, this, ne_eq, not_false_eq_true, decide_true, if_true]
    rw [ih (fun hm => h (by simp [hm]))]

theorem splitParams_last {dir last : Str} (h : '/' ∉ last) :
    splitParams (dir ++ '/' :: last) = (dir ++ '/' :: last.takeWhile (· ≠ ';'), (last.dropWhile (· ≠ ';')).drop 1) := by
  unfold splitParams
  rw [rfindChar_append_cons h]
  simp only [List.drop_left]
  by_cases hs : ';' ∈ last
  · obtain ⟨a, b, rfl, ha⟩ := exists_first hs
    have : findChar ';' ('/' :: (a ++ ';' :: b)) = some ('/' :: a).length := by
      rw [← List.cons_append, findChar_append_cons (by simp [ha])]
    rw [this, takeWhile_cut ha, dropWhile_cut ha]
    simp only
    have e0 : dir ++ '/' :: (a ++ ';' :: b) = (dir ++ '/' :: a) ++ ';' :: b := by simp
    have e1 : dir.length + ('/' :: a).length = (dir ++ '/' :: a).length := by simp
    rw [e0, e1, List.take_left, ← List.drop_drop, List.drop_left]
  · have : findChar ';' ('/' :: last) = none := findChar_none.mpr (by simp [hs])
    rw [this, takeWhile_all hs, dropWhile_none hs]
    rfl

theorem cut_opt {c : Char} {a : Str} (ha : c ∉ a) (t : Option Str) : cutChar c (a ++ optPart c t) = (a, t.getD []) := by
  cases t with
  | none => simpa [optPart] using cutChar_of_not_mem ha
  | some t => exact cutChar_of_mem ha

theorem usesParams_iff {s : Str} (h : s ≠ []) : s ∈ usesParams ↔ s ∈ paramSchemes := by
  unfold usesParams paramSchemes
  constructor
  · intro hm
    rcases List.mem_cons.mp hm with e | hm
    · exact absurd e h
    · exact hm
  · intro hm
    exact List.mem_cons_of_mem _ hm

theorem abs_urlparse {u : AbsUrl} (h : u.OK) : urlparse u.text =
    .ok ⟨u.scheme.map Char.toLower, u.host, pathText (u.segs ++ [u.leaf]), u.params, u.query.getD [], u.fragment.getD []⟩ := by
  have e : u.text = u.scheme ++ ':' :: ('/' :: '/' :: (u.host ++ (pathText (u.segs ++ [u.last]) ++ optPart '?' u.query ++ optPart '#' u.fragment))) := by
    simp [AbsUrl.text]
  have hnp : ∀ c ∈ pathText (u.segs ++ [u.last]), c ≠ '?' ∧ c ≠ '#' := by
    intro c hc
    rcases pathText_mem hc with rfl | ⟨s, hs, hc⟩
    · decide
    · have := h.segs s hs c hc
      simp only [List.mem_cons, List.not_mem_nil, or_false, not_or] at this
      exact this.2
  have hq : '?' ∉ pathText (u.segs ++ [u.last]) := fun hm => (hnp _ hm).1 rfl
  have hh : '#' ∉ pathText (u.segs ++ [u.last]) ++ optPart '?' u.query := by
    intro hm
    rcases List.mem_append.mp hm with hm | hm
    · exact (hnp _ hm).2 rfl
    · cases hqq : u.query with
      | none => rw [hqq] at hm; cases hm
      | some q =>
        rw [hqq] at hm
        rcases List.mem_cons.mp hm with h1 | h1
        · revert h1; decide
        · exact h.query q hqq h1
  have hne : u.scheme.map Char.toLower ≠ [] := by
    obtain ⟨c, t, e, -⟩ := h.scheme
    rw [e]; simp
  have hl : '/' ∉ u.last := fun hm => by
    have := h.segs u.last (by simp) _ hm
    simp at this
  unfold urlparse
  rw [e, splitScheme_abs h.scheme]
  simp only
  have hst : ∀ x : Str, startsWith ['/', '/'] ('/' :: '/' :: x) = true := fun x => by simp [startsWith, List.isPrefixOf]
  rw [if_pos (hst _)]
  simp only [List.drop_succ_cons, List.drop_zero]
  rw [splitNetloc_host h.host (by rw [List.append_assoc, List.head?_append, pathText_head (by simp)]; rfl)]
  simp only
  have hb : (hasChar '[' u.host != hasChar ']' u.host) = false := by
    rw [hasChar_eq, hasChar_eq]
    simp [h.brackets]
  rw [hb]
  simp only [Bool.false_eq_true, if_false]
  rw [cut_opt hh]
  simp only
  rw [cut_opt hq]
  simp only
  by_cases hp : u.HasParams
  · have hleaf : u.leaf = u.last.takeWhile (· ≠ ';') := by unfold AbsUrl.leaf; rw [if_pos hp]
    have hpar : u.params = (u.last.dropWhile (· ≠ ';')).drop 1 := by unfold AbsUrl.params; rw [if_pos hp]
    by_cases hs : hasChar ';' (pathText (u.segs ++ [u.last])) = true
    · rw [if_pos ⟨(usesParams_iff hne).mpr hp, hs⟩]
      have := splitParams_last (dir := pathText u.segs) hl
      rw [← pathText_concat] at this
      rw [hleaf, hpar, this, pathText_concat]
    · rw [if_neg (fun hx => hs hx.2)]
      have hn : ';' ∉ u.last := by
        intro hm
        apply hs
        rw [hasChar_iff, pathText_concat]
        simp [hm]
      rw [hleaf, hpar, takeWhile_all hn, dropWhile_none hn]
      rfl
  · rw [if_neg (fun hx => hp ((usesParams_iff hne).mp hx.1))]
    unfold AbsUrl.leaf AbsUrl.params
    rw [if_neg hp, if_neg hp]

theorem abs_pre {u : AbsUrl} (h : u.OK) :
    ('?' ∉ u.scheme ++ ':' :: '/' :: '/' :: u.host ++ pathText (u.segs ++ [u.last])) ∧
    ('#' ∉ u.scheme ++ ':' :: '/' :: '/' :: u.host ++ pathText (u.segs ++ [u.last])) := by
  have key : ∀ c ∈ u.scheme ++ ':' :: '/' :: '/' :: u.host ++ pathText (u.segs ++ [u.last]), c ≠ '?' ∧ c ≠ '#' := by
    intro c hc
    simp only [List.mem_append, List.mem_cons] at hc
    rcases hc with (hc | rfl | rfl | rfl | hc) | hc
    · obtain ⟨a, t, e, h1, h2⟩ := h.scheme
      rw [e] at hc
      have : c.isAlphanum = true ∨ c ∈ ['+', '-', '.'] := by
        rcases List.mem_cons.mp hc with rfl | hc
        · left; unfold Char.isAlphanum; rw [h1]; rfl
        · exact h2 c hc
      constructor
      · rintro rfl; revert this; decide
      · rintro rfl; revert this; decide
    · decide
    · decide
    · decide
    · have := h.host c hc
      simp only [List.mem_cons, List.not_mem_nil, or_false, not_or] at this
      exact this.2
    · rcases pathText_mem hc with rfl | ⟨s, hs, hc⟩
      · decide
      · have := h.segs s hs c hc
        simp only [List.mem_cons, List.not_mem_nil, or_false, not_or] at this
        exact this.2
  exact ⟨fun hm => (key _ hm).1 rfl, fun hm => (key _ hm).2 rfl⟩

theorem optPart_mem (c : Char) (t : Option Str) : c ∈ optPart c t ↔ t.isSome = true := by
  cases t <;> simp [optPart]

theorem abs_marks {u : AbsUrl} (h : u.OK) : queryOf u.text = u.query ∧ fragOf u.text = u.fragment := by
  obtain ⟨h1, h2⟩ := abs_pre h
  have h3 : '#' ∉ u.scheme ++ ':' :: '/' :: '/' :: u.host ++ pathText (u.segs ++ [u.last]) ++ optPart '?' u.query := by
    intro hm
    rcases List.mem_append.mp hm with hm | hm
    · exact h2 hm
    · cases hqq : u.query with
      | none => rw [hqq] at hm; cases hm
      | some q =>
        rw [hqq] at hm
        rcases List.mem_cons.mp hm with h1 | h1
        · revert h1; decide
        · exact h.query q hqq h1
  have hc : cutChar '#' u.text = (u.scheme ++ ':' :: '/' :: '/' :: u.host ++ pathText (u.segs ++ [u.last]) ++ optPart '?' u.query,
      u.fragment.getD []) := cut_opt h3 u.fragment
  have hm : '#' ∈ u.text ↔ u.fragment.isSome = true := by
    rw [← optPart_mem '#']
    unfold AbsUrl.text
    rw [List.mem_append]
    exact ⟨fun hx => hx.resolve_left h3, .inr⟩
  have hm2 : '?' ∈ (cutChar '#' u.text).1 ↔ u.query.isSome = true := by
    rw [hc, ← optPart_mem '?']
    rw [List.mem_append]
    exact ⟨fun hx => hx.resolve_left h1, .inr⟩
  constructor
  · unfold queryOf
    by_cases hx : u.query.isSome = true
    · rw [if_pos (hm2.mpr hx), hc]
      simp only
      rw [cut_opt h1]
      cases hq : u.query with
      | none => rw [hq] at hx; cases hx
      | some q => rfl
    · rw [if_neg (fun hy => hx (hm2.mp hy))]
      cases hq : u.query with
      | none => rfl
      | some q => rw [hq] at hx; exact absurd rfl hx
  · unfold fragOf
    by_cases hx : u.fragment.isSome = true
    · rw [if_pos (hm.mpr hx), hc]
      cases hq : u.fragment with
      | none => rw [hq] at hx; cases hx
      | some q => rfl
    · rw [if_neg (fun hy => hx (hm.mp hy))]
      cases hq : u.fragment with
      | none => rfl
      | some q => rw [hq] at hx; exact absurd rfl hx

theorem abs_parseUrl {u : AbsUrl} (h : u.OK) : parseUrl u.text =
    .ok (⟨u.scheme.map Char.toLower, u.host, pathText (u.segs ++ [u.leaf]), u.params, u.query.getD [], u.fragment.getD []⟩, u.query, u.fragment) := by
  have hu := abs_urlparse h
  obtain ⟨c, t, e, h1, -⟩ := h.scheme
  have hhd : u.text.head? = some c := by simp [AbsUrl.text, e]
  rw [parseUrl_eq hu (by intro hx; rw [hx] at hhd; cases hhd) (by
    rw [hhd]
    intro hx
    rw [Option.some.inj hx] at h1
    revert h1; decide), (abs_marks h).1, (abs_marks h).2]

theorem pathText_split {ss : List Str} (h : ∀ s ∈ ss, '/' ∉ s) (hne : ss ≠ []) : (splitChar '/' (pathText ss)).drop 1 = ss := by
  have : pathText ss = [] ++ '/' :: join ['/'] ss := by
    clear h
    induction ss with
    | nil => exact absurd rfl hne
    | cons x xs ih =>
      cases xs with
      | nil => simp [pathText, join]
      | cons y ys => rw [pathText, ih (by simp)]; simp [join]
  rw [this, splitChar_append (by simp), splitChar_join hne h]
  rfl

theorem abs_pieces {u : AbsUrl} (h : u.OK) : filterUseless ((splitChar '/' (pathText (u.segs ++ [u.leaf]))).drop 1) = u.pathPieces := by
  have hsl : ∀ s ∈ u.segs ++ [u.leaf], '/' ∉ s := by
    intro s hs hm
    rcases List.mem_append.mp hs with hs | hs
    · have := h.segs s (by simp [hs]) _ hm; simp at this
    · rw [List.mem_singleton] at hs
      subst hs
      have hm' : '/' ∈ u.last := by
        unfold AbsUrl.leaf at hm
        split at hm
        · exact (List.takeWhile_prefix _).subset hm
        · exact hm
      have := h.segs u.last (by simp) _ hm'; simp at this
  rw [pathText_split hsl (by simp), filterUseless_eq (by simp)]
  unfold AbsUrl.pathPieces
  rw [List.filter_append, List.append_assoc]
  congr 1
  by_cases hl : u.leaf = []
  · simp [hl]
  · simp [hl]

end OsUrl
