import Verif.Proofs.Normalize
import Verif.Proofs.Path
import Verif.Proofs.Url
import Verif.Proofs.Query

/-! URL structures: `analyze_url`, `pack` and `analyze_url_pattern_string`. -/

namespace OsUrl
open Spec

/-- Path parts of a URL structure. -/
structure PathOK (ps : List Str) : Prop where
  ne : ps ≠ []
  chars : ∀ p ∈ ps, '/' ∉ p ∧ '?' ∉ p ∧ '#' ∉ p
  nonempty : ∀ p ∈ ps.dropLast, p ≠ []

/-- A key and its value. -/
def PairOK (k v : Str) : Prop :=
  k ≠ [] ∧ ('&' ∉ k ∧ '#' ∉ k) ∧ ('&' ∉ v ∧ '#' ∉ v) ∧
    ((∃ a, k = a ++ ['='] ∧ '=' ∉ a) ∨ ('=' ∉ k ∧ v = []))

/-- Keys and values of a URL structure. -/
inductive QueryOK : List Str → List Str → Prop where
  | none : QueryOK [] []
  | value {v} : '&' ∉ v → '=' ∉ v → '#' ∉ v → QueryOK [[]] [v]
  | pairs {ks vs} : ks ≠ [] → ks.length = vs.length → (∀ x ∈ ks.zip vs, PairOK x.1 x.2) →
      (∀ k, ks = [k] → '=' ∈ k) → QueryOK ks vs

/-- A URL structure with its parts. -/
structure StructOK (m : URLMeta) (ps vs fs : List Str) : Prop where
  path : PathOK ps
  query : QueryOK m.queryKeys vs
  depth : m.pathDepth = ps.length
  frag : fs.length = if m.hasFragment then 1 else 0

theorem QueryOK.length {ks vs : List Str} (h : QueryOK ks vs) : ks.length = vs.length := by
  cases h <;> simp_all

/-! ### finding the separators -/

theorem find_some {sub s : Str} {i : Nat} (h : find sub s = some i) :
    sub.isPrefixOf (s.drop i) = true := by
  induction s generalizing i with
  | nil => simp [find] at h; obtain ⟨h1, rfl⟩ := h; simp [h1]
  | cons x xs ih =>
    simp only [find] at h
    split at h
    · rename_i hp; simp at h; subst h; simpa using hp
    · simp at h
      obtain ⟨j, hj, rfl⟩ := h
      simpa using ih hj

/-- Where `[\?]` occurs. -/
theorem singleQuestion_at {s : Str} {i : Nat} (h : singleQuestion.isPrefixOf (s.drop i) = true) :
    s[i]? = some '[' ∧ s[i + 1]? = some '\\' ∧ s[i + 2]? = some '?' := by
  obtain ⟨t, ht⟩ := List.isPrefixOf_iff_prefix.mp h
  have e : ∀ j, s[i + j]? = (singleQuestion ++ t)[j]? := by
    intro j; rw [ht, List.getElem?_drop]
  exact ⟨by simpa [singleQuestion] using e 0, by simpa [singleQuestion] using e 1, by simpa [singleQuestion] using e 2⟩

/-- The text does not contain `[\?`. -/
def NoQ (P : Str) : Prop := ∀ i : Nat, ¬ (P[i]? = some '[' ∧ P[i + 1]? = some '\\' ∧ P[i + 2]? = some '?')

theorem noQ_of_notMem {P : Str} (h : '?' ∉ P) : NoQ P :=
  fun _ hi => h (List.mem_of_getElem? hi.2.2)

theorem no_singleQuestion {P R : Str} (hP : NoQ P) (hR : R.head? ≠ some '?' ∧ R.head? ≠ some '\\')
    {i : Nat} (hi : i < P.length) : singleQuestion.isPrefixOf ((P ++ R).drop i) = false := by
  cases h : singleQuestion.isPrefixOf ((P ++ R).drop i) with
  | false => rfl
  | true =>
    obtain ⟨h0, h1, h2⟩ := singleQuestion_at h
    by_cases h3 : i + 2 < P.length
    · rw [List.getElem?_append_left h3] at h2
      rw [List.getElem?_append_left (by omega)] at h0 h1
      exact absurd ⟨h0, h1, h2⟩ (hP i)
    · by_cases h4 : i + 2 = P.length
      · rw [List.getElem?_append_right (by omega)] at h2
        rw [h4, Nat.sub_self] at h2
        rw [List.head?_eq_getElem?] at hR
        exact absurd h2 hR.1
      · rw [List.getElem?_append_right (by omega)] at h1
        rw [show i + 1 - P.length = 0 by omega] at h1
        rw [List.head?_eq_getElem?] at hR
        exact absurd h1 hR.2

theorem parse_plain {P : Str} (h1 : NoQ P) (h2 : '#' ∉ P) : parseUrlPatternString P = ⟨some P, none, none⟩ := by
  have e1 : find singleQuestion P = none := by
    apply find_none_of (by decide)
    intro i
    cases h : singleQuestion.isPrefixOf (P.drop i) with
    | false => rfl
    | true => exact absurd (singleQuestion_at h) (h1 i)
  unfold parseUrlPatternString
  rw [e1, findChar_none.mpr h2]

theorem parse_query {P Q : Str} (hP : P ≠ []) (h1 : NoQ P) (h2 : '#' ∉ P) (h3 : '#' ∉ Q) :
    parseUrlPatternString (P ++ singleQuestion ++ Q) = ⟨some P, some Q, none⟩ := by
  have e1 : find singleQuestion (P ++ singleQuestion ++ Q) = some P.length := by
    apply find_append (by decide)
    intro i hi
    rw [List.append_assoc]
    exact no_singleQuestion h1 (by simp [singleQuestion]) hi
  have e2 : findChar '#' (P ++ singleQuestion ++ Q) = none := by
    apply findChar_none.mpr
    simp [singleQuestion, h2, h3]
  unfold parseUrlPatternString
  rw [e1, e2]
  have hl : P.length > 0 := List.length_pos_iff.mpr hP
  have e3 : (P ++ singleQuestion ++ Q).drop (P.length + 4) = Q := by
    apply List.drop_left'
    simp [singleQuestion]
  simp only [hl, if_true, e3]
  rw [List.append_assoc, List.take_left]

theorem parse_frag {P F : Str} (hP : P ≠ []) (h1 : NoQ P) (h2 : '#' ∉ P) :
    parseUrlPatternString (P ++ '#' :: F) = ⟨some P, none, some F⟩ := by
  have e2 : findChar '#' (P ++ '#' :: F) = some P.length := findChar_append_cons h2
  have hl : P.length > 0 := List.length_pos_iff.mpr hP
  have e3 : (P ++ '#' :: F).drop (P.length + 1) = F := by
    rw [show P ++ '#' :: F = (P ++ ['#']) ++ F by simp]
    apply List.drop_left'
    simp
  unfold parseUrlPatternString
  rw [e2]
  cases h : find singleQuestion (P ++ '#' :: F) with
  | none => simp only [hl, if_true, e3, List.take_left]
  | some i =>
    have hf := find_some h
    have hi : P.length < i := by
      rcases Nat.lt_trichotomy i P.length with hlt | heq | hgt
      · rw [no_singleQuestion h1 (by simp) hlt] at hf; cases hf
      · have := (singleQuestion_at hf).1
        rw [heq, List.getElem?_append_right (by omega)] at this
        simp at this
      · exact hgt
    have h5 : ¬ (P.length > i) := by omega
    have h6 : i > 0 := by omega
    simp only [hl, h6, and_self, if_true, h5, if_false, e3, List.take_left]

theorem parse_both {P Q F : Str} (hP : P ≠ []) (h1 : NoQ P) (h2 : '#' ∉ P) (h3 : '#' ∉ Q) :
    parseUrlPatternString (P ++ singleQuestion ++ Q ++ '#' :: F) = ⟨some P, some Q, some F⟩ := by
  have e1 : find singleQuestion (P ++ singleQuestion ++ Q ++ '#' :: F) = some P.length := by
    rw [List.append_assoc]
    apply find_append (by decide)
    intro i hi
    rw [List.append_assoc]
    exact no_singleQuestion h1 (by simp [singleQuestion]) hi
  have e2 : findChar '#' (P ++ singleQuestion ++ Q ++ '#' :: F) = some (P ++ singleQuestion ++ Q).length := by
    apply findChar_append_cons
    simp [singleQuestion, h2, h3]
  have hl : P.length > 0 := List.length_pos_iff.mpr hP
  have e3 : (P ++ singleQuestion ++ Q ++ '#' :: F).drop ((P ++ singleQuestion ++ Q).length + 1) = F := by
    rw [show P ++ singleQuestion ++ Q ++ '#' :: F = (P ++ singleQuestion ++ Q ++ ['#']) ++ F by simp]
    apply List.drop_left'
    simp; omega
  have e4 : ((P ++ singleQuestion ++ Q ++ '#' :: F).take (P ++ singleQuestion ++ Q).length).drop (P.length + 4) = Q := by
    rw [List.take_left]
    apply List.drop_left'
    simp [singleQuestion]
  have e5 : (P ++ singleQuestion ++ Q ++ '#' :: F).take P.length = P := by
    rw [List.append_assoc, List.append_assoc, List.take_left]
  unfold parseUrlPatternString
  rw [e1, e2]
  have h5 : (P ++ singleQuestion ++ Q).length > P.length := by simp [singleQuestion]
  have h6 : (P ++ singleQuestion ++ Q).length > 0 := by omega
  simp only [hl, h6, and_self, if_true, h5, e3, e4, e5]

/-! ### the query -/

theorem pairOK_item {k v : Str} (h : PairOK k v) : itemKV (k ++ v) = (k, v) := by
  obtain ⟨-, -, -, ⟨a, rfl, ha⟩ | ⟨h1, rfl⟩⟩ := h
  · have := itemKV_key (b := v) ha
    simpa using this
  · rw [List.append_nil, itemKV_ne h1]

/-- One item. -/
theorem parseQueryString_single {it : Str} (h : it ≠ []) (ha : '&' ∉ it) :
    parseQueryString (some it) =
      if '=' ∈ it then .ok ([(itemKV it).1], [(itemKV it).2]) else .ok ([[]], [it]) := by
  have e : join ['&'] [it] = it := rfl
  have := parseQueryString_items [it] (by simp) (by simpa using ha) (by rw [e]; exact h)
  rw [if_neg (by simpa using h)] at this
  exact this

/-- Several items. -/
theorem parseQueryString_multi {items : List Str} (hne : items ≠ []) (ha : ∀ it ∈ items, '&' ∉ it)
    (hq : join ['&'] items ≠ []) (hl : items.length ≠ 1) :
    parseQueryString (some (join ['&'] items)) =
      if [] ∈ items then .error .irregularURL
      else .ok (items.map (itemKV · |>.1), items.map (itemKV · |>.2)) := by
  cases items with
  | nil => exact absurd rfl hne
  | cons a l =>
    cases l with
    | nil => simp at hl
    | cons b l => exact parseQueryString_items _ hne ha hq

theorem map_zip_fst {α β : Type} {xs : List α} {ys : List β} (h : xs.length = ys.length) :
    (xs.zip ys).map (·.1) = xs := List.map_fst_zip (by omega)

theorem map_zip_snd {α β : Type} {xs : List α} {ys : List β} (h : xs.length = ys.length) :
    (xs.zip ys).map (·.2) = ys := List.map_snd_zip (by omega)

/-- The query text of a structure. -/
def queryText (ks vs : List Str) : Str := join ['&'] ((ks.zip vs).map (fun kv => kv.1 ++ kv.2))

theorem parseQueryString_text {ks vs : List Str} (h : QueryOK ks vs) (hne : ks ≠ []) :
    parseQueryString (some (queryText ks vs)) = .ok (ks, vs) := by
  cases h with
  | none => exact absurd rfl hne
  | @value v h1 h2 h3 =>
    have e : queryText [[]] [v] = join ['&'] [v] := by simp [queryText]
    by_cases hv : v = []
    · subst hv; rfl
    · rw [e, parseQueryString_items [v] (by simp) (by simpa using h1) (by simpa [join] using hv)]
      rw [if_neg (by simpa using hv)]
      simp only [if_neg h2]
  | pairs h1 h2 h3 h4 =>
    have hmap1 : ((ks.zip vs).map (fun kv => kv.1 ++ kv.2)).map (itemKV · |>.1) = ks := by
      rw [List.map_map]
      conv => rhs; rw [← map_zip_fst h2]
      apply List.map_congr_left
      intro x hx
      simp [pairOK_item (h3 x hx)]
    have hmap2 : ((ks.zip vs).map (fun kv => kv.1 ++ kv.2)).map (itemKV · |>.2) = vs := by
      rw [List.map_map]
      conv => rhs; rw [← map_zip_snd h2]
      apply List.map_congr_left
      intro x hx
      simp [pairOK_item (h3 x hx)]
    have hamp : ∀ it ∈ (ks.zip vs).map (fun kv => kv.1 ++ kv.2), '&' ∉ it := by
      intro it hit
      rw [List.mem_map] at hit
      obtain ⟨x, hx, rfl⟩ := hit
      obtain ⟨-, ⟨a1, -⟩, ⟨a2, -⟩, -⟩ := h3 x hx
      simp [a1, a2]
    have hnil : [] ∉ (ks.zip vs).map (fun kv => kv.1 ++ kv.2) := by
      intro hm
      rw [List.mem_map] at hm
      obtain ⟨x, hx, he⟩ := hm
      have := (h3 x hx).1
      simp at he
      exact this he.1
    have hine : (ks.zip vs).map (fun kv => kv.1 ++ kv.2) ≠ [] := by
      intro h0
      rw [h0] at hmap1
      exact hne hmap1.symm
    have hj : join ['&'] ((ks.zip vs).map (fun kv => kv.1 ++ kv.2)) ≠ [] := by
      intro h0
      cases hl : (ks.zip vs).map (fun kv => kv.1 ++ kv.2) with
      | nil => exact hine hl
      | cons x xs =>
        have hx : x ≠ [] := by rintro rfl; exact hnil (by simp [hl])
        rw [hl] at h0
        cases xs with
        | nil => simp [join] at h0; exact hx h0
        | cons y ys => simp [join] at h0
    unfold queryText
    generalize (ks.zip vs).map (fun kv => kv.1 ++ kv.2) = items at *
    by_cases hl : items.length = 1
    · obtain ⟨it, rfl⟩ := List.length_eq_one_iff.mp hl
      have hk := h4 (itemKV it).1 (by simpa using hmap1.symm)
      have : '=' ∈ it := by
        rw [← itemKV_concat it]; simp [hk]
      rw [← hmap1, ← hmap2]
      exact (parseQueryString_single (by simpa [join] using hj) (hamp it (by simp))).trans (if_pos this)
    · rw [parseQueryString_multi hine hamp hj hl, if_neg hnil, hmap1, hmap2]

theorem queryText_hash {ks vs : List Str} (h : QueryOK ks vs) : '#' ∉ queryText ks vs := by
  intro hm
  unfold queryText at hm
  rcases mem_join hm with hm | ⟨x, hx, hc⟩
  · simp at hm
  · rw [List.mem_map] at hx
    obtain ⟨y, hy, rfl⟩ := hx
    cases h with
    | none => simp at hy
    | value h1 h2 h3 =>
      simp at hy; subst hy
      simp at hc; exact h3 hc
    | pairs h1 h2 h3 h4 =>
      obtain ⟨-, ⟨-, a1⟩, ⟨-, a2⟩, -⟩ := h3 y hy
      simp at hc
      rcases hc with hc | hc
      · exact a1 hc
      · exact a2 hc

/-! ### the round trip -/

theorem filterUseless_id {ps : List Str} (h : ∀ p ∈ ps.dropLast, p ≠ []) : filterUseless ps = ps := by
  induction ps with
  | nil => rfl
  | cons x xs ih =>
    cases xs with
    | nil => rfl
    | cons y ys =>
      have hx : x ≠ [] := h x (by simp)
      simp only [filterUseless, if_neg hx]
      rw [ih (fun p hp => h p (by simp [hp]))]

theorem splitPath {ps : List Str} (h : PathOK ps) :
    filterUseless ((splitChar '/' ('/' :: join ['/'] ps)).drop 1) = ps := by
  have : splitChar '/' ('/' :: join ['/'] ps) = [] :: splitChar '/' (join ['/'] ps) := by
    have := splitChar_append (c := '/') (a := []) (b := join ['/'] ps) (by simp)
    simpa using this
  rw [this, splitChar_join h.ne (fun p hp => (h.chars p hp).1)]
  exact filterUseless_id h.nonempty

/-- `pack` of a structure. -/
theorem pack_eq {m : URLMeta} {ps vs fs : List Str} (h : StructOK m ps vs fs) :
    pack m (ps ++ vs ++ fs) = '/' :: join ['/'] ps
      ++ (if m.queryKeys = [] then [] else singleQuestion ++ queryText m.queryKeys vs)
      ++ (if m.hasFragment then '#' :: fs.flatten else []) := by
  have hl := h.query.length
  have hd := h.depth
  unfold pack queryText
  have e1 : (ps ++ vs ++ fs).take m.pathDepth = ps := by
    rw [List.append_assoc, hd, List.take_left]
  have e2 : (ps ++ vs ++ fs).take (m.pathDepth + m.queryKeys.length) = ps ++ vs :=
    List.take_left' (by simp; omega)
  have e3 : (ps ++ vs).drop m.pathDepth = vs := List.drop_left' hd.symm
  have e4 : (ps ++ vs ++ fs).drop (m.pathDepth + m.queryKeys.length) = fs :=
    List.drop_left' (by simp; omega)
  simp only [e1, e2, e3, e4]
  have e5 : (m.queryKeys.length > 0) ↔ ¬ (m.queryKeys = []) := by
    rw [← List.length_eq_zero_iff]; omega
  congr 1
  by_cases hk : m.queryKeys = []
  · rw [if_pos hk, if_neg (by simpa using hk)]; rfl
  · rw [if_neg hk, if_pos (e5.mpr hk)]; rfl

theorem analyzePattern_pack {m : URLMeta} {ps vs fs : List Str} (h : StructOK m ps vs fs) :
    analyzeUrlPatternString (pack m (ps ++ vs ++ fs)) = .ok (m, ps ++ vs ++ fs) := by
  rw [pack_eq h]
  have hp1 : NoQ ('/' :: join ['/'] ps) := by
    apply noQ_of_notMem
    intro hm
    simp at hm
    rcases mem_join hm with hm | ⟨x, hx, hc⟩
    · simp at hm
    · exact (h.path.chars x hx).2.1 hc
  have hp2 : '#' ∉ '/' :: join ['/'] ps := by
    intro hm
    simp at hm
    rcases mem_join hm with hm | ⟨x, hx, hc⟩
    · simp at hm
    · exact (h.path.chars x hx).2.2 hc
  have hq := queryText_hash h.query
  have hlen : ps.length ≠ 0 := by
    exact fun h0 => h.path.ne (List.length_eq_zero_iff.mp h0)
  have hsplit := splitPath h.path
  have hdep := h.depth
  have hfrag := h.frag
  have hqok := h.query
  obtain ⟨pd, qks, hf⟩ := m
  simp only at *
  subst hdep
  have hu : ∀ q f, (q = if qks = [] then none else some (queryText qks vs)) →
      (f.toList = fs) → (f.isSome = hf) →
      unpack ⟨some ('/' :: join ['/'] ps), q, f⟩ false = .ok (⟨ps.length, qks, hf⟩, ps ++ vs ++ fs) := by
    intro q f hqe hfe hff
    unfold unpack
    simp only [hsplit]
    rw [if_neg (by omega)]
    have : parseQueryString q = .ok (qks, vs) := by
      rw [hqe]
      by_cases hk : qks = []
      · rw [if_pos hk]
        have := hqok.length
        rw [hk] at this
        have : vs = [] := List.length_eq_zero_iff.mp this.symm
        subst hk this; rfl
      · rw [if_neg hk]; exact parseQueryString_text hqok hk
    simp [this, bind, Except.bind, pure, Except.pure, hfe, hff]
  unfold analyzeUrlPatternString
  by_cases hk : qks = []
  · simp only [if_pos hk, List.append_nil]
    cases hf with
    | false =>
      simp only [Bool.false_eq_true, if_false, List.append_nil] at hfrag ⊢
      rw [parse_plain hp1 hp2]
      have := List.length_eq_zero_iff.mp hfrag
      subst this
      exact hu _ _ (by simp [hk]) rfl rfl
    | true =>
      simp only [if_true] at hfrag ⊢
      obtain ⟨f, rfl⟩ := List.length_eq_one_iff.mp hfrag
      rw [show ([f] : List Str).flatten = f by simp]
      rw [parse_frag (by simp) hp1 hp2]
      exact hu _ _ (by simp [hk]) rfl rfl
  · simp only [if_neg hk]
    cases hf with
    | false =>
      simp only [Bool.false_eq_true, if_false, List.append_nil] at hfrag ⊢
      rw [← List.append_assoc, parse_query (by simp) hp1 hp2 hq]
      have := List.length_eq_zero_iff.mp hfrag
      subst this
      exact hu (some (queryText qks vs)) none (by simp [hk]) rfl rfl
    | true =>
      simp only [if_true] at hfrag ⊢
      obtain ⟨f, rfl⟩ := List.length_eq_one_iff.mp hfrag
      rw [show ([f] : List Str).flatten = f by simp]
      rw [← List.append_assoc, parse_both (by simp) hp1 hp2 hq]
      exact hu _ _ (by simp [hk]) rfl rfl

/-- `pack` is injective on structures. -/
theorem pack_inj {m m' : URLMeta} {ps vs fs ps' vs' fs' : List Str} (h : StructOK m ps vs fs)
    (h' : StructOK m' ps' vs' fs') (e : pack m (ps ++ vs ++ fs) = pack m' (ps' ++ vs' ++ fs')) :
    m = m' ∧ ps ++ vs ++ fs = ps' ++ vs' ++ fs' := by
  have h1 := analyzePattern_pack h
  rw [e, analyzePattern_pack h'] at h1
  simp at h1
  exact ⟨h1.1.symm, by simpa using h1.2.symm⟩

/-! ### structures of URLs -/

/-- The characters of rules and quantifiers: none of them separates parts of a URL. -/
def ruleChar (c : Char) : Bool := isAlnumC c || (c ∈ ['[', ']', '{', '}', '+', '\\', '-'] : Bool)

/-- The text can be a pattern of the piece as far as URL structure is concerned. -/
def ShapeOf (p t : Str) : Prop := (t = [] ↔ p = []) ∧ ∀ c ∈ t, c ∈ p ∨ ruleChar c = true

theorem ShapeOf.notMem {p t : Str} (h : ShapeOf p t) {c : Char} (hc : c ∉ p) (hr : ruleChar c = false) : c ∉ t := by
  intro hm
  rcases h.2 c hm with h1 | h1
  · exact hc h1
  · rw [hr] at h1; cases h1

theorem ruleChar_digit {c : Char} (h : isDigitC c = true) : ruleChar c = true := by
  have : isAlnumC c = true := by
    unfold isAlnumC isDigitC at *; simp_all
  simp [ruleChar, this]

theorem ruleChar_text {s : Space} {c : Char} (h : c ∈ s.text) : ruleChar c = true ∨ s = .sign c := by
  cases s with
  | sign d =>
    simp only [Space.text] at h
    split at h
    · simp at h; simp [h]
    · simp at h
      rcases h with rfl | rfl
      · left; decide
      · right; rfl
  | _ => 
    simp only [Space.text] at h
    simp at h
    rcases h with rfl | rfl | rfl <;> (left; decide)

theorem specStr_chars {rule : Str} {n : Int} {c : Char} (h : c ∈ specStr rule n) :
    c ∈ rule ∨ ruleChar c = true := by
  unfold specStr at h
  have b1 : ruleChar '[' = true := by decide
  have b2 : ruleChar ']' = true := by decide
  have b3 : ruleChar '{' = true := by decide
  have b4 : ruleChar '}' = true := by decide
  have b5 : ruleChar '+' = true := by decide
  repeat' split at h
  all_goals simp at h
  · rcases h with rfl | h | rfl <;> simp_all
  · rcases h with rfl | h | rfl | rfl <;> simp_all
  · rcases h with rfl | h | rfl | rfl | h | rfl
    any_goals simp_all
    right; exact ruleChar_digit (natStr_digits c h)

/-- The characters of a normalised text. -/
theorem normSign_chars {res w : Str} {c : Char} (h : c ∈ normSign res w) : c ∈ w ∨ ruleChar c = true := by
  unfold normSign at h
  split at h
  · simp at h
  · rename_i d t
    split at h
    · left; exact h
    · rcases specStr_chars h with h | h
      · unfold charRuleText at h
        rw [charRule_eq] at h
        cases hs : space? d with
        | none =>
          simp [hs] at h
          right
          rcases h with rfl | rfl | rfl | rfl <;> decide
        | some s =>
          simp [hs] at h
          rcases ruleChar_text h with h | h
          · right; exact h
          · subst h
            rw [space_sign hs]; simp
      · right; exact h

theorem normalize_chars {s res : Str} {c : Char} (h : c ∈ normalize s res) : c ∈ s ∨ ruleChar c = true := by
  rw [normalize_eq, normRuns] at h
  simp only [List.mem_flatten, List.mem_map] at h
  obtain ⟨_, ⟨r, hr, rfl⟩, hc⟩ := h
  have hsub : ∀ x ∈ r.2, x ∈ s := by
    intro x hx
    rw [← runsOf_concat s]
    simp
    exact ⟨r.2, ⟨r.1, hr⟩, hx⟩
  unfold normText at hc
  split at hc
  · simp at hc
  · rename_i d t hd
    split at hc
    · left; exact hsub c hc
    · rcases normSign_chars hc with h | h
      · left; exact hsub c h
      · right; exact h

theorem normalize_eq_nil {s res : Str} : normalize s res = [] ↔ s = [] := by
  constructor
  · intro h
    cases s with
    | nil => rfl
    | cons c s =>
      exfalso
      rw [normalize_eq, normRuns] at h
      have hne : ∀ r ∈ runsOf (c :: s), normText res r ≠ [] := by
        intro r hr h0
        have hr2 : r.2 ≠ [] := by
          clear h h0
          generalize c :: s = u at hr
          induction u generalizing r with
          | nil => simp [runsOf] at hr
          | cons x u ih =>
            simp only [runsOf] at hr
            split at hr
            · simp at hr; simp [hr]
            · rename_i sp w rest he
              split at hr
              · simp at hr
                rcases hr with rfl | hr
                · simp
                · exact ih r (by simp [he, hr])
              · simp at hr
                rcases hr with rfl | rfl | hr
                · simp
                · exact ih _ (by simp [he])
                · exact ih r (by simp [he, hr])
        unfold normText at h0
        split at h0
        · rename_i e; exact hr2 e
        · rename_i d t e
          split at h0
          · exact hr2 h0
          · rw [e] at h0
            unfold normSign at h0
            simp only at h0
            split at h0
            · cases h0
            · unfold specStr at h0
              repeat' split at h0
              all_goals simp_all
              omega
      cases hr : runsOf (c :: s) with
      | nil =>
        have := runsOf_concat (c :: s)
        rw [hr] at this; simp at this
      | cons r rs =>
        rw [hr] at h
        simp only [List.map_cons, List.flatten_cons, List.append_eq_nil_iff] at h
        exact hne r (by simp [hr]) h.1
  · rintro rfl; rfl

theorem normalize_key {a : Str} (h : '=' ∉ a) : normalize (a ++ ['=']) ['='] = normalize a ['='] ++ ['='] := by
  rw [normalize_eq, normalize_eq, normRuns_append]
  · rfl
  · intro x hx y hy
    simp at hy; subst hy
    intro he
    have hx' : x ∈ a := List.mem_of_getLast? hx
    have e2 : spaceD '=' = .sign '=' := by decide
    rw [e2] at he
    cases hal : isAlnumC x with
    | true =>
      have := spaceD_alnum hal
      rw [he] at this; simp [Space.isSign] at this
    | false =>
      rw [spaceD_sign hal] at he
      simp at he
      subst he; exact h hx'

theorem normalize_ne {a : Str} (h : '=' ∉ a) : '=' ∉ normalize a ['='] := by
  intro hm
  rcases normalize_chars hm with h1 | h1
  · exact h h1
  · revert h1; decide

theorem PairOK.normalize {k v : Str} (h : PairOK k v) : PairOK (normalize k ['=']) v := by
  obtain ⟨h1, ⟨h2, h3⟩, h4, h5⟩ := h
  have b1 : ruleChar '&' = false := by decide
  have b2 : ruleChar '#' = false := by decide
  refine ⟨fun h => h1 (normalize_eq_nil.mp h), ⟨?_, ?_⟩, h4, ?_⟩
  · intro hm
    rcases normalize_chars hm with h | h
    · exact h2 h
    · rw [b1] at h; cases h
  · intro hm
    rcases normalize_chars hm with h | h
    · exact h3 h
    · rw [b2] at h; cases h
  · rcases h5 with ⟨a, rfl, ha⟩ | ⟨ha, rfl⟩
    · left; exact ⟨_, normalize_key ha, normalize_ne ha⟩
    · right; exact ⟨normalize_ne ha, rfl⟩

theorem zip_map_left' {α β γ : Type} (f : α → β) (xs : List α) (ys : List γ) :
    (xs.map f).zip ys = (xs.zip ys).map (fun p => (f p.1, p.2)) := by
  induction xs generalizing ys with
  | nil => simp
  | cons x xs ih => cases ys with
    | nil => simp
    | cons y ys => simp [ih]

theorem QueryOK.normalize {ks vs : List Str} (h : QueryOK ks vs) :
    QueryOK (ks.map (fun k => normalize k ['='])) vs := by
  cases h with
  | none => exact .none
  | value h1 h2 h3 => exact .value h1 h2 h3
  | pairs h1 h2 h3 h4 =>
    refine .pairs (by simpa using h1) (by simpa using h2) ?_ ?_
    · intro x hx
      rw [zip_map_left', List.mem_map] at hx
      obtain ⟨y, hy, rfl⟩ := hx
      exact (h3 y hy).normalize
    · intro k hk
      rw [List.map_eq_singleton_iff] at hk
      obtain ⟨k0, rfl, rfl⟩ := hk
      have h5 := h4 k0 rfl
      cases vs with
      | nil => simp at h2
      | cons v vs =>
        have := h3 (k0, v) (by simp)
        obtain ⟨-, -, -, ⟨a, ha, hb⟩ | ⟨hb, -⟩⟩ := this
        · simp only at ha
          rw [ha, normalize_key hb]; simp
        · exact absurd h5 hb

theorem queryOK_of_parse {q : Option Str} {ks vs : List Str} (hq : ∀ t, q = some t → '#' ∉ t)
    (h : parseQueryString q = .ok (ks, vs)) : QueryOK ks vs := by
  cases q with
  | none => simp [parseQueryString] at h; obtain ⟨rfl, rfl⟩ := h; exact .none
  | some t =>
    have ht := hq t rfl
    by_cases h0 : t = []
    · subst h0
      simp [parseQueryString] at h
      obtain ⟨rfl, rfl⟩ := h
      exact .value (by simp) (by simp) (by simp)
    · have hj := join_splitChar '&' t
      have hne := splitChar_ne_nil '&' t
      have hamp : ∀ it ∈ splitChar '&' t, '&' ∉ it := fun it => not_mem_of_mem_splitChar
      have hhash : ∀ it ∈ splitChar '&' t, '#' ∉ it := by
        intro it hit hc
        apply ht
        rw [← hj]
        clear h hj hne hamp ht
        generalize splitChar '&' t = l at hit
        induction l with
        | nil => simp at hit
        | cons x xs ih =>
          by_cases hx : xs = []
          · subst hx; simp at hit; subst hit; simpa [join] using hc
          · rw [join_cons_ne hx]
            simp at hit
            rcases hit with rfl | hit
            · simp [hc]
            · have := ih hit; simp [this]
      rw [← hj] at h
      have hj0 : join ['&'] (splitChar '&' t) ≠ [] := by rw [hj]; exact h0
      clear hj
      generalize splitChar '&' t = items at *
      have pair : ∀ it ∈ items, it ≠ [] → PairOK (itemKV it).1 (itemKV it).2 := by
        intro it hit hn
        have hc := itemKV_concat it
        have ha := hamp it hit
        have hb := hhash it hit
        rw [← hc] at ha hb
        simp only [List.mem_append, not_or] at ha hb
        refine ⟨?_, ⟨ha.1, hb.1⟩, ⟨ha.2, hb.2⟩, ?_⟩
        · by_cases he : '=' ∈ it
          · obtain ⟨a, h1, -⟩ := itemKV_eq he
            rw [h1]; simp
          · rw [itemKV_ne he]; exact hn
        · by_cases he : '=' ∈ it
          · left; exact itemKV_eq he
          · right; rw [itemKV_ne he]; exact ⟨he, rfl⟩
      by_cases hl : items.length = 1
      · obtain ⟨it, rfl⟩ := List.length_eq_one_iff.mp hl
        have hit : it ≠ [] := by simpa [join] using hj0
        rw [show join ['&'] [it] = it from rfl, parseQueryString_single hit (hamp it (by simp))] at h
        split at h
        · rename_i he
          simp at h
          obtain ⟨rfl, rfl⟩ := h
          refine .pairs (by simp) rfl (by simpa using pair it (by simp) hit) ?_
          intro k hk
          simp at hk; subst hk
          obtain ⟨a, h1, -⟩ := itemKV_eq he
          rw [h1]; simp
        · rename_i he
          simp at h
          obtain ⟨rfl, rfl⟩ := h
          exact .value (hamp it (by simp)) he (hhash it (by simp))
      · rw [parseQueryString_multi hne hamp hj0 hl] at h
        split at h
        · cases h
        · rename_i hnil
          simp at h
          obtain ⟨rfl, rfl⟩ := h
          refine .pairs (by simpa using hne) (by simp) ?_ ?_
          · intro x hx
            rw [List.zip_map', List.mem_map] at hx
            obtain ⟨it, hit, rfl⟩ := hx
            exact pair it hit (fun h => hnil (by rw [← h]; exact hit))
          · intro k hk
            have := congrArg List.length hk
            simp at this
            exact absurd this hl

theorem filterUseless_sub {xs : List Str} {p : Str} (h : p ∈ filterUseless xs) : p ∈ xs := by
  induction xs with
  | nil => simp [filterUseless] at h
  | cons x xs ih =>
    cases xs with
    | nil => simpa [filterUseless] using h
    | cons y ys =>
      simp only [filterUseless] at h
      split at h
      · have := ih h; simp at this ⊢; right; exact this
      · simp at h
        rcases h with rfl | h
        · simp
        · have := ih h; simp at this ⊢; right; exact this

theorem filterUseless_nonempty (xs : List Str) : ∀ p ∈ (filterUseless xs).dropLast, p ≠ [] := by
  induction xs with
  | nil => simp [filterUseless]
  | cons x xs ih =>
    cases xs with
    | nil => simp [filterUseless]
    | cons y ys =>
      simp only [filterUseless]
      split
      · exact ih
      · rename_i hx
        intro p hp
        cases hf : filterUseless (y :: ys) with
        | nil => simp [hf] at hp
        | cons z zs =>
          rw [hf, List.dropLast_cons_cons] at hp
          simp only [List.mem_cons] at hp
          rcases hp with rfl | hp
          · exact hx
          · exact ih p (by rw [hf]; exact hp)

theorem pathOK_of_split {path : Str} (h1 : '?' ∉ path) (h2 : '#' ∉ path)
    (hne : filterUseless ((splitChar '/' path).drop 1) ≠ []) :
    PathOK (filterUseless ((splitChar '/' path).drop 1)) := by
  refine ⟨hne, ?_, filterUseless_nonempty _⟩
  intro p hp
  have hm : p ∈ splitChar '/' path := List.mem_of_mem_drop (filterUseless_sub hp)
  have hsub : ∀ c ∈ p, c ∈ path := by
    intro c hc
    rw [← join_splitChar '/' path]
    generalize splitChar '/' path = l at hm
    clear hne hp
    induction l with
    | nil => simp at hm
    | cons x xs ih =>
      by_cases hx : xs = []
      · subst hx; simp at hm; subst hm; simpa [join] using hc
      · rw [join_cons_ne hx]
        simp at hm
        rcases hm with rfl | hm
        · simp [hc]
        · have := ih hm; simp [this]
  exact ⟨not_mem_of_mem_splitChar hm, fun hc => h1 (hsub _ hc), fun hc => h2 (hsub _ hc)⟩

/-- The structure of every accepted URL. -/
theorem analyzeUrl_struct {url : Str} {m : URLMeta} {pieces : List Str}
    (h : analyzeUrl url = .ok (m, pieces)) :
    ∃ ps vs fs, pieces = ps ++ vs ++ fs ∧ StructOK m ps vs fs := by
  unfold analyzeUrl at h
  cases hp : parseUrl url with
  | error e => simp [hp, bind, Except.bind] at h
  | ok v =>
    obtain ⟨r, q, f⟩ := v
    simp [hp, bind, Except.bind] at h
    cases hup : urlparse url with
    | error e => simp [parseUrl, hup, bind, Except.bind] at hp
    | ok r' =>
      have hr : r' = r := by
        unfold parseUrl at hp
        rw [hup] at hp
        simp only [bind, Except.bind, pure, Except.pure] at hp
        repeat' split at hp
        all_goals first | (cases hp; done) | (simp at hp; exact hp.1)
      subst hr
      obtain ⟨pre, rest, e1, a1, a2, a3, a4, ⟨w, a5⟩⟩ := urlparse_split hup
      -- the path
      have hpath1 : '?' ∉ r'.path := by
        intro hc
        apply (cutChar_spec '?' (cutChar '#' rest).1).1
        rw [a5]; simp [hc]
      have hpath2 : '#' ∉ r'.path := by
        intro hc
        apply (cutChar_spec '#' rest).1
        have : '#' ∈ (cutChar '?' (cutChar '#' rest).1).1 := by rw [a5]; simp [hc]
        rcases (cutChar_spec '?' (cutChar '#' rest).1).2 with h' | h'
        · rw [h'.2]; simp [this]
        · rw [h'.2] at this; exact this
      unfold unpack at h
      simp only at h
      split at h
      · cases h
      · rename_i hlen
        have hne : filterUseless ((splitChar '/' r'.path).drop 1) ≠ [] := by
          intro h0; rw [h0] at hlen; simp at hlen
        -- the path is not empty, so the URL is in the domain of `parseUrl_eq`
        have hpne : r'.path ≠ [] := by
          intro h0; rw [h0] at hne; exact hne rfl
        have hune : url ≠ [] := by
          rintro rfl
          have : rest = [] := by
            have := congrArg List.length e1
            simp at this
            exact List.length_eq_zero_iff.mp (by omega)
          rw [this] at a5
          simp [cutChar] at a5
          exact hpne a5.1
        have hhash : url.head? ≠ some '#' := by
          intro h0
          cases url with
          | nil => simp at h0
          | cons c u =>
            simp at h0; subst h0
            cases pre with
            | cons d pre =>
              simp at e1 a2
              exact a2.1 e1.1
            | nil =>
              simp at e1
              rw [← e1] at a5
              simp [cutChar] at a5
              exact hpne a5.1
        rw [parseUrl_eq hup hune hhash] at hp
        simp at hp
        obtain ⟨rfl, rfl⟩ := hp
        cases hq : parseQueryString (queryOf url) with
        | error e => simp [hq, bind, Except.bind] at h
        | ok kv =>
          obtain ⟨ks, vs⟩ := kv
          simp only [hq, bind, Except.bind, pure, Except.pure, if_true, Except.ok.injEq, Prod.mk.injEq] at h
          obtain ⟨rfl, rfl⟩ := h
          have hqt : ∀ t, queryOf url = some t → '#' ∉ t := by
            intro t ht
            unfold queryOf at ht
            split at ht
            · simp at ht
              subst ht
              intro hc
              apply (cutChar_spec '#' url).1
              rcases (cutChar_spec '?' (cutChar '#' url).1).2 with h' | h'
              · rw [h'.2]; simp [hc]
              · rename_i hm; exact absurd hm h'.1
            · cases ht
          refine ⟨filterUseless ((splitChar '/' r'.path).drop 1), vs, (fragOf url).toList, rfl, ?_⟩
          · refine ⟨pathOK_of_split hpath1 hpath2 hne, (queryOK_of_parse hqt hq).normalize, rfl, ?_⟩
            cases fragOf url <;> rfl

/-- Texts of the shapes of pieces, in order. -/
def Shapes (ps ts : List Str) : Prop := ts.length = ps.length ∧ ∀ x ∈ ps.zip ts, ShapeOf x.1 x.2

theorem Shapes.mem {ps ts : List Str} (h : Shapes ps ts) {t : Str} (ht : t ∈ ts) : ∃ p ∈ ps, ShapeOf p t := by
  rw [← map_zip_snd h.1.symm, List.mem_map] at ht
  obtain ⟨x, hx, rfl⟩ := ht
  exact ⟨x.1, (List.of_mem_zip hx).1, h.2 x hx⟩

theorem Shapes.dropLast {ps ts : List Str} (h : Shapes ps ts) : Shapes ps.dropLast ts.dropLast := by
  refine ⟨by simp [h.1], ?_⟩
  intro x hx
  apply h.2
  rw [List.dropLast_eq_take, List.dropLast_eq_take, h.1] at hx
  have e : (ps.take (ps.length - 1)).zip (ts.take (ps.length - 1)) = (ps.zip ts).take (ps.length - 1) := by
    rw [List.zip_eq_zipWith, List.zip_eq_zipWith, List.take_zipWith]
  rw [e] at hx
  exact List.mem_of_mem_take hx

theorem PathOK.shape {ps ts : List Str} (h : PathOK ps) (hs : Shapes ps ts) : PathOK ts := by
  refine ⟨?_, ?_, ?_⟩
  · rintro rfl
    apply h.ne
    exact List.length_eq_zero_iff.mp hs.1.symm
  · intro t ht
    obtain ⟨p, hp, hs⟩ := hs.mem ht
    obtain ⟨h1, h2, h3⟩ := h.chars p hp
    exact ⟨hs.notMem h1 (by decide), hs.notMem h2 (by decide), hs.notMem h3 (by decide)⟩
  · intro t ht h0
    obtain ⟨p, hp, hs⟩ := hs.dropLast.mem ht
    exact h.nonempty p hp (hs.1.mp h0)

theorem QueryOK.shape {ks vs ts : List Str} (h : QueryOK ks vs) (hs : Shapes vs ts) : QueryOK ks ts := by
  cases h with
  | none => rw [List.length_eq_zero_iff.mp hs.1]; exact .none
  | @value v h1 h2 h3 =>
    obtain ⟨t, rfl⟩ := List.length_eq_one_iff.mp hs.1
    have := hs.2 (v, t) (by simp)
    exact .value (this.notMem h1 (by decide)) (this.notMem h2 (by decide)) (this.notMem h3 (by decide))
  | pairs h1 h2 h3 h4 =>
    refine .pairs h1 (by rw [hs.1, h2]) ?_ h4
    intro x hx
    obtain ⟨i, hi, rfl⟩ := List.getElem_of_mem hx
    simp only [List.length_zip] at hi
    have hl := hs.1
    have hv : i < vs.length := by omega
    have a1 := h3 (ks[i], vs[i]) (by
      have : (ks.zip vs)[i]'(by simp; omega) = (ks[i], vs[i]) := by simp
      rw [← this]; exact List.getElem_mem _)
    have a2 := hs.2 (vs[i], ts[i]) (by
      have : (vs.zip ts)[i]'(by simp; omega) = (vs[i], ts[i]) := by simp
      rw [← this]; exact List.getElem_mem _)
    simp only [List.getElem_zip]
    obtain ⟨b1, b2, b3, b4⟩ := a1
    refine ⟨b1, b2, ⟨a2.notMem b3.1 (by decide), a2.notMem b3.2 (by decide)⟩, ?_⟩
    rcases b4 with b4 | ⟨b4, b5⟩
    · exact .inl b4
    · exact .inr ⟨b4, a2.1.mpr b5⟩

/-- Replacing pieces by texts of the same shape keeps the structure. -/
theorem StructOK.shape {m : URLMeta} {ps vs fs ts : List Str} (h : StructOK m ps vs fs)
    (hs : Shapes (ps ++ vs ++ fs) ts) :
    ∃ ps' vs' fs', ts = ps' ++ vs' ++ fs' ∧ StructOK m ps' vs' fs' := by
  obtain ⟨hl, hz⟩ := hs
  simp only [List.length_append] at hl
  refine ⟨ts.take ps.length, (ts.drop ps.length).take vs.length, (ts.drop ps.length).drop vs.length,
    by rw [List.append_assoc, List.take_append_drop, List.take_append_drop], ?_⟩
  have e : ts = ts.take ps.length ++ ((ts.drop ps.length).take vs.length ++ (ts.drop ps.length).drop vs.length) := by
    rw [List.take_append_drop, List.take_append_drop]
  have l1 : (ts.take ps.length).length = ps.length := by simp; omega
  have l2 : ((ts.drop ps.length).take vs.length).length = vs.length := by simp; omega
  have l3 : ((ts.drop ps.length).drop vs.length).length = fs.length := by simp; omega
  rw [e, List.append_assoc, List.zip_append l1.symm, List.zip_append l2.symm] at hz
  refine ⟨h.path.shape ⟨l1, fun x hx => hz x (by simp only [List.mem_append]; exact .inl hx)⟩, h.query.shape ⟨l2, fun x hx => hz x (by simp only [List.mem_append]; exact .inr (.inl hx))⟩,
    by rw [h.depth, l1], by rw [l3]; exact h.frag⟩

end OsUrl
