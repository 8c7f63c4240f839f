import Verif.Proofs.UnitForm

/-! URL pattern structures: `analyze_url_pattern_string` and the text hashed for a pattern. -/

namespace OsUrl
open Spec

/-- A structure that `pack` writes unambiguously. -/
structure StructW (m : URLMeta) (ps vs fs : List Str) : Prop where
  ne : ps ≠ []
  slash : ∀ p ∈ ps, '/' ∉ p
  hash : ∀ p ∈ ps, '#' ∉ p
  noq : ∀ p ∈ ps, NoQ p
  query : QueryOK m.queryKeys vs
  depth : m.pathDepth = ps.length
  frag : fs.length = if m.hasFragment then 1 else 0

theorem StructOK.weak {m : URLMeta} {ps vs fs : List Str} (h : StructOK m ps vs fs) : StructW m ps vs fs :=
  ⟨h.path.ne, fun p hp => (h.path.chars p hp).1, fun p hp => (h.path.chars p hp).2.2,
    fun p hp => noQ_of_notMem (h.path.chars p hp).2.1, h.query, h.depth, h.frag⟩

theorem pack_eqW {m : URLMeta} {ps vs fs : List Str} (h : StructW m ps vs fs) :
    pack m (ps ++ vs ++ fs) = '/' :: join ['/'] ps
      ++ (if m.queryKeys = [] then [] else singleQuestion ++ queryText m.queryKeys vs)
      ++ (if m.hasFragment then '#' :: fs.flatten else []) := by
  have hl := h.query.length
  have hd := h.depth
  unfold pack queryText
  have e1 : (ps ++ vs ++ fs).take m.pathDepth = ps := by
    rw [List.append_assoc, hd, List.take_left]
  have e2 : (ps ++ vs ++ fs).take (m.pathDepth + m.queryKeys.length) = ps ++ vs :=
    List.take_left' (by simp; omega)
  have e3 : (ps ++ vs).drop m.pathDepth = vs := List.drop_left' hd.symm
  have e4 : (ps ++ vs ++ fs).drop (m.pathDepth + m.queryKeys.length) = fs :=
    List.drop_left' (by simp; omega)
  simp only [e1, e2, e3, e4]
  have e5 : (m.queryKeys.length > 0) ↔ ¬ (m.queryKeys = []) := by
    rw [← List.length_eq_zero_iff]; omega
  congr 1
  by_cases hk : m.queryKeys = []
  · rw [if_pos hk, if_neg (by simpa using hk)]; rfl
  · rw [if_neg hk, if_pos (e5.mpr hk)]; rfl

theorem parse_packW {m : URLMeta} {ps vs fs : List Str} (h : StructW m ps vs fs) :
    parseUrlPatternString (pack m (ps ++ vs ++ fs)) =
      ⟨some ('/' :: join ['/'] ps), if m.queryKeys = [] then none else some (queryText m.queryKeys vs), fs.head?⟩ := by
  rw [pack_eqW h]
  have hp1 : NoQ ('/' :: join ['/'] ps) := noQ_join h.noq
  have hp2 : '#' ∉ '/' :: join ['/'] ps := by
    intro hm
    simp at hm
    rcases mem_join hm with hm | ⟨x, hx, hc⟩
    · simp at hm
    · exact h.hash x hx hc
  have hq := queryText_hash h.query
  have hfrag := h.frag
  by_cases hk : m.queryKeys = []
  · simp only [if_pos hk, List.append_nil]
    cases hf : m.hasFragment with
    | false =>
      rw [hf] at hfrag
      simp only [Bool.false_eq_true, if_false, List.append_nil] at hfrag ⊢
      rw [parse_plain hp1 hp2]
      have := List.length_eq_zero_iff.mp hfrag
      subst this
      rfl
    | true =>
      rw [hf] at hfrag
      simp only [if_true] at hfrag ⊢
      obtain ⟨f, rfl⟩ := List.length_eq_one_iff.mp hfrag
      rw [show ([f] : List Str).flatten = f by simp]
      rw [parse_frag (by simp) hp1 hp2]
      rfl
  · simp only [if_neg hk]
    cases hf : m.hasFragment with
    | false =>
      rw [hf] at hfrag
      simp only [Bool.false_eq_true, if_false, List.append_nil] at hfrag ⊢
      rw [← List.append_assoc, parse_query (by simp) hp1 hp2 hq]
      have := List.length_eq_zero_iff.mp hfrag
      subst this
      rfl
    | true =>
      rw [hf] at hfrag
      simp only [if_true] at hfrag ⊢
      obtain ⟨f, rfl⟩ := List.length_eq_one_iff.mp hfrag
      rw [show ([f] : List Str).flatten = f by simp]
      rw [← List.append_assoc, parse_both (by simp) hp1 hp2 hq]
      rfl

/-- `pack` is injective on these structures. -/
theorem pack_injW {m m' : URLMeta} {ps vs fs ps' vs' fs' : List Str} (h : StructW m ps vs fs)
    (h' : StructW m' ps' vs' fs') (e : pack m (ps ++ vs ++ fs) = pack m' (ps' ++ vs' ++ fs')) :
    m = m' ∧ ps ++ vs ++ fs = ps' ++ vs' ++ fs' := by
  have h1 := parse_packW h
  rw [e, parse_packW h'] at h1
  simp only [PQF.mk.injEq, Option.some.injEq, List.cons.injEq, true_and] at h1
  obtain ⟨e1, e2, e3⟩ := h1
  have ep : ps = ps' := by
    have a := splitChar_join h.ne h.slash
    rw [← e1, splitChar_join h'.ne h'.slash] at a
    exact a.symm
  have ef : fs = fs' := by
    have a := h.frag
    have b := h'.frag
    cases fs with
    | nil =>
      cases fs' with
      | nil => rfl
      | cons y ys => simp at e3
    | cons x xs =>
      cases fs' with
      | nil => simp at e3
      | cons y ys =>
        have : xs = [] := by
          split at a
          · simpa using a
          · simp at a
        have : ys = [] := by
          split at b
          · simpa using b
          · simp at b
        simp at e3
        simp_all
  have eq : m.queryKeys = m'.queryKeys ∧ vs = vs' := by
    by_cases hk : m.queryKeys = []
    · rw [if_pos hk] at e2
      by_cases hk' : m'.queryKeys = []
      · have a := h.query.length
        have b := h'.query.length
        rw [hk] at a
        rw [hk'] at b
        exact ⟨by rw [hk, hk'], by
          rw [List.length_eq_zero_iff.mp a.symm, List.length_eq_zero_iff.mp b.symm]⟩
      · rw [if_neg hk'] at e2; cases e2
    · rw [if_neg hk] at e2
      by_cases hk' : m'.queryKeys = []
      · rw [if_pos hk'] at e2; cases e2
      · rw [if_neg hk'] at e2
        simp only [Option.some.injEq] at e2
        have a := parseQueryString_text h.query hk
        rw [← e2, parseQueryString_text h'.query hk'] at a
        simp only [Except.ok.injEq, Prod.mk.injEq] at a
        exact ⟨a.1.symm, a.2.symm⟩
  refine ⟨?_, by rw [ep, eq.2, ef]⟩
  obtain ⟨pd, qk, hf⟩ := m
  obtain ⟨pd', qk', hf'⟩ := m'
  have a := h.depth
  have b := h'.depth
  have c := h.frag
  have d := h'.frag
  simp only at *
  rw [ef, d] at c
  simp only [URLMeta.mk.injEq]
  refine ⟨by rw [a, b, ep], eq.1, ?_⟩
  cases hf <;> cases hf' <;> simp at c ⊢

/-- The text can stand for the piece in the structure. -/
def WShape (p t : Str) : Prop := (p = [] → t = []) ∧ (∀ c ∈ t, c ∈ p ∨ ruleChar c = true) ∧ NoQ t

theorem WShape.notMem {p t : Str} (h : WShape p t) {c : Char} (hc : c ∉ p) (hr : ruleChar c = false) : c ∉ t := by
  intro hm
  rcases h.2.1 c hm with h1 | h1
  · exact hc h1
  · rw [hr] at h1; cases h1

/-- Piecewise. -/
def WShapes (ps ts : List Str) : Prop := ts.length = ps.length ∧ ∀ x ∈ ps.zip ts, WShape x.1 x.2

theorem WShapes.mem {ps ts : List Str} (h : WShapes ps ts) {t : Str} (ht : t ∈ ts) : ∃ p ∈ ps, WShape p t := by
  rw [← map_zip_snd h.1.symm, List.mem_map] at ht
  obtain ⟨x, hx, rfl⟩ := ht
  exact ⟨x.1, (List.of_mem_zip hx).1, h.2 x hx⟩

theorem QueryOK.wshape {ks vs ts : List Str} (h : QueryOK ks vs) (hs : WShapes vs ts) : QueryOK ks ts := by
  cases h with
  | none => rw [List.length_eq_zero_iff.mp hs.1]; exact .none
  | @value v h1 h2 h3 =>
    obtain ⟨t, rfl⟩ := List.length_eq_one_iff.mp hs.1
    have := hs.2 (v, t) (by simp)
    exact .value (this.notMem h1 (by decide)) (this.notMem h2 (by decide)) (this.notMem h3 (by decide))
  | pairs h1 h2 h3 h4 =>
    refine .pairs h1 (by rw [hs.1, h2]) ?_ h4
    intro x hx
    obtain ⟨i, hi, rfl⟩ := List.getElem_of_mem hx
    simp only [List.length_zip] at hi
    have hl := hs.1
    have hv : i < vs.length := by omega
    have a1 := h3 (ks[i], vs[i]) (by
      have : (ks.zip vs)[i]'(by simp; omega) = (ks[i], vs[i]) := by simp
      rw [← this]; exact List.getElem_mem _)
    have a2 := hs.2 (vs[i], ts[i]) (by
      have : (vs.zip ts)[i]'(by simp; omega) = (vs[i], ts[i]) := by simp
      rw [← this]; exact List.getElem_mem _)
    simp only [List.getElem_zip]
    obtain ⟨b1, b2, b3, b4⟩ := a1
    refine ⟨b1, b2, ⟨a2.notMem b3.1 (by decide), a2.notMem b3.2 (by decide)⟩, ?_⟩
    rcases b4 with b4 | ⟨b4, b5⟩
    · exact .inl b4
    · exact .inr ⟨b4, a2.1 b5⟩

/-- The structure of a pattern, or of a URL: path parts, values and fragment. -/
structure StructP (m : URLMeta) (ps vs fs : List Str) : Prop where
  ne : ps ≠ []
  slash : ∀ p ∈ ps, '/' ∉ p
  hash : ∀ p ∈ ps, '#' ∉ p
  nonempty : ∀ p ∈ ps.dropLast, p ≠ []
  query : QueryOK m.queryKeys vs
  depth : m.pathDepth = ps.length
  frag : fs.length = if m.hasFragment then 1 else 0

/-- Replacing pieces by texts of the same shape. -/
theorem StructP.wshape {m : URLMeta} {ps vs fs ts : List Str} (h : StructP m ps vs fs)
    (hs : WShapes (ps ++ vs ++ fs) ts) :
    ∃ ps' vs' fs', ts = ps' ++ vs' ++ fs' ∧ StructW m ps' vs' fs' := by
  obtain ⟨hl, hz⟩ := hs
  simp only [List.length_append] at hl
  refine ⟨ts.take ps.length, (ts.drop ps.length).take vs.length, (ts.drop ps.length).drop vs.length,
    by rw [List.append_assoc, List.take_append_drop, List.take_append_drop], ?_⟩
  have e : ts = ts.take ps.length ++ ((ts.drop ps.length).take vs.length ++ (ts.drop ps.length).drop vs.length) := by
    rw [List.take_append_drop, List.take_append_drop]
  have l1 : (ts.take ps.length).length = ps.length := by simp; omega
  have l2 : ((ts.drop ps.length).take vs.length).length = vs.length := by simp; omega
  have l3 : ((ts.drop ps.length).drop vs.length).length = fs.length := by simp; omega
  rw [e, List.append_assoc, List.zip_append l1.symm, List.zip_append l2.symm] at hz
  have hsp : WShapes ps (ts.take ps.length) := ⟨l1, fun x hx => hz x (by simp only [List.mem_append]; exact .inl hx)⟩
  have hsv : WShapes vs ((ts.drop ps.length).take vs.length) :=
    ⟨l2, fun x hx => hz x (by simp only [List.mem_append]; exact .inr (.inl hx))⟩
  refine ⟨?_, ?_, ?_, ?_, h.query.wshape hsv, by rw [h.depth, l1], by rw [l3]; exact h.frag⟩
  · intro h0
    apply h.ne
    rw [h0] at l1
    exact List.length_eq_zero_iff.mp l1.symm
  · intro t ht
    obtain ⟨p, hp, hw⟩ := hsp.mem ht
    exact hw.notMem (h.slash p hp) (by decide)
  · intro t ht
    obtain ⟨p, hp, hw⟩ := hsp.mem ht
    exact hw.notMem (h.hash p hp) (by decide)
  · intro t ht
    obtain ⟨p, hp, hw⟩ := hsp.mem ht
    exact hw.2.2

theorem StructOK.toP {m : URLMeta} {ps vs fs : List Str} (h : StructOK m ps vs fs) : StructP m ps vs fs :=
  ⟨h.path.ne, fun p hp => (h.path.chars p hp).1, fun p hp => (h.path.chars p hp).2.2, h.path.nonempty, h.query, h.depth, h.frag⟩

theorem not_mem_take_findChar {c : Char} {s : Str} {f : Nat} (h : findChar c s = some f) {n : Nat} (hn : n ≤ f) : c ∉ s.take n := by
  obtain ⟨a, b, rfl, hna, rfl⟩ := findChar_some h
  rw [List.take_append_of_le_length hn]
  exact fun hm => hna (List.mem_of_mem_take hm)

/-- What `parse_url_pattern_string` returns contains no `#` in path and query. -/
theorem parsePattern_hash (s : Str) : (∀ p, (parseUrlPatternString s).path = some p → '#' ∉ p) ∧
    (∀ q, (parseUrlPatternString s).query = some q → '#' ∉ q) := by
  unfold parseUrlPatternString
  cases hq : find singleQuestion s with
  | none =>
    cases hf : findChar '#' s with
    | none =>
      simp only
      exact ⟨by rintro p ⟨⟩; exact findChar_none.mp hf, by simp⟩
    | some f =>
      simp only
      split
      · exact ⟨by rintro p ⟨⟩; exact not_mem_take_findChar hf (Nat.le_refl _), by simp⟩
      · simp
  | some q =>
    cases hf : findChar '#' s with
    | none =>
      have := findChar_none.mp hf
      simp only
      split
      · exact ⟨by rintro p ⟨⟩; exact fun hm => this (List.mem_of_mem_take hm), by
          rintro p ⟨⟩; exact fun hm => this (List.mem_of_mem_drop hm)⟩
      · simp
    | some f =>
      simp only
      split
      · split
        · exact ⟨by rintro p ⟨⟩; exact not_mem_take_findChar hf (by omega), by
            rintro p ⟨⟩; exact fun hm => not_mem_take_findChar hf (Nat.le_refl _) (List.mem_of_mem_drop hm)⟩
        · exact ⟨by rintro p ⟨⟩; exact not_mem_take_findChar hf (Nat.le_refl _), by simp⟩
      · simp

theorem mem_splitChar {c : Char} {s p : Str} (h : p ∈ splitChar c s) : (∀ x ∈ p, x ∈ s) ∧ c ∉ p := by
  refine ⟨?_, ?_⟩
  · intro x hx
    rw [← join_splitChar c s]
    generalize splitChar c s = l at h
    induction l with
    | nil => simp at h
    | cons a l ih =>
      cases l with
      | nil => simp at h; subst h; exact hx
      | cons b l =>
        have e : join [c] (a :: b :: l) = a ++ c :: join [c] (b :: l) := by simp [join]
        rw [e]
        simp only [List.mem_cons] at h
        rcases h with rfl | h
        · simp [hx]
        · have := ih (by simpa using h)
          simp [this]
  · exact not_mem_of_mem_splitChar h

/-- The structure of a pattern string. -/
theorem analyzePattern_struct {s : Str} {m : URLMeta} {strs : List Str} (h : analyzeUrlPatternString s = .ok (m, strs)) :
    ∃ ps vs fs, strs = ps ++ vs ++ fs ∧ StructP m ps vs fs := by
  obtain ⟨hp, hq⟩ := parsePattern_hash s
  unfold analyzeUrlPatternString unpack at h
  cases hpath : (parseUrlPatternString s).path with
  | none => rw [hpath] at h; cases h
  | some path =>
    rw [hpath] at h
    simp only at h
    split at h
    · cases h
    · rename_i hlen
      obtain ⟨⟨ks, vs⟩, h1, h⟩ := bind_ok h
      simp only [Bool.false_eq_true, if_false, pure, Except.pure, Except.ok.injEq, Prod.mk.injEq] at h
      obtain ⟨rfl, rfl⟩ := h
      refine ⟨_, _, _, rfl, ?_, ?_, ?_, ?_, ?_, rfl, ?_⟩
      · intro h0; rw [h0] at hlen; simp at hlen
      · intro p hp'
        exact (mem_splitChar (List.mem_of_mem_drop (filterUseless_sub hp'))).2
      · intro p hp' hc
        exact hp path hpath ((mem_splitChar (List.mem_of_mem_drop (filterUseless_sub hp'))).1 _ hc)
      · exact filterUseless_nonempty _
      · exact queryOK_of_parse hq h1
      · cases (parseUrlPatternString s).fragment <;> simp

end OsUrl
