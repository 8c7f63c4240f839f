import Verif.Model.ParseUtils
import Verif.Proofs.Strings

/-! `urlparse`: the URL up to the path contains no `#` and no `?`. -/

namespace OsUrl

theorem cutChar_spec (c : Char) (s : Str) :
    c ∉ (cutChar c s).1 ∧
      ((c ∈ s ∧ s = (cutChar c s).1 ++ c :: (cutChar c s).2) ∨ (c ∉ s ∧ cutChar c s = (s, []))) := by
  induction s with
  | nil => simp [cutChar]
  | cons x xs ih =>
    simp only [cutChar]
    split
    · rename_i h; simp [h]
    · rename_i h
      have hx : c ≠ x := fun e => h e.symm
      obtain ⟨h1, h2⟩ := ih
      refine ⟨by simp [h1, hx], ?_⟩
      rcases h2 with ⟨h2, h3⟩ | ⟨h2, h3⟩
      · left; refine ⟨by simp [h2], by simp; exact h3⟩
      · right; simp [h2, h3, hx]

theorem cutChar_append {c : Char} {a b : Str} (h : c ∉ a) :
    cutChar c (a ++ b) = (a ++ (cutChar c b).1, (cutChar c b).2) := by
  induction a with
  | nil => simp
  | cons x xs ih =>
    simp at h
    simp only [List.cons_append, cutChar]
    rw [if_neg (fun e => h.1 e.symm), ih h.2]

theorem splitNetloc_spec (s : Str) :
    s = (splitNetloc s).1 ++ (splitNetloc s).2 ∧
      '/' ∉ (splitNetloc s).1 ∧ '?' ∉ (splitNetloc s).1 ∧ '#' ∉ (splitNetloc s).1 := by
  induction s with
  | nil => simp [splitNetloc]
  | cons x xs ih =>
    simp only [splitNetloc]
    split
    · simp
    · rename_i h
      simp only [not_or] at h
      obtain ⟨h1, h2, h3, h4⟩ := ih
      refine ⟨by simp; exact h1, ?_, ?_, ?_⟩
      · simp [h2]; exact fun e => h.1 e.symm
      · simp [h3]; exact fun e => h.2.1 e.symm
      · simp [h4]; exact fun e => h.2.2 e.symm

theorem splitScheme_spec (url : Str) :
    ∃ pre, url = pre ++ (splitScheme url).2 ∧ '?' ∉ pre ∧ '#' ∉ pre := by
  unfold splitScheme
  split
  · rename_i i hi
    obtain ⟨a, b, rfl, h1, rfl⟩ := findChar_some hi
    split
    · exact ⟨[], rfl, by simp, by simp⟩
    · split
      · rename_i hc
        refine ⟨a ++ [':'], ?_, ?_, ?_⟩
        · have e1 : (a ++ ':' :: b).drop (List.length a + 1) = b := by simp
          rw [e1]; simp
        · have := hc.2.2
          simp only [List.take_left, List.all_eq_true] at this
          intro hm
          simp at hm
          have := this _ hm
          revert this; decide
        · have := hc.2.2
          simp only [List.take_left, List.all_eq_true] at this
          intro hm
          simp at hm
          have := this _ hm
          revert this; decide
      · rename_i he _
        exact ⟨[], by simp [he], by simp, by simp⟩
  · exact ⟨[], rfl, by simp, by simp⟩

/-- The URL is a prefix without `#`, `?` followed by what `urlparse` splits. -/
theorem urlparse_split {url : Str} {r : UrlParts} (h : urlparse url = .ok r) :
    ∃ pre rest, url = pre ++ rest ∧ '?' ∉ pre ∧ '#' ∉ pre ∧
      r.fragment = (cutChar '#' rest).2 ∧ r.query = (cutChar '?' (cutChar '#' rest).1).2 ∧
      (∃ w, (cutChar '?' (cutChar '#' rest).1).1 = r.path ++ w) := by
  obtain ⟨pre0, e0, hq0, hh0⟩ := splitScheme_spec url
  unfold urlparse at h
  cases hs : splitScheme url with
  | mk scheme rest =>
    rw [hs] at e0
    simp only [hs] at h e0
    -- netloc
    have hn : ∃ pre1 netloc rest1, (if startsWith ['/', '/'] rest then splitNetloc (rest.drop 2) else ([], rest))
        = (netloc, rest1) ∧ rest = pre1 ++ rest1 ∧ '?' ∉ pre1 ∧ '#' ∉ pre1 := by
      split
      · rename_i hst
        have := List.isPrefixOf_iff_prefix.mp hst
        obtain ⟨t, rfl⟩ := this
        obtain ⟨h1, h2, h3, h4⟩ := splitNetloc_spec t
        refine ⟨'/' :: '/' :: (splitNetloc t).1, _, _, rfl, ?_, ?_, ?_⟩
        · simpa using h1
        · simp [h3]
        · simp [h4]
      · exact ⟨[], _, _, rfl, rfl, by simp, by simp⟩
    obtain ⟨pre1, netloc, rest1, e1, e2, hq1, hh1⟩ := hn
    rw [e1] at h
    simp only at h
    split at h
    · cases h
    · cases hc : cutChar '#' rest1 with
      | mk u frag =>
        cases hc2 : cutChar '?' u with
        | mk p q =>
          simp only [hc, hc2] at h
          have hpath : ∃ path params w, (if scheme ∈ usesParams ∧ hasChar ';' p then splitParams p else (p, []))
              = (path, params) ∧ p = path ++ w := by
            split
            · unfold splitParams
              split
              · split
                · exact ⟨_, _, [], rfl, by simp⟩
                · rename_i i _ _ j _
                  exact ⟨_, _, p.drop (i + j), rfl, by simp⟩
              · split
                · exact ⟨_, _, [], rfl, by simp⟩
                · rename_i j _
                  exact ⟨_, _, p.drop j, rfl, by simp⟩
            · exact ⟨_, _, [], rfl, by simp⟩
          obtain ⟨path, params, w, e3, e4⟩ := hpath
          rw [e3] at h
          simp at h
          subst h
          refine ⟨pre0 ++ pre1, rest1, by rw [e0, e2]; simp, by simp [hq0, hq1], by simp [hh0, hh1],
            by simp [hc], by simp [hc, hc2], ⟨w, by simp [hc, hc2, e4]⟩⟩

/-- Fragment and query of `urlparse` are cut from the whole URL. -/
theorem urlparse_frag_query {url : Str} {r : UrlParts} (h : urlparse url = .ok r) :
    r.fragment = (cutChar '#' url).2 ∧ r.query = (cutChar '?' (cutChar '#' url).1).2 := by
  obtain ⟨pre, rest, rfl, h1, h2, h3, h4, -⟩ := urlparse_split h
  rw [cutChar_append h2]
  simp only
  rw [cutChar_append h1]
  exact ⟨h3, h4⟩

theorem pyIndex_nat {s : Str} {i : Nat} {c : Char} (h : s[i]? = some c) : pyIndex s i = .ok c := by
  unfold pyIndex
  have h1 : ¬ ((i : Int) < 0) := by omega
  simp only [h1, if_false, Int.toNat_natCast, h]

theorem pyIndex_neg {s : Str} {i : Nat} {c : Char} (h0 : 0 < i) (h1 : i ≤ s.length)
    (h : s[s.length - i]? = some c) : pyIndex s (-(i : Int)) = .ok c := by
  unfold pyIndex
  have h2 : (-(i : Int) < 0) := by omega
  have h3 : ¬ (-(i : Int) + s.length < 0) := by omega
  have h4 : (-(i : Int) + s.length).toNat = s.length - i := by omega
  simp only [h2, if_true, h3, if_false, h4, h]

theorem pyIndex_neg_one {a : Str} {c : Char} : pyIndex (a ++ [c]) (-1) = .ok c :=
  pyIndex_neg (i := 1) (by omega) (by simp) (by simp)

theorem pyIndex_neg_two {a : Str} {c d : Char} : pyIndex (a ++ [c, d]) (-2) = .ok c :=
  pyIndex_neg (i := 2) (by omega) (by simp) (by simp)

theorem pyIndex_before_hash {a fr : Str} {c : Char} :
    pyIndex (a ++ [c] ++ '#' :: fr) (((a ++ [c] ++ '#' :: fr).length : Int) - fr.length - 2) = .ok c := by
  have : (((a ++ [c] ++ '#' :: fr).length : Int) - fr.length - 2) = (a.length : Nat) := by
    simp; omega
  rw [this]
  exact pyIndex_nat (by simp)

/-- The expected presence-aware query and fragment. -/
def fragOf (url : Str) : Option Str := if '#' ∈ url then some (cutChar '#' url).2 else none
def queryOf (url : Str) : Option Str :=
  if '?' ∈ (cutChar '#' url).1 then some (cutChar '?' (cutChar '#' url).1).2 else none

theorem cutChar_of_mem {c : Char} {a b : Str} (h : c ∉ a) : cutChar c (a ++ c :: b) = (a, b) := by
  rw [cutChar_append h]; simp [cutChar]

theorem cutChar_of_not_mem {c : Char} {a : Str} (h : c ∉ a) : cutChar c a = (a, []) := by
  rcases (cutChar_spec c a).2 with h' | h'
  · exact absurd h'.1 h
  · exact h'.2

theorem exists_first {c : Char} {s : Str} (h : c ∈ s) : ∃ a b, s = a ++ c :: b ∧ c ∉ a := by
  rcases (cutChar_spec c s).2 with h' | h'
  · exact ⟨_, _, h'.2, (cutChar_spec c s).1⟩
  · exact absurd h h'.1

theorem exists_concat {s : Str} (h : s ≠ []) : ∃ a c, s = a ++ [c] :=
  ⟨s.dropLast, s.getLast h, (List.dropLast_concat_getLast h).symm⟩

/-- `parse_url` closed form. -/
theorem parseUrl_eq {url : Str} {r : UrlParts} (h : urlparse url = .ok r) (hne : url ≠ [])
    (hh : url.head? ≠ some '#') : parseUrl url = .ok (r, queryOf url, fragOf url) := by
  obtain ⟨hf, hq⟩ := urlparse_frag_query h
  unfold parseUrl fragOf queryOf
  rw [h]
  simp only [bind, Except.bind]
  clear h
  by_cases hm : '#' ∈ url
  · obtain ⟨A, fr, rfl, hA⟩ := exists_first hm
    rw [cutChar_of_mem hA] at hf hq ⊢
    simp only at hf hq ⊢
    have hAne : A ≠ [] := by
      intro h0; subst h0; simp at hh
    obtain ⟨A0, a, rfl⟩ := exists_concat hAne
    rw [if_pos hm]
    by_cases hm2 : '?' ∈ A0 ++ [a]
    · obtain ⟨B, q, hB, hBn⟩ := exists_first hm2
      have hcut : cutChar '?' (A0 ++ [a]) = (B, q) := by rw [hB, cutChar_of_mem hBn]
      rw [hcut] at hq ⊢
      simp only at hq ⊢
      have hqa : q = [] → a = '?' := by
        intro h0; subst h0
        have := congrArg List.getLast? hB
        simpa using this
      rw [if_pos hm2, ← hq, hf]
      rw [← hq] at hqa
      by_cases hfr : fr = []
      · subst hfr
        rw [if_pos rfl, pyIndex_neg_one]
        have e2 : pyIndex (A0 ++ [a] ++ ['#']) (-2) = .ok a := by
          rw [List.append_assoc]; exact pyIndex_neg_two
        simp only [e2]
        by_cases hq0 : r.query = []
        · simp [hq0, hqa hq0, pure, Except.pure]
        · simp [hq0, pure, Except.pure]
      · rw [if_neg hfr]
        have e2 : pyIndex (A0 ++ [a] ++ '#' :: fr)
            (((A0 ++ [a] ++ '#' :: fr).length : Int) - fr.length - 2) = .ok a :=
          pyIndex_before_hash
        rw [e2]; simp only []
        by_cases hq0 : r.query = []
        · simp [hq0, hqa hq0, pure, Except.pure]
        · simp [hq0, pure, Except.pure]
    · have hq0 : r.query = [] := by rw [hq, cutChar_of_not_mem hm2]
      have ha : a ≠ '?' := by intro e; subst e; simp at hm2
      rw [if_neg hm2, hf]
      by_cases hfr : fr = []
      · subst hfr
        rw [if_pos rfl, pyIndex_neg_one]
        have e2 : pyIndex (A0 ++ [a] ++ ['#']) (-2) = .ok a := by
          rw [List.append_assoc]; exact pyIndex_neg_two
        simp only [e2]
        simp [hq0, ha, pure, Except.pure]
      · rw [if_neg hfr]
        have e2 : pyIndex (A0 ++ [a] ++ '#' :: fr)
            (((A0 ++ [a] ++ '#' :: fr).length : Int) - fr.length - 2) = .ok a :=
          pyIndex_before_hash
        rw [e2]; simp only []
        simp [hq0, ha, pure, Except.pure]
  · rw [cutChar_of_not_mem hm] at hf hq ⊢
    simp only at hf hq ⊢
    obtain ⟨A0, a, rfl⟩ := exists_concat hne
    have hah : a ≠ '#' := by intro e; subst e; simp at hm
    rw [if_neg hm, if_pos hf, pyIndex_neg_one]
    simp only [ne_eq, hah, not_false_eq_true, if_true]
    by_cases hm2 : '?' ∈ A0 ++ [a]
    · obtain ⟨B, q, hB, hBn⟩ := exists_first hm2
      have hcut : cutChar '?' (A0 ++ [a]) = (B, q) := by rw [hB, cutChar_of_mem hBn]
      rw [hcut] at hq ⊢
      simp only at hq ⊢
      have hqa : q = [] → a = '?' := by
        intro h0; subst h0
        have := congrArg List.getLast? hB
        simpa using this
      rw [if_pos hm2, ← hq]
      rw [← hq] at hqa
      by_cases hq0 : r.query = []
      · simp [hq0, hqa hq0, pure, Except.pure]
      · simp [hq0, pure, Except.pure]
    · have hq0 : r.query = [] := by rw [hq, cutChar_of_not_mem hm2]
      have ha : a ≠ '?' := by intro e; subst e; simp at hm2
      rw [if_neg hm2]
      simp [hq0, ha, pure, Except.pure]

end OsUrl
