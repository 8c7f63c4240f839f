import Verif.Proofs.Url

/-! # C01: `parse_url` distinguishes a missing query/fragment from an empty one -/

namespace OsUrl

/-- `f` is the text after the first `#` of `url`. -/
def FragmentText (url f : Str) : Prop := ∃ a, url = a ++ '#' :: f ∧ '#' ∉ a

/-- `q` is the text after the first `?` of the part of `url` before its first `#`. -/
def QueryText (url q : Str) : Prop :=
  ∃ a b, url = a ++ '?' :: q ++ b ∧ '?' ∉ a ∧ '#' ∉ a ∧ '#' ∉ q ∧ (b = [] ∨ b.head? = some '#')

/-- A `?` occurs in `url` with no `#` before it. -/
def HasQuery (url : Str) : Prop := ∃ a b, url = a ++ '?' :: b ∧ '#' ∉ a

theorem hasQuery_iff (url : Str) : HasQuery url ↔ '?' ∈ (cutChar '#' url).1 := by
  obtain ⟨h1, h2⟩ := cutChar_spec '#' url
  constructor
  · rintro ⟨a, b, rfl, ha⟩
    rw [cutChar_append ha]
    simp [cutChar]
  · intro h
    obtain ⟨a, b, hab, -⟩ := exists_first h
    have ha : '#' ∉ a := by intro hc; exact h1 (by rw [hab]; simp [hc])
    rcases h2 with ⟨-, h2⟩ | ⟨-, h2⟩
    · exact ⟨a, b ++ '#' :: (cutChar '#' url).2, by conv => lhs; rw [h2, hab]
                                                    simp, ha⟩
    · refine ⟨a, b, ?_, ha⟩
      rw [h2] at hab; exact hab

/-- **C01**: for every non-empty URL that `urlparse` accepts and that does not start with `#`,
`parse_url` succeeds; the fragment is `None` exactly when there is no `#`, the query is `None`
exactly when there is no `?` before the first `#`, and when present they are the right texts. -/
theorem C01_presence (url : Str) (r : UrlParts) (h : urlparse url = .ok r) (hne : url ≠ [])
    (hh : url.head? ≠ some '#') :
    ∃ q f, parseUrl url = .ok (r, q, f) ∧
      (f = none ↔ '#' ∉ url) ∧ (∀ t, f = some t → FragmentText url t) ∧
      (q = none ↔ ¬ HasQuery url) ∧ (∀ t, q = some t → QueryText url t) := by
  refine ⟨_, _, parseUrl_eq h hne hh, ?_, ?_, ?_, ?_⟩
  · unfold fragOf; split <;> simp_all
  · intro t ht
    unfold fragOf at ht
    split at ht
    · rename_i hm
      obtain ⟨a, b, rfl, ha⟩ := exists_first hm
      rw [cutChar_of_mem ha] at ht
      simp at ht; subst ht
      exact ⟨a, rfl, ha⟩
    · cases ht
  · rw [hasQuery_iff]; unfold queryOf; split <;> simp_all
  · intro t ht
    unfold queryOf at ht
    split at ht
    · rename_i hm
      obtain ⟨h1, h2⟩ := cutChar_spec '#' url
      obtain ⟨a, b, hab, ha⟩ := exists_first hm
      rw [hab, cutChar_of_mem ha] at ht
      simp at ht; subst ht
      rw [hab] at h1
      simp at h1
      rcases h2 with ⟨-, h2⟩ | ⟨-, h2⟩
      · refine ⟨a, '#' :: (cutChar '#' url).2, ?_, ha, h1.1, h1.2, .inr rfl⟩
        conv => lhs; rw [h2, hab]
      · rw [h2] at hab
        simp only at hab
        exact ⟨a, [], by simp [hab], ha, h1.1, h1.2, .inl rfl⟩
    · cases ht

/-- **C01**: the other parts are those of `urlparse`, and its failure is the failure of `parse_url`. -/
theorem C01_urlparse_error (url : Str) (e : PyErr) (h : urlparse url = .error e) :
    parseUrl url = .error e := by
  unfold parseUrl; rw [h]; rfl

/-- The stated domain is not empty: `urlparse` accepts every URL without square brackets. -/
theorem C01_domain (url : Str) (h1 : '[' ∉ url) (h2 : ']' ∉ url) : ∃ r, urlparse url = .ok r := by
  have hs := splitScheme_spec url
  obtain ⟨pre, hs, -⟩ := hs
  unfold urlparse
  cases hsc : splitScheme url with
  | mk scheme rest =>
    rw [hsc] at hs
    simp only at hs ⊢
    have r1 : '[' ∉ rest := fun hc => h1 (by rw [hs]; simp [hc])
    have r2 : ']' ∉ rest := fun hc => h2 (by rw [hs]; simp [hc])
    have key : ∀ c, c ∉ rest →
        c ∉ (if startsWith ['/', '/'] rest = true then splitNetloc (rest.drop 2) else ([], rest)).1 := by
      intro c hc
      split
      · have := (splitNetloc_spec (rest.drop 2)).1
        intro hm
        apply hc
        apply List.mem_of_mem_drop (i := 2)
        rw [this]
        simp [hm]
      · simp
    have k1 := key _ r1
    have k2 := key _ r2
    generalize (if startsWith ['/', '/'] rest = true then splitNetloc (rest.drop 2) else ([], rest)) = nl at *
    obtain ⟨netloc, rest'⟩ := nl
    simp only at k1 k2 ⊢
    have e1 : hasChar '[' netloc = false := by
      simpa [Bool.eq_false_iff, hasChar_iff] using k1
    have e2 : hasChar ']' netloc = false := by
      simpa [Bool.eq_false_iff, hasChar_iff] using k2
    rw [e1, e2]
    simp

/-- **C01**, outside the domain: the empty URL and a lone `#` raise `IndexError`, and a `?` inside
the fragment at the end of a URL starting with `#` is taken for an empty query. -/
theorem C01_outside :
    parseUrl [] = .error .indexError ∧ parseUrl c!"#" = .error .indexError ∧
    (parseUrl c!"#ab?").map (fun r => r.2) = .ok (some [], some c!"ab?") ∧ ¬ HasQuery c!"#ab?" := by
  refine ⟨by decide, by decide, by decide, ?_⟩
  rw [hasQuery_iff]; decide

example : parseUrl c!"http://h/p?#f?" = .ok (⟨c!"http", c!"h", c!"/p", [], [], c!"f?"⟩, some [], some c!"f?") := by
  decide
example : ∃ r, urlparse c!"http://h/p?#f?" = .ok r := C01_domain _ (by decide) (by decide)

end OsUrl
