import Verif.Props.C57
import Verif.Props.C58
import Verif.Proofs.ReCat

/-!
# C62: pattern files in the other formats

A text with a blank, a tab or another control character in it is never matched, even when it can be loaded.
-/

namespace OsUrl
open Spec

/-! ### the characters of a pattern -/

/-- Neither a blank nor a control character of ASCII. -/
def Ink (c : Char) : Prop := 33 ≤ c.toNat ∧ c.toNat ≠ 127

instance (c : Char) : Decidable (Ink c) := inferInstanceAs (Decidable (_ ∧ _))

theorem Graph.ink {c : Char} (h : Graph c) : Ink c := ⟨h.1, by have := h.2; omega⟩

theorem digit_ink {c : Char} (h : isUniDigitC c = true) : Ink c := by
  by_cases hc : c.toNat < 128
  · exact (alnum_graph (by simp [isAlnumC, ascii_isDigitC h hc])).ink
  · exact ⟨by omega, by omega⟩

theorem ruleSet_ink : ∀ r ∈ ruleSet, ∀ c ∈ r, Ink c := by decide +kernel

theorem form_ink {u : PatternUnit} (h : UnitForm u) : ∀ c ∈ u.str, Ink c := by
  intro c hc
  cases h with
  | empty h => rw [h] at hc; cases hc
  | lit rule h hr hn =>
    have := h.2.2 c hc
    obtain ⟨sp, hsp, -⟩ := charRule_some_iff.mp this
    exact (known_graph (by unfold Known; rw [hsp]; rfl)).ink
  | cls rs q hrs hq hs hr hn =>
    rw [hs] at hc
    simp only [List.mem_append, List.mem_cons, List.cons_append] at hc
    rcases hc with rfl | hc | rfl | hc
    · decide
    · obtain ⟨r, hr, hc⟩ := List.mem_flatten.mp hc
      exact ruleSet_ink r (hrs r hr) c hc
    · decide
    · generalize u.num = n at hq
      cases hq with
      | one => cases hc
      | plus => simp only [List.mem_singleton] at hc; subst hc; decide
      | braces ds hd =>
        simp only [List.mem_append, List.mem_cons, List.cons_append, List.not_mem_nil, or_false] at hc
        rcases hc with rfl | hc | rfl
        · decide
        · exact digit_ink (decimal_isUniDigitC ((isDecimalStr_iff.mp hd).2 c hc))
        · decide

theorem good_ink {p : MatchPattern} (h : GoodPat p) : ∀ c ∈ p.str, Ink c := by
  rcases patternUnits_form h.1 with ⟨h0, -⟩ | ⟨-, h1⟩
  · rw [h0]; simp
  · rw [← h.flat]
    intro c hc
    obtain ⟨s, hs, hc⟩ := List.mem_flatten.mp hc
    obtain ⟨u, hu, rfl⟩ := List.mem_map.mp hs
    exact form_ink (h1 u hu).1 c hc

theorem filterUseless_chars {xs : List Str} {p : Str} (h : p ∈ xs) (hp : p ≠ []) : p ∈ filterUseless xs := by
  have hne : xs ≠ [] := by rintro rfl; cases h
  rw [filterUseless_eq hne]
  simp [h, hp]

/-- Where the characters of a pattern string go. -/
theorem analyze_chars {s : Str} {m : URLMeta} {strs : List Str} (hs : startsWith ['/'] s = true)
    (h : analyzeUrlPatternString s = .ok (m, strs)) :
    ∀ c ∈ s, Ink c ∨ (∃ k ∈ m.queryKeys, c ∈ k) ∨ ∃ p ∈ strs, c ∈ p := by
  -- the parts of the text
  have parts : ∀ path, (parseUrlPatternString s).path = some path → startsWith ['/'] path = true ∧
      ∀ c ∈ s, Ink c ∨ c ∈ path ∨ (∃ q, (parseUrlPatternString s).query = some q ∧ c ∈ q) ∨
        ∃ f, (parseUrlPatternString s).fragment = some f ∧ c ∈ f := by
    have htake : ∀ n, 0 < n → startsWith ['/'] (s.take n) = true := by
      intro n hn
      cases s with
      | nil => simp [startsWith] at hs
      | cons x s =>
        obtain ⟨k, rfl⟩ : ∃ k, n = k + 1 := ⟨n - 1, by omega⟩
        simpa [startsWith, List.isPrefixOf] using hs
    have hhash : ∀ f, findChar '#' s = some f → ∀ c ∈ s, Ink c ∨ c ∈ s.take f ∨ c ∈ s.drop (f + 1) := by
      intro f hf c hc
      obtain ⟨a, b, rfl, -, rfl⟩ := findChar_some hf
      simp only [List.mem_append, List.mem_cons] at hc
      rcases hc with hc | rfl | hc
      · right; left; simpa using hc
      · left; decide
      · right; right; simpa using hc
    have hquest : ∀ q, find singleQuestion s = some q → ∀ n, ∀ c ∈ s.take n, Ink c ∨ c ∈ s.take q ∨ c ∈ (s.take n).drop (q + 4) := by
      intro q hq n c hc
      obtain ⟨t, ht⟩ := List.isPrefixOf_iff_prefix.mp (find_some hq)
      obtain ⟨i, hi⟩ := List.getElem?_of_mem hc
      by_cases h1 : i < q
      · right; left
        refine List.mem_of_getElem? (i := i) ?_
        rw [List.getElem?_take_of_lt h1]
        rw [List.getElem?_take] at hi
        split at hi
        · exact hi
        · cases hi
      · by_cases h2 : i < q + 4
        · left
          have h3 : s[i]? = some c := by
            rw [List.getElem?_take] at hi
            split at hi
            · exact hi
            · cases hi
          have h4 : (singleQuestion ++ t)[i - q]? = some c := by
            rw [ht, List.getElem?_drop, show q + (i - q) = i by omega]
            exact h3
          have h5 : singleQuestion.length = 4 := rfl
          rw [List.getElem?_append_left (by omega)] at h4
          have : c ∈ singleQuestion := List.mem_of_getElem? h4
          exact (show ∀ x ∈ singleQuestion, Ink x by decide) c this
        · right; right
          refine List.mem_of_getElem? (i := i - (q + 4)) ?_
          rw [List.getElem?_drop, show q + 4 + (i - (q + 4)) = i by omega]
          exact hi
    intro path hpath
    unfold parseUrlPatternString at hpath ⊢
    cases hq : find singleQuestion s with
    | none =>
      cases hf : findChar '#' s with
      | none =>
        rw [hq, hf] at hpath
        simp only [Option.some.injEq] at hpath ⊢
        subst hpath
        exact ⟨hs, fun c hc => .inr (.inl hc)⟩
      | some f =>
        rw [hq, hf] at hpath
        simp only at hpath ⊢
        by_cases h0 : f > 0
        · rw [if_pos h0] at hpath ⊢
          cases hpath
          refine ⟨htake f h0, ?_⟩
          intro c hc
          rcases hhash f hf c hc with h | h | h
          · exact .inl h
          · exact .inr (.inl h)
          · exact .inr (.inr (.inr ⟨_, rfl, h⟩))
        · rw [if_neg h0] at hpath
          cases hpath
    | some q =>
      cases hf : findChar '#' s with
      | none =>
        rw [hq, hf] at hpath
        simp only at hpath ⊢
        by_cases h0 : q > 0
        · rw [if_pos h0] at hpath ⊢
          cases hpath
          refine ⟨htake q h0, ?_⟩
          intro c hc
          have := hquest q hq s.length c (by rwa [List.take_length])
          rw [List.take_length] at this
          rcases this with h | h | h
          · exact .inl h
          · exact .inr (.inl h)
          · exact .inr (.inr (.inl ⟨_, rfl, h⟩))
        · rw [if_neg h0] at hpath
          cases hpath
      | some f =>
        rw [hq, hf] at hpath
        simp only at hpath ⊢
        by_cases h0 : q > 0 ∧ f > 0
        · rw [if_pos h0] at hpath ⊢
          by_cases h1 : f > q
          · rw [if_pos h1] at hpath ⊢
            cases hpath
            refine ⟨htake q h0.1, ?_⟩
            intro c hc
            rcases hhash f hf c hc with h | h | h
            · exact .inl h
            · rcases hquest q hq f c h with h | h | h
              · exact .inl h
              · exact .inr (.inl h)
              · exact .inr (.inr (.inl ⟨_, rfl, h⟩))
            · exact .inr (.inr (.inr ⟨_, rfl, h⟩))
          · rw [if_neg h1] at hpath ⊢
            cases hpath
            refine ⟨htake f h0.2, ?_⟩
            intro c hc
            rcases hhash f hf c hc with h | h | h
            · exact .inl h
            · exact .inr (.inl h)
            · exact .inr (.inr (.inr ⟨_, rfl, h⟩))
        · rw [if_neg h0] at hpath
          cases hpath
  unfold analyzeUrlPatternString unpack at h
  cases hpath : (parseUrlPatternString s).path with
  | none => rw [hpath] at h; cases h
  | some path =>
    rw [hpath] at h
    simp only at h
    split at h
    · cases h
    · obtain ⟨⟨ks, vs⟩, h1, h⟩ := bind_ok h
      simp only [Bool.false_eq_true, if_false, pure, Except.pure, Except.ok.injEq, Prod.mk.injEq] at h
      obtain ⟨rfl, rfl⟩ := h
      obtain ⟨hp, hparts⟩ := parts path hpath
      intro c hc
      rcases hparts c hc with hc | hc | ⟨q, eq, hc⟩ | ⟨f, ef, hc⟩
      · exact .inl hc
      · rw [← join_splitChar '/' path] at hc
        rcases mem_join hc with hc | ⟨p, hpm, hc⟩
        · left
          simp only [List.mem_singleton] at hc
          subst hc
          decide
        · right; right
          have hpd : p ∈ (splitChar '/' path).drop 1 := by
            cases path with
            | nil => simp [startsWith] at hp
            | cons x path =>
              have hx : x = '/' := by
                simp only [startsWith, List.isPrefixOf, Bool.and_true, beq_iff_eq] at hp
                exact hp.symm
              subst hx
              have : splitChar '/' ('/' :: path) = [] :: splitChar '/' path := by simp [splitChar]
              rw [this] at hpm ⊢
              rcases List.mem_cons.mp hpm with rfl | hpm
              · cases hc
              · exact hpm
          refine ⟨p, ?_, hc⟩
          rw [List.append_assoc]
          exact List.mem_append_left _ (filterUseless_chars hpd (by rintro rfl; cases hc))
      · obtain ⟨h2, h3, h4⟩ := query_parts h1
        have := h4 q eq
        rw [← this] at hc
        rcases mem_join hc with hc | ⟨p, hpm, hc⟩
        · left
          simp only [List.mem_singleton] at hc
          subst hc
          decide
        · right
          obtain ⟨⟨k, v⟩, hkv, rfl⟩ := List.mem_map.mp hpm
          have hz := List.of_mem_zip hkv
          rcases List.mem_append.mp hc with hc | hc
          · exact .inl ⟨k, hz.1, hc⟩
          · exact .inr ⟨v, by simp [hz.2], hc⟩
      · right; right
        exact ⟨f, by simp [ef], hc⟩

/-- A text that is read with the structure of a URL has no blanks and no control characters. -/
theorem text_chars {url t : Str} {m : URLMeta} {pps : List ParsedPiece} {ps : List MatchPattern} (h : parse url = .ok (m, .pieces pps))
    (ht : parse t = .ok (m, .patterns ps)) : ∀ c ∈ t, Ink c := by
  obtain ⟨pieces, ha, -, -⟩ := parse_url h
  obtain ⟨hs, -⟩ := parse_patterns ht
  intro c hc
  rcases analyze_chars hs (parse_patterns_strs ht) c hc with h1 | ⟨k, hk, h1⟩ | ⟨p, hp, h1⟩
  · exact h1
  · exact (analyzeUrl_keys ha k hk c h1).ink
  · obtain ⟨q, hq, rfl⟩ := List.mem_map.mp hp
    exact good_ink (parse_patterns_good ht q hq) c h1

theorem match_foreign {md5 : Str → Str} {hist : List (Str × Option Str)} {url : Str} {m : URLMeta} {pps : List ParsedPiece}
    (h : parse url = .ok (m, .pieces pps)) (hc : NoClash md5 (url :: hist.map (·.1))) (hf : ∀ x ∈ hist, ∃ c ∈ x.1, ¬ Ink c) :
    (mloadAll md5 hist).match_ md5 url = .ok [] := by
  obtain ⟨g, hg, -, h1 | h1⟩ := match_grp hc h
  · exact h1.2
  · exfalso
    obtain ⟨r, hr⟩ := List.exists_mem_of_ne_nil _ h1.1
    obtain ⟨hr, hm, -⟩ := (hg r).mp hr
    obtain ⟨s, hs, e⟩ := mem_macc.mp hr
    obtain ⟨c, hc, hn⟩ := hf _ hs
    rw [hm] at e
    exact hn (text_chars h e c hc)

/-- **C62**: a pattern text with a blank or a control character in it is matched by no URL: no result of `match` was read from such a text, and
when all loaded texts are such texts, `match` returns nothing. -/
theorem C62_foreign (md5 : Str → Str) (hist : List (Str × Option Str)) (url : Str) (m : URLMeta) (pps : List ParsedPiece)
    (h : parse url = .ok (m, .pieces pps)) (hc : NoClash md5 (url :: hist.map (·.1))) :
    (∀ rs, (mloadAll md5 hist).match_ md5 url = .ok rs → ∀ x ∈ rs, ∀ t md, (t, md) ∈ hist → parse t = .ok (m, .patterns x.path) →
      ∀ c ∈ t, 32 < c.toNat ∧ c.toNat ≠ 127) ∧
    ((∀ x ∈ hist, ∃ c ∈ x.1, c.toNat ≤ 32 ∨ c.toNat = 127) → (mloadAll md5 hist).match_ md5 url = .ok []) := by
  refine ⟨?_, ?_⟩
  · intro rs _ x _ t md _ e c hc
    have := text_chars h e c hc
    exact ⟨by have := this.1; omega, by have := this.2; omega⟩
  · intro hf
    refine match_foreign h hc ?_
    intro x hx
    obtain ⟨c, hc, h1⟩ := hf x hx
    exact ⟨c, hc, by unfold Ink; omega⟩

/-! ### the files -/

/-- The line has a URL that can be read. -/
def Readable (env : Env) (line : Bytes) : Prop := ∃ url r, env.decode (stripB line) = some url ∧ parse url = .ok r

/-- What `pattern-match` writes when nothing is ever matched: `N` for the lines that can be read and `E` for the others. -/
def NothingMatched (env : Env) (lines : List Bytes) (out : Bytes) : Prop :=
  ∃ res : Bytes → Bytes, out = (lines.map (fun l => res l ++ [9] ++ stripB l ++ [10])).flatten ∧
    ∀ l ∈ lines, (Readable env l → res l = [78]) ∧ (¬ Readable env l → res l = [69])

theorem nothing_run {env : Env} (hu : Utf8 env) (am : Bool) (pats lines : List Bytes)
    (h : ∀ l ∈ lines, ∀ url r, env.decode (stripB l) = some url → parse url = .ok r → (matchLoad env pats).match_ env.md5 url = .ok []) :
    NothingMatched env lines (matchRun env am pats lines) := by
  refine ⟨fun l => let r := matchResult env (matchLoad env pats) am (stripB l); if r.isEmpty then [78] else r, rfl, ?_⟩
  intro l hl
  refine ⟨?_, ?_⟩
  · rintro ⟨url, r, h1, h2⟩
    have := h l hl url r h1 h2
    have e : matchResult env (matchLoad env pats) am (stripB l) = [] := by
      unfold matchResult matchTry
      rw [h1]
      simp only [this, bind, Except.bind, pure, Except.pure]
      cases am <;> simp [pySortedDesc, pySorted, join, hu.nil, bind, Except.bind, pure, Except.pure]
    simp only [e]
    rfl
  · intro hn
    have e : matchResult env (matchLoad env pats) am (stripB l) = [69] := by
      unfold matchResult matchTry
      cases hd : env.decode (stripB l) with
      | none => rfl
      | some url =>
        cases hp : parse url with
        | ok r => exact absurd ⟨url, r, hd, hp⟩ hn
        | error e => simp [PatternMatcherSt.match_, hp, bind, Except.bind]
    simp only [e]
    rfl

theorem rstrip_head {l : Bytes} {b : UInt8} (h : (rstripB l).head? = some b) : l.head? = some b := by
  obtain ⟨⟨a, e, -⟩, -⟩ := (rstrip_iff l _).mp rfl
  rw [e, List.head?_append, h]
  rfl

theorem object_head {r : Str} (h : (readObject r).isSome) : ∃ c s, r = c :: s ∧ c ∈ [' ', '\t', '\n', '\r', '{'] := by
  cases r with
  | nil => exact absurd h (by decide)
  | cons c s =>
    refine ⟨c, s, rfl, ?_⟩
    by_cases hc : c ∈ [' ', '\t', '\n', '\r']
    · simp only [List.mem_cons, List.not_mem_nil, or_false] at hc ⊢
      rcases hc with h | h | h | h <;> simp [h]
    · unfold readObject at h
      have e : blanks (c :: s) = c :: s := by
        unfold blanks
        rw [List.dropWhile_cons, if_neg (by simpa using hc)]
      rw [e] at h
      by_cases h2 : c = '{'
      · simp [h2]
      · exfalso
        revert h
        split
        · rename_i t1 he
          exact absurd (List.cons.inj he).1 h2
        · exact fun h => nomatch h

/-- **C62**: the file that the JSON formatter (or the one that prints nothing) writes contains no pattern for `pattern-match`: its matcher stays
empty, and every line is answered with `N` or `E`. -/
theorem C62_json (env : Env) (hu : StrictUtf8 env) (mcn : Int) (hm : 2 ≤ mcn) (f : Fmt) (hf : f = .json ∨ f = .null) (files : List Bytes)
    (hc : NoCollision env.md5 (accepted (urlsOf env false (chainLines files))))
    (hh : NoHashClash env.rt (UrlRow (urlsOf env false (chainLines files)))) :
    ∃ out, makeMain env mcn f files = .ok out ∧ patternTexts env (chainLines [out]) = [] ∧ matchLoad env (chainLines [out]) = [] ∧
      ∀ (am : Bool) (queries : List Bytes), NothingMatched env (chainLines queries) (matchMain env am [out] queries) := by
  have hl : loadsUrl f = false := by rcases hf with rfl | rfl <;> rfl
  obtain ⟨out, records, B, h1, h2, -, -, h3⟩ := C58_make env hu mcn hm f files (by rw [hl]; exact hc) (by rw [hl]; exact hh)
  have hlines : chainLines [out] = records.map (fun r => env.encode r ++ [10]) := by
    simp only [chainLines, List.flatMap_cons, List.flatMap_nil, List.append_nil]
    exact (linesOf_unique h2).symm
  have htexts : patternTexts env (chainLines [out]) = [] := by
    rw [hlines]
    unfold patternTexts
    rw [List.filterMap_eq_nil_iff]
    intro l hlm
    obtain ⟨r, hr, rfl⟩ := List.mem_map.mp hlm
    refine if_neg ?_
    intro h0
    rcases hf with rfl | rfl
    · simp only [Printed] at h3
      have h4 : (readObject r).isSome := by
        have : readObject r ∈ records.map readObject := List.mem_map_of_mem hr
        rw [h3] at this
        obtain ⟨b, -, e⟩ := List.mem_map.mp this
        rw [← e]
        rfl
      obtain ⟨c, s, rfl, hcm⟩ := object_head h4
      have h5 := rstrip_head h0
      rw [encode_cons hu] at h5
      have key : ∀ c ∈ [' ', '\t', '\n', '\r', '{'], c.toNat < 128 ∧ UInt8.ofNat c.toNat ≠ 47 := by decide
      rw [hu.ascii c (key c hcm).1] at h5
      exact (key c hcm).2 (by simpa using h5)
    · simp only [Printed] at h3
      subst h3
      cases hr
  have hload : matchLoad env (chainLines [out]) = [] := by rw [matchLoad_eq, htexts]; rfl
  refine ⟨out, h1, htexts, hload, ?_⟩
  intro am queries
  unfold matchMain
  refine nothing_run hu.toUtf8 am _ _ ?_
  intro l _ url r _ hp
  rw [hload]
  unfold PatternMatcherSt.match_
  rw [hp]
  rfl

theorem inline_text {env : Env} (hu : StrictUtf8 env) {text u t : Str} (hl : ∀ b, (env.encode u).getLast? = some b → isSpaceB b = false)
    (hne : env.encode u ≠ []) (h : env.decode (rstripB (env.encode (text ++ '\t' :: u) ++ [10])) = some t) : t = text ++ '\t' :: u := by
  have : rstripB (env.encode (text ++ '\t' :: u) ++ [10]) = env.encode (text ++ '\t' :: u) := by
    rw [rstrip_iff]
    refine ⟨⟨[10], rfl, ?_⟩, ?_⟩
    · intro w hw
      rw [List.mem_singleton] at hw
      subst hw
      exact (isSpaceB_iff 10).mp (by decide)
    · intro w hw
      rw [hu.append, encode_cons hu, ← List.append_assoc, List.getLast?_append] at hw
      obtain ⟨b, hb⟩ : ∃ b, (env.encode u).getLast? = some b := by
        cases h : (env.encode u).getLast? with
        | none => exact absurd (List.getLast?_eq_none_iff.mp h) hne
        | some b => exact ⟨b, rfl⟩
      rw [hb] at hw
      simp only [Option.some_or, Option.some.injEq] at hw
      subst hw
      rw [← isSpaceB_iff, hl _ hb]
      simp
  rw [this, hu.back] at h
  exact (Option.some.inj h).symm

/-- **C62**: with the file that the inline formatter writes, `pattern-match` matches nothing. -/
theorem C62_inline (env : Env) (hu : StrictUtf8 env) (mcn : Int) (hm : 2 ≤ mcn) (files : List Bytes)
    (hc : NoCollision env.md5 (accepted (urlsOf env true (chainLines files))))
    (hh : NoHashClash env.rt (UrlRow (urlsOf env true (chainLines files)))) :
    ∃ out, makeMain env mcn .inline files = .ok out ∧
      ∀ (am : Bool) (queries : List Bytes),
        (∀ l ∈ chainLines queries, ∀ url, env.decode (stripB l) = some url → startsWith ['/'] url = false ∧
          NoClash env.md5 (url :: patternTexts env (chainLines [out]))) →
        NothingMatched env (chainLines queries) (matchMain env am [out] queries) := by
  obtain ⟨out, records, B, h1, h2, -, hB, h3⟩ := C58_make env hu mcn hm .inline files hc hh
  have hlines : chainLines [out] = records.map (fun r => env.encode r ++ [10]) := by
    simp only [chainLines, List.flatMap_cons, List.flatMap_nil, List.append_nil]
    exact (linesOf_unique h2).symm
  have htab : ∀ t ∈ patternTexts env (chainLines [out]), '\t' ∈ t := by
    rw [hlines]
    intro t ht
    unfold patternTexts at ht
    obtain ⟨l, hlm, ht⟩ := List.mem_filterMap.mp ht
    split at ht
    · obtain ⟨r, hr, rfl⟩ := List.mem_map.mp hlm
      simp only [Printed] at h3
      subst h3
      obtain ⟨b, hb, hr⟩ := List.mem_flatMap.mp hr
      obtain ⟨u, hub, rfl⟩ := List.mem_map.mp hr
      have hin := ((hB.urls b hb u hub u).mp hub).1
      obtain ⟨l, -, hl⟩ := List.mem_filterMap.mp hin
      unfold urlOf at hl
      split at hl
      · cases hl
      · rename_i hne
        have he := hu.decode _ _ hl
        have := inline_text hu (u := u) (text := b.text) (t := t) (by
          rw [he]
          intro w hw
          have := ((strip_iff _ _).mp rfl).2.2 w hw
          rw [← isSpaceB_iff] at this
          simpa using this) (by rw [he]; exact hne) ht
        rw [this]
        simp
    · cases ht
  refine ⟨out, h1, ?_⟩
  intro am queries hq
  unfold matchMain
  refine nothing_run hu.toUtf8 am _ _ ?_
  intro l hl url r hd hp
  obtain ⟨hs, hcl⟩ := hq l hl url hd
  obtain ⟨m, p⟩ := r
  obtain ⟨pps, rfl⟩ : ∃ pps, p = .pieces pps := by
    have := (C57_parse url m p hp).1
    rw [if_neg] at this
    · obtain ⟨pps, e, -⟩ := this; exact ⟨pps, e⟩
    · intro h
      cases url with
      | nil => cases h
      | cons c s =>
        simp only [List.head?_cons, Option.some.injEq] at h
        subst h
        simp [startsWith, List.isPrefixOf] at hs
  rw [matchLoad_eq]
  refine match_foreign hp (by rw [List.map_map]; simpa [Function.comp_def] using hcl) ?_
  intro x hx
  obtain ⟨t, ht, rfl⟩ := List.mem_map.mp hx
  exact ⟨'\t', htab t ht, by decide⟩

/-- **C62** (finding): the lines of an inline file are not all refused when they are loaded.  The last line of this file is taken as a pattern,
with the tab and the URL inside a query key, and it takes a place in the matcher though no URL has such a key. -/
theorem C62_loads_false : ∃ (files : List Bytes) (out : Bytes), makeMain c47Env 2 .inline files = .ok out ∧
    out = asciiBytesM c!"/a[\\?]b&c\thttp://h/a?b&c\n" ∧ (matchLoad c47Env (chainLines [out])).length = 1 ∧
    matchMain c47Env true [out] files = asciiBytesM c!"N\thttp://h/a?b&c\n" :=
  ⟨[asciiBytesM c!"http://h/a?b&c\n"], asciiBytesM c!"/a[\\?]b&c\thttp://h/a?b&c\n", by decide +kernel, rfl, by decide +kernel,
    by decide +kernel⟩

/-- The URLs of this example. -/
def c62Files : List Bytes := [asciiBytesM c!"http://h/p/1\nhttp://h/p/22\nhttp://h/q?k=ab \nx\n"]

example : makeMain c47Env 2 .inline c62Files = .ok (asciiBytesM
    c!"/p/[0-9]+\thttp://h/p/1\n/p/[0-9]+\thttp://h/p/22\n/q[\\?]k=ab\thttp://h/q?k=ab\n") := by decide +kernel

example : matchMain c47Env false [asciiBytesM
    c!"/p/[0-9]+\thttp://h/p/1\n/p/[0-9]+\thttp://h/p/22\n/q[\\?]k=ab\thttp://h/q?k=ab\n"] c62Files =
    asciiBytesM c!"N\thttp://h/p/1\nN\thttp://h/p/22\nN\thttp://h/q?k=ab\nE\tx\n" := by decide +kernel

/-- The same patterns without the URLs match. -/
example : matchMain c47Env false [asciiBytesM c!"/p/[0-9]+\n/q[\\?]k=ab\n"] c62Files =
    asciiBytesM c!"/p/[0-9]+\thttp://h/p/1\n/p/[0-9]+\thttp://h/p/22\n/q[\\?]k=ab\thttp://h/q?k=ab\nE\tx\n" := by decide +kernel

example : makeMain c47Env 2 .json c62Files = .ok (asciiBytesM
    c!"{\"ptn\": \"/p/[0-9]+\", \"cnt\": 2}\n{\"ptn\": \"/q[\\\\?]k=ab\", \"cnt\": 1}\n") := by decide +kernel

end OsUrl
