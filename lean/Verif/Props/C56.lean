import Verif.Proofs.ReRun
import Verif.Proofs.MatchRe
import Verif.Spec.Lang
import Verif.Props.C16
import Verif.Props.C25

/-! # C56: `Pattern.match` -/

namespace OsUrl
open Spec

/-- **C56**: for every text of the fragment, `Pattern.match` says whether the whole string, or the whole string without a newline at
its end, is matched by the regular expression. -/
theorem C56_engine (p s : Str) (is : List Item) (hp : reParse p = some is) :
    ∃ b, patternMatch p s = some b ∧ (b = true ↔ ∃ w, (s = w ∨ s = w ++ ['\n']) ∧ ReMatch p w) := by
  refine ⟨reRun is s, by simp [patternMatch, hp], ?_⟩
  rw [reRun_iff]
  unfold ReMatch UpToNewline
  rw [hp]
  simp

theorem qtext_len {n : Nat} (hn : n ≠ 0) : QText (if n = 1 then [] else '{' :: decimal n ++ ['}']) n := by
  by_cases h1 : n = 1
  · subst h1; exact .one
  · rw [if_neg h1]
    have := QText.braces (natStr n) (isDecimalStr_natStr _)
    rw [strNat_natStr] at this
    rwa [natStr_decimal] at this

theorem qtext_len_ascii (n : Nat) : AsciiText (if n = 1 then [] else '{' :: decimal n ++ ['}']) := by
  rw [← natStr_decimal]
  by_cases h1 : n = 1
  · rw [if_pos h1]; simp [AsciiText]
  · rw [if_neg h1]
    intro c hc
    simp only [List.cons_append, List.mem_cons, List.mem_append, List.not_mem_nil, or_false] at hc
    rcases hc with rfl | hc | rfl
    · decide
    · exact ascii_natStr _ c hc
    · decide

theorem unit_lang {u : GUnit} (h : u.Written) :
    (∃ is, ReadsAs u.text is ∧ ∀ t, ItemsMatch is t ↔ u.Lang t) ∧ ∀ r, NoQuant r → NoQuant (u.text ++ r) := by
  cases u with
  | run sp w =>
    obtain ⟨h1, h3⟩ := h
    have : Exact (runText (sp, w)) w := by
      cases sp with
      | sign c => exact Exact.sign h1 h3
      | lower => exact Exact.plain (fun c hc => word_not_special (h3 c hc) rfl)
      | upper => exact Exact.plain (fun c hc => word_not_special (h3 c hc) rfl)
      | digit => exact Exact.plain (fun c hc => word_not_special (h3 c hc) rfl)
    exact this
  | cls R n =>
    obtain ⟨hR, hn⟩ := h
    have hn0 : n ≠ 0 := by
      have := List.length_pos_iff.mpr hR.ne; omega
    refine ⟨⟨_, readsAs_class hR.ne hR.valid (qtext_len hn0) (qtext_len_ascii n), ?_⟩, fun r _ => by simp [NoQuant, GUnit.text]⟩
    intro t
    rw [itemsMatch_single]
    have hq : quantOf (n : Int) = .times n := by unfold quantOf; rw [if_neg (by omega)]; simp
    simp only [Item.Match, hq, class_has hR.valid, GUnit.Lang]
    exact And.comm
  | wild R =>
    have hR : WrittenClass R := h
    refine ⟨⟨_, readsAs_class hR.ne hR.valid .plus (by simp [AsciiText]), ?_⟩, fun r _ => by simp [NoQuant, GUnit.text]⟩
    intro t
    rw [itemsMatch_single]
    have hq : quantOf (-1) = .plus := by decide
    simp only [Item.Match, hq, class_has hR.valid, GUnit.Lang]
    rw [And.comm, Nat.one_le_iff_ne_zero, Ne, List.length_eq_zero_iff]

theorem units_lang (us : List GUnit) (h : ∀ u ∈ us, u.Written) :
    (∃ is, ReadsAs (patText us) is ∧ ∀ t, ItemsMatch is t ↔ InLang us t) ∧ ∀ r, NoQuant r → NoQuant (patText us ++ r) := by
  induction us with
  | nil => exact ⟨⟨[], ReadsAs.nil, fun _ => itemsMatch_nil⟩, fun _ h => h⟩
  | cons u us ih =>
    obtain ⟨⟨is, a1, a2⟩, a3⟩ := unit_lang (h u (by simp))
    obtain ⟨⟨js, b1, b2⟩, b3⟩ := ih (fun v hv => h v (by simp [hv]))
    refine ⟨⟨is ++ js, a1.append b1 b3, ?_⟩, ?_⟩
    · intro t
      rw [itemsMatch_append]
      simp only [a2, b2, InLang]
    · intro r hr
      show NoQuant ((u.text ++ patText us) ++ r)
      rw [List.append_assoc]
      exact a3 _ (b3 r hr)

/-- **C56**: `Pattern.match` of a generated pattern accepts exactly the strings that can be cut into words, one for each unit: the run
itself, `n` characters of the class, one or more characters of the class; and such a string with a newline at its end. -/
theorem C56_generated (us : List GUnit) (h : ∀ u ∈ us, u.Written) (s : Str) :
    ∃ b, patternMatch (patText us) s = some b ∧ (b = true ↔ ∃ w, (s = w ∨ s = w ++ ['\n']) ∧ InLang us w) := by
  obtain ⟨⟨is, h1, h2⟩, -⟩ := units_lang us h
  obtain ⟨b, h3, h4⟩ := C56_engine (patText us) s is h1.reParse
  refine ⟨b, h3, h4.trans ?_⟩
  simp only [reMatch_iff h1, h2]

/-- **C56**: the pattern of a piece, as `normalize` writes it, matches the piece and the piece with a newline, nothing else. -/
theorem C56_literal (s reserved t : Str) (hs : ∀ c ∈ s, Known c) (hr : ∀ c ∈ reserved, c ∉ special) :
    ∃ b, patternMatch (normalize s reserved) t = some b ∧ (b = true ↔ t = s ∨ t = s ++ ['\n']) := by
  obtain ⟨⟨is, h1, h2⟩, -⟩ := normalize_exact hr hs
  obtain ⟨b, h3, h4⟩ := C56_engine (normalize s reserved) t is h1.reParse
  refine ⟨b, h3, h4.trans ?_⟩
  simp only [reMatch_iff h1, h2]
  constructor
  · rintro ⟨w, h, rfl⟩; exact h
  · intro h; exact ⟨s, h, rfl⟩

theorem patternMatch_of {p s : Str} (h : ReMatch p s) : patternMatch p s = some true := by
  obtain ⟨is, h1, h2⟩ := h
  obtain ⟨b, h3, h4⟩ := C56_engine p s is h1
  rw [h3, h4.mpr ⟨s, .inl rfl, is, h1, h2⟩]

/-- **C56**: what `PatternMatcher.match` returns is confirmed by `Pattern.match`, piece by piece, where the pattern is ASCII. -/
theorem C56_match (md5 : Str → Str) (hist : List (Str × Option Str)) (url : Str) (m : URLMeta) (pieces : List Str)
    (pps : List ParsedPiece) (hs : startsWith ['/'] url = false) (ha : analyzeUrl url = .ok (m, pieces))
    (hp : pieces.mapM parsePiece = .ok pps) (hc : NoClash md5 (url :: hist.map (·.1)))
    (ht : AllTame hist) (he : NoEmptyClass hist) :
    ∃ rs, (mloadAll md5 hist).match_ md5 url = .ok rs ∧
      ∀ x ∈ rs, x.path.length = pieces.length ∧
        ∀ (i : Nat) (p : MatchPattern) (s : Str), x.path[i]? = some p → pieces[i]? = some s → '\\' ∉ s → AsciiText p.str → patternMatch p.str s = some true := by
  obtain ⟨rs, h1, h2⟩ := C16_regex md5 hist url m pieces pps hs ha hp hc ht he
  exact ⟨rs, h1, fun x hx => ⟨(h2 x hx).1, fun i p s h3 h4 h5 h6 => patternMatch_of ((h2 x hx).2 i p s h3 h4 h5 h6)⟩⟩

/-- **C56**: the patterns of a cluster are confirmed by `Pattern.match` for the pieces of its URLs. -/
theorem C56_make (md5 : Str → Str) (h : Runtime) (mcn : Int) (hm : 2 ≤ mcn) (hist : List (Str × Option Str))
    (hc : NoCollision md5 (accepted hist)) (hh : NoHashClash h (UrlRow hist)) :
    ∃ cs, PatternMakerSt.make h mcn (loadAll md5 hist) = .ok cs ∧
      ∀ c ∈ cs, ∀ p ∈ c.2.paths, ∀ u md pieces pps, (u, md) ∈ hist → analyzeUrl u = .ok (c.1, pieces) →
        pieces.mapM parsePiece = .ok pps → pps.map (·.piece) = p.map (·.1) →
          ∀ (i : Nat) (k : Str) (d : NodeData) (s : Str), p[i]? = some (k, d) → pieces[i]? = some s → '\\' ∉ s →
            patternMatch d.pattern s = some true := by
  obtain ⟨cs, h1, h2⟩ := C26_regex md5 h mcn hm hist hc hh
  exact ⟨cs, h1, fun c hc p hp u md pieces pps a1 a2 a3 a4 i k d s a5 a6 a7 =>
    patternMatch_of ((h2 c hc p hp u md pieces pps a1 a2 a3 a4).2 i k d s a5 a6 a7)⟩

/-- **C56**: two patterns are equal exactly when their texts have the same characters, whatever strings they match. -/
theorem C56_eq (p q : Str) : patternEq p q = true ↔ p.length = q.length ∧ ∀ i : Nat, p[i]? = q[i]? := by
  unfold patternEq
  rw [decide_eq_true_iff]
  exact ⟨by rintro rfl; exact ⟨rfl, fun _ => rfl⟩, fun h => List.ext_getElem? h.2⟩

/-- Two different patterns for the same strings. -/
example : patternEq c!"[0-9a-z]+" c!"[a-z0-9]+" = false ∧ patternEq c!"[0-9a-z]+" c!"[0-9a-z]+" = true := by decide +kernel

/-- `a+a` needs the engine to give back a character; the newline at the end; a missing character; an unknown construct. -/
example : patternMatch c!"[a-z]+a[\\.]{2}" c!"baba.." = some true ∧ patternMatch c!"[a-z]+a[\\.]{2}" c!"baba..\n" = some true ∧
    patternMatch c!"[a-z]+a[\\.]{2}" c!"bab.." = some false ∧ patternMatch c!"[a-z]+a[\\.]{2}" c!"baba..\n\n" = some false ∧
    patternMatch c!"a|b" c!"a" = none := by decide +kernel

example : (∀ u ∈ [GUnit.wild [.lower], .run .lower ['a'], .cls [.sign '.'] 2], u.Written) ∧
    patText [GUnit.wild [.lower], .run .lower ['a'], .cls [.sign '.'] 2] = c!"[a-z]+a[\\.]{2}" := by
  refine ⟨?_, by decide⟩
  intro u hu
  simp only [List.mem_cons, List.not_mem_nil, or_false] at hu
  rcases hu with rfl | rfl | rfl
  · exact ⟨by simp, by simp [Space.Valid], by simp⟩
  · exact ⟨by simp, by decide⟩
  · exact ⟨⟨by simp, by simp [Space.Valid, bareSigns, escapedSigns], by simp⟩, by simp⟩

end OsUrl
