import Verif.Props.C54

/-!
# C88: pattern files can be split and extended

What `pattern-match` writes for a line with the patterns of two files together, in terms of what it writes with each of them alone.
-/

namespace OsUrl
open Spec

theorem patternTexts_append (env : Env) (p q : List Bytes) : patternTexts env (p ++ q) = patternTexts env p ++ patternTexts env q := by
  simp [patternTexts]

theorem AllGen.mono {h h' : List (Str × Option Str)} (hg : AllGen h') (sub : ∀ x ∈ h, x ∈ h') : AllGen h :=
  fun s md m ps hm hp => hg s md m ps (sub _ hm) hp

theorem last_read {texts : List Str} {m : URLMeta} {strs : List Str} (h : ∃ t ∈ texts, ReadAs t m strs) :
    ∃ t pre post, texts = pre ++ t :: post ∧ ReadAs t m strs ∧ ∀ t' ∈ post, ¬ ReadAs t' m strs := by
  induction texts with
  | nil => obtain ⟨t, ht, _⟩ := h; cases ht
  | cons a l ih =>
    by_cases h' : ∃ t ∈ l, ReadAs t m strs
    · obtain ⟨t, pre, post, e, r⟩ := ih h'
      exact ⟨t, a :: pre, post, by rw [e]; rfl, r⟩
    · obtain ⟨t, ht, r⟩ := h
      rcases List.mem_cons.mp ht with rfl | ht
      · exact ⟨t, [], l, rfl, r, fun t' h1 h2 => h' ⟨t', h1, h2⟩⟩
      · exact absurd ⟨t, ht, r⟩ h'

/-- A text is chosen from two files when it is chosen from the second, or from the first and nothing in the second is read as the same pattern. -/
theorem chosen_append {t1 t2 : List Str} {m : URLMeta} {pieces : List Str} {t : Str} {strs : List Str} :
    Chosen (t1 ++ t2) m pieces t strs ↔
      Chosen t2 m pieces t strs ∨ Chosen t1 m pieces t strs ∧ ∀ t', ¬ Chosen t2 m pieces t' strs := by
  constructor
  · rintro ⟨⟨pre, post, e, no⟩, r, g⟩
    rcases List.append_eq_append_iff.mp e with ⟨a, e1, e2⟩ | ⟨a, e1, e2⟩
    · exact .inl ⟨⟨a, post, e2, no⟩, r, g⟩
    · cases a with
      | nil => exact .inl ⟨⟨[], post, by simpa using e2.symm, no⟩, r, g⟩
      | cons x a =>
        simp only [List.cons_append, List.cons.injEq] at e2
        obtain ⟨rfl, e2⟩ := e2
        refine .inr ⟨⟨⟨pre, a, e1, fun t' h => no t' (by rw [e2]; simp [h])⟩, r, g⟩, ?_⟩
        rintro t' ⟨⟨p', q', e', _⟩, r', _⟩
        exact no t' (by rw [e2, e']; simp) r'
  · rintro (⟨⟨pre, post, e, no⟩, r, g⟩ | ⟨⟨⟨pre, post, e, no⟩, r, g⟩, h⟩)
    · exact ⟨⟨t1 ++ pre, post, by rw [e]; simp, no⟩, r, g⟩
    · refine ⟨⟨pre, post ++ t2, by rw [e]; simp, ?_⟩, r, g⟩
      intro t' ht'
      rcases List.mem_append.mp ht' with h' | h'
      · exact no t' h'
      · intro r'
        obtain ⟨t'', pre', post', e', r'', no'⟩ := last_read ⟨t', h', r'⟩
        exact h t'' ⟨⟨pre', post', e', no'⟩, r'', g⟩

/-- What a pattern file makes of one URL line: without `-a` and with `-a`. -/
def bestLine (env : Env) (pats : List Bytes) (line : Bytes) : Bytes := matchLine env (matchLoad env pats) false line
def allLine (env : Env) (pats : List Bytes) (line : Bytes) : Bytes := matchLine env (matchLoad env pats) true line

/-- The line for a URL that no pattern matches, and for one with the pattern text `t`. -/
def noLine (line : Bytes) : Bytes := [78] ++ [9] ++ stripB line ++ [10]
def textLine (env : Env) (t : Str) (line : Bytes) : Bytes := env.encode t ++ [9] ++ stripB line ++ [10]

/-- The conditions of C54 for one pattern file and one URL line. -/
structure FileAndUrl (env : Env) (pats : List Bytes) (line : Bytes) (url : Str) (m : URLMeta) (pieces : List Str) : Prop where
  utf8 : Utf8 env
  decode : env.decode (stripB line) = some url
  isUrl : startsWith ['/'] url = false
  analyze : analyzeUrl url = .ok (m, pieces)
  parses : ∃ pps, pieces.mapM parsePiece = .ok pps
  clash : NoClash env.md5 (url :: patternTexts env pats)
  gen : AllGen ((patternTexts env pats).map (fun p => (p, some p)))

theorem FileAndUrl.sub {env : Env} {p q : List Bytes} {line : Bytes} {url : Str} {m : URLMeta} {pieces : List Str}
    (h : FileAndUrl env q line url m pieces) (s : ∀ t ∈ patternTexts env p, t ∈ patternTexts env q) : FileAndUrl env p line url m pieces where
  utf8 := h.utf8
  decode := h.decode
  isUrl := h.isUrl
  analyze := h.analyze
  parses := h.parses
  clash := h.clash.mono (fun t ht => by
    rcases List.mem_cons.mp ht with rfl | ht
    · simp
    · simp [s t ht])
  gen := h.gen.mono (fun x hx => by
    obtain ⟨t, ht, rfl⟩ := List.mem_map.mp hx
    exact List.mem_map.mpr ⟨t, s t ht, rfl⟩)

/-- No pattern line is encoded as `N`. -/
theorem text_not_N {env : Env} (hu : Utf8 env) {pats : List Bytes} {t : Str} (ht : t ∈ patternTexts env pats) : env.encode t ≠ [78] := by
  obtain ⟨l, _, h⟩ := List.mem_filterMap.mp ht
  split at h
  · rename_i h47
    rw [hu.decode _ _ h]
    intro e
    rw [e] at h47
    cases h47
  · cases h

/-- The closed form of C54 for `bestLine`. -/
theorem bestLine_spec {env : Env} {pats : List Bytes} {line : Bytes} {url : Str} {m : URLMeta} {pieces : List Str}
    (h : FileAndUrl env pats line url m pieces) :
    (bestLine env pats line = noLine line ∧ ∀ t strs, ¬ Chosen (patternTexts env pats) m pieces t strs) ∨
    ∃ t strs, Chosen (patternTexts env pats) m pieces t strs ∧ bestLine env pats line = textLine env t line ∧
      bestLine env pats line ≠ noLine line ∧
      ∀ t' strs', Chosen (patternTexts env pats) m pieces t' strs' →
        ((t', strs') = (t, strs) ∨ LastGeneral m strs' strs) ∧ ¬ LastGeneral m strs strs' := by
  obtain ⟨pps, hp⟩ := h.parses
  obtain ⟨sel, h1, _, _, h4, h5⟩ := C54_line env h.utf8 pats line url m pieces pps h.decode h.isUrl h.analyze hp h.clash h.gen
  by_cases e : sel = []
  · refine .inl ⟨h4 e, fun t strs hc => ?_⟩
    have := (h1 t strs).mpr hc
    rw [e] at this
    cases this
  · obtain ⟨⟨t, strs⟩, hx, eq, best⟩ := h5 e
    refine .inr ⟨t, strs, (h1 t strs).mp hx, eq, ?_, fun t' strs' hc => best (t', strs') ((h1 t' strs').mpr hc)⟩
    intro e'
    unfold bestLine noLine at e'
    rw [eq] at e'
    obtain ⟨⟨pre, post, et, _⟩, _⟩ := (h1 t strs).mp hx
    refine text_not_N h.utf8 (pats := pats) (t := t) (by rw [et]; simp) ?_
    exact List.append_cancel_right (List.append_cancel_right (List.append_cancel_right e'))

/-- **C88**: with the patterns of two files the line for a URL is the line of one of the files; it is the other file's line if one of them has no match;
and it says `N` only if both do. -/
theorem C88_split (env : Env) (p q : List Bytes) (line : Bytes) (url : Str) (m : URLMeta) (pieces : List Str)
    (h : FileAndUrl env (p ++ q) line url m pieces) :
    (bestLine env (p ++ q) line = bestLine env p line ∨ bestLine env (p ++ q) line = bestLine env q line) ∧
    (bestLine env p line = noLine line → bestLine env (p ++ q) line = bestLine env q line) ∧
    (bestLine env q line = noLine line → bestLine env (p ++ q) line = bestLine env p line) ∧
    (bestLine env (p ++ q) line = noLine line ↔ bestLine env p line = noLine line ∧ bestLine env q line = noLine line) := by
  have hp : FileAndUrl env p line url m pieces := h.sub (by rw [patternTexts_append]; simp +contextual)
  have hq : FileAndUrl env q line url m pieces := h.sub (by rw [patternTexts_append]; simp +contextual)
  have sp := bestLine_spec hp
  have sq := bestLine_spec hq
  have s := bestLine_spec h
  rw [patternTexts_append] at s
  have key : (bestLine env (p ++ q) line = noLine line ∧ bestLine env p line = noLine line ∧ bestLine env q line = noLine line) ∨
      (bestLine env (p ++ q) line ≠ noLine line ∧ bestLine env (p ++ q) line = bestLine env q line) ∨
      (bestLine env (p ++ q) line ≠ noLine line ∧ bestLine env (p ++ q) line = bestLine env p line) := by
    rcases s with ⟨e, no⟩ | ⟨t, strs, hc, e, ne, best⟩
    · refine .inl ⟨e, ?_, ?_⟩
      · rcases sp with ⟨e1, _⟩ | ⟨t1, s1, c1, _⟩
        · exact e1
        · by_cases h2 : ∃ t', Chosen (patternTexts env q) m pieces t' s1
          · obtain ⟨t', h2⟩ := h2
            exact absurd (chosen_append.mpr (.inl h2)) (no _ _)
          · exact absurd (chosen_append.mpr (.inr ⟨c1, fun t' h' => h2 ⟨t', h'⟩⟩)) (no _ _)
      · rcases sq with ⟨e1, _⟩ | ⟨t1, s1, c1, _⟩
        · exact e1
        · exact absurd (chosen_append.mpr (.inl c1)) (no _ _)
    · rcases chosen_append.mp hc with c2 | ⟨c1, nosame⟩
      · refine .inr (.inl ⟨ne, ?_⟩)
        rcases sq with ⟨_, no⟩ | ⟨t2, s2, d2, e2, _, best2⟩
        · exact absurd c2 (no _ _)
        · rcases (best t2 s2 (chosen_append.mpr (.inl d2))).1 with he | lg
          · obtain ⟨rfl, rfl⟩ := Prod.mk.inj he
            rw [e, e2]
          · exact absurd lg (best2 t strs c2).2
      · have : bestLine env (p ++ q) line = bestLine env p line := by
          rcases sp with ⟨_, no⟩ | ⟨t1, s1, d1, e1, _, best1⟩
          · exact absurd c1 (no _ _)
          · by_cases h2 : ∃ t', Chosen (patternTexts env q) m pieces t' s1
            · obtain ⟨t', h2⟩ := h2
              rcases (best t' s1 (chosen_append.mpr (.inl h2))).1 with he | lg
              · obtain ⟨rfl, rfl⟩ := Prod.mk.inj he
                exact absurd h2 (nosame _)
              · exact absurd lg (best1 t strs c1).2
            · rcases (best t1 s1 (chosen_append.mpr (.inr ⟨d1, fun t' h' => h2 ⟨t', h'⟩⟩))).1 with he | lg
              · obtain ⟨rfl, rfl⟩ := Prod.mk.inj he
                rw [e, e1]
              · exact absurd lg (best1 t strs c1).2
        exact .inr (.inr ⟨ne, this⟩)
  rcases key with ⟨a, b, c⟩ | ⟨ne, e⟩ | ⟨ne, e⟩
  · rw [a, b, c]
    simp
  · rw [e] at ne ⊢
    exact ⟨.inr rfl, fun _ => rfl, fun f => absurd f ne, ⟨fun f => absurd f ne, fun f => f.2⟩⟩
  · rw [e] at ne ⊢
    exact ⟨.inl rfl, fun f => absurd f ne, fun _ => rfl, ⟨fun f => absurd f ne, fun f => f.1⟩⟩

/-- **C88**: any number of files: the line is the line of one of them, and `N` exactly if all of them say `N`. -/
theorem C88_files (env : Env) (line : Bytes) (url : Str) (m : URLMeta) (pieces : List Str) :
    ∀ files : List (List Bytes), files ≠ [] → FileAndUrl env files.flatten line url m pieces →
      (∃ f ∈ files, bestLine env files.flatten line = bestLine env f line) ∧
      (bestLine env files.flatten line = noLine line ↔ ∀ f ∈ files, bestLine env f line = noLine line) := by
  intro files
  induction files with
  | nil => intro h; exact absurd rfl h
  | cons f fs ih =>
    intro _ h
    cases fs with
    | nil => simp
    | cons g fs =>
      rw [List.flatten_cons] at h ⊢
      obtain ⟨h1, _, _, h4⟩ := C88_split env f (g :: fs).flatten line url m pieces h
      obtain ⟨⟨f', hf', e'⟩, no⟩ := ih (by simp) (h.sub (by rw [patternTexts_append]; simp +contextual))
      refine ⟨?_, ?_⟩
      · rcases h1 with e | e
        · exact ⟨f, by simp, e⟩
        · exact ⟨f', by simp [hf'], e.trans e'⟩
      · rw [h4, no]
        exact (List.forall_mem_cons (p := fun f => bestLine env f line = noLine line)).symm

/-- **C88**: more patterns, better answers: if one of the two files has a pattern for the URL, the line with both shows a pattern that has the same piece
patterns as that file's answer or is more special at the last difference. -/
theorem C88_better (env : Env) (p q : List Bytes) (line : Bytes) (url : Str) (m : URLMeta) (pieces : List Str)
    (h : FileAndUrl env (p ++ q) line url m pieces) (f : List Bytes) (hf : f = p ∨ f = q) (hm : bestLine env f line ≠ noLine line) :
    ∃ t strs t' strs', Chosen (patternTexts env f) m pieces t strs ∧ bestLine env f line = textLine env t line ∧
      Chosen (patternTexts env (p ++ q)) m pieces t' strs' ∧ bestLine env (p ++ q) line = textLine env t' line ∧
      (strs' = strs ∨ LastGeneral m strs strs') ∧ ¬ LastGeneral m strs' strs := by
  have hfr : FileAndUrl env f line url m pieces := h.sub (by
    rw [patternTexts_append]
    rcases hf with rfl | rfl <;> simp +contextual)
  rcases bestLine_spec hfr with ⟨e, _⟩ | ⟨t, strs, c, e, _, _⟩
  · exact absurd e hm
  have c' : ∃ t'', Chosen (patternTexts env (p ++ q)) m pieces t'' strs := by
    rw [patternTexts_append]
    by_cases h2 : ∃ t', Chosen (patternTexts env q) m pieces t' strs
    · obtain ⟨t', h2⟩ := h2
      exact ⟨t', chosen_append.mpr (.inl h2)⟩
    · rcases hf with rfl | rfl
      · exact ⟨t, chosen_append.mpr (.inr ⟨c, fun t' h' => h2 ⟨t', h'⟩⟩)⟩
      · exact absurd ⟨t, c⟩ h2
  obtain ⟨t'', c'⟩ := c'
  rcases bestLine_spec h with ⟨_, no⟩ | ⟨t', strs', d, e', _, best⟩
  · exact absurd c' (no _ _)
  · refine ⟨t, strs, t', strs', c, e, d, e', ?_, (best _ _ c').2⟩
    rcases (best _ _ c').1 with he | lg
    · exact .inl (Prod.mk.inj he).2.symm
    · exact .inr lg

theorem sublist_of_sorted {α : Type} {R : α → α → Prop} (asym : ∀ a b, R a b → ¬ R b a) {l k : List α}
    (hl : l.Pairwise R) (hk : k.Pairwise R) (sub : ∀ x ∈ l, x ∈ k) : l.Sublist k := by
  have nd : ∀ {l : List α}, l.Pairwise R → l.Nodup := fun h => h.imp (fun h e => by subst e; exact asym _ _ h h)
  classical
  have : l = k.filter (fun x => decide (x ∈ l)) := by
    refine List.Perm.eq_of_pairwise (le := R) (fun a b _ _ h1 h2 => (asym _ _ h1 h2).elim) hl (hk.filter _) ?_
    rw [List.perm_ext_iff_of_nodup (nd hl) ((nd hk).filter _)]
    intro a
    simp only [List.mem_filter, decide_eq_true_eq]
    exact ⟨fun h => ⟨sub a h, h⟩, fun h => h.2⟩
  rw [this]
  exact List.filter_sublist

/-- **C88**, with `-a`: the texts written for the two files together are those of the second, in the same order, and those of the first that no text of
the second is read like; the patterns of the first file, too, appear in the same order. -/
theorem C88_all (env : Env) (p q : List Bytes) (line : Bytes) (url : Str) (m : URLMeta) (pieces : List Str)
    (h : FileAndUrl env (p ++ q) line url m pieces) :
    ∃ sel selp selq : List (Str × List Str),
      (∀ x ∈ [(p ++ q, sel), (p, selp), (q, selq)],
        (∀ t strs, (t, strs) ∈ x.2 ↔ Chosen (patternTexts env x.1) m pieces t strs) ∧
        allLine env x.1 line = (if x.2 = [] then [78] else tabbed (x.2.map (fun y => env.encode y.1))) ++ [9] ++ stripB line ++ [10]) ∧
      (∀ x, x ∈ sel ↔ x ∈ selq ∨ x ∈ selp ∧ ∀ y ∈ selq, y.2 ≠ x.2) ∧
      selq.Sublist sel ∧ (selp.map (·.2)).Sublist (sel.map (·.2)) := by
  have hp : FileAndUrl env p line url m pieces := h.sub (by rw [patternTexts_append]; simp +contextual)
  have hq : FileAndUrl env q line url m pieces := h.sub (by rw [patternTexts_append]; simp +contextual)
  obtain ⟨pps, hpp⟩ := h.parses
  obtain ⟨sel, a1, a2, a3, _⟩ := C54_line env h.utf8 (p ++ q) line url m pieces pps h.decode h.isUrl h.analyze hpp h.clash h.gen
  obtain ⟨selp, b1, b2, b3, _⟩ := C54_line env hp.utf8 p line url m pieces pps hp.decode hp.isUrl hp.analyze hpp hp.clash hp.gen
  obtain ⟨selq, c1, c2, c3, _⟩ := C54_line env hq.utf8 q line url m pieces pps hq.decode hq.isUrl hq.analyze hpp hq.clash hq.gen
  have mem : ∀ x, x ∈ sel ↔ x ∈ selq ∨ x ∈ selp ∧ ∀ y ∈ selq, y.2 ≠ x.2 := by
    rintro ⟨t, strs⟩
    rw [a1, b1, c1, patternTexts_append, chosen_append]
    constructor
    · rintro (h | ⟨h, no⟩)
      · exact .inl h
      · refine .inr ⟨h, ?_⟩
        rintro ⟨t', s'⟩ hy rfl
        exact no t' ((c1 _ _).mp hy)
    · rintro (h | ⟨h, no⟩)
      · exact .inl h
      · exact .inr ⟨h, fun t' ht' => no (t', strs) ((c1 _ _).mpr ht') rfl⟩
  refine ⟨sel, selp, selq, ?_, mem, ?_, ?_⟩
  · intro x hx
    simp only [List.mem_cons, List.not_mem_nil, or_false] at hx
    rcases hx with rfl | rfl | rfl
    · exact ⟨a1, a3⟩
    · exact ⟨b1, b3⟩
    · exact ⟨c1, c3⟩
  · exact sublist_of_sorted (R := fun x y => FirstSpecial m x.2 y.2) (fun _ _ h1 h2 => h1.asymm h2) c2 a2 (fun x hx => (mem x).mpr (.inl hx))
  · refine sublist_of_sorted (R := FirstSpecial m) (fun _ _ h1 h2 => h1.asymm h2) (List.pairwise_map.mpr b2) (List.pairwise_map.mpr a2) ?_
    intro s hs
    obtain ⟨x, hx, rfl⟩ := List.mem_map.mp hs
    by_cases h2 : ∃ y ∈ selq, y.2 = x.2
    · obtain ⟨y, hy, e⟩ := h2
      exact List.mem_map.mpr ⟨y, (mem y).mpr (.inl hy), e⟩
    · exact List.mem_map.mpr ⟨x, (mem x).mpr (.inr ⟨hx, fun y hy e => h2 ⟨y, hy, e⟩⟩), rfl⟩

/-! ### examples -/

theorem ascii_utf8 : Utf8 asciiEnvM where
  decode := by
    intro b s h
    unfold asciiEnvM at h ⊢
    simp only at h ⊢
    split at h
    · rename_i ha
      have := Option.some.inj h
      subst this
      unfold asciiBytesM
      rw [List.map_map]
      conv => rhs; rw [← List.map_id b]
      apply List.map_congr_left
      intro x hx
      have h1 := List.all_eq_true.mp ha x hx
      have h1 := of_decide_eq_true h1
      have tab : ∀ n : Fin 128, UInt8.ofNat (Char.ofNat n.val).toNat = UInt8.ofNat n.val := by decide +kernel
      have := tab ⟨x.toNat, h1⟩
      simp only [Function.comp, id_eq]
      rw [this]
      simp
    · cases h
  append := fun s t => List.map_append
  tab := by decide
  nil := rfl

/-- Two pattern files and a URL line. -/
def c88P : List Bytes := [asciiBytesM c!"/a/[a-z]+\n", asciiBytesM c!"/[a-z]+/[a-z]{2}\n"]
def c88Q : List Bytes := [asciiBytesM c!"/[a-z]/b\n", asciiBytesM c!"//a/[a-z]+\n", asciiBytesM c!"/[0-9]/c\n"]
def c88Line : Bytes := asciiBytesM c!"http://h/a/b\n"

/-- The conditions hold for them. -/
example : FileAndUrl asciiEnvM (c88P ++ c88Q) c88Line c!"http://h/a/b" (match analyzeUrl c!"http://h/a/b" with | .ok x => x.1 | .error _ => ⟨0, [], false⟩) [c!"a", c!"b"] where
  utf8 := ascii_utf8
  decode := by decide +kernel
  isUrl := by decide +kernel
  analyze := by decide +kernel
  parses := ⟨_, rfl⟩
  clash := fun _ _ _ _ _ _ _ _ _ _ h => h
  gen := allGen_of [[[.run .lower c!"a"], [.wild [.lower]]], [[.wild [.lower]], [.cls [.lower] 2]], [[.cls [.lower] 1], [.run .lower c!"b"]],
      [[.run .lower c!"a"], [.wild [.lower]]], [[.cls [.digit] 1], [.run .lower c!"c"]]] (by decide +kernel) (by decide +kernel)

/-- The answers of the files alone and together. -/
example :
    bestLine asciiEnvM c88P c88Line = asciiBytesM c!"/a/[a-z]+\thttp://h/a/b\n" ∧
    bestLine asciiEnvM c88Q c88Line = asciiBytesM c!"/[a-z]/b\thttp://h/a/b\n" ∧
    bestLine asciiEnvM (c88P ++ c88Q) c88Line = asciiBytesM c!"/[a-z]/b\thttp://h/a/b\n" ∧
    allLine asciiEnvM c88P c88Line = asciiBytesM c!"/a/[a-z]+\thttp://h/a/b\n" ∧
    allLine asciiEnvM c88Q c88Line = asciiBytesM c!"//a/[a-z]+\t/[a-z]/b\thttp://h/a/b\n" ∧
    allLine asciiEnvM (c88P ++ c88Q) c88Line = asciiBytesM c!"//a/[a-z]+\t/[a-z]/b\thttp://h/a/b\n" := by
  refine ⟨?_, ?_, ?_, ?_, ?_, ?_⟩ <;> decide +kernel

/-- **C88** is false for pattern files that the program does not write: the first file has a match, the second has none, and both together have none. -/
theorem C88_false :
    let p := [asciiBytesM c!"/[a-z]{2}/x"]
    let q := [asciiBytesM c!"/[a-z]{02}/y"]
    let line := asciiBytesM c!"http://h/ab/x"
    bestLine asciiEnvM p line = textLine asciiEnvM c!"/[a-z]{2}/x" line ∧ bestLine asciiEnvM q line = noLine line ∧
    bestLine asciiEnvM (p ++ q) line = noLine line := by
  refine ⟨?_, ?_, ?_⟩ <;> decide +kernel

end OsUrl
