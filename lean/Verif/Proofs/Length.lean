import Verif.Proofs.Piece

/-! `ParsedPiece.piece_length`, run by run. -/

namespace OsUrl
open Spec

theorem pll_plain {whole : Str} {f : Nat} {prev : Option Char} {c : Char} {R : Str} {len : Int}
    (h1 : c ≠ '[') (h2 : c ≠ ']') (h3 : c ≠ '\\') (h4 : c ≠ '{') :
    pieceLengthLoop whole (f + 1) prev (c :: R) len = pieceLengthLoop whole f (some c) R len := by
  simp [pieceLengthLoop, h1, h2, h3, h4]

theorem pll_bracket {whole : Str} {f : Nat} {prev : Option Char} {c : Char} {R : Str} {len : Int}
    (h1 : c = '[' ∨ c = ']') (hp : prev ≠ some '\\') :
    pieceLengthLoop whole (f + 1) prev (c :: R) len = pieceLengthLoop whole f (some c) R (len - 1) := by
  simp only [pieceLengthLoop]
  rw [if_pos h1, if_pos hp]

theorem pll_bracket_esc {whole : Str} {f : Nat} {c : Char} {R : Str} {len : Int}
    (h1 : c = '[' ∨ c = ']') :
    pieceLengthLoop whole (f + 1) (some '\\') (c :: R) len = pieceLengthLoop whole f (some c) R len := by
  simp only [pieceLengthLoop]
  rw [if_pos h1]; simp

theorem pll_backslash {whole : Str} {f : Nat} {prev : Option Char} {d : Char} {R : Str} {len : Int} :
    pieceLengthLoop whole (f + 1) prev ('\\' :: d :: R) len =
      pieceLengthLoop whole f (some '\\') (d :: R) (if d ≠ '\\' then len - 1 else len) := by
  simp only [pieceLengthLoop]
  rw [if_neg (by decide), if_pos trivial]
  split <;> rfl

theorem pll_brace {whole : Str} {f : Nat} {n : Nat} {R : Str} {len : Int} :
    pieceLengthLoop whole (f + 1) (some ']') ('{' :: natStr n ++ '}' :: R) len =
      pieceLengthLoop whole f (some '}') R (len + n - 1 - ((natStr n).length + 2)) := by
  have hd : '}' ∉ natStr n := by
    intro h
    have := natStr_digits _ h
    simp [isDigitC] at this
  simp only [List.cons_append, pieceLengthLoop]
  rw [if_neg (by decide), if_neg (by decide), if_pos trivial, if_pos (by rfl), findChar_append_cons hd]
  have e2 : List.drop ((natStr n).length + 1) (natStr n ++ '}' :: R) = R := by
    rw [← List.drop_drop]; simp
  simp only [List.take_left, pyInt_natStr, bind, Except.bind, e2]

theorem pll_brace_esc {whole : Str} {f : Nat} {R : Str} {len : Int} :
    pieceLengthLoop whole (f + 1) (some '\\') ('{' :: R) len = pieceLengthLoop whole f (some '{') R len := by
  simp only [pieceLengthLoop]
  rw [if_neg (by decide), if_neg (by decide), if_pos trivial, if_neg (by simp)]

theorem alnum_plain {c : Char} {s : Space} (h : space? c = some s) (hs : s.isSign = false) :
    c ≠ '[' ∧ c ≠ ']' ∧ c ≠ '\\' ∧ c ≠ '{' := by
  refine ⟨?_, ?_, ?_, ?_⟩ <;>
  · rintro rfl
    have e := signs_space (c := _) (by first | exact .inr (by decide) | exact .inl (by decide)) |>.symm.trans h
    simp at e; subst e; simp [Space.isSign] at hs

/-- The loop over plain characters. -/
theorem pll_plains {whole w R : Str} {len : Int} {prev : Option Char} {fuel : Nat}
    (hw : ∀ c ∈ w, c ≠ '[' ∧ c ≠ ']' ∧ c ≠ '\\' ∧ c ≠ '{') (hp : prev ≠ some '\\')
    (hf : (w ++ R).length ≤ fuel) :
    ∃ fuel' prev', R.length ≤ fuel' ∧ prev' ≠ some '\\' ∧
      pieceLengthLoop whole fuel prev (w ++ R) len = pieceLengthLoop whole fuel' prev' R len := by
  induction w generalizing prev fuel with
  | nil => exact ⟨fuel, prev, by simpa using hf, hp, rfl⟩
  | cons c w ih =>
    cases fuel with
    | zero => simp at hf
    | succ f =>
      obtain ⟨a1, a2, a3, a4⟩ := hw c (by simp)
      obtain ⟨f', p', b1, b2, b3⟩ := ih (prev := some c) (fuel := f) (fun x hx => hw x (by simp [hx]))
        (by simpa using a3) (by simp at hf ⊢; omega)
      exact ⟨f', p', b1, b2, by rw [List.cons_append, pll_plain a1 a2 a3 a4, b3]⟩

/-- After the closing bracket: an optional `{n}`. -/
theorem pll_num {whole R : Str} {len : Int} {n : Nat} {fuel : Nat} (hn : 1 ≤ n)
    (hf : ((if n = 1 then [] else '{' :: decimal n ++ ['}']) ++ R : Str).length ≤ fuel) :
    ∃ fuel' prev', R.length ≤ fuel' ∧ prev' ≠ some '\\' ∧
      pieceLengthLoop whole fuel (some ']') ((if n = 1 then [] else '{' :: decimal n ++ ['}']) ++ R) len =
        pieceLengthLoop whole fuel' prev' R
          (len + n - 1 - ((if n = 1 then [] else '{' :: decimal n ++ ['}'] : Str).length : Int)) := by
  by_cases h1 : n = 1
  · subst h1
    simp at hf ⊢
    exact ⟨fuel, hf, some ']', by decide, by congr 1⟩
  · simp only [h1, if_false] at hf ⊢
    cases fuel with
    | zero => simp at hf
    | succ f =>
      refine ⟨f, some '}', by simp at hf; omega, by decide, ?_⟩
      rw [← natStr_decimal]
      have := pll_brace (whole := whole) (f := f) (n := n) (R := R) (len := len)
      simp only [List.append_assoc, List.cons_append, List.nil_append] at this ⊢
      rw [this]
      congr 1
      simp
      omega

theorem bare_plain {c : Char} (h : c ∈ bareSigns) : c ≠ '[' ∧ c ≠ ']' ∧ c ≠ '\\' ∧ c ≠ '{' := by
  revert h; revert c; decide

/-- Number of extra units that `piece_length` counts for a run. -/
def extra (r : Space × Str) : Int := if r.1 = .sign '\\' then 1 else 0

/-- The loop over the text of one run. -/
theorem pll_run {whole R : Str} {r : Space × Str} {len : Int} {prev : Option Char} {fuel : Nat}
    (hne : r.2 ≠ []) (hs : ∀ c ∈ r.2, space? c = some r.1) (hp : prev ≠ some '\\')
    (hf : (runText r ++ R).length ≤ fuel) :
    ∃ fuel' prev', R.length ≤ fuel' ∧ prev' ≠ some '\\' ∧
      pieceLengthLoop whole fuel prev (runText r ++ R) len =
        pieceLengthLoop whole fuel' prev' R (len + r.2.length + extra r - (runText r).length) := by
  obtain ⟨sp, w⟩ := r
  simp only at hne hs
  have hl : 1 ≤ w.length := List.length_pos_iff.mpr hne
  by_cases hsg : sp.isSign = true
  · obtain ⟨c, hc⟩ := List.exists_mem_of_ne_nil _ hne
    have hv := space_valid (hs c hc)
    cases sp with
    | sign d =>
      clear hsg hc hs
      have e : runText (Space.sign d, w) = '[' :: (Space.sign d).text ++ ']' ::
          (if w.length = 1 then [] else '{' :: decimal w.length ++ ['}']) := by
        simp [runText, Space.isSign]
      rw [e] at hf ⊢
      generalize hq : (if w.length = 1 then [] else '{' :: decimal w.length ++ ['}'] : Str) = Q at *
      have key : ∀ fuel len, (Q ++ R).length ≤ fuel →
          ∃ fuel' prev', R.length ≤ fuel' ∧ prev' ≠ some '\\' ∧
          pieceLengthLoop whole fuel (some ']') (Q ++ R) len =
          pieceLengthLoop whole fuel' prev' R (len + w.length - 1 - (Q.length : Int)) := by
        intro fuel len h
        rw [← hq] at h ⊢
        exact pll_num hl h
      by_cases hb : d ∈ bareSigns
      · simp only [Space.text, hb, if_true] at hf ⊢
        simp only [List.cons_append, List.nil_append, List.length_cons] at hf
        obtain ⟨f, rfl⟩ : ∃ f, fuel = f + 3 := ⟨fuel - 3, by omega⟩
        obtain ⟨a1, a2, a3, a4⟩ := bare_plain hb
        obtain ⟨f', p', b1, b2, b3⟩ := key f (len - 1 - 1) (by omega)
        refine ⟨f', p', b1, b2, ?_⟩
        have hx : extra (Space.sign d, w) = 0 := by simp [extra, a3]
        simp only [List.cons_append, List.nil_append]
        rw [pll_bracket (.inl rfl) hp, pll_plain a1 a2 a3 a4, pll_bracket (.inr rfl) (by simpa using a3), b3, hx]
        congr 1
        simp; omega
      · simp only [Space.text, hb, if_false] at hf ⊢
        simp only [List.cons_append, List.nil_append, List.length_cons] at hf
        obtain ⟨f, rfl⟩ : ∃ f, fuel = f + 4 := ⟨fuel - 4, by omega⟩
        simp only [List.cons_append, List.nil_append]
        rw [pll_bracket (.inl rfl) hp, pll_backslash]
        by_cases hd : d = '\\'
        · subst hd
          simp only [ne_eq, not_true_eq_false, if_false]
          rw [pll_backslash]
          simp only [ne_eq, (by decide : ¬ (']' = '\\')), not_false_eq_true, if_true]
          rw [pll_bracket_esc (.inr rfl)]
          obtain ⟨f', p', b1, b2, b3⟩ := key f (len - 1 - 1) (by omega)
          refine ⟨f', p', b1, b2, ?_⟩
          rw [b3]
          congr 1
          simp [extra]; omega
        · have hx : extra (Space.sign d, w) = 0 := by simp [extra, hd]
          simp only [ne_eq, hd, not_false_eq_true, if_true]
          obtain ⟨f', p', b1, b2, b3⟩ := key f (len - 1 - 1 - 1) (by omega)
          refine ⟨f', p', b1, b2, ?_⟩
          have mid : pieceLengthLoop whole (f + 2) (some '\\') (d :: ']' :: (Q ++ R)) (len - 1 - 1) =
              pieceLengthLoop whole (f + 1) (some d) (']' :: (Q ++ R)) (len - 1 - 1) := by
            by_cases h1 : d = '[' ∨ d = ']'
            · exact pll_bracket_esc h1
            · by_cases h2 : d = '{'
              · subst h2; exact pll_brace_esc
              · exact pll_plain (fun h => h1 (.inl h)) (fun h => h1 (.inr h)) hd h2
          rw [mid, pll_bracket (.inr rfl) (by simpa using hd), b3, hx]
          congr 1
          simp; omega
    | _ => simp [Space.isSign] at hsg
  · have e : runText (sp, w) = w := by simp [runText, hsg]
    rw [e] at hf ⊢
    obtain ⟨f', p', b1, b2, b3⟩ := pll_plains (whole := whole) (len := len)
      (fun c hc => alnum_plain (hs c hc) (by simpa using hsg)) hp hf
    refine ⟨f', p', b1, b2, ?_⟩
    rw [b3]
    have hx : extra (sp, w) = 0 := by
      simp only [extra]; split
      · rename_i h; subst h; simp [Space.isSign] at hsg
      · rfl
    rw [hx]
    congr 1
    simp

theorem pll_runs {whole : Str} {rs : List (Space × Str)} {len : Int} {prev : Option Char} {fuel : Nat}
    (hne : ∀ r ∈ rs, r.2 ≠ []) (hs : ∀ r ∈ rs, ∀ c ∈ r.2, space? c = some r.1) (hp : prev ≠ some '\\')
    (hf : (rs.map runText).flatten.length ≤ fuel) :
    pieceLengthLoop whole fuel prev (rs.map runText).flatten len =
      .ok (len + ((rs.map (·.2)).flatten.length : Int) + (rs.map extra).sum
        - ((rs.map runText).flatten.length : Int)) := by
  induction rs generalizing len prev fuel with
  | nil => cases fuel <;> simp [pieceLengthLoop]
  | cons r rs ih =>
    simp only [List.map_cons, List.flatten_cons] at hf ⊢
    obtain ⟨f', p', b1, b2, b3⟩ := pll_run (whole := whole) (len := len)
      (R := (rs.map runText).flatten) (hne r (by simp)) (hs r (by simp)) hp hf
    rw [b3, ih (fun r hr => hne r (by simp [hr])) (fun r hr => hs r (by simp [hr])) b2 b1]
    congr 1
    simp; omega

/-- Closed form of `piece_length` on parsed pieces. -/
theorem pieceLength_runs {s : Str} (h : ∀ c ∈ s, Known c) :
    (ppOf (runsOf s)).pieceLength = .ok ((s.length : Int) + ((runsOf s).map extra).sum) := by
  have hr := runsOf_spec h
  have hc := hr.concat
  simp only [ParsedPiece.pieceLength, ParsedPiece.piece, ppOf]
  rw [pll_runs hr.nonempty hr.space (by simp) (Nat.le_refl _), hc]
  congr 1
  omega

theorem extra_zero {s : Str} (h : ∀ c ∈ s, Known c) (hb : '\\' ∉ s) : ((runsOf s).map extra).sum = 0 := by
  have : ∀ r ∈ runsOf s, extra r = 0 := by
    intro r hr
    simp only [extra]
    split
    · rename_i e
      have : Space.sign '\\' ∈ spacesOf s := by rw [← e]; exact List.mem_map_of_mem hr
      obtain ⟨c, hc, hsp⟩ := (space_mem_runs h).mp this
      have := space_sign hsp
      subst this
      exact absurd hc hb
    · rfl
  generalize runsOf s = rs at *
  induction rs with
  | nil => rfl
  | cons r rs ih => simp [this r (by simp), ih (fun x hx => this x (by simp [hx]))]

end OsUrl
