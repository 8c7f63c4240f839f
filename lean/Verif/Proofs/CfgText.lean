import Verif.Spec.Config
import Verif.Proofs.Strings
import Verif.Proofs.Group

/-! Stripping, lines, and the two regular expressions of `configparser`. -/

namespace OsUrl
open Spec

theorem rstripS_nil : rstripS [] = [] := rfl

theorem rstripS_snoc_space {s : Str} {c : Char} (h : isSpaceC c = true) : rstripS (s ++ [c]) = rstripS s := by
  simp [rstripS, h]

theorem rstripS_snoc {s : Str} {c : Char} (h : isSpaceC c = false) : rstripS (s ++ [c]) = s ++ [c] := by
  simp [rstripS, h]

theorem rstripS_keep (a : Str) {c : Char} (b : Str) (h : isSpaceC c = false) : rstripS (a ++ c :: b) = a ++ c :: rstripS b := by
  induction b using snoc_ind with
  | h0 => rw [rstripS_snoc h]; rfl
  | h1 xs x ih =>
    have e : a ++ c :: (xs ++ [x]) = (a ++ c :: xs) ++ [x] := by simp
    rw [e]
    cases hx : isSpaceC x with
    | true => rw [rstripS_snoc_space hx, rstripS_snoc_space hx, ih]
    | false => rw [rstripS_snoc hx, rstripS_snoc hx]; simp

theorem rstripS_spaces {s : Str} (h : ∀ c ∈ s, isSpaceC c = true) : rstripS s = [] := by
  induction s using snoc_ind with
  | h0 => rfl
  | h1 xs x ih =>
    rw [rstripS_snoc_space (h x (by simp))]
    exact ih (fun c hc => h c (by simp [hc]))

theorem rstripS_append_spaces {s t : Str} (h : ∀ c ∈ t, isSpaceC c = true) : rstripS (s ++ t) = rstripS s := by
  induction t using snoc_ind with
  | h0 => simp
  | h1 xs x ih =>
    rw [← List.append_assoc, rstripS_snoc_space (h x (by simp))]
    exact ih (fun c hc => h c (by simp [hc]))

/-- Every text is its stripped form and blanks. -/
theorem rstripS_split (s : Str) : ∃ t, s = rstripS s ++ t ∧ ∀ c ∈ t, isSpaceC c = true := by
  induction s using snoc_ind with
  | h0 => exact ⟨[], rfl, by simp⟩
  | h1 xs x ih =>
    obtain ⟨t, h1, h2⟩ := ih
    cases hx : isSpaceC x with
    | true =>
      refine ⟨t ++ [x], ?_, ?_⟩
      · rw [rstripS_snoc_space hx]
        conv => lhs; rw [h1]
        simp
      · intro c hc
        rcases List.mem_append.mp hc with hc | hc
        · exact h2 c hc
        · simp at hc; rw [hc]; exact hx
    | false => exact ⟨[], by rw [rstripS_snoc hx]; simp, by simp⟩

theorem rstripS_idem (s : Str) : rstripS (rstripS s) = rstripS s := by
  obtain ⟨t, h1, h2⟩ := rstripS_split s
  conv => rhs; rw [h1]
  rw [rstripS_append_spaces h2]

theorem rstripS_last {s : Str} {c : Char} (h : (rstripS s).getLast? = some c) : isSpaceC c = false := by
  induction s using snoc_ind with
  | h0 => simp [rstripS_nil] at h
  | h1 xs x ih =>
    cases hx : isSpaceC x with
    | true => rw [rstripS_snoc_space hx] at h; exact ih h
    | false => rw [rstripS_snoc hx] at h; simp at h; rw [← h]; exact hx

theorem stripS_nonspace {c : Char} {s : Str} (h : isSpaceC c = false) : stripS (c :: s) = rstripS (c :: s) := by
  simp [stripS, h]

theorem stripS_space {c : Char} {s : Str} (h : isSpaceC c = true) : stripS (c :: s) = stripS s := by
  simp [stripS, h]

theorem stripS_spaces {s : Str} (h : ∀ c ∈ s, isSpaceC c = true) (t : Str) : stripS (s ++ t) = stripS t := by
  induction s with
  | nil => rfl
  | cons x xs ih =>
    rw [List.cons_append, stripS_space (h x (by simp))]
    exact ih (fun c hc => h c (by simp [hc]))

theorem stripS_append_spaces {r t : Str} (h : ∀ c ∈ t, isSpaceC c = true) : stripS (r ++ t) = stripS r := by
  induction r with
  | nil =>
    rw [List.nil_append]
    have := stripS_spaces h []
    rw [List.append_nil] at this
    exact this
  | cons x xs ih =>
    cases hx : isSpaceC x with
    | true => rw [List.cons_append, stripS_space hx, stripS_space hx, ih]
    | false => rw [List.cons_append, stripS_nonspace hx, stripS_nonspace hx, ← List.cons_append, rstripS_append_spaces h]

theorem stripS_rstripS (s : Str) : stripS (rstripS s) = stripS s := by
  obtain ⟨t, h1, h2⟩ := rstripS_split s
  conv => rhs; rw [h1]
  rw [stripS_append_spaces h2]

theorem rstripS_stripS (s : Str) : rstripS (stripS s) = stripS s := rstripS_idem _

theorem stripS_eq_nil {s : Str} : stripS s = [] ↔ BlankLine s := by
  constructor
  · intro h
    induction s with
    | nil => intro c hc; simp at hc
    | cons x xs ih =>
      cases hx : isSpaceC x with
      | true =>
        rw [stripS_space hx] at h
        intro c hc
        rcases List.mem_cons.mp hc with rfl | hc
        · exact hx
        · exact ih h c hc
      | false =>
        rw [stripS_nonspace hx, ← List.nil_append (x :: xs), rstripS_keep [] xs hx] at h
        simp at h
  · intro h
    have := stripS_spaces h []
    rw [List.append_nil] at this
    rw [this]; rfl

/-- The stripped text begins with its first character that is not blank. -/
theorem stripS_head {s : Str} (h : ¬ BlankLine s) : ∃ ws c t, s = ws ++ c :: t ∧ (∀ x ∈ ws, isSpaceC x = true) ∧ isSpaceC c = false ∧
    stripS s = c :: rstripS t := by
  induction s with
  | nil => exact absurd (fun c hc => by simp at hc) h
  | cons x xs ih =>
    cases hx : isSpaceC x with
    | true =>
      obtain ⟨ws, c, t, h1, h2, h3, h4⟩ := ih (fun hb => h (fun c hc => by
        rcases List.mem_cons.mp hc with rfl | hc
        · exact hx
        · exact hb c hc))
      refine ⟨x :: ws, c, t, by rw [h1]; rfl, ?_, h3, by rw [stripS_space hx, h4]⟩
      intro y hy
      rcases List.mem_cons.mp hy with rfl | hy
      · exact hx
      · exact h2 y hy
    | false =>
      refine ⟨[], x, xs, rfl, by simp, hx, ?_⟩
      rw [stripS_nonspace hx, ← List.nil_append (x :: xs), rstripS_keep [] xs hx]; rfl

theorem commentLine_iff {s : Str} : CommentLine s ↔ ((stripS s).head? = some '#' ∨ (stripS s).head? = some ';') := by
  constructor
  · rintro ⟨ws, t, rfl, h1, h2⟩
    rw [stripS_spaces h1]
    cases t with
    | nil => simp at h2
    | cons c t =>
      simp only [List.head?_cons, Option.some.injEq] at h2
      have hc : isSpaceC c = false := by rcases h2 with rfl | rfl <;> decide
      rw [stripS_nonspace hc, ← List.nil_append (c :: t), rstripS_keep [] t hc]
      simpa using h2
  · intro h
    have hb : ¬ BlankLine s := fun hb => by rw [stripS_eq_nil.mpr hb] at h; simp at h
    obtain ⟨ws, c, t, h1, h2, _, h4⟩ := stripS_head hb
    rw [h4] at h
    exact ⟨ws, c :: t, h1, h2, by simpa using h⟩

theorem cfgOption_cut {a b : Str} {d : Char} (hd : d = '=' ∨ d = ':') (h : '=' ∉ a ∧ ':' ∉ a) : cfgOption (a ++ d :: b) = some (a, b) := by
  induction a with
  | nil => rw [List.nil_append]; simp only [cfgOption]; rw [if_pos hd]
  | cons x xs ih =>
    simp only [List.mem_cons, not_or] at h
    rw [List.cons_append]
    simp only [cfgOption]
    rw [if_neg (by rintro (h' | h'); exact h.1.1 h'.symm; exact h.2.1 h'.symm), ih ⟨h.1.2, h.2.2⟩]; rfl

theorem cfgOption_some {s a b : Str} (h : cfgOption s = some (a, b)) : ∃ d, (d = '=' ∨ d = ':') ∧ s = a ++ d :: b ∧ '=' ∉ a ∧ ':' ∉ a := by
  induction s generalizing a with
  | nil => simp [cfgOption] at h
  | cons x xs ih =>
    simp only [cfgOption] at h
    by_cases hx : x = '=' ∨ x = ':'
    · rw [if_pos hx] at h
      simp only [Option.some.injEq, Prod.mk.injEq] at h
      obtain ⟨rfl, rfl⟩ := h
      exact ⟨x, hx, rfl, by simp, by simp⟩
    · rw [if_neg hx] at h
      cases hr : cfgOption xs with
      | none => rw [hr] at h; simp at h
      | some r =>
        obtain ⟨r1, r2⟩ := r
        rw [hr] at h
        simp only [Option.map_some, Option.some.injEq, Prod.mk.injEq] at h
        obtain ⟨rfl, rfl⟩ := h
        obtain ⟨d, h1, h2, h3, h4⟩ := ih hr
        refine ⟨d, h1, by rw [h2]; rfl, ?_, ?_⟩
        · simp only [List.mem_cons, not_or]; exact ⟨fun e => hx (Or.inl e.symm), h3⟩
        · simp only [List.mem_cons, not_or]; exact ⟨fun e => hx (Or.inr e.symm), h4⟩

theorem cfgHeader_cut {name rest : Str} (hn : name ≠ []) (hr : ']' ∉ rest) : cfgHeader ('[' :: name ++ ']' :: rest) = some name := by
  rw [List.cons_append]
  simp only [cfgHeader]
  rw [rfindChar_append_cons hr]
  cases name with
  | nil => exact absurd rfl hn
  | cons x xs => simp

theorem cfgHeader_ne {c : Char} {s : Str} (h : c ≠ '[') : cfgHeader (c :: s) = none := by
  unfold cfgHeader
  split
  · rename_i heq; simp only [List.cons.injEq] at heq; exact absurd heq.1 h
  · rfl

/-! ### Lines -/

/-- The text of a file with these lines. -/
def fileText (ls : List Str) : Str := ls.flatMap (fun l => l ++ ['\n'])

theorem textLines_line {l : Str} (h : '\n' ∉ l ∧ '\r' ∉ l) (t : Str) : textLines (l ++ '\n' :: t) = l :: textLines t := by
  induction l with
  | nil =>
    rw [List.nil_append]
    simp [textLines]
  | cons x xs ih =>
    simp only [List.mem_cons, not_or] at h
    have hi := ih ⟨h.1.2, h.2.2⟩
    rw [List.cons_append]
    simp only [textLines]
    rw [if_neg (by rintro (e | ⟨e, _⟩); exact h.1.1 e.symm; exact h.2.1 e.symm), if_neg (fun e => h.2.1 e.symm), hi]

theorem textLines_file {ls : List Str} (h : ∀ l ∈ ls, '\n' ∉ l ∧ '\r' ∉ l) : textLines (fileText ls) = ls := by
  induction ls with
  | nil => rfl
  | cons l ls ih =>
    have : fileText (l :: ls) = l ++ '\n' :: fileText ls := by simp [fileText]
    rw [this, textLines_line (h l (by simp)), ih (fun x hx => h x (by simp [hx]))]

end OsUrl
