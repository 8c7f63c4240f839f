import Verif.Proofs.CfgRead
import Verif.Props.C66

/-! Blanks, numbers and `%(name)s`. -/

namespace OsUrl
open Spec

theorem isSpaceC_iff (c : Char) : isSpaceC c = true ↔ c.toNat ∈ blankCodes := by
  simp only [isSpaceC, blankCodes, Bool.or_eq_true, Bool.and_eq_true, decide_eq_true_eq, beq_iff_eq, List.mem_cons, List.not_mem_nil, or_false]
  omega

theorem isSpaceC_iff_false (c : Char) : isSpaceC c = false ↔ c.toNat ∉ blankCodes := by
  rw [← isSpaceC_iff]; simp

theorem stripS_stripped (s : Str) : StrippedText s (stripS s) := by
  by_cases hb : BlankLine s
  · refine ⟨s, [], ?_, ?_, ?_⟩
    · rw [stripS_eq_nil.mpr hb]; simp
    · intro c hc; rw [List.append_nil] at hc; exact (isSpaceC_iff c).mp (hb c hc)
    · rw [stripS_eq_nil.mpr hb]; simp
  · obtain ⟨ws, c, t, h1, h2, h3, h4⟩ := stripS_head hb
    obtain ⟨b, h5, h6⟩ := rstripS_split t
    refine ⟨ws, b, ?_, ?_, ?_⟩
    · rw [h4]
      conv => lhs; rw [h1, h5]
      simp
    · intro x hx
      rw [← isSpaceC_iff]
      rcases List.mem_append.mp hx with hx | hx
      · exact h2 x hx
      · exact h6 x hx
    · intro x hx
      rw [← isSpaceC_iff_false]
      rcases hx with hx | hx
      · rw [h4] at hx; simp at hx; rw [← hx]; exact h3
      · exact rstripS_last (s := s.dropWhile isSpaceC) hx

theorem stripped_unique {s t : Str} (h : StrippedText s t) : stripS s = t := by
  obtain ⟨a, b, rfl, h1, h2⟩ := h
  have ha : ∀ c ∈ a, isSpaceC c = true := fun c hc => (isSpaceC_iff c).mpr (h1 c (List.mem_append_left _ hc))
  have hb : ∀ c ∈ b, isSpaceC c = true := fun c hc => (isSpaceC_iff c).mpr (h1 c (List.mem_append_right _ hc))
  rw [List.append_assoc, stripS_spaces ha, stripS_append_spaces hb]
  cases t with
  | nil => rfl
  | cons x xs =>
    have hx := (isSpaceC_iff_false x).mpr (h2 x (Or.inl rfl))
    rw [stripS_nonspace hx]
    obtain ⟨ys, y, e⟩ : ∃ ys y, x :: xs = ys ++ [y] := ⟨(x :: xs).dropLast, (x :: xs).getLast (by simp), (List.dropLast_concat_getLast (by simp)).symm⟩
    rw [e]
    apply rstripS_snoc
    rw [isSpaceC_iff_false]
    exact h2 y (Or.inr (by rw [e]; simp))

theorem isIntSpace_iff (c : Char) : isIntSpace c = true ↔ c.toNat ∈ blankCodes ∧ c.toNat ∉ [0x1C, 0x1D, 0x1E, 0x1F] := by
  simp only [isIntSpace, Bool.and_eq_true, isSpaceC_iff]
  constructor
  · rintro ⟨h1, h2⟩
    refine ⟨h1, ?_⟩
    simp only [Bool.not_eq_true', Bool.and_eq_false_iff, decide_eq_false_iff_not] at h2
    simp only [List.mem_cons, List.not_mem_nil, or_false]
    omega
  · rintro ⟨h1, h2⟩
    refine ⟨h1, ?_⟩
    simp only [Bool.not_eq_true', Bool.and_eq_false_iff, decide_eq_false_iff_not]
    simp only [List.mem_cons, List.not_mem_nil, or_false] at h2
    omega

/-- The blanks at both ends. -/
def trimInt (s : Str) : Str := ((s.dropWhile isIntSpace).reverse.dropWhile isIntSpace).reverse

theorem trim_parts (s : Str) : ∃ a b, s = a ++ trimInt s ++ b ∧ ∀ c ∈ a ++ b, isIntSpace c = true := by
  refine ⟨s.takeWhile isIntSpace, ((s.dropWhile isIntSpace).reverse.takeWhile isIntSpace).reverse, ?_, ?_⟩
  · have h1 := List.takeWhile_append_dropWhile (p := isIntSpace) (l := s)
    have h2 := List.takeWhile_append_dropWhile (p := isIntSpace) (l := (s.dropWhile isIntSpace).reverse)
    have h3 := congrArg List.reverse h2
    rw [List.reverse_append, List.reverse_reverse] at h3
    unfold trimInt
    rw [List.append_assoc, h3, h1]
  · intro c hc
    rcases List.mem_append.mp hc with hc | hc
    · have := List.all_takeWhile (p := isIntSpace) (l := s)
      exact (List.all_eq_true.mp this) c hc
    · rw [List.mem_reverse] at hc
      have := List.all_takeWhile (p := isIntSpace) (l := (s.dropWhile isIntSpace).reverse)
      exact (List.all_eq_true.mp this) c hc

theorem dropWhile_all {α : Type} {p : α → Bool} {a t : List α} (h : ∀ c ∈ a, p c = true) : (a ++ t).dropWhile p = t.dropWhile p := by
  induction a with
  | nil => rfl
  | cons x xs ih =>
    rw [List.cons_append, List.dropWhile_cons, h x (by simp)]
    simpa using ih (fun c hc => h c (by simp [hc]))

theorem trim_eq {a t b : Str} (h : ∀ c ∈ a ++ b, isIntSpace c = true) (h1 : ∀ c, t.head? = some c → isIntSpace c = false)
    (h2 : ∀ c, t.getLast? = some c → isIntSpace c = false) : trimInt (a ++ t ++ b) = t := by
  unfold trimInt
  rw [List.append_assoc, dropWhile_all (fun c hc => h c (by simp [hc]))]
  cases t with
  | nil =>
    rw [List.nil_append]
    have := dropWhile_all (p := isIntSpace) (a := b) (t := []) (fun c hc => h c (by simp [hc]))
    rw [List.append_nil] at this
    rw [this]; rfl
  | cons x xs =>
    have hx := h1 x rfl
    rw [List.cons_append, List.dropWhile_cons, hx]
    simp only [Bool.false_eq_true, if_false]
    rw [← List.cons_append, List.reverse_append, dropWhile_all (fun c hc => h c (by simp at hc; simp [hc]))]
    obtain ⟨ys, y, e⟩ : ∃ ys y, x :: xs = ys ++ [y] := ⟨(x :: xs).dropLast, (x :: xs).getLast (by simp), (List.dropLast_concat_getLast (by simp)).symm⟩
    have hy := h2 y (by rw [e]; simp)
    rw [e]
    simp [hy]

theorem strNat_fold (ps : List (Char × Nat)) (h : ∀ p ∈ ps, IsDecimal p.1 p.2) (a : Nat) :
    strNatAux a (ps.map (·.1)) = ps.foldl (fun n p => n * 10 + p.2) a := by
  induction ps generalizing a with
  | nil => rw [List.map_nil, strNatAux_nil]; rfl
  | cons p ps ih =>
    rw [List.map_cons, strNatAux_step, (decimal_iff.mp (h p (by simp))).2, ih (fun q hq => h q (by simp [hq]))]
    rfl

theorem decimal_facts {c : Char} (h : isDecimalC c = true) : isIntSpace c = false ∧ c ≠ '_' ∧ c ≠ '+' ∧ c ≠ '-' := by
  have hn : ∀ (d : Char), isDecimalC d = false → c ≠ d := by rintro d hd rfl; rw [h] at hd; cases hd
  refine ⟨?_, hn _ (by decide), hn _ (by decide), hn _ (by decide)⟩
  cases hs : isIntSpace c with
  | false => rfl
  | true =>
    have h1 := ((isIntSpace_iff c).mp hs).1
    have h2 : ∀ n ∈ blankCodes, isDecimalC (Char.ofNat n) = false := by decide
    have := h2 _ h1
    rw [Char.ofNat_toNat, h] at this
    cases this

theorem intDigits_iff (s : Str) (n : Nat) : intDigits s = some n ↔ ∃ gs : List (List (Char × Nat)), s = join ['_'] (gs.map (fun g => g.map (·.1))) ∧
    gs ≠ [] ∧ (∀ g ∈ gs, g ≠ [] ∧ ∀ p ∈ g, IsDecimal p.1 p.2) ∧ n = gs.flatten.foldl (fun n p => n * 10 + p.2) 0 := by
  unfold intDigits
  constructor
  · intro h
    by_cases ha : (splitChar '_' s).all isDecimalStr = true
    · rw [if_pos ha] at h
      simp only [Option.some.injEq] at h
      rw [List.all_eq_true] at ha
      refine ⟨(splitChar '_' s).map (fun g => g.map (fun c => (c, digitVal c))), ?_, ?_, ?_, ?_⟩
      · rw [List.map_map]
        have : (fun g : List (Char × Nat) => g.map (·.1)) ∘ (fun g : Str => g.map (fun c => (c, digitVal c))) = id := by
          funext g; simp [Function.comp_def]
        rw [this, List.map_id, join_splitChar]
      · intro e
        have : splitChar '_' s = [] := by simpa using e
        cases s with
        | nil => simp [splitChar] at this
        | cons x xs =>
          simp only [splitChar] at this
          split at this
          · simp at this
          · split at this <;> simp at this
      · intro g hg
        rw [List.mem_map] at hg
        obtain ⟨g', hg', rfl⟩ := hg
        have := isDecimalStr_iff.mp (ha g' hg')
        refine ⟨by simpa using this.1, ?_⟩
        intro p hp
        rw [List.mem_map] at hp
        obtain ⟨c, hc, rfl⟩ := hp
        exact decimal_iff.mpr ⟨this.2 c hc, rfl⟩
      · rw [← h]
        have hall : ∀ p ∈ ((splitChar '_' s).map (fun g => g.map (fun c => (c, digitVal c)))).flatten, IsDecimal p.1 p.2 := by
          intro p hp
          rw [List.mem_flatten] at hp
          obtain ⟨g, hg, hp⟩ := hp
          rw [List.mem_map] at hg
          obtain ⟨g', hg', rfl⟩ := hg
          rw [List.mem_map] at hp
          obtain ⟨c, hc, rfl⟩ := hp
          exact decimal_iff.mpr ⟨(isDecimalStr_iff.mp (ha g' hg')).2 c hc, rfl⟩
        rw [← strNat_fold _ hall]
        congr 1
        rw [List.map_flatten, List.map_map]
        have : (List.map (fun p : Char × Nat => p.1)) ∘ (fun g : Str => g.map (fun c => (c, digitVal c))) = id := by
          funext g; simp [Function.comp_def]
        rw [this, List.map_id]
    · rw [if_neg ha] at h; cases h
  · rintro ⟨gs, rfl, h1, h2, rfl⟩
    have hs : splitChar '_' (join ['_'] (gs.map (fun g => g.map (·.1)))) = gs.map (fun g => g.map (·.1)) := by
      apply splitChar_join
      · simpa using h1
      · intro p hp hm
        rw [List.mem_map] at hp
        obtain ⟨g, hg, rfl⟩ := hp
        rw [List.mem_map] at hm
        obtain ⟨q, hq, e⟩ := hm
        exact (decimal_facts (decimal_iff.mp ((h2 g hg).2 q hq)).1).2.1 e
    rw [hs, if_pos]
    · congr 1
      rw [← strNat_fold gs.flatten (by
        intro p hp
        rw [List.mem_flatten] at hp
        obtain ⟨g, hg, hp⟩ := hp
        exact (h2 g hg).2 p hp)]
      rw [List.map_flatten]
    · rw [List.all_eq_true]
      intro x hx
      rw [List.mem_map] at hx
      obtain ⟨g, hg, rfl⟩ := hx
      rw [isDecimalStr_iff]
      refine ⟨by simpa using (h2 g hg).1, ?_⟩
      intro c hc
      rw [List.mem_map] at hc
      obtain ⟨q, hq, rfl⟩ := hc
      exact (decimal_iff.mp ((h2 g hg).2 q hq)).1

theorem join_chars {ps : List Str} {c : Char} (h : c ∈ join ['_'] ps) : c = '_' ∨ ∃ p ∈ ps, c ∈ p := by
  induction ps with
  | nil => simp [join] at h
  | cons p ps ih =>
    cases ps with
    | nil => simp only [join] at h; exact Or.inr ⟨p, by simp, h⟩
    | cons q qs =>
      simp only [join, List.mem_append, List.mem_cons, List.not_mem_nil, or_false] at h
      rcases h with (h | h) | h
      · exact Or.inr ⟨p, by simp, h⟩
      · exact Or.inl h
      · rcases ih h with h | ⟨x, hx, h⟩
        · exact Or.inl h
        · exact Or.inr ⟨x, List.mem_cons_of_mem _ hx, h⟩

theorem intDigits_chars {s : Str} {n : Nat} (h : intDigits s = some n) {c : Char} (hc : c ∈ s) : isIntSpace c = false ∧ c ≠ '+' ∧ c ≠ '-' := by
  obtain ⟨gs, rfl, _, h2, _⟩ := (intDigits_iff s n).mp h
  rcases join_chars hc with rfl | ⟨p, hp, hm⟩
  · decide
  · rw [List.mem_map] at hp
    obtain ⟨g, hg, rfl⟩ := hp
    rw [List.mem_map] at hm
    obtain ⟨q, hq, rfl⟩ := hm
    have := decimal_facts (decimal_iff.mp ((h2 g hg).2 q hq)).1
    exact ⟨this.1, this.2.2⟩

theorem pyIntText_ok (s : Str) (k : Int) : pyIntText s = .ok k ↔ intSigned (trimInt s) = some k := by
  unfold pyIntText
  change (match intSigned (trimInt s) with | some n => .ok n | none => .error CfgErr.notInt) = Except.ok k ↔ _
  cases intSigned (trimInt s) with
  | none => simp
  | some n => simp

theorem intSigned_iff (t : Str) (k : Int) : intSigned t = some k ↔ ∃ sign d m, t = sign ++ d ∧ intDigits d = some m ∧
    ((sign = [] ∨ sign = ['+']) ∧ k = (m : Int) ∨ sign = ['-'] ∧ k = -(m : Int)) := by
  constructor
  · intro h
    unfold intSigned at h
    split at h
    · rename_i d
      rw [Option.map_eq_some_iff] at h
      obtain ⟨m, hm, rfl⟩ := h
      exact ⟨['+'], d, m, rfl, hm, Or.inl ⟨Or.inr rfl, rfl⟩⟩
    · rename_i d
      rw [Option.map_eq_some_iff] at h
      obtain ⟨m, hm, rfl⟩ := h
      exact ⟨['-'], d, m, rfl, hm, Or.inr ⟨rfl, rfl⟩⟩
    · rw [Option.map_eq_some_iff] at h
      obtain ⟨m, hm, rfl⟩ := h
      exact ⟨[], t, m, rfl, hm, Or.inl ⟨Or.inl rfl, rfl⟩⟩
  · rintro ⟨sign, d, m, rfl, hd, ⟨rfl | rfl, rfl⟩ | ⟨rfl, rfl⟩⟩
    · rw [List.nil_append]
      unfold intSigned
      split
      · exact absurd rfl (intDigits_chars hd (c := '+') (by simp)).2.1
      · exact absurd rfl (intDigits_chars hd (c := '-') (by simp)).2.2
      · rw [hd]; rfl
    · simp [intSigned, hd]
    · simp [intSigned, hd]

theorem intText_iff (v : Str) (k : Int) : pyIntText v = .ok k ↔ IntText v k := by
  rw [pyIntText_ok, intSigned_iff]
  constructor
  · rintro ⟨sign, d, m, ht, hm, hk⟩
    obtain ⟨a, b, hv, hab⟩ := trim_parts v
    obtain ⟨gs, e, h1, h2, h3⟩ := (intDigits_iff d m).mp hm
    refine ⟨a, sign, b, gs, ?_, fun c hc => (isIntSpace_iff c).mp (hab c hc), h1, h2, by rw [← h3]; exact hk⟩
    rw [ht, e] at hv; rw [hv]; simp
  · rintro ⟨w1, sign, w2, gs, rfl, hw, h1, h2, hk⟩
    have hd := (intDigits_iff _ _).mpr ⟨gs, rfl, h1, h2, rfl⟩
    refine ⟨sign, _, _, ?_, hd, hk⟩
    have hs : ∀ c ∈ sign, isIntSpace c = false := by
      rcases hk with ⟨rfl | rfl, _⟩ | ⟨rfl, _⟩ <;> decide
    have hall : ∀ c ∈ sign ++ join ['_'] (gs.map (fun g => g.map (·.1))), isIntSpace c = false := by
      intro c hc
      rcases List.mem_append.mp hc with hc | hc
      · exact hs c hc
      · exact (intDigits_chars hd hc).1
    rw [List.append_assoc w1]
    refine trim_eq (fun c hc => (isIntSpace_iff c).mpr (hw c hc)) ?_ ?_
    · intro c hc; exact hall c (List.mem_of_mem_head? hc)
    · intro c hc; exact hall c (List.mem_of_getLast? hc)

theorem interpLoop_sound {lower : Str → Str} {look : Str → Option Str} {deep : Str → Except CfgErr Str} {d : Nat}
    (hd : ∀ v w, deep v = .ok w → ∃ d', d = d' + 1 ∧ Expand lower look d' v w) : ∀ (fuel : Nat) (s r : Str), interpLoop lower look deep fuel s = .ok r →
    Expand lower look d s r := by
  intro fuel
  induction fuel with
  | zero =>
    intro s r h
    cases s with
    | nil => simp only [interpLoop] at h; cases h; exact .nil d
    | cons c s => simp only [interpLoop] at h; cases h
  | succ n ih =>
    intro s r h
    cases s with
    | nil => simp only [interpLoop] at h; cases h; exact .nil d
    | cons c s =>
      by_cases hc : c = '%'
      · subst hc
        cases s with
        | nil => simp [interpLoop] at h
        | cons x s =>
          by_cases hx : x = '%'
          · subst hx
            simp only [interpLoop, ne_eq, not_true, if_false, bind, Except.bind, pure, Except.pure] at h
            cases h1 : interpLoop lower look deep n s with
            | error e => rw [h1] at h; cases h
            | ok r1 => rw [h1] at h; cases h; exact .percent d _ _ (ih _ _ h1)
          · by_cases hy : x = '('
            · subst hy
              simp only [interpLoop, ne_eq, not_true, if_false, bind, Except.bind, pure, Except.pure] at h
              cases hf : findChar ')' s with
              | none => rw [hf] at h; cases h
              | some k =>
                rw [hf] at h
                cases k with
                | zero => cases h
                | succ k =>
                  obtain ⟨a, b, rfl, ha, hl⟩ := findChar_some hf
                  have e1 : (a ++ ')' :: b).take (k + 1) = a := by rw [← hl]; simp
                  have e2 : (a ++ ')' :: b).drop (k + 2) = b := by
                    rw [show k + 2 = a.length + 1 by omega, List.drop_append]; simp
                  have e3 : (a ++ ')' :: b).drop (k + 3) = b.drop 1 := by
                    rw [show k + 3 = (k + 2) + 1 by omega, ← List.drop_drop, e2]
                  simp only [e1, e2, e3] at h
                  have hn : a ≠ [] := by intro e; rw [e] at hl; simp at hl
                  cases b with
                  | nil => simp at h
                  | cons y b =>
                    by_cases hs : y = 's'
                    · subst hs
                      rw [if_pos (by rfl)] at h
                      cases hl2 : look (lower a) with
                      | none => rw [hl2] at h; cases h
                      | some v =>
                        rw [hl2] at h
                        cases hb : interpLoop lower look deep n b with
                        | error e =>
                          simp only [List.drop_succ_cons, List.drop_zero, hb] at h
                          cases hp : hasChar '%' v with
                          | false => rw [hp] at h; simp at h
                          | true =>
                            rw [hp, if_pos rfl] at h
                            cases hw : deep v with
                            | error e => rw [hw] at h; cases h
                            | ok w => rw [hw] at h; cases h
                        | ok r1 =>
                          simp only [List.drop_succ_cons, List.drop_zero, hb] at h
                          cases hp : hasChar '%' v with
                          | false =>
                            rw [hp] at h
                            simp only [Bool.false_eq_true, if_false] at h
                            cases h
                            refine .plain d a v b r1 hn ha hl2 ?_ (ih _ _ hb)
                            intro hm; rw [hasChar_iff.mpr hm] at hp; cases hp
                          | true =>
                            rw [hp, if_pos rfl] at h
                            cases hw : deep v with
                            | error e => rw [hw] at h; cases h
                            | ok w =>
                              rw [hw] at h
                              cases h
                              obtain ⟨d', rfl, hd'⟩ := hd v w hw
                              exact .deep d' a v w b r1 hn ha hl2 (hasChar_iff.mp hp) hd' (ih _ _ hb)
                    · rw [if_neg (by simpa using hs)] at h; cases h
            · simp only [interpLoop, ne_eq, not_true, if_false] at h
              split at h
              · rename_i e; cases e; exact absurd rfl hx
              · rename_i e; cases e; exact absurd rfl hy
              · cases h
      · simp only [interpLoop] at h
        rw [if_pos hc] at h
        simp only [bind, Except.bind, pure, Except.pure] at h
        cases h1 : interpLoop lower look deep n s with
        | error e => rw [h1] at h; cases h
        | ok r1 => rw [h1] at h; cases h; exact .char d _ _ _ hc (ih _ _ h1)

theorem expand_loop {lower : Str → Str} {look : Str → Option Str} {d : Nat} {s r : Str} (h : Expand lower look d s r) :
    ∀ fuel, s.length ≤ fuel → interpLoop lower look (interpolate lower look d) fuel s = .ok r := by
  induction h with
  | nil d => intro fuel _; cases fuel <;> rfl
  | char d c s r hc _ ih =>
    intro fuel hf
    cases fuel with
    | zero => simp at hf
    | succ n =>
      simp only [interpLoop]
      rw [if_pos hc]
      simp only [bind, Except.bind, pure, Except.pure]
      rw [ih n (by simpa using hf)]
  | percent d s r _ ih =>
    intro fuel hf
    cases fuel with
    | zero => simp at hf
    | succ n =>
      simp only [interpLoop, ne_eq, not_true, if_false, bind, Except.bind, pure, Except.pure]
      rw [ih n (by simp at hf; omega)]
  | plain d name v s r hn hp hl hv _ ih =>
    intro fuel hf
    cases fuel with
    | zero => simp at hf
    | succ n =>
      simp only [List.cons_append, interpLoop, ne_eq, not_true, if_false, bind, Except.bind, pure, Except.pure]
      have hfc : findChar ')' (name ++ ')' :: 's' :: s) = some name.length := findChar_append_cons hp
      obtain ⟨k, hk⟩ : ∃ k, name.length = k + 1 := by
        cases name with
        | nil => exact absurd rfl hn
        | cons x xs => exact ⟨xs.length, rfl⟩
      rw [hfc, hk]
      have e1 : (name ++ ')' :: 's' :: s).take (k + 1) = name := by rw [← hk]; simp
      have e2 : (name ++ ')' :: 's' :: s).drop (k + 2) = 's' :: s := by
        rw [show k + 2 = name.length + 1 by omega, List.drop_append]; simp
      have e3 : (name ++ ')' :: 's' :: s).drop (k + 3) = s := by
        rw [show k + 3 = (k + 2) + 1 by omega, ← List.drop_drop, e2]; rfl
      simp only [e1, e2, e3, hl]
      rw [if_pos (by rfl)]
      have : hasChar '%' v = false := by
        cases hb : hasChar '%' v with
        | false => rfl
        | true => exact absurd (hasChar_iff.mp hb) hv
      rw [this]
      simp only [Bool.false_eq_true, if_false]
      rw [ih n (by simp at hf; omega)]
  | deep d name v w s r hn hp hl hv _ _ ih1 ih2 =>
    intro fuel hf
    cases fuel with
    | zero => simp at hf
    | succ n =>
      simp only [List.cons_append, interpLoop, ne_eq, not_true, if_false, bind, Except.bind, pure, Except.pure]
      have hfc : findChar ')' (name ++ ')' :: 's' :: s) = some name.length := findChar_append_cons hp
      obtain ⟨k, hk⟩ : ∃ k, name.length = k + 1 := by
        cases name with
        | nil => exact absurd rfl hn
        | cons x xs => exact ⟨xs.length, rfl⟩
      rw [hfc, hk]
      have e1 : (name ++ ')' :: 's' :: s).take (k + 1) = name := by rw [← hk]; simp
      have e2 : (name ++ ')' :: 's' :: s).drop (k + 2) = 's' :: s := by
        rw [show k + 2 = name.length + 1 by omega, List.drop_append]; simp
      have e3 : (name ++ ')' :: 's' :: s).drop (k + 3) = s := by
        rw [show k + 3 = (k + 2) + 1 by omega, ← List.drop_drop, e2]; rfl
      simp only [e1, e2, e3, hl]
      rw [if_pos (by rfl), hasChar_iff.mpr hv, if_pos rfl]
      have h1 : interpolate lower look (d + 1) v = .ok w := ih1 v.length (Nat.le_refl _)
      rw [h1]
      simp only
      rw [ih2 n (by simp at hf; omega)]

theorem interpolate_iff (lower : Str → Str) (look : Str → Option Str) (d : Nat) (v w : Str) :
    interpolate lower look (d + 1) v = .ok w ↔ Expand lower look d v w := by
  constructor
  · induction d generalizing v w with
    | zero =>
      intro h
      exact interpLoop_sound (fun v w hvw => by simp [interpolate] at hvw) _ _ _ h
    | succ d ih =>
      intro h
      exact interpLoop_sound (fun v w hvw => ⟨d, rfl, ih v w hvw⟩) _ _ _ h
  · intro h; exact expand_loop h _ (Nat.le_refl _)

theorem expand_plain {lower : Str → Str} {look : Str → Option Str} {d : Nat} {v : Str} (h : '%' ∉ v) : Expand lower look d v v := by
  induction v with
  | nil => exact .nil d
  | cons c s ih => exact .char d c s s (fun e => h (by simp [e])) (ih (fun hm => h (by simp [hm])))

end OsUrl
