import Verif.Proofs.Json

/-! # C35: the JSON record decodes to the pattern and the count -/

namespace OsUrl
open Spec

/-- **C35**: a cluster with at least one path gives one record, a JSON object with exactly the members
`ptn` (the pattern packed from the first path, whatever characters it has) and `cnt` (the root's count). -/
theorem C35_record (m : URLMeta) (t : Tree NodeData) (path : List (Str × NodeData)) (rest : List (List (Str × NodeData)))
    (h : t.paths = path :: rest) :
    ∃ line, formatJson m t = [line] ∧
      readObject line = some [(c!"ptn".map Char.toNat, .str ((pack m (path.map (fun kn => kn.2.pattern))).flatMap utf16)),
        (c!"cnt".map Char.toNat, .int t.root.count)] := by
  refine ⟨_, by unfold formatJson; rw [h]; rfl, readObject_record _ _⟩

/-- **C35**: records are equal only for equal patterns and counts. -/
theorem C35_injective (m m' : URLMeta) (t t' : Tree NodeData) (path path' : List (Str × NodeData))
    (rest rest' : List (List (Str × NodeData))) (h : t.paths = path :: rest) (h' : t'.paths = path' :: rest')
    (e : formatJson m t = formatJson m' t') :
    pack m (path.map (fun kn => kn.2.pattern)) = pack m' (path'.map (fun kn => kn.2.pattern)) ∧
      t.root.count = t'.root.count := by
  obtain ⟨l, e1, r1⟩ := C35_record m t path rest h
  obtain ⟨l', e2, r2⟩ := C35_record m' t' path' rest' h'
  rw [e1, e2] at e
  injection e with e _
  rw [e, r2] at r1
  simp only [Option.some.injEq, List.cons.injEq, Prod.mk.injEq, JVal.str.injEq, JVal.int.injEq, true_and, and_true] at r1
  exact ⟨(utf16_inj r1.1).symm, r1.2.symm⟩

/-- **C35**: the record is one line. -/
theorem C35_line (m : URLMeta) (t : Tree NodeData) : ∀ l ∈ formatJson m t, ∀ c ∈ l, 32 ≤ c.toNat ∧ c.toNat ≤ 126 := by
  have hhex : ∀ n, 32 ≤ (hexDigit (n % 16)).toNat ∧ (hexDigit (n % 16)).toNat ≤ 126 := by
    intro n
    have key : ∀ n, n < 16 → 32 ≤ (hexDigit n).toNat ∧ (hexDigit n).toNat ≤ 126 := by decide
    exact key _ (Nat.mod_lt _ (by omega))
  have hu : ∀ n, ∀ c ∈ uEscape n, 32 ≤ c.toNat ∧ c.toNat ≤ 126 := by
    intro n c hc
    unfold uEscape at hc
    simp only [List.mem_cons, List.not_mem_nil, or_false] at hc
    rcases hc with rfl | rfl | rfl | rfl | rfl | rfl
    · decide
    · decide
    all_goals exact hhex _
  have hj : ∀ d, ∀ c ∈ jsonChar d, 32 ≤ c.toNat ∧ c.toNat ≤ 126 := by
    intro d c hc
    unfold jsonChar at hc
    have two : ∀ x : Char, (32 ≤ x.toNat ∧ x.toNat ≤ 126) → c ∈ ['\\', x] → 32 ≤ c.toNat ∧ c.toNat ≤ 126 := by
      intro x hx hc
      simp only [List.mem_cons, List.not_mem_nil, or_false] at hc
      rcases hc with rfl | rfl
      · decide
      · exact hx
    by_cases c1 : d = '"'
    · rw [if_pos c1] at hc; exact two _ (by decide) hc
    rw [if_neg c1] at hc
    by_cases c2 : d = '\\'
    · rw [if_pos c2] at hc; exact two _ (by decide) hc
    rw [if_neg c2] at hc
    by_cases c3 : d = '\n'
    · rw [if_pos c3] at hc; exact two _ (by decide) hc
    rw [if_neg c3] at hc
    by_cases c4 : d = '\r'
    · rw [if_pos c4] at hc; exact two _ (by decide) hc
    rw [if_neg c4] at hc
    by_cases c5 : d = '\t'
    · rw [if_pos c5] at hc; exact two _ (by decide) hc
    rw [if_neg c5] at hc
    by_cases c6 : d.toNat = 8
    · rw [if_pos c6] at hc; exact two _ (by decide) hc
    rw [if_neg c6] at hc
    by_cases c7 : d.toNat = 12
    · rw [if_pos c7] at hc; exact two _ (by decide) hc
    rw [if_neg c7] at hc
    by_cases c8 : 32 ≤ d.toNat ∧ d.toNat ≤ 126
    · rw [if_pos c8] at hc
      simp only [List.mem_cons, List.not_mem_nil, or_false] at hc
      rw [hc]; exact c8
    rw [if_neg c8] at hc
    by_cases c9 : d.toNat < 65536
    · rw [if_pos c9] at hc; exact hu _ c hc
    rw [if_neg c9] at hc
    rcases List.mem_append.mp hc with hc | hc
    · exact hu _ c hc
    · exact hu _ c hc
  intro l hl c hc
  unfold formatJson at hl
  split at hl
  · simp at hl
  · simp only [List.mem_cons, List.not_mem_nil, or_false] at hl
    subst hl
    have fixed : ∀ w : Str, (∀ c ∈ w, 32 ≤ c.toNat ∧ c.toNat ≤ 126) → c ∈ w → 32 ≤ c.toNat ∧ c.toNat ≤ 126 :=
      fun w h hc => h c hc
    rcases List.mem_append.mp hc with hc | hc
    · rcases List.mem_append.mp hc with hc | hc
      · rcases List.mem_append.mp hc with hc | hc
        · rcases List.mem_append.mp hc with hc | hc
          · exact fixed _ (by decide) hc
          · unfold jsonString at hc
            rcases List.mem_append.mp hc with hc | hc
            · rcases List.mem_cons.mp hc with rfl | hc
              · decide
              · obtain ⟨d, -, hd⟩ := List.mem_flatMap.mp hc
                exact hj d c hd
            · exact fixed _ (by decide) hc
        · exact fixed _ (by decide) hc
      · have hd : ∀ n, ∀ c ∈ natStr n, 32 ≤ c.toNat ∧ c.toNat ≤ 126 := by
          intro n c hc
          have := natStr_digits c hc
          unfold isDigitC at this
          rw [Bool.and_eq_true, decide_eq_true_eq, decide_eq_true_eq] at this
          omega
        unfold intStr at hc
        split at hc
        · rcases List.mem_cons.mp hc with rfl | hc
          · decide
          · exact hd _ c hc
        · exact hd _ c hc
    · exact fixed _ (by decide) hc

/-- A pattern with quote, backslash and a letter outside ASCII. -/
example : formatJson ⟨1, [], false⟩ ⟨⟨emptyParsedPiece, none, 3, none⟩,
      .cons c!"a" ⟨emptyParsedPiece, some c!"[\\-]\"é", 3, none⟩ .nil .nil⟩ =
    [c!"{\"ptn\": \"/[\\\\-]\\\"\\u00e9\", \"cnt\": 3}"] := by decide +kernel
example : readObject c!"{\"ptn\": \"/[\\\\-]\\\"\\u00e9\", \"cnt\": 3}" =
    some [([112, 116, 110], .str (c!"/[\\-]\"é".map Char.toNat)), ([99, 110, 116], .int 3)] := by decide +kernel
example : readObject c!"{\"ptn\": \"/\\\", \"cnt\": 3}" = none := by decide +kernel

end OsUrl
