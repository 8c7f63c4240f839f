import Verif.Model.Formatter
import Verif.Spec.Json
import Verif.Proofs.Strings

/-! The JSON record reads back. -/

namespace OsUrl
open Spec

theorem hexVal_digit {n : Nat} (h : n < 16) : hexVal (hexDigit n) = some n := by
  have key : ∀ n, n < 16 → hexVal (hexDigit n) = some n := by decide
  exact key n h

theorem readString_u {n : Nat} (h : n < 65536) {rest : Str} {us : List Nat} {rest' : Str}
    (hr : readString rest = some (us, rest')) : readString (uEscape n ++ rest) = some (n :: us, rest') := by
  unfold uEscape
  simp only [List.cons_append, List.nil_append]
  rw [readString, hexVal_digit (Nat.mod_lt _ (by omega)), hexVal_digit (Nat.mod_lt _ (by omega)),
    hexVal_digit (Nat.mod_lt _ (by omega)), hexVal_digit (Nat.mod_lt _ (by omega)), hr]
  simp only [Option.some.injEq, Prod.mk.injEq, List.cons.injEq, and_true]
  omega

theorem readString_plain {c : Char} (h1 : 32 ≤ c.toNat) (h2 : c ≠ '"') (h3 : c ≠ '\\') {rest : Str} {us : List Nat} {rest' : Str}
    (hr : readString rest = some (us, rest')) : readString (c :: rest) = some (utf16 c ++ us, rest') := by
  rw [readString, hr]
  · rw [if_neg]
    rintro (h | h)
    · omega
    · exact h3 h
  · exact fun h => h2 h
  · intros; exact absurd ‹_› h3
  · intros; exact absurd ‹_› h3

theorem readString_short {c : Char} {u : Nat} (hu : c ≠ 'u') (h : shortEscape c = some u) {rest : Str} {us : List Nat} {rest' : Str}
    (hr : readString rest = some (us, rest')) : readString ('\\' :: c :: rest) = some (u :: us, rest') := by
  rw [readString, h, hr]
  intro a b c' d r e
  exact absurd e hu

theorem readString_char (c : Char) {rest : Str} {us : List Nat} {rest' : Str}
    (hr : readString rest = some (us, rest')) : readString (jsonChar c ++ rest) = some (utf16 c ++ us, rest') := by
  have short : ∀ (d : Char), d ≠ 'u' → shortEscape d = some c.toNat → c.toNat < 65536 →
      readString (['\\', d] ++ rest) = some (utf16 c ++ us, rest') := by
    intro d hd hs hc
    rw [List.cons_append, List.cons_append, List.nil_append, readString_short hd hs hr]
    unfold utf16
    rw [if_pos hc]; rfl
  unfold jsonChar
  by_cases c1 : c = '"'
  · rw [if_pos c1]; subst c1; exact short _ (by decide) (by decide) (by decide)
  rw [if_neg c1]
  by_cases c2 : c = '\\'
  · rw [if_pos c2]; subst c2; exact short _ (by decide) (by decide) (by decide)
  rw [if_neg c2]
  by_cases c3 : c = '\n'
  · rw [if_pos c3]; subst c3; exact short _ (by decide) (by decide) (by decide)
  rw [if_neg c3]
  by_cases c4 : c = '\r'
  · rw [if_pos c4]; subst c4; exact short _ (by decide) (by decide) (by decide)
  rw [if_neg c4]
  by_cases c5 : c = '\t'
  · rw [if_pos c5]; subst c5; exact short _ (by decide) (by decide) (by decide)
  rw [if_neg c5]
  by_cases c6 : c.toNat = 8
  · rw [if_pos c6]; exact short _ (by decide) (by rw [c6]; rfl) (by omega)
  rw [if_neg c6]
  by_cases c7 : c.toNat = 12
  · rw [if_pos c7]; exact short _ (by decide) (by rw [c7]; rfl) (by omega)
  rw [if_neg c7]
  by_cases c8 : 32 ≤ c.toNat ∧ c.toNat ≤ 126
  · rw [if_pos c8]; exact readString_plain c8.1 c1 c2 hr
  rw [if_neg c8]
  by_cases c9 : c.toNat < 65536
  · rw [if_pos c9, readString_u c9 hr]
    unfold utf16
    rw [if_pos c9]; rfl
  rw [if_neg c9]
  have hv : c.toNat < 1114112 := by
    have h := c.valid
    unfold UInt32.isValidChar Nat.isValidChar at h
    unfold Char.toNat
    omega
  simp only
  rw [List.append_assoc, readString_u (by omega) (readString_u (by omega) hr)]
  unfold utf16
  rw [if_neg c9]; rfl

theorem readString_json (s rest : Str) : readString (s.flatMap jsonChar ++ '"' :: rest) = some (s.flatMap utf16, rest) := by
  induction s with
  | nil => simp [readString]
  | cons c s ih =>
    rw [List.flatMap_cons, List.append_assoc, readString_char c ih, List.flatMap_cons]

theorem readValue_json (s rest : Str) : readValue (jsonString s ++ rest) = some (.str (s.flatMap utf16), rest) := by
  have : jsonString s ++ rest = '"' :: (s.flatMap jsonChar ++ '"' :: rest) := by simp [jsonString]
  rw [this]
  unfold readValue
  simp [readString_json]

theorem isDec_eq (c : Char) : isDec c = isDigitC c := by
  unfold isDec isDigitC
  rw [Bool.decide_and]
  rfl

theorem natStrAux_zero {fuel n : Nat} {w : Str} (hf : n < fuel) (h : natStrAux fuel n = '0' :: w) : n = 0 ∧ w = [] := by
  induction fuel generalizing n w with
  | zero => omega
  | succ f ih =>
    rw [natStrAux] at h
    by_cases hn : n < 10
    · rw [if_pos hn] at h
      have key : ∀ n, n < 10 → digitChar n = '0' → n = 0 := by decide
      simp only [List.cons.injEq] at h
      exact ⟨key n hn h.1, h.2.symm⟩
    · rw [if_neg hn] at h
      have hne : natStrAux f (n / 10) ≠ [] := by
        cases f with
        | zero => omega
        | succ f => rw [natStrAux]; split <;> simp
      obtain ⟨c, v, hv⟩ := List.exists_cons_of_ne_nil hne
      rw [hv] at h
      simp only [List.cons_append, List.cons.injEq] at h
      rw [h.1] at hv
      have := ih (n := n / 10) (by omega) hv
      omega

theorem takeWhile_digits {ds : Str} (h : ∀ c ∈ ds, isDec c = true) {rest : Str} (hr : ∀ c ∈ rest.head?, isDec c = false) :
    (ds ++ rest).takeWhile isDec = ds ∧ (ds ++ rest).dropWhile isDec = rest := by
  induction ds with
  | nil =>
    cases rest with
    | nil => simp
    | cons c r => have := hr c (by simp); simp [this]
  | cons c ds ih =>
    have hc := h c (by simp)
    have := ih (fun x hx => h x (by simp [hx]))
    simp [hc, this]

theorem decVal_eq (ds : Str) (a : Nat) (h : ∀ c ∈ ds, isDigitC c = true) : ds.foldl (fun n c => n * 10 + (c.toNat - '0'.toNat)) a = strNatAux a ds := by
  induction ds generalizing a with
  | nil => rw [List.foldl_nil, strNatAux_nil]
  | cons c ds ih =>
    have e0 : '0'.toNat = 48 := by decide
    rw [List.foldl_cons, ih _ (fun c hc => h c (by simp [hc])), e0, strNatAux_cons _ _ _ (h c (by simp))]

theorem readNat_natStr (n : Nat) {rest : Str} (hr : ∀ c ∈ rest.head?, isDec c = false) :
    readNat (natStr n ++ rest) = some (n, rest) := by
  obtain ⟨h1, h2⟩ := takeWhile_digits (ds := natStr n) (fun c hc => by rw [isDec_eq]; exact natStr_digits c hc) hr
  unfold readNat
  rw [h1, h2]
  split
  · rename_i h; exact absurd h (natStr_ne_nil n)
  · rename_i h
    have := (natStrAux_zero (by omega) h).1
    rw [this]
  · rename_i w hw h
    exact absurd (natStrAux_zero (by omega) h).2 hw
  · rw [decVal_eq _ _ natStr_digits, strNat_natStr]

theorem readValue_int (n : Int) {rest : Str} (hr : ∀ c ∈ rest.head?, isDec c = false) :
    readValue (intStr n ++ rest) = some (.int n, rest) := by
  unfold intStr
  by_cases hn : n < 0
  · rw [if_pos hn, List.cons_append]
    unfold readValue
    simp only [readNat_natStr _ hr, Option.map_some, Option.some.injEq, Prod.mk.injEq, JVal.int.injEq, and_true]
    omega
  · rw [if_neg hn]
    obtain ⟨c, w, hw⟩ := List.exists_cons_of_ne_nil (natStr_ne_nil n.toNat)
    have hd := natStr_digits (n := n.toNat) c (by rw [hw]; simp)
    unfold readValue
    have hrn := readNat_natStr n.toNat hr
    split
    · rename_i h
      rw [hw] at h; simp only [List.cons_append, List.cons.injEq] at h
      rw [h.1] at hd; exact absurd hd (by decide)
    · rename_i h
      rw [hw] at h; simp only [List.cons_append, List.cons.injEq] at h
      rw [h.1] at hd; exact absurd hd (by decide)
    · rw [hrn]
      simp only [Option.map_some, Option.some.injEq, Prod.mk.injEq, JVal.int.injEq, and_true]
      omega

theorem blanks_of {c : Char} (h : c ∉ [' ', '\t', '\n', '\r']) (t : Str) : blanks (c :: t) = c :: t := by
  unfold blanks
  rw [List.dropWhile_cons_of_neg]
  simpa using h

theorem blanks_space (t : Str) : blanks (' ' :: t) = blanks t := by
  unfold blanks
  rw [List.dropWhile_cons_of_pos]
  decide

theorem utf16_inj {a b : Str} (h : a.flatMap utf16 = b.flatMap utf16) : a = b := by
  have hchar : ∀ c : Char, c.toNat < 0xD800 ∨ 0xE000 ≤ c.toNat ∧ c.toNat < 0x110000 := by
    intro c
    have h := c.valid
    unfold UInt32.isValidChar Nat.isValidChar at h
    unfold Char.toNat
    omega
  have hinj : ∀ c d : Char, c.toNat = d.toNat → c = d := fun c d h => Char.toNat_inj.mp h
  induction a generalizing b with
  | nil =>
    cases b with
    | nil => rfl
    | cons d b => rw [List.flatMap_cons] at h; unfold utf16 at h; split at h <;> simp at h
  | cons c a ih =>
    cases b with
    | nil => rw [List.flatMap_cons] at h; unfold utf16 at h; split at h <;> simp at h
    | cons d b =>
      rw [List.flatMap_cons, List.flatMap_cons] at h
      have hc := hchar c
      have hd := hchar d
      by_cases c1 : c.toNat < 0x10000
      · by_cases d1 : d.toNat < 0x10000
        · have e1 : utf16 c = [c.toNat] := if_pos c1
          have e2 : utf16 d = [d.toNat] := if_pos d1
          rw [e1, e2] at h
          simp only [List.cons_append, List.nil_append, List.cons.injEq] at h
          rw [hinj c d h.1, ih h.2]
        · have e1 : utf16 c = [c.toNat] := if_pos c1
          have e2 : utf16 d = _ := if_neg d1
          rw [e1, e2] at h
          simp only [List.cons_append, List.nil_append, List.cons.injEq] at h
          omega
      · by_cases d1 : d.toNat < 0x10000
        · have e1 : utf16 c = _ := if_neg c1
          have e2 : utf16 d = [d.toNat] := if_pos d1
          rw [e1, e2] at h
          simp only [List.cons_append, List.nil_append, List.cons.injEq] at h
          omega
        · have e1 : utf16 c = _ := if_neg c1
          have e2 : utf16 d = _ := if_neg d1
          rw [e1, e2] at h
          simp only [List.cons_append, List.nil_append, List.cons.injEq] at h
          rw [hinj c d (by omega), ih h.2.2]

/-- The record reads back as an object with two members. -/
theorem readObject_record (s : Str) (n : Int) :
    readObject (c!"{\"ptn\": " ++ jsonString s ++ c!", \"cnt\": " ++ intStr n ++ c!"}") =
      some [(c!"ptn".map Char.toNat, .str (s.flatMap utf16)), (c!"cnt".map Char.toNat, .int n)] := by
  have e : c!"{\"ptn\": " ++ jsonString s ++ c!", \"cnt\": " ++ intStr n ++ c!"}" =
      '{' :: ((['"', 'p', 't', 'n', '"', ':', ' '] ++ (jsonString s ++ ([',', ' ', '"', 'c', 'n', 't', '"', ':', ' '] ++ (intStr n ++ ['}']))))) := by
    simp
  have hlen : ∃ k, ('{' :: ((['"', 'p', 't', 'n', '"', ':', ' '] ++ (jsonString s ++ ([',', ' ', '"', 'c', 'n', 't', '"', ':', ' '] ++ (intStr n ++ ['}'])))))).length = k + 2 :=
    ⟨_, rfl⟩
  obtain ⟨k, hk⟩ := hlen
  have hm2 : readMembers (k + 1) ([' ', '"', 'c', 'n', 't', '"', ':', ' '] ++ (intStr n ++ ['}'])) =
      some ([(c!"cnt".map Char.toNat, .int n)], []) := by
    rw [readMembers]
    simp only [List.cons_append, List.nil_append, blanks_space]
    rw [blanks_of (by decide)]
    have hs : readString ('c' :: 'n' :: 't' :: '"' :: ':' :: ' ' :: (intStr n ++ ['}'])) =
        some (c!"cnt".map Char.toNat, ':' :: ' ' :: (intStr n ++ ['}'])) := by
      simp [readString, utf16]
    simp only [hs]
    rw [blanks_of (by decide)]
    simp only [blanks_space]
    have hi : blanks (intStr n ++ ['}']) = intStr n ++ ['}'] := by
      unfold intStr
      split
      · rw [List.cons_append, blanks_of (by decide)]
      · obtain ⟨c, w, hw⟩ := List.exists_cons_of_ne_nil (natStr_ne_nil n.toNat)
        have hd := natStr_digits (n := n.toNat) c (by rw [hw]; simp)
        rw [hw, List.cons_append, blanks_of]
        intro hc
        have : ∀ c ∈ [' ', '\t', '\n', '\r'], isDigitC c = false := by decide
        rw [this c hc] at hd; cases hd
    rw [hi, readValue_int n (by decide)]
    simp only
    rw [blanks_of (by decide)]
    rfl
  rw [e]
  unfold readObject
  rw [hk, blanks_of (by decide)]
  simp only
  have hm1 : readMembers (k + 2) (['"', 'p', 't', 'n', '"', ':', ' '] ++ (jsonString s ++ ([',', ' ', '"', 'c', 'n', 't', '"', ':', ' '] ++ (intStr n ++ ['}'])))) =
      some ([(c!"ptn".map Char.toNat, .str (s.flatMap utf16)), (c!"cnt".map Char.toNat, .int n)], []) := by
    rw [readMembers]
    simp only [List.cons_append, List.nil_append]
    rw [blanks_of (by decide)]
    have hs : ∀ T, readString ('p' :: 't' :: 'n' :: '"' :: T) = some (c!"ptn".map Char.toNat, T) := by
      intro T; simp [readString, utf16]
    simp only [hs]
    rw [blanks_of (by decide)]
    simp only [blanks_space]
    have hi : ∀ T, blanks (jsonString s ++ T) = jsonString s ++ T := by
      intro T
      unfold jsonString
      rw [List.cons_append, List.cons_append, blanks_of (by decide)]
    rw [hi, readValue_json]
    simp only
    rw [blanks_of (by decide)]
    simp only
    simp only [List.cons_append, List.nil_append] at hm2
    rw [hm2]
  rw [hm1]
  rfl

end OsUrl
