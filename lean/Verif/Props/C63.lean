import Verif.Model.Memory
import Verif.Proofs.Runs
import Verif.Proofs.Json
import Verif.Proofs.Group

/-!
# C63: sizes are printed with the right unit, rounded up
-/

namespace OsUrl

open Spec

namespace Spec

/-- The number that a text of decimal digits denotes. -/
def digitsVal (ds : Str) : Nat := ds.foldl (fun n c => n * 10 + (c.toNat - '0'.toNat)) 0

/-- The units, by powers of 1024. -/
def units : List (Nat × String) := [(0, ""), (1, "K"), (2, "M"), (3, "G"), (4, "T"), (5, "P"), (6, "E"), (7, "Z"), (8, "Y")]

/-- `w.f` is a decimal fraction in shortest form: digits only, no zero in front of another digit, at least one digit on both sides of the point and
no zero at the end except in `w.0`. -/
structure ShortDecimal (w f : Str) : Prop where
  digits : ∀ c ∈ w ++ f, '0' ≤ c ∧ c ≤ '9'
  left : w ≠ []
  lead : w.head? = some '0' → w = ['0']
  right : f ≠ []
  last : f.getLast? = some '0' → f = ['0']

end Spec

theorem log1024_spec {fuel v : Nat} (hv : 0 < v) (h : v ≤ fuel) : 1024 ^ log1024 fuel v ≤ v ∧ v < 1024 ^ (log1024 fuel v + 1) := by
  induction fuel generalizing v with
  | zero => omega
  | succ fuel ih =>
    rw [log1024]
    by_cases h1 : v < 1024
    · rw [if_pos h1]; exact ⟨by rw [Nat.pow_zero]; omega, by simpa using h1⟩
    · rw [if_neg h1]
      have := ih (v := v / 1024) (by omega) (by omega)
      rw [Nat.pow_succ 1024 (_ + 1), Nat.pow_succ]
      rw [Nat.pow_succ] at this
      omega

theorem padDigits_val (p n a : Nat) : strNatAux a (padDigits p n) = a * 10 ^ p + n % 10 ^ p := by
  induction p generalizing n with
  | zero => rw [padDigits, strNatAux_nil]; simp [Nat.mod_one]
  | succ p ih =>
    rw [padDigits, strNatAux_append, ih, strNatAux_cons _ _ _ (isDigitC_digitChar (Nat.mod_lt n (by decide : 10 > 0))), strNatAux_nil, digitChar_toNat (Nat.mod_lt n (by decide : 10 > 0))]
    have h1 : n % 10 ^ (p + 1) = n / 10 % 10 ^ p * 10 + n % 10 := by
      rw [Nat.pow_succ, Nat.mul_comm, Nat.mod_mul]; omega
    rw [h1, Nat.pow_succ, ← Nat.mul_assoc]
    omega

theorem padDigits_len (p n : Nat) : (padDigits p n).length = p := by
  induction p generalizing n with
  | zero => rfl
  | succ p ih => rw [padDigits, List.length_append, ih]; rfl

theorem padDigits_digits (p n : Nat) : ∀ c ∈ padDigits p n, isDigitC c = true := by
  induction p generalizing n with
  | zero => intro c h; cases h
  | succ p ih =>
    intro c h
    rw [padDigits] at h
    rcases List.mem_append.mp h with h | h
    · exact ih _ c h
    · rw [List.mem_singleton] at h; subst h; exact isDigitC_digitChar (by omega)

theorem zeros_val (j a : Nat) : strNatAux a (List.replicate j '0') = a * 10 ^ j := by
  induction j generalizing a with
  | zero => rw [List.replicate_zero, strNatAux_nil]; simp
  | succ j ih => 
    rw [List.replicate_succ, strNatAux_cons _ _ _ (by decide), ih, Nat.pow_succ]
    show (a * 10 + 0) * 10 ^ j = _
    rw [Nat.add_zero, Nat.mul_assoc, Nat.mul_comm 10]

theorem trim_zeros (s : Str) : ∃ j, s = (s.reverse.dropWhile (· == '0')).reverse ++ List.replicate j '0' := by
  refine ⟨(s.reverse.takeWhile (· == '0')).length, ?_⟩
  have h1 : s.reverse.takeWhile (· == '0') = List.replicate (s.reverse.takeWhile (· == '0')).length '0' := by
    rw [List.eq_replicate_iff]
    refine ⟨rfl, fun c hc => ?_⟩
    have := List.all_takeWhile (p := (· == '0')) (l := s.reverse)
    simpa using List.all_eq_true.mp this c hc
  have h2 := congrArg List.reverse (List.takeWhile_append_dropWhile (p := (· == '0')) (l := s.reverse))
  rw [List.reverse_append, List.reverse_reverse] at h2
  rw [h1, List.reverse_replicate] at h2
  exact h2.symm

theorem natStr_lead (n : Nat) (h : (natStr n).head? = some '0') : natStr n = ['0'] := by
  cases hn : natStr n with
  | nil => exact absurd hn (natStr_ne_nil n)
  | cons c w =>
    rw [hn] at h
    simp only [List.head?_cons, Option.some.injEq] at h
    subst h
    rw [(natStrAux_zero (by omega) hn).2]

theorem digit_bounds {c : Char} (h : isDigitC c = true) : '0' ≤ c ∧ c ≤ '9' := by
  simp only [isDigitC, Bool.and_eq_true, decide_eq_true_eq] at h
  exact h

theorem digitsVal_eq (ds : Str) (h : ∀ c ∈ ds, isDigitC c = true) : digitsVal ds = strNatAux 0 ds := by
  have key : ∀ (ds : Str) (a : Nat), (∀ c ∈ ds, isDigitC c = true) → ds.foldl (fun n c => n * 10 + (c.toNat - '0'.toNat)) a = strNatAux a ds := by
    intro ds
    induction ds with
    | nil => intro a _; rw [strNatAux_nil]; rfl
    | cons c ds ih =>
      intro a h
      rw [strNatAux_cons _ _ _ (h c (by simp)), List.foldl_cons, ih _ (fun c hc => h c (by simp [hc]))]; rfl
  exact key ds 0 h

theorem floatStr_spec (k p : Nat) : ∃ w f, floatStr k p = w ++ '.' :: f ∧ ShortDecimal w f ∧ f.length ≤ max p 1 ∧
    digitsVal (w ++ f) * 10 ^ p = k * 10 ^ f.length := by
  unfold floatStr
  obtain ⟨j, hj⟩ := trim_zeros (padDigits p k)
  have hlast : ∀ c, ((padDigits p k).reverse.dropWhile (· == '0')).reverse.getLast? = some c → c ≠ '0' := by
    intro c hc
    rw [List.getLast?_reverse] at hc
    have := List.head?_dropWhile_not (· == '0') (padDigits p k).reverse
    rw [hc] at this
    simpa using this
  have hval := padDigits_val p k (k / 10 ^ p)
  have hlen := padDigits_len p k
  have hdig := padDigits_digits p k
  generalize ((padDigits p k).reverse.dropWhile (· == '0')).reverse = t at *
  have hk : k / 10 ^ p * 10 ^ p + k % 10 ^ p = k := by rw [Nat.mul_comm]; exact Nat.div_add_mod k (10 ^ p)
  rw [hj, strNatAux_append, zeros_val, hk] at hval
  rw [hj, List.length_append, List.length_replicate] at hlen
  simp only
  by_cases ht : t = []
  · subst ht
    rw [if_pos (by rfl)]
    refine ⟨_, _, rfl, ⟨?_, natStr_ne_nil _, natStr_lead _, by simp, fun _ => rfl⟩, ?_, ?_⟩
    · intro c hc
      rcases List.mem_append.mp hc with hc | hc
      · exact digit_bounds (natStr_digits c hc)
      · rw [List.mem_singleton] at hc; subst hc; decide
    · simp; omega
    · have hd : ∀ c ∈ natStr (k / 10 ^ p) ++ ['0'], isDigitC c = true := by
        intro c hc
        rcases List.mem_append.mp hc with hc | hc
        · exact natStr_digits c hc
        · rw [List.mem_singleton] at hc; subst hc; decide
      rw [digitsVal_eq _ hd, strNatAux_append, strNat_natStr, strNatAux_cons _ _ _ (by decide), strNatAux_nil]
      rw [strNatAux_nil] at hval
      simp only [List.length_nil, Nat.zero_add] at hlen
      subst hlen
      show (k / 10 ^ j * 10 + 0) * 10 ^ j = k * 10 ^ 1
      rw [Nat.add_zero, Nat.mul_right_comm, hval]
  · rw [if_neg (by simpa using ht)]
    refine ⟨_, _, rfl, ⟨?_, natStr_ne_nil _, natStr_lead _, ht, fun h => absurd rfl (hlast _ h)⟩, by omega, ?_⟩
    · intro c hc
      rcases List.mem_append.mp hc with hc | hc
      · exact digit_bounds (natStr_digits c hc)
      · exact digit_bounds (hdig c (by rw [hj]; simp [hc]))
    · have hd : ∀ c ∈ natStr (k / 10 ^ p) ++ t, isDigitC c = true := by
        intro c hc
        rcases List.mem_append.mp hc with hc | hc
        · exact natStr_digits c hc
        · exact hdig c (by rw [hj]; simp [hc])
      rw [digitsVal_eq _ hd, strNatAux_append, strNat_natStr]
      have hp : 10 ^ p = 10 ^ j * 10 ^ t.length := by rw [← hlen, Nat.add_comm, Nat.pow_add]
      generalize strNatAux (k / 10 ^ p) t = x at *
      rw [hp, ← Nat.mul_assoc, hval]

/-- **C63**: a positive size below 1024^9 is printed as a decimal fraction with at most `p` places (one if `p = 0`) and the unit of the largest power
of 1024 that is not above the size.  The number is the quotient rounded up: not below it, and less than `10^-p` above it. -/
theorem C63_format (v p : Nat) (h0 : 0 < v) (h9 : v < 1024 ^ 9) : ∃ w f s u, formatByte v p = .ok (w ++ '.' :: f ++ u.toList) ∧
    (s, u) ∈ units ∧ 1024 ^ s ≤ v ∧ v < 1024 ^ (s + 1) ∧ ShortDecimal w f ∧ f.length ≤ max p 1 ∧
    v * 10 ^ f.length ≤ digitsVal (w ++ f) * 1024 ^ s ∧
    digitsVal (w ++ f) * 1024 ^ s * 10 ^ p < (v * 10 ^ p + 1024 ^ s) * 10 ^ f.length := by
  obtain ⟨h1, h2⟩ := log1024_spec h0 (Nat.le_refl v)
  generalize hs : log1024 v v = s at h1 h2
  have hs9 : s < 9 := (Nat.pow_lt_pow_iff_right (by decide : 1 < 1024)).mp (Nat.lt_of_le_of_lt h1 h9)
  obtain ⟨u, hu, hm⟩ : ∃ u : String, unitSuffixes[s]? = some u.toList ∧ (s, u) ∈ units := by
    have key : ∀ s < 9, ∃ u ∈ units, u.1 = s ∧ unitSuffixes[s]? = some u.2.toList := by decide +kernel
    obtain ⟨⟨a, u⟩, h, rfl, h'⟩ := key s hs9
    exact ⟨u, h', h⟩
  have hpos : 0 < 1024 ^ s := Nat.pow_pos (by decide)
  obtain ⟨w, f, e, hw, hf, hval⟩ := floatStr_spec ((v * 10 ^ p + (1024 ^ s - 1)) / 1024 ^ s) p
  refine ⟨w, f, s, u, ?_, hm, h1, h2, hw, hf, ?_, ?_⟩
  · unfold formatByte
    rw [if_neg (by omega)]
    have hmin : min s unitSuffixes.length = s := Nat.min_eq_left (by show s ≤ 9; omega)
    simp only [Int.toNat_natCast, hs, hmin, hu]
    rw [e]
  all_goals
    generalize hk : (v * 10 ^ p + (1024 ^ s - 1)) / 1024 ^ s = k at *
    have hd := Nat.div_add_mod (v * 10 ^ p + (1024 ^ s - 1)) (1024 ^ s)
    have hml := Nat.mod_lt (v * 10 ^ p + (1024 ^ s - 1)) hpos
    rw [hk] at hd
    have k1 : v * 10 ^ p ≤ 1024 ^ s * k := by omega
    have k2 : 1024 ^ s * k < v * 10 ^ p + 1024 ^ s := by omega
    generalize digitsVal (w ++ f) = N at *
    generalize 1024 ^ s = A at *
    have hF : 0 < 10 ^ f.length := Nat.pow_pos (by decide)
    have hP : 0 < 10 ^ p := Nat.pow_pos (by decide)
    generalize 10 ^ f.length = F at *
    generalize 10 ^ p = P at *
  · refine Nat.le_of_mul_le_mul_right ?_ hP
    calc v * F * P = v * P * F := Nat.mul_right_comm _ _ _
      _ ≤ A * k * F := Nat.mul_le_mul_right _ k1
      _ = A * (N * P) := by rw [hval, Nat.mul_assoc]
      _ = N * A * P := by rw [Nat.mul_left_comm, Nat.mul_assoc]
  · calc N * A * P = A * (N * P) := by rw [Nat.mul_left_comm, Nat.mul_assoc]
      _ = A * k * F := by rw [hval, Nat.mul_assoc]
      _ < (v * P + A) * F := Nat.mul_lt_mul_of_pos_right k2 hF

/-- **C63** (finding): sizes of 1024^9 and more, and sizes that are not positive, raise. -/
theorem C63_raises (v : Int) (p : Nat) : (v ≤ 0 → formatByte v p = .error .valueError) ∧
    (1024 ^ 9 ≤ v → formatByte v p = .error .indexError) := by
  refine ⟨fun h => ?_, fun h => ?_⟩
  · unfold formatByte; rw [if_pos h]
  · obtain ⟨n, rfl⟩ := Int.eq_ofNat_of_zero_le (Int.le_trans (by decide) h)
    have hn : 1024 ^ 9 ≤ n := by
      have h' := Int.toNat_le_toNat h
      exact h'
    obtain ⟨h1, h2⟩ := log1024_spec (v := n) (Nat.lt_of_lt_of_le (by decide) hn) (Nat.le_refl n)
    have h9 : 9 < log1024 n n + 1 := (Nat.pow_lt_pow_iff_right (by decide : 1 < 1024)).mp (Nat.lt_of_le_of_lt hn h2)
    unfold formatByte
    rw [if_neg (by have : (0 : Int) < 1024 ^ 9 := by decide
                   omega)]
    have hmin : min (log1024 n n) unitSuffixes.length = 9 := Nat.min_eq_right (by show 9 ≤ _; omega)
    simp only [Int.ofNat_eq_natCast, Int.toNat_natCast, hmin]
    rfl

theorem hasSub_iff (b s : Str) : hasSub b s = true ↔ ∃ x y, s = x ++ b ++ y := by
  induction s with
  | nil =>
    rw [hasSub]
    constructor
    · intro h
      rw [List.isEmpty_iff] at h
      exact ⟨[], [], by rw [h]; rfl⟩
    · rintro ⟨x, y, e⟩
      have := congrArg List.length e
      simp only [List.length_nil, List.length_append] at this
      rw [List.isEmpty_iff, ← List.length_eq_zero_iff]
      omega
  | cons c s ih =>
    rw [hasSub, Bool.or_eq_true, ih]
    constructor
    · rintro (h | ⟨x, y, e⟩)
      · obtain ⟨y, e⟩ := List.isPrefixOf_iff_prefix.mp h
        exact ⟨[], y, by rw [← e]; rfl⟩
      · exact ⟨c :: x, y, by rw [e]; rfl⟩
    · rintro ⟨x, y, e⟩
      cases x with
      | nil => exact .inl (List.isPrefixOf_iff_prefix.mpr ⟨y, e.symm⟩)
      | cons d x =>
        simp only [List.cons_append, List.cons.injEq] at e
        exact .inr ⟨x, y, e.2⟩

theorem logMemory_iff (fmt : Option Str) : logMemory fmt = true ↔ ∀ f, fmt = some f → f = [] ∨ ∃ a b, f = a ++ "%(memory)s".toList ++ b := by
  cases fmt with
  | none => simp [logMemory]
  | some f =>
    rw [logMemory, Bool.or_eq_true, List.isEmpty_iff, hasSub_iff]
    constructor
    · intro h g hg
      cases hg
      exact h
    · intro h
      exact h f rfl

/-- **C63**: the size goes into a record exactly if the record has none and the format is absent, empty or mentions it. -/
theorem C63_record (fmt : Option Str) (used : Str) (record : Dict Str Str) (k : Str) :
    Dict.get? k (memoryRecord fmt used record) =
      open Classical in if k = "memory".toList ∧ Dict.get? k record = none ∧ (∀ f, fmt = some f → f = [] ∨ ∃ a b, f = a ++ "%(memory)s".toList ++ b)
      then some used else Dict.get? k record := by
  have hm : (c!"memory" : Str) = "memory".toList := by decide
  unfold memoryRecord
  rw [hm]
  by_cases hl : logMemory fmt = true
  · have hl' := (logMemory_iff fmt).mp hl
    cases hg : Dict.get? "memory".toList record with
    | none =>
      rw [hl]
      simp only [Option.isNone_none, Bool.and_self, if_true]
      rw [Dict.get?_upd]
      by_cases hk : "memory".toList = k
      · subst hk
        rw [if_pos rfl, if_pos ⟨rfl, hg, hl'⟩]
      · rw [if_neg hk, if_neg (fun h => hk h.1.symm)]
    | some v =>
      simp only [Option.isNone_some, Bool.and_false, Bool.false_eq_true, if_false]
      rw [if_neg]
      rintro ⟨rfl, h, -⟩
      rw [hg] at h
      cases h
  · rw [if_neg (by simp [hl]), if_neg]
    rintro ⟨-, -, h⟩
    exact hl ((logMemory_iff fmt).mpr h)

example : formatByte 1536 2 = .ok c!"1.5K" ∧ formatByte 123456789 2 = .ok c!"117.74M" ∧ formatByte 1 2 = .ok c!"1.0" ∧
    formatByte 1048575 2 = .ok c!"1024.0K" ∧ formatByte (1024 ^ 9 - 1) 2 = .ok c!"1024.0Y" := by decide +kernel

example : formatByte 0 2 = .error .valueError ∧ formatByte (1024 ^ 9) 2 = .error .indexError := by decide +kernel

example : memoryRecord (some c!"[%(memory)s] %(message)s") c!"1.5K" [(c!"name", c!"x")] = [(c!"name", c!"x"), (c!"memory", c!"1.5K")] ∧
    memoryRecord (some c!"%(message)s") c!"1.5K" [(c!"name", c!"x")] = [(c!"name", c!"x")] := by decide +kernel

end OsUrl
