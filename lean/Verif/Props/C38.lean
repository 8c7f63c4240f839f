import Verif.Model.Cmdline

/-! # C38: `LogSpeedAdapter` logs exactly every interval-th call -/

namespace OsUrl

/-- The records emitted by `n` calls after `count` calls: exactly the multiples of the interval in
the range of counts reached. -/
theorem logRun_eq (interval : Nat) (n count : Nat) :
    logRun interval n count = (List.range' (count + 1) n).filter (fun c => decide (interval ∣ c)) := by
  induction n generalizing count with
  | zero => rfl
  | succ n ih =>
    simp only [logRun, logStep, List.range'_succ, List.filter_cons]
    rw [ih]
    by_cases h : (count + 1) % interval = 0
    · have h' : interval ∣ count + 1 := Nat.dvd_of_mod_eq_zero h
      simp [h, h']
    · have h' : ¬ interval ∣ count + 1 := fun d => h (Nat.mod_eq_zero_of_dvd d)
      simp [h, h']

/-- **C38**: a call emits a record exactly when its number (counting from 1) is a multiple of the
interval; a record carries the number of its call. -/
theorem C38_emits_at_multiples (interval n c : Nat) :
    c ∈ logRun interval n 0 ↔ 1 ≤ c ∧ c ≤ n ∧ interval ∣ c := by
  rw [logRun_eq]
  simp only [List.mem_filter, List.mem_range'_1, decide_eq_true_eq]
  omega

/-- **C38**: after `n` calls exactly `n / interval` records were emitted, in order the multiples
`interval, 2*interval, ..` -/
theorem C38_records (interval n : Nat) (h : 0 < interval) :
    logRun interval n 0 = (List.range' 1 (n / interval)).map (· * interval) := by
  rw [logRun_eq]
  induction n with
  | zero => simp
  | succ n ih =>
    rw [List.range'_concat, List.filter_append, ih]
    by_cases hd : interval ∣ n + 1
    · have hq : (n + 1) / interval = n / interval + 1 := Nat.succ_div_of_dvd hd
      rw [hq, List.range'_concat, List.map_append]
      obtain ⟨k, hk⟩ := hd
      have hk' : n / interval + 1 = k := by rw [← hq, hk, Nat.mul_div_cancel_left _ h]
      have e : 0 + 1 + 1 * n = interval * k := by omega
      simp only [e, List.filter_cons, List.filter_nil, Nat.dvd_mul_right, decide_true, if_true,
        List.map_cons, List.map_nil]
      rw [show 1 + 1 * (n / interval) = k by omega, Nat.mul_comm]
    · have hq : (n + 1) / interval = n / interval := Nat.succ_div_of_not_dvd hd
      have e : ¬ interval ∣ 1 + n := by rwa [show 1 + n = n + 1 by omega]
      simp [hq, e]

theorem C38_count (interval n : Nat) (h : 0 < interval) :
    (logRun interval n 0).length = n / interval := by simp [C38_records interval n h]

example : logRun 3 10 0 = [3, 6, 9] := by decide

end OsUrl
