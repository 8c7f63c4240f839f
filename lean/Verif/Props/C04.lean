import Verif.Proofs.Normalize

/-! # C04: `normalize` yields a regular expression for exactly the normalised string -/

namespace OsUrl
open Spec

/-- **C04**: `normalize(s, reserved)` full-matches `s` and nothing else.  The program uses the
reserved sets `''` and `'='`; any set of characters without a special meaning will do. -/
theorem C04_exact (s reserved : Str) (hs : ∀ c ∈ s, Known c) (hr : ∀ c ∈ reserved, c ∉ special) (t : Str) :
    ReMatch (normalize s reserved) t ↔ t = s := by
  obtain ⟨⟨is, h1, h2⟩, -⟩ := normalize_exact hr hs
  rw [reMatch_iff h1]
  exact h2 t

/-- **C04**: so `normalize` is injective on such strings. -/
theorem C04_injective (s t reserved : Str) (hs : ∀ c ∈ s, Known c) (ht : ∀ c ∈ t, Known c)
    (hr : ∀ c ∈ reserved, c ∉ special) (h : normalize s reserved = normalize t reserved) : s = t := by
  have h1 := (C04_exact s reserved hs hr s).mpr rfl
  rw [h] at h1
  exact (C04_exact t reserved ht hr s).mp h1

/-- **C04**: the form of the result, run by run. -/
theorem C04_form (s reserved : Str) (rs : List (Space × Str)) (h : Runs s rs) :
    normalize s reserved =
      (rs.map (fun r => match r.1 with
        | .sign c => if c ∈ reserved then r.2 else runText r
        | _ => r.2)).flatten := by
  rw [normalize_eq, normRuns, runsOf_runs h]
  congr 1
  apply List.map_congr_left
  intro r hr
  exact normText_known (h.nonempty r hr) (h.space r hr)

/-- **C04**: for characters outside the table the result is not injective, and is a regular expression
for something else. -/
theorem C04_unknown_collision :
    normalize c!"a b" = normalize c!"a\u00e9b" ∧ normalize c!"a b" = c!"a[None]b" ∧ c!"a b" ≠ c!"a\u00e9b" := by
  decide +kernel

example : normalize c!"a--b.1=" ['='] = c!"a[\\-]{2}b[\\.]1=" := by decide +kernel
example : normalize c!"a--b.1=" = c!"a[\\-]{2}b[\\.]1[=]" := by decide +kernel
example : ReMatch (normalize c!"k[0]=" ['=']) c!"k[0]=" :=
  (C04_exact c!"k[0]=" ['='] (by decide) (by decide) _).mpr rfl

end OsUrl
