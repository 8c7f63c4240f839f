import Verif.Proofs.Normalize
import Verif.Props.C02
import Verif.Props.C45

/-! Regular expressions put one after the other. -/

namespace OsUrl
open Spec

theorem reClassChar_append {s r t : Str} {c : Char} (h : reClassChar s = some (c, r)) : reClassChar (s ++ t) = some (c, r ++ t) := by
  unfold reClassChar at h ⊢
  cases s with
  | nil => cases h
  | cons a s =>
    by_cases ha : a = '\\'
    · subst ha
      cases s with
      | nil => cases h
      | cons b s =>
        simp only [List.cons_append] at h ⊢
        by_cases hb : isWord b = true
        · rw [if_pos hb] at h; cases h
        · rw [if_neg hb] at h ⊢
          cases h
          rfl
    · simp only [List.cons_append] at h ⊢
      cases h
      rfl

theorem reClass_ne {f : Nat} {a : Char} {s : Str} (ha : a ≠ ']') : reClass (f + 1) (a :: s) =
    match reClassChar (a :: s) with
    | none => none
    | some (lo, s1) => match s1 with
      | '-' :: s2 =>
        if s2.head? = some ']' then (reClass f s1).map fun r => ((lo, lo) :: r.1, r.2)
        else match reClassChar s2 with
          | none => none
          | some (hi, s3) =>
            if lo.toNat ≤ hi.toNat then (reClass f s3).map fun r => ((lo, hi) :: r.1, r.2)
            else none
      | _ => (reClass f s1).map fun r => ((lo, lo) :: r.1, r.2) := by
  rw [reClass]
  · rfl
  · intro e; cases e
  · intro rest e; injection e with e1; exact ha e1

theorem reClass_append {f : Nat} : ∀ {f' : Nat} {s r t : Str} {k : Class}, f ≤ f' → reClass f s = some (k, r) →
    reClass f' (s ++ t) = some (k, r ++ t) := by
  induction f with
  | zero => intro f' s r t k _ h; cases h
  | succ f ih =>
    intro f' s r t k hf h
    obtain ⟨g, rfl⟩ : ∃ g, f' = g + 1 := ⟨f' - 1, by omega⟩
    have hfg : f ≤ g := by omega
    cases s with
    | nil => cases h
    | cons a s =>
      by_cases ha : a = ']'
      · subst ha
        cases h
        rfl
      · rw [reClass_ne ha] at h
        rw [List.cons_append, reClass_ne ha]
        cases hc : reClassChar (a :: s) with
        | none => rw [hc] at h; cases h
        | some p =>
          obtain ⟨lo, s1⟩ := p
          have hc' := reClassChar_append (t := t) hc
          rw [List.cons_append] at hc'
          rw [hc] at h
          rw [hc']
          simp only at h ⊢
          have step : ∀ {u : Str} {x : Char × Char}, (reClass f u).map (fun r => (x :: r.1, r.2)) = some (k, r) →
              (reClass g (u ++ t)).map (fun r => (x :: r.1, r.2)) = some (k, r ++ t) := by
            intro u x hu
            cases hr : reClass f u with
            | none => rw [hr] at hu; cases hu
            | some q =>
              obtain ⟨k', r'⟩ := q
              rw [hr] at hu
              cases hu
              rw [ih hfg hr]
              rfl
          cases s1 with
          | nil =>
            simp only at h
            cases f with
            | zero => cases h
            | succ f => rw [reClass] at h; cases h
          | cons b s2 =>
            by_cases hb : b = '-'
            · subst hb
              simp only [List.cons_append] at h ⊢
              cases s2 with
              | nil =>
                simp only [List.head?_nil, reduceCtorEq, if_false, reClassChar] at h
              | cons d s2 =>
                by_cases hd : (d :: s2).head? = some ']'
                · rw [if_pos hd] at h
                  rw [if_pos (by simpa using hd)]
                  exact step h
                · rw [if_neg hd] at h
                  rw [if_neg (by simpa using hd)]
                  cases hc2 : reClassChar (d :: s2) with
                  | none => rw [hc2] at h; cases h
                  | some q =>
                    obtain ⟨hi, s3⟩ := q
                    have hc2' := reClassChar_append (t := t) hc2
                    rw [hc2] at h
                    rw [hc2']
                    simp only at h ⊢
                    by_cases hl : lo.toNat ≤ hi.toNat
                    · rw [if_pos hl] at h ⊢
                      exact step h
                    · rw [if_neg hl] at h; cases h
            · simp only [List.cons_append]
              split at h
              · rename_i e; injection e with e1; exact absurd e1 hb
              · split
                · rename_i e; injection e with e1; exact absurd e1 hb
                · exact step h

theorem reNum_append {s : Str} : ∀ {acc : Nat} {seen : Bool} {n : Nat} {r t : Str}, reNum acc seen s = some (n, r) →
    reNum acc seen (s ++ t) = some (n, r ++ t) := by
  induction s with
  | nil => intro acc seen n r t h; cases h
  | cons c s ih =>
    intro acc seen n r t h
    rw [List.cons_append]
    rw [reNum] at h ⊢
    by_cases hc : c = '}'
    · rw [if_pos hc] at h ⊢
      by_cases hs : seen = true
      · rw [if_pos hs] at h ⊢; cases h; rfl
      · rw [if_neg hs] at h; cases h
    · rw [if_neg hc] at h ⊢
      by_cases hd : '0'.toNat ≤ c.toNat ∧ c.toNat ≤ '9'.toNat
      · rw [if_pos hd] at h ⊢; exact ih h
      · rw [if_neg hd] at h; cases h

theorem reQuant_append {s r t : Str} {q : Quant} (ht : t.head? ≠ some '{' ∧ t.head? ≠ some '+') (h : reQuant s = some (q, r)) :
    reQuant (s ++ t) = some (q, r ++ t) := by
  unfold reQuant at h ⊢
  cases s with
  | nil =>
    cases h
    cases t with
    | nil => rfl
    | cons a t =>
      simp only [List.nil_append]
      split
      · rename_i e; injection e with e1 e2; subst e1; exact absurd rfl ht.1
      · rename_i e; injection e with e1 e2; subst e1; exact absurd rfl ht.2
      · rfl
  | cons a s =>
    simp only [List.cons_append]
    split at h
    · rename_i e
      injection e with e1 e2
      subst e1 e2
      simp only
      rename_i rest
      cases hr : reNum 0 false s with
      | none => rw [hr] at h; cases h
      | some p =>
        obtain ⟨n, r'⟩ := p
        rw [hr] at h
        cases h
        rw [reNum_append hr]
        rfl
    · rename_i e
      injection e with e1 e2
      subst e1 e2
      cases h
      rfl
    · rename_i h1 h2
      cases h
      split
      · rename_i e; injection e with e1 e2; exact absurd (by rw [e1]) (h1 s)
      · rename_i e; injection e with e1 e2; exact absurd (by rw [e1]) (h2 s)
      · rfl

theorem reAtom_append {s r t : Str} {k : Class} (h : reAtom s = some (k, r)) : reAtom (s ++ t) = some (k, r ++ t) := by
  unfold reAtom at h ⊢
  cases s with
  | nil => cases h
  | cons a s =>
    simp only [List.cons_append]
    split at h
    · cases h
    · rename_i e
      injection e with e1 e2
      subst e1 e2
      simp only
      cases hr : reClass s.length s with
      | none => rw [hr] at h; cases h
      | some p =>
        obtain ⟨k', r'⟩ := p
        rw [hr] at h
        have := reClass_append (t := t) (f' := (s ++ t).length) (by simp) hr
        rw [this]
        cases k' with
        | nil => cases h
        | cons x xs => cases h; rfl
    · rename_i c rest e
      injection e with e1 e2
      subst e1 e2
      simp only [List.cons_append]
      by_cases hw : isWord c = true
      · rw [if_pos hw] at h; cases h
      · rw [if_neg hw] at h ⊢; cases h; rfl
    · rename_i c rest h1 h2 e
      injection e with e1 e2
      subst e1 e2
      by_cases hs : a ∈ special
      · rw [if_pos hs] at h; cases h
      · rw [if_neg hs] at h
        cases h
        split
        · rename_i e; cases e
        · rename_i e; injection e with e1 e2; exact absurd (by rw [e1]; decide) hs
        · rename_i e; injection e with e1 e2; exact absurd (by rw [e1]; decide) hs
        · rename_i e; injection e with e1 e2; subst e1 e2; rw [if_neg hs]

theorem reAtom_head {s r : Str} {k : Class} (h : reAtom s = some (k, r)) : s.head? ≠ some '{' ∧ s.head? ≠ some '+' := by
  constructor
  · intro hh
    cases s with
    | nil => cases hh
    | cons a s => cases hh; simp [reAtom, special] at h
  · intro hh
    cases s with
    | nil => cases hh
    | cons a s => cases hh; simp [reAtom, special] at h

theorem reItems_cons (f : Nat) (a : Char) (s : Str) : reItems (f + 1) (a :: s) = (do
    let (k, rest) ← reAtom (a :: s)
    let (q, rest) ← reQuant rest
    let is ← reItems f rest
    return ⟨k, q⟩ :: is) := by
  rw [reItems]
  intro e
  cases e

theorem reItems_head {f : Nat} {s : Str} {is : List Item} (h : reItems f s = some is) : s.head? ≠ some '{' ∧ s.head? ≠ some '+' := by
  cases s with
  | nil => exact ⟨by simp, by simp⟩
  | cons a s =>
    cases f with
    | zero => cases h
    | succ f =>
      rw [reItems_cons] at h
      cases ha : reAtom (a :: s) with
      | none => rw [ha] at h; cases h
      | some p => exact reAtom_head (r := p.2) (k := p.1) ha

theorem reItems_append {f g : Nat} {t : Str} {js : List Item} (hj : reItems g t = some js) : ∀ {s : Str} {is : List Item},
    reItems f s = some is → reItems (f + g) (s ++ t) = some (is ++ js) := by
  have mono : ∀ (n f : Nat) (s : Str) (is : List Item), reItems f s = some is → reItems (f + n) s = some is := by
    intro n f
    induction f with
    | zero =>
      intro s is h
      cases s with
      | nil => cases n <;> exact h
      | cons => cases h
    | succ f ih =>
      intro s is h
      cases s with
      | nil => rw [Nat.add_right_comm]; exact h
      | cons a s =>
        rw [Nat.add_right_comm]
        rw [reItems_cons] at h ⊢
        cases ha : reAtom (a :: s) with
        | none => rw [ha] at h; cases h
        | some p =>
          obtain ⟨k, r⟩ := p
          rw [ha] at h
          simp only [bind, Option.bind] at h ⊢
          cases hq : reQuant r with
          | none => rw [hq] at h; cases h
          | some p =>
            obtain ⟨q, r2⟩ := p
            rw [hq] at h
            simp only at h ⊢
            cases hi : reItems f r2 with
            | none => rw [hi] at h; cases h
            | some l =>
              rw [hi] at h
              rw [ih _ _ hi]
              exact h
  induction f with
  | zero =>
    intro s is h
    cases s with
    | nil => cases h; rw [Nat.zero_add]; exact hj
    | cons => cases h
  | succ f ih =>
    intro s is h
    cases s with
    | nil =>
      cases h
      rw [Nat.add_comm]
      exact mono _ _ _ _ hj
    | cons a s =>
      rw [Nat.add_right_comm]
      rw [reItems_cons] at h
      rw [List.cons_append, reItems_cons]
      rw [← List.cons_append]
      cases ha : reAtom (a :: s) with
      | none => rw [ha] at h; cases h
      | some p =>
        obtain ⟨k, r⟩ := p
        rw [ha] at h
        rw [reAtom_append ha]
        simp only [bind, Option.bind] at h ⊢
        cases hq : reQuant r with
        | none => rw [hq] at h; cases h
        | some p =>
          obtain ⟨q, r2⟩ := p
          rw [hq] at h
          rw [reQuant_append (reItems_head hj) hq]
          simp only at h ⊢
          cases hi : reItems f r2 with
          | none => rw [hi] at h; cases h
          | some l =>
            rw [hi] at h
            cases h
            rw [ih hi]
            rfl

/-- Concatenations match concatenations. -/
theorem reMatch_append {p q s t : Str} (h1 : ReMatch p s) (h2 : ReMatch q t) : ReMatch (p ++ q) (s ++ t) := by
  obtain ⟨is, a1, a2⟩ := h1
  obtain ⟨js, b1, b2⟩ := h2
  refine ⟨is ++ js, ?_, itemsMatch_append.mpr ⟨s, t, rfl, a2, b2⟩⟩
  unfold reParse
  rw [List.length_append]
  exact reItems_append b1 a1

theorem reMatch_nil : ReMatch [] [] := ⟨[], rfl, .nil⟩

theorem reMatch_char {c : Char} (h : c ∉ special) : ReMatch [c] [c] := by
  rw [reMatch_iff (readsAs_char h), itemsMatch_single]
  exact ⟨by simp [Class.has], rfl⟩

theorem reMatch_cons {c : Char} (h : c ∉ special) {p s : Str} (hp : ReMatch p s) : ReMatch (c :: p) (c :: s) :=
  reMatch_append (reMatch_char h) hp

theorem reMatch_join {c : Char} (hc : c ∉ special) {ps : List (Str × Str)} (h : ∀ x ∈ ps, ReMatch x.1 x.2) :
    ReMatch (join [c] (ps.map (·.1))) (join [c] (ps.map (·.2))) := by
  induction ps with
  | nil => exact reMatch_nil
  | cons x ps ih =>
    cases ps with
    | nil => exact h x (by simp)
    | cons y ys =>
      have := ih (fun z hz => h z (by simp [hz]))
      simp only [List.map_cons, join] at this ⊢
      exact reMatch_append (reMatch_append (h x (by simp)) (reMatch_char hc)) this

theorem reMatch_question : ReMatch singleQuestion ['?'] := by
  refine ⟨[⟨[('?', '?')], .times 1⟩], by decide, ?_⟩
  rw [itemsMatch_single]
  exact ⟨by simp [Class.has], rfl⟩

theorem pathText_join {ps : List Str} (h : ps ≠ []) : pathText ps = '/' :: join ['/'] ps := by
  induction ps with
  | nil => exact absurd rfl h
  | cons x xs ih =>
    cases xs with
    | nil => simp [pathText, join]
    | cons y ys => rw [pathText, ih (by simp)]; simp [join]

/-- A packed pattern matches the packed text. -/
theorem pack_pairs {xs : List (Str × Str)} {ys : List (Str × Str × Str)} {zs : Option (Str × Str)}
    (hx : ∀ x ∈ xs, ReMatch x.1 x.2) (hk : ∀ y ∈ ys, ∀ c ∈ y.1, Known c) (hy : ∀ y ∈ ys, ReMatch y.2.1 y.2.2)
    (hz : ∀ z ∈ zs, ReMatch z.1 z.2) :
    ReMatch (pack ⟨xs.length, ys.map (fun y => normalize y.1 ['=']), zs.isSome⟩
        (xs.map (·.1) ++ ys.map (·.2.1) ++ (zs.map (·.1)).toList))
      ('/' :: join ['/'] (xs.map (·.2)) ++ (if ys = [] then [] else '?' :: join ['&'] (ys.map (fun y => y.1 ++ y.2.2))) ++
        optPart '#' (zs.map (·.2))) := by
  unfold pack
  simp only [List.length_map]
  have e1 : (xs.map (·.1) ++ ys.map (·.2.1) ++ (zs.map (·.1)).toList).take xs.length = xs.map (·.1) := by
    rw [List.append_assoc, List.take_append_of_le_length (by simp)]
    exact List.take_of_length_le (by simp)
  have e2 : ((xs.map (·.1) ++ ys.map (·.2.1) ++ (zs.map (·.1)).toList).take (xs.length + ys.length)).drop xs.length = ys.map (·.2.1) := by
    rw [List.take_append_of_le_length (by simp), List.take_of_length_le (by simp)]
    rw [List.drop_append_of_le_length (by simp), List.drop_of_length_le (by simp)]
    rfl
  have e3 : (xs.map (·.1) ++ ys.map (·.2.1) ++ (zs.map (·.1)).toList).drop (xs.length + ys.length) = (zs.map (·.1)).toList := by
    rw [List.drop_append_of_le_length (by simp), List.drop_of_length_le (by simp)]
    rfl
  rw [e1, e2, e3]
  refine reMatch_append (reMatch_append ?_ ?_) ?_
  · exact reMatch_cons (by decide) (reMatch_join (by decide) hx)
  · cases ys with
    | nil => exact reMatch_nil
    | cons y ys =>
      rw [if_pos (by simp), if_neg (by simp)]
      refine reMatch_append (s := ['?']) reMatch_question ?_
      have := reMatch_join (c := '&') (by decide) (ps := (y :: ys).map (fun y => (normalize y.1 ['='] ++ y.2.1, y.1 ++ y.2.2))) (by
        intro x hx
        obtain ⟨y', hy', rfl⟩ := List.mem_map.mp hx
        refine reMatch_append ?_ (hy y' hy')
        obtain ⟨⟨is, h1, h2⟩, -⟩ := normalize_exact (s := y'.1) (res := ['=']) (by decide) (hk y' hy')
        rw [reMatch_iff h1]
        exact (h2 _).mpr rfl)
      rw [List.map_map, List.map_map] at this
      have e : ((y :: ys).map (fun y => normalize y.1 ['='])).zip ((y :: ys).map (·.2.1)) =
          (y :: ys).map (fun y => (normalize y.1 ['='], y.2.1)) := by
        rw [List.zip_map', ]
      rw [e, List.map_map]
      exact this
  · cases zs with
    | none => exact reMatch_nil
    | some z =>
      rw [if_pos (by rfl)]
      have := reMatch_cons (c := '#') (by decide) (hz z (by rfl))
      simpa [optPart] using this

theorem query_parts {query : Option Str} {keys vals : List Str} (h : parseQueryString query = .ok (keys, vals)) :
    keys.length = vals.length ∧ (keys = [] ↔ query = none) ∧
      ∀ q, query = some q → join ['&'] ((keys.zip vals).map (fun kv => kv.1 ++ kv.2)) = q := by
  cases query with
  | none => cases h; exact ⟨rfl, by simp, by simp⟩
  | some q =>
    by_cases hq : q = []
    · subst hq; cases h; exact ⟨rfl, by simp, by intro q hq; cases hq; rfl⟩
    · obtain ⟨h1, h2, -⟩ := C02_pairs q hq (splitChar '&' q) keys vals (items_exist q) h
      refine ⟨h1.trans h2.symm, ?_, ?_⟩
      · have : 0 < (splitChar '&' q).length := by rw [splitChar_length]; omega
        constructor
        · rintro rfl
          rw [← h1] at this
          cases this
        · intro e; cases e
      · intro q' hq'
        cases hq'
        exact C02_lossless q hq keys vals h

theorem join_mem {c : Char} {ts : List Str} {t : Str} (h : t ∈ ts) {x : Char} (hx : x ∈ t) : x ∈ join [c] ts := by
  induction ts with
  | nil => cases h
  | cons a ts ih =>
    cases ts with
    | nil =>
      rw [List.mem_singleton] at h
      subst h
      exact hx
    | cons b ts =>
      simp only [join, List.mem_append]
      rcases List.mem_cons.mp h with rfl | h
      · exact .inl (.inl hx)
      · exact .inr (ih h)

/-- Patterns that match the pieces of a URL give a line that matches the URL. -/
theorem request_pack {u : AbsUrl} (h : u.OK) {m : URLMeta} {pieces pats : List Str} (ha : analyzeUrl u.text = .ok (m, pieces))
    (hk : ∀ q, u.query = some q → ∀ c ∈ q, Known c) (hl : pats.length = pieces.length)
    (hp : ∀ x ∈ pats.zip pieces, ReMatch x.1 x.2) : ReMatch (pack m pats) u.request := by
  obtain ⟨a1, a2⟩ := C45_analyze_url u h
  cases hq : parseQueryString u.query with
  | error e => rw [a1 e hq] at ha; cases ha
  | ok kv =>
    obtain ⟨keys, vals⟩ := kv
    rw [a2 keys vals hq] at ha
    injection ha with ha
    injection ha with hm hpc
    subst hm hpc
    obtain ⟨b1, b2, b3⟩ := query_parts hq
    have hsplit : ∃ P V F, pats = P ++ V ++ F ∧ P.length = u.pathPieces.length ∧ V.length = vals.length ∧ F.length = u.fragment.toList.length := by
      refine ⟨pats.take u.pathPieces.length, (pats.drop u.pathPieces.length).take vals.length,
        (pats.drop u.pathPieces.length).drop vals.length, ?_, ?_, ?_, ?_⟩
      · rw [List.append_assoc, List.take_append_drop, List.take_append_drop]
      · simp only [List.length_take, hl, List.length_append]; omega
      · simp only [List.length_take, List.length_drop, hl, List.length_append]; omega
      · simp only [List.length_drop, hl, List.length_append]; omega
    obtain ⟨P, V, F, rfl, hP, hV, hF⟩ := hsplit
    rw [List.zip_append (by simp [hP, hV]), List.zip_append hP] at hp
    have hz : ∃ zs : Option (Str × Str), zs.map (·.2) = u.fragment ∧ (zs.map (·.1)).toList = F ∧ ∀ z ∈ zs, z ∈ F.zip u.fragment.toList := by
      cases hf : u.fragment with
      | none =>
        rw [hf] at hF
        exact ⟨none, rfl, (List.eq_nil_of_length_eq_zero hF).symm, by simp⟩
      | some f =>
        rw [hf] at hF
        obtain ⟨t, rfl⟩ := List.length_eq_one_iff.mp hF
        exact ⟨some (t, f), rfl, rfl, by simp⟩
    obtain ⟨zs, z1, z2, z3⟩ := hz
    have e1 : (P.zip u.pathPieces).map (·.1) = P := List.map_fst_zip (by omega)
    have e2 : (P.zip u.pathPieces).map (·.2) = u.pathPieces := List.map_snd_zip (by omega)
    have e3 : (V.zip vals).map (·.1) = V := List.map_fst_zip (by omega)
    have e4 : (V.zip vals).map (·.2) = vals := List.map_snd_zip (by omega)
    have e5 : (keys.zip (V.zip vals)).map (·.1) = keys := List.map_fst_zip (by simp; omega)
    have e6 : (keys.zip (V.zip vals)).map (·.2) = V.zip vals := List.map_snd_zip (by simp; omega)
    have hkv : ∀ y ∈ keys.zip (V.zip vals), (y.1, y.2.2) ∈ keys.zip vals := by
      intro y hy
      have : (keys.zip (V.zip vals)).map (fun y => (y.1, y.2.2)) = keys.zip vals := by
        have : (keys.zip (V.zip vals)).map (fun y => (y.1, y.2.2)) = keys.zip ((V.zip vals).map (·.2)) := by
          rw [List.zip_map_right]
          rfl
        rw [this, e4]
      rw [← this]
      exact List.mem_map_of_mem (f := fun y : Str × Str × Str => (y.1, y.2.2)) hy
    have key := pack_pairs (xs := P.zip u.pathPieces) (ys := keys.zip (V.zip vals)) (zs := zs)
      (fun x hx => hp x (by simp [hx]))
      (by
        intro y hy c hc
        cases hqq : u.query with
        | none =>
          rw [b2.mpr hqq] at hy
          cases hy
        | some q =>
          refine hk q hqq c ?_
          rw [← b3 q hqq]
          exact join_mem (List.mem_map_of_mem (f := fun kv : Str × Str => kv.1 ++ kv.2) (hkv y hy)) (by simp [hc]))
      (by
        intro y hy
        refine hp y.2 ?_
        have := List.mem_map_of_mem (f := (·.2)) hy
        rw [e6] at this
        simp [this])
      (fun z hz => hp z (by simp [z3 z hz]))
    have f1 : (keys.zip (V.zip vals)).map (fun y => normalize y.1 ['=']) = keys.map (fun k => normalize k ['=']) := by
      have := congrArg (List.map (fun k => normalize k ['='])) e5
      rw [List.map_map] at this
      exact this
    have f2 : (keys.zip (V.zip vals)).map (·.2.1) = V := by
      have := congrArg (List.map (fun x : Str × Str => x.1)) e6
      rw [List.map_map, e3] at this
      exact this
    have f3 : (keys.zip (V.zip vals)).map (fun y => y.1 ++ y.2.2) = (keys.zip vals).map (fun kv => kv.1 ++ kv.2) := by
      conv => rhs; rw [← e4, List.zip_map_right, List.map_map]
      rfl
    rw [e1, f1, f2, f3, e2, z1, z2] at key
    have g1 : (P.zip u.pathPieces).length = u.pathPieces.length := by simp; omega
    have g2 : zs.isSome = u.fragment.isSome := by rw [← z1]; simp
    rw [g1, g2] at key
    have g3 : (if keys.zip (V.zip vals) = [] then [] else '?' :: join ['&'] ((keys.zip vals).map (fun kv => kv.1 ++ kv.2))) =
        optPart '?' u.query := by
      cases hqq : u.query with
      | none =>
        rw [b2.mpr hqq]
        rfl
      | some q =>
        rw [b3 q hqq, if_neg]
        · rfl
        · intro e
          rw [e] at e5
          have := b2.mp e5.symm
          rw [hqq] at this
          cases this
    rw [g3] at key
    unfold AbsUrl.request
    rw [pathText_join (by simp [AbsUrl.pathPieces])]
    exact key

end OsUrl
