import Verif.Proofs.FlatTop

/-! Rows of single parts: when a family is clustered again, its patterns stay or become narrower. -/

namespace OsUrl
open Spec

/-- How wide the text is for the part: the part itself, a fixed length, any length. -/
def rk (a : Str) (q : ParsedPiece) : Nat :=
  if a = q.piece then 0 else if a = specStr q.fuzzyRule (lenOf q) then 1 else 2

theorem rk_le (a : Str) (q : ParsedPiece) : rk a q ≤ 2 := by
  unfold rk; split
  · omega
  · split <;> omega

def rowRk (x : Ins) : Nat → List Str → Nat
  | _, [] => 0
  | j, a :: as => rk a (x.pp j) + rowRk x (j + 1) as

theorem rowRk_le (x : Ins) : ∀ (as : List Str) (j : Nat), rowRk x j as ≤ 2 * as.length := by
  intro as
  induction as with
  | nil => intro j; simp [rowRk]
  | cons a as ih =>
    intro j
    rw [rowRk, List.length_cons]
    have := ih (j + 1)
    have := rk_le a (x.pp j)
    omega

/-- One level: the pieces of a family keep their common text, or all get a narrower one. -/
theorem flat_drop {mcn : Int} (hm : 2 ≤ mcn) {kw : Bool} {n j : Nat} {r : Str} {E Ef : List Ent} (hE : EntOK r E) (hf : EntOK r Ef)
    (hsub : ∀ e ∈ Ef, ∃ e' ∈ E, e'.1 = e.1) {T : Str} (hsame : ∀ e ∈ Ef, flatF mcn kw n j E e.1 = T) :
    (∀ e ∈ Ef, flatF mcn kw n j Ef e.1 = T) ∨ ∀ e ∈ Ef, rk (flatF mcn kw n j Ef e.1) e.1 < rk T e.1 := by
  by_cases hr0 : r = []
  · have hone : ∀ e ∈ Ef, e.1 = single [] [] := fun e he =>
      ((hf.part e he).1.len.resolve_right (fun h => h.1 ((hf.part e he).2.trans hr0))).2
    left
    intro e he
    have h1 : flatF mcn kw n j Ef e.1 = e.1.piece := by
      rcases flat_cases hm (kw := kw) (n := n) (j := j) hf he with h | ⟨-, ⟨a, ha, b, hb, -, -, hne⟩, -⟩ | ⟨-, ⟨a, ha, b, hb, hne⟩, -⟩
      · exact h
      · exact absurd (by rw [hone a ha, hone b hb]) hne
      · exact absurd (by rw [hone a ha, hone b hb]) hne
    obtain ⟨e', he', ee⟩ := hsub e he
    have honeE : ∀ e ∈ E, e.1 = single [] [] := fun e he =>
      ((hE.part e he).1.len.resolve_right (fun h => h.1 ((hE.part e he).2.trans hr0))).2
    have h2 : flatF mcn kw n j E e'.1 = e'.1.piece := by
      rcases flat_cases hm (kw := kw) (n := n) (j := j) hE he' with h | ⟨-, ⟨a, ha, b, hb, -, -, hne⟩, -⟩ | ⟨-, ⟨a, ha, b, hb, hne⟩, -⟩
      · exact h
      · exact absurd (by rw [honeE a ha, honeE b hb]) hne
      · exact absurd (by rw [honeE a ha, honeE b hb]) hne
    rw [h1, ← hsame e he, ← ee, h2]
  have lenE : ∀ e ∈ Ef, 1 ≤ lenOf e.1 := fun e he =>
    (((hf.part e he).1).len.resolve_left (fun h => hr0 ((hf.part e he).2.symm.trans h.1))).2.2
  have casesE : ∀ e ∈ Ef, T = e.1.piece ∨ (T = specStr r (lenOf e.1) ∧ ¬ SignRule r) ∨ T = specStr r (-1) := by
    intro e he
    obtain ⟨e', he', hee⟩ := hsub e he
    have := flat_cases hm (kw := kw) (n := n) (j := j) hE he'
    rw [hee, hsame e he] at this
    rcases this with h | ⟨h, -, h2, -⟩ | ⟨h, -, -⟩
    · exact .inl h
    · exact .inr (.inl ⟨h, h2⟩)
    · exact .inr (.inr h)
  -- which texts can be equal
  have lit_len : ∀ e ∈ Ef, ∀ l : Int, 1 ≤ l → ¬ SignRule r → e.1.piece ≠ specStr r l := by
    intro e he l hl hs h
    obtain ⟨hep, her⟩ := hf.part e he
    have := (part_class hep (by rw [her]; exact hr0) (n := l) (.inl hl) (by rw [her]; exact h)).1
    rw [her] at this
    exact hs this
  have lit_any : ∀ e ∈ Ef, e.1.piece ≠ specStr r (-1) := by
    intro e he h
    obtain ⟨hep, her⟩ := hf.part e he
    have := (part_class hep (by rw [her]; exact hr0) (n := -1) (.inr rfl) (by rw [her]; exact h)).2
    omega
  have len_any : ∀ l : Int, 1 ≤ l → specStr r l ≠ specStr r (-1) := by
    intro l hl h
    have := specStr_inj (.inl hl) (.inr rfl) h
    omega
  by_cases hex : ∃ e ∈ Ef, flatF mcn kw n j Ef e.1 = T
  · left
    obtain ⟨e0, he0, h0⟩ := hex
    intro e he
    rcases flat_cases hm (kw := kw) (n := n) (j := j) hf he0 with h | ⟨h, -, hns, hall⟩ | ⟨h, -, hall⟩
    · -- the common text is a part
      have hT : T = e0.1.piece := h0.symm.trans h
      have hall : ∀ a ∈ Ef, T = a.1.piece := by
        intro a ha
        rcases casesE a ha with h1 | ⟨h1, h2⟩ | h1
        · exact h1
        · exact absurd (hT.symm.trans h1) (lit_len e0 he0 _ (lenE a ha) h2)
        · exact absurd (hT.symm.trans h1) (lit_any e0 he0)
      have : e.1 = e0.1 := by
        rw [(hf.part e he).1.eq, (hf.part e0 he0).1.eq, (hf.part e he).2, (hf.part e0 he0).2, ← hall e he, ← hT]
      rw [this, h0]
    · have hT : T = specStr r (lenOf e0.1) := h0.symm.trans h
      have hl : lenOf e.1 = lenOf e0.1 := by
        rcases casesE e he with h1 | ⟨h1, -⟩ | h1
        · exact absurd (h1.symm.trans hT) (lit_len e he _ (lenE e0 he0) hns)
        · exact specStr_inj (.inl (lenE e he)) (.inl (lenE e0 he0)) (h1.symm.trans hT)
        · exact absurd (hT.symm.trans h1) (len_any _ (lenE e0 he0))
      rw [hall e.1 (hf.part e he).2 hl, hT]
    · rw [hall e.1 (hf.part e he).2, ← h0, h]
  · right
    have hno : ∀ e ∈ Ef, flatF mcn kw n j Ef e.1 ≠ T := fun e he h => hex ⟨e, he, h⟩
    intro e he
    have her := (hf.part e he).2
    rcases flat_cases hm (kw := kw) (n := n) (j := j) hf he with h | ⟨h, ⟨a, ha, b, hb, la, lb, hne⟩, hns, hall⟩ | ⟨h, ⟨a, ha, b, hb, hl⟩, hall⟩
    · have h1 : rk (flatF mcn kw n j Ef e.1) e.1 = 0 := by unfold rk; rw [if_pos h]
      have h2 : T ≠ e.1.piece := fun h2 => hno e he (h.trans h2.symm)
      rw [h1]
      unfold rk
      rw [if_neg h2]
      split <;> omega
    · have h2 : T ≠ e.1.piece := by
        intro hT
        have : ∀ c ∈ Ef, T = c.1.piece := by
          intro c hc
          rcases casesE c hc with h1 | ⟨h1, h2⟩ | h1
          · exact h1
          · exact absurd (hT.symm.trans h1) (lit_len e he _ (lenE c hc) h2)
          · exact absurd (hT.symm.trans h1) (lit_any e he)
        exact hne ((this a ha).symm.trans (this b hb))
      have h3 : T ≠ specStr e.1.fuzzyRule (lenOf e.1) := by rw [her, ← h]; exact fun h3 => hno e he h3.symm
      have h4 : rk T e.1 = 2 := by unfold rk; rw [if_neg h2, if_neg h3]
      rw [h4]
      unfold rk
      split
      · omega
      · rw [her, if_pos h]; omega
    · exfalso
      -- two lengths: the common text was that of any length
      rcases casesE a ha with h1 | ⟨h1, hns⟩ | h1
      · rcases casesE b hb with h2 | ⟨h2, h3⟩ | h2
        · apply hl
          rw [(hf.part a ha).1.eq, (hf.part b hb).1.eq, (hf.part a ha).2, (hf.part b hb).2, ← h1, ← h2]
        · exact lit_len a ha _ (lenE b hb) h3 (h1.symm.trans h2)
        · exact lit_any a ha (h1.symm.trans h2)
      · rcases casesE b hb with h2 | ⟨h2, h3⟩ | h2
        · exact lit_len b hb _ (lenE a ha) hns (h2.symm.trans h1)
        · exact hl (specStr_inj (.inl (lenE a ha)) (.inl (lenE b hb)) (h1.symm.trans h2))
        · exact len_any _ (lenE a ha) (h1.symm.trans h2)
      · exact hno e he (h.trans h1.symm)

theorem lab_drop {mcn : Int} (hm : 2 ≤ mcn) {kw : Bool} {n N j : Nat} {S Q : List Ins} (hS : FlatRows n S) (hj : j < n)
    (hQ : ∀ x ∈ Q, x ∈ S) {T : Str} (hT : ∀ x ∈ Q, lab (flatF mcn kw N) j S x = T) :
    (∀ x ∈ Q, lab (flatF mcn kw N) j Q x = T) ∨ ∀ x ∈ Q, rk (lab (flatF mcn kw N) j Q x) (x.pp j) < rk T (x.pp j) := by
  have hQS := hS.sub hQ
  cases hq : Q with
  | nil => left; simp
  | cons x0 Q0 =>
  rw [← hq]
  have hx0 : x0 ∈ Q := by rw [hq]; simp
  rcases hS.part j hj with hp | hb
  · have h1 := hS.ent hj hp (hQ x0 hx0)
    have h2 := hQS.ent hj (fun x hx => hp x (hQ x hx)) hx0
    have hrow : ∀ e ∈ ent j Q, ∃ x ∈ Q, x.pp j = e.1 := by
      rintro ⟨p, c⟩ he
      obtain ⟨z, hz, e⟩ := List.mem_map.mp (mem_ent.mp he).1
      exact ⟨z, hz, e⟩
    have := flat_drop hm (kw := kw) (n := N) (j := j) (T := T) h1 h2 (by
      intro e he
      obtain ⟨x, hx, hxe⟩ := hrow e he
      obtain ⟨c, hc⟩ := ent_of_row (j := j) (hQ x hx)
      exact ⟨(x.pp j, c), hc, hxe⟩) (by
      intro e he
      obtain ⟨x, hx, hxe⟩ := hrow e he
      have := hT x hx
      unfold lab at this
      rw [hxe] at this; exact this)
    rcases this with h | h
    · left; intro x hx
      obtain ⟨c, hc⟩ := ent_of_row (j := j) hx
      unfold lab
      exact h (x.pp j, c) hc
    · right; intro x hx
      obtain ⟨c, hc⟩ := ent_of_row (j := j) hx
      unfold lab
      exact h (x.pp j, c) hc
  · left
    intro x hx
    rw [← hT x hx, lab_blank hm hS.pos hb (hQ x hx), lab_blank hm hQS.pos (fun x hx => hb x (hQ x hx)) hx]

/-- All levels. -/
theorem labs_drop {mcn : Int} (hm : 2 ≤ mcn) {kw : Bool} {n N : Nat} : ∀ {k j : Nat} {S Q : List Ins}, FlatRows n S → j + k ≤ n →
    (∀ x ∈ Q, x ∈ S) → ∀ {Ts : List Str}, (∀ x ∈ Q, labs (flatF mcn kw N) k j S x = Ts) →
    (∀ x ∈ Q, labs (flatF mcn kw N) k j Q x = Ts) ∨
      ∀ x ∈ Q, rowRk x j (labs (flatF mcn kw N) k j Q x) < rowRk x j Ts := by
  intro k
  induction k with
  | zero =>
    intro j S Q _ _ _ Ts hT
    left
    intro x hx
    exact hT x hx
  | succ k ih =>
    intro j S Q hS hj hQ Ts hT
    cases hq : Q with
    | nil => left; simp
    | cons x0 Q0 =>
    rw [← hq]
    have hx0 : x0 ∈ Q := by rw [hq]; simp
    obtain ⟨T, Ts', rfl⟩ : ∃ T Ts', Ts = T :: Ts' := by
      have := hT x0 hx0
      rw [labs] at this
      exact ⟨_, _, this.symm⟩
    have hhead : ∀ x ∈ Q, lab (flatF mcn kw N) j S x = T := fun x hx => (List.cons.inj (hT x hx)).1
    have htail : ∀ x ∈ Q, labs (flatF mcn kw N) k (j + 1) (nxt (flatF mcn kw N) j S x) x = Ts' := fun x hx => (List.cons.inj (hT x hx)).2
    have hnx : ∀ x ∈ Q, nxt (flatF mcn kw N) j S x = nxt (flatF mcn kw N) j S x0 := by
      intro x hx; unfold nxt; rw [hhead x hx, hhead x0 hx0]
    have hS' : FlatRows n (nxt (flatF mcn kw N) j S x0) := hS.sub (fun z hz => (List.mem_filter.mp hz).1)
    have hQ' : ∀ x ∈ Q, x ∈ nxt (flatF mcn kw N) j S x0 := fun x hx =>
      List.mem_filter.mpr ⟨hQ x hx, by rw [hhead x hx, hhead x0 hx0]; simp⟩
    have hT' : ∀ x ∈ Q, labs (flatF mcn kw N) k (j + 1) (nxt (flatF mcn kw N) j S x0) x = Ts' := fun x hx => by
      rw [← hnx x hx]; exact htail x hx
    rcases lab_drop hm (N := N) hS (by omega) hQ hhead with hk | hd
    · have hnq : ∀ x ∈ Q, nxt (flatF mcn kw N) j Q x = Q := fun x hx =>
        nxt_all (fun c hc => by rw [hk c hc, hk x hx])
      rcases ih (j := j + 1) hS' (by omega) hQ' hT' with h | h
      · left; intro x hx; rw [labs, hk x hx, hnq x hx, h x hx]
      · right; intro x hx
        rw [labs, hk x hx, hnq x hx, rowRk, rowRk]
        have := h x hx
        omega
    · right
      intro x hx
      rw [labs, rowRk, rowRk]
      have h1 := hd x hx
      have hsub : ∀ z ∈ nxt (flatF mcn kw N) j Q x, z ∈ Q := fun z hz => (List.mem_filter.mp hz).1
      have hxin : x ∈ nxt (flatF mcn kw N) j Q x := List.mem_filter.mpr ⟨hx, by simp⟩
      have h2 : rowRk x (j + 1) (labs (flatF mcn kw N) k (j + 1) (nxt (flatF mcn kw N) j Q x) x) ≤ rowRk x (j + 1) Ts' := by
        rcases ih (j := j + 1) hS' (by omega) (fun z hz => hQ' z (hsub z hz)) (fun z hz => hT' z (hsub z hz)) with h | h
        · rw [h x hxin]; omega
        · have := h x hxin; omega
      omega

end OsUrl
