import Verif.Proofs.Regex

/-! `normalize`: closed form over maximal runs. -/

namespace OsUrl
open Spec

theorem spaceD_alnum {c : Char} (h : isAlnumC c = true) : (spaceD c).isSign = false := by
  obtain ⟨s, h1, h2⟩ := isAlnumC_iff.mp h
  simp [spaceD, h1, h2]

theorem spaceD_sign {c : Char} (h : isAlnumC c = false) : spaceD c = .sign c := by
  unfold spaceD
  cases hs : space? c with
  | none => rfl
  | some s =>
    cases s with
    | sign d => simp [space_sign hs]
    | _ =>
      have := isAlnumC_iff.mpr ⟨_, hs, rfl⟩
      rw [h] at this; cases this

/-- The runs of a concatenation at a boundary between spaces. -/
theorem runsOf_append {a b : Str} (h : ∀ x ∈ a.getLast?, ∀ y ∈ b.head?, spaceD x ≠ spaceD y) :
    runsOf (a ++ b) = runsOf a ++ runsOf b := by
  induction a with
  | nil => rfl
  | cons c a ih =>
    have ih := ih (by
      intro x hx y hy
      apply h x _ y hy
      cases a with
      | nil => simp at hx
      | cons d a => rw [List.getLast?_cons_cons]; exact hx)
    simp only [List.cons_append, runsOf, ih]
    cases ha : runsOf a with
    | nil =>
      have : a = [] := by
        have := runsOf_concat a
        rw [ha] at this; simpa using this.symm
      subst this
      simp only [List.nil_append]
      cases hb : runsOf b with
      | nil => simp
      | cons r rest =>
        obtain ⟨sp, w⟩ := r
        have hne : spaceD c ≠ sp := by
          cases b with
          | nil => simp [runsOf] at hb
          | cons d b =>
            have h1 := h c (by simp) d (by simp)
            have h2 : sp = spaceD d := by
              simp only [runsOf] at hb
              split at hb
              · simp at hb; exact hb.1.1.symm
              · split at hb
                · rename_i hh; simp at hb; rw [← hb.1.1, hh]
                · simp at hb; exact hb.1.1.symm
            rw [h2]; exact h1
        simp [hne]
    | cons r rest =>
      obtain ⟨sp, w⟩ := r
      simp only [List.cons_append]
      split <;> simp

/-- How `normalize` writes a run. -/
def normText (res : Str) (r : Space × Str) : Str :=
  match r.2 with
  | [] => []
  | c :: _ => if isAlnumC c then r.2 else normSign res r.2

/-- Closed form of `normalize`. -/
def normRuns (res s : Str) : Str := ((runsOf s).map (normText res)).flatten

theorem normRuns_append {res a b : Str} (h : ∀ x ∈ a.getLast?, ∀ y ∈ b.head?, spaceD x ≠ spaceD y) :
    normRuns res (a ++ b) = normRuns res a ++ normRuns res b := by
  simp [normRuns, runsOf_append h]

theorem normRuns_alnum {res w : Str} (h : ∀ c ∈ w, isAlnumC c = true) : normRuns res w = w := by
  have key : ∀ r ∈ runsOf w, normText res r = r.2 := by
    intro r hr
    unfold normText
    split
    · rename_i e; exact e.symm
    · rename_i c t e
      have : c ∈ w := by
        rw [← runsOf_concat w]
        simp
        exact ⟨r.2, ⟨r.1, hr⟩, by simp [e]⟩
      rw [if_pos (h c this)]
  unfold normRuns
  conv => rhs; rw [← runsOf_concat w]
  congr 1
  exact List.map_congr_left key

theorem runsOf_replicate {w : Str} {c : Char} (hne : w ≠ []) (h : ∀ x ∈ w, x = c) :
    runsOf w = [(spaceD c, w)] := by
  induction w with
  | nil => exact absurd rfl hne
  | cons x w ih =>
    have hx := h x (by simp)
    subst hx
    by_cases hw : w = []
    · subst hw; rfl
    · simp [runsOf, ih hw (fun y hy => h y (by simp [hy]))]

theorem normRuns_sign {res w : Str} {c : Char} (hc : isAlnumC c = false) (h : ∀ x ∈ w, x = c) :
    normRuns res w = normSign res w := by
  by_cases hw : w = []
  · subst hw; rfl
  · unfold normRuns
    rw [runsOf_replicate hw h]
    cases w with
    | nil => exact absurd rfl hw
    | cons x w =>
      have hx := h x (by simp)
      subst hx
      simp [normText, hc]

/-- Loop invariant of `normalize`. -/
structure NormInv (res done : Str) (st : NormSt) : Prop where
  split : ∃ d1, done = d1 ++ st.frag ∧ st.out = normRuns res d1 ∧
    (∀ x ∈ d1.getLast?, ∀ y ∈ st.frag.head?, spaceD x ≠ spaceD y)
  last : st.last = done.getLast?
  frag : done ≠ [] → st.frag ≠ []
  kind : (∀ c ∈ st.frag, isAlnumC c = true) ∨ ∃ c, isAlnumC c = false ∧ ∀ x ∈ st.frag, x = c

theorem NormInv.last_mem {res done : Str} {st : NormSt} (h : NormInv res done st) {l : Char}
    (hl : st.last = some l) : l ∈ st.frag ∧ st.frag.getLast? = some l := by
  obtain ⟨d1, e, -, -⟩ := h.split
  have hd : done ≠ [] := by rintro rfl; rw [h.last] at hl; simp at hl
  have hf := h.frag hd
  rw [h.last, e, List.getLast?_append] at hl
  cases hg : st.frag.getLast? with
  | none => simp at hg; exact absurd hg hf
  | some x => simp [hg] at hl; subst hl; exact ⟨List.mem_of_getLast? hg, rfl⟩

theorem NormInv.flush {res done : Str} {st : NormSt} (h : NormInv res done st) :
    st.out ++ normRuns res st.frag = normRuns res done := by
  obtain ⟨d1, e, e2, hb⟩ := h.split
  rw [e, normRuns_append hb, e2]

/-- Starting a new fragment. -/
theorem NormInv.fresh {res done : Str} {c : Char}
    (hb : ∀ x ∈ done.getLast?, spaceD x ≠ spaceD c) :
    NormInv res (done ++ [c]) ⟨normRuns res done, [c], some c⟩ := by
  refine ⟨⟨done, rfl, rfl, ?_⟩, by simp, by simp, ?_⟩
  · intro x hx y hy; simp at hy; subst hy; exact hb x hx
  · cases hc : isAlnumC c with
    | true => left; simpa using hc
    | false => right; exact ⟨c, hc, by simp⟩

theorem NormInv.push {res done : Str} {st : NormSt} {c : Char} (h : NormInv res done st)
    (hk : (∀ x ∈ st.frag ++ [c], isAlnumC x = true) ∨ ∃ d, isAlnumC d = false ∧ ∀ x ∈ st.frag ++ [c], x = d)
    (hne : st.frag = [] → done = []) :
    NormInv res (done ++ [c]) { st with frag := st.frag ++ [c], last := some c } := by
  obtain ⟨d1, e, e2, hb⟩ := h.split
  refine ⟨⟨d1, by simp [e], e2, ?_⟩, by simp, by simp, hk⟩
  intro x hx y hy
  simp only at hy
  cases hf : st.frag with
  | nil =>
    have := hne hf
    rw [this, hf] at e
    simp at e
    subst e; simp at hx
  | cons z zs =>
    rw [hf] at hy
    exact hb x hx y (by simpa [hf] using hy)

theorem alnum_sign_ne {a b : Char} (ha : isAlnumC a = true) (hb : isAlnumC b = false) : spaceD a ≠ spaceD b := by
  intro h
  have h1 := spaceD_alnum ha
  rw [h, spaceD_sign hb] at h1
  simp [Space.isSign] at h1

theorem normStep_inv {res done : Str} {st : NormSt} {c : Char} (h : NormInv res done st) :
    NormInv res (done ++ [c]) (normStep res st c) := by
  unfold normStep
  have hnil : st.frag = [] → done = [] := by
    intro hf
    rcases Classical.em (done = []) with hd | hd
    · exact hd
    · exact absurd hf (h.frag hd)
  cases hc : isAlnumC c with
  | true =>
    simp only [if_true]
    cases hl : st.last with
    | none =>
      simp only
      apply h.push _ hnil
      left
      have : done = [] := by rw [h.last] at hl; simpa using hl
      obtain ⟨d1, e, -, -⟩ := h.split
      rw [this] at e; simp at e
      simp [e.2, hc]
    | some l =>
      simp only
      obtain ⟨hm, hg⟩ := h.last_mem hl
      cases hal : isAlnumC l with
      | true =>
        simp only [if_true]
        have := h.push (c := c) (by
          left
          rcases h.kind with hk | ⟨d, hd, hk⟩
          · intro x hx; simp at hx; rcases hx with hx | rfl
            · exact hk x hx
            · exact hc
          · rw [hk l hm] at hal; rw [hd] at hal; cases hal) hnil
        exact this
      | false =>
        simp only [Bool.false_eq_true, if_false, List.nil_append]
        have hs : ∀ x ∈ st.frag, x = l := by
          rcases h.kind with hk | ⟨d, hd, hk⟩
          · rw [hk l hm] at hal; cases hal
          · intro x hx; rw [hk x hx, hk l hm]
        have e := h.flush
        rw [normRuns_sign hal hs] at e
        rw [e]
        apply NormInv.fresh
        intro x hx
        rw [← h.last, hl] at hx
        simp at hx; subst hx
        exact (alnum_sign_ne hc hal).symm
  | false =>
    simp only [Bool.false_eq_true, if_false]
    by_cases hl : st.last = some c
    · simp only [hl, ne_eq, not_true_eq_false, if_false]
      obtain ⟨hm, -⟩ := h.last_mem hl
      have := h.push (c := c) (by
        right
        refine ⟨c, hc, ?_⟩
        rcases h.kind with hk | ⟨d, hd, hk⟩
        · have := hk c hm; rw [hc] at this; cases this
        · intro x hx; simp at hx; rcases hx with hx | rfl
          · rw [hk x hx, hk c hm]
          · rfl) hnil
      exact this
    · simp only [ne_eq, hl, not_false_eq_true, if_true]
      cases hf : st.frag with
      | nil =>
        simp only
        have hd := hnil hf
        have := h.push (c := c) (by right; exact ⟨c, hc, by simp [hf]⟩) hnil
        simpa [hf] using this
      | cons w0 ws =>
        simp only
        have e := h.flush
        have hw0 : w0 ∈ st.frag := by simp [hf]
        have e2 : (if isAlnumC w0 = true then w0 :: ws else normSign res (w0 :: ws)) = normRuns res st.frag := by
          rcases h.kind with hk | ⟨d, hd, hk⟩
          · rw [if_pos (hk w0 hw0), normRuns_alnum hk, hf]
          · have : isAlnumC w0 = false := by rw [hk w0 hw0]; exact hd
            rw [normRuns_sign hd hk, this, hf]
            simp
        rw [e2, e]
        simp only [List.nil_append]
        apply NormInv.fresh
        intro x hx
        rw [← h.last] at hx
        have hxc : x ≠ c := by rintro rfl; exact hl hx
        cases hax : isAlnumC x with
        | true => exact alnum_sign_ne hax hc
        | false =>
          rw [spaceD_sign hax, spaceD_sign hc]
          simpa using hxc

theorem normFold_inv {res s done : Str} {st : NormSt} (h : NormInv res done st) :
    NormInv res (done ++ s) (s.foldl (normStep res) st) := by
  induction s generalizing done st with
  | nil => simpa using h
  | cons c s ih =>
    have := ih (normStep_inv (c := c) h)
    simpa using this

/-- Closed form of `normalize`. -/
theorem normalize_eq (s res : Str) : normalize s res = normRuns res s := by
  have h0 : NormInv res [] ⟨[], [], none⟩ := by
    refine ⟨⟨[], rfl, rfl, by simp⟩, rfl, by simp, by simp⟩
  have h := normFold_inv (s := s) h0
  simp only [List.nil_append] at h
  unfold normalize
  simp only
  generalize s.foldl (normStep res) ⟨[], [], none⟩ = st at *
  cases hl : st.last with
  | none =>
    have : s = [] := by rw [h.last] at hl; simpa using hl
    obtain ⟨d1, e, e2, -⟩ := h.split
    rw [this] at e; simp at e
    simp only [this, e2, e.1, e.2]; rfl
  | some l =>
    simp only
    obtain ⟨hm, -⟩ := h.last_mem hl
    rw [← h.flush]
    congr 1
    rcases h.kind with hk | ⟨d, hd, hk⟩
    · rw [if_pos (hk l hm), normRuns_alnum hk]
    · have : isAlnumC l = false := by rw [hk l hm]; exact hd
      rw [normRuns_sign hd hk, this]; simp

/-- On known characters. -/
theorem normText_known {res : Str} {r : Space × Str} (hne : r.2 ≠ []) (hs : ∀ c ∈ r.2, space? c = some r.1) :
    normText res r = match r.1 with
      | .sign c => if c ∈ res then r.2 else runText r
      | _ => r.2 := by
  obtain ⟨sp, w⟩ := r
  simp only at hne hs ⊢
  cases w with
  | nil => exact absurd rfl hne
  | cons c w =>
    have hc := hs c (by simp)
    simp only [normText]
    cases sp with
    | sign d =>
      have := space_sign hc
      subst this
      have hal : isAlnumC c = false := by
        cases ha : isAlnumC c with
        | false => rfl
        | true =>
          obtain ⟨s, h1, h2⟩ := isAlnumC_iff.mp ha
          rw [hc] at h1; simp at h1; subst h1; simp [Space.isSign] at h2
      simp only [hal, Bool.false_eq_true, if_false, normSign, hasChar_eq, decide_eq_true_eq]
      split
      · rfl
      · have : charRuleText c = (Space.sign c).text := by
          simp [charRuleText, charRule_eq, hc]
        rw [this]
        exact specStr_runText (by simp) rfl
    | lower => rw [if_pos (isAlnumC_iff.mpr ⟨_, hc, rfl⟩)]
    | upper => rw [if_pos (isAlnumC_iff.mpr ⟨_, hc, rfl⟩)]
    | digit => rw [if_pos (isAlnumC_iff.mpr ⟨_, hc, rfl⟩)]

/-! ### normalised text as a regular expression -/

/-- The text `u` is a regular expression for exactly `w`, and cannot be taken for a quantifier. -/
def Exact (u w : Str) : Prop :=
  (∃ is, ReadsAs u is ∧ ∀ t, ItemsMatch is t ↔ t = w) ∧ ∀ r, NoQuant r → NoQuant (u ++ r)

theorem Exact.nil : Exact [] [] :=
  ⟨⟨[], ReadsAs.nil, fun _ => itemsMatch_nil⟩, fun _ h => h⟩

theorem Exact.append {u v w x : Str} (h1 : Exact u w) (h2 : Exact v x) : Exact (u ++ v) (w ++ x) := by
  obtain ⟨⟨is, a1, a2⟩, a3⟩ := h1
  obtain ⟨⟨js, b1, b2⟩, b3⟩ := h2
  refine ⟨⟨is ++ js, a1.append b1 b3, ?_⟩, ?_⟩
  · intro t
    rw [itemsMatch_append]
    constructor
    · rintro ⟨a, b, rfl, h1, h2⟩
      rw [(a2 a).mp h1, (b2 b).mp h2]
    · rintro rfl
      exact ⟨w, x, rfl, (a2 w).mpr rfl, (b2 x).mpr rfl⟩
  · intro r hr
    rw [List.append_assoc]
    exact a3 _ (b3 r hr)

theorem Exact.flatten {l : List (Str × Str)} (h : ∀ p ∈ l, Exact p.1 p.2) :
    Exact (l.map (·.1)).flatten (l.map (·.2)).flatten := by
  induction l with
  | nil => exact Exact.nil
  | cons p l ih =>
    simp only [List.map_cons, List.flatten_cons]
    exact (h p (by simp)).append (ih (fun q hq => h q (by simp [hq])))

theorem Exact.plain {w : Str} (h : ∀ c ∈ w, c ∉ special) : Exact w w := by
  refine ⟨⟨_, readsAs_plain h, fun t => itemsMatch_plain⟩, ?_⟩
  intro r hr
  cases w with
  | nil => exact hr
  | cons c w =>
    have hd := h c (by simp)
    have h1 : c ≠ '{' := by rintro rfl; exact hd (by decide)
    have h2 : c ≠ '+' := by rintro rfl; exact hd (by decide)
    simp [NoQuant, h1, h2]

theorem Exact.sign {c : Char} {w : Str} (hw : w ≠ []) (hs : ∀ x ∈ w, space? x = some (.sign c)) :
    Exact (runText (.sign c, w)) w := by
  have hv : (Space.sign c).Valid := by
    cases w with
    | nil => exact absurd rfl hw
    | cons x w => exact space_valid (hs x (by simp))
  have hn : ((w.length : Nat) : Int) ≠ 0 := by
    have := List.length_pos_iff.mpr hw; omega
  obtain ⟨q, e, hq⟩ := QText.spec hn (Space.sign c).text
  have e' := specStr_runText hw (sp := .sign c) rfl
  rw [e] at e'
  rw [← e']
  rw [if_neg (by omega)] at hq
  have hr := readsAs_class (sps := [.sign c]) (by simp) (by simpa using hv) hq (spec_ascii e)
  simp only [List.map_cons, List.map_nil, List.flatten_cons, List.flatten_nil, List.append_nil] at hr
  refine ⟨⟨_, hr, ?_⟩, ?_⟩
  · intro t
    rw [itemsMatch_single]
    unfold Item.Match
    have hcls : ∀ x, Class.has [(Space.sign c).range] x ↔ x = c := by
      intro x
      have := class_has (sps := [.sign c]) (by simpa using hv) x
      simp only [List.map_cons, List.map_nil] at this
      rw [this]
      simp only [List.mem_singleton, exists_eq_left]
      constructor
      · intro h; exact space_sign h
      · rintro rfl; exact signs_space hv
    have hq' : quantOf (w.length : Int) = .times w.length := by
      unfold quantOf; rw [if_neg (by omega)]; simp
    simp only [hcls, hq']
    have hw' : w = List.replicate w.length c := List.eq_replicate_iff.mpr ⟨rfl, fun x hx => space_sign (hs x hx)⟩
    constructor
    · rintro ⟨h1, h2⟩
      rw [hw']
      exact List.eq_replicate_iff.mpr ⟨h2, h1⟩
    · rintro rfl
      exact ⟨fun x hx => space_sign (hs x hx), rfl⟩
  · intro r _
    simp [NoQuant]

theorem normText_exact {res : Str} (hres : ∀ c ∈ res, c ∉ special) {r : Space × Str} (hne : r.2 ≠ [])
    (hs : ∀ c ∈ r.2, space? c = some r.1) : Exact (normText res r) r.2 := by
  rw [normText_known hne hs]
  obtain ⟨sp, w⟩ := r
  simp only at hne hs ⊢
  cases sp with
  | sign c =>
    simp only
    split
    · rename_i h
      apply Exact.plain
      intro x hx
      rw [space_sign (hs x hx)]
      exact hres c h
    · exact Exact.sign hne hs
  | _ => exact Exact.plain (fun x hx => word_not_special (hs x hx) rfl)

theorem normalize_exact {s res : Str} (hres : ∀ c ∈ res, c ∉ special) (h : ∀ c ∈ s, Known c) :
    Exact (normalize s res) s := by
  rw [normalize_eq]
  have hr := runsOf_spec h
  have := Exact.flatten (l := (runsOf s).map (fun r => (normText res r, r.2))) (by
    intro p hp
    rw [List.mem_map] at hp
    obtain ⟨r, hr', rfl⟩ := hp
    exact normText_exact hres (hr.nonempty r hr') (hr.space r hr'))
  simp only [List.map_map, Function.comp_def] at this
  rw [runsOf_concat] at this
  exact this

end OsUrl
