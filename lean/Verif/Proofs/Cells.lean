import Verif.Proofs.Top2

/-! The text of a pattern determines its cells: runs written out and classes. -/

namespace OsUrl
open Spec

/-- A cell of a pattern: the rules and the text. -/
abbrev Cell := Str × Str

/-- The text of a list of cells. -/
def cellText (cs : List Cell) : Str := (cs.map (·.2)).flatten

@[simp] theorem cellText_nil : cellText [] = [] := rfl
@[simp] theorem cellText_cons (c : Cell) (cs : List Cell) : cellText (c :: cs) = c.2 ++ cellText cs := by simp [cellText]
theorem cellText_append (cs ds : List Cell) : cellText (cs ++ ds) = cellText cs ++ cellText ds := by simp [cellText]

/-- The part of a group of runs. -/
def gpart (g : List (Space × Str)) : ParsedPiece := single (gpair g).1 (gpair g).2

/-- The rule of a single sign. -/
def SignRule (r : Str) : Prop := ∃ sp : Space, sp.isSign = true ∧ sp.Valid ∧ r = sp.text

/-- A list of cells that covers a list of runs: a cell is a run written out or a class for several runs. -/
inductive Cover : List (Space × Str) → List Cell → Prop where
  | nil : Cover [] []
  | lit (r : Space × Str) {rs cs} (h : Cover rs cs) : Cover (r :: rs) ((r.1.text, runText r) :: cs)
  | cls (g : List (Space × Str)) (n : Int) {rs cs} (hg : g ≠ []) (hn : (n = lenOf (gpart g) ∧ ¬ SignRule (gpair g).2) ∨ n = -1) (h : Cover rs cs) :
      Cover (g ++ rs) (((gpair g).2, specStr (gpair g).2 n) :: cs)

/-- A list of cells that can be read from its text. -/
inductive Good : List Cell → Prop where
  | nil : Good []
  | plain (sp : Space) (u : Str) {cs} (hs : sp.isSign = false) (hne : u ≠ []) (hu : ∀ c ∈ u, space? c = some sp)
      (hh : ∀ c ∈ (cellText cs).head?, space? c ≠ some sp) (h : Good cs) : Good ((sp.text, u) :: cs)
  | bra (rs : List Str) (q : Str) (n : Int) {cs} (hr : ∀ r ∈ rs, r ∈ ruleSet) (hq : QText q n)
      (hh : ∀ c ∈ (cellText cs).head?, c ≠ '{' ∧ c ≠ '+') (h : Good cs) :
      Good ((rs.flatten, '[' :: rs.flatten ++ ']' :: q) :: cs)

/-! ### Reading the pieces of a text -/

theorem rule_step {r : Str} (h : r ∈ ruleSet) : ∃ c w, r = c :: w ∧
    r.length = (if isAlnumC c then 3 else if c = '\\' then 2 else 1) ∧ c ≠ ']' := by
  obtain ⟨s, hv, hs⟩ := mem_ruleSet.mp h
  obtain ⟨c, w, hcw, hlen⟩ := text_step hv
  rw [hs] at hcw hlen
  refine ⟨c, w, hcw, hlen, ?_⟩
  rintro rfl
  have : ∀ r ∈ ruleSet, r.head? ≠ some ']' := by decide
  exact this r h (by rw [hcw]; rfl)

theorem rules_cut {rs rs' : List Str} {t t' : Str} (h : ∀ r ∈ rs, r ∈ ruleSet) (h' : ∀ r ∈ rs', r ∈ ruleSet)
    (e : rs.flatten ++ ']' :: t = rs'.flatten ++ ']' :: t') : rs = rs' ∧ t = t' := by
  induction rs generalizing rs' with
  | nil =>
    cases rs' with
    | nil => simpa using e
    | cons r' rs' =>
      obtain ⟨c, w, hcw, -, hc⟩ := rule_step (h' r' (by simp))
      rw [hcw] at e
      simp at e
      exact absurd e.1.symm hc
  | cons r rs ih =>
    obtain ⟨c, w, hcw, hl, hc⟩ := rule_step (h r (by simp))
    cases rs' with
    | nil =>
      rw [hcw] at e
      simp at e
      exact absurd e.1 hc
    | cons r' rs' =>
      obtain ⟨c', w', hcw', hl', hc'⟩ := rule_step (h' r' (by simp))
      have ec : c = c' := by
        rw [hcw, hcw'] at e
        simp at e
        exact e.1
      subst ec
      have el : r.length = r'.length := hl.trans hl'.symm
      rw [List.flatten_cons, List.flatten_cons, List.append_assoc, List.append_assoc] at e
      obtain ⟨e1, e2⟩ := List.append_inj e el
      obtain ⟨i1, i2⟩ := ih (fun x hx => h x (by simp [hx])) (fun x hx => h' x (by simp [hx])) e2
      exact ⟨by rw [e1, i1], i2⟩

theorem digits_cut {ds ds' t t' : Str} (h : ∀ c ∈ ds, isUniDigitC c = true) (h' : ∀ c ∈ ds', isUniDigitC c = true)
    (e : ds ++ '}' :: t = ds' ++ '}' :: t') : ds = ds' ∧ t = t' := by
  induction ds generalizing ds' with
  | nil =>
    cases ds' with
    | nil => simpa using e
    | cons d ds' =>
      simp at e
      exact absurd (h' d (by simp)) (by rw [← e.1]; decide +kernel)
  | cons d ds ih =>
    cases ds' with
    | nil =>
      simp at e
      exact absurd (h d (by simp)) (by rw [e.1]; decide +kernel)
    | cons d' ds' =>
      simp only [List.cons_append, List.cons.injEq] at e
      obtain ⟨i1, i2⟩ := ih (fun x hx => h x (by simp [hx])) (fun x hx => h' x (by simp [hx])) e.2
      exact ⟨by rw [e.1, i1], i2⟩

theorem quant_cut {q q' t t' : Str} {n n' : Int} (h : QText q n) (h' : QText q' n')
    (ht : ∀ c ∈ t.head?, c ≠ '{' ∧ c ≠ '+') (ht' : ∀ c ∈ t'.head?, c ≠ '{' ∧ c ≠ '+') (e : q ++ t = q' ++ t') :
    q = q' ∧ t = t' := by
  cases h with
  | one =>
    cases h' with
    | one => simpa using e
    | plus => subst e; exact absurd rfl (ht '+' (by simp)).2
    | braces ds _ => subst e; exact absurd rfl (ht '{' (by simp)).1
  | plus =>
    cases h' with
    | one => exact absurd rfl (ht' '+' (by rw [List.nil_append] at e; rw [← e]; simp)).2
    | plus => simpa using e
    | braces ds _ => simp at e
  | braces ds hd =>
    cases h' with
    | one => exact absurd rfl (ht' '{' (by rw [List.nil_append] at e; rw [← e]; simp)).1
    | plus => simp at e
    | braces ds' hd' =>
      have e' : ds ++ '}' :: t = ds' ++ '}' :: t' := by simpa using e
      obtain ⟨e1, e2⟩ := digits_cut (isDigitStr_iff.mp (decimal_isDigitStr hd)).2 (isDigitStr_iff.mp (decimal_isDigitStr hd')).2 e'
      exact ⟨by rw [e1], e2⟩

theorem plain_cut {u u' t t' : Str} {sp : Space} (hu : ∀ c ∈ u, space? c = some sp) (hu' : ∀ c ∈ u', space? c = some sp)
    (ht : ∀ c ∈ t.head?, space? c ≠ some sp) (ht' : ∀ c ∈ t'.head?, space? c ≠ some sp) (e : u ++ t = u' ++ t') :
    u = u' ∧ t = t' := by
  induction u generalizing u' with
  | nil =>
    cases u' with
    | nil => simpa using e
    | cons c u' =>
      simp at e
      subst e
      exact absurd (hu' c (by simp)) (ht c (by simp))
  | cons c u ih =>
    cases u' with
    | nil =>
      simp at e
      subst e
      exact absurd (hu c (by simp)) (ht' c (by simp))
    | cons c' u' =>
      simp only [List.cons_append, List.cons.injEq] at e
      obtain ⟨i1, i2⟩ := ih (fun x hx => hu x (by simp [hx])) (fun x hx => hu' x (by simp [hx])) e.2
      exact ⟨by rw [e.1, i1], i2⟩

theorem not_bracket {c : Char} {sp : Space} (h : space? c = some sp) (hs : sp.isSign = false) : c ≠ '[' := by
  rintro rfl
  have : space? '[' = some (.sign '[') := by decide
  rw [this] at h
  injection h with h
  rw [← h] at hs
  cases hs

/-- Cells are determined by their text. -/
theorem good_unique {cs ds : List Cell} (h : Good cs) (h' : Good ds) (e : cellText cs = cellText ds) : cs = ds := by
  induction h generalizing ds with
  | nil =>
    cases h' with
    | nil => rfl
    | plain sp u hs hne hu hh h =>
      rw [cellText_nil, cellText_cons] at e
      have := (List.append_eq_nil_iff.mp e.symm).1
      exact absurd this hne
    | bra rs q n hr hq hh h => rw [cellText_nil, cellText_cons] at e; simp at e
  | plain sp u hs hne hu hh h ih =>
    cases h' with
    | nil =>
      rw [cellText_nil, cellText_cons] at e
      have := (List.append_eq_nil_iff.mp e).1
      exact absurd this hne
    | plain sp' u' hs' hne' hu' hh' h' =>
      rw [cellText_cons, cellText_cons] at e
      simp only at e
      have esp : sp = sp' := by
        cases u with
        | nil => exact absurd rfl hne
        | cons c u =>
          cases u' with
          | nil => exact absurd rfl hne'
          | cons c' u' =>
            simp only [List.cons_append, List.cons.injEq] at e
            have h1 := hu c (by simp)
            have h2 := hu' c' (by simp)
            rw [e.1, h2] at h1
            injection h1 with h1
            exact h1.symm
      subst esp
      obtain ⟨e1, e2⟩ := plain_cut hu hu' hh hh' e
      rw [e1, ih h' e2]
    | bra rs q n hr hq hh h =>
      rw [cellText_cons, cellText_cons] at e
      cases u with
      | nil => exact absurd rfl hne
      | cons c u =>
        simp at e
        exact absurd e.1 (not_bracket (hu c (by simp)) hs)
  | bra rs q n hr hq hh h ih =>
    cases h' with
    | nil => rw [cellText_nil, cellText_cons] at e; simp at e
    | plain sp' u' hs' hne' hu' hh' h' =>
      rw [cellText_cons, cellText_cons] at e
      cases u' with
      | nil => exact absurd rfl hne'
      | cons c u =>
        simp at e
        exact absurd e.1.symm (not_bracket (hu' c (by simp)) hs')
    | bra rs' q' n' hr' hq' hh' h' =>
      rename_i c1 c2
      rw [cellText_cons, cellText_cons] at e
      have e' : rs.flatten ++ ']' :: (q ++ cellText c1) = rs'.flatten ++ ']' :: (q' ++ cellText c2) := by simpa using e
      obtain ⟨e1, e2⟩ := rules_cut hr hr' e'
      obtain ⟨e3, e4⟩ := quant_cut hq hq' hh hh' e2
      rw [e1, e3, ih h' e4]

/-! ### Covers are good -/

theorem neighbours_drop {α : Type} {R : α → α → Prop} {a b : List α} (h : Neighbours R (a ++ b)) : Neighbours R b := by
  have := neighbours_sub (a := a) (b := b) (c := []) (by simpa using h)
  exact this

theorem runs_drop {w : Str} {g rs : List (Space × Str)} (h : Runs w (g ++ rs)) : Runs (rawOf rs) rs :=
  ⟨rfl, fun r hr => h.nonempty r (by simp [hr]), fun r hr => h.space r (by simp [hr]), neighbours_drop h.maximal⟩

theorem runs_take {w : Str} {g rs : List (Space × Str)} (h : Runs w (g ++ rs)) : Runs (rawOf g) g :=
  ⟨rfl, fun r hr => h.nonempty r (by simp [hr]), fun r hr => h.space r (by simp [hr]),
    neighbours_sub (a := []) (b := g) (c := rs) (by simpa using h.maximal)⟩

theorem lenOf_gpart {w : Str} {g : List (Space × Str)} (h : Runs w g) (hg : g ≠ []) : 1 ≤ lenOf (gpart g) := by
  have hp : Part (gpart g) := ⟨g, w, h, rfl⟩
  rcases hp.len with ⟨h1, h2⟩ | h1
  · exfalso
    have hv := single_vpair (q := gpart g) rfl
    rw [h2] at hv
    have e : (gpair g).2 = [] := hv.2.symm
    have := (group_rule h (rs := []) (by simp) (by unfold gpair at e; simp only at e; rw [e]; rfl)).2.mpr rfl
    have h3 := h.concat
    rw [this] at h3
    cases g with
    | nil => exact hg rfl
    | cons r g =>
      simp only [List.map_cons, List.flatten_cons, List.append_eq_nil_iff] at h3
      exact h.nonempty r (by simp) h3.1
  · exact h1.2.2

theorem cover_head {w : Str} {rs : List (Space × Str)} {cs : List Cell} (hr : Runs w rs) (h : Cover rs cs) {c : Char}
    (hc : c ∈ (cellText cs).head?) : c = '[' ∨ ∃ r rs', rs = r :: rs' ∧ r.1.isSign = false ∧ space? c = some r.1 := by
  cases h with
  | nil => simp at hc
  | lit r h =>
    rename_i rs' cs'
    rw [cellText_cons] at hc
    simp only at hc
    by_cases hs : r.1.isSign = true
    · left
      unfold runText at hc
      rw [if_pos hs] at hc
      simp at hc
      exact hc.symm
    · right
      unfold runText at hc
      rw [if_neg hs] at hc
      have hne := hr.nonempty r (by simp)
      cases hu : r.2 with
      | nil => exact absurd hu hne
      | cons c' u =>
        rw [hu] at hc
        simp at hc
        subst hc
        exact ⟨r, _, rfl, by simpa using hs, hr.space r (by simp) c' (by rw [hu]; simp)⟩
  | cls g n hg hn h =>
    left
    rw [cellText_cons] at hc
    have hlen := lenOf_gpart (runs_take hr) hg
    obtain ⟨q, e, -⟩ := QText.spec (n := n) (by omega) (gpair g).2
    rw [e] at hc
    simp at hc
    exact hc.symm

theorem head_plain {w : Str} {rs : List (Space × Str)} {cs : List Cell} (hr : Runs w rs) (h : Cover rs cs) :
    ∀ c ∈ (cellText cs).head?, c ≠ '{' ∧ c ≠ '+' := by
  intro c hc
  rcases cover_head hr h hc with rfl | ⟨r, rs', -, h1, h2⟩
  · decide
  · constructor
    · rintro rfl
      have : space? '{' = some (.sign '{') := by decide
      rw [this] at h2; injection h2 with h2; rw [← h2] at h1; cases h1
    · rintro rfl
      have : space? '+' = some (.sign '+') := by decide
      rw [this] at h2; injection h2 with h2; rw [← h2] at h1; cases h1

theorem cover_good {w : Str} {rs : List (Space × Str)} {cs : List Cell} (hr : Runs w rs) (h : Cover rs cs) : Good cs := by
  induction h generalizing w with
  | nil => exact .nil
  | lit r h ih =>
    rename_i rs' cs'
    have htail := runs_drop (g := [r]) hr
    have hne := hr.nonempty r (by simp)
    have hsp := hr.space r (by simp)
    by_cases hs : r.1.isSign = true
    · have hv := hr.valid r (by simp)
      have e : runText r = '[' :: [r.1.text].flatten ++ ']' :: (if r.2.length = 1 then [] else '{' :: decimal r.2.length ++ ['}']) := by
        unfold runText; rw [if_pos hs]; simp
      have hq : ∃ n, QText (if r.2.length = 1 then [] else '{' :: decimal r.2.length ++ ['}']) n := by
        split
        · exact ⟨_, .one⟩
        · rw [← natStr_decimal]
          exact ⟨_, .braces _ (isDecimalStr_natStr _)⟩
      obtain ⟨n, hq⟩ := hq
      have := Good.bra [r.1.text] _ n (by
        intro x hx
        simp at hx
        subst hx
        exact mem_ruleSet.mpr ⟨r.1, hv, rfl⟩) hq (head_plain htail h) (ih htail)
      rw [← e] at this
      simpa using this
    · have e : runText r = r.2 := by unfold runText; rw [if_neg hs]
      rw [e]
      refine .plain r.1 r.2 (by simpa using hs) hne hsp ?_ (ih htail)
      intro c hc hc'
      rcases cover_head htail h hc with rfl | ⟨r', rs'', e', h1, h2⟩
      · exact not_bracket hc' (by simpa using hs) rfl
      · rw [hc'] at h2
        injection h2 with h2
        exact hr.maximal [] r r' rs'' (by rw [e']; rfl) h2
  | cls g n hg hn h ih =>
    have htail := runs_drop hr
    have hlen := lenOf_gpart (runs_take hr) hg
    obtain ⟨q, e, hq⟩ := QText.spec (n := n) (by omega) (gpair g).2
    rw [e]
    exact .bra (sortedSet (g.map (·.1.text))) q _ (by
      intro x hx
      rw [mem_sortedSet] at hx
      exact group_rules_mem (runs_take hr) x hx) hq (head_plain htail h) (ih htail)

/-- Two covers with the same text have the same cells. -/
theorem cover_unique {w w' : Str} {rs rs' : List (Space × Str)} {cs cs' : List Cell} (hr : Runs w rs) (hr' : Runs w' rs')
    (h : Cover rs cs) (h' : Cover rs' cs') (e : cellText cs = cellText cs') : cs = cs' :=
  good_unique (cover_good hr h) (cover_good hr' h') e

end OsUrl
