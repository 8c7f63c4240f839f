import Verif.Proofs.MLoad
import Verif.Proofs.Length

/-! The views split a piece into groups of runs. -/

namespace OsUrl
open Spec

/-- Text and rule of a group of runs. -/
def gpair (g : List (Space × Str)) : Str × Str := ((g.map runText).flatten, joinSorted (g.map (·.1.text)))

/-- Text and rule of a view's part. -/
def vpair (v : ParsedPiece) : Str × Str := (v.piece, v.fuzzyRule)

theorem vpair_single (a b : Str) : vpair (single a b) = (a, b) := by
  unfold vpair
  rw [fuzzyRule_eq]
  simp [single, ParsedPiece.piece, joinSorted]

theorem vpair_ppOf (rs : List (Space × Str)) : vpair (ppOf rs) = gpair rs := by
  unfold vpair gpair
  rw [fuzzyRule_eq]
  simp [ppOf, ParsedPiece.piece]

theorem lift_groups {α β : Type} (f : α → β) {gs' : List (List β)} {l : List α} (h : gs'.flatten = l.map f) :
    ∃ gs : List (List α), gs.flatten = l ∧ gs' = gs.map (List.map f) := by
  induction gs' generalizing l with
  | nil =>
    simp at h
    exact ⟨[], by simp [h], rfl⟩
  | cons g gs' ih =>
    rw [List.flatten_cons] at h
    obtain ⟨l1, l2, rfl, e1, e2⟩ := List.map_eq_append_iff.mp h.symm
    obtain ⟨gs, e3, e4⟩ := ih e2.symm
    exact ⟨l1 :: gs, by simp [e3], by simp [e1, e4]⟩

theorem zip_ppOf (rs : List (Space × Str)) :
    (rs.map runText).zip (rs.map (·.1.text)) = rs.map (fun r => (runText r, r.1.text)) := by
  induction rs with
  | nil => rfl
  | cons r rs ih => simp [ih]

/-- The groups `mix` makes of runs. -/
theorem mix_split (rs : List (Space × Str)) :
    ∃ gs : List (List (Space × Str)), gs.flatten = rs ∧
      mix (rs.map runText) (rs.map (·.1.text)) = (gs.map (fun g => (gpair g).1), gs.map (fun g => (gpair g).2)) ∧
      ∀ g ∈ gs, g ≠ [] ∧ ((∀ r ∈ g, Mixable r.1.text) ∨ ∃ r, g = [r]) := by
  obtain ⟨gs', hg, hm⟩ := mix_groups (rs.map runText) (rs.map (·.1.text))
  obtain ⟨gs, e1, rfl⟩ := lift_groups (fun r : Space × Str => (runText r, r.1.text)) (by rw [hg.concat, zip_ppOf])
  refine ⟨gs, e1, ?_, ?_⟩
  · rw [hm]
    simp [gpair, groupText, groupRule, Function.comp_def, List.map_map]
  · intro g hgm
    have := hg.good _ (List.mem_map.mpr ⟨g, hgm, rfl⟩)
    refine ⟨by have := this.1; simpa using this, ?_⟩
    rcases this.2 with h | ⟨pr, h, -⟩
    · left
      intro r hr
      exact h _ (List.mem_map.mpr ⟨r, hr, rfl⟩)
    · right
      obtain ⟨r, h2, -⟩ := List.map_eq_singleton_iff.mp h
      exact ⟨r, h2⟩

theorem zip_gpair (gs : List (List (Space × Str))) :
    (((gs.map (fun g => (gpair g).1)).zip (gs.map (fun g => (gpair g).2))).map (fun pr => single pr.1 pr.2)).map vpair
      = gs.map gpair := by
  induction gs with
  | nil => rfl
  | cons g gs ih =>
    simp only [List.map_cons, List.zip_cons_cons, vpair_single, ih]

theorem lastDotIdx_bound {rules : List Str} {i : Nat} (h : lastDotIdx rules = some i) :
    rules[i]? = some ruleDot := by
  have key : ∀ (k : Nat) (a b : List Str), rules.reverse = a ++ b → a.length = k →
      lastDotIdx.go rules k b = some i → rules[i]? = some ruleDot := by
    intro k a b
    induction b generalizing k a with
    | nil => intro _ _ h; simp [lastDotIdx.go] at h
    | cons r b ih =>
      intro e hk h
      unfold lastDotIdx.go at h
      by_cases c1 : k > 2
      · rw [if_pos c1] at h; cases h
      · rw [if_neg c1] at h
        by_cases c2 : r = ruleDot
        · rw [if_pos c2] at h
          simp only [Option.some.injEq] at h
          have hlen : rules.length = a.length + (b.length + 1) := by
            have := congrArg List.length e; simpa using this
          have e' : rules = b.reverse ++ r :: a.reverse := by
            have := congrArg List.reverse e; simpa using this
          have hi : i = b.reverse.length := by simp; omega
          rw [hi, e', List.getElem?_append_right (Nat.le_refl _)]
          simp [c2]
        · rw [if_neg c2] at h
          exact ih (k + 1) (a ++ [r]) (by simp [e]) (by simp [hk]) h
  exact key 0 [] rules.reverse (by simp) rfl h

theorem fuzzy_split (rs : List (Space × Str)) : (fuzzyPieces (ppOf rs)).map vpair = [gpair rs] := by
  unfold fuzzyPieces
  simp only [List.map_cons, List.map_nil, vpair_single]
  rw [← vpair_ppOf]
  rfl

/-- What the groups of a view can be. -/
def GroupsOK (c : ViewCls) (rs : List (Space × Str)) (gs : List (List (Space × Str))) : Prop :=
  match c with
  | .mixed => gs = [rs] ∧ rs.length ≤ 1 ∨ ∀ g ∈ gs, g ≠ [] ∧ ((∀ r ∈ g, Mixable r.1.text) ∨ ∃ r, g = [r])
  | .lastDot => True
  | _ => gs = rs.map (fun r => [r])

theorem view_split (c : ViewCls) (rs : List (Space × Str)) :
    ∃ gs : List (List (Space × Str)), gs.flatten = rs ∧ (viewPieces c (ppOf rs)).map vpair = gs.map gpair ∧
      GroupsOK c rs gs ∧ (c = .lastDot → gs ≠ []) := by
  have hmulti : ((multiPieces (ppOf rs)).map vpair) = (rs.map (fun r => [r])).map gpair := by
    unfold multiPieces
    simp only [ppOf]
    rw [zip_ppOf]
    simp only [List.map_map]
    apply List.map_congr_left
    intro r _
    simp only [Function.comp_apply, vpair_single, gpair]
    simp [joinSorted]
  have hflat : (rs.map (fun r => [r])).flatten = rs := by
    clear hmulti
    induction rs with
    | nil => rfl
    | cons r rs ih => simp [ih]
  have hmixed : ∃ gs : List (List (Space × Str)), gs.flatten = rs ∧ (mixedPieces (ppOf rs)).map vpair = gs.map gpair ∧
      (gs = [rs] ∧ rs.length ≤ 1 ∨ ∀ g ∈ gs, g ≠ [] ∧ ((∀ r ∈ g, Mixable r.1.text) ∨ ∃ r, g = [r])) := by
    unfold mixedPieces
    by_cases h1 : (ppOf rs).rules.length ≤ 1
    · rw [if_pos h1]
      exact ⟨[rs], by simp, by simp [vpair_ppOf], .inl ⟨rfl, by simpa [ppOf] using h1⟩⟩
    · rw [if_neg h1]
      obtain ⟨gs, e1, e2, e3⟩ := mix_split rs
      refine ⟨gs, e1, ?_, .inr e3⟩
      simp only [ppOf, e2]
      exact zip_gpair gs
  have hlast : ∃ gs : List (List (Space × Str)), gs.flatten = rs ∧ (lastDotPieces (ppOf rs)).map vpair = gs.map gpair ∧ gs ≠ [] := by
    unfold lastDotPieces
    cases hi : lastDotIdx (ppOf rs).rules with
    | none => exact ⟨[rs], by simp, by simp [fuzzy_split], by simp⟩
    | some i =>
      simp only
      have hget := lastDotIdx_bound hi
      simp only [ppOf, List.getElem?_map, Option.map_eq_some_iff] at hget
      obtain ⟨r, hr, hrt⟩ := hget
      have hsplit : rs = rs.take i ++ r :: rs.drop (i + 1) := by
        conv => lhs; rw [← List.take_append_drop i rs]
        rw [List.drop_eq_getElem?_toList_append, hr]; rfl
      split
      · obtain ⟨gs, e1, e2, e3⟩ := mix_split (rs.drop (i + 1))
        refine ⟨rs.take i :: [r] :: gs, ?_, ?_, by simp⟩
        · simp only [List.flatten_cons, e1]
          exact hsplit.symm
        · simp only [ppOf, ← List.map_drop, e2]
          have z := zip_gpair (rs.take i :: [r] :: gs)
          simp only [List.map_cons, gpair, List.map_nil, List.flatten_cons, List.flatten_nil, List.append_nil] at z
          have j1 : joinSorted [r.1.text] = r.1.text := by simp [joinSorted]
          rw [j1] at z
          simp only [← List.map_take, List.getD_eq_getElem?_getD, List.getElem?_map, hr, Option.map_some, Option.getD_some]
          rw [List.map_cons, List.map_cons]
          simpa [gpair, joinSorted] using z
      · exact ⟨[rs], by simp, by simp [fuzzy_split], by simp⟩
  cases c with
  | mixed =>
    obtain ⟨gs, e1, e2, e3⟩ := hmixed
    exact ⟨gs, e1, e2, e3, by simp⟩
  | lastDot =>
    obtain ⟨gs, e1, e2, e3⟩ := hlast
    exact ⟨gs, e1, e2, trivial, fun _ => e3⟩
  | piece => exact ⟨_, hflat, hmulti, rfl, by simp⟩
  | multi => exact ⟨_, hflat, hmulti, rfl, by simp⟩
  | length => exact ⟨_, hflat, hmulti, rfl, by simp⟩
  | fuzzy => exact ⟨_, hflat, hmulti, rfl, by simp⟩

/-! ### the groups as strings -/

/-- The raw text of a group. -/
def rawOf (g : List (Space × Str)) : Str := (g.map (·.2)).flatten

theorem neighbours_sub {α : Type} {R : α → α → Prop} {a b c : List α} (h : Neighbours R (a ++ b ++ c)) : Neighbours R b := by
  intro x u v y e
  exact h (a ++ x) u v (y ++ c) (by simp [e])

theorem runs_group {s : Str} {rs : List (Space × Str)} (h : Runs s rs) {gs : List (List (Space × Str))}
    (hf : gs.flatten = rs) {g : List (Space × Str)} (hg : g ∈ gs) : Runs (rawOf g) g := by
  obtain ⟨a, b, rfl⟩ := List.append_of_mem hg
  have hsub : ∀ r ∈ g, r ∈ rs := by intro r hr; rw [← hf]; simp [hr]
  refine ⟨rfl, fun r hr => h.nonempty r (hsub r hr), fun r hr => h.space r (hsub r hr), ?_⟩
  have hm := h.maximal
  rw [← hf] at hm
  exact neighbours_sub (a := a.flatten) (c := b.flatten) (by simpa using hm)

theorem raw_concat {s : Str} {rs : List (Space × Str)} (h : Runs s rs) {gs : List (List (Space × Str))}
    (hf : gs.flatten = rs) : (gs.map rawOf).flatten = s := by
  rw [← h.concat, ← hf]
  clear h hf
  induction gs with
  | nil => rfl
  | cons g gs ih => simp [ih, rawOf]

theorem raw_mem {s : Str} {rs : List (Space × Str)} (h : Runs s rs) {gs : List (List (Space × Str))}
    (hf : gs.flatten = rs) {g : List (Space × Str)} (hg : g ∈ gs) {c : Char} (hc : c ∈ rawOf g) : c ∈ s := by
  rw [← raw_concat h hf]
  exact List.mem_flatten.mpr ⟨_, List.mem_map.mpr ⟨g, hg, rfl⟩, hc⟩

theorem pieceLength_congr {v w : ParsedPiece} (h : v.piece = w.piece) : v.pieceLength = w.pieceLength := by
  unfold ParsedPiece.pieceLength
  rw [h]

/-- The length of a part of a view. -/
theorem group_length {s : Str} {g : List (Space × Str)} (h : Runs s g) {v : ParsedPiece} (hv : vpair v = gpair g) :
    v.pieceLength = .ok ((s.length : Int) + ((runsOf s).map extra).sum) := by
  rw [← pieceLength_runs h.known]
  apply pieceLength_congr
  rw [runsOf_runs h]
  have := congrArg Prod.fst hv
  simpa [vpair, gpair, ppOf, ParsedPiece.piece] using this

theorem runText_exact {r : Space × Str} (hne : r.2 ≠ []) (hs : ∀ c ∈ r.2, space? c = some r.1) : Exact (runText r) r.2 := by
  have := normText_exact (res := []) (by simp) hne hs
  rw [normText_known hne hs] at this
  obtain ⟨sp, w⟩ := r
  cases sp <;> simpa [runText, Space.isSign] using this

theorem runs_exact {s : Str} {g : List (Space × Str)} (h : Runs s g) : Exact (g.map runText).flatten s := by
  have := Exact.flatten (l := g.map (fun r => (runText r, r.2))) (by
    intro p hp
    obtain ⟨r, hr, rfl⟩ := List.mem_map.mp hp
    exact runText_exact (h.nonempty r hr) (h.space r hr))
  rw [List.map_map, List.map_map] at this
  rw [← h.concat]
  exact this

theorem group_rules_mem {s : Str} {g : List (Space × Str)} (h : Runs s g) : ∀ r ∈ g.map (·.1.text), r ∈ ruleSet := by
  intro r hr
  obtain ⟨x, hx, rfl⟩ := List.mem_map.mp hr
  exact mem_ruleSet.mpr ⟨x.1, h.valid x hx, rfl⟩

/-- The rule of a group lists the spaces of its text. -/
theorem group_rule {s : Str} {g : List (Space × Str)} (h : Runs s g) {rs : List Str} (hr : ∀ r ∈ rs, r ∈ ruleSet)
    (e : joinSorted (g.map (·.1.text)) = joinSorted rs) :
    (∀ c ∈ s, ∃ sp, space? c = some sp ∧ sp.text ∈ rs) ∧ (s = [] ↔ rs = []) := by
  have hm := (joinSorted_inj (group_rules_mem h) hr).mp e
  constructor
  · intro c hc
    rw [← h.concat] at hc
    obtain ⟨w, hw, hc⟩ := List.mem_flatten.mp hc
    obtain ⟨r, hr', rfl⟩ := List.mem_map.mp hw
    exact ⟨r.1, h.space r hr' c hc, (hm _).mp (List.mem_map.mpr ⟨r, hr', rfl⟩)⟩
  · constructor
    · rintro rfl
      have : g = [] := by rw [← runsOf_runs h]; rfl
      subst this
      cases rs with
      | nil => rfl
      | cons r rs => have := (hm r).mpr (by simp); simp at this
    · rintro rfl
      cases g with
      | nil => rw [← h.concat]; rfl
      | cons r g => have := (hm r.1.text).mp (by simp); simp at this

/-! ### joined rules -/

/-- A rule text as it is joined: `/` itself, or without `/`. -/
def Token (t : Str) : Prop := t = ['/'] ∨ (t ≠ [] ∧ '/' ∉ t)

theorem Token.ne {t : Str} (h : Token t) : t ≠ [] := by
  rcases h with rfl | h
  · simp
  · exact h.1

/-- What follows the first element. -/
def jrest (l : List Str) : Str := if l = [] then [] else '/' :: join ['/'] l

theorem join_jrest (t : Str) (l : List Str) : join ['/'] (t :: l) = t ++ jrest l := by
  cases l with
  | nil => simp [join, jrest]
  | cons u us => simp [join, jrest]

theorem join_ne_nil {l : List Str} (h : ∀ t ∈ l, Token t) (hne : l ≠ []) : join ['/'] l ≠ [] := by
  cases l with
  | nil => exact absurd rfl hne
  | cons t l =>
    rw [join_jrest]
    have := (h t (by simp)).ne
    simp [this]

theorem cut_eq {a b r r' : Str} (ha : '/' ∉ a) (hb : '/' ∉ b) (hr : r = [] ∨ ∃ x, r = '/' :: x)
    (hr' : r' = [] ∨ ∃ x, r' = '/' :: x) (e : a ++ r = b ++ r') : a = b ∧ r = r' := by
  induction a generalizing b with
  | nil =>
    cases b with
    | nil => exact ⟨rfl, e⟩
    | cons y b =>
      exfalso
      rcases hr with rfl | ⟨x, rfl⟩
      · simp at e
      · simp at e; exact hb (by simp [← e.1])
  | cons x a ih =>
    cases b with
    | nil =>
      exfalso
      rcases hr' with rfl | ⟨y, rfl⟩
      · simp at e
      · simp at e; exact ha (by simp [e.1])
    | cons y b =>
      simp only [List.cons_append, List.cons.injEq] at e
      obtain ⟨h1, h2⟩ := ih (b := b) (by intro h; exact ha (by simp [h])) (by intro h; exact hb (by simp [h])) e.2
      exact ⟨by rw [e.1, h1], h2⟩

theorem jrest_cases (l : List Str) : jrest l = [] ∨ ∃ x, jrest l = '/' :: x := by
  unfold jrest
  by_cases h : l = []
  · left; rw [if_pos h]
  · right; rw [if_neg h]; exact ⟨_, rfl⟩

theorem join_inj {xs ys : List Str} (hx : ∀ t ∈ xs, Token t) (hy : ∀ t ∈ ys, Token t)
    (e : join ['/'] xs = join ['/'] ys) : xs = ys := by
  induction xs generalizing ys with
  | nil =>
    cases ys with
    | nil => rfl
    | cons y ys => exact absurd e.symm (join_ne_nil hy (by simp))
  | cons t xs ih =>
    cases ys with
    | nil => exact absurd e (join_ne_nil hx (by simp))
    | cons u ys =>
      rw [join_jrest, join_jrest] at e
      have key : t = u ∧ jrest xs = jrest ys := by
        rcases hx t (by simp) with rfl | ⟨h1, h2⟩
        · rcases hy u (by simp) with rfl | ⟨h3, h4⟩
          · exact ⟨rfl, by simpa using e⟩
          · exfalso
            cases u with
            | nil => exact h3 rfl
            | cons c u => simp at e; exact h4 (by simp [← e.1])
        · rcases hy u (by simp) with rfl | ⟨h3, h4⟩
          · exfalso
            cases t with
            | nil => exact h1 rfl
            | cons c t => simp at e; exact h2 (by simp [e.1])
          · exact cut_eq h2 h4 (jrest_cases _) (jrest_cases _) e
      obtain ⟨rfl, e2⟩ := key
      have : join ['/'] xs = join ['/'] ys := by
        unfold jrest at e2
        by_cases c1 : xs = []
        · by_cases c2 : ys = []
          · rw [c1, c2]
          · rw [if_pos c1, if_neg c2] at e2; cases e2
        · by_cases c2 : ys = []
          · rw [if_neg c1, if_pos c2] at e2; cases e2
          · rw [if_neg c1, if_neg c2] at e2; simpa using e2
      rw [ih (fun a ha => hx a (by simp [ha])) (fun a ha => hy a (by simp [ha])) this]

/-- Of the rules only `/` contains a slash. -/
theorem slash_rule {r : Str} (h : r ∈ ruleSet) : '/' ∈ r ↔ r = ['/'] := by
  have key : ∀ r ∈ ruleSet, '/' ∈ r ↔ r = ['/'] := by decide
  exact key r h

theorem joinSorted_token {rs : List Str} (hr : ∀ r ∈ rs, r ∈ ruleSet) (hne : rs ≠ [])
    (h : ['/'] ∈ rs → ∀ r ∈ rs, r = ['/']) : Token (joinSorted rs) := by
  by_cases hs : ['/'] ∈ rs
  · left
    have : joinSorted rs = joinSorted [['/']] := by
      rw [joinSorted_inj hr (by decide)]
      intro r
      constructor
      · intro hm; simp [h hs r hm]
      · intro hm; simp at hm; rw [hm]; exact hs
    rw [this]; simp [joinSorted]
  · right
    have hmem : ∀ r, r ∈ sortedSet rs ↔ r ∈ rs := fun r => mem_sortedSet
    constructor
    · obtain ⟨r, hrm⟩ := List.exists_mem_of_ne_nil _ hne
      have hpos : ∀ r ∈ ruleSet, r ≠ [] := by decide
      obtain ⟨c, hc⟩ := List.exists_mem_of_ne_nil _ (hpos r (hr r hrm))
      intro e
      have : c ∈ joinSorted rs := List.mem_flatten.mpr ⟨r, (hmem r).mpr hrm, hc⟩
      rw [e] at this; simp at this
    · intro hm
      obtain ⟨r, hrm, hc⟩ := List.mem_flatten.mp hm
      have hrm := (hmem r).mp hrm
      have := (slash_rule (hr r hrm)).mp hc
      exact hs (this ▸ hrm)

end OsUrl
