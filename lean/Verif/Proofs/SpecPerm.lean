import Verif.Proofs.Command

/-! The closed form does not depend on the order of the rows. -/

namespace OsUrl
open Spec

theorem firsts_perm' {α : Type} [DecidableEq α] {l l' : List α} (h : ∀ x, x ∈ l ↔ x ∈ l') : (firsts l).Perm (firsts l') :=
  (List.perm_ext_iff_of_nodup (firsts_nodup _) (firsts_nodup _)).mpr (fun x => by rw [firsts_mem, firsts_mem]; exact h x)

theorem perm_sumI {l l' : List Int} (h : l.Perm l') : l.sum = l'.sum := by
  induction h with
  | nil => rfl
  | cons x _ ih => simp [ih]
  | swap x y l => simp; omega
  | trans _ _ h1 h2 => exact h1.trans h2

theorem biggest_perm {l l' : List Int} (h : l.Perm l') : biggest l = biggest l' := by
  unfold biggest
  exact h.foldl_eq' (fun a _ b _ z => by omega) 0

theorem varied_perm {mcn : Int} {l l' : List Int} (h : l.Perm l') : varied mcn l = varied mcn l' := by
  unfold varied
  rw [h.length_eq, perm_sumI h, biggest_perm h]

theorem weight_perm {S S' : List WRow} (h : S.Perm S') : weight S = weight S' := perm_sumI (h.map _)

theorem column_perm {S S' : List WRow} (j : Nat) (h : S.Perm S') : (column j S).Perm (column j S') := by
  unfold column
  have e : (fun g : Chunk => (g, weight (S.filter (fun x => decide (x.at j = g))))) =
      (fun g : Chunk => (g, weight (S'.filter (fun x => decide (x.at j = g))))) := by
    funext g
    rw [weight_perm (h.filter _)]
  rw [e]
  exact (firsts_perm' (fun x => (h.map _).mem_iff)).map _

theorem lengthNumbers_perm {E E' : Column} (h : E.Perm E') : (lengthNumbers E).Perm (lengthNumbers E') := by
  unfold lengthNumbers
  have e : (fun l : Nat => (numbers (ofLength E l)).sum) = (fun l : Nat => (numbers (ofLength E' l)).sum) := by
    funext l
    exact perm_sumI ((h.filter _).map _)
  rw [e]
  exact (firsts_perm' (fun x => (h.map _).mem_iff)).map _

theorem numbers_perm {E E' : Column} (h : E.Perm E') : (numbers E).Perm (numbers E') := h.map _

theorem ofLength_perm {E E' : Column} (h : E.Perm E') (l : Nat) : (ofLength E l).Perm (ofLength E' l) := h.filter _

theorem wholeText_perm {mcn : Int} {E E' : Column} (h : E.Perm E') (g : Chunk) : wholeText mcn E g = wholeText mcn E' g := by
  unfold wholeText
  rw [varied_perm (lengthNumbers_perm h), varied_perm (numbers_perm (ofLength_perm h _))]

/-- The rule does not look at the order of the column. -/
def RulePerm (F : Rule) : Prop := ∀ j E E' g, E.Perm E' → F j E g = F j E' g

theorem partRule_perm (mcn : Int) (keep : Bool) (n : Nat) : RulePerm (partRule mcn keep n) := by
  intro j E E' g h
  unfold partRule
  rw [varied_perm (numbers_perm h), wholeText_perm h]

theorem textAt_perm {F : Rule} (hF : RulePerm F) {S S' : List WRow} (h : S.Perm S') (j : Nat) (x : WRow) : textAt F j S x = textAt F j S' x :=
  hF j _ _ _ (column_perm j h)

theorem texts_perm {F : Rule} (hF : RulePerm F) (k j : Nat) {S S' : List WRow} (h : S.Perm S') (x : WRow) : texts F k j S x = texts F k j S' x := by
  induction k generalizing j S S' with
  | zero => rfl
  | succ k ih =>
    rw [texts, texts, textAt_perm hF h]
    congr 1
    apply ih
    have e : (fun y => decide (textAt F j S y = textAt F j S' x)) = (fun y => decide (textAt F j S' y = textAt F j S' x)) := by
      funext y; rw [textAt_perm hF h]
    rw [e]
    exact h.filter _

theorem alike_perm {F : Rule} (hF : RulePerm F) (n : Nat) {S S' : List WRow} (h : S.Perm S') : alike F n S = alike F n S' := by
  rw [Bool.eq_iff_iff]
  unfold alike
  simp only [List.all_eq_true, decide_eq_true_eq, texts_perm hF n 0 h, h.mem_iff]

theorem family_perm {F : Rule} (hF : RulePerm F) (n k : Nat) {S S' : List WRow} (h : S.Perm S') (x : WRow) :
    (family F n k S x).Perm (family F n k S' x) := by
  induction k generalizing S S' with
  | zero => exact h
  | succ k ih =>
    rw [family, family, alike_perm hF n h]
    split
    · exact h
    · apply ih
      have e : (fun y => decide (texts F n 0 S y = texts F n 0 S x)) = (fun y => decide (texts F n 0 S' y = texts F n 0 S' x)) := by
        funext y; rw [texts_perm hF n 0 h, texts_perm hF n 0 h]
      rw [e]
      exact h.filter _

theorem settled_perm {mcn : Int} {keep : Bool} {V : Cutting} {E E' : Column} (h : E.Perm E') (g : Chunk) :
    settled mcn keep V E g = settled mcn keep V E' g := by
  have hR : ((E.filter (fun e => decide (classes V e.1 = classes V g))).map (fun e => ((V e.1, e.2) : WRow))).Perm
      ((E'.filter (fun e => decide (classes V e.1 = classes V g))).map (fun e => ((V e.1, e.2) : WRow))) := (h.filter _).map _
  have hF := partRule_perm mcn keep (V g).length
  have hC := family_perm hF (V g).length (((E.filter (fun e => decide (classes V e.1 = classes V g))).map (fun e => ((V e.1, e.2) : WRow))).length + 1) hR (V g, 0)
  unfold settled
  simp only
  rw [← hR.length_eq, weight_perm hR, weight_perm hC, texts_perm hF _ _ hC]

section
variable (mcn : Int) (lp : Bool) {E E' : Column} (h : E.Perm E')
include h

theorem setRuns_perm (g : Chunk) : setRuns mcn lp E g = setRuns mcn lp E' g := settled_perm (h.filter _) g

theorem leftRuns_perm (g : Chunk) (t : Stage) : leftRuns mcn lp E g t = leftRuns mcn lp E' g t := by
  unfold leftRuns; rw [setRuns_perm mcn lp h]

theorem atMixed_perm (g : Chunk) : atMixed mcn lp E g = atMixed mcn lp E' g := by
  unfold atMixed; rw [leftRuns_perm mcn lp h]

theorem setMixed_perm (g : Chunk) : setMixed mcn lp E g = setMixed mcn lp E' g := by
  unfold setMixed
  have e : (fun e : Chunk × Int => atMixed mcn lp E e.1) = (fun e => atMixed mcn lp E' e.1) := by funext e; exact atMixed_perm mcn lp h e.1
  rw [e]
  exact settled_perm (h.filter _) g

theorem leftMixed_perm (g : Chunk) (t : Stage) : leftMixed mcn lp E g t = leftMixed mcn lp E' g t := by
  unfold leftMixed; rw [setMixed_perm mcn lp h, atMixed_perm mcn lp h]

theorem atDot_perm (g : Chunk) : atDot mcn lp E g = atDot mcn lp E' g := by
  unfold atDot; rw [leftRuns_perm mcn lp h, leftMixed_perm mcn lp h]

theorem setDot_perm (g : Chunk) : setDot mcn lp E g = setDot mcn lp E' g := by
  unfold setDot
  have e : (fun e : Chunk × Int => atDot mcn lp E e.1) = (fun e => atDot mcn lp E' e.1) := by funext e; exact atDot_perm mcn lp h e.1
  rw [e]
  exact settled_perm (h.filter _) g

theorem atWhole_perm (g : Chunk) : atWhole mcn lp E g = atWhole mcn lp E' g := by
  unfold atWhole; rw [leftRuns_perm mcn lp h, leftMixed_perm mcn lp h, atDot_perm mcn lp h, setDot_perm mcn lp h]

theorem pieceRuleText_perm (g : Chunk) : pieceRuleText mcn lp E g = pieceRuleText mcn lp E' g := by
  have e : (fun e : Chunk × Int => atWhole mcn lp E e.1) = (fun e => atWhole mcn lp E' e.1) := by funext e; exact atWhole_perm mcn lp h e.1
  unfold pieceRuleText
  rw [varied_perm (numbers_perm h), setRuns_perm mcn lp h, setMixed_perm mcn lp h, setDot_perm mcn lp h,
    atMixed_perm mcn lp h, atDot_perm mcn lp h, e, wholeText_perm (h.filter _)]

end

theorem urlRule_perm (mcn : Int) (d : Nat) : RulePerm (urlRule mcn d) := fun _ _ _ g h => pieceRuleText_perm mcn _ h g

section
variable {mcn : Int} {info : Str → Option (URLMeta × List Str)} {U U' : List Str} (hU : ∀ u, u ∈ U ↔ u ∈ U')
include hU

theorem peers_perm (m : URLMeta) (row : List Str) : (peers info U m row).Perm (peers info U' m row) := by
  unfold peers
  apply firsts_perm'
  intro x
  simp only [List.mem_filterMap, hU]

theorem company_perm (m : URLMeta) (row : List Str) : (company mcn info U m row).Perm (company mcn info U' m row) := by
  unfold company
  rw [(peers_perm hU m row).length_eq]
  exact family_perm (urlRule_perm mcn _) _ _ ((peers_perm hU m row).map _) _

/-- The pattern of a URL depends on the set of the URLs only. -/
theorem patternOf_perm (u : Str) : patternOf mcn info U u = patternOf mcn info U' u := by
  unfold patternOf
  split
  · rfl
  · rw [texts_perm (urlRule_perm mcn _) _ _ (company_perm hU _ _)]

theorem together_perm (u v : Str) : Together mcn info U u v ↔ Together mcn info U' u v := by
  unfold Together
  simp only [(company_perm hU _ _).mem_iff]

theorem listing_set {B : List Block} (h : Listing mcn info U B) : Listing mcn info U' B where
  all := h.all.trans (firsts_perm' (fun x => by rw [List.mem_filter, List.mem_filter, hU]))
  ne := h.ne
  text := fun b hb u hu => by rw [h.text b hb u hu, patternOf_perm hU]
  urls := fun b hb u hu v => by rw [h.urls b hb u hu v, hU, together_perm hU]

end

/-- The block with its URLs in the order of `U`. -/
def inOrder (U : List Str) (b : Block) : Str × List Str := (b.text, (firsts U).filter (fun u => decide (u ∈ b.urls)))

theorem listing_nodup {mcn : Int} {info : Str → Option (URLMeta × List Str)} {U : List Str} {B : List Block} (h : Listing mcn info U B) :
    (B.map (inOrder U)).Nodup := by
  have h0 : (B.flatMap (·.urls)).Nodup := h.all.nodup_iff.mpr (firsts_nodup _)
  rw [List.Nodup, List.pairwise_flatMap] at h0
  rw [List.Nodup, List.pairwise_map]
  rw [List.pairwise_iff_forall_sublist]
  intro a b hab e
  have h1 := (List.pairwise_iff_forall_sublist.mp h0.2) hab
  have ha : a ∈ B := hab.subset (by simp)
  obtain ⟨u, hu⟩ := List.exists_mem_of_ne_nil _ (h.ne a ha)
  have hU : u ∈ firsts U := firsts_mem.mpr (((h.urls a ha u hu u).mp hu).1)
  have h2 : u ∈ (inOrder U a).2 := List.mem_filter.mpr ⟨hU, by simpa using hu⟩
  rw [e] at h2
  exact h1 u hu u (by simpa using (List.mem_filter.mp h2).2) rfl

theorem listing_find {mcn : Int} {info : Str → Option (URLMeta × List Str)} {U : List Str} {B B' : List Block} (h : Listing mcn info U B)
    (h' : Listing mcn info U B') {b : Block} (hb : b ∈ B) : ∃ b' ∈ B', b'.text = b.text ∧ ∀ v, v ∈ b'.urls ↔ v ∈ b.urls := by
  obtain ⟨u, hu⟩ := List.exists_mem_of_ne_nil _ (h.ne b hb)
  have h1 : u ∈ B'.flatMap (·.urls) := h'.all.mem_iff.mpr (h.all.mem_iff.mp (List.mem_flatMap.mpr ⟨b, hb, hu⟩))
  obtain ⟨b', hb', hu'⟩ := List.mem_flatMap.mp h1
  exact ⟨b', hb', by rw [h'.text b' hb' u hu', h.text b hb u hu], fun v => by rw [h'.urls b' hb' u hu', h.urls b hb u hu]⟩

/-- There is one listing only, up to the order of the blocks and of the URLs in them. -/
theorem listing_unique {mcn : Int} {info : Str → Option (URLMeta × List Str)} {U : List Str} {B B' : List Block} (h : Listing mcn info U B)
    (h' : Listing mcn info U B') : (B.map (inOrder U)).Perm (B'.map (inOrder U)) := by
  rw [List.perm_ext_iff_of_nodup (listing_nodup h) (listing_nodup h')]
  have half : ∀ {B B' : List Block} (_ : Listing mcn info U B) (_ : Listing mcn info U B') (x), x ∈ B.map (inOrder U) → x ∈ B'.map (inOrder U) := by
    intro B B' h h' x hx
    obtain ⟨b, hb, rfl⟩ := List.mem_map.mp hx
    obtain ⟨b', hb', e1, e2⟩ := listing_find h h' hb
    refine List.mem_map.mpr ⟨b', hb', ?_⟩
    unfold inOrder
    rw [e1]
    simp only [e2]
  exact fun x => ⟨half h h' x, half h' h x⟩

theorem listing_texts {mcn : Int} {info : Str → Option (URLMeta × List Str)} {U : List Str} {B B' : List Block} (h : Listing mcn info U B)
    (h' : Listing mcn info U B') : (B.map (·.text)).Perm (B'.map (·.text)) := by
  have := (listing_unique h h').map (·.1)
  simpa [List.map_map, Function.comp_def, inOrder] using this

theorem listing_flat {mcn : Int} {info : Str → Option (URLMeta × List Str)} {U : List Str} {B : List Block} (h : Listing mcn info U B) (f : Str → Str → Str) :
    (B.flatMap (fun b => b.urls.map (f b.text))).Perm ((firsts (U.filter (fun u => (info u).isSome))).map (fun u => f (patternOf mcn info U u) u)) := by
  refine List.Perm.trans (List.Perm.of_eq ?_) (h.all.map _)
  rw [List.map_flatMap]
  have : ∀ (l : List Block), (∀ b ∈ l, b ∈ B) → l.flatMap (fun b => b.urls.map (f b.text)) = l.flatMap (fun b => b.urls.map (fun u => f (patternOf mcn info U u) u)) := by
    intro l
    induction l with
    | nil => intro _; rfl
    | cons b l ih =>
      intro hl
      rw [List.flatMap_cons, List.flatMap_cons, ih (fun b hb => hl b (by simp [hb]))]
      congr 1
      apply List.map_congr_left
      intro u hu
      rw [h.text b (hl b (by simp)) u hu]
  exact this B (fun _ hb => hb)

end OsUrl
