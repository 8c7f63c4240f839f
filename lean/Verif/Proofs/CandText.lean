import Verif.Proofs.Sep3
import Verif.Spec.Cluster

/-! The patterns a level gives are pattern texts of the pieces; the hash separates them. -/

namespace OsUrl
open Spec

/-! ### Texts of parts -/

theorem writtenLength_eq (g : List Run) : ((writtenLength g : Nat) : Int) = ((g.map (·.2)).flatten.length : Int) + (g.map extra).sum := by
  unfold writtenLength
  induction g with
  | nil => rfl
  | cons r g ih =>
    simp only [List.map_cons, List.sum_cons, List.flatten_cons, List.length_append]
    have e : ((if r.1 = .sign '\\' then 1 else 0 : Nat) : Int) = extra r := by
      unfold extra; split <;> rfl
    omega

theorem lenOf_gpart_eq {w : Str} {g : List Run} (h : Runs w g) : lenOf (gpart g) = writtenLength g := by
  unfold lenOf gpart
  rw [group_length h (v := single (gpair g).1 (gpair g).2) (vpair_single _ _), runsOf_runs h, writtenLength_eq, h.concat]

theorem classOf_gpair {w : Str} {g : List Run} (h : Runs w g) : ClassOf g (gpair g).2 := by
  have : ∃ R : List Space, R.map Space.text = sortedSet (g.map (·.1.text)) ∧ ∀ sp ∈ R, ∃ r ∈ g, r.1 = sp := by
    have key : ∀ l : List Str, (∀ t ∈ l, ∃ r ∈ g, r.1.text = t) → ∃ R : List Space, R.map Space.text = l ∧ ∀ sp ∈ R, ∃ r ∈ g, r.1 = sp := by
      intro l
      induction l with
      | nil => intro _; exact ⟨[], rfl, by simp⟩
      | cons t l ih =>
        intro hl
        obtain ⟨R, h1, h2⟩ := ih (fun t ht => hl t (by simp [ht]))
        obtain ⟨r, hr, rfl⟩ := hl t (by simp)
        refine ⟨r.1 :: R, by simp [h1], ?_⟩
        intro sp hsp
        rw [List.mem_cons] at hsp
        rcases hsp with rfl | hsp
        · exact ⟨r, hr, rfl⟩
        · exact h2 sp hsp
    apply key
    intro t ht
    rw [mem_sortedSet] at ht
    obtain ⟨r, hr, rfl⟩ := List.mem_map.mp ht
    exact ⟨r, hr, rfl⟩
  obtain ⟨R, h1, h2⟩ := this
  refine ⟨R, fun sp => ⟨h2 sp, ?_⟩, ?_, ?_⟩
  · rintro ⟨r, hr, rfl⟩
    have : r.1.text ∈ R.map Space.text := by rw [h1, mem_sortedSet]; exact List.mem_map.mpr ⟨r, hr, rfl⟩
    obtain ⟨sp, hsp, e⟩ := List.mem_map.mp this
    rw [← text_inj e]; exact hsp
  · have := ssorted_sortedSet (g.map (·.1.text))
    rw [← h1, SSorted, List.pairwise_map] at this
    exact this.imp (fun h => strLt_iff.mp h)
  · rw [h1]; rfl

theorem specStr_wild (k : Str) : specStr k (-1) = '[' :: k ++ [']', '+'] := by simp [specStr]

theorem group_text {w : Str} {g : List Run} (h : Runs w g) {a : Str}
    (ha : a = (gpair g).1 ∨ g ≠ [] ∧ (a = specStr (gpair g).2 (lenOf (gpart g)) ∨ a = specStr (gpair g).2 (-1))) : GroupText g a := by
  rcases ha with rfl | ⟨hg, rfl | rfl⟩
  · exact .lit
  · have h1 := lenOf_gpart h hg
    rw [lenOf_gpart_eq h] at h1 ⊢
    rw [specStr_nat (by omega)]
    exact .len hg (classOf_gpair h)
  · rw [specStr_wild]
    exact .wild hg (classOf_gpair h)

theorem fit_text {w : Str} {g : List Run} (h : Runs w g) {a : Str} (ha : FitPart (gpart g) a) : GroupText g a := by
  unfold FitPart at ha
  rw [(gpart_pair g).1, (gpart_pair g).2] at ha
  apply group_text h
  rcases ha with ha | ⟨h0, ⟨-, ha⟩ | ha⟩
  · exact .inl ha
  · exact .inr ⟨by rintro rfl; exact h0 rfl, .inl ha⟩
  · exact .inr ⟨by rintro rfl; exact h0 rfl, .inr ha⟩

/-- Groups with texts that fit make a pattern text. -/
theorem gfit_grouping {s : Str} {gs : List (List Run)} {as : List Str} (hr : Runs s gs.flatten) (h : GFit gs as) :
    ∃ gts : List (List Run × Str), gts.map (·.1) = gs ∧ gts.map (·.2) = as ∧ ∀ gt ∈ gts, GroupText gt.1 gt.2 := by
  induction h generalizing s with
  | nil => exact ⟨[], rfl, rfl, by simp⟩
  | cons h hs ih =>
    rename_i g a gs as
    rw [List.flatten_cons] at hr
    obtain ⟨gts, h1, h2, h3⟩ := ih (runs_drop hr)
    refine ⟨(g, a) :: gts, by simp [h1], by simp [h2], ?_⟩
    intro gt hgt
    rw [List.mem_cons] at hgt
    rcases hgt with rfl | hgt
    · exact fit_text (runs_take hr) h
    · exact h3 gt hgt

theorem gfit_pieceText {s : Str} {rs : List Run} {gs : List (List Run)} {as : List Str} (hr : Runs s rs) (hf : gs.flatten = rs) (h : GFit gs as) :
    PieceText s as.flatten := by
  subst hf
  obtain ⟨gts, h1, h2, h3⟩ := gfit_grouping hr h
  exact ⟨gts, ⟨by rw [h1]; exact hr, h3⟩, by rw [h2]⟩

theorem lit_pieceText {s : Str} {rs : List Run} (hr : Runs s rs) : PieceText s (ppOf rs).piece := by
  have := gfit_pieceText hr (singles_flatten rs) (gfit_lits rs)
  have e : (rs.map runText).flatten = (ppOf rs).piece := by simp [ppOf, ParsedPiece.piece]
  rwa [e] at this

theorem gpair_ppOf (rs : List Run) : gpair rs = ((ppOf rs).piece, (ppOf rs).fuzzyRule) := (vpair_ppOf rs).symm

theorem lenOf_ppOf (rs : List Run) : lenOf (ppOf rs) = lenOf (gpart rs) := by
  unfold lenOf
  rw [pieceLength_congr (v := ppOf rs) (w := gpart rs) (by rw [(gpart_pair rs).1, gpair_ppOf])]

theorem one_grouping {s : Str} {rs : List Run} (hr : Runs s rs) {a : Str} (h : GroupText rs a) : PieceText s a :=
  ⟨[(rs, a)], ⟨by simpa using hr, by simpa using h⟩, by simp⟩

/-- The pattern of a stage is a pattern text of the piece. -/
theorem stagePat_text {cfg : LevelCfg} {E : List Ent} {r : Str} (h : LvOK cfg E r) {e : Ent} (he : e ∈ E) {s : Str} {rs : List Run}
    (hr : Runs s rs) (hp : e.1 = ppOf rs) : PieceText s (stagePat cfg E e.1) := by
  cases hs : stageOf cfg E e.1 with
  | base =>
    obtain ⟨-, as, a1, a2, -⟩ := base_info h he hs hr hp
    rw [← a2]; exact gfit_pieceText hr (singles_flatten rs) a1
  | mixed =>
    obtain ⟨-, gs, as, -, g2, -, a1, a2, -⟩ := mixed_info h he hs hr hp
    rw [← a2]; exact gfit_pieceText hr g2 a1
  | lastDot =>
    obtain ⟨-, d, x, t, ts, bs, c1, -, -, -, -, c6, -, b1, b2, -⟩ := lastDot_info h he hs hr hp
    rw [← b2]; exact gfit_pieceText hr (by rw [c1, ← c6]; simp) b1
  | length =>
    have hlen : stagePat cfg E e.1 = lenPat cfg.mcn (E.filter (fun e => inN cfg E e.1)) e.1 := by
      unfold stagePat; rw [hs]
    have hne : rs ≠ [] := by rintro rfl; exact h.pieces he (by rw [hp]; rfl)
    rw [hlen]
    apply one_grouping hr
    apply group_text hr
    rw [gpair_ppOf, ← lenOf_ppOf, ← hp]
    rcases lenPat_cases cfg.mcn (E.filter (fun e => inN cfg E e.1)) e.1 with h1 | ⟨n, hn, h1⟩
    · exact .inl h1
    · refine .inr ⟨hne, ?_⟩
      rcases hn with rfl | rfl
      · exact .inl h1
      · exact .inr h1

/-! ### Joined texts can be taken apart -/

theorem good_cut {cs ds : List Cell} (h : Good cs) (h' : Good ds) {x y : Str} (hx : ∀ c ∈ x.head?, c = '/') (hy : ∀ c ∈ y.head?, c = '/')
    (e : cellText cs ++ x = cellText ds ++ y) : cs = ds ∧ x = y := by
  have sl : ∀ sp : Space, sp.isSign = false → space? '/' ≠ some sp := by
    intro sp hs h
    have : space? '/' = some (.sign '/') := by decide
    rw [this] at h
    injection h with h
    rw [← h] at hs; cases hs
  have hd : ∀ {P : Char → Prop} {cs : List Cell} {x : Str}, P '/' → (∀ c ∈ x.head?, c = '/') → (∀ c ∈ (cellText cs).head?, P c) →
      ∀ c ∈ (cellText cs ++ x).head?, P c := by
    intro P cs x hp hx hc c hm
    cases hcs : cellText cs with
    | nil => rw [hcs, List.nil_append] at hm; rw [hx c hm]; exact hp
    | cons d t => rw [hcs] at hm hc; exact hc c (by simpa using hm)
  induction h generalizing ds with
  | nil =>
    cases h' with
    | nil => exact ⟨rfl, by simpa using e⟩
    | plain sp u hs hne hu hh h =>
      rw [cellText_nil, cellText_cons, List.nil_append] at e
      cases u with
      | nil => exact absurd rfl hne
      | cons c u =>
        have := hx c (by rw [e]; simp)
        rw [this] at hu
        exact absurd (hu '/' (by simp)) (sl sp hs)
    | bra rs q n hr hq hh h =>
      rw [cellText_nil, cellText_cons, List.nil_append] at e
      have := hx '[' (by rw [e]; simp)
      exact absurd this (by decide)
  | plain sp u hs hne hu hh h ih =>
    cases h' with
    | nil =>
      rw [cellText_nil, cellText_cons, List.nil_append] at e
      cases u with
      | nil => exact absurd rfl hne
      | cons c u =>
        have := hy c (by rw [← e]; simp)
        rw [this] at hu
        exact absurd (hu '/' (by simp)) (sl sp hs)
    | plain sp' u' hs' hne' hu' hh' h' =>
      rw [cellText_cons, cellText_cons, List.append_assoc, List.append_assoc] at e
      simp only at e
      have esp : sp = sp' := by
        cases u with
        | nil => exact absurd rfl hne
        | cons c u =>
          cases u' with
          | nil => exact absurd rfl hne'
          | cons c' u' =>
            simp only [List.cons_append, List.cons.injEq] at e
            have h1 := hu c (by simp)
            have h2 := hu' c' (by simp)
            rw [e.1, h2] at h1
            injection h1 with h1
            exact h1.symm
      subst esp
      obtain ⟨e1, e2⟩ := plain_cut hu hu' (hd (sl sp hs) hx hh) (hd (sl sp hs) hy hh') e
      obtain ⟨e3, e4⟩ := ih h' e2
      exact ⟨by rw [e1, e3], e4⟩
    | bra rs q n hr hq hh h =>
      rw [cellText_cons, cellText_cons] at e
      cases u with
      | nil => exact absurd rfl hne
      | cons c u =>
        simp at e
        exact absurd e.1 (not_bracket (hu c (by simp)) hs)
  | bra rs q n hr hq hh h ih =>
    cases h' with
    | nil =>
      rw [cellText_nil, cellText_cons, List.nil_append] at e
      have := hy '[' (by rw [← e]; simp)
      exact absurd this (by decide)
    | plain sp' u' hs' hne' hu' hh' h' =>
      rw [cellText_cons, cellText_cons] at e
      cases u' with
      | nil => exact absurd rfl hne'
      | cons c u =>
        simp at e
        exact absurd e.1.symm (not_bracket (hu' c (by simp)) hs')
    | bra rs' q' n' hr' hq' hh' h' =>
      rename_i c1 c2
      rw [cellText_cons, cellText_cons] at e
      have e' : rs.flatten ++ ']' :: (q ++ (cellText c1 ++ x)) = rs'.flatten ++ ']' :: (q' ++ (cellText c2 ++ y)) := by simpa using e
      obtain ⟨e1, e2⟩ := rules_cut hr hr' e'
      obtain ⟨e3, e4⟩ := quant_cut hq hq' (hd (by decide) hx hh) (hd (by decide) hy hh') e2
      obtain ⟨e5, e6⟩ := ih h' e4
      exact ⟨by rw [e1, e3, e5], e6⟩

/-- A text that can be read as cells. -/
def GoodText (t : Str) : Prop := ∃ cs, Good cs ∧ cellText cs = t

theorem slashed_inj {ts us : List Str} (h : ∀ t ∈ ts, GoodText t) (h' : ∀ t ∈ us, GoodText t) (e : slashed ts = slashed us) : ts = us := by
  have hd : ∀ l : List Str, ∀ c ∈ (slashed l).head?, c = '/' := by
    intro l c hc
    cases l with
    | nil => simp [slashed] at hc
    | cons t l => simp [slashed] at hc; exact hc.symm
  induction ts generalizing us with
  | nil =>
    cases us with
    | nil => rfl
    | cons u us => simp [slashed] at e
  | cons t ts ih =>
    cases us with
    | nil => simp [slashed] at e
    | cons u us =>
      have e' : t ++ slashed ts = u ++ slashed us := by simpa [slashed] using e
      obtain ⟨cs, h1, rfl⟩ := h t (by simp)
      obtain ⟨ds, h2, rfl⟩ := h' u (by simp)
      obtain ⟨h3, h4⟩ := good_cut h1 h2 (hd ts) (hd us) e'
      rw [h3, ih (fun t ht => h t (by simp [ht])) (fun t ht => h' t (by simp [ht])) h4]

theorem pidText_slashed (as : List Str) : pidText as = slashed as := by
  unfold pidText slashed
  cases as with
  | nil => rfl
  | cons a as =>
    rw [join]
    simp only [List.nil_append, List.map_cons, List.flatten_cons]
    have : ∀ (a : Str) (as : List Str), '/' :: join ['/'] (a :: as) = '/' :: a ++ (as.map ('/' :: ·)).flatten := by
      intro a as
      induction as generalizing a with
      | nil => simp [join]
      | cons b as ih => rw [join]; simp only [List.map_cons, List.flatten_cons]; rw [← ih]; simp
    rw [← this]; rfl

theorem classOf_rules {g : List Run} {k : Str} (h : ClassOf g k) : k = (gpair g).2 := by
  obtain ⟨R, h1, h2, rfl⟩ := h
  have : R.map Space.text = sortedSet (g.map (·.1.text)) := by
    rw [← sortedSet_of_ssorted (xs := R.map Space.text) (List.pairwise_map.mpr (h2.imp (fun h => strLt_iff.mpr h)))]
    apply sortedSet_congr
    intro a
    simp only [List.mem_map]
    constructor
    · rintro ⟨sp, hsp, rfl⟩
      obtain ⟨r, hr, rfl⟩ := (h1 sp).mp hsp
      exact ⟨r, hr, rfl⟩
    · rintro ⟨r, hr, rfl⟩
      exact ⟨r.1, (h1 _).mpr ⟨r, hr, rfl⟩, rfl⟩
  rw [this]; rfl

/-- As `Cover`, any length in the classes. -/
inductive WCover : List Run → List Cell → Prop where
  | nil : WCover [] []
  | lit (r : Run) {rs cs} (h : WCover rs cs) : WCover (r :: rs) ((r.1.text, runText r) :: cs)
  | cls (g : List Run) (n : Int) {rs cs} (hg : g ≠ []) (hn : 1 ≤ n ∨ n = -1) (h : WCover rs cs) :
      WCover (g ++ rs) (((gpair g).2, specStr (gpair g).2 n) :: cs)

theorem wcover_head {w : Str} {rs : List (Space × Str)} {cs : List Cell} (hr : Runs w rs) (h : WCover rs cs) {c : Char}
    (hc : c ∈ (cellText cs).head?) : c = '[' ∨ ∃ r rs', rs = r :: rs' ∧ r.1.isSign = false ∧ space? c = some r.1 := by
  cases h with
  | nil => simp at hc
  | lit r h =>
    rename_i rs' cs'
    rw [cellText_cons] at hc
    simp only at hc
    by_cases hs : r.1.isSign = true
    · left
      unfold runText at hc
      rw [if_pos hs] at hc
      simp at hc
      exact hc.symm
    · right
      unfold runText at hc
      rw [if_neg hs] at hc
      have hne := hr.nonempty r (by simp)
      cases hu : r.2 with
      | nil => exact absurd hu hne
      | cons c' u =>
        rw [hu] at hc
        simp at hc
        subst hc
        exact ⟨r, _, rfl, by simpa using hs, hr.space r (by simp) c' (by rw [hu]; simp)⟩
  | cls g n hg hn h =>
    left
    rw [cellText_cons] at hc
    obtain ⟨q, e, -⟩ := QText.spec (n := n) (by omega) (gpair g).2
    rw [e] at hc
    simp at hc
    exact hc.symm

theorem whead_plain {w : Str} {rs : List (Space × Str)} {cs : List Cell} (hr : Runs w rs) (h : WCover rs cs) :
    ∀ c ∈ (cellText cs).head?, c ≠ '{' ∧ c ≠ '+' := by
  intro c hc
  rcases wcover_head hr h hc with rfl | ⟨r, rs', -, h1, h2⟩
  · decide
  · constructor
    · rintro rfl
      have : space? '{' = some (.sign '{') := by decide
      rw [this] at h2; injection h2 with h2; rw [← h2] at h1; cases h1
    · rintro rfl
      have : space? '+' = some (.sign '+') := by decide
      rw [this] at h2; injection h2 with h2; rw [← h2] at h1; cases h1

theorem wcover_good {w : Str} {rs : List (Space × Str)} {cs : List Cell} (hr : Runs w rs) (h : WCover rs cs) : Good cs := by
  induction h generalizing w with
  | nil => exact .nil
  | lit r h ih =>
    rename_i rs' cs'
    have htail := runs_drop (g := [r]) hr
    have hne := hr.nonempty r (by simp)
    have hsp := hr.space r (by simp)
    by_cases hs : r.1.isSign = true
    · have hv := hr.valid r (by simp)
      have e : runText r = '[' :: [r.1.text].flatten ++ ']' :: (if r.2.length = 1 then [] else '{' :: decimal r.2.length ++ ['}']) := by
        unfold runText; rw [if_pos hs]; simp
      have hq : ∃ n, QText (if r.2.length = 1 then [] else '{' :: decimal r.2.length ++ ['}']) n := by
        split
        · exact ⟨_, .one⟩
        · rw [← natStr_decimal]
          exact ⟨_, .braces _ (isDecimalStr_natStr _)⟩
      obtain ⟨n, hq⟩ := hq
      have := Good.bra [r.1.text] _ n (by
        intro x hx
        simp at hx
        subst hx
        exact mem_ruleSet.mpr ⟨r.1, hv, rfl⟩) hq (whead_plain htail h) (ih htail)
      rw [← e] at this
      simpa using this
    · have e : runText r = r.2 := by unfold runText; rw [if_neg hs]
      rw [e]
      refine .plain r.1 r.2 (by simpa using hs) hne hsp ?_ (ih htail)
      intro c hc hc'
      rcases wcover_head htail h hc with rfl | ⟨r', rs'', e', h1, h2⟩
      · exact not_bracket hc' (by simpa using hs) rfl
      · rw [hc'] at h2
        injection h2 with h2
        exact hr.maximal [] r r' rs'' (by rw [e']; rfl) h2
  | cls g n hg hn h ih =>
    have htail := runs_drop hr
    obtain ⟨q, e, hq⟩ := QText.spec (n := n) (by omega) (gpair g).2
    rw [e]
    exact .bra (sortedSet (g.map (·.1.text))) q _ (by
      intro x hx
      rw [mem_sortedSet] at hx
      exact group_rules_mem (runs_take hr) x hx) hq (whead_plain htail h) (ih htail)


theorem WCover.append {rs rs' : List Run} {cs cs' : List Cell} (h : WCover rs cs) (h' : WCover rs' cs') : WCover (rs ++ rs') (cs ++ cs') := by
  induction h with
  | nil => exact h'
  | lit r _ ih => exact .lit r ih
  | cls g n hg hn _ ih => rw [List.append_assoc]; exact .cls g n hg hn ih

theorem groupText_wcover {w : Str} {g : List Run} (hr : Runs w g) {a : Str} (h : GroupText g a) : ∃ cs, WCover g cs ∧ cellText cs = a := by
  cases h with
  | lit =>
    clear hr
    induction g with
    | nil => exact ⟨[], .nil, rfl⟩
    | cons r g ih =>
      obtain ⟨cs, h1, h2⟩ := ih
      exact ⟨_, .lit r h1, by rw [cellText_cons, h2]; rfl⟩
  | len hg hk =>
    rw [classOf_rules hk]
    have h1 := lenOf_gpart hr hg
    rw [lenOf_gpart_eq hr] at h1
    have := WCover.cls (rs := []) (cs := []) g (writtenLength g : Int) hg (.inl h1) .nil
    rw [List.append_nil] at this
    exact ⟨_, this, by rw [specStr_nat (by omega)]; simp [cellText]⟩
  | wild hg hk =>
    rw [classOf_rules hk]
    have := WCover.cls (rs := []) (cs := []) g (-1) hg (.inr rfl) .nil
    rw [List.append_nil] at this
    exact ⟨_, this, by rw [specStr_wild]; simp [cellText]⟩

theorem groups_wcover {s : Str} {gts : List (List Run × Str)} (h1 : Runs s (gts.map (·.1)).flatten) (h2 : ∀ gt ∈ gts, GroupText gt.1 gt.2) :
    ∃ cs, WCover (gts.map (·.1)).flatten cs ∧ cellText cs = (gts.map (·.2)).flatten := by
  induction gts generalizing s with
  | nil => exact ⟨[], .nil, rfl⟩
  | cons gt gts ih =>
    rw [List.map_cons, List.flatten_cons] at h1
    obtain ⟨cs, e1, e2⟩ := groupText_wcover (runs_take h1) (h2 gt (by simp))
    obtain ⟨ds, e3, e4⟩ := ih (runs_drop h1) (fun gt hgt => h2 gt (by simp [hgt]))
    exact ⟨cs ++ ds, e1.append e3, by rw [cellText_append, e2, e4]; rfl⟩

theorem pieceText_good {s t : Str} (h : PieceText s t) : GoodText t := by
  obtain ⟨gts, ⟨h1, h2⟩, rfl⟩ := h
  obtain ⟨cs, e1, e2⟩ := groups_wcover h1 h2
  exact ⟨cs, wcover_good h1 e1, e2⟩

/-! ### The hash -/

theorem view_groups {V : ParsedPiece → View} (hV : V ∈ [multiView, mixedView, lastDotView]) {rs : List Run} (hne : rs ≠ []) :
    ∃ gs : List (List Run), gs.flatten = rs ∧ (V (ppOf rs)).pps = gs.map gpart := by
  simp only [List.mem_cons, List.not_mem_nil, or_false] at hV
  rcases hV with rfl | rfl | rfl
  · exact ⟨singles rs, singles_flatten rs, multi_groups rs⟩
  · by_cases h2 : 2 ≤ rs.length
    · obtain ⟨gs, h1, h3, -⟩ := mixed_pieces h2
      exact ⟨gs, h1, h3⟩
    · match rs, hne with
      | [r], _ =>
        refine ⟨[[r]], rfl, ?_⟩
        show mixedPieces (ppOf [r]) = [[r]].map gpart
        unfold mixedPieces
        rw [if_pos (by simp [ppOf])]
        simp [gpart, single_pair, ppOf, single]
      | _ :: _ :: _, _ => simp at h2
  · obtain ⟨gs, h1, -, h3⟩ := lastDot_pieces rs
    exact ⟨gs, h1, h3⟩

theorem cand_groups {V : ParsedPiece → View} (hV : V ∈ [multiView, mixedView, lastDotView]) {s : Str} {rs : List Run} (hr : Runs s rs)
    {as : List Str} (h : Cand (V (ppOf rs)).pps as) : ∃ gts, TextGroups s gts ∧ gts.map (·.2) = as := by
  by_cases hne : rs = []
  · subst hne
    have hs : s = [] := by have := hr.concat; simpa using this.symm
    subst hs
    have h0 : ∀ q ∈ (V (ppOf [])).pps, q.piece = [] ∧ q.fuzzyRule = [] := by
      simp only [List.mem_cons, List.not_mem_nil, or_false] at hV
      rcases hV with rfl | rfl | rfl <;> decide
    refine ⟨as.map (fun a => ([], a)), ⟨?_, ?_⟩, by simp [Function.comp_def]⟩
    · have : ((as.map (fun a => (([] : List Run), a))).map (·.1)).flatten = [] := by simp
      rw [this]; exact hr
    · intro gt hgt
      obtain ⟨a, ha, rfl⟩ := List.mem_map.mp hgt
      obtain ⟨i, hi, rfl⟩ := List.getElem_of_mem ha
      have hi' : i < (V (ppOf [])).pps.length := by rw [← h.1]; exact hi
      obtain ⟨h1, h2⟩ := h0 _ (List.getElem_mem hi')
      rcases h.2 i hi' hi with h3 | ⟨h3, -⟩
      · simp only; rw [h3, h1]; exact .lit
      · exact absurd h2 h3
  · obtain ⟨gs, h1, h2⟩ := view_groups hV hne
    rw [h2] at h
    obtain ⟨hl, hc⟩ := h
    clear h2 hne hV
    subst h1
    have : ∃ gts : List (List Run × Str), gts.map (·.1) = gs ∧ gts.map (·.2) = as ∧ ∀ gt ∈ gts, GroupText gt.1 gt.2 := by
      induction gs generalizing as s with
      | nil =>
        have : as = [] := by simpa using hl
        subst this
        exact ⟨[], rfl, rfl, by simp⟩
      | cons g gs ih =>
        cases as with
        | nil => simp at hl
        | cons a as =>
          rw [List.flatten_cons] at hr
          obtain ⟨gts, e1, e2, e3⟩ := ih (as := as) (by simpa using hl) (fun i hi hi' => by
            have := hc (i + 1) (by simpa using hi) (by simpa using hi')
            simpa using this) (runs_drop hr)
          refine ⟨(g, a) :: gts, by simp [e1], by simp [e2], ?_⟩
          intro gt hgt
          rw [List.mem_cons] at hgt
          rcases hgt with rfl | hgt
          · have := hc 0 (by simp) (by simp)
            simp only [List.map_cons, List.getElem_cons_zero] at this
            unfold CandPart at this
            rw [(gpart_pair g).1, (gpart_pair g).2] at this
            apply group_text (runs_take hr)
            rcases this with h | ⟨h, h'⟩
            · exact .inl h
            · exact .inr ⟨by rintro rfl; exact h rfl, h'⟩
          · exact e3 gt hgt
    obtain ⟨gts, e1, e2, e3⟩ := this
    exact ⟨gts, ⟨by rw [e1]; exact hr, e3⟩, e2⟩

theorem groups_good {s : Str} {gts : List (List Run × Str)} (h : TextGroups s gts) : ∀ a ∈ gts.map (·.2), GoodText a := by
  obtain ⟨h1, h2⟩ := h
  induction gts generalizing s with
  | nil => simp
  | cons gt gts ih =>
    rw [List.map_cons, List.flatten_cons] at h1
    intro a ha
    rw [List.map_cons, List.mem_cons] at ha
    rcases ha with rfl | ha
    · obtain ⟨cs, e1, e2⟩ := groupText_wcover (runs_take h1) (h2 gt (by simp))
      exact ⟨cs, wcover_good (runs_take h1) e1, e2⟩
    · exact ih (runs_drop h1) (fun gt hgt => h2 gt (by simp [hgt])) a ha

end OsUrl
