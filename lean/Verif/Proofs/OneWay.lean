import Verif.Proofs.OneMatch
import Verif.Props.C32

/-! A row that was not loaded fits the patterns of one family at most. -/

namespace OsUrl
open Spec

/-- A row that fits the labels of a family has the label of the family in every larger set, also if the row is not in the set. -/
theorem labs_way {mcn : Int} (hm : 2 ≤ mcn) {kw : Bool} {n N : Nat} {y : Ins} :
    ∀ {k j : Nat} {S C : List Ins}, FlatRows n (y :: S) → j + k ≤ n → (∀ c ∈ C, c ∈ S) → ∀ {x : Ins}, x ∈ C →
    (∀ c ∈ C, labs (flatF mcn kw N) k j S c = labs (flatF mcn kw N) k j S x) →
    (∀ c ∈ C, labs (flatF mcn kw N) k j C c = labs (flatF mcn kw N) k j C x) →
    FitRow y j (labs (flatF mcn kw N) k j C x) → labs (flatF mcn kw N) k j S y = labs (flatF mcn kw N) k j S x := by
  intro k
  induction k with
  | zero => intros; rfl
  | succ k ih =>
    intro j S C hyS hj hsub x hx h1 h2 hfit
    have hS : FlatRows n S := hyS.sub (fun z hz => by simp [hz])
    rw [labs, fitRow_cons] at hfit
    have hC := hS.sub hsub
    have l1 : ∀ c ∈ C, lab (flatF mcn kw N) j S c = lab (flatF mcn kw N) j S x := by
      intro c hc
      have := h1 c hc
      rw [labs, labs, List.cons.injEq] at this
      exact this.1
    have l2 : ∀ c ∈ C, lab (flatF mcn kw N) j C c = lab (flatF mcn kw N) j C x := by
      intro c hc
      have := h2 c hc
      rw [labs, labs, List.cons.injEq] at this
      exact this.1
    have hjn : j < n := by omega
    obtain ⟨cx, hcx⟩ := ent_of_row (j := j) hx
    have hlab : lab (flatF mcn kw N) j S y = lab (flatF mcn kw N) j S x := by
      rcases hyS.part j hjn with hp | hb
      case inr => unfold lab; rw [hb y (by simp), hb x (by simp [hsub x hx])]
      have hpS : ∀ z ∈ S, Part (z.pp j) := fun z hz => hp z (by simp [hz])
      refine flat_step hm (hS.ent hjn hpS (hsub x hx)) (hC.ent hjn (fun c hc => hpS c (hsub c hc)) hx) ?_ hcx ?_ (hp y (by simp))
        (hyS.rule y (by simp) x (by simp [hsub x hx]) j hjn) hfit.1
      · intro e he
        obtain ⟨p, c⟩ := e
        obtain ⟨z, hz, e⟩ := List.mem_map.mp (mem_ent.mp he).1
        obtain ⟨c', hc'⟩ := ent_of_row (j := j) (hsub z hz)
        exact ⟨_, hc', e⟩
      · intro e he
        obtain ⟨p, c⟩ := e
        obtain ⟨z, hz, e⟩ := List.mem_map.mp (mem_ent.mp he).1
        simp only at e ⊢
        rw [← e]
        exact l1 z hz
    rw [labs, labs, hlab, nxt_congr hlab]
    congr 1
    have hCn : nxt (flatF mcn kw N) j C x = C := nxt_all l2
    rw [hCn] at hfit
    refine ih (C := C) (hyS.sub ?_) (by omega) ?_ hx ?_ ?_ hfit.2
    · intro z hz
      rcases List.mem_cons.mp hz with rfl | hz
      · simp
      · exact List.mem_cons_of_mem _ (List.mem_filter.mp hz).1
    · intro c hc
      exact List.mem_filter.mpr ⟨hsub c hc, by simpa using l1 c hc⟩
    · intro c hc
      have := h1 c hc
      rw [labs, labs, List.cons.injEq, nxt_congr (l1 c hc)] at this
      exact this.2
    · intro c hc
      have := h2 c hc
      rw [labs, labs, List.cons.injEq, nxt_congr (l2 c hc), hCn] at this
      exact this.2

/-- Two families whose patterns fit the same row are one. -/
theorem famN_way {mcn : Int} (hm : 2 ≤ mcn) {kw : Bool} {n N : Nat} {y : Ins} : ∀ (f : Nat) (S : List Ins), FlatRows n (y :: S) → ∀ {x x' : Ins}, x ∈ S → x' ∈ S →
    unif (flatF mcn kw N) n (famN (flatF mcn kw N) n f S x) = true →
    unif (flatF mcn kw N) n (famN (flatF mcn kw N) n f S x') = true →
    FitRow y 0 (labs (flatF mcn kw N) n 0 (famN (flatF mcn kw N) n f S x) x) →
    FitRow y 0 (labs (flatF mcn kw N) n 0 (famN (flatF mcn kw N) n f S x') x') →
    famN (flatF mcn kw N) n f S x = famN (flatF mcn kw N) n f S x' := by
  intro f
  induction f with
  | zero => intros; rfl
  | succ f ih =>
    intro S hS x x' hx hx' hun hun' hfit hfit'
    rw [famN] at hun hfit hun' hfit' ⊢
    rw [famN]
    by_cases hu : unif (flatF mcn kw N) n S = true
    · rw [if_pos hu, if_pos hu]
    · rw [if_neg hu] at hun hfit hun' hfit' ⊢
      rw [if_neg hu]
      have step : ∀ {z : Ins}, z ∈ S → unif (flatF mcn kw N) n (famN (flatF mcn kw N) n f
            (S.filter (fun y => decide (labs (flatF mcn kw N) n 0 S y = labs (flatF mcn kw N) n 0 S z))) z) = true →
          FitRow y 0 (labs (flatF mcn kw N) n 0 (famN (flatF mcn kw N) n f
            (S.filter (fun y => decide (labs (flatF mcn kw N) n 0 S y = labs (flatF mcn kw N) n 0 S z))) z) z) →
          labs (flatF mcn kw N) n 0 S y = labs (flatF mcn kw N) n 0 S z := by
        intro z hz hunz hfitz
        have hself := famN_self (F := flatF mcn kw N) (n := n) f _ z
          (show z ∈ S.filter (fun y => decide (labs (flatF mcn kw N) n 0 S y = labs (flatF mcn kw N) n 0 S z)) from List.mem_filter.mpr ⟨hz, by simp⟩)
        refine labs_way hm hS (by omega) (fun c hc => (List.mem_filter.mp (famN_sub _ _ _ c hc)).1) hself ?_ ?_ hfitz
        · intro c hc
          exact of_decide_eq_true (List.mem_filter.mp (famN_sub _ _ _ c hc)).2
        · intro c hc
          exact unif_iff.mp hunz c hc z hself
      have e : labs (flatF mcn kw N) n 0 S x' = labs (flatF mcn kw N) n 0 S x := (step hx' hun' hfit').symm.trans (step hx hun hfit)
      rw [e] at hun' hfit' ⊢
      refine ih _ (hS.sub ?_) (List.mem_filter.mpr ⟨hx, by simp⟩) (List.mem_filter.mpr ⟨hx', by simpa using e⟩) hun hun' hfit hfit'
      intro z hz
      rcases List.mem_cons.mp hz with rfl | hz
      · simp
      · exact List.mem_cons_of_mem _ (List.mem_filter.mp hz).1

/-- The row of some pieces. -/
def rowFor (pieces : List Str) : Ins := ⟨pieces.map (fun s => (pieceOf s, none)), 1, []⟩

theorem rowFor_pp {pieces : List Str} {j : Nat} {s : Str} (h : pieces[j]? = some s) : (rowFor pieces).pp j = pieceOf s := by
  simp [rowFor, Ins.pp, h]

variable {h : Runtime} {mcn : Int} {hist : List (Str × Option Str)}

/-- The rows of a sub-maker together with a row of one space per piece with their rules. -/
theorem one_rows_with (hh : NoHashClash h (UrlRow hist)) {M : Made} (hM : MadeOK h mcn hist M) {r0 : Rec} (hr0 : r0 ∈ M.g) {row0 : List Str}
    (hk0 : ∀ s ∈ row0, ∀ c ∈ s, Known c) (h0 : r0.rules = row0.map (fun s => (pieceOf s).fuzzyRule)) (hlen : row0.length = M.m.depth)
    (hone : ∀ s ∈ row0, OneSpace s) : FlatRows M.m.depth (rowFor row0 :: norm (insOf M.g)) := by
  obtain ⟨rules, hall⟩ := hM.all
  obtain ⟨hok, hrow⟩ := rows_ok hh hM.ne hM.acc hall
  have hrul : ∀ x ∈ rowFor row0 :: norm (insOf M.g), ∀ j, j < M.m.depth → ∃ s s0, (∀ c ∈ s, Known c) ∧ s0 ∈ row0 ∧ row0[j]? = some s0 ∧
      x.pp j = pieceOf s ∧ (pieceOf s).fuzzyRule = (pieceOf s0).fuzzyRule := by
    intro x hx j hj
    obtain ⟨s0, h4⟩ : ∃ s, row0[j]? = some s := ⟨row0[j], List.getElem?_eq_getElem (by omega)⟩
    rcases List.mem_cons.mp hx with rfl | hx
    · exact ⟨s0, s0, hk0 s0 (List.mem_of_getElem? h4), List.mem_of_getElem? h4, h4, rowFor_pp h4, rfl⟩
    obtain ⟨row, -, hraw⟩ := hrow x hx
    obtain ⟨r, hr, hp⟩ := (norm_rows M.g x hx).path
    have hl := hok.len x hx
    have e1 : row.map pieceOf = r.pps := by rw [← hraw.path, hp]; simp [Function.comp_def]
    have e2 : row.map (fun s => (pieceOf s).fuzzyRule) = row0.map (fun s => (pieceOf s).fuzzyRule) := by
      have a1 : r.rules = r0.rules := by rw [(hall r hr).2, (hall r0 hr0).2]
      rw [h0] at a1
      unfold Rec.rules at a1
      rw [← e1, List.map_map] at a1
      exact a1
    have hj1 : j < row.length := by rw [← hraw.length, hl]; exact hj
    obtain ⟨s, hs⟩ : ∃ s, row[j]? = some s := ⟨row[j], List.getElem?_eq_getElem hj1⟩
    have e3 := congrArg (·[j]?) e2
    simp only [List.getElem?_map, hs, h4, Option.map_some, Option.some.injEq] at e3
    exact ⟨s, s0, hraw.known s (List.mem_of_getElem? hs), List.mem_of_getElem? h4, h4, (hraw.pp hs).1, e3⟩
  refine ⟨?_, ?_, ?_⟩
  · intro x hx
    rcases List.mem_cons.mp hx with rfl | hx
    · show (1 : Int) ≤ 1; omega
    · exact hok.pos x hx
  · intro j hj
    by_cases hb : row0[j]? = some []
    · right
      intro x hx
      obtain ⟨s, s0, a1, a2, a3, a4, a5⟩ := hrul x hx j hj
      rw [a3, Option.some.injEq] at hb
      rw [a4]
      exact (pieceOf_one a1 (hk0 s0 a2) (hone s0 a2) a5).2 hb
    · left
      intro x hx
      obtain ⟨s, s0, a1, a2, a3, a4, a5⟩ := hrul x hx j hj
      rw [a4]
      apply (pieceOf_one a1 (hk0 s0 a2) (hone s0 a2) a5).1
      rintro rfl
      exact hb a3
  · intro x hx y hy j hj
    obtain ⟨s, s0, -, -, a3, a4, a5⟩ := hrul x hx j hj
    obtain ⟨s', s0', -, -, b3, b4, b5⟩ := hrul y hy j hj
    rw [a3, Option.some.injEq] at b3
    subst b3
    rw [a4, b4, a5, b5]

/-- A matched pattern has the rules of the pieces. -/
theorem match_rules (hm : 2 ≤ mcn) (hh : NoHashClash h (UrlRow hist)) {M : Made} (hM : MadeOK h mcn hist M) {C : List Ins} {t : Tree NodeData}
    (hC : ClusterOK h mcn hist M C t) {p : List (Str × NodeData)} (hp : p ∈ t.paths) {pieces : List Str} (hone : ∀ s ∈ pieces, OneSpace s)
    {uss : List (List GUnit)} (ht : p.map (fun kn => kn.2.pattern) = uss.map patText) (hlen : uss.length = pieces.length) (lp : Nat → Bool)
    (hall : ∀ (i : Nat) (us : List GUnit) (s : Str), uss[i]? = some us → pieces[i]? = some s → Generated us ∧ Matches (lp i) us s) :
    (∃ r ∈ M.g, r.rules = pieces.map (fun s => (pieceOf s).fuzzyRule)) ∧ FitRow (rowFor pieces) 0 (p.map (fun kn => kn.2.pattern)) := by
  have hfits : ∀ (i : Nat) (us : List GUnit) (s : Str), uss[i]? = some us → pieces[i]? = some s →
      FitPart (pieceOf s) (patText us) ∧ PieceText s (patText us) := by
    intro i us s hu hs
    obtain ⟨a, b⟩ := hall i us s hu hs
    exact match_fit a b (hone s (List.mem_of_getElem? hs))
  obtain ⟨r, hr, u, row, hu, ha, hkr, b1, b2, -⟩ := path_url hM hC hp
  obtain ⟨sts, a1, a2, a3⟩ := path_text hm hh hM hC hp hkr b2
  constructor
  · refine ⟨r, hr, ?_⟩
    unfold Rec.rules
    rw [b1, List.map_map]
    have hl : sts.length = uss.length := by
      have := congrArg List.length (a3.symm.trans ht)
      simpa using this
    rw [← a1, List.map_map]
    apply List.ext_getElem?
    intro i
    rw [List.getElem?_map, List.getElem?_map]
    by_cases hi : i < sts.length
    · have hs := List.getElem?_eq_getElem hi
      have hu := List.getElem?_eq_getElem (l := uss) (i := i) (by omega)
      have hpi := List.getElem?_eq_getElem (l := pieces) (i := i) (by omega)
      rw [hs, hpi]
      simp only [Option.map_some, Option.some.injEq, Function.comp_apply]
      have e := congrArg (·[i]?) (a3.symm.trans ht)
      simp only [List.getElem?_map, hs, hu, Option.map_some, Option.some.injEq] at e
      have x := a2 _ (List.getElem_mem hi)
      rw [e] at x
      exact pieceText_spaces x (hfits i _ _ hu hpi).2
    · rw [List.getElem?_eq_none (by omega), List.getElem?_eq_none (by omega)]
      rfl
  · rw [ht]
    intro i hi
    have hi' : i < uss.length := by simpa using hi
    have hpi := List.getElem?_eq_getElem (l := pieces) (i := i) (by omega)
    rw [Nat.zero_add, rowFor_pp hpi, List.getElem_map]
    exact (hfits i _ _ (List.getElem?_eq_getElem hi') hpi).1

/-- Two clusters of one structure whose patterns match the same pieces, each of one space, are one cluster. -/
theorem two_match_close (md5 : Str → Str) (hm : 2 ≤ mcn) (hc : NoCollision md5 (accepted hist)) (hh : NoHashClash h (UrlRow hist)) {Ms : List Made}
    (h1 : Ms.map (·.g) = (groupBy (Rec.sid md5) (accepted hist)).map (·.2)) {M M' : Made} (hMm : M ∈ Ms) (hMm' : M' ∈ Ms)
    (hM : MadeOK h mcn hist M) (hM' : MadeOK h mcn hist M') {C C' : List Ins} {t t' : Tree NodeData} (hC : ClusterOK h mcn hist M C t)
    (hC' : ClusterOK h mcn hist M' C' t') {p p' : List (Str × NodeData)} (hp : p ∈ t.paths) (hp' : p' ∈ t'.paths) (hmm : M.m = M'.m)
    {pieces : List Str} (hk : ∀ s ∈ pieces, ∀ c ∈ s, Known c) (hone : ∀ s ∈ pieces, OneSpace s) (hdep : pieces.length = M.m.depth)
    (f : (∃ r ∈ M.g, r.rules = pieces.map (fun s => (pieceOf s).fuzzyRule)) ∧ FitRow (rowFor pieces) 0 (p.map (fun kn => kn.2.pattern)))
    (f' : (∃ r ∈ M'.g, r.rules = pieces.map (fun s => (pieceOf s).fuzzyRule)) ∧ FitRow (rowFor pieces) 0 (p'.map (fun kn => kn.2.pattern))) :
    M = M' ∧ ∃ q ∈ t.paths, q.map (·.1) = p'.map (·.1) := by
  obtain ⟨⟨r, hr, er⟩, hfit⟩ := f
  obtain ⟨⟨r', hr', er'⟩, hfit'⟩ := f'
  obtain ⟨_, hal⟩ := hM.all
  obtain ⟨_, hal'⟩ := hM'.all
  have hsid : r.sid md5 = r'.sid md5 := by
    rw [sid_eq_iff hc (hM.acc r hr) (hM'.acc r' hr')]
    exact ⟨by rw [(hal r hr).1, (hal' r' hr').1, hmm], by rw [er, er']⟩
  have hMM := made_same md5 h1 hMm hMm' hr hr' hsid
  subst hMM
  refine ⟨rfl, ?_⟩
  have hyR := one_rows_with hh hM hr hk er hdep hone
  have hR : FlatRows M.m.depth (norm (insOf M.g)) := hyR.sub (fun z hz => by simp [hz])
  obtain ⟨k1, k2⟩ := row_of_path hC hp
  obtain ⟨k1', k2'⟩ := row_of_path hC' hp'
  have hfam := hC.final.fam _ k1
  rw [famN_top hm _ _ hR k2] at hfam
  have hfam' := hC'.final.fam _ k1'
  rw [famN_top hm _ _ hR k2'] at hfam'
  have hsub : ∀ x ∈ C.map Ins.bare, x ∈ norm (insOf M.g) := by
    intro x hx
    obtain ⟨y, hy, rfl⟩ := List.mem_map.mp hx
    exact hC.sub y hy
  have hsub' : ∀ x ∈ C'.map Ins.bare, x ∈ norm (insOf M.g) := by
    intro x hx
    obtain ⟨y, hy, rfl⟩ := List.mem_map.mp hx
    exact hC'.sub y hy
  rw [path_pats hC hp, labs_top hm (hR.sub hsub) (by omega) (List.mem_map_of_mem k1), labs_perm (flatF_perm _ _ _) hfam] at hfit
  rw [path_pats hC' hp', labs_top hm (hR.sub hsub') (by omega) (List.mem_map_of_mem k1'), labs_perm (flatF_perm _ _ _) hfam'] at hfit'
  have e := famN_way hm _ _ hyR k2 k2' (famN_unif _ _ k2 (by omega)) (famN_unif _ _ k2' (by omega)) hfit hfit'
  have hmem : (rowOf p').bare ∈ C.map Ins.bare := by
    rw [hfam.mem_iff, e, ← hfam'.mem_iff]
    exact List.mem_map_of_mem k1'
  obtain ⟨y, hy, ey⟩ := List.mem_map.mp hmem
  obtain ⟨q, hq, rfl⟩ := path_of_row hC hy
  refine ⟨q, hq, ?_⟩
  rw [hC.keys q hq, hC'.keys p' hp', ← bare_keys, ey, bare_keys]

end OsUrl
