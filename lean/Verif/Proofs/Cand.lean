import Verif.Proofs.ViewOK

/-! The pattern texts that can occur for a piece, and what is asked of the hash. -/

namespace OsUrl
open Spec

/-- The texts a stage of single parts can give to a part. -/
def CandPart (q : ParsedPiece) (a : Str) : Prop :=
  a = q.piece ∨ q.fuzzyRule ≠ [] ∧ (a = specStr q.fuzzyRule (lenOf q) ∨ a = specStr q.fuzzyRule (-1))

/-- The texts for a list of parts. -/
def Cand (qs : List ParsedPiece) (as : List Str) : Prop :=
  as.length = qs.length ∧ ∀ i (hi : i < qs.length) (hi' : i < as.length), CandPart qs[i] as[i]

theorem flatF_cand {mcn : Int} (kw : Bool) (n j : Nat) {E : List Ent} {p : ParsedPiece}
    (h : p.fuzzyRule = [] → litStop mcn E = true) : CandPart p (flatF mcn kw n j E p) := by
  unfold flatF lenPat CandPart
  by_cases hr : p.fuzzyRule = []
  · rw [h hr, Bool.or_true, if_pos rfl]
    exact .inl rfl
  · split
    · exact .inl rfl
    · split
      · split
        · exact .inr ⟨hr, .inl rfl⟩
        · exact .inl rfl
      · exact .inr ⟨hr, .inr rfl⟩

theorem ent_same {j : Nat} {S : List Ins} {x : Ins} (hx : x ∈ S) (hpos : ∀ y ∈ S, 1 ≤ y.count)
    (h : ∀ y ∈ S, y.pp j = x.pp j) : ∃ e : Ent, ent j S = [e] ∧ 1 ≤ e.2 := by
  have h1 := ent_fst j S
  have h2 : uniq (S.map (Ins.pp j)) = [x.pp j] := by
    have hmem : ∀ p ∈ uniq (S.map (Ins.pp j)), p = x.pp j := by
      intro p hp
      obtain ⟨y, hy, rfl⟩ := List.mem_map.mp (mem_uniq.mp hp)
      exact h y hy
    have hin : x.pp j ∈ uniq (S.map (Ins.pp j)) := mem_uniq.mpr (List.mem_map.mpr ⟨x, hx, rfl⟩)
    have hn := nodup_uniq (S.map (Ins.pp j))
    match hu : uniq (S.map (Ins.pp j)) with
    | [] => rw [hu] at hin; cases hin
    | [p] => rw [hmem p (by rw [hu]; simp)]
    | p :: q :: l =>
      rw [hu] at hn
      have h3 := hmem p (by rw [hu]; simp)
      have h4 := hmem q (by rw [hu]; simp)
      rw [h3, h4] at hn
      simp at hn
  rw [h2] at h1
  match he : ent j S with
  | [] => rw [he] at h1; simp at h1
  | [e] =>
    refine ⟨e, rfl, ?_⟩
    have h5 := ent_total j S
    rw [he] at h5
    simp at h5
    rw [h5]
    exact total_pos hpos (List.ne_nil_of_mem hx)
  | _ :: _ :: _ => rw [he] at h1; simp at h1

theorem labs_get {F : LevelFn} {k j : Nat} {S : List Ins} {x : Ins} {i : Nat} (hi : i < k) :
    ∃ S' : List Ins, (∀ y ∈ S', y ∈ S) ∧ (x ∈ S → x ∈ S') ∧ (labs F k j S x)[i]? = some (lab F (j + i) S' x) := by
  induction k generalizing j S i with
  | zero => omega
  | succ k ih =>
    cases i with
    | zero => exact ⟨S, fun _ h => h, id, rfl⟩
    | succ i =>
      obtain ⟨S', h1, h2, h3⟩ := ih (j := j + 1) (S := nxt F j S x) (i := i) (by omega)
      refine ⟨S', fun y hy => (List.mem_filter.mp (h1 y hy)).1, fun hx => h2 (List.mem_filter.mpr ⟨hx, by simp⟩), ?_⟩
      rw [labs, List.getElem?_cons_succ, h3, show j + 1 + i = j + (i + 1) by omega]

theorem labs_cand {mcn : Int} (hm : 2 ≤ mcn) (kw : Bool) (V : ParsedPiece → View) (e : Ent) {S : List Ins} (hx : vrow V e ∈ S)
    (hpos : ∀ y ∈ S, 1 ≤ y.count)
    (hb : ∀ i, i < (V e.1).pps.length → ((vrow V e).pp i).fuzzyRule = [] → ∀ y ∈ S, y.pp i = (vrow V e).pp i) :
    Cand (V e.1).pps (labs (flatF mcn kw (V e.1).pps.length) (V e.1).pps.length 0 S (vrow V e)) := by
  refine ⟨labs_length _ _ _ _ _, ?_⟩
  intro i hi hi'
  obtain ⟨S', hs1, hs2, h⟩ := labs_get (F := flatF mcn kw (V e.1).pps.length) (j := 0) (S := S) (x := vrow V e) hi
  rw [List.getElem?_eq_getElem hi'] at h
  injection h with h
  rw [h, Nat.zero_add]
  have := flatF_cand (mcn := mcn) kw (V e.1).pps.length i (E := ent i S') (p := (vrow V e).pp i) (by
    intro hr
    obtain ⟨e', h1, h2⟩ := ent_same (hs2 hx) (fun y hy => hpos y (hs1 y hy)) (fun y hy => hb i hi hr y (hs1 y hy))
    rw [h1]
    exact litStop_single hm _ h2)
  rw [vrow_pp, List.getElem?_eq_getElem hi] at this
  unfold lab
  rw [vrow_pp, List.getElem?_eq_getElem hi]
  exact this

/-- The hash separates the texts that can occur for the parts of the pieces. -/
def SubHash (h : Runtime) (ps : List ParsedPiece) : Prop :=
  ∀ V ∈ [multiView, mixedView, lastDotView], ∀ p ∈ ps, ∀ p' ∈ ps, ∀ as bs : List Str, Cand (V p).pps as → Cand (V p').pps bs →
    (V p).pps.map (·.fuzzyRule) = (V p').pps.map (·.fuzzyRule) → h (pidText as) = h (pidText bs) → as = bs

theorem SubHash.mono {h : Runtime} {ps ps' : List ParsedPiece} (hs : SubHash h ps) (hsub : ∀ p ∈ ps', p ∈ ps) : SubHash h ps' :=
  fun V hV p hp p' hp' => hs V hV p (hsub p hp) p' (hsub p' hp')

theorem stageOK {Tok : Str → Prop} {V : ParsedPiece → View} (hj : JoinInj Tok) (hV : V ∈ [multiView, mixedView, lastDotView])
    {bs : List PieceBag} (hn : (bs.map PieceBag.piece).Nodup)
    (hpos : ∀ b ∈ bs, 1 ≤ b.count) (hv : ∀ b ∈ bs, ViewOK Tok V b.pp) {h : Runtime} (hh : SubHash h (bs.map PieceBag.pp))
    {mcn : Int} (hm : 2 ≤ mcn) (kw : Bool) : StageOK h mcn kw V bs := by
  refine ⟨hn, ?_⟩
  intro b hb
  have hG := groupOK hj hn hpos hv hb
  have hne := (hv b hb).ne
  refine ⟨(V b.pp).pps.length - 1, by have := List.length_pos_iff.mpr hne; omega, ?_⟩
  have e : (V b.pp).pps.length - 1 + 1 = (V b.pp).pps.length := by have := List.length_pos_iff.mpr hne; omega
  rw [e]
  refine ⟨hG, ?_⟩
  intro S _ hS x hx y hy he
  obtain ⟨c, hc, rfl⟩ := List.mem_map.mp (hS x hx)
  obtain ⟨d, hd, rfl⟩ := List.mem_map.mp (hS y hy)
  have hsub : ∀ b' ∈ bagView V bs (V b.pp).view, b' ∈ bs ∧ (V b'.pp).view = (V b.pp).view := by
    intro b' hb'
    have := List.mem_filter.mp hb'
    exact ⟨this.1, of_decide_eq_true this.2⟩
  have hrul : ∀ b' ∈ bagView V bs (V b.pp).view, (V b'.pp).pps.map (·.fuzzyRule) = (V b.pp).pps.map (·.fuzzyRule) :=
    fun b' hb' => same_rules hj (hv b' (hsub b' hb').1) (hv b hb) (hsub b' hb').2
  have hlen : ∀ b' ∈ bagView V bs (V b.pp).view, (V b'.pp).pps.length = (V b.pp).pps.length := by
    intro b' hb'
    have := congrArg List.length (hrul b' hb')
    simpa using this
  have hblank : ∀ c ∈ bagView V bs (V b.pp).view, ∀ i, i < (V c.pp).pps.length → ((vrow V c.ent).pp i).fuzzyRule = [] →
      ∀ y ∈ S, y.pp i = (vrow V c.ent).pp i := by
    intro c hc i hi hr y hy
    obtain ⟨d, hd, rfl⟩ := List.mem_map.mp (hS y hy)
    have hrr := (hrul d hd).trans (hrul c hc).symm
    have hi' : i < (V d.pp).pps.length := by rw [hlen d hd, ← hlen c hc]; exact hi
    rw [vrow_pp] at hr ⊢
    rw [vrow_pp]
    have ec : (V c.ent.1).pps[i]? = some (V c.pp).pps[i] := List.getElem?_eq_getElem hi
    have ed : (V d.ent.1).pps[i]? = some (V d.pp).pps[i] := List.getElem?_eq_getElem hi'
    rw [ec] at hr ⊢
    rw [ed]
    simp only [Option.getD_some] at hr ⊢
    have hr' : ((V d.pp).pps[i]).fuzzyRule = [] := by
      have := congrArg (fun l : List Str => l[i]?) hrr
      simp only [List.getElem?_map, List.getElem?_eq_getElem hi, List.getElem?_eq_getElem hi', Option.map_some, Option.some.injEq] at this
      rw [this, hr]
    have k1 := ((hv c (hsub c hc).1).parts _ (List.getElem_mem hi)).len.resolve_right (fun h => h.1 hr)
    have k2 := ((hv d (hsub d hd).1).parts _ (List.getElem_mem hi')).len.resolve_right (fun h => h.1 hr')
    rw [k1.2, k2.2]
  have hposS : ∀ y ∈ S, 1 ≤ y.count := by
    intro y hy
    obtain ⟨d, hd, rfl⟩ := List.mem_map.mp (hS y hy)
    exact hpos d (hsub d hd).1
  have c1 := labs_cand hm kw V c.ent hx hposS (hblank c hc)
  have c2 := labs_cand hm kw V d.ent hy hposS (hblank d hd)
  have e1 : (V c.ent.1).pps.length = (V b.pp).pps.length := hlen c hc
  have e2 : (V d.ent.1).pps.length = (V b.pp).pps.length := hlen d hd
  rw [e1] at c1
  rw [e2] at c2
  exact hh V hV c.pp (List.mem_map.mpr ⟨c, (hsub c hc).1, rfl⟩) d.pp (List.mem_map.mpr ⟨d, (hsub d hd).1, rfl⟩) _ _ c1 c2
    ((hrul c hc).trans (hrul d hd).symm) he

end OsUrl
