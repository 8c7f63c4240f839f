import Verif.Proofs.Closed4
import Verif.Props.C30

/-! The clusters of `make()` in closed form. -/

namespace OsUrl
open Spec

theorem cut_runs {s : Str} (h : ∀ c ∈ s, Known c) : cut s = runsOf s := by
  induction s with
  | nil => rfl
  | cons c s ih =>
    rw [cut, runsOf, ih (fun x hx => h x (by simp [hx]))]
    have hc : space? c = some (spaceD c) := spaceD_eq (h c (by simp))
    rw [hc]
    cases runsOf s with
    | nil => rfl
    | cons r rest => rfl

theorem cut_row {row : List Str} (h : ∀ s ∈ row, ∀ c ∈ s, Known c) : row.map (fun s => ppOf (cut s)) = row.map pieceOf :=
  List.map_congr_left (fun s hs => by rw [cut_runs (h s hs)]; rfl)

theorem toIns_url {row : List Str} (h : ∀ s ∈ row, ∀ c ∈ s, Known c) :
    toIns ppOf (urlRow row) = ⟨(row.map pieceOf).map (fun pp => (pp, none)), 1, []⟩ := by
  unfold toIns urlRow
  rw [← cut_row h]
  simp [Function.comp_def]

theorem row_inj {row row' : List Str} (h : ∀ s ∈ row, ∀ c ∈ s, Known c) (h' : ∀ s ∈ row', ∀ c ∈ s, Known c)
    (e : row.map pieceOf = row'.map pieceOf) : row = row' := by
  induction row generalizing row' with
  | nil =>
    cases row' with
    | nil => rfl
    | cons s row' => simp at e
  | cons s row ih =>
    cases row' with
    | nil => simp at e
    | cons s' row' =>
      simp only [List.map_cons, List.cons.injEq] at e
      rw [ih (fun x hx => h x (by simp [hx])) (fun x hx => h' x (by simp [hx])) e.2,
        pieceOf_inj (runsOf_spec (h s (by simp))) (runsOf_spec (h' s' (by simp))) (congrArg _ e.1)]

theorem row_rules {row : List Str} (h : ∀ s ∈ row, ∀ c ∈ s, Known c) :
    (row.map pieceOf).map (·.fuzzyRule) = row.map (fun s => clsText (cut s)) := by
  rw [List.map_map]
  apply List.map_congr_left
  intro s hs
  rw [cut_runs (h s hs)]
  exact ppOf_rule ⟨s, runsOf_spec (h s hs)⟩

theorem nodup_map_of {α β : Type} {f : α → β} {l : List α} (hl : l.Nodup) (hf : ∀ a ∈ l, ∀ b ∈ l, f a = f b → a = b) : (l.map f).Nodup := by
  induction l with
  | nil => simp
  | cons a l ih =>
    rw [List.nodup_cons] at hl
    rw [List.map_cons, List.nodup_cons]
    refine ⟨?_, ih hl.2 (fun x hx y hy => hf x (by simp [hx]) y (by simp [hy]))⟩
    intro hm
    obtain ⟨b, hb, e⟩ := List.mem_map.mp hm
    exact hl.1 (hf b (by simp [hb]) a (by simp) e ▸ hb)

/-- A cluster with the row of a URL. -/
theorem cluster_closed {h : Runtime} {mcn : Int} (hm : 2 ≤ mcn) {hist : List (Str × Option Str)} {M : Made} {C : List Ins} {t : Tree NodeData}
    (hM : MadeOK h mcn hist M) (hC : ClusterOK h mcn hist M C t) {r : Rec} (hr : r ∈ M.g) {row : List Str} (hk : ∀ s ∈ row, ∀ c ∈ s, Known c)
    (hrow : r.pps = row.map pieceOf) {x : Ins} (hx : x ∈ C) (hxr : x.mute = ⟨r.pps.map (fun pp => (pp, none)), 1, []⟩)
    {R : List (List Str)} (hR : R.Nodup) (hRk : ∀ row' ∈ R, ∀ s ∈ row', ∀ c ∈ s, Known c)
    (hRm : ∀ row', (∀ s ∈ row', ∀ c ∈ s, Known c) → (row' ∈ R ↔ ∃ r' ∈ M.g, r'.pps = row'.map pieceOf)) :
    (t.paths.map pathView).Perm (clusterOf mcn M.m.pathDepth R row) := by
  have hF := topF_perm mcn M.m false M.m.depth
  obtain ⟨rules, hall⟩ := hM.all
  have hrowR : row ∈ R := (hRm row hk).mpr ⟨r, hr, hrow⟩
  have hlen : ∀ row' ∈ R, row'.length = M.m.depth := by
    intro row' hr'
    obtain ⟨r', hr', e⟩ := (hRm row' (hRk row' hr')).mp hr'
    have := (accepted_depth (hM.acc r' hr')).1
    rw [e, List.length_map, (hall r' hr').1] at this
    exact this
  -- the table
  have hT : Tab (TopCol M.m.pathDepth (fun j => (rules[j]?).getD [])) M.m.depth (R.map urlRow) := by
    intro y hy
    obtain ⟨row', hr', rfl⟩ := List.mem_map.mp hy
    have hl := hlen row' hr'
    refine ⟨by simpa [urlRow] using hl, by simp [urlRow], ?_⟩
    intro j hj
    have hj' : j < row'.length := by omega
    have hkj := hRk row' hr' _ (List.getElem_mem hj')
    obtain ⟨r', hrm, e⟩ := (hRm row' (hRk row' hr')).mp hr'
    have eat : (urlRow row').at j = cut row'[j] := by
      simp [urlRow, WRow.at, List.getElem?_eq_getElem hj']
    have erule : rules = row'.map (fun s => clsText (cut s)) := by
      rw [← (hall r' hrm).2, Rec.rules, e]; exact row_rules (hRk row' hr')
    rw [eat]
    refine ⟨?_, ?_, ?_⟩
    · rw [cut_runs hkj]; exact ⟨_, runsOf_spec hkj⟩
    · rw [erule]; simp [List.getElem?_eq_getElem hj']
    · intro hd
      obtain ⟨row2, -, -, -, h4⟩ := accepted_row (hM.acc r' hrm)
      have := h4 j (pieceOf row'[j]) (by rw [(hall r' hrm).1]; exact hd) (by rw [e]; simp [List.getElem?_eq_getElem hj'])
      rw [cut_runs hkj, ← ppOf_rule ⟨_, runsOf_spec hkj⟩]
      exact this
  -- the rows of the sub-maker
  have hrows : ((norm (insOf M.g)).map Ins.mute).Perm ((R.map urlRow).map (toIns ppOf)) := by
    rw [List.perm_ext_iff_of_nodup]
    · intro z
      rw [muted_mem hM.acc, List.map_map, List.mem_map]
      constructor
      · rintro ⟨r', hr', rfl⟩
        obtain ⟨row', -, hk', e, -⟩ := accepted_row (hM.acc r' hr')
        exact ⟨row', (hRm row' hk').mpr ⟨r', hr', e⟩, by rw [Function.comp_apply, toIns_url hk', e]⟩
      · rintro ⟨row', hr', rfl⟩
        obtain ⟨r', hrm, e⟩ := (hRm row' (hRk row' hr')).mp hr'
        exact ⟨r', hrm, by rw [Function.comp_apply, toIns_url (hRk row' hr'), e]⟩
    · have hn : ((norm (insOf M.g)).map Ins.keys).Nodup := by rw [norm_keys]; exact nodup_uniq _
      have e : (norm (insOf M.g)).map Ins.keys = ((norm (insOf M.g)).map Ins.mute).map Ins.keys := by
        rw [List.map_map]; exact List.map_congr_left (fun x _ => (mute_keys x).symm)
      rw [e] at hn
      exact nodup_of_map hn
    · rw [List.map_map]
      apply nodup_map_of hR
      intro a ha b hb e
      rw [Function.comp_apply, Function.comp_apply, toIns_url (hRk a ha), toIns_url (hRk b hb)] at e
      apply row_inj (hRk a ha) (hRk b hb)
      have := congrArg (fun i : Ins => i.path.map (·.1)) e
      simpa [Function.comp_def] using this
  have hL : (norm (insOf M.g)).length = R.length := by simpa using hrows.length_eq
  have hn : row.length = M.m.depth := hlen row hrowR
  have hxu : x.mute = toIns ppOf (urlRow row) := by rw [hxr, toIns_url hk, hrow]
  have hi := ppOf_injOn M.m.pathDepth (fun j => (rules[j]?).getD [])
  have hA := url_agree hm M.m M.m.depth (fun j => (rules[j]?).getD [])
  have hmem : (urlRow row).1 ∈ (R.map urlRow).map (·.1) := List.mem_map_of_mem (List.mem_map_of_mem hrowR)
  -- the members
  have hfam : (C.map Ins.mute).Perm ((family (urlRule mcn M.m.pathDepth) M.m.depth (R.length + 1) (R.map urlRow) (urlRow row)).map (toIns ppOf)) := by
    have h1 := (hC.final.fam x hx).map Ins.mute
    rw [← famN_map mute_same, mute_bare, List.map_map] at h1
    have h2 : (C.map Ins.mute).Perm (famN (topF mcn M.m false M.m.depth) M.m.depth ((norm (insOf M.g)).length + 1)
        ((norm (insOf M.g)).map Ins.mute) x.mute) := by simpa [Function.comp_def, mute_bare] using h1
    rw [family_eq hi hA hT hmem, ← hxu, ← hL]
    exact h2.trans (famN_perm hF _ hrows _)
  refine (views_perm hC).trans ((hfam.map _).trans (List.Perm.of_eq ?_))
  unfold clusterOf
  simp only
  rw [hn, List.map_map]
  apply List.map_congr_left
  intro y hy
  have hTf := hT.sub (fun x hx => family_sub (F := urlRule mcn M.m.pathDepth) (n := M.m.depth) (k := R.length + 1) (x := urlRow row) hx)
  rw [Function.comp_apply, labs_perm hF hfam, ← texts_eq hi hA (by omega) hTf (List.mem_map_of_mem hy)]
  congr 1
  unfold Ins.keys toIns
  rw [List.map_map]
  apply List.map_congr_left
  intro g _
  exact (Prod.mk.inj (vpair_ppOf g)).1

end OsUrl
