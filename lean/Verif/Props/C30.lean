import Verif.Proofs.PatRe
import Verif.Proofs.Witness

/-! # C30: the clusters do not depend on the order of loading -/

namespace OsUrl
open Spec

/-- The row without metas. -/
def Ins.mute (x : Ins) : Ins := { x.bare with metas := [] }

theorem mute_same (x : Ins) : SameRow x.mute x := ⟨by simp [Ins.mute, Ins.bare, Function.comp_def], rfl⟩

theorem mute_bare (x : Ins) : x.bare.mute = x.mute := by simp [Ins.mute, Ins.bare, Function.comp_def]

theorem mute_keys (x : Ins) : x.mute.keys = x.keys := (mute_same x).keys

theorem unif_map {F : LevelFn} {n : Nat} {S : List Ins} {f : Ins → Ins} (hf : ∀ x, SameRow (f x) x) : unif F n (S.map f) = unif F n S := by
  rw [Bool.eq_iff_iff, unif_iff, unif_iff]
  have e : ∀ x, labs F n 0 (S.map f) (f x) = labs F n 0 S x := fun x => labs_map (fun x _ => hf x) (hf x)
  constructor
  · intro h x hx y hy
    rw [← e x, ← e y]
    exact h _ (List.mem_map_of_mem hx) _ (List.mem_map_of_mem hy)
  · intro h x hx y hy
    obtain ⟨x', hx', rfl⟩ := List.mem_map.mp hx
    obtain ⟨y', hy', rfl⟩ := List.mem_map.mp hy
    rw [e x', e y']
    exact h x' hx' y' hy'

theorem famN_map {F : LevelFn} {n : Nat} {f : Ins → Ins} (hf : ∀ x, SameRow (f x) x) (k : Nat) {S : List Ins} (x : Ins) :
    famN F n k (S.map f) (f x) = (famN F n k S x).map f := by
  induction k generalizing S with
  | zero => rfl
  | succ k ih =>
    rw [famN, famN, unif_map hf]
    split
    · rfl
    · have e : ∀ x, labs F n 0 (S.map f) (f x) = labs F n 0 S x := fun x => labs_map (fun x _ => hf x) (hf x)
      rw [← ih, e x, List.filter_map]
      congr 2
      apply List.filter_congr
      intro y _
      simp [e y]

/-- The muted rows of a sub-maker. -/
theorem muted_mem {hist : List (Str × Option Str)} {g : List Rec} (hg : ∀ r ∈ g, r ∈ accepted hist) (x : Ins) :
    x ∈ (norm (insOf g)).map Ins.mute ↔ ∃ r ∈ g, x = ⟨r.pps.map (fun pp => (pp, none)), 1, []⟩ := by
  have h1 : ∀ y ∈ norm (insOf g), ∃ r ∈ g, y.mute = ⟨r.pps.map (fun pp => (pp, none)), 1, []⟩ := by
    intro y hy
    have h := norm_rows g y hy
    obtain ⟨r, hr, hp⟩ := h.path
    refine ⟨r, hr, ?_⟩
    have e := h.count
    simp only [Ins.mute, Ins.bare, hp, e, List.map_map, Function.comp_def]
  constructor
  · intro hx
    obtain ⟨y, hy, rfl⟩ := List.mem_map.mp hx
    exact h1 y hy
  · rintro ⟨r, hr, rfl⟩
    have hk : r.keys ∈ (norm (insOf g)).map Ins.keys := by
      rw [norm_keys, mem_uniq, insOf_keys]; exact List.mem_map_of_mem hr
    obtain ⟨y, hy, e⟩ := List.mem_map.mp hk
    obtain ⟨r', hr', e'⟩ := h1 y hy
    have hk' : r'.keys = r.keys := by
      rw [← e, ← mute_keys, e']; simp [Ins.keys, Rec.keys, Function.comp_def]
    rw [← same_pps (hg r' hr') (hg r hr) hk', ← e']
    exact List.mem_map_of_mem hy

/-- Sub-makers with the same URLs have the same muted rows. -/
theorem muted_perm {hist hist' : List (Str × Option Str)} {g g' : List Rec} (hg : ∀ r ∈ g, r ∈ accepted hist)
    (hg' : ∀ r ∈ g', r ∈ accepted hist') (hk : ∀ pps, (∃ r ∈ g, r.pps = pps) ↔ ∃ r ∈ g', r.pps = pps) :
    ((norm (insOf g)).map Ins.mute).Perm ((norm (insOf g')).map Ins.mute) := by
  have key : ∀ (g : List Rec), ((norm (insOf g)).map Ins.mute).Nodup := by
    intro g
    have hn : ((norm (insOf g)).map Ins.keys).Nodup := by rw [norm_keys]; exact nodup_uniq _
    have e : (norm (insOf g)).map Ins.keys = ((norm (insOf g)).map Ins.mute).map Ins.keys := by
      rw [List.map_map]; exact List.map_congr_left (fun x _ => (mute_keys x).symm)
    rw [e] at hn
    exact nodup_of_map hn
  rw [List.perm_ext_iff_of_nodup (key g) (key g')]
  intro x
  rw [muted_mem hg, muted_mem hg']
  constructor
  · rintro ⟨r, hr, rfl⟩
    obtain ⟨r', hr', e⟩ := (hk r.pps).mp ⟨r, hr, rfl⟩
    exact ⟨r', hr', by rw [e]⟩
  · rintro ⟨r, hr, rfl⟩
    obtain ⟨r', hr', e⟩ := (hk r.pps).mpr ⟨r, hr, rfl⟩
    exact ⟨r', hr', by rw [e]⟩

/-- The pieces of a path with their patterns. -/
def pathView (p : List (Str × NodeData)) : List (Str × Str) := p.map (fun kn => (kn.1, kn.2.pattern))

theorem views_perm {h : Runtime} {mcn : Int} {hist : List (Str × Option Str)} {M : Made} {C : List Ins} {t : Tree NodeData}
    (hC : ClusterOK h mcn hist M C t) : (t.paths.map pathView).Perm ((C.map Ins.mute).map (fun z =>
      z.keys.zip (labs (topF mcn M.m false M.m.depth) M.m.depth 0 (C.map Ins.mute) z))) := by
  have h1 := (hC.rows.map Ins.mute).map (fun z =>
      z.keys.zip (labs (topF mcn M.m false M.m.depth) M.m.depth 0 (C.map Ins.mute) z))
  refine (List.Perm.of_eq ?_).trans h1
  rw [List.map_map, List.map_map]
  apply List.map_congr_left
  intro p hp
  have e1 : pathView p = (p.map (·.1)).zip (p.map (fun kn => kn.2.pattern)) := by
    rw [pathView, List.zip_map']
  rw [e1, hC.keys p hp, path_pats hC hp]
  simp only [Function.comp_apply, mute_keys]
  congr 1
  rw [labs_map (fun x _ => mute_same x) (mute_same _), labs_map (fun x _ => bare_same x) (bare_same _)]

/-- Two clusters with a common row. -/
theorem clusters_same {h : Runtime} {mcn : Int} {hist hist' : List (Str × Option Str)} {M M' : Made} {C C' : List Ins} {t t' : Tree NodeData}
    (hC : ClusterOK h mcn hist M C t) (hC' : ClusterOK h mcn hist' M' C' t') (hm : M'.m = M.m)
    (hg : ((norm (insOf M.g)).map Ins.mute).Perm ((norm (insOf M'.g)).map Ins.mute)) {x y : Ins} (hx : x ∈ C) (hy : y ∈ C')
    (hxy : x.mute = y.mute) : (t.paths.map pathView).Perm (t'.paths.map pathView) := by
  have hF := topF_perm mcn M.m false M.m.depth
  have fam : ∀ {hist : List (Str × Option Str)} {M : Made} {C : List Ins} {t : Tree NodeData} (_ : ClusterOK h mcn hist M C t) {x : Ins} (_ : x ∈ C),
      (C.map Ins.mute).Perm (famN (topF mcn M.m false M.m.depth) M.m.depth ((norm (insOf M.g)).length + 1)
        ((norm (insOf M.g)).map Ins.mute) x.mute) := by
    intro hist M C t hC x hx
    have h1 := (hC.final.fam x hx).map Ins.mute
    rw [← famN_map mute_same, mute_bare, List.map_map] at h1
    simpa [Function.comp_def, mute_bare] using h1
  have hlen : (norm (insOf M.g)).length = (norm (insOf M'.g)).length := by simpa using hg.length_eq
  have hCC : (C.map Ins.mute).Perm (C'.map Ins.mute) := by
    refine (fam hC hx).trans ?_
    have h2 := fam hC' hy
    rw [hm] at h2
    rw [hxy, hlen]
    exact (famN_perm hF _ hg _).trans h2.symm
  refine (views_perm hC).trans ?_
  refine (hCC.map _).trans ?_
  refine (List.Perm.of_eq ?_).trans (views_perm hC').symm
  apply List.map_congr_left
  intro z _
  rw [hm, labs_perm hF hCC]

/-- The records of a sub-maker. -/
theorem made_mem (md5 : Str → Str) {hist : List (Str × Option Str)} {Ms : List Made}
    (h1 : Ms.map (·.g) = (groupBy (Rec.sid md5) (accepted hist)).map (·.2)) {M : Made} (hM : M ∈ Ms) {r : Rec} (hr : r ∈ M.g) (r' : Rec) :
    r' ∈ M.g ↔ r' ∈ accepted hist ∧ r'.sid md5 = r.sid md5 := by
  have h4 : M.g ∈ Ms.map (·.g) := List.mem_map_of_mem hM
  rw [h1] at h4
  obtain ⟨⟨k', g'⟩, hkg, eg⟩ := List.mem_map.mp h4
  simp only at eg
  subst eg
  obtain ⟨-, hgf⟩ := mem_groupBy hkg
  rw [hgf] at hr ⊢
  rw [List.mem_filter, of_decide_eq_true (List.mem_filter.mp hr).2]
  simp

theorem made_find (md5 : Str → Str) {hist : List (Str × Option Str)} {Ms : List Made}
    (h1 : Ms.map (·.g) = (groupBy (Rec.sid md5) (accepted hist)).map (·.2)) {r : Rec} (hr : r ∈ accepted hist) : ∃ M ∈ Ms, r ∈ M.g := by
  have : (r.sid md5, (accepted hist).filter (fun x => decide (x.sid md5 = r.sid md5))) ∈ groupBy (Rec.sid md5) (accepted hist) := by
    rw [groupBy_eq, List.mem_map]
    exact ⟨_, mem_uniq.mpr (List.mem_map_of_mem hr), rfl⟩
  have h4 := List.mem_map_of_mem (f := (·.2)) this
  rw [← h1] at h4
  obtain ⟨M, hM, e⟩ := List.mem_map.mp h4
  refine ⟨M, hM, ?_⟩
  rw [e]
  exact List.mem_filter.mpr ⟨hr, by simp⟩

theorem order_half (md5 : Str → Str) {h : Runtime} {mcn : Int} {hist hist' : List (Str × Option Str)}
    (hs : ∀ u, (∃ md, (u, md) ∈ hist) ↔ ∃ md, (u, md) ∈ hist') {Ms Ms' : List Made}
    (h1 : Ms.map (·.g) = (groupBy (Rec.sid md5) (accepted hist)).map (·.2)) (h3 : ∀ M ∈ Ms, MadeOK h mcn hist M)
    (h1' : Ms'.map (·.g) = (groupBy (Rec.sid md5) (accepted hist')).map (·.2)) (h3' : ∀ M ∈ Ms', MadeOK h mcn hist' M) :
    ∀ c ∈ Ms.flatMap Made.out, ∃ c' ∈ Ms'.flatMap Made.out, c'.1 = c.1 ∧ (c.2.paths.map pathView).Perm (c'.2.paths.map pathView) := by
  have acc : ∀ {hist hist' : List (Str × Option Str)} (_ : ∀ u, (∃ md, (u, md) ∈ hist) ↔ ∃ md, (u, md) ∈ hist') {r : Rec} (_ : r ∈ accepted hist),
      ∃ md', (⟨r.m, r.pps, md'⟩ : Rec) ∈ accepted hist' := by
    intro hist hist' hs r hr
    obtain ⟨u, hu, hp⟩ := mem_accepted.mp hr
    obtain ⟨md', hu'⟩ := (hs u).mp ⟨_, hu⟩
    exact ⟨md', mem_accepted.mpr ⟨u, hu', hp⟩⟩
  intro c hcm
  obtain ⟨M, hM, hMok, C, hC, e1, hK⟩ := mem_out h3 hcm
  obtain ⟨x, hx⟩ := List.exists_mem_of_ne_nil _ hK.final.ne
  obtain ⟨r, hr, hxr⟩ := (muted_mem hMok.acc x.mute).mp (by
    rw [← mute_bare]; exact List.mem_map_of_mem (hK.sub x hx))
  obtain ⟨md', hr'⟩ := acc hs (hMok.acc r hr)
  obtain ⟨M', hM', hrM'⟩ := made_find md5 h1' hr'
  have hMok' := h3' M' hM'
  have hm : M'.m = M.m := by
    obtain ⟨_, a1⟩ := hMok.all
    obtain ⟨_, a2⟩ := hMok'.all
    rw [← (a1 r hr).1, ← (a2 _ hrM').1]
  have hg : ((norm (insOf M.g)).map Ins.mute).Perm ((norm (insOf M'.g)).map Ins.mute) := by
    refine muted_perm hMok.acc hMok'.acc ?_
    intro pps
    constructor
    · rintro ⟨r1, hr1, rfl⟩
      rw [made_mem md5 h1 hM hr] at hr1
      obtain ⟨md1, hr1'⟩ := acc hs hr1.1
      exact ⟨_, (made_mem md5 h1' hM' hrM' _).mpr ⟨hr1', hr1.2⟩, rfl⟩
    · rintro ⟨r1, hr1, rfl⟩
      rw [made_mem md5 h1' hM' hrM'] at hr1
      obtain ⟨md1, hr1'⟩ := acc (fun u => (hs u).symm) hr1.1
      exact ⟨_, (made_mem md5 h1 hM hr _).mpr ⟨hr1', hr1.2⟩, rfl⟩
  have hy : x.mute ∈ (norm (insOf M'.g)).map Ins.mute := hg.mem_iff.mp (by rw [← mute_bare]; exact List.mem_map_of_mem (hK.sub x hx))
  obtain ⟨y, hy, ey⟩ := List.mem_map.mp hy
  rw [← hMok'.cl.perm.mem_iff, List.mem_map] at hy
  obtain ⟨z, hz, ez⟩ := hy
  obtain ⟨C', hC', hzC⟩ := List.mem_flatten.mp hz
  refine ⟨(M'.m, doneTree M'.m.depth C'), List.mem_flatMap.mpr ⟨M', hM', List.mem_map_of_mem hC'⟩, by rw [e1]; exact hm, ?_⟩
  exact clusters_same hK (clusterOK hMok' hC') hm hg hx hzC (by rw [← ey, ← ez, mute_bare])

/-- **C30**: the clusters - structure, pieces of every path and their patterns - depend only on the set of the loaded URLs:
not on their order, their repetitions or their metas. -/
theorem C30_order (md5 : Str → Str) (h : Runtime) (mcn : Int) (hm : 2 ≤ mcn) (hist hist' : List (Str × Option Str))
    (hs : ∀ u, (∃ md, (u, md) ∈ hist) ↔ ∃ md, (u, md) ∈ hist')
    (hc : NoCollision md5 (accepted hist)) (hh : NoHashClash h (UrlRow hist)) :
    ∃ cs cs', PatternMakerSt.make h mcn (loadAll md5 hist) = .ok cs ∧ PatternMakerSt.make h mcn (loadAll md5 hist') = .ok cs' ∧
      (∀ c ∈ cs, ∃ c' ∈ cs', c'.1 = c.1 ∧
        (c.2.paths.map (fun p => p.map (fun kn => (kn.1, kn.2.pattern)))).Perm (c'.2.paths.map (fun p => p.map (fun kn => (kn.1, kn.2.pattern))))) ∧
      (∀ c' ∈ cs', ∃ c ∈ cs, c.1 = c'.1 ∧
        (c'.2.paths.map (fun p => p.map (fun kn => (kn.1, kn.2.pattern)))).Perm (c.2.paths.map (fun p => p.map (fun kn => (kn.1, kn.2.pattern))))) := by
  have hr : ∀ r ∈ accepted hist', ∃ r' ∈ accepted hist, r'.m = r.m ∧ r'.pps = r.pps := by
    intro r hr
    obtain ⟨u, hu, hp⟩ := mem_accepted.mp hr
    obtain ⟨md', hu'⟩ := (hs u).mpr ⟨_, hu⟩
    exact ⟨⟨r.m, r.pps, md'⟩, mem_accepted.mpr ⟨u, hu', hp⟩, rfl, rfl⟩
  have hc' : NoCollision md5 (accepted hist') := by
    intro r hr1 r' hr2
    obtain ⟨a, ha, a1, a2⟩ := hr r hr1
    obtain ⟨b, hb, b1, b2⟩ := hr r' hr2
    have := hc a ha b hb
    unfold Rec.rules at this ⊢
    rwa [a1, a2, b1, b2] at this
  have hk : ∀ k, KeyIn (UrlRow hist') k → KeyIn (UrlRow hist) k := by
    rintro k ⟨row, ⟨u, md, m, hu, hp⟩, hrow⟩
    obtain ⟨md', hu'⟩ := (hs u).mpr ⟨_, hu⟩
    exact ⟨row, ⟨u, md', m, hu', hp⟩, hrow⟩
  have hh' : NoHashClash h (UrlRow hist') := fun k k' h1 h2 e => hh k k' (hk k h1) (hk k' h2) e
  obtain ⟨Ms, h1, h2, h3⟩ := make_all md5 hm hc hh
  obtain ⟨Ms', h1', h2', h3'⟩ := make_all md5 hm hc' hh'
  exact ⟨_, _, h2, h2', order_half md5 hs h1 h3 h1' h3', order_half md5 (fun u => (hs u).symm) h1' h3' h1 h3⟩

/-- Another order, a repetition and other metas: the same clusters, in another order. -/
example : showMade [c!"http://h/a1", c!"http://h/b2", c!"http://h/c", c!"http://h/a?k=v"] 2 =
      .ok [([c!"[a-z][0-9]"], [[c!"a1"], [c!"b2"]]), ([c!"c"], [[c!"c"]]), ([c!"a", c!"v"], [[c!"a", c!"v"]])] := by decide +kernel
example : showMade [c!"http://h/c", c!"http://h/b2", c!"http://h/a?k=v", c!"http://h/a1", c!"http://h/b2"] 2 =
      .ok [([c!"c"], [[c!"c"]]), ([c!"[a-z][0-9]"], [[c!"b2"], [c!"a1"]]), ([c!"a", c!"v"], [[c!"a", c!"v"]])] := by decide +kernel

end OsUrl
