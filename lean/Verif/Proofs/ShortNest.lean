import Verif.Proofs.RankPass
import Verif.Proofs.Limit2

/-! The nested clusterings of the stages need few rounds; frames that are enough for all. -/

namespace OsUrl
open Spec

/-- The rows are uniform, or their patterns leave room for fewer than `B` rounds. -/
def FlatBd (mcn : Int) (kw : Bool) (n B : Nat) (L : List Ins) : Prop :=
  FlatRows n L ∧ (unif (flatF mcn kw n) n L = true ∨ ∀ x ∈ L, rowRk x 0 (labs (flatF mcn kw n) n 0 L x) < B)

theorem flatBd_top {mcn : Int} {kw : Bool} {n : Nat} {L : List Ins} (hL : FlatRows n L) : FlatBd mcn kw n (2 * n + 1) L := by
  refine ⟨hL, .inr ?_⟩
  intro x _
  have := rowRk_le x (labs (flatF mcn kw n) n 0 L x) 0
  rw [labs_length] at this
  omega

theorem flatBd_step {mcn : Int} {kw : Bool} {n : Nat} (hm : 2 ≤ mcn) {B : Nat} {L g : List Ins} {x0 : Ins} (hb : FlatBd mcn kw n B L)
    (hp : g.Perm (L.filter (fun y => decide (labs (flatF mcn kw n) n 0 L y = labs (flatF mcn kw n) n 0 L x0))))
    (hx0 : x0 ∈ L) (hlt : g.length < L.length) : ∃ B', B = B' + 1 ∧ FlatBd mcn kw n B' g := by
  obtain ⟨hL, hb⟩ := hb
  have hmem : ∀ x ∈ g, x ∈ L ∧ labs (flatF mcn kw n) n 0 L x = labs (flatF mcn kw n) n 0 L x0 := by
    intro x hx
    have := List.mem_filter.mp (hp.mem_iff.mp hx)
    exact ⟨this.1, of_decide_eq_true this.2⟩
  rcases hb with hb | hb
  · exfalso
    rw [unif_iff] at hb
    have := hp.length_eq
    rw [List.filter_eq_self.mpr (fun y hy => by rw [hb y hy x0 hx0]; simp)] at this
    omega
  · have hpos := hb x0 hx0
    obtain ⟨B', rfl⟩ : ∃ B', B = B' + 1 := ⟨B - 1, by omega⟩
    have hg : FlatRows n g := hL.sub (fun x hx => (hmem x hx).1)
    refine ⟨B', rfl, hg, ?_⟩
    rcases labs_drop hm (kw := kw) (N := n) (k := n) (j := 0) (S := L) (Q := g) (Ts := labs (flatF mcn kw n) n 0 L x0) hL (by omega)
      (fun x hx => (hmem x hx).1) (fun x hx => (hmem x hx).2) with h | h
    · left
      rw [unif_iff]
      intro x hx y hy
      rw [h x hx, h y hy]
    · right
      intro x hx
      have h1 := h x hx
      have h2 := hb x (hmem x hx).1
      rw [(hmem x hx).2] at h2
      omega

theorem stage_bare_flat {h : Runtime} {mcn : Int} {kw : Bool} {n : Nat} {R : List Ins} (hR : StageRows h mcn kw n R) :
    FlatRows (n + 1) (R.map Ins.bare) := by
  refine ⟨?_, ?_, ?_⟩
  · intro y hy
    obtain ⟨x, hx, rfl⟩ := List.mem_map.mp hy
    exact hR.rows.pos x hx
  · intro j hj
    left
    intro y hy
    obtain ⟨x, hx, rfl⟩ := List.mem_map.mp hy
    rw [(bare_same x).pp j]
    exact hR.part j hj x hx
  · intro y hy z hz j _
    obtain ⟨x, hx, rfl⟩ := List.mem_map.mp hy
    obtain ⟨w, hw, rfl⟩ := List.mem_map.mp hz
    rw [(bare_same x).pp j, (bare_same w).pp j]
    exact hR.rule x hx w hw j

/-- The clustering of the trees of the stages, with room for `2 n + 2` rounds. -/
def shortNest (h : Runtime) (K : Nat) : NestedCluster := fun mcn m kw t =>
  if m.depth ≤ K then clusterWith (clusterNest h 0) h mcn m kw (2 * m.depth + 2) t else .error .recursionError

theorem shortNest_ok (h : Runtime) (N K : Nat) : NestOK h (shortNest h K) N K := by
  intro mcn kw n R hR _ hK
  have hd : (⟨n + 1, [], false⟩ : URLMeta).depth = n + 1 := by simp [URLMeta.depth]
  unfold shortNest
  rw [hd, if_pos hK]
  obtain ⟨ps, h1, h2⟩ := passes_rounds h (flat_level h (clusterNest h 0) hR.two ⟨n + 1, [], false⟩ kw (n + 1)) hR.two hd (FlatBd mcn kw (n + 1))
    (fun B L g x0 hb hx0 hp hlt => flatBd_step hR.two hb hp hx0 hlt)
    (R.length + 1) 0 (2 * (n + 1) + 1) R hR.normal hR.rows hR.ne (by omega) hR.sep (flatBd_top (stage_bare_flat hR))
  show _ = clusterWith (clusterNest h 0) h mcn ⟨n + 1, [], false⟩ kw ((growTree (n + 1) R).paths.length + 1) (growTree (n + 1) R)
  rw [paths_length hR.normal hR.ne, passes_erase h _ 0, passes_erase h _ 0, h1,
    passes_fuel h _ _ 0 _ ps h1 (fun p hp => by have := h2.depth p hp; omega)]

theorem shortNest_frames (h : Runtime) (K : Nat) :
    NestB (3 * K + 3) (fun lim mcn m kw t => (clusterNestL h 1 lim mcn m kw t).toPy) (shortNest h K) := by
  intro mcn m kw t
  unfold shortNest
  by_cases hs : m.depth ≤ K
  · simp only [if_pos hs, clusterNestL]
    refine (evB_cluster (L := 0) (n := clusterNest h 0) ?_ h mcn m kw (2 * m.depth + 2) t).mono (by omega)
    intro mcn m kw t r hr
    cases hr
  · simp only [if_neg hs]
    intro r hr; cases hr

/-- The level function, with the short nested clustering. -/
theorem short_level {h : Runtime} {mcn : Int} (hm : 2 ≤ mcn) (m : URLMeta) (kw : Bool) (n K : Nat) :
    LevelOK h (shortNest h (K + 1)) mcn m kw n (fun j ps => TopOK h m j ps ∧ ∀ p ∈ ps, p.pieces.length ≤ K) (topF mcn m kw n) :=
  top_level_nest hm m kw n (Lim := fun ps => ∀ p ∈ ps, p.pieces.length ≤ K) (fun _ _ hs h p hp => h p (hs p hp)) (fun _ hs => ⟨_, K + 1, shortNest_ok h _ (K + 1), Nat.le_refl _, fun p hp => by have := hs p hp; omega⟩)


/-- The rounds that are enough for a sub-maker, with the short nested clustering: as many as there are clusters, or `2 D + 2`. -/
theorem maker_fuel {md5 : Str → Str} {h : Runtime} {mcn : Int} (hm : 2 ≤ mcn) {hist : List (Str × Option Str)}
    (hc : NoCollision md5 (accepted hist)) (hh : NoHashClash h (UrlRow hist)) {D K : Nat} (hs : ShortURLs hist D K) {kv : Str × MakerSt}
    (hkv : kv ∈ loadAll md5 hist) :
    ∃ ts, kv.2.make h mcn = .ok ts ∧ kv.2.urlMeta.depth ≤ D ∧
      clusterWith (shortNest h (K + 1)) h mcn kv.2.urlMeta false ts.length kv.2.tree = .ok ts ∧
      ∀ g, (accepted hist).filter (fun x => decide (x.sid md5 = kv.1)) = g → FlatRows kv.2.urlMeta.depth (norm (insOf g)) →
        clusterWith (shortNest h (K + 1)) h mcn kv.2.urlMeta false (2 * D + 2) kv.2.tree = .ok ts := by
  obtain ⟨sid, mk⟩ := kv
  obtain ⟨r0, hr0, hsid, e, hall, hlen⟩ := mem_loadAll hc hkv
  subst e
  simp only
  have hg : ∀ r ∈ (accepted hist).filter (fun x => decide (x.sid md5 = sid)), r ∈ accepted hist := fun r hr => (List.mem_filter.mp hr).1
  have hne : (accepted hist).filter (fun x => decide (x.sid md5 = sid)) ≠ [] :=
    List.ne_nil_of_mem (List.mem_filter.mpr ⟨hr0, by simpa using hsid⟩)
  have hins := insOf_ne (md5 := md5) hr0 hsid
  generalize (accepted hist).filter (fun x => decide (x.sid md5 = sid)) = g at hall hlen hg hne hins
  obtain ⟨n, hn⟩ : ∃ n, r0.m.depth = n + 1 := ⟨r0.m.depth - 1, by have := (accepted_depth hr0).2; omega⟩
  obtain ⟨hok, hrow⟩ := rows_ok hh hne hg hall
  have hN : Normal r0.m.depth (norm (insOf g)) := norm_normal hlen
  have hne' := norm_ne_nil hins
  have hlp : (growTree r0.m.depth (insOf g)).paths.length = (norm (insOf g)).length := by
    rw [hn] at hlen hN ⊢
    rw [← growTree_norm n (insOf g) hlen, paths_growTree hne', growPaths_count hN hne']
  have hsep := hashSep_of (kw := false) hm hh hok hrow
  have hpps : ∀ x ∈ norm (insOf g), ∃ r ∈ g, x.path.map (·.1) = r.pps := by
    intro x hx
    obtain ⟨r, hr, hp⟩ := (norm_rows g x hx).path
    exact ⟨r, hr, by rw [hp]; simp [Function.comp_def]⟩
  have hsmall : RowsOK (fun j ps => TopOK h r0.m j ps ∧ ∀ p ∈ ps, p.pieces.length ≤ K) r0.m.depth (norm (insOf g)) := by
    refine ⟨hok.len, hok.pos, fun j hj => ⟨hok.ok j hj, ?_⟩, hok.inj⟩
    intro p hp
    obtain ⟨x, hx, rfl⟩ := List.mem_map.mp hp
    obtain ⟨r, hr, er⟩ := hpps x hx
    obtain ⟨u, hu, hpu⟩ := mem_accepted.mp (hg r hr)
    refine (hs u _ _ _ hu hpu).2 _ ?_
    rw [← er]
    have hxl := hok.len x hx
    have hjx : j < x.path.length := by omega
    have : x.pp j = (x.path[j]).1 := by
      unfold Ins.pp
      simp [List.getElem?_eq_getElem hjx]
    rw [this]
    exact List.mem_map_of_mem (List.getElem_mem hjx)
  have hD : r0.m.depth ≤ D := by
    obtain ⟨u, hu, hpu⟩ := mem_accepted.mp hr0
    rw [← (accepted_depth hr0).1]
    exact (hs u _ _ _ hu hpu).1
  rw [hn] at hN hsmall hsep hlen hlp hok
  have htree : growTree (n + 1) (insOf g) = growTree (n + 1) (norm (insOf g)) := (growTree_norm n (insOf g) hlen).symm
  rw [hn, htree]
  obtain ⟨ps, h1, h2⟩ := passes_spec h (short_level (h := h) hm r0.m false (n + 1) K) hm hn ((norm (insOf g)).length) 0 (norm (insOf g)) hN hsmall
    hne' (by omega) (by rw [norm_bare]; exact hsep)
  have fuel : ∀ f, (∀ p ∈ ps, p.depth < 0 + f) → clusterWith (shortNest h (K + 1)) h mcn r0.m false f (growTree (n + 1) (norm (insOf g))) =
      .ok ((ps.filter (fun p => !p.split)).map Pass.after) := by
    intro f hf
    have h3 := passes_fuel h _ f 0 _ ps h1 hf
    rw [passes_erase h f 0, h3]; rfl
  have hfew := fuel (ps.filter (fun p => !p.split)).length (fun p hp => (h2.depth p hp).2)
  refine ⟨(ps.filter (fun p => !p.split)).map Pass.after, ?_, by omega, ?_, ?_⟩
  · -- the same clusters without a limit
    obtain ⟨Cs, h5, -⟩ := cluster_spec h (top_level_ok (h := h) hm r0.m false (n + 1)) hm hn ((norm (insOf g)).length + 1) (norm (insOf g)) hN hok
      hne' (by omega) (by rw [norm_bare]; exact hsep)
    have h6 : clusterNest h 2 mcn r0.m false (growTree (n + 1) (norm (insOf g))) = .ok (Cs.map (doneTree (n + 1))) := by
      rw [htree] at hlp
      show clusterWith (clusterNest h 1) h mcn r0.m false ((growTree (n + 1) (norm (insOf g))).paths.length + 1) _ = _
      rw [hlp]; exact h5
    obtain ⟨L, hL⟩ := ev_nest h 2 mcn r0.m false (growTree (n + 1) (norm (insOf g))) _ h6
    have h7 := hL (max L ((ps.filter (fun p => !p.split)).length + D + 3 * K + 7)) (by omega)
    have h8 := evB_cluster (shortNest_frames h (K + 1)) h mcn r0.m false _ (growTree (n + 1) (norm (insOf g))) _ hfew
      (max L ((ps.filter (fun p => !p.split)).length + D + 3 * K + 7)) (by omega)
    simp only [clusterNestL] at h7 h8
    rw [h8] at h7
    show clusterNest h 2 mcn r0.m false _ = _
    rw [h6, h7]
  · rw [List.length_map]; exact hfew
  · rintro _ rfl hF
    obtain ⟨ps', h3, h4⟩ := passes_rounds h (short_level (h := h) hm r0.m false (n + 1) K) hm hn (RankBd mcn r0.m false (n + 1))
      (fun B L g x0 hb hx0 hp hlt => rankBd_step hm hb hp hx0 hlt)
      ((norm (insOf g)).length) 0 (2 * (n + 1) + 1) (norm (insOf g)) hN hsmall hne'
      (by omega) (by rw [norm_bare]; exact hsep) (by rw [norm_bare]; exact rankBd_top hF)
    rw [h1] at h3
    injection h3 with h3
    subst h3
    exact fuel (2 * D + 2) (fun p hp => by have := h4.depth p hp; omega)

/-- The frames that are enough for a sub-maker. -/
theorem maker_rounds {md5 : Str → Str} {h : Runtime} {mcn : Int} (hm : 2 ≤ mcn) {hist : List (Str × Option Str)}
    (hc : NoCollision md5 (accepted hist)) (hh : NoHashClash h (UrlRow hist)) {D K : Nat} (hs : ShortURLs hist D K) {kv : Str × MakerSt}
    (hkv : kv ∈ loadAll md5 hist) :
    ∃ ts, kv.2.make h mcn = .ok ts ∧ (∀ lim, ts.length + D + 3 * K + 7 ≤ lim →
        (clusterNestL h 2 lim mcn kv.2.urlMeta false kv.2.tree).toPy = .ok ts) ∧
      ∀ g, (accepted hist).filter (fun x => decide (x.sid md5 = kv.1)) = g → FlatRows kv.2.urlMeta.depth (norm (insOf g)) →
        ∀ lim, 3 * D + 3 * K + 9 ≤ lim → (clusterNestL h 2 lim mcn kv.2.urlMeta false kv.2.tree).toPy = .ok ts := by
  obtain ⟨ts, h1, hD, h2, h3⟩ := maker_fuel hm hc hh hs hkv
  exact ⟨ts, h1,
    fun lim hl => evB_cluster (shortNest_frames h (K + 1)) h mcn _ false _ _ _ h2 lim (by omega),
    fun g hg hF lim hl => evB_cluster (shortNest_frames h (K + 1)) h mcn _ false _ _ _ (h3 g hg hF) lim (by omega)⟩

end OsUrl
