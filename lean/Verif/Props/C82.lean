import Verif.Proofs.Frames
import Verif.Props.C80

/-! # C82: the call stack, all frames counted -/

namespace OsUrl
open Spec

/-- **C82**: with `lim` frames for everything, either all clusters are found, or the first ones are and `RecursionError` follows; and whenever the frames of
the recursive functions alone are too many (C64), so are all. -/
theorem C82_make (md5 : Str → Str) (h : Runtime) (mcn : Int) (hm : 2 ≤ mcn) (hist : List (Str × Option Str))
    (hc : NoCollision md5 (accepted hist)) (hh : NoHashClash h (UrlRow hist)) (H lim : Nat) :
    ∃ cs, PatternMakerSt.make h mcn (loadAll md5 hist) = .ok cs ∧
      (PatternMakerSt.makeF h H lim mcn (loadAll md5 hist) = (cs, none) ∨
        ((PatternMakerSt.makeF h H lim mcn (loadAll md5 hist)).2 = some .recursionError ∧
          (PatternMakerSt.makeF h H lim mcn (loadAll md5 hist)).1 <+: cs)) ∧
      ∀ lim', lim ≤ lim' + 2 → (PatternMakerSt.makeL h lim' mcn (loadAll md5 hist)).2 = some .recursionError →
        (PatternMakerSt.makeF h H lim mcn (loadAll md5 hist)).2 = some .recursionError ∧
          (PatternMakerSt.makeF h H lim mcn (loadAll md5 hist)).1 <+: (PatternMakerSt.makeL h lim' mcn (loadAll md5 hist)).1 := by
  obtain ⟨cs, h1, h2, -, -⟩ := C64_make md5 h mcn hm hist hc hh
  refine ⟨cs, h1, ?_, ?_⟩
  · rcases less_make h H lim lim (by omega) mcn (loadAll md5 hist) with e | ⟨e, hp⟩
    · rw [e]; exact h2 lim
    · right
      refine ⟨e, hp.trans ?_⟩
      rcases h2 lim with e | ⟨-, h3⟩
      · rw [e]; exact List.prefix_refl _
      · exact h3
  · intro lim' hl he
    rcases less_make h H lim lim' hl mcn (loadAll md5 hist) with e | e
    · rw [e]; exact ⟨he, List.prefix_refl _⟩
    · exact e

/-- When every sub-maker has enough frames, `make` has. -/
theorem makeF_ok (md5 : Str → Str) {h : Runtime} {mcn : Int} (hm : 2 ≤ mcn) {hist : List (Str × Option Str)}
    (hc : NoCollision md5 (accepted hist)) (hh : NoHashClash h (UrlRow hist)) {H lim : Nat} (hl : 2 ≤ lim)
    (hall : ∀ kv ∈ loadAll md5 hist, ∃ ts, (clusterNestF h H 2 (lim - 2) mcn kv.2.urlMeta false kv.2.tree).toPy = .ok ts) :
    ∀ cs, PatternMakerSt.make h mcn (loadAll md5 hist) = .ok cs → PatternMakerSt.makeF h H lim mcn (loadAll md5 hist) = (cs, none) := by
  intro cs hcs
  obtain ⟨cs', h1, h2, -⟩ := C82_make md5 h mcn hm hist hc hh H lim
  obtain rfl : cs' = cs := by rw [h1] at hcs; exact Except.ok.inj hcs
  rcases h2 with e | ⟨e, -⟩
  · exact e
  · exfalso
    have hok : ∃ r, (PatternMakerSt.makeF h H lim mcn (loadAll md5 hist)).toPy = .ok r := by
      unfold PatternMakerSt.makeF
      rw [if_neg (by omega), chain_toPy]
      obtain ⟨bs, hbs⟩ := mapM_total (f := fun kv : Str × MakerSt => Gen.toPy
        ((clusterNestF h H 2 (lim - 2) mcn kv.2.urlMeta false kv.2.tree).1.map (fun t => (kv.2.urlMeta, t)),
          (clusterNestF h H 2 (lim - 2) mcn kv.2.urlMeta false kv.2.tree).2)) (l := loadAll md5 hist) (by
        intro kv hkv
        obtain ⟨ts, ht⟩ := hall kv hkv
        unfold Gen.toPy at ht ⊢
        simp only
        cases ho : (clusterNestF h H 2 (lim - 2) mcn kv.2.urlMeta false kv.2.tree).2 with
        | some e => rw [ho] at ht; cases ht
        | none => exact ⟨_, rfl⟩)
      refine ⟨bs.flatten, ?_⟩
      simp only
      rw [hbs]; rfl
    obtain ⟨r, hr⟩ := hok
    unfold Gen.toPy at hr
    rw [e] at hr
    cases hr

/-- **C82**: with `H` frames for the helpers, `C + D + 3K + 17 + H` frames are enough, when no structure has more than `C` clusters, no URL
more than `D` pieces and no piece more than `K` runs. -/
theorem C82_clusters (md5 : Str → Str) (h : Runtime) (mcn : Int) (hm : 2 ≤ mcn) (hist : List (Str × Option Str))
    (hc : NoCollision md5 (accepted hist)) (hh : NoHashClash h (UrlRow hist)) (H D K : Nat) (hs : ShortURLs hist D K) :
    ∃ cs, PatternMakerSt.make h mcn (loadAll md5 hist) = .ok cs ∧
      ∀ C, (∀ s mk ts, (s, mk) ∈ loadAll md5 hist → mk.make h mcn = .ok ts → ts.length ≤ C) →
        ∀ lim, C + D + 3 * K + 17 + H ≤ lim → PatternMakerSt.makeF h H lim mcn (loadAll md5 hist) = (cs, none) := by
  obtain ⟨cs, h1, -⟩ := C64_make md5 h mcn hm hist hc hh
  refine ⟨cs, h1, ?_⟩
  intro C hC lim hl
  refine makeF_ok md5 hm hc hh (by omega) ?_ cs h1
  rintro ⟨s, mk⟩ hkv
  obtain ⟨ts, h2, hD, h3, -⟩ := maker_fuel hm hc hh hs hkv
  have := hC s mk ts hkv h2
  exact ⟨ts, evF_cluster (shortNest_framesF h H (K + 1)) (by omega) h mcn _ false _ _ _ h3 (lim - 2) (by omega)⟩

/-- **C82**: when every piece of every URL has one character class, `3D + 22 + H` frames are enough, however many URLs were loaded. -/
theorem C82_classes (md5 : Str → Str) (h : Runtime) (mcn : Int) (hm : 2 ≤ mcn) (hist : List (Str × Option Str))
    (hc : NoCollision md5 (accepted hist)) (hh : NoHashClash h (UrlRow hist)) (H D : Nat)
    (hone : ∀ u md m pieces, (u, md) ∈ hist → analyzeUrl u = .ok (m, pieces) →
      pieces.length ≤ D ∧ ∀ piece ∈ pieces, ∃ sp : Space, ∀ c ∈ piece, space? c = some sp) :
    ∃ cs, PatternMakerSt.make h mcn (loadAll md5 hist) = .ok cs ∧
      ∀ lim, 3 * D + 22 + H ≤ lim → PatternMakerSt.makeF h H lim mcn (loadAll md5 hist) = (cs, none) := by
  obtain ⟨cs, h1, -⟩ := C64_make md5 h mcn hm hist hc hh
  refine ⟨cs, h1, ?_⟩
  intro lim hl
  have hs : ShortURLs hist D 1 := by
    intro u md m pps hu hp
    obtain ⟨row, ha, hmp⟩ := parse_pieces hp
    obtain ⟨hk, e⟩ := parsePieces_ok hmp
    obtain ⟨h2, h3⟩ := hone u md m row hu ha
    rw [e]
    refine ⟨by simpa using h2, ?_⟩
    intro p hp
    obtain ⟨s, hs, rfl⟩ := List.mem_map.mp hp
    exact pieceOf_runs (hk s hs) (h3 s hs)
  refine makeF_ok md5 hm hc hh (by omega) ?_ cs h1
  rintro ⟨s, mk⟩ hkv
  obtain ⟨ts, -, hD, -, h4⟩ := maker_fuel hm hc hh hs hkv
  refine ⟨ts, evF_cluster (shortNest_framesF h H 2) (by omega) h mcn _ false _ _ _ (h4 _ rfl ?_) (lim - 2) (by omega)⟩
  obtain ⟨r0, hr0, hsid, e, hall, hlen⟩ := mem_loadAll hc hkv
  subst e
  have hr1 : r0 ∈ (accepted hist).filter (fun x => decide (x.sid md5 = s)) := List.mem_filter.mpr ⟨hr0, by simpa using hsid⟩
  obtain ⟨u, hu, hp⟩ := mem_accepted.mp hr0
  obtain ⟨row, ha, hmp⟩ := parse_pieces hp
  obtain ⟨hk, e⟩ := parsePieces_ok hmp
  exact one_rows_of hh (List.ne_nil_of_mem hr1) (fun r hr => (List.mem_filter.mp hr).1) hall hr1 hk e (hone u _ _ row hu ha).2

/-- **C82**: Python allows 1000 frames; when 900 of them are left to `make`, that is enough for URLs of up to 280 pieces with one
character class each, if no helper needs more than 38. -/
theorem C82_default (md5 : Str → Str) (h : Runtime) (mcn : Int) (hm : 2 ≤ mcn) (hist : List (Str × Option Str))
    (hc : NoCollision md5 (accepted hist)) (hh : NoHashClash h (UrlRow hist)) (H : Nat) (hH : H ≤ 38)
    (hone : ∀ u md m pieces, (u, md) ∈ hist → analyzeUrl u = .ok (m, pieces) →
      pieces.length ≤ 280 ∧ ∀ piece ∈ pieces, ∃ sp : Space, ∀ c ∈ piece, space? c = some sp) :
    ∃ cs, PatternMakerSt.make h mcn (loadAll md5 hist) = .ok cs ∧ PatternMakerSt.makeF h H 900 mcn (loadAll md5 hist) = (cs, none) := by
  obtain ⟨cs, h1, h2⟩ := C82_classes md5 h mcn hm hist hc hh H 280 hone
  exact ⟨cs, h1, h2 900 (by omega)⟩

/-! ### examples -/

example : ∃ cs, PatternMakerSt.make codeHash 3 (loadAll id loads79) = .ok cs ∧
    ∀ lim, 64 ≤ lim → PatternMakerSt.makeF codeHash 30 lim 3 (loadAll id loads79) = (cs, none) :=
  C82_classes id codeHash 3 (by decide) loads79 (id_ok _) (codeHash_ok _) 30 4 loads79_one
example : (PatternMakerSt.makeF codeHash 30 41 3 (loadAll id loads79)).2 = some .recursionError ∧
    (PatternMakerSt.makeF codeHash 30 42 3 (loadAll id loads79)).2 = none := by decide +kernel
/-- The pieces with several runs need the frames of a clustering inside a stage. -/
example : (PatternMakerSt.makeF codeHash 30 51 2 (loadAll id loads80)).2 = some .recursionError ∧
    (PatternMakerSt.makeF codeHash 30 52 2 (loadAll id loads80)).2 = none := by decide +kernel

end OsUrl
