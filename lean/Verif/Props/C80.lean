import Verif.Proofs.ShortNest
import Verif.Props.C64
import Verif.Props.C79

/-! # C80: the frames that are enough do not depend on the number of URLs -/

namespace OsUrl
open Spec

/-- When every sub-maker has enough frames, `make` has. -/
theorem makeL_ok (md5 : Str → Str) {h : Runtime} {mcn : Int} (hm : 2 ≤ mcn) {hist : List (Str × Option Str)}
    (hc : NoCollision md5 (accepted hist)) (hh : NoHashClash h (UrlRow hist)) {lim : Nat}
    (hall : ∀ kv ∈ loadAll md5 hist, ∃ ts, (clusterNestL h 2 lim mcn kv.2.urlMeta false kv.2.tree).toPy = .ok ts) :
    ∀ cs, PatternMakerSt.make h mcn (loadAll md5 hist) = .ok cs → PatternMakerSt.makeL h lim mcn (loadAll md5 hist) = (cs, none) := by
  intro cs hcs
  obtain ⟨cs', h1, h2, -, -⟩ := C64_make md5 h mcn hm hist hc hh
  obtain rfl : cs' = cs := by rw [h1] at hcs; exact Except.ok.inj hcs
  rcases h2 lim with e | ⟨e, -⟩
  · exact e
  · exfalso
    have hok : ∃ r, (PatternMakerSt.makeL h lim mcn (loadAll md5 hist)).toPy = .ok r := by
      unfold PatternMakerSt.makeL
      rw [chain_toPy]
      obtain ⟨bs, hbs⟩ := mapM_total (f := fun kv : Str × MakerSt => Gen.toPy
        ((clusterNestL h 2 lim mcn kv.2.urlMeta false kv.2.tree).1.map (fun t => (kv.2.urlMeta, t)),
          (clusterNestL h 2 lim mcn kv.2.urlMeta false kv.2.tree).2)) (l := loadAll md5 hist) (by
        intro kv hkv
        obtain ⟨ts, ht⟩ := hall kv hkv
        unfold Gen.toPy at ht ⊢
        simp only
        cases ho : (clusterNestL h 2 lim mcn kv.2.urlMeta false kv.2.tree).2 with
        | some e => rw [ho] at ht; cases ht
        | none => exact ⟨_, rfl⟩)
      refine ⟨bs.flatten, ?_⟩
      simp only
      rw [hbs]; rfl
    obtain ⟨r, hr⟩ := hok
    unfold Gen.toPy at hr
    rw [e] at hr
    cases hr

/-- The clusters of one sub-maker are among all clusters. -/
theorem make_part {h : Runtime} {mcn : Int} {st : PatternMakerSt} {cs : List (URLMeta × Tree NodeData)} (hcs : PatternMakerSt.make h mcn st = .ok cs)
    {kv : Str × MakerSt} (hkv : kv ∈ st) {ts : List (Tree NodeData)} (hts : kv.2.make h mcn = .ok ts) : ts.length ≤ cs.length := by
  induction st generalizing cs with
  | nil => cases hkv
  | cons kv0 st ih =>
    unfold PatternMakerSt.make at hcs ih
    rw [List.mapM_cons] at hcs
    simp only [bind, Except.bind, pure, Except.pure] at hcs ih
    cases hp : kv0.2.make h mcn with
    | error e => rw [hp] at hcs; cases hcs
    | ok ts0 =>
      rw [hp] at hcs
      simp only at hcs
      generalize hx : List.mapM (m := Except PyErr) _ st = x at hcs ih
      cases x with
      | error e => cases hcs
      | ok rs =>
        simp only at hcs ih
        injection hcs with hcs
        subst hcs
        rw [List.flatten_cons, List.length_append, List.length_map]
        rcases List.mem_cons.mp hkv with rfl | hkv
        · rw [hts] at hp
          injection hp with hp
          subst hp
          omega
        · have := ih rfl hkv
          omega

/-- **C80**: when no structure has more than `C` clusters, no URL more than `D` pieces and no piece more than `K` runs, `C + D + 3K + 7` frames are
enough, however many URLs were loaded. -/
theorem C80_clusters (md5 : Str → Str) (h : Runtime) (mcn : Int) (hm : 2 ≤ mcn) (hist : List (Str × Option Str))
    (hc : NoCollision md5 (accepted hist)) (hh : NoHashClash h (UrlRow hist)) (D K : Nat) (hs : ShortURLs hist D K) :
    ∃ cs, PatternMakerSt.make h mcn (loadAll md5 hist) = .ok cs ∧
      ∀ C, (∀ s mk ts, (s, mk) ∈ loadAll md5 hist → mk.make h mcn = .ok ts → ts.length ≤ C) →
        ∀ lim, C + D + 3 * K + 7 ≤ lim → PatternMakerSt.makeL h lim mcn (loadAll md5 hist) = (cs, none) := by
  obtain ⟨cs, h1, -⟩ := C64_make md5 h mcn hm hist hc hh
  refine ⟨cs, h1, ?_⟩
  intro C hC lim hl
  refine makeL_ok md5 hm hc hh ?_ cs h1
  rintro ⟨s, mk⟩ hkv
  obtain ⟨ts, h2, h3, -⟩ := maker_rounds hm hc hh hs hkv
  exact ⟨ts, h3 lim (by have := hC s mk ts hkv h2; omega)⟩

/-- **C80**: in particular as many frames as there are clusters, and `D + 3K + 7` more. -/
theorem C80_total (md5 : Str → Str) (h : Runtime) (mcn : Int) (hm : 2 ≤ mcn) (hist : List (Str × Option Str))
    (hc : NoCollision md5 (accepted hist)) (hh : NoHashClash h (UrlRow hist)) (D K : Nat) (hs : ShortURLs hist D K) :
    ∃ cs, PatternMakerSt.make h mcn (loadAll md5 hist) = .ok cs ∧
      ∀ lim, cs.length + D + 3 * K + 7 ≤ lim → PatternMakerSt.makeL h lim mcn (loadAll md5 hist) = (cs, none) := by
  obtain ⟨cs, h1, h2⟩ := C80_clusters md5 h mcn hm hist hc hh D K hs
  exact ⟨cs, h1, h2 cs.length (fun s mk ts hkv hts => make_part h1 hkv hts)⟩

/-- The runs of the pieces with one class. -/
theorem pieceOf_runs {s : Str} (hs : ∀ c ∈ s, Known c) (h : OneSpace s) : (pieceOf s).pieces.length ≤ 1 := by
  have := pieceOf_one hs hs h rfl
  cases s with
  | nil => rw [this.2 rfl]; simp
  | cons c s =>
    obtain ⟨g, w, -, e⟩ := this.1 (by simp)
    rw [e]; simp [single]

/-- **C80**: when every piece of every URL has one character class, `3D + 12` frames are enough, however many URLs were loaded and however many
clusters there are. -/
theorem C80_classes (md5 : Str → Str) (h : Runtime) (mcn : Int) (hm : 2 ≤ mcn) (hist : List (Str × Option Str))
    (hc : NoCollision md5 (accepted hist)) (hh : NoHashClash h (UrlRow hist)) (D : Nat)
    (hone : ∀ u md m pieces, (u, md) ∈ hist → analyzeUrl u = .ok (m, pieces) →
      pieces.length ≤ D ∧ ∀ piece ∈ pieces, ∃ sp : Space, ∀ c ∈ piece, space? c = some sp) :
    ∃ cs, PatternMakerSt.make h mcn (loadAll md5 hist) = .ok cs ∧
      ∀ lim, 3 * D + 12 ≤ lim → PatternMakerSt.makeL h lim mcn (loadAll md5 hist) = (cs, none) := by
  obtain ⟨cs, h1, -⟩ := C64_make md5 h mcn hm hist hc hh
  refine ⟨cs, h1, ?_⟩
  intro lim hl
  have hs : ShortURLs hist D 1 := by
    intro u md m pps hu hp
    obtain ⟨row, ha, hmp⟩ := parse_pieces hp
    obtain ⟨hk, e⟩ := parsePieces_ok hmp
    obtain ⟨h2, h3⟩ := hone u md m row hu ha
    rw [e]
    refine ⟨by simpa using h2, ?_⟩
    intro p hp
    obtain ⟨s, hs, rfl⟩ := List.mem_map.mp hp
    exact pieceOf_runs (hk s hs) (h3 s hs)
  refine makeL_ok md5 hm hc hh ?_ cs h1
  rintro ⟨s, mk⟩ hkv
  obtain ⟨ts, -, -, h4⟩ := maker_rounds hm hc hh hs hkv
  refine ⟨ts, h4 _ rfl ?_ lim (by omega)⟩
  obtain ⟨r0, hr0, hsid, e, hall, hlen⟩ := mem_loadAll hc hkv
  subst e
  have hr1 : r0 ∈ (accepted hist).filter (fun x => decide (x.sid md5 = s)) := List.mem_filter.mpr ⟨hr0, by simpa using hsid⟩
  obtain ⟨u, hu, hp⟩ := mem_accepted.mp hr0
  obtain ⟨row, ha, hmp⟩ := parse_pieces hp
  obtain ⟨hk, e⟩ := parsePieces_ok hmp
  exact one_rows_of hh (List.ne_nil_of_mem hr1) (fun r hr => (List.mem_filter.mp hr).1) hall hr1 hk e (hone u _ _ row hu ha).2

/-- **C80**: the same for `pattern-make`. -/
theorem C80_command (env : Env) (mcn : Int) (hm : 2 ≤ mcn) (f : Fmt) (lines : List Bytes)
    (hc : NoCollision env.md5 (accepted (urlsOf env (loadsUrl f) lines))) (hh : NoHashClash env.rt (UrlRow (urlsOf env (loadsUrl f) lines))) (D : Nat)
    (hone : ∀ u md m pieces, (u, md) ∈ urlsOf env (loadsUrl f) lines → analyzeUrl u = .ok (m, pieces) →
      pieces.length ≤ D ∧ ∀ piece ∈ pieces, ∃ sp : Space, ∀ c ∈ piece, space? c = some sp) (lim : Nat) (hl : 3 * D + 12 ≤ lim) :
    ∃ records, makeRun env mcn f lines = .ok records ∧ makeRunL env lim mcn f lines = (records, none) := by
  obtain ⟨cs, h1, h2⟩ := C80_classes env.md5 env.rt mcn hm _ hc hh D hone
  refine ⟨cs.flatMap (fun mt => pformat env.rt f mt.1 mt.2), ?_, ?_⟩
  · unfold makeRun makeProcess
    rw [makeLoad_fst, h1]; rfl
  · unfold makeRunL
    rw [makeLoad_fst, h2 lim hl]

/-! ### examples -/

theorem loads79_one : ∀ u md m pieces, (u, md) ∈ loads79 → analyzeUrl u = .ok (m, pieces) →
    pieces.length ≤ 4 ∧ ∀ piece ∈ pieces, ∃ sp : Space, ∀ c ∈ piece, space? c = some sp := by
  have key : loads79.all (fun e => match analyzeUrl e.1 with
      | .ok (_, pieces) => decide (pieces.length ≤ 4) && pieces.all (fun s => s.all (fun c => decide (space? c = some .lower)))
      | .error _ => true) = true := by decide +kernel
  intro u md m pieces hu ha
  have := List.all_eq_true.mp key (u, md) hu
  simp only [ha, Bool.and_eq_true, decide_eq_true_eq, List.all_eq_true] at this
  exact ⟨this.1, fun piece hp => ⟨.lower, this.2 piece hp⟩⟩

/-- 24 frames are enough for the eight URLs of C79, and for all others like them; these eight need nine. -/
example : ∃ cs, PatternMakerSt.make codeHash 3 (loadAll id loads79) = .ok cs ∧
    ∀ lim, 24 ≤ lim → PatternMakerSt.makeL codeHash lim 3 (loadAll id loads79) = (cs, none) :=
  C80_classes id codeHash 3 (by decide) loads79 (id_ok _) (codeHash_ok _) 4 loads79_one
example : (PatternMakerSt.makeL codeHash 8 3 (loadAll id loads79)).2 = some .recursionError ∧
    (PatternMakerSt.makeL codeHash 9 3 (loadAll id loads79)).2 = none := by decide +kernel

/-- URLs with several runs in a piece. -/
def loads80 : List (Str × Option Str) := [c!"http://h/a-b-a-b-a", c!"http://h/c-d-c-d-d", c!"http://h/e-b-c-b-d", c!"http://h/x1"].map (fun u => (u, none))

theorem loads80_short : ShortURLs loads80 1 9 := by
  have key : loads80.all (fun e => match parse e.1 with
      | .ok (_, .pieces row) => decide (row.length ≤ 1) && row.all (fun p => decide (p.pieces.length ≤ 9))
      | _ => true) = true := by decide +kernel
  intro u md m pps hu hp
  have := List.all_eq_true.mp key (u, md) hu
  simp only [hp, Bool.and_eq_true, decide_eq_true_eq, List.all_eq_true] at this
  exact this

/-- Two clusters, so 37 frames are enough, for any number of URLs that do not add clusters. -/
example : PatternMakerSt.makeL codeHash 37 2 (loadAll id loads80) = ((PatternMakerSt.makeL codeHash 37 2 (loadAll id loads80)).1, none) ∧
    (PatternMakerSt.makeL codeHash 37 2 (loadAll id loads80)).1.length = 2 := by
  obtain ⟨cs, h1, h2⟩ := C80_total id codeHash 2 (by decide) loads80 (id_ok _) (codeHash_ok _) 1 9 loads80_short
  have hl : cs.length = 2 := by
    have : (PatternMakerSt.make codeHash 2 (loadAll id loads80)).map List.length = .ok 2 := by decide +kernel
    rw [h1] at this
    simpa [Except.map] using this
  rw [h2 37 (by omega)]
  exact ⟨rfl, hl⟩
example : (PatternMakerSt.makeL codeHash 12 2 (loadAll id loads80)).2 = some .recursionError := by decide +kernel

end OsUrl
