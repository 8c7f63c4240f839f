import Verif.Proofs.PutIn
import Verif.Props.C73

/-! # C74: a piece that is the same in all URLs is written out and has no other effect -/

namespace OsUrl
open Spec

theorem loadedRow_length {hist : List (Str × Option Str)} {m : URLMeta} {row : List Str} (h : LoadedRow hist m row) : row.length = m.depth := by
  obtain ⟨r, hr, e2, e3⟩ := loadedRow_rec h
  have := (accepted_depth hr).1
  rwa [e3, e2, List.length_map] at this

/-- **C74**: if the URLs of structure `m'` in the second history are those of structure `m` in the first, with the piece `s` put in at position `i`
(not as the last piece of the path), then the clusters are the same, with `s` written out at position `i` in every piece list and every pattern. -/
theorem C74_constant (md5 md5' : Str → Str) (h h' : Runtime) (mcn : Int) (hm : 2 ≤ mcn) (hist hist' : List (Str × Option Str))
    (hc : NoCollision md5 (accepted hist)) (hh : NoHashClash h (UrlRow hist))
    (hc' : NoCollision md5' (accepted hist')) (hh' : NoHashClash h' (UrlRow hist')) :
    ∃ cs cs', PatternMakerSt.make h mcn (loadAll md5 hist) = .ok cs ∧ PatternMakerSt.make h' mcn (loadAll md5' hist') = .ok cs' ∧
      ∀ (m m' : URLMeta) (i : Nat) (s : Str), i ≤ m.depth → m'.pathDepth = (if i < m.pathDepth then m.pathDepth + 1 else m.pathDepth) →
        (∀ row', LoadedRow hist' m' row' ↔ ∃ row, LoadedRow hist m row ∧ row' = putAt i s row) →
        (∀ c ∈ cs, c.1 = m → ∃ c' ∈ cs', c'.1 = m' ∧ (members c').Perm ((members c).map (putAt i (litText (cut s), litText (cut s))))) ∧
        (∀ c' ∈ cs', c'.1 = m' → ∃ c ∈ cs, c.1 = m ∧ (members c').Perm ((members c).map (putAt i (litText (cut s), litText (cut s))))) := by
  obtain ⟨cs, e1, a1, a2⟩ := C49_closed md5 h mcn hm hist hc hh
  obtain ⟨cs', e1', b1, b2⟩ := C49_closed md5' h' mcn hm hist' hc' hh'
  refine ⟨cs, cs', e1, e1', ?_⟩
  intro m m' i s hi hd hrow
  have len : ∀ row, LoadedRow hist m row → i ≤ row.length := fun row hl => by rw [loadedRow_length hl]; exact hi
  have rows : ∀ (row : List Str) (R : List (List Str)), LoadedRow hist m row →
      (∀ row', row' ∈ R ↔ LoadedRow hist m row' ∧ row'.map (fun s => clsText (cut s)) = row.map (fun s => clsText (cut s))) →
      R.Nodup → (R.map (putAt i s)).Nodup ∧ ∀ row', row' ∈ R.map (putAt i s) ↔
        LoadedRow hist' m' row' ∧ row'.map (fun s => clsText (cut s)) = (putAt i s row).map (fun s => clsText (cut s)) := by
    intro row R hl hR hn
    have hin : ∀ r ∈ R, i ≤ r.length := fun r hr => len r ((hR r).mp hr).1
    constructor
    · apply List.pairwise_map.mpr
      exact hn.imp_of_mem (fun ha hb hne e => hne (putAt_inj (hin _ ha) (hin _ hb) e))
    · intro row'
      rw [List.mem_map, hrow]
      constructor
      · rintro ⟨r, hr, rfl⟩
        have := (hR r).mp hr
        exact ⟨⟨r, this.1, rfl⟩, by rw [putAt_map, putAt_map, this.2]⟩
      · rintro ⟨⟨r, hr, rfl⟩, hcls⟩
        refine ⟨r, (hR r).mpr ⟨hr, ?_⟩, rfl⟩
        rw [putAt_map, putAt_map] at hcls
        exact putAt_inj (by rw [List.length_map]; exact len r hr) (by rw [List.length_map]; exact len row hl) hcls
  have same : ∀ (row : List Str) (R : List (List Str)), LoadedRow hist m row →
      (∀ row', row' ∈ R ↔ LoadedRow hist m row' ∧ row'.map (fun s => clsText (cut s)) = row.map (fun s => clsText (cut s))) →
      clusterOf mcn m'.pathDepth (R.map (putAt i s)) (putAt i s row) = (clusterOf mcn m.pathDepth R row).map (putAt i (litText (cut s), litText (cut s))) := by
    intro row R hl hR
    rw [hd]
    exact clusterOf_put hm _ _ _ _ _ ((hR row).mpr ⟨hl, rfl⟩) (fun r hr => len r ((hR r).mp hr).1)
  constructor
  · intro c hcm hcM
    obtain ⟨row, hl, hall⟩ := a2 c hcm
    rw [hcM] at hl hall
    obtain ⟨R, hn, hR⟩ := loadedRows_list hist m row
    obtain ⟨hn', hR'⟩ := rows row R hl hR hn
    obtain ⟨c', hcm', hc1, hp⟩ := b1 m' (putAt i s row) ((hrow _).mpr ⟨row, hl, rfl⟩) _ hn' hR'
    refine ⟨c', hcm', hc1, hp.trans ?_⟩
    rw [same row R hl hR]
    exact ((hall R hn hR).map _).symm
  · intro c' hcm' hcM'
    obtain ⟨row', hl', hall⟩ := b2 c' hcm'
    rw [hcM'] at hl' hall
    obtain ⟨row, hl, rfl⟩ := (hrow _).mp hl'
    obtain ⟨R, hn, hR⟩ := loadedRows_list hist m row
    obtain ⟨hn', hR'⟩ := rows row R hl hR hn
    obtain ⟨c, hcm, hc1, hp⟩ := a1 m row hl R hn hR
    refine ⟨c, hcm, hc1, (hall _ hn' hR').trans ?_⟩
    rw [same row R hl hR]
    exact (hp.map _).symm

/-- The URL with one more segment in front of its path. -/
def Spec.AbsUrl.below (s : Str) (u : AbsUrl) : AbsUrl := { u with segs := s :: u.segs }

/-- The structure with one more path piece. -/
def Spec.deeper (m : URLMeta) : URLMeta := { m with pathDepth := m.pathDepth + 1 }

theorem below_ok {s : Str} (hs : ∀ c ∈ s, c ∉ ['/', '?', '#']) {u : AbsUrl} (h : u.OK) : (u.below s).OK := by
  refine ⟨h.scheme, h.host, h.brackets, ?_, h.query⟩
  intro t ht
  rcases List.mem_append.mp ht with ht | ht
  · rcases List.mem_cons.mp ht with rfl | ht
    · exact hs
    · exact h.segs t (by simp [ht])
  · exact h.segs t (List.mem_append_right _ ht)

/-- What `analyze_url` makes of the longer URL. -/
theorem below_analyze {s : Str} (hs : ∀ c ∈ s, c ∉ ['/', '?', '#']) (hne : s ≠ []) {u : AbsUrl} (h : u.OK) (m' : URLMeta) (row' : List Str) :
    analyzeUrl (u.below s).text = .ok (m', row') ↔ ∃ m row, analyzeUrl u.text = .ok (m, row) ∧ m' = deeper m ∧ row' = s :: row := by
  obtain ⟨a1, a2⟩ := C45_analyze_url u h
  obtain ⟨b1, b2⟩ := C45_analyze_url (u.below s) (below_ok hs h)
  have hp : (u.below s).pathPieces = s :: u.pathPieces := by
    show (s :: u.segs).filter _ ++ [_] = _
    rw [List.filter_cons_of_pos (by simpa using hne)]
    rfl
  cases hq : parseQueryString u.query with
  | error e =>
    rw [a1 e hq, b1 e hq]
    constructor
    · intro x; cases x
    · rintro ⟨_, _, x, _⟩; cases x
  | ok kv =>
    obtain ⟨keys, vals⟩ := kv
    rw [a2 keys vals hq, b2 keys vals hq, hp]
    constructor
    · intro e
      injection e with e
      injection e with e3 e4
      exact ⟨_, _, rfl, by rw [← e3]; rfl, by rw [← e4]; rfl⟩
    · rintro ⟨m, row, e, rfl, rfl⟩
      injection e with e
      injection e with e3 e4
      rw [← e3, ← e4]
      rfl

/-- **C74** for absolute URLs: put the same segment in front of all paths, and every cluster gets it in front. -/
theorem C74_below (md5 md5' : Str → Str) (h h' : Runtime) (mcn : Int) (hm : 2 ≤ mcn) (us : List (AbsUrl × Option Str)) (hok : ∀ u ∈ us, u.1.OK)
    (s : Str) (hne : s ≠ []) (hs : ∀ c ∈ s, Known c ∧ c ∉ ['/', '?', '#']) (hist hist' : List (Str × Option Str))
    (hu : hist = us.map (fun u => (u.1.text, u.2))) (hu' : hist' = us.map (fun u => ((u.1.below s).text, u.2)))
    (hc : NoCollision md5 (accepted hist)) (hh : NoHashClash h (UrlRow hist))
    (hc' : NoCollision md5' (accepted hist')) (hh' : NoHashClash h' (UrlRow hist')) :
    ∃ cs cs', PatternMakerSt.make h mcn (loadAll md5 hist) = .ok cs ∧ PatternMakerSt.make h' mcn (loadAll md5' hist') = .ok cs' ∧
      (∀ c ∈ cs, ∃ c' ∈ cs', c'.1 = deeper c.1 ∧ (members c').Perm ((members c).map (fun p => (litText (cut s), litText (cut s)) :: p))) ∧
      (∀ c' ∈ cs', ∃ c ∈ cs, c'.1 = deeper c.1 ∧ (members c').Perm ((members c).map (fun p => (litText (cut s), litText (cut s)) :: p))) := by
  have hs2 : ∀ c ∈ s, c ∉ ['/', '?', '#'] := fun c hcs => (hs c hcs).2
  have hrow : ∀ m row', LoadedRow hist' (deeper m) row' ↔ ∃ row, LoadedRow hist m row ∧ row' = putAt 0 s row := by
    intro m row'
    subst hu hu'
    constructor
    · rintro ⟨⟨t, md, ht, -, ha⟩, hk⟩
      obtain ⟨u, huu, e⟩ := List.mem_map.mp ht
      injection e with e1 e2
      subst e1 e2
      obtain ⟨m0, row, hr, e, rfl⟩ := (below_analyze hs2 hne (hok u huu) _ row').mp ha
      have em : m = m0 := by
        unfold deeper at e
        cases m; cases m0
        simp only [URLMeta.mk.injEq] at e ⊢
        exact ⟨by omega, e.2.1, e.2.2⟩
      subst em
      exact ⟨row, ⟨⟨u.1.text, u.2, List.mem_map.mpr ⟨u, huu, rfl⟩, absUrl_noSlash (hok u huu), hr⟩,
        fun t ht => hk t (List.mem_cons_of_mem _ ht)⟩, (putAt_zero _ _).symm⟩
    · rintro ⟨row, ⟨⟨t, md, ht, -, ha⟩, hk⟩, rfl⟩
      obtain ⟨u, huu, e⟩ := List.mem_map.mp ht
      injection e with e1 e2
      subst e1 e2
      rw [putAt_zero]
      refine ⟨⟨(u.1.below s).text, u.2, List.mem_map.mpr ⟨u, huu, rfl⟩, absUrl_noSlash (below_ok hs2 (hok u huu)),
        (below_analyze hs2 hne (hok u huu) _ _).mpr ⟨m, row, ha, rfl, rfl⟩⟩, ?_⟩
      intro t ht
      rcases List.mem_cons.mp ht with rfl | ht
      · exact fun c hcs => (hs c hcs).1
      · exact hk t ht
  have pos : ∀ m row, LoadedRow hist m row → 0 < m.pathDepth := by
    rintro m row ⟨⟨t, md, ht, -, ha⟩, -⟩
    subst hu
    obtain ⟨u, huu, e⟩ := List.mem_map.mp ht
    injection e with e1 e2
    subst e1
    obtain ⟨a1, a2⟩ := C45_analyze_url u.1 (hok u huu)
    cases hq : parseQueryString u.1.query with
    | error e => rw [a1 e hq] at ha; cases ha
    | ok kv =>
      rw [a2 kv.1 kv.2 hq] at ha
      injection ha with ha
      injection ha with ha _
      rw [← ha]
      simp [AbsUrl.pathPieces]
  have pos' : ∀ m' row', LoadedRow hist' m' row' → ∃ m, m' = deeper m ∧ 0 < m.pathDepth := by
    rintro m' row' ⟨⟨t, md, ht, hx, ha⟩, hk⟩
    have ht' := ht
    rw [hu'] at ht'
    obtain ⟨u, huu, e⟩ := List.mem_map.mp ht'
    injection e with e1 e2
    subst e1 e2
    obtain ⟨m, row, -, rfl, -⟩ := (below_analyze hs2 hne (hok u huu) _ row').mp ha
    obtain ⟨row, hl, -⟩ := (hrow m row').mp ⟨⟨_, _, ht, hx, ha⟩, hk⟩
    exact ⟨m, rfl, pos m row hl⟩
  obtain ⟨cs, cs', e1, e1', H⟩ := C74_constant md5 md5' h h' mcn hm hist hist' hc hh hc' hh'
  have ep : (fun p : List (Str × Str) => (litText (cut s), litText (cut s)) :: p) = putAt 0 (litText (cut s), litText (cut s)) := by
    funext p; rw [putAt_zero]
  rw [ep]
  obtain ⟨cs0, e0, -, A2⟩ := C49_closed md5 h mcn hm hist hc hh
  rw [e1] at e0; injection e0 with e0; subst e0
  obtain ⟨cs0, e0, -, B2⟩ := C49_closed md5' h' mcn hm hist' hc' hh'
  rw [e1'] at e0; injection e0 with e0; subst e0
  refine ⟨cs, cs', e1, e1', ?_, ?_⟩
  · intro c hcm
    obtain ⟨row, hl, -⟩ := A2 c hcm
    exact (H c.1 (deeper c.1) 0 s (Nat.zero_le _) (by rw [if_pos (pos _ _ hl)]; rfl) (hrow c.1)).1 c hcm rfl
  · intro c' hcm'
    obtain ⟨row', hl', -⟩ := B2 c' hcm'
    obtain ⟨m, em, hp⟩ := pos' _ _ hl'
    obtain ⟨c, hcm, hc1, hpm⟩ := (H m (deeper m) 0 s (Nat.zero_le _) (by rw [if_pos hp]; rfl) (hrow m)).2 c' hcm' em
    exact ⟨c, hcm, by rw [hc1]; exact em, hpm⟩

/-- Three URLs, ... -/
example : showMade [c!"http://h/a.html", c!"http://h/b.htm", c!"http://h/c.shtml"] 3 =
    .ok [([c!"[\\.a-z]+"], [[c!"a[\\.]html"], [c!"b[\\.]htm"], [c!"c[\\.]shtml"]])] := by decide +kernel

/-- ... with a piece in front, ... -/
example : showMade [c!"http://h/x-1/a.html", c!"http://h/x-1/b.htm", c!"http://h/x-1/c.shtml"] 3 =
    .ok [([c!"x[\\-]1", c!"[\\.a-z]+"], [[c!"x[\\-]1", c!"a[\\.]html"], [c!"x[\\-]1", c!"b[\\.]htm"], [c!"x[\\-]1", c!"c[\\.]shtml"]])] := by
  decide +kernel

/-- ... and with a query behind. -/
example : showMade [c!"http://h/a.html?v=5", c!"http://h/b.htm?v=5", c!"http://h/c.shtml?v=5"] 3 =
    .ok [([c!"[\\.a-z]+", c!"5"], [[c!"a[\\.]html", c!"5"], [c!"b[\\.]htm", c!"5"], [c!"c[\\.]shtml", c!"5"]])] := by decide +kernel

/-- A new last piece of the path does have an effect: the piece before it is no longer cut at its dot. -/
example : showMade [c!"http://h/a.html/x", c!"http://h/b.htm/x", c!"http://h/c.shtml/x"] 3 =
    .ok [([c!"[a-z][\\.][a-z]+", c!"x"], [[c!"a[\\.]html", c!"x"], [c!"b[\\.]htm", c!"x"], [c!"c[\\.]shtml", c!"x"]])] := by decide +kernel

end OsUrl
