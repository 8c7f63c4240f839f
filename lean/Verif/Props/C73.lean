import Verif.Proofs.Rename3
import Verif.Props.C45
import Verif.Props.C46

/-! # C73: renaming letters and digits renames the clusters and changes nothing else -/

namespace OsUrl
open Spec

theorem renameRow_inj {f : Nat → Char → Char} (hf : ∀ j, Renaming (f j)) {a b : List Str} (h : renameRow f a = renameRow f b) : a = b := by
  unfold renameRow at h
  apply List.ext_getElem?
  intro j
  have hj := congrArg (fun l => l[j]?) h
  simp only [List.getElem?_mapIdx] at hj
  cases ha : a[j]? with
  | none =>
    cases hb : b[j]? with
    | none => rfl
    | some t => rw [ha, hb] at hj; simp at hj
  | some s =>
    cases hb : b[j]? with
    | none => rw [ha, hb] at hj; simp at hj
    | some t =>
      rw [ha, hb] at hj
      simp only [Option.map_some, Option.some.injEq] at hj
      rw [(List.map_inj_right (fun x y e => (hf j).1 x y e)).mp hj]

theorem renameRow_cls {f : Nat → Char → Char} (hf : ∀ j, Renaming (f j)) (row : List Str) :
    (renameRow f row).map (fun s => clsText (cut s)) = row.map (fun s => clsText (cut s)) := by
  unfold renameRow
  apply List.ext_getElem?
  intro j
  simp only [List.getElem?_map, List.getElem?_mapIdx]
  cases row[j]? with
  | none => rfl
  | some s => simp only [Option.map_some, cut_ren (hf j), ren1_cls]

/-- The loaded rows of a structure and of given classes can be listed. -/
theorem loadedRows_list (hist : List (Str × Option Str)) (m : URLMeta) (row : List Str) : ∃ R : List (List Str), R.Nodup ∧
    ∀ row', row' ∈ R ↔ LoadedRow hist m row' ∧ row'.map (fun s => clsText (cut s)) = row.map (fun s => clsText (cut s)) := by
  classical
  refine ⟨(firsts (hist.filterMap (fun u => match analyzeUrl u.1 with | .ok v => some v.2 | .error _ => none))).filter
    (fun row' => decide (LoadedRow hist m row' ∧ row'.map (fun s => clsText (cut s)) = row.map (fun s => clsText (cut s)))),
    (firsts_nodup _).sublist List.filter_sublist, ?_⟩
  intro row'
  rw [List.mem_filter, decide_eq_true_iff]
  constructor
  · exact fun h => h.2
  · intro h
    refine ⟨?_, h⟩
    obtain ⟨⟨u, md, hu, -, ha⟩, -⟩ := h.1
    rw [mem_firsts, List.mem_filterMap]
    exact ⟨(u, md), hu, by simp [ha]⟩

/-- The pieces and the patterns of the paths of a cluster. -/
def Spec.members (c : URLMeta × Tree NodeData) : List (List (Str × Str)) := c.2.paths.map (fun p => p.map (fun kn => (kn.1, kn.2.pattern)))

/-- **C73**: two histories of loads, the second with the pieces of the first, renamed at every position by a function that
keeps letters small or capital, digits digits and signs as they are.  Then the clusters of the second are those of the first,
with all pieces and patterns renamed. -/
theorem C73_rename (md5 md5' : Str → Str) (h h' : Runtime) (mcn : Int) (hm : 2 ≤ mcn) (hist hist' : List (Str × Option Str))
    (hc : NoCollision md5 (accepted hist)) (hh : NoHashClash h (UrlRow hist))
    (hc' : NoCollision md5' (accepted hist')) (hh' : NoHashClash h' (UrlRow hist'))
    (f : URLMeta → Nat → Char → Char) (hf : ∀ m j, Renaming (f m j))
    (hrow : ∀ m row', LoadedRow hist' m row' ↔ ∃ row, LoadedRow hist m row ∧ row' = renameRow (f m) row) :
    ∃ cs cs', PatternMakerSt.make h mcn (loadAll md5 hist) = .ok cs ∧ PatternMakerSt.make h' mcn (loadAll md5' hist') = .ok cs' ∧
      (∀ c ∈ cs, ∃ c' ∈ cs', c'.1 = c.1 ∧ (members c').Perm ((members c).map (renameMember (f c.1)))) ∧
      (∀ c' ∈ cs', ∃ c ∈ cs, c'.1 = c.1 ∧ (members c').Perm ((members c).map (renameMember (f c.1)))) := by
  obtain ⟨cs, e1, a1, a2⟩ := C49_closed md5 h mcn hm hist hc hh
  obtain ⟨cs', e1', b1, b2⟩ := C49_closed md5' h' mcn hm hist' hc' hh'
  -- the renamed rows
  have rows : ∀ (m : URLMeta) (row : List Str) (R : List (List Str)), (∀ row', row' ∈ R ↔ LoadedRow hist m row' ∧ row'.map (fun s => clsText (cut s)) = row.map (fun s => clsText (cut s))) →
      R.Nodup → (R.map (renameRow (f m))).Nodup ∧ ∀ row', row' ∈ R.map (renameRow (f m)) ↔
        LoadedRow hist' m row' ∧ row'.map (fun s => clsText (cut s)) = (renameRow (f m) row).map (fun s => clsText (cut s)) := by
    intro m row R hR hn
    refine ⟨List.pairwise_map.mpr (hn.imp (fun hne e => hne (renameRow_inj (hf m) e))), ?_⟩
    intro row'
    rw [List.mem_map, renameRow_cls (hf m), hrow]
    constructor
    · rintro ⟨r, hr, rfl⟩
      have := (hR r).mp hr
      exact ⟨⟨r, this.1, rfl⟩, by rw [renameRow_cls (hf m)]; exact this.2⟩
    · rintro ⟨⟨r, hr, rfl⟩, hcls⟩
      exact ⟨r, (hR r).mpr ⟨hr, by rw [← renameRow_cls (hf m)]; exact hcls⟩, rfl⟩
  refine ⟨cs, cs', e1, e1', ?_, ?_⟩
  · intro c hcm
    obtain ⟨row, hl, hall⟩ := a2 c hcm
    obtain ⟨R, hn, hR⟩ := loadedRows_list hist c.1 row
    obtain ⟨hn', hR'⟩ := rows c.1 row R hR hn
    obtain ⟨c', hcm', hc1, hp⟩ := b1 c.1 (renameRow (f c.1) row) ((hrow _ _).mpr ⟨row, hl, rfl⟩) _ hn' hR'
    refine ⟨c', hcm', hc1, hp.trans ?_⟩
    rw [clusterOf_ren (hf c.1)]
    exact ((hall R hn hR).map _).symm
  · intro c' hcm'
    obtain ⟨row', hl', hall⟩ := b2 c' hcm'
    obtain ⟨row, hl, rfl⟩ := (hrow _ _).mp hl'
    obtain ⟨R, hn, hR⟩ := loadedRows_list hist c'.1 row
    obtain ⟨hn', hR'⟩ := rows c'.1 row R hR hn
    obtain ⟨c, hcm, hc1, hp⟩ := a1 c'.1 row hl R hn hR
    refine ⟨c, hcm, hc1.symm, (hall _ hn' hR').trans ?_⟩
    rw [clusterOf_ren (hf c'.1), hc1]
    exact (hp.map _).symm

/-- The path and the fragment of a URL renamed; scheme, host and query are kept. -/
def Spec.AbsUrl.rename (g : Char → Char) (u : AbsUrl) : AbsUrl :=
  { u with segs := u.segs.map (List.map g), last := u.last.map g, fragment := u.fragment.map (List.map g) }

theorem renaming_sign {g : Char → Char} (hg : Renaming g) {d : Char} (hd : space? d = some (.sign d)) (c : Char) : g c = d ↔ c = d := by
  constructor
  · intro e
    exact space_sign (by rw [← hg.2, e]; exact hd)
  · rintro rfl
    exact space_sign (by rw [hg.2]; exact hd)

theorem rename_ok {g : Char → Char} (hg : Renaming g) {u : AbsUrl} (h : u.OK) : (u.rename g).OK := by
  refine ⟨h.scheme, h.host, h.brackets, ?_, h.query⟩
  intro s hs c hc
  have hs' : ∃ t ∈ u.segs ++ [u.last], s = t.map g := by
    rcases List.mem_append.mp hs with hs | hs
    · obtain ⟨t, ht, rfl⟩ := List.mem_map.mp hs
      exact ⟨t, by simp [ht], rfl⟩
    · exact ⟨u.last, by simp, List.mem_singleton.mp hs⟩
  obtain ⟨t, ht, rfl⟩ := hs'
  obtain ⟨d, hd, rfl⟩ := List.mem_map.mp hc
  have := h.segs t ht d hd
  intro hmem
  apply this
  simp only [List.mem_cons, List.not_mem_nil, or_false] at hmem ⊢
  rwa [renaming_sign hg (by decide), renaming_sign hg (by decide), renaming_sign hg (by decide)] at hmem

theorem rename_pieces {g : Char → Char} (hg : Renaming g) (u : AbsUrl) : (u.rename g).pathPieces = u.pathPieces.map (List.map g) := by
  have e : ∀ c, (decide (g c ≠ ';')) = decide (c ≠ ';') := by
    intro c
    rw [decide_eq_decide]; exact not_congr (renaming_sign hg (by decide) c)
  unfold AbsUrl.pathPieces
  rw [List.map_append]
  congr 1
  · unfold AbsUrl.rename
    simp only
    rw [List.filter_map]
    congr 1
    apply List.filter_congr
    intro s _
    cases s <;> rfl
  · have hp : (u.rename g).HasParams ↔ u.HasParams := Iff.rfl
    unfold AbsUrl.leaf
    by_cases hq : u.HasParams
    · rw [if_pos hq, if_pos (hp.mpr hq)]
      unfold AbsUrl.rename
      simp only
      rw [List.takeWhile_map]
      congr 2
      refine congrArg (fun p => List.takeWhile p u.last) ?_
      funext c
      exact e c
    · rw [if_neg hq, if_neg (fun x => hq (hp.mp x))]
      rfl

/-- Which renaming applies to the piece at position `j` of a URL with structure `m`: none in the query. -/
def Spec.besideQuery (g : Char → Char) (m : URLMeta) (j : Nat) : Char → Char :=
  if m.pathDepth ≤ j ∧ j < m.pathDepth + m.queryKeys.length then id else g

theorem mapIdx_const {α β : Type} {F : Nat → α → β} {G : α → β} : ∀ (l : List α), (∀ j < l.length, ∀ a, F j a = G a) → l.mapIdx F = l.map G := by
  intro l h
  apply List.ext_getElem?
  intro j
  rw [List.getElem?_mapIdx, List.getElem?_map]
  cases hj : l[j]? with
  | none => rfl
  | some a => rw [Option.map_some, Option.map_some, h j (List.getElem?_eq_some_iff.mp hj).1]

theorem besideQuery_renaming {g : Char → Char} (hg : Renaming g) (m : URLMeta) (j : Nat) : Renaming (besideQuery g m j) := by
  unfold besideQuery
  split
  · exact ⟨fun _ _ e => e, fun _ => rfl⟩
  · exact hg

/-- What `analyze_url` makes of a renamed URL. -/
theorem rename_analyze {g : Char → Char} (hg : Renaming g) {u : AbsUrl} (h : u.OK) (m : URLMeta) (row' : List Str) :
    analyzeUrl (u.rename g).text = .ok (m, row') ↔ ∃ row, analyzeUrl u.text = .ok (m, row) ∧ row' = renameRow (besideQuery g m) row := by
  obtain ⟨a1, a2⟩ := C45_analyze_url u h
  obtain ⟨b1, b2⟩ := C45_analyze_url (u.rename g) (rename_ok hg h)
  cases hq : parseQueryString u.query with
  | error e =>
    rw [a1 e hq, b1 e hq]
    constructor
    · intro x; cases x
    · rintro ⟨_, x, _⟩; cases x
  | ok kv =>
    obtain ⟨keys, vals⟩ := kv
    rw [a2 keys vals hq, b2 keys vals hq]
    have hl := (query_parts hq).1
    have hp := rename_pieces hg u
    have hm : (⟨(u.rename g).pathPieces.length, keys.map (fun k => normalize k ['=']), (u.rename g).fragment.isSome⟩ : URLMeta) =
        ⟨u.pathPieces.length, keys.map (fun k => normalize k ['=']), u.fragment.isSome⟩ := by
      rw [hp, List.length_map]
      unfold AbsUrl.rename
      simp
    rw [hm]
    have hr : (u.rename g).pathPieces ++ vals ++ (u.rename g).fragment.toList =
        renameRow (besideQuery g ⟨u.pathPieces.length, keys.map (fun k => normalize k ['=']), u.fragment.isSome⟩)
          (u.pathPieces ++ vals ++ u.fragment.toList) := by
      unfold renameRow
      rw [List.mapIdx_append, List.mapIdx_append, hp]
      congr 1
      · congr 1
        · symm
          apply mapIdx_const
          intro j hj s
          unfold besideQuery
          rw [if_neg (by simp only; omega)]
        · symm
          rw [mapIdx_const (G := id) _ (fun j hj s => ?_), List.map_id]
          unfold besideQuery
          rw [if_pos (by simp only [List.length_map]; omega)]
          simp
      · symm
        rw [mapIdx_const (G := List.map g) _ (fun j hj s => ?_)]
        · unfold AbsUrl.rename
          cases u.fragment <;> rfl
        · unfold besideQuery
          rw [if_neg (by simp only [List.length_map, List.length_append]; omega)]
    rw [hr]
    generalize (⟨u.pathPieces.length, keys.map (fun k => normalize k ['=']), u.fragment.isSome⟩ : URLMeta) = m0
    constructor
    · intro e
      injection e with e
      injection e with e3 e4
      subst e3
      exact ⟨_, rfl, e4.symm⟩
    · rintro ⟨row, e, rfl⟩
      injection e with e
      injection e with e3 e4
      subst e3 e4
      rfl

theorem rename_known {f : Nat → Char → Char} (hf : ∀ j, Renaming (f j)) (row : List Str) :
    (∀ s ∈ renameRow f row, ∀ c ∈ s, Known c) ↔ ∀ s ∈ row, ∀ c ∈ s, Known c := by
  have hk : ∀ j c, Known (f j c) ↔ Known c := by
    intro j c; unfold Known; rw [(hf j).2]
  unfold renameRow
  constructor
  · intro h s hs c hc
    obtain ⟨j, hj⟩ := List.getElem?_of_mem hs
    have : s.map (f j) ∈ row.mapIdx (fun j s => s.map (f j)) := by
      apply List.mem_of_getElem? (i := j)
      rw [List.getElem?_mapIdx, hj]; rfl
    exact (hk j c).mp (h _ this _ (List.mem_map_of_mem hc))
  · intro h s hs c hc
    obtain ⟨j, hj⟩ := List.getElem?_of_mem hs
    rw [List.getElem?_mapIdx] at hj
    cases hr : row[j]? with
    | none => rw [hr] at hj; cases hj
    | some t =>
      rw [hr] at hj
      simp only [Option.map_some, Option.some.injEq] at hj
      subst hj
      obtain ⟨d, hd, rfl⟩ := List.mem_map.mp hc
      exact (hk j d).mpr (h t (List.mem_of_getElem? hr) d hd)

theorem absUrl_noSlash {u : AbsUrl} (h : u.OK) : startsWith ['/'] u.text = false := by
  obtain ⟨c, t, e, h1, -⟩ := h.scheme
  have hc : c ≠ '/' := by rintro rfl; revert h1; decide
  unfold AbsUrl.text
  rw [e]
  simp [startsWith, List.isPrefixOf, Ne.symm hc]

/-- **C73** for absolute URLs: rename paths and fragments of all URLs, and the clusters are renamed. -/
theorem C73_urls (md5 md5' : Str → Str) (h h' : Runtime) (mcn : Int) (hm : 2 ≤ mcn) (us : List (AbsUrl × Option Str)) (hok : ∀ u ∈ us, u.1.OK)
    (g : Char → Char) (hg : Renaming g) (hist hist' : List (Str × Option Str))
    (hu : hist = us.map (fun u => (u.1.text, u.2))) (hu' : hist' = us.map (fun u => ((u.1.rename g).text, u.2)))
    (hc : NoCollision md5 (accepted hist)) (hh : NoHashClash h (UrlRow hist))
    (hc' : NoCollision md5' (accepted hist')) (hh' : NoHashClash h' (UrlRow hist')) :
    ∃ cs cs', PatternMakerSt.make h mcn (loadAll md5 hist) = .ok cs ∧ PatternMakerSt.make h' mcn (loadAll md5' hist') = .ok cs' ∧
      (∀ c ∈ cs, ∃ c' ∈ cs', c'.1 = c.1 ∧ (members c').Perm ((members c).map (renameMember (besideQuery g c.1)))) ∧
      (∀ c' ∈ cs', ∃ c ∈ cs, c'.1 = c.1 ∧ (members c').Perm ((members c).map (renameMember (besideQuery g c.1)))) := by
  refine C73_rename md5 md5' h h' mcn hm hist hist' hc hh hc' hh' (besideQuery g) (fun m j => besideQuery_renaming hg m j) ?_
  intro m row'
  subst hu hu'
  constructor
  · rintro ⟨⟨t, md, ht, hs, ha⟩, hk⟩
    obtain ⟨u, huu, e⟩ := List.mem_map.mp ht
    injection e with e1 e2
    subst e1 e2
    obtain ⟨row, hr, rfl⟩ := (rename_analyze hg (hok u huu) m row').mp ha
    exact ⟨row, ⟨⟨u.1.text, u.2, List.mem_map.mpr ⟨u, huu, rfl⟩, absUrl_noSlash (hok u huu), hr⟩,
      (rename_known (fun j => besideQuery_renaming hg m j) row).mp hk⟩, rfl⟩
  · rintro ⟨row, ⟨⟨t, md, ht, hs, ha⟩, hk⟩, rfl⟩
    obtain ⟨u, huu, e⟩ := List.mem_map.mp ht
    injection e with e1 e2
    subst e1 e2
    exact ⟨⟨(u.1.rename g).text, u.2, List.mem_map.mpr ⟨u, huu, rfl⟩, absUrl_noSlash (rename_ok hg (hok u huu)),
      (rename_analyze hg (hok u huu) m _).mpr ⟨row, ha, rfl⟩⟩, (rename_known (fun j => besideQuery_renaming hg m j) row).mpr hk⟩

/-- The small letters backwards, digits turned by one. -/
def Spec.turned (c : Char) : Char :=
  ((c!"abcdefghijklmnopqrstuvwxyz0123456789".zip c!"zyxwvutsrqponmlkjihgfedcba1234567890").lookup c).getD c

/-- This is a renaming. -/
theorem turned_renaming : Renaming turned := by
  let back : Char → Char := fun c =>
    ((c!"zyxwvutsrqponmlkjihgfedcba1234567890".zip c!"abcdefghijklmnopqrstuvwxyz0123456789").lookup c).getD c
  have key : ∀ c, back (turned c) = c ∧ space? (turned c) = space? c := by
    intro c
    by_cases h : c ∈ c!"abcdefghijklmnopqrstuvwxyz0123456789"
    · have all : ∀ c ∈ c!"abcdefghijklmnopqrstuvwxyz0123456789", back (turned c) = c ∧ space? (turned c) = space? c := by decide +kernel
      exact all c h
    · have e : turned c = c := by
        unfold turned
        rw [List.lookup_eq_none_iff.mpr, Option.getD_none]
        intro p hp
        rw [bne_iff_ne]
        rintro rfl
        exact h (List.of_mem_zip (show (p.1, p.2) ∈ _ from hp)).1
      have e' : back c = c := by
        show ((List.zip _ _).lookup c).getD c = c
        rw [List.lookup_eq_none_iff.mpr, Option.getD_none]
        intro p hp
        rw [bne_iff_ne]
        rintro rfl
        have := (List.of_mem_zip (show (p.1, p.2) ∈ _ from hp)).1
        exact h ((by decide +kernel : ∀ c ∈ c!"zyxwvutsrqponmlkjihgfedcba1234567890", c ∈ c!"abcdefghijklmnopqrstuvwxyz0123456789") _ this)
      rw [e]
      exact ⟨e', rfl⟩
  exact ⟨fun a b e => by rw [← (key a).1, ← (key b).1, e], fun c => (key c).2⟩

/-- Six URLs and their clusters, ... -/
example : showMade [c!"http://h/news/a1.html", c!"http://h/news/b2.html", c!"http://h/news/c39.html", c!"http://h/about/me", c!"http://h/about/us",
      c!"http://h/list?p=1"] 3 =
    .ok [([c!"news", c!"[a-z][0-9]+[\\.]html"], [[c!"news", c!"a1[\\.]html"], [c!"news", c!"b2[\\.]html"], [c!"news", c!"c39[\\.]html"]]),
      ([c!"about", c!"me"], [[c!"about", c!"me"]]), ([c!"about", c!"us"], [[c!"about", c!"us"]]), ([c!"list", c!"1"], [[c!"list", c!"1"]])] := by
  decide +kernel

/-- ... the same URLs, renamed, and their clusters. -/
example : showMade [c!"http://h/mvdh/z2.sgno", c!"http://h/mvdh/y3.sgno", c!"http://h/mvdh/x40.sgno", c!"http://h/zylfg/nv", c!"http://h/zylfg/fh",
      c!"http://h/orhg?p=1"] 3 =
    .ok [([c!"mvdh", c!"[a-z][0-9]+[\\.]sgno"], [[c!"mvdh", c!"z2[\\.]sgno"], [c!"mvdh", c!"y3[\\.]sgno"], [c!"mvdh", c!"x40[\\.]sgno"]]),
      ([c!"zylfg", c!"nv"], [[c!"zylfg", c!"nv"]]), ([c!"zylfg", c!"fh"], [[c!"zylfg", c!"fh"]]), ([c!"orhg", c!"1"], [[c!"orhg", c!"1"]])] := by
  decide +kernel

example : (AbsUrl.rename turned ⟨c!"http", c!"h", [c!"news"], c!"c39.html", some c!"p=1", some c!"top"⟩).text = c!"http://h/mvdh/x40.sgno?p=1#glk" ∧
    renameMember (besideQuery turned ⟨2, [c!"p="], true⟩) [(c!"news", c!"news"), (c!"c39[\\.]html", c!"[a-z][0-9]+[\\.]html{2}b"), (c!"1", c!"1"), (c!"top", c!"[a-z]{3}")] =
      [(c!"mvdh", c!"mvdh"), (c!"x40[\\.]sgno", c!"[a-z][0-9]+[\\.]sgno{2}y"), (c!"1", c!"1"), (c!"glk", c!"[a-z]{3}")] := by
  decide +kernel

/-- The renaming must tell the characters apart: with `b` and `c` both written `b`, the three letters of one column are two, and the cluster is lost. -/
example : showMade [c!"http://h/a", c!"http://h/b", c!"http://h/c"] 3 = .ok [([c!"[a-z]"], [[c!"a"], [c!"b"], [c!"c"]])] ∧
    showMade [c!"http://h/a", c!"http://h/b", c!"http://h/b"] 3 = .ok [([c!"a"], [[c!"a"]]), ([c!"b"], [[c!"b"]])] :=
  ⟨by decide +kernel, by decide +kernel⟩

/-- Nor may it turn small letters into capitals. -/
example : showMade [c!"http://h/a", c!"http://h/b", c!"http://h/C"] 3 = .ok [([c!"a"], [[c!"a"]]), ([c!"b"], [[c!"b"]]), ([c!"C"], [[c!"C"]])] := by
  decide +kernel

end OsUrl
