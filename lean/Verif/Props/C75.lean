import Verif.Props.C73
import Verif.Props.C24
import Verif.Proofs.SpecPerm

/-! # C75: a cluster by itself is clustered as before; but clusters are not monotone -/

namespace OsUrl
open Spec

theorem urlRow_inj {row row' : List Str} (h : ∀ s ∈ row, ∀ c ∈ s, Known c) (h' : ∀ s ∈ row', ∀ c ∈ s, Known c)
    (e : urlRow row = urlRow row') : row = row' := by
  refine rowKeys_inj h h' ?_
  have : row.map cut = row'.map cut := congrArg Prod.fst e
  unfold rowKeys
  have e2 := congrArg (List.map litText) this
  rw [List.map_map, List.map_map] at e2
  exact e2

theorem family_sublist (F : Rule) (n : Nat) : ∀ (k : Nat) (S : List WRow) (x : WRow), (family F n k S x).Sublist S
  | 0, S, _ => List.Sublist.refl S
  | k + 1, S, x => by
    simp only [family]
    split
    · exact List.Sublist.refl S
    · exact (family_sublist F n k _ x).trans List.filter_sublist

/-- The repeated division ends with rows that are alike. -/
theorem family_alike (F : Rule) (n : Nat) : ∀ (k : Nat) (S : List WRow) (x : WRow), S.length < k → alike F n (family F n k S x) = true
  | 0, S, _, h => by omega
  | k + 1, S, x, h => by
    simp only [family]
    split
    · assumption
    · rename_i hna
      refine family_alike F n k _ x ?_
      have hle := List.length_filter_le (fun y => decide (texts F n 0 S y = texts F n 0 S x)) S
      have hne : (S.filter (fun y => decide (texts F n 0 S y = texts F n 0 S x))).length ≠ S.length := by
        intro e
        apply hna
        have hall := List.filter_sublist.eq_of_length e
        rw [List.filter_eq_self] at hall
        unfold alike
        rw [List.all_eq_true]
        intro a ha
        rw [List.all_eq_true]
        intro b hb
        have h1 := hall a ha
        have h2 := hall b hb
        rw [decide_eq_true_iff] at h1 h2 ⊢
        rw [h1, h2]
      omega

/-- The closed form on the rows of one cluster. -/
theorem clusterOf_alone (mcn : Int) (d : Nat) (R R' : List (List Str)) (row : List Str)
    (h : (R'.map urlRow).Perm (family (urlRule mcn d) row.length (R.length + 1) (R.map urlRow) (urlRow row))) (row' : List Str) (hl : row'.length = row.length) :
    (clusterOf mcn d R' row').Perm (clusterOf mcn d R row) := by
  unfold clusterOf
  simp only
  have ha := family_alike (urlRule mcn d) row.length (R.length + 1) (R.map urlRow) (urlRow row) (by rw [List.length_map]; omega)
  generalize family (urlRule mcn d) row.length (R.length + 1) (R.map urlRow) (urlRow row) = C at h ha
  rw [hl]
  have e : family (urlRule mcn d) row.length (R'.length + 1) (R'.map urlRow) (urlRow row') = R'.map urlRow := by
    simp only [family]
    rw [alike_perm (urlRule_perm mcn d) _ h, ha]
    rfl
  rw [e]
  have e2 : (fun x : WRow => (x.1.map litText).zip (texts (urlRule mcn d) row.length 0 (R'.map urlRow) x)) =
      (fun x : WRow => (x.1.map litText).zip (texts (urlRule mcn d) row.length 0 C x)) := by
    funext x
    rw [texts_perm (urlRule_perm mcn d) _ _ h]
  rw [e2]
  exact h.map _

/-- The URL with pieces `row` is a member of the cluster. -/
def Spec.IsMember (c : URLMeta × Tree NodeData) (row : List Str) : Prop :=
  ∃ p ∈ members c, p.map (·.1) = row.map (fun s => litText (cut s))

/-- **C75**: load the URLs of one cluster and no others; `make()` yields this cluster and no other. -/
theorem C75_alone (md5 md5' : Str → Str) (h h' : Runtime) (mcn : Int) (hm : 2 ≤ mcn) (hist hist' : List (Str × Option Str))
    (hc : NoCollision md5 (accepted hist)) (hh : NoHashClash h (UrlRow hist))
    (hc' : NoCollision md5' (accepted hist')) (hh' : NoHashClash h' (UrlRow hist')) :
    ∃ cs, PatternMakerSt.make h mcn (loadAll md5 hist) = .ok cs ∧
      ∀ c ∈ cs, (∀ m row, LoadedRow hist' m row ↔ m = c.1 ∧ LoadedRow hist m row ∧ IsMember c row) →
        ∃ c', PatternMakerSt.make h' mcn (loadAll md5' hist') = .ok [c'] ∧ c'.1 = c.1 ∧ (members c').Perm (members c) := by
  obtain ⟨cs, e1, a1, a2⟩ := C49_closed md5 h mcn hm hist hc hh
  obtain ⟨cs', e1', b1, b2⟩ := C49_closed md5' h' mcn hm hist' hc' hh'
  refine ⟨cs, e1, ?_⟩
  intro c hcm hsub
  obtain ⟨row, hl, hall⟩ := a2 c hcm
  obtain ⟨R, hn, hR⟩ := loadedRows_list hist c.1 row
  have hp := hall R hn hR
  have hrow : row ∈ R := (hR row).mpr ⟨hl, rfl⟩
  -- the members of the cluster
  have hmem : ∀ row', LoadedRow hist c.1 row' → (IsMember c row' ↔
      urlRow row' ∈ family (urlRule mcn c.1.pathDepth) row.length (R.length + 1) (R.map urlRow) (urlRow row)) := by
    intro row' hl'
    unfold IsMember
    have hlen : ∀ x ∈ family (urlRule mcn c.1.pathDepth) row.length (R.length + 1) (R.map urlRow) (urlRow row), x.1.length = row.length := by
      intro x hx
      obtain ⟨r, hr, rfl⟩ := List.mem_map.mp (family_sub hx)
      have := congrArg List.length ((hR r).mp hr).2
      rw [List.length_map, List.length_map] at this
      unfold urlRow
      rw [List.length_map, this]
    have hz : ∀ x ∈ family (urlRule mcn c.1.pathDepth) row.length (R.length + 1) (R.map urlRow) (urlRow row), ∀ C,
        ((x.1.map litText).zip (texts (urlRule mcn c.1.pathDepth) row.length 0 C x)).map (·.1) = x.1.map litText := by
      intro x hx C
      apply List.map_fst_zip
      rw [List.length_map, texts_length, hlen x hx]
      exact Nat.le_refl _
    constructor
    · rintro ⟨p, hpm, e⟩
      have hp2 := hp.mem_iff.mp hpm
      obtain ⟨x, hx, rfl⟩ := List.mem_map.mp hp2
      rw [hz x hx] at e
      obtain ⟨r, hr, rfl⟩ := List.mem_map.mp (family_sub hx)
      have : rowKeys r = rowKeys row' := by
        unfold rowKeys
        rw [← e]
        unfold urlRow
        rw [List.map_map]
        rfl
      rw [← rowKeys_inj ((hR r).mp hr).1.2 hl'.2 this]
      exact hx
    · intro hx
      refine ⟨_, hp.mem_iff.mpr (List.mem_map_of_mem hx), ?_⟩
      rw [hz _ hx]
      unfold urlRow
      rw [List.map_map]
      rfl
  -- the rows of the second history
  have hrows : ∀ row0, LoadedRow hist' c.1 row0 → ∀ R' : List (List Str), R'.Nodup →
      (∀ row', row' ∈ R' ↔ LoadedRow hist' c.1 row' ∧ row'.map (fun s => clsText (cut s)) = row0.map (fun s => clsText (cut s))) →
      (clusterOf mcn c.1.pathDepth R' row0).Perm (members c) := by
    intro row0 hl0 R' hn' hR'
    have h0 := (hsub _ _).mp hl0
    have hf0 := (hmem row0 h0.2.1).mp h0.2.2
    have hr0 : row0 ∈ R := by
      obtain ⟨r, hr, e⟩ := List.mem_map.mp (family_sub hf0)
      rw [← urlRow_inj ((hR r).mp hr).1.2 h0.2.1.2 e]
      exact hr
    have hcls := ((hR row0).mp hr0).2
    have hperm : (R'.map urlRow).Perm (family (urlRule mcn c.1.pathDepth) row.length (R.length + 1) (R.map urlRow) (urlRow row)) := by
      refine (List.perm_ext_iff_of_nodup ?_ ?_).mpr ?_
      · exact List.pairwise_map.mpr (hn'.imp_of_mem (fun ha hb hne e => hne (urlRow_inj ((hR' _).mp ha).1.2 ((hR' _).mp hb).1.2 e)))
      · refine List.Nodup.sublist (family_sublist _ _ _ _ _) ?_
        exact List.pairwise_map.mpr (hn.imp_of_mem (fun ha hb hne e => hne (urlRow_inj ((hR _).mp ha).1.2 ((hR _).mp hb).1.2 e)))
      · intro x
        constructor
        · intro hx
          obtain ⟨r, hr, rfl⟩ := List.mem_map.mp hx
          have := (hsub _ _).mp ((hR' r).mp hr).1
          exact (hmem r this.2.1).mp this.2.2
        · intro hx
          obtain ⟨r, hr, rfl⟩ := List.mem_map.mp (family_sub hx)
          have hlr := ((hR r).mp hr).1
          refine List.mem_map_of_mem ((hR' r).mpr ⟨(hsub _ _).mpr ⟨rfl, hlr, (hmem r hlr).mpr hx⟩, ?_⟩)
          rw [((hR r).mp hr).2, hcls]
    have hlen : row0.length = row.length := by
      have := congrArg List.length hcls
      rwa [List.length_map, List.length_map] at this
    exact (clusterOf_alone mcn c.1.pathDepth R R' row hperm row0 hlen).trans hp.symm
  have all : ∀ c' ∈ cs', c'.1 = c.1 ∧ (members c').Perm (members c) := by
    intro c' hcm'
    obtain ⟨row0, hl0, hall0⟩ := b2 c' hcm'
    have hc1 : c'.1 = c.1 := ((hsub _ _).mp hl0).1
    rw [hc1] at hl0 hall0
    obtain ⟨R', hn', hR'⟩ := loadedRows_list hist' c.1 row0
    exact ⟨hc1, (hall0 R' hn' hR').trans (hrows row0 hl0 R' hn' hR')⟩
  have hself : urlRow row ∈ family (urlRule mcn c.1.pathDepth) row.length (R.length + 1) (R.map urlRow) (urlRow row) := by
    obtain ⟨x, hx, e⟩ := List.mem_map.mp (family_self (F := urlRule mcn c.1.pathDepth) (n := row.length) (k := R.length + 1) (S := R.map urlRow) (x := urlRow row)
      (List.mem_map_of_mem (List.mem_map_of_mem hrow)))
    obtain ⟨r, hr, rfl⟩ := List.mem_map.mp (family_sub hx)
    have : urlRow r = urlRow row := by
      unfold urlRow at e ⊢
      simp only at e
      rw [e]
    rw [this] at hx; exact hx
  have hl' : LoadedRow hist' c.1 row := (hsub _ _).mpr ⟨rfl, hl, (hmem row hl).mpr hself⟩
  -- one cluster
  obtain ⟨cs0, e0, hnod, -, hne⟩ := C24_partition md5' h' mcn hm hist' hc' hh'
  rw [e1'] at e0; injection e0 with e0; subst e0
  obtain ⟨R', hn', hR'⟩ := loadedRows_list hist' c.1 row
  obtain ⟨c1, hcm1, -, -⟩ := b1 c.1 row hl' R' hn' hR'
  cases hcs : cs' with
  | nil => rw [hcs] at hcm1; cases hcm1
  | cons c2 rest =>
    rw [hcs] at e1' all hnod hne
    cases hrest : rest with
    | nil =>
      rw [hrest] at e1'
      exact ⟨c2, e1', all c2 (by simp)⟩
    | cons c3 rest3 =>
      exfalso
      rw [hrest] at all hnod hne
      obtain ⟨p2, hp2⟩ := List.exists_mem_of_ne_nil _ (hne c2 (by simp)).1
      have k2 := all c2 (by simp)
      have k3 := all c3 (by simp)
      have hin2 : p2.map (fun kn => (kn.1, kn.2.pattern)) ∈ members c2 := List.mem_map_of_mem hp2
      have hin3 := (k2.2.trans k3.2.symm).mem_iff.mp hin2
      obtain ⟨p3, hp3, e3⟩ := List.mem_map.mp hin3
      have ekeys : p3.map (·.1) = p2.map (·.1) := by
        have := congrArg (List.map (·.1)) e3
        rw [List.map_map, List.map_map] at this
        exact this
      rw [List.flatMap_cons, List.flatMap_cons, List.nodup_append] at hnod
      refine hnod.2.2 _ (List.mem_map_of_mem hp2) _ (List.mem_append_left _ (List.mem_map_of_mem hp3)) ?_
      rw [ekeys, k2.1, k3.1]

/-- Two URLs get into one cluster. -/
def Spec.SameCluster (mcn : Int) (us : List Str) (r r' : List Str) : Prop :=
  ∃ cs, PatternMakerSt.make codeHash mcn (loadAll id (us.map (fun u => (u, none)))) = .ok cs ∧ ∃ c ∈ cs, IsMember c r ∧ IsMember c r'

/-- What `showMade` shows decides who is together. -/
theorem together_show {mcn : Int} {us : List Str} {r r' : List Str} {l : List (List Str × List (List Str))} (h : showMade us mcn = .ok l) :
    SameCluster mcn us r r' ↔ ∃ x ∈ l, r.map (fun s => litText (cut s)) ∈ x.2 ∧ r'.map (fun s => litText (cut s)) ∈ x.2 := by
  unfold showMade at h
  unfold SameCluster
  cases hm : PatternMakerSt.make codeHash mcn (loadAll id (us.map (fun u => (u, none)))) with
  | error e => rw [hm] at h; cases h
  | ok cs =>
    rw [hm] at h
    simp only [bind, Except.bind, pure, Except.pure] at h
    injection h with h
    subst h
    have key : ∀ (c : URLMeta × Tree NodeData) (row : List Str), IsMember c row ↔ row.map (fun s => litText (cut s)) ∈ c.2.paths.map (fun p => p.map (·.1)) := by
      intro c row
      unfold IsMember members
      constructor
      · rintro ⟨p, hp, e⟩
        obtain ⟨q, hq, rfl⟩ := List.mem_map.mp hp
        rw [List.map_map] at e
        exact List.mem_map.mpr ⟨q, hq, e⟩
      · intro hx
        obtain ⟨q, hq, e⟩ := List.mem_map.mp hx
        exact ⟨_, List.mem_map_of_mem hq, by rw [List.map_map]; exact e⟩
    constructor
    · rintro ⟨cs', e, c, hc, h1, h2⟩
      injection e with e
      subst e
      exact ⟨_, List.mem_map_of_mem hc, (key c r).mp h1, (key c r').mp h2⟩
    · rintro ⟨x, hx, h1, h2⟩
      obtain ⟨c, hc, rfl⟩ := List.mem_map.mp hx
      exact ⟨cs, rfl, c, hc, (key c r).mpr h1, (key c r').mpr h2⟩

theorem four_urls : showMade [c!"http://h/a", c!"http://h/b", c!"http://h/cc", c!"http://h/c"] 3 =
    .ok [([c!"[a-z]"], [[c!"a"], [c!"b"], [c!"c"]]), ([c!"cc"], [[c!"cc"]])] := by decide +kernel

/-- **C75**: one more URL can break up a cluster. -/
theorem C75_more_urls : ¬ ∀ (mcn : Int) (us : List Str) (u : Str) (r r' : List Str), 2 ≤ mcn → SameCluster mcn us r r' → SameCluster mcn (us ++ [u]) r r' := by
  intro H
  have h1 : SameCluster 3 [c!"http://h/a", c!"http://h/b", c!"http://h/cc"] [c!"a"] [c!"cc"] := by
    refine (together_show (l := [([c!"[a-z]+"], [[c!"a"], [c!"b"], [c!"cc"]])]) (by decide +kernel)).mpr ?_
    decide +kernel
  have h2 := (together_show four_urls).mp (H 3 _ c!"http://h/c" _ _ (by decide) h1)
  revert h2
  decide +kernel

/-- **C75**: a larger `min_cluster_num` can join clusters. -/
theorem C75_larger : ¬ ∀ (mcn mcn' : Int) (us : List Str) (r r' : List Str), 2 ≤ mcn → mcn ≤ mcn' → SameCluster mcn' us r r' → SameCluster mcn us r r' := by
  intro H
  have h1 : SameCluster 4 [c!"http://h/a", c!"http://h/b", c!"http://h/cc", c!"http://h/c"] [c!"a"] [c!"cc"] := by
    refine (together_show (l := [([c!"[a-z]+"], [[c!"a"], [c!"b"], [c!"cc"], [c!"c"]])]) (by decide +kernel)).mpr ?_
    decide +kernel
  have h2 := (together_show four_urls).mp (H 3 4 _ _ _ (by decide) (by decide) h1)
  revert h2
  decide +kernel

/-- **C75**: neighbouring values of `min_cluster_num` can give clusters that cross, so that neither clustering refines the other. -/
theorem C75_cross : ¬ ∀ (mcn mcn' : Int) (us : List Str) (r a b : List Str), 2 ≤ mcn → mcn ≤ mcn' → SameCluster mcn us r a →
    SameCluster mcn' us r b → SameCluster mcn' us r a ∨ SameCluster mcn us r b := by
  intro H
  have e2 : showMade [c!"http://h/21b", c!"http://h/b22", c!"http://h/bab112", c!"http://h/11b"] 2 =
      .ok [([c!"[0-9]{2}b"], [[c!"21b"], [c!"11b"]]), ([c!"[a-z]+[0-9]+"], [[c!"b22"], [c!"bab112"]])] := by decide +kernel
  have e3 : showMade [c!"http://h/21b", c!"http://h/b22", c!"http://h/bab112", c!"http://h/11b"] 3 =
      .ok [([c!"[0-9a-z]{3}"], [[c!"21b"], [c!"b22"], [c!"11b"]]), ([c!"bab112"], [[c!"bab112"]])] := by decide +kernel
  have h1 : SameCluster 2 [c!"http://h/21b", c!"http://h/b22", c!"http://h/bab112", c!"http://h/11b"] [c!"b22"] [c!"bab112"] :=
    (together_show e2).mpr (by decide +kernel)
  have h2 : SameCluster 3 [c!"http://h/21b", c!"http://h/b22", c!"http://h/bab112", c!"http://h/11b"] [c!"b22"] [c!"21b"] :=
    (together_show e3).mpr (by decide +kernel)
  rcases H 2 3 _ _ _ _ (by decide) (by decide) h1 h2 with h | h
  · have := (together_show e3).mp h
    revert this
    decide +kernel
  · have := (together_show e2).mp h
    revert this
    decide +kernel

/-- **C75**: taking away whole clusters can change the clusters that are left: here two URLs that are alone are joined when the others, a cluster of
two, are taken away. -/
theorem C75_rest : ¬ ∀ (mcn : Int) (us vs : List Str), 2 ≤ mcn → (∀ u ∈ vs, u ∈ us) →
    (∀ u ∈ us, ∀ v ∈ us, ∀ m m' r r', analyzeUrl u = .ok (m, r) → analyzeUrl v = .ok (m', r') → SameCluster mcn us r r' → u ∈ vs → v ∈ vs) →
    ∀ r r', SameCluster mcn vs r r' → SameCluster mcn us r r' := by
  intro H
  have e4 : showMade [c!"http://h/1a/a1", c!"http://h/a1/1a", c!"http://h/2b/2b", c!"http://h/3c/3c"] 2 =
      .ok [([c!"1a", c!"a1"], [[c!"1a", c!"a1"]]), ([c!"a1", c!"1a"], [[c!"a1", c!"1a"]]),
        ([c!"[0-9][a-z]", c!"[0-9][a-z]"], [[c!"2b", c!"2b"], [c!"3c", c!"3c"]])] := by decide +kernel
  have e2 : showMade [c!"http://h/1a/a1", c!"http://h/a1/1a"] 2 =
      .ok [([c!"[0-9a-z]{2}", c!"[0-9a-z]{2}"], [[c!"1a", c!"a1"], [c!"a1", c!"1a"]])] := by decide +kernel
  have hin : ∀ u ∈ [c!"http://h/1a/a1", c!"http://h/a1/1a"], u ∈ [c!"http://h/1a/a1", c!"http://h/a1/1a", c!"http://h/2b/2b", c!"http://h/3c/3c"] := by decide +kernel
  have htog : SameCluster 2 [c!"http://h/1a/a1", c!"http://h/a1/1a"] [c!"1a", c!"a1"] [c!"a1", c!"1a"] := (together_show e2).mpr (by decide +kernel)
  have hrest : ∀ u ∈ [c!"http://h/1a/a1", c!"http://h/a1/1a", c!"http://h/2b/2b", c!"http://h/3c/3c"], ∀ v ∈ [c!"http://h/1a/a1", c!"http://h/a1/1a", c!"http://h/2b/2b", c!"http://h/3c/3c"], ∀ m m' r r',
      analyzeUrl u = .ok (m, r) → analyzeUrl v = .ok (m', r') → SameCluster 2 [c!"http://h/1a/a1", c!"http://h/a1/1a", c!"http://h/2b/2b", c!"http://h/3c/3c"] r r' → u ∈ [c!"http://h/1a/a1", c!"http://h/a1/1a"] → v ∈ [c!"http://h/1a/a1", c!"http://h/a1/1a"] := by
    have row : ∀ (u : Str) (m : URLMeta) (r : List Str), u ∈ [c!"http://h/1a/a1", c!"http://h/a1/1a", c!"http://h/2b/2b", c!"http://h/3c/3c"] →
        analyzeUrl u = .ok (m, r) → (u, r) ∈ [(c!"http://h/1a/a1", [c!"1a", c!"a1"]), (c!"http://h/a1/1a", [c!"a1", c!"1a"]),
          (c!"http://h/2b/2b", [c!"2b", c!"2b"]), (c!"http://h/3c/3c", [c!"3c", c!"3c"])] := by
      have all : ∀ u ∈ [c!"http://h/1a/a1", c!"http://h/a1/1a", c!"http://h/2b/2b", c!"http://h/3c/3c"], (analyzeUrl u).toOption.map (fun q => (u, q.2)) ∈ ([(c!"http://h/1a/a1", [c!"1a", c!"a1"]), (c!"http://h/a1/1a", [c!"a1", c!"1a"]), (c!"http://h/2b/2b", [c!"2b", c!"2b"]), (c!"http://h/3c/3c", [c!"3c", c!"3c"])]).map some := by decide +kernel
      intro u m r hu ha
      have := all u hu
      rw [ha] at this
      obtain ⟨x, hx, e⟩ := List.mem_map.mp this
      injection e with e
      exact (show x = (u, r) from e) ▸ hx
    intro u hu v hv m m' r r' ha hb hs
    have hu' := row u m r hu ha
    have hv' := row v m' r' hv hb
    have hs' := (together_show e4).mp hs
    clear hs ha hb hu hv row
    revert hs'
    have fin : ∀ x ∈ [(c!"http://h/1a/a1", [c!"1a", c!"a1"]), (c!"http://h/a1/1a", [c!"a1", c!"1a"]),
          (c!"http://h/2b/2b", [c!"2b", c!"2b"]), (c!"http://h/3c/3c", [c!"3c", c!"3c"])],
        ∀ y ∈ [(c!"http://h/1a/a1", [c!"1a", c!"a1"]), (c!"http://h/a1/1a", [c!"a1", c!"1a"]),
          (c!"http://h/2b/2b", [c!"2b", c!"2b"]), (c!"http://h/3c/3c", [c!"3c", c!"3c"])],
        (∃ z ∈ [([c!"1a", c!"a1"], [[c!"1a", c!"a1"]]), ([c!"a1", c!"1a"], [[c!"a1", c!"1a"]]),
          ([c!"[0-9][a-z]", c!"[0-9][a-z]"], [[c!"2b", c!"2b"], [c!"3c", c!"3c"]])],
          x.2.map (fun s => litText (cut s)) ∈ z.2 ∧ y.2.map (fun s => litText (cut s)) ∈ z.2) →
        x.1 ∈ [c!"http://h/1a/a1", c!"http://h/a1/1a"] → y.1 ∈ [c!"http://h/1a/a1", c!"http://h/a1/1a"] := by decide +kernel
    exact fin _ hu' _ hv'
  have h := (together_show e4).mp (H 2 [c!"http://h/1a/a1", c!"http://h/a1/1a", c!"http://h/2b/2b", c!"http://h/3c/3c"] [c!"http://h/1a/a1", c!"http://h/a1/1a"] (Int.le_refl 2) hin hrest [c!"1a", c!"a1"] [c!"a1", c!"1a"] htog)
  revert h
  decide +kernel

/-- The cluster of the first three of these URLs, alone: as before. -/
example : showMade [c!"http://h/a", c!"http://h/b", c!"http://h/c"] 3 = .ok [([c!"[a-z]"], [[c!"a"], [c!"b"], [c!"c"]])] := by decide +kernel

end OsUrl
