import Verif.Spec.Command
import Verif.Props.C34
import Verif.Props.C37
import Verif.Props.C49

/-! What `pattern-make` prints. -/

namespace OsUrl
open Spec

theorem join_paths (s : Str) (ss : List Str) : '/' :: join ['/'] (s :: ss) = pathText (s :: ss) := by
  induction ss generalizing s with
  | nil => simp [join, pathText]
  | cons t ss ih =>
    have := ih t
    rw [pathText, ← this, join]
    simp

theorem join_amps (x : Str) (xs : List Str) : join ['&'] (x :: xs) = x ++ xs.flatMap (fun y => '&' :: y) := by
  induction xs generalizing x with
  | nil => simp [join]
  | cons y xs ih =>
    rw [join, ih y]
    simp

theorem zip_take_right {α β : Type} : ∀ (ks : List α) (l : List β), ks.zip (l.take ks.length) = ks.zip l
  | [], l => by simp
  | k :: ks, [] => by simp
  | k :: ks, x :: l => by simp [zip_take_right ks l]

theorem pack_write {m : URLMeta} {ts : List Str} (hl : ts.length = m.depth) (hd : 0 < m.pathDepth) : pack m ts = writeUrl m ts := by
  unfold URLMeta.depth at hl
  unfold pack writeUrl
  simp only
  have e1 : c!"/" ++ join ['/'] (ts.take m.pathDepth) = pathText (ts.take m.pathDepth) := by
    cases h : ts.take m.pathDepth with
    | nil =>
      have := congrArg List.length h
      rw [List.length_take, hl, List.length_nil] at this
      omega
    | cons s ss => exact join_paths s ss
  rw [e1]
  have e2 : m.queryKeys.zip ((ts.take (m.pathDepth + m.queryKeys.length)).drop m.pathDepth) = m.queryKeys.zip (ts.drop m.pathDepth) := by
    rw [List.drop_take, Nat.add_sub_cancel_left, zip_take_right]
  rw [e2]
  congr 1
  · congr 1
    cases hk : m.queryKeys with
    | nil => simp
    | cons k ks =>
      cases ht : ts.drop m.pathDepth with
      | nil =>
        have := congrArg List.length ht
        rw [List.length_drop, hl, hk, List.length_nil, List.length_cons] at this
        omega
      | cons v vs =>
        rw [if_pos (by simp)]
        simp only [List.zip_cons_cons, List.map_cons]
        rw [join_amps, List.flatMap_map]
        simp [singleQuestion]
  · by_cases hf : m.hasFragment = true
    · rw [if_pos hf, if_pos hf]
      rw [if_pos hf] at hl
      have h1 : (ts.drop (m.pathDepth + m.queryKeys.length)).length = 1 := by rw [List.length_drop, hl]; omega
      obtain ⟨t, ht⟩ := List.length_eq_one_iff.mp h1
      rw [ht]
      have : ts = ts.take (m.pathDepth + m.queryKeys.length) ++ [t] := by rw [← ht, List.take_append_drop]
      rw [this]
      simp
    · rw [if_neg hf, if_neg hf]

/-- What is read from a URL: `parser.parse` accepts it (it is no pattern string and has known characters only). -/
def urlInfo (u : Str) : Option (URLMeta × List Str) :=
  if startsWith ['/'] u then none
  else match analyzeUrl u with
    | .ok (m, row) => if row.all (fun s => s.all (fun c => decide (Known c))) then some (m, row) else none
    | .error _ => none

theorem urlInfo_iff {u : Str} {m : URLMeta} {row : List Str} :
    urlInfo u = some (m, row) ↔ startsWith ['/'] u = false ∧ analyzeUrl u = .ok (m, row) ∧ ∀ s ∈ row, ∀ c ∈ s, Known c := by
  unfold urlInfo
  cases hs : startsWith ['/'] u with
  | true => simp
  | false =>
    rw [if_neg (by simp)]
    cases ha : analyzeUrl u with
    | error e => simp
    | ok v =>
      obtain ⟨m', row'⟩ := v
      simp only
      by_cases hk : row'.all (fun s => s.all (fun c => decide (Known c))) = true
      · rw [if_pos hk]
        simp only [List.all_eq_true, decide_eq_true_eq] at hk
        constructor
        · intro e; injection e with e; injection e with e1 e2; subst e1; subst e2; exact ⟨trivial, rfl, hk⟩
        · rintro ⟨-, e, -⟩; injection e with e; rw [e]
      · rw [if_neg hk]
        simp only [List.all_eq_true, decide_eq_true_eq] at hk
        constructor
        · intro e; cases e
        · rintro ⟨-, e, h⟩
          injection e with e
          injection e with e1 e2
          subst e2
          exact absurd h hk

theorem loadedRow_info {hist : List (Str × Option Str)} {m : URLMeta} {row : List Str} :
    LoadedRow hist m row ↔ ∃ u md, (u, md) ∈ hist ∧ urlInfo u = some (m, row) := by
  constructor
  · rintro ⟨⟨u, md, h1, h2, h3⟩, hk⟩
    exact ⟨u, md, h1, urlInfo_iff.mpr ⟨h2, h3, hk⟩⟩
  · rintro ⟨u, md, h1, h⟩
    obtain ⟨h2, h3, hk⟩ := urlInfo_iff.mp h
    exact ⟨⟨u, md, h1, h2, h3⟩, hk⟩

/-- `parse` on the accepted URLs. -/
theorem parse_info {u : Str} {m : URLMeta} {pps : List ParsedPiece} :
    parse u = .ok (m, .pieces pps) ↔ ∃ row, urlInfo u = some (m, row) ∧ pps = row.map pieceOf := by
  constructor
  · intro h
    obtain ⟨row, hl, hp⟩ := rec_loadedRow (hist := [(u, none)]) (r := ⟨m, pps, none⟩) (mem_accepted.mpr ⟨u, by simp, h⟩)
    obtain ⟨u', md, hu, hi⟩ := loadedRow_info.mp hl
    simp only [List.mem_singleton, Prod.mk.injEq] at hu
    rw [hu.1] at hi
    exact ⟨row, hi, hp⟩
  · rintro ⟨row, hi, rfl⟩
    obtain ⟨r, hr, e1, e2⟩ := loadedRow_rec (hist := [(u, none)]) (loadedRow_info.mpr ⟨u, none, by simp, hi⟩)
    obtain ⟨u', hu, hp⟩ := mem_accepted.mp hr
    simp only [List.mem_singleton, Prod.mk.injEq] at hu
    rw [← hu.1, ← e1, ← e2]
    exact hp

/-- The keys of a row. -/
def rowKeys (row : List Str) : List Str := row.map (fun s => litText (cut s))

theorem rowKeys_eq {row : List Str} (h : ∀ s ∈ row, ∀ c ∈ s, Known c) : (row.map pieceOf).map (·.piece) = rowKeys row := by
  rw [← cut_row h, List.map_map]
  apply List.map_congr_left
  intro s _
  exact (Prod.mk.inj (vpair_ppOf (cut s))).1

theorem rowKeys_inj {row row' : List Str} (h : ∀ s ∈ row, ∀ c ∈ s, Known c) (h' : ∀ s ∈ row', ∀ c ∈ s, Known c)
    (e : rowKeys row = rowKeys row') : row = row' := by
  induction row generalizing row' with
  | nil =>
    cases row' with
    | nil => rfl
    | cons s row' => simp [rowKeys] at e
  | cons s row ih =>
    cases row' with
    | nil => simp [rowKeys] at e
    | cons s' row' =>
      simp only [rowKeys, List.map_cons, List.cons.injEq] at e
      have h1 := runsOf_spec (h s (by simp))
      have h2 := runsOf_spec (h' s' (by simp))
      have e1 : cut s = cut s' := lit_inj (by rw [cut_runs (h s (by simp))]; exact ⟨_, h1⟩) (by rw [cut_runs (h' s' (by simp))]; exact ⟨_, h2⟩) e.1
      rw [cut_runs (h s (by simp)), cut_runs (h' s' (by simp))] at e1
      rw [e1] at h1
      rw [ih (fun x hx => h x (by simp [hx])) (fun x hx => h' x (by simp [hx])) e.2, h1.concat.symm.trans h2.concat]

theorem flatMap_once {α β : Type} {f : α → List β} {l : List α} (h : (l.flatMap f).Nodup) {a b : α} (ha : a ∈ l) (hb : b ∈ l) {x : β}
    (hx : x ∈ f a) (hy : x ∈ f b) : a = b := by
  induction l with
  | nil => cases ha
  | cons c l ih =>
    rw [List.flatMap_cons, List.nodup_append] at h
    rcases List.mem_cons.mp ha with rfl | ha' <;> rcases List.mem_cons.mp hb with rfl | hb'
    · rfl
    · exact absurd rfl (h.2.2 x hx x (List.mem_flatMap.mpr ⟨b, hb', hy⟩))
    · exact absurd rfl (h.2.2 x hy x (List.mem_flatMap.mpr ⟨a, ha', hx⟩))
    · exact ih h.2.1 ha' hb'

theorem mem_firsts {α : Type} [DecidableEq α] {x : α} {l : List α} : x ∈ firsts l ↔ x ∈ l := by
  induction l with
  | nil => simp [firsts]
  | cons a l ih =>
    rw [firsts, List.mem_cons, List.mem_cons, List.mem_filter, ih]
    by_cases h : x = a <;> simp [h]

theorem mem_peers {hist : List (Str × Option Str)} {m : URLMeta} {row row' : List Str} :
    row' ∈ peers urlInfo (hist.map (·.1)) m row ↔
      LoadedRow hist m row' ∧ row'.map (fun s => clsText (cut s)) = row.map (fun s => clsText (cut s)) := by
  unfold peers
  rw [mem_firsts, List.mem_filterMap, loadedRow_info]
  constructor
  · rintro ⟨v, hv, e⟩
    obtain ⟨⟨v', md⟩, hvm, rfl⟩ := List.mem_map.mp hv
    cases hi : urlInfo v' with
    | none => simp [hi] at e
    | some mr =>
      obtain ⟨m1, r1⟩ := mr
      simp only [hi] at e
      split at e
      · rename_i h
        injection e with e
        subst e
        exact ⟨⟨v', md, hvm, by rw [hi, h.1]⟩, h.2⟩
      · cases e
  · rintro ⟨⟨v, md, hv, hi⟩, hc⟩
    exact ⟨v, List.mem_map.mpr ⟨_, hv, rfl⟩, by simp [hi, hc]⟩

theorem texts_length (F : Rule) (k j : Nat) (S : List WRow) (x : WRow) : (texts F k j S x).length = k := by
  induction k generalizing j S with
  | zero => rfl
  | succ k ih => rw [texts, List.length_cons, ih]

/-- The keys of the paths of a tree. -/
def treeKeys (t : Tree NodeData) : List (List Str) := t.paths.map (fun p => p.map (·.1))

/-- What is known about the clusters. -/
structure CutUp (mcn : Int) (hist : List (Str × Option Str)) (cs : List (URLMeta × Tree NodeData)) : Prop where
  once : (cs.flatMap (fun c => (treeKeys c.2).map (fun ks => (c.1, ks)))).Nodup
  ne : ∀ c ∈ cs, c.2.paths ≠ [] ∧ c.2.root.count = c.2.paths.length
  pats : ∀ c ∈ cs, ∃ pats : List Str, pats.length = c.1.depth ∧ 0 < c.1.pathDepth ∧ ∀ p ∈ c.2.paths, p.map (fun kn => kn.2.pattern) = pats
  mem : ∀ c ∈ cs, ∀ ks ∈ treeKeys c.2, ∃ u md row, (u, md) ∈ hist ∧ urlInfo u = some (c.1, row) ∧ ks = rowKeys row
  metas : ∀ c ∈ cs, ∀ p ∈ c.2.paths, ∃ k leaf, p.getLast? = some (k, leaf) ∧ (leaf.metas.getD []).Nodup ∧
    ∀ x, x ∈ leaf.metas.getD [] ↔ ∃ u row, (u, some x) ∈ hist ∧ urlInfo u = some (c.1, row) ∧ rowKeys row = p.map (·.1)
  fam : ∀ u md m row, (u, md) ∈ hist → urlInfo u = some (m, row) → ∃ c ∈ cs, c.1 = m ∧ rowKeys row ∈ treeKeys c.2 ∧
    (∀ p ∈ c.2.paths, p.map (fun kn => kn.2.pattern) =
      texts (urlRule mcn m.pathDepth) row.length 0 (company mcn urlInfo (hist.map (·.1)) m row) (urlRow row)) ∧
    ∀ row', (∀ s ∈ row', ∀ c ∈ s, Known c) → (rowKeys row' ∈ treeKeys c.2 ↔ urlRow row' ∈ company mcn urlInfo (hist.map (·.1)) m row)

theorem cutUp (md5 : Str → Str) (h : Runtime) (mcn : Int) (hm : 2 ≤ mcn) (hist : List (Str × Option Str))
    (hc : NoCollision md5 (accepted hist)) (hh : NoHashClash h (UrlRow hist)) :
    ∃ cs, PatternMakerSt.make h mcn (loadAll md5 hist) = .ok cs ∧ CutUp mcn hist cs := by
  obtain ⟨cs, h1, h2, h3, h4⟩ := C24_partition md5 h mcn hm hist hc hh
  obtain ⟨cs', h1', h5⟩ := C25_uniform md5 h mcn hm hist hc hh
  rw [h1] at h1'
  injection h1' with e
  subst e
  obtain ⟨cs', h1', h6, -⟩ := C49_closed md5 h mcn hm hist hc hh
  rw [h1] at h1'
  injection h1' with e
  subst e
  have hmem : ∀ c ∈ cs, ∀ ks ∈ treeKeys c.2, ∃ u md row, (u, md) ∈ hist ∧ urlInfo u = some (c.1, row) ∧ ks = rowKeys row := by
    intro c hcm ks hks
    obtain ⟨p, hp, rfl⟩ := List.mem_map.mp hks
    obtain ⟨u, md, pps, hu, hpar, e⟩ := (h3 c.1 (p.map (·.1))).mp (List.mem_flatMap.mpr ⟨c, hcm, List.mem_map.mpr ⟨p, hp, rfl⟩⟩)
    obtain ⟨row, hi, rfl⟩ := parse_info.mp hpar
    exact ⟨u, md, row, hu, hi, by rw [e, rowKeys_eq (urlInfo_iff.mp hi).2.2]⟩
  refine ⟨cs, h1, ?_, fun c hc => ⟨(h4 c hc).1, (h4 c hc).2.1⟩, ?_, hmem, ?_, ?_⟩
  · simpa [treeKeys, Function.comp_def] using h2
  · intro c hcm
    obtain ⟨pats, a1, a2, -⟩ := h5 c hcm
    refine ⟨pats, a1, ?_, a2⟩
    obtain ⟨p, ps, e⟩ := List.exists_cons_of_ne_nil (h4 c hcm).1
    obtain ⟨u, md, row, -, hi, -⟩ := hmem c hcm (p.map (·.1)) (List.mem_map.mpr ⟨p, by rw [e]; simp, rfl⟩)
    obtain ⟨ps, vs, fs, -, hst⟩ := analyzeUrl_struct (urlInfo_iff.mp hi).2.1
    have hp : ps ≠ [] := hst.path.ne
    rw [hst.depth]
    exact List.length_pos_iff.mpr hp
  · intro c hcm p hp
    obtain ⟨k, leaf, b1, -, b2, b3⟩ := (h4 c hcm).2.2 p hp
    refine ⟨k, leaf, b1, b2, ?_⟩
    intro x
    rw [b3]
    constructor
    · rintro ⟨u, pps, hu, hpar, e⟩
      obtain ⟨row, hi, rfl⟩ := parse_info.mp hpar
      exact ⟨u, row, hu, hi, by rw [← e, rowKeys_eq (urlInfo_iff.mp hi).2.2]⟩
    · rintro ⟨u, row, hu, hi, e⟩
      exact ⟨u, _, hu, parse_info.mpr ⟨row, hi, rfl⟩, by rw [rowKeys_eq (urlInfo_iff.mp hi).2.2, e]⟩
  · intro u md m row hu hi
    have hk := (urlInfo_iff.mp hi).2.2
    have hl : LoadedRow hist m row := loadedRow_info.mpr ⟨u, md, hu, hi⟩
    obtain ⟨c, hcm, e1, hperm⟩ := h6 m row hl (peers urlInfo (hist.map (·.1)) m row) (firsts_nodup _) (fun row' => mem_peers)
    obtain ⟨pats, a1, a2, -⟩ := h5 c hcm
    have hR : row ∈ peers urlInfo (hist.map (·.1)) m row := mem_peers.mpr ⟨hl, rfl⟩
    have hself : (urlRow row).1 ∈ (company mcn urlInfo (hist.map (·.1)) m row).map (·.1) :=
      family_self (List.mem_map_of_mem (List.mem_map_of_mem hR))
    have hlen : row.length = m.depth := by
      obtain ⟨r, hr, e2, e3⟩ := loadedRow_rec hl
      have := (accepted_depth hr).1
      rwa [e3, e2, List.length_map] at this
    have hsub : ∀ x ∈ company mcn urlInfo (hist.map (·.1)) m row, ∃ row', x = urlRow row' ∧ ∀ s ∈ row', ∀ c ∈ s, Known c := by
      intro x hx
      obtain ⟨row', hr', rfl⟩ := List.mem_map.mp (family_sub hx)
      exact ⟨row', rfl, (mem_peers.mp hr').1.2⟩
    have hxlen : ∀ x ∈ company mcn urlInfo (hist.map (·.1)) m row, x.1.length = row.length := by
      intro x hx
      obtain ⟨row', hr', rfl⟩ := List.mem_map.mp (family_sub hx)
      have := congrArg List.length (mem_peers.mp hr').2
      simpa [urlRow] using this
    have hview : ∀ v, v ∈ c.2.paths.map (fun p => p.map (fun kn => (kn.1, kn.2.pattern))) ↔
        ∃ x ∈ company mcn urlInfo (hist.map (·.1)) m row, v = (x.1.map litText).zip
          (texts (urlRule mcn m.pathDepth) row.length 0 (company mcn urlInfo (hist.map (·.1)) m row) x) := by
      intro v
      rw [hperm.mem_iff]
      unfold clusterOf
      simp only
      rw [List.mem_map]
      exact ⟨fun ⟨x, hx, e⟩ => ⟨x, hx, e.symm⟩, fun ⟨x, hx, e⟩ => ⟨x, hx, e.symm⟩⟩
    have hkeys : ∀ ks, ks ∈ treeKeys c.2 ↔ ∃ x ∈ company mcn urlInfo (hist.map (·.1)) m row, ks = x.1.map litText := by
      intro ks
      constructor
      · intro hks
        obtain ⟨p, hp, rfl⟩ := List.mem_map.mp hks
        obtain ⟨x, hx, e⟩ := (hview _).mp (List.mem_map_of_mem hp)
        refine ⟨x, hx, ?_⟩
        have := congrArg (fun l => l.map Prod.fst) e
        simp only [List.map_map] at this
        rw [List.map_fst_zip (by rw [List.length_map, texts_length, hxlen x hx]; exact Nat.le_refl _)] at this
        exact this
      · rintro ⟨x, hx, rfl⟩
        obtain ⟨p, hp, e⟩ := List.mem_map.mp ((hview _).mpr ⟨x, hx, rfl⟩)
        refine List.mem_map.mpr ⟨p, hp, ?_⟩
        have := congrArg (fun l => l.map Prod.fst) e
        simp only [List.map_map] at this
        rw [List.map_fst_zip (by rw [List.length_map, texts_length, hxlen x hx]; exact Nat.le_refl _)] at this
        exact this
    refine ⟨c, hcm, e1, ?_, ?_, ?_⟩
    · obtain ⟨x, hx, e⟩ := List.mem_map.mp hself
      exact (hkeys _).mpr ⟨x, hx, by rw [e]; simp [urlRow, rowKeys]⟩
    · obtain ⟨x, hx, e⟩ := List.mem_map.mp hself
      obtain ⟨p, hp, e'⟩ := List.mem_map.mp ((hview _).mpr ⟨x, hx, rfl⟩)
      have := congrArg (fun l => l.map Prod.snd) e'
      simp only [List.map_map] at this
      rw [List.map_snd_zip (by rw [List.length_map, texts_length, hxlen x hx]; exact Nat.le_refl _)] at this
      intro q hq
      rw [a2 q hq, ← a2 p hp, ← texts_congr e]
      exact this
    · intro row' hk'
      rw [hkeys]
      constructor
      · rintro ⟨x, hx, e⟩
        obtain ⟨row2, rfl, hk2⟩ := hsub x hx
        have : row' = row2 := rowKeys_inj hk' hk2 (by rw [e]; simp [urlRow, rowKeys])
        rw [this]; exact hx
      · intro hx
        exact ⟨_, hx, by simp [urlRow, rowKeys]⟩

/-- The patterns of a cluster. -/
def treePats (t : Tree NodeData) : List Str := (t.paths.head?.map (fun p => p.map (fun kn => kn.2.pattern))).getD []

theorem treePats_eq {mcn : Int} {hist : List (Str × Option Str)} {cs : List (URLMeta × Tree NodeData)} (h : CutUp mcn hist cs)
    {c : URLMeta × Tree NodeData} (hc : c ∈ cs) : (∀ p ∈ c.2.paths, p.map (fun kn => kn.2.pattern) = treePats c.2) ∧
      pack c.1 (treePats c.2) = writeUrl c.1 (treePats c.2) ∧ formatPattern c.1 c.2 = [writeUrl c.1 (treePats c.2)] := by
  obtain ⟨pats, h1, h2, h3⟩ := h.pats c hc
  obtain ⟨p, ps, e⟩ := List.exists_cons_of_ne_nil (h.ne c hc).1
  have ht : treePats c.2 = pats := by
    unfold treePats
    rw [e]
    exact h3 p (by rw [e]; simp)
  refine ⟨fun q hq => by rw [h3 q hq, ht], by rw [ht, pack_write h1 h2], ?_⟩
  unfold formatPattern
  rw [e]
  simp only
  rw [ht, ← pack_write h1 h2]
  congr 2
  exact h3 p (by rw [e]; simp)

section
variable {mcn : Int} {hist : List (Str × Option Str)} {cs : List (URLMeta × Tree NodeData)} (h : CutUp mcn hist cs)
include h

theorem cutUp_once {c c' : URLMeta × Tree NodeData} (hc : c ∈ cs) (hc' : c' ∈ cs) (e : c.1 = c'.1) {ks : List Str} (h1 : ks ∈ treeKeys c.2)
    (h2 : ks ∈ treeKeys c'.2) : c = c' :=
  flatMap_once h.once hc hc' (List.mem_map.mpr ⟨ks, h1, rfl⟩) (List.mem_map.mpr ⟨ks, h2, by rw [e]⟩)

/-- Any lists of the URLs of the clusters are a listing. -/
theorem cutUp_listing (urls : URLMeta × Tree NodeData → List Str)
    (hn : ∀ c ∈ cs, (urls c).Nodup)
    (hu : ∀ c ∈ cs, ∀ v, v ∈ urls c ↔ v ∈ hist.map (·.1) ∧ ∃ row, urlInfo v = some (c.1, row) ∧ rowKeys row ∈ treeKeys c.2) :
    Listing mcn urlInfo (hist.map (·.1)) (cs.map (fun c => ⟨writeUrl c.1 (treePats c.2), urls c⟩)) := by
  -- the cluster of a URL
  have key : ∀ c ∈ cs, ∀ u row, u ∈ hist.map (·.1) → urlInfo u = some (c.1, row) → rowKeys row ∈ treeKeys c.2 →
      (∀ p ∈ c.2.paths, p.map (fun kn => kn.2.pattern) =
        texts (urlRule mcn c.1.pathDepth) row.length 0 (company mcn urlInfo (hist.map (·.1)) c.1 row) (urlRow row)) ∧
      ∀ row', (∀ s ∈ row', ∀ c ∈ s, Known c) → (rowKeys row' ∈ treeKeys c.2 ↔ urlRow row' ∈ company mcn urlInfo (hist.map (·.1)) c.1 row) := by
    intro c hc u row hum hi hk
    obtain ⟨⟨u, md⟩, hum', rfl⟩ := List.mem_map.mp hum
    obtain ⟨c', hc', e1, e2, e3, e4⟩ := h.fam u md c.1 row hum' hi
    have : c = c' := cutUp_once h hc hc' e1.symm hk e2
    subst this
    exact ⟨e3, e4⟩
  refine ⟨?_, ?_, ?_, ?_⟩
  · rw [List.flatMap_map, List.perm_ext_iff_of_nodup _ (firsts_nodup _)]
    · intro v
      rw [List.mem_flatMap, mem_firsts, List.mem_filter]
      constructor
      · rintro ⟨c, hc, hv⟩
        obtain ⟨h1, row, h2, -⟩ := (hu c hc v).mp hv
        exact ⟨h1, by rw [h2]; rfl⟩
      · rintro ⟨h1, h2⟩
        obtain ⟨⟨m, row⟩, hi⟩ := Option.isSome_iff_exists.mp h2
        obtain ⟨⟨v, md⟩, hvm, rfl⟩ := List.mem_map.mp h1
        obtain ⟨c, hc, e1, e2, -⟩ := h.fam v md m row hvm hi
        exact ⟨c, hc, (hu c hc v).mpr ⟨h1, row, by rw [e1]; exact hi, e2⟩⟩
    · have h0 := h.once
      rw [List.Nodup, List.pairwise_flatMap] at h0 ⊢
      refine ⟨hn, ?_⟩
      have h1 : cs.Pairwise (fun a b => a ∈ cs ∧ b ∈ cs ∧ ∀ x ∈ (treeKeys a.2).map (fun ks => (a.1, ks)), ∀ y ∈ (treeKeys b.2).map (fun ks => (b.1, ks)), x ≠ y) := by
        rw [List.pairwise_iff_forall_sublist] at *
        intro a b hab
        exact ⟨hab.subset (by simp), hab.subset (by simp), h0.2 hab⟩
      refine h1.imp ?_
      rintro a b ⟨ha, hb, hab⟩ x hx y hy rfl
      obtain ⟨-, row, i1, k1⟩ := (hu a ha x).mp hx
      obtain ⟨-, row', i2, k2⟩ := (hu b hb x).mp hy
      rw [i1] at i2
      injection i2 with i2
      injection i2 with i2 i3
      subst i3
      exact hab _ (List.mem_map.mpr ⟨_, k1, rfl⟩) _ (List.mem_map.mpr ⟨_, k2, rfl⟩) (by rw [i2])
  · intro b hb
    obtain ⟨c, hc, rfl⟩ := List.mem_map.mp hb
    obtain ⟨p, ps, e⟩ := List.exists_cons_of_ne_nil (h.ne c hc).1
    have hk : p.map (·.1) ∈ treeKeys c.2 := List.mem_map.mpr ⟨p, by rw [e]; simp, rfl⟩
    obtain ⟨u, md, row, h1, h2, h3⟩ := h.mem c hc _ hk
    exact List.ne_nil_of_mem ((hu c hc u).mpr ⟨List.mem_map.mpr ⟨_, h1, rfl⟩, row, h2, h3 ▸ hk⟩)
  · intro b hb u hub
    obtain ⟨c, hc, rfl⟩ := List.mem_map.mp hb
    obtain ⟨h1, row, h2, h3⟩ := (hu c hc u).mp hub
    obtain ⟨k1, -⟩ := key c hc u row h1 h2 h3
    obtain ⟨p, hp, -⟩ := List.mem_map.mp h3
    unfold patternOf
    simp only [h2]
    rw [← k1 p hp, (treePats_eq h hc).1 p hp]
  · intro b hb u hub v
    obtain ⟨c, hc, rfl⟩ := List.mem_map.mp hb
    obtain ⟨h1, row, h2, h3⟩ := (hu c hc u).mp hub
    obtain ⟨-, k2⟩ := key c hc u row h1 h2 h3
    simp only
    rw [hu c hc v]
    constructor
    · rintro ⟨hv, row', i1, i2⟩
      exact ⟨hv, c.1, row, row', h2, i1, (k2 row' (urlInfo_iff.mp i1).2.2).mp i2⟩
    · rintro ⟨hv, m, row1, row', i1, i2, i3⟩
      rw [h2] at i1
      injection i1 with i1
      injection i1 with i1 i4
      subst i1; subst i4
      exact ⟨hv, row', i2, (k2 row' (urlInfo_iff.mp i2).2.2).mpr i3⟩

/-- The metas of a cluster are its URLs when they were loaded with themselves. -/
theorem cutUp_metas (rt : Runtime) (hself : ∀ u x, (u, some x) ∈ hist → x = u) (hall : ∀ u md, (u, md) ∈ hist → (u, some u) ∈ hist) :
    ∀ c ∈ cs, (pathMetas rt c.2).Nodup ∧
      ∀ v, v ∈ pathMetas rt c.2 ↔ v ∈ hist.map (·.1) ∧ ∃ row, urlInfo v = some (c.1, row) ∧ rowKeys row ∈ treeKeys c.2 := by
  intro c hc
  have hleaf : ∀ p ∈ c.2.paths, (rt.metas (((p.getLast?.map (·.2)).getD c.2.root).metas.getD [])).Nodup ∧
      ∀ x, x ∈ rt.metas (((p.getLast?.map (·.2)).getD c.2.root).metas.getD []) ↔ ∃ u row, (u, some x) ∈ hist ∧ urlInfo u = some (c.1, row) ∧ rowKeys row = p.map (·.1) := by
    intro p hp
    obtain ⟨k, leaf, e1, e2, e3⟩ := h.metas c hc p hp
    rw [e1]
    exact ⟨(rt.metas_perm _).nodup_iff.mpr e2, fun x => (rt.metas_perm _).mem_iff.trans (e3 x)⟩
  constructor
  · unfold pathMetas
    have h0 := h.once
    rw [List.Nodup, List.pairwise_flatMap] at h0
    have h1 := h0.1 c hc
    unfold treeKeys at h1
    rw [List.map_map, List.pairwise_map] at h1
    rw [List.Nodup, List.pairwise_flatMap]
    refine ⟨fun p hp => (hleaf p hp).1, ?_⟩
    have h2 : c.2.paths.Pairwise (fun p q => p ∈ c.2.paths ∧ q ∈ c.2.paths ∧ p.map (·.1) ≠ q.map (·.1)) := by
      rw [List.pairwise_iff_forall_sublist] at *
      intro a b hab
      refine ⟨hab.subset (by simp), hab.subset (by simp), ?_⟩
      intro e
      exact h1 hab (by simp [e])
    refine h2.imp ?_
    rintro p q ⟨hp, hq, hpq⟩ x hx y hy rfl
    obtain ⟨u, row, i1, i2, i3⟩ := ((hleaf p hp).2 x).mp hx
    obtain ⟨u', row', j1, j2, j3⟩ := ((hleaf q hq).2 x).mp hy
    rw [← hself u x i1] at i2
    rw [← hself u' x j1, i2] at j2
    injection j2 with j2
    injection j2 with _ j2
    subst j2
    exact hpq (i3.symm.trans j3)
  · intro v
    unfold pathMetas
    rw [List.mem_flatMap]
    constructor
    · rintro ⟨p, hp, hv⟩
      obtain ⟨u, row, i1, i2, i3⟩ := ((hleaf p hp).2 v).mp hv
      have := hself u v i1
      subst this
      exact ⟨List.mem_map.mpr ⟨_, i1, rfl⟩, row, i2, List.mem_map.mpr ⟨p, hp, i3.symm⟩⟩
    · rintro ⟨hv, row, i1, i2⟩
      obtain ⟨⟨v, md⟩, hvm, rfl⟩ := List.mem_map.mp hv
      obtain ⟨p, hp, e⟩ := List.mem_map.mp i2
      exact ⟨p, hp, ((hleaf p hp).2 v).mpr ⟨v, row, hall v md hvm, i1, e.symm⟩⟩

/-- The URLs of a cluster, from the loaded ones. -/
def ownUrls (hist : List (Str × Option Str)) (c : URLMeta × Tree NodeData) : List Str :=
  firsts ((hist.map (·.1)).filter (fun v => match urlInfo v with
    | some (m, row) => decide (m = c.1 ∧ rowKeys row ∈ treeKeys c.2)
    | none => false))

omit h in
theorem ownUrls_mem (c : URLMeta × Tree NodeData) (v : Str) :
    v ∈ ownUrls hist c ↔ v ∈ hist.map (·.1) ∧ ∃ row, urlInfo v = some (c.1, row) ∧ rowKeys row ∈ treeKeys c.2 := by
  unfold ownUrls
  rw [mem_firsts, List.mem_filter]
  apply and_congr_right
  intro _
  cases hi : urlInfo v with
  | none => simp
  | some mr =>
    obtain ⟨m, row⟩ := mr
    simp only [decide_eq_true_eq, Option.some.injEq, Prod.mk.injEq]
    constructor
    · rintro ⟨rfl, hk⟩; exact ⟨row, ⟨rfl, rfl⟩, hk⟩
    · rintro ⟨row', ⟨h1, rfl⟩, hk⟩; exact ⟨h1, hk⟩

/-- The number of paths is the number of different structures and rows. -/
theorem cutUp_count {c : URLMeta × Tree NodeData} (hc : c ∈ cs) {urls : List Str}
    (hu : ∀ v, v ∈ urls ↔ v ∈ hist.map (·.1) ∧ ∃ row, urlInfo v = some (c.1, row) ∧ rowKeys row ∈ treeKeys c.2) :
    c.2.paths.length = (firsts (urls.map urlInfo)).length := by
  have hp : ((firsts (urls.map urlInfo)).map (fun i => rowKeys ((i.map (·.2)).getD []))).Perm (treeKeys c.2) := by
    rw [List.perm_ext_iff_of_nodup]
    · intro ks
      rw [List.mem_map]
      constructor
      · rintro ⟨i, hi, rfl⟩
        obtain ⟨v, hv, rfl⟩ := List.mem_map.mp (mem_firsts.mp hi)
        obtain ⟨-, row, e1, e2⟩ := (hu v).mp hv
        rw [e1]; exact e2
      · intro hk
        obtain ⟨u, md, row, h1, h2, rfl⟩ := h.mem c hc ks hk
        exact ⟨urlInfo u, mem_firsts.mpr (List.mem_map_of_mem ((hu u).mpr ⟨List.mem_map.mpr ⟨_, h1, rfl⟩, row, h2, hk⟩)), by rw [h2]; rfl⟩
    · apply nodup_map_of (firsts_nodup _)
      intro a ha b hb e
      obtain ⟨v, hv, rfl⟩ := List.mem_map.mp (mem_firsts.mp ha)
      obtain ⟨w, hw, rfl⟩ := List.mem_map.mp (mem_firsts.mp hb)
      obtain ⟨-, row, e1, -⟩ := (hu v).mp hv
      obtain ⟨-, row', e2, -⟩ := (hu w).mp hw
      rw [e1, e2] at e ⊢
      simp only [Option.map_some, Option.getD_some] at e
      rw [rowKeys_inj (urlInfo_iff.mp e1).2.2 (urlInfo_iff.mp e2).2.2 e]
    · have h0 := h.once
      rw [List.Nodup, List.pairwise_flatMap] at h0
      have h1 := h0.1 c hc
      rw [List.pairwise_map] at h1
      exact h1.imp (fun hne e => hne (by rw [e]))
  have := hp.length_eq
  rw [List.length_map] at this
  rw [this, treeKeys, List.length_map]

end

end OsUrl
