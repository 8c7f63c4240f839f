import Verif.Proofs.Table
import Verif.Props.C50

/-!
# C51: what the clusters of C50 amount to in common cases

* `C51_few`: a URL with fewer than `mcn` peers (distinct URLs of the same structure and the same classes) is printed as it is written.
* `C51_table`: when the peers of a URL form a table with one text per column, they are one cluster with that pattern.
* `C51_local`: the pattern of a URL and its company depend on its peers only.
-/

namespace OsUrl
open Spec

section spec
variable {mcn : Int} {U : List Str}

/-- `v` is of the structure `m` and has the classes of `row`. -/
def Peer (m : URLMeta) (row : List Str) (v : Str) : Prop :=
  ∃ row', urlInfo v = some (m, row') ∧ row'.map (fun s => clsText (cut s)) = row.map (fun s => clsText (cut s))

theorem peers_mem {m : URLMeta} {row row' : List Str} : row' ∈ peers urlInfo U m row ↔
    ∃ v ∈ U, urlInfo v = some (m, row') ∧ row'.map (fun s => clsText (cut s)) = row.map (fun s => clsText (cut s)) := by
  unfold peers
  rw [mem_firsts, List.mem_filterMap]
  constructor
  · rintro ⟨v, hv, e⟩
    cases hi : urlInfo v with
    | none => rw [hi] at e; simp at e
    | some q =>
      obtain ⟨m', row''⟩ := q
      rw [hi] at e
      simp only at e
      split at e
      · rename_i hc
        simp only [Option.some.injEq] at e
        subst e
        exact ⟨v, hv, by rw [hi, hc.1], hc.2⟩
      · simp at e
  · rintro ⟨v, hv, hi, hc⟩
    exact ⟨v, hv, by rw [hi]; simp [hc]⟩

theorem peers_self {m : URLMeta} {row : List Str} {u : Str} (hu : u ∈ U) (hi : urlInfo u = some (m, row)) : row ∈ peers urlInfo U m row :=
  peers_mem.mpr ⟨u, hu, hi, rfl⟩

theorem peers_length {m : URLMeta} {row row' : List Str} (h : row' ∈ peers urlInfo U m row) : row'.length = row.length := by
  obtain ⟨v, -, -, e⟩ := peers_mem.mp h
  simpa using congrArg List.length e

/-- When every column of the peers has one text, all stay together. -/
theorem company_table (hm : 2 ≤ mcn) {m : URLMeta} {row : List Str} {ts : List Str} (hl : ts.length = row.length) (hrow : row ∈ peers urlInfo U m row)
    (h : ∀ j t, ts[j]? = some t → ColText mcn (m.pathDepth == j + 1) ((peers urlInfo U m row).map (fun r => cut (r.getD j []))) t) :
    company mcn urlInfo U m row = (peers urlInfo U m row).map urlRow ∧
      texts (urlRule mcn m.pathDepth) row.length 0 (company mcn urlInfo U m row) (urlRow row) = ts := by
  have hpos : ∀ x ∈ (peers urlInfo U m row).map urlRow, 1 ≤ x.2 := by
    intro x hx
    obtain ⟨r, -, rfl⟩ := List.mem_map.mp hx
    exact Int.le_refl 1
  have hat : ∀ (r : List Str) j, (urlRow r).at j = cut (r.getD j []) := by
    intro r j
    unfold urlRow WRow.at
    simp only [List.getD, List.getElem?_map]
    cases r[j]? <;> rfl
  have htx : ∀ i t, ts[i]? = some t → ∀ y ∈ (peers urlInfo U m row).map urlRow,
      textAt (urlRule mcn m.pathDepth) i ((peers urlInfo U m row).map urlRow) y = t := by
    intro i t hi y hy
    have hcells : ((peers urlInfo U m row).map urlRow).map (fun x => x.at i) = (peers urlInfo U m row).map (fun r => cut (r.getD i [])) := by
      rw [List.map_map]
      exact List.map_congr_left (fun r _ => hat r i)
    have hcc := column_counted hpos i
    rw [hcells] at hcc
    obtain ⟨r, hr, rfl⟩ := List.mem_map.mp hy
    unfold textAt urlRule
    rw [hat]
    exact colText_rule hm hcc (h i t hi) (List.mem_map_of_mem (f := fun r : List Str => cut (r.getD i [])) hr)
  have hal := alike_known (F := urlRule mcn m.pathDepth) htx
  have hC : company mcn urlInfo U m row = (peers urlInfo U m row).map urlRow := by
    unfold company
    rw [← hl, family_same hal]
  refine ⟨hC, ?_⟩
  rw [hC, ← hl]
  refine texts_known ?_ htx
  rw [List.map_map]
  exact List.mem_map.mpr ⟨row, hrow, rfl⟩

/-- Small tables are written out. -/
theorem texts_few {d : Nat} {S : List WRow} (h1 : ∀ y ∈ S, y.2 = 1) (h2 : (S.length : Int) < mcn) (k j : Nat) (x : WRow) :
    texts (urlRule mcn d) k j S x = (List.range' j k).map (fun i => litText (x.at i)) := by
  induction k generalizing j S with
  | zero => rfl
  | succ k ih =>
    have hw : weight S = S.length := by
      clear h2 ih
      unfold weight
      induction S with
      | nil => rfl
      | cons y S ih =>
        rw [List.map_cons, List.sum_cons, ih (fun z hz => h1 z (by simp [hz])), h1 y (by simp), List.length_cons]
        omega
    have ht : textAt (urlRule mcn d) j S x = litText (x.at j) := by
      unfold textAt urlRule pieceRuleText
      rw [varied_small]
      · rfl
      · rw [column_len]
        have := firsts_le (S.map (fun y => y.at j))
        rw [List.length_map] at this
        omega
      · rw [column_sum, hw]
        exact h2
    rw [texts, List.range'_succ, List.map_cons, ht, ih]
    · intro y hy
      exact h1 y (List.mem_filter.mp hy).1
    · have := List.length_filter_le (fun y => decide (textAt (urlRule mcn d) j S y = litText (x.at j))) S
      omega

theorem lits_row (row : List Str) : (List.range' 0 row.length).map (fun i => litText ((urlRow row).at i)) = rowKeys row := by
  apply List.ext_getElem?
  intro i
  by_cases hi : i < row.length
  · rw [List.getElem?_map, List.getElem?_range' hi]
    simp [rowKeys, urlRow, WRow.at, List.getElem?_eq_getElem hi]
  · rw [List.getElem?_eq_none (by simp; omega), List.getElem?_eq_none (by simp [rowKeys]; omega)]

theorem info_known {v : Str} {m : URLMeta} {row : List Str} (h : urlInfo v = some (m, row)) : ∀ s ∈ row, ∀ c ∈ s, Known c := (urlInfo_iff.mp h).2.2

theorem family_few {d n : Nat} {S : List WRow} (h1 : ∀ y ∈ S, y.2 = 1) (h2 : (S.length : Int) < mcn) (k : Nat) (x : WRow) :
    (∀ y ∈ family (urlRule mcn d) n k S x, y.2 = 1) ∧ ((family (urlRule mcn d) n k S x).length : Int) < mcn := by
  induction k generalizing S with
  | zero => exact ⟨h1, h2⟩
  | succ k ih =>
    rw [family]
    split
    · exact ⟨h1, h2⟩
    · apply ih
      · intro y hy
        exact h1 y (List.mem_filter.mp hy).1
      · exact Int.lt_of_le_of_lt (Int.ofNat_le.mpr (List.length_filter_le _ _)) h2

theorem company_few {m : URLMeta} {row : List Str} (hk : ∀ s ∈ row, ∀ c ∈ s, Known c) (hrow : row ∈ peers urlInfo U m row)
    (hn : ((peers urlInfo U m row).length : Int) < mcn) :
    (∀ r ∈ peers urlInfo U m row, urlRow r ∈ company mcn urlInfo U m row ↔ r = row) ∧
      texts (urlRule mcn m.pathDepth) row.length 0 (company mcn urlInfo U m row) (urlRow row) = rowKeys row := by
  have h1 : ∀ y ∈ (peers urlInfo U m row).map urlRow, y.2 = 1 := by
    intro x hx
    obtain ⟨r, -, rfl⟩ := List.mem_map.mp hx
    rfl
  have h2 : (((peers urlInfo U m row).map urlRow).length : Int) < mcn := by rw [List.length_map]; exact hn
  have hlit : ∀ r ∈ peers urlInfo U m row, (List.range' 0 row.length).map (fun i => litText ((urlRow r).at i)) = rowKeys r := by
    intro r hr
    rw [← peers_length hr]
    exact lits_row r
  have hkn : ∀ r ∈ peers urlInfo U m row, ∀ s ∈ r, ∀ c ∈ s, Known c := by
    intro r hr
    obtain ⟨v, -, hi, -⟩ := peers_mem.mp hr
    exact info_known hi
  have hfw := family_few (d := m.pathDepth) (n := row.length) h1 h2 ((peers urlInfo U m row).length + 1) (urlRow row)
  constructor
  · intro r hr
    unfold company at *
    -- all members of the family have the same texts
    have hstep : ∀ k S, (∀ y ∈ S, y ∈ (peers urlInfo U m row).map urlRow) → (S.length : Int) < mcn →
        ∀ y ∈ family (urlRule mcn m.pathDepth) row.length (k + 1) S (urlRow row), urlRow row ∈ S → y ∈ S ∧
          (List.range' 0 row.length).map (fun i => litText (y.at i)) = rowKeys row := by
      intro k S hS hlen y hy hself
      have hS1 : ∀ y ∈ S, y.2 = 1 := fun y hy => h1 y (hS y hy)
      rw [family] at hy
      split at hy
      · rename_i ha
        refine ⟨hy, ?_⟩
        unfold alike at ha
        rw [List.all_eq_true] at ha
        have := ha y hy
        rw [List.all_eq_true] at this
        have := this _ hself
        rw [decide_eq_true_eq, texts_few hS1 hlen, texts_few hS1 hlen, lits_row] at this
        exact this
      · have h3 := family_sub hy
        rw [List.mem_filter, decide_eq_true_eq, texts_few hS1 hlen, texts_few hS1 hlen, lits_row] at h3
        exact h3
    constructor
    · intro hy
      have := hstep _ _ (fun y hy => hy) h2 _ hy (List.mem_map_of_mem hrow)
      have h4 := this.2
      rw [hlit r hr] at h4
      exact rowKeys_inj (hkn r hr) hk h4
    · rintro rfl
      have h5 := family_self (F := urlRule mcn m.pathDepth) (n := r.length) (k := (peers urlInfo U m r).length + 1)
        (S := (peers urlInfo U m r).map urlRow) (x := urlRow r) (by
          rw [List.map_map]; exact List.mem_map.mpr ⟨r, hrow, rfl⟩)
      obtain ⟨z, hz, e⟩ := List.mem_map.mp h5
      have : z = urlRow r := Prod.ext e (hfw.1 z hz)
      subst this
      exact hz
  · unfold company
    rw [texts_few hfw.1 hfw.2, lits_row]

/-- The company and the pattern depend on the peers only. -/
theorem company_local {U' : List Str} {m : URLMeta} {row : List Str} (h : ∀ v, Peer m row v → (v ∈ U ↔ v ∈ U')) :
    (company mcn urlInfo U m row).Perm (company mcn urlInfo U' m row) := by
  have hp : (peers urlInfo U m row).Perm (peers urlInfo U' m row) := by
    have : ∀ r, r ∈ peers urlInfo U m row ↔ r ∈ peers urlInfo U' m row := by
      intro r
      rw [peers_mem, peers_mem]
      constructor
      · rintro ⟨v, hv, hi, hc⟩
        exact ⟨v, (h v ⟨r, hi, hc⟩).mp hv, hi, hc⟩
      · rintro ⟨v, hv, hi, hc⟩
        exact ⟨v, (h v ⟨r, hi, hc⟩).mpr hv, hi, hc⟩
    exact (List.perm_ext_iff_of_nodup (firsts_nodup _) (firsts_nodup _)).mpr this
  unfold company
  rw [hp.length_eq]
  exact family_perm (urlRule_perm mcn m.pathDepth) _ _ (hp.map _) _

theorem company_peers {m : URLMeta} {row row' : List Str} {v : Str} (hi : urlInfo v = some (m, row'))
    (h : urlRow row' ∈ company mcn urlInfo U m row) : row' ∈ peers urlInfo U m row := by
  have h1 := family_sub h
  obtain ⟨r, hr, e⟩ := List.mem_map.mp h1
  have hkr : ∀ s ∈ r, ∀ c ∈ s, Known c := by
    obtain ⟨w, -, hw, -⟩ := peers_mem.mp hr
    exact info_known hw
  have : r = row' := by
    apply rowKeys_inj hkr (info_known hi)
    have := congrArg (fun x : WRow => x.1.map litText) e
    simpa [urlRow, rowKeys, List.map_map, Function.comp_def] using this
  rwa [← this]

end spec

section claims
variable (env : Env) (mcn : Int) (hm : 2 ≤ mcn) (f : Fmt) (lines : List Bytes)
  (hc : NoCollision env.md5 (accepted (urlsOf env (loadsUrl f) lines)))
  (hh : NoHashClash env.rt (UrlRow (urlsOf env (loadsUrl f) lines)))
include hm hc hh

theorem block_of {u : Str} (hu : u ∈ inputUrls env lines) {m : URLMeta} {row : List Str} (hi : urlInfo u = some (m, row)) :
    ∃ out B, makeRun env mcn f lines = .ok out ∧ Printed f B out ∧ ∃ b ∈ B, u ∈ b.urls ∧
      b.text = patternOf mcn urlInfo (inputUrls env lines) u ∧
      ∀ v, v ∈ b.urls ↔ v ∈ inputUrls env lines ∧ Together mcn urlInfo (inputUrls env lines) u v := by
  obtain ⟨out, B, h1, h2, h3⟩ := C50_output env mcn hm f lines hc hh
  have : u ∈ B.flatMap (·.urls) := by
    rw [h2.all.mem_iff, mem_firsts, List.mem_filter]
    exact ⟨hu, by rw [hi]; rfl⟩
  obtain ⟨b, hb, hub⟩ := List.mem_flatMap.mp this
  exact ⟨out, B, h1, h3, b, hb, hub, h2.text b hb u hub, h2.urls b hb u hub⟩

/-- **C51**: a URL with fewer than `mcn` peers is printed as it is written, in a block with only the URLs that have the same structure and pieces. -/
theorem C51_few {u : Str} (hu : u ∈ inputUrls env lines) {m : URLMeta} {row : List Str} (hi : urlInfo u = some (m, row))
    (hn : ((peers urlInfo (inputUrls env lines) m row).length : Int) < mcn) :
    ∃ out B, makeRun env mcn f lines = .ok out ∧ Printed f B out ∧ ∃ b ∈ B, u ∈ b.urls ∧
      b.text = writeUrl m (row.map (fun s => litText (cut s))) ∧
      ∀ v, v ∈ b.urls ↔ v ∈ inputUrls env lines ∧ urlInfo v = some (m, row) := by
  obtain ⟨out, B, h1, h3, b, hb, hub, ht, hv⟩ := block_of env mcn hm f lines hc hh hu hi
  obtain ⟨hc1, hc2⟩ := company_few (mcn := mcn) (info_known hi) (peers_self hu hi) hn
  refine ⟨out, B, h1, h3, b, hb, hub, ?_, fun v => ?_⟩
  · rw [ht, patternOf, hi]
    simp only
    rw [hc2]
    rfl
  · rw [hv]
    apply and_congr_right
    intro hvU
    constructor
    · rintro ⟨m', r, r', e1, e2, e3⟩
      rw [hi] at e1
      simp only [Option.some.injEq, Prod.mk.injEq] at e1
      obtain ⟨rfl, rfl⟩ := e1
      rw [e2, (hc1 r' (company_peers e2 e3)).mp e3]
    · intro e
      exact ⟨m, row, row, hi, e, (hc1 row (peers_self hu hi)).mpr rfl⟩

/-- **C51**: when every column of the peers of a URL has one text, the peers are one block, and its pattern is made of these texts. -/
theorem C51_table {u : Str} (hu : u ∈ inputUrls env lines) {m : URLMeta} {row : List Str} (hi : urlInfo u = some (m, row)) {ts : List Str}
    (hl : ts.length = row.length)
    (ht : ∀ j t, ts[j]? = some t →
      ColText mcn (m.pathDepth == j + 1) ((peers urlInfo (inputUrls env lines) m row).map (fun r => cut (r.getD j []))) t) :
    ∃ out B, makeRun env mcn f lines = .ok out ∧ Printed f B out ∧ ∃ b ∈ B, u ∈ b.urls ∧ b.text = writeUrl m ts ∧
      ∀ v, v ∈ b.urls ↔ v ∈ inputUrls env lines ∧ Peer m row v := by
  obtain ⟨out, B, h1, h3, b, hb, hub, htx, hv⟩ := block_of env mcn hm f lines hc hh hu hi
  obtain ⟨hc1, hc2⟩ := company_table hm hl (peers_self hu hi) ht
  refine ⟨out, B, h1, h3, b, hb, hub, ?_, fun v => ?_⟩
  · rw [htx, patternOf, hi]
    simp only
    rw [hc2]
  · rw [hv]
    apply and_congr_right
    intro hvU
    constructor
    · rintro ⟨m', r, r', e1, e2, e3⟩
      rw [hi] at e1
      simp only [Option.some.injEq, Prod.mk.injEq] at e1
      obtain ⟨rfl, rfl⟩ := e1
      obtain ⟨w, -, hw, hcl⟩ := peers_mem.mp (company_peers e2 e3)
      exact ⟨r', e2, hcl⟩
    · rintro ⟨r', e2, hcl⟩
      refine ⟨m, row, r', hi, e2, ?_⟩
      rw [hc1]
      exact List.mem_map_of_mem (peers_mem.mpr ⟨v, hvU, e2, hcl⟩)

/-- **C51**: two inputs with the same peers of a URL print the URL in blocks with the same text and the same URLs. -/
theorem C51_local (lines' : List Bytes)
    (hc' : NoCollision env.md5 (accepted (urlsOf env (loadsUrl f) lines')))
    (hh' : NoHashClash env.rt (UrlRow (urlsOf env (loadsUrl f) lines')))
    {u : Str} (hu : u ∈ inputUrls env lines) {m : URLMeta} {row : List Str} (hi : urlInfo u = some (m, row))
    (hs : ∀ v, Peer m row v → (v ∈ inputUrls env lines ↔ v ∈ inputUrls env lines')) :
    ∃ out B out' B', makeRun env mcn f lines = .ok out ∧ Printed f B out ∧ makeRun env mcn f lines' = .ok out' ∧ Printed f B' out' ∧
      ∃ b ∈ B, ∃ b' ∈ B', u ∈ b.urls ∧ b.text = b'.text ∧ ∀ v, v ∈ b.urls ↔ v ∈ b'.urls := by
  obtain ⟨out, B, h1, h3, b, hb, hub, ht, hv⟩ := block_of env mcn hm f lines hc hh hu hi
  obtain ⟨out', B', h1', h3', b', hb', hub', ht', hv'⟩ := block_of env mcn hm f lines' hc' hh' ((hs u ⟨row, hi, rfl⟩).mp hu) hi
  have hp := company_local (mcn := mcn) hs
  refine ⟨out, B, out', B', h1, h3, h1', h3', b, hb, b', hb', hub, ?_, fun v => ?_⟩
  · rw [ht, ht', patternOf, patternOf, hi]
    simp only
    rw [texts_perm (urlRule_perm mcn m.pathDepth) _ _ hp]
  · rw [hv, hv']
    constructor
    · rintro ⟨hvU, m', r, r', e1, e2, e3⟩
      rw [hi] at e1
      simp only [Option.some.injEq, Prod.mk.injEq] at e1
      obtain ⟨rfl, rfl⟩ := e1
      obtain ⟨w, -, hw, hcl⟩ := peers_mem.mp (company_peers e2 e3)
      exact ⟨(hs v ⟨r', e2, hcl⟩).mp hvU, m, row, r', hi, e2, hp.mem_iff.mp e3⟩
    · rintro ⟨hvU, m', r, r', e1, e2, e3⟩
      rw [hi] at e1
      simp only [Option.some.injEq, Prod.mk.injEq] at e1
      obtain ⟨rfl, rfl⟩ := e1
      obtain ⟨w, -, hw, hcl⟩ := peers_mem.mp (company_peers e2 e3)
      exact ⟨(hs v ⟨r', e2, hcl⟩).mpr hvU, m, row, r', hi, e2, hp.mem_iff.mpr e3⟩

end claims

/-- The lines of the examples: a table of four URLs, a URL of the same structure but another class, two of another structure. -/
def c51Lines : List Bytes := [c!"http://h/news/abc-1.html?id=a1b2", c!"http://h/news/de-20.html?id=c3d4", c!"http://h/news/fghi-300.html?id=e5f6",
  c!"http://h/NEWS/x-4.html?id=g7h8", c!"http://h/news/x-4.html?id=g7h8", c!"http://h/news/abc", c!"http://h/news/def"].map lineB

example : (urlInfo c!"http://h/news/abc-1.html?id=a1b2").map (·.2) = some [c!"news", c!"abc-1.html", c!"a1b2"] := by decide +kernel

/-- The first URL has four peers; the columns have one text each: `news` written out; the runs of the name, which are words, a sign, numbers,
and the constant `.html`; the value as a whole, with a length. -/
example : ∀ m row, urlInfo c!"http://h/news/abc-1.html?id=a1b2" = some (m, row) →
    (peers urlInfo (inputUrls asciiEnv c51Lines) m row = [[c!"news", c!"abc-1.html", c!"a1b2"], [c!"news", c!"de-20.html", c!"c3d4"],
      [c!"news", c!"fghi-300.html", c!"e5f6"], [c!"news", c!"x-4.html", c!"g7h8"]]) := by
  intro m row h
  have : urlInfo c!"http://h/news/abc-1.html?id=a1b2" = some (⟨2, [c!"id="], false⟩, [c!"news", c!"abc-1.html", c!"a1b2"]) := by decide +kernel
  rw [this] at h
  simp only [Option.some.injEq, Prod.mk.injEq] at h
  obtain ⟨rfl, rfl⟩ := h
  decide +kernel

example : ColText 3 false ([c!"news", c!"news", c!"news", c!"news"].map cut) c!"news" :=
  .same (cut c!"news") (by decide +kernel)

/-- The five runs of the names: `n - k = 0 < 3`, so they are tried by their runs. -/
example : ColText 3 true ([c!"abc-1.html", c!"de-20.html", c!"fghi-300.html", c!"x-4.html"].map cut) c!"[a-z]+[\\-][0-9]+[\\.]html" := by
  refine .parts .runs false byRun [c!"[a-z]+", c!"[\\-]", c!"[0-9]+", c!"[\\.]", c!"html"] .runs (by decide +kernel) (by decide +kernel) (by decide +kernel) ?_ (by simp)
  intro i t h
  match i with
  | 0 => cases h; exact .any [(.lower, c!"a")] (by decide +kernel) (by decide +kernel)
  | 1 => cases h; exact .same [(.sign '-', c!"-")] (by decide +kernel)
  | 2 => cases h; exact .any [(.digit, c!"1")] (by decide +kernel) (by decide +kernel)
  | 3 => cases h; exact .same [(.sign '.', c!".")] (by decide +kernel)
  | 4 => cases h; exact .same [(.lower, c!"html")] (by decide +kernel)
  | _ + 5 => simp at h

example : ColText 3 false ([c!"a1b2", c!"c3d4", c!"e5f6", c!"g7h8"].map cut) c!"[0-9a-z]{4}" :=
  .whole _ (by decide +kernel) (.sized (cut c!"a1b2") (by decide +kernel) (by decide +kernel))

/-- The whole output: the table, and the others written out. -/
example : makeRun asciiEnv 3 .inline c51Lines = .ok [c!"/news/[a-z]+[\\-][0-9]+[\\.]html[\\?]id=[0-9a-z]{4}\thttp://h/news/abc-1.html?id=a1b2",
    c!"/news/[a-z]+[\\-][0-9]+[\\.]html[\\?]id=[0-9a-z]{4}\thttp://h/news/de-20.html?id=c3d4",
    c!"/news/[a-z]+[\\-][0-9]+[\\.]html[\\?]id=[0-9a-z]{4}\thttp://h/news/fghi-300.html?id=e5f6",
    c!"/news/[a-z]+[\\-][0-9]+[\\.]html[\\?]id=[0-9a-z]{4}\thttp://h/news/x-4.html?id=g7h8",
    c!"/NEWS/x[\\-]4[\\.]html[\\?]id=g7h8\thttp://h/NEWS/x-4.html?id=g7h8",
    c!"/news/abc\thttp://h/news/abc", c!"/news/def\thttp://h/news/def"] := by decide +kernel

end OsUrl
