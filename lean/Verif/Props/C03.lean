import Verif.Proofs.Path
import Verif.Proofs.Url

/-! # C03: URL path pieces ignore repeated slashes and nothing else -/

namespace OsUrl

/-- **C03**: let the path be `pre/seg₁/…/segₙ` with `pre` and the segments free of `/`.  Whenever
the URL is accepted its path pieces are the non-empty segments in order, followed by the empty piece
exactly when the path ends with `/`. -/
theorem C03_pieces (pre : Str) (segs : List Str) (q f : Option Str) (nk : Bool) (m : URLMeta)
    (ps : List Str) (hpre : '/' ∉ pre) (hne : segs ≠ []) (hsegs : ∀ s ∈ segs, '/' ∉ s)
    (h : unpack ⟨some (pre ++ '/' :: join ['/'] segs), q, f⟩ nk = .ok (m, ps)) :
    ps.take m.pathDepth = segs.filter (fun s => decide (s ≠ [])) ++
        (if (pre ++ '/' :: join ['/'] segs).getLast? = some '/' then [[]] else []) ∧
      m.pathDepth ≤ ps.length := by
  have hs : (splitChar '/' (pre ++ '/' :: join ['/'] segs)).drop 1 = segs := by
    rw [splitChar_append hpre, splitChar_join hne hsegs]; rfl
  have hp := pathPieces_eq (path := pre ++ '/' :: join ['/'] segs) (by simp)
  simp only [unpack] at h
  split at h
  · cases h
  · cases hq : parseQueryString q with
    | error e => simp [hq, bind, Except.bind] at h
    | ok kv =>
      simp [hq, bind, Except.bind, pure, Except.pure] at h
      obtain ⟨rfl, rfl⟩ := h
      simp only [List.drop_one] at hp hs
      simp only
      constructor
      · rw [List.take_left, hp, hs]
      · simp

/-- **C03**: no path piece contains `/`. -/
theorem C03_no_slash (path : Str) (q f : Option Str) (nk : Bool) (m : URLMeta) (ps : List Str)
    (h : unpack ⟨some path, q, f⟩ nk = .ok (m, ps)) : ∀ p ∈ ps.take m.pathDepth, '/' ∉ p := by
  simp only [unpack] at h
  split at h
  · cases h
  · rename_i hlen
    cases hq : parseQueryString q with
    | error e => simp [hq, bind, Except.bind] at h
    | ok kv =>
      simp [hq, bind, Except.bind, pure, Except.pure] at h
      obtain ⟨rfl, rfl⟩ := h
      simp only
      rw [List.take_left]
      intro p hp
      have hc : '/' ∈ path := by
        rcases Classical.em ('/' ∈ path) with h | h
        · exact h
        · have := splitChar_drop_nil.mpr h
          simp at this
          simp [this, filterUseless] at hlen
      have he := pathPieces_eq hc
      simp only [List.drop_one] at he
      rw [he] at hp
      rcases List.mem_append.mp hp with hp | hp
      · have := (List.mem_filter.mp hp).1
        exact not_mem_of_mem_splitChar (List.mem_of_mem_tail this)
      · split at hp
        · simp at hp; simp [hp]
        · simp at hp

/-- **C03**: a URL without a query is rejected exactly when its path contains no `/`. -/
theorem C03_rejects (path : Str) (f : Option Str) (nk : Bool) :
    unpack ⟨some path, none, f⟩ nk = .error .irregularURL ↔ '/' ∉ path := by
  simp only [unpack]
  constructor
  · intro h hc
    have hp := pathPieces_eq hc
    have hd : (splitChar '/' path).drop 1 ≠ [] := fun hn => splitChar_drop_nil.mp hn hc
    have hl : filterUseless ((splitChar '/' path).drop 1) ≠ [] := by
      rw [filterUseless_eq hd]
      intro hn
      simp only [List.append_eq_nil_iff, List.filter_eq_nil_iff] at hn
      have hlast := List.getLast?_eq_some_getLast hd
      have : ((splitChar '/' path).drop 1).getLast hd = [] := by
        have := hn.1 _ (List.getLast_mem hd)
        simpa using this
      rw [this] at hlast
      rw [hlast] at hn
      simp at hn
    split at h
    · rename_i hlen
      exact hl (List.length_eq_zero_iff.mp (by omega))
    · simp [parseQueryString, bind, Except.bind, pure, Except.pure] at h
  · intro h
    have := splitChar_drop_nil.mpr h
    rw [this]; simp [filterUseless]

/-- **C03**: the same for any query: no `/` in the path always means rejection. -/
theorem C03_rejects_any (path : Str) (q f : Option Str) (nk : Bool) (h : '/' ∉ path) :
    unpack ⟨some path, q, f⟩ nk = .error .irregularURL := by
  have := splitChar_drop_nil.mpr h
  simp only [unpack]
  rw [this]; simp [filterUseless]

/-- **C03** for whole URLs: `analyze_url` of an accepted URL has the path pieces of its `urlparse`
path. -/
theorem C03_analyze_url (url : Str) (r : UrlParts) (m : URLMeta) (ps : List Str) (pre : Str)
    (segs : List Str) (hr : urlparse url = .ok r) (hpath : r.path = pre ++ '/' :: join ['/'] segs)
    (hpre : '/' ∉ pre) (hne : segs ≠ []) (hsegs : ∀ s ∈ segs, '/' ∉ s)
    (h : analyzeUrl url = .ok (m, ps)) :
    ps.take m.pathDepth = segs.filter (fun s => decide (s ≠ [])) ++
        (if r.path.getLast? = some '/' then [[]] else []) ∧ m.pathDepth ≤ ps.length := by
  unfold analyzeUrl at h
  cases hp : parseUrl url with
  | error e => simp [hp, bind, Except.bind] at h
  | ok v =>
    obtain ⟨r', q, f⟩ := v
    have : r' = r := by
      unfold parseUrl at hp
      rw [hr] at hp
      simp only [bind, Except.bind, pure, Except.pure] at hp
      repeat' split at hp
      all_goals first | (cases hp; rfl) | cases hp
    subst this
    simp only [hp, bind, Except.bind] at h
    rw [hpath] at h ⊢
    exact C03_pieces pre segs q f true m ps hpre hne hsegs h

example : analyzeUrl c!"http://h//a///b.c//?k=1#" = .ok (⟨3, [c!"k="], true⟩, [c!"a", c!"b.c", [], c!"1", []]) := by
  decide
example : unpack ⟨some c!"//a///b.c//", none, none⟩ true = .ok (⟨3, [], false⟩, [c!"a", c!"b.c", []]) := by
  decide
example : c!"//a///b.c//" = [] ++ '/' :: join ['/'] [[], c!"a", [], [], c!"b.c", [], []] := by decide

end OsUrl
