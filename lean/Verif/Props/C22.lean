import Verif.Proofs.Load2

/-! # C22: `PatternMaker.load` reports new paths and counts distinct paths -/

namespace OsUrl
open Spec

/-- **C22**: after any history, loading an accepted URL succeeds and `is_new` is `True` exactly when no
earlier URL had the same structure, fuzzy rules and pieces. -/
theorem C22_isNew (md5 : Str → Str) (hist : List (Str × Option Str)) (u : Str) (md : Option Str) (m : URLMeta)
    (pps : List ParsedPiece) (h : parse u = .ok (m, .pieces pps))
    (hc : NoCollision md5 (accepted (hist ++ [(u, md)]))) :
    ∃ st' isNew, (loadAll md5 hist).load md5 u md = .ok (st', isNew) ∧
      (isNew = true ↔ ∀ u' md' m' pps', (u', md') ∈ hist → parse u' = .ok (m', .pieces pps') →
        ¬(m' = m ∧ pps'.map (·.fuzzyRule) = pps.map (·.fuzzyRule) ∧ pps'.map (·.piece) = pps.map (·.piece))) := by
  have hc' : NoCollision md5 (accepted hist) := by rw [accepted_append] at hc; exact hc.of_append
  refine ⟨_, _, load_step md5 (loadAll_eq md5 hist hc') h hc, ?_⟩
  rw [Bool.not_eq_true', decide_eq_false_iff_not]
  constructor
  · intro hn u' md' m' pps' h1 h2 ⟨e1, e2, e3⟩
    exact hn ⟨⟨m', pps', md'⟩, mem_accepted.mpr ⟨u', h1, h2⟩, e1, e2, e3⟩
  · rintro hn ⟨r, hr, e1, e2, e3⟩
    obtain ⟨u', h1, h2⟩ := mem_accepted.mp hr
    exact hn u' r.md r.m r.pps h1 h2 ⟨e1, e2, e3⟩

/-- **C22**: the count of a sub-maker's root is the number of distinct piece sequences loaded into it. -/
theorem C22_count (md5 : Str → Str) (hist : List (Str × Option Str)) (hc : NoCollision md5 (accepted hist))
    (sid : Str) (mk : MakerSt) (h : (sid, mk) ∈ loadAll md5 hist) :
    mk.tree.root.count =
      (firsts (((accepted hist).filter (fun r => decide (r.sid md5 = sid))).map Rec.keys)).length := by
  obtain ⟨r, hr, _, rfl, _, _⟩ := mem_loadAll hc h
  simp only
  rw [growTree_count, insOf_count, firsts_eq_uniq]

/-- **C22**: the sub-makers are exactly the digests of the accepted URLs, once each; a sub-maker holds
exactly the URLs with its structure and fuzzy rules, each piece sequence once. -/
theorem C22_makers (md5 : Str → Str) (hist : List (Str × Option Str)) (hc : NoCollision md5 (accepted hist)) :
    ((loadAll md5 hist).map (·.1)).Nodup ∧
    (∀ r ∈ accepted hist, ∃ mk, (r.sid md5, mk) ∈ loadAll md5 hist) ∧
    (∀ sid mk, (sid, mk) ∈ loadAll md5 hist → ∃ r ∈ accepted hist, r.sid md5 = sid ∧ mk.urlMeta = r.m ∧
      (mk.tree.paths.map (fun p => p.map (·.1))).Nodup ∧
      ∀ ks, ks ∈ mk.tree.paths.map (fun p => p.map (·.1)) ↔
        ∃ r' ∈ accepted hist, r'.m = r.m ∧ r'.rules = r.rules ∧ r'.keys = ks) := by
  refine ⟨loadAll_nodup hc, fun r hr => get?_loadAll hc hr, ?_⟩
  intro sid mk h
  obtain ⟨r, hr, hs, rfl, hall, hlen⟩ := mem_loadAll hc h
  refine ⟨r, hr, hs, rfl, ?_⟩
  have hne := insOf_ne hr hs
  simp only
  rw [paths_growTree hne]
  refine ⟨growPaths_nodup, fun ks => ?_⟩
  rw [growPaths_keys hlen hne, insOf_keys, List.mem_map]
  constructor
  · rintro ⟨r', hr', e⟩
    exact ⟨r', (List.mem_filter.mp hr').1, (hall r' hr').1, (hall r' hr').2, e⟩
  · rintro ⟨r', hr', e1, e2, e3⟩
    refine ⟨r', ?_, e3⟩
    rw [List.mem_filter, decide_eq_true_eq]
    exact ⟨hr', ((sid_eq_iff hc hr' hr).mpr ⟨e1, e2⟩).trans hs⟩

/-- Five loads, one of them rejected and two of them equal up to the host: two sub-makers with 2 and 1
paths. -/
example : let st := loadAll id [(c!"http://h/a/1", none), (c!"http://x/a/1", some c!"m"), (c!"http://h/b/2", none),
      (c!"nothing", none), (c!"http://h/a?k=1", none)]
    st.map (fun km => km.2.tree.root.count) = [2, 1] := by decide +kernel
example : ((loadAll id [(c!"http://h/a/1", none)]).load id c!"http://x/a/1" none).map (·.2) = .ok false := by
  decide +kernel
example : ((loadAll id [(c!"http://h/a/1", none)]).load id c!"http://h/a/2" none).map (·.2) = .ok true := by
  decide +kernel

end OsUrl
