import Verif.Proofs.OrderGen

/-! # C41: what the order of match results means -/

namespace OsUrl
open Spec

/-- **C41**: of two results for a URL, with generated patterns loaded, the smaller one is the one that
is more general at the last piece at which they differ. -/
theorem C41_order (md5 : Str → Str) (hist : List (Str × Option Str)) (url : Str) (m : URLMeta)
    (pps : List ParsedPiece) (h : parse url = .ok (m, .pieces pps)) (hc : NoClash md5 (url :: hist.map (·.1)))
    (hg : AllGen hist) (rs : List (Matched FullStore Str)) (hm : (mloadAll md5 hist).match_ md5 url = .ok rs)
    (x y : Matched FullStore Str) (hx : x ∈ rs) (hy : y ∈ rs) (a b c : List Str) (us vs : List GUnit)
    (gu : Generated us) (gv : Generated vs)
    (e1 : x.path.map (·.str) = a ++ patText us :: c) (e2 : y.path.map (·.str) = b ++ patText vs :: c)
    (hne : patText us ≠ patText vs) :
    x.lt y = .ok true ↔ MoreGeneral (a.length + 1 == m.pathDepth) us vs := by
  obtain ⟨pieces, ha, hk, hpps⟩ := parse_url h
  obtain ⟨rs', a1, a2, -⟩ := match_main h hk hpps hc hg.tame
  rw [hm] at a1
  cases a1
  obtain ⟨r1, m1, n1, p1, f1, s1⟩ := a2 x hx
  obtain ⟨r2, m2, n2, p2, f2, s2⟩ := a2 y hy
  obtain ⟨t1, i1, d1⟩ := mem_macc.mp m1
  obtain ⟨t2, i2, d2⟩ := mem_macc.mp m2
  rw [p1] at d1 s1 f1
  rw [p2] at d2 s2 f2
  rw [n1] at d1
  rw [n2] at d2
  have hr := parse_same d1 d2
  have l1 : x.path.length = pieces.length := by have := congrArg List.length f1; simpa [hpps] using this
  have l2 : y.path.length = pieces.length := by have := congrArg List.length f2; simpa [hpps] using this
  obtain ⟨xa, xr, ex, hxa, hxr⟩ := List.map_eq_append_iff.mp e1
  obtain ⟨p, xc, rfl, hp, hxc⟩ := List.map_eq_cons_iff.mp hxr
  obtain ⟨yb, yr, ey, hyb, hyr⟩ := List.map_eq_append_iff.mp e2
  obtain ⟨q, yc, rfl, hq, hyc⟩ := List.map_eq_cons_iff.mp hyr
  have hla : xa.length = a.length := by simpa using congrArg List.length hxa
  have hlb : yb.length = b.length := by simpa using congrArg List.length hyb
  have hlc : xc.length = yc.length := by simpa using congrArg List.length (hxc.trans hyc.symm)
  have hab : xa.length = yb.length := by
    rw [ex] at l1
    rw [ey] at l2
    simp at l1 l2
    omega
  have px : x.path[a.length]? = some p := by
    rw [ex, ← hla]; simp
  have py : y.path[a.length]? = some q := by
    rw [ey, ← hla, hab]; simp
  have hi : a.length < pieces.length := by
    rw [← l1, ex, ← hla]; simp
  have hsi := List.getElem?_eq_getElem hi
  obtain ⟨-, b3⟩ := s1 _ _ _ hsi px
  obtain ⟨-, b4⟩ := s2 _ _ _ hsi py
  have hne' : p.str ≠ q.str := by rw [hp, hq]; exact hne
  rw [matched_lt hr, ex, ey, Except.ok.injEq]
  have e3 : (xa ++ p :: xc).reverse = xc.reverse ++ p :: xa.reverse := by simp
  have e4 : (yb ++ q :: yc).reverse = yc.reverse ++ q :: yb.reverse := by simp
  rw [e3, e4, ltUpB_app (by rw [List.map_reverse, List.map_reverse, hxc, hyc]) hne']
  exact ltB_gen (parse_patterns_at d1 _ p px) (parse_patterns_at d2 _ q py) gu gv hp hq b3 b4 hne'

/-- For each result, the results that are smaller. -/
def smaller (pats : List Str) (url : Str) : Py (List (Str × List Str)) := do
  let st := mloadAll id (pats.map (fun p => (p, none)))
  let rs ← st.match_ id url
  rs.mapM (fun x => do
    let l ← rs.filterMapM (fun y => do
      let b ← y.lt x
      return if b then some (y.path.map (·.str)).flatten else none)
    return ((x.path.map (·.str)).flatten, l))

/-- One pattern of every kind, from the most special to the most general. -/
example : smaller [c!"/a1[\\.]b", c!"/[0-9\\.a-z]{4}", c!"/[0-9a-z]+[\\.]b", c!"/[a-z]1[\\.]b",
      c!"/[0-9\\.a-z]+"] c!"http://h/a1.b" =
    .ok [(c!"a1[\\.]b", [c!"[a-z]1[\\.]b", c!"[0-9a-z]+[\\.]b", c!"[0-9\\.a-z]{4}", c!"[0-9\\.a-z]+"]),
      (c!"[a-z]1[\\.]b", [c!"[0-9a-z]+[\\.]b", c!"[0-9\\.a-z]{4}", c!"[0-9\\.a-z]+"]),
      (c!"[0-9a-z]+[\\.]b", [c!"[0-9\\.a-z]{4}", c!"[0-9\\.a-z]+"]),
      (c!"[0-9\\.a-z]{4}", [c!"[0-9\\.a-z]+"]),
      (c!"[0-9\\.a-z]+", [])] := by decide +kernel

/-- Within a kind the last units decide: `[a-z]1` is above `a[0-9]`. -/
example : smaller [c!"/a[0-9]", c!"/[a-z]1"] c!"http://h/a1" = .ok [(c!"a[0-9]", []), (c!"[a-z]1", [c!"a[0-9]"])] := by
  decide +kernel

example : MoreGeneral true [.run .lower c!"a", .cls [.digit] 1] [.cls [.lower] 1, .run .digit c!"1"] :=
  .inr ⟨by decide, [.run .lower c!"a"], .cls [.digit] 1, [], [.cls [.lower] 1], .run .digit c!"1", [], rfl, rfl, rfl, by decide⟩

/-- The last piece decides, whatever stands before. -/
example : smaller [c!"/a/[0-9]+", c!"/[a-z]+/1"] c!"http://h/a/1" =
    .ok [(c!"a[0-9]+", []), (c!"[a-z]+1", [c!"a[0-9]+"])] := by decide +kernel

end OsUrl
