import Verif.Props.C18

/-! # C43: no pattern is returned twice -/

namespace OsUrl
open Spec

/-- **C43**: however often patterns were loaded, the results of a match are different patterns, when no
loaded pattern of several units mixes `/` with other characters in one class. -/
theorem C43_once (md5 : Str → Str) (hist : List (Str × Option Str)) (url : Str) (m : URLMeta)
    (pps : List ParsedPiece) (hp : parse url = .ok (m, .pieces pps)) (hc : NoClash md5 (url :: hist.map (·.1)))
    (ht : AllTame hist) (rs : List (Matched FullStore Str)) (hm : (mloadAll md5 hist).match_ md5 url = .ok rs) :
    (rs.map (fun x => x.path.map (·.str))).Nodup := by
  obtain ⟨pieces, -, hmap⟩ := parse_pieces hp
  obtain ⟨hk, hpps⟩ := parsePieces_ok hmap
  have hn := match_nodup hp hk hpps hc ht hm
  rw [List.Nodup, List.pairwise_map]
  obtain ⟨rs', a1, a2, -⟩ := match_main hp hk hpps hc ht
  rw [hm] at a1
  cases a1
  refine hn.imp_of_mem ?_
  intro x y hx hy hxy e
  apply hxy
  obtain ⟨r1, m1, n1, p1, -, -⟩ := a2 x hx
  obtain ⟨r2, m2, n2, p2, -, -⟩ := a2 y hy
  obtain ⟨t1, -, e1⟩ := mem_macc.mp m1
  obtain ⟨t2, -, e2⟩ := mem_macc.mp m2
  rw [p1, n1] at e1
  rw [p2, n2] at e2
  apply List.ext_getElem?
  intro i
  have hi := congrArg (fun l => l[i]?) e
  simp only [List.getElem?_map] at hi
  cases h1 : x.path[i]? with
  | none => rw [h1] at hi; cases h2 : y.path[i]? <;> simp_all
  | some p =>
    cases h2 : y.path[i]? with
    | none => rw [h1, h2] at hi; simp at hi
    | some q =>
      rw [h1, h2] at hi
      simp only [Option.map_some, Option.some.injEq] at hi
      have := parse_patterns_at e1 i p h1
      rw [hi, parse_patterns_at e2 i q h2] at this
      exact congrArg some (Except.ok.inj this.symm)

/-- Patterns loaded three times, found once each. -/
example : matchTexts [c!"/[a-z]{2}[0-9]", c!"/[a-z]+[0-9]", c!"/[a-z]{2}[0-9]", c!"/[0-9a-z]+", c!"/[0-9a-z]+", c!"/[a-z]{2}[0-9]"]
      c!"http://h/ab1" = .ok [[c!"[a-z]{2}[0-9]"], [c!"[a-z]+[0-9]"], [c!"[0-9a-z]+"]] := by decide +kernel

end OsUrl
