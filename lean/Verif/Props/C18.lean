import Verif.Props.C17
import Verif.Proofs.MNodup

/-! # C18: the order of loading does not matter -/

namespace OsUrl
open Spec

/-- The two histories load the same texts (in any order, any number of times, with any meta). -/
def SameTexts (h h' : List (Str × Option Str)) : Prop := ∀ s, (∃ md, (s, md) ∈ h) ↔ ∃ md, (s, md) ∈ h'

theorem AllGen.same {h h' : List (Str × Option Str)} (hs : SameTexts h h') (hg : AllGen h) : AllGen h' := by
  intro s md m ps hin e
  obtain ⟨md', h1⟩ := (hs s).mpr ⟨md, hin⟩
  exact hg s md' m ps h1 e

theorem match_sub {md5 : Str → Str} {h h' : List (Str × Option Str)} {url : Str} {m : URLMeta} {pieces : List Str}
    {pps : List ParsedPiece} (hp : parse url = .ok (m, .pieces pps)) (hk : ∀ s ∈ pieces, ∀ c ∈ s, Known c)
    (hpps : pps = pieces.map (fun s => ppOf (runsOf s))) (hc : NoClash md5 (url :: h.map (·.1)))
    (hc' : NoClash md5 (url :: h'.map (·.1))) (hg : AllGen h) (hs : SameTexts h h') {rs rs' : List (Matched FullStore Str)}
    (e : (mloadAll md5 h).match_ md5 url = .ok rs) (e' : (mloadAll md5 h').match_ md5 url = .ok rs') :
    ∀ x ∈ rs, ∃ y ∈ rs', y.path = x.path := by
  obtain ⟨r1, a1, a2, -⟩ := match_main hp hk hpps hc hg.tame
  rw [e] at a1
  cases a1
  have hg' := hg.same hs
  obtain ⟨r2, b1, -, b3⟩ := match_main hp hk hpps hc' hg'.tame
  rw [e'] at b1
  cases b1
  intro x hx
  obtain ⟨r, hr, hrm, hrp, hf, hsel⟩ := a2 x hx
  obtain ⟨t, ht, et⟩ := mem_macc.mp hr
  obtain ⟨md', ht'⟩ := (hs t).mp ⟨r.md, ht⟩
  obtain ⟨y, hy, hyp⟩ := b3 ⟨r.m, r.ps, md'⟩ (mem_macc.mpr ⟨t, ht', et⟩) hrm (.inl hg'.canon) hf
    (fun i s p h1 h2 => (hsel i s p h1 h2).2)
  exact ⟨y, hy, hyp.trans hrp⟩

/-- **C18**: two matchers that were given the same generated patterns, in any order and any number of
times, return the same patterns for every URL; neither raises. -/
theorem C18_order (md5 : Str → Str) (hist hist' : List (Str × Option Str)) (url : Str) (m : URLMeta)
    (pps : List ParsedPiece) (hp : parse url = .ok (m, .pieces pps)) (hc : NoClash md5 (url :: hist.map (·.1)))
    (hg : AllGen hist) (hs : SameTexts hist hist') :
    ∃ rs rs', (mloadAll md5 hist).match_ md5 url = .ok rs ∧ (mloadAll md5 hist').match_ md5 url = .ok rs' ∧
      ∀ path : List MatchPattern, (∃ x ∈ rs, x.path = path) ↔ ∃ x ∈ rs', x.path = path := by
  obtain ⟨pieces, -, hmap⟩ := parse_pieces hp
  obtain ⟨hk, hpps⟩ := parsePieces_ok hmap
  have hc' : NoClash md5 (url :: hist'.map (·.1)) := by
    refine hc.mono ?_
    intro a ha
    rw [List.mem_cons] at ha ⊢
    refine ha.imp id ?_
    intro ha
    obtain ⟨⟨t, md⟩, hx, rfl⟩ := List.mem_map.mp ha
    obtain ⟨md', h1⟩ := (hs t).mpr ⟨md, hx⟩
    exact List.mem_map.mpr ⟨(t, md'), h1, rfl⟩
  obtain ⟨rs, e, -⟩ := match_main hp hk hpps hc hg.tame
  obtain ⟨rs', e', -⟩ := match_main hp hk hpps hc' (hg.same hs).tame
  refine ⟨rs, rs', e, e', ?_⟩
  intro path
  constructor
  · rintro ⟨x, hx, rfl⟩
    exact match_sub hp hk hpps hc hc' hg hs e e' x hx
  · rintro ⟨x, hx, rfl⟩
    exact match_sub hp hk hpps hc' hc (hg.same hs) (fun s => (hs s).symm) e' e x hx

/-- **C18**, with multiplicities: the two lists of patterns are permutations of each other. -/
theorem C18_perm (md5 : Str → Str) (hist hist' : List (Str × Option Str)) (url : Str) (m : URLMeta)
    (pps : List ParsedPiece) (hp : parse url = .ok (m, .pieces pps)) (hc : NoClash md5 (url :: hist.map (·.1)))
    (hg : AllGen hist) (hs : SameTexts hist hist') (rs rs' : List (Matched FullStore Str))
    (e : (mloadAll md5 hist).match_ md5 url = .ok rs) (e' : (mloadAll md5 hist').match_ md5 url = .ok rs') :
    (rs.map (·.path)).Perm (rs'.map (·.path)) := by
  obtain ⟨pieces, -, hmap⟩ := parse_pieces hp
  obtain ⟨hk, hpps⟩ := parsePieces_ok hmap
  have hc' : NoClash md5 (url :: hist'.map (·.1)) := by
    refine hc.mono ?_
    intro a ha
    rw [List.mem_cons] at ha ⊢
    refine ha.imp id ?_
    intro ha
    obtain ⟨⟨t, md⟩, hx, rfl⟩ := List.mem_map.mp ha
    obtain ⟨md', h1⟩ := (hs t).mpr ⟨md, hx⟩
    exact List.mem_map.mpr ⟨(t, md'), h1, rfl⟩
  have n1 : (rs.map (·.path)).Nodup := by
    rw [List.Nodup, List.pairwise_map]; exact match_nodup hp hk hpps hc hg.tame e
  have n2 : (rs'.map (·.path)).Nodup := by
    rw [List.Nodup, List.pairwise_map]; exact match_nodup hp hk hpps hc' (hg.same hs).tame e'
  rw [List.perm_iff_count]
  intro a
  have hmem : a ∈ rs.map (·.path) ↔ a ∈ rs'.map (·.path) := by
    rw [List.mem_map, List.mem_map]
    constructor
    · rintro ⟨x, hx, rfl⟩
      exact match_sub hp hk hpps hc hc' hg hs e e' x hx
    · rintro ⟨x, hx, rfl⟩
      exact match_sub hp hk hpps hc' hc (hg.same hs) (fun s => (hs s).symm) e' e x hx
  rw [n1.count, n2.count]
  simp only [hmem]

/-- **C18** fails for lengths not written as the program writes them: the last of `[a-z]{2}` and
`[a-z]{02}` hides the other. -/
theorem C18_noncanonical_false :
    matchTexts [c!"/[a-z]{2}", c!"/[a-z]{02}"] c!"http://h/ab" = .ok [[c!"[a-z]{02}"]] ∧
      matchTexts [c!"/[a-z]{02}", c!"/[a-z]{2}"] c!"http://h/ab" = .ok [[c!"[a-z]{2}"]] := by decide +kernel

/-- The same patterns in another order and repeated. -/
example : SameTexts c17Hist (c17Hist.reverse ++ c17Hist) := by
  intro s
  simp only [List.mem_append, List.mem_reverse, or_self]

/-- Two orders of loading. -/
example : matchTexts [c!"/[a-z]{2}[0-9]", c!"/[a-z]+[0-9]"] c!"http://h/ab1" = .ok [[c!"[a-z]{2}[0-9]"], [c!"[a-z]+[0-9]"]] ∧
    matchTexts [c!"/[a-z]+[0-9]", c!"/[a-z]{2}[0-9]", c!"/[a-z]+[0-9]"] c!"http://h/ab1" =
      .ok [[c!"[a-z]{2}[0-9]"], [c!"[a-z]+[0-9]"]] := by decide +kernel

end OsUrl
