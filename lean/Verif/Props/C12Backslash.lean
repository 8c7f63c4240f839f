import Verif.Props.C47

/-! # C12, continued: the literal pattern of a URL with a backslash -/

namespace OsUrl
open Spec

/-- **C12** with a backslash: the literal pattern of an accepted URL with a backslash in a piece is rejected by every matcher, with
`InvalidPatternException`. -/
theorem C12_backslash (md5 : Str → Str) (st : PatternMatcherSt) (md : Option Str) (url : Str) (m : URLMeta) (pieces : List Str)
    (pps : List ParsedPiece) (ha : analyzeUrl url = .ok (m, pieces)) (hp : pieces.mapM parsePiece = .ok pps) (hb : ∃ s ∈ pieces, '\\' ∈ s) :
    st.load md5 (pack m (pps.map (·.piece))) md = .error .invalidPattern := by
  obtain ⟨hk, hpps⟩ := parsePieces_ok hp
  have han := C10_pieces url m pieces pps ha hp
  have hw : ∀ s ∈ pieces, ∀ u ∈ runUnits (runsOf s), u.Written := by
    intro s hs u hu
    obtain ⟨r, hr, rfl⟩ := List.mem_map.mp hu
    have := runsOf_spec (hk s hs)
    exact ⟨this.nonempty r hr, this.space r hr⟩
  have htext : ∀ s : Str, patText (runUnits (runsOf s)) = (pieceOf s).piece := fun s => runUnits_text _
  have hparse : parse (pack m (pps.map (·.piece))) =
      (((pps.map ParsedPiece.piece).zipIdx 1).mapM (fun (p, i) => mkMatchPattern p (i == m.pathDepth))).map (fun ps => (m, Parsed.patterns ps)) := by
    unfold parse
    rw [if_pos (pack_head _ _)]
    simp only [han, bind, Except.bind, pure, Except.pure]
    cases ((pps.map (·.piece)).zipIdx 1).mapM (fun (p, i) => mkMatchPattern p (i == m.pathDepth)) <;> rfl
  cases hmap : ((pps.map ParsedPiece.piece).zipIdx 1).mapM (fun (p, i) => mkMatchPattern p (i == m.pathDepth)) with
  | ok ps =>
    exfalso
    obtain ⟨s, hs, hsb⟩ := hb
    have hmem : (pieceOf s).piece ∈ pps.map (·.piece) := by
      rw [hpps, List.map_map]
      exact List.mem_map.mpr ⟨s, hs, rfl⟩
    obtain ⟨i, hi⟩ := List.getElem?_of_mem hmem
    obtain ⟨q, hq⟩ := mapM_mem hmap (x := ((pieceOf s).piece, 1 + i)) (by
      rw [List.mem_iff_getElem?]
      exact ⟨i, by rw [List.getElem?_zipIdx, hi]; rfl⟩)
    obtain ⟨-, hgood, -⟩ := mkMatchPattern_good hq
    have hstr : q.str = patText (runUnits (runsOf s)) := by
      rw [htext]
      unfold mkMatchPattern at hq
      obtain ⟨x, -, e⟩ := bind_ok hq
      cases e
      rfl
    have hval := good_valid hgood (hw s hs) hstr
    have hr := runsOf_spec (hk s hs)
    rw [← hr.concat] at hsb
    obtain ⟨w, hwm, hc⟩ := List.mem_flatten.mp hsb
    obtain ⟨r, hrm, rfl⟩ := List.mem_map.mp hwm
    have h1 := hr.space r hrm '\\' hc
    have h2 : r.1 = .sign '\\' := by
      have : space? '\\' = some (.sign '\\') := by decide
      rw [this] at h1
      exact (Option.some.inj h1).symm
    exact gu_readable (hval (.run r.1 r.2) (List.mem_map.mpr ⟨r, hrm, rfl⟩)) (by simp [GUnit.spaces, h2])
  | error e =>
    rw [hmap] at hparse
    have he : e = .invalidPattern := by
      obtain ⟨⟨t, i⟩, ht, hm⟩ := mapM_error hmap
      have ht : t ∈ pps.map (·.piece) := List.fst_mem_of_mem_zipIdx ht
      rw [hpps, List.map_map] at ht
      obtain ⟨s, hs, rfl⟩ := List.mem_map.mp ht
      change mkMatchPattern (pieceOf s).piece (i == m.pathDepth) = .error e at hm
      rw [← htext s] at hm
      unfold mkMatchPattern at hm
      cases hp : patternUnits (patText (runUnits (runsOf s))) with
      | ok l => rw [hp] at hm; cases hm
      | error e'' =>
        rw [hp] at hm
        cases hm
        rcases patternUnits_error hp with h1 | ⟨-, c, hc, h1, h2⟩
        · exact h1
        · have := (patText_graph (hw s hs) c hc).2
          have := graph_not_odd ⟨c.toNat, by omega⟩ (by rw [Char.ofNat_toNat]; exact h1)
          rw [Char.ofNat_toNat, h2] at this
          cases this
    rw [he] at hparse
    exact load_rejected md5 hparse st md

/-- Backslashes in the path and in the query. -/
example : (analyzeUrl c!"http://h/p\\q/1?k=\\\\z").map (·.2) = .ok [c!"p\\q", c!"1", c!"\\\\z"] ∧
    raisedBy (PatternMatcherSt.load (fun s => s) [] c!"/p[\\\\]q/1[\\?]k=[\\\\]{2}z" none) = some .invalidPattern := by decide +kernel

end OsUrl
