import Verif.Proofs.Shape
import Verif.Model.Maker

/-! # C11: different URL structures never share a fuzzy digest -/

namespace OsUrl
open Spec

/-- **C11**: the texts hashed by `fuzzy_digest` are equal exactly when structure and fuzzy rules are. -/
theorem C11_text (url url' : Str) (m m' : URLMeta) (pieces pieces' : List Str) (pps pps' : List ParsedPiece)
    (h : analyzeUrl url = .ok (m, pieces)) (h' : analyzeUrl url' = .ok (m', pieces'))
    (hp : pieces.mapM parsePiece = .ok pps) (hp' : pieces'.mapM parsePiece = .ok pps') :
    pack m (pps.map (·.fuzzyRule)) = pack m' (pps'.map (·.fuzzyRule)) ↔
      m = m' ∧ pps.map (·.fuzzyRule) = pps'.map (·.fuzzyRule) := by
  constructor
  · intro e
    obtain ⟨ps, vs, fs, rfl, hst⟩ := analyzeUrl_struct h
    obtain ⟨ps', vs', fs', rfl, hst'⟩ := analyzeUrl_struct h'
    obtain ⟨a, b, c, e1, hs1⟩ := hst.shape (mapM_shape hp (fun pp => pp.fuzzyRule) (fun h => fuzzyRule_shape h))
    obtain ⟨a', b', c', e2, hs2⟩ := hst'.shape (mapM_shape hp' (fun pp => pp.fuzzyRule) (fun h => fuzzyRule_shape h))
    rw [e1, e2] at e ⊢
    exact pack_inj hs1 hs2 e
  · rintro ⟨rfl, e⟩; rw [e]

/-- **C11**: with no md5 collision on the two texts, the digests agree exactly when structure and fuzzy
rules do. -/
theorem C11_digest (md5 : Str → Str) (url url' : Str) (m m' : URLMeta) (pps pps' : List ParsedPiece)
    (h : parse url = .ok (m, .pieces pps)) (h' : parse url' = .ok (m', .pieces pps'))
    (hmd : fuzzyDigest md5 m (.pieces pps) = fuzzyDigest md5 m' (.pieces pps') →
      pack m (pps.map (·.fuzzyRule)) = pack m' (pps'.map (·.fuzzyRule))) :
    fuzzyDigest md5 m (.pieces pps) = fuzzyDigest md5 m' (.pieces pps') ↔
      m = m' ∧ pps.map (·.fuzzyRule) = pps'.map (·.fuzzyRule) := by
  obtain ⟨pieces, h1, h2⟩ := parse_pieces h
  obtain ⟨pieces', h1', h2'⟩ := parse_pieces h'
  rw [← C11_text url url' m m' pieces pieces' pps pps' h1 h1' h2 h2']
  exact ⟨hmd, fun e => congrArg md5 e⟩

/-- **C11**: fuzzy rules agree exactly when the raw pieces use the same character spaces, so the URLs
that share a digest are those with the same structure and, piece by piece, the same character
spaces. -/
theorem C11_spaces (md5 : Str → Str) (url url' : Str) (m m' : URLMeta) (pieces pieces' : List Str)
    (pps pps' : List ParsedPiece)
    (hs : startsWith ['/'] url = false) (hs' : startsWith ['/'] url' = false)
    (h : analyzeUrl url = .ok (m, pieces)) (h' : analyzeUrl url' = .ok (m', pieces'))
    (hp : pieces.mapM parsePiece = .ok pps) (hp' : pieces'.mapM parsePiece = .ok pps')
    (hmd : fuzzyDigest md5 m (.pieces pps) = fuzzyDigest md5 m' (.pieces pps') →
      pack m (pps.map (·.fuzzyRule)) = pack m' (pps'.map (·.fuzzyRule))) :
    (∀ st : PatternMakerSt, ∀ md, st.load md5 url md = (do
        let sid := fuzzyDigest md5 m (.pieces pps)
        let (mk, isNew) ← ((Dict.get? sid st).getD (MakerSt.new m)).load pps md
        return (Dict.upd sid (fun _ => mk) st, isNew))) ∧
    (fuzzyDigest md5 m (.pieces pps) = fuzzyDigest md5 m' (.pieces pps') ↔
      m = m' ∧ pieces.length = pieces'.length ∧
        ∀ x ∈ pieces.zip pieces', ∀ sp, (∃ c ∈ x.1, space? c = some sp) ↔ (∃ c ∈ x.2, space? c = some sp)) := by
  have hpar : parse url = .ok (m, .pieces pps) := by
    simp [parse, hs, h, hp, bind, Except.bind, pure, Except.pure]
  have hpar' : parse url' = .ok (m', .pieces pps') := by
    simp [parse, hs', h', hp', bind, Except.bind, pure, Except.pure]
  refine ⟨fun st md => ?_, ?_⟩
  · unfold PatternMakerSt.load
    rw [hpar]; rfl
  · rw [C11_digest md5 url url' m m' pps pps' hpar hpar' hmd]
    apply and_congr_right
    intro _
    clear h h' hpar hpar' hs hs' hmd
    induction pieces generalizing pieces' pps pps' with
    | nil =>
      rw [mapM_ok_nil hp]
      cases pieces' with
      | nil => rw [mapM_ok_nil hp']; simp
      | cons s l =>
        obtain ⟨b, bs, h1, h2, rfl⟩ := mapM_ok_cons hp'
        simp
    | cons s l ih =>
      obtain ⟨b, bs, h1, h2, rfl⟩ := mapM_ok_cons hp
      cases pieces' with
      | nil => rw [mapM_ok_nil hp']; simp
      | cons s' l' =>
        obtain ⟨b', bs', h1', h2', rfl⟩ := mapM_ok_cons hp'
        have hi := ih l' bs bs' h2 h2'
        obtain ⟨hk, rfl⟩ := parsePiece_ok h1
        obtain ⟨hk', rfl⟩ := parsePiece_ok h1'
        simp only [List.map_cons, List.cons.injEq, List.length_cons, Nat.add_right_cancel_iff,
          List.zip_cons_cons, List.mem_cons]
        rw [hi]
        have key : (ppOf (runsOf s)).fuzzyRule = (ppOf (runsOf s')).fuzzyRule ↔
            ∀ sp, (∃ c ∈ s, space? c = some sp) ↔ (∃ c ∈ s', space? c = some sp) := by
          rw [fuzzyRule_ppOf hk, fuzzyRule_ppOf hk',
            joinSorted_inj (rules_mem_ruleSet hk) (rules_mem_ruleSet hk')]
          simp only [← space_mem_runs hk, ← space_mem_runs hk']
          constructor
          · intro e sp
            have := e sp.text
            rw [List.mem_map, List.mem_map] at this
            constructor
            · intro hm
              obtain ⟨sp', h1, h2⟩ := this.mp ⟨sp, hm, rfl⟩
              rwa [← text_inj h2]
            · intro hm
              obtain ⟨sp', h1, h2⟩ := this.mpr ⟨sp, hm, rfl⟩
              rwa [← text_inj h2]
          · intro e r
            simp only [List.mem_map, e]
        rw [key]
        constructor
        · rintro ⟨a1, a2, a3⟩
          refine ⟨a2, ?_⟩
          rintro x (rfl | hx)
          · exact a1
          · exact a3 x hx
        · rintro ⟨a2, a3⟩
          exact ⟨a3 _ (.inl rfl), a2, fun x hx => a3 x (.inr hx)⟩

/-- Two URLs that share a digest, and one that does not although its text is close. -/
example : (parse c!"http://h/a-b?k=1").map (fun r => pack r.1 r.2.fuzzyRules) = .ok c!"/\\-a-z[\\?]k=0-9" ∧
    (parse c!"http://x/zz-q?k=77").map (fun r => pack r.1 r.2.fuzzyRules) = .ok c!"/\\-a-z[\\?]k=0-9" ∧
    (parse c!"http://h/a-b?k1=").map (fun r => pack r.1 r.2.fuzzyRules) = .ok c!"/\\-a-z[\\?]k1=" := by
  decide +kernel

end OsUrl
