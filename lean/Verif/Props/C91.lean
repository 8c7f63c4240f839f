import Verif.Proofs.Choices
import Verif.Proofs.OneWay

/-!
# C91: URLs of one character class per piece can be matched by lookup

`pattern-match` on a URL each of whose pieces uses one character class, loaded before or not: what is printed is found by looking up at most `3^n` texts in the
pattern file.
-/

namespace OsUrl
open Spec

/-- The pattern of a choice is read as it was put together. -/
theorem choice_read {url : Str} {m : URLMeta} {pieces : List Str} (ha : analyzeUrl url = .ok (m, pieces)) (hone : ∀ s ∈ pieces, OneSpace s)
    {strs : List Str} (hch : Choose strs (pieces.map pieceTexts)) : ReadAs (pack m strs) m strs := by
  have key : ∀ (pieces strs : List Str), (∀ s ∈ pieces, OneSpace s) → Choose strs (pieces.map pieceTexts) →
      strs.length = pieces.length ∧ (∀ x ∈ pieces.zip strs, PatternShape x.1 x.2) ∧ ∀ t ∈ strs, ∃ l, patternUnits t = .ok l := by
    intro pieces
    induction pieces with
    | nil =>
      intro strs _ h
      cases strs with
      | nil => simp
      | cons x xs => exact absurd h (by simp [Choose])
    | cons s pieces ih =>
      intro strs ho h
      cases strs with
      | nil => exact absurd h (by simp [Choose])
      | cons x xs =>
        obtain ⟨h1, h2⟩ := h
        obtain ⟨i1, i2, i3⟩ := ih xs (fun s hs => ho s (by simp [hs])) h2
        obtain ⟨sp, hsp⟩ := ho s (by simp)
        rw [pieceTexts_units hsp] at h1
        obtain ⟨us, hus, rfl⟩ := List.mem_map.mp h1
        obtain ⟨hg, hM⟩ := units_found hsp false us hus
        refine ⟨by simp [i1], ?_, ?_⟩
        · intro y hy
          rw [List.zip_cons_cons, List.mem_cons] at hy
          rcases hy with rfl | hy
          · exact shapeOf_iff.mp (pieceText_shape (match_fit hg hM ⟨sp, hsp⟩).2)
          · exact i2 y hy
        · intro t ht
          rcases List.mem_cons.mp ht with rfl | ht
          · obtain ⟨p, hp⟩ := generated_loads hg false
            unfold mkMatchPattern at hp
            obtain ⟨l, hl, -⟩ := bind_ok hp
            exact ⟨l, hl⟩
          · exact i3 t ht
  obtain ⟨h1, h2, h3⟩ := key pieces strs hone hch
  obtain ⟨ps, e1, e2⟩ := parse_packed (C10_roundtrip url m pieces strs ha h1 h2) h3
  exact ⟨ps, e1, e2⟩

/-- For a URL of one space per piece: the texts that are chosen. -/
theorem chosen_iff {texts : List Str} {url : Str} {m : URLMeta} {pieces : List Str} (ha : analyzeUrl url = .ok (m, pieces))
    (hone : ∀ s ∈ pieces, OneSpace s) (hcan : ∀ t ∈ texts, ∀ strs, ReadAs t m strs → t = pack m strs) (t : Str) (strs : List Str) :
    Chosen texts m pieces t strs ↔ t ∈ texts ∧ t = pack m strs ∧ Choose strs (pieces.map pieceTexts) := by
  constructor
  · rintro ⟨⟨pre, post, e, -⟩, hr, uss, rfl, hlen, hM⟩
    have ht : t ∈ texts := by rw [e]; simp
    refine ⟨ht, hcan t ht _ hr, ?_⟩
    have key : ∀ (k : Nat) (pieces : List Str) (uss : List (List GUnit)), (∀ s ∈ pieces, OneSpace s) → uss.length = pieces.length →
        (∀ (i : Nat) (us : List GUnit) (s : Str), uss[i]? = some us → pieces[i]? = some s → Generated us ∧ Matches (i + k + 1 == m.pathDepth) us s) →
        Choose (uss.map patText) (pieces.map pieceTexts) := by
      intro k pieces
      induction pieces generalizing k with
      | nil => intro uss _ hl _; cases uss with | nil => trivial | cons _ _ => cases hl
      | cons s pieces ih =>
        intro uss ho hl hm
        cases uss with
        | nil => cases hl
        | cons us uss =>
          obtain ⟨sp, hsp⟩ := ho s (by simp)
          obtain ⟨g, M⟩ := hm 0 us s rfl rfl
          refine ⟨found_units hsp g M, ih (k + 1) uss (fun s hs => ho s (by simp [hs])) (by simpa using hl) ?_⟩
          intro i us' s' h1 h2
          have := hm (i + 1) us' s' (by simpa using h1) (by simpa using h2)
          rwa [show i + 1 + k + 1 = i + (k + 1) + 1 by omega] at this
    exact key 0 pieces uss hone hlen hM
  · rintro ⟨ht, rfl, hch⟩
    have hr := choice_read ha hone hch
    obtain ⟨t', pre, post, e, r, hl⟩ := last_read ⟨_, ht, hr⟩
    have ht' : t' = pack m strs := hcan t' (by rw [e]; simp) _ r
    subst ht'
    refine ⟨⟨pre, post, e, hl⟩, hr, ?_⟩
    have key : ∀ (k : Nat) (pieces strs : List Str), (∀ s ∈ pieces, OneSpace s) → Choose strs (pieces.map pieceTexts) →
        ∃ uss : List (List GUnit), strs = uss.map patText ∧ uss.length = pieces.length ∧
          ∀ (i : Nat) (us : List GUnit) (s : Str), uss[i]? = some us → pieces[i]? = some s → Generated us ∧ Matches (i + k + 1 == m.pathDepth) us s := by
      intro k pieces
      induction pieces generalizing k with
      | nil =>
        intro strs _ h
        cases strs with
        | nil => exact ⟨[], rfl, rfl, by simp⟩
        | cons x xs => exact absurd h (by simp [Choose])
      | cons s pieces ih =>
        intro strs ho h
        cases strs with
        | nil => exact absurd h (by simp [Choose])
        | cons x xs =>
          obtain ⟨h1, h2⟩ := h
          obtain ⟨uss, rfl, el, hM⟩ := ih (k + 1) xs (fun s hs => ho s (by simp [hs])) h2
          obtain ⟨sp, hsp⟩ := ho s (by simp)
          rw [pieceTexts_units hsp] at h1
          obtain ⟨us, hus, rfl⟩ := List.mem_map.mp h1
          refine ⟨us :: uss, rfl, by simp [el], ?_⟩
          intro i us' s' h3 h4
          cases i with
          | zero =>
            cases h3; cases h4
            exact units_found hsp _ us hus
          | succ i =>
            have := hM i us' s' (by simpa using h3) (by simpa using h4)
            rwa [show i + (k + 1) + 1 = i + 1 + k + 1 by omega] at this
    exact key 0 pieces strs hone hch

/-- **C91**: a URL each of whose pieces uses one character class, and any pattern files of generated patterns, each written as `pack` writes it.  With `-a` the
line shows the texts of the files among the choices of one pattern per piece, in the order of the choices; without `-a`, the first one in the order in
which the last pieces decide first. -/
theorem C91_lookup (env : Env) (pats : List Bytes) (line : Bytes) (url : Str) (m : URLMeta) (pieces : List Str)
    (h : FileAndUrl env pats line url m pieces) (hone : ∀ s ∈ pieces, ∃ sp : Space, ∀ c ∈ s, space? c = some sp)
    (hcan : ∀ t ∈ patternTexts env pats, ∀ strs, ReadAs t m strs → t = pack m strs)
    (ts : List Str) (hts : ts = ((firstChoices (pieces.map pieceTexts)).map (pack m)).filter (fun t => decide (t ∈ patternTexts env pats))) :
    allLine env pats line = (if ts = [] then noLine line else tabbed (ts.map env.encode) ++ [9] ++ stripB line ++ [10]) ∧
    bestLine env pats line =
      match ((lastChoices (pieces.map pieceTexts)).map (pack m)).find? (fun t => decide (t ∈ patternTexts env pats)) with
      | none => noLine line
      | some t => textLine env t line := by
  obtain ⟨pps, hp⟩ := h.parses
  obtain ⟨sel, s1, s2, s3, s4, s5⟩ := C54_line env h.utf8 pats line url m pieces pps h.decode h.isUrl h.analyze hp h.clash h.gen
  have hiff := chosen_iff h.analyze hone hcan
  have hT : ∀ l ∈ pieces.map pieceTexts, ∀ i : Nat, l.Pairwise (TextBefore (i + 1 == m.pathDepth)) := by
    intro l hl i
    obtain ⟨s, hs, rfl⟩ := List.mem_map.mp hl
    obtain ⟨sp, hsp⟩ := hone s hs
    exact texts_order hsp _
  have hfirst := first_order (fun i => TextBefore (i + 1 == m.pathDepth)) _ 0 hT
  have hlast := last_order (fun i => TextBefore (i + 1 == m.pathDepth)) _ 0 hT
  constructor
  · have hsel : sel = ((firstChoices (pieces.map pieceTexts)).filter (fun strs => decide (pack m strs ∈ patternTexts env pats))).map (fun strs => (pack m strs, strs)) := by
      refine C54_unique m _ _ ?_ s2 ?_
      · rintro ⟨t, strs⟩
        rw [s1, hiff]
        simp only [List.mem_map, List.mem_filter, decide_eq_true_eq, mem_first, Prod.mk.injEq]
        constructor
        · rintro ⟨a, rfl, b⟩
          exact ⟨strs, ⟨b, a⟩, rfl, rfl⟩
        · rintro ⟨_, ⟨b, a⟩, rfl, rfl⟩
          exact ⟨a, rfl, b⟩
      · rw [List.pairwise_map]
        refine (hfirst.filter _).imp ?_
        rintro xs ys ⟨a, c, d, x, y, rfl, rfl, us, vs, hu, hv, rfl, rfl, hl, -⟩
        refine ⟨a, c, d, us, vs, hu, hv, rfl, rfl, ?_⟩
        simpa using hl
    have hts' : ts = sel.map (·.1) := by
      rw [hts, hsel, List.map_map, List.filter_map]
      rfl
    have h0 : ts = [] ↔ sel = [] := by rw [hts']; simp
    show matchLine env (matchLoad env pats) true line = _
    rw [s3]
    by_cases he : sel = []
    · rw [if_pos he, if_pos (h0.mpr he)]
      rfl
    · rw [if_neg he, if_neg (fun x => he (h0.mp x)), hts', List.map_map]
      rfl
  · cases hf : ((lastChoices (pieces.map pieceTexts)).map (pack m)).find? (fun t => decide (t ∈ patternTexts env pats)) with
    | none =>
      have hsel : sel = [] := by
        cases sel with
        | nil => rfl
        | cons x sel =>
          obtain ⟨a, b, c⟩ := (hiff x.1 x.2).mp ((s1 x.1 x.2).mp (by simp))
          have := List.find?_eq_none.mp hf (pack m x.2) (List.mem_map_of_mem ((mem_last _ _).mpr c))
          rw [b] at a
          exact absurd (by simpa using a) this
      exact s4 hsel
    | some t =>
      obtain ⟨ht, as, bs, e, hno⟩ := List.find?_eq_some_iff_append.mp hf
      obtain ⟨l1, l2, el, e1, e2⟩ := List.map_eq_append_iff.mp e
      obtain ⟨strs, l3, rfl, rfl, -⟩ := List.map_eq_cons_iff.mp e2
      have hch : Choose strs (pieces.map pieceTexts) := (mem_last _ _).mp (by rw [el]; simp)
      have hmem : (pack m strs, strs) ∈ sel := (s1 _ _).mpr ((hiff _ _).mpr ⟨by simpa using ht, rfl, hch⟩)
      obtain ⟨x, hx, ex, hmax⟩ := s5 (by intro h0; rw [h0] at hmem; cases hmem)
      obtain ⟨a, b, c⟩ := (hiff x.1 x.2).mp ((s1 x.1 x.2).mp hx)
      have hxl : x.2 ∈ l1 ++ strs :: l3 := by rw [← el]; exact (mem_last _ _).mpr c
      have hx2 : x.2 = strs := by
        rcases List.mem_append.mp hxl with h1 | h1
        · have := hno (pack m x.2) (by rw [← e1]; exact List.mem_map_of_mem h1)
          rw [b] at a
          simp [a] at this
        · rcases List.mem_cons.mp h1 with h1 | h1
          · exact h1
          · exfalso
            rw [el] at hlast
            obtain ⟨p, q, r, y, z, g1, g2, g3, us, vs, hu, hv, rfl, rfl, hl, hm⟩ := (List.pairwise_cons.mp (List.pairwise_append.mp hlast).2.1).1 x.2 h1
            apply (hmax _ hmem).2
            refine ⟨q, p, r, vs, us, hv, hu, g2, g1, ?_, by simpa [g3] using hm⟩
            intro e
            exact listed_irrefl hu hv e.symm hl
      rw [b, hx2] at ex
      exact ex

/-- **C91**: there are at most `3^n` texts to look up, all different. -/
theorem C91_count (url : Str) (m : URLMeta) (pieces : List Str) (ha : analyzeUrl url = .ok (m, pieces))
    (hone : ∀ s ∈ pieces, ∃ sp : Space, ∀ c ∈ s, space? c = some sp) :
    ((firstChoices (pieces.map pieceTexts)).map (pack m)).Nodup ∧
    ((firstChoices (pieces.map pieceTexts)).map (pack m)).length ≤ 3 ^ pieces.length ∧
    ∀ t, t ∈ (firstChoices (pieces.map pieceTexts)).map (pack m) ↔ t ∈ (lastChoices (pieces.map pieceTexts)).map (pack m) := by
  refine ⟨?_, ?_, ?_⟩
  · have hT : ∀ l ∈ pieces.map pieceTexts, ∀ i : Nat, l.Pairwise (TextBefore (i + 1 == m.pathDepth)) := by
      intro l hl i
      obtain ⟨s, hs, rfl⟩ := List.mem_map.mp hl
      obtain ⟨sp, hsp⟩ := hone s hs
      exact texts_order hsp _
    refine List.pairwise_map.mpr (List.Pairwise.imp_of_mem ?_ (first_order (fun i => TextBefore (i + 1 == m.pathDepth)) _ 0 hT))
    rintro xs ys hx hy ⟨a, c, d, x, y, e1, e2, us, vs, hu, hv, rfl, rfl, hl, -⟩ e
    obtain ⟨ps, r1, r2⟩ := choice_read ha hone ((mem_first _ _).mp hx)
    obtain ⟨ps', r1', r2'⟩ := choice_read ha hone ((mem_first _ _).mp hy)
    rw [e, r1'] at r1
    cases r1
    have e3 := r2.symm.trans r2'
    rw [e1, e2, List.append_cancel_left_eq, List.cons.injEq] at e3
    exact listed_irrefl hu hv e3.1 hl
  · rw [List.length_map]
    have h3 : ∀ s, (pieceTexts s).length ≤ 3 := by
      intro s
      unfold pieceTexts
      split
      · simp
      · split
        · simp
        · split
          · simp
          · simp only
            split <;> simp
    clear ha hone
    induction pieces with
    | nil => simp [firstChoices]
    | cons s pieces ih =>
      simp only [List.map_cons, firstChoices, List.length_flatMap, List.length_map, List.map_const', List.sum_replicate_nat, List.length_cons, Nat.pow_succ]
      rw [Nat.mul_comm]
      exact Nat.mul_le_mul ih (h3 s)
  · intro t
    simp only [List.mem_map, mem_first, mem_last]

/-- **C91** after `pattern-make`: what `pattern-match` prints for any URL of one character class per piece, seen before or not. -/
theorem C91_printed (env : Env) (hu : StrictUtf8 env) (mcn : Int) (hm : 2 ≤ mcn) (lines : List Bytes)
    (hc : NoCollision env.md5 (accepted (urlsOf env false lines))) (hh : NoHashClash env.rt (UrlRow (urlsOf env false lines))) :
    ∃ records, makeRun env mcn .pattern lines = .ok records ∧
      ∀ line url m pieces pps, env.decode (stripB line) = some url → startsWith ['/'] url = false →
        analyzeUrl url = .ok (m, pieces) → pieces.mapM parsePiece = .ok pps → NoClash env.md5 (url :: records) →
        (∀ s ∈ pieces, ∃ sp : Space, ∀ c ∈ s, space? c = some sp) →
        ∀ ts, ts = ((firstChoices (pieces.map pieceTexts)).map (pack m)).filter (fun t => decide (t ∈ records)) →
        allLine env (printFile env records) line = (if ts = [] then noLine line else tabbed (ts.map env.encode) ++ [9] ++ stripB line ++ [10]) ∧
        bestLine env (printFile env records) line =
          match ((lastChoices (pieces.map pieceTexts)).map (pack m)).find? (fun t => decide (t ∈ records)) with
          | none => noLine line
          | some t => textLine env t line := by
  obtain ⟨cs, hcs⟩ := C28_total env.md5 env.rt mcn hm _ hc hh
  have hall := printed_all env.md5 hm hc hh hcs
  have htexts := texts_printed hu hall
  refine ⟨printedLines cs, ?_, ?_⟩
  · unfold makeRun makeProcess
    rw [makeLoad_fst]
    show (PatternMakerSt.make env.rt mcn (loadAll env.md5 (urlsOf env false lines)) >>= _) = _
    rw [hcs]
    rfl
  intro line url m pieces pps hd hs ha hp hcl hone ts hts
  have hfile : FileAndUrl env (printFile env (printedLines cs)) line url m pieces :=
    ⟨hu.toUtf8, hd, hs, ha, ⟨pps, hp⟩, by rw [htexts]; exact hcl, by rw [htexts]; exact allGen_printed hall⟩
  have := C91_lookup env _ line url m pieces hfile hone (by
    rw [htexts]
    rintro t ht strs ⟨ps, e, rfl⟩
    obtain ⟨ps', w1, w2, -⟩ := (hall t ht).parse _ _ e
    cases w1
    exact w2) ts (by rw [htexts]; exact hts)
  rw [htexts] at this
  exact this

theorem analyze_length {url : Str} {m : URLMeta} {pieces : List Str} (ha : analyzeUrl url = .ok (m, pieces)) : pieces.length = m.depth := by
  obtain ⟨ps, vs, fs, rfl, hst⟩ := analyzeUrl_struct ha
  have hq := hst.query.length
  have hf := hst.frag
  have hd := hst.depth
  unfold URLMeta.depth
  simp only [List.length_append]
  omega

/-- Of the patterns printed by `pattern-make` at most one is chosen for a URL of one space per piece. -/
theorem one_chosen (md5 : Str → Str) {h : Runtime} {mcn : Int} (hm : 2 ≤ mcn) {hist : List (Str × Option Str)} (hc : NoCollision md5 (accepted hist))
    (hh : NoHashClash h (UrlRow hist)) {cs : List (URLMeta × Tree NodeData)} (hcs : PatternMakerSt.make h mcn (loadAll md5 hist) = .ok cs)
    {url : Str} {m : URLMeta} {pieces : List Str} {pps : List ParsedPiece} (ha : analyzeUrl url = .ok (m, pieces)) (hpp : pieces.mapM parsePiece = .ok pps)
    (hone : ∀ s ∈ pieces, OneSpace s) {t t' : Str} {strs strs' : List Str} (h1 : Chosen (printedLines cs) m pieces t strs)
    (h2 : Chosen (printedLines cs) m pieces t' strs') : t = t' := by
  obtain ⟨hkp, -⟩ := parsePieces_ok hpp
  obtain ⟨Ms, g1, g2, g3⟩ := make_all md5 hm hc hh
  rw [hcs, Except.ok.injEq] at g2
  have key : ∀ {t strs}, Chosen (printedLines cs) m pieces t strs → ∃ M ∈ Ms, MadeOK h mcn hist M ∧ M.m = m ∧ ∃ C d, d ∈ cs ∧ d.1 = m ∧ ClusterOK h mcn hist M C d.2 ∧
      ∃ q ∈ d.2.paths, formatPattern d.1 d.2 = [t] ∧ ((∃ r ∈ M.g, r.rules = pieces.map (fun s => (pieceOf s).fuzzyRule)) ∧
        FitRow (rowFor pieces) 0 (q.map (fun kn => kn.2.pattern))) := by
    rintro t strs ⟨⟨pre, post, et, -⟩, ⟨ps, hps, hstr⟩, uss, eu, hlen, hM⟩
    obtain ⟨d, hdm, hd⟩ := List.mem_flatMap.mp (show t ∈ printedLines cs by rw [et]; simp)
    obtain ⟨M, hMm, hMo, C, -, e1, hK⟩ := mem_out g3 (g2 ▸ hdm)
    obtain ⟨x, hx⟩ := List.exists_mem_of_ne_nil _ hK.final.ne
    obtain ⟨q, hq, -⟩ := path_of_row hK hx
    obtain ⟨k1, k2⟩ := printed_parse md5 hm hc hh hcs hdm hq
    rw [k1, List.mem_singleton] at hd
    subst hd
    obtain ⟨k3, k4⟩ := k2 _ _ hps
    exact ⟨M, hMm, hMo, by rw [← e1, k3], C, d, hdm, k3.symm, hK, q, hq, k1, match_rules hm hh hMo hK hq hone
      (uss := uss) (show pathPatterns q = uss.map patText by rw [← k4, hstr, eu]) hlen (fun i => i + 1 == m.pathDepth) hM⟩
  obtain ⟨M, hMm, hMo, em, C, d, hdm, ed, hK, q, hq, ef, hf⟩ := key h1
  obtain ⟨M', hMm', hMo', em', C', d', hdm', ed', hK', q', hq', ef', hf'⟩ := key h2
  obtain ⟨hMM, p, hp, ep⟩ := two_match_close md5 hm hc hh g1 hMm hMm' hMo hMo' hK hK' hq hq' (em.trans em'.symm) hkp hone
    (by rw [em]; exact analyze_length ha) hf hf'
  obtain ⟨i, hi⟩ := List.mem_iff_getElem?.mp hdm
  obtain ⟨j, hj⟩ := List.mem_iff_getElem?.mp hdm'
  have hij : i = j := by
    refine flatMap_index (made_nodup md5 g1 g3) (g2 ▸ hi) (g2 ▸ hj) (x := (m, q'.map (·.1))) ?_ ?_
    · unfold clusterRows
      exact List.mem_map.mpr ⟨p, hp, by rw [ep, ed]⟩
    · unfold clusterRows
      exact List.mem_map.mpr ⟨q', hq', by rw [ed']⟩
  subst hij
  have hdd : d = d' := Option.some.inj (hi.symm.trans hj)
  subst hdd
  rw [ef, List.cons.injEq] at ef'
  exact ef'.1

/-- **C91**: the patterns that `pattern-make` prints do not overlap on the URLs of one character class per piece, seen before or not: at most one of the
printed patterns is among the choices of the URL, and `pattern-match` prints that one, with and without `-a`. -/
theorem C91_one (env : Env) (hu : StrictUtf8 env) (mcn : Int) (hm : 2 ≤ mcn) (lines : List Bytes)
    (hc : NoCollision env.md5 (accepted (urlsOf env false lines))) (hh : NoHashClash env.rt (UrlRow (urlsOf env false lines))) :
    ∃ records, makeRun env mcn .pattern lines = .ok records ∧
      ∀ line url m pieces pps, env.decode (stripB line) = some url → startsWith ['/'] url = false →
        analyzeUrl url = .ok (m, pieces) → pieces.mapM parsePiece = .ok pps → NoClash env.md5 (url :: records) →
        (∀ s ∈ pieces, ∃ sp : Space, ∀ c ∈ s, space? c = some sp) →
        ((∀ strs ∈ firstChoices (pieces.map pieceTexts), pack m strs ∉ records) ∧
          allLine env (printFile env records) line = noLine line ∧ bestLine env (printFile env records) line = noLine line) ∨
        ∃ strs ∈ firstChoices (pieces.map pieceTexts), pack m strs ∈ records ∧
          (∀ strs' ∈ firstChoices (pieces.map pieceTexts), pack m strs' ∈ records → strs' = strs) ∧
          allLine env (printFile env records) line = textLine env (pack m strs) line ∧
          bestLine env (printFile env records) line = textLine env (pack m strs) line := by
  obtain ⟨cs, hcs⟩ := C28_total env.md5 env.rt mcn hm _ hc hh
  have hall := printed_all env.md5 hm hc hh hcs
  obtain ⟨records, hrun, hpr⟩ := C91_printed env hu mcn hm lines hc hh
  have hrec : records = printedLines cs := by
    have e : makeRun env mcn .pattern lines = .ok (printedLines cs) := by
      unfold makeRun makeProcess
      rw [makeLoad_fst]
      show (PatternMakerSt.make env.rt mcn (loadAll env.md5 (urlsOf env false lines)) >>= _) = _
      rw [hcs]
      rfl
    rw [hrun, Except.ok.injEq] at e
    exact e
  refine ⟨records, hrun, ?_⟩
  intro line url m pieces pps hd hs ha hp hcl hone
  have hiff := chosen_iff (texts := records) ha hone (by
    rw [hrec]
    rintro t ht strs ⟨ps, e, rfl⟩
    obtain ⟨ps', w1, w2, -⟩ := (hall t ht).parse _ _ e
    cases w1
    exact w2)
  have huniq : ∀ strs ∈ firstChoices (pieces.map pieceTexts), pack m strs ∈ records → ∀ strs' ∈ firstChoices (pieces.map pieceTexts), pack m strs' ∈ records →
      strs' = strs := by
    intro strs h1 h2 strs' h1' h2'
    rw [mem_first] at h1 h1'
    have c1 := (hiff (pack m strs) strs).mpr ⟨h2, rfl, h1⟩
    have c2 := (hiff (pack m strs') strs').mpr ⟨h2', rfl, h1'⟩
    have e := one_chosen env.md5 hm hc hh hcs ha hp hone (hrec ▸ c2) (hrec ▸ c1)
    obtain ⟨ps, r1, r2⟩ := choice_read ha hone h1
    obtain ⟨ps', r1', r2'⟩ := choice_read ha hone h1'
    rw [e, r1] at r1'
    cases r1'
    exact r2'.symm.trans r2
  obtain ⟨hA, hB⟩ := hpr line url m pieces pps hd hs ha hp hcl hone _ rfl
  have hcount := C91_count url m pieces ha hone
  by_cases hex : ∃ strs ∈ firstChoices (pieces.map pieceTexts), pack m strs ∈ records
  · right
    obtain ⟨strs, h1, h2⟩ := hex
    refine ⟨strs, h1, h2, fun strs' => huniq strs h1 h2 strs', ?_, ?_⟩
    · have hts : ((firstChoices (pieces.map pieceTexts)).map (pack m)).filter (fun t => decide (t ∈ records)) = [pack m strs] := by
        have hn := hcount.1.filter (fun t => decide (t ∈ records))
        have hm : ∀ t, t ∈ ((firstChoices (pieces.map pieceTexts)).map (pack m)).filter (fun t => decide (t ∈ records)) ↔ t = pack m strs := by
          intro t
          rw [List.mem_filter, List.mem_map]
          constructor
          · rintro ⟨⟨strs', a, rfl⟩, b⟩
            rw [huniq strs h1 h2 strs' a (by simpa using b)]
          · rintro rfl
            exact ⟨⟨strs, h1, rfl⟩, by simpa using h2⟩
        generalize ((firstChoices (pieces.map pieceTexts)).map (pack m)).filter (fun t => decide (t ∈ records)) = l at hn hm
        match l with
        | [] => exact absurd ((hm (pack m strs)).mpr rfl) (by simp)
        | [p] => rw [(hm p).mp (by simp)]
        | p :: q :: l =>
          have e1 := (hm p).mp (by simp)
          have e2 := (hm q).mp (by simp)
          subst e1; subst e2
          simp at hn
      rw [hts] at hA
      rw [hA, if_neg (by simp)]
      rfl
    · rw [hB]
      cases hf : ((lastChoices (pieces.map pieceTexts)).map (pack m)).find? (fun t => decide (t ∈ records)) with
      | none =>
        have := List.find?_eq_none.mp hf (pack m strs) ((hcount.2.2 _).mp (List.mem_map_of_mem h1))
        simp [h2] at this
      | some t =>
        have ht := List.find?_some hf
        obtain ⟨strs', a, rfl⟩ := List.mem_map.mp ((hcount.2.2 _).mpr (List.mem_of_find?_eq_some hf))
        rw [huniq strs h1 h2 strs' a (by simpa using ht)]
  · left
    have hno : ∀ strs ∈ firstChoices (pieces.map pieceTexts), pack m strs ∉ records := fun strs a b => hex ⟨strs, a, b⟩
    refine ⟨hno, ?_, ?_⟩
    · rw [hA, if_pos]
      rw [List.filter_eq_nil_iff]
      intro t ht
      obtain ⟨strs, a, rfl⟩ := List.mem_map.mp ht
      simpa using hno strs a
    · rw [hB]
      cases hf : ((lastChoices (pieces.map pieceTexts)).map (pack m)).find? (fun t => decide (t ∈ records)) with
      | none => rfl
      | some t =>
        have ht := List.find?_some hf
        obtain ⟨strs', a, rfl⟩ := List.mem_map.mp ((hcount.2.2 _).mpr (List.mem_of_find?_eq_some hf))
        exact absurd (by simpa using ht) (hno strs' a)

/-- **C91**: on any file of such URLs, loaded before or not, the option `-a` makes no difference for the patterns that `pattern-make` printed. -/
theorem C91_flag (env : Env) (hu : StrictUtf8 env) (mcn : Int) (hm : 2 ≤ mcn) (lines : List Bytes)
    (hc : NoCollision env.md5 (accepted (urlsOf env false lines))) (hh : NoHashClash env.rt (UrlRow (urlsOf env false lines))) :
    ∃ records, makeRun env mcn .pattern lines = .ok records ∧
      ∀ lines' : List Bytes, (∀ line ∈ lines', ∃ url m pieces pps, env.decode (stripB line) = some url ∧ startsWith ['/'] url = false ∧
        analyzeUrl url = .ok (m, pieces) ∧ pieces.mapM parsePiece = .ok pps ∧ NoClash env.md5 (url :: records) ∧
        ∀ s ∈ pieces, ∃ sp : Space, ∀ c ∈ s, space? c = some sp) →
        matchRun env true (printFile env records) lines' = matchRun env false (printFile env records) lines' := by
  obtain ⟨records, hrun, h⟩ := C91_one env hu mcn hm lines hc hh
  refine ⟨records, hrun, ?_⟩
  intro lines' hl
  unfold matchRun
  congr 1
  apply List.map_congr_left
  intro line hline
  obtain ⟨url, m, pieces, pps, a1, a2, a3, a4, a5, a6⟩ := hl line hline
  rcases h line url m pieces pps a1 a2 a3 a4 a5 a6 with ⟨-, e1, e2⟩ | ⟨strs, -, -, -, e1, e2⟩
  · exact e1.trans e2.symm
  · exact e1.trans e2.symm

/-! ### examples -/

/-- URLs from which patterns are made. -/
def c91Lines : List Bytes :=
  [c!"http://h/a\n", c!"http://h/b\n", c!"http://h/c\n", c!"http://h/dd\n", c!"http://h/eee\n", c!"http://h/a/1\n", c!"http://h/a/22\n", c!"http://h/a/333\n",
    c!"http://h/b/44\n", c!"http://h/c/55\n", c!"http://h/d/66\n"].map asciiBytesM

example : pieceTexts c!"ab" = [c!"ab", c!"[a-z]{2}", c!"[a-z]+"] ∧ pieceTexts c!"7" = [c!"7", c!"[0-9]", c!"[0-9]+"] ∧
    pieceTexts c!"--" = [c!"[\\-]{2}", c!"[\\-]+"] ∧ pieceTexts [] = [[]] ∧ pieceTexts c!"\\" = [] := by decide +kernel

example : firstChoices [[c!"a", c!"b"], [c!"1", c!"2"]] = [[c!"a", c!"1"], [c!"a", c!"2"], [c!"b", c!"1"], [c!"b", c!"2"]] ∧
    lastChoices [[c!"a", c!"b"], [c!"1", c!"2"]] = [[c!"a", c!"1"], [c!"b", c!"1"], [c!"a", c!"2"], [c!"b", c!"2"]] := by decide +kernel

example : makeRun c47Env 3 .pattern c91Lines = .ok [c!"/[a-z]+", c!"/[a-z]/[0-9]+"] := by decide +kernel

/-- URLs that were not loaded: the patterns found for them. -/
example : ((firstChoices ([c!"q", c!"77"].map pieceTexts)).filter (fun strs => decide (pack ⟨2, [], false⟩ strs ∈ [c!"/[a-z]+", c!"/[a-z]/[0-9]+"]))) =
    [[c!"[a-z]", c!"[0-9]+"]] := by decide +kernel

example : matchRun c47Env true (printFile c47Env [c!"/[a-z]+", c!"/[a-z]/[0-9]+"]) [asciiBytesM c!"http://h/q/77", asciiBytesM c!"http://h/qq/7", asciiBytesM c!"http://h/z"] =
    asciiBytesM c!"/[a-z]/[0-9]+\thttp://h/q/77\nN\thttp://h/qq/7\n/[a-z]+\thttp://h/z\n" := by decide +kernel

/-- The conditions of `C91_one` hold for UTF-8, a digest and a hash without clashes, and all lines. -/
example (lines : List Bytes) (url : Str) (records : List Str) : StrictUtf8 (utf8Env id codeHash) ∧
    NoCollision (utf8Env id codeHash).md5 (accepted (urlsOf (utf8Env id codeHash) false lines)) ∧
    NoHashClash (utf8Env id codeHash).rt (UrlRow (urlsOf (utf8Env id codeHash) false lines)) ∧ NoClash (utf8Env id codeHash).md5 (url :: records) :=
  ⟨utf8_strict _ _, id_ok _, codeHash_ok _, fun _ _ _ _ _ _ _ _ _ _ e => e⟩

/-- With patterns of another source several can match, and the two orders differ. -/
example : matchRun c47Env true (printFile c47Env [c!"/[a-z]+/7", c!"/q/[0-9]+", c!"/[a-z]/[0-9]"]) [asciiBytesM c!"http://h/q/7"] =
    asciiBytesM c!"/q/[0-9]+\t/[a-z]/[0-9]\t/[a-z]+/7\thttp://h/q/7\n" ∧
    matchRun c47Env false (printFile c47Env [c!"/[a-z]+/7", c!"/q/[0-9]+", c!"/[a-z]/[0-9]"]) [asciiBytesM c!"http://h/q/7"] =
    asciiBytesM c!"/[a-z]+/7\thttp://h/q/7\n" := by decide +kernel

end OsUrl
