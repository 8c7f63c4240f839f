import Verif.Proofs.OneMatch
import Verif.Props.C32
import Verif.Props.C89

/-!
# C90: URLs whose pieces use one character class each keep their cluster

For such URLs `pattern-make` and `pattern-match` agree: no printed pattern but that of the URL's own cluster matches the URL.
-/

namespace OsUrl
open Spec

section
variable {h : Runtime} {mcn : Int} {hist : List (Str × Option Str)}

/-- In the sub-maker of a URL of one space per piece: the patterns of a cluster that match the row of the URL are those of its own cluster. -/
theorem one_match_close (md5 : Str → Str) (hm : 2 ≤ mcn) (hc : NoCollision md5 (accepted hist)) (hh : NoHashClash h (UrlRow hist)) {Ms : List Made}
    (h1 : Ms.map (·.g) = (groupBy (Rec.sid md5) (accepted hist)).map (·.2)) {M M' : Made} (hMm : M ∈ Ms) (hMm' : M' ∈ Ms)
    (hM : MadeOK h mcn hist M) (hM' : MadeOK h mcn hist M') {C C' : List Ins} {t t' : Tree NodeData} (hC : ClusterOK h mcn hist M C t)
    (hC' : ClusterOK h mcn hist M' C' t') {p p' : List (Str × NodeData)} (hp : p ∈ t.paths) (hp' : p' ∈ t'.paths) (hmm : M.m = M'.m)
    {pieces : List Str} (hk : ∀ s ∈ pieces, ∀ c ∈ s, Known c) (he : p'.map (·.1) = pieces.map (fun s => (pieceOf s).piece))
    (hone : ∀ s ∈ pieces, OneSpace s) {uss : List (List GUnit)} (ht : p.map (fun kn => kn.2.pattern) = uss.map patText)
    (hlen : uss.length = pieces.length) (lp : Nat → Bool)
    (hall : ∀ (i : Nat) (us : List GUnit) (s : Str), uss[i]? = some us → pieces[i]? = some s → Generated us ∧ Matches (lp i) us s) :
    M = M' ∧ ∃ q ∈ t.paths, q.map (·.1) = p'.map (·.1) := by
  have hfits : ∀ (i : Nat) (us : List GUnit) (s : Str), uss[i]? = some us → pieces[i]? = some s →
      FitPart (pieceOf s) (patText us) ∧ PieceText s (patText us) := by
    intro i us s hu hs
    obtain ⟨a, b⟩ := hall i us s hu hs
    exact match_fit a b (hone s (List.mem_of_getElem? hs))
  obtain ⟨r, hr, u, row, hu, ha, hkr, b1, b2, -⟩ := path_url hM hC hp
  obtain ⟨r', hr', u', row', hu', ha', hkr', b1', b2', hraw'⟩ := path_url hM' hC' hp'
  have hraw := path_raw hM' hC' hp' hk he
  have hpps : r'.pps = pieces.map pieceOf := by
    have e1 : row'.map pieceOf = pieces.map pieceOf := by
      exact hraw'.path.symm.trans hraw.path
    rw [b1', e1]
  obtain ⟨sts, a1, a2, a3⟩ := path_text hm hh hM hC hp hkr b2
  have hsp : row.map (fun s => (pieceOf s).fuzzyRule) = pieces.map (fun s => (pieceOf s).fuzzyRule) := by
    have hl : sts.length = uss.length := by
      have := congrArg List.length (a3.symm.trans ht)
      simpa using this
    rw [← a1, List.map_map]
    apply List.ext_getElem?
    intro i
    rw [List.getElem?_map, List.getElem?_map]
    by_cases hi : i < sts.length
    · have hs := List.getElem?_eq_getElem hi
      have hu := List.getElem?_eq_getElem (l := uss) (i := i) (by omega)
      have hpi := List.getElem?_eq_getElem (l := pieces) (i := i) (by omega)
      rw [hs, hpi]
      simp only [Option.map_some, Option.some.injEq, Function.comp_apply]
      have e := congrArg (·[i]?) (a3.symm.trans ht)
      simp only [List.getElem?_map, hs, hu, Option.map_some, Option.some.injEq] at e
      have x := a2 _ (List.getElem_mem hi)
      rw [e] at x
      exact pieceText_spaces x (hfits i _ _ hu hpi).2
    · rw [List.getElem?_eq_none (by omega), List.getElem?_eq_none (by omega)]
      rfl
  obtain ⟨_, hal⟩ := hM.all
  obtain ⟨_, hal'⟩ := hM'.all
  have hsid : r.sid md5 = r'.sid md5 := by
    rw [sid_eq_iff hc (hM.acc r hr) (hM'.acc r' hr')]
    refine ⟨by rw [(hal r hr).1, (hal' r' hr').1, hmm], ?_⟩
    unfold Rec.rules
    rw [b1, hpps, List.map_map, List.map_map]
    exact hsp
  have hMM := made_same md5 h1 hMm hMm' hr hr' hsid
  subst hMM
  refine ⟨rfl, ?_⟩
  have hR := one_rows hh hM hr' hk hpps hone
  obtain ⟨k1, k2⟩ := row_of_path hC hp
  obtain ⟨k1', k2'⟩ := row_of_path hC' hp'
  have hfam := hC.final.fam _ k1
  rw [famN_top hm _ _ hR k2] at hfam
  have hun : unif (flatF mcn false M.m.depth) M.m.depth (famN (flatF mcn false M.m.depth) M.m.depth ((norm (insOf M.g)).length + 1) (norm (insOf M.g)) (rowOf p).bare) = true :=
    famN_unif _ _ k2 (by omega)
  have hsub : ∀ x ∈ C.map Ins.bare, x ∈ norm (insOf M.g) := by
    intro x hx
    obtain ⟨y, hy, rfl⟩ := List.mem_map.mp hx
    exact hC.sub y hy
  have hfit : FitRow (rowOf p').bare 0 (p.map (fun kn => kn.2.pattern)) := by
    rw [ht]
    intro i hi
    have hi' : i < uss.length := by simpa using hi
    have hpi := List.getElem?_eq_getElem (l := pieces) (i := i) (by omega)
    rw [Nat.zero_add, (hraw.pp hpi).1, List.getElem_map]
    exact (hfits i _ _ (List.getElem?_eq_getElem hi') hpi).1
  rw [path_pats hC hp, labs_top hm (hR.sub hsub) (by omega) (List.mem_map_of_mem k1), labs_perm (flatF_perm _ _ _) hfam] at hfit
  have hmem := famN_close hm _ _ hR k2 k2' hun hfit
  rw [← hfam.mem_iff] at hmem
  obtain ⟨y, hy, ey⟩ := List.mem_map.mp hmem
  obtain ⟨q, hq, rfl⟩ := path_of_row hC hy
  refine ⟨q, hq, ?_⟩
  rw [hC.keys q hq, hC'.keys p' hp', ← bare_keys, ey, bare_keys]

/-- A text that fits a piece of one space other than the backslash is a plain pattern that can be read back. -/
theorem fit_plain {s t : Str} {sp : Space} (hsp : ∀ c ∈ s, space? c = some sp) (hb : '\\' ∉ s) (hf : FitPart (pieceOf s) t) :
    ∃ us, Generated us ∧ us.length ≤ 1 ∧ patText us = t := by
  by_cases hne : s = []
  · subst hne
    refine ⟨[], ⟨by simp, by intro a x y b e; simp at e, by simp⟩, by simp, ?_⟩
    rcases hf with rfl | ⟨h0, -⟩
    · rfl
    · exact absurd rfl h0
  · have hr : Runs s [(sp, s)] := by
      refine ⟨by simp, by simpa using hne, by simpa using hsp, ?_⟩
      intro a x y b e
      have := congrArg List.length e
      simp at this
      omega
    obtain ⟨c, hc⟩ := List.exists_mem_of_ne_nil _ hne
    have hbs : sp ≠ .sign '\\' := by
      rintro rfl
      have := space_sign (hsp c hc)
      rw [this] at hc
      exact hb hc
    have hv := space_valid (hsp c hc)
    have hcls : IsClass [sp] := ⟨⟨by simp, by simpa using hv, by simp⟩, by simpa using hbs⟩
    have gen : ∀ u : GUnit, u.Valid → Generated [u] := fun u hu =>
      ⟨by simpa using hu, by intro a x y b e; have := congrArg List.length e; simp at this; omega, by simp⟩
    unfold FitPart pieceOf at hf
    rw [runsOf_runs hr, lenOf_ppOf, lenOf_gpart_eq hr, written_measured hr, measured_plain hb] at hf
    have hpair := gpair_ppOf [(sp, s)]
    have hrule : (ppOf [(sp, s)]).fuzzyRule = sp.text := by
      exact (congrArg Prod.snd hpair).symm.trans (joinSorted_one _)
    have hlit : (ppOf [(sp, s)]).piece = runText (sp, s) := by
      exact (congrArg Prod.fst hpair).symm.trans (by simp [gpair])
    rw [hrule, hlit] at hf
    rcases hf with rfl | ⟨-, ⟨-, rfl⟩ | rfl⟩
    · exact ⟨[.run sp s], gen _ ⟨hne, hbs, hsp⟩, by simp, by simp [patText, GUnit.text]⟩
    · have hl := List.length_pos_iff.mpr hne
      refine ⟨[.cls [sp] s.length], gen _ ⟨hcls, hl⟩, by simp, ?_⟩
      rw [specStr_nat (by omega)]
      simp [patText, GUnit.text]
    · refine ⟨[.wild [sp]], gen _ hcls, by simp, ?_⟩
      rw [specStr_wild]
      simp [patText, GUnit.text]

/-- The pattern of a URL of one space per piece, none of backslashes, is plain and can be read back. -/
theorem one_rows_of_path (hh : NoHashClash h (UrlRow hist)) {M : Made} (hM : MadeOK h mcn hist M) {C : List Ins} {t : Tree NodeData}
    (hC : ClusterOK h mcn hist M C t) {p : List (Str × NodeData)} (hp : p ∈ t.paths)
    {pieces : List Str} (hk : ∀ s ∈ pieces, ∀ c ∈ s, Known c) (he : p.map (·.1) = pieces.map (fun s => (pieceOf s).piece))
    (hone : ∀ s ∈ pieces, OneSpace s) (hm : 2 ≤ mcn) (hb : ∀ s ∈ pieces, '\\' ∉ s) :
    ∃ uss : List (List GUnit), (∀ us ∈ uss, Generated us ∧ us.length ≤ 1) ∧ uss.map patText = pathPatterns p := by
  obtain ⟨r, hr, u, row, hu, ha, hkr, b1, b2, hraw'⟩ := path_url hM hC hp
  have hraw := path_raw hM hC hp hk he
  have hpps : r.pps = pieces.map pieceOf := by rw [b1]; exact hraw'.path.symm.trans hraw.path
  have hR := one_rows hh hM hr hk hpps hone
  obtain ⟨k1, k2⟩ := row_of_path hC hp
  have hsub : ∀ x ∈ C.map Ins.bare, x ∈ norm (insOf M.g) := by
    intro x hx
    obtain ⟨y, hy, rfl⟩ := List.mem_map.mp hx
    exact hC.sub y hy
  have hfit : FitRow (rowOf p).bare 0 (labs (flatF mcn false M.m.depth) M.m.depth 0 (C.map Ins.bare) (rowOf p).bare) :=
    labs_fit hm (hR.sub hsub) (by omega) (List.mem_map_of_mem k1)
  rw [← labs_top hm (m := M.m) (hR.sub hsub) (by omega) (List.mem_map_of_mem k1), ← path_pats hC hp] at hfit
  have hlen : (p.map (fun kn => kn.2.pattern)).length = pieces.length := by
    have := congrArg List.length he
    simpa using this
  have key : ∀ (ts : List Str), (∀ t ∈ ts, ∃ us, Generated us ∧ us.length ≤ 1 ∧ patText us = t) →
      ∃ uss : List (List GUnit), (∀ us ∈ uss, Generated us ∧ us.length ≤ 1) ∧ uss.map patText = ts := by
    intro ts
    induction ts with
    | nil => intro _; exact ⟨[], by simp, rfl⟩
    | cons t ts ih =>
      intro hts
      obtain ⟨us, a, b, e⟩ := hts t (by simp)
      obtain ⟨uss, a', e'⟩ := ih (fun t ht => hts t (by simp [ht]))
      refine ⟨us :: uss, ?_, by simp [e, e']⟩
      intro v hv
      rcases List.mem_cons.mp hv with rfl | hv
      · exact ⟨a, b⟩
      · exact a' v hv
  refine key _ ?_
  intro t ht
  obtain ⟨i, hi, rfl⟩ := List.mem_iff_getElem.mp (show t ∈ p.map (fun kn => kn.2.pattern) from ht)
  have hf := hfit i hi
  have hpi := List.getElem?_eq_getElem (l := pieces) (i := i) (by omega)
  rw [Nat.zero_add, (hraw.pp hpi).1] at hf
  have hmem := List.mem_of_getElem? hpi
  obtain ⟨sp, hsp⟩ := hone _ hmem
  exact fit_plain hsp (hb _ hmem) hf

/-- A pattern that can be read back is not found for a piece of backslashes. -/
theorem no_match_backslash {lp : Bool} {us : List GUnit} {s : Str} (hg : Generated us) (ho : OneSpace s) (hb : '\\' ∈ s) : ¬ Matches lp us s := by
  intro hM
  obtain ⟨sp, hsp⟩ := ho
  have e : sp = .sign '\\' := by
    have h1 := hsp _ hb
    have h2 : space? '\\' = some (.sign '\\') := by decide
    exact Option.some.inj (h1.symm.trans h2)
  subst e
  rcases match_one hg hM hsp with ⟨-, rfl⟩ | ⟨hne, u, rfl, hu⟩
  · cases hb
  · have hv := hg.valid u (by simp)
    cases u with
    | run sp' w =>
      obtain rfl : s = w := hu
      have := (hv.2.2 _ hb).symm.trans (hsp _ hb)
      injection this with this
      exact hv.2.1 this
    | cls R n =>
      have := spacesOf_one hne hsp hu.1 hv.1.toWrittenClass
      subst this
      exact hv.1.readable rfl
    | wild R =>
      have := spacesOf_one hne hsp hu hv.toWrittenClass
      subst this
      exact hv.readable rfl

/-- A pattern is not listed before itself. -/
theorem listed_irrefl {lp : Bool} {us vs : List GUnit} (hu : Generated us) (hv : Generated vs) (e : patText us = patText vs) : ¬ ListedBefore lp us vs := by
  rintro (h | ⟨-, a, u, as, b, v, bs, rfl, rfl, h1, h2⟩)
  · rw [kind_text hu hv e] at h
    exact Nat.lt_irrefl _ h
  · have h3 := gen_units hu.valid hu.apart (by simp)
    rw [e, gen_units hv.valid hv.apart (by simp), Except.ok.injEq] at h3
    have hl : a.length = b.length := by simpa using congrArg List.length h1
    have h4 := congrArg (·[a.length]?) h3
    simp [hl] at h4
    have o1 := gu_order (hu.valid u (by simp))
    have o2 := gu_order (hv.valid v (by simp))
    rw [h4, o1] at o2
    have r1 := rank_le u
    have r2 := rank_le v
    generalize u.rank = x at *
    generalize v.rank = y at *
    have hx : (x = 0 ∧ y = 1) ∨ (x = 0 ∧ y = 2) ∨ (x = 1 ∧ y = 2) := by omega
    rcases hx with ⟨rfl, rfl⟩ | ⟨rfl, rfl⟩ | ⟨rfl, rfl⟩ <;> cases o2

theorem firstSpecial_irrefl {m : URLMeta} {strs : List Str} : ¬ FirstSpecial m strs strs := by
  rintro ⟨a, c, d, us, vs, hu, hv, e1, e2, hl⟩
  have := e1.symm.trans e2
  rw [List.append_cancel_left_eq, List.cons.injEq] at this
  exact listed_irrefl hu hv this.1 hl

end

/-- **C90**: `pattern-make`, then `pattern-match` on the same URLs.  For a URL each of whose pieces uses one character class, `pattern-match` prints, with
and without `-a`, exactly the pattern of the cluster that `pattern-make` put it into; or `N` if the URL has a piece of backslashes. -/
theorem C90_own (env : Env) (hu : StrictUtf8 env) (mcn : Int) (hm : 2 ≤ mcn) (lines : List Bytes)
    (hc : NoCollision env.md5 (accepted (urlsOf env false lines))) (hh : NoHashClash env.rt (UrlRow (urlsOf env false lines))) :
    ∃ cs, PatternMakerSt.make env.rt mcn (makeLoad env false lines).1 = .ok cs ∧
      makeRun env mcn .pattern lines = .ok (printedLines cs) ∧
      ∀ l ∈ lines, stripB l ≠ [] → ∀ url m pieces pps, env.decode (stripB l) = some url → startsWith ['/'] url = false →
        analyzeUrl url = .ok (m, pieces) → pieces.mapM parsePiece = .ok pps →
        (∀ s ∈ pieces, ∃ sp : Space, ∀ x ∈ s, space? x = some sp) →
        ∃ c ∈ cs, c.1 = m ∧ (∃ p ∈ c.2.paths, p.map (·.1) = pps.map (·.piece)) ∧ ∃ r, formatPattern c.1 c.2 = [r] ∧
          ((∀ s ∈ pieces, '\\' ∉ s) → bestLine env (printFile env (printedLines cs)) l = textLine env r l ∧
            allLine env (printFile env (printedLines cs)) l = textLine env r l) ∧
          (¬ (∀ s ∈ pieces, '\\' ∉ s) → bestLine env (printFile env (printedLines cs)) l = noLine l ∧
            allLine env (printFile env (printedLines cs)) l = noLine l) := by
  obtain ⟨cs, hcs, htexts, h⟩ := own_chosen env hu mcn hm lines hc hh
  refine ⟨cs, by rw [makeLoad_fst]; exact hcs, ?_, ?_⟩
  · unfold makeRun makeProcess
    rw [makeLoad_fst]
    show (PatternMakerSt.make env.rt mcn (loadAll env.md5 (urlsOf env false lines)) >>= _) = _
    rw [hcs]
    rfl
  intro l hl hl0 url m pieces pps hdec hst ha hpp hone
  obtain ⟨hfile, c, hcm, rfl, p, hp, e2, f1, hread, ⟨uss, g2, g3⟩, hown⟩ := h l hl hl0 url m pieces pps hdec hst ha hpp
  obtain ⟨hkp, hpps⟩ := parsePieces_ok hpp
  have hkeys : p.map (·.1) = pieces.map (fun s => (pieceOf s).piece) := by
    rw [e2, hpps]; simp [pieceOf, Function.comp_def]
  obtain ⟨Ms, h1, h2, h3⟩ := make_all env.md5 hm hc hh
  rw [hcs, Except.ok.injEq] at h2
  obtain ⟨M', hMm', hM', C', -, e1', hK'⟩ := mem_out h3 (h2 ▸ hcm)
  -- only the own pattern is chosen
  have uniq : ∀ t strs, Chosen (printedLines cs) c.1 pieces t strs → t = pack c.1 (pathPatterns p) := by
    rintro t strs ⟨⟨pre, post, et, -⟩, ⟨ps, hps, hstr⟩, uss', eu, hlen, hM⟩
    obtain ⟨d, hdm, hd⟩ := List.mem_flatMap.mp (show t ∈ printedLines cs by rw [et]; simp)
    obtain ⟨M, hMm, hMo, C, -, e1, hK⟩ := mem_out h3 (h2 ▸ hdm)
    obtain ⟨x, hx⟩ := List.exists_mem_of_ne_nil _ hK.final.ne
    obtain ⟨q, hq, -⟩ := path_of_row hK hx
    obtain ⟨k1, k2⟩ := printed_parse env.md5 hm hc hh hcs hdm hq
    rw [k1, List.mem_singleton] at hd
    subst hd
    obtain ⟨k3, k4⟩ := k2 _ _ hps
    have hmm : M.m = M'.m := by rw [← e1, ← e1', k3]
    obtain ⟨hMM, q', hq', eq⟩ := one_match_close env.md5 hm hc hh h1 hMm hMm' hMo hM' hK hK' hq hp hmm hkp hkeys hone
      (uss := uss') (show pathPatterns q = uss'.map patText by rw [← k4, hstr, eu]) hlen (fun i => i + 1 == c.1.pathDepth) hM
    -- the same cluster
    obtain ⟨i, hi⟩ := List.mem_iff_getElem?.mp hdm
    obtain ⟨j, hj⟩ := List.mem_iff_getElem?.mp hcm
    have hij : i = j := by
      refine flatMap_index (made_nodup env.md5 h1 h3) (h2 ▸ hi) (h2 ▸ hj) (x := (c.1, p.map (·.1))) ?_ ?_
      · unfold clusterRows
        exact List.mem_map.mpr ⟨q', hq', by rw [eq, k3]⟩
      · unfold clusterRows
        exact List.mem_map.mpr ⟨p, hp, rfl⟩
    subst hij
    have hdc : d = c := Option.some.inj (hi.symm.trans hj)
    subst hdc
    rw [f1, List.cons.injEq] at k1
    exact k1.1.symm
  obtain ⟨sel, s1, s2, s3, s4, s5⟩ := C54_line env hfile.utf8 _ l url c.1 pieces pps hdec hst ha hpp hfile.clash hfile.gen
  rw [htexts] at s1
  refine ⟨c, hcm, rfl, ⟨p, hp, e2⟩, _, f1, ?_, ?_⟩
  · intro hb
    have hch : Chosen (printedLines cs) c.1 pieces (pack c.1 (pathPatterns p)) (pathPatterns p) := by
      have hR := one_rows_of_path hh hM' hK' hp hkp hkeys hone
      obtain ⟨uss', q1, q2⟩ := hR hm hb
      refine (hown uss' (fun us hus => (generated_iff.mp (q1 us hus).1).1) q2).mpr ⟨fun us hus => (generated_iff.mp (q1 us hus).1).2, ?_⟩
      intro i us s hi _
      exact .inl (.inl (q1 us (List.mem_of_getElem? hi)).2)
    have hmem := (s1 _ _).mpr hch
    have hall : ∀ x ∈ sel, x = (pack c.1 (pathPatterns p), pathPatterns p) := by
      rintro ⟨t, strs⟩ hx
      have := (s1 t strs).mp hx
      have ht := uniq t strs this
      subst ht
      rw [hread strs this]
    have hsel : sel = [(pack c.1 (pathPatterns p), pathPatterns p)] := by
      match sel, hmem, hall, s2 with
      | [], hmem, _, _ => cases hmem
      | [x], _, hall, _ => rw [hall x (by simp)]
      | x :: y :: sel, _, hall, s2 =>
        have := (List.pairwise_cons.mp s2).1 y (by simp)
        rw [hall x (by simp), hall y (by simp)] at this
        exact absurd this firstSpecial_irrefl
    subst hsel
    constructor
    · obtain ⟨x, hx, e, -⟩ := s5 (by simp)
      rw [List.mem_singleton] at hx
      subst hx
      exact e
    · exact s3
  · intro hb
    have hsel : sel = [] := by
      cases sel with
      | nil => rfl
      | cons x sel =>
        exfalso
        apply hb
        intro s hs hbs
        obtain ⟨-, -, uss', -, hlen, hM⟩ := (s1 x.1 x.2).mp (by simp)
        obtain ⟨i, hi, rfl⟩ := List.mem_iff_getElem.mp hs
        obtain ⟨m1, m2⟩ := hM i _ _ (List.getElem?_eq_getElem (by omega)) (List.getElem?_eq_getElem hi)
        exact no_match_backslash m1 (hone _ hs) hbs m2
    subst hsel
    exact ⟨s4 rfl, s3⟩

/-- **C90**: the line of such a URL shows the pattern of a cluster iff the URL is in that cluster.  So `pattern-match` divides these URLs as `pattern-make`
did. -/
theorem C90_members (env : Env) (hu : StrictUtf8 env) (mcn : Int) (hm : 2 ≤ mcn) (lines : List Bytes)
    (hc : NoCollision env.md5 (accepted (urlsOf env false lines))) (hh : NoHashClash env.rt (UrlRow (urlsOf env false lines))) :
    ∃ cs, PatternMakerSt.make env.rt mcn (makeLoad env false lines).1 = .ok cs ∧
      makeRun env mcn .pattern lines = .ok (printedLines cs) ∧
      ∀ l ∈ lines, stripB l ≠ [] → ∀ url m pieces pps, env.decode (stripB l) = some url → startsWith ['/'] url = false →
        analyzeUrl url = .ok (m, pieces) → pieces.mapM parsePiece = .ok pps →
        (∀ s ∈ pieces, ∃ sp : Space, ∀ x ∈ s, space? x = some sp) → (∀ s ∈ pieces, '\\' ∉ s) →
        ∀ c ∈ cs, ∀ r, formatPattern c.1 c.2 = [r] →
          (bestLine env (printFile env (printedLines cs)) l = textLine env r l ↔ c.1 = m ∧ ∃ p ∈ c.2.paths, p.map (·.1) = pps.map (·.piece)) := by
  obtain ⟨cs, hcs, hrun, h⟩ := C90_own env hu mcn hm lines hc hh
  refine ⟨cs, hcs, hrun, ?_⟩
  rw [makeLoad_fst] at hcs
  intro l hl hl0 url m pieces pps hdec hst ha hpp hone hb c hcm r hr
  obtain ⟨c0, hcm0, e0, ⟨p0, hp0, k0⟩, r0, hr0, hline, -⟩ := h l hl hl0 url m pieces pps hdec hst ha hpp hone
  obtain ⟨hbest, -⟩ := hline hb
  obtain ⟨i, hi⟩ := List.mem_iff_getElem?.mp hcm0
  obtain ⟨j, hj⟩ := List.mem_iff_getElem?.mp hcm
  rw [hbest]
  constructor
  · intro e
    have e1 : env.encode r0 = env.encode r := by
      unfold textLine at e
      rw [List.append_assoc, List.append_assoc, List.append_assoc, List.append_assoc] at e
      exact List.append_cancel_right e
    have e2 : r0 = r := by
      have := congrArg env.decode e1
      rw [hu.back, hu.back] at this
      exact Option.some.inj this
    obtain ⟨cs', hcs', h32⟩ := C32_one_space_partial env.md5 env.rt mcn hm _ hc hh
    have hcc : cs' = cs := by
      have := hcs'.symm.trans hcs
      injection this
    subst hcc
    have hij := h32 i j c0 c hi hj (by rw [hr0, hr, e2]) p0 hp0 pieces pps hpp k0.symm hone
    subst hij
    have hcc : c0 = c := Option.some.inj (hi.symm.trans hj)
    subst hcc
    exact ⟨e0, p0, hp0, k0⟩
  · rintro ⟨e1, p, hp, k⟩
    obtain ⟨Ms, h1, h2, h3⟩ := make_all env.md5 hm hc hh
    have hcc : cs = _ := Except.ok.inj (hcs.symm.trans h2)
    have hij : i = j := by
      refine flatMap_index (made_nodup env.md5 h1 h3) (hcc ▸ hi) (hcc ▸ hj) (x := (m, p0.map (·.1))) ?_ ?_
      · unfold clusterRows
        exact List.mem_map.mpr ⟨p0, hp0, by rw [e0]⟩
      · unfold clusterRows
        exact List.mem_map.mpr ⟨p, hp, by rw [k, k0, e1]⟩
    subst hij
    have hcc : c0 = c := Option.some.inj (hi.symm.trans hj)
    subst hcc
    rw [hr, List.cons.injEq] at hr0
    rw [hr0.1]

/-! ### examples -/

/-- URLs of one class per piece. -/
def c90Lines : List Bytes :=
  [c!"http://h/a/1\n", c!"http://h/b/1\n", c!"http://h/c/1\n", c!"http://h/a/2\n", c!"http://h/aa/2\n", c!"http://h/dd/\\\n", c!"http://h/--/x\n"].map asciiBytesM

def c90Pats : List Str := [c!"/[a-z]/1", c!"/a/2", c!"/aa/2", c!"/dd/[\\\\]", c!"/[\\-]{2}/x"]

/-- The clusters. -/
example : makeRun c47Env 3 .cluster c90Lines = .ok [c!"/[a-z]/1", c!"\thttp://h/a/1", c!"\thttp://h/b/1", c!"\thttp://h/c/1", c!"/a/2", c!"\thttp://h/a/2",
      c!"/aa/2", c!"\thttp://h/aa/2", c!"/dd/[\\\\]", c!"\thttp://h/dd/\\", c!"/[\\-]{2}/x", c!"\thttp://h/--/x"] ∧
    makeRun c47Env 3 .pattern c90Lines = .ok c90Pats := by
  refine ⟨?_, ?_⟩ <;> decide +kernel

/-- Every URL is shown with the pattern of its own cluster and no other, with and without `-a`; the piece of backslashes makes `N`. -/
example : ∀ all : Bool, matchRun c47Env all (printFile c47Env c90Pats) c90Lines =
    asciiBytesM (c!"/[a-z]/1\thttp://h/a/1\n/[a-z]/1\thttp://h/b/1\n/[a-z]/1\thttp://h/c/1\n/a/2\thttp://h/a/2\n/aa/2\thttp://h/aa/2\n" ++
      c!"N\thttp://h/dd/\\\n/[\\-]{2}/x\thttp://h/--/x\n") := by
  intro all
  cases all <;> decide +kernel

end OsUrl
