import Verif.Proofs.ReCat
import Verif.Props.C16
import Verif.Props.C34

/-! # C46: a printed pattern, as one regular expression, matches path, query and fragment of the URLs of its cluster -/

namespace OsUrl
open Spec

/-- Nothing in the URL makes it unacceptable: all characters of its request are known, none is a backslash, and no item of its
query is empty. -/
structure Spec.AbsUrl.Plain (u : AbsUrl) : Prop where
  ok : u.OK
  known : ∀ c ∈ u.request, Known c ∧ c ≠ '\\'
  items : ∀ q items, u.query = some q → q ≠ [] → Items q items → [] ∉ items

theorem pathText_has {ps : List Str} {s : Str} (h : s ∈ ps) {c : Char} (hc : c ∈ s) : c ∈ pathText ps := by
  induction ps with
  | nil => cases h
  | cons x xs ih =>
    rw [pathText]
    rcases List.mem_cons.mp h with rfl | h
    · simp [hc]
    · simp [ih h]

theorem mapM_ok_all {α β : Type} {f : α → Py β} {g : α → β} {l : List α} (h : ∀ a ∈ l, f a = .ok (g a)) : l.mapM f = .ok (l.map g) := by
  induction l with
  | nil => rfl
  | cons a l ih =>
    rw [List.mapM_cons, h a (by simp), ih (fun b hb => h b (by simp [hb]))]
    rfl

/-- What `analyze_url` and the parser make of a plain URL. -/
theorem plain_parsed {u : AbsUrl} (h : u.Plain) : ∃ m pieces pps, analyzeUrl u.text = .ok (m, pieces) ∧
    pieces.mapM parsePiece = .ok pps ∧ parse u.text = .ok (m, .pieces pps) ∧ (∀ s ∈ pieces, '\\' ∉ s) ∧
    startsWith ['/'] u.text = false := by
  have hq : ∃ kv, parseQueryString u.query = .ok kv := by
    cases hq : u.query with
    | none => exact ⟨_, rfl⟩
    | some q =>
      by_cases h0 : q = []
      · subst h0; exact ⟨_, rfl⟩
      · exact (C02_rejects q h0 _ (items_exist q)).2 (h.items q _ hq h0 (items_exist q))
  obtain ⟨⟨keys, vals⟩, hq⟩ := hq
  have ha := (C45_analyze_url u h.ok).2 keys vals hq
  have hchars : ∀ s ∈ u.pathPieces ++ vals ++ u.fragment.toList, ∀ c ∈ s, Known c ∧ c ≠ '\\' := by
    intro s hs c hc
    apply h.known
    unfold AbsUrl.request
    simp only [List.mem_append] at hs ⊢
    rcases hs with (hs | hs) | hs
    · exact .inl (.inl (pathText_has hs hc))
    · refine .inl (.inr ?_)
      obtain ⟨b1, b2, b3⟩ := query_parts hq
      cases hqq : u.query with
      | none =>
        rw [b2.mpr hqq] at b1
        rw [List.eq_nil_of_length_eq_zero b1.symm] at hs
        cases hs
      | some q =>
        refine List.mem_cons_of_mem _ ?_
        rw [← b3 q hqq]
        obtain ⟨i, hi⟩ := List.getElem?_of_mem hs
        have hlt : i < keys.length := by rw [b1]; exact (List.getElem?_eq_some_iff.mp hi).1
        have hm : (keys[i], s) ∈ keys.zip vals := by
          apply List.mem_of_getElem? (i := i)
          rw [List.getElem?_zip_eq_some]
          exact ⟨List.getElem?_eq_getElem hlt, hi⟩
        exact join_mem (List.mem_map_of_mem (f := fun kv : Str × Str => kv.1 ++ kv.2) hm) (by simp [hc])
    · refine .inr ?_
      cases hf : u.fragment with
      | none => rw [hf] at hs; cases hs
      | some f =>
        rw [hf] at hs
        simp only [Option.toList_some, List.mem_singleton] at hs
        subst hs
        exact List.mem_cons_of_mem _ hc
  have hp : (u.pathPieces ++ vals ++ u.fragment.toList).mapM parsePiece =
      .ok ((u.pathPieces ++ vals ++ u.fragment.toList).map (fun s => ppOf (runsOf s))) := by
    refine mapM_ok_all ?_
    intro s hs
    rw [parsePiece_eq, if_pos (fun c hc => (hchars s hs c hc).1)]
  have hst : startsWith ['/'] u.text = false := by
    obtain ⟨c, t, e, h1, -⟩ := h.ok.scheme
    have hc : c ≠ '/' := by rintro rfl; revert h1; decide
    unfold AbsUrl.text
    rw [e]
    simp [startsWith, List.isPrefixOf, Ne.symm hc]
  refine ⟨_, _, _, ha, hp, ?_, fun s hs hb => (hchars s hs _ hb).2 rfl, hst⟩
  unfold parse
  rw [if_neg (by rw [hst]; simp), ha]
  simp only [bind, Except.bind]
  rw [hp]
  rfl

theorem plain_query {u : AbsUrl} (h : u.Plain) : ∀ q, u.query = some q → ∀ c ∈ q, Known c := by
  intro q hq c hc
  refine (h.known c ?_).1
  unfold AbsUrl.request
  rw [hq]
  simp [optPart, hc]

/-- **C46**: every loaded plain URL has a cluster whose printed line matches the whole request of the URL. -/
theorem C46_cluster (md5 : Str → Str) (h : Runtime) (mcn : Int) (hm : 2 ≤ mcn) (hist : List (Str × Option Str))
    (hc : NoCollision md5 (accepted hist)) (hh : NoHashClash h (UrlRow hist)) :
    ∃ cs, PatternMakerSt.make h mcn (loadAll md5 hist) = .ok cs ∧
      ∀ (u : AbsUrl) (md : Option Str), (u.text, md) ∈ hist → u.Plain →
        ∃ c ∈ cs, ∃ line, formatPattern c.1 c.2 = [line] ∧ ReMatch line u.request ∧
          ∀ x, md = some x → '\t' :: x ∈ formatCluster h c.1 c.2 ∧ line ++ '\t' :: x ∈ formatInline h c.1 c.2 := by
  obtain ⟨cs, h1, -, h2, -⟩ := C24_partition md5 h mcn hm hist hc hh
  obtain ⟨cs', h1', h3⟩ := C25_uniform md5 h mcn hm hist hc hh
  obtain ⟨cs'', h1'', h4⟩ := C26_regex md5 h mcn hm hist hc hh
  obtain ⟨cs''', h1''', h5⟩ := C34_lines md5 h mcn hm hist hc hh
  rw [h1] at h1' h1'' h1'''
  cases h1'; cases h1''; cases h1'''
  refine ⟨cs, h1, ?_⟩
  intro u md hu hpl
  obtain ⟨m, pieces, pps, a1, a2, a3, a4, -⟩ := plain_parsed hpl
  obtain ⟨c, hcm, hin⟩ := List.mem_flatMap.mp ((h2 m (pps.map (·.piece))).mpr ⟨u.text, md, pps, hu, a3, rfl⟩)
  obtain ⟨p, hpm, e⟩ := List.mem_map.mp hin
  injection e with e1 e2
  obtain ⟨pats, b0, b1, b2⟩ := h3 c hcm
  obtain ⟨d1, d2⟩ := h4 c hcm p hpm u.text md pieces pps hu (by rw [e1]; exact a1) a2 e2.symm
  refine ⟨c, hcm, _, b2, ?_, ?_⟩
  · rw [e1]
    have hpats := b1 p hpm
    refine request_pack hpl.ok a1 (plain_query hpl) (by rw [← hpats, List.length_map, d1]) ?_
    intro x hx
    obtain ⟨i, hi⟩ := List.getElem?_of_mem hx
    rw [List.getElem?_zip_eq_some] at hi
    obtain ⟨i1, i2⟩ := hi
    rw [← hpats, List.getElem?_map] at i1
    cases hpi : p[i]? with
    | none => rw [hpi] at i1; cases i1
    | some kd =>
      obtain ⟨k, d⟩ := kd
      rw [hpi] at i1
      have : x.1 = d.pattern := by simpa using i1.symm
      rw [this]
      exact d2 i k d x.2 hpi i2 (a4 _ (List.mem_of_getElem? i2))
  · intro x hx
    subst hx
    obtain ⟨pats', pms, g1, g2, g3, g4, g5⟩ := h5 c hcm
    have hpp : pats' = pats := by rw [← g1 p hpm, ← b1 p hpm]
    subst hpp
    rw [← g2] at hpm
    obtain ⟨pm, hpm', rfl⟩ := List.mem_map.mp hpm
    have hx : x ∈ pms.flatMap (·.2) := List.mem_flatMap.mpr ⟨pm, hpm', ((g5 pm hpm').2 x).mpr ⟨u.text, pps, hu, by rw [e1]; exact a3, e2.symm⟩⟩
    rw [g3, g4]
    exact ⟨List.mem_cons_of_mem _ (List.mem_map_of_mem (f := fun x => '\t' :: x) hx),
      List.mem_map_of_mem (f := fun x => pack c.1 pats' ++ '\t' :: x) hx⟩

/-- **C46**: every result of `match` for a plain URL, packed into one line, matches the whole request of the URL, if the patterns are ASCII. -/
theorem C46_match (md5 : Str → Str) (hist : List (Str × Option Str)) (u : AbsUrl) (hu : u.Plain)
    (hc : NoClash md5 (u.text :: hist.map (·.1))) (ht : AllTame hist) (he : NoEmptyClass hist) :
    ∃ m pieces rs, analyzeUrl u.text = .ok (m, pieces) ∧ (mloadAll md5 hist).match_ md5 u.text = .ok rs ∧
      ∀ x ∈ rs, (∀ p ∈ x.path, AsciiText p.str) → ReMatch (pack m (x.path.map (·.str))) u.request := by
  obtain ⟨m, pieces, pps, a1, a2, a3, a4, a5⟩ := plain_parsed hu
  obtain ⟨rs, b1, b2⟩ := C16_regex md5 hist u.text m pieces pps a5 a1 a2 hc ht he
  refine ⟨m, pieces, rs, a1, b1, ?_⟩
  intro x hx hap
  obtain ⟨c1, c2⟩ := b2 x hx
  refine request_pack hu.ok a1 (plain_query hu) (by rw [List.length_map, c1]) ?_
  intro y hy
  obtain ⟨i, hi⟩ := List.getElem?_of_mem hy
  rw [List.getElem?_zip_eq_some] at hi
  obtain ⟨i1, i2⟩ := hi
  rw [List.getElem?_map] at i1
  cases hpi : x.path[i]? with
  | none => rw [hpi] at i1; cases i1
  | some p =>
    rw [hpi] at i1
    have : y.1 = p.str := by simpa using i1.symm
    rw [this]
    exact c2 i p y.2 hpi i2 (a4 _ (List.mem_of_getElem? i2)) (hap p (List.mem_of_getElem? hpi))

/-! ### examples -/

/-- A URL. -/
def c46Url (a b : Str) : AbsUrl := ⟨c!"http", c!"example.com", [c!"p", []], a, some (c!"k=" ++ b), some c!"top"⟩

example : (c46Url c!"12.html" c!"ab").text = c!"http://example.com/p//12.html?k=ab#top" ∧
    (c46Url c!"12.html" c!"ab").request = c!"/p/12.html?k=ab#top" := by decide

example : (PatternMakerSt.make codeHash 2 (loadAll id
      [((c46Url c!"12.html" c!"ab").text, none), ((c46Url c!"345.html" c!"cd").text, none)])).map
        (fun cs => cs.flatMap (fun c => formatPattern c.1 c.2)) =
    .ok [c!"/p/[0-9]+[\\.]html[\\?]k=[a-z]{2}#top"] := by decide +kernel

example : (reParse c!"/p/[0-9]+[\\.]html[\\?]k=[a-z]{2}#top").isSome = true := by decide +kernel

/-- A key with an unknown character: the printed line does not match (the hypothesis on the query is needed). -/
example : (PatternMakerSt.make codeHash 2 (loadAll id [(c!"http://h/a?x y=1", none)])).map
        (fun cs => cs.flatMap (fun c => formatPattern c.1 c.2)) = .ok [c!"/a[\\?]x[None]y=1"] := by decide +kernel

end OsUrl
