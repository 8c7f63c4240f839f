import Verif.Props.C52
import Verif.Props.C44
import Verif.Props.C41
import Verif.Props.C42
import Verif.Props.C21

/-! # C54: closed form of the output of `pattern-match` -/

namespace OsUrl
open Spec

/-! ### the text a result carries -/

open Classical in
/-- The meta of a result is the last of the texts that are read as its pattern. -/
theorem lastMd_texts (texts : List Str) (m : URLMeta) (path : List MatchPattern) :
    lastMd (((macc (texts.map (fun p => (p, some p)))).filter (fun y => decide (y.m = m ∧ y.ps = path))).map MRec.ins) =
      (texts.filter (fun t => decide (parse t = .ok (m, .patterns path)))).getLast? := by
  refine snoc_ind (P := fun texts => lastMd (((macc (texts.map (fun p => (p, some p)))).filter
      (fun y => decide (y.m = m ∧ y.ps = path))).map MRec.ins) =
      (texts.filter (fun t => decide (parse t = .ok (m, .patterns path)))).getLast?) rfl ?_ texts
  intro texts t ih
  have hsnoc : ∀ (L : List (MIns Str)) x, lastMd (L ++ [x]) = x.2.or (lastMd L) := by
    intro L x; simp [lastMd, List.foldl_append]
  rw [List.map_append, macc_append, List.filter_append, List.map_append, List.filter_append]
  by_cases h : parse t = .ok (m, .patterns path)
  · have e : macc (List.map (fun p => (p, some p)) [t]) = [⟨m, path, some t⟩] := by
      simp [macc, h]
    rw [e]
    simp [h, MRec.ins, hsnoc]
  · have e : (macc (List.map (fun p => (p, some p)) [t])).filter (fun y => decide (y.m = m ∧ y.ps = path)) = [] := by
      rw [List.filter_eq_nil_iff]
      intro y hy hd
      obtain ⟨s, hs, hp⟩ := mem_macc.mp hy
      have hd := of_decide_eq_true hd
      simp only [List.map_cons, List.map_nil, List.mem_singleton, Prod.mk.injEq] at hs
      rw [hs.1, hd.1, hd.2] at hp
      exact h hp
    rw [e]
    simpa [h] using ih

theorem getLast?_filter {α : Type} {p : α → Bool} {l : List α} {x : α} :
    (l.filter p).getLast? = some x ↔ p x = true ∧ ∃ a b, l = a ++ x :: b ∧ ∀ y ∈ b, p y = false := by
  refine snoc_ind (P := fun l => (l.filter p).getLast? = some x ↔ p x = true ∧ ∃ a b, l = a ++ x :: b ∧ ∀ y ∈ b, p y = false) ?_ ?_ l
  · simp
  · intro l y ih
    rw [List.filter_append]
    cases hy : p y with
    | true =>
      rw [show [y].filter p = [y] by simp [hy], List.getLast?_append]
      simp only [List.getLast?_singleton, Option.some_or, Option.some.injEq]
      constructor
      · rintro rfl; exact ⟨hy, l, [], rfl, by simp⟩
      · rintro ⟨hx, a, b, e, hb⟩
        rcases List.eq_nil_or_concat b with rfl | ⟨b', z, rfl⟩
        · simpa using (List.append_inj' e rfl).2
        · rw [List.concat_eq_append] at e hb
          rw [show a ++ x :: (b' ++ [z]) = (a ++ x :: b') ++ [z] by simp] at e
          have hz := (List.append_inj' e rfl).2
          simp only [List.cons.injEq, and_true] at hz
          have := hb z (by simp)
          rw [← hz, hy] at this; cases this
    | false =>
      rw [show [y].filter p = [] by simp [hy], List.append_nil, ih]
      constructor
      · rintro ⟨hx, a, b, rfl, hb⟩
        refine ⟨hx, a, b ++ [y], by simp, ?_⟩
        intro z hz
        rw [List.mem_append, List.mem_singleton] at hz
        rcases hz with hz | rfl
        · exact hb z hz
        · exact hy
      · rintro ⟨hx, a, b, e, hb⟩
        refine ⟨hx, ?_⟩
        rcases List.eq_nil_or_concat b with rfl | ⟨b', z, rfl⟩
        · have := (List.append_inj' e rfl).2
          simp only [List.cons.injEq, and_true] at this
          rw [this, hx] at hy; cases hy
        · rw [List.concat_eq_append] at e hb
          rw [show a ++ x :: (b' ++ [z]) = (a ++ x :: b') ++ [z] by simp] at e
          exact ⟨a, b', (List.append_inj' e rfl).1, fun w hw => hb w (by simp [hw])⟩

/-! ### the closed form -/

/-- The text is read as the pattern with the given structure and piece patterns. -/
def ReadAs (t : Str) (m : URLMeta) (strs : List Str) : Prop :=
  ∃ ps, parse t = .ok (m, .patterns ps) ∧ ps.map (·.str) = strs

/-- `t` is chosen for a URL with the given structure and pieces: it is read as a pattern of the same structure,
every piece pattern stands for its piece, and no later text is read as the same pattern. -/
def Chosen (texts : List Str) (m : URLMeta) (pieces : List Str) (t : Str) (strs : List Str) : Prop :=
  (∃ pre post, texts = pre ++ t :: post ∧ ∀ t' ∈ post, ¬ ReadAs t' m strs) ∧ ReadAs t m strs ∧
  ∃ uss : List (List GUnit), strs = uss.map patText ∧ uss.length = pieces.length ∧
    ∀ (i : Nat) (us : List GUnit) (s : Str), uss[i]? = some us → pieces[i]? = some s →
      Generated us ∧ Matches (i + 1 == m.pathDepth) us s

/-- The piece patterns `strs` are listed before `strs'`: at the first difference they are more special. -/
def FirstSpecial (m : URLMeta) (strs strs' : List Str) : Prop :=
  ∃ (a c d : List Str) (us vs : List GUnit), Generated us ∧ Generated vs ∧
    strs = a ++ patText us :: c ∧ strs' = a ++ patText vs :: d ∧ ListedBefore (a.length + 1 == m.pathDepth) us vs

/-- The piece patterns `strs` are more general than `strs'` at the last difference. -/
def LastGeneral (m : URLMeta) (strs strs' : List Str) : Prop :=
  ∃ (a b c : List Str) (us vs : List GUnit), Generated us ∧ Generated vs ∧
    strs = a ++ patText us :: c ∧ strs' = b ++ patText vs :: c ∧ patText us ≠ patText vs ∧
    MoreGeneral (a.length + 1 == m.pathDepth) us vs

theorem readsAs_path {t t' : Str} {m : URLMeta} {path ps : List MatchPattern} (h : parse t = .ok (m, .patterns path))
    (h' : parse t' = .ok (m, .patterns ps)) (e : ps.map (·.str) = path.map (·.str)) : ps = path := by
  refine ((parse_patterns_eq h h').mpr ?_).2
  rw [parse_patterns_strs h, parse_patterns_strs h', e]

open Classical in
theorem md_last {md5 : Str → Str} {texts : List Str} {url : Str} {m : URLMeta} {pps : List ParsedPiece}
    (h : parse url = .ok (m, .pieces pps)) (hc : NoClash md5 (url :: texts))
    {rs : List (Matched FullStore Str)} (hm : (mloadAll md5 (texts.map (fun p => (p, some p)))).match_ md5 url = .ok rs)
    {x : Matched FullStore Str} (hx : x ∈ rs) (t : Str) :
    x.data.md = some t ↔ ReadAs t m (x.path.map (·.str)) ∧
      ∃ pre post, texts = pre ++ t :: post ∧ ∀ t' ∈ post, ¬ ReadAs t' m (x.path.map (·.str)) := by
  have hc1 : NoClash md5 (url :: (texts.map (fun p => (p, some p))).map (·.1)) := by
    rw [List.map_map]
    simpa [Function.comp_def] using hc
  obtain ⟨r, hr, rm, rp, -, hmd⟩ := match_mem h hc1 hm hx
  obtain ⟨s, hs, hps⟩ := mem_macc.mp hr
  rw [rm, rp] at hps
  have hread : ∀ t', ReadAs t' m (x.path.map (·.str)) ↔ parse t' = .ok (m, .patterns x.path) := by
    intro t'
    constructor
    · rintro ⟨ps, h1, h2⟩
      rw [h1, readsAs_path hps h1 h2]
    · intro h1; exact ⟨_, h1, rfl⟩
  rw [hmd, lastMd_texts, getLast?_filter]
  simp only [hread, decide_eq_true_eq, decide_eq_false_iff_not]

/-- **C54**: what `pattern-match` writes for a line with a URL, in terms of the texts of the pattern files: with `-a`,
all chosen texts, in order; without, the chosen text that is the most special at the last difference from any
other. -/
theorem C54_line (env : Env) (hu : Utf8 env) (pats : List Bytes) (line : Bytes) (url : Str) (m : URLMeta) (pieces : List Str)
    (pps : List ParsedPiece) (hd : env.decode (stripB line) = some url) (hs : startsWith ['/'] url = false)
    (ha : analyzeUrl url = .ok (m, pieces)) (hp : pieces.mapM parsePiece = .ok pps)
    (hc : NoClash env.md5 (url :: patternTexts env pats))
    (hg : AllGen ((patternTexts env pats).map (fun p => (p, some p)))) :
    ∃ sel : List (Str × List Str),
      (∀ t strs, (t, strs) ∈ sel ↔ Chosen (patternTexts env pats) m pieces t strs) ∧
      sel.Pairwise (fun x y => FirstSpecial m x.2 y.2) ∧
      matchLine env (matchLoad env pats) true line =
        (if sel = [] then [78] else tabbed (sel.map (fun x => env.encode x.1))) ++ [9] ++ stripB line ++ [10] ∧
      (sel = [] → matchLine env (matchLoad env pats) false line = [78] ++ [9] ++ stripB line ++ [10]) ∧
      (sel ≠ [] → ∃ x ∈ sel, matchLine env (matchLoad env pats) false line = env.encode x.1 ++ [9] ++ stripB line ++ [10] ∧
        ∀ y ∈ sel, (y = x ∨ LastGeneral m y.2 x.2) ∧ ¬ LastGeneral m x.2 y.2) := by
  have h : parse url = .ok (m, .pieces pps) := by
    simp [parse, hs, ha, hp, bind, Except.bind, pure, Except.pure]
  have hc0 : NoClash env.md5 (patternTexts env pats) := hc.mono (by simp +contextual)
  have hc1 : NoClash env.md5 (url :: ((patternTexts env pats).map (fun p => (p, some p))).map (·.1)) := by
    rw [List.map_map]
    simpa [Function.comp_def] using hc
  obtain ⟨rs, hm, h44⟩ := C44_complete env.md5 _ url m pieces pps hs ha hp hc1 hg
  have hm' : (matchLoad env pats).match_ env.md5 url = .ok rs := by rw [matchLoad_eq]; exact hm
  have htext := fun x hx => result_text (x := x) h hc hm hx
  have hlast := fun x hx t => md_last (x := x) h hc hm hx t
  have hsort := C52_order env.md5 _ url m pps h hc1 hg rs hm
  let f : Matched FullStore Str → Str × List Str := fun x => (x.data.md.getD [], x.path.map (·.str))
  have hf : ∀ x ∈ rs, x.data.md = some (f x).1 := by
    intro x hx
    obtain ⟨t, -, e, -⟩ := htext x hx
    simp [f, e]
  refine ⟨rs.map f, ?_, ?_, ?_, ?_, ?_⟩
  · intro t strs
    constructor
    · intro hmem
      obtain ⟨x, hx, e⟩ := List.mem_map.mp hmem
      have e1 : t = (f x).1 := by rw [e]
      have e2 : strs = x.path.map (·.str) := (congrArg Prod.snd e).symm
      obtain ⟨hr, hl⟩ := (hlast x hx t).mp (by rw [e1]; exact hf x hx)
      refine ⟨by rw [e2]; exact hl, by rw [e2]; exact hr, ?_⟩
      obtain ⟨t', ht', -, hpt⟩ := htext x hx
      obtain ⟨uss, hu1, hu2⟩ : ∃ uss : List (List GUnit), (∀ us ∈ uss, Generated us) ∧ x.path.map (·.str) = uss.map patText := by
        have hgx := hg t' (some t') m x.path (List.mem_map.mpr ⟨t', ht', rfl⟩) hpt
        clear hlast hsort h44 hf
        revert hgx
        generalize x.path = path
        intro hgx
        induction path with
        | nil => exact ⟨[], by simp, rfl⟩
        | cons p path ih =>
          obtain ⟨us, g1, g2⟩ := hgx p (by simp)
          obtain ⟨uss, g3, g4⟩ := ih (fun q hq => hgx q (by simp [hq]))
          refine ⟨us :: uss, ?_, by simp [g2, g4]⟩
          intro us' hus'
          rcases List.mem_cons.mp hus' with rfl | hus'
          · exact g1
          · exact g3 us' hus'
      obtain ⟨-, hl1, hl2⟩ := (h44 uss hu1).mp ⟨x, hx, hu2⟩
      exact ⟨uss, by rw [e2, hu2], hl1, fun i us s h1 h2 => ⟨hu1 us (List.mem_of_getElem? h1), hl2 i us s h1 h2⟩⟩
    · rintro ⟨hl, hr, uss, e, hl1, hl2⟩
      have hgen : ∀ us ∈ uss, Generated us := by
        intro us hus
        obtain ⟨i, hi, rfl⟩ := List.mem_iff_getElem.mp hus
        exact (hl2 i _ _ (List.getElem?_eq_getElem hi) (List.getElem?_eq_getElem (by omega))).1
      obtain ⟨ps, hp1, hp2⟩ := hr
      obtain ⟨pre, post, ht, hpost⟩ := hl
      obtain ⟨x, hx, hxs⟩ := (h44 uss hgen).mpr ⟨⟨t, some t, ps, List.mem_map.mpr ⟨t, by rw [ht]; simp, rfl⟩, hp1, by rw [hp2, e]⟩, hl1,
        fun i us s h1 h2 => (hl2 i us s h1 h2).2⟩
      refine List.mem_map.mpr ⟨x, hx, ?_⟩
      have hxs' : x.path.map (·.str) = strs := by rw [hxs, e]
      have := (hlast x hx t).mpr ⟨⟨ps, hp1, by rw [hp2, hxs']⟩, pre, post, ht, by rw [hxs']; exact hpost⟩
      simp only [f, this, Option.getD_some, hxs']
  · rw [List.pairwise_map]
    exact hsort
  · have ho := outcome_spec hu true pats hc0 (stripB line)
    have : matchLine env (matchLoad env pats) true line =
      (let r := matchResult env (matchLoad env pats) true (stripB line); if r.isEmpty then [78] else r) ++ [9] ++ stripB line ++ [10] := rfl
    rw [this]
    congr 3
    by_cases hne : rs = []
    · subst hne
      rw [ho.nothing.mpr ⟨url, hd, hm'⟩]; simp
    · obtain ⟨ms, ts, a1, a2, a3, -, -⟩ := ho.matched url rs hd hm' hne
      rw [if_pos rfl] at a3
      subst a3
      rw [a1, if_neg (by simpa using hne)]
      congr 1
      rw [List.map_map]
      have : ts = ms.map (fun x => (f x).1) := by
        refine (List.map_inj_right (fun _ _ h => Option.some.inj h)).mp (a2.symm.trans ?_)
        rw [List.map_map]
        exact List.map_congr_left fun x hx => hf x hx
      rw [this, List.map_map]
      rfl
  · intro he
    have hne : rs = [] := by simpa using he
    subst hne
    have ho := outcome_spec hu false pats hc0 (stripB line)
    have : matchLine env (matchLoad env pats) false line =
      (let r := matchResult env (matchLoad env pats) false (stripB line); if r.isEmpty then [78] else r) ++ [9] ++ stripB line ++ [10] := rfl
    rw [this, ho.nothing.mpr ⟨url, hd, hm'⟩]
  · intro he
    have hne : rs ≠ [] := by simpa using he
    obtain ⟨x, hx, t, emd, et, hres, -, hmax⟩ := C42_best env hu pats (stripB line) url m pps hd h hc hg rs hm' hne
    have hfx : (f x).1 = t := Option.some.inj ((hf x hx).symm.trans emd)
    refine ⟨f x, List.mem_map_of_mem hx, ?_, ?_⟩
    · have hne' : env.encode t ≠ [] := by
        intro e0
        obtain ⟨t0, ht0, e1, -⟩ := htext x hx
        have : t0 = t := Option.some.inj (e1.symm.trans emd)
        subst this
        obtain ⟨l0, -, h1, h2⟩ := patternTexts_mem hu ht0
        rw [← h1, e0] at h2
        simp at h2
      have : matchLine env (matchLoad env pats) false line =
        (let r := matchResult env (matchLoad env pats) false (stripB line); if r.isEmpty then [78] else r) ++ [9] ++ stripB line ++ [10] := rfl
      rw [this, hres, hfx]
      simp [hne']
    · intro y hy
      obtain ⟨z, hz, rfl⟩ := List.mem_map.mp hy
      have hlt : ∀ z1 ∈ rs, ∀ z2 ∈ rs, LastGeneral m (f z1).2 (f z2).2 → z1.lt z2 = .ok true := by
        rintro z1 h1 z2 h2 ⟨a, b, c, us, vs, k1, k2, k3, k4, k5, k6⟩
        exact (C41_order env.md5 _ url m pps h hc1 hg rs hm z1 z2 h1 h2 a b c us vs k1 k2 k3 k4 k5).mpr k6
      have hmain : f z = f x ∨ LastGeneral m (f z).2 (f x).2 := by
        rcases hmax z hz with e | e
        · left
          have e1 : (f z).2 = (f x).2 := by simp only [f, e]
          have e2 : (f z).1 = (f x).1 := by
            have := (hlast z hz _).mp (hf z hz)
            rw [e] at this
            have := (hlast x hx _).mpr this
            exact Option.some.inj (this.symm.trans (hf x hx))
          exact Prod.ext e2 e1
        · right; exact e
      refine ⟨hmain, fun hgen => ?_⟩
      have h1 := hlt x hx z hz hgen
      rcases hmain with e | e
      · obtain ⟨a, b, c, us, vs, -, -, k3, k4, k5, -⟩ := hgen
        rw [congrArg Prod.snd e, k3] at k4
        have hl : a.length = b.length := by
          have := congrArg List.length k4
          simp at this
          omega
        have := (List.append_inj k4 hl).2
        simp only [List.cons.injEq, and_true] at this
        exact k5 this
      · have h2 := hlt z hz x hx e
        rw [(C20_strict env.md5 _ url m pps h hc1 rs hm).2.2.1 x hx z hz h1] at h2
        cases h2

/-! ### the order of the closed form is an order -/

theorem first_split_pre {α : Type} {P : α → α → Prop} (hP : ∀ a, ¬ P a a) {pre pre' : List α} {p q p' q' : α} {a b a' b' x y : List α}
    (hx : x = pre ++ p :: a) (hy : y = pre ++ q :: b) (h : P p q) (hx' : y = pre' ++ p' :: a') (hy' : x = pre' ++ q' :: b')
    (h' : P p' q') : pre = pre' := by
  subst hx hy
  induction pre generalizing pre' with
  | nil =>
    cases pre' with
    | nil => rfl
    | cons z pre' =>
      simp only [List.nil_append, List.cons_append, List.cons.injEq] at hx' hy'
      rw [hx'.1, hy'.1] at h
      exact absurd h (hP z)
  | cons z pre ih =>
    cases pre' with
    | nil =>
      simp only [List.nil_append, List.cons_append, List.cons.injEq] at hx' hy'
      rw [← hx'.1, ← hy'.1] at h'
      exact absurd h' (hP z)
    | cons z' pre' =>
      simp only [List.cons_append, List.cons.injEq] at hx' hy'
      rw [ih hy'.2 hx'.2, hx'.1]

theorem generated_one {u : GUnit} (h : u.Valid) : Generated [u] := by
  refine ⟨by simpa using h, ?_, by simp⟩
  intro a x y b e
  have := congrArg List.length e
  simp at this
  omega

theorem gu_text_det {u v : GUnit} (hu : u.Valid) (hv : v.Valid) (e : u.text = v.text) : guUnit u = guUnit v := by
  obtain ⟨p, hp⟩ := generated_loads (generated_one hu) false
  obtain ⟨hs, hg, -⟩ := mkMatchPattern_good hp
  have e1 : p.str = patText [u] := hs
  have e2 : p.str = patText [v] := by rw [e1]; simp [patText, e]
  have a := good_gen hg (generated_one hu).valid (generated_one hu).apart e1
  have b := good_gen hg (generated_one hv).valid (generated_one hv).apart e2
  rw [a] at b
  simpa using b

theorem gu_texts_det {a b : List GUnit} (ha : ∀ u ∈ a, u.Valid) (hb : ∀ u ∈ b, u.Valid)
    (e : a.map GUnit.text = b.map GUnit.text) : a.map guUnit = b.map guUnit := by
  induction a generalizing b with
  | nil => cases b with
    | nil => rfl
    | cons y b => simp at e
  | cons x a ih => cases b with
    | nil => simp at e
    | cons y b =>
      simp only [List.map_cons, List.cons.injEq] at e ⊢
      exact ⟨gu_text_det (ha x (by simp)) (hb y (by simp)) e.1,
        ih (fun u hu => ha u (by simp [hu])) (fun u hu => hb u (by simp [hu])) e.2⟩

theorem listed_pat {p q : MatchPattern} {lp : Bool} (hp : mkMatchPattern p.str lp = .ok p)
    (hq : mkMatchPattern q.str lp = .ok q) {us vs : List GUnit} (gu : Generated us) (gv : Generated vs)
    (e1 : p.str = patText us) (e2 : q.str = patText vs) (h : ListedBefore lp us vs) : PatBefore p q := by
  have c1 := gen_cls hp gu e1
  have c2 := gen_cls hq gv e2
  rcases h with h | ⟨h, a, u, as, b, v, bs, rfl, rfl, ht, hr⟩
  · left
    rw [c1, c2, kindCls_order, kindCls_order]; exact h
  · right
    refine ⟨by rw [c1, c2, h], a.map guUnit, guUnit u, guUnit v, as.map guUnit, bs.map guUnit, ?_, ?_, ?_⟩
    · rw [good_gen (mkMatchPattern_good hp).2.1 gu.valid gu.apart e1, if_neg (by simp)]; simp
    · rw [good_gen (mkMatchPattern_good hq).2.1 gv.valid gv.apart e2, if_neg (by simp),
        gu_texts_det (a := a) (b := b) (fun x hx => gu.valid x (by simp [hx])) (fun x hx => gv.valid x (by simp [hx])) ht]
      simp
    · have hu := gu.valid u (by simp)
      have hv := gv.valid v (by simp)
      rw [gu_order hu, gu_order hv]
      have h1 := rank_le u
      have h2 := rank_le v
      generalize u.rank = x at *
      generalize v.rank = y at *
      match x, y with
      | 0, 0 | 0, 1 | 0, 2 | 1, 0 | 1, 1 | 1, 2 | 2, 0 | 2, 1 | 2, 2 => simp at hr ⊢
      | n + 3, _ => omega
      | _, n + 3 => omega

/-- The order on two texts at the same place is asymmetric, however the texts are read. -/
theorem listed_asymm {lp : Bool} {us vs us' vs' : List GUnit} (g1 : Generated us) (g2 : Generated vs) (g3 : Generated us')
    (g4 : Generated vs') (e1 : patText us = patText vs') (e2 : patText vs = patText us') (h : ListedBefore lp us vs)
    (h' : ListedBefore lp us' vs') : False := by
  obtain ⟨p, hp⟩ := generated_loads g1 lp
  obtain ⟨q, hq⟩ := generated_loads g2 lp
  have sp : p.str = patText us := (mkMatchPattern_good hp).1
  have sq : q.str = patText vs := (mkMatchPattern_good hq).1
  rw [← sp] at hp
  rw [← sq] at hq
  exact (listed_pat hp hq g1 g2 sp sq h).asymm (listed_pat hq hp g3 g4 (sq.trans e2) (sp.trans e1) h')

theorem FirstSpecial.asymm {m : URLMeta} {x y : List Str} (h : FirstSpecial m x y) (h' : FirstSpecial m y x) : False := by
  obtain ⟨a, c, d, us, vs, g1, g2, e1, e2, hl⟩ := h
  obtain ⟨a', c', d', us', vs', g3, g4, e3, e4, hl'⟩ := h'
  let P : Str → Str → Prop := fun s s' => ∃ lp us vs, Generated us ∧ Generated vs ∧ s = patText us ∧ s' = patText vs ∧ ListedBefore lp us vs
  have hP : ∀ s, ¬ P s s := by
    rintro s ⟨lp, us, vs, k1, k2, k3, k4, k5⟩
    exact listed_asymm k1 k2 k1 k2 (k3.symm.trans k4) (k4.symm.trans k3) k5 k5
  have p1 : P (patText us) (patText vs) := ⟨_, us, vs, g1, g2, rfl, rfl, hl⟩
  have p2 : P (patText us') (patText vs') := ⟨_, us', vs', g3, g4, rfl, rfl, hl'⟩
  have hpre := first_split_pre hP e1 e2 p1 e3 e4 p2
  obtain ⟨k1, k2⟩ := first_split hP e1 e2 p1 e3 e4 p2
  subst hpre
  exact listed_asymm g1 g2 g3 g4 k1 k2 hl hl'

/-- **C54**: the list of `C54_line` is determined by its members and its order. -/
theorem C54_unique (m : URLMeta) (sel sel' : List (Str × List Str)) (h : ∀ x, x ∈ sel ↔ x ∈ sel')
    (hs : sel.Pairwise (fun x y => FirstSpecial m x.2 y.2)) (hs' : sel'.Pairwise (fun x y => FirstSpecial m x.2 y.2)) :
    sel = sel' := by
  have nd : ∀ {l : List (Str × List Str)}, l.Pairwise (fun x y => FirstSpecial m x.2 y.2) → l.Nodup := by
    intro l hl
    refine hl.imp ?_
    rintro x y hxy rfl
    exact hxy.asymm hxy
  exact ((List.perm_ext_iff_of_nodup (nd hs) (nd hs')).mpr h).eq_of_pairwise
    (fun a b _ _ h1 h2 => (h1.asymm h2).elim) hs hs'

/-- **C54**: the output is the concatenation of the lines, and a line that cannot be decoded or read gets an `E`. -/
theorem C54_run (env : Env) (allMatched : Bool) (pats lines : List Bytes) :
    matchRun env allMatched pats lines = (lines.map (matchLine env (matchLoad env pats) allMatched)).flatten ∧
    ∀ line, (∀ url, env.decode (stripB line) = some url → ∃ e, parse url = .error e) →
      matchLine env (matchLoad env pats) allMatched line = [69] ++ [9] ++ stripB line ++ [10] := by
  refine ⟨rfl, ?_⟩
  intro line h
  have : matchResult env (matchLoad env pats) allMatched (stripB line) = [69] := by
    unfold matchResult matchTry
    cases hd : env.decode (stripB line) with
    | none => rfl
    | some url =>
      obtain ⟨e, he⟩ := h url hd
      simp [PatternMatcherSt.match_, he, bind, Except.bind]
  simp [matchLine, this]

/-! ### examples -/

/-- Five texts, two of them read alike; three are chosen for the first URL, in the order of their specificity; the
best without `-a`. -/
example :
    let pats := [asciiBytesM c!"/[a-z]+\n", asciiBytesM c!"/ab\n", asciiBytesM c!"/[0-9]+\n", asciiBytesM c!"//ab\n", asciiBytesM c!"/[a-z]{2}\n"]
    let lines := [asciiBytesM c!"http://h/ab\n", asciiBytesM c!"http://h/a/b\n", asciiBytesM c!"http://h/a b\n"]
    matchRun asciiEnvM true pats lines =
      asciiBytesM c!"//ab\t/[a-z]{2}\t/[a-z]+\thttp://h/ab\nN\thttp://h/a/b\nE\thttp://h/a b\n" ∧
    matchRun asciiEnvM false pats lines =
      asciiBytesM c!"//ab\thttp://h/ab\nN\thttp://h/a/b\nE\thttp://h/a b\n" := by
  constructor <;> decide +kernel

/-- Listing goes by the first difference, the best by the last. -/
example :
    let pats := [asciiBytesM c!"/a/[a-z]+\n", asciiBytesM c!"/[a-z]+/b\n"]
    matchRun asciiEnvM true pats [asciiBytesM c!"http://h/a/b"] = asciiBytesM c!"/a/[a-z]+\t/[a-z]+/b\thttp://h/a/b\n" ∧
    matchRun asciiEnvM false pats [asciiBytesM c!"http://h/a/b"] = asciiBytesM c!"/[a-z]+/b\thttp://h/a/b\n" := by
  constructor <;> decide +kernel

end OsUrl
