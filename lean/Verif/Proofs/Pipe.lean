import Verif.Props.C21
import Verif.Props.C36
import Verif.Props.C37

/-! Printed pattern lines as input of pattern-match. -/

namespace OsUrl
open Spec

/-- A printable ASCII character other than the blank. -/
def Graph (c : Char) : Prop := 33 ≤ c.toNat ∧ c.toNat ≤ 126

instance (c : Char) : Decidable (Graph c) := inferInstanceAs (Decidable (_ ∧ _))

theorem sign_graph {c : Char} (h : c ∈ bareSigns ∨ c ∈ escapedSigns) : Graph c := by
  have key : ∀ c ∈ bareSigns ++ escapedSigns, Graph c := by decide
  exact key c (by simpa using h)

theorem known_graph {c : Char} (h : Known c) : Graph c := by
  unfold Known space? at h
  split at h
  · rename_i g; exact ⟨by have := g.1; simp at this; omega, by have := g.2; simp at this; omega⟩
  split at h
  · rename_i g; exact ⟨by have := g.1; simp at this; omega, by have := g.2; simp at this; omega⟩
  split at h
  · rename_i g; exact ⟨by have := g.1; simp at this; omega, by have := g.2; simp at this; omega⟩
  split at h
  · rename_i g; exact sign_graph g
  · cases h

theorem alnum_graph {c : Char} (h : isAlnumC c = true) : Graph c := by
  obtain ⟨s, h, -⟩ := isAlnumC_iff.mp h
  exact known_graph (by unfold Known; rw [h]; rfl)

theorem natStr_graph (n : Nat) : ∀ c ∈ natStr n, Graph c := by
  intro c hc
  have := natStr_digits c hc
  exact alnum_graph (by simp [isAlnumC, this])

theorem decimal_graph (n : Nat) : ∀ c ∈ decimal n, Graph c := natStr_decimal n ▸ natStr_graph n

theorem text_graph {s : Space} (h : s.Valid) : ∀ c ∈ s.text, Graph c := by
  cases s with
  | lower => show ∀ c ∈ ['a', '-', 'z'], Graph c; decide
  | upper => show ∀ c ∈ ['A', '-', 'Z'], Graph c; decide
  | digit => show ∀ c ∈ ['0', '-', '9'], Graph c; decide
  | sign d =>
    have hd := sign_graph h
    intro c hc
    rw [Space.text] at hc
    split at hc
    · simp only [List.mem_singleton] at hc; subst hc; exact hd
    · simp only [List.mem_cons, List.not_mem_nil, or_false] at hc
      rcases hc with rfl | rfl
      · decide
      · exact hd

theorem graph_append {a b : Str} (ha : ∀ c ∈ a, Graph c) (hb : ∀ c ∈ b, Graph c) : ∀ c ∈ a ++ b, Graph c :=
  fun c hc => (List.mem_append.mp hc).elim (ha c) (hb c)

theorem specStr_graph {rule : Str} (h : ∀ c ∈ rule, Graph c) (n : Int) : ∀ c ∈ specStr rule n, Graph c := by
  unfold specStr
  split
  · exact graph_append (graph_append (by decide) h) (by decide)
  split
  · exact graph_append (graph_append (by decide) h) (by decide)
  split
  · exact graph_append (graph_append (graph_append (graph_append (by decide) h) (by decide)) (natStr_graph _)) (by decide)
  · simp

theorem charRuleText_graph (c : Char) : ∀ x ∈ charRuleText c, Graph x := by
  unfold charRuleText
  rw [charRule_eq]
  cases h : space? c with
  | none => show ∀ x ∈ c!"None", Graph x; decide
  | some s => exact text_graph (space_valid h)

theorem run_same {s : Str} : ∀ r ∈ runsOf s, ∀ x ∈ r.2, ∀ y ∈ r.2, spaceD x = spaceD y := by
  have key : ∀ r ∈ runsOf s, ∀ x ∈ r.2, spaceD x = r.1 := by
    induction s with
    | nil => intro r hr; cases hr
    | cons c s ih =>
      intro r hr x hx
      rw [runsOf] at hr
      split at hr
      · simp only [List.mem_singleton] at hr
        subst hr
        simp only [List.mem_singleton] at hx
        rw [hx]
      · rename_i sp w rest e
        rw [e] at ih
        split at hr
        · rename_i hsp
          rcases List.mem_cons.mp hr with rfl | hr
          · rcases List.mem_cons.mp hx with rfl | hx
            · exact hsp
            · exact ih (sp, w) (by simp) x hx
          · exact ih r (by simp [hr]) x hx
        · rcases List.mem_cons.mp hr with rfl | hr
          · simp only [List.mem_singleton] at hx
            rw [hx]
          · exact ih r hr x hx
  intro r hr x hx y hy
  rw [key r hr x hx, key r hr y hy]

theorem normalize_graph {s : Str} {res : Str} (hres : ∀ c ∈ res, Graph c) : ∀ c ∈ normalize s res, Graph c := by
  rw [normalize_eq]
  intro c hc
  obtain ⟨w, hw, hc⟩ := List.mem_flatten.mp hc
  obtain ⟨r, hr, rfl⟩ := List.mem_map.mp hw
  have hsame := run_same r hr
  obtain ⟨sp, w⟩ := r
  unfold normText at hc
  cases w with
  | nil => cases hc
  | cons d w =>
    simp only at hc
    by_cases ha : isAlnumC d = true
    · rw [if_pos ha] at hc
      have := hsame d (by simp) c hc
      refine alnum_graph ?_
      by_cases hca : isAlnumC c = true
      · exact hca
      · exact absurd this (alnum_sign_ne ha (by simpa using hca))
    · rw [if_neg ha] at hc
      unfold normSign at hc
      simp only at hc
      by_cases hd : hasChar d res = true
      · rw [if_pos hd] at hc
        have hdr : d ∈ res := by simpa [hasChar] using hd
        have e := hsame d (by simp) c hc
        rw [spaceD_sign (by simpa using ha)] at e
        have hca : isAlnumC c ≠ true := fun h => alnum_sign_ne h (by simpa using ha) (by rw [← e, spaceD_sign (by simpa using ha)])
        rw [spaceD_sign (by simpa using hca)] at e
        injection e with e
        exact hres c (e ▸ hdr)
      · rw [if_neg hd] at hc
        exact specStr_graph (charRuleText_graph d) _ c hc

theorem gunit_graph {u : GUnit} (h : u.Written) : ∀ c ∈ u.text, Graph c := by
  intro c hc
  have hb : ∀ c ∈ c!"[]{}+", Graph c := by decide
  have hR : ∀ {R : List Space}, WrittenClass R → ∀ c ∈ (R.map Space.text).flatten, Graph c := by
    intro R hR c hc
    obtain ⟨w, hw, hc⟩ := List.mem_flatten.mp hc
    obtain ⟨sp, hsp, rfl⟩ := List.mem_map.mp hw
    exact text_graph (hR.valid sp hsp) c hc
  have hq : ∀ n : Nat, ∀ c ∈ (if n = 1 then [] else '{' :: decimal n ++ ['}'] : Str), Graph c := by
    intro n c hc
    split at hc
    · cases hc
    · simp only [List.mem_cons, List.mem_append, List.cons_append, List.not_mem_nil, or_false] at hc
      rcases hc with rfl | hc | rfl
      · decide
      · exact decimal_graph n c hc
      · decide
  cases u with
  | run sp w =>
    obtain ⟨h1, h3⟩ := h
    unfold GUnit.text runText at hc
    cases w with
    | nil => exact absurd rfl h1
    | cons d w =>
      have hv := space_valid (h3 d (by simp))
      simp only at hc
      split at hc
      · simp only [List.mem_cons, List.mem_append, List.cons_append] at hc
        rcases hc with rfl | hc | rfl | hc
        · decide
        · exact text_graph hv c hc
        · decide
        · exact hq _ c hc
      · exact known_graph (by unfold Known; rw [h3 c hc]; rfl)
  | cls R n =>
    simp only [GUnit.text, List.mem_cons, List.mem_append, List.cons_append] at hc
    rcases hc with rfl | hc | rfl | hc
    · decide
    · exact hR h.1 c hc
    · decide
    · exact hq _ c hc
  | wild R =>
    simp only [GUnit.text, List.mem_cons, List.mem_append, List.cons_append, List.not_mem_nil, or_false] at hc
    rcases hc with rfl | hc | rfl | rfl
    · decide
    · exact hR h c hc
    · decide
    · decide

theorem patText_graph {us : List GUnit} (h : ∀ u ∈ us, u.Written) : ∀ c ∈ patText us, Graph c := by
  intro c hc
  obtain ⟨w, hw, hc⟩ := List.mem_flatten.mp hc
  obtain ⟨u, hu, rfl⟩ := List.mem_map.mp hw
  exact gunit_graph (h u hu) c hc

theorem join_graph {l : List Str} {sep : Str} (hs : ∀ c ∈ sep, Graph c) (h : ∀ x ∈ l, ∀ c ∈ x, Graph c) : ∀ c ∈ join sep l, Graph c := by
  induction l with
  | nil => intro c hc; cases hc
  | cons x l ih =>
    cases l with
    | nil => exact h x (by simp)
    | cons y l =>
      rw [join]
      exact graph_append (graph_append (h x (by simp)) hs) (ih (fun z hz => h z (by simp [hz])))

theorem pack_graph {m : URLMeta} {pats : List Str} (hk : ∀ k ∈ m.queryKeys, ∀ c ∈ k, Graph c) (hp : ∀ p ∈ pats, ∀ c ∈ p, Graph c) :
    ∀ c ∈ pack m pats, Graph c := by
  intro c hc
  unfold pack at hc
  simp only [List.mem_append] at hc
  rcases hc with ((hc | hc) | hc) | hc
  · revert hc; revert c; decide
  · exact join_graph (by decide) (fun x hx => hp x (List.mem_of_mem_take hx)) c hc
  · split at hc
    · simp only [List.mem_append] at hc
      rcases hc with hc | hc
      · revert hc; revert c; decide
      · refine join_graph (by decide) ?_ c hc
        intro x hx d hd
        obtain ⟨kv, hkv, rfl⟩ := List.mem_map.mp hx
        obtain ⟨k, v⟩ := kv
        have h1 := (List.of_mem_zip hkv).1
        have h2 := (List.of_mem_zip hkv).2
        rcases List.mem_append.mp hd with hd | hd
        · exact hk k h1 d hd
        · exact hp v (List.mem_of_mem_take (List.mem_of_mem_drop h2)) d hd
    · cases hc
  · split at hc
    · simp only [List.mem_append] at hc
      rcases hc with hc | hc
      · revert hc; revert c; decide
      · obtain ⟨x, hx, hc⟩ := List.mem_flatten.mp hc
        exact hp x (List.mem_of_mem_drop hx) c hc
    · cases hc

theorem analyzeUrl_keys {u : Str} {m : URLMeta} {row : List Str} (h : analyzeUrl u = .ok (m, row)) : ∀ k ∈ m.queryKeys, ∀ c ∈ k, Graph c := by
  unfold analyzeUrl at h
  obtain ⟨⟨r, q, f⟩, -, h⟩ := bind_ok h
  simp only [unpack] at h
  split at h
  · cases h
  · obtain ⟨⟨keys, vals⟩, -, h⟩ := bind_ok h
    simp only [pure, Except.pure, Except.ok.injEq, Prod.mk.injEq] at h
    rw [← h.1]
    intro k hk
    obtain ⟨k', -, rfl⟩ := List.mem_map.mp hk
    exact normalize_graph (by decide)

section
variable {h : Runtime} {mcn : Int} {hist : List (Str × Option Str)}

/-- What is known of a printed line. -/
structure PrintedOK (hist : List (Str × Option Str)) (r : Str) : Prop where
  graph : ∀ c ∈ r, Graph c
  /-- its units -/
  units : ∃ (m : URLMeta) (uss : List (List GUnit)), r = pack m (uss.map patText) ∧ (∀ us ∈ uss, WrittenPat us) ∧ (NoBackslash hist → ∀ us ∈ uss, ReadablePat us) ∧
    ((∀ us ∈ uss, ReadablePat us) → ∃ ps, parse r = .ok (m, .patterns ps) ∧ ps.map (·.str) = uss.map patText) ∧
    (∀ x, parse r = .ok x → ∀ us ∈ uss, ReadablePat us) ∧ analyzeUrlPatternString r = .ok (m, uss.map patText)
  /-- what is read is as it was printed, with the structure and the fuzzy rules of an accepted URL -/
  parse : ∀ m x, parse r = .ok (m, x) → ∃ ps, x = .patterns ps ∧ r = pack m (ps.map (·.str)) ∧ (∀ p ∈ ps, ∃ us, Generated us ∧ p.str = patText us) ∧
    ∃ r0 ∈ accepted hist, r0.m = m ∧ r0.rules = x.fuzzyRules

theorem PrintedOK.head {r : Str} (h : PrintedOK hist r) : startsWith ['/'] r = true := by
  obtain ⟨m, uss, e, -⟩ := h.units
  rw [e]
  exact pack_head m _

theorem printed_ok (hm : 2 ≤ mcn) (hh : NoHashClash h (UrlRow hist)) {M : Made} (hM : MadeOK h mcn hist M) {C : List Ins}
    {t : Tree NodeData} (hC : ClusterOK h mcn hist M C t) {p : List (Str × NodeData)} (hp : p ∈ t.paths) :
    PrintedOK hist (pack M.m (pathPatterns p)) := by
  obtain ⟨xs, x1, x2, x3, x4, x5⟩ := path_covs hm hh hM hC hp
  obtain ⟨r, hr, u, row, hu, ha, hk, hpps, he, -⟩ := path_url hM hC hp
  have hrow : row = xs.map (·.1) := by
    refine keys_row hk ?_ ?_
    · intro s hs
      obtain ⟨x, hx, rfl⟩ := List.mem_map.mp hs
      exact x1 x hx
    · rw [List.map_map]
      show _ = xs.map (fun x => (pieceOf x.1).piece)
      rw [← x2, ← he]
  obtain ⟨_, hall⟩ := hM.all
  have hw : ∀ us ∈ xs.map (fun x => x.2.2.map (·.1)), WrittenPat us := by
    intro us hus
    obtain ⟨x, hx, rfl⟩ := List.mem_map.mp hus
    exact (x4 x hx).2
  have ht : (xs.map (fun x => x.2.2.map (·.1))).map patText = pathPatterns p := by
    rw [x3, List.map_map]
    apply List.map_congr_left
    intro x hx
    exact (x4 x hx).1.text
  obtain ⟨q1, q2⟩ := parse_printed hm hh hM hC hp hw ht
  refine ⟨?_, ⟨M.m, _, by rw [ht], hw, ?_, fun hr => by rw [ht]; exact q1 hr, fun x e => (q2 x.1 x.2 e).1,
    by rw [ht]; exact read_printed hm hh hM hC hp⟩, ?_⟩
  · refine pack_graph (analyzeUrl_keys ha) ?_
    intro q hq
    rw [x3] at hq
    obtain ⟨x, hx, rfl⟩ := List.mem_map.mp hq
    rw [← (x4 x hx).1.text]
    exact patText_graph (x4 x hx).2.written
  · intro hb us hus
    obtain ⟨x, hx, rfl⟩ := List.mem_map.mp hus
    exact cov_plain (x4 x hx).1 (x5 hb x hx)
  intro m x e1
  obtain ⟨-, rfl, ps, rfl, e2⟩ := q2 m x e1
  refine ⟨ps, rfl, by rw [e2], (printed_generated hm hh hM hC hp e1).2.2.2, r, hM.acc r hr, (hall r hr).1, ?_⟩
  · unfold Rec.rules Parsed.fuzzyRules
    rw [hpps, hrow]
    apply List.ext_getElem?
    intro i
    have e3 := congrArg (·[i]?) (e2.trans x3)
    simp only [List.getElem?_map] at e3 ⊢
    cases hi : xs[i]? with
    | none =>
      rw [hi] at e3
      cases hq : ps[i]? with
      | none => rfl
      | some q => rw [hq] at e3; cases e3
    | some x =>
      rw [hi] at e3
      cases hq : ps[i]? with
      | none => rw [hq] at e3; cases e3
      | some q =>
        rw [hq] at e3
        simp only [Option.map_some, Option.some.injEq] at e3 ⊢
        have hx := List.mem_of_getElem? hi
        obtain ⟨-, hgood, -⟩ := mkMatchPattern_good (parse_patterns_at e1 i q hq)
        rw [cov_rule (x4 x hx).1 hgood e3]
        unfold pieceOf
        rw [runs_unique (runsOf_spec (x1 x hx)) (x4 x hx).1.runs]

/-- The lines printed for the clusters. -/
def printedLines (cs : List (URLMeta × Tree NodeData)) : List Str := cs.flatMap (fun c => formatPattern c.1 c.2)

theorem printed_all (md5 : Str → Str) (hm : 2 ≤ mcn) (hc : NoCollision md5 (accepted hist))
    (hh : NoHashClash h (UrlRow hist)) {cs : List (URLMeta × Tree NodeData)} (hcs : PatternMakerSt.make h mcn (loadAll md5 hist) = .ok cs) :
    ∀ r ∈ printedLines cs, PrintedOK hist r := by
  obtain ⟨Ms, -, h2, h3⟩ := make_all md5 hm hc hh
  rw [hcs] at h2
  cases h2
  intro r hr
  obtain ⟨c, hcm, hr⟩ := List.mem_flatMap.mp hr
  obtain ⟨M, -, hM, C, -, e1, hK⟩ := mem_out h3 hcm
  obtain ⟨x, hx⟩ := List.exists_mem_of_ne_nil _ hK.final.ne
  obtain ⟨q, hq, -⟩ := path_of_row hK hx
  rw [e1] at hr
  rw [(mem_printed hK hq).mp hr]
  exact printed_ok hm hh hM hK hq

/-- Printed lines bring no new digests. -/
theorem printed_noClash {md5 : Str → Str} (hc : NoCollision md5 (accepted hist)) {S : List Str}
    (hS : ∀ s ∈ S, PrintedOK hist s ∨ ∃ md m pps, (s, md) ∈ hist ∧ parse s = .ok (m, .pieces pps)) : NoClash md5 S := by
  have key : ∀ s ∈ S, ∀ m x, parse s = .ok (m, x) → ∃ r ∈ accepted hist, r.m = m ∧ r.rules = x.fuzzyRules := by
    intro s hs m x e
    rcases hS s hs with hp | ⟨md, m', pps, h1, h2⟩
    · obtain ⟨ps, -, -, -, r, hr, h1, h2⟩ := hp.parse m x e
      exact ⟨r, hr, h1, h2⟩
    · rw [e] at h2
      cases h2
      exact ⟨⟨m, pps, md⟩, mem_accepted.mpr ⟨s, h1, e⟩, rfl, rfl⟩
  intro a ha b hb m m' x x' e e' hmd
  obtain ⟨r, hr, rfl, h2⟩ := key a ha m x e
  obtain ⟨r', hr', rfl, h2'⟩ := key b hb m' x' e'
  rw [← h2, ← h2'] at hmd ⊢
  exact hc r hr r' hr' hmd

end

/-! ### bytes -/

/-- UTF-8: texts are recovered from their encoding, and ASCII characters are encoded as themselves. -/
structure StrictUtf8 (env : Env) : Prop extends Utf8 env where
  back : ∀ s, env.decode (env.encode s) = some s
  ascii : ∀ c : Char, c.toNat < 128 → env.encode [c] = [UInt8.ofNat c.toNat]

theorem encode_graph {env : Env} (hu : StrictUtf8 env) {s : Str} (hs : ∀ c ∈ s, Graph c) :
    env.encode s = s.map (fun c => UInt8.ofNat c.toNat) := by
  induction s with
  | nil => exact hu.nil
  | cons c s ih =>
    have := hu.append [c] s
    rw [List.singleton_append] at this
    rw [this, ih (fun d hd => hs d (by simp [hd])), hu.ascii c (by have := (hs c (by simp)).2; omega)]
    rfl

theorem graph_space {c : Char} (h : Graph c) : isSpaceB (UInt8.ofNat c.toNat) = false := by
  have e : (UInt8.ofNat c.toNat).toNat = c.toNat := by
    rw [UInt8.toNat_ofNat']
    exact Nat.mod_eq_of_lt (by have := h.2; omega)
  obtain ⟨h1, h2⟩ := h
  have hne : UInt8.ofNat c.toNat ≠ 32 := by
    intro he
    have := congrArg UInt8.toNat he
    rw [e] at this
    have : c.toNat = 32 := this
    omega
  simp only [isSpaceB, e, Bool.or_eq_false_iff, beq_eq_false_iff_ne, ne_eq, hne, not_false_eq_true, true_and, Bool.and_eq_false_iff,
    decide_eq_false_iff_not]
  right; omega

theorem graph_rstrip {env : Env} (hu : StrictUtf8 env) {s : Str} (hs : ∀ c ∈ s, Graph c) : rstripB (env.encode s ++ [10]) = env.encode s := by
  have hall : ∀ b ∈ (env.encode s).reverse, isSpaceB b = false := by
    intro b hb
    rw [List.mem_reverse, encode_graph hu hs] at hb
    obtain ⟨c, hc, rfl⟩ := List.mem_map.mp hb
    exact graph_space (hs c hc)
  unfold rstripB
  rw [List.reverse_append]
  have h10 : isSpaceB 10 = true := by decide
  simp only [List.reverse_cons, List.reverse_nil, List.nil_append, List.singleton_append, List.dropWhile_cons, h10, if_true]
  cases hr : (env.encode s).reverse with
  | nil => rw [← List.reverse_reverse (env.encode s), hr]; rfl
  | cons b l =>
    rw [List.dropWhile_cons, if_neg (by rw [hall b (by rw [hr]; simp)]; simp), ← hr, List.reverse_reverse]

/-- What `print` writes: the records, each followed by a newline. -/
def printFile (env : Env) (records : List Str) : List Bytes := records.map (fun r => env.encode r ++ [10])

theorem texts_printed {env : Env} (hu : StrictUtf8 env) {hist : List (Str × Option Str)} {records : List Str}
    (hr : ∀ r ∈ records, PrintedOK hist r) : patternTexts env (printFile env records) = records := by
  unfold patternTexts printFile
  rw [List.filterMap_map]
  induction records with
  | nil => rfl
  | cons r rs ih =>
    have hg := (hr r (by simp)).graph
    have hhead : (env.encode r).head? = some 47 := by
      have := (hr r (by simp)).head
      rw [encode_graph hu hg]
      cases r with
      | nil => simp [startsWith] at this
      | cons c r =>
        have hc : c = '/' := by
          simp only [startsWith, List.isPrefixOf, Bool.and_true, beq_iff_eq] at this
          exact this.symm
        subst hc
        rfl
    rw [List.filterMap_cons]
    simp only [Function.comp_apply, graph_rstrip hu hg, hhead, if_true, hu.back]
    rw [ih (fun r' hr' => hr r' (by simp [hr']))]

end OsUrl
