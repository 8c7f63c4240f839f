import Verif.Proofs.OneSpace
import Verif.Proofs.Witness
import Verif.Props.C07
import Verif.Props.C24

/-! # C32: clusters with the same pattern -/

namespace OsUrl
open Spec

/-- Twenty URLs, the first pieces letter-digit or digit-letter. -/
def hist32 : List (Str × Option Str) :=
  ([c!"a", c!"b", c!"c"].flatMap (fun a => [c!"1", c!"2", c!"3"].map (fun d => c!"http://h/" ++ a ++ d ++ c!"/x")) ++ [c!"http://h/d4/y"] ++
    [c!"a", c!"b", c!"c"].flatMap (fun a => [c!"1", c!"2", c!"3"].map (fun d => c!"http://h/" ++ d ++ a ++ c!"/x")) ++ [c!"http://h/4d/y"]).map (fun u => (u, none))

theorem made32 : (PatternMakerSt.make codeHash 4 (loadAll id hist32)).map (fun cs => cs.map (fun c => formatPattern c.1 c.2)) =
    .ok [[c!"/[0-9a-z]{2}/x"], [c!"/d4/y"], [c!"/[0-9a-z]{2}/x"], [c!"/4d/y"]] := by decide +kernel

/-- **C32** does not hold: two clusters can be printed with the same pattern, though neither md5 nor the hash clash. -/
theorem C32_false : ¬ ∀ (md5 : Str → Str) (h : Runtime) (mcn : Int) (hist : List (Str × Option Str)) (cs : List (URLMeta × Tree NodeData)),
    2 ≤ mcn → NoCollision md5 (accepted hist) → NoHashClash h (UrlRow hist) → PatternMakerSt.make h mcn (loadAll md5 hist) = .ok cs →
    ∀ (i j : Nat) (c c' : URLMeta × Tree NodeData), cs[i]? = some c → cs[j]? = some c' → formatPattern c.1 c.2 = formatPattern c'.1 c'.2 → i = j := by
  intro hall
  have hmade := made32
  cases e : PatternMakerSt.make codeHash 4 (loadAll id hist32) with
  | error x => rw [e] at hmade; cases hmade
  | ok cs =>
    rw [e] at hmade
    have hmade : cs.map (fun c => formatPattern c.1 c.2) = _ := Except.ok.inj hmade
    have e0 := congrArg (·[0]?) hmade
    have e2 := congrArg (·[2]?) hmade
    rw [List.getElem?_map] at e0 e2
    cases h0 : cs[0]? with
    | none => rw [h0] at e0; cases e0
    | some c =>
      cases h2 : cs[2]? with
      | none => rw [h2] at e2; cases e2
      | some c' =>
        rw [h0] at e0
        rw [h2] at e2
        have e0 := Option.some.inj e0
        have e2 := Option.some.inj e2
        exact absurd (hall id codeHash 4 hist32 cs (by decide) (id_ok _) (codeHash_ok _) e 0 2 c c' h0 h2 (e0.trans e2.symm)) (by decide)

/-- **C32**, what the same pattern tells: the same structure, and at every place the pieces use the same character spaces. -/
theorem C32_structure (md5 : Str → Str) (h : Runtime) (mcn : Int) (hm : 2 ≤ mcn) (hist : List (Str × Option Str))
    (hc : NoCollision md5 (accepted hist)) (hh : NoHashClash h (UrlRow hist)) :
    ∃ cs, PatternMakerSt.make h mcn (loadAll md5 hist) = .ok cs ∧
      ∀ c ∈ cs, ∀ c' ∈ cs, formatPattern c.1 c.2 = formatPattern c'.1 c'.2 → c.1 = c'.1 ∧
        ∀ p ∈ c.2.paths, ∀ p' ∈ c'.2.paths, ∀ (pieces : List Str) (pps : List ParsedPiece) (pieces' : List Str) (pps' : List ParsedPiece), pieces.mapM parsePiece = .ok pps → pps.map (·.piece) = p.map (·.1) →
          pieces'.mapM parsePiece = .ok pps' → pps'.map (·.piece) = p'.map (·.1) → pieces.length = pieces'.length ∧
          ∀ (i : Nat) (s s' : Str), pieces[i]? = some s → pieces'[i]? = some s' →
            ∀ sp : Space, (∃ x ∈ s, space? x = some sp) ↔ ∃ x ∈ s', space? x = some sp := by
  obtain ⟨Ms, h1, h2, h3⟩ := make_all md5 hm hc hh
  refine ⟨_, h2, ?_⟩
  intro c hcm c' hcm' e
  obtain ⟨M, hM, hMok, C, hC, e1, hK⟩ := mem_out h3 hcm
  obtain ⟨M', hM', hMok', C', hC', e1', hK'⟩ := mem_out h3 hcm'
  rw [e1, e1'] at e ⊢
  constructor
  · obtain ⟨x, hx⟩ := List.exists_mem_of_ne_nil _ hK.final.ne
    obtain ⟨x', hx'⟩ := List.exists_mem_of_ne_nil _ hK'.final.ne
    obtain ⟨p, hp, -⟩ := path_of_row hK hx
    obtain ⟨p', hp', -⟩ := path_of_row hK' hx'
    exact (same_printed hm hh hMok hMok' hK hK' e hp hp').1
  · intro p hp p' hp' pieces pps pieces' pps' hpp he hpp' he'
    obtain ⟨hk, rfl⟩ := parsePieces_ok hpp
    obtain ⟨hk', rfl⟩ := parsePieces_ok hpp'
    have := same_spaces hm hh hMok hMok' hK hK' hp hp' (same_printed hm hh hMok hMok' hK hK' e hp hp').2 (row := pieces) (row' := pieces') hk
      (by rw [← he]; simp [pieceOf, Function.comp_def]) hk' (by rw [← he']; simp [pieceOf, Function.comp_def])
    refine ⟨by simpa using congrArg List.length this, ?_⟩
    intro i s s' hs hs'
    have e3 := congrArg (·[i]?) this
    simp only [List.getElem?_map, hs, hs', Option.map_some, Option.some.injEq] at e3
    exact (C07_fuzzy_rule s s' _ _ (parse_runs (runsOf_spec (hk s (List.mem_of_getElem? hs)))) (parse_runs (runsOf_spec (hk' s' (List.mem_of_getElem? hs'))))).mp e3

theorem pairwise_eq {α : Type} {R : α → α → Prop} {l : List α} (h : l.Pairwise R) {a b : α} (ha : a ∈ l) (hb : b ∈ l) (h1 : ¬ R a b) (h2 : ¬ R b a) :
    a = b := by
  induction l with
  | nil => cases ha
  | cons x l ih =>
    rw [List.pairwise_cons] at h
    rcases List.mem_cons.mp ha with ea | ha'
    · rcases List.mem_cons.mp hb with eb | hb'
      · rw [ea, eb]
      · rw [ea] at h1; exact absurd (h.1 b hb') h1
    · rcases List.mem_cons.mp hb with eb | hb'
      · rw [eb] at h2; exact absurd (h.1 a ha') h2
      · exact ih h.2 ha' hb'

theorem flatMap_index {α β : Type} {f : α → List β} {l : List α} (h : (l.flatMap f).Nodup) {i j : Nat} {a b : α} (hi : l[i]? = some a) (hj : l[j]? = some b)
    {x : β} (hx : x ∈ f a) (hx' : x ∈ f b) : i = j := by
  rw [List.Nodup, List.pairwise_flatMap] at h
  have hp := List.pairwise_iff_getElem.mp h.2
  obtain ⟨hi1, rfl⟩ := List.getElem?_eq_some_iff.mp hi
  obtain ⟨hj1, rfl⟩ := List.getElem?_eq_some_iff.mp hj
  rcases Nat.lt_trichotomy i j with hlt | rfl | hlt
  · exact absurd rfl (hp i j hi1 hj1 hlt x hx x hx')
  · rfl
  · exact absurd rfl (hp j i hj1 hi1 hlt x hx' x hx)

theorem made_same (md5 : Str → Str) {hist : List (Str × Option Str)} {Ms : List Made}
    (hg : Ms.map (·.g) = (groupBy (Rec.sid md5) (accepted hist)).map (·.2)) {M M' : Made} (hM : M ∈ Ms) (hM' : M' ∈ Ms) {r r' : Rec}
    (hr : r ∈ M.g) (hr' : r' ∈ M'.g) (e : r.sid md5 = r'.sid md5) : M = M' := by
  have hd : Ms.Pairwise (fun M M' => ∀ r ∈ M.g, ∀ r' ∈ M'.g, r.sid md5 ≠ r'.sid md5) := by
    have h1 : (Ms.map (·.g)).Pairwise (fun g g' : List Rec => ∀ r ∈ g, ∀ r' ∈ g', r.sid md5 ≠ r'.sid md5) := by
      rw [hg, groupBy_eq, List.map_map, List.pairwise_map]
      refine (nodup_uniq _).imp ?_
      intro k k' hk r hr r' hr'
      simp only [Function.comp_apply] at hr hr'
      have e1 := of_decide_eq_true (List.mem_filter.mp hr).2
      have e2 := of_decide_eq_true (List.mem_filter.mp hr').2
      rw [e1, e2]; exact hk
    rwa [List.pairwise_map] at h1
  exact pairwise_eq hd hM hM' (fun h => h r hr r' hr' e) (fun h => h r' hr' r hr e.symm)

/-- **C32** for URLs of one character space per piece: a cluster that contains such a URL shares its pattern with no other cluster.
(Missing: it is false in general, `C32_false`.) -/
theorem C32_one_space_partial (md5 : Str → Str) (h : Runtime) (mcn : Int) (hm : 2 ≤ mcn) (hist : List (Str × Option Str))
    (hc : NoCollision md5 (accepted hist)) (hh : NoHashClash h (UrlRow hist)) :
    ∃ cs, PatternMakerSt.make h mcn (loadAll md5 hist) = .ok cs ∧
      ∀ (i j : Nat) (c c' : URLMeta × Tree NodeData), cs[i]? = some c → cs[j]? = some c' → formatPattern c.1 c.2 = formatPattern c'.1 c'.2 →
        ∀ p ∈ c.2.paths, ∀ (pieces : List Str) (pps : List ParsedPiece), pieces.mapM parsePiece = .ok pps → pps.map (·.piece) = p.map (·.1) →
          (∀ s ∈ pieces, ∃ sp : Space, ∀ x ∈ s, space? x = some sp) → i = j := by
  obtain ⟨Ms, h1, h2, h3⟩ := make_all md5 hm hc hh
  refine ⟨_, h2, ?_⟩
  intro i j c c' hi hj e p hp pieces pps hpp he hone
  obtain ⟨M, hM, hMok, C, hC, e1, hK⟩ := mem_out h3 (List.mem_of_getElem? hi)
  obtain ⟨M', hM', hMok', C', hC', e1', hK'⟩ := mem_out h3 (List.mem_of_getElem? hj)
  rw [e1, e1'] at e
  obtain ⟨x', hx'⟩ := List.exists_mem_of_ne_nil _ hK'.final.ne
  obtain ⟨p', hp', -⟩ := path_of_row hK' hx'
  obtain ⟨hm1, hm2⟩ := same_printed hm hh hMok hMok' hK hK' e hp hp'
  obtain ⟨r, hr, u, row, hu, ha, hk, b1, b2, -⟩ := path_url hMok hK hp
  obtain ⟨r', hr', u', row', hu', ha', hk', b1', b2', -⟩ := path_url hMok' hK' hp'
  have hsp := same_spaces hm hh hMok hMok' hK hK' hp hp' hm2 hk b2 hk' b2'
  obtain ⟨_, hall⟩ := hMok.all
  obtain ⟨_, hall'⟩ := hMok'.all
  have hsid : r.sid md5 = r'.sid md5 := by
    rw [sid_eq_iff hc (hMok.acc r hr) (hMok'.acc r' hr')]
    refine ⟨by rw [(hall r hr).1, (hall' r' hr').1, hm1], ?_⟩
    unfold Rec.rules
    rw [b1, b1', List.map_map, List.map_map]
    exact hsp
  have hMM := made_same md5 h1 hM hM' hr hr' hsid
  subst hMM
  obtain ⟨hkp, rfl⟩ := parsePieces_ok hpp
  have hrow : row = pieces := by
    rw [b2, List.map_map] at he
    have key : ∀ (l l' : List Str), (∀ s ∈ l, ∀ c ∈ s, Known c) → (∀ s ∈ l', ∀ c ∈ s, Known c) →
        l.map ((fun x : ParsedPiece => x.piece) ∘ fun s => ppOf (runsOf s)) = l'.map (fun s => (pieceOf s).piece) → l = l' := by
      intro l
      induction l with
      | nil => intro l' _ _ e; cases l' with
        | nil => rfl
        | cons _ _ => simp at e
      | cons s l ih =>
        intro l' hl hl' e
        cases l' with
        | nil => simp at e
        | cons s' l' =>
          rw [List.map_cons, List.map_cons, List.cons.injEq] at e
          rw [ih l' (fun s hs => hl s (by simp [hs])) (fun s hs => hl' s (by simp [hs])) e.2,
            pieceOf_inj (runsOf_spec (hl s (by simp))) (runsOf_spec (hl' s' (by simp))) e.1]
    exact (key pieces row hkp hk he).symm
  subst hrow
  have hR := one_rows hh hMok hr hk b1 hone
  obtain ⟨q, hq, e4⟩ := one_close hm hh hMok hR hK hK' hp hp' hm2
  refine flatMap_index (made_nodup md5 h1 h3) hi hj (x := (M.m, q.map (·.1))) ?_ ?_
  · unfold clusterRows
    rw [e1]
    exact List.mem_map.mpr ⟨q, hq, rfl⟩
  · unfold clusterRows
    rw [e1', e4]
    exact List.mem_map.mpr ⟨p', hp', rfl⟩

/-- URLs of one space per piece: two clusters, two patterns. -/
example : (PatternMakerSt.make codeHash 2 (loadAll id ([c!"http://h/a/1", c!"http://h/b/1", c!"http://h/b/", c!"http://h/c/", c!"http://h/12/x"].map (fun u => (u, none))))).map
    (fun cs => cs.map (fun c => formatPattern c.1 c.2)) = .ok [[c!"/[a-z]/1"], [c!"/[a-z]/"], [c!"/12/x"]] := by decide +kernel
example : OneSpace c!"12" := ⟨.digit, by decide⟩
example : ¬ OneSpace c!"a1" := by
  rintro ⟨sp, h⟩
  have h1 := h 'a' (by decide)
  have h2 := h '1' (by decide)
  exact absurd (h1.trans h2.symm) (by decide)

end OsUrl
