import Verif.Proofs.RankPass
import Verif.Proofs.OneSpace
import Verif.Props.C78

/-! # C79: for pieces of one character class the number of rounds does not depend on the number of URLs -/

namespace OsUrl
open Spec

theorem rounds_group {h : Runtime} {mcn : Int} (hm : 2 ≤ mcn) {hist : List (Str × Option Str)} (hh : NoHashClash h (UrlRow hist)) {g : List Rec}
    {m : URLMeta} {rules : List Str} (hne : g ≠ []) (hg : ∀ r ∈ g, r ∈ accepted hist) (hall : ∀ r ∈ g, r.m = m ∧ r.rules = rules)
    (hR : FlatRows m.depth (norm (insOf g))) :
    ∃ ps, MakerSt.passes h mcn ⟨m, growTree m.depth (insOf g)⟩ = .ok ps ∧ Rounds (uniq (g.map Rec.keys)).length 0 (2 * m.depth + 1) ps := by
  obtain ⟨r0, hr0⟩ := List.exists_mem_of_ne_nil _ hne
  obtain ⟨n, hn⟩ : ∃ n, m.depth = n + 1 := ⟨m.depth - 1, by
    have := (accepted_depth (hg r0 hr0)).2; rw [(hall r0 hr0).1] at this; omega⟩
  obtain ⟨hok, hrow⟩ := rows_ok hh hne hg hall
  have hlen : ∀ i ∈ insOf g, i.path.length = m.depth := insOf_length (fun r hr => by rw [(accepted_depth (hg r hr)).1, (hall r hr).1])
  have hN : Normal m.depth (norm (insOf g)) := norm_normal hlen
  have hins : insOf g ≠ [] := by
    intro e
    have := insOf_keys g
    rw [e] at this
    have h2 := congrArg List.length this
    simp at h2
    exact hne (List.eq_nil_of_length_eq_zero h2.symm)
  have hne' := norm_ne_nil hins
  have hlp : (growTree m.depth (insOf g)).paths.length = (norm (insOf g)).length := by
    rw [hn] at hlen hN ⊢
    rw [← growTree_norm n (insOf g) hlen, paths_growTree hne', growPaths_count hN hne']
  have hs := hashSep_of (kw := false) hm hh hok hrow
  rw [hn] at hN hok hs hR
  obtain ⟨ps, h1, h2⟩ := passes_rounds h (top_level_ok (h := h) hm m false (n + 1)) hm hn (RankBd mcn m false (n + 1))
    (fun B L g x0 hb hx0 hp hlt => rankBd_step hm hb hp hx0 hlt)
    ((norm (insOf g)).length + 1) 0 (2 * (n + 1) + 1) (norm (insOf g)) hN hok hne'
    (by omega) (by rw [norm_bare]; exact hs) (by rw [norm_bare]; exact rankBd_top hR)
  refine ⟨ps, ?_, ?_⟩
  · unfold MakerSt.passes
    simp only
    rw [hlp, hn, ← h1]
    rw [hn] at hlen
    rw [growTree_norm n (insOf g) hlen]
  · have : (norm (insOf g)).length = (uniq (g.map Rec.keys)).length := by
      rw [← List.length_map (f := Ins.keys), norm_keys, insOf_keys]
    rw [hn]
    rwa [this] at h2

/-- The calls of the sub-makers with a URL of single classes. -/
theorem rounds_all (md5 : Str → Str) {h : Runtime} {mcn : Int} (hm : 2 ≤ mcn) {hist : List (Str × Option Str)}
    (hc : NoCollision md5 (accepted hist)) (hh : NoHashClash h (UrlRow hist)) {kg : Str × List Rec} (hkg : kg ∈ groupBy (Rec.sid md5) (accepted hist))
    {u : Str} {md : Option Str} {m : URLMeta} {row : List Str} (hu : (u, md) ∈ ofStruct md5 kg.1 hist) (ha : analyzeUrl u = .ok (m, row))
    (hone : ∀ s ∈ row, OneSpace s) :
    ∃ ps, (makerOf kg.2).passes h mcn = .ok ps ∧ Rounds (different (ofStruct md5 kg.1 hist)).length 0 (2 * row.length + 1) ps := by
  obtain ⟨k, g⟩ := kg
  simp only at hu ⊢
  have hne := groupBy_ne_nil hkg
  obtain ⟨-, hgf⟩ := mem_groupBy hkg
  have hg : ∀ r ∈ g, r ∈ accepted hist := fun r hr => by rw [hgf] at hr; exact (List.mem_filter.mp hr).1
  have hsid : ∀ r ∈ g, r.sid md5 = k := fun r hr => by
    rw [hgf] at hr; exact of_decide_eq_true (List.mem_filter.mp hr).2
  have hdiff : different (ofStruct md5 k hist) = uniq (g.map (fun r => (r.m, r.keys))) := by
    rw [different, accepted_read, accepted_ofStruct, ← hgf, firsts_eq_uniq]
  -- the URL is one of the records
  obtain ⟨r1, hr1, hpp, hkn⟩ : ∃ r1 ∈ g, r1.pps = row.map pieceOf ∧ ∀ s ∈ row, ∀ c ∈ s, Known c := by
    have hst := (List.mem_filter.mp hu).2
    have hst : structOf md5 u = some k := of_decide_eq_true hst
    cases hp : parse u with
    | error e => unfold structOf at hst; rw [hp] at hst; cases hst
    | ok r =>
      obtain ⟨m', p⟩ := r
      cases p with
      | patterns ps => unfold structOf at hst; rw [hp] at hst; cases hst
      | pieces pps =>
        obtain ⟨row', ha', hmp⟩ := parse_pieces hp
        rw [ha] at ha'
        injection ha' with ha'
        injection ha' with e1 e2
        subst e1; subst e2
        obtain ⟨hk, e2⟩ := parsePieces_ok hmp
        refine ⟨⟨m, pps, md⟩, ?_, e2, hk⟩
        rw [hgf, ← accepted_ofStruct]
        exact mem_accepted.mpr ⟨u, hu, hp⟩
  obtain ⟨r, g', rfl⟩ := List.exists_cons_of_ne_nil hne
  have hall : ∀ r' ∈ r :: g', r'.m = r.m ∧ r'.rules = r.rules := fun r' hr' =>
    (sid_eq_iff hc (hg r' hr') (hg r (by simp))).mp ((hsid r' hr').trans (hsid r (by simp)).symm)
  have hdep : r.m.depth = row.length := by
    have := (accepted_depth (hg r1 hr1)).1
    rw [(hall r1 hr1).1, hpp, List.length_map] at this
    omega
  obtain ⟨ps, h1, h2⟩ := rounds_group hm hh hne hg hall (one_rows_of hh hne hg hall hr1 hkn hpp hone)
  refine ⟨ps, h1, ?_⟩
  rw [hdiff, different_group (fun r' hr' => (hall r' hr').1), ← hdep]
  exact h2

/-- **C79**: let a structure contain a URL each of whose `n` pieces has one character class.  However many URLs with this structure were
loaded: no more than `2n + 2` generators `cluster` run inside each other, and the calls of `process` see no URL more often than this on
average. -/
theorem C79_rounds (md5 : Str → Str) (h : Runtime) (mcn : Int) (hm : 2 ≤ mcn) (hist : List (Str × Option Str))
    (hc : NoCollision md5 (accepted hist)) (hh : NoHashClash h (UrlRow hist)) :
    ∃ rs, PatternMakerSt.passes h mcn (loadAll md5 hist) = .ok rs ∧ rs.length = (structs md5 hist).length ∧
      ∀ (i : Nat) (s : Str) (m : URLMeta) (ps : List Pass), (structs md5 hist)[i]? = some s → rs[i]? = some (m, ps) →
        ∀ (u : Str) (md : Option Str) (m' : URLMeta) (pieces : List Str), (u, md) ∈ ofStruct md5 s hist → analyzeUrl u = .ok (m', pieces) →
          (∀ piece ∈ pieces, ∃ sp : Space, ∀ c ∈ piece, space? c = some sp) →
          (∀ p ∈ ps, p.depth ≤ 2 * pieces.length + 1) ∧
          (ps.map (fun p => p.before.paths.length)).sum ≤ (different (ofStruct md5 s hist)).length * (2 * pieces.length + 2) := by
  obtain ⟨rs, h1, h2, h3⟩ := passes_all md5 hm hc hh
  refine ⟨_, h1, by rw [← h2, List.length_map, List.length_map], ?_⟩
  intro i s m ps hs hp u md m' pieces hu ha hone
  -- the group of the structure
  rw [structs_eq] at hs
  rw [List.getElem?_map] at hs
  cases hk : (groupBy (Rec.sid md5) (accepted hist))[i]? with
  | none => rw [hk] at hs; cases hs
  | some kg =>
    rw [hk] at hs
    simp only [Option.map_some, Option.some.injEq] at hs
    subst hs
    obtain ⟨ps', h4, h5⟩ := rounds_all md5 hm hc hh (List.mem_of_getElem? hk) hu ha hone
    have he : ps = ps' := by
      have hst : (loadAll md5 hist)[i]? = some (kg.1, makerOf kg.2) := by
        rw [loadAll_eq md5 hist hc, List.getElem?_map, hk]; rfl
      have key : ∀ (st : PatternMakerSt) (rs : List (URLMeta × List Pass)) (i : Nat) (s : Str) (mk : MakerSt), PatternMakerSt.passes h mcn st = .ok rs →
          st[i]? = some (s, mk) → rs[i]? = some (m, ps) → mk.passes h mcn = .ok ps := by
        intro st
        unfold PatternMakerSt.passes
        induction st with
        | nil => intro rs i s mk _ h; simp at h
        | cons kv st ih =>
          intro rs i s mk hr h6 h7
          rw [List.mapM_cons] at hr
          simp only [bind, Except.bind, pure, Except.pure] at hr ih
          cases hp : kv.2.passes h mcn with
          | error e => rw [hp] at hr; cases hr
          | ok ps0 =>
            rw [hp] at hr
            simp only at hr
            generalize hx : List.mapM (m := Except PyErr) _ st = x at hr
            cases x with
            | error e => cases hr
            | ok rs' =>
              simp only at hr
              injection hr with hr
              subst hr
              cases i with
              | zero =>
                simp only [List.getElem?_cons_zero, Option.some.injEq] at h6 h7
                injection h7 with _ h8
                subst h8; subst h6; exact hp
              | succ i =>
                simp only [List.getElem?_cons_succ] at h6 h7
                exact ih rs' i s mk hx h6 h7
      have := key _ _ i _ _ h1 hst hp
      rw [h4] at this
      injection this with this
      exact this.symm
    subst he
    exact ⟨fun p hp => by simpa using h5.depth p hp, h5.work⟩

/-- **C79**: with room for `2n + 2` generators there is no `RecursionError` for such a structure, and the clusters are the same. -/
theorem C79_nesting (md5 : Str → Str) (h : Runtime) (mcn : Int) (hm : 2 ≤ mcn) (hist : List (Str × Option Str))
    (hc : NoCollision md5 (accepted hist)) (hh : NoHashClash h (UrlRow hist)) :
    ∀ (s : Str) (mk : MakerSt), (s, mk) ∈ loadAll md5 hist →
      ∀ (u : Str) (md : Option Str) (m' : URLMeta) (pieces : List Str), (u, md) ∈ ofStruct md5 s hist → analyzeUrl u = .ok (m', pieces) →
        (∀ piece ∈ pieces, ∃ sp : Space, ∀ c ∈ piece, space? c = some sp) →
        ∃ cs, mk.make h mcn = .ok cs ∧ ∀ room, 2 * pieces.length + 2 ≤ room →
          clusterWith (clusterNest h 1) h mcn mk.urlMeta false room mk.tree = .ok cs := by
  intro s mk hk u md m' pieces hu ha hone
  rw [loadAll_eq md5 hist hc] at hk
  obtain ⟨kg, hkg, e⟩ := List.mem_map.mp hk
  injection e with e1 e2
  subst e1; subst e2
  obtain ⟨ps, h4, h5⟩ := rounds_all md5 hm hc hh hkg hu ha hone
  have e : (makerOf kg.2).make h mcn = ((makerOf kg.2).passes h mcn).map (fun ps => (ps.filter (fun p => !p.split)).map Pass.after) :=
    passes_erase h _ 0 _
  rw [h4] at e
  refine ⟨_, e, ?_⟩
  intro room hroom
  rw [passes_erase h _ 0, passes_fuel h _ _ 0 _ ps h4 (fun p hp => by have := h5.depth p hp; omega)]
  rfl

/-- Eight URLs with four pieces each. -/
def loads79 : List (Str × Option Str) := [c!"http://h/ab/aaa/aa/c", c!"http://h/b/ab/ab/a", c!"http://h/a/c/b/a", c!"http://h/aaa/bb/a/aa",
  c!"http://h/bb/ab/ab/c", c!"http://h/abc/aaa/bb/aa", c!"http://h/bb/aa/bb/bb", c!"http://h/aa/bb/bb/abc"].map (fun u => (u, none))

/-- Four rounds: depth, whether it was split and number of URLs of the calls. -/
example : (PatternMakerSt.passes codeHash 3 (loadAll id loads79)).map (fun rs => rs.map (fun r => r.2.map (fun p =>
      (p.depth, p.split, p.before.paths.length)))) =
    .ok [[(0, true, 8), (1, true, 6), (2, false, 1), (2, true, 4), (3, false, 1), (3, false, 3), (2, false, 1), (1, false, 1), (1, false, 1)]] := by
  decide +kernel
/-- The patterns of the URL `/b/ab/ab/a` in the four rounds. -/
example : (PatternMakerSt.passes codeHash 3 (loadAll id loads79)).map (fun rs => (rs.flatMap (fun r => r.2)).flatMap (fun p =>
      (p.after.paths.filter (fun q => decide (q.map (·.1) = [c!"b", c!"ab", c!"ab", c!"a"]))).map (fun q => q.map (fun kn => kn.2.pattern)))) =
    .ok [[c!"[a-z]+", c!"[a-z]+", c!"[a-z]{2}", c!"[a-z]+"], [c!"[a-z]+", c!"[a-z]{2}", c!"[a-z]{2}", c!"[a-z]+"],
      [c!"b", c!"ab", c!"ab", c!"a"], [c!"b", c!"ab", c!"ab", c!"a"]] := by decide +kernel
/-- All are of one structure, and all pieces have one class. -/
example : (structs id loads79).length = 1 := by decide +kernel
example : analyzeUrl c!"http://h/b/ab/ab/a" = .ok (⟨4, [], false⟩, [c!"b", c!"ab", c!"ab", c!"a"]) ∧
    ∀ piece ∈ [c!"b", c!"ab", c!"ab", c!"a"], ∃ sp : Space, ∀ c ∈ piece, space? c = some sp :=
  ⟨by decide +kernel, fun piece hp => ⟨.lower, by revert piece; decide⟩⟩
example : NoCollision id (accepted loads79) ∧ NoHashClash codeHash (UrlRow loads79) := ⟨id_ok _, codeHash_ok _⟩

end OsUrl
