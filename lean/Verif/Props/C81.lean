import Verif.Proofs.Narrow
import Verif.Proofs.PatRe
import Verif.Spec.Narrows
import Verif.Props.C56
import Verif.Props.C79

/-! # C81: do the patterns become narrower from round to round? -/

namespace OsUrl
open Spec

/-- The calls at a place of the list are those of the sub-maker at this place. -/
theorem passes_at {h : Runtime} {mcn : Int} {m : URLMeta} {ps : List Pass} : ∀ (st : PatternMakerSt) (rs : List (URLMeta × List Pass)) (i : Nat) (s : Str)
    (mk : MakerSt), PatternMakerSt.passes h mcn st = .ok rs → st[i]? = some (s, mk) → rs[i]? = some (m, ps) → mk.passes h mcn = .ok ps := by
  intro st rs i s mk hr h6 h7
  unfold PatternMakerSt.passes at hr
  induction st generalizing rs i with
  | nil => simp at h6
  | cons kv st ih =>
    rw [List.mapM_cons] at hr
    simp only [bind, Except.bind, pure, Except.pure] at hr ih
    cases hp : kv.2.passes h mcn with
    | error e => rw [hp] at hr; cases hr
    | ok ps0 =>
      rw [hp] at hr
      simp only at hr
      generalize hx : List.mapM (m := Except PyErr) _ st = x at hr
      cases x with
      | error e => cases hr
      | ok rs' =>
        simp only at hr
        injection hr with hr
        subst hr
        cases i with
        | zero =>
          simp only [List.getElem?_cons_zero, Option.some.injEq] at h6 h7
          injection h7 with _ h8
          subst h8; subst h6; exact hp
        | succ i =>
          simp only [List.getElem?_cons_succ] at h6 h7
          exact ih rs' i hx h6 h7

theorem narrow_group {h : Runtime} {mcn : Int} (hm : 2 ≤ mcn) {hist : List (Str × Option Str)} (hh : NoHashClash h (UrlRow hist)) {g : List Rec}
    {m : URLMeta} {rules : List Str} (hne : g ≠ []) (hg : ∀ r ∈ g, r ∈ accepted hist) (hall : ∀ r ∈ g, r.m = m ∧ r.rules = rules)
    (hR : FlatRows m.depth (norm (insOf g))) {ps : List Pass} (hps : MakerSt.passes h mcn ⟨m, growTree m.depth (insOf g)⟩ = .ok ps) :
    NarrowOK (topF mcn m false m.depth) m.depth 0 (norm (insOf g)) ps := by
  obtain ⟨r0, hr0⟩ := List.exists_mem_of_ne_nil _ hne
  obtain ⟨n, hn⟩ : ∃ n, m.depth = n + 1 := ⟨m.depth - 1, by
    have := (accepted_depth (hg r0 hr0)).2; rw [(hall r0 hr0).1] at this; omega⟩
  obtain ⟨hok, hrow⟩ := rows_ok hh hne hg hall
  have hlen : ∀ i ∈ insOf g, i.path.length = m.depth := insOf_length (fun r hr => by rw [(accepted_depth (hg r hr)).1, (hall r hr).1])
  have hN : Normal m.depth (norm (insOf g)) := norm_normal hlen
  have hins : insOf g ≠ [] := by
    intro e
    have := insOf_keys g
    rw [e] at this
    have h2 := congrArg List.length this
    simp at h2
    exact hne (List.eq_nil_of_length_eq_zero h2.symm)
  have hne' := norm_ne_nil hins
  have hs := hashSep_of (kw := false) hm hh hok hrow
  unfold MakerSt.passes at hps
  simp only at hps
  rw [hn] at hN hok hs hR hps hlen ⊢
  rw [← growTree_norm n (insOf g) hlen] at hps
  exact passes_narrow h (top_level_ok (h := h) hm m false (n + 1)) hm hn _ 0 (norm (insOf g)) ps hN hok hne'
    (by rw [norm_bare]; exact hs) (by rw [norm_bare]; exact hR) hps

theorem narrow_all (md5 : Str → Str) {h : Runtime} {mcn : Int} (hm : 2 ≤ mcn) {hist : List (Str × Option Str)}
    (hc : NoCollision md5 (accepted hist)) (hh : NoHashClash h (UrlRow hist)) {kg : Str × List Rec} (hkg : kg ∈ groupBy (Rec.sid md5) (accepted hist))
    {u : Str} {md : Option Str} {m : URLMeta} {row : List Str} (hu : (u, md) ∈ ofStruct md5 kg.1 hist) (ha : analyzeUrl u = .ok (m, row))
    (hone : ∀ s ∈ row, OneSpace s) {ps : List Pass} (hps : (makerOf kg.2).passes h mcn = .ok ps) :
    ∃ F k L, NarrowOK F k 0 L ps ∧ Normal k L ∧ ∀ x ∈ L, ∃ row, RawRow x row := by
  obtain ⟨k, g⟩ := kg
  simp only at hu hps
  have hne := groupBy_ne_nil hkg
  obtain ⟨-, hgf⟩ := mem_groupBy hkg
  have hg : ∀ r ∈ g, r ∈ accepted hist := fun r hr => by rw [hgf] at hr; exact (List.mem_filter.mp hr).1
  have hsid : ∀ r ∈ g, r.sid md5 = k := fun r hr => by
    rw [hgf] at hr; exact of_decide_eq_true (List.mem_filter.mp hr).2
  obtain ⟨r1, hr1, hpp, hkn⟩ : ∃ r1 ∈ g, r1.pps = row.map pieceOf ∧ ∀ s ∈ row, ∀ c ∈ s, Known c := by
    have hst := (List.mem_filter.mp hu).2
    have hst : structOf md5 u = some k := of_decide_eq_true hst
    cases hp : parse u with
    | error e => unfold structOf at hst; rw [hp] at hst; cases hst
    | ok r =>
      obtain ⟨m', p⟩ := r
      cases p with
      | patterns ps => unfold structOf at hst; rw [hp] at hst; cases hst
      | pieces pps =>
        obtain ⟨row', ha', hmp⟩ := parse_pieces hp
        rw [ha] at ha'
        injection ha' with ha'
        injection ha' with e1 e2
        subst e1; subst e2
        obtain ⟨hk, e2⟩ := parsePieces_ok hmp
        refine ⟨⟨m, pps, md⟩, ?_, e2, hk⟩
        rw [hgf, ← accepted_ofStruct]
        exact mem_accepted.mpr ⟨u, hu, hp⟩
  obtain ⟨r, g', rfl⟩ := List.exists_cons_of_ne_nil hne
  have hall : ∀ r' ∈ r :: g', r'.m = r.m ∧ r'.rules = r.rules := fun r' hr' =>
    (sid_eq_iff hc (hg r' hr') (hg r (by simp))).mp ((hsid r' hr').trans (hsid r (by simp)).symm)
  exact ⟨_, _, _, narrow_group hm hh hne hg hall (one_rows_of hh hne hg hall hr1 hkn hpp hone) hps,
    norm_normal (insOf_length (fun r' hr' => by rw [(accepted_depth (hg r' hr')).1, (hall r' hr').1])),
    fun x hx => by obtain ⟨row, -, h2⟩ := (rows_ok hh hne hg hall).2 x hx; exact ⟨row, h2⟩⟩

/-- Closer to the part: one of the three kinds of narrowing. -/
theorem narrows_of {q : ParsedPiece} {a b : Str} (ha : Three a q) (hb : Three b q) (h : a = b ∨ rk a q < rk b q) : Narrows q.piece a b := by
  rcases h with h | h
  · exact .inl h
  · by_cases h0 : a = q.piece
    · exact .inr (.inl h0)
    · right; right
      have h1 : 1 ≤ rk a q := by
        unfold rk; rw [if_neg h0]; split <;> omega
      have h2 : rk b q = 2 := by have := rk_le b q; omega
      have h3 : b ≠ q.piece ∧ b ≠ specStr q.fuzzyRule (lenOf q) := by
        constructor
        · intro e
          rw [show rk b q = 0 by unfold rk; rw [if_pos e]] at h2; omega
        · intro e
          have : rk b q ≤ 1 := by unfold rk; rw [if_pos e]; split <;> omega
          omega
      have hb' : b = specStr q.fuzzyRule (-1) := by
        rcases hb with e | ⟨e, -⟩ | ⟨e, -⟩
        · exact absurd e h3.1
        · exact absurd e h3.2
        · exact e
      rcases ha with e | ⟨e, hl⟩ | ⟨e, -⟩
      · exact absurd e h0
      · refine ⟨q.fuzzyRule, (lenOf q).toNat, by omega, by rw [hb']; rfl, ?_⟩
        rw [e]
        unfold specStr
        by_cases h4 : lenOf q = 1
        · rw [if_pos h4, if_pos (by omega)]; simp
        · rw [if_neg h4, if_neg (by omega), if_pos (by omega), if_neg (by omega)]
          simp [List.append_assoc]
      · exfalso
        rw [e, ← hb'] at h
        omega

/-- **C81**: let a structure contain a URL each of whose pieces has one character class.  Then in every round the pattern of a URL at every level is
that of the round before, or the piece itself, or `[class]{k}` where it was `[class]+`. -/
theorem C81_narrower (md5 : Str → Str) (h : Runtime) (mcn : Int) (hm : 2 ≤ mcn) (hist : List (Str × Option Str))
    (hc : NoCollision md5 (accepted hist)) (hh : NoHashClash h (UrlRow hist)) :
    ∃ rs, PatternMakerSt.passes h mcn (loadAll md5 hist) = .ok rs ∧ rs.length = (structs md5 hist).length ∧
      ∀ (i : Nat) (s : Str) (m : URLMeta) (ps : List Pass), (structs md5 hist)[i]? = some s → rs[i]? = some (m, ps) →
        ∀ (u : Str) (md : Option Str) (m' : URLMeta) (pieces : List Str), (u, md) ∈ ofStruct md5 s hist → analyzeUrl u = .ok (m', pieces) →
          (∀ piece ∈ pieces, ∃ sp : Space, ∀ c ∈ piece, space? c = some sp) →
          ∀ p ∈ ps, ∀ q ∈ ps, p.depth ≤ q.depth → ∀ x ∈ p.after.paths, ∀ y ∈ q.after.paths, x.map (·.1) = y.map (·.1) →
            ∀ (j : Nat) (key old new : Str) (a b : NodeData), x[j]? = some (key, a) → y[j]? = some (key, b) →
              a.pattern = old → b.pattern = new → Narrows key new old := by
  obtain ⟨rs, h1, h2, h3⟩ := passes_all md5 hm hc hh
  refine ⟨_, h1, by rw [← h2, List.length_map, List.length_map], ?_⟩
  intro i s m ps hs hp u md m' pieces hu ha hone p hp1 q hq1 hle x hx y hy hxy j key old new a b hxj hyj hold hnew
  rw [structs_eq] at hs
  rw [List.getElem?_map] at hs
  cases hk : (groupBy (Rec.sid md5) (accepted hist))[i]? with
  | none => rw [hk] at hs; cases hs
  | some kg =>
    rw [hk] at hs
    simp only [Option.map_some, Option.some.injEq] at hs
    subst hs
    have hst : (loadAll md5 hist)[i]? = some (kg.1, makerOf kg.2) := by
      rw [loadAll_eq md5 hist hc, List.getElem?_map, hk]; rfl
    obtain ⟨F, k, L, hok, hN, -⟩ := narrow_all md5 hm hc hh (List.mem_of_getElem? hk) hu ha hone (passes_at _ _ i _ _ h1 hst hp)
    obtain ⟨r, hr, e1, e2⟩ := hok.pair p hp1 q hq1 hle x hx y hy hxy
    obtain ⟨r1, hr1, e3, e4⟩ := hok.three p hp1 x hx
    obtain ⟨r2, hr2, e5, e6⟩ := hok.three q hq1 y hy
    obtain rfl : r1 = r := bare_of_keys hN hr1 hr (by rw [← e3, ← e1])
    obtain rfl : r2 = r1 := bare_of_keys hN hr2 hr1 (by rw [← e5, ← e3, hxy])
    have hkey : (r2.pp j).piece = key := by
      have : (x.map (·.1))[j]? = some key := by rw [List.getElem?_map, hxj]; rfl
      rw [e1] at this
      unfold Ins.keys at this
      rw [List.getElem?_map] at this
      unfold Ins.pp
      cases hj : r2.path[j]? with
      | none => rw [hj] at this; cases this
      | some z =>
        rw [hj] at this
        simp only [Option.map_some, Option.some.injEq] at this
        simpa using this
    have ho : (pats x)[j]? = some old := by unfold pats; rw [List.getElem?_map, hxj, ← hold]; rfl
    have hn : (pats y)[j]? = some new := by unfold pats; rw [List.getElem?_map, hyj, ← hnew]; rfl
    rw [← hkey]
    refine narrows_of (e6 j new hn) (e4 j old ho) ?_
    have := e2 j new old hn ho
    rwa [Nat.zero_add] at this

theorem three_text {s a : Str} (hr : Runs s (runsOf s)) (h : Three a (pieceOf s)) : GroupText (runsOf s) a := by
  have hrs : (pieceOf s).fuzzyRule ≠ [] → runsOf s ≠ [] := by
    intro h e
    apply h
    have := congrArg (·.2) (gpair_ppOf (runsOf s))
    simp only at this
    unfold pieceOf
    rw [← this, e]
    rfl
  have hk : ClassOf (runsOf s) (pieceOf s).fuzzyRule := by
    have := classOf_gpair hr
    rw [gpair_ppOf] at this
    exact this
  have hlen : lenOf (pieceOf s) = (writtenLength (runsOf s) : Nat) := by
    unfold pieceOf
    rw [lenOf_ppOf, lenOf_gpart_eq hr]
  rcases h with h | ⟨h, h1⟩ | ⟨h, h1⟩
  · have : a = ((runsOf s).map runText).flatten := by
      rw [h]; simp [pieceOf, ppOf, ParsedPiece.piece]
    rw [this]; exact .lit
  · rw [hlen] at h h1
    have hw : writtenLength (runsOf s) ≠ 0 := by omega
    rw [specStr_nat hw] at h
    rw [h]
    refine .len ?_ hk
    intro e
    rw [e] at hw
    exact hw rfl
  · rw [h]
    have : specStr (pieceOf s).fuzzyRule (-1) = '[' :: (pieceOf s).fuzzyRule ++ [']', '+'] := by
      unfold specStr; simp
    rw [this]
    exact .wild (hrs h1) hk

/-- The narrower of two texts of a piece matches fewer strings. -/
theorem three_lang {s a b : Str} (hr : Runs s (runsOf s)) (hs : '\\' ∉ s) (ha : Three a (pieceOf s)) (hb : Three b (pieceOf s))
    (h : a = b ∨ rk a (pieceOf s) < rk b (pieceOf s)) : ∀ t, ReMatch a t → ReMatch b t := by
  intro t ht
  rcases h with h | h
  · rwa [← h]
  · by_cases h0 : a = (pieceOf s).piece
    · have hx := runs_exact hr
      have : a = ((runsOf s).map runText).flatten := by
        rw [h0]; simp [pieceOf, ppOf, ParsedPiece.piece]
      rw [← this] at hx
      obtain ⟨⟨is, i1, i2⟩, -⟩ := hx
      obtain rfl := (i2 t).mp ((reMatch_iff i1).mp ht)
      exact (groupText_fits hr hs (three_text hr hb)).reMatch
    · have h1 : 1 ≤ rk a (pieceOf s) := by
        unfold rk; rw [if_neg h0]; split <;> omega
      have h2 : rk b (pieceOf s) = 2 := by have := rk_le b (pieceOf s); omega
      have h3 : b ≠ (pieceOf s).piece ∧ b ≠ specStr (pieceOf s).fuzzyRule (lenOf (pieceOf s)) := by
        constructor
        · intro e
          rw [show rk b (pieceOf s) = 0 by unfold rk; rw [if_pos e]] at h2; omega
        · intro e
          have : rk b (pieceOf s) ≤ 1 := by unfold rk; rw [if_pos e]; split <;> omega
          omega
      obtain ⟨hb', hb2⟩ : b = specStr (pieceOf s).fuzzyRule (-1) ∧ (pieceOf s).fuzzyRule ≠ [] := by
        rcases hb with e | ⟨e, -⟩ | e
        · exact absurd e h3.1
        · exact absurd e h3.2
        · exact e
      rcases ha with e | ⟨e, hl⟩ | ⟨e, -⟩
      · exact absurd e h0
      · have hk := classOf_gpair hr
        rw [gpair_ppOf] at hk
        obtain ⟨R, r1, -, r3⟩ := hk
        have r3 : (pieceOf s).fuzzyRule = (R.map Space.text).flatten := r3
        have hv : ∀ sp ∈ R, sp.Valid := by
          intro sp hsp
          obtain ⟨x, hx, rfl⟩ := (r1 sp).mp hsp
          exact hr.valid x hx
        have hne : R ≠ [] := by
          rintro rfl
          exact hb2 r3
        obtain ⟨q, e', hq⟩ := QText.spec (n := lenOf (pieceOf s)) (by omega) (pieceOf s).fuzzyRule
        have haq := spec_ascii e'
        rw [if_neg (by omega)] at hq
        have hA := readsAs_class hne hv hq haq
        have hB := readsAs_class hne hv (q := ['+']) .plus (by simp [AsciiText])
        rw [← r3] at hA hB
        have eB : b = '[' :: (pieceOf s).fuzzyRule ++ ']' :: ['+'] := by
          rw [hb']; unfold specStr; simp
        rw [e, e', reMatch_iff hA, itemsMatch_single] at ht
        rw [eB, reMatch_iff hB, itemsMatch_single]
        refine ⟨ht.1, ?_⟩
        have h5 := ht.2
        simp only [quantOf] at h5 ⊢
        rw [if_neg (by omega)] at h5
        simp only [show ((-1 : Int) < 0) from by decide, if_true]
        simp only at h5 ⊢
        omega
      · exfalso
        rw [e, ← hb'] at h
        omega

/-- **C81**: under the same assumptions, and if the piece has no backslash, every string that the pattern of a later round matches (as a regular
expression) is matched by the pattern of the earlier round. -/
theorem C81_language (md5 : Str → Str) (h : Runtime) (mcn : Int) (hm : 2 ≤ mcn) (hist : List (Str × Option Str))
    (hc : NoCollision md5 (accepted hist)) (hh : NoHashClash h (UrlRow hist)) :
    ∃ rs, PatternMakerSt.passes h mcn (loadAll md5 hist) = .ok rs ∧ rs.length = (structs md5 hist).length ∧
      ∀ (i : Nat) (s : Str) (m : URLMeta) (ps : List Pass), (structs md5 hist)[i]? = some s → rs[i]? = some (m, ps) →
        ∀ (u : Str) (md : Option Str) (m' : URLMeta) (pieces : List Str), (u, md) ∈ ofStruct md5 s hist → analyzeUrl u = .ok (m', pieces) →
          (∀ piece ∈ pieces, ∃ sp : Space, ∀ c ∈ piece, space? c = some sp) →
          ∀ p ∈ ps, ∀ q ∈ ps, p.depth ≤ q.depth → ∀ x ∈ p.after.paths, ∀ y ∈ q.after.paths, x.map (·.1) = y.map (·.1) →
            ∀ (j : Nat) (key old new : Str) (a b : NodeData), x[j]? = some (key, a) → y[j]? = some (key, b) →
              a.pattern = old → b.pattern = new →
                ∀ (str : Str) (pp : ParsedPiece), parsePiece str = .ok pp → pp.piece = key → '\\' ∉ str →
                  ∀ t, ReMatch new t → ReMatch old t := by
  obtain ⟨rs, h1, h2, h3⟩ := passes_all md5 hm hc hh
  refine ⟨_, h1, by rw [← h2, List.length_map, List.length_map], ?_⟩
  intro i s m ps hs hp u md m' pieces hu ha hone p hp1 q hq1 hle x hx y hy hxy j key old new a b hxj hyj hold hnew str pp hpp hpk hbs
  rw [structs_eq] at hs
  rw [List.getElem?_map] at hs
  cases hk : (groupBy (Rec.sid md5) (accepted hist))[i]? with
  | none => rw [hk] at hs; cases hs
  | some kg =>
    rw [hk] at hs
    simp only [Option.map_some, Option.some.injEq] at hs
    subst hs
    have hst : (loadAll md5 hist)[i]? = some (kg.1, makerOf kg.2) := by
      rw [loadAll_eq md5 hist hc, List.getElem?_map, hk]; rfl
    obtain ⟨F, k, L, hok, hN, hraw⟩ := narrow_all md5 hm hc hh (List.mem_of_getElem? hk) hu ha hone (passes_at _ _ i _ _ h1 hst hp)
    obtain ⟨r, hr, e1, e2⟩ := hok.pair p hp1 q hq1 hle x hx y hy hxy
    obtain ⟨r1, hr1, e3, e4⟩ := hok.three p hp1 x hx
    obtain ⟨r2, hr2, e5, e6⟩ := hok.three q hq1 y hy
    obtain rfl : r1 = r := bare_of_keys hN hr1 hr (by rw [← e3, ← e1])
    obtain rfl : r2 = r1 := bare_of_keys hN hr2 hr1 (by rw [← e5, ← e3, hxy])
    have hkey : (r2.pp j).piece = key := by
      have : (x.map (·.1))[j]? = some key := by rw [List.getElem?_map, hxj]; rfl
      rw [e1] at this
      unfold Ins.keys at this
      rw [List.getElem?_map] at this
      unfold Ins.pp
      cases hj : r2.path[j]? with
      | none => rw [hj] at this; cases this
      | some z =>
        rw [hj] at this
        simp only [Option.map_some, Option.some.injEq] at this
        simpa using this
    have ho : (pats x)[j]? = some old := by unfold pats; rw [List.getElem?_map, hxj, ← hold]; rfl
    have hn : (pats y)[j]? = some new := by unfold pats; rw [List.getElem?_map, hyj, ← hnew]; rfl
    obtain ⟨hkn, rfl⟩ := parsePiece_ok hpp
    obtain ⟨r0, hr0, e0⟩ := List.mem_map.mp hr
    obtain ⟨row, hrow⟩ := hraw r0 hr0
    have hpj : r2.pp j = r0.pp j := by rw [← e0]; exact (bare_same r0).pp j
    have hlt : j < row.length := by
      rw [← hrow.length]
      have : (x.map (·.1))[j]? = some key := by rw [List.getElem?_map, hxj]; rfl
      rw [e1, ← e0, bare_keys] at this
      unfold Ins.keys at this
      rw [List.getElem?_map] at this
      cases hj : r0.path[j]? with
      | none => rw [hj] at this; cases this
      | some z => exact (List.getElem?_eq_some_iff.mp hj).1
    obtain ⟨w1, w2⟩ := hrow.pp (List.getElem?_eq_getElem hlt)
    have hw : row[j] = str := pieceOf_inj w2 (runsOf_spec hkn) (by rw [← w1, ← hpj, hkey, ← hpk]; rfl)
    rw [hw] at w1
    have e7 := e6 j new hn
    have e8 := e4 j old ho
    rw [hpj, w1] at e7 e8
    refine three_lang (runsOf_spec hkn) hbs e7 e8 ?_
    have := e2 j new old hn ho
    rwa [Nat.zero_add, hpj, w1] at this

/-- Eight URLs of one structure; the second pieces have letters and digits. -/
def loads81 : List (Str × Option Str) := [c!"http://h/ba/ab2a", c!"http://h/ba/ab22b", c!"http://h/bb/bb1bb", c!"http://h/a/ab12b", c!"http://h/aa/ba1bb",
  c!"http://h/ba/ba1aa", c!"http://h/bb/ab12ba", c!"http://h/bba/21a"].map (fun u => (u, none))

/-- The patterns that a URL with the given pieces gets in the rounds. -/
def roundsOf (ps : List Pass) (pieces : List Str) : List (Nat × List Str) :=
  ps.flatMap (fun p => (p.after.paths.filter (fun q => decide (q.map (·.1) = pieces))).map (fun q => (p.depth, q.map (fun kn => kn.2.pattern))))

/-- **C81**: with several classes in a piece this is false: the second piece of `/ba/ab22b` has the pattern `[a-z]{2}[0-9]+[a-z]+` after the first
round, the wider `[0-9a-z]+` after the second, and `ab[0-9]+[a-z]+` in the end. -/
theorem C81_widens : ∃ m ps, PatternMakerSt.passes codeHash 3 (loadAll id loads81) = .ok [(m, ps)] ∧
    roundsOf ps [c!"ba", c!"ab22b"] = [(0, [c!"[a-z]+", c!"[a-z]{2}[0-9]+[a-z]+"]), (1, [c!"[a-z]{2}", c!"[0-9a-z]+"]),
      (2, [c!"[a-z]{2}", c!"ab[0-9]+[a-z]+"])] := by
  cases hp : PatternMakerSt.passes codeHash 3 (loadAll id loads81) with
  | error e =>
    have : (PatternMakerSt.passes codeHash 3 (loadAll id loads81)).map (fun _ => true) = .ok true := by decide +kernel
    rw [hp] at this; cases this
  | ok rs =>
    have : (PatternMakerSt.passes codeHash 3 (loadAll id loads81)).map (fun rs => rs.map (fun r => roundsOf r.2 [c!"ba", c!"ab22b"])) =
        .ok [[(0, [c!"[a-z]+", c!"[a-z]{2}[0-9]+[a-z]+"]), (1, [c!"[a-z]{2}", c!"[0-9a-z]+"]),
          (2, [c!"[a-z]{2}", c!"ab[0-9]+[a-z]+"])]] := by decide +kernel
    rw [hp] at this
    simp only [Except.map, Except.ok.injEq] at this
    cases rs with
    | nil => cases this
    | cons r rs =>
      cases rs with
      | cons _ _ => simp at this
      | nil =>
        simp only [List.map_cons, List.map_nil, List.cons.injEq, and_true] at this
        exact ⟨r.1, r.2, rfl, this⟩

/-- The second pattern matches `7`, the first does not. -/
example : ReMatch c!"[0-9a-z]+" c!"7" ∧ ¬ ReMatch c!"[a-z]{2}[0-9]+[a-z]+" c!"7" := by
  constructor
  · cases hp : reParse c!"[0-9a-z]+" with
    | none => exact absurd hp (by decide +kernel)
    | some is =>
      obtain ⟨b, h1, h2⟩ := C56_engine c!"[0-9a-z]+" c!"7" is hp
      have h3 : patternMatch c!"[0-9a-z]+" c!"7" = some true := by decide +kernel
      rw [h3, Option.some.injEq] at h1
      obtain ⟨w, hw | hw, h4⟩ := h2.mp h1.symm
      · rw [hw]; exact h4
      · exfalso
        have := congrArg List.getLast? hw
        rw [List.getLast?_concat] at this
        revert this; decide
  · intro h
    have := patternMatch_of h
    revert this
    decide +kernel

/-- Nor is it one of the steps of `C81_narrower`. -/
example : ¬ Narrows c!"ab22b" c!"[0-9a-z]+" c!"[a-z]{2}[0-9]+[a-z]+" := by
  rintro (h | h | ⟨cls, k, -, h, h'⟩)
  · revert h; decide
  · revert h; decide
  · have h1 := congrArg List.length h
    have h2 := congrArg List.length h'
    simp only [List.length_append] at h1 h2
    have : (c!"[a-z]{2}[0-9]+[a-z]+").length = 20 ∧ (c!"[0-9a-z]+").length = 9 ∧ (c!"[").length = 1 ∧ (c!"]+").length = 2 ∧ (c!"]").length = 1 := by decide
    omega

/-- For the URLs of C79 the rounds of `/b/ab/ab/a`: every step narrows. -/
example : (PatternMakerSt.passes codeHash 3 (loadAll id loads79)).map (fun rs => rs.map (fun r => roundsOf r.2 [c!"b", c!"ab", c!"ab", c!"a"])) =
    .ok [[(0, [c!"[a-z]+", c!"[a-z]+", c!"[a-z]{2}", c!"[a-z]+"]), (1, [c!"[a-z]+", c!"[a-z]{2}", c!"[a-z]{2}", c!"[a-z]+"]),
      (2, [c!"b", c!"ab", c!"ab", c!"a"]), (3, [c!"b", c!"ab", c!"ab", c!"a"])]] := by decide +kernel
example : Narrows c!"ab" c!"[a-z]{2}" c!"[a-z]+" := .inr (.inr ⟨c!"a-z", 2, by decide, rfl, rfl⟩)

/-- For the piece `ab`: whatever `[a-z]{2}` matches, `[a-z]+` matches; the converse fails for `a`. -/
example : (∀ t, ReMatch c!"[a-z]{2}" t → ReMatch c!"[a-z]+" t) ∧ ReMatch c!"[a-z]+" c!"a" ∧ ¬ ReMatch c!"[a-z]{2}" c!"a" := by
  have hr : ∀ s : Str, (∀ c ∈ s, Known c) → Runs s (runsOf s) := fun s h => runsOf_spec h
  have ka : ∀ s : Str, (∀ c ∈ s, c = 'a' ∨ c = 'b') → ∀ c ∈ s, Known c := by
    intro s h c hc
    rcases h c hc with rfl | rfl <;> decide
  refine ⟨?_, ?_, ?_⟩
  · exact three_lang (s := c!"ab") (hr _ (ka _ (by decide))) (by decide) (.inr (.inl (by decide +kernel))) (.inr (.inr (by decide +kernel))) (.inr (by decide +kernel))
  · exact (groupText_fits (w := c!"a") (hr _ (ka _ (by decide))) (by decide) (three_text (hr _ (ka _ (by decide))) (.inr (.inr (by decide +kernel))))).reMatch
  · intro h
    have := patternMatch_of h
    revert this
    decide +kernel

end OsUrl
