import Verif.Proofs.Tight2
import Verif.Props.C75

/-! # C83: patterns are no wider than the pieces require -/

namespace OsUrl
open Spec

/-- `s` is the piece at level `i` of a URL of the cluster. -/
def Spec.MemberPiece (hist : List (Str × Option Str)) (c : URLMeta × Tree NodeData) (i : Nat) (s : Str) : Prop :=
  ∃ row, LoadedRow hist c.1 row ∧ IsMember c row ∧ row[i]? = some s

theorem memberPiece_iff {h : Runtime} {mcn : Int} {hist : List (Str × Option Str)} {c : URLMeta × Tree NodeData} {M : Made} (hM : MadeOK h mcn hist M) {C : List Ins}
    (hm1 : c.1 = M.m) (hC : ClusterOK h mcn hist M C c.2) {i : Nat} (hi : i < M.m.depth) (s : Str) :
    MemberPiece hist c i s ↔ (∀ ch ∈ s, Known ch) ∧ ∃ x ∈ C.map Ins.bare, x.pp i = pieceOf s := by
  obtain ⟨rules, hall⟩ := hM.all
  constructor
  · rintro ⟨row, hl, ⟨kp, hkp, he⟩, hs⟩
    obtain ⟨p, hp, rfl⟩ := List.mem_map.mp hkp
    have hkeys : p.map (·.1) = row.map (fun s => (pieceOf s).piece) := by
      have h1 := rowKeys_eq hl.2
      rw [List.map_map] at h1 he
      exact he.trans h1.symm
    have hraw := path_raw hM hC hp hl.2 hkeys
    exact ⟨hl.2 s (List.mem_of_getElem? hs), _, List.mem_map_of_mem (row_of_path hC hp).1, (hraw.pp hs).1⟩
  · rintro ⟨hk, x, hx, hp⟩
    obtain ⟨y, hy, rfl⟩ := List.mem_map.mp hx
    obtain ⟨p, hpm, rfl⟩ := path_of_row hC hy
    obtain ⟨r, hr, hrp⟩ := (norm_rows _ _ (row_of_path hC hpm).2).path
    obtain ⟨row, hl, e⟩ := rec_loadedRow (hM.acc r hr)
    have hrm := (hall r hr).1
    have hraw : RawRow (rowOf p).bare row := ⟨hl.2, by rw [hrp, ← e]; simp [Function.comp_def]⟩
    have hlen : i < row.length := by
      rw [← hraw.length]
      have := hC.final.normal.len _ hy
      rw [show (rowOf p).bare.path.length = (rowOf p).path.length by simp [Ins.bare], this]
      exact hi
    have hs := List.getElem?_eq_getElem hlen
    obtain ⟨h1, h2⟩ := hraw.pp hs
    have hss : s = row[i] := by
      refine pieceOf_inj (runsOf_spec hk) h2 ?_
      rw [← hp, h1]
    refine ⟨row, by rw [hm1, ← hrm]; exact hl, ⟨p.map (fun kn => (kn.1, kn.2.pattern)), List.mem_map_of_mem hpm, ?_⟩, by rw [hs, hss]⟩
    show _ = rowKeys row
    rw [← rowKeys_eq hl.2, List.map_map, ← hraw.path, List.map_map]
    have := hC.keys p hpm
    rw [← bare_keys] at this
    exact this

/-- The piece of a path at a level. -/
theorem path_piece {h : Runtime} {mcn : Int} {hist : List (Str × Option Str)} (hh : NoHashClash h (UrlRow hist)) {M : Made} (hM : MadeOK h mcn hist M) {C : List Ins}
    {t : Tree NodeData} (hC : ClusterOK h mcn hist M C t) {p : List (Str × NodeData)} (hp : p ∈ t.paths) {i : Nat} (hlt : i < M.m.depth) {k : Str} {d : NodeData}
    (hi : p[i]? = some (k, d)) : ∃ s, (∀ ch ∈ s, Known ch) ∧ (rowOf p).bare ∈ C.map Ins.bare ∧ (rowOf p).bare.pp i = pieceOf s ∧ k = (pieceOf s).piece := by
  have hx : (rowOf p).bare ∈ C.map Ins.bare := List.mem_map_of_mem (row_of_path hC hp).1
  obtain ⟨s, hk, hps⟩ := ((cluster_rows hh hM hC).ok i hlt).parsed _ (List.mem_map_of_mem hx)
  refine ⟨s, hk, hx, hps, ?_⟩
  rw [show pieceOf s = (rowOf p).bare.pp i from hps.symm]
  have e := congrArg (·[i]?) (hC.keys p hp)
  rw [← bare_keys] at e
  simp only [List.getElem?_map, hi, Option.map_some, Ins.keys] at e
  obtain ⟨y, hy, hyk⟩ := Option.map_eq_some_iff.mp e.symm
  unfold Ins.pp
  rw [hy]
  exact hyk.symm

/-- **C83**: cut the pieces of the URLs of a cluster at one level into columns of neighbouring runs; then the pattern writes out exactly the
columns that are the same in all URLs, gives a length to the columns that differ but are equally long, and `+` only to columns with two different lengths. -/
theorem C83_tight (md5 : Str → Str) (h : Runtime) (mcn : Int) (hm : 2 ≤ mcn) (hist : List (Str × Option Str))
    (hc : NoCollision md5 (accepted hist)) (hh : NoHashClash h (UrlRow hist)) :
    ∃ cs, PatternMakerSt.make h mcn (loadAll md5 hist) = .ok cs ∧
      ∀ c ∈ cs, ∀ p ∈ c.2.paths, ∀ (i : Nat) (k : Str) (d : NodeData), p[i]? = some (k, d) →
        (∃ s, MemberPiece hist c i s ∧ k = litText (cut s)) ∧ TightText (MemberPiece hist c i) d.pattern := by
  obtain ⟨Ms, -, h2, h3⟩ := make_all md5 hm hc hh
  refine ⟨_, h2, ?_⟩
  intro c hcm p hp i k d hi
  obtain ⟨M, -, hM, C, -, hm1, hC⟩ := mem_out h3 hcm
  obtain ⟨hlt, hlab⟩ := path_level hC hp hi
  have := level_tight (kw := false) hm (cluster_rows hh hM hC) hlt (List.ne_nil_of_mem (List.mem_map_of_mem (row_of_path hC hp).1)) hlab
  refine ⟨?_, by rw [show MemberPiece hist c i = _ from funext (fun s => propext (memberPiece_iff hM hm1 hC hlt s))]; exact this⟩
  obtain ⟨s, h4, h5, h6, h7⟩ := path_piece hh hM hC hp hlt hi
  exact ⟨s, (memberPiece_iff hM hm1 hC hlt s).mpr ⟨h4, _, h5, h6⟩, by rw [h7]; exact congrArg (·.headD []) (rowKeys_eq (row := [s]) (by simpa using h4))⟩

/-- **C83**: a level is written out exactly when all URLs of the cluster have the same piece there. -/
theorem C83_literal (md5 : Str → Str) (h : Runtime) (mcn : Int) (hm : 2 ≤ mcn) (hist : List (Str × Option Str))
    (hc : NoCollision md5 (accepted hist)) (hh : NoHashClash h (UrlRow hist)) :
    ∃ cs, PatternMakerSt.make h mcn (loadAll md5 hist) = .ok cs ∧
      ∀ c ∈ cs, ∀ p ∈ c.2.paths, ∀ (i : Nat) (k : Str) (d : NodeData), p[i]? = some (k, d) →
        (d.pattern = k ↔ ∀ p' ∈ c.2.paths, ∀ (k' : Str) (d' : NodeData), p'[i]? = some (k', d') → k' = k) := by
  obtain ⟨Ms, -, h2, h3⟩ := make_all md5 hm hc hh
  refine ⟨_, h2, ?_⟩
  intro c hcm p hp i k d hi
  obtain ⟨M, -, hM, C, -, hm1, hC⟩ := mem_out h3 hcm
  obtain ⟨hlt, hlab⟩ := path_level hC hp hi
  have hS := cluster_rows hh hM hC
  have src := fun q hq k d hqi => path_piece hh hM hC (p := q) hq hlt (k := k) (d := d) hqi
  constructor
  · intro hlit p' hp' k' d' hi'
    obtain ⟨s, hk, hx, hps, rfl⟩ := src p hp k d hi
    obtain ⟨s', hk', hx', hps', rfl⟩ := src p' hp' k' d' hi'
    obtain ⟨gs, bs, b1, b2, b3⟩ := lab_fit (kw := false) hm hS hlt hx' hk' hps'
    rw [hlab _ hx', hlit] at b3
    have := sep_literal (runsOf_spec hk') (runsOf_spec hk) b1 b2 b3
    unfold pieceOf; rw [this]
  · intro hall
    obtain ⟨s, hk, hx, hps, rfl⟩ := src p hp k d hi
    have ht := level_tight (kw := false) hm hS hlt (List.ne_nil_of_mem hx) hlab
    have same : ∀ s', ((∀ ch ∈ s', Known ch) ∧ ∃ x ∈ C.map Ins.bare, x.pp i = pieceOf s') → s' = s := by
      rintro s' ⟨hk', x', hx', hp'⟩
      obtain ⟨y, hy, rfl⟩ := List.mem_map.mp hx'
      obtain ⟨p', hpm', rfl⟩ := path_of_row hC hy
      have hl : i < p'.length := by rw [path_length hC hpm']; exact hlt
      obtain ⟨s'', hk'', -, hps'', e''⟩ := src p' hpm' p'[i].1 p'[i].2 (List.getElem?_eq_getElem hl)
      refine pieceOf_inj (runsOf_spec hk') (runsOf_spec hk) ?_
      rw [← hp', hps'', ← e'']
      exact hall p' hpm' _ _ (List.getElem?_eq_getElem hl)
    obtain ⟨as, cut, e, hcut, hcol⟩ := ht
    obtain ⟨hl, hr⟩ := hcut s ⟨hk, _, hx, hps⟩
    have lits : as = (cut s).map (fun g => (g.map runText).flatten) := by
      apply List.ext_getElem?
      intro j
      rw [List.getElem?_map]
      cases ha : as[j]? with
      | none =>
        rw [List.getElem?_eq_none (by rw [hl]; exact List.getElem?_eq_none_iff.mp ha)]; rfl
      | some a =>
        have hj : j < (cut s).length := by
          obtain ⟨h1, -⟩ := List.getElem?_eq_some_iff.mp ha
          omega
        have hg := List.getElem?_eq_getElem hj
        have single : ∀ g, (∃ s', ((∀ ch ∈ s', Known ch) ∧ ∃ x ∈ C.map Ins.bare, x.pp i = pieceOf s') ∧ (cut s')[j]? = some g) → g = (cut s)[j] := by
          rintro g ⟨s', hs', hg'⟩
          rw [same s' hs', hg] at hg'
          injection hg' with hg'
          exact hg'.symm
        rw [hg]
        simp only [Option.map_some, Option.some.injEq]
        cases hcol j a ha with
        | @lit g h =>
          rw [h _ ⟨s, ⟨hk, _, hx, hps⟩, hg⟩]
        | len _ two =>
          obtain ⟨g1, g2, q1, q2, hne⟩ := two
          exact absurd ((single g1 q1).trans (single g2 q2).symm) hne
        | wild _ two =>
          obtain ⟨g1, g2, q1, q2, hne⟩ := two
          exact absurd (congrArg writtenLength ((single g1 q1).trans (single g2 q2).symm)) hne
    have hrs : (cut s).flatten = runsOf s := (runsOf_runs hr).symm
    rw [← e, lits]
    have h4 : (pieceOf s).piece = ((runsOf s).map runText).flatten := by simp [pieceOf, ppOf, ParsedPiece.piece]
    rw [h4, ← hrs, List.map_flatten]
    clear hcol hcut lits hl hr hrs
    induction cut s with
    | nil => rfl
    | cons g gs ih => simp only [List.map_cons, List.flatten_cons, List.flatten_append] at ih ⊢; rw [ih]

/-- **C83**: a level on which a URL of the cluster has a piece of one character class. -/
theorem C83_class (md5 : Str → Str) (h : Runtime) (mcn : Int) (hm : 2 ≤ mcn) (hist : List (Str × Option Str))
    (hc : NoCollision md5 (accepted hist)) (hh : NoHashClash h (UrlRow hist)) :
    ∃ cs, PatternMakerSt.make h mcn (loadAll md5 hist) = .ok cs ∧
      ∀ c ∈ cs, ∀ p ∈ c.2.paths, ∀ (i : Nat) (k : Str) (d : NodeData), p[i]? = some (k, d) →
        ∀ (s : Str) (sp : Space), MemberPiece hist c i s → (∀ ch ∈ s, space? ch = some sp) →
          ((∀ s', MemberPiece hist c i s' → s' = s) ∧ d.pattern = if s = [] then [] else runText (sp, s)) ∨
          ((∀ s', MemberPiece hist c i s' → (∀ ch ∈ s', space? ch = some sp) ∧ s'.length = s.length) ∧
            (∃ s1 s2, MemberPiece hist c i s1 ∧ MemberPiece hist c i s2 ∧ s1 ≠ s2) ∧
            d.pattern = '[' :: sp.text ++ ']' :: (if s.length = 1 then [] else '{' :: decimal s.length ++ ['}'])) ∨
          ((∀ s', MemberPiece hist c i s' → ∀ ch ∈ s', space? ch = some sp) ∧
            (∃ s1 s2, MemberPiece hist c i s1 ∧ MemberPiece hist c i s2 ∧ s1.length ≠ s2.length) ∧ d.pattern = '[' :: sp.text ++ [']', '+']) := by
  obtain ⟨cs, h1, h2⟩ := C83_tight md5 h mcn hm hist hc hh
  exact ⟨cs, h1, fun c hcm p hp i k d hi s sp hs hsp => tight_one (h2 c hcm p hp i k d hi).2 hs hsp⟩

/-! ### Examples -/

/-- Three columns: the letters are the same in all URLs, the digits differ, the letters at the end have different lengths. -/
example : showMade [c!"http://h/ab12-c", c!"http://h/ab34-d", c!"http://h/ab56-ef", c!"http://h/ab78-ghi"] 2 =
    .ok [([c!"ab[0-9]{2}[\\-][a-z]+"], [[c!"ab12[\\-]c"], [c!"ab34[\\-]d"], [c!"ab56[\\-]ef"], [c!"ab78[\\-]ghi"]])] := by decide +kernel

/-- One level written out, one with a length, one with `+`. -/
example : showMade [c!"http://h/a/x1/b", c!"http://h/a/x2/bb", c!"http://h/a/x3/bbb"] 3 =
    .ok [([c!"a", c!"x[0-9]", c!"[a-z]+"], [[c!"a", c!"x1", c!"b"], [c!"a", c!"x2", c!"bb"], [c!"a", c!"x3", c!"bbb"]])] := by decide +kernel

/-- `[a-z]+` is too wide for `ab` and `cd`. -/
example : ¬ TightText (fun s => s = c!"ab" ∨ s = c!"cd") c!"[a-z]+" := by
  intro h
  rcases tight_one h (s := c!"ab") (.inl rfl) (sp := .lower) (by decide) with ⟨h1, -⟩ | ⟨-, -, h1⟩ | ⟨-, ⟨s1, s2, h1, h2, h3⟩, -⟩
  · have := h1 c!"cd" (.inr rfl); revert this; decide
  · revert h1; decide +kernel
  · apply h3
    rcases h1 with rfl | rfl <;> rcases h2 with rfl | rfl <;> rfl

/-- `[a-z]{2}` is too wide for `ab` alone. -/
example : ¬ TightText (fun s => s = c!"ab") c!"[a-z]{2}" := by
  intro h
  rcases tight_one h (s := c!"ab") rfl (sp := .lower) (by decide) with ⟨-, h1⟩ | ⟨-, ⟨s1, s2, h1, h2, h3⟩, -⟩ | ⟨-, -, h1⟩
  · revert h1; decide +kernel
  · exact h3 (h1.trans h2.symm)
  · revert h1; decide +kernel

end OsUrl
