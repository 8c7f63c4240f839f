import Verif.Proofs.CandText
import Verif.Proofs.Clu2

/-! The rows of a tree made from strings: their patterns are pattern texts, and the hash separates them. -/

namespace OsUrl
open Spec

/-- The parsed piece of a string. -/
def pieceOf (s : Str) : ParsedPiece := ppOf (runsOf s)

/-- The row comes from these strings. -/
structure RawRow (x : Ins) (row : List Str) : Prop where
  known : ∀ s ∈ row, ∀ c ∈ s, Known c
  path : x.path.map (·.1) = row.map pieceOf

theorem RawRow.pp {x : Ins} {row : List Str} (h : RawRow x row) {j : Nat} {s : Str} (hj : row[j]? = some s) :
    x.pp j = pieceOf s ∧ Runs s (runsOf s) := by
  have h1 := congrArg (·[j]?) h.path
  simp only [List.getElem?_map, hj, Option.map_some] at h1
  refine ⟨?_, runsOf_spec (h.known s (List.mem_of_getElem? hj))⟩
  unfold Ins.pp
  rw [h1]; rfl

theorem RawRow.length {x : Ins} {row : List Str} (h : RawRow x row) : x.path.length = row.length := by
  simpa using congrArg List.length h.path

theorem pieceOf_inj {s s' : Str} (h : Runs s (runsOf s)) (h' : Runs s' (runsOf s')) (e : (pieceOf s).piece = (pieceOf s').piece) : s = s' := by
  have h1 : runsOf s = runsOf s' := sep_literal h h' (singles_flatten _) (gfit_lits _) (by
    show _ = (pieceOf s').piece
    rw [← e]; simp [pieceOf, ppOf, ParsedPiece.piece])
  rw [← h.concat, ← h'.concat, h1]

theorem subHash_of {h : Runtime} {Row : List Str → Prop} (hh : NoHashClash h Row) {ps : List ParsedPiece}
    (hp : ∀ p ∈ ps, ∃ row s, Row row ∧ s ∈ row ∧ (∀ c ∈ s, Known c) ∧ p = pieceOf s) : SubHash h ps := by
  intro V hV p hp1 p' hp2 as bs ha hb _ he
  obtain ⟨row, s, h1, h2, h3, rfl⟩ := hp p hp1
  obtain ⟨row', s', h1', h2', h3', rfl⟩ := hp p' hp2
  obtain ⟨gts, g1, rfl⟩ := cand_groups hV (runsOf_spec h3) ha
  obtain ⟨gts', g1', rfl⟩ := cand_groups hV (runsOf_spec h3') hb
  rw [pidText_slashed, pidText_slashed] at he
  exact slashed_inj (groups_good g1) (groups_good g1') (hh _ _ ⟨row, h1, .inr ⟨s, h2, gts, g1, rfl⟩⟩ ⟨row', h1', .inr ⟨s', h2', gts', g1', rfl⟩⟩ he)

theorem lvOK_of {h : Runtime} {mcn : Int} (hm : 2 ≤ mcn) {m : URLMeta} {kw : Bool} {n j : Nat} {E : List Ent}
    (hnd : (E.map (fun e => e.1.piece)).Nodup) (hpos : ∀ e ∈ E, 1 ≤ e.2) (hok : TopOK h m j (E.map (·.1))) (hstop : litStop mcn E = false)
    (hne : E ≠ []) : ∃ r, LvOK (cfgAt mcn m kw n j) E r := by
  obtain ⟨r, hr⟩ := hok.rule
  have hps : ∀ e ∈ E, IsParsed e.1 ∧ e.1.fuzzyRule = r := fun e he =>
    ⟨hok.parsed _ (List.mem_map.mpr ⟨e, he, rfl⟩), hr _ (List.mem_map.mpr ⟨e, he, rfl⟩)⟩
  obtain ⟨e0, he0⟩ := List.exists_mem_of_ne_nil _ hne
  refine ⟨r, hm, hnd, hpos, fun e he => (hps e he).1, fun e he => (hps e he).2, ?_, ?_⟩
  · rintro rfl
    have hbl : ∀ e ∈ E, e.1.piece = [] := fun e he => (hps e he).1.blank (hps e he).2
    match E, hne with
    | [e], _ =>
      rw [litStop_single hm _ (hpos e (by simp))] at hstop
      cases hstop
    | e :: e' :: E', _ =>
      rw [List.map_cons, List.map_cons, List.nodup_cons] at hnd
      apply hnd.1
      rw [List.mem_cons]
      left
      rw [hbl e (by simp), hbl e' (by simp)]
  · intro hl
    have hl' : m.pathDepth = j + 1 := by simpa [cfgAt] using hl
    rw [← (hps e0 he0).2]
    exact hok.slash hl' _ (List.mem_map.mpr ⟨e0, he0, rfl⟩)

section
variable {h : Runtime} {mcn : Int} {m : URLMeta} {kw : Bool} {n : Nat}

theorem mem_ent_pp {j : Nat} {S : List Ins} {x : Ins} (hx : x ∈ S) : ∃ c, (x.pp j, c) ∈ ent j S :=
  ⟨_, mem_ent.mpr ⟨List.mem_map.mpr ⟨x, hx, rfl⟩, rfl⟩⟩

theorem ent_ok {S : List Ins} (hS : RowsOK (TopOK h m) n S) {j : Nat} (hj : j < n) :
    ((ent j S).map (fun e => e.1.piece)).Nodup ∧ (∀ e ∈ ent j S, 1 ≤ e.2) ∧ TopOK h m j ((ent j S).map (·.1)) := by
  refine ⟨?_, ?_, ?_⟩
  · have e : (ent j S).map (fun e => e.1.piece) = (uniq (S.map (Ins.pp j))).map ParsedPiece.piece := by
      rw [← ent_fst, List.map_map]; rfl
    rw [e]
    have hn := nodup_uniq (S.map (Ins.pp j))
    have hinj : ∀ p ∈ uniq (S.map (Ins.pp j)), ∀ q ∈ uniq (S.map (Ins.pp j)), p.piece = q.piece → p = q := by
      intro p hp q hq he
      obtain ⟨x, hx, rfl⟩ := List.mem_map.mp (mem_uniq.mp hp)
      obtain ⟨y, hy, rfl⟩ := List.mem_map.mp (mem_uniq.mp hq)
      exact hS.inj j hj x hx y hy he
    revert hn hinj
    generalize uniq (S.map (Ins.pp j)) = l
    intro hn hinj
    induction l with
    | nil => simp
    | cons p l ih =>
      rw [List.nodup_cons] at hn
      rw [List.map_cons, List.nodup_cons]
      refine ⟨?_, ih hn.2 (fun a ha b hb => hinj a (by simp [ha]) b (by simp [hb]))⟩
      intro hc
      obtain ⟨q, hq, he⟩ := List.mem_map.mp hc
      rw [hinj q (by simp [hq]) p (by simp) he] at hq
      exact hn.1 hq
  · rintro ⟨p, c⟩ he
    obtain ⟨h1, rfl⟩ := mem_ent.mp he
    obtain ⟨x, hx, rfl⟩ := List.mem_map.mp h1
    exact total_pos (fun y hy => hS.pos y (List.mem_filter.mp hy).1)
      (List.ne_nil_of_mem (List.mem_filter.mpr ⟨hx, by simp⟩))
  · rw [ent_fst]
    exact topOK_mono h m j _ _ (fun a ha => mem_uniq.mp ha) (hS.ok j hj)

/-- The label of a row at a level is a pattern text of its piece. -/
theorem lab_text (hm : 2 ≤ mcn) {S : List Ins} (hS : RowsOK (TopOK h m) n S) {j : Nat} (hj : j < n) {x : Ins} (hx : x ∈ S) {s : Str}
    (hs : Runs s (runsOf s)) (hp : x.pp j = pieceOf s) : PieceText s (lab (topF mcn m kw n) j S x) := by
  unfold lab topF
  split
  · rw [hp]; exact lit_pieceText hs
  · rename_i hc
    simp only [Bool.or_eq_true, not_or, Bool.not_eq_true] at hc
    obtain ⟨h1, h2, h3⟩ := ent_ok hS hj
    obtain ⟨c, hc'⟩ := mem_ent_pp (j := j) hx
    obtain ⟨r, hr⟩ := lvOK_of (kw := kw) (n := n) hm h1 h2 h3 hc.2 (List.ne_nil_of_mem hc')
    exact stagePat_text hr hc' hs hp

theorem nxt_sub {F : LevelFn} {j : Nat} {S : List Ins} {x : Ins} : ∀ y ∈ nxt F j S x, y ∈ S := fun _ hy => (List.mem_filter.mp hy).1

theorem nxt_self {F : LevelFn} {j : Nat} {S : List Ins} {x : Ins} (hx : x ∈ S) : x ∈ nxt F j S x :=
  List.mem_filter.mpr ⟨hx, by simp⟩

theorem labs_text (hm : 2 ≤ mcn) {k j : Nat} (hjk : j + k = n) {S : List Ins} (hS : RowsOK (TopOK h m) n S) {x : Ins} (hx : x ∈ S)
    {row : List Str} (hr : RawRow x row) :
    ∃ sts : List (Str × Str), sts.map (·.1) = row.drop j ∧ (∀ st ∈ sts, PieceText st.1 st.2) ∧ labs (topF mcn m kw n) k j S x = sts.map (·.2) := by
  have hl : row.length = n := by rw [← hr.length]; exact hS.len x hx
  induction k generalizing j S with
  | zero => exact ⟨[], by rw [List.drop_eq_nil_of_le (by omega)]; rfl, by simp, rfl⟩
  | succ k ih =>
    obtain ⟨sts, h1, h2, h3⟩ := ih (j := j + 1) (by omega) (S := nxt (topF mcn m kw n) j S x) (hS.sub (topOK_mono h m) nxt_sub) (nxt_self hx)
    have hj : j < row.length := by omega
    have hg : row[j]? = some row[j] := List.getElem?_eq_getElem hj
    obtain ⟨p1, p2⟩ := hr.pp hg
    refine ⟨(row[j], lab (topF mcn m kw n) j S x) :: sts, ?_, ?_, ?_⟩
    · rw [List.drop_eq_getElem_cons hj, List.map_cons, h1]
    · intro st hst
      rw [List.mem_cons] at hst
      rcases hst with rfl | hst
      · exact lab_text hm hS (by omega) hx p2 p1
      · exact h2 st hst
    · rw [labs, h3]; rfl

theorem hashSep_of (hm : 2 ≤ mcn) {Row : List Str → Prop} (hh : NoHashClash h Row) {R : List Ins} (hR : RowsOK (TopOK h m) n R)
    (hrow : ∀ x ∈ R, ∃ row, Row row ∧ RawRow x row) : HashSep h (topF mcn m kw n) n R := by
  intro S _ hS x hx y hy he
  have hS' := hR.sub (topOK_mono h m) hS
  obtain ⟨row, h1, h2⟩ := hrow x (hS x hx)
  obtain ⟨row', h1', h2'⟩ := hrow y (hS y hy)
  obtain ⟨sts, a1, a2, a3⟩ := labs_text (kw := kw) hm (Nat.zero_add n) hS' hx h2
  obtain ⟨sts', b1, b2, b3⟩ := labs_text (kw := kw) hm (Nat.zero_add n) hS' hy h2'
  rw [List.drop_zero] at a1 b1
  rw [a3, b3] at he ⊢
  rw [pidText_slashed, pidText_slashed] at he
  have good : ∀ l : List (Str × Str), (∀ st ∈ l, PieceText st.1 st.2) → ∀ t ∈ l.map (·.2), GoodText t := by
    intro l hl t ht
    obtain ⟨st, hst, rfl⟩ := List.mem_map.mp ht
    exact pieceText_good (hl st hst)
  exact slashed_inj (good _ a2) (good _ b2) (hh _ _ ⟨row, h1, .inl ⟨sts, a1, a2, rfl⟩⟩ ⟨row', h1', .inl ⟨sts', b1, b2, rfl⟩⟩ he)

/-- Rows from strings with common rules at every level are fit for the stages. -/
theorem rowsOK_of {Row : List Str → Prop} (hh : NoHashClash h Row) {R : List Ins} (hlen : ∀ x ∈ R, x.path.length = n)
    (hpos : ∀ x ∈ R, 1 ≤ x.count) (hrow : ∀ x ∈ R, ∃ row, Row row ∧ RawRow x row)
    (hrul : ∃ rules : List Str, (∀ x ∈ R, x.path.map (·.1.fuzzyRule) = rules) ∧ ∀ j r, m.pathDepth = j + 1 → rules[j]? = some r → '/' ∉ r) :
    RowsOK (TopOK h m) n R := by
  have hget : ∀ x ∈ R, ∀ j, j < n → ∃ row s, Row row ∧ s ∈ row ∧ (∀ c ∈ s, Known c) ∧ x.pp j = pieceOf s := by
    intro x hx j hj
    obtain ⟨row, h1, h2⟩ := hrow x hx
    have hj' : j < row.length := by rw [← h2.length, hlen x hx]; exact hj
    have hg : row[j]? = some row[j] := List.getElem?_eq_getElem hj'
    exact ⟨row, row[j], h1, List.getElem_mem hj', h2.known _ (List.getElem_mem hj'), (h2.pp hg).1⟩
  obtain ⟨rules, hr1, hr2⟩ := hrul
  have hrj : ∀ x ∈ R, ∀ j, j < n → rules[j]? = some (x.pp j).fuzzyRule := by
    intro x hx j hj
    have hj' : j < x.path.length := by rw [hlen x hx]; exact hj
    rw [← hr1 x hx, List.getElem?_map, List.getElem?_eq_getElem hj']
    simp [Ins.pp, List.getElem?_eq_getElem hj']
  refine ⟨hlen, hpos, ?_, ?_⟩
  · intro j hj
    refine ⟨?_, ?_, ?_, ?_⟩
    · intro p hp
      obtain ⟨x, hx, rfl⟩ := List.mem_map.mp hp
      obtain ⟨row, s, -, -, h3, h4⟩ := hget x hx j hj
      exact ⟨s, h3, h4⟩
    · refine ⟨(rules[j]?).getD [], ?_⟩
      intro p hp
      obtain ⟨x, hx, rfl⟩ := List.mem_map.mp hp
      rw [hrj x hx j hj]; rfl
    · intro hd p hp
      obtain ⟨x, hx, rfl⟩ := List.mem_map.mp hp
      exact hr2 j _ hd (hrj x hx j hj)
    · apply subHash_of hh
      intro p hp
      obtain ⟨x, hx, rfl⟩ := List.mem_map.mp hp
      exact hget x hx j hj
  · intro j hj x hx y hy he
    obtain ⟨-, s, -, -, h3, h4⟩ := hget x hx j hj
    obtain ⟨-, s', -, -, h3', h4'⟩ := hget y hy j hj
    rw [h4, h4'] at he ⊢
    rw [pieceOf_inj (runsOf_spec h3) (runsOf_spec h3') he]

end

end OsUrl
