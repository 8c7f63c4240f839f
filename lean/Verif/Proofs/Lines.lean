import Verif.Model.Io
import Verif.Spec.Lines
import Verif.Props.C47
import Verif.Props.C50

/-! The lines of a byte string, and the characters of what is printed. -/

namespace OsUrl
open Spec

theorem binaryLines_line {x : Bytes} (hx : (10 : UInt8) ∉ x) (rest : Bytes) : binaryLines (x ++ 10 :: rest) = (x ++ [10]) :: binaryLines rest := by
  induction x with
  | nil => simp [binaryLines]
  | cons b x ih =>
    rw [List.cons_append, binaryLines, ih (fun h => hx (by simp [h]))]
    rw [if_neg (fun e => hx (by simp [e]))]
    rfl

theorem binaryLines_last {x : Bytes} (hx : (10 : UInt8) ∉ x) (hne : x ≠ []) : binaryLines x = [x] := by
  induction x with
  | nil => exact absurd rfl hne
  | cons b x ih =>
    rw [binaryLines, if_neg (fun e => hx (by simp [e]))]
    cases x with
    | nil => rfl
    | cons c x => rw [ih (fun h => hx (by simp [h])) (by simp)]

theorem binaryLines_spec (b : Bytes) : LinesOf b (binaryLines b) := by
  induction b with
  | nil => exact ⟨rfl, fun i l h => by simp [binaryLines] at h⟩
  | cons b bs ih =>
    rw [binaryLines]
    by_cases hb : b = 10
    · rw [if_pos hb]
      subst hb
      refine ⟨by rw [List.flatten_cons, ih.all]; rfl, ?_⟩
      intro i l h
      cases i with
      | zero =>
        simp only [List.getElem?_cons_zero, Option.some.injEq] at h
        exact ⟨[], by simp, .inl h.symm⟩
      | succ i =>
        obtain ⟨x, h1, h2⟩ := ih.line i l (by simpa using h)
        refine ⟨x, h1, h2.imp id ?_⟩
        rintro ⟨h3, h4, h5⟩
        exact ⟨h3, h4, by simp [h5]⟩
    · rw [if_neg hb]
      cases e : binaryLines bs with
      | nil =>
        have := ih.all
        rw [e] at this
        refine ⟨by rw [← this]; rfl, ?_⟩
        intro i l h
        cases i with
        | zero =>
          simp only [List.getElem?_cons_zero, Option.some.injEq] at h
          exact ⟨[b], by simpa using Ne.symm hb, .inr ⟨h.symm, by simp, rfl⟩⟩
        | succ i => simp at h
      | cons l0 ls =>
        rw [e] at ih
        refine ⟨by rw [← ih.all]; rfl, ?_⟩
        intro i l h
        cases i with
        | zero =>
          simp only [List.getElem?_cons_zero, Option.some.injEq] at h
          obtain ⟨x, h1, h2⟩ := ih.line 0 l0 rfl
          refine ⟨b :: x, by simpa using ⟨Ne.symm hb, h1⟩, ?_⟩
          rcases h2 with h2 | ⟨h2, h3, h4⟩
          · left; rw [← h, h2]; rfl
          · right; exact ⟨by rw [← h, h2], by simp, h4⟩
        | succ i =>
          obtain ⟨x, h1, h2⟩ := ih.line (i + 1) l (by simpa using h)
          exact ⟨x, h1, h2⟩

theorem linesOf_unique {b : Bytes} {ls : List Bytes} (h : LinesOf b ls) : ls = binaryLines b := by
  induction ls generalizing b with
  | nil =>
    have := h.all
    simp only [List.flatten_nil] at this
    rw [← this]; rfl
  | cons l ls ih =>
    obtain ⟨x, h1, h2⟩ := h.line 0 l rfl
    have hall := h.all
    rw [List.flatten_cons] at hall
    rcases h2 with h2 | ⟨h2, h3, h4⟩
    · have : LinesOf ls.flatten ls := by
        refine ⟨rfl, fun i l' hl => ?_⟩
        obtain ⟨y, g1, g2⟩ := h.line (i + 1) l' (by simpa using hl)
        refine ⟨y, g1, g2.imp id ?_⟩
        rintro ⟨g3, g4, g5⟩
        exact ⟨g3, g4, by simpa using g5⟩
      rw [← hall, h2, List.append_assoc, List.singleton_append, binaryLines_line h1, ← ih this]
    · have : ls = [] := by
        have : ls.length = 0 := by simpa using h4.symm
        exact List.length_eq_zero_iff.mp this
      subst this
      rw [← hall, List.flatten_nil, List.append_nil, h2, binaryLines_last h1 h3]

theorem binaryLines_isLine {b l : Bytes} (h : l ∈ binaryLines b) : IsLine l := by
  obtain ⟨i, hi⟩ := List.mem_iff_getElem?.mp h
  obtain ⟨x, h1, h2⟩ := (binaryLines_spec b).line i l hi
  refine ⟨x, h1, ?_⟩
  rcases h2 with h2 | ⟨h2, -⟩
  · exact .inr h2
  · exact .inl h2

theorem chainLines_isLine {files : List Bytes} : ∀ l ∈ chainLines files, IsLine l := by
  intro l hl
  obtain ⟨b, -, hl⟩ := List.mem_flatMap.mp hl
  exact binaryLines_isLine hl

theorem linesOf_map {α : Type} (f : α → Bytes) (l : List α) (h : ∀ a ∈ l, (10 : UInt8) ∉ f a) :
    LinesOf (l.map (fun a => f a ++ [10])).flatten (l.map (fun a => f a ++ [10])) := by
  refine ⟨rfl, fun i x hx => ?_⟩
  obtain ⟨a, ha, rfl⟩ := List.mem_map.mp (List.mem_of_getElem? hx)
  exact ⟨f a, h a ha, .inl rfl⟩

/-! ### what is printed -/

theorem classOf_graph {g : List (Space × Str)} {k : Str} (hv : ∀ r ∈ g, r.1.Valid) (h : ClassOf g k) : ∀ c ∈ k, Graph c := by
  obtain ⟨R, h1, -, rfl⟩ := h
  intro c hc
  obtain ⟨w, hw, hc⟩ := List.mem_flatten.mp hc
  obtain ⟨sp, hsp, rfl⟩ := List.mem_map.mp hw
  obtain ⟨r, hr, rfl⟩ := (h1 sp).mp hsp
  exact text_graph (hv r hr) c hc

theorem pieceText_graph {s t : Str} (h : PieceTextS s t) : ∀ c ∈ t, Graph c := by
  obtain ⟨gts, ⟨hr, ht⟩, rfl, -⟩ := h
  have hq : ∀ n : Nat, ∀ c ∈ (if n = 1 then [] else '{' :: decimal n ++ ['}'] : Str), Graph c := by
    intro n c hc
    split at hc
    · cases hc
    · simp only [List.mem_cons, List.mem_append, List.cons_append, List.not_mem_nil, or_false] at hc
      rcases hc with rfl | hc | rfl
      · decide
      · exact decimal_graph n c hc
      · decide
  intro c hc
  obtain ⟨w, hw, hc⟩ := List.mem_flatten.mp hc
  obtain ⟨gt, hgt, rfl⟩ := List.mem_map.mp hw
  have hrun : ∀ r ∈ gt.1, r.2 ≠ [] ∧ ∀ c ∈ r.2, space? c = some r.1 := by
    intro r hrm
    have : r ∈ (gts.map (·.1)).flatten := List.mem_flatten.mpr ⟨gt.1, List.mem_map_of_mem hgt, hrm⟩
    exact ⟨hr.nonempty r this, hr.space r this⟩
  have hval : ∀ r ∈ gt.1, r.1.Valid := by
    intro r hrm
    obtain ⟨h1, h2⟩ := hrun r hrm
    obtain ⟨d, hd⟩ := List.exists_mem_of_ne_nil _ h1
    exact space_valid (h2 d hd)
  have hg := ht gt hgt
  revert hc
  generalize gt.2 = t at hg
  intro hc
  cases hg with
  | lit =>
    obtain ⟨w, hw, hc⟩ := List.mem_flatten.mp hc
    obtain ⟨r, hrm, rfl⟩ := List.mem_map.mp hw
    obtain ⟨h1, h2⟩ := hrun r hrm
    unfold runText at hc
    split at hc
    · simp only [List.mem_cons, List.mem_append, List.cons_append] at hc
      rcases hc with rfl | hc | rfl | hc
      · decide
      · exact text_graph (hval r hrm) c hc
      · decide
      · exact hq _ c hc
    · exact known_graph (by unfold Known; rw [h2 c hc]; rfl)
  | len h1 h2 =>
    simp only [List.mem_cons, List.mem_append, List.cons_append] at hc
    rcases hc with rfl | hc | rfl | hc
    · decide
    · exact classOf_graph hval h2 c hc
    · decide
    · exact hq _ c hc
  | wild h1 h2 =>
    simp only [List.mem_cons, List.mem_append, List.cons_append, List.not_mem_nil, or_false] at hc
    rcases hc with rfl | hc | rfl | rfl
    · decide
    · exact classOf_graph hval h2 c hc
    · decide
    · decide

theorem printed_graph (md5 : Str → Str) {h : Runtime} {mcn : Int} {hist : List (Str × Option Str)} (hm : 2 ≤ mcn)
    (hc : NoCollision md5 (accepted hist)) (hh : NoHashClash h (UrlRow hist)) {cs : List (URLMeta × Tree NodeData)}
    (hcs : PatternMakerSt.make h mcn (loadAll md5 hist) = .ok cs) : ∀ r ∈ printedLines cs, ∀ c ∈ r, Graph c := by
  obtain ⟨Ms, -, h2, h3⟩ := make_all md5 hm hc hh
  rw [hcs] at h2
  cases h2
  intro r hr
  obtain ⟨c, hcm, hr⟩ := List.mem_flatMap.mp hr
  obtain ⟨M, -, hM, C, -, e1, hK⟩ := mem_out h3 hcm
  obtain ⟨x, hx⟩ := List.exists_mem_of_ne_nil _ hK.final.ne
  obtain ⟨q, hq, -⟩ := path_of_row hK hx
  rw [e1] at hr
  rw [(mem_printed hK hq).mp hr]
  obtain ⟨r, hr, u, row, hu, ha, hk, hpps, he, hR⟩ := path_url hM hK hq
  obtain ⟨sts, a1, a2, a3⟩ := path_textS hm hh hM hK hq hR
  refine pack_graph (analyzeUrl_keys ha) ?_
  intro p hp
  unfold pathPatterns at hp
  rw [a3] at hp
  obtain ⟨st, hst, rfl⟩ := List.mem_map.mp hp
  exact pieceText_graph (a2 st hst)

/-! ### the two ways of loading -/

theorem urlsOf_flip {env : Env} {b b' : Bool} {lines : List Bytes} {u : Str} {md : Option Str} (h : (u, md) ∈ urlsOf env b lines) :
    ∃ md', (u, md') ∈ urlsOf env b' lines := by
  obtain ⟨l, hl, e⟩ := List.mem_filterMap.mp h
  cases ho : urlOf env l with
  | none => rw [ho] at e; cases e
  | some v =>
    rw [ho] at e
    simp only [Option.map_some, Option.some.injEq, Prod.mk.injEq] at e
    exact ⟨_, List.mem_filterMap.mpr ⟨l, hl, by rw [ho, ← e.1]; rfl⟩⟩

theorem noCollision_flip {env : Env} {lines : List Bytes} {b : Bool} (b' : Bool) (hc : NoCollision env.md5 (accepted (urlsOf env b lines))) :
    NoCollision env.md5 (accepted (urlsOf env b' lines)) := by
  have key : ∀ r ∈ accepted (urlsOf env b' lines), ∃ r' ∈ accepted (urlsOf env b lines), r'.m = r.m ∧ r'.rules = r.rules := by
    intro r hr
    obtain ⟨u, hu, e⟩ := mem_accepted.mp hr
    obtain ⟨md, hmd⟩ := urlsOf_flip (b' := b) hu
    exact ⟨⟨r.m, r.pps, md⟩, mem_accepted.mpr ⟨u, hmd, e⟩, rfl, rfl⟩
  intro r hr r' hr' he
  obtain ⟨q, hq, q1, q2⟩ := key r hr
  obtain ⟨q', hq', q1', q2'⟩ := key r' hr'
  rw [← q1, ← q2, ← q1', ← q2'] at he ⊢
  exact hc q hq q' hq' he

theorem urlRow_flip {env : Env} {lines : List Bytes} (b b' : Bool) : UrlRow (urlsOf env b lines) = UrlRow (urlsOf env b' lines) := by
  funext row
  apply propext
  have key : ∀ b b' : Bool, UrlRow (urlsOf env b lines) row → UrlRow (urlsOf env b' lines) row := by
    rintro b b' ⟨u, md, m, hu, e⟩
    obtain ⟨md', hmd⟩ := urlsOf_flip (b' := b') hu
    exact ⟨u, md', m, hmd, e⟩
  exact ⟨key b b', key b' b⟩

theorem noBackslash_flip {env : Env} {lines : List Bytes} {b : Bool} (b' : Bool) (hb : NoBackslash (urlsOf env b lines)) :
    NoBackslash (urlsOf env b' lines) := by
  intro u md m row hu ha
  obtain ⟨md', hmd⟩ := urlsOf_flip (b' := b) hu
  exact hb u md' m row hmd ha

/-! ### no newline in a record -/

theorem encode_cons {env : Env} (hu : StrictUtf8 env) (c : Char) (s : Str) : env.encode (c :: s) = env.encode [c] ++ env.encode s :=
  hu.append [c] s

theorem url_no_nl {env : Env} (hu : StrictUtf8 env) {lines : List Bytes} (hl : ∀ l ∈ lines, IsLine l) {u : Str} (h : u ∈ inputUrls env lines) :
    (10 : UInt8) ∉ env.encode u := by
  obtain ⟨l, hlm, e⟩ := List.mem_filterMap.mp h
  unfold urlOf at e
  split at e
  · cases e
  · rw [hu.decode _ _ e]
    exact strip_no_nl (hl l hlm)

theorem graph_no_nl {env : Env} (hu : StrictUtf8 env) {s : Str} (hs : ∀ c ∈ s, Graph c) : (10 : UInt8) ∉ env.encode s := by
  rw [encode_graph hu hs]
  intro h
  obtain ⟨c, hc, e⟩ := List.mem_map.mp h
  have := graph_space (hs c hc)
  rw [e] at this
  exact absurd this (by decide)

theorem tab_no_nl {env : Env} (hu : StrictUtf8 env) {s : Str} (hs : (10 : UInt8) ∉ env.encode s) : (10 : UInt8) ∉ env.encode ('\t' :: s) := by
  rw [encode_cons hu, hu.tab]
  simpa using hs

end OsUrl
