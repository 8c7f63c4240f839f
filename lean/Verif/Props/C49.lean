import Verif.Proofs.Closed5

/-! # C49: the clusters in closed form -/

namespace OsUrl
open Spec

/-- The URLs with structure `m` and pieces `row` that are loaded and accepted. -/
def LoadedRow (hist : List (Str × Option Str)) (m : URLMeta) (row : List Str) : Prop :=
  (∃ u md, (u, md) ∈ hist ∧ startsWith ['/'] u = false ∧ analyzeUrl u = .ok (m, row)) ∧ ∀ s ∈ row, ∀ c ∈ s, Known c

theorem loadedRow_rec {hist : List (Str × Option Str)} {m : URLMeta} {row : List Str} (h : LoadedRow hist m row) :
    ∃ r ∈ accepted hist, r.m = m ∧ r.pps = row.map pieceOf := by
  obtain ⟨⟨u, md, hu, hs, ha⟩, hk⟩ := h
  refine ⟨⟨m, row.map pieceOf, md⟩, mem_accepted.mpr ⟨u, hu, ?_⟩, rfl, rfl⟩
  have hp : row.mapM parsePiece = .ok (row.map pieceOf) := by
    clear ha
    induction row with
    | nil => rfl
    | cons s row ih =>
      rw [List.mapM_cons, parsePiece_eq, if_pos (hk s (by simp)), ih (fun x hx => hk x (by simp [hx]))]
      rfl
  unfold parse
  rw [if_neg (by rw [hs]; simp), ha]
  simp only [bind, Except.bind, pure, Except.pure, hp]

theorem rec_loadedRow {hist : List (Str × Option Str)} {r : Rec} (h : r ∈ accepted hist) :
    ∃ row, LoadedRow hist r.m row ∧ r.pps = row.map pieceOf := by
  obtain ⟨u, hu, hp⟩ := mem_accepted.mp h
  obtain ⟨pieces, h1, h2⟩ := parse_pieces hp
  obtain ⟨hk, he⟩ := parsePieces_ok h2
  refine ⟨pieces, ⟨⟨u, r.md, hu, ?_, h1⟩, hk⟩, he⟩
  cases hs : startsWith ['/'] u with
  | false => rfl
  | true =>
    unfold parse at hp
    rw [if_pos hs] at hp
    cases ha : analyzeUrlPatternString u with
    | error e => simp [ha, bind, Except.bind] at hp
    | ok v =>
      simp only [ha, bind, Except.bind, pure, Except.pure] at hp
      split at hp
      · cases hp
      · simp at hp

/-- **C49**: `make()` yields, for every URL that was loaded, the cluster `clusterOf` computes from the pieces of the
loaded URLs with the same structure and the same classes - same members, same pattern for every piece -
and nothing else. -/
theorem C49_closed (md5 : Str → Str) (h : Runtime) (mcn : Int) (hm : 2 ≤ mcn) (hist : List (Str × Option Str))
    (hc : NoCollision md5 (accepted hist)) (hh : NoHashClash h (UrlRow hist)) :
    ∃ cs, PatternMakerSt.make h mcn (loadAll md5 hist) = .ok cs ∧
      (∀ m row, LoadedRow hist m row → ∀ R : List (List Str), R.Nodup →
        (∀ row', row' ∈ R ↔ LoadedRow hist m row' ∧ row'.map (fun s => clsText (cut s)) = row.map (fun s => clsText (cut s))) →
        ∃ c ∈ cs, c.1 = m ∧
          (c.2.paths.map (fun p => p.map (fun kn => (kn.1, kn.2.pattern)))).Perm (clusterOf mcn m.pathDepth R row)) ∧
      (∀ c ∈ cs, ∃ row, LoadedRow hist c.1 row ∧ ∀ R : List (List Str), R.Nodup →
        (∀ row', row' ∈ R ↔ LoadedRow hist c.1 row' ∧ row'.map (fun s => clsText (cut s)) = row.map (fun s => clsText (cut s))) →
          (c.2.paths.map (fun p => p.map (fun kn => (kn.1, kn.2.pattern)))).Perm (clusterOf mcn c.1.pathDepth R row)) := by
  obtain ⟨Ms, h1, h2, h3⟩ := make_all md5 hm hc hh
  -- the rows of a sub-maker
  have rows : ∀ M ∈ Ms, ∀ r ∈ M.g, ∀ row, LoadedRow hist r.m row → r.pps = row.map pieceOf → ∀ R : List (List Str),
      (∀ row', row' ∈ R ↔ LoadedRow hist r.m row' ∧ row'.map (fun s => clsText (cut s)) = row.map (fun s => clsText (cut s))) →
      ∀ row', (∀ s ∈ row', ∀ c ∈ s, Known c) → (row' ∈ R ↔ ∃ r' ∈ M.g, r'.pps = row'.map pieceOf) := by
    intro M hM r hr row hrow hpps R hR row' hk'
    have hacc := (h3 M hM).acc
    rw [hR]
    constructor
    · rintro ⟨hl, hcls⟩
      obtain ⟨r', hr', hm', hp'⟩ := loadedRow_rec hl
      refine ⟨r', ?_, hp'⟩
      rw [made_mem md5 h1 hM hr, sid_eq_iff hc hr' (hacc r hr)]
      refine ⟨hr', hm', ?_⟩
      unfold Rec.rules
      rw [hp', hpps, row_rules hk', row_rules hrow.2, hcls]
    · rintro ⟨r', hr', hp'⟩
      have hr2 := (made_mem md5 h1 hM hr r').mp hr'
      rw [sid_eq_iff hc hr2.1 (hacc r hr)] at hr2
      obtain ⟨hra, hrm, hrr⟩ := hr2
      obtain ⟨row2, hl2, hp2⟩ := rec_loadedRow hra
      have e : row2 = row' := row_inj hl2.2 hk' (hp2.symm.trans hp')
      subst e
      refine ⟨hrm ▸ hl2, ?_⟩
      rw [← row_rules hk', ← row_rules hrow.2, ← hp2, ← hpps]
      exact hrr
  refine ⟨_, h2, ?_, ?_⟩
  · intro m row hl R hRn hR
    obtain ⟨r, hr, hrm, hp⟩ := loadedRow_rec hl
    obtain ⟨M, hM, hrM⟩ := made_find md5 h1 hr
    have hMok := h3 M hM
    have hMm : M.m = m := by
      obtain ⟨_, a1⟩ := hMok.all
      rw [← (a1 r hrM).1, hrm]
    have hy : (⟨r.pps.map (fun pp => (pp, none)), 1, []⟩ : Ins) ∈ (norm (insOf M.g)).map Ins.mute :=
      (muted_mem hMok.acc _).mpr ⟨r, hrM, rfl⟩
    obtain ⟨y, hy, ey⟩ := List.mem_map.mp hy
    rw [← hMok.cl.perm.mem_iff, List.mem_map] at hy
    obtain ⟨z, hz, ez⟩ := hy
    obtain ⟨C, hC, hzC⟩ := List.mem_flatten.mp hz
    refine ⟨(M.m, doneTree M.m.depth C), List.mem_flatMap.mpr ⟨M, hM, List.mem_map_of_mem hC⟩, hMm, ?_⟩
    subst hrm
    rw [← hMm]
    exact cluster_closed hm hMok (clusterOK hMok hC) hrM hl.2 hp hzC (by rw [← ey, ← ez, mute_bare]) hRn
      (fun row' h' => ((hR row').mp h').1.2) (rows M hM r hrM row hl hp R hR)
  · intro c hcm
    obtain ⟨M, hM, hMok, C, hC, e1, hK⟩ := mem_out h3 hcm
    obtain ⟨x, hx⟩ := List.exists_mem_of_ne_nil _ hK.final.ne
    obtain ⟨r, hr, hxr⟩ := (muted_mem hMok.acc x.mute).mp (by
      rw [← mute_bare]; exact List.mem_map_of_mem (hK.sub x hx))
    obtain ⟨row, hl, hp⟩ := rec_loadedRow (hMok.acc r hr)
    have hMm : r.m = M.m := by
      obtain ⟨_, a1⟩ := hMok.all
      exact (a1 r hr).1
    rw [e1]
    refine ⟨row, hMm ▸ hl, ?_⟩
    intro R hRn hR
    exact cluster_closed hm hMok hK hr hl.2 hp hx hxr hRn
      (fun row' h' => ((hR row').mp h').1.2) (rows M hM r hr row hl hp R (by rw [hMm]; exact hR))

/-- Seven URLs of one structure: what `make()` yields ... -/
example : showMade ([c!"a-1.html", c!"b-2.html", c!"cc-31.html", c!"a1-b.html", c!"c2-d.html", c!"e3f-g3.html", c!"a1b2c3-d.htm"].map (c!"http://h/" ++ ·)) 3 =
    .ok [([c!"[a-z]+[\\-][0-9]+[\\.]html"], [[c!"a[\\-]1[\\.]html"], [c!"b[\\-]2[\\.]html"], [c!"cc[\\-]31[\\.]html"]]),
      ([c!"[0-9a-z]+[\\-][a-z][\\.][a-z]+"], [[c!"a1[\\-]b[\\.]html"], [c!"c2[\\-]d[\\.]html"], [c!"a1b2c3[\\-]d[\\.]htm"]]),
      ([c!"e3f[\\-]g3[\\.]html"], [[c!"e3f[\\-]g3[\\.]html"]])] := by decide +kernel

/-- ... and what the closed form says about three of them. -/
example : [c!"b-2.html", c!"c2-d.html", c!"e3f-g3.html"].map (fun s => clusterOf 3 1
      ([c!"a-1.html", c!"b-2.html", c!"cc-31.html", c!"a1-b.html", c!"c2-d.html", c!"e3f-g3.html", c!"a1b2c3-d.htm"].map (fun v => [v])) [s]) =
    [[[(c!"a[\\-]1[\\.]html", c!"[a-z]+[\\-][0-9]+[\\.]html")], [(c!"b[\\-]2[\\.]html", c!"[a-z]+[\\-][0-9]+[\\.]html")],
        [(c!"cc[\\-]31[\\.]html", c!"[a-z]+[\\-][0-9]+[\\.]html")]],
      [[(c!"a1[\\-]b[\\.]html", c!"[0-9a-z]+[\\-][a-z][\\.][a-z]+")], [(c!"c2[\\-]d[\\.]html", c!"[0-9a-z]+[\\-][a-z][\\.][a-z]+")],
        [(c!"a1b2c3[\\-]d[\\.]htm", c!"[0-9a-z]+[\\-][a-z][\\.][a-z]+")]],
      [[(c!"e3f[\\-]g3[\\.]html", c!"e3f[\\-]g3[\\.]html")]]] := by decide +kernel

/-- Two columns: the four rows with one letter are put together; the numbers of the other two are then too few. -/
example : [[c!"b", c!"20"], [c!"dd", c!"30"]].map (clusterOf 3 2 [[c!"a", c!"1"], [c!"a", c!"2"], [c!"b", c!"20"], [c!"c", c!"30"], [c!"dd", c!"30"], [c!"ee", c!"30"]]) =
    [[[(c!"a", c!"[a-z]"), (c!"1", c!"[0-9]+")], [(c!"a", c!"[a-z]"), (c!"2", c!"[0-9]+")], [(c!"b", c!"[a-z]"), (c!"20", c!"[0-9]+")],
      [(c!"c", c!"[a-z]"), (c!"30", c!"[0-9]+")]], [[(c!"dd", c!"dd"), (c!"30", c!"30")]]] := by decide +kernel

end OsUrl
