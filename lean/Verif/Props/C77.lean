import Verif.Proofs.Lazy2
import Verif.Props.C24
import Verif.Props.C22

/-! # C77: `make()` is a generator: loads between two `next`, abandoned and parallel generators -/

namespace OsUrl
open Spec

/-- **C77**: generators, used up, abandoned or running, leave no trace.  After any calls of `load`, `make` and `next` a new `make()`
yields what it yields after the loads alone. -/
theorem C77_restart (md5 : Str → Str) (h : Runtime) (mcn : Int) (hm : 2 ≤ mcn) (ops : List Op)
    (hc : NoCollision md5 (accepted (loads ops))) (hh : NoHashClash h (UrlRow (loads ops))) :
    ∃ cs, (loadAll md5 (loads ops)).make h mcn = .ok cs ∧ (MakerWorld.run md5 h mcn ops ⟨[], []⟩).st.make h mcn = .ok cs := by
  have hst := run_unpat (h := h) (mcn := mcn) md5 hm ops (H := []) (w := ⟨[], []⟩) rfl (by simpa using hc) (by simpa using hh)
  rw [List.nil_append] at hst
  obtain ⟨Ms, -, h3, -⟩ := make_all md5 hm hc hh
  exact ⟨_, h3, by rw [(state_unpat md5 hm hc hh hst).1, h3]⟩

/-- **C77**: all answers of a generator.  It takes the digests that are there at its first `next` in their order, each with the loads
before the first cluster of its turn.  It ends with `StopIteration` after the last turn, or with `RuntimeError` after a turn during
which (or since which) a URL with a new digest was loaded; then with `StopIteration` for ever. -/
theorem C77_turns (md5 : Str → Str) (h : Runtime) (mcn : Int) (hm : 2 ≤ mcn) (i : Nat) (ops0 ops1 : List Op) (hi : i < makes ops0)
    (hn : Op.next i ∉ ops0) (hc : NoCollision md5 (accepted (loads (ops0 ++ ops1)))) (hh : NoHashClash h (UrlRow (loads (ops0 ++ ops1)))) :
    ∃ T, Turns md5 h mcn (structs md5 (loads ops0)) T ∧
      ((∃ cur rest, TurnAt md5 h mcn (structs md5 (loads ops0)) T.length cur rest ∧
          answers md5 h mcn i (ops0 ++ Op.next i :: ops1) ⟨[], []⟩ [] = (T.flatten ++ cur).map yieldedAt) ∨
        ∃ Hend later, (∀ x ∈ later, x.2 = Next.stopped) ∧
          ((T.length = (structs md5 (loads ops0)).length ∧ structs md5 Hend = structs md5 (loads ops0) ∧
              answers md5 h mcn i (ops0 ++ Op.next i :: ops1) ⟨[], []⟩ [] = T.flatten.map yieldedAt ++ (Hend, .stopped) :: later) ∨
            (structs md5 Hend ≠ structs md5 (loads ops0) ∧
              answers md5 h mcn i (ops0 ++ Op.next i :: ops1) ⟨[], []⟩ [] = T.flatten.map yieldedAt ++ (Hend, .changed) :: later))) := by
  obtain ⟨g, hg⟩ := gen_answers md5 hm i ops0 ops1 hi hn hc hh
  cases g with
  | fresh => exact hg.elim
  | running size pos rest =>
    obtain ⟨-, T, cur, h1, h2, -, h3⟩ := hg
    exact ⟨T, h1, .inl ⟨cur, rest, h2, h3⟩⟩
  | done =>
    obtain ⟨T, Hend, later, h1, h2, h3⟩ := hg
    exact ⟨T, h1, .inr ⟨Hend, later, h2, h3⟩⟩

/-- The loads of an answer lie between. -/
theorem answers_tags (md5 : Str → Str) (h : Runtime) (mcn : Int) (i : Nat) (ops : List Op) : ∀ (w : MakerWorld) (H : List (Str × Option Str)),
    ∀ x ∈ answers md5 h mcn i ops w H, H <+: x.1 ∧ x.1 <+: H ++ loads ops := by
  induction ops with
  | nil => intro w H x hx; simp [answers] at hx
  | cons op ops ih =>
    intro w H x hx
    rw [answers, List.mem_append] at hx
    rw [loads_cons, ← List.append_assoc]
    rcases hx with hx | hx
    · have : x.1 = H := by
        cases ho : (w.step md5 h mcn op).2 with
        | none => rw [ho] at hx; simp [answerOf] at hx
        | some jn =>
          rw [ho] at hx
          simp only [answerOf] at hx
          split at hx
          · rw [List.mem_singleton.mp hx]
          · simp at hx
      rw [this]
      exact ⟨List.prefix_refl _, (List.prefix_append _ _).trans (List.prefix_append _ _)⟩
    · obtain ⟨h1, h2⟩ := ih _ _ x hx
      exact ⟨(List.prefix_append _ _).trans h1, h2⟩

theorem gen_tags (md5 : Str → Str) (h : Runtime) (mcn : Int) (i : Nat) (ops0 ops1 : List Op) (hi : i < makes ops0) (hn : Op.next i ∉ ops0) :
    ∀ x ∈ answers md5 h mcn i (ops0 ++ Op.next i :: ops1) ⟨[], []⟩ [], loads ops0 <+: x.1 ∧ x.1 <+: loads (ops0 ++ ops1) := by
  intro x hx
  rw [answers_append, (fresh_run md5 h mcn i ops0 hn ⟨[], []⟩ [] (.inr ⟨by simp, by simpa using hi⟩)).2, List.nil_append, List.nil_append] at hx
  have := answers_tags md5 h mcn i _ _ _ x hx
  rw [loads_append]
  exact this

/-- A URL with these pieces was loaded. -/
def Loaded (H : List (Str × Option Str)) (m : URLMeta) (ks : List Str) : Prop :=
  ∃ u md pps, (u, md) ∈ H ∧ parse u = .ok (m, .pieces pps) ∧ ks = pps.map (·.piece)

/-- The loaded URLs in the clusters. -/
def rowsOf (ys : List Yielded) : List (URLMeta × List Str) := ys.flatMap (fun y => y.tree.paths.map (fun p => (y.urlMeta, p.map (·.1))))

/-- The clusters among the answers. -/
def yieldsOf (as : List (List (Str × Option Str) × Next)) : List Yielded :=
  as.filterMap (fun x => match x.2 with | .yielded y => some y | _ => none)

theorem turn_rows (md5 : Str → Str) {h : Runtime} {mcn : Int} (hm : 2 ≤ mcn) {H : List (Str × Option Str)} {s : Str}
    (hc : NoCollision md5 (accepted H)) (hh : NoHashClash h (UrlRow H)) {ys : List Yielded} (ht : Turn md5 h mcn s H ys) :
    (rowsOf ys).Nodup ∧ ∀ m ks, (m, ks) ∈ rowsOf ys ↔ Loaded (ofStruct md5 s H) m ks := by
  have hc' : NoCollision md5 (accepted (ofStruct md5 s H)) := by
    rw [accepted_ofStruct]
    exact fun r hr r' hr' => hc r (List.mem_filter.mp hr).1 r' (List.mem_filter.mp hr').1
  have hh' : NoHashClash h (UrlRow (ofStruct md5 s H)) := urlRow_mono (fun x hx => (List.mem_filter.mp hx).1) hh
  obtain ⟨cs, h1, h2, h3, -⟩ := C24_partition md5 h mcn hm _ hc' hh'
  rw [ht.make] at h1
  injection h1 with h1
  subst h1
  rw [List.flatMap_map] at h2 h3
  exact ⟨h2, h3⟩

theorem loaded_struct {md5 : Str → Str} {s : Str} {H : List (Str × Option Str)} {m : URLMeta} {ks : List Str} :
    Loaded (ofStruct md5 s H) m ks ↔ ∃ u md pps, (u, md) ∈ H ∧ parse u = .ok (m, .pieces pps) ∧ ks = pps.map (·.piece) ∧
      fuzzyDigest md5 m (.pieces pps) = s := by
  constructor
  · rintro ⟨u, md, pps, h1, h2, h3⟩
    obtain ⟨h4, h5⟩ := List.mem_filter.mp h1
    have := of_decide_eq_true h5
    unfold structOf at this
    rw [h2] at this
    exact ⟨u, md, pps, h4, h2, h3, Option.some.inj this⟩
  · rintro ⟨u, md, pps, h1, h2, h3, h4⟩
    refine ⟨u, md, pps, List.mem_filter.mpr ⟨h1, ?_⟩, h2, h3⟩
    unfold structOf
    rw [h2]
    simp [h4]

theorem structs_nodup (md5 : Str → Str) (H : List (Str × Option Str)) : (structs md5 H).Nodup := by
  rw [structs, firsts_eq_uniq]; exact nodup_uniq _

theorem rowsOf_append (a b : List Yielded) : rowsOf (a ++ b) = rowsOf a ++ rowsOf b := List.flatMap_append

/-- The loaded URLs in complete turns. -/
theorem turns_rows (md5 : Str → Str) {h : Runtime} {mcn : Int} (hm : 2 ≤ mcn) {H0 Hall : List (Str × Option Str)}
    (hc : NoCollision md5 (accepted Hall)) (hh : NoHashClash h (UrlRow Hall)) {T : List (List (List (Str × Option Str) × Yielded))}
    (hT : Turns md5 h mcn (structs md5 H0) T) (htag : ∀ x ∈ T.flatten, H0 <+: x.1 ∧ x.1 <+: Hall) :
    (rowsOf (T.flatten.map (·.2))).Nodup ∧
    (∀ m ks, (m, ks) ∈ rowsOf (T.flatten.map (·.2)) → ∃ k s, k < T.length ∧ (structs md5 H0)[k]? = some s ∧ Loaded (ofStruct md5 s Hall) m ks) ∧
    (∀ k s m ks, k < T.length → (structs md5 H0)[k]? = some s → Loaded (ofStruct md5 s H0) m ks → (m, ks) ∈ rowsOf (T.flatten.map (·.2))) := by
  refine snoc_ind (P := fun T => Turns md5 h mcn (structs md5 H0) T → (∀ x ∈ T.flatten, H0 <+: x.1 ∧ x.1 <+: Hall) →
    (rowsOf (T.flatten.map (·.2))).Nodup ∧
    (∀ m ks, (m, ks) ∈ rowsOf (T.flatten.map (·.2)) → ∃ k s, k < T.length ∧ (structs md5 H0)[k]? = some s ∧ Loaded (ofStruct md5 s Hall) m ks) ∧
    (∀ k s m ks, k < T.length → (structs md5 H0)[k]? = some s → Loaded (ofStruct md5 s H0) m ks → (m, ks) ∈ rowsOf (T.flatten.map (·.2))))
    ?_ ?_ T hT htag
  · intro _ _
    refine ⟨by simp [rowsOf], by simp [rowsOf], ?_⟩
    intro k s m ks hk; simp at hk
  · intro T t ih hT htag
    have hT' : Turns md5 h mcn (structs md5 H0) T := fun k t' hk => hT k t' (by
      rw [List.getElem?_append_left (List.getElem?_eq_some_iff.mp hk).1]; exact hk)
    rw [List.flatten_append, List.flatten_singleton] at htag ⊢
    obtain ⟨i1, i2, i3⟩ := ih hT' (fun x hx => htag x (by simp [hx]))
    obtain ⟨H, y, t', s, e1, e2, e3, e4⟩ := hT T.length t (by simp)
    obtain ⟨g1, g2⟩ := htag (H, y) (by rw [e1]; simp)
    simp only at g1 g2
    rw [List.append_nil] at e4
    obtain ⟨r1, r2⟩ := turn_rows md5 hm (noCollision_pre g2 hc) (urlRow_mono (mem_append_pre g2) hh) e4
    have mono : ∀ {A B : List (Str × Option Str)} {m ks}, A <+: B → Loaded (ofStruct md5 s A) m ks → Loaded (ofStruct md5 s B) m ks := by
      intro A B m ks hp hl
      obtain ⟨u, md, pps, h1, h2⟩ := loaded_struct.mp hl
      exact loaded_struct.mpr ⟨u, md, pps, hp.subset h1, h2⟩
    rw [List.map_append, rowsOf_append]
    refine ⟨?_, ?_, ?_⟩
    · refine List.nodup_append.mpr ⟨i1, r1, ?_⟩
      rintro ⟨m, ks⟩ ha b hb rfl
      obtain ⟨k, s', hk, hs', hl⟩ := i2 m ks ha
      have hl2 := mono g2 ((r2 m ks).mp hb)
      obtain ⟨u, md, pps, h1, h2, h3, h4⟩ := loaded_struct.mp hl
      obtain ⟨u2, md2, pps2, h12, h22, h32, h42⟩ := loaded_struct.mp hl2
      have hpp : pps = pps2 := same_pps (hist := Hall) (r := ⟨m, pps, md⟩) (r' := ⟨m, pps2, md2⟩) (mem_accepted.mpr ⟨u, h1, h2⟩)
        (mem_accepted.mpr ⟨u2, h12, h22⟩) (by unfold Rec.keys; rw [← h3, ← h32])
      rw [hpp, h42] at h4
      subst h4
      have hlt := (List.getElem?_eq_some_iff.mp e3).1
      have := (List.getElem?_inj (by omega) (structs_nodup md5 H0)).mp (hs'.trans e3.symm)
      omega
    · intro m ks hx
      rcases List.mem_append.mp hx with hx | hx
      · obtain ⟨k, s', hk, hs', hl⟩ := i2 m ks hx
        exact ⟨k, s', by rw [List.length_append]; omega, hs', hl⟩
      · exact ⟨T.length, s, by simp, e3, mono g2 ((r2 m ks).mp hx)⟩
    · intro k s' m ks hk hs' hl
      rw [List.length_append, List.length_singleton] at hk
      rcases Nat.lt_or_ge k T.length with hlt | hge
      · exact List.mem_append_left _ (i3 k s' m ks hlt hs' hl)
      · have : k = T.length := by omega
        rw [this, e3] at hs'
        injection hs' with hs'
        subst hs'
        exact List.mem_append_right _ ((r2 m ks).mpr (mono g1 hl))

theorem yieldsOf_map (l : List (List (Str × Option Str) × Yielded)) : yieldsOf (l.map yieldedAt) = l.map (·.2) := by
  induction l with
  | nil => rfl
  | cons x l ih => unfold yieldsOf at ih ⊢; rw [List.map_cons, List.filterMap_cons]; simp only [yieldedAt]; rw [List.map_cons, ih]

theorem yieldsOf_stopped {l : List (List (Str × Option Str) × Next)} (hl : ∀ x ∈ l, x.2 = Next.stopped) : yieldsOf l = [] := by
  unfold yieldsOf
  rw [List.filterMap_eq_nil_iff]
  intro x hx
  rw [hl x hx]

/-- **C77**: a generator that has come to its end without `RuntimeError` has yielded every URL that was loaded before its first `next`
in exactly one cluster, and nothing that was not loaded, whatever was loaded in between and whatever other generators did. -/
theorem C77_complete (md5 : Str → Str) (h : Runtime) (mcn : Int) (hm : 2 ≤ mcn) (i : Nat) (ops0 ops1 : List Op) (hi : i < makes ops0)
    (hn : Op.next i ∉ ops0) (hc : NoCollision md5 (accepted (loads (ops0 ++ ops1)))) (hh : NoHashClash h (UrlRow (loads (ops0 ++ ops1))))
    (hstop : ∃ x ∈ answers md5 h mcn i (ops0 ++ Op.next i :: ops1) ⟨[], []⟩ [], x.2 = .stopped)
    (hchg : ∀ x ∈ answers md5 h mcn i (ops0 ++ Op.next i :: ops1) ⟨[], []⟩ [], x.2 ≠ .changed) :
    (rowsOf (yieldsOf (answers md5 h mcn i (ops0 ++ Op.next i :: ops1) ⟨[], []⟩ []))).Nodup ∧
    (∀ m ks, Loaded (loads ops0) m ks → (m, ks) ∈ rowsOf (yieldsOf (answers md5 h mcn i (ops0 ++ Op.next i :: ops1) ⟨[], []⟩ []))) ∧
    (∀ m ks, (m, ks) ∈ rowsOf (yieldsOf (answers md5 h mcn i (ops0 ++ Op.next i :: ops1) ⟨[], []⟩ [])) → Loaded (loads (ops0 ++ ops1)) m ks) := by
  obtain ⟨T, hT, hcase⟩ := C77_turns md5 h mcn hm i ops0 ops1 hi hn hc hh
  have htags := gen_tags md5 h mcn i ops0 ops1 hi hn
  rcases hcase with ⟨cur, rest, -, e⟩ | ⟨Hend, later, hl, ⟨hlen, -, e⟩ | ⟨-, e⟩⟩
  · rw [e] at hstop
    obtain ⟨x, hx, hx2⟩ := hstop
    obtain ⟨z, -, rfl⟩ := List.mem_map.mp hx
    simp [yieldedAt] at hx2
  · rw [e] at htags ⊢
    have hy : yieldsOf (T.flatten.map yieldedAt ++ (Hend, .stopped) :: later) = T.flatten.map (·.2) := by
      have h2 : yieldsOf ((Hend, Next.stopped) :: later) = [] := yieldsOf_stopped (by
        intro x hx
        rcases List.mem_cons.mp hx with rfl | hx
        · rfl
        · exact hl x hx)
      have h1 := yieldsOf_map T.flatten
      unfold yieldsOf at h1 h2 ⊢
      rw [List.filterMap_append, h1, h2, List.append_nil]
    rw [hy]
    obtain ⟨r1, r2, r3⟩ := turns_rows md5 hm hc hh hT (fun x hx => htags (yieldedAt x) (List.mem_append_left _ (List.mem_map.mpr ⟨x, hx, rfl⟩)))
    refine ⟨r1, ?_, ?_⟩
    · rintro m ks ⟨u, md, pps, h1, h2, h3⟩
      have hs : fuzzyDigest md5 m (.pieces pps) ∈ structs md5 (loads ops0) := by
        rw [structs, firsts_eq_uniq, mem_uniq, List.mem_filterMap]
        exact ⟨(u, md), h1, by unfold structOf; rw [h2]⟩
      obtain ⟨k, hk⟩ := List.mem_iff_getElem?.mp hs
      exact r3 k _ m ks (by rw [hlen]; exact (List.getElem?_eq_some_iff.mp hk).1) hk (loaded_struct.mpr ⟨u, md, pps, h1, h2, h3, rfl⟩)
    · intro m ks hx
      obtain ⟨k, s, -, -, hl⟩ := r2 m ks hx
      obtain ⟨u, md, pps, h1, h2, h3, -⟩ := loaded_struct.mp hl
      exact ⟨u, md, pps, h1, h2, h3⟩
  · exact absurd rfl (hchg (Hend, .changed) (by rw [e]; simp))

theorem new_struct {md5 : Str → Str} {H H' : List (Str × Option Str)} (hp : H <+: H') (hs : structs md5 H' ≠ structs md5 H) :
    ∃ u md s, (u, md) ∈ H' ∧ structOf md5 u = some s ∧ s ∉ structs md5 H := by
  obtain ⟨r, e⟩ := structs_prefix md5 hp
  cases r with
  | nil => exact absurd (by rw [← e, List.append_nil]) hs
  | cons s r =>
    have hm : s ∈ structs md5 H' := by rw [← e]; simp
    have hnd := structs_nodup md5 H'
    rw [← e] at hnd
    have hs' : s ∉ structs md5 H := fun hx => (List.nodup_append.mp hnd).2.2 s hx s (by simp) rfl
    rw [structs, firsts_eq_uniq, mem_uniq, List.mem_filterMap] at hm
    obtain ⟨⟨u, md⟩, h1, h2⟩ := hm
    exact ⟨u, md, s, h1, h2, hs'⟩

/-- **C77**: `RuntimeError` comes only after a URL with a new digest was loaded since the first `next`. -/
theorem C77_changed (md5 : Str → Str) (h : Runtime) (mcn : Int) (hm : 2 ≤ mcn) (i : Nat) (ops0 ops1 : List Op) (hi : i < makes ops0)
    (hn : Op.next i ∉ ops0) (hc : NoCollision md5 (accepted (loads (ops0 ++ ops1)))) (hh : NoHashClash h (UrlRow (loads (ops0 ++ ops1)))) :
    ∀ x ∈ answers md5 h mcn i (ops0 ++ Op.next i :: ops1) ⟨[], []⟩ [], x.2 = .changed →
      ∃ u md s, (u, md) ∈ x.1 ∧ structOf md5 u = some s ∧ ∀ u' md', (u', md') ∈ loads ops0 → structOf md5 u' ≠ some s := by
  intro x hx hx2
  have htags := gen_tags md5 h mcn i ops0 ops1 hi hn x hx
  obtain ⟨T, hT, hcase⟩ := C77_turns md5 h mcn hm i ops0 ops1 hi hn hc hh
  have hy : ∀ {l : List (List (Str × Option Str) × Yielded)}, x ∉ l.map yieldedAt := by
    intro l hl
    obtain ⟨z, -, rfl⟩ := List.mem_map.mp hl
    simp [yieldedAt] at hx2
  have key : structs md5 x.1 ≠ structs md5 (loads ops0) := by
    rcases hcase with ⟨cur, rest, -, e⟩ | ⟨Hend, later, hl, ⟨hlen, -, e⟩ | ⟨hne, e⟩⟩
    · rw [e] at hx; exact absurd hx hy
    · rw [e, List.mem_append] at hx
      rcases hx with hx | hx
      · exact absurd hx hy
      · rcases List.mem_cons.mp hx with rfl | hx
        · simp at hx2
        · rw [hl x hx] at hx2; simp at hx2
    · rw [e, List.mem_append] at hx
      rcases hx with hx | hx
      · exact absurd hx hy
      · rcases List.mem_cons.mp hx with rfl | hx
        · exact hne
        · rw [hl x hx] at hx2; simp at hx2
  obtain ⟨u, md, s, h1, h2, h3⟩ := new_struct htags.1 key
  refine ⟨u, md, s, h1, h2, ?_⟩
  intro u' md' hu' hs'
  refine h3 ?_
  rw [structs, firsts_eq_uniq, mem_uniq, List.mem_filterMap]
  exact ⟨_, hu', hs'⟩

/-- **C77**: and it does come: a generator that is not yet at its end when a URL with a new digest is loaded ends with `RuntimeError`. -/
theorem C77_changes (md5 : Str → Str) (h : Runtime) (mcn : Int) (hm : 2 ≤ mcn) (i : Nat) (ops0 ops1 ops2 : List Op) (u : Str) (md : Option Str) (s : Str)
    (hi : i < makes ops0) (hn : Op.next i ∉ ops0) (hc : NoCollision md5 (accepted (loads (ops0 ++ (ops1 ++ Op.load u md :: ops2)))))
    (hh : NoHashClash h (UrlRow (loads (ops0 ++ (ops1 ++ Op.load u md :: ops2)))))
    (hu : structOf md5 u = some s) (hs : ∀ u' md', (u', md') ∈ loads ops0 → structOf md5 u' ≠ some s)
    (hrun : ∀ x ∈ answers md5 h mcn i (ops0 ++ Op.next i :: ops1) ⟨[], []⟩ [], x.2 ≠ .stopped)
    (hend : ∃ x ∈ answers md5 h mcn i (ops0 ++ Op.next i :: (ops1 ++ Op.load u md :: ops2)) ⟨[], []⟩ [], x.2 = .stopped) :
    ∃ x ∈ answers md5 h mcn i (ops0 ++ Op.next i :: (ops1 ++ Op.load u md :: ops2)) ⟨[], []⟩ [], x.2 = .changed := by
  obtain ⟨T, hT, hcase⟩ := C77_turns md5 h mcn hm i ops0 _ hi hn hc hh
  rcases hcase with ⟨cur, rest, -, e⟩ | ⟨Hend, later, hl, ⟨hlen, hse, e⟩ | ⟨hne, e⟩⟩
  · rw [e] at hend
    obtain ⟨x, hx, hx2⟩ := hend
    obtain ⟨z, -, rfl⟩ := List.mem_map.mp hx
    simp [yieldedAt] at hx2
  · exfalso
    have hmem : (Hend, Next.stopped) ∈ answers md5 h mcn i (ops0 ++ Op.next i :: (ops1 ++ Op.load u md :: ops2)) ⟨[], []⟩ [] := by rw [e]; simp
    have hsplit : ops0 ++ Op.next i :: (ops1 ++ Op.load u md :: ops2) = (ops0 ++ Op.next i :: ops1) ++ Op.load u md :: ops2 := by simp
    rw [hsplit, answers_append, List.mem_append] at hmem
    rcases hmem with hmem | hmem
    · exact hrun _ hmem rfl
    · rw [answers] at hmem
      have hmem' : (Hend, Next.stopped) ∈ answers md5 h mcn i ops2 ((MakerWorld.run md5 h mcn (ops0 ++ Op.next i :: ops1) ⟨[], []⟩).step md5 h mcn (.load u md)).1
          ([] ++ loads (ops0 ++ Op.next i :: ops1) ++ loads [Op.load u md]) := hmem
      have htag := (answers_tags md5 h mcn i ops2 _ _ _ hmem').1
      have hin : (u, md) ∈ Hend := htag.subset (by simp [loads])
      have : s ∈ structs md5 Hend := by
        rw [structs, firsts_eq_uniq, mem_uniq, List.mem_filterMap]
        exact ⟨(u, md), hin, hu⟩
      rw [hse, structs, firsts_eq_uniq, mem_uniq, List.mem_filterMap] at this
      obtain ⟨⟨u', md'⟩, h1, h2⟩ := this
      exact hs u' md' h1 h2
  · exact ⟨(Hend, .changed), by rw [e]; simp, rfl⟩

/-- The clusters of the loads with one digest. -/
def clustersOf (md5 : Str → Str) (h : Runtime) (mcn : Int) (H : List (Str × Option Str)) (s : Str) : List (URLMeta × Tree NodeData) :=
  match PatternMakerSt.make h mcn (loadAll md5 (ofStruct md5 s H)) with
  | .ok cs => cs
  | .error _ => []

/-- `make()` takes one digest after the other. -/
theorem make_structs (md5 : Str → Str) {h : Runtime} {mcn : Int} (hm : 2 ≤ mcn) {H : List (Str × Option Str)}
    (hc : NoCollision md5 (accepted H)) (hh : NoHashClash h (UrlRow H)) :
    (loadAll md5 H).make h mcn = .ok ((structs md5 H).flatMap (clustersOf md5 h mcn H)) := by
  have key : ∀ kg ∈ groupBy (Rec.sid md5) (accepted H), ((makerOf kg.2).make h mcn >>= fun ts => pure (ts.map (fun t => ((makerOf kg.2).urlMeta, t)))) =
      (.ok (clustersOf md5 h mcn H kg.1) : Py _) := by
    rintro ⟨s, g⟩ hg
    have h1 := loadAll_ofStruct md5 hc hg
    obtain ⟨Ms, -, h3, -⟩ := make_all (h := h) (mcn := mcn) (hist := ofStruct md5 s H) md5 hm (by
      rw [accepted_ofStruct]
      exact fun r hr r' hr' => hc r (List.mem_filter.mp hr).1 r' (List.mem_filter.mp hr').1)
      (urlRow_mono (fun x hx => (List.mem_filter.mp hx).1) hh)
    unfold clustersOf
    rw [h3]
    rw [h1] at h3
    unfold PatternMakerSt.make at h3
    simp only [List.mapM_cons, List.mapM_nil] at h3
    simp only
    cases hmk : (makerOf g).make h mcn with
    | error e => rw [hmk] at h3; cases h3
    | ok ts =>
      rw [hmk] at h3
      simp only [bind, Except.bind, pure, Except.pure, List.flatten_cons, List.flatten_nil, List.append_nil] at h3 ⊢
      exact h3
  unfold PatternMakerSt.make
  rw [loadAll_eq md5 H hc, List.mapM_map]
  show (List.mapM (fun kg : Str × List Rec => (makerOf kg.2).make h mcn >>= fun ts => pure (ts.map (fun t => ((makerOf kg.2).urlMeta, t)))) _ >>=
    fun rs => pure rs.flatten) = (_ : Py _)
  rw [mapM_const (g := fun kg => clustersOf md5 h mcn H kg.1) (fun kg hkg => key kg hkg), structs_eq]
  simp only [bind, Except.bind, pure, Except.pure]
  rw [List.flatMap_def, List.map_map]
  rfl

theorem answers_length (md5 : Str → Str) (h : Runtime) (mcn : Int) (i n : Nat) : ∀ (w : MakerWorld) (H : List (Str × Option Str)), i < w.gens.length →
    (answers md5 h mcn i (List.replicate n (Op.next i)) w H).length = n := by
  induction n with
  | zero => intro w H _; rfl
  | succ n ih =>
    intro w H hi
    rw [List.replicate_succ, answers, step_next_some md5 h mcn (List.getElem?_eq_getElem hi)]
    simp only [answerOf, if_true, List.length_append, List.length_singleton]
    rw [ih _ _ (by simpa using hi)]
    omega

theorem loads_loads (hist : List (Str × Option Str)) : loads (hist.map (fun x => Op.load x.1 x.2)) = hist := by
  induction hist with
  | nil => rfl
  | cons x xs ih => simp only [List.map_cons, loads, ih]

theorem loads_nexts (i n : Nat) : loads (List.replicate n (Op.next i)) = [] := by
  induction n with
  | zero => rfl
  | succ n ih => rw [List.replicate_succ, loads_cons, ih]; rfl

theorem makes_loads (hist : List (Str × Option Str)) : makes (hist.map (fun x => Op.load x.1 x.2) ++ [Op.make]) = 1 := by
  induction hist with
  | nil => rfl
  | cons x xs ih => exact ih

/-- What the caller sees of an answer at once. -/
def seen (x : List (Str × Option Str) × Next) : Option (URLMeta × Tree NodeData) :=
  match x.2 with
  | .yielded y => some (y.urlMeta, y.tree)
  | _ => none

theorem take_flatMap_prefix {α β : Type} (f : α → List β) (l : List α) (k : Nat) : (l.take k).flatMap f <+: l.flatMap f :=
  ⟨(l.drop k).flatMap f, by rw [← List.flatMap_append, List.take_append_drop]⟩

/-- Turns with the same loads. -/
theorem turns_same {md5 : Str → Str} {h : Runtime} {mcn : Int} {H : List (Str × Option Str)} {ss : List Str}
    {T : List (List (List (Str × Option Str) × Yielded))} (hT : Turns md5 h mcn ss T) (htag : ∀ x ∈ T.flatten, x.1 = H) :
    T.flatten.map (fun x => (x.2.urlMeta, x.2.tree)) = (ss.take T.length).flatMap (clustersOf md5 h mcn H) := by
  refine snoc_ind (P := fun T => Turns md5 h mcn ss T → (∀ x ∈ T.flatten, x.1 = H) →
    T.flatten.map (fun x => (x.2.urlMeta, x.2.tree)) = (ss.take T.length).flatMap (clustersOf md5 h mcn H)) ?_ ?_ T hT htag
  · intro _ _; simp
  · intro T t ih hT htag
    have hT' : Turns md5 h mcn ss T := fun k t' hk => hT k t' (by
      rw [List.getElem?_append_left (List.getElem?_eq_some_iff.mp hk).1]; exact hk)
    rw [List.flatten_append, List.flatten_singleton] at htag ⊢
    obtain ⟨H', y, t', s, e1, e2, e3, e4⟩ := hT T.length t (by simp)
    have hH : H' = H := htag (H', y) (by rw [e1]; simp)
    subst hH
    rw [List.map_append, ih hT' (fun x hx => htag x (by simp [hx])), List.length_append, List.length_singleton,
      List.take_add_one, e3, List.flatMap_append]
    congr 1
    simp only [Option.toList_some, List.flatMap_cons, List.flatMap_nil, List.append_nil]
    have hmk := e4.make
    unfold clustersOf
    rw [hmk]
    simp

/-- **C77**: a generator nobody disturbs yields the clusters of `make()` one by one and then nothing more. -/
theorem C77_alone (md5 : Str → Str) (h : Runtime) (mcn : Int) (hm : 2 ≤ mcn) (hist : List (Str × Option Str)) (n : Nat)
    (hc : NoCollision md5 (accepted hist)) (hh : NoHashClash h (UrlRow hist)) :
    ∃ cs, (loadAll md5 hist).make h mcn = .ok cs ∧
      (answers md5 h mcn 0 (hist.map (fun x => Op.load x.1 x.2) ++ [Op.make] ++ List.replicate (n + 1) (Op.next 0)) ⟨[], []⟩ []).map seen =
        (cs.map some).take (n + 1) ++ List.replicate (n + 1 - cs.length) none ∧
      ∀ x ∈ answers md5 h mcn 0 (hist.map (fun x => Op.load x.1 x.2) ++ [Op.make] ++ List.replicate (n + 1) (Op.next 0)) ⟨[], []⟩ [],
        seen x = none → x.2 = .stopped := by
  have hl0 : loads (hist.map (fun x => Op.load x.1 x.2) ++ [Op.make]) = hist := by rw [loads_append, loads_loads]; simp [loads]
  have hl1 : loads ((hist.map (fun x => Op.load x.1 x.2) ++ [Op.make]) ++ List.replicate n (Op.next 0)) = hist := by
    rw [loads_append, hl0, loads_nexts, List.append_nil]
  have hi : 0 < makes (hist.map (fun x => Op.load x.1 x.2) ++ [Op.make]) := by rw [makes_loads]; omega
  have hn : Op.next 0 ∉ hist.map (fun x => Op.load x.1 x.2) ++ [Op.make] := by simp
  have htags := gen_tags md5 h mcn 0 _ (List.replicate n (Op.next 0)) hi hn
  obtain ⟨T, hT, hcase⟩ := C77_turns md5 h mcn hm 0 _ (List.replicate n (Op.next 0)) hi hn (by rw [hl1]; exact hc) (by rw [hl1]; exact hh)
  have hlen : (answers md5 h mcn 0 (hist.map (fun x => Op.load x.1 x.2) ++ [Op.make] ++ List.replicate (n + 1) (Op.next 0)) ⟨[], []⟩ []).length = n + 1 := by
    obtain ⟨f1, f2⟩ := fresh_run md5 h mcn 0 _ hn ⟨[], []⟩ [] (.inr ⟨by simp, by simpa using hi⟩)
    rw [answers_append, f2, List.nil_append, answers_length]
    exact (List.getElem?_eq_some_iff.mp f1).1
  rw [List.replicate_succ] at hlen ⊢
  rw [hl0] at hT hcase
  rw [hl0, hl1] at htags
  have htag : ∀ x ∈ answers md5 h mcn 0 (hist.map (fun x => Op.load x.1 x.2) ++ [Op.make] ++ Op.next 0 :: List.replicate n (Op.next 0)) ⟨[], []⟩ [], x.1 = hist :=
    fun x hx => (htags x hx).2.eq_of_length_le (htags x hx).1.length_le
  generalize answers md5 h mcn 0 (hist.map (fun x => Op.load x.1 x.2) ++ [Op.make] ++ Op.next 0 :: List.replicate n (Op.next 0)) ⟨[], []⟩ [] = as at *
  refine ⟨_, make_structs md5 hm hc hh, ?_⟩
  have hseen : ∀ l : List (List (Str × Option Str) × Yielded), (l.map yieldedAt).map seen = (l.map (fun x => (x.2.urlMeta, x.2.tree))).map some := by
    intro l; rw [List.map_map, List.map_map]; rfl
  have hy : ∀ (l : List (List (Str × Option Str) × Yielded)), ∀ x ∈ l.map yieldedAt, seen x ≠ none := by
    intro l x hx
    obtain ⟨z, -, rfl⟩ := List.mem_map.mp hx
    simp [yieldedAt, seen]
  rcases hcase with ⟨cur, rest, hcur, e⟩ | ⟨Hend, later, hl, ⟨hTl, -, e⟩ | ⟨hne, e⟩⟩
  · have hcl : (T.flatten ++ cur).map (fun x => (x.2.urlMeta, x.2.tree)) <+: (structs md5 hist).flatMap (clustersOf md5 h mcn hist) := by
      have h1 := turns_same (H := hist) hT (fun x hx => htag (yieldedAt x) (by rw [e]; exact List.mem_map.mpr ⟨x, by simp [hx], rfl⟩))
      obtain ⟨H', y, t', s, e1, e2, e3, e4⟩ := hcur
      have hH : H' = hist := htag (yieldedAt (H', y)) (by rw [e]; exact List.mem_map.mpr ⟨_, by rw [e1]; simp, rfl⟩)
      subst hH
      have h2 : cur.map (fun x => (x.2.urlMeta, x.2.tree)) <+: clustersOf md5 h mcn H' s := by
        unfold clustersOf
        rw [e4.make]
        exact ⟨rest.map (fun y => (y.urlMeta, y.tree)), by simp⟩
      refine List.IsPrefix.trans ?_ (take_flatMap_prefix _ _ (T.length + 1))
      rw [List.map_append, h1, List.take_add_one, e3, List.flatMap_append]
      simp only [Option.toList_some, List.flatMap_cons, List.flatMap_nil, List.append_nil]
      exact (List.prefix_append_right_inj _).mpr h2
    have hll : (T.flatten ++ cur).length = n + 1 := by rw [← hlen, e, List.length_map]
    refine ⟨?_, ?_⟩
    · rw [e, hseen, ← List.map_take, Nat.sub_eq_zero_of_le (by have := hcl.length_le; rw [List.length_map, hll] at this; exact this),
        List.replicate_zero, List.append_nil]
      congr 1
      have := List.prefix_iff_eq_take.mp hcl
      rw [List.length_map, hll] at this
      exact this
    · intro x hx hx2
      rw [e] at hx
      exact absurd hx2 (hy _ x hx)
  · have h1 := turns_same (H := hist) hT (fun x hx => htag (yieldedAt x) (by rw [e]; exact List.mem_append_left _ (List.mem_map.mpr ⟨x, hx, rfl⟩)))
    rw [hTl, List.take_length] at h1
    have hst : ∀ x ∈ (Hend, Next.stopped) :: later, x.2 = Next.stopped := by
      intro x hx
      rcases List.mem_cons.mp hx with rfl | hx
      · rfl
      · exact hl x hx
    have hll : T.flatten.length + (later.length + 1) = n + 1 := by
      rw [← hlen, e, List.length_append, List.length_map, List.length_cons]
    have hcl : ((structs md5 hist).flatMap (clustersOf md5 h mcn hist)).length = T.flatten.length := by rw [← h1, List.length_map]
    refine ⟨?_, ?_⟩
    · rw [e, List.map_append, hseen, h1, List.take_of_length_le (by rw [List.length_map, hcl]; omega), hcl]
      congr 1
      refine List.eq_replicate_iff.mpr ⟨by rw [List.length_map, List.length_cons]; omega, ?_⟩
      intro b hb
      obtain ⟨x, hx, rfl⟩ := List.mem_map.mp hb
      unfold seen
      rw [hst x hx]
    · intro x hx hx2
      rw [e, List.mem_append] at hx
      rcases hx with hx | hx
      · exact absurd hx2 (hy _ x hx)
      · exact hst x hx
  · have := htag (Hend, .changed) (by rw [e]; simp)
    simp only at this
    exact absurd (by rw [this]) hne

/-- **C77**, clusters in the hands of the caller: where a digest has two clusters or more, they are copies and stay as they are. -/
theorem C77_copies (md5 : Str → Str) (h : Runtime) (mcn : Int) (s : Str) (H : List (Str × Option Str)) (ys : List Yielded)
    (ht : Turn md5 h mcn s H ys) (h2 : 2 ≤ ys.length) (y : Yielded) (hy : y ∈ ys) (st : PatternMakerSt) : y.look st = y.tree := by
  cases ho : y.own with
  | none => unfold Yielded.look; rw [ho]
  | some s' =>
    have := (ht.own y hy (by rw [ho]; simp)).2
    rw [this] at h2
    simp at h2

theorem paths_unpat_keys : (f : Forest NodeData) → f.unpat.paths.map (fun p => p.map (·.1)) = f.paths.map (fun p => p.map (·.1))
  | .nil => rfl
  | .cons k d .nil sibs => by
    have h2 := paths_unpat_keys sibs
    simp only [Forest.unpat, Forest.paths, List.map_append, h2]
    rfl
  | .cons k d (.cons k' d' kids' sibs') sibs => by
    have h1 := paths_unpat_keys (.cons k' d' kids' sibs')
    have h2 := paths_unpat_keys sibs
    rw [Forest.unpat] at h1
    have h3 := congrArg (List.map (k :: ·)) h1
    simp only [List.map_map] at h3
    show List.map _ (((Forest.cons k' d'.unpat kids'.unpat sibs'.unpat).paths.map ((k, d.unpat) :: ·)) ++ sibs.unpat.paths) =
      List.map _ (((Forest.cons k' d' kids' sibs').paths.map ((k, d) :: ·)) ++ sibs.paths)
    rw [List.map_append, List.map_append, h2, List.map_map, List.map_map]
    exact congrArg (· ++ _) h3

theorem tree_unpat_keys (t : Tree NodeData) : t.unpat.paths.map (fun p => p.map (·.1)) = t.paths.map (fun p => p.map (·.1)) := by
  obtain ⟨d, f⟩ := t
  cases f with
  | nil => rfl
  | cons k d kids sibs => exact paths_unpat_keys (.cons k d kids sibs)

theorem mem_structs {md5 : Str → Str} {H : List (Str × Option Str)} {s : Str} : s ∈ structs md5 H ↔ ∃ r ∈ accepted H, r.sid md5 = s := by
  rw [structs, ← accepted_structs, firsts_eq_uniq, mem_uniq, List.mem_map]

/-- **C77**: a cluster that is alone for its digest may be the tree of the sub-maker itself.  Looked at later it contains every URL
with this digest that was loaded by then, also after the `next`. -/
theorem C77_own (md5 : Str → Str) (h : Runtime) (mcn : Int) (hm : 2 ≤ mcn) (i : Nat) (ops0 ops1 : List Op) (hi : i < makes ops0)
    (hn : Op.next i ∉ ops0) (hc : NoCollision md5 (accepted (loads (ops0 ++ Op.next i :: ops1)))) (hh : NoHashClash h (UrlRow (loads (ops0 ++ Op.next i :: ops1))))
    (x : List (Str × Option Str) × Next) (hx : x ∈ answers md5 h mcn i (ops0 ++ Op.next i :: ops1) ⟨[], []⟩ []) (y : Yielded) (s : Str)
    (hy : x.2 = .yielded y) (ho : y.own = some s) :
    ∀ ks, ks ∈ (y.look (MakerWorld.run md5 h mcn (ops0 ++ Op.next i :: ops1) ⟨[], []⟩).st).paths.map (fun p => p.map (·.1)) ↔
      ∃ m, Loaded (ofStruct md5 s (loads (ops0 ++ Op.next i :: ops1))) m ks := by
  have hl : loads (ops0 ++ Op.next i :: ops1) = loads (ops0 ++ ops1) := by rw [loads_append, loads_append]; rfl
  have hst := run_unpat (h := h) (mcn := mcn) md5 hm (ops0 ++ Op.next i :: ops1) (H := []) (w := ⟨[], []⟩) rfl (by simpa using hc) (by simpa using hh)
  rw [List.nil_append] at hst
  -- the digest was there at the first `next`
  have hs : s ∈ structs md5 (loads ops0) := by
    have hin : ∀ (t : List (List (Str × Option Str) × Yielded)) (rest : List Yielded) k, TurnAt md5 h mcn (structs md5 (loads ops0)) k t rest →
        x ∈ t.map yieldedAt → s ∈ structs md5 (loads ops0) := by
      rintro t rest k ⟨H, y', t', s', e1, -, e3, e4⟩ hxt
      obtain ⟨z, hz, rfl⟩ := List.mem_map.mp hxt
      have hzy : z.2 = y := by simpa [yieldedAt] using hy
      have := (e4.own y (List.mem_append_left _ (List.mem_map.mpr ⟨z, hz, hzy⟩)) (by rw [ho]; simp)).1
      rw [ho] at this
      injection this with this
      rw [this]
      exact List.mem_of_getElem? e3
    have hinT : ∀ T : List (List (List (Str × Option Str) × Yielded)), Turns md5 h mcn (structs md5 (loads ops0)) T →
        x ∈ T.flatten.map yieldedAt → s ∈ structs md5 (loads ops0) := by
      intro T hT hxT
      obtain ⟨z, hz, e⟩ := List.mem_map.mp hxT
      obtain ⟨t, ht, hzt⟩ := List.mem_flatten.mp hz
      obtain ⟨k, hk⟩ := List.mem_iff_getElem?.mp ht
      exact hin t [] k (hT k t hk) (List.mem_map.mpr ⟨z, hzt, e⟩)
    have hend : ∀ (n : Next) (later : List (List (Str × Option Str) × Next)) H, (∀ x ∈ later, x.2 = Next.stopped) → (∀ y, n ≠ .yielded y) →
        x ∉ (H, n) :: later := by
      intro n later H hl hne hx
      rcases List.mem_cons.mp hx with rfl | hx
      · exact hne y hy
      · rw [hl x hx] at hy; simp at hy
    rw [hl] at hc hh
    obtain ⟨T, hT, hcase⟩ := C77_turns md5 h mcn hm i ops0 ops1 hi hn hc hh
    rcases hcase with ⟨cur, rest, hcur, e⟩ | ⟨Hend, later, hl', ⟨-, -, e⟩ | ⟨-, e⟩⟩
    · rw [e, List.map_append, List.mem_append] at hx
      rcases hx with hx | hx
      · exact hinT T hT hx
      · exact hin cur rest _ hcur hx
    · rw [e, List.mem_append] at hx
      rcases hx with hx | hx
      · exact hinT T hT hx
      · exact absurd hx (hend _ _ _ hl' (by simp))
    · rw [e, List.mem_append] at hx
      rcases hx with hx | hx
      · exact hinT T hT hx
      · exact absurd hx (hend _ _ _ hl' (by simp))
  have hs2 : s ∈ structs md5 (loads (ops0 ++ Op.next i :: ops1)) := by
    rw [loads_append]
    exact (structs_prefix md5 (List.prefix_append _ _)).subset hs
  generalize loads (ops0 ++ Op.next i :: ops1) = L at *
  obtain ⟨hnd, hall, hrows⟩ := C22_makers md5 L hc
  obtain ⟨r0, hr0, e0⟩ := mem_structs.mp hs2
  obtain ⟨mk0, hmk0⟩ := hall r0 hr0
  rw [e0] at hmk0
  obtain ⟨r, hr, er, -, -, hks⟩ := hrows s mk0 hmk0
  have hget : Dict.get? s (MakerWorld.run md5 h mcn (ops0 ++ Op.next i :: ops1) ⟨[], []⟩).st.unpat = some mk0 := by
    rw [hst]; exact Dict.get?_of_mem hnd hmk0
  unfold PatternMakerSt.unpat at hget
  rw [dict_get?_map] at hget
  intro ks
  unfold Yielded.look
  rw [ho]
  cases hg : Dict.get? s (MakerWorld.run md5 h mcn (ops0 ++ Op.next i :: ops1) ⟨[], []⟩).st with
  | none => rw [hg] at hget; cases hget
  | some mk =>
    rw [hg] at hget
    injection hget with hget
    simp only [hg, Option.map_some, Option.getD_some]
    have : mk0.tree = mk.tree.unpat := by rw [← hget]; rfl
    rw [this, tree_unpat_keys] at hks
    rw [hks ks]
    constructor
    · rintro ⟨r', hr', e1, e2, e3⟩
      obtain ⟨u, hu, hp⟩ := mem_accepted.mp hr'
      refine ⟨r'.m, loaded_struct.mpr ⟨u, r'.md, r'.pps, hu, hp, e3.symm, ?_⟩⟩
      show r'.sid md5 = s
      rw [← er]
      exact (sid_eq_iff hc hr' hr).mpr ⟨e1, e2⟩
    · rintro ⟨m, hl⟩
      obtain ⟨u, md, pps, h1, h2, h3, h4⟩ := loaded_struct.mp hl
      have hr' : (⟨m, pps, md⟩ : Rec) ∈ accepted L := mem_accepted.mpr ⟨u, h1, h2⟩
      have := (sid_eq_iff hc hr' hr).mp (by rw [er]; exact h4)
      exact ⟨_, hr', this.1, this.2, h3.symm⟩

def lazyOps : List Op := [.load c!"http://h/a" none, .make, .next 0]

/-- **C77**: so it is not true that a cluster in the hands of the caller does not change: `http://h/a` alone is yielded as a cluster of one
path; after the load of `http://h/b` the same object has two. -/
theorem C77_snapshot : ¬ ∀ (mcn : Int) (ops ops' : List Op) (x : List (Str × Option Str) × Next) (y : Yielded), 2 ≤ mcn →
    x ∈ answers id codeHash mcn 0 ops ⟨[], []⟩ [] → x.2 = .yielded y →
      (y.look (MakerWorld.run id codeHash mcn (ops ++ ops') ⟨[], []⟩).st).paths.length = y.tree.paths.length := by
  intro hall
  have h1 : (answers id codeHash 3 0 lazyOps ⟨[], []⟩ []).all (fun x => match x.2 with
      | .yielded y => (y.look (MakerWorld.run id codeHash 3 (lazyOps ++ [.load c!"http://h/b" none]) ⟨[], []⟩).st).paths.length == 2 && y.tree.paths.length == 1
      | _ => false) = true := by decide +kernel
  have h2 : (answers id codeHash 3 0 lazyOps ⟨[], []⟩ []).length = 1 := by decide +kernel
  generalize ha : answers id codeHash 3 0 lazyOps ⟨[], []⟩ [] = as at h1 h2
  cases as with
  | nil => simp at h2
  | cons x as =>
    have hx := List.all_eq_true.mp h1 x (by simp)
    cases hy : x.2 with
    | yielded y =>
      rw [hy] at hx
      simp only [Bool.and_eq_true, beq_iff_eq] at hx
      have := hall 3 lazyOps [.load c!"http://h/b" none] x y (by decide) (by rw [ha]; simp) hy
      omega
    | stopped => rw [hy] at hx; simp at hx
    | changed => rw [hy] at hx; simp at hx
    | raised e => rw [hy] at hx; simp at hx

/-- What was answered: the pieces with their patterns, or what else. -/
def answered (as : List (List (Str × Option Str) × Next)) : List (Sum (List (List (Str × Str))) Str) :=
  as.map (fun x => match x.2 with
    | .yielded y => .inl (y.tree.paths.map (fun p => p.map (fun kn => (kn.1, kn.2.pattern))))
    | .stopped => .inr c!"StopIteration"
    | .changed => .inr c!"RuntimeError"
    | .raised _ => .inr c!"other")

/-- Loads in between: `http://h/9` comes too late for the first generator, which has already begun with its digest, but not for the second; `http://h/c` is in time
for both. -/
example : answered (answers id codeHash 3 0 [.load c!"http://h/1" none, .load c!"http://h/2" none, .load c!"http://h/a" none, .load c!"http://h/b" none, .make, .make,
    .next 0, .load c!"http://h/9" none, .next 1, .load c!"http://h/c" none, .next 0, .next 0, .next 1, .next 0, .next 0] ⟨[], []⟩ []) =
    [.inl [[(c!"1", c!"1")]], .inl [[(c!"2", c!"2")]], .inl [[(c!"a", c!"[a-z]")], [(c!"b", c!"[a-z]")], [(c!"c", c!"[a-z]")]],
      .inr c!"StopIteration", .inr c!"StopIteration"] := by decide +kernel
example : answered (answers id codeHash 3 1 [.load c!"http://h/1" none, .load c!"http://h/2" none, .load c!"http://h/a" none, .load c!"http://h/b" none, .make, .make,
    .next 0, .load c!"http://h/9" none, .next 1, .load c!"http://h/c" none, .next 0, .next 0, .next 1, .next 0, .next 0] ⟨[], []⟩ []) =
    [.inl [[(c!"1", c!"[0-9]")], [(c!"2", c!"[0-9]")], [(c!"9", c!"[0-9]")]], .inl [[(c!"a", c!"[a-z]")], [(c!"b", c!"[a-z]")], [(c!"c", c!"[a-z]")]]] := by decide +kernel

/-- A new digest: the rest of the turn, then `RuntimeError`. -/
example : answered (answers id codeHash 3 0 [.load c!"http://h/1" none, .load c!"http://h/2" none, .make, .next 0, .load c!"http://h/x1" none, .next 0, .next 0, .next 0] ⟨[], []⟩ []) =
    [.inl [[(c!"1", c!"1")]], .inl [[(c!"2", c!"2")]], .inr c!"RuntimeError", .inr c!"StopIteration"] := by decide +kernel

end OsUrl
