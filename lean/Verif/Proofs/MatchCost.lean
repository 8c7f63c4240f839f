import Verif.Model.MatchCost
import Verif.Proofs.MNodup

/-! The number of calls of `match`. -/

namespace OsUrl
open Spec

/-! ### The count does not change the result -/

/-- `y` is `x` without the number. -/
def Er {α : Type} (x : Py (α × Nat)) (y : Py α) : Prop := Except.map Prod.fst x = y

theorem Er.ok {α : Type} {x : Py (α × Nat)} {y : Py α} (h : Er x y) {a : α} {n : Nat} (hx : x = .ok (a, n)) : y = .ok a := by
  rw [← h, hx]; rfl

theorem er_mapM {α β : Type} {f : α → Py (β × Nat)} {g : α → Py β} (l : List α) (h : ∀ a ∈ l, Er (f a) (g a)) :
    Except.map (List.map Prod.fst) (l.mapM f) = l.mapM g := by
  induction l with
  | nil => rfl
  | cons a l ih =>
    have ih := ih (fun x hx => h x (by simp [hx]))
    have ha := h a (by simp)
    unfold Er at ha
    rw [List.mapM_cons, List.mapM_cons, ← ih, ← ha]
    cases f a with
    | error e => rfl
    | ok b =>
      cases hl : l.mapM f with
      | error e => simp only [bind, Except.bind, Except.map, hl]
      | ok bs => simp only [bind, Except.bind, Except.map, pure, Except.pure, hl]; rfl

section
variable {σ μ : Type}

/-- One view matcher in `mmatchC`. -/
def vmStepC (mt : ViewCls → Option ParsedPiece → σ → Py (List Str × Nat)) (pp : Option ParsedPiece) (rest : List (Option ParsedPiece))
    (pre : List MatchPattern) (kids : Forest (MData σ μ)) (vm : ViewCls × σ) : Py (List (Matched σ μ) × Nat) := do
  let r ← mt vm.1 pp vm.2
  match derefs kids r.1 with
  | [] => return ([], r.2 + 1)
  | (d0, k0) :: ns =>
    if k0.isNil then
      return (((d0, k0) :: ns).map (fun n => (⟨pre ++ [n.1.pat], n.1⟩ : Matched σ μ)), r.2 + 1)
    else do
      let ms ← ((d0, k0) :: ns).mapM (fun n => mmatchC mt rest (pre ++ [n.1.pat]) n.1 n.2)
      return ((ms.map (·.1)).flatten, r.2 + 1 + (ms.map (·.2)).sum)

theorem mmatchC_cons (mt : ViewCls → Option ParsedPiece → σ → Py (List Str × Nat)) (pp : Option ParsedPiece) (rest : List (Option ParsedPiece))
    (pre : List MatchPattern) (d : MData σ μ) (kids : Forest (MData σ μ)) :
    mmatchC mt (pp :: rest) pre d kids = (do
      let rs ← d.vms.mapM (vmStepC mt pp rest pre kids)
      return ((rs.map (·.1)).flatten, 1 + (rs.map (·.2)).sum)) := by
  rw [mmatchC]; rfl

theorem mmatchC_er {mt : ViewCls → Option ParsedPiece → σ → Py (List Str × Nat)} {ops : VMOps σ}
    (h : ∀ c pp s, Er (mt c pp s) (ops.matches_ c pp s)) (pps : List (Option ParsedPiece)) (pre : List MatchPattern)
    (d : MData σ μ) (kids : Forest (MData σ μ)) : Er (mmatchC mt pps pre d kids) (mmatch ops pps pre d kids) := by
  induction pps generalizing pre d kids with
  | nil => simp [Er, mmatchC, mmatch, Except.map]
  | cons pp rest ih =>
    rw [mmatchC_cons, mmatch_cons]
    have hs : ∀ vm ∈ d.vms, Er (vmStepC mt pp rest pre kids vm) (vmStep ops pp rest pre kids vm) := by
      intro vm _
      unfold Er vmStepC vmStep
      have h0 := h vm.1 pp vm.2
      unfold Er at h0
      rw [← h0]
      cases mt vm.1 pp vm.2 with
      | error e => rfl
      | ok r =>
        simp only [bind, Except.bind, Except.map]
        cases hd : derefs kids r.1 with
        | nil => rfl
        | cons x ns =>
          obtain ⟨d0, k0⟩ := x
          simp only
          by_cases hk : k0.isNil = true
          · rw [if_pos hk, if_pos hk]; rfl
          · rw [if_neg hk, if_neg hk]
            have hm := er_mapM ((d0, k0) :: ns) (f := fun n => mmatchC mt rest (pre ++ [n.1.pat]) n.1 n.2)
              (g := fun n => mmatch ops rest (pre ++ [n.1.pat]) n.1 n.2) (fun n _ => ih _ _ _)
            rw [← hm]
            cases ((d0, k0) :: ns).mapM (fun n => mmatchC mt rest (pre ++ [n.1.pat]) n.1 n.2) with
            | error e => rfl
            | ok ms => rfl
    have hm := er_mapM d.vms hs
    unfold Er
    rw [← hm]
    cases d.vms.mapM (vmStepC mt pp rest pre kids) with
    | error e => rfl
    | ok rs => rfl

end

theorem unitMatchC_er (c : ViewCls) (pp : Option ParsedPiece) (s : Store) : Er (unitMatchC c pp s) (unitOps.matches_ c pp s) := by
  unfold Er unitMatchC unitOps
  simp only
  cases s.matches_ pp <;> rfl

theorem urlMatchC_er (c : ViewCls) (pp : Option ParsedPiece) (s : FullStore) : Er (urlMatchC c pp s) (urlOps.matches_ c pp s) := by
  cases s with
  | simple s => exact unitMatchC_er c pp s
  | multi d =>
    show Er (multiMatchC c pp d) (multiMatch c pp d)
    unfold multiMatchC multiMatch
    cases pp with
    | none => rfl
    | some pp =>
      simp only
      cases Dict.get? (viewStr (viewPieces c pp)) d with
      | none => rfl
      | some t =>
        obtain ⟨dt, kids⟩ := t
        simp only
        have := mmatchC_er unitMatchC_er ((viewPieces c pp).map some) [] dt kids
        unfold Er at this
        rw [← this]
        unfold Er
        cases mmatchC unitMatchC ((viewPieces c pp).map some) [] dt kids <;> rfl

theorem matchC_er (md5 : Str → Str) (st : PatternMatcherSt) (url : Str) : Er (st.matchC md5 url) (st.match_ md5 url) := by
  unfold PatternMatcherSt.matchC PatternMatcherSt.match_
  cases parse url with
  | error e => rfl
  | ok r =>
    obtain ⟨m, parsed⟩ := r
    simp only [bind, Except.bind]
    cases Dict.get? (fuzzyDigest md5 m parsed) st with
    | none => rfl
    | some ms => exact mmatchC_er urlMatchC_er _ _ _ _

/-! ### Sums -/

section
variable {α : Type}

theorem tot_split (p : α → Bool) (f : α → Nat) (l : List α) :
    (l.map f).sum = ((l.filter p).map f).sum + ((l.filter (fun x => !p x)).map f).sum := by
  induction l with
  | nil => rfl
  | cons a l ih =>
    rw [List.map_cons, List.sum_cons, ih]
    cases hp : p a
    · rw [List.filter_cons_of_neg (by simp [hp]), List.filter_cons_of_pos (by simp [hp])]
      simp only [List.map_cons, List.sum_cons]; omega
    · rw [List.filter_cons_of_pos hp, List.filter_cons_of_neg (by simp [hp])]
      simp only [List.map_cons, List.sum_cons]; omega

theorem tot_mono {f g : α → Nat} {l : List α} (h : ∀ x ∈ l, f x ≤ g x) : (l.map f).sum ≤ (l.map g).sum := by
  induction l with
  | nil => simp
  | cons a l ih =>
    simp only [List.map_cons, List.sum_cons]
    exact Nat.add_le_add (h a (by simp)) (ih (fun x hx => h x (by simp [hx])))

theorem tot_mem {f : α → Nat} {l : List α} {x : α} (h : x ∈ l) : f x ≤ (l.map f).sum := by
  induction l with
  | nil => cases h
  | cons a l ih =>
    simp only [List.map_cons, List.sum_cons]
    rcases List.mem_cons.mp h with rfl | h
    · omega
    · have := ih h; omega

/-- One element may give more. -/
theorem tot_gain {f g : α → Nat} {l : List α} {x : α} {a : Nat} (hx : x ∈ l) (h0 : g x + a ≤ f x) (h : ∀ y ∈ l, g y ≤ f y) :
    (l.map g).sum + a ≤ (l.map f).sum := by
  induction l with
  | nil => cases hx
  | cons y l ih =>
    simp only [List.map_cons, List.sum_cons]
    rcases List.mem_cons.mp hx with rfl | hx
    · have := tot_mono (f := g) (g := f) (l := l) (fun z hz => h z (by simp [hz]))
      omega
    · have := ih hx (fun z hz => h z (by simp [hz]))
      have := h y (by simp)
      omega

theorem tot_add (f g : α → Nat) (l : List α) : (l.map (fun x => f x + g x)).sum = (l.map f).sum + (l.map g).sum := by
  induction l with
  | nil => rfl
  | cons a l ih => simp only [List.map_cons, List.sum_cons, ih]; omega

variable {κ : Type} [DecidableEq κ]

/-- The groups of different keys are disjoint. -/
theorem tot_groups {ks : List κ} (hn : ks.Nodup) (key : α → κ) (f : α → Nat) (l : List α) :
    (ks.map (fun k => ((l.filter (fun x => decide (key x = k))).map f).sum)).sum ≤ (l.map f).sum := by
  induction ks generalizing l with
  | nil => simp
  | cons k ks ih =>
    obtain ⟨h1, h2⟩ := List.nodup_cons.mp hn
    rw [tot_split (fun x => decide (key x = k)) f l]
    simp only [List.map_cons, List.sum_cons]
    refine Nat.add_le_add (Nat.le_refl _) (Nat.le_trans ?_ (ih h2 (l.filter (fun x => !decide (key x = k)))))
    refine tot_mono ?_
    intro k' hk'
    rw [List.filter_filter]
    have : l.filter (fun x => decide (key x = k')) = l.filter (fun x => decide (key x = k') && !decide (key x = k)) := by
      apply List.filter_congr
      intro x _
      by_cases e : key x = k'
      · have : k' ≠ k := by rintro rfl; exact h1 hk'
        simp [e, this]
      · simp [e]
    rw [this]
    exact Nat.le_refl _

/-- Different keys of elements of a list. -/
theorem tot_keys {ks : List κ} (hn : ks.Nodup) (key : α → κ) (g : κ → Nat) {l : List α} (h : ∀ k ∈ ks, ∃ x ∈ l, key x = k) :
    (ks.map g).sum ≤ (l.map (fun x => g (key x))).sum := by
  refine Nat.le_trans (tot_mono ?_) (tot_groups hn key (fun x => g (key x)) l)
  intro k hk
  obtain ⟨x, hx, rfl⟩ := h k hk
  exact tot_mem (f := fun y => g (key y)) (List.mem_filter.mpr ⟨hx, by simp⟩)

end

theorem mapM_tot {α : Type} {β : Type} {f : α → Py (β × Nat)} {g : α → Nat} {l : List α} {bs : List (β × Nat)} (h : l.mapM f = .ok bs)
    (hg : ∀ a ∈ l, ∀ b, f a = .ok b → b.2 ≤ g a) : (bs.map (·.2)).sum ≤ (l.map g).sum := by
  induction l generalizing bs with
  | nil => rw [mapM_ok_nil h]; simp
  | cons a l ih =>
    obtain ⟨b, bs', h1, h2, rfl⟩ := mapM_ok_cons h
    simp only [List.map_cons, List.sum_cons]
    exact Nat.add_le_add (hg a (by simp) b h1) (ih h2 (fun x hx => hg x (by simp [hx])))

theorem derefs_sum {σ μ : Type} {β : Type} {kids : Forest (MData σ μ)} {keys : List Str}
    {f : MData σ μ × Forest (MData σ μ) → Py (β × Nat)} {g : Str → Nat} {bs : List (β × Nat)}
    (h : (derefs kids keys).mapM f = .ok bs)
    (hg : ∀ k ∈ keys, ∀ x, kids.get? k = some x → ∀ b, f x = .ok b → b.2 ≤ g k) : (bs.map (·.2)).sum ≤ (keys.map g).sum := by
  induction keys generalizing bs with
  | nil =>
    have : bs = [] := mapM_ok_nil (α := MData σ μ × Forest (MData σ μ)) h
    simp [this]
  | cons k keys ih =>
    have hg' := fun k' (hk' : k' ∈ keys) => hg k' (by simp [hk'])
    unfold derefs at h
    cases hk : kids.get? k with
    | none =>
      rw [List.filterMap_cons_none (f := fun k => Forest.get? k kids) hk] at h
      have := ih h hg'
      simp only [List.map_cons, List.sum_cons]
      omega
    | some x =>
      rw [List.filterMap_cons_some (f := fun k => Forest.get? k kids) hk] at h
      obtain ⟨b, bs', h1, h2, rfl⟩ := mapM_ok_cons h
      simp only [List.map_cons, List.sum_cons]
      exact Nat.add_le_add (hg k (by simp) x hk b h1) (ih h2 hg')

/-! ### The bound -/

/-- Calls that a sequence of patterns can cause: `w` inside the view matcher, one for the view matcher, one for the node unless it is a leaf. -/
def wt (w : MatchPattern → Nat) : List MatchPattern → Nat
  | [] => 0
  | [p] => w p + 1
  | p :: q :: ps => w p + 2 + wt w (q :: ps)

theorem wt_cons {w : MatchPattern → Nat} {p : MatchPattern} {ps : List MatchPattern} (h : ps ≠ []) :
    wt w (p :: ps) = w p + 2 + wt w ps := by
  cases ps with
  | nil => exact absurd rfl h
  | cons q ps => rfl

theorem wt_tail (w : MatchPattern → Nat) (p : MatchPattern) (ps : List MatchPattern) : wt w ps ≤ wt w (p :: ps) := by
  cases ps with
  | nil => simp [wt]
  | cons q ps => rw [wt_cons (p := p) (ps := q :: ps) (by simp)]; omega

theorem wt_head (w : MatchPattern → Nat) (p : MatchPattern) (ps : List MatchPattern) : w p + 1 ≤ wt w (p :: ps) := by
  cases ps with
  | nil => simp [wt]
  | cons q ps => rw [wt_cons (by simp)]; omega

/-- The text of the first pattern. -/
def headStr (x : List MatchPattern) : Option Str := x.head?.map (·.str)

/-- The tails of the sequences that begin with `k`. -/
def subK (k : Str) (K : List (List MatchPattern)) : List (List MatchPattern) :=
  (K.filter (fun x => decide (headStr x = some k))).map List.tail

section
variable {σ μ : Type}

/-- The calls inside the view matchers. -/
def InnerLe (ops : VMOps σ) (mt : ViewCls → Option ParsedPiece → σ → Py (List Str × Nat)) (w : MatchPattern → Nat)
    (pp : Option ParsedPiece) (ps : List MatchPattern) : Prop :=
  ∀ vms, addAll ops ps = .ok vms → ∀ vm ∈ vms, ∀ keys c, mt vm.1 pp vm.2 = .ok (keys, c) →
    c ≤ ((ps.filter (fun p => decide (p.cls = vm.1))).map w).sum

/-- One node, given a bound for its children. -/
theorem node_cost {ops : VMOps σ} {mt : ViewCls → Option ParsedPiece → σ → Py (List Str × Nat)} {w : MatchPattern → Nat}
    (her : ∀ c pp s, Er (mt c pp s) (ops.matches_ c pp s)) {ps : List MatchPattern} {vms : List (ViewCls × σ)} (hv : addAll ops ps = .ok vms)
    {pp : Option ParsedPiece} {rest : List (Option ParsedPiece)} {pre : List MatchPattern} {kids : Forest (MData σ μ)}
    (hk : KeysOnce ops pp ps) (hi : InnerLe ops mt w pp ps) (g : Str → Nat)
    (hg : ∀ vm ∈ vms, ∀ keys c, mt vm.1 pp vm.2 = .ok (keys, c) → ∀ r, vmStepC mt pp rest pre kids vm = .ok r →
      r.2 ≤ c + 1 + (keys.map g).sum)
    {rs : List (List (Matched σ μ) × Nat)} (h : vms.mapM (vmStepC mt pp rest pre kids) = .ok rs) :
    (rs.map (·.2)).sum ≤ (ps.map (fun p => w p + 1 + g p.str)).sum := by
  have hvs := addAll_spec hv
  have hnd : (vms.map (·.1)).Nodup := by
    rw [List.Nodup, List.pairwise_map]
    refine hvs.1.imp ?_
    intro a b hab e
    rw [e] at hab
    omega
  refine Nat.le_trans (mapM_tot (g := fun vm => ((ps.filter (fun p => decide (p.cls = vm.1))).map (fun p => w p + 1 + g p.str)).sum) h ?_) ?_
  · intro vm hvm r hr
    obtain ⟨⟨keys, c⟩, hm, -⟩ := bind_ok (x := mt vm.1 pp vm.2) hr
    have h1 := hg vm hvm keys c hm r hr
    have h2 := hi vms hv vm hvm keys c hm
    obtain ⟨h3, h4⟩ := hk vms hv vm hvm keys ((her _ _ _).ok hm)
    have h5 : (keys.map g).sum ≤ ((ps.filter (fun p => decide (p.cls = vm.1))).map (fun p => g p.str)).sum := by
      refine tot_keys h3 (fun p : MatchPattern => p.str) g ?_
      intro k hkk
      obtain ⟨q, hq, e1, e2⟩ := h4 k hkk
      exact ⟨q, List.mem_filter.mpr ⟨hq, by simp [e1]⟩, e2⟩
    obtain ⟨⟨q0, hq0, e0⟩, -⟩ := (hvs.2 vm).mp hvm
    have h6 : 1 ≤ ((ps.filter (fun p => decide (p.cls = vm.1))).map (fun _ => 1)).sum :=
      tot_mem (f := fun _ => 1) (x := q0) (List.mem_filter.mpr ⟨hq0, by simp [e0]⟩)
    rw [tot_add (fun p => w p + 1) (fun p => g p.str), tot_add w (fun _ => 1)]
    omega
  · have := tot_groups hnd (fun p : MatchPattern => p.cls) (fun p => w p + 1 + g p.str) ps
    rw [List.map_map] at this
    exact this

/-- A tree of insertions causes at most the calls of its different sequences. -/
theorem mmatchC_cost {ops : VMOps σ} {mt : ViewCls → Option ParsedPiece → σ → Py (List Str × Nat)} {w : MatchPattern → Nat}
    (her : ∀ c pp s, Er (mt c pp s) (ops.matches_ c pp s)) {n : Nat} {L : List (MIns μ)} {d : MData σ μ} {kids : Forest (MData σ μ)}
    (hT : T ops (n + 1) L d kids) (hL : ∀ y ∈ L, y.1.length = n + 1) (hc : Coh L) {K : List (List MatchPattern)} (hK : ∀ y ∈ L, y.1 ∈ K)
    {pps : List (Option ParsedPiece)} {pre : List MatchPattern} {r : List (Matched σ μ) × Nat}
    (h : mmatchC mt pps pre d kids = .ok r)
    (hm : ∀ (i : Nat) pp, pps[i]? = some pp → ∀ ps : List MatchPattern, (∀ p ∈ ps, ∃ x ∈ L, x.1[i]? = some p) →
      ps.Nodup → KeysOnce ops pp ps ∧ InnerLe ops mt w pp ps) :
    r.2 ≤ 1 + (K.map (wt w)).sum := by
  induction n generalizing L d kids pps pre r K with
  | zero =>
    cases pps with
    | nil => simp [mmatchC] at h
    | cons pp rest =>
      rw [mmatchC_cons] at h
      obtain ⟨rs, h1, h⟩ := bind_ok h
      simp only [pure, Except.pure, Except.ok.injEq] at h
      rw [← h]
      obtain ⟨hk, hi⟩ := hm 0 pp (by simp) (uniq (heads L)) (by
          intro p hp
          obtain ⟨ps, md, hin⟩ := mem_heads.mp (mem_uniq.mp hp)
          exact ⟨_, hin, by simp⟩) (nodup_uniq _)
      have hnode := node_cost her hT.1 hk hi (fun _ => 0) (by
        intro vm hvm keys c hmt r hr
        unfold vmStepC at hr
        rw [hmt] at hr
        simp only [bind, Except.bind] at hr
        cases hd : derefs kids keys with
        | nil => rw [hd] at hr; simp [pure, Except.pure] at hr; rw [← hr]; simp
        | cons x xs =>
          have hx : x ∈ derefs kids keys := by rw [hd]; simp
          rw [hd] at hr
          obtain ⟨k, -, hg⟩ := mem_derefs.mp hx
          obtain ⟨d0, k0⟩ := x
          obtain ⟨hs, -, -, hT'⟩ := hT.child hg
          simp only at hr
          rw [if_pos ((hT'.isNil (sub_length hL) hs).mpr rfl)] at hr
          simp only [pure, Except.pure, Except.ok.injEq] at hr
          rw [← hr]; simp) h1
      refine Nat.add_le_add (Nat.le_refl _) (Nat.le_trans hnode ?_)
      have hst : ((uniq (heads L)).map (·.str)).Nodup :=
        strs_nodup (nodup_uniq _) (fun p hp q hq e => hc.head (mem_uniq.mp hp) (mem_uniq.mp hq) e)
      have hg := tot_groups (ks := (uniq (heads L)).map (fun p => some p.str)) (by
          rw [List.Nodup, List.pairwise_map] at hst ⊢
          exact hst.imp (fun hab e => hab (Option.some.inj e))) headStr (wt w) K
      refine Nat.le_trans ?_ hg
      rw [List.map_map]
      refine tot_mono ?_
      intro p hp
      obtain ⟨ps, md, hin⟩ := mem_heads.mp (mem_uniq.mp hp)
      refine Nat.le_trans (wt_head w p ps) (tot_mem (f := wt w) (List.mem_filter.mpr ⟨hK _ hin, ?_⟩))
      simp [headStr]
  | succ n ih =>
    cases pps with
    | nil => simp [mmatchC] at h
    | cons pp rest =>
      rw [mmatchC_cons] at h
      obtain ⟨rs, h1, h⟩ := bind_ok h
      simp only [pure, Except.pure, Except.ok.injEq] at h
      rw [← h]
      obtain ⟨hk, hi⟩ := hm 0 pp (by simp) (uniq (heads L)) (by
          intro p hp
          obtain ⟨ps, md, hin⟩ := mem_heads.mp (mem_uniq.mp hp)
          exact ⟨_, hin, by simp⟩) (nodup_uniq _)
      have hnode := node_cost her hT.1 hk hi (fun k => 1 + ((subK k K).map (wt w)).sum) (by
        intro vm hvm keys c hmt r hr
        unfold vmStepC at hr
        rw [hmt] at hr
        simp only [bind, Except.bind] at hr
        cases hd : derefs kids keys with
        | nil => rw [hd] at hr; simp [pure, Except.pure] at hr; rw [← hr]; simp
        | cons x xs =>
          have hx : x ∈ derefs kids keys := by rw [hd]; simp
          rw [hd] at hr
          obtain ⟨k, -, hg⟩ := mem_derefs.mp hx
          obtain ⟨d0, k0⟩ := x
          obtain ⟨hs, -, -, hT'⟩ := hT.child hg
          simp only at hr
          rw [if_neg (fun e => by have := (hT'.isNil (sub_length hL) hs).mp e; omega)] at hr
          rw [← hd] at hr
          cases hms : (derefs kids keys).mapM (fun n => mmatchC mt rest (pre ++ [n.1.pat]) n.1 n.2) with
          | error e => rw [hms] at hr; simp at hr
          | ok ms =>
            rw [hms] at hr
            simp only [pure, Except.pure, Except.ok.injEq] at hr
            rw [← hr]
            refine Nat.add_le_add (Nat.le_refl _) ?_
            refine derefs_sum hms ?_
            intro k' _ x hx b hb
            obtain ⟨d1, k1⟩ := x
            obtain ⟨-, -, -, hT1⟩ := hT.child hx
            refine ih hT1 (sub_length hL) (hc.sub _) ?_ hb ?_
            · intro y hy
              obtain ⟨p, hp, hin⟩ := mem_sub.mp hy
              refine List.mem_map.mpr ⟨p :: y.1, List.mem_filter.mpr ⟨hK _ hin, ?_⟩, rfl⟩
              simp [headStr, hp]
            · intro i pp' hi' qs hqs hnd
              refine hm (i + 1) pp' (by simpa using hi') qs ?_ hnd
              intro q hq
              obtain ⟨y, hy, hyi⟩ := hqs q hq
              obtain ⟨p, hp, hin⟩ := mem_sub.mp hy
              exact ⟨_, hin, by simpa using hyi⟩) h1
      refine Nat.add_le_add (Nat.le_refl _) (Nat.le_trans hnode ?_)
      have hst : ((uniq (heads L)).map (·.str)).Nodup :=
        strs_nodup (nodup_uniq _) (fun p hp q hq e => hc.head (mem_uniq.mp hp) (mem_uniq.mp hq) e)
      have hg := tot_groups (ks := (uniq (heads L)).map (fun p => some p.str)) (by
          rw [List.Nodup, List.pairwise_map] at hst ⊢
          exact hst.imp (fun hab e => hab (Option.some.inj e))) headStr (wt w) K
      refine Nat.le_trans ?_ hg
      rw [List.map_map]
      refine tot_mono ?_
      intro p hp
      obtain ⟨ps, md, hin⟩ := mem_heads.mp (mem_uniq.mp hp)
      have hlen := hL _ hin
      have hne : ps ≠ [] := by rintro rfl; simp at hlen
      have := tot_gain (f := wt w) (g := fun x => wt w x.tail) (l := K.filter (fun x => decide (headStr x = some p.str))) (x := p :: ps)
        (a := w p + 2) (List.mem_filter.mpr ⟨hK _ hin, by simp [headStr]⟩) (by rw [wt_cons hne, List.tail_cons]; omega)
        (by
          intro y _
          cases y with
          | nil => exact Nat.le_refl _
          | cons q y => exact wt_tail w q y)
      simp only [Function.comp_apply, subK, List.map_map] at this ⊢
      have e : ((wt w ∘ List.tail) : List MatchPattern → Nat) = fun x => wt w x.tail := rfl
      rw [e]
      omega

end

theorem wt_zero {x : List MatchPattern} (h : x ≠ []) : wt (fun _ => 0) x + 1 = 2 * x.length := by
  induction x with
  | nil => exact absurd rfl h
  | cons p ps ih =>
    cases ps with
    | nil => rfl
    | cons q ps =>
      have := ih (by simp)
      rw [wt_cons (by simp)]
      simp only [List.length_cons] at this ⊢
      omega

/-- The calls inside the view matchers of a URL level node: twice the number of units for a pattern of several units. -/
def inW (p : MatchPattern) : Nat := if p.cls = .multi ∨ p.cls = .mixed ∨ p.cls = .lastDot then 2 * p.units.length else 0

theorem unit_inner {ps : List MatchPattern} {vp : Option ParsedPiece} : InnerLe unitOps unitMatchC (fun _ => 0) vp ps := by
  intro vms _ vm _ keys c h
  unfold unitMatchC at h
  obtain ⟨ks, -, h⟩ := bind_ok h
  simp only [pure, Except.pure, Except.ok.injEq, Prod.mk.injEq] at h
  omega

theorem url_inner {ps : List MatchPattern} {pp : ParsedPiece} (hl : Lvl pp ps) : InnerLe urlOps urlMatchC inW (some pp) ps := by
  intro vms hv vm hvm keys c0 hk
  obtain ⟨-, hf⟩ := ((addAll_spec hv).2 vm).mp hvm
  obtain ⟨c, s⟩ := vm
  simp only at hf hk ⊢
  rcases cls_cases c with hc | hc
  · obtain ⟨s0, rfl, hs0⟩ := fill_simple hc _ hf
    have hk : unitMatchC c (some pp) s0 = .ok (keys, c0) := hk
    unfold unitMatchC at hk
    obtain ⟨ks, -, h⟩ := bind_ok hk
    simp only [pure, Except.pure, Except.ok.injEq, Prod.mk.injEq] at h
    omega
  · have hg := fun q (hq : q ∈ ps.filter (fun p => decide (p.cls = c))) => hl.good q (List.mem_filter.mp hq).1
    obtain ⟨d, rfl, hd⟩ := fill_multi hc hf hg (hl.keyInj hc).len
    have hk : multiMatchC c (some pp) d = .ok (keys, c0) := hk
    unfold multiMatchC at hk
    simp only at hk
    have hin := hd (viewStr (viewPieces c pp))
    cases hget : Dict.get? (viewStr (viewPieces c pp)) d with
    | none =>
      rw [hget] at hk
      simp only [Except.ok.injEq, Prod.mk.injEq] at hk
      omega
    | some t =>
      obtain ⟨dt, kids⟩ := t
      rw [hget] at hk hin
      simp only at hk
      obtain ⟨r, hms, hk⟩ := bind_ok hk
      simp only [pure, Except.pure, Except.ok.injEq, Prod.mk.injEq] at hk
      rw [← hk.2]
      obtain ⟨n, ⟨q0, hq0, e0⟩, hlen, hT⟩ := hin
      have hcoh : Coh (((ps.filter (fun p => decide (p.cls = c))).filter (fun p => decide (rkey p = viewStr (viewPieces c pp)))).map unitIns) :=
        unitIns_coh (fun q hq => hg q (List.mem_filter.mp hq).1)
      have hL : ∀ y ∈ ((ps.filter (fun p => decide (p.cls = c))).filter (fun p => decide (rkey p = viewStr (viewPieces c pp)))).map unitIns,
          y.1.length = n + 1 := by
        intro y hy
        obtain ⟨q, hq, rfl⟩ := List.mem_map.mp hy
        obtain ⟨hq1, hq2⟩ := List.mem_filter.mp hq
        simpa [unitIns] using hlen q hq1 (by simpa using hq2)
      have hcost := mmatchC_cost (w := fun _ => 0) unitMatchC_er hT hL hcoh
        (K := ((ps.filter (fun p => decide (p.cls = c))).filter (fun p => decide (rkey p = viewStr (viewPieces c pp)))).map
          (fun q => q.units.map unitMP)) (by
            intro y hy
            obtain ⟨q, hq, rfl⟩ := List.mem_map.mp hy
            exact List.mem_map.mpr ⟨q, hq, rfl⟩) hms (by
          intro i opp hi qs hqs hnd
          simp only [List.getElem?_map, Option.map_eq_some_iff] at hi
          obtain ⟨vp, -, rfl⟩ := hi
          refine ⟨unit_once hnd ?_ ?_ vp, unit_inner⟩
          · intro a ha b hb e
            obtain ⟨x, hx, hxi⟩ := hqs a ha
            obtain ⟨y, hy, hyi⟩ := hqs b hb
            exact hcoh x hx y hy i a b hxi hyi e
          · intro a ha
            obtain ⟨x, hx, hxi⟩ := hqs a ha
            obtain ⟨p, -, rfl⟩ := List.mem_map.mp hx
            simp only [unitIns, List.getElem?_map, Option.map_eq_some_iff] at hxi
            obtain ⟨u, -, rfl⟩ := hxi
            exact unitMP_simple u)
      rw [List.map_map] at hcost
      have hw : ∀ q ∈ ps.filter (fun p => decide (p.cls = c)), (wt (fun _ => 0) ∘ fun q : MatchPattern => q.units.map unitMP) q + 1 = inW q := by
        intro q hq
        have hq' : q.cls = c := by simpa using (List.mem_filter.mp hq).2
        have hqc : q.cls = .multi ∨ q.cls = .mixed ∨ q.cls = .lastDot := by rw [hq']; exact hc
        simp only [Function.comp_apply]
        rw [wt_zero (by simpa using (hg q hq).ne), inW, if_pos hqc, List.length_map]
      have h1 := tot_gain (f := inW) (g := wt (fun _ => 0) ∘ fun q : MatchPattern => q.units.map unitMP)
        (l := (ps.filter (fun p => decide (p.cls = c))).filter (fun p => decide (rkey p = viewStr (viewPieces c pp)))) (x := q0) (a := 1)
        (List.mem_filter.mpr ⟨hq0, by simp [e0]⟩) (by have := hw q0 hq0; omega)
        (by intro y hy; have := hw y (List.mem_filter.mp hy).1; omega)
      have h2 := tot_split (fun p => decide (rkey p = viewStr (viewPieces c pp))) inW (ps.filter (fun p => decide (p.cls = c)))
      omega

end OsUrl
