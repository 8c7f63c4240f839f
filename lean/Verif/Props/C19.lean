import Verif.Props.C15

/-! # C19: loading a pattern twice changes nothing but its meta -/

namespace OsUrl
open Spec

/-- **C19**: a string loads exactly when it parses as a URL pattern. -/
theorem C19_loads (md5 : Str → Str) (st : PatternMatcherSt) (s : Str) (md : Option Str) :
    (∃ r, st.load md5 s md = .ok r) ↔ ∃ m ps, parse s = .ok (m, .patterns ps) := by
  constructor
  · rintro ⟨r, hr⟩
    apply Classical.byContradiction
    intro hn
    obtain ⟨e, he⟩ := mload_reject md5 st md (fun m ps e => hn ⟨m, ps, e⟩)
    rw [he] at hr; cases hr
  · rintro ⟨m, ps, h⟩
    exact mload_total md5 st md h

theorem parse_patterns_eq {s s' : Str} {m m' : URLMeta} {ps ps' : List MatchPattern}
    (h : parse s = .ok (m, .patterns ps)) (h' : parse s' = .ok (m', .patterns ps')) :
    (m' = m ∧ ps' = ps) ↔ analyzeUrlPatternString s' = analyzeUrlPatternString s := by
  have e1 := parse_patterns_strs h
  have e2 := parse_patterns_strs h'
  rw [e1, e2]
  simp only [Except.ok.injEq, Prod.mk.injEq]
  constructor
  · rintro ⟨rfl, rfl⟩; exact ⟨rfl, rfl⟩
  · rintro ⟨rfl, e⟩
    refine ⟨rfl, ?_⟩
    have hl := congrArg List.length e
    simp only [List.length_map] at hl
    apply List.ext_getElem?
    intro i
    cases hp : ps[i]? with
    | none =>
      rw [List.getElem?_eq_none_iff] at hp ⊢
      omega
    | some p =>
      have hi := congrArg (fun l => l[i]?) e
      simp only [List.getElem?_map, hp, Option.map_some, Option.map_eq_some_iff] at hi
      obtain ⟨q, hq, es⟩ := hi
      have a := parse_patterns_at h i p hp
      have b := parse_patterns_at h' i q hq
      rw [es, a] at b
      simp at b
      rw [hq, b]

/-- **C19**: after any history, `is_new` is `True` exactly when no pattern string of the same structure
and the same piece patterns has been loaded. -/
theorem C19_isNew (md5 : Str → Str) (hist : List (Str × Option Str)) (s : Str) (md : Option Str)
    (m : URLMeta) (strs : List Str) (ha : analyzeUrlPatternString s = .ok (m, strs))
    (hc : NoClash md5 ((hist ++ [(s, md)]).map (·.1))) (st' : PatternMatcherSt) (isNew : Bool)
    (h : (mloadAll md5 hist).load md5 s md = .ok (st', isNew)) :
    isNew = true ↔ ∀ s' md', (s', md') ∈ hist → (∃ r, PatternMatcherSt.load md5 [] s' md' = .ok r) →
      analyzeUrlPatternString s' ≠ .ok (m, strs) := by
  obtain ⟨m', ps, hp⟩ := (C19_loads md5 _ s md).mp ⟨_, h⟩
  have hst := mloadAll_state md5 hist (hc.mono (by intro a ha; rw [List.map_append]; simp [ha]))
  rw [(mload_step md5 hst hp hc h).2]
  constructor
  · intro hn s' md' hs hl e
    obtain ⟨m'', ps', hp'⟩ := (C19_loads md5 _ s' md').mp hl
    exact hn ⟨m'', ps', md'⟩ (mem_macc.mpr ⟨s', hs, hp'⟩) ((parse_patterns_eq hp hp').mpr (e.trans ha.symm))
  · intro hn r hr e
    obtain ⟨s', hs, hp'⟩ := mem_macc.mp hr
    exact hn s' r.md hs ((C19_loads md5 _ s' r.md).mpr ⟨_, _, hp'⟩) (((parse_patterns_eq hp hp').mp e).trans ha)

/-! ### matching after a repeated load -/

/-- The same children, in the same order, at every level. -/
def SameT {μ : Type} : Nat → List (MIns μ) → List (MIns μ) → Prop
  | 0, _, _ => True
  | n + 1, L, L' => uniq (heads L) = uniq (heads L') ∧ ∀ k, SameT n (sub k L) (sub k L')

theorem SameT.refl {μ : Type} (n : Nat) (L : List (MIns μ)) : SameT n L L := by
  induction n generalizing L with
  | zero => trivial
  | succ n ih => exact ⟨rfl, fun k => ih _⟩

theorem SameT.again {μ : Type} {n : Nat} {L : List (MIns μ)} {x : List MatchPattern} {md md' : Option μ}
    (hx : x.length = n) (h : (x, md') ∈ L) : SameT n L (L ++ [(x, md)]) := by
  induction n generalizing L x with
  | zero => trivial
  | succ n ih =>
    cases x with
    | nil => simp at hx
    | cons p ps =>
      refine ⟨?_, fun k => ?_⟩
      · rw [heads_concat, uniq_concat]
        have : p ∈ uniq (heads L) := mem_uniq.mpr (mem_heads.mpr ⟨_, _, h⟩)
        simp [setAdd, this]
      · rw [sub_concat]
        by_cases hk : p.str = k
        · rw [if_pos hk]
          exact ih (by simpa using hx) (mem_sub.mpr ⟨p, hk, h⟩)
        · rw [if_neg hk, List.append_nil]
          exact SameT.refl _ _

theorem filterMap_two {α β γ : Type} (f : α → Option β) (g : α → Option γ) (R : β → γ → Prop) (l : List α)
    (h : ∀ a ∈ l, (f a = none ∧ g a = none) ∨ ∃ b c, f a = some b ∧ g a = some c ∧ R b c) :
    (l.filterMap f).length = (l.filterMap g).length ∧ ∀ x ∈ (l.filterMap f).zip (l.filterMap g), R x.1 x.2 := by
  induction l with
  | nil => simp
  | cons a l ih =>
    obtain ⟨i1, i2⟩ := ih (fun x hx => h x (by simp [hx]))
    rcases h a (by simp) with ⟨h1, h2⟩ | ⟨b, c, h1, h2, hr⟩
    · simp only [List.filterMap_cons, h1, h2]; exact ⟨i1, i2⟩
    · simp only [List.filterMap_cons, h1, h2]
      refine ⟨by simp [i1], ?_⟩
      intro x hx
      simp only [List.zip_cons_cons, List.mem_cons] at hx
      rcases hx with rfl | hx
      · exact hr
      · exact i2 x hx

theorem mapM_two {α β γ δ : Type} {f : α → Py γ} {g : β → Py δ}
    (F : γ → List (List MatchPattern)) (G : δ → List (List MatchPattern)) {xs : List α} {ys : List β}
    (hl : xs.length = ys.length) (h : ∀ z ∈ xs.zip ys, (f z.1).map F = (g z.2).map G) :
    (xs.mapM f).map (fun l => (l.map F).flatten) = (ys.mapM g).map (fun l => (l.map G).flatten) := by
  induction xs generalizing ys with
  | nil => cases ys with
    | nil => rfl
    | cons y ys => simp at hl
  | cons x xs ih =>
    cases ys with
    | nil => simp at hl
    | cons y ys =>
      have h0 := h (x, y) (by simp)
      have hi := ih (ys := ys) (by simpa using hl) (fun z hz => h z (by simp [hz]))
      simp only at h0
      rw [List.mapM_cons, List.mapM_cons]
      cases hf : f x with
      | error e =>
        rw [hf] at h0
        cases hg : g y with
        | error e' => rw [hg] at h0; simp [Except.map] at h0; subst h0; rfl
        | ok d => rw [hg] at h0; simp [Except.map] at h0
      | ok c =>
        rw [hf] at h0
        cases hg : g y with
        | error e' => rw [hg] at h0; simp [Except.map] at h0
        | ok d =>
          rw [hg] at h0
          simp only [Except.map, Except.ok.injEq] at h0
          cases hfs : xs.mapM f with
          | error e =>
            rw [hfs] at hi
            cases hgs : ys.mapM g with
            | error e' => rw [hgs] at hi; simpa [Except.map, bind, Except.bind] using hi
            | ok d => rw [hgs] at hi; simp [Except.map] at hi
          | ok cs =>
            rw [hfs] at hi
            cases hgs : ys.mapM g with
            | error e' => rw [hgs] at hi; simp [Except.map] at hi
            | ok ds =>
              rw [hgs] at hi
              simp only [Except.map, Except.ok.injEq] at hi
              simp [Except.map, bind, Except.bind, pure, Except.pure, h0, hi]

/-- Trees with the same children in the same order give the same paths. -/
theorem mmatch_same {σ μ : Type} {ops : VMOps σ} {n : Nat} {L L' : List (MIns μ)} (hs : SameT n L L')
    {d d' : MData σ μ} {kids kids' : Forest (MData σ μ)} (hT : T ops n L d kids) (hT' : T ops n L' d' kids')
    (hL : ∀ y ∈ L, y.1.length = n) (hL' : ∀ y ∈ L', y.1.length = n)
    (hc : Coh L') (hsub : ∀ x ∈ L, x ∈ L') (hn : 0 < n)
    (pps : List (Option ParsedPiece)) (pre : List MatchPattern) :
    (mmatch ops pps pre d kids).map (fun rs => rs.map (·.path)) =
      (mmatch ops pps pre d' kids').map (fun rs => rs.map (·.path)) := by
  induction pps generalizing n L L' d d' kids kids' pre with
  | nil => rfl
  | cons pp rest ih =>
    cases n with
    | zero => omega
    | succ n =>
      rw [mmatch_cons, mmatch_cons]
      have hv : d.vms = d'.vms := by
        have := hT.1
        rw [hs.1, hT'.1] at this
        simpa using this.symm
      have hstep : ∀ vm, (vmStep ops pp rest pre kids vm).map (fun rs => rs.map (·.path)) =
          (vmStep ops pp rest pre kids' vm).map (fun rs => rs.map (·.path)) := by
        intro vm
        unfold vmStep
        cases hk : ops.matches_ vm.1 pp vm.2 with
        | error e => rfl
        | ok keys =>
          simp only [bind, Except.bind]
          obtain ⟨hlen, hz⟩ := filterMap_two (fun k => kids.get? k) (fun k => kids'.get? k)
            (fun (a b : MData σ μ × Forest (MData σ μ)) => a.1.pat = b.1.pat ∧
              (a.2.isNil = true ↔ n = 0) ∧ (b.2.isNil = true ↔ n = 0) ∧
              ∀ pre, n ≠ 0 → (mmatch ops rest pre a.1 a.2).map (fun rs => rs.map (·.path)) =
                (mmatch ops rest pre b.1 b.2).map (fun rs => rs.map (·.path))) keys (by
            intro k _
            have hh : (∃ p ∈ heads L, p.str = k) ↔ ∃ p ∈ heads L', p.str = k := by
              constructor
              · rintro ⟨p, hp, e⟩; exact ⟨p, mem_uniq.mp (hs.1 ▸ mem_uniq.mpr hp), e⟩
              · rintro ⟨p, hp, e⟩; exact ⟨p, mem_uniq.mp (hs.1.symm ▸ mem_uniq.mpr hp), e⟩
            have hsn : sub k L = [] ↔ sub k L' = [] := by
              rw [sub_eq_nil, sub_eq_nil]
              constructor
              · intro h p hp e
                obtain ⟨q, hq, e'⟩ := hh.mpr ⟨p, hp, e⟩
                exact h q hq e'
              · intro h p hp e
                obtain ⟨q, hq, e'⟩ := hh.mp ⟨p, hp, e⟩
                exact h q hq e'
            cases h1 : kids.get? k with
            | none =>
              left
              refine ⟨rfl, ?_⟩
              have := (hT.absent k).mp (by rw [h1]; rfl)
              have := (hT'.absent k).mpr (hsn.mp this)
              simpa using this
            | some a =>
              right
              obtain ⟨da, ka⟩ := a
              obtain ⟨c1, c2, c3, c4⟩ := hT.child h1
              cases h2 : kids'.get? k with
              | none =>
                have := (hT'.absent k).mp (by rw [h2]; rfl)
                exact absurd (hsn.mpr this) c1
              | some b =>
                obtain ⟨db, kb⟩ := b
                obtain ⟨e1, e2, e3, e4⟩ := hT'.child h2
                have hLs := sub_length (k := k) hL
                have hLs' := sub_length (k := k) hL'
                refine ⟨_, _, rfl, rfl, ?_, c4.isNil hLs c1, e4.isNil hLs' e1, ?_⟩
                · have := mem_uniq.mp (hs.1 ▸ mem_uniq.mpr c2)
                  exact hc.head this e2 (c3.trans e3.symm)
                · intro pre hn0
                  refine ih (hs.2 k) c4 e4 hLs hLs' (hc.sub k) ?_ (by omega) pre
                  intro x hx
                  obtain ⟨p, e, hp⟩ := mem_sub.mp hx
                  exact mem_sub.mpr ⟨p, e, hsub _ hp⟩)
          change (derefs kids keys).length = (derefs kids' keys).length at hlen
          change ∀ x ∈ (derefs kids keys).zip (derefs kids' keys), _ at hz
          generalize derefs kids keys = as at hlen hz
          generalize derefs kids' keys = bs at hlen hz
          cases as with
          | nil =>
            cases bs with
            | nil => rfl
            | cons b bs => simp at hlen
          | cons a as =>
            cases bs with
            | nil => simp at hlen
            | cons b bs =>
              obtain ⟨da, ka⟩ := a
              obtain ⟨db, kb⟩ := b
              obtain ⟨-, n1, n2, -⟩ := hz ((da, ka), (db, kb)) (by simp)
              dsimp only
              by_cases h0 : n = 0
              · rw [if_pos (n1.mpr h0), if_pos (n2.mpr h0)]
                simp only [pure, Except.pure, Except.map, List.map_map, Except.ok.injEq]
                generalize (da, ka) :: as = as at *
                generalize (db, kb) :: bs = bs at *
                clear n1 n2
                induction as generalizing bs with
                | nil => cases bs with
                  | nil => rfl
                  | cons b bs => simp at hlen
                | cons a as ih2 =>
                  cases bs with
                  | nil => simp at hlen
                  | cons b bs =>
                    have := (hz (a, b) (by simp)).1
                    rw [List.map_cons, List.map_cons, ih2 bs (by simpa using hlen) (fun x hx => hz x (by simp [hx]))]
                    simp
                    exact this
              · rw [if_neg (fun h => h0 (n1.mp h)), if_neg (fun h => h0 (n2.mp h))]
                have := mapM_two (fun rs : List (Matched σ μ) => rs.map (·.path)) (fun rs => rs.map (·.path)) hlen
                  (f := fun n => mmatch ops rest (pre ++ [n.1.pat]) n.1 n.2)
                  (g := fun n => mmatch ops rest (pre ++ [n.1.pat]) n.1 n.2) (by
                    intro z hz'
                    obtain ⟨z1, -, -, z4⟩ := hz z hz'
                    rw [z1]
                    exact z4 _ h0)
                generalize List.mapM (m := Py) (fun n => mmatch ops rest (pre ++ [n.1.pat]) n.1 n.2) ((da, ka) :: as) = A at *
                generalize List.mapM (m := Py) (fun n => mmatch ops rest (pre ++ [n.1.pat]) n.1 n.2) ((db, kb) :: bs) = B at *
                cases A <;> cases B <;> simp_all [Except.map, pure, Except.pure, List.map_flatten]
      rw [hv]
      have := mapM_two (fun rs : List (Matched σ μ) => rs.map (·.path)) (fun rs => rs.map (·.path)) (xs := d'.vms) (ys := d'.vms) rfl
        (f := vmStep ops pp rest pre kids) (g := vmStep ops pp rest pre kids') (by
          intro z hz
          have : z.1 = z.2 := by
            rw [List.mem_iff_getElem] at hz
            obtain ⟨i, hi, rfl⟩ := hz
            simp
          rw [this]
          exact hstep z.2)
      generalize List.mapM (vmStep ops pp rest pre kids) d'.vms = A at *
      generalize List.mapM (vmStep ops pp rest pre kids') d'.vms = B at *
      cases A <;> cases B <;> simp_all [Except.map, bind, Except.bind, pure, Except.pure, List.map_flatten]

/-- **C19**: loading a pattern again leaves the result of every match as it was, order included, up to
the metas. -/
theorem C19_again (md5 : Str → Str) (hist : List (Str × Option Str)) (s s' : Str) (md md' : Option Str)
    (hin : (s', md') ∈ hist) (he : parse s' = parse s)
    (url : Str) (m : URLMeta) (pps : List ParsedPiece) (h : parse url = .ok (m, .pieces pps))
    (hc : NoClash md5 (url :: (hist ++ [(s, md)]).map (·.1))) :
    ((mloadAll md5 (hist ++ [(s, md)])).match_ md5 url).map (fun rs => rs.map (·.path)) =
      ((mloadAll md5 hist).match_ md5 url).map (fun rs => rs.map (·.path)) := by
  by_cases hs : ∃ m ps, parse s = .ok (m, .patterns ps)
  · obtain ⟨m1, ps, hs⟩ := hs
    have hs' := he.trans hs
    have hc0 : NoClash md5 (url :: hist.map (·.1)) := hc.mono (by
      intro a ha
      rw [List.map_append]
      simp only [List.mem_cons, List.mem_append] at ha ⊢
      rcases ha with ha | ha
      · exact .inl ha
      · exact .inr (.inl ha))
    obtain ⟨g, hg, hgf, hcase⟩ := match_grp hc0 h
    obtain ⟨g', hg', hgf', hcase'⟩ := match_grp hc h
    have hacc : macc (hist ++ [(s, md)]) = macc hist ++ [⟨m1, ps, md⟩] := by
      rw [macc_append]; simp [macc, hs]
    have hr' : (⟨m1, ps, md'⟩ : MRec) ∈ macc hist := mem_macc.mpr ⟨s', hin, hs'⟩
    rw [hacc, List.filter_append, ← hgf] at hgf'
    have hgg : g' = g ∨ (g' = g ++ [⟨m1, ps, md⟩] ∧ (⟨m1, ps, md'⟩ : MRec) ∈ g) := by
      by_cases hsid : MRec.sid md5 ⟨m1, ps, md⟩ = fuzzyDigest md5 m (.pieces pps)
      · right
        refine ⟨by rw [hgf']; simp [hsid], ?_⟩
        rw [hgf, List.mem_filter]
        exact ⟨hr', decide_eq_true hsid⟩
      · left
        rw [hgf']; simp [hsid]
    have hdep : ∀ r ∈ g', r.ps.length = m.depth ∧ 0 < m.depth := by
      intro r hr
      have := rec_depth ((hg' r).mp hr).1
      rwa [((hg' r).mp hr).2.1] at this
    have hcoh : Coh (g'.map MRec.ins) := rec_coh (hist := hist ++ [(s, md)]) (fun r hr => ((hg' r).mp hr).1)
      (fun r hr r' hr' => ((hg' r).mp hr).2.1.trans ((hg' r').mp hr').2.1.symm)
    have hsubg : ∀ r ∈ g, r ∈ g' := by
      rcases hgg with e | ⟨e, -⟩ <;> rw [e] <;> simp +contextual
    have hne : g = [] ↔ g' = [] := by
      rcases hgg with e | ⟨e, hm⟩
      · rw [e]
      · constructor
        · intro e0; rw [e0] at hm; simp at hm
        · intro e0; rw [e] at e0; simp at e0
    rcases hcase with ⟨e1, e2⟩ | ⟨e1, d, kids, hT, e2⟩
    · rcases hcase' with ⟨e1', e2'⟩ | ⟨e1', d', kids', hT', e2'⟩
      · rw [e2, e2']
      · exact absurd (hne.mp e1) e1'
    · rcases hcase' with ⟨e1', e2'⟩ | ⟨e1', d', kids', hT', e2'⟩
      · exact absurd (hne.mpr e1') e1
      · rw [e2, e2']
        obtain ⟨r0, hr0⟩ := List.exists_mem_of_ne_nil _ e1'
        have hL' : ∀ y ∈ g'.map MRec.ins, y.1.length = m.depth := by
          intro y hy
          obtain ⟨r, hr, rfl⟩ := List.mem_map.mp hy
          exact (hdep r hr).1
        symm
        refine mmatch_same ?_ hT hT' ?_ hL' hcoh ?_ (hdep r0 hr0).2 _ _
        · rcases hgg with e | ⟨e, hm⟩
          · rw [e]; exact SameT.refl _ _
          · rw [e, List.map_append]
            exact SameT.again (hdep _ (hsubg _ hm)).1 (List.mem_map.mpr ⟨_, hm, rfl⟩)
        · intro y hy
          obtain ⟨r, hr, rfl⟩ := List.mem_map.mp hy
          exact (hdep r (hsubg r hr)).1
        · intro y hy
          obtain ⟨r, hr, rfl⟩ := List.mem_map.mp hy
          exact List.mem_map.mpr ⟨r, hsubg r hr, rfl⟩
  · obtain ⟨e, he⟩ := mload_reject md5 (mloadAll md5 hist) md (fun m ps e => hs ⟨m, ps, e⟩)
    rw [mloadAll_concat]
    simp only [he]

/-- The second load of a pattern (here written with a doubled slash) is not new, a third pattern is; the
meta changes, the results do not. -/
example : ((mloadAll id [(c!"/[a-z]{2}/x", some c!"1")]).load id c!"/[a-z]{2}//x" none).map (·.2) = .ok false ∧
    ((mloadAll id [(c!"/[a-z]{2}/x", some c!"1")]).load id c!"/[a-z]+/x" none).map (·.2) = .ok true ∧
    ((mloadAll id [(c!"/[a-z]{2}/x", some c!"1"), (c!"/[a-z]+/x", none), (c!"/[a-z]{2}/x", some c!"2")]).match_ id
      c!"http://h/ab/x").map (fun rs => rs.map (fun x => (x.path.map (·.str), x.data.md))) =
    .ok [([c!"[a-z]{2}", c!"x"], some c!"2"), ([c!"[a-z]+", c!"x"], none)] := by decide +kernel

end OsUrl
