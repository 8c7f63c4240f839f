import Verif.Proofs.MatchCost2
import Verif.Props.C43
import Verif.Props.C15
import Verif.Props.C47

/-! # C84: the number of calls that matching a URL takes is linear in the size of the loaded patterns -/

namespace OsUrl
open Spec

/-- **C84**, the counted program is the program: counting changes no result and no exception. -/
theorem C84_same (md5 : Str → Str) (st : PatternMatcherSt) (url : Str) :
    (∀ rs n, st.matchC md5 url = .ok (rs, n) → st.match_ md5 url = .ok rs) ∧
    (∀ rs, st.match_ md5 url = .ok rs → ∃ n, st.matchC md5 url = .ok (rs, n)) ∧
    (∀ e, st.matchC md5 url = .error e ↔ st.match_ md5 url = .error e) := by
  have h := matchC_er md5 st url
  unfold Er at h
  rw [← h]
  cases st.matchC md5 url with
  | error e => refine ⟨?_, ?_, ?_⟩ <;> simp [Except.map]
  | ok r => obtain ⟨a, b⟩ := r; refine ⟨?_, ?_, ?_⟩ <;> simp [Except.map] <;> grind

/-- **C84**: matching a URL against any loaded patterns (none of several units mixes `/` with other characters in one class) raises nothing, and
calls `match` methods at most `1 + 2 * N` times, where `N` is the number of characters of the different loaded patterns that have the structure and the
character classes of the URL.  However the patterns branch, there is no blow-up with the depth of the URL, and loading a pattern again costs nothing. -/
theorem C84_chars (md5 : Str → Str) (hist : List (Str × Option Str)) (url : Str) (m : URLMeta) (pps : List ParsedPiece)
    (hp : parse url = .ok (m, .pieces pps)) (hc : NoClash md5 (url :: hist.map (·.1))) (ht : AllTame hist) (K : List Str)
    (hK : ∀ (s : Str) (md : Option Str) (ps : List MatchPattern), (s, md) ∈ hist → parse s = .ok (m, .patterns ps) →
      (Parsed.patterns ps).fuzzyRules = (Parsed.pieces pps).fuzzyRules → s ∈ K) :
    ∃ rs n, (mloadAll md5 hist).match_ md5 url = .ok rs ∧ (mloadAll md5 hist).matchC md5 url = .ok (rs, n) ∧
      n ≤ 1 + 2 * (K.map List.length).sum := by
  obtain ⟨pieces, -, hmap⟩ := parse_pieces hp
  obtain ⟨hk, hpps⟩ := parsePieces_ok hmap
  obtain ⟨rs, hrs, -⟩ := match_main hp hk hpps hc ht
  obtain ⟨n, hn⟩ := (C84_same md5 _ url).2.1 rs hrs
  refine ⟨rs, n, hrs, hn, ?_⟩
  have hcost := matchC_cost hp hk hpps hc ht
    (K := K.filterMap (fun s => match parse s with | .ok (_, .patterns ps) => some ps | _ => none)) (by
      intro r hr hm hf
      obtain ⟨s, hs, e⟩ := mem_macc.mp hr
      rw [hm] at e
      exact List.mem_filterMap.mpr ⟨s, hK s r.md r.ps hs e hf, by rw [e]⟩) hn
  simp only at hcost
  refine Nat.le_trans hcost (Nat.add_le_add (Nat.le_refl _) ?_)
  generalize K = K'
  induction K' with
  | nil => simp
  | cons s K' ih =>
    cases hps : parse s with
    | error e =>
      rw [List.filterMap_cons_none (by rw [hps])]
      simp only [List.map_cons, List.sum_cons]; omega
    | ok r =>
      obtain ⟨m', x⟩ := r
      cases x with
      | pieces _ =>
        rw [List.filterMap_cons_none (by rw [hps])]
        simp only [List.map_cons, List.sum_cons]; omega
      | patterns ps =>
        have := wt_chars hps
        rw [List.filterMap_cons_some (b := ps) (by rw [hps])]
        simp only [List.map_cons, List.sum_cons]; omega

/-- **C84**, literal patterns: when all loaded patterns of the URL's structure are literal, the number of calls is at most two for each piece of the URL,
however many patterns there are. -/
theorem C84_literal (md5 : Str → Str) (hist : List (Str × Option Str)) (url : Str) (m : URLMeta) (pps : List ParsedPiece)
    (hp : parse url = .ok (m, .pieces pps)) (hc : NoClash md5 (url :: hist.map (·.1)))
    (hl : ∀ (s : Str) (md : Option Str) (ps : List MatchPattern), (s, md) ∈ hist → parse s = .ok (m, .patterns ps) →
      ∀ p ∈ ps, p.cls = .piece) (rs : List (Matched FullStore Str)) (n : Nat)
    (h : (mloadAll md5 hist).matchC md5 url = .ok (rs, n)) : n ≤ 2 * pps.length := by
  obtain ⟨pieces, ha, hmap⟩ := parse_pieces hp
  have hlen : m.depth = pps.length := by
    obtain ⟨ps, vs, fs, e, hst⟩ := analyzeUrl_struct ha
    have h1 := hst.toP.len.1
    rw [← e] at h1
    rw [(parsePieces_ok hmap).2, List.length_map, h1]
  have := matchC_literal hp hc (by
    intro r hr hm p hpm
    obtain ⟨s, hs, e⟩ := mem_macc.mp hr
    rw [hm] at e
    exact hl s r.md r.ps hs e p hpm) h
  rw [← hlen]
  exact this

theorem mapM_mem_ok {α β : Type} {f : α → Py β} {l : List α} {bs : List β} (h : l.mapM f = .ok bs) {b : β} (hb : b ∈ bs) : ∃ a ∈ l, f a = .ok b := by
  induction l generalizing bs with
  | nil => rw [List.mapM_nil] at h; injection h with h; subst h; cases hb
  | cons a l ih =>
    rw [List.mapM_cons] at h
    obtain ⟨x, hx, h⟩ := bind_ok h
    obtain ⟨y, hy, h⟩ := bind_ok h
    injection h with h
    subst h
    rcases List.mem_cons.mp hb with rfl | hb
    · exact ⟨a, List.mem_cons_self, hx⟩
    · obtain ⟨c, hc, e⟩ := ih hy hb
      exact ⟨c, List.mem_cons_of_mem _ hc, e⟩

/-- Every level above a result takes a call of the node and a call of the view matcher. -/
theorem mmatchC_least {σ μ : Type} {mt : ViewCls → Option ParsedPiece → σ → Py (List Str × Nat)} : ∀ (pps : List (Option ParsedPiece))
    (pre : List MatchPattern) (d : MData σ μ) (kids : Forest (MData σ μ)) (r : List (Matched σ μ) × Nat), mmatchC mt pps pre d kids = .ok r →
    ∀ x ∈ r.1, x.path.length * 2 ≤ r.2 + pre.length * 2
  | [], pre, d, kids, r, h, _, _ => by cases h
  | pp :: rest, pre, d, kids, r, h, x, hx => by
    rw [mmatchC_cons] at h
    obtain ⟨rs, hrs, h⟩ := bind_ok h
    injection h with h
    subst h
    obtain ⟨l, hl, hx⟩ := List.mem_flatten.mp hx
    obtain ⟨s, hs, rfl⟩ := List.mem_map.mp hl
    obtain ⟨vm, -, hvm⟩ := mapM_mem_ok hrs hs
    have hsum : s.2 ≤ (rs.map (·.2)).sum := tot_mem (f := fun s : List (Matched σ μ) × Nat => s.2) hs
    suffices x.path.length * 2 ≤ s.2 + 1 + pre.length * 2 by
      simp only; omega
    unfold vmStepC at hvm
    obtain ⟨q, hq, hvm⟩ := bind_ok hvm
    cases hd : derefs kids q.1 with
    | nil =>
      rw [hd] at hvm
      injection hvm with hvm
      subst hvm
      cases hx
    | cons n ns =>
      rw [hd] at hvm
      simp only at hvm
      split at hvm
      · injection hvm with hvm
        subst hvm
        obtain ⟨y, -, rfl⟩ := List.mem_map.mp hx
        simp
        omega
      · obtain ⟨ms, hms, hvm⟩ := bind_ok hvm
        injection hvm with hvm
        subst hvm
        obtain ⟨l', hl', hx⟩ := List.mem_flatten.mp hx
        obtain ⟨s', hs', rfl⟩ := List.mem_map.mp hl'
        obtain ⟨nd, -, hnd⟩ := mapM_mem_ok hms hs'
        have := mmatchC_least rest _ _ _ _ hnd x hx
        have h2 : s'.2 ≤ (ms.map (·.2)).sum := tot_mem (f := fun s : List (Matched σ μ) × Nat => s.2) hs'
        simp only [List.length_append, List.length_singleton] at this
        simp only
        omega

/-- **C84**, from below: a URL with a matching pattern takes at least two calls for each piece, so with literal patterns exactly two. -/
theorem C84_least (md5 : Str → Str) (hist : List (Str × Option Str)) (url : Str) (m : URLMeta) (pps : List ParsedPiece)
    (hp : parse url = .ok (m, .pieces pps)) (hc : NoClash md5 (url :: hist.map (·.1))) (rs : List (Matched FullStore Str)) (n : Nat)
    (h : (mloadAll md5 hist).matchC md5 url = .ok (rs, n)) (hne : rs ≠ []) :
    2 * pps.length ≤ n ∧ ((∀ (s : Str) (md : Option Str) (ps : List MatchPattern), (s, md) ∈ hist → parse s = .ok (m, .patterns ps) →
      ∀ p ∈ ps, p.cls = .piece) → n = 2 * pps.length) := by
  have key : 2 * pps.length ≤ n := by
    obtain ⟨x, hx⟩ := List.exists_mem_of_ne_nil _ hne
    obtain ⟨-, hlen, -⟩ := C15_structure md5 hist url m pps hp hc rs ((C84_same md5 (mloadAll md5 hist) url).1 rs n h) x hx
    unfold PatternMatcherSt.matchC at h
    rw [hp] at h
    simp only [bind, Except.bind] at h
    cases hg : Dict.get? (fuzzyDigest md5 m (.pieces pps)) (mloadAll md5 hist) with
    | none =>
      rw [hg] at h
      injection h with h
      injection h with h
      exact absurd h.symm hne
    | some ms =>
      rw [hg] at h
      have := mmatchC_least _ _ _ _ _ h x hx
      simp only [List.length_nil] at this
      omega
  exact ⟨key, fun hl => Nat.le_antisymm (C84_literal md5 hist url m pps hp hc hl rs n h) key⟩

/-- **C84** for `pattern-make | pattern-match`: when the patterns are those printed for some URLs, matching one of these URLs takes at most `1 + 2 * N`
calls, where `N` is the number of characters printed for the clusters with the structure of the URL. -/
theorem C84_pipe (env : Env) (hu : StrictUtf8 env) (mcn : Int) (hm : 2 ≤ mcn) (lines : List Bytes)
    (hc : NoCollision env.md5 (accepted (urlsOf env false lines))) (hh : NoHashClash env.rt (UrlRow (urlsOf env false lines))) :
    ∃ cs, PatternMakerSt.make env.rt mcn (makeLoad env false lines).1 = .ok cs ∧
      makeRun env mcn .pattern lines = .ok (cs.flatMap (fun c => formatPattern c.1 c.2)) ∧
      ∀ url m pps, (url, none) ∈ urlsOf env false lines → parse url = .ok (m, .pieces pps) →
        ∃ rs n, (matchLoad env (printFile env (cs.flatMap (fun c => formatPattern c.1 c.2)))).match_ env.md5 url = .ok rs ∧
          (matchLoad env (printFile env (cs.flatMap (fun c => formatPattern c.1 c.2)))).matchC env.md5 url = .ok (rs, n) ∧
          n ≤ 1 + 2 * ((((cs.filter (fun c => decide (c.1 = m))).flatMap (fun c => formatPattern c.1 c.2))).map List.length).sum := by
  obtain ⟨cs, hcs⟩ := C28_total env.md5 env.rt mcn hm _ hc hh
  have hall := printed_all env.md5 hm hc hh hcs
  have htexts := texts_printed hu hall
  have hload : matchLoad env (printFile env (printedLines cs)) = mloadAll env.md5 ((printedLines cs).map (fun r => (r, some r))) := by
    rw [matchLoad_eq, htexts]
  have hgen := allGen_printed hall
  have hids : ((printedLines cs).map (fun r => (r, some r))).map (·.1) = printedLines cs := by
    rw [List.map_map]; exact List.map_id _
  refine ⟨cs, by rw [makeLoad_fst]; exact hcs, ?_, ?_⟩
  · unfold makeRun makeProcess
    rw [makeLoad_fst]
    show (PatternMakerSt.make env.rt mcn (loadAll env.md5 (urlsOf env false lines)) >>= _) = _
    rw [hcs]
    rfl
  intro url m pps hurl hparse
  show ∃ rs n, (matchLoad env (printFile env (printedLines cs))).match_ env.md5 url = .ok rs ∧
    (matchLoad env (printFile env (printedLines cs))).matchC env.md5 url = .ok (rs, n) ∧ _
  rw [hload]
  refine C84_chars env.md5 ((printedLines cs).map (fun r => (r, some r))) url m pps hparse ?_ hgen.tame _ ?_
  · rw [hids]
    refine printed_noClash hc ?_
    intro s hs
    rcases List.mem_cons.mp hs with rfl | hs
    · exact .inr ⟨none, m, pps, hurl, hparse⟩
    · exact .inl (hall s hs)
  · intro s md ps hs hps _
    obtain ⟨r, hr, e⟩ := List.mem_map.mp hs
    injection e with e1 e2
    subst e1
    obtain ⟨c, hcm, hrc⟩ := List.mem_flatMap.mp hr
    refine List.mem_flatMap.mpr ⟨c, List.mem_filter.mpr ⟨hcm, ?_⟩, hrc⟩
    cases hq : c.2.paths with
    | nil => unfold formatPattern at hrc; rw [hq] at hrc; cases hrc
    | cons q qs =>
      obtain ⟨f1, f2⟩ := printed_parse env.md5 hm hc hh hcs hcm (show q ∈ c.2.paths by rw [hq]; simp)
      rw [f1] at hrc
      rw [List.mem_singleton.mp hrc] at hps
      exact decide_eq_true (f2 m ps hps).1.symm

/-- A search that finds something took at least two calls. -/
theorem mmatchC_two {σ μ : Type} {mt : ViewCls → Option ParsedPiece → σ → Py (List Str × Nat)} {pps : List (Option ParsedPiece)} {pre : List MatchPattern}
    {d : MData σ μ} {kids : Forest (MData σ μ)} {r : List (Matched σ μ) × Nat} (h : mmatchC mt pps pre d kids = .ok r) (hne : r.1 ≠ []) : 2 ≤ r.2 := by
  cases pps with
  | nil => cases h
  | cons pp rest =>
    rw [mmatchC_cons] at h
    obtain ⟨rs, hrs, h⟩ := bind_ok h
    injection h with h
    subst h
    obtain ⟨x, hx⟩ := List.exists_mem_of_ne_nil _ hne
    obtain ⟨l, hl, hx⟩ := List.mem_flatten.mp hx
    obtain ⟨s, hs, rfl⟩ := List.mem_map.mp hl
    obtain ⟨vm, -, hvm⟩ := mapM_mem_ok hrs hs
    have hsum : s.2 ≤ (rs.map (·.2)).sum := tot_mem (f := fun s : List (Matched σ μ) × Nat => s.2) hs
    suffices 1 ≤ s.2 by simp only; omega
    unfold vmStepC at hvm
    obtain ⟨q, hq, hvm⟩ := bind_ok hvm
    cases hd : derefs kids q.1 with
    | nil =>
      rw [hd] at hvm
      injection hvm with hvm
      subst hvm
      simp
    | cons n ns =>
      rw [hd] at hvm
      simp only at hvm
      split at hvm
      · injection hvm with hvm
        subst hvm
        simp
      · obtain ⟨ms, hms, hvm⟩ := bind_ok hvm
        injection hvm with hvm
        subst hvm
        simp only
        omega

/-- **C84**: the calls inside a matcher for patterns of several units are counted: when it finds a pattern, there are at least two. -/
theorem C84_inner (cls : ViewCls) (pp : ParsedPiece) (d : Dict Str UnitTree) (keys : List Str) (n : Nat)
    (h : urlMatchC cls (some pp) (.multi d) = .ok (keys, n)) (hne : keys ≠ []) : 2 ≤ n := by
  unfold urlMatchC multiMatchC at h
  simp only at h
  split at h
  · injection h with h
    injection h with h1 h2
    exact absurd h1.symm hne
  · obtain ⟨r, hr, h⟩ := bind_ok h
    injection h with h
    injection h with h1 h2
    subst h2
    refine mmatchC_two hr ?_
    intro h0
    rw [h0] at h1
    exact hne h1.symm

/-- The number of calls for a pattern file and a URL. -/
def callsFor (pats : List Str) (url : Str) : Py (Nat × Nat) := do
  let r ← (mloadAll id (pats.map (fun s => (s, none)))).matchC id url
  return (r.1.length, r.2)

/-- Nine patterns that all match: 16 calls; loading them again changes nothing. -/
example : callsFor [c!"/a/b", c!"/a/[a-z]{1}", c!"/a/[a-z]+", c!"/[a-z]{1}/b", c!"/[a-z]{1}/[a-z]{1}", c!"/[a-z]{1}/[a-z]+", c!"/[a-z]+/b",
    c!"/[a-z]+/[a-z]{1}", c!"/[a-z]+/[a-z]+", c!"/[a-z]+/[a-z]+"] c!"http://h/a/b" = .ok (9, 16) := by decide +kernel

/-- Four literal patterns, two pieces: four calls. -/
example : callsFor [c!"/a/b", c!"/a/c", c!"/b/b", c!"/c/c"] c!"http://h/c/c" = .ok (1, 4) := by decide +kernel

/-- The trees inside the matchers for patterns of several units count. -/
example : callsFor [c!"/[a-z]+1", c!"/[a-z]+[0-9]+", c!"/a[0-9]+"] c!"http://h/a1" = .ok (3, 10) := by decide +kernel

end OsUrl
