import Verif.Proofs.SpecPerm
import Verif.Props.C35

/-!
# C50: everything `pattern-make` prints

The clusters and their patterns are those of `Spec.Listing`, which is defined from the URLs of the input alone.
-/

namespace OsUrl
open Spec

/-- The URLs on the lines. -/
def inputUrls (env : Env) (lines : List Bytes) : List Str := lines.filterMap (urlOf env)

theorem urlsOf_fst (env : Env) (b : Bool) (lines : List Bytes) : (urlsOf env b lines).map (·.1) = inputUrls env lines := by
  unfold urlsOf inputUrls
  rw [List.map_filterMap]
  congr 1
  funext l
  cases urlOf env l <;> rfl

theorem mem_urlsOf {env : Env} {b : Bool} {lines : List Bytes} {u : Str} {md : Option Str} (h : (u, md) ∈ urlsOf env b lines) :
    md = if b then some u else none := by
  obtain ⟨l, -, e⟩ := List.mem_filterMap.mp h
  cases hl : urlOf env l with
  | none => rw [hl] at e; simp at e
  | some v =>
    rw [hl] at e
    simp only [Option.map_some, Option.some.injEq, Prod.mk.injEq] at e
    rw [← e.1, ← e.2]

/-- The output of a formatter for the clusters `B`. -/
def Printed (f : Fmt) (B : List Block) (out : List Str) : Prop :=
  match f with
  | .pattern => out = B.map (·.text)
  | .cluster => out = B.flatMap (fun b => b.text :: b.urls.map ('\t' :: ·))
  | .inline => out = B.flatMap (fun b => b.urls.map (fun u => b.text ++ '\t' :: u))
  | .json => out.map readObject = B.map (fun b => some [(c!"ptn".map Char.toNat, .str (b.text.flatMap utf16)),
      (c!"cnt".map Char.toNat, .int (firsts (b.urls.map urlInfo)).length)])
  | .null => out = []

theorem flatMap_one {α β : Type} (f : α → List β) (g : α → β) (l : List α) (h : ∀ a ∈ l, f a = [g a]) : l.flatMap f = l.map g := by
  induction l with
  | nil => rfl
  | cons a l ih => rw [List.flatMap_cons, h a (by simp), ih (fun b hb => h b (by simp [hb]))]; rfl

theorem flatMap_same {α β : Type} (f g : α → List β) (l : List α) (h : ∀ a ∈ l, f a = g a) : l.flatMap f = l.flatMap g := by
  induction l with
  | nil => rfl
  | cons a l ih => rw [List.flatMap_cons, List.flatMap_cons, h a (by simp), ih (fun b hb => h b (by simp [hb]))]

/-- The clusters that are printed. -/
def blocksOf (rt : Runtime) (f : Fmt) (hist : List (Str × Option Str)) (cs : List (URLMeta × Tree NodeData)) : List Block :=
  cs.map (fun c => ⟨writeUrl c.1 (treePats c.2), if loadsUrl f then pathMetas rt c.2 else ownUrls hist c⟩)

theorem printed_blocks (env : Env) (mcn : Int) (hm : 2 ≤ mcn) (f : Fmt) (lines : List Bytes)
    (hc : NoCollision env.md5 (accepted (urlsOf env (loadsUrl f) lines)))
    (hh : NoHashClash env.rt (UrlRow (urlsOf env (loadsUrl f) lines))) :
    ∃ cs out, PatternMakerSt.make env.rt mcn (loadAll env.md5 (urlsOf env (loadsUrl f) lines)) = .ok cs ∧ makeRun env mcn f lines = .ok out ∧
      out = cs.flatMap (fun mt => pformat env.rt f mt.1 mt.2) ∧
      Listing mcn urlInfo (inputUrls env lines) (blocksOf env.rt f (urlsOf env (loadsUrl f) lines) cs) ∧
      Printed f (blocksOf env.rt f (urlsOf env (loadsUrl f) lines) cs) out := by
  obtain ⟨cs, h1, h2⟩ := cutUp env.md5 env.rt mcn hm _ hc hh
  have hrun : makeRun env mcn f lines = .ok (cs.flatMap (fun mt => pformat env.rt f mt.1 mt.2)) := by
    unfold makeRun makeProcess
    rw [makeLoad_fst, h1]
    rfl
  have hU := urlsOf_fst env (loadsUrl f) lines
  -- the URLs, when they are not loaded
  have hown := cutUp_listing h2 (ownUrls (urlsOf env (loadsUrl f) lines)) (fun c hc => firsts_nodup _) (fun c hc v => ownUrls_mem c v)
  rw [hU] at hown
  -- the URLs, when they are loaded
  have hmet : loadsUrl f = true → Listing mcn urlInfo (inputUrls env lines) (cs.map (fun c => ⟨writeUrl c.1 (treePats c.2), pathMetas env.rt c.2⟩)) := by
    intro hl
    have hm := cutUp_metas h2 env.rt
      (fun u x hx => by have := mem_urlsOf hx; rw [hl] at this; simpa using this)
      (fun u md hx => by have := mem_urlsOf hx; rw [hl] at this; simp only [if_true] at this; rwa [← this])
    have := cutUp_listing h2 (fun c => pathMetas env.rt c.2) (fun c hc => (hm c hc).1) (fun c hc => (hm c hc).2)
    rwa [hU] at this
  refine ⟨cs, _, h1, hrun, rfl, ?_⟩
  cases f with
  | pattern =>
    refine ⟨hown, ?_⟩
    simp only [Printed, blocksOf, List.map_map]
    exact flatMap_one _ _ _ (fun c hc => (treePats_eq h2 hc).2.2)
  | cluster =>
    refine ⟨hmet rfl, ?_⟩
    simp only [Printed, blocksOf, List.flatMap_map]
    refine flatMap_same _ _ _ (fun c hc => ?_)
    unfold pformat formatCluster
    simp only
    rw [(treePats_eq h2 hc).2.2]
    rfl
  | inline =>
    refine ⟨hmet rfl, ?_⟩
    simp only [Printed, blocksOf, List.flatMap_map]
    refine flatMap_same _ _ _ (fun c hc => ?_)
    unfold pformat formatInline
    simp only
    rw [(treePats_eq h2 hc).2.2]
    rfl
  | json =>
    refine ⟨hown, ?_⟩
    simp only [Printed, blocksOf, List.map_map]
    rw [List.map_flatMap]
    refine flatMap_one _ _ _ (fun c hc => ?_)
    obtain ⟨p, ps, e⟩ := List.exists_cons_of_ne_nil (h2.ne c hc).1
    obtain ⟨line, e1, e2⟩ := C35_record c.1 c.2 p ps e
    have hp := (treePats_eq h2 hc).1 p (by rw [e]; simp)
    rw [hp, (treePats_eq h2 hc).2.1, (h2.ne c hc).2, cutUp_count h2 hc (fun v => ownUrls_mem c v)] at e2
    simp only [pformat, e1, List.map_cons, List.map_nil, e2, Function.comp_apply]
    rfl
  | null =>
    refine ⟨hown, ?_⟩
    simp [Printed, pformat]

/-- **C50**: `pattern-make` does not fail, and prints the patterns (and the URLs, or their number) of the clusters of the URLs on its
lines. -/
theorem C50_output (env : Env) (mcn : Int) (hm : 2 ≤ mcn) (f : Fmt) (lines : List Bytes)
    (hc : NoCollision env.md5 (accepted (urlsOf env (loadsUrl f) lines)))
    (hh : NoHashClash env.rt (UrlRow (urlsOf env (loadsUrl f) lines))) :
    ∃ out B, makeRun env mcn f lines = .ok out ∧ Listing mcn urlInfo (inputUrls env lines) B ∧ Printed f B out := by
  obtain ⟨cs, out, -, h2, -, h3, h4⟩ := printed_blocks env mcn hm f lines hc hh
  exact ⟨out, _, h2, h3, h4⟩

/-- **C50**: the inline formatter prints every accepted URL once, with its pattern. -/
theorem C50_inline (env : Env) (mcn : Int) (hm : 2 ≤ mcn) (lines : List Bytes)
    (hc : NoCollision env.md5 (accepted (urlsOf env true lines)))
    (hh : NoHashClash env.rt (UrlRow (urlsOf env true lines))) :
    ∃ out, makeRun env mcn .inline lines = .ok out ∧
      out.Perm ((firsts ((inputUrls env lines).filter (fun u => (urlInfo u).isSome))).map
        (fun u => patternOf mcn urlInfo (inputUrls env lines) u ++ '\t' :: u)) := by
  obtain ⟨out, B, h1, h2, h3⟩ := C50_output env mcn hm .inline lines hc hh
  refine ⟨out, h1, ?_⟩
  simp only [Printed] at h3
  rw [h3]
  exact listing_flat h2 (fun t u => t ++ '\t' :: u)

/-- **C50**: two inputs with the same set of URLs get the same clusters, in some order: the printed patterns are a permutation of each other, and
so are the lines of the inline formatter. -/
theorem C50_order (env : Env) (mcn : Int) (hm : 2 ≤ mcn) (f : Fmt) (lines lines' : List Bytes)
    (hs : ∀ u, u ∈ inputUrls env lines ↔ u ∈ inputUrls env lines')
    (hc : NoCollision env.md5 (accepted (urlsOf env (loadsUrl f) lines)))
    (hh : NoHashClash env.rt (UrlRow (urlsOf env (loadsUrl f) lines)))
    (hc' : NoCollision env.md5 (accepted (urlsOf env (loadsUrl f) lines')))
    (hh' : NoHashClash env.rt (UrlRow (urlsOf env (loadsUrl f) lines'))) :
    ∃ out out' B B', makeRun env mcn f lines = .ok out ∧ makeRun env mcn f lines' = .ok out' ∧ Printed f B out ∧ Printed f B' out' ∧
      (B.map (inOrder (inputUrls env lines))).Perm (B'.map (inOrder (inputUrls env lines))) ∧
      (f = .pattern ∨ f = .inline → out.Perm out') := by
  obtain ⟨out, B, h1, h2, h3⟩ := C50_output env mcn hm f lines hc hh
  obtain ⟨out', B', h1', h2', h3'⟩ := C50_output env mcn hm f lines' hc' hh'
  have h4 := listing_set (fun u => (hs u).symm) h2'
  refine ⟨out, out', B, B', h1, h1', h3, h3', listing_unique h2 h4, ?_⟩
  rintro (rfl | rfl)
  · simp only [Printed] at h3 h3'
    rw [h3, h3']
    exact listing_texts h2 h4
  · simp only [Printed] at h3 h3'
    rw [h3, h3']
    exact (listing_flat h2 (fun t u => t ++ '\t' :: u)).trans (listing_flat h4 (fun t u => t ++ '\t' :: u)).symm

/-- The lines of the examples: four URLs that stay together, two of another structure, one of them twice, one blank line, one pattern string. -/
def c50Lines : List Bytes := [c!"http://h/a/1.html", c!" http://h/b/22.html", c!"", c!"http://h/c/333.html", c!"http://h/x?k=1", c!"/x", c!"http://h/d/4.html",
  c!"http://g/x?k=2#", c!"http://h/x?k=1", c!"https://i/x?k=1"].map lineB

example : inputUrls asciiEnv c50Lines = [c!"http://h/a/1.html", c!"http://h/b/22.html", c!"http://h/c/333.html", c!"http://h/x?k=1", c!"/x", c!"http://h/d/4.html",
  c!"http://g/x?k=2#", c!"http://h/x?k=1", c!"https://i/x?k=1"] := by decide +kernel

example : makeRun asciiEnv 3 .pattern c50Lines = .ok [c!"/[a-z]/[0-9]+[\\.]html", c!"/x[\\?]k=1", c!"/x[\\?]k=2#"] := by decide +kernel

example : makeRun asciiEnv 3 .inline c50Lines = .ok [c!"/[a-z]/[0-9]+[\\.]html\thttp://h/a/1.html", c!"/[a-z]/[0-9]+[\\.]html\thttp://h/b/22.html",
  c!"/[a-z]/[0-9]+[\\.]html\thttp://h/c/333.html", c!"/[a-z]/[0-9]+[\\.]html\thttp://h/d/4.html", c!"/x[\\?]k=1\thttp://h/x?k=1", c!"/x[\\?]k=1\thttps://i/x?k=1",
  c!"/x[\\?]k=2#\thttp://g/x?k=2#"] := by decide +kernel

/-- The same from the specification alone. -/
example : (inputUrls asciiEnv c50Lines).map (patternOf 3 urlInfo (inputUrls asciiEnv c50Lines)) = [c!"/[a-z]/[0-9]+[\\.]html", c!"/[a-z]/[0-9]+[\\.]html", c!"/[a-z]/[0-9]+[\\.]html",
  c!"/x[\\?]k=1", [], c!"/[a-z]/[0-9]+[\\.]html", c!"/x[\\?]k=2#", c!"/x[\\?]k=1", c!"/x[\\?]k=1"] := by decide +kernel

/-- With the JSON formatter: two URLs, one path. -/
example : (makeRun asciiEnv 3 .json c50Lines).toOption.map (fun o => o.map String.ofList) =
    some ["{\"ptn\": \"/[a-z]/[0-9]+[\\\\.]html\", \"cnt\": 4}", "{\"ptn\": \"/x[\\\\?]k=1\", \"cnt\": 1}", "{\"ptn\": \"/x[\\\\?]k=2#\", \"cnt\": 1}"] := by
  decide +kernel

end OsUrl
