import Verif.Props.C50

/-!
# C55: the hash function and the order of sets do not matter

Python's string hash differs from one run to the next, and with it the order in which sets are iterated.
-/

namespace OsUrl
open Spec

theorem make_value (h : Runtime) (mcn : Int) (md5 : Str → Str) (hist : List (Str × Option Str)) (hc : NoCollision md5 (accepted hist)) :
    PatternMakerSt.make h mcn (loadAll md5 hist) =
      (((groupBy (Rec.sid md5) (accepted hist)).map (·.2)).mapM (fun g => (makerOf g).make h mcn >>= fun ts =>
        pure (ts.map (fun t => ((makerOf g).urlMeta, t))))).map List.flatten := by
  unfold PatternMakerSt.make
  rw [loadAll_eq md5 hist hc, List.mapM_map, List.mapM_map]
  simp only [Function.comp_def, bind, Except.bind, pure, Except.pure]
  generalize List.mapM (m := Py) _ _ = r
  cases r <;> rfl

theorem mapM_same {α β : Type} {f g : α → Py β} {l : List α} (h : ∀ a ∈ l, f a = g a) : l.mapM f = l.mapM g := by
  induction l with
  | nil => rfl
  | cons a l ih => rw [List.mapM_cons, List.mapM_cons, h a (by simp), ih (fun b hb => h b (by simp [hb]))]

/-- **C55**: the clusters of `make()`, with their trees and in their order, are the same for every digest without collision, every hash function
without clash and every order of the sets. -/
theorem C55_make (md5 md5' : Str → Str) (h h' : Runtime) (mcn : Int) (hm : 2 ≤ mcn) (hist : List (Str × Option Str))
    (hc : NoCollision md5 (accepted hist)) (hh : NoHashClash h (UrlRow hist))
    (hc' : NoCollision md5' (accepted hist)) (hh' : NoHashClash h' (UrlRow hist)) :
    PatternMakerSt.make h mcn (loadAll md5 hist) = PatternMakerSt.make h' mcn (loadAll md5' hist) := by
  rw [make_value h mcn md5 hist hc, make_value h' mcn md5' hist hc']
  rw [groupBy_same (Rec.sid md5') (Rec.sid md5) (accepted hist) (fun a ha b hb => by rw [sid_eq_iff hc ha hb, sid_eq_iff hc' ha hb])]
  congr 1
  apply mapM_same
  intro g hg
  obtain ⟨⟨k, g'⟩, hkg, rfl⟩ := List.mem_map.mp hg
  have hne := groupBy_ne_nil hkg
  obtain ⟨-, hgf⟩ := mem_groupBy hkg
  simp only at hgf hne ⊢
  have hga : ∀ r ∈ g', r ∈ accepted hist := fun r hr => by rw [hgf] at hr; exact (List.mem_filter.mp hr).1
  have hsid : ∀ r ∈ g', r.sid md5 = k := fun r hr => by
    rw [hgf] at hr; exact of_decide_eq_true (List.mem_filter.mp hr).2
  clear hgf hkg hg
  obtain ⟨r, gs, rfl⟩ := List.exists_cons_of_ne_nil hne
  have hall : ∀ r' ∈ r :: gs, r'.m = r.m ∧ r'.rules = r.rules := fun r' hr' =>
    (sid_eq_iff hc (hga r' hr') (hga r (by simp))).mp ((hsid r' hr').trans (hsid r (by simp)).symm)
  obtain ⟨Cs, ⟨h1, -⟩, h2⟩ := make_group hm hh hne hga hall
  simp only [makerOf]
  rw [h1, h2 h' hh']

/-- **C55**: two runs of `pattern-make` with different hash functions and set orders print the same clusters in the same order with the same
patterns.  Only the order of the URLs inside a cluster may differ, so the formatters that do not print URLs print exactly the same. -/
theorem C55_output (env : Env) (md5' : Str → Str) (rt' : Runtime) (mcn : Int) (hm : 2 ≤ mcn) (f : Fmt) (lines : List Bytes)
    (hc : NoCollision env.md5 (accepted (urlsOf env (loadsUrl f) lines)))
    (hh : NoHashClash env.rt (UrlRow (urlsOf env (loadsUrl f) lines)))
    (hc' : NoCollision md5' (accepted (urlsOf env (loadsUrl f) lines)))
    (hh' : NoHashClash rt' (UrlRow (urlsOf env (loadsUrl f) lines))) :
    ∃ out out' B B', makeRun env mcn f lines = .ok out ∧ makeRun { env with md5 := md5', rt := rt' } mcn f lines = .ok out' ∧
      Printed f B out ∧ Printed f B' out' ∧ B.length = B'.length ∧
      (∀ bb ∈ B.zip B', bb.1.text = bb.2.text ∧ bb.1.urls.Perm bb.2.urls) ∧
      (f ≠ .cluster → f ≠ .inline → out = out') := by
  obtain ⟨cs, out, h1, h2, h3, -, h5⟩ := printed_blocks env mcn hm f lines hc hh
  obtain ⟨cs', out', h1', h2', h3', -, h5'⟩ := printed_blocks { env with md5 := md5', rt := rt' } mcn hm f lines hc' hh'
  have hcs := C55_make env.md5 md5' env.rt rt' mcn hm _ hc hh hc' hh'
  rw [h1] at hcs
  have e : cs = cs' := by
    have := hcs.trans h1'
    injection this
  subst e
  refine ⟨out, out', _, _, h2, h2', h5, h5', by simp [blocksOf], ?_, ?_⟩
  · intro bb hbb
    unfold blocksOf at hbb
    rw [List.zip_map, List.mem_map] at hbb
    obtain ⟨⟨c, d⟩, hcd, rfl⟩ := hbb
    have hcd' : c = d := by
      clear h1 h1' h3 h3' h5 h5' hcs
      induction cs with
      | nil => cases hcd
      | cons x xs ih =>
        rw [List.zip_cons_cons, List.mem_cons] at hcd
        rcases hcd with e | e
        · injection e with e1 e2; rw [e1, e2]
        · exact ih e
    subst hcd'
    refine ⟨rfl, ?_⟩
    show (if loadsUrl f then _ else _ : List Str).Perm (if loadsUrl f then _ else _)
    by_cases hl : loadsUrl f = true
    · rw [if_pos hl, if_pos hl]
      unfold pathMetas
      refine perm_flatMap (fun p _ => ?_)
      exact (env.rt.metas_perm _).trans (rt'.metas_perm _).symm
    · rw [if_neg hl, if_neg hl]
      exact List.Perm.refl _
  · intro hf1 hf2
    rw [h3, h3']
    cases f with
    | cluster => exact absurd rfl hf1
    | inline => exact absurd rfl hf2
    | pattern => rfl
    | json => rfl
    | null => rfl

/-- Two runtimes: another hash, and sets backwards.  The URLs of one cluster come in another order, everything else is the same. -/
example : makeRun { asciiEnv with rt := codeHash } 3 .pattern c50Lines = makeRun asciiEnv 3 .pattern c50Lines := by decide +kernel
example : makeRun asciiEnv 3 .cluster c50Lines = .ok [c!"/[a-z]/[0-9]+[\\.]html", c!"\thttp://h/a/1.html", c!"\thttp://h/b/22.html",
  c!"\thttp://h/c/333.html", c!"\thttp://h/d/4.html", c!"/x[\\?]k=1", c!"\thttp://h/x?k=1", c!"\thttps://i/x?k=1",
  c!"/x[\\?]k=2#", c!"\thttp://g/x?k=2#"] := by decide +kernel
example : makeRun { asciiEnv with rt := codeHash } 3 .cluster c50Lines = .ok [c!"/[a-z]/[0-9]+[\\.]html", c!"\thttp://h/a/1.html", c!"\thttp://h/b/22.html",
  c!"\thttp://h/c/333.html", c!"\thttp://h/d/4.html", c!"/x[\\?]k=1", c!"\thttps://i/x?k=1", c!"\thttp://h/x?k=1",
  c!"/x[\\?]k=2#", c!"\thttp://g/x?k=2#"] := by decide +kernel

end OsUrl
