import Verif.Model.ParseUtils
import Verif.Proofs.Strings

namespace OsUrl

/-- Key and value of one query item: cut after the first `=`. -/
def itemKV : Str → Str × Str
  | [] => ([], [])
  | c :: cs => if c = '=' then ([c], cs) else (c :: (itemKV cs).1, (itemKV cs).2)

theorem itemKV_concat (it : Str) : (itemKV it).1 ++ (itemKV it).2 = it := by
  induction it with
  | nil => rfl
  | cons c cs ih => simp only [itemKV]; split <;> simp [*]

theorem itemKV_eq {it : Str} (h : '=' ∈ it) : ∃ a, (itemKV it).1 = a ++ ['='] ∧ '=' ∉ a := by
  induction it with
  | nil => simp at h
  | cons c cs ih =>
    simp only [itemKV]; split
    · rename_i hc; exact ⟨[], by simp [hc], by simp⟩
    · rename_i hc
      have : '=' ∈ cs := by
        rcases List.mem_cons.mp h with h | h
        · exact absurd h.symm hc
        · exact h
      obtain ⟨a, h1, h2⟩ := ih this
      exact ⟨c :: a, by simp [h1], by simp [h2]; exact fun e => hc e.symm⟩

theorem itemKV_ne {it : Str} (h : '=' ∉ it) : itemKV it = (it, []) := by
  induction it with
  | nil => rfl
  | cons c cs ih =>
    simp at h
    simp only [itemKV]
    rw [if_neg (fun e => h.1 e.symm), ih h.2]

theorem itemKV_key {a b : Str} (h : '=' ∉ a) : itemKV (a ++ '=' :: b) = (a ++ ['='], b) := by
  induction a with
  | nil => simp [itemKV]
  | cons c cs ih =>
    simp at h
    simp only [List.cons_append, itemKV]
    rw [if_neg (fun e => h.1 e.symm), ih h.2]

theorem foldlM_value (v : Str) (st : QuerySt) (hv : '&' ∉ v) (hk : st.isKey = false) :
    v.foldlM queryStep st =
      .ok { st with vbuf := st.vbuf ++ v, last := v.getLast?.or st.last } := by
  induction v generalizing st with
  | nil => simp [pure, Except.pure]
  | cons c cs ih =>
    simp at hv
    have h1 : queryStep st c = .ok { st with vbuf := st.vbuf ++ [c], last := some c } := by
      have h2 : c ≠ '&' := Ne.symm hv.1
      simp [queryStep, hk, h2]
    rw [List.foldlM_cons, h1]
    simp only [bind, Except.bind]
    rw [ih { st with vbuf := st.vbuf ++ [c], last := some c } hv.2 hk]
    cases cs with
    | nil => simp
    | cons d ds =>
      simp only [List.append_assoc, List.singleton_append, List.getLast?_cons_cons]
      congr 2

theorem foldlM_key (a : Str) (st : QuerySt) (hv : '&' ∉ a) (he : '=' ∉ a) (hk : st.isKey = true) :
    a.foldlM queryStep st =
      .ok { st with kbuf := st.kbuf ++ a, last := a.getLast?.or st.last } := by
  induction a generalizing st with
  | nil => simp [pure, Except.pure]
  | cons c cs ih =>
    simp at hv he
    have h1 : queryStep st c = .ok { st with kbuf := st.kbuf ++ [c], last := some c } := by
      have h2 : c ≠ '&' := Ne.symm hv.1
      have h3 : c ≠ '=' := Ne.symm he.1
      simp [queryStep, hk, h2, h3]
    rw [List.foldlM_cons, h1]
    simp only [bind, Except.bind]
    rw [ih { st with kbuf := st.kbuf ++ [c], last := some c } hv.2 he.2 hk]
    cases cs with
    | nil => simp
    | cons d ds =>
      simp only [List.append_assoc, List.singleton_append, List.getLast?_cons_cons]
      congr 2

/-- The state between two items. -/
def betweenSt (last : Option Char) (keys vals : List Str) : QuerySt := ⟨true, last, [], [], keys, vals⟩

theorem foldlM_item (it : Str) (hne : it ≠ []) (ha : '&' ∉ it) (last keys vals) :
    it.foldlM queryStep (betweenSt last keys vals) =
      .ok (if '=' ∈ it then ⟨false, it.getLast?, [], (itemKV it).2, keys ++ [(itemKV it).1], vals⟩
        else ⟨true, it.getLast?, it, [], keys, vals⟩) := by
  by_cases he : '=' ∈ it
  · obtain ⟨a, b, rfl, hna⟩ : ∃ a b, it = a ++ '=' :: b ∧ '=' ∉ a := by
      obtain ⟨k, hk, hk2⟩ := itemKV_eq he
      have := itemKV_concat it
      exact ⟨k, (itemKV it).2, by rw [hk] at this; simpa using this.symm, hk2⟩
    simp at ha
    rw [List.foldlM_append, foldlM_key a _ ha.1 hna rfl]
    simp only [bind, Except.bind, List.foldlM_cons]
    simp only [queryStep, betweenSt, List.nil_append, and_self, if_true]
    rw [foldlM_value b _ ha.2 rfl, if_pos he]
    simp only [itemKV_key hna, List.nil_append]
    congr 2
    rw [List.getLast?_append]
    cases b with
    | nil => simp
    | cons x xs =>
      rw [List.getLast?_cons_cons]
      cases h : (x :: xs).getLast? with
      | none => simp at h
      | some x => rfl
  · rw [foldlM_key it _ ha he rfl, if_neg he]
    simp only [betweenSt, List.nil_append]
    congr 2
    cases it with
    | nil => exact absurd rfl hne
    | cons x xs =>
      cases h : (x :: xs).getLast? with
      | none => simp at h
      | some x => rfl

theorem getLast_ne_amp {it : Str} (hne : it ≠ []) (ha : '&' ∉ it) :
    it.getLast? ≠ none ∧ it.getLast? ≠ some '&' := by
  constructor
  · simpa using hne
  · intro h; exact ha (List.mem_of_getLast? h)

theorem foldlM_item_amp (it : Str) (hne : it ≠ []) (ha : '&' ∉ it) (last keys vals) :
    (it ++ ['&']).foldlM queryStep (betweenSt last keys vals) =
      .ok (betweenSt (some '&') (keys ++ [(itemKV it).1]) (vals ++ [(itemKV it).2])) := by
  rw [List.foldlM_append, foldlM_item it hne ha]
  have hl := getLast_ne_amp hne ha
  by_cases he : '=' ∈ it
  · simp [he, queryStep, bind, Except.bind, hl, betweenSt, pure, Except.pure]
  · simp [he, queryStep, bind, Except.bind, hl, betweenSt, pure, Except.pure, itemKV_ne he]

theorem foldlM_items_ok (items : List Str) (hne : [] ∉ items) (ha : ∀ it ∈ items, '&' ∉ it)
    (last keys vals) :
    (items.flatMap (· ++ ['&'])).foldlM queryStep (betweenSt last keys vals) =
      .ok (betweenSt (if items = [] then last else some '&') (keys ++ items.map (itemKV · |>.1))
        (vals ++ items.map (itemKV · |>.2))) := by
  induction items generalizing last keys vals with
  | nil => simp [pure, Except.pure]
  | cons it items ih =>
    simp at hne ha
    rw [List.flatMap_cons, List.foldlM_append, foldlM_item_amp it hne.1 ha.1]
    simp only [bind, Except.bind]
    rw [ih hne.2 ha.2]
    simp

theorem foldlM_items_err (items : List Str) (hne : [] ∈ items) (ha : ∀ it ∈ items, '&' ∉ it)
    (last keys vals) (hl : last = none ∨ last = some '&') :
    (items.flatMap (· ++ ['&'])).foldlM queryStep (betweenSt last keys vals) = .error .irregularURL := by
  induction items generalizing last keys vals with
  | nil => simp at hne
  | cons it items ih =>
    simp at ha
    rw [List.flatMap_cons, List.foldlM_append]
    by_cases h0 : it = []
    · subst h0
      have : (([] : Str) ++ ['&']).foldlM queryStep (betweenSt last keys vals) = .error .irregularURL := by
        rcases hl with h | h <;> simp [queryStep, betweenSt, h, bind, Except.bind]
      rw [this]; rfl
    · have : [] ∈ items := by
        rcases List.mem_cons.mp hne with h | h
        · exact absurd h.symm h0
        · exact h
      rw [foldlM_item_amp it h0 ha.1]
      simp only [bind, Except.bind]
      exact ih this ha.2 _ _ _ (.inr rfl)

theorem join_concat_amp (items : List Str) (it : Str) :
    join ['&'] (items ++ [it]) = items.flatMap (· ++ ['&']) ++ it := by
  induction items with
  | nil => rfl
  | cons x xs ih =>
    rw [List.cons_append, join_cons_ne (by simp), ih]
    simp

theorem foldlM_err_append {a b : Str} {st : QuerySt} {e : PyErr}
    (h : a.foldlM queryStep st = .error e) : (a ++ b).foldlM queryStep st = .error e := by
  rw [List.foldlM_append, h]; rfl

/-- Closed form of `parse_query_string` on a non-empty query given by its items. -/
theorem parseQueryString_items (items : List Str) (hne : items ≠ []) (ha : ∀ it ∈ items, '&' ∉ it)
    (hq : join ['&'] items ≠ []) :
    parseQueryString (some (join ['&'] items)) =
      if [] ∈ items then .error .irregularURL
      else match items with
        | [it] => if '=' ∈ it then .ok ([(itemKV it).1], [(itemKV it).2]) else .ok ([[]], [it])
        | _ => .ok (items.map (itemKV · |>.1), items.map (itemKV · |>.2)) := by
  obtain ⟨init, it, rfl⟩ : ∃ init it, items = init ++ [it] :=
    ⟨items.dropLast, items.getLast hne, (List.dropLast_concat_getLast hne).symm⟩
  have hai : ∀ x ∈ init, '&' ∉ x := fun x hx => ha x (by simp [hx])
  have hal : '&' ∉ it := ha it (by simp)
  have hunf : ∀ q : Str, q ≠ [] → parseQueryString (some q) =
      if endsWithChar '&' q then .error .irregularURL
      else do
        let st ← q.foldlM queryStep ⟨true, none, [], [], [], []⟩
        let keys := if st.isKey then st.keys ++ [st.kbuf] else st.keys
        let vals := if st.isKey then st.vals ++ [[]] else st.vals ++ [st.vbuf]
        match keys, vals with
        | [k], v :: vs => if endsWithChar '=' k then return ([k], v :: vs) else return ([v], k :: vs)
        | _, _ => return (keys, vals) := by
    intro q hq
    cases q with
    | nil => exact absurd rfl hq
    | cons => rfl
  rw [hunf _ hq, join_concat_amp]
  rw [join_concat_amp] at hq
  by_cases h0 : it = []
  · subst h0
    have : endsWithChar '&' (init.flatMap (· ++ ['&']) ++ []) = true := by
      have hi : init ≠ [] := by intro h; subst h; exact hq rfl
      obtain ⟨i2, x, rfl⟩ : ∃ i2 x, init = i2 ++ [x] :=
        ⟨init.dropLast, init.getLast hi, (List.dropLast_concat_getLast hi).symm⟩
      simp [endsWithChar, List.getLast?_append]
    rw [this]; simp
  · have hl := getLast_ne_amp h0 hal
    have hend : endsWithChar '&' (init.flatMap (· ++ ['&']) ++ it) = false := by
      simp only [endsWithChar, List.getLast?_append]
      cases hx : it.getLast? with
      | none => exact absurd hx hl.1
      | some c =>
        rw [hx] at hl
        simp at hl ⊢; exact hl
    rw [hend, if_neg (by simp)]
    by_cases hi : [] ∈ init
    · have := foldlM_items_err init hi hai none [] [] (.inl rfl)
      rw [show (⟨true, none, [], [], [], []⟩ : QuerySt) = betweenSt none [] [] from rfl,
        foldlM_err_append this]
      simp [hi, bind, Except.bind]
    · have h1 := foldlM_items_ok init hi hai none [] []
      have hmem : ([] : Str) ∉ init ++ [it] := by simp [hi, h0]
      rw [if_neg hmem, show (⟨true, none, [], [], [], []⟩ : QuerySt) = betweenSt none [] [] from rfl,
        List.foldlM_append, h1]
      simp only [bind, Except.bind]
      rw [foldlM_item it h0 hal]
      cases init with
      | nil =>
        by_cases he : '=' ∈ it
        · obtain ⟨a, ha1, ha2⟩ := itemKV_eq he
          simp [he, ha1, endsWithChar, pure, Except.pure]
        · have hnl : ¬ (it.getLast? = some '=') := fun h => he (List.mem_of_getLast? h)
          simp [he, endsWithChar, pure, Except.pure, hnl]
      | cons x xs =>
        by_cases he : '=' ∈ it
        · cases xs with
          | nil => simp [he, pure, Except.pure]
          | cons => simp [he, pure, Except.pure]
        · cases xs with
          | nil => simp [he, pure, Except.pure, itemKV_ne he]
          | cons => simp [he, pure, Except.pure, itemKV_ne he]

end OsUrl
