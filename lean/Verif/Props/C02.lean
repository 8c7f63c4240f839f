import Verif.Proofs.Query

/-! # C02: `parse_query_string` is lossless and rejects exactly the queries with an empty item -/

namespace OsUrl

/-- `k`, `v` are the key and value of a query item: the item is `k` followed by `v`, and the key
ends with the first `=` of the item or is the whole item if there is none. -/
def KeyValue (item k v : Str) : Prop :=
  item = k ++ v ∧ ((∃ a, k = a ++ ['='] ∧ '=' ∉ a) ∨ ('=' ∉ item ∧ v = []))

theorem keyValue_itemKV (it : Str) : KeyValue it (itemKV it).1 (itemKV it).2 := by
  refine ⟨(itemKV_concat it).symm, ?_⟩
  by_cases h : '=' ∈ it
  · exact .inl (itemKV_eq h)
  · exact .inr ⟨h, by rw [itemKV_ne h]⟩

/-- The items of a query string: its parts between `&`. -/
def Items (q : Str) (items : List Str) : Prop :=
  items ≠ [] ∧ (∀ it ∈ items, '&' ∉ it) ∧ q = join ['&'] items

/-- Every string has items. -/
theorem items_exist (q : Str) : Items q (splitChar '&' q) :=
  ⟨splitChar_ne_nil _ _, fun _ h => not_mem_of_mem_splitChar h, (join_splitChar _ _).symm⟩

/-- **C02**: a non-empty query raises `IrregularURLException` exactly when an item is empty; it
raises nothing else. -/
theorem C02_rejects (q : Str) (hq : q ≠ []) (items : List Str) (hi : Items q items) :
    ([] ∈ items → parseQueryString (some q) = .error .irregularURL) ∧
    ([] ∉ items → ∃ r, parseQueryString (some q) = .ok r) := by
  obtain ⟨h1, h2, rfl⟩ := hi
  rw [parseQueryString_items items h1 h2 hq]
  constructor
  · intro h; simp [h]
  · intro h
    rw [if_neg h]
    split
    · split <;> exact ⟨_, rfl⟩
    · exact ⟨_, rfl⟩

/-- **C02**: an accepted query yields one key and one value per item, in order, cut after the first
`=`; a single item without `=` is a value with an empty key. -/
theorem C02_pairs (q : Str) (hq : q ≠ []) (items keys vals : List Str) (hi : Items q items)
    (h : parseQueryString (some q) = .ok (keys, vals)) :
    keys.length = items.length ∧ vals.length = items.length ∧
    if items.length = 1 ∧ '=' ∉ q then keys = [[]] ∧ vals = [q]
    else ∀ x ∈ items.zip (keys.zip vals), KeyValue x.1 x.2.1 x.2.2 := by
  obtain ⟨h1, h2, rfl⟩ := hi
  rw [parseQueryString_items items h1 h2 hq] at h
  split at h
  · cases h
  · split at h
    · rename_i it hne0
      split at h
      · rename_i he
        simp at h
        obtain ⟨rfl, rfl⟩ := h
        simp only [join]
        simp only [List.length_singleton, true_and, not_true_eq_false, he, if_false]
        intro x hx
        simp at hx
        subst hx
        exact keyValue_itemKV _
      · rename_i he
        simp at h
        obtain ⟨rfl, rfl⟩ := h
        simp [join, he]
    · rename_i hne0 xx hnot
      simp at h
      obtain ⟨rfl, rfl⟩ := h
      refine ⟨by simp, by simp, ?_⟩
      have hl : ¬ (items.length = 1 ∧ '=' ∉ join ['&'] items) := by
        rintro ⟨hl, -⟩
        obtain ⟨a, rfl⟩ := List.length_eq_one_iff.mp hl
        apply hnot a h1 h2 hq <;> first | rfl | exact HEq.rfl
      rw [if_neg hl]
      clear hnot hl hq h1 h2
      induction items with
      | nil => simp
      | cons it items ih =>
        intro x hx
        simp at hx
        rcases hx with rfl | hx
        · exact keyValue_itemKV it
        · exact ih (by simp_all) x (by simpa using hx)

/-- **C02**: nothing is lost. -/
theorem C02_lossless (q : Str) (hq : q ≠ []) (keys vals : List Str)
    (h : parseQueryString (some q) = .ok (keys, vals)) :
    join ['&'] ((keys.zip vals).map (fun kv => kv.1 ++ kv.2)) = q := by
  have hi := items_exist q
  have hp := C02_pairs q hq _ keys vals hi h
  obtain ⟨hk, hv, hp⟩ := hp
  split at hp
  · obtain ⟨rfl, rfl⟩ := hp; simp [join]
  · rename_i hn
    clear hn
    obtain ⟨-, -, hj⟩ := hi
    conv => rhs; rw [hj]
    congr 1
    generalize splitChar '&' q = items at *
    clear hj h hq
    induction items generalizing keys vals with
    | nil => simp at hk; simp [hk]
    | cons it items ih =>
      cases keys with
      | nil => simp at hk
      | cons k ks =>
        cases vals with
        | nil => simp at hv
        | cons v vs =>
          simp only [List.zip_cons_cons, List.map_cons]
          rw [ih ks vs (by simpa using hk) (by simpa using hv)
            (fun x hx => hp x (by simp [hx]))]
          have := hp (it, k, v) (by simp)
          rw [← this.1]

/-- **C02**: no query and an empty query. -/
theorem C02_empty : parseQueryString none = .ok ([], []) ∧ parseQueryString (some []) = .ok ([[]], [[]]) :=
  ⟨rfl, rfl⟩

example : parseQueryString (some c!"a=1&b&c==2") = .ok ([c!"a=", c!"b", c!"c="], [c!"1", [], c!"=2"]) := by
  decide
example : parseQueryString (some c!"abc") = .ok ([[]], [c!"abc"]) := by decide
example : parseQueryString (some c!"a=1&&b=2") = .error .irregularURL := by decide
example : Items c!"a=1&&b=2" [c!"a=1", [], c!"b=2"] := by
  refine ⟨by simp, ?_, ?_⟩ <;> decide

end OsUrl
