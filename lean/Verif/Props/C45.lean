import Verif.Proofs.AbsUrl

/-! # C45: an absolute URL is read part by part; scheme and host play no role -/

namespace OsUrl
open Spec

/-- **C45**: `parse_url` of `scheme://host/seg₁/…/last?query#fragment` returns the parts; the last
segment is cut at its first `;` when the scheme is one with parameters. -/
theorem C45_parse_url (u : AbsUrl) (h : u.OK) : parseUrl u.text =
    .ok (⟨u.scheme.map Char.toLower, u.host, pathText (u.segs ++ [u.leaf]), u.params, u.query.getD [], u.fragment.getD []⟩, u.query, u.fragment) :=
  abs_parseUrl h

/-- **C45**: `analyze_url` raises what `parse_query_string` raises, and otherwise returns the path
pieces, the query values and the fragment, with the normalised query keys. -/
theorem C45_analyze_url (u : AbsUrl) (h : u.OK) :
    (∀ e, parseQueryString u.query = .error e → analyzeUrl u.text = .error e) ∧
    ∀ keys vals, parseQueryString u.query = .ok (keys, vals) →
      analyzeUrl u.text = .ok (⟨u.pathPieces.length, keys.map (fun k => normalize k ['=']), u.fragment.isSome⟩,
        u.pathPieces ++ vals ++ u.fragment.toList) := by
  have hu := abs_parseUrl h
  have hl : ¬ u.pathPieces.length ≤ 0 := by simp [AbsUrl.pathPieces]
  unfold analyzeUrl
  rw [hu]
  simp only [bind, Except.bind, unpack, abs_pieces h, if_neg hl]
  constructor
  · intro e he
    rw [he]
  · intro keys vals he
    rw [he]
    rfl

/-- **C45**: two URLs that differ in scheme and host only are analyzed alike (when both schemes have
parameters or the last segment has no `;`). -/
theorem C45_host (u v : AbsUrl) (hu : u.OK) (hv : v.OK) (h1 : u.segs = v.segs) (h2 : u.last = v.last) (h3 : u.query = v.query)
    (h4 : u.fragment = v.fragment) (h5 : (u.HasParams ↔ v.HasParams) ∨ ';' ∉ u.last) : analyzeUrl u.text = analyzeUrl v.text := by
  have hleaf : u.leaf = v.leaf := by
    unfold AbsUrl.leaf
    rw [← h2]
    rcases h5 with h5 | h5
    · simp only [h5]
    · rw [takeWhile_all h5]; simp
  have hp : u.pathPieces = v.pathPieces := by unfold AbsUrl.pathPieces; rw [hleaf, h1]
  obtain ⟨a1, a2⟩ := C45_analyze_url u hu
  obtain ⟨b1, b2⟩ := C45_analyze_url v hv
  cases hq : parseQueryString u.query with
  | error e => rw [a1 e hq, b1 e (h3 ▸ hq)]
  | ok kv =>
    obtain ⟨keys, vals⟩ := kv
    rw [a2 keys vals hq, b2 keys vals (h3 ▸ hq), hp, h4]

/-! ### examples -/

/-- A URL with everything. -/
def c45Url : AbsUrl := ⟨c!"HTTP", c!"u:p@[::1]:80", [c!"a;b", [], c!"c"], c!"d;e", some c!"k=v&w=", some c!"f?g"⟩

example : c45Url.text = c!"HTTP://u:p@[::1]:80/a;b//c/d;e?k=v&w=#f?g" := by decide

example : c45Url.OK :=
  ⟨⟨'H', c!"TTP", rfl, by decide, by decide⟩, by decide, by decide, by decide, by intro q hq; cases hq; decide⟩

example : c45Url.pathPieces = [c!"a;b", c!"c", c!"d"] := by decide

example : analyzeUrl c45Url.text =
    .ok (⟨3, [c!"k=", c!"w="], true⟩, [c!"a;b", c!"c", c!"d", c!"v", [], c!"f?g"]) := by decide +kernel

/-- Schemes do differ: `;` in the last segment. -/
example : analyzeUrl c!"http://h/a;b" = .ok (⟨1, [], false⟩, [c!"a"]) ∧
    analyzeUrl c!"foo://h/a;b" = .ok (⟨1, [], false⟩, [c!"a;b"]) := by decide +kernel

end OsUrl
