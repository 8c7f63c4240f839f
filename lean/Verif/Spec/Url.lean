import Verif.Model.Py

/-!
# Specification: absolute URLs by their parts
-/

namespace OsUrl.Spec

/-- `scheme://host/seg₁/…/segₙ/last?query#fragment` -/
structure AbsUrl where
  scheme : Str
  host : Str
  segs : List Str
  last : Str
  query : Option Str
  fragment : Option Str

/-- An optional part with its mark. -/
def optPart (c : Char) : Option Str → Str
  | none => []
  | some t => c :: t

/-- `/seg₁/…/segₙ` -/
def pathText : List Str → Str
  | [] => []
  | s :: ss => '/' :: s ++ pathText ss

/-- The text of the URL. -/
def AbsUrl.text (u : AbsUrl) : Str :=
  u.scheme ++ ':' :: '/' :: '/' :: u.host ++ pathText (u.segs ++ [u.last]) ++ optPart '?' u.query ++ optPart '#' u.fragment

/-- No part contains a mark that would end it. -/
structure AbsUrl.OK (u : AbsUrl) : Prop where
  scheme : ∃ c t, u.scheme = c :: t ∧ c.isAlpha = true ∧ ∀ d ∈ t, d.isAlphanum = true ∨ d ∈ ['+', '-', '.']
  host : ∀ c ∈ u.host, c ∉ ['/', '?', '#']
  brackets : '[' ∈ u.host ↔ ']' ∈ u.host
  segs : ∀ s ∈ u.segs ++ [u.last], ∀ c ∈ s, c ∉ ['/', '?', '#']
  query : ∀ q, u.query = some q → '#' ∉ q

/-- The schemes whose last path segment ends at a `;`. -/
def paramSchemes : List Str :=
  [c!"ftp", c!"hdl", c!"prospero", c!"http", c!"imap", c!"https", c!"shttp", c!"rtsp", c!"rtsps", c!"rtspu", c!"sip",
   c!"sips", c!"mms", c!"sftp", c!"tel"]

def AbsUrl.HasParams (u : AbsUrl) : Prop := u.scheme.map Char.toLower ∈ paramSchemes

instance (u : AbsUrl) : Decidable u.HasParams := inferInstanceAs (Decidable (_ ∈ _))

/-- The last segment without parameters. -/
def AbsUrl.leaf (u : AbsUrl) : Str := if u.HasParams then u.last.takeWhile (· ≠ ';') else u.last

/-- The parameters of the last segment: what follows its first `;`. -/
def AbsUrl.params (u : AbsUrl) : Str := if u.HasParams then (u.last.dropWhile (· ≠ ';')).drop 1 else []

/-- The pieces of the path: the segments that are not empty, and the last one in any case. -/
def AbsUrl.pathPieces (u : AbsUrl) : List Str := u.segs.filter (· ≠ []) ++ [u.leaf]

/-- What a URL asks its host for: path, query and fragment.  It is the text after the host when no segment but the last is
empty and nothing is cut off the last one. -/
def AbsUrl.request (u : AbsUrl) : Str := pathText u.pathPieces ++ optPart '?' u.query ++ optPart '#' u.fragment

end OsUrl.Spec
