import Verif.Spec.Clustering
import Verif.Spec.Url
import Verif.Spec.Json
import Verif.Model.ParseUtils

/-!
# Specification: what `pattern-make` prints

`info u` is what is read from a URL: its structure and its pieces, or nothing when it is refused.
-/

namespace OsUrl.Spec

/-- The text of a URL pattern: the patterns of the path, the query and the fragment. -/
def writeUrl (m : URLMeta) (ts : List Str) : Str :=
  pathText (ts.take m.pathDepth) ++
    (match m.queryKeys.zip (ts.drop m.pathDepth) with
      | [] => []
      | kv :: kvs => c!"[\\?]" ++ kv.1 ++ kv.2 ++ kvs.flatMap (fun kv => '&' :: kv.1 ++ kv.2)) ++
    (if m.hasFragment then '#' :: (ts.getLast?).getD [] else [])

section
variable (mcn : Int) (info : Str → Option (URLMeta × List Str)) (U : List Str)

/-- The distinct rows of the URLs with structure `m` and the classes of `row`. -/
def peers (m : URLMeta) (row : List Str) : List (List Str) :=
  firsts (U.filterMap (fun v => match info v with
    | some (m', row') => if m' = m ∧ row'.map (fun s => clsText (cut s)) = row.map (fun s => clsText (cut s)) then some row' else none
    | none => none))

/-- The rows that stay together with `row`. -/
def company (m : URLMeta) (row : List Str) : List WRow :=
  family (urlRule mcn m.pathDepth) row.length ((peers info U m row).length + 1) ((peers info U m row).map urlRow) (urlRow row)

/-- The pattern of a URL among the URLs `U`. -/
def patternOf (u : Str) : Str :=
  match info u with
  | none => []
  | some (m, row) => writeUrl m (texts (urlRule mcn m.pathDepth) row.length 0 (company mcn info U m row) (urlRow row))

/-- Two URLs have the same structure and stay together. -/
def Together (u v : Str) : Prop :=
  ∃ m row row', info u = some (m, row) ∧ info v = some (m, row') ∧ urlRow row' ∈ company mcn info U m row

/-- A cluster as it is printed. -/
structure Block where
  text : Str
  urls : List Str

/-- The clusters of the URLs `U`: every accepted URL is in exactly one, once; the URLs of a cluster are those that stay together
with any one of them, and all of them have its text as pattern. -/
structure Listing (B : List Block) : Prop where
  all : (B.flatMap (·.urls)).Perm (firsts (U.filter (fun u => (info u).isSome)))
  ne : ∀ b ∈ B, b.urls ≠ []
  text : ∀ b ∈ B, ∀ u ∈ b.urls, b.text = patternOf mcn info U u
  urls : ∀ b ∈ B, ∀ u ∈ b.urls, ∀ v, v ∈ b.urls ↔ v ∈ U ∧ Together mcn info U u v

end

end OsUrl.Spec
