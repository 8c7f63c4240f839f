import Verif.Model.Maker

/-!
# formatter.py
-/

namespace OsUrl

/-- The pattern strings of a path. -/
def pathPatterns (path : List (Str × NodeData)) : List Str := path.map (fun kn => kn.2.pattern)

/-- `PatternFormatter.format`, formatter.py:38-52 -/
def formatPattern (m : URLMeta) (t : Tree NodeData) : List Str :=
  match t.paths with
  | [] => []
  | path :: _ => [pack m (pathPatterns path)]

/-- `nodes[-1].meta` of every path of the tree, `None` skipped, formatter.py:77-80, :106-109.  For the
empty path the last node is the root.  `meta` is a set. -/
def pathMetas (rt : Runtime) (t : Tree NodeData) : List Str :=
  t.paths.flatMap (fun path => rt.metas (((path.getLast?.map (·.2)).getD t.root).metas.getD []))

/-- `ClusterFormatter.format`, formatter.py:61-81 -/
def formatCluster (rt : Runtime) (m : URLMeta) (t : Tree NodeData) : List Str :=
  formatPattern m t ++ (pathMetas rt t).map (fun o => '\t' :: o)

/-- `InlineFormatter.format`, formatter.py:90-110.  `dump_tree` always yields a path, so
`url_pattern_string` is never `None` when a meta is printed. -/
def formatInline (rt : Runtime) (m : URLMeta) (t : Tree NodeData) : List Str :=
  let p := ((formatPattern m t).getLast?).getD []
  (pathMetas rt t).map (fun o => p ++ '\t' :: o)

/-- One hexadecimal digit, lower case. -/
def hexDigit (n : Nat) : Char := if n < 10 then Char.ofNat (48 + n) else Char.ofNat (87 + n)

/-- `'\\u{0:04x}'.format(n)` for `n < 65536` -/
def uEscape (n : Nat) : Str :=
  ['\\', 'u', hexDigit (n / 4096 % 16), hexDigit (n / 256 % 16), hexDigit (n / 16 % 16), hexDigit (n % 16)]

/-- How `json.dumps` (`ensure_ascii=True`) writes one character of a string. -/
def jsonChar (c : Char) : Str :=
  if c = '"' then ['\\', '"']
  else if c = '\\' then ['\\', '\\']
  else if c = '\n' then ['\\', 'n']
  else if c = '\r' then ['\\', 'r']
  else if c = '\t' then ['\\', 't']
  else if c.toNat = 8 then ['\\', 'b']
  else if c.toNat = 12 then ['\\', 'f']
  else if 32 ≤ c.toNat ∧ c.toNat ≤ 126 then [c]
  else if c.toNat < 65536 then uEscape c.toNat
  else
    let v := c.toNat - 65536
    uEscape (55296 + v / 1024) ++ uEscape (56320 + v % 1024)

/-- `json.dumps(s)` of a string. -/
def jsonString (s : Str) : Str := '"' :: s.flatMap jsonChar ++ ['"']

/-- `str(n)` of an int. -/
def intStr (n : Int) : Str := if n < 0 then '-' :: natStr n.natAbs else natStr n.toNat

/-- `JsonFormatter.format`, formatter.py:121-137 -/
def formatJson (m : URLMeta) (t : Tree NodeData) : List Str :=
  match t.paths with
  | [] => []
  | path :: _ =>
    [c!"{\"ptn\": " ++ jsonString (pack m (pathPatterns path)) ++ c!", \"cnt\": "
      ++ intStr t.root.count ++ c!"}"]

/-- The node label of `ETEFormatter.format`, formatter.py:157-175, for a node at `level`. -/
def eteLabel (m : URLMeta) (level : Nat) (d : CNode) : Str :=
  let qd := m.queryKeys.length
  let (sep, key) :=
    if m.pathDepth < level ∧ level ≤ m.pathDepth + qd then
      ((if level = m.pathDepth + 1 then singleQuestion else ['&']),
        m.queryKeys.getD (level - m.pathDepth - 1) [])
    else if level = m.pathDepth + qd + 1 then (['#'], [])
    else ([], [])
  c!" " ++ sep ++ key ++ d.pat ++ c!"(" ++ intStr d.count ++ c!") "

/-- The tree of names built with `ete3.Tree`: `cons name kids sibs` is a node with its children, followed by the later siblings. -/
inductive Ete where
  | nil
  | cons (name : Str) (kids sibs : Ete)
  deriving DecidableEq, Repr

/-- `add_children` of `get_ete_tree`, formatter.py:195-198, for children at `level`
(`TreeNode.level`, utils.py:87-97, counts the ancestors). -/
def eteAdd (m : URLMeta) (level : Nat) : Forest CNode → Ete
  | .nil => .nil
  | .cons _ d kids sibs => .cons (eteLabel m level d) (eteAdd m (level + 1) kids) (eteAdd m level sibs)

/-- `ETEFormatter.format`, formatter.py:144-179, up to the drawing of the tree (`get_ascii` of ete3 is not modelled): the name of
the root and the tree below it. -/
def formatEte (m : URLMeta) (t : Tree CNode) : Option (Str × Ete) :=
  if t.root.count ≤ 0 then none else some (eteLabel m 0 t.root, eteAdd m 1 t.kids)

end OsUrl
