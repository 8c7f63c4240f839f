import Verif.Model.UrlParse

/-!
# parse_utils.py

/repo/src/os_urlpattern/parse_utils.py, function by function.
-/

namespace OsUrl

/-- `URLMeta`, parse_utils.py:22-35 -/
structure URLMeta where
  pathDepth : Nat
  queryKeys : List Str
  hasFragment : Bool
  deriving DecidableEq, Repr

/-- `URLMeta.depth`, parse_utils.py:33-35 -/
def URLMeta.depth (m : URLMeta) : Nat :=
  m.pathDepth + m.queryKeys.length + (if m.hasFragment then 1 else 0)

/-- The string `specify_rule` returns when it does not raise, parse_utils.py:68-73
(`[]` stands for the branch that raises). -/
def specStr (rule : Str) (num : Int) : Str :=
  if num = 1 then c!"[" ++ rule ++ c!"]"
  else if num < 0 then c!"[" ++ rule ++ c!"]+"
  else if num > 1 then c!"[" ++ rule ++ c!"]{" ++ natStr num.toNat ++ c!"}"
  else []

/-- `specify_rule(rule, num)`, parse_utils.py:38-75 -/
def specifyRule (rule : Str) (num : Int) : Py Str :=
  if num = 0 then .error .valueError else .ok (specStr rule num)

/-- `wildcard_rule(rule)`, parse_utils.py:78-89 -/
def wildcardRule (rule : Str) : Py Str := specifyRule rule (-1)

/-- `'%s' % CHAR_RULE_DICT.get(c)`: the rule of the character, and the text `None` for a character
that has none (parse_utils.py:124, :135, :147). -/
def charRuleText (c : Char) : Str := (charRule c).getD c!"None"

/-- Loop state of `normalize`: `normalized`, `frag`, `last_c` (parse_utils.py:113-115). -/
structure NormSt where
  out : Str
  frag : Str
  last : Option Char
  deriving DecidableEq, Repr

/-- Rewrite of a finished run of signs: kept when reserved, otherwise `specify_rule` of its rule
(parse_utils.py:123-125, :133-136, :145-148; the run is never empty there, so `specify_rule`
does not raise). -/
def normSign (reserved : Str) (w : Str) : Str :=
  match w with
  | [] => []
  | c :: _ => if hasChar c reserved then w else specStr (charRuleText c) w.length

/-- One iteration of the loop of `normalize`, parse_utils.py:116-140 -/
def normStep (reserved : Str) (st : NormSt) (c : Char) : NormSt :=
  let st :=
    if isAlnumC c then
      match st.last with
      | some l => if isAlnumC l then st else { st with out := st.out ++ normSign reserved st.frag, frag := [] }
      | none => st
    else if st.last ≠ some c then
      match st.frag with
      | [] => st
      | w0 :: _ =>
        { st with
          out := st.out ++ (if isAlnumC w0 then st.frag else normSign reserved st.frag)
          frag := [] }
    else st
  { st with frag := st.frag ++ [c], last := some c }

/-- `normalize(raw_string, reserved_chars)`, parse_utils.py:92-151 (`reserved = []` models
`reserved_chars=None`). -/
def normalize (raw : Str) (reserved : Str := []) : Str :=
  let st := raw.foldl (normStep reserved) ⟨[], [], none⟩
  match st.last with
  | none => st.out ++ st.frag
  | some l => st.out ++ (if isAlnumC l then st.frag else normSign reserved st.frag)

/-- What `unpack` reads of a parse result: `path`, `query`, `fragment`
(`ParseResult` or `URLPatternParseResult`, parse_utils.py:18-19). -/
structure PQF where
  path : Option Str
  query : Option Str
  fragment : Option Str
  deriving DecidableEq, Repr

/-- `parse_url(url)`, parse_utils.py:154-178.  `none` models Python's `None`. -/
def parseUrl (url : Str) : Py (UrlParts × Option Str × Option Str) := do
  let r ← urlparse url
  if r.fragment = [] then
    let last ← pyIndex url (-1)
    if last ≠ '#' then
      -- parse_utils.py:171: `not query and url[-1] != '?'`
      if r.query = [] ∧ last ≠ '?' then return (r, none, none)
      else return (r, some r.query, none)
    else if r.query = [] then
      let c ← pyIndex url (-2)
      if c ≠ '?' then return (r, none, some r.fragment)
      else return (r, some r.query, some r.fragment)
    else return (r, some r.query, some r.fragment)
  else if r.query = [] then
    let c ← pyIndex url ((url.length : Int) - r.fragment.length - 2)
    if c ≠ '?' then return (r, none, some r.fragment)
    else return (r, some r.query, some r.fragment)
  else return (r, some r.query, some r.fragment)

/-- `filter_useless(objs)`, parse_utils.py:181-210: drop empty strings except the last element. -/
def filterUseless : List Str → List Str
  | [] => []
  | [x] => [x]
  | x :: y :: rest => if x = [] then filterUseless (y :: rest) else x :: filterUseless (y :: rest)

/-- Loop state of `parse_query_string`, parse_utils.py:231-234. -/
structure QuerySt where
  isKey : Bool
  last : Option Char
  kbuf : Str
  vbuf : Str
  keys : List Str
  vals : List Str
  deriving DecidableEq, Repr

/-- One iteration of the loop of `parse_query_string`, parse_utils.py:235-257 -/
def queryStep (st : QuerySt) (i : Char) : Py QuerySt :=
  if i = '=' ∧ st.isKey = true then
    .ok { st with keys := st.keys ++ [st.kbuf ++ [i]], kbuf := [], isKey := false, last := some i }
  else if i = '&' then
    if st.last = none ∨ st.last = some '&' then .error .irregularURL
    else if st.isKey then
      .ok { st with keys := st.keys ++ [st.kbuf], kbuf := [], vals := st.vals ++ [[]], last := some i }
    else
      .ok { st with vals := st.vals ++ [st.vbuf], vbuf := [], isKey := true, last := some i }
  else if st.isKey then .ok { st with kbuf := st.kbuf ++ [i], last := some i }
  else .ok { st with vbuf := st.vbuf ++ [i], last := some i }

/-- `parse_query_string(query_string)`, parse_utils.py:213-268 -/
def parseQueryString : Option Str → Py (List Str × List Str)
  | none => .ok ([], [])
  | some [] => .ok ([[]], [[]])
  | some q =>
    if endsWithChar '&' q then .error .irregularURL
    else do
      let st ← q.foldlM queryStep ⟨true, none, [], [], [], []⟩
      let keys := if st.isKey then st.keys ++ [st.kbuf] else st.keys
      let vals := if st.isKey then st.vals ++ [[]] else st.vals ++ [st.vbuf]
      match keys, vals with
      | [k], v :: vs => if endsWithChar '=' k then return ([k], v :: vs) else return ([v], k :: vs)
      | _, _ => return (keys, vals)

/-- Loop state of `mix`, parse_utils.py:284-289. -/
structure MixSt where
  mp : List Str
  mr : List Str
  tp : List Str
  tr : List Str
  tmix : Bool
  deriving DecidableEq, Repr

/-- One iteration of the loop of `mix`, parse_utils.py:290-306 -/
def mixStep (st : MixSt) (pr : Str × Str) : MixSt :=
  let st :=
    if pr.2 ∈ mixedRuleSet then
      if st.tr ≠ [] ∧ st.tmix = false then
        { st with mp := st.mp ++ st.tp, mr := st.mr ++ st.tr, tp := [], tr := [], tmix := true }
      else { st with tmix := true }
    else
      if st.tr ≠ [] ∧ st.tmix = true then
        { st with mp := st.mp ++ [st.tp.flatten], mr := st.mr ++ [joinSorted st.tr],
                  tp := [], tr := [], tmix := false }
      else { st with tmix := false }
  { st with tp := st.tp ++ [pr.1], tr := st.tr ++ [pr.2] }

/-- `mix(pieces, rules)`, parse_utils.py:271-313 -/
def mix (pieces rules : List Str) : List Str × List Str :=
  let st := (pieces.zip rules).foldl mixStep ⟨[], [], [], [], false⟩
  if st.tmix then (st.mp ++ [st.tp.flatten], st.mr ++ [joinSorted st.tr])
  else (st.mp ++ st.tp, st.mr ++ st.tr)

/-- `unpack(result, normalize_key)`, parse_utils.py:316-345.  `result.path is None` makes
`result.path.split` raise `AttributeError`. -/
def unpack (r : PQF) (normalizeKey : Bool) : Py (URLMeta × List Str) :=
  match r.path with
  | none => .error .attributeError
  | some path =>
    let pieces := filterUseless ((splitChar '/' path).drop 1)
    if pieces.length ≤ 0 then .error .irregularURL
    else do
      let (keys, values) ← parseQueryString r.query
      let keys := if normalizeKey then keys.map (fun k => normalize k ['=']) else keys
      return (⟨pieces.length, keys, r.fragment.isSome⟩, pieces ++ values ++ r.fragment.toList)

/-- `pack(url_meta, objs)`, parse_utils.py:348-375, on the strings of the objects. -/
def pack (m : URLMeta) (objs : List Str) : Str :=
  let qd := m.queryKeys.length
  let idx := m.pathDepth + qd
  c!"/" ++ join ['/'] (objs.take m.pathDepth)
    ++ (if qd > 0 then
          singleQuestion ++ join ['&']
            ((m.queryKeys.zip ((objs.take idx).drop m.pathDepth)).map (fun kv => kv.1 ++ kv.2))
        else [])
    ++ (if m.hasFragment then c!"#" ++ (objs.drop idx).flatten else [])

/-- `analyze_url(url)`, parse_utils.py:378-389 -/
def analyzeUrl (url : Str) : Py (URLMeta × List Str) := do
  let (r, query, fragment) ← parseUrl url
  unpack ⟨some r.path, query, fragment⟩ true

/-- `ParsedPiece`, parse_utils.py:405-426 -/
structure ParsedPiece where
  pieces : List Str
  rules : List Str
  deriving DecidableEq, Repr

/-- `ParsedPiece.fuzzy_rule`, parse_utils.py:426-432 -/
def ParsedPiece.fuzzyRule (p : ParsedPiece) : Str :=
  match p.rules with
  | [r] => if r = [] then joinSorted p.rules else r
  | rs => joinSorted rs

/-- `ParsedPiece.piece`, parse_utils.py:425, :477-481 -/
def ParsedPiece.piece (p : ParsedPiece) : Str := p.pieces.flatten

/-- The scanning loop of `ParsedPiece.piece_length`, parse_utils.py:451-464.  `whole` is the piece,
`prev` the character before the current one, `fuel` bounds the iterations by the piece's length. -/
def pieceLengthLoop (whole : Str) : Nat → Option Char → Str → Int → Py Int
  | _, _, [], len => .ok len
  | 0, _, _ :: _, len => .ok len
  | fuel + 1, prev, c :: rest, len =>
    if c = '[' ∨ c = ']' then
      if prev ≠ some '\\' then pieceLengthLoop whole fuel (some c) rest (len - 1)
      else pieceLengthLoop whole fuel (some c) rest len
    else if c = '\\' then
      match rest with
      | [] => .error .indexError
      | d :: _ =>
        if d ≠ '\\' then pieceLengthLoop whole fuel (some c) rest (len - 1)
        else pieceLengthLoop whole fuel (some c) rest len
    else if c = '{' then
      -- `piece[idx - 1]` with idx = 0 is the last character
      if (prev.or whole.getLast?) = some ']' then
        match findChar '}' rest with
        | none => .error .valueError
        | some e => do
          let n ← pyInt (rest.take e)
          pieceLengthLoop whole fuel (some '}') (rest.drop (e + 1)) (len + n - 1 - (e + 2))
      else pieceLengthLoop whole fuel (some c) rest len
    else pieceLengthLoop whole fuel (some c) rest len

/-- `ParsedPiece.piece_length`, parse_utils.py:434-467 -/
def ParsedPiece.pieceLength (p : ParsedPiece) : Py Int :=
  pieceLengthLoop p.piece p.piece.length none p.piece p.piece.length

/-- `EMPTY_PARSED_PIECE`, parse_utils.py:489 -/
def emptyParsedPiece : ParsedPiece := ⟨[], []⟩

/-- `PieceParser._define`, parse_utils.py:534-543, on the list of (buffer, rule) runs built so far,
most recent run first. -/
def parserDefine (runs : List (Str × Str)) (c : Char) : Py (List (Str × Str)) :=
  match charRule c with
  | none => .error .invalidChar
  | some rule =>
    match runs with
    | (buf, r) :: rest => if r = rule then .ok ((buf ++ [c], r) :: rest) else .ok (([c], rule) :: runs)
    | [] => .ok [([c], rule)]

/-- `PieceParser._normalize`, parse_utils.py:545-548 (the letter is never empty there). -/
def parserNormalize (letter rule : Str) : Str :=
  if rule ∈ signRuleSet then specStr rule letter.length else letter

/-- `PieceParser.parse(piece)`, parse_utils.py:507-551 -/
def parsePiece (piece : Str) : Py ParsedPiece := do
  let runs ← piece.foldlM parserDefine []
  let runs := runs.reverse
  return ⟨runs.map (fun r => parserNormalize r.1 r.2), runs.map (·.2)⟩

/-- `parse_url_pattern_string`, parse_utils.py:580-611 -/
def parseUrlPatternString (s : Str) : PQF :=
  match find singleQuestion s, findChar '#' s with
  | none, none => ⟨some s, none, none⟩
  | some q, some f =>
    if q > 0 ∧ f > 0 then
      if f > q then ⟨some (s.take q), some ((s.take f).drop (q + 4)), some (s.drop (f + 1))⟩
      else ⟨some (s.take f), none, some (s.drop (f + 1))⟩
    else ⟨none, none, none⟩
  | none, some f =>
    if f > 0 then ⟨some (s.take f), none, some (s.drop (f + 1))⟩ else ⟨none, none, none⟩
  | some q, none =>
    if q > 0 then ⟨some (s.take q), some (s.drop (q + 4)), none⟩ else ⟨none, none, none⟩

/-- `analyze_url_pattern_string`, parse_utils.py:614-624 -/
def analyzeUrlPatternString (s : Str) : Py (URLMeta × List Str) :=
  unpack (parseUrlPatternString s) false

/-- Search of the closing bracket, parse_utils.py:653-660: the text up to and including the first
`]` that does not follow a backslash, and the text after it.  `prev` is the character before. -/
def closeBracket (prev : Char) : Str → Option (Str × Str)
  | [] => none
  | c :: rest =>
    if c = ']' ∧ prev ≠ '\\' then some ([c], rest)
    else (closeBracket c rest).map (fun r => (c :: r.1, r.2))

/-- `pattern_string[old_idx:idx]` of parse_utils.py:663-671: after `{`, the digits, `}` and what
follows. -/
def quantBraces (s : Str) : Py (Str × Str) :=
  match findChar '}' s with
  | none => .error .invalidPattern
  | some e =>
    if isDigitStr (s.take e) then .ok (s.take (e + 1), s.drop (e + 1))
    else .error .invalidPattern

/-- The bracketed unit after its `[`, parse_utils.py:652-676: `(unit text after '[', rest)`. -/
def bracketUnit (s : Str) : Py (Str × Str) :=
  match closeBracket '[' s with
  | none => .error .invalidPattern
  | some (body, rest) =>
    match rest with
    | '{' :: rest' => do
      let (q, rest'') ← quantBraces rest'
      return (body ++ '{' :: q, rest'')
    | '+' :: rest' => return (body ++ ['+'], rest')
    | _ => return (body, rest)

/-- The loop of `parse_pattern_string`, parse_utils.py:643-698.  `lastRule`/`s` are the Python
variables; every iteration consumes at least one character, `fuel` is the string's length. -/
def patternLoop : Nat → Option Str → Str → Str → Py (List Str)
  | _, lastRule, s, [] => .ok (if lastRule.isSome then [s] else [])
  | 0, _, _, _ :: _ => .error .recursionError
  | fuel + 1, lastRule, s, c :: rest =>
    if c = '[' then do
      let (u, rest') ← bracketUnit rest
      let us ← patternLoop fuel none [] rest'
      return (if lastRule.isSome then [s] else []) ++ (c :: u) :: us
    else
      match charRule c with
      | none => .error .invalidPattern
      | some rule =>
        if rule ∉ digitAsciiRuleSet then .error .invalidPattern
        else
          match lastRule with
          | none => patternLoop fuel (some rule) (s ++ [c]) rest
          | some lr =>
            if rule = lr then patternLoop fuel (some rule) (s ++ [c]) rest
            else do
              let us ← patternLoop fuel (some rule) [c] rest
              return s :: us

/-- `parse_pattern_string`, parse_utils.py:627-700 -/
def parsePatternString (p : Str) : Py (List Str) :=
  if p = [] then .ok [[]] else patternLoop p.length none [] p

/-- The rule-splitting loop of `parse_pattern_unit_string`, parse_utils.py:734-747.  Rules are
returned in order of appearance; the Python value is the set of them. -/
def unitRules : Nat → Str → Py (List Str)
  | _, [] => .ok []
  | 0, _ :: _ => .error .recursionError
  | fuel + 1, c :: rest =>
    let n := if isAlnumC c then 3 else if c = '\\' then 2 else 1
    let rule := (c :: rest).take n
    if rule ∉ ruleSet then .error .invalidPattern
    else do
      let rs ← unitRules fuel ((c :: rest).drop n)
      return rule :: rs

/-- The number of a bracketed unit, parse_utils.py:720-729.  A digit that is not decimal, such as a
superscript, passes `isdigit()`, and `int()` raises `ValueError`. -/
def unitNum (u : Str) : Py Int :=
  match u.getLast? with
  | some ']' => .ok 1
  | some '}' =>
    let numStr := (u.drop (match rfindChar '{' u with | some t => t + 1 | none => 0)).dropLast
    if isDigitStr numStr then do
      let n ← pyInt numStr
      return (n : Int)
    else .error .invalidPattern
  | some '+' => .ok (-1)
  | _ => .ok 1

/-- `parse_pattern_unit_string`, parse_utils.py:703-750: the set of rules (sorted, duplicate free)
and the number.  A first character without a rule raises `KeyError` (parse_utils.py:717). -/
def parsePatternUnitString (u : Str) : Py (List Str × Int) := do
  let (rules, num) ←
    match u with
    | [] => (pure ([[]], 1) : Py (List Str × Int))
    | c :: _ =>
      if c ≠ '[' then
        match charRule c with
        | none => .error .keyError
        | some r => pure ([r], (u.length : Int))
      else do
        let num ← unitNum u
        let t := rfindChar ']' u
        -- `pattern_unit_string[1:t]`, with `t = -1` when there is no `]`
        let body := match t with | some t => (u.take t).drop 1 | none => u.dropLast.drop 1
        let rs ← unitRules body.length body
        pure (sortedSet rs, num)
  if (num > 0 ∧ (rules.length : Int) > num) ∨ num = 0 then .error .invalidPattern
  else return (rules, num)

/-- `digest(url_meta, objs)`, parse_utils.py:567-577, with `hashlib.md5(..).hexdigest()` as the
parameter `md5`. -/
def digest (md5 : Str → Str) (m : URLMeta) (objs : List Str) : Str := md5 (pack m objs)

end OsUrl
