import Verif.Model.Cmdline

/-!
# The `Counter` of the two commands and the text that is logged

cmdline.py:112-142, cmdline.py:180-203, utils.py:13-23.  Python 3 (3.7 or later) is meant: a `Counter` is a
`dict` and iterates in the order in which its keys were inserted.
-/

namespace OsUrl

/-- `counter[k] += 1` on a `collections.Counter`: a missing key counts as zero and is inserted last. -/
def counterInc (k : Str) (c : Dict Str Nat) : Dict Str Nat := Dict.upd k (fun o => o.getD 0 + 1) c

/-- `pretty_counter(counter)`, utils.py:13-23 -/
def prettyCounter (c : Dict Str Nat) : Str :=
  join c!", " (c.map (fun kv => kv.1 ++ ':' :: natStr kv.2))

/-- One line of `MakePatternCommand._load` with its `Counter`, cmdline.py:117-141. -/
def makeLineC (env : Env) (loadUrl : Bool) (st : PatternMakerSt × Dict Str Nat) (line : Bytes) :
    PatternMakerSt × Dict Str Nat :=
  let stats := counterInc c!"ALL" st.2
  let line := stripB line
  if line.isEmpty then (st.1, counterInc c!"EMPTY" stats)
  else
    match env.decode line with
    | none => (st.1, counterInc c!"INVALID" stats)
    | some url =>
      match PatternMakerSt.load env.md5 st.1 url (if loadUrl then some url else none) with
      | .error _ => (st.1, counterInc c!"INVALID" stats)
      | .ok (mk, isNew) =>
        let stats := if isNew then counterInc c!"UNIQ" stats else stats
        (mk, counterInc c!"VALID" stats)

/-- `MakePatternCommand._load`, cmdline.py:112-141: the maker and the counter. -/
def makeLoadC (env : Env) (loadUrl : Bool) (lines : List Bytes) : PatternMakerSt × Dict Str Nat :=
  lines.foldl (makeLineC env loadUrl) ([], [])

/-- The last message of `MakePatternCommand._load`, cmdline.py:142 -/
def makeLoadedMsg (env : Env) (loadUrl : Bool) (lines : List Bytes) : Str :=
  c!"[LOADED] " ++ prettyCounter (makeLoadC env loadUrl lines).2

/-- One line of `MatchPatternCommand._load` with its `Counter`, cmdline.py:189-202. -/
def matchLoadLineC (env : Env) (st : PatternMatcherSt × Dict Str Nat) (line : Bytes) :
    PatternMatcherSt × Dict Str Nat :=
  let stats := counterInc c!"ALL" st.2
  let line := rstripB line
  if line.head? ≠ some 47 then (st.1, counterInc c!"UNKNOW" stats)
  else
    match env.decode line with
    | none => (st.1, counterInc c!"INVALID" stats)
    | some p =>
      match PatternMatcherSt.load env.md5 st.1 p (some p) with
      | .error _ => (st.1, counterInc c!"INVALID" stats)
      | .ok (st', _) => (st', counterInc c!"VALID" stats)

/-- `MatchPatternCommand._load`, cmdline.py:180-202: the matcher and the counter. -/
def matchLoadC (env : Env) (lines : List Bytes) : PatternMatcherSt × Dict Str Nat :=
  lines.foldl (matchLoadLineC env) ([], [])

/-- The last message of `MatchPatternCommand._load`, cmdline.py:203 -/
def matchFinishedMsg (env : Env) (lines : List Bytes) : Str :=
  c!"[LOAD] Finished " ++ prettyCounter (matchLoadC env lines).2

/-- The first message of `MatchPatternCommand._load`, cmdline.py:183-186, given the names of the files. -/
def matchFilesMsg (names : List Str) : Str :=
  c!"[LOAD] " ++ natStr names.length ++ c!" pattern file" ++ (if names.length > 1 then c!"s" else []) ++ c!": " ++
    join c!", " names

end OsUrl
