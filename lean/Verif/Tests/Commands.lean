import Verif.Proofs.Witness
import Verif.Model.Io
import Verif.Model.Formatter

/-!
# The test data of tests/test_piece_pattern_node.py, tests/test_pattern_maker.py,
# tests/test_formatter.py and tests/test_cmdline.py, checked against the model

As in Tests/ParseUtils.lean each `example` is a case of the cited test.  The default configuration
(config/default_config.cfg) has `min_cluster_num = 3`.  md5 is the identity, `hash` of strings is
injective and sets are iterated backwards (`codeHash`); other runtimes are the subject of C55.
-/

namespace OsUrl.Tests

/-- `'%02d' % i` for `i < 100` -/
def dd (i : Nat) : Str := [Char.ofNat (48 + i / 10), Char.ofNat (48 + i % 10)]

/-! tests/test_piece_pattern_node.py:12-37, `test_count` -/

/-- `'http://test.com/abc/%d' % i` for `i < 100` -/
def countUrls : List Str :=
  (List.range 100).map fun i =>
    c!"http://test.com/abc/" ++ (if i < 10 then [Char.ofNat (48 + i)] else dd i)

/-- The loop of the test: parse every URL and add it to the tree. -/
def addUrls : List Str → Tree NodeData → Py (Tree NodeData)
  | [], t => .ok t
  | u :: us, t => do
    let (_, ps) ← analyzeUrl u
    let pps ← ps.mapM parsePiece
    let (t, _) ← buildFromParsedPieces t pps
    addUrls us t

/-- The loop of the test over the paths of the finished tree. -/
def addPaths : List (List (Str × NodeData)) → Tree NodeData → Py (Tree NodeData)
  | [], t => .ok t
  | p :: ps, t => do addPaths ps (← buildFromNodes t (p.map (·.2)))

/-- The root of the test, `PiecePatternNode((EMPTY_PARSED_PIECE, None))`. -/
def emptyRoot : Tree NodeData := ⟨newNode ⟨[c!""], [c!""]⟩ none, .nil⟩

/-- The five numbers the test asserts: count after loading once, after loading twice, count of the
copy, number of children of the parent of the first leaf, and the pattern of that parent. -/
def countFacts : Py (List Int × List Str) := do
  let t ← addUrls countUrls emptyRoot
  let t2 ← addUrls countUrls t
  let t3 ← addPaths t2.paths emptyRoot
  let (n, pat) := match t2.kids with
    | .cons _ d kids .nil => (kids.children.length, [d.pattern])
    | _ => (0, [])
  return ([t.root.count, t2.root.count, t3.root.count, (n : Int)], pat)

example : countFacts = .ok ([100, 100, 100, 100], [c!"abc"]) := by decide +kernel

/-! tests/test_pattern_maker.py:19-39, `test_load` -/

/-- The paths of a pattern maker after loading the URLs, `pm.load(url, meta=...)`. -/
def loadUrls (withMeta : Bool) : List Str → PatternMakerSt → Py PatternMakerSt
  | [], st => .ok st
  | u :: us, st => do
    let (st, _) ← st.load id u (if withMeta then some u else none)
    loadUrls withMeta us st

/-- Number of makers, and the numbers of metas of the last nodes of all paths. -/
def loadFacts (withMeta : Bool) (us : List Str) : Py (Nat × List (Option Nat)) := do
  let st ← loadUrls withMeta us []
  let rs ← st.make codeHash 3
  return (st.length, rs.flatMap fun mt => mt.2.paths.map fun p =>
    p.getLast?.bind fun kn => kn.2.metas.map (·.length))

example : loadFacts true
    [c!"http://example.com/a", c!"http://example.com/a/b", c!"http://example.com/a/b/c"]
    = .ok (3, [some 1, some 1, some 1]) := by decide +kernel
example : loadFacts false [c!"http://example.com/a", c!"http://example.com/b", c!"http://example.com/c"]
    = .ok (1, [none, none, none]) := by decide +kernel

/-! tests/test_pattern_maker.py:42-73, `test_make` -/

/-- `cluster_and_test`: the pattern strings of all paths of the combined trees. -/
def clusterPatterns (us : List Str) : Py (List Str) := do
  let st ← loadUrls false us []
  let rs ← st.makeCombined codeHash 3
  return rs.flatMap fun mt => mt.2.paths.map fun p => pack mt.1 (p.map (·.2.pat))

example : clusterPatterns [c!"http://example.com/a01", c!"http://example.com/b02", c!"http://example.com/c03"]
    = .ok [c!"/[a-z][0-9]{2}"] := by decide +kernel
example : clusterPatterns [c!"http://example.com/3h4hd9s9w9d9", c!"http://example.com/9s2m1m3j2d10",
      c!"http://example.com/i2i2g4g23j0m"]
    = .ok [c!"/[0-9a-z]{12}"] := by decide +kernel
example : clusterPatterns [c!"http://example.com/3h4hd9s9w9d9.html", c!"http://example.com/9s2m1m3j2d10.html",
      c!"http://example.com/i2i2g4g23j0m.html"]
    = .ok [c!"/[0-9a-z]{12}[\\.]html"] := by decide +kernel
example : clusterPatterns [c!"http://example.com/3h4hd9s9w9d9.html?id=01",
      c!"http://example.com/9s2m1m3j2d10.html?id=02", c!"http://example.com/i2i2g4g23j0m.html?id=03"]
    = .ok [c!"/[0-9a-z]{12}[\\.]html[\\?]id=[0-9]{2}"] := by decide +kernel
example : clusterPatterns [c!"http://example.com/3h4hd9s9w9ddsadf9", c!"http://example.com/9s2m1m3j2d10",
      c!"http://example.com/i2i2g4g23j0dsdm"]
    = .ok [c!"/[0-9a-z]+"] := by decide +kernel

/-! tests/test_formatter.py:11-34, `test_inline` and `test_json` -/

/-- `'http://www.example.com/abc/%02d.html' % i for i in range(0, 10)` -/
def tenUrls : List Str :=
  (List.range 10).map fun i => c!"http://www.example.com/abc/" ++ dd i ++ c!".html"

/-- The records of `pformat` for the clusters of the ten URLs. -/
def records (f : Fmt) : Py (List Str) := do
  let st ← loadUrls true tenUrls []
  let rs ← st.make codeHash 3
  return rs.flatMap fun mt => pformat codeHash f mt.1 mt.2

/-- `'/abc/[0-9]{2}[\\.]html\thttp' in o` for every record; there is a record for every URL. -/
example : (records .inline).map (fun os =>
      (os.length, os.all fun o => startsWith c!"/abc/[0-9]{2}[\\.]html\thttp" o))
    = .ok (10, true) := by decide +kernel

/-- One JSON record with the pattern and the count 10. -/
example : records .json = .ok [c!"{\"ptn\": \"/abc/[0-9]{2}[\\\\.]html\", \"cnt\": 10}"] := by
  decide +kernel

/-! tests/test_cmdline.py:34-57, `test_make` -/

/-- ASCII, and a hash of strings that is injective. -/
def env : Env :=
  ⟨id, fun b => if b.all (fun x => decide (x.toNat < 128)) then some (b.map fun x => Char.ofNat x.toNat) else none,
    fun s => s.map fun c => UInt8.ofNat c.toNat, codeHash⟩

/-- `"\n".join(urls)` as a file. -/
def file (urls : List Str) : Bytes := env.encode (join ['\n'] urls)

/-- `'http://example.com/abc%02d?id=%02d#abc' % (i, i) for i in range(0, n)` -/
def idUrls (n : Nat) : List Str :=
  (List.range n).map fun i => c!"http://example.com/abc" ++ dd i ++ c!"?id=" ++ dd i ++ c!"#abc"

/-- `-f pattern`: the pattern, and nothing else, so no URL. -/
example : makeMain env 3 .pattern [file (idUrls 9)]
    = .ok (env.encode c!"/abc[0-9]{2}[\\?]id=[0-9]{2}#abc\n") := by decide +kernel

/-- The default formatter CLUSTER: the pattern and then every URL after a tab. -/
example : makeMain env 3 .cluster [file (idUrls 9)]
    = .ok (env.encode (c!"/abc[0-9]{2}[\\?]id=[0-9]{2}#abc\n" ++
        ((idUrls 9).map fun u => c!"\t" ++ u ++ c!"\n").flatten)) := by decide +kernel

/-- `-f ete`: the labels of the nodes.  (The assertions of the test, `assert b' abc[0-9]{2}(%d) ' %
num`, hold for any output.) -/
example : (do
      let st ← loadUrls false (idUrls 9) []
      let rs ← st.makeCombined codeHash 3
      return rs.map fun mt => formatEte mt.1 mt.2 : Py _)
    = .ok [some (c!" (9) ", .cons c!" abc[0-9]{2}(9) "
        (.cons c!" [\\?]id=[0-9]{2}(9) " (.cons c!" #abc(9) " .nil .nil) .nil) .nil)] := by
  decide +kernel

/-! tests/test_cmdline.py:60-71, `test_make_digest_type_urls` -/

/-- `hashlib.md5(str(i).encode()).hexdigest() for i in range(0, 9)` -/
def hexDigests : List Str :=
  [c!"cfcd208495d565ef66e7dff9f98764da", c!"c4ca4238a0b923820dcc509a6f75849b",
   c!"c81e728d9d4c2f636f067f89cc14862c", c!"eccbc87e4b5ce2fe28308fd9f2a7baf3",
   c!"a87ff679a2f3e71d9181a67b7542122c", c!"e4da3b7fbbce2345d7772b0674a318d5",
   c!"1679091c5a880faf6fb5e6087eb1b2dc", c!"8f14e45fceea167a5a36dedd4bea2543",
   c!"c9f0f895fb98ab9159f51fd0297e236d"]

example : makeMain env 3 .pattern [file (hexDigests.map fun j => c!"http://example.com/" ++ j ++ c!".html")]
    = .ok (env.encode c!"/[0-9a-z]{32}[\\.]html\n") := by decide +kernel

/-! tests/test_cmdline.py:74-86, `test_make_noise` -/

example : makeMain env 3 .pattern [file (idUrls 8 ++ [c!"http://example.com/abc009?id=09#abc"])]
    = .ok (env.encode c!"/abc[0-9]{2}[\\?]id=[0-9]{2}#abc\n/abc009[\\?]id=09#abc\n") := by decide +kernel

/-! tests/test_cmdline.py:89-112, `test_make_fuzzy` -/

/-- The URLs of the test. -/
def wordUrls : List Str :=
  [c!"sdjfpewiefh", c!"dfsdksd", c!"dffalldsfisslkfdksd", c!"didif", c!"dif"].map
    fun i => c!"http://example.com/abc/" ++ i

example : makeMain env 3 .pattern [file wordUrls] = .ok (env.encode c!"/abc/[a-z]+\n") := by decide +kernel
example : makeMain env 3 .pattern [file (wordUrls.map (· ++ c!".html"))]
    = .ok (env.encode c!"/abc/[a-z]+[\\.]html\n") := by decide +kernel

/-! tests/test_cmdline.py:115-130, `test_match` -/

/-- `'http://example.com/abc%02d' % i for i in range(1, 10)` -/
def nineUrls : List Str := (List.range 9).map fun i => c!"http://example.com/abc" ++ dd (i + 1)

example : matchMain env false [env.encode c!"/abc[0-9]{2}"] [file nineUrls]
    = env.encode (nineUrls.map fun u => c!"/abc[0-9]{2}\t" ++ u ++ c!"\n").flatten := by decide +kernel

end OsUrl.Tests
