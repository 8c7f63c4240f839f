# Formal model of os-urlpattern in Lean 4

## What is modelled

`lean/Verif/Model/*` models the Python 3 behaviour of these files, function by function; every
definition cites the lines it models and states its simplifications.

| Lean module | Python source (under /repo/src/os_urlpattern) |
|---|---|
| `Model/Py` | Python builtins: `join`, `split`, `find`, negative indexing, `sorted(set(..))`, dicts in insertion order, exceptions as values (`Py α = Except PyErr α`) |
| `Model/Defs` | `definition.py` (character table and rule sets) |
| `Model/UrlParse` | `urllib.parse.urlparse` of CPython 3.11 (a dependency, not code of /repo) |
| `Model/ParseUtils` | `parse_utils.py` |
| `Model/Pattern` | `pattern.py` (all but the `re` call), `parsed_piece_view.py` |
| `Model/Tree` | `utils.py` (`TreeNode`, `build_tree`, `dump_tree`), `piece_pattern_node.py` |
| `Model/Cluster` | `pattern_cluster.py` |
| `Model/Matcher` | `pattern_matcher.py`, `parser.py` |
| `Model/Maker` | `pattern_maker.py` |
| `Model/Formatter` | `formatter.py` (PATTERN, CLUSTER, INLINE, JSON, NULL; ETE up to the drawing by ete3) |
| `Model/Cmdline` | `cmdline.py` (load, process and match loops, counters), `utils.py` `LogSpeedAdapter` |
| `Model/Re` | `pattern.py` `Pattern.match`, with the needed part of `re` |
| `Model/Api` | `parser.py` `fuzzy_digest`, the `load` methods with their exceptions, `FORMATTERS`, `get_classes` |
| `Model/Io` | cmdline.py:65-70, :117, :151-152, :189, :230: files as bytes, lines, `print` |
| `Model/Bags` | `utils.py` `Bag`, `pattern_cluster.py` `PieceBag`, `PieceBagBucket` with the counters they keep |
| `Model/Memory` | `utils.py` `format_byte`, `MemoryUsageFormatter` |
| `Model/Limit` | the recursive functions of `pattern_cluster.py` and `utils.py` again, with a limited call stack and as generators |
| `Model/Log` | the log records of both commands (`cmdline.py`) and which of them `--loglevel` shows |
| `Model/MatchLimit` | the recursive functions of `pattern_matcher.py` again, with a limited call stack |
| `Model/Config` | `config/__init__.py`, `default_config.cfg`, the option `-c` of `cmdline.py`, and of the `configparser` of CPython 3.11 what they use |
| `Model/Args` | `add_argument` and `_execute` of `cmdline.py`, and of the `argparse` of CPython 3.11 what they use |
| `Model/NewPython` | the functions that depend on `urlparse` again, with the `urlparse` of CPython 3.11.10 |
| `Model/Counters` | the `Counter`s of `cmdline.py` and `pretty_counter` of `utils.py` |

Not modelled: logging set-up, the texts of `--help` and of usage errors,
`used_memory` (psutil), floating point, speed values (clock), the ete3 ASCII drawing
(`get_ascii`), Python 2 branches of `compat.py`, memory identity of objects other than tree node
identity (modelled by the path of keys).

### Parameters and hypotheses

* `md5` stands for `hashlib.md5(..).hexdigest()` of the UTF-8 text.  It is an arbitrary function.
  Theorems about grouping assume that it does not collide on the finitely many packed strings of the
  input: `NoCollision` (maker) and `NoClash` (matcher).
* `Runtime` (in `Model/Cluster`) is one Python process: its string hash and the order in which its sets of nodes, of bags and of
  metas are iterated.  Each order is an arbitrary function from a list (the content in insertion order) to a
  permutation of it, and `pick` takes the first element in that order.  All theorems hold for every `Runtime`.
* The string hash is used as a dict key by `split_by_pattern`.  `NoHashClash` asks
  that it does not collide on the finitely many pattern texts that can occur for the pieces of the
  input (`Proofs/Cand`).  Both hypotheses hold for injective functions (`Proofs/Witness` has one, used
  in the examples).  C72 says what remains without `NoHashClash`, and what goes wrong.
* `decode`/`encode` are the UTF-8 codec of the commands.  The properties used are collected in `Utf8` and
  `StrictUtf8`, and proved for Lean's own UTF-8 in `C36_utf8` and `C47_utf8`.
* `2 ≤ mcn` where needed.  C29 says what happens otherwise.

### Simplifications

* The order of a set is a function of its content in insertion order: two sets that were filled alike are
  iterated alike.  C55 shows that the result does not depend on these functions.
* Dicts are iterated in insertion order (Python 3.7 and later; CPython 3.6).  The arbitrary dict order of Python 2.7
  is not modelled.
* `sorted` is modelled by insertion.  On generated patterns the order is total (C20), so every correct
  sort agrees.
* The recursion of `split_by_pattern` has a fuel of one more than the number of leaves; running out is an
  error of the model, and C28 shows that it never happens.
* `str.isdigit` and `int` use the digits of Unicode 14.0.0 (CPython 3.11).  `int` is only given texts without sign, blank or underscore by
  `parse_pattern_unit_string`; the limit of 4300 digits (3.11 and later) is left out.
* `dump_tree` yields one shared list that is changed later; all callers use each item before the next
  one is asked for, so the model returns separate lists.

## Trusted base

The Lean 4.33.0 kernel; the axioms `propext`, `Classical.choice`, `Quot.sound` (nothing else, no
`native_decide`); the faithfulness of the definitions in `Verif/Model` to the cited Python text (the
Python code is not run here); the specifications in `Verif/Spec` and the statements in `Verif/Props`.
Mathlib is not used.

Evidence for the faithfulness of the definitions: `Verif/Tests` holds the data of the repository's own tests
(tests/test_*.py) as examples that the kernel evaluates on the model: all rows of test_parse_utils,
test_pattern, test_parsed_piece_view, test_pattern_matcher, test_piece_pattern_node, test_pattern_maker,
test_formatter, test_config and test_cmdline.  The expected values are those written by the authors of the program.  Only
the drawing of the ETE tree has no counterpart.  The model of `configparser` (a library, not code of /repo) was compared with the real one on
1500 generated files, and the model of `argparse` on 5100 generated command lines, without a difference.
In the same way `urlparse` was compared on 4000 generated URLs (the only differences are 18 URLs that CPython 3.11 rejects for the text between
their brackets, see `Model/UrlParse`; `urlparseNew` agrees on 4000 more with control characters, but for such brackets), the `re` of `Spec/Regex` and `Model/Re` on 6000 pairs of expression and text (equal wherever `reParse`
reads the expression), and `isdigit`, `isdecimal`, `isspace`, `int` and `json.dumps` of one character on all 1112064 characters.

## Layout

* `Verif/Model`: the model.
* `Verif/Spec`: specifications written without model helpers.
  * `Chars` character spaces, `Runs` maximal runs, `Mix` mixable groups, `Tree` enumeration of key trees, `Url`
    absolute URLs by their parts, `Digits` the digits of all scripts.
  * `Regex` the part of Python's `re` that patterns use: literal characters, classes with ranges and
    escapes, `{n}`, `+`, full match.
  * `Gen` the grammar of generated patterns, `Order` which pattern is more special, `Sel` which pieces a
    generated pattern is found for, `Self` when a pattern is found for its own pieces.
  * `Cluster` the texts a pattern of a piece can have, `Clustering` the closed form of the clustering,
    `Command` what `pattern-make` prints, `Table` tables whose pattern is plain to see, `Json` a decoder of JSON
    records (RFC 8259).
* `Verif/Proofs`: lemmas, each file with one heading line.
* `Verif/Props`: the property theorems `Cnn_..` with examples beside them (C26 is in `C25.lean`, C28 in
  `C24.lean`, `C35_cluster` in `C34.lean`).
* `Verif/Tests`: the test data of the repository, evaluated on the model.
* `seeded/LOG.jsonl`: the wrong programs the theorems were tried on.

## How the clustering is proved

`Proofs/Grow*` and `Load*` give the tree of a maker as a function of the sequence of loads.  `Rows` views the
tree as a list of rows (one per path, with its count) and a level as a function `LevelFn` from the
entries of the column (piece and count) to pattern texts.  `PieceStage`, `LenStage`, `MultiStage*` compute
each processor (`PiecePatternCluster`, `LengthPatternCluster`, `FuzzyPatternCluster`, the three multi part
clusters with their nested clustering) on rows; `Top*` composes them to the level function `topF` of the
whole algorithm.  `Proc*` and `Clu*` do the recursion over levels and the repeated splitting: the clusters
are the fixed points of "keep the rows with the same labels" (`famN`).  `Sep*` shows that different stages of
one column never give the same text, which is what makes "same pattern" mean "same bag".  `Cand*`,
`RowText` bound the texts that can occur.  `Closed1`–`5` relate all of this to `Spec/Clustering`, which is
computable and counts pieces of URLs as written; `Command` and `SpecPerm` lift it to the output of the
command.

## How the matcher is proved

`MTree`/`MLoad` characterise the match tree after any history of loads by the sequence of accepted pattern
paths (a child of a node is a distinct next pattern, the view matchers of a node hold exactly its
children).  `Vms` proves the binary search of `_get_matcher`, `Stores*` what each view matcher returns (`Sel`).
Patterns are *tame* when `/` stands alone in its class in patterns of several units; *generated* when
they follow the grammar `Spec/Gen`.  `pattern-make` prints sequences of *written* units (`WrittenPat`); a unit whose brackets end in a
backslash is not *readable*, and `Readable` proves that a line with such a unit is rejected while every other line is generated.
`MatchSel`, `MatchRe`, `GenMatch`, `SelGen` turn the selection into statements about pieces.

## How each property is modelled and proved

* **C01** `parseUrl` over `urlparse`; closed form of `urlparse`'s split at the first `#`/`?`, then case
  analysis on the indexed characters.  Outside the stated domain (empty URL, URL starting with `#`)
  `C01_outside` shows `IndexError` and a spurious empty query.
* **C02** loop invariant for `queryStep`; the result is the map of "cut after the first `=`" over the items.
* **C03** `filterUseless ∘ splitChar`; induction on the path.
* **C04** `normalize` is the concatenation over maximal runs; each run's text is a regex item with a
  one-element language.  Negation witness for unknown characters (`[None]`).
* **C05** loop invariant for `parserDefine` against `Spec/Runs`.
* **C06** `pieceLengthLoop` run by run.  Negation witness for backslash, and the exact formula.
* **C07** unique decodability of concatenated sorted rules.
* **C08** `unitRules` re-reads concatenated rules; decimal round trip.
* **C09** loop invariants of `patternLoop`/`bracketUnit`.
* **C10** `pack` against `find`/`splitChar`/`parseQueryString` under the character restrictions that
  `analyzeUrl` guarantees.
* **C11** unique decodability of `pack` on fuzzy rules.
* **C12** C08–C10 with the matcher: literal patterns are stored under their text.  `C12_backslash`
  (`Props/C12Backslash`): with a backslash the load is always rejected.
* **C13, C14** loop invariant of `mixStep`; the views.
* **C15** every result is a loaded path with the structure and the spaces of the URL, and carries the last
  meta loaded with it.
* **C16** every result full-matches as a regular expression (`Spec/Regex`), with witnesses that each
  hypothesis is needed.  `AsciiText`: the only characters beyond ASCII in a loaded pattern are digits of other scripts in braces; `re` does not
  read these as a number (`C16_digits_false`).
* **C17, C44** which patterns are found: C17 for single units, C44 for all generated patterns (`Spec/Sel`).
* **C18** the set of results does not depend on the order of loads.
* **C19** which loads are accepted, what `is_new` means, and that a second load changes nothing.
* **C20, C41, C42** the order of results is a strict partial order, total on generated patterns, is specificity
  at the last differing piece, and `pattern-match` prints a maximum.
* **C21** five witnesses that a printed pattern need not be found for its own URLs; `C21_exact` says exactly
  when it is.
* **C22, C23, C40** the tree as a finite map from paths to (count, metas).
* **C24, C25, C27, C28** clusters partition the URLs, have one pattern, are single or big, and `make()` returns.
* **C26, C46** patterns against `Spec/Regex`, piece by piece and for the whole URL.
* **C29** evaluation of level 0 for every tree when `mcn < 2`.
* **C30, C31** the clusters depend only on the set of URLs; `make()` calls in between are invisible.
* **C32** false: twenty URLs give two clusters printed alike (`C32_false`).  `C32_structure` says what equal patterns
  imply in general; `C32_one_space_partial` is the claim for clusters with a URL of one space per piece.
  Missing: a characterisation of all inputs on which patterns are distinct.
* **C33, C48** the combined tree (`make(combine=True)`) and the ETE tree.
* **C34, C35** formatters line by line; JSON with the decoder of `Spec/Json`.
* **C36, C47** `pattern-match` line by line; printed patterns fed back to it.  `C36_strip` says which bytes `strip` and `rstrip` remove.
* **C37, C38, C39** counters, speed logger, `confused`.
* **C43** no result twice.
* **C45** absolute URLs part by part.
* **C49, C50** closed form of the clusters and of the output of `pattern-make`.
* **C51** consequences of C50: few URLs stay as written, tables get their obvious pattern, URLs of another
  structure or class do not matter.
* **C52** the list of results of a match is sorted by first difference of the paths; hence the output of
  `pattern-match` does not depend on the order of the pattern file when no two lines are read alike.
* **C53** the logged counters: a `Counter` as an insertion ordered dict, its text as the tally of the events of the
  lines (`Spec/Counters`).
* **C54** closed form of the output of `pattern-match` for generated patterns (composes C20, C41, C42, C44, C52).
* **C55** two `Runtime`s and two digests give the same clusters: `cluster_spec` (`Proofs/Clu2`) says what `cluster` returns in one
  runtime and that every other runtime returns the same; groups by two injective keys are equal (`groupBy_same`).
* **C56** `Pattern.match`: `Model/Re` has a backtracking engine for the fragment of `re` that occurs (longest repetition first,
  `$` before a final newline), proved equal to `Spec.ReMatch`; `Spec/Lang` is the language of a generated pattern.
* **C57** `Model/Api` has the two `load` methods statement by statement, with the state that is left when an exception is raised; they are
  proved equal to the functional ones used everywhere else.  Also `fuzzy_digest(*args)` and the table of formatters.
* **C58** `Model/Io` is the outermost layer: input files are byte strings, `binaryLines` iterates one, `chainLines` is `chain.from_iterable`, and
  `printOut` is what `print` writes for the records.  `Spec/Lines` says what the lines of a byte string are; `C58_lines` shows that `binaryLines`
  gives them and nothing else does.  `C58_make` needs that no record contains a newline: patterns are printable ASCII (`printed_graph`, from the
  texts of `Spec/Cluster`, also for URLs with backslashes), and URLs come from lines.  `C58_file` and `C58_formats` compose both commands on
  bytes, using C47 and C52.  Standard output is taken to be UTF-8 with `\n`; a `print` that raises is not modelled.
* **C59** the internal relation `T` of `Proofs/MTree` (tree = result of insertions) now carries the count of every node; `nodeAt` follows child
  keys, and `Spec/Times` counts members of a list with a property.
* **C60** `match` for hand written patterns, exactly. `Spec/Shadow.lean` says when a unit was *overtaken* (`Overtaken P Q l`: `P` happens before `Q`
  happens for the first time, and `Q` happens); the theorem compares the matcher with a matcher into which only the one pattern was loaded, so the
  statement needs no notion of "fits". Proof: `Proofs/Overtake` (order of first events under `filterMap`, `uniq`, `heads`, `sub`), `Proofs/Shadow*`
  (the `sound`/`complete` pairs of `Proofs/Stores*` become equivalences: a length store returns the last child with that length). Finding
  (`C60_lost`): after loading `/[a-z]{2}/x` and then `/[a-z]{02}/y` the URL `/ab/x` matches nothing, in the other order it matches.
  `MixedPatternViewMatcher` (pattern_matcher.py:115-140) is never used: `VIEW_MATCHERS` maps `MixedView` to `MultiPatternViewMatcher`, and so does the model.
* **C61** (`Model/Bags`, `Proofs/Bags`, `Props/C61`): bags and buckets with the fields Python keeps (`_objs`, `stats`, `_p_nodes`, cached
  `_p_nodes` of a bucket); `Model/Cluster` has the same objects without counters, and `C61_model` shows that they agree, which justifies that
  simplification (`C61_children`: a level processor gets distinct nodes). Nested bags are trees in iteration order; `Inside` and `Filled` are
  inductive specifications. Three conditions are needed, each with a witness: `C61_twice_false`, `C61_stale_false`, `C61_pick_false`.
* **C62** (`Props/C62`): every character of a text that parses to the structure of a URL is above 32 and not 127 (`text_chars`), because the pieces
  are parsed patterns and the query keys are those of a URL; the digits of a quantifier may be of another script. The files are those of C58 (`C58_make`), so the result is about bytes
  written by one command and read by the other. That the JSON lines do not begin with `/` is taken from the reader `Spec.readObject`.
* **C63** (`Model/Memory`, `Props/C63`): `format_byte` in exact arithmetic. Doubles give the same for sizes below 2^46 (the products are exact;
  the quotient of logarithms is wrong only just below 1024^5 and higher powers); this is an argument on paper, not in Lean. The specification
  reads the printed digits back (`digitsVal`) and bounds them by the true quotient.
* **C64** (`Model/Limit`, `Proofs/Limit`, `Props/C64`): `Gen α` is what a generator yielded and the exception that ended it. `procLevelL` and
  `clusterGenL` are `procLevel` and `clusterGen` with a number of frames left; `ref_make` shows that they refine the unlimited functions used
  everywhere else, `ev_make` that enough frames give the same result. This also justifies the fuel of `Model/Cluster`. `deep_raises`: a level
  processor whose nodes have paths of length `rem` below them needs `rem + 1` frames. The number of frames that is enough (`C64_enough`,
  `Proofs/Limit2`, `Proofs/NestOK`): `EvB L` is `ev_*` with an explicit number; the closed form of the levels is proved for every nested
  clustering that is right for the trees of the stages (`top_level_nest`), so it holds for one that refuses trees with more than `N` leaves or
  `K + 1` levels (`smallNest`), and that one needs `N + K + 3` frames.
* **C65** (`Model/MatchLimit`, `Proofs/MatchLimit`, `Props/C65`): `Rf x y` says that the limited program raises `RecursionError` or equals the
  unlimited one; it is a congruence for `>>=` and `mapM`. `mmatchL_deep` follows one result down the tree. The bound in `C65_enough` needs that a
  view has at most one part more than the piece has runs (`viewPieces_length`). `C65_run` extends this to the output line by line: every line is that of the unlimited matcher or the error, and all lines are if there are enough frames.
* **C66** (`Props/C66`): the tables `uniZeros` and `uniDigitRanges` of `Model/Py` are compared with the characters listed in `Spec/Digits`. The
  exceptions are followed through `patternUnits` (`patternUnits_error`), `unpack` (`unpack_error`) and the positions of `[\?]` and `#`
  (`pattern_path`: never at the start of a text that begins with `/`, so the path is never `None`). `unpack_chars` and `pattern_chars` show that
  the offending character is one of the text.
* **C67** (`Model/Log`, `Props/C67`): the loops of the commands again, now with the records they log; left out of a record are the speed, the seconds
  and `str(e)` (the exception itself is kept). `loop_log` gives the log of any loop that counts, logs the speed and then a problem of the line that
  does not depend on the state; that it does not is `make_step` and `match_load_step`. The levels come from C66 (`parse_level`), the sum of the
  cluster counts from C33 and C37 (`combine_count`, `make_counts`), the answers `E` from C36.
* **C68** (`Model/Config`, `Spec/Config`, `Proofs/Cfg*`, `Props/C68`): other properties take `min_cluster_num` as a parameter `mcn`; here it comes
  from the file.  The specification builds a file from sections and options and says what it sets; `inv_secs` follows `_read` through such a
  file.  Files of other shapes (indented options, garbage) are covered by `C68_any`, by the possible effects of one line (`CfgStep`), and by `C68_broken`: a meaningless line at the margin
  makes the whole file unreadable.
  `str.lower` is a parameter with the two properties `IsLower`.  The file is given as text: decoding it is left out, and so is the limit of 4300
  digits of `int`.  `readfp` is taken as `_read` (it is gone in Python 3.12).
* **C69** (`Model/Args`, `Spec/Args`, `Proofs/Args`, `Proofs/ArgLine`, `Props/C69`): the model follows `argparse` (classify every word, then consume
  options from left to right); the specification is a grammar of command lines.  `parse_word` and `isArg_parse` compare the classification of one
  word, `item_consume` and `item_of_consume` the consumption of one option in both directions.  A file is its content: `w.file n = none` is a file
  that cannot be opened; opening has no other effect.  The configuration file is decoded by an arbitrary total function `text`.
* **C70** (`Props/C70`): C69, C68, C50, C58 and C47 joined: from the words of the command line to the bytes that are printed, and the pipe
  `pattern-make -f pattern ... | pattern-match -p - ...`.  `MakeSays` is what a command line of `pattern-make` says, in the terms of the grammar
  of C69.  The pipe is the output of the first program as standard input of the second; processes and buffers are not modelled.
* **C71** (`Model/NewPython`, `Props/C71`): `Model/UrlParse` leaves out what newer versions of CPython added to `urlsplit`.  `Model/NewPython` has
  it, and copies of the functions that depend on it; the theorems relate the copies to the originals, so that the other properties can be used
  on newer versions.  Which hosts are rejected is an arbitrary predicate `bad`.  The counters of `pattern-make` are not copied.
* **C72** (`Proofs/AnyHash` to `AnyHash5`, `Props/C72`): no hypothesis on the string hash.  `RecOr r P` says that `r` is a `RecursionError` or returns
  something with `P`.  `cluster` yields a tree only when `process` cannot split it, and then all recorded patterns of every level are equal; this
  is shown through all six stages, without the exact description of their results (`Final`, `topF`) that C24 and others use.  The bound on the
  recursion is the number of leaves plus one; `C72_endless` shows for a tree that is its own only part that no bound is enough.
* **C73** (`Spec/Rename`, `Proofs/Rename` to `Rename3`, `Props/C73`): the closed form of C49 commutes with renaming the characters of every column
  within their spaces.  `renamed` rewrites the literal characters of a pattern and keeps what is between brackets and braces; it is injective on
  patterns, so equal texts stay equal and different ones different, and all counts and thresholds are the same.  `C73_urls` is the case of absolute
  URLs with renamed path and fragment; there C45 says what `analyze_url` makes of the renamed URL.
* **C74** (`Spec/PutIn`, `Proofs/PutIn`, `Props/C74`): a constant column has one number, which is never varied, so its text is literal and leaves no
  row behind; the other columns see the same rows.  The rule of a column depends on its position only by being the last of the path.
* **C75** (`Props/C75`): the closed form stops dividing only when all rows are alike (`family_alike`), and does nothing to rows that are alike.
* **C76** (`Model/MixedMatcher`, `Spec/Blocks`, `Proofs/InnerTree`, `Proofs/MixedMatch{,2}`, `Props/C76`): the class `MixedPatternViewMatcher`, which `VIEW_MATCHERS` does not name. `inner_main` describes an inner tree over any sequences of simple patterns; the loop of `add_match_node` yields the patterns of the blocks (`mixedLoop_blocks`), whatever division into maximal blocks one takes; `block_sel` is the selection of one block. The class repairs the first of the five failures of C21 (`a1b2[\-][0-9a-z]{4}` for `a1b2-x1y2`).
* **C77** (`Model/Lazy`, `Spec/Lazy`, `Proofs/Lazy{,2}`, `Props/C77`): `make()` as a generator. Model: a generator is not started, running (size of the dict at its start, number of sub-makers begun, clusters of the last one still to be yielded) or done; a world is the sub-makers and the generators; calls are `load`, `make`, `next i`. What Python adds: a dict iterator raises `RuntimeError` when advanced after the dict has grown (checked with the Python here), also when there is no further entry; after an exception a generator only raises `StopIteration`. The clusters of a sub-maker are computed at the `next` that reaches it; Python computes later parts later, but from trees that `split_by_pattern` has copied before the first `yield`, so loads cannot be seen in them. `Yielded.own` records the one case without a copy: `process` finds nothing to split and the root of the sub-maker is yielded. Proof: after any calls the sub-makers are those of the loads up to the patterns in their nodes (`run_unpat`, from the lemmas of C31), patterns do not matter for the clusters, and `GenInv` describes all answers of one generator. False: that a yielded cluster is a snapshot (`C77_snapshot`).
* **C78** (`Model/Passes`, `Spec/Passes`, `Proofs/Passes`, `Props/C78`): the work of `cluster`. `passesWith` is `clusterWith` with the list of the calls of `process` as result (depth of the generator, tree before and after, answer); `C78_yields` ties it to `make()` and `C78_listed` says that the list is complete, both with no assumption at all; `C78_nesting` states the depth without the instrumented copy, as the recursion budget of `clusterWith`. `cluster_step` (one round on distinct rows: all rows have the same patterns, or there are parts, each non-empty and strictly smaller, together the rows) gives at least two parts per split, and `PassOK.join` does the arithmetic: splits < clusters, depth < clusters, leaves seen <= N * clusters. `C78_size` is C24 and C27 added up. Not counted: the calls of `cluster` by the multi stages inside `process`.
* **C79** (`Proofs/RankDrop`, `Proofs/RankPass`, `Props/C79`): a bound on the rounds that does not mention the clusters. `rk` measures a text against a piece: 0 the piece itself, 1 its class with its length, 2 anything wider. `flat_drop`: when a family (pieces of one level that got the same text) is clustered again, all keep the text or all get a strictly smaller `rk`; `labs_drop` adds this up over the levels (the levels below the first change see fewer rows, which again cannot widen). So whenever a part is split again the sum over the `n` levels has dropped, and `passes_rounds` turns a decreasing bound into depth and work. It needs single parts at every level (`FlatRows`, from `OneSpace` of one URL of the structure); with several classes in a piece a smaller set can send the piece to another stage, and no bound beyond C78 is known. The bound is not claimed to be sharp: random search with up to four pieces found depth 3 where it allows 9.
* **C80** (`Proofs/NestOK`, `Proofs/ShortNest`, `Props/C80`): sharpens `C64_enough`. The nested clusterings of the multi stages only ever see rows of single parts (`StageRows`), so C79's argument applies to them: `shortNest` gives them room for `2n + 2` rounds and nothing else, `shortNest_ok` shows that this changes no result, and `shortNest_frames` that `3K + 3` frames are enough. The level function with `shortNest` is then the same as before (`short_level`), and the rounds of the outer clustering are bounded by the clusters (C78, `passes_spec`) or, for single classes, by C79 (`passes_rounds`). The constants are not claimed to be sharp.
* **C82** (`Model/Frames`, `Proofs/Frames`, `Props/C82`): C64 and C80 count only the frames of the two functions that call themselves; here all functions that are on the stack take theirs, and the helpers take `H` together. `GenLess`: whatever the model with fewer frames yields, it is the same or an initial part followed by `RecursionError`; `less_make` compares `makeF` with `makeL` for all limits. The bounds are those of C80 with other constants: `maker_fuel` gives the rounds that are enough, `evF_cluster` turns rounds into frames. `H` is a parameter: by reading the source, the longest chain of helpers is `_create_next_level_processors` - `ClusterProcessor.__init__` - ... - `ConfigParser.getint` - ... with fewer than 20 frames, but nothing about the standard library's internals is proved.
* **C83** (`Spec/Tight`, `Proofs/Tight`, `Proofs/Tight2`, `Props/C83`): all rows of a final cluster have the same patterns, so no level narrows the set of rows (`labs_unif_get`) and the pattern of a level is the function `topF` of all pieces of the cluster there. In a stage of views the rows of a nested cluster are again uniform, and `flat_cases` gives, for every part with a class, two members that force it (`settle_tight`). Members of the level outside the nested cluster have the same whole text and are cut by `groups_move`; two groups that fit the same text have the same rule and, if one is written out, are the same (`same_grp`), which leaves three cases for a column (`column_tight`). `C83_literal` and `C83_class` are derived from the specification `TightText`, the first with `sep_literal` for the other direction.
* **C84** (`Model/MatchCost`, `Proofs/MatchCost`, `Proofs/MatchCost2`, `Props/C84`): a copy of the matcher that returns the number of `match` calls beside the result; `mmatchC_er` erases the number. `mmatchC_cost` is an induction over the depth of a tree of insertions: the keys that the view matchers of a node return are different children of the class of the matcher (`KeysOnce`, from C43), every view matcher has a child, so one call can be charged to each child, and the sequences below different children are different (`tot_groups`, `tot_keys`). The same lemma is used for the trees inside `MultiPatternViewMatcher` (`url_inner`). `wt_chars` turns pieces and units into characters of the pattern string (`analyzePattern_len`: the pieces with one separator each fit into the string). Not counted: the loops inside a call (building views, dict look-ups, copying lists of results), and the sorting of the results. `C84_least` is the bound from below (every level of a matching path is entered by a node and by a view matcher), `C84_pipe` the bound for the patterns that `pattern-make` prints, with the structures counted separately. C84_inner: the calls inside a matcher for patterns of several units are counted (at least two when it finds a pattern).
* **C85** (`Model/Calls`, `Proofs/Calls`, `Proofs/Calls2`, `Proofs/Calls3`, `Props/C85`): a copy of the whole clustering that lists the calls of `process`, those of the multi stages marked as inner; `clusterNestC_dr` removes the list again, for every input. `Within` says of a nested clustering that its calls weigh at most `B` of the leaves of its tree; `process_calls` adds this up: every piece of a level goes through at most three multi stages (`waiting`, `Longer`), a tree of a stage has at most as many leaves as the stage has pieces (`vbTree_leaves`), and the nodes of one level have together at most the leaves of the tree (`children_leaves`). `B` has to be superadditive; it is `2k` for the number of calls and `k²` for the leaves. That the real nested clustering stays within `B` is C78 for the trees of the stages: `boundedNest` fails when it does not, and agrees with `clusterNest h 1` on them (`boundedNest_ok`). That the copy forgets no call (`Spec/Calls`, `Proofs/Calls4`): `passes_nested` takes the list apart into the calls of C78 and what is inside each of them; `process_asked` compares two nested clusterings, one of which only notes what it is asked, and `C85_asked` reads off that the noted trees are exactly those on which the uninstrumented `process` depends. Not counted: the work inside one call of `process` (buckets, sets, views).
* **C86** (`Model/Objects`, `Spec/Objects`, `Proofs/Objects`, `Proofs/Objects2`, `Props/C86`): the objects with their cache attributes on a heap (three lists, an address is a position); a property is a function from heap to answer and heap, and an exception keeps the changes made so far. `Right` says that each filled cache holds the value computed from the fields: an empty `_fuzzy_rule`, a negative `_piece_length` and an empty `_parsed_pieces` count as not filled, as in the program. `Grow` and `Step` say what a read may do to the rest of the heap; `LastDotSplitFuzzyView` breaks `Right` for a moment, since it keeps the one-part list first, and `keepParts_step` compares with the heap before that. `C86_pieces`, `_views`, `_patterns`, `_match` give the answers after any sequence of operations, `_new` the constructors, `_stay` and `_invisible` that nothing done in between matters, `_same` the identity of the parts, `_equal` equality and hash. `C86_parser`: `PieceParser` with its two lists; `defineAll_eq` relates them to the runs of `parsePiece`. Left out: `_pattern_regex`, `TreeNode.level` (not used) and `ClusterProcessor.level` (a number that is fixed when the processor is made).
* **C81** (`Proofs/Narrow`, `Spec/Narrows`, `Props/C81`): `labs_pt` is `labs_drop` level by level, `labs_three` says that the texts of a single part are the part, its class with its length or its class with `+`, and `passes_narrow` follows a row through the calls (`cluster_step` now also tells the texts of the tree after the call). `C81_language` reads the texts as regular expressions (`three_text`: they are texts of the specification `GroupText`, so `groupText_fits` applies; a backslash makes the written length differ from the number of characters, hence the assumption). The counterexample `loads81` was found by a random search with the model and shrunk: when a part is clustered again, the nested clusterings of the base stage see fewer rows, their clusters fall below `min_cluster_num`, and the pieces go on to the mixed stage, whose pattern is wider.
  The two refuted claims are about the thresholds: three pieces of lengths 1, 1, 2 are varied, four of lengths 1, 1, 1, 2 are not for 3, and are for 4.
* **C87** (`Model/Ordering`, `Props/C87`): the operators that `total_ordering` adds, written as in functools.py:89-108, and `max` as a fold. `results_strict` collects what C20 says about `<` and shows that identity of nodes (equal pattern texts along the path) is equality of paths. `C87_below` needs no condition on the patterns, `C87_linear` and `C87_max` need `AllGen` (inhabited by the examples of C17 and C44). `C87_patterns` is about two match patterns that need not belong to one tree. `C87_false` and `C87_patterns_false` are the counterexamples.
* **C88** (`Props/C88`): from C54. `chosen_append` says which texts of two files together are chosen; the best of them is the best of one file (`C88_split`, `C88_files` by induction on the files), and being the best of more it is more special (`C88_better`). With `-a` both lists are sorted by the same asymmetric relation, so inclusion makes one a sublist of the other (`C88_all`). `C88_false` turns the loss found in C60 into two pattern files.
* **C89** (`Props/C89`): from C21, C44, C47 and C88. With the printed patterns a text is `Chosen` (C54) together with the own piece patterns exactly if the condition of C21 holds, and every chosen text is the printed form of its piece patterns; `bestLine_spec` does the rest (`C89_own`). A literal pattern is the least of the order however its text is taken apart into units (`kind_text`, `literal_least`), which gives `C89_literal`. `C89_false`, `C89_other`: witnesses found by a random search over the model.
* **C90** (`Props/C90`, `Proofs/OneMatch`): a generated pattern that is found for a piece of one class has at most one unit (`match_one`) and its text fits the piece in the sense of the closure lemmas (`match_fit`). So the cluster of a matching pattern has the same character classes per piece, hence the same sub-maker (`pieceText_spaces`, `made_same`), and by `famN_close` the URL belongs to the same family (`one_match_close`). The own pattern is plain and can be read back unless a piece is made of backslashes (`fit_plain`, `no_match_backslash`). No pattern is listed twice because the order of C54 is irreflexive (`firstSpecial_irrefl`). C90_members adds the partition of C24 and C32_one_space_partial: different clusters with such a URL have different patterns.
* **C91** (`Props/C91`, `Spec/Choices`, `Proofs/Choices`, `Proofs/OneWay`): the texts that can match a piece are listed by `pieceTexts` (`units_found`, `found_units`: a generated pattern is found for such a piece iff its text is listed), and the two orders of C54 become the orders of two plain enumerations of the choices (`first_order`, `last_order`). C91_one drops the condition of C90 that the URL was loaded: `labs_way` and `famN_way` are the closure lemmas for a row outside the set of rows, which only needs the same classes per place. Two families whose patterns fit one row have the same labels in every round, so they are the same family, and the clusters of two matching patterns are one (`two_match_close`). That the file holds patterns as `pack` writes them is a condition of C91_lookup; printed patterns satisfy it.

## Findings about the program

* `/a` and `//a` are read as the same pattern; the output of `pattern-match` shows the one that was loaded last.
* `normalize` maps characters outside the table to `[None]`; query keys with such characters are accepted.
* `piece_length` of a piece with backslashes is its length plus the number of runs of backslashes;
  `[\\a-z]{4}` is given to `a\b`.  `parse_pattern_string` takes `\\]` for an escaped bracket, so `pattern-match` rejects
  lines such as `/[a-z][\\][a-z]` and `/[0-9A-Z\\]+` that `pattern-make` prints (C47).
* `[]` and `[]+` are accepted by the pattern loader; `/x[\?]k=[a-z][][][0-9][/]` is loaded and then `match`
  raises `IndexError`.
* `fuzzy_join` is not injective when classes of several rules contain `/`.
* `isdigit` and `int` accept digits of other scripts: `/[a-z]{٣}` is loaded and returned for `abc`, but `re` reads its braces literally, so
  `Pattern.match` disagrees (C16).  `/[a-z]{²}` raises `ValueError` instead of `InvalidPatternException` (C66).
* `parse_url('')` and `parse_url('#')` raise `IndexError`; `'#ab?'` gets a spurious query.
* Of all rejected lines only `#` is logged as an error by `pattern-make`, and only the empty line and `#` by `pattern-match` (for tame patterns and
  lines that do not begin with a slash): an empty line is silently counted by one command and an error for the other (C67).
* `seek_cluster` always returns False, so `p_nodes_count` never matters.
* `min_cluster_num = 1` raises `AttributeError`, `≤ 0` raises `UnboundLocalError`.
* `LengthPatternViewMatcher` overwrites siblings with the same number (`{2}` and `{02}`); `[\.]{1}` is never found;
  `[a-z0-9]+` and `[0-9a-z]+` are incomparable.
* `match` on a pattern string raises `AttributeError` unless only fuzzy matchers are reached.
* URL params (`;x`) and repeated slashes are dropped.
* Two clusters can be printed alike (C32), and a printed pattern need not be found for its own URLs (C21).
* Literal patterns whose sign units are not maximal (`[\-]{2}[\-]`) are never found (C44).
* `PieceBag.add` of a node that is already there counts it again; `PieceBagBucket.p_nodes` is never refreshed; `Bag.pick` returns `None`
  when the first inner bag is empty (C61; the clustering does none of these).
* A file in the INLINE format is read as a pattern file without complaint where the tab and the URL fall into a query key; such patterns match
  nothing (C62).
* `format_byte` indexes one past its suffix table for values of at least 1024^9 and fails for 0 (C63); just below a power of 1024 it prints
  `1024.0K` instead of `1.0M`.
* One URL with about as many pieces as Python's recursion limit (1000) makes `pattern-make` end with `RecursionError` after the input was read;
  the clusters of its group and of all later groups are not printed (C64).
* Matching needs two frames per piece, clustering one: from about 500 pieces on `pattern-match` answers `E` for URLs that have a matching pattern,
  while `pattern-make` still prints it (C65).
* `ConfigParser.readfp` (cmdline.py:94) was removed in Python 3.12: there the option `-c` fails (by reading).
* A comment behind the number in the configuration file, or an indented line after it, makes it no number; the error comes after all input was
  read, and not at all if no URL was accepted.  Misspelt sections and options are ignored (C68).
* On newer versions of Python `http://h/a?#x<tab>y` loses its empty query: `urlparse` removes the tab, `parse_url` counts with it (C71).
* Clashing hashes of pattern strings end in a `RecursionError` or in other clusters, never in lost or mislabelled URLs; clashing digests mislabel
  URLs (C72).
* One more URL can break up a cluster, and a larger `min_cluster_num` can join two; the clusters for 2 and 3 can cross; taking away all URLs of one cluster can join two others (C75).
* `pattern-match -p -` reads the patterns from standard input and then finds no URL there: it prints nothing and exits with 0 (C69).
* `total_ordering` is used on orders that are not total: for hand-written patterns two results can each be greater than the other, and `max(results)` then differs from `sorted(results, reverse=True)[0]`; a `MatchPattern` made as last path piece can be `==` and `<` the one of the same text made for another piece (C87).
* `pattern-match` can show another pattern for a URL than the one of the cluster that `pattern-make` put it into, although the latter matches too: the last differing piece decides (C89).

## Trying the theorems on wrong programs

`seeded/LOG.jsonl` has one line per attempt: a realistic wrong edit of one model definition, the claim it
breaks, the theorems that stop being provable, and the theorems tightened when none did.  The edits
cover every definition that a property speaks about.  Survivors that turned out to be equivalent
programs are noted as such.
