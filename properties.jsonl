{"id": "C01", "title": "parse_url distinguishes a missing query/fragment from an empty one", "statement": "For a URL that is accepted by urllib's urlparse, is not empty and does not begin with '#', parse_url(url).fragment is None exactly when '#' does not occur in the URL, and parse_url(url).query is None exactly when no '?' occurs before the first '#'. When present, fragment is the text after the first '#' and query the text between the first '?' and the first '#'.", "quantifier": "for every string url (any length, any characters)", "why_tests_cant": "The function decides presence by looking at single characters near the end of the URL; the claim is over all strings and all placements of ? and #.", "anchors": ["src/os_urlpattern/parse_utils.py: parse_url"]}
{"id": "C02", "title": "parse_query_string is lossless and rejects exactly the queries with an empty item", "statement": "For a non-empty query string q, parse_query_string(q) raises IrregularURLException exactly when some '&'-separated item of q is empty. Otherwise it returns as many keys as values, one pair per item in order, key+value is the item, the key ends at the first '=' of the item; only when q is one item without '=' is the key '' and the value the item. So '&'.join(k+v) == q.", "quantifier": "for every query string", "why_tests_cant": "All strings over an infinite alphabet; the loop has four interacting states.", "anchors": ["src/os_urlpattern/parse_utils.py: parse_query_string"]}
{"id": "C03", "title": "URL path pieces ignore repeated slashes and nothing else", "statement": "analyze_url's path pieces are exactly the non-empty '/'-separated segments after the first '/' of the path, in order, followed by '' exactly when the path ends with '/'. No path piece contains '/'. A URL without query is rejected exactly when its path contains no '/'.", "quantifier": "for every path string", "why_tests_cant": "All strings; segment counts are unbounded.", "anchors": ["src/os_urlpattern/parse_utils.py: filter_useless, unpack, analyze_url"]}
{"id": "C04", "title": "normalize yields a regular expression for exactly the normalised string", "statement": "If every character of s is a letter, digit or known sign, normalize(s) read as a regular expression full-matches s and no other string; hence normalize is injective on such strings. (For other characters it is not: two different keys can normalise to the same string.)", "quantifier": "for every string of known characters", "why_tests_cant": "Exactness of a regular expression is a statement about all strings.", "anchors": ["src/os_urlpattern/parse_utils.py: normalize, specify_rule"]}
{"id": "C05", "title": "PieceParser.parse is total, rejects exactly unknown characters and splits into maximal runs", "statement": "parse(piece) raises InvalidCharException exactly when some character is not in the character table. Otherwise the raw piece is the concatenation of non-empty runs, one per rule; all characters of a run have that rule, neighbouring rules differ, letters and digits runs are returned verbatim and sign runs as [rule]{length}.", "quantifier": "for every string piece", "why_tests_cant": "All strings; runs of unbounded number and length.", "anchors": ["src/os_urlpattern/parse_utils.py: PieceParser.parse"]}
{"id": "C06", "title": "piece_length is the length of the raw piece", "statement": "For a piece produced by PieceParser from a raw string without backslash, piece_length is the number of characters of the raw string. (With backslashes it is not: every maximal run of backslashes adds one.) It never raises.", "quantifier": "for every raw string of known characters", "why_tests_cant": "piece_length re-parses the normalised text; agreement with the raw length must hold for every arrangement of brackets, braces, escapes and numbers.", "anchors": ["src/os_urlpattern/parse_utils.py: ParsedPiece.piece_length, PieceParser.parse"]}
{"id": "C07", "title": "fuzzy_rule identifies the set of character spaces", "statement": "Two parsed pieces have the same fuzzy_rule exactly when the raw pieces use the same set of character spaces (lower, upper, digit, each sign), regardless of order, repetition and length.", "quantifier": "for every two raw strings of known characters", "why_tests_cant": "Needs the concatenation of sorted rules to be uniquely decodable over all subsets of the rules and all strings.", "anchors": ["src/os_urlpattern/parse_utils.py: ParsedPiece.fuzzy_rule", "src/os_urlpattern/definition.py: CHAR_RULE_DICT"]}
{"id": "C08", "title": "specify_rule and parse_pattern_unit_string are inverse", "statement": "For every non-empty set of rules R and number n with n < 0 or n >= |R|, parse_pattern_unit_string(specify_rule(''.join(sorted(R)), n)) returns R and n (every negative n reads back as -1); for 0 < n < |R| it raises InvalidPatternException; specify_rule raises ValueError exactly for n = 0.", "quantifier": "for every set of rules and every integer n", "why_tests_cant": "All subsets of 35 rules and all integers.", "anchors": ["src/os_urlpattern/parse_utils.py: specify_rule, parse_pattern_unit_string"]}
{"id": "C09", "title": "parse_pattern_string is lossless and stable", "statement": "When parse_pattern_string(s) succeeds, the concatenation of the returned unit strings is s, and parsing any returned unit string again returns just that unit; the only exception it raises is InvalidPatternException.", "quantifier": "for every string s", "why_tests_cant": "All strings, including unbalanced and nested brackets.", "anchors": ["src/os_urlpattern/parse_utils.py: parse_pattern_string"]}
{"id": "C10", "title": "pack and analyze_url_pattern_string are inverse on URL structures", "statement": "For the URLMeta and pieces of any URL (analyze_url then PieceParser), analyze_url_pattern_string(pack(url_meta, patterns)) returns the same URLMeta and the same pattern strings, for every sequence of patterns made of the characters of the corresponding pieces.", "quantifier": "for every accepted URL", "why_tests_cant": "The packed string mixes structure characters and escaped text; unambiguity must hold for every URL.", "anchors": ["src/os_urlpattern/parse_utils.py: pack, unpack, analyze_url, analyze_url_pattern_string, parse_url_pattern_string"]}
{"id": "C11", "title": "Different URL structures never share a fuzzy digest (up to md5 collisions)", "statement": "For two accepted URLs, the strings hashed by fuzzy_digest are equal exactly when the URLMetas are equal and the pieces have pairwise equal fuzzy rules. So with no md5 collision PatternMaker puts two URLs into the same sub-maker iff structure and fuzzy rules agree.", "quantifier": "for every two accepted URLs", "why_tests_cant": "Pairs of arbitrary strings.", "anchors": ["src/os_urlpattern/parse_utils.py: fuzzy_digest, digest, pack", "src/os_urlpattern/pattern_maker.py: PatternMaker.load"]}
{"id": "C13", "title": "mix merges exactly the maximal runs of mixable sub-pieces", "statement": "mix(pieces, rules) preserves the concatenation of the pieces; the result contains no two neighbouring mixable groups; every group is either one unmixable sub-piece with its rule or a maximal run of mixable sub-pieces with the sorted union of their rules.", "quantifier": "for every two sequences of equal length", "why_tests_cant": "Unbounded sequences.", "anchors": ["src/os_urlpattern/parse_utils.py: mix"]}
{"id": "C14", "title": "Views never lose or reorder text", "statement": "For every parsed piece, the concatenation of the pieces of each of its views (multi, mixed, last-dot-split, fuzzy) is the piece itself.", "quantifier": "for every parsed piece and every view class", "why_tests_cant": "Unbounded sequences of sub-pieces.", "anchors": ["src/os_urlpattern/parsed_piece_view.py: MultiView, MixedView, LastDotSplitFuzzyView, FuzzyView"]}
{"id": "C15", "title": "A returned match has the structure of the URL", "statement": "Every pattern returned by PatternMatcher.match(url) was loaded, has the same URLMeta as the URL and the same fuzzy rule at every position (md5 collisions excluded).", "quantifier": "for every sequence of loads and every URL", "why_tests_cant": "All histories of load and all URLs.", "anchors": ["src/os_urlpattern/pattern_matcher.py: PatternMatcher.load, PatternMatcher.match"]}
{"id": "C18", "title": "Matching does not depend on the order of loading", "statement": "Loading the same set of generated patterns in any order, any number of times, gives the same matches for every URL, each the same number of times.", "quantifier": "for every set of generated patterns, every order and every URL; md5 does not collide on the strings hashed", "why_tests_cant": "All permutations and multiplicities.", "anchors": ["src/os_urlpattern/pattern_matcher.py: PatternMatcher.load, PatternMatcher.match"]}
{"id": "C19", "title": "Loading a pattern twice changes nothing but its meta", "statement": "The second load of a pattern returns is_new False; is_new is True exactly when the pattern had not been loaded before.", "quantifier": "for every history of loads; md5 does not collide on the strings hashed", "why_tests_cant": "All histories.", "anchors": ["src/os_urlpattern/pattern_matcher.py: PatternMatcher.load", "src/os_urlpattern/utils.py: build_tree"]}
{"id": "C20", "title": "Match results are ordered by a strict partial order", "statement": "'<' on the nodes returned by match raises nothing and is irreflexive, asymmetric and transitive; any two different results are comparable when only patterns of the generated form were loaded (false for others, e.g. [a-z0-9]+ and [0-9a-z]+).", "quantifier": "for every matcher state, every URL and every triple of results; md5 does not collide on the strings hashed", "why_tests_cant": "Quantifies over all triples of results.", "anchors": ["src/os_urlpattern/pattern_matcher.py: PatternMatchNode.__lt__, MatchPattern.__lt__"]}
{"id": "C22", "title": "PatternMaker.load reports new paths and counts distinct paths", "statement": "load returns is_new True exactly when no earlier URL had the same URLMeta, fuzzy rules and pieces; after any history the count of a sub-maker's root is the number of distinct piece sequences loaded into it.", "quantifier": "for every history of loads; md5 does not collide on the strings hashed", "why_tests_cant": "All histories.", "anchors": ["src/os_urlpattern/pattern_maker.py: PatternMaker.load, Maker.load", "src/os_urlpattern/piece_pattern_node.py: build_from_parsed_pieces"]}
{"id": "C23", "title": "Every meta ends up on the path of its URL", "statement": "After any history of loads the meta set of a path's leaf is the set of metas (not None) loaded with that path.", "quantifier": "for every history of loads; md5 does not collide on the strings hashed", "why_tests_cant": "All histories.", "anchors": ["src/os_urlpattern/piece_pattern_node.py: build_from_parsed_pieces, PiecePatternNode.add_meta"]}
{"id": "C24", "title": "Clustering partitions the loaded URLs", "statement": "The clusters yielded by make() contain every loaded piece sequence exactly once, with its metas and count; nothing is lost, duplicated or invented.", "quantifier": "for every set of loaded URLs and every min_cluster_num >= 2; md5 and str.__hash__ do not collide on the strings hashed", "why_tests_cant": "All URL sets; the algorithm re-buckets and recurses.", "anchors": ["src/os_urlpattern/pattern_cluster.py: cluster, split_by_pattern", "src/os_urlpattern/pattern_maker.py: Maker.make"]}
{"id": "C25", "title": "All URLs of a cluster carry the same pattern", "statement": "In every cluster yielded by make(), every root-to-leaf path has the same sequence of patterns; so printing the pattern of the first path speaks for all.", "quantifier": "for every set of loaded URLs and every min_cluster_num >= 2; md5 and str.__hash__ do not collide on the strings hashed", "why_tests_cant": "All URL sets.", "anchors": ["src/os_urlpattern/pattern_cluster.py: cluster, _can_be_splited", "src/os_urlpattern/formatter.py: PatternFormatter"]}
{"id": "C27", "title": "A cluster is a single URL or has at least min_cluster_num URLs", "statement": "Every cluster yielded by make() either contains exactly one distinct piece sequence, with its literal text as pattern, or at least min_cluster_num of them.", "quantifier": "for every set of loaded URLs and every min_cluster_num >= 2; md5 and str.__hash__ do not collide on the strings hashed", "why_tests_cant": "All URL sets.", "anchors": ["src/os_urlpattern/pattern_cluster.py: cluster, PatternCluster classes"]}
{"id": "C28", "title": "make() terminates and raises nothing for min_cluster_num >= 2", "statement": "For every set of loaded URLs and every min_cluster_num >= 2 clustering returns; no exception, no endless re-splitting (assuming distinct pattern paths have distinct hashes).", "quantifier": "for every set of loaded URLs and every min_cluster_num >= 2; md5 does not collide on the strings hashed", "why_tests_cant": "Termination for all inputs cannot be tested.", "anchors": ["src/os_urlpattern/pattern_cluster.py: cluster, process, ClusterProcessor"]}
{"id": "C29", "title": "min_cluster_num < 2 makes make() raise", "statement": "With min_cluster_num = 1 make() raises AttributeError and with min_cluster_num <= 0 UnboundLocalError for every non-empty set of URLs.", "quantifier": "for every non-empty set of loaded URLs; md5 does not collide on the strings hashed", "why_tests_cant": "All URL sets.", "anchors": ["src/os_urlpattern/pattern_cluster.py: PiecePatternCluster.cluster, BasePatternCluster"]}
{"id": "C30", "title": "Clusters do not depend on the order of loading", "statement": "Loading the same URLs in another order gives the same clusters: the same sets of piece sequences with the same patterns.", "quantifier": "for every set of URLs and every permutation, every min_cluster_num >= 2; md5 and str.__hash__ do not collide on the strings hashed", "why_tests_cant": "All permutations of all URL sets; Python sets and dicts iterate in arbitrary order.", "anchors": ["src/os_urlpattern/pattern_cluster.py: cluster", "src/os_urlpattern/pattern_maker.py: PatternMaker.make"]}
{"id": "C31", "title": "Clustering again changes nothing", "statement": "Running make() a second time on the same maker yields the same clusters; make() does not change the loaded tree other than the patterns of its nodes.", "quantifier": "for every set of loaded URLs and every min_cluster_num >= 2; md5 and str.__hash__ do not collide on the strings hashed", "why_tests_cant": "The clustering mutates the tree in place; the claim is over all trees.", "anchors": ["src/os_urlpattern/pattern_maker.py: Maker.make", "src/os_urlpattern/pattern_cluster.py: cluster"]}
{"id": "C32", "title": "Clusters have pairwise different patterns", "statement": "Two different clusters of one make() never have the same URL pattern. (False of the code in general, with a proved witness: what holds is that clusters with the same pattern have the same URLMeta and, place by place, pieces over the same character spaces; and that a cluster containing a URL each of whose pieces uses a single character space shares its pattern with no other cluster.)", "quantifier": "for every set of loaded URLs and every min_cluster_num >= 2; md5 and str.__hash__ do not collide on the strings hashed", "why_tests_cant": "All URL sets.", "anchors": ["src/os_urlpattern/pattern_cluster.py: cluster, split_by_pattern"]}
{"id": "C33", "title": "The combined tree keeps the counts", "statement": "make(combine=True) yields one tree per sub-maker whose root count is the number of distinct paths, every inner count is the sum of its children's counts, and each leaf count is the number of distinct paths with that pattern path.", "quantifier": "for every set of loaded URLs and every min_cluster_num >= 2; md5 and str.__hash__ do not collide on the strings hashed", "why_tests_cant": "All URL sets.", "anchors": ["src/os_urlpattern/pattern_maker.py: Maker._combine_clusters", "src/os_urlpattern/utils.py: build_tree"]}
{"id": "C34", "title": "Formatter output lists every URL under its pattern exactly once", "statement": "CLUSTER prints the pattern followed by one tab-prefixed line per meta of the cluster; INLINE prints exactly one pattern<TAB>meta line per meta; over all clusters every loaded meta is printed.", "quantifier": "for every set of loaded URLs with metas and every min_cluster_num >= 2; md5 and str.__hash__ do not collide on the strings hashed", "why_tests_cant": "All URL sets.", "anchors": ["src/os_urlpattern/formatter.py: PatternFormatter, ClusterFormatter, InlineFormatter"]}
{"id": "C35", "title": "JSON output is a valid object with the pattern and the number of distinct URLs", "statement": "JsonFormatter's record decodes to exactly {ptn: packed pattern, cnt: number of distinct piece sequences of the cluster}, for every pattern including quotes and backslashes.", "quantifier": "for every cluster; for clusters of make(): every set of loaded URLs, every min_cluster_num >= 2; md5 and str.__hash__ do not collide on the strings hashed", "why_tests_cant": "Escaping correctness is over all strings.", "anchors": ["src/os_urlpattern/formatter.py: JsonFormatter"]}
{"id": "C36", "title": "pattern-match writes exactly one line per input line, in order", "statement": "For any input, the output of the match command is one line per input line, in order: result TAB stripped line NEWLINE; the result depends on that line and the loaded patterns only and contains no newline; it is 'E' exactly when decoding or matching raises, 'N' exactly when nothing matches, otherwise, with -a, the lines of all matched patterns in the order of match, TAB separated, and without -a the line of one matched pattern that is '<' no other; the line of a matched pattern is a pattern line that parses to it. The pattern lines used are those that start with '/' and can be decoded.", "quantifier": "for every list of pattern lines and URL lines; md5 does not collide on the strings hashed", "why_tests_cant": "All inputs including undecodable bytes.", "anchors": ["src/os_urlpattern/cmdline.py: MatchPatternCommand._match, _match_result"]}
{"id": "C37", "title": "pattern-make counters add up", "statement": "After loading, ALL = EMPTY + VALID + INVALID, UNIQ <= VALID, UNIQ is the total number of distinct paths held by the sub-makers; invalid lines leave the makers unchanged.", "quantifier": "for every list of input lines; in the part about distinct paths md5 does not collide", "why_tests_cant": "All inputs.", "anchors": ["src/os_urlpattern/cmdline.py: MakePatternCommand._load"]}
{"id": "C38", "title": "LogSpeedAdapter logs exactly every interval-th call", "statement": "After n calls exactly n // interval records were emitted, at the calls interval, 2*interval, ....", "quantifier": "for every n and every interval > 0", "why_tests_cant": "All numbers.", "anchors": ["src/os_urlpattern/utils.py: LogSpeedAdapter._log"]}
{"id": "C39", "title": "confused is sound about a dominating part", "statement": "confused(total, max_part, threshold) is False whenever total < threshold or (for a positive threshold) the data set has one part only; it is True whenever both the largest part and the rest reach the threshold; it is symmetric in max_part and total - max_part.", "quantifier": "for all integers", "why_tests_cant": "All integers.", "anchors": ["src/os_urlpattern/pattern_cluster.py: confused"]}
{"id": "C40", "title": "dump_tree enumerates the tree that build_tree built", "statement": "After any sequence of build_tree calls with key paths of equal positive length, dump_tree yields each distinct key path exactly once, in the order of first insertion up to grouping by shared prefixes, and the count of every node is the sum of the counts added through it.", "quantifier": "for every sequence of insertions", "why_tests_cant": "All trees.", "anchors": ["src/os_urlpattern/utils.py: build_tree, dump_tree, TreeNode.add_child"]}
{"id": "C41", "title": "The order of match results is specificity, decided at the last differing piece", "statement": "Of two different results for one URL, with generated patterns loaded, x < y exactly when, at the last piece at which they differ, x's pattern is more general: its kind comes later in literal, runs, mixed classes, dotted (at the end of the path), length, wildcard; or the kinds agree and, at the last units that differ in being literal / of fixed length / wildcard, x's unit is the more general one.", "quantifier": "for every history of loads of generated patterns, every URL and every pair of results; md5 does not collide on the strings hashed", "why_tests_cant": "The comparison goes through view classes and strings of digits; its meaning is a statement over all patterns.", "anchors": ["src/os_urlpattern/pattern_matcher.py: PatternMatchNode.__lt__, MatchPattern.__lt__, MatchPattern.cmp_key"]}
{"id": "C42", "title": "pattern-match prints the most special matching pattern", "statement": "When all pattern lines are generated patterns and a URL line matches, the command without -a prints a line that parses to a matching pattern, and every other matching pattern is more general than it at the last piece at which they differ.", "quantifier": "for every list of generated pattern lines and every matching URL line; md5 does not collide on the strings hashed", "why_tests_cant": "All sets of matching patterns.", "anchors": ["src/os_urlpattern/cmdline.py: MatchPatternCommand._match_result", "src/os_urlpattern/pattern_matcher.py: PatternMatchNode.__lt__"]}
{"id": "C43", "title": "No pattern is returned twice", "statement": "However often patterns were loaded, match(url) returns no pattern twice (no loaded piece pattern of several units having an empty class or a class that mixes '/' with other characters).", "quantifier": "for every history of loads and every URL; md5 does not collide on the strings hashed", "why_tests_cant": "All histories; a pattern is stored both in the tree and in view matchers that are searched one after the other.", "anchors": ["src/os_urlpattern/pattern_matcher.py: PatternMatchNode.add_child, PatternMatchNode._deep_match, MultiPatternViewMatcher"]}
{"id": "C44", "title": "match is complete and sound for generated patterns", "statement": "After any loads of generated patterns, a sequence of generated patterns is among the results of match(url) exactly when it was loaded under the URL's structure (path depth, normalised query keys, fragment) and every piece of the URL has the shape the pattern at its position describes: the same maximal runs (literal text, class with the right length, class), with mixed classes read over joined runs, and dotted extensions only at the end of the path.", "quantifier": "for every history of loads of generated patterns, every URL and every sequence of patterns; md5 does not collide on the strings hashed", "why_tests_cant": "An equivalence over all pattern histories and all URLs; search goes through five view matchers with different indexes.", "anchors": ["src/os_urlpattern/pattern_matcher.py: PatternMatcher.match, PatternMatchNode._deep_match, PatternMatchNode.match, ViewMatcher classes", "src/os_urlpattern/piece_pattern_node.py"]}
{"id": "C45", "title": "An absolute URL is read part by part; scheme and host do not matter", "statement": "parse_url of scheme://host/seg/…/last?query#fragment returns exactly these parts (the last segment cut at ';' for schemes with parameters), analyze_url returns the non-empty path segments (the last kept even when empty), the query values and the fragment, and two URLs differing only in scheme and host are analyzed alike when both schemes have parameters, or neither has, or the last segment has no ';'.", "quantifier": "for every absolute URL with a legal scheme, host with balanced brackets, and segments without delimiters", "why_tests_cant": "All texts for each of the six parts, including empty ones and delimiters in later parts.", "anchors": ["src/os_urlpattern/parse_utils.py: parse_url, analyze_url, filter_useless_part", "src/os_urlpattern/compat.py: urlparse"]}
{"id": "C48", "title": "The ETE tree shows exactly the printed patterns", "statement": "For every sub-maker the ETE formatter draws one tree. Its root shows the number of loaded paths. At every node with children the count shown is the sum of the counts of the children, and the children of a node show different parts. The parts on the way to a leaf (separators and query keys included) spell the URL pattern that the pattern formatter prints for a cluster of the sub-maker; every printed pattern is spelled by exactly one leaf; and the leaf shows how many loaded paths the clusters with this pattern hold together.", "quantifier": "for all lists of loaded inputs, metas and min_cluster_num >= 2 (no MD5 collision among loaded structures, no string-hash clash among loaded rows)", "why_tests_cant": "The tree is assembled by level arithmetic (path depth, query keys, fragment) over merged clusters; an off-by-one shows only for particular combinations of structure and clustering.", "anchors": ["src/os_urlpattern/formatter.py:140-204", "src/os_urlpattern/pattern_maker.py:103-110", "src/os_urlpattern/utils.py:87-97"]}
{"id": "C49", "title": "The clusters and all their patterns have a closed form", "statement": "Let min_cluster_num >= 2 and let no two loaded structures collide under the digest and no two bucket keys under hash. Then make() succeeds and its clusters are given by a computable rule: the URLs with the same structure and the same character classes are put in a table of pieces; the columns are done from left to right, each piece getting a text from the numbers of the distinct pieces of its column among the rows whose earlier texts agree; rows with equal texts are taken together and the whole is repeated until the texts agree. The text of a piece is literal unless the numbers of its column vary enough; otherwise it is settled by its runs, its mixed parts, its last dot or its length, tried in this order with fixed thresholds. The members of the cluster and the pattern of every piece of every member are those computed by this closed form, which knows nothing of trees, processors, bags and hashes; and every cluster that is yielded is of this form.", "quantifier": "for all digest and hash functions without collisions on the loaded URLs, all lists of loaded URLs with metas, all min_cluster_num >= 2", "why_tests_cant": "The claim equates the whole multi-stage clustering with an independent definition for every set of URLs; the stages interact through shared buckets, thresholds and repeated rounds, so finitely many inputs say nothing about the rest.", "anchors": ["src/os_urlpattern/pattern_cluster.py: PatternCluster classes, process, cluster, confused", "src/os_urlpattern/pattern_maker.py: Maker.make", "src/os_urlpattern/parsed_piece_view.py"]}
{"id": "C50", "title": "Everything pattern-make prints has a closed form", "statement": "For min_cluster_num >= 2 (and no md5 or hash collision among the loaded structures and rows) pattern-make never fails, and what it prints is determined by the set of accepted URLs on its lines: the URLs fall into clusters (each accepted URL in exactly one, once); each URL's pattern text is a directly computable function of the URL and the set; formatter 'pattern' prints one pattern per cluster, 'cluster' the pattern followed by its URLs with a tab, 'inline' every URL with its pattern in front, 'json' an object with the pattern and the number of distinct URL rows, 'null' nothing. Reordering or repeating input lines only permutes the output.", "quantifier": "all byte lines, all min_cluster_num >= 2, all five formatters, all md5/decode/hash functions without collisions on the input", "why_tests_cant": "the output is a function of every subset of URLs and every piece; tests fix a few inputs, and none of them can exclude a URL listed twice, lost, or printed under another cluster's pattern for some other combination of lines and formatter", "anchors": ["src/os_urlpattern/cmdline.py:112-158", "src/os_urlpattern/formatter.py:38-137", "src/os_urlpattern/pattern_maker.py", "src/os_urlpattern/piece_pattern_node.py", "src/os_urlpattern/parse_utils.py:pack"]}
{"id": "C51", "title": "Few URLs are printed as written, regular tables get the obvious pattern, and strangers do not matter", "statement": "Call the peers of a URL the distinct URLs of the input with the same structure (number of path pieces, query keys, fragment) and the same character classes piece by piece. (1) A URL with fewer than min_cluster_num peers is printed as it is written (escaped), in a cluster holding exactly the URLs with the same structure and pieces. (2) If every column of the table of peers is constant, or is taken as a whole and has one length with at least min_cluster_num values, or at least min_cluster_num lengths, or is cut in one way (runs, mixed parts, last dot) into parts that are each of this kind, then the peers form exactly one cluster, and its pattern consists of the obvious texts: the constant, [class]{n}, [class]+, or their concatenation. (3) The cluster and the pattern of a URL are the same in any two inputs with the same peers of that URL: URLs of other structures or classes, and the order, do not matter.", "quantifier": "all inputs, all accepted URLs u on them, all min_cluster_num >= 2, all formatters; for (2) all tables of the stated kind; for (3) all pairs of inputs with the same peers of u; hypotheses: no md5 collision of fuzzy digests and no hash clash among the rows", "why_tests_cant": "the claims quantify over all inputs around a URL, in particular over the unboundedly many other URLs that must not matter, and over tables of any size", "anchors": ["src/os_urlpattern/pattern_cluster.py:155-175", "src/os_urlpattern/pattern_cluster.py:212-408", "src/os_urlpattern/pattern_cluster.py:410-732", "src/os_urlpattern/pattern_maker.py:22-126"]}
{"id": "C52", "title": "The list of results is ordered and does not depend on the order of the pattern file", "statement": "When only patterns of the form the program writes were loaded, the list that PatternMatcher.match returns for a URL is ordered: of two results, the earlier one has the same patterns as the later one up to some piece, and at that piece its pattern is of a more special kind (literal, then single runs, then mixed runs, then with a file extension, then fixed length, then any length) or of the same kind with a more special unit at the first unit that is written differently. Hence two matchers that were given the same patterns, in any order and any number of times, return the same list, and the bytes pattern-match writes, with -a and without, do not depend on the order of the lines of the pattern files nor on repetitions, provided that no two lines are read as the same pattern. Two such lines, /a and //a, do make the output depend on the order: the last one is printed.", "quantifier": "all digests without collision on the strings involved, all load histories of generated patterns, all URLs that can be parsed, all pattern files and URL files (URL lines that do not start with a slash), both modes", "why_tests_cant": "The order results from sorted insertion by bisection into the list of view matchers of every node, from dictionaries of dictionaries and from nested inner trees; tests try a few orders of a few patterns, the claim is about all permutations of all pattern files.", "anchors": ["src/os_urlpattern/pattern_matcher.py:65-140", "src/os_urlpattern/pattern_matcher.py:196-340", "src/os_urlpattern/cmdline.py:180-244"]}
{"id": "C53", "title": "The counters logged by the two commands", "statement": "The message that pattern-match logs after loading is the tally of its lines in the order in which the counters were first touched: every line counts once as ALL and once as UNKNOW (after stripping the end it does not start with a slash), VALID (it decodes and reads as a pattern) or INVALID (otherwise); the number of VALID lines is the number of texts that were loaded. The message of pattern-make is the tally of its lines: ALL, then EMPTY for a blank line, INVALID for one that does not decode or does not read as a URL, VALID for a URL, preceded by UNIQ when no earlier line has the same structure, classes and pieces. Counting does not influence what is loaded. pretty_counter writes every key once, in order of first increment, with the number of increments.", "quantifier": "for all sequences of byte lines, all decoders, all digests (for the UNIQ counts: digests without a collision among the loaded URLs)", "why_tests_cant": "The order of the keys and every count depend on the whole history of lines, and UNIQ on the equality of readings of any two of them.", "anchors": ["src/os_urlpattern/cmdline.py:112-142", "src/os_urlpattern/cmdline.py:180-203", "src/os_urlpattern/utils.py:13-23"]}
{"id": "C55", "title": "The hash function, the order of sets and the digest do not matter", "statement": "Run pattern-make twice on the same input, in two processes whose string hash functions differ (as they do under hash randomisation), whose sets are therefore iterated in different orders, and with any digest function. Then PatternMaker.make() yields exactly the same list of clusters, with the same trees and in the same order, and the command prints the same patterns in the same order. Only the order of the URLs printed under one pattern may differ; the formatters that print no URLs print exactly the same bytes.", "quantifier": "for all inputs, all min_cluster_num >= 2, all formatters, all pairs of hash functions without clash among the rows, all pairs of set orders (arbitrary permutations depending on the content), all pairs of digests without collision among the loaded URLs", "why_tests_cant": "A test process has one hash seed; the claim is about every pair of hash functions and every order in which a set may be iterated, at every level of the nested clustering.", "anchors": ["src/os_urlpattern/pattern_cluster.py:73-90", "src/os_urlpattern/pattern_cluster.py:243-332", "src/os_urlpattern/pattern_cluster.py:335-408", "src/os_urlpattern/pattern_cluster.py:671-732", "src/os_urlpattern/pattern_maker.py:60-126", "src/os_urlpattern/utils.py:26-68"]}
{"id": "C57", "title": "What the entry points accept", "statement": "parse reads a text that starts with a slash as a pattern and any other text as a URL, and returns one object per piece of the structure, at least one. PatternMaker.load succeeds exactly for the texts that do not start with a slash and that parse accepts; PatternMatcher.load succeeds exactly for the texts that start with a slash and that parse accepts; when either raises, nothing is changed (no sub-maker or sub-matcher is left behind). fuzzy_digest of one argument is that of the parsed text and raises what parse raises; of two, that of the given objects; otherwise ValueError. The table of formatters has the names CLUSTER, ETE (only with ete3), NULL, INLINE, JSON, PATTERN in this order; names are read without regard to case, an unknown one is a KeyError and is refused by the command, CLUSTER is the default, and URLs are loaded as metas exactly for CLUSTER and INLINE, clusters combined exactly for ETE.", "quantifier": "for all strings, all states of the maker and the matcher, all digests, all formatter names, with and without ete3", "why_tests_cant": "That a failing load leaves no trace concerns every failing text and every state; tests load a few bad URLs into fresh objects and do not look at the state afterwards.", "anchors": ["src/os_urlpattern/parser.py:10-53", "src/os_urlpattern/pattern_maker.py:29-47", "src/os_urlpattern/pattern_matcher.py:277-295", "src/os_urlpattern/formatter.py:207-233", "src/os_urlpattern/utils.py:290-306", "src/os_urlpattern/cmdline.py:91-113"]}
{"id": "C59", "title": "The match tree counts the loads", "statement": "After any history of PatternMatcher.load calls (no MD5 collision among the texts that are hashed), there is one sub-matcher for each (URLMeta, fuzzy rules) of an accepted pattern string and no other. Its tree has a node for every prefix of the piece patterns of an accepted pattern and no other; the node carries the last piece pattern of the prefix, and its count is the number of accepted loads of that URLMeta and those fuzzy rules whose piece patterns begin with the prefix. In particular the count of a node returned by match() is the number of times its pattern was loaded, and is positive.", "quantifier": "all histories of loads, all accepted pattern strings, all prefixes, all URLs, all results", "why_tests_cant": "The state after arbitrary histories with repeated, rejected and overlapping patterns cannot be enumerated; counts of inner nodes are not visible in any output.", "anchors": ["src/os_urlpattern/utils.py:70-148", "src/os_urlpattern/pattern_matcher.py:277-295", "src/os_urlpattern/pattern_matcher.py:344-355"]}
{"id": "C60", "title": "Loaded patterns do not disturb each other, except that a length hides its other spelling", "statement": "After any history of PatternMatcher.load calls whose patterns have no empty class and no class mixing '/' with other characters in a pattern of several units (and no MD5 collision), match(url) raises nothing for an accepted URL, and for every accepted pattern of the URL's structure: its piece patterns are among the results exactly when they are among the results of a matcher into which only this pattern was loaded, and none of its units with a fixed number of characters was overtaken. A unit [..]{n} (or [..]) is overtaken when another unit text with the same number came for the first time later to the same place (same preceding piece patterns, same view class, same unit rules, same preceding units): LengthPatternViewMatcher keeps one node per length and the later one replaces the earlier. So a pattern can be lost to a later pattern that does not match the URL itself.", "quantifier": "all histories of such loads (including hand written patterns such as [a-z]{02}), all URLs, all loaded patterns", "why_tests_cant": "The interference depends on the order of first loads over arbitrary histories and on spellings the generator never writes; tests load generated patterns.", "anchors": ["src/os_urlpattern/pattern_matcher.py:91-99", "src/os_urlpattern/pattern_matcher.py:102-130", "src/os_urlpattern/pattern_matcher.py:181-275"]}
{"id": "C61", "title": "The counters of piece bags and buckets are the sums over their members", "statement": "After distinct nodes are added, a PieceBag holds exactly them, its count is the sum of their counts, p_nodes_count the sum of the counts of their parents, and p_nodes the set of the parents. A PieceBagBucket has one bag per piece, in order of first appearance, holding exactly the nodes with this piece; its count is the sum over all nodes; its p_nodes, asked for after the last add, are the parents of all nodes; adding a bag whose piece is there raises ValueError. The nodes a level processor is given are distinct. Bag.iter_all yields exactly the objects inside at any depth; Bag.pick returns the first of them when no inner bag is empty. Without these conditions the claims are false: a node added twice is held once and counted twice, p_nodes asked for too early stays stale, and pick returns None after an empty inner bag.", "quantifier": "for every list of nodes, every bucket and bag, and every nested bag", "why_tests_cant": "The repository has no test of these classes; the counters are kept incrementally, and a wrong or missed update shows only as a different decision of the clustering on some inputs.", "anchors": ["src/os_urlpattern/utils.py:27-67", "src/os_urlpattern/pattern_cluster.py:17-108", "src/os_urlpattern/pattern_cluster.py:613-617"]}
{"id": "C62", "title": "Patterns with blanks or control characters, and pattern files in the inline, json or null format, match nothing", "statement": "A URL is matched by no loaded text that has a blank, a control character or DEL in it: no text with such a character parses to the structure of the URL with the path of a result, and if every loaded text has such a character, match returns nothing. Hence the output of pattern-make in the JSON or NULL format, given to pattern-match as pattern file, loads nothing and answers N for every line that can be read and E for the others; the output in the INLINE format may load some lines (a tab and URL inside a query key), but it still answers N or E for every line.", "quantifier": "for every input of pattern-make, every minimal cluster number of at least 2, and every file of queries (for INLINE: queries that do not begin with '/'); md5 and str.__hash__ do not collide on the strings hashed", "why_tests_cant": "The repository has no test that feeds output of one command to the other; which texts load depends on where the tab falls in the text.", "anchors": ["src/os_urlpattern/cmdline.py:180-204", "src/os_urlpattern/formatter.py:84-137", "src/os_urlpattern/pattern_matcher.py:277-312", "src/os_urlpattern/parse_utils.py:580-625"]}
{"id": "C63", "title": "Memory sizes in log lines are rounded up and carry the right unit", "statement": "format_byte(v, p) for 0 < v < 1024^9 is a decimal fraction in shortest form with at most p places (one if p is 0), followed by the unit of the largest power 1024^s <= v; the number is v / 1024^s rounded up, not below it and less than 10^-p above it. Values that are not positive raise ValueError, values of 1024^9 and more raise IndexError (one past the table of units). MemoryUsageFormatter puts the size into a log record exactly if the record has no such field and the format is absent, empty or contains %(memory)s; all other fields are kept.", "quantifier": "for every integer v, every precision p, every format string and every record", "why_tests_cant": "The repository has no test of format_byte; the unit changes at eight powers of 1024 and the rounding matters only next to them.", "anchors": ["src/os_urlpattern/utils.py:237-257", "src/os_urlpattern/utils.py:260-272"]}
{"id": "C64", "title": "A URL with more pieces than the call stack allows ends pattern-make", "statement": "ClusterProcessor.process and dump_tree are recursive with one call per piece of a URL, cluster is recursive with one call per split. Count only these calls and let Python allow lim nested ones. Then make() yields exactly the clusters it yields without a limit, or an initial part of them and then RecursionError; 2N + D + K + 5 are enough, where N is the number of different URLs in the largest group (same meta and same rules), D the number of pieces of the longest URL and K the number of character runs of the longest piece. If one loaded URL has n pieces and lim <= n + 1, RecursionError is raised, and every cluster yielded before belongs to URLs with fewer than n pieces. pattern-make does not catch it: the records printed are an initial part of the records of the unlimited program, and with the formats pattern, cluster and json at least one is missing. dump_tree of a tree returns all its paths when each has fewer than lim nodes below the root, and raises RecursionError when one has not.", "quantifier": "for every limit, every input, every min_cluster_num >= 2, every format, every runtime without hash collisions", "why_tests_cant": "Tests have URLs with a few pieces; the failure needs a URL with about as many pieces as the recursion limit, and which other output is lost depends on the order of the groups.", "anchors": ["src/os_urlpattern/pattern_cluster.py:609-732", "src/os_urlpattern/utils.py:151-173", "src/os_urlpattern/pattern_maker.py:49-62", "src/os_urlpattern/cmdline.py:144-158"]}
{"id": "C46", "title": "A printed pattern is one regular expression for the whole URL", "statement": "For an absolute URL whose path, query and fragment contain only known characters other than backslash and whose query has no empty item: if it was loaded, some cluster's printed pattern line, read as a regular expression, matches the text path?query#fragment of the URL (duplicate slashes and parameters dropped), and its metadata is printed below that line; and, if no loaded pattern has an empty class or, in a piece pattern of several units, a class that mixes '/' with other characters, every result of match(url) with ASCII texts, packed into one line, matches that text too.", "quantifier": "for every load history, every min_cluster_num >= 2 and every such URL; md5 and str.__hash__ do not collide on the strings hashed", "why_tests_cant": "Ranges over all URL sets and all URL texts; the README promises it for every URL of a cluster.", "anchors": ["README.rst: pattern-make", "src/os_urlpattern/parse_utils.py: pack, analyze_url, normalize", "src/os_urlpattern/formatter.py: PatternFormatter, ClusterFormatter, InlineFormatter", "src/os_urlpattern/pattern_matcher.py: PatternMatcher.match"]}
{"id": "C66", "title": "Quantifiers in the digits of any script, and what load and parse may raise", "statement": "A number in braces may be written in the decimal digits of any script: the unit is parsed as the one with ASCII digits. A digit that is not decimal, such as a superscript, passes parse_pattern_string and then makes the pattern raise ValueError. PatternMatcher.load of a text that begins with '/' raises nothing but InvalidPatternException, IrregularURLException and, only if the text has such a digit, ValueError. parse of any other text raises IndexError only for '' and '#', ValueError only if the text has a square bracket, InvalidCharException only if it has an unknown character, and apart from these only IrregularURLException; load of such a text always raises: what parse raises, or ValueError.", "quantifier": "for all texts, all matchers whatever was loaded before, all 66 runs of decimal digits of Unicode 14 and all numbers", "why_tests_cant": "The absence of further exceptions is a statement over all texts; the tests use ASCII digits only.", "anchors": ["src/os_urlpattern/parse_utils.py:580-750", "src/os_urlpattern/parse_utils.py:154-178", "src/os_urlpattern/parser.py:10-31", "src/os_urlpattern/pattern_matcher.py:277-295"]}
{"id": "C67", "title": "What the two commands log, and at which level", "statement": "pattern-make logs, while loading: at every 5000th line a debug record [LOADING] with the number of the line; for every line that is neither blank nor a URL exactly one record with the exception and the stripped line, a warning, except that the line `#` (the only one) is an error; then the counters. There are as many warnings and errors as the counter INVALID says. Afterwards there is one debug record [CLUSTER] per cluster (per group of URLs of one structure with the format ETE) whose positive counts add up to the counter UNIQ. pattern-match logs the names of the pattern files, at every 1000th line [LOADING], a warning for every line of a pattern file that begins with a slash and is not loaded, the counters, at every 5000th line [MATCHING], and a record for a line exactly when the answer for that line is `E`: a warning for InvalidPatternException, IrregularURLException, InvalidCharException and ValueError, an error for any other exception; if the patterns are tame (no piece pattern of several units has an empty class or a class that mixes '/' with other characters) and the line does not begin with a slash the record carries what parse raises and is a warning unless the line is empty or `#`. --loglevel shows nothing by default, everything with DEBUG, the rejected lines with INFO and WARN, those that are errors with ERROR, nothing with FATAL. Logging changes neither what is printed nor what is loaded.", "quantifier": "All lists of lines (bytes), all decoders (UTF-8 where stated), all pattern files, formats and log levels; the sum of the clusters for min_cluster_num >= 2 without digest or hash collision.", "why_tests_cant": "The records are a function of the whole input and of its order; a test compares a few logs and cannot show that no other line is an error or that the counts always add up.", "anchors": ["src/os_urlpattern/cmdline.py:36-50", "src/os_urlpattern/cmdline.py:112-153", "src/os_urlpattern/cmdline.py:180-239", "src/os_urlpattern/utils.py:175-218"]}
{"id": "C17", "title": "Literal, length and fuzzy patterns are matched completely", "statement": "After any loads of patterns of the generated form, match(url) returns a sequence of whole-piece patterns (literal, [spaces]{n}, [spaces]+) exactly when it was loaded for the structure of the URL and every piece is the literal, resp. consists of exactly the spaces and has length n, resp. consists of exactly the spaces. For hand-written lengths such as {02} or {1} it is false.", "quantifier": "for every sequence of loads of generated patterns and every URL; md5 does not collide on the strings hashed", "why_tests_cant": "All histories of load and all URLs.", "anchors": ["src/os_urlpattern/pattern_matcher.py: PatternMatcher.match, PiecePatternViewMatcher, LengthPatternViewMatcher, FuzzyPatternViewMatcher"]}
{"id": "C54", "title": "Closed form of the output of pattern-match", "statement": "For a pattern file of generated patterns, what pattern-match writes for a URL line is determined by the lines of the file alone. A text is chosen when it is read as a pattern of the structure of the URL, each of its piece patterns stands for the piece at its place, and no later text is read as the same pattern. With -a the chosen texts are written once each, ordered by specificity at the first differing piece; without -a the one chosen text that is more special than every other at the last differing piece; N when none is chosen, E when the line cannot be decoded or read. The list and the best text are unique.", "quantifier": "for all pattern files of generated patterns, all URL lines, all encodings with the properties of UTF-8 and all digests without collision among the strings involved", "why_tests_cant": "The claim relates the written bytes to a declarative choice among all subsets and orders of pattern lines; tests fix a file and a URL.", "anchors": ["src/os_urlpattern/cmdline.py:180-251", "src/os_urlpattern/pattern_matcher.py:194-355"]}
{"id": "C12", "title": "The literal pattern of a URL is loadable, has the digest of the URL and matches it", "statement": "For every accepted URL without backslash, after any loads of patterns whose piece patterns of several units have no empty class and no class that mixes '/' with other characters, loading pack(url_meta, pieces) of the URL (its own normalised text) into the PatternMatcher is accepted and match(url) then returns that pattern. With a backslash in a piece the load raises InvalidPatternException, whatever was loaded before: parse_pattern_string cannot read '[\\\\]'.", "quantifier": "for every accepted URL and every such load history (any load history for URLs with a backslash); md5 does not collide on the strings hashed", "why_tests_cant": "Needs agreement of the URL analyser and the independent pattern analyser on all strings.", "anchors": ["src/os_urlpattern/pattern_matcher.py: PatternMatcher.load, PatternMatcher.match", "src/os_urlpattern/parser.py: parse"]}
{"id": "C16", "title": "A returned match really matches: every piece full-matches its pattern as a regular expression", "statement": "When no loaded pattern contains an empty class and no loaded pattern of several units mixes '/' with other characters in one class, PatternMatcher.match(url) raises nothing and every returned pattern full-matches, position by position, those of the URL's raw pieces that have no backslash, when the pattern is read as a regular expression, wherever the text of the pattern is ASCII (anything else can only be a digit of another script in a quantifier). Without any one of the four conditions it is false.", "quantifier": "for every sequence of loads without empty or slash-mixing classes and every accepted URL; md5 does not collide on the strings hashed", "why_tests_cant": "The matcher never runs the regular expression; agreement with it is a statement over all patterns and URLs.", "anchors": ["src/os_urlpattern/pattern_matcher.py: PatternMatchNode.match, ViewMatcher and subclasses", "src/os_urlpattern/pattern.py: Pattern.match"]}
{"id": "C21", "title": "A generated pattern need not match its own URLs", "statement": "It is not true that every cluster's pattern, loaded into a PatternMatcher, matches every URL of the cluster. It is returned exactly when no unit of the pattern ends its brackets in a backslash (such a pattern cannot be loaded) and, for every piece: the pattern has at most one unit or only units of one character space; or the piece is the last of the path, the pattern is X[\\.]Y with Y of letters and digits, and at most two runs follow the last dot of the piece; or the pattern is not of that form and its units are the maximal runs of mixable spaces and the single signs.", "quantifier": "for every set of URLs, every minimum cluster number of at least 2, every set of loaded printed patterns, every URL of every cluster; md5 and str.__hash__ do not collide on the strings hashed", "why_tests_cant": "The failing inputs are specific shapes that random tests do not reach; the positive part is over all URL sets.", "anchors": ["src/os_urlpattern/pattern_matcher.py: VIEW_MATCHERS, MultiPatternViewMatcher", "src/os_urlpattern/pattern_maker.py: PatternMaker.make"]}
{"id": "C26", "title": "The pattern of a cluster matches every URL of the cluster as a regular expression", "statement": "For every cluster yielded by make() and every URL in it, each raw piece full-matches the cluster's pattern at its position. True for pieces without backslash, false with (length patterns).", "quantifier": "for every set of loaded URLs, every piece without backslash, and every min_cluster_num >= 2; md5 and str.__hash__ do not collide on the strings hashed", "why_tests_cant": "All URL sets, and regular expression semantics.", "anchors": ["src/os_urlpattern/pattern_cluster.py: cluster and the PatternCluster classes"]}
{"id": "C47", "title": "pattern-make | pattern-match", "statement": "Feed the output of pattern-make (PATTERN format) to pattern-match: a printed line with a class or run whose brackets end in a backslash is rejected with InvalidPatternException; every other line, hence every line if no URL has a backslash, is loaded as exactly the pattern it was printed for. For every URL that pattern-make accepted the result is not E; the results are printed lines of the URL's structure whose patterns match its pieces without backslash as regular expressions, and the line of the URL's own cluster is among them exactly when it was not rejected and every piece satisfies the condition of C21; N is written exactly when there is no result, otherwise all results separated by tabs or one of them.", "quantifier": "for every list of input lines, every min_cluster_num >= 2, both settings of --all-matched; md5 and str.__hash__ do not collide on the strings hashed", "why_tests_cant": "Ranges over all files; connects printing, encoding, stripping, decoding, parsing, loading, clustering and matching.", "anchors": ["src/os_urlpattern/cmdline.py: MakePatternCommand, MatchPatternCommand", "src/os_urlpattern/formatter.py: PatternFormatter", "src/os_urlpattern/parser.py: parse", "src/os_urlpattern/pattern_matcher.py: PatternMatcher.load, match"]}
{"id": "C56", "title": "Pattern.match decides the language of a pattern, up to a newline at the end", "statement": "Pattern(p).match(s) is True exactly when the whole string s, or s without one newline at its end, is matched by the regular expression p. For a pattern of the form the program writes these are exactly the strings that can be cut into words, one per unit: the run itself, n characters of the class, or one or more characters of the class. For the pattern normalize writes for a piece these are the piece and the piece with a newline, nothing else. Every pattern returned by PatternMatcher.match whose text is ASCII, and every pattern of a cluster, is confirmed by Pattern.match on the pieces of the URL.", "quantifier": "for all pattern texts of the fragment (literals, escapes, classes, {n}, +) and all strings; for the last sentence all load histories, URLs and pieces without backslash, with the hypotheses of C16 and C26", "why_tests_cant": "The tests try four fixed pairs of pattern and string; the claim is an equivalence over all strings, including those where the engine has to give back characters after +, and those ending in a newline.", "anchors": ["src/os_urlpattern/pattern.py:56-92", "src/os_urlpattern/parse_utils.py:64-139"]}
{"id": "C58", "title": "The two commands on bytes: files, lines and pattern files", "statement": "Iterating the input files gives exactly their lines (every byte once, a newline only at the end of a line, no empty line); two files given with -i are read like their concatenation exactly when one of them is empty or the first ends in a newline. For every formatter the bytes that pattern-make writes consist of exactly one line per record, and the records can be read back from them. The bytes that pattern-match writes consist of exactly one line per input line, in order. A file written by pattern-make with the PATTERN formatter or with the default CLUSTER formatter is a pattern file: pattern-match reads exactly the patterns of the clusters from it, rejects those in which brackets end in a backslash (none if no URL has a backslash), and prints the same for both formats.", "quantifier": "all lists of input files (arbitrary bytes), all five formatters, all min_cluster_num >= 2, every strict UTF-8 codec, digests and hashes without collisions", "why_tests_cant": "The claim is about arbitrary byte strings, including files without a final newline, control characters and bytes that are not UTF-8, and about the composition of both commands; a test runs a few files in one format.", "anchors": ["src/os_urlpattern/cmdline.py:112-142", "src/os_urlpattern/cmdline.py:144-158", "src/os_urlpattern/cmdline.py:180-203", "src/os_urlpattern/cmdline.py:227-244", "src/os_urlpattern/formatter.py:61-137"]}
{"id": "C65", "title": "Half the call stack: URLs whose pattern pattern-make prints and for which pattern-match answers E", "statement": "PatternMatchNode.match, _deep_match and the view matchers call each other, two nested calls per piece of the URL. Count these calls and let Python allow lim nested ones. Then match(url) returns what it returns without a limit or raises RecursionError. 2 * (n + k) + 4 calls are always enough for a URL with n pieces of at most k runs of characters each, also for sorting the results. If the URL has n pieces, some loaded pattern matches it and lim < 2 * n, then match raises RecursionError; so pattern-match prints E for such a URL though it should print a pattern. A line of pattern-match is always the line printed without a limit or E with the URL, and the other lines are not affected.", "quantifier": "for every limit, every list of pattern lines, every URL line, with and without -a; md5 without collisions on the given strings", "why_tests_cant": "Tests use URLs with a few pieces; at the default recursion limit the failure needs URLs with some 500 pieces, and clustering the same URLs still works.", "anchors": ["src/os_urlpattern/pattern_matcher.py:69-77", "src/os_urlpattern/pattern_matcher.py:195-223", "src/os_urlpattern/pattern_matcher.py:256-261", "src/os_urlpattern/cmdline.py:205-239"]}
{"id": "C68", "title": "The configuration file: which number min_cluster_num is after pattern-make -c FILE", "statement": "A configuration file made of comments, blank lines, section headers and options (with = or :, and continued on indented lines) is read without error exactly if no section except DEFAULT stands in it twice and no option of a section is set twice (option names in lower case); else DuplicateSectionError or DuplicateOptionError is raised. After reading, every option has the value written in the file, and everything else is as in the default configuration. So min_cluster_num is the value under [make] with %(name)s replaced (at most ten values deep) and read by int(): blanks, a sign, digits of any script with single underscores. If [make] does not set it, it is 3, whatever [DEFAULT] or other sections say. For any text at all: lines end with \\n, \\r\\n or \\r; if a line at the margin is no comment, no header of a section with a non-empty name and no option with a non-empty name, the text is not read; if it is read, getint raises nothing but an interpolation error or ValueError, and the number is 3 unless some line has min_cluster_num before its first = or :. A file that cannot be read ends the command before any URL is read; a value that is no number ends it after all URLs were read, and only if at least one URL was accepted; otherwise the command prints what it prints for this number.", "quantifier": "for every configuration file of the described form, and for every text in the part about any text; for every str.lower that does the usual on ASCII and empties no text; for every format and all input files", "why_tests_cant": "The only test reads the default file. The format allows endlessly many spellings (comments, continuation lines, interpolation, Unicode digits), and the errors show up at different times.", "anchors": ["src/os_urlpattern/config/__init__.py:5-15", "src/os_urlpattern/config/default_config.cfg:1-2", "src/os_urlpattern/cmdline.py:91-94", "src/os_urlpattern/cmdline.py:246-257", "src/os_urlpattern/pattern_cluster.py:188-192"]}
{"id": "C69", "title": "Command lines: which are accepted, what they mean, exit status", "statement": "The command lines of pattern-make and pattern-match form a small language: options written -x, --name or as an abbreviation that fits one name only; arguments in the following words, behind '=' or glued to the letter; flags joined in one word. A word is an argument if it does not begin with a dash, is a single dash, or is a negative number or contains a space and cannot be meant as an option. Exactly the lines of this language are accepted whose files can be opened, whose log level and format (in upper case) are known, which ask for neither help nor version, and which for pattern-match give -p. Such a line has one meaning, the last value of an option counts, and missing options have the defaults: standard input, CLUSTER, not all matches. The first thing on a line of the language that asks for help or version, or cannot be done, ends the command with status 0 or 2; every line that is not accepted ends with status 0 or 2, and a line with the word '--' is never accepted. An accepted line runs the command of C68 respectively C36 with the contents of the named files, where '-' is standard input and can be read only once: after the configuration or the patterns were read from it, it is empty. So pattern-match -p - without other inputs prints nothing.", "quantifier": "for all command lines, all files, any content of standard input, with and without ete3; for every str.upper (that keeps CLUSTER, in the part on pattern-make)", "why_tests_cant": "There are endlessly many command lines; abbreviations, glued flags and words that look like options interact, and the repository has no test of the argument parser.", "anchors": ["src/os_urlpattern/cmdline.py:58-80", "src/os_urlpattern/cmdline.py:91-110", "src/os_urlpattern/cmdline.py:161-178", "src/os_urlpattern/cmdline.py:247-261"]}
{"id": "C70", "title": "The two programs end to end: command line, files, configuration, output", "statement": "An accepted command line of pattern-make whose configuration gives a number of at least 2 (3 without -c) makes the program print, in its format, exactly one block per cluster of the URLs in its input files, as C50 lists them. Two such lines in any surroundings with the same format (pattern or inline) and number, whose files have the same URLs, print the same records up to order. If the output of pattern-make in format pattern is piped into pattern-match with '-p -' and the same files as inputs, then pattern-match prints one line per input line; a line with a URL that pattern-make accepts is never answered E: it is answered N, or with records printed by pattern-make whose regular expressions match the pieces of the URL (one record without -a).", "quantifier": "for all command lines, all files and configurations, all runtimes and hash functions without collisions on the pieces, UTF-8 output", "why_tests_cant": "The statement is about both programs together for all inputs and all ways to write the command lines; the tests of the repository call single functions.", "anchors": ["src/os_urlpattern/cmdline.py:91-158", "src/os_urlpattern/cmdline.py:161-244", "src/os_urlpattern/cmdline.py:247-261"]}
{"id": "C71", "title": "Newer versions of Python: what changes with the newer urlparse", "statement": "Newer versions of urllib.parse strip leading control characters and blanks from a URL, remove tabs, CR and LF from it, and reject some hosts. On them a URL from which nothing is removed is parsed as before, unless its host is rejected with ValueError; pattern strings are parsed as before. If characters are removed, but none from the last character of the URL nor from the part that begins before its first '#', the URL is parsed as the cleaned URL; elsewhere the results can differ, because parse_url counts positions in the uncleaned URL: an empty query or fragment can get lost. So pattern-make on lines with nothing to remove prints what it printed before for the lines whose hosts are not rejected; pattern-match loads the same patterns from any file, and answers each such line as before, or E if its host is rejected.", "quantifier": "for all URLs, all pattern files, all input lines of the stated form, every set of rejected hosts, all runtimes", "why_tests_cant": "The tests run on one version of Python; the statement relates two versions for all inputs.", "anchors": ["src/os_urlpattern/parse_utils.py:154-178", "src/os_urlpattern/parser.py:10-31", "src/os_urlpattern/compat.py:13-18"]}
{"id": "C72", "title": "make() when strings clash under hash()", "statement": "split_by_pattern divides a tree by hash() of the joined patterns. Whatever hash() is, make() with min_cluster_num of at least 2 either ends in a RecursionError or returns clusters that divide the loaded URLs: every loaded structure with its pieces occurs in exactly one path, with exactly its metas, and all paths of a cluster carry the one pattern list that is printed. So a clash never loses, doubles or mislabels a URL. It can end in an endless recursion (a tree whose only part is itself is clustered again for ever; a constant hash makes this happen unless every structure is one cluster), and it can change which URLs are clustered together. A clash of the md5 digests of two structures, on the other hand, is not noticed and mislabels URLs.", "quantifier": "for all hash functions, all orders of the sets, all histories of loads, all min_cluster_num >= 2", "why_tests_cant": "hash() of a string is a random function of the process with 64 bits; no test hits a clash, and no test can range over all hash functions.", "anchors": ["src/os_urlpattern/pattern_cluster.py:651-668", "src/os_urlpattern/pattern_cluster.py:712-732", "src/os_urlpattern/pattern_maker.py:49-62", "src/os_urlpattern/parse_utils.py:554-577"]}
{"id": "C73", "title": "Renaming letters and digits renames the clusters and changes nothing else", "statement": "Take a function on characters that maps different characters to different ones, small letters to small letters, capitals to capitals, digits to digits and every sign to itself. If the paths and fragments of all loaded URLs are rewritten by it, make() yields the same clusters with the same structures, in which every piece is rewritten and in every pattern the literal characters are rewritten, while classes, lengths and plus signs stay as they are. The same holds for a different function at every position of every structure, queries included, whenever the accepted pieces of one list of loads are those of another, rewritten. So the clustering knows the characters only by their spaces and by being equal or not.", "quantifier": "for all such functions, one for every position of every structure, all lists of loads, all min_cluster_num >= 2, all digest and hash functions without collisions on the loaded URLs (they may differ between the two runs)", "why_tests_cant": "The statement relates the results on two inputs, for all inputs and all renamings; a test compares single results with single expected values.", "anchors": ["src/os_urlpattern/pattern_cluster.py:178-668", "src/os_urlpattern/pattern_maker.py:49-126", "src/os_urlpattern/parsed_piece_view.py"]}
{"id": "C74", "title": "A piece that is the same in all URLs is written out and has no other effect", "statement": "If the same piece is put into all URLs of a structure at the same position - before the last piece of the path, or after the path - then the clusters of make() stay the same: the same URLs are together, the patterns of all other pieces are the same, and the new piece is written out in every member and every pattern. In particular, if all URLs of a site are moved into a directory, every cluster and every pattern gets that directory in front. A new last piece of the path is different: it stops the piece before it from being cut at its dot.", "quantifier": "for all pieces, positions, lists of loads, min_cluster_num >= 2, all digest and hash functions without collisions on the loaded URLs (they may differ between the two runs)", "why_tests_cant": "The statement relates the results on two inputs for all inputs; it needs that no counter, level number or look-back through the levels takes notice of a constant level.", "anchors": ["src/os_urlpattern/pattern_cluster.py:178-668", "src/os_urlpattern/pattern_maker.py:49-126"]}
{"id": "C76", "title": "The matcher class for mixed patterns that the program does not use", "statement": "MixedPatternViewMatcher is defined, but the program uses MultiPatternViewMatcher for the mixed view. Filled with generated patterns of the mixed kind and asked about any piece, it raises nothing and returns exactly those of its patterns for which the piece, cut into its mixable parts and the runs of other signs, fits the pattern cut into blocks, where neighbouring literal runs of letters, digits and % make up one block. It finds every pattern that the class in use finds, and it finds every pattern made by writing each part of the piece either literally or as one class, in particular a1b2[\\-][0-9a-z]{4} for a1b2-x1y2, which the class in use does not.", "quantifier": "for all lists of generated patterns of the mixed kind, all pieces of known characters", "why_tests_cant": "No test and no code path of the program uses the class; the statement is about all patterns and all pieces.", "anchors": ["src/os_urlpattern/pattern_matcher.py:115-140", "src/os_urlpattern/pattern_matcher.py:69-77", "src/os_urlpattern/pattern_matcher.py:156-163", "src/os_urlpattern/parsed_piece_view.py:65-82"]}
{"id": "C77", "title": "make() is a generator: loads between two next calls, abandoned and parallel generators", "statement": "Any calls of load, make and next (of any of the generators) may be mixed. (1) They leave no trace: a new make() afterwards yields the clusters of the loads alone. (2) A generator takes the structures (digests) present at its first next in the order of their first load; the clusters of a structure are those of a fresh PatternMaker with exactly the URLs of this structure loaded before the first cluster of its turn. Left alone it yields the list of make() and then StopIteration for ever. (3) A generator that ends without RuntimeError has yielded every URL loaded before its first next in exactly one cluster, and only loaded URLs. (4) It raises RuntimeError (dictionary changed size), at the end of a turn, exactly if a URL of a new structure was loaded after its first next and before its end. (5) A yielded cluster need not be a snapshot: where a structure has only one cluster, it can be the tree of the sub-maker itself, and later loads appear in it (witness); where a structure has two or more clusters they are copies.", "quantifier": "for all sequences of load, make and next calls with any number of generators, all min_cluster_num >= 2; md5 and str.__hash__ do not collide on the strings hashed", "why_tests_cant": "The interleavings of loads and next calls of several generators cannot be enumerated, and all of them share mutable trees; the tests of the project consume make() at once.", "anchors": ["src/os_urlpattern/pattern_maker.py:24-27", "src/os_urlpattern/pattern_maker.py:49-62", "src/os_urlpattern/pattern_maker.py:97-126", "src/os_urlpattern/pattern_cluster.py:651-668", "src/os_urlpattern/pattern_cluster.py:712-732"]}
{"id": "C78", "title": "How many rounds the clustering takes and how many clusters there can be", "statement": "(1) The clusters of make() are the trees of the calls of process() that return False, in the order of the calls, and make() raises exactly when a call raises. The list of calls is complete: it starts with the tree of the sub-maker, the parts of every tree that is split are in it, and nothing else. (2) For a structure with N different URLs and k clusters: 1 <= k <= N; cluster() calls process() at most 2k-1 times; at most k cluster() generators run inside each other (with room for k of them on the stack there is no RecursionError); the trees given to process() have at most N*k leaves together. (3) Over all structures the number of calls plus the number of structures is at most twice the number of clusters. (4) The clusters with one URL plus min_cluster_num times the clusters with more are at most the number of different URLs loaded.", "quantifier": "(1) for all sub-makers, all min_cluster_num and all hash functions; (2)-(4) for all sequences of loads and all min_cluster_num >= 2; md5 and str.__hash__ do not collide on the strings hashed", "why_tests_cant": "The recursion cluster -> split_by_pattern -> cluster re-clusters every part with other counts; that it cannot degenerate (a part equal to the whole, a long chain) is a statement about all URL sets, and tests see only some of them.", "anchors": ["src/os_urlpattern/pattern_cluster.py:655-732", "src/os_urlpattern/pattern_maker.py:49-62", "src/os_urlpattern/pattern_maker.py:97-101"]}
{"id": "C79", "title": "For pieces of one character class the number of rounds does not depend on the number of URLs", "statement": "Let a structure contain a URL all of whose n pieces consist of characters of one class each (lower case, upper case, digits, or one sign; a piece may be empty). Then, however many URLs of this structure are loaded: at most 2n+2 cluster() generators run inside each other, so with room for 2n+2 of them on the stack there is no RecursionError and the clusters are those of make(); and the trees given to process() have at most N*(2n+2) leaves together, where N is the number of different URLs of the structure, so every URL is processed at most 2n+2 times on average.", "quantifier": "for all sequences of loads, all min_cluster_num >= 2, all structures with such a URL; md5 and str.__hash__ do not collide on the strings hashed", "why_tests_cant": "Re-clustering a part changes the counts that every stage decides on; that the patterns of a part can only become narrower (any length, fixed length, literal), hence that the recursion is shallow for every set of URLs, needs an argument over all sets.", "anchors": ["src/os_urlpattern/pattern_cluster.py:655-732", "src/os_urlpattern/pattern_cluster.py:212-365", "src/os_urlpattern/pattern_cluster.py:489-537", "src/os_urlpattern/pattern_maker.py:97-101"]}
{"id": "C80", "title": "The stack that clustering needs does not grow with the number of URLs", "statement": "Let no URL have more than D pieces and no piece more than K runs of characters of one class, and let no structure have more than C clusters. Then C + D + 3K + 7 frames (cluster generators and _process calls that run inside each other) are enough for make() to yield all its clusters without RecursionError, however many URLs were loaded; in particular the total number of clusters may be taken for C. If every piece of every URL consists of characters of one class, 3D + 12 frames are enough, however many URLs were loaded and however many clusters there are; pattern-make then prints all its records.", "quantifier": "for all sequences of loads, all min_cluster_num >= 2, all D, K, C and all stack limits of at least this size; md5 and str.__hash__ do not collide on the strings hashed", "why_tests_cant": "The clusterings of the parts of pieces are trees of unbounded width whose recursion depends on the counts of all URLs; a test sees the depth for one set of URLs, the bound is about all sets of any size.", "anchors": ["src/os_urlpattern/pattern_cluster.py:655-732", "src/os_urlpattern/pattern_cluster.py:366-487", "src/os_urlpattern/pattern_maker.py:49-62", "src/os_urlpattern/pattern_maker.py:97-101"]}
{"id": "C82", "title": "The stack that clustering needs, all frames counted", "statement": "Count every Python frame that is on the stack while make() clusters: PatternMaker.make, Maker._cluster, each nested cluster() generator, process, each nested ClusterProcessor.process, the four frames between a stage and the clustering inside it, the frames of dump_tree for reading a tree, and H frames for the helpers that do not lead back into these functions. With any number of frames left, make() yields all its clusters, or the first ones and then RecursionError. C + D + 3K + 17 + H frames are enough when no structure has more than C clusters, no URL more than D pieces and no piece more than K runs of one character class. When every piece consists of characters of one class, 3D + 22 + H frames are enough, however many URLs were loaded; so 900 free frames (Python allows 1000) are enough for URLs of up to 280 pieces, if H is at most 38. Conversely, when the frames of the two recursive functions alone exceed the stack (C64), make() ends with RecursionError after a part of what it would find otherwise.", "quantifier": "for all sequences of loads, all min_cluster_num >= 2, all H, D, K, C and all stack limits; md5 and str.__hash__ do not collide on the strings hashed", "why_tests_cant": "The depth of the stack is decided by the counts of all URLs at every level and in the clusterings inside the stages; a test shows that one set of URLs fits, not that all sets of any size do.", "anchors": ["src/os_urlpattern/pattern_cluster.py:609-633", "src/os_urlpattern/pattern_cluster.py:651-732", "src/os_urlpattern/pattern_cluster.py:371-384", "src/os_urlpattern/pattern_cluster.py:138-152", "src/os_urlpattern/pattern_maker.py:49-62", "src/os_urlpattern/pattern_maker.py:97-101", "src/os_urlpattern/utils.py:151-173"]}
{"id": "C81", "title": "From round to round patterns become narrower for pieces of one class, but not in general", "statement": "cluster() processes a tree, splits it by pattern and processes the parts again. Let a structure contain a URL all of whose pieces consist of characters of one class each. Then in each later round the pattern of a URL at each level is the one of the earlier round, or the piece itself, or [class]{k} ([class] for one character) where it was [class]+; and, if the piece contains no backslash, every string that the later pattern matches as a regular expression is matched by the earlier one. For pieces with several classes this is false: there are eight URLs for which, with min_cluster_num 3, the second piece of /ba/ab22b has the pattern [a-z]{2}[0-9]+[a-z]+ after the first round, the wider [0-9a-z]+ after the second, and ab[0-9]+[a-z]+ in the end.", "quantifier": "first part: for all sequences of loads, all min_cluster_num >= 2, all structures with such a URL, all pairs of rounds; md5 and str.__hash__ do not collide on the strings hashed. Second part: one explicit input", "why_tests_cant": "That no set of URLs makes a pattern wider in a later round is a claim about the counts of all stages for all sets; the counterexample for mixed pieces needs a particular distribution of eight URLs and shows in no output, since only the last round is printed.", "anchors": ["src/os_urlpattern/pattern_cluster.py:655-732", "src/os_urlpattern/pattern_cluster.py:212-487", "src/os_urlpattern/pattern_cluster.py:489-537"]}
{"id": "C83", "title": "Patterns are no wider than the URLs of the cluster require", "statement": "Take a cluster of make() and one level. The pieces of its URLs at this level can all be cut into the same number of groups of neighbouring runs, so that each place is written in one of three ways: the group itself, and then it is the same in all URLs; [class]{k}, and then all groups have this class and this length, and two of them differ; [class]+, and then all have this class and two of them have different lengths. Hence the pattern of a level is the piece itself exactly when all URLs of the cluster have this piece; and where a URL has a piece of one character class, the pattern is the piece if all are equal, [class]{k} ([class] for one character) if not all are equal but all have length k, and [class]+ if two lengths differ. (The written length of a run of backslashes is one larger than the run.)", "quantifier": "for all sequences of loads, all min_cluster_num >= 2, all clusters that make() yields, all levels; md5 and str.__hash__ do not collide on the strings hashed", "why_tests_cant": "That some input makes a pattern with + for equally long pieces, or a class where all URLs agree, would need an unlucky order of splitting and clustering; ruling it out means all sets of URLs, all stages and all rounds of splitting.", "anchors": ["src/os_urlpattern/pattern_cluster.py:212-487", "src/os_urlpattern/pattern_cluster.py:489-537", "src/os_urlpattern/pattern_cluster.py:655-732"]}
{"id": "C85", "title": "The work of the clustering is polynomial, nested clusterings included", "statement": "For every load and every min_cluster_num of at least 2, take one structure with N different URLs of D pieces and k clusters. make() itself calls process at most 2k-1 times for it, and the three multi stages inside these calls call it at most 6(D+1)Nk times more; all the trees given to process have together at most Nk + 3(D+1)N²k leaves. Here k is between 1 and N. Listing the calls changes neither the clusters nor the errors, and the calls made by make() itself are those of C78. No call is left out: the list consists of the calls of C78, each followed by the calls made inside it; and for every call of process there is a list of the trees it asks the nested clustering for, which determines its result (a nested clustering with the same answers for them gives the same result), has no superfluous entry (one that fails for any of them makes process fail), and gives the calls made inside, in order.", "quantifier": "all histories of loads, all min_cluster_num of at least 2, all hash functions without collisions on the strings that occur, all set orders; the completeness of the list and that it changes nothing also for all other states, values and nested clusterings", "why_tests_cant": "Every piece can go through three stages on every level, each stage clusters the parts of the pieces again with the same recursive function, and each round of the outer clustering repeats all of it; that this does not multiply up with the depth or the number of rounds is a statement about all inputs, and the inputs that come near the bound are not known.", "anchors": ["src/os_urlpattern/pattern_cluster.py:712-732", "src/os_urlpattern/pattern_cluster.py:694-709", "src/os_urlpattern/pattern_cluster.py:135-152", "src/os_urlpattern/pattern_cluster.py:366-407", "src/os_urlpattern/pattern_cluster.py:609-648"]}
{"id": "C75", "title": "A cluster by itself is clustered as before, but clusters are not monotone", "statement": "If exactly the URLs of one cluster of make() are loaded into a fresh PatternMaker with the same min_cluster_num, make() yields exactly one cluster: the same URLs with the same patterns. So a cluster never owes its pattern to URLs outside of it. On the other hand it is not true that URLs in one cluster stay together when a URL is added, nor that URLs that are together for a larger min_cluster_num are together for a smaller one, nor that the clusters for two values of min_cluster_num are nested in each other or apart (the clusters for 2 and 3 can cross), nor that taking away whole clusters leaves the others as they are (each with a witness of four URLs).", "quantifier": "for all lists of loads, all clusters, all min_cluster_num >= 2, all digest and hash functions without collisions on the loaded URLs (they may differ between the two runs)", "why_tests_cant": "The first part relates two runs for all inputs and needs that the repeated division of a tree stops only at trees that would not be divided again.", "anchors": ["src/os_urlpattern/pattern_cluster.py:651-732", "src/os_urlpattern/pattern_cluster.py:672-709", "src/os_urlpattern/pattern_maker.py:49-126"]}
{"id": "C84", "title": "The work of matching is linear in the size of the loaded patterns", "statement": "PatternMatcher.match(url), for an accepted URL and any history of loaded patterns (none of whose several-unit piece patterns has an empty class or a class mixing '/' with other characters), raises nothing and calls methods named match (PatternMatchNode.match and the match methods of the view matchers, those of the trees inside a MultiPatternViewMatcher included) at most 1 + 2*N times, where N is the number of characters of the different loaded pattern strings with the same structure and the same character classes per piece as the URL. So the number of alternatives per level does not multiply up beyond the patterns that were really loaded, loading a pattern again or loading patterns of another structure costs nothing. When all loaded patterns of that structure are literal, there are at most 2 calls for each piece of the URL, however many patterns are loaded. Conversely a URL with n pieces that some loaded pattern matches takes at least 2n calls, so exactly 2n when the patterns are literal. For the patterns that pattern-make prints for some URLs the first bound holds without conditions on the patterns: matching one of these URLs takes at most 1 + 2*N calls, where N is the number of characters printed for the clusters of its structure.", "quantifier": "for all load histories with such patterns, all accepted URLs, all md5 functions without collisions among the loaded patterns and the URL", "why_tests_cant": "The bound is over all sets of patterns and all URLs; a search that visits a node once for every way of reaching it shows up only for deep URLs and many overlapping patterns, and as slowness, not as a wrong result.", "anchors": ["src/os_urlpattern/pattern_matcher.py:69-77", "src/os_urlpattern/pattern_matcher.py:86-88", "src/os_urlpattern/pattern_matcher.py:97-99", "src/os_urlpattern/pattern_matcher.py:152-153", "src/os_urlpattern/pattern_matcher.py:195-223", "src/os_urlpattern/pattern_matcher.py:297-311"]}
{"id": "C86", "title": "Cached attributes and reused objects make no difference", "statement": "ParsedPiece, the six ParsedPieceView classes, PatternUnit, Pattern and MatchPattern compute attributes on demand and keep them, view objects share parsed pieces and the objects inside parsed_pieces, and one PieceParser is reset and used for many pieces. After any sequence of constructions, attribute reads, comparisons and hash computations on such objects, with exceptions caught in between, every answer equals the one computed afresh from what was passed to the constructors: piece, fuzzy_rule and piece_length of a parsed piece; view and the contents of parsed_pieces of a view; pattern_units, fuzzy_rule and the units' fuzzy_rule of a pattern; cmp_key and < of match patterns. Constructing a view raises exactly if its key cannot be computed, constructing a match pattern exactly if its units cannot be parsed, and then no object exists. No operation changes what an existing object stands for; asking earlier, later or repeatedly gives the same answer. parsed_pieces, once not empty, is the same list of objects ever after. == on parsed pieces is equality of the texts, on views (also of different classes) equality of the keys, and equal objects have equal hashes. A PieceParser in any state, also the one left by an exception, parses a piece as a new one does.", "quantifier": "for all sequences of operations on objects, all field values of the objects (not only those a parser makes), all pattern strings, all hash functions, all parser states and sequences of pieces", "why_tests_cant": "A stale or half filled cache shows only after particular orders of reads, aliasing between a piece and a view of it, or an exception at the right moment; tests use fresh objects and read each attribute once.", "anchors": ["src/os_urlpattern/parse_utils.py:415-481", "src/os_urlpattern/parse_utils.py:492-551", "src/os_urlpattern/parsed_piece_view.py:11-138", "src/os_urlpattern/pattern.py:13-100", "src/os_urlpattern/pattern_matcher.py:17-47"]}
{"id": "C87", "title": "All comparison operators of match results, and max", "statement": "functools.total_ordering derives >, <= and >= of PatternMatchNode and MatchPattern from < and ==. For the results of one match call: the operators raise nothing; x >= y is the opposite of x < y and x <= y the opposite of x > y; a result compares with itself as equal; if x < y then x <= y, not x > y, not x >= y, y > x, y >= x and not y <= x. If only patterns of the form that the program writes were loaded, the operators are those of one linear order: x > y is y < x, x >= y is y <= x, exactly one of x < y, x is y, x > y holds, <= is total, transitive and antisymmetric; max(results) is the node that sorted(results, reverse=True)[0] gives, and every other result is below it. Without that condition this is false: for the patterns /[a-z0-9]+ and /[0-9a-z]+ and the URL http://h/a1 each result is greater than the other, neither is less or equal, and max and sorted(.., reverse=True)[0] are different nodes. Between any two match patterns the operators raise nothing either, >= is the opposite of < and <= of >, and p < q for patterns of different texts (or made for the same position) is q > p and q >= p and excludes p > q, p >= q, q <= p. But patterns alone have no linear order: [a-z]+ > [0-9]+ and [0-9]+ > [a-z]+; and one text made a pattern once as last path piece and once not gives p == q with p < q and not q > p.", "quantifier": "for all sequences of loaded patterns without digest clashes, all URLs, all pairs and triples of results", "why_tests_cant": "The derived operators are right only if < is a total order that agrees with ==; that depends on all sets of loaded patterns, and a wrong order shows only for particular pairs.", "anchors": ["src/os_urlpattern/pattern_matcher.py:17-47", "src/os_urlpattern/pattern_matcher.py:181-261", "src/os_urlpattern/pattern.py:82-86", "README.rst:300-301"]}
{"id": "C88", "title": "Pattern files can be split and extended", "statement": "Let pattern-match be given pattern files whose lines are patterns of the form that the program writes. For every URL line the line written (without -a) with the patterns of two files together is the one written with one of the files alone; if one file gives N, it is the other file's line; it is N only if both give N. The same holds for any number of files. More patterns never make the answer worse: the pattern shown with both files has the same piece patterns as the one a single file shows, or is more special at the last piece at which they differ. With -a the texts written for both are those of the second file in the same order and those texts of the first that no text of the second is read like, and the patterns of the first file keep their order, too. For hand-written patterns this is false: with /[a-z]{2}/x the URL http://h/ab/x has a match, with /[a-z]{02}/y it has none, with both it has none.", "quantifier": "for all pattern files of generated patterns without digest clashes, all numbers of files, all URL lines that are read", "why_tests_cant": "Whether patterns disturb each other depends on all pairs of pattern sets and URLs; shared tree nodes, replaced view matcher entries and the order of results would show only for particular combinations.", "anchors": ["src/os_urlpattern/pattern_matcher.py:52-153", "src/os_urlpattern/pattern_matcher.py:197-261", "src/os_urlpattern/cmdline.py:180-261"]}
{"id": "C89", "title": "The cluster of a URL and the pattern printed for it", "statement": "Run pattern-make, then pattern-match without -a with the printed patterns on the same URLs. The line of every accepted URL shows (a) the pattern of the URL's own cluster, which then can be read back and satisfies the condition of C21; or (b) another printed pattern that matches the URL, and if the own pattern can be read back and satisfies that condition, the own pattern is more general than it at the last piece at which they differ; or (c) N, and then the own pattern cannot be read back or does not satisfy the condition. If the own pattern has no class that stands for several strings and can be read back, it is the one shown, whatever the other URLs are. In general the two commands can disagree: of the URLs /1a1/a, /a1a/a, /a11/a, /a1/aa the third is in the cluster /a[0-9]+/[a-z]+, but pattern-match shows /[0-9a-z]{3}/a for it; and of /.a-, /-aa., /a-., /..a-. the second is in the cluster /[\\-a-z]+[\\.], but pattern-match, even with -a, shows only /[\\-\\.a-z]+.", "quantifier": "for every list of input lines, every min_cluster_num >= 2; md5 and str.__hash__ do not collide on the strings hashed", "why_tests_cant": "Whether the two commands agree depends on the whole set of URLs, as every other cluster may print a pattern that is preferred; tests compare a few URLs with the patterns expected for them.", "anchors": ["src/os_urlpattern/cmdline.py:103-261", "src/os_urlpattern/pattern_maker.py:29-120", "src/os_urlpattern/pattern_matcher.py:52-153", "src/os_urlpattern/pattern_matcher.py:197-261"]}
{"id": "C90", "title": "URLs whose pieces use one character class each keep their cluster", "statement": "Run pattern-make, then pattern-match with the printed patterns on the same URLs. For an accepted URL each of whose pieces (path pieces, query values, fragment) is empty or uses characters of one class only (lower-case letters, upper-case letters, digits, or one sign repeated), no printed pattern matches the URL except that of the cluster pattern-make put it into, whatever the other URLs are. So both with and without -a the line of the URL shows exactly that pattern, once; only if one of its pieces consists of backslashes the line shows N. Hence the line of such a URL without backslashes shows the pattern of a cluster if and only if the URL is in that cluster: pattern-match divides these URLs exactly as pattern-make did. (For URLs with mixed pieces this fails, see C89.)", "quantifier": "for every list of input lines, every min_cluster_num >= 2; md5 and str.__hash__ do not collide on the strings hashed", "why_tests_cant": "That no other printed pattern matches is a statement about all clusters that any set of URLs can produce, after any number of rounds of reclustering; tests see a few sets of URLs.", "anchors": ["src/os_urlpattern/cmdline.py:103-261", "src/os_urlpattern/pattern_maker.py:29-120", "src/os_urlpattern/pattern_matcher.py:52-153", "src/os_urlpattern/pattern_cluster.py:651-732"]}
{"id": "C91", "title": "URLs whose pieces use one character class each are matched by lookup, and printed patterns do not overlap on them", "statement": "Take a URL, seen before or not, each of whose pieces (path pieces, query values, fragment) is empty or uses characters of one class only (lower-case letters, upper-case letters, digits, or one sign repeated). For each piece at most three pattern texts can match it: the piece as it is, its class with the number of characters, and its class with a plus (the first only for letters and digits; the empty piece has itself only, a piece of backslashes nothing). What pattern-match prints for the URL against a file of generated patterns is found by looking up the at most 3^n different pattern strings put together from these texts in the file, without building a tree: with -a those that are in the file, ordered by the first piece first; without -a the first one when the last pieces decide first; N if none is in the file. After pattern-make, for every such URL, also one that was not loaded, at most one of these strings is among the printed patterns, so at most one printed pattern matches and the line is the same with and without -a. (For mixed pieces printed patterns can overlap, see C89.)", "quantifier": "for every pattern file of generated patterns in the form pack writes, every such URL line; for every list of loaded lines and min_cluster_num >= 2; md5 and str.__hash__ do not collide on the strings hashed", "why_tests_cant": "That two patterns printed for different clusters never match a common URL of this kind is a statement about all URLs, loaded or not, and about all sets of clusters that reclustering can produce; tests only try the URLs that were loaded.", "anchors": ["src/os_urlpattern/cmdline.py:180-239", "src/os_urlpattern/pattern_matcher.py:52-163", "src/os_urlpattern/pattern_matcher.py:182-223", "src/os_urlpattern/pattern_maker.py:29-120", "src/os_urlpattern/pattern_cluster.py:651-732"]}
