{
 "claims": [
  {
   "property": "C01",
   "status": "proved",
   "theorems": [
    "OsUrl.C01_presence",
    "OsUrl.C01_urlparse_error",
    "OsUrl.C01_domain",
    "OsUrl.C01_outside"
   ],
   "note": "Domain: urlparse accepts the URL, it is non-empty and does not start with '#'. C01_outside gives the behaviour at the excluded points (IndexError, spurious empty query)."
  },
  {
   "property": "C02",
   "status": "proved",
   "theorems": [
    "OsUrl.C02_rejects",
    "OsUrl.C02_pairs",
    "OsUrl.C02_lossless",
    "OsUrl.C02_empty"
   ],
   "note": ""
  },
  {
   "property": "C03",
   "status": "proved",
   "theorems": [
    "OsUrl.C03_pieces",
    "OsUrl.C03_no_slash",
    "OsUrl.C03_rejects",
    "OsUrl.C03_rejects_any",
    "OsUrl.C03_analyze_url"
   ],
   "note": ""
  },
  {
   "property": "C04",
   "status": "proved",
   "theorems": [
    "OsUrl.C04_exact",
    "OsUrl.C04_injective",
    "OsUrl.C04_form",
    "OsUrl.C04_unknown_collision"
   ],
   "note": "Exactness against the regular expression semantics of Spec/Regex; C04_unknown_collision is the stated failure outside the known characters."
  },
  {
   "property": "C05",
   "status": "proved",
   "theorems": [
    "OsUrl.C05_rejects",
    "OsUrl.C05_runs_exist",
    "OsUrl.C05_runs"
   ],
   "note": ""
  },
  {
   "property": "C06",
   "status": "proved",
   "theorems": [
    "OsUrl.C06_piece_length",
    "OsUrl.C06_with_backslash",
    "OsUrl.C06_backslash_wrong"
   ],
   "note": "C06_backslash_wrong is the counterexample for pieces with a backslash; C06_with_backslash gives the value in general."
  },
  {
   "property": "C07",
   "status": "proved",
   "theorems": [
    "OsUrl.C07_fuzzy_rule"
   ],
   "note": ""
  },
  {
   "property": "C08",
   "status": "proved",
   "theorems": [
    "OsUrl.C08_specify_zero",
    "OsUrl.C08_roundtrip"
   ],
   "note": ""
  },
  {
   "property": "C09",
   "status": "proved",
   "theorems": [
    "OsUrl.C09_lossless",
    "OsUrl.C09_stable",
    "OsUrl.C09_errors",
    "OsUrl.C09_shape"
   ],
   "note": ""
  },
  {
   "property": "C10",
   "status": "proved",
   "theorems": [
    "OsUrl.C10_roundtrip",
    "OsUrl.C10_pieces",
    "OsUrl.C10_fuzzy"
   ],
   "note": ""
  },
  {
   "property": "C11",
   "status": "proved",
   "theorems": [
    "OsUrl.C11_text",
    "OsUrl.C11_digest",
    "OsUrl.C11_spaces"
   ],
   "note": ""
  },
  {
   "property": "C13",
   "status": "proved",
   "theorems": [
    "OsUrl.C13_mix",
    "OsUrl.C13_single_rule",
    "OsUrl.C13_concat",
    "OsUrl.C13_grouping_unique"
   ],
   "note": ""
  },
  {
   "property": "C14",
   "status": "proved",
   "theorems": [
    "OsUrl.C14_multi",
    "OsUrl.C14_fuzzy",
    "OsUrl.C14_mixed",
    "OsUrl.C14_lastDot",
    "OsUrl.C14_views_keep_text"
   ],
   "note": ""
  },
  {
   "property": "C15",
   "status": "proved",
   "theorems": [
    "OsUrl.C15_structure",
    "OsUrl.C15_spaces",
    "OsUrl.C15_meta"
   ],
   "note": "md5 collisions excluded by NoClash on the texts involved. C15_spaces restates it in character spaces; C15_meta gives the meta carried by a result."
  },
  {
   "property": "C18",
   "status": "proved",
   "theorems": [
    "OsUrl.C18_order",
    "OsUrl.C18_perm",
    "OsUrl.C18_noncanonical_false"
   ],
   "note": "Histories of generated patterns, no md5 collision among the texts involved. C18_order: the sets of returned patterns are equal; C18_perm: also the multiplicities. C18_noncanonical_false: fails for hand-written {02}."
  },
  {
   "property": "C19",
   "status": "proved",
   "theorems": [
    "OsUrl.C19_loads",
    "OsUrl.C19_isNew",
    "OsUrl.C19_again"
   ],
   "note": "md5 collisions excluded by NoClash on the texts involved. C19_again: a repeated load changes no match result."
  },
  {
   "property": "C20",
   "status": "proved",
   "theorems": [
    "OsUrl.C20_strict",
    "OsUrl.C20_total",
    "OsUrl.C20_incomparable"
   ],
   "note": "C20_strict for every history without md5 collision; C20_total for histories of generated patterns; C20_incomparable is the counterexample for other patterns."
  },
  {
   "property": "C22",
   "status": "proved",
   "theorems": [
    "OsUrl.C22_isNew",
    "OsUrl.C22_count",
    "OsUrl.C22_makers"
   ],
   "note": "Assumes that md5 does not collide on the packed fuzzy rules of the accepted URLs (NoCollision)."
  },
  {
   "property": "C23",
   "status": "proved",
   "theorems": [
    "OsUrl.C23_metas"
   ],
   "note": "Assumes that md5 does not collide on the packed fuzzy rules of the accepted URLs (NoCollision)."
  },
  {
   "property": "C24",
   "status": "proved",
   "theorems": [
    "OsUrl.C24_partition"
   ],
   "note": "For every history and min_cluster_num >= 2 the paths of all clusters are pairwise different and are exactly the accepted URLs (structure and pieces); no cluster is empty, its count is its number of paths, every leaf counts 1 and carries exactly the metas loaded with its URL. Assumes that md5 does not collide on the packed fuzzy rules of the accepted URLs (NoCollision) and that Python's str hash does not collide on the finitely many pattern texts that can occur for their pieces (NoHashClash); both hold for injective functions."
  },
  {
   "property": "C25",
   "status": "proved",
   "theorems": [
    "OsUrl.C25_uniform"
   ],
   "note": "All paths of a cluster have the same pattern list, and that list packed is what PatternFormatter prints. Assumes that md5 does not collide on the packed fuzzy rules of the accepted URLs (NoCollision) and that Python's str hash does not collide on the finitely many pattern texts that can occur for their pieces (NoHashClash); both hold for injective functions."
  },
  {
   "property": "C27",
   "status": "proved",
   "theorems": [
    "OsUrl.C27_size"
   ],
   "note": "Every cluster is one path whose patterns are its own pieces, or has at least min_cluster_num paths. Assumes that md5 does not collide on the packed fuzzy rules of the accepted URLs (NoCollision) and that Python's str hash does not collide on the finitely many pattern texts that can occur for their pieces (NoHashClash); both hold for injective functions."
  },
  {
   "property": "C28",
   "status": "proved",
   "theorems": [
    "OsUrl.C28_total"
   ],
   "note": "make() returns for every history and min_cluster_num >= 2. Recursion depth is bounded in the model by the number of leaves plus one (running out is an error), so this is also termination of the re-splitting. Assumes that md5 does not collide on the packed fuzzy rules of the accepted URLs (NoCollision) and that Python's str hash does not collide on the finitely many pattern texts that can occur for their pieces (NoHashClash); both hold for injective functions."
  },
  {
   "property": "C29",
   "status": "proved",
   "theorems": [
    "OsUrl.C29_one",
    "OsUrl.C29_zero"
   ],
   "note": "For every history of loads under which distinct digests do not collide, make() with min_cluster_num = 1 raises AttributeError (look-back at the previous level of the root) and with any min_cluster_num <= 0 raises UnboundLocalError (a tree built from no pieces), unless nothing was loaded. Python's exceptions are the constructors of PyErr."
  },
  {
   "property": "C30",
   "status": "proved",
   "theorems": [
    "OsUrl.C30_order"
   ],
   "note": "Stronger than asked: the clusters (structure, piece sequences, patterns) depend only on the set of loaded URLs; order, repetitions and metas do not matter. Stated as two inclusions of the cluster lists up to the order of the paths. Assumes NoCollision (md5) and NoHashClash (str hash)."
  },
  {
   "property": "C31",
   "status": "proved",
   "theorems": [
    "OsUrl.C31_calls",
    "OsUrl.C31_again"
   ],
   "note": "Modelled: what make() leaves behind in the sub-makers (patterns written into their trees, `PatternMakerSt.after`). C31_again: the second make() gives the clusters of the first. C31_calls: in any sequence of load and make calls, the make calls are invisible; the final result depends on the loads only. Hash hypothesis as in C24."
  },
  {
   "property": "C32",
   "status": "partial",
   "theorems": [
    "OsUrl.C32_false",
    "OsUrl.C32_structure",
    "OsUrl.C32_one_space_partial"
   ],
   "note": "C32_false: the claim fails, witness of twenty URLs (two clusters printed /[0-9a-z]{2}/x). C32_structure: what the same pattern tells for every history. C32_one_space_partial: the claim holds for clusters with a URL of one character space per piece; missing: nothing more is true of mixed pieces without further hypotheses."
  },
  {
   "property": "C33",
   "status": "proved",
   "theorems": [
    "OsUrl.C33_combined"
   ],
   "note": "C33_combined: for all inputs with mcn >= 2, make(combine=True) gives one tree per sub-maker satisfying `Combined` (root count, sums everywhere, each pattern path once, leaf counts). Hypotheses: md5 injective on the schema ids of the accepted URLs, hash() injective on the strings it is applied to."
  },
  {
   "property": "C34",
   "status": "proved",
   "theorems": [
    "OsUrl.C34_lines",
    "OsUrl.C34_all"
   ],
   "note": "CLUSTER and INLINE output line by line for every cluster: one line per path and meta, metas exactly those loaded with the URLs of the cluster; every loaded meta is printed under the pattern of its URL's cluster. Assumes that md5 does not collide on the packed fuzzy rules of the accepted URLs (NoCollision) and that Python's str hash does not collide on the finitely many pattern texts that can occur for their pieces (NoHashClash); both hold for injective functions."
  },
  {
   "property": "C35",
   "status": "proved",
   "theorems": [
    "OsUrl.C35_cluster",
    "OsUrl.C35_record",
    "OsUrl.C35_injective",
    "OsUrl.C35_line"
   ],
   "note": "Every record is one printable ASCII line that a separately written RFC 8259 decoder reads as exactly the members ptn (packed pattern, any characters) and cnt; for clusters of make() the pattern is that of every path and cnt is the number of its pairwise different paths. Assumes that md5 does not collide on the packed fuzzy rules of the accepted URLs (NoCollision) and that Python's str hash does not collide on the finitely many pattern texts that can occur for their pieces (NoHashClash); both hold for injective functions."
  },
  {
   "property": "C36",
   "status": "proved",
   "theorems": [
    "OsUrl.C36_lines",
    "OsUrl.C36_patterns",
    "OsUrl.C36_strip",
    "OsUrl.C36_utf8"
   ],
   "note": "md5 collisions among the loaded patterns excluded. UTF-8 enters through four properties (Utf8), proved for strict UTF-8 in C36_utf8."
  },
  {
   "property": "C37",
   "status": "proved",
   "theorems": [
    "OsUrl.C37_sum",
    "OsUrl.C37_valid",
    "OsUrl.C37_uniq",
    "OsUrl.C37_paths"
   ],
   "note": "C37_paths assumes that md5 does not collide (NoCollision); the others assume nothing."
  },
  {
   "property": "C38",
   "status": "proved",
   "theorems": [
    "OsUrl.C38_emits_at_multiples",
    "OsUrl.C38_records",
    "OsUrl.C38_count"
   ],
   "note": ""
  },
  {
   "property": "C39",
   "status": "proved",
   "theorems": [
    "OsUrl.C39_small",
    "OsUrl.C39_one_part",
    "OsUrl.C39_both",
    "OsUrl.C39_symm",
    "OsUrl.C39_exact"
   ],
   "note": ""
  },
  {
   "property": "C40",
   "status": "proved",
   "theorems": [
    "OsUrl.C40_paths",
    "OsUrl.C40_once",
    "OsUrl.C40_counts"
   ],
   "note": ""
  },
  {
   "property": "C41",
   "status": "proved",
   "theorems": [
    "OsUrl.C41_order"
   ],
   "note": "Kinds and unit ranks are defined on the grammar of generated patterns (Spec/Order.lean). md5 collisions excluded by hypothesis (NoClash)."
  },
  {
   "property": "C42",
   "status": "proved",
   "theorems": [
    "OsUrl.C42_best"
   ],
   "note": "CPython's sorted is modelled by insertion; on generated patterns the order is total (C20_total), so every correct sort agrees. md5 collisions excluded by hypothesis (NoClash)."
  },
  {
   "property": "C43",
   "status": "proved",
   "theorems": [
    "OsUrl.C43_once"
   ],
   "note": "md5 collisions excluded by hypothesis (NoClash)."
  },
  {
   "property": "C44",
   "status": "proved",
   "theorems": [
    "OsUrl.C44_complete"
   ],
   "note": "Shape of a piece specified in Spec/Sel (Matches). md5 collisions excluded by hypothesis."
  },
  {
   "property": "C45",
   "status": "proved",
   "theorems": [
    "OsUrl.C45_parse_url",
    "OsUrl.C45_analyze_url",
    "OsUrl.C45_host"
   ],
   "note": "urllib.parse.urlparse is modelled from the standard library, see DESIGN.md."
  },
  {
   "property": "C48",
   "status": "proved",
   "theorems": [
    "OsUrl.C48_ete"
   ],
   "note": "C48_ete over the model of ETEFormatter.format/get_ete_tree up to the drawing by ete3 (get_ascii is not modelled); uses C33_combined and reading back of printed patterns."
  },
  {
   "property": "C49",
   "status": "proved",
   "theorems": [
    "OsUrl.C49_closed"
   ],
   "note": "Spec/Clustering.lean is the closed form; Proofs/Closed1-5 relate it to the level functions of the clustering proofs."
  },
  {
   "property": "C50",
   "status": "proved",
   "theorems": [
    "OsUrl.C50_output",
    "OsUrl.C50_inline",
    "OsUrl.C50_order"
   ],
   "note": "C50_output: makeRun equals the rendering of a Spec.Listing, defined from the URLs alone by counting (Spec/Clustering, Spec/Command). C50_inline: the inline output is a permutation of (pattern, URL) over the distinct accepted URLs. C50_order: inputs with the same set of URLs give the same blocks up to order. urlInfo (which URLs are accepted and their pieces) is analyze_url plus the known-character test, characterised in C45 and C05."
  },
  {
   "property": "C51",
   "status": "proved",
   "theorems": [
    "OsUrl.C51_few",
    "OsUrl.C51_table",
    "OsUrl.C51_local"
   ],
   "note": "Proofs/Table, Props/C51: derived from C50_output (the closed form of the output). Spec/Table says which columns have one text."
  },
  {
   "property": "C52",
   "status": "proved",
   "theorems": [
    "OsUrl.C52_order",
    "OsUrl.C52_lists",
    "OsUrl.C52_command",
    "OsUrl.C52_alike"
   ],
   "note": "C52_order: the list is ordered (Spec/Listed.lean); C52_lists: same patterns loaded, same list; C52_command: bytes written by matchRun; C52_alike: two lines read as the same pattern make the output depend on the order."
  },
  {
   "property": "C53",
   "status": "proved",
   "theorems": [
    "OsUrl.C53_pretty",
    "OsUrl.C53_match",
    "OsUrl.C53_valid",
    "OsUrl.C53_files",
    "OsUrl.C53_make",
    "OsUrl.C53_stats"
   ],
   "note": "C53_pretty (the text of any counter), C53_match, C53_valid, C53_make, C53_stats (agreement with C37 for any digest). Insertion ordered dicts (Python 3.7+) are assumed."
  },
  {
   "property": "C55",
   "status": "proved",
   "theorems": [
    "OsUrl.C55_make",
    "OsUrl.C55_output"
   ],
   "note": "C55_make: equality of the whole result of make(); C55_output: same blocks in the same order, URLs of a block permuted, equal output for PATTERN, JSON and NULL. Hash functions must not clash on the rows; a set's order is a function of its content in insertion order."
  },
  {
   "property": "C57",
   "status": "proved",
   "theorems": [
    "OsUrl.C57_parse",
    "OsUrl.C57_maker_load",
    "OsUrl.C57_matcher_load",
    "OsUrl.C57_digest",
    "OsUrl.C57_formatters",
    "OsUrl.C57_names",
    "OsUrl.C57_upper",
    "OsUrl.C57_records"
   ],
   "note": "C57_parse, C57_maker_load, C57_matcher_load (statement-by-statement model against the functional one), C57_digest, C57_formatters, C57_names. upper() is modelled for ASCII letters only."
  },
  {
   "property": "C59",
   "status": "proved",
   "theorems": [
    "OsUrl.C59_nodes",
    "OsUrl.C59_only",
    "OsUrl.C59_count"
   ],
   "note": "C59_nodes: prefixes, patterns and counts; C59_only: no other trees or nodes; C59_count: results of match. NoClash: no MD5 collision among the hashed texts."
  },
  {
   "property": "C60",
   "status": "proved",
   "theorems": [
    "OsUrl.C60_exact",
    "OsUrl.C60_lost"
   ],
   "note": "Exact characterisation of match for hand written patterns; C60_lost gives concrete histories where a pattern is lost. Hypotheses: tame patterns (see C16_wild_false for why) and no MD5 collision."
  },
  {
   "property": "C61",
   "status": "proved",
   "theorems": [
    "OsUrl.C61_bag",
    "OsUrl.C61_bucket",
    "OsUrl.C61_bags",
    "OsUrl.C61_model",
    "OsUrl.C61_children",
    "OsUrl.C61_iter_all",
    "OsUrl.C61_pick",
    "OsUrl.C61_pick_false",
    "OsUrl.C61_twice_false",
    "OsUrl.C61_stale_false"
   ],
   "note": "The bags of the clustering model have no counters; C61_model shows that they agree with the bags that keep them as fields. C61_twice_false, C61_stale_false and C61_pick_false are the witnesses for the conditions."
  },
  {
   "property": "C62",
   "status": "proved",
   "theorems": [
    "OsUrl.C62_foreign",
    "OsUrl.C62_json",
    "OsUrl.C62_inline",
    "OsUrl.C62_loads_false"
   ],
   "note": "StrictUtf8 is the only assumption on the codec; collisions of md5 and of hash are excluded by NoCollision/NoHashClash/NoClash. C62_loads_false shows that an INLINE line can be loaded."
  },
  {
   "property": "C63",
   "status": "proved",
   "theorems": [
    "OsUrl.C63_format",
    "OsUrl.C63_raises",
    "OsUrl.C63_record"
   ],
   "note": "Exact arithmetic instead of doubles; see Model/Memory.lean for the range in which they agree."
  },
  {
   "property": "C64",
   "status": "proved",
   "theorems": [
    "OsUrl.C64_make",
    "OsUrl.C64_command",
    "OsUrl.C64_enough",
    "OsUrl.C64_enough_command",
    "OsUrl.C64_dump"
   ],
   "note": "Model/Limit is the clustering with a bound on nested calls and with generators that keep what was yielded before an exception. Only the calls of cluster and ClusterProcessor.process (and of _dump) are counted, so Python gives up somewhat earlier."
  },
  {
   "property": "C46",
   "status": "proved",
   "theorems": [
    "OsUrl.C46_cluster",
    "OsUrl.C46_match"
   ],
   "note": "Regular-expression matching is a relation on a parsed expression (Spec/Regex). Hypotheses: no md5 collision, no hash clash; for match: patterns loaded are tame, without empty class. The patterns of a result are ASCII (see C16_digits_false for quantifiers in other digits)."
  },
  {
   "property": "C66",
   "status": "proved",
   "theorems": [
    "OsUrl.C66_digits",
    "OsUrl.C66_scripts",
    "OsUrl.C66_digit",
    "OsUrl.C66_pattern",
    "OsUrl.C66_url",
    "OsUrl.C66_load_url"
   ],
   "note": "C66_digits: the digits (Spec/Digits, written as characters); C66_scripts: numbers in any digits; C66_digit: odd digits. C66_pattern, C66_url, C66_load_url: exceptions. The tables are those of Unicode 14.0.0 (CPython 3.11); the limit of 4300 digits of int() in later 3.11 releases is left out, as is running out of stack or memory."
  },
  {
   "property": "C67",
   "status": "proved",
   "theorems": [
    "OsUrl.C67_make",
    "OsUrl.C67_invalid",
    "OsUrl.C67_error",
    "OsUrl.C67_clusters",
    "OsUrl.C67_ete",
    "OsUrl.C67_match_load",
    "OsUrl.C67_match",
    "OsUrl.C67_answer",
    "OsUrl.C67_match_level",
    "OsUrl.C67_match_except",
    "OsUrl.C67_kinds",
    "OsUrl.C67_shown"
   ],
   "note": "Speed, seconds and str(e) are left out of the records. If make() raises, nothing is said about the records of the clusters before."
  },
  {
   "property": "C17",
   "status": "proved",
   "theorems": [
    "OsUrl.C17_simple",
    "OsUrl.C17_noncanonical_false"
   ],
   "note": "Histories of generated patterns (grammar in Spec/Gen). C17_noncanonical_false: fails for hand-written {02} and {1}. md5 collisions excluded by hypothesis (NoClash)."
  },
  {
   "property": "C54",
   "status": "proved",
   "theorems": [
    "OsUrl.C54_line",
    "OsUrl.C54_unique",
    "OsUrl.C54_run"
   ],
   "note": "C54_line (closed form), C54_unique (the list is determined by members and order), C54_run (whole output, error lines). Uses C20, C41, C42, C44, C52."
  },
  {
   "property": "C12",
   "status": "proved",
   "theorems": [
    "OsUrl.C12_literal",
    "OsUrl.C12_backslash_false",
    "OsUrl.C12_backslash"
   ],
   "note": "Hypotheses: no md5 collision among the texts involved, for C12_literal no backslash in the URL, earlier loads tame ('/' alone in its class in patterns of several units). C12_backslash: with a backslash the load is always rejected; C12_backslash_false is a concrete case."
  },
  {
   "property": "C16",
   "status": "proved",
   "theorems": [
    "OsUrl.C16_regex",
    "OsUrl.C16_backslash_false",
    "OsUrl.C16_wild_false",
    "OsUrl.C16_empty_false",
    "OsUrl.C16_digits_false"
   ],
   "note": "Hypotheses: no md5 collision among the texts involved (NoClash), no backslash in the piece, no loaded pattern with an empty class, in patterns of several units '/' stands alone in its class (AllTame), and the pattern text is ASCII. C16_backslash_false, C16_wild_false, C16_empty_false and C16_digits_false show that each of the last four is needed."
  },
  {
   "property": "C21",
   "status": "proved",
   "theorems": [
    "OsUrl.C21_false",
    "OsUrl.C21_exact",
    "OsUrl.C21_plain"
   ],
   "note": "The naive self-matching claim is refuted with five concrete URL sets (C21_false). C21_exact characterises, for all URL sets and any set of loaded printed patterns, exactly when a cluster's pattern is returned for the cluster's own URLs. Assumes no md5 collision and no hash clash."
  },
  {
   "property": "C26",
   "status": "proved",
   "theorems": [
    "OsUrl.C26_regex",
    "OsUrl.C26_backslash"
   ],
   "note": "Every raw piece without backslash full-matches (independent regex semantics in Spec/Regex) the pattern of its cluster at its position. C26_backslash is the witness that the restriction is needed: a\\b is put under [\\\\a-z]{4}. Assumes that md5 does not collide on the packed fuzzy rules of the accepted URLs (NoCollision) and that Python's str hash does not collide on the finitely many pattern texts that can occur for their pieces (NoHashClash); both hold for injective functions."
  },
  {
   "property": "C47",
   "status": "proved",
   "theorems": [
    "OsUrl.C47_load",
    "OsUrl.C47_match",
    "OsUrl.C47_utf8"
   ],
   "note": "Encoding is a parameter with stated properties (StrictUtf8); C47_utf8 instantiates it with UTF-8. No hypothesis on digests of the printed lines: they are those of accepted URLs."
  },
  {
   "property": "C56",
   "status": "proved",
   "theorems": [
    "OsUrl.C56_engine",
    "OsUrl.C56_generated",
    "OsUrl.C56_literal",
    "OsUrl.C56_match",
    "OsUrl.C56_make",
    "OsUrl.C56_eq"
   ],
   "note": "C56_engine: backtracking engine = declarative ReMatch up to a final newline; C56_generated: closed form of the language; C56_literal; C56_match and C56_make compose with C16 and C26. Python's re is trusted to behave like the engine of Model/Re on the fragment."
  },
  {
   "property": "C58",
   "status": "proved",
   "theorems": [
    "OsUrl.C58_lines",
    "OsUrl.C58_cat",
    "OsUrl.C58_make",
    "OsUrl.C58_match",
    "OsUrl.C58_file",
    "OsUrl.C58_formats"
   ],
   "note": "Bytes in, bytes out; C58_formats assumes that the queries are no pattern strings and clash with no pattern"
  },
  {
   "property": "C65",
   "status": "proved",
   "theorems": [
    "OsUrl.C65_refines",
    "OsUrl.C65_enough",
    "OsUrl.C65_deep",
    "OsUrl.C65_line",
    "OsUrl.C65_run"
   ],
   "note": "Model/MatchLimit is the matcher with a bound on nested calls; calls of constructors and of leaf() are not counted. C65_run compares the whole output line by line."
  },
  {
   "property": "C68",
   "status": "proved",
   "theorems": [
    "OsUrl.C68_strip",
    "OsUrl.C68_rstrip",
    "OsUrl.C68_lines",
    "OsUrl.C68_int",
    "OsUrl.C68_interpolation",
    "OsUrl.C68_file",
    "OsUrl.C68_value",
    "OsUrl.C68_plain",
    "OsUrl.C68_any",
    "OsUrl.C68_default",
    "OsUrl.C68_command",
    "OsUrl.C68_textLines",
    "OsUrl.C68_broken"
   ],
   "note": "C68_file and C68_value for files of the described form, C68_plain the usual cases, C68_any, C68_broken and C68_textLines for any text, C68_default without -c; C68_int and C68_interpolation characterise int() and %(name)s; C68_strip, C68_rstrip and C68_lines say what the blanks are; C68_command for the whole command. configparser (CPython 3.11) is part of the model. The limit of 4300 digits of int() is left out."
  },
  {
   "property": "C69",
   "status": "proved",
   "theorems": [
    "OsUrl.C69_unique",
    "OsUrl.C69_line",
    "OsUrl.C69_stop",
    "OsUrl.C69_required",
    "OsUrl.C69_only",
    "OsUrl.C69_dashes",
    "OsUrl.C69_make",
    "OsUrl.C69_ete",
    "OsUrl.C69_match",
    "OsUrl.C69_exit",
    "OsUrl.C69_stdin"
   ],
   "note": "Model/Args has the part of argparse (CPython 3.11) that the two parsers use; Spec/Args has the grammar. C69_line, C69_stop, C69_required, C69_only and C69_unique compare them; C69_make, C69_ete, C69_match and C69_stdin are about the whole programs; C69_dashes and C69_exit are consequences."
  },
  {
   "property": "C70",
   "status": "proved",
   "theorems": [
    "OsUrl.C70_make",
    "OsUrl.C70_order",
    "OsUrl.C70_pipe",
    "OsUrl.C70_default"
   ],
   "note": "C70_make (closed form of the output), C70_order (input order), C70_pipe (both programs joined by a pipe), C70_default (no configuration file). Runs of the programs as processes (pipe, buffering) are not modelled: the output of the first is the standard input of the second."
  },
  {
   "property": "C71",
   "status": "proved",
   "theorems": [
    "OsUrl.C71_removed",
    "OsUrl.C71_same",
    "OsUrl.C71_pattern",
    "OsUrl.C71_cleaned",
    "OsUrl.C71_lost",
    "OsUrl.C71_make",
    "OsUrl.C71_load",
    "OsUrl.C71_match"
   ],
   "note": "The rejected hosts are an arbitrary predicate: _check_bracketed_host and _checknetloc are not modelled further. C71_lost is the negative part."
  },
  {
   "property": "C72",
   "status": "proved",
   "theorems": [
    "OsUrl.C72_any",
    "OsUrl.C72_constant",
    "OsUrl.C72_error",
    "OsUrl.C72_differs",
    "OsUrl.C72_digest",
    "OsUrl.C72_endless"
   ],
   "note": "For any Runtime; only the digests are assumed not to collide (C72_digest shows what happens otherwise). Witnesses: RecursionError with a constant hash, other clusters with the parity of the length. RecursionError here is running out of a recursion depth of one more than the number of leaves."
  },
  {
   "property": "C73",
   "status": "proved",
   "theorems": [
    "OsUrl.C73_rename",
    "OsUrl.C73_urls"
   ],
   "note": "C73_rename: any position-wise renaming between two lists of loads; C73_urls: absolute URLs by their parts (AbsUrl.OK) with path and fragment renamed. The order of the clusters and of the members is not claimed. Examples show that a function that joins two letters, or makes one a capital, changes the clusters."
  },
  {
   "property": "C74",
   "status": "proved",
   "theorems": [
    "OsUrl.C74_constant",
    "OsUrl.C74_below"
   ],
   "note": "C74_constant: one structure, any position but the last of the path; C74_below: absolute URLs by their parts with one more segment in front. The order of clusters and members is not claimed. The exception for a new last path piece is shown by an example."
  },
  {
   "property": "C76",
   "status": "proved",
   "theorems": [
    "OsUrl.C76_match",
    "OsUrl.C76_more",
    "OsUrl.C76_stage"
   ],
   "note": "Exact characterisation over generated patterns; comparison with the class in use (C76_more) and the mixed stage (C76_stage)."
  },
  {
   "property": "C77",
   "status": "proved",
   "theorems": [
    "OsUrl.C77_restart",
    "OsUrl.C77_turns",
    "OsUrl.C77_complete",
    "OsUrl.C77_changed",
    "OsUrl.C77_changes",
    "OsUrl.C77_alone",
    "OsUrl.C77_copies",
    "OsUrl.C77_own",
    "OsUrl.C77_snapshot"
   ],
   "note": "C77_restart (1), C77_turns and C77_alone (2), C77_complete (3), C77_changed and C77_changes (4), C77_snapshot refutes snapshots, C77_copies and C77_own say what holds instead (5). The generator is modelled as a state (size of the dict, position, clusters still to come of the current sub-maker); the clusters of a sub-maker are computed when it is reached, which is sound because everything after that works on copies."
  },
  {
   "property": "C78",
   "status": "proved",
   "theorems": [
    "OsUrl.C78_yields",
    "OsUrl.C78_listed",
    "OsUrl.C78_calls",
    "OsUrl.C78_nesting",
    "OsUrl.C78_total",
    "OsUrl.C78_size"
   ],
   "note": "Instrumented copy of cluster() that lists the calls of process(); C78_yields proves that the clusters are read off the list and C78_listed that the list is complete, for every state, min_cluster_num and runtime. Bounds per structure (C78_calls), nesting as recursion budget of the uninstrumented cluster (C78_nesting), over all structures (C78_total) and for the number of clusters (C78_size) under NoCollision and NoHashClash; the example reaches 2k-1 calls and k nested generators. The calls made inside process() by the multi stages are not counted."
  },
  {
   "property": "C79",
   "status": "proved",
   "theorems": [
    "OsUrl.C79_rounds",
    "OsUrl.C79_nesting"
   ],
   "note": "C79_rounds (depth and leaves of the calls of process), C79_nesting (recursion budget of cluster). The calls of cluster by the multi stages do not occur for such pieces. For pieces with several classes only the bounds of C78 are proved."
  },
  {
   "property": "C80",
   "status": "proved",
   "theorems": [
    "OsUrl.C80_clusters",
    "OsUrl.C80_total",
    "OsUrl.C80_classes",
    "OsUrl.C80_command"
   ],
   "note": "C80_clusters and C80_total for any pieces, C80_classes and C80_command for pieces of one class. The frames are those of the model of C64."
  },
  {
   "property": "C82",
   "status": "proved",
   "theorems": [
    "OsUrl.C82_make",
    "OsUrl.C82_clusters",
    "OsUrl.C82_classes",
    "OsUrl.C82_default"
   ],
   "note": "H, the frames of the helper functions, is a parameter of the model. The constants are not claimed to be sharp."
  },
  {
   "property": "C81",
   "status": "proved",
   "theorems": [
    "OsUrl.C81_narrower",
    "OsUrl.C81_language",
    "OsUrl.C81_widens"
   ],
   "note": "C81_narrower is the first part, C81_language its consequence for the strings matched, C81_widens the counterexample."
  },
  {
   "property": "C83",
   "status": "proved",
   "theorems": [
    "OsUrl.C83_tight",
    "OsUrl.C83_literal",
    "OsUrl.C83_class"
   ],
   "note": "C83_tight is the statement about groups, C83_literal and C83_class its consequences."
  },
  {
   "property": "C85",
   "status": "proved",
   "theorems": [
    "OsUrl.C85_same",
    "OsUrl.C85_calls",
    "OsUrl.C85_listed",
    "OsUrl.C85_asked",
    "OsUrl.C85_inner"
   ],
   "note": "Model/Calls is a copy of the clustering that lists the calls of process; C85_same proves that it gives the same result for every state, C85_calls the bounds and the agreement with the calls of C78; C85_listed, C85_asked and C85_inner prove that no call is left out of the list and none is invented."
  },
  {
   "property": "C75",
   "status": "proved",
   "theorems": [
    "OsUrl.C75_alone",
    "OsUrl.C75_more_urls",
    "OsUrl.C75_larger",
    "OsUrl.C75_cross",
    "OsUrl.C75_rest"
   ],
   "note": "C75_alone; C75_more_urls and C75_larger refute two monotonicity claims with http://h/a, b, cc, c; C75_cross (clusters for 2 and 3 cross) and C75_rest (taking away a whole cluster joins two others) refute two more. The order of members is not claimed."
  },
  {
   "property": "C84",
   "status": "proved",
   "theorems": [
    "OsUrl.C84_same",
    "OsUrl.C84_chars",
    "OsUrl.C84_literal",
    "OsUrl.C84_least",
    "OsUrl.C84_pipe",
    "OsUrl.C84_inner"
   ],
   "note": "Counted copy of the matcher in Model/MatchCost.lean. C84_same: same results and exceptions as the matcher of the other properties. C84_chars: at most 1 + 2N calls. C84_literal: at most two calls per piece for literal patterns. C84_least: at least two calls per piece when something matches. Work other than match calls is bounded for each call and is not counted. C84_pipe: the patterns printed by pattern-make."
  },
  {
   "property": "C86",
   "status": "proved",
   "theorems": [
    "OsUrl.C86_pieces",
    "OsUrl.C86_views",
    "OsUrl.C86_patterns",
    "OsUrl.C86_match",
    "OsUrl.C86_new",
    "OsUrl.C86_stay",
    "OsUrl.C86_same",
    "OsUrl.C86_equal",
    "OsUrl.C86_invisible",
    "OsUrl.C86_parser"
   ],
   "note": "Objects on a heap with their cache attributes (Model/Objects); the answers are compared with the functions of the fields that all other properties use. The compiled regular expression of Pattern.match is not in the heap. Object identity is a heap address."
  },
  {
   "property": "C87",
   "status": "proved",
   "theorems": [
    "OsUrl.C87_below",
    "OsUrl.C87_linear",
    "OsUrl.C87_max",
    "OsUrl.C87_false",
    "OsUrl.C87_patterns",
    "OsUrl.C87_patterns_false"
   ],
   "note": "Operators modelled as in functools.py of Python 3.11; node identity is equality of paths of pattern texts. C87_false and C87_patterns_false are the witnesses for what does not hold without the condition."
  },
  {
   "property": "C88",
   "status": "proved",
   "theorems": [
    "OsUrl.C88_split",
    "OsUrl.C88_files",
    "OsUrl.C88_better",
    "OsUrl.C88_all",
    "OsUrl.C88_false"
   ],
   "note": "Follows from the closed form C54; FileAndUrl collects the hypotheses of C54 and is shown to hold for an example. C88_false is the witness for hand-written patterns."
  },
  {
   "property": "C89",
   "status": "proved",
   "theorems": [
    "OsUrl.C89_own",
    "OsUrl.C89_literal",
    "OsUrl.C89_false",
    "OsUrl.C89_other"
   ],
   "note": "C89_false and C89_other are the witnesses of disagreement, evaluated in the model with a hash without collisions on them. The condition of C21 is written out in OwnFound."
  },
  {
   "property": "C90",
   "status": "proved",
   "theorems": [
    "OsUrl.C90_own",
    "OsUrl.C90_members"
   ],
   "note": "From the closure of families of single parts (C32) and the exact condition for a match (C44): a pattern found for a piece of one class is one of the texts of that piece, so the pattern of a cluster that matches the URL leads back to the same sub-maker and, column by column, to the same family; C90_members: the line shows the pattern of a cluster iff the URL is in it."
  },
  {
   "property": "C91",
   "status": "proved",
   "theorems": [
    "OsUrl.C91_lookup",
    "OsUrl.C91_count",
    "OsUrl.C91_printed",
    "OsUrl.C91_one",
    "OsUrl.C91_flag"
   ],
   "note": "C91_lookup: both lines from the texts looked up, for any file of generated patterns; C91_count: the texts are different, at most 3^n, and the same in both orders; C91_printed: after pattern-make, for any URL of this kind; C91_one: at most one of the texts is printed, and both lines show it; C91_flag: on any file of such URLs the output of pattern-match is the same with and without -a."
  }
 ]
}
