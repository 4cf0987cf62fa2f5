{
 "claims": [
  {
   "property": "C01",
   "status": "proved",
   "theorems": [
    "Gosstrak.C01_match_iff_carries",
    "Gosstrak.C01_only_window_matters"
   ],
   "note": ""
  },
  {
   "property": "C02",
   "status": "proved",
   "theorems": [
    "Gosstrak.C02_short_id_exact",
    "Gosstrak.C02_short_id_not_always_false",
    "Gosstrak.C02_short_id_disagreeing"
   ],
   "note": "The exact behaviour is proved (C02_short_id_exact); that a short ID is always a non-match is refuted (C02_short_id_not_always_false)."
  },
  {
   "property": "C03",
   "status": "proved",
   "theorems": [
    "Gosstrak.C03_transparent_iff_wildcards",
    "Gosstrak.C03_transparent_iff_matches_all"
   ],
   "note": ""
  },
  {
   "property": "C04",
   "status": "proved",
   "theorems": [
    "Gosstrak.C04_hasByteAt_iff",
    "Gosstrak.C04_getByteAt_iff_hasByteAt",
    "Gosstrak.C04_match_iff_bytes"
   ],
   "note": ""
  },
  {
   "property": "C05",
   "status": "proved",
   "theorems": [
    "Gosstrak.C05_split"
   ],
   "note": ""
  },
  {
   "property": "C06",
   "status": "proved",
   "theorems": [
    "Gosstrak.C06_lcp",
    "Gosstrak.C06_lcp_nil",
    "Gosstrak.C06_lcp_same_elements"
   ],
   "note": ""
  },
  {
   "property": "C07",
   "status": "proved",
   "theorems": [
    "Gosstrak.C07_partial_lcp",
    "Gosstrak.C07_partial_lcp_incomplete",
    "Gosstrak.C07_which",
    "Gosstrak.C07_none_iff"
   ],
   "note": "What is returned is right, and C07_which and C07_none_iff say exactly what is returned; that something is always found is refuted by C07_partial_lcp_incomplete."
  },
  {
   "property": "C08",
   "status": "proved",
   "theorems": [
    "Gosstrak.C08_getNextBit"
   ],
   "note": ""
  },
  {
   "property": "C09",
   "status": "proved",
   "theorems": [
    "Gosstrak.C09_keys",
    "Gosstrak.C09_keys_any_order"
   ],
   "note": ""
  },
  {
   "property": "C10",
   "status": "proved",
   "theorems": [
    "Gosstrak.C10_clone",
    "Gosstrak.C10_writes"
   ],
   "note": ""
  },
  {
   "property": "C11",
   "status": "proved",
   "theorems": [
    "Gosstrak.C11_exact",
    "Gosstrak.C11_order_independent"
   ],
   "note": ""
  },
  {
   "property": "C12",
   "status": "proved",
   "theorems": [
    "Gosstrak.C12_last_visited_wins",
    "Gosstrak.C12_one_uri_lost"
   ],
   "note": "C12_last_visited_wins: exactly the last URI visited keeps the filter; the refutation of the intended property follows for any two URIs."
  },
  {
   "property": "C13",
   "status": "proved",
   "theorems": [
    "Gosstrak.C13_malformed_matches_everything",
    "Gosstrak.C13_splay"
   ],
   "note": "List: C13_malformed_matches_everything; SplayTree: C13_splay."
  },
  {
   "property": "C14",
   "status": "proved",
   "theorems": [
    "Gosstrak.C14_keeps_everything"
   ],
   "note": ""
  },
  {
   "property": "C15",
   "status": "proved",
   "theorems": [
    "Gosstrak.C15_prefix_free"
   ],
   "note": ""
  },
  {
   "property": "C16",
   "status": "proved",
   "theorems": [
    "Gosstrak.C16_search",
    "Gosstrak.C16_order_independent"
   ],
   "note": ""
  },
  {
   "property": "C17",
   "status": "proved",
   "theorems": [
    "Gosstrak.C17_history",
    "Gosstrak.C17_add_idempotent",
    "Gosstrak.C17_delete_absent"
   ],
   "note": ""
  },
  {
   "property": "C18",
   "status": "proved",
   "theorems": [
    "Gosstrak.C18_search",
    "Gosstrak.C18_agree_iff",
    "Gosstrak.C18_root_never_reported",
    "Gosstrak.C18_not_equal_to_list"
   ],
   "note": "The engines differ exactly on a stored filter that is the longest common prefix of all filters; see C18_root_never_reported and C18_not_equal_to_list."
  },
  {
   "property": "C19",
   "status": "proved",
   "theorems": [
    "Gosstrak.C19_no_panic",
    "Gosstrak.C19_empty_tag"
   ],
   "note": "C19_empty_tag covers the tag that C19_no_panic excludes."
  },
  {
   "property": "C20",
   "status": "proved",
   "theorems": [
    "Gosstrak.C20_C21_history",
    "Gosstrak.C20_add_iff",
    "Gosstrak.C20_inside_exact",
    "Gosstrak.C20_C21_benign_history",
    "Gosstrak.C20_add_one",
    "Gosstrak.C20_inside_edge"
   ],
   "note": "C20_C21_history: the trie behaves as a map over every history without an addition inside an edge. C20_add_iff: such an addition is the only failing one. C20_inside_exact: what is reported after it. What further calls do after such an addition is C100."
  },
  {
   "property": "C21",
   "status": "proved",
   "theorems": [
    "Gosstrak.C20_C21_history",
    "Gosstrak.C21_delete_iff",
    "Gosstrak.C20_C21_benign_history",
    "Gosstrak.C21_delete_one",
    "Gosstrak.C21_last_filter_stays",
    "Gosstrak.C21_ignores_uri"
   ],
   "note": "C21_delete_iff: exact; C21_last_filter_stays and C21_ignores_uri are instances of the two disagreements."
  },
  {
   "property": "C22",
   "status": "proved",
   "theorems": [
    "Gosstrak.C22_first_search",
    "Gosstrak.C22_equals_list"
   ],
   "note": "For a non-empty map; the empty one panics (C27)."
  },
  {
   "property": "C23",
   "status": "proved",
   "theorems": [
    "Gosstrak.C23_C25_C26_history",
    "Gosstrak.C23_searches",
    "Gosstrak.C23_C25_C26_reached",
    "Gosstrak.C23_second_search_loses",
    "Gosstrak.C23_iff",
    "Gosstrak.C23_searches_interfere"
   ],
   "note": "C23_iff: exactly when no filter has two children, for every tree reached by good calls; C23_second_search_loses: otherwise reports are lost. Concrete refutation: C23_searches_interfere. What happens with such filters is C101."
  },
  {
   "property": "C24",
   "status": "proved",
   "theorems": [
    "Gosstrak.C24_keeps_nodes",
    "Gosstrak.C24_no_panic"
   ],
   "note": ""
  },
  {
   "property": "C25",
   "status": "proved",
   "theorems": [
    "Gosstrak.C23_C25_C26_history",
    "Gosstrak.C23_C25_C26_reached",
    "Gosstrak.C25_add",
    "Gosstrak.C25_prefix_missed",
    "Gosstrak.C25_exact",
    "Gosstrak.C25_iff"
   ],
   "note": "C25_exact gives the effect on every search; C25_iff says when it is the right one. Concrete refutation: C25_prefix_missed."
  },
  {
   "property": "C26",
   "status": "proved",
   "theorems": [
    "Gosstrak.C23_C25_C26_history",
    "Gosstrak.C23_C25_C26_reached",
    "Gosstrak.C26_delete",
    "Gosstrak.C26_iff",
    "Gosstrak.C26_reached",
    "Gosstrak.C26_reports_empty_uri",
    "Gosstrak.C26_only_filter_stays"
   ],
   "note": "Exact effect on every reached tree: C26_reached (C26_delete for the fresh one, in key order); C26_iff says when it is a pure removal. Concrete refutations: C26_reports_empty_uri, C26_only_filter_stays."
  },
  {
   "property": "C27",
   "status": "proved",
   "theorems": [
    "Gosstrak.C27_empty_panics"
   ],
   "note": "The code panics for every tag and every non-empty change."
  },
  {
   "property": "C28",
   "status": "proved",
   "theorems": [
    "Gosstrak.C28_search",
    "Gosstrak.C28_untranslatable"
   ],
   "note": ""
  },
  {
   "property": "C29",
   "status": "proved",
   "theorems": [
    "Gosstrak.C29_delete_single",
    "Gosstrak.C29_delete_absent",
    "Gosstrak.C29_delete_length",
    "Gosstrak.C29_correct_iff",
    "Gosstrak.C29_several_corrupt",
    "Gosstrak.C29_C30_history"
   ],
   "note": "Correct exactly when at most one given pattern of a URI is present (C29_correct_iff); otherwise refuted by C29_several_corrupt."
  },
  {
   "property": "C30",
   "status": "proved",
   "theorems": [
    "Gosstrak.C30_add",
    "Gosstrak.C30_mem",
    "Gosstrak.C30_duplicates_in_one_call",
    "Gosstrak.C30_shares_with_caller",
    "Gosstrak.C29_C30_history"
   ],
   "note": "Proved. A pattern given twice in one call is stored twice (C30_duplicates_in_one_call) and new lists are shared with the caller (C30_shares_with_caller)."
  },
  {
   "property": "C31",
   "status": "proved",
   "theorems": [
    "Gosstrak.C31_pattern",
    "Gosstrak.C31_binary_implies_text",
    "Gosstrak.C31_reports",
    "Gosstrak.C31_engines",
    "Gosstrak.C31_converse_fails",
    "Gosstrak.C31_iso_confused"
   ],
   "note": "Assumes Binutil.Ok for the external binutil package. Converse refuted by C31_converse_fails; ISO-marked tags by C31_iso_confused."
  },
  {
   "property": "C32",
   "status": "proved",
   "theorems": [
    "Gosstrak.C32_errors",
    "Gosstrak.C32_error_with_reports"
   ],
   "note": "'No report URIs on error' is refuted for a tag that matches but cannot be translated (C32_error_with_reports); everything else proved."
  },
  {
   "property": "C33",
   "status": "proved",
   "theorems": [
    "Gosstrak.C33_urn",
    "Gosstrak.C33_unique",
    "Gosstrak.C33_crash_iff",
    "Gosstrak.C33_partition_seven"
   ],
   "note": ""
  },
  {
   "property": "C34",
   "status": "proved",
   "theorems": [
    "Gosstrak.C34_urn",
    "Gosstrak.C34_crash_iff",
    "Gosstrak.C34_partition_seven"
   ],
   "note": ""
  },
  {
   "property": "C35",
   "status": "proved",
   "theorems": [
    "Gosstrak.C35_urn",
    "Gosstrak.C35_partition_zero",
    "Gosstrak.C35_crash_iff",
    "Gosstrak.C35_partition_seven"
   ],
   "note": "Partition 0 does not print the asset type: C35_partition_zero."
  },
  {
   "property": "C36",
   "status": "proved",
   "theorems": [
    "Gosstrak.C36_urn",
    "Gosstrak.C36_crash_iff",
    "Gosstrak.C36_partition_seven"
   ],
   "note": ""
  },
  {
   "property": "C37",
   "status": "proved",
   "theorems": [
    "Gosstrak.C37_pc_length",
    "Gosstrak.C37_unknown_header",
    "Gosstrak.C37_length",
    "Gosstrak.C37_iso",
    "Gosstrak.C37_iso_error",
    "Gosstrak.C37_pc_irrelevant"
   ],
   "note": "An unknown header is not reported as an error: C37_unknown_header."
  },
  {
   "property": "C38",
   "status": "proved",
   "theorems": [
    "Gosstrak.C38_crash_iff",
    "Gosstrak.C38_not_crash_free",
    "Gosstrak.C38_safe"
   ],
   "note": "Exact set of crashing inputs (C38_crash_iff); crash freedom itself is refuted by C38_not_crash_free."
  },
  {
   "property": "C39",
   "status": "proved",
   "theorems": [
    "Gosstrak.C39_fields",
    "Gosstrak.C39_round_trip",
    "Gosstrak.C39_grai_twelve"
   ],
   "note": "Assumes Binutil.Ok for the external binutil package (met by sampleBinutil)."
  },
  {
   "property": "C40",
   "status": "proved",
   "theorems": [
    "Gosstrak.C40_selects",
    "Gosstrak.C40_encoded",
    "Gosstrak.C40_invalid_accepted",
    "Gosstrak.C40_bad_company_prefix"
   ],
   "note": "Assumes Binutil.Ok. C40_invalid_accepted: bad filter values and company prefix lengths are no errors."
  },
  {
   "property": "C41",
   "status": "proved",
   "theorems": [
    "Gosstrak.C41_length",
    "Gosstrak.C41_succeeds",
    "Gosstrak.C41_rejects",
    "Gosstrak.C41_error_iff"
   ],
   "note": "C41_length for arbitrary external functions; C41_succeeds assumes Binutil.Ok."
  },
  {
   "property": "C42",
   "status": "proved",
   "theorems": [
    "Gosstrak.C42_round_trip",
    "Gosstrak.C42_spaces_lost"
   ],
   "note": "Assumes Binutil.Ok for the external binutil package (met by sampleBinutil). Characters are the 6-bit ones; text with spaces loses them (C42_spaces_lost)."
  },
  {
   "property": "C43",
   "status": "proved",
   "theorems": [
    "Gosstrak.C43_padding"
   ],
   "note": "For arbitrary bit lists."
  },
  {
   "property": "C44",
   "status": "proved",
   "theorems": [
    "Gosstrak.C44_check_digit",
    "Gosstrak.C44_length",
    "Gosstrak.C44_other_characters"
   ],
   "note": "Also what happens for other characters and lengths."
  },
  {
   "property": "C45",
   "status": "proved",
   "theorems": [
    "Gosstrak.C45_error_iff",
    "Gosstrak.C45_full_rejected",
    "Gosstrak.C45_full_matches_everything"
   ],
   "note": "The wished property is refuted: C45_full_rejected. C45_error_iff gives the exact set of accepted patterns; C45_full_matches_everything shows what a caller gets that ignores the error."
  },
  {
   "property": "C46",
   "status": "proved",
   "theorems": [
    "Gosstrak.C46_extends",
    "Gosstrak.C46_subset"
   ],
   "note": "For any behaviour of the external binutil package."
  },
  {
   "property": "C47",
   "status": "proved",
   "theorems": [
    "Gosstrak.C47_pc",
    "Gosstrak.C47_afi",
    "Gosstrak.C47_afi_every",
    "Gosstrak.C47_afi_trailing",
    "Gosstrak.C47_crash_iff",
    "Gosstrak.C47_long"
   ],
   "note": "Numbers and texts as in strconv; no assumption on the external binutil package."
  },
  {
   "property": "C48",
   "status": "proved",
   "theorems": [
    "Gosstrak.C48_round_trip"
   ],
   "note": "gob as a stream of typed values (Model/Gob)."
  },
  {
   "property": "C49",
   "status": "proved",
   "theorems": [
    "Gosstrak.C49_round_trip"
   ],
   "note": "gob as a stream of typed values; fresh target."
  },
  {
   "property": "C50",
   "status": "proved",
   "theorems": [
    "Gosstrak.C50_decoded",
    "Gosstrak.C50_equal_iff",
    "Gosstrak.C50_full",
    "Gosstrak.C50_lost_match",
    "Gosstrak.C50_false_alarm"
   ],
   "note": "The wished property is refuted by C50_lost_match (silent loss) and C50_false_alarm (error although equal); C50_decoded gives the exact result and error condition for all tries. gob as a stream of typed values; fresh target."
  },
  {
   "property": "C51",
   "status": "proved",
   "theorems": [
    "Gosstrak.C51_never_stored",
    "Gosstrak.C51_no_match",
    "Gosstrak.C51_error_if_few",
    "Gosstrak.C51_silent"
   ],
   "note": "The wished property is refuted for all inputs: C51_never_stored, C51_no_match. gob as a stream of typed values."
  },
  {
   "property": "C52",
   "status": "proved",
   "theorems": [
    "Gosstrak.C52_subscriptions",
    "Gosstrak.C52_partial_subscription"
   ],
   "note": "gob as a stream of typed values; target maps are non-nil."
  },
  {
   "property": "C53",
   "status": "proved",
   "theorems": [
    "Gosstrak.C53_usable",
    "Gosstrak.C53_no_crash",
    "Gosstrak.C53_searched"
   ],
   "note": "Transition system of factory, generators, listener, selector, search and main loop; every schedule. Also: no nil pointer is met and the engines searched on the side are usable."
  },
  {
   "property": "C54",
   "status": "proved",
   "theorems": [
    "Gosstrak.C54_permanent"
   ],
   "note": "Every continuation of every reachable state."
  },
  {
   "property": "C55",
   "status": "proved",
   "theorems": [
    "Gosstrak.C55_initial",
    "Gosstrak.C55_trie",
    "Gosstrak.C55_order"
   ],
   "note": "C55_initial for any priorities, C55_trie with those of the code."
  },
  {
   "property": "C56",
   "status": "proved",
   "theorems": [
    "Gosstrak.C56_undisturbed",
    "Gosstrak.C56_interleaved",
    "Gosstrak.C56_replaces"
   ],
   "note": "Floating point enters through the laws in Floats.Lawful (strict order, division), shown for exact quotients."
  },
  {
   "property": "C57",
   "status": "proved",
   "theorems": [
    "Gosstrak.C57_events",
    "Gosstrak.C57_count",
    "Gosstrak.C57_throughput"
   ],
   "note": "Ghost fields record the events received."
  },
  {
   "property": "C58",
   "status": "proved",
   "theorems": [
    "Gosstrak.C58_apart",
    "Gosstrak.C58_exact",
    "Gosstrak.C58_unbounded",
    "Gosstrak.C58_lost"
   ],
   "note": "C58_apart and C58_exact under ReachesApart; C58_unbounded and C58_lost show the failures."
  },
  {
   "property": "C59",
   "status": "proved",
   "theorems": [
    "Gosstrak.C59_ignored",
    "Gosstrak.C59_unchanged"
   ],
   "note": "Disagreement recorded: the messages are ignored."
  },
  {
   "property": "C60",
   "status": "proved",
   "theorems": [
    "Gosstrak.C60_aligned",
    "Gosstrak.C60_consumed",
    "Gosstrak.C60_portions",
    "Gosstrak.C60_unknown",
    "Gosstrak.C60_underflow"
   ],
   "note": "The values of the four header constants are parameters (assumed distinct, as the compiler demands); the go-llrp package is not modelled."
  },
  {
   "property": "C61",
   "status": "proved",
   "theorems": [
    "Gosstrak.C61_collected",
    "Gosstrak.C61_is_map",
    "Gosstrak.C61_list"
   ],
   "note": "Lines 241-243 of main.go do nothing with the reports (recorded as a disagreement)."
  },
  {
   "property": "C62",
   "status": "proved",
   "theorems": [
    "Gosstrak.C62_writes",
    "Gosstrak.C62_total",
    "Gosstrak.C62_repeated",
    "Gosstrak.C62_untyped",
    "Gosstrak.C62_too_few",
    "Gosstrak.C62_other"
   ],
   "note": "The client is modelled as: NewPoint may refuse, AddPoint appends, Write succeeds."
  },
  {
   "property": "C63",
   "status": "proved",
   "theorems": [
    "Gosstrak.C63_composite",
    "Gosstrak.C63_equivalent",
    "Gosstrak.C63_crash_iff",
    "Gosstrak.C63_apart",
    "Gosstrak.C63_exact",
    "Gosstrak.C63_last_iff",
    "Gosstrak.C63_adjacent_moved",
    "Gosstrak.C63_same_string_lost",
    "Gosstrak.C63_ill_formed_object"
   ],
   "note": "C63_exact and C63_last_iff say exactly when a filter is replaced correctly; C63_apart says what becomes of filters without a common byte. Refuted for adjacent bytes (C63_adjacent_moved), one string at two offsets (C63_same_string_lost) and ill-formed filter objects (C63_ill_formed_object)."
  },
  {
   "property": "C64",
   "status": "proved",
   "theorems": [
    "Gosstrak.C64_groups",
    "Gosstrak.C64_unique",
    "Gosstrak.C64_empty"
   ],
   "note": ""
  },
  {
   "property": "C65",
   "status": "proved",
   "theorems": [
    "Gosstrak.C65_loaded",
    "Gosstrak.C65_wrong_case_ignored"
   ],
   "note": "Records as handed over by encoding/csv; reading the file is not modelled. C65_wrong_case_ignored shows that patterns with a capital letter in the prefix are dropped later."
  },
  {
   "property": "C66",
   "status": "proved",
   "theorems": [
    "Gosstrak.C66_list",
    "Gosstrak.C66_legacy",
    "Gosstrak.C66_patricia",
    "Gosstrak.C66_splay"
   ],
   "note": "For every stream written by one of the four engines; fresh target for the trees."
  },
  {
   "property": "C67",
   "status": "proved",
   "theorems": [
    "Gosstrak.C67_iso17363",
    "Gosstrak.C67_iso17365"
   ],
   "note": "Assumes Binutil.Ok for the external binutil package (met by sampleBinutil). "
  },
  {
   "property": "C68",
   "status": "proved",
   "theorems": [
    "Gosstrak.C68_epc",
    "Gosstrak.C68_empty_filter_value",
    "Gosstrak.C68_iso17365",
    "Gosstrak.C68_iso17363",
    "Gosstrak.C68_iso17363_full"
   ],
   "note": "Assumes Binutil.Ok for the external binutil package (met by sampleBinutil). Refuted for an empty filter value (C68_empty_filter_value) and the full ISO17363 pattern (C68_iso17363_full)."
  },
  {
   "property": "C69",
   "status": "proved",
   "theorems": [
    "Gosstrak.C69_conserved",
    "Gosstrak.C69_selected_lost"
   ],
   "note": "C69_selected_lost is the execution in which the notice is dropped."
  },
  {
   "property": "C70",
   "status": "proved",
   "theorems": [
    "Gosstrak.C70_reported",
    "Gosstrak.C70_stale"
   ],
   "note": "C70_stale is the execution in which an old value returns."
  },
  {
   "property": "C71",
   "status": "proved",
   "theorems": [
    "Gosstrak.C71_infinite",
    "Gosstrak.C71_selected"
   ],
   "note": "Uses the division laws n/0 = +Inf of Floats.Lawful."
  },
  {
   "property": "C72",
   "status": "proved",
   "theorems": [
    "Gosstrak.C72_completes"
   ],
   "note": "Existence of a completing schedule from every reachable state; capacity of the channel > 0."
  },
  {
   "property": "C73",
   "status": "proved",
   "theorems": [
    "Gosstrak.C73_proper",
    "Gosstrak.C73_refused",
    "Gosstrak.C73_fast_engine_ends"
   ],
   "note": "That the InfluxDB client refuses infinities is an assumption about a library not in the repository (refusesInfinite); C73_refused holds for any client."
  },
  {
   "property": "C74",
   "status": "proved",
   "theorems": [
    "Gosstrak.C74_distinct",
    "Gosstrak.C74_none_is_legacy"
   ],
   "note": "C74_none_is_legacy is the execution."
  },
  {
   "property": "C75",
   "status": "proved",
   "theorems": [
    "Gosstrak.C75_each_once",
    "Gosstrak.C75_at_most_twice",
    "Gosstrak.C75_twice"
   ],
   "note": "C75_twice is the failing execution."
  },
  {
   "property": "C76",
   "status": "proved",
   "theorems": [
    "Gosstrak.C76_notice",
    "Gosstrak.C76_tick",
    "Gosstrak.C76_announced"
   ],
   "note": "The empty name before the first selection is covered: current is empty then (see C74)."
  },
  {
   "property": "C77",
   "status": "proved",
   "theorems": [
    "Gosstrak.C77_new",
    "Gosstrak.C77_call",
    "Gosstrak.C77_history",
    "Gosstrak.C77_no_sharing",
    "Gosstrak.C77_reports"
   ],
   "note": ""
  },
  {
   "property": "C78",
   "status": "proved",
   "theorems": [
    "Gosstrak.C78_new",
    "Gosstrak.C78_call",
    "Gosstrak.C78_search",
    "Gosstrak.C78_history",
    "Gosstrak.C78_reports"
   ],
   "note": ""
  },
  {
   "property": "C79",
   "status": "proved",
   "theorems": [
    "Gosstrak.C79_splay_text",
    "Gosstrak.C79_splay_faithful",
    "Gosstrak.C79_splay_empty",
    "Gosstrak.C79_trie_faithful",
    "Gosstrak.C79_list_faithful",
    "Gosstrak.C79_linked_faithful"
   ],
   "note": "C79_splay_empty is the failure in the code. LegacyEngine.Dump is not modelled (quoting rules of fmt)."
  },
  {
   "property": "C80",
   "status": "proved",
   "theorems": [
    "Gosstrak.C80_epc_tag",
    "Gosstrak.C80_epc_filter",
    "Gosstrak.C80_epc_error",
    "Gosstrak.C80_iso17363_tag",
    "Gosstrak.C80_iso17365_tag",
    "Gosstrak.C80_iso_filter",
    "Gosstrak.C80_iso_error",
    "Gosstrak.C80_iso_crash",
    "Gosstrak.C80_read",
    "Gosstrak.C80_pc",
    "Gosstrak.C80_print",
    "Gosstrak.C80_sixenc",
    "Gosstrak.C80_in_slice"
   ],
   "note": "C80_iso_crash and C80_read contain the failures in the code. The main function of gobtags loads with the llrp library, not with these helpers."
  },
  {
   "property": "C81",
   "status": "proved",
   "theorems": [
    "Gosstrak.C81_sgtin",
    "Gosstrak.C81_sscc",
    "Gosstrak.C81_giai",
    "Gosstrak.C81_grai",
    "Gosstrak.C81_iso17363",
    "Gosstrak.C81_iso17365",
    "Gosstrak.C81_round17365",
    "Gosstrak.C81_mismatch",
    "Gosstrak.C81_counts",
    "Gosstrak.C81_noFilter",
    "Gosstrak.C81_nonZeroDigits"
   ],
   "note": "C81_giai, C81_mismatch and C81_counts contain the failures in the code. Drawn GIAI references are taken to be below 2^63 (the tool draws up to 19 digits); goroutines, files and the command line are not modelled."
  },
  {
   "property": "C82",
   "status": "proved",
   "theorems": [
    "Gosstrak.C82_splay",
    "Gosstrak.C82_splay_both",
    "Gosstrak.C82_trie",
    "Gosstrak.C82_trie_both",
    "Gosstrak.C82_splay_one_sided",
    "Gosstrak.C82_trie_one_sided"
   ],
   "note": "C82_splay_one_sided and C82_trie_one_sided are the failures in the code."
  },
  {
   "property": "C83",
   "status": "proved",
   "theorems": [
    "Gosstrak.C83_rest",
    "Gosstrak.C83_bounded",
    "Gosstrak.C83_endless",
    "Gosstrak.C83_fair",
    "Gosstrak.C83_reaches_rest",
    "Gosstrak.C83_livelock",
    "Gosstrak.C83_starved",
    "Gosstrak.C83_startup"
   ],
   "note": "C83_starved is the failing execution; fairness is stated for the main program only (strong fairness)."
  },
  {
   "property": "C84",
   "status": "proved",
   "theorems": [
    "Gosstrak.C84_terminates",
    "Gosstrak.C84_keeps",
    "Gosstrak.C84_new_words",
    "Gosstrak.C84_top",
    "Gosstrak.C84_offsets",
    "Gosstrak.C84_below",
    "Gosstrak.C84_top_parts",
    "Gosstrak.C84_top_not_prefix_free",
    "Gosstrak.C84_not_patricia",
    "Gosstrak.C84_nested_lost"
   ],
   "note": "The function is not called anywhere. Refuted beyond the statement's first part by C84_top_not_prefix_free, C84_not_patricia and C84_nested_lost."
  },
  {
   "property": "C85",
   "status": "proved",
   "theorems": [
    "Gosstrak.C85_counts",
    "Gosstrak.C85_filter_value",
    "Gosstrak.C85_selects",
    "Gosstrak.C85_small",
    "Gosstrak.C85_negative",
    "Gosstrak.C85_reported",
    "Gosstrak.C85_make",
    "Gosstrak.C85_empty_company"
   ],
   "note": ""
  },
  {
   "property": "C86",
   "status": "proved",
   "theorems": [
    "Gosstrak.C86_filled",
    "Gosstrak.C86_urn",
    "Gosstrak.C86_bound_matters",
    "Gosstrak.C86_container",
    "Gosstrak.C86_item"
   ],
   "note": ""
  },
  {
   "property": "C87",
   "status": "proved",
   "theorems": [
    "Gosstrak.C87_text",
    "Gosstrak.C87_readable",
    "Gosstrak.C87_faithful",
    "Gosstrak.C87_plain",
    "Gosstrak.C87_newline"
   ],
   "note": "text that is not valid UTF-8 is not modelled; which characters beyond ASCII are printable is a parameter"
  },
  {
   "property": "C88",
   "status": "proved",
   "theorems": [
    "Gosstrak.C88_written",
    "Gosstrak.C88_ends",
    "Gosstrak.C88_one_worker",
    "Gosstrak.C88_fatal",
    "Gosstrak.C88_same_asset",
    "Gosstrak.C88_same_file",
    "Gosstrak.C88_lost",
    "Gosstrak.C88_rounds"
   ],
   "note": "Creating directories and errors of the file system are left out; the lines of one tag file are written in one step; the position of the racing os.Stat and os.Create of two workers is modelled."
  },
  {
   "property": "C89",
   "status": "proved",
   "theorems": [
    "Gosstrak.C89_engines",
    "Gosstrak.C89_exact",
    "Gosstrak.C89_batch",
    "Gosstrak.C89_made",
    "Gosstrak.C89_rivals"
   ],
   "note": "C89_engines: the answers of the three engines for every order of the map; C89_exact: with no rival URIs the list engine reports exactly to whom it is due, with multiplicity; C89_made: the same for tags made of fields, by comparing fields; C89_batch: the collected reports; C89_rivals: the disagreement with rival URIs. The missing root subscription of the Patricia trie is in C89_engines (NotWidest) and C18."
  },
  {
   "property": "C90",
   "status": "proved",
   "theorems": [
    "Gosstrak.C90_in_order",
    "Gosstrak.C90_message_id",
    "Gosstrak.C90_bounded",
    "Gosstrak.C90_comes_to_rest",
    "Gosstrak.C90_messages",
    "Gosstrak.C90_why",
    "Gosstrak.C90_ends",
    "Gosstrak.C90_lost",
    "Gosstrak.C90_file",
    "Gosstrak.C90_killer"
   ],
   "note": "C90_in_order: replies and batches at any moment; C90_bounded, C90_comes_to_rest: rest; C90_messages: everything done at rest; C90_file: the same with the list engine of a file, destination by destination; C90_why, C90_ends: when the program ends; C90_message_id, C90_lost, C90_killer: the disagreements. The decoding of go-llrp is a parameter; the engine is a parameter in all but the last two, the list engine in C90_file and C90_killer."
  },
  {
   "property": "C91",
   "status": "proved",
   "theorems": [
    "Gosstrak.C91_answers",
    "Gosstrak.C91_agree",
    "Gosstrak.C91_program",
    "Gosstrak.C91_killer",
    "Gosstrak.C91_depends"
   ],
   "note": "C91_answers: no panic and the answer by selected engine after any history; C91_agree: the three engines alike; C91_program: the whole program; C91_depends, C91_killer: the disagreements. Which engines are ready and selected is any choice at each search (C75 and C76 say what it can be; C92 has the goroutines that make the choice)."
  },
  {
   "property": "C92",
   "status": "proved",
   "theorems": [
    "Gosstrak.C92_refines",
    "Gosstrak.C92_chosen",
    "Gosstrak.C92_rest",
    "Gosstrak.C92_reports",
    "Gosstrak.C92_program",
    "Gosstrak.C92_killer"
   ],
   "note": "C92_refines, C92_chosen: any interleaving; C92_rest: never stuck; C92_reports: at any moment; C92_program: at rest; C92_killer: the fatal tag. That the program comes to rest is not claimed: the factory can go on sending messages to itself (C83_livelock)."
  },
  {
   "property": "C93",
   "status": "proved",
   "theorems": [
    "Gosstrak.C93_list_accepts",
    "Gosstrak.C93_list_content",
    "Gosstrak.C93_list_panics",
    "Gosstrak.C93_list_answers",
    "Gosstrak.C93_list_cut",
    "Gosstrak.C93_subs_accepts",
    "Gosstrak.C93_subs_content",
    "Gosstrak.C93_subs_cut",
    "Gosstrak.C93_psub_cut",
    "Gosstrak.C93_psub_content",
    "Gosstrak.C93_splay_file",
    "Gosstrak.C93_splay_cut",
    "Gosstrak.C93_splay_match",
    "Gosstrak.C93_splay_mismatch",
    "Gosstrak.C93_splay_empty",
    "Gosstrak.C93_patricia_file",
    "Gosstrak.C93_patricia_cut",
    "Gosstrak.C93_patricia_silent",
    "Gosstrak.C93_patricia_one",
    "Gosstrak.C93_legacy_cut",
    "Gosstrak.C93_legacy_silent"
   ],
   "note": "C93_list_accepts, C93_list_content, C93_list_panics, C93_list_answers, C93_list_cut: lists; C93_subs_accepts, C93_subs_content, C93_subs_cut: subscriptions; C93_psub_cut, C93_psub_content: partial subscriptions; C93_splay_file, C93_splay_cut, C93_splay_match, C93_splay_mismatch, C93_splay_empty; C93_patricia_file, C93_patricia_cut, C93_patricia_silent, C93_patricia_one; C93_legacy_cut, C93_legacy_silent. A cut inside the bytes of a value is the loss of that value. A partial subscription is gob's map, whose order in the stream is any."
  },
  {
   "property": "C94",
   "status": "proved",
   "theorems": [
    "Gosstrak.C94_epc",
    "Gosstrak.C94_container_pattern",
    "Gosstrak.C94_item_pattern",
    "Gosstrak.C94_unknown",
    "Gosstrak.C94_container_tag",
    "Gosstrak.C94_container_filter",
    "Gosstrak.C94_item_tag",
    "Gosstrak.C94_epc_filter"
   ],
   "note": "C94_epc, C94_container_pattern, C94_item_pattern, C94_unknown: the patterns; C94_container_tag, C94_item_tag: tags; C94_container_filter, C94_epc_filter: filters."
  },
  {
   "property": "C95",
   "status": "proved",
   "theorems": [
    "Gosstrak.C95_reads",
    "Gosstrak.C95_empty_record",
    "Gosstrak.C95_panics",
    "Gosstrak.C95_loaded",
    "Gosstrak.C95_no_quotes",
    "Gosstrak.C95_odd_quotes",
    "Gosstrak.C95_written",
    "Gosstrak.C95_written_same",
    "Gosstrak.C95_line_ends",
    "Gosstrak.C95_crlf",
    "Gosstrak.C95_final_line_end",
    "Gosstrak.C95_search"
   ],
   "note": "C95_reads is exact in both directions. C95_empty_record, C95_panics, C95_odd_quotes: panics; C95_no_quotes; C95_written, C95_written_same; C95_line_ends, C95_crlf, C95_final_line_end; C95_loaded, C95_search: with C65 and C89. The reader is that of Go's encoding/csv, modelled after its documented algorithm; a character stands for its UTF-8 bytes."
  },
  {
   "property": "C96",
   "status": "proved",
   "theorems": [
    "Gosstrak.C96_list",
    "Gosstrak.C96_list_history",
    "Gosstrak.C96_splay",
    "Gosstrak.C96_splay_equals_list",
    "Gosstrak.C96_splay_history",
    "Gosstrak.C96_patricia",
    "Gosstrak.C96_patricia_history",
    "Gosstrak.C96_branch_too_short",
    "Gosstrak.C96_trie_survives",
    "Gosstrak.C96_safe"
   ],
   "note": "C96_list, C96_list_history: List; C96_splay, C96_splay_equals_list, C96_splay_history: SplayTree; C96_patricia, C96_branch_too_short, C96_trie_survives, C96_patricia_history: PatriciaTrie; C96_safe: all three. That an engine panics on a tag shorter than a filter is recorded as a disagreement."
  },
  {
   "property": "C97",
   "status": "proved",
   "theorems": [
    "Gosstrak.C97_engines",
    "Gosstrak.C97_cut",
    "Gosstrak.C97_exact",
    "Gosstrak.C97_texts",
    "Gosstrak.C97_iso_pattern_epc_tag",
    "Gosstrak.C97_epc_pattern_iso_tag",
    "Gosstrak.C97_container",
    "Gosstrak.C97_item",
    "Gosstrak.C97_item_tag_taken_for_epc"
   ],
   "note": "C97_engines: the three engines; C97_exact: exactly the URIs due and how often; C97_cut: tags that end inside a pattern; C97_texts: when one ISO pattern selects what another selects; C97_iso_pattern_epc_tag, C97_epc_pattern_iso_tag, C97_item_tag_taken_for_epc: between the standards; C97_container, C97_item: tags made of fields. EPC patterns with fields that do not fit and ISO patterns with characters outside the six-bit alphabet are excluded by FileFine. The four ways in which the code fails are part of the theorems and recorded as disagreements."
  },
  {
   "property": "C98",
   "status": "proved",
   "theorems": [
    "Gosstrak.C98_order",
    "Gosstrak.C98_engine",
    "Gosstrak.C98_keeps",
    "Gosstrak.C98_ends",
    "Gosstrak.C98_rest",
    "Gosstrak.C98_update",
    "Gosstrak.C98_wrong"
   ],
   "note": "The state machine library is assumed to behave as documented (head of Model/Machine). In the program only init is called, once for each generator; that part with its interplay with the factory is C53-C59."
  },
  {
   "property": "C99",
   "status": "proved",
   "theorems": [
    "Gosstrak.C99_search",
    "Gosstrak.C99_agree",
    "Gosstrak.C99_program",
    "Gosstrak.C99_killer",
    "Gosstrak.C99_branch"
   ],
   "note": "Lifts C91 and C92 from EPC files and tags of 96 bits. Files with forks are C102."
  },
  {
   "property": "C100",
   "status": "proved",
   "theorems": [
    "Gosstrak.C100_history",
    "Gosstrak.C100_reports_unique",
    "Gosstrak.C100_known",
    "Gosstrak.C100_no_undo",
    "Gosstrak.C100_second_addition",
    "Gosstrak.C100_crash"
   ],
   "note": "Removes the restriction of C20, C21 and C96 to histories without additions inside edges."
  },
  {
   "property": "C101",
   "status": "proved",
   "theorems": [
    "Gosstrak.C101_exact",
    "Gosstrak.C101_walk_unique",
    "Gosstrak.C101_never_silent",
    "Gosstrak.C101_all_or_none",
    "Gosstrak.C101_once",
    "Gosstrak.C101_settles",
    "Gosstrak.C101_only_true_iff"
   ],
   "note": "C101_exact is the description by lists (Spec/Shelf), C101_never_silent, C101_all_or_none, C101_settles, C101_once and C101_only_true_iff its consequences; the last two assume that no URI has two filters. Additions and deletions between the searches are C103. In terms of files and the whole program: C102."
  },
  {
   "property": "C102",
   "status": "proved",
   "theorems": [
    "Gosstrak.C102_search",
    "Gosstrak.C102_long",
    "Gosstrak.C102_program",
    "Gosstrak.C102_only_due_iff",
    "Gosstrak.C102_misreports"
   ],
   "note": "C102_search and C102_program drop the condition on forks of C99; C102_long gives tags that end no engine; C102_only_due_iff says for which files the splay tree can be trusted; C102_misreports is a run of the whole program."
  },
  {
   "property": "C103",
   "status": "proved",
   "theorems": [
    "Gosstrak.C103_exact",
    "Gosstrak.C103_updates_end",
    "Gosstrak.C103_given_only",
    "Gosstrak.C103_add_only",
    "Gosstrak.C103_add_found",
    "Gosstrak.C103_add_lost",
    "Gosstrak.C103_delete_ignored",
    "Gosstrak.C103_delete_other",
    "Gosstrak.C103_long_panics"
   ],
   "note": "C103_exact is the description by groups (Spec/Rack), C103_updates_end, C103_given_only, C103_add_only and C103_add_found its consequences; C103_add_lost, C103_delete_ignored, C103_delete_other and C103_long_panics are concrete failures. Generalises C101, whose lists assume searches only."
  },
  {
   "property": "C104",
   "status": "proved",
   "theorems": [
    "Gosstrak.C104_settled",
    "Gosstrak.C104_settled_list",
    "Gosstrak.C104_settled_patricia",
    "Gosstrak.C104_settled_splay",
    "Gosstrak.C104_open_iff",
    "Gosstrak.C104_delete_iff",
    "Gosstrak.C104_twice_iff",
    "Gosstrak.C104_choices",
    "Gosstrak.C104_all_choices",
    "Gosstrak.C104_selects",
    "Gosstrak.C104_misses",
    "Gosstrak.C104_never_seven",
    "Gosstrak.C104_trees_keep",
    "Gosstrak.C104_engines_differ"
   ],
   "note": "C104_settled and C104_settled_list, _patricia, _splay justify the encoder as a function in the other theorems; C104_open_iff, C104_delete_iff, C104_twice_iff say exactly when this matters, C104_choices, C104_all_choices, C104_selects, C104_misses, C104_never_seven what the draws do, C104_engines_differ and C104_trees_keep are concrete failures. Assumed of the generator: length and bound (Toss.Fair). Probabilities are not modelled."
  },
  {
   "property": "C105",
   "status": "proved",
   "theorems": [
    "Gosstrak.C105_within",
    "Gosstrak.C105_written",
    "Gosstrak.C105_ahead",
    "Gosstrak.C105_refused",
    "Gosstrak.C105_off",
    "Gosstrak.C105_completes",
    "Gosstrak.C105_stalls",
    "Gosstrak.C105_waits",
    "Gosstrak.C105_frozen"
   ],
   "note": "C105_stalls assumes that a generator that waits for its ticker again and again notices it again and again (Watched.Ticks); C105_waits is an execution that meets its hypotheses. C105_frozen shows that the bound of C105_ahead is reached."
  },
  {
   "property": "C106",
   "status": "proved",
   "theorems": [
    "Gosstrak.C106_fresh",
    "Gosstrak.C106_splay",
    "Gosstrak.C106_splay_equal",
    "Gosstrak.C106_splay_made",
    "Gosstrak.C106_splay_again",
    "Gosstrak.C106_splay_wrong",
    "Gosstrak.C106_patricia_error",
    "Gosstrak.C106_patricia_full",
    "Gosstrak.C106_patricia_equal",
    "Gosstrak.C106_patricia_made",
    "Gosstrak.C106_patricia_again",
    "Gosstrak.C106_patricia_stays",
    "Gosstrak.C106_patricia_wrong",
    "Gosstrak.C106_other_kind",
    "Gosstrak.C106_cut",
    "Gosstrak.C106_splay_damaged",
    "Gosstrak.C106_patricia_damaged",
    "Gosstrak.C106_splay_damaged_inside",
    "Gosstrak.C106_patricia_damaged_inside",
    "Gosstrak.C106_partial_subscription",
    "Gosstrak.C106_partial_subscription_damaged",
    "Gosstrak.C106_fresh_subscription"
   ],
   "note": "That gob reuses what pointers point to and leaves out zero fields is in Model/Reload and part of the trusted base. Lists, legacy engines and subscription maps in use are in C48, C51 and C52."
  },
  {
   "property": "C107",
   "status": "proved",
   "theorems": [
    "Gosstrak.C107_within",
    "Gosstrak.C107_rest",
    "Gosstrak.C107_refused",
    "Gosstrak.C107_silent",
    "Gosstrak.C107_deaf",
    "Gosstrak.C107_unanswered",
    "Gosstrak.C107_mute",
    "Gosstrak.C107_waits"
   ],
   "note": "C107_silent, C107_deaf, C107_unanswered and C107_mute assume that a generator that waits for its ticker again and again notices it again and again (Monitored.Ticks); C107_waits is an execution that meets their hypotheses."
  },
  {
   "property": "C108",
   "status": "proved",
   "theorems": [
    "Gosstrak.C108_within",
    "Gosstrak.C108_trouble",
    "Gosstrak.C108_any_moment",
    "Gosstrak.C108_sudden",
    "Gosstrak.C108_ale",
    "Gosstrak.C108_sixenc",
    "Gosstrak.C108_sixenc_missing"
   ],
   "note": "spdystream is a parameter: a connection becomes one of the library or not, and mirroring has no part in the rest. C108_sixenc assumes that Printf prints a format without a percent sign as it is."
  },
  {
   "property": "C109",
   "status": "proved",
   "theorems": [
    "Gosstrak.C109_answered",
    "Gosstrak.C109_ready",
    "Gosstrak.C109_monitored",
    "Gosstrak.C109_reports",
    "Gosstrak.C109_killer",
    "Gosstrak.C109_exists",
    "Gosstrak.C109_monitored_exists",
    "Gosstrak.C109_weak"
   ],
   "note": "Fairness is a hypothesis (Prog.Fair, Monitored.Fair): a kind of move possible again and again is made again and again. Go gives this with probability one for select and in practice for scheduling; C83_livelock and C83_starved show that without it the factory can be busy for ever. An endless execution is one that has not ended."
  },
  {
   "property": "C110",
   "status": "proved",
   "theorems": [
    "Gosstrak.C110_answered",
    "Gosstrak.C110_open",
    "Gosstrak.C110_exists"
   ],
   "note": "Fairness is a hypothesis as in C109; clients are not assumed to be fair. That the port can be opened and Accept does not fail follows from the execution being endless (C108_trouble)."
  },
  {
   "property": "C111",
   "status": "proved",
   "theorems": [
    "Gosstrak.C111_missing",
    "Gosstrak.C111_overtaken"
   ],
   "note": "Fairness (World.Fair) is to the cases of each select and the steps of each goroutine, as in C109, not to single messages; an execution in which a select chooses at random passes the report on with probability one."
  }
 ]
}