# Formal model of iomz/gosstrak

Lean 4.33.0, Mathlib imported module by module. The Lake project is in `lean/`.

* `Verif/Model/*`  – the code, function by function. Each definition cites the file and lines in /repo.
* `Verif/Spec/*`   – small specifications that do not mention the model's helpers (bit of an ID,
  longest common prefix, big-endian number and bit field, decimal value, set of subscriptions, ...).
* `Verif/Proofs/*` – helper lemmas.
* `Verif/Props/*`  – the property theorems, each followed by an `example` with a concrete case.
* `properties.jsonl` states the properties, `MANIFEST.json` maps them to theorems, and
  `seeded/LOG.jsonl` records wrong programs the theorems were tried on.

## Trusted base

* Lean's kernel; the axioms `propext`, `Classical.choice`, `Quot.sound`. No own axioms, no `sorry`,
  no `native_decide`, no `bv_decide`. The axioms of each theorem are listed at the end.
* The model is a transcription by hand of Go source read as text. Nothing of /repo was run.

### Representation

These choices apply to every definition unless its comment says otherwise.

* Go `string` / `[]rune` is `List Char`. Byte length equals rune count only for ASCII text, so the
  model speaks about ASCII strings (all identifiers, patterns and filter strings of the project).
* Go `byte` is `BitVec 8`; `[]byte` is `List (BitVec 8)`; `int` is `Nat` or `Int` without overflow.
  The one place where fixed width matters, the message length of LLRP, is `BitVec 32`.
* A run-time panic is `none` in `Option`; an `error` return is a value.
* A Go map is an association list with distinct keys. `range` over a map is a traversal of an
  arbitrary permutation; theorems about `range` loops quantify over that permutation.
* Slices are lists; where sharing of the backing array matters (Clone, LegacyEngine) the model has
  explicit backing arrays (`Model/Heap`).
* Pointers to tree nodes are inductive trees in the models of the engines. Beside them, Model/Memory and
  Model/MemoryPatricia state `add`, `delete`, `build` and the searches as programs on cells with addresses, one
  update per assignment in the order of the code; C77 and C78 prove that those programs always leave a proper tree
  (no sharing, no cycle) and agree with the inductive ones. A new leaf is filled before the pointer to it is stored;
  the code stores the pointer first and nothing reads in between.
* Loops and recursions whose termination Lean does not see are given fuel; lemmas show that the fuel
  suffices (`sbuild_spec`, `C14_keeps_everything`, ...), or the theorem is stated for every fuel
  that is large enough.
* `float64`: in the ISO 6346 check digit the numbers are small integers, so exact integer
  arithmetic. In the factory only comparison, zero, the quotient of two counters and `IsNaN` are
  used; what is assumed of them is `Floats.Lawful` (Spec/Factory), and an instance is given.

### Code outside /repo

None of it is in the sandbox. It is modelled from its documentation, its call sites and the project's
test vectors.

* `github.com/iomz/go-llrp/binutil`: a structure of arbitrary functions (`Binutil` in Model/Encode).
  Theorems that need more assume `Binutil.Ok` (Spec/Encode): decimal text to its binary digits, and
  the 6-bit code of a character. `sampleBinutil` meets it. The random generators stay arbitrary
  functions of the call site, so in `toByteSubscriptions`, where the encoder is a function, two
  conversions of a pattern with a field left out give the same filter. In the code they need not:
  Model/Draws has conversions with draws of their own, and C104 says exactly when this matters.
* `github.com/iomz/go-llrp`: the four message headers are parameters, assumed distinct as a Go
  `switch` demands; the bodies of reports and replies are not modelled.
* `encoding/gob`: a stream of typed values, see the head of Model/Gob. For engines in use see the head of
  Model/Reload: non-nil pointers are reused, zero fields of structs are not written. Byte format and memory limits are
  not modelled.
* `looplab/fsm`: sets the state, then calls the `enter_` callbacks; an event that is not possible in the
  present state changes nothing (Model/Machine).
* InfluxDB client: `NewPoint` accepts or refuses a point (a parameter), `AddPoint` appends, `Write`
  sends the batch and succeeds; in Model/Watched it may also fail or not return. That it refuses infinite numbers is the hypothesis
  `refusesInfinite` of one theorem of C73.
* `sort`, `strings`, `strconv`, `fmt`, `encoding/csv`, `io.ReadFull`: as documented, in the small part used.

### Concurrency

The factory, its generators, its listener, the performance ticker, the search and the management
goroutine of main.go are one transition system (Model/Factory). A label names the goroutine that
moves; executions are lists of labels, so theorems over all lists cover all schedules.

* Every read and write of a shared field is a step of its own. Single reads and writes are atomic; Go
  does not promise this for the two-word string `currentEngineName`.
* Channels between generators and factory are unbuffered, the main channel is bounded.
* There is one search at a time: main.go:224-247 is the only caller.
* Only C109 to C111 speak of fairness, in C109 and C110 as a hypothesis: a kind of move of the program that is possible again and again
  is made again and again (Spec/Fair). The kinds are the cases of each `select` and the steps of each goroutine.
* Engines built by the constructors are represented by the subscriptions they were made from, and
  constructors do not panic. What engines do is modelled separately.
* The program `gosstrak-fc` (Model/FcRun) is a second transition system: the reader, the message loop and the
  searching goroutine. The factory appears in it as a relation of answers, so that its theorems hold
  whatever engine is selected at the moment of a search. Model/Whole joins the two and the four engines into one
  transition system, in which a search of the factory is as many steps as in Model/Factory; the orders in which
  the constructors go through their maps are chosen at the start.
* Model/Watched adds to Model/Factory the goroutine that hands messages on, the statistics goroutine and the
  database, whose answer is a step of its own that need not come. Model/Monitored does the same for Model/Whole, and
  Model/Managed adds the management port to that.
* Ghost fields (`all`, `batches`, `sent`, `seen`, `hits`, ...) are marked in the comments.

### Not modelled

Logging, HTTP, the content of LLRP messages, InfluxDB I/O, sockets, command line flags
(but for the initial message ID), opening files, wall-clock time, resource exhaustion, data races beyond the
interleavings above.

Facts noticed while reading that are outside the model:

* `defer c.Close()` in `NewStatManager` (stat_manager.go) runs when the constructor returns, while the
  goroutine that uses the client goes on.
* `gobtags` `makeByteID` returns a nil error when parsing fails; it is not called.

## Plan per property

| id | model | proof |
|----|-------|-------|
| C01 C05 | `makeFilter`, `NewFilter`, `Match` | closed form of `makeFilter` by induction on the string, bitwise reading of the byte test; split from it |
| C02 | `Match` with explicit out-of-range panic | exact panic condition by induction; counterexample to the wished property |
| C03 C04 | `IsTransparent`, `HasByteAt`, `GetByteAt` | from the closed form |
| C06 C07 C08 | `lcp`, `findPartialLCP`, `getNextBit` | lexicographic order lemmas; induction on fuel/length; arithmetic |
| C09 C10 | maps as association lists; slices with backing arrays for Clone | permutation invariance of sorting; frame argument |
| C11 C12 C13 | `ToByteSubscriptions` over an arbitrary iteration order | order independence; negations with witnesses |
| C14 C15 | `linkSubset` | invariant over the nested loops |
| C16 C17 | `List` engine | exact list equality; refinement to a set under any operation sequence |
| C18 C19 | `build`, `search` of the Patricia trie | induction on the remaining key length; exact equality with the list engine minus the root key; negation witness |
| C20 C21 | `add`, `delete` | the trie as a set of paths with edges; exact effect of every operation; refinement over histories |
| C22 C23 C24 | `build`, `splaySearch` | the tree as a stored relation; invariant for search sequences; multiset preservation; negation witness |
| C25 C26 C27 | `add`, `delete`, empty build | refinement over histories + negation witnesses |
| C28 C29 C30 | `LegacyEngine` | spec by counting; backing-array model for delete |
| C31 | text pattern vs. binary filter | from C33-C36 and C40 |
| C32 | all `Search` functions | case analysis |
| C33-C38 | `Translate`, `buildEPC`, `buildUII` | bit-field arithmetic on the 96-bit number |
| C39-C41 | `Make*96`, `NewPrefixFilter*` | digit and bit string arithmetic |
| C42-C47 C67 C68 | 6-bit codec, padding, check digit, PC word, ISO makers | induction on the string, arithmetic |
| C48-C52 C66 | `MarshalBinary`/`UnmarshalBinary` on token streams | structural induction; negation witnesses |
| C53-C56 C59 C69-C72 C75 C76 | factory + generators as a labelled transition system | invariants over all reachable states; explicit executions for the failures; explicit completing schedules |
| C83 | the same system, endless executions as sequences | a measure that decreases on every own move but the listener's |
| C57 C58 | generator statistics in the same system | invariants with ghost fields; failing traces |
| C60 C61 | main loop: framing, aggregation | induction on the stream / batch |
| C62 C73 C74 | statistics goroutine | induction on the messages |
| C63 C64 | `NewComposition`, `groupSequentialSlice` | bitwise reasoning; induction |
| C65 | CSV rows | induction on rows |
| C90 | the message loop and the searching goroutine as a transition system over bytes | invariant over all runs that splits the stream into messages taken and bytes pending; a decreasing measure for rest; C60, C61, C89 for what is owed |
| C91 | one search of the factory over the four engines, with any choice of the others and the selected one | invariant over histories of searches (the nodes of the splay tree are permuted; stored filters kept when nothing forks); filters nest as the sets of tags do; C89 for each engine, C90 for the run |
| C92 | all goroutines of `gosstrak-fc` in one transition system | the systems of C53 and C90 are both simulated: the state of the searching goroutine determines how far the search of C91 has come; then C83 for the rest, C90 and C91 |
| C93 | decoding of streams that were cut off or damaged | exact characterisation of the accepted streams by induction over the number of entries; a cut stream has a unique reading, so it cannot have all entries; cases over the shape of a node for trees |
| C94 | making filters from patterns and making tags: when they fail | case analysis on the number of fields; the other errors of the functions called are shown not to occur |
| C95 | the reader of the file of subscriptions, from its characters | simulation between the reader and a grammar of the text: strong induction on what is left to read, for both directions |
| C96 | searches with tags of any length | one lemma gives the result of a filter test in all cases; then induction over list and trees; the edges of a fresh trie are shown to lead to longest common prefixes, which says where a tag can end inside one |
| C97 | from a mixed file to the reports for tags of any length | the bits of a pattern start a tag exactly if the pattern selects it, proved once for EPC fields (whatever follows the tag), ISO text and patterns without a filter; the rest follows from C96 and the uniqueness of bits |
| C98 | the state machine of a generator with any number of callers | invariant: at most one goroutine can cause the next change of state; a decreasing measure |
| C99 | the whole program on files of all standards, tags of any length | invariant of the four engines kept by every answered search; refinement of C92 |
| C100 | the trie after any history, additions inside edges included | refinement of a flat description (filters, places, URIs), one simulation step per call, by induction on the trie; search by induction on the trie |
| C101 | the splay tree after any searches | refinement of lists of filters with moves to the front, by induction on the tree with its filters written out; invariants of the lists over runs |
| C102 | the whole program on files in which patterns fork | invariant of the engines over all searches with the lists of C101 for the splay tree, refinement of C92; run of the program by evaluation |
| C103 | the splay tree after any additions, deletions and searches | refinement of a row of groups of filters, one simulation step per call, by induction on the tree; invariants of the groups over runs |
| C104 | fields left out of a pattern are drawn anew at every conversion | a conversion with draws per pattern and call equals the function one by induction over the loops; the possible filters by an explicit choice of draws |
| C105 | a database that fails or does not answer | reports are conserved, so unanswered writes bound their number; tickers then leave every generator with a report it cannot hand over; the standstill by induction over the capacity |
| C106 | loading a saved engine into one in use | structural induction over the saved tree with the old one; trees as functions of places; the effect on filters of `NewFilter` from their closed form; pairs of trees as witnesses |
| C107 | the whole program with statistics, and a database that does not answer | projections on the systems of C92 and C105, the latter with moves that do nothing; the number of batches with tags is bounded, so the message loop stops at one of them; an endless execution as witness |
| C108 | the management port, `ale-ec` and `sixenc2bin` | projection of runs; induction on connections and characters; a run that is cut off as witness |
| C109 | every message is answered and every report collected in the end | strong fairness to each kind of move; ranking of each goroutine, from the listener to the generators, the search, the engines, the batches and the messages; a loop from a state of rest as witness |
| C110 | connections to the management port delay nothing for ever | the process as an execution of C109 that stands still while the port moves; an execution with connections for ever as witness |
| C111 | all but a bounded number of reports have arrived; one may be overtaken for ever | conservation of C69 and the bound of the channel; a round of eight moves from an invariant, with counters that grow, as witness |

## Disagreements between code and wished property

Each is stated in the property and proved with a concrete run or an exact description.

| id | the code | theorems |
|----|----------|----------|
| C02 | a short ID that agrees as far as it goes crashes `Match` | `C02_short_id_exact`, `C02_short_id_not_always_false` |
| C07 | a common prefix of a part of the list can be overlooked | `C07_which`, `C07_none_iff`, `C07_partial_lcp_incomplete` |
| C12 | of two URIs with one pattern only the last visited is kept | `C12_last_visited_wins`, `C12_one_uri_lost` |
| C13 | a malformed pattern becomes the empty filter and matches everything | `C13_malformed_matches_everything` |
| C18 | the Patricia trie never reports the filter at its root | `C18_agree_iff`, `C18_root_never_reported`, `C18_not_equal_to_list` |
| C20 | an addition inside an edge replaces the node below it | `C20_add_iff`, `C20_inside_exact`, `C20_inside_edge` |
| C21 | the last filter cannot be deleted; the URI of a deletion is ignored | `C21_delete_iff`, `C21_last_filter_stays`, `C21_ignores_uri` |
| C23 | a search changes the results of later ones as soon as a filter has two children | `C23_iff`, `C23_second_search_loses`, `C23_searches_interfere` |
| C25 | an added filter that is a prefix of a stored one is missed | `C25_exact`, `C25_iff`, `C25_prefix_missed` |
| C26 | a deleted filter with two children is reported as the empty URI; the only filter stays | `C26_iff`, `C26_reports_empty_uri`, `C26_only_filter_stays` |
| C27 | an empty splay tree crashes on every call | `C27_empty_panics` |
| C29 | deleting several patterns of a URI in one call corrupts its list | `C29_correct_iff`, `C29_several_corrupt` |
| C30 | duplicates in one call are stored twice; lists are shared with the caller | `C30_duplicates_in_one_call`, `C30_shares_with_caller` |
| C31 | the converse and ISO tags | `C31_converse_fails`, `C31_iso_confused` |
| C32 | a tag that matches but cannot be translated gives an error together with reports | `C32_error_with_reports` |
| C33-C36 | partition 7 gives a URN without company prefix; GRAI partition 0 prints no asset type | `C33_partition_seven`, `C34_partition_seven`, `C35_partition_seven`, `C35_partition_zero`, `C36_partition_seven` |
| C37 | an unknown header is not an error | `C37_unknown_header` |
| C38 | translation crashes on empty IDs and over-wide fields | `C38_crash_iff`, `C38_not_crash_free` |
| C39 | GRAI-96 with a twelve digit company prefix loses its asset type | `C39_grai_twelve` |
| C40 | impossible filter values and company prefixes are accepted | `C40_invalid_accepted`, `C40_bad_company_prefix` |
| C42 | spaces are lost | `C42_spaces_lost` |
| C45 | a full ISO 17363 pattern is always rejected | `C45_error_iff`, `C45_full_rejected`, `C45_full_matches_everything` |
| C47 | long lengths crash or give a wrong PC word | `C47_crash_iff`, `C47_long` |
| C50 | a decoded Patricia trie lacks branches | `C50_decoded`, `C50_equal_iff`, `C50_lost_match`, `C50_false_alarm` |
| C51 | a decoded legacy engine is empty | `C51_never_stored`, `C51_no_match`, `C51_silent` |
| C58 | matches can be counted in no events, or lost | `C58_unbounded`, `C58_lost` |
| C59 | management messages are dropped | `C59_ignored`, `C59_unchanged` |
| C60 | a length field below 10 swallows the stream | `C60_underflow` |
| C61 | collected reports are not sent (main.go:241-243) | `C61_collected` |
| C62 | every write repeats all earlier points | `C62_repeated`, `C62_total` |
| C63 | filters in adjacent bytes, one string at two offsets | `C63_exact`, `C63_last_iff`, `C63_apart`, `C63_adjacent_moved`, `C63_same_string_lost`, `C63_ill_formed_object` |
| C65 | patterns with capital letters in the prefix are loaded but ignored | `C65_wrong_case_ignored` |
| C68 | an empty filter value, the full ISO 17363 pattern | `C68_empty_filter_value`, `C68_iso17363_full` |
| C69 | a selection notice can be dropped | `C69_selected_lost` |
| C70 | an older throughput can come back | `C70_stale` |
| C73 | a refused measurement ends the process | `C73_refused`, `C73_fast_engine_ends` |
| C74 | a tick before the first selection is recorded as the legacy engine | `C74_none_is_legacy` |
| C75 | a replacement during a search | `C75_twice` |
| C79 | `Dump` of an empty splay tree panics | `C79_splay_empty` |
| C80 | `MakeISO` panics for transport units of 83 characters and more | `C80_iso_crash` |
| C80 | `gobtags` reads a malformed ID as the empty one without an error | `C80_read` |
| C81 | references drawn for GIAI-96 may not fit and leave a blank line | `C81_giai` |
| C81 | the first filter of an ISO 17365 set selects tags meant to match no filter | `C81_mismatch` |
| C81 | 31 filter lines per round where 20 are intended | `C81_counts` |
| C82 | `equal` takes engines with further filters for equal | `C82_splay_one_sided`, `C82_trie_one_sided` |
| C83 | the listener can keep taking back and forwarding a report, so that a search waits forever | `C83_livelock`, `C83_starved` |
| C84 | `makePatriciaSubset` leaves a filter beside a longer one with the same start, and drops what is below a filter that is itself the common start | `C84_top_not_prefix_free`, `C84_not_patricia`, `C84_nested_lost` |
| C85 | a pattern with a negative filter value selects every tag there is | `C85_negative`, `C85_reported` |
| C85 | a filter value that is not a number is taken for 0 | `C85_small` |
| C47 | an AFI text that is not a hexadecimal number is 0 or 255 without an error | `C47_afi`, `C47_afi_trailing` |
| C87 | a report URI with a newline makes the texts of different subscriptions equal | `C87_newline` |
| C88 | the last filter line of a data set can be missing from filters.csv, because main does not wait for the filter writer | `C88_lost` |
| C88 | two GRAI-96 sets with the same asset type, which a round can draw, end the data set tool by log.Fatal before the rest is written | `C88_same_asset`, `C88_fatal` |
| C89 | of several URIs with patterns that select the same tags only one gets the reports, chosen by map order | `C89_rivals` |
| C90 | the option for the initial message ID has no effect: `currentMessageID` is computed before the command line is read, and every reply has the message ID 0 | `C90_message_id` |
| C90 | a batch under way is lost when an unknown message comes or the connection closes | `C90_lost` |
| C90 | one tag that is due to somebody and whose translation panics ends the program | `C90_killer` |
| C91 | the reports depend on which engine is selected, that is on measured speed: with one pattern the trie reports a due tag to nobody, and the legacy engine reports a tag that is not due | `C91_depends` |
| C91 | while the legacy engine is ready one tag whose translation panics ends the program, even if it is due to nobody | `C91_killer` |
| C93 | a value that is not a filter, anywhere but at the end of a saved list, is accepted without an error, and then every search panics on the nil filter | `C93_list_accepts`, `C93_list_content`, `C93_list_panics` |
| C93 | errors in the match branch of a splay tree or in the one branch of a trie are never reported; a node there can lose its filter silently | `C93_splay_match`, `C93_patricia_one` |
| C93 | a trie node with only a child for zero is accepted although its stream ends before the child | `C93_patricia_silent` |
| C93 | a saved legacy engine of one subscriber is accepted when cut off anywhere behind the first pattern | `C93_legacy_silent` |
| C95 | a file of subscriptions that is not well-formed CSV, for example with an odd number of quotes, makes the program panic | `C95_panics`, `C95_odd_quotes` |
| C95 | in a quoted field a carriage return before a line feed is lost | `C95_written` |
| C96 | a tag that ends inside a filter (the filter begins with all its bits and goes on) makes List and SplayTree searches panic; a PatriciaTrie search panics unless the filters fork there | `C96_list`, `C96_splay`, `C96_patricia` |
| C97 | an ISO pattern that starts with L (for GIAI: M) can select EPC tags, and with that letter alone selects all of them; the engines look at the ID only, not at the toggle bit | `C97_iso_pattern_epc_tag` |
| C97 | an item tag whose data identifier starts with L or M can be selected by an EPC pattern | `C97_item_tag_taken_for_epc` |
| C97 | container and item patterns with the same text select the same tags, wherever their fields end | `C97_texts` |
| C98 | an update of a generator makes no new engine, it only announces the old one again; a wrong argument panics | `C98_update`, `C98_wrong` |
| C99 | a tag that ends inside a pattern ends the program while the list or the splay tree is selected; the same tag may be harmless with the trie | `C99_search`, `C99_killer` |
| C100 | an addition inside an edge cannot be taken back by a deletion; after it a tag longer than all filters may make the search panic | `C100_no_undo`, `C100_second_addition`, `C100_crash` |
| C101 | a filter that is not the first child of its longest stored prefix is reported together with it at most once; searches make the tree report subscriptions wrongly as soon as a filter other than the empty one has two children | `C101_once`, `C101_only_true_iff` |
| C102 | on a file that forks, with the splay tree selected, the program loses a report that is due and makes one that is not | `C102_misreports`, `C102_only_due_iff` |
| C103 | after one search an addition may be looked for at a place where it does not belong, a deletion may do nothing or take away another subscription, and a search may panic for a tag as long as all filters | `C103_add_lost`, `C103_delete_ignored`, `C103_delete_other`, `C103_long_panics` |
| C104 | a field left out of a pattern does not stand for any value but for a value drawn at every conversion: a deletion misses what was added, a second addition is stored again, engines built from the same subscriptions disagree | `C104_delete_iff`, `C104_twice_iff`, `C104_misses`, `C104_engines_differ`, `C104_trees_keep` |
| C105 | a database that does not answer stops the filtering for good, one that fails ends it | `C105_stalls`, `C105_frozen`, `C105_waits`, `C105_refused` |
| C106 | loading into an engine in use leaves zero fields of old filters, and old zero branches of a trie | `C106_splay_wrong`, `C106_patricia_wrong`, `C106_patricia_stays` |
| C107 | a database that does not answer stops the replies to the reader for good | `C107_silent`, `C107_deaf`, `C107_unanswered`, `C107_mute`, `C107_waits`, `C107_refused` |
| C108 | trouble with the management port ends the filtering; `sixenc2bin` panics without an argument | `C108_trouble`, `C108_any_moment`, `C108_sudden`, `C108_sixenc_missing` |
| C109 | with a scheduler that is fair only to goroutines that can go on without interruption, the listener can starve the search and the replies by putting its own message back for ever | `C109_weak` |
| C111 | a report that a generator has handed over may never reach the main program, though no goroutine and no case of a `select` is passed over for ever: the listener can put it back into the main channel for ever | `C111_overtaken` |


## Go functions and their model

Generated from the line numbers cited in `Verif/Model`. Functions without an entry are not modelled.


### cmd/ale-ec/main.go

* `main` (28-78): `aleLoop`

### cmd/gobtags/main.go

* `makeByteID` (25-31): `makeByteID`
* `makeUint16PC` (33-39): `makeUint16PC`

### cmd/gosstrak-fc/main.go

* `run` (118-304): `Config.code`, `Label`, `step`, `FcReply`, `Fc`, `fcAct`, `fcCollect`, `LlrpHeaders`, `messageSize`, `readMessage`, `llrpSwitch`, `llrpLoop`, `addReports`, `collectReports`, `Managed`, `manStart`, `Managed.up`, `monStart`, `Msg.toStat`, `Watched`, `start`, `progStart`
* `main` (306-324): `fcParse`, `fcStart`

### filtering/composition.go

* `NewComposition` (27-122): `wildcards`, `headLoop`, `tailLoop`, `orBytes`, `xorBytes`, `childLoop`, `childStep`, `newComposition`
* `processWildcard` (126-135): `wildcards`, `processWildcard`
* `groupSequentialSlice` (139-154): `groupStep`, `groupSequentialSlice`

### filtering/engine.go

* `timeTrack` (44-46): `step`
* `findPartialLCP` (50-87): `stripHead`, `findPartialLCP`
* `lcp` (93-120): `minMaxStep`, `cutAtDiff`, `lcp`
* `getNextBit` (123-136): `getNextBit`

### filtering/engine_factory.go

* `EngineFactory.IsActive` (32-37): `isActive`
* `EngineFactory.Search` (40-47): `FactorySearch`, `Searcher`, `Label`, `step`, `Prog`
* `NewEngineFactory` (50-82): `Config`, `codePriority`, `start`
* `EngineFactory.Run` (85-203): `Listener`, `Selector`, `Label`, `listenerStep`, `selectorStep`, `step`, `move`

### filtering/engine_generator.go

* `NewEngineGenerator` (35-105): `Fsm`, `Monitor`, `Label`, `start`, `step`, `FsmEvent`, `fsmDst`, `fsmStart`
* `EngineGenerator.Search` (108-115): `EngineSearch`, `Searcher`, `Label`, `step`
* `EngineGenerator.enterState` (117-119): `Label`, `step`
* `EngineGenerator.enterGenerating` (121-128): `Builder`, `Label`, `step`, `move`
* `EngineGenerator.enterRebuilding` (130-153): `Label`, `step`, `move`
* `EngineGenerator.enterReady` (155-161): `Builder`, `Label`, `step`, `move`
* `EngineGenerator.enterPending` (163-166): `move`, `step`

### filtering/filter_object.go

* `FilterObject.GetByteAt` (35-44): `getByteAtLoop`, `getByteAt`
* `FilterObject.HasByteAt` (48-55): `hasByteAt`
* `FilterObject.Match` (58-65): `matchLoop`, `matchID`, `searchDecodedList`
* `FilterObject.ToString` (68-70): `FilterObject.toStr`
* `FilterObject.IsTransparent` (74-84): `isTransparent`
* `makeFilter` (87-130): `makeFilter`
* `NewFilter` (133-147): `parseBin`, `newFilter`

### filtering/legacy_engine.go

* `LegacyEngine.AddSubscription` (20-32): `legacyAddElem`, `legacyAddKey`, `legacyAdd`
* `LegacyEngine.DeleteSubscription` (35-50): `legacyDeleteElem`, `legacyDeleteKey`, `legacyDelete`
* `LegacyEngine.Dump` (53-59): `legacyDump`
* `LegacyEngine.MarshalBinary` (62-82): `marshalLegacy`
* `LegacyEngine.Search` (90-137): `legacyText`, `legacyMatches`, `legacySearch`
* `LegacyEngine.UnmarshalBinary` (140-178): `unmarshalLegacyInner`, `unmarshalLegacyLoop`, `unmarshalLegacy`
* `NewLegacyEngine` (181-192): `newLegacy`
* `stringIndexInSlice` (197-204): `stringIndex`

### filtering/list.go

* `List.AddSubscription` (34-46): `ListEngine.applyDrawn`, `exactMatches`, `ListEngine.addOne`, `ListEngine.addSubscription`
* `List.DeleteSubscription` (49-61): `ListEngine.applyDrawn`, `exactMatches`, `ListEngine.deleteOne`, `ListEngine.deleteSubscription`
* `ListFilters.IndexOf` (65-72): `ListEngine.indexOf`
* `List.Dump` (75-81): `ListEngine.dump`
* `List.MarshalBinary` (84-101): `marshalList`
* `List.Search` (109-120): `searchDecodedList`, `finishSearch`, `ListEngine.matches`, `ListEngine.search`
* `List.UnmarshalBinary` (123-153): `unmarshalListLoop`, `unmarshalList`
* `NewList` (157-174): `ListEngine.runDrawn`, `exactMatches`, `newList`

### filtering/patricia_trie.go

* `PatriciaTrie.AddSubscription` (36-41): `PNode.applyDrawn`, `PatMem.call`, `PNode.addSubscription`, `PNode.applyOp`
* `PatriciaTrie.DeleteSubscription` (44-49): `PNode.applyDrawn`, `PatMem.call`, `PNode.deleteSubscription`, `PNode.applyOp`
* `PatriciaTrie.Dump` (52-56): `PNode.dump`
* `PatriciaTrie.MarshalBinary` (59-70): `marshalPatricia`
* `PatriciaTrie.Search` (78-85): `finishSearch`, `PNode.searchEngine`
* `PatriciaTrie.UnmarshalBinary` (88-104): `unmarshalPatricia`, `unmarshalPatriciaOver`
* `PatriciaTrieNode.MarshalBinary` (107-136): `PNode.marshal`
* `PatriciaTrieNode.UnmarshalBinary` (139-181): `unmarshalPNode`, `unmarshalPNodeOver`
* `PatriciaTrieNode.add` (186-246): `leaf`, `patAdd`, `add`
* `PatriciaTrieNode.build` (249-306): `Mem.setUri`, `patBuildChild`, `patBuild`, `branch`, `build`
* `PatriciaTrieNode.delete` (309-359): `patDeleteChild`, `patDelete`, `isLeafWith`, `delete`
* `PatriciaTrieNode.equal` (361-385): `PNode.equal`
* `PatriciaTrieNode.print` (387-399): `reportText`, `PNode.print`
* `PatriciaTrieNode.search` (401-424): `patSearch`, `search`
* `NewPatriciaTrie` (428-447): `PNode.runDrawn`, `newPatMem`, `newPatriciaFrom`, `newPatricia`

### filtering/splay_tree.go

* `SplayTree.AddSubscription` (36-41): `SNode.applyDrawn`, `SplayMem.call`, `SplayMem.run`, `SNode.addSubscription`, `SNode.applyCall`
* `SplayTree.DeleteSubscription` (44-49): `SNode.applyDrawn`, `SplayMem.call`, `SplayMem.run`, `SNode.deleteSubscription`, `SNode.applyCall`
* `SplayTree.Dump` (52-56): `SNode.dump`
* `SplayTree.MarshalBinary` (59-70): `marshalSplay`
* `SplayTree.Search` (78-85): `SNode.applyDrawn`, `finishSearch`, `SplayMem.call`, `SplayMem.run`, `search`, `SNode.searchEngine`, `SNode.applyCall`
* `SplayTree.UnmarshalBinary` (88-104): `unmarshalSplay`, `unmarshalSplayOver`
* `SplayTreeNode.MarshalBinary` (107-136): `SNode.marshal`
* `SplayTreeNode.UnmarshalBinary` (139-179): `unmarshalSNode`, `unmarshalSNodeOver`
* `SplayTreeNode.add` (184-210): `alloc`, `upd`, `leaf`, `splayAdd`, `add`
* `SplayTreeNode.build` (212-233): `splayBuildKeys`, `splayBuild`, `buildStep`, `build`
* `SplayTreeNode.delete` (236-275): `splayDelete`, `isLeafWith`, `delete`
* `SplayTreeNode.equal` (277-301): `SNode.equal`
* `SplayTreeNode.print` (303-317): `reportText`, `SNode.print`
* `SplayTreeNode.splaySearch` (319-342): `splaySearchAt`, `splaySearch`, `attach`
* `NewSplayTree` (346-362): `SNode.runDrawn`, `linkSubset`, `newSplayMem`, `newSplayFrom`, `newSplay`

### filtering/subscriptions.go

* `Subscriptions.Clone` (37-46): `cloneElem`, `cloneKey`, `clone`
* `Subscriptions.Keys` (49-58): `mapKeys`
* `Subscriptions.MarshalBinary` (61-82): `marshalSubs`
* `Subscriptions.UnmarshalBinary` (85-117): `unmarshalDests`, `unmarshalSubsLoop`, `unmarshalSubs`
* `Subscriptions.ToByteSubscriptions` (120-141): `Binutil.convert`, `ofFlat`, `storePattern`, `toByteSubscriptions`
* `LoadSubscriptionsFromCSVFile` (144-181): `indexSplit`, `dropCR`, `csvLine`, `dropNL`, `csvFields`, `csvQuoted`, `csvRecords`, `loadFile`, `loadPattern`, `loadRecord`, `loadRecords`
* `PartialSubscription.MarshalBinary` (184-199): `PSub.marshal`
* `PartialSubscription.UnmarshalBinary` (202-221): `unmarshalPSub`, `unmarshalPSubOver`
* `ByteSubscriptions.Dump` (224-228): `BSub.dump`
* `ByteSubscriptions.Keys` (231-240): `mapKeys`
* `ByteSubscriptions.linkSubset` (243-287): `linkStep`, `link`
* `ByteSubscriptions.makePatriciaSubset` (290-357): `patGroupStep`, `firstOffset`, `patGroupRound`, `patGroupLoop`, `linkUnder`, `patSubset`, `makePatriciaSubset`
* `ByteSubscriptions.print` (360-368): `BSub.print`

### monitoring/stat_manager.go

* `NewStatManager` (22-113): `monStart`, `PointResult`, `Percent`, `engineType`, `buildPoint`, `StatState.handle`, `Watched`, `start`, `receive`

### scheme/epc.go

* `GetAssetType` (78-89): `getRef`
* `GetCompanyPrefix` (92-101): `getCompanyPrefix`
* `GetExtension` (104-115): `getRef`
* `GetFilter` (118-126): `getFilter`
* `GetIndivisualAssetReference` (130-141): `getRef`
* `GetItemReference` (144-156): `getRef`
* `GetSerial` (159-170): `getSerial`
* `MakeGIAI96` (173-231): `pack96`, `makeGIAI96`
* `MakeGRAI96` (234-298): `pack96`, `make4`, `makeGRAI96`
* `MakeSGTIN96` (301-364): `pack96`, `make4`, `makeSGTIN96`
* `MakeSSCC96` (367-425): `pack96`, `makeSSCC96`

### scheme/generate.go

* `CheckIfStringInSlice` (15-22): `checkIfStringInSlice`
* `MakeEPC` (25-59): `Binutil.makeAny`, `Binutil.makeEPC`
* `MakeISO` (62-95): `isoTexts`, `Binutil.makeISO`
* `MakeISOPC` (98-109): `makeISOPC`
* `Sixenc2bin` (112-119): `Binutil.sixenc2bin`
* `PrintGoBytes` (122-129): `BinText.printGoBytes`
* `PrintID` (132-137): `printID`

### scheme/iso.go

* `GetISO6346CD` (13-25): `cdAlphabet`, `schemeCD`
* `MakeISO17363` (28-88): `packISO`, `makeISO17363`
* `MakeISO17365` (91-141): `packISO`, `makeISO17365`
* `Pad6BitEncodingRuneSlice` (146-159): `pad6Bit`

### scheme/sixenc2bin/main.go

* `sixenc2bin` (10-17): `Binutil.sixenc2bin`
* `main` (19-24): `sixencMain`

### tdt/core.go

* `Core.Translate` (67-82): `translate`
* `Core.buildEPC` (84-801): `partitionRow`, `cpBytes`, `refBytes`, `extBytes`, `iarBytes`, `serialBytes`, `cpText`, `buildSGTIN`, `buildSSCC`, `buildGRAI`, `buildGIAI`, `buildEPC`
* `Core.buildUII` (803-837): `afiURN`, `buildUII`
* `MakePrefixFilterString` (845-862): `encoder`, `Encoder`
* `parse6BitEncodedByteSliceToString` (864-903): `sixBits`, `parse6Bit`

### tdt/epc.go

* `getAssetType` (82-93): `getRef`
* `getCompanyPrefix` (96-105): `getCompanyPrefix`
* `getExtension` (108-119): `getRef`
* `getFilter` (122-130): `Toss`, `getFilter`
* `getIndivisualAssetReference` (133-144): `getRef`
* `getItemReference` (147-159): `getRef`
* `getSerial` (162-173): `getSerial`
* `NewPrefixFilterGIAI96` (176-202): `prefixFilter3`
* `NewPrefixFilterGRAI96` (205-237): `prefixFilter4`
* `NewPrefixFilterSGTIN96` (240-272): `prefixFilter4`
* `NewPrefixFilterSSCC96` (275-301): `prefixFilter3`

### tdt/iso.go

* `getISO6346CD` (17-28): `cdAlphabet`, `cdSum`, `isoCD`
* `pad6BitEncodingRuneSlice` (33-46): `pad6Bit`
* `NewPrefixFilterISO17363` (49-92): `prefixFilterISO17363`
* `NewPrefixFilterISO17365` (95-127): `prefixFilterISO17365`

### test/gendataset.go

* `filterWriter` (47-64): `filterFile`, `GenState.writerStep`
* `generateNonZeroDigits` (66-75): `nonZeroDigits`
* `generateUIISet` (77-240): `Binutil.epcLine`, `Binutil.isoLine`, `allOf`, `both`, `Binutil.uiiSet`, `UIIParam.path`, `Binutil.job`, `Phase`, `GenState.workerStep`
* `main` (242-393): `Draw`, `Draw.params`, `GenState.mainStep`, `genStart`

### Not modelled

* cmd/gobtags/main.go:41-60 `main`: loads with one library call and saves with another; the helpers, which it does not call, are modelled
* cmd/gosstrak-fc/main.go:109-116 `getPackagePath`: command line and directories
* filtering/legacy_engine.go:85-87 `LegacyEngine.Name`: a constant, used as such in the model
* filtering/list.go:104-106 `List.Name`: a constant, used as such in the model
* filtering/patricia_trie.go:73-75 `PatriciaTrie.Name`: a constant, used as such in the model
* filtering/splay_tree.go:73-75 `SplayTree.Name`: a constant, used as such in the model
* tdt/core.go:27-31 `NewCore`: allocates an empty structure, or does nothing
* tdt/core.go:34-43 `Core.LoadEPCTagDataTranslation`: allocates an empty structure, or does nothing
* tdt/core.go:839-841 `Core.buildProprietary`: a constant, part of `translate`
* test/gendataset.go:43-45 `getTargetDir`: a path

## Axioms

Output of `#print axioms` for every theorem named in MANIFEST.json, grouped.

* none (1): C64_empty
* propext (5): C06_lcp_nil, C59_ignored, C80_in_slice, C80_sixenc, C93_subs_content
* propext, Quot.sound (59): C03_transparent_iff_wildcards, C100_reports_unique, C101_walk_unique, C106_fresh_subscription, C106_partial_subscription, C106_partial_subscription_damaged, C106_patricia_made, C108_ale, C111_missing, C24_keeps_nodes, C52_partial_subscription, C52_subscriptions, C53_no_crash, C53_searched, C53_usable, C54_permanent, C55_initial, C57_count, C57_events, C57_throughput, C58_apart, C59_unchanged, C60_aligned, C60_consumed, C60_portions, C60_underflow, C60_unknown, C61_collected, C61_is_map, C64_groups, C69_conserved, C70_reported, C72_completes, C76_announced, C76_notice, C77_no_sharing, C78_search, C80_pc, C80_read, C81_nonZeroDigits, C83_livelock, C85_filter_value, C88_ends, C88_one_worker, C90_bounded, C90_lost, C93_list_panics, C93_patricia_cut, C93_patricia_one, C93_patricia_silent, C93_psub_content, C93_psub_cut, C93_splay_cut, C93_splay_empty, C93_splay_match, C93_splay_mismatch, C95_reads, C95_written, C96_branch_too_short
* propext, Classical.choice, Quot.sound (448): C01_match_iff_carries, C01_only_window_matters, C02_short_id_disagreeing, C02_short_id_exact, C02_short_id_not_always_false, C03_transparent_iff_matches_all, C04_getByteAt_iff_hasByteAt, C04_hasByteAt_iff, C04_match_iff_bytes, C05_split, C06_lcp, C06_lcp_same_elements, C07_none_iff, C07_partial_lcp, C07_partial_lcp_incomplete, C07_which, C08_getNextBit, C09_keys, C09_keys_any_order, C100_crash, C100_history, C100_known, C100_no_undo, C100_second_addition, C101_all_or_none, C101_exact, C101_never_silent, C101_once, C101_only_true_iff, C101_settles, C102_long, C102_misreports, C102_only_due_iff, C102_program, C102_search, C103_add_found, C103_add_lost, C103_add_only, C103_delete_ignored, C103_delete_other, C103_exact, C103_given_only, C103_long_panics, C103_updates_end, C104_all_choices, C104_choices, C104_delete_iff, C104_engines_differ, C104_misses, C104_never_seven, C104_open_iff, C104_selects, C104_settled, C104_settled_list, C104_settled_patricia, C104_settled_splay, C104_trees_keep, C104_twice_iff, C105_ahead, C105_completes, C105_frozen, C105_off, C105_refused, C105_stalls, C105_waits, C105_within, C105_written, C106_cut, C106_fresh, C106_other_kind, C106_patricia_again, C106_patricia_damaged, C106_patricia_damaged_inside, C106_patricia_equal, C106_patricia_error, C106_patricia_full, C106_patricia_stays, C106_patricia_wrong, C106_splay, C106_splay_again, C106_splay_damaged, C106_splay_damaged_inside, C106_splay_equal, C106_splay_made, C106_splay_wrong, C107_deaf, C107_mute, C107_refused, C107_rest, C107_silent, C107_unanswered, C107_waits, C107_within, C108_any_moment, C108_sixenc, C108_sixenc_missing, C108_sudden, C108_trouble, C108_within, C109_answered, C109_exists, C109_killer, C109_monitored, C109_monitored_exists, C109_ready, C109_reports, C109_weak, C10_clone, C10_writes, C110_answered, C110_exists, C110_open, C111_overtaken, C11_exact, C11_order_independent, C12_last_visited_wins, C12_one_uri_lost, C13_malformed_matches_everything, C13_splay, C14_keeps_everything, C15_prefix_free, C16_order_independent, C16_search, C17_add_idempotent, C17_delete_absent, C17_history, C18_agree_iff, C18_not_equal_to_list, C18_root_never_reported, C18_search, C19_empty_tag, C19_no_panic, C20_C21_benign_history, C20_C21_history, C20_add_iff, C20_add_one, C20_inside_edge, C20_inside_exact, C21_delete_iff, C21_delete_one, C21_ignores_uri, C21_last_filter_stays, C22_equals_list, C22_first_search, C23_C25_C26_history, C23_C25_C26_reached, C23_iff, C23_searches, C23_searches_interfere, C23_second_search_loses, C24_no_panic, C25_add, C25_exact, C25_iff, C25_prefix_missed, C26_delete, C26_iff, C26_only_filter_stays, C26_reached, C26_reports_empty_uri, C27_empty_panics, C28_search, C28_untranslatable, C29_C30_history, C29_correct_iff, C29_delete_absent, C29_delete_length, C29_delete_single, C29_several_corrupt, C30_add, C30_duplicates_in_one_call, C30_mem, C30_shares_with_caller, C31_binary_implies_text, C31_converse_fails, C31_engines, C31_iso_confused, C31_pattern, C31_reports, C32_error_with_reports, C32_errors, C33_crash_iff, C33_partition_seven, C33_unique, C33_urn, C34_crash_iff, C34_partition_seven, C34_urn, C35_crash_iff, C35_partition_seven, C35_partition_zero, C35_urn, C36_crash_iff, C36_partition_seven, C36_urn, C37_iso, C37_iso_error, C37_length, C37_pc_irrelevant, C37_pc_length, C37_unknown_header, C38_crash_iff, C38_not_crash_free, C38_safe, C39_fields, C39_grai_twelve, C39_round_trip, C40_bad_company_prefix, C40_encoded, C40_invalid_accepted, C40_selects, C41_error_iff, C41_length, C41_rejects, C41_succeeds, C42_round_trip, C42_spaces_lost, C43_padding, C44_check_digit, C44_length, C44_other_characters, C45_error_iff, C45_full_matches_everything, C45_full_rejected, C46_extends, C46_subset, C47_afi, C47_afi_every, C47_afi_trailing, C47_crash_iff, C47_long, C47_pc, C48_round_trip, C49_round_trip, C50_decoded, C50_equal_iff, C50_false_alarm, C50_full, C50_lost_match, C51_error_if_few, C51_never_stored, C51_no_match, C51_silent, C55_order, C55_trie, C56_interleaved, C56_replaces, C56_undisturbed, C58_exact, C58_lost, C58_unbounded, C61_list, C62_other, C62_repeated, C62_too_few, C62_total, C62_untyped, C62_writes, C63_adjacent_moved, C63_apart, C63_composite, C63_crash_iff, C63_equivalent, C63_exact, C63_ill_formed_object, C63_last_iff, C63_same_string_lost, C64_unique, C65_loaded, C65_wrong_case_ignored, C66_legacy, C66_list, C66_patricia, C66_splay, C67_iso17363, C67_iso17365, C68_empty_filter_value, C68_epc, C68_iso17363, C68_iso17363_full, C68_iso17365, C69_selected_lost, C70_stale, C71_infinite, C71_selected, C73_fast_engine_ends, C73_proper, C73_refused, C74_distinct, C74_none_is_legacy, C75_at_most_twice, C75_each_once, C75_twice, C76_tick, C77_call, C77_history, C77_new, C77_reports, C78_call, C78_history, C78_new, C78_reports, C79_linked_faithful, C79_list_faithful, C79_splay_empty, C79_splay_faithful, C79_splay_text, C79_trie_faithful, C80_epc_error, C80_epc_filter, C80_epc_tag, C80_iso17363_tag, C80_iso17365_tag, C80_iso_crash, C80_iso_error, C80_iso_filter, C80_print, C81_counts, C81_giai, C81_grai, C81_iso17363, C81_iso17365, C81_mismatch, C81_noFilter, C81_round17365, C81_sgtin, C81_sscc, C82_splay, C82_splay_both, C82_splay_one_sided, C82_trie, C82_trie_both, C82_trie_one_sided, C83_bounded, C83_endless, C83_fair, C83_reaches_rest, C83_rest, C83_startup, C83_starved, C84_below, C84_keeps, C84_nested_lost, C84_new_words, C84_not_patricia, C84_offsets, C84_terminates, C84_top, C84_top_not_prefix_free, C84_top_parts, C85_counts, C85_empty_company, C85_make, C85_negative, C85_reported, C85_selects, C85_small, C86_bound_matters, C86_container, C86_filled, C86_item, C86_urn, C87_faithful, C87_newline, C87_plain, C87_readable, C87_text, C88_fatal, C88_lost, C88_rounds, C88_same_asset, C88_same_file, C88_written, C89_batch, C89_engines, C89_exact, C89_made, C89_rivals, C90_comes_to_rest, C90_ends, C90_file, C90_in_order, C90_killer, C90_message_id, C90_messages, C90_why, C91_agree, C91_answers, C91_depends, C91_killer, C91_program, C92_chosen, C92_killer, C92_program, C92_refines, C92_reports, C92_rest, C93_legacy_cut, C93_legacy_silent, C93_list_accepts, C93_list_answers, C93_list_content, C93_list_cut, C93_patricia_file, C93_splay_file, C93_subs_accepts, C93_subs_cut, C94_container_filter, C94_container_pattern, C94_container_tag, C94_epc, C94_epc_filter, C94_item_pattern, C94_item_tag, C94_unknown, C95_crlf, C95_empty_record, C95_final_line_end, C95_line_ends, C95_loaded, C95_no_quotes, C95_odd_quotes, C95_panics, C95_search, C95_written_same, C96_list, C96_list_history, C96_patricia, C96_patricia_history, C96_safe, C96_splay, C96_splay_equals_list, C96_splay_history, C96_trie_survives, C97_container, C97_cut, C97_engines, C97_epc_pattern_iso_tag, C97_exact, C97_iso_pattern_epc_tag, C97_item, C97_item_tag_taken_for_epc, C97_texts, C99_agree, C99_branch, C99_killer, C99_program, C99_search
