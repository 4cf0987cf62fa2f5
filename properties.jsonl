{"id": "C01", "title": "A filter matches exactly the IDs carrying its bits", "statement": "For a filter string over {0,1,x} placed at a bit offset, Match(id) on an ID long enough to cover it is true iff every non-x character equals the corresponding bit of the ID; bits outside the filter never matter.", "quantifier": "every filter string over {0,1,x}, every offset, every ID with enough bytes", "why_tests_cant": "the space is all strings x offsets (8 alignments, unbounded bytes) x IDs; byte padding/masking mistakes show only on particular alignments", "anchors": ["filtering/filter_object.go: NewFilter, makeFilter, FilterObject.Match"]}
{"id": "C02", "title": "Matching a short ID", "statement": "A tag ID shorter than a filter should be reported as a non-match. In the code Match crashes (index out of range) iff all bits of the filter that lie inside the ID agree with it; otherwise it returns false.", "quantifier": "every filter and every ID shorter than the filter", "why_tests_cant": "crash only happens for IDs that agree on all present bytes", "anchors": ["filtering/filter_object.go: FilterObject.Match"]}
{"id": "C03", "title": "Transparency is exactly match-everything", "statement": "IsTransparent() is true iff the filter matches every long-enough ID; for a filter built from a string this is iff the string consists only of x (the empty string included).", "quantifier": "every filter string/offset; universally over IDs on the match side", "why_tests_cant": "the right-hand side quantifies over all IDs", "anchors": ["filtering/filter_object.go: FilterObject.IsTransparent, NewFilter"]}
{"id": "C04", "title": "Byte accessors agree with each other and with Match", "statement": "GetByteAt(bo) succeeds iff HasByteAt(bo), returns the filter/mask byte covering ID byte bo, and Match is true iff every byte reported by GetByteAt agrees with the ID under the mask.", "quantifier": "every filter built by NewFilter, every byte position", "why_tests_cant": "all offsets and lengths", "anchors": ["filtering/filter_object.go: FilterObject.GetByteAt, HasByteAt, Match"]}
{"id": "C05", "title": "Splitting a filter is sound", "statement": "A filter for s followed by t at offset o matches an ID iff the filter for s at o and the filter for t at o+len(s) both match it.", "quantifier": "every s, t, o and long-enough ID", "why_tests_cant": "the engines rely on this for every split point and alignment", "anchors": ["filtering/filter_object.go: NewFilter, Match", "filtering/patricia_trie.go: build", "filtering/subscriptions.go: linkSubset"]}
{"id": "C06", "title": "Longest common prefix", "statement": "lcp(l) is a prefix of every element of l, and every common prefix of a non-empty l is a prefix of lcp(l).", "quantifier": "every list of strings", "why_tests_cant": "all lists; correctness rests on the lexicographic min/max argument", "anchors": ["filtering/engine.go: lcp"]}
{"id": "C07", "title": "Partial LCP counts what it claims", "statement": "If the partial-LCP search over bit strings returns a prefix p and size n with p non-empty, then exactly n elements of the list start with p and n >= 2, and p is the longest common start of those; it returns size 0 iff it returns the empty prefix. The search does not find every common start: call p a group if, from some word P of bits shorter than p that starts two or more strings, all strings starting with P go on to p and part there, while at every word above P the strings part at once. The answer is the group that comes first in the order of the strings, and the answer is empty exactly if wherever two or more strings have a common start they part there.", "quantifier": "every list of bit strings", "why_tests_cant": "recursive on the list; all lists", "anchors": ["filtering/engine.go: findPartialLCP"]}
{"id": "C08", "title": "Next-bit lookup", "statement": "getNextBit(id,n) returns '1'/'0' according to bit n of the ID (most significant first), the end marker iff n is exactly the bit length, and an error iff beyond.", "quantifier": "every ID and every bit position", "why_tests_cant": "unbounded IDs and positions", "anchors": ["filtering/engine.go: getNextBit"]}
{"id": "C09", "title": "Keys are complete, sorted and deterministic", "statement": "Keys() of a subscription map returns each key exactly once in ascending order, whatever order the runtime iterates the map in.", "quantifier": "every map and every iteration order", "why_tests_cant": "Go randomises map iteration; tests see only some orders", "anchors": ["filtering/subscriptions.go: Subscriptions.Keys, ByteSubscriptions.Keys"]}
{"id": "C10", "title": "Clone is equal and independent", "statement": "Clone() returns a map with the same URI->patterns content sharing no storage with the original: after any later element writes through either, in any order, each holds what an independent map with that content would hold after the writes made through it.", "quantifier": "every map and every later sequence of element writes", "why_tests_cant": "aliasing bugs depend on later writes", "anchors": ["filtering/subscriptions.go: Subscriptions.Clone"]}
{"id": "C11", "title": "Converting patterns to filters is order independent", "statement": "If no two report URIs' patterns encode to the same filter string, ToByteSubscriptions yields exactly one entry per pattern with its URI, for every map iteration order.", "quantifier": "every subscription map with distinct encodings, every iteration order", "why_tests_cant": "map iteration order is random", "anchors": ["filtering/subscriptions.go: ToByteSubscriptions"]}
{"id": "C12", "title": "Two URIs subscribing to the same pattern", "statement": "Both URIs should be reported when a tag matches. In the code only one of them is stored in a ByteSubscriptions, and which one depends on map iteration order.", "quantifier": "every subscription map with a shared pattern, every iteration order", "why_tests_cant": "nondeterministic iteration order", "anchors": ["filtering/subscriptions.go: ToByteSubscriptions"]}
{"id": "C13", "title": "A malformed pattern matches nothing", "statement": "A pattern that cannot be encoded should not produce reports. In the code it is stored as the empty filter, so the List and SplayTree engines report its URI for every tag that is long enough for the other filters (when no other URI has such a pattern: only one URI per filter is stored, C12).", "quantifier": "every malformed pattern and every tag", "why_tests_cant": "universal over tags", "anchors": ["filtering/subscriptions.go: ToByteSubscriptions", "tdt/core.go: MakePrefixFilterString", "filtering/list.go: Search", "filtering/splay_tree.go: Search"]}
{"id": "C14", "title": "Subset linking loses nothing", "statement": "linkSubset on a flat subscription map keeps exactly the same (full filter string, URI) pairs, with offsets equal to the number of bits already covered by the enclosing filters.", "quantifier": "every flat map of bit-string filters", "why_tests_cant": "recursive restructuring of arbitrary prefix forests", "anchors": ["filtering/subscriptions.go: linkSubset"]}
{"id": "C15", "title": "Subset linking yields prefix-free levels", "statement": "After linkSubset no filter string at any level is a prefix of another one at the same level.", "quantifier": "every flat map of bit-string filters", "why_tests_cant": "same", "anchors": ["filtering/subscriptions.go: linkSubset"]}
{"id": "C16", "title": "List engine search is exact", "statement": "Searching a freshly built List reports exactly the URIs whose filters are a bit prefix of the ID, in key order, plus the pure identity; an error iff there is none (or the ID cannot be translated).", "quantifier": "every subscription map, every tag covering the filters", "why_tests_cant": "all maps x tags", "anchors": ["filtering/list.go: NewList, List.Search"]}
{"id": "C17", "title": "List engine implements a set of subscriptions under any history", "statement": "After any sequence of AddSubscription/DeleteSubscription calls the List holds exactly the subscription pairs obtained by the corresponding set insertions and deletions (adding twice is idempotent, deleting an absent one is a no-op), and Search reports exactly those.", "quantifier": "every initial map and every finite sequence of operations", "why_tests_cant": "unbounded histories", "anchors": ["filtering/list.go: AddSubscription, DeleteSubscription, IndexOf, Search"]}
{"id": "C18", "title": "Patricia search equals List search", "statement": "For the same subscriptions and tag a freshly built PatriciaTrie reports the same URIs in the same order as List. In the code this fails exactly for a subscription equal to the longest common prefix of all filters (the root): it is never reported.", "quantifier": "every subscription map, every tag covering the filters", "why_tests_cant": "recursive build over arbitrary key sets", "anchors": ["filtering/patricia_trie.go: NewPatriciaTrie, build, search"]}
{"id": "C19", "title": "Patricia search cannot crash on covering tags", "statement": "Search on a freshly built trie never panics (neither out-of-range reads nor the explicit next-bit panic) when the tag is not empty and covers every filter; the empty tag makes every freshly built trie panic, even the one without subscriptions.", "quantifier": "every subscription map and every covering tag", "why_tests_cant": "crash freedom is a for-all claim", "anchors": ["filtering/patricia_trie.go: search", "filtering/engine.go: getNextBit"]}
{"id": "C20", "title": "Patricia incremental add", "statement": "Adding a filter to a trie should keep all others and make the new one reported, for every ID that is long enough. In the code, for every trie reached from a fresh one by additions and deletions of which none was of the failing kind, this holds iff the new filter does not end strictly inside an edge (it is not a node of the trie but a proper prefix of one). Otherwise the new filter takes the place of the next node on its way: it is not reported, nor is the filter stored there, and the filters below are selected by the bit after the new filter and the bits after the replaced node, whatever the ID has between.", "quantifier": "every history of calls, every new filter, every ID", "why_tests_cant": "all tries x filters", "anchors": ["filtering/patricia_trie.go: add, AddSubscription"]}
{"id": "C21", "title": "Patricia incremental delete", "statement": "Deleting a stored filter should remove exactly it and keep all others reported. In the code, for every trie reached from a fresh one by additions and deletions (no addition inside an edge), this holds for every ID that is long enough iff the trie does not consist of a single node with that filter; then it stays. The URI given with the deletion is ignored.", "quantifier": "every history of calls, every filter, every ID", "why_tests_cant": "all tries x filters", "anchors": ["filtering/patricia_trie.go: delete, DeleteSubscription"]}
{"id": "C22", "title": "SplayTree first search equals List search", "statement": "The first Search on a freshly built SplayTree reports the same URIs in the same order as List.", "quantifier": "every non-empty subscription map, every covering tag", "why_tests_cant": "recursive nesting of arbitrary prefix forests", "anchors": ["filtering/splay_tree.go: NewSplayTree, build, splaySearch"]}
{"id": "C23", "title": "SplayTree searches do not disturb later searches", "statement": "Search results do not depend on earlier searches. In the code splaying lifts nested filters to the top level; search results are independent of earlier searches exactly when no stored filter has two children (two incomparable extensions). Otherwise there is a tag whose second search reports fewer URIs than the first.", "quantifier": "every subscription map and every finite sequence of searches", "why_tests_cant": "depends on the search history", "anchors": ["filtering/splay_tree.go: splaySearch"]}
{"id": "C24", "title": "SplayTree keeps every node", "statement": "Any sequence of searches preserves the multiset of (filter, URI) nodes of the tree: restructuring never loses or duplicates a node.", "quantifier": "every tree and every finite sequence of searches", "why_tests_cant": "history dependent pointer surgery", "anchors": ["filtering/splay_tree.go: splaySearch"]}
{"id": "C25", "title": "SplayTree incremental add", "statement": "Adding a subscription keeps all others and makes the new one reported. In the code this holds for all IDs exactly when the filter is stored already or is not a prefix of a stored one; in general a search reports what it did before, followed by the new URI if the new filter starts the ID and no stored extension of it does.", "quantifier": "every well-formed splay tree, every new filter", "why_tests_cant": "all trees", "anchors": ["filtering/splay_tree.go: add"]}
{"id": "C26", "title": "SplayTree incremental delete", "statement": "Deleting a stored subscription removes it and keeps all others. In the code this holds for all IDs exactly when the filter does not have two children and is not the only one; a filter with two children stays and reports the empty URI, the only filter stays as it is. No deletion touches another filter or crashes.", "quantifier": "every well-formed splay tree, every stored filter", "why_tests_cant": "all trees", "anchors": ["filtering/splay_tree.go: delete, splaySearch"]}
{"id": "C27", "title": "SplayTree with no subscriptions", "statement": "An engine without subscriptions should report nothing. In the code Search, AddSubscription and DeleteSubscription (with at least one filter) on it crash with a nil dereference; the same holds for an engine whose URIs have no usable pattern.", "quantifier": "every tag, every subscription, every initial map without a usable pattern", "why_tests_cant": "for all tags", "anchors": ["filtering/splay_tree.go: NewSplayTree, build, Search, add, delete"]}
{"id": "C28", "title": "Legacy engine search is exact on pure identities", "statement": "LegacyEngine.Search reports one entry of a URI per pattern of it whose text form starts the translated pure identity (both without their urn prefix), and an error iff none.", "quantifier": "every subscription map, every tag, every map iteration order (up to permutation)", "why_tests_cant": "map order and all tags", "anchors": ["filtering/legacy_engine.go: Search"]}
{"id": "C29", "title": "Legacy engine delete", "statement": "DeleteSubscription removes exactly the given patterns. In the code removing one pattern works; removing several in one call corrupts the stored list because removals use a stale snapshot sharing the same array.", "quantifier": "every pattern list, every set of patterns to delete", "why_tests_cant": "aliasing depends on multiplicity/position", "anchors": ["filtering/legacy_engine.go: DeleteSubscription"]}
{"id": "C30", "title": "Legacy engine add", "statement": "AddSubscription adds each pattern not yet present and keeps the present ones in order.", "quantifier": "every map and every addition", "why_tests_cant": "all maps", "anchors": ["filtering/legacy_engine.go: AddSubscription"]}
{"id": "C31", "title": "Binary engines never report more than the legacy engine", "statement": "For well-formed EPC patterns, if the binary filter of a pattern matches a translatable tag whose PC marks an EPC then the text pattern used by LegacyEngine matches its pure identity, so every URI reported by a binary engine is reported by the legacy engine. The converse is false, and so is the statement for tags marked as ISO.", "quantifier": "every scheme, partition, pattern and tag", "why_tests_cant": "all field values", "anchors": ["filtering/legacy_engine.go: Search", "tdt/core.go: Translate, MakePrefixFilterString"]}
{"id": "C32", "title": "Search error discipline", "statement": "Every engine returns an error and no report URIs when nothing matches; when List/Patricia/Splay return no error, the URI list is non-empty and the pure identity is the translation of the tag.", "quantifier": "every engine state and tag", "why_tests_cant": "all states", "anchors": ["filtering/list.go: Search", "filtering/patricia_trie.go: Search", "filtering/splay_tree.go: Search", "filtering/legacy_engine.go: Search"]}
{"id": "C33", "title": "SGTIN-96 translation is exact", "statement": "Translate on any 12-byte SGTIN-96 tag returns the URN of the company prefix and reference fields of the partition table row, zero padded to the row's digit counts, and the serial; it crashes iff a field exceeds its digit count; partition 7 yields a URN without company prefix.", "quantifier": "every 12-byte tag with the scheme's header", "why_tests_cant": "2^88 tags; each partition slices bits differently", "anchors": ["tdt/core.go: Translate, buildEPC lines 89-264"]}
{"id": "C34", "title": "SSCC-96 translation is exact", "statement": "Translate on any 12-byte SSCC-96 tag returns the URN of the company prefix and serial reference fields of the partition table row, zero padded to the row's digit counts; it crashes iff one of the two exceeds its digit count; partition 7 yields a URN without company prefix.", "quantifier": "every 12-byte tag with the scheme's header", "why_tests_cant": "2^88 tags; each partition slices bits differently", "anchors": ["tdt/core.go: Translate, buildEPC lines 265-435"]}
{"id": "C35", "title": "GRAI-96 translation is exact", "statement": "Translate on any 12-byte GRAI-96 tag of partition 1 to 6 returns the URN of the company prefix and asset type fields of the partition table row, zero padded to the row's digit counts, and the serial; partition 0 leaves out the asset type whatever its bits are; it crashes iff a printed field exceeds its digit count; partition 7 yields a URN without company prefix.", "quantifier": "every 12-byte tag with the scheme's header", "why_tests_cant": "2^88 tags; each partition slices bits differently", "anchors": ["tdt/core.go: Translate, buildEPC lines 436-613"]}
{"id": "C36", "title": "GIAI-96 translation is exact", "statement": "Translate on any 12-byte GIAI-96 tag returns the URN of the company prefix field of the partition table row, zero padded to the row's digit count, and the asset reference without padding; it crashes iff the company prefix exceeds its digit count; partition 7 yields a URN without company prefix.", "quantifier": "every 12-byte tag with the scheme's header", "why_tests_cant": "2^88 tags; each partition slices bits differently", "anchors": ["tdt/core.go: Translate, buildEPC lines 614-798"]}
{"id": "C37", "title": "Translation dispatch", "statement": "Translate rejects PC bits that are not 2 bytes and routes to the ISO branch iff the low bit of the first PC byte is set; the AFI table covers exactly 0xA1..0xAA, other AFIs are an error. A known EPC header on an ID of another length than 12 bytes is an error. An unknown EPC header should be an error too; in the code it yields the empty identity without error. Nothing else of the PC matters for an EPC.", "quantifier": "every PC and ID", "why_tests_cant": "all byte strings", "anchors": ["tdt/core.go: Translate, buildUII, buildProprietary"]}
{"id": "C38", "title": "Translation does not crash", "statement": "Translate should return an error, never crash. In the code it crashes on the empty ID and on EPC fields exceeding their decimal width; otherwise never.", "quantifier": "every PC and ID", "why_tests_cant": "for-all crash freedom", "anchors": ["tdt/core.go: Translate, buildEPC"]}
{"id": "C39", "title": "EPC encode/translate round trip", "statement": "Encoding valid decimal fields with MakeSGTIN96/MakeSSCC96/MakeGRAI96/MakeGIAI96 gives a 12-byte ID whose translation is the URN with these same fields; for a GRAI-96 with a company prefix of twelve digits the URN has no asset type, whatever was given for it.", "quantifier": "every scheme, filter value 0-7, company prefix of 6-12 digits, references within the digit and bit budget", "why_tests_cant": "the field space is about 2^85", "anchors": ["scheme/epc.go: MakeSGTIN96, MakeSSCC96, MakeGRAI96, MakeGIAI96", "tdt/core.go: buildEPC"]}
{"id": "C40", "title": "Pattern filters select exactly the encodings with these fields", "statement": "For an EPC pattern with k leading fields given, each fitting its bits, the filter string matches a tag iff the tag's corresponding fields equal the pattern's. Filter values above 7 and company prefixes of impossible length are accepted and select other tags.", "quantifier": "every scheme, every number of given fields, all valid field values", "why_tests_cant": "all pairs of pattern and tag", "anchors": ["tdt/epc.go: NewPrefixFilterSGTIN96, NewPrefixFilterSSCC96, NewPrefixFilterGRAI96, NewPrefixFilterGIAI96"]}
{"id": "C41", "title": "Encoded IDs have the right length, and when encoding fails", "statement": "Each Make*96 either fails or returns exactly 12 bytes, starting with the scheme header. For a valid filter value and company prefix, and decimal numbers below 2^63 for the other fields (or an omitted field), it fails exactly when the second field or the serial does not fit its bits.", "quantifier": "every input strings and every outcome of the random generators", "why_tests_cant": "all strings", "anchors": ["scheme/epc.go"]}
{"id": "C42", "title": "6-bit decoding inverts 6-bit encoding", "statement": "Decoding the padded 6-bit encoding of an upper-case/digit string returns the string, whatever its length and hence whatever padding was needed.", "quantifier": "every string over the 6-bit alphabet", "why_tests_cant": "all lengths (padding cases mod 16) and contents", "anchors": ["tdt/core.go: parse6BitEncodedByteSliceToString", "scheme/iso.go: Pad6BitEncodingRuneSlice"]}
{"id": "C43", "title": "ISO padding", "statement": "Pad6BitEncodingRuneSlice extends the bits to the next multiple of 16 with a prefix of the repeated pad symbol 100000, never changing the given bits.", "quantifier": "every bit string", "why_tests_cant": "all lengths", "anchors": ["scheme/iso.go: Pad6BitEncodingRuneSlice", "tdt/iso.go: pad6BitEncodingRuneSlice"]}
{"id": "C44", "title": "ISO 6346 check digit", "statement": "For every 10-character container code over digits and upper-case letters the check digit is (sum of 2^i * value(c_i)) mod 11 mod 10 with the ISO 6346 letter values, and is a single digit.", "quantifier": "every 10-character code", "why_tests_cant": "36^10 codes; floating-point arithmetic in the code", "anchors": ["scheme/iso.go: GetISO6346CD", "tdt/iso.go: getISO6346CD"]}
{"id": "C45", "title": "ISO 17363 full pattern", "statement": "A full ISO17363 pattern (7B, owner, equipment, serial) encodes to a filter matching that container. In the code a well-formed full pattern is always rejected because the check digit is computed over the wrong fields.", "quantifier": "every well-formed full pattern", "why_tests_cant": "all patterns", "anchors": ["tdt/iso.go: NewPrefixFilterISO17363"]}
{"id": "C46", "title": "ISO prefix patterns are monotone", "statement": "For ISO17363/ISO17365, giving more fields yields a filter string extending the one for fewer fields, so a more specific pattern matches a subset of the tags.", "quantifier": "every field list", "why_tests_cant": "all field lists", "anchors": ["tdt/iso.go: NewPrefixFilterISO17363, NewPrefixFilterISO17365"]}
{"id": "C47", "title": "ISO protocol-control word", "statement": "For lengths below 512 bits MakeISOPC(length, afi) yields two bytes: length in words in the top five bits, the ISO bit set, and the AFI; Translate therefore takes the ISO branch. The AFI byte is the hexadecimal number the text is, 255 if its leading digits exceed a byte (whatever follows them), and 0 for any other text. It crashes iff the number of binary digits of length/16 is more than five and not five more than a multiple of eight; a longer length that does not crash gives the leading bits of the length as first byte.", "quantifier": "every length and AFI", "why_tests_cant": "unbounded length", "anchors": ["scheme/generate.go: MakeISOPC", "tdt/core.go: Translate"]}
{"id": "C48", "title": "List persistence round trip", "statement": "UnmarshalBinary of MarshalBinary of a List gives no error and appends the filters of the written list in order to those present; a fresh List becomes equal to the written one.", "quantifier": "every List state", "why_tests_cant": "all states", "anchors": ["filtering/list.go: MarshalBinary, UnmarshalBinary"]}
{"id": "C49", "title": "SplayTree persistence round trip", "statement": "UnmarshalBinary of MarshalBinary gives an equal tree without an error; MarshalBinary panics exactly for a tree without root.", "quantifier": "every splay tree", "why_tests_cant": "all trees", "anchors": ["filtering/splay_tree.go: MarshalBinary, UnmarshalBinary"]}
{"id": "C50", "title": "PatriciaTrie persistence round trip", "statement": "UnmarshalBinary of MarshalBinary gives an equal trie. In the code the decoded trie lacks everything below a zero branch without a sibling, so it is equal iff there is no such branch; an error is returned iff following the zero branches from the root through nodes with both branches leads to a node with only a one branch, in which case the trie may well be equal. If every node has both children or none all is well.", "quantifier": "every trie", "why_tests_cant": "all trees", "anchors": ["filtering/patricia_trie.go: MarshalBinary, UnmarshalBinary"]}
{"id": "C51", "title": "LegacyEngine persistence round trip", "statement": "UnmarshalBinary of MarshalBinary gives an equal engine. In the code the decoded engine never contains any subscription, whatever the bytes; with n subscribers having fewer than n*n patterns in all an error is returned, with n patterns each the loss is silent.", "quantifier": "every legacy engine state", "why_tests_cant": "all states", "anchors": ["filtering/legacy_engine.go: MarshalBinary, UnmarshalBinary"]}
{"id": "C52", "title": "Subscription map persistence round trip", "statement": "Subscriptions and PartialSubscription (with nested subsets) survive MarshalBinary/UnmarshalBinary into an empty target unchanged; decoding Subscriptions into a non-empty map replaces the keys the stream mentions and keeps the others.", "quantifier": "every map, every nesting", "why_tests_cant": "nested, unbounded, and dependent on the target's previous content", "anchors": ["filtering/subscriptions.go: Subscriptions.MarshalBinary/UnmarshalBinary, PartialSubscription.MarshalBinary/UnmarshalBinary"]}
{"id": "C53", "title": "Active factory always has a usable engine", "statement": "Whenever the factory reports active, the selected engine name belongs to an engine that has been built and is ready, at every point of every interleaving.", "quantifier": "every schedule of generators, ticks, listener and searches", "why_tests_cant": "interleavings", "anchors": ["filtering/engine_factory.go: IsActive, Search, Run", "filtering/engine_generator.go"]}
{"id": "C54", "title": "Activation is permanent", "statement": "Once active the factory stays active.", "quantifier": "every schedule", "why_tests_cant": "interleavings", "anchors": ["filtering/engine_factory.go"]}
{"id": "C55", "title": "Initial engine selection is schedule independent", "statement": "As long as no throughput has been reported, after all engines have been built and announced the selected engine is one of highest priority, whatever the schedule; with the priorities of the code it is the Patricia trie. While only some have been announced the selected engine is one that is built and comes at or before each of them in the order Patricia trie, splay tree, list, legacy engine.", "quantifier": "every announcement order", "why_tests_cant": "permutations of completion", "anchors": ["filtering/engine_factory.go: Run"]}
{"id": "C56", "title": "Throughput-based selection picks a maximum", "statement": "A performance tick of the factory that is not disturbed selects, for every table of throughputs and every iteration order, an engine of maximal throughput if some throughput is positive, and changes nothing otherwise. Interleaved with anything else, an engine selected by a tick had the maximum of values read once per engine, each at some moment since the tick.", "quantifier": "every throughput table and iteration order", "why_tests_cant": "all tables/orders", "anchors": ["filtering/engine_factory.go: Run"]}
{"id": "C57", "title": "Event accounting", "statement": "The events received by a generator split, in order, into the intervals between its reports and the events not yet reported; each traffic report carries the number of events of its interval, and each throughput report is that number divided by the sum of the whole microseconds of the same events. Intervals without events report no throughput.", "quantifier": "every interleaving of searches and ticks", "why_tests_cant": "histories", "anchors": ["filtering/engine_generator.go: NewEngineGenerator, Search"]}
{"id": "C58", "title": "Matched count never exceeds event count in a report", "statement": "In every traffic report matched <= events, and every match is counted in exactly one report, provided ticks and searches of a generator do not overlap. In the code they may overlap: from every active state a report with arbitrarily many matches in no events can be reached, and a match can be lost.", "quantifier": "every schedule", "why_tests_cant": "needs a specific interleaving", "anchors": ["filtering/engine_generator.go: Search, NewEngineGenerator"]}
{"id": "C59", "title": "Runtime subscription changes take effect", "statement": "An add/delete management message should change the subscriptions used by the engines. In the code it is received and dropped: in every execution all engines are those of the initial subscriptions.", "quantifier": "every state and message", "why_tests_cant": "all states", "anchors": ["filtering/engine_factory.go: Run"]}
{"id": "C60", "title": "LLRP framing consumes whole messages", "statement": "The reader loop takes every message of length >= 10 whole and answers it according to its header, and hence stays aligned on any stream of well-formed messages; conversely everything it does on a stream is the answer to such a message, and it does not matter in what portions the bytes arrive. An unknown header ends the program. In the code a length field n below 10 underflows: 2^32+n-10 bytes are awaited and everything that follows is swallowed.", "quantifier": "every byte stream that is a concatenation of well-formed messages", "why_tests_cant": "unbounded streams", "anchors": ["cmd/gosstrak-fc/main.go: run"]}
{"id": "C61", "title": "Report aggregation delivers every match once", "statement": "For a batch of read events exactly the identities of the events matched to a destination are collected for it, in order, each as many times as the engine reported it, and there are no other destinations. With the List engine that is once per filter of the destination that starts the tag. In the code the collected reports are then dropped: nothing is sent.", "quantifier": "every batch of events and engine results", "why_tests_cant": "all batches", "anchors": ["cmd/gosstrak-fc/main.go: run"]}
{"id": "C62", "title": "Statistics points are written once", "statement": "Each measurement should be written to the database once. In the code the batch is never cleared: the k-th write repeats all earlier points, the j-th of n measurements is written n-j+1 times, n measurements cost n(n+1)/2 points. Traffic messages whose counters have the wrong type are skipped. A message with too few values ends the process, whatever came before; nothing of what follows is written. So does a message of a type other than the three, if the client refuses a point without name, tags and values.", "quantifier": "every sequence of measurements", "why_tests_cant": "histories", "anchors": ["monitoring/stat_manager.go"]}
{"id": "C63", "title": "Composition of filters is equivalent", "statement": "Composing filters preserves matching if all of them share a byte and their strings are distinct: the original matches iff the composite and its remainder match. In general the function panics exactly if there are no filters or a whole byte lies between two of them. Otherwise of filters with one string only the last is kept, and it is replaced correctly exactly if all filters share a byte, or another one starts in a later byte, or it has wildcards only; in the remaining case (adjacent bytes) it is moved down to the first byte of the ID. A filter of the same string given earlier is replaced correctly only if it starts where the kept one ends up or has wildcards only.", "quantifier": "every composition and every ID", "why_tests_cant": "all filters and IDs", "anchors": ["filtering/composition.go: NewComposition"]}
{"id": "C64", "title": "Grouping of consecutive byte positions", "statement": "groupSequentialSlice splits a non-empty list of integers into maximal runs of consecutive integers whose concatenation is the input, and this splitting is unique. No integers give one empty group.", "quantifier": "every list", "why_tests_cant": "all lists", "anchors": ["filtering/composition.go: groupSequentialSlice"]}
{"id": "C65", "title": "CSV subscription loading", "statement": "Loading a CSV of rows (URI, pattern, pattern, ...) gives, for every lower-cased http URI, the urn:epc:pat patterns of all its rows in file order and nothing else; a URI without patterns gets no entry. Patterns whose prefix is not lower case are loaded but never become filters.", "quantifier": "every list of rows", "why_tests_cant": "all files", "anchors": ["filtering/subscriptions.go: LoadSubscriptionsFromCSVFile"]}
{"id": "C66", "title": "Engine name guards decoding", "statement": "Decoding a serialized engine of a different kind fails with an error and does not install its content.", "quantifier": "every pair of engine kinds and every state", "why_tests_cant": "all states", "anchors": ["filtering/list.go: UnmarshalBinary", "filtering/patricia_trie.go: UnmarshalBinary", "filtering/splay_tree.go: UnmarshalBinary", "filtering/legacy_engine.go: UnmarshalBinary"]}
{"id": "C67", "title": "ISO tags translate back", "statement": "An ISO17363 tag made of a 3-letter owner code, an equipment letter and a serial of up to six digits, translated with its PC word, gives the identity with the given fields, the serial zero-padded to six digits and the ISO 6346 check digit; an ISO17365 tag made of upper-case/digit fields gives the identity with the fields joined.", "quantifier": "every field value", "why_tests_cant": "all field values and lengths", "anchors": ["scheme/iso.go: MakeISO17363, MakeISO17365", "tdt/core.go: Translate"]}
{"id": "C68", "title": "Generated patterns and filters agree", "statement": "Asked for a prefix filter, the Make functions return the pattern of the given fields together with the filter string to which the translation layer encodes that pattern. In the code this fails for an empty filter value (the filter bits are random, the pattern of SGTIN, SSCC and GRAI shows an empty field) and for the full ISO17363 pattern, whose filter selects exactly the container but whose pattern is rejected by the encoder.", "quantifier": "every scheme and every choice of fields", "why_tests_cant": "all field values", "anchors": ["scheme/epc.go: MakeGIAI96, MakeGRAI96, MakeSGTIN96, MakeSSCC96", "scheme/iso.go: MakeISO17363, MakeISO17365", "tdt/core.go: MakePrefixFilterString"]}
{"id": "C69", "title": "Reports reach the main program once", "statement": "Every traffic or throughput report of a generator is at any time in exactly one place: received by the main program, in its channel, or in the hands of the factory's listener. In the code the notice of a newly selected engine is not so safe: the listener reads from the channel to the main program too, and drops the notice when it gets it.", "quantifier": "every schedule", "why_tests_cant": "interleavings", "anchors": ["filtering/engine_factory.go: NewEngineFactory, Run", "cmd/gosstrak-fc/main.go: run"]}
{"id": "C70", "title": "Stored throughputs were reported", "statement": "The throughput stored for an engine is zero or one that engine has reported. In the code it need not be the last one reported: the listener can take an older report back from the channel it forwarded it to.", "quantifier": "every schedule", "why_tests_cant": "interleavings", "anchors": ["filtering/engine_factory.go: NewEngineFactory"]}
{"id": "C71", "title": "Throughput of very fast engines", "statement": "An interval whose events each took less than a microsecond is reported as infinite throughput, no throughput exceeds it, and the engine is selected at the next undisturbed tick if all others have measured some event of a microsecond or more.", "quantifier": "every interval and throughput table", "why_tests_cant": "all measurements", "anchors": ["filtering/engine_generator.go: NewEngineGenerator", "filtering/engine_factory.go: Run"]}
{"id": "C72", "title": "Searches can always be completed", "statement": "From every reachable state a search under way can be completed by moves of the program alone, without new searches, ticks or management messages; the blocking channels between search, monitor, listener and main program do not deadlock.", "quantifier": "every reachable state", "why_tests_cant": "interleavings", "anchors": ["filtering/engine_factory.go", "filtering/engine_generator.go", "cmd/gosstrak-fc/main.go"]}
{"id": "C73", "title": "Statistics survive every measurement", "statement": "Every message the main program passes on to the statistics is a well-formed measurement, so nothing is skipped and no index is out of range. In the code the first measurement the database client refuses ends the process; with a client that refuses infinite numbers a single search of less than a microsecond followed by the report of its throughput does that.", "quantifier": "every sequence of measurements", "why_tests_cant": "needs a fast engine and the client library", "anchors": ["monitoring/stat_manager.go: NewStatManager", "cmd/gosstrak-fc/main.go: run", "filtering/engine_generator.go"]}
{"id": "C74", "title": "The recorded engine number identifies the engine", "statement": "The numbers recorded for the four engines differ. In the code a tick before any engine is selected is recorded as if the legacy engine had been selected.", "quantifier": "every engine name; existence of the execution", "why_tests_cant": "timing of the first tick", "anchors": ["monitoring/stat_manager.go: NewStatManager", "filtering/engine_factory.go: Run"]}
{"id": "C75", "title": "A search consults each ready engine once", "statement": "While one call of EngineFactory.Search is going on, interleaved with anything else, each engine that is ready is searched exactly once and no other one, provided the selected engine does not change and none becomes ready meanwhile; in any case no engine is searched more than twice and some engine selected during the call is searched. In the code a replacement during the call can leave a ready engine unsearched and search another one twice.", "quantifier": "every execution of the factory", "why_tests_cant": "needs specific interleavings of the search, the listener and the selector", "anchors": ["filtering/engine_factory.go: Search", "filtering/engine_generator.go: Search"]}
{"id": "C76", "title": "Selection notices name a selected engine", "statement": "Every SelectedEngine notice the main program receives names an engine that was selected at some earlier moment of the execution; an undisturbed tick sends one naming the engine selected then, and the announcement of a first or better engine selects it and sends one, any other announcement none.", "quantifier": "every execution; every state", "why_tests_cant": "histories", "anchors": ["filtering/engine_factory.go: Run"]}
{"id": "C77", "title": "Splay tree nodes in memory stay a tree", "statement": "NewSplayTree and every sequence of AddSubscription, DeleteSubscription and Search calls, run as the pointer program of the code from any memory, terminate and leave nodes reachable from the root that form a tree: no two paths from the root lead to the same node and paths have bounded length. The calls panic exactly when the tree model does, otherwise they give its matches and leave its tree; in particular, after good calls a search reports exactly the stored subscriptions whose filter starts the ID.", "quantifier": "every memory, every subscription map, every history of calls", "why_tests_cant": "the relinking of parent, node and root by splaySearch depends on the shape of the tree and on the path; sharing or cycles would show only in later calls", "anchors": ["filtering/splay_tree.go: add, build, delete, splaySearch, NewSplayTree, AddSubscription, DeleteSubscription"]}
{"id": "C78", "title": "Patricia trie nodes in memory stay a tree", "statement": "NewPatriciaTrie and every sequence of AddSubscription and DeleteSubscription calls, run as the pointer program of the code from any memory, terminate without a panic, keep the root node and leave nodes that form a tree, the one of the model; a search writes nothing and gives the result of the model, or panics with it. After a history in which no added filter ends strictly inside an edge, a search from memory reports exactly the stored filters that start the ID.", "quantifier": "every memory, every subscription map, every history of calls, every ID", "why_tests_cant": "order of field assignments and all shapes", "anchors": ["filtering/patricia_trie.go: add, build, delete, search, NewPatriciaTrie, AddSubscription, DeleteSubscription"]}
{"id": "C79", "title": "The text form of an engine says everything about it", "statement": "Dump of the SplayTree, PatriciaTrie and List engines gives one line per node or entry, each parent before its children, children indented by two (in the splay tree with ok for the matching and ng for the mismatching child), with the filter string, its offset and its size in decimal and the report URI, after an arrow in the trees and left out there when empty. For filters that are bit strings and URIs without a newline, two engines of a kind that print the same text are equal node by node, whatever calls led to them; linked subscriptions that print the same text link the same filters to the same URIs. In the code this fails for a SplayTree made of no subscription: Dump dereferences a nil filter and panics.", "quantifier": "every encoder, every subscription map and every history of calls with bit-string filters and newline-free URIs", "why_tests_cant": "that no two different engines share a text is a statement about all pairs of engines", "anchors": ["filtering/splay_tree.go: Dump, print", "filtering/patricia_trie.go: Dump, print", "filtering/list.go: Dump", "filtering/subscriptions.go: ByteSubscriptions.Dump, print", "filtering/filter_object.go: ToString"]}
{"id": "C80", "title": "Generated tags read back as the tags asked for", "statement": "MakeEPC and MakeISO with complete, well-formed fields give the PC and the bits of a tag; read back by the helpers of gobtags they are a tag whose identity is the URN of these fields. The name of an EPC scheme may be in any letter case and only the arguments of that scheme count. Asked for a filter they give the pattern of the given fields and the filter string to which the translation layer encodes it. An unknown scheme or fields that cannot be encoded give empty bits, for which PrintID prints nothing; asked for the filter of a container that cannot be made, MakeISO gives two empty texts. In the code this fails for transport units of 83 characters and more, for which MakeISO panics (unless the number of words has 13, 21, ... binary digits), and the helper of gobtags reads a malformed ID as the empty one without an error.", "quantifier": "every implementation of the external text functions that renders bytes as their bits, every field text", "why_tests_cant": "all field texts of all schemes", "anchors": ["scheme/generate.go: MakeEPC, MakeISO, PrintID, Sixenc2bin, CheckIfStringInSlice", "cmd/gobtags/main.go: makeByteID, makeUint16PC"]}
{"id": "C81", "title": "The tags of a simulation data set are selected by its filters", "statement": "For each kind of parameter set that gendataset makes, the filter lines name the patterns of that set with the filter strings to which they are encoded, the file has one line for each serial, and each line is a tag with the drawn identity which all filters of the set select. Sets without filters write no filter. generateNonZeroDigits returns the first drawn text that does not start with 0. In the code this fails for GIAI-96, where the line of a drawn reference that does not fit its bits is blank; the tags meant to match no filter include ISO 17365 tags which the first filter of every other ISO 17365 set selects; and a round writes 31 filter lines, of which at most 20 and one more over all rounds are different, where 20 are intended.", "quantifier": "every draw of the random texts with the lengths asked for, every number of serials up to the capacity of the serial field, every number of rounds", "why_tests_cant": "the texts are random", "anchors": ["test/gendataset.go: generateUIISet, main, filterWriter, generateNonZeroDigits"]}
{"id": "C82", "title": "The comparison of engines in the tests", "statement": "equal of two non-nil nodes of a SplayTree or a PatriciaTrie should be true exactly for equal trees. In the code it is true exactly when the wanted tree is the one got with some subtrees cut off, so engines with further filters, which report other URIs, pass as equal; compared both ways it is equality. When it is false it returns the nodes of both trees at the first position, in the order of the walk, at which the wanted tree has a node and the other one has none or one with another URI or filter.", "quantifier": "every pair of non-nil trees", "why_tests_cant": "the tests themselves rest on this function", "anchors": ["filtering/splay_tree.go: SplayTreeNode.equal", "filtering/patricia_trie.go: PatriciaTrieNode.equal"]}
{"id": "C83", "title": "Left alone, the program comes to rest", "statement": "Without further ticks, searches and management messages the program cannot move exactly when everything is done: all engines built and announced, the search completed, all reports delivered, no goroutine in the middle of its work. In such an execution the moves other than those of the factory's listener are bounded in number, from every reachable state rest can be reached, and it is reached if the main program again and again takes a message when there is one again and again. After the start this means that all four engines are ready and the Patricia trie is selected. In the code it need not be reached otherwise: the listener reads from the channel to the main program too, takes a report it has forwarded, forwards it again and so on, and a search waiting for the counter of its engine can be kept waiting forever.", "quantifier": "every reachable state, every execution without outside input, every schedule", "why_tests_cant": "a claim about all infinite executions", "anchors": ["filtering/engine_factory.go: Run", "filtering/engine_generator.go: NewEngineGenerator, Search", "cmd/gosstrak-fc/main.go: main"]}
{"id": "C84", "title": "Grouping by common prefix loses nothing", "statement": "makePatriciaSubset on a flat subscription map ends without a nil dereference. The result holds the same (full filter string, URI) pairs and in addition only the common starts of the groups it forms, without URI; each of them is the longest common start of two or more filters. Every offset is the number of bits of the enclosing filters, exactly the groups have filters below them, below the top level no filter is a prefix of another one at its level, and at the top the words of the groups and the filters that no group starts are left, of which no further group can be formed. In the code the result is not a Patricia trie: at the top a filter can stay beside a longer one with the same start. On a map that is nested already, what was below a filter is lost when the filter itself is the common start.", "quantifier": "every flat map of filters; every nested map for the loss", "why_tests_cant": "the loop runs until no group is left, over arbitrary sets of filters; nothing calls the function", "anchors": ["filtering/subscriptions.go: makePatriciaSubset", "filtering/engine.go: findPartialLCP"]}
{"id": "C85", "title": "Any text as filter value", "statement": "A filter value in a pattern counts for the number it is, limited to 32 bits, and for 0 when it is not a number (digits that alone exceed 32 bits count whatever comes behind them). Counting for 0 to 7, the pattern is encoded like the one with that digit; for more, its filter selects the tags with this number in as many bits as it needs, from the filter value on; counting for a negative number, the filter matches every ID, and the list engine tells the subscriber of every tag. A tag is made of it iff it counts for 0 to 7. An empty company prefix selects the tags with twelve digits of company prefix.", "quantifier": "every text, every scheme, every other field and every ID", "why_tests_cant": "all strings; the tests give digits only", "anchors": ["tdt/epc.go: getFilter, getCompanyPrefix", "scheme/epc.go: GetFilter", "filtering/filter_object.go: NewFilter, Match", "tdt/core.go: MakePrefixFilterString"]}
{"id": "C86", "title": "Fields left out are drawn within range", "statement": "Given a random generator that stays below the bound it is asked for, making a tag with filter value, second field or serial left out is making it with well-formed values for them: the tag has these values and its translation is the identity with the given and the drawn fields (GRAI-96 with twelve digits of company prefix, which has no asset type, aside). The same holds for patterns with empty fields. A generator that only keeps the number of bits can make a tag whose translation crashes. The fields left out of ISO tags are three letters, U, six digits, and 18 hexadecimal characters.", "quantifier": "every scheme, every choice of fields left out, every outcome of the generators", "why_tests_cant": "the tests cannot see all outcomes of the generator", "anchors": ["scheme/epc.go: GetFilter, GetItemReference, GetExtension, GetAssetType, GetIndivisualAssetReference, GetSerial, MakeSGTIN96, MakeSSCC96, MakeGRAI96, MakeGIAI96", "tdt/epc.go: getFilter, getItemReference, getSerial", "scheme/iso.go: MakeISO17363, MakeISO17365"]}
{"id": "C87", "title": "The text form of the legacy engine", "statement": "LegacyEngine.Dump gives one line per report URI, in ascending order, whatever the order in which the map is visited. The line lists the patterns, in their order, as Go string literals, and a text of such lines is read in one way: two legacy engines with equal texts have the same subscriptions. A pattern of printable ASCII characters without quote and backslash stands there as it is. In the code this fails for a report URI that contains a newline: different subscriptions then can have the same text.", "quantifier": "every map of subscriptions, every text as pattern, every set of printable characters beyond ASCII", "why_tests_cant": "injectivity over all maps and all strings", "anchors": ["filtering/legacy_engine.go: Dump"]}
{"id": "C88", "title": "A data set is written completely, whatever the interleaving", "statement": "When all parameter sets of a run of gendataset have different files and none of them exists, the run always ends, in no more steps than there are things to do, and never early; then every file holds the tag lines of its set, other files are as they were, and filters.csv has got the filter lines of all sets, those of one set in order, so 31 for each round with filters. As long as the program has not ended one of its goroutines can go on. With one worker the outcome is that of doing the sets one after the other, where a set whose file exists is passed over. In the code this fails for the last filter line, which can be missing because main does not wait for the filter writer, and a GRAI-96 set whose file exists ends the program by log.Fatal: when a round draws the same asset type twice, always with one worker and in some runs with any number of them.", "quantifier": "every list of parameter sets, every content of the target directory, every number of workers, every capacity of the channel, every interleaving of the main goroutine, the workers and the filter writer", "why_tests_cant": "the interleavings and the drawn texts differ from run to run", "anchors": ["test/gendataset.go: main, generateUIISet, filterWriter"]}
{"id": "C89", "title": "From the file of subscriptions to the reports", "statement": "After loading a file whose patterns are well-formed EPC patterns, a search for a 96-bit tag that has an identity reports that identity to exactly the report URIs for which the file has a pattern whose fields the tag has, as often as the URI has patterns that select different sets of tags, and answers an error if there is none; for a tag made of given fields these are the URIs with a pattern of the same scheme that repeats the first fields of the tag. The reports collected for a batch of tags give each destination the identities of the tags due to it in the order of the tags. In the code this holds for the list engine if no two URIs have patterns that select the same tags, whatever the order in which the map is gone through. Otherwise each such pattern is reported to one of its URIs only, and which one depends on that order. The fresh splay tree answers likewise, and the Patricia trie does so for all patterns but one that selects every tag that any pattern of the file selects.", "quantifier": "every list of CSV records whose patterns are well-formed, every order of the loaded map, every 96-bit tag with an identity, every batch of such tags, every implementation of the external conversions that meets the stated assumptions", "why_tests_cant": "the chain from text to reports goes through encodings, a map with random order and three engines; tests fix a handful of patterns and tags", "anchors": ["filtering/subscriptions.go: LoadSubscriptionsFromCSVFile, ToByteSubscriptions", "filtering/list.go: NewList, Search", "filtering/patricia.go: Search", "filtering/splay.go: Search", "tdt: Translate", "cmd/gosstrak-fc/main.go: the collection of reports"]}
{"id": "C90", "title": "The filtering program from the bytes of the reader to the collected reports", "statement": "While gosstrak-fc runs, in whatever portions the bytes of the reader come and however the message loop and the searching goroutine interleave, the replies it writes are those owed for the messages so far, in order, and the batches searched are those of the reports among these messages, in order; each finished batch has the reports of the answers to its tags. Left alone by the reader the program makes a bounded number of moves and comes to rest. If the reader sends known messages, keeps the connection open, and every report decodes and every search returns, then at rest the program has not ended, every message has been answered and every batch collected; with the list engine for a file of well-formed subscriptions each destination then has the identities of the tags due to it. The program ends only if the connection closes, an unknown message comes, or decoding or a search panics, and the last three always end it. In the code this fails the option for the initial message ID, which has no effect: every reply has the message ID 0. A batch under way is lost when the program ends, and one tag that is due to somebody and whose translation panics ends the program.", "quantifier": "every sequence of moves of the reader, the message loop and the searching goroutine, every stream of bytes cut in any way, every value of the option, every engine as a relation of answers", "why_tests_cant": "the interleavings of two goroutines and the cuts of the stream are unbounded, and tests of main do not exist", "anchors": ["cmd/gosstrak-fc/main.go: run, package variables", "cmd/gosstrak-fc/main.go: the LLRP loop and the ReadEvent listener"]}
{"id": "C91", "title": "What the program reports by which engine is selected", "statement": "From any file of well-formed subscriptions with at least one pattern the four engines can be built, in whatever order each goes through the map. After any searches for 96-bit tags with an identity, EngineFactory.Search for such a tag never panics, whatever engines are ready and whichever is selected, and answers by the selected engine: the list engine for every pattern of the file, the Patricia trie for every pattern except one that selects all tags any pattern selects, the splay tree for every pattern provided that of two patterns narrower than a third one is within the other, the legacy engine for the patterns whose text the identity matches. If no two URIs have patterns that select the same tags, no pattern selects all tags that any selects and the patterns do not fork, then the list engine, the trie and the splay tree answer alike, and the whole program, however the engine is switched among them, has given each destination the identities of the tags due to it when it comes to rest. In the code this fails to hold in general: on a file with one pattern the trie reports a due tag to nobody and the legacy engine reports a tag that is not due, so the reports depend on which engine has been measured to be the fastest. While the legacy engine is ready one tag whose translation panics ends the program, whoever is selected and even if the tag is due to nobody.", "quantifier": "every file of well-formed subscriptions, every order of the maps, every history of searches, every choice of the engines searched and selected at each search, every run of the program", "why_tests_cant": "files, tags and histories are unbounded, and which engine is selected depends on measured times", "anchors": ["filtering/engine_factory.go: EngineFactory.Search", "filtering/engine.go: AvailableEngines", "filtering/splay_tree.go: Search", "filtering/patricia_trie.go: Search", "filtering/legacy_engine.go: Search", "filtering/list.go: Search", "cmd/gosstrak-fc/main.go: run"]}
{"id": "C92", "title": "The filtering program with all its goroutines", "statement": "In every interleaving of the message loop, the searching goroutine, the listener and the selector of the engine factory, the goroutines that build the four engines and their throughput monitors, with the engine selected anew at any moment, also in the middle of a search: the factory never ends the process; every engine whose answer is asked for is one of the four, is ready and was built from the file; and what is read, written and collected is what the sequential program could do for the same bytes with each search answered by an engine that had been selected. The program is never stuck: as long as it has not ended, it can make no further move of its own only when all four engines are announced, nothing is left to send or store, no whole message is left to read and no batch to search. On a file where no two URIs have patterns that select the same tags, no pattern selects all tags that any selects and the patterns do not fork, and as long as the legacy engine has not been the one asked, at any moment the program has not ended, has written a prefix of the replies owed and collected a prefix of the batches sent, and each destination has in each batch the identities of the tags due to it; at rest all replies and all batches. One tag that is due to someone and whose translation panics makes it impossible to rest without having ended, whichever engines are selected.", "quantifier": "every file of well-formed subscriptions, every sequence of bytes and its portions, every interleaving of all goroutines, every moment at which the clocks tick and every measured time", "why_tests_cant": "interleavings, tags and files are unbounded, and a replacement of the engine during a search depends on the scheduler", "anchors": ["cmd/gosstrak-fc/main.go: run", "filtering/engine_factory.go: EngineFactory.Run", "filtering/engine_factory.go: EngineFactory.Search", "filtering/engine_generator.go: EngineGenerator.Search", "filtering/engine_generator.go: NewEngineGenerator"]}
{"id": "C93", "title": "A saved engine or subscription file that was cut off is noticed", "statement": "Decoding a saved engine, a saved map of subscriptions or a saved partial subscription of which the end is missing gives an error. For the map of subscriptions this holds at every point of the cut, the complete entries before it are stored, and any stream at all is accepted exactly if it has a number and at least so many well-formed entries; the same for a partial subscription at any depth of nesting, where nothing from the damaged one on is stored. A list cut off gives an error at every point, with the complete entries added and possibly one with a nil filter; the files of the two tree engines give an error and no root. In the code this fails for damage inside: a list accepts any value in place of a filter that is not the last one, and then every search panics; the trees lose every error in the match or one branch; the trie accepts a node cut off before its only child for zero; the legacy engine accepts the file of one subscriber cut off anywhere behind the first pattern.", "quantifier": "every engine state, every map of subscriptions, every point of the cut; for lists and subscriptions every stream of values", "why_tests_cant": "streams, states and places of damage are unbounded", "anchors": ["filtering/list.go: UnmarshalBinary", "filtering/list.go: Search", "filtering/legacy_engine.go: UnmarshalBinary", "filtering/patricia_trie.go: UnmarshalBinary", "filtering/splay_tree.go: UnmarshalBinary", "filtering/subscriptions.go: UnmarshalBinary"]}
{"id": "C94", "title": "Which patterns become filters and which tags can be made", "statement": "A pattern of an EPC scheme becomes a filter exactly if it has at least one field and at most as many as the scheme has; what the fields contain does not matter. A container pattern (ISO 17363) becomes a filter exactly if it has one to three fields, or four of which the last has at most six characters and the first two together have four; an item pattern (ISO 17365) exactly if it has one to four; no other kind of pattern ever does. Making a container tag of three non-empty texts of six-bit characters fails exactly if the serial number is longer than six characters or owner code and category together do not have four; making an item tag with a serial number exactly if issuer or company is missing. Making the filter of an EPC scheme or of an item never fails, and that of a container only for complete fields of the lengths that fail for tags.", "quantifier": "all texts as fields, all numbers of fields, all kinds of patterns", "why_tests_cant": "the fields are unbounded texts", "anchors": ["filtering/subscriptions.go: ToByteSubscriptions", "tdt/core.go: MakePrefixFilterString", "scheme/epc.go: MakeSGTIN96", "scheme/iso.go: MakeISO17363", "scheme/iso.go: MakeISO17365", "tdt/epc.go: NewPrefixFilterGIAI96", "tdt/iso.go: NewPrefixFilterISO17363"]}
{"id": "C95", "title": "How the text of the file of subscriptions is read", "statement": "The file of subscriptions is read as the records that a file of comma-separated values with this text has: one record per line, empty lines anywhere, fields plain or in quotes with quotes inside doubled, quoted fields with commas and line feeds, line ends of one or two characters, the last one optional. It is accepted exactly if it is such a file, and the records are unique; then loading gives the map of C65, and otherwise the program panics, in particular for any odd number of quotes. A text without quotes is always accepted: its records are its non-empty lines split at the commas. Records written with every field quoted are read back unchanged, but for carriage returns before line feeds, which are lost. Replacing the line feeds by two characters, or adding a line end at the end, changes nothing. For a file of well-formed EPC patterns a search then reports exactly the subscribers due.", "quantifier": "all texts of characters of which the file may consist", "why_tests_cant": "texts are unbounded; quotes and line ends combine in unboundedly many ways", "anchors": ["filtering/subscriptions.go: LoadSubscriptionsFromCSVFile"]}
{"id": "C96", "title": "Tags shorter than some filters", "statement": "A search by the List engine, after any history of additions and deletions, or by a SplayTree, fresh or after a history as in C23, panics exactly if the tag ends inside a stored filter, that is, if the filter begins with all bits of the tag and goes on (for the empty tag: if there is any filter); for every other tag, filters longer than it or not, it reports exactly the subscriptions whose filter starts the tag. So the first search of a SplayTree and the List agree on every tag, panics included. A fresh PatriciaTrie panics on the empty tag and otherwise exactly if the filters that begin with the tag's bits all go on, with the same bit; so whenever it panics on a non-empty tag the List does too, but not the other way round: it survives if the tag itself is a filter or the filters go on with both bits. After a history of additions and deletions as in C20 and C21 the trie panics exactly if the tag is empty or ends strictly inside an edge, and otherwise reports what is stored and starts the tag.", "quantifier": "all subscriptions whose filters are bit strings, all histories, all tags of any length", "why_tests_cant": "tags and filters are unbounded; whether a short tag is harmless depends on all filters together", "anchors": ["filtering/filter.go: FilterObject.Match", "filtering/list.go: List.Search", "filtering/patricia_trie.go: PatriciaTrieNode.search", "filtering/splay_tree.go: SplayTreeNode.splaySearch"]}
{"id": "C97", "title": "Files with patterns of all standards and tags of any length", "statement": "A file may mix EPC patterns, container (ISO 17363) and item (ISO 17365) patterns, patterns of which no filter can be made, and texts with no kind or no fields, which are ignored. After it is loaded, a search for a tag that has an identity and does not end inside a pattern of the file (is not selected by it but would be if it went on) reports that identity to exactly the report URIs with a pattern that selects the tag: an EPC pattern selects the tags that have its fields, an ISO pattern the tags whose six-bit text starts with its fields one after the other. This holds of the list engine, with as many reports for a URI as it has patterns that select different sets of tags, if no two URIs have patterns that select the same tags; the fresh splay tree and, except for patterns that select every tag any pattern selects, the Patricia trie report for each pattern that selects the tag to one of the URIs that have such a pattern, and to no URI the tag is not due to. A container or item tag made of fields is due to exactly the URIs with an ISO pattern whose text starts the tag's text. In the code this fails in four ways: a pattern of which no filter can be made selects every tag; ISO patterns with the same text select the same tags wherever their fields end and whichever standard they belong to; an ISO pattern that starts with L (M for GIAI) can select EPC tags, and the one-letter pattern selects all of them, and an item tag whose data identifier starts so can be selected by EPC patterns; and a search for a tag that ends inside a pattern of the file panics in the list engine and in the fresh splay tree.", "quantifier": "every list of CSV records whose patterns are of these kinds, every order of the loaded map, every non-empty tag with an identity, every implementation of the external conversions that meets the stated assumptions", "why_tests_cant": "patterns of different standards meet in the same bits only for particular letters and lengths; files, texts and tags are unbounded", "anchors": ["filtering/subscriptions.go: LoadSubscriptionsFromCSVFile", "filtering/subscriptions.go: ToByteSubscriptions", "filtering/list.go: List.Search", "filtering/patricia_trie.go: PatriciaTrie.Search", "filtering/splay_tree.go: SplayTree.Search", "tdt/core.go: MakePrefixFilterString", "tdt/iso.go: NewPrefixFilterISO17363", "scheme/iso.go: MakeISO17365"]}
{"id": "C98", "title": "The state machine of a generator of engines", "statement": "Whoever calls events on the exported FSM of an EngineGenerator, from any number of goroutines and with any arguments, the events that happen are init, deploy, and then update, rebuild, deploy over and over; all goroutines come to rest after at most seven moves for each, plus one. If init is called only with Subscriptions and update only with a message, nothing panics, the engine is made of the subscriptions of the init that happened and is never replaced, and at rest the generator is ready and has announced this engine once and once more for each update that happened, or, if init was never called, is unavailable. In the code an update changes nothing but announces the same engine again, and wrong calls end the process: update without a message or with a nil one, init without Subscriptions, and deploy before the engine is made.", "quantifier": "every number of goroutines, every sequence of calls and every interleaving of their moves", "why_tests_cant": "the number of callers and the interleavings are unbounded", "anchors": ["filtering/engine_generator.go: NewEngineGenerator", "filtering/engine_generator.go: EngineGenerator.enterGenerating", "filtering/engine_generator.go: EngineGenerator.enterRebuilding", "filtering/engine_generator.go: EngineGenerator.enterPending", "filtering/engine_generator.go: EngineGenerator.enterReady"]}
{"id": "C99", "title": "The program on any file without forks, tags of any length", "statement": "On a subscription file with patterns of any standards in which of two patterns narrower than a third one is always within the other, whatever was searched before, by whichever engines and for whichever tags, a search ends the process exactly if it goes through an engine that the tag ends, and otherwise answers what the selected engine owes by the file. A tag ends the legacy engine if its translation panics; the list and the splay tree if it is empty, if it ends inside a pattern or if it is selected and its translation panics; the trie if it is empty, if it ends where all patterns that ask for its bits ask for the same next bit, or if it is selected by a pattern that does not select all and its translation panics. If also no two URIs have patterns that select the same tags and no pattern selects all tags that any pattern selects, then the three engines agree wherever they answer, and the whole program, from the text of the file, with the legacy engine not selected: as long as no tag ends any engine it never ends, and at rest has delivered to each destination the identity of each tag due to it, once for each different pattern. In the code one tag that ends every engine selected ends the program, so that a tag shorter than a pattern is enough.", "quantifier": "every file, every text of it, every order of the map, every sequence of tags of any length, every interleaving of reader, searches, factory and selection of engines", "why_tests_cant": "files, tags, messages and interleavings are unbounded; the splay tree changes its shape with each search", "anchors": ["filtering/engine_factory.go: EngineFactory.Search", "filtering/list.go: List.Search", "filtering/patricia_trie.go: PatriciaTrie.Search", "filtering/splay_tree.go: SplayTree.Search", "filtering/legacy_engine.go: LegacyEngine.Search", "filtering/subscriptions.go: LoadSubscriptionsFromCSVFile", "cmd/gosstrak-fc/main.go: run"]}
{"id": "C100", "title": "The Patricia trie after any history of additions and deletions", "statement": "After any sequence of additions and deletions of subscriptions, including additions of filters that end inside an edge, and for any tag, short ones included, a search panics exactly if the tag is empty or agrees with a filter held at all the places that it has, with the forks on the way, and lacks some place of it; otherwise it reports exactly the URIs of the filters held whose bits the tag has at the places at which they are looked for, with the forks on the way, outermost first. Which filters are held, at which places their bits are looked for and with which URIs follows call by call from the sequence, without the shape of the trie. Whatever the sequence and the tag, only URIs that the trie was built with or that were added are reported. A filter added inside an edge is not held; it takes the place of the next filter, whose own URI is lost, and all filters beyond are looked for at places that do not belong to them. In the code this cannot be taken back: if filters lie both ways beyond, the deletion of the new filter changes no search. Adding it a second time does get it reported. After such additions a search may panic for a tag that is longer than all filters ever given.", "quantifier": "every set of subscriptions, every sequence of calls, every tag", "why_tests_cant": "the damage depends on the whole sequence of calls and shows only for tags with certain bits at unrelated places", "anchors": ["filtering/patricia_trie.go: PatriciaTrie.AddSubscription", "filtering/patricia_trie.go: PatriciaTrie.DeleteSubscription", "filtering/patricia_trie.go: PatriciaTrie.Search", "filtering/patricia_trie.go: add, delete, search"]}
{"id": "C101", "title": "The splay tree after any searches", "statement": "After any sequence of searches on a fresh splay tree, for tags of any length, the answers follow from lists of filters alone: one outermost and one behind every filter, at first the children of each in key order. A search tries the filters of the outermost list in order, comparing only the bits that a filter has beyond its longest stored prefix, and goes on in the list behind the first one that the tag agrees with; it panics exactly if it comes to a filter whose own bits agree as far as the tag goes while the tag ends before the filter does. It reports the URIs of the filters found, outermost first; those that were not first in their list then move to the front of the outermost list. Consequences for every sequence of searches: a tag that a stored filter starts is never answered with nothing; the filters reported are nested without a gap, and either all of them start the tag or none does; a repeated search answers with a part of the first answer, empty only if the first was, and from the second on the answer and the tree stay the same. In the code the following fail. A filter that is not the first child of its longest stored prefix is reported together with it at most once, whatever is searched. Some sequence of searches makes the tree report a subscription for a tag that its filter does not start, exactly if some stored filter other than the empty one has two children.", "quantifier": "every set of subscriptions with bit-string filters, every sequence of searches, every tag", "why_tests_cant": "the answer to a search depends on all searches before it; the losses and the wrong reports need certain sets of filters and certain tags in a certain order", "anchors": ["filtering/splay_tree.go: SplayTree.Search", "filtering/splay_tree.go: splaySearch", "filtering/splay_tree.go: NewSplayTree, build"]}
{"id": "C102", "title": "The whole program on files in which patterns fork", "statement": "On a subscription file with patterns of any standards, also one with two patterns narrower than a third of which neither is within the other, whatever was searched before: a search ends the process if it goes through an engine that the tag must end and only if it goes through one that it may end. For the list, the trie and the legacy engine both are as in C99; the splay tree must end on the empty tag and on a tag that is due to someone and whose translation panics, and may end only on a tag that is shorter than some pattern or whose translation panics. Otherwise the list, the trie and the legacy engine answer as in C99. The splay tree reports patterns of the file that are each the next narrower one of the one before; the tag has the bits that are their own; all of them select the tag or none does; and it reports someone if the tag is due to anyone. So on a file where no two URIs have patterns that select the same tags and no pattern selects all that any selects, as long as tags are at least as long as every pattern and can be translated: the program never ends, has written a prefix of the replies owed and answered a prefix of the batches, at rest all; with the legacy engine not selected no tag that has an identity and is due to someone is lost; with the splay tree not selected either, everyone gets exactly what is due. In the code the last fails when the splay tree is selected: in some run a tag is not delivered to a destination it is due to and another one is delivered to a destination it is not due to. If every URI has one pattern and no two have the same, the splay tree reports only what is due, for all sequences of searches, exactly if no pattern that does not select all tags forks.", "quantifier": "every file, every order of the maps, every interleaving of the program, every sequence of tags", "why_tests_cant": "which reports are wrong depends on the patterns, on all tags read before and on which engine was measured to be the fastest", "anchors": ["filtering/engine_factory.go: Search", "filtering/splay_tree.go: Search, splaySearch", "cmd/gosstrak-fc/main.go: main"]}
{"id": "C103", "title": "The splay tree after any additions, deletions and searches", "statement": "After any sequence of additions, deletions and searches, in any order and for tags of any length, what a splay tree answers follows from a row of groups of filters, without the shape of the tree. A group has a place in the tag, from which on its filters are looked for, and its filters in order, each with its URI; fresh, there is one group at the place 0 for every filter that extends no other one. A search takes the first group in which something is found and panics exactly if in it or in one before the rest of the tag ends inside a filter that it agrees with; every filter found that does not stand right behind the one found before leaves with all that is behind it and forms a group where that one ends, and the group itself goes to the front. An addition goes to the first group whose foremost filter starts the new one, or forms a last group at the place of the one that was last; a deletion looks only in the first group whose foremost filter starts the one to be deleted. Consequences for every sequence of calls: additions and deletions never panic; only URIs that the tree was built with or that were added are reported, and the empty one that a deletion leaves; a filter added with a new URI is reported only for tags that have it at the place of the group it is put into, and for those it is reported unless the tag has a filter of a group in front, or one of its own group that does not start it. In the code the following fail after a single search. An added subscription is not reported for a tag that its filter starts, and is reported for one that it does not start. The deletion of a subscription changes nothing, the tag is still reported to it. The deletion of a filter that was never given takes away a subscription to another one. A search panics for a tag that is as long as every filter ever given.", "quantifier": "every set of subscriptions with bit-string filters, every sequence of additions, deletions and searches, every tag", "why_tests_cant": "what an addition or a deletion does depends on all searches before it, and shows only in later searches for certain tags", "anchors": ["filtering/splay_tree.go: SplayTree.AddSubscription", "filtering/splay_tree.go: SplayTree.DeleteSubscription", "filtering/splay_tree.go: SplayTree.Search", "filtering/splay_tree.go: add, delete, splaySearch"]}
{"id": "C104", "title": "Fields left out of a pattern are drawn anew at every conversion", "statement": "Every constructor of an engine and every addition or deletion converts the patterns on its own, and a field left out (filter value, second field or serial of an EPC pattern) is drawn at random for each. If no pattern leaves a field to chance, a conversion gives the same filters whatever is drawn, and an engine after any calls is the same as if the conversion were a function. A pattern is converted to the same filter at every call exactly if it leaves nothing to chance: its filter value is given, a fourth field is given, and a third field is given or has no choice (a GRAI with a company prefix of twelve digits, or a company prefix of a length there is no row for); an empty company prefix, wrong numbers of fields and the ISO schemes draw nothing. A subscription added to a list and then deleted is gone, and one added twice is stored once, whatever is drawn, exactly in this case. For well-formed fields of which some are left out, the possible conversions are exactly those of the patterns with well-formed values put in: filter values 0 to 6, all second fields with the digits there are, all serials of 38 bits; for several patterns in one call each is filled in independently of the others, so one pattern with two URIs may become two filters. So the list reports exactly the tags with the values given and those drawn; if a field is left to chance, whatever is drawn there is a tag with the values given that it does not report and reports with other draws, and with the filter value left out it never reports a tag with filter value 7. In the code a field left out therefore does not stand for any value, and engines built from the same subscriptions need not agree: for one pair of subscriptions and one tag the list reports both, the Patricia trie and the splay tree none; and in the trees too a subscription that was added and deleted may still be reported.", "quantifier": "every set of subscriptions, every sequence of calls, all draws of the generator for every pattern of every call; every pattern, every tag", "why_tests_cant": "the draws differ from run to run, and of 7 filter values or 2^38 serials a test sees one", "anchors": ["filtering/subscriptions.go: ToByteSubscriptions", "tdt/epc.go: getFilter", "tdt/epc.go: getSerial", "tdt/epc.go: getItemReference", "filtering/list.go: AddSubscription, DeleteSubscription, NewList"]}
{"id": "C105", "title": "Statistics do not hold up the filtering", "statement": "With statistics on or off, the factory does only what it could do without them. With statistics off the database is never asked and a search under way can always be completed. With statistics on the measurements of all messages received are written in their order, each write repeating those before, but for one message in hand and one write under way; a search under way can be completed if the database goes on answering and every point is accepted. In the code a write that fails ends the process, and the measurement is lost. A write that does not return stops the filtering: the reports of the generators are never more than the capacity of the main channel and three ahead of the writes, so in every endless execution in which a write does not return and generators notice their tickers, from some moment on no search begins or returns. Such executions exist, and there is an execution in which no goroutine can move, in the middle of a search, until the database answers, exactly that many reports ahead.", "quantifier": "every interleaving of the factory, the generators, a search, the goroutine that hands on messages, the statistics goroutine and the database; every capacity; endless executions", "why_tests_cant": "the stop comes after more than a hundred intervals of a database that does not answer, and depends on four tickers, two channels and the schedule", "anchors": ["monitoring/stat_manager.go: NewStatManager", "cmd/gosstrak-fc/main.go: run", "filtering/engine_factory.go: Run", "filtering/engine_generator.go: NewEngineGenerator"]}
{"id": "C106", "title": "Loading a saved engine into one that is in use", "statement": "UnmarshalBinary of what an engine saved, called on a tree engine that already has nodes, gives the saved tree. In the code nodes and filters are overwritten in place and zero fields are not written. A splay tree gets the places and URIs of the saved one without an error, but every field of a filter that is zero in the saved one stays as it was at that place; so it is the saved tree exactly if nothing stays, which for filters of NewFilter means that at each place in both trees an offset of zero was zero, an offset in the first byte was in the first byte and an empty string was empty. The same holds for a Patricia trie whose nodes have both children or none; any other also keeps the old branch for zero where the saved one has only a branch for one, and loses zero branches without a sibling as in C50. Loading again does not help; an engine that loads its own file changes nothing if it is a splay tree. There are trees made by the constructors that miss tags or report to addresses without a subscription after loading without an error. A file of another kind or cut off gives an error and changes nothing, one with a damaged root changes the fields before the damage and gives an error unless a part that is not the last is of the wrong type, which leaves the old part and is not noticed. A partial subscription gets the saved offset and URI and keeps the keys of its subset that were not saved; a damaged one gives an error and changes only what comes before the damage.", "quantifier": "every saved tree, every tree in use, every map", "why_tests_cant": "tests load into empty engines; what is left depends on pairs of trees of any shape", "anchors": ["filtering/splay_tree.go: UnmarshalBinary", "filtering/patricia_trie.go: UnmarshalBinary", "filtering/subscriptions.go: PartialSubscription.UnmarshalBinary"]}
{"id": "C107", "title": "Statistics do not hold up the conversation with the reader", "statement": "The whole program with statistics on or off does only what it can do without them for the same moves of the reader, so all of C92 holds with statistics. With a database that answers it is never stuck: as long as it has not ended it rests only when all engines are ready and announced, no whole message is waiting to be read, no batch to be searched, no report to be handed over, and no write is under way. In the code a write that fails ends the whole program. A write that does not return silences it: in every endless execution in which generators notice their tickers, from some moment on no search begins or returns and no batch with tags is done; only so many reports with tags are ever read, and the replies written are those owed for messages up to there; so if the reader goes on sending reports with tags, from some moment on no reply is written, and no keep-alive is answered any more, though neither the connection nor the program has ended. Such executions exist, with a file of subscriptions and engines made of it.", "quantifier": "every interleaving of all goroutines of gosstrak-fc with the reader, the clocks and the database; every file, stream of bytes and division into portions; endless executions", "why_tests_cant": "the reader hears nothing because of a database it does not know of, after an unknown number of intervals, two channels, four generators and two goroutines away", "anchors": ["cmd/gosstrak-fc/main.go: run", "monitoring/stat_manager.go: NewStatManager", "filtering/engine_factory.go: Run", "filtering/engine_generator.go: NewEngineGenerator"]}
{"id": "C108", "title": "The ports and commands around the filtering", "statement": "As long as the management port of gosstrak-fc can be opened and accepting succeeds, connections to it, whether they become connections of the library or not, change nothing: the program does what it does without the port for the same moves of all others. In the code trouble with that port ends the whole program: at any moment after the first engine is ready, for example in the middle of a search with a batch waiting and nothing reported, a port that cannot be opened or an accept that fails is the last move of the process. The program ale-ec serves the connections that succeed up to the first accept that fails, and then returns. The command sixenc2bin prints six bits for each character of its argument, from which the argument can be read off. In the code it panics without an argument, and the text that one is needed is never printed.", "quantifier": "every interleaving of the port with all goroutines, the reader, the clocks and the database; every sequence of connections; every argument of six-bit characters", "why_tests_cant": "an accept that fails cannot be provoked at a chosen moment of a search, and a listener that only mirrors is not connected to in any test", "anchors": ["cmd/gosstrak-fc/main.go: run", "cmd/ale-ec/main.go: main", "scheme/sixenc2bin/main.go: main"]}
{"id": "C109", "title": "Everything the reader sends is dealt with in the end", "statement": "In every endless execution of gosstrak-fc in which no goroutine and no case of a select is passed over for ever, however the reader divides and times what it sends, however often clocks tick and engines are selected: for whatever has arrived at some moment there is a later moment by which every message of it has been answered and every report of it has been searched for and collected, all in order. From some moment on the factory is active and all four engines are ready, and again and again no search is under way and each generator is free to count a search. With statistics the same holds if the database answers every write. On a file as in C92, with a reader that sends messages for ever whose tags have identities, and as long as the legacy engine is not selected for an answer, each destination has the identities due to it by then. So a tag that is due and whose translation panics ends the program in every such execution, whichever engines are selected. Such executions exist: every run that has come to rest can go on to one in which the reader sends keepalives for ever. In the code it is not enough that no goroutine is kept waiting while it could go on without interruption: the listener can take its own message from the main channel and put it back for ever, while the generators wait for the listener, a search for a generator, the next report for the search, and a keepalive behind it is never answered.", "quantifier": "every endless execution of all goroutines, the reader, the clocks and the database that is fair to each kind of move of the program; every file, stream of bytes and division into portions", "why_tests_cant": "a test ends; that no goroutine is starved by the livelock of the main channel, a full channel, or generators and listener waiting for each other can only be shown for executions without end", "anchors": ["cmd/gosstrak-fc/main.go: run", "filtering/engine_factory.go: EngineFactory.Run", "filtering/engine_factory.go: EngineFactory.Search", "filtering/engine_generator.go: NewEngineGenerator"]}
{"id": "C110", "title": "Connections to the management port keep nothing from being dealt with", "statement": "In every endless execution of the whole process of gosstrak-fc, with its statistics and its management port, in which no goroutine and no case of a select is passed over for ever and the database answers, however many clients connect to the port and however often, and whether their connections are served or refused: for whatever the reader has sent at some moment there is a later moment by which every message of it has been answered and every report of it has been searched for and collected, all in order. The port is opened in the end and stays open, and from then on a client can connect at any moment without any effect on the filtering. Such executions exist with any number of connections: every fair endless execution without the port becomes one in which from some moment on a client connects between any two moves.", "quantifier": "every endless execution of all goroutines, the reader, the clocks, the database and the clients of the management port that is fair to each kind of move of the process; every file, stream of bytes, division into portions and sequence of connections", "why_tests_cant": "a test makes finitely many connections and ends; that no flood of connections delays a reply for ever can only be shown for executions without end", "anchors": ["cmd/gosstrak-fc/main.go: run", "filtering/engine_factory.go: EngineFactory.Run", "filtering/engine_factory.go: EngineFactory.Search"]}
{"id": "C111", "title": "How many reports of the generators can be missing, and for how long", "statement": "At every moment of every execution of the factory, the goroutine of gosstrak-fc that receives management messages has received all reports of traffic and throughput that the generators have handed over, except for at most as many as the channel holds and one. In the code no report is certain to arrive: there is an execution without end in which no goroutine and no case of a select is passed over for ever, clocks tick, the goroutine of the main program receives reports without end, and one report that has been handed over is never received, because the listener takes it from the channel whenever it is the next and puts it behind the others.", "quantifier": "every execution of the factory, its generators, the listener, the search, the clocks and the main program; one endless execution, fair to each sort of move, for the failure", "why_tests_cant": "a test sees finitely many interleavings and cannot tell a late report from one that never comes", "anchors": ["filtering/engine_factory.go: EngineFactory.Run", "filtering/engine_generator.go: NewEngineGenerator", "cmd/gosstrak-fc/main.go: run"]}
