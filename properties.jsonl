{"id": "C01", "title": "contains reports exactly the inserted prefixes", "statement": "After any sequence of API calls, `contains(p, None)` returns true if and only if some earlier `insert` was given exactly the prefix p (same address bits and same length).", "quantifier": "every address family, every finite sequence of inserts and status changes, every queried prefix (all lengths)", "why_tests_cant": "There are about 2^33 IPv4 and 2^129 IPv6 prefixes and unboundedly many histories; the answer depends on tree nodes and hash chains created by every earlier insert.", "anchors": ["src/rib/starcast_af.rs: StarCastAfRib::contains, insert", "src/tree_bitmap/mod.rs: TreeBitMap::set_prefix_exists, prefix_exists, node_id_for_prefix, store_node, retrieve_node_mut, retrieve_node", "src/tree_bitmap/tree_bitmap_node.rs: eval_node_or_prefix_at"]}
{"id": "C02", "title": "contains with a mui reports exactly the inserted (prefix, mui) pairs", "statement": "After any sequence of inserts, `contains(p, Some(m))` is true if and only if a record for prefix p and multi-unique-id m was inserted.", "quantifier": "every sequence of inserts, every prefix, every mui", "why_tests_cant": "The answer goes through per-node mui indexes along a hash chain shared by unrelated nodes; whether an unrelated insert changes the answer depends on collision patterns that tests do not enumerate.", "anchors": ["src/rib/starcast_af.rs: contains", "src/tree_bitmap/mod.rs: prefix_exists_for_mui, retrieve_node_for_mui, store_node, retrieve_node_mut", "src/tree_bitmap/node_cht.rs: NodeSet::update_rbm_index"]}
{"id": "C03", "title": "Longest match returns the longest stored covering prefix", "statement": "A `match_prefix` with LongestMatch, when it returns a prefix, returns a stored prefix that covers the searched prefix and no stored covering prefix is longer; if the longest stored covering prefix has visible records, it is the one returned.", "quantifier": "every store history, every search prefix, both families", "why_tests_cant": "Correctness is relative to the whole set of stored prefixes; no finite table of queries covers all combinations of nested prefixes.", "anchors": ["src/rib/starcast_af_query.rs: match_prefix", "src/tree_bitmap/tree_bitmap_query.rs: TreeBitMap::match_prefix", "src/tree_bitmap/tree_bitmap_iterators.rs: LMPrefixIter::next, longest_matching_prefix"]}
{"id": "C04", "title": "Exact match returns exactly the searched prefix", "statement": "`match_prefix` with ExactMatch returns prefix p with match type ExactMatch and its records if and only if p was inserted and at least one of its records is visible under the query options; otherwise it returns no prefix, no records and EmptyMatch.", "quantifier": "every store history, every search prefix, every combination of mui / include_withdrawn options", "why_tests_cant": "Needs agreement between two independent structures (existence tree and record table) for every history.", "anchors": ["src/rib/starcast_af_query.rs: match_prefix, get_value", "src/tree_bitmap/tree_bitmap_query.rs: match_prefix", "src/prefix_cht/cht.rs: PrefixCht::get_records_for_prefix"]}
{"id": "C05", "title": "Less-specifics are complete, sound and ordered", "statement": "The less-specific prefixes reported for a search prefix are exactly the stored prefixes that strictly cover it, each once, from longest to shortest.", "quantifier": "every store history, every search prefix", "why_tests_cant": "Completeness is a statement about all prefixes not returned.", "anchors": ["src/tree_bitmap/tree_bitmap_iterators.rs: LessSpecificPrefixIter::next, less_specific_prefix_iter", "src/rib/starcast_af_query.rs: match_prefix, less_specifics_iter_from"]}
{"id": "C06", "title": "More-specifics are complete and sound", "statement": "The more-specific prefixes reported for a search prefix are exactly the stored prefixes covered by it (for match_prefix: excluding the search prefix itself), each exactly once.", "quantifier": "every store history, every search prefix of every length", "why_tests_cant": "The iterator walks an unbounded tree through bitmaps, masks and a stack; a wrong mask or skipped child only shows for particular prefix sets.", "anchors": ["src/tree_bitmap/tree_bitmap_iterators.rs: MoreSpecificPrefixIter::next, more_specific_prefix_iter_from", "src/tree_bitmap/tree_bitmap_node.rs: NodeMoreSpecificChildIter::next, NodeMoreSpecificsPrefixIter::next, ms_prefix_mask_arr, ptr_range"]}
{"id": "C07", "title": "Iterating all prefixes yields each stored prefix exactly once", "statement": "`prefixes_iter` terminates and yields every prefix that was ever inserted exactly once, and no other prefix, together with its current records.", "quantifier": "every store history", "why_tests_cant": "Absence of duplicates and omissions must hold for every possible set of prefixes.", "anchors": ["src/tree_bitmap/tree_bitmap_iterators.rs: prefixes_iter, MoreSpecificPrefixIter::next", "src/rib/starcast_af.rs: prefixes_iter", "src/rib/starcast.rs: prefixes_iter"]}
{"id": "C08", "title": "Last write wins per (prefix, mui)", "statement": "After any history, the record stored for (p, m) carries the metadata of the most recent insert for exactly that pair, and the logical time and status of the most recent insert or per-prefix status change for that pair (in-memory strategies).", "quantifier": "every sequence of inserts and status changes, every prefix and mui", "why_tests_cant": "A refinement statement over all histories.", "anchors": ["src/prefix_cht/cht.rs: MultiMap::upsert_record, mark_as_withdrawn_for_mui, mark_as_active_for_mui, PrefixCht::upsert_prefix", "src/rib/starcast_af.rs: insert, upsert_prefix"]}
{"id": "C09", "title": "Isolation between prefixes and muis", "statement": "An insert or per-prefix status change for (p, m) does not change the set of records returned for any other prefix, nor the record of any other mui on the same prefix.", "quantifier": "every reachable store state, every pair of distinct prefixes (also those whose hashes collide), every pair of distinct muis", "why_tests_cant": "Hash collisions on every level chain unrelated prefixes together; confusing two of them would only show for specific colliding pairs.", "anchors": ["src/prefix_cht/cht.rs: PrefixCht::non_recursive_retrieve_prefix_mut, get_records_for_prefix, hash_prefix_id", "src/cht/mod.rs: nodeset_size, prev_node_size"]}
{"id": "C10", "title": "Isolation between IPv4 and IPv6", "statement": "An operation on an IPv4 prefix never changes the result of any query on IPv6 prefixes, and vice versa; family-specific mui status changes only affect that family.", "quantifier": "every reachable store state and every operation", "why_tests_cant": "Universal over all operations and queries.", "anchors": ["src/rib/starcast.rs: StarCastRib (all dispatching methods)"]}
{"id": "C11", "title": "Inserts for different (prefix, mui) commute", "statement": "Two inserts for different (prefix, mui) pairs can be applied in either order: every later record query returns the same records, and every prefix query the same prefixes.", "quantifier": "every reachable state and every two inserts for different pairs", "why_tests_cant": "Two orders of every pair from every state cannot be enumerated; internal layouts (hash chains) do differ by order.", "anchors": ["src/rib/starcast_af.rs: insert", "src/prefix_cht/cht.rs: upsert_prefix", "src/tree_bitmap/mod.rs: set_prefix_exists"]}
{"id": "C12", "title": "Globally withdrawn muis are hidden when withdrawn routes are excluded", "statement": "While mui m is globally withdrawn, no query with include_withdrawn = false returns a record of m.", "quantifier": "every history, every prefix, every query with include_withdrawn = false, with and without an explicit mui", "why_tests_cant": "The filter is implemented separately on each query path; tests cover a handful of combinations.", "anchors": ["src/prefix_cht/cht.rs: MultiMap::get_filtered_records, get_filtered_record_for_mui, as_active_records_not_in_bmin", "src/rib/starcast_af_query.rs: get_value, match_prefix", "src/lsm_tree/mod.rs: records_for_prefix"]}
{"id": "C13", "title": "Withdrawn-inclusive queries return everything with correct status", "statement": "With include_withdrawn = true a record query returns every stored record of the prefix exactly once; its status is Withdrawn if its mui is globally withdrawn, and its stored local status otherwise.", "quantifier": "every history, every prefix, every mui option", "why_tests_cant": "Universal over histories of global and local status changes.", "anchors": ["src/prefix_cht/cht.rs: as_records_with_rewritten_status, get_record_for_mui_with_rewritten_status"]}
{"id": "C14", "title": "Global withdrawal is reversible and keeps local status", "statement": "Marking a mui globally withdrawn and later globally active again leaves every query result as it was before; local statuses and metadata are not altered by global status changes, in any interleaving of other operations on other muis.", "quantifier": "every reachable state, every mui, every sequence of other operations in between", "why_tests_cant": "Needs a state equality over all reachable states.", "anchors": ["src/tree_bitmap/mod.rs: mark_mui_as_withdrawn, mark_mui_as_active, update_withdrawn_muis_bmin"]}
{"id": "C15", "title": "Per-prefix withdrawal only affects that (prefix, mui)", "statement": "`mark_mui_as_withdrawn_for_prefix(p, m, t)` on a stored pair changes only the status (to Withdrawn) and logical time (to t) of that one record; the metadata is kept and the record disappears from withdrawn-exclusive queries; `mark_mui_as_active_for_prefix` restores it.", "quantifier": "every reachable state, every stored pair, every logical time, every persistence strategy", "why_tests_cant": "Universal over states; metadata preservation must hold for every metadata value.", "anchors": ["src/rib/starcast_af.rs: mark_mui_as_withdrawn_for_prefix, mark_mui_as_active_for_prefix", "src/prefix_cht/cht.rs: mark_as_withdrawn_for_mui, mark_as_active_for_mui", "src/lsm_tree/mod.rs: rewrite_header_for_record, most_recent_record_for_prefix_mui"]}
{"id": "C16", "title": "Status change on an unknown prefix is rejected without side effects", "statement": "Calling a per-prefix status change for a prefix that was never inserted returns an error, every time, and changes no later result.", "quantifier": "every reachable state, every prefix never inserted", "why_tests_cant": "A negative side-effect statement over all later queries.", "anchors": ["src/rib/starcast_af.rs: mark_mui_as_withdrawn_for_prefix, mark_mui_as_active_for_prefix", "src/prefix_cht/cht.rs: non_recursive_retrieve_prefix_mut"]}
{"id": "C17", "title": "Total prefix count equals the number of distinct prefixes", "statement": "`prefixes_count().total_count` equals the number of distinct prefixes inserted, and `prefixes_count_for_len(l).total_count` the number of those of length l; the per-length counts sum to the total.", "quantifier": "every sequential history", "why_tests_cant": "Counting over arbitrary histories with repetitions.", "anchors": ["src/rib/starcast_af.rs: insert, prefixes_count, prefixes_count_for_len", "src/types/stats.rs: Counters"]}
{"id": "C18", "title": "Total route count equals the number of distinct (prefix, mui) pairs", "statement": "`routes_count().total_count` equals the number of distinct (prefix, mui) pairs inserted.", "quantifier": "every sequential history", "why_tests_cant": "Depends on repeated inserts of the same pair anywhere in the history.", "anchors": ["src/rib/starcast_af.rs: insert, routes_count", "src/prefix_cht/cht.rs: upsert_prefix"]}
{"id": "C19", "title": "In-memory and persisted counters agree with what is stored", "statement": "`prefixes_count().in_memory_count` equals the number of distinct prefixes held in memory, `routes_count().in_memory_count` the number of records held in memory, and the persisted counts the number persisted.", "quantifier": "every sequential history, every strategy", "why_tests_cant": "Invariant over all histories.", "anchors": ["src/rib/starcast_af.rs: prefixes_count, routes_count, prefixes_count_for_len", "src/prefix_cht/cht.rs: prefixes_count, routes_count", "src/lsm_tree/mod.rs: prefixes_count, routes_count"]}
{"id": "C20", "title": "UpsertReport.prefix_new", "statement": "The `prefix_new` field of the report returned by `insert` is true if and only if the prefix had not been inserted before.", "quantifier": "every history and every insert in it, every strategy", "why_tests_cant": "Depends on the complete history.", "anchors": ["src/rib/starcast_af.rs: insert, upsert_prefix", "src/types/stats.rs: UpsertReport"]}
{"id": "C21", "title": "UpsertReport.mui_new and mui_count", "statement": "`mui_new` is true if and only if no record for (prefix, mui) existed before the insert, and `mui_count` is the number of records on the prefix after the insert.", "quantifier": "every history and every insert in it", "why_tests_cant": "Depends on the complete history.", "anchors": ["src/prefix_cht/cht.rs: PrefixCht::upsert_prefix, MultiMap::upsert_record", "src/types/stats.rs: UpsertReport"]}
{"id": "C22", "title": "Address truncation keeps exactly the leading bits", "statement": "Truncating an address to a length keeps precisely the first `len` bits and zeroes the rest; it is idempotent, monotone and composes to the minimum length.", "quantifier": "all 2^32 and 2^128 addresses, all lengths 0..=BITS", "why_tests_cant": "2^128 inputs.", "anchors": ["src/types/af.rs: AddressFamily::truncate_to_len (IPv4, IPv6)", "src/types/prefix_id.rs: PrefixId::truncate_to_len"]}
{"id": "C23", "title": "Stride decomposition of a prefix is lossless", "statement": "The (tree node, position in node) pair computed for a prefix determines the prefix uniquely and recombining them gives the prefix back; different prefixes never share a position.", "quantifier": "all prefixes of all lengths 1..=BITS, both families", "why_tests_cant": "2^33 / 2^129 prefixes.", "anchors": ["src/tree_bitmap/mod.rs: node_id_for_prefix", "src/types/af.rs: into_bit_span, add_bit_span", "src/types/bit_span.rs: from_bit_pos_index, into_bit_pos"]}
{"id": "C24", "title": "Hash slots are always within the bucket and shifts never overflow", "statement": "For every prefix and every chain level that a lookup or insert can visit, the computed slot index lies within the bucket that was allocated for that level and no shift or byte arithmetic overflows.", "quantifier": "all ids, all visitable levels, both families", "why_tests_cant": "2^128 ids times levels; an overflow panics only for particular combinations.", "anchors": ["src/cht/mod.rs: nodeset_size, prev_node_size", "src/tree_bitmap/mod.rs: hash_node_id", "src/prefix_cht/cht.rs: hash_prefix_id, StoredPrefix::new"]}
{"id": "C25", "title": "Lookups and inserts never run out of chain levels and never panic", "statement": "From every reachable state, no insert, lookup, iteration or status change panics (index out of bounds, arithmetic overflow) or fails with the 'ran out of levels' fatal error.", "quantifier": "every reachable state, every operation and argument", "why_tests_cant": "Reachability of a panic depends on collision patterns 32 levels deep.", "anchors": ["src/tree_bitmap/mod.rs: store_node, retrieve_node_mut, retrieve_node", "src/prefix_cht/cht.rs: non_recursive_retrieve_prefix_mut, non_recursive_retrieve_prefix", "src/cht/oncebox.rs: OnceBoxSlice::get_or_init"]}
{"id": "C26", "title": "Best and backup path selection", "statement": "`calculate_and_store_best_and_backup_path` stores and returns the minimal and second-minimal record of the prefix in the (tie-breaker, mui) order over the current records, independent of insertion order, and `best_path` returns the best one's current record.", "quantifier": "every reachable state, every ordering of the metadata", "why_tests_cant": "Universal over record sets and orders.", "anchors": ["src/prefix_cht/cht.rs: MultiMap::best_backup, StoredPrefix::calculate_and_store_best_backup, set_path_selections", "src/rib/starcast_af_query.rs: best_path, calculate_and_store_best_and_backup_path"]}
{"id": "C27", "title": "Outdated flag of path selections", "statement": "`is_ps_outdated(p)` is true whenever a record of p was inserted or replaced since the last successful path selection calculation, and false right after a successful calculation.", "quantifier": "every reachable state, every sequence of inserts and calculations", "why_tests_cant": "Depends on arbitrary sequences.", "anchors": ["src/prefix_cht/cht.rs: set_ps_outdated, set_path_selections, is_ps_outdated, upsert_prefix", "src/rib/starcast_af_query.rs: is_ps_outdated"]}
{"id": "C28", "title": "Persisted keys are injective and round-trip", "statement": "The persisted key encodings of (prefix, mui) and of (prefix, mui, logical time, status) are injective, have fixed length 9/21 resp. 18/30 bytes, decode to what was encoded, and a scan for one prefix (or one prefix and mui) matches exactly the keys of that prefix (and mui).", "quantifier": "all prefixes, muis, logical times, statuses", "why_tests_cant": "About 2^230 keys.", "anchors": ["src/lsm_tree/mod.rs: ShortKey, LongKey, Key::header", "src/types/prefix_record.rs: ZeroCopyRecord, ValueHeader"]}
{"id": "C29", "title": "PersistOnly store refines a last-write-wins map", "statement": "With the PersistOnly strategy every record query returns, for each (prefix, mui) inserted, exactly the last inserted record with identical metadata bytes, subject to the withdrawal filters.", "quantifier": "every history of inserts and global status changes, every prefix", "why_tests_cant": "Byte-level encode, rewrite and decode for all records and histories.", "anchors": ["src/lsm_tree/mod.rs: persist_record_w_short_key, records_for_prefix", "src/rib/starcast_af_query.rs: get_value"]}
{"id": "C30", "title": "WriteAhead persists every inserted record", "statement": "With WriteAhead, after any history the persisted store contains for every insert call the inserted metadata under the key (prefix, mui, ltime, status), unless a later insert used the identical key; nothing else is persisted.", "quantifier": "every history", "why_tests_cant": "Universal over histories.", "anchors": ["src/rib/starcast_af.rs: upsert_prefix", "src/lsm_tree/mod.rs: persist_record_w_long_key"]}
{"id": "C31", "title": "PersistHistory persists exactly the superseded records", "statement": "With PersistHistory, every record that is replaced by a later insert for the same (prefix, mui) is persisted unchanged, every per-prefix status change on an existing pair persists a Withdrawn marker for a withdrawal (and no Withdrawn marker for an activation), and nothing else is persisted.", "quantifier": "every history", "why_tests_cant": "Universal over histories.", "anchors": ["src/rib/starcast_af.rs: upsert_prefix, mark_mui_as_withdrawn_for_prefix, mark_mui_as_active_for_prefix", "src/lsm_tree/mod.rs: persist_record_w_long_key, insert_empty_record"]}
{"id": "C32", "title": "Iterating persisted prefixes returns every persisted record once", "statement": "`persist_prefixes_iter` yields every persisted prefix once with all its persisted records and no errors.", "quantifier": "every persisted content", "why_tests_cant": "Universal over contents; grouping depends on the byte order of keys.", "anchors": ["src/lsm_tree/mod.rs: PersistedPrefixIter::next", "src/rib/starcast_af.rs: persist_prefixes_iter"]}
{"id": "C33", "title": "Route status byte decoding", "statement": "The byte encoding of a route status decodes to the same status, and every other byte value is rejected.", "quantifier": "all 256 byte values", "why_tests_cant": "Small, but part of the decode trust chain of C28/C29.", "anchors": ["src/types/route_status.rs: RouteStatus, TryFrom<u8>"]}
{"id": "C34", "title": "RecordSet keeps all records, IPv4 before IPv6", "statement": "Collecting prefix records into a result set loses and invents nothing: iteration yields first all IPv4 then all IPv6 records in insertion order, `len` is the number of records yielded, indexing agrees with iteration, `reverse` reverses each family.", "quantifier": "all lists of records", "why_tests_cant": "Universal over lists.", "anchors": ["src/types/prefix_record.rs: RecordSet, RecordSetIter"]}
{"id": "C35", "title": "Concurrent inserts never lose a prefix", "statement": "However many threads insert concurrently and however their steps interleave, once an insert of prefix p has returned, `contains(p, None)` is true in every later state.", "quantifier": "every number of threads, every set of inserts, every interleaving", "why_tests_cant": "Schedules are unbounded; races between bit setting and node creation occur only in narrow windows.", "anchors": ["src/tree_bitmap/mod.rs: set_prefix_exists, store_node, retrieve_node_mut", "src/tree_bitmap/tree_bitmap_node.rs: eval_node_or_prefix_at", "src/cht/oncebox.rs: OnceBox::get_or_init"]}
{"id": "C36", "title": "Concurrent inserts never panic or exhaust levels", "statement": "Under every interleaving of concurrent inserts and lookups no thread panics, no insert fails, and the hash chains keep one slot per id.", "quantifier": "every number of threads, every interleaving", "why_tests_cant": "Unbounded schedules.", "anchors": ["src/tree_bitmap/mod.rs: store_node, retrieve_node_mut", "src/prefix_cht/cht.rs: non_recursive_retrieve_prefix_mut", "src/cht/oncebox.rs: OnceBox, OnceBoxSlice"]}
{"id": "C37", "title": "Lookups running concurrently with inserts only report real prefixes and miss no settled prefix", "statement": "A longest-match, less-specifics or contains query that runs concurrently with inserts reports only prefixes some insert was called for, and never misses a prefix whose insert returned before the query started.", "quantifier": "every interleaving of any number of queries and inserts", "why_tests_cant": "Unbounded schedules.", "anchors": ["src/tree_bitmap/tree_bitmap_iterators.rs: LMPrefixIter::next, LessSpecificPrefixIter::next", "src/tree_bitmap/mod.rs: prefix_exists"]}
{"id": "C38", "title": "Iteration running concurrently with inserts misses no settled prefix", "statement": "A more-specifics or all-prefixes iteration that runs concurrently with inserts yields every prefix whose insert returned before the iteration started.", "quantifier": "every interleaving of any number of iterations and inserts", "why_tests_cant": "The window between setting a child bit and creating the child node is a few instructions.", "anchors": ["src/tree_bitmap/tree_bitmap_iterators.rs: MoreSpecificPrefixIter::next", "src/tree_bitmap/mod.rs: set_prefix_exists"]}
{"id": "C39", "title": "Concurrent record upserts are atomic", "statement": "Concurrent inserts for the same or different (prefix, mui) behave as if executed one after another: once an insert returned, the record read for (p, m) is the one written by that insert or by another insert for the same (p, m) that was not ordered before it.", "quantifier": "every interleaving of any number of inserts and reads", "why_tests_cant": "Unbounded schedules.", "anchors": ["src/prefix_cht/cht.rs: MultiMap::upsert_record, PrefixCht::upsert_prefix, non_recursive_retrieve_prefix_mut"]}
{"id": "C40", "title": "Concurrent global status changes all take effect", "statement": "When several threads concurrently mark different muis as withdrawn or active, every call returns and afterwards each mui has the status of its own last call.", "quantifier": "every interleaving of any number of global status changes", "why_tests_cant": "Only shows when two compare-and-swap operations interleave.", "anchors": ["src/tree_bitmap/mod.rs: mark_mui_as_withdrawn, mark_mui_as_active, update_withdrawn_muis_bmin"]}
{"id": "C41", "title": "Prefix count under concurrency", "statement": "After all concurrent inserts have returned, the total prefix count equals the number of distinct prefixes inserted.", "quantifier": "every interleaving", "why_tests_cant": "Only shows when two threads insert the same new prefix in the same window.", "anchors": ["src/tree_bitmap/tree_bitmap_node.rs: eval_node_or_prefix_at", "src/rib/starcast_af.rs: insert"]}
{"id": "C42", "title": "Node count equals the number of tree nodes", "statement": "The reported number of nodes equals the number of distinct stride positions needed by the inserted prefixes, plus the root (sequential use).", "quantifier": "every sequential history", "why_tests_cant": "Counting over arbitrary prefix sets.", "anchors": ["src/tree_bitmap/mod.rs: store_node, nodes_count", "src/rib/starcast.rs: nodes_count"]}
{"id": "C43", "title": "Records per mui", "statement": "`iter_records_for_mui_v4/v6(m, include_withdrawn)` yields exactly the stored prefixes that have a record for m visible under the option, each once, with that record only; and nothing when m is globally withdrawn and withdrawn routes are excluded.", "quantifier": "every history, every mui", "why_tests_cant": "Universal over histories.", "anchors": ["src/rib/starcast.rs: iter_records_for_mui_v4, iter_records_for_mui_v6", "src/rib/starcast_af_query.rs: more_specifics_iter_from"]}
{"id": "C44", "title": "more_specifics_from / less_specifics_from return each prefix with its own records", "statement": "`more_specifics_from(p)` (`less_specifics_from(p)`) returns p if it is stored, p's records, and every more-specific (less-specific) stored prefix that has visible records, each paired with its own records.", "quantifier": "every history, every prefix, every option", "why_tests_cant": "Universal over histories.", "anchors": ["src/rib/starcast_af_query.rs: more_specifics_from, less_specifics_from"]}
{"id": "C45", "title": "Global mui status is consistent across the API", "statement": "`is_mui_active(m)` is true exactly when m is withdrawn in neither family; the family specific status getters return exactly the effect of the last status change for that family and mui.", "quantifier": "every sequence of status changes", "why_tests_cant": "Universal over histories.", "anchors": ["src/rib/starcast.rs: is_mui_active, is_mui_active_v4, is_mui_active_v6, mui_is_withdrawn_v4, mui_is_withdrawn_v6, mark_mui_as_withdrawn"]}
{"id": "C46", "title": "The default route is a first-class prefix", "statement": "A record inserted for the zero-length prefix can be retrieved, is reported by contains, by longest match, as a less-specific of every prefix, and by iteration, like any other prefix.", "quantifier": "every history containing an insert for 0.0.0.0/0 or ::/0", "why_tests_cant": "One special case of the universal claims C01-C07, settled for all histories at once.", "anchors": ["src/tree_bitmap/mod.rs: set_prefix_exists, update_default_route_prefix_meta, prefix_exists", "src/tree_bitmap/tree_bitmap_iterators.rs: LMPrefixIter::next, LessSpecificPrefixIter::next"]}
{"id": "C47", "title": "Slot initialisation has a single winner", "statement": "For any number of threads racing to initialise the same hash slot, exactly one value is installed, all threads observe that same value, it never changes afterwards, and exactly one thread is told it won.", "quantifier": "every number of threads, every interleaving", "why_tests_cant": "Unbounded schedules.", "anchors": ["src/cht/oncebox.rs: OnceBox::get_or_init, OnceBoxSlice::get_or_init, get_or_make_slice"]}
{"id": "C48", "title": "Queries do not modify the store", "statement": "No query operation (contains, match_prefix, iterators, best_path, counts) changes the result of any later operation.", "quantifier": "every reachable state, every query", "why_tests_cant": "Universal over states and later operations.", "anchors": ["src/rib/starcast_af_query.rs: match_prefix, get_value, best_path, is_ps_outdated", "src/rib/starcast_af.rs: contains, prefixes_iter"]}
{"id": "C49", "title": "Store-wide results combine the two families exactly", "statement": "`prefixes_iter` yields the IPv4 prefixes followed by the IPv6 prefixes, every inserted prefix of either family exactly once with all its records; every store-wide counter (`prefixes_count`, `routes_count`, `nodes_count`) is the sum of the two family counters, and the total prefix count is the number of distinct prefixes inserted over both families.", "quantifier": "every history of calls on both families", "why_tests_cant": "Universal over histories that mix both families.", "anchors": ["src/rib/starcast.rs: prefixes_iter, prefixes_count, routes_count, nodes_count"]}
{"id": "C50", "title": "Racing slot initialisations neither leak nor double free", "statement": "When any number of threads race to create the slice of a bucket and to fill its slots, every allocation made by a losing thread is freed exactly once and never used afterwards, no thread dereferences a freed block, and once all threads have returned dropping the slice leaves nothing allocated.", "quantifier": "every number of threads, every interleaving, every allocator", "why_tests_cant": "Only shows in particular interleavings of allocation, compare-and-swap and free; tests do not watch the heap.", "anchors": ["src/cht/oncebox.rs: OnceBox::get_or_init, OnceBoxSlice::get_or_make_slice, Drop for OnceBox, Drop for OnceBoxSlice"]}
{"id": "C51", "title": "Concurrent calls on the two families are independent", "statement": "Under every interleaving of calls of the public interface, each family is in the state, and every call gives the answer, that a run of only that family's parts of the calls would produce; a call on both families does its IPv4 part first. No call panics; every call but the global status changes returns when given enough turns; a returned insert is what later reads show unless an overlapping insert of the same pair replaced it; once mark_mui_as_withdrawn has returned, and no call marking the peer active overlaps it, the peer is withdrawn for both families.", "quantifier": "every history, every set of concurrent calls of the public interface on either family, every interleaving", "why_tests_cant": "Universal over interleavings of calls that touch one or both families.", "anchors": ["src/rib/starcast.rs: StarCastRib and all its methods"]}
{"id": "C52", "title": "Locks and retry loops behave as single actions", "statement": "Done access by access, with any steps of other threads in between, the critical sections of the record mutex and of the RwLock of the node's mui set, and the retry loop of set_ps_outdated, give every call the answer it has when each of them is one indivisible action, in the order in which locks are taken and swaps succeed; no thread sees a half-changed record map; the assertion inside upsert_record holds; whoever holds a lock reaches its release without waiting for anybody, so there is no deadlock.", "quantifier": "every set of concurrent calls, every interleaving of the small steps, from every state", "why_tests_cant": "Universal over interleavings of single accesses inside critical sections and failing compare-and-swaps.", "anchors": ["src/prefix_cht/cht.rs: acquire_write_guard, acquire_read_guard, upsert_record, mark_as_withdrawn_for_mui, get_filtered_records, set_ps_outdated", "src/tree_bitmap/node_cht.rs: NodeSet::update_rbm_index, rbm"]}
{"id": "C53", "title": "A status change of one route never undoes a concurrent insert", "statement": "Whatever inserts and status changes for the same (prefix, mui) run at the same time: once an insert returned, the record read for (p, m) carries the metadata of that insert or of a later one, and the status and time of that insert or of a status change not ordered before it; once a status change returned Ok, the record shows that status or the outcome of a call not ordered before it.", "quantifier": "every strategy, every set of concurrent calls, every schedule, from every reachable state", "why_tests_cant": "Depends on where between the accesses of one call the other one falls; unbounded schedules.", "anchors": ["src/rib/starcast_af.rs: mark_mui_as_withdrawn_for_prefix, mark_mui_as_active_for_prefix, insert", "src/prefix_cht/cht.rs: mark_as_withdrawn_for_mui, mark_as_active_for_mui, upsert_record", "src/lsm_tree/mod.rs: rewrite_header_for_record"]}
{"id": "C54", "title": "WriteAhead persists every insert before it becomes visible, also under concurrency", "statement": "With the WriteAhead strategy and any calls running at the same time: an insert takes effect only after its record is persisted; every record shown by a query, during the run or concurrent with it, is persisted with the time and status of its insert; what a returned insert persisted stays, unless an insert with the same prefix, mui, time and status overwrites it; nothing but records of inserts made so far is persisted.", "quantifier": "every history, every set of concurrent calls, every schedule, every state along the run", "why_tests_cant": "A crash point between any two accesses of any interleaving would have to be tried.", "anchors": ["src/prefix_cht/cht.rs: upsert_prefix", "src/rib/starcast_af.rs: insert, upsert_prefix", "src/lsm_tree/mod.rs: persist_record_w_long_key"]}
{"id": "C55", "title": "PersistHistory loses no record under concurrency", "statement": "With the PersistHistory strategy and any calls running at the same time: every record inserted for a (prefix, mui) is either the current one or is persisted with its metadata once the inserts have returned; nothing is persisted but replaced records and markers of status changes.", "quantifier": "every history, every set of concurrent calls, every schedule, every state along the run", "why_tests_cant": "Depends on the interleaving of replacing a record, path selection, and writing to the log-structured tree.", "anchors": ["src/prefix_cht/cht.rs: upsert_prefix, upsert_record", "src/rib/starcast_af.rs: insert, mark_mui_as_withdrawn_for_prefix, mark_mui_as_active_for_prefix", "src/lsm_tree/mod.rs: persist_record_w_long_key, insert_empty_record"]}
{"id": "C56", "title": "Concurrent queries over several prefixes", "statement": "An iteration over more or less specifics, over all prefixes or over the prefixes of one mui, and a match, running at the same time as other calls, report every prefix at most once and with the records that prefix had while the call ran. A record whose insert had returned before the call started is shown in that or a later version. A visible route that no overlapping call touches is reported as it is. The answer as a whole is that of one moment during the call.", "quantifier": "every interleaving of any number of calls of all kinds, every history before them, all four strategies", "why_tests_cant": "Each item of an iteration is read in separate steps; what other threads do between them is unbounded.", "anchors": ["src/rib/starcast_af_query.rs: match_prefix, more_specifics_iter_from, less_specifics_iter_from, get_value", "src/rib/starcast_af.rs: prefixes_iter"]}
{"id": "C57", "title": "Status bitmap and path selections use memory soundly", "statement": "The set of withdrawn muis of a family and the path selections of a prefix are boxed values behind an epoch-managed pointer that is swapped. No concurrent use of them reads or frees a block that is not allocated; a reference obtained from the pointer stays valid and unchanged; a swap never takes a re-used address for the old one (no ABA); and a block that was swapped out, or that a failing swap was given, is eventually freed.", "quantifier": "all numbers of concurrent readers, status changes, path selection changes and outdated marks on one pointer, all interleavings, all allocators that may re-use freed addresses", "why_tests_cant": "Use after free and ABA need particular interleavings and particular re-use of addresses by the allocator; a leak does not change any answer.", "anchors": ["src/tree_bitmap/mod.rs:515-579", "src/prefix_cht/cht.rs:423-474"]}
{"id": "C58", "title": "Entries are published without a data race", "statement": "The boxes of the chained hash tables (levels of nodes, levels of prefixes, nodes, prefixes) are created by one thread and reached by others through atomic pointers. With the memory orderings written in the code, every plain write to a box happens before every use of the box by another thread, so no execution has a data race. All threads agree on the entry of every prefix, a thread never loses sight of an entry it has found, and every call ends.", "quantifier": "all numbers of threads, each with any list of lookups and creations, all executions of the weak memory machine (every read may return any write that the ordering allows), every prefix length and both families", "why_tests_cant": "Whether a reordering happens depends on compiler and processor; on x86 missing orderings have no visible effect, and a race is undefined behaviour even where nothing is observed.", "anchors": ["src/cht/oncebox.rs: get, get_or_init", "src/prefix_cht/cht.rs: non_recursive_retrieve_prefix_mut, get_records_for_prefix", "src/tree_bitmap/mod.rs: retrieve_node, retrieve_node_mut"]}
{"id": "C59", "title": "Counts taken while other calls run are counts of a moment", "statement": "prefixes_count, routes_count, prefixes_count_for_len and nodes_count, of a family or of both, sum counters that are read one after the other. Each number of a report is nevertheless the sum of all counters at one moment between the start and the end of the call, so it is one the store really had; a count started after another returned reports no smaller number, and a prefix count includes every prefix whose insert returned before the count started.", "quantifier": "all start states, all numbers and kinds of concurrent calls, all schedules, every strategy, both families", "why_tests_cant": "A sum over 33 or 129 counters can be torn at any of them by any number of inserts of any lengths; a test sees a few of these schedules.", "anchors": ["src/rib/starcast.rs: prefixes_count, routes_count, nodes_count", "src/rib/starcast_af.rs: prefixes_count, routes_count", "src/types/stats.rs: Counters"]}
{"id": "C60", "title": "Concurrent status changes and path selections are free of data races", "statement": "The bitmap of withdrawn muis and the path selections of a prefix are blocks that are replaced through an atomic pointer. With the memory orderings written in the code, the writes that fill a block happen before every read of it by another thread, so no execution has a data race, and no thread uses a block that is not allocated. What all calls return, and what the cell holds in the end, are what some execution with sequentially consistent atomics gives.", "quantifier": "all numbers of threads, each with any list of calls (read, read tag, modify, set, set tag), all executions of the weak memory machine (every read may return any write that the ordering allows), all start values", "why_tests_cant": "Whether a reordering happens depends on compiler and processor; on x86 missing orderings have no visible effect, and a race is undefined behaviour even where nothing is observed.", "anchors": ["src/tree_bitmap/mod.rs: withdrawn_muis_bmin, mark_mui_as_active, mark_mui_as_withdrawn, update_withdrawn_muis_bmin", "src/prefix_cht/cht.rs: get_path_selections, set_path_selections, set_ps_outdated, is_ps_outdated"]}
{"id": "C61", "title": "The public interface reports what was stored, for both address families", "statement": "For a prefix of either family, every query of the public interface (get_records_for_prefix, contains, match_prefix with its less and more specifics, the iterators over less and more specifics and over the records of a mui, the _from queries, best_path, is_ps_outdated) and the results of insert and of the path calculation are determined by the history of public calls as C01 to C06, C13, C20, C26, C27, C43 and C44 say: the prefixes and records reported are exactly those stored under that prefix, of that family, and the listed sets contain them in the right field.", "quantifier": "all histories of public calls over both families, all prefixes of both families, all persist strategies, all query options", "why_tests_cant": "The dispatch and the conversions exist once per family and per call; tests use mostly IPv4 prefixes and few combinations of options, and look at few fields of the answers.", "anchors": ["src/rib/starcast.rs: match_prefix, contains, best_path, calculate_and_store_best_and_backup_path, is_ps_outdated, more_specifics_from, less_specifics_from, less_specifics_iter_from, more_specifics_iter_from, iter_records_for_mui_v4, iter_records_for_mui_v6, insert, persist_prefixes_iter, get_records_for_prefix", "src/types/prefix_record.rs: FromIterator for RecordSet", "src/types/match_options.rs: QueryResult"]}
{"id": "C62", "title": "The bits of the tree reach every thread that is told of them", "statement": "The bit arrays of the tree nodes are read and changed with relaxed loads and acquire swaps, weaker than what publishes a pointer. With any orderings at all, once a call that sets a bit (an insert) has ended, every thread that comes to know of it by synchronisation outside of the store (a lock, a channel, a joined thread) finds the node and sees the bit, and another call to set it reports it as existing; a bit is reported only if a call to set it was begun; no call uses memory that is not allocated, no call panics, and every call ends within a bounded number of its own steps. With the memory orderings written in the code there is no data race.", "quantifier": "all numbers of threads, all sequences of calls and of synchronisation outside of the store, all executions of the weak memory machine (every read may return any write that the ordering allows), every prefix length and both families, all orderings of the bit arrays", "why_tests_cant": "Whether a stale bit array is read depends on compiler and processor, and x86 shows none of it; whether relaxed loads are enough for callers who synchronise by other means is a question about all executions.", "anchors": ["src/tree_bitmap/atomic_bitmap.rs: load, compare_exchange", "src/tree_bitmap/tree_bitmap_node.rs: eval_node_or_prefix_at", "src/tree_bitmap/mod.rs: set_prefix_exists, prefix_exists, retrieve_node, retrieve_node_mut"]}
{"id": "C63", "title": "Path selections of concurrent calls are of one moment", "statement": "While any set of calls runs concurrently: the answer of a path selection (best and backup) is the selection of the records the prefix had at one moment of the call; best_path answers with a record the store had at a moment of the call, active, for a router id that was the best path at an earlier moment for the tie breaker information of a call that can have stored the selection; and if from the start of a calculation (or of an insert with path selection for a known prefix) on nobody else inserts or selects for the prefix, then after it has returned the stored selection is that of the current records, whatever happens to other prefixes meanwhile. In general, a selection that is not marked outdated is that of the current records once all calls have returned.", "quantifier": "all histories before the run, all sets of concurrent calls, all schedules, both families, the strategies that keep records in memory, all metadata types and tie breaker information", "why_tests_cant": "The record map is read and the selection stored at different moments, and the outdated mark is set at a third one; the interleavings that separate them have a window of a few instructions.", "anchors": ["src/prefix_cht/cht.rs: upsert_prefix, calculate_and_store_best_backup, set_path_selections, set_ps_outdated, is_ps_outdated", "src/rib/starcast_af_query.rs: calculate_and_store_best_and_backup_path, best_path, is_ps_outdated", "src/rib/starcast.rs: best_path, calculate_and_store_best_and_backup_path"]}
{"id": "C64", "title": "A faulty disk: nothing is made up, faults stay local and are reported", "statement": "With PersistOnly and a disk that fails in any way while it is read (scans yield errors at any place, entries hold any bytes): no query answers with a record that was not read, and a query that answers with records of a prefix answers with all that the disk holds for it; a fault while reading one prefix does not change the answer for any other prefix; iterations over prefixes go on after a fault; no call panics; a fault is reported to the caller as an error; a status change reports success only if it was made; without faults the calls are those of a store with a healthy disk.", "quantifier": "all histories before the call, all disks (any function from scan to list of entries and errors), all prefixes, muis and match options, both families, all metadata types", "why_tests_cant": "The tests run on a healthy disk; injecting every combination of I/O errors and damaged entries at every point of every query is not possible with the lsm_tree crate underneath.", "anchors": ["src/lsm_tree/mod.rs: records_for_prefix, most_recent_record_for_prefix_mui, records_with_keys_for_prefix_mui, PersistedPrefixIter::next, rewrite_header_for_record", "src/rib/starcast_af_query.rs: get_value, match_prefix, more_specifics_iter_from, less_specifics_iter_from", "src/rib/starcast_af.rs: mark_mui_as_withdrawn_for_prefix, mark_mui_as_active_for_prefix, prefixes_iter, persist_prefixes_iter"]}
{"id": "C65", "title": "Creating a store: which directories, when it fails, what is in it", "statement": "Creating a store does not panic with any of the four configurations. A MemoryOnly store opens nothing on disk and cannot fail. A store that persists records opens the directory <path>/<name>/ipv4/ and then <path>/<name>/ipv6/, nothing else, and is created just when both can be opened; a persisting configuration without a path is refused. The directories of the two families, and those of stores with different drawn names, are apart: none is equal to or inside another. Both families have the strategy of the given configuration, persist_strategy() reports it, and a store over new directories is the empty store. try_default is infallible.", "quantifier": "all configurations (also those of users, if their path can be set), all paths, all drawn names, all file systems (any function telling which directory can be opened and what it holds)", "why_tests_cant": "The tests create stores in one path of a healthy file system; collisions of directories, a second directory that cannot be opened and the unimplemented! of MemoryOnlyConfig are not exercised.", "anchors": ["src/rib/starcast.rs: new_with_config, try_default, persist_strategy", "src/rib/starcast_af.rs: init", "src/rib/config.rs: Config and its four implementations", "src/lsm_tree/mod.rs: LsmTree::new"]}
{"id": "C66", "title": "Statistics list each inserted prefix length with its number of prefixes", "statement": "stats() lists for each family, by ascending length and each length once, just the lengths of which a prefix was inserted, each with the number of distinct inserted prefixes of that length; the numbers add up to the total prefix count.", "quantifier": "all histories, both families and the public interface, all strategies, all metadata types", "why_tests_cant": "The numbers are right only if every insert counted its prefix exactly once, in any history of inserts, status changes and withdrawals.", "anchors": ["src/types/stats.rs: prefix_stats, inc_prefixes_count", "src/rib/starcast.rs: stats"]}
{"id": "C67", "title": "Flushing reports success only if the records reached the disk", "statement": "When flush_to_disk reports success, the memory tables of both families have been written to segments and these are registered. A failure is reported as PersistFailed; the steps are taken in order up to the first failure; both families are flushed. approx_persisted_items and disk_space report the numbers of the trees, and nothing without trees.", "quantifier": "all answers of the lsm_tree crate at each step, for both families, with and without trees", "why_tests_cant": "The tests flush on a healthy disk; that an error of the first step is dropped by an `if let Ok(Some(_))` is only visible when that step fails.", "anchors": ["src/lsm_tree/mod.rs: flush_to_disk", "src/rib/starcast_af.rs: flush_to_disk, approx_persisted_items, disk_space", "src/rib/starcast.rs: flush_to_disk, approx_persisted_items, disk_space"]}
{"id": "C68", "title": "Metadata is rebuilt only from bytes its type has produced", "statement": "With PersistOnly the metadata of a record is rebuilt by the user's From<Vec<u8>> from bytes on disk. These are always bytes that as_ref() gave for metadata inserted for the same prefix and router id, so a conversion that accepts what its type produces never panics and the query answers as if it accepted everything. The metadata types that come with the crate get back the value they gave, and are ordered for path selection as the numbers they are made of.", "quantifier": "all histories, all metadata types and partial conversions, all queries for one prefix (hence all queries with PersistOnly), both families", "why_tests_cant": "A panic needs a metadata type that rejects an empty slice, PersistOnly, and a withdrawal of the route before the query; no test combines them.", "anchors": ["src/rib/starcast_af_query.rs: get_value", "src/lsm_tree/mod.rs: rewrite_header_for_record, records_for_prefix", "src/types/test_types.rs: NoMeta, BeBytesAsn, PrefixAs"]}
{"id": "C69", "title": "Relaxed counters lose nothing and do not go back", "statement": "The counters of nodes, prefixes per length and routes are read and incremented with relaxed ordering. No increment is lost: the newest value of a counter is the number of increments made. A load gets no less than the number of increments its thread was told of (made itself, or made by a thread that had synchronised with it) and no more than were made; it gets no less than any load its thread was told of. A thread that was told of all increments gets their exact number. A sum of counters that are loaded one after the other (prefixes_count) is no less than the increments the thread was told of when it began, and no more than were made when it ended.", "quantifier": "all numbers of threads, all interleavings of increments, loads and synchronisation, all choices of the memory among the values a relaxed load may return, all sets of counters and moments of their loads", "why_tests_cant": "The hardware the tests run on hardly ever returns an older value of a counter, and no test reads counts while others insert.", "anchors": ["src/types/stats.rs: Counters::nodes_count, inc_nodes_count, prefixes_count, inc_prefixes_count, prefix_stats, routes_count, inc_routes_count", "src/rib/starcast_af.rs: prefixes_count, routes_count"]}
{"id": "C70", "title": "A panic of the user's code does not harm other calls", "statement": "The metadata type is the user's code; as_orderable, Ord and Clone run with the record map of a prefix locked. If they panic, the store is as if the panicking call had stopped before its section: other calls that return have the answers of a run of whole actions without the panic, no lock stays held, no mui set of a node is poisoned, and a call that is not at a poisoned record map is not blocked. Every other call returns, with an error if need be.", "quantifier": "every set of concurrent calls, every interleaving of small steps, any number of panics at any sections that run code of the user, every state", "why_tests_cant": "No test has metadata that panics; the consequence is a call that never returns, in another thread.", "anchors": ["src/prefix_cht/cht.rs: acquire_write_lock, acquire_read_guard, best_backup, get_record_for_mui, as_records_with_rewritten_status, as_active_records_not_in_bmin", "src/tree_bitmap/mod.rs: retrieve_node_for_mui", "src/tree_bitmap/node_cht.rs: update_rbm_index"]}
{"id": "C71", "title": "Concurrent queries of the store over both families", "statement": "Through StarCastRib, while other calls of any kind run for either family: contains, match_prefix, the iterations over less and more specifics, over all prefixes and over the records of a peer return without error, report no prefix twice, report only prefixes some insert was called for, and miss no prefix of the family asked for whose insert returned before the query started (for more specifics: while no insert of that family below the searched prefix makes a new tree node). The record read or reported for a route is the one of an insert, or of a status change, that was not over before the last one known to have returned; a route no call touches is reported as it was. Calls about the other family make no difference.", "quantifier": "every history, every set of concurrent public calls, every schedule, every strategy, prefixes of both families", "why_tests_cant": "No test runs queries through the public interface while other threads insert prefixes of both families; the interleavings cannot be enumerated.", "anchors": ["src/rib/starcast.rs: StarCastRib", "src/rib/starcast_af_query.rs: match_prefix, less_specifics_iter_from, more_specifics_iter_from, contains, iter_records_for_mui", "src/types/prefix_record.rs: RecordSet"]}
{"id": "C72", "title": "Iterators dropped before their end", "statement": "An application may ask an iterator (more specifics, less specifics, all prefixes, records of a peer) for its first n items only and drop it, while other calls run. This changes nothing for the other calls: in every run the store is, after every step, in the state it would be in had all items been asked for. The items taken are the first n of what the whole iteration answers; were it asked for the rest right away, it would return, leaving the store as it is. So no item is an error, none comes twice, each was inserted and lies in the range asked for, and its record for a peer is that of an insert not over before the last one known to have returned. Fewer than n items mean the iteration has ended, so none is missed that a whole iteration may not miss.", "quantifier": "every history, every set of concurrent public calls, every schedule, every number of items per iterator, every strategy", "why_tests_cant": "The tests consume iterators whole, without other threads; how many steps an iteration has made when it is dropped depends on the schedule.", "anchors": ["src/rib/starcast.rs: prefixes_iter, more_specifics_iter_from, less_specifics_iter_from, iter_records_for_mui_v4", "src/rib/starcast_af_query.rs: more_specifics_iter_from, less_specifics_iter_from", "src/tree_bitmap/tree_bitmap_iterators.rs: MoreSpecificPrefixIter, LessSpecificPrefixIter"]}
{"id": "C73", "title": "Persisted records read one after another while others write", "statement": "The iterators over persisted records take no snapshot: each step reads the next entry there is at that moment. Still, with any other calls in between: such scans change nothing for the other calls; a record query with PersistOnly shows for each peer the record of a moment during the query (for a single peer the whole answer is that of one moment), so a record whose insert returned before the query began, or that nobody touches, is never missed or shown older, and nothing is shown that was not inserted; an iteration over all persisted prefixes, or over the first n, gives the first items of what it gives on a store holding under each key what was persisted at a moment during the iteration, so every record it gives was persisted then, and with WriteAhead no record whose insert returned before is missed. No scan panics, and it comes to an end unless others keep adding entries. Alone, it gives what a snapshot gives.", "quantifier": "every history, every set of concurrent calls and scans, every schedule, every strategy, every number of items", "why_tests_cant": "No test writes while a scan is under way; which mixture of old and new entries a scan meets depends on the schedule.", "anchors": ["src/lsm_tree/mod.rs: records_for_prefix, prefixes_iter", "src/rib/starcast_af_query.rs: get_value", "src/rib/starcast_af.rs: persist_prefixes_iter"]}
{"id": "C74", "title": "Matches and iterations that read persisted records one after another while others write", "statement": "With PersistOnly, matches and iterations over several prefixes read the records of every prefix they come across from the persistence tree entry by entry, without a snapshot. With any other calls in between, at any point: each prefix is reported at most once; the records reported for it are, for each peer, those of a moment during the query (with the other strategies, and for a single peer, all of one moment); nothing is reported that no insert was called for; a route whose insert returned before the query began is reported in that or a later version, and a visible route that nobody touches is reported as it is, wherever the query is due to report its prefix. No query panics, and each comes to an end unless others keep adding entries. Alone, each query gives the same answer as if it read the records of a prefix at once.", "quantifier": "every history, every set of concurrent calls and queries, every schedule, every strategy, every search prefix and option", "why_tests_cant": "No test changes the store while a query is in the middle of the records of a prefix; the mixtures of old and new records depend on the schedule.", "anchors": ["src/rib/starcast_af_query.rs: get_value, more_specifics_iter_from, less_specifics_iter_from, match_prefix", "src/rib/starcast.rs: iter_records_for_mui_v4/v6, prefixes_iter", "src/lsm_tree/mod.rs: records_for_prefix"]}
{"id": "C75", "title": "The options of a match mean what they say", "statement": "The answer of match_prefix consists of the match, the less specifics and the more specifics. For one search and all options: each part depends only on the options that speak of it (the match type changes the match only, include_less_specifics and include_more_specifics only whether the lists are there); asking for EmptyMatch is asking for the longest match; the exact match is the longest match when that is the searched prefix, and empty otherwise; with a mui exactly the records of the mui are left of those reported without, and with withdrawn routes excluded exactly those not reported as withdrawn. With include_history set to SearchPrefix or All, and a strategy that keeps replaced records, the replaced records are reported as well; otherwise only the current record of each prefix and mui is.", "quantifier": "every history of public calls, every searched prefix of both families, every combination of options, every strategy", "why_tests_cant": "Tests use a handful of option combinations; include_history is not used in any of them.", "anchors": ["src/types/match_options.rs: MatchOptions, IncludeHistory, MatchType", "src/rib/starcast.rs: match_prefix", "src/rib/starcast_af_query.rs: match_prefix", "src/tree_bitmap/tree_bitmap_query.rs: match_prefix"]}
{"id": "C76", "title": "The memory of a whole hash table", "statement": "Calls that walk down the chains of one table (of nodes or of prefixes), making slices and entries that are missing, never use a block that is not allocated and never free one twice, also when they race on every level; each returns after a bounded number of turns of its own, whatever the others do. A reference that a call has returned stays valid as long as the table lives and leads to the entry on the path of the call; an entry is made once, by a call with this path, different paths have different entries, and a search that starts when the entry is there finds it. When no call is under way, dropping the table frees all memory that was allocated for it.", "quantifier": "every number of calls, every path, every number of levels and sizes of slices, every interleaving, every allocator that may re-use freed addresses", "why_tests_cant": "Races on several levels of a chain need particular interleavings; use after free and leaks need not change any answer; tests do not drop a store and look at the heap.", "anchors": ["src/cht/oncebox.rs: OnceBox, OnceBoxSlice, Drop", "src/cht/mod.rs: Cht", "src/tree_bitmap/mod.rs: retrieve_node, retrieve_node_mut, retrieve_node_for_mui, store_node", "src/prefix_cht/cht.rs: StoredPrefix::new, non_recursive_retrieve_prefix, non_recursive_retrieve_prefix_mut"]}
{"id": "C77", "title": "Conversions and bit arithmetic of addresses, prefixes and spans", "statement": "Addresses, prefixes and prefix ids are converted into each other and into bytes without loss, and a conversion panics exactly for input that has no counterpart (the other family, bits after the length, a length above the width, bytes of another size). Taking a span of bits out of an address gives exactly these bits, adding a span appends exactly its bits, and the two are inverse; they panic exactly when the span does not fit. The index of a position in a node and its span determine each other. The sizes of the levels of a chain add up. Shifts and truncations are those of the number for every amount.", "quantifier": "every address of both families, every length, start, amount of a shift, span and sequence of bytes, also those the store never passes", "why_tests_cant": "The traits are public and generic over 32 and 128 bits; the edges (empty spans, shifts by 0 or by the width, length 0 and full length) differ between the families and between debug and release builds, and tests only pass what the store passes.", "anchors": ["src/types/af.rs: AddressFamily, IntoIpAddr", "src/types/bit_span.rs: BitSpan", "src/types/prefix_id.rs: From", "src/cht/mod.rs: nodeset_size, prev_node_size"]}
{"id": "C78", "title": "The store pointer by pointer", "statement": "When both hash tables of a store are heaps of slices and entries, where every table operation is a sequence of atomic actions of its own (making slices, allocating entries, compare-and-swaps, freeing what lost a race) and an entry can only be reached through pointers, every call does the same as on tables that are maps from addresses to entries: for each schedule of any calls there is one on maps, in the same order, with the same content and the same ends of the calls. Each call starts without any pointer and only follows pointers it has found itself; it never uses memory that was freed, frees anything twice or leaves the bounds of a slice, and it returns when it is given enough turns. When the calls have ended, dropping the store frees every slice and every entry of both tables.", "quantifier": "every history, every set of calls of the API of one family at the same time, every interleaving of their atomic actions, every allocator that may re-use freed addresses, all four strategies, both families", "why_tests_cant": "Which race loses, which address the allocator re-uses and between which two pointer operations another call runs cannot be chosen in a test, and there are unboundedly many combinations; the unsafe code of the tables is only sound if no call ever holds a stale pointer.", "anchors": ["src/cht/oncebox.rs: OnceBox, OnceBoxSlice", "src/cht/mod.rs: Cht", "src/tree_bitmap/node_cht.rs: StoredNode, NodeSet", "src/tree_bitmap/mod.rs: store_node, retrieve_node_mut, retrieve_node, retrieve_node_for_mui", "src/prefix_cht/cht.rs: get_records_for_prefix, non_recursive_retrieve_prefix_mut, non_recursive_retrieve_prefix"]}
{"id": "C79", "title": "The retry count of an insert", "statement": "`cas_count` in the report of an insert is the number of compare-and-swaps on the tree that failed and were retried. It is 0 for an insert that runs alone. Counting has no influence on anything else that any call does: it never panics and never changes an answer or the state.", "quantifier": "every history, every set of calls at the same time, every interleaving, all prefixes of both families, all four strategies, builds with and without overflow checks", "why_tests_cant": "Retries only happen when other inserts change the same node between a load and a swap, which a test cannot force; the overflow needs four such losses in one stride of a long prefix.", "anchors": ["src/tree_bitmap/mod.rs: set_prefix_exists, store_node", "src/tree_bitmap/tree_bitmap_node.rs: eval_node_or_prefix_at", "src/rib/starcast_af.rs: insert, upsert_prefix", "src/prefix_cht/cht.rs: upsert_record, acquire_write_lock", "src/types/stats.rs: UpsertReport"]}
{"id": "C80", "title": "The work of a call is bounded by the length of its prefix", "statement": "Inserts, status changes of one route, lookups of one prefix (contains, records, best path), longest and exact matches and less specifics return within a number of atomic actions of their own (loads, swaps, sections under a lock, calls of the persistence tree) that depends only on the length of the prefix asked for: not on how many prefixes or routes are stored, not on what other threads do and not on when they are run. In particular no schedule of the other threads can hold them up beyond that, apart from the time spent waiting for the lock of a set of records or of a node's mui set, which is not counted (see C52). For IPv4: 8 actions to find out whether a prefix is there, 10 for its records, 27 for a status change, 1299 for an insert; for IPv6 32, 34, 99 and 14403.", "quantifier": "every history, every set of calls at the same time, every interleaving, all prefixes of both families, all four strategies (withdrawing one route with PersistOnly reads the persistence tree as often as there are versions and has no such bound; nor have more-specifics, iterations and the status changes for a whole mui)", "why_tests_cant": "A test measures time on one machine with some data; the worst case needs colliding ids on every level and a lost swap for every bit of a node, and a bound for all of them cannot be observed at all.", "anchors": ["src/rib/starcast_af.rs: insert, upsert_prefix, contains, mark_mui_as_withdrawn_for_prefix, mark_mui_as_active_for_prefix", "src/rib/starcast_af_query.rs: get_value, best_path, match_prefix, less_specifics_from, less_specifics_iter_from", "src/tree_bitmap/mod.rs: set_prefix_exists, prefix_exists, retrieve_node, retrieve_node_mut, store_node", "src/tree_bitmap/tree_bitmap_node.rs: eval_node_or_prefix_at", "src/prefix_cht/cht.rs: upsert_prefix, upsert_record, get_records_for_prefix, non_recursive_retrieve_prefix, non_recursive_retrieve_prefix_mut"]}
{"id": "C81", "title": "Merging the bits of a node", "statement": "`merge_with` sets the given bits in the bit array of a node without losing any that are set, whatever other threads do to the array meanwhile, and it returns. Nothing else of the node changes.", "quantifier": "both bit arrays, all nodes, all bits, every interleaving with any other programs that do not clear bits", "why_tests_cant": "The loop only goes round when another thread changes the bits between a load and the swap next to it; and the store as it is never takes this path, so no test of the store reaches it.", "anchors": ["src/tree_bitmap/atomic_bitmap.rs: merge_with", "src/tree_bitmap/mod.rs: store_node", "src/tree_bitmap/tree_bitmap_node.rs: eval_node_or_prefix_at"]}
{"id": "C82", "title": "The room the store takes is bounded by the distinct prefixes of its calls", "statement": "At any time the number of filled slots of the prefix table is at most the number of distinct prefixes an insert or a change of status was called for (none with PersistOnly), and the number of nodes is at most one plus, for each distinct prefix an insert was called for, its strides above the last: no more than 7 for an IPv4 and 31 for an IPv6 prefix. Every node is the root or the leading bits of such a prefix, every entry is for such a prefix. How often a prefix is inserted, for how many muis, how many threads do so at the same time and what is queried makes no difference. Slots once filled stay filled.", "quantifier": "every history, every set of calls at the same time, every interleaving at every moment, both families and the public interface, all four strategies", "why_tests_cant": "Two threads that both fill a slot for the same prefix on different levels, or a node left over by a lost race, would be seen only as slow growth under rare interleavings; tests do not look at the slots.", "anchors": ["src/tree_bitmap/mod.rs: set_prefix_exists, store_node, retrieve_node_mut", "src/prefix_cht/cht.rs: upsert_prefix, non_recursive_retrieve_prefix_mut", "src/rib/starcast_af.rs: insert, mark_mui_as_withdrawn_for_prefix, mark_mui_as_active_for_prefix", "src/cht/oncebox.rs: get_or_init"]}
{"id": "C83", "title": "Threads that make one call after another", "statement": "Every run of threads, each of which makes any sequence of calls of the public interface and chooses the next one by the answers so far, is a run of single calls: the same states after every turn, each call is given turns only after the earlier calls of its thread have returned, and the answers the thread goes on with are those the calls returned. So what holds of calls holds of threads: a thread panics only where its own code does, it gets stuck only in a global status change, with a fair schedule it ends if it makes no such change, and it is told by contains that a prefix is there which it has inserted before (not the default routes), whatever the other threads do.", "quantifier": "every history of the store, any number of threads, every program of every thread, every interleaving at every moment, all four strategies", "why_tests_cant": "A test runs a fixed program per thread under a few schedules; that nothing depends on what a thread does between its calls, nor on how the calls are spread over threads, is a statement about all programs.", "anchors": ["src/rib/starcast.rs: insert, contains, match_prefix", "src/rib/starcast_af.rs: insert, contains"]}
{"id": "C84", "title": "What the loader of MRT files counts", "statement": "Each task of the loader, with whatever routes the tasks insert at the same time, when it ends has counted every route it was given, no more as unique, and as persisted as many as it has listed for the check (none with MemoryOnly), so that the number calculated for the display does not underflow. Tasks do not panic, end under a fair schedule, and count every route as unique if no two routes of the tasks are for the same prefix and peer and none was inserted before; then all prefixes are listed for the check with WriteAhead and PersistOnly and none with PersistHistory. A loader that runs alone never panics, inserts its routes one after another, and counts as unique prefixes those that are new (with PersistOnly every route).", "quantifier": "every history of the store, every list of routes for every task, any number of tasks, every interleaving, all four strategies, both families", "why_tests_cant": "The loader is a binary without tests; the panic on a new prefix with an old peer needs two tasks with the same route within a few instructions of each other.", "anchors": ["src/bin/load_mrt.rs: counter_update, insert, mt_parse_and_insert_table, st_parse_and_insert_table, mt_prime_store, st_prime_store, add_assign, add, fmt", "src/rib/starcast.rs: insert", "src/rib/starcast_af.rs: insert", "src/prefix_cht/cht.rs: upsert_prefix"]}
{"id": "C85", "title": "A store at rest is a store changed by one thread", "statement": "After any run of concurrent calls in which every insert that has started has returned, there is an order of the calls that changed something, in keeping with the order in time (a call that returned before another started comes before it), such that the store answers every query as a store does in which the same calls were made one after another: the records of a prefix, contains without a mui, the status of a mui, match_prefix with all options, the iterations over less specifics, more specifics, all prefixes and the records of a mui. Other calls may be under way. With PersistOnly: if no call marks a single route active. The same holds of the store over both families and the calls of its public interface, with an order for each family. While an insert is under way this does not hold.", "quantifier": "every history before, every set of calls, every interleaving, every moment at which no insert is under way, both families, all four strategies", "why_tests_cant": "A test can compare the end of a few schedules with one sequential run; that every schedule ends in a store some sequential order explains, for all queries at once, needs an argument over all interleavings.", "anchors": ["src/rib/starcast_af.rs: insert, upsert_prefix, contains, mark_mui_as_withdrawn, mark_mui_as_withdrawn_for_prefix", "src/tree_bitmap/mod.rs: set_prefix_exists", "src/prefix_cht/cht.rs: upsert_prefix, get_records_for_prefix", "src/rib/starcast_af_query.rs: get_value, match_prefix, more_specifics_iter_from, less_specifics_iter_from", "src/rib/starcast.rs: insert, get_records_for_prefix, mark_mui_as_withdrawn"]}
{"id": "C86", "title": "Verification after loading MRT files", "statement": "The loader's check of what was persisted goes through exactly when every prefix on its list has a record to show, and panics otherwise; its message about an empty prefix is never given, and the store is left as it was. With one store the check goes through after any number of tasks have loaded their routes at the same time, for all prefixes the tasks have listed, unless one of the peers was withdrawn before. With a store per file the check asks the store of the last file only and panics when a listed prefix is not in it.", "quantifier": "every history of the store, every list of routes for every task, any number of tasks, every interleaving, every list of prefixes, all four strategies, both families", "why_tests_cant": "The loader is a binary without tests; that the check passes whatever the tasks did at the same time concerns all interleavings, and that a branch is never taken concerns all states of the store.", "anchors": ["src/bin/load_mrt.rs: exec_for_store, mt_parse_and_insert_table, insert", "src/rib/starcast.rs: get_records_for_prefix, insert", "src/rib/starcast_af_query.rs: get_value"]}
{"id": "C87", "title": "Truncation without branches is truncation by shifts", "statement": "For all bits and all lengths up to the width, truncation by the expression without branches equals truncation by shifting right and left, with nothing kept for length 0 and everything for the full length; for longer lengths the shifting version panics. The expression is the one the store uses.", "quantifier": "all bits, all lengths, any width (32 and 128 in the code)", "why_tests_cant": "The program in the repository goes through all 2^32 addresses of IPv4 for every length; for the 2^128 of IPv6 nobody can.", "anchors": ["src/bin/truncate_len.rs: truncate_to_len, branchless_trunc, main", "src/types/af.rs: truncate_to_len"]}
{"id": "C88", "title": "The loader over all its files: what is counted and what is stored", "statement": "One thread that loads any files one after another into one store, each maybe after priming the store with its prefixes, does not panic and inserts all routes in order. The total of the counters is the number of routes. In memory and without priming the unique prefixes are those of all files that were not in the store before, and for a new store exactly the number of prefixes that the store reports to have in memory. Afterwards a query shows for each route the record of its last occurrence, active and with the number of that file as its time, also when later the store was primed for other routes. (The code counts every route as unique, and with priming no prefix.)", "quantifier": "all lists of files with any routes of both families and any priming lists, all persistence strategies, all earlier histories of the store", "why_tests_cant": "The program prints its counters and those of the store side by side for somebody to compare; that they agree depends on every order and repetition of routes within and across files.", "anchors": ["src/bin/load_mrt.rs: exec_for_store, st_parse_and_insert_table, st_prime_store, counter_update, insert", "src/rib/starcast.rs: insert, prefixes_count, get_records_for_prefix"]}
{"id": "C89", "title": "The shell lists every prefix of its file with the number of its last line", "statement": "The shell inserts the lines of any file without an error or panic. Its list command then does not panic at the first record of a prefix: it gives each prefix of the file once, as an active record with identifier and time 0 and the number of the last line for that prefix, and the total is the number of different prefixes. (The code does not list the default routes, but counts them.)", "quantifier": "all files, as lists of prefixes of both families with numbers", "why_tests_cant": "It takes the first record of each prefix without looking whether there is one; that there is one, and only one, depends on all orders and repetitions of lines.", "anchors": ["src/bin/cli.rs: load_prefixes, main", "src/rib/starcast.rs: insert, prefixes_iter, prefixes_count", "src/types/test_types.rs: new_from_u32, asn"]}
{"id": "C90", "title": "A query of the shell shows what its file has", "statement": "After any file was loaded, a query of the shell for any prefix ends without an error. It prints the prefix if the file has it, with the number of its last line, the less specific prefixes of the file from longest to shortest and the more specific ones, each once and with the number of its own last line; and the second pair of lists, which it prints for comparison, says the same. (The code does not find the default routes, and the second pair differs: more specifics include the prefix itself, and all have its number.)", "quantifier": "all files, as lists of prefixes of both families with numbers, and all prefixes asked for", "why_tests_cant": "The shell prints both answers for somebody to compare by eye, one query at a time; that the first is right and the second is not depends on which prefixes the file nests.", "anchors": ["src/bin/cli.rs: load_prefixes, main", "src/rib/starcast.rs: match_prefix, more_specifics_from, less_specifics_from"]}
