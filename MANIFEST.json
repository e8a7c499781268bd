{
 "claims": [
  {
   "property": "C01",
   "status": "partial",
   "theorems": [
    "Rotonda.Props.contains_partial",
    "Rotonda.Props.contains_default",
    "Rotonda.Props.contains_default_false"
   ],
   "note": "Proved for every history and every prefix of length > 0; the statement is false for the default route, which contains never reports (witness)."
  },
  {
   "property": "C02",
   "status": "partial",
   "theorems": [
    "Rotonda.Props.contains_mui_partial",
    "Rotonda.Props.contains_mui_sound",
    "Rotonda.Props.contains_mui_5_to_8",
    "Rotonda.Props.contains_mui_1_to_4",
    "Rotonda.Props.contains_mui_false_negative",
    "Rotonda.Props.contains_mui_false_positive",
    "Rotonda.Props.contains_mui_fails"
   ],
   "note": "false of the code in both directions (witnesses proved); sound and exact characterisations of what is reported"
  },
  {
   "property": "C03",
   "status": "partial",
   "theorems": [
    "Rotonda.Props.longest_match_partial",
    "Rotonda.Props.match_prefix_partial",
    "Rotonda.Props.longest_match_default_false"
   ],
   "note": "All histories, all strategies; default route excluded since the code never reports it (witness)."
  },
  {
   "property": "C04",
   "status": "partial",
   "theorems": [
    "Rotonda.Props.exact_match_partial"
   ],
   "note": "All histories and options; prefixes of length > 0 (the default route is never reported, see C46)."
  },
  {
   "property": "C05",
   "status": "partial",
   "theorems": [
    "Rotonda.Props.less_specifics_partial",
    "Rotonda.Props.less_specifics_iter_partial",
    "Rotonda.Props.default_route_invisible"
   ],
   "note": "Complete, sound, strictly descending for match_prefix and the iterator; the default route is never listed."
  },
  {
   "property": "C06",
   "status": "partial",
   "theorems": [
    "Rotonda.Props.more_specifics",
    "Rotonda.Props.more_specifics_iter_partial",
    "Rotonda.Props.more_iter_host_false"
   ],
   "note": "match_prefix: fully proved. Iterator: proved except that a full-length start prefix yields nothing although stored (witness)."
  },
  {
   "property": "C07",
   "status": "partial",
   "theorems": [
    "Rotonda.Props.prefixes_iter_partial",
    "Rotonda.Props.default_route_invisible"
   ],
   "note": "Terminates and yields every stored prefix of length > 0 once with its records; the default route is never yielded."
  },
  {
   "property": "C08",
   "status": "proved",
   "theorems": [
    "Rotonda.Props.last_write_wins"
   ],
   "note": "In-memory strategies, as in the statement."
  },
  {
   "property": "C09",
   "status": "proved",
   "theorems": [
    "Rotonda.Props.isolation"
   ],
   "note": "All strategies."
  },
  {
   "property": "C10",
   "status": "proved",
   "theorems": [
    "Rotonda.Props.isolation_v6",
    "Rotonda.Props.isolation_v4",
    "Rotonda.Props.isolation_v6_steps",
    "Rotonda.Props.isolation_v4_steps",
    "Rotonda.Props.families_independent"
   ],
   "note": "Sequentially, and for every single atomic step of a call (so also under any interleaving)."
  },
  {
   "property": "C11",
   "status": "proved",
   "theorems": [
    "Rotonda.Props.inserts_commute",
    "Rotonda.Props.lookups_determined"
   ],
   "note": "Swap anywhere in a history; record queries, contains and match_prefix."
  },
  {
   "property": "C12",
   "status": "partial",
   "theorems": [
    "Rotonda.Props.global_hides_partial",
    "Rotonda.Props.global_hides_false",
    "Rotonda.Props.shown_iff_visible"
   ],
   "note": "Proved for queries over all ids and for PersistOnly; false for an in-memory query for one given id (witness)."
  },
  {
   "property": "C13",
   "status": "proved",
   "theorems": [
    "Rotonda.Props.withdrawn_inclusive",
    "Rotonda.Props.get_records"
   ],
   "note": "All strategies."
  },
  {
   "property": "C14",
   "status": "proved",
   "theorems": [
    "Rotonda.Props.withdraw_reversible",
    "Rotonda.Props.withdraw_reversible_lookups"
   ],
   "note": "All strategies, any calls in between that do not change the global status of the id."
  },
  {
   "property": "C15",
   "status": "partial",
   "theorems": [
    "Rotonda.Props.withdraw_for_prefix",
    "Rotonda.Props.withdraw_for_prefix_persist_only_false"
   ],
   "note": "In-memory strategies proved; PersistOnly drops the metadata (witness)."
  },
  {
   "property": "C16",
   "status": "partial",
   "theorems": [
    "Rotonda.Props.unknown_status_rejected_partial",
    "Rotonda.Props.unknown_status_invisible_partial",
    "Rotonda.Props.unknown_status_accepted"
   ],
   "note": "First status change of an unknown prefix is rejected (in memory) and never visible in lookups; the code accepts later ones and PersistOnly accepts all (negation proved)"
  },
  {
   "property": "C17",
   "status": "proved",
   "theorems": [
    "Rotonda.Props.prefixes_count_total",
    "Rotonda.Props.prefixes_count_for_len_total",
    "Rotonda.Props.prefixes_count_sum"
   ],
   "note": "All histories, all strategies, both families"
  },
  {
   "property": "C18",
   "status": "partial",
   "theorems": [
    "Rotonda.Props.routes_count_total_partial",
    "Rotonda.Props.routes_count_fails"
   ],
   "note": "The code counts insert calls; equals distinct pairs only without repeated pairs (negation proved)"
  },
  {
   "property": "C19",
   "status": "partial",
   "theorems": [
    "Rotonda.Props.stored_counts_partial",
    "Rotonda.Props.memory_routes_kept",
    "Rotonda.Props.memory_count_fails",
    "Rotonda.Props.persisted_count_fails"
   ],
   "note": "In-memory prefix count exact characterisation; in-memory route count and persisted counts are always 0 in the code (negation proved)"
  },
  {
   "property": "C20",
   "status": "partial",
   "theorems": [
    "Rotonda.Props.prefix_new_partial",
    "Rotonda.Props.prefix_new_fails"
   ],
   "note": "Holds for the in-memory strategies; PersistOnly always reports new (negation proved)"
  },
  {
   "property": "C21",
   "status": "partial",
   "theorems": [
    "Rotonda.Props.mui_report_partial",
    "Rotonda.Props.mui_report_fails"
   ],
   "note": "mui_new is always true, mui_count right only for a replaced record or a fresh prefix (negation proved)"
  },
  {
   "property": "C22",
   "status": "proved",
   "theorems": [
    "Rotonda.Props.truncate_bits",
    "Rotonda.Props.truncate_compose",
    "Rotonda.Props.truncate_idempotent",
    "Rotonda.Props.truncate_toNat",
    "Rotonda.Props.truncate_monotone",
    "Rotonda.Props.truncate_monotone_len"
   ],
   "note": "for both widths, every address and length"
  },
  {
   "property": "C23",
   "status": "proved",
   "theorems": [
    "Rotonda.Props.position_lossless",
    "Rotonda.Props.position_injective",
    "Rotonda.Props.bit_position"
   ],
   "note": "all strides and positions"
  },
  {
   "property": "C24",
   "status": "proved",
   "theorems": [
    "Rotonda.Props.hash_in_bucket",
    "Rotonda.Props.hash_in_root",
    "Rotonda.Props.record_walk_in_bounds",
    "Rotonda.Props.node_walk_in_bounds"
   ],
   "note": "every level of both tables"
  },
  {
   "property": "C25",
   "status": "proved",
   "theorems": [
    "Rotonda.Props.exec_never_fails",
    "Rotonda.Props.query_never_fails",
    "Rotonda.Props.query_not_fatal"
   ],
   "note": "sequential histories of any length; panics, overflow and exhausted levels are explicit outcomes of the model"
  },
  {
   "property": "C26",
   "status": "partial",
   "theorems": [
    "Rotonda.Props.selection_correct",
    "Rotonda.Props.selection_unique",
    "Rotonda.Props.selection_order_independent",
    "Rotonda.Props.best_path_partial",
    "Rotonda.Props.best_path_withdrawn",
    "Rotonda.Props.best_path_fails",
    "Rotonda.Props.insert_selects_fails"
   ],
   "note": "the calculation is right; best_path fails when a withdrawn record is best and the first insert stores no selection (both proved as negations)"
  },
  {
   "property": "C27",
   "status": "partial",
   "theorems": [
    "Rotonda.Props.outdated_after_insert_partial",
    "Rotonda.Props.fresh_after_first_selection_partial",
    "Rotonda.Props.fresh_after_changed_selection_partial",
    "Rotonda.Props.outdated_first_insert_fails",
    "Rotonda.Props.outdated_after_calc_fails"
   ],
   "note": "false of the code after the first insert and after a calculation with unchanged outcome (negations proved); exact otherwise"
  },
  {
   "property": "C28",
   "status": "proved",
   "theorems": [
    "Rotonda.Props.key_lengths",
    "Rotonda.Props.short_key_injective",
    "Rotonda.Props.long_key_injective",
    "Rotonda.Props.long_key_decodes",
    "Rotonda.Props.record_decodes",
    "Rotonda.Props.scan_prefix_short",
    "Rotonda.Props.scan_prefix_long",
    "Rotonda.Props.scan_mui_short",
    "Rotonda.Props.scan_mui_long"
   ],
   "note": "NativeEndian taken as little endian"
  },
  {
   "property": "C29",
   "status": "proved",
   "theorems": [
    "Rotonda.Props.persist_only_last_write",
    "Rotonda.Props.persist_only_bytes"
   ],
   "note": "PersistOnly keeps the last write per key"
  },
  {
   "property": "C30",
   "status": "proved",
   "theorems": [
    "Rotonda.Props.write_ahead",
    "Rotonda.Props.write_ahead_every_insert",
    "Rotonda.Props.write_ahead_only_inserts"
   ],
   "note": "WriteAhead log holds every insert"
  },
  {
   "property": "C31",
   "status": "partial",
   "theorems": [
    "Rotonda.Props.persist_history_partial",
    "Rotonda.Props.persist_history_exact",
    "Rotonda.Props.persist_history_replaced",
    "Rotonda.Props.persist_history_activation_fails"
   ],
   "note": "exact contents proved; the stated property fails for per-mui activation, which persists a Withdrawn marker (negation proved)"
  },
  {
   "property": "C32",
   "status": "partial",
   "theorems": [
    "Rotonda.Props.persist_iter_partial",
    "Rotonda.Props.persist_iter_sound",
    "Rotonda.Props.persist_iter_fails",
    "Rotonda.Props.persist_iter_persist_only_fails"
   ],
   "note": "the code's header slice drops groups; negations proved"
  },
  {
   "property": "C33",
   "status": "proved",
   "theorems": [
    "Rotonda.Props.status_roundtrip",
    "Rotonda.Props.status_rejects"
   ],
   "note": "all byte values"
  },
  {
   "property": "C34",
   "status": "proved",
   "theorems": [
    "Rotonda.Props.recordset_iter",
    "Rotonda.Props.recordset_perm",
    "Rotonda.Props.recordset_len",
    "Rotonda.Props.recordset_index",
    "Rotonda.Props.recordset_reverse",
    "Rotonda.Props.recordset_push",
    "Rotonda.Props.recordset_record_for_mui"
   ],
   "note": "RecordSet iteration, length, indexing, reversal and pushing, for all record sets."
  },
  {
   "property": "C35",
   "status": "partial",
   "theorems": [
    "Rotonda.Props.concurrent_contains_partial",
    "Rotonda.Props.contains_default_conc",
    "Rotonda.Props.star_concurrent_contains_partial"
   ],
   "note": "Any number of concurrent calls of any kind, any interleaving, any starting history: proved for every prefix except the default route; for that one the opposite is proved (contains is always false)."
  },
  {
   "property": "C36",
   "status": "partial",
   "theorems": [
    "Rotonda.Props.concurrent_no_panic",
    "Rotonda.Props.concurrent_calls_return",
    "Rotonda.Props.concurrent_insert_ok_partial",
    "Rotonda.Props.concurrent_one_slot",
    "Rotonda.Props.concurrent_insert_fails"
   ],
   "note": "No panic, no retry limit reached, every call returns within finitely many of its own turns, one slot per id in both tables, at all times. An insert without path selection succeeds; with path selection it can return PathSelectionOutdated when racing (counterexample proved). The two global status changes can get stuck (C40)."
  },
  {
   "property": "C37",
   "status": "partial",
   "theorems": [
    "Rotonda.Props.concurrent_contains_sound",
    "Rotonda.Props.concurrent_contains_complete_partial",
    "Rotonda.Props.concurrent_less_specifics_partial",
    "Rotonda.Props.concurrent_match_partial",
    "Rotonda.Props.concurrent_match_misses"
   ],
   "note": "Soundness of all three queries and completeness of contains and less specifics, except for the default route and only with withdrawn routes included. The longest match can be empty while a longer prefix is being inserted (counterexample proved); the theorem states that this is the only way to miss."
  },
  {
   "property": "C38",
   "status": "partial",
   "theorems": [
    "Rotonda.Props.concurrent_more_specifics_partial",
    "Rotonda.Props.concurrent_prefixes_partial",
    "Rotonda.Props.concurrent_records_for_mui_partial",
    "Rotonda.Props.concurrent_match_more_partial",
    "Rotonda.Props.concurrent_iteration_misses"
   ],
   "note": "Soundness, no duplicates, no errors under every interleaving. Completeness when no concurrent insert in the area needs a new tree node; without that condition the property is false (counterexample proved: the iteration ends early)."
  },
  {
   "property": "C39",
   "status": "proved",
   "theorems": [
    "Rotonda.Props.effects_in_order",
    "Rotonda.Props.concurrent_upsert",
    "Rotonda.Props.concurrent_upsert_query"
   ],
   "note": "Every call of every run takes effect in one position of a single order consistent with real time; the record read after an insert returned is that insert's or one of an insert for the same prefix and mui that was not ordered before it. For the PersistOnly strategy the answers of record queries are described for runs in which no single route is marked active (an activation there reads and rewrites in two separate actions; see C53)."
  },
  {
   "property": "C40",
   "status": "partial",
   "theorems": [
    "Rotonda.Props.concurrent_status_partial",
    "Rotonda.Props.status_change_returns_iff",
    "Rotonda.Props.status_change_alone_returns",
    "Rotonda.Props.status_change_lost"
   ],
   "note": "Every status change that returns has taken effect and decides the status until the next one; a status change returns exactly when no other one takes effect between its read and its compare-and-swap. The full property is false of the code: after one failed compare-and-swap a call never succeeds, under any continuation (status_change_lost)."
  },
  {
   "property": "C41",
   "status": "partial",
   "theorems": [
    "Rotonda.Props.concurrent_prefix_count_partial",
    "Rotonda.Props.concurrent_prefix_count_for_len_partial",
    "Rotonda.Props.concurrent_overcount",
    "Rotonda.Props.concurrent_undercount",
    "Rotonda.Props.star_concurrent_prefix_count_partial"
   ],
   "note": "False as stated, both ways, with witnesses: overlapping inserts of the same new prefix may both count it, and an insert whose path selection fails has set the bit but not counted. Proved for every schedule and any number of calls: the count never drops below the initial number and rises at most once per insert of a new prefix; when all inserts succeeded it is at least the number of distinct prefixes; it is exact when inserts of the same new prefix do not overlap."
  },
  {
   "property": "C42",
   "status": "proved",
   "theorems": [
    "Rotonda.Props.nodes_count"
   ],
   "note": ""
  },
  {
   "property": "C43",
   "status": "partial",
   "theorems": [
    "Rotonda.Props.records_for_mui_partial"
   ],
   "note": "All histories and strategies; default route excluded because the code never yields it."
  },
  {
   "property": "C44",
   "status": "partial",
   "theorems": [
    "Rotonda.Props.less_from_partial",
    "Rotonda.Props.more_from_partial",
    "Rotonda.Props.less_from_fails",
    "Rotonda.Props.more_from_fails",
    "Rotonda.Props.less_from_wrong_records"
   ],
   "note": "exact behaviour proved; as stated false of the code: each returned prefix carries the searched prefix's records and the searched prefix is reported when absent"
  },
  {
   "property": "C45",
   "status": "partial",
   "theorems": [
    "Rotonda.Props.mui_status_families",
    "Rotonda.Props.mui_active_partial",
    "Rotonda.Props.mui_active_fails",
    "Rotonda.Props.mark_withdrawn_both"
   ],
   "note": "The family getters are exact. is_mui_active combines the families with || so it is false only when the id is withdrawn in both; the property as stated is false of the code (mui_active_fails)."
  },
  {
   "property": "C46",
   "status": "partial",
   "theorems": [
    "Rotonda.Props.default_records",
    "Rotonda.Props.default_route_invisible",
    "Rotonda.Props.contains_default_false"
   ],
   "note": "Record query proved; every other query is proved never to report the default route, so the statement is false of the code."
  },
  {
   "property": "C47",
   "status": "proved",
   "theorems": [
    "Rotonda.Props.slot_one_winner",
    "Rotonda.Props.slot_same_value",
    "Rotonda.Props.slot_wait_free",
    "Rotonda.Props.heap_refines_slots"
   ],
   "note": "Pointer-level model of OnceBox/OnceBoxSlice with heap and any allocator, including the lazily created slice; indexes in range (InRange, which C24/C25 show for the callers). heap_refines_slots: the coarser slot model used elsewhere has the same answers."
  },
  {
   "property": "C48",
   "status": "proved",
   "theorems": [
    "Rotonda.Props.queries_pure",
    "Rotonda.Props.query_readOnly"
   ],
   "note": "All queries, all states; every atomic action of a query leaves the state unchanged, so it also holds under concurrency."
  },
  {
   "property": "C49",
   "status": "partial",
   "theorems": [
    "Rotonda.Props.star_prefixes_count",
    "Rotonda.Props.star_counts_sum",
    "Rotonda.Props.star_prefixes_iter_partial",
    "Rotonda.Props.star_never_fails"
   ],
   "note": "The default routes are never yielded (C46); all else proved."
  },
  {
   "property": "C50",
   "status": "proved",
   "theorems": [
    "Rotonda.Props.slot_no_leak",
    "Rotonda.Props.slot_wait_free"
   ],
   "note": "Use of an unallocated block and a double free are panics of the model; slot_wait_free excludes them."
  },
  {
   "property": "C51",
   "status": "proved",
   "theorems": [
    "Rotonda.Props.families_interleave",
    "Rotonda.Props.star_concurrent_no_panic",
    "Rotonda.Props.star_concurrent_calls_return",
    "Rotonda.Props.star_concurrent_upsert",
    "Rotonda.Props.star_concurrent_withdraw"
   ],
   "note": "Any number of concurrent calls of any of the 42 kinds of the public interface, any schedule, from the state after any history over both families."
  },
  {
   "property": "C52",
   "status": "proved",
   "theorems": [
    "Rotonda.Props.store_small_steps",
    "Rotonda.Props.small_steps_atomic",
    "Rotonda.Props.store_lock_exclusive",
    "Rotonda.Props.store_no_deadlock",
    "Rotonda.Props.holder_releases",
    "Rotonda.Props.store_whole_actions",
    "Rotonda.Props.store_small_no_panic",
    "Rotonda.Props.upsert_section",
    "Rotonda.Props.mark_section",
    "Rotonda.Props.filtered_section",
    "Rotonda.Props.best_backup_section",
    "Rotonda.Props.set_ps_outdated_retries"
   ],
   "note": "Small-step semantics with lock acquisition, waiting, accesses, release, retry loops; simulated by the runs of whole actions and conversely. Panics inside a section and poisoning: C70."
  },
  {
   "property": "C53",
   "status": "partial",
   "theorems": [
    "Rotonda.Props.concurrent_upsert_marked_partial",
    "Rotonda.Props.concurrent_mark_partial",
    "Rotonda.Props.activation_undoes_insert"
   ],
   "note": "Proved for every strategy and schedule, except that with PersistOnly no call may mark a route active. There the property is false: activation_undoes_insert gives a run in which an activation undoes an insert that returned while it ran."
  },
  {
   "property": "C54",
   "status": "proved",
   "theorems": [
    "Rotonda.Props.write_ahead_in_order",
    "Rotonda.Props.write_ahead_only_begun",
    "Rotonda.Props.write_ahead_returned",
    "Rotonda.Props.write_ahead_shown",
    "Rotonda.Props.write_ahead_read"
   ],
   "note": "Every state of every run; queries alone and concurrent."
  },
  {
   "property": "C55",
   "status": "partial",
   "theorems": [
    "Rotonda.Props.persist_history_in_order",
    "Rotonda.Props.persist_history_only_replaced",
    "Rotonda.Props.persist_history_kept_partial",
    "Rotonda.Props.persist_history_lossless_partial",
    "Rotonda.Props.persist_history_loses_record",
    "Rotonda.Props.persist_history_marker_overwrites"
   ],
   "note": "Holds when the inserts of the pair returned Ok; the metadata when no status change of the pair runs. False otherwise: two counterexample runs."
  },
  {
   "property": "C56",
   "status": "partial",
   "theorems": [
    "Rotonda.Props.concurrent_walks_partial",
    "Rotonda.Props.reports_read",
    "Rotonda.Props.concurrent_upsert_walk",
    "Rotonda.Props.concurrent_steady_partial",
    "Rotonda.Props.concurrent_walk_no_snapshot"
   ],
   "note": "Proved: each prefix at most once, its records read at one moment during the call (global statuses at an earlier one); inserts that returned before are shown in that or a later version; untouched visible routes are reported while no insert below makes a new tree node. False: the whole answer is not that of one moment (witness). Exceptions: default route, PersistOnly activations."
  },
  {
   "property": "C57",
   "status": "partial",
   "theorems": [
    "Rotonda.Props.epoch_safe",
    "Rotonda.Props.epoch_reference_valid",
    "Rotonda.Props.epoch_refines_versions",
    "Rotonda.Props.epoch_blocks_partial",
    "Rotonda.Props.epoch_leaks",
    "Rotonda.Props.same_runs",
    "Rotonda.Props.status_cells",
    "Rotonda.Props.selection_cells"
   ],
   "note": "Memory safety, validity of references and absence of ABA (refinement of pointers to version numbers) hold for all runs and allocators. That replaced blocks are freed is false: epoch_leaks. Blocks given to failing swaps are freed (epoch_blocks_partial counts exactly). One pointer at a time; for the drop of a whole table see C76."
  },
  {
   "property": "C58",
   "status": "partial",
   "theorems": [
    "Rotonda.Props.oncebox_publication_races",
    "Rotonda.Props.publication_race_free_iff",
    "Rotonda.Props.publication_race_free",
    "Rotonda.Props.len_table_ok",
    "Rotonda.Props.publication_no_dangling",
    "Rotonda.Props.dangling_is_race",
    "Rotonda.Props.publication_no_panic",
    "Rotonda.Props.publication_wait_free",
    "Rotonda.Props.publication_agrees",
    "Rotonda.Props.publication_separates",
    "Rotonda.Props.publication_creates",
    "Rotonda.Props.publication_read_own"
   ],
   "note": "Race freedom is false for the orderings in the code (oncebox_publication_races: in the table of every prefix length a lookup races with a creation). publication_race_free_iff says exactly which orderings make all executions free of races. Agreement, separation, termination, absence of panics, of uses of unallocated words, and reading one's own entries hold for all orderings, hence for the code."
  },
  {
   "property": "C59",
   "status": "proved",
   "theorems": [
    "Rotonda.Props.prefixes_count_of_moment",
    "Rotonda.Props.routes_count_of_moment",
    "Rotonda.Props.len_count_of_moment",
    "Rotonda.Props.nodes_count_of_moment",
    "Rotonda.Props.prefixes_count_grows",
    "Rotonda.Props.prefixes_count_during",
    "Rotonda.Props.star_prefixes_count_of_moment",
    "Rotonda.Props.star_routes_count_of_moment",
    "Rotonda.Props.star_nodes_count_of_moment",
    "Rotonda.Props.prefixes_count_no_snapshot"
   ],
   "note": "Proved for every start state and schedule, per family and over both. The inclusion of inserted prefixes needs the inserts to have succeeded (C41). The two numbers of one report may be of different moments (witness prefixes_count_no_snapshot)."
  },
  {
   "property": "C60",
   "status": "proved",
   "theorems": [
    "Rotonda.Props.cell_race_free",
    "Rotonda.Props.cell_no_dangling",
    "Rotonda.Props.cell_sequentially_consistent",
    "Rotonda.Props.status_race_free",
    "Rotonda.Props.selection_race_free",
    "Rotonda.Props.status_race_free_iff",
    "Rotonda.Props.selection_race_free_iff"
   ],
   "note": "For the orderings in the code no execution has a data race (status_race_free, selection_race_free). Whatever the orderings, no block is used that is not allocated and the answers, content and tag are those of a sequentially consistent execution. The iff theorems say exactly which orderings are needed. One pointer at a time."
  },
  {
   "property": "C61",
   "status": "partial",
   "theorems": [
    "Rotonda.Props.public_get_records",
    "Rotonda.Props.public_contains_partial",
    "Rotonda.Props.public_match_prefix_partial",
    "Rotonda.Props.public_less_iter_partial",
    "Rotonda.Props.public_more_iter_partial",
    "Rotonda.Props.public_records_for_mui_partial",
    "Rotonda.Props.public_less_from_partial",
    "Rotonda.Props.public_more_from_partial",
    "Rotonda.Props.public_prefix_new_partial",
    "Rotonda.Props.public_selection_correct",
    "Rotonda.Props.public_best_path_partial",
    "Rotonda.Props.public_outdated_partial",
    "Rotonda.Props.public_persist_iter_partial"
   ],
   "note": "Over histories of public calls and prefixes of both families. Partial exactly where the property of one family is: the default route is not found by contains and match_prefix, more_specifics_iter_from yields nothing for host prefixes, the _from queries attach the wrong records, PersistOnly inserts always report a new prefix."
  },
  {
   "property": "C62",
   "status": "partial",
   "theorems": [
    "Rotonda.Props.tree_race_free",
    "Rotonda.Props.tree_no_panic",
    "Rotonda.Props.tree_wait_free",
    "Rotonda.Props.tree_bit_true",
    "Rotonda.Props.tree_bit_seen",
    "Rotonda.Props.tree_node_seen",
    "Rotonda.Props.tree_bit_stale",
    "Rotonda.Props.tree_bits_reordered",
    "Rotonda.Props.tree_code_race"
   ],
   "note": "Everything is proved for all orderings except freedom of data races, which needs the orderings of C58 for the table (tree_race_free); with those of the code the table races (tree_code_race). tree_bit_stale shows that the synchronisation between the callers is needed, tree_bits_reordered that with the orderings of the code the bits of a node may be seen in another order than they were set."
  },
  {
   "property": "C63",
   "status": "partial",
   "theorems": [
    "Rotonda.Props.selections_explained",
    "Rotonda.Props.invalidation_lost",
    "Rotonda.Props.older_selection_wins"
   ],
   "note": "The clauses about answers and about selections that nobody else touches are proved (selections_explained). The last clause is false: invalidation_lost, older_selection_wins."
  },
  {
   "property": "C64",
   "status": "partial",
   "theorems": [
    "Rotonda.Props.disk_get_records",
    "Rotonda.Props.disk_no_invention",
    "Rotonda.Props.disk_isolated",
    "Rotonda.Props.disk_match",
    "Rotonda.Props.disk_more_specifics_iter",
    "Rotonda.Props.disk_less_specifics_iter",
    "Rotonda.Props.disk_prefixes_iter",
    "Rotonda.Props.disk_healthy",
    "Rotonda.Props.disk_withdraw",
    "Rotonda.Props.disk_activate_silent",
    "Rotonda.Props.disk_iteration_sound",
    "Rotonda.Props.disk_error_hidden",
    "Rotonda.Props.disk_faults_not_reported",
    "Rotonda.Props.disk_damage_reported_partial",
    "Rotonda.Props.disk_match_hides",
    "Rotonda.Props.disk_iteration_stops",
    "Rotonda.Props.disk_iteration_skips"
   ],
   "note": "No invention, isolation, completeness of what is answered and the healthy case are proved for every disk. Reporting is false: failed reads are answered as no records, damaged entries of the matched prefix as EmptyMatch, activations as success, persist_prefixes_iter ends or skips silently; entries that are too short panic."
  },
  {
   "property": "C65",
   "status": "partial",
   "theorems": [
    "Rotonda.Props.configs_settable",
    "Rotonda.Props.configs_strategy",
    "Rotonda.Props.new_memory_only",
    "Rotonda.Props.new_persisting",
    "Rotonda.Props.new_persisting_empty",
    "Rotonda.Props.new_missing_path",
    "Rotonda.Props.new_returns",
    "Rotonda.Props.new_directories_apart",
    "Rotonda.Props.try_default_memory_only",
    "Rotonda.Props.try_default_new",
    "Rotonda.Props.try_default_can_fail",
    "Rotonda.Props.new_empty_path"
   ],
   "note": "All but the last sentence is proved; try_default is infallible only for MemoryOnly (try_default_can_fail)."
  },
  {
   "property": "C66",
   "status": "proved",
   "theorems": [
    "Rotonda.Props.prefix_stats",
    "Rotonda.Props.star_stats",
    "Rotonda.Props.stats_sum"
   ],
   "note": ""
  },
  {
   "property": "C67",
   "status": "partial",
   "theorems": [
    "Rotonda.Props.flush_memory_only",
    "Rotonda.Props.flush_report",
    "Rotonda.Props.flush_success_partial",
    "Rotonda.Props.flush_success_fails",
    "Rotonda.Props.flush_steps",
    "Rotonda.Props.flush_families",
    "Rotonda.Props.disk_reports"
   ],
   "note": "Success is reported although writing failed (flush_success_fails); proved if no memory table fails to be written. IPv6 is not flushed when IPv4 fails (flush_families)."
  },
  {
   "property": "C68",
   "status": "partial",
   "theorems": [
    "Rotonda.Props.kept_bytes",
    "Rotonda.Props.conversion_panics_partial",
    "Rotonda.Props.conversion_panics",
    "Rotonda.Props.test_types_roundtrip",
    "Rotonda.Props.prefix_as_number",
    "Rotonda.Props.be_bytes_shown",
    "Rotonda.Props.be_bytes_order_fails",
    "Rotonda.Props.conversion_total",
    "Rotonda.Props.test_types_first"
   ],
   "note": "Proved for prefixes none of whose routes was withdrawn one by one; false after a withdrawal, which drops the metadata (conversion_panics). BeBytesAsn is ordered by its bytes in the wrong order (be_bytes_order_fails)."
  },
  {
   "property": "C69",
   "status": "proved",
   "theorems": [
    "Rotonda.Props.counter_newest",
    "Rotonda.Props.counter_load",
    "Rotonda.Props.counter_coherent",
    "Rotonda.Props.counter_exact",
    "Rotonda.Props.counter_sum"
   ],
   "note": "View machine with relaxed loads and fetch_add; Told is the happens-before relation of the threads, given by an inductive definition over the trace. The counters do not wrap around."
  },
  {
   "property": "C70",
   "status": "partial",
   "theorems": [
    "Rotonda.Props.panic_contained",
    "Rotonda.Props.panicked_at_lock",
    "Rotonda.Props.panicked_stopped",
    "Rotonda.Props.no_panic_no_poison",
    "Rotonda.Props.panic_progress",
    "Rotonda.Props.store_panic_contained",
    "Rotonda.Props.store_nodes_not_poisoned",
    "Rotonda.Props.store_panic_progress",
    "Rotonda.Props.store_panic_recovering",
    "Rotonda.Props.store_poison_hangs",
    "Rotonda.Props.store_panic_hangs"
   ],
   "note": "All but the last sentence is proved. The last is false of the code: after a panic under the lock of a record map every call that needs this record map hangs (store_poison_hangs, store_panic_hangs with an execution for every store). It would hold if poisoning were ignored (store_panic_recovering)."
  },
  {
   "property": "C71",
   "status": "partial",
   "theorems": [
    "Rotonda.Props.star_concurrent_contains_sound",
    "Rotonda.Props.star_concurrent_contains_complete_partial",
    "Rotonda.Props.star_concurrent_less_specifics_partial",
    "Rotonda.Props.star_concurrent_more_specifics_partial",
    "Rotonda.Props.star_concurrent_prefixes_partial",
    "Rotonda.Props.star_concurrent_records_for_mui4_partial",
    "Rotonda.Props.star_concurrent_records_for_mui6_partial",
    "Rotonda.Props.star_concurrent_match_partial",
    "Rotonda.Props.star_concurrent_upsert_marked_partial",
    "Rotonda.Props.star_concurrent_mark_partial",
    "Rotonda.Props.star_concurrent_upsert_walk",
    "Rotonda.Props.star_concurrent_steady_partial"
   ],
   "note": "Lifts C37/C38 (same gaps: default routes, a longest match that comes back empty, iterations that can stop short when a node is being made) and C53/C56 to the public interface over both families; the record guarantees with PersistOnly only if no route is marked active."
  },
  {
   "property": "C72",
   "status": "partial",
   "theorems": [
    "Rotonda.Props.taken_same",
    "Rotonda.Props.taken_first",
    "Rotonda.Props.taken_runs_on",
    "Rotonda.Props.taken_more_specifics_partial",
    "Rotonda.Props.taken_less_specifics_partial",
    "Rotonda.Props.taken_prefixes_partial",
    "Rotonda.Props.taken_upsert_walk"
   ],
   "note": "That dropping an iterator early changes nothing and that the items are the first ones of the whole iteration is proved without conditions; what the items are guaranteed to be is partial as for whole iterations (C37, C38, C71); for persist_prefixes_iter see C73."
  },
  {
   "property": "C73",
   "status": "partial",
   "theorems": [
    "Rotonda.Props.scans_harmless",
    "Rotonda.Props.scan_records_partial",
    "Rotonda.Props.scan_records_genuine",
    "Rotonda.Props.scan_upsert",
    "Rotonda.Props.scan_steady",
    "Rotonda.Props.scan_persisted",
    "Rotonda.Props.scan_persisted_sound",
    "Rotonda.Props.scan_write_ahead_sound",
    "Rotonda.Props.scan_write_ahead_complete_partial",
    "Rotonda.Props.scan_no_panic",
    "Rotonda.Props.scan_returns",
    "Rotonda.Props.scan_records_alone",
    "Rotonda.Props.scan_persisted_alone",
    "Rotonda.Props.scan_torn"
   ],
   "note": "All proved except: the record guarantees with PersistOnly when routes are marked active (defect), and that no returned insert is missed by an iteration when records have metadata (defect, C32). scan_torn shows that an answer as a whole need not be that of one moment."
  },
  {
   "property": "C74",
   "status": "partial",
   "theorems": [
    "Rotonda.Props.scan_walks_partial",
    "Rotonda.Props.Explain.reports",
    "Rotonda.Props.scan_walk_genuine",
    "Rotonda.Props.scan_walk_upsert",
    "Rotonda.Props.scan_walk_shows_partial",
    "Rotonda.Props.scan_walk_steady_partial",
    "Rotonda.Props.scan_walk_alone",
    "Rotonda.Props.scan_walk_torn",
    "Rotonda.Props.scan_no_panic",
    "Rotonda.Props.scan_returns",
    "Rotonda.Props.scans_harmless"
   ],
   "note": "All proved except as in C56: iterations over more specifics may miss prefixes while inserts make tree nodes below the searched prefix (defect), the default route, and PersistOnly together with calls that mark a route active (defect). scan_walk_torn shows that the records of one prefix need not be those of one moment."
  },
  {
   "property": "C75",
   "status": "partial",
   "theorems": [
    "Rotonda.Props.options_answered",
    "Rotonda.Props.options_apart",
    "Rotonda.Props.options_types",
    "Rotonda.Props.options_mui_partial",
    "Rotonda.Props.options_withdrawn_partial",
    "Rotonda.Props.options_current",
    "Rotonda.Props.options_history_ignored",
    "Rotonda.Props.options_history_fails",
    "Rotonda.Props.options_mui_fails"
   ],
   "note": "False of the code for include_history, which no code reads (options_history_fails), and for a search for one mui with withdrawn routes excluded, which ignores the global status (options_mui_fails). All other options are proved to mean what they say, for all histories, prefixes and strategies."
  },
  {
   "property": "C76",
   "status": "partial",
   "theorems": [
    "Rotonda.Props.table_safe",
    "Rotonda.Props.table_wait_free",
    "Rotonda.Props.table_reference",
    "Rotonda.Props.table_stays",
    "Rotonda.Props.table_apart",
    "Rotonda.Props.table_made",
    "Rotonda.Props.table_found",
    "Rotonda.Props.table_drop_partial",
    "Rotonda.Props.table_leaks"
   ],
   "note": "Pointer-level model of a whole chained hash table: roots, slices, entries with their next bucket, any allocator. All parts hold for all runs except that the drop frees everything: slices and entries are freed (table_drop_partial), the epoch-managed block of each StoredPrefix is not (table_leaks, defect 16). The mutable parts of the entries are left out (C57 has the epoch-managed pointers)."
  },
  {
   "property": "C77",
   "status": "partial",
   "theorems": [
    "Rotonda.Props.address_octets",
    "Rotonda.Props.address_roundtrip",
    "Rotonda.Props.octets_roundtrip",
    "Rotonda.Props.address_numbers",
    "Rotonda.Props.prefix_to_id",
    "Rotonda.Props.prefix_roundtrip",
    "Rotonda.Props.id_to_prefix",
    "Rotonda.Props.id_bytes_roundtrip",
    "Rotonda.Props.id_bytes_read",
    "Rotonda.Props.span_panics",
    "Rotonda.Props.span_bits_partial",
    "Rotonda.Props.span_empty",
    "Rotonda.Props.span_empty_wrong",
    "Rotonda.Props.add_span_panics",
    "Rotonda.Props.add_span_bits",
    "Rotonda.Props.add_span_take",
    "Rotonda.Props.take_span_add",
    "Rotonda.Props.index_to_span",
    "Rotonda.Props.span_to_position",
    "Rotonda.Props.index_roundtrip",
    "Rotonda.Props.span_roundtrip",
    "Rotonda.Props.span_check",
    "Rotonda.Props.level_size",
    "Rotonda.Props.levels_before",
    "Rotonda.Props.shr_or_zero_partial",
    "Rotonda.Props.shl_or_zero_partial",
    "Rotonda.Props.checked_shifts",
    "Rotonda.Props.truncate_beyond"
   ],
   "note": "Everything but the empty span (into_bit_span returns all remaining bits) and shifts by 0 (checked_shr_or_zero, and checked_shl_or_zero of IPv4, give 0), which are false of the code."
  },
  {
   "property": "C78",
   "status": "proved",
   "theorems": [
    "Rotonda.Props.pointer_calls",
    "Rotonda.Props.pointer_new",
    "Rotonda.Props.pointer_history",
    "Rotonda.Props.pointer_history_runs",
    "Rotonda.Props.pointer_refines",
    "Rotonda.Props.pointer_no_panic",
    "Rotonda.Props.pointer_calls_return",
    "Rotonda.Props.pointer_drop",
    "Rotonda.Props.pointer_contains_partial"
   ],
   "note": "pointer_contains_partial carries C35/C37 over to the heap as an example and, like them, leaves out the default route. The two global status changes may loop (C40), also here. Epoch-managed blocks are leaked (C76)."
  },
  {
   "property": "C79",
   "status": "partial",
   "theorems": [
    "Rotonda.Props.retry_counts_erased",
    "Rotonda.Props.retries_alone",
    "Rotonda.Props.retry_counts_checked",
    "Rotonda.Props.retry_counts_checked_v4",
    "Rotonda.Props.retries_reported_partial",
    "Rotonda.Props.retries_bounds_partial",
    "Rotonda.Props.cas_count_overcounts",
    "Rotonda.Props.cas_count_wraps",
    "Rotonda.Props.cas_count_overflows"
   ],
   "note": "False as stated: retries of early strides are counted several times and the u32 count can overflow for IPv6 (defect 27), shown by concrete concurrent runs. Shown for all runs: the exact value of cas_count, that it is 0 alone, that it is at least the number of retries unless it wraps and exact for prefixes of up to 8 bits, that counting influences nothing else in release builds, nor in debug builds of IPv4 inserts."
  },
  {
   "property": "C80",
   "status": "proved",
   "theorems": [
    "Rotonda.Props.calls_return_within",
    "Rotonda.Props.star_calls_return_within",
    "Rotonda.Props.work_v4",
    "Rotonda.Props.work_v6"
   ],
   "note": "The bound of each call is Call.turns in Spec/Turns.lean, for the public interface that of its part or the sum of those of its two parts; calls without one are those whose work depends on what is stored (none there). An atomic action of the model is one turn; a call of the persistence tree or a section under a lock counts as one. Any bound F \u2265 32 on the swaps of one bit will do: a swap of one bit fails at most 31 times."
  },
  {
   "property": "C81",
   "status": "partial",
   "theorems": [
    "Rotonda.Props.merge_ptr_alone_partial",
    "Rotonda.Props.merge_pfx_alone_partial",
    "Rotonda.Props.merge_ptr_sets_partial",
    "Rotonda.Props.merge_pfx_sets_partial",
    "Rotonda.Props.merge_ptr_stuck",
    "Rotonda.Props.merge_pfx_stuck",
    "Rotonda.Props.merge_livelock",
    "Rotonda.Props.new_nodes_empty",
    "Rotonda.Props.never_merges"
   ],
   "note": "Nothing is lost, and what was given is set when it returns. It returns when nobody changes the bits between its load and its first swap, and not otherwise: a retry compares with the stale value (merge_livelock). The store never merges bits (never_merges)."
  },
  {
   "property": "C82",
   "status": "proved",
   "theorems": [
    "Rotonda.Props.node_slots",
    "Rotonda.Props.entry_slots",
    "Rotonda.Props.entries_space",
    "Rotonda.Props.nodes_space",
    "Rotonda.Props.slots_stay",
    "Rotonda.Props.nodes_space4",
    "Rotonda.Props.nodes_space6",
    "Rotonda.Props.star_space"
   ],
   "note": "counts filled slots of the two hash tables; the record maps inside the entries and the persistence tree are not counted"
  },
  {
   "property": "C83",
   "status": "partial",
   "theorems": [
    "Rotonda.Props.threads_are_calls",
    "Rotonda.Props.calls_in_order",
    "Rotonda.Props.threads_no_panic",
    "Rotonda.Props.threads_return",
    "Rotonda.Props.thread_contains_own_partial",
    "Rotonda.Props.insert_then_contains_partial"
   ],
   "note": "Every run of threads is a run of single calls, proved for any calls, programs and schedules. Partial only in that contains does not see the default routes (C35)."
  },
  {
   "property": "C84",
   "status": "partial",
   "theorems": [
    "Rotonda.Props.loader_total",
    "Rotonda.Props.loader_tasks_partial",
    "Rotonda.Props.loader_mt_total",
    "Rotonda.Props.loader_mt_tasks_partial",
    "Rotonda.Props.loader_alone_partial",
    "Rotonda.Props.loader_panics",
    "Rotonda.Props.loader_prefixes_twice",
    "Rotonda.Props.loader_calculated",
    "Rotonda.Props.loader_calculated_sum"
   ],
   "note": "Missing: tasks with the same route can panic (loader_panics), and the sum of the unique prefixes of the tasks can exceed the number of new prefixes (loader_prefixes_twice)."
  },
  {
   "property": "C85",
   "status": "proved",
   "theorems": [
    "Rotonda.Props.quiet_one_by_one",
    "Rotonda.Props.quiet_lists_all_partial",
    "Rotonda.Props.not_quiet_false",
    "Rotonda.Props.star_quiet_one_by_one",
    "Rotonda.Props.star_quiet_records",
    "Rotonda.Props.star_quiet_lists_all_partial"
   ],
   "note": "For every moment at which no insert is under way. quiet_lists_all_partial spells out the iteration over all prefixes, which leaves out the default route (C07); not_quiet_false shows the condition is needed. contains with a mui and the *_from queries built on it are not part of the property. Also for the public interface over both families."
  },
  {
   "property": "C86",
   "status": "proved",
   "theorems": [
    "Rotonda.Props.load_verify",
    "Rotonda.Props.load_then_verify",
    "Rotonda.Props.tasks_then_verify",
    "Rotonda.Props.tasks_verify",
    "Rotonda.Props.verify_last_store_panics"
   ],
   "note": "Printing and the parsing of path attributes are left out of the model. The panic with a store per file is defect 30."
  },
  {
   "property": "C87",
   "status": "proved",
   "theorems": [
    "Rotonda.Props.truncate_branchless",
    "Rotonda.Props.truncate_too_long"
   ],
   "note": "For any width."
  },
  {
   "property": "C88",
   "status": "partial",
   "theorems": [
    "Rotonda.Props.load_files_partial",
    "Rotonda.Props.load_files_agree",
    "Rotonda.Props.load_files_shown",
    "Rotonda.Props.load_primed_fails"
   ],
   "note": "Proved for one thread and one store: no panic, totals, unique prefixes without priming, agreement with the store's count, the record shown for every route. False of the code, with witness: unique routes count repeated routes (defect 4), and with --prime no prefix is counted as unique (load_primed_fails)."
  },
  {
   "property": "C89",
   "status": "partial",
   "theorems": [
    "Rotonda.Props.shell_lists_partial",
    "Rotonda.Props.shell_default_missing",
    "Rotonda.Props.shell_rows_none"
   ],
   "note": "The default routes are counted but not listed by the code, so the list is of the others; shell_default_missing shows it."
  },
  {
   "property": "C90",
   "status": "partial",
   "theorems": [
    "Rotonda.Props.shell_query_partial",
    "Rotonda.Props.shell_numatch_differs"
   ],
   "note": "Proved: no error, the match, both lists of match_prefix, and what more_specifics_from lists. False of the code: default routes are not found, and the lists printed for comparison are not the same (shell_numatch_differs)."
  }
 ]
}
