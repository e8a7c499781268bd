# Design of the formal model of rotonda-store

Subject: the Rust crate at `/repo` (rotonda-store 0.5.1-dev).  The model is
Lean 4.33.0 (`/verif/lean`), read off the source by hand, function by function.
No Rust code was built or run.

## 1. Shape of the model

**One program text, two semantics.**  Functions that touch shared memory are
written once, in a small free monad `Prog σ α` (`Model/Prog.lean`) whose primitive
`act` is *one atomic action* on the shared state: one atomic load, one
compare-and-swap, one critical section of a lock, one call into the LSM tree.
`Prog` has two more leaves: `panic` (a Rust panic: arithmetic overflow, index out
of bounds, failed assertion, exhausted levels) and `diverge` (a retry loop used up
its fuel; fuel is a parameter that every theorem quantifies over).

* Sequential semantics: `Prog.run : Prog σ α → σ → Outcome α σ`.  `exec st F h`
  runs a history `h` of API calls (newest first) from the empty store under the
  persist strategy `st`.
* Concurrent semantics (`Model/Conc.lean`): a configuration `Conf` is the shared
  state and what is left of each call; `Conf.exec c t` follows the schedule `t`, a
  list of call names of any length over any index type.  Any number of calls of any
  of the 24 kinds (`Call`) run at the same time, from the state after any history.
  `Model/StarConc.lean` does the same for the 42 calls of the public interface,
  `Model/Take.lean` for iterators of which only the first items are asked for,
  `Model/Scan.lean` for persisted records that are read one after another.
* Small-step semantics (`Model/Lock.lean`): taking a lock, waiting, every access behind
  it, the release, the loads and failing swaps of a retry loop are separate steps.
  `Model/Poison.lean` adds threads that panic with a lock held, and poisoned locks.

**Program logic.**  `Proofs/Wp.lean` defines `wp R G D prog Q s` (rely `R`,
guarantee `G`, `D` whether divergence is allowed); with `R = Eq` it is the
sequential logic, with a proper `R` the rely/guarantee logic; `conc_sound` in
`Proofs/ConcSound.lean` turns one `wp` per call into a statement about every schedule.
`Proofs/Ghost.lean` adds ghost state (`gwp`, `ghost_sound`), used for the order of
effects (`Lin*.lean`) and for counting (`Count*.lean`); `Proofs/Along.lean` relates
one call to the steps of one particular run (`gwp_along`).  `Prog.Always`
(`Proofs/Always.lean`) is a property of every single atomic action.  `Prog.Reads`
(`Proofs/Reads.lean`) says which answers a call can have come to by reading the states
of one run in order; it splits at every `bind`.  `twp` (`Proofs/Timed.lean`) is a
weakest precondition along one run: assertions speak of the number of the step and of
all former states, the guarantee of one call may refer to the past of the run.

**State.**

* Addresses are `BitVec W`; theorems range over both families (`Fam W`: `W = 32` or
  `W = 128`).  `u8` lengths and levels are naturals; where the `u8` or shift
  arithmetic of the code can overflow there is an explicit panic.
* The pointer graph of a chained hash table is flattened to a map from slot address
  (root index, slot indices followed) to the entry stored there (`Model/Slots.lean`);
  slots are written once.  `Model/OnceBox.lean` models the same code with heap,
  pointers, allocator and frees, and `heap_refines_slots` shows that both give the
  same answers.  `Model/TableHeap.lean` has the heap of a whole table, with chains of any
  depth, and its drop.  `Model/Pointers.lean` runs every call of the store on the heaps of both
  tables, and `pointer_refines` shows that flattening them changes nothing.
* `Model/Weak.lean` models the table once more, on a machine with weak memory: a read
  may return an older write, the `Ordering` arguments of the code say what is learned by
  reading, and plain accesses that are not ordered are recorded as races.
  `Model/WeakTree.lean` adds the bit arrays of the nodes, calls at any time, and clients that
  synchronise with each other outside of the store.
* An epoch-managed pointer (withdrawn muis, path selections) is a version number, a tag
  and the value.  `Model/Epoch.lean` models it with heap, allocator and frees, and
  `epoch_refines_versions` shows that both give the same answers.  `Model/WeakCell.lean`
  models it on the machine with weak memory, and `cell_sequentially_consistent` shows that
  this gives no other answers.
* A tree node is its two bitmaps (`ptrbitarr`, `pfxbitarr`), each an atomic word, and
  the per-node mui set.
* `Model/Retries.lean` has the programs of an insert with the retry counts of the code, which the
  other modules leave out; `retry_counts_erased` shows that nothing else changes.
* `Model/Disk.lean` models the calls that read persisted records once more, with a disk that
  may answer every scan with any bytes and any errors; `disk_healthy` shows that these are the
  calls of the other modules when it does not.
* `Model/Setup.lean` models creation, over a file system that says which directory can be
  opened and what it holds, and flushing, over what the `lsm_tree` crate answers at each step.
* `Model/Client.lean` has threads that make any calls one after another; `threads_are_calls` shows
  that their runs are runs of single calls, which the other modules are about.
  `Model/Loader.lean` has the tasks of the loader of MRT files as such threads, and
  `Model/LoadVerify.lean` its check of what was persisted, and the test of truncation;
  `Model/LoadFiles.lean` has its loop over the files.  `Model/Shell.lean` has what the shell of
  `src/bin/cli.rs` does with a file, its command `p` and its queries.
* The store is `Rib` (tree, prefix table, LSM map, withdrawn muis, counters); two of
  them and the configuration make the `Star` (`Model/StarCast.lean`).

Modules: `Verif/Model/*` (the model; every definition cites file and lines),
`Verif/Spec/*` (what the properties are about: histories, covering, visibility,
counts; never mentions model helpers), `Verif/Proofs/*` (lemmas), `Verif/Props/*`
(one theorem or group of theorems per property with examples and counterexamples).

## 2. Trusted base

* the Lean kernel; axioms `propext`, `Classical.choice`, `Quot.sound` only (no own
  axioms, `sorry`, `native_decide`, `bv_decide`);
* that the model follows the code (each definition cites its lines and says what it
  simplifies);
* the contracts of the external crates:
  * `RoaringBitmap` = set of `u32`;
  * `HashMap` = association list with unique keys; its iteration order is only ever
    claimed up to permutation;
  * `lsm_tree::Tree` = map from byte strings to byte strings sorted by key, with
    overwrite and prefix scan.  All inserts of the code use sequence number 0; the
    model takes the last insert to win, and no other call to see the key absent in
    between.  A scan reads a snapshot in one action, except in `Model/Scan.lean` (C73,
    C74), where all queries and the iteration over all persisted prefixes read entry by
    entry (the real iterators take no snapshot); alone both give the same answers;
  * `zerocopy` = explicit byte encoders and decoders with exact length checks;
    `NativeEndian` = little endian;
  * `routecore::best_backup_generic` = fold keeping the two smallest; the tie-breaker
    order (`Ord` of the user's type) is a linear order;
  * `inetnum::Prefix` = (bits, len) with `len ≤ W` and zero host bits;
  * the user's `Meta` type: its conversion does not panic (except in C68);
    `from(as_ref())` gives back the value only where a theorem assumes it
    (`persist_only_last_write` vs. `persist_only_bytes`);
* atomics are sequentially consistent, except in `Model/Weak.lean` (C58), which has the
  orderings of `src/cht/oncebox.rs`, `Model/WeakTree.lean` (C62), which has those of the node
  bitmaps too, `Model/WeakCell.lean` (C60), which has those of the epoch pointers (one
  pointer at a time), and `Model/WeakCount.lean` (C69), which has those of the counters.  There a trace of steps fixes the order of the
  actions of all threads (no load buffering, no values out of thin air), `SeqCst` gives no
  more than `AcqRel`, and no address is used twice;
* a lock is held by one writer or by readers only (`Model/Lock.lean`); that a critical
  section or a `fetch_update` loop can be taken as one action is a theorem (C52);
* one atomic action for an LSM call; counters are natural numbers, so the wrap-around of
  a `usize` counter is not modelled;
* `crossbeam_epoch`: `Atomic` is a pointer with a tag; a failing swap drops the new block;
  nothing else is freed unless asked for (the code never calls `defer_destroy`).  Hence
  pinning an epoch has no effect and is not modelled;
* panics of the user's code (the metadata type) are modelled under the locks of the record
  maps (C70); its `Drop` code, and panics where no lock is held, are not;
* not modelled: allocation failure, logging,
  `Display`/`Debug`, CLI and MRT binaries, errors while writing to disk (`insert` goes to the
  memory table of `lsm_tree` and returns no error), reading errors other than in C64 (for
  `PersistOnly`), the on-disk format and
  crash recovery of `lsm_tree` (the crate always starts from a fresh random
  directory (C65), so the code has no recovery path).

Known simplification left: the walk of the `*_from` queries runs to its end in the
model even where `collect` into a `Result` would stop at the first error; no error
occurs (`query_not_fatal`), so the result is the same.

## 3. Properties

*proved*: the statement as listed holds of the model.  *partial*: the statement is
false of the code or carries an exception; the theorem named `…_partial` says what
does hold and a theorem named `…_fails`, `…_false` or similar proves the negation of
the rest with a concrete witness.  Theorem names and notes are in `MANIFEST.json`.

| id | how it is modelled and proved | outcome |
|----|-------------------------------|---------|
| C01 | invariant `HInv`: tree represents the set of inserted prefixes | partial: default route never reported |
| C02 | exact characterisation of the per-node mui set | partial: false in both directions |
| C03–C05 | bits of the tree walk against `Covers` | partial: default route |
| C06, C07 | termination, soundness, completeness, no duplicates of the iterators | partial: default route; full-length start prefix |
| C08, C09, C11, C13, C14 | refinement of the record table to `recOf`/`Shown` | proved |
| C10 | product state; also for each atomic step | proved |
| C12 | same refinement | partial: queries for one given mui ignore the global status |
| C15 | same | partial: PersistOnly drops the metadata |
| C16 | same | partial: the second call on an unknown prefix succeeds |
| C17, C42 | counting invariants | proved |
| C18–C21 | counting invariants, reports | partial: counters and reports wrong in several cases |
| C22–C24, C33 | bit-level theorems | proved |
| C25, C48 | every program from every reachable state | proved |
| C26, C27 | fold over the records, outdated flag | partial: several defects |
| C28–C30 | byte-level encoders, LSM contents | proved |
| C31, C32 | same | partial: activation persists a Withdrawn marker; header slice |
| C34 | lists | proved |
| C35–C38 | rely/guarantee over all schedules | partial: default route, early end of iterations, failing path selection |
| C39 | ghost log: one order of effects consistent with real time | proved |
| C40 | same, and a characterisation of the compare-and-swap loop | partial: a failed compare-and-swap never recovers |
| C41 | ghost count along a run | partial: over- and undercount |
| C43–C46, C49 | composition of the above | partial: default route, `||`, wrong records |
| C51 | simulation: a run of the public interface is one run per family | proved |
| C52 | simulation: a run of small steps is a run of whole actions, and back | proved |
| C53 | the log of C39: last insert, last status change since | partial: false for PersistOnly activations |
| C54 | the log of C39 with the persisted keys; invariant on every write | proved |
| C55 | the log of C39 with the replaced records | partial: a failing insert loses the record it replaced; a marker can overwrite metadata |
| C56 | the log of C39 with what each call has read (`Prog.Reads`) | partial: not a snapshot; early end of iterations; default route |
| C57 | heap-level model, log of the addresses ever in the pointer, refinement to versions | partial: blocks that were swapped out are never freed |
| C58 | machine with weak memory, invariant on who knows which write | partial: the orderings of the code race; those that are needed are characterised |
| C59 | every action raises each counter by at most one, so a torn sum is passed on the way | proved; the numbers of one report may be of different moments |
| C60 | machine with weak memory, simulation that inserts each read after the write it reads | proved; also exactly which orderings are needed |
| C61 | each family is a view of the public history; lemmas carry answers over | partial: as for one family (default route, C44) |
| C62 | machine with weak memory, with calls at any time and synchronisation between clients; bits as monotone contents of words | partial: the table that holds the nodes races with the orderings of the code (C58); the rest holds for all orderings |
| C63 | `twp` along the run: every selection that is stored is that of the records of a former moment | partial: selections can be stale without being marked so (defect 19); what is guaranteed is proved |
| C64 | the reading calls over an arbitrary function from scans to entries and errors | partial: failed reads are hidden, too short entries panic (defect 20); the rest is proved |
| C65 | creation as a program over a file system that answers each opening; paths as lists of names | partial: `try_default` can fail (defect 21); the rest is proved |
| C66 | the counters of C17 | proved |
| C67 | the answers of the `lsm_tree` crate at each step are given from outside | partial: a failed write is reported as success (defect 22) |
| C68 | record query with a conversion that may panic; bytes kept for each route | partial: false after a withdrawal (defect 23); `BeBytesAsn` is ordered wrongly |
| C69 | with relaxed orderings no increment is lost; a count is between what the thread was told of and what there is | proved |
| C70 | small-step runs with panics, simulation of C52; paths of calls to a lock (`Passes`) | partial: calls hang at a poisoned record map (defect 25); that panics change nothing else is proved |
| C71 | C37, C38, C53, C56 carried over the splitting of a run by family (C51), family-generic (`RunView`) | partial as C37 and C38 (defects there); restated in terms of public calls only |
| C72 | the program of the first n items is the whole iteration's program cut where the n-th item is given (`Prog.Cut`); what is left of the whole one only reads, so both runs go through the same states; then C71 | partial as C37 and C38 (through C71); `persist_prefixes_iter` in C73 |
| C73 | what a scan has gathered by the time it is at a key is, below this key, a table with a moment for each entry (`Gathered`, over `Prog.Reads`); keys are never removed | partial: `PersistOnly` without calls that mark a route active; completeness of iterations only without metadata (defect of C32); an answer need not be of one moment (`scan_torn`) |
| C74 | the queries over the function that looks up the records of a prefix (`gv*`); what one learns of a query from what it learns from each look-up (`Trip`, `Facts`), shared by the queries whose look-ups take several steps; then as C56 | partial: as C56 (more specifics while inserts make nodes below, `PersistOnly` activations); records of one prefix need not be of one moment (`scan_walk_torn`) |
| C75 | one match and two lists of prefixes for all options (`run_match_all`), carried over to the public interface | partial: `include_history` is ignored (defect 26); one id with withdrawn routes excluded (defect 6) |
| C76 | blocks form trees with levels (`TabInv`), each allocated block linked once or held by one call; every step keeps this (`RunInv.step`); drop by induction on the levels | partial: the epoch-managed block of each prefix is not freed (defect 16) |
| C77 | bit by bit (`getMsbD`), bytes as numbers; no restriction to arguments the store passes | partial: empty spans and shifts by 0 (below) |
| C78 | a call is a tree of table operations (`PtrProg`), `TabR` finds one for each call; simulation with at most one step on maps for each step on the heap (`PtrSim.step`) | proved |
| C79 | programs with the count and, beside it, the failed swaps of each stride (`Model/Retries`); equal to the other programs without the counts; facts about all answers (`Leaves`) | partial: the count is not the number of retries (defect 27) |
| C80 | a logic for bounds on the number of actions under an invariant of the state (`Prog.Bounded`), kept by every step of the others (`Bounded.exec`); one lemma per program | proved |
| C81 | where a merge can be is an invariant of every run (`MergingPtr`, `MergingPfx`) | partial: it need not return (defect 28) |
| C82 | each action keeps the entries to the prefixes of the calls (`keepsFor_call`); nodes by the invariant `Just`; ids of slots are injective (C36) | proved; changes of status of prefixes never inserted take room too (example) |
| C83 | a machine that keeps each thread's place among its calls simulates every run (`clients_asCalls`); then the theorems about calls apply | partial only as `contains` is: not for the default routes |
| C84 | what a report can say from the effect order of the calls (`run_report`), the calls of the tasks by C83 | partial: tasks with the same route can panic (defect 29); routes inserted again count as unique (defect 4), a new prefix can be counted by two tasks (defect 12) |
| C85 | the part of the invariant that queries read (`QInv`) holds of the sequential store and of the store after a run once every begun insert has returned: tree from C35's placement and justification of nodes, records and statuses from the effect order of C39; `contains` with a mui is left out, its answer depends on the order in which nodes were made (C02); for the store over both families, family by family | proved; not so while an insert is under way (`not_quiet_false`) |
| C86 | the check is a thread of C83 whose calls are C61's `get_records_for_prefix`; after the tasks the store is at rest, so C85 gives a history of active inserts | proved; with a store per file the check panics (defect 30) |
| C87 | bit by bit, with the lemma behind C22 | proved |
| C88 | C84's task alone, file after file; new prefixes of a concatenation add up; the counts of C49's store | partial: every route is counted as unique (defect 4), and with `--prime` no prefix, since what priming counts is dropped (`load_primed_fails`) |
| C89 | the lines are a history of inserts; the last one for a prefix is its only record; C49's list and count | partial: the default routes are counted but not listed (`shell_default_missing`) |
| C90 | C61's answers for the history of the lines | partial: no default routes, and the second pair of lists is not the first (`shell_numatch_differs`, from the defect of `more_specifics_from`) |
| C47, C50 | heap-level model, structural invariant, refinement to slots | proved |

## 4. Defects of the code found on the way

Each is a theorem with a witness (see the `Props` module named).

1. `update_withdrawn_muis_bmin` compares with the pointer it first read and never
   re-reads: after one lost race the call loops forever (Linear: `status_change_lost`).
2. `contains(p, Some(mui))` answers from a per-node set: false positives and, above
   a node boundary, false negatives (ContainsMui).
3. The zero-length prefix is only seen by record queries (Lookup, Iterate).
4. `routes_count` counts insert calls, `mui_new` is always true, in-memory route and
   persisted counts stay 0, `mui_count` is 1 for added records (Counts).
5. A status change for an unknown prefix creates an entry; the next one is accepted
   (Counts: `unknown_status_accepted`).
6. A query for one mui with withdrawn routes excluded ignores the global status
   (Records: `global_hides_false`).
7. `more_specifics_from`/`less_specifics_from` attach the searched prefix's records
   to every prefix (FromQueries).
8. `best_path` fails when a withdrawn record was best; the first insert stores no
   selection; the outdated flag stays set when the selection is unchanged
   (PathSelection).
9. `rewrite_header_for_record` drops the metadata (PersistOnly); a per-prefix
   activation persists a `Withdrawn` marker; `persist_prefixes_iter` loses records
   with metadata (Persist).
10. `is_mui_active` joins the families with `||` (Families).
11. A concurrent longest match can come back empty although a matching prefix is
    settled; an iteration can end early when a node is being created (Concurrent).
12. Concurrent inserts with path selection can return `PathSelectionOutdated`
    although the record was stored (Concurrent), and then the prefix is not counted;
    two overlapping inserts of a new prefix can both count it (ConcCounts).
13. With `PersistOnly`, marking a route active reads the record and rewrites its header
    in separate steps: an insert in between is undone, its metadata lost (Marks:
    `activation_undoes_insert`).  Withdrawals are not affected.
14. With `PersistHistory`, an insert whose path selection is refused (12) has replaced the
    old record but does not persist it: it is lost (ConcPersist:
    `persist_history_loses_record`).
15. With `PersistHistory`, a status change marks the record in memory first and writes its
    empty marker later; when an insert replaces and persists the marked record in between,
    the marker overwrites its metadata (ConcPersist: `persist_history_marker_overwrites`).
16. Blocks that were swapped out are never freed (no `defer_destroy` in the code): every
    `mark_mui_as_*` and every changed path selection leaks one block (Epoch:
    `epoch_leaks`).  An `Atomic` that is dropped does not free its last block either, so a
    dropped store leaks one block per family (not modelled) and one per prefix
    (`table_leaks`), and so does every `StoredPrefix` dropped by the loser of a race in
    `get_or_init`.
17. `OnceBox::get` loads with `Relaxed` and `get_or_init` publishes with
    `compare_exchange(…, Acquire, Relaxed)`: the writes that fill a box do not happen
    before its use by another thread, a data race and so undefined behaviour in every
    lookup next to an insert (Weak: `oncebox_publication_races`).  Loads and failing swaps
    have to acquire, succeeding swaps to release, and no less
    (`publication_race_free_iff`).  The orderings of the epoch pointers suffice (C60).
18. The in-memory and the total number of one count are of different moments, the in-memory
    one first: a report can show fewer prefixes in memory than in total although there never
    are (CountReads: `prefixes_count_no_snapshot`).
19. `upsert_prefix` marks the path selection outdated before it stores the record: a
    calculation in between stores the old selection and clears the mark, for good
    (ConcSelect: `invalidation_lost`).  A calculation that read the records before an insert
    can also store its selection over the newer one of the insert
    (`older_selection_wins`).

20. Errors of the disk are hidden: `records_for_prefix` answers a failed read as if there were
    no records (`disk_error_hidden`), `match_prefix` answers damaged entries of the prefix it
    has found with `EmptyMatch` (`disk_match_hides`), `mark_mui_as_active_for_prefix` reports
    success and does nothing (`disk_activate_silent`), `persist_prefixes_iter` ends early or
    skips (`disk_iteration_stops`, `disk_iteration_skips`).  An entry that is too short panics
    (`disk_get_records`).

21. `try_default` is documented as infallible and as using `MemoryOnly`; with the other
    configurations it opens directories below `/tmp/rotonda` and can fail
    (`try_default_can_fail`).  With an empty path the directories are below the root of the
    file system, not in the current directory (`new_empty_path`).
22. `flush_to_disk` drops the error of `flush_active_memtable` and reports success although
    nothing was written (`flush_success_fails`).  If IPv4 fails, IPv6 is not flushed at all
    (`flush_families`).

23. `PersistOnly` rewrites a withdrawn route without its metadata, and then hands no bytes to
    `From<Vec<u8>>` of the metadata type.  A conversion that accepts all that its type produces
    can panic there, as that of `PrefixAs` does (`conversion_panics`).  `BeBytesAsn` stores its
    number with the least significant byte first and orders it with the most significant byte
    first (`be_bytes_order_fails`).
24. The bit arrays of the nodes are read with `Relaxed`: the bits of a node may be seen in
    another order than they were set (`tree_bits_reordered`, C62).  So an iteration of a
    thread may miss a prefix that `contains` has reported to the same thread (iterations are
    not in the model with weak memory).
25. A panic of the user's code in `as_orderable`, `Ord` or `Clone` poisons the mutex of a record
    map.  From then on every call that needs the records of this prefix, reading or writing,
    tries for ever (`store_panic_hangs`, `store_poison_hangs`).  The comments say that nothing
    will be written then and that an error is given (`src/prefix_cht/cht.rs` 54-57,
    `src/tree_bitmap/mod.rs` 898-904), and `acquire_write_lock` returns a `FatalResult`, but the
    error is never made.  Ignoring the poisoning would be safe: the sections that run code of
    the user do not write (`store_panic_recovering`).
26. `MatchOptions::include_history` is documented to add the replaced records of the searched
    prefix, or of all prefixes, to the answer.  No code reads it: the records that
    `PersistHistory` and `WriteAhead` persist are in no answer of `match_prefix`
    (`options_history_fails`).
27. `UpsertReport::cas_count` is documented as the number of retries.  In `set_prefix_exists`
    (`src/tree_bitmap/mod.rs` 362-366, 386-390, 419) every stride adds the count so far to
    itself, so a retry in an early stride is counted 2, 4, … times: one retry of a host route is
    reported as 64 (`cas_count_overcounts`, `retries_reported_partial`).  The count is a `u32`:
    with four retries in the first stride of an IPv6 host route it overflows.  A release build
    then reports 0 (`cas_count_wraps`), a debug build panics (`cas_count_overflows`).  IPv4
    inserts are safe (`retry_counts_checked_v4`).
28. `merge_with` (`src/tree_bitmap/atomic_bitmap.rs` 34-52) binds a new `current` in the arm of the
    failed swap, so that the next swap compares with the old one again.  Once another thread has
    changed the bits between the load and the swap, it spins for ever (`merge_ptr_stuck`,
    `merge_livelock`).  The store does not suffer from it only because the nodes it stores have no
    bits yet (`new_nodes_empty`, `never_merges`).
29. An insert reports a new prefix with an old mui when another one for the same prefix and mui has
    stored its record after the first had set the bit of the prefix.  The loader takes this to be
    impossible and panics with "THIS DOESN'T MEAN ANYTHING!" (`src/bin/load_mrt.rs` 135 and 310;
    Loader: `loader_panics`).  With `PersistHistory` it lists nothing for its check of what was
    persisted (`loader_mt_tasks_partial`), since `mui_new` is always true outside of such races.
30. With `--verify` and a store per file (no `--single-store`) the loader lists the persisted prefixes
    of all files but asks the store of the last file only, and unwraps the answer: it panics when a
    prefix is not in that store (`src/bin/load_mrt.rs` 589-597; LoadVerify:
    `verify_last_store_panics`).  The message "Found empty prefix on disk" (598-602) is never given:
    the answer is `None` when there is nothing to show, which is unwrapped before (`load_verify`).

Smaller things, noticed while reading: `include_withdrawn` is documented as unused but is
used; `CreatedNodes::add` takes its receiver by value and has no effect; there are `println!`s
in library code (`src/rib/starcast_af_query.rs`, `src/rib/starcast_af.rs`);
`checked_shl_or_zero` by 0 gives 0 for IPv4 and the number itself for IPv6 (unused;
`shl_or_zero_partial`), `checked_shr_or_zero` by 0 gives 0 (`shr_or_zero_partial`);
`into_bit_span` of length 0 returns all remaining bits (`span_empty_wrong`); `add_bit_span` of
nothing to 0/0 panics (`add_span_panics`); `truncate_to_len` beyond the width wraps around
(`truncate_beyond`); `PrefixId` from bytes of a size other than 5 (17) panics although a comment
says that only sizes up to 1 do (`id_bytes_read`);
`prefixes_iter` creates the iterators of both families before the first item is asked for.

## 5. Testing the theorems

`seeded/LOG.jsonl` records edits of the model in the manner of realistic bugs, made
in a scratch copy, with the theorems that fail to build and those tightened because
they did not.
