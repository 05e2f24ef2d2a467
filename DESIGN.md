# A machine-checked model of OrioleDB

`properties.jsonl` lists the claims, `lean/Verif/` holds the model and proofs,
`MANIFEST.json` ties the two together, `seeded/LOG.jsonl` records the mutation
attempts.

## 1. Method

* The C code in `/repo` is modelled **by hand**, function by function, as total
  Lean 4 functions.  Every definition cites the file and lines it models; each
  simplification is stated in the same comment.
* Subsystems are modelled independently, each in its own directory:
  `Model.lean` (the code), `Spec.lean` where the specification is not a
  one-liner, `Lemmas.lean` (proof engineering) and `Props.lean` (the property
  theorems, each with a concrete non-trivial instance of its hypotheses next to
  it).
* Concurrency is modelled as interleavings of the code's atomic steps under
  sequential consistency (a transition relation or a `step` function over
  per-process program counters; theorems quantify over every reachable state).
* C undefined behaviour or failed assertions are represented by a distinct
  outcome (`none`/`Except.error`/an `ub` constructor), never by a default value.
* If the code violates a property, the negation is proved from a concrete
  witness (`*_violated`), what does hold is proved under suffix `_partial`, and the
  disagreement is described in section 5.

## 2. Trusted base

* The Lean 4.33.0 kernel.  No axiom is added; no `sorry`, `native_decide`,
  `bv_decide`.  Theorems depend on at most `propext`, `Classical.choice`,
  `Quot.sound`.
* The faithfulness of the hand translation of the functions cited in the model.
* Integers: offsets/locations are `Nat`; 64-bit wrap-around of counters that
  increase monotonically (undo locations, oxids, CSNs, WAL positions) is not
  modelled.  16/32-bit fields whose width matters for the property are bounded
  explicitly.
* Memory model: sequential consistency (the C code uses `pg_atomic_*` full
  barriers and explicit `pg_memory_barrier()` at the modelled points).
* PostgreSQL itself (LWLocks, semaphores, files, `memcpy`), compiler and
  hardware.

## 3. Properties: model and proof plan

| Id | Model | Proof |
|----|-------|-------|
| C01 | byte-level encoder of all record kinds (`wal.c`) and byte-level parser (`wal_reader.c`) | round trip by induction over record lists, cursor-passing parser combinators |
| C02 | same parser on an arbitrary list of bytes, reads past the end are an explicit error | parser factors through the prefix: result independent of trailing bytes, termination by measure |
| C03 | encoder parametrised by version | round trip for every version with defaulted fields |
| C04 | `LocalWal` state machine | invariant over op lists; violated by the "no material changes" exit, partial otherwise |
| C05 | same | invariant `offset + reserve ≤ 8192` |
| C06 | same machine composed with the reader | refinement: decoded row changes = issued row changes |
| C07, C08 | two ordered trees of extents | invariant by induction over operations; multiset/cover conservation |
| C09 | double page buffer over an abstract file | refinement to a list |
| C10, C36 | ring of words with three positions | refinement to a queue; wrap-around violation by witness |
| C11 | counters of the shared and the local pool | conservation invariant; violation of the local error path by witness |
| C12 | tree of counters with branching 15 | invariant: every level nibble ≠ 0 iff a child has it |
| C13, C14 | lock word + wait list, interleavings | inductive invariant, unlock loop with CAS retry |
| C15 | change count seqlock | invariant relating copied bytes and change count |
| C16, C17 | byte-level tuple forming/reading | closed form of the bytes of a row, induction on the attribute list; offset cache coherence as invariant; counterexample for C17 from 32768 bytes on |
| C18, C47 | bitmap allocator, stack of ids of every process | invariant: each set bit has exactly one owner; reuse by running the code to the end; counterexample for the ids of ending subtransactions |
| C19 | ring, buffered files with cache and disk, any number of sessions, one access per step | inductive invariant; every look-up and change takes effect between call and return; failing cases by witness |
| C20 | same | same invariant: a session that will carry the mark on; failing case by witness |
| C51 | the same state, the flush of all pages of a range and the sync of the files | induction over pages; failing case by witness |
| C21, C22 | commit numbers, statuses with the mark, `runXmin`, `globalXmin`, published `xmin`s, snapshots; any number of sessions | inductive invariant over interleavings; failing cases by witness |
| C49 | the same, and aborts | same invariant: changes of an unfinished or aborted transaction are not below `runXmin`; failing case by witness |
| C50 | the same, and resets of `xmin` | same invariant; failing case by witness |
| C23, C52 | the undo ring: reservation, allocation, minimal locations, eviction; any number of processes, a step per access to shared memory | inductive invariant over all interleavings |
| C53 | the same, and readers and writers, byte by byte, with the file behind the ring | same invariant, and contents of ring and file; failing cases by witness |
| C54 | the same, and group insertion | same invariant; failing case by witness |
| C55, C58 | ring with dirty bits, file buffers, disk; records, changes in place, eviction, checkpoint flush | inductive invariant over all interleavings; failing cases by witness |
| C149 | VACUUM removes the right bridge entries | refinement, for all lists of leaves and TIDs |
| C147 | Row identifiers ascend and are not given twice | invariant over all interleavings of atomic operations |
| C148 | No INSERT fails because of identifiers for bridged indexes | invariant over runs; failing case by witness and for all states |
| C145 | VACUUM of bridged indexes is complete and exact | invariant of the collection; induction over the entries and the rounds |
| C146 | VACUUM leaves no pointer to a removed bridge entry | invariant over all prefixes of the steps |
| C143 | Check of the blocks of a data file | equivalence with the cover of the file; induction over the merge of the two sorted lists |
| C144 | Check of the order of free extents | equivalence with the order of all pairs; induction over the list |
| C142 | Order of enum values in recovery | invariant over the history of the catalog; induction over the sorted items; failing cases by witness |
| C141 | Index scans that skip leading columns | induction over columns and over the rows left; failing cases by witness |
| C138–C140 | Index scans with row comparisons and arrays | induction over members, arrays and positions; uniqueness of sorted lists; failing cases by witness |
| C133–C137 | System caches: order of keys, versions, the fast cache, removal of dropped entries, copies for a new database | induction over columns; inductive invariants of all sequences of operations; failing cases by witness |
| C129–C132 | Cache of S3 headers: lock-free reads and swaps, replacement, sync, unlink | inductive invariant of all interleavings, against an array; failing cases by witness, one for all continuations |
| C125–C128 | Lock file and control file of an S3 bucket, any number of instances | invariant of all interleavings; failing cases by witness and for all continuations |
| C120–C124 | Records of tables and indexes in the system trees, read by the same and by another PostgreSQL major version, whole and truncated, and rewritten | round trips over bytes for all layouts; readers do not look ahead; failing cases for all inputs and by witness |
| C115–C119 | Backups of PGDATA in S3 mode: packs of small files, lists of checksums as text, tasks of the workers, what the loader restores after a series of backups | round trips over bytes; invariant of all interleavings of the workers; induction over backups; failing cases by witness |
| C105–C114 | Rewind: the queue of committed transactions (two ring buffers and a file), the reading of it by a rewind, targets, checkpoints, order of commits, undo kept for it, stopping the worker | invariant of all interleavings; induction over the items; failing cases by witness |
| C97–C104 | Data files in S3 mode: the word of a part, the protocol of locks, downloads, uploads and evictions, the arithmetic of parts, the list of parts to upload, the removal of files | bit-vector equalities; invariants of the interleavings; arithmetic; failing cases by witness |
| C92–C96 | Sequential scans: walk over level 1, distribution of leaves to participants, range filter, merge with historical images, shared array | the ranges read and those to be read cover each key once (counting invariant); invariants of the interleavings; the merge against a description by keys; failing cases by witness |
| C84–C91 | CREATE INDEX CONCURRENTLY: capture of changes, spool files and their merge, drain, covering pass, check of duplicates, directory | the merge as a relation, refined by the reader; an invariant of the interleavings per key (table, undo stacks, entries not yet written, files); failing cases by witness |
| C81–C83 | the startup process and the workers of recovery: buffers, queues, `recovery_ptr`, `commitPtr`, `finished_list` | invariant of the interleavings (what each position says about messages not taken); possible runs for progress; failing case of C82 by witness |
| C79, C80 | replay over the image of a checkpoint: one row of a primary index, its version chain, the undo stacks from the checkpoint and from the replay, conflicts | relation between the chain on the primary and in the replay, first while the image is ahead of the log, then after; induction over histories; failing cases by witness |
| C77, C78 | replay of data and savepoint records, version chains of rows and index entries | relation between the levels of each transaction and the chains, by induction over histories of any number of transactions; failing cases by witness |
| C75, C76 | choosing what to compress and move, chunks in the TOAST tree, replacing values | refinement of a table without TOAST by induction over statements; termination measures of the loops; failing cases by witness |
| C73, C74 | layout of secondary indexes, `aminsert`, `amupdate`, `amdelete`, what is compared | invariant (each index is a permutation of the entries of the rows) by induction over statements; failing cases by witness |
| C72 | iterator over leaf pages and their images, forward, with other transactions in between | invariant of the tree (all rows of an image wider than the page) and of the iterator; induction over interleavings; termination by a measure; the failing case by witness |
| C71 | version chains, leaf pages with page-level undo images, look-ups | invariant per row over the live page and all its images; induction over runs; the failing cases by witness |
| C69, C70 | the bytes of a page: header, chunk descriptors, keys, item arrays, items | representation relation between memory and a list of chunks, kept by each operation; induction over runs; the failing case of marks by witness |
| C65 - C67 | search in pages and trees, with comparators and with the fast path; scans forward and backward | binary search against ordered lists, induction over the tree; agreement of both searches page by page; failing cases by witness |
| C68 | bounds made of conditions | case analysis of merging bounds |
| C59 - C64 | pages with items and sizes, splits, compactions, merges, waiters, rollback; build of an index | arithmetic of room, inductive invariant over all runs of operations on a level, refinement to rows; induction over the build; failing cases by witness |
| C24, C56, C57 | the undo stack as a linked list in a log, savepoints, branches | refinement to lists of changes per savepoint; failing case of C24 by witness |
| C25 | the same model as C23 with snapshots | same invariant; failing case by witness |
| C26, C27 | chunk map of 1024-bit bitmaps | refinement to a set of naturals |
| C39 | encodings of key columns, composite keys | each code is an order embedding; induction over columns; counterexample for large block numbers |
| C40 | column layout of secondary indexes | positions of primary key fields by induction over the fields; counterexamples |
| C41 | callbacks of the tree scan over C27's bitmap | range and next queries with C39's order; counterexample for the largest key |
| C42 | direct access to one column | same invariant as C16; counterexamples for columns added later |
| C43 | size check | from C17; counterexample for rows whose length wraps |
| C44, C45 | changing version and identifier in place | closed form of the tuple for both formats |
| C46 | savepoint records and their decoding | ghost owner of each id, induction over operations; counterexample with a reused id |
| C28 | processes reading and writing through groups of buffers, one step per lock taken | invariant: block in a free buffer, being written back, or on disk; each byte's value at a moment within the call; counterexamples for `mark_clean` and for missing files |
| C29, C48 | wiping, unlinking and punching in the cleanup functions | arithmetic of the ranges; induction over cleanups; counterexample for a position in a file's last block |
| C30, C31 | the chain of headers of a row: locks, changes, removal of locks, rollback | invariant of runs relating the chain to a log of granted requests; failing cases by witness |
| C32 | bytes of the file of deferred drops, whatever is on the stack | file shorter than its recorded end for all sequences of drops, so every replay is fatal |
| C33 | chunk loop writing undo records, callback of all stages | induction over the loop |
| C34 | `LocalWal` machine | same invariant: required events are a subsequence of delivered ones |
| C37 | same machine as C13, with counts of wake-ups received and used | balance invariant; violations by witness |
| C38 | same machine | invariant of the waiting points; violation by witness |
| C35 | drain loop over per-checkpoint files | induction over files; violation by witness |

None of the listed properties is inexpressible.

## 4. Parts of the code modelled

* **WAL** (`lean/Verif/Wal`): all record layouts of `include/recovery/wal.h`, the
  writer `src/recovery/wal.c` (local buffer, flush decisions, XID / RELATION /
  RELREPLIDENT insertion, commit, rollback, joint commit, autonomous
  transactions) and the reader `src/recovery/wal_reader.c`.  Not modelled: the
  application of records by recovery and logical decoding, publication of the
  commit position in shared memory, IS_DEV-only checks, PostgreSQL's own WAL.

* **Free extents** (`lean/Verif/Extents`): `src/catalog/free_extents.c`.  Every tree
  operation of `get_extent`/`free_extent` is one atomic step of a process; any
  number of processes interleave.  The ordered trees are sets, searches say which
  entry an ordered search finds; the page walk of `get_extent` is one atomic
  search.  Also `foreach_free_extent` (16-bit pieces), the backend-local list of
  temporary trees and `add_free_extents_from_tmp`.  Not modelled: device files, S3
  mode, crash recovery of the two trees, uncompressed trees' block lists.
* **Sequential buffer** (`lean/Verif/SeqBuf`): `src/utils/seq_buf.c`, writer and reader.
  The part of `seq_buf_rw`/`seq_buf_switch_page` under the spinlock is one step, the
  page I/O of the process that switched (`seq_buf_finish_prev_page`) is another one,
  eviction (`seq_buf_finalize`) and reload (`init_seq_buf` with an offset) a third;
  all schedules are covered.  `pwrite`/`pread` are complete (no short writes, no I/O
  errors).  The file starts empty.  Not modelled: `seq_buf_try_replace`, temporary
  files, page pool allocation of the two pages.
* **S3 queue** (`lean/Verif/S3Queue`): `src/s3/queue.c` in units of 4-byte words, with
  physical ring positions, two-piece copies, length words and the erased flag.
  Steps: reservation, body and length store, pick, get, erase (body and flag), one
  iteration of the erasing loop (whole, or split between compare-and-swap and length
  store).  Assumed: workers get/erase only tasks they picked, once (worker.c:990-1001).
  Not modelled: latches and condition variables, S3 requests, worker restart.
* **Usage count map** (`lean/Verif/Ucm`): `src/utils/ucm.c`: layout, initialisation,
  `ucm_inc` as a climb of one compare-and-exchange per word by any number of
  processes, and the two searches.  A word is a function from levels to counters
  instead of a packed `uint32`.  Which level a caller picks is left open.  Searches
  run on a fixed map.  Not modelled: `usageCounter` sampling, `ucm_check_map`,
  `ucm_epoch_needs_shift`; that waiting updates always make progress is not claimed.
* **Page pools** (`lean/Verif/PagePool`): reservation, release, allocation and freeing of
  `src/utils/page_pool.c` for the shared pool (interleavings of atomic steps) and the
  local pool (32-bit counter, slot search).  Maintenance only appears as the pages it
  frees.  Not modelled: dirty page counts, page contents.
* **Page state word, page locks and unlocked reads** — `Verif/PageState/*`.
  `src/btree/page_state.c` lines 128-407 (`lock_page_or_queue`,
  `lock_page_or_queue_or_split_detect`, `read_enabled_or_queue`,
  `state_changed_or_queue`), 411-464 (`lock_page`), 468-525
  (`try_lock_page_and_check`), 537-634 (`lock_page_with_tuple`), 638-675, 677-725,
  756-777 (`try_lock_page`), 813-858 (`page_block_reads`), 862-908
  (`get_waiters_with_tuples`, `mark_waiter_tuples_inserted`), 1000-1218
  (`unlock_page_internal` with its compare-and-exchange retry); the macros of
  `include/btree/page_state.h` as bit operations on 64-bit words (`Bits.lean`, related
  to the record `Word` used elsewhere by `enc_inj`, `set_*`, `get_*`, `unl_bits`);
  `try_copy_page` (`page_contents.c` 153-205) and chunk loading (`page_chunks.c` 40-180)
  as copies of single words between two reads of the state.
  Any number of backends and pages; one atomic step per shared-memory access (a wait
  list node per step, single stores to `lockerStates`), sequentially consistent memory.
  Simplified: page contents are numbered words, and a write is possible only by a
  backend that holds the page with reads blocked (that callers do so is not shown);
  the decisions of an insert waiter that depend on the page image
  (split detected, right sibling, which waiters' tuples are inserted) are arbitrary;
  the usage count written by `ucm_*` is arbitrary.  Not modelled: error recovery
  (`release_all_page_locks`, called by the abort path with no wait in progress),
  `relock_page` beyond the wait, weak memory ordering.
### Key bitmaps (`Verif/KeyBitmap`)

Models src/tableam/key_bitmap.c in both modes: insert, test, emit, is-empty, union,
intersect, finalize with the sorted array, the binary searches, range and next queries.
Not modelled: the radix tree of include/lib/o_radixtree.h (an ordered association list
stands for it: find, set, delete and ascending iteration), memory allocation and its
failure, the iterator objects.  Use of a null pointer and access outside an array are
outcomes of the model (`none`, `Res.crash`) and are proved not to happen.
The specification (`KeyBitmap/Spec.lean`) is about sets of keys only.
The same directory models the part of src/tableam/bitmap_scan.c that turns primary keys
into bitmap keys and back (`PkModel.lean`; lines 149-212, 265-698), the two callbacks of
the tree scan (1802-1945), and the column layout of secondary indexes
(src/catalog/o_indices.c:342-357, 465-606).  A `Datum` is a 64-bit number or a pointer to
bytes; following a number, using a pointer as a number, reading too few bytes and writing
outside the 24-byte buffer are the outcome `undef`.  `PkSpec.lean` states the values and
the order of the sixteen PostgreSQL types independently (IEEE 754 values of floats, NaN
greatest).  Not modelled: forming and reading tuples, the choice between bitmap and
other scans, the tree scan that calls the callbacks, opclasses other than the default
ones.
### Tuples (`Verif/Tuple`)

* Modelled byte by byte: `o_new_tuple_size`, `o_tuple_compute_data_size`, `o_tuple_fill`,
  `o_form_tuple`, `o_tuple_init_reader`, `o_tuple_read_next_field`, `o_tuple_next_field_offset`,
  `o_toast_nocachegetattr`, `o_fastgetattr`, `o_tuple_size`, `o_tuple_get_version`,
  `o_tuple_set_version`, `o_tuple_set_ctid`, `o_tuple_get_last_iptr`, the fixed format
  specification (`o_indices.c:1169-1192`) and the size check.  The offset cache of the
  descriptor is shared state that all reads use and change.
* Undefined outcomes: reading outside the tuple's memory, writing outside the allocated
  size, wrong kind of datum.
* Not modelled: fetching values that are stored out of line before forming (`DatumOK` asks
  for values that are not), compression, memory contexts, the conversion of toast pointers
  back into values.
* `DatumOK` excludes strings (length -2) beginning with byte 1, which would be taken for toast
  pointers (`format.c:99-103`); no column type has this length.
### Logical transaction ids (`Verif/LogicalXid`)

* Modelled: `acquire_logical_xid` with one step per atomic operation,
  `release_logical_xid`, the callers (`get_current_oxid`, `ensure_current_logical_xid`,
  `assign_subtransaction_logical_xid`, `oxid_subxact_callback`,
  `release_assigned_logical_xids`, start and end of autonomous transactions) for any
  number of processes; `RecentXmin` is arbitrary at each acquisition.
* Simplified: errors other than a full map leave the functions at no other place;
  `RecoveryInProgress()` is false.
* `Decode.lean`: one transaction without a heap id; attribution of records to ids by the
  local WAL buffer's `contains_xid` and by the reader; `ReorderBufferAssignChild`,
  `ReorderBufferQueueChange` and `ReorderBufferAbort` of PostgreSQL are assumed to keep
  changes per id and to throw away those of one id.  What is sent at commit is not
  modelled.
### Buffered files (`Verif/OBuffers`)

* Modelled: `o_buffers_rw` with `get_buffer` (both scans, victim choice by usage count,
  shadow blocks, write-back, load, invalidation on a missing file), `o_buffers_flush`;
  any number of processes, interleaved where locks are taken.  In `Cleanup.lean`:
  `o_buffers_wipe`, `o_buffers_unlink_blocks_range`, `unlink_unretained_o_buffers`, running
  alone.
* Not modelled: `o_buffers_write_page_direct`, the file descriptor a process keeps open,
  I/O errors, `fsync`.
### Trees of relations (`Verif/Relnode`)

* Modelled: `add_undo_relnode` with its three callers, `memcpy` outside of a record as
  undefined behaviour; `btree_relnode_undo_callback`, what it does to trees at the three
  stages; `add_pending_truncate` and `check_pending_truncates` on the bytes of the file.
* Not modelled: locks, invalidation, bridge markers, checkpoint numbers, errors of the
  file system; the bytes behind the parameter `trees` are any bytes.
### Statuses of transactions (`Verif/OxidMap`)

* Modelled: `get_current_oxid`, `set_oxid_csn`, `map_oxid`, `advance_run_xmin`,
  `write_xidsmap`, the freezing part of `advance_global_xmin`, `flush_dirty_xidsmap_range`
  for one page at a time, the dirty bits; the buffered files as an array with a write-back
  cache (clean and dirty pages, eviction, `mark_clean`, `o_buffers_write_page_direct` in two
  steps).  Any number of sessions, any interleaving of single accesses.
* Simplified: sequentially consistent memory; the checkpointer's copy of the slots of a page
  is one step; the lower bounds that `advance_global_xmin` takes the minimum of are any
  number up to `runXmin`.
* Not modelled: recovery (`advance_oxids`), `commitPtr`, rewind's flag, 64-bit limits, WAL.
### Checkpoint of the statuses (`Verif/OxidMap/Checkpoint`)

* Modelled: `flush_dirty_xidsmap_range`, `fsync_xidmap_range`, `o_buffers_sync` on the state
  of `Verif/OxidMap`, run without interruption.
* Assumed: dirty marks are right before the flush (`Marked`: what differs between ring, cache
  and disk is marked dirty).
* Not modelled: batches under the lock and what may happen between them, `fsync` itself.
### Snapshots (`Verif/Snapshots`)

* Modelled: `get_current_oxid`, `current_oxid_precommit`, taking the commit number,
  `current_oxid_commit`, the abort of plain and autonomous transactions,
  `advance_run_xmin`, `advance_global_xmin` (its scan of the processes, one at a time),
  `orioledb_snapshot_hook` (step by step), registering and dropping snapshots,
  `orioledb_reset_xmin_hook`, the loop of `oxid_match_snapshot` and the check of
  `o_find_tuple_version`.
* Steps are accesses to shared memory; sessions interleave in any way.
* Simplified: a look-up in the map of statuses is one step (`Verif/OxidMap` has the ring, the
  cache and the files); a change is a number in a set per transaction, rows and undo chains are
  left out; the three undo locations of a snapshot are read at once.  Memory order is taken
  to be sequentially consistent.
* PostgreSQL's pairing heap is left open in the runs (any snapshot with the smallest location
  may be on top); `tie_top` shows what PostgreSQL's would do in the failing case.
* Not modelled: the session's own changes, `xlogptr` snapshots of recovery, the bound for
  rewind.
### The undo log (`Verif/UndoLog`)

* Modelled: `reserve_undo_size_extended`, `release_undo_size`, `steal_reserved_undo_size`,
  `giveup_reserved_undo_size`, `get_undo_record`, `set_my_reserved_location`,
  `release_reserved_undo_location`, `update_min_undo_locations` (its scan, one access at a
  time), `evict_undo_to_disk` with `wait_for_reserved_location` and its copy byte by byte,
  `set_my_snapshot_retain_location`, `clear_my_snapshot_retain_location`,
  `orioledb_reset_xmin_hook` for undo locations, `add_new_undo_stack_item_to_process`,
  `undo_write_internal`, `undo_read`, the decision of the background writer.
* One undo log, any number of processes, any interleaving of accesses to shared memory, which
  is taken to be sequentially consistent.  Copies go byte by byte.
* The file behind the ring is a map from locations to bytes (what `o_buffers` does is
  `Verif/OBuffers`).  Bytes below `cleanedLocation` may disappear at any time.
* Simplified: the targets of the background writer are arbitrary; snapshots that are active are
  not told from registered ones; loops that only wait (`wait_for_even_*`,
  `check_reserved_undo_location`) are steps that do nothing until the condition holds.
  A read or a write is allowed when the location is covered by what the process's transaction or
  one of its snapshots retains, and the record is complete.
* Not modelled: `enable_rewind` and its retained range, `checkpointRetainStartLocation` and
  `checkpointRetainEndLocation`, recovery's own retained locations, several undo types at
  once, the checkpoint's flush of undo.
### The undo stack (`Verif/UndoStack`)

* Modelled: `add_new_undo_stack_item`, `add_new_undo_stack_item_to_process`,
  `add_subxact_undo_item`, `search_for_undo_sub_location` (kind `UndoStackFull`),
  `rollback_to_savepoint`, `update_subxact_undo_location_on_commit`, `walk_undo_range`,
  `walk_undo_stack`, `o_add_branch_undo_item`, `apply_undo_branches`, `precommit_undo_stack`,
  `on_commit_undo_stack`, `apply_undo_stack`, `undo_subxact_callback`, and of
  `undo_xact_callback` what concerns the undo stack.
* One process and one undo log; the loops over logs do the same for each.  Undo in other logs
  matters only through `have_retained_undo_location` and is an event of its own.
* Taken from PostgreSQL: subtransaction ids grow, the top transaction has id 1, subtransactions
  end innermost first, `ROLLBACK TO` aborts the subtransactions down to the savepoint and starts
  a new one.
* A missing item, an item read as one of another kind, the FATAL error and a walk that does not
  end are outcomes of their own; C56 shows none is reached.
* Not modelled: what callbacks do and errors inside them, WAL, autonomous transactions' own
  stacks, page-level undo (never rolled back to savepoints), the use by recovery of the kinds
  `UndoStackHead` and `UndoStackTail`, concurrent flushing of the locations to a checkpoint.
### Row locks and row changes (`Verif/RowLocks`)

* Modelled, from `btree/undo.c`: `row_lock_conflicts`, `clean_chain_has_locks_flag`,
  `remove_redundant_row_locks`, `find_non_lock_only_undo_record`, `page_item_rollback`
  (`wholeChain` false), `modify_undo_callback`, `lock_undo_callback`, and the header part of
  `make_undo_record`; from `btree/modify.c`: one pass of `o_btree_modify_internal` with
  `o_btree_modify_handle_conflicts`, `_insert_update`, `_delete`, `_lock`, `_add_undo_record`,
  `_item_rollback`'s decision, on one row.
* One row of one primary index.  Requests, commits, single undo steps and ends of rollbacks of
  any number of transactions happen in any order; each is one step because it is done under the
  page lock.  A rollback undoes newest first and marks the transaction aborted afterwards.
* Undo records are never discarded, there are no savepoints, a tuple is a number.
* `COMMITSEQNO_INPROGRESS` is defined in PostgreSQL headers that are not part of the repository;
  the parameter `ipLow` says whether it compares below ordinary numbers, and theorems are about
  both values.
* The promises (`Spec.lean`) speak only of a log of granted requests: `Log.ok` (C30) and
  `Log.contains` (C31).
* A run is regular if no request meets two adjacent locks of ended transactions and, with
  `ipLow`, no transaction follows a change of the row by a change of lower mode.
* Not modelled: waiting itself, retries after page changes, the insert of a tuple over the own
  deletion without undo (`pk_needs_undo`), recovery, bridge indexes, TOAST, `wholeChain` rollback
  of aborted transactions' rows found later.
### The flush of the undo log (`Verif/UndoFlush`)

* Modelled: `mark_undo_range_dirty`, a turn of `get_undo_record`, `undo_write_internal`,
  `undo_read`, a page of `evict_undo_to_disk`, `fsync_undo_range`, `flush_dirty_undo_range`,
  `o_buffers_sync`, and of `o_buffers.c` the dirty marks of buffers
  (`o_buffers_rw`, `o_buffers_write_page_direct`, `o_buffers_flush`, replacement).
* One undo log, one number per location, any page and ring size.  Records are made and changed,
  pages evicted, buffers written back or dropped and the flush advanced in any order.
* Taken from the model of the undo log (C23, C52, C53): the ring has room for a record that is
  made; eviction waits for the records below its target; nothing retained is given up.  The flush
  waits for the records below its end and retains its beginning.
* A change in place is one step; in the code the store comes before the dirty mark, and the flush
  waits for reserved locations only, so a change between store and mark is left out here (the
  comment at `undo.c:1818-1820` says such losses are tolerated).
* `writtenLocation` is raised page by page.  `o_buffers_sync` goes through the pages in order.
* A run is calm if no record comes to lie in the page of the ring where the last eviction
  stopped, one turn later, and no change in place goes to the evicted part of that page.
* Not modelled: `fsync` itself, the upload to S3, the retained range recorded in the control file.
### Room on B-tree pages (`Verif/PageSplit`)

* Modelled: `page_locator_fits_item`, `page_get_vacated_skip_item`, `make_split_items`,
  `split_items_fit_single_page`, `btree_page_split_find_location`, `btree_page_split_location`,
  `perform_page_split`, `perform_page_compaction`, `btree_page_reorg` (sizes, chunk boundaries, its
  error), the insertion and replacement of `o_btree_insert_item_no_waiters`,
  `merge_waited_tuples`, `tuple_waiters_check_hikey` and both paths of
  `o_btree_insert_item_with_waiters`, `can_be_merged`, `merge_pages`, `page_item_rollback`, and the
  build of an index (`btree_write_index_data`, `put_item_to_stack`, `stack_page_split`).
* A page has chunks of items; an item has a row and the bytes it takes; a row has a tuple (key,
  length, length of its key), a mark whether it is deleted, and its chain of headers.  Bytes are
  not modelled here, only their numbers.  Keys are natural numbers.
* Decisions in floating point, statistics and places of chunk boundaries are left open: the theorems
  hold for every choice.  The search within a page and the descent are taken as finding the place of
  a key (`lower`, `pageFor`).  Page locks make an operation on a page one step; transactions may
  finish between the estimate and the collection of items.
* Row locks have no modes here (C30, C31 are about them): `canChange`, `canDelete`, `canLock` are
  what the level needs to know.
* The model of the level has leaf pages only; for internal pages there is a theorem about a page.
* Left out: undo images of pages, links between pages, the downlink of a new page (an insertion one
  level up, covered by the theorem about pages), `page_cut_first_key` as bytes, header and file of the
  index that is built.
### Search in B-trees (`Verif/Fastpath`)

* Modelled: the comparators (`o_idx_cmp`, `o_idx_cmp_tuples`, `o_idx_cmp_key_bound_to_tuple`,
  `o_idx_cmp_range_key_to_value`, `o_idx_cmp_value_bounds`), the search in a page
  (`btree_page_search`, `page_find_downlink`, `page_find_item`), the fast path
  (`can_fastpath_find_downlink`, `find_downlink_get_keys`, `fastpath_find_chunk`,
  `fastpath_find_downlink`, the array searches), the descent of `find_page`, bounds made of
  conditions (`o_key_data_to_key_range`, `o_fill_key_bounds`), look-up of a single row, forward and
  backward scan with `is_tuple_valid`.
* Trees have any height and are at rest: no concurrent change, no page being split, one version of
  each row.  Pages are chunks of items with the upper ends of chunks; their bytes are not modelled.
* `TreeWf`: each page is ordered, its keys and chunk ends are between its ends, and so is what is
  below a downlink; `TreeNoNan`: no NaN in it.
* Values are those of the types of the fast path: integers, oids, `tid`, floating point numbers in
  order, NaN.  Comparisons of PostgreSQL for these types are taken as they are documented.
* Left out: arrays (`= ANY`), row comparisons, the skip scan of PostgreSQL 18, exclusion
  constraints, keys of other types (there the fast path is off and the regular search works on any
  order), other kinds of iterators.
### Bytes of B-tree pages (`Verif/PageChunks`)

* Modelled on memory (a function from addresses to 2-byte words): `init_page_first_chunk`,
  `page_chunk_fill_locator`, `page_locator_get_item_size`, `page_locator_insert_item`,
  `page_locator_resize_item`, `page_locator_delete_item`, `page_merge_chunks`, `page_split_chunk`,
  `page_split_chunk_if_needed`, `btree_page_reorg`, writing of items by `o_btree_insert_item` and
  `page_item_rollback`, cutting the first key of an internal page (`page_cut_first_key`); copies are
  loops in the direction the code takes.  Locations are in the units of the code, with the wrap of
  their bit fields.
* The address of a page is a multiple of 8, all sizes are even; items are lists of words.
* A run (`RunOk`) asks of an operation what its callers check: the place exists, the item fits
  (`page_locator_fits_item`), its size is aligned.  Where a chunk is split and where a
  reorganization begins a new chunk is left open (the code computes floating-point scores), within
  the checks that follow.
* Left out: `maxKeyLen`, `prevInsertOffset`, `nVacated`, undo locations and other header fields
  that do not tell where items are; readers that copy a page while it is changed.
### Look-ups in a snapshot (`Verif/Visible`)

* Modelled: `o_find_tuple_version`, `o_btree_find_tuple_by_key_cb`, `fetch_our_tuple_from_page`,
  `read_page_from_undo` with `get_page_from_undo` (full, split, merge and differential images), the
  choice between a full image, a differential image and none in splits, merges and compactions, the
  rows these drop, what a change, a key-share lock and a rollback do to a version chain.
* `csn` numbers are drawn from one counter by commits and page operations, as in the code.
* Taken as given: images and undo records a snapshot needs are kept (see `Verif/UndoLog` and `Verif/Snapshots`);
  `fin` (oxids below are finished for everybody) and `free` (the undo log has let an image go) are
  chosen by the environment, `free` only if no snapshot in use needs the image.
* Simplified: the only row lock is the key-share lock; a rollback is one step; an inserted row that
  causes a split is inserted by the next step; rolled-back records stay in the images (in the code
  a record removed from the middle of a chain disappears from images too).
* Left out: call-backs (system trees), snapshots of logical decoding, the bytes of pages.
### Range scans in a snapshot (`Verif/Visible/Scan.lean`)

* Modelled, on top of the look-ups above: the iterator going forward (`o_btree_iterator_create`,
  the loop of `o_btree_iterator_fetch_internal` without `combinedPage`, the checks of the end,
  the step to the next page, `iterator_refind_partial_leaf`).  Steps of other transactions and page
  operations may come between any two turns of the loop.
* Taken as given: reading a page in parts gives rows of one state of the page, or the position is
  found again (`partial_load_chunk`).
* Simplified: the step to the next page is a search by the high key (the code first tries the
  downlink next to the one it came from).  Finding the position again is possible at any moment.
* Left out: backward scans, readers with changes of their own (`combinedResult`), lists of keys.
### Secondary indexes (`Verif/IndexAm`)

* Modelled: how the fields of a secondary index are laid out (`o_table_fill_index`,
  `make_secondary_o_index`, columns listed twice, the appended primary key or `ctid`, INCLUDE
  columns that are not compared), how `orioledb_aminsert`, `orioledb_amupdate` and
  `orioledb_amdelete` form entries and keys, when uniqueness is checked, what happens if an entry
  is found or missing, and how scans read entries back.
* An index is a list of entries; C66, C69, C71 and C72 are about the tree underneath.
* One comparison (`cls`) stands for those of all columns; different values may be equal for it.
* Expressions are extra columns of the row.  Statements deal with one row each.  A statement that
  ends in an error changes nothing.
* Left out: concurrency, values out of line, `ON CONFLICT`, deferred checks, `CONCURRENTLY`,
  exclusion constraints, bridged indexes, limits of arrays, INCLUDE columns of the primary key.
### Values out of line (`Verif/Toast`)

* Modelled: `tts_orioledb_toast` with its two loops, the fields of the tuple that is formed, the
  chunks (`generic_toast_insert_optional_wal`, `generic_toast_delete_optional_wal`,
  `generic_toast_get`), inserting, removing and replacing the values of a row, when UPDATE
  overwrites a row and when it deletes and inserts, and reading rows back.
* The TOAST tree is an ordered list of chunks; C66, C69, C71 and C72 are about the tree underneath.
* Compression is any pair of functions of which the second undoes the first; the size of chunks may
  depend on the key; keys that compare equal may differ.
* Each statement is a transaction of its own and deals with one row; pointers are read in the tree
  as it was before the statement.  A statement that ends in an error changes nothing.
* Simplified: the size of a row leaves out alignment and one-byte headers; the header and the other
  columns have one size; all pointers have one size; keys are not toastable.
* Left out: versions of chunks within one transaction, concurrency, expanded and indirect values,
  `generic_toast_sort_add` (building), WAL and its replay, system trees that use the same functions.
### Replay of the log (`Verif/Replay`)

* Modelled: `apply_tbl_insert`, `apply_tbl_update`, `apply_tbl_delete` with the callbacks that take
  back versions of the same transaction, the savepoint records with `search_for_undo_sub_location`
  (`UndoStackTail`), commit and abort.  The primary is a specification: transactions with nested
  levels of writes, row locks, and the records written.
* One replaying process; with several, each does the same for the rows hashed to it.
* Trees are maps from key to version chain (C66, C69 and C71 are about the trees); rolling back takes
  the versions of a transaction off the chains (C24 is about the undo stack).
* The replaying node starts as a copy of the table, and applies each record once.
* Left out here: replay over the image of a checkpoint, entries too long for a page, indexes being
  built, TOAST, the bridge index.
### Replay over the image of a checkpoint (`Verif/Image`)

* Modelled: one row of a primary index.  On the primary: the version chain, version numbers in tuples,
  waiting for the transaction which wrote the last version, savepoints, rollback to the last savepoint,
  commit, abort, and the records written.  In recovery: the page as written during the checkpoint, the
  undo stacks of the checkpoint's file of transactions (`read_xids`, `walk_checkpoint_stacks`),
  conflicts with versions of other transactions (`o_btree_modify_handle_conflicts`,
  `row_lock_conflicts`, `recovery_map_oxid_csn`), the callbacks of the primary index, updates before and
  after the trees are consistent, savepoint records, the end of recovery.
* The undo stack from the checkpoint is the one at the time the page was written, or when the
  transaction ended; versions on the page and items of the stack are matched by position in the log.
* A conflict with a transaction which is in progress for the replaying process is a loop without end:
  `wait_for_oxid` returns at once in recovery, and the modification is tried again.
* One replaying process.  Left out: row locks without a change, changes of the key, secondary indexes
  (C78), release of savepoints and rollback to an outer savepoint (C77), TOAST.
### Startup process and workers of recovery (`Verif/Workers`)

* Modelled: the records of the log as seen by the startup process (`mod`, savepoint, rollback to a
  savepoint, end of a transaction), the choice of the worker by hash, the buffers, the queues, which
  transaction a worker is at (sent only if it changes), `used_by`, `recovery_ptr`, `commitPtr`, the rule
  of a worker for an empty queue (`recovery_queue_read`), `finished_list` and both ways a transaction is
  settled.  A run is any interleaving of single reads and writes of the shared positions and queues.
* Every record has a WAL record of its own; its start and end are two positions.
* `systree_modified` and `checkpoint_xid` are fixed for each transaction.
* A queue takes any number of messages; memory is sequentially consistent; workers do not die.
* Left out: messages for index builds and for synchronization before files change, changes of system
  trees by the startup process, joint commits with PostgreSQL transactions, undo retention.
### CREATE INDEX CONCURRENTLY (`Verif/Cic`)

* `Spool`: headers and tuples of the entries, `stream_peek` with the buffer shared by all streams (its
  size, growth by `pfree` and `palloc`, and pointers into it), the choice of the stream, the drain.
  Bytes of a tuple are a list of numbers; file formats, read errors and short reads are left out.
* `Model`: a table of rows, any number of processes, each with its undo stack; a statement changes the
  table, then writes its entry (two events); undo restores the row, then writes the reverse entry (two
  events); the builder reads the rows at any times, committed or not.  One index.  Positions of entries
  are undo locations, which grow.  `finish` is the drain on the keys the builder has read, then the
  covering pass over the table.  Row locks: a row changed by a process in progress is not changed by
  another one.
* `Unique`: the comparison loop, the check of neighbours, and the order of pages of a sequential scan
  (pages in memory first, in key order, then pages on disk by offset).
* `Life`: the directory, the state of the index, open files of processes, crashes.
* Left out: several indexes at once, partial indexes and expressions, TOAST, waiting for old snapshots,
  memory use, errors of the file system.
### Sequential scans (`Verif/SeqScan`)

* `Walk`: images of pages of level 1 (low key, keys, hikey), the load of the next page by the hikey of
  the one before, the iterator for the rest of a range, the bounds of each downlink
  (`get_current_downlink_key`, `get_next_key`).  Each load finds any page whose keys are in order and
  which has the key.  That a leaf page, if it ends where the downlink ends, begins where the downlink
  begins is assumed.  The bitmap callbacks, sampling and trees of one page are left out.
* `Share`: the participants, each step that touches shared memory as an event of its own.
* `Filter`: one participant; ranges bounded and closed on both sides.
* `Merge`: one leaf with its historical images as one list; visibility of a version is given.
* `Grow`: the segments and who is attached to which; lifetimes of segments are left out.
* The backward walk over level 1 (`get_prev_downlink_parallel`) is left out.
### Data files in S3 mode (`Verif/S3Parts`)

* `Codec`: the macros for the 32-bit word on `BitVec 32`, and each change of it.  The change count and
  the bit in the upper half of the 64-bit value belong to the cache of headers, which is left out.
* `Model`: one part; each loop around a compare-and-swap is one step.  The contents of a part are one
  value, read and written at once.  Workers may be restarted at any point with the task they had; an error
  of an upload is `err`, a `FATAL` is `die`.  The queue is a number of tasks (its order is C-properties of
  `S3Queue`).  Restarts of the server, the cache of headers and the removal of files are left out here.
* `Io`: offsets in the tree and in the file; the loops of reads and writes with the value `amount` has
  after the loop; the lengths of evictions, with a negative length as an outcome of its own.
* `Dirty`: the list in the meta page; each read and write of a slot is a step (the three numbers of a slot at once).
* `Unlink`: the header as a whole before and after; nobody else uses the file meanwhile.
### Rewind (`Verif/Rewind`)

* `Queue`: the five positions, both ring buffers and the file by position; the atomic actions are the
  fetch-and-add, the admission, one item filled, one compare-and-swap, one look at the next tag, one item moved on the
  fast path, the write of a block, the clearing of one slot, the reading of a block, one completion, the discarding of
  blocks of the file.  Positions are unbounded; the file is one array (`o_buffers` is the subject of `OBuffers`).
* `Codec`: the items of a transaction and the loop of `do_rewind` with its local variables; an index of -1 is an
  outcome of its own.  One undo log instead of three.
* `Order`: the test of the target (no wraparound of 32-bit ids), the checks of the ids, the three loops of the
  checkpoint, and three small machines: commit and enqueueing; retained undo; request and answer of the stop.  The
  termination of other backends and what the undo callbacks do are left out.
### Backups of PGDATA in S3 mode (`Verif/S3Backup`)

* `Pack`: the bytes of a pack as `flush_small_files` writes them, call by call, and as the loader takes them apart.  A
  small file is given by its size at `lstat` and by its contents at both readings, so that a file may change in
  between.  Uninitialised memory is an arbitrary function.  Little-endian machine; offsets unbounded.
* `Sums`: the lists of checksums as text (`fprintf`, `sscanf` with its blanks and widths), the buffer of 100 checksums,
  the scan, the loader for small files.  SHA-256 is any function `H`; theorems about a whole restore assume that it has
  no collision among the contents backed up.  Which files a scan leaves out by name is not modelled.
* `Big`: checkpointer and workers for files uploaded one by one; the atomic actions are the put into the queue, the
  increment, the pick, the storing of the checksum, the upload, the decrement with the end of the task, the flush at
  the end, the restart of a worker, the joining of the lists.  Files do not change or vanish during a backup; a backup
  begins when the workers have ended the former one.
* A backup given up uses up its number (`src/checkpoint/checkpoint.c:1995` comes before `2124`); objects stay.
### Records of tables and indexes (`Verif/CatRecords`)

* The parts of the structures that are copied with one `memcpy` are byte strings; sizes and offsets are a parameter
  (`Lay`), of which the theorems need only that the tablespace lies within the structure.  The cases use x86-64.
* A node tree is the text `nodeToString` gives; that `stringToNode` of the same major version inverts it is trusted, as
  is that two releases of one major version agree (the code assumes it).
* A text without a NUL byte within its length, which no writer writes, is cut at its length; in C it would be read past
  its end.  A datum of a negative length fails an assertion; here it counts as truncated.
* Not modelled: how records are cut into chunks, `version`, memory contexts, the old readers without bounds checks
  (`o_deserialize_node`, `o_deserialize_string`).
### Lock and control file of a bucket (`Verif/S3Lock`)

* Every request to the bucket (conditional PUT, GET, DELETE) and every write of a local file is one step of one
  instance; a kill may come at any moment.  The conditional PUT is atomic, as S3 promises; other answers than 200, 409
  and 412 end the start like a kill.
* From PostgreSQL it is taken that callbacks of `before_shmem_exit` registered in the postmaster are not inherited by
  its children, run when the postmaster exits and also when it reinitializes shared memory after the crash of a
  backend, and that `_PG_init` is not called again then.
* Of the control file only the three members that are compared are kept; WAL positions do not go back.
### Cache of the headers in S3 mode (`Verif/S3Headers`)

* One group of buffers; every access to shared memory that others can see is one step, in the order of the program with
  its barriers (memory is otherwise sequentially consistent).  A tag that is compared while the change count is odd may
  be half written: the outcome is arbitrary then.
* The change count does not wrap around (in the code after 2^30 changes of one buffer).
* A header is read or written as a whole.  What `read_from_file` gives for an empty file is fixed for each header;
  in the code it depends on the number of the last checkpoint.
* `Spec.lean` says what the events must be, without buffers.
### System caches (`Verif/SysCache`)

* One cache in a plain tree, any number of backends.  Each function is one step; the heavyweight lock of the entry makes
  additions and updates of one key one at a time.  Searches of the TOAST trees are left out: they use the same fast
  cache and the same marks, but do not look at LSNs.
* The buckets of the fast cache are one list, with an arbitrary hash function.  Invalidation messages come at any time:
  when PostgreSQL sends them is not modelled.
* Autonomous transactions (the writes of the cache trees) commit at once, so they are not rolled back with the
  transaction of the user.
* For C137 a column of a key is a number, a pointer or an offset; reading a number as a pointer is undefined.
### Index scans with row comparisons and arrays (`Verif/ArrayScan`)

* Modelled: the bounds of row comparisons (`o_fill_row_key_bound` and the part of `o_key_data_to_key_range` that calls
  it), `row_key_tuple_is_valid`, the look-up of arrays in `is_tuple_valid`, the steps from one combination of array
  elements to the next (`o_bt_advance_array_keys_increment`, `switch_to_next_range`).
* A value is an integer, its place in the order of its type; the datum 0 in place of NULL is the value 0, or a null
  pointer if the type is passed by reference.  A comparison function called on it is a result of its own (`none`).
* Taken as given: what PostgreSQL does before (`_bt_preprocess_keys` sorts arrays in the order of the index, removes NULL
  and repetitions, turns operators around for a first column that is DESC); that the range of one combination gives
  the rows with these values (`Verif/Fastpath`); that the planner takes a row comparison over columns of the index as a
  condition that need not be checked again.
* Skip arrays of PostgreSQL 18 (`Skip.lean`): their states, `o_bt_array_set_low_or_high`, `o_skip_arrays_observe_tuple`,
  the probe in `o_iterate_index` and the step to the next value, for skip arrays on the first columns without conditions
  of their own.  A range returns the rows whose first column is between the bounds of the iterator and whose further
  columns `is_tuple_valid` accepts; what is asked behind the skip arrays is any predicate.  An exact range (all columns
  pinned) is read as any other.
* Left out: skip arrays with `IS NOT NULL` or range conditions, or behind columns with `=`; scans that turn around,
  parallel scans, arrays of another type.
### Order of enum values in recovery (`Verif/EnumCache`)

* Modelled: `o_enum_cache_add_all` with `o_sys_cache_add_if_needed`, the place of an entry in the tree, and
  `o_load_enum_cache_data_hook` in full: reading the entries, sorting, the set of OIDs that are in order.
* One type of one database.  Labels are numbers in the order of names, sort orders are integers (they are `float4`, never
  NaN).  `qsort` is an insertion sort.
* Taken from PostgreSQL as it is: `enum_cmp_internal` and `compare_values_of_enum`, which use the data; that even OIDs of
  a type are in order; that ALTER TYPE calls the hook.
* Left out: the cache by OID, entries marked as deleted (only DROP TYPE does that).
### Check of the extents of a data file (`Verif/CheckExtents`)

* Modelled: `check_extents`, `file_extent_cmp`, the comparison with the length of the file in `check_btree`, and the two
  checks of order.
* `qsort` is an insertion sort; the walk ends at the first finding, where the code goes on to report others; offsets and
  sums do not overflow.
* C143 takes extents of length above 0: an extent of length 0 holds no block, and may be reported or not.
* Left out: the walk of the tree that collects the extents of the pages, and reading the files.
### VACUUM of bridged indexes (`Verif/BridgeVacuum`)

* Modelled: `add_dead_item`, `finish_dead_items`, `dead_items_reset`, the loop of `lazy_scan_bridge_index`, `lazy_vacuum`
  with the decision to skip, and the order of the removals; for PostgreSQL 17 and later.
* The leaves of the bridge index are one list in the order of TIDs, which are unique; that memory runs out, and that
  VACUUM is skipped, are any decisions.  A `TidStore` is a list of blocks with offsets, as PostgreSQL describes it.
  `vac_bulkdel_one_index` removes the entries whose TIDs are in the store.
* Left out: parallel workers, changes by others between collection and removal, the search for pages in
  `lazy_vacuum_bridge_index`, WAL.
* Seen while reading, not claimed: `lpdead_items` counts the items of the current block, `num_items` does not, so the
  assertion at `src/tableam/vacuum.c:693-694` seems to fail in a build with assertions when memory runs out.
### Row identifiers (`Verif/Ctid`)

* Modelled: `btree_ctid_from_seq`, `btree_ctid_get_and_inc`, `btree_ctid_update_if_needed` by its atomic operations,
  `btree_bridge_ctid_get_and_inc`, the loop of INSERT over bridge identifiers, and what a crash does to the counter.
* `MaxOffsetNumber`, `MaxHeapTuplesPerPage` and the largest block are parameters.  The counters (64 bits) do not overflow.
* C147 takes replayed identifiers that `btree_ctid_from_seq` can give; the code asserts as much.
* Left out: the transactions of INSERTs; an entry of the bridge index is there or not.
### Removal from the bridge index (`Verif/BridgeVacuum/Pages`)

* Modelled: the loop of `lazy_vacuum_bridge_index` over TIDs, with the page kept locked, and the buffer of WAL records.
* The tree is the list of its leaves; `find_page` gives the first leaf with a high key above the TID.  TIDs are numbers.
* Left out: leaves that other backends split or merge between two searches; trees that are not kept in files.
* That TIDs come in ascending order is a hypothesis: the TID store gives them so, and before PostgreSQL 17 the array is
  filled in the order of the index.

## 5. Disagreements between code and properties

* **C02** `wal_container_read_header` (`wal_reader.c`) fetches the first byte
  before any bounds check.  An empty container makes it read past the end
  (`C02_violated`).  PostgreSQL never delivers an empty container here, so this
  is harmless today.
* **C04** `wal_commit` and `wal_rollback` drop the buffer of a transaction without
  row changes but leave `contains_xid` set (`wal.c:240-246, 301-307`).  The next
  transaction of the backend then writes a container with no XID record, so its
  changes are attributed to no transaction (`C04_violated`; SQL sequence:
  `BEGIN; SELECT .. FOR UPDATE; SAVEPOINT s; COMMIT; INSERT ..`).
* **C35** `add_free_extents_from_tmp` (`free_extents.c:572-632`) advances `chkp_num`
  only when the file is missing.  With `remove_old_checkpoint_files = off` the same
  file is read again and again and its extents are released repeatedly
  (`C35_violated`).  With the default setting the file is removed, so the next
  iteration advances (`C35_drain_partial`).
* **C08** Two adjacent extents released at the same time may stay unmerged
  (`C08_concurrent_release_unmerged`).  The property only speaks about one
  operation after another, so it is not violated.
* **C09** `seq_buf_read_pages` keeps the file size and the number of unread bytes in C
  `int`s (seq_buf.c:700-760): opening a file of 2 GiB or more fails
  (`C09_violated`).  `C09_read_partial`, `C09_end_to_end_partial` assume less.
  Two more observations: `seq_buf_finalize` removes the file also in read mode when
  the offset is 0 (`C09_evict_at_start_loses_items`; such a reader has a non-zero
  offset in practice because of the header), and the writer opens the file without
  `O_TRUNC`, so a longer stale file of the same name would keep its tail.
* **C10** (a) `s3_queue_get_task` has the arguments of its first `memcpy` swapped for a
  task that wraps around the end of the ring (queue.c:252-254): `C10_violated`.
  (b) `s3_queue_erase_task` publishes the new `erasedLocation` before it clears the
  length word (queue.c:308-312), so a task put in between is corrupted or lost:
  `C10_erase_race`, `C10_erase_race_loses_task`.  `C10_partial` excludes both.
  Also: `Assert(totallen = INTALIGN(totallen))` (queue.c:109) is an assignment.
* **C36** `s3_schedule_file_part_read` returns the insert location when the part is
  already loading; waiting for it needs a later task to be put and erased
  (`C36_violated`, `C36_never_released`).
* **C11** `local_ppool_reserve_pages` (`page_pool.c:617-627`) subtracts the count before
  it looks for pages and does not add it back when it raises the error, so one failed
  reservation shrinks the local pool for the rest of the session
  (`C11_local_violated`, `C11_local_exhausted_for_ever`).  The shared pool is correct.
  Also `local_ppool_run_maintenance` skips empty slots without counting them, so with
  all slots empty (as after this leak) its loop does not end.
* **C12** `ucm_next_blkno` reduces levels modulo 8 where its mask uses modulo 7
  (`ucm.c:459, 484`); both agree for `mask_src = 1`, the only value passed
  (`C12_other_masks_disagree`).  After a successful epoch change the local variable keeps
  the old epoch, so every epoch is searched twice; harmless.
* **C15** The change count has 32 bits: a copy that lasts while the page is changed a
  multiple of 2^32 times is accepted (`C15_violated`).  `C15_partial` excludes that.
  Not a practical concern, but the English claim has no bound.
* **C37** `lock_page_with_tuple` hands back absorbed wake-ups inside its loop with
  `while (extraWaits-- > 0)` (page_state.c:589), which leaves -1 in the variable: from
  the second round on one absorbed wake-up is lost (`C37_violated_insert`).
  `page_wait_for_changecount` returns at line 694 without handing back anything
  (`C37_violated_change`).  Lock and read waits are correct (`C37_partial`), and no wait
  raises the semaphore too often (`C37_no_excess`).
* **C38** `page_wait_for_changecount(OInMemoryBlkno, uint32 state)` gets the 64-bit page
  state in a `uint32` and so keeps 12 bits of the change count (`trunc32_cc`); for a page
  changed 4096 times or more it returns at once, and `relock_page` becomes a busy loop
  (`C38_violated`).  `C38_partial`: change counts below 4096.
* **C14** The comment before `unlock_page_internal` says the oldest exclusive waiter is
  woken; since the list is walked from its newest end and the first one seen is
  remembered, it is the newest of the waiters not yet seen (example `exUnlock`: of 2
  and 4, waiter 4 is woken).  The property does not speak about the order.
* **C39** `val_get_uint64` shifts a 32-bit block number left by 16 without widening it
  (bitmap_scan.c:182).  Tuple identifiers whose block numbers agree modulo 65536 get the
  same code (`C39_violated`): in a table without primary key, a bitmap scan that wants
  row (65536,1) reads row (0,1) instead.  `C39_codes_partial` assumes block numbers
  below 65536; `C39_codes_int` (integers) and `C39_keys` (24-byte keys) hold in full.
* **C40** `o_pk_encode_leaf` takes the value of a primary key column from
  `primaryFieldsAttnums[i]`, but its type from the last columns of the leaf tuple
  (bitmap_scan.c:598-603).  When the secondary index already contains a primary key
  column the two differ.  With primary key (a bigint, b integer) and an index on (b) the
  rows (1, 7) and (4294967297, 7) are recorded under one key that belongs to neither
  (`C40_violated`), so the scan loses both.  With primary key (c uuid, a bigint) and an
  index on (a, d uuid) the key is written 8 bytes before its buffer (`C40_undefined`).
  `C40_same_key_partial`: the types agree in order; `C40_disjoint_partial`: no shared
  columns.  Similar uses of `pk_from + i`: src/tableam/tree.c:553-566,
  src/tableam/operations.c:912-925 (not modelled).
* **C41** For a page without upper bound the callback passes the largest key as the
  exclusive bound (bitmap_scan.c:1823, 1836), so a page is skipped although the bitmap
  contains the largest key, i.e. the largest `bigint` (`C41_violated`) or a 24-byte key
  of ones (`C41_violated_fixed`).
* **C17** the header keeps the length in 15 bits (`format.h:33`, `format.c:597`): from
  32768 bytes on the length of a tuple is wrong (`C17_violated`: 33012 bytes reported as
  244).  The number of bytes written always is the number computed.
* **C43** the size check (`btree.c:253-264`) uses that length, so a row of 33012 bytes is
  accepted (`C43_violated`) and 244 bytes of it are stored.  Rows become that long when
  columns cannot be toasted (`storage plain`) or the index entry has many columns.
* **C42** `o_fastgetattr` does not look at the number of columns of the tuple
  (`format.h:88-137`).  For a column added later it returns null instead of the default, or
  memory behind the tuple once the offset is cached (`C42_violated`).  Logical decoding
  reads all columns of old row images this way (`logical.c:169-176`).
* **C18** the end of a subtransaction clears the bit of its id (`oxid.c:689`) before the
  records that carry the id are written (`oxid.c:697`, `707`): with a heap transaction id,
  another session can acquire the id in between, and records of both with the same id
  interleave (`C18_violated`).
* **C46** a released savepoint's id can be given to the next savepoint of the same
  transaction while the decoder still has the released changes queued under it; rolling
  the second one back makes the decoder throw away both (`C46_violated`:
  `BEGIN; INSERT; SAVEPOINT a; INSERT; RELEASE a; SAVEPOINT b; INSERT; ROLLBACK TO b;
  COMMIT` loses the second insert).
* **C28** a write with `mark_clean` (`o_buffers.c:393`) clears the dirty mark of bytes of
  the same block that were written before and are not on disk; they are lost when the
  buffer is taken for another block (`C28_violated`).  Besides, `get_buffer` does not check
  that a buffer it waited for still holds the block (`o_buffers.c:249-253`): a concurrent read
  of a missing file gives the buffer up, and what is written into it then is lost
  (`C28_violated_missing`).
* **C48** when a cleanup position is inside the last block of a file, that file is never
  removed (`C48_violated`): the block is not wholly below the first position and not wholly
  above it, and the extension to the whole leading file (`o_buffers.c:683`) looks at the next
  file.
* **C32** `add_pending_truncate` writes the number of trees and the trees at offset 0 instead
  of behind the relation's ids, and takes the trees from the address of its parameter
  (`btree/undo.c:804`, `813`); `check_pending_truncates` does not advance past the trees
  (`898-900`).  Whatever is deferred, the replay stops the background writer with `FATAL`,
  again and again (`C32_always_fatal`, `C32_violated`).  Creating a relation during a
  backup defers a drop of no trees (`986-992`), with the same result.
* **C19** Three interleavings lose a status.
  `flush_dirty_xidsmap_range` reads the part of a page below `writtenXmin` from the files and
  later writes the whole page back (`oxid.c:1155-1195`); `set_oxid_csn` of such an id writes the
  files without the lock (`804-813`), so a commit in between is undone (`C19_violated_flush`).
  `write_xidsmap` passes `mark_clean` for a page the checkpointer has flushed
  (`1034-1043`), which also drops the dirty mark of a commit made in the files since
  (`C19_violated_clean`).
  `o_buffers_write_page_direct` makes the buffer clean before the page is on disk
  (`o_buffers.c:458-473`); a buffer loaded in between is stale (`C19_violated_past`).
* **C20** After a lost commit `runXmin` stays below the transaction for ever
  (`C20_violated`).
* **C51** `flush_dirty_xidsmap_range` cuts the range to one ring size from the start of the page
  of `writtenXmin` (`oxid.c:1107-1110`).  If `writtenXmin` is inside a page and the ring is
  nearly full, the ids in the ring reach into one more page, the one that shares the slots and
  the dirty bit of the first.  It is not written, and its dirty bit is cleared
  (`C51_violated`).
* **C21, C22, C50** `orioledb_reset_xmin_hook` (`undo.c:2376-2411`) takes the `xmin` of the
  snapshot that has the smallest undo location.  Undo locations of snapshots are the values of
  `minProcTransactionRetainLocation` (`undo.c:1152`), which moves rarely, so snapshots with
  different `xmin` often have the same three locations.  `undoLocCmp` compares nothing else, and
  the heap may have the one with the larger `xmin` on top; this is so when three snapshots
  (for example cursors) are opened and the first is closed (`tie_top`).  The session then
  publishes an `xmin` above that of a snapshot in use, `globalXmin` follows, and that
  snapshot begins to see a transaction that it did not see (`C21_violated`), or sees half of it
  (`C22_violated`, `C50_violated`).
* **C49** `abort_autonomous_transaction` changes the status first and undoes afterwards
  (`undo.c:3146-3148`), while `XACT_EVENT_ABORT` does the opposite (`undo.c:2748-2761`).  Between
  the two `runXmin` passes the transaction, and a snapshot taken then sees its changes
  (`C49_violated`).
* **C25, C53** `clear_my_snapshot_retain_location` is called when an index has been built
  (`indices.c:2095-2096`, `2511-2512`) and discards the location retained by *all* snapshots of
  the session, not only the one the build used.  A session with an open cursor or a repeatable
  read transaction then has no undo retained: it is truncated (`C25_violated`), and a read with
  the snapshot fails (`C53_violated`).
* **C53, C54** `add_new_undo_stack_item_to_process` sets the retained location of the *waiting*
  process (`undo.c:2303-2304`) without the handshake of `set_my_reserved_location`.  A scan of
  `update_min_undo_locations` may have passed that process already; if the leader then ends its
  transaction before the scan comes to it, the record is not retained by anybody the scan has
  seen and is truncated while the transaction it belongs to is in progress (`C54_violated`,
  `C53_violated_hand`).
* **C24** `undo_subxact_callback` (`undo.c:3019-3035`) remembers in `minParentSubId` the parent of
  the first savepoint started after undo was written, and takes a savepoint whose parent has a
  smaller id for one started before any undo, so that rolling back to it undoes everything.  When
  the first recorded savepoint is nested in an unrecorded one and both are released, later
  savepoints at the outer level also have a parent with a smaller id: `SAVEPOINT a; INSERT;
  SAVEPOINT b; RELEASE a; SAVEPOINT c; ROLLBACK TO c; COMMIT` loses the inserted row
  (`C24_violated`).  The same happens with nested PL/pgSQL blocks with exception handlers.
* **C30** `row_lock_conflicts` (`undo.c:1746-1994`) removes locks of ended transactions while it
  walks the chain.  After it has removed one, `curTupHdr` is the copy of the next header but
  `curUndoLocation` is still the place of the removed one; if the next header is again a lock of
  an ended transaction, the second removal writes to a record that is not in the chain any more.
  The lock stays in the chain, but `chainHasLocks` is cleared above it, and a later walk (of a
  request with an older snapshot) that removes it clears the flag above a lock of a transaction in
  progress.  A run of 15 requests and commits ends with a row deleted under another transaction's
  `FOR KEY SHARE` (`C30_violated_lost_lock`).
* **C30** If `COMMITSEQNO_INPROGRESS` compares below ordinary numbers, the walk stops at the first
  change of a transaction in progress, so a key update followed by a non-key update of the same
  transaction does not keep others from `FOR KEY SHARE` (`C30_violated_key`).
* **C31** In the same situation (delete, insert and update by one transaction, then
  `FOR KEY SHARE` by another) the rollback takes the lock for the deletion it reverts, and the row
  stays deleted by an aborted transaction (`C31_violated`).  `page_item_rollback` asserts that
  this does not happen (`undo.c:181-185`).
* **C55, C58** `flush_dirty_undo_range` (`undo.c:1733-1735`) limits the flush to as many pages as
  the ring has.  If the eviction stopped within a page and the ring is full, the range has one page
  more, and this page shares its slot, and its dirty bit, with the first one.  It is not flushed, and
  its dirty bit is cleared: the records in it are missing after a crash (`C55_violated`); if they
  are evicted later they are taken for clean, and are lost without a crash (`C58_violated`).
* **C55, C58** `evict_undo_to_disk` (`undo.c:1949-1961`) writes a piece of a page whose dirty bit
  is clear as clean, and `o_buffers_rw` (`o_buffers.c:393`) then marks the whole buffer as clean.
  If the earlier piece of the page was changed in place after the checkpoint that cleared the bit,
  the change is not written back: it is lost when the buffer is replaced (`C58_violated_clean`) and
  is left out by later checkpoints (`C55_violated_clean`).
* **C59** Replacing an item where it is (`insert.c:1453-1498`) and `page_item_rollback` do not raise
  `header->maxKeyLen`.  If the new key compares equal to the old one but is longer (`numeric`,
  `citext`, nondeterministic collations), the estimate of the room of a left page is too small, and
  `btree_page_reorg` raises an error in a critical section (`C59_violated`).
* **C62** `btree_write_index_data` (`build.c:343-364`) writes the pages left in memory up to the level
  the root had before.  If the last downlink splits the root, the right page of the old root level is
  neither written nor linked: the rows below it are lost, at least those of the last leaf page
  (`C62_violated_lost`).
* **C62** With a small fill factor the check at `build.c:150` fails even on an empty page.
  `btree_page_split_location` (`split.c:323-346`) then returns a variable that was not set; on internal
  pages one downlink per page makes more than 32 levels, only excluded by an assertion
  (`build.c:148`; `C62_violated_fillfactor`).  From 40 on neither happens.
* **C63** `page_locator_fits_item` (`page_chunks.c:269-274`), `insert.c:1528-1533` and
  `undo.c:299-306` keep entries of bridge indices for VACUUM, but `make_split_items`
  (`split.c:84-92`) and `merge_pages` (`merge.c:686-691, 720-725`) drop deleted ones
  (`C63_violated`).
* **C64** `make_split_items` (`split.c:96-98`) and `merge_pages` (`merge.c:695, 729`) cut an item to the
  room of its tuple if its top header is finished.  If this is a lock on a row updated by another
  transaction still running, the rollback writes the longer old tuple over the next item
  (`undo.c:234-249`, only assertions; `C64_violated`).
* **C65, C67** The fast path does not look at inclusion (`fastpath.c:228-270`): with
  `a > 5 AND b >= 3` on `(a, b)` it looks for `(5, 3)`, and the scan begins at rows with `a = 5`,
  which `is_tuple_valid` (`index_scan.c:136`) does not check in its first column
  (`C65_violated_open`, `C67_violated_forward`; backward with `a < 6 AND b <= 3`:
  `C67_violated_back`).
* **C65, C67** In a unique index the fast path compares only the unique columns
  (`fastpath.c:119`), the order and the ends of chunks have the primary key, too.  After a row with
  `u = 5` at the start of a chunk is deleted and another with a lower primary key is inserted, it is
  in the chunk before and `u = 5` does not find it (`C65_violated_unique`, `C67_violated_unique`).
* **C65, C66** The array searches compare floating point numbers with C operators
  (`fastpath.c:682-746`): NaN at the upper end of a chunk is skipped and rows of the chunk before are
  not found (`C65_violated_nan`, `C66_violated`).
* **C70 (leaf pages)** `page_item_rollback` (`undo.c:273`) puts the flags of an item back but leaves
  the mark of its chunk, unlike insertion (`insert.c:1075`, `1508`); after a reorganization between
  the update and its rollback a marked chunk has an item that is not in the fixed format, and the
  assertion at `page_state.c:1452` fails in builds with `CHECK_PAGE_STRUCT`
  (`chunk_marks_rollback_violated`).  Searches use marks of chunks only in internal pages, where
  nothing is rolled back, so no wrong result follows.
* **C71 (dirty read)** the loop of `o_find_tuple_version` (`iterator.c:808-823`) stops at any header
  of a transaction committed before the snapshot, also if the header is lock-only.  If transaction A
  updates a row, B takes `FOR KEY SHARE` on it, A updates it again and B commits, a third session
  reads A's first update, which is not committed (`C71_dirty_read_violated`).
* **C71 (own changes)** when the live page is newer than the snapshot, `fetch_our_tuple_from_page`
  looks only at the newest version and does not ask for its command: the reader finds a row it has
  deleted (`iterator.c:615-620` gives the null tuple, and the image is read instead;
  `C71_own_deletion_violated`), and a change made by a later command than that of its snapshot
  (`C71_later_command_violated`).  A change rolled back to a savepoint is still found on an image
  made in between (`C71_savepoint_violated`).
* **C72 (rows skipped)** `reconstruct_merge_diff_half` (`src/btree/undo.c:1217-1331`) gives the left
  half the boundary of the merge as its high key, also when the page it cuts has in the meantime
  been split further left with a differential image (`reconstruct_split_diff` keeps that page as it
  is).  A scan with an older snapshot goes on at the boundary of the merge and misses the rows
  between the split key and it (`C72_skipped_rows_violated`).  The comment in
  `page_add_image_to_undo` that range scans clip to the current leaf holds only for scans that
  combine the live page with its image.
* **C73 (rows missing from an index)** If a column of the primary key is in the INCLUDE list of a
  non-unique index, it is not appended again (`find_existing_field`,
  `src/catalog/o_indices.c:342-357`), and INCLUDE columns are not compared (`OIgnoreColumn`,
  `include/tableam/descr.h:265-268`).  Rows with equal key columns then share one entry: the second
  is not inserted, without an error, and deleting either removes the entry
  (`C73_primary_key_in_include_violated`).
* **C73 (columns listed twice)** `orioledb_aminsert` takes repeated columns out of `values` but not
  out of `isnull` (`src/indexam/handler.c:734-750`); `orioledb_amupdate` and `orioledb_amdelete` do
  not take them out at all (850-879, 1009-1020).  Nulls are stored as the datum 0, updates leave the
  old value, deleted rows keep their entry (`C73_column_twice_violated`).
* **C73 (columns of type `tid`)** `fill_key_bound` puts the row's own `tid` into every field of that
  type (`src/tableam/operations.c:2051-2068`), so UPDATE of such a column finds equal keys and leaves
  the index as it was (`C73_tid_column_violated`).
* **C74 (nulls in INCLUDE columns)** Uniqueness is not checked if any field of the entry is null
  (`o_has_nulls`, `src/tableam/operations.c:2535-2536`, 2135), also if the null is in an INCLUDE
  column (`C74_null_in_include_violated`).
* **C74 (NULLS NOT DISTINCT)** `o_update_secondary_index` (`src/tableam/operations.c:2135`) lacks the
  test of `nulls_not_distinct` which the insertion has (2536): UPDATE may make a second null
  (`C74_nulls_not_distinct_update_violated`).
* **C75 (equal value in another form)** `tts_orioledb_update_toast_values` keeps the old chunks if
  old and new value are equal once decompressed (`src/tuple/slot.c:1903-1936`), but the row has
  already been formed with the size of the new stored form (`o_tbl_update`,
  `src/tableam/operations.c:1841-1850`; `src/tuple/format.c:664-665`).  If the forms differ, for
  instance after `UPDATE t SET b = a` from an EXTERNAL column and then `SET b = b || ''`,
  `generic_toast_get` finds another size and returns NULL, which callers take for a value
  (`C75_equal_value_violated`).
* **C75 (key that compares equal)** If UPDATE changes the bytes of the key to others that compare
  equal, the new chunks are inserted before the old ones are removed
  (`src/tableam/operations.c:1911-1918`); they have the same keys, so the statement fails
  (`C75_equal_key_violated`).
* **C75 (pointers in wide tables), C76 (null columns)** `tts_orioledb_toast` first asks whether the
  row fits with all toastable columns moved, and counts 12 bytes for each, also for those that are
  null (`src/tuple/format.c:454-462`), because the mark is looked at before the null flag.  A table
  with more than about 220 toastable columns never moves anything: rows are rejected although they
  would fit (`C76_null_columns_violated`), and a value that comes as a pointer is stored as that
  pointer, and read as something else (`C75_pointer_in_row_violated`).
* **C77 (nested savepoints)** No record is written when a subtransaction commits, so its savepoint
  item stays on the stack of the replaying process.  If then an enclosing subtransaction is rolled
  back, `search_for_undo_sub_location` looks at that item only, sees another parent, and for
  `UndoStackTail` takes back everything the process has replayed of the transaction
  (`src/transam/undo.c:2874-2890`, `src/recovery/recovery.c:2476-2486`).
  `INSERT; SAVEPOINT a; INSERT; SAVEPOINT b; INSERT; RELEASE b; ROLLBACK TO a; COMMIT` commits the
  first row on the primary and loses it on the standby and after a crash (`C77_violated`,
  `C77_lost`); nested PL/pgSQL blocks with EXCEPTION clauses do the same.
* **C78 (row changed before and after a savepoint)** The callbacks for secondary indexes take back
  any version of the same transaction (`OBTreeCallbackActionUndo`,
  `src/recovery/recovery.c:2519-2544`) even if it was written before a savepoint; a rollback to the
  savepoint does not bring it back.  `INSERT; SAVEPOINT s; UPDATE key; ROLLBACK TO s; COMMIT` loses
  the entry of the row (`C78_violated_across`).
* **C78 (entry changes, key does not)** `apply_tbl_update` compares old and new key and does nothing
  if they are equal (`src/recovery/worker.c:1236-1247`); the primary compares images, INCLUDE columns
  and the predicate (`o_update_secondary_index`, `src/tableam/operations.c:2111`).  After replay a
  partial index misses (or keeps) entries when only the predicate changes
  (`C78_violated_predicate`), INCLUDE columns are stale (`C78_violated_include`), and so are keys
  updated to values that compare equal (`C78_violated_equal`).
* **C79 (savepoint after the checkpoint)** The replay of any SAVEPOINT or ROLLBACK TO record of a
  transaction drops the undo stack the checkpoint saved for it: `walk_checkpoint_stacks` removes the
  stack from the list whatever it was called for (`src/recovery/recovery.c:1833-1834`, called from
  `checkpoint_rollback_to_savepoint`, 2451-2464).  `UPDATE`, checkpoint, `SAVEPOINT`, then ROLLBACK or a
  crash: the update is not undone, and is visible once the transaction is below the horizon
  (`C79_aborted_violated`).
* **C79 (conflict takes off a version whose record is not replayed)** A conflict with a version on the
  page of a transaction not met yet takes off all versions not known as committed
  (`src/btree/modify.c:486-700`), also those of the transaction being replayed, written before the start
  of the replay.  Later records of the transaction repair the value, unless they are rolled back to a
  savepoint: then a committed update is lost (`C79_committed_violated`).
* **C80** If a record of the other transaction has been read before, it is in progress for
  `recovery_map_oxid_csn` (`src/recovery/recovery.c:1619-1632`); the replaying process, which alone could
  finish it, tries again for ever (`C80_violated`).  No savepoint is needed: it is
  enough that the other transaction has changed some other row before.
* **C82** A transaction whose end the startup process waits at (it changes system trees, or is in the
  checkpoint's file) gets its commit sequence number in `recovery_finish_current_oxid`
  (`src/recovery/recovery.c:2352-2354`) before `finished_list` is looked at (2448): transactions which
  committed before and wait in the list get later numbers.  A query with a snapshot in between sees, say,
  the new table but not the rows committed before it was created (`C82_violated`).
* **C81 without hot standby** (no violation, since no queries run): with `hot_standby = off` the messages
  at the end of a transaction are not sent at once but `recovery_ptr` is advanced
  (`src/recovery/recovery.c:5677-5695`), so workers claim positions they have not reached
  (`C81_needs_hot`).
* **C85, C88 (shared buffer)** All streams of the reader of the spool look ahead into one buffer
  (`src/catalog/cic_spool.c:310-331`, `452-459`): with entries in two files the entry returned has the
  bytes of the one read last, or points to freed memory (`C85_other_violated`, `C85_freed_violated`).
  Deletions are applied to wrong keys (`C88_two_writers_violated`).
* **C86, C88, C89 (tuples of deletions)** The entry of a deletion is made from a slot which has already
  the shape of an index tuple (`src/indexam/handler.c:1010-1020`) by table attribute numbers
  (`src/tableam/operations.c:2361`, `src/tuple/slot.c:1083-1097`).  Unless the columns of the index are
  the first ones of the table in order, it has a wrong key (`C86_last_violated`,
  `C88_delete_violated`) or reads past the end (`C89_delete_violated`).
* **C89 (UPDATE)** `o_update_secondary_index` (`src/tableam/operations.c:2108-2121`) has no branch for an
  index being built: it deletes from and inserts into the tree of the placeholder descriptor
  (`src/tableam/descr.c:442-451`, `549-556`), which is not there (`C89_update_violated`).
* **C88 (failed statements)** The builder reads rows not committed (`src/catalog/indices.c:1826`,
  `src/btree/iterator.c:772-777`).  If the statement fails before it has written its entry, the undo has
  nothing to reverse, and the key stays in the index (`C88_failed_violated`).
* **C90** With NULLS NOT DISTINCT any NULL in one of two neighbours counts as a duplicate
  (`src/catalog/indices.c:1012-1033`; `C90_nulls_violated`).  The check compares neighbours in the order
  of a sequential scan, which is not the order of keys if some pages are on disk
  (`src/btree/scan.c:797-825`, `2098-2130`; `C90_disk_violated`).
* **C91** After a crash all spool directories are removed (`src/orioledb.c:414-419`,
  `src/catalog/cic_spool.c:822-844`), but the index is still being built: insertions fail until it is
  dropped (`C91_crash_violated`).  `cic_spool_drop_dir` is called with the transaction of the last phase
  (`src/catalog/indices.c:1064-1081`), the directory is named by that of the first one
  (`src/indexam/handler.c:395-396`): it is never removed (`C91_left_violated`).
* **C92** If the leftmost page of level 1 has been merged with its right neighbour, and is found again,
  `get_current_downlink_key` (`src/btree/scan.c:970-988`) gives its first item no lower bound, though the
  scan has been there; an iterator for it (`1491`, `2207`, `2226`) begins at the left end of the
  tree: rows are returned twice (`C92_violated`).
* **C93** `iterate_internal_page` leaves the number of writers (`src/btree/scan.c:2100-2101`) before it adds
  the downlink (`2128-2129`), contrary to the comment at `1434-1439`.  Another participant may sort and read
  the array in between: the leaf is never read (`C93_violated`).
* **C94** A row past the range finishes the scan (`src/btree/scan.c:2914-2919`, `3026-3031`), though leaves on
  disk are still to be read; with the leader alone their rows are missing (`C94_violated`).
* **C95** The historical images are always read forward (`src/btree/scan.c:2788-2930`), iterators as well
  (`914-921`).  In backward scans rows come in wrong order, and twice (`C95_violated`,
  `C95_iter_violated`).
* **C96** A participant which has found the array full looks only at its own number, not at the segment it
  is attached to, before it copies the array (`src/btree/scan.c:761-783`).  With more than 16 participants
  entries can be lost (`C96_violated`).
* **C98** A worker which ends between `s3_header_mark_part_loaded` and the erasure of its task
  (`src/s3/worker.c:391, 586`) downloads the part once more.  If the part has been evicted and requested
  again, it serves that request; the task of it is still in the queue, and its download overwrites the part
  while it is locked (`C98_violated`).
* **C99** The same replay writes over what has been written meanwhile: the status is looked at only after
  the download (`src/s3/worker.c:368-391`; `C99_violated_replayed_download`).  Two uploads of a part can run at
  once, as `s3_header_mark_part_writing` clears the flag of scheduling; the first to end clears the flag of both
  (`src/s3/headers.c:920`), the part can be evicted, and the other one uploads zeros
  (`C99_violated_two_uploads`), or the older one is put last (`C99_violated_older_last`).  A worker restarted
  after `s3_header_mark_part_written` uploads zeros if the part has been evicted
  (`C99_violated_replayed_upload`).  A part without data (one past the end of the data, which the eviction goes
  through because of the 8 KiB before the first part) is evicted too; the first write to it waits for an object
  which does not exist (`C99_violated_empty_part`).
* **C100** `numParts` (`src/s3/headers.c:1250`) is computed from the size with the header.  If the data end
  within 8 KiB before the end of a part, the next part gets a negative length (`1303`;
  `C100_violated_length`); for a full segment index 1024 is read, past the end of the header
  (`C100_violated_index`).  The start of the server checks this (`C100_start`).
* **C101** `btree_smgr_write` uses `amount` after the loop has counted it down (`src/btree/io.c:665-676`): the second
  part of a page across two parts is not given to the list unless it got more bytes than the first
  (`C101_violated`).
* **C102** The list of dirty parts is changed without a lock (`src/btree/io.c:557-585`); two processes
  which read the same slot lose one of the parts (`C102_violated`).
* **C104** A file of the checkpoint to come whose parts are all uploaded and evicted is removed; its header, read
  again, says that all parts are local (`src/s3/headers.c:227-234`; `C104_violated`).
* **C107** A transaction needs all of its places free at once (`src/rewind/rewind.c:1643, 1699`), but
  eviction cannot pass the items that are not filled.  With as many items as the buffer has slots it waits for ever
  (`C107_violated`): 108751 subtransactions for the default `orioledb.rewind_buffers`, 5051 for the smallest.
* **C109** `do_rewind` stops at the first item before the target (`src/rewind/rewind.c:545-565`).  Ids and times do not
  grow along the queue (places are reserved at `1630`, after the id was given and before the time is taken), so that a
  rewind can stop too early (`C109_violated`).
* **C110** After "Rewind will be based only on rewind XID" `do_rewind` still gets both ids (`894`); every
  orioledb transaction precedes a future `oxid`, nothing is undone (`C110_violated`).
* **C111** No lock spans the commit (`src/transam/undo.c:2679`) and the reservation of the place (`2690`):
  the order can be reversed (`C111_violated`).
* **C112** `checkpointPos` is kept between checkpoints (`src/rewind/rewind.c:1892`) though each checkpoint has a file of
  its own: a second checkpoint leaves out what the first has written (`C112_violated`).  The worker moves items from
  the add buffer to the complete buffer without `rewindCheckpointLock`; an item can escape the checkpoint
  (`C112_violated_race`).
* **C113** `minRetainLocation` is taken when the item is filled (`src/rewind/rewind.c:1785`), not in the order of the
  queue.  A late filling can carry a location beyond the undo of an item behind it, and its completion (`1379`)
  gives that undo up (`C113_violated`).
* **C114** The request to stop is looked at only if the queue is not empty (`src/rewind/rewind.c:1264-1275`;
  `C114_violated`).  The rewinding backend holds `rewindEvictLock` (`846`) while it waits; a worker that is about to
  take it (`1096`) never stops (`C114_violated_lock`).
* **C115** `read_small_file` (`src/s3/checkpoint.c:758-782`) takes a short read for a full one: when the file became
  shorter after `lstat`, bytes of uninitialised memory go into the pack and to the bucket (`C115_violated`).
* **C116** The names are written as they are and read with `%1023[^,]` (`src/s3/checksum.c:99, 175`): one file with a
  comma in its name makes every later backup fail (`C116_violated`).
* **C117** The checksums that a worker has not flushed are gone when it is restarted, for example by the FATAL error of
  a failed PUT (`src/s3/requests.c:582`; the comment at `src/s3/worker.c:1006` knows of the restart).  An unchanged
  file among them is neither uploaded nor listed, the loader does not restore it (`C117_violated`).
* **C118** `s3_perform_backup` frees the checksum state of small files without flushing it
  (`src/s3/checkpoint.c:301-315`).  The last 1 to 100 files of the scan are never listed; those of them that had not
  changed are not packed either and are lost for the loader (`C118_violated`: always so for the last file of the scan,
  if it has not changed).
* **C118** `download_unchanged_small_files` iterates over the keys of a dictionary as if they were pairs
  (`orioledb_s3_loader.py:482`): an exception as soon as one listed file did not change in the last two checkpoints
  (`C118_violated_older`).
* **C119** The same function takes any listed name it finds in the packs of the former checkpoint without a look at the
  number of the entry (`orioledb_s3_loader.py:453`): after a backup given up it can restore the wrong contents
  (`C119_violated`).
* **C123** The state byte of an index record may be absent (`src/catalog/o_indices.c:1072-1083`), for records of older
  releases.  So a record that lacks exactly its last byte, whose last chunk holds one byte and is missing, is accepted,
  and an index that `CREATE INDEX CONCURRENTLY` is building is taken as valid (`C123_violated`: every index record).
* **C124** `refresh_exprs` is not stored and `serialize_o_table` does not look at it.  A server of a new major version
  that reads a table with expressions, changes something else and calls `o_tables_update`
  (`src/catalog/o_tables.c:1739-1766`) writes NULL trees under its own version; the next read finds nothing to refresh
  (`C124_violated`: every table with node trees, every such change).  The automatic refresh
  (`src/catalog/ddl.c:5641-5660`) covers the current database only, but `ALTER DATABASE … SET TABLESPACE` is executed
  in another one: `o_tables_move_all` (`src/catalog/ddl.c:4692`) rewrites all tables of the moved database and, through
  `make_o_index`, its indexes.  Expression and partial indexes are then used with NULL trees instead of being refused
  (`src/catalog/o_indices.c:1376`).
* **C125, C127** `orioledb_on_shmem_exit` (`src/orioledb.c:1568-1576`, registered at 1628) deletes the lock also when
  the postmaster reinitializes after the crash of a backend; `s3_put_lock_file` is called by `_PG_init` only (1351).
  From then on the instance runs without a lock and a second one can start (`C125_violated_restart`).
* **C125, C126** The lock file lies in the data directory and a base backup copies it; a copy that holds it takes the
  lock of the original for its own (`src/s3/control.c:257-270`).  Both run (`C125_violated_copy`) and the control file
  of the bucket goes back (`C126_violated`).
* **C127** A copy whose control file is behind is refused by `s3_check_control`, and then `s3_delete_lock_file`
  (`src/orioledb.c:1354`) deletes the lock of the running original (`C127_violated`).
* **C128** A kill between the creation of `orioledb_data/s3_lock` and the writing of the identifier
  (`src/s3/control.c:188-194`) leaves an empty file, at which every later start ends with a FATAL error (155-160;
  `C128_violated`).
* **C129, C132** `read_from_file` ends the process with a FATAL error (`src/s3/headers.c:212-214`, 237-239: no file
  descriptor left, an error of `pread`) after `change_buffer` has changed the tags (299-300) and before the words are
  exchanged.  The lock is released and the server goes on.  The buffer then has the new tag and the old words: everybody
  who wants a word of the new header searches forever (`C132_violated`), and the next change of the buffer writes the old
  words to the file of the new header, while the changes of the old one are lost (`C129_violated_fatal`; with assertions
  the one at 337 fails).
* **C129, C131** A failed `pg_pwrite` in `write_to_file` is only logged (261-264); the dirty bits have been cleared, the
  words are lost (`C129_violated_write`, `C131_violated`).
* **C130** If the exchange fails because the buffer was given to another header, `*oldValue` is a word of that header
  (639).  `s3_header_mark_part_scheduled_for_write` returns false if it is not dirty (848-849), so a dirty part is not
  uploaded by this checkpoint (`C130_violated`).
* **C133** `o_sys_cache_key_cmp` puts the difference of two OIDs into an `int` (`src/catalog/o_sys_cache.c:2292`): OIDs
  that differ by 2^31 or more compare in the wrong order, so that the comparison is not transitive and the tree has no
  order for 1, 0x60000001 and 0xC0000001 (`C133_violated`).
* **C134** `o_sys_cache_get_from_tree` frees the version it keeps before it looks at the LSN of the next one
  (591-596).  If that one is too new, the freed memory is returned and stays in the fast cache.  Two versions arise
  because callers read the LSN before the entry is locked (`C134_violated_freed`).  A search that hits the fast cache
  does not look at the LSN at all (`C134_violated_lsn`).
* **C135** The hash value zero stands for all entries (PostgreSQL calls the callbacks with it when the invalidation queue
  overflowed), `invalidate_fastcache_entry` drops only the bucket of that value (`C135_violated`).
* **C136** The mark of a dropped entry is written at once, in a transaction of its own, and `o_sys_cache_delete_by_lsn`
  compares the LSN at which the entry was *added* (1083).  A checkpoint between `DROP TYPE` and `ROLLBACK` removes the
  entry of a type that exists (`C136_violated_rollback`).  `o_sys_cache_add_if_needed` takes an entry marked as deleted
  for present (901-907): the refresh of stale functions (`src/utils/planner.c:924-926`) marks them and adds nothing, and
  the next checkpoint removes them (`C136_violated_refresh`).  A mark read by another backend survives the rollback
  in its fast cache and is written back by its next update (`C136_violated_stale`).
* **C137** `o_sys_cache_copy_tree` passes the stored entry as the key (2827-2834), whose names are offsets, and
  `o_sys_cache_add` reads them as pointers (696-698): `CREATE DATABASE` from a template with an entry in the cache of
  enum labels crashes (`C137_violated`).
* **C138** With `=` on all columns of the index the range is exact, and `o_iterate_index` returns the row without
  `is_tuple_valid` (`src/tableam/index_scan.c:771-803`): `a = 1 AND b = 2 AND (a, b) > (1, 5)` returns `(1, 2)`
  (`C138_violated_exact`).  The bounds of all members have the direction of the first (`src/tableam/key_range.c:383-390`):
  on an index `(a, b DESC)` the comparison `(a, b) > (1, 2)` misses `(1, 3)` and returns `(1, 1)`
  (`C138_violated_mixed`).  `SK_ISNULL` of a member is not looked at (391-393): `(a, b) > (1, NULL)` returns `(1, 5)`,
  or crashes for a type passed by reference (`C138_violated_null`).
* **C139** The loop over arrays in `is_tuple_valid` neither stops for a row already refused nor looks at `isnull`
  (`src/tableam/index_scan.c:179-253`): `a > 1 AND b = ANY ('{x,y}'::text[])` on an index `(a, b)` compares with a null
  pointer when a row has NULL in `b` (`C139_violated`).
* **C141** With two or more skip arrays NULL in their columns is handled wrongly.  `is_tuple_valid` refuses NULL for a
  bound with a value, also for the lower bound "behind the last value" (`src/tableam/index_scan.c:144-162`): on an index
  `(a, b, c)` with rows `(1, 2, 3)` and `(1, NULL, 3)` the condition `c = 3` returns only the first
  (`C141_violated_null`).  Read backward, the first row found may have NULL in `a`: then `a` stays without bounds while
  `b` is bound to the value of that row (`src/tableam/index_scan.c:709-738`), so rows of other values of `a` are lost
  (`C141_violated_lost`) or returned twice (`C141_violated_twice`).
* **C142** An entry of the enum cache is made once for a label and then never changed
  (`src/catalog/o_sys_cache.c:900-906`).  When `ALTER TYPE … ADD VALUE` gives all values new sort orders, recovery has the
  old ones and compares wrongly (`C142_violated_renumber`).  When a label is renamed and then used for a new value, the
  new value is not entered (`C142_violated_label`).  Reading the entries stops at the first of a later LSN, though they are
  in the order of labels (`src/catalog/o_enum_cache.c:427-431`): values behind it are not found (`C142_violated_lsn`).
  Not modelled, seen while reading: the look-up by type and label takes the OID of the type for the label
  (`src/catalog/o_sys_cache.c:2060`, `src/catalog/o_enum_cache.c:343`), a pointer to nowhere.
* **C148** Replay of an INSERT hands the identifier for bridged indexes to `btree_ctid_update_if_needed`
  (`src/recovery/worker.c:985-992`), which raises the counter `ctid` (`src/btree/btree.c:313-316`).  Nothing raises
  `bridge_ctid`, which INSERTs use (`src/btree/btree.c:324`).  After a crash, or on a promoted standby, this counter is that
  of the last checkpoint, and INSERTs get identifiers in use.  They fail with a duplicate in the bridge index
  (`src/tableam/operations.c:362-363`), one for each row inserted since the checkpoint
  (`C148_violated`, `C148_violated_all`).

## Seeded faults: what the log leaves out

* Edits thought to break no claim were tried as well; most of those are not in `seeded/LOG.jsonl`.
* No faults were seeded into `Verif/Ctid` (C147, C148) and `Verif/BridgeVacuum/Pages` (C149), and only part of those
  planned for `Verif/BridgeVacuum/Model` (C145, C146; the functions up to `rounds`).
