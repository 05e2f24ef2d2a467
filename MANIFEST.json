{
 "claims": [
  {
   "property": "C01",
   "status": "proved",
   "theorems": [
    "Verif.Wal.C01_container_roundtrip"
   ],
   "note": "All record types, all header combinations of format version 19."
  },
  {
   "property": "C02",
   "status": "partial",
   "theorems": [
    "Verif.Wal.C02_parse_stays_inside_partial",
    "Verif.Wal.C02_violated"
   ],
   "note": "Holds for every non-empty container; an empty container makes the reader fetch one byte past its end (wal_reader.c:468)."
  },
  {
   "property": "C03",
   "status": "proved",
   "theorems": [
    "Verif.Wal.C03_old_versions"
   ],
   "note": "Versions 0 and 16-19."
  },
  {
   "property": "C04",
   "status": "partial",
   "theorems": [
    "Verif.Wal.C04_attribution_partial",
    "Verif.Wal.C04_violated"
   ],
   "note": "False after a transaction that logged only non-row records ends (wal.c:240-246, 301-307 keep contains_xid); proved for runs without such transactions."
  },
  {
   "property": "C05",
   "status": "proved",
   "theorems": [
    "Verif.Wal.C05_no_overflow",
    "Verif.Wal.C05_recovery_rollback"
   ],
   "note": ""
  },
  {
   "property": "C06",
   "status": "proved",
   "theorems": [
    "Verif.Wal.C06_changes"
   ],
   "note": ""
  },
  {
   "property": "C34",
   "status": "partial",
   "theorems": [
    "Verif.Wal.C34_ends_logged_partial"
   ],
   "note": "Needs the same restriction as C04: no transaction that logged only non-row records ends in the run."
  },
  {
   "property": "C07",
   "status": "proved",
   "theorems": [
    "Verif.Extents.C07_no_double_handout",
    "Verif.Extents.C07_conservation",
    "Verif.Extents.C07_operations",
    "Verif.Extents.C07_reuse",
    "Verif.Extents.C07_listing",
    "Verif.Extents.C07_local_pop"
   ],
   "note": "Interleavings of any number of processes at tree-operation granularity; lengths and reuse for non-overlapping operations."
  },
  {
   "property": "C08",
   "status": "proved",
   "theorems": [
    "Verif.Extents.C08_indexes_agree",
    "Verif.Extents.C08_coalesced",
    "Verif.Extents.C08_concurrent_release_unmerged"
   ],
   "note": "Agreement for every interleaving; coalescing for operations one after another (simultaneous releases of neighbours may stay unmerged)."
  },
  {
   "property": "C35",
   "status": "partial",
   "theorems": [
    "Verif.Extents.C35_drain_partial",
    "Verif.Extents.C35_violated"
   ],
   "note": "Holds with remove_old_checkpoint_files = on; with off the loop re-reads the same file for ever (free_extents.c:572-632)."
  },
  {
   "property": "C09",
   "status": "partial",
   "theorems": [
    "Verif.SeqBuf.C09_written",
    "Verif.SeqBuf.C09_append",
    "Verif.SeqBuf.C09_append_progress",
    "Verif.SeqBuf.C09_read_partial",
    "Verif.SeqBuf.C09_end_to_end_partial",
    "Verif.SeqBuf.C09_violated",
    "Verif.SeqBuf.C09_evict_at_start_loses_items"
   ],
   "note": "Writing in full; reading for files below 2 GiB: the reader keeps the size in a C int and panics above (C09_violated)."
  },
  {
   "property": "C10",
   "status": "partial",
   "theorems": [
    "Verif.S3Queue.C10_partial",
    "Verif.S3Queue.C10_violated",
    "Verif.S3Queue.C10_erase_race",
    "Verif.S3Queue.C10_erase_race_loses_task"
   ],
   "note": "FIFO, intact bodies, disjoint space, no loss of tasks or space for all interleavings; fails for tasks wrapping around the ring end and when a put falls between the two stores of an erase."
  },
  {
   "property": "C36",
   "status": "partial",
   "theorems": [
    "Verif.S3Queue.C36_wait_for_own",
    "Verif.S3Queue.C36_violated",
    "Verif.S3Queue.C36_never_released"
   ],
   "note": "First half proved; the second half is false for the code."
  },
  {
   "property": "C11",
   "status": "partial",
   "theorems": [
    "Verif.PagePool.C11_conserved",
    "Verif.PagePool.C11_free_pages_cover_reservations",
    "Verif.PagePool.C11_alloc_never_fails",
    "Verif.PagePool.C11_failed_reservation",
    "Verif.PagePool.C11_release",
    "Verif.PagePool.C11_local_partial",
    "Verif.PagePool.C11_local_violated",
    "Verif.PagePool.C11_local_exhausted_for_ever"
   ],
   "note": "Shared pool in full for all interleavings; local pool as long as no reservation fails (a failed one leaks, page_pool.c:617-627)."
  },
  {
   "property": "C12",
   "status": "proved",
   "theorems": [
    "Verif.Ucm.C12_exact_when_quiet",
    "Verif.Ucm.C12_leaf_counters",
    "Verif.Ucm.C12_occupy",
    "Verif.Ucm.C12_next",
    "Verif.Ucm.C12_other_masks_disagree"
   ],
   "note": "Exact for every interleaving wherever no update of that level is in flight below the word; searches on a map that does not change meanwhile, mask_src = 1."
  },
  {
   "property": "C13",
   "status": "proved",
   "theorems": [
    "Verif.PageState.C13_exclusive",
    "Verif.PageState.C13_word",
    "Verif.PageState.C13_acquire",
    "Verif.PageState.C13_writer"
   ],
   "note": "All interleavings of any number of backends."
  },
  {
   "property": "C14",
   "status": "proved",
   "theorems": [
    "Verif.PageState.C14_not_lost",
    "Verif.PageState.C14_list_exact",
    "Verif.PageState.C14_woken_once",
    "Verif.PageState.C14_woken_runs",
    "Verif.PageState.C14_no_crash",
    "Verif.PageState.C14_unlock",
    "Verif.PageState.C14_no_stall",
    "Verif.PageState.C14_reader"
   ],
   "note": "All interleavings, including retries of the unlock loop while new waiters push themselves."
  },
  {
   "property": "C15",
   "status": "partial",
   "theorems": [
    "Verif.PageState.C15_partial",
    "Verif.PageState.C15_version",
    "Verif.PageState.C15_violated"
   ],
   "note": "Assumes fewer than 2^32 changes of the page during one copy; with exactly 2^32 the 32-bit change count wraps (C15_violated)."
  },
  {
   "property": "C37",
   "status": "partial",
   "theorems": [
    "Verif.PageState.C37_partial",
    "Verif.PageState.C37_no_excess",
    "Verif.PageState.C37_violated_insert",
    "Verif.PageState.C37_violated_change"
   ],
   "note": "Holds for lock and read waits; false for insert waits (page_state.c:589) and change waits (694)."
  },
  {
   "property": "C38",
   "status": "partial",
   "theorems": [
    "Verif.PageState.C38_partial",
    "Verif.PageState.C38_violated"
   ],
   "note": "Holds for change counts below 4096; the state is truncated to 32 bits (page_state.c:678)."
  },
  {
   "property": "C26",
   "status": "proved",
   "theorems": [
    "Verif.KeyBitmap.C26_sets",
    "Verif.KeyBitmap.C26_sets_fixed"
   ],
   "note": "Both modes, any program over any number of bitmaps. The radix tree is taken as an ordered map."
  },
  {
   "property": "C27",
   "status": "proved",
   "theorems": [
    "Verif.KeyBitmap.C27_seeks",
    "Verif.KeyBitmap.C27_seeks_fixed"
   ],
   "note": "Both modes; also no null pointer and no access outside an array."
  },
  {
   "property": "C39",
   "status": "partial",
   "theorems": [
    "Verif.KeyBitmap.C39_codes_partial",
    "Verif.KeyBitmap.C39_codes_int",
    "Verif.KeyBitmap.C39_keys",
    "Verif.KeyBitmap.C39_violated"
   ],
   "note": "Proved for integers and for all 24-byte keys; false for tuple identifiers with block numbers from 65536 on (bitmap_scan.c:182)."
  },
  {
   "property": "C40",
   "status": "partial",
   "theorems": [
    "Verif.KeyBitmap.C40_same_key_partial",
    "Verif.KeyBitmap.C40_disjoint_partial",
    "Verif.KeyBitmap.C40_violated",
    "Verif.KeyBitmap.C40_undefined"
   ],
   "note": "Holds if the types of the last leaf columns agree with the primary key; false for indexes that reuse primary key columns (bitmap_scan.c:602)."
  },
  {
   "property": "C41",
   "status": "partial",
   "theorems": [
    "Verif.KeyBitmap.C41_page_partial",
    "Verif.KeyBitmap.C41_page_fixed_partial",
    "Verif.KeyBitmap.C41_next",
    "Verif.KeyBitmap.C41_next_fixed",
    "Verif.KeyBitmap.C41_violated",
    "Verif.KeyBitmap.C41_violated_fixed"
   ],
   "note": "Next-key jumps in full; page test fails only for the largest key on a page without upper bound."
  },
  {
   "property": "C16",
   "status": "proved",
   "theorems": [
    "Verif.Tuple.C16_round_trip",
    "Verif.Tuple.C16_defined"
   ],
   "note": "All descriptors and rows, shared offset cache, rows written before columns were added."
  },
  {
   "property": "C17",
   "status": "partial",
   "theorems": [
    "Verif.Tuple.C17_size_partial",
    "Verif.Tuple.C17_violated"
   ],
   "note": "The bytes written always are those computed; the length kept in the header is right below 32768 bytes only (format.c:597)."
  },
  {
   "property": "C42",
   "status": "partial",
   "theorems": [
    "Verif.Tuple.C42_direct_partial",
    "Verif.Tuple.C42_violated"
   ],
   "note": "Proved for columns the row was stored with; false for columns added later (format.h:88-137)."
  },
  {
   "property": "C43",
   "status": "partial",
   "theorems": [
    "Verif.Tuple.C43_oversize_partial",
    "Verif.Tuple.C43_violated"
   ],
   "note": "Proved for rows below 32768 bytes; larger rows can be accepted."
  },
  {
   "property": "C44",
   "status": "proved",
   "theorems": [
    "Verif.Tuple.C44_set_version"
   ],
   "note": "Rows below 32768 bytes including the header; the size check is meant to keep rows far below."
  },
  {
   "property": "C45",
   "status": "proved",
   "theorems": [
    "Verif.Tuple.C45_set_ctid",
    "Verif.Tuple.C45_last_iptr"
   ],
   "note": ""
  },
  {
   "property": "C18",
   "status": "partial",
   "theorems": [
    "Verif.LogicalXid.C18_unique_partial",
    "Verif.LogicalXid.C18_settled_partial",
    "Verif.LogicalXid.C18_violated",
    "Verif.LogicalXid.C18_id_range",
    "Verif.LogicalXid.C18_no_leak",
    "Verif.LogicalXid.C18_finish_releases",
    "Verif.LogicalXid.C18_sub_end",
    "Verif.LogicalXid.C18_free_id_found"
   ],
   "note": "All histories of any number of processes. Uniqueness fails between handing back a subtransaction's id and writing its last records (oxid.c:689-712); reuse proved in full."
  },
  {
   "property": "C46",
   "status": "partial",
   "theorems": [
    "Verif.LogicalXid.C46_partial",
    "Verif.LogicalXid.C46_violated"
   ],
   "note": "Proved when no id is given twice within a transaction; the allocator does give ids twice, and then changes are lost."
  },
  {
   "property": "C47",
   "status": "proved",
   "theorems": [
    "Verif.LogicalXid.C47_not_running"
   ],
   "note": ""
  },
  {
   "property": "C28",
   "status": "partial",
   "theorems": [
    "Verif.OBuffers.C28_partial",
    "Verif.OBuffers.C28_violated",
    "Verif.OBuffers.C28_violated_missing"
   ],
   "note": "Any number of processes and any interleaving. False for writes with mark_clean (o_buffers.c:393) and for reads of a missing file concurrent with a write (o_buffers.c:249)."
  },
  {
   "property": "C29",
   "status": "proved",
   "theorems": [
    "Verif.OBuffers.C29_retained",
    "Verif.OBuffers.C29_other_tags"
   ],
   "note": "The cleanup functions run alone."
  },
  {
   "property": "C48",
   "status": "partial",
   "theorems": [
    "Verif.OBuffers.C48_partial",
    "Verif.OBuffers.C48_violated"
   ],
   "note": "Holds when no position is inside the last block of a file; otherwise the file stays (o_buffers.c:671-684). No checkpoint range retained."
  },
  {
   "property": "C32",
   "status": "partial",
   "theorems": [
    "Verif.Relnode.C32_partial",
    "Verif.Relnode.C32_always_fatal",
    "Verif.Relnode.C32_violated"
   ],
   "note": "False: after any deferred drop the replay ends in FATAL (btree/undo.c:804, 813, 898-900). What holds: nothing is removed while a backup runs or when nothing was deferred."
  },
  {
   "property": "C33",
   "status": "proved",
   "theorems": [
    "Verif.Relnode.C33_complete"
   ],
   "note": "Any number of trees. Locks and invalidation not modelled."
  },
  {
   "property": "C19",
   "status": "partial",
   "theorems": [
    "Verif.OxidMap.C19_partial",
    "Verif.OxidMap.C19_violated_flush",
    "Verif.OxidMap.C19_violated_clean",
    "Verif.OxidMap.C19_violated_past"
   ],
   "note": "False in three interleavings with the checkpointer. What holds: in every run of any number of sessions in which none of the three happens, look-ups and changes are linearizable."
  },
  {
   "property": "C20",
   "status": "partial",
   "theorems": [
    "Verif.OxidMap.C20_partial",
    "Verif.OxidMap.runXmin_monotone",
    "Verif.OxidMap.C20_violated"
   ],
   "note": "Catching up fails after a lost commit (C19). What holds: never going back, always; safety and catching up in the runs of C19_partial."
  },
  {
   "property": "C51",
   "status": "partial",
   "theorems": [
    "Verif.OxidMap.C51_partial",
    "Verif.OxidMap.C51_violated"
   ],
   "note": "False when the ids in the ring reach into the page that shares the ring slots of the page of writtenXmin. What holds: in every other state in which dirty marks are right."
  },
  {
   "property": "C21",
   "status": "partial",
   "theorems": [
    "Verif.Snapshots.C21_partial",
    "Verif.Snapshots.C21_violated",
    "Verif.Snapshots.C21_violated_late",
    "Verif.Snapshots.tie_top"
   ],
   "note": "False after a reset of xmin when snapshots have equal undo locations, and around the abort of an autonomous transaction. What holds: all runs without these two."
  },
  {
   "property": "C22",
   "status": "partial",
   "theorems": [
    "Verif.Snapshots.C22_partial",
    "Verif.Snapshots.C22_violated"
   ],
   "note": "False after a reset of xmin when snapshots have equal undo locations. What holds: all runs without such ties and without aborts of autonomous transactions."
  },
  {
   "property": "C49",
   "status": "partial",
   "theorems": [
    "Verif.Snapshots.C49_partial",
    "Verif.Snapshots.C49_violated"
   ],
   "note": "False for autonomous transactions, whose status changes before their changes are undone. What holds: all runs without their aborts and without ties at resets of xmin."
  },
  {
   "property": "C50",
   "status": "partial",
   "theorems": [
    "Verif.Snapshots.C50_partial",
    "Verif.Snapshots.C50_violated"
   ],
   "note": "False when snapshots have equal undo locations. What holds: all runs without such ties at resets and without aborts of autonomous transactions."
  },
  {
   "property": "C23",
   "status": "proved",
   "theorems": [
    "Verif.UndoLog.C23_holds"
   ],
   "note": "All runs of any number of processes; one undo log."
  },
  {
   "property": "C52",
   "status": "proved",
   "theorems": [
    "Verif.UndoLog.C52_holds"
   ],
   "note": "All runs of any number of processes; callers reserve twice the size of the record, as they do."
  },
  {
   "property": "C25",
   "status": "partial",
   "theorems": [
    "Verif.UndoLog.C25_partial",
    "Verif.UndoLog.C25_violated"
   ],
   "note": "False when a session that has a snapshot finishes building an index: the location retained by all its snapshots is discarded. What holds: all runs without that, and without a record handed to a waiting process during the scan."
  },
  {
   "property": "C53",
   "status": "partial",
   "theorems": [
    "Verif.UndoLog.C53_partial",
    "Verif.UndoLog.C53_violated",
    "Verif.UndoLog.C53_violated_hand"
   ],
   "note": "False in the failing cases of C25 and C54. What holds: all other runs, byte by byte."
  },
  {
   "property": "C54",
   "status": "partial",
   "theorems": [
    "Verif.UndoLog.C54_partial",
    "Verif.UndoLog.C54_violated"
   ],
   "note": "False when a record is handed to a waiting process while the retained locations are being collected. What holds: all runs without that and without the failing case of C25."
  },
  {
   "property": "C24",
   "status": "partial",
   "theorems": [
    "Verif.UndoStack.C24_partial",
    "Verif.UndoStack.C24_partial_change_first",
    "Verif.UndoStack.C24_partial_once",
    "Verif.UndoStack.C24_violated"
   ],
   "note": "False when the first change is made inside a savepoint, a nested savepoint is started and both are released: a later rollback to a savepoint undoes everything. What holds: all runs in which no savepoint is started outside the level of the first one started after a change, among them all transactions that make a change before their first savepoint; and in all runs each change of an aborted transaction is undone exactly once."
  },
  {
   "property": "C56",
   "status": "proved",
   "theorems": [
    "Verif.UndoStack.C56_ordered"
   ],
   "note": "All sequences of events; one undo log."
  },
  {
   "property": "C57",
   "status": "proved",
   "theorems": [
    "Verif.UndoStack.C57_branches"
   ],
   "note": "All sequences of events; one undo log."
  },
  {
   "property": "C30",
   "status": "partial",
   "theorems": [
    "Verif.RowLocks.C30_partial",
    "Verif.RowLocks.C30_violated_lost_lock",
    "Verif.RowLocks.C30_violated_key"
   ],
   "note": "False when two locks of ended transactions are adjacent in the chain of a row (a lock of a running transaction can be lost), and, if the number of a transaction in progress compares below the others, when a key update is followed by a non-key update. What holds: all other runs of any number of transactions on one row, with rollbacks. No savepoints, undo never discarded."
  },
  {
   "property": "C31",
   "status": "partial",
   "theorems": [
    "Verif.RowLocks.C31_partial",
    "Verif.RowLocks.C31_violated"
   ],
   "note": "False, if the number of a transaction in progress compares below the others, when a lock was granted above a delete, insert and update of one transaction. What holds: all runs that are regular in the sense of C30: the row contains what the newest change not rolled back left, and by C30_partial the locks of the others are still effective."
  },
  {
   "property": "C55",
   "status": "partial",
   "theorems": [
    "Verif.UndoFlush.C55_partial",
    "Verif.UndoFlush.C55_violated",
    "Verif.UndoFlush.C55_violated_clean"
   ],
   "note": "False when the ring is full and the eviction stopped within a page (the last page is left out and its dirty bit cleared), and when the evicted part of such a page is changed in place (the rest is evicted as clean). What holds: all other runs, for all page and ring sizes."
  },
  {
   "property": "C58",
   "status": "partial",
   "theorems": [
    "Verif.UndoFlush.C58_partial",
    "Verif.UndoFlush.C58_violated",
    "Verif.UndoFlush.C58_violated_clean"
   ],
   "note": "False in the same two cases as C55, once the buffer is replaced. What holds: all other runs, for all page and ring sizes."
  },
  {
   "property": "C59",
   "status": "partial",
   "theorems": [
    "Verif.PageSplit.C59_run_partial",
    "Verif.PageSplit.C59_page_partial",
    "Verif.PageSplit.C59_violated"
   ],
   "note": "False if equal keys differ in length (stale maxKeyLen). What holds: all runs in which keys that compare equal have the same length; for one page, if a replacement does not have a longer key than the page has seen."
  },
  {
   "property": "C60",
   "status": "partial",
   "theorems": [
    "Verif.PageSplit.C60_step_partial",
    "Verif.PageSplit.C60_lookup_partial"
   ],
   "note": "For all runs in which keys that compare equal have the same length; otherwise a run may end by C59_violated."
  },
  {
   "property": "C61",
   "status": "proved",
   "theorems": [
    "Verif.PageSplit.C61_leaf",
    "Verif.PageSplit.C61_inner"
   ],
   "note": "For all pages that meet the invariant of pages, which all operations keep."
  },
  {
   "property": "C62",
   "status": "partial",
   "theorems": [
    "Verif.PageSplit.C62_build_partial",
    "Verif.PageSplit.C62_violated_lost",
    "Verif.PageSplit.C62_violated_fillfactor"
   ],
   "note": "False if the root level grows while the last pages are written, and for small fill factors. What holds: from fill factor 40 the build succeeds with a prefix of the rows, with all if the root level does not grow then."
  },
  {
   "property": "C63",
   "status": "partial",
   "theorems": [
    "Verif.PageSplit.C63_entry_partial",
    "Verif.PageSplit.C63_violated"
   ],
   "note": "False for deleted entries of finished transactions, which splits and merges drop. What holds: no other entry vanishes."
  },
  {
   "property": "C64",
   "status": "partial",
   "theorems": [
    "Verif.PageSplit.C64_undo_partial",
    "Verif.PageSplit.C64_violated"
   ],
   "note": "False if a row updated by a running transaction is locked by another that finishes first. What holds: all runs without such locks."
  },
  {
   "property": "C65",
   "status": "partial",
   "theorems": [
    "Verif.Fastpath.C65_page_partial",
    "Verif.Fastpath.C65_ends",
    "Verif.Fastpath.C65_descent_partial",
    "Verif.Fastpath.C65_violated_open",
    "Verif.Fastpath.C65_violated_unique",
    "Verif.Fastpath.C65_violated_nan"
   ],
   "note": "False for bounds that exclude a value in a column other than the last, for unique indexes when the bound or row fixes the unique columns only, and with NaN. What holds: all other keys, in all pages and trees."
  },
  {
   "property": "C66",
   "status": "partial",
   "theorems": [
    "Verif.Fastpath.C66_regular",
    "Verif.Fastpath.C66_fast_partial",
    "Verif.Fastpath.C66_violated"
   ],
   "note": "Full for the regular search. False with the fast path in the failing cases of C65; proved in all others."
  },
  {
   "property": "C67",
   "status": "partial",
   "theorems": [
    "Verif.Fastpath.C67_regular",
    "Verif.Fastpath.C67_forward_partial",
    "Verif.Fastpath.C67_back_partial",
    "Verif.Fastpath.C67_violated_forward",
    "Verif.Fastpath.C67_violated_back",
    "Verif.Fastpath.C67_violated_unique"
   ],
   "note": "Full for the regular search, forward and backward. False with the fast path in the failing cases of C65; proved in all others. No arrays, row comparisons or concurrent changes."
  },
  {
   "property": "C68",
   "status": "proved",
   "theorems": [
    "Verif.Fastpath.C68_range",
    "Verif.Fastpath.C68_row"
   ],
   "note": "All lists of conditions: comparisons, IS NULL and IS NOT NULL."
  },
  {
   "property": "C69",
   "status": "proved",
   "theorems": [
    "Verif.PageChunks.page_contents",
    "Verif.PageChunks.page_not_broken",
    "Verif.PageChunks.page_insert_item",
    "Verif.PageChunks.page_replace_item",
    "Verif.PageChunks.page_rollback_item",
    "Verif.PageChunks.page_delete_item",
    "Verif.PageChunks.page_split_items",
    "Verif.PageChunks.page_reorg_items"
   ],
   "note": "All runs from a fresh page, any memory before. Chunk cuts are left open, so all choices are covered."
  },
  {
   "property": "C70",
   "status": "proved",
   "theorems": [
    "Verif.PageChunks.chunk_marks",
    "Verif.PageChunks.chunk_marks_reorg",
    "Verif.PageChunks.key_marks",
    "Verif.PageChunks.fast_item_address",
    "Verif.PageChunks.fast_key_address",
    "Verif.PageChunks.chunk_marks_rollback_violated"
   ],
   "note": "Insertions clear the mark for other formats or are followed by a reorganization, as in all callers. On leaf pages, where chunk marks are not used, a rollback can leave a wrong mark (chunk_marks_rollback_violated)."
  },
  {
   "property": "C71",
   "status": "partial",
   "theorems": [
    "Verif.Visible.C71_partial",
    "Verif.Visible.C71_reader_partial",
    "Verif.Visible.C71_dirty_read_violated",
    "Verif.Visible.C71_own_deletion_violated",
    "Verif.Visible.C71_later_command_violated",
    "Verif.Visible.C71_savepoint_violated"
   ],
   "note": "All histories in which no transaction changes a row again under the lock of another, for pages older than the snapshot, or readers that have undone nothing and have not deleted the row or changed it by the present command. In the other cases the claim is false: four witnesses."
  },
  {
   "property": "C72",
   "status": "partial",
   "theorems": [
    "Verif.Visible.C72_partial",
    "Verif.Visible.C72_skipped_rows_violated"
   ],
   "note": "Forward scans of readers without changes of their own, in all histories in which no transaction changes a row again under the lock of another and no page is split left of the boundary of an earlier merge, both with differential images. In the last case the claim is false: witness."
  },
  {
   "property": "C73",
   "status": "partial",
   "theorems": [
    "Verif.IndexAm.C73_scan_finds_rows_partial",
    "Verif.IndexAm.C73_primary_key_in_include_violated",
    "Verif.IndexAm.C73_column_twice_violated",
    "Verif.IndexAm.C73_tid_column_violated"
   ],
   "note": "All indexes that list no column twice, have no column of the primary key in INCLUDE and no column of type tid. For each of these three the claim is false: witnesses."
  },
  {
   "property": "C74",
   "status": "partial",
   "theorems": [
    "Verif.IndexAm.C74_unique_partial",
    "Verif.IndexAm.C74_nulls_not_distinct_partial",
    "Verif.IndexAm.C74_null_in_include_violated",
    "Verif.IndexAm.C74_nulls_not_distinct_update_violated"
   ],
   "note": "Keys without nulls, if no INCLUDE column is null; NULLS NOT DISTINCT, if there is no UPDATE. Otherwise the claim is false: witnesses."
  },
  {
   "property": "C75",
   "status": "partial",
   "theorems": [
    "Verif.Toast.C75_reads_back_partial",
    "Verif.Toast.C75_plain_statements_partial",
    "Verif.Toast.C75_no_chunk_left_partial",
    "Verif.Toast.C75_equal_value_violated",
    "Verif.Toast.C75_equal_key_violated",
    "Verif.Toast.C75_pointer_in_row_violated"
   ],
   "note": "All statements but UPDATEs that give a value out of line an equal one of another stored size or change the key to one that compares equal, and all tables but those so wide that 12 bytes per toastable column do not fit; for these the claim is false: witnesses. A second theorem has conditions on the statements only."
  },
  {
   "property": "C76",
   "status": "partial",
   "theorems": [
    "Verif.Toast.C76_row_fits_partial",
    "Verif.Toast.C76_null_columns_violated"
   ],
   "note": "All rows for which 12 bytes per toastable column fit. Otherwise the claim is false, as null columns are counted: witness."
  },
  {
   "property": "C77",
   "status": "partial",
   "theorems": [
    "Verif.Replay.C77_partial",
    "Verif.Replay.C77_violated",
    "Verif.Replay.C77_lost"
   ],
   "note": "All histories but those in which a subtransaction is rolled back after one within it was released; for these the claim is false: witness."
  },
  {
   "property": "C78",
   "status": "partial",
   "theorems": [
    "Verif.Replay.C78_partial",
    "Verif.Replay.C78_plain_partial",
    "Verif.Replay.C78_violated_across",
    "Verif.Replay.C78_violated_predicate",
    "Verif.Replay.C78_violated_include",
    "Verif.Replay.C78_violated_equal"
   ],
   "note": "All histories in which, besides the condition of C77, no transaction writes to a row before a savepoint and again after it, and no update changes an index entry but not its key. Without each of these conditions the claim is false: witnesses."
  },
  {
   "property": "C79",
   "status": "partial",
   "theorems": [
    "Verif.Image.C79_image_partial",
    "Verif.Image.C79_aborted_violated",
    "Verif.Image.C79_committed_violated"
   ],
   "note": "All histories in which no transaction that uses savepoints after the start of the replay has changed the row before its page was written. Without the condition the claim is false: two witnesses."
  },
  {
   "property": "C80",
   "status": "partial",
   "theorems": [
    "Verif.Image.C80_ends_partial",
    "Verif.Image.C80_violated"
   ],
   "note": "With the condition of C79, and if the transaction whose version is on the page is not met by the replay before the first change of the row, by another transaction. Without the latter the claim is false: witness."
  },
  {
   "property": "C81",
   "status": "proved",
   "theorems": [
    "Verif.Workers.C81_whole",
    "Verif.Workers.C81_outcome",
    "Verif.Workers.C81_case",
    "Verif.Workers.C81_needs_hot"
   ],
   "note": "All logs in which a transaction does nothing after its end, all interleavings, any number of workers, with hot standby."
  },
  {
   "property": "C82",
   "status": "partial",
   "theorems": [
    "Verif.Workers.C82_order_partial",
    "Verif.Workers.C82_violated"
   ],
   "note": "The order is kept among the transactions the startup process waits for, and among the others; in full if there are none of the former. Between the two kinds the claim is false: witness."
  },
  {
   "property": "C83",
   "status": "proved",
   "theorems": [
    "Verif.Workers.C83_no_deadlock",
    "Verif.Workers.C83_case"
   ],
   "note": "As a possibility: from every state there are moves which lead on. Fairness of the processes is not modelled."
  },
  {
   "property": "C84",
   "status": "proved",
   "theorems": [
    "Verif.Cic.C84_once",
    "Verif.Cic.C84_before",
    "Verif.Cic.C84_case"
   ],
   "note": ""
  },
  {
   "property": "C85",
   "status": "partial",
   "theorems": [
    "Verif.Cic.C85_bytes_partial",
    "Verif.Cic.C85_bytes_case",
    "Verif.Cic.C85_other_violated",
    "Verif.Cic.C85_freed_violated"
   ],
   "note": "Holds with entries in one file only; false with two: witnesses."
  },
  {
   "property": "C86",
   "status": "partial",
   "theorems": [
    "Verif.Cic.C86_last_partial",
    "Verif.Cic.C86_last_case",
    "Verif.Cic.C86_last_violated"
   ],
   "note": "Any number of processes; for indexes on the first columns of the table, in runs without undefined behaviour. False for other indexes: witness."
  },
  {
   "property": "C87",
   "status": "proved",
   "theorems": [
    "Verif.Cic.C87_complete"
   ],
   "note": "Rests on the covering pass over the table under the last lock."
  },
  {
   "property": "C88",
   "status": "partial",
   "theorems": [
    "Verif.Cic.C88_exact_partial",
    "Verif.Cic.C88_one_writer_partial",
    "Verif.Cic.C88_one_writer_case",
    "Verif.Cic.C88_two_writers_violated",
    "Verif.Cic.C88_delete_violated",
    "Verif.Cic.C88_failed_violated"
   ],
   "note": "Holds for indexes on the first columns, with one writing process and no statement failing half way. False in three ways otherwise: witnesses."
  },
  {
   "property": "C89",
   "status": "partial",
   "theorems": [
    "Verif.Cic.C89_defined_partial",
    "Verif.Cic.C89_defined_case",
    "Verif.Cic.C89_update_violated",
    "Verif.Cic.C89_delete_violated"
   ],
   "note": "Holds if no update changes indexed columns and these are the first of the table. False otherwise: witnesses."
  },
  {
   "property": "C90",
   "status": "partial",
   "theorems": [
    "Verif.Cic.C90_unique_partial",
    "Verif.Cic.C90_unique_case",
    "Verif.Cic.C90_nulls_violated",
    "Verif.Cic.C90_disk_violated"
   ],
   "note": "Holds if NULLs are distinct and all pages in memory. False otherwise: witnesses."
  },
  {
   "property": "C91",
   "status": "partial",
   "theorems": [
    "Verif.Cic.C91_insert_partial",
    "Verif.Cic.C91_insert_case",
    "Verif.Cic.C91_crash_violated",
    "Verif.Cic.C91_left_violated"
   ],
   "note": "Insertions succeed as long as there is no crash. The directory is always left."
  },
  {
   "property": "C92",
   "status": "partial",
   "theorems": [
    "Verif.SeqScan.C92_partial",
    "Verif.SeqScan.C92_right_partial",
    "Verif.SeqScan.C92_leaves_partial",
    "Verif.SeqScan.C92_case",
    "Verif.SeqScan.C92_violated"
   ],
   "note": "Holds unless an iterator is used for the first item of the leftmost page loaded again. False then: witness."
  },
  {
   "property": "C93",
   "status": "partial",
   "theorems": [
    "Verif.SeqScan.Share.C93_twice_partial",
    "Verif.SeqScan.Share.C93_partial",
    "Verif.SeqScan.Share.C93_one_partial",
    "Verif.SeqScan.Share.C93_case",
    "Verif.SeqScan.Share.C93_violated"
   ],
   "note": "No leaf is read twice; each is read if nobody adds a downlink after the sorting, in particular with one participant. False otherwise: witness."
  },
  {
   "property": "C94",
   "status": "partial",
   "theorems": [
    "Verif.SeqScan.Filter.C94_ordered_partial",
    "Verif.SeqScan.Filter.C94_partial",
    "Verif.SeqScan.Filter.C94_case",
    "Verif.SeqScan.Filter.C94_violated"
   ],
   "note": "Holds for ordered scans; for others if all leaves are in memory or none has rows past the range. False otherwise: witness."
  },
  {
   "property": "C95",
   "status": "partial",
   "theorems": [
    "Verif.SeqScan.Merge.C95_partial",
    "Verif.SeqScan.Merge.C95_backward_partial",
    "Verif.SeqScan.Merge.C95_case",
    "Verif.SeqScan.Merge.C95_violated",
    "Verif.SeqScan.Merge.C95_iter_violated"
   ],
   "note": "Holds for forward scans; for backward ones without historical images and iterators. False otherwise: witnesses."
  },
  {
   "property": "C96",
   "status": "partial",
   "theorems": [
    "Verif.SeqScan.Grow.C96_partial",
    "Verif.SeqScan.Grow.C96_case",
    "Verif.SeqScan.Grow.C96_violated"
   ],
   "note": "Holds with at most as many participants as places. False with 17 and 16: witness."
  },
  {
   "property": "C97",
   "status": "proved",
   "theorems": [
    "Verif.S3Parts.C97_word",
    "Verif.S3Parts.C97_case"
   ],
   "note": "A lock needs room in the 18 bits of the count, an unlock needs a lock; both hold in the protocol, as a process holds at most one lock."
  },
  {
   "property": "C98",
   "status": "partial",
   "theorems": [
    "Verif.S3Parts.C98_locks_partial",
    "Verif.S3Parts.C99_case",
    "Verif.S3Parts.C98_violated"
   ],
   "note": "Holds unless a worker is restarted after its last mark, or the uploads of a part overlap, or a part without data is evicted. False after such a restart: witness."
  },
  {
   "property": "C99",
   "status": "partial",
   "theorems": [
    "Verif.S3Parts.C99_contents_partial",
    "Verif.S3Parts.C99_case",
    "Verif.S3Parts.C99_violated_replayed_download",
    "Verif.S3Parts.C99_violated_two_uploads",
    "Verif.S3Parts.C99_violated_older_last",
    "Verif.S3Parts.C99_violated_replayed_upload",
    "Verif.S3Parts.C99_violated_empty_part"
   ],
   "note": "Holds in the same runs. False otherwise: five witnesses."
  },
  {
   "property": "C100",
   "status": "partial",
   "theorems": [
    "Verif.S3Parts.Io.C100_evict_partial",
    "Verif.S3Parts.Io.C100_start",
    "Verif.S3Parts.Io.C100_case",
    "Verif.S3Parts.Io.C100_violated_length",
    "Verif.S3Parts.Io.C100_violated_index"
   ],
   "note": "Holds at the start of the server, and for the eviction of parts with data. False for parts past the data: witnesses."
  },
  {
   "property": "C101",
   "status": "partial",
   "theorems": [
    "Verif.S3Parts.Io.C101_pieces",
    "Verif.S3Parts.Io.C101_scheduled_partial",
    "Verif.S3Parts.Io.C101_case",
    "Verif.S3Parts.Io.C101_violated"
   ],
   "note": "The pieces are right. The parts are noted if the write is within one part or the second part got more bytes. False otherwise: witness."
  },
  {
   "property": "C102",
   "status": "partial",
   "theorems": [
    "Verif.S3Parts.Dirty.C102_list_partial",
    "Verif.S3Parts.Dirty.C102_case",
    "Verif.S3Parts.Dirty.C102_violated"
   ],
   "note": "Holds if processes change the list one after the other. False otherwise: witness."
  },
  {
   "property": "C103",
   "status": "proved",
   "theorems": [
    "Verif.S3Parts.Io.C103_loads",
    "Verif.S3Parts.Io.C103_counted",
    "Verif.S3Parts.Io.C103_case"
   ],
   "note": ""
  },
  {
   "property": "C104",
   "status": "partial",
   "theorems": [
    "Verif.S3Parts.Unlink.C104_kept",
    "Verif.S3Parts.Unlink.C104_header_partial",
    "Verif.S3Parts.Unlink.C104_case",
    "Verif.S3Parts.Unlink.C104_violated"
   ],
   "note": "No file with loaded data is removed. The parts are known to be in S3 if the checkpoint of the file is finished. False otherwise: witness."
  },
  {
   "property": "C105",
   "status": "proved",
   "theorems": [
    "Verif.Rewind.C105_queue",
    "Verif.Rewind.C105_case"
   ],
   "note": "The rewinding backend holds the lock of the eviction, so no eviction is half done when it reads."
  },
  {
   "property": "C106",
   "status": "proved",
   "theorems": [
    "Verif.Rewind.C106_filled",
    "Verif.Rewind.C106_case"
   ],
   "note": ""
  },
  {
   "property": "C107",
   "status": "partial",
   "theorems": [
    "Verif.Rewind.C107_partial",
    "Verif.Rewind.C107_partial_case",
    "Verif.Rewind.C107_violated",
    "Verif.Rewind.C107_violated_case"
   ],
   "note": "Holds if the items leave room for a block and an empty slot. False for transactions with as many items as the buffer has slots: they wait for ever."
  },
  {
   "property": "C108",
   "status": "proved",
   "theorems": [
    "Verif.Rewind.C108_rewind",
    "Verif.Rewind.C108_rewind_midway",
    "Verif.Rewind.C108_case",
    "Verif.Rewind.C108_hyps_case",
    "Verif.Rewind.C108_midway_case"
   ],
   "note": "No backend is adding items (the rewind terminates the others first); the worker may have stopped anywhere."
  },
  {
   "property": "C109",
   "status": "partial",
   "theorems": [
    "Verif.Rewind.C109_partial",
    "Verif.Rewind.C109_partial_case",
    "Verif.Rewind.C109_violated"
   ],
   "note": "Holds for queues in which times, or oxids, do not decrease. False otherwise: witness."
  },
  {
   "property": "C110",
   "status": "partial",
   "theorems": [
    "Verif.Rewind.C110_partial",
    "Verif.Rewind.C110_partial_case",
    "Verif.Rewind.C110_violated"
   ],
   "note": "Holds if no queued transaction has an id of the other kind. False otherwise: witness."
  },
  {
   "property": "C111",
   "status": "partial",
   "theorems": [
    "Verif.Rewind.C111_partial",
    "Verif.Rewind.C111_partial_case",
    "Verif.Rewind.C111_violated"
   ],
   "note": "Holds if the first was queued before the second committed. False otherwise: witness."
  },
  {
   "property": "C112",
   "status": "partial",
   "theorems": [
    "Verif.Rewind.C112_partial",
    "Verif.Rewind.C112_partial_case",
    "Verif.Rewind.C112_violated",
    "Verif.Rewind.C112_violated_race"
   ],
   "note": "Holds for the first checkpoint after a start without an active worker. False for later checkpoints and with an active worker: witnesses."
  },
  {
   "property": "C113",
   "status": "partial",
   "theorems": [
    "Verif.Rewind.C113_partial",
    "Verif.Rewind.C113_partial_case",
    "Verif.Rewind.C113_violated"
   ],
   "note": "Holds if items are filled in the order of the queue. False otherwise: witness."
  },
  {
   "property": "C114",
   "status": "partial",
   "theorems": [
    "Verif.Rewind.C114_partial",
    "Verif.Rewind.C114_partial_case",
    "Verif.Rewind.C114_violated",
    "Verif.Rewind.C114_violated_lock"
   ],
   "note": "Holds if the queue is not empty and the worker is not restoring a page. False otherwise: two witnesses."
  },
  {
   "property": "C115",
   "status": "partial",
   "theorems": [
    "Verif.S3Backup.C115_partial",
    "Verif.S3Backup.C115_partial_case",
    "Verif.S3Backup.C115_violated"
   ],
   "note": "Holds for files that do not change during the backup. False for a file that becomes shorter: witness."
  },
  {
   "property": "C116",
   "status": "partial",
   "theorems": [
    "Verif.S3Backup.C116_partial",
    "Verif.S3Backup.C116_partial_case",
    "Verif.S3Backup.C116_small_partial",
    "Verif.S3Backup.C116_small_partial_case",
    "Verif.S3Backup.C116_violated"
   ],
   "note": "Holds for names without commas and newlines, not beginning with a blank, of at most 1023 bytes. False for a name with a comma: witness."
  },
  {
   "property": "C117",
   "status": "partial",
   "theorems": [
    "Verif.S3Backup.C117_partial",
    "Verif.S3Backup.C117_partial_case",
    "Verif.S3Backup.C117_violated"
   ],
   "note": "Holds if no worker fails during the last backup (in former ones they may). False otherwise: witness."
  },
  {
   "property": "C118",
   "status": "partial",
   "theorems": [
    "Verif.S3Backup.C118_partial",
    "Verif.S3Backup.C118_partial_case",
    "Verif.S3Backup.C118_violated",
    "Verif.S3Backup.C118_violated_older"
   ],
   "note": "Holds if each unchanged file is in the list with this number or the one before. False for the last files of the scan and for files unchanged in two checkpoints: shown for all series of backups, with witnesses."
  },
  {
   "property": "C119",
   "status": "partial",
   "theorems": [
    "Verif.S3Backup.C119_partial",
    "Verif.S3Backup.C119_partial_case",
    "Verif.S3Backup.C119_small_partial",
    "Verif.S3Backup.C119_small_partial_case",
    "Verif.S3Backup.C119_violated"
   ],
   "note": "Holds for files uploaded one by one, and for small files if no backup was given up. False for small files otherwise: witness."
  },
  {
   "property": "C120",
   "status": "proved",
   "theorems": [
    "Verif.CatRecords.C120_table",
    "Verif.CatRecords.C120_table_case"
   ],
   "note": "For every layout of the structures and every table whose arrays have the lengths its counts say."
  },
  {
   "property": "C121",
   "status": "proved",
   "theorems": [
    "Verif.CatRecords.C121_index",
    "Verif.CatRecords.C121_index_case"
   ],
   "note": "As C120; the key is not part of the record."
  },
  {
   "property": "C122",
   "status": "proved",
   "theorems": [
    "Verif.CatRecords.C122_other_major",
    "Verif.CatRecords.C122_other_major_case"
   ],
   "note": "Tables and indexes; the flag is set exactly if there was a node tree."
  },
  {
   "property": "C123",
   "status": "partial",
   "theorems": [
    "Verif.CatRecords.C123_partial",
    "Verif.CatRecords.C123_partial_case",
    "Verif.CatRecords.C123_violated"
   ],
   "note": "Holds for tables, and for indexes if two bytes or more are missing. False for every index record that lacks its last byte."
  },
  {
   "property": "C124",
   "status": "partial",
   "theorems": [
    "Verif.CatRecords.C124_partial",
    "Verif.CatRecords.C124_partial_case",
    "Verif.CatRecords.C124_violated"
   ],
   "note": "Holds for rewrites by a server of the same major version. False for every rewrite by another one."
  },
  {
   "property": "C125",
   "status": "partial",
   "theorems": [
    "Verif.S3Lock.C125_partial",
    "Verif.S3Lock.C125_partial_case",
    "Verif.S3Lock.C125_violated_restart",
    "Verif.S3Lock.C125_violated_copy"
   ],
   "note": "Holds if no backend crashes and no lock file is copied. False in both cases: witnesses."
  },
  {
   "property": "C126",
   "status": "partial",
   "theorems": [
    "Verif.S3Lock.C126_partial",
    "Verif.S3Lock.C126_check_partial",
    "Verif.S3Lock.C126_partial_case",
    "Verif.S3Lock.C126_violated"
   ],
   "note": "As C125."
  },
  {
   "property": "C127",
   "status": "partial",
   "theorems": [
    "Verif.S3Lock.C127_partial",
    "Verif.S3Lock.C127_partial_case",
    "Verif.S3Lock.C127_violated"
   ],
   "note": "As C125. False if a copy with the lock file is refused: witness."
  },
  {
   "property": "C128",
   "status": "partial",
   "theorems": [
    "Verif.S3Lock.C128_partial",
    "Verif.S3Lock.C128_partial_case",
    "Verif.S3Lock.C128_violated"
   ],
   "note": "Holds for an instance that was running. False for one killed between creating and writing its lock file, whatever follows."
  },
  {
   "property": "C129",
   "status": "partial",
   "theorems": [
    "Verif.S3Headers.C129_partial",
    "Verif.S3Headers.C129_partial_case",
    "Verif.S3Headers.C129_violated_fatal",
    "Verif.S3Headers.C129_violated_write"
   ],
   "note": "Proved for all interleavings without failures of reads and writes of headers. False with them: witnesses."
  },
  {
   "property": "C130",
   "status": "partial",
   "theorems": [
    "Verif.S3Headers.C130_partial",
    "Verif.S3Headers.C130_partial_case",
    "Verif.S3Headers.C130_violated"
   ],
   "note": "Holds if the buffer was not given to another header. False otherwise: witness."
  },
  {
   "property": "C131",
   "status": "partial",
   "theorems": [
    "Verif.S3Headers.C131_partial",
    "Verif.S3Headers.C131_partial_case",
    "Verif.S3Headers.C131_violated"
   ],
   "note": "As C129."
  },
  {
   "property": "C132",
   "status": "partial",
   "theorems": [
    "Verif.S3Headers.C132_deadlock_partial",
    "Verif.S3Headers.C132_case",
    "Verif.S3Headers.C132_violated"
   ],
   "note": "No deadlock, if nothing fails. False after a FATAL error in read_from_file, whatever follows. Fairness is not covered."
  },
  {
   "property": "C133",
   "status": "partial",
   "theorems": [
    "Verif.SysCache.C133_partial",
    "Verif.SysCache.C133_partial_case",
    "Verif.SysCache.C133_partial_bound",
    "Verif.SysCache.C133_partial_bound_case",
    "Verif.SysCache.C133_violated"
   ],
   "note": "Order proved for values of a column less than 2^31 apart; equality for all OIDs. False for OIDs further apart: witness."
  },
  {
   "property": "C134",
   "status": "partial",
   "theorems": [
    "Verif.SysCache.C134_partial",
    "Verif.SysCache.C134_partial_case",
    "Verif.SysCache.C134_partial_one",
    "Verif.SysCache.C134_partial_one_case",
    "Verif.SysCache.C134_violated_freed",
    "Verif.SysCache.C134_violated_lsn"
   ],
   "note": "Proved for searches that miss the fast cache if no LSN read earlier is used. False otherwise: witnesses."
  },
  {
   "property": "C135",
   "status": "partial",
   "theorems": [
    "Verif.SysCache.C135_partial",
    "Verif.SysCache.C135_partial_case",
    "Verif.SysCache.C135_violated"
   ],
   "note": "Proved for the hash value of the key. False for zero, which stands for all: witness."
  },
  {
   "property": "C136",
   "status": "partial",
   "theorems": [
    "Verif.SysCache.C136_partial",
    "Verif.SysCache.C136_partial_mark",
    "Verif.SysCache.C136_partial_case",
    "Verif.SysCache.C136_violated_rollback",
    "Verif.SysCache.C136_violated_refresh",
    "Verif.SysCache.C136_violated_stale"
   ],
   "note": "Proved without checkpoints during open drops, without additions after a drop and without searches by others during one. False otherwise: witnesses."
  },
  {
   "property": "C137",
   "status": "partial",
   "theorems": [
    "Verif.SysCache.C137_partial",
    "Verif.SysCache.C137_partial_case",
    "Verif.SysCache.C137_partial_store",
    "Verif.SysCache.C137_partial_store_case",
    "Verif.SysCache.C137_violated"
   ],
   "note": "Proved for keys without names. False for the cache of enum labels: witness."
  },
  {
   "property": "C138",
   "status": "partial",
   "theorems": [
    "Verif.ArrayScan.C138_partial",
    "Verif.ArrayScan.C138_partial_case",
    "Verif.ArrayScan.C138_violated_exact",
    "Verif.ArrayScan.C138_violated_mixed",
    "Verif.ArrayScan.C138_violated_null"
   ],
   "note": "Proved for arguments without NULL over columns that are all ASC or all DESC, if a column has no equality. False otherwise: witnesses."
  },
  {
   "property": "C139",
   "status": "partial",
   "theorems": [
    "Verif.ArrayScan.C139_partial",
    "Verif.ArrayScan.C139_partial_case",
    "Verif.ArrayScan.C139_violated"
   ],
   "note": "Proved except for NULL in columns of types passed by reference, where it is false: witness."
  },
  {
   "property": "C140",
   "status": "proved",
   "theorems": [
    "Verif.ArrayScan.C140",
    "Verif.ArrayScan.C140_case"
   ],
   "note": "For indexes without equal keys (the primary key is part of each); rows of one combination as in Verif/Fastpath."
  },
  {
   "property": "C141",
   "status": "partial",
   "theorems": [
    "Verif.ArrayScan.C141_partial",
    "Verif.ArrayScan.C141_partial_case",
    "Verif.ArrayScan.C141_partial_case_null",
    "Verif.ArrayScan.C141_violated_null",
    "Verif.ArrayScan.C141_violated_lost",
    "Verif.ArrayScan.C141_violated_twice"
   ],
   "note": "Proved for one skip array, and for any number of them if NULL is only in the first column and last in the order of the scan. False otherwise: witnesses."
  },
  {
   "property": "C142",
   "status": "partial",
   "theorems": [
    "Verif.EnumCache.C142_partial",
    "Verif.EnumCache.C142_partial_case",
    "Verif.EnumCache.C142_violated_renumber",
    "Verif.EnumCache.C142_violated_label",
    "Verif.EnumCache.C142_violated_lsn"
   ],
   "note": "Proved while values are only added with the sort orders and labels of the others kept, and recovery is not behind the last of it. False otherwise: witnesses."
  },
  {
   "property": "C143",
   "status": "proved",
   "theorems": [
    "Verif.CheckExtents.C143",
    "Verif.CheckExtents.C143_extents",
    "Verif.CheckExtents.C143_case"
   ],
   "note": "For extents of length above 0, in any order."
  },
  {
   "property": "C144",
   "status": "proved",
   "theorems": [
    "Verif.CheckExtents.C144",
    "Verif.CheckExtents.C144_case"
   ],
   "note": "For all lists of extents."
  },
  {
   "property": "C145",
   "status": "proved",
   "theorems": [
    "Verif.BridgeVacuum.C145",
    "Verif.BridgeVacuum.C145_offsets",
    "Verif.BridgeVacuum.C145_case"
   ],
   "note": "Without changes by others between collection and removal."
  },
  {
   "property": "C146",
   "status": "proved",
   "theorems": [
    "Verif.BridgeVacuum.C146",
    "Verif.BridgeVacuum.C146_case"
   ],
   "note": "As C145; also if entries are not in order."
  },
  {
   "property": "C147",
   "status": "proved",
   "theorems": [
    "Verif.Ctid.C147",
    "Verif.Ctid.C147_case"
   ],
   "note": "For all interleavings."
  },
  {
   "property": "C148",
   "status": "partial",
   "theorems": [
    "Verif.Ctid.C148_partial",
    "Verif.Ctid.C148_partial_case",
    "Verif.Ctid.C148_violated",
    "Verif.Ctid.C148_violated_all"
   ],
   "note": "Proved if no identifier was given out between a checkpoint and a crash. False otherwise: witness, and for all states."
  },
  {
   "property": "C149",
   "status": "proved",
   "theorems": [
    "Verif.BridgeVacuum.C149",
    "Verif.BridgeVacuum.C149_case"
   ],
   "note": "For leaves in order and ascending TIDs."
  }
 ]
}