{"id": "C01", "title": "WAL containers decode to exactly what was encoded", "statement": "If a primary encodes any sequence of row/transaction WAL records into one OrioleDB WAL container (with or without transaction/origin info in its header), then a reader of that container obtains exactly the same header and the same sequence of records with the same field values, and stops exactly at the end of the container.", "quantifier": "all record sequences (24 record kinds, all field values in their C ranges, all tuple bytes up to 65535 bytes), all header flag combinations", "why_tests_cant": "The space of record sequences and payload bytes is unbounded and the parse is context dependent (replica identity persists from record to record); tests only cover the containers a few workloads produce.", "anchors": ["src/recovery/wal_reader.c", "src/recovery/wal.c", "include/recovery/wal.h", "include/recovery/wal_record.h"]}
{"id": "C02", "title": "WAL parsing never looks outside the container", "statement": "Whatever bytes a WAL container holds (including truncated or corrupted ones), reading it terminates with either the decoded records or a reported error, and no byte at or past the end of the container influences the result.", "quantifier": "all byte strings, all container format versions", "why_tests_cant": "Memory safety of a hand written parser on arbitrary input is a for-all statement; fuzzing samples it.", "anchors": ["src/recovery/wal_reader.c: wal_container_iterate, wal_parse_rec_*"]}
{"id": "C03", "title": "Old WAL containers keep their meaning", "statement": "A container written by any older supported format version decodes under the current reader to the records that version meant, with the fields the old version did not have set to their documented defaults.", "quantifier": "all format versions from the first headerless one to the current one, all record sequences", "why_tests_cant": "Only the current writer can be run in a test; older writers no longer exist in the tree.", "anchors": ["src/recovery/wal_reader.c", "include/recovery/wal.h: ORIOLEDB_WAL_VERSION"]}
{"id": "C04", "title": "Every shipped container identifies its transaction", "statement": "Every WAL container a backend emits that carries row changes, commits, aborts or savepoint records names the transaction it belongs to before the first such record.", "quantifier": "all sequences of row changes, savepoints, commits, rollbacks, DDL records and flushes a backend can issue", "why_tests_cant": "It depends on the whole history of the backend's buffer flags across transactions; the failing interleaving needs a transaction which wrote only a savepoint marker and no data.", "anchors": ["src/recovery/wal.c: add_xid_wal_record_if_needed, wal_commit, wal_rollback, flush_local_wal, reset_local_wal"]}
{"id": "C05", "title": "The per-backend WAL buffer never overflows", "statement": "No sequence of operations makes a backend write past the end of its local WAL buffer: before each record is appended there is room for it and for the transaction identification and the finish record that may have to follow.", "quantifier": "all sequences of appended records with any legal payload length", "why_tests_cant": "Needs the worst case over all interleavings of record sizes and flushes.", "anchors": ["src/recovery/wal.c: flush_local_wal_if_needed, add_*_wal_record, wal_commit"]}
{"id": "C06", "title": "Row changes are attributed to the right index and relation", "statement": "Replaying the WAL stream of a backend applies every row change to the same relation tree, with the same action and the same tuple images, in the same order as the backend issued them.", "quantifier": "all sequences of inserts, updates, deletes and reinserts over any relations, interleaved with flushes at arbitrary points", "why_tests_cant": "The relation is only logged when it changes, so correctness depends on the complete history of the buffer.", "anchors": ["src/recovery/wal.c: add_modify_wal_record_extended, add_relation_wal_record", "src/recovery/wal_reader.c"]}
{"id": "C07", "title": "Disk extents are never handed out twice", "statement": "An extent returned by the file space allocator never overlaps an extent already in use, an extent freed is available again, and allocated plus free space always adds up to the size of the file.", "quantifier": "all sequences of allocations and releases with any lengths", "why_tests_cant": "Histories of unbounded length; fragmentation patterns explode.", "anchors": ["src/catalog/free_extents.c: get_extent, free_extent"]}
{"id": "C08", "title": "The two free-space indexes agree and stay coalesced", "statement": "After any sequence of allocations and releases the by-offset and by-length free space indexes describe the same set of extents, extents in it are disjoint, and adjacent free extents have been merged.", "quantifier": "all sequences of allocations and releases", "why_tests_cant": "History dependent structural invariant.", "anchors": ["src/catalog/free_extents.c", "src/catalog/sys_trees.c: free tree comparators"]}
{"id": "C09", "title": "Sequential metadata files read back what was written", "statement": "A checkpoint map or free-block file written item by item through the sequential buffer and finished reads back as exactly the items written, in order, with nothing after them.", "quantifier": "all item sequences, all item sizes dividing no particular page size, all interleavings of page switches", "why_tests_cant": "Page boundary behaviour for every length.", "anchors": ["src/utils/seq_buf.c", "include/utils/seq_buf.h"]}
{"id": "C10", "title": "The S3 upload queue is a FIFO without loss or corruption", "statement": "Every task put into the S3 queue is later obtained byte for byte intact, once, in order, and space is reused only after the task was erased.", "quantifier": "all sequences of put/get/erase with any task length, at any ring position", "why_tests_cant": "The failing case needs a task straddling the physical end of the ring.", "anchors": ["src/s3/queue.c: s3_queue_put_task, s3_queue_get_task, s3_queue_erase_task"]}
{"id": "C11", "title": "Page reservations are conserved", "statement": "Pages reserved by a backend plus pages available plus pages in use always equal the pool size: a failed reservation leaves the counters unchanged, a release returns exactly what was reserved and not used, and an allocation from a reservation never fails.", "quantifier": "all sequences of reserve/alloc/free/release by any number of backends on any pool kind", "why_tests_cant": "Counter leaks only show up after unbounded histories and error paths.", "anchors": ["src/utils/page_pool.c"]}
{"id": "C12", "title": "The usage count map is exact", "statement": "At every moment the usage count map's upper levels report a usage level as present below a node exactly when some page below it has that level, so the eviction search finds a page of a requested level iff one exists.", "quantifier": "all sequences of usage count changes over any number of pages", "why_tests_cant": "Tree shaped summary structure; every page count and history.", "anchors": ["src/utils/ucm.c: ucm_inc, ucm_next_blkno"]}
{"id": "C13", "title": "Page locks are exclusive", "statement": "At most one backend at a time holds the exclusive lock on a page, whatever the interleaving of lock, try-lock, queueing and unlock.", "quantifier": "all interleavings of any number of backends over the atomic steps of the lock word", "why_tests_cant": "Schedules cannot be enumerated by tests.", "anchors": ["src/btree/page_state.c: lock_page, try_lock_page, unlock_page, lock_page_or_queue"]}
{"id": "C14", "title": "No page waiter is lost", "statement": "Every backend that queued itself on a page is either still in the page's wait list or has been woken; an unlock removes exactly the waiters it wakes, keeps the others, and wakes at least one lock waiter if there is any.", "quantifier": "all wait lists, all interleavings of concurrent enqueues with the unlock's retry loop", "why_tests_cant": "Lost wakeups show up only in rare schedules.", "anchors": ["src/btree/page_state.c: unlock_page_internal, lock_page_or_queue, read_enabled_or_queue, state_changed_or_queue"]}
{"id": "C15", "title": "Unlocked page reads are never torn", "statement": "A reader which copies a page without locking it and then validates the page state accepts the copy only if no writer changed the page while it was being copied.", "quantifier": "all interleavings of a reader's copy steps with any number of writers", "why_tests_cant": "Schedule dependent.", "anchors": ["src/btree/page_state.c: page_block_reads, unlock_page", "include/btree/page_state.h", "src/btree/page_chunks.c: try_copy_page"]}
{"id": "C16", "title": "Tuples read back as they were formed", "statement": "For every table row type and every row, forming the on-disk tuple and then reading attribute by attribute returns exactly the same values and nulls, for fixed-format and header-format tuples alike, and attributes added after the tuple was written read as their default.", "quantifier": "all tuple descriptors (any attribute lengths, alignments, storage), all values and null patterns", "why_tests_cant": "Offsets are cached and alignment dependent, descriptors are unbounded.", "anchors": ["src/tuple/format.c: o_form_tuple, o_tuple_fill, o_tuple_read_next_field, o_new_tuple_size"]}
{"id": "C17", "title": "The computed tuple size is exactly what gets written", "statement": "Forming a tuple writes exactly as many bytes as were computed for it before allocation, for every row.", "quantifier": "all descriptors, all rows", "why_tests_cant": "A buffer overflow for one alignment/null pattern is not found by example.", "anchors": ["src/tuple/format.c: o_tuple_compute_data_size, o_new_tuple_size, o_tuple_fill"]}
{"id": "C18", "title": "Logical transaction ids are unique", "statement": "Two transactions or subtransactions alive at the same time never have the same logical 32-bit transaction id, and a finished one's id becomes reusable.", "quantifier": "all histories of acquiring and releasing by any number of processes, including wraparound", "why_tests_cant": "Wraparound histories take billions of transactions.", "anchors": ["src/transam/oxid.c: acquire_logical_xid, release_logical_xid, assign_subtransaction_logical_xid"]}
{"id": "C19", "title": "Transaction status lookups return the last status set", "statement": "Looking up a transaction's commit status returns the status last recorded for it, whether it is still in the in-memory map or has been written out, for every transaction not yet globally finished, and 'finished' for older ones.", "quantifier": "all histories of transaction starts, status changes, evictions of the in-memory map and advances of the horizon", "why_tests_cant": "Ring position, file position and horizon interact over unbounded histories.", "anchors": ["src/transam/oxid.c: set_oxid_csn, map_oxid, write_xidsmap, advance_global_xmin"]}
{"id": "C20", "title": "The oldest running transaction horizon is safe", "statement": "The published oldest-running-transaction mark never passes a transaction that is still running, never goes backwards, and when no transaction is running it catches up.", "quantifier": "all interleavings of transaction starts and finishes by any number of backends", "why_tests_cant": "Schedule dependent and involves racing compare-and-swap loops.", "anchors": ["src/transam/oxid.c: advance_run_xmin, get_current_oxid, current_oxid_commit, current_oxid_abort"]}
{"id": "C21", "title": "Snapshots are stable", "statement": "Whether a given transaction's changes are visible to a given snapshot never changes during the life of the snapshot.", "quantifier": "all interleavings of snapshot taking, committing, aborting and visibility checks", "why_tests_cant": "The race between taking a CSN and publishing it is schedule dependent.", "anchors": ["src/transam/oxid.c: current_oxid_precommit, current_oxid_commit, oxid_get_csn, oxid_match_snapshot"]}
{"id": "C22", "title": "Commit visibility is atomic and ordered", "statement": "A snapshot sees all of a transaction or none of it; if a commit completed before the snapshot was taken the snapshot sees it; if a snapshot sees a transaction then every later snapshot does.", "quantifier": "all interleavings of commits and snapshots", "why_tests_cant": "Schedule dependent.", "anchors": ["src/transam/oxid.c", "src/transam/undo.c: undo_xact_callback"]}
{"id": "C23", "title": "An undo record is never split across the ring end nor overwrites live undo", "statement": "Every undo record allocated lies contiguously inside the in-memory undo ring, no two records overlap, and no record overwrites undo data that was not yet written out.", "quantifier": "all sequences of reservations and allocations by any number of backends, all record sizes up to the maximum", "why_tests_cant": "Ring position, concurrent reservations.", "anchors": ["src/transam/undo.c: reserve_undo_size_extended, get_undo_record"]}
{"id": "C24", "title": "Rollback undoes exactly the transaction's changes", "statement": "Aborting a transaction calls the undo of each of its changes exactly once, newest first; committing runs exactly the commit-time actions; rolling back to a savepoint undoes exactly the changes since the savepoint and keeps the earlier ones to be undone by a later abort.", "quantifier": "all sequences of changes, savepoints, releases, rollbacks to savepoints and a final commit or abort", "why_tests_cant": "Arbitrary nesting.", "anchors": ["src/transam/undo.c: add_new_undo_stack_item, walk_undo_range, walk_undo_stack, apply_undo_stack, rollback_to_savepoint"]}
{"id": "C25", "title": "Undo needed by a snapshot is retained", "statement": "From the moment a backend has registered its snapshot until it drops it, the undo log is never truncated past the position the snapshot registered.", "quantifier": "all interleavings of snapshot registration with truncation by any number of backends", "why_tests_cant": "Memory ordering/seqlock race.", "anchors": ["src/transam/undo.c: set_my_snapshot_retain_location, update_min_undo_locations"]}
{"id": "C26", "title": "Bitmap index results are sets", "statement": "The key bitmap used by bitmap scans behaves as a mathematical set: membership after inserts is exact, union and intersection are exact, and duplicates do not matter.", "quantifier": "all keys, all insertion orders, all combinations", "why_tests_cant": "Chunk boundaries and orders.", "anchors": ["src/tableam/key_bitmap.c"]}
{"id": "C27", "title": "Bitmap range probes and ordered seeks are exact", "statement": "Asking whether any key lies in a range answers yes exactly when one does, and asking for the next key returns the smallest member at or after the given key.", "quantifier": "all bitmaps and ranges", "why_tests_cant": "Byte/chunk edge masks.", "anchors": ["src/tableam/key_bitmap.c: o_keybitmap_range_is_valid, o_keybitmap_get_next, okbm_lower_bound, find_next_offset"]}
{"id": "C28", "title": "Spilled undo/transaction buffers read back what was written", "statement": "Reading any byte range through the buffered file layer returns the bytes most recently written to it, whatever evictions took place in between.", "quantifier": "all histories of reads and writes with any offsets and sizes, all buffer counts", "why_tests_cant": "Eviction histories are unbounded.", "anchors": ["src/utils/o_buffers.c: get_buffer, o_buffers_rw"]}
{"id": "C29", "title": "Cleanup never discards retained undo or transaction status", "statement": "Discarding old undo/transaction status files never removes a block containing an item the checkpoint or any transaction still retains.", "quantifier": "all cleanup and retain ranges, all file and block sizes", "why_tests_cant": "Boundary arithmetic over four interacting ranges.", "anchors": ["src/utils/o_buffers.c: unlink_unretained_o_buffers, o_buffers_unlink_blocks_range"]}
{"id": "C30", "title": "Row locks conflict exactly as documented", "statement": "A request for a row lock or row change is granted without waiting exactly when no other running transaction holds or needs an incompatible lock on the row, according to the FOR KEY SHARE / SHARE / NO KEY UPDATE / UPDATE compatibility table.", "quantifier": "all row version chains, all transactions and lock modes", "why_tests_cant": "Chains of locks and versions by many transactions are unbounded.", "anchors": ["src/btree/undo.c: row_lock_conflicts", "include/btree/btree.h: ROW_LOCKS_CONFLICT"]}
{"id": "C31", "title": "Rolling back a row change restores the previous row version", "statement": "After a transaction that inserted, updated, deleted or locked a row aborts, the row is exactly as the last other transaction left it, including locks held by others.", "quantifier": "all sequences of inserts, updates, deletes, locks on a row by any transactions with any subset aborting", "why_tests_cant": "Unbounded chains.", "anchors": ["src/btree/undo.c: page_item_rollback, modify_undo_callback, lock_undo_callback"]}
{"id": "C32", "title": "Dropped relation file lists survive deferral", "statement": "When files of a dropped or truncated relation cannot be removed because a backup is running, exactly those files are removed when the backup ends.", "quantifier": "all sequences of deferred drops with any number of trees", "why_tests_cant": "Only observable when a drop commits during a base backup and then the deferred list is replayed.", "anchors": ["src/btree/undo.c: add_pending_truncate, check_pending_truncates"]}
{"id": "C33", "title": "Drop/truncate of relations with any number of indexes is complete", "statement": "Dropping, truncating or creating a relation registers for commit/abort processing exactly the trees of the relation, each once, however many there are.", "quantifier": "all numbers of old and new trees", "why_tests_cant": "Chunking only occurs with very many indexes.", "anchors": ["src/btree/undo.c: add_undo_relnode"]}
{"id": "C34", "title": "The end of every changing transaction reaches WAL", "statement": "Whenever a transaction (top-level or autonomous) that issued row changes commits or rolls back, its end record reaches WAL after its row changes and attributed to it; so do joint commits.", "quantifier": "all sequences of operations of a backend, including nested autonomous transactions and savepoints", "why_tests_cant": "A lost end record only shows after a crash or on a replica, and depends on flag save/restore across nesting and buffer flushes.", "anchors": ["src/recovery/wal.c: wal_commit, wal_rollback, wal_joint_commit", "src/transam/undo.c: start_autonomous_transaction, finish_autonomous_transaction"]}
{"id": "C35", "title": "Extents released by a checkpoint are returned exactly once", "statement": "Reading the free-space files left by finished checkpoints returns every extent recorded in them to the free space exactly once, and the call ends.", "quantifier": "all sets of per-checkpoint files, all checkpoint numbers, both settings of remove_old_checkpoint_files", "why_tests_cant": "Needs a non-default setting together with compressed trees; a test of the default never re-reads a file.", "anchors": ["src/catalog/free_extents.c: add_free_extents_from_tmp", "src/checkpoint/checkpoint.c: can_use_checkpoint_extents"]}
{"id": "C36", "title": "A backend waiting for an S3 task is released when the task is done", "statement": "A backend that waits for a location returned by s3_queue_put_task is released exactly when that task and all earlier ones are erased; a backend that finds a file part already being loaded and waits for it is released once every task put so far is erased.", "quantifier": "all interleavings of putting, picking, getting and erasing processes", "why_tests_cant": "Depends on the exact value of a location relative to counters that other processes advance; a busy queue hides a missed wake-up.", "anchors": ["src/s3/queue.c: s3_queue_wait_for_location, s3_queue_get_insert_location", "src/s3/worker.c: s3_schedule_file_part_read, s3_load_file_part"]}
{"id": "C37", "title": "Absorbed wake-ups are handed back", "statement": "Wake-ups of the process semaphore that a wait for a page consumes but that were meant for something else are raised again before the wait returns: between page waits the count of the semaphore is the number of wake-ups received less the number used.", "quantifier": "for every interleaving of backends locking, inserting into, reading and waiting for changes of pages", "why_tests_cant": "the wake-ups in question arrive by chance while a backend is queued, and a lost one shows only as a rare hang elsewhere", "anchors": ["src/btree/page_state.c:450", "src/btree/page_state.c:589", "src/btree/page_state.c:694", "src/btree/page_state.c:721"]}
{"id": "C38", "title": "A wait for a page change waits for a change", "statement": "The function a backend uses to wait until a page has changed returns only after the change count of the page differs from the change count it was called with.", "quantifier": "for every change count and every interleaving", "why_tests_cant": "needs a page changed more than 4096 times while the wait is exercised, and a wrong return only costs processor time", "anchors": ["src/btree/page_state.c:677-725", "src/btree/page_state.c:363-407"]}
{"id": "C39", "title": "Bitmap keys keep the order of primary keys and can be decoded", "statement": "The key under which a primary key value is put into a scan bitmap (a 64-bit code for one integer or tuple identifier column, 24 bytes for other fixed-size columns) compares with the keys of other rows exactly as the primary key values compare in the index, equal keys only for equal values, and decoding the key gives the value back.", "quantifier": "For all values of the supported types (both zeros, infinities and NaN of the float types included), all combinations of up to 24 bytes of columns, all pairs of rows.", "why_tests_cant": "The value space is huge; the failing tuple identifiers appear only in tables with more than 134 million rows.", "anchors": ["src/tableam/bitmap_scan.c:149-212", "src/tableam/bitmap_scan.c:265-698"]}
{"id": "C40", "title": "Secondary index entries record the key of their row", "statement": "When a bitmap scan reads an entry of a secondary index, the key it records is the key under which the row is found in the primary index.", "quantifier": "For every primary key and every secondary index of the table, whatever columns they share and in whatever order, and every row.", "why_tests_cant": "Depends on the combination of column order and column types of two indexes; tests cover a few combinations.", "anchors": ["src/tableam/bitmap_scan.c:583-616", "src/catalog/o_indices.c:342-357", "src/catalog/o_indices.c:465-606"]}
{"id": "C41", "title": "A bitmap scan never skips a wanted row", "statement": "A page of the primary tree is skipped only if no key of the bitmap lies between its bounds, and a jump to the next wanted key goes to the least key of the bitmap after the present position.", "quantifier": "For all bitmaps, all page bounds including pages without lower or upper bound, all positions.", "why_tests_cant": "The failing case needs the largest possible key on the rightmost page.", "anchors": ["src/tableam/bitmap_scan.c:1802-1945", "src/btree/scan.c:2075-2090"]}
{"id": "C42", "title": "Direct column access agrees with reading the row", "statement": "Fetching a single column of a stored row gives the same value or null as reading the row's columns in order, whatever was read before and whenever the row was written.", "quantifier": "all descriptors, all rows, all sequences of reads and fetches sharing the offset cache", "why_tests_cant": "Needs a row older than a column together with a particular state of the offset cache.", "anchors": ["include/tuple/format.h: o_fastgetattr", "src/tuple/format.c: o_toast_nocachegetattr", "src/recovery/logical.c: o_convert_toast_pointers"]}
{"id": "C43", "title": "Rows larger than the limit are refused", "statement": "The size check before a row is put into a tree accepts a row exactly if its bytes fit the largest tuple size a page can take.", "quantifier": "all rows of all descriptors, every limit", "why_tests_cant": "The sizes for which it fails are far above those used in tests.", "anchors": ["src/btree/btree.c: o_btree_check_size_of_tuple", "include/tuple/format.h: o_tuple_size"]}
{"id": "C44", "title": "Changing the version of a tuple keeps its columns", "statement": "After the version of a stored tuple is changed, the tuple is the one that forming the row with that version gives, including the switch between the formats with and without header.", "quantifier": "all descriptors, rows and versions", "why_tests_cant": "Format switches happen only for particular combinations of version, nulls and columns.", "anchors": ["src/tuple/format.c: o_tuple_set_version, o_tuple_get_version"]}
{"id": "C45", "title": "The row identifier inside a tuple is the row's", "statement": "Setting the identifier of a stored row changes the identifier column and nothing else, and the identifier read from the end of an index entry is the one the entry was formed with.", "quantifier": "all descriptors with an identifier column, all rows", "why_tests_cant": "The position depends on format, null bitmap and alignment.", "anchors": ["src/tuple/format.c: o_tuple_set_ctid, o_tuple_get_last_iptr"]}
{"id": "C46", "title": "Logical decoding keeps changes that were not rolled back", "statement": "The decoder throws away only changes that were rolled back: when a transaction commits, every change that was made in it or in a subtransaction of it and was not rolled back to a savepoint is still queued.", "quantifier": "all sequences of changes, savepoints, releases and rollbacks, nested arbitrarily, with the WAL buffer flushed anywhere", "why_tests_cant": "Depends on which ids the allocator hands out again within one transaction.", "anchors": ["src/transam/oxid.c: oxid_subxact_callback, assign_subtransaction_logical_xid", "src/recovery/wal.c: add_savepoint_wal_record, add_rollback_to_savepoint_wal_record", "src/recovery/logical.c: WAL_REC_SAVEPOINT, WAL_REC_ROLLBACK_TO_SAVEPOINT"]}
{"id": "C47", "title": "A logical id is not the id of a running heap transaction", "statement": "The logical id given to a transaction never is the id of a heap transaction that may still be running or of one that starts later within half of the id space.", "quantifier": "all values of the oldest running heap transaction, all map positions, all map sizes that can be configured", "why_tests_cant": "Wraparound of 32-bit ids.", "anchors": ["src/transam/oxid.c: acquire_logical_xid"]}
{"id": "C48", "title": "Cleanup leaves no dead file behind", "statement": "After successive cleanups of undo or transaction status files, each starting where the previous one ended, no file exists all of whose items have been given up.", "quantifier": "all sequences of rising cleanup positions, all file and block sizes, with and without sparse files", "why_tests_cant": "The leak needs a cleanup position inside the last block of a file, which a test does not hit by chance, and shows as disk usage only.", "anchors": ["src/utils/o_buffers.c: unlink_unretained_o_buffers", "src/transam/oxid.c: advance_global_xmin", "src/transam/undo.c: update_min_undo_locations"]}
{"id": "C51", "title": "A checkpoint makes the statuses it covers durable", "statement": "When the checkpoint has flushed the map of transaction statuses for the range from the oldest running transaction to the next transaction id, with nothing else going on, the files on disk hold the status of every transaction of that range, as a look-up would find it.", "quantifier": "all states of the ring, the cache and the disk, all sizes of the ring that are a whole number of pages", "why_tests_cant": "the status of one transaction at the wrapped end of the ring matters only after a crash at the right moment with the ring nearly full", "anchors": ["src/transam/oxid.c:flush_dirty_xidsmap_range", "src/transam/oxid.c:fsync_xidmap_range", "src/utils/o_buffers.c:o_buffers_sync"]}
{"id": "C49", "title": "No snapshot sees a change of an aborted transaction", "statement": "A change made by a transaction that aborts, or by an autonomous transaction that aborts, is never visible to a snapshot of another session, before, during or after the abort.", "quantifier": "all interleavings of changes, aborts, snapshots and visibility checks", "why_tests_cant": "needs a snapshot taken between the change of status of the aborted transaction and the undoing of its changes", "anchors": ["src/transam/undo.c:undo_xact_callback", "src/transam/undo.c:abort_autonomous_transaction", "src/transam/oxid.c:current_oxid_abort", "src/transam/oxid.c:advance_run_xmin"]}
{"id": "C50", "title": "A session's published xmin covers all its snapshots", "statement": "While a session has an active or registered snapshot, the xmin it publishes to the other sessions is not above the xmin of that snapshot, whatever other snapshots it takes, registers and drops.", "quantifier": "all sequences of taking, registering, activating and dropping snapshots, interleaved with commits and undo log movements", "why_tests_cant": "depends on equal undo locations of snapshots and on the order in which they are dropped", "anchors": ["src/transam/undo.c:orioledb_reset_xmin_hook", "src/transam/undo.c:undoLocCmp", "src/transam/undo.c:orioledb_snapshot_hook"]}
{"id": "C52", "title": "Undo space that was reserved is enough", "statement": "A backend that has reserved undo space for a record as its callers do never fails (PANIC) to allocate the record for want of reserved space, whatever the record crosses and whatever other backends do.", "quantifier": "all runs of any number of backends, all record sizes up to the maximum", "why_tests_cant": "needs a record that meets the end of the ring while the reservation is shared with others", "anchors": ["src/transam/undo.c:get_undo_record", "src/transam/undo.c:reserve_undo_size_extended", "src/transam/undo.c:steal_reserved_undo_size"]}
{"id": "C53", "title": "Reads of undo return what was written", "statement": "Every byte of an undo record that a backend reads, while its transaction or a snapshot of its retains the record, has one of the values it had between the beginning and the end of the read, whether it is in the ring, on disk or on its way there, and whatever is written to the record meanwhile; the read never finds the record gone (PANIC).", "quantifier": "all interleavings of readers, writers, evictions, truncations, byte by byte", "why_tests_cant": "races of eviction with a writer and a reader of the same record", "anchors": ["src/transam/undo.c:undo_read", "src/transam/undo.c:undo_write_internal", "src/transam/undo.c:evict_undo_to_disk", "src/transam/undo.c:update_min_undo_locations"]}
{"id": "C54", "title": "Undo of transactions in progress is retained", "statement": "The position a snapshot registers is not above the undo of any transaction in progress at that time, and as long as a transaction is in progress its undo is not truncated.", "quantifier": "all interleavings of allocation, group insertion, snapshots, ends of transactions and truncation", "why_tests_cant": "a record handed over by another backend just while the retained positions are being collected", "anchors": ["src/transam/undo.c:set_my_reserved_location", "src/transam/undo.c:set_my_snapshot_retain_location", "src/transam/undo.c:update_min_undo_locations", "src/transam/undo.c:add_new_undo_stack_item_to_process"]}
{"id": "C56", "title": "Savepoints never go out of order", "statement": "Starting, releasing and rolling back savepoints in any nesting never ends the session with \"subxact goes out of order\", and never finds an undo item missing or of another kind than expected.", "quantifier": "all sequences of changes, savepoints, releases, rollbacks to savepoints, commits and aborts", "why_tests_cant": "Arbitrary nesting, with savepoints started before and after the first change.", "anchors": ["src/transam/undo.c: undo_subxact_callback, search_for_undo_sub_location, add_subxact_undo_item, walk_undo_range"]}
{"id": "C57", "title": "What was rolled back to savepoints is found again after a restart", "statement": "At any time, undoing again the parts of a transaction that were rolled back to savepoints, as recovery does, calls the undo of exactly the changes these rollbacks undid, the latest rollback first.", "quantifier": "all sequences of changes, savepoints, releases and rollbacks to savepoints", "why_tests_cant": "Only observable after a crash inside a transaction with many nested rollbacks.", "anchors": ["src/transam/undo.c: apply_undo_branches, o_add_branch_undo_item, walk_undo_stack"]}
{"id": "C55", "title": "A checkpoint makes the undo log durable", "statement": "When a checkpoint has flushed the undo log between two locations, the disk has every complete record between them, with the contents it had at the beginning of the flush or, where it was changed meanwhile, a later one.", "quantifier": "all interleavings of record creation, changes in place, eviction, buffer replacement and flushing, for all page and ring sizes", "why_tests_cant": "Only observable after a crash; depends on where evictions stopped within a page and on how full the ring is.", "anchors": ["src/transam/undo.c: fsync_undo_range, flush_dirty_undo_range, evict_undo_to_disk, mark_undo_range_dirty", "src/utils/o_buffers.c: o_buffers_write_page_direct, o_buffers_flush"]}
{"id": "C58", "title": "Eviction and flushing do not change what is read", "statement": "A read of a retained location of the undo log finds what was last written there, whether it is in the ring, in a buffer of the file or on the disk.", "quantifier": "all interleavings of record creation, changes in place, eviction, buffer replacement and flushing, for all page and ring sizes", "why_tests_cant": "The failing cases need a checkpoint between two evictions that stop within the same page, and the buffer to be replaced afterwards.", "anchors": ["src/transam/undo.c: undo_read, undo_write_internal, evict_undo_to_disk, flush_dirty_undo_range", "src/utils/o_buffers.c: o_buffers_rw"]}
{"id": "C59", "title": "An item can always be put on its page", "statement": "Inserting or replacing an item of admissible size never fails for want of room: it fits, or the page is compacted, or a place for a split is found, and the pages made hold their items.", "quantifier": "all page contents, sizes, fill states and split decisions; all runs of inserts, updates, deletes, locks, rollbacks and merges", "why_tests_cant": "Room is estimated from sums and maxima before the critical section; a wrong estimate shows only for special combinations of lengths and is a PANIC then.", "anchors": ["src/btree/insert.c: o_btree_insert_item_no_waiters, o_btree_insert_item_with_waiters", "src/btree/split.c: make_split_items, btree_page_split_find_location, perform_page_split, perform_page_compaction", "src/btree/page_chunks.c: page_locator_fits_item, btree_page_reorg"]}
{"id": "C60", "title": "An operation on a row leaves the other rows alone", "statement": "An insert, update, delete, lock or rollback changes the row with its key and nothing else, whatever splits and compactions it causes; waiting processes are told that their tuples are inserted exactly if they are; rows stay in the order of their keys and are found by the search.", "quantifier": "all runs of operations with all split, compaction and chunk decisions and all sets of waiting processes", "why_tests_cant": "The new item is counted among items that are dropped or moved at the same time; off-by-one errors need deleted rows before the place of the insertion.", "anchors": ["src/btree/split.c: make_split_items", "src/btree/insert.c: merge_waited_tuples, o_btree_insert_item_with_waiters, o_btree_insert_split", "src/btree/page_chunks.c: btree_page_reorg"]}
{"id": "C61", "title": "Merging two pages keeps their contents", "statement": "If two neighbouring pages are found to fit together, the merged page has room for the items of both; no row is lost but deleted ones of finished transactions, and no downlink is lost or loses its key.", "quantifier": "all contents and fill states of leaf and internal pages, with transactions finishing between check and merge", "why_tests_cant": "The check and the merge count vacated room at different moments.", "anchors": ["src/btree/merge.c: can_be_merged, merge_pages, btree_try_merge_pages"]}
{"id": "C62", "title": "A built index has all rows", "statement": "When an index is built from sorted rows, the tree written has exactly these rows in order, and the search from the root finds each of them.", "quantifier": "all numbers and sizes of rows and all fill factors", "why_tests_cant": "Rows are lost only if the last downlink of a level is the one that fills its page, which depends on the number and sizes of the rows.", "anchors": ["src/btree/build.c: btree_write_index_data, put_item_to_stack, stack_page_split, put_downlink_to_stack"]}
{"id": "C63", "title": "Entries of a bridge index are kept until VACUUM removes them", "statement": "On an index that bridges to other access methods no entry vanishes by splits, compactions, merges or rollbacks; deleted entries stay until VACUUM removes them.", "quantifier": "all runs of operations with all split and merge decisions", "why_tests_cant": "Needs a split or merge between the commit of a delete and VACUUM, and a look at bridged pointers afterwards.", "anchors": ["src/btree/page_chunks.c: page_locator_fits_item", "src/btree/insert.c: o_btree_insert_item_no_waiters", "src/btree/undo.c: page_item_rollback", "src/btree/split.c: make_split_items", "src/btree/merge.c: merge_pages"]}
{"id": "C64", "title": "A rollback always has room", "statement": "Undoing an update writes the old tuple into the room of the item, never beyond it.", "quantifier": "all runs of operations with all split, compaction and merge decisions", "why_tests_cant": "The room is given up by a compaction that looks only at the top header of the row; overwriting a neighbour is noticed later, if at all.", "anchors": ["src/btree/undo.c: page_item_rollback, get_prev_leaf_header_and_tuple_from_undo", "src/btree/split.c: make_split_items", "src/btree/merge.c: merge_pages"]}
{"id": "C65", "title": "The fast path finds what the regular search finds", "statement": "The search of pages of fixed-length keys without comparators comes to the same chunk, item and child page as the binary search with comparators.", "quantifier": "all pages and trees, all kinds of indexes, ascending and descending columns, NULLs, all bounds and keys", "why_tests_cant": "Needs chunks whose upper ends fall between the keys of a query; a wrong step is often mended by the scan that follows.", "anchors": ["src/btree/fastpath.c: can_fastpath_find_downlink, find_downlink_get_keys, fastpath_find_chunk, fastpath_find_downlink, int4_array_search", "src/btree/find.c: page_find_downlink, page_find_item, btree_page_search"]}
{"id": "C66", "title": "A look-up finds the row if there is one", "statement": "Looking a key up in an index finds the row with this key if the index has one, and nothing otherwise.", "quantifier": "all ordered trees of any height, all keys, with and without the fast path", "why_tests_cant": "Rows that are not found need special values next to each other at a chunk boundary.", "anchors": ["src/btree/find.c: find_page, page_find_item", "src/btree/fastpath.c: fastpath_find_chunk", "src/tableam/tree.c: o_idx_cmp"]}
{"id": "C67", "title": "An index scan returns the rows that satisfy its conditions", "statement": "A scan with conditions on the columns of the key returns exactly the rows that satisfy all of them, in the order of the index, or in reverse order backward.", "quantifier": "all ordered trees of any height, all conditions (comparisons, IS NULL, IS NOT NULL) in any number, with and without the fast path", "why_tests_cant": "Too many or too few rows appear only when the chunk boundaries of a page fall between a bound and its rows.", "anchors": ["src/tableam/key_range.c: o_key_data_to_key_range, o_fill_key_bounds", "src/tableam/index_scan.c: o_iterate_index, is_tuple_valid", "src/btree/iterator.c: o_btree_iterator_create, o_btree_iterator_fetch", "src/btree/find.c: find_page"]}
{"id": "C68", "title": "The range made of conditions has exactly the values that satisfy them", "statement": "The lower and upper bound of a column computed from conditions enclose exactly the values, or NULL, that satisfy all of them; a range is taken for empty only if there are none, and for a single value only if just this one does.", "quantifier": "all columns (ascending, descending, NULLs first and last), all lists of conditions, all values", "why_tests_cant": "Bounds combine inclusion, NULLs and direction; a mistake concerns a single value at the border.", "anchors": ["src/tableam/key_range.c: o_fill_key_bounds, o_key_data_to_key_range", "src/tableam/tree.c: o_idx_cmp_value_bounds, o_idx_cmp_range_key_to_value"]}
{"id": "C69", "title": "A page keeps the items put into it", "statement": "Through inserting, replacing, rolling back, deleting, chunk splits and merges, and reorganization, the bytes of a page hold exactly the items and chunk keys that the operations ask for, in their order; nothing is written outside the page, items do not overlap, and what is not concerned by an operation stays as it is.", "quantifier": "all runs of page operations on pages of any contents, whatever was in the memory before", "why_tests_cant": "Items are moved by chains of memmove and offsets in units of 2, 4 and 8 bytes; a wrong shift damages a neighbour only for certain sizes and numbers of items.", "anchors": ["src/btree/page_chunks.c: page_locator_insert_item, page_locator_resize_item, page_locator_delete_item, page_merge_chunks, page_split_chunk, page_split_chunk_if_needed, btree_page_reorg, init_page_first_chunk", "src/btree/insert.c: o_btree_insert_item", "src/btree/undo.c: page_item_rollback"]}
{"id": "C70", "title": "The marks on which the fast path relies are right", "statement": "If a chunk of an internal page is marked as having fixed-format keys, all its keys have this format and its downlinks are where the fast path takes them from; if a page is marked as having fixed-format upper ends, they all have this format and are where the fast path looks for them.", "quantifier": "all runs of page operations", "why_tests_cant": "A wrong mark makes the fast path read foreign bytes, but only when keys with and without NULLs meet in one chunk after a certain history.", "anchors": ["src/btree/page_chunks.c: btree_page_reorg, page_split_chunk, page_merge_chunks, init_page_first_chunk", "src/btree/insert.c: o_btree_insert_item", "src/btree/fastpath.c: fastpath_find_downlink, fastpath_find_chunk"]}
{"id": "C71", "title": "A look-up by key finds the row as of the snapshot", "statement": "A look-up by key with a snapshot gives the value set by the newest change of the row which the snapshot sees (made by a transaction committed before it, or by an earlier command of the reader itself), and no row if there is none or if it is a deletion; changes rolled back, wholly or to a savepoint, do not count. This holds whatever splits, merges and compactions of pages took place before and after the snapshot was taken.", "quantifier": "all histories of changes, locks, commits, rollbacks, page splits, merges and compactions; all snapshots still in use; all keys", "why_tests_cant": "The value may come from the live page, from an undo record of the row, or from an image of the page put away by a page operation, in full or as a difference; which of them depends on the interleaving of page operations, commits and the snapshot.", "anchors": ["src/btree/iterator.c: o_btree_find_tuple_by_key_cb, fetch_our_tuple_from_page, o_find_tuple_version", "src/btree/page_contents.c: o_btree_read_page, read_page_from_undo", "src/btree/undo.c: page_add_image_to_undo, get_page_from_undo, make_merge_undo_image, page_op_drops_tuple", "src/btree/insert.c: o_btree_insert_split", "src/btree/merge.c: btree_try_merge_pages", "src/btree/split.c: make_split_items, perform_page_compaction"]}
{"id": "C72", "title": "A range scan returns the rows of its snapshot, each once and in order", "statement": "A forward index range scan returns, in the order of the keys and each once, exactly the rows of the range with the values they have in its snapshot, whatever other transactions and page operations do while the scan is under way; rows changed, deleted, inserted or rolled back meanwhile, and pages split, merged or compacted under the scan, neither hide nor repeat a row; the scan comes to an end.", "quantifier": "all histories before and during the scan, interleaved in any way with its steps; all ranges; all snapshots still in use", "why_tests_cant": "Rows may be skipped or repeated only at the seams: when a page image is wider or narrower than the live page it was reached from, or when the position is found again after a change of the page; this depends on the interleaving.", "anchors": ["src/btree/iterator.c: o_btree_iterator_create, o_btree_iterator_fetch, o_btree_iterator_fetch_internal, btree_iterator_check_load_next_page, page_contains_end, iterator_refind_partial_leaf", "src/btree/find.c: find_right_page", "src/btree/page_contents.c: o_btree_read_page, read_page_from_undo", "src/btree/undo.c: reconstruct_merge_diff_half, reconstruct_split_diff"]}
{"id": "C73", "title": "Index scans find exactly the rows of the table", "statement": "After any INSERTs, UPDATEs and DELETEs, a scan of a secondary index with any condition on its columns returns exactly the rows of the table which meet the condition and the predicate of the index, each once; an index-only scan returns the values these rows have in the columns of the index. It does not matter which columns and expressions the index has, whether they are nullable, part of the primary key, in the INCLUDE list or listed more than once.", "quantifier": "all tables with and without a primary key; all lists of indexes; all comparison functions; all sequences of statements, including rejected ones; all conditions", "why_tests_cant": "Entries that were not inserted or not removed cause no error; only a comparison of each index with the table, for index declarations that overlap the primary key or themselves, shows them.", "anchors": ["src/indexam/handler.c: orioledb_aminsert, orioledb_amupdate, orioledb_amdelete, append_rowid_values", "src/tableam/operations.c: o_tbl_index_insert, o_update_secondary_index, o_tbl_index_delete, fill_key_bound, is_keys_eq", "src/catalog/o_indices.c: make_secondary_o_index, add_index_fields, find_existing_field", "src/catalog/o_tables.c: o_table_fill_index", "src/tableam/tree.c: o_idx_cmp_key_bound_to_tuple", "include/tableam/descr.h: OIgnoreColumn"]}
{"id": "C74", "title": "Unique indexes keep their promise", "statement": "No two rows of a table, for which the predicate of a unique index holds, have equal values in its key columns, unless one of these values is null; with NULLS NOT DISTINCT not even then. This holds whatever values the INCLUDE columns have, and whether the rows came by INSERT or by UPDATE.", "quantifier": "all tables with and without a primary key; all lists of indexes; all comparison functions; all sequences of statements, including rejected ones", "why_tests_cant": "A missed check lets in a row silently; it shows only for particular combinations of nulls, INCLUDE columns, NULLS NOT DISTINCT and the kind of statement.", "anchors": ["src/tableam/operations.c: o_tbl_index_insert, o_update_secondary_index", "src/btree/modify.c: o_btree_insert_unique, page_unique_check", "include/tuple/format.h: o_has_nulls", "src/catalog/o_indices.c: make_secondary_o_index (nUniqueFields)", "src/indexam/handler.c: orioledb_aminsert, orioledb_amupdate"]}
{"id": "C75", "title": "Large values are read back as they were written", "statement": "After any INSERTs, UPDATEs and DELETEs, every column of every row reads as the value last written to it, whether it was compressed, moved out of line, copied from another row, column or table, or left as it was; statements fail only if another row has the key; no chunk of a value is left behind or lost.", "quantifier": "all tables with toastable columns of any storage; all key comparisons, chunk sizes, compression functions; all sequences of statements, including rejected ones; values given plain, compressed, as a pointer to a value of this table or of a heap table", "why_tests_cant": "Which form a value is stored in depends on its size, the other columns, the storage of the column it came from and what the row had before; a row and chunks that do not belong together cause no error before the value is read.", "anchors": ["src/tuple/slot.c: tts_orioledb_toast, tts_orioledb_insert_toast_values, tts_orioledb_remove_toast_values, tts_orioledb_update_toast_values", "src/tuple/toast.c: generic_toast_insert_optional_wal, generic_toast_delete_optional_wal, generic_toast_get, o_toast_equal, o_get_raw_value, o_get_src_value, create_o_toast_external", "src/tuple/format.c: o_tuple_compute_data_size, o_tuple_fill", "src/tableam/operations.c: o_tbl_insert, o_tbl_update, o_tbl_delete, is_keys_eq"]}
{"id": "C76", "title": "A row is stored if it fits with its large values moved out of line", "statement": "A row whose values do not fit is compressed and moved out of line, largest value first, until it fits; it is rejected as too large only if it would not fit with all its large values moved. A row that fits as it is, is stored as it is.", "quantifier": "all rows: all numbers of columns, storage kinds, sizes, nulls, compressed and uncompressed values", "why_tests_cant": "The outcome depends on the number of columns, on which of them are null, and on the order in which values are treated.", "anchors": ["src/tuple/slot.c: tts_orioledb_toast, expected_tuple_len, can_be_stored_in_index", "src/tuple/format.c: o_tuple_compute_data_size", "src/btree/btree.c: o_btree_check_size_of_tuple"]}
{"id": "C77", "title": "Replay of the log shows the committed rows", "statement": "On a standby, and after a crash, queries see the rows of the transactions that have committed so far, with the values they had when they committed: what was rolled back to a savepoint is not there, and everything else is.", "quantifier": "all tables; all histories of interleaved transactions with nested savepoints that are released or rolled back, commits and aborts", "why_tests_cant": "Replay keeps its own stack of savepoints, and sees no record when one is released; the stack differs from that of the primary only for some nestings.", "anchors": ["src/recovery/recovery.c: replay_on_record, recovery_savepoint, recovery_rollback_to_savepoint, recovery_finish_current_oxid", "src/transam/undo.c: search_for_undo_sub_location, rollback_to_savepoint, undo_subxact_callback", "src/recovery/worker.c: apply_tbl_insert, apply_tbl_update, apply_tbl_delete"]}
{"id": "C78", "title": "Replay of the log keeps the secondary indexes right", "statement": "On a standby, and after a crash, every secondary index has, for each committed row, the entry the row calls for (key columns, INCLUDE columns, if the predicate holds) and no other.", "quantifier": "all tables with any number of secondary indexes: any key columns, INCLUDE columns, predicates, values that compare equal; all histories of interleaved transactions with nested savepoints", "why_tests_cant": "The log has no records for secondary indexes: replay works out the changes anew from old and new row, by other code than the primary uses. A wrong entry is only noticed by a query that uses the index.", "anchors": ["src/recovery/worker.c: apply_tbl_insert, apply_tbl_update, apply_tbl_delete", "src/recovery/recovery.c: recovery_insert_overwrite_callback, recovery_delete_overwrite_callback, recovery_insert_deleted_overwrite_callback", "src/btree/modify.c: o_btree_modify_internal, o_btree_modify_item_rollback", "src/tableam/operations.c: o_update_secondary_index, is_keys_eq"]}
{"id": "C79", "title": "Recovery over a checkpoint image gives the committed value", "statement": "After a crash each row of a primary index has the last value committed before the crash, whenever during the checkpoint its page was written: versions on the page of transactions that aborted, or that were in progress at the crash, are gone, and versions whose records are replayed again do no harm.", "quantifier": "all rows; all histories of interleaved transactions inserting, updating and deleting the row, with savepoints, commits and aborts; all positions in them of the start of the replay, of the writing of the page, of the point where the trees are consistent, and of the crash", "why_tests_cant": "Which versions are on the page depends on the moment it is written; the harmful orders need a checkpoint in the middle of a transaction with savepoints and a crash soon after.", "anchors": ["src/recovery/recovery.c: read_xids, walk_checkpoint_stacks, checkpoint_rollback_to_savepoint, recovery_savepoint, recovery_finish_current_oxid, recovery_finish, recovery_insert_primary_callback, recovery_delete_primary_callback", "src/btree/modify.c: o_btree_modify_handle_conflicts, o_btree_modify_item_rollback", "src/btree/undo.c: row_lock_conflicts"]}
{"id": "C80", "title": "Recovery comes to an end", "statement": "The replay of the log over the image of a checkpoint finishes: no record makes the replaying process wait for a transaction that only it can finish.", "quantifier": "as C79", "why_tests_cant": "The process only waits if the page was written between two changes, and the other transaction was first heard of at the right time; then it does not fail but never ends.", "anchors": ["src/btree/modify.c: o_btree_modify_handle_conflicts", "src/recovery/recovery.c: recovery_map_oxid_csn, recovery_switch_to_oxid", "src/transam/oxid.c: wait_for_oxid"]}
{"id": "C81", "title": "A standby shows a transaction only when all of it is there", "statement": "On a hot standby a transaction becomes committed or aborted for queries only when every change of it in the log has been applied, by the worker process its key belongs to and as a change of this transaction, and every worker which has changes of it has finished it.", "quantifier": "all logs; any number of workers; all interleavings of the startup process and the workers, of the sending of full buffers, and of the times when finished transactions are looked for", "why_tests_cant": "The processes talk by queues and four shared positions without locks; a wrong order of two reads shows only if another process moves in between.", "anchors": ["src/recovery/recovery.c: workers_send_oxid_finish, worker_send_modify, workers_synchronize, update_proc_retain_undo_location, recovery_finish_current_oxid, recovery_get_current_ptr", "src/recovery/worker.c: recovery_queue_process, recovery_queue_read, update_worker_ptr"]}
{"id": "C82", "title": "A standby shows commits in the order of the log", "statement": "Transactions become committed for queries on a standby in the order of their commit records: a query which sees a transaction sees all earlier ones.", "quantifier": "as C81", "why_tests_cant": "Needs a snapshot taken between two lines of the startup process, while workers are behind.", "anchors": ["src/recovery/recovery.c: recovery_finish_current_oxid, update_proc_retain_undo_location"]}
{"id": "C83", "title": "The startup process never waits in vain for the workers", "statement": "Whatever the order of moves so far, the startup process can go on after moves of the workers alone; the whole log can be read, and all transactions which end in it be settled.", "quantifier": "as C81, with and without hot standby", "why_tests_cant": "A stall needs messages left in a buffer, and a worker which sees its queue empty at the wrong time.", "anchors": ["src/recovery/recovery.c: workers_synchronize, workers_send_rollback_to_savepoint, workers_send_oxid_finish", "src/recovery/worker.c: recovery_queue_read"]}
{"id": "C84", "title": "The spool of CREATE INDEX CONCURRENTLY is read completely and in order", "statement": "The reader returns every entry of every file once, the entries of one file in the order in which they were written, and an entry before all entries of other files with higher positions, provided nothing before it in its file has a higher one.", "quantifier": "any number of files with any entries", "why_tests_cant": "The order depends on which files have which entries at which positions; tests have one or two writers.", "anchors": ["src/catalog/cic_spool.c: cic_spool_open_reader, cic_spool_read_next, stream_peek"]}
{"id": "C85", "title": "The spool gives back the tuples which were written", "statement": "Each entry returned by the reader comes with the bytes written for it.", "quantifier": "as C84", "why_tests_cant": "With one writer the shared buffer has the right bytes.", "anchors": ["src/catalog/cic_spool.c: stream_read_one, stream_peek, cic_spool_read_next"]}
{"id": "C86", "title": "The last entry of a key says whether the row is there", "statement": "When the last lock is granted, the last entry the reader returns for a key is an insertion exactly if the table has a row with this key.", "quantifier": "all tables and indexes; all runs of any number of processes which insert, delete, update, roll back to any point, fail, commit, and write their entries later than they change the table", "why_tests_cant": "Needs the same key inserted, taken back and inserted again by several processes in the time of the build.", "anchors": ["src/tableam/operations.c: o_tbl_index_insert, o_tbl_index_delete", "src/catalog/cic_spool.c: cic_spool_track_for_abort, cic_capture_undo_callback", "src/catalog/cic_spool.c: cic_spool_append, cic_spool_read_next, cic_spool_replay_into"]}
{"id": "C87", "title": "No row is missing in an index built concurrently", "statement": "When the build ends, every row of the table is in the index.", "quantifier": "as C86, whatever entries the spool has", "why_tests_cant": "A missing row needs a lost entry.", "anchors": ["src/catalog/indices.c: o_define_index_concurrent_finish, covering pass"]}
{"id": "C88", "title": "An index built concurrently has no other entries than the rows", "statement": "When the build ends, the index has exactly the entries of the rows of the table.", "quantifier": "as C86", "why_tests_cant": "As C86.", "anchors": ["src/catalog/indices.c: o_define_index_concurrent_finish, drain and covering pass", "src/catalog/cic_spool.c"]}
{"id": "C89", "title": "No statement does anything undefined while an index is built", "statement": "Statements on a table, one of whose indexes is being built, use neither a tree which is not there nor memory beyond a tuple.", "quantifier": "as C86", "why_tests_cant": "Tests have inserts and deletes with the indexed column in the second place.", "anchors": ["src/tableam/operations.c: o_update_secondary_index, o_tbl_index_delete, o_tbl_index_insert", "src/tableam/descr.c: placeholder of an index being built", "src/indexam/handler.c: orioledb_amdelete"]}
{"id": "C90", "title": "CREATE UNIQUE INDEX CONCURRENTLY finds exactly the duplicates", "statement": "The check at the end fails exactly if two tuples of the index have equal unique columns.", "quantifier": "all indexes, with and without NULLS NOT DISTINCT, pages in memory or on disk", "why_tests_cant": "Needs NULLs together with NULLS NOT DISTINCT, or pages evicted between build and check.", "anchors": ["src/catalog/indices.c: o_define_index_concurrent_finish, UNIQUE validation pass", "src/btree/scan.c: order of pages"]}
{"id": "C91", "title": "The directory of the spool is there as long as it is needed", "statement": "An INSERT never fails for the sake of an index being built; when the index is finished no directory is left.", "quantifier": "all sequences of builds, failures, drops, crashes, insertions and ends of processes", "why_tests_cant": "Needs a crash in the time of a build, or a look into the data directory afterwards.", "anchors": ["src/catalog/cic_spool.c: ensure_writer_open, cic_spool_drop_dir, cic_spool_cleanup_orphans", "src/catalog/indices.c: o_define_index_concurrent_finish", "src/indexam/handler.c: orioledb_ambuild"]}
{"id": "C92", "title": "A sequential scan reads each key exactly once", "statement": "Whatever splits and merges of the pages of level 1 happen while a sequential scan goes on, each key is in exactly one of the key ranges which the scan reads.", "quantifier": "all trees; all sequences of page images found by the scan, serial or parallel; each leaf read as it is or by an iterator", "why_tests_cant": "Needs a merge of internal pages between two loads of the same scan, together with a change of a leaf.", "anchors": ["src/btree/scan.c: load_next_internal_page, get_current_downlink_key, get_next_key, get_next_downlink, check_in_memory_leaf_page, scan_make_iterator"]}
{"id": "C93", "title": "The participants of a parallel scan read each leaf exactly once", "statement": "When all participants of a parallel sequential scan have finished, each leaf has been read by exactly one of them.", "quantifier": "any number of participants and leaves, in memory or on disk; all orders of their steps", "why_tests_cant": "Needs one participant to sort, read and finish between two instructions of another one.", "anchors": ["src/btree/scan.c: get_next_downlink, iterate_internal_page, add_on_disk_downlink, switch_to_disk_scan, load_next_disk_leaf_page"]}
{"id": "C94", "title": "A scan with a range of keys returns the rows in the range", "statement": "A sequential scan with a range filter returns exactly the visible rows whose keys are in the range; an ordered one returns them in order.", "quantifier": "all trees, with leaves in memory and on disk at any places; all ranges", "why_tests_cant": "Needs leaves of the range on disk, the leaf at the end of the range in memory, and no workers.", "anchors": ["src/btree/scan.c: check_downlink_in_scan_range, page_fully_in_scan_range, tuple_in_scan_range, btree_seq_scan_getnext_internal, iterate_internal_page, load_next_disk_leaf_page", "src/tableam/index_scan.c: o_exec_parallel_idx_scan_new_seqscan"]}
{"id": "C95", "title": "A scan returns the rows of a leaf in order, each once, in the right version", "statement": "The rows of a leaf are returned in the order of the scan, each key once: in the own version if the transaction has changed the row, otherwise in that of the time of the snapshot.", "quantifier": "all leaf pages with all historical images; both directions; leaves read as they are or by an iterator", "why_tests_cant": "Needs a leaf changed after the snapshot in a backward parallel scan.", "anchors": ["src/btree/scan.c: btree_seq_scan_getnext_internal, seq_leaf_locator_start, seq_leaf_locator_advance, load_first_historical_page, load_next_historical_page, scan_make_iterator"]}
{"id": "C96", "title": "No downlink is lost when the shared array of a parallel scan grows", "statement": "Whenever the shared array of downlinks is read, it consists of all downlinks which have been added.", "quantifier": "any number of participants; all orders of their steps", "why_tests_cant": "Needs the array to be full, and many participants to find it so at once.", "anchors": ["src/btree/scan.c: add_on_disk_downlink, init_btree_seq_scan"]}
{"id": "C97", "title": "Each change of the word of a file part changes the fields it is meant to change", "statement": "Locking, unlocking, marking as loading, loaded, scheduled, writing, written, not written, evicting and not loaded each change just the fields they are meant to change in the 32-bit word of a part.", "quantifier": "all words; all changes", "why_tests_cant": "Bits of the masks overlap or not for values which tests do not reach (127 uses, many locks).", "anchors": ["src/s3/headers.c: S3_PART_* macros, s3_header_lock_part, s3_header_unlock_part, s3_header_mark_part_*, eviction_callback"]}
{"id": "C98", "title": "A locked file part stays in place", "statement": "The number of locks of a part is that of the processes which hold it; while one holds it the part is loaded, and it is neither overwritten by a download nor by zeros; the assertions on the state of the part hold.", "quantifier": "any number of backends, workers and evicting processes; all orders of their steps; workers which fail and are restarted", "why_tests_cant": "Needs a worker to be restarted between two instructions, and an eviction and another request meanwhile.", "anchors": ["src/s3/headers.c: s3_header_lock_part, s3_header_unlock_part, s3_header_mark_part_loading, s3_header_mark_part_loaded, eviction_callback, s3_header_mark_not_loaded", "src/s3/worker.c: s3process_task, s3_schedule_file_part_read"]}
{"id": "C99", "title": "A file part has the contents written last, locally or in S3", "statement": "Whoever locks a part sees what was written to it last, however often it was uploaded, evicted and downloaded; a part which is clean and not being uploaded has the same contents in S3.", "quantifier": "any number of backends, workers and evicting processes; all orders of their steps; workers which fail and are restarted", "why_tests_cant": "Needs two uploads of one part at once with an eviction in between, or restarts at certain instructions.", "anchors": ["src/s3/headers.c: s3_header_mark_part_scheduled_for_write, s3_header_mark_part_writing, s3_header_mark_part_written, s3_header_mark_part_not_written, eviction_callback", "src/s3/worker.c: s3process_task, s3_schedule_file_part_write"]}
{"id": "C100", "title": "The eviction of a file part overwrites the bytes of this part only", "statement": "The eviction of a part, and the start of the server for a part which is not loaded, overwrite with zeros exactly the bytes of the part in the file.", "quantifier": "all file sizes; all parts gone through", "why_tests_cant": "Needs a file whose data end within 8 KiB before the end of a part, or a full segment.", "anchors": ["src/s3/headers.c: eviction_callback, initial_parts_counting"]}
{"id": "C101", "title": "Reads and writes are cut at the ends of parts, and what was written is noted for upload", "statement": "A read or write is cut into pieces without gaps, each within one part; after a write all parts touched are given to the list of parts to upload.", "quantifier": "all offsets and lengths", "why_tests_cant": "Needs a compressed page across the end of a part with the larger half in the first.", "anchors": ["src/btree/io.c: btree_smgr_write, btree_smgr_read"]}
{"id": "C102", "title": "No part written is forgotten by the list of parts to upload", "statement": "A part written since its upload was last scheduled is in the list of dirty parts of the tree; after a flush there is no such part.", "quantifier": "any number of processes and parts; all orders of their steps", "why_tests_cant": "Needs two processes to write pages of one tree at the same time.", "anchors": ["src/btree/io.c: btree_smgr_schedule_s3_write, btree_s3_flush"]}
{"id": "C103", "title": "The parts requested for a page, and those counted, are those there are", "statement": "For a page on disk the parts requested are exactly those which have a byte of it; the parts counted as loaded while a file grows are those it has.", "quantifier": "all offsets and sizes; all sequences of extents not longer than a part", "why_tests_cant": "Off-by-one errors at the ends of parts are met by few pages.", "anchors": ["src/s3/worker.c: s3_schedule_downlink_load", "src/btree/io.c: get_free_disk_extent"]}
{"id": "C104", "title": "The removal of a local file loses no data", "statement": "A local file is removed only if none of its parts with data is loaded, in transit or locked; afterwards its parts are still known to be in S3.", "quantifier": "all headers and file sizes; files of finished checkpoints and of the one to come", "why_tests_cant": "Needs all parts of a file of the checkpoint to come to be uploaded and evicted before this checkpoint ends.", "anchors": ["src/s3/headers.c: check_unlink_file, change_buffer, read_from_file"]}
{"id": "C105", "title": "The rewind queue loses, repeats and reorders nothing", "statement": "The rewind worker completes the items of committed transactions in the order in which their places in the queue were reserved, each once and unchanged; a rewind reads exactly the items filled and not completed, newest first, wherever they are (add buffer, file, complete buffer).", "quantifier": "any number of backends, the worker; all orders of their steps; all buffer sizes", "why_tests_cant": "Needs eviction, restoring and completion to overlap with commits at certain instructions, and buffers that wrap around.", "anchors": ["src/rewind/rewind.c: add_to_rewind_buffer, evict_rewind_items, try_restore_evicted_rewind_page, rewind_worker_main, do_rewind"]}
{"id": "C106", "title": "The pointer to the end of the filled items is neither early nor left behind", "statement": "All items below addPosFilledUpto are in place; when no backend is adding items, it has reached addPosReserved.", "quantifier": "any number of backends; all orders of their steps", "why_tests_cant": "Needs backends to fill their items in another order than they reserved them, with a compare-and-swap failing at the right moment.", "anchors": ["src/rewind/rewind.c: add_to_rewind_buffer"]}
{"id": "C107", "title": "Adding a transaction to the rewind queue ends", "statement": "A backend for whose items it is the turn gets space after finitely many evictions, without the worker.", "quantifier": "all numbers of subtransactions; all reachable states of the queue", "why_tests_cant": "Needs a transaction with very many subtransactions.", "anchors": ["src/rewind/rewind.c: add_to_rewind_buffer, evict_rewind_items"]}
{"id": "C108", "title": "A rewind undoes each transaction with its own subtransactions", "statement": "A rewind undoes the queued transactions newest first, each once, with its own undo location and exactly its own subtransactions, up to the first one at which the target stops it.", "quantifier": "all lists of transactions; all numbers of subtransactions; all reachable states of the queue; any former contents of the slots", "why_tests_cant": "Needs numbers of subtransactions around multiples of 25 and items spread over both buffers and the file.", "anchors": ["src/rewind/rewind.c: add_to_rewind_buffer, do_rewind"]}
{"id": "C109", "title": "A rewind undoes exactly the transactions at or after its target", "statement": "After a rewind to a time or transaction, exactly the queued transactions at or after the target are undone.", "quantifier": "all queues; all targets", "why_tests_cant": "Needs transactions that reserve their place in another order than they got their id or time.", "anchors": ["src/rewind/rewind.c: do_rewind, add_to_rewind_buffer"]}
{"id": "C110", "title": "A target id that is not in the past does not count", "statement": "When a rewind to a pair of ids warns that it is based on one of them only, the result is that of a rewind to this one.", "quantifier": "all queues; all pairs of ids", "why_tests_cant": "The warning is printed; only the result shows the difference.", "anchors": ["src/rewind/rewind.c: orioledb_rewind_internal, do_rewind"]}
{"id": "C111", "title": "Transactions are queued for rewind in the order of their commits", "statement": "If a transaction commits before another, it precedes it in the rewind queue.", "quantifier": "all transactions; all orders of steps", "why_tests_cant": "Needs a backend to be interrupted between its commit and the reservation of its place.", "anchors": ["src/transam/undo.c: undo_xact_callback", "src/rewind/rewind.c: add_to_rewind_buffer"]}
{"id": "C112", "title": "A checkpoint records all transactions that are not completed", "statement": "The file of each checkpoint lists all transactions of the rewind queue that are filled and not completed.", "quantifier": "any number of checkpoints; all orders of steps", "why_tests_cant": "The loss shows only after a crash and recovery, in actions on commit that are never taken.", "anchors": ["src/rewind/rewind.c: checkpoint_write_rewind_xids, try_restore_evicted_rewind_page"]}
{"id": "C113", "title": "The undo of queued transactions is kept", "statement": "Undo is not discarded as long as its transaction is in the rewind queue and not completed.", "quantifier": "any number of transactions; all orders of steps", "why_tests_cant": "Needs a backend to be interrupted between the reservation and the filling of its item while another one commits.", "anchors": ["src/rewind/rewind.c: add_to_rewind_buffer, rewind_worker_main", "src/transam/undo.c: update_min_undo_locations"]}
{"id": "C114", "title": "A rewind gets the worker to stop", "statement": "When a rewind asks the worker to stop, the worker stops.", "quantifier": "all states of the worker and the queue; all orders of steps", "why_tests_cant": "Needs a rewind with an empty queue, or at the moment when the worker restores a page.", "anchors": ["src/rewind/rewind.c: orioledb_rewind_internal, rewind_worker_main, try_restore_evicted_rewind_page"]}
{"id": "C115", "title": "Small files are packed and unpacked without change", "statement": "The packs small_files_N of a backup hold, in the order of the scan, exactly the files that are not in the list of the former backup with the same checksum, each once and with the contents it had during the backup; no pack is longer than 1 MB.", "quantifier": "all sets of files, names and contents; all lists of the former backup", "why_tests_cant": "Needs packs with many files of all lengths, and files that change between two calls during the backup.", "anchors": ["src/s3/checkpoint.c: accumulate_small_file, flush_small_files, read_small_file", "orioledb_s3_loader.py: download_file"]}
{"id": "C116", "title": "The list of checksums is read back as it was written", "statement": "The lists file_checksums and small_file_checksums that a backup leaves are read by the next backup without error, and each file gets the checksum and the number that were written.", "quantifier": "all series of backups, complete or given up, with or without failing workers; all file names", "why_tests_cant": "Needs unusual file names; the error appears only in the backup after the next change.", "anchors": ["src/s3/checksum.c: initHashTable, flushS3ChecksumState, getS3FileChecksum", "src/s3/worker.c: s3_workers_checkpoint_finish"]}
{"id": "C117", "title": "Files uploaded one by one are restored", "statement": "After a complete backup the loader restores exactly the files of 64 kB and more that were there, with their contents, also those not uploaded because they had not changed.", "quantifier": "all series of backups; any number of workers; all orders of their steps", "why_tests_cant": "Needs many backups with changing sets of files, workers that race, and a restart of a worker at a given moment.", "anchors": ["src/s3/worker.c: s3process_task, s3worker_main, s3_workers_checkpoint_finish", "src/s3/checksum.c: getS3FileChecksum", "orioledb_s3_loader.py: download_unchanged_files"]}
{"id": "C118", "title": "Small files are restored", "statement": "After a complete backup the loader restores exactly the files shorter than 64 kB that were there, with their contents, also those not packed because they had not changed.", "quantifier": "all series of backups; all sets of files", "why_tests_cant": "Needs a restore after several checkpoints with files that stay the same, and a comparison of all files.", "anchors": ["src/s3/checkpoint.c: s3_perform_backup, accumulate_small_file", "orioledb_s3_loader.py: download_unchanged_small_files"]}
{"id": "C119", "title": "No restored file is stale", "statement": "After a complete backup the loader gives no file that was not there at the backup and no file other contents than it had at the backup, whatever backups were made or given up before.", "quantifier": "all series of backups, complete or given up; all sets of files", "why_tests_cant": "Needs a crash in the middle of a backup, and a file that gets its former contents back.", "anchors": ["src/s3/checkpoint.c: s3_perform_backup", "src/s3/worker.c: s3process_task", "orioledb_s3_loader.py: download_unchanged_files, download_unchanged_small_files"]}
{"id": "C120", "title": "The record of a table is read back as it was written", "statement": "serialize_o_table followed by deserialize_o_table in a server of the same PostgreSQL major version gives the same table: all members, indexes, fields, missing values, predicates and expressions, and refresh_exprs is not set.", "quantifier": "all tables with any number of indexes and fields, all missing values, all layouts of the structures, all pairs of minor versions", "why_tests_cant": "Needs all combinations of optional members; a shift of one byte shows only for some of them.", "anchors": ["src/catalog/o_tables.c: serialize_o_table, deserialize_o_table, serialize_o_table_index, deserialize_o_table_index, datumRestoreSafe", "src/catalog/o_indices.c: o_serialize_node, o_deserialize_node_safe, o_serialize_string, o_deserialize_string_safe"]}
{"id": "C121", "title": "The record of an index is read back as it was written", "statement": "serialize_o_index followed by deserialize_o_index in a server of the same major version gives the same index with the same state, and refresh_exprs is not set.", "quantifier": "all indexes, all layouts, all pairs of minor versions", "why_tests_cant": "As for C120.", "anchors": ["src/catalog/o_indices.c: serialize_o_index, deserialize_o_index"]}
{"id": "C122", "title": "Another major version reads everything but the node trees, and knows it", "statement": "A server of another major version reads from the records of C120 and C121 all members but the node trees, which are NULL; refresh_exprs is set exactly if there was a node tree.", "quantifier": "all tables and indexes, all pairs of different major versions", "why_tests_cant": "Needs data files of several PostgreSQL majors.", "anchors": ["src/catalog/o_indices.c: o_deserialize_node_safe, o_node_version_compatible, o_node_str_is_empty", "src/catalog/o_tables.c: deserialize_o_table"]}
{"id": "C123", "title": "Truncated records are not accepted", "statement": "If bytes are missing at the end of a record, because chunks of it are missing, deserialize_o_table and deserialize_o_index return NULL.", "quantifier": "all tables and indexes, all lengths of what is left", "why_tests_cant": "The missing chunks come from a race; every length would have to be tried.", "anchors": ["src/catalog/o_tables.c: deserialize_o_table", "src/catalog/o_indices.c: deserialize_o_index"]}
{"id": "C124", "title": "A table stays marked until its expressions are rewritten", "statement": "If a server of another major version cannot read the expressions of a table, every later read of the table by this server sets refresh_exprs until the expressions were taken from the catalog again, also if something else in the table is changed meanwhile.", "quantifier": "all tables, all changes, all pairs of major versions", "why_tests_cant": "Needs pg_upgrade between majors and DDL on a database that nobody has used since.", "anchors": ["src/catalog/o_tables.c: o_tables_update, o_tables_move_all_callback", "src/catalog/ddl.c: o_refresh_table_expressions, maybe_auto_upgrade_refresh"]}
{"id": "C125", "title": "At most one instance uses a bucket", "statement": "In S3 mode no two instances run with the same bucket at the same time: s3_put_lock_file lets the second one fail.", "quantifier": "any number of instances, all orders of their requests to the bucket, kills at any moment, crashes of backends, copies of data directories", "why_tests_cant": "Needs several servers, one bucket, and crashes at given moments.", "anchors": ["src/s3/control.c: s3_put_lock_file, s3_delete_lock_file", "src/orioledb.c: _PG_init, orioledb_on_shmem_exit, orioledb_shmem_startup"]}
{"id": "C126", "title": "The bucket never goes back to an older checkpoint", "statement": "An instance runs only if the bucket is empty or holds a control file of the same instance that is not newer than its own; the control file of the bucket is only replaced by a later one of the same instance.", "quantifier": "as C125", "why_tests_cant": "As C125; the damage is seen at the next restore.", "anchors": ["src/s3/control.c: s3_check_control", "src/checkpoint/checkpoint.c: o_perform_checkpoint_guts"]}
{"id": "C127", "title": "A running instance keeps its lock", "statement": "While an instance runs, the lock file in the bucket holds its identifier; the start of another instance that is refused leaves it there.", "quantifier": "as C125", "why_tests_cant": "As C125.", "anchors": ["src/s3/control.c: s3_put_lock_file, s3_delete_lock_file", "src/orioledb.c: _PG_init"]}
{"id": "C128", "title": "A killed instance can start again", "statement": "An instance killed at any moment can start again with its data directory, whatever other instances tried in between.", "quantifier": "all moments of the kill, all actions of other instances", "why_tests_cant": "Needs a kill between two system calls.", "anchors": ["src/s3/control.c: s3_put_lock_file"]}
{"id": "C129", "title": "Words of S3 headers behave like words of arrays", "statement": "Whatever other processes load, sync or unlink meanwhile, s3_header_read_value returns the value last set to that word of that header, s3_header_compare_and_swap succeeds only on the expected value, and a data file is unlinked only if none of its parts is locked, being loaded or evicted, or loaded.", "quantifier": "all interleavings of any number of processes, buffers and words; failures of reads and writes", "why_tests_cant": "The races are a few instructions wide; failures must hit a given call.", "anchors": ["src/s3/headers.c: s3_header_read_value, s3_header_compare_and_swap_extended, change_buffer, load_header_buffer, check_unlink_file, sync_buffer"]}
{"id": "C130", "title": "A failed compare-and-swap of an S3 header tells the value of the word", "statement": "When s3_header_compare_and_swap returns false, *oldValue is the value of that word of that header, so that the callers that act on it without another attempt (s3_header_mark_part_scheduled_for_write, s3_header_mark_part_loading) are right.", "quantifier": "as C129", "why_tests_cant": "As C129.", "anchors": ["src/s3/headers.c: s3_header_compare_and_swap_extended, s3_header_mark_part_scheduled_for_write"]}
{"id": "C131", "title": "S3 headers are not lost when they leave the cache", "statement": "A header that is in no buffer is in its file, and a word that is not dirty is in the file.", "quantifier": "as C129", "why_tests_cant": "As C129.", "anchors": ["src/s3/headers.c: change_buffer, sync_buffer, s3_headers_sync, write_to_file"]}
{"id": "C132", "title": "The locks of the cache of S3 headers do not block forever", "statement": "A process that wants a word of a header gets it: the holders of the locks do not wait for each other, and the search ends.", "quantifier": "as C129", "why_tests_cant": "As C129.", "anchors": ["src/s3/headers.c: load_header_buffer, change_buffer, check_unlink_file, sync_buffer, s3_header_read_value"]}
{"id": "C133", "title": "The entries of a system cache are totally ordered", "statement": "The comparison o_sys_cache_cmp of the entries of a system cache is a total order, in which two entries are equal only if they are of the same key, the same database and the same LSN; an entry matches a search by key only if its key is the one searched for.", "quantifier": "all keys, of any number of columns, with OIDs of 32 bits and names", "why_tests_cant": "OIDs of a test cluster are small and close together; the order breaks only when two OIDs of one cache differ by more than half of the 32-bit range.", "anchors": ["src/catalog/o_sys_cache.c: o_sys_cache_key_cmp, o_sys_cache_cmp"]}
{"id": "C134", "title": "A system cache gives the version in force", "statement": "Whatever was done to a system cache, o_sys_cache_search for a key at an LSN is defined and returns the version of the entry last added at or before that LSN.", "quantifier": "all sequences of searches, additions, updates, drops, ends of transactions, invalidations, checkpoints by any number of backends; all hash functions", "why_tests_cant": "Two versions of one key need two backends adding an object at the same time around a write of WAL.", "anchors": ["src/catalog/o_sys_cache.c: o_sys_cache_search, o_sys_cache_get_from_tree, o_sys_cache_add_if_needed"]}
{"id": "C135", "title": "Invalidated system cache entries are read again", "statement": "After a backend has handled an invalidation message, o_sys_cache_search returns what the tree holds for the keys the message is about: those with its hash value, or all keys if the value is zero.", "quantifier": "as C134", "why_tests_cant": "The message for all keys comes only after the invalidation queue has overflowed.", "anchors": ["src/catalog/o_sys_cache.c: invalidate_fastcache_entry, orioledb_syscache_hook, o_sys_cache_search"]}
{"id": "C136", "title": "System cache entries of existing objects are not lost", "statement": "The entry of an object that was asked for with o_sys_cache_add_if_needed stays in the cache until a transaction that drops the object commits.", "quantifier": "as C134", "why_tests_cant": "The losses need a checkpoint between a drop and its rollback, or between a refresh and the next recovery.", "anchors": ["src/catalog/o_sys_cache.c: o_sys_cache_delete, update_deleted_value, o_sys_cache_delete_callback, o_sys_cache_delete_by_lsn", "src/utils/planner.c: o_collect_function_walker"]}
{"id": "C137", "title": "A new database gets the system cache entries of its template", "statement": "CREATE DATABASE copies each entry of the template that is not marked as deleted to the new database, with the same key and contents, and changes no other entry.", "quantifier": "all contents of a cache tree", "why_tests_cant": "Tests of templates have no enum types.", "anchors": ["src/catalog/o_sys_cache.c: o_sys_cache_copy_tree, o_sys_cache_add"]}
{"id": "C138", "title": "Row comparisons in index scans", "statement": "An index scan with equality conditions on some columns of the index and row comparisons such as (a, b) > (1, 2) returns a row of the index if and only if the row satisfies all of them.", "quantifier": "all rows, NULL included, all numbers of columns and conditions, all arguments, columns ASC and DESC, NULLS FIRST and LAST", "why_tests_cant": "Tests compare a few rows on indexes of two ascending columns.", "anchors": ["src/tableam/key_range.c: o_key_data_to_key_range, o_fill_row_key_bound", "src/tableam/index_scan.c: row_key_tuple_is_valid, is_tuple_valid, o_iterate_index", "src/tableam/tree.c: o_idx_cmp_range_key_to_value"]}
{"id": "C139", "title": "Arrays checked row by row in index scans", "statement": "For a condition column = ANY (array) that is not on the leading columns an index scan accepts a row if and only if the value of the column is an element of the array; rows with NULL are not accepted.", "quantifier": "all rows, NULL included, all sorted arrays of any length, any number of them, types passed by value and by reference", "why_tests_cant": "The failing case needs NULL in a column of a type passed by reference behind a column with a range condition.", "anchors": ["src/tableam/index_scan.c: is_tuple_valid", "src/tableam/key_range.c: o_key_data_to_key_range"]}
{"id": "C140", "title": "Arrays on leading columns of index scans", "statement": "An index scan with conditions column = ANY (array) on the first columns of an index ends and returns exactly the rows of the index that satisfy them, each once, in the order of the index, or in the opposite order if it is backward.", "quantifier": "all indexes, all sorted arrays on any number of leading columns, both directions", "why_tests_cant": "The number of combinations of elements and their order with ASC and DESC columns is not bounded; tests have two arrays at most.", "anchors": ["src/tableam/index_scan.c: o_bt_advance_array_keys_increment, switch_to_next_range, o_iterate_index", "src/tableam/key_range.c: o_key_data_update_array_key_range"]}
{"id": "C141", "title": "Index scans that skip leading columns", "statement": "An index scan for conditions on later columns of an index with none on the first columns, read with skip arrays (PostgreSQL 18), ends and returns exactly the rows of the index that satisfy the conditions, each once, in the order of the index, or in the opposite order if it is backward.", "quantifier": "all indexes with ASC, DESC, NULLS FIRST and LAST columns, all rows, NULL included, any number of skipped columns, any condition, both directions", "why_tests_cant": "The number of distinct values, their order and the places of NULL are not bounded; the failing cases need two skipped columns and a row with NULL in one of them that satisfies the conditions.", "anchors": ["src/tableam/index_scan.c: o_bt_array_set_low_or_high, o_bt_advance_array_keys_increment, o_skip_arrays_observe_tuple, o_iterate_index, is_tuple_valid", "src/tableam/key_range.c: o_key_data_to_key_range", "src/indexam/handler.c: o_adjust_num_prefix_exact_keys"]}
{"id": "C142", "title": "Order of enum values in recovery", "statement": "While WAL is replayed, any two values of an enum type compare as by their sort orders in pg_enum at that point.", "quantifier": "all enum types, all numbers of values, all OIDs and sort orders, all sequences of ALTER TYPE, all LSNs", "why_tests_cant": "Tests add one value to a type of a few; the failing cases need many values added at one place, a label used again, or a checkpoint taken while a value is added.", "anchors": ["src/catalog/o_enum_cache.c: o_enum_cache_add_all, o_enum_cache_fill_entry, o_load_enum_cache_data_hook", "src/catalog/o_sys_cache.c: o_sys_cache_add_if_needed, o_sys_cache_cmp", "src/catalog/ddl.c: orioledb_object_access_hook"]}
{"id": "C143", "title": "Check of the blocks of a data file", "statement": "The check of the blocks of the data file of a tree finds no error if and only if each block of the file is in exactly one extent, of a page or free, and no extent reaches behind the end of the file.", "quantifier": "all sets of extents of pages and of free extents, of all lengths above 0, in all orders; all lengths of the file", "why_tests_cant": "The check is itself the oracle of the tests: they show that it succeeds on files in order, hardly that it fails on each other one.", "anchors": ["src/btree/check.c: check_btree, check_extents, file_extent_cmp, add_extent"]}
{"id": "C144", "title": "Check of the order of free extents", "statement": "The check of a map or temporary file succeeds if and only if each extent in it is in order with all extents behind it: by offset, in the map file of a compressed tree by length, longer ones first, and then by offset.", "quantifier": "all lists of extents", "why_tests_cant": "As C143.", "anchors": ["src/btree/check.c: is_sorted_by_off, is_sorted_by_len_off"]}
{"id": "C145", "title": "VACUUM of bridged indexes is complete and exact", "statement": "VACUUM removes from the bridge index exactly the entries deleted for everybody, and from each bridged index exactly the entries that point to them, in however many rounds it has to; or it decides to skip this and changes nothing.", "quantifier": "all bridge indexes, all numbers and contents of bridged indexes, all points at which memory runs out, all decisions to skip", "why_tests_cant": "Several rounds need more dead entries than maintenance_work_mem holds, with the limit reached within a block.", "anchors": ["src/tableam/vacuum.c: lazy_scan_bridge_index, add_dead_item, finish_dead_items, dead_items_reset, lazy_vacuum, lazy_vacuum_all_indexes, lazy_vacuum_bridge_index"]}
{"id": "C146", "title": "VACUUM leaves no pointer to a removed bridge entry", "statement": "Wherever a VACUUM is broken off, no entry of a bridged index has a TID that was removed from the bridge index, and could be given to another row.", "quantifier": "as C145, and all points of breaking off", "why_tests_cant": "Needs a crash between two steps of VACUUM and a reuse of TIDs afterwards, which happens after 2^32 blocks only.", "anchors": ["src/tableam/vacuum.c: lazy_vacuum, lazy_vacuum_all_indexes, lazy_vacuum_bridge_index", "src/btree/btree.c: btree_bridge_ctid_get_and_inc"]}
{"id": "C147", "title": "Row identifiers ascend and are not given twice", "statement": "The ctids given to the rows of a table without a primary key ascend; each is behind all given before, behind all rows of the last checkpoint and behind all rows replayed since.", "quantifier": "all interleavings of INSERTs and recovery workers, all row identifiers, all block sizes, until the 2^32 blocks are used up", "why_tests_cant": "Needs recovery workers that change the counter between the read and the compare-and-swap of another.", "anchors": ["src/btree/btree.c: btree_ctid_from_seq, btree_ctid_get_and_inc, btree_ctid_update_if_needed", "src/recovery/worker.c: apply_tbl_insert"]}
{"id": "C148", "title": "No INSERT fails because of identifiers for bridged indexes", "statement": "An INSERT into a table with bridged indexes does not fail because the identifier it gets for these is in use.", "quantifier": "all runs of INSERTs, VACUUM, checkpoints and crashes, over the overflow of the counter too", "why_tests_cant": "The test of recovery reads the table after a crash and does not insert into it.", "anchors": ["src/btree/btree.c: btree_bridge_ctid_get_and_inc, btree_ctid_update_if_needed", "src/tableam/operations.c: the loop over bridge identifiers", "src/recovery/worker.c: apply_tbl_insert"]}
{"id": "C149", "title": "VACUUM removes the right bridge entries", "statement": "Given the TIDs of removed rows in ascending order, VACUUM removes from the bridge index exactly the entries with these TIDs, in whatever leaves they are, and writes one WAL record for each entry removed and no other.", "quantifier": "all bridge indexes with leaves in order, all ascending lists of TIDs, present or not", "why_tests_cant": "Which leaf is used again and which is looked for depends on how TIDs fall on leaves; tests have few leaves.", "anchors": ["src/tableam/vacuum.c: lazy_vacuum_bridge_index"]}
