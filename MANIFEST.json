{
 "claims": [
  {
   "property": "C01",
   "status": "proved",
   "theorems": [
    "Verif.Spin.Fas.mutual_exclusion",
    "Verif.Spin.Fas.locked_iff",
    "Verif.Spin.Fas.trylock_spec",
    "Verif.Spin.Fas.lock_progress",
    "Verif.Spin.Cas.mutual_exclusion",
    "Verif.Spin.Cas.locked_iff",
    "Verif.Spin.Cas.trylock_spec",
    "Verif.Spin.Cas.lock_progress",
    "Verif.Spin.Dec.mutual_exclusion",
    "Verif.Spin.Dec.locked_iff",
    "Verif.Spin.Dec.trylock_spec",
    "Verif.Spin.Dec.lock_progress"
   ],
   "note": "Any number of threads (DEC: < 2^32), all interleavings."
  },
  {
   "property": "C02",
   "status": "proved",
   "theorems": [
    "Verif.Spin.Ticket.mutual_exclusion",
    "Verif.Spin.Ticket.Packed.mutual_exclusion"
   ],
   "note": "Counter width is a parameter; n <= 2^w threads; any number of acquisitions."
  },
  {
   "property": "C03",
   "status": "proved",
   "theorems": [
    "Verif.Spin.Ticket.fcfs",
    "Verif.Spin.Ticket.no_overtaking",
    "Verif.Spin.Ticket.trylock_success",
    "Verif.Spin.Ticket.locked_iff",
    "Verif.Spin.Ticket.progress",
    "Verif.Spin.Ticket.Packed.fcfs",
    "Verif.Spin.Ticket.Packed.locked_iff",
    "Verif.Spin.Ticket.Packed.trylock_success"
   ],
   "note": ""
  },
  {
   "property": "C04",
   "status": "proved",
   "theorems": [
    "Verif.Spin.Anderson.mutual_exclusion",
    "Verif.Spin.Anderson.fcfs",
    "Verif.Spin.Anderson.progress"
   ],
   "note": ""
  },
  {
   "property": "C05",
   "status": "partial",
   "theorems": [
    "Verif.Spin.Anderson.locked_iff_partial",
    "Verif.Spin.Anderson.locked_wrong"
   ],
   "note": "Violated by the code for counts that are not a power of two (locked_wrong is a concrete witness); proved for powers of two."
  },
  {
   "property": "C06",
   "status": "proved",
   "theorems": [
    "Verif.Spin.Clh.mutual_exclusion",
    "Verif.Spin.Clh.fcfs",
    "Verif.Spin.Clh.recycled_node_private",
    "Verif.Spin.Clh.unlock_enabled",
    "Verif.Spin.Clh.progress",
    "Verif.Spin.Clh.locked_iff"
   ],
   "note": ""
  },
  {
   "property": "C07",
   "status": "proved",
   "theorems": [
    "Verif.Spin.Mcs.mutual_exclusion",
    "Verif.Spin.Mcs.fcfs",
    "Verif.Spin.Mcs.handoff",
    "Verif.Spin.Mcs.unlock_wait",
    "Verif.Spin.Mcs.trylock_success",
    "Verif.Spin.Mcs.locked_iff",
    "Verif.Spin.Mcs.unused_unreferenced"
   ],
   "note": ""
  },
  {
   "property": "C09",
   "status": "proved",
   "theorems": [
    "Verif.Rw.Rwlock.rw_exclusion",
    "Verif.Rw.Rwlock.downgrade_keeps",
    "Verif.Rw.Rwlock.quiescent",
    "Verif.Rw.Rwlock.locked_of_held",
    "Verif.Rw.Rwlock.write_progress",
    "Verif.Rw.Rwlock.read_progress"
   ],
   "note": ""
  },
  {
   "property": "C10",
   "status": "proved",
   "theorems": [
    "Verif.Rw.RwRecursive.rw_exclusion",
    "Verif.Rw.RwRecursive.balanced",
    "Verif.Rw.RwRecursive.reenter",
    "Verif.Rw.RwRecursive.wc_eq_depth",
    "Verif.Rw.RwRecursive.quiescent"
   ],
   "note": ""
  },
  {
   "property": "C11",
   "status": "proved",
   "theorems": [
    "Verif.Rw.Pflock.rw_exclusion",
    "Verif.Rw.Pflock.writers_fcfs"
   ],
   "note": ""
  },
  {
   "property": "C12",
   "status": "proved",
   "theorems": [
    "Verif.Rw.Pflock.phase_fair",
    "Verif.Rw.Pflock.reader_admitted",
    "Verif.Rw.Pflock.reader_free",
    "Verif.Rw.Pflock.writer_admitted"
   ],
   "note": ""
  },
  {
   "property": "C13",
   "status": "proved",
   "theorems": [
    "Verif.Rw.Tflock.rw_exclusion",
    "Verif.Rw.Tflock.task_fair",
    "Verif.Rw.Tflock.ix_injective",
    "Verif.Rw.Tflock.writer_progress",
    "Verif.Rw.Tflock.reader_progress"
   ],
   "note": "Fewer than 2^15 threads; any number of requests (the 16-bit fields wrap)."
  },
  {
   "property": "C14",
   "status": "proved",
   "theorems": [
    "Verif.Rw.Swlock.rw_exclusion",
    "Verif.Rw.Swlock.count_exact",
    "Verif.Rw.Swlock.reader_seen",
    "Verif.Rw.Swlock.downgrade",
    "Verif.Rw.Swlock.write_progress",
    "Verif.Rw.Swlock.read_progress"
   ],
   "note": "Fewer than 2^30 readers."
  },
  {
   "property": "C15",
   "status": "proved",
   "theorems": [
    "Verif.Rw.Brlock.rw_exclusion",
    "Verif.Rw.Brlock.list_exact",
    "Verif.Rw.Brlock.registered",
    "Verif.Rw.Brlock.quiescent"
   ],
   "note": ""
  },
  {
   "property": "C16",
   "status": "partial",
   "theorems": [
    "Verif.Rw.Bytelock.rw_exclusion_partial",
    "Verif.Rw.Bytelock.upgrade_partial",
    "Verif.Rw.Bytelock.downgrade_partial",
    "Verif.Rw.Bytelock.no_ub_partial",
    "Verif.Rw.Bytelock.quiescent_partial",
    "Verif.Rw.Bytelock.unslotted_broken"
   ],
   "note": "Violated by the code when unslotted threads both read and write (unslotted_broken); proved when unslotted threads only read or only write, any number of slotted and unslotted threads."
  },
  {
   "property": "C17",
   "status": "proved",
   "theorems": [
    "Verif.Cohort.mutual_exclusion",
    "Verif.Cohort.inside_locked"
   ],
   "note": ""
  },
  {
   "property": "C18",
   "status": "partial",
   "theorems": [
    "Verif.Cohort.released_partial",
    "Verif.Cohort.global_used_partial",
    "Verif.Cohort.trylock_leak"
   ],
   "note": "Violated by the code when trylock is used (trylock_leak); proved without trylock."
  },
  {
   "property": "C19",
   "status": "proved",
   "theorems": [
    "Verif.RwCohort.Wp.rw_exclusion",
    "Verif.RwCohort.Wp.counter"
   ],
   "note": ""
  },
  {
   "property": "C20",
   "status": "proved",
   "theorems": [
    "Verif.RwCohort.Rp.rw_exclusion"
   ],
   "note": ""
  },
  {
   "property": "C21",
   "status": "proved",
   "theorems": [
    "Verif.RwCohort.Neutral.rw_exclusion"
   ],
   "note": ""
  },
  {
   "property": "C22",
   "status": "proved",
   "theorems": [
    "Verif.Sequence.accepted_consistent",
    "Verif.Sequence.undisturbed_accepted",
    "Verif.Sequence.begin_iff",
    "Verif.Sequence.ver_parity",
    "Verif.Sequence.wrap_torn"
   ],
   "note": ""
  },
  {
   "property": "C23",
   "status": "proved",
   "theorems": [
    "Verif.Barrier.Centralized.phase_separation",
    "Verif.Barrier.Centralized.no_deadlock"
   ],
   "note": ""
  },
  {
   "property": "C25",
   "status": "proved",
   "theorems": [
    "Verif.Barrier.Dissemination.phase_separation",
    "Verif.Barrier.Dissemination.no_lost_signal",
    "Verif.Barrier.Dissemination.no_deadlock"
   ],
   "note": "Up to 2^31 threads, any number of calls."
  },
  {
   "property": "C26",
   "status": "proved",
   "theorems": [
    "Verif.Barrier.Tournament.phase_separation",
    "Verif.Barrier.Tournament.no_deadlock"
   ],
   "note": "Up to 2^31 threads, any number of calls."
  },
  {
   "property": "C57",
   "status": "proved",
   "theorems": [
    "Verif.TimeUtil.addNs_spec",
    "Verif.TimeUtil.add_spec",
    "Verif.TimeUtil.add_invalid",
    "Verif.TimeUtil.add_negative_ub",
    "Verif.TimeUtil.add_mono",
    "Verif.TimeUtil.cmp_spec",
    "Verif.TimeUtil.checkDeadline_spec",
    "Verif.TimeUtil.waitTimeScale_spec",
    "Verif.TimeUtil.waitTimeScale_large_shift"
   ],
   "note": "Outside the quantifier: negative seconds overflow (add_negative_ub) and shifts above 32 clamp wrongly (waitTimeScale_large_shift)."
  },
  {
   "property": "C58",
   "status": "proved",
   "theorems": [
    "Verif.Internal.log_pow2",
    "Verif.Internal.power2_least",
    "Verif.Internal.power2_overflow",
    "Verif.Internal.max_eq",
    "Verif.Internal.log_power2"
   ],
   "note": ""
  },
  {
   "property": "C59",
   "status": "proved",
   "theorems": [
    "Verif.CasLoop.linearizable",
    "Verif.CasLoop.undisturbed"
   ],
   "note": ""
  },
  {
   "property": "C60",
   "status": "partial",
   "theorems": [
    "Verif.Backoff.eb_delay",
    "Verif.Backoff.eb_double",
    "Verif.Backoff.after_bound_partial",
    "Verif.Backoff.after_pow2_partial",
    "Verif.Backoff.exceeds_ceiling"
   ],
   "note": "Violated by the code: from a power of two the delay ends at 2^20 = CEILING + 1 (exceeds_ceiling); bound CEILING + 1 proved."
  },
  {
   "property": "C61",
   "status": "partial",
   "theorems": [
    "Verif.CasLoop.inc_ptr_zero_partial",
    "Verif.CasLoop.inc_ptr_zero_wrong"
   ],
   "note": "Violated by the fall-back when pointers are wider than unsigned int (inc_ptr_zero_wrong); inc_ptr_zero_partial says at exactly which 64-bit values the report is right."
  },
  {
   "property": "C24",
   "status": "proved",
   "theorems": [
    "Verif.Barrier.Combining.build_shape",
    "Verif.Barrier.Combining.exists_built",
    "Verif.Barrier.Combining.phase_separation",
    "Verif.Barrier.Combining.no_deadlock"
   ],
   "note": "Any groups and threads; the tree is the one built by the model of group_init."
  },
  {
   "property": "C27",
   "status": "proved",
   "theorems": [
    "Verif.Barrier.Mcs.phase_separation",
    "Verif.Barrier.Mcs.no_deadlock"
   ],
   "note": "Any number of threads (<= 2^30) and calls."
  },
  {
   "property": "C44",
   "status": "partial",
   "theorems": [
    "Verif.Bitmap.set_rep",
    "Verif.Bitmap.bts_rep",
    "Verif.Bitmap.reset_rep",
    "Verif.Bitmap.test_rep",
    "Verif.Bitmap.union_below",
    "Verif.Bitmap.union_rep_partial",
    "Verif.Bitmap.union_rep_le",
    "Verif.Bitmap.inter_rep",
    "Verif.Bitmap.interNeg_rep",
    "Verif.Bitmap.clear_rep",
    "Verif.Bitmap.init_rep",
    "Verif.Bitmap.empty_rep",
    "Verif.Bitmap.isFull_rep",
    "Verif.Bitmap.count_rep",
    "Verif.Bitmap.countInter_rep",
    "Verif.Bitmap.sequence_refines_partial",
    "Verif.Bitmap.union_spills"
   ],
   "note": "All operations proved for all lengths and contents; violated by the code only for ck_bitmap_union with a source longer than the destination that has elements in the destination's unused tail bits (union_spills): union_rep_partial gives the exact condition."
  },
  {
   "property": "C45",
   "status": "proved",
   "theorems": [
    "Verif.Bitmap.iterator_enumerates",
    "Verif.Bitmap.iterator_any",
    "Verif.Bitmap.next_spec",
    "Verif.Bitmap.iterator_stays_done",
    "Verif.Bitmap.iterator_beyond_length"
   ],
   "note": ""
  },
  {
   "property": "C46",
   "status": "proved",
   "theorems": [
    "Verif.Bitmap.Conc.linearizable",
    "Verif.Bitmap.Conc.exactly_one_winner",
    "Verif.Bitmap.Conc.winners_bounded",
    "Verif.Bitmap.Conc.never_lost"
   ],
   "note": ""
  },
  {
   "property": "C62",
   "status": "proved",
   "theorems": [
    "Verif.Bitmap.popcount_ones",
    "Verif.Bitmap.ctz_lowest",
    "Verif.Bitmap.ctz_zero",
    "Verif.Bitmap.ffs_lowest"
   ],
   "note": ""
  },
  {
   "property": "C28",
   "status": "proved",
   "theorems": [
    "Verif.Ring.spsc_linearizable",
    "Verif.Ring.Start.initial"
   ],
   "note": "From any quiescent state (all counter values), any number of operations, chunked copies."
  },
  {
   "property": "C29",
   "status": "proved",
   "theorems": [
    "Verif.Ring.linearizable",
    "Verif.Ring.try_fail_overtaken"
   ],
   "note": "Single or many producers; a failed trydequeue either found the queue empty or was overtaken by another consumer."
  },
  {
   "property": "C30",
   "status": "proved",
   "theorems": [
    "Verif.Ring.linearizable",
    "Verif.Ring.mp_fail_full",
    "Verif.Ring.occ_recorded",
    "Verif.Ring.commit_not_stuck",
    "Verif.Ring.size_eq"
   ],
   "note": "mp_fail_full and occ_recorded: a failing enqueue saw all slots filled or reserved at one instant inside the call."
  },
  {
   "property": "C31",
   "status": "proved",
   "theorems": [
    "Verif.Ring.repair_recovers",
    "Verif.Ring.valid_accepts",
    "Verif.Ring.valid_rejects_sp",
    "Verif.Ring.repair_loses_sp",
    "Verif.Ring.valid_rejects_wrapped"
   ],
   "note": "Proved for multi-producer rings without counter wrap, as stated; the deviations for single-producer rings and wrapped counters are proved as witnesses."
  },
  {
   "property": "C32",
   "status": "proved",
   "theorems": [
    "Verif.Stack.upmc_linearizable",
    "Verif.Stack.upmc_fail_overtaken",
    "Verif.Stack.upmc_content",
    "Verif.Stack.Nc.mpnc_linearizable",
    "Verif.Stack.Nc.mpnc_quiescent",
    "Verif.Stack.Nc.mpnc_content_step",
    "Verif.Stack.Nc.pushSpnc_rep",
    "Verif.Stack.Nc.popNpsc_rep",
    "Verif.Stack.Nc.batchNpsc_rep"
   ],
   "note": "Any number of threads and entries, from any quiescent content."
  },
  {
   "property": "C33",
   "status": "proved",
   "theorems": [
    "Verif.Stack.mpmc_linearizable",
    "Verif.Stack.mpmc_fail_overtaken",
    "Verif.Stack.mpmc_content"
   ],
   "note": "Executions in which no generation snapshot is 2^64 pops old."
  },
  {
   "property": "C34",
   "status": "partial",
   "theorems": [
    "Verif.Stack.mpmc_batch_linearizable_partial",
    "Verif.Stack.batch_pop_mpmc_aba"
   ],
   "note": "Violated by the code with immediate reuse: batch_pop_mpmc leaves the generation alone (batch_pop_mpmc_aba); proved if no entry is pushed while a running pop holds its address."
  },
  {
   "property": "C35",
   "status": "proved",
   "theorems": [
    "Verif.Fifo.Spsc.linearizable",
    "Verif.Fifo.Spsc.recycled_unused",
    "Verif.Fifo.Spsc.recycle_not_null",
    "Verif.Fifo.Spsc.consumer_owned"
   ],
   "note": "From any quiescent content; any interleaving of the producer, the consumer and recycling."
  },
  {
   "property": "C36",
   "status": "partial",
   "theorems": [
    "Verif.Fifo.Mpmc.linearizable_partial",
    "Verif.Fifo.Mpmc.tail_lag",
    "Verif.Fifo.Mpmc.tryenqueue_fail",
    "Verif.Fifo.Mpmc.trydequeue_fail",
    "Verif.Fifo.Mpmc.dequeue_reuse_wrong",
    "Verif.Fifo.Mpmc.enqueue_reuse_wrong"
   ],
   "note": "Violated by the code when a node given back as garbage is reused at once (dequeue_reuse_wrong, enqueue_reuse_wrong); proved for any number of threads when no node is enqueued while a running operation holds it as its head or tail snapshot."
  },
  {
   "property": "C53",
   "status": "proved",
   "theorems": [
    "Verif.Queue.SL.init_rep",
    "Verif.Queue.SL.insertHead_rep",
    "Verif.Queue.SL.insertAfter_rep",
    "Verif.Queue.SL.insertPrevptr_rep",
    "Verif.Queue.SL.removeHead_rep",
    "Verif.Queue.SL.removeAfter_rep",
    "Verif.Queue.SL.remove_rep",
    "Verif.Queue.SL.removePrevptr_rep",
    "Verif.Queue.SL.move_rep",
    "Verif.Queue.SL.swap_rep",
    "Verif.Queue.STQ.init_rep",
    "Verif.Queue.STQ.insertHead_rep",
    "Verif.Queue.STQ.insertAfter_rep",
    "Verif.Queue.STQ.insertTail_rep",
    "Verif.Queue.STQ.removeHead_rep",
    "Verif.Queue.STQ.removeAfter_rep",
    "Verif.Queue.STQ.remove_rep",
    "Verif.Queue.STQ.concat_rep",
    "Verif.Queue.STQ.move_rep",
    "Verif.Queue.LST.init_rep",
    "Verif.Queue.LST.insertHead_rep",
    "Verif.Queue.LST.insertAfter_rep",
    "Verif.Queue.LST.insertBefore_rep",
    "Verif.Queue.LST.remove_rep",
    "Verif.Queue.LST.move_rep",
    "Verif.Queue.LST.swap_rep",
    "Verif.Queue.foreach_visits",
    "Verif.Queue.foreachSafe_remove"
   ],
   "note": "Each macro on any well-formed list, with a frame condition for everything else. CK_STAILQ_SWAP does not compile (assignment to a non-lvalue) and is not modelled."
  },
  {
   "property": "C54",
   "status": "proved",
   "theorems": [
    "Verif.Queue.slist_traversal",
    "Verif.Queue.stailq_traversal",
    "Verif.Queue.list_traversal"
   ],
   "note": "Any number of readers, writer interleaved store by store; reinsertion only of elements no running traversal may have seen."
  },
  {
   "property": "C51",
   "status": "partial",
   "theorems": [
    "Verif.Array.visible_changes_partial",
    "Verif.Array.buffer_snapshot_partial",
    "Verif.Array.foreach_partial",
    "Verif.Array.writer_spec_partial",
    "Verif.Array.op_good",
    "Verif.Array.remove_pending_visible",
    "Verif.Array.foreach_mixes",
    "Verif.Array.foreach_overrun",
    "Verif.Array.put_overflow"
   ],
   "note": "Violated by the code: a removal while additions are pending is visible before the commit (remove_pending_visible); CK_ARRAY_FOREACH mixes versions and can read outside the buffer (foreach_mixes, foreach_overrun). Proved for all executions without such removals and below 2^31 values; for CK_ARRAY_FOREACH if the active buffer is not replaced during the loop."
  },
  {
   "property": "C52",
   "status": "partial",
   "theorems": [
    "Verif.Array.put_reports_partial",
    "Verif.Array.unique_reports_partial",
    "Verif.Array.put_trans_wrong",
    "Verif.Array.remove_reports"
   ],
   "note": "Violated by the code with a removal pending: put returns false and put_unique -1 although the value is added (put_trans_wrong). Proved when no transaction is pending."
  },
  {
   "property": "C55",
   "status": "partial",
   "theorems": [
    "Verif.Ec.no_lost_wakeup32",
    "Verif.Ec.no_lost_wakeup64_partial",
    "Verif.Ec.sleeper_flagged",
    "Verif.Ec.update_pends",
    "Verif.Ec.pending_wakes",
    "Verif.Ec.lost_wakeup64",
    "Verif.Ec.sp_lost_wakeup",
    "Verif.Ec.no_lost_wakeup32_case",
    "Verif.Ec.no_lost_wakeup64_case"
   ],
   "note": "ck_ec32: proved without any bound. ck_ec64: the futex compares the low 32 bits only; proved if less than 2^31 increments happened since the waiter last compared the whole word, and violated at 2^31 (lost_wakeup64). In single-producer mode wake-ups can be lost (sp_lost_wakeup), as the header concedes."
  },
  {
   "property": "C56",
   "status": "partial",
   "theorems": [
    "Verif.Ec.wait_zero_partial",
    "Verif.Ec.wait_zero_guarded_partial",
    "Verif.Ec.wait_zero_wrong32",
    "Verif.Ec.wait_zero_wrong64"
   ],
   "note": "Violated by the code: a producer that clears the flag late makes a waiter for the current value return 0 (wait_zero_wrong32/64). Proved whenever no producer stands between its update and its flag clearing at the call and no update leaves the value unchanged."
  },
  {
   "property": "C63",
   "status": "partial",
   "theorems": [
    "Verif.Ec.Backoff.round_spec",
    "Verif.Ec.Backoff.round_terminates",
    "Verif.Ec.Backoff.no_growth_hangs",
    "Verif.Ec.Backoff.oversleeps"
   ],
   "note": "Violated by the code in two ways: a scale factor of at most 2^shift hangs the wait (no_growth_hangs), and a sleep may outlast the caller's deadline (oversleeps). The rest is proved; termination if the wait time at least doubles, as with the defaults."
  },
  {
   "property": "C64",
   "status": "proved",
   "theorems": [
    "Verif.Ec.linearizable32",
    "Verif.Ec.linearizable64",
    "Verif.Ec.le_eq",
    "Verif.Ec.add_case"
   ],
   "note": "Both widths (laws32, laws64), both producer modes."
  },
  {
   "property": "C47",
   "status": "proved",
   "theorems": [
    "Verif.Hs.refines_map",
    "Verif.Hs.refused_only_by_allocation",
    "Verif.Hs.prog_ends",
    "Verif.Hs.capOf_ge",
    "Verif.Hs.capOf_large",
    "Verif.Hs.refines_map_case"
   ],
   "note": "All operations, hash functions and allocation outcomes. refused_only_by_allocation: an operation is refused only if an allocation failed. capOf_large: a requested capacity above 2^31 is truncated by ck_internal_power_2."
  },
  {
   "property": "C48",
   "status": "proved",
   "theorems": [
    "Verif.Hs.linearizable",
    "Verif.Hs.retry_case",
    "Verif.Hs.linearizable_case"
   ],
   "note": "Readers and the writer together are linearizable to the map of C47; this implies the statement. Any number of readers, any hash function. Generation counters are unbounded in the model (fewer than 2^32 moves during one probe), replaced maps stay readable."
  },
  {
   "property": "C49",
   "status": "partial",
   "theorems": [
    "Verif.Ht.refines_map_partial",
    "Verif.Ht.refused_only_by_allocation",
    "Verif.Ht.prog_ends",
    "Verif.Ht.refines_map_case",
    "Verif.Ht.refines_map_keeps",
    "Verif.Ht.put_duplicates"
   ],
   "note": "Violated by the code: put of a present key behind a tombstone returns true and stores the key twice (put_duplicates). Proved for every history in which put is called for absent keys, or with nothing removed since the table was created, grown or reset; all other operations unrestricted. Direct mode."
  },
  {
   "property": "C37",
   "status": "proved",
   "theorems": [
    "Verif.Hp.protected_live",
    "Verif.Hp.no_destroy_while_published",
    "Verif.Hp.destroyed_once",
    "Verif.Hp.pending_retired",
    "Verif.Hp.reclaim_destroys",
    "Verif.Hp.purge_empties",
    "Verif.Hp.reclaim_progress",
    "Verif.Hp.published_case",
    "Verif.Hp.destroys_case",
    "Verif.Hp.unvalidated_destroyed"
   ],
   "note": "Any number of records and objects, any degree, cache size and threshold. unvalidated_destroyed: publishing without re-reading the source does not protect."
  },
  {
   "property": "C38",
   "status": "proved",
   "theorems": [
    "Verif.HpStack.linearizable",
    "Verif.HpStack.derefs_live",
    "Verif.HpStack.pops_top",
    "Verif.HpStack.try_fail_overtaken",
    "Verif.HpStack.never_stuck",
    "Verif.HpStack.race_case",
    "Verif.HpStack.history_case",
    "Verif.HpStack.result_case"
   ],
   "note": "Composed with the hazard pointer model of C37; entries are reused as soon as the destructor got them."
  },
  {
   "property": "C39",
   "status": "partial",
   "theorems": [
    "Verif.HpFifo.linearizable_partial",
    "Verif.HpFifo.derefs_live_partial",
    "Verif.HpFifo.linked_partial",
    "Verif.HpFifo.never_stuck_partial",
    "Verif.HpFifo.trydequeue_null",
    "Verif.HpFifo.protected_case",
    "Verif.HpFifo.history_case"
   ],
   "note": "Violated by the code: trydequeue loads tail before publishing head; with recycling it can store NULL in head and dereference it (trydequeue_null). Proved in full (and linearizability) for enqueue, tryenqueue and dequeue; with trydequeue if no entry is reused between a trydequeue's load of head and its check."
  },
  {
   "property": "C40",
   "status": "partial",
   "theorems": [
    "Verif.Ep.grace_partial",
    "Verif.Ep.callback_defers",
    "Verif.Ep.grace_case"
   ],
   "note": "Every counter value and wrap position (a cas that succeeds after a full round of the counter, which the code documents as out of contract, is excluded). False in two uses: a callback that defers on the record being dispatched (callback_defers) and records with NULL sections and section objects open at once (mix_epoch, mix_sync); proved without those."
  },
  {
   "property": "C41",
   "status": "partial",
   "theorems": [
    "Verif.Ep.synchronize_waits_partial",
    "Verif.Ep.mix_sync",
    "Verif.Ep.sync_case"
   ],
   "note": "Proved for every use of deferrals; false for records with NULL sections and section objects open at once (mix_sync), proved without."
  },
  {
   "property": "C42",
   "status": "partial",
   "theorems": [
    "Verif.Ep.grace_strict_partial",
    "Verif.Ep.strict_poll",
    "Verif.Ep.strict_barrier",
    "Verif.Ep.strict_case"
   ],
   "note": "Violated by the code: strict_poll and strict_barrier are executions where a function deferred by another thread runs with a section open that was open at the call. Proved if the owner polls inside a section of the record and does not use ck_epoch_barrier."
  },
  {
   "property": "C43",
   "status": "proved",
   "theorems": [
    "Verif.Ep.record_epoch_le",
    "Verif.Ep.nest_case",
    "Verif.Ep.mix_epoch"
   ],
   "note": "Section objects on a record not mixed with NULL sections (mix_epoch shows what happens otherwise)."
  },
  {
   "property": "C65",
   "status": "proved",
   "theorems": [
    "Verif.Ep.runs_once",
    "Verif.Ep.not_lost",
    "Verif.Ep.unregister_drops",
    "Verif.Ep.grace_case"
   ],
   "note": "All uses, including callbacks that defer, strict deferrals and mixed sections."
  },
  {
   "property": "C08",
   "status": "proved",
   "theorems": [
    "Verif.Spin.Hclh.mutual_exclusion",
    "Verif.Spin.Hclh.recycled_node_private",
    "Verif.Spin.Hclh.batch_case",
    "Verif.Spin.Hclh.migration_breaks_exclusion"
   ],
   "note": "For every fixed assignment of threads to clusters. A thread that passes another cluster's queue on a later call breaks exclusion (migration_breaks_exclusion)."
  },
  {
   "property": "C66",
   "status": "proved",
   "theorems": [
    "Verif.Spin.Hclh.cluster_fcfs",
    "Verif.Spin.Hclh.progress",
    "Verif.Spin.Hclh.unlock_enabled",
    "Verif.Spin.Hclh.batch_case"
   ],
   "note": "For every fixed assignment of threads to clusters."
  },
  {
   "property": "C50",
   "status": "partial",
   "theorems": [
    "Verif.Rhs.count_partial",
    "Verif.Rhs.count_no_apply_partial",
    "Verif.Rhs.count_wrong"
   ],
   "note": "False as stated: ck_rhs_apply does not decrement n_entries when it deletes (count_wrong). Proved: the count is never less than the number of objects and exceeds it by at most the number of objects deleted through apply; exact without apply. Assumes a memory limit that keeps probe limits below CK_RHS_WORD_MAX (C67) and that every call returned."
  },
  {
   "property": "C67",
   "status": "partial",
   "theorems": [
    "Verif.Rhs.refines_map_partial",
    "Verif.Rhs.step_returns_partial",
    "Verif.Rhs.fas_stale",
    "Verif.Rhs.lost_object"
   ],
   "note": "False as stated: in a table of 8192 slots an object is lost after 256 puts and one remove (lost_object). Refinement for all histories whose tables stay below 8192 slots (default mode) or 65534 slots (read-mostly), as long as no call runs into more than 512 displacements or a restart of ck_rhs_fas on a replaced map; the latter happens (fas_stale)."
  },
  {
   "property": "C68",
   "status": "partial",
   "theorems": [
    "Verif.Ht.linearizable_partial",
    "Verif.Ht.torn_get",
    "Verif.Ht.late_bound"
   ],
   "note": "False as stated: ck_ht_set_spmc of a key behind a tombstone lets a reader return the new value for another key (torn_get), and after ck_ht_gc it makes a new entry visible before raising its probe bound (late_bound). Linearizable for all histories in which put and set of a present key are only used while nothing was removed since the last grow/reset, and set of an absent key only if ck_ht_gc was never called."
  },
  {
   "property": "C69",
   "status": "proved",
   "theorems": [
    "Verif.Weak.Sequence.accepted_consistent",
    "Verif.Weak.Sequence.snap_wend",
    "Verif.Weak.Sequence.begin_not_older",
    "Verif.Weak.Sequence.no_fence_write_begin",
    "Verif.Weak.Sequence.no_fence_read_retry",
    "Verif.Weak.Sequence.no_fence_read_begin",
    "Verif.Weak.Sequence.no_fence_write_end"
   ],
   "note": "View-based relaxed memory. Fewer than 2^w stores to the counter between begin and retry."
  },
  {
   "property": "C70",
   "status": "proved",
   "theorems": [
    "Verif.Weak.Ring.fifo",
    "Verif.Weak.Ring.publication",
    "Verif.Weak.Ring.pub_publish",
    "Verif.Weak.Ring.enq_full",
    "Verif.Weak.Ring.deq_empty",
    "Verif.Weak.Ring.no_fence_enqueue",
    "Verif.Weak.Ring.no_fence_dequeue"
   ],
   "note": "View-based relaxed memory, rings of at most 2^31 slots."
  },
  {
   "property": "C71",
   "status": "proved",
   "theorems": [
    "Verif.Weak.Fas.mutual_exclusion",
    "Verif.Weak.Fas.reads_last",
    "Verif.Weak.Fas.no_fence_lock",
    "Verif.Weak.Fas.no_fence_unlock",
    "Verif.Weak.Dec.mutual_exclusion",
    "Verif.Weak.Dec.reads_last",
    "Verif.Weak.Dec.free_iff",
    "Verif.Weak.Dec.no_fence_lock",
    "Verif.Weak.Dec.no_fence_unlock",
    "Verif.Weak.Dec.wraps"
   ],
   "note": "View-based relaxed memory. The decrement lock for every word size and fewer threads than values; wraps shows that the bound is needed."
  },
  {
   "property": "C72",
   "status": "partial",
   "theorems": [
    "Verif.Weak.Ticket.mutual_exclusion_partial",
    "Verif.Weak.Ticket.reads_last_partial",
    "Verif.Weak.Ticket.top_next",
    "Verif.Weak.Ticket.wrap_breaks_exclusion",
    "Verif.Weak.Ticket.no_fence_lock",
    "Verif.Weak.Ticket.no_fence_unlock"
   ],
   "note": "Proved up to 2^w requests. False beyond (wrap_breaks_exclusion, for every width): a thread may load a position of the round before. Lines 231-233 of the code assume that this does not happen."
  },
  {
   "property": "C73",
   "status": "proved",
   "theorems": [
    "Verif.Weak.Rwlock.exclusion",
    "Verif.Weak.Rwlock.reads_last",
    "Verif.Weak.Rwlock.readers_le",
    "Verif.Weak.Rwlock.no_fence_rd",
    "Verif.Weak.Rwlock.no_fence_wr",
    "Verif.Weak.Rwlock.no_fence_rd_acquire",
    "Verif.Weak.Rwlock.no_fence_unlock"
   ],
   "note": "View-based relaxed memory. n_readers does not overflow (readers_le)."
  },
  {
   "property": "C74",
   "status": "partial",
   "theorems": [
    "Verif.Weak.Barrier.separation",
    "Verif.Weak.Barrier.visible_partial",
    "Verif.Weak.Barrier.reads_last_partial",
    "Verif.Weak.Barrier.stale_after",
    "Verif.Weak.Barrier.no_fence_memory",
    "Verif.Weak.Barrier.no_fence_acquire"
   ],
   "note": "View-based relaxed memory. Separation of the rounds is proved. Visibility is false of the code as it is (stale_after): there is no fence between the stores of the caller and the increment in line 45. Proved if the callers execute a release fence before the call."
  },
  {
   "property": "C75",
   "status": "partial",
   "theorems": [
    "Verif.Weak.Hp.protected_partial",
    "Verif.Weak.Hp.destroy_unprotected_partial",
    "Verif.Weak.Hp.check_alive_partial",
    "Verif.Weak.Hp.protected_destroyed",
    "Verif.Weak.Hp.no_fence_set"
   ],
   "note": "View-based relaxed memory. False of the code as it is (protected_destroyed): there is no full fence between unlinking and the loads of the hazard pointers. Proved if the callers execute one before ck_hp_free, ck_hp_reclaim and ck_hp_purge. One hazard pointer per thread."
  },
  {
   "property": "C76",
   "status": "partial",
   "theorems": [
    "Verif.Ht.Bytes.entry_round_trip",
    "Verif.Ht.Bytes.entry_not_stub",
    "Verif.Ht.Bytes.stop_iff_partial",
    "Verif.Ht.Bytes.probe_rd_partial",
    "Verif.Ht.Bytes.probe_wr_partial",
    "Verif.Ht.Bytes.get_iff_partial",
    "Verif.Ht.Bytes.confused_plain",
    "Verif.Ht.Bytes.confused_packed",
    "Verif.Ht.Bytes.get_confused",
    "Verif.Ht.Bytes.long_lost",
    "Verif.Ht.Bytes.get_copy"
   ],
   "note": "Proved if no two distinct strings have the same address (plain entries), or none shares the address of an empty string (pointer packing), and lengths fit. Otherwise false for the code: confused_plain, confused_packed, get_confused (ck_ht_get_spmc with the prefix \"a\" of a key \"ab\" returns the entry of \"ab\"), long_lost (more than 48 address bits: keys with lengths that do not fit are never found again)."
  },
  {
   "property": "C77",
   "status": "partial",
   "theorems": [
    "Verif.Rw.Rwlock.no_deadlock",
    "Verif.Rw.Swlock.no_deadlock",
    "Verif.Rw.Pflock.no_deadlock",
    "Verif.Rw.Tflock.no_deadlock",
    "Verif.Rw.Brlock.no_deadlock",
    "Verif.Rw.Brlock.self_deadlock",
    "Verif.Rw.Bytelock.no_deadlock_partial",
    "Verif.Rw.Bytelock.upgrade_deadlock",
    "Verif.RwCohort.Neutral.no_deadlock",
    "Verif.RwCohort.Wp.no_deadlock",
    "Verif.RwCohort.Rp.no_deadlock"
   ],
   "note": "Proved for all but ck_bytelock, whose upgrade deadlocks against a plain writer (upgrade_deadlock); proved for it while nobody waits in an upgrade and under the guard of C16. ck_brlock: for threads that do not write-lock, register or unregister while they hold the lock as readers (self_deadlock otherwise)."
  },
  {
   "property": "C78",
   "status": "partial",
   "theorems": [
    "Verif.Spin.Fas.no_deadlock",
    "Verif.Spin.Cas.no_deadlock",
    "Verif.Spin.Dec.no_deadlock",
    "Verif.Spin.Ticket.no_deadlock",
    "Verif.Spin.Anderson.no_deadlock",
    "Verif.Spin.Clh.no_deadlock",
    "Verif.Spin.Mcs.no_deadlock",
    "Verif.Cohort.no_deadlock_partial",
    "Verif.Cohort.trylock_deadlock"
   ],
   "note": "Proved for all spinlocks. Cohort locks: false when trylock is used (trylock_deadlock), proved otherwise."
  },
  {
   "property": "C79",
   "status": "partial",
   "theorems": [
    "Verif.Tso.Ep.held",
    "Verif.Tso.Ep.destroy_unheld",
    "Verif.Tso.Ep.epoch_lag",
    "Verif.Tso.Ep.no_fas",
    "Verif.Tso.Ep.no_fence_sync",
    "Verif.Weak.Ep.held_partial",
    "Verif.Weak.Ep.destroy_unheld_partial",
    "Verif.Weak.Ep.epoch_lag_partial",
    "Verif.Weak.Ep.use_after_free",
    "Verif.Weak.Ep.no_fence_begin",
    "Verif.Weak.Ep.no_fence_load",
    "Verif.Weak.Ep.no_fence_sync",
    "Verif.Weak.Ep.no_fence_cas",
    "Verif.Weak.Ep.no_fence_poll"
   ],
   "note": "Proved for total store order (x86, SPARC) for the code as it is. On relaxed memory it is false (use_after_free: no fence after the load of the epoch in ck_epoch_begin); proved there with a full fence added at the end of ck_epoch_begin and one after the first load in ck_epoch_synchronize."
  },
  {
   "property": "C80",
   "status": "proved",
   "theorems": [
    "Verif.Weak.Mcs.mutual_exclusion",
    "Verif.Weak.Mcs.fcfs",
    "Verif.Weak.Mcs.reads_last",
    "Verif.Weak.Mcs.handoff",
    "Verif.Weak.Mcs.no_fence_lock",
    "Verif.Weak.Mcs.no_fence_unlock",
    "Verif.Weak.Clh.mutual_exclusion",
    "Verif.Weak.Clh.fcfs",
    "Verif.Weak.Clh.reads_last",
    "Verif.Weak.Clh.unlock_previous",
    "Verif.Weak.Clh.no_fence_lock",
    "Verif.Weak.Clh.no_fence_unlock",
    "Verif.Weak.Clh.no_fence_store",
    "Verif.Weak.Clh.no_fence_load",
    "Verif.Weak.Anderson.mutual_exclusion",
    "Verif.Weak.Anderson.fcfs",
    "Verif.Weak.Anderson.reads_last",
    "Verif.Weak.Anderson.no_fence_lock",
    "Verif.Weak.Anderson.no_fence_unlock",
    "Verif.Weak.Anderson.no_fence_load"
   ],
   "note": "View-based relaxed memory. Anderson: at most as many threads as slots, as the API requires."
  },
  {
   "property": "C81",
   "status": "proved",
   "theorems": [
    "Verif.Weak.Pflock.rw_exclusion",
    "Verif.Weak.Pflock.writers_fcfs",
    "Verif.Weak.Pflock.phase_fair",
    "Verif.Weak.Pflock.reads_last",
    "Verif.Weak.Pflock.no_fence_rlock",
    "Verif.Weak.Pflock.no_fence_wlock",
    "Verif.Weak.Pflock.no_fence_wunlock",
    "Verif.Weak.Pflock.wrap_breaks",
    "Verif.Weak.Tflock.rw_exclusion",
    "Verif.Weak.Tflock.task_fair",
    "Verif.Weak.Tflock.reads_last",
    "Verif.Weak.Tflock.no_fence_lock",
    "Verif.Weak.Tflock.no_fence_unlock",
    "Verif.Weak.Tflock.no_fence_al",
    "Verif.Weak.Swlock.rw_exclusion",
    "Verif.Weak.Swlock.count_exact",
    "Verif.Weak.Swlock.reads_last",
    "Verif.Weak.Swlock.wreads_last",
    "Verif.Weak.Swlock.no_fence_wlock",
    "Verif.Weak.Swlock.no_fence_wunlock",
    "Verif.Weak.Swlock.no_fence_unlatch",
    "Verif.Weak.Swlock.no_fence_rlock",
    "Verif.Weak.Swlock.no_fence_runlock"
   ],
   "note": "View-based relaxed memory. Task-fair lock: n < 2^14 threads. Phase-fair lock: loads lag behind by less than 2^24 - n stores, as it has no full fence that would bound this (wrap_breaks). Single-writer lock: n + 1 < 2^30; the writer also sees what the readers stored."
  },
  {
   "property": "C82",
   "status": "proved",
   "theorems": [
    "Verif.Weak.Brlock.rw_exclusion",
    "Verif.Weak.Brlock.reads_last",
    "Verif.Weak.Brlock.wreads_last",
    "Verif.Weak.Brlock.count_exact",
    "Verif.Weak.Brlock.no_fence_rd",
    "Verif.Weak.Brlock.no_fence_wr",
    "Verif.Weak.Brlock.no_fence_rdAcq",
    "Verif.Weak.Brlock.no_fence_wunlock",
    "Verif.Weak.Brlock.no_fence_wrAcq",
    "Verif.Weak.Brlock.no_fence_runlock"
   ],
   "note": "View-based relaxed memory; all readers registered (registration: C15)."
  },
  {
   "property": "C83",
   "status": "proved",
   "theorems": [
    "Verif.Weak.Cohort.cohort_mutex",
    "Verif.Weak.Cohort.wreads_last",
    "Verif.Weak.Cohort.no_fence_lock",
    "Verif.Weak.Cohort.no_fence_gunlock",
    "Verif.Weak.Cohort.no_fence_lunlock",
    "Verif.Weak.Cohort.no_fence_lunlock_mutex"
   ],
   "note": "View-based relaxed memory; local and global locks are ck_spinlock_fas."
  },
  {
   "property": "C84",
   "status": "partial",
   "theorems": [
    "Verif.Weak.Cohort.neutral_exclusion",
    "Verif.Weak.Cohort.neutral_reads_last",
    "Verif.Weak.Cohort.rw_exclusion_partial",
    "Verif.Weak.Cohort.reads_last_partial",
    "Verif.Weak.Cohort.wp_breaks",
    "Verif.Weak.Cohort.rp_breaks",
    "Verif.Weak.Cohort.rw_exclusion_fails",
    "Verif.Weak.Cohort.no_fence_rfull",
    "Verif.Weak.Cohort.no_fence_lkd"
   ],
   "note": "NEUTRAL proved for the code as it is. WP and RP: false (wp_breaks, rp_breaks: no full fence between CK_COHORT_LOCK and the load of read_counter in write_lock); proved with that fence added."
  },
  {
   "property": "C85",
   "status": "proved",
   "theorems": [
    "Verif.Weak.Stack.lifo",
    "Verif.Weak.Stack.empty_seen",
    "Verif.Weak.Stack.empty_now",
    "Verif.Weak.Stack.batch_exact",
    "Verif.Weak.Stack.reads_last",
    "Verif.Weak.Stack.disjoint",
    "Verif.Weak.Stack.no_fence_push",
    "Verif.Weak.Stack.no_fence_pop",
    "Verif.Weak.Stack.no_fence_gen",
    "Verif.Weak.Stack.no_fence_batch"
   ],
   "note": "View-based relaxed memory; head and generation are two locations, the double compare and swap stores both. Entries returned by batch_pop are not used again."
  },
  {
   "property": "C86",
   "status": "partial",
   "theorems": [
    "Verif.Weak.Mpmc.fifo_partial",
    "Verif.Weak.Mpmc.reads_last_partial",
    "Verif.Weak.Mpmc.empty_right_partial",
    "Verif.Weak.Mpmc.full_right_partial",
    "Verif.Weak.Mpmc.full_right_sp_partial",
    "Verif.Weak.Mpmc.weak_enqueue",
    "Verif.Weak.Mpmc.weak_dequeue",
    "Verif.Weak.Mpmc.weak_spmc",
    "Verif.Weak.Mpmc.weak_mpsc",
    "Verif.Weak.Mpmc.fifo_fails",
    "Verif.Weak.Mpmc.no_fence_deq1",
    "Verif.Weak.Mpmc.no_fence_deq2",
    "Verif.Weak.Mpmc.no_fence_enq",
    "Verif.Weak.Mpmc.no_fence_deq",
    "Verif.Weak.Mpmc.no_fence_full"
   ],
   "note": "Proved if the fences for stores are cumulative (lwsync; no difference on processors where a store reaches all others at once). False if they order only the stores of the calling thread, as documented (weak_enqueue, weak_dequeue)."
  },
  {
   "property": "C87",
   "status": "proved",
   "theorems": [
    "Verif.Weak.Lists.content",
    "Verif.Weak.Lists.was_in",
    "Verif.Weak.Lists.no_dup",
    "Verif.Weak.Lists.complete",
    "Verif.Weak.Lists.init_seen",
    "Verif.Weak.Lists.data_exact",
    "Verif.Weak.Lists.no_fence",
    "Verif.Weak.Lists.no_dep"
   ],
   "note": "View-based relaxed memory; one model for the three kinds of lists. Needs address dependencies (no_dep), as line 99 of ck_queue.h says, and the fence for stores (no_fence)."
  },
  {
   "property": "C88",
   "status": "proved",
   "theorems": [
    "Verif.Weak.Spsc.fifo",
    "Verif.Weak.Spsc.empty_seen",
    "Verif.Weak.Spsc.empty_now",
    "Verif.Weak.Spsc.content",
    "Verif.Weak.Spsc.recycle_safe",
    "Verif.Weak.Spsc.recycle_once",
    "Verif.Weak.Spsc.init_seen",
    "Verif.Weak.Spsc.data_exact",
    "Verif.Weak.Spsc.no_fence",
    "Verif.Weak.Spsc.no_dep"
   ],
   "note": "View-based relaxed memory with address dependencies. The locks m_head and m_tail (fas spinlocks, C71) are not part of this model: one producer, one consumer."
  },
  {
   "property": "C89",
   "status": "partial",
   "theorems": [
    "Verif.Misc.Elide.serial_partial",
    "Verif.Misc.Elide.opaque_partial",
    "Verif.Misc.Elide.read_partial",
    "Verif.Misc.Elide.exclusion_partial",
    "Verif.Misc.Elide.unlock_partial",
    "Verif.Misc.Elide.trylock_fails",
    "Verif.Misc.Elide.trylock_free",
    "Verif.Misc.Elide.read_leak"
   ],
   "note": "False as stated: without hardware transactions CK_ELIDE_TRYLOCK returns the value of the lock predicate and acquires nothing (trylock_fails, trylock_free); an elided read section whose unlock predicate is true because of another reader calls the unlock function in its transaction and does not end it (read_leak). Proved for elided write sections with and without trylock on machines with transactions, for all lock and unlock without, and for elided read sections with an unlock predicate that tells whether the caller is in a transaction."
  },
  {
   "property": "C90",
   "status": "partial",
   "theorems": [
    "Verif.Misc.ElideAdaptive.counts",
    "Verif.Misc.ElideAdaptive.attempts",
    "Verif.Misc.ElideAdaptive.spins_partial",
    "Verif.Misc.ElideAdaptive.conflict_only",
    "Verif.Misc.ElideAdaptive.forfeit",
    "Verif.Misc.ElideAdaptive.classify_partial",
    "Verif.Misc.ElideAdaptive.never_skips",
    "Verif.Misc.ElideAdaptive.skip_fails",
    "Verif.Misc.ElideAdaptive.spins_forever"
   ],
   "note": "False as stated: if retry_conflict is positive, as by default, skip is never set, all reasons of aborts are treated alike and skip_busy, skip_other, skip_conflict and retry_busy have no effect (never_skips, skip_fails, conflict_only); with neither retry_busy nor retry_conflict positive the wait for a busy lock is not bounded (spins_forever). Proved: the counters, the bound on transactions, the bound on loads if one of both is positive, the forfeits if retry_conflict is not positive."
  },
  {
   "property": "C91",
   "status": "proved",
   "theorems": [
    "Verif.Ht.Murmur.one_block",
    "Verif.Ht.Murmur.short_keys",
    "Verif.Ht.Murmur.direct_keys",
    "Verif.Ht.Murmur.seeds",
    "Verif.Ht.Murmur.hash_example"
   ],
   "note": "Bit-exact on 64-bit words; all mixing steps are bijections. The address of the key does not occur in the model (aligned load and memcpy give the same word)."
  },
  {
   "property": "C92",
   "status": "proved",
   "theorems": [
    "Verif.Weak.Bytelock.rw_exclusion",
    "Verif.Weak.Bytelock.reads_last",
    "Verif.Weak.Bytelock.wreads_last",
    "Verif.Weak.Bytelock.downgrade",
    "Verif.Weak.Bytelock.no_fence_rd",
    "Verif.Weak.Bytelock.no_fence_wr",
    "Verif.Weak.Bytelock.no_fence_rdAcq",
    "Verif.Weak.Bytelock.no_fence_wunlock",
    "Verif.Weak.Bytelock.no_fence_wrAcq",
    "Verif.Weak.Bytelock.no_fence_runlock",
    "Verif.Weak.Bytelock.no_fence_down"
   ],
   "note": "View-based relaxed memory; slot numbers are distinct (unslotted threads that share a number: deviation in C16). The fence of the downgrade orders only stores of the caller, that is enough."
  },
  {
   "property": "C93",
   "status": "partial",
   "theorems": [
    "Verif.Misc.Fence.right_partial",
    "Verif.Misc.Fence.arm_fails",
    "Verif.Misc.Fence.handshake_partial",
    "Verif.Misc.Fence.handshake_fails",
    "Verif.Misc.Fence.atomic_reads",
    "Verif.Misc.Fence.lock_store",
    "Verif.Misc.Fence.in_order"
   ],
   "note": "False for ck_pr_fence_atomic_load on ARMv7, which is dmb st (arm_fails, handshake_fails). Proved for all other fences, architectures and configurations. What the instructions order is taken from the manuals of the architectures."
  },
  {
   "property": "C94",
   "status": "partial",
   "theorems": [
    "Verif.LlSc.atomic",
    "Verif.LlSc.solo",
    "Verif.LlSc.Reg.bin",
    "Verif.LlSc.Reg.ppc_partial",
    "Verif.LlSc.Reg.ppc_sub_ptr_fails",
    "Verif.LlSc.Reg.unary",
    "Verif.LlSc.Reg.cas_partial",
    "Verif.LlSc.Reg.cas_negative_fails",
    "Verif.LlSc.Reg.cas_double_partial",
    "Verif.LlSc.Reg.cas_double_fails",
    "Verif.LlSc.Reg.step_is",
    "Verif.LlSc.Pair.atomic",
    "Verif.LlSc.Pair.value_partial",
    "Verif.LlSc.Pair.value_success",
    "Verif.LlSc.Pair.value_fails",
    "Verif.LlSc.Stack.lost",
    "Verif.LlSc.Not.merged",
    "Verif.LlSc.Not.twice_fails",
    "Verif.LlSc.Load2.load2_eq"
   ],
   "note": "False as stated: ck_pr_sub_ptr on ppc and ppc64 computes delta - old (ppc_sub_ptr_fails); ck_pr_cas_short with a negative operand on ARMv7 and AArch64 without LSE returns true without storing (cas_negative_fails); ck_pr_cas_double returns the comparison of doubles (cas_double_fails); the pair returned by a failed two-word compare-and-swap on AArch64 without LSE may never have been in memory (value_fails), with which ck_stack_pop_mpmc loses an entry (lost); ck_pr_not and ck_pr_neg on s390x read the object twice (twice_fails). Everything else is proved. One word, sequentially consistent; ordering is C93."
  },
  {
   "property": "C95",
   "status": "partial",
   "theorems": [
    "Verif.Weak.HsRead.get_some",
    "Verif.Weak.HsRead.get_none_partial",
    "Verif.Weak.HsRead.get_none_fails",
    "Verif.Weak.HsRead.get_fixed",
    "Verif.Weak.HsRead.no_fence_sig",
    "Verif.Weak.HsRead.no_fence_rd1",
    "Verif.Weak.HsRead.no_fence_rd2"
   ],
   "note": "False as stated: ck_hs_map_signal increments the generation without a fence after the store of the new place, so a reader may see the new generation, the old content of the new place and the tombstone at the old place, and miss a key that is in the set all the time (get_none_fails). Proved for the code: objects returned (get_some), and lookups of keys that are not moved (get_none_partial); everything with a store fence before the increment (get_fixed). One map, generation does not wrap."
  },
  {
   "property": "C96",
   "status": "partial",
   "theorems": [
    "Verif.Weak.RhsRead.get_some",
    "Verif.Weak.RhsRead.get_none_partial",
    "Verif.Weak.RhsRead.get_none_index_fails",
    "Verif.Weak.RhsRead.get_none_fails",
    "Verif.Weak.RhsRead.get_none_bound_fails",
    "Verif.Weak.RhsRead.get_fixed",
    "Verif.Weak.RhsRead.get_large",
    "Verif.Weak.RhsRead.geo_agree",
    "Verif.Weak.RhsRead.no_fix",
    "Verif.Weak.RhsRead.no_fence_sig",
    "Verif.Weak.RhsRead.no_fence_rd2",
    "Verif.Weak.RhsRead.Wit.index_real",
    "Verif.Weak.RhsRead.Wit.code_before",
    "Verif.Weak.RhsRead.Wit.code_after"
   ],
   "note": "False as stated, on every architecture: when an entry is displaced or shifted the writer increments the generation with the index of its first slot, the reader watches the one with the index of its hash; in maps of less than 1024 slots these differ and a key that is in the set all the time is missed (get_none_index_fails: sequentially consistent run; code_before, code_after: what the functions of C50 do). On relaxed memory two fences are missing (get_none_fails, get_none_bound_fails). Proved for the code: objects returned (get_some), and lookups of keys that are not moved (get_none_partial). With the fences: everything for keys with equal indices (get_fixed), which are all in maps of at least 1024 slots (get_large, geo_agree). One map, generation does not wrap; the writer keeps to conditions that C50 and C67 prove of the code."
  },
  {
   "property": "C97",
   "status": "partial",
   "theorems": [
    "Verif.Weak.Array.length_ok",
    "Verif.Weak.Array.buffer_partial",
    "Verif.Weak.Array.buffer_fails",
    "Verif.Weak.Array.buffer_removed",
    "Verif.Weak.Array.buffer_fixed",
    "Verif.Weak.Array.hist_now",
    "Verif.Weak.Array.no_fence_pub",
    "Verif.Weak.Array.no_fence_com",
    "Verif.Weak.Array.no_fence_rd1"
   ],
   "note": "False as stated: ck_array_buffer has no load fence after n_committed, so after a commit in place the caller may see the new length and load a value from before the put (buffer_fails), or one that was put and removed before the commit (buffer_removed). Proved for the code: the length (length_ok), and the values if no commit in place happened since the last synchronization (buffer_partial). With a load fence after ck_array_buffer: everything (buffer_fixed). Removal of a committed value while additions are pending is excluded (a deviation of C51)."
  },
  {
   "property": "C98",
   "status": "proved",
   "theorems": [
    "Verif.Weak.Ec.reads_new",
    "Verif.Weak.Ec.seen_mono",
    "Verif.Weak.Ec.wait_zero",
    "Verif.Weak.Ec.no_lost",
    "Verif.Weak.Ec.write_own",
    "Verif.Weak.Ec.add_log",
    "Verif.Weak.Ec.log_fixed",
    "Verif.Weak.Ec.no_fence_inc",
    "Verif.Weak.Ec.no_fence_val",
    "Verif.Weak.Ec.no_fence_up",
    "Verif.Weak.Ec.no_fence_easy",
    "Verif.Weak.Ec.asleep",
    "Verif.Weak.Ec.woken",
    "Verif.Weak.Ec.done",
    "Verif.Weak.Ec.wait_zero_same"
   ],
   "note": "For every word size (H is the flag's weight) and number of threads. The 64-bit layout (its deviations: C55) and the single-producer mode are not modelled here."
  },
  {
   "property": "C99",
   "status": "partial",
   "theorems": [
    "Verif.Weak.HtRead.get_some_partial",
    "Verif.Weak.HtRead.get_some_fails",
    "Verif.Weak.HtRead.get_some_fixed",
    "Verif.Weak.HtRead.value_there",
    "Verif.Weak.HtRead.b_sync",
    "Verif.Weak.HtRead.hist_fixed",
    "Verif.Weak.HtRead.no_fence_rd1",
    "Verif.Weak.HtRead.no_fence_rd2",
    "Verif.Weak.HtRead.no_set",
    "Verif.Weak.HtRead.no_fence_wdel",
    "Verif.Weak.HtRead.no_fence_wval",
    "Verif.Weak.HtRead.no_fence_wtmb",
    "Verif.Weak.HtRead.no_fence_rkey"
   ],
   "note": "False as stated: ck_ht_get_spmc has no load fence between its loads of deletions and the loads of the entry, so a reader may miss that a slot was reused and return the value of another key (get_some_fails); each of three repairs is needed (no_fence_rd1, no_fence_rd2, no_set). Proved for the code: the property if no tombstone was reused since the last synchronization (get_some_partial), and that a value is there whenever the key was found (value_there). With the three repairs: everything (get_some_fixed). One map, direct mode; lookups that find nothing are not covered."
  },
  {
   "property": "C100",
   "status": "proved",
   "theorems": [
    "Verif.Weak.MpFifo.fifo",
    "Verif.Weak.MpFifo.look_ok",
    "Verif.Weak.MpFifo.empty_ok",
    "Verif.Weak.MpFifo.ptr_ok",
    "Verif.Weak.MpFifo.put_log",
    "Verif.Weak.MpFifo.got_log",
    "Verif.Weak.MpFifo.no_fence_enq",
    "Verif.Weak.MpFifo.no_dep"
   ],
   "note": "For every execution on the relaxed memory of C58. Needs only the store fence of the enqueue and the order of loads through pointers, each of which is needed (no_fence_enq, no_dep); the load fences and the fence before the tail is moved are not needed for these claims. Reuse of entries is excluded by the statement: with it the queue is not linearizable even on sequentially consistent memory (C36)."
  },
  {
   "property": "C101",
   "status": "partial",
   "theorems": [
    "Verif.Hs.Iter.iter_sound",
    "Verif.Hs.Iter.iter_complete_partial",
    "Verif.Hs.Iter.iter_once_partial",
    "Verif.Hs.Iter.iter_ends",
    "Verif.Hs.Iter.missed",
    "Verif.Hs.Iter.twice",
    "Verif.Hs.Iter.missed_set",
    "Verif.Hs.Iter.missed_fas",
    "Verif.Hs.Iter.complete_case",
    "Verif.Hs.Iter.sound_case",
    "Verif.Hs.Iter.pre_needed"
   ],
   "note": "Soundness proved in full (iter_sound). Completeness is false as stated: ck_hs_gc, and ck_hs_set or ck_hs_fas with the object that is already there, move an entry to an earlier slot of its probe sequence, which may be behind the iteration (missed, missed_set, missed_fas) or ahead of it (twice). Proved: every object that stays and is not moved by such an operation is returned exactly once, while any other operation may overlap, including ck_hs_apply and a growth of the table (iter_complete_partial)."
  },
  {
   "property": "C102",
   "status": "partial",
   "theorems": [
    "Verif.Hs.Stat.entries",
    "Verif.Hs.Stat.probes",
    "Verif.Hs.Stat.tombstones_partial",
    "Verif.Hs.Stat.tombstones_excess",
    "Verif.Hs.Stat.garbage",
    "Verif.Hs.Stat.garbage_again",
    "Verif.Hs.Stat.not_reset",
    "Verif.Hs.Stat.exact_case"
   ],
   "note": "Keys and probe length proved (entries, probes). The number of tombstones is wrong: ck_hs_map_create never assigns map->tombstones, so counting starts from what the allocator's memory contains (garbage, garbage_again), and reuse of a tombstone is not subtracted (not_reset). Proved: it exceeds the true number by exactly that garbage plus the number of reuses (tombstones_excess), so it is exact in zeroed memory without reuse (tombstones_partial)."
  },
  {
   "property": "C103",
   "status": "proved",
   "theorems": [
    "Verif.Hs.Pack.unpack_iff",
    "Verif.Hs.Pack.stored",
    "Verif.Hs.Pack.compare",
    "Verif.Hs.Pack.probe_words",
    "Verif.Hs.Pack.store_words",
    "Verif.Hs.Pack.marshalled",
    "Verif.Hs.Pack.copy_words",
    "Verif.Hs.Pack.grow_words",
    "Verif.Hs.Pack.next_words",
    "Verif.Hs.Pack.stored_case",
    "Verif.Hs.Pack.calls_case",
    "Verif.Hs.Pack.words_case",
    "Verif.Hs.Pack.high_lost",
    "Verif.Hs.Pack.high_confused",
    "Verif.Hs.Pack.last_deleted"
   ],
   "note": "Words of 64 bits. The probe, the stores, the growth and the iteration on words are those of the abstract model of C47. The limits are exact: an address of more bits comes back changed (unpack_iff, high_lost) and is confused with another (high_confused); the last address with a hash of all ones reads as a deleted entry (last_deleted)."
  },
  {
   "property": "C104",
   "status": "proved",
   "theorems": [
    "Verif.Stack.Lf.lock_free",
    "Verif.Stack.Lf.alone_returns",
    "Verif.Fifo.Mpmc.Lf.lock_free",
    "Verif.Fifo.Mpmc.Lf.alone_returns",
    "Verif.Lf.stack_case",
    "Verif.Lf.stack_case_reach",
    "Verif.Lf.fifo_case",
    "Verif.Lf.fifo_case_reach"
   ],
   "note": "Bounds: (2n+4)(returned+n) steps for the stack, (16n+10)(returned+n) for the fifo; alone 5 and 22 steps. The fifo is that of C36 with its condition on reuse. Sequentially consistent interleaving; a compare-and-swap instruction is one step (no spurious failure)."
  },
  {
   "property": "C105",
   "status": "proved",
   "theorems": [
    "Verif.HpStack.Lf.lock_free",
    "Verif.HpStack.Lf.alone_returns",
    "Verif.HpFifo.Lf.lock_free",
    "Verif.HpFifo.Lf.alone_returns",
    "Verif.Lf.hp_stack_case",
    "Verif.Lf.hp_stack_case_reach",
    "Verif.Lf.hp_fifo_case",
    "Verif.Lf.hp_fifo_case_reach"
   ],
   "note": "Bounds: (4n+5)(returned+n) steps for the stack, (16n+9)(returned+n) for the fifo; alone 8 and 24 steps. Sequentially consistent interleaving; ck_hp_free and reclamation are calls of the client, not steps of an operation."
  },
  {
   "property": "C106",
   "status": "proved",
   "theorems": [
    "Verif.Ring.Lf.enqueue_sp_wait_free",
    "Verif.Ring.Lf.dequeue_sc_wait_free",
    "Verif.Ring.Lf.trydequeue_wait_free",
    "Verif.Ring.Lf.dequeue_lock_free",
    "Verif.Ring.Lf.dequeue_alone_returns",
    "Verif.Ring.Lf.enqueue_mp_blocked",
    "Verif.Ring.Lf.enqueue_mp_blocks",
    "Verif.Ring.Lf.dequeue_case",
    "Verif.Ring.Lf.dequeue_case_reach",
    "Verif.Ring.Lf.enqueue_case",
    "Verif.Ring.Lf.trydequeue_case",
    "Verif.Ring.Lf.dequeue_sc_case"
   ],
   "note": "L chunks per entry: L+3 steps (single producer, single consumer), L+4 (trydequeue), ((L+3)n+L+4)(returned+n) steps for all dequeues, 2L+6 alone. Sequentially consistent interleaving; no bound on the counters is assumed."
  },
  {
   "property": "C107",
   "status": "proved",
   "theorems": [
    "Verif.Hs.Lf.get_bound",
    "Verif.Hs.Lf.get_enabled",
    "Verif.Hs.Lf.get_alone",
    "Verif.Hs.Lf.get_case",
    "Verif.Hs.Lf.get_case_reach",
    "Verif.Ht.Lf.get_bound",
    "Verif.Ht.Lf.get_enabled",
    "Verif.Ht.Lf.get_alone",
    "Verif.Ht.Lf.get_case",
    "Verif.Ht.Lf.get_case_reach"
   ],
   "note": "Loads at most (stores+1)(bound+6) for ck_hs and (stores+1)(bound+7) for ck_ht; alone 2(N+6) and 2(N+7) if N bounds the probe bounds in the maps. Interleaving semantics; counters that do not wrap; one load per probe (ck_ht loads key and value)."
  },
  {
   "property": "C108",
   "status": "proved",
   "theorems": [
    "Verif.Rw.Rwlock.no_reader_enters",
    "Verif.Rw.Rwlock.rank_step",
    "Verif.Rw.Rwlock.wait_bounded",
    "Verif.Rw.Rwlock.wait_keeps",
    "Verif.Rw.Rwlock.wait_ends",
    "Verif.Rw.Rwlock.bias_case",
    "Verif.Rw.Rwlock.bias_case_end",
    "Verif.Rw.Rwlock.bias_case_reach",
    "Verif.Rw.Swlock.no_reader_enters",
    "Verif.Rw.Swlock.rank_step",
    "Verif.Rw.Swlock.wait_bounded",
    "Verif.Rw.Swlock.wait_keeps",
    "Verif.Rw.Swlock.wait_ends",
    "Verif.Rw.Swlock.bias_case",
    "Verif.Rw.Swlock.bias_case_end",
    "Verif.Rw.Swlock.bias_case_reach",
    "Verif.Rw.Brlock.no_reader_enters",
    "Verif.Rw.Brlock.bias_case",
    "Verif.Rw.Brlock.bias_case_reach"
   ],
   "note": "Counts of threads below 2^32 (rwlock) and 2^30 - 1 (swlock). Two writers of ck_rwlock compete for the flag without order: the claim begins when the flag is set. Interleaving semantics."
  },
  {
   "property": "C109",
   "status": "proved",
   "theorems": [
    "Verif.RwCohort.Wp.no_reader_admitted",
    "Verif.RwCohort.Wp.barrier_bounds",
    "Verif.RwCohort.Wp.limit_inv",
    "Verif.RwCohort.Wp.limit_bounds",
    "Verif.RwCohort.Wp.limit_max",
    "Verif.RwCohort.Wp.bias_call",
    "Verif.RwCohort.Wp.bias_case",
    "Verif.RwCohort.Wp.bias_end",
    "Verif.RwCohort.Wp.bias_case_reach",
    "Verif.RwCohort.Rp.no_writer_admitted",
    "Verif.RwCohort.Rp.barrier_bounds",
    "Verif.RwCohort.Rp.limit_inv",
    "Verif.RwCohort.Rp.limit_bounds",
    "Verif.RwCohort.Rp.limit_max",
    "Verif.RwCohort.Rp.bias_call",
    "Verif.RwCohort.Rp.bias_case",
    "Verif.RwCohort.Rp.bias_end",
    "Verif.RwCohort.Rp.bias_case_reach"
   ],
   "note": "limit_bounds: wait_limit < 2^32 - 1; limit_max: for 2^32 - 1 the barrier never goes up. Abstract global and local locks as in C17. Interleaving semantics. That the waiting thread can then enter is C77/C78 (no deadlock)."
  },
  {
   "property": "C110",
   "status": "proved",
   "theorems": [
    "Verif.Sequence.retries_bounded",
    "Verif.Sequence.writer_wait_free",
    "Verif.Sequence.reader_alone",
    "Verif.Sequence.begin_waits",
    "Verif.Sequence.retry_case",
    "Verif.Sequence.wait_case"
   ],
   "note": "One writer at a time (the caller's mutex), as the header requires. Interleaving semantics."
  },
  {
   "property": "C111",
   "status": "proved",
   "theorems": [
    "Verif.Spin.Ticket.bypass_bounded",
    "Verif.Spin.Ticket.waitB_iff",
    "Verif.Spin.Ticket.Packed.bypass_bounded",
    "Verif.Spin.Anderson.bypass_bounded",
    "Verif.Spin.Anderson.waitB_iff",
    "Verif.Spin.Clh.bypass_bounded",
    "Verif.Spin.Clh.waitB_iff",
    "Verif.Spin.Mcs.bypass_bounded",
    "Verif.Spin.Mcs.waitB_iff",
    "Verif.Rw.Pflock.bypass_bounded",
    "Verif.Rw.Pflock.waitB_iff",
    "Verif.Spin.Fas.bypass_unbounded",
    "Verif.Spin.Cas.bypass_unbounded",
    "Verif.Spin.Dec.bypass_unbounded",
    "Verif.Bypass.bypass_case",
    "Verif.Bypass.bypass_case_reach"
   ],
   "note": "passes looks at who waits and who holds only. The place is taken by the FAA, CAS or swap. Interleaving semantics."
  },
  {
   "property": "C112",
   "status": "proved",
   "theorems": [
    "Verif.Rw.Tflock.writer_bypass_bounded",
    "Verif.Rw.Tflock.reader_bypass_bounded",
    "Verif.Rw.Tflock.inW_iff",
    "Verif.Rw.Tflock.inRW_iff",
    "Verif.Rw.Tflock.waitW_iff",
    "Verif.Rw.Tflock.waitR_iff",
    "Verif.Rw.Tflock.bypass_case",
    "Verif.Rw.Tflock.bypass_case_reach",
    "Verif.Rw.Tflock.bypass_case_end"
   ],
   "note": "The request is made by the CAS of ck_tflock_ticket_fca_32; the CAS loop before it is not bounded. Interleaving semantics."
  },
  {
   "property": "C113",
   "status": "partial",
   "theorems": [
    "Verif.Rw.Bytelock.no_reader_enters_partial",
    "Verif.Rw.Bytelock.wait_keeps",
    "Verif.Rw.Bytelock.rank_step",
    "Verif.Rw.Bytelock.wait_bounded_partial",
    "Verif.Rw.Bytelock.wait_ends_partial",
    "Verif.Rw.Bytelock.bias_broken",
    "Verif.Rw.Bytelock.biasCfg_wf",
    "Verif.Rw.Bytelock.bias_case",
    "Verif.Rw.Bytelock.bias_case_end"
   ],
   "note": "Under the guard of C16 (not both an unslotted writer and an unslotted reader). Without it the code violates the property: bias_broken. The last part excludes a reader that waits to upgrade: it keeps its byte (C77)."
  },
  {
   "property": "C114",
   "status": "proved",
   "theorems": [
    "Verif.Cohort.stay_bounded",
    "Verif.Cohort.inside_glob",
    "Verif.Cohort.pass_case",
    "Verif.Cohort.pass_case_end"
   ],
   "note": "Any schedule, lock and trylock. stay counts from any reachable state until the cohort does not hold the global lock."
  },
  {
   "property": "C115",
   "status": "partial",
   "theorems": [
    "Verif.Ht.stat_partial",
    "Verif.Ht.reads_le",
    "Verif.Ht.stat_case",
    "Verif.Ht.miss_longer"
   ],
   "note": "n_entries exact and the bound for keys that are present. The code violates it for a search that fails: it may compare one entry more (miss_longer), and never more than that (reads_le). Contract of C49 for put."
  }
 ]
}