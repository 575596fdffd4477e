{"id": "C01", "title": "Simple test-and-set style spinlocks give mutual exclusion", "statement": "For the FAS, CAS and DEC spinlocks, between the return of a successful lock/trylock and the matching unlock no other thread's lock or trylock on the same lock returns success; a trylock that reports failure does so without acquiring the lock; `locked` is true exactly while the lock is owned.", "quantifier": "every number of threads (DEC: fewer than 2^32-1), every interleaving of the atomic accesses of lock/trylock/unlock/locked", "why_tests_cant": "A schedule-dependent race; a test run samples a handful of the unboundedly many interleavings and cannot show the absence of a bad one.", "anchors": ["include/spinlock/fas.h:ck_spinlock_fas_lock,ck_spinlock_fas_trylock,ck_spinlock_fas_unlock", "include/spinlock/cas.h:ck_spinlock_cas_lock,ck_spinlock_cas_trylock", "include/spinlock/dec.h:ck_spinlock_dec_lock,ck_spinlock_dec_trylock,ck_spinlock_dec_unlock"]}
{"id": "C02", "title": "Ticket spinlock mutual exclusion across counter wrap-around", "statement": "At most one thread holds a ticket spinlock at any time, including when the ticket counters overflow and wrap to zero.", "quantifier": "every number of threads below 2^32, every interleaving, every number of past acquisitions (so every wrap position)", "why_tests_cant": "The wrap needs 2^32 acquisitions and specific schedules around it.", "anchors": ["include/spinlock/ticket.h:ck_spinlock_ticket_lock,ck_spinlock_ticket_unlock,ck_spinlock_ticket_trylock"]}
{"id": "C03", "title": "Ticket spinlock is first-come first-served", "statement": "Threads enter the critical section of a ticket spinlock in the order in which they took their tickets; no later arrival overtakes a waiting thread, and trylock succeeds only if nobody holds or waits.", "quantifier": "every number of threads, every interleaving", "why_tests_cant": "A schedule-dependent race; a test run samples a handful of the unboundedly many interleavings and cannot show the absence of a bad one.", "anchors": ["include/spinlock/ticket.h:ck_spinlock_ticket_lock,ck_spinlock_ticket_trylock"]}
{"id": "C04", "title": "Anderson array lock: mutual exclusion and FIFO for any slot count", "statement": "With at most `count` concurrent participants, at most one thread holds the lock, threads acquire in arrival order, and this survives the wrap of the position counter for slot counts that are and are not powers of two.", "quantifier": "every slot count in 1..2^32-1, every number of participants up to the slot count, every interleaving, every number of past acquisitions", "why_tests_cant": "Wrap correction for non-power-of-two counts only matters after 2^32 acquisitions.", "anchors": ["include/spinlock/anderson.h:ck_spinlock_anderson_init,ck_spinlock_anderson_lock,ck_spinlock_anderson_unlock"]}
{"id": "C05", "title": "Anderson `locked` reports the lock state", "statement": "When no operation is in flight, ck_spinlock_anderson_locked returns true exactly if some thread owns the lock.", "quantifier": "every slot count, every number of past acquisitions", "why_tests_cant": "The answer depends on the slot count and on the whole acquisition history.", "anchors": ["include/spinlock/anderson.h:ck_spinlock_anderson_locked"]}
{"id": "C06", "title": "CLH queue lock: mutual exclusion, FIFO order and safe node recycling", "statement": "At most one thread holds a CLH lock; threads acquire in the order in which they enqueued; the node handed back by unlock is not referenced by any other thread, so it can be reused immediately for the next acquisition.", "quantifier": "every number of threads, every interleaving, every reuse history of queue nodes", "why_tests_cant": "A schedule-dependent race; a test run samples a handful of the unboundedly many interleavings and cannot show the absence of a bad one.", "anchors": ["include/spinlock/clh.h:ck_spinlock_clh_lock,ck_spinlock_clh_unlock,ck_spinlock_clh_init"]}
{"id": "C07", "title": "MCS queue lock: mutual exclusion, FIFO order and no lost hand-off", "statement": "At most one thread holds an MCS lock; threads acquire in enqueue order; unlock never loses a successor (when unlock returns with waiters queued, the next waiter has been granted the lock); trylock succeeds only on a free lock; a node may be reused as soon as unlock returned.", "quantifier": "every number of threads, every interleaving, every node reuse history", "why_tests_cant": "A schedule-dependent race; a test run samples a handful of the unboundedly many interleavings and cannot show the absence of a bad one.", "anchors": ["include/spinlock/mcs.h:ck_spinlock_mcs_lock,ck_spinlock_mcs_unlock,ck_spinlock_mcs_trylock"]}
{"id": "C08", "title": "Hierarchical CLH lock gives mutual exclusion", "statement": "At most one thread holds a hierarchical CLH lock, for any assignment of threads to clusters, with nodes recycled as returned by unlock.", "quantifier": "every number of threads and clusters, every interleaving", "why_tests_cant": "A schedule-dependent race; a test run samples a handful of the unboundedly many interleavings and cannot show the absence of a bad one.", "anchors": ["include/spinlock/hclh.h:ck_spinlock_hclh_lock,ck_spinlock_hclh_unlock"]}
{"id": "C09", "title": "rwlock: writers exclude everybody", "statement": "While a thread holds ck_rwlock for writing no other thread holds it for reading or writing, including through write_trylock, read_trylock and write_downgrade (the downgrading thread keeps read ownership without a gap in which another writer can enter).", "quantifier": "every number of threads below 2^32, every interleaving", "why_tests_cant": "A schedule-dependent race; a test run samples a handful of the unboundedly many interleavings and cannot show the absence of a bad one.", "anchors": ["include/ck_rwlock.h:ck_rwlock_write_lock,ck_rwlock_write_trylock,ck_rwlock_write_unlock,ck_rwlock_write_downgrade,ck_rwlock_read_lock,ck_rwlock_read_trylock,ck_rwlock_read_unlock"]}
{"id": "C10", "title": "Recursive write lock balances", "statement": "ck_rwlock_recursive: a writer may re-acquire; the lock is released to others exactly when the number of unlocks equals the number of successful locks/trylocks of the owner; exclusion as for rwlock holds throughout.", "quantifier": "every number of threads with distinct non-zero ids, every nesting depth below 2^32, every interleaving", "why_tests_cant": "A schedule-dependent race; a test run samples a handful of the unboundedly many interleavings and cannot show the absence of a bad one.", "anchors": ["include/ck_rwlock.h:ck_rwlock_recursive_write_lock,ck_rwlock_recursive_write_trylock,ck_rwlock_recursive_write_unlock,ck_rwlock_recursive_read_lock"]}
{"id": "C11", "title": "Phase-fair lock exclusion across counter wrap", "statement": "A ck_pflock writer excludes all readers and writers, including when the 24-bit reader counters and the 32-bit writer tickets wrap.", "quantifier": "fewer than 2^24 threads, every interleaving, every number of past acquisitions", "why_tests_cant": "Needs 2^24/2^32 acquisitions plus a race at the wrap.", "anchors": ["include/ck_pflock.h:ck_pflock_write_lock,ck_pflock_write_unlock,ck_pflock_read_lock,ck_pflock_read_unlock"]}
{"id": "C12", "title": "Phase fairness: a waiting reader is admitted after at most one writer phase", "statement": "Once a reader has announced itself to a ck_pflock, at most one writer critical section completes or begins before no writer bit that it waits for is present any more; in particular every writer that announces later waits for that reader.", "quantifier": "every number of threads, every interleaving", "why_tests_cant": "A schedule-dependent race; a test run samples a handful of the unboundedly many interleavings and cannot show the absence of a bad one.", "anchors": ["include/ck_pflock.h:ck_pflock_read_lock,ck_pflock_write_lock"]}
{"id": "C13", "title": "Task-fair lock exclusion and arrival order across wrap", "statement": "ck_tflock: a writer excludes all others; a request is served only after every conflicting earlier request was completed; holds although the packed 16-bit request/completion counters wrap.", "quantifier": "fewer than 2^15 threads, every interleaving, every number of past acquisitions", "why_tests_cant": "Needs 2^15 acquisitions of each kind plus a race at the wrap.", "anchors": ["include/ck_tflock.h:ck_tflock_ticket_write_lock,ck_tflock_ticket_write_unlock,ck_tflock_ticket_read_lock,ck_tflock_ticket_read_unlock"]}
{"id": "C14", "title": "Single-writer rwlock exclusion, including latch mode", "statement": "ck_swlock: while the (single) writer holds the lock by write_lock, write_trylock or write_latch no reader is inside; while readers are inside the writer is not; after unlatch/unlock no reader count is leaked or lost; write_downgrade hands over to read ownership without a gap.", "quantifier": "every number of readers below 2^30, one writer, every interleaving", "why_tests_cant": "A schedule-dependent race; a test run samples a handful of the unboundedly many interleavings and cannot show the absence of a bad one.", "anchors": ["include/ck_swlock.h:ck_swlock_write_lock,ck_swlock_write_trylock,ck_swlock_write_unlock,ck_swlock_write_latch,ck_swlock_write_unlatch,ck_swlock_write_downgrade,ck_swlock_read_lock,ck_swlock_read_trylock,ck_swlock_read_unlock"]}
{"id": "C15", "title": "Big-reader lock exclusion", "statement": "ck_brlock: a writer excludes all other writers and all registered readers, including recursive readers and trylock variants; reader registration/unregistration concurrent with writers preserves this.", "quantifier": "every number of registered readers and writers, every interleaving", "why_tests_cant": "A schedule-dependent race; a test run samples a handful of the unboundedly many interleavings and cannot show the absence of a bad one.", "anchors": ["include/ck_brlock.h:ck_brlock_write_lock,ck_brlock_write_trylock,ck_brlock_write_unlock,ck_brlock_read_lock,ck_brlock_read_trylock,ck_brlock_read_unlock"]}
{"id": "C16", "title": "Byte lock exclusion for slotted and unslotted threads", "statement": "ck_bytelock: a writer excludes all readers and other writers; readers may upgrade (write_lock while holding their slot) and writers may downgrade (read_lock while owning the write lock) without another writer intervening.", "quantifier": "every number of slotted threads up to the slot count and any number of unslotted threads, every interleaving", "why_tests_cant": "A schedule-dependent race; a test run samples a handful of the unboundedly many interleavings and cannot show the absence of a bad one.", "anchors": ["include/ck_bytelock.h:ck_bytelock_write_lock,ck_bytelock_write_unlock,ck_bytelock_read_lock,ck_bytelock_read_unlock"]}
{"id": "C17", "title": "Cohort lock mutual exclusion", "statement": "For any correct global and local lock, at most one thread over all cohorts holds the cohort lock, whatever mix of local hand-offs and global releases happens.", "quantifier": "every number of cohorts and threads, every local pass limit, every interleaving", "why_tests_cant": "A schedule-dependent race; a test run samples a handful of the unboundedly many interleavings and cannot show the absence of a bad one.", "anchors": ["include/ck_cohort.h:CK_COHORT_PROTOTYPE,CK_COHORT_TRYLOCK_PROTOTYPE"]}
{"id": "C18", "title": "Cohort lock is released to other cohorts when nobody uses it", "statement": "When no thread holds the cohort lock and no thread is inside lock/trylock/unlock, the global lock is free, so a thread of any cohort can acquire.", "quantifier": "every number of cohorts and threads, every pass limit, every interleaving, with and without trylock", "why_tests_cant": "Requires a trylock racing with an unlock at one specific point.", "anchors": ["include/ck_cohort.h:CK_COHORT_PROTOTYPE,CK_COHORT_TRYLOCK_PROTOTYPE"]}
{"id": "C19", "title": "Reader-writer cohort lock exclusion (writer preference)", "statement": "CK_RWCOHORT_WP: while a writer is in its critical section no reader or other writer is in one.", "quantifier": "every number of threads and cohorts, every barging limit, every interleaving", "why_tests_cant": "A schedule-dependent race; a test run samples a handful of the unboundedly many interleavings and cannot show the absence of a bad one.", "anchors": ["include/ck_rwcohort.h:CK_RWCOHORT_WP_PROTOTYPE"]}
{"id": "C20", "title": "Reader-writer cohort lock exclusion (reader preference)", "statement": "CK_RWCOHORT_RP: while a writer is in its critical section no reader or other writer is in one.", "quantifier": "every number of threads and cohorts, every limit, every interleaving", "why_tests_cant": "A schedule-dependent race; a test run samples a handful of the unboundedly many interleavings and cannot show the absence of a bad one.", "anchors": ["include/ck_rwcohort.h:CK_RWCOHORT_RP_PROTOTYPE"]}
{"id": "C21", "title": "Reader-writer cohort lock exclusion (neutral)", "statement": "CK_RWCOHORT_NEUTRAL: while a writer is in its critical section no reader or other writer is in one.", "quantifier": "every number of threads and cohorts, every interleaving", "why_tests_cant": "A schedule-dependent race; a test run samples a handful of the unboundedly many interleavings and cannot show the absence of a bad one.", "anchors": ["include/ck_rwcohort.h:CK_RWCOHORT_NEUTRAL_PROTOTYPE"]}
{"id": "C22", "title": "Sequence lock readers never accept a torn snapshot", "statement": "If a ck_sequence read section ends with read_retry returning false, all values read in it are those of one single state between two write sections; fewer than 2^31 write sections overlap the read section.", "quantifier": "every number of words read in any order, every number of readers, one writer at a time, every interleaving, every counter wrap position", "why_tests_cant": "The torn read needs a writer between two loads; a false acceptance needs 2^31 concurrent writes.", "anchors": ["include/ck_sequence.h:ck_sequence_read_begin,ck_sequence_read_retry,ck_sequence_write_begin,ck_sequence_write_end"]}
{"id": "C23", "title": "Centralized barrier separates phases", "statement": "No thread returns from its k-th ck_barrier_centralized before every participant has called it k times, and when everybody has called it nobody stays blocked; the barrier is reusable any number of times.", "quantifier": "every number of participants, every number of episodes, every interleaving", "why_tests_cant": "A schedule-dependent race; a test run samples a handful of the unboundedly many interleavings and cannot show the absence of a bad one.", "anchors": ["src/ck_barrier_centralized.c:ck_barrier_centralized"]}
{"id": "C24", "title": "Software combining barrier separates phases", "statement": "No thread returns from its k-th ck_barrier_combining before every participant of every group has entered its k-th, for any tree of groups.", "quantifier": "every group tree, every number of participants per group, every number of episodes, every interleaving", "why_tests_cant": "A schedule-dependent race; a test run samples a handful of the unboundedly many interleavings and cannot show the absence of a bad one.", "anchors": ["src/ck_barrier_combining.c:ck_barrier_combining,ck_barrier_combining_aux"]}
{"id": "C25", "title": "Dissemination barrier separates phases", "statement": "No thread returns from its k-th ck_barrier_dissemination before every participant has entered its k-th.", "quantifier": "every number of participants (power of two or not), every number of episodes, every interleaving", "why_tests_cant": "A schedule-dependent race; a test run samples a handful of the unboundedly many interleavings and cannot show the absence of a bad one.", "anchors": ["src/ck_barrier_dissemination.c:ck_barrier_dissemination,ck_barrier_dissemination_init"]}
{"id": "C26", "title": "Tournament barrier separates phases", "statement": "No thread returns from its k-th ck_barrier_tournament before every participant has entered its k-th; the bracket set up by init pairs every thread for every number of participants.", "quantifier": "every number of participants, every number of episodes, every interleaving", "why_tests_cant": "A schedule-dependent race; a test run samples a handful of the unboundedly many interleavings and cannot show the absence of a bad one.", "anchors": ["src/ck_barrier_tournament.c:ck_barrier_tournament,ck_barrier_tournament_init"]}
{"id": "C27", "title": "MCS tree barrier separates phases", "statement": "No thread returns from its k-th ck_barrier_mcs before every participant has entered its k-th.", "quantifier": "every number of participants, every number of episodes, every interleaving", "why_tests_cant": "A schedule-dependent race; a test run samples a handful of the unboundedly many interleavings and cannot show the absence of a bad one.", "anchors": ["src/ck_barrier_mcs.c:ck_barrier_mcs,ck_barrier_mcs_init"]}
{"id": "C28", "title": "Single-producer single-consumer ring is a bounded FIFO queue", "statement": "Every concurrent history of ck_ring_enqueue_spsc/ck_ring_dequeue_spsc is linearizable to a FIFO queue of capacity size-1: values come out exactly once, in order, unmodified; enqueue fails only when the queue is full, dequeue only when it is empty.", "quantifier": "every power-of-two size from 2 to 2^31, every interleaving of one producer and one consumer, every number of operations (all counter wraps)", "why_tests_cant": "A schedule-dependent race; a test run samples a handful of the unboundedly many interleavings and cannot show the absence of a bad one.", "anchors": ["include/ck_ring.h:_ck_ring_enqueue_sp,_ck_ring_dequeue_sc,ck_ring_init"]}
{"id": "C29", "title": "Multi-consumer ring: no loss, no duplication, FIFO", "statement": "Every concurrent history of one producer and any number of consumers (dequeue_spmc, trydequeue_spmc) is linearizable to a bounded FIFO queue; a consumer never returns a slot that the producer is overwriting.", "quantifier": "every power-of-two size, every number of consumers, every interleaving in which the producer's counter does not get 2^32 ahead of the c_head snapshot of a consumer within one attempt", "why_tests_cant": "A schedule-dependent race; a test run samples a handful of the unboundedly many interleavings and cannot show the absence of a bad one.", "anchors": ["include/ck_ring.h:_ck_ring_dequeue_mc,_ck_ring_trydequeue_mc"]}
{"id": "C30", "title": "Multi-producer ring: no loss, no duplication, FIFO", "statement": "Every concurrent history of any number of producers (enqueue_mp, incl. reserve/commit) with one or many consumers is linearizable to a bounded FIFO queue, except that an enqueue may report full while slots are reserved by other producers: it fails only if at some instant all slots were filled or reserved.", "quantifier": "every power-of-two size, every number of producers and consumers, every interleaving in which the counters do not get 2^32 ahead of a snapshot held within one attempt", "why_tests_cant": "A schedule-dependent race; a test run samples a handful of the unboundedly many interleavings and cannot show the absence of a bad one.", "anchors": ["include/ck_ring.h:_ck_ring_enqueue_mp,_ck_ring_enqueue_reserve_mp,_ck_ring_enqueue_commit_mp"]}
{"id": "C31", "title": "Ring recovery after a producer crash", "statement": "For a multi-producer ring whose producers stop at arbitrary points (crash), ck_ring_valid accepts the ring, and after ck_ring_repair the ring is quiescent (no reservation outstanding), nothing that was already committed is lost, and enqueue works again.", "quantifier": "every crash point of every set of producers/consumers, every history without counter wrap", "why_tests_cant": "Crash points cannot be enumerated by tests.", "anchors": ["include/ck_ring.h:ck_ring_repair,ck_ring_valid"]}
{"id": "C32", "title": "Lock-free stack (UPMC/MPNC) is linearizable to a LIFO stack", "statement": "Every concurrent history of push_upmc/trypush_upmc/pop_upmc/trypop_upmc/batch_pop_upmc in which an entry is not pushed again while a pop that might have seen it is running is linearizable to a stack: LIFO, no loss, no duplication; batch_pop returns the entire content.", "quantifier": "every number of threads and entries, every interleaving", "why_tests_cant": "A schedule-dependent race; a test run samples a handful of the unboundedly many interleavings and cannot show the absence of a bad one.", "anchors": ["include/ck_stack.h:ck_stack_push_upmc,ck_stack_trypush_upmc,ck_stack_pop_upmc,ck_stack_trypop_upmc,ck_stack_batch_pop_upmc,ck_stack_push_mpnc"]}
{"id": "C33", "title": "MPMC stack is ABA-safe with immediate entry reuse", "statement": "Every concurrent history of push_mpmc/pop_mpmc/trypush/trypop_mpmc is linearizable to a LIFO stack even if popped entries are pushed again immediately.", "quantifier": "every number of threads and entries, every interleaving, fewer than 2^64 pops during one attempt", "why_tests_cant": "ABA needs a stalled pop, a pop and a re-push of the same entry.", "anchors": ["include/ck_stack.h:ck_stack_push_mpmc,ck_stack_pop_mpmc,ck_stack_trypop_mpmc,ck_stack_trypush_mpmc"]}
{"id": "C34", "title": "MPMC stack stays ABA-safe with batch pop", "statement": "Mixing batch_pop_mpmc with pop_mpmc and immediate reuse of entries keeps the stack linearizable.", "quantifier": "every number of threads and entries, every interleaving", "why_tests_cant": "ABA needs a stalled pop, a batch pop and a re-push of the same entry.", "anchors": ["include/ck_stack.h:ck_stack_batch_pop_mpmc,ck_stack_pop_mpmc"]}
{"id": "C35", "title": "SPSC fifo is a FIFO queue and recycles only consumed nodes", "statement": "ck_fifo_spsc enqueue/dequeue by one producer and one consumer is linearizable to an unbounded FIFO queue, dequeue fails only when empty, and ck_fifo_spsc_recycle never hands out a node that still is in the queue.", "quantifier": "every interleaving of one producer and one consumer, every recycle pattern", "why_tests_cant": "A schedule-dependent race; a test run samples a handful of the unboundedly many interleavings and cannot show the absence of a bad one.", "anchors": ["include/ck_fifo.h:ck_fifo_spsc_enqueue,ck_fifo_spsc_dequeue,ck_fifo_spsc_recycle"]}
{"id": "C36", "title": "MPMC fifo is linearizable to a FIFO queue", "statement": "ck_fifo_mpmc enqueue/tryenqueue/dequeue/trydequeue by any number of threads is linearizable to an unbounded FIFO queue; nodes given back (garbage) may be reused.", "quantifier": "every number of threads and nodes, every interleaving, with and without node reuse", "why_tests_cant": "Requires a stalled operation plus reuse of the node it observed.", "anchors": ["include/ck_fifo.h:ck_fifo_mpmc_enqueue,ck_fifo_mpmc_tryenqueue,ck_fifo_mpmc_dequeue,ck_fifo_mpmc_trydequeue"]}
{"id": "C37", "title": "Hazard pointers: no object is freed while a validated hazard pointer names it", "statement": "ck_hp: an object passed to ck_hp_free/retire+reclaim after being unlinked is not handed to the destructor while some thread that published the pointer and validated it before the unlink still publishes it; every retired object without hazards is destroyed by a reclaim; nothing is destroyed twice.", "quantifier": "every number of records and slots, every interleaving, cache overflow included", "why_tests_cant": "A schedule-dependent race; a test run samples a handful of the unboundedly many interleavings and cannot show the absence of a bad one.", "anchors": ["src/ck_hp.c:ck_hp_reclaim,ck_hp_retire,ck_hp_free,ck_hp_member_scan,ck_hp_member_cache", "include/ck_hp.h:ck_hp_set,ck_hp_set_fence"]}
{"id": "C38", "title": "Hazard-pointer stack is linearizable and never touches freed entries", "statement": "ck_hp_stack push/pop with immediate reclamation and reuse of popped entries through ck_hp is linearizable to a LIFO stack and dereferences only live entries.", "quantifier": "every number of threads, every interleaving", "why_tests_cant": "A schedule-dependent race; a test run samples a handful of the unboundedly many interleavings and cannot show the absence of a bad one.", "anchors": ["include/ck_hp_stack.h:ck_hp_stack_pop_mpmc,ck_hp_stack_push_mpmc,ck_hp_stack_trypop_mpmc"]}
{"id": "C39", "title": "Hazard-pointer fifo never corrupts the queue or touches freed nodes", "statement": "ck_hp_fifo enqueue/dequeue/tryenqueue/trydequeue with reclamation and reuse through ck_hp keep the queue linked (head never becomes NULL) and dereference only live nodes.", "quantifier": "every number of threads, every interleaving", "why_tests_cant": "Requires a stalled trydequeue and reuse of the node it observed.", "anchors": ["include/ck_hp_fifo.h:ck_hp_fifo_dequeue_mpmc,ck_hp_fifo_trydequeue_mpmc,ck_hp_fifo_enqueue_mpmc"]}
{"id": "C40", "title": "Epoch reclamation: a deferred callback runs only after a grace period", "statement": "A function deferred with ck_epoch_call on a record runs only after every protected section that was active when the call was made has ended, whichever of poll, reclaim-after-synchronize or barrier dispatches it.", "quantifier": "every number of records and sections, every interleaving, every epoch counter value", "why_tests_cant": "A schedule-dependent race; a test run samples a handful of the unboundedly many interleavings and cannot show the absence of a bad one.", "anchors": ["src/ck_epoch.c:ck_epoch_poll_deferred,ck_epoch_synchronize_wait,ck_epoch_barrier,ck_epoch_scan", "include/ck_epoch.h:ck_epoch_begin,ck_epoch_end,ck_epoch_call"]}
{"id": "C41", "title": "Epoch synchronize waits for all earlier readers", "statement": "ck_epoch_synchronize returns only after every protected section that was active when it was called has ended.", "quantifier": "every number of records and concurrent synchronizers/pollers, every interleaving, every counter wrap position", "why_tests_cant": "A schedule-dependent race; a test run samples a handful of the unboundedly many interleavings and cannot show the absence of a bad one.", "anchors": ["src/ck_epoch.c:ck_epoch_synchronize_wait,ck_epoch_scan"]}
{"id": "C42", "title": "Deferring to a shared record keeps the grace period", "statement": "A function deferred with ck_epoch_call_strict on a record owned by another thread runs only after a full grace period.", "quantifier": "every interleaving of callers and the record's owner polling or in barrier", "why_tests_cant": "Race between the caller and the owner's dispatch.", "anchors": ["include/ck_epoch.h:ck_epoch_call_strict", "src/ck_epoch.c:ck_epoch_poll_deferred,ck_epoch_barrier"]}
{"id": "C43", "title": "Nested/overlapping epoch sections keep earlier sections protected", "statement": "With section objects, ending a newer section never makes the record report a newer epoch than that of an older section that is still active.", "quantifier": "every sequence of begin/end with section objects on a record, every interleaving with epoch advances", "why_tests_cant": "Depends on the complete nesting history and epoch advances.", "anchors": ["src/ck_epoch.c:_ck_epoch_addref,_ck_epoch_delref", "include/ck_epoch.h:ck_epoch_begin,ck_epoch_end"]}
{"id": "C44", "title": "Bitmap operations implement a finite set", "statement": "set/reset/test/bts/clear/init/union/intersection/intersection_negate/count/count_intersect/empty/full of ck_bitmap agree with the mathematical set of bit positions below n_bits, for every n_bits including non-multiples of the word size; no operation leaves or depends on bits beyond n_bits.", "quantifier": "every bitmap length, every content, every index below the length, every sequence of operations", "why_tests_cant": "The input space is all bit strings of all lengths; tail-word handling depends on length modulo word size.", "anchors": ["include/ck_bitmap.h:ck_bitmap_set,ck_bitmap_bts,ck_bitmap_reset,ck_bitmap_test,ck_bitmap_union,ck_bitmap_intersection,ck_bitmap_intersection_negate,ck_bitmap_clear,ck_bitmap_empty,ck_bitmap_full,ck_bitmap_count,ck_bitmap_count_intersect,ck_bitmap_init"]}
{"id": "C45", "title": "Bitmap iterator enumerates exactly the set bits in increasing order", "statement": "ck_bitmap_next started from ck_bitmap_iterator_init yields every set bit exactly once in increasing order and then false.", "quantifier": "every bitmap length and content", "why_tests_cant": "Depends on every word content and boundary.", "anchors": ["include/ck_bitmap.h:ck_bitmap_iterator_init,ck_bitmap_next"]}
{"id": "C46", "title": "Concurrent bitmap set/reset are atomic per bit", "statement": "Concurrent set/bts/reset on different or equal bits never lose an update; of several concurrent bts on a clear bit exactly one reports having found it clear.", "quantifier": "every number of threads, every interleaving", "why_tests_cant": "A schedule-dependent race; a test run samples a handful of the unboundedly many interleavings and cannot show the absence of a bad one.", "anchors": ["include/ck_bitmap.h:ck_bitmap_set,ck_bitmap_bts,ck_bitmap_reset"]}
{"id": "C47", "title": "Hash set implements a finite map", "statement": "Starting from ck_hs_init, after any sequence of put/put_unique/set/fas/remove/apply/grow/rebuild/gc/reset, get returns the stored object exactly for the keys present, return values agree with a mathematical map keyed by the compare function, and count is its size.", "quantifier": "every hash function consistent with the compare function (including all-colliding), every operation sequence, every table size, with and without allocation failures", "why_tests_cant": "Quantifies over all hash functions and histories; tombstone/probe-bound interplay depends on the whole history.", "anchors": ["src/ck_hs.c:ck_hs_map_probe,ck_hs_put_internal,ck_hs_set,ck_hs_fas,ck_hs_apply,ck_hs_remove,ck_hs_get,ck_hs_grow,ck_hs_gc"]}
{"id": "C48", "title": "Hash set readers are linearizable against the single writer", "statement": "ck_hs_get concurrent with one writer returns NULL only if the key was absent at some instant during the call, and returns an object only if that object was the one stored for the key at some instant during the call.", "quantifier": "every hash function, every writer operation sequence, every number of readers, every interleaving", "why_tests_cant": "A schedule-dependent race; a test run samples a handful of the unboundedly many interleavings and cannot show the absence of a bad one.", "anchors": ["src/ck_hs.c:ck_hs_get,ck_hs_map_probe,ck_hs_map_signal,ck_hs_set,ck_hs_gc"]}
{"id": "C49", "title": "Hash table put refuses duplicates and the table implements a map", "statement": "ck_ht (direct mode) put fails exactly if the key is present, set replaces, remove deletes, get returns the latest value; a key is never stored twice.", "quantifier": "every hash function, every operation sequence, every table size", "why_tests_cant": "Depends on tombstones left by the whole history.", "anchors": ["src/ck_ht.c:ck_ht_put_spmc,ck_ht_set_spmc,ck_ht_remove_spmc,ck_ht_get_spmc,ck_ht_map_probe_wr,ck_ht_map_probe_rd"]}
{"id": "C50", "title": "Robin-hood hash set counts its members", "statement": "ck_rhs_count equals the number of stored objects after any sequence of operations, including deletions requested through ck_rhs_apply.", "quantifier": "every operation sequence", "why_tests_cant": "Depends on history.", "anchors": ["src/ck_rhs.c:ck_rhs_apply,ck_rhs_remove,ck_rhs_count"]}
{"id": "C51", "title": "ck_array readers see only committed states", "statement": "What ck_array_length/ck_array_buffer/CK_ARRAY_FOREACH show to readers changes only by ck_array_commit, which makes exactly the pending puts and removes visible at once; the writer's view implements a multiset.", "quantifier": "every sequence of put/put_unique/remove/commit, every read point", "why_tests_cant": "In-place modification is visible only if a reader looks between remove and commit.", "anchors": ["src/ck_array.c:ck_array_put,ck_array_remove,ck_array_commit", "include/ck_array.h:ck_array_buffer,CK_ARRAY_FOREACH"]}
{"id": "C52", "title": "ck_array_put reports success", "statement": "ck_array_put returns true iff the value was added and put_unique returns 0 iff it was added, 1 iff it was already there, -1 iff allocation failed.", "quantifier": "every sequence of operations, every allocation outcome", "why_tests_cant": "Return value depends on whether a removal is pending.", "anchors": ["src/ck_array.c:ck_array_put,ck_array_put_unique"]}
{"id": "C53", "title": "Linked list macros implement sequences", "statement": "CK_SLIST, CK_STAILQ and CK_LIST insert/remove/move/swap/concat operations transform the stored sequence as documented for any well-formed list, keeping all back and tail pointers consistent.", "quantifier": "every list, every position, every sequence of operations", "why_tests_cant": "All shapes and positions.", "anchors": ["include/ck_queue.h:CK_SLIST_INSERT_HEAD,CK_SLIST_REMOVE,CK_STAILQ_INSERT_TAIL,CK_STAILQ_REMOVE,CK_STAILQ_CONCAT,CK_LIST_INSERT_BEFORE,CK_LIST_REMOVE"]}
{"id": "C54", "title": "Lock-free traversal is safe against a concurrent writer", "statement": "CK_SLIST/CK_STAILQ/CK_LIST _FOREACH running concurrently with one writer that inserts and removes elements visits every element that is in the list during the entire traversal, visits no element twice, and visits only elements that were in the list at some point (elements being reclaimed only after the traversal).", "quantifier": "every list, every sequence of insert and remove macros by the writer, any number of readers, every interleaving of single stores and loads", "why_tests_cant": "A schedule-dependent race; a test run samples a handful of the unboundedly many interleavings and cannot show the absence of a bad one.", "anchors": ["include/ck_queue.h:CK_SLIST_FOREACH,CK_STAILQ_FOREACH,CK_LIST_FOREACH"]}
{"id": "C55", "title": "Event count: no lost wake-up (multi-producer)", "statement": "A thread sleeping in ck_ec_wait for a value that the counter no longer has is always about to be woken: if the counter differs from what it waits for, some producer is between its update and its wake call, or the thread is already awake.", "quantifier": "every number of producers and waiters, every interleaving, fewer than 2^31 (2^63) increments during one wait", "why_tests_cant": "A lost wake-up needs the flag set, update and sleep to interleave in one specific order.", "anchors": ["include/ck_ec.h:ck_ec32_add_mp,ck_ec32_inc,ck_ec64_add_mp", "src/ck_ec.c:ck_ec32_wait_pred_slow,ck_ec32_wake,ck_ec32_upgrade"]}
{"id": "C56", "title": "Event count wait returns 0 only if the value changed", "statement": "ck_ec_wait returns 0 only if the event count's value differed from the given old value at some instant during the call.", "quantifier": "every number of producers and waiters, every interleaving", "why_tests_cant": "Needs a producer stopped between update and flag clearing.", "anchors": ["src/ck_ec.c:ck_ec32_wait_pred_slow,ck_ec32_wait_easy,ck_ec32_wake"]}
{"id": "C57", "title": "Deadline arithmetic saturates correctly", "statement": "timespec_add and timespec_add_ns return the exact normalized sum or saturate at the maximum, never overflow, are monotone, and timespec_cmp is the lexicographic order; wait_time_scale is the exact scaled product clamped to UINT32_MAX.", "quantifier": "all non-negative timespecs (monotonic clock values), all 32-bit values and shifts up to 32", "why_tests_cant": "2^64-sized input space with overflow corners.", "anchors": ["src/ck_ec_timeutil.h:timespec_add,timespec_add_ns,timespec_cmp,wait_time_scale"]}
{"id": "C58", "title": "Integer helpers compute log2, next power of two and max", "statement": "ck_internal_log is log2 on powers of two; ck_internal_power_2 is the least power of two not below its argument when that fits in 32 bits; ck_internal_max* are the maximum.", "quantifier": "all 32-bit (64-bit) inputs", "why_tests_cant": "2^32/2^64 inputs.", "anchors": ["src/ck_internal.h:ck_internal_log,ck_internal_power_2,ck_internal_max"]}
{"id": "C59", "title": "Portable atomic read-modify-write fall-backs are atomic", "statement": "The CAS-loop versions on integer words of add/sub/and/or/xor/bts/btr/btc/inc/dec (with zero flags) behave as one indivisible update and report the old bit / zero condition of exactly that update.", "quantifier": "every number of threads, every interleaving, every operand", "why_tests_cant": "A schedule-dependent race; a test run samples a handful of the unboundedly many interleavings and cannot show the absence of a bad one.", "anchors": ["include/ck_pr.h:CK_PR_BIN,CK_PR_BTX,CK_PR_UNARY_Z,CK_PR_FAA,CK_PR_FAS"]}
{"id": "C60", "title": "Exponential backoff stays within its ceiling", "statement": "Repeated ck_backoff_eb doubles the delay until the ceiling, never exceeds CK_BACKOFF_CEILING and never becomes zero when started from a power of two not above the ceiling.", "quantifier": "every start value, every number of calls", "why_tests_cant": "Unbounded iteration.", "anchors": ["include/ck_backoff.h:ck_backoff_eb"]}
{"id": "C61", "title": "ck_pr_inc_ptr_is_zero reports exactly the wrap to zero", "statement": "The fall-back ck_pr_inc_ptr_is_zero / ck_pr_inc_ptr_zero adds one to a pointer-sized word and reports true exactly when the new value is zero.", "quantifier": "every word value, every interleaving", "why_tests_cant": "The wrapping value is one in 2^64 and the wrong comparison constant only shows on 64-bit pointers.", "anchors": ["include/ck_pr.h:CK_PR_UNARY_Z,CK_PR_UNARY_Z_S(inc, ptr)"]}
{"id": "C62", "title": "Portable bit scanning helpers are exact", "statement": "The portable ck_cc_ffs/ffsl/ffsll return one plus the position of the least significant set bit and 0 for 0; ck_cc_ctz returns the position of the least significant set bit of a nonzero word (0 for 0); ck_cc_popcount returns the number of set bits.", "quantifier": "every word, every word width", "why_tests_cant": "The input space is all 2^32 or 2^64 words; tests sample it.", "anchors": ["include/ck_cc.h:ck_cc_ffs,ck_cc_ffsl,ck_cc_ffsll,ck_cc_ctz,ck_cc_popcount"]}
{"id": "C63", "title": "Sleeps of ck_ec_wait are bounded and progress", "statement": "Each round of the exponential backoff of ck_ec_wait computes, without looping forever, a sleep deadline after the current time: at most one second after the wait began while backing off, exactly the caller's deadline afterwards, and never later than the caller's deadline.", "quantifier": "every clock reading, deadline, wait time and every scale factor and shift count", "why_tests_cant": "Depends on values of the clock and on settings of the ops table; a missing growth of the wait time only shows as a hang under particular timing.", "anchors": ["src/ck_ec.c:exponential_backoff", "src/ck_ec_timeutil.h:timespec_add_ns,wait_time_scale,timespec_cmp"]}
{"id": "C64", "title": "The event count is a linearizable counter", "statement": "ck_ec_inc, ck_ec_add and ck_ec_value behave as atomic operations on one counter modulo 2^31 (ck_ec32) or 2^63 (ck_ec64): add returns the previous value, no update is lost, and waiting threads, which set and clear the flag bit in the same word, never change the value. This holds with any number of producers in multi-producer mode and for the non-atomic update of the single-producer mode.", "quantifier": "every number of producers and waiters, every interleaving, every delta", "why_tests_cant": "An update lost between the producer's non-atomic update and a waiter's compare-and-swap needs one interleaving; the carry into the flag bit needs 2^31 increments.", "anchors": ["include/ck_ec.h:ck_ec32_inc,ck_ec32_add_mp,ck_ec32_add_sp,ck_ec64_add_mp,ck_ec64_add_sp,ck_ec32_value,ck_ec64_value", "src/ck_ec.c:ck_ec32_wake,ck_ec64_wake"]}
{"id": "C65", "title": "An epoch deferral runs exactly once", "statement": "A function deferred with ck_epoch_call (or ck_epoch_call_strict) runs at most once, and until it ran it stays pending on a record or popped by the thread about to run it, unless the record it is pending on is unregistered.", "quantifier": "every number of records, threads, deferrals and sections, every interleaving, including callbacks that defer and threads that defer on records of others", "why_tests_cant": "A deferral lost or dispatched twice in a race between the caller's push and the owner's pop needs one interleaving.", "anchors": ["src/ck_epoch.c:ck_epoch_dispatch,ck_epoch_reclaim,ck_epoch_poll_deferred,ck_epoch_unregister", "include/ck_epoch.h:ck_epoch_call,ck_epoch_call_strict"]}
{"id": "C66", "title": "Hierarchical CLH lock: order inside a cluster, progress", "statement": "Threads of one cluster acquire a hierarchical CLH lock in the order in which they joined their cluster's queue; if nobody holds the lock and somebody waits, some waiting thread acquires it by its own steps alone; unlock always finds a node to hand back.", "quantifier": "every number of threads and clusters, every interleaving", "why_tests_cant": "Order and absence of deadlock are claims about all interleavings of splicing masters with late joiners.", "anchors": ["include/spinlock/hclh.h:ck_spinlock_hclh_lock,ck_spinlock_hclh_unlock"]}
{"id": "C67", "title": "Robin-hood hash set implements a finite map", "statement": "Starting from ck_rhs_init, after any sequence of put/put_unique/set/fas/remove/apply/grow/rebuild/gc/reset/set_load_factor, get returns the stored object exactly for the keys present, return values agree with a mathematical map keyed by the compare function (a failure for lack of memory changes nothing), next yields every stored object once, and every call terminates on the current table.", "quantifier": "every hash function consistent with the compare function (including all-colliding), every operation sequence, every table size, read-mostly and default mode, every pattern of allocation failures", "why_tests_cant": "Displacement chains, wanted counters and saturating probe bounds depend on the whole history; entries are lost only with particular collision patterns.", "anchors": ["src/ck_rhs.c:ck_rhs_put_internal,ck_rhs_put_robin_hood,ck_rhs_do_backward_shift_delete,ck_rhs_set,ck_rhs_fas,ck_rhs_apply,ck_rhs_remove,ck_rhs_get,ck_rhs_grow,ck_rhs_gc,ck_rhs_set_load_factor"]}
{"id": "C68", "title": "Hash table readers concurrent with the writer", "statement": "While a single writer puts, sets, removes, grows, collects and resets, any number of readers may call ck_ht_get_spmc: the calls of writer and readers together are linearizable as a map, so a reader returns a value the key had at some instant during its call, or finds nothing only if the key was absent at some instant during its call.", "quantifier": "every number of readers and calls, every interleaving of single loads and stores, every hash function and table size", "why_tests_cant": "Torn reads of a moved or reused slot and bounds raised too late need a reader stalled between two particular loads.", "anchors": ["src/ck_ht.c:ck_ht_get_spmc,ck_ht_map_probe_rd,ck_ht_put_spmc,ck_ht_set_spmc,ck_ht_remove_spmc,ck_ht_gc,ck_ht_grow_spmc,ck_ht_reset_spmc"]}
{"id": "C69", "title": "Sequence lock on relaxed memory", "statement": "On a memory that orders accesses to different locations only through fences (CK_MD_RMO), if ck_sequence_read_retry returns false and the counter did not wrap around during the section, then everything loaded in the section is the data as one write section left them. Each of the four fences of ck_sequence.h is needed for this.", "quantifier": "every number of readers and sections, every interleaving, every choice of stale values the memory model allows, every width of the counter", "why_tests_cant": "Tests run on one machine, mostly x86, where three of the four fences do nothing.", "anchors": ["include/ck_sequence.h:ck_sequence_read_begin,ck_sequence_read_retry,ck_sequence_write_begin,ck_sequence_write_end"]}
{"id": "C70", "title": "Single-producer single-consumer ring on relaxed memory", "statement": "On a memory that orders accesses to different locations only through fences (CK_MD_RMO), values are dequeued in the order in which they were enqueued, each once, unchanged, at most size - 1 at a time; whoever dequeues a value sees all the producer stored before enqueuing it. Each of the two fences is needed for this.", "quantifier": "every ring size up to 2^31, every interleaving, every choice of stale values the memory model allows", "why_tests_cant": "Tests run on one machine, mostly x86, where neither fence does anything.", "anchors": ["include/ck_ring.h:_ck_ring_enqueue_sp,_ck_ring_dequeue_sc"]}
{"id": "C71", "title": "Spinlocks fas, cas and dec on relaxed memory", "statement": "On a memory that orders accesses to different locations only through fences (CK_MD_RMO), two threads never hold a ck_spinlock_fas / ck_spinlock_cas / ck_spinlock_dec together (the latter with fewer threads than an unsigned int has values), and whatever a holder loads from data accessed only under the lock is the value stored last, by whichever thread held the lock. Both the fence after acquiring and the one before releasing are needed.", "quantifier": "every number of threads, every interleaving of lock, trylock, unlock and data accesses, every choice of stale values the memory model allows", "why_tests_cant": "Tests run on one machine, mostly x86, where these fences do nothing.", "anchors": ["include/spinlock/fas.h:ck_spinlock_fas_lock,ck_spinlock_fas_trylock,ck_spinlock_fas_unlock", "include/spinlock/cas.h:ck_spinlock_cas_lock,ck_spinlock_cas_trylock,ck_spinlock_cas_unlock", "include/spinlock/dec.h:ck_spinlock_dec_lock,ck_spinlock_dec_trylock,ck_spinlock_dec_unlock"]}
{"id": "C72", "title": "Ticket spinlock on relaxed memory", "statement": "On a memory that orders accesses to different locations only through fences (CK_MD_RMO), two threads never hold a two-word ck_spinlock_ticket together, and whatever a holder loads from data accessed only under the lock is the value stored last.", "quantifier": "every word width, number of threads, interleaving and choice of stale values the memory model allows", "why_tests_cant": "Tests run on one machine, mostly x86, where these fences do nothing, and never wrap the counters while a thread is delayed.", "anchors": ["include/spinlock/ticket.h:ck_spinlock_ticket_lock,ck_spinlock_ticket_unlock"]}
{"id": "C73", "title": "Reader-writer lock on relaxed memory", "statement": "On a memory that orders accesses to different locations only through fences (CK_MD_RMO), while a thread is in a write section of ck_rwlock no other thread is in a read or write section, and whatever is loaded in a section is the value stored last; also with trylocks and downgrade. The full fences of reader and writer, the reader's load fence and the writer's unlock fence are each needed.", "quantifier": "every number of threads, every interleaving, every choice of stale values the memory model allows", "why_tests_cant": "Tests run on one machine, mostly x86, where locked instructions already order everything.", "anchors": ["include/ck_rwlock.h:ck_rwlock_read_lock,ck_rwlock_read_trylock,ck_rwlock_read_unlock,ck_rwlock_write_lock,ck_rwlock_write_trylock,ck_rwlock_write_unlock,ck_rwlock_write_downgrade"]}
{"id": "C74", "title": "Stores before a barrier are visible after it", "statement": "On a memory that orders accesses to different locations only through fences (CK_MD_RMO), no thread leaves its k-th ck_barrier_centralized before all threads have entered their k-th, and after leaving it a thread sees everything any thread had stored before entering.", "quantifier": "every number of threads below 2^32, every number of rounds, every interleaving, every choice of stale values the memory model allows", "why_tests_cant": "Tests run on one machine, mostly x86, where the atomic increment is a full fence.", "anchors": ["src/ck_barrier_centralized.c:ck_barrier_centralized"]}
{"id": "C75", "title": "Hazard pointers on relaxed memory", "statement": "On a memory that orders accesses to different locations only through fences (CK_MD_RMO), a node is not destroyed by ck_hp_free, ck_hp_reclaim or ck_hp_purge while a thread protects it: the thread has stored it with ck_hp_set_fence and has then found it still linked.", "quantifier": "every number of threads and shared pointers, every interleaving of protecting, unlinking, retiring and reclaiming including reuse of memory, every choice of stale values the memory model allows", "why_tests_cant": "A reclaiming thread must load an outdated hazard pointer; x86 prevents it by its locked instructions.", "anchors": ["include/ck_hp.h:ck_hp_set_fence,ck_hp_clear", "src/ck_hp.c:ck_hp_free,ck_hp_reclaim,ck_hp_retire"]}
{"id": "C76", "title": "Hash table in byte string mode compares strings", "statement": "In CK_HT_MODE_BYTESTRING a lookup finds an entry exactly if the table has the byte string as a key, whatever addresses the strings have: the comparison of address, length, memoized hash and bytes made by the probes is equality of strings, address, length and value survive the packing into words, and an entry is never mistaken for an empty slot or a tombstone.", "quantifier": "every build (plain entries, pointer packing with any number of address bits), memory contents, hash callback, address, length, table contents and probe", "why_tests_cant": "Strings that share an address, lengths near the limit of the packed field and hashes that collide are not generated by tests.", "anchors": ["src/ck_ht.c:ck_ht_map_probe_rd,ck_ht_map_probe_wr", "include/ck_ht.h:ck_ht_entry_set,ck_ht_entry_key,ck_ht_entry_key_length,ck_ht_entry_value"]}
{"id": "C77", "title": "Reader-writer locks do not deadlock", "statement": "From every state that calls of a reader-writer lock can lead to, all calls in progress can be completed and all ownership be released by steps of those calls and by releases alone: no interleaving of lock, trylock, unlock, upgrade, downgrade and latch leaves the lock taken without an owner, loses a reader or writer that waits, or makes two waiting calls wait for each other. Holds for ck_rwlock, ck_swlock, ck_pflock, ck_tflock_ticket, ck_brlock, ck_bytelock and the three reader-writer cohort locks.", "quantifier": "every number of threads (below the width of the counters), every interleaving, every reachable state", "why_tests_cant": "A hang needs one particular interleaving and shows in a test only as a run that does not end.", "anchors": ["include/ck_rwlock.h", "include/ck_swlock.h", "include/ck_pflock.h", "include/ck_tflock.h", "include/ck_brlock.h", "include/ck_bytelock.h", "include/ck_rwcohort.h"]}
{"id": "C78", "title": "Spinlocks and cohort locks do not deadlock", "statement": "From every state that calls of a spinlock (fas, cas, dec, ticket, anderson, clh, mcs) or of a cohort lock can lead to, all calls in progress can be completed and the lock be released by steps of those calls and by unlocks alone; a failed trylock does not leave the lock taken.", "quantifier": "every number of threads (below the width of the counters), every interleaving, every reachable state", "why_tests_cant": "A hang needs one particular interleaving and shows in a test only as a run that does not end.", "anchors": ["include/spinlock/fas.h", "include/spinlock/cas.h", "include/spinlock/dec.h", "include/spinlock/ticket.h", "include/spinlock/anderson.h", "include/spinlock/clh.h", "include/spinlock/mcs.h", "include/ck_cohort.h"]}
{"id": "C79", "title": "Epoch reclamation on weak memory", "statement": "On a processor that reorders memory accesses, a node that was unlinked before a call of ck_epoch_synchronize is not destroyed after it while a section begun with ck_epoch_begin, on any thread, still has a pointer to it; no thread loads a pointer to it any more, and the global epoch advances at most once past a section that stays open.", "quantifier": "every number of threads, pointers and nodes, every interleaving and every reordering the memory model allows (store buffers for TSO, views for RMO), also with ck_epoch_poll", "why_tests_cant": "Reorderings occur rarely and depend on the processor; tests on x86 never execute the code of the relaxed models.", "anchors": ["include/ck_epoch.h", "src/ck_epoch.c", "include/ck_pr.h"]}
{"id": "C80", "title": "Queue locks on relaxed memory", "statement": "On a memory that orders accesses to different locations only through fences (CK_MD_RMO), at most one thread holds an MCS, CLH or Anderson lock, threads enter in the order in which they took their place in the queue, and whatever a thread loads while it holds the lock is the value stored last.", "quantifier": "every number of threads, every interleaving, every reuse of queue nodes and slots, every choice of stale values the memory model allows", "why_tests_cant": "Each of these locks relies on fences between accesses to two or three different locations; on x86 they are no-ops, so that removing one changes no test.", "anchors": ["include/spinlock/mcs.h:ck_spinlock_mcs_lock,ck_spinlock_mcs_trylock,ck_spinlock_mcs_unlock", "include/spinlock/clh.h:ck_spinlock_clh_lock,ck_spinlock_clh_unlock", "include/spinlock/anderson.h:ck_spinlock_anderson_lock,ck_spinlock_anderson_unlock"]}
{"id": "C81", "title": "Reader-writer spinlocks on relaxed memory", "statement": "On a memory that orders accesses to different locations only through fences (CK_MD_RMO), no writer holds a phase-fair, task-fair or single-writer lock together with another writer or a reader, the locks are as fair as on a sequentially consistent memory, and whatever a holder loads is the value stored last by any earlier holder.", "quantifier": "every number of threads below the width of the counters, every interleaving, every number of earlier acquisitions, every choice of stale values the memory model allows (phase-fair lock: not older than 2^24 - n stores, beyond which the counters wrap)", "why_tests_cant": "The words wrap, so a stale value of a counter can look current; whether this is possible depends on fences that are no-ops on x86 and on more than 2^15 acquisitions between two loads.", "anchors": ["include/ck_pflock.h:ck_pflock_write_lock,ck_pflock_write_unlock,ck_pflock_read_lock,ck_pflock_read_unlock", "include/ck_tflock.h:ck_tflock_ticket_write_lock,ck_tflock_ticket_write_unlock,ck_tflock_ticket_read_lock,ck_tflock_ticket_read_unlock", "include/ck_swlock.h:ck_swlock_write_lock,ck_swlock_write_trylock,ck_swlock_write_unlock,ck_swlock_write_downgrade,ck_swlock_write_latch,ck_swlock_write_unlatch,ck_swlock_read_lock,ck_swlock_read_trylock,ck_swlock_read_unlock"]}
{"id": "C82", "title": "Reader-writer locks with a handshake on relaxed memory", "statement": "On a memory that orders accesses to different locations only through fences (CK_MD_RMO), a writer holds a big-reader lock alone, however reader and writer race when each announces itself and then looks for the other; whatever a holder loads is the value stored last by any earlier holder, and nested read sections keep the lock until the last one ends.", "quantifier": "every number of threads, every interleaving of all operations (blocking and trylock, nesting), every choice of stale values the memory model allows", "why_tests_cant": "Both sides store and then load the other's word; without a full fence on either side both may miss the other, on relaxed machines only and only within a few cycles.", "anchors": ["include/ck_brlock.h:ck_brlock_write_lock,ck_brlock_write_unlock,ck_brlock_write_trylock,ck_brlock_read_lock,ck_brlock_read_trylock,ck_brlock_read_unlock"]}
{"id": "C83", "title": "Cohort lock on relaxed memory", "statement": "On a memory that orders accesses to different locations only through fences (CK_MD_RMO), two threads never hold a cohort lock (CK_COHORT_LOCK) together, whichever cohorts they use and however often the global lock is passed on within a cohort; whatever a holder loads from data accessed only under the lock is the value stored last.", "quantifier": "every number of threads and cohorts, every interleaving, every decision to pass the global lock on, every choice of stale values the memory model allows", "why_tests_cant": "release_state is a plain field handed over through two different locks; on x86 the fences do nothing, so that removing one changes no test.", "anchors": ["include/ck_cohort.h:CK_COHORT_PROTOTYPE", "include/spinlock/fas.h:ck_spinlock_fas_lock,ck_spinlock_fas_unlock"]}
{"id": "C84", "title": "Reader-writer cohort locks on relaxed memory", "statement": "On a memory that orders accesses to different locations only through fences (CK_MD_RMO), no writer holds a reader-writer cohort lock (WP, RP, NEUTRAL) together with another writer or a reader, and whatever a holder loads is the value stored last.", "quantifier": "every number of threads and cohorts, every interleaving, every choice of stale values the memory model allows", "why_tests_cant": "The writer takes the lock and looks for readers, the reader announces itself and looks for writers; both can miss the other only if the processor reorders a store and a load, which x86 does not do across locked instructions.", "anchors": ["include/ck_rwcohort.h:CK_RWCOHORT_WP_PROTOTYPE,CK_RWCOHORT_RP_PROTOTYPE,CK_RWCOHORT_NEUTRAL_PROTOTYPE"]}
{"id": "C85", "title": "Stack on relaxed memory", "statement": "On a memory that orders accesses to different locations only through fences (CK_MD_RMO), the results of ck_stack_push, pop, trypush, trypop and batch_pop (UPMC, with entries pushed once; MPMC, with popped entries pushed again by whoever popped them) are those of a LIFO stack in the order of the successful operations; a pop that returns NULL does so at a time when the stack was empty and after all operations of its own thread; batch_pop hands over the whole content in order; and the thread that popped an entry loads from it what was stored there last.", "quantifier": "every number of threads, every set of entries, every interleaving, every choice of stale values the memory model allows", "why_tests_cant": "On x86 the fences do nothing; that a stale next pointer or a stale head together with a fresh generation loses or duplicates an entry shows only on other processors and only in a window of a few instructions.", "anchors": ["include/ck_stack.h:ck_stack_push_upmc,ck_stack_trypush_upmc,ck_stack_pop_upmc,ck_stack_trypop_upmc,ck_stack_batch_pop_upmc,ck_stack_pop_mpmc,ck_stack_trypop_mpmc"]}
{"id": "C86", "title": "Ring with many producers or consumers on relaxed memory", "statement": "On a memory that orders accesses to different locations only through fences (CK_MD_RMO), a ring used by many producers and/or many consumers (ck_ring_enqueue_mpmc, dequeue_mpmc, trydequeue_mpmc, and the spmc and mpsc combinations) is a bounded FIFO queue: the j-th dequeue returns what the j-th enqueue was given, nothing is dequeued that was not enqueued, no slot is overwritten before it was dequeued; an enqueue fails only if the ring was seen full, a dequeue only if it was seen empty; whoever dequeues an object loads from it what was stored there last.", "quantifier": "every ring size, every number of producers and consumers, every interleaving, every choice of stale values the memory model allows", "why_tests_cant": "The counters p_head, p_tail and c_head are handed from one thread to the next; a processor on which the order of two stores of one thread is not preserved for a third one shows failures that x86 cannot show.", "anchors": ["include/ck_ring.h:_ck_ring_enqueue_mp,_ck_ring_enqueue_reserve_mp,_ck_ring_enqueue_commit_mp,_ck_ring_dequeue_mc,_ck_ring_trydequeue_mc,_ck_ring_enqueue_sp,_ck_ring_dequeue_sc"]}
{"id": "C87", "title": "Lists with concurrent readers on relaxed memory", "statement": "On a memory that orders accesses to different locations only through fences and address dependencies, while one thread inserts and removes elements of a CK_SLIST, CK_STAILQ or CK_LIST, any number of threads may run CK_*_FOREACH under safe memory reclamation (no element is inserted again while a reader is active that could know it): what a traversal visits was in the list at some time since the reader's section began, no element is visited twice, a traversal that ends has visited every element that was in the list all the time, and what a reader loads from an element is not older than what was stored there when the element was inserted.", "quantifier": "every sequence of insertions and removals at any position, every number of readers, every interleaving, every choice of stale values the memory model allows", "why_tests_cant": "The single fence between initialising an element and linking it is all that protects a reader without locks; whether it suffices depends on address dependencies and on which stale pointers a traversal can mix, which a test on x86 never shows.", "anchors": ["include/ck_queue.h:CK_SLIST_INSERT_AFTER,CK_SLIST_INSERT_HEAD,CK_SLIST_REMOVE_AFTER,CK_SLIST_FOREACH,CK_STAILQ_INSERT_TAIL,CK_STAILQ_REMOVE_AFTER,CK_STAILQ_FOREACH,CK_LIST_INSERT_AFTER,CK_LIST_INSERT_BEFORE,CK_LIST_INSERT_HEAD,CK_LIST_REMOVE,CK_LIST_FOREACH"]}
{"id": "C88", "title": "Single-producer single-consumer fifo on relaxed memory", "statement": "On a memory that orders accesses to different locations only through fences and address dependencies, ck_fifo_spsc with one producer that recycles entries is a FIFO queue: the values are dequeued in the order in which they were enqueued, none twice and none that was not enqueued; a dequeue fails only if the consumer knows of no enqueue that is not matched, ck_fifo_spsc_isempty called by the producer is true only if the fifo is empty; ck_fifo_spsc_recycle returns an entry only after the consumer has left it and only once; what the consumer loads from a dequeued object is not older than what was stored there when it was enqueued.", "quantifier": "every sequence of calls with entries reused in any order, every interleaving, every choice of stale values the memory model allows", "why_tests_cant": "The consumer has no load fence and the producer no acquire fence in recycle; whether the one store fence and dependencies suffice when entries are reused cannot be seen on x86.", "anchors": ["include/ck_fifo.h:ck_fifo_spsc_init,ck_fifo_spsc_enqueue,ck_fifo_spsc_dequeue,ck_fifo_spsc_recycle,ck_fifo_spsc_isempty"]}
{"id": "C89", "title": "Lock elision: sections are serializable, unlock matches lock", "statement": "With CK_ELIDE_LOCK, CK_ELIDE_LOCK_ADAPTIVE and CK_ELIDE_TRYLOCK and the matching unlock on a spinlock or a ck_rwlock, sections that ran in transactions and sections that ran with the lock behave as if they had run one after the other: every load of a completed section returns what the sections before it have stored; a section in a transaction never sees a state of the data in the middle of a section that has the lock; readers and writers that have the lock exclude each other; unlock releases the lock if the caller has it and ends the transaction if the caller is in one, and a section is entered through trylock only if the caller then has one of the two, with and without hardware transactions.", "quantifier": "every number of threads, every interleaving, every abort at any point for any reason, every sequence of loads and stores in the sections", "why_tests_cant": "Needs hardware transactions and aborts at chosen points; the interplay of elided and real owners depends on the read set of the lock predicate.", "anchors": ["include/ck_elide.h:CK_ELIDE_PROTOTYPE,CK_ELIDE_TRYLOCK_PROTOTYPE", "include/ck_rwlock.h:ck_rwlock_write,ck_rwlock_read", "include/ck_spinlock.h:ck_spinlock"]}
{"id": "C90", "title": "Adaptive lock elision: bounded effort, configured forfeits", "statement": "CK_ELIDE_LOCK_ADAPTIVE returns with a transaction or calls the lock function after a bounded number of transactions and of loads of the lock predicate that depends only on the configuration, whatever the aborts; n_fallback counts the aborted transactions and n_elide the sections that completed in one; after an abort with the lock busy, by another explicit abort or by a conflict, the number of sections given by skip_busy, skip_other or skip_conflict is run without trying a transaction.", "quantifier": "every configuration, every sequence of calls, aborts and statuses", "why_tests_cant": "Aborts cannot be provoked at will and the policy counters are not visible in results.", "anchors": ["include/ck_elide.h:_ck_elide_fallback,ck_elide_lock_adaptive,ck_elide_unlock_adaptive"]}
{"id": "C91", "title": "Hash function of ck_ht: no collision between keys that differ in one block", "statement": "With the default hash function two keys of the same length that differ within one aligned block of eight bytes, or only in the bytes after the last whole block, have different hash values for every seed; so distinct keys of a table in direct mode, and distinct keys of the same length up to eight bytes, never have the same hash value. One key has different hash values for different seeds.", "quantifier": "every key of every length, every seed, little- and big-endian machines with 64-bit words", "why_tests_cant": "There are 2^64 direct keys and as many seeds.", "anchors": ["src/ck_ht_hash.h:MurmurHash64A", "src/ck_ht.c:ck_ht_hash,ck_ht_hash_direct,ck_ht_hash_wrapper"]}
{"id": "C92", "title": "Byte lock on relaxed memory", "statement": "On a memory that orders accesses to different locations only through fences, while a thread has the write lock of a ck_bytelock no other thread has the read or the write lock, for slotted and unslotted readers, upgrades of slotted readers and downgrades of slotted writers; a holder loads the value of the last store of any writer to the protected data, and a writer the value of the last store of every reader made while it had the read lock. read_lock takes the path of a downgrade exactly if the caller has the write lock. Each of the seven fences is needed.", "quantifier": "every number of threads with distinct slot numbers, every interleaving, every choice of stale values the memory model allows", "why_tests_cant": "Reader and writer announce themselves and look for each other in different words; on x86 the atomic instructions hide missing fences.", "anchors": ["include/ck_bytelock.h:ck_bytelock_write_lock,ck_bytelock_write_unlock,ck_bytelock_read_lock,ck_bytelock_read_unlock"]}
{"id": "C93", "title": "Fences order what their names say on every architecture", "statement": "On every supported architecture and for every memory model the library can be configured for, each function ck_pr_fence_* makes the processor perform the accesses its manual page names before it in program order before those it names after it, where an atomic read-modify-write operation counts as a store (for ck_pr_fence_lock also as the load that took the lock). So of two threads that each update a word of their own with an atomic operation, call ck_pr_fence_atomic_load and load the word of the other, at least one sees the update of the other.", "quantifier": "every architecture with a header in include/gcc, every configuration, every program and every order in which the processor may perform its accesses", "why_tests_cant": "One machine runs one architecture, x86 machines do not show missing fences, and a reordering that the architecture allows may never happen on the chips at hand.", "anchors": ["include/ck_pr.h:ck_pr_fence_load,ck_pr_fence_store,ck_pr_fence_memory,ck_pr_fence_lock,ck_pr_fence_unlock", "include/gcc/arm/ck_pr.h:CK_PR_FENCE", "include/gcc/aarch64/ck_pr.h:CK_PR_FENCE", "include/gcc/ppc64/ck_pr.h:CK_PR_FENCE", "include/gcc/riscv64/ck_pr.h:CK_PR_FENCE", "include/gcc/sparcv9/ck_pr.h:CK_PR_FENCE", "include/gcc/x86_64/ck_pr.h:CK_PR_FENCE"]}
{"id": "C94", "title": "Atomic operations in assembly are atomic and compute what they say", "statement": "On the architectures whose atomic operations are loops of load-linked and store-conditional, every ck_pr_cas, fas, faa, inc, dec, not, neg, add, sub, and, or, xor takes effect in one indivisible step between its call and its return, also with plain loads and stores of the same object by other threads; the new value is the operation applied to the old value, as integers of the width of the object; compare-and-swap returns true exactly if it has replaced the object, and the value it returns is the value the object had. The same holds for the compare-and-swap of two words. The two-word load of x86-64 returns the contents and changes nothing.", "quantifier": "every operation and operand, every width of object and register, every number of threads, every interleaving, every loss of reservations", "why_tests_cant": "The code differs by architecture and is not compiled on others; races within three instructions and reservations lost at a given point cannot be provoked.", "anchors": ["include/gcc/aarch64/ck_pr_llsc.h:ck_pr_cas_64_2_value,CK_PR_CAS,CK_PR_BINARY", "include/gcc/arm/ck_pr.h:CK_PR_CAS,CK_PR_BINARY,CK_PR_UNARY", "include/gcc/ppc64/ck_pr.h:CK_PR_CAS,CK_PR_BINARY", "include/gcc/ppc/ck_pr.h:CK_PR_BINARY", "include/gcc/riscv64/ck_pr.h:CK_PR_CAS,CK_PR_SUB", "include/gcc/s390x/ck_pr.h:CK_PR_UNARY_X", "include/gcc/x86_64/ck_pr.h:ck_pr_load_64_2", "include/ck_stack.h:ck_stack_pop_mpmc"]}
{"id": "C95", "title": "Hash set readers on relaxed memory", "statement": "On a memory that orders accesses to different locations only through fences, ck_hs_get running concurrently with one writer (put, set, fas, apply, remove, gc) returns what the set contained for the key at some time since the reader last synchronized with the writer; in particular a key that is in the set from then on is found, wherever set, apply, fas and gc move it, and a removed or replaced object that the reader has been told about is not returned.", "quantifier": "every hash function and probe sequence, every number of keys and readers, every interleaving, every choice of stale values the memory model allows", "why_tests_cant": "Needs a lookup during the move of one entry on a machine that reorders stores; x86 machines do not.", "anchors": ["src/ck_hs.c:ck_hs_get,ck_hs_map_signal,ck_hs_set,ck_hs_gc,ck_hs_fas,ck_hs_apply,ck_hs_map_bound_set"]}
{"id": "C96", "title": "Robin-hood hash set readers concurrent with the writer", "statement": "ck_rhs_get running concurrently with one writer (put, set, fas, apply, remove) returns what the set contained for the key at some time since the reader last synchronized with the writer, on relaxed as on strongly ordered memory; in particular a key that is in the set from then on is found, however often it is displaced by insertions or shifted back by removals, and a removed or replaced object that the reader has been told about is not returned.", "quantifier": "every hash function, capacity, number of keys and readers, every interleaving, every choice of stale values the memory model allows", "why_tests_cant": "Needs a lookup that overlaps the shift of just its key, with a hash that has bits between the capacity and 1024; or a machine that reorders stores or loads.", "anchors": ["src/ck_rhs.c:ck_rhs_get,ck_rhs_put_robin_hood,ck_rhs_do_backward_shift_delete,ck_rhs_map_bound_set,ck_rhs_get_first_offset,ck_rhs_set,ck_rhs_fas,ck_rhs_apply"]}
{"id": "C97", "title": "Array readers on relaxed memory", "statement": "On a memory that orders accesses to different locations only through fences, a reader that calls ck_array_buffer concurrently with the one writer (put, remove, commit) and then loads the values finds exactly a committed content of the array, not older than the reader's last synchronization with the writer; ck_array_length returns the length of such a content.", "quantifier": "every number of values and readers, every interleaving, every choice of stale values the memory model allows", "why_tests_cant": "x86 machines do not reorder the loads; elsewhere the race is a few instructions wide.", "anchors": ["include/ck_array.h:ck_array_length,ck_array_buffer", "src/ck_array.c:ck_array_put,ck_array_remove,ck_array_commit"]}
{"id": "C98", "title": "Event count on relaxed memory", "statement": "On a memory that orders accesses to different locations only through fences: when ck_ec_value, or ck_ec_wait returning 0, has loaded the counter as stored by an increment or later, the caller sees everything the incrementing thread had stored before that increment; successive calls of a thread never see an older counter; and a thread asleep in ck_ec_wait waits for the counter's newest value or is about to be woken.", "quantifier": "every number of threads (each producer and consumer), every interleaving, every choice of stale values the memory model allows; 32-bit event counts with multiple producers", "why_tests_cant": "x86 machines do not reorder the loads; elsewhere the race is a few instructions wide.", "anchors": ["include/ck_ec.h:ck_ec32_value,ck_ec32_inc,ck_ec32_add_mp,ck_ec32_wait", "src/ck_ec.c:ck_ec32_wait_pred_slow,ck_ec32_upgrade,ck_ec32_wait_easy,ck_ec32_wait_slow_once,ck_ec32_wake"]}
{"id": "C99", "title": "Hash table readers on relaxed memory", "statement": "On a memory that orders accesses to different locations only through fences, ck_ht_get_spmc concurrent with the one writer (put, set, remove, gc) returns for a key only a value that this key had at some moment since the reader's last synchronization with the writer, never the value of another key.", "quantifier": "every set of keys and values, number of slots and readers, every interleaving, every choice of stale values the memory model allows", "why_tests_cant": "x86 machines do not reorder the loads; elsewhere a slot has to be reused between two adjacent loads.", "anchors": ["src/ck_ht.c:ck_ht_get_spmc,ck_ht_map_probe_rd,ck_ht_set_spmc,ck_ht_put_spmc,ck_ht_remove_spmc,ck_ht_gc"]}
{"id": "C100", "title": "MPMC fifo on relaxed memory", "statement": "On a memory that orders accesses to different locations only through fences and loads through pointers, with each entry enqueued once: ck_fifo_mpmc_dequeue returns the enqueued values in the order of the enqueues, each at most once and never garbage; the thread that dequeues a pointer sees everything the enqueuing thread had stored to the object; a dequeue that finds the queue empty has not missed a value whose enqueue happened before; head and tail are never NULL.", "quantifier": "every number of threads, entries and values, every interleaving, every choice of stale values the memory model allows", "why_tests_cant": "x86 machines do not reorder the stores; the outcome depends on one thread moving the tail for another between two of its instructions.", "anchors": ["include/ck_fifo.h:ck_fifo_mpmc_enqueue,ck_fifo_mpmc_tryenqueue,ck_fifo_mpmc_dequeue,ck_fifo_mpmc_trydequeue,ck_fifo_mpmc_init"]}
{"id": "C101", "title": "Hash set iteration concurrent with the writer", "statement": "An iteration with ck_hs_next_spmc while the writer changes the set returns only objects that were in the set at some instant since the iteration, or the operation of the writer in progress at its start, began; and when it ends it has returned every object that was in the set all the time exactly once.", "quantifier": "every hash function, table and sequence of operations of the writer (with or without growth, refused allocations), every interleaving of the stores of the writer with the loads of the iteration", "why_tests_cant": "An entry has to move between two adjacent loads of the iteration; the regression tests iterate only while nobody writes.", "anchors": ["src/ck_hs.c:_ck_hs_next,ck_hs_iterator_init,ck_hs_next_spmc,ck_hs_gc,ck_hs_set,ck_hs_fas,ck_hs_grow"]}
{"id": "C102", "title": "Hash set statistics are exact", "statement": "Called by the writer between operations, ck_hs_stat reports the number of keys in the set, the current number of tombstones, and a maximum probe length that no lookup exceeds and within which every key is found.", "quantifier": "every hash function, allocator (including what the memory it returns contains) and sequence of operations of the writer", "why_tests_cant": "A test sees a sensible number of tombstones whenever malloc happens to return zeroed memory and the slots are not reused.", "anchors": ["src/ck_hs.c:ck_hs_stat,ck_hs_map_create,ck_hs_remove,ck_hs_apply,ck_hs_count", "doc/ck_hs_stat"]}
{"id": "C103", "title": "Pointer packing in the hash sets", "statement": "With pointer packing an object stored in a hash set comes back as the same address, is never taken for an empty or deleted entry, and is found, iterated and moved to a larger table exactly as without packing, for every address of fewer than CK_MD_VMA_BITS bits and every hash.", "quantifier": "every CK_MD_VMA_BITS between 33 and 63, every address other than NULL and the last one, every hash, every comparison callback that agrees with a key, every table", "why_tests_cant": "The collision of a packed word with one of the two special words, or of the stored bits of a hash with others, needs particular addresses and hashes; the build with pointer packing is not the default and tests use a handful of heap addresses.", "anchors": ["src/ck_hs.c:ck_hs_marshal,ck_hs_map_probe,ck_hs_grow,_ck_hs_next", "src/ck_rhs.c:ck_rhs_marshal", "include/ck_hs.h:CK_HS_KEY_MASK"]}
{"id": "C104", "title": "ck_stack and ck_fifo_mpmc are lock-free", "statement": "However threads are scheduled, and wherever some of them are stopped for ever, the operations on a stack or an MPMC fifo keep completing: the number of steps taken by all threads inside operations is bounded by a constant (depending on the number of threads) times the number of operations that have returned. A thread that runs alone from any point ends its operation within a fixed number of steps.", "quantifier": "every number of threads, every schedule, every mix of operations; stack: every mode, also immediate reuse and batch pops; fifo: entries reused as C36 requires", "why_tests_cant": "A livelock or a thread blocked by a stopped one needs a schedule that the system scheduler does not produce on demand; a test that terminates says nothing about other schedules.", "anchors": ["include/ck_stack.h:ck_stack_push_upmc,ck_stack_pop_upmc,ck_stack_push_mpmc,ck_stack_pop_mpmc", "include/ck_fifo.h:ck_fifo_mpmc_enqueue,ck_fifo_mpmc_dequeue"]}
{"id": "C105", "title": "ck_hp_stack and ck_hp_fifo are lock-free", "statement": "However threads are scheduled, wherever some of them are stopped for ever, and whatever the hazard pointer calls of the client do, the operations on a hazard pointer stack or fifo keep completing: the number of steps taken by all threads inside operations is bounded by a constant (depending on the number of threads) times the number of operations that have returned. A thread that runs alone from any point ends its operation within a fixed number of steps, and no step of it ever waits.", "quantifier": "every number of threads, every schedule, every mix of operations, registrations, retirements and reclamations; ck_hp_fifo_trydequeue_mpmc only if no entry is enqueued while a trydequeue has loaded but not yet published it (without that it crashes, C39)", "why_tests_cant": "A livelock or a thread blocked by a stopped one needs a schedule that the system scheduler does not produce on demand; a test that terminates says nothing about other schedules.", "anchors": ["include/ck_hp_stack.h:ck_hp_stack_push_mpmc,ck_hp_stack_pop_mpmc,ck_hp_stack_trypop_mpmc", "include/ck_hp_fifo.h:ck_hp_fifo_enqueue_mpmc,ck_hp_fifo_dequeue_mpmc"]}
{"id": "C106", "title": "Progress of ck_ring as documented: wait-free single-producer enqueue and single-consumer dequeue, lock-free multi-consumer dequeue", "statement": "ck_ring_enqueue_spsc, ck_ring_enqueue_spmc, ck_ring_dequeue_spsc and ck_ring_dequeue_mpsc return after a number of their own steps fixed by the entry size, whatever other threads do in between, and no step of them waits; so does ck_ring_trydequeue_spmc. ck_ring_dequeue_spmc and ck_ring_dequeue_mpmc are lock-free: the steps of all dequeues together are bounded by a constant times the number of dequeues that have returned, also if producers or consumers are stopped half-way for ever. ck_ring_enqueue_mpmc makes no such promise: a producer that stops between reservation and commit blocks every later one for ever.", "quantifier": "every ring size, entry size, number of threads and schedule, every quiescent starting state, all wraps of the counters", "why_tests_cant": "A schedule in which an operation starves or blocks is not produced on demand by a test; a test that terminates says nothing about other schedules.", "anchors": ["include/ck_ring.h:_ck_ring_enqueue_sp,_ck_ring_dequeue_sc,_ck_ring_dequeue_mc,_ck_ring_trydequeue_mc,_ck_ring_enqueue_mp", "doc/ck_ring_enqueue_spsc", "doc/ck_ring_enqueue_spmc", "doc/ck_ring_dequeue_spsc", "doc/ck_ring_dequeue_spmc"]}
{"id": "C107", "title": "Lookups in ck_hs and ck_ht never wait for the writer", "statement": "ck_hs_get and ck_ht_get_spmc, running concurrently with the single writer, can always make their next load; they start again only because the writer has stored to a generation (ck_hs) or deletion count (ck_ht) during the lookup. The number of loads of a lookup is bounded by (1 + the number of those stores during it) times (the largest probe bound it has loaded + a constant), and if the writer is stopped for ever in the middle of any operation, every lookup returns.", "quantifier": "every table, every number of readers, every schedule, every operation of the writer including growth and garbage collection, stopped anywhere", "why_tests_cant": "Whether a lookup can starve or block depends on the schedule of its loads against the writer's stores; a test sees a few schedules and no stopped writer.", "anchors": ["src/ck_hs.c:ck_hs_get", "src/ck_ht.c:ck_ht_get_spmc", "README.md:ck_hs"]}
{"id": "C108", "title": "ck_rwlock, ck_swlock and ck_brlock are write-biased", "statement": "Once a writer has announced itself (set its flag or bit) and waits for the readers to leave, no reader acquires the lock before the writer does; only readers of ck_brlock that hold the lock already can nest. In ck_rwlock and ck_swlock the wait is bounded: readers make at most 3n (2n) steps while they are in the way of the waiting writer, and when none is left the writer enters with its next step (two for a latch), so an endless stream of readers cannot keep a writer out.", "quantifier": "every number of readers and writers, every schedule, trylocks included", "why_tests_cant": "Writer starvation shows only in schedules where readers keep arriving at the right moments; a test that ends says nothing about them.", "anchors": ["include/ck_rwlock.h:ck_rwlock_write_lock", "include/ck_swlock.h:ck_swlock_write_lock", "include/ck_brlock.h:ck_brlock_write_lock", "doc/ck_rwlock:90", "doc/ck_swlock:75", "doc/ck_brlock:71"]}
{"id": "C109", "title": "Preference and wait limit of the reader-writer cohort locks", "statement": "CK_RWCOHORT_WP: while a writer holds the cohort lock no reader is let in; CK_RWCOHORT_RP: while a reader is counted no writer is let in. In both, a thread of the other side raises the barrier after at most wait_limit + 1 rounds of its wait, and from then until it is let in at most n acquisitions of the preferred side succeed (each thread that had passed the barrier, once). With wait_limit equal to the largest unsigned int the barrier is never raised.", "quantifier": "every number of cohorts and threads below 2^32, every local pass limit, every wait limit, every schedule, locks that may report locked spuriously", "why_tests_cant": "The barrier matters only when the preferred side keeps arriving for more than wait_limit rounds; tests do not produce such schedules on purpose nor cover all of them.", "anchors": ["include/ck_rwcohort.h:CK_RWCOHORT_WP_PROTOTYPE", "include/ck_rwcohort.h:CK_RWCOHORT_RP_PROTOTYPE", "doc/ck_rwcohort:37", "doc/CK_RWCOHORT_INIT:44"]}
{"id": "C110", "title": "Progress of ck_sequence: writers never wait, readers repeat at most once per write section", "statement": "No step of a writer of a sequence lock depends on the readers. A reader repeats its section at most once for every write section that begins while it reads, and gets through at the first attempt when none is open or begins. ck_sequence_read_begin waits exactly while a write section is open, however long that lasts.", "quantifier": "every width of the sequence word, every number of readers, every list of loads and stores, every schedule", "why_tests_cant": "Blocking and the number of repetitions depend on the schedule; a test samples few and never stops a writer inside its section.", "anchors": ["include/ck_sequence.h:ck_sequence_read_begin", "include/ck_sequence.h:ck_sequence_read_retry", "include/ck_sequence.h:ck_sequence_write_begin", "doc/ck_sequence:55"]}
{"id": "C111", "title": "Bounded overtaking in the queueing locks, none in the others", "statement": "From the moment a thread has taken its place in a ticket, Anderson, CLH or MCS spinlock, or its ticket as a writer of a ck_pflock, the other threads acquire the lock (get their turn) at most n - 1 times in all before it does, trylocks included. FAS, CAS and DEC spinlocks give no such bound: a thread that keeps trying can be passed any number of times.", "quantifier": "every number of threads up to the capacity of the lock, every schedule, every earlier number of acquisitions", "why_tests_cant": "Unfairness is a property of rare schedules; a test with a few threads sees the scheduler of its machine and cannot bound the worst case.", "anchors": ["include/spinlock/ticket.h:ck_spinlock_ticket_lock", "include/spinlock/anderson.h:ck_spinlock_anderson_lock", "include/spinlock/clh.h:ck_spinlock_clh_lock", "include/spinlock/mcs.h:ck_spinlock_mcs_lock", "include/ck_pflock.h:ck_pflock_write_lock", "include/spinlock/fas.h:ck_spinlock_fas_lock", "include/spinlock/cas.h:ck_spinlock_cas_lock", "include/spinlock/dec.h:ck_spinlock_dec_lock"]}
{"id": "C112", "title": "Bounded overtaking in the task-fair lock", "statement": "While a writer of a ck_tflock waits with its request made, the other threads acquire the lock at most n - 1 times in all, as readers or as writers: only requests made before its own are served before it. While a reader waits, writers acquire the lock at most n - 1 times. An endless stream of requests of either kind keeps nobody out.", "quantifier": "fewer than 2^15 threads, every schedule, every number of past requests (the 16-bit counters wrap)", "why_tests_cant": "The worst case over all schedules is not seen in a test run, and the order at a wrap needs 2^15 requests first.", "anchors": ["include/ck_tflock.h:ck_tflock_ticket_write_lock", "include/ck_tflock.h:ck_tflock_ticket_read_lock", "doc/ck_tflock"]}
{"id": "C113", "title": "ck_bytelock is write-biased", "statement": "From the moment a writer of a ck_bytelock has stored its slot in owner until it is inside, no reader acquires the lock; the threads that do not spin make at most 6n steps in that time, and the writer enters within C + 2 steps of its own (C chunks of reader bytes) once no other thread is inside, has its byte set or is counted. An endless stream of readers cannot keep a writer out.", "quantifier": "every number of threads and chunks, slotted and unslotted, every schedule, upgrades and downgrades included", "why_tests_cant": "Writer starvation shows only in schedules where readers keep arriving at the right moments; a test that ends says nothing about them.", "anchors": ["include/ck_bytelock.h:ck_bytelock_write_lock", "include/ck_bytelock.h:ck_bytelock_read_lock"]}
{"id": "C114", "title": "ck_cohort gives the global lock back after local_pass_limit acquisitions", "statement": "While a cohort keeps the global lock, its threads acquire the cohort lock at most local_pass_limit times in all (once if the limit is 0), through lock and trylock together, no matter how many of them are waiting. Every acquisition of the cohort lock happens while the cohort has the global lock, so none escapes the count.", "quantifier": "every number of cohorts and threads below 2^32, every limit, every schedule", "why_tests_cant": "A counter that is reset at the wrong place or compared the wrong way lets one cluster keep the lock for ever, but only when its threads keep arriving; a test run sees a lock that works.", "anchors": ["include/ck_cohort.h:ck_cohort_lock", "include/ck_cohort.h:ck_cohort_unlock", "include/ck_cohort.h:ck_cohort_trylock"]}
{"id": "C115", "title": "ck_ht_stat reports the number of keys and the longest search", "statement": "ck_ht_stat reports in n_entries the number of keys in the table and in probe_maximum the longest probe sequence of a search: no ck_ht_get_spmc compares its key with more than probe_maximum entries, after any sequence of put, set, remove, grow, gc and reset.", "quantifier": "every hash function, workload and entry layout, every sequence of operations and allocation results", "why_tests_cant": "The bound is kept by hand in put, set, grow and gc; a value that is too small shows only for the right collisions followed by the right removals.", "anchors": ["src/ck_ht.c:ck_ht_stat", "src/ck_ht.c:ck_ht_map_bound_set", "src/ck_ht.c:ck_ht_gc"]}
