# Design: a machine-checked model of Concurrency Kit (ck)

Subject: the C sources in `/repo` (headers in `include/`, sources in `src/`), read as
text.  Nothing of `/repo` is built or executed.

## 1. How the code is modelled

* **Transition systems** (`Verif/Core/Sys.lean`).  A concurrent algorithm is a
  `Sys S A`: a set of initial states and a *computable, partial, deterministic*
  `step : S → A → Option S`.  An action `A` names the thread that moves (and, where
  the client decides something, the client's choice: which operation to start, which
  value, which node).  One step = one atomic memory access of the C code (a load, a
  store, one RMW instruction) together with the thread-local computation up to the
  next access.  `Reach` is reachability by any finite sequence of actions, so a theorem over
  `Reach` is a theorem about every schedule of every length.
  Spinning is a step that leaves the state unchanged (or is not enabled).
* **Number of threads** is a parameter `n` (or the thread type is an arbitrary type when
  counting is not needed); it is never a literal.
* **Machine integers**: `BitVec w` (or `UInt32`-like arithmetic mod 2^w) wherever wrap-around
  matters: ticket, anderson, pflock, tflock, ring, rwlock counters, sequence, dec, epoch.
  Where only equality of an unbounded *history* matters, ghost counters in `Nat` are kept
  beside the machine word; ghost state never influences a step.
* **Pointers** are node identifiers of an arbitrary type; `Option` = nullable.
  Memory that the client may free or reuse is modelled with explicit reuse, and an
  access the C standard or the lock protocol forbids is a distinct outcome, not a default.
* **Sequential code** (bitmap, hash tables viewed by the writer, lists, arrays,
  time arithmetic, integer helpers) is modelled by total functions on
  explicit memory (`Nat → Word`, arrays, heaps), one Lean function per C function.
* **Specifications** (`Spec` files, or the spec section heading each theorem file) are
  independent of the model: mutual exclusion over "who is inside", arrival-order lists,
  abstract FIFO/LIFO queues, finite sets/maps, mathematical sums.
  Linearizability is trace inclusion in a *canonical atomic object*
  (`Verif/Core/Lin.lean`: each call is invoked, atomically performed once, then returns).
* **Concrete cases.** Next to each theorem an `example` runs the model on a literal
  non-trivial schedule by `decide`/`rfl`, showing that the hypotheses are inhabited.

## 2. Trusted base

* The Lean 4.33.0 kernel; axioms at most `propext`, `Classical.choice`, `Quot.sound`
  (checked with `#print axioms`, listed per theorem in section 5 when it deviates).
* **Memory model**: sequentially consistent interleaving of atomic accesses.  `ck_pr_fence_*`,
  `ck_pr_stall`, `volatile` and compiler barriers are no-ops in the models.  Hence a *missing fence* is
  not detected by these theorems, except in `Verif/Weak/*` (C69 and later).
* **Relaxed memory** (`Core/Weak.lean`, used in `Verif/Weak/*`): the view-based operational model of C11 relaxed accesses
  and fences. Every location keeps all its values in store order; every thread has a view, the oldest value of each location
  it may still load; fences move what loads have learned into the view and what was stored into the messages stored later.
  Trusted: the reading of `ck_pr_fence_*` in that file; loads do not return values that depend on later stores of the
  same thread (no load buffering); racing stores to one location take effect in the order of execution.
* `ck_pr_load/store/cas/fas/faa/inc/dec/...` are assumed to be single atomic accesses (C59 proves this
  for the CAS-loop fall-backs of `include/ck_pr.h`); the per-architecture assembler
  under `include/gcc/*` is not modelled.
* Transcription of C into Lean is by hand; each definition cites the lines.
* Not modelled: elision wrappers (`ck_elide.h`), RTM, `ck_cc.h`, `ck_malloc` implementations, build system,
  `ck_spinlock` selection macros, futex/OS behaviour beyond the abstract wait/wake used for C55.

## 3. Properties: what is modelled, how it is proved

* **C01** — `Spin/Simple.lean`: fas.h, cas.h, dec.h step machines. Invariant: lock word ↔ existence of an owner (DEC: word = 1 − pending decrements, as BitVec 32).
* **C02** — `Spin/Ticket.lean`: both words BitVec 32, ghost Nat counters; invariant: outstanding tickets are pairwise different and lie in [position, next).
* **C03** — Same model with ghost arrival list; acquisitions are a prefix of arrivals.
* **C04** — `Spin/Anderson.lean`: `next` BitVec 32, wrap correction as in code; invariant: index = ghost counter mod count, exactly one open slot.
* **C05** — Expected violated for non-power-of-two counts: witness + positive theorem for powers of two (partial).
* **C06** — `Spin/Clh.lean`: heap of nodes, ghost queue; invariant: queue links are the `previous` pointers, nodes are distinct.
* **C07** — `Spin/Mcs.lean`: heap of nodes, ghost queue.
* **C08** — `Spin/Hclh.lean`: one step per shared access of lock and unlock, any number of threads, clusters, nodes; nodes are
  recycled as unlock hands them back. Ghost state: `Q`, the spliced unreleased threads in global order; `L k`, the joined unspliced
  threads of cluster `k`. Invariant (`HclhInv`): the `previous` pointers of a cluster chain through `Q` restricted to it and `L k`; every
  thread in `Q` waits for the thread before it (a master globally, the others locally); a node ends a batch iff `splice` is set or
  its master, which is in front of it in `Q`, is about to set it. `HclhLoc`: what the loads of lines 97-105 imply. The holder is the
  head of `Q`. Hypothesis: a thread always passes its own cluster's queue (`mig = false`); otherwise `migration_breaks_exclusion`.
  `ck_spinlock_hclh_locked` is not modelled.
* **C66** — same model: arrivals and entries per cluster are logged; entries are a prefix of arrivals. Progress by a rank on the
  program counter of the thread next in line.
* **C09** — `Rw/Rwlock.lean`: counting invariant over `Fin n`.
* **C10** — `Rw/RwRecursive.lean`: as C09 plus the owner's depth `wc`.
* **C11** — `Rw/Pflock.lean`: 32-bit words rin/rout with 2 low bits, ghost counters.
* **C12** — Same model: bounded-bypass invariant.
* **C13** — `Rw/Tflock.lean`: packed counters, ghost counters, arrival order.
* **C14** — `Rw/Swlock.lean`: counting invariant; latch modelled.
* **C15** — `Rw/Brlock.lean`: list of readers with flags.
* **C16** — `Rw/Bytelock.lean`; the unslotted downgrade is expected to be a violation (witness), positive theorem for slotted use.
* **C17** — `Rw/Cohort.lean`: global and local locks as abstract mutexes (any correct lock).
* **C18** — Same; expected violated with trylock (witness), proved without trylock.
* **C19** — `Rw/RwcohortWp.lean`.
* **C20** — `Rw/RwcohortRp.lean`.
* **C21** — `Rw/RwcohortNeutral.lean`.
* **C22** — `Rw/Sequence.lean`: BitVec 32 counter, data words, arbitrary read order.
* **C23** — `Barrier/Centralized.lean`: counting invariant with per-thread episode counters.
* **C24** — `Barrier/Combining.lean`: the breadth-first insertion of `group_init` (proved to give a complete binary tree) and the recursive arrival as an explicit stack; members of a group (threads and child groups) carry arrival counters.
* **C25** — `Barrier/Dissemination.lean`: flags per (parity, round); progress counters per thread.
* **C26** — `Barrier/Tournament.lean`: roles as set by `init`; progress counters per thread and round.
* **C27** — `Barrier/McsBarrier.lean`: the arrival (4-ary) and wake-up (binary) trees; progress counters per thread.
* **C28** — `Ring/Ring.lean` (one model for all variants, 32-bit wrapping counters, entries copied chunk by chunk), `Ring/Inv.lean` (invariant), `Ring/Thm.lean`: forward simulation to the canonical bounded queue; the SPSC theorem assumes nothing about the number of operations.
* **C29** — Same; the executions are those in which no snapshot falls `2^32` behind (`Fresh`).
* **C30** — Same; `Ring/More.lean`: every reserved slot has a thread filling it, so the recorded occupancy of a failing enqueue is queue length plus slots held by other enqueues.
* **C31** — `Ring/More.lean`: any reachable state with all threads stopped; `Ring/Wit.lean`: `ck_ring_valid`/`ck_ring_repair` on SP rings and after a wrap (witnesses).
* **C32** — `Stack/Stack.lean` (model), `Stack/Thm.lean`: forward simulation to a LIFO list, one atomic access per step; `Stack/Nc.lean`: `push_mpnc` (chain intact once no push is between swap and link) and the sequential variants.
* **C33** — same model, mode `mpmc`: entries may be pushed while pops hold their address; the generation (64 bits, ghost without wrap) excludes ABA.
* **C34** — violated (`batch_pop_mpmc_aba`: a run whose history hands out an entry twice); mode `mpmcSafe` (reuse only when no pop holds the address) proved as `mpmc_batch_linearizable_partial`.
* **C35** — `Fifo/Spsc.lean`: every access one step, list segment invariant over garbage / dummy / queue, linearizable to an unbounded FIFO; recycling returns only nodes before the dummy.
* **C36** — `Fifo/Mpmc.lean` (model), `MpmcThm` (linearizable if no node is enqueued under a running operation that holds it; `_partial`), `MpmcTry` (tail lags at most one node, when the `try` variants may fail), `MpmcWit` (two executions with immediate reuse that are not linearizable).
* **C37** — `Smr/Hp.lean` (registration, slots, retire/free, the reclaim scan load by load with its cache overflow, purge; object life cycle as ghost), `Smr/HpInv.lean` (a validated slot's object is never past a scan that missed it), `Smr/HpThm.lean` (protection, exactly-once destruction, completeness, wait-free scan), `Smr/HpUse.lean` (lemmas for clients), `Smr/HpWit.lean`.
* **C38** — `Smr/HpStack.lean` (contains a whole hazard pointer system; every stack step takes at most one step of it), `Smr/HpStackThm.lean`: linearizable to the LIFO list, dereferences only undestroyed entries, `never_stuck` (hazard pointer guards are never what stops an operation), `Smr/HpStackWit.lean`.
* **C39** — `Smr/HpFifo.lean`, `HpFifoInv`, `HpFifoThm`, `HpFifoLin`: as C38; the linearization point of an empty dequeue is only known in hindsight (`Core/Hind.lean`). Violated by `trydequeue` (`HpFifoWit.trydequeue_null`), hence `_partial`: all operations, but if `trydequeue` is used no entry is reused inside its unprotected window.
* **C40** — `Smr/Epoch.lean` (model: every shared access of `ck_epoch_begin/end/call/call_strict`, `poll`, `synchronize`, `barrier`,
  `register/recycle/unregister` is a step; epochs are naturals, every test is on residues mod 2^32; a `Cfg` says which uses are
  allowed), invariants in layers `EpochInv` (ownership), `EpochCnt` (`active` and bucket counts against the open sections),
  `EpochBnd` (record epochs and the global epoch against the epochs of the open sections and what each scanner has passed),
  `EpochSync`, `EpochCall` (deferrals), `EpochOnce` (places of deferrals); theorems `EpochThm`, executions `EpochWit`. Trace statement: no end of `z` since the call
  ⇒ `x` not run. Partial: false for callbacks that defer on the record being dispatched (`callback_defers`) and for `NULL` sections mixed with section objects.
* **C41** — same model, `synchronize_waits_partial`; only the mix is excluded (`mix_sync`).
* **C42** — violated: `strict_poll`, `strict_barrier`. Proved for owners that poll inside a section and use no barrier.
* **C43** — same model, `record_epoch_le`: the record's epoch stays at most the epoch at which any still open section was entered.
* **C44** — `Bitmap/Bitmap,Word,Thm,IterThm.lean`: 32-bit words, out-of-buffer accesses are `none`; `Rep b S` relates a bitmap to a finite set with clear unused tail bits; one theorem per operation and a refinement over arbitrary sequences of calls on families of bitmaps. Partial: `ck_bitmap_union` with a longer source can set tail bits (witness `union_spills`).
* **C45** — `Bitmap/IterThm.lean`: each `next` returns the least remaining bit; whole loop yields the sorted elements.
* **C46** — `Bitmap/Conc.lean`: word updates either indivisible or CAS loops, any number of threads, linearizable to independent booleans; ghost counters give exactly one `bts` winner.
* **C47** — `Ht/Hs.lean` (every operation as the list of stores it performs, probe sequences as functions of hash, mask and step), `Ht/HsInv.lean`, `Ht/HsOps.lean` (invariant kept by every single store), `Ht/HsThm.lean`: refinement to a finite map for arbitrary histories, hash functions and allocation outcomes; refusals only after a failed allocation (or some thirty doublings in one call). `map->tombstones` is left out here (see C102). `ck_internal_power_2` takes 32 bits, so a requested capacity above `2 ^ 31` is truncated (`capOf_large`).
* **C48** — `Ht/HsRead.lean`: readers load by load between the stores of the writer; full linearizability (which is stronger than C48) of readers and writer through `Core/Hind.lean` (reads whose linearization point is only known in hindsight: a simulation for every choice of which reads have taken effect with which seen value). `Ht/HsWit.lean`: executions, one with a retry.
* **C49** — `Ht/Ht.lean` (model of `src/ck_ht.c`, direct mode, store by store), `HtInv.lean` (invariant between operations),
  `HtThm.lean` (`refines_map_partial`: refinement of a map for every history with a contract on `put`), `HtWit.lean`
  (`put_duplicates`: put of a present key behind a tombstone stores it twice).
* **C68** — `Ht/HtStep.lean` (what every single store keeps, with ghost state: contents, moved slot, hidden slot), `HtOps.lean` (every operation
  is a sequence of such stores), `HtRead.lean` (readers load by load; `linearizable_partial` through `Core/Hind.lean`), `HtRdWit.lean`
  (negations without the contract). Direct mode only; `deletions` does not wrap.
* **C76** — `Ht/Bytes.lean`: packing and comparison as in the C code; `stop_iff_partial` (comparison = equality of strings), lifted to the probes and
  to `ck_ht_get_spmc` on the model of C49 with strings for keys. Violated for distinct strings at one address (`get_confused`).
* **C69** — `Weak/Sequence.lean`: one writer, any number of readers, any number of data words, counter of `w` bits. A message of the counter
  carries the data of the write section before (write_end), a data message carries the counter of its section (write_begin);
  so a reader that saw data of a section reloads a newer counter. Four runs show that no fence can be left out.
* **C70** — `Weak/Ring.lean`: one producer, one consumer, memory of the producer's own (`usr`). Invariant: message `j` of `p_tail` carries
  the slots and the producer's memory up to value `j`; the producer overwrites a slot only after it has seen `c_head` beyond it,
  so the consumer can load only one value there. Two runs show that no fence can be left out.
* **C71** — `Weak/Fas.lean`: fas.h and cas.h. Invariant: the newest message of the lock word, or the holder, carries all data.
  `Weak/Dec.lean`: dec.h with a lock word that wraps; while the lock is held every waiting thread has decremented at most once since it was taken (`Taken`), so the word does not come round to 1.
* **C72** — `Weak/Ticket.lean`: the two-word variant, width `w`. Message `k` of `position` is `k mod 2^w` and carries the data of the first `k`
  sections; with at most `2^w` requests a ticket names one message. For every width `wrap_breaks_exclusion` is a run of `2^w + 1` requests
  in which a delayed thread loads a position of the round before.
* **C73** — `Weak/Rwlock.lean`, `RwlockThm.lean`: all operations. The full fences of reader and writer are totally ordered, so one of the two sees
  the other's announcement (`chkf`); a reader that loads `writer = 0` has loaded it from the newest completed section on (`lw`, `lu`, `base`).
* **C74** — `Weak/Barrier.lean`, `BarrierThm.lean`: rounds (`separation`) need only coherence of `sense`. Visibility is violated by the code as it is
  (`stale_after`: no fence before the increment); proved with a release fence of the caller: the counter collects the views of all arrivals
  (release sequence), line 48 passes them on with `sense`.
* **C75** — `Weak/Hp.lean`, `HpThm.lean`: client contract "the retiring thread knows all links to the node to be overwritten". Violated by the code as it is
  (`protected_destroyed`: no full fence before the hazard pointers are loaded); proved with one: of the two full fences one is first
  (`chkret`). Memory of destroyed nodes is reused. One hazard pointer per thread; registration is not part of the model.
* **C50** — `Rhs/Thm.lean`: violated by deletions through `ck_rhs_apply` (`count_wrong`); `count_partial` bounds the error by their number.
* **C67** — `Rhs/Rhs.lean` (model of `src/ck_rhs.c` with probe numbers, `wanted` counters, probe bounds and `in_rh` flags), `Geo.lean`
  (probe sequences), `Inv.lean` (every counter as a function of the entries), `Loops.lean`, `Put.lean` (displacement chains and their undoing),
  `Del.lean` (backward shift), `Grow.lean`, `Ops.lean`, `Thm.lean` (`refines_map_partial`). Partial: tables small enough that `probe_limit` stays below
  `CK_RHS_WORD_MAX` and `wanted` does not saturate; calls that return. Beyond that an object can be lost (`Lost.lean`: `lost_object`).
* **C51** — `Array/Array.lean` (operations as lists of single stores on a heap of buffers), `Array/Thm.lean` (each operation against a multiset with a committed version), `Array/Reader.lean` (readers load by load). Violated: `ck_array_remove` with pending additions overwrites a committed slot (`remove_pending_visible`); `CK_ARRAY_FOREACH` reloads `active` on every access (`foreach_mixes`, `foreach_overrun`). Proved for all other executions; `free`/`realloc` with `defer` keep the old buffer readable (assumed; `realloc` is called before the pointer is replaced, so the deferral must be counted from the store).
* **C52** — `Array/Thm.lean`: violated whenever a removal is pending (`put_trans_wrong`), proved otherwise.
* **C53** — `Queue/Queue.lean` (the macros as lists of single stores), `Queue/Thm.lean`: every macro maps a representation predicate (path, back pointers, tail pointer) to that of the changed sequence, and touches nothing else (`Frame`). `CK_STAILQ_SWAP` assigns to a non-lvalue (289 ff.) and has no model; `CK_SLIST_REMOVE_PREVPTR` uses an identifier `prevptr` that is not its parameter.
* **C54** — `Queue/Reader.lean`: one writer store by store, any number of readers load by load; invariant: a total order of all cells seen since the start of a traversal along which all pointers lead forward without skipping a live element. `Queue/Flavors.lean`: the insert/remove macros of the three list kinds satisfy the protocol. Assumes of the writer what safe memory reclamation gives: no reinsertion of an element that a running traversal may have seen.
* **C55** — `Ec/Ec.lean` (one model over a word format, `F32` and `F64`; futex as compare-and-sleep in one step, sleepers may return at any time), `Ec/Word.lean` (laws of the two formats), `Ec/Thm.lean`: invariant "a sleeper would still be let sleep, or a producer is between update and wake". 32 bits: unconditional. 64 bits: the futex compares half of the word, violated after `2 ^ 31` increments (`lost_wakeup64`), proved below that. Single-producer mode: update = load + store, wake-ups can be lost (`sp_lost_wakeup`).
* **C56** — `Ec/Wait.lean`: invariant along the steps of one call. Violated (`wait_zero_wrong32/64`), proved if no producer is between update and flag clearing when the call begins.
* **C63** — `Ec/Backoff.lean`: the inner loop as a relation; termination, bounds; hang for a scale factor at most `2 ^ shift` and sleeping past the caller's deadline as witnesses.
* **C64** — `Ec/Wait.lean`: linearizability (`Core/Lin.lean`) of add/inc/value in both producer modes and both widths.
* **C57** — `Misc/TimeUtil.lean`: Int/BitVec arithmetic.
* **C58** — `Misc/Internal.lean`.
* **C59** — `Misc/CasLoop.lean`: linearizability (`Core/Lin.lean`) of the CAS loops, any number of threads and operations.
* **C60** — `Misc/Backoff.lean`; violated (witness).
* **C62** — `Bitmap/Word.lean`: the portable `ffs`/`ctz`/`popcount` loops.
* **C61** — `Misc/CasLoop.lean`; violated on 64-bit pointers (witness `inc_ptr_zero_wrong`); `inc_ptr_zero_partial` characterises the values at which the report is right.

* **C65** — same model, `runs_once`, `not_lost` (no restriction on uses).

* **C77, C78** — `Core/Drain.lean`: `Drains own Q s`, "steps of calls in progress and releases can lead to `Q`"; `Progress/*.lean` prove it on
  the existing models from every reachable state by a measure: whenever some call is in progress, one enabled step makes it smaller
  (lexicographic where waiting loops depend on a writer's word). The negations (`upgrade_deadlock`, `self_deadlock`, `trylock_deadlock`)
  are reachable states in which every such step is disabled or changes nothing. Spurious wake-ups and fairness are not needed: the claim is that
  a completing schedule exists, not that every scheduler finds it.
* **C79** — `Core/Tso.lean` (store buffers), `Tso/Epoch.lean`: `ck_epoch_begin/end`, `synchronize`, `scan`, `poll` as compiled for `CK_MD_TSO`;
  client pointers are plain buffered stores; proved in `Tso/EpochThm.lean` by an invariant (what a scan has passed has loaded at least its epoch;
  who held a retired node at the call has at most the epoch of the call, and less after the first tick). `Weak/Epoch.lean`,
  `Weak/EpochThm.lean`: the same functions on the relaxed memory of C69-C75, every fence a flag. Simplified: records are registered before,
  no nesting, no section objects, epochs do not wrap, no callbacks.
* **C80** — `Weak/Mcs.lean`, `Weak/Clh.lean`, `Weak/Anderson.lean`: program counters and ghost arrival order of the sequentially consistent models (C04, C06, C07), every load
  returns any value the views allow. Proved in `Weak/McsThm.lean`, `Weak/ClhThm.lean`, `Weak/AndersonThm.lean`: the old invariant holds of the newest values (`abs`), and a
  second invariant (`VInv`) says how stale a load can be at each program point; `Weak/Put.lean` has the shared lemmas.
  Anderson needs a counting argument (`pigeon`): among the last `c` positions one is the thread's own or two belong to one thread, whose second
  position passes on that the slot was closed.
* **C81** — `Weak/Pflock.lean`, `Weak/Tflock.lean`: program counters, words and ghost state of the sequentially consistent models (C12, C13) on views. Proved in
  `Weak/PflockThm.lean`, `Weak/TflockThm.lean`: the old invariant holds of the newest values, a second one (`V`) bounds the staleness of loads. The words wrap, so that
  a stale counter can look current. The task-fair lock excludes this by its full fences (lines 88, 115): every thread passes one between two completions, so
  a waiter misses at most one earlier completion per thread (`V.few`), and `n < 2^14` suffices; without the fence a reader enters beside a writer after 2^15 sections
  (`no_fence_al`). The phase-fair lock has no such fence, there loads are assumed to lag by less than `2^24 - n` stores (parameter `lag`; `wrap_breaks` shows that
  the memory model alone does not exclude it). Not covered: `and rin`, `faa wout` in write_unlock (lines 77, 80) out of order, which only a
  machine with load buffering could do. `Weak/Swlock.lean`, `Weak/SwlockThm.lean`: the single-writer lock (C14) on views. The loads of lines 113, 132, 158, 177 may be stale: the
  writer waiting at line 113 sees no value older than its own `or`, so a value without readers is final (`V.z`); a reader whose increment the latch swallowed sees the
  writer bit until unlatch (`V.lk`). Readers store to a word of their own, which the writer must see after line 116 or 135 (`wreads_last`).
* **C82** — `Weak/Brlock.lean`, `Weak/BrlockThm.lean`: reader and writer announce themselves (`n_readers`, `writer`), pass a full fence, then look for the other.
  Invariant `Inv.fc`: a reader after its fence either sees the writer's `fas`, or the writer sees the reader's store. The writer visits the readers one after the other;
  `Inv.sn`: a reader it has passed is outside and stays there. `lq`, `lr` bracket the last section of a reader: a 0 loaded by the writer is not older than its release,
  so that the writer also sees what the reader stored. Fixed set of registered readers (the list is in C15).
* **C83, C84** — `Weak/Cohort.lean`, `Weak/CohortThm.lean`: any number of cohorts, local and global locks are FAS locks. The ghost `tok` says who has the global lock (nobody, a
  thread, a cohort); its owner's view, or the view attached to the lock it will be taken from, covers all data (`K`). `Core` is about the cohort lock, `Rw` about
  readers; `Rw` has the facts that need the writer's full fence under a hypothesis `H`, so that one invariant gives NEUTRAL and the mutual exclusion for the
  code as it is, and WP/RP with the fence added. Whether the lock is passed on is left open (any choice).
* **C85** — `Weak/Stack.lean`, `Weak/StackThm.lean`: both modes, the `try` variants, `batch_pop` and the traversal of its result; the client's data in an entry is a location. The log of
  operations (in the order of the stores to `head`) is replayed by an independent list specification (`lifo`); `empty_seen` places a NULL result in that log, `batch_exact` compares the
  traversal with the log. Invariant: `next` of an entry in the stack ("live") does not change and every later value of `head` carries it (release sequence); `gc i` counts the pops before
  value `i` of `head`, so that a popper whose `generation` is still the newest also has a `head` whose entry is live. Without any of the four fences the properties fail (`no_fence_*`,
  the one for `generation` is an ABA). Simplified: `generation` does not wrap; an entry is reused only by its popper, and not after `batch_pop`.
* **C86** — `Weak/Mpmc.lean`, `Weak/MpmcThm.lean`: one model for MPMC, SPMC, MPSC (and SPSC) with `2 ^ k` slots, counters are natural numbers, objects with data travel through the ring.
  `K` says what a fence for stores does: nothing, order the thread's own stores, or be cumulative. With cumulative fences: FIFO by ticket numbers, bounds, right `false` results, visible
  data. Invariant: value `i` of `p_tail` carries the slots and the data of the objects below `i` (`Kn`), value `c` of `c_head` carries `p_tail ≥ c` (`Kc`). With fences that order only
  the thread's own stores it fails (`weak_*`): line 387 (306) must also order what the loop of line 380 (303) has seen, line 467 (433, 247) what line 456 (423, 229) has seen.
* **C87** — `Weak/Lists.lean`, `Weak/ListsThm.lean`: a writer and any number of readers on the view-based memory; an insertion is two stores with `ck_pr_fence_store` between them, a removal is one store, positions are cells (`Queue.Cell`).
  A reader carries the view `dv` that came with the pointer it holds (address dependency); sections model safe memory reclamation.  Specification: `hist k`, the content after `k` changes, compared with `Path` over the newest values (`content`).  Proof: for every reader a duplicate-free
  list that contains all elements that were in the list since the section began, ordered so that every pointer value the reader may still load leads forward and skips only what was removed or not yet inserted.  Witnesses: without the fence (`no_fence`), without dependencies (`no_dep`).
* **C88** — `Weak/Spsc.lean`, `Weak/SpscThm.lean`: `ck_fifo_spsc` step by step on the view-based memory; pointers the consumer follows carry the view of their store (address dependency, also through its own store of `head`), entries are reused only after `recycle` returned them (`free`).
  Specification: the lists `put` and `got`; `content` compares the newest values with a list from `head` to `NULL`.  Proof: `ent k` (entry of the `k`-th enqueue) is injective from `garbage` on, `next` of each of them holds `NULL` and then the following entry, with a view that contains value, `next` and data of that entry.
  Witnesses: without the fence (`no_fence`), without dependencies (`no_dep`).  Not in the model: that a load may be delayed after a later store of the same thread (the fence in line 155 prevents it).
* **C89** — `Misc/Elide.lean`, `Misc/ElideThm.lean`: threads, a fas spinlock or a `ck_rwlock` step by step, hardware transactions with read and write sets, conflict aborts and spurious aborts, sequentially consistent memory (RTM exists on x86 only).
  Spec: `run`, the loads and stores of the sections one after the other. Invariant: who is in an elided section has the lock words in its read set and sees them free. Partial, see section 4. Not modelled: nesting, the ticket, cas and dec spinlocks, `ck_swlock` (same macros).
* **C90** — `Misc/ElideAdaptive.lean`: `_ck_elide_fallback` and the loop of `lock_adaptive` for one thread against an arbitrary environment; invariant on `retry` and the number of attempts. Partial, see section 4.
* **C91** — `Ht/Murmur.lean`: `MurmurHash64A` on lists of bytes and `BitVec 64`. Multiplication by the odd constant has an inverse, `x ^ (x >> 47)` is its own inverse, so the state after each block is a bijective function of the state before and of the block; induction over the blocks.
* **C92** — `Weak/Bytelock.lean`, `Weak/BytelockThm.lean`: as C82, with a word per slotted reader, the counter `n_readers` for the others, upgrade (the slot is cleared after the compare and swap) and
  downgrade (the slot is set before `owner` is cleared). Two invariants are new: all messages of `n_readers` since a reader entered are positive and pass on what earlier readers stored, and in the downgrade, where
  `ck_pr_fence_strict_store` orders the caller's own stores only, the data and the words of the readers are either the caller's own stores or were already part of its release view after the full fence in `write_lock`.
  `rw_exclusion`, `reads_last`, `wreads_last`, `downgrade`; without any one of the seven fences a run breaks one of them (`no_fence_*`).
* **C93** — `Misc/Fence.lean`: the tables of `ck_pr.h` (which fences are emitted for TSO, PSO, RMO) and of the architecture headers (which instruction), the meaning of the instructions as pairs of parts of accesses
  they order, and executions as arbitrary orders of the parts that respect these and the order the hardware keeps. `Right a h md f` says that for all programs and executions the pairs named in the manual page (`asked`) are
  in order. `right_partial` by a check of the whole table, `handshake_partial` for the pattern of two threads used in the reader-writer locks and the epoch code; `arm_fails`, `handshake_fails` for the exception.
  `atomic_reads`, `lock_store`: what is not guaranteed.

**C94 Atomic operations in assembly.** `Misc/LlSc.lean`: one word, a monitor (reservation) per
thread that any store clears and that may be lost at any time; an operation is a loop around
`f : W → Option W`. `atomic`: linearizable (Core/Lin) to "read, apply `f`, return what was read" for
every `f`, together with plain loads and stores; failed compare-and-swap takes effect with its last
load. `Misc/LlScReg.lean`: what the instructions compute in registers wider than the object
(`bin`, `unary`, `ppc_partial`, `cas_partial`, `cas_double_partial`), for all widths.
`Misc/LlScPair.lean`: `ldxp` as two loads; the result and the effect of the two-word
compare-and-swap are linearizable (`atomic`), the returned pair is right on success and word by
word otherwise (`value_partial`, `value_success`). `Misc/LlScUse.lean`: consequence for the stack,
`ck_pr_not` of s390x, two-word load of x86-64. Partial: see the deviations. Simplified: sequentially
consistent; operands of `short` and `char` are in registers extended as their type says.

**C95 Hash set readers on relaxed memory.** `Weak/HsRead.lean`: the stores of all operations of the writer that
readers can see (bound, put, replace, move in three stores, delete), `ck_hs_get` load by load on the view-based memory; any
probe sequences, counters and bounds, which may collide. Spec: a history of contents (`hist`) and what was there when the reader
last synchronized. `Weak/HsReadThm.lean`: for every generation a reader may still load there is a slot on the path of a key that stays, which the reader
knows, or comes to know with that generation, and whose later values are the key or carry a newer generation (`Item`, `Good`); bounds too carry a newer generation or
reach that slot. `Weak/HsReadWit.lean`: executions; the missing fence, and that the three others are needed.

**C96 Robin-hood hash set readers concurrent with the writer.** `Weak/RhsRead.lean`: the writer as a sequence of the stores that readers can see: bounds, the hole
(an empty slot or that of a removed entry), copying an entry into the hole and incrementing a generation, filling and clearing the hole, replacing in place; `ck_rhs_get` load by load on the
view-based memory (in-order and sequentially consistent executions are among those). Two indices of the generation per key, as in the code (`geo`). Spec: a history of contents, as in C95.
`Weak/RhsReadThm.lean`: as in C95, but entries move both ways, bounds are raised and lowered and slots become empty again: whoever finds an empty slot before the entry or a bound below it
learns of a newer generation (`Known`, `Item`). `Weak/RhsReadWit.lean`: executions, and the functions of `Rhs/Rhs.lean` on the same keys.

**C97 Array readers on relaxed memory.** `Weak/Array.lean`: buffers, `active`, `n_committed` and values as locations of the memory of C58; the writer as the stores readers can see (a superset of
what put, remove and commit do: values beyond the committed ones, anything to a buffer that is not active); readers load `active`, `n_committed` and the values one by one. `ArrayThm.lean`: for each
reader, buffer it may load and number it may load there, the values it may find then are a committed content since its last `sync` (`RInv.act`), kept by each step of the writer (`WStep`). `length_ok`,
`buffer_partial`, `buffer_fixed`; `hist_now` ties the ghost contents to the memory. `ArrayWit.lean`: the deviation, executions for the hypotheses, every fence is needed. Not modelled: freeing buffers,
failing allocation (C51), `CK_ARRAY_FOREACH` (C52).

**C98 Event count on relaxed memory.** `Weak/Ec.lean`: the 32-bit event count with many producers on the memory of C58, each load of `ck_ec32_wait_pred_slow` a step of its own, the four fences as
parameters; the futex compares with the newest value and sleeps in one step, and may return at any time. `EcThm.lean`: message `i` of the counter carries what the producers of all messages up to `i`
had stored (`Inv.cum`), hence a thread that has loaded it and passed a fence has it (`reads_new`); `seen_mono`, `wait_zero`, `no_lost`; `write_own`, `add_log`, `log_fixed` tie the ghost log to the
stores. `EcWit.lean`: every fence is needed; executions with sleep and wake-up; the deviation of C56 on this model (`wait_zero_same`). Not modelled: 64-bit layout, single-producer mode, deadlines,
predicates.

**C99 Hash table readers on relaxed memory.** `Weak/HtRead.lean`: key and value of each slot and `deletions` as locations of the memory of C58; the writer as the stores readers can see, with any choice
of empty slot or tombstone; readers run `ck_ht_get_spmc` load by load and may look at any slots. `HtReadThm.lean`: for each reader and each message of a key it may load, every value it may load then is
one the key had since the reader's last `sync`, or comes with a count of deletions from after the reuse (`Pair`, `Out`, `Torn`), kept by each step of the writer (`WStep`). `get_some_fixed`,
`get_some_partial`, `value_there`; `b_sync` and `hist_fixed` pin down the bookkeeping. `HtReadWit.lean`: the deviation, executions for the hypotheses, every fence is needed. Not modelled: byte-string mode,
growth, wrap of the counter, lookups that find nothing (C68 has them on sequentially consistent memory).

**C100 MPMC fifo on relaxed memory.** `Weak/MpFifo.lean`: `head`, `tail`, `next` and `value` of every entry and the objects as locations of the memory of C58; each thread runs the four functions load by load;
a generation loaded on its own is arbitrary (a superset of what the code can do). A load through a pointer is ordered after the load of the pointer, and a stored pointer passes on what came with it (`dep`); a
compare and swap of two words exists only for x86_64, arm and aarch64, where this holds. `MpFifoThm.lean`: message `j` of `head` or `tail` is entry number `j`, with a view that has its initialization
(`C`); what each thread knows (`T`, `K`); each compare and swap appends (`C.move`, `C.link`). Theorems `fifo`, `look_ok`, `empty_ok`, `ptr_ok`, for every choice of the fences other than the one in the
enqueue; `put_log`, `got_log` pin down the bookkeeping. `MpFifoWit.lean`: runs, both hypotheses are needed. Not modelled: reuse of entries (C36).

**C101 Hash set iteration concurrent with the writer.** `Ht/HsIter.lean`: the writer and readers of C48, and an iterator that loads the map and then slot by slot. Ghosts: the contents at every instant
since the start, and the operations that overlap. Invariant: every object in the current map and in the iterator's map was a member at some instant (`IInv.cur`, `.old`); an object that stays and is not
moved is in exactly one slot of the iterator's map and was returned iff that slot has been passed (`At`), kept by each store of the writer (`at_exec`) because a store that moves it can only come from the
operations that `quiet` excludes (`mvOk_prog`; for `ck_hs_apply` because it stores nothing if the function returns the object that is there). `HsIterWit.lean`: the deviations, executions for the
hypotheses.

**C102 Hash set statistics.** `Ht/HsStat.lean`: `map->tombstones` on top of the writer of C48, with the contents of freshly allocated memory as an input of the step. A balance (`bal_exec`) between the
reported number, the tombstones in the table, the initial garbage and the reused tombstones is kept by every store; maps that are published have no tombstones (`pub_prog`). `entries` and `probes` come
from the invariant of C48.

**C103 Pointer packing in the hash sets.** `Ht/HsPack.lean`: `ck_hs_marshal`, `CK_HS_VMA`, `CK_HS_KEY_MASK` (with the widths of their shifts), the comparison of the probe, and on top of them the probe loop, `ck_hs_next`,
the loop of `ck_hs_grow` and the stores of the writer on arrays of 64 bit words. `read` says what a word stands for (by division, not by the macros). Refinement: each function on words gives what the abstract model of C47
gives on `read` of the words (`probe_words`, `store_words`, `grow_words`, `next_words`), and every store of every operation is of the form `store_words` asks for (`marshalled`). The packing of `ck_rhs` is the same text; its probe is
not repeated on words. Not modelled: 32 bit words with `CK_MD_VMA_BITS` 32 (what `configure`, line 814, chooses), where `(h >> 25) << CK_MD_VMA_BITS` is undefined.

**C104 Lock freedom.** `Progress/Lf.lean` adds counters to any system: steps of operations, calls, returns. `lock_free` (`Progress/StackLf.lean`, `Progress/FifoLf.lean`) bounds the steps of all operations by a constant times
(returned + threads), for every execution of the models of C32-C34 and C36; a stopped thread is one that is not scheduled any more. Proof: a potential, which every call raises by the constant, every step lowers and no return raises;
it sums over the threads the steps left if nobody interferes, what a success costs the attempts of the others, and for the fifo what moving a lagging `tail` costs. `alone_returns` is obstruction freedom with a number.
The bounds are not tight. Failed compare-and-swaps of LL/SC machines without a reason are not modelled. Waiting is not excluded per thread: the operations are not wait-free.

**C105 Lock freedom with hazard pointers.** `Progress/HpStackLf.lean`, `Progress/HpFifoLf.lean`: the statements and the potential of C104 on the models of C38 and C39, with the client's hazard pointer calls interleaved anywhere.
An attempt is stale if its copy of `head`, `tail` or `next` differs from the shared word, so no version counter is needed. For the fifo an extra invariant (`inv3`): copies of `tail` held by enqueues are not ahead of `tail`, hence
`tail` is never more than one entry behind. That a step never waits for the hazard pointer calls is `never_stuck` of C38 and C39.

**C106 Progress of the ring.** `Progress/RingLf.lean`, `Progress/RingLfWit.lean`, on the model of C28 to C31. Wait freedom (`WaitFree`): in every execution after the call in which the thread has not returned to its caller, it has
made at most `b` steps, and it is at its return or can make the next step; proved with a rank that every step of the thread brings down and no other step touches. Lock freedom of the dequeues with the potential of C104 (an attempt is
stale if its copy of `c_head` differs from `c_head`); enqueues are not counted, so it holds with producers stopped anywhere. `enqueue_mp_blocked`: whatever runs, no enqueue with a later reservation than that of a stopped producer returns (`enqueue_mp_blocks`: such a state is reachable in a ring with room).

**C107 Readers never wait.** `Progress/HsLf.lean`, `Progress/HtLf.lean`, `Progress/HsLfWit.lean`, on the models of C48 and C68 with any writer (no contract). Counters are added for the lookup in progress: its loads, the largest probe
bound loaded, the generation stores since the call. Invariant: loads <= (stores - those missed by this attempt) * (bound + 6) + the position in the attempt; an attempt that fails has missed at least one. With the writer stopped the
loads left go down with every load (`get_alone`).

**C108 Write bias.** `Progress/Bias.lean`, `Progress/BiasWit.lean`, on the models of `Rw/`. `no_reader_enters` for the three locks. For `ck_rwlock` and `ck_swlock`, `moves` counts the steps that readers make in the way of a waiting
writer along any list of actions; it is bounded by the sum of the ranks (3 before the increment, 1 while reading), which no step raises while the flag is set. `wait_ends`: with nobody in the way the writer enters.

**C109 Cohort preference.** `Progress/CohortBias.lean`, `Progress/CohortBiasWit.lean`, on the models of C19 and C20. `writers` (`readers`) counts, along any list of actions, the acquisitions of the preferred side while the barrier of a
given thread is up: bounded by the number of threads past the barrier test, which cannot grow because the barrier counter is positive. `stalls` counts the rounds of the wait before the barrier is raised; invariant: `wait_count` is at
most `wait_limit` until then.

**C110 Sequence lock progress.** `Progress/Sequence.lean`, on the model of C22. `retries` and `sections` count, along any list of actions, the repeated read sections of a reader and the write sections that begin; a section that will be
repeated has seen a write section begin (parity of the count of stores), so each of these pays for one repetition.

**C111 Bounded overtaking.** `Progress/Bypass.lean`, on the models of C02-C07 and C11. `passes` counts, along any list of actions, the steps in which somebody acquires while a given thread waits, by looking at who waits and who holds
before and after. `Fifo.le` bounds it once for every lock whose ghost queue satisfies `QInv`. For FAS, CAS and DEC `bypass_unbounded` gives, for every `k`, a schedule with `k` overtakings in which the waiting thread tries once per round.
`wait_keeps` was added to C108: a mutant in which `write_lock` gives up had passed (M654).

**C112 Bounded overtaking in `ck_tflock`.** `Progress/TflockBypass.lean`, `passes` of C111 on the model of C13. The potential is the number of waiting threads whose requests were made before that of the waiting thread; who gets inside while
it waits is one of them (`Inv.fair`), and new requests come after it.

**C113 Write bias of `ck_bytelock`.** `Progress/ByteBias.lean`, on the model of C16, under its guard. As C108: `no_reader_enters_partial`, `moves` counted against a potential per thread (a reader that finds `owner` set takes its byte back
and spins), `wait_ends_partial` by induction over the chunks.

**C114 Local pass limit of `ck_cohort`.** `Progress/CohortPass.lean`, on the model of C17. `stay` counts acquisitions by one cohort along any schedule until it does not hold the global lock, without looking at
`acquire_count`; the invariant `Pass` says what the count is at each place between two releases of the local lock, and the bound is `max 1 limit - acquire_count`.

**C115 `ck_ht_stat`.** `Ht/HtStat.lean`, on the model of C49. The present-key bound is part of its invariant; `reads_le` needs that no per-bucket bound is above `probe_maximum` (`BLe`), kept by every operation, `ck_ht_gc` included.

## 4. Deviations found (each proved as a concrete execution or value, names of the theorems in brackets)

Spinlocks and friends
* `ck_spinlock_anderson_locked` is wrong about a held lock [`locked_wrong`].
* `ck_bytelock`: an unslotted reader/writer combination breaks exclusion [`unslotted_broken`].
* `CK_COHORT_TRYLOCK` leaks the global lock when the local one fails [`trylock_leak`]; `CK_COHORT_LOCKED` swaps its arguments (by reading).
* `ck_bytelock_write_lock` as an upgrade deadlocks against a plain writer [`upgrade_deadlock`]; after a failed `CK_COHORT_TRYLOCK` no thread of
  another cohort can acquire the lock [`trylock_deadlock`].
* `ck_sequence`: a reader overtaken by exactly `2 ^ 31` writes accepts torn data [`wrap_torn`].
* `ck_spinlock_hclh`: a thread that changes cluster between acquisitions breaks exclusion (the `cluster_id` of the queue's tail is
  read through a node that may have been recycled) [`migration_breaks_exclusion`].
* `CK_RWCOHORT_WP_WRITE_LOCK`, `CK_RWCOHORT_RP_WRITE_LOCK` have no store-load fence between CK_COHORT_LOCK and the load of `read_counter` (83, 186); where
  `ck_pr_fence_lock` does not order stores before loads (`lwsync`, ppc and ppc64) a reader and a writer hold the lock at once
  [`Weak.Cohort.wp_breaks`, `rp_breaks`].
* `ck_backoff_eb` exceeds its ceiling [`exceeds_ceiling`]; `ck_pr_inc_ptr_zero` fallback [`inc_ptr_zero_wrong`].

Event counts
* `ck_ec_wait` can return 0 although nothing changed [`wait_zero_wrong32/64`]; lost wake-ups of 64-bit counts and of the
  single-producer mode [`lost_wakeup64`, `sp_lost_wakeup`]; a scale factor at most `2 ^ shift` hangs [`no_growth_hangs`], sleeps past
  the caller's deadline [`oversleeps`]; `timespec_add` overflows and `wait_time_scale` shifts by more than the width (C57).

Containers
* `ck_bitmap_union` with a longer source sets bits past the end [`union_spills`, `iterator_beyond_length`].
* `ck_ring_valid`/`repair` reject or damage good rings [`valid_rejects_sp`, `repair_loses_sp`, `valid_rejects_wrapped`].
* `ck_stack_batch_pop_mpmc` is not ABA-safe with `ck_stack_push_mpmc` of reused entries [`batch_pop_mpmc_aba`].
* `ck_fifo_mpmc` with entries reused at once [`dequeue_reuse_wrong`, `enqueue_reuse_wrong`].
* `ck_array`: removals pending a commit [`remove_pending_visible`, `put_trans_wrong`], iteration across buffers
  [`foreach_mixes`, `foreach_overrun`], capacity overflow [`put_overflow`].
* `ck_hs`: capacities above `2 ^ 31` are truncated [`capOf_large`]; `tombstones` is never initialised.
* `ck_ht`: putting a present key behind a tombstone stores it twice [`put_duplicates`].
* `ck_ht_set_spmc` compares the value of the reused slot with the tombstone (line 880) where the key is meant, so a reader may return
  a value of another key [`torn_get`]; it stores an entry before it raises the probe bound, so a key can be found and then missed [`late_bound`].
* `ck_ht` in byte string mode takes a key at the same address for the same key before it compares lengths [`get_confused`]; with pointer packing
  and more than 48 address bits long keys are lost [`long_lost`].
* `CK_STAILQ_SWAP`, `CK_SLIST_REMOVE_PREVPTR` do not compile (by reading).
* `ck_rhs_apply` does not decrement `n_entries` when it deletes [`count_wrong`].
* `ck_rhs_do_backward_shift_delete` lowers a saturated probe bound although a further object of that hash exists (its search calls
  `ck_rhs_get_first_offset` with a probe number one too small), so `ck_rhs_get` misses an object in a table of 8192 slots [`lost_object`].
* `ck_rhs_fas` restarts on the map that `ck_rhs_put_robin_hood` has replaced and freed [`fas_stale`].
* `in_rh` of the first slot of a displacement chain stays set; the slot is never displaced again (by reading, performance only).

Safe memory reclamation
* `ck_hp_fifo_trydequeue_mpmc` loads `tail` before publishing `head`: it can store and dereference `NULL` [`trydequeue_null`].
* `ck_hp_unregister`, `ck_epoch_unregister` drop what is pending [`unregister_drops`].
* `ck_epoch_call_strict`: no grace period against `poll` and `barrier` of the owner [`strict_poll`, `strict_barrier`].
* A callback that defers on the record being dispatched may have the new deferral dispatched at once [`callback_defers`].
* `NULL` sections and section objects on one record: the record's epoch passes the `NULL` section [`mix_epoch`, `mix_sync`].
* On relaxed memory `ck_epoch_begin` has no fence after it has loaded the global epoch and stored it (157, 158; the comment in
  ck_epoch.c 49-53 has it there), and `ck_epoch_synchronize` none after the load of 443: a node in use is destroyed
  [`Weak.Ep.use_after_free`, `no_fence_begin`, `no_fence_load`]. TSO is not affected [`Tso.Ep.held`].
* `ck_epoch_dispatch` stores `n_peak` where `n_pending` is meant (386; by reading, statistics are not modelled).

Fences
* `ck_ring` with many producers or consumers needs `ck_pr_fence_store` and `ck_pr_fence_store_atomic` to be cumulative, which their documentation does not promise
  [`Weak.Mpmc.weak_enqueue`, `weak_dequeue`]; the processors that `ck` supports provide it.

Lock elision
* `CK_ELIDE_TRYLOCK` without hardware transactions returns `TL_P(lock)` (`ck_elide.h` 293), i.e. true if the lock is *taken*, and never calls `TL`, contrary to `doc/ck_elide` ("will immediately call TRYLOCK_FUNCTION")
  [`Misc.Elide.trylock_fails`, `trylock_free`].
* Elided read sections of `ck_rwlock` (204–206): the unlock predicate `ck_rwlock_locked_reader` is true if *any* reader has the lock, so an elided reader beside a real one decrements `n_readers` inside of its transaction and does not end it [`Misc.Elide.read_leak`].
  The documentation requires the predicate to say whether the caller has the lock. `ck_swlock` (214–216) is the same, by reading.
* `_ck_elide_fallback` returns at line 102 as long as retries are left, and the loop ends when there are none: with `retry_conflict > 0` (default: 5) lines 104–131 are never reached, `skip_*` and `retry_busy` have no effect [`Misc.ElideAdaptive.never_skips`, `skip_fails`];
  `retry_other` is not used at all. With `retry_conflict <= 0` and `retry_busy <= 0`, `while (--retry != 0)` waits until the lock is free [`spins_forever`].

Fences
* `include/gcc/arm/ck_pr.h` line 87 defines `ck_pr_fence_strict_atomic_load` as `dmb st` on ARMv7. That instruction orders stores with stores only, so the load after the fence may be
  performed before the store of the atomic operation before it. `ck_rwlock`, `ck_brlock`, `ck_bytelock`, `ck_rwcohort`, `ck_tflock`, `ck_epoch_begin` and the centralized barrier rely on the fence; a reader and a writer may
  both enter. The proofs on relaxed memory (C73, C79, C82, C84, C92) assume a full fence there, and show in `no_fence_*` that it is needed. AArch64 (line 70) has `dmb ish` [`Misc.Fence.arm_fails`, `handshake_fails`].

**Atomic operations (C94)**

* ppc and ppc64 `ck_pr_sub_ptr`: the template is `I old, delta, old`; the integer versions use
  `subf`, the pointer version `sub`, which computes `delta - old` (include/gcc/ppc64/ck_pr.h line
  365, ppc/ck_pr.h line 274). `ppc_sub_ptr_fails`.
* ARMv7 and AArch64 without LSE, `ck_pr_cas_short[_value]` (and `char` where signed): the object is
  loaded with zeros above, the operand is sign-extended, the comparison is of the whole registers.
  With a negative operand nothing is ever stored, but the function returns `previous == compare`,
  that is true. `cas_negative_fails`.
* AArch64 `ck_pr_cas_double[_value]`, ARMv7 `ck_pr_cas_double_value`: the loop compares bits, the
  result is `==` on doubles: NaN operands store and return false, zeros of different sign return
  true without storing. `cas_double_fails`.
* AArch64 without LSE, `ck_pr_cas_64_2_value` and `ck_pr_cas_ptr_2_value`: on a mismatch the two words
  of `ldxp` are returned without a successful `stxp`; they may be of different times. `value_fails`.
  `ck_stack_pop_mpmc` continues with the returned pair and can lose an entry (`LlSc.Stack.lost`);
  C33 holds on machines where the value of a failed two-word compare-and-swap is one snapshot.
* s390x `ck_pr_not_*`, `ck_pr_neg_*`: the object is read once for the new value and again for the
  comparison; unless the compiler merges the reads, an update in between is lost. `twice_fails`.
  (`ck_pr_fas_double` there exchanges the pointer variables, not the doubles; not modelled.)

**Hash set readers on relaxed memory (C95)**

* `ck_hs_map_signal` (ck_hs.c lines 97-106) increments the generation with a plain store and no fence between it and the store of the entry to its new place
  (lines 609-611, 665-667, 739-743, 787-798). On a machine that reorders stores a lookup may see the new generation twice, the tombstone at the new place and the tombstone at
  the old place: it returns NULL for a key that is in the set all the time (`get_none_fails`). A store fence at the beginning of `ck_hs_map_signal` is enough (`get_fixed`).

**Robin-hood hash set readers (C96)**

* `ck_rhs_put_robin_hood` and `ck_rhs_do_backward_shift_delete` (ck_rhs.c lines 976, 989, 1037) increment `generation[h & CK_RHS_G_MASK]` where `h` is the offset of the first slot of the moved entry
  (`ck_rhs_get_first_offset`, `ck_rhs_remove_wanted`), that is hash modulo capacity; `ck_rhs_get` (line 1412) watches `generation[h & CK_RHS_G_MASK]` where `h` is the hash. In a map of less than
  1024 slots these are the same counter only if the bits of the hash between the capacity and 1024 are zero (`geo_agree`). Capacity 8, objects with hashes 0 and 8 in slots 0 and 1: a lookup of
  the second loads slot 0, then the first is removed and the second shifted to slot 0, then the lookup finds slot 1 empty and its generation unchanged, and returns NULL for an object that is
  in the set all the time (`get_none_index_fails`; sequentially consistent, all fences).
* No fence between the store of an entry to its new slot and the increment of the generation (lines 975-976, 984-989, 1035-1037, 1114-1115, 1210-1221, 1287-1298): as in C95 (`get_none_fails`).
* `ck_rhs_get` loads the generation and the bound without a fence between them (lines 1413-1414): with the new generation and the old bound a displaced entry is missed (`get_none_bound_fails`).
  A load fence between the two is enough, the one after both is then not needed (`get_fixed` holds without `rd1`).

**Array readers on relaxed memory (C97)**

* `ck_array_buffer` loads `n_committed` and returns the address of the values without a load fence; the fence before `n_committed` orders nothing against the values. After `ck_array_put` and
  `ck_array_commit` in place, a caller on a machine that reorders loads (ARM, POWER, RISC-V; the comparison with the length orders nothing) may see the new length and load the value the slot had
  before: memory nobody has stored to [`Weak.Array.buffer_fails`], or a value that was removed before the commit [`Weak.Array.buffer_removed`]. A load fence after `n_committed` is enough
  [`Weak.Array.buffer_fixed`].

**Hash table readers on relaxed memory (C99)**

* `ck_ht_get_spmc` compares two loads of `deletions` to notice that a slot was reused meanwhile, but no load fence follows the first (line 791) or precedes the second (line 801). On a machine that
  reorders loads (ARM, POWER, RISC-V) the loads of the entry may move out of the bracket: the lookup of one key returns the value of another [`Weak.HtRead.get_some_fails`]. Each of the two fences, and
  the comparison of the key in line 881 (see C68), is needed [`no_fence_rd1`, `no_fence_rd2`, `no_set`]; together they are enough [`get_some_fixed`].

**Hash set iteration concurrent with the writer (C101)**

* `ck_hs_gc` moves entries within the map, without a sign for `ck_hs_next_spmc` (which does not look at the generation counters): an object that is in the set all the time may be skipped or returned
  twice [`Hs.Iter.missed`, `Hs.Iter.twice`]. `ck_hs_set` and `ck_hs_fas` with the object that is there do the same [`missed_set`, `missed_fas`].

**Hash set statistics (C102)**

* `ck_hs_map_create` does not initialise `map->tombstones`: with `malloc` as the allocator `ck_hs_stat` reports an indeterminate number of tombstones [`Hs.Stat.garbage`, `garbage_again`].
* Inserting a key into a tombstone does not decrement the counter, so even in zeroed memory it is not the "current number of tombstones" of `doc/ck_hs_stat` [`not_reset`].

**Byte lock bias (C113)**

* `ck_bytelock`: an unslotted reader enters while an unslotted writer, which came first, waits for the readers, and frees the lock under it [`bias_broken`, C113].

**Hash table statistics (C115)**

* `ck_ht_map_probe_rd` tests `probes++ > probe_maximum`, so a search that fails compares up to `probe_maximum + 1` entries, one more than the "longest read-side probe sequence" that `doc/ck_ht_stat` promises [`Ht.miss_longer`].

## 5. Status

The authoritative status per property is `MANIFEST.json`. Every property has at least a partial claim.
