import Verif.Smr.HpFifoLin
import Verif.Smr.HpWit

/-!
# The hazard pointer FIFO: executions

`trydequeue_null`: `ck_hp_fifo_trydequeue_mpmc` loads `tail` before it publishes `head` (201-202).
-/

namespace Verif.HpFifo

open Verif Verif.Lin

def s0 : St (Fin 2) Nat 2 where
  h := { Hp.s0 with life := upd Hp.s0.life 0 .linked }
  head := 0
  tail := 0
  next _ := none
  val _ := 0
  th _ := .idle
  q := []

theorem s0_start : Start 0 s0 := ⟨⟨_, Hp.s0_start, rfl⟩, rfl, rfl, rfl, rfl, fun _ => rfl⟩

abbrev A := Act (Fin 2) Nat 2

def runs (r : Fin 2) (k : Nat) : List A := List.replicate k (.run r)
def ticks (k : Nat) : List A := List.replicate k (.hp (.tick 1))

/-- Both threads register and thread 1 enqueues entry 1. -/
def setup : List A := [.hp (.register 0), .hp (.register 1), .call 1 (.enq 1 7)] ++ runs 1 9 ++ [.ret 1]

/-- Thread 1 dequeues, which returns entry 0, finds the queue empty (this clears its slots), retires entry 0, which is
destroyed, enqueues it again and dequeues once more: entry 0 is the dummy of an empty queue. -/
def recycle : List A :=
  [.call 1 .deq] ++ runs 1 9 ++ [.ret 1, .call 1 .deq] ++ runs 1 9 ++ [.ret 1, .hp (.retire 1 0), .hp (.reclaim 1)] ++
  ticks 12 ++ [.call 1 (.enq 0 8)] ++ runs 1 9 ++ [.ret 1, .call 1 .deq] ++ runs 1 9 ++ [.ret 1]

/-- **C39 is violated.**  Thread 0 stops in `trydequeue` after loading `head` and `tail`, before publishing `head`.
Thread 1 recycles the entry.  Thread 0's checks of `head` succeed, its `tail` is stale, and its compare-and-swap
replaces `head` by the `NULL` it read from the entry; the next statement dereferences it. -/
theorem trydequeue_null : ((sys True False 2 4 1 0).run s0
    (setup ++ [.call 0 .tryDeq] ++ runs 0 2 ++ recycle ++ runs 0 6)).any (fun s =>
    s.th 0 == .null && s.head == 0 && s.tail == 0 && s.next 0 == none) = true := by decide +kernel

/-- The same calls of thread 1 during a `dequeue` of thread 0, which has published entry 0: it is not destroyed and
cannot be enqueued. -/
theorem protected_case : ((sys False False 2 4 1 0).run s0
    (setup ++ [.call 0 .deq] ++ runs 0 4 ++ [.call 1 .deq] ++ runs 1 9 ++ [.ret 1, .call 1 .deq] ++ runs 1 9 ++
     [.ret 1, .hp (.retire 1 0), .hp (.reclaim 1)] ++ ticks 12)).any (fun s =>
    s.h.pend 1 == [0] && s.h.ndes 0 == 0 && derefs (s.th 0) == [0] &&
    (step False False 2 4 1 s (.call 1 (.enq 0 8))).isNone) = true := by decide +kernel

/-- A history with recycling, a successful `trydequeue` and an empty `dequeue`. -/
theorem history_case : ((runT (sys True True 2 4 1 0) obs s0 (setup ++ [.call 0 .tryDeq] ++ runs 0 9 ++ [.ret 0, .call 0 .deq] ++
      runs 0 9 ++ [.ret 0])).map fun p => p.2) =
    some [.call 1 (.enq 1 7), .ret 1 .unit, .call 0 .tryDeq, .ret 0 (.val (some (7, 0))), .call 0 .deq,
      .ret 0 (.val none)] := by rfl

end Verif.HpFifo
