import Verif.Weak.MpFifoThm

/-!
# `ck_fifo_mpmc` on relaxed memory: runs (C100)
-/

namespace Verif.Weak.MpFifo

open Verif

private def out (s : St Nat 2) : List Nat × List (Option Nat) × List Nat := (s.put, s.got, [s.mem.top .head, s.mem.top .tail, s.kn 0, s.kn 1, s.dx 1, s.dx 2])

/-- Thread `t` enqueues `v` with entry `x` after entry `p`: it reads value `i` of `tail` and value `k` of the `next` of that entry. -/
private def enq (t : Fin 2) (x v i k : Nat) : List (Act Nat 2) := [.enq t x v, .run t i i, .run t k 0, .run t 0 0, .run t 0 0]

/-- Thread `t` dequeues: it reads values `i`, `j`, `k`, `l` of `head`, `tail`, `next` and `value`. -/
private def deq (t : Fin 2) (i j k l : Nat) : List (Act Nat 2) := [.deq t, .run t i i, .run t j j, .run t k 0, .run t l 0, .run t 0 0]

private def isNone : PC Nat → Bool
  | .none => true
  | _ => false

/-- A value goes through the queue, and the object with it: an old value of the object is not visible. -/
theorem through : ((sys real Nat 2).run initSt ([.fill 0 7 5] ++ enq 0 1 7 0 0 ++ deq 1 0 1 1 1)).map out = some ([7], [some 7], [1, 1, 1, 1, 1, 0]) ∧
    ((sys real Nat 2).run initSt ([.fill 0 7 5] ++ enq 0 1 7 0 0 ++ deq 1 0 1 1 1 ++ [.look 1 1])).map out = some ([7], [some 7], [1, 1, 1, 1, 1, 0]) ∧
    ((sys real Nat 2).run initSt ([.fill 0 7 5] ++ enq 0 1 7 0 0 ++ deq 1 0 1 1 1 ++ [.look 1 0])).map out = none := by decide +kernel

/-- Two threads enqueue, one after the other; both dequeue. -/
theorem two : ((sys real Nat 2).run initSt (enq 0 1 7 0 0 ++ enq 1 2 8 1 1 ++ deq 1 0 2 1 1 ++ deq 0 1 2 2 1)).map out = some ([7, 8], [some 7, some 8], [2, 2, 2, 2, 0, 0]) := by decide +kernel

/-- Thread 0 enqueues 7, but does not move `tail`; thread 1 moves it and dequeues, it reads value `l` of `value`. -/
private def help (l : Nat) : List (Act Nat 2) :=
  [.enq 0 1 7, .run 0 0 0, .run 0 0 0, .run 0 0 0] ++ [.deq 1, .run 1 0 0, .run 1 0 0, .run 1 1 0, .run 1 0 0] ++ [.run 1 0 0, .run 1 1 1, .run 1 1 0, .run 1 l 0, .run 1 0 0]

/-- A dequeue that loads an old `tail` moves it, or fails to; here the enqueue is not finished. -/
theorem helps : ((sys real Nat 2).run initSt (help 1 ++ [.run 0 0 0])).map out = some ([7], [some 7], [1, 1, 1, 1, 0, 0]) ∧ ((sys real Nat 2).run initSt (help 0)).map out = none := by decide +kernel

/-- A dequeue that finds nothing though there is a value: its thread does not know of the enqueue. -/
theorem unaware : (((sys real Nat 2).run initSt (enq 0 1 7 0 0 ++ [.deq 1, .run 1 0 0, .run 1 0 0, .run 1 0 0])).map fun s => (s.put, s.kn 1, isNone (s.pc 1))) = some ([7], 0, true) := by
  decide +kernel

/-- After the two threads synchronize that is not possible: the old `next` is not visible. -/
theorem aware : (((sys real Nat 2).run initSt (enq 0 1 7 0 0 ++ [.sync 1 0, .deq 1, .run 1 0 0, .run 1 0 0])).map out) = none ∧
    (((sys real Nat 2).run initSt (enq 0 1 7 0 0 ++ [.sync 1 0, .deq 1, .run 1 0 0, .run 1 1 0, .run 1 0 0])).map out) = none ∧
    (((sys real Nat 2).run initSt (enq 0 1 7 0 0 ++ [.sync 1 0] ++ deq 1 0 1 1 1)).map out) = some ([7], [some 7], [1, 1, 1, 1, 0, 0]) := by decide +kernel

/-- `empty_ok`, a case: the queue is empty again. -/
theorem empty : (((sys real Nat 2).run initSt (enq 0 1 7 0 0 ++ deq 0 0 1 1 1 ++ [.deq 0, .run 0 1 1, .run 0 1 1, .run 0 1 0])).map fun s => (s.got, s.kn 0, isNone (s.pc 0))) = some ([some 7], 1, true) := by
  decide +kernel

/-- Without the fence of the enqueue the value of the new entry need not be visible. -/
theorem no_fence_enq : ((sys { real with enq := false } Nat 2).run initSt (help 0)).map out = some ([7], [none], [1, 1, 1, 1, 0, 0]) ∧
    ((sys { real with enq := false } Nat 2).run initSt ([.fill 0 7 5] ++ help 1 ++ [.look 1 0])).map out = some ([7], [some 7], [1, 1, 1, 1, 1, 0]) := by decide +kernel

/-- Without the order of loads through pointers: thread 2 moves `tail`, thread 1 dequeues. -/
theorem no_dep : ((sys { real with dep := false } Nat 3).run initSt ([.enq 0 1 7, .run 0 0 0, .run 0 0 0, .run 0 0 0] ++ [.deq 2, .run 2 0 0, .run 2 0 0, .run 2 1 0, .run 2 0 0] ++
    [.deq 1, .run 1 0 0, .run 1 1 0, .run 1 1 0, .run 1 0 0, .run 1 0 0])).map (fun s => (s.put, s.got)) = some ([7], [none]) := by decide +kernel

end Verif.Weak.MpFifo
