import Verif.Fifo.MpmcThm
import Verif.Core.NonLin

/-! # `ck_fifo_mpmc`: immediate reuse of entries breaks it -/

namespace Verif.Fifo.Mpmc

open Verif Verif.Lin

/-- Complete list of the outcomes of the specification. -/
def outcomes {N V : Type} (x : X N V) : Op N V → List (Res N V × X N V)
  | .enq n v => [(.unit, { x with q := x.q ++ [(n, v)] })]
  | .tryEnq n v => [(.flag true, { x with q := x.q ++ [(n, v)] }), (.flag false, x)]
  | .deq => match x.q with
    | [] => [(.val none, x)]
    | (n, v) :: q => [(.val (some (v, x.dummy)), { dummy := n, q := q })]
  | .tryDeq => match x.q with
    | [] => [(.val none, x)]
    | (n, v) :: q => [(.val (some (v, x.dummy)), { dummy := n, q := q }), (.val none, x)]

theorem outcomes_complete {N V : Type} {x0 : X N V} (x : X N V) (o : Op N V) (r : Res N V) (x' : X N V)
    (h : (fifo x0).app x o r x') : (r, x') ∈ outcomes x o := by
  cases o with
  | enq n v => cases r <;> simp only [fifo] at h; subst h; simp [outcomes]
  | tryEnq n v => cases r <;> simp only [fifo] at h; split at h <;> simp_all [outcomes]
  | deq =>
    cases r with
    | val w =>
      cases w with
      | none => obtain ⟨h1, rfl⟩ := h; simp [outcomes, h1]
      | some w => obtain ⟨m, q, h1, h2, rfl⟩ := h; simp only [outcomes, h1, ← h2]; simp
    | _ => exact h.elim
  | tryDeq =>
    cases r with
    | val w =>
      cases w with
      | none => have h : x' = x := h; subst h; simp only [outcomes]; split <;> simp
      | some w => obtain ⟨m, q, h1, h2, rfl⟩ := h; simp only [outcomes, h1, ← h2]; simp
    | _ => exact h.elim

/-- Dummy 0, one element 100 in entry 1, three threads. -/
def one : St Nat Nat 3 :=
  { head := 0, hgen := 0#64, tail := 1, tgen := 1#64, next := fun x => if x = 0 then some 1 else none,
    ngen := fun x => if x = 0 then 1#64 else 0#64, val := fun _ => 100, th := fun _ => .idle, q := [(1, 100)],
    ver := 0, gv := fun _ => 0 }

theorem one_start : Start 0 [(1, 100)] one where
  idle _ := rfl
  hq := rfl
  head := rfl
  seg := by simp [one]
  nodup := by decide
  tail := rfl
  vals := by simp [one]

def runs (t : Fin 3) (k : Nat) : List (Act Nat Nat 3) := List.replicate k (.run t)

/-- A disciplined execution: two enqueues race for the same tail, a third thread dequeues across. -/
example : (runT (sys True one) obs one
    ([.call 0 (.enq 2 200), .call 1 (.enq 3 300)] ++ runs 0 8 ++ runs 1 8 ++ runs 0 1 ++
      [.call 2 .deq] ++ runs 2 8 ++ [.ret 2] ++ runs 1 7 ++ runs 0 1 ++ [.ret 0] ++ runs 1 7 ++ [.ret 1])).map
      Prod.snd =
    some [.call 0 (.enq 2 200), .call 1 (.enq 3 300), .call 2 .deq, .ret 2 (.val (some (100, 0))),
      .ret 0 .unit, .ret 1 .unit] := by rfl

/-- **C36 is violated with immediate reuse** (`ck_fifo_mpmc_dequeue` reports an empty queue that never was
empty).  Thread 0 loads `head` = entry 0 and is delayed.  Thread 1 enqueues 200, dequeues 100, gets entry 0
back as garbage and enqueues 300 with it.  Thread 0 now loads `tail` = entry 0, equal to its old `head`, finds
no successor and returns false. -/
theorem dequeue_reuse_wrong :
    ¬ Linearizable (sys False one) obs (fifo { dummy := 0, q := [(1, 100)] }) := by
  intro h
  obtain ⟨s', hr⟩ : ∃ s', runT (sys False one) obs one
      ([.call 0 .deq] ++ runs 0 2 ++
       [.call 1 (.enq 2 200)] ++ runs 1 10 ++ [.ret 1, .call 1 .deq] ++ runs 1 8 ++
       [.ret 1, .call 1 (.enq 0 300)] ++ runs 1 10 ++ [.ret 1] ++ runs 0 4 ++ [.ret 0]) =
      some (s', [.call 0 .deq, .call 1 (.enq 2 200), .ret 1 .unit, .call 1 .deq,
        .ret 1 (.val (some (100, 0))), .call 1 (.enq 0 300), .ret 1 .unit, .ret 0 (.val none)]) := ⟨_, rfl⟩
  refine history_base (ts := [0, 1, 2]) (f := outcomes) (by decide) (fun _ h => h) outcomes_complete
    (h _ _ (Tr.of_run (.init rfl) hr)) ?_
  decide +kernel

/-- **C36 is violated with immediate reuse** (`ck_fifo_mpmc_enqueue` resets the generation of the entry it
reuses).  Thread 0 has loaded `tail` = entry 1 and its `next` = (NULL, 0), and is delayed before its
compare-and-swap.  Thread 1 enqueues 300 and dequeues twice: entry 1 comes back as garbage; thread 1 prepares
it for its next enqueue, resetting `next` to (NULL, 0).  Thread 0's compare-and-swap succeeds on the entry,
which is not in the queue, and its enqueue returns; a later dequeue by thread 2 finds the queue empty. -/
theorem enqueue_reuse_wrong :
    ¬ Linearizable (sys False one) obs (fifo { dummy := 0, q := [(1, 100)] }) := by
  intro h
  obtain ⟨s', hr⟩ : ∃ s', runT (sys False one) obs one
      ([.call 0 (.enq 2 200)] ++ runs 0 8 ++
       [.call 1 (.enq 3 300)] ++ runs 1 10 ++ [.ret 1, .call 1 .deq] ++ runs 1 8 ++
       [.ret 1, .call 1 .deq] ++ runs 1 8 ++
       [.ret 1, .call 1 (.enq 1 400)] ++ runs 1 3 ++ runs 0 2 ++ [.ret 0] ++
       [.call 2 .deq] ++ runs 2 6 ++ [.ret 2]) =
      some (s', [.call 0 (.enq 2 200), .call 1 (.enq 3 300), .ret 1 .unit, .call 1 .deq,
        .ret 1 (.val (some (100, 0))), .call 1 .deq, .ret 1 (.val (some (300, 1))), .call 1 (.enq 1 400),
        .ret 0 .unit, .call 2 .deq, .ret 2 (.val none)]) := ⟨_, rfl⟩
  refine history_base (ts := [0, 1, 2]) (f := outcomes) (by decide) (fun _ h => h) outcomes_complete
    (h _ _ (Tr.of_run (.init rfl) hr)) ?_
  decide +kernel

/-- The discipline forbids the reuse in both executions. -/
example : (runT (sys True one) obs one
    ([.call 0 .deq] ++ runs 0 2 ++ [.call 1 (.enq 2 200)] ++ runs 1 10 ++ [.ret 1, .call 1 .deq] ++ runs 1 8 ++
      [.ret 1, .call 1 (.enq 0 300)])).isNone = true := by rfl

end Verif.Fifo.Mpmc
