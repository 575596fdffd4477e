import Verif.Progress.StackLf
import Verif.Progress.FifoLf
import Verif.Stack.Wit
import Verif.Fifo.MpmcWit

/-! # Lock freedom: concrete executions (C104) -/

namespace Verif.Lf

open Verif

/-- The stack with entries 0 and 1: a pop of thread 0 is overtaken by a push of thread 1, and its compare-and-swap fails; thread 1
calls a pop and is stopped for ever after one step; thread 0 still returns. -/
def stackRun : List (Stack.Act Nat 2) :=
  [.call 0 .pop, .run 0, .run 0, .call 1 (.push 7), .run 1, .run 1, .run 1, .ret 1, .run 0, .call 1 .pop, .run 1,
    .run 0, .run 0, .ret 0]

theorem stack_case : (((counted (Stack.Lf.sys .upmc) Stack.Lf.kind).run ⟨Stack.two, 0, 0, 0⟩ stackRun).map
    fun c => (c.work, c.calls, c.rets)) = some (9, 3, 2) := by decide +kernel

theorem stack_case_reach : ∃ c : Ct (Stack.St Nat 2), (counted (Stack.Lf.sys .upmc) Stack.Lf.kind).Reach c ∧ c.work = 9 ∧ c.calls = 3 ∧ c.rets = 2 := by
  obtain ⟨c, hc, h⟩ := Option.map_eq_some_iff.1 stack_case
  injection h with h1 h2
  injection h2 with h2 h3
  exact ⟨c, .of_run (s := ⟨Stack.two, 0, 0, 0⟩) (.init ⟨⟨_, Stack.two_start⟩, rfl, rfl, rfl⟩) hc, h1, h2, h3⟩

/-- The fifo with one element: thread 0 links entry 2 and is stopped for ever before it moves `tail`; thread 1, which has read `tail`
before that, fails, moves `tail` for thread 0 and enqueues entry 3; thread 2 dequeues twice. -/
def fifoRun : List (Fifo.Mpmc.Act Nat Nat 3) :=
  [.call 0 (.enq 2 200), .call 1 (.enq 3 300)] ++ List.replicate 8 (.run 1) ++ List.replicate 9 (.run 0) ++
    List.replicate 14 (.run 1) ++ [.ret 1, .call 2 .deq] ++ List.replicate 8 (.run 2) ++ [.ret 2, .call 2 .deq] ++
    List.replicate 8 (.run 2) ++ [.ret 2]

theorem fifo_case : (((counted (Fifo.Mpmc.sys True Fifo.Mpmc.one) Fifo.Mpmc.Lf.kind).run ⟨Fifo.Mpmc.one, 0, 0, 0⟩ fifoRun).map
    fun c => (c.work, c.calls, c.rets, c.st.q)) = some (47, 4, 3, [(3, 300)]) := by decide +kernel

theorem fifo_case_reach : ∃ c, (counted (Fifo.Mpmc.sys True Fifo.Mpmc.one) Fifo.Mpmc.Lf.kind).Reach c ∧
    c.work = 47 ∧ c.calls = 4 ∧ c.rets = 3 := by
  obtain ⟨c, hc, h⟩ := Option.map_eq_some_iff.1 fifo_case
  injection h with h1 h2
  injection h2 with h2 h3
  injection h3 with h3 h4
  exact ⟨c, .of_run (s := (⟨Fifo.Mpmc.one, 0, 0, 0⟩ : Ct (Fifo.Mpmc.St Nat Nat 3))) (.init ⟨show Fifo.Mpmc.one = Fifo.Mpmc.one from rfl, rfl, rfl, rfl⟩) hc, h1, h2, h3⟩

end Verif.Lf
