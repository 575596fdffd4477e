import Verif.Progress.HpStackLf
import Verif.Progress.HpFifoLf
import Verif.Smr.HpStackWit
import Verif.Smr.HpFifoWit

/-! # Lock freedom of the structures with hazard pointers: concrete executions (C105) -/

namespace Verif.Lf

open Verif

/-- The execution of C38 (`HpStackWit`): the pop of thread 0 fails, protects another entry and pops it. -/
theorem hp_stack_case : (((counted (HpStack.sys 1 4 1) HpStack.Lf.kind).run ⟨HpStack.s0, 0, 0, 0⟩
    (HpStack.setup ++ HpStack.race ++ HpStack.after)).map fun c => (c.work, c.calls, c.rets)) = some (28, 6, 6) := by decide +kernel

theorem hp_stack_case_reach : ∃ c : Ct (HpStack.St (Fin 2) 2), (counted (HpStack.sys 1 4 1) HpStack.Lf.kind).Reach c ∧
    c.work = 28 ∧ c.calls = 6 ∧ c.rets = 6 := by
  obtain ⟨c, hc, h⟩ := Option.map_eq_some_iff.1 hp_stack_case
  injection h with h1 h2
  injection h2 with h2 h3
  exact ⟨c, .of_run (s := (⟨HpStack.s0, 0, 0, 0⟩ : Ct (HpStack.St (Fin 2) 2))) (.init ⟨HpStack.s0_start, rfl, rfl, rfl⟩) hc, h1, h2, h3⟩

/-- Thread 1 links entry 1 and is stopped for ever before it moves `tail`; the dequeue of thread 0 moves `tail`, starts again and
returns the value. -/
def hpFifoRun : List HpFifo.A :=
  [.hp (.register 0), .hp (.register 1), .call 1 (.enq 1 7)] ++ HpFifo.runs 1 8 ++ [.call 0 .deq] ++ HpFifo.runs 0 17 ++ [.ret 0]

theorem hp_fifo_case : (((counted (HpFifo.sys True True 2 4 1 0) HpFifo.Lf.kind).run ⟨HpFifo.s0, 0, 0, 0⟩ hpFifoRun).map
    fun c => (c.work, c.calls, c.rets, c.st.head, c.st.tail, c.st.q.length)) = some (25, 2, 1, 1, 1, 0) := by decide +kernel

theorem hp_fifo_case_reach : ∃ c : Ct (HpFifo.St (Fin 2) Nat 2), (counted (HpFifo.sys True True 2 4 1 0) HpFifo.Lf.kind).Reach c ∧
    c.work = 25 ∧ c.calls = 2 ∧ c.rets = 1 := by
  obtain ⟨c, hc, h⟩ := Option.map_eq_some_iff.1 hp_fifo_case
  injection h with h1 h2
  injection h2 with h2 h3
  injection h3 with h3 h4
  exact ⟨c, .of_run (s := (⟨HpFifo.s0, 0, 0, 0⟩ : Ct (HpFifo.St (Fin 2) Nat 2))) (.init ⟨HpFifo.s0_start, rfl, rfl, rfl⟩) hc, h1, h2, h3⟩

end Verif.Lf
