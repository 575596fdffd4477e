import Verif.Weak.EcThm

/-!
# Event count on relaxed memory: each fence is needed, and runs
-/

namespace Verif.Weak.Ec

open Verif

/-- After the run, thread 1 can load a value of `usr 0` older than what was stored before the increment it has seen. -/
def stale (fc : Fences) (as : List (Act 2)) : Bool :=
  match (sys (2 ^ 31) fc 2 0).run (initSt 2 0) as with
  | some s => decide ((s.q 1).pc = .idle ∧ (s.q 1).th.cur (.usr 0) < s.log (s.q 1).seen (.usr 0))
  | none => false

/-- The store fence of `ck_ec32_inc`, ck_ec.h line 673. -/
theorem no_fence_inc : stale { real with inc := false } [.write 0 0 5, .add 0 1, .value 1 1] = true := by decide +kernel

/-- The fence of `ck_ec32_value`, line 612. -/
theorem no_fence_val : stale { real with val := false } [.write 0 0 5, .add 0 1, .value 1 1] = true := by decide +kernel

/-- The fence of ck_ec.c line 348. -/
theorem no_fence_up : stale { real with up := false } [.wait 1 0 0, .write 0 0 5, .add 0 1, .easy 1 1, .leave 1] = true := by decide +kernel

/-- The fence of line 362. -/
theorem no_fence_easy : stale { real with easy := false } [.wait 1 0 0, .easy 1 0, .casOk 1, .write 0 0 5, .add 0 1, .spin 1 2, .leave 1] = true := by decide +kernel

/-- With the fences the loads are not stale in these runs. -/
example : stale real [.write 0 0 5, .add 0 1, .value 1 1] = false ∧ stale real [.wait 1 0 0, .write 0 0 5, .add 0 1, .easy 1 1, .leave 1] = false ∧
    stale real [.wait 1 0 0, .easy 1 0, .casOk 1, .write 0 0 5, .add 0 1, .spin 1 2, .leave 1] = false := by decide +kernel

/-- Thread 1 sleeps while the counter has no longer the value it waits for: thread 0 is about to wake it. -/
theorem asleep : ((sys (2 ^ 31) real 2 0).run (initSt 2 0) [.wait 1 0 0, .easy 1 0, .casOk 1, .spin 1 1, .futex 1, .write 0 0 5, .add 0 1]).map
    (fun s => ((s.q 0).pc, (s.q 1).pc, s.mem.last .cnt)) = some (.clear, .asleep 0, 2 ^ 31 + 1) := by decide +kernel

/-- It is woken, returns 0 and loads what was stored. -/
theorem woken : ((sys (2 ^ 31) real 2 0).run (initSt 2 0) [.wait 1 0 0, .easy 1 0, .casOk 1, .spin 1 1, .futex 1, .write 0 0 5, .add 0 1, .clear 0, .wake 0,
      .aft 1 2, .chk 1 3, .leave 1, .read 1 0 1]).map (fun s => ((s.q 0).pc, (s.q 1).pc, s.mem.last .cnt, (s.q 1).seen, s.log 2 (.usr 0))) = some (.idle, .idle, 1, 3, 1) := by
  decide +kernel

/-- A load before the call has seen an old value, a wait with it returns at once with a new one. -/
theorem done : ((sys (2 ^ 31) real 2 0).run (initSt 2 0) [.value 1 0, .write 0 0 5, .add 0 1, .wait 1 0 1]).map
    (fun s => ((s.q 1).pc, (s.q 1).base, (s.q 1).seen, (s.mem.msg .cnt (s.q 1).seen).val)) = some (.done 0, 0, 1, 1) := by decide +kernel

/-- The value may be the old one without the flag (as in C56): the producer of the increment before clears the flag late. -/
theorem wait_zero_same : ((sys (2 ^ 31) real 2 0).run (initSt 2 0) [.wait 1 0 0, .easy 1 0, .casOk 1, .add 0 1, .spin 1 2, .leave 1, .value 1 2, .wait 1 1 2, .easy 1 2, .clear 0,
      .spin 1 3]).map (fun s => ((s.q 1).pc, (s.q 1).base, (s.q 1).seen, (s.mem.msg .cnt (s.q 1).seen).val)) = some (.done 1, 2, 3, 1) := by decide +kernel

end Verif.Weak.Ec
