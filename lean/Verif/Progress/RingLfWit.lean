import Verif.Progress.RingLf
import Verif.Ring.Wit

/-! # Progress of `ck_ring`: concrete executions, and the enqueue that blocks (C106) -/

namespace Verif.Ring.Lf

open Verif Verif.Lf Verif.Ring

/-- Two consumers, thread 0 produces, two slots. -/
def spmc : Cfg 3 := { k := 1, sp := some 0, sc := none }

def empty3 : St 2 3 Nat := initial (fun _ => v0) v0

/-- Thread 0 enqueues; thread 1 copies the entry and is overtaken by thread 2, fails, and finds the ring empty; thread 0 is stopped in the
middle of a second enqueue; thread 1 still returns. -/
def spmcRun : List (Act 2 3 Nat) :=
  [.call 0 (.enq v1), .run 0, .run 0, .run 0, .run 0, .run 0, .ret 0, .call 1 (.deq v0), .run 1, .run 1, .run 1, .call 2 (.deq v0)] ++
    List.replicate 6 (.run 2) ++ [.ret 2, .call 0 (.enq v2), .run 0, .run 0, .run 1, .run 1, .run 1, .run 1, .ret 1]

theorem dequeue_case : (((counted (sysQ spmc) kind).run ⟨empty3, 0, 0, 0⟩ spmcRun).map fun c => (c.work, c.calls, c.rets)) =
    some (13, 2, 2) := by decide +kernel

theorem dequeue_case_reach : ∃ c : Ct (St 2 3 Nat), (counted (sysQ spmc) kind).Reach c ∧ c.work = 13 ∧ c.calls = 2 ∧ c.rets = 2 := by
  obtain ⟨c, hc, h⟩ := Option.map_eq_some_iff.1 dequeue_case
  injection h with h1 h2
  injection h2 with h2 h3
  exact ⟨c, .of_run (s := ⟨empty3, 0, 0, 0⟩) (.init ⟨fun _ => rfl, rfl, rfl, rfl⟩) hc, h1, h2, h3⟩

/-- The bound of the single producer is met: an enqueue takes exactly `L + 3 = 5` steps, here with a whole dequeue in between. -/
theorem enqueue_case : (((sysQ spmc).run empty3 ([.call 0 (.enq v1), .run 0, .run 0, .call 1 (.tryDeq v0), .run 1, .run 1, .ret 1,
    .run 0, .run 0, .run 0])).map fun s => (returned true (s.th 0), s.PT)) = some (true, 1) := by decide +kernel

/-- A trydequeue that takes exactly `L + 4 = 6` steps and fails because it was overtaken. -/
theorem trydequeue_case : (((sysQ spmc).run empty3 ([.call 0 (.enq v1), .run 0, .run 0, .run 0, .run 0, .run 0, .ret 0,
    .call 1 (.tryDeq v0), .run 1, .run 1, .run 1, .run 1, .run 1, .call 2 (.deq v0)] ++ List.replicate 6 (.run 2) ++ [.run 1])).map fun s =>
      (match s.th 1 with | .ret (.deq none) => true | _ => false, s.C)) = some (true, 1) := by decide +kernel

/-- The single consumer takes exactly `L + 3 = 5` steps, with the producer half-way through its next enqueue. -/
theorem dequeue_sc_case : (((sysQ { spsc with k := 2 }).run (initial (fun _ => v0) v0) ([.call 0 (.enq v1), .run 0, .run 0, .run 0, .run 0, .run 0, .ret 0,
    .call 1 (.deq v0), .run 1, .run 1, .call 0 (.enq v2), .run 0, .run 0, .run 1, .run 1, .run 1])).map fun s =>
      (match s.th 1 with | .ret (.deq (some v)) => (v 0, v 1) | _ => (0, 0))) = some (10, 11) := by decide +kernel

/-- Thread `t` waits for another producer to commit. -/
theorem wait_alone {L n : Nat} {B : Type} {cfg : Cfg n} {s : St L n B} {t : Fin n} {v : Val L B} {p sz : BitVec 32} (h : s.th t = .wait v p sz)
    (hp : s.p_tail ≠ p) (k : Nat) : alone (fun s => run cfg s t) k s = some s := by
  induction k with
  | zero => rfl
  | succ k ih =>
    have : run cfg s t = some s := by unfold run; simp only [h, if_neg hp]
    rw [alone, this]; exact ih

/-- The multi-producer enqueue blocks: if a producer stops between its reservation and its commit, another one that has written its
entry runs for ever without returning, although the ring has room, and consumers find the ring empty. -/
theorem enqueue_mp_blocks : ∃ s : St 2 3 Nat, (sysF { mpmc with k := 2 } (initial (fun _ => v0) v0)).Reach s ∧
    (own (s.th 0) = true ∧ own (s.th 1) = true ∧ s.gp 0 < s.gp 1) ∧ (∃ w sz, s.th 1 = .wait v2 w sz) ∧ size { mpmc with k := 2 } s = 0#32 ∧
    ∀ k, alone (fun s => run { mpmc with k := 2 } s 1) k s = some s := by
  refine ⟨_, Sys.Reach.of_run (.init rfl) (as := [.call 0 (.enq v1), .run 0, .run 0, .run 0, .call 1 (.enq v2), .run 1, .run 1, .run 1,
    .run 1, .run 1, .run 1]) rfl, ⟨rfl, rfl, by decide⟩, ⟨1#32, 1#32, rfl⟩, rfl, fun k => wait_alone (v := v2) (p := 1#32) (sz := 1#32) rfl (by decide) k⟩

end Verif.Ring.Lf
