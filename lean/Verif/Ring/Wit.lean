import Verif.Ring.More

/-! # `ck_ring`: concrete executions and deviations -/

namespace Verif.Ring

open Verif Verif.Lin

/-- Entries of two chunks. -/
abbrev V := Val 2 Nat

def v1 : V := fun i => 10 + i.val
def v2 : V := fun i => 20 + i.val
def v0 : V := fun _ => 0

/-- Thread 0 produces, thread 1 consumes, two slots (capacity one). -/
def spsc : Cfg 2 := { k := 1, sp := some 0, sc := some 1 }

/-- Any number of producers and consumers, two slots. -/
def mpmc : Cfg 3 := { k := 1, sp := none, sc := none }

/-- An empty ring whose counters are about to wrap. -/
def nearWrap (n : Nat) : St 2 n Nat :=
  { initial (fun _ => v0) v0 with
    c_head := BitVec.ofNat 32 4294967295, p_tail := BitVec.ofNat 32 4294967295,
    p_head := BitVec.ofNat 32 4294967295, C := 4294967295, PT := 4294967295, PH := 4294967295 }

theorem nearWrap_start (n : Nat) (cfg : Cfg n) : Start cfg [] (nearWrap n) where
  idle _ := rfl
  wc := rfl
  wt := rfl
  wh _ := rfl
  eq := rfl
  ct := Nat.le_refl _
  cap := by simp [nearWrap]
  slots j h1 h2 := absurd h2 (Nat.not_lt.2 h1)
  cont := by simp [contents, nearWrap]

def enqA : List (Act 2 2 Nat) := [.run 0, .run 0, .run 0, .run 0, .run 0]

/-- Across the wrap: an enqueue succeeds, the next reports full with size 1, the dequeue returns the
first value. -/
example : ((sys spsc (nearWrap 2)).run (nearWrap 2)
    ([.call 0 (.enq v1)] ++ enqA ++ [.ret 0, .call 0 (.enq v2), .run 0, .call 1 (.deq v0),
      .run 1, .run 1, .run 1, .run 1, .run 1])).map
      (fun s => (match s.th 0, s.th 1 with
        | .ret (.enq ok sz), .ret (.deq (some v)) => (ok, sz, v 0, v 1, s.c_head, s.p_tail)
        | _, _ => (true, 99#32, 0, 0, 0#32, 0#32))) =
    some (false, 1#32, 10, 11, 0#32, 0#32) := by rfl

/-- Two producers and a consumer: thread 1 finds the ring full because thread 0 holds the only slot;
`*size` is 1 although nothing is committed yet; later the consumer gets thread 0's value. -/
example : ((sysF mpmc (initial (fun _ => v0) v0)).run (initial (fun _ => v0) v0)
    [.call 0 (.enq v1), .call 1 (.enq v2), .run 0, .run 0, .run 0, .run 1, .run 1, .run 1,
     .run 0, .run 0, .run 0, .run 0, .run 0, .call 2 (.deq v0), .run 2, .run 2, .run 2, .run 2, .run 2,
     .run 2]).map
      (fun s => (match s.th 1, s.th 2 with
        | .ret (.enq ok sz), .ret (.deq (some v)) => (ok, sz, v 0, v 1, s.occ 1)
        | _, _ => (true, 99#32, 0, 0, 0))) =
    some (false, 1#32, 10, 11, 1) := by rfl

/-- **Deviation.**  `ck_ring_valid` reads `p_head`, which the single-producer operations never update:
one enqueue and one dequeue on a fresh single-producer ring make it report an invalid ring. -/
theorem valid_rejects_sp : ∃ s : St 2 2 Nat, (sys spsc (initial (fun _ => v0) v0)).Reach s ∧
    (∀ t, s.th t = .idle) ∧ valid spsc s = false := by
  refine ⟨_, Sys.Reach.of_run (.init rfl) (as := [.call 0 (.enq v1)] ++ enqA ++ [.ret 0, .call 1 (.deq v0),
      .run 1, .run 1, .run 1, .run 1, .run 1, .ret 1]) rfl, ?_, rfl⟩
  intro t
  match t with
  | 0 => rfl
  | 1 => rfl

/-- **Deviation.**  `ck_ring_repair` on a single-producer ring throws away committed entries. -/
theorem repair_loses_sp : ∃ s : St 2 2 Nat, (sys spsc (initial (fun _ => v0) v0)).Reach s ∧
    (∀ t, s.th t = .idle) ∧ contents s = [v1] ∧ (size spsc s).toNat = 1 ∧
      (size spsc (repair s).2).toNat = 0 := by
  refine ⟨_, Sys.Reach.of_run (.init rfl) (as := [.call 0 (.enq v1)] ++ enqA ++ [.ret 0]) rfl, ?_, rfl, rfl, rfl⟩
  intro t
  match t with
  | 0 => rfl
  | 1 => rfl

/-- **Deviation.**  `ck_ring_valid` compares the wrapping counters with `>`: it rejects a quiescent
multi-producer ring holding one entry when `p_head` has wrapped and `c_head` has not. -/
theorem valid_rejects_wrapped : ∃ s : St 2 3 Nat, (sysF mpmc (nearWrap 3)).Reach s ∧
    (∀ t, s.th t = .idle) ∧ contents s = [v1] ∧ valid mpmc s = false := by
  refine ⟨_, Sys.Reach.of_run (.init rfl) (as := [.call 0 (.enq v1), .run 0, .run 0, .run 0, .run 0, .run 0,
      .run 0, .run 0, .run 0, .ret 0]) rfl, ?_, rfl, rfl⟩
  intro t
  match t with
  | 0 => rfl
  | 1 => rfl
  | 2 => rfl

/-- A crash between reservation and commit, and its repair: the committed entry survives in front. -/
example : ((sysF { mpmc with k := 2 } (initial (fun _ => v0) v0)).run (initial (fun _ => v0) v0)
    [.call 0 (.enq v1), .run 0, .run 0, .run 0, .run 0, .run 0, .run 0, .run 0, .run 0,
     .call 1 (.enq v2), .run 1, .run 1, .run 1, .run 1]).map
      (fun s => (valid { mpmc with k := 2 } s, (repair s).1,
        (contents (recover { mpmc with k := 2 } s)).map fun v => (v 0, v 1))) =
    some (true, true, [(10, 11), (20, 0)]) := by rfl

end Verif.Ring
