import Verif.Core.Sys
import Mathlib.Logic.Function.Iterate

/-!
# Consequences and further two-step operations

* `ck_stack_pop_mpmc` (/repo/include/ck_stack.h lines 194-223) on top of the two-word
  compare-and-swap of AArch64 without LSE (gcc/aarch64/ck_pr_llsc.h lines 35-58), whose returned
  value may be torn (`LlSc.Pair.value_fails`).
* `ck_pr_not_*` and `ck_pr_neg_*` of s390x (gcc/s390x/ck_pr.h lines 308-328).
* `ck_pr_load_64_2` of x86-64 (gcc/x86_64/ck_pr.h lines 203-214).
-/

namespace Verif.LlSc.Stack

open Verif

/-- The popping thread in `ck_stack_pop_mpmc`. -/
inductive Pc
  | gen
  | head (g : Nat)
  | next (g h : Nat)
  /-- before `ldxp`, with `original` = (g, h) and `update.head` = u -/
  | cas (g h u : Nat)
  /-- the head is loaded -/
  | half (g h u : Nat) (h' : Nat)
  /-- both are loaded -/
  | got (g h u : Nat) (g' h' : Nat)
  | done (r : Nat)
  deriving DecidableEq

/-- The stack: entry 0 is `NULL`. -/
structure State where
  head : Nat := 0
  gen : Nat := 0
  next : Nat → Nat := fun _ => 0
  /-- monitor of the popping thread -/
  mon : Bool := false
  pc : Pc := .gen
  /-- ghost: entries pushed, entries popped -/
  pushed : List Nat := []
  popped : List Nat := []

/-- `ck_stack_push_mpmc` and `ck_stack_pop_mpmc` of the other threads are single steps here (their
own compare-and-swap succeeds at once); `go` is one access of the popping thread. -/
inductive Act
  | push (n : Nat)
  | pop
  | go

def step (s : State) : Act → Option State
  -- ck_stack_push_mpmc: entry->next = head; cas_ptr(&head, ..)
  | .push n => if n = 0 then none else
      some { s with next := upd s.next n s.head, head := n, mon := false, pushed := n :: s.pushed }
  -- ck_stack_pop_mpmc: cas_ptr_2 of (head->next, generation + 1)
  | .pop => if s.head = 0 then none else
      some { s with head := s.next s.head, gen := s.gen + 1, mon := false,
                    popped := s.head :: s.popped }
  | .go => match s.pc with
    | .gen => some { s with pc := .head s.gen }
    | .head g => some { s with pc := if s.head = 0 then .done 0 else .next g s.head }
    | .next g h => some { s with pc := .cas g h (s.next h) }
    -- ldxp, in two halves
    | .cas g h u => some { s with mon := true, pc := .half g h u s.head }
    | .half g h u h' => some { s with pc := .got g h u s.gen h' }
    | .got g h u g' h' =>
      if g' = g ∧ h' = h then
        if s.mon then
          some { s with head := u, gen := g + 1, mon := false, pc := .done h,
                        popped := h :: s.popped }
        else some { s with pc := .cas g h u }
      -- original := the returned value; update.head = original.head->next
      else some { s with pc := if h' = 0 then .done 0 else .next g' h' }
    | .done _ => none

def sys : Sys State Act where
  init s := s = {}
  step := step

/-- The entries in the stack, from the head. -/
def entries (s : State) : Nat → Nat → List Nat
  | 0, _ => []
  | k + 1, n => if n = 0 then [] else n :: entries s k (s.next n)

/-- Thread 1 pushes 2 and 1.  Thread 0 begins to pop and loads generation 0 and head 1.  Thread 1
pops 1 and pushes it again (generation 1).  Thread 0 loads the head 1 with the first half of
`ldxp`; thread 1 pops 1 (generation 2, head 2); thread 0 loads generation 2: mismatch, and it goes
on with (generation 2, head 1), which never was in the stack structure.  It loads `1->next` = 2.
Thread 1 pushes 3 and 1: the generation is still 2.  Thread 0 compares successfully and installs 2
as head. -/
def lostRun : List Act :=
  [.push 2, .push 1, .go, .go, .go, .pop, .push 1, .go, .pop, .go, .go, .go, .push 3, .push 1,
   .go, .go, .go]

/-- **Entry 3 is lost**: pushed once, popped by nobody, not in the stack. -/
theorem lost : ∃ s, sys.Reach s ∧ s.pc = .done 1 ∧ s.pushed.count 3 = 1 ∧ 3 ∉ s.popped ∧
    s.head = 2 ∧ s.next 2 = 0 := by
  have h : ((sys.run {} lostRun).map fun s =>
      (s.pc, s.pushed.count 3, s.popped.contains 3, s.head, s.next 2)) =
      some (.done 1, 1, false, 2, 0) := by decide +kernel
  rw [Option.map_eq_some_iff] at h
  obtain ⟨s, h1, h2⟩ := h
  simp only [Prod.mk.injEq] at h2
  obtain ⟨a, b, c, d, e⟩ := h2
  exact ⟨s, .of_run (.init rfl) h1, a, b, by simpa using c, d, e⟩

end Verif.LlSc.Stack

namespace Verif.LlSc.Not

open Verif

/-! ## `ck_pr_not_*`, `ck_pr_neg_*` of s390x

```
do { newval = ~(*target); } while (!__sync_bool_compare_and_swap(target, *target, newval));
```

The object is read twice: for the new value and for the comparison.  `merge` says whether the
compiler merges the two (the object is not volatile, so it may). -/

inductive Pc (W : Type)
  | first
  | second (a : W)
  | cas (a b : W)
  | done
  deriving DecidableEq

structure State (W : Type) where
  mem : W
  pc : Nat → Pc W := fun _ => .first
  /-- ghost: how often an operation took effect -/
  cnt : Nat := 0

variable {W : Type} [DecidableEq W]

def step (f : W → W) (merge : Bool) (s : State W) (t : Nat) : Option (State W) :=
  match s.pc t with
  | .first => some { s with pc := upd s.pc t (if merge then .cas s.mem s.mem else .second s.mem) }
  | .second a => some { s with pc := upd s.pc t (.cas a s.mem) }
  | .cas a b =>
    if s.mem = b then some { mem := f a, pc := upd s.pc t .done, cnt := s.cnt + 1 }
    else some { s with pc := upd s.pc t .first }
  | .done => none

def sys (f : W → W) (merge : Bool) (w : W) : Sys (State W) Nat where
  init s := s = { mem := w }
  step := step f merge

/-- The comparison uses the value the new one was computed from. -/
def Ok : Pc W → Prop
  | .second _ => False
  | .cas a b => a = b
  | _ => True

/-- If the two reads are merged, the object is what the operations that took effect make of the
initial value. -/
theorem merged {f : W → W} {w : W} {s : State W} (h : (sys f true w).Reach s) :
    s.mem = f^[s.cnt] w := by
  have : s.mem = f^[s.cnt] w ∧ ∀ t, Ok (s.pc t) := by
    refine Sys.Reach.invariant (I := fun s => s.mem = f^[s.cnt] w ∧ ∀ t, Ok (s.pc t)) ?_ ?_ h
    · rintro s rfl; exact ⟨rfl, fun _ => trivial⟩
    · rintro s t s' ⟨h1, h2⟩ hs
      have key : ∀ p : Pc W, Ok p → ∀ u, Ok (upd s.pc t p u) := by
        intro p hp u
        rw [upd_apply]
        split
        · exact hp
        · exact h2 u
      have ht := h2 t
      simp only [sys, step] at hs
      split at hs
      · cases hs; exact ⟨h1, key _ (by simp [Ok])⟩
      · next hp => rw [hp] at ht; exact ht.elim
      · next a b hp =>
        rw [hp] at ht
        split at hs
        · next he =>
          cases hs
          refine ⟨?_, key _ trivial⟩
          simp only [Ok] at ht
          rw [Function.iterate_succ_apply', ← h1, he, ht]
        · cases hs; exact ⟨h1, key _ trivial⟩
      · cases hs
  exact this.1

/-- As written: two complements at the same time leave the complement, one of them is lost (the
full statement is `merged` for both values of `merge`). -/
theorem twice_fails : ∃ s, (sys (fun x : BitVec 32 => ~~~x) false 0).Reach s ∧ s.cnt = 2 ∧
    s.mem = 0xffffffff ∧ (fun x : BitVec 32 => ~~~x)^[2] 0 = 0 := by
  have h : (((sys (fun x : BitVec 32 => ~~~x) false 0).run { mem := 0 } [0, 1, 1, 1, 0, 0]).map
      fun s => (s.cnt, s.mem)) = some (2, 0xffffffff) := by decide +kernel
  rw [Option.map_eq_some_iff] at h
  obtain ⟨s, h1, h2⟩ := h
  simp only [Prod.mk.injEq] at h2
  exact ⟨s, .of_run (.init rfl) h1, h2.1, h2.2, by decide +kernel⟩

end Verif.LlSc.Not

namespace Verif.LlSc.Load2

/-- `lock cmpxchg16b`: compares the memory with rdx:rax; if equal stores rcx:rbx, else loads the
memory into rdx:rax.  Returns the new memory and rdx:rax. -/
def cmpxchg16b {W : Type} [DecidableEq W] (mem ad bc : W) : W × W :=
  if mem = ad then (bc, ad) else (mem, mem)

/-- `ck_pr_load_64_2` of x86-64: rcx:rbx := rdx:rax, whatever is in them, then `lock cmpxchg16b`
(gcc/x86_64/ck_pr.h lines 203-214). -/
def load2 {W : Type} [DecidableEq W] (mem ad : W) : W × W := cmpxchg16b mem ad ad

/-- The two-word load returns the contents of the memory, both words of the same moment, and
leaves the memory unchanged, whatever the registers contained. -/
theorem load2_eq {W : Type} [DecidableEq W] (mem ad : W) : load2 mem ad = (mem, mem) := by
  simp only [load2, cmpxchg16b]
  split
  · next h => rw [h]
  · rfl

example : load2 (5, 6) (5, 6) = ((5, 6), (5, 6)) ∧ load2 (5, 6) (1, 2) = ((5, 6), (5, 6)) := by
  decide

end Verif.LlSc.Load2
