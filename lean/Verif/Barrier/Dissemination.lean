import Verif.Core.Tactic
import Verif.Core.Spec
import Verif.Misc.Internal

/-!
# `ck_barrier_dissemination` (model), `src/ck_barrier_dissemination.c`

A sense is one of the two words `0` and `~0` (`include/ck_barrier.h` 84-90), here a `Bool`.  The flag
words are addressed by parity, round and owner instead of by pointer.  `e t` counts the calls of
participant `t`, `r t` its returns (bookkeeping).  Every participant has subscribed (its `tid` is
its index).  `i + offset` does not wrap for fewer than `2 ^ 31` participants.
-/

namespace Verif.Barrier.Dissemination

open Verif

/-- Number of rounds, line 44. -/
def size (n : Nat) : Nat := (Internal.log (Internal.power2 (BitVec.ofNat 32 n))).toNat

/-- Partner of thread `i` in round `k` (offset `2 ^ k`), lines 41, 63-66. -/
def pidx (n i k : Nat) : Nat :=
  if n &&& (n - 1) = 0 then (i + 2 ^ k) &&& (n - 1) else (i + 2 ^ k) % n

theorem pidx_lt {n i k : Nat} (h : 0 < n) : pidx n i k < n := by
  unfold pidx; split
  · have := @Nat.and_le_right (i + 2 ^ k) (n - 1); omega
  · exact Nat.mod_lt _ h

def partner {n : Nat} (i : Fin n) (k : Nat) : Fin n := ⟨pidx n i k, pidx_lt (Nat.zero_lt_of_lt i.isLt)⟩

inductive PC
  | idle
  | sto (k : Nat)   -- loop test (line 105), then the store of round `k` (line 112)
  | wait (k : Nat)  -- line 115
  deriving DecidableEq

structure Th where
  pc : PC
  parity : Bool
  sense : Bool
  e : Nat
  r : Nat

structure St (n : Nat) where
  flags : Bool → Nat → Fin n → Bool
  th : Fin n → Th

inductive Act (n : Nat)
  | call (t : Fin n)
  | run (t : Fin n)
  deriving DecidableEq

variable {n : Nat}

/-- `init` (lines 35-77) and `subscribe` (lines 79-88). -/
def initSt (n : Nat) : St n :=
  { flags := fun _ _ _ => false
    th := fun _ => { pc := .idle, parity := false, sense := true, e := 0, r := 0 } }

def setFlag (f : Bool → Nat → Fin n → Bool) (p : Bool) (k : Nat) (j : Fin n) (v : Bool) :
    Bool → Nat → Fin n → Bool :=
  fun p' k' j' => if p' = p ∧ k' = k ∧ j' = j then v else f p' k' j'

def step (s : St n) : Act n → Option (St n)
  | .call t =>
    if (s.th t).pc = .idle then
      some { s with th := upd s.th t { s.th t with pc := .sto 0, e := (s.th t).e + 1 } }
    else none
  | .run t => match (s.th t).pc with
    | .sto k =>
      if k < size n then
        some { flags := setFlag s.flags (s.th t).parity k (partner t k) (s.th t).sense
               th := upd s.th t { s.th t with pc := .wait k } }
      else
        -- lines 125-128
        some { s with th := upd s.th t { s.th t with
                  pc := .idle
                  sense := if (s.th t).parity = true then !(s.th t).sense else (s.th t).sense
                  parity := !(s.th t).parity
                  r := (s.th t).r + 1 } }
    | .wait k =>
      if s.flags (s.th t).parity k t ≠ (s.th t).sense then some s
      else some { s with th := upd s.th t { s.th t with pc := .sto (k + 1) } }
    | _ => none

def sys (n : Nat) : Sys (St n) (Act n) := { init := (· = initSt n), step := step }

end Verif.Barrier.Dissemination
