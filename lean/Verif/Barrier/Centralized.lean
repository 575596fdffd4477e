import Verif.Core.Tactic
import Verif.Core.Count
import Verif.Core.Spec

/-!
# `ck_barrier_centralized` (model), `src/ck_barrier_centralized.c`

A sense is one of the two words `0` and `~0` (`include/ck_barrier.h` 44-45), here a `Bool`.
`e t` counts the calls of participant `t`, `r t` its returns (bookkeeping).
-/

namespace Verif.Barrier.Centralized

open Verif

inductive PC
  | idle
  | faa        -- line 46
  | sto0       -- line 48
  | stoS       -- line 50
  | wait       -- line 55
  deriving DecidableEq

structure Th where
  pc : PC
  sense : Bool
  e : Nat
  r : Nat

structure St (n : Nat) where
  value : BitVec 32
  sense : Bool
  th : Fin n → Th

inductive Act (n : Nat)
  | call (t : Fin n)
  | run (t : Fin n)
  deriving DecidableEq

variable {n : Nat}

def initSt (n : Nat) : St n :=
  { value := 0, sense := false, th := fun _ => { pc := .idle, sense := false, e := 0, r := 0 } }

def step (s : St n) : Act n → Option (St n)
  -- line 45
  | .call t =>
    if (s.th t).pc = .idle then
      some { s with th := upd s.th t { s.th t with pc := .faa, sense := !(s.th t).sense,
                                                   e := (s.th t).e + 1 } }
    else none
  | .run t => match (s.th t).pc with
    | .faa =>
      if s.value = BitVec.ofNat 32 n - 1 then
        some { s with value := s.value + 1, th := upd s.th t { s.th t with pc := .sto0 } }
      else some { s with value := s.value + 1, th := upd s.th t { s.th t with pc := .wait } }
    | .sto0 => some { s with value := 0, th := upd s.th t { s.th t with pc := .stoS } }
    | .stoS => some { s with sense := (s.th t).sense,
                             th := upd s.th t { s.th t with pc := .idle, r := (s.th t).r + 1 } }
    | .wait =>
      if (s.th t).sense ≠ s.sense then some s
      else some { s with th := upd s.th t { s.th t with pc := .idle, r := (s.th t).r + 1 } }
    | _ => none

def sys (n : Nat) : Sys (St n) (Act n) := { init := (· = initSt n), step := step }

end Verif.Barrier.Centralized
