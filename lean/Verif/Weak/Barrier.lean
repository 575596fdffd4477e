import Verif.Core.Count
import Verif.Weak.Fas

/-!
# Centralized barrier on relaxed memory (C74), `src/ck_barrier_centralized.c`

Any number of threads, data words (`usr x`) accessed between barriers.  Loads return any value the memory model allows.  `fc` tells
which fences exist.  There is no fence between the caller's stores and the announcement in line 45: `fc.user` is one the caller
may have put before the call.
-/

namespace Verif.Weak.Barrier

open Verif
open Verif.Weak.Fas (opt last_rmw last_store)

inductive Loc
  | value
  | sense
  | usr (x : Nat)
deriving DecidableEq

structure Fences where
  /-- `ck_pr_fence_release` by the caller, before the call -/
  user : Bool
  /-- line 48 -/
  mem : Bool
  /-- line 53 -/
  ld : Bool
  /-- line 57 -/
  acq : Bool

/-- The code as it is. -/
def real : Fences := { user := false, mem := true, ld := true, acq := true }

/-- The code, called after a release fence. -/
def fenced : Fences := { real with user := true }

inductive PC
  | idle
  /-- line 47 -/
  | rst
  /-- line 48 -/
  | pub0
  /-- line 49 -/
  | pub1
  /-- line 53 -/
  | fen
  /-- line 54 -/
  | wait
deriving DecidableEq

structure TS where
  pc : PC
  th : Th Loc
  /-- `state->sense` -/
  sense : Nat
  /-- ghost: number of calls -/
  rd : Nat

structure St (n : Nat) where
  mem : Mem Loc Nat
  sc : View Loc
  ts : Fin n → TS
  /-- ghost: `snap t k x` is the newest value of `x` that thread `t` had stored or seen when it made its `k`-th call -/
  snap : Fin n → Nat → Nat → Nat

inductive Act (n : Nat)
  | arrive (t : Fin n)
  | rst (t : Fin n)
  | pub0 (t : Fin n)
  | pub1 (t : Fin n)
  | fen (t : Fin n)
  | look (t : Fin n) (i : Nat)
  | read (t : Fin n) (x i : Nat)
  | write (t : Fin n) (x v : Nat)

/-- `~` on `unsigned int`, line 44. -/
def inv32 (v : Nat) : Nat := 2 ^ 32 - 1 - v

/-- `CK_BARRIER_CENTRALIZED_INITIALIZER`, `CK_BARRIER_CENTRALIZED_STATE_INITIALIZER`, include/ck_barrier.h lines 45-46. -/
def initSt (n : Nat) : St n :=
  { mem := Mem.init fun _ => 0, sc := fun _ => 0
    ts := fun _ => { pc := .idle, th := Th.init, sense := 0, rd := 0 }, snap := fun _ _ _ => 0 }

/-- `ck_barrier_centralized`, lines 31-59. -/
def step {n : Nat} (fc : Fences) (s : St n) : Act n → Option (St n)
  -- lines 44-46
  | .arrive t =>
    if (s.ts t).pc = .idle then
      some { s with
        mem := s.mem.rmw (opt fc.user Th.fenceRel (s.ts t).th) .value ((s.mem.last .value + 1) % 2 ^ 32)
        ts := upd s.ts t
          { pc := if s.mem.last .value = n - 1 then .rst else .fen
            th := (opt fc.user Th.fenceRel (s.ts t).th).rmw s.mem .value
            sense := inv32 (s.ts t).sense, rd := (s.ts t).rd + 1 }
        snap := upd s.snap t (upd (s.snap t) ((s.ts t).rd + 1) fun x => (s.ts t).th.cur (.usr x)) }
    else none
  -- line 47
  | .rst t =>
    if (s.ts t).pc = .rst then
      some { s with
        mem := s.mem.store (s.ts t).th .value 0
        ts := upd s.ts t { s.ts t with pc := .pub0, th := (s.ts t).th.store s.mem .value } }
    else none
  -- line 48
  | .pub0 t =>
    if (s.ts t).pc = .pub0 then
      if fc.mem then
        some { s with
          sc := (s.ts t).th.fenceSc s.sc, ts := upd s.ts t { s.ts t with pc := .pub1, th := (s.ts t).th.fence s.sc } }
      else some { s with ts := upd s.ts t { s.ts t with pc := .pub1 } }
    else none
  -- lines 49-50
  | .pub1 t =>
    if (s.ts t).pc = .pub1 then
      some { s with
        mem := s.mem.store (s.ts t).th .sense (s.ts t).sense
        ts := upd s.ts t { s.ts t with pc := .idle, th := (s.ts t).th.store s.mem .sense } }
    else none
  -- line 53
  | .fen t =>
    if (s.ts t).pc = .fen then
      if fc.ld then
        some { s with
          sc := (s.ts t).th.fenceSc s.sc, ts := upd s.ts t { s.ts t with pc := .wait, th := (s.ts t).th.fence s.sc } }
      else some { s with ts := upd s.ts t { s.ts t with pc := .wait } }
    else none
  -- lines 54-58, loading value `i` of `sense`
  | .look t i =>
    if (s.ts t).pc = .wait ∧ (s.ts t).th.may s.mem .sense i then
      if (s.mem.msg .sense i).val = (s.ts t).sense then
        some { s with
          ts := upd s.ts t { s.ts t with pc := .idle, th := opt fc.acq Th.fenceAcq ((s.ts t).th.load s.mem .sense i) } }
      else some { s with ts := upd s.ts t { s.ts t with th := (s.ts t).th.load s.mem .sense i } }
    else none
  -- the client, outside of the barrier
  | .read t x i =>
    if (s.ts t).pc = .idle ∧ (s.ts t).th.may s.mem (.usr x) i then
      some { s with ts := upd s.ts t { s.ts t with th := (s.ts t).th.load s.mem (.usr x) i } }
    else none
  | .write t x v =>
    if (s.ts t).pc = .idle then
      some { s with
        mem := s.mem.store (s.ts t).th (.usr x) v
        ts := upd s.ts t { s.ts t with th := (s.ts t).th.store s.mem (.usr x) } }
    else none

def sys (fc : Fences) (n : Nat) : Sys (St n) (Act n) := { init := (· = initSt n), step := step fc }

end Verif.Weak.Barrier
