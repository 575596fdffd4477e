import Verif.Core.Count
import Verif.Core.Tactic
import Verif.Core.Spec

/-!
# FAS, CAS and DEC spinlocks (models)

`include/spinlock/fas.h`, `include/spinlock/cas.h`, `include/spinlock/dec.h`.
One step per atomic access.  The `_eb` variants differ by waiting with `ck_backoff_eb` instead of a
load loop; a thread may simply stay longer between two accesses, so `lock_eb` executions are the
executions of `lock` in which the load step (`spin`) is skipped (action `retry`).
-/

namespace Verif.Spin

/-- Actions of a client thread.  `lock`, `trylock`, `unlock` call the function,
`run` executes the next atomic access of a running `lock`, `retry` is the `_eb` variant's
"back off, then try again without looking". -/
inductive Act (n : Nat)
  | lock (t : Fin n)
  | trylock (t : Fin n)
  | unlock (t : Fin n)
  | run (t : Fin n)
  | retry (t : Fin n)
  deriving DecidableEq

/-- Where a thread is: outside, about to execute the acquiring RMW, in the read-only wait loop,
or between the return of a successful lock/trylock and the call of unlock. -/
inductive PC
  | idle | rmw | spin | inside
  deriving DecidableEq

structure St (n : Nat) where
  value : BitVec 32
  pc : Fin n → PC

/-- The thread is between a successful lock/trylock return and its unlock. -/
def St.holds {n : Nat} (s : St n) (t : Fin n) : Prop := s.pc t = .inside

namespace Fas

/-- `fas.h:46-53` (init) and all threads outside. -/
def initSt (n : Nat) : St n := { value := 0, pc := fun _ => .idle }

/-- `fas.h:55-109`. -/
def step {n : Nat} (s : St n) : Act n → Option (St n)
  | .lock t => if s.pc t = .idle then some { s with pc := upd s.pc t .rmw } else none
  -- fas.h:60: value = fas(&lock->value, true); return !value
  | .trylock t =>
    if s.pc t = .idle then
      some { value := 1, pc := upd s.pc t (if s.value = 0 then .inside else .idle) }
    else none
  -- fas.h:107
  | .unlock t =>
    if s.pc t = .inside then some { value := 0, pc := upd s.pc t .idle } else none
  | .run t => match s.pc t with
    -- fas.h:80: while (fas(&lock->value, true) == true)
    | .rmw => some { value := 1, pc := upd s.pc t (if s.value = 1 then .spin else .inside) }
    -- fas.h:83: while (load(&lock->value) == true)
    | .spin => some { s with pc := upd s.pc t (if s.value = 1 then .spin else .rmw) }
    | _ => none
  -- fas.h:95-96 (lock_eb)
  | .retry t => if s.pc t = .spin then some { s with pc := upd s.pc t .rmw } else none

def sys (n : Nat) : Sys (St n) (Act n) := { init := (· = initSt n), step := step }

/-- `ck_spinlock_fas_locked` (fas.h:67-74). -/
def locked {n : Nat} (s : St n) : Bool := s.value ≠ 0

end Fas

namespace Cas

/-- `cas.h:48-55`. -/
def initSt (n : Nat) : St n := { value := 0, pc := fun _ => .idle }

/-- `cas.h:57-109`. -/
def step {n : Nat} (s : St n) : Act n → Option (St n)
  | .lock t => if s.pc t = .idle then some { s with pc := upd s.pc t .rmw } else none
  -- cas.h:62
  | .trylock t =>
    if s.pc t = .idle then
      some { value := 1, pc := upd s.pc t (if s.value = 0 then .inside else .idle) }
    else none
  -- cas.h:107
  | .unlock t =>
    if s.pc t = .inside then some { value := 0, pc := upd s.pc t .idle } else none
  | .run t => match s.pc t with
    -- cas.h:80: while (cas(&lock->value, false, true) == false)
    | .rmw => if s.value = 0 then some { value := 1, pc := upd s.pc t .inside }
              else some { s with pc := upd s.pc t .spin }
    -- cas.h:81
    | .spin => some { s with pc := upd s.pc t (if s.value = 1 then .spin else .rmw) }
    | _ => none
  -- cas.h:94-95 (lock_eb)
  | .retry t => if s.pc t = .spin then some { s with pc := upd s.pc t .rmw } else none

def sys (n : Nat) : Sys (St n) (Act n) := { init := (· = initSt n), step := step }

/-- `ck_spinlock_cas_locked` (cas.h:67-74). -/
def locked {n : Nat} (s : St n) : Bool := s.value ≠ 0

end Cas

namespace Dec

/-- `dec.h:50-57`. -/
def initSt (n : Nat) : St n := { value := 1, pc := fun _ => .idle }

/-- `dec.h:59-134`. -/
def step {n : Nat} (s : St n) : Act n → Option (St n)
  | .lock t => if s.pc t = .idle then some { s with pc := upd s.pc t .rmw } else none
  -- dec.h:64: value = fas(&lock->value, 0); return value == 1
  | .trylock t =>
    if s.pc t = .idle then
      some { value := 0, pc := upd s.pc t (if s.value = 1 then .inside else .idle) }
    else none
  -- dec.h:132
  | .unlock t =>
    if s.pc t = .inside then some { value := 1, pc := upd s.pc t .idle } else none
  | .run t => match s.pc t with
    -- dec.h:90-92: dec_zero(&lock->value, &r); if (r) break
    | .rmw => some { value := s.value - 1,
                     pc := upd s.pc t (if s.value - 1 = 0 then .inside else .spin) }
    -- dec.h:95: while (load(&lock->value) != 1)
    | .spin => some { s with pc := upd s.pc t (if s.value = 1 then .rmw else .spin) }
    | _ => none
  | .retry _ => none

def sys (n : Nat) : Sys (St n) (Act n) := { init := (· = initSt n), step := step }

/-- `ck_spinlock_dec_locked` (dec.h:69-77). -/
def locked {n : Nat} (s : St n) : Bool := s.value ≠ 1

end Dec

end Verif.Spin
