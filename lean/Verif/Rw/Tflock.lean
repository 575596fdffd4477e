import Verif.Core.Fifo
import Verif.Core.Tactic
import Verif.Core.Spec

/-!
# `ck_tflock_ticket` (model), `include/ck_tflock.h`

One step per atomic access, including the CAS loop `ck_tflock_ticket_fca_32` (lines 55-70; a failing
CAS returns the current value as the next snapshot).  Ghost: `rq`, `wq` (`rc`, `wc`) unbounded numbers
of read and write requests (completions), `r t`, `w t` the numbers of read and write requests before the
current request of `t`.
-/

namespace Verif.Rw.Tflock

inductive Op
  | wl | wu | rl | ru
  deriving DecidableEq

inductive Act (n : Nat)
  | wlock (t : Fin n)
  | wunlock (t : Fin n)
  | rlock (t : Fin n)
  | runlock (t : Fin n)
  | run (t : Fin n)
  deriving DecidableEq

inductive PC
  | idle
  | load (o : Op)                      -- line 58
  | cas (o : Op) (snapshot : BitVec 32) -- lines 62-63
  | wSpin (previous : BitVec 32)        -- line 89
  | rSpin (previous : BitVec 32)        -- lines 117-118
  | writing
  | reading
  deriving DecidableEq

structure St (n : Nat) where
  request : BitVec 32
  completion : BitVec 32
  pc : Fin n → PC
  rq : Nat
  wq : Nat
  rc : Nat
  wc : Nat
  r : Fin n → Nat
  w : Fin n → Nat

/-- lines 72-79. -/
def initSt (n : Nat) : St n :=
  { request := 0, completion := 0, pc := fun _ => .idle, rq := 0, wq := 0, rc := 0, wc := 0,
    r := fun _ => 0, w := fun _ => 0 }

/-- lines 86-87, 101-102: mask `CK_TFLOCK_TICKET_WC_TOPMSK`, delta 1. -/
def goalW (snapshot : BitVec 32) : BitVec 32 := (snapshot &&& ~~~0x8000#32) + 1
/-- lines 111-112, 131-132: mask `CK_TFLOCK_TICKET_RC_TOPMSK`, delta 0x10000. -/
def goalR (snapshot : BitVec 32) : BitVec 32 := (snapshot &&& ~~~0x80000000#32) + 0x10000#32

def step {n : Nat} (s : St n) : Act n → Option (St n)
  | .wlock t => if s.pc t = .idle then some { s with pc := upd s.pc t (.load .wl) } else none
  | .wunlock t => if s.pc t = .writing then some { s with pc := upd s.pc t (.load .wu) } else none
  | .rlock t => if s.pc t = .idle then some { s with pc := upd s.pc t (.load .rl) } else none
  | .runlock t => if s.pc t = .reading then some { s with pc := upd s.pc t (.load .ru) } else none
  | .run t => match s.pc t with
    | .load .wl => some { s with pc := upd s.pc t (.cas .wl s.request) }
    | .load .rl => some { s with pc := upd s.pc t (.cas .rl s.request) }
    | .load .wu => some { s with pc := upd s.pc t (.cas .wu s.completion) }
    | .load .ru => some { s with pc := upd s.pc t (.cas .ru s.completion) }
    | .cas .wl x =>
      if s.request = x then
        some { s with request := goalW x, pc := upd s.pc t (.wSpin x), wq := s.wq + 1,
                      r := upd s.r t s.rq, w := upd s.w t s.wq }
      else some { s with pc := upd s.pc t (.cas .wl s.request) }
    | .cas .rl x =>
      if s.request = x then
        some { s with request := goalR x, pc := upd s.pc t (.rSpin (x &&& 0xffff#32)),
                      rq := s.rq + 1, r := upd s.r t s.rq, w := upd s.w t s.wq }
      else some { s with pc := upd s.pc t (.cas .rl s.request) }
    | .cas .wu x =>
      if s.completion = x then
        some { s with completion := goalW x, pc := upd s.pc t .idle, wc := s.wc + 1 }
      else some { s with pc := upd s.pc t (.cas .wu s.completion) }
    | .cas .ru x =>
      if s.completion = x then
        some { s with completion := goalR x, pc := upd s.pc t .idle, rc := s.rc + 1 }
      else some { s with pc := upd s.pc t (.cas .ru s.completion) }
    | .wSpin p => if s.completion = p then some { s with pc := upd s.pc t .writing } else some s
    | .rSpin p =>
      if s.completion &&& 0xffff#32 = p then some { s with pc := upd s.pc t .reading } else some s
    | _ => none

def sys (n : Nat) : Sys (St n) (Act n) := { init := (· = initSt n), step := step }

/-- From the return of write_lock to the completing CAS of write_unlock. -/
def St.writes {n : Nat} (s : St n) (t : Fin n) : Prop :=
  s.pc t = .writing ∨ s.pc t = .load .wu ∨ ∃ x, s.pc t = .cas .wu x
/-- From the return of read_lock to the completing CAS of read_unlock. -/
def St.reads {n : Nat} (s : St n) (t : Fin n) : Prop :=
  s.pc t = .reading ∨ s.pc t = .load .ru ∨ ∃ x, s.pc t = .cas .ru x
/-- A write request has been made and is not completed. -/
def St.wreq {n : Nat} (s : St n) (t : Fin n) : Prop := s.writes t ∨ ∃ p, s.pc t = .wSpin p
/-- A read request has been made and is not completed. -/
def St.rreq {n : Nat} (s : St n) (t : Fin n) : Prop := s.reads t ∨ ∃ p, s.pc t = .rSpin p
/-- Number of requests made before the current request of `t`. -/
def St.ix {n : Nat} (s : St n) (t : Fin n) : Nat := s.r t + s.w t

end Verif.Rw.Tflock
