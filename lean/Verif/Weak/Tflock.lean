import Verif.Weak.Put
import Verif.Rw.TflockThm

/-!
# Task-fair lock on relaxed memory (C81), `include/ck_tflock.h`

As `Verif.Rw.Tflock`, whose program counters, arithmetic and ghost state are used, on the memory of `Verif.Weak`: loads return any value the
memory model allows.  Data words (`usr x`) are loaded by readers and writers and stored to by writers while they hold the lock.  `fc` tells
which fences exist; all of them do in the code.
-/

namespace Verif.Weak.Tflock

open Verif
open Verif.Rw.Tflock (PC goalR goalW)
open Fas (opt)

inductive Loc
  | request
  | completion
  | usr (x : Nat)
deriving DecidableEq

abbrev Word := BitVec 32

/-- `al`: lines 88, 115; `lock`: lines 92, 122; `unlock`: lines 100, 130. -/
structure Fences where
  al : Bool
  lock : Bool
  unlock : Bool

def real : Fences := { al := true, lock := true, unlock := true }

structure St (n : Nat) where
  mem : Mem Loc Word
  sc : View Loc
  th : Fin n → Th Loc
  pc : Fin n → PC
  /-- the next step is the fence of line 88 or 115 -/
  fen : Fin n → Bool
  /-- ghost, as in `Verif.Rw.Tflock` -/
  rq : Nat
  wq : Nat
  rc : Nat
  wc : Nat
  r : Fin n → Nat
  w : Fin n → Nat
  /-- ghost: how many of the first `i` completions are of readers -/
  hr : Nat → Nat

inductive Act (n : Nat)
  | wlock (t : Fin n)
  | wunlock (t : Fin n)
  | rlock (t : Fin n)
  | runlock (t : Fin n)
  /-- the next step of `t`; if it loads, it loads value `i` -/
  | run (t : Fin n) (i : Nat)
  /-- the `cas` of line 63 fails, having loaded value `i` -/
  | fail (t : Fin n) (i : Nat)
  | read (t : Fin n) (x i : Nat)
  | write (t : Fin n) (x : Nat) (v : Word)

/-- lines 72-79. -/
def initSt (n : Nat) : St n :=
  { mem := Mem.init fun _ => 0, sc := fun _ => 0, th := fun _ => Th.init, pc := fun _ => .idle, fen := fun _ => false, rq := 0, wq := 0, rc := 0
    wc := 0, r := fun _ => 0, w := fun _ => 0, hr := fun _ => 0 }

variable {n : Nat}

/-- The word that `ck_tflock_ticket_fca_32` is called with. -/
def target : Rw.Tflock.Op → Loc
  | .wl | .rl => .request
  | .wu | .ru => .completion

/-- Lines 55-134. -/
def step (fc : Fences) (s : St n) : Act n → Option (St n)
  | .wlock t => if s.pc t = .idle then some { s with pc := upd s.pc t (.load .wl) } else none
  | .rlock t => if s.pc t = .idle then some { s with pc := upd s.pc t (.load .rl) } else none
  -- line 100
  | .wunlock t =>
    if s.pc t = .writing then some { s with th := upd s.th t (opt fc.unlock Th.fenceRel (s.th t)), pc := upd s.pc t (.load .wu) } else none
  -- line 130
  | .runlock t =>
    if s.pc t = .reading then some { s with th := upd s.th t (opt fc.unlock Th.fenceRel (s.th t)), pc := upd s.pc t (.load .ru) } else none
  | .run t i => match s.pc t with
    -- line 58
    | .load o =>
      if (s.th t).may s.mem (target o) i then
        some { s with th := upd s.th t ((s.th t).load s.mem (target o) i), pc := upd s.pc t (.cas o (s.mem.msg (target o) i).val) }
      else none
    -- lines 62, 63
    | .cas .wl x =>
      if s.mem.last .request = x then
        some { s with
          mem := s.mem.rmw (s.th t) .request (goalW x), th := upd s.th t ((s.th t).rmw s.mem .request), pc := upd s.pc t (.wSpin x)
          fen := upd s.fen t true, wq := s.wq + 1, r := upd s.r t s.rq, w := upd s.w t s.wq }
      else none
    | .cas .rl x =>
      if s.mem.last .request = x then
        some { s with
          mem := s.mem.rmw (s.th t) .request (goalR x), th := upd s.th t ((s.th t).rmw s.mem .request)
          pc := upd s.pc t (.rSpin (x &&& 0xffff#32)), fen := upd s.fen t true, rq := s.rq + 1, r := upd s.r t s.rq, w := upd s.w t s.wq }
      else none
    | .cas .wu x =>
      if s.mem.last .completion = x then
        some { s with
          mem := s.mem.rmw (s.th t) .completion (goalW x), th := upd s.th t ((s.th t).rmw s.mem .completion), pc := upd s.pc t .idle
          wc := s.wc + 1, hr := upd s.hr (s.mem.top .completion + 1) s.rc }
      else none
    | .cas .ru x =>
      if s.mem.last .completion = x then
        some { s with
          mem := s.mem.rmw (s.th t) .completion (goalR x), th := upd s.th t ((s.th t).rmw s.mem .completion), pc := upd s.pc t .idle
          rc := s.rc + 1, hr := upd s.hr (s.mem.top .completion + 1) (s.rc + 1) }
      else none
    | .wSpin p =>
      -- line 88
      if s.fen t = true then
        if fc.al then some { s with sc := (s.th t).fenceSc s.sc, th := upd s.th t ((s.th t).fence s.sc), fen := upd s.fen t false }
        else some { s with fen := upd s.fen t false }
      -- lines 89, 92
      else if (s.th t).may s.mem .completion i then
        let u := (s.th t).load s.mem .completion i
        if (s.mem.msg .completion i).val = p then some { s with th := upd s.th t (opt fc.lock Th.fenceAcq u), pc := upd s.pc t .writing }
        else some { s with th := upd s.th t u }
      else none
    | .rSpin p =>
      -- line 115
      if s.fen t = true then
        if fc.al then some { s with sc := (s.th t).fenceSc s.sc, th := upd s.th t ((s.th t).fence s.sc), fen := upd s.fen t false }
        else some { s with fen := upd s.fen t false }
      -- lines 117-118, 122
      else if (s.th t).may s.mem .completion i then
        let u := (s.th t).load s.mem .completion i
        if (s.mem.msg .completion i).val &&& 0xffff#32 = p then
          some { s with th := upd s.th t (opt fc.lock Th.fenceAcq u), pc := upd s.pc t .reading }
        else some { s with th := upd s.th t u }
      else none
    | _ => none
  -- line 63
  | .fail t i => match s.pc t with
    | .cas o x =>
      if (s.th t).may s.mem (target o) i ∧ (s.mem.msg (target o) i).val ≠ x then
        some { s with th := upd s.th t ((s.th t).load s.mem (target o) i), pc := upd s.pc t (.cas o (s.mem.msg (target o) i).val) }
      else none
    | _ => none
  -- the client
  | .read t x i =>
    if (s.pc t = .reading ∨ s.pc t = .writing) ∧ (s.th t).may s.mem (.usr x) i then
      some { s with th := upd s.th t ((s.th t).load s.mem (.usr x) i) }
    else none
  | .write t x v =>
    if s.pc t = .writing then
      some { s with mem := s.mem.store (s.th t) (.usr x) v, th := upd s.th t ((s.th t).store s.mem (.usr x)) }
    else none

def sys (fc : Fences) (n : Nat) : Sys (St n) (Act n) := { init := (· = initSt n), step := step fc }

/-- From the return of write_lock to the completing CAS of write_unlock. -/
def St.writes (s : St n) (t : Fin n) : Prop := s.pc t = .writing ∨ s.pc t = .load .wu ∨ ∃ x, s.pc t = .cas .wu x
/-- From the return of read_lock to the completing CAS of read_unlock. -/
def St.reads (s : St n) (t : Fin n) : Prop := s.pc t = .reading ∨ s.pc t = .load .ru ∨ ∃ x, s.pc t = .cas .ru x
/-- A write request has been made and is not completed. -/
def St.wreq (s : St n) (t : Fin n) : Prop := s.writes t ∨ ∃ p, s.pc t = .wSpin p
/-- A read request has been made and is not completed. -/
def St.rreq (s : St n) (t : Fin n) : Prop := s.reads t ∨ ∃ p, s.pc t = .rSpin p
/-- Number of requests made before the current request of `t`. -/
def St.ix (s : St n) (t : Fin n) : Nat := s.r t + s.w t

end Verif.Weak.Tflock
