import Verif.Weak.Put
import Verif.Rw.PflockThm

/-!
# Phase-fair lock on relaxed memory (C81), `include/ck_pflock.h`

As `Verif.Rw.Pflock`, whose program counters and ghost state are used, on the memory of `Verif.Weak`: loads return any value the memory model
allows that was replaced at most `lag` stores ago.  The words are 32 bits wide and wrap.  Data words (`usr x`) are loaded by readers and writers
and stored to by writers while they hold the lock.  `fc` tells which fences exist; all of them do in the code.
-/

namespace Verif.Weak.Pflock

open Verif
open Verif.Rw.Pflock (PC)
open Fas (opt)

inductive Loc
  | rin
  | rout
  | win
  | wout
  | usr (x : Nat)
deriving DecidableEq

abbrev Word := BitVec 32

/-- `rlock`: line 138; `wlock`: line 106; `wunlock`: line 74; `runlock`: line 114. -/
structure Fences where
  rlock : Bool
  wlock : Bool
  wunlock : Bool
  runlock : Bool

def real : Fences := { rlock := true, wlock := true, wunlock := true, runlock := true }

structure St (n : Nat) where
  mem : Mem Loc Word
  th : Fin n → Th Loc
  pc : Fin n → PC
  /-- ghost, as in `Verif.Rw.Pflock` -/
  q : Q n
  ri : Nat
  ro : Nat
  ph : Nat
  ann : Bool
  old : Fin n → Bool
  gph : Fin n → Nat
  entries : Nat
  e0 : Fin n → Nat

inductive Act (n : Nat)
  | wlock (t : Fin n)
  | wunlock (t : Fin n)
  | rlock (t : Fin n)
  | runlock (t : Fin n)
  /-- the next step of `t`; if it loads, it loads value `i` -/
  | run (t : Fin n) (i : Nat)
  | read (t : Fin n) (x i : Nat)
  | write (t : Fin n) (x : Nat) (v : Word)

/-- lines 57-68. -/
def initSt (n : Nat) : St n :=
  { mem := Mem.init fun _ => 0, th := fun _ => Th.init, pc := fun _ => .idle, q := Q.empty n, ri := 0, ro := 0, ph := 0, ann := false
    old := fun _ => false, gph := fun _ => 0, entries := 0, e0 := fun _ => 0 }

variable {n : Nat}

/-- `t` may load value `i` of `l`. -/
def St.may (s : St n) (lag : Nat) (t : Fin n) (l : Loc) (i : Nat) : Prop := (s.th t).may s.mem l i ∧ s.mem.top l ≤ i + lag

instance (s : St n) (lag : Nat) (t : Fin n) (l : Loc) (i : Nat) : Decidable (s.may lag t l i) := by unfold St.may; infer_instance

/-- lines 70-140. -/
def step (fc : Fences) (lag : Nat) (s : St n) : Act n → Option (St n)
  -- line 90
  | .wlock t =>
    if s.pc t = .idle then
      some { s with
        mem := s.mem.rmw (s.th t) .win (s.mem.last .win + 1), th := upd s.th t ((s.th t).rmw s.mem .win)
        pc := upd s.pc t (.wSpin (s.mem.last .win)), q := s.q.arrive t }
    else none
  -- lines 74, 77
  | .wunlock t =>
    if s.pc t = .writing then
      let u := opt fc.wunlock Th.fenceRel (s.th t)
      some { s with
        mem := s.mem.rmw u .rin (s.mem.last .rin &&& 0xFFFFFFF0#32), th := upd s.th t (u.rmw s.mem .rin), pc := upd s.pc t .uFaa
        ann := false }
    else none
  -- lines 128-130, and 138
  | .rlock t =>
    if s.pc t = .idle then
      let m := s.mem.rmw (s.th t) .rin (s.mem.last .rin + 0x100)
      let u := (s.th t).rmw s.mem .rin
      if s.mem.last .rin &&& 3 = 0 then
        some { s with
          mem := m, th := upd s.th t (opt fc.rlock Th.fenceAcq u), pc := upd s.pc t .reading, ri := s.ri + 1, old := upd s.old t false
          e0 := upd s.e0 t s.entries }
      else
        some { s with
          mem := m, th := upd s.th t u, pc := upd s.pc t (.rSpin (s.mem.last .rin &&& 3)), ri := s.ri + 1, old := upd s.old t false
          gph := upd s.gph t (s.ph - 1), e0 := upd s.e0 t s.entries }
    else none
  -- lines 114, 115
  | .runlock t =>
    if s.pc t = .reading then
      let u := opt fc.runlock Th.fenceRel (s.th t)
      some { s with
        mem := s.mem.rmw u .rout (s.mem.last .rout + 0x100), th := upd s.th t (u.rmw s.mem .rout), pc := upd s.pc t .idle
        ro := s.ro + 1, old := upd s.old t false }
    else none
  | .run t i => match s.pc t with
    -- line 91
    | .wSpin k =>
      if s.may lag t .wout i then
        let u := (s.th t).load s.mem .wout i
        if (s.mem.msg .wout i).val = k then some { s with th := upd s.th t u, pc := upd s.pc t (.wAnn k), q := s.q.enter t }
        else some { s with th := upd s.th t u }
      else none
    -- lines 99-100
    | .wAnn k =>
      some { s with
        mem := s.mem.rmw (s.th t) .rin (s.mem.last .rin + ((k &&& 1) ||| 2)), th := upd s.th t ((s.th t).rmw s.mem .rin)
        pc := upd s.pc t (.wWait (s.mem.last .rin)), ph := s.ph + 1, ann := true, old := fun u => (s.pc u).rd }
    -- line 103, and 106
    | .wWait r =>
      if s.may lag t .rout i then
        let u := (s.th t).load s.mem .rout i
        if (s.mem.msg .rout i).val = r then
          some { s with th := upd s.th t (opt fc.wlock Th.fenceAcq u), pc := upd s.pc t .writing, entries := s.entries + 1 }
        else some { s with th := upd s.th t u }
      else none
    -- line 80
    | .uFaa =>
      some { s with
        mem := s.mem.rmw (s.th t) .wout (s.mem.last .wout + 1), th := upd s.th t ((s.th t).rmw s.mem .wout), pc := upd s.pc t .idle
        q := s.q.leave }
    -- line 133, and 138
    | .rSpin w =>
      if s.may lag t .rin i then
        let u := (s.th t).load s.mem .rin i
        if (s.mem.msg .rin i).val &&& 3 = w then some { s with th := upd s.th t u }
        else some { s with th := upd s.th t (opt fc.rlock Th.fenceAcq u), pc := upd s.pc t .reading }
      else none
    | _ => none
  -- the client
  | .read t x i =>
    if (s.pc t = .reading ∨ s.pc t = .writing) ∧ s.may lag t (.usr x) i then
      some { s with th := upd s.th t ((s.th t).load s.mem (.usr x) i) }
    else none
  | .write t x v =>
    if s.pc t = .writing then
      some { s with mem := s.mem.store (s.th t) (.usr x) v, th := upd s.th t ((s.th t).store s.mem (.usr x)) }
    else none

def sys (fc : Fences) (lag n : Nat) : Sys (St n) (Act n) := { init := (· = initSt n), step := step fc lag }

/-- Between the return of write_lock and the call of write_unlock. -/
def St.writes (s : St n) (t : Fin n) : Prop := s.pc t = .writing
/-- Between the return of read_lock and the call of read_unlock. -/
def St.reads (s : St n) (t : Fin n) : Prop := s.pc t = .reading
/-- Announced (line 128 executed) and waiting. -/
def St.rwaits (s : St n) (t : Fin n) : Prop := ∃ w, s.pc t = .rSpin w

end Verif.Weak.Pflock
