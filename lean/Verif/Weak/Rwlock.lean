import Verif.Core.Count
import Verif.Weak.Fas

/-!
# `ck_rwlock` on relaxed memory (C73), `include/ck_rwlock.h`

Any number of threads, one lock, data words (`usr x`) that are loaded by readers and writers and stored to by writers while
they hold the lock.  Loads return any value the memory model allows.  `fc` tells which fences exist; all of them do in the
code.  The counter of readers is a natural number (it never exceeds the number of threads).  Bookkeeping that no program step
reads: `wi`, index of the store of the last successful `ck_pr_fas_uint`; `ri`, index of a reader's increment; `lw`, `lu`, indices of
the first and the last store to `writer` of the last completed write section; `base`, the data at its end.
-/

namespace Verif.Weak.Rwlock

open Verif
open Verif.Weak.Fas (opt last_rmw last_store)

inductive Loc
  | writer
  | readers
  | usr (x : Nat)
deriving DecidableEq

/-- `rd`: lines 174, 146; `rdAcq`: lines 183, 149; `wr`: lines 120, 99; `wrAcq`: lines 125, 106; `unlock`: line 57. -/
structure Fences where
  rd : Bool
  rdAcq : Bool
  wr : Bool
  wrAcq : Bool
  unlock : Bool

def real : Fences := { rd := true, rdAcq := true, wr := true, wrAcq := true, unlock := true }

/-- `tr`: the thread has called a `trylock` function. -/
inductive PC
  | idle
  /-- line 165 (137): about to load `writer` -/
  | rwait (tr : Bool)
  /-- line 168 (140): about to increment -/
  | rinc (tr : Bool)
  /-- line 174 (146) -/
  | rfence (tr : Bool)
  /-- line 176 (148): about to load `writer` -/
  | rchk (tr : Bool)
  /-- line 179 (153): about to decrement -/
  | rdec (tr : Bool)
  /-- read section -/
  | rcs
  /-- line 117 (96) -/
  | wtry (tr : Bool)
  /-- line 120 (99) -/
  | wfence (tr : Bool)
  /-- line 122 (101): about to load `n_readers` -/
  | wchk (tr : Bool)
  /-- line 102: there are readers, about to unlock -/
  | wback
  /-- write section -/
  | wcs
  /-- line 77: about to unlock, after the increment of a downgrade -/
  | wdg
deriving DecidableEq

structure TS where
  pc : PC
  th : Th Loc
  ri : Nat

structure St (n : Nat) where
  mem : Mem Loc Nat
  sc : View Loc
  ts : Fin n → TS
  wi : Nat
  lw : Nat
  lu : Nat
  base : Nat → Nat

inductive Act (n : Nat)
  | rcall (t : Fin n) (tr : Bool)
  | rlook (t : Fin n) (i : Nat)
  | rinc (t : Fin n)
  | rfence (t : Fin n)
  | rchk (t : Fin n) (i : Nat)
  | rdec (t : Fin n)
  | runlock (t : Fin n)
  | wcall (t : Fin n) (tr : Bool)
  | wfas (t : Fin n)
  | wfence (t : Fin n)
  | wchk (t : Fin n) (i : Nat)
  | wback (t : Fin n)
  | wunlock (t : Fin n)
  | wdown (t : Fin n)
  | wdg (t : Fin n)
  | read (t : Fin n) (x i : Nat)
  | write (t : Fin n) (x v : Nat)

/-- `ck_rwlock_init`, lines 43-51. -/
def initSt (n : Nat) : St n :=
  { mem := Mem.init fun _ => 0, sc := fun _ => 0, ts := fun _ => { pc := .idle, th := Th.init, ri := 0 }
    wi := 0, lw := 0, lu := 0, base := fun _ => 0 }

/-- `ck_rwlock_write_unlock`, lines 57-58, at the end of a write section. -/
def release {n : Nat} (fc : Fences) (s : St n) (t : Fin n) (p : PC) : St n :=
  { s with
    mem := s.mem.store (opt fc.unlock Th.fenceRel (s.ts t).th) .writer 0
    ts := upd s.ts t
      { s.ts t with pc := p, th := (opt fc.unlock Th.fenceRel (s.ts t).th).store s.mem .writer }
    lw := s.wi, lu := s.mem.top .writer + 1, base := fun x => s.mem.top (.usr x) }

/-- Lines 53-202. -/
def step {n : Nat} (fc : Fences) (s : St n) : Act n → Option (St n)
  | .rcall t tr =>
    if (s.ts t).pc = .idle then some { s with ts := upd s.ts t { s.ts t with pc := .rwait tr } } else none
  -- lines 165-166, 137-138, loading value `i` of `writer`
  | .rlook t i => match (s.ts t).pc with
    | .rwait tr =>
      if (s.ts t).th.may s.mem .writer i then
        some { s with
          ts := upd s.ts t
            { s.ts t with
              th := (s.ts t).th.load s.mem .writer i
              pc := if (s.mem.msg .writer i).val = 0 then .rinc tr else if tr then .idle else .rwait tr } }
      else none
    | _ => none
  -- lines 168, 140
  | .rinc t => match (s.ts t).pc with
    | .rinc tr =>
      some { s with
        mem := s.mem.rmw (s.ts t).th .readers (s.mem.last .readers + 1)
        ts := upd s.ts t { pc := .rfence tr, th := (s.ts t).th.rmw s.mem .readers, ri := s.mem.top .readers + 1 } }
    | _ => none
  -- lines 174, 146
  | .rfence t => match (s.ts t).pc with
    | .rfence tr =>
      if fc.rd then
        some { s with
          sc := (s.ts t).th.fenceSc s.sc, ts := upd s.ts t { s.ts t with pc := .rchk tr, th := (s.ts t).th.fence s.sc } }
      else some { s with ts := upd s.ts t { s.ts t with pc := .rchk tr } }
    | _ => none
  -- lines 176-183, 148-149, loading value `i` of `writer`
  | .rchk t i => match (s.ts t).pc with
    | .rchk tr =>
      if (s.ts t).th.may s.mem .writer i then
        if (s.mem.msg .writer i).val = 0 then
          some { s with
            ts := upd s.ts t { s.ts t with pc := .rcs, th := opt fc.rdAcq Th.fenceLoad ((s.ts t).th.load s.mem .writer i) } }
        else
          some { s with ts := upd s.ts t { s.ts t with pc := .rdec tr, th := (s.ts t).th.load s.mem .writer i } }
      else none
    | _ => none
  -- lines 179, 153
  | .rdec t => match (s.ts t).pc with
    | .rdec tr =>
      some { s with
        mem := s.mem.rmw (s.ts t).th .readers (s.mem.last .readers - 1)
        ts := upd s.ts t { s.ts t with pc := if tr then .idle else .rwait tr, th := (s.ts t).th.rmw s.mem .readers } }
    | _ => none
  -- lines 199-200; the fence only orders loads before the decrement
  | .runlock t =>
    if (s.ts t).pc = .rcs then
      some { s with
        mem := s.mem.rmw (s.ts t).th .readers (s.mem.last .readers - 1)
        ts := upd s.ts t { s.ts t with pc := .idle, th := (s.ts t).th.rmw s.mem .readers } }
    else none
  | .wcall t tr =>
    if (s.ts t).pc = .idle then some { s with ts := upd s.ts t { s.ts t with pc := .wtry tr } } else none
  -- lines 117, 96
  | .wfas t => match (s.ts t).pc with
    | .wtry tr =>
      if s.mem.last .writer = 0 then
        some { s with
          mem := s.mem.rmw (s.ts t).th .writer 1
          ts := upd s.ts t { s.ts t with pc := .wfence tr, th := (s.ts t).th.rmw s.mem .writer }
          wi := s.mem.top .writer + 1 }
      else
        some { s with
          mem := s.mem.rmw (s.ts t).th .writer 1
          ts := upd s.ts t
            { s.ts t with pc := if tr then .idle else .wtry tr, th := (s.ts t).th.rmw s.mem .writer } }
    | _ => none
  -- lines 120, 99
  | .wfence t => match (s.ts t).pc with
    | .wfence tr =>
      if fc.wr then
        some { s with
          sc := (s.ts t).th.fenceSc s.sc, ts := upd s.ts t { s.ts t with pc := .wchk tr, th := (s.ts t).th.fence s.sc } }
      else some { s with ts := upd s.ts t { s.ts t with pc := .wchk tr } }
    | _ => none
  -- lines 122-125, 101-106, loading value `i` of `n_readers`
  | .wchk t i => match (s.ts t).pc with
    | .wchk tr =>
      if (s.ts t).th.may s.mem .readers i then
        if (s.mem.msg .readers i).val = 0 then
          some { s with
            ts := upd s.ts t { s.ts t with pc := .wcs, th := opt fc.wrAcq Th.fenceAcq ((s.ts t).th.load s.mem .readers i) } }
        else
          some { s with
            ts := upd s.ts t
              { s.ts t with pc := if tr then .wback else .wchk tr, th := (s.ts t).th.load s.mem .readers i } }
      else none
    | _ => none
  -- line 102
  | .wback t =>
    if (s.ts t).pc = .wback then
      some { s with
        mem := s.mem.store (opt fc.unlock Th.fenceRel (s.ts t).th) .writer 0
        ts := upd s.ts t
          { s.ts t with pc := .idle, th := (opt fc.unlock Th.fenceRel (s.ts t).th).store s.mem .writer } }
    else none
  -- lines 53-60
  | .wunlock t => if (s.ts t).pc = .wcs then some (release fc s t .idle) else none
  -- line 76
  | .wdown t =>
    if (s.ts t).pc = .wcs then
      some { s with
        mem := s.mem.rmw (s.ts t).th .readers (s.mem.last .readers + 1)
        ts := upd s.ts t { pc := .wdg, th := (s.ts t).th.rmw s.mem .readers, ri := s.mem.top .readers + 1 } }
    else none
  -- line 77
  | .wdg t => if (s.ts t).pc = .wdg then some (release fc s t .rcs) else none
  -- the client loads value `i` of its data
  | .read t x i =>
    if ((s.ts t).pc = .rcs ∨ (s.ts t).pc = .wcs) ∧ (s.ts t).th.may s.mem (.usr x) i then
      some { s with ts := upd s.ts t { s.ts t with th := (s.ts t).th.load s.mem (.usr x) i } }
    else none
  | .write t x v =>
    if (s.ts t).pc = .wcs then
      some { s with
        mem := s.mem.store (s.ts t).th (.usr x) v
        ts := upd s.ts t { s.ts t with th := (s.ts t).th.store s.mem (.usr x) } }
    else none

def sys (fc : Fences) (n : Nat) : Sys (St n) (Act n) := { init := (· = initSt n), step := step fc }

end Verif.Weak.Rwlock
