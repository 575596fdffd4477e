import Verif.Core.Seg
import Verif.Core.Tactic
import Verif.Core.Spec

/-!
# `ck_brlock` (model), `include/ck_brlock.h`

Every thread owns one reader object, named like the thread.  One step per access to shared memory,
with two simplifications: the list surgery of read_register (lines 151-154) and of read_unregister
(lines 166-172) is one step each (these fields are only accessed by the owner of `writer`, as the
invariant shows for `cursor`), and `n_readers` is a `Nat` (nesting depth below 2^32).
The step bound `factor` of the trylock variants is replaced by the choice `giveup` whenever an
attempt fails: this contains the behaviour of every factor.
Ghost (never read by a step): `lst` the registered readers, `depth t` the number of read
acquisitions of `t` minus its releases.
Client protocol: a reader object is registered before it is used, not registered twice, and
unregistered at most once.
-/

namespace Verif.Rw.Brlock

open Verif

/-- Which function called the write-lock part. -/
inductive Kind
  | lock | try_ | reg | unreg
  deriving DecidableEq

inductive Act (n : Nat)
  | wlock (t : Fin n)
  | wtrylock (t : Fin n)
  | wunlock (t : Fin n)
  | register (t : Fin n)
  | unregister (t : Fin n)
  | rlock (t : Fin n)
  | rtrylock (t : Fin n)
  | runlock (t : Fin n)
  | run (t : Fin n)
  | giveup (t : Fin n)
  deriving DecidableEq

inductive PC (n : Nat)
  | idle
  | wFas (k : Kind)                    -- lines 83 / 113
  | wHead (k : Kind)                   -- lines 89 / 126: cursor = br->readers
  | wWait (k : Kind) (c : Fin n)       -- lines 90 / 127
  | wNext (k : Kind) (c : Fin n)       -- lines 89 / 126: cursor = cursor->next
  | wBack                              -- line 129
  | writing
  | link                               -- lines 151-154
  | unlink                             -- lines 166-172
  | release                            -- lines 156 / 174
  | rLoad (try_ : Bool)                -- lines 188 / 232
  | rSet (try_ : Bool)                 -- lines 192-200 / 240-248
  | rCheck (try_ : Bool)               -- lines 209 / 257
  | rBack (try_ : Bool)                -- lines 212 / 260
  | rFail                              -- line 262: may give up or loop
  deriving DecidableEq

structure St (n : Nat) where
  readers : Option (Fin n)
  writer : Bool
  nreaders : Fin n → Nat
  next : Fin n → Option (Fin n)
  prev : Fin n → Option (Fin n)
  pc : Fin n → PC n
  lst : List (Fin n)
  depth : Fin n → Nat

/-- lines 64-72, and reader objects with arbitrary `next`, `previous` (set by read_register). -/
def isInit {n : Nat} (s : St n) : Prop :=
  s.readers = none ∧ s.writer = false ∧ (∀ t, s.nreaders t = 0) ∧ (∀ t, s.pc t = .idle) ∧
  s.lst = [] ∧ ∀ t, s.depth t = 0

/-- What follows the scan: return, or the list surgery. -/
def afterScan {n : Nat} : Kind → PC n
  | .lock | .try_ => .writing
  | .reg => .link
  | .unreg => .unlink

/-- The loop test `cursor != NULL` (lines 89 / 126). -/
def scan {n : Nat} (k : Kind) : Option (Fin n) → PC n
  | none => afterScan k
  | some c => .wWait k c

/-- lines 151-154. -/
def linkIn {n : Nat} (s : St n) (t : Fin n) : St n :=
  { s with
    next := upd s.next t s.readers
    prev := match s.readers with
      | none => s.prev
      | some y => upd s.prev y (some t)
    readers := some t
    lst := t :: s.lst }

/-- lines 166-172. -/
def unlinkOut {n : Nat} (s : St n) (t : Fin n) : St n :=
  { s with
    prev := match s.next t with
      | none => s.prev
      | some y => upd s.prev y (s.prev t)
    next := match s.prev t with
      | none => s.next
      | some z => upd s.next z (s.next t)
    readers := match s.prev t with
      | none => s.next t
      | some _ => s.readers
    lst := s.lst.erase t }

def step {n : Nat} (s : St n) : Act n → Option (St n)
  | .wlock t => if s.pc t = .idle then some { s with pc := upd s.pc t (.wFas .lock) } else none
  | .wtrylock t => if s.pc t = .idle then some { s with pc := upd s.pc t (.wFas .try_) } else none
  -- line 103
  | .wunlock t =>
    if s.pc t = .writing then some { s with writer := false, pc := upd s.pc t .idle } else none
  -- lines 145-146
  | .register t =>
    if s.pc t = .idle ∧ t ∉ s.lst then
      some { s with nreaders := upd s.nreaders t 0, prev := upd s.prev t none,
                    pc := upd s.pc t (.wFas .reg) } else none
  | .unregister t =>
    if s.pc t = .idle ∧ t ∈ s.lst then some { s with pc := upd s.pc t (.wFas .unreg) } else none
  -- lines 182-185
  | .rlock t =>
    if s.pc t = .idle ∧ t ∈ s.lst then
      if 1 ≤ s.nreaders t then
        some { s with nreaders := upd s.nreaders t (s.nreaders t + 1),
                      depth := upd s.depth t (s.depth t + 1) }
      else some { s with pc := upd s.pc t (.rLoad false) }
    else none
  -- lines 226-229
  | .rtrylock t =>
    if s.pc t = .idle ∧ t ∈ s.lst then
      if 1 ≤ s.nreaders t then
        some { s with nreaders := upd s.nreaders t (s.nreaders t + 1),
                      depth := upd s.depth t (s.depth t + 1) }
      else some { s with pc := upd s.pc t (.rLoad true) }
    else none
  -- line 275
  | .runlock t =>
    if s.pc t = .idle ∧ 0 < s.depth t then
      some { s with nreaders := upd s.nreaders t (s.nreaders t - 1),
                    depth := upd s.depth t (s.depth t - 1) }
    else none
  | .run t => match s.pc t with
    | .wFas k =>
      if s.writer then some { s with writer := true }
      else some { s with writer := true, pc := upd s.pc t (.wHead k) }
    | .wHead k => some { s with pc := upd s.pc t (scan k s.readers) }
    | .wWait k c => if s.nreaders c ≠ 0 then some s else some { s with pc := upd s.pc t (.wNext k c) }
    | .wNext k c => some { s with pc := upd s.pc t (scan k (s.next c)) }
    | .wBack => some { s with writer := false, pc := upd s.pc t .idle }
    | .link => some { linkIn s t with pc := upd s.pc t .release }
    | .unlink => some { unlinkOut s t with pc := upd s.pc t .release }
    | .release => some { s with writer := false, pc := upd s.pc t .idle }
    | .rLoad b => if s.writer then some s else some { s with pc := upd s.pc t (.rSet b) }
    | .rSet b => some { s with nreaders := upd s.nreaders t 1, pc := upd s.pc t (.rCheck b) }
    | .rCheck b =>
      if s.writer then some { s with pc := upd s.pc t (.rBack b) }
      else some { s with pc := upd s.pc t .idle, depth := upd s.depth t 1 }
    | .rBack true => some { s with nreaders := upd s.nreaders t 0, pc := upd s.pc t .rFail }
    | .rBack false => some { s with nreaders := upd s.nreaders t 0, pc := upd s.pc t (.rLoad false) }
    | .rFail => some { s with pc := upd s.pc t (.rLoad true) }
    | _ => none
  | .giveup t => match s.pc t with
    -- lines 114-115
    | .wFas .try_ => if s.writer then some { s with pc := upd s.pc t .idle } else none
    -- lines 127-128
    | .wWait .try_ c => if s.nreaders c ≠ 0 then some { s with pc := upd s.pc t .wBack } else none
    -- lines 232-234
    | .rLoad true => if s.writer then some { s with pc := upd s.pc t .idle } else none
    -- lines 262-263
    | .rFail => some { s with pc := upd s.pc t .idle }
    | _ => none

def sys (n : Nat) : Sys (St n) (Act n) := { init := isInit, step := step }

/-- Between the return of write_lock / a successful write_trylock and write_unlock. -/
def St.writes {n : Nat} (s : St n) (t : Fin n) : Prop := s.pc t = .writing
/-- More read acquisitions than releases. -/
def St.reads {n : Nat} (s : St n) (t : Fin n) : Prop := 0 < s.depth t

end Verif.Rw.Brlock
