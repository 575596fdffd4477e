import Verif.Core.Count
import Verif.Core.Tactic
import Verif.Core.Spec

/-!
# `ck_rwlock` (model), `include/ck_rwlock.h:35-206`

One step per atomic access.  Elision wrappers (`CK_ELIDE_*`) are not modelled.  A thread holds the
lock at most once at a time; readers are anonymous in the code, so a thread that read-locks twice
behaves like two threads.
-/

namespace Verif.Rw.Rwlock

inductive Act (n : Nat)
  | wlock (t : Fin n)
  | wtrylock (t : Fin n)
  | wunlock (t : Fin n)
  | downgrade (t : Fin n)
  | rlock (t : Fin n)
  | rtrylock (t : Fin n)
  | runlock (t : Fin n)
  | run (t : Fin n)
  deriving DecidableEq

inductive PC
  | idle
  | wFas (try_ : Bool)    -- lines 96 / 117
  | wReaders (try_ : Bool) -- lines 101 / 122
  | wBack                 -- line 102 (store 0)
  | writing
  | dgStore               -- line 77 (store 0), after the increment of line 76
  | rLoad (try_ : Bool)   -- lines 137 / 165
  | rInc (try_ : Bool)    -- lines 140 / 168
  | rCheck (try_ : Bool)  -- lines 148 / 176
  | rDec (try_ : Bool)    -- lines 153 / 179
  | reading
  deriving DecidableEq

structure St (n : Nat) where
  writer : BitVec 32
  readers : BitVec 32
  pc : Fin n → PC

/-- lines 43-51. -/
def initSt (n : Nat) : St n := { writer := 0, readers := 0, pc := fun _ => .idle }

def step {n : Nat} (s : St n) : Act n → Option (St n)
  | .wlock t => if s.pc t = .idle then some { s with pc := upd s.pc t (.wFas false) } else none
  | .wtrylock t => if s.pc t = .idle then some { s with pc := upd s.pc t (.wFas true) } else none
  -- lines 53-60
  | .wunlock t =>
    if s.pc t = .writing then some { s with writer := 0, pc := upd s.pc t .idle } else none
  -- line 76
  | .downgrade t =>
    if s.pc t = .writing then
      some { s with readers := s.readers + 1, pc := upd s.pc t .dgStore } else none
  | .rlock t => if s.pc t = .idle then some { s with pc := upd s.pc t (.rLoad false) } else none
  | .rtrylock t => if s.pc t = .idle then some { s with pc := upd s.pc t (.rLoad true) } else none
  -- lines 195-202
  | .runlock t =>
    if s.pc t = .reading then
      some { s with readers := s.readers - 1, pc := upd s.pc t .idle } else none
  | .run t => match s.pc t with
    | .wFas b =>
      if s.writer = 0 then some { s with writer := 1, pc := upd s.pc t (.wReaders b) }
      else if b then some { s with writer := 1, pc := upd s.pc t .idle }
      else some { s with writer := 1 }
    | .wReaders b =>
      if s.readers = 0 then some { s with pc := upd s.pc t .writing }
      else if b then some { s with pc := upd s.pc t .wBack }
      else some s
    | .wBack => some { s with writer := 0, pc := upd s.pc t .idle }
    | .dgStore => some { s with writer := 0, pc := upd s.pc t .reading }
    | .rLoad b =>
      if s.writer = 0 then some { s with pc := upd s.pc t (.rInc b) }
      else if b then some { s with pc := upd s.pc t .idle }
      else some s
    | .rInc b => some { s with readers := s.readers + 1, pc := upd s.pc t (.rCheck b) }
    | .rCheck b =>
      if s.writer = 0 then some { s with pc := upd s.pc t .reading }
      else some { s with pc := upd s.pc t (.rDec b) }
    | .rDec b =>
      if b then some { s with readers := s.readers - 1, pc := upd s.pc t .idle }
      else some { s with readers := s.readers - 1, pc := upd s.pc t (.rLoad false) }
    | _ => none

def sys (n : Nat) : Sys (St n) (Act n) := { init := (· = initSt n), step := step }

/-- Between the return of write_lock/write_trylock and the call of write_unlock, or before the
increment of write_downgrade. -/
def St.writes {n : Nat} (s : St n) (t : Fin n) : Prop := s.pc t = .writing

/-- Between the return of read_lock/read_trylock (or the first access of write_downgrade) and
read_unlock. -/
def St.reads {n : Nat} (s : St n) (t : Fin n) : Prop := s.pc t = .reading ∨ s.pc t = .dgStore

/-- `ck_rwlock_locked` (lines 81-90), both loads in one state. -/
def locked {n : Nat} (s : St n) : Bool := s.readers ||| s.writer ≠ 0
/-- `ck_rwlock_locked_writer` (lines 62-70). -/
def lockedWriter {n : Nat} (s : St n) : Bool := s.writer ≠ 0
/-- `ck_rwlock_locked_reader` (lines 187-193). -/
def lockedReader {n : Nat} (s : St n) : Bool := s.readers ≠ 0

end Verif.Rw.Rwlock
