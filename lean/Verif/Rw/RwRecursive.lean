import Verif.Core.Count
import Verif.Core.Tactic
import Verif.Core.Spec

/-!
# `ck_rwlock_recursive` (model), `include/ck_rwlock.h:208-300`

`tid` is the client's assignment of ids to threads.  `depth t` is ghost: successful write
locks/trylocks minus unlocks of thread `t`.  The client rules built into `step`: write_unlock only by a
thread with positive depth, no read lock while write-holding and vice versa (that would deadlock), and the
nesting depth stays below 2^32.
-/

namespace Verif.Rw.RwRecursive

inductive Act (n : Nat)
  | wlock (t : Fin n)
  | wtrylock (t : Fin n)
  | wunlock (t : Fin n)
  | rlock (t : Fin n)
  | rtrylock (t : Fin n)
  | runlock (t : Fin n)
  | run (t : Fin n)
  deriving DecidableEq

inductive PC
  | idle
  | wLoad (try_ : Bool)    -- lines 224 / 247
  | wCas (try_ : Bool)     -- lines 228 / 251
  | wReaders (try_ : Bool) -- lines 233 / 256
  | wBack                  -- line 257 (store 0)
  | wInc                   -- lines 238 / 263 (wc++)
  | uDec                   -- line 271 (--wc)
  | uStore                 -- line 273
  | rLoad (try_ : Bool)    -- lines 137 / 165 (read side is ck_rwlock's)
  | rInc (try_ : Bool)     -- lines 140 / 168
  | rCheck (try_ : Bool)   -- lines 148 / 176
  | rDec (try_ : Bool)     -- lines 153 / 179
  | reading
  deriving DecidableEq

structure St (n : Nat) where
  writer : BitVec 32
  readers : BitVec 32
  wc : BitVec 32
  pc : Fin n → PC
  depth : Fin n → Nat

/-- line 217. -/
def initSt (n : Nat) : St n :=
  { writer := 0, readers := 0, wc := 0, pc := fun _ => .idle, depth := fun _ => 0 }

def step {n : Nat} (tid : Fin n → BitVec 32) (s : St n) : Act n → Option (St n)
  | .wlock t =>
    if s.pc t = .idle ∧ s.depth t + 1 < 2 ^ 32 then
      some { s with pc := upd s.pc t (.wLoad false) } else none
  | .wtrylock t =>
    if s.pc t = .idle ∧ s.depth t + 1 < 2 ^ 32 then
      some { s with pc := upd s.pc t (.wLoad true) } else none
  | .wunlock t =>
    if s.pc t = .idle ∧ 0 < s.depth t then some { s with pc := upd s.pc t .uDec } else none
  | .rlock t =>
    if s.pc t = .idle ∧ s.depth t = 0 then
      some { s with pc := upd s.pc t (.rLoad false) } else none
  | .rtrylock t =>
    if s.pc t = .idle ∧ s.depth t = 0 then
      some { s with pc := upd s.pc t (.rLoad true) } else none
  | .runlock t =>
    if s.pc t = .reading then
      some { s with readers := s.readers - 1, pc := upd s.pc t .idle } else none
  | .run t => match s.pc t with
    | .wLoad b =>
      if s.writer = tid t then some { s with pc := upd s.pc t .wInc }
      else some { s with pc := upd s.pc t (.wCas b) }
    | .wCas b =>
      if s.writer = 0 then some { s with writer := tid t, pc := upd s.pc t (.wReaders b) }
      else if b then some { s with pc := upd s.pc t .idle }
      else some s
    | .wReaders b =>
      if s.readers = 0 then some { s with pc := upd s.pc t .wInc }
      else if b then some { s with pc := upd s.pc t .wBack }
      else some s
    | .wBack => some { s with writer := 0, pc := upd s.pc t .idle }
    | .wInc => some { s with wc := s.wc + 1, pc := upd s.pc t .idle,
                             depth := upd s.depth t (s.depth t + 1) }
    | .uDec =>
      if s.wc - 1 = 0 then some { s with wc := s.wc - 1, pc := upd s.pc t .uStore,
                                         depth := upd s.depth t (s.depth t - 1) }
      else some { s with wc := s.wc - 1, pc := upd s.pc t .idle,
                         depth := upd s.depth t (s.depth t - 1) }
    | .uStore => some { s with writer := 0, pc := upd s.pc t .idle }
    | .rLoad b =>
      if s.writer = 0 then some { s with pc := upd s.pc t (.rInc b) }
      else if b then some { s with pc := upd s.pc t .idle }
      else some s
    | .rInc b => some { s with readers := s.readers + 1, pc := upd s.pc t (.rCheck b) }
    | .rCheck b =>
      if s.writer = 0 then some { s with pc := upd s.pc t .reading }
      else some { s with pc := upd s.pc t (.rDec b) }
    | .rDec b =>
      if b then some { s with readers := s.readers - 1, pc := upd s.pc t .idle }
      else some { s with readers := s.readers - 1, pc := upd s.pc t (.rLoad false) }
    | _ => none

def sys (n : Nat) (tid : Fin n → BitVec 32) : Sys (St n) (Act n) :=
  { init := (· = initSt n), step := step tid }

/-- More successful write locks than unlocks. -/
def St.writes {n : Nat} (s : St n) (t : Fin n) : Prop := 0 < s.depth t

/-- Between the return of read_lock/read_trylock and read_unlock. -/
def St.reads {n : Nat} (s : St n) (t : Fin n) : Prop := s.pc t = .reading

end Verif.Rw.RwRecursive
