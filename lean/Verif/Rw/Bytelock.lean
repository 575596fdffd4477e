import Verif.Core.Tactic
import Verif.Core.Count
import Verif.Core.Spec

/-!
# `ck_bytelock` (model), `include/ck_bytelock.h`

One step per atomic access.  `owner` and the `slot` argument are `unsigned int`s, here naturals
(0 = free, `1 … L*C` slots, `U` = `CK_BYTELOCK_UNSLOTTED`).  `readers` are `C` chunks of `L` bytes
(`L` = 8 or 4, line 69-76; the C struct has `L*C` = cache line − 8).
`n_readers` is a 32-bit word.
An access to `readers[slot - 1]` outside the array (`slot = U`) is undefined behaviour: it raises
the flag `ub`.
-/

namespace Verif.Rw.Bytelock

open Verif

/-- `CK_BYTELOCK_UNSLOTTED` (line 53). -/
def U : Nat := 2 ^ 32 - 1

/-- What the client fixes: array shape, which slot each thread uses, and which threads ever call
write_lock / read_lock. -/
structure Cfg (n : Nat) where
  L : Nat
  C : Nat
  slot : Fin n → Nat
  mayW : Fin n → Bool
  mayR : Fin n → Bool

/-- Slots are unique, unslotted threads use `U`. -/
structure Cfg.Wf {n : Nat} (c : Cfg n) : Prop where
  pos : 0 < c.L
  size : c.L * c.C < U
  slot : ∀ t, (1 ≤ c.slot t ∧ c.slot t ≤ c.L * c.C) ∨ c.slot t = U
  inj : ∀ t u, c.slot t = c.slot u → c.slot t ≠ U → t = u

inductive Act (n : Nat)
  | wlock (t : Fin n)
  | wunlock (t : Fin n)
  | rlock (t : Fin n)
  | runlock (t : Fin n)
  | run (t : Fin n)
  deriving DecidableEq

inductive PC
  | idle
  | wCas (up : Bool)      -- line 88 (`up`: the thread holds its read lock)
  | wClr (up : Bool)      -- lines 92-93
  | wScan (i : Nat)       -- line 102
  | wCnt                  -- line 107
  | writing
  | rOwn                  -- line 131, called while not holding anything
  | dgOwn                 -- line 131, called by the writer
  | dgSet                 -- line 132
  | dgRel                 -- line 134
  | uInc                  -- line 141
  | uChk                  -- line 143
  | uDec                  -- line 145
  | uWait                 -- line 147
  | sSet                  -- lines 158 / 161
  | sChk                  -- line 170
  | sClr                  -- line 173
  | sWait                 -- line 174
  | readingU              -- unslotted reader inside
  | reading               -- slotted reader inside
  deriving DecidableEq

structure St (n : Nat) where
  owner : Nat
  nreaders : BitVec 32
  readers : Nat → Bool
  pc : Fin n → PC
  ub : Bool

/-- lines 55-67. -/
def initSt (n : Nat) : St n :=
  { owner := 0, nreaders := 0, readers := fun _ => false, pc := fun _ => .idle, ub := false }

variable {n : Nat}

/-- Chunk `i` is all zero (line 102: one 64- or 32-bit load). -/
def chunkZero (c : Cfg n) (s : St n) (i : Nat) : Bool :=
  (List.range c.L).all fun j => !s.readers (i * c.L + j)

/-- The loop test of line 101. -/
def scan (c : Cfg n) (i : Nat) : PC := if i < c.C then .wScan i else .wCnt

def step (c : Cfg n) (s : St n) : Act n → Option (St n)
  | .wlock t =>
    if c.mayW t then
      if s.pc t = .idle then some { s with pc := upd s.pc t (.wCas false) }
      else if s.pc t = .reading then some { s with pc := upd s.pc t (.wCas true) }
      else none
    else none
  -- line 123
  | .wunlock t =>
    if s.pc t = .writing then some { s with owner := 0, pc := upd s.pc t .idle } else none
  | .rlock t =>
    if c.mayR t then
      if s.pc t = .idle then some { s with pc := upd s.pc t .rOwn }
      else if s.pc t = .writing then some { s with pc := upd s.pc t .dgOwn }
      else none
    else none
  -- lines 188-191
  | .runlock t => match s.pc t with
    | .readingU => some { s with nreaders := s.nreaders - 1, pc := upd s.pc t .idle }
    | .reading => some { s with readers := upd s.readers (c.slot t - 1) false,
                                pc := upd s.pc t .idle }
    | _ => none
  | .run t => match s.pc t with
    | .wCas up =>
      if s.owner = 0 then some { s with owner := c.slot t, pc := upd s.pc t (.wClr up) }
      else some s
    | .wClr _ =>
      if c.slot t ≤ c.L * c.C then
        some { s with readers := upd s.readers (c.slot t - 1) false, pc := upd s.pc t (scan c 0) }
      else some { s with pc := upd s.pc t (scan c 0) }
    | .wScan i =>
      if chunkZero c s i then some { s with pc := upd s.pc t (scan c (i + 1)) } else some s
    | .wCnt => if s.nreaders ≠ 0 then some s else some { s with pc := upd s.pc t .writing }
    | .rOwn =>
      if s.owner = c.slot t then some { s with pc := upd s.pc t .dgSet }
      else if c.slot t > c.L * c.C then some { s with pc := upd s.pc t .uInc }
      else some { s with pc := upd s.pc t .sSet }
    | .dgOwn =>
      if s.owner = c.slot t then some { s with pc := upd s.pc t .dgSet }
      else if c.slot t > c.L * c.C then some { s with pc := upd s.pc t .uInc }
      else some { s with pc := upd s.pc t .sSet }
    | .dgSet =>
      if c.slot t ≤ c.L * c.C then
        some { s with readers := upd s.readers (c.slot t - 1) true, pc := upd s.pc t .dgRel }
      else some { s with ub := true, pc := upd s.pc t .dgRel }
    | .dgRel => some { s with owner := 0, pc := upd s.pc t .reading }
    | .uInc => some { s with nreaders := s.nreaders + 1, pc := upd s.pc t .uChk }
    | .uChk => if s.owner = 0 then some { s with pc := upd s.pc t .readingU }
               else some { s with pc := upd s.pc t .uDec }
    | .uDec => some { s with nreaders := s.nreaders - 1, pc := upd s.pc t .uWait }
    | .uWait => if s.owner ≠ 0 then some s else some { s with pc := upd s.pc t .uInc }
    | .sSet => some { s with readers := upd s.readers (c.slot t - 1) true, pc := upd s.pc t .sChk }
    | .sChk => if s.owner = 0 then some { s with pc := upd s.pc t .reading }
               else some { s with pc := upd s.pc t .sClr }
    | .sClr => some { s with readers := upd s.readers (c.slot t - 1) false,
                             pc := upd s.pc t .sWait }
    | .sWait => if s.owner ≠ 0 then some s else some { s with pc := upd s.pc t .sSet }
    | _ => none

def sys (c : Cfg n) : Sys (St n) (Act n) := { init := (· = initSt n), step := step c }

/-- Between the return of write_lock and write_unlock (or the first access of a downgrading
read_lock). -/
def St.writes (s : St n) (t : Fin n) : Prop := s.pc t = .writing ∨ s.pc t = .dgOwn
/-- Holds read ownership: from the return of read_lock (or, for a writer, the moment read_lock
recognised it as owner) to read_unlock or to the acquisition of `owner` by write_lock. -/
def St.reads (s : St n) (t : Fin n) : Prop :=
  s.pc t = .reading ∨ s.pc t = .readingU ∨ s.pc t = .wCas true ∨ s.pc t = .dgSet ∨ s.pc t = .dgRel
/-- In an upgrading write_lock. -/
def St.upgrades (s : St n) (t : Fin n) : Prop := s.pc t = .wCas true ∨ s.pc t = .wClr true

end Verif.Rw.Bytelock
