import Verif.Weak.Put
import Verif.Rw.SwlockThm

/-!
# Single-writer lock on relaxed memory (C81), `include/ck_swlock.h`

As `Verif.Rw.Swlock`, whose program counters are used, on the memory of `Verif.Weak`: loads return any value the memory model allows.  The
writer stores to the data words `usr x` while it has the write lock or the latch, readers load them.  Reader `t` stores to a word `own t` of its
own while it has the lock, the writer loads it while it has the write lock or the latch.  `fc` tells which fences exist; all of them do in the
code.  A failed `ck_swlock_read_trylock` and a failed `ck_swlock_write_trylock` pass a fence, too; it is left out, which only allows more.
-/

namespace Verif.Weak.Swlock

open Verif
open Verif.Rw.Swlock (PC WPC WB WM RM again)
open Fas (opt)

variable {n : Nat}

inductive Loc (n : Nat)
  | value
  | usr (x : Nat)
  | own (t : Fin n)
deriving DecidableEq

abbrev Word := BitVec 32

/-- `wlock`: lines 101, 116, 135; `wunlock`: line 61; `unlatch`: line 143; `rlock`: lines 167, 193; `runlock`: line 209. -/
structure Fences where
  wlock : Bool
  wunlock : Bool
  unlatch : Bool
  rlock : Bool
  runlock : Bool

def real : Fences := { wlock := true, wunlock := true, unlatch := true, rlock := true, runlock := true }

structure St (n : Nat) where
  mem : Mem (Loc n) Word
  wth : Th (Loc n)
  th : Fin n → Th (Loc n)
  wpc : WPC
  pc : Fin n → PC
  /-- ghost, as in `Verif.Rw.Swlock` -/
  leak : Fin n → Bool

inductive Act (n : Nat)
  | wlock | wtrylock | wunlock | wdowngrade | wlatch | wunlatch | wrunlock
  /-- the next step of the writer; if it loads, it loads value `i` -/
  | wrun (i : Nat)
  /-- the `cas` of line 128 fails, having loaded value `i` -/
  | wfail (i : Nat)
  /-- the `cas` of line 100 fails, having loaded value `i` -/
  | wtryfail (i : Nat)
  | rlock (t : Fin n)
  | rtrylock (t : Fin n)
  | runlock (t : Fin n)
  | run (t : Fin n) (i : Nat)
  /-- the client: the writer loads or stores a data word or loads the word of a reader, a reader loads a data word or stores to its own word -/
  | wread (x i : Nat)
  | wwrite (x : Nat) (v : Word)
  | wget (t : Fin n) (i : Nat)
  | rread (t : Fin n) (x i : Nat)
  | rwrite (t : Fin n) (v : Word)

/-- lines 48-55. -/
def initSt (n : Nat) : St n :=
  { mem := Mem.init fun _ => 0, wth := Th.init, th := fun _ => Th.init, wpc := .idle, pc := fun _ => .idle, leak := fun _ => false }

/-- lines 57-212. -/
def step (fc : Fences) (s : St n) : Act n → Option (St n)
  | .wlock => if s.wpc = .idle then some { s with wpc := .lkOr } else none
  -- lines 100, 101
  | .wtrylock =>
    if s.wpc = .idle ∧ s.mem.last .value = 0 then
      some { s with mem := s.mem.rmw s.wth .value WB, wth := opt fc.wlock Th.fenceAcq (s.wth.rmw s.mem .value), wpc := .writing }
    else none
  | .wtryfail i =>
    if s.wpc = .idle ∧ s.wth.may s.mem .value i ∧ (s.mem.msg .value i).val ≠ 0 then some { s with wth := s.wth.load s.mem .value i } else none
  -- lines 61, 62
  | .wunlock =>
    if s.wpc = .writing then
      let q := opt fc.wunlock Th.fenceRel s.wth
      some { s with mem := s.mem.rmw q .value (s.mem.last .value &&& RM), wth := q.rmw s.mem .value, wpc := .idle }
    else none
  -- line 80
  | .wdowngrade =>
    if s.wpc = .writing then
      some { s with mem := s.mem.rmw s.wth .value (s.mem.last .value + 1), wth := s.wth.rmw s.mem .value, wpc := .dgAnd }
    else none
  | .wlatch => if s.wpc = .idle then some { s with wpc := .ltOr } else none
  -- lines 143, 144
  | .wunlatch =>
    if s.wpc = .latched then
      let q := opt fc.unlatch Th.fenceRel s.wth
      some { s with mem := s.mem.store q .value 0, wth := q.store s.mem .value, wpc := .idle, leak := fun _ => false }
    else none
  -- lines 209, 210
  | .wrunlock =>
    if s.wpc = .reading then
      let q := opt fc.runlock Th.fenceRel s.wth
      some { s with mem := s.mem.rmw q .value (s.mem.last .value - 1), wth := q.rmw s.mem .value, wpc := .idle }
    else none
  | .wrun i => match s.wpc with
    -- line 112
    | .lkOr => some { s with mem := s.mem.rmw s.wth .value (s.mem.last .value ||| WB), wth := s.wth.rmw s.mem .value, wpc := .lkWait }
    -- lines 113, 116
    | .lkWait =>
      if s.wth.may s.mem .value i then
        let q := s.wth.load s.mem .value i
        if (s.mem.msg .value i).val &&& RM = 0 then some { s with wth := opt fc.wlock Th.fenceAcq q, wpc := .writing }
        else some { s with wth := q }
      else none
    -- line 125
    | .ltOr => some { s with mem := s.mem.rmw s.wth .value (s.mem.last .value ||| WB), wth := s.wth.rmw s.mem .value, wpc := .ltCas }
    -- lines 128, 135
    | .ltCas =>
      if s.mem.last .value = WB then
        some { s with mem := s.mem.rmw s.wth .value WM, wth := opt fc.wlock Th.fenceAcq (s.wth.rmw s.mem .value), wpc := .latched }
      else none
    -- line 132
    | .ltWait =>
      if s.wth.may s.mem .value i then
        let q := s.wth.load s.mem .value i
        if (s.mem.msg .value i).val = WB then some { s with wth := q, wpc := .ltCas } else some { s with wth := q }
      else none
    -- lines 81, 61, 62
    | .dgAnd =>
      let q := opt fc.wunlock Th.fenceRel s.wth
      some { s with mem := s.mem.rmw q .value (s.mem.last .value &&& RM), wth := q.rmw s.mem .value, wpc := .reading }
    | _ => none
  -- line 128
  | .wfail i =>
    if s.wpc = .ltCas ∧ s.wth.may s.mem .value i ∧ (s.mem.msg .value i).val ≠ WB then
      some { s with wth := s.wth.load s.mem .value i, wpc := .ltWait }
    else none
  | .rlock t => if s.pc t = .idle then some { s with pc := upd s.pc t (.rLoad false) } else none
  | .rtrylock t => if s.pc t = .idle then some { s with pc := upd s.pc t (.rLoad true) } else none
  -- lines 209, 210
  | .runlock t =>
    if s.pc t = .reading then
      let q := opt fc.runlock Th.fenceRel (s.th t)
      some { s with mem := s.mem.rmw q .value (s.mem.last .value - 1), th := upd s.th t (q.rmw s.mem .value), pc := upd s.pc t .idle }
    else none
  | .run t i => match s.pc t with
    -- lines 158, 177
    | .rLoad b =>
      if (s.th t).may s.mem .value i then
        let q := (s.th t).load s.mem .value i
        if (s.mem.msg .value i).val &&& WB = 0 then some { s with th := upd s.th t q, pc := upd s.pc t (.rFaa b) }
        else some { s with th := upd s.th t q, pc := upd s.pc t (again b) }
      else none
    -- lines 163, 167, 180, 193
    | .rFaa b =>
      let l := s.mem.last .value
      let m := s.mem.rmw (s.th t) .value (l + 1)
      let q := (s.th t).rmw s.mem .value
      if l &&& WM = 0 then some { s with mem := m, th := upd s.th t (opt fc.rlock Th.fenceAcq q), pc := upd s.pc t .reading }
      else if l &&& WM = WB then some { s with mem := m, th := upd s.th t q, pc := upd s.pc t (.rDec b) }
      else some { s with mem := m, th := upd s.th t q, pc := upd s.pc t (again b), leak := upd s.leak t true }
    -- lines 165, 190
    | .rDec b =>
      some { s with mem := s.mem.rmw (s.th t) .value (s.mem.last .value - 1), th := upd s.th t ((s.th t).rmw s.mem .value)
                    pc := upd s.pc t (again b) }
    | _ => none
  -- the client
  | .wread x i => if s.wpc.ex ∧ s.wth.may s.mem (.usr x) i then some { s with wth := s.wth.load s.mem (.usr x) i } else none
  | .wwrite x v => if s.wpc.ex then some { s with mem := s.mem.store s.wth (.usr x) v, wth := s.wth.store s.mem (.usr x) } else none
  | .wget t i => if s.wpc.ex ∧ s.wth.may s.mem (.own t) i then some { s with wth := s.wth.load s.mem (.own t) i } else none
  | .rread t x i =>
    if s.pc t = .reading ∧ (s.th t).may s.mem (.usr x) i then some { s with th := upd s.th t ((s.th t).load s.mem (.usr x) i) } else none
  | .rwrite t v =>
    if s.pc t = .reading then
      some { s with mem := s.mem.store (s.th t) (.own t) v, th := upd s.th t ((s.th t).store s.mem (.own t)) }
    else none

def sys (fc : Fences) (n : Nat) : Sys (St n) (Act n) := { init := (· = initSt n), step := step fc }

/-- The writer has the write lock or the latch. -/
def St.writes (s : St n) : Prop := s.wpc = .writing ∨ s.wpc = .latched
/-- Reader `t` has the lock. -/
def St.reads (s : St n) (t : Fin n) : Prop := s.pc t = .reading

end Verif.Weak.Swlock
