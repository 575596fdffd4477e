import Verif.Core.Tactic
import Verif.Core.Count
import Verif.Core.Spec

/-!
# `ck_swlock` (model), `include/ck_swlock.h`

A read-write lock for one writer thread at a time and `n` reader threads.  The writer is a thread of
its own (`wpc`); that the client runs only one writer is the interface's precondition.  One step per
atomic access; a call whose body is a single access is one step.  `leak` is ghost: reader `t` has
incremented the word while the latch was set and will not take the increment back
(lines 163-165, 180-190); no step reads it.
-/

namespace Verif.Rw.Swlock

inductive Act (n : Nat)
  | wlock | wtrylock | wunlock | wdowngrade | wlatch | wunlatch
  | wrunlock                -- read_unlock by the writer after a downgrade
  | wrun                    -- next access of the writer's running operation
  | rlock (t : Fin n)
  | rtrylock (t : Fin n)
  | runlock (t : Fin n)
  | run (t : Fin n)         -- next access of the reader's running operation
  deriving DecidableEq

/-- The writer. -/
inductive WPC
  | idle
  | lkOr       -- line 112
  | lkWait     -- line 113
  | writing
  | ltOr       -- line 125
  | ltCas      -- line 128
  | ltWait     -- line 132
  | latched
  | dgAnd      -- line 81 (line 62), after the increment of line 80
  | reading    -- after write_downgrade
  deriving DecidableEq

/-- A reader. -/
inductive PC
  | idle
  | rLoad (try_ : Bool)   -- lines 158 / 177
  | rFaa (try_ : Bool)    -- lines 163 / 180
  | rDec (try_ : Bool)    -- lines 165 / 190
  | reading
  deriving DecidableEq

structure St (n : Nat) where
  value : BitVec 32
  wpc : WPC
  pc : Fin n → PC
  leak : Fin n → Bool

/-- `CK_SWLOCK_WRITER_BIT` (line 43). -/
abbrev WB : BitVec 32 := 0x80000000#32
/-- `CK_SWLOCK_WRITER_MASK` (line 45). -/
abbrev WM : BitVec 32 := 0xC0000000#32
/-- `CK_SWLOCK_READER_MASK` (line 46). -/
abbrev RM : BitVec 32 := 0x3FFFFFFF#32

/-- lines 48-55. -/
def initSt (n : Nat) : St n :=
  { value := 0, wpc := .idle, pc := fun _ => .idle, leak := fun _ => false }

/-- After a failed attempt: read_trylock returns false (lines 161, 168), read_lock loops (line 176). -/
def again : Bool → PC
  | true => .idle
  | false => .rLoad false

/-- lines 57-212. -/
def step {n : Nat} (s : St n) : Act n → Option (St n)
  | .wlock => if s.wpc = .idle then some { s with wpc := .lkOr } else none
  -- line 100
  | .wtrylock =>
    if s.wpc = .idle then
      if s.value = 0 then some { s with value := WB, wpc := .writing } else some s
    else none
  -- line 62
  | .wunlock =>
    if s.wpc = .writing then some { s with value := s.value &&& RM, wpc := .idle } else none
  -- line 80
  | .wdowngrade =>
    if s.wpc = .writing then some { s with value := s.value + 1, wpc := .dgAnd } else none
  | .wlatch => if s.wpc = .idle then some { s with wpc := .ltOr } else none
  -- line 144
  | .wunlatch =>
    if s.wpc = .latched then
      some { s with value := 0, wpc := .idle, leak := fun _ => false } else none
  -- line 210
  | .wrunlock =>
    if s.wpc = .reading then some { s with value := s.value - 1, wpc := .idle } else none
  | .wrun => match s.wpc with
    | .lkOr => some { s with value := s.value ||| WB, wpc := .lkWait }
    | .lkWait => if s.value &&& RM ≠ 0 then some s else some { s with wpc := .writing }
    | .ltOr => some { s with value := s.value ||| WB, wpc := .ltCas }
    | .ltCas => if s.value = WB then some { s with value := WM, wpc := .latched }
                else some { s with wpc := .ltWait }
    | .ltWait => if s.value ≠ WB then some s else some { s with wpc := .ltCas }
    | .dgAnd => some { s with value := s.value &&& RM, wpc := .reading }
    | _ => none
  | .rlock t => if s.pc t = .idle then some { s with pc := upd s.pc t (.rLoad false) } else none
  | .rtrylock t => if s.pc t = .idle then some { s with pc := upd s.pc t (.rLoad true) } else none
  -- line 210
  | .runlock t =>
    if s.pc t = .reading then
      some { s with value := s.value - 1, pc := upd s.pc t .idle } else none
  | .run t => match s.pc t with
    | .rLoad b =>
      if s.value &&& WB ≠ 0 then some { s with pc := upd s.pc t (again b) }
      else some { s with pc := upd s.pc t (.rFaa b) }
    | .rFaa b =>
      if s.value &&& WM = 0 then
        some { s with value := s.value + 1, pc := upd s.pc t .reading }
      else if s.value &&& WM = WB then
        some { s with value := s.value + 1, pc := upd s.pc t (.rDec b) }
      else
        some { s with value := s.value + 1, pc := upd s.pc t (again b),
                      leak := upd s.leak t true }
    | .rDec b =>
      some { s with value := s.value - 1, pc := upd s.pc t (again b) }
    | _ => none

def sys (n : Nat) : Sys (St n) (Act n) := { init := (· = initSt n), step := step }

/-- The writer is between the return of write_lock / write_latch / a successful write_trylock and
the first access of the matching unlock / unlatch / downgrade. -/
def St.writes {n : Nat} (s : St n) : Prop := s.wpc = .writing ∨ s.wpc = .latched
/-- Reader `t` is between the return of a successful read_lock / read_trylock and read_unlock. -/
def St.reads {n : Nat} (s : St n) (t : Fin n) : Prop := s.pc t = .reading
/-- The writer holds read ownership (it called write_downgrade and not yet read_unlock). -/
def St.wreads {n : Nat} (s : St n) : Prop := s.wpc = .dgAnd ∨ s.wpc = .reading

/-- `ck_swlock_locked_writer` (lines 66-74). -/
def lockedWriter {n : Nat} (s : St n) : Bool := s.value &&& WB ≠ 0
/-- `ck_swlock_locked` (lines 85-93). -/
def locked {n : Nat} (s : St n) : Bool := s.value ≠ 0
/-- `ck_swlock_locked_reader` (lines 197-203). -/
def lockedReader {n : Nat} (s : St n) : Bool := s.value &&& RM ≠ 0

end Verif.Rw.Swlock
