import Verif.Core.Fifo
import Verif.Core.Spec
import Verif.Core.Tactic

/-!
# Anderson's array lock (model), `include/spinlock/anderson.h`

`c` is the slot count.  `next` is the 32-bit position counter; all arithmetic on it is as in the
C code.  `slot->position` is the constant slot index set by init (lines 65, 68), so it is the
index itself here.  `q` is ghost.
-/

namespace Verif.Spin.Anderson

inductive Act (n : Nat)
  | lock (t : Fin n)
  | run (t : Fin n)
  | unlock (t : Fin n)
  deriving DecidableEq

inductive PC
  | idle
  /-- in the CAS loop with the last value of `next` seen (non-power-of-two only) -/
  | casLoop (position : BitVec 32)
  /-- spinning on the slot -/
  | wait (position : Nat)
  /-- saw the slot open, about to store `true` (line 142) -/
  | close (position : Nat)
  | inside (position : Nat)
  deriving DecidableEq

structure St (n : Nat) where
  next : BitVec 32
  /-- `slots[i].locked` -/
  slot : Nat → Bool
  pc : Fin n → PC
  q : Q n

/-- `lock->mask` (line 73). -/
def mask (c : Nat) : BitVec 32 := BitVec.ofNat 32 c - 1

/-- `lock->wrap` (lines 81-84). -/
def wrap (c : Nat) : BitVec 32 :=
  if BitVec.ofNat 32 c &&& (BitVec.ofNat 32 c - 1) ≠ 0 then
    BitVec.ofNat 32 ((2 ^ 32 - 1) % c) + 1
  else 0

/-- lines 57-88. -/
def initSt (n : Nat) : St n :=
  { next := 0, slot := fun i => i ≠ 0, pc := fun _ => .idle, q := Q.empty n }

/-- The loop body's `next` (lines 118-121). -/
def bump (c : Nat) (p : BitVec 32) : BitVec 32 :=
  if p = BitVec.ofNat 32 (2 ^ 32 - 1) then wrap c else p + 1

def step {n : Nat} (c : Nat) (s : St n) : Act n → Option (St n)
  | .lock t =>
    if s.pc t = .idle then
      -- line 114
      if wrap c ≠ 0 then
        -- line 115: position = load(&next)
        some { s with pc := upd s.pc t (.casLoop s.next) }
      else
        -- lines 127-128: position = faa(&next, 1) & mask
        some { s with next := s.next + 1,
                      pc := upd s.pc t (.wait (s.next &&& mask c).toNat), q := s.q.arrive t }
    else none
  | .run t => match s.pc t with
    -- lines 117-125: CAS, then position %= count
    | .casLoop p =>
      if s.next = p then
        some { s with next := bump c p, pc := upd s.pc t (.wait (p.toNat % c)),
                      q := s.q.arrive t }
      else some { s with pc := upd s.pc t (.casLoop s.next) }
    -- line 138
    | .wait i => if s.slot i then some s
                 else some { s with pc := upd s.pc t (.close i), q := s.q.enter t }
    -- line 142
    | .close i => some { s with slot := upd s.slot i true, pc := upd s.pc t (.inside i) }
    | _ => none
  | .unlock t => match s.pc t with
    -- lines 158-163
    | .inside i =>
      let j := if wrap c = 0 then (BitVec.ofNat 32 i + 1 &&& mask c).toNat
               else ((BitVec.ofNat 32 i + 1).toNat) % c
      some { s with slot := upd s.slot j false, pc := upd s.pc t .idle, q := s.q.leave }
    | _ => none

def sys (c n : Nat) : Sys (St n) (Act n) := { init := (· = initSt n), step := step c }

/-- From the moment the slot was seen open until unlock. -/
def St.holds {n : Nat} (s : St n) (t : Fin n) : Prop :=
  (∃ i, s.pc t = .close i) ∨ ∃ i, s.pc t = .inside i

/-- Has its position and waits. -/
def St.waits {n : Nat} (s : St n) (t : Fin n) : Prop := ∃ i, s.pc t = .wait i

/-- `ck_spinlock_anderson_locked` (lines 90-100), both loads in one state. -/
def locked {n : Nat} (c : Nat) (s : St n) : Bool := s.slot (s.next &&& mask c).toNat

end Verif.Spin.Anderson
