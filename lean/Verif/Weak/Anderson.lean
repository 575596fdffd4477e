import Verif.Weak.Put
import Verif.Spin.AndersonThm

/-!
# Anderson's array lock on relaxed memory (C80), `include/spinlock/anderson.h`

As `Verif.Spin.Anderson`, whose program counters, index arithmetic and ghost arrival order are used, on the memory of `Verif.Weak`:
loads return any value the memory model allows.  `lock->slots`, `count`, `mask`, `wrap` and `slot->position` do not change after init.  Data
words (`usr x`) are only accessed while holding the lock.  `fc` tells which fences exist; all of them do in the code.
-/

namespace Verif.Weak.Anderson

open Verif
open Verif.Spin.Anderson (PC mask wrap bump)
open Fas (opt)

inductive Loc
  /-- `lock->next` -/
  | next
  /-- `lock->slots[i].locked` -/
  | slot (i : Nat)
  | usr (x : Nat)
deriving DecidableEq

abbrev Word := BitVec 32

/-- `ld`: line 132; `lock`: line 143; `unlock`: line 155. -/
structure Fences where
  ld : Bool
  lock : Bool
  unlock : Bool

def real : Fences := { ld := true, lock := true, unlock := true }

structure St (n : Nat) where
  mem : Mem Loc Word
  th : Fin n → Th Loc
  pc : Fin n → PC
  /-- ghost, as in `Verif.Spin.Anderson` -/
  q : Q n

inductive Act (n : Nat)
  /-- line 115 loads value `i`, or lines 127-132 -/
  | lock (t : Fin n) (i : Nat)
  /-- the next step of `t`; if it loads, it loads value `i` -/
  | run (t : Fin n) (i : Nat)
  /-- the `cas` of line 122 fails, having loaded value `i` -/
  | fail (t : Fin n) (i : Nat)
  | unlock (t : Fin n)
  | read (t : Fin n) (x i : Nat)
  | write (t : Fin n) (x : Nat) (v : Word)

/-- lines 57-88. -/
def initVal : Loc → Word
  | .slot (_ + 1) => 1
  | _ => 0

def initSt (n : Nat) : St n := { mem := Mem.init initVal, th := fun _ => Th.init, pc := fun _ => .idle, q := Q.empty n }

variable {n : Nat}

/-- `t` takes a position: `next` becomes `v`; lines 122 or 127, and 132. -/
def take (fc : Fences) (s : St n) (t : Fin n) (v : Word) (i : Nat) : St n :=
  { mem := s.mem.rmw (s.th t) .next v, th := upd s.th t (opt fc.ld Th.fenceLoad ((s.th t).rmw s.mem .next)), pc := upd s.pc t (.wait i)
    q := s.q.arrive t }

/-- lines 102-165. -/
def step (fc : Fences) (c : Nat) (s : St n) : Act n → Option (St n)
  | .lock t i =>
    if s.pc t = .idle then
      -- lines 114, 115
      if wrap c ≠ 0 then
        if (s.th t).may s.mem .next i then
          some { s with th := upd s.th t ((s.th t).load s.mem .next i), pc := upd s.pc t (.casLoop (s.mem.msg .next i).val) }
        else none
      -- lines 127-132
      else some (take fc s t (s.mem.last .next + 1) (s.mem.last .next &&& mask c).toNat)
    else none
  | .run t i =>
    match s.pc t with
    -- lines 117-132
    | .casLoop p => if s.mem.last .next = p then some (take fc s t (bump c p) (p.toNat % c)) else none
    -- line 138
    | .wait j =>
      if (s.th t).may s.mem (.slot j) i then
        if (s.mem.msg (.slot j) i).val = 0 then
          some { s with th := upd s.th t ((s.th t).load s.mem (.slot j) i), pc := upd s.pc t (.close j), q := s.q.enter t }
        else some { s with th := upd s.th t ((s.th t).load s.mem (.slot j) i) }
      else none
    -- lines 142, 143
    | .close j =>
      some { s with
        mem := s.mem.store (s.th t) (.slot j) 1, th := upd s.th t (opt fc.lock Th.fenceAcq ((s.th t).store s.mem (.slot j)))
        pc := upd s.pc t (.inside j) }
    | _ => none
  -- lines 118-123
  | .fail t i =>
    match s.pc t with
    | .casLoop p =>
      if (s.th t).may s.mem .next i ∧ (s.mem.msg .next i).val ≠ p then
        some { s with th := upd s.th t ((s.th t).load s.mem .next i), pc := upd s.pc t (.casLoop (s.mem.msg .next i).val) }
      else none
    | _ => none
  -- lines 155-163
  | .unlock t =>
    match s.pc t with
    | .inside i =>
      let j := if wrap c = 0 then (BitVec.ofNat 32 i + 1 &&& mask c).toNat else ((BitVec.ofNat 32 i + 1).toNat) % c
      let q := opt fc.unlock Th.fenceRel (s.th t)
      some { s with
        mem := s.mem.store q (.slot j) 0, th := upd s.th t (q.store s.mem (.slot j)), pc := upd s.pc t .idle, q := s.q.leave }
    | _ => none
  -- the client
  | .read t x i =>
    if (s.pc t).ins = true ∧ (s.th t).may s.mem (.usr x) i then some { s with th := upd s.th t ((s.th t).load s.mem (.usr x) i) } else none
  | .write t x v =>
    if (s.pc t).ins = true then
      some { s with mem := s.mem.store (s.th t) (.usr x) v, th := upd s.th t ((s.th t).store s.mem (.usr x)) }
    else none

def sys (fc : Fences) (c n : Nat) : Sys (St n) (Act n) := { init := (· = initSt n), step := step fc c }

/-- From the moment the slot was seen open until unlock. -/
def St.holds (s : St n) (t : Fin n) : Prop := (s.pc t).held = true

end Verif.Weak.Anderson
