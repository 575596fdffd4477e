import Verif.Weak.Fas
import Verif.Spin.McsThm

/-!
# MCS queue lock on relaxed memory (C80), `include/spinlock/mcs.h`

As `Verif.Spin.Mcs`, whose program counters and ghost arrival order are used, on the memory of `Verif.Weak`: loads return any value
the memory model allows, a failed `cas` too.  Nodes are numbers; the client chooses one not in use for every acquisition.
Data words (`usr x`) are only accessed while holding the lock.

The model takes stores to one location in the order of execution, so it cannot show what the fence between the stores to the node
and the swap (lines 64, 93) is for.
-/

namespace Verif.Weak.Mcs

open Verif
open Verif.Spin.Mcs (PC)

inductive Loc
  /-- `*queue`, 0 for `NULL`, `x + 1` for node `x` -/
  | tail
  /-- `node->locked` -/
  | locked (x : Nat)
  /-- `node->next` -/
  | next (x : Nat)
  | usr (x : Nat)
deriving DecidableEq

/-- `st`: lines 64, 93; `lock`: lines 67, 111; `unlock`: line 121. -/
structure Fences where
  st : Bool
  lock : Bool
  unlock : Bool

def real : Fences := { st := true, lock := true, unlock := true }

structure St (n : Nat) where
  mem : Mem Loc Nat
  th : Fin n → Th Loc
  /-- the node of the current operation -/
  node : Fin n → Nat
  pc : Fin n → PC Nat
  /-- ghost, as in `Verif.Spin.Mcs` -/
  q : Q n
  nd : Nat → Nat

inductive Act (n : Nat)
  | lock (t : Fin n) (x : Nat)
  | trylock (t : Fin n) (x : Nat)
  | unlock (t : Fin n)
  /-- the next step of `t`; if it loads, it loads value `i` -/
  | run (t : Fin n) (i : Nat)
  /-- a `cas` of `t` fails, having loaded value `i` -/
  | fail (t : Fin n) (i : Nat)
  | read (t : Fin n) (x i : Nat)
  | write (t : Fin n) (x v : Nat)

open Fas (opt)

/-- lines 47-54. -/
def initSt (n : Nat) : St n :=
  { mem := Mem.init fun _ => 0, th := fun _ => Th.init, node := fun _ => 0, pc := fun _ => .idle, q := Q.empty n, nd := fun _ => 0 }

variable {n : Nat}

/-- Node `x` is not used by any running operation or holder. -/
def unused (s : St n) (x : Nat) : Prop := ∀ u, s.pc u ≠ .idle → s.node u ≠ x

instance (s : St n) (x : Nat) : Decidable (unused s x) := by unfold unused; infer_instance

/-- A store of `t`. -/
def stor (s : St n) (t : Fin n) (l : Loc) (v : Nat) (f : Th Loc → Th Loc) (p : PC Nat) : St n :=
  { s with mem := s.mem.store (s.th t) l v, th := upd s.th t (f ((s.th t).store s.mem l)), pc := upd s.pc t p }

/-- A read-modify-write operation of `t`. -/
def rmw (s : St n) (t : Fin n) (l : Loc) (v : Nat) (f : Th Loc → Th Loc) (p : PC Nat) : St n :=
  { s with mem := s.mem.rmw (s.th t) l v, th := upd s.th t (f ((s.th t).rmw s.mem l)), pc := upd s.pc t p }

/-- A load of `t`. -/
def load (s : St n) (t : Fin n) (l : Loc) (i : Nat) (f : Th Loc → Th Loc) (p : PC Nat) : St n :=
  { s with th := upd s.th t (f ((s.th t).load s.mem l i)), pc := upd s.pc t p }

/-- Entering the queue, and leaving it (ghost). -/
def arrive (s : St n) (t : Fin n) : St n := { s with q := s.q.arrive t, nd := upd s.nd s.q.arr.length (s.node t) }

def enter (s : St n) (t : Fin n) : St n := { s with q := s.q.enter t }

def leave (s : St n) : St n := { s with q := s.q.leave }

/-- lines 56-153. -/
def step (fc : Fences) (s : St n) : Act n → Option (St n)
  | .lock t x =>
    if s.pc t = .idle ∧ unused s x then some { s with node := upd s.node t x, pc := upd s.pc t (.setLocked false) } else none
  | .trylock t x =>
    if s.pc t = .idle ∧ unused s x then some { s with node := upd s.node t x, pc := upd s.pc t (.setLocked true) } else none
  -- line 121
  | .unlock t =>
    if s.pc t = .inside then some { s with th := upd s.th t (opt fc.unlock Th.fenceRel (s.th t)), pc := upd s.pc t .uNext } else none
  | .run t i =>
    match s.pc t with
    -- lines 62, 91
    | .setLocked b => some (stor s t (.locked (s.node t)) 1 id (.setNext b))
    -- lines 63, 64, 92, 93
    | .setNext b => some (stor s t (.next (s.node t)) 0 (opt fc.st Th.fenceStore) (if b then .tryCas else .swap))
    -- lines 66, 67
    | .tryCas =>
      if s.mem.last .tail = 0 then
        some (enter (arrive (rmw s t .tail (s.node t + 1) (opt fc.lock Th.fenceAcq) .inside) t) t)
      else none
    -- lines 100, 101, 111
    | .swap =>
      match s.mem.last .tail with
      | 0 => some (enter (arrive (rmw s t .tail (s.node t + 1) (opt fc.lock Th.fenceAcq) .inside) t) t)
      | p + 1 => some (arrive (rmw s t .tail (s.node t + 1) id (.link p)) t)
    -- line 106
    | .link p => some (stor s t (.next p) (s.node t + 1) id .spin)
    -- lines 107, 111
    | .spin =>
      if (s.th t).may s.mem (.locked (s.node t)) i then
        if (s.mem.msg (.locked (s.node t)) i).val = 0 then
          some (enter (load s t (.locked (s.node t)) i (opt fc.lock Th.fenceAcq) .inside) t)
        else some (load s t (.locked (s.node t)) i id .spin)
      else none
    -- line 123
    | .uNext =>
      if (s.th t).may s.mem (.next (s.node t)) i then
        match (s.mem.msg (.next (s.node t)) i).val with
        | 0 => some (load s t (.next (s.node t)) i id .uTail)
        | x + 1 => some (load s t (.next (s.node t)) i id (.uGrant x))
      else none
    -- line 130
    | .uTail =>
      if (s.th t).may s.mem .tail i then
        some (load s t .tail i id (if (s.mem.msg .tail i).val = s.node t + 1 then .uCas else .uWait))
      else none
    -- line 131
    | .uCas => if s.mem.last .tail = s.node t + 1 then some (leave (rmw s t .tail 0 id .idle)) else none
    -- lines 141-147
    | .uWait =>
      if (s.th t).may s.mem (.next (s.node t)) i then
        match (s.mem.msg (.next (s.node t)) i).val with
        | 0 => some (load s t (.next (s.node t)) i id .uWait)
        | x + 1 => some (load s t (.next (s.node t)) i id (.uGrant x))
      else none
    -- line 151
    | .uGrant x => some (leave (stor s t (.locked x) 0 id .idle))
    | _ => none
  | .fail t i =>
    match s.pc t with
    -- lines 66, 67
    | .tryCas =>
      if (s.th t).may s.mem .tail i ∧ (s.mem.msg .tail i).val ≠ 0 then some (load s t .tail i (opt fc.lock Th.fenceAcq) .idle) else none
    -- line 131
    | .uCas =>
      if (s.th t).may s.mem .tail i ∧ (s.mem.msg .tail i).val ≠ s.node t + 1 then some (load s t .tail i id .uWait) else none
    | _ => none
  -- the client
  | .read t x i => if s.pc t = .inside ∧ (s.th t).may s.mem (.usr x) i then some (load s t (.usr x) i id .inside) else none
  | .write t x v => if s.pc t = .inside then some (stor s t (.usr x) v id .inside) else none

def sys (fc : Fences) (n : Nat) : Sys (St n) (Act n) := { init := (· = initSt n), step := step fc }

/-- Between the return of lock/trylock and the end of unlock. -/
def St.holds (s : St n) (t : Fin n) : Prop := (s.pc t).held = true

end Verif.Weak.Mcs
