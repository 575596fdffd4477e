import Verif.Core.Fifo
import Verif.Core.Spec
import Verif.Core.Tactic

/-!
# CLH queue lock (model), `include/spinlock/clh.h`

Nodes are values of an arbitrary type `N`.  Every thread owns one node at a time; unlock replaces
it by the predecessor's node (line 118).  `q` and `nd` are ghost: `nd 0` is the initial unowned
node and `nd (i+1)` the node used by arrival number `i`.
-/

namespace Verif.Spin.Clh

inductive Act (n : Nat)
  | lock (t : Fin n)
  | run (t : Fin n)
  | unlock (t : Fin n)
  deriving DecidableEq

inductive PC (N : Type)
  | idle
  | setWait            -- line 74
  | swap               -- line 81
  | setPrev (p : N)    -- line 82
  | spin (p : N)       -- line 86
  | inside
  | release (p : N)    -- line 111, `previous` loaded at line 105
  deriving DecidableEq

structure St (N : Type) (n : Nat) where
  tail : N
  wait : N → Bool
  prev : N → Option N
  /-- the node a thread passes to lock/unlock -/
  node : Fin n → N
  pc : Fin n → PC N
  q : Q n
  nd : Nat → N

variable {N : Type} [DecidableEq N] {n : Nat}

/-- lines 45-54: `tail` is the unowned node; every thread has a node of its own. -/
def isInit (s : St N n) : Prop :=
  s.wait s.tail = false ∧ s.prev s.tail = none ∧ (∀ t, s.pc t = .idle) ∧ s.q = Q.empty n ∧
  s.nd 0 = s.tail ∧ (∀ t, s.node t ≠ s.tail) ∧ (∀ t u, s.node t = s.node u → t = u)

def step (s : St N n) : Act n → Option (St N n)
  | .lock t => if s.pc t = .idle then some { s with pc := upd s.pc t .setWait } else none
  | .unlock t =>
    if s.pc t = .inside then
      -- line 105; `previous` is never NULL here, a NULL would be dereferenced later
      match s.prev (s.node t) with
      | some p => some { s with pc := upd s.pc t (.release p) }
      | none => none
    else none
  | .run t => match s.pc t with
    | .setWait => some { s with wait := upd s.wait (s.node t) true, pc := upd s.pc t .swap }
    | .swap => some { s with tail := s.node t, pc := upd s.pc t (.setPrev s.tail),
                             q := s.q.arrive t, nd := upd s.nd (s.q.arr.length + 1) (s.node t) }
    | .setPrev p => some { s with prev := upd s.prev (s.node t) (some p),
                                  pc := upd s.pc t (.spin p) }
    | .spin p => if s.wait p then some s
                 else some { s with pc := upd s.pc t .inside, q := s.q.enter t }
    -- lines 111, 118
    | .release p => some { s with wait := upd s.wait (s.node t) false, node := upd s.node t p,
                                  pc := upd s.pc t .idle, q := s.q.leave }
    | _ => none

def sys (N : Type) [DecidableEq N] (n : Nat) : Sys (St N n) (Act n) :=
  { init := isInit, step := step }

/-- Between the return of lock and the releasing store of unlock. -/
def St.holds (s : St N n) (t : Fin n) : Prop := s.pc t = .inside ∨ ∃ p, s.pc t = .release p

/-- Enqueued but not inside. -/
def St.waits (s : St N n) (t : Fin n) : Prop := ∃ p, s.pc t = .setPrev p ∨ s.pc t = .spin p

/-- `ck_spinlock_clh_locked` (lines 56-66), both loads in one state. -/
def locked (s : St N n) : Bool := s.wait s.tail

end Verif.Spin.Clh
