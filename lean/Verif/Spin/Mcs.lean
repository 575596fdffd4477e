import Verif.Core.Fifo
import Verif.Core.Spec
import Verif.Core.Tactic

/-!
# MCS queue lock (model), `include/spinlock/mcs.h`

Nodes are values of an arbitrary type `N`.  The client chooses the node for every acquisition;
the only rule is that the node is not in use by a thread that is in or waiting for the lock, i.e. a
node may be reused by anybody as soon as unlock (or a failed trylock) returned.
`q` and `nd` are ghost: `nd i` is the node used by arrival number `i`.
-/

namespace Verif.Spin.Mcs

inductive Act (N : Type) (n : Nat)
  | lock (t : Fin n) (x : N)
  | trylock (t : Fin n) (x : N)
  | unlock (t : Fin n)
  | run (t : Fin n)
  deriving DecidableEq

inductive PC (N : Type)
  | idle
  | setLocked (try_ : Bool)   -- lines 62 / 91
  | setNext (try_ : Bool)     -- lines 63 / 92
  | tryCas                    -- line 66
  | swap                      -- line 100
  | link (p : N)              -- line 106
  | spin                      -- line 107
  | inside
  | uNext                     -- line 123
  | uTail                     -- line 130 (load)
  | uCas                      -- line 131
  | uWait                     -- lines 141-147
  | uGrant (x : N)            -- line 151
  deriving DecidableEq

structure St (N : Type) (n : Nat) where
  queue : Option N
  locked : N → Bool
  next : N → Option N
  /-- the node of the current operation -/
  node : Fin n → N
  pc : Fin n → PC N
  q : Q n
  nd : Nat → N

variable {N : Type} [DecidableEq N] {n : Nat}

/-- lines 47-54. -/
def isInit (s : St N n) : Prop :=
  s.queue = none ∧ (∀ t, s.pc t = .idle) ∧ s.q = Q.empty n

/-- Node `x` is not used by any running operation or holder. -/
def unused (s : St N n) (x : N) : Prop := ∀ u, s.pc u ≠ .idle → s.node u ≠ x

instance (s : St N n) (x : N) : Decidable (unused s x) := by unfold unused; infer_instance

def step (s : St N n) : Act N n → Option (St N n)
  | .lock t x =>
    if s.pc t = .idle ∧ unused s x then
      some { s with node := upd s.node t x, pc := upd s.pc t (.setLocked false) } else none
  | .trylock t x =>
    if s.pc t = .idle ∧ unused s x then
      some { s with node := upd s.node t x, pc := upd s.pc t (.setLocked true) } else none
  | .unlock t => if s.pc t = .inside then some { s with pc := upd s.pc t .uNext } else none
  | .run t => match s.pc t with
    | .setLocked b => some { s with locked := upd s.locked (s.node t) true,
                                    pc := upd s.pc t (.setNext b) }
    | .setNext b => some { s with next := upd s.next (s.node t) none,
                                  pc := upd s.pc t (if b then .tryCas else .swap) }
    | .tryCas =>
      if s.queue = none then
        some { s with queue := some (s.node t), pc := upd s.pc t .inside,
                      nd := upd s.nd s.q.arr.length (s.node t), q := (s.q.arrive t).enter t }
      else some { s with pc := upd s.pc t .idle }
    | .swap =>
      match s.queue with
      | none => some { s with queue := some (s.node t), pc := upd s.pc t .inside,
                              nd := upd s.nd s.q.arr.length (s.node t),
                              q := (s.q.arrive t).enter t }
      | some p => some { s with queue := some (s.node t), pc := upd s.pc t (.link p),
                                nd := upd s.nd s.q.arr.length (s.node t), q := s.q.arrive t }
    | .link p => some { s with next := upd s.next p (some (s.node t)), pc := upd s.pc t .spin }
    | .spin => if s.locked (s.node t) then some s
               else some { s with pc := upd s.pc t .inside, q := s.q.enter t }
    | .uNext => match s.next (s.node t) with
      | none => some { s with pc := upd s.pc t .uTail }
      | some x => some { s with pc := upd s.pc t (.uGrant x) }
    | .uTail => some { s with pc := upd s.pc t (if s.queue = some (s.node t) then .uCas else .uWait) }
    | .uCas =>
      if s.queue = some (s.node t) then
        some { s with queue := none, pc := upd s.pc t .idle, q := s.q.leave }
      else some { s with pc := upd s.pc t .uWait }
    | .uWait => match s.next (s.node t) with
      | none => some s
      | some x => some { s with pc := upd s.pc t (.uGrant x) }
    | .uGrant x => some { s with locked := upd s.locked x false, pc := upd s.pc t .idle,
                                 q := s.q.leave }
    | _ => none

def sys (N : Type) [DecidableEq N] (n : Nat) : Sys (St N n) (Act N n) :=
  { init := isInit, step := step }

/-- From the end of the acquisition to the point where unlock passes the lock on. -/
def PC.held : PC N → Bool
  | .inside | .uNext | .uTail | .uCas | .uWait | .uGrant _ => true
  | _ => false

/-- Between the return of lock/trylock and the call of unlock, or in an unlock that has not passed
the lock on yet. -/
def St.holds (s : St N n) (t : Fin n) : Prop := (s.pc t).held = true

/-- Enqueued but not inside. -/
def St.waits (s : St N n) (t : Fin n) : Prop := s.pc t = .spin ∨ ∃ p, s.pc t = .link p

/-- `ck_spinlock_mcs_locked` (lines 71-79). -/
def isLocked (s : St N n) : Bool := s.queue ≠ none

end Verif.Spin.Mcs
