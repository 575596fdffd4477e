import Verif.Weak.Put
import Verif.Spin.ClhThm

/-!
# CLH queue lock on relaxed memory (C80), `include/spinlock/clh.h`

As `Verif.Spin.Clh`, whose program counters and ghost arrival order are used, on the memory of `Verif.Weak`: loads return any value the
memory model allows.  Node 0 is the one given to `ck_spinlock_clh_init`, thread `t` starts with node `t + 1`.  Data
words (`usr x`) are only accessed while holding the lock.  `fc` tells which fences exist; all of them do in the code.
-/

namespace Verif.Weak.Clh

open Verif
open Verif.Spin.Clh (PC)
open Fas (opt)

inductive Loc
  /-- `*queue` -/
  | tail
  /-- `node->wait` -/
  | wait (x : Nat)
  /-- `node->previous`, 0 for `NULL`, `p + 1` for node `p` -/
  | prev (x : Nat)
  | usr (x : Nat)
deriving DecidableEq

/-- `st`: line 75; `ld`: line 85; `lock`: line 89; `unlock`: line 110. -/
structure Fences where
  st : Bool
  ld : Bool
  lock : Bool
  unlock : Bool

def real : Fences := { st := true, ld := true, lock := true, unlock := true }

structure St (n : Nat) where
  mem : Mem Loc Nat
  th : Fin n → Th Loc
  /-- the node a thread passes to lock/unlock -/
  node : Fin n → Nat
  pc : Fin n → PC Nat
  /-- ghost, as in `Verif.Spin.Clh` -/
  q : Q n
  nd : Nat → Nat

inductive Act (n : Nat)
  | lock (t : Fin n)
  /-- the next step of `t`; if it loads, it loads value `i` -/
  | run (t : Fin n) (i : Nat)
  /-- lines 105-110; `previous` is loaded as value `i` -/
  | unlock (t : Fin n) (i : Nat)
  | read (t : Fin n) (x i : Nat)
  | write (t : Fin n) (x v : Nat)

/-- lines 45-54. -/
def initSt (n : Nat) : St n :=
  { mem := Mem.init fun _ => 0, th := fun _ => Th.init, node := fun t => t.val + 1, pc := fun _ => .idle, q := Q.empty n, nd := fun _ => 0 }

variable {n : Nat}

/-- lines 68-120. -/
def step (fc : Fences) (s : St n) : Act n → Option (St n)
  | .lock t => if s.pc t = .idle then some { s with pc := upd s.pc t .setWait } else none
  | .run t i =>
    match s.pc t with
    -- lines 74, 75
    | .setWait =>
      some { s with
        mem := s.mem.store (s.th t) (.wait (s.node t)) 1
        th := upd s.th t (opt fc.st Th.fenceStore ((s.th t).store s.mem (.wait (s.node t)))), pc := upd s.pc t .swap }
    -- line 81
    | .swap =>
      some { s with
        mem := s.mem.rmw (s.th t) .tail (s.node t), th := upd s.th t ((s.th t).rmw s.mem .tail)
        pc := upd s.pc t (.setPrev (s.mem.last .tail)), q := s.q.arrive t, nd := upd s.nd (s.q.arr.length + 1) (s.node t) }
    -- lines 82, 85
    | .setPrev p =>
      some { s with
        mem := s.mem.store (s.th t) (.prev (s.node t)) (p + 1)
        th := upd s.th t (opt fc.ld Th.fenceLoad ((s.th t).store s.mem (.prev (s.node t)))), pc := upd s.pc t (.spin p) }
    -- lines 86-89
    | .spin p =>
      if (s.th t).may s.mem (.wait p) i then
        if (s.mem.msg (.wait p) i).val = 0 then
          some { s with th := upd s.th t (opt fc.lock Th.fenceAcq ((s.th t).load s.mem (.wait p) i)), pc := upd s.pc t .inside, q := s.q.enter t }
        else some { s with th := upd s.th t ((s.th t).load s.mem (.wait p) i) }
      else none
    -- lines 111, 118
    | .release p =>
      some { s with
        mem := s.mem.store (s.th t) (.wait (s.node t)) 0, th := upd s.th t ((s.th t).store s.mem (.wait (s.node t)))
        node := upd s.node t p, pc := upd s.pc t .idle, q := s.q.leave }
    | _ => none
  -- a `NULL` would be dereferenced later
  | .unlock t i =>
    if s.pc t = .inside ∧ (s.th t).may s.mem (.prev (s.node t)) i then
      match (s.mem.msg (.prev (s.node t)) i).val with
      | 0 => none
      | p + 1 =>
        some { s with
          th := upd s.th t (opt fc.unlock Th.fenceRel ((s.th t).load s.mem (.prev (s.node t)) i)), pc := upd s.pc t (.release p) }
    else none
  -- the client
  | .read t x i =>
    if s.pc t = .inside ∧ (s.th t).may s.mem (.usr x) i then some { s with th := upd s.th t ((s.th t).load s.mem (.usr x) i) } else none
  | .write t x v =>
    if s.pc t = .inside then
      some { s with mem := s.mem.store (s.th t) (.usr x) v, th := upd s.th t ((s.th t).store s.mem (.usr x)) }
    else none

def sys (fc : Fences) (n : Nat) : Sys (St n) (Act n) := { init := (· = initSt n), step := step fc }

/-- Between the return of lock and the releasing store of unlock. -/
def St.holds (s : St n) (t : Fin n) : Prop := (s.pc t).held = true

end Verif.Weak.Clh
