import Verif.Smr.Hp
import Verif.Stack.Stack

/-!
# The hazard pointer stack (model), `include/ck_hp_stack.h`

Any number of threads, each owning the record of its name; entries are of an arbitrary type `N`.  The state contains a whole hazard pointer system (`Smr/Hp.lean`); a step of the stack
that touches it takes the corresponding step there: a store to slot 0 is `set`, finding `head` equal to the
published entry is `validate`, the successful compare-and-swap of a push is `link`, that of a pop `unlink`.
The client registers, retires, frees, reclaims and purges at any time.

An entry may be pushed when it is fresh: never pushed, or handed to the destructor since it was popped.

Ghost state: `stk` the abstract content, `ver` the number of writes to `head`, `v0` its value when a
thread's operation was called.
-/

namespace Verif.HpStack

open Verif Verif.Lin

inductive PC (N : Type)
  | idle
  /-- `ck_stack_push_upmc` (ck_stack.h 53-68), `ck_stack_trypush_upmc` (77-87). -/
  | psh (tr : Bool) (x : N)
  | pshW (tr : Bool) (x : N) (e : Option N)
  | pshC (tr : Bool) (x : N) (e : Option N)
  /-- `ck_hp_stack_pop_mpmc` (54-84), `ck_hp_stack_trypop_mpmc` (86-108). -/
  | p0 (tr : Bool)
  | p1 (tr : Bool) (e : N)
  | p2 (tr : Bool) (e : N)
  | p3 (tr : Bool) (e : N)
  | p4 (tr : Bool) (e : N) (nx : Option N)
  | p5 (e : N)
  | p6 (e : N)
  | p7 (u : Option N)
  | p8 (u : Option N)
  | leave
  | ret (r : Stack.Res N)

structure St (N : Type) (n : Nat) where
  h : Hp.St (Fin n) N
  head : Option N
  next : N → Option N
  th : Fin n → PC N
  stk : List N
  ver : Nat
  v0 : Fin n → Nat

inductive Act (N : Type) (n : Nat)
  | call (r : Fin n) (o : Stack.Op N)
  | run (r : Fin n)
  | ret (r : Fin n)
  | hp (a : Hp.Act (Fin n) N)

def pushing {N : Type} : PC N → N → Prop
  | .psh _ y, x | .pshW _ y _, x | .pshC _ y _, x => y = x
  | _, _ => False

variable {N : Type} [DecidableEq N] {n : Nat}

/-- Move thread `r` after a step of the hazard pointer system. -/
def via (D C thr : Nat) (s : St N n) (a : Hp.Act (Fin n) N) (f : Hp.St (Fin n) N → St N n) : Option (St N n) :=
  (Hp.step D C thr s.h a).map f

def run (D C thr : Nat) (s : St N n) (r : Fin n) : Option (St N n) :=
  match s.th r with
  -- ck_stack.h 57, 81
  | .psh tr x => some { s with th := upd s.th r (.pshW tr x s.head) }
  -- ck_stack.h 58-59, 62-63, 82-83
  | .pshW tr x e => some { s with next := upd s.next x e, th := upd s.th r (.pshC tr x e) }
  -- ck_stack.h 61, 85
  | .pshC tr x e =>
    if s.head = e then
      via D C thr s (.link x) fun h => { s with
        h := h, head := some x, stk := x :: s.stk, ver := s.ver + 1
        th := upd s.th r (.ret (if tr then .flag true else .unit)) }
    else if tr then some { s with th := upd s.th r (.ret (.flag false)) }
    else some { s with th := upd s.th r (.pshW tr x s.head) }
  -- 60-62, 91-93
  | .p0 tr => match s.head with
    | none => some { s with th := upd s.th r (.ret (.entry none)) }
    | some e => some { s with th := upd s.th r (.p1 tr e) }
  -- 64, 95
  | .p1 tr e => via D C thr s (.set r 0 (some e)) fun h => { s with h := h, th := upd s.th r (.p2 tr e) }
  -- 65, 96-97
  | .p2 tr e =>
    if s.head = some e then
      via D C thr s (.validate r 0) fun h => { s with h := h, th := upd s.th r (.p3 tr e) }
    else if tr then some { s with th := upd s.th r .leave }
    else some { s with th := upd s.th r (.p0 tr) }
  -- 67, 99 (entry->next)
  | .p3 tr e => some { s with th := upd s.th r (.p4 tr e (s.next e)) }
  -- 67-69, 83, 99-103
  | .p4 tr e nx =>
    if s.head = some e then
      via D C thr s (.unlink e) fun h => { s with
        h := h, head := nx, stk := s.stk.tail, ver := s.ver + 1, th := upd s.th r (.ret (.entry (some e))) }
    else if tr then some { s with th := upd s.th r .leave }
    else match s.head with
      | none => some { s with th := upd s.th r (.ret (.entry none)) }
      | some e' => some { s with th := upd s.th r (.p5 e') }
  -- 71
  | .p5 e => via D C thr s (.set r 0 (some e)) fun h => { s with h := h, th := upd s.th r (.p6 e) }
  -- 73-74
  | .p6 e =>
    if s.head = some e then
      via D C thr s (.validate r 0) fun h => { s with h := h, th := upd s.th r (.p3 false e) }
    else some { s with th := upd s.th r (.p7 s.head) }
  -- 75-76
  | .p7 u => via D C thr s (.set r 0 u) fun h => { s with h := h, th := upd s.th r (.p8 u) }
  -- 77-79, 74
  | .p8 u => match s.head with
    | none => some { s with th := upd s.th r (.ret (.entry none)) }
    | some x =>
      if u = some x then via D C thr s (.validate r 0) fun h => { s with h := h, th := upd s.th r (.p3 false x) }
      else some { s with th := upd s.th r (.p7 (some x)) }
  -- 106-107
  | .leave => via D C thr s (.set r 0 none) fun h => { s with h := h, th := upd s.th r (.ret (.entry none)) }
  | .idle => none
  | .ret _ => none

/-- Hazard pointer calls of the client: slot 0 belongs to the stack while the thread is in an operation,
and linking, unlinking and validation are the stack's. -/
def clientOk (s : St N n) : Hp.Act (Fin n) N → Prop
  | .unregister r => match s.th r with
    | .idle => True
    | _ => False
  | .set r i _ => i ≠ 0 ∨ match s.th r with
    | .idle => True
    | _ => False
  | .validate _ _ | .copy _ _ _ | .link _ | .unlink _ => False
  | _ => True

instance (s : St N n) (a : Hp.Act (Fin n) N) : Decidable (clientOk s a) := by
  cases a <;> simp only [clientOk] <;> (try (first | infer_instance | (split <;> infer_instance)))

/-- The call.  A pop needs a registered record with a slot; a pushed entry is fresh. -/
def enter (s : St N n) (r : Fin n) (pc : PC N) : St N n := { s with th := upd s.th r pc, v0 := upd s.v0 r s.ver }

/-- Nobody is pushing `x` and it is fresh. -/
def free (s : St N n) (x : N) : Prop := s.h.life x = .fresh ∧ ∀ u, ¬ pushing (s.th u) x

instance (s : St N n) (x : N) : Decidable (free s x) := by
  unfold free
  have : ∀ pc : PC N, Decidable (pushing pc x) := fun pc => by cases pc <;> simp only [pushing] <;> infer_instance
  infer_instance

def step (D C thr : Nat) (s : St N n) : Act N n → Option (St N n)
  | .call r o => match s.th r with
    | .idle => match o with
      | .push x => if free s x then some (enter s r (.psh false x)) else none
      | .tryPush x => if free s x then some (enter s r (.psh true x)) else none
      | .pop => if s.h.used r = true ∧ 0 < D then some (enter s r (.p0 false)) else none
      | .tryPop => if s.h.used r = true ∧ 0 < D then some (enter s r (.p0 true)) else none
      | .batch => none
    | _ => none
  | .run r => run D C thr s r
  | .ret r => match s.th r with
    | .ret _ => some { s with th := upd s.th r .idle }
    | _ => none
  | .hp a => if clientOk s a then via D C thr s a fun h => { s with h := h } else none

def obs (s : St N n) : Act N n → Option (Ev (Fin n) (Stack.Op N) (Stack.Res N))
  | .call r o => some (.call r o)
  | .ret r => match s.th r with
    | .ret x => some (.ret r x)
    | _ => none
  | _ => none

/-- No records, an empty stack. -/
structure Start (s : St N n) : Prop where
  h : Hp.Start s.h
  head : s.head = none
  stk : s.stk = []
  idle : ∀ r, s.th r = .idle
  v0 : ∀ r, s.v0 r ≤ s.ver

def sys (D C thr : Nat) : Sys (St N n) (Act N n) where
  init := Start
  step := step D C thr

end Verif.HpStack
