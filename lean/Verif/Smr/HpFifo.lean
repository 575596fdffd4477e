import Verif.Smr.Hp
import Verif.Core.Lin
import Verif.Core.Seg

/-!
# The hazard pointer FIFO (model), `include/ck_hp_fifo.h`

Any number of threads, each owning the record of its name; entries are of an arbitrary type `N`, values of `V`.
The state contains a whole hazard pointer system (`Smr/Hp.lean`): a store to a slot is `set`, a successful check of
`fifo->tail` or `fifo->head` after the store is `validate`, the compare-and-swap that appends an entry is `link` and
the one that moves `head` is `unlink` of the old dummy.  The client registers, retires, frees, reclaims and purges at
any time.  An entry may be enqueued when it is fresh: never enqueued, or handed to the destructor since it was
returned by a dequeue.

`tq` says whether `ck_hp_fifo_trydequeue_mpmc` may be called; if `strict`, no entry is enqueued while a `trydequeue`
that has loaded its address from `head` has not yet checked its slot (`held`).  The thread state `null` is reached when its
compare-and-swap stores `NULL` in `fifo->head`; the next statement (220) dereferences `NULL`.

Ghost state: `q` the abstract content; the value carried by `dVal`.
-/

namespace Verif.HpFifo

open Verif Verif.Lin

inductive Op (N V : Type)
  | enq (x : N) (v : V)
  | tryEnq (x : N) (v : V)
  | deq
  | tryDeq

inductive Res (N V : Type)
  | unit
  | flag (b : Bool)
  /-- value and returned entry -/
  | val (v : Option (V × N))
  deriving DecidableEq

inductive PC (N V : Type)
  | idle
  -- `ck_hp_fifo_enqueue_mpmc` (76-120), `ck_hp_fifo_tryenqueue_mpmc` (122-149, `tr`)
  | eV (tr : Bool) (x : N) (v : V)
  | eP (tr : Bool) (x : N) (v : V)
  | eT (tr : Bool) (x : N) (v : V)
  | eS (tr : Bool) (x : N) (v : V) (tp : N)
  | eC (tr : Bool) (x : N) (v : V) (tp : N)
  | eN (tr : Bool) (x : N) (v : V) (tp : N)
  | eK (x : N) (v : V) (tp : N) (np : Option N)
  | eFwd (tr : Bool) (x : N) (v : V) (tp : N) (y : N)
  | eCas (tr : Bool) (x : N) (v : V) (tp : N)
  | eSw (tr : Bool) (x : N) (tp : N)
  -- `ck_hp_fifo_dequeue_mpmc` (151-190)
  | dH
  | dS (h : N)
  | dC (h : N)
  | dT (h : N)
  | dN (h : N) (tp : N)
  | d1 (h : N) (tp : N) (np : Option N)
  | dK (h : N) (tp : N) (np : Option N)
  | dX0
  | dX1
  | dFwd (h : N) (y : N)
  | dCas (h : N) (y : N)
  | dVal (h : N) (y : N) (v : V)
  -- `ck_hp_fifo_trydequeue_mpmc` (192-222)
  | qH
  | qT (h : N)
  | qS (h : N) (tp : N)
  | qC (h : N) (tp : N)
  | qN (h : N) (tp : N)
  | q1 (h : N) (tp : N) (np : Option N)
  | qK (h : N) (tp : N) (np : Option N)
  | qFwd (tp : N) (y : N)
  | qCas (h : N) (np : Option N)
  | null
  | ret (r : Res N V)
  deriving DecidableEq

structure St (N V : Type) (n : Nat) where
  h : Hp.St (Fin n) N
  head : N
  tail : N
  next : N → Option N
  val : N → V
  th : Fin n → PC N V
  q : List (N × V)

inductive Act (N V : Type) (n : Nat)
  | call (r : Fin n) (o : Op N V)
  | run (r : Fin n)
  | ret (r : Fin n)
  | hp (a : Hp.Act (Fin n) N)

/-- `x` is being enqueued and not linked yet. -/
def preparing {N V : Type} : PC N V → N → Prop
  | .eV _ y _, x | .eP _ y _, x | .eT _ y _, x | .eS _ y _ _, x | .eC _ y _ _, x | .eN _ y _ _, x
  | .eK y _ _ _, x | .eFwd _ y _ _ _, x | .eCas _ y _ _, x => y = x
  | _, _ => False

/-- `x` was loaded from `head` by a `trydequeue` that has not validated its slot yet. -/
def held {N V : Type} : PC N V → N → Prop
  | .qT h, x | .qS h _, x | .qC h _, x => h = x
  | _, _ => False

variable {N V : Type} [DecidableEq N] {n : Nat}

/-- The dummy and the entries in the queue. -/
def St.chain (s : St N V n) : List N := s.head :: s.q.map Prod.fst

/-- A step of the hazard pointer system with a change of the queue. -/
def via (D C thr : Nat) (s : St N V n) (a : Hp.Act (Fin n) N) (f : Hp.St (Fin n) N → St N V n) :
    Option (St N V n) :=
  (Hp.step D C thr s.h a).map f

/-- After a failed attempt of an enqueue. -/
def again (tr : Bool) (x : N) (v : V) : PC N V := if tr then .ret (.flag false) else .eT false x v

def run (D C thr : Nat) (s : St N V n) (r : Fin n) : Option (St N V n) :=
  match s.th r with
  -- 85, 130
  | .eV tr x v => some { s with val := upd s.val x v, th := upd s.th r (.eP tr x v) }
  -- 86, 131
  | .eP tr x v => some { s with next := upd s.next x none, th := upd s.th r (.eT tr x v) }
  -- 90, 134
  | .eT tr x v => some { s with th := upd s.th r (.eS tr x v s.tail) }
  -- 91, 135
  | .eS tr x v tp => via D C thr s (.set r 0 (some tp)) fun h => { s with h := h, th := upd s.th r (.eC tr x v tp) }
  -- 92-93, 136-137
  | .eC tr x v tp =>
    if s.tail = tp then via D C thr s (.validate r 0) fun h => { s with h := h, th := upd s.th r (.eN tr x v tp) }
    else some { s with th := upd s.th r (again tr x v) }
  -- 96, 139-140, 143
  | .eN tr x v tp =>
    if tr then
      match s.next tp with
      | none => some { s with th := upd s.th r (.eCas true x v tp) }
      | some y => some { s with th := upd s.th r (.eFwd true x v tp y) }
    else some { s with th := upd s.th r (.eK x v tp (s.next tp)) }
  -- 99-103
  | .eK x v tp np =>
    if s.tail = tp then
      match np with
      | none => some { s with th := upd s.th r (.eCas false x v tp) }
      | some y => some { s with th := upd s.th r (.eFwd false x v tp y) }
    else some { s with th := upd s.th r (.eT false x v) }
  -- 108-109, 141-142
  | .eFwd tr x v tp y =>
    if s.tail = tp then some { s with tail := y, th := upd s.th r (again tr x v) }
    else some { s with th := upd s.th r (again tr x v) }
  -- 113, 143-144
  | .eCas tr x v tp =>
    if s.next tp = none then
      via D C thr s (.link x) fun h => { s with
        h := h, next := upd s.next tp (some x), q := s.q ++ [(x, v)], th := upd s.th r (.eSw tr x tp) }
    else some { s with th := upd s.th r (again tr x v) }
  -- 118, 147
  | .eSw tr x tp =>
    let res : PC N V := .ret (if tr then .flag true else .unit)
    if s.tail = tp then some { s with tail := x, th := upd s.th r res }
    else some { s with th := upd s.th r res }
  -- 159
  | .dH => some { s with th := upd s.th r (.dS s.head) }
  -- 160
  | .dS h => via D C thr s (.set r 0 (some h)) fun h' => { s with h := h', th := upd s.th r (.dC h) }
  -- 161-162
  | .dC h =>
    if s.head = h then via D C thr s (.validate r 0) fun h' => { s with h := h', th := upd s.th r (.dT h) }
    else some { s with th := upd s.th r .dH }
  -- 164
  | .dT h => some { s with th := upd s.th r (.dN h s.tail) }
  -- 166
  | .dN h tp => some { s with th := upd s.th r (.d1 h tp (s.next h)) }
  -- 167
  | .d1 h tp np => via D C thr s (.set r 1 np) fun h' => { s with h := h', th := upd s.th r (.dK h tp np) }
  -- 169-172, 179
  | .dK h tp np =>
    if s.head = h then
      match np with
      | none => some { s with th := upd s.th r .dX0 }
      | some y => via D C thr s (.validate r 1) fun h' => { s with
          h := h', th := upd s.th r (if h = tp then .dFwd h y else .dCas h y) }
    else some { s with th := upd s.th r .dH }
  -- 174
  | .dX0 => via D C thr s (.set r 0 none) fun h' => { s with h := h', th := upd s.th r .dX1 }
  -- 175-176
  | .dX1 => via D C thr s (.set r 1 none) fun h' => { s with h := h', th := upd s.th r (.ret (.val none)) }
  -- 180-181
  | .dFwd h y =>
    if s.tail = h then some { s with tail := y, th := upd s.th r .dH } else some { s with th := upd s.th r .dH }
  -- 184
  | .dCas h y =>
    if s.head = h then
      via D C thr s (.unlink h) fun h' => { s with
        h := h', head := y, q := s.q.tail, th := upd s.th r (.dVal h y (s.val y)) }
    else some { s with th := upd s.th r .dH }
  -- 188-189, 220-221
  | .dVal h y _ => some { s with th := upd s.th r (.ret (.val (some (s.val y, h)))) }
  -- 199
  | .qH => some { s with th := upd s.th r (.qT s.head) }
  -- 201
  | .qT h => some { s with th := upd s.th r (.qS h s.tail) }
  -- 202
  | .qS h tp => via D C thr s (.set r 0 (some h)) fun h' => { s with h := h', th := upd s.th r (.qC h tp) }
  -- 203-204
  | .qC h tp =>
    if s.head = h then via D C thr s (.validate r 0) fun h' => { s with h := h', th := upd s.th r (.qN h tp) }
    else some { s with th := upd s.th r (.ret (.val none)) }
  -- 206
  | .qN h tp => some { s with th := upd s.th r (.q1 h tp (s.next h)) }
  -- 207
  | .q1 h tp np => via D C thr s (.set r 1 np) fun h' => { s with h := h', th := upd s.th r (.qK h tp np) }
  -- 208-213, 217
  | .qK h tp np =>
    if s.head = h then
      match np with
      | none => some { s with th := upd s.th r (if h = tp then .ret (.val none) else .qCas h none) }
      | some y => via D C thr s (.validate r 1) fun h' => { s with
          h := h', th := upd s.th r (if h = tp then .qFwd tp y else .qCas h (some y)) }
    else some { s with th := upd s.th r (.ret (.val none)) }
  -- 215-216
  | .qFwd tp y =>
    if s.tail = tp then some { s with tail := y, th := upd s.th r (.ret (.val none)) }
    else some { s with th := upd s.th r (.ret (.val none)) }
  -- 217-218
  | .qCas h np =>
    if s.head = h then
      match np with
      | none => via D C thr s (.unlink h) fun h' => { s with h := h', th := upd s.th r .null }
      | some y => via D C thr s (.unlink h) fun h' => { s with
          h := h', head := y, q := s.q.tail, th := upd s.th r (.dVal h y (s.val y)) }
    else some { s with th := upd s.th r (.ret (.val none)) }
  | .null => none
  | .idle => none
  | .ret _ => none

/-- Hazard pointer calls of the client: slots 0 and 1 belong to the queue while the thread is in an operation, and
linking, unlinking and validation are the queue's. -/
def clientOk (s : St N V n) : Hp.Act (Fin n) N → Prop
  | .unregister r => match s.th r with
    | .idle => True
    | _ => False
  | .set r i _ => 2 ≤ i ∨ match s.th r with
    | .idle => True
    | _ => False
  | .validate _ _ | .copy _ _ _ | .link _ | .unlink _ => False
  | _ => True

instance (s : St N V n) (a : Hp.Act (Fin n) N) : Decidable (clientOk s a) := by
  cases a <;> simp only [clientOk] <;> (try (first | infer_instance | (split <;> infer_instance)))

/-- Nobody is enqueueing `x` and it is fresh. -/
def free (strict : Prop) (s : St N V n) (x : N) : Prop :=
  s.h.life x = .fresh ∧ (∀ u, ¬ preparing (s.th u) x) ∧ (strict → ∀ u, ¬ held (s.th u) x)

instance (strict : Prop) [Decidable strict] (s : St N V n) (x : N) : Decidable (free strict s x) := by
  unfold free
  have : ∀ pc : PC N V, Decidable (preparing pc x) := fun pc => by
    cases pc <;> simp only [preparing] <;> infer_instance
  have : ∀ pc : PC N V, Decidable (held pc x) := fun pc => by
    cases pc <;> simp only [held] <;> infer_instance
  infer_instance

def step (tq strict : Prop) [Decidable tq] [Decidable strict] (D C thr : Nat) (s : St N V n) : Act N V n → Option (St N V n)
  | .call r o => match s.th r with
    | .idle =>
      if s.h.used r = true ∧ 2 ≤ D then
        match o with
        | .enq x v => if free strict s x then some { s with th := upd s.th r (.eV false x v) } else none
        | .tryEnq x v => if free strict s x then some { s with th := upd s.th r (.eV true x v) } else none
        | .deq => some { s with th := upd s.th r .dH }
        | .tryDeq => if tq then some { s with th := upd s.th r .qH } else none
      else none
    | _ => none
  | .run r => run D C thr s r
  | .ret r => match s.th r with
    | .ret _ => some { s with th := upd s.th r .idle }
    | _ => none
  | .hp a => if clientOk s a then via D C thr s a fun h => { s with h := h } else none

def obs (s : St N V n) : Act N V n → Option (Ev (Fin n) (Op N V) (Res N V))
  | .call r o => some (.call r o)
  | .ret r => match s.th r with
    | .ret x => some (.ret r x)
    | _ => none
  | _ => none

/-- After `ck_hp_init` and `ck_hp_fifo_init` (59-66). -/
structure Start (stub : N) (s : St N V n) : Prop where
  h : ∃ h0, Hp.Start h0 ∧ s.h = { h0 with life := upd h0.life stub .linked }
  head : s.head = stub
  tail : s.tail = stub
  next : s.next stub = none
  q : s.q = []
  idle : ∀ r, s.th r = .idle

def sys (tq strict : Prop) [Decidable tq] [Decidable strict] (D C thr : Nat) (stub : N) :
    Sys (St N V n) (Act N V n) where
  init := Start stub
  step := step tq strict D C thr

/-! ## Specification -/

/-- A FIFO queue that owns its entries and a dummy; a dequeue hands back the previous dummy.  The `try` operations may
fail and then do nothing. -/
structure X (N V : Type) where
  dummy : N
  q : List (N × V)

def fifo (x0 : X N V) : Obj (Op N V) (Res N V) (X N V) where
  init x := x = x0
  app x o r x' := match o, r with
    | .enq n v, .unit => x' = { x with q := x.q ++ [(n, v)] }
    | .tryEnq n v, .flag true => x' = { x with q := x.q ++ [(n, v)] }
    | .tryEnq _ _, .flag false => x' = x
    | .deq, .val none => x.q = [] ∧ x' = x
    | .deq, .val (some (v, g)) => ∃ n q, x.q = (n, v) :: q ∧ g = x.dummy ∧ x' = { dummy := n, q := q }
    | .tryDeq, .val none => x' = x
    | .tryDeq, .val (some (v, g)) => ∃ n q, x.q = (n, v) :: q ∧ g = x.dummy ∧ x' = { dummy := n, q := q }
    | _, _ => False

end Verif.HpFifo
