import Verif.Core.Lin
import Verif.Core.Seg

/-!
# `ck_fifo_mpmc`, `include/ck_fifo.h` lines 204-475

Any number of threads.  Every load, store and double-word compare-and-swap is one step: in particular the
two halves of `head`, `tail` and `next` are loaded separately, generation first.  Generations are 64-bit.

`free strict s x` says when the caller may enqueue entry `x`: it is not in the queue and nobody else is
enqueueing it and, if `strict`, no running operation holds it as its snapshot of `head` or `tail`.
(`strict = false` allows to reuse the entry returned in `*garbage` at once.)

Ghost state: `q`, the queue; `ver`, the number of successful compare-and-swaps; `gv`, its value when the thread
began its current attempt.
-/

namespace Verif.Fifo.Mpmc

open Verif Verif.Lin

inductive Op (N V : Type)
  | enq (x : N) (v : V)
  | tryEnq (x : N) (v : V)
  | deq
  | tryDeq

inductive Res (N V : Type)
  | unit
  | flag (b : Bool)
  /-- value and garbage -/
  | val (v : Option (V × N))
  deriving DecidableEq

abbrev G := BitVec 64

inductive PC (N V : Type)
  | idle
  -- `ck_fifo_mpmc_enqueue`, `ck_fifo_mpmc_tryenqueue` (`tr`)
  | enqV (tr : Bool) (x : N) (v : V)
  | enqP (tr : Bool) (x : N) (v : V)
  | enqG (tr : Bool) (x : N) (v : V)
  | eTG (tr : Bool) (x : N) (v : V)
  | eTP (tr : Bool) (x : N) (v : V) (tg : G)
  | eNG (tr : Bool) (x : N) (v : V) (tg : G) (tp : N)
  | eNP (tr : Bool) (x : N) (v : V) (tg : G) (tp : N) (ng : G)
  | eCk (tr : Bool) (x : N) (v : V) (tg : G) (tp : N) (ng : G) (np : Option N)
  | eFwd (tr : Bool) (x : N) (v : V) (tg : G) (tp : N) (y : N)
  | eCas (tr : Bool) (x : N) (v : V) (tg : G) (tp : N) (ng : G)
  | eSw (tr : Bool) (x : N) (tg : G) (tp : N)
  -- `ck_fifo_mpmc_dequeue`, `ck_fifo_mpmc_trydequeue` (`tr`)
  | dHG (tr : Bool)
  | dHP (tr : Bool) (hg : G)
  | dTG (tr : Bool) (hg : G) (hp : N)
  | dTP (tr : Bool) (hg : G) (hp : N) (tg : G)
  | dNG (tr : Bool) (hg : G) (hp : N) (tg : G) (tp : N)
  | dNP (tr : Bool) (hg : G) (hp : N) (tg : G) (tp : N)
  | dFwd (tr : Bool) (tg : G) (tp : N) (y : N)
  | dV (tr : Bool) (hg : G) (hp : N) (y : N)
  | dCas (tr : Bool) (hg : G) (hp : N) (y : N) (v : V)
  | ret (r : Res N V)

structure St (N V : Type) (n : Nat) where
  head : N
  hgen : G
  tail : N
  tgen : G
  next : N → Option N
  ngen : N → G
  val : N → V
  th : Fin n → PC N V
  q : List (N × V)
  ver : Nat
  gv : Fin n → Nat

inductive Act (N V : Type) (n : Nat)
  | call (t : Fin n) (o : Op N V)
  | run (t : Fin n)
  | ret (t : Fin n)

/-- `x` is being enqueued and not linked yet. -/
def preparing {N V : Type} : PC N V → N → Prop
  | .enqV _ y _, x | .enqP _ y _, x | .enqG _ y _, x | .eTG _ y _, x | .eTP _ y _ _, x
  | .eNG _ y _ _ _, x | .eNP _ y _ _ _ _, x | .eCk _ y _ _ _ _ _, x | .eFwd _ y _ _ _ _, x
  | .eCas _ y _ _ _ _, x => y = x
  | _, _ => False

/-- `x` is the operation's snapshot of `head` or `tail`. -/
def knows {N V : Type} : PC N V → N → Prop
  | .eNG _ _ _ _ tp, x | .eNP _ _ _ _ tp _, x | .eCk _ _ _ _ tp _ _, x | .eFwd _ _ _ _ tp _, x
  | .eCas _ _ _ _ tp _, x | .eSw _ _ _ tp, x => tp = x
  | .dTG _ _ hp, x | .dTP _ _ hp _, x => hp = x
  | .dNG _ _ hp _ tp, x | .dNP _ _ hp _ tp, x => hp = x ∨ tp = x
  | .dFwd _ _ tp _, x => tp = x
  | .dV _ _ hp _, x | .dCas _ _ hp _ _, x => hp = x
  | _, _ => False

variable {N V : Type} [DecidableEq N] {n : Nat}

instance (pc : PC N V) (x : N) : Decidable (preparing pc x) := by
  cases pc <;> simp only [preparing] <;> infer_instance
instance (pc : PC N V) (x : N) : Decidable (knows pc x) := by
  cases pc <;> simp only [knows] <;> infer_instance

/-- The dummy and the entries in the queue. -/
def St.chain (s : St N V n) : List N := s.head :: s.q.map Prod.fst

def free (strict : Prop) (s : St N V n) (x : N) : Prop :=
  x ∉ s.chain ∧ (∀ u, ¬ preparing (s.th u) x) ∧ (strict → ∀ u, ¬ knows (s.th u) x)

instance (strict : Prop) [Decidable strict] (s : St N V n) (x : N) : Decidable (free strict s x) := by
  unfold free; infer_instance

/-- After a failed attempt of an enqueue. -/
def again (tr : Bool) (x : N) (v : V) : PC N V := if tr then .ret (.flag false) else .eTG false x v

/-- After a failed attempt of a dequeue. -/
def dagain (tr : Bool) : PC N V := if tr then .ret (.val none) else .dHG false

def run (s : St N V n) (t : Fin n) : Option (St N V n) := match s.th t with
  -- 255-257 and 308-310
  | .enqV tr x v => some { s with val := upd s.val x v, th := upd s.th t (.enqP tr x v) }
  | .enqP tr x v => some { s with next := upd s.next x none, th := upd s.th t (.enqG tr x v) }
  | .enqG tr x v => some { s with ngen := upd s.ngen x 0#64, th := upd s.th t (.eTG tr x v) }
  -- 261-266 and 314-319
  | .eTG tr x v => some { s with gv := upd s.gv t s.ver, th := upd s.th t (.eTP tr x v s.tgen) }
  | .eTP tr x v tg => some { s with th := upd s.th t (.eNG tr x v tg s.tail) }
  | .eNG tr x v tg tp => some { s with th := upd s.th t (.eNP tr x v tg tp (s.ngen tp)) }
  | .eNP tr x v tg tp ng => some { s with th := upd s.th t (.eCk tr x v tg tp ng (s.next tp)) }
  -- 268-271, 281 and 321-324, 335
  | .eCk tr x v tg tp ng np =>
    if s.tgen = tg then
      match np with
      | some y => some { s with th := upd s.th t (.eFwd tr x v tg tp y) }
      | none => some { s with th := upd s.th t (.eCas tr x v tg tp ng) }
    else some { s with th := upd s.th t (again tr x v) }
  -- 278-280 and 331-334
  | .eFwd tr x v tg tp y =>
    if s.tail = tp ∧ s.tgen = tg then
      some { s with tail := y, tgen := tg + 1#64, ver := s.ver + 1, th := upd s.th t (again tr x v) }
    else some { s with th := upd s.th t (again tr x v) }
  -- 286-289 and 340-343
  | .eCas tr x v tg tp ng =>
    if s.next tp = none ∧ s.ngen tp = ng then
      some { s with next := upd s.next tp (some x), ngen := upd s.ngen tp (ng + 1#64), q := s.q ++ [(x, v)],
                    ver := s.ver + 1, th := upd s.th t (.eSw tr x tg tp) }
    else some { s with th := upd s.th t (again tr x v) }
  -- 296-298 and 349-351
  | .eSw tr x tg tp =>
    let r : PC N V := .ret (if tr then .flag true else .unit)
    if s.tail = tp ∧ s.tgen = tg then
      some { s with tail := x, tgen := tg + 1#64, ver := s.ver + 1, th := upd s.th t r }
    else some { s with th := upd s.th t r }
  -- 362-370 and 416-425
  | .dHG tr => some { s with gv := upd s.gv t s.ver, th := upd s.th t (.dHP tr s.hgen) }
  | .dHP tr hg => some { s with th := upd s.th t (.dTG tr hg s.head) }
  | .dTG tr hg hp => some { s with th := upd s.th t (.dTP tr hg hp s.tgen) }
  | .dTP tr hg hp tg => some { s with th := upd s.th t (.dNG tr hg hp tg s.tail) }
  | .dNG tr hg hp tg tp => some { s with th := upd s.th t (.dNP tr hg hp tg tp) }
  -- 371-394 and 426-448 (`next.generation` is not used)
  | .dNP tr hg hp tg tp =>
    if hp = tp then
      match s.next hp with
      | none => some { s with th := upd s.th t (.ret (.val none)) }
      | some y => some { s with th := upd s.th t (.dFwd tr tg tp y) }
    else
      match s.next hp with
      | none => some { s with th := upd s.th t (dagain tr) }
      | some y => some { s with th := upd s.th t (.dV tr hg hp y) }
  -- 384-385 and 439-441
  | .dFwd tr tg tp y =>
    if s.tail = tp ∧ s.tgen = tg then
      some { s with tail := y, tgen := tg + 1#64, ver := s.ver + 1, th := upd s.th t (dagain tr) }
    else some { s with th := upd s.th t (dagain tr) }
  -- 396 and 451
  | .dV tr hg hp y => some { s with th := upd s.th t (.dCas tr hg hp y (s.val y)) }
  -- 399-406 and 454-460
  | .dCas tr hg hp y v =>
    if s.head = hp ∧ s.hgen = hg then
      some { s with head := y, hgen := hg + 1#64, q := s.q.tail, ver := s.ver + 1,
                    th := upd s.th t (.ret (.val (some (v, hp)))) }
    else some { s with th := upd s.th t (dagain tr) }
  | .idle => none
  | .ret _ => none

def step (strict : Prop) [Decidable strict] (s : St N V n) : Act N V n → Option (St N V n)
  | .call t o => match s.th t with
    | .idle => match o with
      | .enq x v => if free strict s x then some { s with th := upd s.th t (.enqV false x v) } else none
      | .tryEnq x v => if free strict s x then some { s with th := upd s.th t (.enqV true x v) } else none
      | .deq => some { s with th := upd s.th t (.dHG false) }
      | .tryDeq => some { s with th := upd s.th t (.dHG true) }
    | _ => none
  | .run t => run s t
  | .ret t => match s.th t with
    | .ret _ => some { s with th := upd s.th t .idle }
    | _ => none

def obs (s : St N V n) : Act N V n → Option (Ev (Fin n) (Op N V) (Res N V))
  | .call t o => some (.call t o)
  | .run _ => none
  | .ret t => match s.th t with
    | .ret r => some (.ret t r)
    | _ => none

def sys (strict : Prop) [Decidable strict] (s0 : St N V n) : Sys (St N V n) (Act N V n) :=
  { init := fun s => s = s0, step := step strict }

/-- A quiescent fifo with dummy `d` and content `q`. -/
structure Start (d : N) (q : List (N × V)) (s : St N V n) : Prop where
  idle : ∀ t, s.th t = .idle
  hq : s.q = q
  head : s.head = d
  seg : Seg s.next (some d) (d :: q.map Prod.fst) none
  nodup : (d :: q.map Prod.fst).Nodup
  tail : (d :: q.map Prod.fst).getLast? = some s.tail
  vals : ∀ p ∈ q, s.val p.1 = p.2

omit [DecidableEq N] in
/-- `ck_fifo_mpmc_init`, lines 224-233. -/
theorem Start.initial (stub : N) (val : N → V) (next : N → Option N) (ngen : N → G) (h : next stub = none) :
    Start stub [] ({ head := stub, hgen := 0#64, tail := stub, tgen := 0#64, next := next, ngen := ngen,
                     val := val, th := fun _ => .idle, q := [], ver := 0,
                     gv := fun _ => 0 } : St N V n) where
  idle _ := rfl
  hq := rfl
  head := rfl
  seg := ⟨rfl, h⟩
  nodup := by simp
  tail := rfl
  vals _ hp := by cases hp

/-! ## Specification -/

/-- A FIFO queue that owns its entries and a dummy; a dequeue hands back the previous dummy.  The `try`
operations may fail and then do nothing (`tryenqueue_fail`, `trydequeue_fail` say when). -/
structure X (N V : Type) where
  dummy : N
  q : List (N × V)

def fifo (x0 : X N V) : Obj (Op N V) (Res N V) (X N V) where
  init x := x = x0
  app x o r x' := match o, r with
    | .enq n v, .unit => x' = { x with q := x.q ++ [(n, v)] }
    | .tryEnq n v, .flag true => x' = { x with q := x.q ++ [(n, v)] }
    | .tryEnq _ _, .flag false => x' = x
    | .deq, .val none => x.q = [] ∧ x' = x
    | .deq, .val (some (v, g)) => ∃ n q, x.q = (n, v) :: q ∧ g = x.dummy ∧ x' = { dummy := n, q := q }
    | .tryDeq, .val none => x' = x
    | .tryDeq, .val (some (v, g)) => ∃ n q, x.q = (n, v) :: q ∧ g = x.dummy ∧ x' = { dummy := n, q := q }
    | _, _ => False

end Verif.Fifo.Mpmc
