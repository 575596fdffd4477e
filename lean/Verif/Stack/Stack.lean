import Verif.Core.Lin
import Verif.Core.Seg
import Verif.Core.Tactic

/-!
# `ck_stack` (model), `include/ck_stack.h`

Entries are of an arbitrary type `N`; `next` is the heap field `entry->next`; any number of threads.

* mode `upmc`: `push_upmc` (53-68), `trypush_upmc` (77-87), `pop_upmc` (95-115), `trypop_upmc` (126-142),
  `batch_pop_upmc` (150-158).  An entry may be pushed when it is in nobody's hands *and* no running pop has
  loaded its address (the "unique producer" discipline).
* mode `mpmc`: `push_mpmc`, `trypush_mpmc` (166-187), `pop_mpmc` (194-223), `trypop_mpmc` (228-249).  An
  entry may be pushed whenever it is in nobody's hands.
* mode `mpmcBatch`: `mpmc` with `batch_pop_mpmc` (259-264), same rule.
* mode `mpmcSafe`: the same operations, but entries are reused only as in mode `upmc`.

The result of a batch pop is the list its caller sees by following `next` from the returned entry
(`CK_STACK_FOREACH`, lines 348-351), one load at a time.

Ghost state: `stk` the abstract content, `ver` the number of writes to `head`, `G` the generation without
wrap; `pshW`, `pshC`, `popN`, `popC` carry the value of `ver` at the load of `head`, `mp*` the value of `G`
and of `ver` at the load of `generation`, `walk` the whole list to be seen.
-/

namespace Verif.Stack

open Verif Verif.Lin

inductive Mode
  | upmc | mpmc | mpmcBatch | mpmcSafe
  deriving DecidableEq

/-- The unique-producer discipline is kept. -/
def Mode.strict : Mode → Prop
  | .upmc | .mpmcSafe => True
  | _ => False

instance (m : Mode) : Decidable m.strict := by cases m <;> simp only [Mode.strict] <;> infer_instance

inductive Op (N : Type)
  | push (x : N)
  | tryPush (x : N)
  | pop
  | tryPop
  | batch

inductive Res (N : Type)
  | unit
  | flag (b : Bool)
  | entry (x : Option N)
  | list (l : List N)

inductive PC (N : Type)
  | idle
  | psh (tr : Bool) (x : N)
  | pshW (tr : Bool) (x : N) (e : Option N) (g : Nat)
  | pshC (tr : Bool) (x : N) (e : Option N) (g : Nat)
  | pop (tr : Bool)
  | popN (tr : Bool) (e : N) (g : Nat)
  | popC (tr : Bool) (e : N) (nx : Option N) (g : Nat)
  | bat
  | walk (full acc : List N) (cur : Option N)
  | mp (tr : Bool)
  | mpH (tr : Bool) (gn : BitVec 64) (gg g : Nat)
  | mpN (tr : Bool) (gn : BitVec 64) (gg g : Nat) (e : N)
  | mpC (tr : Bool) (gn : BitVec 64) (gg g : Nat) (e : N) (nx : Option N)
  | ret (r : Res N)

structure St (N : Type) (n : Nat) where
  head : Option N
  gen : BitVec 64
  next : N → Option N
  th : Fin n → PC N
  stk : List N
  ver : Nat
  G : Nat

inductive Act (N : Type) (n : Nat)
  | call (t : Fin n) (o : Op N)
  | run (t : Fin n)
  | ret (t : Fin n)

/-- The thread is pushing `x`. -/
def pushing {N : Type} : PC N → N → Prop
  | .psh _ y, x | .pshW _ y _ _, x | .pshC _ y _ _, x => y = x
  | _, _ => False

/-- `x` is in the thread's hands: it is pushing it, or has yet to read it from a batch. -/
def holds {N : Type} : PC N → N → Prop
  | .walk full acc _, x => x ∈ full.drop acc.length
  | pc, x => pushing pc x

/-- A running pop has loaded the address of `x`. -/
def saw {N : Type} : PC N → N → Prop
  | .popN _ y _, x | .popC _ y _ _, x | .mpN _ _ _ _ y, x | .mpC _ _ _ _ y _, x => y = x
  | _, _ => False

variable {N : Type} [DecidableEq N] {n : Nat}

instance (pc : PC N) (x : N) : Decidable (pushing pc x) := by
  cases pc <;> simp only [pushing] <;> infer_instance
instance (pc : PC N) (x : N) : Decidable (holds pc x) := by
  cases pc <;> simp only [holds, pushing] <;> infer_instance
instance (pc : PC N) (x : N) : Decidable (saw pc x) := by
  cases pc <;> simp only [saw] <;> infer_instance

/-- The caller may push `x`. -/
def free (m : Mode) (s : St N n) (x : N) : Prop :=
  x ∉ s.stk ∧ (∀ u, ¬ holds (s.th u) x) ∧ (m.strict → ∀ u, ¬ saw (s.th u) x)

instance (m : Mode) (s : St N n) (x : N) : Decidable (free m s x) := by
  unfold free; infer_instance

def run (s : St N n) (t : Fin n) : Option (St N n) :=
  match s.th t with
  -- 58 and 82
  | .psh tr x => some { s with th := upd s.th t (.pshW tr x s.head s.ver) }
  -- 59-60, 63-64 and 83-84
  | .pshW tr x e g => some { s with next := upd s.next x e, th := upd s.th t (.pshC tr x e g) }
  -- 62 and 86
  | .pshC tr x e _ =>
    if s.head = e then
      some { s with head := some x, stk := x :: s.stk, ver := s.ver + 1,
                    th := upd s.th t (.ret (if tr then .flag true else .unit)) }
    else if tr then some { s with th := upd s.th t (.ret (.flag false)) }
    else some { s with th := upd s.th t (.pshW tr x s.head s.ver) }
  -- 100-102 and 131-133
  | .pop tr => match s.head with
    | none => some { s with th := upd s.th t (.ret (.entry none)) }
    | some e => some { s with th := upd s.th t (.popN tr e s.ver) }
  -- 105 and 136
  | .popN tr e g => some { s with th := upd s.th t (.popC tr e (s.next e) g) }
  -- 106-114 and 136-141
  | .popC tr e nx _ =>
    if s.head = some e then
      some { s with head := nx, stk := s.stk.tail, ver := s.ver + 1, th := upd s.th t (.ret (.entry (some e))) }
    else if tr then some { s with th := upd s.th t (.ret (.entry none)) }
    else match s.head with
      | none => some { s with th := upd s.th t (.ret (.entry none)) }
      | some e' => some { s with th := upd s.th t (.popN tr e' s.ver) }
  -- 155
  | .bat => some { s with head := none, stk := [], ver := s.ver + 1, th := upd s.th t (.walk s.stk [] s.head) }
  -- 348-351
  | .walk full acc cur => match cur with
    | none => some { s with th := upd s.th t (.ret (.list acc.reverse)) }
    | some e => some { s with th := upd s.th t (.walk full (e :: acc) (s.next e)) }
  -- 199 and 233
  | .mp tr => some { s with th := upd s.th t (.mpH tr s.gen s.G s.ver) }
  -- 201-203 and 235-237
  | .mpH tr gn gg g => match s.head with
    | none => some { s with th := upd s.th t (.ret (.entry none)) }
    | some e => some { s with th := upd s.th t (.mpN tr gn gg g e) }
  -- 208-209, 215-219 and 239-241
  | .mpN tr gn gg g e => some { s with th := upd s.th t (.mpC tr gn gg g e (s.next e)) }
  -- 211-213 and 243-248
  | .mpC tr gn _ _ e nx =>
    if s.head = some e ∧ s.gen = gn then
      some { s with head := nx, gen := gn + 1#64, G := s.G + 1, stk := s.stk.tail, ver := s.ver + 1,
                    th := upd s.th t (.ret (.entry (some e))) }
    else if tr then some { s with th := upd s.th t (.ret (.entry none)) }
    else match s.head with
      | none => some { s with th := upd s.th t (.ret (.entry none)) }
      | some e' => some { s with th := upd s.th t (.mpN tr s.gen s.G s.ver e') }
  | .idle => none
  | .ret _ => none

def step (m : Mode) (s : St N n) : Act N n → Option (St N n)
  | .call t o => match s.th t with
    | .idle => match o with
      | .push x => if free m s x then some { s with th := upd s.th t (.psh false x) } else none
      | .tryPush x => if free m s x then some { s with th := upd s.th t (.psh true x) } else none
      | .pop => some { s with th := upd s.th t (if m = .upmc then .pop false else .mp false) }
      | .tryPop => some { s with th := upd s.th t (if m = .upmc then .pop true else .mp true) }
      | .batch => if m = .mpmc then none else some { s with th := upd s.th t .bat }
    | _ => none
  | .run t => run s t
  | .ret t => match s.th t with
    | .ret _ => some { s with th := upd s.th t .idle }
    | _ => none

def obs (s : St N n) : Act N n → Option (Ev (Fin n) (Op N) (Res N))
  | .call t o => some (.call t o)
  | .run _ => none
  | .ret t => match s.th t with
    | .ret r => some (.ret t r)
    | _ => none

/-- No pop holds a generation snapshot that is `2 ^ 64` pops old. -/
def Fresh (s : St N n) : Prop := ∀ t, match s.th t with
  | .mpC _ _ gg _ _ _ => s.G < gg + 2 ^ 64
  | _ => True

instance (s : St N n) : Decidable (Fresh s) := by
  unfold Fresh
  have : ∀ t, Decidable (match s.th t with
    | .mpC _ _ gg _ _ _ => s.G < gg + 2 ^ 64
    | _ => True) := fun t => by split <;> infer_instance
  infer_instance

/-- A quiescent stack with content `X0`. -/
structure Start (X0 : List N) (s : St N n) : Prop where
  idle : ∀ t, s.th t = .idle
  seg : Seg s.next s.head X0 none
  nodup : X0.Nodup
  stk : s.stk = X0
  gen : s.gen = BitVec.ofNat 64 s.G

/-! ## Specification -/

/-- A LIFO stack.  Failed `try` operations leave it alone (`fail_overtaken` says when they fail). -/
def lifo (X0 : List N) : Obj (Op N) (Res N) (List N) where
  init x := x = X0
  app x o r x' := match o, r with
    | .push y, .unit => x' = y :: x
    | .tryPush y, .flag true => x' = y :: x
    | .tryPush _, .flag false => x' = x
    | .pop, .entry (some y) => x = y :: x'
    | .pop, .entry none => x = [] ∧ x' = x
    | .tryPop, .entry (some y) => x = y :: x'
    | .tryPop, .entry none => x' = x
    | .batch, .list l => l = x ∧ x' = []
    | _, _ => False

end Verif.Stack
