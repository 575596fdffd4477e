import Verif.Weak.Put

/-!
# `ck_stack` on relaxed memory (C85), `include/ck_stack.h`

Mode `upmc`: `push_upmc`, `trypush_upmc`, `pop_upmc`, `trypop_upmc` (lines 53-142), `batch_pop_upmc` (lines 150-158); an entry is pushed once and not used again ("unique").
Mode `mpmc`: the pushes are the same, `pop_mpmc`, `trypop_mpmc` (lines 194-249); whoever has popped an entry may push it again.
`batch_pop_upmc` (the same as `batch_pop_mpmc`) belongs to both modes; what it returns is not used again.  Any number of threads, entries of an arbitrary
type `N`.  Loads return any value the memory model allows.  `nxt x` is the field `next` of entry `x`, `dat x` what the client keeps in it.

`head` and `generation` are two locations; `ck_pr_cas_ptr_2_value` stores both at once, the views of the two new values contain each other.  Simplified: `generation` is a natural
number (the code wraps around after `2 ^ 64` pops); an entry that was popped is pushed again only by the thread that popped it.

Bookkeeping that no program step reads: `own x`, the thread that may use entry `x`; `live x`, whether `next` of `x` must not change any more; `pi x`, index of the store to `head` that
pushed `x`; `gc i`, number of pops before the store `i` to `head`; `stk`, the content; `log`, the operations on `head` in their order, with their results.
-/

namespace Verif.Weak.Stack

open Verif
open Fas (opt)

inductive Mode
  | upmc
  | mpmc
deriving DecidableEq

inductive Loc (N : Type)
  | head
  | gen
  | nxt (x : N)
  | dat (x : N)
deriving DecidableEq

/-- The fences: `push`, lines 60, 64, 84; `pop`, lines 104, 110, 135, 206, 218, 240; `gen`, lines 200, 234; `batch`, line 156. -/
structure Fences where
  push : Bool
  pop : Bool
  gen : Bool
  batch : Bool

def real : Fences := { push := true, pop := true, gen := true, batch := true }

/-- An operation on the stack, by thread `t`, with its result. -/
inductive Op (N : Type) (n : Nat)
  | push (t : Fin n) (x : N)
  | pop (t : Fin n) (x : N)
  | batch (t : Fin n) (l : List N)
deriving DecidableEq

inductive PC (N : Type)
  | idle
  /-- lines 58, 82 -/
  | psh (tr : Bool) (x : N)
  /-- lines 59, 63, 83: about to store `next` -/
  | pshW (tr : Bool) (x : N) (e : Option N)
  /-- lines 62, 86: about to compare and swap -/
  | pshC (tr : Bool) (x : N) (e : Option N)
  /-- lines 199, 233: about to load `generation` -/
  | popG (tr : Bool)
  /-- lines 100, 131, 201, 235: about to load `head` -/
  | popH (tr : Bool) (g : Nat)
  /-- lines 105, 111, 136, 209, 219, 241: about to load `next` -/
  | popN (tr : Bool) (g : Nat) (e : N)
  /-- lines 106, 136, 211, 243: about to compare and swap -/
  | popC (tr : Bool) (g : Nat) (e : N) (nx : Option N)
  /-- line 155 -/
  | bat
  /-- lines 348-351: the result of `batch_pop` is traversed; `full` is what it should be, `acc` what was seen so far -/
  | walk (full acc : List N) (cur : Option N)

structure St (N : Type) (n : Nat) where
  mem : Mem (Loc N) (Option N × Nat)
  th : Fin n → Th (Loc N)
  pc : Fin n → PC N
  own : N → Option (Fin n)
  live : N → Bool
  pi : N → Nat
  gc : Nat → Nat
  stk : List N
  log : List (Op N n)

inductive Act (N : Type) (n : Nat)
  /-- the functions; `tr`: the `try` variants -/
  | push (t : Fin n) (tr : Bool) (x : N)
  | pop (t : Fin n) (tr : Bool)
  | batch (t : Fin n)
  /-- the next step of `t`; if it loads, it loads value `i` -/
  | run (t : Fin n) (i : Nat)
  /-- the client -/
  | fill (t : Fin n) (x : N) (v : Nat)
  | look (t : Fin n) (x : N) (i : Nat)

variable {N : Type} [DecidableEq N] {n : Nat}

/-- Lines 333-340: empty; every entry belongs to some thread. -/
def initSt (o : N → Option (Fin n)) : St N n :=
  { mem := Mem.init fun _ => (none, 0), th := fun _ => Th.init, pc := fun _ => .idle, own := o, live := fun _ => false, pi := fun _ => 0
    gc := fun _ => 0, stk := [], log := [] }

/-- The view of both values stored by a compare and swap of `head` and `generation`. -/
def view2 (m : Mem (Loc N) (Option N × Nat)) (q : Th (Loc N)) : View (Loc N) :=
  upd (upd (join q.rel (join (m.msg .head (m.top .head)).view (m.msg .gen (m.top .gen)).view)) .head (m.top .head + 1)) .gen (m.top .gen + 1)

/-- The stores of a compare and swap of `head` and `generation`. -/
def rmw2 (m : Mem (Loc N) (Option N × Nat)) (q : Th (Loc N)) (h : Option N) (g : Nat) : Mem (Loc N) (Option N × Nat) :=
  { top := upd (upd m.top .head (m.top .head + 1)) .gen (m.top .gen + 1)
    msg := upd (upd m.msg .head (upd (m.msg .head) (m.top .head + 1) { val := (h, 0), view := view2 m q })) .gen
      (upd (m.msg .gen) (m.top .gen + 1) { val := (none, g), view := view2 m q }) }

/-- The next step of a thread in one of the functions. -/
def run (m : Mode) (fc : Fences) (s : St N n) (t : Fin n) (i : Nat) : Option (St N n) :=
  let q := s.th t
  let h := (s.mem.last .head).1
  let k := s.mem.top .head
  match s.pc t with
  -- lines 58, 82
  | .psh tr x =>
    if q.may s.mem .head i then
      some { s with th := upd s.th t (q.load s.mem .head i), pc := upd s.pc t (.pshW tr x (s.mem.msg .head i).val.1) }
    else none
  -- lines 59, 63, 83
  | .pshW tr x e =>
    some { s with mem := s.mem.store q (.nxt x) (e, 0), th := upd s.th t (q.store s.mem (.nxt x)), pc := upd s.pc t (.pshC tr x e) }
  -- lines 60-62, 64, 84-86
  | .pshC tr x e =>
    let q := opt fc.push Th.fenceStore q
    if h = e then
      some { s with
        mem := s.mem.rmw q .head (some x, 0), th := upd s.th t (q.rmw s.mem .head), pc := upd s.pc t .idle
        own := upd s.own x none, live := upd s.live x true, pi := upd s.pi x (k + 1), gc := upd s.gc (k + 1) (s.mem.top .gen)
        stk := x :: s.stk, log := s.log ++ [.push t x] }
    else some { s with th := upd s.th t (q.load s.mem .head k), pc := upd s.pc t (if tr then .idle else .pshW tr x h) }
  -- lines 199-200, 233-234
  | .popG tr =>
    if q.may s.mem .gen i then
      some { s with th := upd s.th t (opt fc.gen Th.fenceLoad (q.load s.mem .gen i)), pc := upd s.pc t (.popH tr (s.mem.msg .gen i).val.2) }
    else none
  -- lines 100-104, 131-135, 201-206, 235-240
  | .popH tr g =>
    if q.may s.mem .head i then
      match (s.mem.msg .head i).val.1 with
      | none => some { s with th := upd s.th t (q.load s.mem .head i), pc := upd s.pc t .idle }
      | some e => some { s with th := upd s.th t (opt fc.pop Th.fenceLoad (q.load s.mem .head i)), pc := upd s.pc t (.popN tr g e) }
    else none
  -- lines 105, 111, 136, 209, 219, 241
  | .popN tr g e =>
    if q.may s.mem (.nxt e) i then
      some { s with th := upd s.th t (q.load s.mem (.nxt e) i), pc := upd s.pc t (.popC tr g e (s.mem.msg (.nxt e) i).val.1) }
    else none
  | .popC tr g e nx =>
    match m with
    -- lines 106-115, 136-142
    | .upmc =>
      if h = some e then
        some { s with
          mem := s.mem.rmw q .head (nx, 0), th := upd s.th t (q.rmw s.mem .head), pc := upd s.pc t .idle
          own := upd s.own e (some t), gc := upd s.gc (k + 1) (s.mem.top .gen), stk := s.stk.tail, log := s.log ++ [.pop t e] }
      else
        let u := q.load s.mem .head k
        match h, tr with
        | some e, false => some { s with th := upd s.th t (opt fc.pop Th.fenceLoad u), pc := upd s.pc t (.popN tr 0 e) }
        | _, _ => some { s with th := upd s.th t u, pc := upd s.pc t .idle }
    -- lines 211-222, 243-248
    | .mpmc =>
      if h = some e ∧ (s.mem.last .gen).2 = g then
        some { s with
          mem := rmw2 s.mem q nx (g + 1), th := upd s.th t ((q.rmw s.mem .head).rmw s.mem .gen), pc := upd s.pc t .idle
          own := upd s.own e (some t), live := upd s.live e false, gc := upd s.gc (k + 1) (s.mem.top .gen + 1)
          stk := s.stk.tail, log := s.log ++ [.pop t e] }
      else
        let u := (q.load s.mem .head k).load s.mem .gen (s.mem.top .gen)
        match h, tr with
        | some e, false =>
          some { s with th := upd s.th t (opt fc.pop Th.fenceLoad u), pc := upd s.pc t (.popN tr (s.mem.last .gen).2 e) }
        | _, _ => some { s with th := upd s.th t u, pc := upd s.pc t .idle }
  -- lines 155-156
  | .bat =>
    some { s with
      mem := s.mem.rmw q .head (none, 0), th := upd s.th t (opt fc.batch Th.fenceLoad (q.rmw s.mem .head)), pc := upd s.pc t (.walk s.stk [] h)
      own := fun x => if x ∈ s.stk then some t else s.own x, gc := upd s.gc (k + 1) (s.mem.top .gen), stk := []
      log := s.log ++ [.batch t s.stk] }
  -- lines 348-351
  | .walk full acc cur => match cur with
    | none => some { s with pc := upd s.pc t .idle }
    | some e =>
      if q.may s.mem (.nxt e) i then
        some { s with th := upd s.th t (q.load s.mem (.nxt e) i), pc := upd s.pc t (.walk full (e :: acc) (s.mem.msg (.nxt e) i).val.1) }
      else none
  | .idle => none

def step (m : Mode) (fc : Fences) (s : St N n) : Act N n → Option (St N n)
  | .push t tr x => match s.pc t with
    | .idle => if s.own x = some t ∧ s.live x = false then some { s with pc := upd s.pc t (.psh tr x) } else none
    | _ => none
  | .pop t tr => match s.pc t with
    | .idle => some { s with pc := upd s.pc t (if m = .mpmc then .popG tr else .popH tr 0) }
    | _ => none
  | .batch t => match s.pc t with
    | .idle => some { s with pc := upd s.pc t .bat }
    | _ => none
  | .run t i => run m fc s t i
  -- the client
  | .fill t x v => match s.pc t with
    | .idle =>
      if s.own x = some t ∧ s.live x = false then
        some { s with mem := s.mem.store (s.th t) (.dat x) (none, v), th := upd s.th t ((s.th t).store s.mem (.dat x)) }
      else none
    | _ => none
  | .look t x i =>
    if s.own x = some t ∧ (s.th t).may s.mem (.dat x) i then some { s with th := upd s.th t ((s.th t).load s.mem (.dat x) i) } else none

def sys (m : Mode) (fc : Fences) (N : Type) [DecidableEq N] (n : Nat) : Sys (St N n) (Act N n) :=
  { init := fun s => ∃ o, s = initSt o, step := step m fc }

/-! ## Specification -/

/-- What one operation does to a stack, if the result is right. -/
def Op.apply (l : List N) : Op N n → Option (List N)
  | .push _ x => some (x :: l)
  | .pop _ x => match l with
    | y :: r => if y = x then some r else none
    | [] => none
  | .batch _ l' => if l' = l then some [] else none

/-- The content after the operations, if all results are right. -/
def replay (log : List (Op N n)) : Option (List N) := log.foldlM Op.apply []

def Op.by : Op N n → Fin n
  | .push t _ => t
  | .pop t _ => t
  | .batch t _ => t

end Verif.Weak.Stack
