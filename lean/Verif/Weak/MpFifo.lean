import Verif.Weak.Put

/-!
# `ck_fifo_mpmc` on relaxed memory (C100), `include/ck_fifo.h` lines 202-461

Any number of threads enqueue and dequeue.  An entry is enqueued once (with immediate reuse the queue is not linearizable even on sequentially consistent memory, C36); an entry that
`ck_fifo_mpmc_tryenqueue` did not take may be used again.  Loads return any value the memory model allows.

`ck_fifo_mpmc` needs a compare and swap of two words, which exists for x86_64, arm and aarch64 only.  On these a load through a pointer is ordered after the load of the pointer, and a pointer that is
loaded and stored elsewhere passes on what came with it (`dep`).  Simplified: a pointer and its generation are one location; loads of a generation alone, also in line 268, return anything (a superset of what
they do; the compare and swap checks them), generations are natural numbers; the three stores to a new entry (lines 255-257) are one step for `next` and one for `value`.

The values are pointers to objects; a thread stores to an object (`fill`) before it enqueues it, and loads from the object it has dequeued (`look`).  A thread may synchronize with another (`sync`).

Bookkeeping that no program step reads: `put`, `got`, the values enqueued and dequeued; `ent k`, entry of the `k`-th enqueue (`ent 0` is the stub); `dx k`, newest data the enqueuing thread had
stored to the object; `kn t`, number of enqueues that happened before: the last one that thread `t` itself has done, or whose result it has dequeued, or that was known to a thread it has synchronized with;
the number of the dequeue in `obj`.
-/

namespace Verif.Weak.MpFifo

open Verif
open Fas (opt)

inductive Loc (V : Type)
  | head
  | tail
  | next (x : Nat)
  | val (x : Nat)
  | dat (o : V)
deriving DecidableEq

/-- What is stored: a pointer to an entry with its generation, a value, data. -/
structure W (V : Type) where
  p : Option Nat := none
  g : Nat := 0
  o : Option V := none
  d : Nat := 0

/-- `enq`: lines 258, 312; `at'`: lines 293, 346; `eload`: lines 265, 318; `dload`: lines 366, 370, 421, 425; `dep`: loads through pointers. -/
structure Fences where
  enq : Bool
  at' : Bool
  eload : Bool
  dload : Bool
  dep : Bool

def real : Fences := { enq := true, at' := true, eload := true, dload := true, dep := true }

inductive PC (V : Type)
  | idle
  /-- enqueue: about to load `tail` -/
  | eT (x : Nat) (v : V)
  /-- `tail` is `p`, with view `w`; about to load `next` of `p` -/
  | eN (x : Nat) (v : V) (g p : Nat) (w : View (Loc V))
  /-- `next` is loaded, with its view; about to compare and swap -/
  | eC (x : Nat) (v : V) (g p ng : Nat) (r : Option Nat) (u : View (Loc V))
  /-- the entry is in; about to forward `tail` -/
  | eF (x g p : Nat)
  /-- dequeue: about to load `head` -/
  | dH
  | dT (g p : Nat) (w : View (Loc V))
  | dN (g p : Nat) (w : View (Loc V)) (tg : Nat) (tp : Option Nat)
  /-- about to forward `tail` -/
  | dF (tg p q : Nat) (u : View (Loc V))
  /-- about to load the value -/
  | dV (g p q : Nat) (u : View (Loc V))
  | dC (g p q : Nat) (u : View (Loc V)) (v : Option V) (uv : View (Loc V))
  /-- dequeue found nothing -/
  | none

structure St (V : Type) (n : Nat) where
  mem : Mem (Loc V) (W V)
  th : Fin n → Th (Loc V)
  pc : Fin n → PC V
  /-- the value dequeued last, with its view -/
  obj : Fin n → Option (V × View (Loc V) × Nat)
  free : Nat → Bool
  put : List V
  got : List (Option V)
  ent : Nat → Nat
  dx : Nat → Nat
  kn : Fin n → Nat

inductive Act (V : Type) (n : Nat)
  | fill (t : Fin n) (o : V) (d : Nat)
  | enq (t : Fin n) (x : Nat) (v : V)
  | deq (t : Fin n)
  /-- the next step of `t`: if it loads, value `i`; `g` is the generation -/
  | run (t : Fin n) (i g : Nat)
  /-- the `try` functions give up, line 268 starts again -/
  | back (t : Fin n)
  | quit (t : Fin n)
  | look (t : Fin n) (i : Nat)
  | sync (t u : Fin n)

variable {V : Type} [DecidableEq V] {n : Nat}

/-- `ck_fifo_mpmc_init`, lines 224-233; entry 0 is the stub.  What other entries contain at first is arbitrary, here it is a pointer to the stub. -/
def initSt : St V n :=
  { mem := Mem.init fun l => match l with
      | .head => { p := some 0 }
      | .tail => { p := some 0 }
      | .next x => { p := if x = 0 then none else some 0 }
      | _ => {}
    th := fun _ => Th.init, pc := fun _ => .idle, obj := fun _ => none, free := fun x => x ≠ 0, put := [], got := [], ent := fun _ => 0, dx := fun _ => 0, kn := fun _ => 0 }

/-- A load through a pointer that came with view `w`. -/
def may (dep : Bool) (m : Mem (Loc V) (W V)) (q : Th (Loc V)) (w : View (Loc V)) (l : Loc V) (i : Nat) : Prop := q.may m l i ∧ (dep = true → w l ≤ i)

instance (dep : Bool) (m : Mem (Loc V) (W V)) (q : Th (Loc V)) (w : View (Loc V)) (l : Loc V) (i : Nat) : Decidable (may dep m q w l i) := by unfold may; infer_instance

/-- A thread that is about to store a pointer that came with view `u`. -/
def pass (dep : Bool) (q : Th (Loc V)) (u : View (Loc V)) : Th (Loc V) := if dep then { q with rel := join q.rel u } else q

/-- `next` and `value` of a new entry are stored. -/
def prepM (m : Mem (Loc V) (W V)) (q : Th (Loc V)) (x : Nat) (v : V) : Mem (Loc V) (W V) :=
  (m.store q (.val x) { o := some v }).store (q.store m (.val x)) (.next x) {}

def prepT (m : Mem (Loc V) (W V)) (q : Th (Loc V)) (x : Nat) (v : V) : Th (Loc V) := (q.store m (.val x)).store (m.store q (.val x) { o := some v }) (.next x)

/-- A compare and swap of `l` from `(p, g)` to `(x, g + 1)`; `u` came with `x`. -/
def cas (fc : Fences) (s : St V n) (t : Fin n) (q : Th (Loc V)) (l : Loc V) (p : Option Nat) (g x : Nat) (u : View (Loc V)) : Option (St V n) :=
  if (s.mem.last l).p = p ∧ (s.mem.last l).g = g then
    some { s with mem := s.mem.rmw (pass fc.dep q u) l { p := some x, g := g + 1 }, th := upd s.th t (q.rmw s.mem l) }
  else none

/-- After a compare and swap that fails. -/
def fail (s : St V n) (t : Fin n) (q : Th (Loc V)) (l : Loc V) : St V n := { s with th := upd s.th t (q.load s.mem l (s.mem.top l)) }

def St.goto (s : St V n) (t : Fin n) (p : PC V) : St V n := { s with pc := upd s.pc t p }

/-- The next step of a thread in one of the functions. -/
def run (fc : Fences) (s : St V n) (t : Fin n) (i g : Nat) : Option (St V n) :=
  let q := s.th t
  match s.pc t with
  -- lines 261-263, 314-316
  | .eT x v =>
    if q.may s.mem .tail i then
      let m := s.mem.msg .tail i
      m.val.p.map fun p => { s with th := upd s.th t (q.load s.mem .tail i), pc := upd s.pc t (.eN x v g p m.view) }
    else none
  -- lines 264-266, 317-319
  | .eN x v g' p w =>
    let q := opt fc.eload Th.fenceLoad q
    if may fc.dep s.mem q w (.next p) i then
      let m := s.mem.msg (.next p) i
      some { s with th := upd s.th t (q.load s.mem (.next p) i), pc := upd s.pc t (.eC x v g' p g m.val.p m.view) }
    else none
  -- lines 271-290, 324-343
  | .eC x v g' p ng r u =>
    match r with
    | some y => some (((cas fc s t q .tail (some p) g' y u).getD (fail s t q .tail)).goto t (.eT x v))
    | none =>
      match cas fc s t q (.next p) none ng x (fun _ => 0) with
      | some s' =>
        some { s'.goto t (.eF x g' p) with
          put := s.put ++ [v], ent := upd s.ent (s.put.length + 1) x, dx := upd s.dx (s.put.length + 1) (q.wr (.dat v)), kn := upd s.kn t (s.put.length + 1) }
      | none => some ((fail s t q (.next p)).goto t (.eT x v))
  -- lines 293-297, 346-350
  | .eF x g' p =>
    let q := opt fc.at' Th.fenceStore q
    some (((cas fc s t q .tail (some p) g' x (fun _ => 0)).getD (fail s t q .tail)).goto t .idle)
  -- lines 362-364, 416-418
  | .dH =>
    if q.may s.mem .head i then
      let m := s.mem.msg .head i
      m.val.p.map fun p => { s with th := upd s.th t (q.load s.mem .head i), pc := upd s.pc t (.dT g p m.view) }
    else none
  -- lines 365-367, 420-422
  | .dT g' p w =>
    let q := opt fc.dload Th.fenceLoad q
    if q.may s.mem .tail i then
      some { s with th := upd s.th t (q.load s.mem .tail i), pc := upd s.pc t (.dN g' p w g (s.mem.msg .tail i).val.p) }
    else none
  -- lines 369-393, 424-448
  | .dN g' p w tg tp =>
    let q := opt fc.dload Th.fenceLoad q
    if may fc.dep s.mem q w (.next p) i then
      let m := s.mem.msg (.next p) i
      some { s with
        th := upd s.th t (q.load s.mem (.next p) i)
        pc := upd s.pc t (match m.val.p with
          | none => if some p = tp then .none else .dH
          | some y => if some p = tp then .dF tg p y m.view else .dV g' p y m.view) }
    else none
  -- lines 384-385, 439-440
  | .dF tg p y u => some (((cas fc s t q .tail (some p) tg y u).getD (fail s t q .tail)).goto t .dH)
  -- lines 396, 451
  | .dV g' p y u =>
    if may fc.dep s.mem q u (.val y) i then
      let m := s.mem.msg (.val y) i
      some { s with th := upd s.th t (q.load s.mem (.val y) i), pc := upd s.pc t (.dC g' p y u m.val.o (join u m.view)) }
    else none
  -- lines 399-407, 454-461
  | .dC g' p y u v uv =>
    match cas fc s t q .head (some p) g' y u with
    | some s' =>
      some { s'.goto t .idle with
        obj := upd s.obj t (v.map fun v => (v, uv, s.got.length + 1)), got := s.got ++ [v], kn := upd s.kn t (max (s.kn t) (s.got.length + 1)) }
    | none => some ((fail s t q .head).goto t .dH)
  | .none => some (s.goto t .idle)
  | .idle => none

instance (p : PC V) : Decidable (p = .idle) := by cases p <;> first | exact isTrue rfl | exact isFalse (by simp)

def step (fc : Fences) (s : St V n) : Act V n → Option (St V n)
  -- the client
  | .fill t o d =>
    if s.pc t = .idle then some { s with mem := s.mem.store (s.th t) (.dat o) { d := d }, th := upd s.th t ((s.th t).store s.mem (.dat o)) } else none
  -- lines 255-258, 308-312
  | .enq t x v =>
    if s.pc t = .idle ∧ s.free x = true then
      some { s with
        mem := prepM s.mem (s.th t) x v, th := upd s.th t (opt fc.enq Th.fenceStore (prepT s.mem (s.th t) x v))
        pc := upd s.pc t (.eT x v), free := upd s.free x false }
    else none
  | .deq t => if s.pc t = .idle then some (s.goto t .dH) else none
  | .run t i g => run fc s t i g
  -- lines 268-269
  | .back t =>
    match s.pc t with
    | .eC x v _ _ _ _ _ => some (s.goto t (.eT x v))
    | _ => none
  -- lines 321-322, 333-334, 342-343, 440-441, 447-448, 455-456
  | .quit t =>
    match s.pc t with
    | .eT x _ => some { s.goto t .idle with free := upd s.free x true }
    | .dH => some (s.goto t .idle)
    | _ => none
  | .look t i =>
    match s.obj t with
    | some (v, u, _) => if may fc.dep s.mem (s.th t) u (.dat v) i then some { s with th := upd s.th t ((s.th t).load s.mem (.dat v) i) } else none
    | none => none
  | .sync t u =>
    if s.pc t = .idle then
      some { s with th := upd s.th t { s.th t with cur := join (s.th t).cur (s.th u).cur }, kn := upd s.kn t (max (s.kn t) (s.kn u)) }
    else none

def sys (fc : Fences) (V : Type) [DecidableEq V] (n : Nat) : Sys (St V n) (Act V n) := { init := (· = initSt), step := step fc }

end Verif.Weak.MpFifo
