import Verif.Core.Tso

/-!
# Epoch reclamation on total store order (C79), `include/ck_epoch.h`, `src/ck_epoch.c`

As `Verif.Weak.Ep` (C79 on relaxed memory), on a memory with store buffers (`Verif.Tso`), and with the code as it is compiled for it
(`CK_MD_TSO`, ck_epoch.h lines 142-144).  `n` threads with one record each, `m` shared pointers, nodes numbered by `Nat`; memory of a
destroyed node may be allocated again.  Pointers are stored plainly, so they stay in the buffer of the writer for some time.

Simplified: all records are registered before and stay in use; sections are not nested and have no section object; epochs do not
wrap around; `ck_epoch_poll` runs no callbacks; `ck_epoch_scan` looks at the records in any order.
-/

namespace Verif.Tso.Ep

open Verif

inductive Loc (n m : Nat)
  /-- `global->epoch` -/
  | glob
  /-- `record->active` -/
  | act (t : Fin n)
  /-- `record->epoch` -/
  | ep (t : Fin n)
  /-- a pointer of the client, 0 for `NULL`, `w + 1` for node `w` -/
  | cell (c : Fin m)
deriving DecidableEq

structure Cfg where
  /-- ck_epoch.h line 143 is a read-modify-write operation -/
  fas : Bool
  /-- ck_epoch.c line 432 -/
  s1 : Bool

/-- The code as it is. -/
def real : Cfg := { fas := true, s1 := true }

/-- Where a thread is in `ck_epoch_begin`, include/ck_epoch.h lines 126-167. -/
inductive PC
  /-- in no section -/
  | idle
  /-- before the load of line 157 -/
  | ldg
  /-- before the store of line 158 -/
  | stg
  /-- in a protected section -/
  | sec
deriving DecidableEq

/-- Where a thread is in `ck_epoch_synchronize_wait`, src/ck_epoch.c lines 425-526, or `ck_epoch_poll_deferred`, lines 566-616. -/
inductive UPC (n : Nat)
  | idle
  /-- before line 443 -/
  | load
  /-- before line 577 -/
  | pfen
  /-- in `ck_epoch_scan`, before line 341, or at its end -/
  | scan
  /-- before line 350 -/
  | eph (w : Fin n)
  /-- before line 463 -/
  | blk (w : Fin n)
  /-- before line 524 -/
  | out
  /-- `ck_epoch_synchronize` has returned -/
  | done
deriving DecidableEq

structure Up (n : Nat) where
  pc : UPC n
  /-- `ck_epoch_synchronize`, not `ck_epoch_poll` -/
  sync : Bool
  /-- `epoch` of line 443 -/
  e : Nat
  /-- `i` of line 446 -/
  i : Nat
  /-- `delta`, or `epoch` of line 574 -/
  d : Nat
  /-- the records `ck_epoch_scan` has done -/
  ok : Fin n → Bool
  /-- `active` -/
  af : Bool

/-- Ghost state of a node. -/
inductive NS (n : Nat)
  | free
  | alive
  /-- unlinked by that thread, which waits for `ck_epoch_synchronize` to destroy it -/
  | ret (w : Fin n)
deriving DecidableEq

structure St (n m : Nat) where
  mem : Loc n m → Nat
  buf : Fin n → List (Loc n m × Nat)
  pc : Fin n → PC
  /-- `g_epoch` -/
  v : Fin n → Nat
  /-- the nodes the thread has found pointers to in the section it is in -/
  hold : Fin n → Nat → Bool
  up : Fin n → Up n
  ns : Nat → NS n

inductive Act (n m : Nat)
  /-- a buffered store reaches memory -/
  | flush (t : Fin n)
  | alloc (w : Nat)
  | put (t : Fin n) (c : Fin m) (x : Option Nat)
  | begin (t : Fin n)
  | loadg (t : Fin n)
  | storeg (t : Fin n)
  | read (t : Fin n) (c : Fin m)
  | end_ (t : Fin n)
  | retire (t : Fin n) (w : Nat)
  | sync (t : Fin n)
  | lde (t : Fin n)
  | poll (t : Fin n)
  | pfence (t : Fin n)
  | active (t u : Fin n)
  | epoch (t : Fin n)
  | reload (t : Fin n)
  | tick (t : Fin n)
  | leave (t : Fin n)
  | destroy (t : Fin n) (w : Nat)
  | ret (t : Fin n)

def Up.init (n : Nat) : Up n := { pc := .idle, sync := false, e := 0, i := 0, d := 0, ok := fun _ => false, af := false }

/-- After `ck_epoch_init`, lines 229-237 (`global->epoch = 1`), and `ck_epoch_register` of all records, lines 274-295. -/
def initSt (n m : Nat) : St n m :=
  { mem := fun x => if x = .glob then 1 else 0, buf := fun _ => [], pc := fun _ => .idle
    v := fun _ => 0, hold := fun _ _ => false, up := fun _ => Up.init n, ns := fun _ => .free }

variable {n m : Nat}

/-- What `t` loads from `x`. -/
def St.get (s : St n m) (t : Fin n) (x : Loc n m) : Nat := view s.mem (s.buf t) x

/-- `t` sees no pointer to `w`, and no other thread is about to store one. -/
def Unlinked (s : St n m) (t : Fin n) (w : Nat) : Prop :=
  ∀ c : Fin m, s.get t (.cell c) ≠ w + 1 ∧ ∀ u, u ≠ t → (Loc.cell c, w + 1) ∉ s.buf u

instance (s : St n m) (t : Fin n) (w : Nat) : Decidable (Unlinked s t w) := by unfold Unlinked; infer_instance

/-- `NULL`, or a pointer to a node that was not retired. -/
def usable (ns : Nat → NS n) : Option Nat → Bool
  | none => true
  | some w => decide (ns w = .alive)

/-- How a pointer is stored. -/
def enc : Option Nat → Nat
  | none => 0
  | some w => w + 1

/-- A store by `t`. -/
def stor (s : St n m) (t : Fin n) (x : Loc n m) (k : Nat) : St n m := { s with buf := upd s.buf t (s.buf t ++ [(x, k)]) }

def setPc (s : St n m) (t : Fin n) (p : PC) : St n m := { s with pc := upd s.pc t p }

def setUp (s : St n m) (t : Fin n) (a : Up n) : St n m := { s with up := upd s.up t a }

/-- include/ck_epoch.h lines 126-184, src/ck_epoch.c lines 321-357, 425-526, 566-616. -/
def step (fc : Cfg) (s : St n m) : Act n m → Option (St n m)
  | .flush t =>
    match s.buf t with
    | [] => none
    | p :: b => some { s with mem := upd s.mem p.1 p.2, buf := upd s.buf t b }
  -- the client allocates a node
  | .alloc w => if s.ns w = .free then some { s with ns := upd s.ns w .alive } else none
  -- the client stores a pointer to a node it may use, or `NULL`
  | .put t c x => if usable s.ns x = true then some (stor s t (.cell c) (enc x)) else none
  -- ck_epoch.h line 143
  | .begin t =>
    if s.pc t = .idle ∧ (s.up t).pc = .idle then
      if fc.fas then (if s.buf t = [] then some (setPc { s with mem := upd s.mem (.act t) 1 } t .ldg) else none)
      else some (setPc (stor s t (.act t) 1) t .ldg)
    else none
  -- line 157
  | .loadg t => if s.pc t = .ldg then some { setPc s t .stg with v := upd s.v t (s.get t .glob) } else none
  -- line 158
  | .storeg t => if s.pc t = .stg then some (setPc (stor s t (.ep t) (s.v t)) t .sec) else none
  -- the client follows a pointer
  | .read t c =>
    if s.pc t = .sec ∧ (s.up t).pc = .idle then
      some { s with hold := upd s.hold t fun w => if s.get t (.cell c) = w + 1 then true else s.hold t w }
    else none
  -- line 178
  | .end_ t =>
    if s.pc t = .sec ∧ (s.up t).pc = .idle then
      some { setPc (stor s t (.act t) 0) t .idle with hold := upd s.hold t fun _ => false }
    else none
  -- the client has unlinked a node
  | .retire t w =>
    if s.ns w = .alive ∧ (s.up t).pc = .idle ∧ Unlinked s t w then some { s with ns := upd s.ns w (.ret t) } else none
  -- ck_epoch.c line 432
  | .sync t =>
    if s.pc t = .idle ∧ (s.up t).pc = .idle ∧ (fc.s1 = true → s.buf t = []) then
      some (setUp s t { Up.init n with pc := .load, sync := true })
    else none
  -- line 443
  | .lde t =>
    if (s.up t).pc = .load then
      some (setUp s t { s.up t with pc := .scan, e := s.get t .glob, d := s.get t .glob, ok := fun _ => false, af := false })
    else none
  -- line 574
  | .poll t =>
    if (s.pc t = .idle ∨ s.pc t = .sec) ∧ (s.up t).pc = .idle then
      some (setUp s t { Up.init n with pc := .pfen, d := s.get t .glob })
    else none
  -- line 577
  | .pfence t =>
    if (s.up t).pc = .pfen ∧ s.buf t = [] then
      some (setUp s t { s.up t with pc := .scan, ok := fun _ => false, af := false })
    else none
  -- lines 347, 348
  | .active t u =>
    if (s.up t).pc = .scan ∧ (s.up t).ok u = false then
      some (setUp s t
        (if s.get t (.act u) = 0 then { s.up t with ok := upd (s.up t).ok u true }
         else { s.up t with pc := .eph u, af := true }))
    else none
  -- line 350; 593
  | .epoch t =>
    match (s.up t).pc with
    | .eph u =>
      some (setUp s t
        (if s.get t (.ep u) = (s.up t).d then { s.up t with pc := .scan, ok := upd (s.up t).ok u true }
         else if (s.up t).sync then { s.up t with pc := .blk u } else { s.up t with pc := .idle }))
    | _ => none
  -- lines 463-484
  | .reload t =>
    match (s.up t).pc with
    | .blk _ =>
      some (setUp s t
        (if s.get t .glob = (s.up t).d then { s.up t with pc := .scan, af := true }
         else if (s.up t).e + 3 ≤ s.get t .glob then { s.up t with pc := .out, d := s.get t .glob, ok := fun _ => false }
         else { s.up t with pc := .scan, d := s.get t .glob, ok := fun _ => false, af := false }))
    | _ => none
  -- lines 491-515, 446; 596-612
  | .tick t =>
    if (s.up t).pc = .scan ∧ ∀ u, (s.up t).ok u = true then
      if (s.up t).af = false then some (setUp s t { s.up t with pc := if (s.up t).sync then .out else .idle })
      else if s.buf t = [] then
        let s' := if s.mem .glob = (s.up t).d then { s with mem := upd s.mem .glob ((s.up t).d + 1) } else s
        some (setUp s' t
          { s.up t with
            pc := if (s.up t).sync then (if (s.up t).i + 1 < 2 then .scan else .out) else .idle
            d := s'.mem .glob, i := (s.up t).i + 1, ok := fun _ => false, af := false })
      else none
    else none
  -- line 524
  | .leave t => if (s.up t).pc = .out ∧ s.buf t = [] then some (setUp s t { s.up t with pc := .done }) else none
  -- the client destroys a node it had unlinked before it called `ck_epoch_synchronize`
  | .destroy t w =>
    if (s.up t).pc = .done ∧ s.ns w = .ret t then some { s with ns := upd s.ns w .free } else none
  | .ret t => if (s.up t).pc = .done then some (setUp s t { s.up t with pc := .idle }) else none

def sys (fc : Cfg) (n m : Nat) : Sys (St n m) (Act n m) := { init := (· = initSt n m), step := step fc }

end Verif.Tso.Ep
