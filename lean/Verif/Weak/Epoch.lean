import Verif.Weak.Fas

/-!
# Epoch reclamation on relaxed memory (C79), `include/ck_epoch.h`, `src/ck_epoch.c`

`n` threads with one record each, `m` shared pointers (`cell c`), nodes numbered by `Nat`; memory of a destroyed node may be
allocated again.  Threads enter and leave protected sections, follow pointers in them, unlink nodes, and destroy them after
`ck_epoch_synchronize`; other threads move the epoch with `ck_epoch_poll`.  Loads return any value the memory model allows.

`Fences` says which fences there are; two of them are not in the code: a full fence after line 158 of ck_epoch.h and one after
lines 443 and 463 of ck_epoch.c.

Simplified: all records are registered before and stay in use; sections are not nested and have no section object (`section ==
NULL`); epochs do not wrap around; `ck_epoch_poll` runs no callbacks; `ck_epoch_scan` looks at the records in any order.
-/

namespace Verif.Weak.Ep

open Verif

inductive Loc (n m : Nat)
  /-- `global->epoch` -/
  | glob
  /-- `record->active` -/
  | act (t : Fin n)
  /-- `record->epoch` -/
  | ep (t : Fin n)
  /-- a pointer of the client, 0 for `NULL`, `w + 1` for node `w` -/
  | cell (c : Fin m)
deriving DecidableEq

structure Fences where
  /-- ck_epoch.h line 147 -/
  rd1 : Bool
  /-- after ck_epoch.h line 158, not in the code -/
  rd2 : Bool
  /-- ck_epoch.c line 432 -/
  s1 : Bool
  /-- after ck_epoch.c lines 443 and 463, not in the code -/
  s2 : Bool
  /-- ck_epoch.c line 509 -/
  s3 : Bool
  /-- ck_epoch.c line 577 -/
  pl : Bool

/-- The code as it is. -/
def real : Fences := { rd1 := true, rd2 := false, s1 := true, s2 := false, s3 := true, pl := true }

/-- The code with the two fences added. -/
def fenced : Fences := { rd1 := true, rd2 := true, s1 := true, s2 := true, s3 := true, pl := true }

/-- Where a thread is in `ck_epoch_begin`, include/ck_epoch.h lines 126-167. -/
inductive PC
  /-- in no section -/
  | idle
  /-- has stored `active`, line 146 -/
  | fen1
  /-- before the load of line 157 -/
  | ldg
  /-- before the store of line 158 -/
  | stg
  /-- after it -/
  | fen2
  /-- in a protected section -/
  | sec
deriving DecidableEq

/-- Where a thread is in `ck_epoch_synchronize_wait`, src/ck_epoch.c lines 425-526, or `ck_epoch_poll_deferred`, lines 566-616. -/
inductive UPC (n : Nat)
  | idle
  /-- before line 443, 574 -/
  | load
  /-- has loaded the epoch in line 443, 463 or 574 -/
  | fen
  /-- in `ck_epoch_scan`, before line 341, or at its end -/
  | scan
  /-- before line 350 -/
  | eph (w : Fin n)
  /-- before line 463 -/
  | blk (w : Fin n)
  /-- before line 509 -/
  | casf
  /-- before line 524 -/
  | out
  /-- `ck_epoch_synchronize` has returned -/
  | done
deriving DecidableEq

structure Up (n : Nat) where
  pc : UPC n
  /-- `ck_epoch_synchronize`, not `ck_epoch_poll` -/
  sync : Bool
  /-- `epoch` of line 443 -/
  e : Nat
  /-- `i` of line 446 -/
  i : Nat
  /-- `delta`, or `epoch` of line 574 -/
  d : Nat
  /-- the records `ck_epoch_scan` has done -/
  ok : Fin n → Bool
  /-- `active` -/
  af : Bool

/-- Ghost state of a node. -/
inductive NS (n : Nat)
  | free
  | alive
  /-- unlinked by that thread, which waits for `ck_epoch_synchronize` to destroy it -/
  | ret (w : Fin n)
deriving DecidableEq

structure St (n m : Nat) where
  mem : Mem (Loc n m) Nat
  sc : View (Loc n m)
  th : Fin n → Th (Loc n m)
  pc : Fin n → PC
  /-- `g_epoch` -/
  v : Fin n → Nat
  /-- the nodes the thread has found pointers to in the section it is in -/
  hold : Fin n → Nat → Bool
  up : Fin n → Up n
  ns : Nat → NS n

inductive Act (n m : Nat)
  | alloc (w : Nat)
  | swap (t : Fin n) (c : Fin m) (x : Option Nat)
  | look (t : Fin n) (c : Fin m) (i : Nat)
  | begin (t : Fin n)
  | fence1 (t : Fin n)
  | loadg (t : Fin n) (i : Nat)
  | storeg (t : Fin n)
  | fence2 (t : Fin n)
  | read (t : Fin n) (c : Fin m) (i : Nat)
  | end_ (t : Fin n)
  | retire (t : Fin n) (w : Nat)
  | sync (t : Fin n)
  | poll (t : Fin n)
  | lde (t : Fin n) (i : Nat)
  | ufence (t : Fin n)
  | active (t u : Fin n) (i : Nat)
  | epoch (t : Fin n) (i : Nat)
  | reload (t : Fin n) (i : Nat)
  | tick (t : Fin n)
  | tickf (t : Fin n) (i : Nat)
  | cfence (t : Fin n)
  | leave (t : Fin n)
  | destroy (t : Fin n) (w : Nat)
  | ret (t : Fin n)

def Up.init (n : Nat) : Up n := { pc := .idle, sync := false, e := 0, i := 0, d := 0, ok := fun _ => false, af := false }

/-- After `ck_epoch_init`, lines 229-237 (`global->epoch = 1`), and `ck_epoch_register` of all records, lines 274-295. -/
def initSt (n m : Nat) : St n m :=
  { mem := Mem.init fun x => if x = .glob then 1 else 0, sc := fun _ => 0, th := fun _ => Th.init, pc := fun _ => .idle
    v := fun _ => 0, hold := fun _ _ => false, up := fun _ => Up.init n, ns := fun _ => .free }

/-- All pointers to `w` ever stored in a cell are known, by view `k`, to be overwritten. -/
def Unlinked {n m : Nat} (mem : Mem (Loc n m) Nat) (k : View (Loc n m)) (w : Nat) : Prop :=
  ∀ c : Fin m, ∀ i, i < mem.top (.cell c) + 1 → (mem.msg (.cell c) i).val = w + 1 → i + 1 ≤ k (.cell c)

instance {n m : Nat} (mem : Mem (Loc n m) Nat) (k : View (Loc n m)) (w : Nat) : Decidable (Unlinked mem k w) := by
  unfold Unlinked; infer_instance

/-- `NULL`, or a pointer to a node that was not retired. -/
def usable {n : Nat} (ns : Nat → NS n) : Option Nat → Bool
  | none => true
  | some w => decide (ns w = .alive)

/-- How a pointer is stored. -/
def enc : Option Nat → Nat
  | none => 0
  | some w => w + 1

/-- `ck_pr_fence_memory` or `ck_pr_fence_atomic_load` by `t`, if it is there. -/
def fen {n m : Nat} (b : Bool) (s : St n m) (t : Fin n) : St n m :=
  if b then { s with sc := (s.th t).fenceSc s.sc, th := upd s.th t ((s.th t).fence s.sc) } else s

/-- A load by `t`. -/
def ld {n m : Nat} (s : St n m) (t : Fin n) (x : Loc n m) (i : Nat) : St n m :=
  { s with th := upd s.th t ((s.th t).load s.mem x i) }

/-- A store by `t`. -/
def stor {n m : Nat} (s : St n m) (t : Fin n) (x : Loc n m) (k : Nat) : St n m :=
  { s with mem := s.mem.store (s.th t) x k, th := upd s.th t ((s.th t).store s.mem x) }

/-- A read-modify-write operation by `t`. -/
def rmw {n m : Nat} (s : St n m) (t : Fin n) (x : Loc n m) (k : Nat) : St n m :=
  { s with mem := s.mem.rmw (s.th t) x k, th := upd s.th t ((s.th t).rmw s.mem x) }

def setPc {n m : Nat} (s : St n m) (t : Fin n) (p : PC) : St n m := { s with pc := upd s.pc t p }

def setUp {n m : Nat} (s : St n m) (t : Fin n) (a : Up n) : St n m := { s with up := upd s.up t a }

/-- include/ck_epoch.h lines 126-184, src/ck_epoch.c lines 321-357, 425-526, 566-616. -/
def step {n m : Nat} (fc : Fences) (s : St n m) : Act n m → Option (St n m)
  -- the client allocates a node
  | .alloc w => if s.ns w = .free then some { s with ns := upd s.ns w .alive } else none
  -- the client stores a pointer to a node it may use, or `NULL`
  | .swap t c x => if usable s.ns x = true then some (rmw s t (.cell c) (enc x)) else none
  -- the client loads a pointer without using it
  | .look t c i => if (s.th t).may s.mem (.cell c) i then some (ld s t (.cell c) i) else none
  -- ck_epoch.h line 146
  | .begin t =>
    if s.pc t = .idle ∧ (s.up t).pc = .idle then some (setPc (stor s t (.act t) 1) t .fen1) else none
  -- line 147
  | .fence1 t => if s.pc t = .fen1 then some (setPc (fen fc.rd1 s t) t .ldg) else none
  -- line 157
  | .loadg t i =>
    if s.pc t = .ldg ∧ (s.th t).may s.mem .glob i then
      some { setPc (ld s t .glob i) t .stg with v := upd s.v t (s.mem.msg .glob i).val }
    else none
  -- line 158
  | .storeg t => if s.pc t = .stg then some (setPc (stor s t (.ep t) (s.v t)) t .fen2) else none
  -- after it
  | .fence2 t => if s.pc t = .fen2 then some (setPc (fen fc.rd2 s t) t .sec) else none
  -- the client follows a pointer
  | .read t c i =>
    if s.pc t = .sec ∧ (s.up t).pc = .idle ∧ (s.th t).may s.mem (.cell c) i then
      some { ld s t (.cell c) i with
        hold := upd s.hold t fun w => if (s.mem.msg (.cell c) i).val = w + 1 then true else s.hold t w }
    else none
  -- lines 177, 178
  | .end_ t =>
    if s.pc t = .sec ∧ (s.up t).pc = .idle then
      some { setPc (stor { s with th := upd s.th t (s.th t).fenceRel } t (.act t) 0) t .idle with
        hold := upd s.hold t fun _ => false }
    else none
  -- the client has unlinked a node
  | .retire t w =>
    if s.ns w = .alive ∧ (s.up t).pc = .idle ∧ Unlinked s.mem (s.th t).cur w then some { s with ns := upd s.ns w (.ret t) }
    else none
  -- ck_epoch.c line 432
  | .sync t =>
    if s.pc t = .idle ∧ (s.up t).pc = .idle then
      some (setUp (fen fc.s1 s t) t { Up.init n with pc := .load, sync := true })
    else none
  -- line 566
  | .poll t =>
    if (s.pc t = .idle ∨ s.pc t = .sec) ∧ (s.up t).pc = .idle then some (setUp s t { Up.init n with pc := .load })
    else none
  -- line 443 or 574
  | .lde t i =>
    if (s.up t).pc = .load ∧ (s.th t).may s.mem .glob i then
      some (setUp (ld s t .glob i) t
        { s.up t with pc := .fen, e := (s.mem.msg .glob i).val, d := (s.mem.msg .glob i).val })
    else none
  -- after line 443 or 463; line 577
  | .ufence t =>
    if (s.up t).pc = .fen then
      some (setUp (fen (if (s.up t).sync then fc.s2 else fc.pl) s t) t
        { s.up t with pc := .scan, ok := fun _ => false, af := false })
    else none
  -- lines 347, 348
  | .active t u i =>
    if (s.up t).pc = .scan ∧ (s.up t).ok u = false ∧ (s.th t).may s.mem (.act u) i then
      some (setUp (ld s t (.act u) i) t
        (if (s.mem.msg (.act u) i).val = 0 then { s.up t with ok := upd (s.up t).ok u true }
         else { s.up t with pc := .eph u, af := true }))
    else none
  -- line 350; 593
  | .epoch t i =>
    match (s.up t).pc with
    | .eph u =>
      if (s.th t).may s.mem (.ep u) i then
        some (setUp (ld s t (.ep u) i) t
          (if (s.mem.msg (.ep u) i).val = (s.up t).d then { s.up t with pc := .scan, ok := upd (s.up t).ok u true }
           else if (s.up t).sync then { s.up t with pc := .blk u } else { s.up t with pc := .idle }))
      else none
    | _ => none
  -- lines 463-484
  | .reload t i =>
    match (s.up t).pc with
    | .blk _ =>
      if (s.th t).may s.mem .glob i then
        some (setUp (ld s t .glob i) t
          (if (s.mem.msg .glob i).val = (s.up t).d then { s.up t with pc := .scan, af := true }
           else if (s.up t).e + 3 ≤ (s.mem.msg .glob i).val then { s.up t with pc := .out, d := (s.mem.msg .glob i).val }
           else { s.up t with pc := .fen, d := (s.mem.msg .glob i).val }))
      else none
    | _ => none
  -- lines 491-505, 596-612; the `cas` succeeds
  | .tick t =>
    if (s.up t).pc = .scan ∧ ∀ u, (s.up t).ok u = true then
      if (s.up t).af = false then some (setUp s t { s.up t with pc := if (s.up t).sync then .out else .idle })
      else if s.mem.last .glob = (s.up t).d then
        some (setUp (rmw s t .glob ((s.up t).d + 1)) t
          { s.up t with pc := if (s.up t).sync then .casf else .idle, d := (s.up t).d + 1, i := (s.up t).i + 1 })
      else none
    else none
  -- lines 505, 612; the `cas` fails
  | .tickf t i =>
    if (s.up t).pc = .scan ∧ (∀ u, (s.up t).ok u = true) ∧ (s.up t).af = true ∧ (s.th t).may s.mem .glob i ∧
        (s.mem.msg .glob i).val ≠ (s.up t).d then
      some (setUp (ld s t .glob i) t
        { s.up t with pc := if (s.up t).sync then .casf else .idle, d := (s.mem.msg .glob i).val, i := (s.up t).i + 1 })
    else none
  -- lines 509, 446
  | .cfence t =>
    if (s.up t).pc = .casf then
      some (setUp (fen fc.s3 s t) t
        { s.up t with pc := if (s.up t).i < 2 then .scan else .out, ok := fun _ => false, af := false })
    else none
  -- line 524
  | .leave t => if (s.up t).pc = .out then some (setUp (fen true s t) t { s.up t with pc := .done }) else none
  -- the client destroys a node it had unlinked before it called `ck_epoch_synchronize`
  | .destroy t w =>
    if (s.up t).pc = .done ∧ s.ns w = .ret t then some { s with ns := upd s.ns w .free } else none
  | .ret t => if (s.up t).pc = .done then some (setUp s t { s.up t with pc := .idle }) else none

def sys (fc : Fences) (n m : Nat) : Sys (St n m) (Act n m) := { init := (· = initSt n m), step := step fc }

end Verif.Weak.Ep
