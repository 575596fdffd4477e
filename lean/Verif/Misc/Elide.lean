import Verif.Core.Sys

/-!
# Lock elision (C89), `include/ck_elide.h`, `include/ck_spinlock.h` lines 54-59, `include/ck_rwlock.h` lines 110-111, 129-131, 157-158, 204-206

`n` threads, one lock, which is a fas spinlock (`spin`) or a `ck_rwlock`, and data that are only used inside of sections.  Memory is sequentially consistent ("RTM is currently only supported on TSO x86", line 31; the atomic
operations on the lock and the begin and end of a transaction are fences there).

Transactions (Intel RTM, `include/gcc/x86_64/ck_pr_rtm.h`): stores are kept aside until `ck_pr_rtm_end`, which stores them all at once.  If another thread stores to a location the transaction has
loaded or stored, it is aborted, and it may be aborted at any time for another reason: its stores are dropped and its thread continues after `ck_pr_rtm_begin`, which returns the reason.
Not modelled: nesting; loads by other threads of a location the transaction has stored, which abort it (contained in: at any time).  `ck_pr_rtm_end` outside of a transaction is a fault.

`cfg`: `tm`, the machine has transactions (`CK_F_PR_RTM`); `tl`, `CK_ELIDE_TRYLOCK` is used; `er`, read sections are elided; `fx`, the unlock predicate of read sections tells whether the caller is in a transaction, not as in the code, where it is `ck_rwlock_locked_reader`.

The adaptive functions differ in when they try a transaction again and when they acquire the lock.  Here both is possible whenever a transaction was aborted, and the lock may be acquired without a transaction before; the
policy is in `Verif.Misc.ElideAdaptive`.

Bookkeeping that no program step reads: `ops t`, what the thread has loaded and stored in its section; `hist`, the completed sections in the order of their ends; `base`, the data at the last end of a section.
-/

namespace Verif.Misc.Elide

open Verif

inductive Loc
  /-- `value` of the spinlock, `writer` of the rwlock -/
  | wr
  /-- `n_readers` -/
  | nr
  | dat (x : Nat)
deriving DecidableEq

structure Cfg where
  spin : Bool
  tm : Bool
  tl : Bool
  er : Bool
  fx : Bool

/-- `w`: write section; `tr`: trylock. -/
structure Mode where
  w : Bool
  tr : Bool
deriving DecidableEq

inductive PC
  | idle
  /-- lines 159, 208, 236: about to call `ck_pr_rtm_begin` -/
  | beg (m : Mode)
  /-- the lock predicate of write sections on a rwlock, `ck_rwlock_locked`: about to load `n_readers` -/
  | chk1 (m : Mode)
  /-- the lock predicate: about to load `writer` or `value` (`n`: what `n_readers` was) -/
  | chk2 (m : Mode) (n : Nat)
  /-- `ck_pr_rtm_begin` has returned a reason -/
  | abt (m : Mode)
  /-- in the lock function for writers -/
  | wFas
  | wWait
  /-- in the lock function for readers -/
  | rLoad
  | rInc
  | rChk
  | rDec
  /-- in a section, with the lock -/
  | inn (w : Bool)
  /-- in a section, in a transaction -/
  | einn (w : Bool)
  /-- has the lock, about to call the unlock function -/
  | ul (w : Bool)
  /-- has the lock, about to call `ck_pr_rtm_end`: a fault -/
  | fault
  /-- in a transaction, about to call `ck_pr_rtm_end` -/
  | eend (w : Bool)
  /-- in a transaction, about to call the unlock function -/
  | eul (w : Bool)
  /-- the unlock has returned, in a transaction -/
  | leak
deriving DecidableEq

structure Tx where
  m : Mode
  /-- loaded -/
  rs : List Loc
  /-- stored -/
  ws : List Loc
  vw : Loc → Nat

inductive Op
  | rd (x v : Nat)
  | wr (x v : Nat)
deriving DecidableEq

structure St (n : Nat) where
  mem : Loc → Nat
  tx : Fin n → Option Tx
  pc : Fin n → PC
  ops : Fin n → List Op
  hist : List (List Op)
  base : Nat → Nat

inductive Act (n : Nat)
  | call (t : Fin n) (m : Mode) (direct : Bool)
  | begin (t : Fin n) (ok : Bool)
  | check1 (t : Fin n)
  | check2 (t : Fin n)
  | again (t : Fin n)
  | fall (t : Fin n)
  | lock (t : Fin n)
  | read (t : Fin n) (x : Nat)
  | write (t : Fin n) (x v : Nat)
  | unlock (t : Fin n)
  | fin (t : Fin n)
  | abort (t : Fin n)

variable {n : Nat}

def initSt (n : Nat) : St n :=
  { mem := fun _ => 0, tx := fun _ => none, pc := fun _ => .idle, ops := fun _ => [], hist := [], base := fun _ => 0 }

/-- A store to one of `l` aborts the transaction. -/
def Tx.hit (x : Tx) (l : List Loc) : Bool := l.any fun y => y ∈ x.rs ∨ y ∈ x.ws

/-- What the transaction loads. -/
def Tx.get (x : Tx) (mem : Loc → Nat) (l : Loc) : Nat := if l ∈ x.ws then x.vw l else mem l

/-- Abort the transactions of other threads that are in conflict with stores of `t` to `l`. -/
def St.kill (s : St n) (t : Fin n) (l : List Loc) : St n :=
  let k := fun u => if u = t then none else (s.tx u).filter (·.hit l)
  { s with
    tx := fun u => if (k u).isSome then none else s.tx u
    pc := fun u => match k u with | some x => .abt x.m | none => s.pc u
    ops := fun u => if (k u).isSome then [] else s.ops u }

/-- A store by a thread that is not in a transaction. -/
def St.put (s : St n) (t : Fin n) (l : Loc) (v : Nat) : St n := { s.kill t [l] with mem := upd s.mem l v }

def St.go (s : St n) (t : Fin n) (p : PC) : St n := { s with pc := upd s.pc t p }

/-- The lock function. -/
def lockPC (w : Bool) : PC := if w then .wFas else .rLoad

def step (g : Cfg) (s : St n) : Act n → Option (St n)
  -- lines 152-155, 187: the adaptive function may skip the transaction; 204-216: the best-effort function; without transactions lines 252-286
  | .call t m direct =>
    if s.pc t = .idle ∧ (m.tr = true → g.tl = true) ∧ (g.spin = true → m.w = true) then
      if g.tm = true then
        if m.tr = false ∧ (direct = true ∨ m.w = false ∧ g.er = false) then some (s.go t (lockPC m.w)) else if m.w = false ∧ g.er = false then none else some (s.go t (.beg m))
      -- lines 288-294: `return TL_P(lock)` (both loads of `ck_rwlock_locked` in one step)
      else if m.tr = true then
        if s.mem .wr ≠ 0 ∨ g.spin = false ∧ m.w = true ∧ s.mem .nr ≠ 0 then some { s with pc := upd s.pc t (.inn m.w), ops := upd s.ops t [] } else some s
      else some (s.go t (lockPC m.w))
    else none
  -- `ck_pr_rtm_begin`
  | .begin t ok => match s.pc t with
    | .beg m =>
      if ok then
        some { s with
          tx := upd s.tx t (some { m := m, rs := [], ws := [], vw := fun _ => 0 }), ops := upd s.ops t []
          pc := upd s.pc t (if m.w = true ∧ g.spin = false then .chk1 m else .chk2 m 0) }
      else some (s.go t (.abt m))
    | _ => none
  -- the lock predicate and `ck_pr_rtm_abort`
  | .check1 t => match s.pc t, s.tx t with
    | .chk1 m, some x =>
      some { s with tx := upd s.tx t (some { x with rs := .nr :: x.rs }), pc := upd s.pc t (.chk2 m (x.get s.mem .nr)) }
    | _, _ => none
  | .check2 t => match s.pc t, s.tx t with
    | .chk2 m k, some x =>
      if k = 0 ∧ x.get s.mem .wr = 0 then some { s with tx := upd s.tx t (some { x with rs := .wr :: x.rs }), pc := upd s.pc t (.einn m.w) }
      else some { s with tx := upd s.tx t none, pc := upd s.pc t (.abt m), ops := upd s.ops t [] }
    | _, _ => none
  -- after an abort: again (adaptive function), or the lock function; trylock returns false (lines 236-237)
  | .again t => match s.pc t with
    | .abt m => some (s.go t (if m.tr then .idle else .beg m))
    | _ => none
  | .fall t => match s.pc t with
    | .abt m => some (s.go t (if m.tr then .idle else lockPC m.w))
    | _ => none
  -- the lock functions, `include/spinlock/fas.h` lines 78-88, `include/ck_rwlock.h` lines 113-127, 160-185
  | .lock t => match s.pc t with
    | .wFas =>
      if s.mem .wr = 0 then
        if g.spin = true then some { s.put t .wr 1 with pc := upd (s.put t .wr 1).pc t (.inn true), ops := upd (s.put t .wr 1).ops t [] }
        else some ((s.put t .wr 1).go t .wWait)
      else some (s.put t .wr 1)
    | .wWait => if s.mem .nr = 0 then some { s with pc := upd s.pc t (.inn true), ops := upd s.ops t [] } else some s
    | .rLoad => if s.mem .wr = 0 then some (s.go t .rInc) else some s
    | .rInc => some ((s.put t .nr (s.mem .nr + 1)).go t .rChk)
    | .rChk => if s.mem .wr = 0 then some { s with pc := upd s.pc t (.inn false), ops := upd s.ops t [] } else some (s.go t .rDec)
    | .rDec => some ((s.put t .nr (s.mem .nr - 1)).go t .rLoad)
    | _ => none
  -- the client
  | .read t x => match s.pc t with
    | .inn _ => some { s with ops := upd s.ops t (s.ops t ++ [.rd x (s.mem (.dat x))]) }
    | .einn _ => match s.tx t with
      | some y => some { s with tx := upd s.tx t (some { y with rs := .dat x :: y.rs }), ops := upd s.ops t (s.ops t ++ [.rd x (y.get s.mem (.dat x))]) }
      | none => none
    | _ => none
  | .write t x v => match s.pc t with
    | .inn true => some { s.put t (.dat x) v with ops := upd (s.put t (.dat x) v).ops t (s.ops t ++ [.wr x v]) }
    | .einn true => match s.tx t with
      | some y => some { s with tx := upd s.tx t (some { y with ws := .dat x :: y.ws, vw := upd y.vw (.dat x) v }), ops := upd s.ops t (s.ops t ++ [.wr x v]) }
      | none => none
    | _ => none
  -- lines 194, 222: the unlock predicate; without transactions lines 264-286
  | .unlock t => match s.pc t with
    | .inn w =>
      if g.tm = false then some (s.go t (.ul w))
      else if w = true ∨ g.fx = false then some (s.go t (if s.mem (if w then .wr else .nr) ≠ 0 then .ul w else .fault))
      else some (s.go t (.ul w))
    | .einn w => match s.tx t with
      | some y =>
        let l := if w then Loc.wr else .nr
        if w = true ∨ g.fx = false then
          some { s with tx := upd s.tx t (some { y with rs := l :: y.rs }), pc := upd s.pc t (if y.get s.mem l ≠ 0 then .eul w else .eend w) }
        else some (s.go t (.eend w))
      | none => none
    | _ => none
  -- the unlock functions, `ck_pr_rtm_end`
  | .fin t => match s.pc t with
    | .ul w =>
      let s' := if w then s.put t .wr 0 else s.put t .nr (s.mem .nr - 1)
      some { s' with pc := upd s'.pc t .idle, hist := s.hist ++ [s.ops t], base := fun x => s.mem (.dat x), ops := upd s'.ops t [] }
    | .eend _ => match s.tx t with
      | some y =>
        let s' := s.kill t y.ws
        some { s' with
          mem := y.get s.mem, tx := upd s'.tx t none, pc := upd s'.pc t .idle, hist := s.hist ++ [s.ops t], base := fun x => y.get s.mem (.dat x), ops := upd s'.ops t [] }
      | none => none
    | .eul w => match s.tx t with
      | some y =>
        let l := if w then Loc.wr else .nr
        some { s with
          tx := upd s.tx t (some { y with rs := l :: y.rs, ws := l :: y.ws, vw := upd y.vw l (if w then 0 else y.get s.mem l - 1) }), pc := upd s.pc t .leak }
      | none => none
    | _ => none
  | .abort t => match s.tx t with
    | some y => some { s with tx := upd s.tx t none, pc := upd s.pc t (.abt y.m), ops := upd s.ops t [] }
    | none => none

def sys (g : Cfg) (n : Nat) : Sys (St n) (Act n) := { init := (· = initSt n), step := step g }

end Verif.Misc.Elide
