import Verif.Weak.Put

/-!
# Event count on relaxed memory (C98), `include/ck_ec.h`, `src/ck_ec.c`

`ck_ec32` with many producers.  A word is a value below `H` (2^31 in the code) or a value plus `H`, the flag.  Any number of threads, each may increment, read the value, wait, and load and store data
(`usr x`); loads return any value the memory model allows.  Timeouts are not modelled except that a thread may leave the futex for no reason.  The futex system calls are atomic: the kernel compares
with the newest value, and wakes all.

`log i`: for the increment that stored value `i` of the counter, what its thread had stored before.  `seen`: the last value of the counter a thread has loaded in a call that returned.
-/

namespace Verif.Weak.Ec

open Verif
open Fas (opt)

inductive Loc
  | cnt
  | usr (x : Nat)
deriving DecidableEq

/-- `inc`: ck_ec.h lines 673, 708; `val`: line 612; `up`: ck_ec.c line 348; `easy`: line 362. -/
structure Fences where
  inc : Bool
  val : Bool
  up : Bool
  easy : Bool
deriving DecidableEq

def real : Fences := { inc := true, val := true, up := true, easy := true }

inductive PC
  | idle
  /-- ck_ec.c line 38 -/
  | clear
  /-- line 39 -/
  | wake
  /-- waits for a value other than this one: lines 338, 345 -/
  | easy (v : Nat)
  /-- line 255 -/
  | cas (v : Nat)
  /-- line 360 -/
  | spin (v : Nat)
  /-- line 281 -/
  | slow (v : Nat)
  /-- in the kernel -/
  | asleep (v : Nat)
  /-- line 283 -/
  | aft (v : Nat)
  /-- line 374 -/
  | chk (v : Nat)
  /-- `ck_ec_wait` has returned 0 -/
  | done (v : Nat)
deriving DecidableEq

structure Q where
  th : Th Loc
  pc : PC
  seen : Nat
  /-- `seen` when `ck_ec_wait` was called -/
  base : Nat

structure St (n : Nat) where
  mem : Mem Loc Nat
  q : Fin n → Q
  log : Nat → View Loc

inductive Act (n : Nat)
  | read (t : Fin n) (x i : Nat)
  | write (t : Fin n) (x v : Nat)
  | value (t : Fin n) (i : Nat)
  | add (t : Fin n) (d : Nat)
  | clear (t : Fin n)
  | wake (t : Fin n)
  | wait (t : Fin n) (v i : Nat)
  | stall (t : Fin n) (i : Nat)
  | easy (t : Fin n) (i : Nat)
  | casOk (t : Fin n)
  | casFail (t : Fin n) (i : Nat)
  | spin (t : Fin n) (i : Nat)
  | futex (t : Fin n)
  | out (t : Fin n)
  | aft (t : Fin n) (i : Nat)
  | chk (t : Fin n) (i : Nat)
  | leave (t : Fin n)

/-- `ck_ec32_init`, ck_ec.h lines 602-606. -/
def initSt (n v : Nat) : St n :=
  { mem := Mem.init fun l => if l = .cnt then v else 0, q := fun _ => { th := Th.init, pc := .idle, seen := 0, base := 0 }, log := fun _ _ => 0 }

variable {n : Nat}

def St.setQ (s : St n) (t : Fin n) (q : Q) : St n := { s with q := upd s.q t q }

/-- A load of the counter. -/
def Q.load (q : Q) (m : Mem Loc Nat) (i : Nat) (pc : PC) : Q := { q with th := q.th.load m .cnt i, pc := pc }

/-- A load of the counter, after which the call returns. -/
def Q.ret (q : Q) (m : Mem Loc Nat) (i : Nat) (f : Bool) (pc : PC) : Q := { q with th := opt f Th.fenceAcq (q.th.load m .cnt i), pc := pc, seen := i }

/-- An atomic operation on the counter; `w` is its log. -/
def St.rmw (s : St n) (t : Fin n) (th : Th Loc) (v : Nat) (pc : PC) (w : View Loc) : St n :=
  { mem := s.mem.rmw th .cnt v, q := upd s.q t { s.q t with th := th.rmw s.mem .cnt, pc := pc }, log := upd s.log (s.mem.top .cnt + 1) w }

/-- The functions of ck_ec.h lines 602-803 and ck_ec.c lines 34-41, 195-284, 310-401; `fc` tells which fences exist. -/
def step (H : Nat) (fc : Fences) (s : St n) : Act n → Option (St n)
  -- the client loads value `i` of its data, or stores to it
  | .read t x i =>
    let q := s.q t
    if q.pc = .idle ∧ q.th.may s.mem (.usr x) i then some (s.setQ t { q with th := q.th.load s.mem (.usr x) i }) else none
  | .write t x v =>
    let q := s.q t
    if q.pc = .idle then some { s with mem := s.mem.store q.th (.usr x) v, q := upd s.q t { q with th := q.th.store s.mem (.usr x) } } else none
  -- `ck_ec32_value`, ck_ec.h lines 608-614
  | .value t i =>
    let q := s.q t
    if q.pc = .idle ∧ q.th.may s.mem .cnt i then some (s.setQ t (q.ret s.mem i fc.val .idle)) else none
  -- `ck_ec32_add_mp`, lines 702-711, `ck_ec32_inc`, lines 673-680
  | .add t d =>
    let q := s.q t
    if q.pc = .idle then
      let old := s.mem.last .cnt
      some (s.rmw t (opt fc.inc Th.fenceStore q.th) ((old + d) % (2 * H)) (if H ≤ old then .clear else .idle) q.th.wr)
    else none
  -- `ck_ec32_wake`, ck_ec.c line 38
  | .clear t =>
    let q := s.q t
    if q.pc = .clear then some (s.rmw t q.th (s.mem.last .cnt % H) .wake (fun _ => 0)) else none
  -- line 39
  | .wake t =>
    if (s.q t).pc = .wake then
      some { s with
        q := fun u => if u = t then { s.q u with pc := .idle } else
          match (s.q u).pc with
          | .asleep v => { s.q u with pc := .aft v }
          | _ => s.q u }
    else none
  -- `ck_ec32_wait`, ck_ec.h lines 768-778
  | .wait t v i =>
    let q := s.q t
    if q.pc = .idle ∧ q.th.may s.mem .cnt i ∧ v < H then
      let q := { q with base := q.seen }
      if (s.mem.msg .cnt i).val % H ≠ v then some (s.setQ t (q.ret s.mem i fc.val (.done v)))
      else some (s.setQ t { q with th := opt fc.val Th.fenceAcq (q.th.load s.mem .cnt i), pc := .easy v })
    else none
  -- the loop of `ck_ec32_wait_easy`, ck_ec.c lines 206-216
  | .stall t i =>
    let q := s.q t
    match q.pc with
    | .easy v => if q.th.may s.mem .cnt i then some (s.setQ t (q.load s.mem i (.easy v))) else none
    | .spin v => if q.th.may s.mem .cnt i then some (s.setQ t (q.load s.mem i (.spin v))) else none
    | _ => none
  -- the last load of lines 338 and 345-350, `ck_ec32_upgrade`, lines 241-249
  | .easy t i =>
    let q := s.q t
    match q.pc with
    | .easy v =>
      if q.th.may s.mem .cnt i then
        if (s.mem.msg .cnt i).val = v + H then some (s.setQ t (q.load s.mem i (.spin v)))
        else if (s.mem.msg .cnt i).val ≠ v then some (s.setQ t (q.ret s.mem i fc.up (.done v)))
        else some (s.setQ t (q.load s.mem i (.cas v)))
      else none
    | _ => none
  -- lines 255-258
  | .casOk t =>
    let q := s.q t
    match q.pc with
    | .cas v => if s.mem.last .cnt = v then some (s.rmw t q.th (v + H) (.spin v) (fun _ => 0)) else none
    | _ => none
  | .casFail t i =>
    let q := s.q t
    match q.pc with
    | .cas v =>
      if q.th.may s.mem .cnt i ∧ (s.mem.msg .cnt i).val ≠ v then
        if (s.mem.msg .cnt i).val = v + H then some (s.setQ t (q.load s.mem i (.spin v)))
        else some (s.setQ t (q.ret s.mem i fc.up (.done v)))
      else none
    | _ => none
  -- lines 360-364
  | .spin t i =>
    let q := s.q t
    match q.pc with
    | .spin v =>
      if q.th.may s.mem .cnt i then
        if (s.mem.msg .cnt i).val ≠ v + H then some (s.setQ t (q.ret s.mem i fc.easy (.done v)))
        else some (s.setQ t (q.load s.mem i (.slow v)))
      else none
    | _ => none
  -- line 281: the kernel compares
  | .futex t =>
    let q := s.q t
    match q.pc with
    | .slow v => some (s.setQ t { q with pc := if s.mem.last .cnt = v + H then .asleep v else .aft v })
    | _ => none
  -- a signal, or the deadline
  | .out t =>
    let q := s.q t
    match q.pc with
    | .asleep v => some (s.setQ t { q with pc := .aft v })
    | _ => none
  -- line 283
  | .aft t i =>
    let q := s.q t
    match q.pc with
    | .aft v =>
      if q.th.may s.mem .cnt i then some (s.setQ t (q.load s.mem i (if (s.mem.msg .cnt i).val ≠ v + H then .chk v else .slow v))) else none
    | _ => none
  -- lines 374-380
  | .chk t i =>
    let q := s.q t
    match q.pc with
    | .chk v =>
      if q.th.may s.mem .cnt i then
        if (s.mem.msg .cnt i).val % H ≠ v then some (s.setQ t (q.ret s.mem i fc.val (.done v)))
        else some (s.setQ t { q with th := opt fc.val Th.fenceAcq (q.th.load s.mem .cnt i), pc := .easy v })
      else none
    | _ => none
  | .leave t =>
    let q := s.q t
    match q.pc with
    | .done _ => some (s.setQ t { q with pc := .idle })
    | _ => none

def sys (H : Nat) (fc : Fences) (n v : Nat) : Sys (St n) (Act n) := { init := (· = initSt n v), step := step H fc }

end Verif.Weak.Ec
