import Verif.Weak.Put

/-!
# Readers of a `ck_array` on relaxed memory (C97), `src/ck_array.c`, `include/ck_array.h`

One writer, any number of readers.  Buffers are numbered; a buffer that is replaced stays readable (its memory is given back through `defer`, with safe memory reclamation) and its number is not used again.

The stores of the writer that readers can see:

* `put`: a value beyond the committed ones of the active buffer (`ck_array_put`, line 104; `ck_array_remove` with pending additions, line 180, if it hits none of the committed: the other case is
  a deviation of C51);
* `commit`: the fence and the new `n_committed` (lines 221-222);
* `prep`, `prepN`: stores to a buffer that is not yet active: the copy made by `realloc` (lines 89-92, 112-115), the transaction (lines 124, 160, 193-196, 210);
* `publish`: the fence and the new `active` (lines 100-101, 211-213).

What is stored, and when, is a superset of what the code does.  Readers run `ck_array_buffer` (ck_array.h lines 75-83; `ck_array_length`, lines 66-73, is its first half), and then load the values.

`hist t` is the committed content at time `t`; `publish` and `commit` go on to the next time.  `sync` tells a reader what the writer has done so far by other means, `b` is the time of the last `sync`.
`ipl` is the time of the last `commit` in place.
-/

namespace Verif.Weak.Array

open Verif
open Fas (opt)

inductive Loc
  | active
  | n (b : Nat)
  | val (b j : Nat)
deriving DecidableEq

/-- A number of a buffer or of values, or a value; memory that has not been stored to is a number. -/
inductive Val (V : Type)
  | num (n : Nat)
  | usr (v : V)
deriving DecidableEq

def Val.toNat {V : Type} : Val V → Nat
  | .num n => n
  | .usr _ => 0

def Val.get {V : Type} : Val V → Option V
  | .num _ => none
  | .usr v => some v

/-- `pub`: ck_array.c lines 100, 211; `com`: line 221; `rd1`: ck_array.h lines 71, 80; `rd2`: a load fence after `n_committed` has been loaded, before the values are. -/
structure Fences where
  pub : Bool
  com : Bool
  rd1 : Bool
  rd2 : Bool
deriving DecidableEq

/-- The code. -/
def real : Fences := { pub := true, com := true, rd1 := true, rd2 := false }

/-- With a fence between `ck_array_buffer` and the loads of the values. -/
def fixed : Fences := { real with rd2 := true }

inductive RPC (V : Type)
  | idle
  | start
  /-- `active` is loaded -/
  | len (b : Nat)
  /-- `n_committed` is loaded, these are the values loaded so far -/
  | vals (b m : Nat) (acc : List (Option V))
  | ret (acc : List (Option V))
deriving DecidableEq

structure Rd (V : Type) where
  th : Th Loc
  pc : RPC V
  b : Nat

structure St (V : Type) (k : Nat) where
  mem : Mem Loc (Val V)
  w : Th Loc
  /-- the next buffer -/
  nxt : Nat
  rd : Fin k → Rd V
  now : Nat
  hist : Nat → List V
  ipl : Nat

inductive Act (V : Type) (k : Nat)
  | put (j : Nat) (v : V)
  | commit (m : Nat)
  | prep (j : Nat) (v : V)
  | prepN (m : Nat)
  | publish
  | sync (r : Fin k)
  | call (r : Fin k)
  | act (r : Fin k) (i : Nat)
  | len (r : Fin k) (i : Nat)
  | val (r : Fin k) (i : Nat)
  | leave (r : Fin k)

variable {V : Type} {k : Nat}

/-- `ck_array_init`, lines 49-71: buffer 0, nothing in it. -/
def initSt : St V k :=
  { mem := Mem.init fun _ => .num 0, w := Th.init, nxt := 1, rd := fun _ => { th := Th.init, pc := .idle, b := 0 }, now := 0, hist := fun _ => [], ipl := 0 }

/-- The values of a buffer. -/
def content (m : Mem Loc (Val V)) (b c : Nat) : List (Option V) := (List.range c).map fun j => (m.last (.val b j)).get

/-- The active buffer. -/
def St.cur (s : St V k) : Nat := (s.mem.last .active).toNat

def St.wput (s : St V k) (w : Th Loc) (l : Loc) (v : Val V) : St V k := { s with mem := s.mem.store w l v, w := w.store s.mem l }

/-- A new content. -/
def St.change (s : St V k) (l : List V) : St V k := { s with now := s.now + 1, hist := upd s.hist (s.now + 1) l }

/-- All or nothing. -/
def values : List (Option V) → Option (List V)
  | [] => some []
  | x :: l => match x, values l with
    | some v, some r => some (v :: r)
    | _, _ => none

instance (q : RPC V) : Decidable (q = .idle) := by cases q <;> first | exact isTrue rfl | exact isFalse (by simp)

/-- `ck_array_put`, `ck_array_remove`, `ck_array_commit` of ck_array.c lines 73-224 and `ck_array_buffer` of ck_array.h lines 75-83 as told at the head of the file; `fc` tells which fences exist. -/
def step (fc : Fences) (s : St V k) : Act V k → Option (St V k)
  | .put j v => if (s.mem.last (.n s.cur)).toNat ≤ j then some (s.wput s.w (.val s.cur j) (.usr v)) else none
  | .commit m =>
    if (s.mem.last (.n s.cur)).toNat ≤ m then
      match values (content s.mem s.cur m) with
      | some l =>
        let w := opt fc.com Th.fenceStore s.w
        some { (s.wput w (.n s.cur) (.num m)).change l with ipl := s.now + 1 }
      | none => none
    else none
  | .prep j v => some (s.wput s.w (.val s.nxt j) (.usr v))
  | .prepN m => some (s.wput s.w (.n s.nxt) (.num m))
  | .publish =>
    match values (content s.mem s.nxt (s.mem.last (.n s.nxt)).toNat) with
    | some l =>
      let w := opt fc.pub Th.fenceStore s.w
      some { (s.wput w .active (.num s.nxt)).change l with nxt := s.nxt + 1 }
    | none => none
  | .sync r =>
    let q := s.rd r
    if q.pc = .idle then some { s with rd := upd s.rd r { q with th := { q.th with cur := join q.th.cur s.w.cur }, b := s.now } } else none
  | .call r =>
    let q := s.rd r
    if q.pc = .idle then some { s with rd := upd s.rd r { q with pc := .start } } else none
  | .act r i =>
    let q := s.rd r
    match q.pc with
    | .start =>
      if q.th.may s.mem .active i then
        some { s with rd := upd s.rd r { q with th := opt fc.rd1 Th.fenceLoad (q.th.load s.mem .active i), pc := .len (s.mem.msg .active i).val.toNat } }
      else none
    | _ => none
  | .len r i =>
    let q := s.rd r
    match q.pc with
    | .len b =>
      if q.th.may s.mem (.n b) i then
        some { s with rd := upd s.rd r { q with th := opt fc.rd2 Th.fenceLoad (q.th.load s.mem (.n b) i), pc := .vals b (s.mem.msg (.n b) i).val.toNat [] } }
      else none
    | _ => none
  | .val r i =>
    let q := s.rd r
    match q.pc with
    | .vals b m acc =>
      if acc.length < m then
        if q.th.may s.mem (.val b acc.length) i then
          some { s with
            rd := upd s.rd r { q with
              th := q.th.load s.mem (.val b acc.length) i, pc := .vals b m (acc ++ [(s.mem.msg (.val b acc.length) i).val.get]) } }
        else none
      else some { s with rd := upd s.rd r { q with pc := .ret acc } }
    | _ => none
  | .leave r =>
    let q := s.rd r
    match q.pc with
    | .ret _ => some { s with rd := upd s.rd r { q with pc := .idle } }
    | _ => none

def sys (fc : Fences) (V : Type) (k : Nat) : Sys (St V k) (Act V k) := { init := (· = initSt), step := step fc }

end Verif.Weak.Array
