import Verif.Core.Sys

/-!
# Model of `ck_array` (include/ck_array.h, src/ck_array.c)

One writer, any number of readers.  Buffers are cells of a heap addressed by numbers; an access outside the
allocated length of a buffer is `none`.  `unsigned int` counters are natural numbers, except that the doubling of
the length (`length << 1`) wraps at `2^32`.  Every allocation takes an outcome: `none` (failure) or the contents of
the fresh memory.  `free` and `realloc` are called with `defer = true`: the old buffer keeps its contents (`freed`
records that it was given up; the model does so at the store that unlinks it).
-/

namespace Verif.Array

open Verif

/-- `struct _ck_array`, include/ck_array.h 37-41. -/
structure Buf (V : Type) where
  ncomm : Nat
  len : Nat
  val : Nat → V

/-- `struct ck_array`, include/ck_array.h 43-49, and the heap. -/
structure Mem (V : Type) where
  heap : Nat → Buf V
  fresh : Nat
  active : Nat
  n : Nat
  trans : Option Nat
  freed : Nat → Bool

abbrev Stmt (V : Type) := Mem V → Option (Mem V)

def exec {V : Type} : List (Stmt V) → Mem V → Option (Mem V)
  | [], m => some m
  | f :: fs, m => (f m).bind (exec fs)

/-- The outcome of an allocation. -/
abbrev Alloc (V : Type) := Option (Nat → V)

variable {V : Type}

/-- `ck_array_create`, src/ck_array.c 34-47, and `ck_array_init`, 49-71 (the callbacks of the allocator are
present): the state after it, `none` if it returns false. -/
def init (length : Nat) (alloc : Alloc V) : Option (Mem V) :=
  if length = 0 then none
  else match alloc with
    | none => none
    | some junk => some { heap := fun _ => { ncomm := 0, len := length, val := junk }, fresh := 1, active := 0, n := 0,
                          trans := none, freed := fun _ => false }

/-- The first index below `n` that holds `v` (the loops 139-142, 158-164, 170-176). -/
def find [DecidableEq V] (b : Buf V) (n : Nat) (v : V) : Option Nat :=
  (List.range n).find? fun i => b.val i = v

/-- `realloc(target, …, true)` to twice the length, then `target->length = size`; 84-94, 110-118.  The first
`n_entries` values and the header are copied. -/
def grow (t : Nat) (junk : Nat → V) : Stmt V := fun m =>
  let b := m.heap t
  some { m with
    heap := upd m.heap m.fresh
      { ncomm := b.ncomm, len := b.len * 2 % 2 ^ 32, val := fun i => if i < m.n then b.val i else junk i }
    fresh := m.fresh + 1 }

/-- `ck_pr_store_ptr(&array->active, t)`, 98 and 214; the old buffer is given up. -/
def setActive (t : Nat) : Stmt V := fun m =>
  some { m with active := t, freed := upd m.freed m.active true }

/-- `array->transaction = t`, 119 (the old one was given to `realloc`). -/
def setTrans (t : Nat) : Stmt V := fun m => some { m with trans := some t }

/-- `target->values[array->n_entries++] = value`, 101 and 122. -/
def append (t : Nat) (v : V) : Stmt V := fun m =>
  if m.n < (m.heap t).len then
    some { m with heap := upd m.heap t { m.heap t with val := upd (m.heap t).val m.n v }, n := m.n + 1 }
  else none

/-- `target->values[i] = target->values[--array->n_entries]`, 160 and 181. -/
def fill (t i : Nat) : Stmt V := fun m =>
  if i < (m.heap t).len ∧ m.n - 1 < (m.heap t).len then
    some { m with heap := upd m.heap t { m.heap t with val := upd (m.heap t).val i ((m.heap t).val (m.n - 1)) },
                  n := m.n - 1 }
  else none

/-- The transactional copy, 190-199. -/
def copy (i : Nat) (junk : Nat → V) : Stmt V := fun m =>
  let b := m.heap m.active
  if m.n ≤ b.len ∧ i < m.n then
    some { m with
      heap := upd m.heap m.fresh
        { ncomm := m.n, len := m.n
          val := upd (fun j => if j < m.n then b.val j else junk j) i (b.val (m.n - 1)) }
      fresh := m.fresh + 1
      n := m.n - 1
      trans := some m.fresh }
  else none

/-- The statements and the return value of `ck_array_put`, 73-126. -/
def put (v : V) (alloc : Alloc V) (m : Mem V) : List (Stmt V) × Bool :=
  match m.trans with
  | none =>
    if m.n = (m.heap m.active).len then
      match alloc with
      | none => ([], false)
      | some junk => ([grow m.active junk, setActive m.fresh, append m.fresh v], true)
    else ([append m.active v], true)
  | some t =>
    if m.n = (m.heap t).len then
      match alloc with
      | none => ([], false)
      | some junk => ([grow t junk, setTrans m.fresh, append m.fresh v], false)
    else ([append t v], false)

/-- The buffer the writer works on (as `ck_array_put_unique` chooses it, 134-138). -/
def target (m : Mem V) : Nat := m.trans.getD m.active

/-- `ck_array_put_unique`, 128-147. -/
def putUnique [DecidableEq V] (v : V) (alloc : Alloc V) (m : Mem V) : List (Stmt V) × Int :=
  match find (m.heap (target m)) m.n v with
  | some _ => ([], 1)
  | none => ((put v alloc m).1, if (put v alloc m).2 then 0 else -1)

/-- `ck_array_remove`, 149-200. -/
def remove [DecidableEq V] (v : V) (alloc : Alloc V) (m : Mem V) : List (Stmt V) × Bool :=
  match m.trans with
  | some t => match find (m.heap t) m.n v with
    | some i => ([fill t i], true)
    | none => ([], false)
  | none => match find (m.heap m.active) m.n v with
    | none => ([], false)
    | some i =>
      if (m.heap m.active).ncomm ≠ m.n then ([fill m.active i], true)
      else match alloc with
        | none => ([], false)
        | some junk => ([copy i junk], true)

/-- `m->n_committed = array->n_entries`, 211 and 222. -/
def setComm (t : Nat) : Stmt V := fun m =>
  some { m with heap := upd m.heap t { m.heap t with ncomm := m.n } }

/-- `ck_array_commit`, 202-224; returns true. -/
def commit (m : Mem V) : List (Stmt V) :=
  match m.trans with
  | some t => [setComm t, setActive t, fun m => some { m with trans := none }]
  | none => [setComm m.active]

/-- The value of `ck_array_length`, include/ck_array.h 66-73, if no store comes between its loads. -/
def length (m : Mem V) : Nat := (m.heap m.active).ncomm

/-! ## What can be seen -/

/-- The contents as the writer's functions see them. -/
def view (m : Mem V) : List V := (List.range m.n).map (m.heap (target m)).val

/-- The contents as a reader sees them: the `n_committed` first values of the active buffer. -/
def pub (m : Mem V) : List V := (List.range (m.heap m.active).ncomm).map (m.heap m.active).val

/-! ## Specification: a multiset with a committed version -/

inductive Op (V : Type)
  | put (v : V)
  | putUnique (v : V)
  | remove (v : V)
  | commit

/-- What an operation does to the working contents (up to order) and to the committed contents; `ok`: allocation
works. -/
def Spec [DecidableEq V] (o : Op V) (ok : Bool) (w c : List V) (w' c' : List V) : Prop :=
  match o with
  | .put v => c' = c ∧ (w'.Perm (v :: w) ∨ ok = false ∧ w' = w)
  | .putUnique v => c' = c ∧ (if v ∈ w then w' = w else w'.Perm (v :: w) ∨ ok = false ∧ w' = w)
  | .remove v => c' = c ∧ (if v ∈ w then w'.Perm (w.erase v) ∨ ok = false ∧ w' = w else w' = w)
  | .commit => w' = w ∧ c' = w

/-- The statements of an operation. -/
def prog [DecidableEq V] (o : Op V) (alloc : Alloc V) (m : Mem V) : List (Stmt V) :=
  match o with
  | .put v => (put v alloc m).1
  | .putUnique v => (putUnique v alloc m).1
  | .remove v => (remove v alloc m).1
  | .commit => commit m

/-- When the theorems speak about an operation: the buffer is small enough to be doubled, and a removal does not
hit a committed value while additions are pending. -/
def Ok [DecidableEq V] (o : Op V) (m : Mem V) : Prop :=
  match o with
  | .put _ | .putUnique _ => (m.heap (target m)).len < 2 ^ 31
  | .remove v => m.trans = none → m.n = (m.heap m.active).ncomm ∨
      ∀ i ∈ find (m.heap m.active) m.n v, (m.heap m.active).ncomm ≤ i
  | .commit => True

instance [DecidableEq V] (o : Op V) (m : Mem V) : Decidable (Ok o m) := by
  cases o <;> unfold Ok <;> infer_instance

end Verif.Array
