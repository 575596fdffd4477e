import Verif.Core.Sys
import Mathlib.Data.List.Nodup

/-!
# `include/ck_queue.h`: `CK_SLIST`, `CK_STAILQ`, `CK_LIST`

The memory has one pointer cell per list head (`cslh_first`, `cstqh_first`, `clh_first`) and one per element
(`csle_next`, `cstqe_next`, `cle_next`); `cstqh_last` and `cle_prev` hold addresses of such cells.  `H` is the
type of heads, `N` the type of elements.

A macro is the list of its statements; each statement loads what it needs and performs at most one store, and is
`none` if it dereferences a null pointer.  `exec` runs them in order.  Fences are no-ops.

Not modelled: `CK_STAILQ_SWAP` (348-359), which assigns to the result of `ck_pr_load_ptr` and so cannot be
compiled.
-/

namespace Verif.Queue

open Verif

inductive Cell (H N : Type)
  | head (h : H)
  | next (x : N)
  deriving DecidableEq

structure Mem (H N : Type) where
  /-- `*first`, `*next` -/
  ptr : Cell H N → Option N
  /-- `cstqh_last`, lines 235-239 -/
  last : H → Cell H N
  /-- `cle_prev`, lines 372-376 -/
  prev : N → Cell H N

abbrev Stmt (H N : Type) := Mem H N → Option (Mem H N)

variable {H N : Type} [DecidableEq H] [DecidableEq N]

def exec : List (Stmt H N) → Mem H N → Option (Mem H N)
  | [], m => some m
  | f :: fs, m => (f m).bind (exec fs)

/-- Store to a pointer cell. -/
def Mem.store (m : Mem H N) (c : Cell H N) (v : Option N) : Mem H N := { m with ptr := upd m.ptr c v }

/-- Store to `cstqh_last`. -/
def Mem.setLast (m : Mem H N) (h : H) (d : Cell H N) : Mem H N := { m with last := upd m.last h d }

/-- Store to `cle_prev`. -/
def Mem.setPrev (m : Mem H N) (x : N) (d : Cell H N) : Mem H N := { m with prev := upd m.prev x d }

@[simp] theorem Mem.store_ptr (m : Mem H N) (c v) : (m.store c v).ptr = upd m.ptr c v := rfl
@[simp] theorem Mem.store_last (m : Mem H N) (c v) : (m.store c v).last = m.last := rfl
@[simp] theorem Mem.store_prev (m : Mem H N) (c v) : (m.store c v).prev = m.prev := rfl
omit [DecidableEq N] in
@[simp] theorem Mem.setLast_ptr (m : Mem H N) (h d) : (m.setLast h d).ptr = m.ptr := rfl
omit [DecidableEq N] in
@[simp] theorem Mem.setLast_last (m : Mem H N) (h d) : (m.setLast h d).last = upd m.last h d := rfl
omit [DecidableEq N] in
@[simp] theorem Mem.setLast_prev (m : Mem H N) (h d) : (m.setLast h d).prev = m.prev := rfl
omit [DecidableEq H] in
@[simp] theorem Mem.setPrev_ptr (m : Mem H N) (x d) : (m.setPrev x d).ptr = m.ptr := rfl
omit [DecidableEq H] in
@[simp] theorem Mem.setPrev_last (m : Mem H N) (x d) : (m.setPrev x d).last = m.last := rfl
omit [DecidableEq H] in
@[simp] theorem Mem.setPrev_prev (m : Mem H N) (x d) : (m.setPrev x d).prev = upd m.prev x d := rfl

/-- `while (curelm->next != elm) curelm = curelm->next`; `fuel` bounds the iterations, `none` is a null
dereference or no fuel. -/
def findPrev (m : Mem H N) (elm : N) : Nat → N → Option N
  | 0, _ => none
  | k + 1, cur =>
    if m.ptr (.next cur) = some elm then some cur
    else match m.ptr (.next cur) with
      | none => none
      | some y => findPrev m elm k y

/-! ## `CK_SLIST` -/

namespace SL

/-- `CK_SLIST_INIT`, 171-174. -/
def init (h : H) : List (Stmt H N) := [fun m => some (m.store (.head h) none)]

/-- `CK_SLIST_INSERT_AFTER`, 176-180. -/
def insertAfter (a b : N) : List (Stmt H N) :=
  [fun m => some (m.store (.next b) (m.ptr (.next a))),
   fun m => some (m.store (.next a) (some b))]

/-- `CK_SLIST_INSERT_HEAD`, 182-186. -/
def insertHead (h : H) (x : N) : List (Stmt H N) :=
  [fun m => some (m.store (.next x) (m.ptr (.head h))),
   fun m => some (m.store (.head h) (some x))]

/-- `CK_SLIST_INSERT_PREVPTR`, 188-192. -/
def insertPrevptr (p : Cell H N) (y : N) (x : N) : List (Stmt H N) :=
  [fun m => some (m.store (.next x) (some y)),
   fun m => some (m.store p (some x))]

/-- `CK_SLIST_REMOVE_AFTER`, 194-197. -/
def removeAfter (x : N) : List (Stmt H N) :=
  [fun m => match m.ptr (.next x) with
    | none => none
    | some y => some (m.store (.next x) (m.ptr (.next y)))]

/-- `CK_SLIST_REMOVE_HEAD`, 210-213. -/
def removeHead (h : H) : List (Stmt H N) :=
  [fun m => match m.ptr (.head h) with
    | none => none
    | some y => some (m.store (.head h) (m.ptr (.next y)))]

/-- `CK_SLIST_REMOVE`, 199-208. -/
def remove (fuel : Nat) (h : H) (x : N) (m : Mem H N) : Option (List (Stmt H N)) :=
  if m.ptr (.head h) = some x then some (removeHead h)
  else match m.ptr (.head h) with
    | none => none
    | some cur => (findPrev m x fuel cur).map removeAfter

/-- `CK_SLIST_REMOVE_PREVPTR`, 215-217.  The body says `prevptr` where the parameter is `prevp`: it compiles only
where the caller has a variable `prevptr`, which is the `p` here. -/
def removePrevptr (p : Cell H N) (x : N) : List (Stmt H N) :=
  [fun m => some (m.store p (m.ptr (.next x)))]

/-- `CK_SLIST_MOVE`, 219-221. -/
def move (h1 h2 : H) : List (Stmt H N) := [fun m => some (m.store (.head h1) (m.ptr (.head h2)))]

/-- `CK_SLIST_SWAP`, 226-230; the local `swap_first` is `t`. -/
def swap (h1 h2 : H) (m : Mem H N) : List (Stmt H N) :=
  let t := m.ptr (.head h1)
  [fun m => some (m.store (.head h1) (m.ptr (.head h2))),
   fun m => some (m.store (.head h2) t)]

end SL

/-! ## `CK_STAILQ` -/

namespace STQ

/-- `CK_STAILQ_INIT`, 281-285. -/
def init (h : H) : List (Stmt H N) :=
  [fun m => some (m.store (.head h) none),
   fun m => some (m.setLast h (.head h))]

/-- `CK_STAILQ_CONCAT`, 252-259. -/
def concat (h1 h2 : H) (m : Mem H N) : List (Stmt H N) :=
  if m.ptr (.head h2) = none then []
  else [fun m => some (m.store (m.last h1) (m.ptr (.head h2))),
        fun m => some (m.setLast h1 (m.last h2))] ++ init h2

/-- `if (x->next == NULL) head->last = &x->next`. -/
def fixLast (h : H) (x : N) : Stmt H N := fun m =>
  if m.ptr (.next x) = none then some (m.setLast h (.next x)) else some m

/-- `CK_STAILQ_INSERT_AFTER`, 287-293. -/
def insertAfter (h : H) (y x : N) : List (Stmt H N) :=
  [fun m => some (m.store (.next x) (m.ptr (.next y))),
   fun m => some (m.store (.next y) (some x)),
   fixLast h x]

/-- `CK_STAILQ_INSERT_HEAD`, 295-301. -/
def insertHead (h : H) (x : N) : List (Stmt H N) :=
  [fun m => some (m.store (.next x) (m.ptr (.head h))),
   fun m => some (m.store (.head h) (some x)),
   fixLast h x]

/-- `CK_STAILQ_INSERT_TAIL`, 303-308. -/
def insertTail (h : H) (x : N) : List (Stmt H N) :=
  [fun m => some (m.store (.next x) none),
   fun m => some (m.store (m.last h) (some x)),
   fun m => some (m.setLast h (.next x))]

/-- `CK_STAILQ_REMOVE_AFTER`, 324-329. -/
def removeAfter (h : H) (x : N) : List (Stmt H N) :=
  [fun m => match m.ptr (.next x) with
    | none => none
    | some y => some (m.store (.next x) (m.ptr (.next y))),
   fixLast h x]

/-- `CK_STAILQ_REMOVE_HEAD`, 331-336. -/
def removeHead (h : H) : List (Stmt H N) :=
  [fun m => match m.ptr (.head h) with
    | none => none
    | some y => some (m.store (.head h) (m.ptr (.next y))),
   fun m => if m.ptr (.head h) = none then some (m.setLast h (.head h)) else some m]

/-- `CK_STAILQ_REMOVE`, 313-322. -/
def remove (fuel : Nat) (h : H) (x : N) (m : Mem H N) : Option (List (Stmt H N)) :=
  if m.ptr (.head h) = some x then some (removeHead h)
  else match m.ptr (.head h) with
    | none => none
    | some cur => (findPrev m x fuel cur).map (removeAfter h)

/-- `CK_STAILQ_MOVE`, 338-343. -/
def move (h1 h2 : H) : List (Stmt H N) :=
  [fun m => some (m.store (.head h1) (m.ptr (.head h2))),
   fun m => some (m.setLast h1 (m.last h2)),
   fun m => if m.last h2 = .head h2 then some (m.setLast h1 (.head h1)) else some m]

end STQ

/-! ## `CK_LIST` -/

namespace LST

/-- `CK_LIST_INIT`, 397-400. -/
def init (h : H) : List (Stmt H N) := [fun m => some (m.store (.head h) none)]

/-- `CK_LIST_INSERT_AFTER`, 402-409. -/
def insertAfter (y x : N) : List (Stmt H N) :=
  [fun m => some (m.store (.next x) (m.ptr (.next y))),
   fun m => some (m.setPrev x (.next y)),
   fun m => match m.ptr (.next y) with
    | none => some m
    | some z => some (m.setPrev z (.next x)),
   fun m => some (m.store (.next y) (some x))]

/-- `CK_LIST_INSERT_BEFORE`, 411-417. -/
def insertBefore (y x : N) : List (Stmt H N) :=
  [fun m => some (m.setPrev x (m.prev y)),
   fun m => some (m.store (.next x) (some y)),
   fun m => some (m.store (m.prev y) (some x)),
   fun m => some (m.setPrev y (.next x))]

/-- `CK_LIST_INSERT_HEAD`, 419-426. -/
def insertHead (h : H) (x : N) : List (Stmt H N) :=
  [fun m => some (m.store (.next x) (m.ptr (.head h))),
   fun m => match m.ptr (.next x) with
    | none => some m
    | some _ => match m.ptr (.head h) with
      | none => none
      | some z => some (m.setPrev z (.next x)),
   fun m => some (m.store (.head h) (some x)),
   fun m => some (m.setPrev x (.head h))]

/-- `CK_LIST_REMOVE`, 428-432. -/
def remove (x : N) : List (Stmt H N) :=
  [fun m => some (m.store (m.prev x) (m.ptr (.next x))),
   fun m => match m.ptr (.next x) with
    | none => some m
    | some z => some (m.setPrev z (m.prev x))]

/-- `if (head->first != NULL) head->first->prev = &head->first`. -/
def fixPrev (h : H) : Stmt H N := fun m => match m.ptr (.head h) with
  | none => some m
  | some z => some (m.setPrev z (.head h))

/-- `CK_LIST_MOVE`, 434-438. -/
def move (h1 h2 : H) : List (Stmt H N) :=
  [fun m => some (m.store (.head h1) (m.ptr (.head h2))),
   fixPrev h1]

/-- `CK_LIST_SWAP`, 443-451; the local `swap_tmp` is `t`. -/
def swap (h1 h2 : H) (m : Mem H N) : List (Stmt H N) :=
  let t := m.ptr (.head h1)
  [fun m => some (m.store (.head h1) (m.ptr (.head h2))),
   fun m => some (m.store (.head h2) t),
   fixPrev h1,
   fixPrev h2]

end LST

/-- `CK_*_FOREACH` (151-154, 265-268, 382-385) with a body that changes nothing: the elements visited, from the
cell `c` on. -/
def foreach (m : Mem H N) : Nat → Cell H N → Option (List N)
  | 0, _ => none
  | k + 1, c => match m.ptr c with
    | none => some []
    | some x => (foreach m k (.next x)).map (x :: ·)

/-- `CK_*_FOREACH_SAFE` (161-164, 275-279, 392-395): `tvar` is loaded before the body runs. -/
def foreachSafe (body : N → Stmt H N) : Nat → Mem H N → Option N → Option (List N × Mem H N)
  | _, m, none => some ([], m)
  | 0, _, some _ => none
  | k + 1, m, some x =>
    let t := m.ptr (.next x)
    match body x m with
    | none => none
    | some m' => (foreachSafe body k m' t).map fun p => (x :: p.1, p.2)

/-! ## Specification -/

/-- From cell `c` on, following pointers, one meets exactly `l`. -/
def Path (p : Cell H N → Option N) : Cell H N → List N → Prop
  | c, [] => p c = none
  | c, x :: l => p c = some x ∧ Path p (.next x) l

/-- The cell after the last element. -/
def endC : Cell H N → List N → Cell H N
  | c, [] => c
  | _, x :: l => endC (.next x) l

/-- Every element's back pointer is the address of the cell that points to it. -/
def Prevs (q : N → Cell H N) : Cell H N → List N → Prop
  | _, [] => True
  | c, x :: l => q x = c ∧ Prevs q (.next x) l

/-- List `h` is a well-formed `CK_SLIST` with content `l`. -/
structure SRep (m : Mem H N) (h : H) (l : List N) : Prop where
  path : Path m.ptr (.head h) l
  nodup : l.Nodup

/-- List `h` is a well-formed `CK_STAILQ` with content `l`. -/
structure TRep (m : Mem H N) (h : H) (l : List N) : Prop extends SRep m h l where
  last : m.last h = endC (.head h) l

/-- List `h` is a well-formed `CK_LIST` with content `l`. -/
structure LRep (m : Mem H N) (h : H) (l : List N) : Prop extends SRep m h l where
  prevs : Prevs m.prev (.head h) l

/-- At most the heads `hs` and the elements `xs` are touched. -/
structure Frame (m m' : Mem H N) (hs : List H) (xs : List N) : Prop where
  head : ∀ h, h ∉ hs → m'.ptr (.head h) = m.ptr (.head h) ∧ m'.last h = m.last h
  elt : ∀ x, x ∉ xs → m'.ptr (.next x) = m.ptr (.next x) ∧ m'.prev x = m.prev x

end Verif.Queue
