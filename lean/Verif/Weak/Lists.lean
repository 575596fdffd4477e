import Verif.Queue.Queue
import Verif.Weak.Put

/-!
# Lists with concurrent readers on relaxed memory (C87), `include/ck_queue.h`

One writer, any number of readers.  What readers see of the macros of `CK_SLIST`, `CK_STAILQ` and `CK_LIST`, the same for all three:

* insertion of `x` after cell `c` (a head or the field `next` of an element): `next` of `x` is set to the content of `c`, `ck_pr_fence_store`, `c` is set to `x`
  (`CK_SLIST_INSERT_AFTER` 176-180, `_INSERT_HEAD` 182-186, `_INSERT_PREVPTR` 188-192; `CK_STAILQ_INSERT_AFTER` 287-293, `_INSERT_HEAD` 295-301, `_INSERT_TAIL` 303-308;
  `CK_LIST_INSERT_AFTER` 402-409, `_INSERT_BEFORE` 411-417, `_INSERT_HEAD` 419-426);
* removal of the element after `c`: `c` is set to its `next` (`CK_SLIST_REMOVE_AFTER` 194-197, `_REMOVE` 199-208, `_REMOVE_HEAD` 210-213, `_REMOVE_PREVPTR` 215-217; `CK_STAILQ_REMOVE` 313-322, `_REMOVE_AFTER` 324-329,
  `_REMOVE_HEAD` 331-336; `CK_LIST_REMOVE` 428-432).

The stores to `cle_prev` and `cstqh_last`, which no reader loads, are in `Verif.Queue`.  Readers run `CK_*_FOREACH` (151-154, 265-268, 382-385) without fences: loads return any value the memory
model allows.  A load through a pointer is ordered after the load of that pointer (`dep`; the comment in lines 99-100 excludes machines without it): what was known to the store of the pointer bounds it.

The discipline that safe memory reclamation provides: a reader that uses the list is in a section; when the section begins it knows what the writer has done so far, and while
it lasts no element is inserted that was in the list since then.  Inside of a section the reader may learn more about the memory at any time (`learn`), it does not have to.

Bookkeeping that no program step reads: `hist k`, content of the list after `k` changes; `now`, number of changes; `di x`, which value the data of `x` had when `x` was inserted; `vis`, the elements that
the traversal has visited; `b`, `now` at the begin of the section.
-/

namespace Verif.Weak.Lists

open Verif
open Fas (opt)
open _root_.Verif.Queue (Cell)

inductive Loc (N : Type)
  | ptr (c : Cell Unit N)
  | dat (x : N)
deriving DecidableEq

inductive WPC (N : Type)
  | idle
  /-- about to set `c` to `x` -/
  | pub (c : Cell Unit N) (x : N)
deriving DecidableEq

structure Rd (N : Type) where
  on : Bool
  th : Th (Loc N)
  /-- `none`: no traversal; otherwise the value of `var` -/
  pos : Option (Option N)
  /-- what was known to the store of the pointer in `var` -/
  dv : View (Loc N)
  vis : List N
  b : Nat

structure St (N : Type) (n : Nat) where
  mem : Mem (Loc N) (Option N × Nat)
  w : Th (Loc N)
  wpc : WPC N
  rd : Fin n → Rd N
  now : Nat
  hist : Nat → List N
  di : N → Nat

inductive Act (N : Type) (n : Nat)
  | fill (x : N) (v : Nat)
  | ins (c : Cell Unit N) (x : N)
  | pub
  | del (c : Cell Unit N)
  | begin (r : Fin n)
  | leave (r : Fin n)
  | learn (r : Fin n) (l : Loc N) (i : Nat)
  | first (r : Fin n) (i : Nat)
  | next (r : Fin n) (i : Nat)
  | look (r : Fin n) (i : Nat)

variable {N : Type} [DecidableEq N] {n : Nat}

/-- Lines 171-174, 281-285, 397-400: the list is empty. -/
def initSt : St N n :=
  { mem := Mem.init fun _ => (none, 0), w := Th.init, wpc := .idle
    rd := fun _ => { on := false, th := Th.init, pos := none, dv := fun _ => 0, vis := [], b := 0 }
    now := 0, hist := fun _ => [], di := fun _ => 0 }

/-- The list after `x` was inserted after element `a`. -/
def insAfter (a x : N) : List N → List N
  | [] => []
  | y :: l => if y = a then y :: x :: l else y :: insAfter a x l

/-- The list after `x` was inserted after cell `c`. -/
def insAt (x : N) (l : List N) : Cell Unit N → List N
  | .head _ => x :: l
  | .next a => insAfter a x l

/-- `c` belongs to the list `l`. -/
def live (l : List N) : Cell Unit N → Prop
  | .head _ => True
  | .next a => a ∈ l

instance (l : List N) (c : Cell Unit N) : Decidable (live l c) := by cases c <;> unfold live <;> infer_instance

/-- `x` was in the list at some time since the begin of a section that has not ended. -/
def St.used (s : St N n) (x : N) : Prop := ∃ r, (s.rd r).on = true ∧ ∃ k, k ≤ s.now ∧ (s.rd r).b ≤ k ∧ x ∈ s.hist k

instance (s : St N n) (x : N) : Decidable (s.used x) :=
  decidable_of_iff (∃ r, (s.rd r).on = true ∧ ∃ k, k < s.now + 1 ∧ (s.rd r).b ≤ k ∧ x ∈ s.hist k) (by simp [St.used, Nat.lt_succ_iff])

/-- Whether a load through the pointer in `var` may return value `i`. -/
def Rd.may (dep : Bool) (q : Rd N) (m : Mem (Loc N) (Option N × Nat)) (l : Loc N) (i : Nat) : Prop :=
  q.th.may m l i ∧ (dep = true → q.dv l ≤ i)

instance (dep : Bool) (q : Rd N) (m : Mem (Loc N) (Option N × Nat)) (l : Loc N) (i : Nat) : Decidable (q.may dep m l i) := by unfold Rd.may; infer_instance

/-- After a load of a pointer: the new value of `var`. -/
def Rd.go (q : Rd N) (m : Mem (Loc N) (Option N × Nat)) (c : Cell Unit N) (i : Nat) (vis : List N) : Rd N :=
  let v := (m.msg (.ptr c) i).val.1
  { q with th := q.th.load m (.ptr c) i, pos := some v, dv := (m.msg (.ptr c) i).view, vis := vis ++ v.toList }

/-- `fc`: the fence is there. -/
def step (fc dep : Bool) (s : St N n) : Act N n → Option (St N n)
  -- the client
  | .fill x v =>
    if s.wpc = .idle then some { s with mem := s.mem.store s.w (.dat x) (none, v), w := s.w.store s.mem (.dat x) } else none
  -- the first statement of an insertion
  | .ins c x =>
    if s.wpc = .idle ∧ live (s.hist s.now) c ∧ x ∉ s.hist s.now ∧ ¬ s.used x then
      some { s with
        mem := s.mem.store s.w (.ptr (.next x)) (s.mem.last (.ptr c)), w := s.w.store s.mem (.ptr (.next x)), wpc := .pub c x }
    else none
  -- `ck_pr_fence_store`, `ck_pr_store_ptr`
  | .pub => match s.wpc with
    | .pub c x =>
      let w := opt fc Th.fenceStore s.w
      some { s with
        mem := s.mem.store w (.ptr c) (some x, 0), w := w.store s.mem (.ptr c), wpc := .idle, now := s.now + 1
        hist := upd s.hist (s.now + 1) (insAt x (s.hist s.now) c), di := upd s.di x (s.mem.top (.dat x)) }
    | .idle => none
  -- removal
  | .del c =>
    if s.wpc = .idle ∧ live (s.hist s.now) c then
      match (s.mem.last (.ptr c)).1 with
      | some x =>
        some { s with
          mem := s.mem.store s.w (.ptr c) (s.mem.last (.ptr (.next x))), w := s.w.store s.mem (.ptr c), now := s.now + 1
          hist := upd s.hist (s.now + 1) ((s.hist s.now).erase x) }
      | none => none
    else none
  | .begin r =>
    let q := s.rd r
    if q.on = false then
      some { s with rd := upd s.rd r { q with on := true, th := { q.th with cur := join q.th.cur s.w.cur }, pos := none, vis := [], b := s.now } }
    else none
  | .leave r => if (s.rd r).on = true then some { s with rd := upd s.rd r { s.rd r with on := false, pos := none } } else none
  | .learn r l i =>
    let q := s.rd r
    if i ≤ s.mem.top l then some { s with rd := upd s.rd r { q with th := { q.th with cur := join q.th.cur (upd (fun _ => 0) l i) } } } else none
  -- `CK_*_FIRST`
  | .first r i =>
    let q := s.rd r
    if q.on = true ∧ q.th.may s.mem (.ptr (.head ())) i then some { s with rd := upd s.rd r (q.go s.mem (.head ()) i []) } else none
  -- `CK_*_NEXT`
  | .next r i =>
    let q := s.rd r
    match q.pos with
    | some (some x) => if q.may dep s.mem (.ptr (.next x)) i then some { s with rd := upd s.rd r (q.go s.mem (.next x) i q.vis) } else none
    | _ => none
  -- the client
  | .look r i =>
    let q := s.rd r
    match q.pos with
    | some (some x) => if q.may dep s.mem (.dat x) i then some { s with rd := upd s.rd r { q with th := q.th.load s.mem (.dat x) i } } else none
    | _ => none

def sys (fc dep : Bool) (N : Type) [DecidableEq N] (n : Nat) : Sys (St N n) (Act N n) := { init := (· = initSt), step := step fc dep }

end Verif.Weak.Lists
