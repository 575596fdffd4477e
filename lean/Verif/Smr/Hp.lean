import Verif.Core.Sys

/-!
# Hazard pointers (model), `src/ck_hp.c`, `include/ck_hp.h`

Records `R` and objects `P` are arbitrary types, `D` is `degree` (slots per record), `C` is `CK_HP_CACHE`
and `thr` the threshold.  Every load or store of another record's memory is one step; what a record keeps
for its owner only (`pending`, `n_pending`, `cache`) is changed together with the step it belongs to.

What the client does with the objects is reduced to the life cycle `Life`: an object is linked into some
shared structure, unlinked from it by one thread, handed to `ck_hp_retire` or `ck_hp_free`, and may be
linked again after the destructor got it.  `validate` stands for the client reading the shared structure
after `ck_hp_set_fence` and finding the object still there.

Simplifications: `qsort` and `bsearch` of the cache (243, 257) are list membership; the pending stack is a
list and the position of the traversal an index (`previous`, 245-279, is the entry before it); the check
of `record->pointers == NULL` (176, 210) is dropped as registration always stores the array; the counters
`n_free`, `n_subscribers`, `n_peak`, `n_reclamations` are dropped; `ck_hp_recycle` (93-117) is the one
`fas` that takes a free record.  The destructor does not call back into `ck_hp` for the same record.

Ghost state: `life`, `prot` (the slot was validated and not written since), `nret`, `ndes` (how often an
object was retired and destroyed).
-/

namespace Verif.Hp

open Verif

inductive Life
  | fresh | linked | unlinked | retired
  deriving DecidableEq

/-- Where a record's owner is in `ck_hp_reclaim`. -/
inductive RC (R P : Type)
  | idle
  /-- About to load `subscribers.head` (202). -/
  | start
  /-- `ck_hp_member_cache` (194-227) about to load the state of the first record of `rem`. -/
  | cRec (rem : List R) (c : List P)
  /-- In the loop 213-224 at slot `i` of `r`, the records `rem` come next. -/
  | cSlot (r : R) (rem : List R) (i : Nat) (c : List P)
  /-- In the loop 252-288, `mk` the records from the marker on (empty when it is `NULL`). -/
  | scan (mk : List R) (c : List P) (pos : Nat)
  /-- `ck_hp_member_scan` (165-187) about to load the state of the first record of `rem`. -/
  | sRec (mk rem : List R) (c : List P) (pos : Nat)
  /-- In the loop 179-183 at slot `i` of `r`. -/
  | sSlot (mk : List R) (r : R) (rem : List R) (i : Nat) (c : List P) (pos : Nat)
  deriving DecidableEq

structure St (R P : Type) where
  /-- `global->subscribers`, newest first. -/
  subs : List R
  /-- `record->state == CK_HP_USED`. -/
  used : R → Bool
  /-- `record->pointers[i]`. -/
  pts : R → Nat → Option P
  /-- `record->pending`. -/
  pend : R → List P
  /-- `record->n_pending`. -/
  np : R → Nat
  rc : R → RC R P
  /-- The reclaim runs inside `ck_hp_purge`. -/
  pg : R → Bool
  life : P → Life
  prot : R → Nat → Bool
  nret : P → Nat
  ndes : P → Nat

inductive Act (R P : Type)
  | register (r : R)
  | recycle (r : R)
  | unregister (r : R)
  | set (r : R) (i : Nat) (p : Option P)
  | validate (r : R) (i : Nat)
  | copy (r : R) (i j : Nat)
  | link (p : P)
  | unlink (p : P)
  | retire (r : R) (p : P)
  | free (r : R) (p : P)
  | reclaim (r : R)
  | purge (r : R)
  | tick (r : R)

variable {R P : Type} [DecidableEq R] [DecidableEq P]

/-- Store into slot `i` of `r`. -/
def setPt (f : R → Nat → Option P) (r : R) (i : Nat) (p : Option P) : R → Nat → Option P :=
  upd f r (upd (f r) i p)

def setPr (f : R → Nat → Bool) (r : R) (i : Nat) (b : Bool) : R → Nat → Bool := upd f r (upd (f r) i b)

/-- `thread->n_pending -= 1`, unlink, `global->destroy` (273-285), and on to the next entry. -/
def destroy (s : St R P) (r : R) (mk : List R) (c : List P) (pos : Nat) (p : P) : St R P :=
  { s with np := upd s.np r (s.np r - 1), pend := upd s.pend r ((s.pend r).eraseIdx pos),
           life := upd s.life p .fresh, ndes := upd s.ndes p (s.ndes p + 1),
           rc := upd s.rc r (.scan mk c pos) }

def goto (s : St R P) (r : R) (q : RC R P) : St R P := { s with rc := upd s.rc r q }

/-- One step of `ck_hp_reclaim` (230-291) by the owner of `r`. -/
def tick (D C : Nat) (s : St R P) (r : R) : Option (St R P) :=
  match s.rc r with
  | .idle => none
  -- 202
  | .start => some (goto s r (.cRec s.subs []))
  -- 202-208
  | .cRec [] c => some (goto s r (.scan [] c 0))
  | .cRec (q :: rem) c =>
    if s.used q then some (goto s r (.cSlot q rem 0 c)) else some (goto s r (.cRec rem c))
  -- 213-224
  | .cSlot q rem i c =>
    if D ≤ i then some (goto s r (.cRec rem c))
    else if C ≤ c.length then some (goto s r (.scan (q :: rem) c 0))
    else match s.pts q i with
      | none => some (goto s r (.cSlot q rem (i + 1) c))
      | some p => some (goto s r (.cSlot q rem (i + 1) (p :: c)))
  -- 251-285; 344-348 when inside ck_hp_purge
  | .scan mk c pos => match (s.pend r)[pos]? with
    | none => if s.pg r ∧ s.np r > 0 then some (goto s r .start)
              else some { s with rc := upd s.rc r .idle, pg := upd s.pg r false }
    | some p =>
      if p ∈ c then some (goto s r (.scan mk c (pos + 1)))
      else if mk = [] then some (destroy s r mk c pos p)
      else some (goto s r (.sRec mk mk c pos))
  -- 171-177, 184-186
  | .sRec mk [] c pos => match (s.pend r)[pos]? with
    | none => none
    | some p => some (destroy s r mk c pos p)
  | .sRec mk (q :: rem) c pos =>
    if s.used q then some (goto s r (.sSlot mk q rem 0 c pos)) else some (goto s r (.sRec mk rem c pos))
  -- 179-183
  | .sSlot mk q rem i c pos =>
    if D ≤ i then some (goto s r (.sRec mk rem c pos))
    else if s.pts q i = (s.pend r)[pos]? then some (goto s r (.scan mk c (pos + 1)))
    else some (goto s r (.sSlot mk q rem (i + 1) c pos))

/-- `ck_hp_retire` (294-309). -/
def retire (s : St R P) (r : R) (p : P) : St R P :=
  { s with life := upd s.life p .retired, nret := upd s.nret p (s.nret p + 1),
           pend := upd s.pend r (p :: s.pend r), np := upd s.np r (s.np r + 1) }

def step (D C thr : Nat) (s : St R P) : Act R P → Option (St R P)
  -- ck_hp_register 133-150
  | .register r =>
    if r ∈ s.subs then none
    else some { s with subs := r :: s.subs, used := upd s.used r true, pts := upd s.pts r (fun _ => none),
                       pend := upd s.pend r [], np := upd s.np r 0 }
  -- ck_hp_recycle 93-117
  | .recycle r => if r ∈ s.subs ∧ s.used r = false then some { s with used := upd s.used r true } else none
  -- ck_hp_unregister 119-131
  | .unregister r =>
    if s.used r ∧ s.rc r = .idle then
      some { s with used := upd s.used r false, pend := upd s.pend r [], np := upd s.np r 0,
                    prot := upd s.prot r (fun _ => false) }
    else none
  -- ck_hp_set, ck_hp_set_fence, ck_hp_clear; ck_hp.h 76-109
  | .set r i p =>
    if s.used r ∧ i < D then some { s with pts := setPt s.pts r i p, prot := setPr s.prot r i false } else none
  | .validate r i => match s.pts r i with
    | none => none
    | some p => if s.used r ∧ r ∈ s.subs ∧ i < D ∧ s.life p = .linked then some { s with prot := setPr s.prot r i true }
                else none
  -- ck_hp_set of a pointer that a lower slot of the same record already protects
  | .copy r i j =>
    if s.used r ∧ i < j ∧ j < D ∧ s.prot r i = true then
      some { s with pts := setPt s.pts r j (s.pts r i), prot := setPr s.prot r j true }
    else none
  | .link p => if s.life p = .fresh then some { s with life := upd s.life p .linked } else none
  | .unlink p => if s.life p = .linked then some { s with life := upd s.life p .unlinked } else none
  | .retire r p =>
    if s.used r ∧ s.rc r = .idle ∧ s.life p = .unlinked then some (retire s r p) else none
  -- ck_hp_free 311-333
  | .free r p =>
    if s.used r ∧ s.rc r = .idle ∧ s.life p = .unlinked then
      if thr ≤ s.np r + 1 then some (goto (retire s r p) r .start) else some (retire s r p)
    else none
  | .reclaim r => if s.used r ∧ s.rc r = .idle then some (goto s r .start) else none
  -- ck_hp_purge 335-349
  | .purge r =>
    if s.used r ∧ s.rc r = .idle then
      if s.np r > 0 then some { s with rc := upd s.rc r .start, pg := upd s.pg r true } else some s
    else none
  | .tick r => tick D C s r

/-- After `ck_hp_init` (72-84): no record, nothing retired. -/
structure Start (s : St R P) : Prop where
  subs : s.subs = []
  rc : ∀ r, s.rc r = .idle
  pg : ∀ r, s.pg r = false
  pend : ∀ r, s.pend r = []
  np : ∀ r, s.np r = 0
  life : ∀ p, s.life p = .fresh
  prot : ∀ r i, s.prot r i = false
  used : ∀ r, s.used r = false
  nret : ∀ p, s.nret p = 0
  ndes : ∀ p, s.ndes p = 0

def sys (D C thr : Nat) : Sys (St R P) (Act R P) where
  init := Start
  step := step D C thr

end Verif.Hp
