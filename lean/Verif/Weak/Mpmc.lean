import Verif.Weak.Put

/-!
# `ck_ring` with many producers or many consumers on relaxed memory (C86), `include/ck_ring.h`

`_ck_ring_enqueue_mp` (lines 310-395; `_ck_ring_enqueue_reserve_mp` and `_ck_ring_enqueue_commit_mp`, lines 252-309, are the same steps), `_ck_ring_enqueue_sp` (lines 172-202),
`_ck_ring_dequeue_mc` (lines 437-474), `_ck_ring_trydequeue_mc` (lines 412-435), `_ck_ring_dequeue_sc` (lines 219-250).  The ring has `2 ^ k` slots.  Loads return any value the
memory model allows.  What is enqueued are references to objects, `dat x` is the data of the client in object `x`; a thread that has an object may enqueue it, whoever has dequeued
it has it.

Simplified: counters are natural numbers (the code uses words that wrap around), an entry is one word.

A fence that orders stores (`ck_pr_fence_store`, `ck_pr_fence_store_atomic`) is one of three: it is not there; it orders the stores of the thread itself; it is cumulative, that is,
it also orders what the thread has seen of the stores of others.  Of the instructions behind them `lwsync` is cumulative; on processors where a store reaches all others at once the
difference does not exist.

Bookkeeping that no program step reads: `own x`, the thread that has object `x`; `np`, number of slots taken by producers; `en j`, `de j`: who enqueued (dequeued) what as number `j`; `si j`,
which store to its slot is that of number `j`.
-/

namespace Verif.Weak.Mpmc

open Verif
open Fas (opt)

inductive Loc
  | phead
  | ptail
  | chead
  | slot (i : Nat)
  | dat (x : Nat)
deriving DecidableEq

/-- A fence for stores. -/
inductive K
  | none
  | own
  | cum

def K.fence {L : Type} (k : K) (q : Th L) : Th L := match k with
  | .none => q
  | .own => q.fenceStore
  | .cum => q.fenceLoad.fenceRel

/-- The fences: `full`, lines 278, 352; `enq`, lines 168, 199, 306, 387; `deq1`, lines 422, 455; `deq2`, lines 238, 428, 461; `deq`, lines 247, 433, 467.  (The fences of lines
265, 329 are not modelled: they are not needed.) -/
structure Fences where
  full : Bool
  enq : K
  deq1 : Bool
  deq2 : Bool
  deq : K

/-- Fences for stores order the stores of the thread. -/
def weak : Fences := { full := true, enq := .own, deq1 := true, deq2 := true, deq := .own }

/-- Fences for stores are cumulative. -/
def cum : Fences := { full := true, enq := .cum, deq1 := true, deq2 := true, deq := .cum }

/-- Size and use of the ring: the only producer (it calls the `sp` functions) and the only consumer (it calls the `sc` functions), if any. -/
structure Cfg (n : Nat) where
  k : Nat
  sp : Option (Fin n)
  sc : Option (Fin n)

abbrev Cfg.z {n : Nat} (g : Cfg n) : Nat := 2 ^ g.k
abbrev Cfg.mask {n : Nat} (g : Cfg n) : Nat := 2 ^ g.k - 1

inductive PC
  | idle
  /-- lines 262, 322: about to load `p_head` -/
  | eP (v : Nat)
  /-- lines 266, 330: about to load `c_head` -/
  | eC (v p : Nat)
  /-- lines 271, 339: about to compare and swap -/
  | eX (v p c : Nat)
  /-- lines 279, 353: about to load `p_head` again -/
  | eR (v p c : Nat)
  /-- lines 148, 183: the only producer, about to load `c_head` -/
  | eQ (v : Nat)
  /-- lines 193, 374: about to store the entry -/
  | eS (v p : Nat)
  /-- lines 303, 380: waiting for `p_tail` -/
  | eW (v p : Nat)
  /-- lines 169, 200, 307, 388: about to store `p_tail` -/
  | eT (v p : Nat)
  /-- lines 421, 446: about to load `c_head`; `tr`: `trydequeue` -/
  | dC (tr : Bool)
  /-- lines 229, 423, 456: about to load `p_tail` -/
  | dP (tr : Bool) (c : Nat)
  /-- lines 241, 431, 464: about to load the entry -/
  | dS (tr : Bool) (c : Nat)
  /-- lines 248, 434, 468: about to store `c_head` -/
  | dX (tr : Bool) (c v : Nat)
deriving DecidableEq

structure St (n : Nat) where
  mem : Mem Loc Nat
  th : Fin n → Th Loc
  pc : Fin n → PC
  own : Nat → Option (Fin n)
  np : Nat
  en : Nat → Fin n × Nat
  de : Nat → Fin n × Nat
  si : Nat → Nat

inductive Act (n : Nat)
  | enq (t : Fin n) (v : Nat)
  | deq (t : Fin n) (tr : Bool)
  /-- the next step of `t`; if it loads, it loads value `i` -/
  | run (t : Fin n) (i : Nat)
  /-- the client -/
  | fill (t : Fin n) (x v : Nat)
  | look (t : Fin n) (x i : Nat)

variable {n : Nat}

/-- Lines 119-129: empty; every object belongs to some thread or to none. -/
def initSt (o : Nat → Option (Fin n)) (e : Nat → Fin n × Nat) : St n :=
  { mem := Mem.init fun _ => 0, th := fun _ => Th.init, pc := fun _ => .idle, own := o, np := 0, en := e, de := e, si := fun _ => 0 }

/-- The next step of a thread in one of the functions. -/
def run (g : Cfg n) (fc : Fences) (s : St n) (t : Fin n) (i : Nat) : Option (St n) :=
  let q := s.th t
  match s.pc t with
  | .idle => none
  -- lines 262, 322
  | .eP v =>
    if q.may s.mem .phead i then some { s with th := upd s.th t (q.load s.mem .phead i), pc := upd s.pc t (.eC v (s.mem.msg .phead i).val) } else none
  -- lines 266-270, 330-338
  | .eC v p =>
    if q.may s.mem .chead i then
      let c := (s.mem.msg .chead i).val
      some { s with th := upd s.th t (q.load s.mem .chead i), pc := upd s.pc t (if c ≤ p ∧ p - c < g.mask then .eX v p c else .eR v p c) }
    else none
  -- lines 271-274, 339-342
  | .eX v p _ =>
    if s.mem.last .phead = p then
      some { s with
        mem := s.mem.rmw q .phead (p + 1), th := upd s.th t (q.rmw s.mem .phead), pc := upd s.pc t (.eS v p)
        own := upd s.own v none, np := s.np + 1, en := upd s.en p (t, v) }
    else some { s with th := upd s.th t (q.load s.mem .phead (s.mem.top .phead)), pc := upd s.pc t (.eC v (s.mem.last .phead)) }
  -- lines 278-289, 352-369
  | .eR v p _ =>
    let q := opt fc.full Th.fenceLoad q
    if q.may s.mem .phead i then
      let p' := (s.mem.msg .phead i).val
      some { s with th := upd s.th t (q.load s.mem .phead i), pc := upd s.pc t (if p = p' then .idle else .eC v p') }
    else none
  -- lines 148-157, 183-190; `p_tail` is the producer's own
  | .eQ v =>
    if q.may s.mem .chead i then
      let c := (s.mem.msg .chead i).val
      let p := s.mem.last .ptail
      if (p + 1) % g.z = c % g.z then some { s with th := upd s.th t (q.load s.mem .chead i), pc := upd s.pc t .idle }
      else
        some { s with
          th := upd s.th t (q.load s.mem .chead i), pc := upd s.pc t (.eS v p), own := upd s.own v none, np := s.np + 1, en := upd s.en p (t, v) }
    else none
  -- lines 192-193, 373-374
  | .eS v p =>
    let l := .slot (p % g.z)
    some { s with
      mem := s.mem.store q l v, th := upd s.th t (q.store s.mem l), pc := upd s.pc t (if g.sp = none then .eW v p else .eT v p)
      si := upd s.si p (s.mem.top l + 1) }
  -- lines 303-304, 380-381
  | .eW v p =>
    if q.may s.mem .ptail i then
      some { s with th := upd s.th t (q.load s.mem .ptail i), pc := upd s.pc t (if (s.mem.msg .ptail i).val = p then .eT v p else .eW v p) }
    else none
  -- lines 168-169, 199-200, 306-307, 387-388
  | .eT _ p =>
    let q := fc.enq.fence q
    some { s with mem := s.mem.store q .ptail (p + 1), th := upd s.th t (q.store s.mem .ptail), pc := upd s.pc t .idle }
  -- lines 421-422, 446-455
  | .dC tr =>
    if q.may s.mem .chead i then
      some { s with th := upd s.th t (opt fc.deq1 Th.fenceLoad (q.load s.mem .chead i)), pc := upd s.pc t (.dP tr (s.mem.msg .chead i).val) }
    else none
  -- lines 229-238, 423-428, 456-461
  | .dP tr c =>
    if q.may s.mem .ptail i then
      if c = (s.mem.msg .ptail i).val then some { s with th := upd s.th t (q.load s.mem .ptail i), pc := upd s.pc t .idle }
      else some { s with th := upd s.th t (opt fc.deq2 Th.fenceLoad (q.load s.mem .ptail i)), pc := upd s.pc t (.dS tr c) }
    else none
  -- lines 240-241, 430-431, 463-464
  | .dS tr c =>
    if q.may s.mem (.slot (c % g.z)) i then
      some { s with th := upd s.th t (q.load s.mem (.slot (c % g.z)) i), pc := upd s.pc t (.dX tr c (s.mem.msg (.slot (c % g.z)) i).val) }
    else none
  | .dX tr c v =>
    let q := fc.deq.fence q
    -- lines 247-249
    if g.sc ≠ none then
      some { s with
        mem := s.mem.store q .chead (c + 1), th := upd s.th t (q.store s.mem .chead), pc := upd s.pc t .idle
        own := upd s.own v (some t), de := upd s.de c (t, v) }
    -- lines 433-434, 467-473
    else if s.mem.last .chead = c then
      some { s with
        mem := s.mem.rmw q .chead (c + 1), th := upd s.th t (q.rmw s.mem .chead), pc := upd s.pc t .idle
        own := upd s.own v (some t), de := upd s.de c (t, v) }
    else
      let q := q.load s.mem .chead (s.mem.top .chead)
      if tr then some { s with th := upd s.th t q, pc := upd s.pc t .idle }
      else some { s with th := upd s.th t (opt fc.deq1 Th.fenceLoad q), pc := upd s.pc t (.dP tr (s.mem.last .chead)) }

def step (g : Cfg n) (fc : Fences) (s : St n) : Act n → Option (St n)
  | .enq t v =>
    if s.pc t = .idle ∧ s.own v = some t ∧ (g.sp = none ∨ g.sp = some t) then
      some { s with pc := upd s.pc t (if g.sp = none then .eP v else .eQ v) }
    else none
  -- line 228: `c_head` is the consumer's own
  | .deq t tr =>
    if s.pc t = .idle ∧ (g.sc = none ∨ g.sc = some t) then
      some { s with pc := upd s.pc t (if g.sc = none then .dC tr else .dP tr (s.mem.last .chead)) }
    else none
  | .run t i => run g fc s t i
  | .fill t x v =>
    if s.pc t = .idle ∧ s.own x = some t then
      some { s with mem := s.mem.store (s.th t) (.dat x) v, th := upd s.th t ((s.th t).store s.mem (.dat x)) }
    else none
  | .look t x i =>
    if s.pc t = .idle ∧ s.own x = some t ∧ (s.th t).may s.mem (.dat x) i then some { s with th := upd s.th t ((s.th t).load s.mem (.dat x) i) } else none

def sys (g : Cfg n) (fc : Fences) : Sys (St n) (Act n) := { init := fun s => ∃ o e, s = initSt o e, step := step g fc }

end Verif.Weak.Mpmc
