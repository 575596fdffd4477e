import Verif.Weak.Fas

/-!
# Hazard pointers on relaxed memory (C75), `include/ck_hp.h`, `src/ck_hp.c`

`n` threads with one hazard pointer each (`degree` 1), `m` shared pointers (`cell c`), nodes numbered by `Nat`; memory of a destroyed
node may be allocated again.  Threads protect, unlink, retire and reclaim in any order.  Loads return any value the memory
model allows.  There is no fence in `ck_hp_free`, `ck_hp_purge` and `ck_hp_reclaim` between the caller's unlinking and the
loads of the hazard pointers: `fc.scan` is one the caller may have put before the call.

Simplified: the records of all threads are registered before; the cache of hazards (lines 194-227) and the slow path behind it
(lines 165-187) are represented by what they have found out (`ev`).
-/

namespace Verif.Weak.Hp

open Verif
open Verif.Weak.Fas (opt)

inductive Loc (n m : Nat)
  | cell (c : Fin m)
  | hz (t : Fin n)
deriving DecidableEq

structure Fences where
  /-- include/ck_hp.h line 93 -/
  rd : Bool
  /-- a full fence by the caller before reclaiming -/
  scan : Bool

/-- The code as it is. -/
def real : Fences := { rd := true, scan := false }

/-- The code, if the callers put a full fence before `ck_hp_free`, `ck_hp_reclaim` and `ck_hp_purge`. -/
def fenced : Fences := { rd := true, scan := true }

/-- What the client of `ck_hp_set_fence` does, e.g. include/ck_hp_stack.h lines 59-81. -/
inductive PC (m : Nat)
  | idle
  /-- has loaded pointer `v` from cell `c` -/
  | got (c : Fin m) (v : Nat)
  /-- has stored it as hazard pointer, ck_hp.h line 92 -/
  | fen (c : Fin m) (v : Nat)
  /-- about to load the cell again, ck_hp_stack.h line 65 -/
  | chk (c : Fin m) (v : Nat)
  /-- has found the same pointer there, and uses the node -/
  | prot (v : Nat)
deriving DecidableEq

/-- May look for another pointer. -/
def PC.free {m : Nat} : PC m → Bool
  | .idle | .prot _ => true
  | _ => false

/-- Ghost state of a node. -/
inductive NS (n : Nat)
  | free
  | alive
  /-- passed to `ck_hp_free` or `ck_hp_retire` by that thread -/
  | ret (w : Fin n)
deriving DecidableEq

structure TS (n m : Nat) where
  th : Th (Loc n m)
  pc : PC m
  /-- in `ck_hp_reclaim` -/
  scan : Bool
  /-- `ev v u`: the hazard pointer of thread `u` was not found to be `v` -/
  ev : Nat → Fin n → Bool

structure St (n m : Nat) where
  mem : Mem (Loc n m) (Option Nat)
  sc : View (Loc n m)
  ts : Fin n → TS n m
  ns : Nat → NS n

inductive Act (n m : Nat)
  | load (t : Fin n) (c : Fin m) (i : Nat)
  | set (t : Fin n)
  | fence (t : Fin n)
  | check (t : Fin n) (i : Nat)
  | clear (t : Fin n)
  | alloc (v : Nat)
  | swap (t : Fin n) (c : Fin m) (v : Option Nat)
  | look (t : Fin n) (c : Fin m) (i : Nat)
  | retire (t : Fin n) (v : Nat)
  | scan (t : Fin n)
  | hazard (t u : Fin n) (i : Nat)
  | destroy (t : Fin n) (v : Nat)
  | leave (t : Fin n)

def initSt (n m : Nat) : St n m :=
  { mem := Mem.init fun _ => none, sc := fun _ => 0
    ts := fun _ => { th := Th.init, pc := .idle, scan := false, ev := fun _ _ => false }, ns := fun _ => .free }

/-- All pointers to `v` ever stored in a cell are known to the thread to be overwritten. -/
def Unlinked {n m : Nat} (mem : Mem (Loc n m) (Option Nat)) (k : View (Loc n m)) (v : Nat) : Prop :=
  ∀ c : Fin m, ∀ i, i < mem.top (.cell c) + 1 → (mem.msg (.cell c) i).val = some v → i + 1 ≤ k (.cell c)

instance {n m : Nat} (mem : Mem (Loc n m) (Option Nat)) (k : View (Loc n m)) (v : Nat) : Decidable (Unlinked mem k v) := by
  unfold Unlinked; infer_instance

/-- `NULL`, or a pointer to a node that was not retired. -/
def usable {n : Nat} (ns : Nat → NS n) : Option Nat → Bool
  | none => true
  | some w => decide (ns w = .alive)

/-- Reader: include/ck_hp.h lines 85-109 in the loop of include/ck_hp_stack.h lines 59-65.  Writer: src/ck_hp.c lines 229-330. -/
def step {n m : Nat} (fc : Fences) (s : St n m) : Act n m → Option (St n m)
  -- ck_hp_stack.h line 60
  | .load t c i =>
    if (s.ts t).pc.free = true ∧ (s.ts t).th.may s.mem (.cell c) i then
      some { s with ts := upd s.ts t { s.ts t with
        th := (s.ts t).th.load s.mem (.cell c) i
        pc := match (s.mem.msg (.cell c) i).val with
          | some v => .got c v
          | none => .idle } }
    else none
  -- ck_hp.h line 92
  | .set t =>
    match (s.ts t).pc with
    | .got c v => some { s with
        mem := s.mem.store (s.ts t).th (.hz t) (some v)
        ts := upd s.ts t { s.ts t with th := (s.ts t).th.store s.mem (.hz t), pc := .fen c v } }
    | _ => none
  -- ck_hp.h line 93
  | .fence t =>
    match (s.ts t).pc with
    | .fen c v =>
      if fc.rd then
        some { s with
          sc := (s.ts t).th.fenceSc s.sc, ts := upd s.ts t { s.ts t with th := (s.ts t).th.fence s.sc, pc := .chk c v } }
      else some { s with ts := upd s.ts t { s.ts t with pc := .chk c v } }
    | _ => none
  -- ck_hp_stack.h line 65
  | .check t i =>
    match (s.ts t).pc with
    | .chk c v =>
      if (s.ts t).th.may s.mem (.cell c) i then
        some { s with ts := upd s.ts t { s.ts t with
          th := (s.ts t).th.load s.mem (.cell c) i
          pc := match (s.mem.msg (.cell c) i).val with
            | some v' => if v' = v then .prot v else .got c v'
            | none => .idle } }
      else none
    | _ => none
  -- ck_hp.h lines 99-109, or line 81 with `NULL`
  | .clear t => some { s with
      mem := s.mem.store (s.ts t).th (.hz t) none
      ts := upd s.ts t { s.ts t with th := (s.ts t).th.store s.mem (.hz t), pc := .idle } }
  -- the client allocates a node
  | .alloc v => if s.ns v = .free then some { s with ns := upd s.ns v .alive } else none
  -- the client stores a pointer to a node it may use, or `NULL`, in a cell, e.g. ck_hp_stack.h line 67 or ck_stack.h line 62
  | .swap t c v =>
    if usable s.ns v = true then
      some { s with
        mem := s.mem.rmw (s.ts t).th (.cell c) v
        ts := upd s.ts t { s.ts t with th := (s.ts t).th.rmw s.mem (.cell c) } }
    else none
  -- the client loads a cell for other purposes
  | .look t c i =>
    if (s.ts t).th.may s.mem (.cell c) i then
      some { s with ts := upd s.ts t { s.ts t with th := (s.ts t).th.load s.mem (.cell c) i } }
    else none
  -- lines 293-309 or 311-326; contract: the node has been unlinked
  | .retire t v =>
    if s.ns v = .alive ∧ (s.ts t).scan = false ∧ Unlinked s.mem (s.ts t).th.cur v then
      some { s with ns := upd s.ns v (.ret t) }
    else none
  -- line 239
  | .scan t =>
    if (s.ts t).scan = false then
      if fc.scan then
        some { s with
          sc := (s.ts t).th.fenceSc s.sc
          ts := upd s.ts t { s.ts t with th := (s.ts t).th.fence s.sc, scan := true, ev := fun _ _ => false } }
      else some { s with ts := upd s.ts t { s.ts t with scan := true, ev := fun _ _ => false } }
    else none
  -- line 218 or 180, loading value `i` of the hazard pointer of `u`
  | .hazard t u i =>
    if (s.ts t).scan = true ∧ (s.ts t).th.may s.mem (.hz u) i then
      some { s with ts := upd s.ts t { s.ts t with
        th := (s.ts t).th.load s.mem (.hz u) i
        ev := fun v w => if w = u then (if (s.mem.msg (.hz u) i).val = some v then (s.ts t).ev v w else true)
          else (s.ts t).ev v w } }
    else none
  -- line 286
  | .destroy t v =>
    if (s.ts t).scan = true ∧ s.ns v = .ret t ∧ ∀ u, (s.ts t).ev v u = true then some { s with ns := upd s.ns v .free }
    else none
  -- line 290
  | .leave t => if (s.ts t).scan = true then some { s with ts := upd s.ts t { s.ts t with scan := false } } else none

def sys (fc : Fences) (n m : Nat) : Sys (St n m) (Act n m) := { init := (· = initSt n m), step := step fc }

end Verif.Weak.Hp
