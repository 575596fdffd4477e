import Verif.Core.Tactic
import Verif.Core.Spec

/-!
# `ck_barrier_combining` (model), `src/ck_barrier_combining.c`

Groups are numbered in the order of their initialization, the group given to `ck_barrier_combining_init`
being `0`.  A sense is one of the two words `0` and `~0`, here a `Bool`; `count` and `k` stay below
`2 ^ 32` and are naturals.  The tree is built under a spin lock (C01), so `group_init` is one step.
-/

namespace Verif.Barrier.Combining

open Verif

/-! ## Building the tree -/

/-- `struct ck_barrier_combining_group`, the fields used for the tree (`include/ck_barrier.h:50-58`). -/
structure Node where
  k : Nat
  parent : Option Nat
  left : Option Nat
  right : Option Nat

/-- `ck_barrier_combining_init`, lines 143-155 (other indices are not yet groups). -/
def initRoot : Nat → Node := fun _ => { k := 0, parent := none, left := none, right := none }

/-- `ck_barrier_combining_insert`, lines 51-67, at the left child. -/
def insertLeft (h : Nat → Node) (p m : Nat) : Nat → Node :=
  let h1 := upd h p { h p with left := some m }
  let h2 := upd h1 m { h1 m with parent := some p }
  upd h2 p { h2 p with k := (h2 p).k + 1 }

/-- `ck_barrier_combining_insert`, lines 51-67, at the right child. -/
def insertRight (h : Nat → Node) (p m : Nat) : Nat → Node :=
  let h1 := upd h p { h p with right := some m }
  let h2 := upd h1 m { h1 m with parent := some p }
  upd h2 p { h2 p with k := (h2 p).k + 1 }

/-- The loop of `ck_barrier_combining_group_init`, lines 115-136; the queue (lines 38-49, 75-90) is a
list.  `fuel` bounds the iterations; running out of it is `none`. -/
def place (h : Nat → Node) (m : Nat) : Nat → List Nat → Option (Nat → Node)
  | 0, _ => none
  | _ + 1, [] => some h
  | fuel + 1, p :: q =>
    match (h p).left, (h p).right with
    | none, _ => some (insertLeft h p m)
    | some _, none => some (insertRight h p m)
    | some l, some r => place h m fuel (q ++ [l, r])

/-- `ck_barrier_combining_group_init` of the group number `m` for `nthr` threads, lines 93-141. -/
def groupInit (h : Nat → Node) (m nthr : Nat) : Option (Nat → Node) :=
  place (upd h m { k := nthr, parent := none, left := none, right := none }) m (m + 1) [0]

/-- Initialization of a barrier with groups `1 … m` of sizes `sz 1 … sz m`. -/
def build (sz : Nat → Nat) : Nat → Option (Nat → Node)
  | 0 => some initRoot
  | m + 1 => (build sz m).bind fun h => groupInit h (m + 1) (sz (m + 1))

/-! ## The barrier -/

/-- A barrier: its groups, the tree and the group each thread passes. -/
structure Cfg (n G : Nat) where
  parent : Fin G → Option (Fin G)
  k : Fin G → Nat
  grp : Fin n → Fin G

inductive PC (G : Nat)
  | idle
  | up (g : Fin G)     -- line 167
  | wait (g : Fin G)   -- line 188
  | rel0 (g : Fin G)   -- line 184
  | relS (g : Fin G)   -- line 186 (the thread is the only writer of this sense)
  deriving DecidableEq

/-- `st`: the pending recursive calls (line 173), innermost first. -/
structure Th (G : Nat) where
  pc : PC G
  st : List (Fin G)
  sense : Bool
  e : Nat
  r : Nat

/-- `e`, `r` in the threads and `nf` (sense flips), `us` (arrivals at the parent), `own` (thread that
completed the group) are bookkeeping. -/
structure St (n G : Nat) where
  count : Fin G → Nat
  sense : Fin G → Bool
  nf : Fin G → Nat
  us : Fin G → Nat
  own : Fin G → Option (Fin n)
  th : Fin n → Th G

inductive Act (n : Nat)
  | call (t : Fin n)
  | run (t : Fin n)
  deriving DecidableEq

variable {n G : Nat}

/-- Lines 103-106, 148-151 and `CK_BARRIER_COMBINING_STATE_INITIALIZER`. -/
def initSt (n G : Nat) : St n G :=
  { count := fun _ => 0, sense := fun _ => false, nf := fun _ => 0, us := fun _ => 0, own := fun _ => none
    th := fun _ => { pc := .idle, st := [], sense := true, e := 0, r := 0 } }

/-- Return from `ck_barrier_combining_aux` (line 193): to the caller's line 184, or out of
`ck_barrier_combining` (line 205). -/
def leave (x : Th G) : Th G := match x.st with
  | [] => { x with pc := .idle, sense := !x.sense, r := x.r + 1 }
  | c :: st => { x with pc := .rel0 c, st := st }

def bump (us : Fin G → Nat) : List (Fin G) → Fin G → Nat
  | [] => us
  | c :: _ => upd us c (us c + 1)

/-- `ck_barrier_combining_aux`, lines 157-194, and `ck_barrier_combining`, lines 196-207. -/
def step (cfg : Cfg n G) (s : St n G) : Act n → Option (St n G)
  | .call t =>
    if (s.th t).pc = .idle then
      some { s with th := upd s.th t { s.th t with pc := .up (cfg.grp t), e := (s.th t).e + 1 } }
    else none
  | .run t => match (s.th t).pc with
    | .idle => none
    | .up h =>
      if s.count h + 1 = cfg.k h then
        some { s with count := upd s.count h (s.count h + 1), us := bump s.us (s.th t).st
                      own := upd s.own h (some t)
                      th := upd s.th t (match cfg.parent h with
                        | some p => { s.th t with pc := .up p, st := h :: (s.th t).st }
                        | none => { s.th t with pc := .rel0 h }) }
      else
        some { s with count := upd s.count h (s.count h + 1), us := bump s.us (s.th t).st
                      th := upd s.th t { s.th t with pc := .wait h } }
    | .wait h =>
      if (s.th t).sense ≠ s.sense h then some s
      else some { s with th := upd s.th t (leave (s.th t)) }
    | .rel0 h => some { s with count := upd s.count h 0, th := upd s.th t { s.th t with pc := .relS h } }
    | .relS h =>
      some { s with sense := upd s.sense h (!s.sense h), nf := upd s.nf h (s.nf h + 1)
                    own := upd s.own h none, th := upd s.th t (leave (s.th t)) }

def sys (cfg : Cfg n G) : Sys (St n G) (Act n) := { init := (· = initSt n G), step := step cfg }

end Verif.Barrier.Combining
