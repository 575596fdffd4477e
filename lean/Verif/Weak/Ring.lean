import Verif.Core.Weak

/-!
# `ck_ring`, one producer and one consumer, on relaxed memory (C70), `include/ck_ring.h`

The ring has `2 ^ k` slots, the counters are words of 32 bits.  Loads return any value the memory model allows.  The producer
also stores to memory of its own (`usr`, what the enqueued pointers lead to).  `fc` tells which fences exist;
all of them do in the code.  Bookkeeping that no program step reads: `np`, `nc` count enqueued and dequeued values,
`E`, `D` are these values, `pub i` is how much of `usr` the producer had stored when it enqueued value `i`.
-/

namespace Verif.Weak.Ring

open Verif

inductive Loc
  | ptail
  | chead
  | slot (i : Nat)
  | usr (x : Nat)
deriving DecidableEq

/-- The fences of lines 199 and 238 of `include/ck_ring.h`. -/
structure Fences where
  enq : Bool
  deq : Bool

def real : Fences := { enq := true, deq := true }

inductive PPC
  | idle
  /-- line 193: there is room, about to store the value -/
  | store (v : Nat)
  /-- line 200: about to store `p_tail` -/
  | commit (v : Nat)
deriving DecidableEq

inductive CPC
  | idle
  /-- line 241: about to load the slot -/
  | copy
  /-- line 248: about to store `c_head` -/
  | commit (v : Nat)
deriving DecidableEq

structure St where
  mem : Mem Loc Nat
  p : Th Loc
  c : Th Loc
  ppc : PPC
  cpc : CPC
  np : Nat
  nc : Nat
  E : Nat → Nat
  D : Nat → Nat
  pub : Nat → Nat → Nat

inductive Act
  /-- the producer stores to its own memory -/
  | usr (x v : Nat)
  /-- lines 183-190, loading value `i` of `c_head` -/
  | enq (v i : Nat)
  | store
  | publish
  /-- lines 228-238, loading value `i` of `p_tail` -/
  | deq (i : Nat)
  /-- line 241, loading value `i` of the slot -/
  | copy (i : Nat)
  | consume

/-- A fence that may be missing. -/
def opt {L : Type} (b : Bool) (f : Th L → Th L) (t : Th L) : Th L := if b then f t else t

/-- Lines 119-129. -/
def initSt : St :=
  { mem := Mem.init fun _ => 0, p := Th.init, c := Th.init, ppc := .idle, cpc := .idle, np := 0, nc := 0
    E := fun _ => 0, D := fun _ => 0, pub := fun _ _ => 0 }

/-- `producer & mask` -/
def at_ (k n : Nat) : Nat := (n % 2 ^ 32) &&& (2 ^ k - 1)

def step (k : Nat) (fc : Fences) (s : St) : Act → Option St
  | .usr x v =>
    if s.ppc = .idle then some { s with mem := s.mem.store s.p (.usr x) v, p := s.p.store s.mem (.usr x) } else none
  -- lines 183-190; the producer is the only one to store `p_tail`, so it loads its own last store
  | .enq v i =>
    if s.ppc = .idle ∧ s.p.may s.mem .chead i then
      if at_ k (s.np + 1) = (s.mem.msg .chead i).val &&& (2 ^ k - 1) then some { s with p := s.p.load s.mem .chead i }
      else some { s with p := s.p.load s.mem .chead i, ppc := .store v }
    else none
  -- lines 192-193
  | .store => match s.ppc with
    | .store v =>
      some { s with
        mem := s.mem.store s.p (.slot (at_ k s.np)) v, p := s.p.store s.mem (.slot (at_ k s.np)), ppc := .commit v }
    | _ => none
  -- lines 199-200
  | .publish => match s.ppc with
    | .commit v =>
      some { s with
        mem := s.mem.store (opt fc.enq Th.fenceStore s.p) .ptail ((s.np + 1) % 2 ^ 32)
        p := (opt fc.enq Th.fenceStore s.p).store s.mem .ptail, ppc := .idle
        np := s.np + 1, E := upd s.E s.np v, pub := upd s.pub s.np fun x => s.mem.top (.usr x) }
    | _ => none
  | .deq i =>
    if s.cpc = .idle ∧ s.c.may s.mem .ptail i then
      if s.nc % 2 ^ 32 = (s.mem.msg .ptail i).val then some { s with c := s.c.load s.mem .ptail i }
      else some { s with c := opt fc.deq Th.fenceLoad (s.c.load s.mem .ptail i), cpc := .copy }
    else none
  | .copy i => match s.cpc with
    | .copy =>
      if s.c.may s.mem (.slot (at_ k s.nc)) i then
        some { s with
          c := s.c.load s.mem (.slot (at_ k s.nc)) i, cpc := .commit (s.mem.msg (.slot (at_ k s.nc)) i).val }
      else none
    | _ => none
  -- lines 247-248
  | .consume => match s.cpc with
    | .commit v =>
      some { s with
        mem := s.mem.store s.c.fenceStore .chead ((s.nc + 1) % 2 ^ 32)
        c := s.c.fenceStore.store s.mem .chead, cpc := .idle
        nc := s.nc + 1, D := upd s.D s.nc v }
    | _ => none

def sys (k : Nat) (fc : Fences) : Sys St Act := { init := (· = initSt), step := step k fc }

end Verif.Weak.Ring
