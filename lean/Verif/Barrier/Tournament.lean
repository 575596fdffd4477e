import Verif.Core.Tactic
import Verif.Core.Spec
import Verif.Misc.Internal

/-!
# `ck_barrier_tournament` (model), `src/ck_barrier_tournament.c`

A sense is one of the two words `0` and `~0`, here a `Bool`.  The flag words are addressed by thread
and round instead of by pointer.  `e t` counts the calls of participant `t`, `r t` its returns
(bookkeeping).  Every participant has subscribed (its `vpid` is its index).
-/

namespace Verif.Barrier.Tournament

open Verif

/-- `ck_barrier_tournament_size`, lines 101-106. -/
def size (n : Nat) : Nat := (Internal.log (Internal.power2 (BitVec.ofNat 32 n))).toNat + 1

/-- Lines 41-47. -/
inductive Role | bye | champion | dropout | loser | winner
  deriving DecidableEq

/-- Roles set by `ck_barrier_tournament_init`, lines 69-88 (`rounds[i]` has `size` entries); `none` is a role the initialization leaves
unset.  `2 ^ k` is `twok`, `2 ^ (k - 1)` is `twokm1`. -/
def role (n i k : Nat) : Option Role :=
  if k ≥ size n then none
  else if k = 0 then some .dropout
  else if i &&& (2 ^ k - 1) = 2 ^ (k - 1) then some .loser
  else if i = 0 ∧ 2 ^ k ≥ n then some .champion
  else if i &&& (2 ^ k - 1) = 0 then
    if i + 2 ^ (k - 1) < n ∧ 2 ^ k < n then some .winner
    else if i + 2 ^ (k - 1) ≥ n then some .bye
    else none
  else none

/-- The thread whose round-`k` flag `opponent` points to, lines 89-93. -/
def opponent (n i k : Nat) : Nat :=
  if role n i k = some .loser then i - 2 ^ (k - 1) else i + 2 ^ (k - 1)

inductive PC
  | idle
  | up (k : Nat)     -- the switch of line 119; for a winner or champion also its spin (lines 127, 150)
  | cst (k : Nat)    -- line 130, champion's store
  | lwait (k : Nat)  -- line 141, loser's spin
  | down (k : Nat)   -- the switch of line 158
  deriving DecidableEq

structure Th where
  pc : PC
  sense : Bool
  e : Nat
  r : Nat

structure St (n : Nat) where
  flag : Nat → Nat → Bool
  th : Fin n → Th

inductive Act (n : Nat)
  | call (t : Fin n)
  | run (t : Fin n)
  deriving DecidableEq

variable {n : Nat}

/-- `init` (flags: lines 71, 74) and `subscribe` (lines 49-57). -/
def initSt (n : Nat) : St n :=
  { flag := fun _ _ => false, th := fun _ => { pc := .idle, sense := true, e := 0, r := 0 } }

def setFlag (f : Nat → Nat → Bool) (i k : Nat) (v : Bool) : Nat → Nat → Bool :=
  fun i' k' => if i' = i ∧ k' = k then v else f i' k'

/-- Reading an unset role has no successor. -/
def step (s : St n) : Act n → Option (St n)
  -- lines 112-116
  | .call t =>
    if (s.th t).pc = .idle then
      if size n = 1 then
        some { s with th := upd s.th t { s.th t with e := (s.th t).e + 1, r := (s.th t).r + 1 } }
      else
        some { s with th := upd s.th t { s.th t with pc := .up 1, e := (s.th t).e + 1 } }
    else none
  | .run t => match (s.th t).pc with
    | .up k => match role n t k with
      | some .bye => some { s with th := upd s.th t { s.th t with pc := .up (k + 1) } }
      | some .champion =>
        if s.flag t k ≠ (s.th t).sense then some s
        else some { s with th := upd s.th t { s.th t with pc := .cst k } }
      | some .dropout => some { s with th := upd s.th t { s.th t with pc := .up (k + 1) } }
      | some .loser =>
        some { flag := setFlag s.flag (opponent n t k) k (s.th t).sense
               th := upd s.th t { s.th t with pc := .lwait k } }
      | some .winner =>
        if s.flag t k ≠ (s.th t).sense then some s
        else some { s with th := upd s.th t { s.th t with pc := .up (k + 1) } }
      | none => none
    | .cst k =>
      some { flag := setFlag s.flag (opponent n t k) k (s.th t).sense
             th := upd s.th t { s.th t with pc := .down (k - 1) } }
    | .lwait k =>
      if s.flag t k ≠ (s.th t).sense then some s
      else some { s with th := upd s.th t { s.th t with pc := .down (k - 1) } }
    | .down k => match role n t k with
      | some .winner =>
        some { flag := setFlag s.flag (opponent n t k) k (s.th t).sense
               th := upd s.th t { s.th t with pc := .down (k - 1) } }
      | some .dropout =>
        -- lines 164-165, 180-183
        some { s with th := upd s.th t { s.th t with pc := .idle, sense := !(s.th t).sense,
                                                     r := (s.th t).r + 1 } }
      | some _ => some { s with th := upd s.th t { s.th t with pc := .down (k - 1) } }
      | none => none
    | .idle => none

def sys (n : Nat) : Sys (St n) (Act n) := { init := (· = initSt n), step := step }

end Verif.Barrier.Tournament
