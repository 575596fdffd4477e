import Verif.Core.Tactic
import Verif.Core.Spec

/-!
# `ck_barrier_mcs` (model), `src/ck_barrier_mcs.c`

A sense is one of the two words `0` and `~0`, here a `Bool`; `childnotready` words likewise.  The words
are addressed by thread (and slot) instead of by pointer; stores to `dummy` have no effect.  `e t` counts
the calls of participant `t`, `r t` its returns (bookkeeping).  Every participant has subscribed (its
`vpid` is its index).  The shifts of `init` are on naturals: `nthr ≤ 2 ^ 30`.
-/

namespace Verif.Barrier.Mcs

open Verif

inductive PC
  | idle
  | chk (k : Nat)   -- lines 88-95, load of slot k; a non-zero slot restarts the loop of line 120
  | rei (k : Nat)   -- lines 104-107, store to slot k
  | par             -- line 127
  | pwait           -- line 131
  | wk (b : Nat)    -- lines 136-137
  deriving DecidableEq

structure Th where
  pc : PC
  sense : Bool
  e : Nat
  r : Nat

structure St (n : Nat) where
  /-- `childnotready[k]` of thread `i` -/
  nr : Nat → Nat → Bool
  /-- `parentsense` of thread `i` -/
  ps : Nat → Bool
  th : Fin n → Th

inductive Act (n : Nat)
  | call (t : Fin n)
  | run (t : Fin n)
  deriving DecidableEq

variable {n : Nat}

/-- `havechild`, line 46. -/
def have_ (n i k : Nat) : Bool := decide (4 * i + k < n - 1)

/-- `ck_barrier_mcs_init` (lines 33-73) and `subscribe` (lines 75-82). -/
def initSt (n : Nat) : St n :=
  { nr := have_ n, ps := fun _ => false, th := fun _ => { pc := .idle, sense := true, e := 0, r := 0 } }

def set2 (f : Nat → Nat → Bool) (i k : Nat) (v : Bool) : Nat → Nat → Bool :=
  fun i' k' => if i' = i ∧ k' = k then v else f i' k'

/-- `ck_barrier_mcs`, lines 111-141. -/
def step (s : St n) : Act n → Option (St n)
  | .call t =>
    if (s.th t).pc = .idle then some { s with th := upd s.th t { s.th t with pc := .chk 0, e := (s.th t).e + 1 } }
    else none
  | .run t => match (s.th t).pc with
    | .idle => none
    | .chk k =>
      if s.nr t k then some { s with th := upd s.th t { s.th t with pc := .chk 0 } }
      else some { s with th := upd s.th t { s.th t with pc := if k < 3 then .chk (k + 1) else .rei 0 } }
    | .rei k =>
      some { s with nr := set2 s.nr t k (have_ n t k)
                    th := upd s.th t { s.th t with pc := if k < 3 then .rei (k + 1) else .par } }
    -- `parent` (lines 56-58); the root skips the wait of lines 130-133
    | .par =>
      if (t : Nat) = 0 then some { s with th := upd s.th t { s.th t with pc := .wk 0 } }
      else some { s with nr := set2 s.nr ((t - 1) / 4) ((t - 1) % 4) false
                         th := upd s.th t { s.th t with pc := .pwait } }
    | .pwait =>
      if s.ps t ≠ (s.th t).sense then some s
      else some { s with th := upd s.th t { s.th t with pc := .wk 0 } }
    -- `children[b]` (lines 61-67); line 138 after the second store
    | .wk b =>
      let ps' := if 2 * (t : Nat) + 1 + b ≥ n then s.ps else upd s.ps (2 * t + 1 + b) (s.th t).sense
      if b = 0 then some { s with ps := ps', th := upd s.th t { s.th t with pc := .wk 1 } }
      else some { s with ps := ps'
                         th := upd s.th t { s.th t with pc := .idle, sense := !(s.th t).sense,
                                                        r := (s.th t).r + 1 } }

def sys (n : Nat) : Sys (St n) (Act n) := { init := (· = initSt n), step := step }

end Verif.Barrier.Mcs
