import Verif.Core.Tactic
import Verif.Core.Count
import Verif.Core.Spec

/-!
# `ck_cohort` (model), `include/ck_cohort.h`

The local and global locks are parameters of the C macros.  Here they are abstract correct locks:
acquisition is one step that is enabled only when the lock is free; a trylock may fail at any time
but succeeds only on a free lock.  The owner stored in `loc` and the cohort stored in `glob` are
bookkeeping: an acquisition only tests for `none`, and the global lock may be released by another
thread of the cohort than the one that took it (as the algorithm requires).
All accesses to the cohort structure are single steps.  `th t` is the program counter of thread `t`
and the cohort it was called with.
-/

namespace Verif.Cohort

open Verif

inductive PC
  | idle
  | lInc | lLL | lDec | lSt | lGL | lAcq            -- lock, lines 77-91
  | tInc | tLTL | tDec (ok : Bool) | tSt | tGTL | tLU | tAcq   -- trylock, lines 125-150
  | crit
  | uChk | uLocal | uGU | uSt | uAcq | uLU          -- unlock, lines 93-112
  deriving DecidableEq

structure Th (m : Nat) where
  pc : PC
  c : Fin m

structure St (m n : Nat) where
  glob : Option (Fin m)
  loc : Fin m → Option (Fin n)
  /-- `release_state = CK_COHORT_STATE_LOCAL` -/
  st : Fin m → Bool
  wait : Fin m → BitVec 32
  acq : Fin m → BitVec 32
  th : Fin n → Th m

inductive Act (m n : Nat)
  | lock (t : Fin n) (c : Fin m)
  | trylock (t : Fin n) (c : Fin m)
  | unlock (t : Fin n)
  | run (t : Fin n) (ok : Bool)
  deriving DecidableEq

variable {m n : Nat}

/-- `goto` for thread `t`. -/
def St.go (s : St m n) (t : Fin n) (p : PC) : St m n :=
  { s with th := upd s.th t { pc := p, c := (s.th t).c } }

/-- lines 62-75, for every cohort. -/
def initSt (m n : Nat) (c0 : Fin n → Fin m) : St m n :=
  { glob := none, loc := fun _ => none, st := fun _ => false, wait := fun _ => 0, acq := fun _ => 0,
    th := fun t => { pc := .idle, c := c0 t } }

/-- `lim` is `local_pass_limit`; `tryOk` says whether clients use trylock. -/
def step (lim : Fin m → BitVec 32) (tryOk : Bool) (s : St m n) : Act m n → Option (St m n)
  | .lock t c =>
    if (s.th t).pc = .idle then some { s with th := upd s.th t { pc := .lInc, c := c } } else none
  | .trylock t c =>
    if tryOk = true ∧ (s.th t).pc = .idle then
      some { s with th := upd s.th t { pc := .tInc, c := c } } else none
  | .unlock t => if (s.th t).pc = .crit then some (s.go t .uChk) else none
  | .run t ok =>
    let c := (s.th t).c
    match (s.th t).pc with
    -- lines 82-90
    | .lInc => some { s.go t .lLL with wait := upd s.wait c (s.wait c + 1) }
    | .lLL => if s.loc c = none then some { s.go t .lDec with loc := upd s.loc c (some t) } else none
    | .lDec => some { s.go t .lSt with wait := upd s.wait c (s.wait c - 1) }
    | .lSt => if s.st c then some (s.go t .lAcq) else some (s.go t .lGL)
    | .lGL => if s.glob = none then some { s.go t .lAcq with glob := some c } else none
    | .lAcq => some { s.go t .crit with acq := upd s.acq c (s.acq c + 1) }
    -- lines 132-149
    | .tInc => some { s.go t .tLTL with wait := upd s.wait c (s.wait c + 1) }
    | .tLTL =>
      if ok = true ∧ s.loc c = none then
        some { s.go t (.tDec true) with loc := upd s.loc c (some t) }
      else some (s.go t (.tDec false))
    | .tDec true => some { s.go t .tSt with wait := upd s.wait c (s.wait c - 1) }
    | .tDec false => some { s.go t .idle with wait := upd s.wait c (s.wait c - 1) }
    | .tSt => if s.st c then some (s.go t .tAcq) else some (s.go t .tGTL)
    | .tGTL =>
      if ok = true ∧ s.glob = none then some { s.go t .tAcq with glob := some c }
      else some (s.go t .tLU)
    | .tLU => some { s.go t .idle with loc := upd s.loc c none }
    | .tAcq => some { s.go t .crit with acq := upd s.acq c (s.acq c + 1) }
    -- lines 98-110
    | .uChk =>
      if 0 < s.wait c ∧ s.acq c < lim c then some (s.go t .uLocal) else some (s.go t .uGU)
    | .uLocal => some { s.go t .uLU with st := upd s.st c true }
    | .uGU => some { s.go t .uSt with glob := none }
    | .uSt => some { s.go t .uAcq with st := upd s.st c false }
    | .uAcq => some { s.go t .uLU with acq := upd s.acq c 0 }
    | .uLU => some { s.go t .idle with loc := upd s.loc c none }
    | _ => none

def sys (lim : Fin m → BitVec 32) (tryOk : Bool) : Sys (St m n) (Act m n) :=
  { init := fun s => ∃ c0, s = initSt m n c0, step := step lim tryOk }

/-- Holds the cohort lock: after lock (or a successful trylock) returned, before unlock is called. -/
def St.inside (s : St m n) (t : Fin n) : Prop := (s.th t).pc = .crit

end Verif.Cohort
