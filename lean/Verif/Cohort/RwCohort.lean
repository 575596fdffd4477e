import Verif.Cohort.Cohort

/-!
# `ck_rwcohort` (model), `include/ck_rwcohort.h`

The three variants are built on the step-level model of the cohort lock (`Verif.Cohort`): while a
thread is inside CK_COHORT_LOCK or CK_COHORT_UNLOCK its steps are the steps of that model.
CK_COHORT_LOCKED (`ck_cohort.h` 114-120) is two loads: first the local lock of the caller's cohort,
then the global lock.  The C macro passes the local lock to `GI` and the global lock to `LI`; the
model assumes both lock types answer `locked` for the lock they are given (true when the two lock
types are the same).  A lock may report `locked` although it is free (`ok = false`), but never free
while it is held.
-/

namespace Verif.RwCohort

open Verif

variable {m n : Nat}

/-- The `locked` query of an abstract lock that is held iff `held`. -/
def locked (held ok : Bool) : Bool := held || !ok

inductive Act (m n : Nat)
  | wlock (t : Fin n) (c : Fin m)
  | wunlock (t : Fin n)
  | rlock (t : Fin n) (c : Fin m)
  | runlock (t : Fin n)
  | run (t : Fin n) (ok : Bool)
  deriving DecidableEq

/-- The state of all variants; `bar` is `write_barrier` (WP) or `read_barrier` (RP), unused in
NEUTRAL. -/
structure St (m n : Nat) (Q : Type) where
  coh : Cohort.St m n
  rc : BitVec 32
  bar : BitVec 32
  pc : Fin n → Q
  /-- cohort argument of the call in progress -/
  c : Fin n → Fin m
  /-- local `wait_count` -/
  wc : Fin n → BitVec 32
  /-- local `raised` -/
  raised : Fin n → Bool

variable {Q : Type}

def St.go (s : St m n Q) (t : Fin n) (p : Q) : St m n Q := { s with pc := upd s.pc t p }

/-- Start CK_COHORT_LOCK / CK_COHORT_UNLOCK and continue at `p`. -/
def St.callLock (lim : Fin m → BitVec 32) (s : St m n Q) (t : Fin n) (p : Q) :
    Option (St m n Q) :=
  match Cohort.step lim false s.coh (.lock t (s.c t)) with
  | none => none
  | some k => some { s with coh := k, pc := upd s.pc t p }

def St.callUnlock (lim : Fin m → BitVec 32) (s : St m n Q) (t : Fin n) (p : Q) :
    Option (St m n Q) :=
  match Cohort.step lim false s.coh (.unlock t) with
  | none => none
  | some k => some { s with coh := k, pc := upd s.pc t p }

/-- One step inside the cohort operation; when the cohort program counter reaches `d` continue at
`p`. -/
def St.sub (lim : Fin m → BitVec 32) (s : St m n Q) (t : Fin n) (ok : Bool) (d : Cohort.PC)
    (p : Q) : Option (St m n Q) :=
  match Cohort.step lim false s.coh (.run t ok) with
  | none => none
  | some k => some { s with coh := k, pc := if (k.th t).pc = d then upd s.pc t p else s.pc }

def initSt (m n : Nat) (c0 : Fin n → Fin m) (p : Q) : St m n Q :=
  { coh := Cohort.initSt m n c0, rc := 0, bar := 0, pc := fun _ => p, c := c0, wc := fun _ => 0,
    raised := fun _ => false }

/-- The two loads of CK_COHORT_LOCKED -/
def lockedLocal (s : St m n Q) (t : Fin n) (ok : Bool) : Bool := locked (s.coh.loc (s.c t)).isSome ok
def lockedGlobal (s : St m n Q) (ok : Bool) : Bool := locked s.coh.glob.isSome ok

/-! ## CK_RWCOHORT_WP, lines 55-139 -/
namespace Wp

inductive PC
  | idle
  | wBar | wLock | wChk | writing | wUnl
  | rInc | rL1 | rL2 | rDec | rW1 | rW2 | rStall | rDone | reading
  deriving DecidableEq

abbrev St (m n : Nat) := RwCohort.St m n PC

def step (lim : Fin m → BitVec 32) (wlim : BitVec 32) (s : St m n) : Act m n → Option (St m n)
  | .wlock t c => if s.pc t = .idle then some { s.go t .wBar with c := upd s.c t c } else none
  | .wunlock t => if s.pc t = .writing then s.callUnlock lim t .wUnl else none
  | .rlock t c =>
    if s.pc t = .idle then
      some { s.go t .rInc with c := upd s.c t c, wc := upd s.wc t 0, raised := upd s.raised t false }
    else none
  -- lines 135-136
  | .runlock t => if s.pc t = .reading then some { s.go t .idle with rc := s.rc - 1 } else none
  | .run t ok => match s.pc t with
    -- lines 78-86
    | .wBar => if 0 < s.bar then some s else s.callLock lim t .wLock
    | .wLock => s.sub lim t ok .crit .wChk
    | .wChk => if 0 < s.rc then some s else some (s.go t .writing)
    | .wUnl => s.sub lim t ok .idle .idle
    -- lines 107-128
    | .rInc => some { s.go t .rL1 with rc := s.rc + 1 }
    | .rL1 => if lockedLocal s t ok then some (s.go t .rDec) else some (s.go t .rL2)
    | .rL2 => if lockedGlobal s ok then some (s.go t .rDec) else some (s.go t .rDone)
    | .rDec => some { s.go t .rW1 with rc := s.rc - 1 }
    | .rW1 => if lockedLocal s t ok then some (s.go t .rStall) else some (s.go t .rW2)
    | .rW2 => if lockedGlobal s ok then some (s.go t .rStall) else some (s.go t .rInc)
    | .rStall =>
      if wlim < s.wc t + 1 ∧ s.raised t = false then
        some { s.go t .rW1 with wc := upd s.wc t (s.wc t + 1), bar := s.bar + 1,
                                raised := upd s.raised t true }
      else some { s.go t .rW1 with wc := upd s.wc t (s.wc t + 1) }
    | .rDone =>
      if s.raised t then some { s.go t .reading with bar := s.bar - 1 } else some (s.go t .reading)
    | _ => none

def sys (lim : Fin m → BitVec 32) (wlim : BitVec 32) : Sys (St m n) (Act m n) :=
  { init := fun s => ∃ c0, s = initSt m n c0 .idle, step := step lim wlim }

end Wp

/-! ## CK_RWCOHORT_RP, lines 147-237 -/
namespace Rp

inductive PC
  | idle
  | wLock | wChk | wBack | wWait | wStall | wDone | writing | wUnl
  | rBar | rInc | rL1 | rL2 | reading
  deriving DecidableEq

abbrev St (m n : Nat) := RwCohort.St m n PC

def step (lim : Fin m → BitVec 32) (wlim : BitVec 32) (s : St m n) : Act m n → Option (St m n)
  | .wlock t c =>
    if s.pc t = .idle then
      { s with c := upd s.c t c, wc := upd s.wc t 0, raised := upd s.raised t false }.callLock lim t
        .wLock
    else none
  | .wunlock t => if s.pc t = .writing then s.callUnlock lim t .wUnl else none
  | .rlock t c => if s.pc t = .idle then some { s.go t .rBar with c := upd s.c t c } else none
  -- lines 233-234
  | .runlock t => if s.pc t = .reading then some { s.go t .idle with rc := s.rc - 1 } else none
  | .run t ok => match s.pc t with
    -- lines 182-199
    | .wLock => s.sub lim t ok .crit .wChk
    | .wChk => if s.rc = 0 then some (s.go t .wDone) else s.callUnlock lim t .wBack
    | .wBack => s.sub lim t ok .idle .wWait
    | .wWait => if 0 < s.rc then some (s.go t .wStall) else s.callLock lim t .wLock
    | .wStall =>
      if wlim < s.wc t + 1 ∧ s.raised t = false then
        some { s.go t .wWait with wc := upd s.wc t (s.wc t + 1), bar := s.bar + 1,
                                  raised := upd s.raised t true }
      else some { s.go t .wWait with wc := upd s.wc t (s.wc t + 1) }
    | .wDone =>
      if s.raised t then some { s.go t .writing with bar := s.bar - 1 } else some (s.go t .writing)
    | .wUnl => s.sub lim t ok .idle .idle
    -- lines 217-226
    | .rBar => if 0 < s.bar then some s else some (s.go t .rInc)
    | .rInc => some { s.go t .rL1 with rc := s.rc + 1 }
    | .rL1 => if lockedLocal s t ok then some s else some (s.go t .rL2)
    | .rL2 => if lockedGlobal s ok then some (s.go t .rL1) else some (s.go t .reading)
    | _ => none

def sys (lim : Fin m → BitVec 32) (wlim : BitVec 32) : Sys (St m n) (Act m n) :=
  { init := fun s => ∃ c0, s = initSt m n c0 .idle, step := step lim wlim }

end Rp

/-! ## CK_RWCOHORT_NEUTRAL, lines 258-308 -/
namespace Neutral

inductive PC
  | idle
  | wLock | wChk | writing | wUnl
  | rLock | rInc | rCall | rUnl | reading
  deriving DecidableEq

abbrev St (m n : Nat) := RwCohort.St m n PC

def step (lim : Fin m → BitVec 32) (s : St m n) : Act m n → Option (St m n)
  | .wlock t c =>
    if s.pc t = .idle then { s with c := upd s.c t c }.callLock lim t .wLock else none
  | .wunlock t => if s.pc t = .writing then s.callUnlock lim t .wUnl else none
  | .rlock t c =>
    if s.pc t = .idle then { s with c := upd s.c t c }.callLock lim t .rLock else none
  -- lines 304-305
  | .runlock t => if s.pc t = .reading then some { s.go t .idle with rc := s.rc - 1 } else none
  | .run t ok => match s.pc t with
    -- lines 275-279
    | .wLock => s.sub lim t ok .crit .wChk
    | .wChk => if 0 < s.rc then some s else some (s.go t .writing)
    | .wUnl => s.sub lim t ok .idle .idle
    -- lines 296-298
    | .rLock => s.sub lim t ok .crit .rInc
    | .rInc => some { s.go t .rCall with rc := s.rc + 1 }
    | .rCall => s.callUnlock lim t .rUnl
    | .rUnl => s.sub lim t ok .idle .reading
    | _ => none

def sys (lim : Fin m → BitVec 32) : Sys (St m n) (Act m n) :=
  { init := fun s => ∃ c0, s = initSt m n c0 .idle, step := step lim }

end Neutral

end Verif.RwCohort
