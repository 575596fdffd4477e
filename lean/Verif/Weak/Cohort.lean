import Verif.Core.Count
import Verif.Core.Spec
import Verif.Weak.Put

/-!
# Cohort lock and reader-writer cohort locks on relaxed memory (C83, C84), `include/ck_cohort.h`, `include/ck_rwcohort.h`

The local locks and the global lock are test-and-set locks (`ck_spinlock_fas`, `include/spinlock/fas.h` lines 66-109: `fas` until the value is 0, `fence_lock`;
`fence_unlock`, store of 0; `locked` is a load and `fence_acquire`).  Loads return any value the memory model allows.  Every call names a cohort; there are infinitely many.
`loc c`, `rs c`: local lock and `release_state` of cohort `c`.  Data words (`usr x`) are loaded by readers and writers and stored to by writers while they hold the lock.

Simplified: `waiting_threads` and `acquire_count` only decide whether the global lock is passed on within the cohort; here any choice is made.  The barriers
and the loops that wait before the next attempt (lines 78-79, 114-122, 190-198, 220-221) only delay; here a thread goes on at any time.  Both allow more
executions.  `read_counter` is a natural number (it never exceeds the number of threads).

Bookkeeping that no program step reads: `tok`, who has the global lock: nobody, a thread, or a cohort whose next holder of the local lock will use it; `gi`, index of the store that took
the global lock; `ri t`, index of the last increment by `t`; `li`, of the last increment made under the cohort lock; `ent`, whether a writer has entered since the global lock was taken; `lw`, `lu`, indices of the
stores that took and released the global lock when this was last so; `base`, the data at its end.
-/

namespace Verif.Weak.Cohort

open Verif
open Fas (opt)

variable {n : Nat}

inductive Kind
  | wp
  | rp
  | neutral
deriving DecidableEq

inductive Loc
  | glob
  | loc (c : Nat)
  | rs (c : Nat)
  | rc
  | usr (x : Nat)
deriving DecidableEq

/-- `lock`: the fence of the local and of the global lock function; `gunlock`: of the global unlock function; `lunlock`: line 111 and the fence of the local
unlock function; `lkd`: of the `locked` functions; `rfull`: lines 108, 224; `racq`: line 128 (WP only); `rdec`: lines 135, 236, 308; `wfull`: a full fence after
CK_COHORT_LOCK in `write_lock`. -/
structure Fences where
  lock : Bool
  gunlock : Bool
  lunlock : Bool
  lkd : Bool
  rfull : Bool
  racq : Bool
  rdec : Bool
  wfull : Bool

/-- The code has no `wfull`. -/
def real : Fences :=
  { lock := true, gunlock := true, lunlock := true, lkd := true, rfull := true, racq := true, rdec := true, wfull := false }
/-- With a full fence added. -/
def fixed : Fences := { real with wfull := true }

/-- What a thread uses the cohort lock for: to write, to write but there are readers (RP), to announce itself as a reader (NEUTRAL). -/
inductive Job
  | w
  | again
  | r
deriving DecidableEq

inductive PC
  | idle
  /-- `ck_cohort.h` line 86 -/
  | ll (j : Job)
  /-- line 89 -/
  | ld (j : Job)
  /-- line 90 -/
  | gl (j : Job)
  /-- line 94: has the cohort lock -/
  | held (j : Job)
  /-- `ck_rwcohort.h` lines 83, 186, 279: about to load `read_counter` -/
  | wChk
  | writing
  /-- `ck_cohort.h` lines 102-106 -/
  | uSel (j : Job)
  /-- line 107 -/
  | uRs (j : Job)
  /-- lines 111-112 -/
  | uLoc (j : Job)
  /-- `ck_rwcohort.h` lines 107, 223 -/
  | rInc
  /-- lines 108, 224 -/
  | rFence
  /-- lines 109, 226: about to load the local lock -/
  | rLoc
  /-- lines 109, 226: about to load the global lock -/
  | rGlob
  /-- line 113 -/
  | rDec
  | reading
deriving DecidableEq

inductive Tok (n : Nat)
  | free
  | thr (t : Fin n)
  | coh (c : Nat)
deriving DecidableEq

structure St (n : Nat) where
  mem : Mem Loc Nat
  sc : View Loc
  th : Fin n → Th Loc
  pc : Fin n → PC
  co : Fin n → Nat
  tok : Tok n
  gi : Nat
  ri : Fin n → Nat
  li : Nat
  ent : Bool
  lw : Nat
  lu : Nat
  base : Nat → Nat

inductive Act (n : Nat)
  /-- the functions, called with cohort `c` -/
  | wlock (t : Fin n) (c : Nat)
  | rlock (t : Fin n) (c : Nat)
  | wunlock (t : Fin n)
  | runlock (t : Fin n)
  /-- the next step of `t`; if it loads, it loads value `i`; if it unlocks, `b` tells whether the global lock is passed on -/
  | run (t : Fin n) (i : Nat) (b : Bool)
  /-- the client -/
  | read (t : Fin n) (x i : Nat)
  | write (t : Fin n) (x v : Nat)

/-- `ck_cohort.h` lines 66-78, `ck_rwcohort.h` lines 60-71, 164-175, 264-271. -/
def initSt (n : Nat) : St n :=
  { mem := Mem.init fun _ => 0, sc := fun _ => 0, th := fun _ => Th.init, pc := fun _ => .idle, co := fun _ => 0, tok := .free, gi := 0
    ri := fun _ => 0, li := 0, ent := false, lw := 0, lu := 0, base := fun _ => 0 }

/-- The next step of a thread in one of the functions. -/
def run (k : Kind) (fc : Fences) (s : St n) (t : Fin n) (i : Nat) (b : Bool) : Option (St n) :=
  let c := s.co t
  let q := s.th t
  match s.pc t with
  -- `ck_cohort.h` line 86, `fas.h` lines 80, 86
  | .ll j =>
    if s.mem.last (.loc c) = 0 then
      some { s with mem := s.mem.rmw q (.loc c) 1, th := upd s.th t (opt fc.lock Th.fenceAcq (q.rmw s.mem (.loc c))), pc := upd s.pc t (.ld j) }
    else some { s with mem := s.mem.rmw q (.loc c) 1, th := upd s.th t (q.rmw s.mem (.loc c)) }
  -- line 89
  | .ld j =>
    if q.may s.mem (.rs c) i then
      if (s.mem.msg (.rs c) i).val = 0 then some { s with th := upd s.th t (q.load s.mem (.rs c) i), pc := upd s.pc t (.gl j) }
      else some { s with th := upd s.th t (q.load s.mem (.rs c) i), pc := upd s.pc t (.held j), tok := .thr t }
    else none
  -- line 90
  | .gl j =>
    if s.mem.last .glob = 0 then
      some { s with mem := s.mem.rmw q .glob 1, th := upd s.th t (opt fc.lock Th.fenceAcq (q.rmw s.mem .glob)), pc := upd s.pc t (.held j)
                    tok := .thr t, gi := s.mem.top .glob + 1 }
    else some { s with mem := s.mem.rmw q .glob 1, th := upd s.th t (q.rmw s.mem .glob) }
  -- `ck_rwcohort.h` lines 82, 185, 278: the fence that does not exist
  | .held .w =>
    if fc.wfull then some { s with sc := q.fenceSc s.sc, th := upd s.th t (q.fence s.sc), pc := upd s.pc t .wChk }
    else some { s with pc := upd s.pc t .wChk }
  -- line 300
  | .held .r =>
    some { s with mem := s.mem.rmw q .rc (s.mem.last .rc + 1), th := upd s.th t (q.rmw s.mem .rc), pc := upd s.pc t (.uSel .r)
                  ri := upd s.ri t (s.mem.top .rc + 1), li := s.mem.top .rc + 1 }
  -- lines 83, 186, 279
  | .wChk =>
    if q.may s.mem .rc i then
      if (s.mem.msg .rc i).val = 0 then some { s with th := upd s.th t (q.load s.mem .rc i), pc := upd s.pc t .writing, ent := true }
      else some { s with th := upd s.th t (q.load s.mem .rc i), pc := upd s.pc t (if k = .rp then .uSel .again else .wChk) }
    else none
  | .uSel j =>
    -- `ck_cohort.h` lines 102-104
    if b then
      some { s with mem := s.mem.store q (.rs c) 1, th := upd s.th t (q.store s.mem (.rs c)), pc := upd s.pc t (.uLoc j), tok := .coh c }
    -- line 106
    else
      let u := opt fc.gunlock Th.fenceRel q
      some { s with mem := s.mem.store u .glob 0, th := upd s.th t (u.store s.mem .glob), pc := upd s.pc t (.uRs j), tok := .free
                    ent := false, lw := if s.ent then s.gi else s.lw, lu := if s.ent then s.mem.top .glob + 1 else s.lu
                    base := if s.ent then fun x => s.mem.top (.usr x) else s.base }
  -- line 107
  | .uRs j => some { s with mem := s.mem.store q (.rs c) 0, th := upd s.th t (q.store s.mem (.rs c)), pc := upd s.pc t (.uLoc j) }
  -- lines 111-112
  | .uLoc j =>
    let u := opt fc.lunlock Th.fenceRel q
    some { s with mem := s.mem.store u (.loc c) 0, th := upd s.th t (u.store s.mem (.loc c))
                  pc := upd s.pc t (match j with | .w => .idle | .again => .ll .w | .r => .reading) }
  -- `ck_rwcohort.h` lines 107, 223
  | .rInc =>
    some { s with mem := s.mem.rmw q .rc (s.mem.last .rc + 1), th := upd s.th t (q.rmw s.mem .rc), pc := upd s.pc t .rFence
                  ri := upd s.ri t (s.mem.top .rc + 1) }
  -- lines 108, 224
  | .rFence =>
    if fc.rfull then some { s with sc := q.fenceSc s.sc, th := upd s.th t (q.fence s.sc), pc := upd s.pc t .rLoc }
    else some { s with pc := upd s.pc t .rLoc }
  -- lines 109-111, 226-228; `ck_cohort.h` line 121
  | .rLoc =>
    if q.may s.mem (.loc c) i then
      some { s with th := upd s.th t (opt fc.lkd Th.fenceAcq (q.load s.mem (.loc c) i))
                    pc := upd s.pc t (if (s.mem.msg (.loc c) i).val = 0 then .rGlob else if k = .rp then .rLoc else .rDec) }
    else none
  -- `ck_cohort.h` line 122; `ck_rwcohort.h` line 128
  | .rGlob =>
    if q.may s.mem .glob i then
      let u := opt fc.lkd Th.fenceAcq (q.load s.mem .glob i)
      if (s.mem.msg .glob i).val = 0 then some { s with th := upd s.th t (opt (fc.racq && k = .wp) Th.fenceLoad u), pc := upd s.pc t .reading }
      else some { s with th := upd s.th t u, pc := upd s.pc t (if k = .rp then .rLoc else .rDec) }
    else none
  -- `ck_rwcohort.h` line 113
  | .rDec =>
    some { s with mem := s.mem.rmw q .rc (s.mem.last .rc - 1), th := upd s.th t (q.rmw s.mem .rc), pc := upd s.pc t .rInc }
  | _ => none

/-- `ck_rwcohort.h` lines 72-138, 176-239, 272-311. -/
def step (k : Kind) (fc : Fences) (s : St n) : Act n → Option (St n)
  | .wlock t c => if s.pc t = .idle then some { s with pc := upd s.pc t (.ll .w), co := upd s.co t c } else none
  | .rlock t c =>
    if s.pc t = .idle then some { s with pc := upd s.pc t (if k = .neutral then .ll .r else .rInc), co := upd s.co t c } else none
  | .wunlock t => if s.pc t = .writing then some { s with pc := upd s.pc t (.uSel .w) } else none
  -- lines 135-136, 236-237, 308-309
  | .runlock t =>
    if s.pc t = .reading then
      let q := opt fc.rdec Th.fenceLoad (s.th t)
      some { s with mem := s.mem.rmw q .rc (s.mem.last .rc - 1), th := upd s.th t (q.rmw s.mem .rc), pc := upd s.pc t .idle }
    else none
  | .run t i b => run k fc s t i b
  -- the client
  | .read t x i =>
    if (s.pc t = .reading ∨ s.pc t = .writing) ∧ (s.th t).may s.mem (.usr x) i then
      some { s with th := upd s.th t ((s.th t).load s.mem (.usr x) i) }
    else none
  | .write t x v =>
    if s.pc t = .writing then
      some { s with mem := s.mem.store (s.th t) (.usr x) v, th := upd s.th t ((s.th t).store s.mem (.usr x)) }
    else none

def sys (k : Kind) (fc : Fences) (n : Nat) : Sys (St n) (Act n) := { init := (· = initSt n), step := step k fc }

/-- Between the return of `write_lock` and the call of `write_unlock`. -/
def St.writes (s : St n) (t : Fin n) : Prop := s.pc t = .writing
/-- Between the return of `read_lock` and the call of `read_unlock`. -/
def St.reads (s : St n) (t : Fin n) : Prop := s.pc t = .reading
/-- Between the return of CK_COHORT_LOCK and the call of CK_COHORT_UNLOCK. -/
def St.holds (s : St n) (t : Fin n) : Prop := (∃ j, s.pc t = .held j) ∨ s.pc t = .wChk ∨ s.pc t = .writing

end Verif.Weak.Cohort
