import Verif.Core.Spec
import Verif.Weak.Put

/-!
# Big-reader lock on relaxed memory (C82), `include/ck_brlock.h`

`n` threads with one reader object each, all of them registered; the writer visits them in the order of the threads (registration and the list of
readers are in `Verif.Rw.Brlock`).  Loads return any value the memory model allows.  Writers store to the data words `usr x`, readers and
writers load them.  Reader `t` stores to a word `own t` of its own while it has the lock, writers load it.  `fc` tells which fences exist; all of
them do in the code.  `n_readers` is a natural number (nesting depth below 2^32).  The variant of `ck_brlock_read_lock` without `fas` (lines 199-206,
for all machines but x86) is modelled.  The step bound of the trylock functions is replaced by the choice `g` to give up whenever an attempt fails.

Bookkeeping that no program step reads: `depth`, the number of read acquisitions minus releases (`runlock` is only called if it is positive); `lq t`, `lr t`, indices of the store of 1 and of the final store of 0
to `n_readers` of the last read section of `t`; `wi`, index of the store of the last successful `ck_pr_fas_uint`; `lw`, `lu`, indices of the first and the
last store to `writer` of the last completed write section; `base`, the data at its end.
-/

namespace Verif.Weak.Brlock

open Verif
open Fas (opt)

variable {n : Nat}

inductive Loc (n : Nat)
  | writer
  | nr (t : Fin n)
  | usr (x : Nat)
  | own (t : Fin n)
deriving DecidableEq

/-- `rd`: lines 206, 254; `rdAcq`: lines 215, 266; `runlock`: line 274; `wr`: lines 86, 124; `wrAcq`: lines 94, 137; `wunlock`: line 102. -/
structure Fences where
  rd : Bool
  rdAcq : Bool
  runlock : Bool
  wr : Bool
  wrAcq : Bool
  wunlock : Bool

def real : Fences := { rd := true, rdAcq := true, runlock := true, wr := true, wrAcq := true, wunlock := true }

/-- `tr`: the thread has called a trylock function. -/
inductive PC
  | idle
  /-- lines 188, 232: about to load `writer` -/
  | rLoad (tr : Bool)
  /-- lines 200, 248: about to store 1 to `n_readers` -/
  | rSet (tr : Bool)
  /-- lines 206, 254 -/
  | rFence (tr : Bool)
  /-- lines 209, 257: about to load `writer` -/
  | rChk (tr : Bool)
  /-- lines 212, 260: about to store 0 to `n_readers` -/
  | rBack (tr : Bool)
  /-- lines 83, 113 -/
  | wFas (tr : Bool)
  /-- lines 86, 124 -/
  | wFence (tr : Bool)
  /-- lines 89-90, 126-127: the readers before `c` have been seen outside -/
  | wScan (tr : Bool) (c : Nat)
  /-- line 129 -/
  | wBack
  | writing
deriving DecidableEq

structure St (n : Nat) where
  mem : Mem (Loc n) Nat
  sc : View (Loc n)
  th : Fin n → Th (Loc n)
  pc : Fin n → PC
  depth : Fin n → Nat
  lq : Fin n → Nat
  lr : Fin n → Nat
  wi : Nat
  lw : Nat
  lu : Nat
  base : Nat → Nat

inductive Act (n : Nat)
  /-- lines 182-185 and 226-229 load value `i` -/
  | rcall (t : Fin n) (tr : Bool) (i : Nat)
  | rlook (t : Fin n) (i : Nat) (g : Bool)
  | rset (t : Fin n)
  | rfence (t : Fin n)
  | rchk (t : Fin n) (i : Nat)
  | rback (t : Fin n) (g : Bool)
  | runlock (t : Fin n) (i : Nat)
  | wcall (t : Fin n) (tr : Bool)
  | wfas (t : Fin n) (g : Bool)
  | wfence (t : Fin n)
  | wscan (t : Fin n) (c : Fin n) (i : Nat) (g : Bool)
  | wdone (t : Fin n)
  | wback (t : Fin n)
  | wunlock (t : Fin n)
  /-- the client -/
  | read (t : Fin n) (x i : Nat)
  | write (t : Fin n) (x v : Nat)
  | put (t : Fin n) (v : Nat)
  | get (t u : Fin n) (i : Nat)

/-- lines 64-72, all readers registered. -/
def initSt (n : Nat) : St n :=
  { mem := Mem.init fun _ => 0, sc := fun _ => 0, th := fun _ => Th.init, pc := fun _ => .idle, depth := fun _ => 0
    lq := fun _ => 0, lr := fun _ => 0, wi := 0, lw := 0, lu := 0, base := fun _ => 0 }

/-- lines 74-277. -/
def step (fc : Fences) (s : St n) : Act n → Option (St n)
  -- lines 182-185, 226-229
  | .rcall t tr i =>
    if s.pc t = .idle ∧ (s.th t).may s.mem (.nr t) i then
      let q := (s.th t).load s.mem (.nr t) i
      if 1 ≤ (s.mem.msg (.nr t) i).val then
        some { s with mem := s.mem.store q (.nr t) ((s.mem.msg (.nr t) i).val + 1), th := upd s.th t (q.store s.mem (.nr t))
                      depth := upd s.depth t (s.depth t + 1) }
      else some { s with th := upd s.th t q, pc := upd s.pc t (.rLoad tr) }
    else none
  -- lines 188, 232-234
  | .rlook t i g => match s.pc t with
    | .rLoad tr =>
      if (s.th t).may s.mem .writer i then
        some { s with th := upd s.th t ((s.th t).load s.mem .writer i)
                      pc := upd s.pc t (if (s.mem.msg .writer i).val = 0 then .rSet tr else if tr && g then .idle else .rLoad tr) }
      else none
    | _ => none
  -- lines 200, 248
  | .rset t => match s.pc t with
    | .rSet tr =>
      some { s with mem := s.mem.store (s.th t) (.nr t) 1, th := upd s.th t ((s.th t).store s.mem (.nr t)), pc := upd s.pc t (.rFence tr) }
    | _ => none
  -- lines 206, 254
  | .rfence t => match s.pc t with
    | .rFence tr =>
      if fc.rd then some { s with sc := (s.th t).fenceSc s.sc, th := upd s.th t ((s.th t).fence s.sc), pc := upd s.pc t (.rChk tr) }
      else some { s with pc := upd s.pc t (.rChk tr) }
    | _ => none
  -- lines 209, 215; 257, 266
  | .rchk t i => match s.pc t with
    | .rChk tr =>
      if (s.th t).may s.mem .writer i then
        let q := (s.th t).load s.mem .writer i
        if (s.mem.msg .writer i).val = 0 then
          some { s with th := upd s.th t (opt fc.rdAcq Th.fenceAcq q), pc := upd s.pc t .idle, depth := upd s.depth t 1
                        lq := upd s.lq t (s.mem.top (.nr t)) }
        else some { s with th := upd s.th t q, pc := upd s.pc t (.rBack tr) }
      else none
    | _ => none
  -- lines 212; 260-263
  | .rback t g => match s.pc t with
    | .rBack tr =>
      some { s with mem := s.mem.store (s.th t) (.nr t) 0, th := upd s.th t ((s.th t).store s.mem (.nr t))
                    pc := upd s.pc t (if tr && g then .idle else .rLoad tr) }
    | _ => none
  -- lines 274-275
  | .runlock t i =>
    if s.pc t = .idle ∧ 0 < s.depth t ∧ (s.th t).may s.mem (.nr t) i then
      let q := (opt fc.runlock Th.fenceRel (s.th t)).load s.mem (.nr t) i
      some { s with mem := s.mem.store q (.nr t) ((s.mem.msg (.nr t) i).val - 1), th := upd s.th t (q.store s.mem (.nr t))
                    depth := upd s.depth t (s.depth t - 1)
                    lr := if s.depth t = 1 then upd s.lr t (s.mem.top (.nr t) + 1) else s.lr }
    else none
  | .wcall t tr => if s.pc t = .idle then some { s with pc := upd s.pc t (.wFas tr) } else none
  -- lines 83, 113-115
  | .wfas t g => match s.pc t with
    | .wFas tr =>
      if s.mem.last .writer = 0 then
        some { s with mem := s.mem.rmw (s.th t) .writer 1, th := upd s.th t ((s.th t).rmw s.mem .writer), pc := upd s.pc t (.wFence tr)
                      wi := s.mem.top .writer + 1 }
      else
        some { s with mem := s.mem.rmw (s.th t) .writer 1, th := upd s.th t ((s.th t).rmw s.mem .writer)
                      pc := upd s.pc t (if tr && g then .idle else .wFas tr) }
    | _ => none
  -- lines 86, 124
  | .wfence t => match s.pc t with
    | .wFence tr =>
      if fc.wr then some { s with sc := (s.th t).fenceSc s.sc, th := upd s.th t ((s.th t).fence s.sc), pc := upd s.pc t (.wScan tr 0) }
      else some { s with pc := upd s.pc t (.wScan tr 0) }
    | _ => none
  -- lines 89-90, 126-128
  | .wscan t c i g => match s.pc t with
    | .wScan tr k =>
      if k = c ∧ (s.th t).may s.mem (.nr c) i then
        some { s with th := upd s.th t ((s.th t).load s.mem (.nr c) i)
                      pc := upd s.pc t (if (s.mem.msg (.nr c) i).val = 0 then .wScan tr (k + 1) else if tr && g then .wBack else .wScan tr k) }
      else none
    | _ => none
  -- lines 94, 137
  | .wdone t => match s.pc t with
    | .wScan _ k => if k = n then some { s with th := upd s.th t (opt fc.wrAcq Th.fenceAcq (s.th t)), pc := upd s.pc t .writing } else none
    | _ => none
  -- line 129, lines 102-103
  | .wback t =>
    if s.pc t = .wBack then
      let q := opt fc.wunlock Th.fenceRel (s.th t)
      some { s with mem := s.mem.store q .writer 0, th := upd s.th t (q.store s.mem .writer), pc := upd s.pc t .idle }
    else none
  -- lines 102-103
  | .wunlock t =>
    if s.pc t = .writing then
      let q := opt fc.wunlock Th.fenceRel (s.th t)
      some { s with mem := s.mem.store q .writer 0, th := upd s.th t (q.store s.mem .writer), pc := upd s.pc t .idle
                    lw := s.wi, lu := s.mem.top .writer + 1, base := fun x => s.mem.top (.usr x) }
    else none
  -- the client
  | .read t x i =>
    if (s.pc t = .writing ∨ s.pc t = .idle ∧ 0 < s.depth t) ∧ (s.th t).may s.mem (.usr x) i then
      some { s with th := upd s.th t ((s.th t).load s.mem (.usr x) i) }
    else none
  | .write t x v =>
    if s.pc t = .writing then
      some { s with mem := s.mem.store (s.th t) (.usr x) v, th := upd s.th t ((s.th t).store s.mem (.usr x)) }
    else none
  | .put t v =>
    if s.pc t = .idle ∧ 0 < s.depth t then
      some { s with mem := s.mem.store (s.th t) (.own t) v, th := upd s.th t ((s.th t).store s.mem (.own t)) }
    else none
  | .get t u i =>
    if s.pc t = .writing ∧ (s.th t).may s.mem (.own u) i then some { s with th := upd s.th t ((s.th t).load s.mem (.own u) i) } else none

def sys (fc : Fences) (n : Nat) : Sys (St n) (Act n) := { init := (· = initSt n), step := step fc }

/-- Between the return of write_lock or a successful write_trylock and write_unlock. -/
def St.writes (s : St n) (t : Fin n) : Prop := s.pc t = .writing
/-- More read acquisitions than releases. -/
def St.reads (s : St n) (t : Fin n) : Prop := 0 < s.depth t

end Verif.Weak.Brlock
