import Verif.Core.Spec
import Verif.Core.Count
import Verif.Weak.Put

/-!
# Byte lock on relaxed memory (C92), `include/ck_bytelock.h`

`n` threads; thread `t` calls with a slot number of its own, here `t + 1` (unslotted threads that share one number are in `Verif.Rw.Bytelock`); `sl t`: it is a slotted thread, its number is at most `sizeof readers`.  Loads return any value the memory
model allows.  Writers store to the data words `usr x`, readers and writers load them.  Reader `t` stores to a word `own t` of its own while it has
the lock, writers load it.  `fc` tells which fences exist; all of them do in the code.  A slotted writer may call `read_lock` (downgrade), a slotted reader may call `write_lock` (upgrade); unslotted
threads may do neither (the first would store outside of `readers`, the second waits for itself).  `n_readers` is a natural number (less than 2^32 threads).

Simplified: a writer loads the slots one by one in the order of the threads, not eight at a time; slots without a thread stay 0 and are left out.  For a slotted reader the variant with `ck_pr_store_8` and
`ck_pr_fence_store_load` is modelled (lines 161-162), the other has the same fence and a store that passes on more.

Bookkeeping that no program step reads: `hold t`, whether `t` has the read lock; `ti t`, index of the last store with which `t` announced itself in `loc t`; `lq t`, `lr t`, indices of the first and the last store of
the last read section of `t`; `wi`, index of the last successful compare and swap; `lu`, index of the last store of 0 to `owner`; `base`, the data at that point; `ob t`, the word `own t` when `t` last released as a writer.
-/

namespace Verif.Weak.Bytelock

open Verif
open Fas (opt)

variable {n : Nat}

/-- `struct ck_bytelock`, lines 45-49, and the words of the client -/
inductive Loc (n : Nat)
  | owner
  | slot (t : Fin n)
  | count
  | usr (x : Nat)
  | own (t : Fin n)
deriving DecidableEq

/-- `rd`: lines 142, 162; `rdAcq`: lines 151, 178; `runlock`: line 186; `wr`: line 99; `wrAcq`: line 110; `wunlock`: line 122; `down`: line 133. -/
structure Fences where
  rd : Bool
  rdAcq : Bool
  runlock : Bool
  wr : Bool
  wrAcq : Bool
  wunlock : Bool
  down : Bool

def real : Fences := { rd := true, rdAcq := true, runlock := true, wr := true, wrAcq := true, wunlock := true, down := true }

inductive PC
  | idle
  /-- lines 141, 161: about to announce itself -/
  | rSet
  /-- lines 142, 162 -/
  | rFence
  /-- lines 143, 170: about to load `owner` -/
  | rChk
  /-- lines 145, 173: about to withdraw -/
  | rBack
  /-- lines 147, 174 -/
  | rWait
  /-- line 88 -/
  | wCas
  /-- line 93 -/
  | wClr
  /-- line 99 -/
  | wFence
  /-- lines 101-107: the slots before `c` have been seen empty -/
  | wScan (c : Nat)
  | writing
  /-- line 132 -/
  | dSet
  /-- lines 133-134 -/
  | dRel
deriving DecidableEq

structure St (n : Nat) where
  mem : Mem (Loc n) Nat
  sc : View (Loc n)
  th : Fin n → Th (Loc n)
  pc : Fin n → PC
  hold : Fin n → Bool
  ti : Fin n → Nat
  lq : Fin n → Nat
  lr : Fin n → Nat
  wi : Nat
  lu : Nat
  base : Nat → Nat
  ob : Fin n → Nat

inductive Act (n : Nat)
  | rcall (t : Fin n) (i : Nat)
  | rset (t : Fin n)
  | rfence (t : Fin n)
  | rchk (t : Fin n) (i : Nat)
  | rback (t : Fin n)
  | rwait (t : Fin n) (i : Nat)
  | runlock (t : Fin n)
  | wcall (t : Fin n)
  | wcas (t : Fin n)
  | wspin (t : Fin n) (i : Nat)
  | wclr (t : Fin n)
  | wfence (t : Fin n)
  | wscan (t : Fin n) (c : Fin n) (i : Nat)
  | wcnt (t : Fin n) (i : Nat)
  | wunlock (t : Fin n)
  | dset (t : Fin n)
  | drel (t : Fin n)
  /-- the client -/
  | read (t : Fin n) (x i : Nat)
  | write (t : Fin n) (x v : Nat)
  | put (t : Fin n) (v : Nat)
  | get (t u : Fin n) (i : Nat)

/-- `ck_bytelock_init`, lines 56-67. -/
def initSt (n : Nat) : St n :=
  { mem := Mem.init fun _ => 0, sc := fun _ => 0, th := fun _ => Th.init, pc := fun _ => .idle, hold := fun _ => false
    ti := fun _ => 0, lq := fun _ => 0, lr := fun _ => 0, wi := 0, lu := 0, base := fun _ => 0, ob := fun _ => 0 }

/-- The word in which a reader announces itself. -/
def loc (sl : Fin n → Bool) (t : Fin n) : Loc n := if sl t then .slot t else .count

/-- The store of 1 to a slot or the increment of `n_readers`, lines 141, 161. -/
def St.announce (s : St n) (sl : Fin n → Bool) (t : Fin n) : St n :=
  if sl t then { s with mem := s.mem.store (s.th t) (.slot t) 1, th := upd s.th t ((s.th t).store s.mem (.slot t)), ti := upd s.ti t (s.mem.top (.slot t) + 1) }
  else { s with mem := s.mem.rmw (s.th t) .count (s.mem.last .count + 1), th := upd s.th t ((s.th t).rmw s.mem .count), ti := upd s.ti t (s.mem.top .count + 1) }

/-- The store of 0 to a slot or the decrement of `n_readers` by a thread with views `q`, lines 145, 173, 188-191, and for a slotted thread line 93. -/
def St.withdraw (s : St n) (sl : Fin n → Bool) (t : Fin n) (q : Th (Loc n)) : St n :=
  let s1 := { s with hold := upd s.hold t false, lr := if s.hold t then upd s.lr t (s.mem.top (loc sl t) + 1) else s.lr }
  if sl t then { s1 with mem := s.mem.store q (.slot t) 0, th := upd s.th t (q.store s.mem (.slot t)) }
  else { s1 with mem := s.mem.rmw q .count (s.mem.last .count - 1), th := upd s.th t (q.rmw s.mem .count) }

/-- lines 81-194. -/
def step (fc : Fences) (sl : Fin n → Bool) (s : St n) : Act n → Option (St n)
  -- line 131
  | .rcall t i =>
    if (s.pc t = .idle ∧ s.hold t = false ∨ s.pc t = .writing ∧ sl t = true) ∧ (s.th t).may s.mem .owner i then
      some { s with th := upd s.th t ((s.th t).load s.mem .owner i), pc := upd s.pc t (if (s.mem.msg .owner i).val = t + 1 then .dSet else .rSet) }
    else none
  -- lines 141, 161
  | .rset t => if s.pc t = .rSet then some { s.announce sl t with pc := upd s.pc t .rFence } else none
  -- lines 142, 162
  | .rfence t =>
    if s.pc t = .rFence then
      if fc.rd then some { s with sc := (s.th t).fenceSc s.sc, th := upd s.th t ((s.th t).fence s.sc), pc := upd s.pc t .rChk }
      else some { s with pc := upd s.pc t .rChk }
    else none
  -- lines 143-144, 151; 170-171, 178
  | .rchk t i =>
    if s.pc t = .rChk ∧ (s.th t).may s.mem .owner i then
      let q := (s.th t).load s.mem .owner i
      if (s.mem.msg .owner i).val = 0 then
        some { s with th := upd s.th t (opt fc.rdAcq Th.fenceAcq q), pc := upd s.pc t .idle, hold := upd s.hold t true, lq := upd s.lq t (s.ti t) }
      else some { s with th := upd s.th t q, pc := upd s.pc t .rBack }
    else none
  -- lines 145, 173
  | .rback t => if s.pc t = .rBack then some { s.withdraw sl t (s.th t) with pc := upd s.pc t .rWait } else none
  -- lines 147-148, 174-175
  | .rwait t i =>
    if s.pc t = .rWait ∧ (s.th t).may s.mem .owner i then
      some { s with th := upd s.th t ((s.th t).load s.mem .owner i), pc := upd s.pc t (if (s.mem.msg .owner i).val = 0 then .rSet else .rWait) }
    else none
  -- lines 186-191
  | .runlock t =>
    if s.pc t = .idle ∧ s.hold t = true then some (s.withdraw sl t (opt fc.runlock Th.fenceRel (s.th t)))
    else none
  | .wcall t => if s.pc t = .idle ∧ (s.hold t = true → sl t = true) then some { s with pc := upd s.pc t .wCas } else none
  -- lines 88, 92
  | .wcas t =>
    if s.pc t = .wCas ∧ s.mem.last .owner = 0 then
      some { s with mem := s.mem.rmw (s.th t) .owner (t + 1), th := upd s.th t ((s.th t).rmw s.mem .owner)
                    pc := upd s.pc t (if sl t then .wClr else .wFence), wi := s.mem.top .owner + 1 }
    else none
  -- line 88, a compare and swap that fails
  | .wspin t i =>
    if s.pc t = .wCas ∧ (s.th t).may s.mem .owner i ∧ (s.mem.msg .owner i).val ≠ 0 then some { s with th := upd s.th t ((s.th t).load s.mem .owner i) } else none
  -- line 93
  | .wclr t => if s.pc t = .wClr then some { s.withdraw sl t (s.th t) with pc := upd s.pc t .wFence } else none
  -- line 99
  | .wfence t =>
    if s.pc t = .wFence then
      if fc.wr then some { s with sc := (s.th t).fenceSc s.sc, th := upd s.th t ((s.th t).fence s.sc), pc := upd s.pc t (.wScan 0) }
      else some { s with pc := upd s.pc t (.wScan 0) }
    else none
  -- lines 101-104
  | .wscan t c i => match s.pc t with
    | .wScan k =>
      if k = c ∧ sl c = false then some { s with pc := upd s.pc t (.wScan (k + 1)) }
      else if k = c ∧ (s.th t).may s.mem (.slot c) i then
        some { s with th := upd s.th t ((s.th t).load s.mem (.slot c) i)
                      pc := upd s.pc t (if (s.mem.msg (.slot c) i).val = 0 then .wScan (k + 1) else .wScan k) }
      else none
    | _ => none
  -- lines 107-110
  | .wcnt t i =>
    if s.pc t = .wScan n ∧ (s.th t).may s.mem .count i then
      let q := (s.th t).load s.mem .count i
      if (s.mem.msg .count i).val = 0 then some { s with th := upd s.th t (opt fc.wrAcq Th.fenceAcq q), pc := upd s.pc t .writing }
      else some { s with th := upd s.th t q }
    else none
  -- lines 122-123
  | .wunlock t =>
    if s.pc t = .writing then
      let q := opt fc.wunlock Th.fenceRel (s.th t)
      some { s with mem := s.mem.store q .owner 0, th := upd s.th t (q.store s.mem .owner), pc := upd s.pc t .idle
                    lu := s.mem.top .owner + 1, base := fun x => s.mem.top (.usr x), ob := upd s.ob t (s.mem.top (.own t)) }
    else none
  -- line 132
  | .dset t => if s.pc t = .dSet then some { s.announce (fun _ => true) t with pc := upd s.pc t .dRel } else none
  -- lines 133-134
  | .drel t =>
    if s.pc t = .dRel then
      let q := opt fc.down Th.fenceStore (s.th t)
      some { s with mem := s.mem.store q .owner 0, th := upd s.th t (q.store s.mem .owner), pc := upd s.pc t .idle
                    hold := upd s.hold t true, lq := upd s.lq t (s.ti t)
                    lu := s.mem.top .owner + 1, base := fun x => s.mem.top (.usr x), ob := upd s.ob t (s.mem.top (.own t)) }
    else none
  -- the client
  | .read t x i =>
    if (s.pc t = .writing ∨ s.pc t = .idle ∧ s.hold t = true) ∧ (s.th t).may s.mem (.usr x) i then
      some { s with th := upd s.th t ((s.th t).load s.mem (.usr x) i) }
    else none
  | .write t x v =>
    if s.pc t = .writing then
      some { s with mem := s.mem.store (s.th t) (.usr x) v, th := upd s.th t ((s.th t).store s.mem (.usr x)) }
    else none
  | .put t v =>
    if s.pc t = .idle ∧ s.hold t = true then
      some { s with mem := s.mem.store (s.th t) (.own t) v, th := upd s.th t ((s.th t).store s.mem (.own t)) }
    else none
  | .get t u i =>
    if s.pc t = .writing ∧ (s.th t).may s.mem (.own u) i then some { s with th := upd s.th t ((s.th t).load s.mem (.own u) i) } else none

def sys (fc : Fences) (sl : Fin n → Bool) : Sys (St n) (Act n) := { init := (· = initSt n), step := step fc sl }

/-- Between the return of write_lock and the call of write_unlock or, to downgrade, of read_lock. -/
def St.writes (s : St n) (t : Fin n) : Prop := s.pc t = .writing
/-- Between the return of read_lock and the call of read_unlock or, to upgrade, the successful compare and swap in write_lock. -/
def St.reads (s : St n) (t : Fin n) : Prop := s.hold t = true

end Verif.Weak.Bytelock
