import Verif.Core.Fifo
import Verif.Core.Tactic
import Verif.Core.Spec

/-!
# `ck_pflock` (model), `include/ck_pflock.h`

One step per atomic access; the call of an operation and its first access are one step.  All four words
are 32 bit and wrap.  Ghost state (never read by a step):
`q` writer queue, `ri`/`ro` unbounded reader counts, `ph` number of writer announcements so far,
`ann` a writer has announced itself and has not yet ended its phase, `old t` reader `t` was active at the
last announcement, `gph t` the announcement that reader `t` met, `entries` the number of writer critical
sections begun, `e0 t` its value when reader `t` arrived.
-/

namespace Verif.Rw.Pflock

inductive Act (n : Nat)
  | wlock (t : Fin n)
  | wunlock (t : Fin n)
  | rlock (t : Fin n)
  | runlock (t : Fin n)
  | run (t : Fin n)
  deriving DecidableEq

inductive PC
  | idle
  | wSpin (k : BitVec 32)  -- line 91
  | wAnn (k : BitVec 32)   -- lines 99-100
  | wWait (r : BitVec 32)  -- line 103
  | writing
  | uFaa                   -- line 80
  | rSpin (w : BitVec 32)  -- line 133
  | reading
  deriving DecidableEq

structure St (n : Nat) where
  rin : BitVec 32
  rout : BitVec 32
  win : BitVec 32
  wout : BitVec 32
  pc : Fin n → PC
  q : Q n
  ri : Nat
  ro : Nat
  ph : Nat
  ann : Bool
  old : Fin n → Bool
  gph : Fin n → Nat
  entries : Nat
  e0 : Fin n → Nat

/-- Reader between its announcement and its departure. -/
def PC.rd : PC → Bool
  | .rSpin _ | .reading => true
  | _ => false

/-- lines 57-68. -/
def initSt (n : Nat) : St n :=
  { rin := 0, rout := 0, win := 0, wout := 0, pc := fun _ => .idle, q := Q.empty n, ri := 0,
    ro := 0, ph := 0, ann := false, old := fun _ => false, gph := fun _ => 0, entries := 0,
    e0 := fun _ => 0 }

def step {n : Nat} (s : St n) : Act n → Option (St n)
  -- line 90
  | .wlock t =>
    if s.pc t = .idle then
      some { s with win := s.win + 1, pc := upd s.pc t (.wSpin s.win), q := s.q.arrive t }
    else none
  -- line 77
  | .wunlock t =>
    if s.pc t = .writing then
      some { s with rin := s.rin &&& 0xFFFFFFF0#32, pc := upd s.pc t .uFaa, ann := false }
    else none
  -- lines 128-130
  | .rlock t =>
    if s.pc t = .idle then
      if s.rin &&& 3 = 0 then
        some { s with rin := s.rin + 0x100, pc := upd s.pc t .reading, ri := s.ri + 1,
                      old := upd s.old t false, e0 := upd s.e0 t s.entries }
      else
        some { s with rin := s.rin + 0x100, pc := upd s.pc t (.rSpin (s.rin &&& 3)),
                      ri := s.ri + 1, old := upd s.old t false, gph := upd s.gph t (s.ph - 1),
                      e0 := upd s.e0 t s.entries }
    else none
  -- line 115
  | .runlock t =>
    if s.pc t = .reading then
      some { s with rout := s.rout + 0x100, pc := upd s.pc t .idle, ro := s.ro + 1,
                    old := upd s.old t false }
    else none
  | .run t => match s.pc t with
    | .wSpin k =>
      if s.wout = k then some { s with pc := upd s.pc t (.wAnn k), q := s.q.enter t }
      else some s
    | .wAnn k => some { s with rin := s.rin + ((k &&& 1) ||| 2), pc := upd s.pc t (.wWait s.rin),
                               ph := s.ph + 1, ann := true, old := fun u => (s.pc u).rd }
    | .wWait r =>
      if s.rout = r then some { s with pc := upd s.pc t .writing, entries := s.entries + 1 }
      else some s
    | .uFaa => some { s with wout := s.wout + 1, pc := upd s.pc t .idle, q := s.q.leave }
    | .rSpin w =>
      if s.rin &&& 3 = w then some s else some { s with pc := upd s.pc t .reading }
    | _ => none

def sys (n : Nat) : Sys (St n) (Act n) := { init := (· = initSt n), step := step }

/-- Between the return of write_lock and the call of write_unlock. -/
def St.writes {n : Nat} (s : St n) (t : Fin n) : Prop := s.pc t = .writing
/-- Between the return of read_lock and the call of read_unlock. -/
def St.reads {n : Nat} (s : St n) (t : Fin n) : Prop := s.pc t = .reading
/-- Announced (line 128 executed) and waiting. -/
def St.rwaits {n : Nat} (s : St n) (t : Fin n) : Prop := ∃ w, s.pc t = .rSpin w

end Verif.Rw.Pflock
