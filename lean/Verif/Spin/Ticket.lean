import Verif.Core.Count
import Verif.Core.Spec
import Verif.Core.Tactic

/-!
# Ticket spinlock (models), `include/spinlock/ticket.h`

Two variants exist in the code.

* the portable one (lines 186-285): two words `next` and `position`, unlock is load + store,
  no trylock;
* the x86 one (lines 44-184): one word holding both counters, FAA of `1 << w`, half-word
  increment, trylock by CAS.  `w = 16` (lines 45-54) or `w = 32` (lines 55-64).

`Ticket.step` is the field-level machine containing the actions of both variants, `Packed.step`
is the x86 variant on the packed word.  `arrivals`, `served`, `released`, `ticket` are ghost:
no step reads them.
-/

namespace Verif.Spin.Ticket

inductive Act (n : Nat)
  | lock (t : Fin n)      -- take a ticket
  | run (t : Fin n)       -- next access of a running lock / trylock / unlock
  | trylock (t : Fin n)   -- x86 only
  | unlock (t : Fin n)    -- portable: load; x86: half-word increment (`unlockInc`)
  | unlockInc (t : Fin n)
  deriving DecidableEq

/-- `σ` is the type of the trylock snapshot. -/
inductive PC (w : Nat) (σ : Type)
  | idle
  | wait (request : BitVec w)
  | tryCas (snapshot : σ)
  | inside
  | unlocking (update : BitVec w)
  deriving DecidableEq

structure St (w n : Nat) where
  next : BitVec w
  position : BitVec w
  pc : Fin n → PC w (BitVec w × BitVec w)
  /-- ghost: threads in the order in which they took tickets -/
  arrivals : List (Fin n)
  /-- ghost: threads in the order in which they entered -/
  served : List (Fin n)
  /-- ghost: number of completed releases -/
  released : Nat
  /-- ghost: index of the thread's last ticket -/
  ticket : Fin n → Nat

/-- ticket.h:199-208. -/
def initSt (w n : Nat) : St w n :=
  { next := 0, position := 0, pc := fun _ => .idle, arrivals := [], served := [],
    released := 0, ticket := fun _ => 0 }

/-- The field-level machine. -/
def step {w n : Nat} (s : St w n) : Act n → Option (St w n)
  -- ticket.h:227 (portable); ticket.h:105-111 (x86: the FAA result also contains `position`;
  -- its first comparison is the first `run` step here)
  | .lock t =>
    if s.pc t = .idle then
      some { s with next := s.next + 1, pc := upd s.pc t (.wait s.next),
                    arrivals := s.arrivals ++ [t],
                    ticket := upd s.ticket t s.arrivals.length }
    else none
  -- ticket.h:153-158: load the snapshot, fail if position != request
  | .trylock t =>
    if s.pc t = .idle then
      if s.position ≠ s.next then some s
      else some { s with pc := upd s.pc t (.tryCas (s.next, s.position)) }
    else none
  -- ticket.h:282
  | .unlock t =>
    if s.pc t = .inside then some { s with pc := upd s.pc t (.unlocking s.position) } else none
  -- ticket.h:174
  | .unlockInc t =>
    if s.pc t = .inside then
      some { s with position := s.position + 1, pc := upd s.pc t .idle,
                    released := s.released + 1 }
    else none
  | .run t => match s.pc t with
    -- ticket.h:234 / 111-115
    | .wait r =>
      if s.position = r then
        some { s with pc := upd s.pc t .inside, served := s.served ++ [t] }
      else some s
    -- ticket.h:160-167
    | .tryCas (sn, sp) =>
      if s.next = sn ∧ s.position = sp then
        some { s with next := s.next + 1, pc := upd s.pc t .inside,
                      arrivals := s.arrivals ++ [t], served := s.served ++ [t],
                      ticket := upd s.ticket t s.arrivals.length }
      else some { s with pc := upd s.pc t .idle }
    -- ticket.h:283
    | .unlocking u =>
      some { s with position := u + 1, pc := upd s.pc t .idle, released := s.released + 1 }
    | _ => none

def sys (w n : Nat) : Sys (St w n) (Act n) := { init := (· = initSt w n), step := step }

/-- Between a successful lock/trylock return and the releasing store. -/
def St.holds {w n : Nat} (s : St w n) (t : Fin n) : Prop :=
  s.pc t = .inside ∨ ∃ u, s.pc t = .unlocking u

/-- Has taken a ticket and not entered yet. -/
def St.waits {w n : Nat} (s : St w n) (t : Fin n) : Prop := ∃ r, s.pc t = .wait r

/-- `ck_spinlock_ticket_locked` when both loads see the same state (always so on x86,
ticket.h:87-97; ticket.h:210-219). -/
def locked {w n : Nat} (s : St w n) : Bool := s.position ≠ s.next

namespace Packed

/-- The low half: `value & CK_SPINLOCK_TICKET_MASK`. -/
def lo {w : Nat} (v : BitVec (w + w)) : BitVec w := BitVec.ofNat w (v.toNat % 2 ^ w)
/-- The high half: `value >> CK_SPINLOCK_TICKET_SHIFT`. -/
def hi {w : Nat} (v : BitVec (w + w)) : BitVec w := BitVec.ofNat w (v.toNat / 2 ^ w)
/-- `CK_SPINLOCK_TICKET_INC` on the low half only (16/32-bit increment in memory, no carry into
the other half). -/
def incLo {w : Nat} (v : BitVec (w + w)) : BitVec (w + w) :=
  BitVec.ofNat (w + w) (v.toNat / 2 ^ w * 2 ^ w + (v.toNat % 2 ^ w + 1) % 2 ^ w)

structure St (w n : Nat) where
  value : BitVec (w + w)
  pc : Fin n → PC w (BitVec (w + w))
  arrivals : List (Fin n)
  served : List (Fin n)
  released : Nat
  ticket : Fin n → Nat

/-- ticket.h:77-85. -/
def initSt (w n : Nat) : St w n :=
  { value := 0, pc := fun _ => .idle, arrivals := [], served := [],
    released := 0, ticket := fun _ => 0 }

/-- ticket.h:99-176. -/
def step {w n : Nat} (s : St w n) : Act n → Option (St w n)
  -- ticket.h:105: request = FAA(&value, 1 << w); request >>= w
  | .lock t =>
    if s.pc t = .idle then
      some { s with value := s.value + BitVec.ofNat (w + w) (2 ^ w),
                    pc := upd s.pc t (.wait (hi s.value)),
                    arrivals := s.arrivals ++ [t],
                    ticket := upd s.ticket t s.arrivals.length }
    else none
  -- ticket.h:153-158
  | .trylock t =>
    if s.pc t = .idle then
      if lo s.value ≠ hi s.value then some s
      else some { s with pc := upd s.pc t (.tryCas s.value) }
    else none
  | .unlock _ => none
  -- ticket.h:174
  | .unlockInc t =>
    if s.pc t = .inside then
      some { s with value := incLo s.value, pc := upd s.pc t .idle, released := s.released + 1 }
    else none
  | .run t => match s.pc t with
    -- ticket.h:111-115
    | .wait r =>
      if lo s.value = r then
        some { s with pc := upd s.pc t .inside, served := s.served ++ [t] }
      else some s
    -- ticket.h:160-167: CAS(&value, snapshot, snapshot + INCREMENT)
    | .tryCas v =>
      if s.value = v then
        some { s with value := v + BitVec.ofNat (w + w) (2 ^ w), pc := upd s.pc t .inside,
                      arrivals := s.arrivals ++ [t], served := s.served ++ [t],
                      ticket := upd s.ticket t s.arrivals.length }
      else some { s with pc := upd s.pc t .idle }
    | _ => none

def sys (w n : Nat) : Sys (St w n) (Act n) := { init := (· = initSt w n), step := step }

def St.holds {w n : Nat} (s : St w n) (t : Fin n) : Prop := s.pc t = .inside
def St.waits {w n : Nat} (s : St w n) (t : Fin n) : Prop := ∃ r, s.pc t = .wait r
/-- ticket.h:87-97. -/
def locked {w n : Nat} (s : St w n) : Bool := hi s.value ≠ lo s.value

end Packed

end Verif.Spin.Ticket
