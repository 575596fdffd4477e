import Verif.Spin.SimpleThm
import Verif.Spin.TicketThm
import Verif.Spin.AndersonThm
import Verif.Spin.ClhThm
import Verif.Spin.McsThm
import Verif.Rw.PflockThm

/-!
# Bounded overtaking (C111)

`passes` counts the acquisitions by others while a thread that took its place in the queue waits.  It looks only at who waits and who
holds, not at the ghost queue.  Ticket, Anderson, CLH and MCS locks and the writers of `ck_pflock` bound it by `n - 1`; for FAS, CAS
and DEC there is no bound.
-/

namespace Verif.Bypass

variable {S A : Type} {n : Nat}

/-- Somebody acquires between `s` and `s'`. -/
def acquires (hold : S → Fin n → Bool) (s s' : S) : Bool := decide (∃ u, hold s' u = true ∧ hold s u = false)

/-- The acquisitions in the schedule `as`, up to the moment thread `t` stops waiting. -/
def passes (step : S → A → Option S) (wait hold : S → Fin n → Bool) (t : Fin n) : S → List A → Nat
  | _, [] => 0
  | s, a :: as => match step s a with
    | some s' =>
      if wait s t = true ∧ wait s' t = true then (acquires hold s s').toNat + passes step wait hold t s' as else 0
    | none => 0

/-- What a first-come-first-served lock provides. -/
structure Fifo (step : S → A → Option S) (act hold : S → Fin n → Bool) (I : S → Prop) (q : S → Q n) : Prop where
  inv : ∀ s a s', I s → step s a = some s' → I s'
  queue : ∀ s, I s → QInv (q s) (act s) (hold s)
  grow : ∀ s a s', I s → step s a = some s' → ∀ t, act s t = true → hold s t = false →
    (q s').tk t = (q s).tk t ∧ (q s).srv.length + (acquires hold s s').toNat ≤ (q s').srv.length

theorem Fifo.le {step : S → A → Option S} {act hold : S → Fin n → Bool} {I : S → Prop} {q : S → Q n} (h : Fifo step act hold I q)
    (t : Fin n) (as : List A) (s : S) (hi : I s) : passes step (fun s t => act s t && !hold s t) hold t s as ≤ n - 1 := by
  have key : ∀ (as : List A) (s : S), I s → act s t = true → hold s t = false →
      passes step (fun s t => act s t && !hold s t) hold t s as + (q s).srv.length ≤ (q s).tk t := by
    intro as
    induction as with
    | nil => intro s hi ha hh; simpa [passes] using ((h.queue s hi).no_overtaking ha hh).1
    | cons a as ih =>
      intro s hi ha hh
      have hb := ((h.queue s hi).no_overtaking ha hh).1
      rw [passes]
      cases hs : step s a with
      | none => simpa using hb
      | some s' =>
        simp only
        split
        · next hw =>
          simp only [Bool.and_eq_true, Bool.not_eq_true'] at hw
          have h1 := ih s' (h.inv s a s' hi hs) hw.2.1 hw.2.2
          have h2 := h.grow s a s' hi hs t ha hh
          omega
        · omega
  by_cases hw : act s t = true ∧ hold s t = false
  · have h1 := key as s hi hw.1 hw.2
    have hq := h.queue s hi
    have h2 := hq.tk_lt hw.1
    have h3 := hq.window
    have h4 := hq.slen
    omega
  · cases as with
    | nil => exact Nat.zero_le _
    | cons a as =>
      rw [passes]
      cases step s a with
      | none => exact Nat.zero_le _
      | some s' =>
        simp only
        rw [if_neg]
        · exact Nat.zero_le _
        · intro hc; simp only [Bool.and_eq_true, Bool.not_eq_true'] at hc; exact hw hc.1

theorem acquires_upd {P : Type} (held : P → Bool) (f : Fin n → P) (u : Fin n) (v : P) :
    decide (∃ x, held (upd f u v x) = true ∧ held (f x) = false) = (held v && !held (f u)) := by
  rw [Bool.eq_iff_iff]
  simp only [decide_eq_true_eq, Bool.and_eq_true, Bool.not_eq_true']
  constructor
  · rintro ⟨x, h1, h2⟩
    by_cases he : x = u
    · subst he; simp only [upd_same] at h1; exact ⟨h1, h2⟩
    · rw [upd_ne _ _ he, h2] at h1; cases h1
  · rintro ⟨h1, h2⟩; exact ⟨u, by simpa using h1, h2⟩

theorem acquires_self {P : Type} (held : P → Bool) (f : Fin n → P) : decide (∃ x, held (f x) = true ∧ held (f x) = false) = false := by
  simp only [decide_eq_false_iff_not]
  rintro ⟨x, h1, h2⟩
  rw [h1] at h2; cases h2

end Verif.Bypass

namespace Verif.Spin.Ticket

open Verif.Bypass

/-- Has taken a ticket and not entered (`St.waits`). -/
def waitB {w n : Nat} (s : St w n) (t : Fin n) : Bool := (s.pc t).active && !(s.pc t).held

theorem waitB_iff {w n : Nat} {s : St w n} {t : Fin n} : waitB s t = true ↔ s.waits t := by
  unfold waitB St.waits; cases s.pc t <;> simp [PC.active, PC.held]

theorem inv_q {w n : Nat} {s : St w n} (hi : Inv s) :
    QInv ⟨s.arrivals, s.served, s.released, s.ticket⟩ (fun t => (s.pc t).active) (fun t => (s.pc t).held) :=
  ⟨by simpa [cnt] using hi.len, by simpa [cnt] using hi.slen, hi.pre, hi.act, hi.held,
    fun t h => by cases hp : s.pc t <;> simp_all [PC.held, PC.active], hi.cov⟩

theorem fifo {w n : Nat} (hn : n ≤ 2 ^ w) : Fifo (step (w := w) (n := n)) (fun s t => (s.pc t).active) (fun s t => (s.pc t).held) Inv
    (fun s => ⟨s.arrivals, s.served, s.released, s.ticket⟩) where
  inv _ _ _ hi hs := inv_step hn hi hs
  queue _ hi := inv_q hi
  grow s a s' hi hs t ha hh := by
    rcases a with u | u | u | u | u <;> simp only [step] at hs <;> step_split hs <;>
      simp only [acquires, acquires_upd, acquires_self] <;> grind [PC.active, PC.held]

/-- C111: while a thread waits with a ticket, the others acquire the lock at most `n - 1` times in all. -/
theorem bypass_bounded {w n : Nat} (hn : n ≤ 2 ^ w) {s : St w n} (h : (sys w n).Reach s) (t : Fin n) (as : List (Act n)) :
    passes step waitB (fun s t => (s.pc t).held) t s as ≤ n - 1 := (fifo hn).le t as s (inv_of_reach hn h)

namespace Packed

/-- Has taken a ticket and not entered. -/
def waitB {w n : Nat} (s : St w n) (t : Fin n) : Bool := (s.pc t).active && !(s.pc t).held

theorem active_abs {w : Nat} (p : PC w (BitVec (w + w))) : (absPc p).active = p.active := by cases p <;> rfl
theorem held_abs {w : Nat} (p : PC w (BitVec (w + w))) : (absPc p).held = p.held := by cases p <;> rfl

theorem fifo {w n : Nat} (hn : n ≤ 2 ^ w) : Fifo (step (w := w) (n := n)) (fun s t => (s.pc t).active) (fun s t => (s.pc t).held)
    (fun s => Inv (abs s)) (fun s => ⟨s.arrivals, s.served, s.released, s.ticket⟩) where
  inv _ _ _ hi hs := inv_step hn hi (step_sim hs)
  queue s hi := by
    have := inv_q hi
    simpa only [abs, active_abs, held_abs] using this
  grow s a s' hi hs t ha hh := by
    clear hi
    rcases a with u | u | u | u | u <;> simp only [step] at hs <;> step_split hs <;>
      simp only [acquires, acquires_upd, acquires_self] <;> grind [PC.active, PC.held]

/-- C111 for the x86 ticket lock (one packed word), trylocks included. -/
theorem bypass_bounded {w n : Nat} (hn : n ≤ 2 ^ w) {s : St w n} (h : (sys w n).Reach s) (t : Fin n) (as : List (Act n)) :
    passes step waitB (fun s t => (s.pc t).held) t s as ≤ n - 1 := (fifo hn).le t as s (inv_of_reach hn (reach_abs h))

end Packed

end Verif.Spin.Ticket

namespace Verif.Spin.Anderson

open Verif.Bypass

/-- Has its position and not seen the slot open (`St.waits`). -/
def waitB {n : Nat} (s : St n) (t : Fin n) : Bool := (s.pc t).act && !(s.pc t).held

theorem waitB_iff {n : Nat} {s : St n} {t : Fin n} : waitB s t = true ↔ s.waits t := by
  unfold waitB St.waits; cases s.pc t <;> simp [PC.act, PC.held]

theorem fifo {c n : Nat} (h0 : 0 < c) (hc : c < 2 ^ 32) (hn : n ≤ c) :
    Fifo (step (n := n) c) (fun s t => (s.pc t).act) (fun s t => (s.pc t).held) (Inv c) (fun s => s.q) where
  inv _ _ _ hi hs := inv_step h0 hc hn hi hs
  queue _ hi := hi.q
  grow s a s' hi hs t ha hh := by
    rcases a with u | u | u <;> simp only [step] at hs <;> step_split hs <;>
      simp only [acquires, acquires_upd, acquires_self, Q.arrive, Q.enter, Q.leave, List.length_append, List.length_singleton] <;>
      grind [PC.act, PC.held]

/-- C111 for `ck_spinlock_anderson`. -/
theorem bypass_bounded {c n : Nat} (h0 : 0 < c) (hc : c < 2 ^ 32) (hn : n ≤ c) {s : St n} (h : (sys c n).Reach s) (t : Fin n)
    (as : List (Act n)) : passes (step c) waitB (fun s t => (s.pc t).held) t s as ≤ n - 1 :=
  (fifo h0 hc hn).le t as s (inv_of_reach h0 hc hn h)

end Verif.Spin.Anderson

namespace Verif.Spin.Clh

open Verif.Bypass

variable {N : Type} [DecidableEq N] {n : Nat}

/-- Enqueued but not inside (`St.waits`). -/
def waitB (s : St N n) (t : Fin n) : Bool := (s.pc t).act && !(s.pc t).held

theorem waitB_iff {s : St N n} {t : Fin n} : waitB s t = true ↔ s.waits t := by
  unfold waitB St.waits; cases s.pc t <;> simp [PC.act, PC.held]

theorem fifo : Fifo (step (N := N) (n := n)) (fun s t => (s.pc t).act) (fun s t => (s.pc t).held) Inv (fun s => s.q) where
  inv _ _ _ hi hs := inv_step hi hs
  queue _ hi := hi.q
  grow s a s' hi hs t ha hh := by
    rcases a with u | u | u <;> simp only [step] at hs <;> step_split hs <;>
      simp only [acquires, acquires_upd, acquires_self, Q.arrive, Q.enter, Q.leave, List.length_append, List.length_singleton] <;>
      grind [PC.act, PC.held]

/-- C111 for `ck_spinlock_clh`. -/
theorem bypass_bounded {s : St N n} (h : (sys N n).Reach s) (t : Fin n) (as : List (Act n)) :
    passes step waitB (fun s t => (s.pc t).held) t s as ≤ n - 1 := fifo.le t as s (inv_of_reach h)

end Verif.Spin.Clh

namespace Verif.Spin.Mcs

open Verif.Bypass

variable {N : Type} [DecidableEq N] {n : Nat}

/-- Enqueued but not inside (`St.waits`). -/
def waitB (s : St N n) (t : Fin n) : Bool := (s.pc t).act && !(s.pc t).held

theorem waitB_iff {s : St N n} {t : Fin n} : waitB s t = true ↔ s.waits t := by
  unfold waitB St.waits; cases s.pc t <;> simp [PC.act, PC.held]

theorem fifo : Fifo (step (N := N) (n := n)) (fun s t => (s.pc t).act) (fun s t => (s.pc t).held) Inv (fun s => s.q) where
  inv _ _ _ hi hs := inv_step hi hs
  queue _ hi := hi.q
  grow s a s' hi hs t ha hh := by
    clear hi
    rcases a with u | u | u | u <;> simp only [step] at hs <;> step_split hs <;>
      simp only [acquires, acquires_upd, acquires_self, Q.arrive, Q.enter, Q.leave, List.length_append, List.length_singleton] <;>
      grind [PC.act, PC.held]

/-- C111 for `ck_spinlock_mcs`, trylocks included. -/
theorem bypass_bounded {s : St N n} (h : (sys N n).Reach s) (t : Fin n) (as : List (Act N n)) :
    passes step waitB (fun s t => (s.pc t).held) t s as ≤ n - 1 := fifo.le t as s (inv_of_reach h)

end Verif.Spin.Mcs

namespace Verif.Rw.Pflock

open Verif.Bypass

variable {n : Nat}

/-- Has its writer ticket and waits for its turn (line 91). -/
def waitB (s : St n) (t : Fin n) : Bool := (s.pc t).act && !(s.pc t).held

theorem waitB_iff {s : St n} {t : Fin n} : waitB s t = true ↔ ∃ k, s.pc t = .wSpin k := by
  unfold waitB; cases s.pc t <;> simp

theorem grow {s s' : St n} {a : Act n} (hs : step s a = some s') {t : Fin n} (ha : (s.pc t).act = true) (hh : (s.pc t).held = false) :
    s'.q.tk t = s.q.tk t ∧ s.q.srv.length + (acquires (fun s t => (s.pc t).held) s s').toNat ≤ s'.q.srv.length := by
  rcases a with u | u | u | u | u
  case run =>
    cases hp : s.pc u <;> simp only [step, hp] at hs <;> step_split hs <;>
      simp only [acquires, acquires_upd, acquires_self, Q.arrive, Q.enter, Q.leave, List.length_append, List.length_singleton] <;>
      grind
  all_goals
    simp only [step] at hs
    step_split hs <;>
      simp only [acquires, acquires_upd, acquires_self, Q.arrive, Q.enter, Q.leave, List.length_append, List.length_singleton] <;>
      grind

theorem fifo (hn : n < 2 ^ 24) : Fifo (step (n := n)) (fun s t => (s.pc t).act) (fun s t => (s.pc t).held) Inv (fun s => s.q) where
  inv _ _ _ hi hs := inv_step hn hi hs
  queue _ hi := hi.q
  grow _ _ _ _ hs _ ha hh := grow hs ha hh

/-- C111 for the writers of `ck_pflock`: other writers get their turn at most `n - 1` times while a writer waits for its own. -/
theorem bypass_bounded (hn : n < 2 ^ 24) {s : St n} (h : (sys n).Reach s) (t : Fin n) (as : List (Act n)) :
    passes step waitB (fun s t => (s.pc t).held) t s as ≤ n - 1 := (fifo hn).le t as s (inv_of_reach hn h)

end Verif.Rw.Pflock

/-! ## No bound: FAS, CAS, DEC -/

namespace Verif.Spin

open Verif.Bypass

/-- Inside `lock` and not returned. -/
def waitB {n : Nat} (s : St n) (t : Fin n) : Bool := s.pc t = .rmw || s.pc t = .spin

/-- Between a successful return and unlock (`St.holds`). -/
def holdB {n : Nat} (s : St n) (t : Fin n) : Bool := s.pc t = .inside

/-- Two threads: the value and where they are. -/
def two (v : BitVec 32) (a b : PC) : St 2 := ⟨v, fun i => if i = 0 then a else b⟩

/-- One round: thread 1 locks and unlocks; thread 0 tries once, looks once and sees the lock free after the unlock. -/
def round : List (Act 2) := [.lock 1, .run 1, .run 0, .run 0, .unlock 1, .run 0]

theorem rounds (step : St 2 → Act 2 → Option (St 2)) (s0 : St 2)
    (h : ∀ rest, passes step waitB holdB 0 s0 (round ++ rest) = 1 + passes step waitB holdB 0 s0 rest) (k : Nat) :
    passes step waitB holdB 0 s0 (List.replicate k round).flatten = k := by
  induction k with
  | zero => rfl
  | succ k ih => rw [List.replicate_succ, List.flatten_cons, h, ih, Nat.add_comm]

def same (o : Option (St 2)) (s : St 2) : Bool := match o with
  | some s' => s'.value == s.value && decide (s'.pc 0 = s.pc 0) && decide (s'.pc 1 = s.pc 1)
  | none => false

theorem of_same {o : Option (St 2)} {s : St 2} (h : same o s = true) : o = some s := by
  cases o with
  | none => cases h
  | some s' =>
    simp only [same, Bool.and_eq_true, beq_iff_eq, decide_eq_true_eq] at h
    obtain ⟨⟨hv, h0⟩, h1⟩ := h
    cases s; cases s'
    simp only at hv h0 h1
    subst hv
    congr 2
    funext i
    match i with
    | 0 => exact h0
    | 1 => exact h1

theorem round_passes {step : St 2 → Act 2 → Option (St 2)} {s0 s1 s2 s3 s4 s5 : St 2} (h1 : step s0 (.lock 1) = some s1)
    (h2 : step s1 (.run 1) = some s2) (h3 : step s2 (.run 0) = some s3) (h4 : step s3 (.run 0) = some s4)
    (h5 : step s4 (.unlock 1) = some s5) (h6 : step s5 (.run 0) = some s0)
    (hw : (waitB s0 0 && waitB s1 0 && waitB s2 0 && waitB s3 0 && waitB s4 0 && waitB s5 0) = true)
    (ha : (acquires holdB s0 s1, acquires holdB s1 s2, acquires holdB s2 s3, acquires holdB s3 s4, acquires holdB s4 s5, acquires holdB s5 s0) =
      (false, true, false, false, false, false)) (rest : List (Act 2)) :
    passes step waitB holdB 0 s0 (round ++ rest) = 1 + passes step waitB holdB 0 s0 rest := by
  simp only [Bool.and_eq_true] at hw
  obtain ⟨⟨⟨⟨⟨w0, w1⟩, w2⟩, w3⟩, w4⟩, w5⟩ := hw
  simp only [Prod.mk.injEq] at ha
  obtain ⟨a1, a2, a3, a4, a5, a6⟩ := ha
  simp [round, passes, h1, h2, h3, h4, h5, h6, w0, w1, w2, w3, w4, w5, a1, a2, a3, a4, a5, a6]

/-- C111: a thread that keeps trying can be passed any number of times (FAS). -/
theorem Fas.bypass_unbounded (k : Nat) : ∃ s, (Fas.sys 2).Reach s ∧ ∃ as, passes Fas.step waitB holdB 0 s as = k :=
  ⟨two 0 .rmw .idle, .of_run (s := Fas.initSt 2) (as := [.lock 0]) (.init rfl) (of_same (by decide)), _,
    rounds Fas.step _ (round_passes (s1 := two 0 .rmw .rmw) (s2 := two 1 .rmw .inside) (s3 := two 1 .spin .inside)
      (s4 := two 1 .spin .inside) (s5 := two 0 .spin .idle) (of_same (by decide)) (of_same (by decide)) (of_same (by decide))
      (of_same (by decide)) (of_same (by decide)) (of_same (by decide)) (by decide) (by decide)) k⟩

/-- C111: the same for CAS. -/
theorem Cas.bypass_unbounded (k : Nat) : ∃ s, (Cas.sys 2).Reach s ∧ ∃ as, passes Cas.step waitB holdB 0 s as = k :=
  ⟨two 0 .rmw .idle, .of_run (s := Cas.initSt 2) (as := [.lock 0]) (.init rfl) (of_same (by decide)), _,
    rounds Cas.step _ (round_passes (s1 := two 0 .rmw .rmw) (s2 := two 1 .rmw .inside) (s3 := two 1 .spin .inside)
      (s4 := two 1 .spin .inside) (s5 := two 0 .spin .idle) (of_same (by decide)) (of_same (by decide)) (of_same (by decide))
      (of_same (by decide)) (of_same (by decide)) (of_same (by decide)) (by decide) (by decide)) k⟩

/-- C111: the same for DEC. -/
theorem Dec.bypass_unbounded (k : Nat) : ∃ s, (Dec.sys 2).Reach s ∧ ∃ as, passes Dec.step waitB holdB 0 s as = k :=
  ⟨two 1 .rmw .idle, .of_run (s := Dec.initSt 2) (as := [.lock 0]) (.init rfl) (of_same (by decide)), _,
    rounds Dec.step _ (round_passes (s1 := two 1 .rmw .rmw) (s2 := two 0 .rmw .inside) (s3 := two (-1) .spin .inside)
      (s4 := two (-1) .spin .inside) (s5 := two 1 .spin .idle) (of_same (by decide)) (of_same (by decide)) (of_same (by decide))
      (of_same (by decide)) (of_same (by decide)) (of_same (by decide)) (by decide) (by decide)) k⟩

end Verif.Spin

/-! ## Cases -/

namespace Verif.Bypass

/-- Three threads: 0 holds, 1 and 2 wait with tickets; both others pass thread 2 (the bound `n - 1` counts acquisitions from its ticket on:
0 had not entered yet). -/
theorem bypass_case : passes (Spin.Ticket.step (w := 2) (n := 3)) Spin.Ticket.waitB (fun s t => (s.pc t).held) 2
    ((Spin.Ticket.sys 2 3).run (Spin.Ticket.initSt 2 3) [.lock 0, .lock 1, .lock 2] |>.getD (Spin.Ticket.initSt 2 3))
    [.run 2, .run 0, .run 2, .unlockInc 0, .run 2, .run 1, .lock 0, .unlockInc 1, .run 0, .run 2, .unlockInc 2, .run 0] = 2 := by decide

theorem bypass_case_reach : (Spin.Ticket.sys 2 3).Reach
    ((Spin.Ticket.sys 2 3).run (Spin.Ticket.initSt 2 3) [.lock 0, .lock 1, .lock 2] |>.getD (Spin.Ticket.initSt 2 3)) :=
  .of_run (s := Spin.Ticket.initSt 2 3) (as := [.lock 0, .lock 1, .lock 2]) (.init rfl) rfl

end Verif.Bypass
