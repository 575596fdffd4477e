import Verif.Progress.Lf
import Verif.Smr.HpStackThm

/-!
# `ck_hp_stack` is lock-free (C105)

The model of C38 (`Smr/HpStack.lean`).  `base` is the number of steps that an operation needs if no other thread writes `head`; an
attempt with an old copy of `head` (`stale`) costs four steps more.  The client's calls of the hazard pointer functions are not steps
of an operation of the stack.
-/

namespace Verif.HpStack.Lf

open Verif Verif.Lf Verif.HpStack

variable {N : Type} {n : Nat}

def kind (_ : St N n) : Act N n → Kind
  | .call _ _ => .call
  | .ret _ => .ret
  | .run _ => .work
  | .hp _ => .other

/-- Steps left if nobody interferes, and the copy of `head`. -/
def base : PC N → Nat × Option (Option N)
  | .psh _ _ => (3, none)
  | .pshW _ _ e => (2, some e)
  | .pshC _ _ e => (1, some e)
  | .p0 _ => (5, none)
  | .p1 _ e => (4, some (some e))
  | .p2 _ e => (3, some (some e))
  | .p3 _ e => (2, some (some e))
  | .p4 _ e _ => (1, some (some e))
  | .p5 e => (4, some (some e))
  | .p6 e => (3, some (some e))
  | .p7 u => (4, some u)
  | .p8 u => (3, some u)
  | .leave => (1, none)
  | .idle | .ret _ => (0, none)

variable [DecidableEq N]

def stale (hd : Option N) : Option (Option N) → Nat
  | none => 0
  | some e => if hd = e then 0 else 4

/-- Steps left for `t` if it runs alone from now on. -/
def left (s : St N n) (t : Fin n) : Nat := (base (s.th t)).1 + stale s.head (base (s.th t)).2

omit [DecidableEq N] in
/-- The operation has yet to take effect. -/
def pend : PC N → Nat
  | .idle | .ret _ | .leave => 0
  | _ => 1

theorem stale_le (hd : Option N) (e : Option (Option N)) : stale hd e ≤ 4 := by
  unfold stale; split <;> (try split) <;> omega

/-- What a step of an operation does: it has fewer steps left, or it succeeds. -/
structure Cases (s s' : St N n) (t : Fin n) (pc : PC N) : Prop where
  th : s'.th = upd s.th t pc
  idle' : pc ≠ .idle
  idle : s.th t ≠ .idle
  left : left s' t + 1 ≤ left s t
  how : (s'.head = s.head ∧ pend pc ≤ pend (s.th t)) ∨ (pend (s.th t) = 1 ∧ pend pc = 0)

variable {D C thr : Nat}

theorem run_cases {s s' : St N n} {t : Fin n} (h : run D C thr s t = some s') : ∃ pc, Cases s s' t pc := by
  unfold run at h
  cases hp : s.th t with
  | idle => rw [hp] at h; cases h
  | ret r => rw [hp] at h; cases h
  | psh tr x =>
    simp only [hp] at h; cases h
    exact ⟨_, rfl, by simp, by simp [hp], by simp [left, hp, base, stale], .inl ⟨rfl, by simp [hp, pend]⟩⟩
  | pshW tr x e =>
    simp only [hp] at h; cases h
    exact ⟨_, rfl, by simp, by simp [hp], by simp [left, hp, base]; omega, .inl ⟨rfl, by simp [hp, pend]⟩⟩
  | pshC tr x e =>
    simp only [hp] at h
    split at h
    · obtain ⟨h', -, rfl⟩ := via_eq h
      exact ⟨_, rfl, by simp, by simp [hp], by simp [left, hp, base, stale], .inr ⟨by rw [hp]; rfl, rfl⟩⟩
    · next hc =>
      split at h <;> cases h
      · exact ⟨_, rfl, by simp, by simp [hp], by simp [left, hp, base, stale], .inl ⟨rfl, by simp [hp, pend]⟩⟩
      · exact ⟨_, rfl, by simp, by simp [hp], by simp [left, hp, base, stale, hc], .inl ⟨rfl, by simp [hp, pend]⟩⟩
  | p0 tr =>
    simp only [hp] at h
    split at h <;> cases h
    · exact ⟨_, rfl, by simp, by simp [hp], by simp [left, hp, base, stale], .inl ⟨rfl, by simp [hp, pend]⟩⟩
    · next e he => exact ⟨_, rfl, by simp, by simp [hp], by simp [left, hp, base, stale, he], .inl ⟨rfl, by simp [hp, pend]⟩⟩
  | p1 tr e =>
    simp only [hp] at h
    obtain ⟨h', -, rfl⟩ := via_eq h
    exact ⟨_, rfl, by simp, by simp [hp], by simp [left, hp, base]; omega, .inl ⟨rfl, by simp [hp, pend]⟩⟩
  | p2 tr e =>
    simp only [hp] at h
    split at h
    · obtain ⟨h', -, rfl⟩ := via_eq h
      exact ⟨_, rfl, by simp, by simp [hp], by simp [left, hp, base]; omega, .inl ⟨rfl, by simp [hp, pend]⟩⟩
    · next hc =>
      split at h <;> cases h
      · exact ⟨_, rfl, by simp, by simp [hp], by simp [left, hp, base, stale, hc], .inl ⟨rfl, by simp [hp, pend]⟩⟩
      · exact ⟨_, rfl, by simp, by simp [hp], by simp [left, hp, base, stale, hc], .inl ⟨rfl, by simp [hp, pend]⟩⟩
  | p3 tr e =>
    simp only [hp] at h; cases h
    exact ⟨_, rfl, by simp, by simp [hp], by simp [left, hp, base]; omega, .inl ⟨rfl, by simp [hp, pend]⟩⟩
  | p4 tr e nx =>
    simp only [hp] at h
    split at h
    · obtain ⟨h', -, rfl⟩ := via_eq h
      exact ⟨_, rfl, by simp, by simp [hp], by simp [left, hp, base, stale], .inr ⟨by rw [hp]; rfl, rfl⟩⟩
    · next hc =>
      split at h
      · cases h
        exact ⟨_, rfl, by simp, by simp [hp], by simp [left, hp, base, stale, hc], .inl ⟨rfl, by simp [hp, pend]⟩⟩
      · split at h <;> cases h
        · exact ⟨_, rfl, by simp, by simp [hp], by simp [left, hp, base, stale], .inl ⟨rfl, by simp [hp, pend]⟩⟩
        · next e' he =>
          rw [he] at hc
          exact ⟨_, rfl, by simp, by simp [hp], by simp only [left, hp, base, stale, he, if_neg hc, upd_same, if_true]; omega,
            .inl ⟨rfl, by simp [hp, pend]⟩⟩
  | p5 e =>
    simp only [hp] at h
    obtain ⟨h', -, rfl⟩ := via_eq h
    exact ⟨_, rfl, by simp, by simp [hp], by simp [left, hp, base]; omega, .inl ⟨rfl, by simp [hp, pend]⟩⟩
  | p6 e =>
    simp only [hp] at h
    split at h
    · obtain ⟨h', -, rfl⟩ := via_eq h
      exact ⟨_, rfl, by simp, by simp [hp], by simp [left, hp, base]; omega, .inl ⟨rfl, by simp [hp, pend]⟩⟩
    · next hc =>
      cases h
      exact ⟨_, rfl, by simp, by simp [hp], by simp [left, hp, base, stale, hc], .inl ⟨rfl, by simp [hp, pend]⟩⟩
  | p7 u =>
    simp only [hp] at h
    obtain ⟨h', -, rfl⟩ := via_eq h
    exact ⟨_, rfl, by simp, by simp [hp], by simp [left, hp, base]; omega, .inl ⟨rfl, by simp [hp, pend]⟩⟩
  | p8 u =>
    simp only [hp] at h
    split at h
    · cases h
      exact ⟨_, rfl, by simp, by simp [hp], by simp [left, hp, base, stale]; omega, .inl ⟨rfl, by simp [hp, pend]⟩⟩
    · next x hx =>
      split at h
      · next hu =>
        obtain ⟨h', -, rfl⟩ := via_eq h
        exact ⟨_, rfl, by simp, by simp [hp], by simp [left, hp, base, hu]; omega, .inl ⟨rfl, by simp [hp, pend]⟩⟩
      · next hu =>
        cases h
        have hu' : ¬ some x = u := fun e => hu e.symm
        exact ⟨_, rfl, by simp, by simp [hp], by simp only [left, hp, base, stale, hx, if_neg hu', upd_same, if_true]; omega,
          .inl ⟨rfl, by simp [hp, pend]⟩⟩
  | leave =>
    simp only [hp] at h
    obtain ⟨h', -, rfl⟩ := via_eq h
    exact ⟨_, rfl, by simp, by simp [hp], by simp [left, hp, base, stale], .inl ⟨rfl, by simp [hp, pend]⟩⟩

/-- Steps left, and for every operation that has yet to take effect the steps this would cost the others. -/
def share (s : St N n) (t : Fin n) : Nat := left s t + 4 * n * pend (s.th t)

def pot (s : St N n) : Nat := ∑ t, share s t

omit [DecidableEq N] in
/-- The thread is in an operation. -/
def inOp : PC N → Nat
  | .idle => 0
  | _ => 1

omit [DecidableEq N] in
/-- The number of threads in an operation. -/
def busy (s : St N n) : Nat := ∑ t, inOp (s.th t)

omit [DecidableEq N] in
theorem inOp_one {pc : PC N} (h : pc ≠ .idle) : inOp pc = 1 := by
  cases pc <;> first | rfl | exact absurd rfl h

omit [DecidableEq N] in
theorem busy_le (s : St N n) : busy s ≤ n := by
  unfold busy
  refine Nat.le_trans (Finset.sum_le_card_nsmul _ _ 1 fun t _ => ?_) (by simp)
  unfold inOp; split <;> simp

omit [DecidableEq N] in
theorem busy_upd (s s' : St N n) (t : Fin n) (pc : PC N) (h : s'.th = upd s.th t pc) :
    busy s' + inOp (s.th t) = busy s + inOp pc := by
  have := sum_eq (fun u => inOp (s.th u)) (fun u => inOp (s'.th u)) t (fun u hu => by rw [h, upd_ne _ _ hu])
  simp only [h, upd_same] at this
  unfold busy
  rw [h]
  exact this

theorem share_idle {s : St N n} {t : Fin n} (h : s.th t = .idle) : share s t = 0 := by
  simp [share, left, h, base, stale, pend]

/-- A call or a return. -/
theorem step_th {s s' : St N n} {a : Act N n} (h : step D C thr s a = some s') (ha : ∀ t, a ≠ .run t) (hh : ∀ b, a ≠ .hp b) :
    ∃ t pc, s'.th = upd s.th t pc ∧ s'.head = s.head ∧
      ((kind s a = .call ∧ s.th t = .idle ∧ pc ≠ .idle ∧ (base pc).1 ≤ 5 ∧ (base pc).2 = none)
        ∨ (kind s a = .ret ∧ s.th t ≠ .idle ∧ pc = .idle)) := by
  cases a with
  | run t => exact absurd rfl (ha t)
  | hp b => exact absurd rfl (hh b)
  | call t o =>
    simp only [step] at h
    split at h
    · next hid =>
      split at h
      all_goals first
        | cases h
        | (split at h
           · cases h; exact ⟨t, _, rfl, rfl, .inl ⟨rfl, hid, by simp, by simp [base], rfl⟩⟩
           · cases h)
    · cases h
  | ret t =>
    simp only [step] at h
    split at h
    · next hr => cases h; exact ⟨t, _, rfl, rfl, .inr ⟨rfl, by rw [hr]; simp, rfl⟩⟩
    · cases h

/-- Lock freedom: whatever the scheduler and the client of the hazard pointers do, and wherever threads are stopped, the steps of all
operations together are bounded by the number of operations that have returned and the number of threads. -/
theorem lock_free {c : Ct (St N n)} (h : (counted (sys D C thr) kind).Reach c) : c.work ≤ (4 * n + 5) * (c.rets + n) := by
  refine bound pot busy (4 * n + 5) n ?_ busy_le ?_ h
  · intro s h0
    constructor
    · exact Finset.sum_eq_zero fun t _ => share_idle (h0.idle t)
    · exact Finset.sum_eq_zero fun t _ => by simp [h0.idle t, inOp]
  · intro s a s' hr hs
    by_cases ha : ∃ t, a = .run t
    · obtain ⟨t, rfl⟩ := ha
      obtain ⟨pc, hc⟩ := run_cases hs
      have hb := busy_upd s s' t pc hc.th
      rw [inOp_one hc.idle, inOp_one hc.idle'] at hb
      have hpc : s'.th t = pc := by rw [hc.th, upd_same]
      have hth' : ∀ u, u ≠ t → s'.th u = s.th u := fun u hu => by rw [hc.th, upd_ne _ _ hu]
      have hl := hc.left
      refine ⟨?_, by omega⟩
      unfold pot
      rcases hc.how with ⟨hh, h2⟩ | ⟨h1, h2⟩
      · have h4 := sum_eq (share s) (share s') t fun u hu => by simp only [share, left, hth' u hu, hh]
        have h5 : 4 * n * pend pc ≤ 4 * n * pend (s.th t) := Nat.mul_le_mul_left _ h2
        have h6 : share s' t + 1 ≤ share s t := by unfold share; rw [hpc]; omega
        omega
      · have h4 := sum_step (share s) (share s') t 4 fun u hu => by
          simp only [share, left, hth' u hu]
          have := stale_le s'.head (base (s.th u)).2
          omega
        have h6 : share s' t + 1 + 4 * n ≤ share s t := by unfold share; rw [hpc, h1, h2]; omega
        omega
    · by_cases hh : ∃ b, a = .hp b
      · obtain ⟨b, rfl⟩ := hh
        have hs' : step D C thr s (.hp b) = some s' := hs
        simp only [step] at hs'
        split at hs'
        · obtain ⟨h', -, rfl⟩ := via_eq hs'
          exact ⟨Nat.le_refl _, rfl⟩
        · cases hs'
      · obtain ⟨t, pc, hth, hhd, hc⟩ := step_th hs (fun t e => ha ⟨t, e⟩) fun b e => hh ⟨b, e⟩
        have hb := busy_upd s s' t pc hth
        have hth' : ∀ u, u ≠ t → s'.th u = s.th u := fun u hu => by rw [hth, upd_ne _ _ hu]
        have hpc : s'.th t = pc := by rw [hth, upd_same]
        have hsh := sum_eq (share s) (share s') t fun u hu => by simp only [share, left, hth' u hu, hhd]
        rcases hc with ⟨hk, h1, h2, h3, h4⟩ | ⟨hk, h1, rfl⟩
        · rw [hk]
          rw [h1, inOp_one h2] at hb; simp only [inOp] at hb
          refine ⟨?_, by omega⟩
          have h5 : left s' t ≤ 5 := by simp only [left, hpc, h4, stale]; exact h3
          have h6 : 4 * n * pend (s'.th t) ≤ 4 * n := by
            unfold pend; split <;> simp
          have h7 : share s' t ≤ 4 * n + 5 := by unfold share; omega
          unfold pot
          omega
        · rw [hk]
          rw [inOp_one h1] at hb; simp only [inOp] at hb
          refine ⟨?_, by omega⟩
          rw [share_idle (s := s') hpc] at hsh
          unfold pot
          omega

omit [DecidableEq N] in
/-- The operation has not ended. -/
def running (pc : PC N) : Prop := (base pc).1 ≠ 0

/-- Obstruction freedom: from any state that can be reached, with the other threads stopped wherever they are, a thread that runs
alone ends its operation within eight steps. -/
theorem alone_returns {s : St N n} (h : (sys D C thr).Reach s) (t : Fin n) :
    ∃ j s', j ≤ 8 ∧ alone (fun s => run D C thr s t) j s = some s' ∧ ¬ running (s'.th t) := by
  refine alone_ends (fun s => run D C thr s t) (fun s => left s t) (fun s => (sys D C thr).Reach s)
    (fun s => ¬ running (s.th t)) (fun s s' hi hs => .step (a := .run t) hi hs) ?_ 8 s h ?_
  · intro s hr hd
    have hd : (base (s.th t)).1 ≠ 0 := fun e => hd fun h => h e
    obtain ⟨s', hs⟩ := never_stuck hr (r := t) (fun e => hd (by rw [e]; rfl)) (fun x e => hd (by rw [e]; rfl))
    obtain ⟨pc, hc⟩ := run_cases hs
    exact ⟨s', hs, hc.left⟩
  · unfold left
    have := stale_le s.head (base (s.th t)).2
    revert this
    generalize s.th t = pc
    cases pc <;> simp only [base, stale] <;> omega

end Verif.HpStack.Lf
