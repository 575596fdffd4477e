import Verif.Progress.Lf
import Verif.Fifo.MpmcTry

/-!
# `ck_fifo_mpmc` is lock-free (C104)

The model of C36 (`Fifo/Mpmc.lean`), under its condition on the reuse of entries.  `base` is the number of steps that an operation needs
if no other thread succeeds with a compare-and-swap and `tail` is at the last entry; an attempt that began before the last success
(`stale`) costs eight steps more, and moving a lagging `tail` is paid by the enqueue that left it behind.
-/

namespace Verif.Fifo.Mpmc.Lf

open Verif Verif.Lf Verif.Fifo.Mpmc

variable {N V : Type} {n : Nat}

/-- Every step of a thread is one of its operation. -/
def kind (_ : St N V n) : Act N V n → Kind
  | .call _ _ => .call
  | .ret _ => .ret
  | .run _ => .work

/-- Steps left if nobody interferes, and whether the attempt has begun. -/
def base : PC N V → Nat × Bool
  | .enqV _ _ _ => (10, false)
  | .enqP _ _ _ => (9, false)
  | .enqG _ _ _ => (8, false)
  | .eTG _ _ _ => (7, false)
  | .eTP _ _ _ _ => (6, true)
  | .eNG _ _ _ _ _ => (5, true)
  | .eNP _ _ _ _ _ _ => (4, true)
  | .eCk _ _ _ _ _ _ _ => (3, true)
  | .eFwd _ _ _ _ _ _ => (2, true)
  | .eCas _ _ _ _ _ _ => (2, true)
  | .eSw _ _ _ _ => (1, false)
  | .dHG _ => (8, false)
  | .dHP _ _ => (7, true)
  | .dTG _ _ _ => (6, true)
  | .dTP _ _ _ _ => (5, true)
  | .dNG _ _ _ _ _ => (4, true)
  | .dNP _ _ _ _ _ => (3, true)
  | .dFwd _ _ _ _ => (2, true)
  | .dV _ _ _ _ => (2, true)
  | .dCas _ _ _ _ _ => (1, true)
  | .idle | .ret _ => (0, false)

def stale (s : St N V n) (t : Fin n) (b : Bool) : Nat := if b = true ∧ s.gv t ≠ s.ver then 8 else 0

/-- Steps left for `t` if it runs alone from now on and `tail` is at the last entry. -/
def left (s : St N V n) (t : Fin n) : Nat := (base (s.th t)).1 + stale s t (base (s.th t)).2

/-- The operation has yet to change the queue. -/
def pend : PC N V → Nat
  | .idle | .ret _ | .eSw _ _ _ _ => 0
  | _ => 1

/-- `tail` is not at the last entry. -/
def lag (s : St N V n) : Nat := match s.next s.tail with
  | none => 0
  | some _ => 1

/-- If nobody succeeded since the attempt of a dequeue began, its snapshot of the generation of `tail` is valid. -/
def Loc3 (s : St N V n) (t : Fin n) : PC N V → Prop
  | .dTP _ _ _ tg | .dNG _ _ _ tg _ | .dNP _ _ _ tg _ | .dFwd _ tg _ _ => Und s t (s.tgen = tg)
  | _ => True

theorem Loc3.keep {s s' : St N V n} {t : Fin n} {pc : PC N V} (h : Loc3 s t pc) (hg : s'.gv t = s.gv t)
    (hk : s'.ver = s.ver + 1 ∨ (s'.ver = s.ver ∧ s'.tgen = s.tgen)) : Loc3 s' t pc := by
  rcases hk with hv | ⟨hv, ht⟩
  · cases pc <;> first
      | trivial
      | (obtain ⟨h1, -⟩ := h; refine ⟨by rw [hv, hg]; omega, fun e => ?_⟩; rw [hv, hg] at e; omega)
  · cases pc <;> first
      | trivial
      | (simp only [Loc3, Und, hv, hg, ht] at *; exact h)

variable [DecidableEq N]

theorem again_left {s : St N V n} {t : Fin n} {tr : Bool} {x : N} {v : V} (h : s.th t = again tr x v) : left s t ≤ 7 := by
  cases tr <;> simp [left, h, again, base, stale]

theorem dagain_left {s : St N V n} {t : Fin n} {tr : Bool} (h : s.th t = dagain tr) : left s t ≤ 8 := by
  cases tr <;> simp [left, h, dagain, base, stale]

omit [DecidableEq N] in
theorem again_idle {tr : Bool} {x : N} {v : V} : again tr x v ≠ .idle ∧ pend (again tr x v) ≤ 1
    ∧ ∀ (s : St N V n) (t : Fin n), Loc3 s t (again tr x v) := by
  cases tr <;> simp [again, pend, Loc3]

omit [DecidableEq N] in
theorem dagain_idle {tr : Bool} : (dagain tr : PC N V) ≠ .idle ∧ pend (dagain tr : PC N V) ≤ 1
    ∧ ∀ (s : St N V n) (t : Fin n), Loc3 s t (dagain tr : PC N V) := by
  cases tr <;> simp [dagain, pend, Loc3]

omit [DecidableEq N] in
theorem lag_le (s : St N V n) : lag s ≤ 1 := by unfold lag; split <;> omega

omit [DecidableEq N] in
theorem stale_eq {s : St N V n} {t : Fin n} (h : s.gv t ≠ s.ver) : stale s t true = 8 := by
  unfold stale; rw [if_pos ⟨rfl, h⟩]

/-- What a step of an operation does. -/
structure Cases (s s' : St N V n) (t : Fin n) (pc : PC N V) : Prop where
  th : s'.th = upd s.th t pc
  idle' : pc ≠ .idle
  idle : s.th t ≠ .idle
  gv : ∀ u, u ≠ t → s'.gv u = s.gv u
  loc : Loc3 s' t pc
  /-- It has fewer steps left; or it moves a lagging `tail`; or it changes the queue. -/
  how : (s'.ver = s.ver ∧ s'.tgen = s.tgen ∧ lag s' = lag s ∧ left s' t + 1 ≤ left s t ∧ pend pc ≤ pend (s.th t)) ∨
    (s'.ver = s.ver + 1 ∧ lag s = 1 ∧ lag s' = 0 ∧ left s' t ≤ left s t + 6 ∧ pend pc ≤ pend (s.th t) ∧
      (pend (s.th t) = 0 → left s' t + 1 ≤ left s t)) ∨
    (s'.ver = s.ver + 1 ∧ pend (s.th t) = 1 ∧ pend pc = 0 ∧ left s' t + 1 ≤ left s t)

theorem run_cases {s s' : St N V n} (hi : Inv s) (hi2 : Inv2 s) (hi3 : ∀ t, Loc3 s t (s.th t)) {t : Fin n}
    (h : run s t = some s') : ∃ pc, Cases s s' t pc := by
  have hl := hi.loc t
  have hl2 := hi2.loc t
  have hl3 := hi3 t
  have hne : ∀ {p : Prop}, Und s t p → ¬ p → s.gv t ≠ s.ver := fun hu hp e => hp (hu.2 e)
  unfold run at h
  cases hp : s.th t with
  | idle => rw [hp] at h; cases h
  | ret r => rw [hp] at h; cases h
  | enqV tr x v =>
    simp only [hp] at h; cases h
    exact ⟨_, rfl, by simp, by simp [hp], fun _ _ => rfl, trivial, .inl ⟨rfl, rfl, rfl, by simp [left, hp, base, stale], by simp [hp, pend]⟩⟩
  | enqP tr x v =>
    simp only [hp] at h; cases h
    have hx : s.tail ≠ x := fun e => hi.out t x (by rw [hp]; rfl) (e ▸ hi.tail)
    exact ⟨_, rfl, by simp, by simp [hp], fun _ _ => rfl, trivial,
      .inl ⟨rfl, rfl, by simp only [lag, upd_ne _ _ hx], by simp [left, hp, base, stale], by simp [hp, pend]⟩⟩
  | enqG tr x v =>
    simp only [hp] at h; cases h
    exact ⟨_, rfl, by simp, by simp [hp], fun _ _ => rfl, trivial, .inl ⟨rfl, rfl, rfl, by simp [left, hp, base, stale], by simp [hp, pend]⟩⟩
  | eTG tr x v =>
    simp only [hp] at h; cases h
    exact ⟨_, rfl, by simp, by simp [hp], fun u hu => upd_ne _ _ hu, trivial,
      .inl ⟨rfl, rfl, rfl, by simp [left, hp, base, stale], by simp [hp, pend]⟩⟩
  | eTP tr x v tg =>
    simp only [hp] at h; cases h
    exact ⟨_, rfl, by simp, by simp [hp], fun _ _ => rfl, trivial, .inl ⟨rfl, rfl, rfl, by simp [left, hp, base, stale]; omega, by simp [hp, pend]⟩⟩
  | eNG tr x v tg tp =>
    simp only [hp] at h; cases h
    exact ⟨_, rfl, by simp, by simp [hp], fun _ _ => rfl, trivial, .inl ⟨rfl, rfl, rfl, by simp [left, hp, base, stale]; omega, by simp [hp, pend]⟩⟩
  | eNP tr x v tg tp ng =>
    simp only [hp] at h; cases h
    exact ⟨_, rfl, by simp, by simp [hp], fun _ _ => rfl, trivial, .inl ⟨rfl, rfl, rfl, by simp [left, hp, base, stale]; omega, by simp [hp, pend]⟩⟩
  | eCk tr x v tg tp ng np =>
    simp only [hp] at h hl2
    split at h
    · split at h <;> cases h
      · exact ⟨_, rfl, by simp, by simp [hp], fun _ _ => rfl, trivial, .inl ⟨rfl, rfl, rfl, by simp [left, hp, base, stale]; omega, by simp [hp, pend]⟩⟩
      · exact ⟨_, rfl, by simp, by simp [hp], fun _ _ => rfl, trivial, .inl ⟨rfl, rfl, rfl, by simp [left, hp, base, stale]; omega, by simp [hp, pend]⟩⟩
    · next hc =>
      cases h
      have hg := hne hl2.1 fun e => hc e.1
      refine ⟨_, rfl, again_idle (n := n).1, by simp [hp], fun _ _ => rfl, again_idle.2.2 _ _, .inl ⟨rfl, rfl, rfl, ?_, by rw [hp]; exact again_idle (n := n).2.1⟩⟩
      have := again_left (s := { s with th := upd s.th t (again tr x v) }) (t := t) (upd_same ..)
      have h2 : left s t = 3 + 8 := by simp only [left, hp, base, stale_eq hg]
      omega
  | eFwd tr x v tg tp y =>
    simp only [hp] at h hl hl2
    split at h
    · next hc =>
      cases h
      have hn : s.next s.tail = some y := by rw [hc.1]; exact hl.2.2
      refine ⟨_, rfl, again_idle (n := n).1, by simp [hp], fun _ _ => rfl, again_idle.2.2 _ _, .inr (.inl ⟨rfl, ?_, ?_, ?_, by rw [hp]; exact again_idle (n := n).2.1, fun e => ?_⟩)⟩
      · simp only [lag, hn]
      · simp only [lag, (hi2.lag _ hn).1]
      · have := again_left (s := { s with tail := y, tgen := tg + 1#64, ver := s.ver + 1, th := upd s.th t (again tr x v) }) (t := t) (upd_same ..)
        have h2 : 2 ≤ left s t := by simp only [left, hp, base]; omega
        omega
      · rw [hp] at e; cases e
    · next hc =>
      cases h
      have hg := hne hl2.1 fun e => hc ⟨e.1, hl2.2.2 e.1⟩
      refine ⟨_, rfl, again_idle (n := n).1, by simp [hp], fun _ _ => rfl, again_idle.2.2 _ _, .inl ⟨rfl, rfl, rfl, ?_, by rw [hp]; exact again_idle (n := n).2.1⟩⟩
      have := again_left (s := { s with th := upd s.th t (again tr x v) }) (t := t) (upd_same ..)
      have h2 : left s t = 2 + 8 := by simp only [left, hp, base, stale_eq hg]
      omega
  | eCas tr x v tg tp ng =>
    simp only [hp] at h hl2
    split at h
    · cases h
      exact ⟨_, rfl, by simp, by simp [hp], fun _ _ => rfl, trivial, .inr (.inr ⟨rfl, by rw [hp]; rfl, rfl, by simp [left, hp, base, stale]⟩)⟩
    · next hc =>
      cases h
      have hg := hne hl2.1 fun e => hc e
      refine ⟨_, rfl, again_idle (n := n).1, by simp [hp], fun _ _ => rfl, again_idle.2.2 _ _, .inl ⟨rfl, rfl, rfl, ?_, by rw [hp]; exact again_idle (n := n).2.1⟩⟩
      have := again_left (s := { s with th := upd s.th t (again tr x v) }) (t := t) (upd_same ..)
      have h2 : left s t = 2 + 8 := by simp only [left, hp, base, stale_eq hg]
      omega
  | eSw tr x tg tp =>
    simp only [hp] at h hl
    split at h
    · next hc =>
      cases h
      have hn : s.next s.tail = some x := by rw [hc.1]; exact hl.2
      refine ⟨_, rfl, by simp, by simp [hp], fun _ _ => rfl, trivial, .inr (.inl ⟨rfl, ?_, ?_, ?_, by rw [hp]; simp [pend], fun e => ?_⟩)⟩
      · simp only [lag, hn]
      · simp only [lag, (hi2.lag _ hn).1]
      · simp [left, hp, base, stale]
      · simp [left, hp, base, stale]
    · cases h
      exact ⟨_, rfl, by simp, by simp [hp], fun _ _ => rfl, trivial, .inl ⟨rfl, rfl, rfl, by simp [left, hp, base, stale], by simp [hp, pend]⟩⟩
  | dHG tr =>
    simp only [hp] at h; cases h
    exact ⟨_, rfl, by simp, by simp [hp], fun u hu => upd_ne _ _ hu, trivial,
      .inl ⟨rfl, rfl, rfl, by simp [left, hp, base, stale], by simp [hp, pend]⟩⟩
  | dHP tr hg =>
    simp only [hp] at h; cases h
    exact ⟨_, rfl, by simp, by simp [hp], fun _ _ => rfl, trivial, .inl ⟨rfl, rfl, rfl, by simp [left, hp, base, stale]; omega, by simp [hp, pend]⟩⟩
  | dTG tr hg hq =>
    simp only [hp] at h hl2; cases h
    exact ⟨_, rfl, by simp, by simp [hp], fun _ _ => rfl, ⟨hl2.1, fun _ => rfl⟩,
      .inl ⟨rfl, rfl, rfl, by simp [left, hp, base, stale]; omega, by simp [hp, pend]⟩⟩
  | dTP tr hg hq tg =>
    simp only [hp] at h hl3; cases h
    exact ⟨_, rfl, by simp, by simp [hp], fun _ _ => rfl, hl3, .inl ⟨rfl, rfl, rfl, by simp [left, hp, base, stale]; omega, by simp [hp, pend]⟩⟩
  | dNG tr hg hq tg tp =>
    simp only [hp] at h hl3; cases h
    exact ⟨_, rfl, by simp, by simp [hp], fun _ _ => rfl, hl3, .inl ⟨rfl, rfl, rfl, by simp [left, hp, base, stale]; omega, by simp [hp, pend]⟩⟩
  | dNP tr hg hq tg tp =>
    simp only [hp] at h hl2 hl3
    split at h
    · split at h <;> cases h
      · exact ⟨_, rfl, by simp, by simp [hp], fun _ _ => rfl, trivial, .inl ⟨rfl, rfl, rfl, by simp [left, hp, base, stale]; omega, by simp [hp, pend]⟩⟩
      · exact ⟨_, rfl, by simp, by simp [hp], fun _ _ => rfl, hl3, .inl ⟨rfl, rfl, rfl, by simp [left, hp, base, stale]; omega, by simp [hp, pend]⟩⟩
    · next hc =>
      split at h
      · next hn =>
        cases h
        have hg := hne hl2 fun e => by
          obtain ⟨-, e1, e2⟩ := e
          have h1 := hi.next_head
          rw [e1, hn] at h1
          have h2 := hi.tail
          rw [St.chain] at h2
          cases hq' : s.q.map Prod.fst with
          | nil => rw [hq'] at h2; simp at h2; exact hc (by rw [← e1, ← e2, h2])
          | cons a l => rw [hq'] at h1; cases h1
        refine ⟨_, rfl, dagain_idle (n := n).1, by simp [hp], fun _ _ => rfl, dagain_idle.2.2 _ _, .inl ⟨rfl, rfl, rfl, ?_, by rw [hp]; exact dagain_idle (n := n).2.1⟩⟩
        have := dagain_left (s := { s with th := upd s.th t (dagain tr) }) (t := t) (upd_same ..)
        have h2 : left s t = 3 + 8 := by simp only [left, hp, base, stale_eq hg]
        omega
      · cases h
        exact ⟨_, rfl, by simp, by simp [hp], fun _ _ => rfl, trivial, .inl ⟨rfl, rfl, rfl, by simp [left, hp, base, stale]; omega, by simp [hp, pend]⟩⟩
  | dFwd tr tg tp y =>
    simp only [hp] at h hl hl2 hl3
    split at h
    · next hc =>
      cases h
      have hn : s.next s.tail = some y := by rw [hc.1]; exact hl.2
      refine ⟨_, rfl, dagain_idle (n := n).1, by simp [hp], fun _ _ => rfl, dagain_idle.2.2 _ _, .inr (.inl ⟨rfl, ?_, ?_, ?_, by rw [hp]; exact dagain_idle (n := n).2.1, fun e => ?_⟩)⟩
      · simp only [lag, hn]
      · simp only [lag, (hi2.lag _ hn).1]
      · have := dagain_left (s := { s with tail := y, tgen := tg + 1#64, ver := s.ver + 1, th := upd s.th t (dagain tr) }) (t := t) (upd_same ..)
        have h2 : 2 ≤ left s t := by simp only [left, hp, base]; omega
        omega
      · rw [hp] at e; cases e
    · next hc =>
      cases h
      have hg : s.gv t ≠ s.ver := fun e => hc ⟨(hl2.2 e).1, hl3.2 e⟩
      refine ⟨_, rfl, dagain_idle (n := n).1, by simp [hp], fun _ _ => rfl, dagain_idle.2.2 _ _, .inl ⟨rfl, rfl, rfl, ?_, by rw [hp]; exact dagain_idle (n := n).2.1⟩⟩
      have := dagain_left (s := { s with th := upd s.th t (dagain tr) }) (t := t) (upd_same ..)
      have h2 : left s t = 2 + 8 := by simp only [left, hp, base, stale_eq hg]
      omega
  | dV tr hg hq y =>
    simp only [hp] at h; cases h
    exact ⟨_, rfl, by simp, by simp [hp], fun _ _ => rfl, trivial, .inl ⟨rfl, rfl, rfl, by simp [left, hp, base, stale]; omega, by simp [hp, pend]⟩⟩
  | dCas tr hg hq y v =>
    simp only [hp] at h hl2
    split at h
    · cases h
      exact ⟨_, rfl, by simp, by simp [hp], fun _ _ => rfl, trivial, .inr (.inr ⟨rfl, by rw [hp]; rfl, rfl, by simp [left, hp, base, stale]⟩)⟩
    · next hc =>
      cases h
      have hg := hne hl2 fun e => hc ⟨e.2, e.1⟩
      refine ⟨_, rfl, dagain_idle (n := n).1, by simp [hp], fun _ _ => rfl, dagain_idle.2.2 _ _, .inl ⟨rfl, rfl, rfl, ?_, by rw [hp]; exact dagain_idle (n := n).2.1⟩⟩
      have := dagain_left (s := { s with th := upd s.th t (dagain tr) }) (t := t) (upd_same ..)
      have h2 : left s t = 1 + 8 := by simp only [left, hp, base, stale_eq hg]
      omega

/-- A call or a return: only the program counter changes. -/
theorem step_th {s s' : St N V n} {a : Act N V n} (h : step True s a = some s') (ha : ∀ t, a ≠ .run t) :
    ∃ t pc, s' = { s with th := upd s.th t pc } ∧
      ((kind s a = .call ∧ s.th t = .idle ∧ pc ≠ .idle ∧ (base pc).1 ≤ 10 ∧ (base pc).2 = false ∧ Loc3 s' t pc)
        ∨ (kind s a = .ret ∧ s.th t ≠ .idle ∧ pc = .idle)) := by
  cases a with
  | run t => exact absurd rfl (ha t)
  | call t o =>
    simp only [step] at h
    split at h
    · next hid =>
      split at h
      · split at h
        · cases h; exact ⟨t, _, rfl, .inl ⟨rfl, hid, by simp, by simp [base], rfl, trivial⟩⟩
        · cases h
      · split at h
        · cases h; exact ⟨t, _, rfl, .inl ⟨rfl, hid, by simp, by simp [base], rfl, trivial⟩⟩
        · cases h
      · cases h; exact ⟨t, _, rfl, .inl ⟨rfl, hid, by simp, by simp [base], rfl, trivial⟩⟩
      · cases h; exact ⟨t, _, rfl, .inl ⟨rfl, hid, by simp, by simp [base], rfl, trivial⟩⟩
    · cases h
  | ret t =>
    simp only [step] at h
    split at h
    · next hr => cases h; exact ⟨t, _, rfl, .inr ⟨rfl, by rw [hr]; simp, rfl⟩⟩
    · cases h

variable {d : N} {q0 : List (N × V)} {s0 : St N V n}

theorem loc3 (h0 : Start d q0 s0) {s : St N V n} (h : (sys True s0).Reach s) : ∀ t, Loc3 s t (s.th t) := by
  induction h with
  | init h => intro t; rw [h, h0.idle t]; trivial
  | @step s s' a hr hs ih =>
    by_cases ha : ∃ t, a = .run t
    · obtain ⟨t, rfl⟩ := ha
      obtain ⟨pc, hc⟩ := run_cases (inv h0 hr) (inv2 h0 hr) ih hs
      intro u
      rw [hc.th]
      by_cases hu : u = t
      · subst hu; rw [upd_same]; exact hc.loc
      · rw [upd_ne _ _ hu]
        refine (ih u).keep (hc.gv u hu) ?_
        rcases hc.how with ⟨h1, h2, -⟩ | ⟨h1, -⟩ | ⟨h1, -⟩
        · exact .inr ⟨h1, h2⟩
        · exact .inl h1
        · exact .inl h1
    · obtain ⟨t, pc, e, hc⟩ := step_th hs fun t e => ha ⟨t, e⟩
      intro u
      by_cases hu : u = t
      · subst hu
        have hpc : s'.th u = pc := by rw [e]; exact upd_same ..
        rw [hpc]
        rcases hc with ⟨-, -, -, -, -, h⟩ | ⟨-, -, rfl⟩
        · exact h
        · trivial
      · have hpc : s'.th u = s.th u := by rw [e]; exact upd_ne _ _ hu
        rw [hpc]
        exact (ih u).keep (by rw [e]) (.inr ⟨by rw [e], by rw [e]⟩)

/-- Steps left, and for every operation that has yet to change the queue the steps this, and moving `tail` afterwards, would cost the others. -/
def share (s : St N V n) (t : Fin n) : Nat := left s t + 16 * n * pend (s.th t)

def pot (s : St N V n) : Nat := ∑ t, share s t + 8 * n * lag s

/-- The thread is in an operation. -/
def inOp : PC N V → Nat
  | .idle => 0
  | _ => 1

/-- The number of threads in an operation. -/
def busy (s : St N V n) : Nat := ∑ t, inOp (s.th t)

omit [DecidableEq N] in
theorem inOp_one {pc : PC N V} (h : pc ≠ .idle) : inOp pc = 1 := by
  cases pc <;> first | rfl | exact absurd rfl h

omit [DecidableEq N] in
theorem busy_le (s : St N V n) : busy s ≤ n := by
  unfold busy
  refine Nat.le_trans (Finset.sum_le_card_nsmul _ _ 1 fun t _ => ?_) (by simp)
  unfold inOp; split <;> simp

omit [DecidableEq N] in
theorem busy_upd (s s' : St N V n) (t : Fin n) (pc : PC N V) (h : s'.th = upd s.th t pc) :
    busy s' + inOp (s.th t) = busy s + inOp pc := by
  have := sum_eq (fun u => inOp (s.th u)) (fun u => inOp (s'.th u)) t (fun u hu => by rw [h, upd_ne _ _ hu])
  simp only [h, upd_same] at this
  unfold busy
  rw [h]
  exact this

omit [DecidableEq N] in
theorem share_idle {s : St N V n} {t : Fin n} (h : s.th t = .idle) : share s t = 0 := by
  simp [share, left, h, base, stale, pend]

/-- Lock freedom: whatever the scheduler does, and wherever threads are stopped, the steps of all operations together are bounded
by the number of operations that have returned and the number of threads. -/
theorem lock_free (h0 : Start d q0 s0) {c : Ct (St N V n)} (h : (counted (sys True s0) kind).Reach c) :
    c.work ≤ (16 * n + 10) * (c.rets + n) := by
  refine bound pot busy (16 * n + 10) n ?_ busy_le ?_ h
  · rintro s rfl
    constructor
    · have h1 : ∑ t, share s t = 0 := Finset.sum_eq_zero fun t _ => share_idle (h0.idle t)
      have h2 : lag s = 0 := by
        unfold lag
        split
        · rfl
        · next x hx =>
          obtain ⟨-, u, tr, tg, hu⟩ := h0.inv2.lag x hx
          rw [h0.idle u] at hu; cases hu
      rw [pot, h1, h2]; simp
    · unfold busy
      exact Finset.sum_eq_zero fun t _ => by simp [h0.idle t, inOp]
  · intro s a s' hr hs
    by_cases ha : ∃ t, a = .run t
    · obtain ⟨t, rfl⟩ := ha
      obtain ⟨pc, hc⟩ := run_cases (inv h0 hr) (inv2 h0 hr) (loc3 h0 hr) hs
      have hb := busy_upd s s' t pc hc.th
      rw [inOp_one hc.idle, inOp_one hc.idle'] at hb
      have hpc : s'.th t = pc := by rw [hc.th, upd_same]
      have hth' : ∀ u, u ≠ t → s'.th u = s.th u := fun u hu => by rw [hc.th, upd_ne _ _ hu]
      have hst : ∀ u, u ≠ t → share s' u ≤ share s u + 8 := fun u hu => by
        simp only [share, left, hth' u hu]
        have : stale s' u (base (s.th u)).2 ≤ 8 := by unfold stale; split <;> omega
        omega
      refine ⟨?_, by omega⟩
      unfold pot
      have hlag := lag_le s'
      have hL : 8 * n * lag s' ≤ 8 * n := by
        calc 8 * n * lag s' ≤ 8 * n * 1 := Nat.mul_le_mul_left _ hlag
          _ = 8 * n := Nat.mul_one _
      rcases hc.how with ⟨hv, -, hg, h1, h2⟩ | ⟨hv, hg, hg', h1, h2, -⟩ | ⟨hv, h1, h2, h3⟩
      · have h4 := sum_eq (share s) (share s') t fun u hu => by
          simp only [share, left, hth' u hu, stale, hv, hc.gv u hu]
        have h5 : 16 * n * pend pc ≤ 16 * n * pend (s.th t) := Nat.mul_le_mul_left _ h2
        have h6 : share s' t + 1 ≤ share s t := by unfold share; rw [hpc]; omega
        rw [hg]
        omega
      · have h4 := sum_step (share s) (share s') t 8 hst
        have h5 : 16 * n * pend pc ≤ 16 * n * pend (s.th t) := Nat.mul_le_mul_left _ h2
        have h6 : share s' t ≤ share s t + 6 := by unfold share; rw [hpc]; omega
        rw [hg, hg']
        omega
      · have h4 := sum_step (share s) (share s') t 8 hst
        have h6 : share s' t + 1 + 16 * n ≤ share s t := by unfold share; rw [hpc, h1, h2]; omega
        omega
    · obtain ⟨t, pc, e, hc⟩ := step_th hs fun t e => ha ⟨t, e⟩
      have hth : s'.th = upd s.th t pc := by rw [e]
      have hb := busy_upd s s' t pc hth
      have hth' : ∀ u, u ≠ t → s'.th u = s.th u := fun u hu => by rw [hth, upd_ne _ _ hu]
      have hpc : s'.th t = pc := by rw [hth, upd_same]
      have hv : s'.ver = s.ver := by rw [e]
      have hgv : s'.gv = s.gv := by rw [e]
      have hg : lag s' = lag s := by rw [e]; rfl
      have hsh := sum_eq (share s) (share s') t fun u hu => by
        simp only [share, left, hth' u hu, stale, hv, hgv]
      rcases hc with ⟨hk, h1, h2, h3, h4, -⟩ | ⟨hk, h1, rfl⟩
      · rw [hk]
        rw [h1, inOp_one h2] at hb; simp only [inOp] at hb
        refine ⟨?_, by omega⟩
        have h5 : left s' t ≤ 10 := by simp only [left, hpc, h4, stale]; simp; exact h3
        have h6 : 16 * n * pend (s'.th t) ≤ 16 * n := by
          unfold pend; split <;> simp
        have h7 : share s' t ≤ 16 * n + 10 := by unfold share; omega
        unfold pot
        rw [hg]
        omega
      · rw [hk]
        rw [inOp_one h1] at hb; simp only [inOp] at hb
        refine ⟨?_, by omega⟩
        rw [share_idle (s := s') hpc] at hsh
        unfold pot
        rw [hg]
        omega

/-- The operation has not ended. -/
def running (pc : PC N V) : Prop := (base pc).1 ≠ 0

/-- Obstruction freedom: from any state that can be reached, with the other threads stopped wherever they are, a thread that runs
alone ends its operation within 22 steps. -/
theorem alone_returns (h0 : Start d q0 s0) {s : St N V n} (h : (sys True s0).Reach s) (t : Fin n) :
    ∃ j s', j ≤ 22 ∧ alone (fun s => run s t) j s = some s' ∧ ¬ running (s'.th t) := by
  refine alone_ends (fun s => run s t) (fun s => left s t + 7 * (lag s * pend (s.th t))) (fun s => (sys True s0).Reach s)
    (fun s => ¬ running (s.th t)) (fun s s' hi hs => .step (a := .run t) hi hs) ?_ 22 s h ?_
  · intro s hr hd
    have hd : (base (s.th t)).1 ≠ 0 := fun e => hd fun h => h e
    have hen : ∃ s', run s t = some s' := by
      unfold run
      revert hd
      cases s.th t <;> intro hd <;> simp only [base] at hd <;> first
        | exact absurd rfl hd
        | exact ⟨_, rfl⟩
        | (simp only; split <;> first
            | exact ⟨_, rfl⟩
            | (split <;> first | exact ⟨_, rfl⟩ | (split <;> exact ⟨_, rfl⟩)))
    obtain ⟨s', hs⟩ := hen
    refine ⟨s', hs, ?_⟩
    obtain ⟨pc, hc⟩ := run_cases (inv h0 hr) (inv2 h0 hr) (loc3 h0 hr) hs
    have hpc : s'.th t = pc := by rw [hc.th, upd_same]
    have hlag := lag_le s'
    have hp1 : pend (s.th t) ≤ 1 := by unfold pend; split <;> omega
    rw [hpc]
    rcases hc.how with ⟨hv, -, hg, h1, h2⟩ | ⟨hv, hg, hg', h1, h2, h3⟩ | ⟨hv, h1, h2, h3⟩
    · have := Nat.mul_le_mul_left (lag s) h2
      rw [hg]
      omega
    · rw [hg, hg', Nat.zero_mul, Nat.one_mul]
      rcases Nat.eq_zero_or_pos (pend (s.th t)) with e | e
      · have := h3 e; omega
      · omega
    · rw [h2, Nat.mul_zero]
      omega
  · have h1 := lag_le s
    have h2 : pend (s.th t) ≤ 1 := by unfold pend; split <;> omega
    have h3 : lag s * pend (s.th t) ≤ 1 := by
      calc lag s * pend (s.th t) ≤ 1 * 1 := Nat.mul_le_mul h1 h2
        _ = 1 := rfl
    have h4 : ∀ b, stale s t b ≤ 8 := fun b => by unfold stale; split <;> omega
    have h5 : left s t ≤ 15 := by
      unfold left
      generalize s.th t = pc
      have h6 := h4 true
      have h7 : stale s t false = 0 := by simp [stale]
      cases pc <;> simp only [base] <;> omega
    omega

end Verif.Fifo.Mpmc.Lf
