import Verif.Core.Drain
import Verif.Rw.PflockThm

/-!
# `ck_pflock`: no deadlock (C77)
-/

namespace Verif.Rw.Pflock

open Verif

variable {n : Nat}

/-- Steps of calls in progress, and releases. -/
def Act.own : Act n → Prop
  | .run _ | .wunlock _ | .runlock _ => True
  | _ => False

/-- Steps left. -/
def PC.rank : PC → Nat
  | .idle => 0
  | .wSpin _ => 5
  | .wAnn _ => 4
  | .wWait _ => 3
  | .writing => 2
  | .uFaa => 1
  | .rSpin _ => 2
  | .reading => 1

theorem rSpin_run (hn : n < 2 ^ 24) {s : St n} (h : (sys n).Reach s) {t : Fin n} {w : BitVec 32} (hw : s.pc t = .rSpin w)
    (hph : ¬ (s.ann = true ∧ s.ph = s.gph t + 1)) :
    (sys n).step s (.run t) = some { s with pc := upd s.pc t .reading } := by
  obtain ⟨s', hs, hr⟩ := reader_admitted hn h ⟨w, hw⟩ hph
  have hs' := hs
  simp only [sys, step, hw] at hs
  split at hs
  · cases hs
    have hr : s.pc t = .reading := hr
    rw [hr] at hw; cases hw
  · rw [hs', ← hs]

theorem advance (hn : n < 2 ^ 24) (s : St n) (h : (sys n).Reach s) :
    (∀ t, s.pc t = .idle) ∨ ∃ a s', Act.own a ∧ (sys n).step s a = some s' ∧ tot PC.rank s'.pc < tot PC.rank s.pc := by
  have hi := inv_of_reach hn h
  by_cases hid : ∀ t, s.pc t = .idle
  · exact .inl hid
  refine .inr ?_
  -- a reader inside leaves
  by_cases hrd : ∃ t, s.pc t = .reading
  · obtain ⟨t, ht⟩ := hrd
    refine ⟨.runlock t, _, trivial, (by simp only [sys, step]; rw [if_pos ht]), ?_⟩
    exact tot_lt (by rw [ht]; decide)
  by_cases hwr : ∃ t, s.pc t = .writing
  · obtain ⟨t, ht⟩ := hwr
    refine ⟨.wunlock t, _, trivial, (by simp only [sys, step]; rw [if_pos ht]), ?_⟩
    exact tot_lt (by rw [ht]; decide)
  by_cases huf : ∃ t, s.pc t = .uFaa
  · obtain ⟨t, ht⟩ := huf
    refine ⟨.run t, _, trivial, (by simp only [sys, step, ht]; rfl), ?_⟩
    exact tot_lt (by rw [ht]; decide)
  by_cases han : ∃ t k, s.pc t = .wAnn k
  · obtain ⟨t, k, ht⟩ := han
    refine ⟨.run t, _, trivial, (by simp only [sys, step, ht]; rfl), ?_⟩
    exact tot_lt (by rw [ht]; show 3 < 4; omega)
  by_cases hww : ∃ t r, s.pc t = .wWait r
  · obtain ⟨t, r, ht⟩ := hww
    by_cases hold : ∀ u, s.old u = false
    · have hr : s.rout = r := by rw [hi.o1 t r ht, hi.rout, cnt_zero_of (P := id) hold, Nat.add_zero]
      refine ⟨.run t, _, trivial, (by simp only [sys, step, ht]; rw [if_pos hr]), ?_⟩
      exact tot_lt (by rw [ht]; show 2 < 3; omega)
    · obtain ⟨u, hu⟩ := not_forall.1 hold
      have hu : s.old u = true := by simpa using hu
      have := hi.o2 u hu
      cases hp : s.pc u with
      | rSpin w =>
        have h2 := hi.s3 u w hp (hi.p2 t r ht).1 hu
        refine ⟨.run u, _, trivial, rSpin_run hn h hp (by omega), ?_⟩
        exact tot_lt (by rw [hp]; show 1 < 2; omega)
      | reading => exact absurd ⟨u, hp⟩ hrd
      | _ => rw [hp] at this; cases this
  -- nobody holds the lock
  have hno : ∀ t, (s.pc t).held = false := by
    intro t
    cases hp : s.pc t with
    | wAnn k => exact absurd ⟨t, k, hp⟩ han
    | wWait r => exact absurd ⟨t, r, hp⟩ hww
    | writing => exact absurd ⟨t, hp⟩ hwr
    | uFaa => exact absurd ⟨t, hp⟩ huf
    | _ => rfl
  obtain ⟨t, ht⟩ := not_forall.1 hid
  cases hp : s.pc t with
  | idle => exact absurd hp ht
  | rSpin w =>
    have h2 := (hi.p4 hno).1
    refine ⟨.run t, _, trivial, rSpin_run hn h hp (by rw [h2]; simp), ?_⟩
    exact tot_lt (by rw [hp]; show 1 < 2; omega)
  | reading => exact absurd ⟨t, hp⟩ hrd
  | wAnn k => exact absurd ⟨t, k, hp⟩ han
  | wWait r => exact absurd ⟨t, r, hp⟩ hww
  | writing => exact absurd ⟨t, hp⟩ hwr
  | uFaa => exact absurd ⟨t, hp⟩ huf
  | wSpin k =>
    obtain ⟨u, -, h1, h2⟩ := hi.q.next_in_line hno (v := t) (by rw [hp]; rfl)
    cases hq : s.pc u with
    | wSpin k' =>
      have hk : s.wout = k' := by rw [hi.wout, hi.tkt u k' (.inl hq), h2]
      refine ⟨.run u, _, trivial, (by simp only [sys, step, hq]; rw [if_pos hk]), ?_⟩
      exact tot_lt (by rw [hq]; show 4 < 5; omega)
    | wAnn k => exact absurd ⟨u, k, hq⟩ han
    | wWait r => exact absurd ⟨u, r, hq⟩ hww
    | writing => exact absurd ⟨u, hq⟩ hwr
    | uFaa => exact absurd ⟨u, hq⟩ huf
    | _ => rw [hq] at h1; cases h1

/-- C77: in every reachable state all calls in progress can be completed and all locks be released. -/
theorem no_deadlock (hn : n < 2 ^ 24) {s : St n} (h : (sys n).Reach s) :
    (sys n).Drains Act.own (fun s => ∀ t, s.pc t = .idle) s :=
  Sys.drains (fun s => tot PC.rank s.pc) (advance hn) h

end Verif.Rw.Pflock
