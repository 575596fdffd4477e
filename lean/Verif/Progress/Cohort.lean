import Verif.Core.Drain
import Verif.Cohort.CohortThm

/-!
# `ck_cohort`: no deadlock (C77)
-/

namespace Verif.Cohort

open Verif

variable {m n : Nat} {lim : Fin m → BitVec 32}

/-- Steps of calls in progress, and releases. -/
def Act.own : Act m n → Prop
  | .run _ _ | .unlock _ => True
  | _ => False

/-- Steps left. -/
def PC.rank : PC → Nat
  | .idle => 0
  | .lInc | .tInc => 14
  | .lLL | .tLTL => 13
  | .lDec | .tDec _ => 12
  | .lSt | .tSt => 11
  | .lGL | .tGTL => 10
  | .tLU => 9
  | .lAcq | .tAcq => 8
  | .crit => 7
  | .uChk => 6
  | .uGU => 5
  | .uSt => 4
  | .uAcq => 3
  | .uLocal => 2
  | .uLU => 1

def Th.rank (x : Th m) : Nat := x.pc.rank

/-- Every step of a call in progress makes it shorter. -/
theorem run_rank {tr : Bool} {s s' : St m n} {t : Fin n} {ok : Bool} (hs : step lim tr s (.run t ok) = some s') :
    tot Th.rank s'.th < tot Th.rank s.th := by
  simp only [step, St.go] at hs
  cases hp : (s.th t).pc
  case tDec b => cases b <;> simp only [hp] at hs <;> cases hs <;> exact tot_lt (by simp [Th.rank, hp, PC.rank])
  all_goals
    simp only [hp] at hs
    step_split hs
    all_goals exact tot_lt (by simp [Th.rank, hp, PC.rank])

theorem unlock_rank {tr : Bool} {s s' : St m n} {t : Fin n} (hs : step lim tr s (.unlock t) = some s') :
    tot Th.rank s'.th < tot Th.rank s.th := by
  simp only [step, St.go] at hs
  step_split hs
  next hp => exact tot_lt (by simp [Th.rank, hp, PC.rank])

/-- Only the two acquisitions wait. -/
theorem run_enabled {tr : Bool} {s : St m n} {t : Fin n} (h1 : (s.th t).pc ≠ .idle) (h2 : (s.th t).pc ≠ .crit)
    (h3 : (s.th t).pc = .lLL → s.loc (s.th t).c = none) (h4 : (s.th t).pc = .lGL → s.glob = none) :
    ∃ s', step lim tr s (.run t true) = some s' := by
  simp only [step]
  cases hp : (s.th t).pc
  case idle => exact absurd hp h1
  case crit => exact absurd hp h2
  case lLL => simp [h3 hp]
  case lGL => simp [h4 hp]
  case tDec b => cases b <;> exact ⟨_, rfl⟩
  all_goals simp only []
  all_goals (try split)
  all_goals exact ⟨_, rfl⟩

/-- If nobody is inside and some call is in progress then one of them can take its next step. -/
theorem some_runs (hn : n < 2 ^ 32) {s : St m n} (h : (sys lim false).Reach s) (hcr : ∀ t, (s.th t).pc ≠ .crit)
    {t : Fin n} (ht : (s.th t).pc ≠ .idle) : ∃ u s', (s.th u).pc ≠ .idle ∧ step lim false s (.run u true) = some s' := by
  have hi := inv_of_reach hn h
  have hj := inv2_of_reach hn h
  by_contra hcon
  have hst : ∀ u, (s.th u).pc ≠ .idle → (s.th u).pc = .lLL ∧ s.loc (s.th u).c ≠ none ∨
      (s.th u).pc = .lGL ∧ s.glob ≠ none := by
    intro u hu
    by_contra hc
    obtain ⟨s', hs'⟩ := run_enabled (lim := lim) (tr := false) hu (hcr u)
      (fun h3 => by by_contra h4; exact hc (.inl ⟨h3, h4⟩)) (fun h3 => by by_contra h4; exact hc (.inr ⟨h3, h4⟩))
    exact hcon ⟨u, s', hu, hs'⟩
  have hgl : ∀ u, (s.th u).pc = .lGL → False := by
    intro u hu
    rcases hst u (by rw [hu]; simp) with ⟨h1, -⟩ | ⟨-, h1⟩
    · rw [hu] at h1; cases h1
    · obtain ⟨c, hc⟩ := Option.ne_none_iff_exists'.1 h1
      rcases hi.g4 c hc with h2 | ⟨v, h2, h3⟩
      · cases hl : s.loc c with
        | none =>
          obtain ⟨w, hw1, hw2⟩ := hj.lw2 c h2 hl
          rcases hst w (by rw [hw1]; simp) with ⟨-, h5⟩ | ⟨h5, -⟩
          · rw [hw2] at h5; exact h5 hl
          · rw [hw1] at h5; cases h5
        | some v =>
          obtain ⟨h3, h4⟩ := hi.l2 c v hl
          rcases hst v (by intro e; rw [e] at h4; cases h4) with ⟨h5, -⟩ | ⟨h5, -⟩
          · rw [h5] at h4; cases h4
          · have := hi.g3 v (by rw [h5]; rfl)
            rw [h3, h2] at this; cases this
      · rcases hst v (by intro e; rw [e] at h3; cases h3) with ⟨h5, -⟩ | ⟨h5, -⟩ <;> rw [h5] at h3 <;> cases h3
  rcases hst t ht with ⟨h1, h2⟩ | ⟨h1, h2⟩
  · obtain ⟨v, hv⟩ := Option.ne_none_iff_exists'.1 h2
    obtain ⟨h3, h4⟩ := hi.l2 _ v hv
    rcases hst v (by intro e; rw [e] at h4; cases h4) with ⟨h5, -⟩ | ⟨h5, -⟩
    · rw [h5] at h4; cases h4
    · exact hgl v h5
  · exact hgl t h1

/-- C77 (clients that do not use trylock): in every reachable state all calls in progress can be completed and the lock be
released. -/
theorem no_deadlock_partial (hn : n < 2 ^ 32) {s : St m n} (h : (sys lim false).Reach s) :
    (sys lim false).Drains Act.own (fun s => ∀ t, (s.th t).pc = .idle) s := by
  refine Sys.drains (fun s => tot Th.rank s.th) (fun s h => ?_) h
  by_cases hid : ∀ t, (s.th t).pc = .idle
  · exact .inl hid
  refine .inr ?_
  by_cases hcr : ∃ t, (s.th t).pc = .crit
  · obtain ⟨t, ht⟩ := hcr
    have hs : step lim false s (.unlock t) = some (s.go t .uChk) := by simp only [step]; rw [if_pos ht]
    exact ⟨.unlock t, _, trivial, hs, unlock_rank hs⟩
  · obtain ⟨t, ht⟩ := not_forall.1 hid
    obtain ⟨u, s', -, hs⟩ := some_runs hn h (fun t e => hcr ⟨t, e⟩) ht
    exact ⟨.run u true, s', trivial, hs, run_rank hs⟩

/-- With trylock the lock can be lost: thread 1's trylock made thread 0's unlock pass the global lock on, but failed; then
the call of thread 1 from another cohort can never complete. -/
theorem trylock_deadlock : ∃ s : St 2 2, (sys (fun _ => 10) true).Reach s ∧ ¬ s.inside 0 ∧ ¬ s.inside 1 ∧
    (s.th 1).pc = .lGL ∧ ¬ (sys (fun _ => 10) true).Drains Act.own (fun s => ∀ t, (s.th t).pc = .idle) s := by
  have hr : ((sys (fun _ => 10) true).run (initSt 2 2 (fun _ => 0)) ([.lock 0 0, .run 0 true,
      .run 0 true, .run 0 true, .run 0 true, .run 0 true, .run 0 true, .trylock 1 0, .run 1 true,
      .unlock 0, .run 0 true, .run 1 true, .run 1 true, .run 0 true, .run 0 true, .lock 1 1, .run 1 true, .run 1 true,
      .run 1 true, .run 1 true])).map
      (fun s : St 2 2 => ((s.th 0).pc, (s.th 1).pc, s.glob)) = some (.idle, .lGL, some 0) := by decide
  rw [Option.map_eq_some_iff] at hr
  obtain ⟨s, hs, he⟩ := hr
  simp only [Prod.mk.injEq] at he
  obtain ⟨h0, h1, h2⟩ := he
  refine ⟨s, (Sys.Reach.init (M := sys (fun _ => 10) true) ⟨_, rfl⟩).of_run hs, (by simp [St.inside, h0]), (by simp [St.inside, h1]), h1, ?_⟩
  refine Sys.not_drains ?_ (fun h => by have := h 1; rw [h1] at this; cases this)
  intro a ha
  left
  cases a with
  | run t ok =>
    rcases (by omega : t = 0 ∨ t = 1) with rfl | rfl
    · simp [sys, step, h0]
    · simp [sys, step, h1, h2]
  | unlock t =>
    rcases (by omega : t = 0 ∨ t = 1) with rfl | rfl
    · simp [sys, step, h0]
    · simp [sys, step, h1]
  | _ => cases ha

end Verif.Cohort
