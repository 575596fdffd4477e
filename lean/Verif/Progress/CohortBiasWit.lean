import Verif.Progress.CohortBias

/-! # Preference and wait limits of `ck_rwcohort`: concrete executions (C109) -/

namespace Verif.RwCohort

open Verif

namespace Wp

def bias0 : St 1 3 := initSt 1 3 (fun _ => 0) .idle

/-- Writer 1 holds the lock; writer 2 is past the barrier and waits for the cohort lock; reader 0 calls read_lock. -/
def biasCall : List (Act 1 3) := [.wlock 1 0] ++ List.replicate 8 (.run 1 true) ++ [.wlock 2 0, .run 2 true, .rlock 0 0]

/-- Reader 0 waits longer than the limit (1) and raises the barrier. -/
def biasWait : List (Act 1 3) := List.replicate 7 (.run 0 true)

/-- Writer 1 leaves, writer 2 is let in and leaves, writer 1 does not pass the barrier again; reader 0 enters. -/
def biasRest : List (Act 1 3) :=
  [.wunlock 1] ++ List.replicate 5 (.run 1 true) ++ List.replicate 7 (.run 2 true) ++ [.wlock 1 0, .run 1 true, .wunlock 2] ++
    List.replicate 5 (.run 2 true) ++ [.run 1 true] ++ List.replicate 6 (.run 0 true)

theorem bias_call : (((sys (fun _ => 10) 1).run bias0 biasCall).map fun s =>
    (s.pc 0, s.pc 1, s.pc 2, stalls (fun _ => 10) 1 0 s biasWait)) = some (.rInc, .writing, .wLock, 2) := by decide +kernel

theorem bias_case : (((sys (fun _ => 10) 1).run bias0 (biasCall ++ biasWait)).map fun s =>
    (s.raised 0, s.pc 0, s.pc 1, writers (fun _ => 10) 1 0 s biasRest)) = some (true, .rW1, .writing, 1) := by decide +kernel

theorem bias_end : (((sys (fun _ => 10) 1).run bias0 (biasCall ++ biasWait ++ biasRest)).map fun s =>
    (s.pc 0, s.pc 1, s.pc 2, s.bar)) = some (.reading, .wBar, .idle, 0) := by decide +kernel

theorem bias_case_reach : ∃ s : St 1 3, (sys (fun _ => 10) 1).Reach s ∧ raisedBy s 0 ∧ s.pc 1 = .writing ∧
    writers (fun _ => 10) 1 0 s biasRest = 1 := by
  obtain ⟨s, hs, h⟩ := Option.map_eq_some_iff.1 bias_case
  simp only [Prod.mk.injEq] at h
  exact ⟨s, .of_run (s := bias0) (.init ⟨_, rfl⟩) hs, ⟨h.1, by rw [h.2.1]; rfl⟩, h.2.2.1, h.2.2.2⟩

end Wp

namespace Rp

def bias0 : St 1 3 := initSt 1 3 (fun _ => 0) .idle

/-- Reader 0 holds the lock, reader 2 is past the barrier, writer 1 has found the reader and released the cohort lock. -/
def biasCall : List (Act 1 3) :=
  [.rlock 0 0] ++ List.replicate 4 (.run 0 true) ++ [.rlock 2 0, .run 2 true, .wlock 1 0] ++ List.replicate 12 (.run 1 true)

/-- Writer 1 waits longer than the limit (1) and raises the barrier. -/
def biasWait : List (Act 1 3) := List.replicate 4 (.run 1 true)

/-- Reader 2 is let in; reader 0 leaves and does not pass the barrier again; reader 2 leaves; writer 1 enters. -/
def biasRest : List (Act 1 3) :=
  List.replicate 3 (.run 2 true) ++ [.runlock 0, .rlock 0 0, .run 0 true, .runlock 2, .run 0 true] ++ List.replicate 9 (.run 1 true)

theorem bias_call : (((sys (fun _ => 10) 1).run bias0 biasCall).map fun s =>
    (s.pc 0, s.pc 1, s.pc 2, stalls (fun _ => 10) 1 1 s biasWait)) = some (.reading, .wWait, .rInc, 2) := by decide +kernel

theorem bias_case : (((sys (fun _ => 10) 1).run bias0 (biasCall ++ biasWait)).map fun s =>
    (s.raised 1, s.pc 0, s.pc 1, readers (fun _ => 10) 1 1 s biasRest)) = some (true, .reading, .wWait, 1) := by decide +kernel

theorem bias_end : (((sys (fun _ => 10) 1).run bias0 (biasCall ++ biasWait ++ biasRest)).map fun s =>
    (s.pc 0, s.pc 1, s.pc 2, s.bar)) = some (.rBar, .writing, .idle, 0) := by decide +kernel

theorem bias_case_reach : ∃ s : St 1 3, (sys (fun _ => 10) 1).Reach s ∧ raisedBy s 1 ∧ s.pc 0 = .reading ∧
    readers (fun _ => 10) 1 1 s biasRest = 1 := by
  obtain ⟨s, hs, h⟩ := Option.map_eq_some_iff.1 bias_case
  simp only [Prod.mk.injEq] at h
  exact ⟨s, .of_run (s := bias0) (.init ⟨_, rfl⟩) hs, ⟨h.1, by rw [h.2.2.1]; rfl⟩, h.2.1, h.2.2.2⟩

end Rp

end Verif.RwCohort
