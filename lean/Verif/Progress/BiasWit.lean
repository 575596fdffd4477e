import Verif.Progress.Bias

/-! # Write-biased locks: concrete executions (C108) -/

namespace Verif.Rw.Rwlock

open Verif

/-- Reader 0 holds the lock, reader 1 has found the flag clear, writer 2 has set it. -/
def biasSetup : List (Act 3) :=
  [.rlock 0, .run 0, .run 0, .run 0, .rlock 1, .run 1, .wlock 2, .run 2]

/-- The three steps of reader 1 that are still in the way, another that is not, and the unlock of reader 0. -/
def biasRest : List (Act 3) := [.run 1, .run 2, .run 1, .run 1, .run 1, .run 2, .runlock 0, .run 1, .run 2]

theorem bias_case : (((sys 3).run (initSt 3) biasSetup).map fun s => (s.pc 0, s.pc 1, s.pc 2, moves 2 s biasRest)) =
    some (.reading, .rInc false, .wReaders false, 4) := by decide +kernel

theorem bias_case_end : (((sys 3).run (initSt 3) (biasSetup ++ biasRest)).map fun s => (s.pc 0, s.pc 1, s.pc 2)) =
    some (.idle, .rLoad false, .writing) := by decide +kernel

theorem bias_case_reach : ∃ s : St 3, (sys 3).Reach s ∧ s.pc 2 = .wReaders false ∧ s.reads 0 ∧ ¬ s.reads 1 ∧ moves 2 s biasRest = 4 := by
  obtain ⟨s, hs, h⟩ := Option.map_eq_some_iff.1 bias_case
  simp only [Prod.mk.injEq] at h
  exact ⟨s, .of_run (s := initSt 3) (.init rfl) hs, h.2.2.1, .inl h.1, by simp [St.reads, h.2.1], h.2.2.2⟩

end Verif.Rw.Rwlock

namespace Verif.Rw.Swlock

open Verif

/-- Reader 0 holds the lock, reader 1 has found the bit clear, the writer has set it. -/
def biasSetup : List (Act 2) := [.rlock 0, .run 0, .run 0, .rlock 1, .run 1, .wlock, .wrun]

def biasRest : List (Act 2) := [.run 1, .wrun, .run 1, .run 1, .wrun, .runlock 0, .wrun]

theorem bias_case : (((sys 2).run (initSt 2) biasSetup).map fun s => (s.pc 0, s.pc 1, s.wpc, moves s biasRest)) =
    some (.reading, .rFaa false, .lkWait, 3) := by decide +kernel

theorem bias_case_end : (((sys 2).run (initSt 2) (biasSetup ++ biasRest)).map fun s => (s.pc 0, s.pc 1, s.wpc)) =
    some (.idle, .rLoad false, .writing) := by decide +kernel

theorem bias_case_reach : ∃ s : St 2, (sys 2).Reach s ∧ waits s.wpc = true ∧ s.reads 0 ∧ ¬ s.reads 1 ∧ moves s biasRest = 3 := by
  obtain ⟨s, hs, h⟩ := Option.map_eq_some_iff.1 bias_case
  simp only [Prod.mk.injEq] at h
  exact ⟨s, .of_run (s := initSt 2) (.init rfl) hs, by rw [h.2.2.1]; rfl, h.1, by simp [St.reads, h.2.1], h.2.2.2⟩

end Verif.Rw.Swlock

namespace Verif.Rw.Brlock

open Verif

def biasInit : St 3 :=
  { readers := none, writer := false, nreaders := fun _ => 0, next := fun _ => none, prev := fun _ => none, pc := fun _ => .idle, lst := [],
    depth := fun _ => 0 }

/-- Readers 0 and 1 register; reader 0 holds the lock, reader 1 has found the flag clear, writer 2 has set it and waits; reader 0 nests. -/
def biasSetup : List (Act 3) :=
  [.register 0, .run 0, .run 0, .run 0, .run 0, .register 1, .run 1, .run 1, .run 1, .run 1, .run 1, .run 1,
    .rlock 0, .run 0, .run 0, .run 0, .rlock 1, .run 1, .wlock 2, .run 2, .rlock 0, .run 1, .run 1]

theorem bias_case : (((sys 3).run biasInit biasSetup).map fun s => (s.depth 0, s.depth 1, s.pc 1, (s.pc 2).own)) =
    some (2, 0, .rBack false, true) := by decide +kernel

theorem bias_case_reach : ∃ s : St 3, (sys 3).Reach s ∧ (s.pc 2).own = true ∧ s.reads 0 ∧ ¬ s.reads 1 := by
  obtain ⟨s, hs, h⟩ := Option.map_eq_some_iff.1 bias_case
  simp only [Prod.mk.injEq] at h
  refine ⟨s, .of_run (s := biasInit) (.init ⟨rfl, rfl, fun _ => rfl, fun _ => rfl, rfl, fun _ => rfl⟩) hs, h.2.2.2, ?_, ?_⟩ <;>
    simp [St.reads, h.1, h.2.1]

end Verif.Rw.Brlock
