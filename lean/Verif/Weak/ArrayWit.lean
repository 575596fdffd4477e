import Verif.Weak.ArrayThm

/-!
# Readers of a `ck_array` on relaxed memory: executions (C97)
-/

namespace Verif.Weak.Array

open Verif

/-- One value: the reader of the code finds length 1 and memory that nobody has stored to. -/
def staleRun : List (Act Nat 1) := [.put 0 7, .commit 1, .call 0, .act 0 0, .len 0 1, .val 0 0, .val 0 0]

/-- After a commit in place, the code returns a value that was never in the array. -/
theorem buffer_fails : ∃ s : St Nat 1, (sys real Nat 1).Reach s ∧ (s.rd 0).pc = .ret [none] := by
  have h : ((sys real Nat 1).run initSt staleRun).map (fun s => (s.rd 0).pc) = some (.ret [none]) := by decide +kernel
  rw [Option.map_eq_some_iff] at h
  obtain ⟨s, hs, h1⟩ := h
  exact ⟨s, .of_run (.init rfl) hs, h1⟩

/-- The same of a value that was put, removed before it was committed, and put again as another (`ck_array_put`, `ck_array_remove`, `ck_array_put`, `ck_array_commit`): the reader finds the one that
never was committed. -/
theorem buffer_removed : ∃ s : St Nat 1, (sys real Nat 1).Reach s ∧ (s.rd 0).pc = .ret [some 6] ∧ (∀ t, t ≤ s.now → 6 ∉ s.hist t) := by
  have h : ((sys real Nat 1).run initSt [.put 0 6, .put 0 7, .commit 1, .call 0, .act 0 0, .len 0 1, .val 0 1, .val 0 0]).map
      (fun s => ((s.rd 0).pc, s.now, s.hist 0, s.hist 1)) = some (.ret [some 6], 1, [], [7]) := by decide +kernel
  rw [Option.map_eq_some_iff] at h
  obtain ⟨s, hs, h1⟩ := h
  simp only [Prod.mk.injEq] at h1
  refine ⟨s, .of_run (.init rfl) hs, h1.1, fun t ht => ?_⟩
  have e : t = 0 ∨ t = 1 := by omega
  rcases e with rfl | rfl
  · rw [h1.2.2.1]; simp
  · rw [h1.2.2.2]; simp

/-- With the fence the values are found. -/
theorem in_place : ∃ s : St Nat 1, (sys fixed Nat 1).Reach s ∧ (s.rd 0).pc = .ret [some 7, some 8] ∧ s.now = 1 ∧ s.hist 1 = [7, 8] ∧ (s.rd 0).b = 0 := by
  have h : ((sys fixed Nat 1).run initSt [.put 0 7, .put 1 8, .commit 2, .call 0, .act 0 0, .len 0 1, .val 0 1, .val 0 1, .val 0 0]).map
      (fun s => ((s.rd 0).pc, s.now, s.hist 1, (s.rd 0).b)) = some (.ret [some 7, some 8], 1, [7, 8], 0) := by decide +kernel
  rw [Option.map_eq_some_iff] at h
  obtain ⟨s, hs, h1⟩ := h
  simp only [Prod.mk.injEq] at h1
  exact ⟨s, .of_run (.init rfl) hs, h1.1, h1.2.1, h1.2.2.1, h1.2.2.2⟩

/-- With the fence the run of `buffer_fails` does not exist. -/
theorem fixed_no : (sys fixed Nat 1).run initSt staleRun = none := by
  have h : ((sys fixed Nat 1).run initSt staleRun).isNone = true := by decide +kernel
  simpa using h

/-- The code: a commit in place, a `sync`, then a transaction; the reader may find the old content or the new one. -/
theorem replaced : ∃ s s' : St Nat 1, (sys real Nat 1).Reach s ∧ (sys real Nat 1).Reach s' ∧ s.ipl ≤ (s.rd 0).b ∧ s'.ipl ≤ (s'.rd 0).b
    ∧ (s.rd 0).pc = .ret [some 7, some 8] ∧ (s'.rd 0).pc = .ret [some 8] ∧ s.now = 2 ∧ s'.now = 2 := by
  have h : ((sys real Nat 1).run initSt [.put 0 7, .put 1 8, .commit 2, .sync 0, .prep 0 8, .prepN 1, .publish, .call 0, .act 0 0, .len 0 1,
      .val 0 1, .val 0 1, .val 0 0]).map (fun s => (decide (s.ipl ≤ (s.rd 0).b), (s.rd 0).pc, s.now)) = some (true, .ret [some 7, some 8], 2) := by decide +kernel
  have h' : ((sys real Nat 1).run initSt [.put 0 7, .put 1 8, .commit 2, .sync 0, .prep 0 8, .prepN 1, .publish, .call 0, .act 0 1, .len 0 1,
      .val 0 1, .val 0 0]).map (fun s => (decide (s.ipl ≤ (s.rd 0).b), (s.rd 0).pc, s.now)) = some (true, .ret [some 8], 2) := by decide +kernel
  rw [Option.map_eq_some_iff] at h h'
  obtain ⟨s, hs, h1⟩ := h
  obtain ⟨s', hs', h1'⟩ := h'
  simp only [Prod.mk.injEq, decide_eq_true_eq] at h1 h1'
  exact ⟨s, s', .of_run (.init rfl) hs, .of_run (.init rfl) hs', h1.1, h1'.1, h1.2.1, h1'.2.1, h1.2.2, h1'.2.2⟩

/-- A length between two commits. -/
theorem length_seen : ∃ s : St Nat 1, (sys real Nat 1).Reach s ∧ (s.rd 0).pc = .vals 0 1 [] ∧ (s.rd 0).b = 1 ∧ s.now = 2 := by
  have h : ((sys real Nat 1).run initSt [.put 0 7, .commit 1, .sync 0, .put 1 8, .commit 2, .call 0, .act 0 0, .len 0 1]).map
      (fun s => ((s.rd 0).pc, (s.rd 0).b, s.now)) = some (.vals 0 1 [], 1, 2) := by decide +kernel
  rw [Option.map_eq_some_iff] at h
  obtain ⟨s, hs, h1⟩ := h
  simp only [Prod.mk.injEq] at h1
  exact ⟨s, .of_run (.init rfl) hs, h1.1, h1.2.1, h1.2.2⟩

/-! ## Every fence is needed -/

/-- Without the fence before `active` is stored. -/
theorem no_fence_pub : ∃ s : St Nat 1, (sys { fixed with pub := false } Nat 1).Reach s ∧ (s.rd 0).pc = .ret [none] := by
  have h : ((sys { fixed with pub := false } Nat 1).run initSt [.prep 0 7, .prepN 1, .publish, .call 0, .act 0 1, .len 0 1, .val 0 0, .val 0 0]).map
      (fun s => (s.rd 0).pc) = some (.ret [none]) := by decide +kernel
  rw [Option.map_eq_some_iff] at h
  obtain ⟨s, hs, h1⟩ := h
  exact ⟨s, .of_run (.init rfl) hs, h1⟩

/-- Without the fence before `n_committed` is stored. -/
theorem no_fence_com : ∃ s : St Nat 1, (sys { fixed with com := false } Nat 1).Reach s ∧ (s.rd 0).pc = .ret [none] := by
  have h : ((sys { fixed with com := false } Nat 1).run initSt staleRun).map (fun s => (s.rd 0).pc) = some (.ret [none]) := by decide +kernel
  rw [Option.map_eq_some_iff] at h
  obtain ⟨s, hs, h1⟩ := h
  exact ⟨s, .of_run (.init rfl) hs, h1⟩

/-- Without the fence between the loads of `active` and `n_committed`, the array seems empty: it never was since the `sync`. -/
theorem no_fence_rd1 : ∃ s : St Nat 1, (sys { fixed with rd1 := false } Nat 1).Reach s ∧ (s.rd 0).pc = .ret [] ∧ (s.rd 0).b = 1 ∧ s.now = 2
    ∧ s.hist 1 = [7] ∧ s.hist 2 = [8, 9] := by
  have h : ((sys { fixed with rd1 := false } Nat 1).run initSt [.put 0 7, .commit 1, .sync 0, .prep 0 8, .prep 1 9, .prepN 2, .publish,
      .call 0, .act 0 1, .len 0 0, .val 0 0]).map (fun s => ((s.rd 0).pc, [(s.rd 0).b, s.now], [s.hist 1, s.hist 2])) =
      some (.ret [], [1, 2], [[7], [8, 9]]) := by decide +kernel
  rw [Option.map_eq_some_iff] at h
  obtain ⟨s, hs, h1⟩ := h
  simp only [Prod.mk.injEq, List.cons.injEq, and_true] at h1
  exact ⟨s, .of_run (.init rfl) hs, h1.1, h1.2.1.1, h1.2.1.2, h1.2.2.1, h1.2.2.2⟩

end Verif.Weak.Array
