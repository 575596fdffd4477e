import Verif.Weak.HsReadThm

/-!
# Readers of a hash set on relaxed memory: executions (C95)

Two keys with the same path; key 0 is in slot 1, slot 0 is a tombstone where key 1 has been.  The writer moves key 0 from slot 1 to slot 0, as `ck_hs_set` and `ck_hs_gc` do.
-/

namespace Verif.Weak.HsRead.Wit

open Verif

def G : Geo (Fin 2) := { path := fun _ l => l, gi := fun _ => 0, hm := fun _ => 0 }

/-- The reader knows these. -/
def before : List (Act (Fin 2) Nat 1) := [.bound 0 1, .put 1 0 7, .bound 0 2, .put 0 1 5, .del 1, .sync 0, .call 0 0]

def moved : List (Act (Fin 2) Nat 1) := [.move 0 0 5, .sig, .tomb]

/-- Loads the generation, the bound, both slots, the end of the loop, the generation again; slot 0 as it was before the move, slot 1 as it is after. -/
def miss (g : Nat) : List (Act (Fin 2) Nat 1) := [.gen 0 g, .bnd 0 2, .probe 0 2, .probe 0 2, .probe 0 0, .chk 0 g]

theorem run_miss : ((sys G real Nat 1).run initSt (before ++ moved ++ miss 1)).map
    (fun s => ((s.rd 0).pc, (s.rd 0).b, s.now, s.hist 3 0, s.hist 4 0)) = some (.ret 0 none, 3, 4, some 5, some 5) := by decide +kernel

/-- The generation becomes visible before the new place: a key that is in the set all the time is not found. -/
theorem _root_.Verif.Weak.HsRead.get_none_fails :
    ∃ s : St (Fin 2) Nat 1, (sys G real Nat 1).Reach s ∧ (s.rd 0).pc = .ret 0 none ∧ ∀ t, (s.rd 0).b ≤ t → t ≤ s.now → s.hist t 0 = some 5 := by
  obtain ⟨s, hs, e⟩ := Option.map_eq_some_iff.1 run_miss
  simp only [Prod.mk.injEq] at e
  obtain ⟨e1, e2, e3, e4, e5⟩ := e
  refine ⟨s, .of_run (.init rfl) hs, e1, fun t h1 h2 => ?_⟩
  rw [e2] at h1
  rw [e3] at h2
  rcases (by omega : t = 3 ∨ t = 4) with rfl | rfl
  · exact e4
  · exact e5

/-- The same with a fence left out, though the generation is incremented after a fence. -/
theorem miss_of {fc : Fences} {g : Nat} (h : ((sys G fc Nat 1).run initSt (before ++ moved ++ miss g)).map
    (fun s => ((s.rd 0).pc, (s.rd 0).b, s.now, s.hist 3 0, s.hist 4 0)) = some (.ret 0 none, 3, 4, some 5, some 5)) :
    ∃ s : St (Fin 2) Nat 1, (sys G fc Nat 1).Reach s ∧ (s.rd 0).pc = .ret 0 none ∧ ∀ t, (s.rd 0).b ≤ t → t ≤ s.now → s.hist t 0 ≠ none := by
  obtain ⟨s, hs, e⟩ := Option.map_eq_some_iff.1 h
  simp only [Prod.mk.injEq] at e
  obtain ⟨e1, e2, e3, e4, e5⟩ := e
  refine ⟨s, .of_run (.init rfl) hs, e1, fun t h1 h2 => ?_⟩
  rw [e2] at h1
  rw [e3] at h2
  rcases (by omega : t = 3 ∨ t = 4) with rfl | rfl
  · rw [e4]; simp
  · rw [e5]; simp

theorem _root_.Verif.Weak.HsRead.no_fence_sig : ∃ s : St (Fin 2) Nat 1,
    (sys G { fix := true, sig := false, rd1 := true, rd2 := true } Nat 1).Reach s ∧ (s.rd 0).pc = .ret 0 none ∧ ∀ t, (s.rd 0).b ≤ t → t ≤ s.now → s.hist t 0 ≠ none :=
  miss_of (g := 0) (by decide +kernel)

theorem _root_.Verif.Weak.HsRead.no_fence_rd1 : ∃ s : St (Fin 2) Nat 1,
    (sys G { fix := true, sig := true, rd1 := false, rd2 := true } Nat 1).Reach s ∧ (s.rd 0).pc = .ret 0 none ∧ ∀ t, (s.rd 0).b ≤ t → t ≤ s.now → s.hist t 0 ≠ none :=
  miss_of (g := 1) (by decide +kernel)

theorem _root_.Verif.Weak.HsRead.no_fence_rd2 : ∃ s : St (Fin 2) Nat 1,
    (sys G { fix := true, sig := true, rd1 := true, rd2 := false } Nat 1).Reach s ∧ (s.rd 0).pc = .ret 0 none ∧ ∀ t, (s.rd 0).b ≤ t → t ≤ s.now → s.hist t 0 ≠ none :=
  miss_of (g := 0) (by decide +kernel)

/-- The reader starts before the move and retries: the old generation, slot 0 before the move, slot 1 after; then the new place. -/
theorem retry : ((sys G real Nat 1).run initSt
      (before ++ [.gen 0 0, .bnd 0 2, .probe 0 2] ++ moved ++ [.probe 0 2, .probe 0 0, .chk 0 1, .gen 0 1, .bnd 0 2, .probe 0 3, .chk 0 1])).map
    (fun s => ((s.rd 0).pc, (s.rd 0).b, s.now)) = some (.ret 0 (some 5), 3, 4) := by decide +kernel

/-- Here the second load of the generation cannot return the old one. -/
theorem retry_must : (sys G real Nat 1).run initSt (before ++ [.gen 0 0, .bnd 0 2, .probe 0 2] ++ moved ++ [.probe 0 2, .probe 0 0, .chk 0 0]) |>.isNone := by
  decide +kernel

/-- With the fence the reader that has loaded the new generation cannot miss the new place. -/
theorem fixed_must : (sys G { real with fix := true } Nat 1).run initSt (before ++ moved ++ [.gen 0 1, .bnd 0 2, .probe 0 2]) |>.isNone := by decide +kernel

/-- A removed key is not found, a key that is not moved is found. -/
theorem plain : ((sys G real Nat 1).run initSt (before ++ [.gen 0 0, .bnd 0 2, .probe 0 2, .probe 0 1, .chk 0 0])).map
    (fun s => ((s.rd 0).pc, (s.rd 0).b, s.now, s.mvd 0)) = some (.ret 0 (some 5), 3, 3, 0) := by decide +kernel

theorem absent : ((sys G real Nat 1).run initSt
      ([.bound 0 1, .put 1 0 7, .bound 0 2, .put 0 1 5, .del 1, .sync 0, .call 0 1] ++ [.gen 0 0, .bnd 0 2, .probe 0 2, .probe 0 1, .probe 0 0, .chk 0 0])).map
    (fun s => ((s.rd 0).pc, (s.rd 0).b, s.now, s.hist 3 1, s.mvd 1)) = some (.ret 1 none, 3, 3, none, 0) := by decide +kernel

end Verif.Weak.HsRead.Wit
