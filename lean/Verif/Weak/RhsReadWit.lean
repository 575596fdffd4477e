import Verif.Rhs.Wit
import Verif.Weak.RhsReadThm

/-!
# Readers of a robin-hood hash set on relaxed memory: executions (C96)

Keys 0 and 1 with the same first slot.
-/

namespace Verif.Weak.RhsRead.Wit

open Verif

/-- A key that is in the set all the time is not found. -/
def Missed (G : Geo (Fin 2)) (fc : Fences) : Prop :=
  ∃ s : St (Fin 2) Nat 1, (sys G fc Nat 1).Reach s ∧ (s.rd 0).pc = .ret 0 none ∧ ∀ t, (s.rd 0).b ≤ t → t ≤ s.now → s.hist t 0 = some 5

theorem missed_of {G : Geo (Fin 2)} {fc : Fences} {l : List (Act (Fin 2) Nat 1)} (b : Nat) (h : ((sys G fc Nat 1).run initSt l).map
    (fun s => ((s.rd 0).pc, (s.rd 0).b, s.now, [s.hist b 0, s.hist (b + 1) 0, s.hist (b + 2) 0])) = some (.ret 0 none, b, b + 2, [some 5, some 5, some 5])) : Missed G fc := by
  obtain ⟨s, hs, e⟩ := Option.map_eq_some_iff.1 h
  simp only [Prod.mk.injEq, List.cons.injEq, and_true] at e
  obtain ⟨e1, e2, e3, e4, e5, e6⟩ := e
  refine ⟨s, .of_run (.init rfl) hs, e1, fun t h1 h2 => ?_⟩
  rw [e2] at h1
  rw [e3] at h2
  rcases (by omega : t = b ∨ t = b + 1 ∨ t = b + 2) with rfl | rfl | rfl
  · exact e4
  · exact e5
  · exact e6

/-! ## Reader and writer use different counters -/

/-- Key 0 has hash 8, key 1 has hash 0, the map has 8 slots. -/
def small : Geo (Fin 2) := geo 4 8 fun k => if k = 0 then 8 else 0

/-- Key 1 in slot 0, key 0 in slot 1. -/
def before : List (Act (Fin 2) Nat 1) := [.bound 0 1, .openE 0, .fill 1 0 7, .bound 0 2, .openE 1, .fill 0 1 5, .sync 0, .call 0 0]

/-- Key 1 is removed, key 0 takes its place. -/
def removed : List (Act (Fin 2) Nat 1) := [.take 1, .copy 0 0 5 false, .sig, .bound 0 1, .clear]

/-- All fences, and every load finds the newest value: sequential consistency.  Slot 0 is loaded before the removal, slot 1 after it.  The writer increments counter 0, the reader looks at counter 8. -/
theorem run_index : ((sys small fixed Nat 1).run initSt (before ++ [.gen 0 0, .bnd 0 2, .probe 0 1] ++ removed ++ [.probe 0 2, .chk 0 0])).map
    (fun s => ((s.rd 0).pc, (s.rd 0).b, s.now, [s.hist 2 0, s.hist 3 0, s.hist 4 0])) = some (.ret 0 none, 2, 4, [some 5, some 5, some 5]) := by decide +kernel

/-- In a map of less than 1024 slots a key that is in the set all the time is not found, with all fences and on any architecture. -/
theorem _root_.Verif.Weak.RhsRead.get_none_index_fails : Missed small fixed := missed_of 2 run_index

/-- Also with the fences of the code. -/
theorem index_real : Missed small real :=
  missed_of (l := before ++ [.gen 0 0, .bnd 0 2, .probe 0 1] ++ removed ++ [.probe 0 2, .chk 0 0]) 2 (by decide +kernel)

/-- In this run the second load of the generation, the last load, has no newer value to find, nor has the load of slot 1. -/
theorem newest : ((sys small fixed Nat 1).run initSt (before ++ [.gen 0 0, .bnd 0 2, .probe 0 1] ++ removed)).map
    (fun s => (s.mem.top (.gen 8), s.mem.top (.slot 1), s.mem.top (.gen 0))) = some (0, 2, 1) := by decide +kernel

/-- The functions of the code do this: objects 0 and 8, which are their own hashes, are inserted; then `ck_rhs_remove` of object 0. -/
def cfg : Rhs.Cfg Nat Nat := ⟨fun v => v, fun q => q, false, 255⟩

/-- What readers can see of the first two slots and the bound of slot 0. -/
def view (s : Rhs.Hs Nat) : Option Nat × Option Nat × Nat × Nat := (s.m.ent 0, s.m.ent 1, s.m.bnd 0, s.m.cap)

theorem code_before : (Rhs.runs cfg (Rhs.init 8) [(.put 0, []), (.put 8, [])]).toOption.map (fun x => view x.2) = some (some 0, some 8, 2, 8) := by decide +kernel

theorem code_after : (Rhs.runs cfg (Rhs.init 8) [(.put 0, []), (.put 8, []), (.remove 0, [])]).toOption.map (fun x => view x.2) = some (some 8, none, 1, 8) := by
  decide +kernel

/-! ## Missing fences -/

/-- The same keys with the same counters. -/
def G : Geo (Fin 2) := { path := fun _ l => l, gr := fun _ => 0, gw := fun _ => 0, hm := fun _ => 0 }

/-- The generation becomes visible before the new slot: the new generation, the old value of slot 0, the new value of slot 1. -/
theorem _root_.Verif.Weak.RhsRead.get_none_fails : Missed G real :=
  missed_of (l := before ++ removed ++ [.gen 0 1, .bnd 0 2, .probe 0 1, .probe 0 2, .chk 0 1]) 2 (by decide +kernel)

/-- Also if the generation and the bound are loaded in order. -/
theorem _root_.Verif.Weak.RhsRead.no_fix : Missed G { fixed with fix := false } :=
  missed_of (l := before ++ removed ++ [.gen 0 1, .bnd 0 2, .probe 0 1, .probe 0 2, .chk 0 1]) 2 (by decide +kernel)

/-- Key 0 in slot 0. -/
def alone : List (Act (Fin 2) Nat 1) := [.bound 0 1, .openE 0, .fill 0 0 5, .sync 0, .call 0 0]

/-- Key 1 displaces it: the bound is raised, key 0 goes to slot 1. -/
def displaced : List (Act (Fin 2) Nat 1) := [.bound 0 2, .openE 1, .copy 0 1 5 false, .sig, .fill 1 0 7]

/-- The loads of the generation and of the bound are not ordered: the new generation, the old bound. -/
theorem _root_.Verif.Weak.RhsRead.get_none_bound_fails : Missed G { real with fix := true } :=
  missed_of (l := alone ++ displaced ++ [.gen 0 1, .bnd 0 1, .probe 0 2, .probe 0 0, .chk 0 1]) 1 (by decide +kernel)

/-- With the fence the old bound cannot be loaded. -/
theorem bound_must : (sys G fixed Nat 1).run initSt (alone ++ displaced ++ [.gen 0 1, .bnd 0 1]) |>.isNone := by decide +kernel

theorem _root_.Verif.Weak.RhsRead.no_fence_sig : Missed G { fixed with sig := false } :=
  missed_of (l := before ++ removed ++ [.gen 0 0, .bnd 0 2, .probe 0 1, .probe 0 2, .chk 0 0]) 2 (by decide +kernel)

theorem _root_.Verif.Weak.RhsRead.no_fence_rd2 : Missed G { fixed with rd2 := false } :=
  missed_of (l := before ++ removed ++ [.gen 0 0, .bnd 0 2, .probe 0 1, .probe 0 2, .chk 0 0]) 2 (by decide +kernel)

/-! ## Lookups that go right -/

/-- The reader starts before the removal and retries. -/
theorem retry : ((sys G real Nat 1).run initSt
      (before ++ [.gen 0 0, .bnd 0 2, .probe 0 1] ++ removed ++ [.probe 0 2, .chk 0 1, .gen 0 1, .bnd 0 3, .probe 0 2, .chk 0 1])).map
    (fun s => ((s.rd 0).pc, (s.rd 0).b, s.now)) = some (.ret 0 (some 5), 2, 4) := by decide +kernel

theorem retry_must : (sys G real Nat 1).run initSt (before ++ [.gen 0 0, .bnd 0 2, .probe 0 1] ++ removed ++ [.probe 0 2, .chk 0 0]) |>.isNone := by
  decide +kernel

/-- With the fence, the new generation implies the new slot. -/
theorem fixed_must : (sys G fixed Nat 1).run initSt (before ++ removed ++ [.gen 0 1, .bnd 0 2, .probe 0 1]) |>.isNone := by decide +kernel

/-- A map of 1024 slots: with hash 1024 key 0 has the counter of key 1. -/
def large : Geo (Fin 2) := geo 4 1024 fun k => if k = 0 then 1024 else 0

theorem large_retry : ((sys large fixed Nat 1).run initSt
      (before ++ [.gen 0 0, .bnd 0 2, .probe 0 1] ++ removed ++ [.probe 0 2, .chk 0 1, .gen 0 1, .bnd 0 3, .probe 0 2, .chk 0 1])).map
    (fun s => ((s.rd 0).pc, (s.rd 0).b, s.now)) = some (.ret 0 (some 5), 2, 4) := by decide +kernel

/-- Replacement with a displacement, as in `ck_rhs_set`: key 0 moves from slot 1 to the place of key 1 with a new object, with the counter of the reader. -/
theorem replaced : ((sys small real Nat 1).run initSt
      (before ++ [.bound 0 3, .openE 2, .copy 1 2 7 false, .sig, .copy 0 0 6 true, .sig, .copy 1 1 7 false, .sig, .clear] ++ [.gen 0 1, .bnd 0 3, .probe 0 2, .chk 0 1])).map
    (fun s => ((s.rd 0).pc, s.now, s.hist 5 0, s.mvd 0)) = some (.ret 0 (some 6), 5, some 6, 4) := by decide +kernel

/-- A removed key is not found, a key that is not moved is found. -/
theorem plain : ((sys G real Nat 1).run initSt (before ++ [.gen 0 0, .bnd 0 2, .probe 0 1, .probe 0 1, .chk 0 0])).map
    (fun s => ((s.rd 0).pc, (s.rd 0).b, s.now, s.mvd 0)) = some (.ret 0 (some 5), 2, 2, 0) := by decide +kernel

theorem absent : ((sys G real Nat 1).run initSt
      ([.bound 0 1, .openE 0, .fill 0 0 5, .take 0, .clear, .sync 0, .call 0 0] ++ [.gen 0 0, .bnd 0 1, .probe 0 2, .chk 0 0])).map
    (fun s => ((s.rd 0).pc, (s.rd 0).b, s.now, s.hist 2 0, s.mvd 0)) = some (.ret 0 none, 2, 2, none, 0) := by decide +kernel

end Verif.Weak.RhsRead.Wit
