import Verif.Weak.HtReadThm

/-!
# Readers of a hash table on relaxed memory: runs (C99)

One reader, key 1 with value 10 in slot 0.
-/

namespace Verif.Weak.HtRead

open Verif

abbrev A := Act Nat Nat 1

/-- Key 1 is there, and the reader knows. -/
def pre : List A := [.fresh 1 0 10, .key, .sync 0]

/-- The reader gets as far as the value, key 1 is removed, and its slot reused for key 2. -/
def old0 : List A := pre ++ [.call 0 1, .dels 0 0, .probe 0 0 1, .del 1, .incr 2 0 20, .value, .vload 0 2, .chk 0 0]

/-- The same, but `deletions` is loaded after the slot was reused. -/
def old1 : List A := pre ++ [.del 1, .incr 2 0 20, .value, .call 0 1, .dels 0 1, .probe 0 0 1, .vload 0 2, .chk 0 1]

/-- Key 2 is moved to the slot of key 1. -/
def moved : List A := pre ++ [.fresh 2 1 20, .key, .sync 0, .del 1, .call 0 1, .dels 0 0, .probe 0 0 1, .bare 2 0 30, .vload 0 2, .chk 0 0]

/-- Key 2 is found in the slot with the old value. -/
def early : List A := pre ++ [.del 1, .incr 2 0 20, .value, .key, .call 0 2, .dels 0 1, .probe 0 0 3, .vload 0 1, .chk 0 1]

/-- What the reader returned, `b`, `now`, and the values that keys 1 and 2 had. -/
def out (s : St Nat Nat 1) := ((s.rd 0).pc, [(s.rd 0).b, s.now], [(List.range (s.now + 1)).map (s.hist · 1), (List.range (s.now + 1)).map (s.hist · 2)])

/-- The code without a load fence before line 801: key 1 gets the value of key 2. -/
theorem no_fence_rd2 : ((sys { fixed with rd2 := false } Nat Nat 1).run initSt old0).map out =
    some (.ret 1 (some 20), [1, 2], [[none, some 10, none], [none, none, none]]) := by decide +kernel

/-- The code without a load fence after line 791. -/
theorem no_fence_rd1 : ((sys { fixed with rd1 := false } Nat Nat 1).run initSt old1).map out =
    some (.ret 1 (some 20), [1, 2], [[none, some 10, none], [none, none, none]]) := by decide +kernel

/-- Line 881 as it is. -/
theorem no_set : ((sys { fixed with set := false } Nat Nat 1).run initSt moved).map out =
    some (.ret 1 (some 30), [2, 3], [[none, some 10, some 10, none], [none, none, some 20, some 20]]) := by decide +kernel

theorem no_fence_wdel : ((sys { fixed with wdel := false } Nat Nat 1).run initSt old0).map out =
    some (.ret 1 (some 20), [1, 2], [[none, some 10, none], [none, none, none]]) := by decide +kernel

theorem no_fence_wtmb : ((sys { fixed with wtmb := false } Nat Nat 1).run initSt old1).map out =
    some (.ret 1 (some 20), [1, 2], [[none, some 10, none], [none, none, none]]) := by decide +kernel

theorem no_fence_wval : ((sys { fixed with wval := false } Nat Nat 1).run initSt early).map out =
    some (.ret 2 (some 10), [1, 3], [[none, some 10, none, none], [none, none, none, some 20]]) := by decide +kernel

theorem no_fence_rkey : ((sys { fixed with rkey := false } Nat Nat 1).run initSt early).map out =
    some (.ret 2 (some 10), [1, 3], [[none, some 10, none, none], [none, none, none, some 20]]) := by decide +kernel

/-- With the repairs none of these runs exists. -/
theorem fixed_none : ((sys fixed Nat Nat 1).run initSt old0).isNone ∧ ((sys fixed Nat Nat 1).run initSt old1).isNone ∧ ((sys fixed Nat Nat 1).run initSt moved).isNone
    ∧ ((sys fixed Nat Nat 1).run initSt early).isNone := by decide +kernel

/-- The code: a lookup may return a value that the key never had. -/
theorem get_some_fails : ∃ s, (sys real Nat Nat 1).Reach s ∧ (s.rd 0).pc = .ret 1 (some 20) ∧ ∀ t, t ≤ s.now → s.hist t 1 ≠ some 20 := by
  have h : ((sys real Nat Nat 1).run initSt old0).map (fun s => ((s.rd 0).pc, s.now, s.hist 0 1, s.hist 1 1, s.hist 2 1)) =
      some (.ret 1 (some 20), 2, none, some 10, none) := by decide +kernel
  cases hs : (sys real Nat Nat 1).run initSt old0 with
  | none => rw [hs] at h; cases h
  | some s =>
    rw [hs] at h
    simp only [Option.map_some, Option.some.injEq, Prod.mk.injEq] at h
    obtain ⟨h1, h2, h3, h4, h5⟩ := h
    refine ⟨s, .of_run (.init rfl) hs, h1, fun t ht => ?_⟩
    have : t = 0 ∨ t = 1 ∨ t = 2 := by omega
    rcases this with rfl | rfl | rfl
    · rw [h3]; simp
    · rw [h4]; simp
    · rw [h5]; simp

/-- Repaired: the reader notices the reuse, starts again, and finds nothing. -/
theorem retry : ((sys fixed Nat Nat 1).run initSt (pre ++ [.call 0 1, .dels 0 0, .probe 0 0 1, .del 1, .incr 2 0 20, .value, .vload 0 2, .chk 0 1, .key, .dels 0 1,
    .probe 0 0 3, .miss 0, .chk 0 1])).map out = some (.ret 1 none, [1, 3], [[none, some 10, none, none], [none, none, none, some 20]]) := by decide +kernel

/-- Repaired: key 2 is found in the slot that was reused meanwhile. -/
theorem found : ((sys fixed Nat Nat 1).run initSt (pre ++ [.call 0 2, .dels 0 0, .del 1, .incr 2 0 20, .value, .key, .probe 0 0 3, .vload 0 2, .chk 0 1, .dels 0 1,
    .probe 0 0 3, .vload 0 2, .chk 0 1])).map out = some (.ret 2 (some 20), [1, 3], [[none, some 10, none, none], [none, none, none, some 20]]) := by decide +kernel

/-- The code: the slot was reused before the reader synchronized; then the value is replaced, and the reader gets the old one or the new one. -/
theorem replaced (i : Nat) (hi : i = 2 ∨ i = 3) : ((sys real Nat Nat 1).run initSt (pre ++ [.del 1, .incr 2 0 20, .value, .key, .sync 0, .call 0 2, .dels 0 1, .probe 0 0 3,
    .repl 2 21, .rekey, .vload 0 i, .chk 0 1])).map (fun s => (s.reu, out s)) =
    some (3, .ret 2 (some (18 + i)), [3, 4], [[none, some 10, none, none, none], [none, none, none, some 20, some 21]]) := by
  rcases hi with rfl | rfl <;> decide +kernel

/-- The code: a key is moved to a tombstone, with the counter; a reader finds it in the old slot. -/
theorem moved_found : ((sys real Nat Nat 1).run initSt (pre ++ [.fresh 2 1 20, .key, .sync 0, .del 1, .call 0 2, .dels 0 0, .incr 2 0 30, .value, .key, .probe 0 1 1, .vload 0 1,
    .incr2, .tomb, .chk 0 0])).map out = some (.ret 2 (some 20), [2, 4], [[none, some 10, some 10, none, none], [none, none, some 20, some 20, some 30]]) := by decide +kernel

end Verif.Weak.HtRead
