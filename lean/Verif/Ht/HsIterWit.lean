import Verif.Ht.HsIter

/-! # Hash set: executions of an iteration concurrent with the writer (C101) -/

namespace Verif.Hs.Iter

open Verif Verif.Hs

/-- Keys `Nat`, objects pairs of a key and a payload, every key hashes to `h`, per-bucket bounds. -/
def ic (h : Nat) : Cfg Nat (Nat × Nat) :=
  { key := Prod.fst, hash := fun _ => h, tag := fun h => h >>> 25, del := true, wmax := 255 }

/-- An empty set of capacity 8. -/
def i0 (h : Nat) : IS Nat (Nat × Nat) (Fin 1) :=
  { base := { maps := fun _ => create (ic h) 8, cur := 0, gh := ⟨fun _ => none, none, false⟩, pend := [], op := none
              lin := False, rd := fun _ => .idle, absent := fun _ => False, had := fun _ _ => False }
    wlog := [fun _ => none], it := none }

theorem i0_init (h : Nat) : (sys (T := Fin 1) (ic h) 8).init (i0 h) := ⟨⟨rfl, rfl, rfl, rfl, rfl, fun _ => rfl⟩, rfl, rfl⟩

/-- An operation with `k` stores. -/
def op (o : Op Nat (Nat × Nat)) (k : Nat) (al : List Bool := []) : List (Act Nat (Nat × Nat) (Fin 1)) :=
  .base (.begin o al) :: List.replicate k (.base .exec) ++ [.base .fin]

def loads (n : Nat) : List (Act Nat (Nat × Nat) (Fin 1)) := List.replicate n .next

instance (cfg : Cfg Nat (Nat × Nat)) (l : List (Nat → Option (Nat × Nat))) (v : Nat × Nat) : Decidable (Some cfg l v) :=
  inferInstanceAs (Decidable (∃ x ∈ l, _))

instance (cfg : Cfg Nat (Nat × Nat)) (l : List (Nat → Option (Nat × Nat))) (v : Nat × Nat) : Decidable (All cfg l v) :=
  inferInstanceAs (Decidable (∀ x ∈ l, _))

/-- A schedule ends in an iteration that satisfies `p`. -/
theorem run_case {h : Nat} {l : List (Act Nat (Nat × Nat) (Fin 1))} {p : It Nat (Nat × Nat) → Bool}
    (hr : ((sys (T := Fin 1) (ic h) 8).run (i0 h) l).any (fun s => s.it.any p) = true) :
    ∃ s i, (sys (T := Fin 1) (ic h) 8).Reach s ∧ s.it = some i ∧ p i = true := by
  rw [Option.any_eq_true] at hr
  obtain ⟨s, h1, h2⟩ := hr
  rw [Option.any_eq_true] at h2
  obtain ⟨i, h3, h4⟩ := h2
  exact ⟨s, i, .of_run (.init (i0_init h)) h1, h3, h4⟩

/-- Meanwhile the writer removes one object, inserts another one and grows the table; the object that stays is returned
once, the one that was removed after it had been returned as well. -/
theorem complete_case : ∃ s i, (sys (T := Fin 1) (ic 1) 8).Reach s ∧ s.it = some i ∧ i.fin = true ∧
    All (ic 1) i.log (1, 11) ∧ (∀ o ∈ i.ops, quiet (1, 11) o = true) ∧ i.ops.length = 3 ∧ i.out = [(0, 10), (1, 11)] := by
  obtain ⟨s, i, h1, h2, h3⟩ := run_case (h := 1) (l := op (.put (0, 10)) 4 ++ op (.put (1, 11)) 4 ++ [.init] ++ loads 3 ++
      op (.remove 0) 2 ++ op (.put (2, 12)) 2 ++ op (.grow 64) 1 [true] ++ loads 7)
    (p := fun i => i.fin && decide (All (ic 1) i.log (1, 11)) && i.ops.all (quiet (1, 11)) && decide (i.ops.length = 3) &&
      decide (i.out = [(0, 10), (1, 11)])) (by decide +kernel)
  simp only [Bool.and_eq_true, decide_eq_true_eq, List.all_eq_true] at h3
  obtain ⟨⟨⟨⟨a, b⟩, c⟩, d⟩, e⟩ := h3
  exact ⟨s, i, h1, h2, a, b, c, d, e⟩

/-- An object that was removed before the iteration reached it is not returned, one that was inserted ahead of it is. -/
theorem sound_case : ∃ s i, (sys (T := Fin 1) (ic 1) 8).Reach s ∧ s.it = some i ∧ i.fin = true ∧
    i.out = [(1, 11), (2, 12)] ∧ ¬ All (ic 1) i.log (2, 12) := by
  obtain ⟨s, i, h1, h2, h3⟩ := run_case (h := 1) (l := op (.put (0, 10)) 4 ++ op (.put (1, 11)) 4 ++ [.init] ++ loads 1 ++
      op (.remove 0) 2 ++ loads 2 ++ op (.put (3, 13)) 2 ++ op (.put (2, 12)) 4 ++ loads 8)
    (p := fun i => i.fin && decide (i.out = [(1, 11), (2, 12)]) && decide (¬ All (ic 1) i.log (2, 12))) (by decide +kernel)
  simp only [Bool.and_eq_true, decide_eq_true_eq] at h3
  exact ⟨s, i, h1, h2, h3.1.1, h3.1.2, h3.2⟩

/-- The object that an operation in progress replaces is still returned: `pre` is needed in `iter_sound`. -/
theorem pre_needed : ∃ s i, (sys (T := Fin 1) (ic 1) 8).Reach s ∧ s.it = some i ∧ (1, 11) ∈ i.out ∧
    ¬ Some (ic 1) i.log (1, 11) := by
  obtain ⟨s, i, h1, h2, h3⟩ := run_case (h := 1) (l := op (.put (0, 10)) 4 ++ op (.put (1, 11)) 4 ++ op (.remove 0) 2 ++
      [.base (.begin (.set (1, 13)) []), .base .exec, .init] ++ loads 8)
    (p := fun i => decide ((1, 11) ∈ i.out) && decide (¬ Some (ic 1) i.log (1, 11))) (by decide +kernel)
  simp only [Bool.and_eq_true, decide_eq_true_eq] at h3
  exact ⟨s, i, h1, h2, h3.1, h3.2⟩

/-- `ck_hs_gc` moves an object behind the iteration: it was in the set all the time and is not returned. -/
theorem missed : ∃ s i, (sys (T := Fin 1) (ic 1) 8).Reach s ∧ s.it = some i ∧ i.fin = true ∧
    All (ic 1) i.log (1, 11) ∧ i.out = [] := by
  obtain ⟨s, i, h1, h2, h3⟩ := run_case (h := 1) (l := op (.put (0, 10)) 4 ++ op (.put (1, 11)) 4 ++ op (.remove 0) 2 ++
      [.init] ++ loads 3 ++ op (.gc 1 0) 3 ++ loads 7)
    (p := fun i => i.fin && decide (All (ic 1) i.log (1, 11)) && decide (i.out = [])) (by decide +kernel)
  simp only [Bool.and_eq_true, decide_eq_true_eq] at h3
  exact ⟨s, i, h1, h2, h3.1.1, h3.1.2, h3.2⟩

/-- `ck_hs_gc` moves an object ahead of the iteration: it is returned twice. -/
theorem twice : ∃ s i, (sys (T := Fin 1) (ic 7) 8).Reach s ∧ s.it = some i ∧ i.fin = true ∧
    All (ic 7) i.log (1, 11) ∧ i.out = [(1, 11), (1, 11)] := by
  obtain ⟨s, i, h1, h2, h3⟩ := run_case (h := 7) (l := op (.put (0, 10)) 4 ++ op (.put (1, 11)) 4 ++ op (.remove 0) 2 ++
      [.init] ++ loads 2 ++ op (.gc 1 0) 3 ++ loads 8)
    (p := fun i => i.fin && decide (All (ic 7) i.log (1, 11)) && decide (i.out = [(1, 11), (1, 11)])) (by decide +kernel)
  simp only [Bool.and_eq_true, decide_eq_true_eq] at h3
  exact ⟨s, i, h1, h2, h3.1.1, h3.1.2, h3.2⟩

/-- `ck_hs_set` with the object that is there does the same. -/
theorem missed_set : ∃ s i, (sys (T := Fin 1) (ic 1) 8).Reach s ∧ s.it = some i ∧ i.fin = true ∧
    All (ic 1) i.log (1, 11) ∧ i.out = [] := by
  obtain ⟨s, i, h1, h2, h3⟩ := run_case (h := 1) (l := op (.put (0, 10)) 4 ++ op (.put (1, 11)) 4 ++ op (.remove 0) 2 ++
      [.init] ++ loads 3 ++ op (.set (1, 11)) 3 ++ loads 7)
    (p := fun i => i.fin && decide (All (ic 1) i.log (1, 11)) && decide (i.out = [])) (by decide +kernel)
  simp only [Bool.and_eq_true, decide_eq_true_eq] at h3
  exact ⟨s, i, h1, h2, h3.1.1, h3.1.2, h3.2⟩

/-- `ck_hs_fas` too. -/
theorem missed_fas : ∃ s i, (sys (T := Fin 1) (ic 1) 8).Reach s ∧ s.it = some i ∧ i.fin = true ∧
    All (ic 1) i.log (1, 11) ∧ i.out = [] := by
  obtain ⟨s, i, h1, h2, h3⟩ := run_case (h := 1) (l := op (.put (0, 10)) 4 ++ op (.put (1, 11)) 4 ++ op (.remove 0) 2 ++
      [.init] ++ loads 3 ++ op (.fas (1, 11)) 3 ++ loads 7)
    (p := fun i => i.fin && decide (All (ic 1) i.log (1, 11)) && decide (i.out = [])) (by decide +kernel)
  simp only [Bool.and_eq_true, decide_eq_true_eq] at h3
  exact ⟨s, i, h1, h2, h3.1.1, h3.1.2, h3.2⟩

end Verif.Hs.Iter
