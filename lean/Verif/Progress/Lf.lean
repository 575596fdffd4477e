import Mathlib.Algebra.BigOperators.Fin
import Mathlib.Algebra.Order.BigOperators.Group.Finset
import Verif.Core.Sys

/-!
# Counting the steps of operations (C104)

`Ct` adds counters to a state: the steps of the operations (`work`), the operations begun (`calls`) and the operations that have
returned (`rets`).  A structure is lock-free if `work` is bounded by what has returned (and the number of threads): whatever
the scheduler does, steps without end mean operations returning without end.
-/

namespace Verif.Lf

open Verif

/-- What a step counts as. -/
inductive Kind
  | call | work | ret
  /-- not a step of an operation -/
  | other

structure Ct (S : Type) where
  st : S
  work : Nat
  calls : Nat
  rets : Nat

def Ct.step {S A : Type} (f : S → A → Option S) (kind : S → A → Kind) (c : Ct S) (a : A) : Option (Ct S) :=
  match f c.st a with
  | none => none
  | some s => match kind c.st a with
    | .call => some { c with st := s, calls := c.calls + 1 }
    | .work => some { c with st := s, work := c.work + 1 }
    | .ret => some { c with st := s, rets := c.rets + 1 }
    | .other => some { c with st := s }

/-- The system `M` with counters. -/
def counted {S A : Type} (M : Sys S A) (kind : S → A → Kind) : Sys (Ct S) A :=
  { init := fun c => M.init c.st ∧ c.work = 0 ∧ c.calls = 0 ∧ c.rets = 0, step := Ct.step M.step kind }

theorem counted_reach {S A : Type} {M : Sys S A} {kind : S → A → Kind} {c : Ct S} (h : (counted M kind).Reach c) :
    M.Reach c.st := by
  induction h with
  | init h => exact .init h.1
  | step h hs ih =>
    simp only [counted, Ct.step] at hs
    split at hs
    · cases hs
    · next s e => split at hs <;> cases hs <;> exact .step ih e

/-- Every call pays `B`, every step of an operation costs 1, and `pot` is what is left. -/
theorem bound {S A : Type} {M : Sys S A} {kind : S → A → Kind} (pot busy : S → Nat) (B n : Nat)
    (h0 : ∀ s, M.init s → pot s = 0 ∧ busy s = 0) (hn : ∀ s, busy s ≤ n)
    (hs : ∀ s a s', M.Reach s → M.step s a = some s' → match kind s a with
      | .call => pot s' ≤ pot s + B ∧ busy s' = busy s + 1
      | .work => pot s' + 1 ≤ pot s ∧ busy s' = busy s
      | .ret => pot s' ≤ pot s ∧ busy s' + 1 = busy s
      | .other => pot s' ≤ pot s ∧ busy s' = busy s)
    {c : Ct S} (h : (counted M kind).Reach c) : c.work ≤ B * (c.rets + n) := by
  have key : c.work + pot c.st ≤ B * c.calls ∧ c.calls = c.rets + busy c.st := by
    induction h with
    | init h =>
      obtain ⟨h1, h2, h3, h4⟩ := h
      obtain ⟨e1, e2⟩ := h0 _ h1
      rw [h2, h3, h4, e1, e2]; simp
    | @step c c' a h hst ih =>
      simp only [counted, Ct.step] at hst
      split at hst
      · cases hst
      · next s e =>
        have := hs _ _ _ (counted_reach h) e
        cases hk : kind c.st a <;> rw [hk] at this hst <;> simp only at this hst <;> cases hst <;> simp only <;>
          (try rw [Nat.mul_add]) <;> constructor <;> omega
  have h1 : c.calls ≤ c.rets + n := by rw [key.2]; exact Nat.add_le_add_left (hn _) _
  exact Nat.le_trans (Nat.le_trans (Nat.le_add_right _ _) key.1) (Nat.mul_le_mul_left _ h1)

theorem sum_step {n : Nat} (f g : Fin n → Nat) (t : Fin n) (c : Nat) (h : ∀ u, u ≠ t → g u ≤ f u + c) :
    ∑ u, g u + f t + c ≤ ∑ u, f u + g t + c * n := by
  have h1 : ∑ u, (g u + if u = t then f t + c else 0) ≤ ∑ u, (f u + c + if u = t then g t else 0) := by
    refine Finset.sum_le_sum fun u _ => ?_
    by_cases e : u = t
    · subst e; simp only [if_true]; omega
    · simp only [if_neg e]; have := h u e; omega
  rw [Finset.sum_add_distrib, Finset.sum_add_distrib, Finset.sum_add_distrib] at h1
  simp only [Finset.sum_ite_eq', Finset.mem_univ, if_true, Finset.sum_const, Finset.card_univ, Fintype.card_fin,
    smul_eq_mul] at h1
  rw [Nat.mul_comm c n]
  omega

theorem sum_eq {n : Nat} (f g : Fin n → Nat) (t : Fin n) (h : ∀ u, u ≠ t → g u = f u) :
    ∑ u, g u + f t = ∑ u, f u + g t := by
  have h1 := sum_step f g t 0 fun u hu => by rw [h u hu]; omega
  have h2 := sum_step g f t 0 fun u hu => by rw [h u hu]; omega
  omega

/-- A thread that runs alone: `k` steps of `f`. -/
def alone {S : Type} (f : S → Option S) : Nat → S → Option S
  | 0, s => some s
  | k + 1, s => (f s).bind (alone f k)

/-- If every step brings `pot` down, and there is a step until the end, the end is reached within `pot` steps. -/
theorem alone_ends {S : Type} (f : S → Option S) (pot : S → Nat) (I : S → Prop) (done : S → Prop)
    (hI : ∀ s s', I s → f s = some s' → I s')
    (hs : ∀ s, I s → ¬ done s → ∃ s', f s = some s' ∧ pot s' < pot s) :
    ∀ (k : Nat) (s : S), I s → pot s ≤ k → ∃ j s', j ≤ k ∧ alone f j s = some s' ∧ done s' := by
  intro k
  induction k with
  | zero =>
    intro s hi hk
    by_cases hd : done s
    · exact ⟨0, s, Nat.le_refl _, rfl, hd⟩
    · obtain ⟨s', -, h⟩ := hs s hi hd; omega
  | succ k ih =>
    intro s hi hk
    by_cases hd : done s
    · exact ⟨0, s, Nat.zero_le _, rfl, hd⟩
    · obtain ⟨s', h1, h2⟩ := hs s hi hd
      obtain ⟨j, s'', hj, ha, hd'⟩ := ih s' (hI s s' hi h1) (by omega)
      exact ⟨j + 1, s'', by omega, by rw [alone, h1]; exact ha, hd'⟩

end Verif.Lf
