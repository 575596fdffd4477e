import Verif.Core.Sys
import Mathlib.Algebra.BigOperators.Fin
import Mathlib.Algebra.Order.BigOperators.Group.Finset
import Mathlib.Data.Fintype.BigOperators

/-!
# Counting threads

`cnt P f` is the number of threads `t : Fin n` whose local state `f t` satisfies the
(decidable) predicate `P`.
-/

namespace Verif

variable {n : Nat} {α : Type _}

/-- Number of threads whose local state satisfies `P`. -/
def cnt (P : α → Bool) (f : Fin n → α) : Nat := ∑ t, (P (f t)).toNat

theorem cnt_update (P : α → Bool) (f : Fin n → α) (t : Fin n) (v : α) :
    cnt P (upd f t v) + (P (f t)).toNat = cnt P f + (P v).toNat := by
  unfold cnt
  rw [← Finset.add_sum_erase _ _ (Finset.mem_univ t),
    ← Finset.add_sum_erase (a := t) _ (fun u => (P (f u)).toNat) (Finset.mem_univ t)]
  have : ∑ x ∈ Finset.univ.erase t, (P (upd f t v x)).toNat
       = ∑ x ∈ Finset.univ.erase t, (P (f x)).toNat := by
    apply Finset.sum_congr rfl
    intro x hx
    rw [upd_ne f v (Finset.ne_of_mem_erase hx)]
  rw [this]
  simp
  omega

theorem cnt_le (P : α → Bool) (f : Fin n → α) : cnt P f ≤ n := by
  unfold cnt
  calc ∑ t, (P (f t)).toNat ≤ ∑ _t : Fin n, 1 := by
        apply Finset.sum_le_sum; intro i _; cases P (f i) <;> simp
    _ = n := by simp

theorem cnt_upd (P : α → Bool) (f : Fin n → α) (t : Fin n) (v : α) :
    cnt P (upd f t v) = cnt P f + (P v).toNat - (P (f t)).toNat := by
  have := cnt_update P f t v
  omega

theorem cnt_pos {P : α → Bool} {f : Fin n → α} (t : Fin n) (h : P (f t) = true) :
    1 ≤ cnt P f := by
  unfold cnt
  calc 1 = (P (f t)).toNat := by simp [h]
    _ ≤ _ := Finset.single_le_sum (f := fun t => (P (f t)).toNat) (by simp) (Finset.mem_univ t)

theorem cnt_two {P : α → Bool} {f : Fin n → α} {t u : Fin n} (htu : t ≠ u)
    (ht : P (f t) = true) (hu : P (f u) = true) : 2 ≤ cnt P f := by
  unfold cnt
  rw [← Finset.add_sum_erase _ _ (Finset.mem_univ t)]
  have : 1 ≤ ∑ x ∈ Finset.univ.erase t, (P (f x)).toNat := by
    calc 1 = (P (f u)).toNat := by simp [hu]
    _ ≤ _ := Finset.single_le_sum (f := fun t => (P (f t)).toNat) (by simp) (by simp [htu.symm])
  simp [ht] at *
  omega

theorem cnt_eq_zero {P : α → Bool} {f : Fin n → α} (h : cnt P f = 0) (t : Fin n) :
    P (f t) = false := by
  cases hp : P (f t) with
  | false => rfl
  | true => have := cnt_pos t hp; omega

theorem cnt_zero_of {P : α → Bool} {f : Fin n → α} (h : ∀ t, P (f t) = false) :
    cnt P f = 0 := by
  simp [cnt, h]

theorem exists_of_cnt_pos {P : α → Bool} {f : Fin n → α} (h : 0 < cnt P f) :
    ∃ t, P (f t) = true := by
  by_contra hc
  simp only [not_exists, Bool.not_eq_true] at hc
  have := cnt_zero_of hc
  omega

theorem cnt_eq_one_unique {P : α → Bool} {f : Fin n → α} (h : cnt P f ≤ 1) {t u : Fin n}
    (ht : P (f t) = true) (hu : P (f u) = true) : t = u := by
  by_contra hne
  have := cnt_two hne ht hu
  omega

theorem cnt_one_of {P : α → Bool} {f : Fin n → α} {t : Fin n} (ht : P (f t) = true)
    (hu : ∀ u, P (f u) = true → u = t) : cnt P f = 1 := by
  unfold cnt
  rw [Finset.sum_eq_single t (fun u _ hne => ?_) (by simp), ht]
  · rfl
  · cases h : P (f u)
    · rfl
    · exact absurd (hu u h) hne

theorem cnt_lt_of {P : α → Bool} {f : Fin n → α} {t : Fin n} (h : P (f t) = false) :
    cnt P f < n := by
  have h1 := cnt_update P f t (f t)
  have : cnt P f + cnt (fun x => !P x) f = n := by
    unfold cnt
    rw [← Finset.sum_add_distrib]
    have : ∀ x : Fin n, (P (f x)).toNat + (!P (f x)).toNat = 1 := by
      intro x; cases P (f x) <;> rfl
    simp [this]
  have h2 : 1 ≤ cnt (fun x => !P x) f := cnt_pos t (by simp [h])
  omega

theorem cnt_add_not (P : α → Bool) (f : Fin n → α) :
    cnt P f + cnt (fun x => !P x) f = n := by
  unfold cnt
  rw [← Finset.sum_add_distrib]
  have : ∀ x : Fin n, (P (f x)).toNat + (!P (f x)).toNat = 1 := by
    intro x; cases P (f x) <;> rfl
  simp [this]

theorem cnt_congr {f g : Fin n → Bool} (h : ∀ t, f t = g t) : cnt id f = cnt id g := by
  rw [funext h]

/-- `f` and `g` agree except that `t` satisfies only `f`. -/
theorem cnt_drop {f g : Fin n → Bool} {t : Fin n} (h : ∀ u, u ≠ t → g u = f u) (ht : f t = true)
    (hg : g t = false) : cnt id f = cnt id g + 1 := by
  have e : g = upd f t false := by
    funext u; by_cases hu : u = t
    · subst hu; simp [hg]
    · rw [upd_ne _ _ hu, h u hu]
  have := cnt_update id f t false
  rw [← e] at this
  simp [ht] at this
  omega

theorem cnt_mono {P Q : α → Bool} {f : Fin n → α} (h : ∀ t, P (f t) = true → Q (f t) = true) :
    cnt P f ≤ cnt Q f := by
  unfold cnt
  apply Finset.sum_le_sum
  intro t _
  have := h t
  cases hp : P (f t) <;> simp_all

end Verif
