import Verif.Core.Count

/-!
# Completion of pending operations

`M.Drains own Q s`: from state `s` there is a finite schedule of actions `own` that ends in a state satisfying `Q`.  With
"steps of calls in progress, and releases" for `own` and "no call is in progress and nothing is held" for `Q` this is the
absence of deadlock and of lost wake-ups: whatever happened, the calls in progress can be completed without any new call.
-/

namespace Verif

variable {n : Nat} {α : Type _}

/-- Sum of the ranks of the threads. -/
def tot (r : α → Nat) (f : Fin n → α) : Nat := ∑ t, r (f t)

theorem tot_update (r : α → Nat) (f : Fin n → α) (t : Fin n) (v : α) :
    tot r (upd f t v) + r (f t) = tot r f + r v := by
  unfold tot
  rw [← Finset.add_sum_erase _ _ (Finset.mem_univ t),
    ← Finset.add_sum_erase (a := t) _ (fun u => r (f u)) (Finset.mem_univ t)]
  have : ∑ x ∈ Finset.univ.erase t, r (upd f t v x) = ∑ x ∈ Finset.univ.erase t, r (f x) := by
    apply Finset.sum_congr rfl
    intro x hx
    rw [upd_ne f v (Finset.ne_of_mem_erase hx)]
  rw [this]
  simp
  omega

theorem tot_lt {r : α → Nat} {f : Fin n → α} {t : Fin n} {v : α} (h : r v < r (f t)) :
    tot r (upd f t v) < tot r f := by
  have := tot_update r f t v; omega

theorem tot_le {r : α → Nat} {f : Fin n → α} {t : Fin n} {v : α} (h : r v ≤ r (f t)) :
    tot r (upd f t v) ≤ tot r f := by
  have := tot_update r f t v; omega

namespace Sys

variable {S A : Type _}

/-- Actions `own` can lead from `s` to a state satisfying `Q`. -/
def Drains (M : Sys S A) (own : A → Prop) (Q : S → Prop) (s : S) : Prop :=
  ∃ as s', (∀ a ∈ as, own a) ∧ M.run s as = some s' ∧ Q s'

/-- It suffices that some action makes a well-founded measure smaller. -/
theorem drains' {M : Sys S A} {own : A → Prop} {Q J : S → Prop} {T : Type _} {r : T → T → Prop} (wf : WellFounded r)
    (μ : S → T) (h : ∀ s, J s → Q s ∨ ∃ a s', own a ∧ M.step s a = some s' ∧ J s' ∧ r (μ s') (μ s)) {s : S} (hJ : J s) :
    M.Drains own Q s := by
  generalize hm : μ s = m
  induction wf.apply m generalizing s with
  | intro m _ ih =>
    rcases h s hJ with hq | ⟨a, s', ha, hs, hJ', hlt⟩
    · exact ⟨[], s, by simp, rfl, hq⟩
    · obtain ⟨as, s2, h1, h2, h3⟩ := ih _ (by rw [← hm]; exact hlt) hJ' rfl
      refine ⟨a :: as, s2, ?_, ?_, h3⟩
      · intro b hb
        rcases List.mem_cons.1 hb with rfl | hb
        · exact ha
        · exact h1 b hb
      · simp only [run, hs]; exact h2

/-- One measure, all reachable states. -/
theorem drains {M : Sys S A} {own : A → Prop} {Q : S → Prop} (μ : S → Nat)
    (h : ∀ s, M.Reach s → Q s ∨ ∃ a s', own a ∧ M.step s a = some s' ∧ μ s' < μ s) {s : S} (hr : M.Reach s) :
    M.Drains own Q s :=
  drains' (J := M.Reach) (r := (· < ·)) Nat.lt_wfRel.wf μ (fun s hs => (h s hs).imp id
    (fun ⟨a, s', h1, h2, h3⟩ => ⟨a, s', h1, h2, .step hs h2, h3⟩)) hr

/-- Three measures, compared lexicographically; `J` is a hypothesis on the state kept by `own`. -/
theorem drains3 {M : Sys S A} {own : A → Prop} {Q J : S → Prop} (a b c : S → Nat)
    (hJ : ∀ s x s', M.Reach s → J s → own x → M.step s x = some s' → J s')
    (h : ∀ s, M.Reach s → J s → Q s ∨ ∃ x s', own x ∧ M.step s x = some s' ∧
      a s' ≤ a s ∧ (a s' < a s ∨ b s' ≤ b s ∧ (b s' < b s ∨ c s' < c s))) {s : S} (hr : M.Reach s) (hs : J s) :
    M.Drains own Q s := by
  refine drains' (J := fun s => M.Reach s ∧ J s) (μ := fun s => (a s, b s, c s))
    (Prod.lex Nat.lt_wfRel (Prod.lex Nat.lt_wfRel Nat.lt_wfRel)).wf ?_ ⟨hr, hs⟩
  rintro s ⟨hr, hs⟩
  rcases h s hr hs with hq | ⟨x, s', h1, h2, h3, h4⟩
  · exact .inl hq
  · refine .inr ⟨x, s', h1, h2, ⟨.step hr h2, hJ s x s' hr hs h1 h2⟩, ?_⟩
    show Prod.Lex (· < ·) (Prod.Lex (· < ·) (· < ·)) _ _
    rcases h4 with h4 | ⟨h4, h5⟩
    · exact .left _ _ h4
    · rcases Nat.lt_or_eq_of_le h3 with h3 | h3
      · exact .left _ _ h3
      · rw [h3]
        refine .right _ ?_
        rcases Nat.lt_or_eq_of_le h4 with h6 | h6
        · exact .left _ _ h6
        · rw [h6]; exact .right _ (by omega)

/-- A deadlock: the actions `own` are disabled or change nothing. -/
theorem not_drains {M : Sys S A} {own : A → Prop} {Q : S → Prop} {s : S}
    (h : ∀ a, own a → M.step s a = none ∨ M.step s a = some s) (hq : ¬ Q s) : ¬ M.Drains own Q s := by
  rintro ⟨as, s', h1, h2, h3⟩
  induction as with
  | nil => cases h2; exact hq h3
  | cons a as ih =>
    rcases h a (h1 a (by simp)) with e | e <;> simp only [run, e] at h2
    · cases h2
    · exact ih (fun b hb => h1 b (by simp [hb])) h2

end Sys
end Verif
