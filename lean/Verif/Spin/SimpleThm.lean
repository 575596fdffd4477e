import Verif.Spin.Simple

/-!
# C01: FAS, CAS and DEC spinlocks
-/

namespace Verif.Spin

open Spec

/-! ## FAS -/

namespace Fas

private def Inv {n : Nat} (s : St n) : Prop :=
  ∃ o : Option (Fin n), (∀ t, s.pc t = .inside ↔ o = some t) ∧
    (s.value = if o = none then 0 else 1)

private theorem inv_of_reach {n : Nat} {s : St n} (h : (sys n).Reach s) : Inv s := by
  refine h.invariant (I := Inv) ?_ ?_
  · rintro s rfl; exact ⟨none, by simp [initSt], by simp [initSt]⟩
  · rintro s a s' ⟨o, ho, hv⟩ hs
    rcases a with t | t | t | t | t <;> simp only [sys, step] at hs <;> step_split hs <;>
      first
      | exact ⟨o, by grind, by grind⟩
      | exact ⟨none, by grind, by grind⟩
      | exact ⟨some t, by grind, by grind⟩

/-- C01 (FAS): at most one thread is between a successful lock/trylock and its unlock. -/
theorem mutual_exclusion {n : Nat} {s : St n} (h : (sys n).Reach s) : MutEx s.holds := by
  obtain ⟨o, ho, hv⟩ := inv_of_reach h
  intro t u ht hu
  simp only [St.holds] at *
  grind

/-- C01 (FAS): `locked` reports ownership. -/
theorem locked_iff {n : Nat} {s : St n} (h : (sys n).Reach s) :
    locked s = true ↔ ∃ t, s.holds t := by
  obtain ⟨o, ho, hv⟩ := inv_of_reach h
  simp only [St.holds, locked] at *
  cases o <;> simp_all

/-- C01 (FAS): trylock succeeds exactly if nobody owns the lock, and a failing trylock changes
neither the lock word nor any thread. -/
theorem trylock_spec {n : Nat} {s s' : St n} {t : Fin n} (h : (sys n).Reach s)
    (hs : (sys n).step s (.trylock t) = some s') :
    (s'.holds t ↔ ¬ ∃ u, s.holds u) ∧ (¬ s'.holds t → s' = s) := by
  obtain ⟨o, ho, hv⟩ := inv_of_reach h
  simp only [St.holds, sys, step] at *
  step_split hs
  · constructor <;> grind
  · next hp _ => 
    have h2 : upd s.pc t .idle = s.pc := by rw [← hp]; simp
    have h3 : s.value = 1 := by grind
    refine ⟨by cases o <;> simp_all, fun _ => ?_⟩
    rw [h2, ← h3]

/-- C01 (FAS), progress: in a state in which nobody owns the lock, a thread inside `lock`
acquires it within two of its own steps. -/
theorem lock_progress {n : Nat} {s : St n} {t : Fin n} (h : (sys n).Reach s)
    (hfree : ∀ u, ¬ s.holds u) (hp : s.pc t = .rmw ∨ s.pc t = .spin) :
    ∃ s', ((sys n).run s [.run t] = some s' ∨ (sys n).run s [.run t, .run t] = some s') ∧
      s'.holds t := by
  obtain ⟨o, ho, hv⟩ := inv_of_reach h
  have hv : s.value = 0 := by
    cases o <;> simp_all [St.holds]
  rcases hp with hp | hp
  · exact ⟨_, .inl (by simp [Sys.run, sys, step, hp, hv]; rfl), by simp [St.holds]⟩
  · exact ⟨_, .inr (by simp [Sys.run, sys, step, hp, hv]; rfl), by simp [St.holds]⟩

/-- Three threads contend, one gets in, trylock of another fails, hand-over works. -/
example : ((sys 3).run (initSt 3)
    [.lock 0, .lock 1, .run 1, .run 0, .trylock 2, .run 0, .unlock 1, .run 0, .run 0]).map
    (fun s => (s.pc 0, s.pc 1, s.pc 2, locked s)) = some (.inside, .idle, .idle, true) := by
  decide

end Fas

/-! ## CAS -/

namespace Cas

private def Inv {n : Nat} (s : St n) : Prop :=
  ∃ o : Option (Fin n), (∀ t, s.pc t = .inside ↔ o = some t) ∧
    (s.value = if o = none then 0 else 1)

private theorem inv_of_reach {n : Nat} {s : St n} (h : (sys n).Reach s) : Inv s := by
  refine h.invariant (I := Inv) ?_ ?_
  · rintro s rfl; exact ⟨none, by simp [initSt], by simp [initSt]⟩
  · rintro s a s' ⟨o, ho, hv⟩ hs
    rcases a with t | t | t | t | t <;> simp only [sys, step] at hs <;> step_split hs <;>
      first
      | exact ⟨o, by grind, by grind⟩
      | exact ⟨none, by grind, by grind⟩
      | exact ⟨some t, by grind, by grind⟩

/-- C01 (CAS): mutual exclusion. -/
theorem mutual_exclusion {n : Nat} {s : St n} (h : (sys n).Reach s) : MutEx s.holds := by
  obtain ⟨o, ho, hv⟩ := inv_of_reach h
  intro t u ht hu
  simp only [St.holds] at *
  grind

/-- C01 (CAS): `locked` reports ownership. -/
theorem locked_iff {n : Nat} {s : St n} (h : (sys n).Reach s) :
    locked s = true ↔ ∃ t, s.holds t := by
  obtain ⟨o, ho, hv⟩ := inv_of_reach h
  simp only [St.holds, locked] at *
  cases o <;> simp_all

/-- C01 (CAS): trylock succeeds exactly if nobody owns the lock, a failing trylock has no effect. -/
theorem trylock_spec {n : Nat} {s s' : St n} {t : Fin n} (h : (sys n).Reach s)
    (hs : (sys n).step s (.trylock t) = some s') :
    (s'.holds t ↔ ¬ ∃ u, s.holds u) ∧ (¬ s'.holds t → s' = s) := by
  obtain ⟨o, ho, hv⟩ := inv_of_reach h
  simp only [St.holds, sys, step] at *
  step_split hs
  · constructor <;> grind
  · next hp _ => 
    have h2 : upd s.pc t .idle = s.pc := by rw [← hp]; simp
    have h3 : s.value = 1 := by grind
    refine ⟨by cases o <;> simp_all, fun _ => ?_⟩
    rw [h2, ← h3]

/-- C01 (CAS), progress. -/
theorem lock_progress {n : Nat} {s : St n} {t : Fin n} (h : (sys n).Reach s)
    (hfree : ∀ u, ¬ s.holds u) (hp : s.pc t = .rmw ∨ s.pc t = .spin) :
    ∃ s', ((sys n).run s [.run t] = some s' ∨ (sys n).run s [.run t, .run t] = some s') ∧
      s'.holds t := by
  obtain ⟨o, ho, hv⟩ := inv_of_reach h
  have hv : s.value = 0 := by
    cases o <;> simp_all [St.holds]
  rcases hp with hp | hp
  · exact ⟨_, .inl (by simp [Sys.run, sys, step, hp, hv]; rfl), by simp [St.holds]⟩
  · exact ⟨_, .inr (by simp [Sys.run, sys, step, hp, hv]; rfl), by simp [St.holds]⟩

example : ((sys 3).run (initSt 3)
    [.lock 0, .lock 1, .run 1, .run 0, .trylock 2, .run 0, .unlock 1, .run 0, .run 0]).map
    (fun s => (s.pc 0, s.pc 1, s.pc 2, locked s)) = some (.inside, .idle, .idle, true) := by
  decide

end Cas

/-! ## DEC -/

namespace Dec

private def isSpin (p : PC) : Bool := p = .spin

/-- While owned, the word is `0 - k` for some `k` not above the number of threads in the wait
loop (a failing trylock may have reset it to 0). -/
private def Inv {n : Nat} (s : St n) : Prop :=
  ∃ o : Option (Fin n), (∀ t, s.pc t = .inside ↔ o = some t) ∧
    (o = none → s.value = 1) ∧ (o ≠ none → (-s.value).toNat ≤ cnt isSpin s.pc)

private theorem ne_one_of {v : BitVec 32} (h : (-v).toNat < 2 ^ 32 - 1) : v ≠ 1 := by
  rintro rfl; simp at h

private theorem sub_one_toNat {v : BitVec 32} (h : (-v).toNat < 2 ^ 32 - 1) :
    (-(v - 1)).toNat = (-v).toNat + 1 := by
  simp only [BitVec.toNat_neg, BitVec.toNat_sub] at *
  simp at *
  omega

private theorem inv_of_reach {n : Nat} (hn : n < 2 ^ 32) {s : St n} (h : (sys n).Reach s) :
    Inv s := by
  refine h.invariant (I := Inv) ?_ ?_
  · rintro s rfl; exact ⟨none, by simp [initSt], by simp [initSt], by simp⟩
  · rintro s a s' ⟨o, ho, hf, hh⟩ hs
    have hc := fun t v => cnt_update isSpin s.pc t v
    have hh' : o ≠ none → s.value ≠ 1 ∧ (-(s.value - 1)).toNat = (-s.value).toNat + 1 := by
      intro h
      obtain ⟨u, rfl⟩ := Option.ne_none_iff_exists'.1 h
      have hlt : cnt isSpin s.pc < n := cnt_lt_of (t := u) (by simp [isSpin, (ho u).2 rfl])
      have := hh h
      exact ⟨ne_one_of (by omega), sub_one_toNat (by omega)⟩
    have h0 : (-(0 : BitVec 32)).toNat = 0 := rfl
    have h1 : s.value = 1 → s.value - 1 = 0 := by rintro h; rw [h]; rfl
    have h2 : s.value - 1 = 0 → (-(s.value - 1)).toNat = 0 := by rintro h; rw [h]; rfl
    have h3 : (isSpin .rmw).toNat = 0 ∧ (isSpin .idle).toNat = 0 ∧ (isSpin .inside).toNat = 0 ∧
      (isSpin .spin).toNat = 1 := by decide
    rcases a with t | t | t | t | t <;> simp only [sys, step] at hs <;> step_split hs <;>
      first
      | exact ⟨o, by grind, by grind, by grind⟩
      | exact ⟨none, by grind, by grind, by grind⟩
      | exact ⟨some t, by grind, by grind, by grind⟩

/-- C01 (DEC): mutual exclusion for fewer than 2^32 threads. -/
theorem mutual_exclusion {n : Nat} (hn : n < 2 ^ 32) {s : St n} (h : (sys n).Reach s) :
    MutEx s.holds := by
  obtain ⟨o, ho, -, -⟩ := inv_of_reach hn h
  intro t u ht hu
  simp only [St.holds] at *
  grind

/-- C01 (DEC): `locked` reports ownership. -/
theorem locked_iff {n : Nat} (hn : n < 2 ^ 32) {s : St n} (h : (sys n).Reach s) :
    locked s = true ↔ ∃ t, s.holds t := by
  simp only [St.holds, locked, decide_eq_true_eq]
  obtain ⟨o, ho, hf, hh⟩ := inv_of_reach hn h
  cases o with
  | none => simp_all
  | some u =>
    have hlt : cnt isSpin s.pc < n := cnt_lt_of (t := u) (by simp [isSpin, (ho u).2 rfl])
    have := hh (by simp)
    exact ⟨fun _ => ⟨u, (ho u).2 rfl⟩, fun _ => ne_one_of (by omega)⟩

/-- C01 (DEC): trylock succeeds exactly if nobody owns the lock; a failing trylock leaves the
owner and all threads as they were. -/
theorem trylock_spec {n : Nat} (hn : n < 2 ^ 32) {s s' : St n} {t : Fin n} (h : (sys n).Reach s)
    (hs : (sys n).step s (.trylock t) = some s') :
    (s'.holds t ↔ ¬ ∃ u, s.holds u) ∧ (¬ s'.holds t → s'.pc = s.pc) := by
  have hl := locked_iff hn h
  simp only [St.holds, sys, step, locked] at *
  step_split hs
  · constructor <;> grind
  · next hp _ =>
    have h2 : upd s.pc t .idle = s.pc := by rw [← hp]; simp
    exact ⟨by grind, fun _ => h2⟩

/-- C01 (DEC), progress. -/
theorem lock_progress {n : Nat} (hn : n < 2 ^ 32) {s : St n} {t : Fin n} (h : (sys n).Reach s)
    (hfree : ∀ u, ¬ s.holds u) (hp : s.pc t = .rmw ∨ s.pc t = .spin) :
    ∃ s', ((sys n).run s [.run t] = some s' ∨ (sys n).run s [.run t, .run t] = some s') ∧
      s'.holds t := by
  have hv : s.value = 1 := by
    have := locked_iff hn h
    simp only [locked] at this
    grind
  rcases hp with hp | hp
  · exact ⟨_, .inl (by simp [Sys.run, sys, step, hp, hv]; rfl), by simp [St.holds]⟩
  · exact ⟨_, .inr (by simp [Sys.run, sys, step, hp, hv]; rfl), by simp [St.holds]⟩

example : ((sys 3).run (initSt 3)
    [.lock 0, .lock 1, .run 1, .run 0, .trylock 2, .run 0, .unlock 1, .run 0, .run 0]).map
    (fun s => (s.pc 0, s.pc 1, s.pc 2, locked s)) = some (.inside, .idle, .idle, true) := by
  decide

end Dec

end Verif.Spin
