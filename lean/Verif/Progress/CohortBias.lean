import Verif.Progress.RwCohort

/-!
# Preference and wait limits of `ck_rwcohort` (C109)

The models of C19 and C20.  The preferred side is admitted first: while a WP writer holds the cohort lock no reader is let in, while an RP
reader is counted no writer is let in.  A thread of the other side that has waited longer than `wait_limit` raises the barrier; from then
on until it is let in every thread of the preferred side is let in at most once more.
-/

set_option linter.unusedSimpArgs false
set_option linter.unusedVariables false

namespace Verif.RwCohort

open Verif

variable {m n : Nat} {lim : Fin m → BitVec 32} {Q : Type}

theorem pc_sub {s s' : St m n Q} {t : Fin n} {ok : Bool} {d : Cohort.PC} {p : Q} (hs : s.sub lim t ok d p = some s') :
    (s'.pc = upd s.pc t p ∨ s'.pc = upd s.pc t (s.pc t)) ∧ s'.raised = s.raised ∧ s'.wc = s.wc := by
  simp only [St.sub] at hs
  split at hs
  · cases hs
  · cases hs
    refine ⟨?_, rfl, rfl⟩
    dsimp only
    split
    · exact .inl rfl
    · exact .inr (upd_eq_self ..).symm

theorem pc_lock {s s' : St m n Q} {t : Fin n} {p : Q} (hs : s.callLock lim t p = some s') :
    s'.pc = upd s.pc t p ∧ s'.raised = s.raised ∧ s'.wc = s.wc := by
  simp only [St.callLock] at hs
  split at hs
  · cases hs
  · cases hs; exact ⟨rfl, rfl, rfl⟩

theorem pc_unlock {s s' : St m n Q} {t : Fin n} {p : Q} (hs : s.callUnlock lim t p = some s') :
    s'.pc = upd s.pc t p ∧ s'.raised = s.raised ∧ s'.wc = s.wc := by
  simp only [St.callUnlock] at hs
  split at hs
  · cases hs
  · cases hs; exact ⟨rfl, rfl, rfl⟩

theorem Bar.pos (hn : n < 2 ^ 32) {bp : Q → Bool} {s : St m n Q} (h : Bar bp s) {r : Fin n} (h1 : s.raised r = true)
    (h2 : bp (s.pc r) = true) : 0 < s.bar := by
  refine pos_of_ne fun h0 => ?_
  have := cnt_none hn h h0 r
  simp [h1, h2] at this

/-! ## WP -/
namespace Wp

/-- The step of `a` from `s` to `s'` lets a writer in. -/
def letsW (s s' : St m n) : Prop := ∃ t, s.pc t ≠ .writing ∧ s'.pc t = .writing

instance (s s' : St m n) : Decidable (letsW s s') := inferInstanceAs (Decidable (∃ _, _))

/-- Reader `r` has raised the barrier and is not let in yet. -/
def raisedBy (s : St m n) (r : Fin n) : Prop := s.raised r = true ∧ bp (s.pc r) = true

instance (s : St m n) (r : Fin n) : Decidable (raisedBy s r) := inferInstanceAs (Decidable (_ ∧ _))

/-- The writers let in while the barrier of reader `r` is up. -/
def writers (lim : Fin m → BitVec 32) (wl : BitVec 32) (r : Fin n) : St m n → List (Act m n) → Nat
  | _, [] => 0
  | s, a :: as =>
    if raisedBy s r then
      match step lim wl s a with
      | some s' => (if letsW s s' then 1 else 0) + writers lim wl r s' as
      | none => 0
    else 0

/-- Past the barrier, not let in yet. -/
def past : PC → Bool
  | .wLock | .wChk => true
  | _ => false

/-- What a step does to the program counters. -/
theorem shape {wl : BitVec 32} {s s' : St m n} {a : Act m n} (hs : step lim wl s a = some s') :
    ∃ t p, s'.pc = upd s.pc t p ∧ (p = .writing → s.pc t = .wChk ∨ s.pc t = .writing) ∧
      (0 < s.bar → past p = true → past (s.pc t) = true) ∧
      (rin p = true → rin (s.pc t) = true ∨ ∃ ok, ¬ lockedGlobal s ok = true) := by
  cases a <;> simp only [step, St.go] at hs
  case wlock t c => step_split hs; exact ⟨t, _, rfl, by simp, by simp [past], by simp [rin]⟩
  case rlock t c => step_split hs; exact ⟨t, _, rfl, by simp, by simp [past], by simp [rin]⟩
  case runlock t => step_split hs; exact ⟨t, _, rfl, by simp, by simp [past], by simp [rin]⟩
  case wunlock t =>
    split at hs
    · exact ⟨t, _, (pc_unlock hs).1, by simp, by simp [past], by simp [rin]⟩
    · cases hs
  case run t ok =>
    cases hp : s.pc t <;> simp only [hp] at hs
    case wBar =>
      split at hs
      · cases hs; exact ⟨t, s.pc t, by simp, by simp [hp], by simp [hp, past], by simp [hp, rin]⟩
      · next h0 => exact ⟨t, _, (pc_lock hs).1, by simp, fun h => absurd h h0, by simp [rin]⟩
    case wLock =>
      rcases (pc_sub hs).1 with h | h
      · exact ⟨t, _, h, by simp, by simp [hp, past], by simp [rin]⟩
      · exact ⟨t, _, h, by simp [hp], by simp [hp, past], by simp [hp, rin]⟩
    case wUnl =>
      rcases (pc_sub hs).1 with h | h
      · exact ⟨t, _, h, by simp, by simp [past], by simp [rin]⟩
      · exact ⟨t, _, h, by simp [hp], by simp [hp, past], by simp [hp, rin]⟩
    case rL2 =>
      split at hs
      · cases hs; exact ⟨t, _, rfl, by simp [hp], by simp [hp, past], by simp [rin]⟩
      · next h0 => cases hs; exact ⟨t, _, rfl, by simp [hp], by simp [hp, past], fun _ => .inr ⟨ok, h0⟩⟩
    all_goals (first | (cases hs; done) | (step_split hs <;> first
      | exact ⟨t, _, rfl, by simp [hp], by simp [hp, past], by simp [hp, rin]⟩
      | exact ⟨t, s.pc t, by simp, by simp [hp], by simp [hp, past], by simp [hp, rin]⟩))

/-- Reader `u` is let in: it has found the lock free, or returned. -/
def admitted (s : St m n) (u : Fin n) : Prop := s.pc u = .rDone ∨ s.pc u = .reading

theorem admitted_iff (s : St m n) (u : Fin n) : admitted s u ↔ rin (s.pc u) = true := by
  unfold admitted
  cases s.pc u <;> simp [rin]

/-- C109: while a writer holds the cohort lock, no reader is let in. -/
theorem no_reader_admitted (hn : n < 2 ^ 32) {wl : BitVec 32} {s s' : St m n} (h : (sys lim wl).Reach s) {w : Fin n}
    (hw : s.pc w = .wChk ∨ s.pc w = .writing) {a : Act m n} (hs : step lim wl s a = some s') (u : Fin n) (hu : admitted s' u) :
    admitted s u := by
  have hi := inv_of_reach hn h
  have hc : hc (s.pc w) = true := by rcases hw with e | e <;> rw [e] <;> rfl
  have hg := (Cohort.inside_locked hn hi.reach (hi.crit w hc)).1
  rw [admitted_iff] at hu ⊢
  obtain ⟨t, p, h1, -, -, h4⟩ := shape hs
  rw [h1] at hu
  by_cases e : u = t
  · subst e
    rw [upd_same] at hu
    rcases h4 hu with h | ⟨ok, h⟩
    · exact h
    · simp [lockedGlobal, locked, hg] at h
  · rwa [upd_ne _ _ e] at hu

/-- C109: from the moment a reader has raised the barrier until it is let in, at most `n` writers are let in. -/
theorem barrier_bounds (hn : n < 2 ^ 32) {wl : BitVec 32} {s : St m n} (h : (sys lim wl).Reach s) (r : Fin n) (as : List (Act m n)) :
    writers lim wl r s as ≤ n := by
  have key : ∀ (as : List (Act m n)) (s : St m n), (sys lim wl).Reach s → writers lim wl r s as ≤ cnt past s.pc := by
    intro as
    induction as with
    | nil => intro s _; exact Nat.zero_le _
    | cons a as ih =>
      intro s h
      rw [writers]
      split
      · next hr =>
        cases hs : step lim wl s a with
        | none => exact Nat.zero_le _
        | some s' =>
          have := ih s' (.step h hs)
          have hb := (coup_of_reach hn h).2.pos hn hr.1 hr.2
          obtain ⟨t, p, h1, h2, h3, -⟩ := shape hs
          have h3 := h3 hb
          have hc := cnt_update past s.pc t p
          rw [h1] at this
          simp only
          split
          · next hl =>
            obtain ⟨u, hu1, hu2⟩ := hl
            rw [h1] at hu2
            by_cases e : u = t
            · subst e
              rw [upd_same] at hu2
              subst hu2
              rcases h2 rfl with h2 | h2
              · rw [h2] at hc; simp [past] at hc; omega
              · exact absurd h2 hu1
            · rw [upd_ne _ _ e] at hu2; exact absurd hu2 hu1
          · cases hp : past p
            · rw [hp] at hc; simp at hc; omega
            · rw [hp, h3 hp] at hc; simp at hc; omega
      · exact Nat.zero_le _
  exact Nat.le_trans (key as s h) (cnt_le _ _)

/-- The rounds of its wait that reader `r` makes (line 117) while it is in read_lock and has not raised the barrier. -/
def stalls (lim : Fin m → BitVec 32) (wl : BitVec 32) (r : Fin n) : St m n → List (Act m n) → Nat
  | _, [] => 0
  | s, a :: as =>
    if bp (s.pc r) = true ∧ s.raised r = false then
      match step lim wl s a with
      | some s' => (if s.pc r = .rStall ∧ s'.pc r ≠ .rStall then 1 else 0) + stalls lim wl r s' as
      | none => 0
    else 0

theorem wait_step {wl : BitVec 32} {s s' : St m n} {a : Act m n} (hs : step lim wl s a = some s') (r : Fin n) :
    (s'.raised r = s.raised r ∧ s'.wc r = s.wc r ∧ ((s.pc r = .rStall ∧ s'.pc r ≠ .rStall) → False)) ∨
    (s'.raised r = false ∧ s'.wc r = 0 ∧ s.pc r = .idle) ∨
    (s.pc r = .rStall ∧ s'.wc r = s.wc r + 1 ∧ ((s'.raised r = true ∧ (s.raised r = false → wl < s.wc r + 1)) ∨ s'.raised r = s.raised r ∧ (s.raised r = false → ¬ wl < s.wc r + 1))) := by
  have hup : ∀ (t : Fin n) (p : PC), s.pc t ≠ .rStall → s'.pc = upd s.pc t p → ((s.pc r = .rStall ∧ s'.pc r ≠ .rStall) → False) := by
    intro t p ht h1 ⟨h2, h3⟩
    have : r ≠ t := fun e => ht (e ▸ h2)
    rw [h1, upd_ne _ _ this] at h3
    exact h3 h2
  cases a <;> simp only [step, St.go] at hs
  case wlock t c => step_split hs; next hp => exact .inl ⟨rfl, rfl, hup t _ (by simp [hp]) rfl⟩
  case rlock t c =>
    step_split hs
    next hp =>
    by_cases e : r = t
    · subst e; exact .inr (.inl ⟨by simp, by simp, hp⟩)
    · exact .inl ⟨by simp [upd_ne _ _ e], by simp [upd_ne _ _ e], hup t _ (by simp [hp]) rfl⟩
  case runlock t => step_split hs; next hp => exact .inl ⟨rfl, rfl, hup t _ (by simp [hp]) rfl⟩
  case wunlock t =>
    split at hs
    · next hp => obtain ⟨h1, h2, h3⟩ := pc_unlock hs; exact .inl ⟨by rw [h2], by rw [h3], hup t _ (by simp [hp]) h1⟩
    · cases hs
  case run t ok =>
    cases hp : s.pc t <;> simp only [hp] at hs
    case rStall =>
      by_cases e : r = t
      · subst e
        refine .inr (.inr ?_)
        split at hs
        · next h0 => cases hs; exact ⟨hp, by simp, .inl ⟨by simp, fun _ => h0.1⟩⟩
        · next h0 => cases hs; exact ⟨hp, by simp, .inr ⟨rfl, fun h h1 => h0 ⟨h1, h⟩⟩⟩
      · refine .inl ?_
        split at hs <;> cases hs <;> simp [upd_ne _ _ e]
    case wBar =>
      split at hs
      · cases hs; exact .inl ⟨rfl, rfl, fun h => h.2 h.1⟩
      · obtain ⟨h1, h2, h3⟩ := pc_lock hs; exact .inl ⟨by rw [h2], by rw [h3], hup t _ (by simp [hp]) h1⟩
    case wLock =>
      obtain ⟨h1, h2, h3⟩ := pc_sub hs
      rcases h1 with h1 | h1 <;> exact .inl ⟨by rw [h2], by rw [h3], hup t _ (by simp [hp]) h1⟩
    case wUnl =>
      obtain ⟨h1, h2, h3⟩ := pc_sub hs
      rcases h1 with h1 | h1 <;> exact .inl ⟨by rw [h2], by rw [h3], hup t _ (by simp [hp]) h1⟩
    all_goals (first | (cases hs; done) | (step_split hs <;> first
      | exact .inl ⟨rfl, rfl, fun h => h.2 h.1⟩
      | exact .inl ⟨rfl, rfl, hup t _ (by simp [hp]) rfl⟩))

theorem limit_inv {wl : BitVec 32} {s : St m n} (h : (sys lim wl).Reach s) (r : Fin n) : s.raised r = false → s.wc r ≤ wl := by
  refine h.invariant (I := fun s => s.raised r = false → s.wc r ≤ wl) ?_ ?_
  · rintro s ⟨c0, rfl⟩ _; show (0 : BitVec 32) ≤ wl; simp [BitVec.le_def]
  · intro s a s' hi hs h
    rcases wait_step hs r with ⟨h1, h2, -⟩ | ⟨-, h2, -⟩ | ⟨h1, h2, ⟨h3, -⟩ | ⟨h3, h4⟩⟩
    · rw [h2]; exact hi (h1 ▸ h)
    · rw [h2]; simp [BitVec.le_def]
    · rw [h] at h3; cases h3
    · rw [h2]; exact BitVec.not_lt.1 (h4 (h3 ▸ h))

/-- C109: a reader waits for at most `wait_limit + 1` rounds before it raises the barrier. -/
theorem limit_bounds {wl : BitVec 32} (hw : wl.toNat + 1 < 2 ^ 32) {s : St m n} (h : (sys lim wl).Reach s) (r : Fin n)
    (as : List (Act m n)) : stalls lim wl r s as ≤ wl.toNat + 1 := by
  have key : ∀ (as : List (Act m n)) (s : St m n), (sys lim wl).Reach s →
      s.raised r = false → stalls lim wl r s as + (s.wc r).toNat ≤ wl.toNat + 1 := by
    intro as
    induction as with
    | nil =>
      intro s h h0
      have := BitVec.le_def.1 (limit_inv h r h0)
      simp only [stalls]; omega
    | cons a as ih =>
      intro s h h0
      have hl := BitVec.le_def.1 (limit_inv h r h0)
      rw [stalls]
      split
      · next hr =>
        cases hs : step lim wl s a with
        | none => simp only; omega
        | some s' =>
          have ih := ih s' (.step h hs)
          simp only
          rcases wait_step hs r with ⟨h1, h2, h3⟩ | ⟨-, -, h3⟩ | ⟨h1, h2, h3⟩
          · rw [if_neg h3]
            have := ih (h1.trans h0)
            rw [h2] at this; omega
          · rw [h3] at hr; simp [bp] at hr
          · have h5 : (s.wc r + 1).toNat = (s.wc r).toNat + 1 := by
              rw [BitVec.toNat_add]; exact Nat.mod_eq_of_lt (by simp; omega)
            rcases h3 with ⟨h3, -⟩ | ⟨h3, -⟩
            · have : stalls lim wl r s' as = 0 := by
                cases as with
                | nil => rfl
                | cons => rw [stalls, if_neg]; simp [h3]
              rw [this]; split <;> omega
            · have := ih (h3.trans h0)
              rw [h2, h5] at this
              split <;> omega
      · omega
  by_cases h0 : s.raised r = false
  · have := key as s h h0; omega
  · cases as with
    | nil => simp [stalls]
    | cons => rw [stalls, if_neg (fun h => h0 h.2)]; omega

/-- With the largest limit the barrier is never raised. -/
theorem limit_max {s : St m n} (h : (sys lim (BitVec.allOnes 32)).Reach s) (r : Fin n) : s.raised r = false := by
  refine h.invariant (I := fun s => s.raised r = false) ?_ ?_
  · rintro s ⟨c0, rfl⟩; rfl
  · intro s a s' hi hs
    rcases wait_step hs r with ⟨h1, -, -⟩ | ⟨h1, -, -⟩ | ⟨-, -, ⟨-, h3⟩ | ⟨h3, -⟩⟩
    · exact h1.trans hi
    · exact h1
    · have := BitVec.lt_def.1 (h3 hi)
      have h4 := (s.wc r + 1).isLt
      simp at this; simp at h4; omega
    · exact h3.trans hi

end Wp

/-! ## RP -/
namespace Rp

/-- The step from `s` to `s'` lets a reader in. -/
def letsR (s s' : St m n) : Prop := ∃ t, s.pc t ≠ .reading ∧ s'.pc t = .reading

instance (s s' : St m n) : Decidable (letsR s s') := inferInstanceAs (Decidable (∃ _, _))

/-- Writer `r` has raised the barrier and is not let in yet. -/
def raisedBy (s : St m n) (r : Fin n) : Prop := s.raised r = true ∧ bp (s.pc r) = true

instance (s : St m n) (r : Fin n) : Decidable (raisedBy s r) := inferInstanceAs (Decidable (_ ∧ _))

/-- The readers let in while the barrier of writer `r` is up. -/
def readers (lim : Fin m → BitVec 32) (wl : BitVec 32) (r : Fin n) : St m n → List (Act m n) → Nat
  | _, [] => 0
  | s, a :: as =>
    if raisedBy s r then
      match step lim wl s a with
      | some s' => (if letsR s s' then 1 else 0) + readers lim wl r s' as
      | none => 0
    else 0

/-- Past the barrier, not let in yet. -/
def past : PC → Bool
  | .rInc | .rL1 | .rL2 => true
  | _ => false

/-- What a step does to the program counters. -/
theorem shape {wl : BitVec 32} {s s' : St m n} {a : Act m n} (hs : step lim wl s a = some s') :
    ∃ t p, s'.pc = upd s.pc t p ∧ (p = .reading → s.pc t = .rL2 ∨ s.pc t = .reading) ∧
      (0 < s.bar → past p = true → past (s.pc t) = true) ∧ (win p = true → win (s.pc t) = true ∨ s.rc = 0) := by
  cases a <;> simp only [step, St.go] at hs
  case wlock t c =>
    split at hs
    · exact ⟨t, _, (pc_lock hs).1, by simp, by simp [past], by simp [win]⟩
    · cases hs
  case rlock t c => step_split hs; exact ⟨t, _, rfl, by simp, by simp [past], by simp [win]⟩
  case runlock t => step_split hs; exact ⟨t, _, rfl, by simp, by simp [past], by simp [win]⟩
  case wunlock t =>
    split at hs
    · exact ⟨t, _, (pc_unlock hs).1, by simp, by simp [past], by simp [win]⟩
    · cases hs
  case run t ok =>
    cases hp : s.pc t <;> simp only [hp] at hs
    case rBar =>
      split at hs
      · cases hs; exact ⟨t, s.pc t, by simp, by simp [hp], by simp [hp, past], by simp [hp, win]⟩
      · next h0 => cases hs; exact ⟨t, _, rfl, by simp, fun h => absurd h h0, by simp [win]⟩
    case wChk =>
      split at hs
      · next h0 => cases hs; exact ⟨t, _, rfl, by simp, by simp [past], fun _ => .inr h0⟩
      · exact ⟨t, _, (pc_unlock hs).1, by simp, by simp [past], by simp [win]⟩
    case wWait =>
      split at hs
      · cases hs; exact ⟨t, _, rfl, by simp, by simp [past], by simp [win]⟩
      · exact ⟨t, _, (pc_lock hs).1, by simp, by simp [past], by simp [win]⟩
    case wLock =>
      rcases (pc_sub hs).1 with h | h
      · exact ⟨t, _, h, by simp, by simp [past], by simp [win]⟩
      · exact ⟨t, _, h, by simp [hp], by simp [hp, past], by simp [hp, win]⟩
    case wBack =>
      rcases (pc_sub hs).1 with h | h
      · exact ⟨t, _, h, by simp, by simp [past], by simp [win]⟩
      · exact ⟨t, _, h, by simp [hp], by simp [hp, past], by simp [hp, win]⟩
    case wUnl =>
      rcases (pc_sub hs).1 with h | h
      · exact ⟨t, _, h, by simp, by simp [past], by simp [win]⟩
      · exact ⟨t, _, h, by simp [hp], by simp [hp, past], by simp [hp, win]⟩
    all_goals (first | (cases hs; done) | (step_split hs <;> first
      | exact ⟨t, _, rfl, by simp [hp], by simp [hp, past], by simp [hp, win]⟩
      | exact ⟨t, s.pc t, by simp, by simp [hp], by simp [hp, past], by simp [hp, win]⟩))

/-- Writer `u` is let in: it has found no reader, or returned. -/
def admitted (s : St m n) (u : Fin n) : Prop := s.pc u = .wDone ∨ s.pc u = .writing

theorem admitted_iff (s : St m n) (u : Fin n) : admitted s u ↔ win (s.pc u) = true := by
  unfold admitted
  cases s.pc u <;> simp [win]

/-- C109: while a reader is counted (waiting or reading), no writer is let in. -/
theorem no_writer_admitted (hn : n < 2 ^ 32) {wl : BitVec 32} {s s' : St m n} (h : (sys lim wl).Reach s) {r : Fin n}
    (hr : s.pc r = .rL1 ∨ s.pc r = .rL2 ∨ s.pc r = .reading) {a : Act m n} (hs : step lim wl s a = some s') (u : Fin n)
    (hu : admitted s' u) : admitted s u := by
  have hi := inv_of_reach hn h
  rw [admitted_iff] at hu ⊢
  obtain ⟨t, p, h1, -, -, h4⟩ := shape hs
  rw [h1] at hu
  by_cases e : u = t
  · subst e
    rw [upd_same] at hu
    rcases h4 hu with h | h
    · exact h
    · have := cnt_none hn hi.cntr h r
      rcases hr with e | e | e <;> rw [e] at this <;> cases this
  · rwa [upd_ne _ _ e] at hu

/-- C109: from the moment a writer has raised the barrier until it is let in, at most `n` readers are let in. -/
theorem barrier_bounds (hn : n < 2 ^ 32) {wl : BitVec 32} {s : St m n} (h : (sys lim wl).Reach s) (r : Fin n) (as : List (Act m n)) :
    readers lim wl r s as ≤ n := by
  have key : ∀ (as : List (Act m n)) (s : St m n), (sys lim wl).Reach s → readers lim wl r s as ≤ cnt past s.pc := by
    intro as
    induction as with
    | nil => intro s _; exact Nat.zero_le _
    | cons a as ih =>
      intro s h
      rw [readers]
      split
      · next hr =>
        cases hs : step lim wl s a with
        | none => exact Nat.zero_le _
        | some s' =>
          have := ih s' (.step h hs)
          have hb := (coup_of_reach hn h).2.pos hn hr.1 hr.2
          obtain ⟨t, p, h1, h2, h3, -⟩ := shape hs
          have h3 := h3 hb
          have hc := cnt_update past s.pc t p
          rw [h1] at this
          simp only
          split
          · next hl =>
            obtain ⟨u, hu1, hu2⟩ := hl
            rw [h1] at hu2
            by_cases e : u = t
            · subst e
              rw [upd_same] at hu2
              subst hu2
              rcases h2 rfl with h2 | h2
              · rw [h2] at hc; simp [past] at hc; omega
              · exact absurd h2 hu1
            · rw [upd_ne _ _ e] at hu2; exact absurd hu2 hu1
          · cases hp : past p
            · rw [hp] at hc; simp at hc; omega
            · rw [hp, h3 hp] at hc; simp at hc; omega
      · exact Nat.zero_le _
  exact Nat.le_trans (key as s h) (cnt_le _ _)

/-- The rounds of its wait that writer `r` makes (line 192) while it is in write_lock and has not raised the barrier. -/
def stalls (lim : Fin m → BitVec 32) (wl : BitVec 32) (r : Fin n) : St m n → List (Act m n) → Nat
  | _, [] => 0
  | s, a :: as =>
    if bp (s.pc r) = true ∧ s.raised r = false then
      match step lim wl s a with
      | some s' => (if s.pc r = .wStall ∧ s'.pc r ≠ .wStall then 1 else 0) + stalls lim wl r s' as
      | none => 0
    else 0

theorem wait_step {wl : BitVec 32} {s s' : St m n} {a : Act m n} (hs : step lim wl s a = some s') (r : Fin n) :
    (s'.raised r = s.raised r ∧ s'.wc r = s.wc r ∧ ((s.pc r = .wStall ∧ s'.pc r ≠ .wStall) → False)) ∨
    (s'.raised r = false ∧ s'.wc r = 0 ∧ s.pc r = .idle) ∨
    (s.pc r = .wStall ∧ s'.wc r = s.wc r + 1 ∧ ((s'.raised r = true ∧ (s.raised r = false → wl < s.wc r + 1)) ∨ s'.raised r = s.raised r ∧ (s.raised r = false → ¬ wl < s.wc r + 1))) := by
  have hup : ∀ (t : Fin n) (p : PC), s.pc t ≠ .wStall → s'.pc = upd s.pc t p → ((s.pc r = .wStall ∧ s'.pc r ≠ .wStall) → False) := by
    intro t p ht h1 ⟨h2, h3⟩
    have : r ≠ t := fun e => ht (e ▸ h2)
    rw [h1, upd_ne _ _ this] at h3
    exact h3 h2
  cases a <;> simp only [step, St.go] at hs
  case wlock t c =>
    split at hs
    · next hp =>
      obtain ⟨h1, h2, h3⟩ := pc_lock hs
      by_cases e : r = t
      · subst e; exact .inr (.inl ⟨by rw [h2]; simp, by rw [h3]; simp, hp⟩)
      · exact .inl ⟨by rw [h2]; simp [upd_ne _ _ e], by rw [h3]; simp [upd_ne _ _ e], hup t _ (by simp [hp]) h1⟩
    · cases hs
  case rlock t c => step_split hs; next hp => exact .inl ⟨rfl, rfl, hup t _ (by simp [hp]) rfl⟩
  case runlock t => step_split hs; next hp => exact .inl ⟨rfl, rfl, hup t _ (by simp [hp]) rfl⟩
  case wunlock t =>
    split at hs
    · next hp => obtain ⟨h1, h2, h3⟩ := pc_unlock hs; exact .inl ⟨by rw [h2], by rw [h3], hup t _ (by simp [hp]) h1⟩
    · cases hs
  case run t ok =>
    cases hp : s.pc t <;> simp only [hp] at hs
    case wStall =>
      by_cases e : r = t
      · subst e
        refine .inr (.inr ?_)
        split at hs
        · next h0 => cases hs; exact ⟨hp, by simp, .inl ⟨by simp, fun _ => h0.1⟩⟩
        · next h0 => cases hs; exact ⟨hp, by simp, .inr ⟨rfl, fun h h1 => h0 ⟨h1, h⟩⟩⟩
      · refine .inl ?_
        split at hs <;> cases hs <;> simp [upd_ne _ _ e]
    case wChk =>
      split at hs
      · cases hs; exact .inl ⟨rfl, rfl, hup t _ (by simp [hp]) rfl⟩
      · obtain ⟨h1, h2, h3⟩ := pc_unlock hs; exact .inl ⟨by rw [h2], by rw [h3], hup t _ (by simp [hp]) h1⟩
    case wWait =>
      split at hs
      · cases hs; exact .inl ⟨rfl, rfl, hup t _ (by simp [hp]) rfl⟩
      · obtain ⟨h1, h2, h3⟩ := pc_lock hs; exact .inl ⟨by rw [h2], by rw [h3], hup t _ (by simp [hp]) h1⟩
    case wLock =>
      obtain ⟨h1, h2, h3⟩ := pc_sub hs
      rcases h1 with h1 | h1 <;> exact .inl ⟨by rw [h2], by rw [h3], hup t _ (by simp [hp]) h1⟩
    case wBack =>
      obtain ⟨h1, h2, h3⟩ := pc_sub hs
      rcases h1 with h1 | h1 <;> exact .inl ⟨by rw [h2], by rw [h3], hup t _ (by simp [hp]) h1⟩
    case wUnl =>
      obtain ⟨h1, h2, h3⟩ := pc_sub hs
      rcases h1 with h1 | h1 <;> exact .inl ⟨by rw [h2], by rw [h3], hup t _ (by simp [hp]) h1⟩
    all_goals (first | (cases hs; done) | (step_split hs <;> first
      | exact .inl ⟨rfl, rfl, fun h => h.2 h.1⟩
      | exact .inl ⟨rfl, rfl, hup t _ (by simp [hp]) rfl⟩))

theorem limit_inv {wl : BitVec 32} {s : St m n} (h : (sys lim wl).Reach s) (r : Fin n) : s.raised r = false → s.wc r ≤ wl := by
  refine h.invariant (I := fun s => s.raised r = false → s.wc r ≤ wl) ?_ ?_
  · rintro s ⟨c0, rfl⟩ _; show (0 : BitVec 32) ≤ wl; simp [BitVec.le_def]
  · intro s a s' hi hs h
    rcases wait_step hs r with ⟨h1, h2, -⟩ | ⟨-, h2, -⟩ | ⟨h1, h2, ⟨h3, -⟩ | ⟨h3, h4⟩⟩
    · rw [h2]; exact hi (h1 ▸ h)
    · rw [h2]; simp [BitVec.le_def]
    · rw [h] at h3; cases h3
    · rw [h2]; exact BitVec.not_lt.1 (h4 (h3 ▸ h))

/-- C109: a writer waits for at most `wait_limit + 1` rounds before it raises the barrier. -/
theorem limit_bounds {wl : BitVec 32} (hw : wl.toNat + 1 < 2 ^ 32) {s : St m n} (h : (sys lim wl).Reach s) (r : Fin n)
    (as : List (Act m n)) : stalls lim wl r s as ≤ wl.toNat + 1 := by
  have key : ∀ (as : List (Act m n)) (s : St m n), (sys lim wl).Reach s →
      s.raised r = false → stalls lim wl r s as + (s.wc r).toNat ≤ wl.toNat + 1 := by
    intro as
    induction as with
    | nil =>
      intro s h h0
      have := BitVec.le_def.1 (limit_inv h r h0)
      simp only [stalls]; omega
    | cons a as ih =>
      intro s h h0
      have hl := BitVec.le_def.1 (limit_inv h r h0)
      rw [stalls]
      split
      · next hr =>
        cases hs : step lim wl s a with
        | none => simp only; omega
        | some s' =>
          have ih := ih s' (.step h hs)
          simp only
          rcases wait_step hs r with ⟨h1, h2, h3⟩ | ⟨-, -, h3⟩ | ⟨h1, h2, h3⟩
          · rw [if_neg h3]
            have := ih (h1.trans h0)
            rw [h2] at this; omega
          · rw [h3] at hr; simp [bp] at hr
          · have h5 : (s.wc r + 1).toNat = (s.wc r).toNat + 1 := by
              rw [BitVec.toNat_add]; exact Nat.mod_eq_of_lt (by simp; omega)
            rcases h3 with ⟨h3, -⟩ | ⟨h3, -⟩
            · have : stalls lim wl r s' as = 0 := by
                cases as with
                | nil => rfl
                | cons => rw [stalls, if_neg]; simp [h3]
              rw [this]; split <;> omega
            · have := ih (h3.trans h0)
              rw [h2, h5] at this
              split <;> omega
      · omega
  by_cases h0 : s.raised r = false
  · have := key as s h h0; omega
  · cases as with
    | nil => simp [stalls]
    | cons => rw [stalls, if_neg (fun h => h0 h.2)]; omega

/-- With the largest limit the barrier is never raised. -/
theorem limit_max {s : St m n} (h : (sys lim (BitVec.allOnes 32)).Reach s) (r : Fin n) : s.raised r = false := by
  refine h.invariant (I := fun s => s.raised r = false) ?_ ?_
  · rintro s ⟨c0, rfl⟩; rfl
  · intro s a s' hi hs
    rcases wait_step hs r with ⟨h1, -, -⟩ | ⟨h1, -, -⟩ | ⟨-, -, ⟨-, h3⟩ | ⟨h3, -⟩⟩
    · exact h1.trans hi
    · exact h1
    · have := BitVec.lt_def.1 (h3 hi)
      have h4 := (s.wc r + 1).isLt
      simp at this; simp at h4; omega
    · exact h3.trans hi

end Rp

end Verif.RwCohort
