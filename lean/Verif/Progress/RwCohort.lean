import Verif.Progress.Cohort
import Verif.Cohort.RwCohortThm

/-!
# `ck_rwcohort`: no deadlock (C77)
-/

set_option linter.unusedSimpArgs false
set_option linter.unusedVariables false

namespace Verif.RwCohort

open Verif

variable {m n : Nat} {Q : Type} {lim : Fin m → BitVec 32}

/-- Steps of calls in progress, and releases. -/
def Act.own : Act m n → Prop
  | .run _ _ | .wunlock _ | .runlock _ => True
  | _ => False

/-- Where a thread is in the cohort lock: 0 outside, 1 in CK_COHORT_LOCK, 2 holding it, 3 in CK_COHORT_UNLOCK. -/
def kind : Cohort.PC → Nat
  | .idle => 0
  | .lInc | .lLL | .lDec | .lSt | .lGL | .lAcq => 1
  | .crit => 2
  | .uChk | .uLocal | .uGU | .uSt | .uAcq | .uLU => 3
  | _ => 4

/-- The cohort operation in progress is the one of the caller. -/
def Coup (pk : Q → Nat) (s : St m n Q) : Prop := ∀ t, kind (s.coh.th t).pc = pk (s.pc t)

theorem kind_run {s k : Cohort.St m n} {t : Fin n} {ok : Bool} (hs : Cohort.step lim false s (.run t ok) = some k)
    (h : kind (s.th t).pc ≠ 4) :
    (kind (k.th t).pc = kind (s.th t).pc ∧ (kind (s.th t).pc = 1 ∨ kind (s.th t).pc = 3)) ∨
      (kind (s.th t).pc = 1 ∧ (k.th t).pc = .crit) ∨ (kind (s.th t).pc = 3 ∧ (k.th t).pc = .idle) := by
  simp only [Cohort.step, Cohort.St.go] at hs
  cases hp : (s.th t).pc
  case tDec b => rw [hp] at h; simp [kind] at h
  all_goals
    rw [hp] at h
    simp only [hp] at hs
    step_split hs
    all_goals first | (exfalso; exact h rfl) | simp [kind]

section
variable {pk : Q → Nat}

theorem Coup.set {s s' : St m n Q} (h : Coup pk s) (hc : s'.coh = s.coh) {t : Fin n} {p : Q} (hp : s'.pc = upd s.pc t p)
    (hk : pk p = pk (s.pc t)) : Coup pk s' := by
  intro u
  rw [hc, hp, upd_apply]
  split
  · next e => subst e; rw [hk]; exact h u
  · exact h u

theorem Coup.callLock {s s' : St m n Q} (h : Coup pk s) {t : Fin n} {p : Q} (hs : s.callLock lim t p = some s')
    (hk : pk p = 1) : Coup pk s' := by
  simp only [St.callLock] at hs
  split at hs
  · cases hs
  · next k e =>
    cases hs
    intro u
    by_cases hu : u = t
    · subst hu
      simp only [Cohort.step] at e
      step_split e
      simp [kind, hk]
    · rw [coh_other (t := t) (.inr (.inr (.inl ⟨_, rfl⟩))) e hu]
      simp only [upd_ne _ _ hu]; exact h u

theorem Coup.callUnlock {s s' : St m n Q} (h : Coup pk s) {t : Fin n} {p : Q} (hs : s.callUnlock lim t p = some s')
    (hk : pk p = 3) : Coup pk s' := by
  simp only [St.callUnlock] at hs
  split at hs
  · cases hs
  · next k e =>
    cases hs
    intro u
    by_cases hu : u = t
    · subst hu
      simp only [Cohort.step, Cohort.St.go] at e
      step_split e
      simp [kind, hk]
    · rw [coh_other (t := t) (.inr (.inr (.inr rfl))) e hu]
      simp only [upd_ne _ _ hu]; exact h u

theorem Coup.sub {s s' : St m n Q} (h : Coup pk s) {t : Fin n} {ok : Bool} {d : Cohort.PC} {p : Q}
    (hs : s.sub lim t ok d p = some s')
    (hk : (pk (s.pc t) = 1 ∧ d = .crit ∧ pk p = 2) ∨ (pk (s.pc t) = 3 ∧ d = .idle ∧ pk p = 0)) : Coup pk s' := by
  simp only [St.sub] at hs
  split at hs
  · cases hs
  · next k e =>
    cases hs
    have ht := h t
    have h1 := kind_run e (by rw [ht]; rcases hk with hk | hk <;> omega)
    intro u
    by_cases hu : u = t
    · subst hu
      rcases hk with ⟨h2, rfl, h3⟩ | ⟨h2, rfl, h3⟩
      · rcases h1 with ⟨h1, -⟩ | ⟨-, h1⟩ | ⟨h1, -⟩
        · have : (k.th u).pc ≠ .crit := by intro e; rw [e, ht, h2] at h1; cases h1
          simp only [if_neg this]; rw [h1]; exact ht
        · simp [h1, h3, kind]
        · omega
      · rcases h1 with ⟨h1, -⟩ | ⟨h1, -⟩ | ⟨-, h1⟩
        · have : (k.th u).pc ≠ .idle := by intro e; rw [e, ht, h2] at h1; cases h1
          simp only [if_neg this]; rw [h1]; exact ht
        · omega
        · simp [h1, h3, kind]
    · have : k.th u = s.coh.th u := by
        cases ok
        · exact coh_other (t := t) (.inr (.inl rfl)) e hu
        · exact coh_other (t := t) (.inl rfl) e hu
      have h2 := h u
      simp only [this]
      split
      · rw [upd_ne _ _ hu]; exact h2
      · exact h2

theorem Coup.init (c0 : Fin n → Fin m) (p : Q) (hp : pk p = 0) : Coup pk (initSt m n c0 p) := fun _ => hp.symm

end

/-! ## The barrier counter -/

section
variable {bp : Q → Bool}

/-- `bar` counts the threads that raised it and did not lower it yet. -/
def Bar (bp : Q → Bool) (s : St m n Q) : Prop :=
  s.bar = BitVec.ofNat 32 (cnt (fun x : Q × Bool => x.2 && bp x.1) (fun t => (s.pc t, s.raised t)))

theorem pair_upd (f : Fin n → Q) (g : Fin n → Bool) (t : Fin n) (p : Q) (b : Bool) :
    (fun u => (upd f t p u, upd g t b u)) = upd (fun u => (f u, g u)) t (p, b) := by
  funext u; simp only [upd_apply]; split <;> rfl

theorem pair_upd' (f : Fin n → Q) (g : Fin n → Bool) (t : Fin n) (p : Q) :
    (fun u => (upd f t p u, g u)) = upd (fun u => (f u, g u)) t (p, g t) := by
  funext u; simp only [upd_apply]; split
  · next e => rw [e]
  · rfl

theorem Bar.keep {s s' : St m n Q} (h : Bar bp s) {t : Fin n} {p : Q} (hb : s'.bar = s.bar) (hr : s'.raised = s.raised)
    (hp : s'.pc = upd s.pc t p) (hk : s.raised t = true → bp p = bp (s.pc t)) : Bar bp s' := by
  unfold Bar; rw [hb, hr, hp, pair_upd']
  refine cnt_same h t _ ?_
  cases e : s.raised t
  · simp
  · simp [hk e]

theorem Bar.reset {s s' : St m n Q} (h : Bar bp s) {t : Fin n} {p : Q} (hb : s'.bar = s.bar)
    (hr : s'.raised = upd s.raised t false) (hp : s'.pc = upd s.pc t p) (hk : bp (s.pc t) = false) : Bar bp s' := by
  unfold Bar; rw [hb, hr, hp, pair_upd]
  exact cnt_same h t _ (by simp [hk])

theorem Bar.raise {s s' : St m n Q} (h : Bar bp s) {t : Fin n} {p : Q} (hb : s'.bar = s.bar + 1)
    (hr : s'.raised = upd s.raised t true) (hp : s'.pc = upd s.pc t p) (hk : bp p = true) (h0 : s.raised t = false) :
    Bar bp s' := by
  unfold Bar; rw [hb, hr, hp, pair_upd]
  exact cnt_inc h t _ (by simp [h0]) (by simp [hk])

theorem Bar.lower (hn : n < 2 ^ 32) {s s' : St m n Q} (h : Bar bp s) {t : Fin n} {p : Q} (hb : s'.bar = s.bar - 1)
    (hr : s'.raised = s.raised) (hp : s'.pc = upd s.pc t p) (hk : bp p = false) (hk' : bp (s.pc t) = true)
    (h0 : s.raised t = true) : Bar bp s' := by
  unfold Bar; rw [hb, hr, hp, pair_upd']
  exact cnt_dec hn h t _ (by simp [h0, hk']) (by simp [hk])

theorem Bar.sub {s s' : St m n Q} (h : Bar bp s) {t : Fin n} {ok : Bool} {d : Cohort.PC} {p : Q}
    (hs : s.sub lim t ok d p = some s') (hk : bp p = bp (s.pc t)) : Bar bp s' := by
  simp only [St.sub] at hs
  split at hs
  · cases hs
  · next k e =>
    cases hs
    split
    · exact h.keep rfl rfl rfl (fun _ => hk)
    · exact h

theorem Bar.callLock {s s' : St m n Q} (h : Bar bp s) {t : Fin n} {p : Q}
    (hs : s.callLock lim t p = some s') (hk : bp p = bp (s.pc t)) : Bar bp s' := by
  simp only [St.callLock] at hs
  split at hs
  · cases hs
  · cases hs; exact h.keep rfl rfl rfl (fun _ => hk)

theorem Bar.callUnlock {s s' : St m n Q} (h : Bar bp s) {t : Fin n} {p : Q}
    (hs : s.callUnlock lim t p = some s') (hk : bp p = bp (s.pc t)) : Bar bp s' := by
  simp only [St.callUnlock] at hs
  split at hs
  · cases hs
  · cases hs; exact h.keep rfl rfl rfl (fun _ => hk)

theorem Bar.init (c0 : Fin n → Fin m) (p : Q) : Bar bp (initSt m n c0 p) := by
  unfold Bar
  rw [cnt_zero_of (by intro t; rfl)]; rfl

theorem Bar.zero {s : St m n Q} (h : Bar bp s) (h0 : ∀ t, bp (s.pc t) = false) : s.bar = 0 := by
  rw [h, cnt_zero_of]; rfl
  intro t; simp [h0 t]

end

/-! ## Progress of the parts -/

/-- Work left in the cohort lock. -/
def cohRank (s : St m n Q) : Nat := tot Cohort.Th.rank s.coh.th

theorem cohRank_zero {s : St m n Q} (h : cohRank s = 0) (t : Fin n) : (s.coh.th t).pc = .idle := by
  have h1 : Cohort.Th.rank (s.coh.th t) ≤ cohRank s :=
    Finset.single_le_sum (f := fun t => Cohort.Th.rank (s.coh.th t)) (fun _ _ => Nat.zero_le _) (Finset.mem_univ t)
  have h2 : Cohort.Th.rank (s.coh.th t) = 0 := by omega
  unfold Cohort.Th.rank at h2
  cases hp : (s.coh.th t).pc <;> rw [hp] at h2 <;> first | rfl | cases h2

theorem cohRank_pos {s : St m n Q} (h : cohRank s ≠ 0) : ∃ t, (s.coh.th t).pc ≠ .idle := by
  by_contra hc
  apply h
  unfold cohRank tot
  refine Finset.sum_eq_zero fun t _ => ?_
  have : (s.coh.th t).pc = .idle := by by_contra h; exact hc ⟨t, h⟩
  unfold Cohort.Th.rank; rw [this]; rfl

theorem sub_ok {s : St m n Q} {t : Fin n} {k : Cohort.St m n}
    (hk : Cohort.step lim false s.coh (.run t true) = some k) (d : Cohort.PC) (p : Q) :
    ∃ s', s.sub lim t true d p = some s' ∧ cohRank s' < cohRank s ∧ (s'.pc = s.pc ∨ s'.pc = upd s.pc t p) ∧
      s'.rc = s.rc := by
  simp only [St.sub, hk]
  refine ⟨_, rfl, Cohort.run_rank hk, ?_, rfl⟩
  by_cases h : (k.th t).pc = d
  · exact .inr (if_pos h)
  · exact .inl (if_neg h)

theorem callUnlock_ok {s : St m n Q} {t : Fin n} (h : (s.coh.th t).pc = .crit) (p : Q) :
    ∃ s', s.callUnlock lim t p = some s' ∧ cohRank s' < cohRank s ∧ s'.pc = upd s.pc t p ∧ s'.rc = s.rc := by
  have hk : Cohort.step lim false s.coh (.unlock t) = some (s.coh.go t .uChk) := by simp only [Cohort.step]; rw [if_pos h]
  simp only [St.callUnlock, hk]
  exact ⟨_, rfl, Cohort.unlock_rank hk, rfl, rfl⟩

theorem callLock_ok {s : St m n Q} {t : Fin n} (h : (s.coh.th t).pc = .idle) (p : Q) :
    ∃ s', s.callLock lim t p = some s' ∧ cohRank s' = cohRank s + 14 ∧ s'.pc = upd s.pc t p ∧ s'.rc = s.rc := by
  simp only [St.callLock, Cohort.step]
  rw [if_pos h]
  refine ⟨_, rfl, ?_, rfl, rfl⟩
  have := tot_update Cohort.Th.rank s.coh.th t { pc := .lInc, c := s.c t }
  have e : Cohort.Th.rank (s.coh.th t) = 0 := by unfold Cohort.Th.rank; rw [h]; rfl
  rw [e] at this
  exact this

/-- The counter is positive iff somebody is counted. -/
theorem counted (hn : n < 2 ^ 32) {inc rin win hc : Q → Bool} {s : St m n Q} (hi : Inv lim inc rin win hc s)
    (h : s.rc ≠ 0) : ∃ u, inc (s.pc u) = true := by
  by_contra hcon
  apply h
  rw [hi.cntr, cnt_zero_of]; rfl
  intro u
  cases e : inc (s.pc u)
  · rfl
  · exact absurd ⟨u, e⟩ hcon

theorem pos_of_ne {x : BitVec 32} (h : x ≠ 0) : 0 < x := by
  by_contra h'; exact h (zero_of_not_pos h')

/-- The cohort lock is free when nobody uses it. -/
theorem free (hn : n < 2 ^ 32) {inc rin win hc : Q → Bool} {s : St m n Q} (hi : Inv lim inc rin win hc s)
    (h : cohRank s = 0) (t : Fin n) : lockedLocal s t true = false ∧ lockedGlobal s true = false := by
  have := Cohort.released_partial hn hi.reach (cohRank_zero h)
  simp [lockedLocal, lockedGlobal, locked, this.1, (this.2 _).1]

/-! ## NEUTRAL -/
namespace Neutral

theorem inv_of_reach (hn : n < 2 ^ 32) {s : St m n} (h : (sys lim).Reach s) : Inv lim inc rin win hc s := by
  refine h.invariant ?_ (fun _ _ _ => inv_step hn)
  rintro s ⟨c0, rfl⟩; exact Inv.init c0 _ rfl rfl rfl

def pk : PC → Nat
  | .idle | .reading => 0
  | .wLock | .rLock => 1
  | .wChk | .writing | .rInc | .rCall => 2
  | .wUnl | .rUnl => 3

theorem coup_of_reach {s : St m n} (h : (sys lim).Reach s) : Coup pk s := by
  refine h.invariant (I := Coup pk) ?_ ?_
  · rintro s ⟨c0, rfl⟩; exact Coup.init c0 _ rfl
  intro s a s' hi hs
  simp only [sys] at hs
  cases a <;> simp only [step, St.go] at hs
  case wlock t c =>
    split at hs
    · exact Coup.callLock (s := { s with c := upd s.c t c }) hi hs rfl
    · cases hs
  case rlock t c =>
    split at hs
    · exact Coup.callLock (s := { s with c := upd s.c t c }) hi hs rfl
    · cases hs
  case wunlock t =>
    split at hs
    · exact hi.callUnlock hs rfl
    · cases hs
  case runlock t => step_split hs; next hp => exact hi.set rfl rfl (by rw [hp]; rfl)
  case run t ok =>
    cases hp : s.pc t <;> simp only [hp] at hs
    case wLock => exact hi.sub hs (.inl ⟨by rw [hp]; rfl, rfl, rfl⟩)
    case rLock => exact hi.sub hs (.inl ⟨by rw [hp]; rfl, rfl, rfl⟩)
    case wUnl => exact hi.sub hs (.inr ⟨by rw [hp]; rfl, rfl, rfl⟩)
    case rUnl => exact hi.sub hs (.inr ⟨by rw [hp]; rfl, rfl, rfl⟩)
    case rCall => exact hi.callUnlock hs rfl
    all_goals (first | (cases hs; done) | (step_split hs <;> first | exact hi | exact hi.set rfl rfl (by rw [hp]; rfl)))

def PC.ra : PC → Nat
  | .idle => 0
  | .wLock => 4
  | .wChk => 3
  | .writing => 2
  | .wUnl => 1
  | .rLock => 5
  | .rInc => 4
  | .rCall => 3
  | .rUnl => 2
  | .reading => 1

abbrev less (s s' : St m n) : Prop :=
  tot PC.ra s'.pc ≤ tot PC.ra s.pc ∧ (tot PC.ra s'.pc < tot PC.ra s.pc ∨ cohRank s' ≤ cohRank s ∧
    (cohRank s' < cohRank s ∨ 0 < 0))

theorem less_of_pc {s s' : St m n} {t : Fin n} {p : PC} (h : s'.pc = upd s.pc t p) (hp : p.ra < (s.pc t).ra) :
    less s s' := by
  have := tot_lt (r := PC.ra) hp
  rw [← h] at this
  exact ⟨by omega, .inl this⟩

theorem less_of_sub {s s' : St m n} {t : Fin n} {p : PC} (h : cohRank s' < cohRank s)
    (h1 : s'.pc = s.pc ∨ s'.pc = upd s.pc t p) (hp : p.ra < (s.pc t).ra) : less s s' := by
  rcases h1 with h1 | h1
  · exact ⟨by rw [h1], .inr ⟨by omega, .inl h⟩⟩
  · exact less_of_pc h1 hp

/-- C77: in every reachable state all calls in progress can be completed and the lock be released. -/
theorem no_deadlock (hn : n < 2 ^ 32) {s : St m n} (h : (sys lim).Reach s) :
    (sys lim).Drains Act.own (fun s => ∀ t, s.pc t = .idle) s := by
  refine Sys.drains3 (M := sys lim) (J := fun _ => True) (fun s => tot PC.ra s.pc) cohRank (fun _ => 0)
    (fun _ _ _ _ _ _ _ => trivial) (fun s h _ => ?_) h trivial
  have hi := inv_of_reach hn h
  have hk := coup_of_reach h
  by_cases hid : ∀ t, s.pc t = .idle
  · exact .inl hid
  refine .inr ?_
  show ∃ x s', Act.own x ∧ (sys lim).step s x = some s' ∧ less s s'
  by_cases h1 : ∃ t, s.pc t = .reading
  · obtain ⟨t, ht⟩ := h1
    refine ⟨.runlock t, _, trivial, (by simp only [sys, step]; rw [if_pos ht]), ?_⟩
    refine less_of_pc (t := t) rfl ?_
    rw [ht]; decide
  by_cases h2 : ∃ t, s.pc t = .writing
  · obtain ⟨t, ht⟩ := h2
    obtain ⟨s', hs, h2, h3, -⟩ := callUnlock_ok (lim := lim) (hi.crit t (by rw [ht]; rfl)) PC.wUnl
    refine ⟨.wunlock t, s', trivial, (by simp only [sys, step]; rw [if_pos ht]; exact hs), less_of_pc h3 ?_⟩
    rw [ht]; decide
  by_cases h3 : ∃ t, s.pc t = .rInc
  · obtain ⟨t, ht⟩ := h3
    refine ⟨.run t true, _, trivial, (by simp only [sys, step, ht]; rfl), ?_⟩
    refine less_of_pc (t := t) rfl ?_
    rw [ht]; decide
  by_cases h4 : ∃ t, s.pc t = .rCall
  · obtain ⟨t, ht⟩ := h4
    obtain ⟨s', hs, h2, h3, -⟩ := callUnlock_ok (lim := lim) (hi.crit t (by rw [ht]; rfl)) PC.rUnl
    refine ⟨.run t true, s', trivial, (by simp only [sys, step, ht]; exact hs), less_of_pc h3 ?_⟩
    rw [ht]; decide
  -- a cohort step of a thread inside CK_COHORT_LOCK or CK_COHORT_UNLOCK
  have hsub : ∀ u k, (s.coh.th u).pc ≠ .idle → (s.coh.th u).pc ≠ .crit →
      Cohort.step lim false s.coh (.run u true) = some k → ∃ x s', Act.own x ∧ (sys lim).step s x = some s' ∧ less s s' := by
    intro u k hu1 hu2 hs
    have hku := hk u
    cases hp : s.pc u with
    | wLock =>
      obtain ⟨s', a1, a2, a3, -⟩ := sub_ok hs .crit PC.wChk
      exact ⟨.run u true, s', trivial, (by simp only [sys, step, hp]; exact a1), less_of_sub a2 a3 (by rw [hp]; decide)⟩
    | rLock =>
      obtain ⟨s', a1, a2, a3, -⟩ := sub_ok hs .crit PC.rInc
      exact ⟨.run u true, s', trivial, (by simp only [sys, step, hp]; exact a1), less_of_sub a2 a3 (by rw [hp]; decide)⟩
    | wUnl =>
      obtain ⟨s', a1, a2, a3, -⟩ := sub_ok hs .idle PC.idle
      exact ⟨.run u true, s', trivial, (by simp only [sys, step, hp]; exact a1), less_of_sub a2 a3 (by rw [hp]; decide)⟩
    | rUnl =>
      obtain ⟨s', a1, a2, a3, -⟩ := sub_ok hs .idle PC.reading
      exact ⟨.run u true, s', trivial, (by simp only [sys, step, hp]; exact a1), less_of_sub a2 a3 (by rw [hp]; decide)⟩
    | _ =>
      rw [hp] at hku
      exfalso
      cases hq : (s.coh.th u).pc <;> simp [hq, kind, pk] at hku hu1 hu2
  by_cases h5 : ∃ t, s.pc t = .wChk
  · obtain ⟨t, ht⟩ := h5
    by_cases hz : s.rc = 0
    · refine ⟨.run t true, _, trivial, (by simp only [sys, step, ht]; rw [if_neg (by simp [hz])]), ?_⟩
      refine less_of_pc (t := t) rfl ?_
      rw [ht]; decide
    · obtain ⟨u, hu⟩ := counted hn hi hz
      cases hp : s.pc u with
      | rUnl =>
        have hku := hk u
        rw [hp] at hku
        obtain ⟨k, hk⟩ := Cohort.run_enabled (lim := lim) (tr := false) (s := s.coh) (t := u)
          (by intro e; simp [e, kind, pk] at hku) (by intro e; simp [e, kind, pk] at hku)
          (by intro e; simp [e, kind, pk] at hku) (by intro e; simp [e, kind, pk] at hku)
        exact hsub u k (by intro e; simp [e, kind, pk] at hku) (by intro e; simp [e, kind, pk] at hku) hk
      | reading => exact absurd ⟨u, hp⟩ h1
      | rCall => exact absurd ⟨u, hp⟩ h4
      | _ => rw [hp] at hu; cases hu
  have hcr : ∀ t, (s.coh.th t).pc ≠ .crit := by
    intro t e
    have hkt := hk t
    rw [e] at hkt
    cases hp : s.pc t <;> simp [hp, kind, pk] at hkt
    · exact h5 ⟨t, hp⟩
    · exact h2 ⟨t, hp⟩
    · exact h3 ⟨t, hp⟩
    · exact h4 ⟨t, hp⟩
  obtain ⟨t, ht⟩ := not_forall.1 hid
  have htc : (s.coh.th t).pc ≠ .idle := by
    intro e
    have hkt := hk t
    rw [e] at hkt
    cases hp : s.pc t <;> simp [hp, kind, pk] at hkt
    · exact ht hp
    · exact h1 ⟨t, hp⟩
  obtain ⟨u, k, hu, hs⟩ := Cohort.some_runs hn hi.reach hcr htc
  exact hsub u k hu (hcr u) hs

end Neutral

/-! ## WP -/
namespace Wp

theorem inv_of_reach (hn : n < 2 ^ 32) {wl : BitVec 32} {s : St m n} (h : (sys lim wl).Reach s) :
    Inv lim inc rin win hc s := by
  refine h.invariant ?_ (fun _ _ _ => inv_step hn)
  rintro s ⟨c0, rfl⟩; exact Inv.init c0 _ rfl rfl rfl

def pk : PC → Nat
  | .wLock => 1
  | .wChk | .writing => 2
  | .wUnl => 3
  | _ => 0

/-- In read_lock. -/
def bp : PC → Bool
  | .rInc | .rL1 | .rL2 | .rDec | .rW1 | .rW2 | .rStall | .rDone => true
  | _ => false

theorem coup_of_reach (hn : n < 2 ^ 32) {wl : BitVec 32} {s : St m n} (h : (sys lim wl).Reach s) :
    Coup pk s ∧ Bar bp s := by
  refine h.invariant (I := fun s => Coup pk s ∧ Bar bp s) ?_ ?_
  · rintro s ⟨c0, rfl⟩; exact ⟨Coup.init c0 _ rfl, Bar.init c0 _⟩
  rintro s a s' ⟨hi, hb⟩ hs
  simp only [sys] at hs
  cases a <;> simp only [step, St.go] at hs
  case wlock t c => step_split hs; next hp => exact ⟨hi.set rfl rfl (by rw [hp]; rfl), hb.keep rfl rfl rfl (fun _ => by rw [hp]; rfl)⟩
  case rlock t c => step_split hs; next hp => exact ⟨hi.set rfl rfl (by rw [hp]; rfl), hb.reset rfl rfl rfl (by rw [hp]; rfl)⟩
  case wunlock t =>
    split at hs
    · next hp => exact ⟨hi.callUnlock hs rfl, hb.callUnlock hs (by rw [hp]; rfl)⟩
    · cases hs
  case runlock t => step_split hs; next hp => exact ⟨hi.set rfl rfl (by rw [hp]; rfl), hb.keep rfl rfl rfl (fun _ => by rw [hp]; rfl)⟩
  case run t ok =>
    cases hp : s.pc t <;> simp only [hp] at hs
    case wBar =>
      split at hs
      · cases hs; exact ⟨hi, hb⟩
      · exact ⟨hi.callLock hs rfl, hb.callLock hs (by rw [hp]; rfl)⟩
    case wLock => exact ⟨hi.sub hs (.inl ⟨by rw [hp]; rfl, rfl, rfl⟩), hb.sub hs (by rw [hp]; rfl)⟩
    case wUnl => exact ⟨hi.sub hs (.inr ⟨by rw [hp]; rfl, rfl, rfl⟩), hb.sub hs (by rw [hp]; rfl)⟩
    case rStall =>
      split at hs
      · next h1 =>
        cases hs
        exact ⟨hi.set (t := t) rfl rfl (by rw [hp]; rfl), hb.raise (t := t) rfl rfl rfl rfl h1.2⟩
      · cases hs; exact ⟨hi.set (t := t) rfl rfl (by rw [hp]; rfl), hb.keep (t := t) rfl rfl rfl (fun _ => by rw [hp]; rfl)⟩
    case rDone =>
      split at hs
      · next h1 =>
        cases hs
        exact ⟨hi.set (t := t) rfl rfl (by rw [hp]; rfl), hb.lower hn (t := t) rfl rfl rfl rfl (by rw [hp]; rfl) h1⟩
      · next h1 =>
        cases hs; exact ⟨hi.set (t := t) rfl rfl (by rw [hp]; rfl), hb.keep (t := t) rfl rfl rfl (fun h => absurd h h1)⟩
    all_goals (first | (cases hs; done) | (step_split hs <;> first | exact ⟨hi, hb⟩ |
      exact ⟨hi.set rfl rfl (by rw [hp]; rfl), hb.keep rfl rfl rfl (fun _ => by rw [hp]; rfl)⟩))

def PC.ra : PC → Nat
  | .idle => 0
  | .wBar => 5
  | .wLock => 4
  | .wChk => 3
  | .writing => 2
  | .wUnl => 1
  | .rDone => 2
  | .reading => 1
  | _ => 3

/-- Readers: `w` says that the cohort lock is in use. -/
def PC.rc (w : Bool) : PC → Nat
  | .rL1 => if w then 3 else 5
  | .rL2 => if w then 2 else 4
  | .rDec => if w then 1 else 9
  | .rStall => if w then 0 else 10
  | .rW1 => if w then 0 else 8
  | .rW2 => if w then 0 else 7
  | .rInc => if w then 0 else 6
  | _ => 0

def rdRank (s : St m n) : Nat := tot (PC.rc (cohRank s != 0)) s.pc

abbrev less (s s' : St m n) : Prop :=
  tot PC.ra s'.pc ≤ tot PC.ra s.pc ∧ (tot PC.ra s'.pc < tot PC.ra s.pc ∨ cohRank s' ≤ cohRank s ∧
    (cohRank s' < cohRank s ∨ rdRank s' < rdRank s))

theorem less_of_pc {s s' : St m n} {t : Fin n} {p : PC} (h : s'.pc = upd s.pc t p) (hp : p.ra < (s.pc t).ra) :
    less s s' := by
  have := tot_lt (r := PC.ra) hp
  rw [← h] at this
  exact ⟨by omega, .inl this⟩

theorem less_of_sub {s s' : St m n} {t : Fin n} {p : PC} (h : cohRank s' < cohRank s)
    (h1 : s'.pc = s.pc ∨ s'.pc = upd s.pc t p) (hp : p.ra < (s.pc t).ra) : less s s' := by
  rcases h1 with h1 | h1
  · exact ⟨by rw [h1], .inr ⟨by omega, .inl h⟩⟩
  · exact less_of_pc h1 hp

theorem less_of_rd {s s' : St m n} {t : Fin n} {p : PC} (h : s'.pc = upd s.pc t p) (hc : s'.coh = s.coh)
    (hp : p.ra ≤ (s.pc t).ra) (h1 : p.rc (cohRank s != 0) < (s.pc t).rc (cohRank s != 0)) : less s s' := by
  have hcr : cohRank s' = cohRank s := by unfold cohRank; rw [hc]
  have := tot_le (r := PC.ra) hp
  rw [← h] at this
  refine ⟨this, .inr ⟨by rw [hcr], .inr ?_⟩⟩
  unfold rdRank; rw [hcr, h]; exact tot_lt h1

/-- C77: in every reachable state all calls in progress can be completed and the lock be released. -/
theorem no_deadlock (hn : n < 2 ^ 32) {wl : BitVec 32} {s : St m n} (h : (sys lim wl).Reach s) :
    (sys lim wl).Drains Act.own (fun s => ∀ t, s.pc t = .idle) s := by
  refine Sys.drains3 (M := sys lim wl) (J := fun _ => True) (fun s => tot PC.ra s.pc) cohRank rdRank
    (fun _ _ _ _ _ _ _ => trivial) (fun s h _ => ?_) h trivial
  have hi := inv_of_reach hn h
  obtain ⟨hk, hb⟩ := coup_of_reach hn h
  by_cases hid : ∀ t, s.pc t = .idle
  · exact .inl hid
  refine .inr ?_
  show ∃ x s', Act.own x ∧ (sys lim wl).step s x = some s' ∧ less s s'
  by_cases h1 : ∃ t, s.pc t = .reading
  · obtain ⟨t, ht⟩ := h1
    refine ⟨.runlock t, _, trivial, (by simp only [sys, step]; rw [if_pos ht]), ?_⟩
    refine less_of_pc (t := t) rfl ?_
    rw [ht]; decide
  by_cases h2 : ∃ t, s.pc t = .writing
  · obtain ⟨t, ht⟩ := h2
    obtain ⟨s', hs, h2, h3, -⟩ := callUnlock_ok (lim := lim) (hi.crit t (by rw [ht]; rfl)) PC.wUnl
    refine ⟨.wunlock t, s', trivial, (by simp only [sys, step]; rw [if_pos ht]; exact hs), less_of_pc h3 ?_⟩
    rw [ht]; decide
  by_cases h3 : ∃ t, s.pc t = .rDone
  · obtain ⟨t, ht⟩ := h3
    by_cases hr : s.raised t = true
    · refine ⟨.run t true, _, trivial, (by simp only [sys, step, ht]; rw [if_pos hr]), ?_⟩
      refine less_of_pc (t := t) rfl ?_
      rw [ht]; decide
    · refine ⟨.run t true, _, trivial, (by simp only [sys, step, ht]; rw [if_neg hr]), ?_⟩
      refine less_of_pc (t := t) rfl ?_
      rw [ht]; decide
  by_cases h4 : ∃ t, s.pc t = .wChk
  · obtain ⟨t, ht⟩ := h4
    by_cases hz : s.rc = 0
    · refine ⟨.run t true, _, trivial, (by simp only [sys, step, ht]; rw [if_neg (by simp [hz])]), ?_⟩
      refine less_of_pc (t := t) rfl ?_
      rw [ht]; decide
    · obtain ⟨u, hu⟩ := counted hn hi hz
      have hcrit := hi.crit t (by rw [ht]; rfl)
      have hlk := Cohort.inside_locked hn hi.reach hcrit
      have hne : (cohRank s != 0) = true := by
        simp only [bne_iff_ne, ne_eq]
        intro e; rw [cohRank_zero e t] at hcrit; cases hcrit
      cases hp : s.pc u with
      | rL1 =>
        by_cases hl : lockedLocal s u true = true
        · refine ⟨.run u true, _, trivial, (by simp only [sys, step, hp]; rw [if_pos hl]), ?_⟩
          refine less_of_rd (t := u) rfl rfl ?_ ?_
          · rw [hp]; decide
          · rw [hp, hne]; decide
        · refine ⟨.run u true, _, trivial, (by simp only [sys, step, hp]; rw [if_neg hl]), ?_⟩
          refine less_of_rd (t := u) rfl rfl ?_ ?_
          · rw [hp]; decide
          · rw [hp, hne]; decide
      | rL2 =>
        have hl : lockedGlobal s true = true := by simp [lockedGlobal, locked, hlk.1]
        refine ⟨.run u true, _, trivial, (by simp only [sys, step, hp]; rw [if_pos hl]), ?_⟩
        refine less_of_rd (t := u) rfl rfl ?_ ?_
        · rw [hp]; decide
        · rw [hp, hne]; decide
      | rDec =>
        refine ⟨.run u true, _, trivial, (by simp only [sys, step, hp]; rfl), ?_⟩
        refine less_of_rd (t := u) rfl rfl ?_ ?_
        · rw [hp]; decide
        · rw [hp, hne]; decide
      | rDone => exact absurd ⟨u, hp⟩ h3
      | reading => exact absurd ⟨u, hp⟩ h1
      | _ => rw [hp] at hu; cases hu
  have hcr : ∀ t, (s.coh.th t).pc ≠ .crit := by
    intro t e
    have hkt := hk t
    rw [e] at hkt
    cases hp : s.pc t <;> simp [hp, kind, pk] at hkt
    · exact h4 ⟨t, hp⟩
    · exact h2 ⟨t, hp⟩
  by_cases hz : cohRank s = 0
  · have hw : (cohRank s != 0) = false := by simp [hz]
    have hcid := cohRank_zero hz
    have hbr : ∀ t, bp (s.pc t) = true → ∃ x s', Act.own x ∧ (sys lim wl).step s x = some s' ∧ less s s' := by
      intro t ht
      obtain ⟨f1, f2⟩ := free hn hi hz t
      cases hp : s.pc t with
      | rInc =>
        refine ⟨.run t true, _, trivial, (by simp only [sys, step, hp]; rfl), ?_⟩
        refine less_of_rd (t := t) rfl rfl ?_ ?_
        · rw [hp]; decide
        · rw [hp, hw]; decide
      | rL1 =>
        refine ⟨.run t true, _, trivial, (by simp only [sys, step, hp]; rw [if_neg (by simp [f1])]), ?_⟩
        refine less_of_rd (t := t) rfl rfl ?_ ?_
        · rw [hp]; decide
        · rw [hp, hw]; decide
      | rL2 =>
        refine ⟨.run t true, _, trivial, (by simp only [sys, step, hp]; rw [if_neg (by simp [f2])]), ?_⟩
        refine less_of_pc (t := t) rfl ?_
        rw [hp]; decide
      | rDec =>
        refine ⟨.run t true, _, trivial, (by simp only [sys, step, hp]; rfl), ?_⟩
        refine less_of_rd (t := t) rfl rfl ?_ ?_
        · rw [hp]; decide
        · rw [hp, hw]; decide
      | rW1 =>
        refine ⟨.run t true, _, trivial, (by simp only [sys, step, hp]; rw [if_neg (by simp [f1])]), ?_⟩
        refine less_of_rd (t := t) rfl rfl ?_ ?_
        · rw [hp]; decide
        · rw [hp, hw]; decide
      | rW2 =>
        refine ⟨.run t true, _, trivial, (by simp only [sys, step, hp]; rw [if_neg (by simp [f2])]), ?_⟩
        refine less_of_rd (t := t) rfl rfl ?_ ?_
        · rw [hp]; decide
        · rw [hp, hw]; decide
      | rStall =>
        by_cases hr : wl < s.wc t + 1 ∧ s.raised t = false
        · refine ⟨.run t true, _, trivial, (by simp only [sys, step, hp]; rw [if_pos hr]), ?_⟩
          refine less_of_rd (t := t) rfl rfl ?_ ?_
          · rw [hp]; decide
          · rw [hp, hw]; decide
        · refine ⟨.run t true, _, trivial, (by simp only [sys, step, hp]; rw [if_neg hr]), ?_⟩
          refine less_of_rd (t := t) rfl rfl ?_ ?_
          · rw [hp]; decide
          · rw [hp, hw]; decide
      | rDone => exact absurd ⟨t, hp⟩ h3
      | _ => rw [hp] at ht; cases ht
    by_cases hex : ∃ t, bp (s.pc t) = true
    · obtain ⟨t, ht⟩ := hex; exact hbr t ht
    have hbar := hb.zero (fun t => by cases e : bp (s.pc t); rfl; exact absurd ⟨t, e⟩ hex)
    obtain ⟨t, ht⟩ := not_forall.1 hid
    have hkt := hk t
    rw [hcid t] at hkt
    cases hp : s.pc t with
    | idle => exact absurd hp ht
    | wBar =>
      obtain ⟨s', a1, a2, a3, -⟩ := callLock_ok (lim := lim) (hcid t) PC.wLock
      refine ⟨.run t true, s', trivial, (by simp only [sys, step, hp]; rw [if_neg (by simp [hbar])]; exact a1), less_of_pc a3 ?_⟩
      rw [hp]; decide
    | reading => exact absurd ⟨t, hp⟩ h1
    | wLock => rw [hp] at hkt; cases hkt
    | wUnl => rw [hp] at hkt; cases hkt
    | wChk => exact absurd ⟨t, hp⟩ h4
    | writing => exact absurd ⟨t, hp⟩ h2
    | _ => exact absurd ⟨t, by rw [hp]; rfl⟩ hex
  · obtain ⟨t, ht⟩ := cohRank_pos hz
    obtain ⟨u, k, hu, hs⟩ := Cohort.some_runs hn hi.reach hcr ht
    have hku := hk u
    cases hp : s.pc u with
    | wLock =>
      obtain ⟨s', a1, a2, a3, -⟩ := sub_ok hs .crit PC.wChk
      exact ⟨.run u true, s', trivial, (by simp only [sys, step, hp]; exact a1), less_of_sub a2 a3 (by rw [hp]; decide)⟩
    | wUnl =>
      obtain ⟨s', a1, a2, a3, -⟩ := sub_ok hs .idle PC.idle
      exact ⟨.run u true, s', trivial, (by simp only [sys, step, hp]; exact a1), less_of_sub a2 a3 (by rw [hp]; decide)⟩
    | wChk => exact absurd ⟨u, hp⟩ h4
    | writing => exact absurd ⟨u, hp⟩ h2
    | _ =>
      rw [hp] at hku
      exfalso
      cases hq : (s.coh.th u).pc <;> simp [hq, kind, pk] at hku hu

end Wp

/-! ## RP -/
namespace Rp

theorem inv_of_reach (hn : n < 2 ^ 32) {wl : BitVec 32} {s : St m n} (h : (sys lim wl).Reach s) :
    Inv lim inc rin win hc s := by
  refine h.invariant ?_ (fun _ _ _ => inv_step hn)
  rintro s ⟨c0, rfl⟩; exact Inv.init c0 _ rfl rfl rfl

def pk : PC → Nat
  | .wLock => 1
  | .wChk | .wDone | .writing => 2
  | .wUnl | .wBack => 3
  | _ => 0

/-- In write_lock. -/
def bp : PC → Bool
  | .wLock | .wChk | .wBack | .wWait | .wStall | .wDone => true
  | _ => false

theorem coup_of_reach (hn : n < 2 ^ 32) {wl : BitVec 32} {s : St m n} (h : (sys lim wl).Reach s) :
    Coup pk s ∧ Bar bp s := by
  refine h.invariant (I := fun s => Coup pk s ∧ Bar bp s) ?_ ?_
  · rintro s ⟨c0, rfl⟩; exact ⟨Coup.init c0 _ rfl, Bar.init c0 _⟩
  rintro s a s' ⟨hi, hb⟩ hs
  simp only [sys] at hs
  cases a <;> simp only [step, St.go] at hs
  case wlock t c =>
    split at hs
    · next hp =>
      refine ⟨Coup.callLock (s := { s with c := upd s.c t c, wc := upd s.wc t 0, raised := upd s.raised t false }) hi hs rfl, ?_⟩
      simp only [St.callLock] at hs
      split at hs
      · cases hs
      · cases hs; exact hb.reset (t := t) rfl rfl rfl (by rw [hp]; rfl)
    · cases hs
  case rlock t c => step_split hs; next hp => exact ⟨hi.set rfl rfl (by rw [hp]; rfl), hb.keep rfl rfl rfl (fun _ => by rw [hp]; rfl)⟩
  case wunlock t =>
    split at hs
    · next hp => exact ⟨hi.callUnlock hs rfl, hb.callUnlock hs (by rw [hp]; rfl)⟩
    · cases hs
  case runlock t => step_split hs; next hp => exact ⟨hi.set rfl rfl (by rw [hp]; rfl), hb.keep rfl rfl rfl (fun _ => by rw [hp]; rfl)⟩
  case run t ok =>
    cases hp : s.pc t <;> simp only [hp] at hs
    case wLock => exact ⟨hi.sub hs (.inl ⟨by rw [hp]; rfl, rfl, rfl⟩), hb.sub hs (by rw [hp]; rfl)⟩
    case wChk =>
      split at hs
      · cases hs; exact ⟨hi.set (t := t) rfl rfl (by rw [hp]; rfl), hb.keep (t := t) rfl rfl rfl (fun _ => by rw [hp]; rfl)⟩
      · exact ⟨hi.callUnlock hs rfl, hb.callUnlock hs (by rw [hp]; rfl)⟩
    case wBack => exact ⟨hi.sub hs (.inr ⟨by rw [hp]; rfl, rfl, rfl⟩), hb.sub hs (by rw [hp]; rfl)⟩
    case wWait =>
      split at hs
      · cases hs; exact ⟨hi.set (t := t) rfl rfl (by rw [hp]; rfl), hb.keep (t := t) rfl rfl rfl (fun _ => by rw [hp]; rfl)⟩
      · exact ⟨hi.callLock hs rfl, hb.callLock hs (by rw [hp]; rfl)⟩
    case wUnl => exact ⟨hi.sub hs (.inr ⟨by rw [hp]; rfl, rfl, rfl⟩), hb.sub hs (by rw [hp]; rfl)⟩
    case wStall =>
      split at hs
      · next h1 =>
        cases hs
        exact ⟨hi.set (t := t) rfl rfl (by rw [hp]; rfl), hb.raise (t := t) rfl rfl rfl rfl h1.2⟩
      · cases hs; exact ⟨hi.set (t := t) rfl rfl (by rw [hp]; rfl), hb.keep (t := t) rfl rfl rfl (fun _ => by rw [hp]; rfl)⟩
    case wDone =>
      split at hs
      · next h1 =>
        cases hs
        exact ⟨hi.set (t := t) rfl rfl (by rw [hp]; rfl), hb.lower hn (t := t) rfl rfl rfl rfl (by rw [hp]; rfl) h1⟩
      · next h1 =>
        cases hs; exact ⟨hi.set (t := t) rfl rfl (by rw [hp]; rfl), hb.keep (t := t) rfl rfl rfl (fun h => absurd h h1)⟩
    all_goals (first | (cases hs; done) | (step_split hs <;> first | exact ⟨hi, hb⟩ |
      exact ⟨hi.set rfl rfl (by rw [hp]; rfl), hb.keep rfl rfl rfl (fun _ => by rw [hp]; rfl)⟩))

def PC.ra : PC → Nat
  | .idle => 0
  | .rBar => 5
  | .rInc => 4
  | .rL1 => 3
  | .rL2 => 2
  | .reading => 1
  | .wDone => 3
  | .writing => 2
  | .wUnl => 1
  | _ => 4

/-- Writers: `z` says that no reader is counted. -/
def PC.rb (z : Bool) : PC → Nat
  | .wStall => if z then 6 else 0
  | .wBack => if z then 6 else 2
  | .wWait => if z then 5 else 1
  | .wLock => 4
  | .wChk => 3
  | _ => 0

def wrRank (s : St m n) : Nat := tot (PC.rb (s.rc == 0)) s.pc

abbrev less (s s' : St m n) : Prop :=
  tot PC.ra s'.pc ≤ tot PC.ra s.pc ∧ (tot PC.ra s'.pc < tot PC.ra s.pc ∨ wrRank s' ≤ wrRank s ∧
    (wrRank s' < wrRank s ∨ cohRank s' < cohRank s))

theorem less_of_pc {s s' : St m n} {t : Fin n} {p : PC} (h : s'.pc = upd s.pc t p) (hp : p.ra < (s.pc t).ra) :
    less s s' := by
  have := tot_lt (r := PC.ra) hp
  rw [← h] at this
  exact ⟨by omega, .inl this⟩

theorem less_of_wr {s s' : St m n} {t : Fin n} {p : PC} (h : s'.pc = upd s.pc t p) (hc : s'.rc = s.rc)
    (hp : p.ra ≤ (s.pc t).ra) (h1 : p.rb (s.rc == 0) < (s.pc t).rb (s.rc == 0)) : less s s' := by
  have := tot_le (r := PC.ra) hp
  rw [← h] at this
  have h2 : wrRank s' < wrRank s := by unfold wrRank; rw [hc, h]; exact tot_lt h1
  exact ⟨this, .inr ⟨by omega, .inl h2⟩⟩

theorem less_of_sub {s s' : St m n} {t : Fin n} {p : PC} (h : cohRank s' < cohRank s)
    (h1 : s'.pc = s.pc ∨ s'.pc = upd s.pc t p) (hc : s'.rc = s.rc) (hp : p.ra ≤ (s.pc t).ra)
    (h2 : p.ra < (s.pc t).ra ∨ p.rb (s.rc == 0) < (s.pc t).rb (s.rc == 0)) : less s s' := by
  rcases h1 with h1 | h1
  · have : wrRank s' = wrRank s := by unfold wrRank; rw [h1, hc]
    exact ⟨by rw [h1], .inr ⟨by omega, .inr h⟩⟩
  · rcases h2 with h2 | h2
    · exact less_of_pc h1 h2
    · exact less_of_wr h1 hc hp h2

/-- C77: in every reachable state all calls in progress can be completed and the lock be released. -/
theorem no_deadlock (hn : n < 2 ^ 32) {wl : BitVec 32} {s : St m n} (h : (sys lim wl).Reach s) :
    (sys lim wl).Drains Act.own (fun s => ∀ t, s.pc t = .idle) s := by
  refine Sys.drains3 (M := sys lim wl) (J := fun _ => True) (fun s => tot PC.ra s.pc) wrRank cohRank
    (fun _ _ _ _ _ _ _ => trivial) (fun s h _ => ?_) h trivial
  have hi := inv_of_reach hn h
  obtain ⟨hk, hb⟩ := coup_of_reach hn h
  by_cases hid : ∀ t, s.pc t = .idle
  · exact .inl hid
  refine .inr ?_
  show ∃ x s', Act.own x ∧ (sys lim wl).step s x = some s' ∧ less s s'
  by_cases h1 : ∃ t, s.pc t = .reading
  · obtain ⟨t, ht⟩ := h1
    refine ⟨.runlock t, _, trivial, (by simp only [sys, step]; rw [if_pos ht]), ?_⟩
    refine less_of_pc (t := t) rfl ?_
    rw [ht]; decide
  by_cases h2 : ∃ t, s.pc t = .writing
  · obtain ⟨t, ht⟩ := h2
    obtain ⟨s', hs, h2, h3, -⟩ := callUnlock_ok (lim := lim) (hi.crit t (by rw [ht]; rfl)) PC.wUnl
    refine ⟨.wunlock t, s', trivial, (by simp only [sys, step]; rw [if_pos ht]; exact hs), less_of_pc h3 ?_⟩
    rw [ht]; decide
  by_cases h3 : ∃ t, s.pc t = .wDone
  · obtain ⟨t, ht⟩ := h3
    by_cases hr : s.raised t = true
    · refine ⟨.run t true, _, trivial, (by simp only [sys, step, ht]; rw [if_pos hr]), ?_⟩
      refine less_of_pc (t := t) rfl ?_
      rw [ht]; decide
    · refine ⟨.run t true, _, trivial, (by simp only [sys, step, ht]; rw [if_neg hr]), ?_⟩
      refine less_of_pc (t := t) rfl ?_
      rw [ht]; decide
  by_cases h4 : ∃ t, s.pc t = .wChk
  · obtain ⟨t, ht⟩ := h4
    by_cases hz : s.rc = 0
    · refine ⟨.run t true, _, trivial, (by simp only [sys, step, ht]; rw [if_pos hz]), ?_⟩
      refine less_of_pc (t := t) rfl ?_
      rw [ht]; decide
    · obtain ⟨s', a1, a2, a3, a4⟩ := callUnlock_ok (lim := lim) (hi.crit t (by rw [ht]; rfl)) PC.wBack
      refine ⟨.run t true, s', trivial, (by simp only [sys, step, ht]; rw [if_neg hz]; exact a1), less_of_wr a3 a4 ?_ ?_⟩
      · rw [ht]; decide
      · rw [ht, beq_false_of_ne hz]; decide
  have hcr : ∀ t, (s.coh.th t).pc ≠ .crit := by
    intro t e
    have hkt := hk t
    rw [e] at hkt
    cases hp : s.pc t <;> simp [hp, kind, pk] at hkt
    · exact h4 ⟨t, hp⟩
    · exact h3 ⟨t, hp⟩
    · exact h2 ⟨t, hp⟩
  by_cases hz : cohRank s = 0
  · have hcid := cohRank_zero hz
    by_cases h5 : ∃ t, s.pc t = .rInc
    · obtain ⟨t, ht⟩ := h5
      refine ⟨.run t true, _, trivial, (by simp only [sys, step, ht]; rfl), ?_⟩
      refine less_of_pc (t := t) rfl ?_
      rw [ht]; decide
    by_cases h6 : ∃ t, s.pc t = .rL1
    · obtain ⟨t, ht⟩ := h6
      obtain ⟨f1, f2⟩ := free hn hi hz t
      refine ⟨.run t true, _, trivial, (by simp only [sys, step, ht]; rw [if_neg (by simp [f1])]), ?_⟩
      refine less_of_pc (t := t) rfl ?_
      rw [ht]; decide
    by_cases h7 : ∃ t, s.pc t = .rL2
    · obtain ⟨t, ht⟩ := h7
      obtain ⟨f1, f2⟩ := free hn hi hz t
      refine ⟨.run t true, _, trivial, (by simp only [sys, step, ht]; rw [if_neg (by simp [f2])]), ?_⟩
      refine less_of_pc (t := t) rfl ?_
      rw [ht]; decide
    have hrc : s.rc = 0 := by
      by_contra hc
      obtain ⟨u, hu⟩ := counted hn hi hc
      cases hp : s.pc u with
      | rL1 => exact h6 ⟨u, hp⟩
      | rL2 => exact h7 ⟨u, hp⟩
      | reading => exact h1 ⟨u, hp⟩
      | _ => rw [hp] at hu; cases hu
    have hrz : (s.rc == 0) = true := by simp [hrc]
    by_cases h8 : ∃ t, s.pc t = .wStall
    · obtain ⟨t, ht⟩ := h8
      by_cases hr : wl < s.wc t + 1 ∧ s.raised t = false
      · refine ⟨.run t true, _, trivial, (by simp only [sys, step, ht]; rw [if_pos hr]), ?_⟩
        refine less_of_wr (t := t) rfl rfl ?_ ?_
        · rw [ht]; decide
        · rw [ht, hrz]; decide
      · refine ⟨.run t true, _, trivial, (by simp only [sys, step, ht]; rw [if_neg hr]), ?_⟩
        refine less_of_wr (t := t) rfl rfl ?_ ?_
        · rw [ht]; decide
        · rw [ht, hrz]; decide
    by_cases h9 : ∃ t, s.pc t = .wWait
    · obtain ⟨t, ht⟩ := h9
      obtain ⟨s', a1, a2, a3, a4⟩ := callLock_ok (lim := lim) (hcid t) PC.wLock
      refine ⟨.run t true, s', trivial, (by simp only [sys, step, ht]; rw [if_neg (by simp [hrc])]; exact a1), less_of_wr a3 a4 ?_ ?_⟩
      · rw [ht]; decide
      · rw [ht, hrz]; decide
    have hbar := hb.zero (fun t => by
      have hkt := hk t
      rw [hcid t] at hkt
      cases hp : s.pc t with
      | wLock => rw [hp] at hkt; cases hkt
      | wBack => rw [hp] at hkt; cases hkt
      | wChk => exact absurd ⟨t, hp⟩ h4
      | wDone => exact absurd ⟨t, hp⟩ h3
      | wWait => exact absurd ⟨t, hp⟩ h9
      | wStall => exact absurd ⟨t, hp⟩ h8
      | _ => rfl)
    obtain ⟨t, ht⟩ := not_forall.1 hid
    have hkt := hk t
    rw [hcid t] at hkt
    cases hp : s.pc t with
    | idle => exact absurd hp ht
    | rBar =>
      refine ⟨.run t true, _, trivial, (by simp only [sys, step, hp]; rw [if_neg (by simp [hbar])]), ?_⟩
      refine less_of_pc (t := t) rfl ?_
      rw [hp]; decide
    | reading => exact absurd ⟨t, hp⟩ h1
    | rInc => exact absurd ⟨t, hp⟩ h5
    | rL1 => exact absurd ⟨t, hp⟩ h6
    | rL2 => exact absurd ⟨t, hp⟩ h7
    | wChk => exact absurd ⟨t, hp⟩ h4
    | wDone => exact absurd ⟨t, hp⟩ h3
    | writing => exact absurd ⟨t, hp⟩ h2
    | wWait => exact absurd ⟨t, hp⟩ h9
    | wStall => exact absurd ⟨t, hp⟩ h8
    | _ => rw [hp] at hkt; cases hkt
  · obtain ⟨t, ht⟩ := cohRank_pos hz
    obtain ⟨u, k, hu, hs⟩ := Cohort.some_runs hn hi.reach hcr ht
    have hku := hk u
    cases hp : s.pc u with
    | wLock =>
      obtain ⟨s', a1, a2, a3, a4⟩ := sub_ok hs .crit PC.wChk
      exact ⟨.run u true, s', trivial, (by simp only [sys, step, hp]; exact a1),
        less_of_sub a2 a3 a4 (by rw [hp]; decide) (.inr (by rw [hp]; cases (s.rc == 0) <;> decide))⟩
    | wBack =>
      obtain ⟨s', a1, a2, a3, a4⟩ := sub_ok hs .idle PC.wWait
      exact ⟨.run u true, s', trivial, (by simp only [sys, step, hp]; exact a1),
        less_of_sub a2 a3 a4 (by rw [hp]; decide) (.inr (by rw [hp]; cases (s.rc == 0) <;> decide))⟩
    | wUnl =>
      obtain ⟨s', a1, a2, a3, a4⟩ := sub_ok hs .idle PC.idle
      exact ⟨.run u true, s', trivial, (by simp only [sys, step, hp]; exact a1),
        less_of_sub a2 a3 a4 (by rw [hp]; decide) (.inl (by rw [hp]; decide))⟩
    | wChk => exact absurd ⟨u, hp⟩ h4
    | wDone => exact absurd ⟨u, hp⟩ h3
    | writing => exact absurd ⟨u, hp⟩ h2
    | _ =>
      rw [hp] at hku
      exfalso
      cases hq : (s.coh.th u).pc <;> simp [hq, kind, pk] at hku hu

end Rp

end Verif.RwCohort
