import Verif.Cohort.RwCohort
import Verif.Cohort.CohortThm

/-!
# `ck_rwcohort`: reader-writer exclusion (C19, C20, C21)
-/

set_option linter.unusedSimpArgs false
set_option linter.unusedVariables false

namespace Verif.RwCohort

open Verif Verif.Spec

variable {m n : Nat} {Q : Type}

theorem cnt_inc {P : Q → Bool} {f : Fin n → Q} {rc : BitVec 32} (h : rc = BitVec.ofNat 32 (cnt P f))
    (t : Fin n) (p : Q) (h1 : P (f t) = false) (h2 : P p = true) :
    rc + 1 = BitVec.ofNat 32 (cnt P (upd f t p)) := by
  rw [cnt_upd, h1, h2, h]; simp [BitVec.ofNat_add]

theorem cnt_dec {P : Q → Bool} {f : Fin n → Q} {rc : BitVec 32} (hn : n < 2 ^ 32)
    (h : rc = BitVec.ofNat 32 (cnt P f))
    (t : Fin n) (p : Q) (h1 : P (f t) = true) (h2 : P p = false) :
    rc - 1 = BitVec.ofNat 32 (cnt P (upd f t p)) := by
  have := cnt_pos (P := P) (f := f) t h1
  have := cnt_le P f
  rw [cnt_upd, h1, h2, h]; apply BitVec.eq_of_toNat_eq
  simp [BitVec.toNat_sub]; omega

theorem cnt_same {P : Q → Bool} {f : Fin n → Q} {rc : BitVec 32} (h : rc = BitVec.ofNat 32 (cnt P f))
    (t : Fin n) (p : Q) (h1 : P (f t) = P p) :
    rc = BitVec.ofNat 32 (cnt P (upd f t p)) := by
  rw [cnt_upd, h1, h]; simp

theorem cnt_none {P : Q → Bool} {f : Fin n → Q} {rc : BitVec 32} (hn : n < 2 ^ 32)
    (h : rc = BitVec.ofNat 32 (cnt P f)) (h0 : rc = 0) (u : Fin n) : P (f u) = false := by
  refine cnt_eq_zero ?_ u
  have := cnt_le P f
  rw [h] at h0
  have := congrArg BitVec.toNat h0
  simp at this; omega

/-- The invariant of all three variants. `inc`: counted in `read_counter`; `rin`: reader that may be
inside; `win`: writer past its check; `hc`: holds the cohort lock. -/
structure Inv (lim : Fin m → BitVec 32) (inc rin win hc : Q → Bool) (s : St m n Q) : Prop where
  reach : (Cohort.sys lim false).Reach s.coh
  cntr : s.rc = BitVec.ofNat 32 (cnt inc s.pc)
  crit : ∀ t, hc (s.pc t) = true → (s.coh.th t).pc = .crit
  ex : ∀ t u, win (s.pc t) = true → rin (s.pc u) = false

/-- Side conditions on the classification of program counters. -/
structure Cls (inc rin win hc : Q → Bool) : Prop where
  rin_inc : ∀ p, rin p = true → inc p = true
  win_hc : ∀ p, win p = true → hc p = true
  win_rin : ∀ p, win p = true → rin p = false

section
variable {lim : Fin m → BitVec 32} {inc rin win hc : Q → Bool}

/-- Other threads' cohort program counters are not changed by a step of `t`. -/
theorem coh_other {s s' : Cohort.St m n} {a : Cohort.Act m n} {t : Fin n}
    (ha : a = .run t true ∨ a = .run t false ∨ (∃ c, a = .lock t c) ∨ a = .unlock t)
    (hs : Cohort.step lim false s a = some s') {u : Fin n} (hu : u ≠ t) : s'.th u = s.th u := by
  rcases ha with rfl | rfl | ⟨c, rfl⟩ | rfl <;> simp only [Cohort.step, Cohort.St.go] at hs
  case inr.inr.inl => step_split hs; simp [upd_ne _ _ hu]
  case inr.inr.inr => step_split hs; simp [upd_ne _ _ hu]
  all_goals
    cases hp : (s.th t).pc
    case tDec b => cases b <;> simp only [hp] at hs <;> step_split hs <;> simp [upd_ne _ _ hu]
    all_goals
      simp only [hp] at hs
      step_split hs <;> simp [upd_ne _ _ hu]

/-- A step that does not touch the cohort lock. -/
theorem Inv.set (hK : Cls inc rin win hc) {s : St m n Q} (hi : Inv lim inc rin win hc s)
    (t : Fin n) (p : Q) (v : BitVec 32)
    (hv : v = BitVec.ofNat 32 (cnt inc (upd s.pc t p)))
    (h1 : hc p = true → hc (s.pc t) = true)
    (h2 : win p = true → win (s.pc t) = true ∨ ∀ u, rin (s.pc u) = false)
    (h3 : rin p = true → rin (s.pc t) = true ∨ ∀ u, u ≠ t → win (s.pc u) = false)
    (c' : Fin n → Fin m) (b' : BitVec 32) (w' : Fin n → BitVec 32) (r' : Fin n → Bool) :
    Inv lim inc rin win hc { s with rc := v, pc := upd s.pc t p, c := c', bar := b', wc := w', raised := r' } := by
  obtain ⟨a1, a2, a3, a4⟩ := hi
  refine ⟨a1, hv, ?_, ?_⟩ <;> simp only
  · intro u; simp only [upd_apply]; split
    · next e => subst e; exact fun h => a3 u (h1 h)
    · exact a3 u
  · intro u w; simp only [upd_apply]; intro hu
    split at hu
    · split
      · exact hK.win_rin _ hu
      · rcases h2 hu with h | h
        · next e _ => subst e; exact a4 u w h
        · exact h w
    · next hne =>
      split
      · cases hr : rin p
        · rfl
        · rcases h3 hr with h | h
          · next e => subst e; have := a4 u w hu; rw [h] at this; cases this
          · have := h u hne; rw [hu] at this; cases this
      · exact a4 u w hu

/-- A step on the cohort lock. -/
theorem Inv.coh (hK : Cls inc rin win hc) {s : St m n Q} (hi : Inv lim inc rin win hc s)
    (t : Fin n) (p : Q) (k : Cohort.St m n) {a : Cohort.Act m n}
    (ha : a = .run t true ∨ a = .run t false ∨ (∃ c, a = .lock t c) ∨ a = .unlock t)
    (hk : Cohort.step lim false s.coh a = some k)
    (hinc : inc p = inc (s.pc t)) (hrin : rin p = rin (s.pc t)) (hwin : win p = false)
    (hc' : hc p = true → (k.th t).pc = .crit)
    (c' : Fin n → Fin m) (w' : Fin n → BitVec 32) (r' : Fin n → Bool) :
    Inv lim inc rin win hc { s with coh := k, pc := upd s.pc t p, c := c', wc := w', raised := r' } := by
  obtain ⟨a1, a2, a3, a4⟩ := hi
  refine ⟨.step a1 hk, cnt_same a2 t p hinc.symm, ?_, ?_⟩ <;> simp only
  · intro u; simp only [upd_apply]; split
    · next e => subst e; exact hc'
    · next e => rw [coh_other ha hk e]; exact a3 u
  · intro u w; simp only [upd_apply]; intro hu
    split at hu
    · rw [hwin] at hu; cases hu
    · split
      · next e => subst e; rw [hrin]; exact a4 u w hu
      · exact a4 u w hu

theorem Inv.sub (hK : Cls inc rin win hc) {s s' : St m n Q} (hi : Inv lim inc rin win hc s)
    {t : Fin n} {p : Q} {ok : Bool} {d : Cohort.PC} (hs : s.sub lim t ok d p = some s')
    (hinc : inc p = inc (s.pc t)) (hrin : rin p = rin (s.pc t)) (hwin : win p = false)
    (hwin' : win (s.pc t) = false)
    (hc0 : hc (s.pc t) = false)
    (hc' : hc p = true → d = .crit) : Inv lim inc rin win hc s' := by
  simp only [St.sub] at hs
  split at hs
  · cases hs
  · next k hk =>
    cases hs
    have ha : (Cohort.Act.run t ok : Cohort.Act m n) = .run t true ∨
      (Cohort.Act.run t ok : Cohort.Act m n) = .run t false ∨
      (∃ c : Fin m, Cohort.Act.run t ok = .lock t c) ∨
      (Cohort.Act.run t ok : Cohort.Act m n) = .unlock t := by
      cases ok <;> simp
    split
    · next e => exact hi.coh hK t p k ha hk hinc hrin hwin (fun h => by rw [e, hc' h]) s.c s.wc s.raised
    · have := hi.coh hK t (s.pc t) k ha hk rfl rfl hwin' (fun h => by rw [hc0] at h; cases h) s.c s.wc s.raised
      simpa using this

theorem Inv.callLock (hK : Cls inc rin win hc) {s s' : St m n Q} (hi : Inv lim inc rin win hc s)
    {t : Fin n} {p : Q} (c' : Fin n → Fin m) (w' : Fin n → BitVec 32) (r' : Fin n → Bool)
    (hs : St.callLock lim { s with c := c', wc := w', raised := r' } t p = some s')
    (hinc : inc p = inc (s.pc t)) (hrin : rin p = rin (s.pc t)) (hwin : win p = false)
    (hc' : hc p = false) : Inv lim inc rin win hc s' := by
  simp only [St.callLock] at hs
  split at hs
  · cases hs
  · next k hk =>
    cases hs
    exact hi.coh hK t p k (.inr (.inr (.inl ⟨_, rfl⟩))) hk hinc hrin hwin (by simp [hc']) _ _ _

theorem Inv.callUnlock (hK : Cls inc rin win hc) {s s' : St m n Q} (hi : Inv lim inc rin win hc s)
    {t : Fin n} {p : Q} (hs : s.callUnlock lim t p = some s')
    (hinc : inc p = inc (s.pc t)) (hrin : rin p = rin (s.pc t)) (hwin : win p = false)
    (hc' : hc p = false) : Inv lim inc rin win hc s' := by
  simp only [St.callUnlock] at hs
  split at hs
  · cases hs
  · next k hk =>
    cases hs
    exact hi.coh hK t p k (.inr (.inr (.inr rfl))) hk hinc hrin hwin (by simp [hc']) _ _ _

/-- Nobody is past its check when the global lock is seen free. -/
theorem Inv.global_free (hn : n < 2 ^ 32) (hK : Cls inc rin win hc) {s : St m n Q}
    (hi : Inv lim inc rin win hc s) {ok : Bool} (h : ¬ lockedGlobal s ok = true) (u : Fin n) :
    win (s.pc u) = false := by
  cases hw : win (s.pc u)
  · rfl
  · have := (Cohort.inside_locked hn hi.reach (hi.crit u (hK.win_hc _ hw))).1
    simp [lockedGlobal, locked, this] at h

theorem Inv.alone (hn : n < 2 ^ 32) (hK : Cls inc rin win hc) {s : St m n Q}
    (hi : Inv lim inc rin win hc s) {t u : Fin n} (ht : hc (s.pc t) = true) (hu : hc (s.pc u) = true) :
    t = u := Cohort.mutual_exclusion hn hi.reach t u (hi.crit t ht) (hi.crit u hu)

theorem Inv.excl (hn : n < 2 ^ 32) (hK : Cls inc rin win hc) {s : St m n Q}
    (hi : Inv lim inc rin win hc s) {r w : Fin n → Prop} (hr : ∀ t, r t → rin (s.pc t) = true)
    (hw : ∀ t, w t → win (s.pc t) = true) : RwEx r w :=
  ⟨fun t u ht hu => hi.alone hn hK (hK.win_hc _ (hw t ht)) (hK.win_hc _ (hw u hu)),
   fun t u ht hu => by have := hi.ex t u (hw t ht); rw [hr u hu] at this; cases this⟩

theorem Inv.init (c0 : Fin n → Fin m) (p : Q) (h1 : inc p = false) (h2 : win p = false)
    (h3 : hc p = false) : Inv lim inc rin win hc (initSt m n c0 p) := by
  refine ⟨.init ⟨c0, rfl⟩, ?_, ?_, ?_⟩
  · have : cnt inc (fun _ : Fin n => p) = 0 := cnt_zero_of (fun _ => h1)
    simp [initSt, this]
  · intro t h; simp [initSt, h3] at h
  · intro t u h; simp [initSt, h2] at h

theorem zero_of_not_pos {x : BitVec 32} (h : ¬ 0 < x) : x = 0 := by
  rw [BitVec.lt_def] at h; apply BitVec.eq_of_toNat_eq; simp at h ⊢; omega

end

variable {lim : Fin m → BitVec 32}

/-! ## WP -/
namespace Wp

def inc : PC → Bool | .rL1 | .rL2 | .rDec | .rDone | .reading => true | _ => false
def rin : PC → Bool | .rDone | .reading => true | _ => false
def win : PC → Bool | .writing => true | _ => false
def hc : PC → Bool | .wChk | .writing => true | _ => false

theorem cls : Cls inc rin win hc := by
  constructor <;> intro p <;> cases p <;> simp [inc, rin, win, hc]

theorem inv_step (hn : n < 2 ^ 32) {wl : BitVec 32} {s s' : St m n} {a : Act m n}
    (hi : Inv lim inc rin win hc s) (hs : step lim wl s a = some s') : Inv lim inc rin win hc s' := by
  have hcn := hi.cntr
  cases a <;> simp only [step, St.go] at hs
  case wlock t c =>
    step_split hs; next hp =>
    exact hi.set cls t _ s.rc (cnt_same hcn _ _ (by rw [hp]; rfl)) (by simp [hc]) (by simp [win]) (by simp [rin]) _ s.bar s.wc s.raised
  case wunlock t =>
    split at hs
    · next hp => exact hi.callUnlock cls hs (by rw [hp]; rfl) (by rw [hp]; rfl) rfl rfl
    · cases hs
  case rlock t c =>
    step_split hs; next hp =>
    exact hi.set cls t _ s.rc (cnt_same hcn _ _ (by rw [hp]; rfl)) (by simp [hc]) (by simp [win]) (by simp [rin]) _ _ _ _
  case runlock t =>
    step_split hs; next hp =>
    exact hi.set cls t _ _ (cnt_dec hn hcn _ _ (by rw [hp]; rfl) rfl) (by simp [hc]) (by simp [win]) (by simp [rin]) _ _ _ _
  case run t ok =>
    cases hp : s.pc t <;> simp only [hp] at hs
    case wBar =>
      split at hs
      · cases hs; exact hi
      · exact hi.callLock cls s.c s.wc s.raised hs (by rw [hp]; rfl) (by rw [hp]; rfl) rfl rfl
    case wLock => exact hi.sub cls hs (by rw [hp]; rfl) (by rw [hp]; rfl) rfl (by rw [hp]; rfl) (by rw [hp]; rfl) (fun _ => rfl)
    case wChk =>
      step_split hs
      · exact hi
      · next h0 =>
        have hz := cnt_none hn hcn (zero_of_not_pos h0)
        refine hi.set cls t _ s.rc (cnt_same hcn _ _ (by rw [hp]; rfl)) (fun _ => by rw [hp]; rfl) (fun _ => .inr fun u => ?_) (by simp [rin]) _ _ _ _
        cases hr : rin (s.pc u)
        · rfl
        · have := hz u; rw [cls.rin_inc _ hr] at this; cases this
    case wUnl => exact hi.sub cls hs (by rw [hp]; rfl) (by rw [hp]; rfl) rfl (by rw [hp]; rfl) (by rw [hp]; rfl) (by simp [hc])
    case rInc =>
      step_split hs
      exact hi.set cls t _ _ (cnt_inc hcn _ _ (by rw [hp]; rfl) rfl) (by simp [hc]) (by simp [win]) (by simp [rin]) _ _ _ _
    case rDec =>
      step_split hs
      exact hi.set cls t _ _ (cnt_dec hn hcn _ _ (by rw [hp]; rfl) rfl) (by simp [hc]) (by simp [win]) (by simp [rin]) _ _ _ _
    case rL2 =>
      step_split hs
      · exact hi.set cls t _ s.rc (cnt_same hcn _ _ (by rw [hp]; rfl)) (by simp [hc]) (by simp [win]) (by simp [rin]) _ _ _ _
      · next hg =>
        exact hi.set cls t _ s.rc (cnt_same hcn _ _ (by rw [hp]; rfl)) (by simp [hc]) (by simp [win])
          (fun _ => .inr fun u _ => hi.global_free hn cls hg u) _ _ _ _
    case rDone =>
      step_split hs
      all_goals exact hi.set cls t _ s.rc (cnt_same hcn _ _ (by rw [hp]; rfl)) (by simp [hc]) (by simp [win]) (fun _ => .inl (by rw [hp]; rfl)) _ _ _ _
    all_goals try (cases hs; done)
    all_goals
      step_split hs
      all_goals exact hi.set cls t _ s.rc (cnt_same hcn _ _ (by rw [hp]; rfl)) (by simp [hc]) (by simp [win]) (by simp [rin]) _ _ _ _

/-- C19: reader-writer exclusion of the writer-preference variant. -/
theorem rw_exclusion {wl : BitVec 32} (hn : n < 2 ^ 32) {s : St m n} (h : (sys lim wl).Reach s) :
    RwEx (fun t => s.pc t = .reading) (fun t => s.pc t = .writing) := by
  have hi : Inv lim inc rin win hc s := by
    refine h.invariant ?_ (fun _ _ _ => inv_step hn)
    rintro s ⟨c0, rfl⟩; exact Inv.init c0 _ rfl rfl rfl
  exact hi.excl hn cls (fun t h => by rw [h]; rfl) (fun t h => by rw [h]; rfl)

/-- C19: `read_counter` counts the readers inside and those in the entry of read_lock; it is 0 when
no reader is anywhere. -/
theorem counter {wl : BitVec 32} (hn : n < 2 ^ 32) {s : St m n} (h : (sys lim wl).Reach s)
    (hr : ∀ t, s.pc t = .idle ∨ s.pc t = .writing ∨ s.pc t = .wChk) : s.rc = 0 := by
  have hi : Inv lim inc rin win hc s := by
    refine h.invariant ?_ (fun _ _ _ => inv_step hn)
    rintro s ⟨c0, rfl⟩; exact Inv.init c0 _ rfl rfl rfl
  rw [hi.cntr, cnt_zero_of]; rfl
  intro t; rcases hr t with e | e | e <;> rw [e] <;> rfl

/-- A reader enters, a writer of another cohort waits for it, then enters; a second reader backs
off. -/
example : ((sys (fun _ => 10) 0).run (initSt 2 3 (fun _ => 0) .idle)
    ([.rlock 0 0, .run 0 true, .run 0 true, .run 0 true, .run 0 true, .wlock 1 1] ++
     List.replicate 9 (.run 1 true) ++ [.rlock 2 0, .run 2 true, .run 2 true, .run 2 true, .run 2 true,
      .runlock 0, .run 1 true, .run 2 true])).map
    (fun s : St 2 3 => (s.pc 0, s.pc 1, s.pc 2, s.rc)) = some (.idle, .writing, .rW2, 0) := by decide

end Wp

/-! ## RP -/
namespace Rp

def inc : PC → Bool | .rL1 | .rL2 | .reading => true | _ => false
def rin : PC → Bool | .reading => true | _ => false
def win : PC → Bool | .wDone | .writing => true | _ => false
def hc : PC → Bool | .wChk | .wDone | .writing => true | _ => false

theorem cls : Cls inc rin win hc := by
  constructor <;> intro p <;> cases p <;> simp [inc, rin, win, hc]

theorem inv_step (hn : n < 2 ^ 32) {wl : BitVec 32} {s s' : St m n} {a : Act m n}
    (hi : Inv lim inc rin win hc s) (hs : step lim wl s a = some s') : Inv lim inc rin win hc s' := by
  have hcn := hi.cntr
  cases a <;> simp only [step, St.go] at hs
  case wlock t c =>
    split at hs
    · next hp => exact hi.callLock cls _ _ _ hs (by rw [hp]; rfl) (by rw [hp]; rfl) rfl rfl
    · cases hs
  case wunlock t =>
    split at hs
    · next hp => exact hi.callUnlock cls hs (by rw [hp]; rfl) (by rw [hp]; rfl) rfl rfl
    · cases hs
  case rlock t c =>
    step_split hs; next hp =>
    exact hi.set cls t _ s.rc (cnt_same hcn _ _ (by rw [hp]; rfl)) (by simp [hc]) (by simp [win]) (by simp [rin]) _ _ _ _
  case runlock t =>
    step_split hs; next hp =>
    exact hi.set cls t _ _ (cnt_dec hn hcn _ _ (by rw [hp]; rfl) rfl) (by simp [hc]) (by simp [win]) (by simp [rin]) _ _ _ _
  case run t ok =>
    cases hp : s.pc t <;> simp only [hp] at hs
    case wLock => exact hi.sub cls hs (by rw [hp]; rfl) (by rw [hp]; rfl) rfl (by rw [hp]; rfl) (by rw [hp]; rfl) (fun _ => rfl)
    case wChk =>
      split at hs
      · next h0 =>
        cases hs
        have hz := cnt_none hn hcn h0
        refine hi.set cls t _ s.rc (cnt_same hcn _ _ (by rw [hp]; rfl)) (fun _ => by rw [hp]; rfl) (fun _ => .inr fun u => ?_) (by simp [rin]) _ _ _ _
        cases hr : rin (s.pc u)
        · rfl
        · have := hz u; rw [cls.rin_inc _ hr] at this; cases this
      · exact hi.callUnlock cls hs (by rw [hp]; rfl) (by rw [hp]; rfl) rfl rfl
    case wBack => exact hi.sub cls hs (by rw [hp]; rfl) (by rw [hp]; rfl) rfl (by rw [hp]; rfl) (by rw [hp]; rfl) (by simp [hc])
    case wWait =>
      split at hs
      · cases hs
        exact hi.set cls t _ s.rc (cnt_same hcn _ _ (by rw [hp]; rfl)) (by simp [hc]) (by simp [win]) (by simp [rin]) _ _ _ _
      · exact hi.callLock cls s.c s.wc s.raised hs (by rw [hp]; rfl) (by rw [hp]; rfl) rfl rfl
    case wDone =>
      step_split hs
      all_goals exact hi.set cls t _ s.rc (cnt_same hcn _ _ (by rw [hp]; rfl)) (fun _ => by rw [hp]; rfl) (fun _ => .inl (by rw [hp]; rfl)) (by simp [rin]) _ _ _ _
    case wUnl => exact hi.sub cls hs (by rw [hp]; rfl) (by rw [hp]; rfl) rfl (by rw [hp]; rfl) (by rw [hp]; rfl) (by simp [hc])
    case rInc =>
      step_split hs
      exact hi.set cls t _ _ (cnt_inc hcn _ _ (by rw [hp]; rfl) rfl) (by simp [hc]) (by simp [win]) (by simp [rin]) _ _ _ _
    case rBar =>
      step_split hs
      · exact hi
      · exact hi.set cls t _ s.rc (cnt_same hcn _ _ (by rw [hp]; rfl)) (by simp [hc]) (by simp [win]) (by simp [rin]) _ _ _ _
    case rL1 =>
      step_split hs
      · exact hi
      · exact hi.set cls t _ s.rc (cnt_same hcn _ _ (by rw [hp]; rfl)) (by simp [hc]) (by simp [win]) (by simp [rin]) _ _ _ _
    case rL2 =>
      step_split hs
      · exact hi.set cls t _ s.rc (cnt_same hcn _ _ (by rw [hp]; rfl)) (by simp [hc]) (by simp [win]) (by simp [rin]) _ _ _ _
      · next hg =>
        exact hi.set cls t _ s.rc (cnt_same hcn _ _ (by rw [hp]; rfl)) (by simp [hc]) (by simp [win])
          (fun _ => .inr fun u _ => hi.global_free hn cls hg u) _ _ _ _
    all_goals try (cases hs; done)
    all_goals
      step_split hs
      all_goals exact hi.set cls t _ s.rc (cnt_same hcn _ _ (by rw [hp]; rfl)) (by simp [hc]) (by simp [win]) (by simp [rin]) _ _ _ _

/-- C20: reader-writer exclusion of the reader-preference variant. -/
theorem rw_exclusion {wl : BitVec 32} (hn : n < 2 ^ 32) {s : St m n} (h : (sys lim wl).Reach s) :
    RwEx (fun t => s.pc t = .reading) (fun t => s.pc t = .writing) := by
  have hi : Inv lim inc rin win hc s := by
    refine h.invariant ?_ (fun _ _ _ => inv_step hn)
    rintro s ⟨c0, rfl⟩; exact Inv.init c0 _ rfl rfl rfl
  exact hi.excl hn cls (fun t h => by rw [h]; rfl) (fun t h => by rw [h]; rfl)

/-- A reader is inside; the writer takes the cohort lock, backs off, and retries when it has left. -/
example : ((sys (fun _ => 10) 0).run (initSt 2 2 (fun _ => 0) .idle)
    ([.rlock 0 0, .run 0 true, .run 0 true, .run 0 true, .run 0 true, .wlock 1 1] ++
     List.replicate 16 (.run 1 true) ++ [.runlock 0] ++ List.replicate 9 (.run 1 true))).map
    (fun s : St 2 2 => (s.pc 0, s.pc 1, s.rc)) = some (.idle, .writing, 0) := by decide

end Rp

/-! ## NEUTRAL -/
namespace Neutral

def inc : PC → Bool | .rCall | .rUnl | .reading => true | _ => false
def rin : PC → Bool := inc
def win : PC → Bool | .writing => true | _ => false
def hc : PC → Bool | .wChk | .writing | .rInc | .rCall => true | _ => false

theorem cls : Cls inc rin win hc := by
  constructor <;> intro p <;> cases p <;> simp [inc, rin, win, hc]

theorem inv_step (hn : n < 2 ^ 32) {s s' : St m n} {a : Act m n}
    (hi : Inv lim inc rin win hc s) (hs : step lim s a = some s') : Inv lim inc rin win hc s' := by
  have hcn := hi.cntr
  cases a <;> simp only [step, St.go] at hs
  case wlock t c =>
    split at hs
    · next hp => exact hi.callLock cls _ _ _ hs (by rw [hp]; rfl) (by rw [hp]; rfl) rfl rfl
    · cases hs
  case wunlock t =>
    split at hs
    · next hp => exact hi.callUnlock cls hs (by rw [hp]; rfl) (by rw [hp]; rfl) rfl rfl
    · cases hs
  case rlock t c =>
    split at hs
    · next hp => exact hi.callLock cls _ _ _ hs (by rw [hp]; rfl) (by rw [hp]; rfl) rfl rfl
    · cases hs
  case runlock t =>
    step_split hs; next hp =>
    exact hi.set cls t _ _ (cnt_dec hn hcn _ _ (by rw [hp]; rfl) rfl) (by simp [hc]) (by simp [win]) (by simp [rin, inc]) _ _ _ _
  case run t ok =>
    cases hp : s.pc t <;> simp only [hp] at hs
    case wLock => exact hi.sub cls hs (by rw [hp]; rfl) (by rw [hp]; rfl) rfl (by rw [hp]; rfl) (by rw [hp]; rfl) (fun _ => rfl)
    case wChk =>
      step_split hs
      · exact hi
      · next h0 =>
        have hz := cnt_none hn hcn (zero_of_not_pos h0)
        exact hi.set cls t _ s.rc (cnt_same hcn _ _ (by rw [hp]; rfl)) (fun _ => by rw [hp]; rfl) (fun _ => .inr hz) (by simp [rin, inc]) _ _ _ _
    case wUnl => exact hi.sub cls hs (by rw [hp]; rfl) (by rw [hp]; rfl) rfl (by rw [hp]; rfl) (by rw [hp]; rfl) (by simp [hc])
    case rLock => exact hi.sub cls hs (by rw [hp]; rfl) (by rw [hp]; rfl) rfl (by rw [hp]; rfl) (by rw [hp]; rfl) (fun _ => rfl)
    case rInc =>
      step_split hs
      refine hi.set cls t _ _ (cnt_inc hcn _ _ (by rw [hp]; rfl) rfl) (fun _ => by rw [hp]; rfl) (by simp [win]) (fun _ => .inr fun u hu => ?_) _ _ _ _
      cases hw : win (s.pc u)
      · rfl
      · exact absurd (hi.alone hn cls (cls.win_hc _ hw) (by rw [hp]; rfl)) hu
    case rCall => exact hi.callUnlock cls hs (by rw [hp]; rfl) (by rw [hp]; rfl) rfl rfl
    case rUnl => exact hi.sub cls hs (by rw [hp]; rfl) (by rw [hp]; rfl) rfl (by rw [hp]; rfl) (by rw [hp]; rfl) (by simp [hc])
    all_goals cases hs

/-- C21: reader-writer exclusion of the neutral variant. -/
theorem rw_exclusion (hn : n < 2 ^ 32) {s : St m n} (h : (sys lim).Reach s) :
    RwEx (fun t => s.pc t = .reading) (fun t => s.pc t = .writing) := by
  have hi : Inv lim inc rin win hc s := by
    refine h.invariant ?_ (fun _ _ _ => inv_step hn)
    rintro s ⟨c0, rfl⟩; exact Inv.init c0 _ rfl rfl rfl
  exact hi.excl hn cls (fun t h => by rw [h]; rfl) (fun t h => by rw [h]; rfl)

/-- Two readers inside at the same time, then a writer. -/
example : ((sys (fun _ => 10)).run (initSt 2 3 (fun _ => 0) .idle)
    ([.rlock 0 0] ++ List.replicate 13 (.run 0 true) ++ [.rlock 1 1] ++
     List.replicate 13 (.run 1 true) ++ [.wlock 2 0] ++ List.replicate 8 (.run 2 true))).map
    (fun s : St 2 3 => (s.pc 0, s.pc 1, s.pc 2, s.rc)) = some (.reading, .reading, .wChk, 2) := by decide

end Neutral

end Verif.RwCohort
