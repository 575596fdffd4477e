import Verif.Core.Sys
import Verif.Core.Tactic

/-!
# Adaptive lock elision (C90), `include/ck_elide.h` lines 40-203

One thread with its `struct ck_elide_stat` that calls `CK_ELIDE_LOCK_ADAPTIVE` and `CK_ELIDE_UNLOCK_ADAPTIVE` in turn.  What the other threads do shows in the outcome of the transactions (`ok`, `abrt`) and in what the lock
predicate returns (`pred`); both are arbitrary.  That sections are serializable, whatever the policy, is C89.

`retry` is an `int`, here an integer: it does not overflow except where the code spins forever (`spins_forever`).

Bookkeeping that no program step reads: `att`, transactions begun in this call; `spn`, loads of the lock predicate outside of transactions in this call; `nAbt`, `nEld`, `nAcq`, transactions aborted, sections completed in a
transaction and calls of the lock function altogether; `calls`, calls altogether.
-/

namespace Verif.Misc.ElideAdaptive

open Verif

/-- lines 49-56, `retry_other` is used nowhere -/
structure Cfg where
  skipBusy : Nat
  retryBusy : Int
  skipOther : Nat
  skipConflict : Nat
  retryConflict : Int

/-- lines 58-65 -/
def Cfg.default : Cfg := { skipBusy := 5, retryBusy := 256, skipOther := 3, skipConflict := 2, retryConflict := 5 }

/-- lines 67-71 -/
structure Stat where
  nFallback : Nat
  nElide : Nat
  skip : Nat
deriving DecidableEq

/-- `include/gcc/x86_64/ck_pr_rtm.h` lines 56-62: the bits of the status that the code looks at. -/
structure Status where
  explicit : Bool
  retry : Bool
  conflict : Bool
  code : Nat
deriving DecidableEq

inductive Hint | retry | spin | stop
deriving DecidableEq

/-- `_ck_elide_fallback`, lines 93-132 -/
def fallback (retry : Int) (st : Stat) (c : Cfg) (s : Status) : Hint × Int × Stat :=
  let st := { st with nFallback := (st.nFallback + 1) % 2 ^ 32 }
  if retry > 0 then (.retry, retry, st)
  else if st.skip ≠ 0 then (.stop, retry, st)
  else if s.explicit then
    if s.code = 0xFF then (.spin, c.retryBusy, { st with skip := c.skipBusy }) else (.stop, retry, { st with skip := c.skipOther })
  else if s.retry ∧ s.conflict then (.retry, c.retryConflict, { st with skip := c.skipConflict })
  else (.stop, retry, { st with skip := 65535 })

inductive PC
  | idle
  /-- line 159, `ck_pr_rtm_begin` -/
  | beg
  /-- line 172, `while (--retry != 0)` -/
  | spin
  /-- line 173, the lock predicate -/
  | chk
  /-- in a section, in a transaction -/
  | eld
  /-- line 187, the lock function, and the section -/
  | acq
deriving DecidableEq

structure St where
  pc : PC
  retry : Int
  st : Stat
  att : Nat
  spn : Nat
  nAbt : Nat
  nEld : Nat
  nAcq : Nat
  calls : Nat

inductive Act
  | call
  /-- the transaction has begun and the lock predicate has returned false -/
  | ok
  /-- the transaction is aborted, at its begin, by line 162, or in the section -/
  | abrt (s : Status)
  | dec
  | pred (b : Bool)
  | unlock

def initSt : St := { pc := .idle, retry := 0, st := ⟨0, 0, 0⟩, att := 0, spn := 0, nAbt := 0, nEld := 0, nAcq := 0, calls := 0 }

/-- line 184, `while (--retry > 0)` -/
def St.cont (s : St) : St := if s.retry - 1 > 0 then { s with retry := s.retry - 1, pc := .beg } else { s with retry := s.retry - 1, pc := .acq, nAcq := s.nAcq + 1 }

/-- lines 167-183 -/
def St.hint (s : St) : Hint → St
  | .retry => s.cont
  | .spin => { s with pc := .spin }
  | .stop => { s with pc := .acq, nAcq := s.nAcq + 1 }

def step (c : Cfg) (s : St) : Act → Option St
  -- lines 152-157
  | .call =>
    if s.pc = .idle then
      if s.st.skip ≠ 0 then some { s with st := { s.st with skip := s.st.skip - 1 }, pc := .acq, att := 0, spn := 0, nAcq := s.nAcq + 1, calls := s.calls + 1 }
      else some { s with retry := c.retryConflict, pc := .beg, att := 0, spn := 0, calls := s.calls + 1 }
    else none
  -- lines 159-165
  | .ok => if s.pc = .beg then some { s with pc := .eld, att := s.att + 1 } else none
  -- line 167
  | .abrt x =>
    if s.pc = .beg ∨ s.pc = .eld then
      let f := fallback s.retry s.st c x
      some (({ s with retry := f.2.1, st := f.2.2, att := if s.pc = PC.beg then s.att + 1 else s.att, nAbt := s.nAbt + 1 } : St).hint f.1)
    else none
  -- lines 171-180
  | .dec => if s.pc = .spin then if s.retry - 1 ≠ 0 then some { s with retry := s.retry - 1, pc := .chk } else some ({ s with retry := s.retry - 1 }.cont) else none
  | .pred b => if s.pc = .chk then if b then some { s with pc := .spin, spn := s.spn + 1 } else some ({ s with spn := s.spn + 1 }.cont) else none
  -- lines 190-203
  | .unlock =>
    if s.pc = .eld then some { s with pc := .idle, st := { s.st with skip := 0, nElide := (s.st.nElide + 1) % 2 ^ 32 }, nEld := s.nEld + 1 }
    else if s.pc = .acq then some { s with pc := .idle } else none

def sys (c : Cfg) : Sys St Act := { init := (· = initSt), step := step c }

/-! ## Theorems -/

variable {c : Cfg}

structure Inv (c : Cfg) (s : St) : Prop where
  nf : s.st.nFallback = s.nAbt % 2 ^ 32
  ne : s.st.nElide = s.nEld % 2 ^ 32
  ca : s.nEld + s.nAcq + (if s.pc = .idle ∨ s.pc = .acq then 0 else 1) = s.calls
  b1 : s.pc = .beg → (s.retry = c.retryConflict ∧ s.att = 0 ∧ s.spn = 0 ∧ s.st.skip = 0) ∨ (s.retry > 0 ∧ s.att ≥ 1 ∧ (s.att : Int) + s.retry ≤ max c.retryConflict c.retryBusy)
  b2 : s.pc = .eld → (s.retry = c.retryConflict ∧ s.att = 1 ∧ s.spn = 0 ∧ s.st.skip = 0) ∨ (s.retry > 0 ∧ s.att ≥ 1 ∧ (s.att : Int) + s.retry ≤ max c.retryConflict c.retryBusy + 1)
  b3 : s.pc = .spin ∨ s.pc = .chk → s.att = 1
  b4 : s.pc = .acq ∨ s.pc = .idle → (s.att : Int) ≤ max 1 (max c.retryConflict c.retryBusy)
  p1 : c.retryConflict > 0 → s.pc ≠ .spin ∧ s.pc ≠ .chk ∧ s.spn = 0 ∧ s.st.skip = 0 ∧ (s.pc = .beg → (s.att : Int) + s.retry = c.retryConflict ∧ s.retry > 0) ∧
    (s.pc = .eld → (s.att : Int) + s.retry = c.retryConflict + 1 ∧ s.retry > 0) ∧ (s.pc = .acq → (s.att : Int) = c.retryConflict)
  q1 : c.retryConflict ≤ 0 → c.retryBusy > 0 → (s.pc = .spin → s.retry > 0 ∧ (s.spn : Int) + s.retry ≤ c.retryBusy) ∧ (s.pc = .chk → s.retry > 0 ∧ (s.spn : Int) + s.retry < c.retryBusy)
  q3 : c.retryBusy ≤ 0 → s.pc = .spin ∨ s.pc = .chk → s.retry ≤ 0
  q2 : (s.spn : Int) ≤ max 0 c.retryBusy ∨ c.retryBusy ≤ 0 ∧ c.retryConflict ≤ 0

theorem reach_inv {s : St} (hs : (sys c).Reach s) : Inv c s := by
  refine Sys.Reach.invariant (I := Inv c) (fun s e => ?_) (fun s a s' hi hstep => ?_) hs
  · subst e; constructor <;> simp only [initSt] <;> first | rfl | grind | simp
  · obtain ⟨nf, ne, ca, b1, b2, b3, b4, p1, q1, q3, q2⟩ := hi
    change step c s a = some s' at hstep
    unfold step at hstep
    cases a <;> simp only [] at hstep
    case abrt x =>
      split at hstep
      case isFalse => cases hstep
      rename_i hpc
      simp only [Option.some.injEq] at hstep
      subst hstep
      unfold fallback
      simp only
      split
      · simp only [St.hint, St.cont]
        split <;> constructor <;> simp only [] <;> grind
      · split
        · simp only [St.hint]
          constructor <;> simp only [] <;> grind
        · split
          · split <;> simp only [St.hint] <;> constructor <;> simp only [] <;> grind
          · split
            · simp only [St.hint, St.cont]
              split <;> constructor <;> simp only [] <;> grind
            · simp only [St.hint]
              constructor <;> simp only [] <;> grind
    all_goals
      (repeat' split at hstep) <;> simp only [reduceCtorEq, Option.some.injEq] at hstep <;> subst hstep <;> (try simp only [St.cont]) <;> (try split) <;> constructor <;> simp only [] <;> grind

/-- `n_fallback` counts the aborted transactions and `n_elide` the sections completed in one (both wrap), and every call that has returned holds the lock or has begun a transaction, not both. -/
theorem counts {s : St} (hs : (sys c).Reach s) :
    s.st.nFallback = s.nAbt % 2 ^ 32 ∧ s.st.nElide = s.nEld % 2 ^ 32 ∧ (s.pc = .idle → s.nEld + s.nAcq = s.calls) := by
  have h := reach_inv hs
  exact ⟨h.nf, h.ne, fun e => by have := h.ca; simpa [e] using this⟩

/-- A call tries at most `max(1, retry_conflict, retry_busy)` transactions. -/
theorem attempts {s : St} (hs : (sys c).Reach s) : (s.att : Int) ≤ max 1 (max c.retryConflict c.retryBusy) := by
  obtain ⟨nf, ne, ca, b1, b2, b3, b4, p1, q1, q3, q2⟩ := reach_inv hs
  cases h : s.pc <;> grind

/-- A call loads the lock predicate at most `retry_busy` times outside of transactions, if one of `retry_busy` and `retry_conflict` is positive. -/
theorem spins_partial (hc : c.retryConflict > 0 ∨ c.retryBusy > 0) {s : St} (hs : (sys c).Reach s) : (s.spn : Int) ≤ max 0 c.retryBusy := by
  have := (reach_inv hs).q2
  omega

/-- If `retry_conflict` is positive, the lock function is called after exactly `retry_conflict` aborted transactions, whatever the reasons of the aborts, and without waiting for the lock. -/
theorem conflict_only (hc : c.retryConflict > 0) {s : St} (hs : (sys c).Reach s) (h : s.pc = .acq) : (s.att : Int) = c.retryConflict ∧ s.spn = 0 := by
  have := (reach_inv hs).p1 hc
  exact ⟨this.2.2.2.2.2.2 h, this.2.2.1⟩

/-- What lines 107-131 assign to `skip`, by the reason of the abort. -/
def skipOf (c : Cfg) (x : Status) : Nat :=
  if x.explicit then (if x.code = 0xFF then c.skipBusy else c.skipOther) else if x.retry ∧ x.conflict then c.skipConflict else 65535

/-- The calls of `k` sections one after the other. -/
def sections : Nat → List Act
  | 0 => []
  | k + 1 => .call :: .unlock :: sections k

/-- `k` sections, when `skip` is at least `k`: the lock function is called each time, there is no transaction, and `skip` is less by `k`. -/
theorem forfeit (k : Nat) (s : St) (hp : s.pc = .idle) (hk : k ≤ s.st.skip) :
    ∃ s', (sys c).run s (sections k) = some s' ∧ s'.pc = .idle ∧ s'.st.skip = s.st.skip - k ∧ s'.nAcq = s.nAcq + k ∧ s'.nEld = s.nEld ∧ s'.nAbt = s.nAbt := by
  induction k generalizing s with
  | zero => exact ⟨s, rfl, hp, rfl, rfl, rfl, rfl⟩
  | succ k ih =>
    have hne : s.st.skip ≠ 0 := by omega
    let s1 : St := { s with st := { s.st with skip := s.st.skip - 1 }, pc := .idle, att := 0, spn := 0, nAcq := s.nAcq + 1, calls := s.calls + 1 }
    obtain ⟨s', h1, h2, h3, h4, h5, h6⟩ := ih s1 rfl (by simp only [s1]; omega)
    refine ⟨s', ?_, h2, ?_, ?_, h5, h6⟩
    · simp only [sections, Sys.run, sys, step, hp, hne, ne_eq, not_false_eq_true, ↓reduceIte, reduceCtorEq] at h1 ⊢
      exact h1
    · rw [h3]; simp only [s1]; omega
    · rw [h4]; simp only [s1]; omega

/-- With `retry_conflict` not positive, the first abort sets `skip` as the configuration says, and the lock function is called at once except if the lock was busy. -/
theorem classify_partial (hc : c.retryConflict ≤ 0) {s s' : St} (hs : (sys c).Reach s) (hp : s.pc = .beg) (ha : s.att = 0) {x : Status} (h : step c s (.abrt x) = some s') :
    s'.st.skip = skipOf c x ∧ (x.explicit = true → x.code ≠ 0xFF → s'.pc = .acq) ∧ (x.explicit = true → x.code = 0xFF → s'.pc = .spin ∧ s'.retry = c.retryBusy) ∧ (x.explicit = false → s'.pc = .acq) := by
  have hi := reach_inv hs
  have hr : s.retry = c.retryConflict ∧ s.st.skip = 0 := by
    rcases hi.b1 hp with h | h
    · exact ⟨h.1, h.2.2.2⟩
    · omega
  have h1 : ¬ c.retryConflict > 0 := by omega
  have h2 : ¬ 1 < c.retryConflict := by omega
  simp only [step, hp, true_or, ↓reduceIte, Option.some.injEq] at h
  subst h
  rw [hr.1]
  cases he : x.explicit with
  | true =>
    by_cases hx : x.code = 255 <;> simp [fallback, h1, hr.2, he, hx, skipOf, St.hint]
  | false =>
    by_cases hx : x.retry = true ∧ x.conflict = true <;> simp [fallback, h1, h2, hr.2, he, hx, skipOf, St.hint, St.cont]

/-- The default configuration: `retry_conflict` is 5, so that `skip_busy`, `skip_other`, `skip_conflict` and `retry_busy` have no effect: `skip` is always 0, every call tries transactions, also after the lock was busy. -/
theorem never_skips (hc : c.retryConflict > 0) {s : St} (hs : (sys c).Reach s) : s.st.skip = 0 := ((reach_inv hs).p1 hc).2.2.2.1

/-! ## Examples -/

structure Out where
  pc : PC
  retry : Int
  st : Stat
  att : Nat
  spn : Nat
deriving DecidableEq

def out (s : St) : Out := ⟨s.pc, s.retry, s.st, s.att, s.spn⟩

/-- line 162: the lock was busy -/
def busy : Status := { explicit := true, retry := false, conflict := false, code := 255 }
/-- a conflict, worth another try -/
def conflict : Status := { explicit := false, retry := true, conflict := true, code := 0 }

/-- The default configuration: after two conflicts a section completes in a transaction; the next call meets the lock five times and calls the lock function. -/
theorem default_example : ∃ s, (sys .default).Reach s ∧ out s = ⟨.acq, 0, ⟨7, 1, 0⟩, 5, 0⟩ := by
  have h : ((sys .default).run initSt [.call, .abrt conflict, .ok, .abrt conflict, .ok, .unlock, .call, .abrt busy, .abrt busy, .abrt busy, .abrt busy, .abrt busy]).map out =
      some ⟨.acq, 0, ⟨7, 1, 0⟩, 5, 0⟩ := by decide +kernel
  obtain ⟨s, hs, e⟩ := Option.map_eq_some_iff.1 h
  exact ⟨s, .of_run (.init rfl) hs, e⟩

/-- The same then calls again and tries a transaction, although the lock was busy and `skip_busy` is 5. -/
theorem skip_fails : ∃ s, (sys .default).Reach s ∧ s.st.nFallback = 5 ∧ s.pc = .beg ∧ Cfg.default.skipBusy = 5 := by
  have h : ((sys .default).run initSt [.call, .abrt busy, .abrt busy, .abrt busy, .abrt busy, .abrt busy, .unlock, .call]).map out = some ⟨.beg, 5, ⟨5, 0, 0⟩, 0, 0⟩ := by decide +kernel
  obtain ⟨s, hs, e⟩ := Option.map_eq_some_iff.1 h
  simp only [out, Out.mk.injEq] at e
  exact ⟨s, .of_run (.init rfl) hs, by rw [e.2.2.1], e.1, rfl⟩

/-- A configuration where `skip_busy` and `retry_busy` have an effect. -/
def Cfg.busy : Cfg := { skipBusy := 2, retryBusy := 4, skipOther := 3, skipConflict := 2, retryConflict := 0 }

/-- The lock was busy, the predicate says it is free, two transactions, both aborted; the lock function; two sections without a transaction; then a transaction again. -/
theorem busy_example : ∃ s, (sys .busy).Reach s ∧ out s = ⟨.eld, 0, ⟨3, 0, 0⟩, 1, 0⟩ ∧ s.nAcq = 3 := by
  have h : ((sys .busy).run initSt ([.call, .abrt ElideAdaptive.busy, .dec, .pred false, .abrt conflict, .abrt conflict, .unlock] ++ sections 2 ++ [.call, .ok])).map (fun s => (out s, s.nAcq)) =
      some (⟨.eld, 0, ⟨3, 0, 0⟩, 1, 0⟩, 3) := by decide +kernel
  obtain ⟨s, hs, e⟩ := Option.map_eq_some_iff.1 h
  exact ⟨s, .of_run (.init rfl) hs, (Prod.mk.inj e).1, (Prod.mk.inj e).2⟩

/-- Neither `retry_busy` nor `retry_conflict` is positive: as long as the lock is busy, the predicate is loaded, any number of times. -/
theorem spins_forever (h1 : c.retryConflict ≤ 0) (h2 : c.retryBusy ≤ 0) (k : Nat) : ∃ s, (sys c).Reach s ∧ s.pc = .spin ∧ s.spn = k := by
  have : ∃ s, (sys c).Reach s ∧ s.pc = .spin ∧ s.retry ≤ 0 ∧ s.spn = k := by
    induction k with
    | zero =>
      have h0 : ¬ c.retryConflict > 0 := by omega
      have hr : (sys c).Reach ({ initSt with pc := .beg, retry := c.retryConflict, calls := 1 } : St) := .step (a := .call) (.init rfl) rfl
      refine ⟨_, .step (a := .abrt busy) hr rfl, ?_⟩
      simp [fallback, h0, initSt, ElideAdaptive.busy, St.hint, h2]
    | succ k ih =>
      obtain ⟨s, hs, hp, hr, hk⟩ := ih
      have hd : s.retry - 1 ≠ 0 := by omega
      have h1 : (sys c).Reach ({ s with retry := s.retry - 1, pc := .chk } : St) := .step (a := .dec) hs (by simp only [sys, step, hp, hd, ne_eq, not_false_eq_true, ↓reduceIte])
      exact ⟨{ s with retry := s.retry - 1, pc := .spin, spn := s.spn + 1 }, .step (a := .pred true) h1 rfl, rfl, by simp only; omega, by simp only; omega⟩
  obtain ⟨s, a, b, -, d⟩ := this
  exact ⟨s, a, b, d⟩

end Verif.Misc.ElideAdaptive
