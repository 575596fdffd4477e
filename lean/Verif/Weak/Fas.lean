import Verif.Core.Weak

/-!
# Test-and-set spinlocks on relaxed memory (C71), `include/spinlock/fas.h`, `include/spinlock/cas.h`

Any number of threads, one lock, data words (`usr x`) that are only accessed while holding the lock.  Loads return any value
the memory model allows.  Threads may mix the operations of both files.  `fc` tells which fences exist; all of them
do in the code.
-/

namespace Verif.Weak.Fas

open Verif

inductive Loc
  | lock
  | usr (x : Nat)
deriving DecidableEq

/-- `lock`: lines 61, 86, 98 of fas.h and 63, 85, 97 of cas.h; `unlock`: line 106 of both. -/
structure Fences where
  lock : Bool
  unlock : Bool

def real : Fences := { lock := true, unlock := true }

inductive PC
  | idle
  /-- about to do the atomic operation, fas.h line 80 or 95, cas.h line 80 or 94 -/
  | attempt
  /-- fas.h line 83, cas.h line 81 -/
  | spin
  /-- holds the lock -/
  | cs
deriving DecidableEq

structure St (n : Nat) where
  mem : Mem Loc Nat
  th : Fin n → Th Loc
  pc : Fin n → PC

inductive Act (n : Nat)
  | call (t : Fin n)
  | fas (t : Fin n)
  | casOk (t : Fin n)
  | casFail (t : Fin n) (i : Nat)
  | spin (t : Fin n) (i : Nat)
  | backoff (t : Fin n)
  | trylock (t : Fin n)
  | read (t : Fin n) (x i : Nat)
  | write (t : Fin n) (x v : Nat)
  | unlock (t : Fin n)

/-- A fence that may be missing. -/
def opt {L : Type} (b : Bool) (f : Th L → Th L) (t : Th L) : Th L := if b then f t else t

/-- `ck_spinlock_fas_init`, lines 47-53. -/
def initSt (n : Nat) : St n := { mem := Mem.init fun _ => 0, th := fun _ => Th.init, pc := fun _ => .idle }

/-- The result of the atomic operation: the lock, or wait. -/
def got {n : Nat} (fc : Fences) (s : St n) (t : Fin n) : St n :=
  { mem := s.mem.rmw (s.th t) .lock 1, th := upd s.th t (opt fc.lock Th.fenceAcq ((s.th t).rmw s.mem .lock))
    pc := upd s.pc t .cs }

/-- fas.h lines 56-109, cas.h lines 58-109. -/
def step {n : Nat} (fc : Fences) (s : St n) : Act n → Option (St n)
  | .call t => if s.pc t = .idle then some { s with pc := upd s.pc t .attempt } else none
  -- `ck_pr_fas_uint`, fas.h lines 80, 86, 95, 98
  | .fas t =>
    if s.pc t = .attempt then
      if s.mem.last .lock = 0 then some (got fc s t)
      else some { mem := s.mem.rmw (s.th t) .lock 1, th := upd s.th t ((s.th t).rmw s.mem .lock), pc := upd s.pc t .spin }
    else none
  -- `ck_pr_cas_uint` returns true, cas.h lines 80, 85, 94, 97
  | .casOk t => if s.pc t = .attempt ∧ s.mem.last .lock = 0 then some (got fc s t) else none
  -- it returns false after having loaded value `i`
  | .casFail t i =>
    if s.pc t = .attempt ∧ (s.th t).may s.mem .lock i ∧ (s.mem.msg .lock i).val ≠ 0 then
      some { s with th := upd s.th t ((s.th t).load s.mem .lock i), pc := upd s.pc t .spin }
    else none
  -- fas.h lines 81-83, cas.h lines 81-82
  | .spin t i =>
    if s.pc t = .spin ∧ (s.th t).may s.mem .lock i then
      some { s with
        th := upd s.th t ((s.th t).load s.mem .lock i)
        pc := upd s.pc t (if (s.mem.msg .lock i).val = 0 then .attempt else .spin) }
    else none
  -- `lock_eb` tries again without looking, fas.h line 96, cas.h line 95
  | .backoff t => if s.pc t = .spin then some { s with pc := upd s.pc t .attempt } else none
  -- fas.h lines 56-64, cas.h lines 58-65
  | .trylock t =>
    if s.pc t = .idle then
      if s.mem.last .lock = 0 then some (got fc s t)
      else some { s with
        mem := s.mem.rmw (s.th t) .lock 1, th := upd s.th t (opt fc.lock Th.fenceAcq ((s.th t).rmw s.mem .lock)) }
    else none
  -- the client loads value `i` of its data
  | .read t x i =>
    if s.pc t = .cs ∧ (s.th t).may s.mem (.usr x) i then
      some { s with th := upd s.th t ((s.th t).load s.mem (.usr x) i) }
    else none
  | .write t x v =>
    if s.pc t = .cs then
      some { s with mem := s.mem.store (s.th t) (.usr x) v, th := upd s.th t ((s.th t).store s.mem (.usr x)) }
    else none
  -- lines 103-109 of fas.h, 102-109 of cas.h
  | .unlock t =>
    if s.pc t = .cs then
      some { mem := s.mem.store (opt fc.unlock Th.fenceRel (s.th t)) .lock 0
             th := upd s.th t ((opt fc.unlock Th.fenceRel (s.th t)).store s.mem .lock), pc := upd s.pc t .idle }
    else none

def sys (fc : Fences) (n : Nat) : Sys (St n) (Act n) := { init := (· = initSt n), step := step fc }

/-! ## Invariant -/

structure Inv {n : Nat} (s : St n) : Prop where
  excl : ∀ t u, s.pc t = .cs → s.pc u = .cs → t = u
  free : (∀ t, s.pc t ≠ .cs) → s.mem.last .lock = 0 ∧ ∀ x, s.mem.top (.usr x) ≤ (s.mem.msg .lock (s.mem.top .lock)).view (.usr x)
  held : ∀ t, s.pc t = .cs → s.mem.last .lock ≠ 0 ∧ ∀ x, s.mem.top (.usr x) ≤ (s.th t).cur (.usr x)

variable {n : Nat}

/-- The newest value after an atomic operation, and the view of the thread. -/
theorem last_rmw {L V : Type} [DecidableEq L] (m : Mem L V) (t : Th L) (x : L) (v : V) : (m.rmw t x v).last x = v := by
  simp only [Mem.last, Mem.rmw_top, if_true]
  rw [Mem.rmw_at _ _ rfl]

theorem last_store {L V : Type} [DecidableEq L] (m : Mem L V) (t : Th L) (x : L) (v : V) : (m.store t x v).last x = v := by
  simp only [Mem.last, Mem.store_top, if_true]
  rw [Mem.store_at _ _ rfl]

theorem inv_got {s : St n} {t : Fin n} (hi : Inv s) (h0 : s.mem.last .lock = 0) : Inv (got real s t) := by
  have hn : ∀ u, s.pc u ≠ .cs := fun u hu => (hi.held u hu).1 h0
  obtain ⟨-, hv⟩ := hi.free hn
  have hc : ∀ u, (got real s t).pc u = .cs → u = t := by
    intro u hu
    refine Decidable.byContradiction fun hne => hn u ?_
    simp only [got] at hu
    rwa [upd_ne _ _ hne] at hu
  refine ⟨fun u v hu hv => (hc u hu).trans (hc v hv).symm, fun h => absurd (by simp [got]) (h t), fun u hu => ?_⟩
  obtain rfl := hc u hu
  refine ⟨by simp only [got]; rw [last_rmw]; omega, fun x => ?_⟩
  simp only [got, upd_same, opt, real, if_true, Th.fenceAcq, Th.fenceLoad, Th.rmw, Th.store, Mem.rmw_top]
  rw [if_neg (by simp)]
  exact Nat.le_trans (Nat.le_trans (hv x) (Th.load_view_le _ _ _ _ _)) (le_join_right _ _ _)

theorem inv_step {s s' : St n} {a : Act n} (hi : Inv s) (hs : step real s a = some s') : Inv s' := by
  -- steps that change neither memory nor who holds the lock
  have keepM : ∀ (th' : Fin n → Th Loc) (pc' : Fin n → PC), (∀ u, pc' u = .cs ↔ s.pc u = .cs) →
      (∀ u x, (s.th u).cur (.usr x) ≤ (th' u).cur (.usr x)) → Inv { s with th := th', pc := pc' } := by
    intro th' pc' hp hc
    refine ⟨fun t u ht hu => hi.excl t u ((hp t).1 ht) ((hp u).1 hu), fun h => hi.free fun t ht => h t ((hp t).2 ht), ?_⟩
    intro t ht
    obtain ⟨h1, h2⟩ := hi.held t ((hp t).1 ht)
    exact ⟨h1, fun x => Nat.le_trans (h2 x) (hc t x)⟩
  have ncs : ∀ (t : Fin n) (p : PC), p ≠ .cs → s.pc t ≠ .cs → ∀ u, upd s.pc t p u = .cs ↔ s.pc u = .cs := by
    intro t p h1 h2 u
    by_cases hu : u = t
    · subst hu; rw [upd_same]; exact ⟨fun h => absurd h h1, fun h => absurd h h2⟩
    · rw [upd_ne _ _ hu]
  have ldc : ∀ (t : Fin n) (l : Loc) (i : Nat) (u : Fin n) (x : Nat),
      (s.th u).cur (.usr x) ≤ (upd s.th t ((s.th t).load s.mem l i) u).cur (.usr x) := by
    intro t l i u x
    by_cases hu : u = t
    · subst hu; rw [upd_same]; exact Th.load_cur_le _ _ _ _ _
    · rw [upd_ne _ _ hu]; exact Nat.le_refl _
  -- a failed atomic operation
  have lose : ∀ (t : Fin n) (f : Th Loc → Th Loc) (pc' : Fin n → PC), s.mem.last .lock ≠ 0 →
      (∀ u, pc' u = .cs ↔ s.pc u = .cs) → (∀ q x, q.cur x ≤ (f q).cur x) →
      Inv { mem := s.mem.rmw (s.th t) .lock 1, th := upd s.th t (f ((s.th t).rmw s.mem .lock)), pc := pc' } := by
    intro t f pc' h0 hp hf
    refine ⟨fun t u ht hu => hi.excl t u ((hp t).1 ht) ((hp u).1 hu),
      fun h => absurd (hi.free fun t ht => h t ((hp t).2 ht)).1 h0, ?_⟩
    intro u hu
    obtain ⟨-, h2⟩ := hi.held u ((hp u).1 hu)
    refine ⟨by simp only; rw [last_rmw]; omega, fun x => ?_⟩
    simp only [Mem.rmw_top]
    rw [if_neg (by simp)]
    refine Nat.le_trans (h2 x) ?_
    by_cases hut : u = t
    · subst hut
      rw [upd_same]
      refine Nat.le_trans ?_ (hf _ _)
      simp only [Th.rmw, Th.store]
      rw [upd_ne _ _ (by simp)]
      exact Th.load_cur_le _ _ _ _ _
    · rw [upd_ne _ _ hut]
      exact Nat.le_refl _
  cases a with
  | call t =>
    simp only [step] at hs
    split at hs
    · next hc => cases hs; exact keepM _ _ (ncs t _ (by simp) (by rw [hc]; simp)) (fun _ _ => Nat.le_refl _)
    · cases hs
  | fas t =>
    simp only [step] at hs
    split at hs
    · next hc =>
      split at hs
      · next h0 => cases hs; exact inv_got hi h0
      · next h0 => cases hs; exact lose t id _ h0 (ncs t _ (by simp) (by rw [hc]; simp)) (fun _ _ => Nat.le_refl _)
    · cases hs
  | casOk t =>
    simp only [step] at hs
    split at hs
    · next hc => cases hs; exact inv_got hi hc.2
    · cases hs
  | casFail t i =>
    simp only [step] at hs
    split at hs
    · next hc => cases hs; exact keepM _ _ (ncs t _ (by simp) (by rw [hc.1]; simp)) (ldc t _ i)
    · cases hs
  | spin t i =>
    simp only [step] at hs
    split at hs
    · next hc => cases hs; exact keepM _ _ (ncs t _ (by split <;> simp) (by rw [hc.1]; simp)) (ldc t _ i)
    · cases hs
  | backoff t =>
    simp only [step] at hs
    split at hs
    · next hc => cases hs; exact keepM _ _ (ncs t _ (by simp) (by rw [hc]; simp)) (fun _ _ => Nat.le_refl _)
    · cases hs
  | trylock t =>
    simp only [step] at hs
    split at hs
    · next hc =>
      split at hs
      · next h0 => cases hs; exact inv_got hi h0
      · next h0 =>
        cases hs
        simp only [opt, real, if_true]
        exact lose t Th.fenceAcq _ h0 (fun _ => Iff.rfl) (fun q x => le_join_left _ _ _)
    · cases hs
  | read t x i =>
    simp only [step] at hs
    split at hs
    · next hc => cases hs; exact keepM _ _ (fun _ => Iff.rfl) (ldc t _ i)
    · cases hs
  | write t x v =>
    simp only [step] at hs
    split at hs
    · next hc =>
      cases hs
      refine ⟨hi.excl, fun h => absurd hc (h t), fun u hu => ?_⟩
      obtain rfl := hi.excl t u hc hu
      obtain ⟨h1, h2⟩ := hi.held t hc
      refine ⟨?_, fun y => ?_⟩
      · simp only [Mem.last, Mem.store_top]
        rw [if_neg (by simp), Mem.store_ne _ (by simp)]
        exact h1
      · simp only [upd_same, Th.store, Mem.store_top, upd_apply]
        split
        · exact Nat.le_refl _
        · exact h2 y
    · cases hs
  | unlock t =>
    simp only [step] at hs
    split at hs
    · next hc =>
      cases hs
      have hn : ∀ u, upd s.pc t .idle u ≠ .cs := by
        intro u hu
        by_cases hut : u = t
        · subst hut; rw [upd_same] at hu; cases hu
        · rw [upd_ne _ _ hut] at hu; exact hut (hi.excl u t hu hc)
      refine ⟨fun u _ hu _ => absurd hu (hn u), fun _ => ⟨by simp only; rw [last_store], fun x => ?_⟩,
        fun u hu => absurd hu (hn u)⟩
      simp only [opt, real, if_true, Mem.store_top]
      rw [if_neg (by simp), Mem.store_at _ _ rfl]
      simp only [Th.fenceRel]
      rw [upd_ne _ _ (by simp)]
      exact Nat.le_trans ((hi.held t hc).2 x) (le_join_right _ _ _)
    · cases hs

theorem inv_reach {s : St n} (h : (sys real n).Reach s) : Inv s := by
  refine h.invariant (I := Inv) ?_ (fun _ _ _ hi hs => inv_step hi hs)
  rintro s rfl
  exact ⟨(fun t _ h _ => nomatch h), (fun _ => ⟨rfl, fun _ => Nat.zero_le _⟩), (fun t h => nomatch h)⟩

/-! ## Properties -/

/-- C71: at most one thread holds the lock. -/
theorem mutual_exclusion {s : St n} (h : (sys real n).Reach s) {t u : Fin n} (ht : s.pc t = .cs) (hu : s.pc u = .cs) :
    t = u := (inv_reach h).excl t u ht hu

/-- C71: whatever a thread loads while it holds the lock is the value stored last, by whichever thread. -/
theorem reads_last {s s' : St n} (h : (sys real n).Reach s) {t : Fin n} {x i : Nat}
    (hs : (sys real n).step s (.read t x i) = some s') : (s.mem.msg (.usr x) i).val = s.mem.last (.usr x) := by
  simp only [sys, step] at hs
  split at hs
  · next hc =>
    have := ((inv_reach h).held t hc.1).2 x
    have : i = s.mem.top (.usr x) := Nat.le_antisymm hc.2.2 (Nat.le_trans this hc.2.1)
    rw [Mem.last, this]
  · cases hs

/-! ## Both fences are needed -/

/-- A run after which the second thread, holding the lock, loads the initial value of a word the first one has stored to. -/
def stale (fc : Fences) (as : List (Act 2)) : Bool :=
  match (sys fc 2).run (initSt 2) as with
  | some s => decide (s.pc 1 = .cs ∧ (s.th 1).may s.mem (.usr 0) 0 ∧ s.mem.last (.usr 0) = 5)
  | none => false

theorem no_fence_lock : stale { real with lock := false }
    [.call 0, .fas 0, .write 0 0 5, .unlock 0, .call 1, .fas 1] = true := by decide +kernel

theorem no_fence_unlock : stale { real with unlock := false }
    [.call 0, .fas 0, .write 0 0 5, .unlock 0, .call 1, .fas 1] = true := by decide +kernel

/-- With them the second thread waits, although it loads a stale value of the lock word, and then loads 5. -/
example : ((sys real 2).run (initSt 2) [.call 0, .fas 0, .write 0 0 5, .call 1, .fas 1, .spin 1 2, .backoff 1, .unlock 0,
      .casFail 1 2, .spin 1 3, .casOk 1, .read 1 0 1]).map (fun s => (s.pc 0, s.pc 1, s.mem.last (.usr 0))) = some (.idle, .cs, 5) ∧
    stale real [.call 0, .fas 0, .write 0 0 5, .unlock 0, .call 1, .fas 1] = false := by decide +kernel

end Verif.Weak.Fas
