import Verif.Weak.Put
import Verif.Core.Count

/-!
# Decrement spinlock on relaxed memory (C71), `include/spinlock/dec.h`

Any number of threads, one lock, data words (`usr x`) that are only accessed while holding the lock.  Loads return any value the memory model allows.  `W` is the number of values of an
`unsigned int`; the lock word wraps.  `fc` tells which fences exist; all of them do in the code.
-/

namespace Verif.Weak.Dec

open Verif
open Fas (opt)

inductive Loc
  | lock
  | usr (x : Nat)
deriving DecidableEq

/-- `lock`: lines 65, 99, 118; `unlock`: line 126. -/
structure Fences where
  lock : Bool
  unlock : Bool

def real : Fences := { lock := true, unlock := true }

inductive PC
  | idle
  /-- about to decrement, line 90 or 110 -/
  | attempt
  /-- line 95 or 114 -/
  | spin
  /-- holds the lock -/
  | cs
deriving DecidableEq

structure Q where
  th : Th Loc
  pc : PC

structure St (n : Nat) where
  mem : Mem Loc Nat
  q : Fin n → Q

inductive Act (n : Nat)
  | call (t : Fin n)
  | dec (t : Fin n)
  | spin (t : Fin n) (i : Nat)
  | trylock (t : Fin n)
  | read (t : Fin n) (x i : Nat)
  | write (t : Fin n) (x v : Nat)
  | unlock (t : Fin n)

/-- `ck_spinlock_dec_init`, lines 50-57. -/
def initSt (n : Nat) : St n := { mem := Mem.init fun l => if l = .lock then 1 else 0, q := fun _ => { th := Th.init, pc := .idle } }

/-- The result of an atomic operation that stores `v`. -/
def St.rmw {n : Nat} (s : St n) (t : Fin n) (v : Nat) (f : Bool) (pc : PC) : St n :=
  { mem := s.mem.rmw (s.q t).th .lock v, q := upd s.q t { th := opt f Th.fenceAcq ((s.q t).th.rmw s.mem .lock), pc := pc } }

/-- dec.h lines 59-67, 79-134. -/
def step {n : Nat} (W : Nat) (fc : Fences) (s : St n) : Act n → Option (St n)
  | .call t => if (s.q t).pc = .idle then some { s with q := upd s.q t { s.q t with pc := .attempt } } else none
  -- `ck_pr_dec_uint_zero`, lines 90-92, 99, 110-112, 118
  | .dec t =>
    if (s.q t).pc = .attempt then
      let v := (s.mem.last .lock + W - 1) % W
      if v = 0 then some (s.rmw t v fc.lock .cs) else some (s.rmw t v false .spin)
    else none
  -- lines 95, 114
  | .spin t i =>
    if (s.q t).pc = .spin ∧ (s.q t).th.may s.mem .lock i then
      some { s with
        q := upd s.q t { th := (s.q t).th.load s.mem .lock i, pc := if (s.mem.msg .lock i).val = 1 then .attempt else .spin } }
    else none
  -- `ck_spinlock_dec_trylock`, lines 59-67
  | .trylock t =>
    if (s.q t).pc = .idle then
      if s.mem.last .lock = 1 then some (s.rmw t 0 fc.lock .cs) else some (s.rmw t 0 fc.lock .idle)
    else none
  -- the client loads value `i` of its data
  | .read t x i =>
    if (s.q t).pc = .cs ∧ (s.q t).th.may s.mem (.usr x) i then
      some { s with q := upd s.q t { s.q t with th := (s.q t).th.load s.mem (.usr x) i } }
    else none
  | .write t x v =>
    if (s.q t).pc = .cs then
      some { mem := s.mem.store (s.q t).th (.usr x) v, q := upd s.q t { s.q t with th := (s.q t).th.store s.mem (.usr x) } }
    else none
  -- `ck_spinlock_dec_unlock`, lines 122-134
  | .unlock t =>
    if (s.q t).pc = .cs then
      let th := opt fc.unlock Th.fenceRel (s.q t).th
      some { mem := s.mem.store th .lock 1, q := upd s.q t { th := th.store s.mem .lock, pc := .idle } }
    else none

def sys (W : Nat) (fc : Fences) (n : Nat) : Sys (St n) (Act n) := { init := (· = initSt n), step := step W fc }

/-! ## Invariant -/

/-- Waits, and has decremented since number `i0` of the lock word. -/
def since (i0 : Nat) (q : Q) : Bool := decide (q.pc = .spin ∧ i0 ≤ q.th.cur .lock)

/-- The lock was taken by the operation that stored value `i0` of the lock word; `d` decrements since. -/
def Taken {n : Nat} (W : Nat) (s : St n) : Prop :=
  ∃ i0 d, i0 ≤ s.mem.top .lock ∧ d ≤ cnt (since i0) s.q ∧ s.mem.last .lock = (W - d) % W ∧
    ∀ i, i0 ≤ i → i ≤ s.mem.top .lock → (s.mem.msg .lock i).val ≠ 1

structure Inv {n : Nat} (W : Nat) (s : St n) : Prop where
  excl : ∀ t u, (s.q t).pc = .cs → (s.q u).pc = .cs → t = u
  free : (∀ t, (s.q t).pc ≠ .cs) → s.mem.last .lock = 1 ∧ ∀ x, s.mem.top (.usr x) ≤ (s.mem.msg .lock (s.mem.top .lock)).view (.usr x)
  held : ∀ t, (s.q t).pc = .cs → Taken W s ∧ ∀ x, s.mem.top (.usr x) ≤ (s.q t).th.cur (.usr x)

variable {n W : Nat}

theorem Taken.ne_one {s : St n} (h : Taken W s) : s.mem.last .lock ≠ 1 := by
  obtain ⟨i0, d, h1, _, _, h4⟩ := h
  exact h4 _ h1 (Nat.le_refl _)

/-- Nobody holds the lock exactly if the lock word is 1. -/
theorem Inv.none {s : St n} (h : Inv W s) (h0 : s.mem.last .lock = 1) (t : Fin n) : (s.q t).pc ≠ .cs := fun ht =>
  (h.held t ht).1.ne_one h0

theorem Inv.some {s : St n} (h : Inv W s) (h0 : s.mem.last .lock ≠ 1) : ∃ t, (s.q t).pc = .cs :=
  Classical.byContradiction fun hn => h0 (h.free fun t ht => hn ⟨t, ht⟩).1

/-- The lock word gets a new value and nobody else is concerned. -/
theorem rmw_pc {s : St n} {t u : Fin n} {v : Nat} {f : Bool} {pc : PC} : ((s.rmw t v f pc).q u).pc = if u = t then pc else (s.q u).pc := by
  simp only [St.rmw, upd_apply]; split <;> rfl

theorem rmw_cur {s : St n} {t u : Fin n} {v : Nat} {f : Bool} {pc : PC} (x : Nat) :
    (s.q u).th.cur (.usr x) ≤ ((s.rmw t v f pc).q u).th.cur (.usr x) := by
  simp only [St.rmw, upd_apply]
  split
  · next e =>
    subst e
    refine Nat.le_trans (Th.rmw_cur_le _ s.mem .lock (by simp)) ?_
    cases f
    · exact Nat.le_refl _
    · exact le_join_left _ _ _
  · exact Nat.le_refl _

theorem inv_got {s : St n} {t : Fin n} (hW : n < W) (hi : Inv W s) (h0 : s.mem.last .lock = 1) : Inv W (s.rmw t 0 true .cs) := by
  have hn := hi.none h0
  have hv := (hi.free hn).2
  have hp : Put s.mem (s.rmw t 0 true .cs).mem .lock 0 _ := Put.rmw s.mem (s.q t).th .lock 0
  have hc : ∀ u, ((s.rmw t 0 true .cs).q u).pc = .cs → u = t := by
    intro u hu
    rw [rmw_pc] at hu
    split at hu
    · assumption
    · exact absurd hu (hn u)
  refine ⟨fun u v hu hv => (hc u hu).trans (hc v hv).symm, fun h => absurd (by rw [rmw_pc, if_pos rfl]) (h t), fun u hu => ?_⟩
  obtain rfl := hc u hu
  refine ⟨⟨s.mem.top .lock + 1, 0, ?_, Nat.zero_le _, ?_, fun i h1 h2 => ?_⟩, fun x => ?_⟩
  · rw [hp.top, if_pos rfl]
  · rw [hp.last, if_pos rfl]; simp
  · rw [hp.top, if_pos rfl] at h2
    have : i = s.mem.top .lock + 1 := by omega
    rw [this, hp.new]; simp
  · rw [hp.top_ne (by simp)]
    simp only [St.rmw, upd_same, opt, if_true, Th.fenceAcq, Th.fenceLoad, Th.rmw, Th.store]
    exact Nat.le_trans (Nat.le_trans (hv x) (Th.load_view_le _ _ _ _ _)) (le_join_right _ _ _)

/-- An atomic operation of another thread while the lock is held. -/
theorem inv_lose {s : St n} {t : Fin n} {v : Nat} {f : Bool} {pc : PC} (hi : Inv W s) (h0 : s.mem.last .lock ≠ 1) (hpc : (s.q t).pc ≠ .cs) (hpc' : pc ≠ .cs)
    (hT : Taken W (s.rmw t v f pc)) : Inv W (s.rmw t v f pc) := by
  have hp : Put s.mem (s.rmw t v f pc).mem .lock v _ := Put.rmw s.mem (s.q t).th .lock v
  have hc : ∀ u, ((s.rmw t v f pc).q u).pc = .cs ↔ (s.q u).pc = .cs := by
    intro u
    rw [rmw_pc]
    split
    · next e => subst e; exact ⟨fun h => absurd h hpc', fun h => absurd h hpc⟩
    · exact Iff.rfl
  refine ⟨fun u w hu hw => hi.excl u w ((hc u).1 hu) ((hc w).1 hw), fun h => ?_, fun u hu => ⟨hT, fun x => ?_⟩⟩
  · obtain ⟨u, hu⟩ := hi.some h0
    exact absurd ((hc u).2 hu) (h u)
  · rw [hp.top_ne (by simp)]
    exact Nat.le_trans ((hi.held u ((hc u).1 hu)).2 x) (rmw_cur x)

/-- Steps that do not touch the lock word. -/
theorem Taken.keep {s s' : St n} {t : Fin n} (h : Taken W s) (h1 : s'.mem.top .lock = s.mem.top .lock) (h2 : ∀ i, s'.mem.msg .lock i = s.mem.msg .lock i)
    (h3 : ∀ u, u ≠ t → s'.q u = s.q u) (h4 : ∀ i0, (∀ i, i0 ≤ i → i ≤ s.mem.top .lock → (s.mem.msg .lock i).val ≠ 1) → since i0 (s.q t) = true → since i0 (s'.q t) = true) :
    Taken W s' := by
  obtain ⟨i0, d, a1, a2, a3, a4⟩ := h
  refine ⟨i0, d, by omega, Nat.le_trans a2 ?_, by simp only [Mem.last, h1, h2]; exact a3, fun i b1 b2 => by rw [h2]; exact a4 i b1 (by omega)⟩
  have : cnt (since i0) s.q ≤ cnt (since i0) (upd s.q t (s'.q t)) := by
    have := cnt_upd (since i0) s.q t (s'.q t)
    have h5 := h4 i0 a4
    cases hb : since i0 (s.q t)
    · rw [hb] at this; simp at this; omega
    · rw [hb, h5 hb] at this; simp at this; omega
  have e : upd s.q t (s'.q t) = s'.q := by
    funext u
    rw [upd_apply]; split
    · next e => rw [e]
    · next e => exact (h3 u e).symm
  rwa [e] at this

theorem inv_step (hW : n < W) {s s' : St n} {a : Act n} (hi : Inv W s) (hs : step W real s a = some s') : Inv W s' := by
  -- steps that change neither memory nor who holds the lock
  have keepM : ∀ (t : Fin n) (q : Q), (q.pc = .cs ↔ (s.q t).pc = .cs) → (∀ l, (s.q t).th.cur l ≤ q.th.cur l) →
      ((s.q t).pc = .spin → q.pc = .spin ∨ ∃ i, (s.q t).th.cur .lock ≤ i ∧ i ≤ s.mem.top .lock ∧ (s.mem.msg .lock i).val = 1) →
      Inv W { s with q := upd s.q t q } := by
    intro t q hp hc hd
    have hp' : ∀ u, (upd s.q t q u).pc = .cs ↔ (s.q u).pc = .cs := by
      intro u
      rw [upd_apply]; split
      · next e => rw [e]; exact hp
      · exact Iff.rfl
    refine ⟨fun t u ht hu => hi.excl t u ((hp' t).1 ht) ((hp' u).1 hu), fun h => hi.free fun t ht => h t ((hp' t).2 ht), fun u hu => ?_⟩
    obtain ⟨h1, h2⟩ := hi.held u ((hp' u).1 hu)
    refine ⟨h1.keep (t := t) rfl (fun _ => rfl) (fun v hv => upd_ne _ _ hv) ?_, fun x => Nat.le_trans (h2 x) ?_⟩
    · intro i0 h3 h4
      simp only [since, decide_eq_true_eq] at h4 ⊢
      simp only [upd_same]
      rcases hd h4.1 with h5 | ⟨i, h5, h6, h7⟩
      · exact ⟨h5, Nat.le_trans h4.2 (hc _)⟩
      · exact absurd h7 (h3 i (by omega) h6)
    · show (s.q u).th.cur _ ≤ (upd s.q t q u).th.cur _
      rw [upd_apply]; split
      · next e => rw [e]; exact hc _
      · exact Nat.le_refl _
  cases a with
  | call t =>
    simp only [step] at hs
    split at hs
    · next hc => cases hs; exact keepM t _ (by simp [hc]) (fun _ => Nat.le_refl _) (by simp [hc])
    · cases hs
  | dec t =>
    simp only [step] at hs
    split at hs
    · next hc =>
      have hp := fun v => Put.rmw s.mem (s.q t).th .lock v
      by_cases h0 : s.mem.last .lock = 1
      · rw [if_pos (by rw [h0, Nat.add_sub_cancel_left, Nat.mod_self])] at hs
        cases hs
        rw [h0, Nat.add_sub_cancel_left, Nat.mod_self]
        exact inv_got hW hi h0
      · obtain ⟨u, hu⟩ := hi.some h0
        obtain ⟨i0, d, a1, a2, a3, a4⟩ := (hi.held u hu).1
        have ht : u ≠ t := by rintro rfl; rw [hc] at hu; cases hu
        generalize hv : (s.mem.last .lock + W - 1) % W = v at hs
        -- the new count
        have hcnt : d + 1 ≤ cnt (since i0) (s.rmw t v false .spin).q := by
          have := cnt_upd (since i0) s.q t { th := (s.q t).th.rmw s.mem .lock, pc := .spin }
          have e1 : since i0 (s.q t) = false := by simp [since, hc]
          have e2 : since i0 { th := (s.q t).th.rmw s.mem .lock, pc := .spin } = true := by
            simp only [since, Th.rmw, Th.store, upd_same, decide_eq_true_eq, true_and]; omega
          rw [e1, e2] at this
          simp at this
          show d + 1 ≤ cnt (since i0) (upd s.q t { th := (s.q t).th.rmw s.mem .lock, pc := .spin })
          omega
        have hlt : cnt (since i0) (s.rmw t v false .spin).q < n := by
          refine cnt_lt_of (t := u) ?_
          have : ((s.rmw t v false .spin).q u).pc = .cs := by rw [rmw_pc, if_neg ht]; exact hu
          simp [since, this]
        have hv' : v = W - (d + 1) := by
          subst hv
          rw [a3]
          by_cases hd : d = 0
          · subst hd
            rw [Nat.sub_zero, Nat.mod_self, Nat.zero_add]
            exact Nat.mod_eq_of_lt (by omega)
          · rw [Nat.mod_eq_of_lt (a := W - d) (by omega)]
            rw [show W - d + W - 1 = W - (d + 1) + W by omega, Nat.add_mod_right]
            exact Nat.mod_eq_of_lt (by omega)
        rw [if_neg (by omega)] at hs
        cases hs
        refine inv_lose hi h0 (by rw [hc]; simp) (by simp) ⟨i0, d + 1, ?_, hcnt, ?_, fun i h1 h2 => ?_⟩
        · show i0 ≤ (s.mem.rmw _ _ _).top _
          rw [(hp v).top, if_pos rfl]; omega
        · show (s.mem.rmw _ _ _).last _ = _
          rw [(hp v).last, if_pos rfl, Nat.mod_eq_of_lt (by omega)]; exact hv'
        · replace h2 : i ≤ (s.mem.rmw _ _ _).top _ := h2
          show ((s.mem.rmw _ _ _).msg _ _).val ≠ 1
          rw [(hp v).top, if_pos rfl] at h2
          by_cases e : i = s.mem.top .lock + 1
          · rw [e, (hp v).new]; show v ≠ 1; omega
          · rw [(hp v).old _ _ (by omega)]; exact a4 i h1 (by omega)
    · cases hs
  | spin t i =>
    simp only [step] at hs
    split at hs
    · next hc =>
      cases hs
      refine keepM t _ (by rw [hc.1]; simp only; split <;> simp) (fun _ => Th.load_cur_le _ _ _ _ _) (fun _ => ?_)
      by_cases e : (s.mem.msg .lock i).val = 1
      · exact .inr ⟨i, hc.2.1, hc.2.2, e⟩
      · left; simp [e]
    · cases hs
  | trylock t =>
    simp only [step] at hs
    split at hs
    · next hc =>
      split at hs
      · next h0 => cases hs; exact inv_got hW hi h0
      · next h0 =>
        cases hs
        obtain ⟨u, hu⟩ := hi.some h0
        obtain ⟨i0, d, a1, a2, a3, a4⟩ := (hi.held u hu).1
        have hp := Put.rmw s.mem (s.q t).th .lock 0
        refine inv_lose hi h0 (by rw [hc]; simp) (by simp) ⟨i0, 0, ?_, Nat.zero_le _, ?_, fun i h1 h2 => ?_⟩
        · show i0 ≤ (s.mem.rmw _ _ _).top _
          rw [hp.top, if_pos rfl]; omega
        · show (s.mem.rmw _ _ _).last _ = _
          rw [hp.last, if_pos rfl]; simp
        · replace h2 : i ≤ (s.mem.rmw _ _ _).top _ := h2
          show ((s.mem.rmw _ _ _).msg _ _).val ≠ 1
          rw [hp.top, if_pos rfl] at h2
          by_cases e : i = s.mem.top .lock + 1
          · rw [e, hp.new]; simp
          · rw [hp.old _ _ (by omega)]; exact a4 i h1 (by omega)
    · cases hs
  | read t x i =>
    simp only [step] at hs
    split at hs
    · next hc => cases hs; exact keepM t _ Iff.rfl (fun _ => Th.load_cur_le _ _ _ _ _) (fun h => .inl h)
    · cases hs
  | write t x v =>
    simp only [step] at hs
    split at hs
    · next hc =>
      cases hs
      have hp := Put.store s.mem (s.q t).th (.usr x) v
      have hpc : ∀ u, (upd s.q t { s.q t with th := (s.q t).th.store s.mem (.usr x) } u).pc = (s.q u).pc := by
        intro u; rw [upd_apply]; split
        · next e => rw [e]
        · rfl
      refine ⟨fun u w hu hw => hi.excl u w (by rw [← hpc]; exact hu) (by rw [← hpc]; exact hw), fun h => absurd (by rw [hpc]; exact hc) (h t), fun u hu => ?_⟩
      obtain rfl := hi.excl t u hc (by rw [← hpc]; exact hu)
      obtain ⟨h1, h2⟩ := hi.held t hc
      refine ⟨h1.keep (t := t) (hp.top_ne (by simp)) (fun i => Mem.store_ne i (by simp)) (fun w hw => upd_ne _ _ hw) ?_, fun y => ?_⟩
      · intro i0 _ h4
        simp [since, hc] at h4
      · simp only [upd_same, Th.store, Mem.store_top, upd_apply]
        split
        · exact Nat.le_refl _
        · exact h2 y
    · cases hs
  | unlock t =>
    simp only [step] at hs
    split at hs
    · next hc =>
      cases hs
      simp only [opt, real, if_true]
      have hp := Put.store s.mem (s.q t).th.fenceRel .lock 1
      have hn : ∀ u, (upd s.q t { th := (s.q t).th.fenceRel.store s.mem .lock, pc := .idle } u).pc ≠ .cs := by
        intro u hu
        by_cases hut : u = t
        · subst hut; rw [upd_same] at hu; cases hu
        · rw [upd_ne _ _ hut] at hu; exact hut (hi.excl u t hu hc)
      refine ⟨fun u _ hu _ => absurd hu (hn u), fun _ => ⟨?_, fun x => ?_⟩, fun u hu => absurd hu (hn u)⟩
      · show (s.mem.store _ _ _).last _ = _
        rw [hp.last, if_pos rfl]
      · show (s.mem.store _ _ _).top _ ≤ ((s.mem.store _ _ _).msg _ _).view _
        rw [hp.msg_at, hp.top_ne (by simp)]
        show s.mem.top (.usr x) ≤ (upd (s.q t).th.fenceRel.rel .lock (s.mem.top .lock + 1)) (.usr x)
        rw [upd_ne _ _ (by simp)]
        exact Nat.le_trans ((hi.held t hc).2 x) (le_join_right _ _ _)
    · cases hs

theorem inv_reach (hW : n < W) {s : St n} (h : (sys W real n).Reach s) : Inv W s := by
  refine h.invariant (I := Inv W) ?_ (fun _ _ _ hi hs => inv_step hW hi hs)
  rintro s rfl
  exact ⟨(fun t _ h _ => nomatch h), (fun _ => ⟨rfl, fun _ => Nat.zero_le _⟩), (fun t h => nomatch h)⟩

/-! ## Properties -/

/-- C71: at most one thread holds the lock, with less threads than values of the lock word. -/
theorem mutual_exclusion (hW : n < W) {s : St n} (h : (sys W real n).Reach s) {t u : Fin n} (ht : (s.q t).pc = .cs) (hu : (s.q u).pc = .cs) :
    t = u := (inv_reach hW h).excl t u ht hu

/-- C71: whatever a thread loads while it holds the lock is the value stored last, by whichever thread. -/
theorem reads_last (hW : n < W) {s s' : St n} (h : (sys W real n).Reach s) {t : Fin n} {x i : Nat}
    (hs : (sys W real n).step s (.read t x i) = some s') : (s.mem.msg (.usr x) i).val = s.mem.last (.usr x) := by
  simp only [sys, step] at hs
  split at hs
  · next hc =>
    have := ((inv_reach hW h).held t hc.1).2 x
    have : i = s.mem.top (.usr x) := Nat.le_antisymm hc.2.2 (Nat.le_trans this hc.2.1)
    rw [Mem.last, this]
  · cases hs

/-- C71: the lock word is 1 exactly if nobody holds the lock. -/
theorem free_iff (hW : n < W) {s : St n} (h : (sys W real n).Reach s) : s.mem.last .lock = 1 ↔ ∀ t, (s.q t).pc ≠ .cs :=
  ⟨(inv_reach hW h).none, fun hn => ((inv_reach hW h).free hn).1⟩

/-! ## The fences and the bound are needed -/

/-- A run after which the second thread, holding the lock, loads the initial value of a word the first one has stored to. -/
def stale (fc : Fences) (as : List (Act 2)) : Bool :=
  match (sys (2 ^ 32) fc 2).run (initSt 2) as with
  | some s => decide ((s.q 1).pc = .cs ∧ (s.q 1).th.may s.mem (.usr 0) 0 ∧ s.mem.last (.usr 0) = 5)
  | none => false

theorem no_fence_lock : stale { real with lock := false }
    [.call 0, .dec 0, .write 0 0 5, .unlock 0, .call 1, .dec 1] = true := by decide +kernel

theorem no_fence_unlock : stale { real with unlock := false }
    [.call 0, .dec 0, .write 0 0 5, .unlock 0, .call 1, .dec 1] = true := by decide +kernel

/-- With as many threads as values of the lock word, two threads hold the lock. -/
theorem wraps : ((sys 2 real 2).run (initSt 2) [.call 0, .dec 0, .call 1, .dec 1, .spin 1 2, .dec 1]).map
    (fun s => ((s.q 0).pc, (s.q 1).pc)) = some (.cs, .cs) := by decide +kernel

/-- Two threads wait, one of them sees the lock free although it is taken again, and decrements once more. -/
example : ((sys (2 ^ 32) real 3).run (initSt 3) [.call 0, .dec 0, .write 0 0 5, .call 1, .dec 1, .call 2, .dec 2, .unlock 0, .trylock 0, .spin 1 4, .dec 1,
      .spin 2 6]).map (fun s => ((s.q 0).pc, (s.q 1).pc, (s.q 2).pc, s.mem.last .lock)) = some (.cs, .spin, .spin, 2 ^ 32 - 1) ∧
    stale real [.call 0, .dec 0, .write 0 0 5, .unlock 0, .call 1, .dec 1] = false := by decide +kernel

/-- With all values of a 32-bit word and two threads, the bound holds and the second thread loads what the first has stored. -/
example : ((sys (2 ^ 32) real 2).run (initSt 2) [.call 0, .dec 0, .write 0 0 5, .call 1, .dec 1, .unlock 0, .spin 1 3, .dec 1, .read 1 0 1]).map
    (fun s => ((s.q 0).pc, (s.q 1).pc, s.mem.last (.usr 0))) = some (.idle, .cs, 5) := by decide +kernel

end Verif.Weak.Dec
