import Verif.Weak.Fas

/-!
# Ticket spinlock on relaxed memory (C72), `include/spinlock/ticket.h` lines 187-285

The variant with two words (lines 187-285), of `w` bits each.  Any number of threads, data words (`usr x`) that are only accessed
while holding the lock.  Loads return any value the memory model allows.  `fc` tells which fences exist; all of them
do in the code.
-/

namespace Verif.Weak.Ticket

open Verif
open Verif.Weak.Fas (opt last_rmw last_store)

inductive Loc
  | next
  | position
  | usr (x : Nat)
deriving DecidableEq

/-- Lines 237, 266 and line 275. -/
structure Fences where
  lock : Bool
  unlock : Bool

def real : Fences := { lock := true, unlock := true }

inductive PC
  | idle
  /-- line 234 or 250, with `request` -/
  | wait (q : Nat)
  /-- holds the lock -/
  | cs (q : Nat)
deriving DecidableEq

structure St (n : Nat) where
  mem : Mem Loc Nat
  th : Fin n → Th Loc
  pc : Fin n → PC

inductive Act (n : Nat)
  | lock (t : Fin n)
  | look (t : Fin n) (i : Nat)
  | read (t : Fin n) (x i : Nat)
  | write (t : Fin n) (x v : Nat)
  | unlock (t : Fin n) (i : Nat)

/-- Lines 199-208. -/
def initSt (n : Nat) : St n := { mem := Mem.init fun _ => 0, th := fun _ => Th.init, pc := fun _ => .idle }

/-- Lines 221-285; `w` is the number of bits of `unsigned int`. -/
def step {n : Nat} (w : Nat) (fc : Fences) (s : St n) : Act n → Option (St n)
  -- lines 227, 247
  | .lock t =>
    if s.pc t = .idle then
      some { mem := s.mem.rmw (s.th t) .next ((s.mem.last .next + 1) % 2 ^ w), th := upd s.th t ((s.th t).rmw s.mem .next)
             pc := upd s.pc t (.wait (s.mem.last .next)) }
    else none
  -- lines 234-237, 250-266, loading value `i` of `position`
  | .look t i => match s.pc t with
    | .wait q =>
      if (s.th t).may s.mem .position i then
        if (s.mem.msg .position i).val = q then
          some { s with
            th := upd s.th t (opt fc.lock Th.fenceAcq ((s.th t).load s.mem .position i)), pc := upd s.pc t (.cs q) }
        else some { s with th := upd s.th t ((s.th t).load s.mem .position i) }
      else none
    | _ => none
  -- the client loads value `i` of its data
  | .read t x i => match s.pc t with
    | .cs _ =>
      if (s.th t).may s.mem (.usr x) i then some { s with th := upd s.th t ((s.th t).load s.mem (.usr x) i) } else none
    | _ => none
  | .write t x v => match s.pc t with
    | .cs _ => some { s with mem := s.mem.store (s.th t) (.usr x) v, th := upd s.th t ((s.th t).store s.mem (.usr x)) }
    | _ => none
  -- lines 275-283, loading value `i` of `position`
  | .unlock t i => match s.pc t with
    | .cs _ =>
      if (s.th t).may s.mem .position i then
        some { mem := s.mem.store (opt fc.unlock Th.fenceRel (s.th t)) .position (((s.mem.msg .position i).val + 1) % 2 ^ w)
               th := upd s.th t (((opt fc.unlock Th.fenceRel (s.th t)).load s.mem .position i).store s.mem .position)
               pc := upd s.pc t .idle }
      else none
    | _ => none

def sys (w : Nat) (fc : Fences) (n : Nat) : Sys (St n) (Act n) := { init := (· = initSt n), step := step w fc }

/-! ## Invariant -/

/-- The ticket of a thread. -/
def tk : PC → Option Nat
  | .idle => none
  | .wait q => some q
  | .cs q => some q

/-- Holds the lock. -/
def PC.held : PC → Bool
  | .cs _ => true
  | _ => false

structure Inv {n : Nat} (w : Nat) (s : St n) : Prop where
  valN : s.mem.last .next = s.mem.top .next % 2 ^ w
  valP : ∀ i, i ≤ s.mem.top .position → (s.mem.msg .position i).val = i % 2 ^ w
  le : s.mem.top .position ≤ s.mem.top .next
  dist : ∀ t u q, tk (s.pc t) = some q → tk (s.pc u) = some q → t = u
  rng : ∀ t q, tk (s.pc t) = some q → s.mem.top .position ≤ q ∧ q < s.mem.top .next
  free : (∀ t, (s.pc t).held = false) → ∀ x, s.mem.top (.usr x) ≤ (s.mem.msg .position (s.mem.top .position)).view (.usr x)
  held : ∀ t q, s.pc t = .cs q → q = s.mem.top .position ∧ s.mem.top .position ≤ (s.th t).cur .position ∧
    ∀ x, s.mem.top (.usr x) ≤ (s.th t).cur (.usr x)

variable {n w : Nat}

theorem Inv.excl {s : St n} (hi : Inv w s) {t u : Fin n} (ht : (s.pc t).held = true) (hu : (s.pc u).held = true) : t = u := by
  cases hp : s.pc t <;> rw [hp] at ht <;> try (cases ht; done)
  cases hq : s.pc u <;> rw [hq] at hu <;> try (cases hu; done)
  next a b =>
  have h1 := (hi.held t a hp).1
  have h2 := (hi.held u b hq).1
  exact hi.dist t u a (by rw [hp]; rfl) (by rw [hq, h1, ← h2]; rfl)

theorem inv_step {s s' : St n} {a : Act n} (hi : Inv w s) (hb : s'.mem.top .next ≤ 2 ^ w)
    (hs : step w real s a = some s') : Inv w s' := by
  cases a with
  | lock t =>
    simp only [step] at hs
    split at hs
    · next hc =>
      cases hs
      simp only [Mem.rmw_top, if_true] at hb
      have hv : s.mem.last .next = s.mem.top .next := by rw [hi.valN, Nat.mod_eq_of_lt (by omega)]
      have hle := hi.le
      have hpc : ∀ u q, tk (upd s.pc t (PC.wait (s.mem.last .next)) u) = some q →
          (u = t ∧ q = s.mem.top .next) ∨ (u ≠ t ∧ tk (s.pc u) = some q) := by
        intro u q h
        by_cases hu : u = t
        · subst hu
          rw [upd_same] at h
          simp only [tk, Option.some.injEq] at h
          exact .inl ⟨rfl, by omega⟩
        · rw [upd_ne _ _ hu] at h
          exact .inr ⟨hu, h⟩
      constructor
      case valN => simp only; rw [last_rmw, hi.valN]; simp [Mem.rmw_top]
      case valP => intro i h; simp only; rw [Mem.rmw_ne _ (by simp)]; exact hi.valP i h
      case le => simp only [Mem.rmw_top, if_true]; rw [if_neg (by simp)]; omega
      case dist =>
        intro u v q hu hv'
        rcases hpc u q hu with ⟨h1, h2⟩ | ⟨h1, h2⟩ <;> rcases hpc v q hv' with ⟨h3, h4⟩ | ⟨h3, h4⟩
        · rw [h1, h3]
        · have := hi.rng v q h4; omega
        · have := hi.rng u q h2; omega
        · exact hi.dist u v q h2 h4
      case rng =>
        intro u q hu
        simp only [Mem.rmw_top, if_true]
        rw [if_neg (by simp)]
        rcases hpc u q hu with ⟨h1, h2⟩ | ⟨h1, h2⟩
        · omega
        · have := hi.rng u q h2; omega
      case free =>
        intro h x
        simp only [Mem.rmw_top]
        rw [if_neg (by simp), if_neg (by simp), Mem.rmw_ne _ (by simp)]
        refine hi.free (fun u => ?_) x
        have := h u
        by_cases hu : u = t
        · subst hu; rw [hc]; rfl
        · simp only at this
          rwa [upd_ne _ _ hu] at this
      case held =>
        intro u q hu
        simp only at hu
        have hne : u ≠ t := by rintro rfl; rw [upd_same] at hu; cases hu
        rw [upd_ne _ _ hne] at hu
        obtain ⟨h1, h2, h3⟩ := hi.held u q hu
        simp only [Mem.rmw_top]
        rw [if_neg (by simp), upd_ne _ _ hne]
        refine ⟨h1, h2, fun x => ?_⟩
        rw [if_neg (by simp)]
        exact h3 x
    · cases hs
  | look t i =>
    simp only [step] at hs
    cases hp : s.pc t <;> simp only [hp] at hs <;> try (cases hs; done)
    next q =>
    have hq := hi.rng t q (by rw [hp]; rfl)
    split at hs
    · next hm =>
      obtain ⟨hm1, hm2⟩ := hm
      split at hs
      · next hv =>
        cases hs
        rw [hi.valP i hm2, Nat.mod_eq_of_lt (by simp only at hb; omega)] at hv
        subst hv
        have hiq : i = s.mem.top .position := by omega
        have htk : ∀ u, tk (upd s.pc t (PC.cs i) u) = tk (s.pc u) := by
          intro u
          by_cases hu : u = t
          · subst hu; rw [upd_same, hp]; rfl
          · rw [upd_ne _ _ hu]
        have hnh : ∀ u, (s.pc u).held = false := by
          intro u
          cases hu : s.pc u <;> try rfl
          next r =>
          have := (hi.held u r hu).1
          have := hi.dist t u i (by rw [hp]; rfl) (by rw [hu]; simp only [tk]; rw [this, hiq])
          subst this
          rw [hp] at hu
          cases hu
        refine { hi with
          dist := fun u v q hu hv => hi.dist u v q (by rw [← htk]; exact hu) (by rw [← htk]; exact hv)
          rng := fun u q hu => hi.rng u q (by rw [← htk]; exact hu)
          free := fun h => absurd (h t) (by simp [PC.held])
          held := fun u q hu => ?_ }
        simp only at hu
        by_cases hut : u = t
        · subst hut
          rw [upd_same] at hu
          obtain rfl : i = q := by simpa using hu
          simp only [upd_same, opt, real, if_true, Th.fenceAcq, Th.fenceLoad]
          refine ⟨hiq, Nat.le_trans (by rw [← hiq]; exact Th.load_at _ _ _ _) (le_join_left _ _ _), fun x => ?_⟩
          refine Nat.le_trans (hi.free hnh x) (Nat.le_trans ?_ (le_join_right _ _ _))
          rw [← hiq]
          exact Th.load_view_le _ _ _ _ _
        · rw [upd_ne _ _ hut] at hu
          have := hnh u
          rw [hu] at this
          cases this
      · cases hs
        refine { hi with held := fun u r hu => ?_ }
        have hne : u ≠ t := by rintro rfl; rw [hp] at hu; cases hu
        simp only
        rw [upd_ne _ _ hne]
        exact hi.held u r hu
    · cases hs
  | read t x i =>
    simp only [step] at hs
    cases hp : s.pc t <;> simp only [hp] at hs <;> try (cases hs; done)
    split at hs
    · cases hs
      refine { hi with held := fun u r hu => ?_ }
      obtain ⟨h1, h2, h3⟩ := hi.held u r hu
      by_cases hut : u = t
      · subst hut
        simp only [upd_same]
        exact ⟨h1, Nat.le_trans h2 (Th.load_cur_le _ _ _ _ _), fun y => Nat.le_trans (h3 y) (Th.load_cur_le _ _ _ _ _)⟩
      · simp only
        rw [upd_ne _ _ hut]
        exact ⟨h1, h2, h3⟩
    · cases hs
  | write t x v =>
    simp only [step] at hs
    cases hp : s.pc t <;> simp only [hp] at hs <;> try (cases hs; done)
    next q =>
    cases hs
    constructor
    case valN => simp only [Mem.last, Mem.store_top]; rw [if_neg (by simp), Mem.store_ne _ (by simp)]; exact hi.valN
    case valP => intro i h; simp only; rw [Mem.store_ne _ (by simp)]; exact hi.valP i h
    case le => exact hi.le
    case dist => exact hi.dist
    case rng => exact hi.rng
    case free => intro h; have := h t; simp only [hp] at this; cases this
    case held =>
      intro u r hu
      obtain rfl := hi.excl (t := u) (u := t) (by simp only at hu; rw [hu]; rfl) (by rw [hp]; rfl)
      obtain ⟨h1, h2, h3⟩ := hi.held u r hu
      simp only [upd_same, Th.store, Mem.store_top]
      rw [if_neg (by simp), upd_ne _ _ (by simp)]
      refine ⟨h1, h2, fun y => ?_⟩
      rw [upd_apply]
      split
      · exact Nat.le_refl _
      · exact h3 y
  | unlock t i =>
    simp only [step] at hs
    cases hp : s.pc t <;> simp only [hp] at hs <;> try (cases hs; done)
    next q =>
    split at hs
    · next hm =>
      cases hs
      obtain ⟨hm1, hm2⟩ := hm
      obtain ⟨h1, h2, h3⟩ := hi.held t q hp
      have hrng := hi.rng t q (by rw [hp]; rfl)
      have hit : i = s.mem.top .position := by omega
      have hpc : ∀ u q, tk (upd s.pc t PC.idle u) = some q → u ≠ t ∧ tk (s.pc u) = some q := by
        intro u q h
        by_cases hu : u = t
        · subst hu; rw [upd_same] at h; cases h
        · rw [upd_ne _ _ hu] at h; exact ⟨hu, h⟩
      simp only [opt, real, if_true]
      constructor
      case valN => simp only [Mem.last, Mem.store_top]; rw [if_neg (by simp), Mem.store_ne _ (by simp)]; exact hi.valN
      case valP =>
        intro j h
        simp only [Mem.store_top, if_true] at h
        by_cases hj : j ≤ s.mem.top .position
        · simp only; rw [Mem.store_old hj]; exact hi.valP j hj
        · obtain rfl : j = s.mem.top .position + 1 := by omega
          simp only
          rw [Mem.store_at _ _ rfl, hi.valP i hm2, hit]
          simp
      case le => simp only [Mem.store_top, if_true]; rw [if_neg (by simp)]; omega
      case dist => intro u v r hu hv; exact hi.dist u v r (hpc u r hu).2 (hpc v r hv).2
      case rng =>
        intro u r hu
        obtain ⟨hne, hu'⟩ := hpc u r hu
        have := hi.rng u r hu'
        simp only [Mem.store_top, if_true]
        rw [if_neg (by simp)]
        have : r ≠ q := by rintro rfl; exact hne (hi.dist u t r hu' (by rw [hp]; rfl))
        omega
      case free =>
        intro _ x
        simp only [Mem.store_top, if_true]
        rw [if_neg (by simp), Mem.store_at _ _ rfl]
        simp only [Th.fenceRel]
        rw [upd_ne _ _ (by simp)]
        exact Nat.le_trans (h3 x) (le_join_right _ _ _)
      case held =>
        intro u r hu
        simp only at hu
        have hne : u ≠ t := by rintro rfl; rw [upd_same] at hu; cases hu
        rw [upd_ne _ _ hne] at hu
        exact absurd (hi.excl (by rw [hu]; rfl) (by rw [hp]; rfl)) hne
    · cases hs

theorem top_mono {fc : Fences} {s s' : St n} {a : Act n} (hs : step w fc s a = some s') :
    s.mem.top .next ≤ s'.mem.top .next := by
  cases a <;> simp only [step] at hs <;> (repeat' split at hs) <;> cases hs <;>
    simp [Mem.rmw_top, Mem.store_top]

theorem inv_reach {s : St n} (h : (sys w real n).Reach s) : s.mem.top .next ≤ 2 ^ w → Inv w s := by
  refine h.invariant (I := fun s => s.mem.top .next ≤ 2 ^ w → Inv w s) ?_
    (fun _ _ _ hi hs hb => inv_step (hi (Nat.le_trans (top_mono hs) hb)) hb hs)
  rintro s rfl _
  refine ⟨by simp [initSt, Mem.init, Mem.last], ?_, Nat.le_refl _, ?_, ?_, ?_, ?_⟩
  · intro i hi; obtain rfl : i = 0 := Nat.le_zero.1 hi; simp [initSt, Mem.init]
  · intro t _ _ h; cases h
  · intro t _ h; cases h
  · intro _ x; exact Nat.zero_le _
  · intro t _ h; cases h

/-! ## Properties -/

/-- C71: at most one thread holds the lock, as long as no more than `2 ^ w` locks were requested. -/
theorem mutual_exclusion_partial {s : St n} (h : (sys w real n).Reach s) (hb : s.mem.top .next ≤ 2 ^ w) {t u : Fin n}
    {a b : Nat} (ht : s.pc t = .cs a) (hu : s.pc u = .cs b) : t = u :=
  (inv_reach h hb).excl (by rw [ht]; rfl) (by rw [hu]; rfl)

/-- C71: whatever a thread loads while it holds the lock is the value stored last, by whichever thread. -/
theorem reads_last_partial {s s' : St n} (h : (sys w real n).Reach s) (hb : s.mem.top .next ≤ 2 ^ w) {t : Fin n} {x i : Nat}
    (hs : (sys w real n).step s (.read t x i) = some s') : (s.mem.msg (.usr x) i).val = s.mem.last (.usr x) := by
  simp only [sys, step] at hs
  cases hp : s.pc t <;> simp only [hp] at hs <;> try (cases hs; done)
  next q =>
  split at hs
  · next hm =>
    have := ((inv_reach h hb).held t q hp).2.2 x
    have : i = s.mem.top (.usr x) := Nat.le_antisymm hm.2 (Nat.le_trans this hm.1)
    rw [Mem.last, this]
  · cases hs

/-- What counts as a request. -/
theorem top_next {fc : Fences} {s s' : St n} {a : Act n} (hs : (sys w fc n).step s a = some s') :
    s'.mem.top .next = s.mem.top .next + match a with | .lock _ => 1 | _ => 0 := by
  cases a <;> simp only [sys, step] at hs <;> (repeat' split at hs) <;> cases hs <;>
    simp [Mem.rmw_top, Mem.store_top]

/-! ## Both fences, and the bound, are needed -/

/-- A run after which the second thread, holding the lock, loads the initial value of a word the first one has stored to. -/
def stale (fc : Fences) (as : List (Act 2)) : Bool :=
  match (sys 32 fc 2).run (initSt 2) as with
  | some s => decide (s.pc 1 = .cs 1 ∧ (s.th 1).may s.mem (.usr 0) 0 ∧ s.mem.last (.usr 0) = 5)
  | none => false

theorem no_fence_lock : stale { real with lock := false }
    [.lock 0, .look 0 0, .write 0 0 5, .unlock 0 0, .lock 1, .look 1 1] = true := by decide +kernel

theorem no_fence_unlock : stale { real with unlock := false }
    [.lock 0, .look 0 0, .write 0 0 5, .unlock 0 0, .lock 1, .look 1 1] = true := by decide +kernel

/-- Views never point beyond the newest value. -/
def Wf (s : St n) : Prop := s.mem.Wf ∧ ∀ t, (s.th t).Wf s.mem

theorem wf_step {s s' : St n} {a : Act n} (h : Wf s) (hs : step w real s a = some s') : Wf s' := by
  obtain ⟨hm, ht⟩ := h
  have one : ∀ (m' : Mem Loc Nat) (t : Fin n) (q : Th Loc), (∀ y, s.mem.top y ≤ m'.top y) → q.Wf m' →
      ∀ u, (upd s.th t q u).Wf m' := by
    intro m' t q h1 h2 u
    by_cases hu : u = t
    · subst hu; rw [upd_same]; exact h2
    · rw [upd_ne _ _ hu]; exact (ht u).mono h1
  cases a <;> simp only [step, opt, real, if_true] at hs
  case lock t =>
    split at hs <;> cases hs
    exact ⟨hm.rmw (ht t) _ _, one _ _ _ (Mem.rmw_top_le _ _ _ _) ((ht t).rmw hm _ _)⟩
  case look t i =>
    split at hs <;> (try cases hs)
    split at hs <;> (try cases hs)
    next hc =>
    split at hs <;> cases hs
    · exact ⟨hm, one _ _ _ (fun _ => Nat.le_refl _) ((ht t).load hm hc.2).fenceAcq⟩
    · exact ⟨hm, one _ _ _ (fun _ => Nat.le_refl _) ((ht t).load hm hc.2)⟩
  case read t x i =>
    split at hs <;> (try cases hs)
    split at hs <;> cases hs
    next hc => exact ⟨hm, one _ _ _ (fun _ => Nat.le_refl _) ((ht t).load hm hc.2)⟩
  case write t x v =>
    split at hs <;> cases hs
    exact ⟨hm.store (ht t) _ _, one _ _ _ (Mem.store_top_le _ _ _ _) ((ht t).store _ _)⟩
  case unlock t i =>
    split at hs <;> (try cases hs)
    split at hs <;> cases hs
    next hc =>
      exact ⟨hm.store (ht t).fenceRel _ _, one _ _ _ (Mem.store_top_le _ _ _ _) (((ht t).fenceRel.load hm hc.2).store _ _)⟩

theorem wf_reach {s : St n} (h : (sys w real n).Reach s) : Wf s := by
  refine h.invariant (I := Wf) ?_ (fun _ _ _ hi hs => wf_step hi hs)
  rintro s rfl
  exact ⟨Mem.Wf.init _, fun _ => Th.Wf.init _⟩

/-- After `k` critical sections of the first thread, when the second one has not done anything. -/
structure Round (w k : Nat) (s : St 2) : Prop where
  topN : s.mem.top .next = k
  topP : s.mem.top .position = k
  valN : s.mem.last .next = k % 2 ^ w
  valP : (s.mem.msg .position k).val = k % 2 ^ w
  val0 : (s.mem.msg .position 0).val = 0
  idle : ∀ t, s.pc t = .idle
  cur1 : (s.th 1).cur .position = 0

theorem fin2 (t : Fin 2) : t = 0 ∨ t = 1 := by
  rcases t with ⟨t, ht⟩
  have : t = 0 ∨ t = 1 := by omega
  rcases this with rfl | rfl
  · exact .inl rfl
  · exact .inr rfl

/-- The first thread takes the lock. -/
theorem round_take {k : Nat} {s : St 2} (hr : (sys w real 2).Reach s) (h : Round w k s) :
    ∃ s2, (sys w real 2).Reach s2 ∧ s2.mem = s.mem.rmw (s.th 0) .next ((s.mem.last .next + 1) % 2 ^ w) ∧
      s2.th 1 = s.th 1 ∧ s2.pc 0 = .cs (k % 2 ^ w) ∧ s2.pc 1 = .idle := by
  obtain ⟨s1, h1⟩ : ∃ s1, s1 = ({ mem := s.mem.rmw (s.th 0) .next ((s.mem.last .next + 1) % 2 ^ w)
                                  th := upd s.th 0 ((s.th 0).rmw s.mem .next)
                                  pc := upd s.pc 0 (.wait (s.mem.last .next)) } : St 2) := ⟨_, rfl⟩
  have r1 : (sys w real 2).Reach s1 := .step (a := .lock 0) hr (by simp only [sys, step, h.idle 0, if_true, h1])
  have e1 : s1.pc 0 = .wait (k % 2 ^ w) := by rw [h1]; simp only [upd_same, h.valN]
  have t1 : s1.mem.top .position = k := by rw [h1]; simp only [Mem.rmw_top]; rw [if_neg (by simp)]; exact h.topP
  have c1 : (s1.th 0).cur .position ≤ k := by
    have := ((wf_reach r1).2 0 .position).1
    omega
  have v1 : (s1.mem.msg .position k).val = k % 2 ^ w := by
    rw [h1]; simp only; rw [Mem.rmw_ne _ (by simp)]; exact h.valP
  refine ⟨{ s1 with th := upd s1.th 0 (((s1.th 0).load s1.mem .position k).fenceAcq)
                    pc := upd s1.pc 0 (.cs (k % 2 ^ w)) }, .step (a := .look 0 k) r1 ?_, ?_, ?_, ?_, ?_⟩
  · simp only [sys, step, e1]
    rw [if_pos ⟨c1, Nat.le_of_eq t1.symm⟩, if_pos v1]
    rfl
  · rw [h1]
  · simp only
    rw [upd_ne _ _ (by simp), h1]
    simp only
    rw [upd_ne _ _ (by simp)]
  · simp only [upd_same]
  · simp only
    rw [upd_ne _ _ (by simp), h1]
    simp only
    rw [upd_ne _ _ (by simp)]
    exact h.idle 1

theorem round_reach (w k : Nat) : ∃ s, (sys w real 2).Reach s ∧ Round w k s := by
  induction k with
  | zero =>
    exact ⟨initSt 2, .init rfl, ⟨rfl, rfl, by simp [initSt, Mem.init, Mem.last], by simp [initSt, Mem.init], rfl,
      fun _ => rfl, rfl⟩⟩
  | succ k ih =>
    obtain ⟨s, hr, h⟩ := ih
    obtain ⟨s2, r2, m2, t2, p0, p1⟩ := round_take hr h
    have top2 : s2.mem.top .position = k := by rw [m2, Mem.rmw_top, if_neg (by simp)]; exact h.topP
    have hc : (s2.th 0).cur .position ≤ k := by
      have := ((wf_reach r2).2 0 .position).1
      omega
    have v2 : ∀ i, s2.mem.msg .position i = s.mem.msg .position i := fun i => by rw [m2, Mem.rmw_ne _ (by simp)]
    refine ⟨{ mem := s2.mem.store (s2.th 0).fenceRel .position (((s2.mem.msg .position k).val + 1) % 2 ^ w)
              th := upd s2.th 0 (((s2.th 0).fenceRel.load s2.mem .position k).store s2.mem .position)
              pc := upd s2.pc 0 .idle }, .step (a := .unlock 0 k) r2 ?_, ?_⟩
    · simp only [sys, step, p0]
      rw [if_pos ⟨hc, Nat.le_of_eq top2.symm⟩]
      rfl
    · constructor
      case topN => simp only [Mem.store_top]; rw [if_neg (by simp), m2, Mem.rmw_top, if_pos rfl, h.topN]
      case topP => simp only [Mem.store_top, if_true, top2]
      case valN =>
        simp only [Mem.last, Mem.store_top]
        rw [if_neg (by simp), Mem.store_ne _ (by simp)]
        have := last_rmw s.mem (s.th 0) .next ((s.mem.last .next + 1) % 2 ^ w)
        rw [← m2, Mem.last] at this
        rw [this, h.valN]
        simp
      case valP =>
        simp only
        rw [Mem.store_at _ _ (by rw [top2]), v2, h.valP]
        simp
      case val0 =>
        simp only
        rw [Mem.store_old (Nat.zero_le _), v2, h.val0]
      case idle =>
        intro t
        rcases fin2 t with rfl | rfl
        · simp only [upd_same]
        · simp only; rw [upd_ne _ _ (by simp)]; exact p1
      case cur1 =>
        simp only
        rw [upd_ne _ _ (by simp), t2]
        exact h.cur1

/-- The bound is needed, for any width: a thread that has not looked at `position` since the start takes the old value for its
turn, while another thread holds the lock. -/
theorem wrap_breaks_exclusion (w : Nat) : ∃ s, (sys w real 2).Reach s ∧ s.mem.top .next = 2 ^ w + 1 ∧
    s.pc 0 = .cs (2 ^ w - 1) ∧ s.pc 1 = .cs 0 := by
  have h0 : 0 < 2 ^ w := Nat.pow_pos (by omega)
  obtain ⟨s, hr, h⟩ := round_reach w (2 ^ w - 1)
  obtain ⟨s2, r2, m2, t2, p0, p1⟩ := round_take hr h
  have hl : s2.mem.last .next = 0 := by
    rw [m2, last_rmw, h.valN]
    simp [Nat.sub_add_cancel h0]
  have htop : s2.mem.top .next = 2 ^ w := by rw [m2, Mem.rmw_top, if_pos rfl, h.topN]; omega
  obtain ⟨s3, h3⟩ : ∃ s3, s3 = ({ mem := s2.mem.rmw (s2.th 1) .next ((s2.mem.last .next + 1) % 2 ^ w)
                                  th := upd s2.th 1 ((s2.th 1).rmw s2.mem .next)
                                  pc := upd s2.pc 1 (.wait (s2.mem.last .next)) } : St 2) := ⟨_, rfl⟩
  have r3 : (sys w real 2).Reach s3 := .step (a := .lock 1) r2 (by simp only [sys, step, p1, if_true, h3])
  have e3 : s3.pc 1 = .wait 0 := by rw [h3]; simp only [upd_same, hl]
  have c3 : (s3.th 1).cur .position = 0 := by
    rw [h3]
    simp only [upd_same, Th.rmw, Th.store]
    rw [upd_ne _ _ (by simp), t2]
    simp only [Th.load, join_apply]
    rw [upd_ne _ _ (by simp), h.cur1]
    rfl
  have v3 : (s3.mem.msg .position 0).val = 0 := by
    rw [h3]; simp only; rw [Mem.rmw_ne _ (by simp), m2, Mem.rmw_ne _ (by simp)]; exact h.val0
  refine ⟨{ s3 with th := upd s3.th 1 (((s3.th 1).load s3.mem .position 0).fenceAcq)
                    pc := upd s3.pc 1 (.cs 0) }, .step (a := .look 1 0) r3 ?_, ?_, ?_, ?_⟩
  · simp only [sys, step, e3]
    rw [if_pos ⟨Nat.le_of_eq c3, Nat.zero_le _⟩, if_pos v3]
    rfl
  · rw [h3]
    simp only [Mem.rmw_top, if_true, htop]
  · simp only
    rw [upd_ne _ _ (by simp), h3]
    simp only
    rw [upd_ne _ _ (by simp), p0, Nat.mod_eq_of_lt (by omega)]
  · simp only [upd_same]

/-- With them the second thread waits, although it loads a stale value of `position`, and then loads 5. -/
example : ((sys 32 real 2).run (initSt 2) [.lock 0, .look 0 0, .lock 1, .write 0 0 5, .look 1 0, .unlock 0 0, .look 1 0,
      .look 1 1, .read 1 0 1]).map (fun s => (s.pc 0, s.pc 1, s.mem.last (.usr 0), s.mem.top .next)) =
      some (.idle, .cs 1, 5, 2) ∧
    stale real [.lock 0, .look 0 0, .write 0 0 5, .unlock 0 0, .lock 1, .look 1 1] = false := by decide +kernel

end Verif.Weak.Ticket
