import Verif.Weak.Mcs
import Verif.Weak.Put

/-!
# MCS queue lock on relaxed memory: exclusion, order, and what the holder loads (C80)

The invariant of `Verif.Spin.Mcs` holds of the newest values; where a stale value is loaded, the step does not break it.
-/

namespace Verif.Weak.Mcs

open Verif
open Verif.Spin.Mcs (PC)
open Fas (opt)

variable {n : Nat}

/-! ## The newest values -/

def dec : Nat → Option Nat
  | 0 => none
  | x + 1 => some x

theorem dec_eq_none {k : Nat} : dec k = none ↔ k = 0 := by cases k <;> simp [dec]

theorem dec_eq_some {k x : Nat} : dec k = some x ↔ k = x + 1 := by cases k <;> simp [dec]

def abs (s : St n) : Spin.Mcs.St Nat n :=
  { queue := dec (s.mem.last .tail), locked := fun x => decide (s.mem.last (.locked x) ≠ 0), next := fun x => dec (s.mem.last (.next x))
    node := s.node, pc := s.pc, q := s.q, nd := s.nd }

theorem last_store (m : Mem Loc Nat) (t : Th Loc) (l y : Loc) (v : Nat) : (m.store t l v).last y = if y = l then v else m.last y := by
  split
  · next h => subst h; exact Fas.last_store m t y v
  · next h => simp only [Mem.last, Mem.store_top, if_neg h]; rw [Mem.store_ne _ h]

theorem last_rmw (m : Mem Loc Nat) (t : Th Loc) (l y : Loc) (v : Nat) : (m.rmw t l v).last y = if y = l then v else m.last y := by
  split
  · next h => subst h; exact Fas.last_rmw m t y v
  · next h => simp only [Mem.last, Mem.rmw_top, if_neg h]; rw [Mem.rmw_ne _ h]

theorem dec_ite (c : Prop) [Decidable c] (a b : Nat) : dec (if c then a else b) = if c then dec a else dec b := by split <;> rfl

/-- A thread goes on without touching memory. -/
theorem goto {c : Spin.Mcs.St Nat n} (hi : Spin.Mcs.Inv c) {t : Fin n} {p : PC Nat} (hp : p = .uTail ∨ p = .uCas ∨ p = .idle)
    (ha : p.act = (c.pc t).act) (hh : p.held = (c.pc t).held) : Spin.Mcs.Inv { c with pc := upd c.pc t p } := by
  obtain ⟨hq, h1, h2, h3, h4, h5, h6, h7, h8, h9, h10, h11, h12, h13, h14, h15⟩ := hi
  have ea := comp_upd_same PC.act c.pc t p ha
  have eh := comp_upd_same PC.held c.pc t p hh
  have ea' := fun u => congrFun ea u
  have hpr : p.prep = false := by rcases hp with rfl | rfl | rfl <;> rfl
  constructor
  · simp only [ea, eh]
    exact hq
  · exact h1
  · exact h2
  · clear * - h3 ea'
    grind
  · clear * - h4 hpr
    grind
  · clear * - h5 hpr
    grind
  · clear * - h6 hp
    grind
  · clear * - h7 hp
    grind
  · exact h8
  · exact h9
  · exact h10
  · clear * - h11 hp
    grind
  · clear * - h12 hp
    grind
  · clear * - h13 hp
    grind
  · clear * - h14 hp
    grind
  · clear * - h15 hp
    grind

/-! ## Views -/

/-- has set `locked` and is not inside yet -/
def lkd : PC Nat → Bool
  | .setNext _ | .tryCas | .swap | .link _ | .spin => true
  | _ => false

/-- has cleared `next` -/
def nxd : PC Nat → Bool
  | .tryCas | .swap | .link _ | .spin | .inside | .uNext | .uTail | .uCas | .uWait | .uGrant _ => true
  | _ => false

/-- unlocking -/
def unl : PC Nat → Bool
  | .uNext | .uTail | .uCas | .uWait | .uGrant _ => true
  | _ => false

structure VInv (s : St n) : Prop where
  /-- only the newest `locked` may be false -/
  lk : ∀ t, lkd (s.pc t) = true → ∀ i, (s.th t).cur (.locked (s.node t)) ≤ i → i < s.mem.top (.locked (s.node t)) →
    (s.mem.msg (.locked (s.node t)) i).val ≠ 0
  nx : ∀ t, nxd (s.pc t) = true → ∀ i, (s.th t).cur (.next (s.node t)) ≤ i → i < s.mem.top (.next (s.node t)) →
    (s.mem.msg (.next (s.node t)) i).val = 0
  tl : ∀ t, (s.pc t).act = true → ∃ k, k ≤ (s.th t).cur .tail ∧ k ≤ s.mem.top .tail ∧ (s.mem.msg .tail k).val = s.node t + 1 ∧
    ∀ j, k < j → j ≤ s.mem.top .tail → (s.mem.msg .tail j).val ≠ s.node t + 1
  uh : ∀ t, (s.pc t).held = true → ∀ x, s.mem.top (.usr x) ≤ (s.th t).cur (.usr x)
  ur : ∀ t, unl (s.pc t) = true → ∀ x, s.mem.top (.usr x) ≤ (s.th t).rel (.usr x)
  fe : s.q.rel = s.q.arr.length → ∀ x, s.mem.top (.usr x) ≤ (s.mem.msg .tail (s.mem.top .tail)).view (.usr x)
  fg : ∀ t, s.pc t = .spin → s.q.tk t = s.q.rel → ∀ x,
    s.mem.top (.usr x) ≤ (s.mem.msg (.locked (s.node t)) (s.mem.top (.locked (s.node t)))).view (.usr x)

/-- Steps that do not change memory. -/
theorem VInv.grow {s s' : St n} (hv : VInv s) (hm : s'.mem = s.mem) (hc : ∀ t x, (s.th t).cur x ≤ (s'.th t).cur x)
    (hr : ∀ t x, (s.th t).rel x ≤ (s'.th t).rel x)
    (h1 : ∀ t, lkd (s'.pc t) = true → lkd (s.pc t) = true ∧ s'.node t = s.node t)
    (h2 : ∀ t, nxd (s'.pc t) = true → nxd (s.pc t) = true ∧ s'.node t = s.node t)
    (h3 : ∀ t, (s'.pc t).act = true → (s.pc t).act = true ∧ s'.node t = s.node t)
    (h4 : ∀ t, (s'.pc t).held = true → (s.pc t).held = true ∨ ∀ x, s.mem.top (.usr x) ≤ (s'.th t).cur (.usr x))
    (h5 : ∀ t, unl (s'.pc t) = true → unl (s.pc t) = true ∨ ∀ x, s.mem.top (.usr x) ≤ (s'.th t).rel (.usr x))
    (h6 : s'.q.rel = s'.q.arr.length → s.q.rel = s.q.arr.length)
    (h7 : ∀ t, s'.pc t = .spin → s'.q.tk t = s'.q.rel → s.pc t = .spin ∧ s.q.tk t = s.q.rel ∧ s'.node t = s.node t) : VInv s' where
  lk t h i := by
    rw [hm, (h1 t h).2]
    exact fun hi => hv.lk t (h1 t h).1 i (Nat.le_trans (hc t _) hi)
  nx t h i := by
    rw [hm, (h2 t h).2]
    exact fun hi => hv.nx t (h2 t h).1 i (Nat.le_trans (hc t _) hi)
  tl t h := by
    rw [hm, (h3 t h).2]
    obtain ⟨k, hk, h'⟩ := hv.tl t (h3 t h).1
    exact ⟨k, Nat.le_trans hk (hc t _), h'⟩
  uh t h x := by
    rw [hm]
    rcases h4 t h with h' | h'
    · exact Nat.le_trans (hv.uh t h' x) (hc t _)
    · exact h' x
  ur t h x := by
    rw [hm]
    rcases h5 t h with h' | h'
    · exact Nat.le_trans (hv.ur t h' x) (hr t _)
    · exact h' x
  fe h x := by rw [hm]; exact hv.fe (h6 h) x
  fg t h h' x := by
    have := h7 t h h'
    rw [hm, this.2.2]
    exact hv.fg t this.1 this.2.1 x

/-- Stores other than to data. -/
theorem VInv.put {s : St n} (hv : VInv s) {m' : Mem Loc Nat} {l : Loc} {v : Nat} {w : View Loc} (hm : Put s.mem m' l v w) {t : Fin n}
    {q : Th Loc} {p : PC Nat} {Q' : Q n} {nd' : Nat → Nat} (hl : ∀ x, l ≠ .usr x)
    (hc : ∀ y, y ≠ l → (s.th t).cur y ≤ q.cur y)
    (hcl : s.mem.top l + 1 ≤ q.cur l) (hr : ∀ y, (s.th t).rel y ≤ q.rel y)
    (o1 : ∀ u, u ≠ t → lkd (s.pc u) = true → l = .locked (s.node u) → s.mem.last l ≠ 0)
    (o2 : ∀ u, u ≠ t → nxd (s.pc u) = true → l = .next (s.node u) → s.mem.last l = 0)
    (o3 : ∀ u, u ≠ t → (s.pc u).act = true → l = .tail → v ≠ s.node u + 1)
    (t1 : lkd p = true → l = .locked (s.node t) ∨ lkd (s.pc t) = true)
    (t2 : nxd p = true → l = .next (s.node t) ∨ nxd (s.pc t) = true)
    (t3 : p.act = true → (l = .tail ∧ v = s.node t + 1) ∨ ((s.pc t).act = true ∧ l ≠ .tail))
    (t4 : p.held = true → ∀ x, s.mem.top (.usr x) ≤ q.cur (.usr x))
    (t5 : unl p = true → ∀ x, s.mem.top (.usr x) ≤ q.rel (.usr x))
    (f1 : Q'.rel = Q'.arr.length → (l ≠ .tail ∧ s.q.rel = s.q.arr.length) ∨ (l = .tail ∧ ∀ x, s.mem.top (.usr x) ≤ w (.usr x)))
    (f2 : ∀ u, upd s.pc t p u = .spin → Q'.tk u = Q'.rel → (s.pc u = .spin ∧ s.q.tk u = s.q.rel ∧ l ≠ .locked (s.node u)) ∨
      (l = .locked (s.node u) ∧ ∀ x, s.mem.top (.usr x) ≤ w (.usr x))) :
    VInv { mem := m', th := upd s.th t q, node := s.node, pc := upd s.pc t p, q := Q', nd := nd' } := by
  have hus : ∀ x, m'.top (.usr x) = s.mem.top (.usr x) := fun x => by rw [hm.top, if_neg (Ne.symm (hl x))]
  refine { lk := fun u h i h1 h2 => ?_, nx := fun u h i h1 h2 => ?_, tl := fun u h => ?_, uh := fun u h x => ?_, ur := fun u h x => ?_
           fe := fun h x => ?_, fg := fun u h h' x => ?_ } <;> simp only at *
  · rw [hm.top] at h2
    split at h2
    · next e =>
      by_cases hu : u = t
      · subst hu
        rw [upd_same, e] at h1
        omega
      · rw [upd_ne _ _ hu] at h h1
        rw [hm.old _ _ (by rw [e]; omega)]
        by_cases hi : i = s.mem.top l
        · subst hi; rw [e]; exact o1 u hu h e.symm
        · exact hv.lk u h i h1 (by rw [e]; omega)
    · next e =>
      rw [hm.old _ _ (by omega)]
      by_cases hu : u = t
      · subst hu
        rw [upd_same] at h h1
        rcases t1 h with h3 | h3
        · exact absurd h3.symm e
        · exact hv.lk u h3 i (Nat.le_trans (hc _ e) h1) h2
      · rw [upd_ne _ _ hu] at h h1
        exact hv.lk u h i h1 h2
  · rw [hm.top] at h2
    split at h2
    · next e =>
      by_cases hu : u = t
      · subst hu
        rw [upd_same, e] at h1
        omega
      · rw [upd_ne _ _ hu] at h h1
        rw [hm.old _ _ (by rw [e]; omega)]
        by_cases hi : i = s.mem.top l
        · subst hi; rw [e]; exact o2 u hu h e.symm
        · exact hv.nx u h i h1 (by rw [e]; omega)
    · next e =>
      rw [hm.old _ _ (by omega)]
      by_cases hu : u = t
      · subst hu
        rw [upd_same] at h h1
        rcases t2 h with h3 | h3
        · exact absurd h3.symm e
        · exact hv.nx u h3 i (Nat.le_trans (hc _ e) h1) h2
      · rw [upd_ne _ _ hu] at h h1
        exact hv.nx u h i h1 h2
  · have keepT : ∀ k, k ≤ s.mem.top .tail → (s.mem.msg .tail k).val = s.node u + 1 →
        (∀ j, k < j → j ≤ s.mem.top .tail → (s.mem.msg .tail j).val ≠ s.node u + 1) → (l = .tail → v ≠ s.node u + 1) →
        k ≤ m'.top .tail ∧ (m'.msg .tail k).val = s.node u + 1 ∧
          ∀ j, k < j → j ≤ m'.top .tail → (m'.msg .tail j).val ≠ s.node u + 1 := by
      intro k h1 h2 h3 h4
      refine ⟨by rw [hm.top]; split <;> simp_all; omega, by rw [hm.old _ _ h1]; exact h2, fun j hj hj' => ?_⟩
      by_cases ho : j ≤ s.mem.top .tail
      · rw [hm.old _ _ ho]; exact h3 j hj ho
      · rw [hm.top] at hj'
        split at hj'
        · next e =>
          have : j = s.mem.top l + 1 := by rw [e] at ho; omega
          rw [e, this, hm.new]
          exact h4 e.symm
        · omega
    by_cases hu : u = t
    · subst hu
      rw [upd_same] at h
      simp only [upd_same]
      rcases t3 h with ⟨h3, h4⟩ | ⟨h3, h4⟩
      · subst h3
        refine ⟨s.mem.top .tail + 1, hcl, by rw [hm.top, if_pos rfl], by rw [hm.new]; exact h4, fun j hj hj' => ?_⟩
        rw [hm.top, if_pos rfl] at hj'
        omega
      · obtain ⟨k, hk, k1, k2, k3⟩ := hv.tl u h3
        have := keepT k k1 k2 k3 (fun h => absurd h h4)
        exact ⟨k, Nat.le_trans hk (hc _ (Ne.symm h4)), this⟩
    · rw [upd_ne _ _ hu] at h
      rw [upd_ne _ _ hu]
      obtain ⟨k, hk, k1, k2, k3⟩ := hv.tl u h
      exact ⟨k, hk, keepT k k1 k2 k3 (o3 u hu h)⟩
  · rw [hus]
    by_cases hu : u = t
    · subst hu; rw [upd_same] at *; exact t4 h x
    · rw [upd_ne _ _ hu] at *; exact hv.uh u h x
  · rw [hus]
    by_cases hu : u = t
    · subst hu; rw [upd_same] at *; exact t5 h x
    · rw [upd_ne _ _ hu] at *; exact hv.ur u h x
  · rw [hus]
    rcases f1 h with ⟨h1, h2⟩ | ⟨h1, h2⟩
    · rw [hm.top, if_neg (Ne.symm h1), hm.old _ _ (Nat.le_refl _)]; exact hv.fe h2 x
    · subst h1
      rw [hm.top, if_pos rfl, hm.new]; exact h2 x
  · rw [hus]
    rcases f2 u h h' with ⟨h1, h2, h3⟩ | ⟨h1, h2⟩
    · rw [hm.top, if_neg (Ne.symm h3), hm.old _ _ (Nat.le_refl _)]; exact hv.fg u h1 h2 x
    · rw [hm.top, if_pos h1.symm, ← h1, hm.new]; exact h2 x

/-- Threads that use nodes use different ones. -/
theorem node_ne {c : Spin.Mcs.St Nat n} (hi : Spin.Mcs.Inv c) {t u : Fin n} (hne : u ≠ t) (ht : (c.pc t).prep = true)
    (hu : (c.pc u).prep = true ∨ (c.pc u).act = true) : c.node u ≠ c.node t := by
  intro h
  rcases hu with hu | hu
  · exact hne (hi.own2 u t hu ht h)
  · have hk := hi.q.act_tk u hu
    exact hi.own t (c.q.tk u) ht hk.1 (getElem?_lt hk.2) (by rw [← h, hi.node u hu])

theorem use_of_lkd {p : PC Nat} (h : lkd p = true) : p.prep = true ∨ p.act = true := by cases p <;> simp_all [lkd, PC.prep, PC.act]

theorem use_of_nxd {p : PC Nat} (h : nxd p = true) : p.prep = true ∨ p.act = true := by cases p <;> simp_all [nxd, PC.prep, PC.act]

structure Good (s : St n) : Prop where
  sc : Spin.Mcs.Inv (abs s)
  v : VInv s

theorem load_grow {s s' : St n} {t : Fin n} {l : Loc} {i : Nat} {f : Th Loc → Th Loc} {p : PC Nat}
    (hf : ∀ q x, q.cur x ≤ (f q).cur x ∧ q.rel x ≤ (f q).rel x) (hs : s' = load s t l i f p) :
    (∀ u x, (s.th u).cur x ≤ (s'.th u).cur x) ∧ ∀ u x, (s.th u).rel x ≤ (s'.th u).rel x := by
  subst hs
  constructor <;> intro u x <;> simp only [load] <;> by_cases hu : u = t
  · subst hu; rw [upd_same]; exact Nat.le_trans (Th.load_cur_le _ _ _ _ _) (hf _ _).1
  · rw [upd_ne _ _ hu]
  · subst hu; rw [upd_same]; exact (hf ((s.th u).load s.mem l i) x).2
  · rw [upd_ne _ _ hu]

theorem id_grow (q : Th Loc) (x : Loc) : q.cur x ≤ (id q).cur x ∧ q.rel x ≤ (id q).rel x := ⟨Nat.le_refl _, Nat.le_refl _⟩

theorem acq_grow (q : Th Loc) (x : Loc) : q.cur x ≤ (opt true Th.fenceAcq q).cur x ∧ q.rel x ≤ (opt true Th.fenceAcq q).rel x :=
  ⟨le_join_left _ _ _, Nat.le_refl _⟩

/-- Loads that do not lead into the lock. -/
theorem VInv.load {s : St n} (hv : VInv s) {t : Fin n} {l : Loc} {i : Nat} {f : Th Loc → Th Loc} {p : PC Nat}
    (hf : ∀ q x, q.cur x ≤ (f q).cur x ∧ q.rel x ≤ (f q).rel x)
    (h1 : lkd p = true → lkd (s.pc t) = true) (h2 : nxd p = true → nxd (s.pc t) = true)
    (h3 : p.act = true → (s.pc t).act = true) (h4 : p.held = true → (s.pc t).held = true) (h5 : unl p = true → unl (s.pc t) = true)
    (h7 : p = .spin → s.pc t = .spin) : VInv (Mcs.load s t l i f p) := by
  have hg := load_grow (s := s) (t := t) (l := l) (i := i) (p := p) hf rfl
  have hpc : ∀ (P : PC Nat → Prop), (P p → P (s.pc t)) → ∀ u, P (upd s.pc t p u) → P (s.pc u) := by
    intro P hP u h
    by_cases hu : u = t
    · subst hu; rw [upd_same] at h; exact hP h
    · rwa [upd_ne _ _ hu] at h
  refine hv.grow rfl hg.1 hg.2 (fun u h => ⟨?_, rfl⟩) (fun u h => ⟨?_, rfl⟩) (fun u h => ⟨?_, rfl⟩) (fun u h => .inl ?_) (fun u h => .inl ?_)
    (fun h => h) (fun u h h' => ⟨?_, h', rfl⟩)
  · exact hpc (fun p => lkd p = true) h1 u h
  · exact hpc (fun p => nxd p = true) h2 u h
  · exact hpc (fun p => p.act = true) h3 u h
  · exact hpc (fun p => p.held = true) h4 u h
  · exact hpc (fun p => unl p = true) h5 u h
  · exact hpc (fun p => p = .spin) h7 u h

theorem good_lock {s : St n} (hg : Good s) {t : Fin n} {x : Nat} {b : Bool} (hp : s.pc t = .idle) (hx : unused s x) :
    Good { s with node := upd s.node t x, pc := upd s.pc t (.setLocked b) } := by
  refine ⟨?_, ?_⟩
  · cases b
    · exact Spin.Mcs.inv_step (a := .lock t x) hg.sc (by simp only [Spin.Mcs.step]; rw [if_pos ⟨hp, hx⟩]; rfl)
    · exact Spin.Mcs.inv_step (a := .trylock t x) hg.sc (by simp only [Spin.Mcs.step]; rw [if_pos ⟨hp, hx⟩]; rfl)
  · have key : ∀ (P : PC Nat → Prop), ¬ P (.setLocked b) → ∀ u, P (upd s.pc t (.setLocked b) u) → u ≠ t ∧ P (s.pc u) := by
      intro P hP u h
      by_cases hu : u = t
      · subst hu; rw [upd_same] at h; exact absurd h hP
      · rw [upd_ne _ _ hu] at h; exact ⟨hu, h⟩
    refine hg.v.grow rfl (fun _ _ => Nat.le_refl _) (fun _ _ => Nat.le_refl _) (fun u h => ?_) (fun u h => ?_) (fun u h => ?_)
      (fun u h => .inl ?_) (fun u h => .inl ?_) (fun h => h) (fun u h h' => ?_)
    · have := key (fun p => lkd p = true) (by simp [lkd]) u h
      exact ⟨this.2, upd_ne _ _ this.1⟩
    · have := key (fun p => nxd p = true) (by simp [nxd]) u h
      exact ⟨this.2, upd_ne _ _ this.1⟩
    · have := key (fun p => p.act = true) (by simp [PC.act]) u h
      exact ⟨this.2, upd_ne _ _ this.1⟩
    · exact (key (fun p => p.held = true) (by simp [PC.held]) u h).2
    · exact (key (fun p => unl p = true) (by simp [unl]) u h).2
    · have := key (fun p => p = .spin) (by simp) u h
      exact ⟨this.2, h', upd_ne _ _ this.1⟩

theorem abs_locked (s : St n) (t : Fin n) (x v : Nat) (f : Th Loc → Th Loc) (p : PC Nat) : abs (stor s t (.locked x) v f p) =
    { abs s with locked := upd (abs s).locked x (decide (v ≠ 0)), pc := upd s.pc t p } := by
  simp only [abs, stor, last_store, reduceCtorEq, if_false]
  congr 1
  funext y
  simp only [Loc.locked.injEq, upd_apply]
  split <;> rfl

theorem abs_next (s : St n) (t : Fin n) (x v : Nat) (f : Th Loc → Th Loc) (p : PC Nat) : abs (stor s t (.next x) v f p) =
    { abs s with next := upd (abs s).next x (dec v), pc := upd s.pc t p } := by
  simp only [abs, stor, last_store, reduceCtorEq, if_false]
  congr 1
  funext y
  simp only [Loc.next.injEq, upd_apply]
  split <;> rfl

theorem abs_usr (s : St n) (t : Fin n) (x v : Nat) (f : Th Loc → Th Loc) (p : PC Nat) : abs (stor s t (.usr x) v f p) =
    { abs s with pc := upd s.pc t p } := by
  simp only [abs, stor, last_store, reduceCtorEq, if_false]

theorem abs_tail (s : St n) (t : Fin n) (v : Nat) (f : Th Loc → Th Loc) (p : PC Nat) : abs (rmw s t .tail v f p) =
    { abs s with queue := dec v, pc := upd s.pc t p } := by
  simp only [abs, rmw, last_rmw, reduceCtorEq, if_false, if_true]

theorem abs_arrive (s : St n) (t : Fin n) :
    abs (arrive s t) = { abs s with q := s.q.arrive t, nd := upd s.nd s.q.arr.length (s.node t) } := rfl

theorem abs_enter (s : St n) (t : Fin n) : abs (enter s t) = { abs s with q := s.q.enter t } := rfl

theorem abs_leave (s : St n) : abs (leave s) = { abs s with q := s.q.leave } := rfl

theorem abs_load (s : St n) (t : Fin n) (l : Loc) (i : Nat) (f : Th Loc → Th Loc) (p : PC Nat) :
    abs (load s t l i f p) = { abs s with pc := upd s.pc t p } := rfl

theorem VInv.tail_ne {s : St n} (hv : VInv s) {t : Fin n} {i : Nat} (ha : (s.pc t).act = true) (hm : (s.th t).may s.mem .tail i)
    (hne : (s.mem.msg .tail i).val ≠ s.node t + 1) : s.mem.last .tail ≠ s.node t + 1 := by
  obtain ⟨k, h1, h2, h3, h4⟩ := hv.tl t ha
  have hm1 := hm.1
  have hm2 := hm.2
  refine h4 _ ?_ (Nat.le_refl _)
  refine Nat.lt_of_le_of_ne h2 fun e => hne ?_
  rw [show i = k from by omega]
  exact h3

theorem store_cur (q : Th Loc) (m : Mem Loc Nat) (l y : Loc) (h : y ≠ l) : q.cur y ≤ (q.store m l).cur y := by
  simp only [Th.store, upd_ne _ _ h]; exact Nat.le_refl _

theorem rmw_cur (q : Th Loc) (m : Mem Loc Nat) (l y : Loc) (h : y ≠ l) : q.cur y ≤ (q.rmw m l).cur y :=
  Nat.le_trans (Th.load_cur_le _ _ _ _ _) (store_cur _ m l y h)

theorem good_setLocked {s : St n} (hg : Good s) {t : Fin n} {b : Bool} (hp : s.pc t = .setLocked b) :
    Good (stor s t (.locked (s.node t)) 1 id (.setNext b)) := by
  have hp' : (abs s).pc t = .setLocked b := hp
  refine ⟨Spin.Mcs.inv_step (a := .run t) hg.sc (by simp only [Spin.Mcs.step, hp', abs_locked]; rfl), ?_⟩
  refine hg.v.put (Put.store _ _ _ _) (by simp) (store_cur _ _ _) (by simp [Th.store]) (fun _ => Nat.le_refl _)
    (fun u hu h e => ?_) (by simp) (by simp) (fun _ => .inl rfl) (by simp [nxd]) (by simp [PC.act]) (by simp [PC.held]) (by simp [unl])
    (fun h => .inl ⟨by simp, h⟩) (fun u h h' => .inl ?_)
  · have := node_ne hg.sc hu (by rw [hp']; rfl) (use_of_lkd h)
    simp only [Loc.locked.injEq] at e
    exact absurd e.symm this
  · have hu : u ≠ t := by rintro rfl; rw [upd_same] at h; cases h
    rw [upd_ne _ _ hu] at h
    refine ⟨h, h', fun e => ?_⟩
    simp only [Loc.locked.injEq] at e
    exact node_ne hg.sc hu (by rw [hp']; rfl) (.inr (by rw [show (abs s).pc u = _ from h]; rfl)) e.symm

theorem good_setNext {s : St n} (hg : Good s) {t : Fin n} {b : Bool} (hp : s.pc t = .setNext b) :
    Good (stor s t (.next (s.node t)) 0 (opt real.st Th.fenceStore) (if b then .tryCas else .swap)) := by
  have hp' : (abs s).pc t = .setNext b := hp
  refine ⟨Spin.Mcs.inv_step (a := .run t) hg.sc (by simp only [Spin.Mcs.step, hp', abs_next]; rfl), ?_⟩
  refine hg.v.put (Put.store _ _ _ _) (by simp) (store_cur _ _ _) (by simp [opt, real, Th.fenceStore, Th.store])
    (fun _ => le_join_left _ _ _) (by simp)
    (fun u hu h e => ?_) (by simp) (fun _ => .inr (by rw [hp]; rfl)) (fun _ => .inl rfl) (by cases b <;> simp [PC.act])
    (by cases b <;> simp [PC.held]) (by cases b <;> simp [unl])
    (fun h => .inl ⟨by simp, h⟩) (fun u h h' => .inl ?_)
  · have := node_ne hg.sc hu (by rw [hp']; rfl) (use_of_nxd h)
    simp only [Loc.next.injEq] at e
    exact absurd e.symm this
  · have hu : u ≠ t := by rintro rfl; rw [upd_same] at h; cases b <;> cases h
    rw [upd_ne _ _ hu] at h
    exact ⟨h, h', by simp⟩

/-- `t` finds the queue empty. -/
theorem good_got {s : St n} (hg : Good s) {t : Fin n} (hp : s.pc t = .tryCas ∨ s.pc t = .swap) (h0 : s.mem.last .tail = 0) :
    Good (enter (arrive (rmw s t .tail (s.node t + 1) (opt real.lock Th.fenceAcq) .inside) t) t) := by
  have hsc : Spin.Mcs.Inv (abs (enter (arrive (rmw s t .tail (s.node t + 1) (opt real.lock Th.fenceAcq) .inside) t) t)) := by
    refine Spin.Mcs.inv_step (a := .run t) hg.sc ?_
    have hq : (abs s).queue = none := by simp only [abs, h0]; rfl
    rcases hp with hp | hp
    · simp only [Spin.Mcs.step, show (abs s).pc t = .tryCas from hp, hq, if_true, abs_enter, abs_arrive, abs_tail]; rfl
    · simp only [Spin.Mcs.step, show (abs s).pc t = .swap from hp, hq, abs_enter, abs_arrive, abs_tail]; rfl
  refine ⟨hsc, ?_⟩
  have hpr : (s.pc t).prep = true := by rcases hp with hp | hp <;> rw [hp] <;> rfl
  have hrel : s.q.rel = s.q.arr.length := by
    have := hg.sc.tail
    simp only [abs, h0, dec] at this
    split at this
    · next h => exact h
    · cases this
  have hfe := hg.v.fe hrel
  refine hg.v.put (Put.rmw _ _ _ _) (by simp) (fun y h => Nat.le_trans (rmw_cur _ _ _ y h) (le_join_left _ _ _)) ?_
    (fun _ => Nat.le_refl _) (by simp) (by simp) (fun u hu ha _ => ?_) (by simp [lkd])
    (fun _ => .inr (by rcases hp with hp | hp <;> rw [hp] <;> rfl)) (fun _ => .inl ⟨rfl, rfl⟩) (fun _ x => ?_) (by simp [unl])
    (fun h => ?_) (fun u h h' => ?_)
  · exact Nat.le_trans (by simp [Th.rmw, Th.store]) (le_join_left _ _ _)
  · have := node_ne hg.sc hu hpr (.inr ha)
    simp only [abs] at this
    omega
  · refine Nat.le_trans (Nat.le_trans (hfe x) ?_) (le_join_right _ _ _)
    exact Th.load_view_le _ _ _ _ _
  · simp [arrive, rmw, Q.arrive, Q.enter] at h
    omega
  · have hu : u ≠ t := by rintro rfl; rw [upd_same] at h; cases h
    rw [upd_ne _ _ hu] at h
    have := hg.sc.q.act_tk u (by rw [show (abs s).pc u = _ from h]; rfl)
    have := getElem?_lt this.2
    simp [arrive, rmw, Q.arrive, Q.enter, upd_ne _ _ hu, abs] at h' this
    omega

/-- `t` queues up behind `p`. -/
theorem good_swap {s : St n} (hg : Good s) {t : Fin n} {p : Nat} (hp : s.pc t = .swap) (h0 : s.mem.last .tail = p + 1) :
    Good (arrive (rmw s t .tail (s.node t + 1) id (.link p)) t) := by
  have hpr : (s.pc t).prep = true := by rw [hp]; rfl
  have hrel := hg.sc.q.len
  refine ⟨?_, ?_⟩
  · refine Spin.Mcs.inv_step (a := .run t) hg.sc ?_
    have hq : (abs s).queue = some p := by simp only [abs, h0]; rfl
    simp only [Spin.Mcs.step, show (abs s).pc t = .swap from hp, hq, abs_arrive, abs_tail]; rfl
  refine hg.v.put (Put.rmw _ _ _ _) (by simp) (rmw_cur _ _ _) (by simp [Th.rmw, Th.store])
    (fun _ => Nat.le_refl _) (by simp) (by simp) (fun u hu ha _ => ?_) (fun _ => .inr (by rw [hp]; rfl))
    (fun _ => .inr (by rw [hp]; rfl)) (fun _ => .inl ⟨rfl, rfl⟩) (by simp [PC.held]) (by simp [unl])
    (fun h => ?_) (fun u h h' => .inl ?_)
  · have := node_ne hg.sc hu hpr (.inr ha)
    simp only [abs] at this
    omega
  · simp [rmw, Q.arrive] at h
    simp only [abs] at hrel
    omega
  · have hu : u ≠ t := by rintro rfl; rw [upd_same] at h; cases h
    rw [upd_ne _ _ hu] at h
    simp only [rmw, Q.arrive, upd_ne _ _ hu] at h'
    exact ⟨h, h', by simp⟩

theorem good_link {s : St n} (hg : Good s) {t : Fin n} {p : Nat} (hp : s.pc t = .link p) :
    Good (stor s t (.next p) (s.node t + 1) id .spin) := by
  have hp' : (abs s).pc t = .link p := hp
  have hl := hg.sc.lnk t p hp'
  refine ⟨Spin.Mcs.inv_step (a := .run t) hg.sc (by simp only [Spin.Mcs.step, hp', abs_next]; rfl), ?_⟩
  refine hg.v.put (Put.store _ _ _ _) (by simp) (store_cur _ _ _) (by simp [Th.store]) (fun _ => Nat.le_refl _)
    (by simp) (fun u _ _ _ => dec_eq_none.1 hl.2.2) (by simp) (fun _ => .inr (by rw [hp]; rfl)) (fun _ => .inr (by rw [hp]; rfl))
    (fun _ => .inr ⟨by rw [hp]; rfl, by simp⟩) (by simp [PC.held]) (by simp [unl]) (fun h => .inl ⟨by simp, h⟩) (fun u h h' => .inl ?_)
  by_cases hu : u = t
  · subst hu
    have := hl.1
    simp only [abs] at this
    omega
  · rw [upd_ne _ _ hu] at h
    exact ⟨h, h', by simp⟩

theorem good_spin {s : St n} (hg : Good s) {t : Fin n} {i : Nat} (hp : s.pc t = .spin)
    (hm : (s.th t).may s.mem (.locked (s.node t)) i) (h0 : (s.mem.msg (.locked (s.node t)) i).val = 0) :
    Good (enter (load s t (.locked (s.node t)) i (opt real.lock Th.fenceAcq) .inside) t) := by
  have hp' : (abs s).pc t = .spin := hp
  have hi : i = s.mem.top (.locked (s.node t)) := by
    refine Decidable.byContradiction fun hne => ?_
    exact hg.v.lk t (by rw [hp]; rfl) i hm.1 (Nat.lt_of_le_of_ne hm.2 hne) h0
  have hlast : (abs s).locked ((abs s).node t) = false := by
    simp only [abs, Mem.last, ← hi, h0]; rfl
  have hrel : s.q.tk t = s.q.rel := by
    have hk := hg.sc.q.act_tk t (by rw [hp']; rfl)
    refine Decidable.byContradiction fun hne => ?_
    have := hg.sc.wait_gt (s.q.tk t) (Nat.lt_of_le_of_ne hk.1 (Ne.symm hne)) (getElem?_lt hk.2)
    have e : (abs s).nd (s.q.tk t) = (abs s).node t := (hg.sc.node t (by rw [hp']; rfl)).symm
    rw [e, hlast] at this
    cases this
  refine ⟨Spin.Mcs.inv_step (a := .run t) hg.sc ?_, ?_⟩
  · simp only [Spin.Mcs.step, hp', hlast, abs_enter, abs_load, Bool.false_eq_true, if_false]; rfl
  have hgr := load_grow (s := s) (t := t) (l := .locked (s.node t)) (i := i) (p := .inside) acq_grow rfl
  have hpc : ∀ (P : PC Nat → Prop), (P .inside → P .spin) → ∀ u, P (upd s.pc t .inside u) → P (s.pc u) := by
    intro P hP u h
    by_cases hu : u = t
    · subst hu; rw [upd_same] at h; rw [hp]; exact hP h
    · rwa [upd_ne _ _ hu] at h
  refine hg.v.grow rfl hgr.1 hgr.2 (fun u h => ⟨?_, rfl⟩) (fun u h => ⟨?_, rfl⟩) (fun u h => ⟨?_, rfl⟩) (fun u h => ?_) (fun u h => .inl ?_)
    (fun h => h) (fun u h h' => ⟨?_, h', rfl⟩)
  · exact hpc (fun p => lkd p = true) (by simp [lkd]) u h
  · exact hpc (fun p => nxd p = true) (by simp [nxd]) u h
  · exact hpc (fun p => p.act = true) (by simp [PC.act]) u h
  · by_cases hu : u = t
    · subst hu
      right
      intro x
      simp only [enter, load, upd_same]
      refine Nat.le_trans (hg.v.fg u hp hrel x) (Nat.le_trans ?_ (le_join_right _ _ _))
      rw [← hi]
      exact Th.load_view_le _ _ _ _ _
    · simp only [enter, load, upd_ne _ _ hu] at h
      exact .inl h
  · exact hpc (fun p => unl p = true) (by simp [unl]) u h
  · exact hpc (fun p => p = .spin) (by simp) u h

/-- `t` loads `next`. -/
theorem good_next {s : St n} (hg : Good s) {t : Fin n} {i x : Nat} (hp : s.pc t = .uNext ∨ s.pc t = .uWait)
    (hm : (s.th t).may s.mem (.next (s.node t)) i) (h0 : (s.mem.msg (.next (s.node t)) i).val = x + 1) :
    Good (load s t (.next (s.node t)) i id (.uGrant x)) := by
  have hi : i = s.mem.top (.next (s.node t)) := by
    refine Decidable.byContradiction fun hne => ?_
    have := hg.v.nx t (by rcases hp with hp | hp <;> rw [hp] <;> rfl) i hm.1 (Nat.lt_of_le_of_ne hm.2 hne)
    omega
  have hlast : (abs s).next ((abs s).node t) = some x := by
    simp only [abs, Mem.last, ← hi, h0]; rfl
  refine ⟨Spin.Mcs.inv_step (a := .run t) hg.sc ?_, hg.v.load id_grow (by simp [lkd]) (fun _ => ?_) (fun _ => ?_) (fun _ => ?_) (fun _ => ?_)
    (by simp)⟩
  · rcases hp with hp | hp
    · simp only [Spin.Mcs.step, show (abs s).pc t = _ from hp, hlast, abs_load]; rfl
    · simp only [Spin.Mcs.step, show (abs s).pc t = _ from hp, hlast, abs_load]; rfl
  all_goals rcases hp with hp | hp <;> rw [hp] <;> rfl

theorem good_uCas {s : St n} (hg : Good s) {t : Fin n} (hp : s.pc t = .uCas) (h0 : s.mem.last .tail = s.node t + 1) :
    Good (leave (rmw s t .tail 0 id .idle)) := by
  have hp' : (abs s).pc t = .uCas := hp
  have hq : (abs s).queue = some ((abs s).node t) := by simp only [abs, h0]; rfl
  refine ⟨Spin.Mcs.inv_step (a := .run t) hg.sc (by simp only [Spin.Mcs.step, hp', hq, abs_leave, abs_tail, if_true]; rfl), ?_⟩
  have htk := hg.sc.q.held_tk t (by rw [hp']; rfl)
  refine hg.v.put (Put.rmw _ _ _ _) (by simp) (rmw_cur _ _ _) (by simp [Th.rmw, Th.store])
    (fun _ => Nat.le_refl _) (by simp) (by simp) (by simp) (by simp [lkd]) (by simp [nxd]) (by simp [PC.act]) (by simp [PC.held]) (by simp [unl])
    (fun h => .inr ⟨rfl, fun x => ?_⟩) (fun u h h' => ?_)
  · rw [upd_ne _ _ (by simp)]
    exact Nat.le_trans (hg.v.ur t (by rw [hp]; rfl) x) (le_join_left _ _ _)
  · have hu : u ≠ t := by rintro rfl; rw [upd_same] at h; cases h
    rw [upd_ne _ _ hu] at h
    have hk := hg.sc.q.act_tk u (by rw [show (abs s).pc u = _ from h]; rfl)
    have := getElem?_lt hk.2
    have ht := hg.sc.tail
    rw [hq] at ht
    split at ht
    · cases ht
    · have h1 := hg.sc.node t (by rw [hp']; rfl)
      simp only [Option.some.injEq] at ht
      rw [h1] at ht
      have ha := hg.sc.q.act_tk t (by rw [hp']; rfl)
      have hl := getElem?_lt ha.2
      have := hg.sc.inj _ _ ha.1 hl (by omega) (by omega) ht
      have h2 : s.q.tk u = s.q.rel + 1 := h'
      simp only [abs] at *
      omega

theorem good_uGrant {s : St n} (hg : Good s) {t : Fin n} {x : Nat} (hp : s.pc t = .uGrant x) :
    Good (leave (stor s t (.locked x) 0 id .idle)) := by
  have hp' : (abs s).pc t = .uGrant x := hp
  have hgr := hg.sc.grant t x hp'
  have hur := hg.v.ur t (by rw [hp]; rfl)
  have hw := hg.sc.wait_gt ((abs s).q.rel + 1) (by omega) hgr.1
  refine ⟨Spin.Mcs.inv_step (a := .run t) hg.sc (by simp only [Spin.Mcs.step, hp', abs_leave, abs_locked]; rfl), ?_⟩
  refine hg.v.put (Put.store _ _ _ _) (by simp) (store_cur _ _ _) (by simp [Th.store])
    (fun _ => Nat.le_refl _) (fun u _ _ _ => ?_) (by simp) (by simp) (by simp [lkd]) (by simp [nxd]) (by simp [PC.act]) (by simp [PC.held])
    (by simp [unl]) (fun h => ?_) (fun u h h' => .inr ?_)
  · rw [← hgr.2.1] at hw
    simpa only [abs, decide_eq_true_eq] using hw
  · have := hgr.1
    simp only [stor, Q.leave, abs] at h this
    omega
  · have hu : u ≠ t := by rintro rfl; rw [upd_same] at h; cases h
    rw [upd_ne _ _ hu] at h
    have h1 := hg.sc.node u (by rw [show (abs s).pc u = _ from h]; rfl)
    have h2 : (abs s).q.tk u = (abs s).q.rel + 1 := h'
    rw [h2, ← hgr.2.1] at h1
    refine ⟨by rw [show s.node u = x from h1], fun y => ?_⟩
    rw [upd_ne _ _ (by simp)]
    exact hur y

theorem good_write {s : St n} (hg : Good s) {t : Fin n} {x v : Nat} (hp : s.pc t = .inside) : Good (stor s t (.usr x) v id .inside) := by
  have hpc : upd s.pc t .inside = s.pc := by rw [← hp]; exact upd_eq_self _ _
  have hh : (s.pc t).held = true := by rw [hp]; rfl
  have huniq : ∀ u, (s.pc u).held = true → u = t := fun u hu => hg.sc.q.held_unique hu hh
  have htk := hg.sc.q.held_tk t hh
  have hact := hg.sc.q.act_tk t (hg.sc.q.held_act t hh)
  have hlt := getElem?_lt hact.2
  refine ⟨by rw [abs_usr, hpc]; exact hg.sc, ?_⟩
  have hcur : ∀ u y, (∀ z, y ≠ Loc.usr z) → (upd s.th t (id ((s.th t).store s.mem (.usr x))) u).cur y = (s.th u).cur y := by
    intro u y h
    by_cases hu : u = t
    · subst hu; rw [upd_same]; simp only [id, Th.store]; rw [upd_ne _ _ (h x)]
    · rw [upd_ne _ _ hu]
  have ht : ∀ y, (∀ z, y ≠ Loc.usr z) → (s.mem.store (s.th t) (.usr x) v).top y = s.mem.top y := fun y h => by
    rw [Mem.store_top, if_neg (h x)]
  have hms : ∀ y i, (∀ z, y ≠ Loc.usr z) → (s.mem.store (s.th t) (.usr x) v).msg y i = s.mem.msg y i := fun y i h => Mem.store_ne i (h x)
  refine { lk := fun u h i => ?_, nx := fun u h i => ?_, tl := fun u h => ?_, uh := fun u h y => ?_, ur := fun u h y => ?_
           fe := fun h y => ?_, fg := fun u h h' y => ?_ } <;> simp only [stor, hpc] at *
  · rw [hcur u _ (by simp), ht _ (by simp), hms _ _ (by simp)]; exact hg.v.lk u h i
  · rw [hcur u _ (by simp), ht _ (by simp), hms _ _ (by simp)]; exact hg.v.nx u h i
  · rw [hcur u _ (by simp), ht _ (by simp)]
    simp only [hms .tail _ (by simp)]
    exact hg.v.tl u h
  · obtain rfl := huniq u h
    rw [upd_same, Mem.store_top]
    simp only [id, Th.store, upd_apply]
    split
    · exact Nat.le_refl _
    · exact hg.v.uh u h y
  · have := huniq u (by cases hq : s.pc u <;> simp_all [unl, PC.held])
    subst this
    rw [hp] at h; cases h
  · simp only [abs] at hlt htk
    omega
  · have h1 := hg.sc.q.tk_inj (t := u) (u := t) (by rw [show (abs s).pc u = _ from h]; rfl) (hg.sc.q.held_act t hh)
      (by rw [show (abs s).q.tk u = _ from h', htk]; rfl)
    subst h1
    rw [hp] at h; cases h

theorem good_step {s s' : St n} {a : Act n} (hg : Good s) (hs : step real s a = some s') : Good s' := by
  obtain ⟨hc, hv⟩ := hg
  have hg : Good s := ⟨hc, hv⟩
  cases a with
  | lock t x =>
    simp only [step] at hs
    split at hs
    · next h => cases hs; exact good_lock hg h.1 h.2
    · cases hs
  | trylock t x =>
    simp only [step] at hs
    split at hs
    · next h => cases hs; exact good_lock hg h.1 h.2
    · cases hs
  | unlock t =>
    simp only [step] at hs
    split at hs
    · next h =>
      cases hs
      refine ⟨Spin.Mcs.inv_step (a := .unlock t) hc (by simp only [Spin.Mcs.step]; rw [if_pos (show (abs s).pc t = .inside from h)]; rfl), ?_⟩
      have hpc : ∀ (P : PC Nat → Prop), (P .uNext → P .inside) → ∀ u, P (upd s.pc t .uNext u) → P (s.pc u) := by
        intro P hP u h'
        by_cases hu : u = t
        · subst hu; rw [upd_same] at h'; rw [h]; exact hP h'
        · rwa [upd_ne _ _ hu] at h'
      have hcr : ∀ u x, (s.th u).cur x ≤ (upd s.th t (opt real.unlock Th.fenceRel (s.th t)) u).cur x ∧
          (s.th u).rel x ≤ (upd s.th t (opt real.unlock Th.fenceRel (s.th t)) u).rel x := by
        intro u x
        by_cases hu : u = t
        · subst hu; rw [upd_same]; exact ⟨Nat.le_refl _, le_join_left _ _ _⟩
        · rw [upd_ne _ _ hu]; exact ⟨Nat.le_refl _, Nat.le_refl _⟩
      refine hv.grow rfl (fun u x => (hcr u x).1) (fun u x => (hcr u x).2) (fun u h => ⟨?_, rfl⟩) (fun u h => ⟨?_, rfl⟩) (fun u h => ⟨?_, rfl⟩)
        (fun u h => .inl ?_) (fun u h' => ?_) (fun h => h) (fun u h h' => ⟨?_, h', rfl⟩)
      · exact hpc (fun p => lkd p = true) (by simp [lkd]) u h
      · exact hpc (fun p => nxd p = true) (by simp [nxd]) u h
      · exact hpc (fun p => p.act = true) (by simp [PC.act]) u h
      · exact hpc (fun p => p.held = true) (by simp [PC.held]) u h
      · by_cases hu : u = t
        · subst hu
          right
          intro x
          simp only [upd_same]
          exact Nat.le_trans (hv.uh u (by rw [h]; rfl) x) (le_join_right _ _ _)
        · simp only [upd_ne _ _ hu] at h'
          exact .inl h'
      · exact hpc (fun p => p = .spin) (by simp) u h
    · cases hs
  | run t i =>
    simp only [step] at hs
    split at hs
    · next b hp => cases hs; exact good_setLocked hg hp
    · next b hp => cases hs; exact good_setNext hg hp
    · next hp =>
      split at hs
      · next h0 => cases hs; exact good_got hg (.inl hp) h0
      · cases hs
    · next hp =>
      split at hs
      · next h0 => cases hs; exact good_got hg (.inr hp) h0
      · next h0 => cases hs; exact good_swap hg hp h0
    · next p hp => cases hs; exact good_link hg hp
    · next hp =>
      split at hs
      · next hm =>
        split at hs
        · next h0 => cases hs; exact good_spin hg hp hm h0
        · cases hs
          refine ⟨?_, hv.load id_grow (by simp [hp]) (by simp [hp]) (by simp [hp]) (by simp [hp]) (by simp [hp]) (fun _ => hp)⟩
          rw [abs_load, show upd s.pc t .spin = s.pc from by rw [← hp]; exact upd_eq_self _ _]
          exact hc
      · cases hs
    · next hp =>
      split at hs
      · next hm =>
        split at hs
        · cases hs
          exact ⟨goto hc (t := t) (p := .uTail) (.inl rfl) (by rw [show (abs s).pc t = _ from hp]; rfl)
            (by rw [show (abs s).pc t = _ from hp]; rfl),
            hv.load id_grow (by simp [lkd]) (by simp [hp, nxd]) (by simp [hp, PC.act]) (by simp [hp, PC.held]) (by simp [hp, unl]) (by simp)⟩
        · next x h0 => cases hs; exact good_next hg (.inl hp) hm h0
      · cases hs
    · next hp =>
      split at hs
      · next hm =>
        cases hs
        split
        · exact ⟨goto hc (t := t) (p := .uCas) (.inr (.inl rfl)) (by rw [show (abs s).pc t = _ from hp]; rfl)
            (by rw [show (abs s).pc t = _ from hp]; rfl),
            hv.load id_grow (by simp [lkd]) (by simp [hp, nxd]) (by simp [hp, PC.act]) (by simp [hp, PC.held]) (by simp [hp, unl]) (by simp)⟩
        · next hne =>
          refine ⟨Spin.Mcs.inv_step (a := .run t) hc ?_,
            hv.load id_grow (by simp [lkd]) (by simp [hp, nxd]) (by simp [hp, PC.act]) (by simp [hp, PC.held]) (by simp [hp, unl]) (by simp)⟩
          have := hv.tail_ne (by rw [hp]; rfl) hm hne
          simp only [Spin.Mcs.step, show (abs s).pc t = _ from hp, abs_load]
          rw [if_neg (by simp only [abs, dec_eq_some]; exact this)]
          rfl
      · cases hs
    · next hp =>
      split at hs
      · next h0 => cases hs; exact good_uCas hg hp h0
      · cases hs
    · next hp =>
      split at hs
      · next hm =>
        split at hs
        · cases hs
          refine ⟨?_, hv.load id_grow (by simp [hp]) (by simp [hp]) (by simp [hp]) (by simp [hp]) (by simp [hp]) (by simp)⟩
          rw [abs_load, show upd s.pc t .uWait = s.pc from by rw [← hp]; exact upd_eq_self _ _]
          exact hc
        · next x h0 => cases hs; exact good_next hg (.inr hp) hm h0
      · cases hs
    · next x hp => cases hs; exact good_uGrant hg hp
    · cases hs
  | fail t i =>
    simp only [step] at hs
    split at hs
    · next hp =>
      split at hs
      · cases hs
        exact ⟨goto hc (t := t) (p := .idle) (.inr (.inr rfl)) (by rw [show (abs s).pc t = _ from hp]; rfl)
          (by rw [show (abs s).pc t = _ from hp]; rfl),
          hv.load acq_grow (by simp [lkd]) (by simp [nxd]) (by simp [PC.act]) (by simp [PC.held]) (by simp [unl]) (by simp)⟩
      · cases hs
    · next hp =>
      split at hs
      · next h =>
        cases hs
        refine ⟨Spin.Mcs.inv_step (a := .run t) hc ?_,
          hv.load id_grow (by simp [lkd]) (by simp [hp, nxd]) (by simp [hp, PC.act]) (by simp [hp, PC.held]) (by simp [hp, unl]) (by simp)⟩
        have := hv.tail_ne (by rw [hp]; rfl) h.1 h.2
        simp only [Spin.Mcs.step, show (abs s).pc t = _ from hp, abs_load]
        rw [if_neg (by simp only [abs, dec_eq_some]; exact this)]
        rfl
      · cases hs
    · cases hs
  | read t x i =>
    simp only [step] at hs
    split at hs
    · next h =>
      cases hs
      have hpc : upd s.pc t .inside = s.pc := by rw [← h.1]; exact upd_eq_self _ _
      refine ⟨?_, hv.load id_grow (by simp [lkd]) (by simp [h.1]) (by simp [h.1]) (by simp [h.1]) (by simp [unl]) (by simp)⟩
      have : abs (load s t (.usr x) i id .inside) = abs s := by simp only [abs, load, hpc]
      rw [this]; exact hc
    · cases hs
  | write t x v =>
    simp only [step] at hs
    split at hs
    · next h => cases hs; exact good_write hg h
    · cases hs

theorem good_reach {s : St n} (h : (sys real n).Reach s) : Good s := by
  refine h.invariant (I := Good) ?_ (fun _ _ _ hi hs => good_step hi hs)
  rintro s rfl
  refine ⟨Spin.Mcs.inv_init ⟨rfl, fun _ => rfl, rfl⟩, ?_⟩
  exact { lk := (fun _ h => nomatch h), nx := (fun _ h => nomatch h), tl := (fun _ h => nomatch h), uh := (fun _ h => nomatch h)
          ur := (fun _ h => nomatch h), fe := (fun _ _ => Nat.le_refl _), fg := (fun _ h => nomatch h) }

/-! ## Properties -/

/-- C80: at most one thread holds the lock. -/
theorem mutual_exclusion {s : St n} (h : (sys real n).Reach s) {t u : Fin n} (ht : s.holds t) (hu : s.holds u) : t = u :=
  (good_reach h).sc.q.held_unique ht hu

/-- C80: threads enter in the order in which they swapped themselves into the queue. -/
theorem fcfs {s : St n} (h : (sys real n).Reach s) : s.q.srv <+: s.q.arr := (good_reach h).sc.q.pre

/-- C80: whatever a thread loads while it holds the lock is the value stored last, by whichever thread. -/
theorem reads_last {s s' : St n} (h : (sys real n).Reach s) {t : Fin n} {x i : Nat}
    (hs : (sys real n).step s (.read t x i) = some s') : (s.mem.msg (.usr x) i).val = s.mem.last (.usr x) := by
  simp only [sys, step] at hs
  split at hs
  · next hc =>
    have := (good_reach h).v.uh t (by rw [hc.1]; rfl) x
    have : i = s.mem.top (.usr x) := Nat.le_antisymm hc.2.2 (Nat.le_trans this hc.2.1)
    rw [Mem.last, this]
  · cases hs

/-- C80, no lost hand-off: when nobody holds the lock and somebody waits, the thread that is next in the queue has been granted the
lock: the newest `locked` of its node is false, and it enters as soon as it loads that. -/
theorem handoff {s : St n} (h : (sys real n).Reach s) (hfree : ∀ u, ¬ s.holds u) {v : Fin n}
    (hv : s.pc v = .spin ∨ ∃ p, s.pc v = .link p) :
    ∃ t, s.q.arr[s.q.srv.length]? = some t ∧ s.pc t = .spin ∧ s.mem.last (.locked (s.node t)) = 0 := by
  have hi := (good_reach h).sc
  have hno : ∀ u, ((abs s).pc u).held = false := fun u => Bool.eq_false_iff.2 (hfree u)
  obtain ⟨t, h1, h2, h3⟩ := hi.q.next_in_line hno (v := v)
    (by rcases hv with hv | ⟨p, hv⟩ <;> rw [show (abs s).pc v = _ from hv] <;> rfl)
  have hwt : (abs s).waits t := (Spin.Mcs.active_iff.1 h2).resolve_left (hfree t)
  refine ⟨t, h1, ?_⟩
  rcases hwt with hp | ⟨p, hp⟩
  · refine ⟨hp, ?_⟩
    have hw := hi.wait_rel t hp h3
    rw [← h3, ← hi.node t h2] at hw
    simpa [abs] using hw
  · have := (hi.lnk t p hp).1; omega

/-! ## Fences -/

/-- A run after which the second thread, holding the lock, may load the initial value of a word the first one has stored to. -/
def stale (fc : Fences) (as : List (Act 2)) : Bool :=
  match (sys fc 2).run (initSt 2) as with
  | some s => decide (s.pc 1 = .inside ∧ (s.th 1).may s.mem (.usr 0) 0 ∧ s.mem.last (.usr 0) = 5)
  | none => false

/-- The first thread, with node 3, finds the queue empty and leaves it empty; then the second one enters. -/
def alone : List (Act 2) :=
  [.lock 0 3, .run 0 0, .run 0 0, .run 0 0, .write 0 0 5, .unlock 0, .run 0 1, .run 0 1, .run 0 0,
    .lock 1 3, .run 1 0, .run 1 0, .run 1 0]

/-- The second thread queues up behind the first one.  Before that it loads `locked` set; the first one loads `next` before and
after it was linked, and the end of the queue when it was not the end any more. -/
def behind : List (Act 2) :=
  [.lock 0 3, .run 0 0, .run 0 0, .run 0 0, .lock 1 4, .run 1 0, .run 1 0, .run 1 0, .write 0 0 5, .unlock 0, .run 0 1, .run 1 0,
    .run 1 1, .run 0 1, .fail 0 2, .run 0 1, .run 0 2, .run 0 0, .run 1 1, .run 1 2]

theorem no_fence_lock : stale { real with lock := false } alone = true ∧ stale { real with lock := false } behind = true := by
  decide +kernel

theorem no_fence_unlock : stale { real with unlock := false } alone = true ∧ stale { real with unlock := false } behind = true := by
  decide +kernel

/-- With the fences the same runs are possible, but the value 5 is loaded. -/
example : stale real alone = false ∧ stale real behind = false ∧
    ((sys real 2).run (initSt 2) (alone ++ [.read 1 0 1])).isSome = true ∧
    ((sys real 2).run (initSt 2) (behind ++ [.read 1 0 1])).isSome = true := by decide +kernel

/-- A state as in `handoff`: the lock has been passed on, and the next thread has not noticed yet. -/
example : ((sys real 2).run (initSt 2) (behind.take 19)).map (fun s => (s.pc 0, s.pc 1, s.mem.last (.locked 4))) =
    some (.idle, .spin, 0) := by decide +kernel

end Verif.Weak.Mcs
