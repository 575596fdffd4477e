import Verif.Weak.Clh

/-!
# CLH queue lock on relaxed memory: exclusion, order, and what the holder loads (C80)

The invariant of `Verif.Spin.Clh` holds of the newest values.  A waiter may load stale values of its predecessor's `wait`, but none
from before the predecessor set it.
-/

namespace Verif.Weak.Clh

open Verif
open Verif.Spin.Clh (PC)
open Fas (opt)

variable {n : Nat}

/-! ## The newest values -/

def dec : Nat → Option Nat
  | 0 => none
  | x + 1 => some x

def abs (s : St n) : Spin.Clh.St Nat n :=
  { tail := s.mem.last .tail, wait := fun x => decide (s.mem.last (.wait x) ≠ 0), prev := fun x => dec (s.mem.last (.prev x))
    node := s.node, pc := s.pc, q := s.q, nd := s.nd }

theorem abs_wait {m m' : Mem Loc Nat} {x v : Nat} {w : View Loc} (h : Put m m' (.wait x) v w) :
    (m'.last .tail = m.last .tail ∧ (fun y => dec (m'.last (.prev y))) = fun y => dec (m.last (.prev y))) ∧
    (fun y => decide (m'.last (.wait y) ≠ 0)) = upd (fun y => decide (m.last (.wait y) ≠ 0)) x (decide (v ≠ 0)) := by
  refine ⟨⟨by simp [h.last], by simp [h.last]⟩, ?_⟩
  funext y
  simp only [h.last, Loc.wait.injEq, upd_apply]
  split <;> rfl

theorem abs_prev {m m' : Mem Loc Nat} {x v : Nat} {w : View Loc} (h : Put m m' (.prev x) v w) :
    (m'.last .tail = m.last .tail ∧ (fun y => dec (m'.last (.prev y))) = upd (fun y => dec (m.last (.prev y))) x (dec v)) ∧
    (fun y => decide (m'.last (.wait y) ≠ 0)) = fun y => decide (m.last (.wait y) ≠ 0) := by
  refine ⟨⟨by simp [h.last], ?_⟩, by simp [h.last]⟩
  funext y
  simp only [h.last, Loc.prev.injEq, upd_apply]
  split <;> rfl

/-! ## Views -/

/-- From value `k` on, only the newest value of `wait` may be false. -/
def Wait (m : Mem Loc Nat) (x k : Nat) : Prop := From m (.wait x) k (· ≠ 0)

structure VInv (s : St n) : Prop where
  /-- who takes the tail's place sees that its thread has set `wait` -/
  tv : Wait s.mem (s.mem.last .tail) ((s.mem.msg .tail (s.mem.top .tail)).view (.wait (s.mem.last .tail)))
  sw : ∀ t, s.pc t = .swap → s.mem.top (.wait (s.node t)) ≤ (s.th t).rel (.wait (s.node t))
  sp : ∀ t p, s.pc t = .setPrev p → Wait s.mem p ((s.th t).acq (.wait p))
  sn : ∀ t p, s.pc t = .spin p → Wait s.mem p ((s.th t).cur (.wait p))
  pv : ∀ t, ((∃ p, s.pc t = .spin p) ∨ s.pc t = .inside) → s.mem.top (.prev (s.node t)) ≤ (s.th t).cur (.prev (s.node t))
  uh : ∀ t, s.pc t = .inside → ∀ x, s.mem.top (.usr x) ≤ (s.th t).cur (.usr x)
  ur : ∀ t p, s.pc t = .release p → ∀ x, s.mem.top (.usr x) ≤ (s.th t).rel (.usr x)
  fw : (∀ u, (s.pc u).held = false) → ∀ x,
    s.mem.top (.usr x) ≤ (s.mem.msg (.wait (s.nd s.q.rel)) (s.mem.top (.wait (s.nd s.q.rel)))).view (.usr x)

structure Good (s : St n) : Prop where
  sc : Spin.Clh.Inv (abs s)
  v : VInv s

/-- Another thread's node is not `t`'s while `t` is out of the queue. -/
theorem node_ne {c : Spin.Clh.St Nat n} (hi : Spin.Clh.Inv c) {t u : Fin n} (hne : u ≠ t) : c.node u ≠ c.node t := by
  intro h
  cases ht : (c.pc t).act <;> cases hu : (c.pc u).act
  · exact hne (hi.own2 u t hu ht h)
  · have hk := hi.q.act_tk u hu
    have := getElem?_lt hk.2
    exact hi.own t (c.q.tk u + 1) ht (by omega) (by omega) (by rw [← h, hi.node u hu])
  · have hk := hi.q.act_tk t ht
    have := getElem?_lt hk.2
    exact hi.own u (c.q.tk t + 1) hu (by omega) (by omega) (by rw [h, hi.node t ht])
  · have hk := hi.q.act_tk u hu
    have := getElem?_lt hk.2
    have hk' := hi.q.act_tk t ht
    have := getElem?_lt hk'.2
    rw [hi.node u hu, hi.node t ht] at h
    have := hi.inj _ _ (by omega) (by omega) (by omega) (by omega) h
    exact hne (hi.q.tk_inj hu ht (by omega))

/-- Steps of `t` that do not change memory, the nodes or the queue. -/
theorem VInv.go {s : St n} (hv : VInv s) {t : Fin n} {q : Th Loc} {p : PC Nat} {Q' : Q n} (hQ : Q'.rel = s.q.rel)
    (h1 : p ≠ .swap) (h2 : ∀ x, p ≠ .setPrev x) (h3 : ∀ x, p = .spin x → Wait s.mem x (q.cur (.wait x)))
    (h4 : ((∃ x, p = .spin x) ∨ p = .inside) → s.mem.top (.prev (s.node t)) ≤ q.cur (.prev (s.node t)))
    (h5 : p = .inside → ∀ x, s.mem.top (.usr x) ≤ q.cur (.usr x))
    (h6 : ∀ y, p = .release y → ∀ x, s.mem.top (.usr x) ≤ q.rel (.usr x))
    (h7 : p.held = false → (s.pc t).held = false) :
    VInv { s with th := upd s.th t q, pc := upd s.pc t p, q := Q' } := by
  refine { tv := hv.tv, sw := fun u h => ?_, sp := fun u x h => ?_, sn := fun u x h => ?_, pv := fun u h => ?_, uh := fun u h x => ?_
           ur := fun u y h x => ?_, fw := fun h x => ?_ } <;> simp only at *
  case refine_7 =>
    rw [hQ]
    refine hv.fw (fun u => ?_) x
    have hu := h u
    by_cases e : u = t
    · subst e; rw [upd_same] at hu; exact h7 hu
    · rwa [upd_ne _ _ e] at hu
  all_goals
    by_cases e : u = t
    · subst e
      rw [upd_same] at *
      first
        | exact absurd h h1
        | exact absurd h (h2 _)
        | exact h3 _ h
        | exact h4 h
        | exact h5 h x
        | exact h6 y h x
    · rw [upd_ne _ _ e] at *
      first
        | exact hv.sw u h
        | exact hv.sp u _ h
        | exact hv.sn u _ h
        | exact hv.pv u h
        | exact hv.uh u h x
        | exact hv.ur u y h x

theorem good_lock {s : St n} (hg : Good s) {t : Fin n} (hp : s.pc t = .idle) : Good { s with pc := upd s.pc t .setWait } := by
  refine ⟨Spin.Clh.inv_step (a := .lock t) hg.sc (by simp only [Spin.Clh.step]; rw [if_pos (show (abs s).pc t = _ from hp)]; rfl), ?_⟩
  have := hg.v.go (t := t) (q := s.th t) (p := .setWait) (Q' := s.q) rfl nofun nofun nofun (fun h => by rcases h with ⟨x, h⟩ | h <;> cases h)
    nofun nofun (fun _ => by rw [hp]; rfl)
  rwa [upd_eq_self] at this

theorem good_setWait {s : St n} (hg : Good s) {t : Fin n} (hp : s.pc t = .setWait) :
    Good { s with
      mem := s.mem.store (s.th t) (.wait (s.node t)) 1
      th := upd s.th t (opt real.st Th.fenceStore ((s.th t).store s.mem (.wait (s.node t)))), pc := upd s.pc t .swap } := by
  have hm := Put.store s.mem (s.th t) (.wait (s.node t)) 1
  have hp' : (abs s).pc t = .setWait := hp
  have ha : ((abs s).pc t).act = false := by rw [hp']; rfl
  refine ⟨?_, ?_⟩
  · refine Spin.Clh.inv_step (a := .run t) hg.sc ?_
    simp only [Spin.Clh.step, hp, abs, abs_wait hm]
    rfl
  have hlen := hg.sc.q.len
  -- nobody else looks at the node
  have hown : ∀ k, s.q.rel ≤ k → k ≤ s.q.arr.length → s.node t ≠ s.nd k := fun k => hg.sc.own t k ha
  have hpr : ∀ u p, (s.pc u).act = true → p = s.nd (s.q.tk u) → p ≠ s.node t := by
    intro u p hu e e'
    have hk := hg.sc.q.act_tk u hu
    exact hown _ hk.1 (Nat.le_of_lt (getElem?_lt hk.2)) (e'.symm.trans e)
  have hus : ∀ x, (s.mem.store (s.th t) (.wait (s.node t)) 1).top (.usr x) = s.mem.top (.usr x) := fun x => hm.top_ne (by simp)
  have htl : s.mem.last .tail = s.nd s.q.arr.length := hg.sc.tail
  refine { tv := ?_, sw := fun u h => ?_, sp := fun u x h => ?_, sn := fun u x h => ?_, pv := fun u h => ?_, uh := fun u h x => ?_
           ur := fun u y h x => ?_, fw := fun h x => ?_ } <;> simp only at *
  · rw [hm.last, if_neg (by simp), hm.msg_ne (by simp)]
    refine hg.v.tv.put hm fun e => ?_
    simp only [Loc.wait.injEq] at e
    exact absurd (e.trans htl) (hown _ (by simp only [abs] at hlen; omega) (Nat.le_refl _))
  · by_cases e : u = t
    · subst e
      rw [upd_same, hm.top, if_pos rfl]
      refine Nat.le_trans ?_ (le_join_right _ _ _)
      simp [Th.store]
    · rw [upd_ne _ _ e] at *
      rw [hm.top_ne (by simpa using (show s.node u ≠ s.node t from node_ne hg.sc e))]
      exact hg.v.sw u h
  · have e : u ≠ t := by rintro rfl; rw [upd_same] at h; cases h
    rw [upd_ne _ _ e] at *
    refine (hg.v.sp u x h).put hm fun e' => ?_
    simp only [Loc.wait.injEq] at e'
    exact absurd e'.symm (hpr u x (by rw [h]; rfl) (hg.sc.setp u x h))
  · have e : u ≠ t := by rintro rfl; rw [upd_same] at h; cases h
    rw [upd_ne _ _ e] at *
    refine (hg.v.sn u x h).put hm fun e' => ?_
    simp only [Loc.wait.injEq] at e'
    exact absurd e'.symm (hpr u x (by rw [h]; rfl) (hg.sc.spin u x h).1)
  · have e : u ≠ t := by rintro rfl; rw [upd_same] at h; simp at h
    rw [upd_ne _ _ e] at *
    rw [hm.top_ne (by simp)]
    exact hg.v.pv u h
  · have e : u ≠ t := by rintro rfl; rw [upd_same] at h; cases h
    rw [upd_ne _ _ e] at *
    rw [hus]
    exact hg.v.uh u h x
  · have e : u ≠ t := by rintro rfl; rw [upd_same] at h; cases h
    rw [upd_ne _ _ e] at *
    rw [hus]
    exact hg.v.ur u y h x
  · have hnd : Loc.wait (s.nd s.q.rel) ≠ .wait (s.node t) := by
      have := hown s.q.rel (Nat.le_refl _) (by simp only [abs] at hlen; omega)
      simpa using this.symm
    rw [hus, hm.msg_ne hnd]
    refine hg.v.fw (fun u => ?_) x
    have hu := h u
    by_cases e : u = t
    · subst e; rw [hp]; rfl
    · rwa [upd_ne _ _ e] at hu

theorem good_swap {s : St n} (hg : Good s) {t : Fin n} (hp : s.pc t = .swap) :
    Good { s with
      mem := s.mem.rmw (s.th t) .tail (s.node t), th := upd s.th t ((s.th t).rmw s.mem .tail)
      pc := upd s.pc t (.setPrev (s.mem.last .tail)), q := s.q.arrive t, nd := upd s.nd (s.q.arr.length + 1) (s.node t) } := by
  have hm := Put.rmw s.mem (s.th t) .tail (s.node t)
  refine ⟨?_, ?_⟩
  · refine Spin.Clh.inv_step (a := .run t) hg.sc ?_
    simp only [Spin.Clh.step, hp, abs, hm.last, reduceCtorEq, if_false, if_true]
  have hlen := hg.sc.q.len
  have hW : ∀ x k, Wait s.mem x k → Wait (s.mem.rmw (s.th t) .tail (s.node t)) x k := fun x k h => From.put hm h (by simp)
  have ht : ∀ y, y ≠ Loc.tail → (s.mem.rmw (s.th t) .tail (s.node t)).top y = s.mem.top y := fun y h => hm.top_ne h
  refine { tv := ?_, sw := fun u h => ?_, sp := fun u x h => ?_, sn := fun u x h => ?_, pv := fun u h => ?_, uh := fun u h x => ?_
           ur := fun u y h x => ?_, fw := fun h x => ?_ } <;> simp only at *
  · rw [hm.last, if_pos rfl, hm.msg_at]
    refine From.of_top ?_
    rw [ht _ (by simp)]
    simp only [upd_ne _ _ (show Loc.wait (s.node t) ≠ .tail by simp)]
    exact Nat.le_trans (hg.v.sw t hp) (le_join_left _ _ _)
  · have e : u ≠ t := by rintro rfl; rw [upd_same] at h; cases h
    rw [upd_ne _ _ e] at *
    rw [ht _ (by simp)]
    exact hg.v.sw u h
  · by_cases e : u = t
    · subst e
      rw [upd_same] at *
      simp only [PC.setPrev.injEq] at h
      subst h
      refine hW _ _ (hg.v.tv.mono ?_)
      simp only [Th.rmw, Th.store]
      exact Th.load_view_le _ _ _ _ _
    · rw [upd_ne _ _ e] at *
      exact hW _ _ (hg.v.sp u x h)
  · have e : u ≠ t := by rintro rfl; rw [upd_same] at h; cases h
    rw [upd_ne _ _ e] at *
    exact hW _ _ (hg.v.sn u x h)
  · have e : u ≠ t := by rintro rfl; rw [upd_same] at h; simp at h
    rw [upd_ne _ _ e] at *
    rw [ht _ (by simp)]
    exact hg.v.pv u h
  · have e : u ≠ t := by rintro rfl; rw [upd_same] at h; cases h
    rw [upd_ne _ _ e] at *
    rw [ht _ (by simp)]
    exact hg.v.uh u h x
  · have e : u ≠ t := by rintro rfl; rw [upd_same] at h; cases h
    rw [upd_ne _ _ e] at *
    rw [ht _ (by simp)]
    exact hg.v.ur u y h x
  · have hr : (s.q.arrive t).rel = s.q.rel := rfl
    have hne : s.q.rel ≠ s.q.arr.length + 1 := by simp only [abs] at hlen; omega
    rw [hr, upd_ne _ _ hne, ht _ (by simp), hm.msg_ne (by simp)]
    refine hg.v.fw (fun u => ?_) x
    have hu := h u
    by_cases e : u = t
    · subst e; rw [hp]; rfl
    · rwa [upd_ne _ _ e] at hu

theorem good_setPrev {s : St n} (hg : Good s) {t : Fin n} {p : Nat} (hp : s.pc t = .setPrev p) :
    Good { s with
      mem := s.mem.store (s.th t) (.prev (s.node t)) (p + 1)
      th := upd s.th t (opt real.ld Th.fenceLoad ((s.th t).store s.mem (.prev (s.node t)))), pc := upd s.pc t (.spin p) } := by
  have hm := Put.store s.mem (s.th t) (.prev (s.node t)) (p + 1)
  refine ⟨?_, ?_⟩
  · refine Spin.Clh.inv_step (a := .run t) hg.sc ?_
    simp only [Spin.Clh.step, hp, abs, abs_prev hm]
    rfl
  have hW : ∀ x k, Wait s.mem x k → Wait (s.mem.store (s.th t) (.prev (s.node t)) (p + 1)) x k := fun x k h => From.put hm h (by simp)
  have ht : ∀ y, y ≠ Loc.prev (s.node t) → (s.mem.store (s.th t) (.prev (s.node t)) (p + 1)).top y = s.mem.top y := fun y h => hm.top_ne h
  refine { tv := ?_, sw := fun u h => ?_, sp := fun u x h => ?_, sn := fun u x h => ?_, pv := fun u h => ?_, uh := fun u h x => ?_
           ur := fun u y h x => ?_, fw := fun h x => ?_ } <;> simp only at *
  · rw [hm.last, if_neg (by simp), hm.msg_ne (by simp)]
    exact hW _ _ hg.v.tv
  · have e : u ≠ t := by rintro rfl; rw [upd_same] at h; cases h
    rw [upd_ne _ _ e] at *
    rw [ht _ (by simp)]
    exact hg.v.sw u h
  · have e : u ≠ t := by rintro rfl; rw [upd_same] at h; cases h
    rw [upd_ne _ _ e] at *
    exact hW _ _ (hg.v.sp u x h)
  · by_cases e : u = t
    · subst e
      rw [upd_same] at *
      simp only [PC.spin.injEq] at h
      subst h
      refine hW _ _ ((hg.v.sp u p hp).mono (Nat.le_trans ?_ (le_join_right _ _ _)))
      exact Nat.le_refl _
    · rw [upd_ne _ _ e] at *
      exact hW _ _ (hg.v.sn u x h)
  · by_cases e : u = t
    · subst e
      rw [upd_same, hm.top, if_pos rfl]
      refine Nat.le_trans ?_ (le_join_left _ _ _)
      simp [Th.store]
    · rw [upd_ne _ _ e] at *
      rw [ht _ (by simpa using (show s.node u ≠ s.node t from node_ne hg.sc e))]
      exact hg.v.pv u h
  · have e : u ≠ t := by rintro rfl; rw [upd_same] at h; cases h
    rw [upd_ne _ _ e] at *
    rw [ht _ (by simp)]
    exact hg.v.uh u h x
  · have e : u ≠ t := by rintro rfl; rw [upd_same] at h; cases h
    rw [upd_ne _ _ e] at *
    rw [ht _ (by simp)]
    exact hg.v.ur u y h x
  · rw [ht _ (by simp), hm.msg_ne (by simp)]
    refine hg.v.fw (fun u => ?_) x
    have hu := h u
    by_cases e : u = t
    · subst e; rw [hp]; rfl
    · rwa [upd_ne _ _ e] at hu

theorem good_spin {s : St n} (hg : Good s) {t : Fin n} {p i : Nat} (hp : s.pc t = .spin p) (hm : (s.th t).may s.mem (.wait p) i)
    (h0 : (s.mem.msg (.wait p) i).val = 0) :
    Good { s with
      th := upd s.th t (opt real.lock Th.fenceAcq ((s.th t).load s.mem (.wait p) i)), pc := upd s.pc t .inside, q := s.q.enter t } := by
  have hp' : (abs s).pc t = .spin p := hp
  have hi : i = s.mem.top (.wait p) := (hg.v.sn t p hp).eq_top hm.1 hm.2 (by simpa using h0)
  have hlast : (abs s).wait p = false := by simp only [abs, Mem.last, ← hi, h0]; rfl
  have hpp := (hg.sc.spin t p hp').1
  have hrel : s.q.tk t = s.q.rel := by
    have hk := hg.sc.q.act_tk t (by rw [hp']; rfl)
    refine Decidable.byContradiction fun hne => ?_
    have := hg.sc.wait_gt (s.q.tk t) (Nat.lt_of_le_of_ne hk.1 (Ne.symm hne)) (Nat.le_of_lt (getElem?_lt hk.2))
    rw [show (abs s).nd (s.q.tk t) = p from hpp.symm, hlast] at this
    cases this
  refine ⟨Spin.Clh.inv_step (a := .run t) hg.sc ?_, ?_⟩
  · simp only [Spin.Clh.step, hp', hlast, Bool.false_eq_true, if_false]; rfl
  have hno : ∀ u, (s.pc u).held = false := by
    intro u
    cases hu : (s.pc u).held
    · rfl
    · have h1 := hg.sc.q.held_tk u hu
      have h2 := hg.sc.q.tk_inj (hg.sc.q.held_act u hu) (show ((abs s).pc t).act = true by rw [hp']; rfl) (by
        have h3 : s.q.tk u = s.q.rel := h1
        rw [show (abs s).q = s.q from rfl, h3, hrel])
      subst h2
      rw [hp] at hu; cases hu
  refine hg.v.go rfl nofun nofun nofun (fun _ => ?_) (fun _ x => ?_) nofun nofun
  · exact Nat.le_trans (hg.v.pv t (.inl ⟨p, hp⟩)) (Nat.le_trans (Th.load_cur_le _ _ _ _ _) (le_join_left _ _ _))
  · have h1 : p = s.nd s.q.rel := by rw [← hrel]; exact hpp
    have h2 := hg.v.fw hno x
    rw [← h1, ← hi] at h2
    exact Nat.le_trans h2 (Nat.le_trans (Th.load_view_le _ _ _ _ _) (le_join_right _ _ _))

theorem good_retry {s : St n} (hg : Good s) {t : Fin n} {p i : Nat} (hp : s.pc t = .spin p) :
    Good { s with th := upd s.th t ((s.th t).load s.mem (.wait p) i) } := by
  refine ⟨hg.sc, ?_⟩
  have := hg.v.go (t := t) (q := (s.th t).load s.mem (.wait p) i) (p := .spin p) (Q' := s.q) rfl nofun nofun (fun x e => ?_) (fun _ => ?_) nofun nofun
    (fun _ => by rw [hp]; rfl)
  · rwa [show upd s.pc t (.spin p) = s.pc by rw [← hp]; exact upd_eq_self _ _] at this
  · simp only [PC.spin.injEq] at e
    subst e
    exact (hg.v.sn t p hp).mono (Th.load_cur_le _ _ _ _ _)
  · exact Nat.le_trans (hg.v.pv t (.inl ⟨p, hp⟩)) (Th.load_cur_le _ _ _ _ _)

theorem good_unlock {s : St n} (hg : Good s) {t : Fin n} {p i : Nat} (hp : s.pc t = .inside) (hm : (s.th t).may s.mem (.prev (s.node t)) i)
    (h0 : (s.mem.msg (.prev (s.node t)) i).val = p + 1) :
    Good { s with
      th := upd s.th t (opt real.unlock Th.fenceRel ((s.th t).load s.mem (.prev (s.node t)) i)), pc := upd s.pc t (.release p) } := by
  have hp' : (abs s).pc t = .inside := hp
  have hi : i = s.mem.top (.prev (s.node t)) := Nat.le_antisymm hm.2 (Nat.le_trans (hg.v.pv t (.inr hp)) hm.1)
  have hlast : (abs s).prev ((abs s).node t) = some p := by simp only [abs, Mem.last, ← hi, h0]; rfl
  refine ⟨Spin.Clh.inv_step (a := .unlock t) hg.sc (by simp only [Spin.Clh.step, hp', hlast, if_true]; rfl), ?_⟩
  refine hg.v.go rfl nofun nofun nofun (fun h => by rcases h with ⟨x, h⟩ | h <;> cases h) nofun (fun _ _ x => ?_) nofun
  exact Nat.le_trans (hg.v.uh t hp x) (Nat.le_trans (Th.load_cur_le _ _ _ _ _) (le_join_right _ _ _))

theorem good_release {s : St n} (hg : Good s) {t : Fin n} {p : Nat} (hp : s.pc t = .release p) :
    Good { s with
      mem := s.mem.store (s.th t) (.wait (s.node t)) 0, th := upd s.th t ((s.th t).store s.mem (.wait (s.node t)))
      node := upd s.node t p, pc := upd s.pc t .idle, q := s.q.leave } := by
  have hm := Put.store s.mem (s.th t) (.wait (s.node t)) 0
  have hp' : (abs s).pc t = .release p := hp
  refine ⟨?_, ?_⟩
  · refine Spin.Clh.inv_step (a := .run t) hg.sc ?_
    simp only [Spin.Clh.step, hp, abs, abs_wait hm]
    rfl
  have ha : ((abs s).pc t).act = true := by rw [hp']; rfl
  have htk : s.q.tk t = s.q.rel := hg.sc.q.held_tk t (by rw [hp']; rfl)
  have hnd : s.node t = s.nd (s.q.rel + 1) := by rw [← htk]; exact hg.sc.node t ha
  have hlt := getElem?_lt (hg.sc.q.act_tk t ha).2
  have hw : s.mem.last (.wait (s.node t)) ≠ 0 := by
    have := hg.sc.wait_gt (s.q.rel + 1) (Nat.lt_succ_self _) (by simp only [abs] at *; omega)
    rw [show (abs s).nd (s.q.rel + 1) = s.node t from hnd.symm] at this
    simpa only [abs, decide_eq_true_eq] using this
  have hW : ∀ x k, Wait s.mem x k → Wait (s.mem.store (s.th t) (.wait (s.node t)) 0) x k := fun x k h => From.put hm h fun _ => hw
  have hus : ∀ x, (s.mem.store (s.th t) (.wait (s.node t)) 0).top (.usr x) = s.mem.top (.usr x) := fun x => hm.top_ne (by simp)
  refine { tv := ?_, sw := fun u h => ?_, sp := fun u x h => ?_, sn := fun u x h => ?_, pv := fun u h => ?_, uh := fun u h x => ?_
           ur := fun u y h x => ?_, fw := fun h x => ?_ } <;> simp only at *
  · rw [hm.last, if_neg (by simp), hm.msg_ne (by simp)]
    exact hW _ _ hg.v.tv
  · have e : u ≠ t := by rintro rfl; rw [upd_same] at h; cases h
    rw [upd_ne _ _ e] at *
    rw [upd_ne _ _ e, hm.top_ne (by simpa using (show s.node u ≠ s.node t from node_ne hg.sc e))]
    exact hg.v.sw u h
  · have e : u ≠ t := by rintro rfl; rw [upd_same] at h; cases h
    rw [upd_ne _ _ e] at *
    exact hW _ _ (hg.v.sp u x h)
  · have e : u ≠ t := by rintro rfl; rw [upd_same] at h; cases h
    rw [upd_ne _ _ e] at *
    exact hW _ _ (hg.v.sn u x h)
  · have e : u ≠ t := by rintro rfl; rw [upd_same] at h; simp at h
    rw [upd_ne _ _ e] at *
    rw [upd_ne _ _ e, hm.top_ne (by simp)]
    exact hg.v.pv u h
  · have e : u ≠ t := by rintro rfl; rw [upd_same] at h; cases h
    rw [upd_ne _ _ e] at *
    rw [hus]
    exact hg.v.uh u h x
  · have e : u ≠ t := by rintro rfl; rw [upd_same] at h; cases h
    rw [upd_ne _ _ e] at *
    rw [hus]
    exact hg.v.ur u y h x
  · have hr : s.q.leave.rel = s.q.rel + 1 := rfl
    rw [hus, hr, ← hnd, hm.msg_at]
    simp only [upd_ne _ _ (show Loc.usr x ≠ .wait (s.node t) by simp)]
    exact hg.v.ur t p hp x

theorem good_read {s : St n} (hg : Good s) {t : Fin n} {x i : Nat} (hp : s.pc t = .inside) :
    Good { s with th := upd s.th t ((s.th t).load s.mem (.usr x) i) } := by
  refine ⟨hg.sc, ?_⟩
  have := hg.v.go (t := t) (q := (s.th t).load s.mem (.usr x) i) (p := .inside) (Q' := s.q) rfl nofun nofun nofun (fun _ => ?_) (fun _ y => ?_) nofun nofun
  · rwa [show upd s.pc t .inside = s.pc by rw [← hp]; exact upd_eq_self _ _] at this
  · exact Nat.le_trans (hg.v.pv t (.inr hp)) (Th.load_cur_le _ _ _ _ _)
  · exact Nat.le_trans (hg.v.uh t hp y) (Th.load_cur_le _ _ _ _ _)

theorem good_write {s : St n} (hg : Good s) {t : Fin n} {x v : Nat} (hp : s.pc t = .inside) :
    Good { s with mem := s.mem.store (s.th t) (.usr x) v, th := upd s.th t ((s.th t).store s.mem (.usr x)) } := by
  have hm := Put.store s.mem (s.th t) (.usr x) v
  have hh : (s.pc t).held = true := by rw [hp]; rfl
  have huniq : ∀ u, (s.pc u).held = true → u = t := fun u hu => hg.sc.q.held_unique hu hh
  refine ⟨?_, ?_⟩
  · have : abs { s with mem := s.mem.store (s.th t) (.usr x) v, th := upd s.th t ((s.th t).store s.mem (.usr x)) } = abs s := by
      simp [abs, hm.last]
    rw [this]; exact hg.sc
  have hW : ∀ y k, Wait s.mem y k → Wait (s.mem.store (s.th t) (.usr x) v) y k := fun y k h => From.put hm h (by simp)
  refine { tv := ?_, sw := fun u h => ?_, sp := fun u y h => ?_, sn := fun u y h => ?_, pv := fun u h => ?_, uh := fun u h y => ?_
           ur := fun u z h y => ?_, fw := fun h y => ?_ } <;> simp only at *
  · rw [hm.last, if_neg (by simp), hm.msg_ne (by simp)]
    exact hW _ _ hg.v.tv
  · have e : u ≠ t := by rintro rfl; rw [hp] at h; cases h
    rw [upd_ne _ _ e, hm.top_ne (by simp)]
    exact hg.v.sw u h
  · have e : u ≠ t := by rintro rfl; rw [hp] at h; cases h
    rw [upd_ne _ _ e]
    exact hW _ _ (hg.v.sp u y h)
  · have e : u ≠ t := by rintro rfl; rw [hp] at h; cases h
    rw [upd_ne _ _ e]
    exact hW _ _ (hg.v.sn u y h)
  · rw [hm.top_ne (by simp)]
    refine Nat.le_trans (hg.v.pv u h) ?_
    by_cases e : u = t
    · subst e; rw [upd_same]; exact Th.store_cur_le _ _ _ (by simp)
    · rw [upd_ne _ _ e]
  · obtain rfl := huniq u (by rw [h]; rfl)
    rw [upd_same, hm.top]
    simp only [Th.store, upd_apply, Loc.usr.injEq]
    split
    · next e => exact Nat.le_refl _
    · exact hg.v.uh u h y
  · obtain rfl := huniq u (by rw [h]; rfl)
    rw [hp] at h; cases h
  · rw [h t] at hh; cases hh

theorem good_step {s s' : St n} {a : Act n} (hg : Good s) (hs : step real s a = some s') : Good s' := by
  cases a with
  | lock t =>
    simp only [step] at hs
    split at hs <;> simp only [Option.some.injEq, reduceCtorEq] at hs
    next hp => subst hs; exact good_lock hg hp
  | run t i =>
    simp only [step] at hs
    split at hs
    · next hp => simp only [Option.some.injEq] at hs; subst hs; exact good_setWait hg hp
    · next hp => simp only [Option.some.injEq] at hs; subst hs; exact good_swap hg hp
    · next p hp => simp only [Option.some.injEq] at hs; subst hs; exact good_setPrev hg hp
    · next p hp =>
      split at hs
      · next hm =>
        split at hs <;> simp only [Option.some.injEq] at hs <;> subst hs
        · next h0 => exact good_spin hg hp hm h0
        · exact good_retry hg hp
      · cases hs
    · next p hp => simp only [Option.some.injEq] at hs; subst hs; exact good_release hg hp
    · cases hs
  | unlock t i =>
    simp only [step] at hs
    split at hs
    · next hp =>
      split at hs
      · cases hs
      · next p h0 => simp only [Option.some.injEq] at hs; subst hs; exact good_unlock hg hp.1 hp.2 h0
    · cases hs
  | read t x i =>
    simp only [step] at hs
    split at hs <;> simp only [Option.some.injEq, reduceCtorEq] at hs
    next hp => subst hs; exact good_read hg hp.1
  | write t x v =>
    simp only [step] at hs
    split at hs <;> simp only [Option.some.injEq, reduceCtorEq] at hs
    next hp => subst hs; exact good_write hg hp

theorem good_reach {s : St n} (h : (sys real n).Reach s) : Good s := by
  refine h.invariant (I := Good) ?_ (fun _ _ _ hi hs => good_step hi hs)
  rintro s rfl
  refine ⟨Spin.Clh.inv_init ?_, ?_⟩
  · refine ⟨rfl, rfl, fun _ => rfl, rfl, rfl, fun t => ?_, fun t u h => ?_⟩
    · simp [abs, initSt, Mem.last, Mem.init]
    · simp only [abs, initSt, Nat.add_right_cancel_iff] at h
      exact Fin.ext h
  · refine { tv := fun i _ hi => absurd hi (Nat.not_lt_zero _), sw := nofun, sp := nofun, sn := nofun
             pv := fun t h => by rcases h with ⟨p, h⟩ | h <;> cases h
             uh := nofun, ur := nofun, fw := fun _ _ => Nat.le_refl _ }

/-! ## Property theorems -/

/-- C80: two threads do not hold the lock. -/
theorem mutual_exclusion {s : St n} (h : (sys real n).Reach s) : Spec.MutEx s.holds :=
  fun _ _ ht hu => (good_reach h).sc.q.held_unique ht hu

/-- C80: threads enter in the order in which they queued up. -/
theorem fcfs {s : St n} (h : (sys real n).Reach s) : Spec.Fcfs s.q.arr s.q.srv := (good_reach h).sc.q.pre

/-- C80: inside the lock every load of a data word returns the newest value. -/
theorem reads_last {s s' : St n} (h : (sys real n).Reach s) {t : Fin n} {x i : Nat}
    (hs : (sys real n).step s (.read t x i) = some s') : (s.mem.msg (.usr x) i).val = s.mem.last (.usr x) := by
  simp only [sys, step] at hs
  split at hs
  · next hp =>
    have h1 := (good_reach h).v.uh t hp.1 x
    have h2 := hp.2.1
    have h3 := hp.2.2
    rw [show i = s.mem.top (.usr x) from Nat.le_antisymm h3 (Nat.le_trans h1 h2)]
    rfl
  · cases hs

/-- C80: unlock does not load a stale `previous`: it never finds `NULL`, and the node it hands back is the one of the thread before. -/
theorem unlock_previous {s : St n} (h : (sys real n).Reach s) {t : Fin n} {i : Nat} (hp : s.pc t = .inside)
    (hm : (s.th t).may s.mem (.prev (s.node t)) i) : (s.mem.msg (.prev (s.node t)) i).val = s.nd (s.q.tk t) + 1 := by
  have hg := good_reach h
  have h1 := hg.v.pv t (.inr hp)
  have h2 := hg.sc.ins t hp
  rw [show i = s.mem.top (.prev (s.node t)) from Nat.le_antisymm hm.2 (Nat.le_trans h1 hm.1)]
  simp only [abs, Mem.last] at h2
  revert h2
  cases (s.mem.msg (.prev (s.node t)) (s.mem.top (.prev (s.node t)))).val <;> simp [dec]

/-! ## The fences are needed -/

/-- After the run `as`, thread 1 can load the initial value of data word 0. -/
def stale (fc : Fences) (as : List (Act 2)) : Bool := ((sys fc 2).run (initSt 2) (as ++ [.read 1 0 0])).isSome

/-- After the run `as` both threads hold the lock. -/
def both (fc : Fences) (as : List (Act 2)) : Bool :=
  match (sys fc 2).run (initSt 2) as with
  | some s => (s.pc 0).held && (s.pc 1).held
  | none => false

/-- Thread 0 takes the lock. -/
def first : List (Act 2) := [.lock 0, .run 0 0, .run 0 0, .run 0 0, .run 0 0]

/-- Thread 0 stores 5 and unlocks, then thread 1 takes the lock. -/
def after : List (Act 2) :=
  first ++ [.write 0 0 5, .unlock 0 1, .run 0 0, .lock 1, .run 1 0, .run 1 0, .run 1 0, .run 1 2]

/-- Thread 1 queues up behind thread 0 and loads the initial `wait` of its node. -/
def ahead : List (Act 2) := first ++ [.lock 1, .run 1 0, .run 1 0, .run 1 0, .run 1 0]

theorem no_fence_lock : stale { real with lock := false } after = true := by decide +kernel

theorem no_fence_unlock : stale { real with unlock := false } after = true := by decide +kernel

/-- Without line 75 the store to `wait` may come after the one to the queue. -/
theorem no_fence_store : both { real with st := false } ahead = true := by decide +kernel

/-- Without line 85 `wait` may be loaded before the queue is swapped. -/
theorem no_fence_load : both { real with ld := false } ahead = true := by decide +kernel

/-- With the fences thread 1 loads 5. -/
example : stale real after = false ∧ ((sys real 2).run (initSt 2) (after ++ [.read 1 0 1])).isSome = true ∧
    ((sys real 2).run (initSt 2) ahead).isSome = false := by decide +kernel

/-- Thread 0 uses the lock twice: the second time with the node it was handed back, behind thread 1, whose `wait` it first loads when
it is still set. -/
def twice : List (Act 2) :=
  after ++ [.write 1 0 6, .lock 0, .run 0 0, .run 0 0, .run 0 0, .run 0 1, .unlock 1 1, .run 1 0, .run 0 1, .run 0 2]

example : ((sys real 2).run (initSt 2) twice).map (fun s => (s.pc 0, s.node 0, s.node 1, s.q.arr, s.q.srv)) =
    some (.inside, 0, 1, [0, 1, 0], [0, 1, 0]) ∧ ((sys real 2).run (initSt 2) (twice ++ [.read 0 0 2])).isSome = true ∧
    ((sys real 2).run (initSt 2) (twice ++ [.read 0 0 1])).isSome = false := by decide +kernel

end Verif.Weak.Clh
