import Verif.Weak.Swlock

/-!
# Single-writer lock on relaxed memory: exclusion, and what the holders load (C81)

The invariant of `Verif.Rw.Swlock` holds of the newest values.  While the writer waits for the readers, a value without readers that was stored
after its own `or` may be stale, but no reader gets in afterwards.
-/

namespace Verif.Weak.Swlock

open Verif
open Verif.Rw.Swlock (PC WPC WB WM RM again)
open Fas (opt)

variable {n : Nat}

/-- The newest values. -/
def abs (s : St n) : Rw.Swlock.St n := { value := s.mem.last .value, wpc := s.wpc, pc := s.pc, leak := s.leak }

/-- The view has all stores to the data. -/
def All (m : Mem (Loc n) Word) (v : View (Loc n)) : Prop := ∀ x, m.top (.usr x) ≤ v (.usr x)

theorem All.mono {m : Mem (Loc n) Word} {v w : View (Loc n)} (h : All m v) (hw : ∀ y, v y ≤ w y) : All m w := fun x => Nat.le_trans (h x) (hw _)

theorem All.put {m m' : Mem (Loc n) Word} {v : View (Loc n)} {l : Loc n} {a : Word} {w : View (Loc n)} (hm : Put m m' l a w)
    (hl : ∀ x, .usr x ≠ l) (h : All m v) : All m' v := fun x => by rw [hm.top_ne (hl x)]; exact h x

/-- The view has all stores of reader `t`. -/
def Has (m : Mem (Loc n) Word) (t : Fin n) (v : View (Loc n)) : Prop := m.top (.own t) ≤ v (.own t)

theorem Has.mono {m : Mem (Loc n) Word} {t : Fin n} {v w : View (Loc n)} (h : Has m t v) (hw : ∀ y, v y ≤ w y) : Has m t w :=
  Nat.le_trans h (hw _)

theorem Has.put {m m' : Mem (Loc n) Word} {t : Fin n} {v : View (Loc n)} {l : Loc n} {a : Word} {w : View (Loc n)} (hm : Put m m' l a w)
    (hl : .own t ≠ l) (h : Has m t v) : Has m' t v := by unfold Has; rw [hm.top_ne hl]; exact h

/-! ## Views -/

/-- Between write ownership and the end of unlock or downgrade. -/
def priv : WPC → Bool
  | .writing | .latched | .dgAnd => true
  | _ => false

structure V (m : Mem (Loc n) Word) (wth : Th (Loc n)) (th : Fin n → Th (Loc n)) (wpc : WPC) (pc : Fin n → PC) (leak : Fin n → Bool) : Prop where
  z : wpc = .lkWait → ∀ i, wth.cur .value ≤ i → i ≤ m.top .value → (m.msg .value i).val &&& RM = 0 →
    ∀ t, pc t ≠ .reading ∧ Has m t (join wth.cur (m.msg .value i).view)
  lk : ∀ t, leak t = true → ∀ i, (th t).cur .value ≤ i → i ≤ m.top .value → (m.msg .value i).val &&& WB ≠ 0
  fr : priv wpc = false → All m (m.msg .value (m.top .value)).view
  wc : All m wth.cur
  cs : ∀ t, pc t = .reading → All m (th t).cur
  kn : ∀ t, pc t ≠ .reading → Has m t (join wth.cur (m.msg .value (m.top .value)).view)
  oc : ∀ t, Has m t (th t).cur
  ex : wpc.ex = true → ∀ t, Has m t wth.cur

structure Good (s : St n) : Prop where
  sc : Rw.Swlock.Inv (abs s)
  v : V s.mem s.wth s.th s.wpc s.pc s.leak

section
variable {m m' : Mem (Loc n) Word} {wth : Th (Loc n)} {th : Fin n → Th (Loc n)} {wpc : WPC} {pc : Fin n → PC} {leak : Fin n → Bool}

theorem join_mono {a a' b : View (Loc n)} (h : ∀ y, a y ≤ a' y) (y : Loc n) : join a b y ≤ join a' b y :=
  join_le (Nat.le_trans (h y) (le_join_left _ _ _)) (le_join_right _ _ _)

theorem join_mono' {a b b' : View (Loc n)} (h : ∀ y, b y ≤ b' y) (y : Loc n) : join a b y ≤ join a b' y :=
  join_le (le_join_left _ _ _) (Nat.le_trans (h y) (le_join_right _ _ _))

/-- A step of the writer that does not store. -/
theorem V.goW (h : V m wth th wpc pc leak) {q : Th (Loc n)} {p : WPC} (hc : ∀ y, wth.cur y ≤ q.cur y) (hz : p = .lkWait → wpc = .lkWait)
    (hf : priv p = false → priv wpc = false) (hx : p.ex = true → ∀ t, Has m t q.cur) : V m q th p pc leak :=
  { z := fun hp i hi hi' hv t => by
      have := h.z (hz hp) i (Nat.le_trans (hc _) hi) hi' hv t
      exact ⟨this.1, this.2.mono (join_mono hc)⟩
    lk := h.lk, fr := fun hp => h.fr (hf hp), wc := h.wc.mono hc, cs := h.cs, kn := fun t ht => (h.kn t ht).mono (join_mono hc), oc := h.oc
    ex := hx }

/-- A step of reader `t` that does not store. -/
theorem V.goR (h : V m wth th wpc pc leak) {t : Fin n} {q : Th (Loc n)} {p : PC} (hc : ∀ y, (th t).cur y ≤ q.cur y)
    (hp : pc t = .reading ↔ p = .reading) : V m wth (upd th t q) wpc (upd pc t p) leak := by
  have hpc : ∀ u, upd pc t p u = .reading ↔ pc u = .reading := fun u => by
    by_cases e : u = t
    · subst e; rw [upd_same]; exact hp.symm
    · rw [upd_ne _ _ e]
  refine { z := fun hw i hi hi' hv u => ?_, lk := fun u hu i hi => ?_, fr := h.fr, wc := h.wc, cs := fun u hu => ?_, kn := fun u hu => ?_
           oc := fun u => ?_, ex := h.ex }
  · rw [Ne, hpc]; exact h.z hw i hi hi' hv u
  · by_cases e : u = t
    · subst e; rw [upd_same] at hi; exact h.lk u hu i (Nat.le_trans (hc _) hi)
    · rw [upd_ne _ _ e] at hi; exact h.lk u hu i hi
  · rw [hpc] at hu
    by_cases e : u = t
    · subst e; rw [upd_same]; exact (h.cs u hu).mono hc
    · rw [upd_ne _ _ e]; exact h.cs u hu
  · rw [Ne, hpc] at hu; exact h.kn u hu
  · by_cases e : u = t
    · subst e; rw [upd_same]; exact (h.oc u).mono hc
    · rw [upd_ne _ _ e]; exact h.oc u

theorem rmw_view (q : Th (Loc n)) {a : Word} {y : Loc n} (hy : y ≠ .value) :
    ((m.rmw q .value a).msg .value (m.top .value + 1)).view y = join q.rel (m.msg .value (m.top .value)).view y := by
  rw [Mem.rmw_new]; simp only [upd_ne _ _ hy]

/-- A read-modify-write operation of reader `t` on the word. -/
theorem V.rmwR (h : V m wth th wpc pc leak) {t : Fin n} {q u : Th (Loc n)} {a : Word} {p : PC} {leak' : Fin n → Bool}
    (hz : wpc = .lkWait → p ≠ .reading ∧ (a &&& RM = 0 → ∀ v, upd pc t p v ≠ .reading))
    (hlk : ∀ v, leak' v = true → a &&& WB ≠ 0 ∧ (v ≠ t → leak v = true)) (hu : m.top .value + 1 ≤ u.cur .value)
    (hoc : (th t).cur (.own t) ≤ u.cur (.own t)) (hcs : p = .reading → All m u.cur)
    (hk : pc t = .reading → p ≠ .reading → Has m t q.rel) :
    V (m.rmw q .value a) wth (upd th t u) wpc (upd pc t p) leak' := by
  have hm := Put.rmw m q .value a
  have htop : (m.rmw q .value a).top .value = m.top .value + 1 := by rw [hm.top, if_pos rfl]
  have hold : ∀ i, i ≤ m.top .value → (m.rmw q .value a).msg .value i = m.msg .value i := fun i hi => hm.old _ _ hi
  have hkn : ∀ v, upd pc t p v ≠ .reading → Has (m.rmw q .value a) v (join wth.cur ((m.rmw q .value a).msg .value (m.top .value + 1)).view) := by
    intro v hv
    refine Has.put hm (by simp) ?_
    show m.top (.own v) ≤ max (wth.cur (.own v)) _
    rw [rmw_view q (by simp)]
    by_cases e : v = t
    · subst e
      rw [upd_same] at hv
      by_cases e : pc v = .reading
      · exact Nat.le_trans (hk e hv) (Nat.le_trans (le_join_left _ _ _) (Nat.le_max_right _ _))
      · exact (h.kn v e).trans (join_mono' (fun y => le_join_right _ _ _) _)
    · rw [upd_ne _ _ e] at hv
      exact (h.kn v hv).trans (join_mono' (fun y => le_join_right _ _ _) _)
  refine { z := fun hw i hi hi' hv v => ?_, lk := fun v hv i hi hi' => ?_, fr := fun hp => ?_, wc := h.wc.put hm (by simp), cs := fun v hv => ?_
           kn := fun v hv => by rw [htop]; exact hkn v hv, oc := fun v => Has.put hm (by simp) ?_, ex := fun hp v => (h.ex hp v).put hm (by simp) }
  · rw [htop] at hi'
    by_cases e : i ≤ m.top .value
    · rw [hold i e] at hv ⊢
      have := h.z hw i hi e hv v
      refine ⟨?_, this.2.put hm (by simp)⟩
      by_cases e' : v = t
      · subst e'; rw [upd_same]; exact (hz hw).1
      · rw [upd_ne _ _ e']; exact this.1
    · obtain rfl : i = m.top .value + 1 := by omega
      rw [hm.new] at hv
      have := (hz hw).2 hv v
      exact ⟨this, hkn v this⟩
  · rw [htop] at hi'
    have h1 := hlk v hv
    by_cases e : i ≤ m.top .value
    · by_cases e' : v = t
      · subst e'; rw [upd_same] at hi; omega
      · rw [upd_ne _ _ e'] at hi
        rw [hold i e]; exact h.lk v (h1.2 e') i hi e
    · obtain rfl : i = m.top .value + 1 := by omega
      rw [hm.new]; exact h1.1
  · rw [htop]
    refine All.put hm (by simp) fun x => ?_
    rw [rmw_view q (by simp)]
    exact Nat.le_trans (h.fr hp x) (le_join_right _ _ _)
  · refine All.put hm (by simp) ?_
    by_cases e : v = t
    · subst e; rw [upd_same] at *; exact hcs hv
    · rw [upd_ne _ _ e] at *; exact h.cs v hv
  · by_cases e : v = t
    · subst e; rw [upd_same]; exact Nat.le_trans (h.oc v) hoc
    · rw [upd_ne _ _ e]; exact h.oc v

/-- A read-modify-write operation of the writer on the word. -/
theorem V.rmwW (h : V m wth th wpc pc leak) {q u : Th (Loc n)} {a : Word} {p : WPC}
    (hz : p = .lkWait → u.cur .value = m.top .value + 1 ∧ (a &&& RM = 0 → ∀ v, pc v ≠ .reading))
    (hlk : ∀ v, leak v = true → a &&& WB ≠ 0) (hc : ∀ y, y ≠ .value → wth.cur y ≤ u.cur y)
    (hf : priv p = false → priv wpc = false ∨ All m q.rel) (hx : p.ex = true → ∀ t, Has m t u.cur) :
    V (m.rmw q .value a) u th p pc leak := by
  have hm := Put.rmw m q .value a
  have htop : (m.rmw q .value a).top .value = m.top .value + 1 := by rw [hm.top, if_pos rfl]
  have hold : ∀ i, i ≤ m.top .value → (m.rmw q .value a).msg .value i = m.msg .value i := fun i hi => hm.old _ _ hi
  have hkn : ∀ v, pc v ≠ .reading → Has (m.rmw q .value a) v (join u.cur ((m.rmw q .value a).msg .value (m.top .value + 1)).view) := by
    intro v hv
    refine Has.put hm (by simp) ?_
    show m.top (.own v) ≤ max (u.cur (.own v)) _
    rw [rmw_view q (by simp)]
    refine (h.kn v hv).trans (join_le ?_ ?_)
    · exact Nat.le_trans (hc _ (by simp)) (Nat.le_max_left _ _)
    · exact Nat.le_trans (le_join_right _ _ _) (Nat.le_max_right _ _)
  refine { z := fun hw i hi hi' hv v => ?_, lk := fun v hv i hi hi' => ?_, fr := fun hp => ?_, wc := fun x => ?_
           cs := fun v hv => (h.cs v hv).put hm (by simp)
           kn := fun v hv => by rw [htop]; exact hkn v hv, oc := fun v => (h.oc v).put hm (by simp), ex := fun hp v => (hx hp v).put hm (by simp) }
  · rw [htop] at hi'
    have h1 := hz hw
    obtain rfl : i = m.top .value + 1 := by omega
    rw [hm.new] at hv
    exact ⟨h1.2 hv v, hkn v (h1.2 hv v)⟩
  · rw [htop] at hi'
    by_cases e : i ≤ m.top .value
    · rw [hold i e]; exact h.lk v hv i hi e
    · obtain rfl : i = m.top .value + 1 := by omega
      rw [hm.new]; exact hlk v hv
  · rw [htop]
    refine All.put hm (by simp) fun x => ?_
    rw [rmw_view q (by simp)]
    rcases hf hp with h1 | h1
    · exact Nat.le_trans (h.fr h1 x) (le_join_right _ _ _)
    · exact Nat.le_trans (h1 x) (le_join_left _ _ _)
  · rw [hm.top_ne (by simp)]; exact Nat.le_trans (h.wc x) (hc _ (by simp))

end

/-! ## Steps -/

theorem load_has {m : Mem (Loc n) Word} {q : Th (Loc n)} {i : Nat} {t : Fin n} (h : Has m t (join q.cur (m.msg .value i).view)) :
    Has m t ((q.load m .value i).fenceAcq).cur :=
  Nat.le_trans h (join_le (Nat.le_trans (Th.load_cur_le _ _ _ _ _) (le_join_left _ _ _)) (Nat.le_trans (Th.load_view_le _ _ _ _ _) (le_join_right _ _ _)))

theorem rmw_has {m : Mem (Loc n) Word} {q : Th (Loc n)} {t : Fin n} (h : Has m t (join q.cur (m.msg .value (m.top .value)).view)) :
    Has m t ((q.rmw m .value).fenceAcq).cur := by
  refine Nat.le_trans h (join_le ?_ ?_)
  · exact Nat.le_trans (Th.rmw_cur_le _ _ _ (by simp)) (le_join_left _ _ _)
  · exact Nat.le_trans (Th.load_view_le _ _ _ _ _) (le_join_right _ _ _)

theorem good_wlock {s s' : St n} (hn : n + 1 < 2 ^ 30) (hg : Good s) (hs : step real s .wlock = some s') : Good s' := by
  simp only [step] at hs
  split at hs <;> simp only [Option.some.injEq, reduceCtorEq] at hs
  next hp =>
  subst hs
  refine ⟨Rw.Swlock.inv_step hn (a := .wlock) hg.sc ?_, ?_⟩
  · simp only [Rw.Swlock.step, abs, hp, if_true]
  · exact hg.v.goW (fun _ => Nat.le_refl _) nofun (fun _ => by rw [hp]; rfl) nofun

theorem good_wlatch {s s' : St n} (hn : n + 1 < 2 ^ 30) (hg : Good s) (hs : step real s .wlatch = some s') : Good s' := by
  simp only [step] at hs
  split at hs <;> simp only [Option.some.injEq, reduceCtorEq] at hs
  next hp =>
  subst hs
  refine ⟨Rw.Swlock.inv_step hn (a := .wlatch) hg.sc ?_, ?_⟩
  · simp only [Rw.Swlock.step, abs, hp, if_true]
  · exact hg.v.goW (fun _ => Nat.le_refl _) nofun (fun _ => by rw [hp]; rfl) nofun

theorem unread {s : St n} (hn : n + 1 < 2 ^ 30) (hg : Good s) (h : s.mem.last .value &&& RM = 0) (t : Fin n) : s.pc t ≠ .reading :=
  Rw.Swlock.none_reading (by have := (hg.sc.and_RM hn).1 h; simp only [abs] at this; omega) t

theorem noleak {s : St n} (hg : Good s) (h : s.wpc.lb = false) (t : Fin n) : ¬ s.leak t = true := by
  rw [show s.leak t = false from hg.sc.lk h t]; simp

theorem good_wtrylock {s s' : St n} (hn : n + 1 < 2 ^ 30) (hg : Good s) (hs : step real s .wtrylock = some s') : Good s' := by
  simp only [step] at hs
  split at hs <;> simp only [Option.some.injEq, reduceCtorEq] at hs
  next hp =>
  subst hs
  have hm := Put.rmw s.mem s.wth .value WB
  refine ⟨Rw.Swlock.inv_step hn (a := .wtrylock) hg.sc ?_, ?_⟩
  · simp only [Rw.Swlock.step, abs, hp.1, hp.2, if_true, hm.last]
  · have hr := unread hn hg (by rw [hp.2]; rfl)
    exact hg.v.rmwW nofun (fun _ _ => by decide) (fun y hy => Nat.le_trans (Th.rmw_cur_le _ _ _ hy) (le_join_left _ _ _)) nofun
      fun _ t => rmw_has (hg.v.kn t (hr t))

theorem good_wunlock {s s' : St n} (hn : n + 1 < 2 ^ 30) (hg : Good s) (hs : step real s .wunlock = some s') : Good s' := by
  simp only [step] at hs
  split at hs <;> simp only [Option.some.injEq, reduceCtorEq] at hs
  next hp =>
  subst hs
  have hm := Put.rmw s.mem (opt real.wunlock Th.fenceRel s.wth) .value (s.mem.last .value &&& RM)
  refine ⟨Rw.Swlock.inv_step hn (a := .wunlock) hg.sc ?_, ?_⟩
  · simp only [Rw.Swlock.step, abs, hp, if_true, hm.last]
  · exact hg.v.rmwW nofun (fun v hv => absurd hv (noleak hg (by rw [hp]; rfl) v)) (fun y hy => Th.rmw_cur_le (opt real.wunlock Th.fenceRel s.wth) _ _ hy)
      (fun _ => .inr (hg.v.wc.mono fun _ => le_join_right _ _ _)) nofun

theorem good_wdowngrade {s s' : St n} (hn : n + 1 < 2 ^ 30) (hg : Good s) (hs : step real s .wdowngrade = some s') : Good s' := by
  simp only [step] at hs
  split at hs <;> simp only [Option.some.injEq, reduceCtorEq] at hs
  next hp =>
  subst hs
  have hm := Put.rmw s.mem s.wth .value (s.mem.last .value + 1)
  refine ⟨Rw.Swlock.inv_step hn (a := .wdowngrade) hg.sc ?_, ?_⟩
  · simp only [Rw.Swlock.step, abs, hp, if_true, hm.last]
  · exact hg.v.rmwW nofun (fun v hv => absurd hv (noleak hg (by rw [hp]; rfl) v)) (fun y hy => Th.rmw_cur_le _ _ _ hy) nofun nofun

theorem good_wrunlock {s s' : St n} (hn : n + 1 < 2 ^ 30) (hg : Good s) (hs : step real s .wrunlock = some s') : Good s' := by
  simp only [step] at hs
  split at hs <;> simp only [Option.some.injEq, reduceCtorEq] at hs
  next hp =>
  subst hs
  have hm := Put.rmw s.mem (opt real.runlock Th.fenceRel s.wth) .value (s.mem.last .value - 1)
  refine ⟨Rw.Swlock.inv_step hn (a := .wrunlock) hg.sc ?_, ?_⟩
  · simp only [Rw.Swlock.step, abs, hp, if_true, hm.last]
  · exact hg.v.rmwW nofun (fun v hv => absurd hv (noleak hg (by rw [hp]; rfl) v)) (fun y hy => Th.rmw_cur_le (opt real.runlock Th.fenceRel s.wth) _ _ hy)
      (fun _ => .inl (by rw [hp]; rfl)) nofun

theorem good_wunlatch {s s' : St n} (hn : n + 1 < 2 ^ 30) (hg : Good s) (hs : step real s .wunlatch = some s') : Good s' := by
  simp only [step] at hs
  split at hs <;> simp only [Option.some.injEq, reduceCtorEq] at hs
  next hp =>
  subst hs
  have hm := Put.store s.mem (opt real.unlatch Th.fenceRel s.wth) .value 0
  refine ⟨Rw.Swlock.inv_step hn (a := .wunlatch) hg.sc ?_, ?_⟩
  · simp only [Rw.Swlock.step, abs, hp, if_true, hm.last]
  · have hx := hg.v.ex (by rw [hp]; rfl)
    exact
      { z := nofun, lk := nofun
        fr := fun _ => by
          rw [hm.msg_at]
          refine All.put hm (by simp) fun x => ?_
          simp only [upd_ne _ _ (show Loc.usr x ≠ .value by simp)]
          exact Nat.le_trans (hg.v.wc x) (le_join_right _ _ _)
        wc := fun x => by
          rw [hm.top_ne (by simp)]
          exact Nat.le_trans (hg.v.wc x) (Th.store_cur_le (opt real.unlatch Th.fenceRel s.wth) _ _ (by simp))
        cs := fun t ht => (hg.v.cs t ht).put hm (by simp)
        kn := fun t _ => ((hx t).put hm (by simp)).trans
          (Nat.le_trans (Th.store_cur_le (opt real.unlatch Th.fenceRel s.wth) s.mem .value (by simp)) (le_join_left _ _ _))
        oc := fun t => (hg.v.oc t).put hm (by simp), ex := nofun }

theorem good_wrun {s s' : St n} (hn : n + 1 < 2 ^ 30) (hg : Good s) {i : Nat} (hs : step real s (.wrun i) = some s') : Good s' := by
  have hnl : s.wpc.lb = false → ∀ v, s.leak v = true → False := fun h v => noleak hg h v
  cases hp : s.wpc <;> simp only [step, hp] at hs
  case lkOr =>
    simp only [Option.some.injEq] at hs; subst hs
    have hm := Put.rmw s.mem s.wth .value (s.mem.last .value ||| WB)
    have hsc : Rw.Swlock.Inv (abs { s with mem := s.mem.rmw s.wth .value (s.mem.last .value ||| WB), wth := s.wth.rmw s.mem .value, wpc := .lkWait }) := by
      refine Rw.Swlock.inv_step hn (a := .wrun) hg.sc ?_
      simp only [Rw.Swlock.step, abs, hp, if_true, hm.last]
    refine ⟨hsc, ?_⟩
    refine hg.v.rmwW (fun _ => ⟨by simp [Th.rmw, Th.store], fun h => ?_⟩) (fun v hv => (hnl (by rw [hp]; rfl) v hv).elim)
      (fun y hy => Th.rmw_cur_le _ _ _ hy) (fun _ => .inl (by rw [hp]; rfl)) nofun
    refine Rw.Swlock.none_reading ?_
    have := (hsc.and_RM hn).1 (by simp only [abs, hm.last, if_true]; exact h)
    simp only [abs] at this
    omega
  case lkWait =>
    split at hs
    · next hmay =>
      split at hs <;> simp only [Option.some.injEq] at hs <;> subst hs
      · next hv =>
        have h1 := hg.v.z hp i hmay.1 hmay.2 hv
        refine ⟨?_, ?_⟩
        · exact hg.sc.wstep (p := .writing) (hg.sc.val.trans (by rw [show (abs s).wpc = _ from hp]; rfl)) (fun _ => .inr fun t => (h1 t).1) nofun
            (by rw [show (abs s).wpc = _ from hp]; rfl)
        · exact hg.v.goW (fun y => Nat.le_trans (Th.load_cur_le _ _ _ _ _) (le_join_left _ _ _)) nofun nofun fun _ t => load_has (h1 t).2
      · refine ⟨by have := hg.sc; simp only [abs, hp] at this; exact this, ?_⟩
        exact hg.v.goW (Th.load_cur_le _ _ _ _) (fun _ => hp) (fun _ => by rw [hp]; rfl) nofun
    · cases hs
  case ltOr =>
    simp only [Option.some.injEq] at hs; subst hs
    have hm := Put.rmw s.mem s.wth .value (s.mem.last .value ||| WB)
    refine ⟨Rw.Swlock.inv_step hn (a := .wrun) hg.sc ?_, ?_⟩
    · simp only [Rw.Swlock.step, abs, hp, if_true, hm.last]
    · exact hg.v.rmwW nofun (fun v hv => (hnl (by rw [hp]; rfl) v hv).elim)
        (fun y hy => Th.rmw_cur_le _ _ _ hy) (fun _ => .inl (by rw [hp]; rfl)) nofun
  case ltCas =>
    split at hs <;> simp only [Option.some.injEq, reduceCtorEq] at hs
    next hv =>
    subst hs
    have hm := Put.rmw s.mem s.wth .value WM
    refine ⟨Rw.Swlock.inv_step hn (a := .wrun) hg.sc ?_, ?_⟩
    · simp only [Rw.Swlock.step, abs, hp, hv, if_true, hm.last]
    · have hr := unread hn hg (by rw [hv]; rfl)
      exact hg.v.rmwW nofun (fun _ _ => by decide) (fun y hy => Nat.le_trans (Th.rmw_cur_le _ _ _ hy) (le_join_left _ _ _)) nofun
        fun _ t => rmw_has (hg.v.kn t (hr t))
  case ltWait =>
    split at hs
    · split at hs <;> simp only [Option.some.injEq] at hs <;> subst hs
      · refine ⟨?_, ?_⟩
        · exact hg.sc.wstep (p := .ltCas) (hg.sc.val.trans (by rw [show (abs s).wpc = _ from hp]; rfl)) nofun nofun (by rw [show (abs s).wpc = _ from hp]; rfl)
        · exact hg.v.goW (Th.load_cur_le _ _ _ _) nofun (fun _ => by rw [hp]; rfl) nofun
      · refine ⟨by have := hg.sc; simp only [abs, hp] at this; exact this, ?_⟩
        exact hg.v.goW (Th.load_cur_le _ _ _ _) nofun (fun _ => by rw [hp]; rfl) nofun
    · cases hs
  case dgAnd =>
    simp only [Option.some.injEq] at hs; subst hs
    have hm := Put.rmw s.mem (opt real.wunlock Th.fenceRel s.wth) .value (s.mem.last .value &&& RM)
    refine ⟨Rw.Swlock.inv_step hn (a := .wrun) hg.sc ?_, ?_⟩
    · simp only [Rw.Swlock.step, abs, hp, if_true, hm.last]
    · exact hg.v.rmwW nofun (fun v hv => (hnl (by rw [hp]; rfl) v hv).elim) (fun y hy => Th.rmw_cur_le (opt real.wunlock Th.fenceRel s.wth) _ _ hy)
        (fun _ => .inr (hg.v.wc.mono fun _ => le_join_right _ _ _)) nofun
  all_goals cases hs

theorem good_fails {s s' : St n} (hg : Good s) {i : Nat} (hs : step real s (.wfail i) = some s' ∨ step real s (.wtryfail i) = some s') : Good s' := by
  rcases hs with hs | hs <;> simp only [step] at hs <;> split at hs <;> simp only [Option.some.injEq, reduceCtorEq] at hs <;> subst hs <;> rename_i hp
  · refine ⟨?_, ?_⟩
    · exact hg.sc.wstep (p := .ltWait) (hg.sc.val.trans (by rw [show (abs s).wpc = _ from hp.1]; rfl)) nofun nofun (by rw [show (abs s).wpc = _ from hp.1]; rfl)
    · exact hg.v.goW (Th.load_cur_le _ _ _ _) nofun (fun _ => by rw [hp.1]; rfl) nofun
  · exact ⟨hg.sc, hg.v.goW (Th.load_cur_le _ _ _ _) id id (fun e => by rw [hp.1] at e; cases e)⟩

theorem good_rlock {s s' : St n} (hn : n + 1 < 2 ^ 30) (hg : Good s) {t : Fin n} (hs : step real s (.rlock t) = some s') : Good s' := by
  simp only [step] at hs
  split at hs <;> simp only [Option.some.injEq, reduceCtorEq] at hs
  next hp =>
  subst hs
  refine ⟨Rw.Swlock.inv_step hn (a := .rlock t) hg.sc ?_, ?_⟩
  · simp only [Rw.Swlock.step, abs, hp, if_true]
  · have := hg.v.goR (t := t) (q := s.th t) (p := .rLoad false) (fun _ => Nat.le_refl _) (by simp [hp])
    rwa [upd_eq_self] at this

theorem good_rtrylock {s s' : St n} (hn : n + 1 < 2 ^ 30) (hg : Good s) {t : Fin n} (hs : step real s (.rtrylock t) = some s') : Good s' := by
  simp only [step] at hs
  split at hs <;> simp only [Option.some.injEq, reduceCtorEq] at hs
  next hp =>
  subst hs
  refine ⟨Rw.Swlock.inv_step hn (a := .rtrylock t) hg.sc ?_, ?_⟩
  · simp only [Rw.Swlock.step, abs, hp, if_true]
  · have := hg.v.goR (t := t) (q := s.th t) (p := .rLoad true) (fun _ => Nat.le_refl _) (by simp [hp])
    rwa [upd_eq_self] at this

/-- Counts of readers of the word after a step. -/
theorem z_of {s' : St n} (hn : n + 1 < 2 ^ 30) (hi : Rw.Swlock.Inv (abs s')) (h : s'.mem.last .value &&& RM = 0) (v : Fin n) :
    s'.pc v ≠ .reading :=
  Rw.Swlock.none_reading (by have := (hi.and_RM hn).1 h; simp only [abs] at this; omega) v

theorem again_ne (b : Bool) : again b ≠ .reading := by cases b <;> simp [again]

/-- While the latch is set the writer bit is, too. -/
theorem leak_bit {s : St n} (hn : n + 1 < 2 ^ 30) (hi : Rw.Swlock.Inv (abs s)) {v : Fin n} (hv : s.leak v = true) : s.mem.last .value &&& WB ≠ 0 := by
  intro h
  have h1 := (hi.and_WB hn).1 h
  have : (abs s).wpc.lb = false := by
    cases e : (abs s).wpc.lb
    · rfl
    · rw [Rw.Swlock.lb_wb _ e] at h1; cases h1
  have := hi.lk this v
  rw [show (abs s).leak v = true from hv] at this
  cases this

theorem good_runlock {s s' : St n} (hn : n + 1 < 2 ^ 30) (hg : Good s) {t : Fin n} (hs : step real s (.runlock t) = some s') : Good s' := by
  simp only [step] at hs
  split at hs <;> simp only [Option.some.injEq, reduceCtorEq] at hs
  next hp =>
  have hm := Put.rmw s.mem (opt real.runlock Th.fenceRel (s.th t)) .value (s.mem.last .value - 1)
  have hsc : Rw.Swlock.Inv (abs s') := by
    subst hs
    refine Rw.Swlock.inv_step hn (a := .runlock t) hg.sc ?_
    simp only [Rw.Swlock.step, abs, hp, if_true, hm.last]
  have hz := z_of hn hsc
  have hl := fun v => leak_bit (v := v) hn hsc
  refine ⟨hsc, ?_⟩
  subst hs
  simp only [hm.last, if_true] at hz hl
  exact hg.v.rmwR (fun _ => ⟨by simp, hz⟩) (fun v hv => ⟨hl v hv, fun _ => hv⟩) (by simp [Th.rmw, Th.store])
    (Th.rmw_cur_le (opt real.runlock Th.fenceRel (s.th t)) _ _ (by simp)) nofun (fun _ _ => (hg.v.oc t).mono fun _ => le_join_right _ _ _)

theorem good_run {s s' : St n} (hn : n + 1 < 2 ^ 30) (hg : Good s) {t : Fin n} {i : Nat} (hs : step real s (.run t i) = some s') : Good s' := by
  cases hp : s.pc t <;> simp only [step, hp] at hs
  case rLoad b =>
    split at hs
    · next hmay =>
      split at hs <;> simp only [Option.some.injEq] at hs <;> subst hs
      · next hv =>
        refine ⟨hg.sc.rstep (t := t) (p := .rFaa b) ?_ nofun nofun fun _ _ => ?_, ?_⟩
        · refine hg.sc.val.trans ?_; rw [show (abs s).pc t = _ from hp]; rfl
        · cases e : s.leak t
          · exact e
          · exact absurd hv (hg.v.lk t e i hmay.1 hmay.2)
        · exact hg.v.goR (Th.load_cur_le _ _ _ _) (by simp [hp])
      · refine ⟨hg.sc.rstep (t := t) (p := again b) ?_ (fun e => absurd e (again_ne b)) (fun e => ?_) (fun _ e => ?_), ?_⟩
        · refine hg.sc.val.trans ?_; rw [show (abs s).pc t = _ from hp]; cases b <;> rfl
        · cases b <;> cases e
        · cases b <;> cases e
        · exact hg.v.goR (Th.load_cur_le _ _ _ _) (by simp [hp, again_ne])
    · cases hs
  case rFaa b =>
    have hm := Put.rmw s.mem (s.th t) .value (s.mem.last .value + 1)
    split at hs
    · next h0 =>
      simp only [Option.some.injEq] at hs
      have hsc : Rw.Swlock.Inv (abs s') := by
        subst hs
        refine Rw.Swlock.inv_step hn (a := .run t) hg.sc ?_
        simp only [Rw.Swlock.step, abs, hp, h0, if_true, hm.last]
      have h1 := (hg.sc.and_WM0 hn).1 h0
      simp only [abs] at h1
      have hl := fun v => leak_bit (v := v) hn hsc
      refine ⟨hsc, ?_⟩
      subst hs
      simp only [hm.last, if_true] at hl
      refine hg.v.rmwR (fun e => by rw [e] at h1; cases h1.1) (fun v hv => ⟨hl v hv, fun _ => hv⟩) ?_ ?_ (fun _ => ?_) (fun e => by rw [hp] at e; cases e)
      · exact Nat.le_trans (by simp [Th.rmw, Th.store]) (le_join_left _ _ _)
      · exact Nat.le_trans (Th.rmw_cur_le _ _ _ (by simp)) (le_join_left _ _ _)
      · refine (hg.v.fr ?_).mono fun y => Nat.le_trans (Th.load_view_le _ _ _ _ _) (le_join_right _ _ _)
        revert h1
        cases s.wpc <;> simp [WPC.wb, WPC.lb, priv]
    · next h0 =>
      split at hs <;> simp only [Option.some.injEq] at hs
      · next h1 =>
        have hsc : Rw.Swlock.Inv (abs s') := by
          subst hs
          refine Rw.Swlock.inv_step hn (a := .run t) hg.sc ?_
          simp only [Rw.Swlock.step, abs, hp, h1, show ¬ WB = 0 by decide, if_true, if_false, hm.last]
        have hz := z_of hn hsc
        have hl := fun v => leak_bit (v := v) hn hsc
        refine ⟨hsc, ?_⟩
        subst hs
        simp only [hm.last, if_true] at hz hl
        exact hg.v.rmwR (fun _ => ⟨by simp, hz⟩) (fun v hv => ⟨hl v hv, fun _ => hv⟩) (by simp [Th.rmw, Th.store])
          (Th.rmw_cur_le _ _ _ (by simp)) nofun (fun e => by rw [hp] at e; cases e)
      · next h1 =>
        have hsc : Rw.Swlock.Inv (abs s') := by
          subst hs
          refine Rw.Swlock.inv_step hn (a := .run t) hg.sc ?_
          simp only [Rw.Swlock.step, abs, hp, h0, h1, if_true, if_false, hm.last]
        have hz := z_of hn hsc
        have hl := fun v => leak_bit (v := v) hn hsc
        refine ⟨hsc, ?_⟩
        subst hs
        simp only [hm.last, if_true] at hz hl
        exact hg.v.rmwR (fun _ => ⟨again_ne b, hz⟩) (fun v hv => ⟨hl v hv, fun e => by simp only [upd_ne _ _ e] at hv; exact hv⟩) (by simp [Th.rmw, Th.store])
          (Th.rmw_cur_le _ _ _ (by simp)) (fun e => absurd e (again_ne b)) (fun e => by rw [hp] at e; cases e)
  case rDec b =>
    simp only [Option.some.injEq] at hs
    have hm := Put.rmw s.mem (s.th t) .value (s.mem.last .value - 1)
    have hsc : Rw.Swlock.Inv (abs s') := by
      subst hs
      refine Rw.Swlock.inv_step hn (a := .run t) hg.sc ?_
      simp only [Rw.Swlock.step, abs, hp, if_true, hm.last]
    have hz := z_of hn hsc
    have hl := fun v => leak_bit (v := v) hn hsc
    refine ⟨hsc, ?_⟩
    subst hs
    simp only [hm.last, if_true] at hz hl
    exact hg.v.rmwR (fun _ => ⟨again_ne b, hz⟩) (fun v hv => ⟨hl v hv, fun _ => hv⟩) (by simp [Th.rmw, Th.store])
      (Th.rmw_cur_le _ _ _ (by simp)) (fun e => absurd e (again_ne b)) (fun e => by rw [hp] at e; cases e)
  all_goals cases hs

theorem good_client {s s' : St n} (hg : Good s) {a : Act n} (ha : (∃ x i, a = .wread x i) ∨ (∃ t i, a = .wget t i) ∨ ∃ t x i, a = .rread t x i)
    (hs : step real s a = some s') : Good s' := by
  rcases ha with ⟨x, i, rfl⟩ | ⟨x, i, rfl⟩ | ⟨t, x, i, rfl⟩ <;> simp only [step] at hs <;> split at hs <;>
    simp only [Option.some.injEq, reduceCtorEq] at hs <;> subst hs
  · exact ⟨hg.sc, hg.v.goW (Th.load_cur_le _ _ _ _) id id fun e t => (hg.v.ex e t).mono (Th.load_cur_le _ _ _ _)⟩
  · exact ⟨hg.sc, hg.v.goW (Th.load_cur_le _ _ _ _) id id fun e t => (hg.v.ex e t).mono (Th.load_cur_le _ _ _ _)⟩
  · refine ⟨hg.sc, ?_⟩
    have := hg.v.goR (t := t) (q := (s.th t).load s.mem (.usr x) i) (p := s.pc t) (Th.load_cur_le _ _ _ _) Iff.rfl
    rwa [upd_eq_self] at this

theorem good_wwrite {s s' : St n} (hg : Good s) {x : Nat} {v : Word} (hs : step real s (.wwrite x v) = some s') : Good s' := by
  simp only [step] at hs
  split at hs <;> simp only [Option.some.injEq, reduceCtorEq] at hs
  next hx =>
  subst hs
  have hm := Put.store s.mem s.wth (.usr x) v
  have hval : ∀ i, (s.mem.store s.wth (.usr x) v).msg .value i = s.mem.msg .value i := fun i => by simp only [Mem.store]; rw [upd_ne _ _ (by simp)]
  have htop : (s.mem.store s.wth (.usr x) v).top .value = s.mem.top .value := hm.top_ne (by simp)
  have hnr : ∀ t, s.pc t ≠ .reading := hg.sc.ex hx
  refine ⟨?_, ?_⟩
  · have := hg.sc
    simp only [abs, hm.last, reduceCtorEq, if_false]
    exact this
  · have hc : ∀ y, y ≠ .usr x → s.wth.cur y ≤ (s.wth.store s.mem (.usr x)).cur y := fun y hy => Th.store_cur_le _ _ _ hy
    refine { z := fun e => ?_, lk := fun t ht i hi hi' => ?_, fr := fun e => ?_, wc := fun y => ?_, cs := fun t ht => absurd ht (hnr t)
             kn := fun t ht => ?_, oc := fun t => (hg.v.oc t).put hm (by simp), ex := fun e t => ?_ }
    · simp only at e
      rw [e] at hx; cases hx
    · rw [hval]
      rw [htop] at hi'
      exact hg.v.lk t ht i hi hi'
    · simp only at e
      revert hx e; cases s.wpc <;> simp [WPC.ex, priv]
    · by_cases e : y = x
      · subst e
        rw [hm.top, if_pos rfl]
        simp [Th.store]
      · rw [hm.top_ne (by simpa using e)]
        exact Nat.le_trans (hg.v.wc y) (hc _ (by simpa using e))
    · rw [htop, hval]
      exact ((hg.v.kn t ht).put hm (by simp)).trans (Nat.max_le.2 ⟨Nat.le_trans (hc _ (by simp)) (le_join_left _ _ _), le_join_right _ _ _⟩)
    · exact ((hg.v.ex e t).put hm (by simp)).trans (hc _ (by simp))

theorem good_rwrite {s s' : St n} (hg : Good s) {t : Fin n} {v : Word} (hs : step real s (.rwrite t v) = some s') : Good s' := by
  simp only [step] at hs
  split at hs <;> simp only [Option.some.injEq, reduceCtorEq] at hs
  next hp =>
  subst hs
  have hm := Put.store s.mem (s.th t) (.own t) v
  have hval : ∀ i, (s.mem.store (s.th t) (.own t) v).msg .value i = s.mem.msg .value i := fun i => by simp only [Mem.store]; rw [upd_ne _ _ (by simp)]
  have htop : (s.mem.store (s.th t) (.own t) v).top .value = s.mem.top .value := hm.top_ne (by simp)
  refine ⟨?_, ?_⟩
  · have := hg.sc
    simp only [abs, hm.last, reduceCtorEq, if_false]
    exact this
  · have hc : ∀ y, y ≠ .own t → (s.th t).cur y ≤ ((s.th t).store s.mem (.own t)).cur y := fun y hy => Th.store_cur_le _ _ _ hy
    have ho : ∀ u, u ≠ t → (Loc.own u : Loc n) ≠ .own t := fun u hu => by simpa using hu
    show V (s.mem.store (s.th t) (.own t) v) s.wth (upd s.th t ((s.th t).store s.mem (.own t))) s.wpc s.pc s.leak
    refine { z := fun e i hi hi' hv => ?_, lk := fun u hu i hi hi' => ?_, fr := fun e => ?_, wc := hg.v.wc.put hm (by simp), cs := fun u hu => ?_
             kn := fun u hu => ?_, oc := fun u => ?_, ex := fun e => absurd hp (hg.sc.ex e t) }
    · rw [hval] at hv
      rw [htop] at hi'
      exact absurd hp (hg.v.z e i hi hi' hv t).1
    · rw [hval]
      rw [htop] at hi'
      refine hg.v.lk u hu i ?_ hi'
      by_cases e : u = t
      · subst e
        rw [upd_same] at hi
        exact Nat.le_trans (hc _ (by simp)) hi
      · rwa [upd_ne _ _ e] at hi
    · rw [htop, hval]
      exact (hg.v.fr e).put hm (by simp)
    · refine All.put hm (by simp) ?_
      by_cases e : u = t
      · subst e
        rw [upd_same]
        exact fun x => Nat.le_trans (hg.v.cs u hu x) (hc _ (by simp))
      · rw [upd_ne _ _ e]
        exact hg.v.cs u hu
    · rw [htop, hval]
      exact (hg.v.kn u hu).put hm (ho u fun e => hu (e ▸ hp))
    · by_cases e : u = t
      · subst e
        unfold Has
        rw [upd_same, hm.top, if_pos rfl]
        simp [Th.store]
      · rw [upd_ne _ _ e]
        exact (hg.v.oc u).put hm (ho u e)

theorem good_step {s s' : St n} (hn : n + 1 < 2 ^ 30) (hg : Good s) {a : Act n} (hs : step real s a = some s') : Good s' := by
  cases a
  case wlock => exact good_wlock hn hg hs
  case wtrylock => exact good_wtrylock hn hg hs
  case wunlock => exact good_wunlock hn hg hs
  case wdowngrade => exact good_wdowngrade hn hg hs
  case wlatch => exact good_wlatch hn hg hs
  case wunlatch => exact good_wunlatch hn hg hs
  case wrunlock => exact good_wrunlock hn hg hs
  case wrun => exact good_wrun hn hg hs
  case wfail => exact good_fails hg (.inl hs)
  case wtryfail => exact good_fails hg (.inr hs)
  case rlock => exact good_rlock hn hg hs
  case rtrylock => exact good_rtrylock hn hg hs
  case runlock => exact good_runlock hn hg hs
  case run => exact good_run hn hg hs
  case wread => exact good_client hg (.inl ⟨_, _, rfl⟩) hs
  case wget => exact good_client hg (.inr (.inl ⟨_, _, rfl⟩)) hs
  case rread => exact good_client hg (.inr (.inr ⟨_, _, _, rfl⟩)) hs
  case wwrite => exact good_wwrite hg hs
  case rwrite => exact good_rwrite hg hs

theorem good_init : Good (initSt n) :=
  ⟨Rw.Swlock.init_inv, { z := nofun, lk := nofun, fr := fun _ _ => Nat.le_refl _, wc := fun _ => Nat.le_refl _, cs := nofun
                         kn := fun _ _ => Nat.zero_le _, oc := fun _ => Nat.le_refl _, ex := nofun }⟩

theorem good_reach (hn : n + 1 < 2 ^ 30) {s : St n} (h : (sys real n).Reach s) : Good s :=
  h.invariant (I := Good) (by rintro s rfl; exact good_init) fun _ _ _ hg hs => good_step hn hg hs

/-! ## Theorems -/

/-- C81: while the writer has the lock or the latch no reader has the lock. -/
theorem rw_exclusion (hn : n + 1 < 2 ^ 30) {s : St n} (h : (sys real n).Reach s) (hw : s.writes) (t : Fin n) : ¬ s.reads t := by
  refine (good_reach hn h).sc.ex ?_ t
  rcases hw with e | e <;> simp only [abs, e] <;> rfl

/-- C81: with no operation in progress the newest value of the word is the number of readers. -/
theorem count_exact (hn : n + 1 < 2 ^ 30) {s : St n} (h : (sys real n).Reach s) (hw : s.wpc = .idle ∨ s.wpc = .reading)
    (hq : ∀ t, s.pc t = .idle ∨ s.pc t = .reading) :
    (s.mem.last .value).toNat = cnt (· = PC.reading) s.pc + if s.wpc = .reading then 1 else 0 :=
  (good_reach hn h).sc.count hn hw hq

/-- C81: a reader loads the newest value of any data word. -/
theorem reads_last (hn : n + 1 < 2 ^ 30) {s s' : St n} (h : (sys real n).Reach s) {t : Fin n} {x i : Nat}
    (hs : (sys real n).step s (.rread t x i) = some s') : (s.mem.msg (.usr x) i).val = s.mem.last (.usr x) := by
  simp only [sys, step] at hs
  split at hs
  · next hp => rw [show i = s.mem.top (.usr x) from Nat.le_antisymm hp.2.2 (Nat.le_trans ((good_reach hn h).v.cs t hp.1 x) hp.2.1)]; rfl
  · cases hs

/-- C81: the writer loads the newest value stored by each reader, and of any data word. -/
theorem wreads_last (hn : n + 1 < 2 ^ 30) {s s' : St n} (h : (sys real n).Reach s) :
    (∀ t i, (sys real n).step s (.wget t i) = some s' → (s.mem.msg (.own t) i).val = s.mem.last (.own t)) ∧
      ∀ x i, (sys real n).step s (.wread x i) = some s' → (s.mem.msg (.usr x) i).val = s.mem.last (.usr x) := by
  refine ⟨fun t i hs => ?_, fun x i hs => ?_⟩ <;> simp only [sys, step] at hs <;> split at hs
  · next hp => rw [show i = s.mem.top (.own t) from Nat.le_antisymm hp.2.2 (Nat.le_trans ((good_reach hn h).v.ex hp.1 t) hp.2.1)]; rfl
  · cases hs
  · next hp => rw [show i = s.mem.top (.usr x) from Nat.le_antisymm hp.2.2 (Nat.le_trans ((good_reach hn h).v.wc x) hp.2.1)]; rfl
  · cases hs

/-! ## The fences are needed -/

/-- The run `as` is possible. -/
def can (fc : Fences) (as : List (Act 1)) : Bool := ((sys fc 1).run (initSt 1) as).isSome

/-- The writer locks, stores 5 and unlocks; the reader takes the lock. -/
def wrote : List (Act 1) := [.wlock, .wrun 0, .wrun 1, .wwrite 0 5, .wunlock, .rlock 0, .run 0 2, .run 0 0]

/-- The same with the latch. -/
def latched : List (Act 1) := [.wlatch, .wrun 0, .wrun 0, .wwrite 0 5, .wunlatch, .rlock 0, .run 0 3, .run 0 0]

/-- The reader takes the lock, stores 5 and unlocks; the writer takes the lock. -/
def readw : List (Act 1) := [.rlock 0, .run 0 0, .run 0 0, .rwrite 0 5, .runlock 0, .wlock, .wrun 0, .wrun 3]

theorem no_fence_rlock : can { real with rlock := false } (wrote ++ [.rread 0 0 0]) = true := by decide +kernel
theorem no_fence_wunlock : can { real with wunlock := false } (wrote ++ [.rread 0 0 0]) = true := by decide +kernel
theorem no_fence_unlatch : can { real with unlatch := false } (latched ++ [.rread 0 0 0]) = true := by decide +kernel
theorem no_fence_wlock : can { real with wlock := false } (readw ++ [.wget 0 0]) = true := by decide +kernel
theorem no_fence_runlock : can { real with runlock := false } (readw ++ [.wget 0 0]) = true := by decide +kernel

/-- With the fences the reader and the writer load 5. -/
example : can real (wrote ++ [.rread 0 0 0]) = false ∧ can real (wrote ++ [.rread 0 0 1]) = true ∧
    can real (latched ++ [.rread 0 0 0]) = false ∧ can real (latched ++ [.rread 0 0 1]) = true ∧
    can real (readw ++ [.wget 0 0]) = false ∧ can real (readw ++ [.wget 0 1]) = true := by decide +kernel

/-- A stale load of the reader (line 177), then it backs out; the writer sees the count go up and down. -/
example : can real [.rlock 0, .wlock, .wrun 0, .run 0 0, .run 0 0, .wrun 2, .run 0 0, .wrun 3, .wread 0 0] = true := by decide +kernel

end Verif.Weak.Swlock
