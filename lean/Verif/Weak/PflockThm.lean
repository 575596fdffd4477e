import Verif.Weak.Pflock

/-!
# Phase-fair lock on relaxed memory: exclusion, fairness, and what the holders load (C81)

The invariant of `Verif.Rw.Pflock` holds of the newest values.  Every change of a word is a read-modify-write operation, so the views of all
changes before are passed on.  The number of a value of `rout` or `wout` tells how often it was incremented.
-/

namespace Verif.Weak.Pflock

open Verif
open Verif.Rw.Pflock (PC)
open Fas (opt)

variable {n : Nat}

/-- The newest values. -/
def abs (s : St n) : Rw.Pflock.St n :=
  { rin := s.mem.last .rin, rout := s.mem.last .rout, win := s.mem.last .win, wout := s.mem.last .wout, pc := s.pc, q := s.q, ri := s.ri
    ro := s.ro, ph := s.ph, ann := s.ann, old := s.old, gph := s.gph, entries := s.entries, e0 := s.e0 }

/-- The view has all stores to the data. -/
def All (m : Mem Loc Word) (v : View Loc) : Prop := ∀ x, m.top (.usr x) ≤ v (.usr x)

theorem All.mono {m : Mem Loc Word} {v w : View Loc} (h : All m v) (hw : ∀ y, v y ≤ w y) : All m w := fun x => Nat.le_trans (h x) (hw _)

theorem All.put {m m' : Mem Loc Word} {v : View Loc} {l : Loc} {a : Word} {w : View Loc} (hm : Put m m' l a w) (hl : ∀ x, .usr x ≠ l)
    (h : All m v) : All m' v := fun x => by rw [hm.top_ne (hl x)]; exact h x

/-! ## Views -/

structure V (m : Mem Loc Word) (th : Fin n → Th Loc) (pc : Fin n → PC) (rel ro : Nat) (ann : Bool) (old : Fin n → Bool) : Prop where
  wt : m.top .wout = rel
  wo : ∀ i, i ≤ m.top .wout → (m.msg .wout i).val = BitVec.ofNat 32 i
  rt : m.top .rout = ro
  rv : ∀ i, i ≤ m.top .rout → (m.msg .rout i).val = BitVec.ofNat 32 (256 * i)
  sb : ∀ t w, pc t = .rSpin w → (th t).cur .rin ≤ m.top .rin
  ss : ∀ t w, pc t = .rSpin w → ann = true → old t = false →
    ∀ i, (th t).cur .rin ≤ i → i ≤ m.top .rin → (m.msg .rin i).val &&& 3 = w
  sv : ∀ t w, pc t = .rSpin w → ∀ i, (th t).cur .rin ≤ i → i ≤ m.top .rin → (m.msg .rin i).val &&& 3 ≠ w → All m (m.msg .rin i).view
  fr : (∀ u, pc u ≠ .writing) → All m (m.msg .rin (m.top .rin)).view
  ww : ∀ t r, pc t = .wWait r → All m (th t).acq
  cs : ∀ t, pc t = .reading ∨ pc t = .writing → All m (th t).cur

structure Good (s : St n) : Prop where
  sc : Rw.Pflock.Inv (abs s)
  v : V s.mem s.th s.pc s.q.rel s.ro s.ann s.old

section
variable {m m' : Mem Loc Word} {th : Fin n → Th Loc} {pc : Fin n → PC} {rel ro : Nat} {ann : Bool} {old : Fin n → Bool}

/-- A step of `t` that does not store. -/
theorem V.go (h : V m th pc rel ro ann old) {t : Fin n} {q : Th Loc} {p : PC} (hc : (th t).cur .rin ≤ q.cur .rin)
    (hb : ∀ w, p = .rSpin w → pc t = .rSpin w ∧ q.cur .rin ≤ m.top .rin) (hw : ∀ r, p = .wWait r → All m q.acq)
    (hn : pc t = .writing → p = .writing) (hcs : p = .reading ∨ p = .writing → All m q.cur) :
    V m (upd th t q) (upd pc t p) rel ro ann old := by
  refine { wt := h.wt, wo := h.wo, rt := h.rt, rv := h.rv, sb := fun u w hu => ?_, ss := fun u w hu ha ho i hi => ?_
           sv := fun u w hu i hi => ?_, fr := fun hu => ?_, ww := fun u r hu => ?_, cs := fun u hu => ?_ }
  · by_cases e : u = t
    · subst e; rw [upd_same] at *; exact (hb w hu).2
    · rw [upd_ne _ _ e] at *; exact h.sb u w hu
  · by_cases e : u = t
    · subst e; rw [upd_same] at *; exact h.ss u w (hb w hu).1 ha ho i (Nat.le_trans hc hi)
    · rw [upd_ne _ _ e] at *; exact h.ss u w hu ha ho i hi
  · by_cases e : u = t
    · subst e; rw [upd_same] at *; exact h.sv u w (hb w hu).1 i (Nat.le_trans hc hi)
    · rw [upd_ne _ _ e] at *; exact h.sv u w hu i hi
  · refine h.fr fun u e' => ?_
    have := hu u
    by_cases e : u = t
    · subst e; rw [upd_same] at this; exact this (hn e')
    · rw [upd_ne _ _ e] at this; exact this e'
  · by_cases e : u = t
    · subst e; rw [upd_same] at *; exact hw r hu
    · rw [upd_ne _ _ e] at *; exact h.ww u r hu
  · by_cases e : u = t
    · subst e; rw [upd_same] at *; exact hcs hu
    · rw [upd_ne _ _ e] at *; exact h.cs u hu

/-- A store to a word other than `rin`. -/
theorem V.other (h : V m th pc rel ro ann old) {l : Loc} {a : Word} {w : View Loc} (hm : Put m m' l a w) (hr : .rin ≠ l) (hl : ∀ x, .usr x ≠ l)
    {rel' ro' : Nat} (hwo : if l = .wout then rel' = rel + 1 ∧ a = BitVec.ofNat 32 (rel + 1) else rel' = rel)
    (hro : if l = .rout then ro' = ro + 1 ∧ a = BitVec.ofNat 32 (256 * (ro + 1)) else ro' = ro) :
    V m' th pc rel' ro' ann old := by
  refine { wt := ?_, wo := fun i hi => ?_, rt := ?_, rv := fun i hi => ?_, sb := fun u w hu => ?_, ss := fun u w hu ha ho i hi hi' => ?_
           sv := fun u w hu i hi hi' hv => ?_, fr := fun hu => ?_, ww := fun u r hu => (h.ww u r hu).put hm hl
           cs := fun u hu => (h.cs u hu).put hm hl }
  · split at hwo
    · next e => subst e; rw [hm.top, if_pos rfl, h.wt, hwo.1]
    · next e => rw [hm.top_ne (Ne.symm e), h.wt, hwo]
  · split at hwo
    · next e =>
      subst e
      by_cases e' : i ≤ m.top .wout
      · rw [hm.old _ _ e']; exact h.wo i e'
      · rw [hm.top, if_pos rfl] at hi
        obtain rfl : i = m.top .wout + 1 := by omega
        rw [hm.new, h.wt]
        exact hwo.2
    · next e =>
      rw [hm.top_ne (Ne.symm e)] at hi
      rw [hm.old _ _ hi]; exact h.wo i hi
  · split at hro
    · next e => subst e; rw [hm.top, if_pos rfl, h.rt, hro.1]
    · next e => rw [hm.top_ne (Ne.symm e), h.rt, hro]
  · split at hro
    · next e =>
      subst e
      by_cases e' : i ≤ m.top .rout
      · rw [hm.old _ _ e']; exact h.rv i e'
      · rw [hm.top, if_pos rfl] at hi
        obtain rfl : i = m.top .rout + 1 := by omega
        rw [hm.new, h.rt]
        exact hro.2
    · next e =>
      rw [hm.top_ne (Ne.symm e)] at hi
      rw [hm.old _ _ hi]; exact h.rv i hi
  · rw [hm.top_ne hr]; exact h.sb u w hu
  · rw [hm.top_ne hr] at hi'
    rw [hm.old _ _ hi']; exact h.ss u w hu ha ho i hi hi'
  · rw [hm.top_ne hr] at hi'
    rw [hm.old _ _ hi'] at hv ⊢
    exact (h.sv u w hu i hi hi' hv).put hm hl
  · rw [hm.msg_ne hr]; exact (h.fr hu).put hm hl

/-- A read-modify-write operation of `t` on `rin`; `t` itself does not wait for `rin`. -/
theorem V.rin (h : V m th pc rel ro ann old) {t : Fin n} {q u : Th Loc} {a : Word} {p : PC} {ann' : Bool} {old' : Fin n → Bool}
    (hs : ∀ w, p = .rSpin w → a &&& 3 = w ∧ u.cur .rin = m.top .rin + 1)
    (hss : ∀ u w, u ≠ t → pc u = .rSpin w → ann' = true → old' u = false → ann = true ∧ old u = false ∧ a &&& 3 = m.last .rin &&& 3)
    (hsv : a &&& 3 = m.last .rin &&& 3 ∨ All m q.rel ∨ ∀ u, pc u ≠ .writing)
    (hn : All m q.rel ∨ (pc t = .writing → p = .writing))
    (hw : ∀ r, p = .wWait r → All m u.acq) (hcs : p = .reading ∨ p = .writing → All m u.cur) :
    V (m.rmw q .rin a) (upd th t u) (upd pc t p) rel ro ann' old' := by
  have hm := Put.rmw m q .rin a
  have hl : ∀ x, Loc.usr x ≠ .rin := fun x => by simp
  have htop : (m.rmw q .rin a).top .rin = m.top .rin + 1 := by rw [hm.top, if_pos rfl]
  refine { wt := ?_, wo := fun i hi => ?_, rt := ?_, rv := fun i hi => ?_, sb := fun v w hv => ?_, ss := fun v w hv ha ho i hi hi' => ?_
           sv := fun v w hv i hi hi' hx => ?_, fr := fun hv => ?_, ww := fun v r hv => All.put hm hl ?_
           cs := fun v hv => All.put hm hl ?_ }
  · rw [hm.top_ne (by simp)]; exact h.wt
  · rw [hm.top_ne (by simp)] at hi
    rw [hm.old _ _ hi]; exact h.wo i hi
  · rw [hm.top_ne (by simp)]; exact h.rt
  · rw [hm.top_ne (by simp)] at hi
    rw [hm.old _ _ hi]; exact h.rv i hi
  · rw [htop]
    by_cases e : v = t
    · subst e; rw [upd_same] at *; have := (hs w hv).2; omega
    · rw [upd_ne _ _ e] at *; have := h.sb v w hv; omega
  · rw [htop] at hi'
    by_cases e : v = t
    · subst e
      rw [upd_same] at *
      have := hs w hv
      obtain rfl : i = m.top .rin + 1 := by omega
      rw [hm.new]
      exact this.1
    · rw [upd_ne _ _ e] at *
      obtain ⟨h1, h2, h3⟩ := hss v w e hv ha ho
      by_cases e' : i ≤ m.top .rin
      · rw [hm.old _ _ e']; exact h.ss v w hv h1 h2 i hi e'
      · obtain rfl : i = m.top .rin + 1 := by omega
        rw [hm.new]
        simp only
        rw [h3]
        exact h.ss v w hv h1 h2 _ (h.sb v w hv) (Nat.le_refl _)
  · rw [htop] at hi'
    by_cases e : v = t
    · subst e
      rw [upd_same] at *
      have := hs w hv
      obtain rfl : i = m.top .rin + 1 := by omega
      rw [hm.new] at hx
      exact absurd this.1 hx
    · rw [upd_ne _ _ e] at *
      refine All.put hm hl ?_
      by_cases e' : i ≤ m.top .rin
      · rw [hm.old _ _ e'] at hx ⊢; exact h.sv v w hv i hi e' hx
      · obtain rfl : i = m.top .rin + 1 := by omega
        rw [hm.new] at hx ⊢
        intro x
        simp only [upd_ne _ _ (hl x)]
        rcases hsv with h1 | h1 | h1
        · simp only at hx
          rw [h1] at hx
          exact Nat.le_trans (h.sv v w hv _ (h.sb v w hv) (Nat.le_refl _) hx x) (le_join_right _ _ _)
        · exact Nat.le_trans (h1 x) (le_join_left _ _ _)
        · exact Nat.le_trans (h.fr h1 x) (le_join_right _ _ _)
  · rw [hm.msg_at]
    refine All.put hm hl fun x => ?_
    simp only [upd_ne _ _ (hl x)]
    rcases hn with h1 | h1
    · exact Nat.le_trans (h1 x) (le_join_left _ _ _)
    · refine Nat.le_trans (h.fr (fun z e' => ?_) x) (le_join_right _ _ _)
      have := hv z
      by_cases e : z = t
      · subst e; rw [upd_same] at this; exact this (h1 e')
      · rw [upd_ne _ _ e] at this; exact this e'
  · by_cases e : v = t
    · subst e; rw [upd_same] at *; exact hw r hv
    · rw [upd_ne _ _ e] at *; exact h.ww v r hv
  · by_cases e : v = t
    · subst e; rw [upd_same] at *; exact hcs hv
    · rw [upd_ne _ _ e] at *; exact h.cs v hv

theorem V.flags (h : V m th pc rel ro ann old) {old' : Fin n → Bool} (ho : ∀ u w, pc u = .rSpin w → old' u = old u) :
    V m th pc rel ro ann old' :=
  { h with ss := fun u w hu ha h' => h.ss u w hu ha (by rw [← ho u w hu]; exact h') }

end

/-! ## Steps -/

theorem not_writing {s : St n} (hi : Rw.Pflock.Inv (abs s)) (ha : s.ann = false) (u : Fin n) : s.pc u ≠ .writing := fun e => by
  have := (hi.p2' u e).1
  rw [show (abs s).ann = s.ann from rfl, ha] at this
  cases this

theorem bits (x : Word) : (x + 0x100) &&& 3 = x &&& 3 := by
  apply BitVec.eq_of_toNat_eq
  have : (3 : BitVec 32).toNat = 2 ^ 2 - 1 := rfl
  rw [BitVec.toNat_and, BitVec.toNat_and, this, Nat.and_two_pow_sub_one_eq_mod, Nat.and_two_pow_sub_one_eq_mod, BitVec.toNat_add]
  have : (0x100 : BitVec 32).toNat = 256 := rfl
  omega

theorem good_wlock {s s' : St n} (hn : n < 2 ^ 24) (hg : Good s) {t : Fin n} {lag : Nat} (hs : step real lag s (.wlock t) = some s') : Good s' := by
  simp only [step] at hs
  split at hs <;> simp only [Option.some.injEq, reduceCtorEq] at hs
  next hp =>
  subst hs
  have hm := Put.rmw s.mem (s.th t) .win (s.mem.last .win + 1)
  refine ⟨Rw.Pflock.inv_step hn (a := .wlock t) hg.sc ?_, ?_⟩
  · simp only [Rw.Pflock.step, abs, hp, if_true, hm.last, reduceCtorEq, if_false]
  · exact (hg.v.other hm (by simp) (by simp) (by simp [Q.arrive]) (by simp)).go (Th.rmw_cur_le _ _ _ (by simp)) nofun nofun (fun e => by rw [hp] at e; cases e)
      (by rintro (h | h) <;> cases h)

theorem good_wunlock {s s' : St n} (hn : n < 2 ^ 24) (hg : Good s) {t : Fin n} {lag : Nat} (hs : step real lag s (.wunlock t) = some s') :
    Good s' := by
  simp only [step] at hs
  split at hs <;> simp only [Option.some.injEq, reduceCtorEq] at hs
  next hp =>
  subst hs
  have hm := Put.rmw s.mem (opt real.wunlock Th.fenceRel (s.th t)) .rin (s.mem.last .rin &&& 0xFFFFFFF0#32)
  have ha : All s.mem (opt real.wunlock Th.fenceRel (s.th t)).rel := (hg.v.cs t (.inr hp)).mono fun _ => le_join_right _ _ _
  refine ⟨Rw.Pflock.inv_step hn (a := .wunlock t) hg.sc ?_, ?_⟩
  · simp only [Rw.Pflock.step, abs, hp, if_true, hm.last, reduceCtorEq, if_false]
  · exact hg.v.rin nofun (by simp) (.inr (.inl ha)) (.inl ha) nofun (by rintro (h | h) <;> cases h)

theorem ann_of {s : St n} (hi : Rw.Pflock.Inv (abs s)) (h : s.mem.last .rin &&& 3 = 0) : s.ann = false := by
  have h1 : s.mem.last .rin = _ := hi.rin
  rw [h1, Rw.Pflock.and3 _ _ (Rw.Pflock.wb_lt _ _)] at h
  have h := Rw.Pflock.ofNat_inj (b := 0) h
  cases ha : s.ann
  · rfl
  · rw [show (abs s).ann = s.ann from rfl, ha] at h
    simp only [Rw.Pflock.wb, if_true] at h
    omega

theorem good_rlock {s s' : St n} (hn : n < 2 ^ 24) (hg : Good s) {t : Fin n} {lag : Nat} (hs : step real lag s (.rlock t) = some s') :
    Good s' := by
  simp only [step] at hs
  split at hs
  · next hp =>
    have hm := Put.rmw s.mem (s.th t) .rin (s.mem.last .rin + 0x100)
    split at hs <;> simp only [Option.some.injEq, reduceCtorEq] at hs <;> subst hs
    · next hz =>
      refine ⟨Rw.Pflock.inv_step hn (a := .rlock t) hg.sc ?_, ?_⟩
      · simp only [Rw.Pflock.step, abs, hp, hz, if_true, hm.last, reduceCtorEq, if_false]
      · have hnw := not_writing hg.sc (ann_of hg.sc hz)
        refine hg.v.rin nofun (fun u w hu _ h1 h2 => ⟨h1, by simpa only [upd_ne _ _ hu] using h2, bits _⟩) (.inl (bits _)) (.inr fun e => by rw [hp] at e; cases e) nofun
          fun _ => ?_
        exact (hg.v.fr hnw).mono fun y => Nat.le_trans (Th.load_view_le _ _ _ _ _) (le_join_right _ _ _)
    · next hz =>
      refine ⟨Rw.Pflock.inv_step hn (a := .rlock t) hg.sc ?_, ?_⟩
      · simp only [Rw.Pflock.step, abs, hp, hz, if_true, hm.last, reduceCtorEq, if_false]
      · refine hg.v.rin (fun w e => ?_) (fun u w hu _ h1 h2 => ⟨h1, by simpa only [upd_ne _ _ hu] using h2, bits _⟩) (.inl (bits _))
          (.inr fun e => by rw [hp] at e; cases e) nofun (by rintro (h | h) <;> cases h)
        simp only [PC.rSpin.injEq] at e
        exact ⟨by rw [bits, e], by simp [Th.rmw, Th.store]⟩
  · cases hs

theorem good_runlock {s s' : St n} (hn : n < 2 ^ 24) (hg : Good s) {t : Fin n} {lag : Nat} (hs : step real lag s (.runlock t) = some s') :
    Good s' := by
  simp only [step] at hs
  split at hs <;> simp only [Option.some.injEq, reduceCtorEq] at hs
  next hp =>
  subst hs
  have hm := Put.rmw s.mem (opt real.runlock Th.fenceRel (s.th t)) .rout (s.mem.last .rout + 0x100)
  refine ⟨Rw.Pflock.inv_step hn (a := .runlock t) hg.sc ?_, ?_⟩
  · simp only [Rw.Pflock.step, abs, hp, if_true, hm.last, reduceCtorEq, if_false]
  · refine V.flags ((hg.v.other (ro' := s.ro + 1) hm (by simp) (by simp) (by simp) (by
      simp only [if_true, true_and]
      have : s.mem.last .rout = BitVec.ofNat 32 (256 * s.ro) := hg.sc.rout
      rw [this, show 256 * (s.ro + 1) = 256 * s.ro + 256 by omega, BitVec.ofNat_add (x := 256 * s.ro)]
      rfl)).go (Th.rmw_cur_le (opt real.runlock Th.fenceRel (s.th t)) s.mem _ (by simp)) (p := .idle) nofun nofun (fun e => by rw [hp] at e; cases e)
        (by rintro (h | h) <;> cases h)) fun u w hu => ?_
    have e : u ≠ t := by rintro rfl; rw [upd_same] at hu; cases hu
    exact upd_ne _ _ e

theorem good_wSpin {s s' : St n} {lag : Nat} (hn : lag + n < 2 ^ 24) (hg : Good s) {t : Fin n} {i : Nat} {k : Word} (hp : s.pc t = .wSpin k)
    (hs : step real lag s (.run t i) = some s') : Good s' := by
  simp only [step, hp] at hs
  split at hs
  · next hm =>
    split at hs <;> simp only [Option.some.injEq] at hs <;> subst hs
    · next hv =>
      have hact : ((abs s).pc t).act = true := by rw [show (abs s).pc t = _ from hp]; rfl
      have hk : k = BitVec.ofNat 32 (s.q.tk t) := hg.sc.tkt t k (.inl hp)
      have h1 : s.q.arr.length ≤ s.q.rel + n := hg.sc.q.window
      have h2 : s.q.tk t < s.q.arr.length := hg.sc.q.tk_lt hact
      have h3 : s.q.rel ≤ s.q.tk t := (hg.sc.q.act_tk t hact).1
      have h4 := hg.v.wo i hm.1.2
      have h5 := hm.2
      have h6 := hm.1.2
      rw [hg.v.wt] at h5 h6
      rw [hv, hk] at h4
      have h7 := Rw.Pflock.ofNat_inj h4
      have hi : i = s.mem.top .wout := by rw [hg.v.wt]; omega
      refine ⟨Rw.Pflock.inv_step (by omega) (a := .run t) hg.sc ?_, ?_⟩
      · simp only [Rw.Pflock.step, abs, hp, Mem.last, ← hi, hv, if_true]
      · exact hg.v.go (Th.load_cur_le _ _ _ _ _) nofun nofun (fun e => by rw [hp] at e; cases e) (by rintro (h | h) <;> cases h)
    · refine ⟨hg.sc, ?_⟩
      have := hg.v.go (t := t) (q := (s.th t).load s.mem .wout i) (p := .wSpin k) (Th.load_cur_le _ _ _ _ _) nofun nofun (fun e => by rw [hp] at e; cases e)
        (by rintro (h | h) <;> cases h)
      rwa [show upd s.pc t (.wSpin k) = s.pc by rw [← hp]; exact upd_eq_self _ _] at this
  · cases hs

theorem good_wAnn {s s' : St n} {lag : Nat} (hn : n < 2 ^ 24) (hg : Good s) {t : Fin n} {i : Nat} {k : Word} (hp : s.pc t = .wAnn k)
    (hs : step real lag s (.run t i) = some s') : Good s' := by
  simp only [step, hp, Option.some.injEq] at hs
  subst hs
  have hm := Put.rmw s.mem (s.th t) .rin (s.mem.last .rin + ((k &&& 1) ||| 2))
  have hnw := not_writing hg.sc (hg.sc.p1 t k hp).1
  refine ⟨Rw.Pflock.inv_step hn (a := .run t) hg.sc ?_, ?_⟩
  · simp only [Rw.Pflock.step, abs, hp, hm.last, reduceCtorEq, if_false, if_true]
  · refine hg.v.rin nofun (fun u w _ hu _ ho => ?_) (.inr (.inr hnw)) (.inr fun e => by rw [hp] at e; cases e)
      (fun _ _ => (hg.v.fr hnw).mono fun _ => Th.load_view_le _ _ _ _ _) (by rintro (h | h) <;> cases h)
    simp only [hu] at ho
    cases ho

theorem good_wWait {s s' : St n} {lag : Nat} (hn : lag + n < 2 ^ 24) (hg : Good s) {t : Fin n} {i : Nat} {r : Word} (hp : s.pc t = .wWait r)
    (hs : step real lag s (.run t i) = some s') : Good s' := by
  simp only [step, hp] at hs
  split at hs
  · next hm =>
    have hb : All s.mem ((s.th t).load s.mem .rout i).acq := (hg.v.ww t r hp).mono (Th.load_acq_le _ _ _ _)
    split at hs <;> simp only [Option.some.injEq] at hs <;> subst hs
    · next hv =>
      have hr : r = BitVec.ofNat 32 (256 * (s.ro + cnt id s.old)) := hg.sc.o1 t r hp
      have h1 := cnt_le id s.old
      have h4 := hg.v.rv i hm.1.2
      have h5 := hm.2
      have h6 := hm.1.2
      rw [hg.v.rt] at h5 h6
      rw [hv, hr] at h4
      have h7 := Rw.Pflock.ofNat_inj h4
      have hi : i = s.mem.top .rout := by rw [hg.v.rt]; omega
      refine ⟨Rw.Pflock.inv_step (by omega) (a := .run t) hg.sc ?_, ?_⟩
      · simp only [Rw.Pflock.step, abs, hp, Mem.last, ← hi, hv, if_true]
      · exact hg.v.go (Nat.le_trans (Th.load_cur_le _ _ _ _ _) (le_join_left _ _ _)) nofun nofun (fun _ => rfl)
          fun _ => hb.mono fun _ => le_join_right _ _ _
    · refine ⟨hg.sc, ?_⟩
      have := hg.v.go (t := t) (q := (s.th t).load s.mem .rout i) (p := .wWait r) (Th.load_cur_le _ _ _ _ _) nofun (fun _ _ => hb)
        (fun e => by rw [hp] at e; cases e) (by rintro (h | h) <;> cases h)
      rwa [show upd s.pc t (.wWait r) = s.pc by rw [← hp]; exact upd_eq_self _ _] at this
  · cases hs

theorem good_uFaa {s s' : St n} {lag : Nat} (hn : n < 2 ^ 24) (hg : Good s) {t : Fin n} {i : Nat} (hp : s.pc t = .uFaa)
    (hs : step real lag s (.run t i) = some s') : Good s' := by
  simp only [step, hp, Option.some.injEq] at hs
  subst hs
  have hm := Put.rmw s.mem (s.th t) .wout (s.mem.last .wout + 1)
  refine ⟨Rw.Pflock.inv_step hn (a := .run t) hg.sc ?_, ?_⟩
  · simp only [Rw.Pflock.step, abs, hp, hm.last, reduceCtorEq, if_false, if_true]
  · refine (hg.v.other hm (by simp) (by simp) (rel' := s.q.rel + 1) ?_ (by simp)).go (Th.rmw_cur_le _ _ _ (by simp)) nofun nofun
      (fun e => by rw [hp] at e; cases e) (by rintro (h | h) <;> cases h)
    simp only [if_true, true_and]
    have : s.mem.last .wout = BitVec.ofNat 32 s.q.rel := hg.sc.wout
    rw [this, BitVec.ofNat_add]
    rfl

theorem good_rSpin {s s' : St n} {lag : Nat} (hn : n < 2 ^ 24) (hg : Good s) {t : Fin n} {i : Nat} {w : Word} (hp : s.pc t = .rSpin w)
    (hs : step real lag s (.run t i) = some s') : Good s' := by
  simp only [step, hp] at hs
  split at hs
  · next hm =>
    split at hs <;> simp only [Option.some.injEq] at hs <;> subst hs
    · refine ⟨hg.sc, ?_⟩
      have := hg.v.go (t := t) (q := (s.th t).load s.mem .rin i) (p := .rSpin w) (Th.load_cur_le _ _ _ _ _) (fun w' e => ⟨?_, ?_⟩) nofun
        (fun e => by rw [hp] at e; cases e) (by rintro (h | h) <;> cases h)
      · rwa [show upd s.pc t (.rSpin w) = s.pc by rw [← hp]; exact upd_eq_self _ _] at this
      · rw [hp, e]
      · refine join_le (hg.v.sb t w hp) ?_
        rw [upd_same]; exact hm.1.2
    · next hv =>
      have hne : ¬ s.mem.last .rin &&& 3 = w := by
        intro e
        have hrb : s.mem.last .rin &&& 3 = BitVec.ofNat 32 (Rw.Pflock.wb s.ann s.ph) := by
          rw [show s.mem.last .rin = _ from hg.sc.rin, Rw.Pflock.and3 _ _ (Rw.Pflock.wb_lt _ _)]; rfl
        have hsp : w = BitVec.ofNat 32 (2 + s.gph t % 2) := hg.sc.s1 t w hp
        rw [hrb, hsp] at e
        have e := Rw.Pflock.ofNat_inj e
        cases ha : s.ann
        · rw [ha] at e; simp [Rw.Pflock.wb] at e; omega
        · cases ho : s.old t
          · exact hv (hg.v.ss t w hp ha ho i hm.1.1 hm.1.2)
          · have h3 : s.gph t + 2 = s.ph := hg.sc.s3 t w hp ha ho
            rw [ha] at e
            simp only [Rw.Pflock.wb, if_true] at e
            omega
      refine ⟨Rw.Pflock.inv_step hn (a := .run t) hg.sc ?_, ?_⟩
      · simp only [Rw.Pflock.step, abs, hp, hne, if_false]
      · exact hg.v.go (Nat.le_trans (Th.load_cur_le _ _ _ _ _) (le_join_left _ _ _)) nofun nofun (fun e => by rw [hp] at e; cases e)
          fun _ => (hg.v.sv t w hp i hm.1.1 hm.1.2 hv).mono fun _ =>
            Nat.le_trans (Th.load_view_le _ _ _ _ _) (le_join_right _ _ _)
  · cases hs

theorem good_read {s : St n} (hg : Good s) {t : Fin n} {x i : Nat} (hp : s.pc t = .reading ∨ s.pc t = .writing) :
    Good { s with th := upd s.th t ((s.th t).load s.mem (.usr x) i) } := by
  refine ⟨hg.sc, ?_⟩
  have := hg.v.go (t := t) (q := (s.th t).load s.mem (.usr x) i) (p := s.pc t) (Th.load_cur_le _ _ _ _ _)
    (fun w e => by rcases hp with hp | hp <;> rw [hp] at e <;> cases e) (fun w e => by rcases hp with hp | hp <;> rw [hp] at e <;> cases e) id
    fun h => (hg.v.cs t h).mono (Th.load_cur_le _ _ _ _)
  rwa [upd_eq_self] at this

theorem good_write {s : St n} (hg : Good s) {t : Fin n} {x : Nat} {v : Word} (hp : s.pc t = .writing) :
    Good { s with mem := s.mem.store (s.th t) (.usr x) v, th := upd s.th t ((s.th t).store s.mem (.usr x)) } := by
  have hm := Put.store s.mem (s.th t) (.usr x) v
  have hh : ((abs s).pc t).held = true := by rw [show (abs s).pc t = _ from hp]; rfl
  have huniq : ∀ u, (s.pc u).held = true → u = t := fun u hu => hg.sc.q.held_unique hu hh
  have hann : s.ann = true := (hg.sc.p2' t hp).1
  have hold : ∀ u, s.old u = false := fun u => hg.sc.o4 t u hp
  refine ⟨?_, ?_⟩
  · have : abs { s with mem := s.mem.store (s.th t) (.usr x) v, th := upd s.th t ((s.th t).store s.mem (.usr x)) } = abs s := by
      simp [abs, hm.last]
    rw [this]; exact hg.sc
  have hcur : ∀ u, (upd s.th t ((s.th t).store s.mem (.usr x)) u).cur .rin = (s.th u).cur .rin := fun u => by
    by_cases e : u = t
    · subst e; rw [upd_same]; simp [Th.store, upd_ne]
    · rw [upd_ne _ _ e]
  refine { wt := ?_, wo := fun i hi => ?_, rt := ?_, rv := fun i hi => ?_, sb := fun v w hv => ?_, ss := fun v w hv ha ho i hi hi' => ?_
           sv := fun v w hv i hi hi' hx => ?_, fr := fun hv => absurd hp (hv t), ww := fun v r hv => ?_
           cs := fun v hv => ?_ } <;> simp only [hcur] at *
  · rw [hm.top_ne (by simp)]; exact hg.v.wt
  · rw [hm.top_ne (by simp)] at hi
    rw [hm.old _ _ hi]; exact hg.v.wo i hi
  · rw [hm.top_ne (by simp)]; exact hg.v.rt
  · rw [hm.top_ne (by simp)] at hi
    rw [hm.old _ _ hi]; exact hg.v.rv i hi
  · rw [hm.top_ne (by simp)]; exact hg.v.sb v w hv
  · rw [hm.top_ne (by simp)] at hi'
    rw [hm.old _ _ hi']; exact hg.v.ss v w hv ha ho i hi hi'
  · rw [hm.top_ne (by simp)] at hi'
    rw [hm.old _ _ hi'] at hx
    exact absurd (hg.v.ss v w hv hann (hold v) i hi hi') hx
  · have := huniq v (by rw [hv]; rfl)
    subst this
    rw [hp] at hv; cases hv
  · rcases hv with hv | hv
    · have := hg.sc.o3 v hann hv
      rw [show (abs s).old v = false from hold v] at this
      cases this
    · obtain rfl := huniq v (by rw [hv]; rfl)
      rw [upd_same]
      intro y
      rw [hm.top]
      simp only [Th.store, upd_apply, Loc.usr.injEq]
      split
      · exact Nat.le_refl _
      · exact hg.v.cs v (.inr hp) y

theorem good_step {s s' : St n} {a : Act n} {lag : Nat} (hn : lag + n < 2 ^ 24) (hg : Good s) (hs : step real lag s a = some s') : Good s' := by
  have hn' : n < 2 ^ 24 := by omega
  cases a with
  | wlock t => exact good_wlock hn' hg hs
  | wunlock t => exact good_wunlock hn' hg hs
  | rlock t => exact good_rlock hn' hg hs
  | runlock t => exact good_runlock hn' hg hs
  | run t i =>
    cases hp : s.pc t
    case wSpin k => exact good_wSpin hn hg hp hs
    case wAnn k => exact good_wAnn hn' hg hp hs
    case wWait r => exact good_wWait hn hg hp hs
    case uFaa => exact good_uFaa hn' hg hp hs
    case rSpin w => exact good_rSpin hn' hg hp hs
    all_goals (simp only [step, hp] at hs; cases hs)
  | read t x i =>
    simp only [step] at hs
    split at hs <;> simp only [Option.some.injEq, reduceCtorEq] at hs
    next hp => subst hs; exact good_read hg hp.1
  | write t x v =>
    simp only [step] at hs
    split at hs <;> simp only [Option.some.injEq, reduceCtorEq] at hs
    next hp => subst hs; exact good_write hg hp

theorem good_reach {lag : Nat} (hn : lag + n < 2 ^ 24) {s : St n} (h : (sys real lag n).Reach s) : Good s := by
  refine h.invariant (I := Good) ?_ (fun _ _ _ hi hs => good_step hn hi hs)
  rintro s rfl
  refine ⟨Rw.Pflock.init_inv, ?_⟩
  have hz : ∀ i : Nat, i ≤ 0 → i = 0 := fun i => Nat.le_zero.1
  exact
    { wt := rfl, wo := fun i hi => by rw [hz i hi]; rfl, rt := rfl, rv := fun i hi => by rw [hz i hi]; rfl, sb := nofun, ss := nofun
      sv := nofun, fr := fun _ _ => Nat.le_refl _, ww := nofun, cs := fun t h => by rcases h with h | h <;> cases h }

/-! ## Property theorems -/

/-- C81: a writer is alone, for any number of earlier acquisitions, if loads lag behind by less than 2^24 stores. -/
theorem rw_exclusion {lag : Nat} (hn : lag + n < 2 ^ 24) {s : St n} (h : (sys real lag n).Reach s) : Spec.RwEx s.reads s.writes := by
  have hi := (good_reach hn h).sc
  refine ⟨fun t u ht hu => ?_, fun t u ht hu => ?_⟩
  · exact hi.q.held_unique (t := t) (u := u) (by rw [show (abs s).pc t = _ from ht]; rfl) (by rw [show (abs s).pc u = _ from hu]; rfl)
  · have h1 := hi.o3 u (hi.p2' t ht).1 hu
    rw [hi.o4 t u ht] at h1
    cases h1

/-- C81: writers get their turn in the order of their tickets. -/
theorem writers_fcfs {lag : Nat} (hn : lag + n < 2 ^ 24) {s : St n} (h : (sys real lag n).Reach s) : Spec.Fcfs s.q.arr s.q.srv :=
  (good_reach hn h).sc.q.pre

/-- C81: from the announcement of a reader until its admission at most one writer critical section begins. -/
theorem phase_fair {lag : Nat} (hn : lag + n < 2 ^ 24) {s : St n} (h : (sys real lag n).Reach s) {t : Fin n} (ht : s.rwaits t) :
    s.entries ≤ s.e0 t + 1 := (good_reach hn h).sc.fair ht

/-- C81: whatever a thread loads while it holds the lock is the value stored last, by whichever thread. -/
theorem reads_last {lag : Nat} (hn : lag + n < 2 ^ 24) {s s' : St n} (h : (sys real lag n).Reach s) {t : Fin n} {x i : Nat}
    (hs : (sys real lag n).step s (.read t x i) = some s') : (s.mem.msg (.usr x) i).val = s.mem.last (.usr x) := by
  simp only [sys, step] at hs
  split at hs
  · next hp =>
    have h1 := (good_reach hn h).v.cs t hp.1 x
    have h2 := hp.2.1.1
    have h3 := hp.2.1.2
    rw [show i = s.mem.top (.usr x) from Nat.le_antisymm h3 (Nat.le_trans h1 h2)]
    rfl
  · cases hs

/-! ## The fences are needed -/

/-- After the run `as`, thread 1 can load the initial value of data word 0. -/
def stale (fc : Fences) (as : List (Act 2)) : Bool := ((sys fc 4 2).run (initSt 2) (as ++ [.read 1 0 0])).isSome

/-- Thread 0 takes the write lock, stores 5 and unlocks. -/
def wrote : List (Act 2) := [.wlock 0, .run 0 0, .run 0 0, .run 0 0, .write 0 0 5, .wunlock 0]

/-- Then thread 1 takes the write lock. -/
def wthen : List (Act 2) := wrote ++ [.run 0 0, .wlock 1, .run 1 1, .run 1 0, .run 1 0]

/-- Thread 1 waits as a reader while thread 0 writes. -/
def rwait : List (Act 2) := wrote.take 5 ++ [.rlock 1, .run 1 2, .wunlock 0, .run 1 2, .run 1 3]

theorem no_fence_rlock : stale { real with rlock := false } (wrote ++ [.rlock 1]) = true ∧ stale { real with rlock := false } rwait = true := by
  decide +kernel

theorem no_fence_wlock : stale { real with wlock := false } wthen = true := by decide +kernel

theorem no_fence_wunlock : stale { real with wunlock := false } (wrote ++ [.rlock 1]) = true ∧ stale { real with wunlock := false } wthen = true := by
  decide +kernel

/-- With the fences thread 1 loads 5. -/
example : ∀ as ∈ [wrote ++ [.rlock 1], rwait, wthen],
    stale real as = false ∧ ((sys real 4 2).run (initSt 2) (as ++ [.read 1 0 1])).isSome = true := by decide +kernel

/-! ## Loads must not lag behind by a full round -/

/-- After any number of read sections of thread 0. -/
theorem rounds (lag k : Nat) : ∃ s, (sys real lag 2).Reach s ∧ s.mem.last .rin = BitVec.ofNat 32 (256 * k) ∧ s.mem.top .rout = k ∧
    (s.mem.msg .rout 0).val = 0 ∧ s.mem.last .win = 0 ∧ s.mem.top .wout = 0 ∧ (s.mem.msg .wout 0).val = 0 ∧ s.pc = (fun _ => .idle) ∧
    s.th 1 = Th.init := by
  induction k with
  | zero => exact ⟨initSt 2, .init rfl, rfl, rfl, rfl, rfl, rfl, rfl, rfl, rfl⟩
  | succ k ih =>
    obtain ⟨s, h, h1, h2, h3, h4, h5, h6, h7, h8⟩ := ih
    have hz : s.mem.last .rin &&& 3 = 0 := by rw [h1, show 256 * k = 256 * k + 0 by rfl, Rw.Pflock.and3 _ _ (by omega)]; rfl
    have q0 : s.pc 0 = .idle := by rw [h7]
    obtain ⟨s1, e1, hm, hp1, ht1⟩ : ∃ s1, (sys real lag 2).step s (.rlock 0) = some s1 ∧
        Put s.mem s1.mem .rin (s.mem.last .rin + 0x100) (upd (join (s.th 0).rel (s.mem.msg .rin (s.mem.top .rin)).view) .rin (s.mem.top .rin + 1)) ∧
        s1.pc = upd s.pc 0 .reading ∧ s1.th 1 = s.th 1 :=
      ⟨_, by simp only [sys, step, q0, hz, if_true]; rfl, by exact Put.rmw _ _ _ _, by rfl, by rfl⟩
    have q1 : s1.pc 0 = .reading := by rw [hp1]; rfl
    obtain ⟨s2, e2, hm', hp2, ht2⟩ : ∃ s2, (sys real lag 2).step s1 (.runlock 0) = some s2 ∧
        (∃ w, Put s1.mem s2.mem .rout (s1.mem.last .rout + 0x100) w) ∧
        s2.pc = upd s1.pc 0 .idle ∧ s2.th 1 = s1.th 1 :=
      ⟨_, by simp only [sys, step, q1, if_true]; rfl, by exact ⟨_, Put.rmw _ _ _ _⟩, by rfl, by rfl⟩
    obtain ⟨w, hm'⟩ := hm'
    refine ⟨s2, (h.step e1).step e2, ?_, ?_, ?_, ?_, ?_, ?_, ?_, ?_⟩
    · rw [hm'.last, if_neg (by simp), hm.last, if_pos rfl, h1, show 256 * (k + 1) = 256 * k + 256 by omega, BitVec.ofNat_add (x := 256 * k)]
      rfl
    · rw [hm'.top, if_pos rfl, hm.top_ne (by simp), h2]
    · rw [hm'.old _ _ (Nat.zero_le _), hm.old _ _ (Nat.zero_le _), h3]
    · rw [hm'.last, if_neg (by simp), hm.last, if_neg (by simp), h4]
    · rw [hm'.top_ne (by simp), hm.top_ne (by simp), h5]
    · rw [hm'.old _ _ (Nat.zero_le _), hm.old _ _ (Nat.zero_le _), h6]
    · rw [hp2, hp1, h7]
      funext u
      simp only [upd_apply]
      split <;> rfl
    · rw [ht2, ht1, h8]

/-- If loads may lag behind by 2^24 - 1 stores, a writer can enter while a reader is inside: it loads a value of `rout` of the round before. -/
theorem wrap_breaks : ∃ s, (sys real (2 ^ 24 - 1) 2).Reach s ∧ s.reads 0 ∧ s.writes 1 := by
  obtain ⟨s, h, h1, h2, h3, h4, h5, h6, h7, h8⟩ := rounds (2 ^ 24 - 1) (2 ^ 24 - 1)
  have hz : s.mem.last .rin &&& 3 = 0 := by rw [h1]; decide
  have q0 : s.pc 0 = .idle := by rw [h7]
  obtain ⟨s1, e1, ⟨w1, m1⟩, p1, t1⟩ : ∃ s1, (sys real (2 ^ 24 - 1) 2).step s (.rlock 0) = some s1 ∧
      (∃ w, Put s.mem s1.mem .rin (s.mem.last .rin + 0x100) w) ∧ s1.pc = upd s.pc 0 .reading ∧ s1.th 1 = s.th 1 :=
    ⟨_, by simp only [sys, step, q0, hz, if_true]; rfl, by exact ⟨_, Put.rmw _ _ _ _⟩, by rfl, by rfl⟩
  have q1 : s1.pc 1 = .idle := by rw [p1, h7]; rfl
  obtain ⟨s2, e2, ⟨w2, m2⟩, p2, t2⟩ : ∃ s2, (sys real (2 ^ 24 - 1) 2).step s1 (.wlock 1) = some s2 ∧
      (∃ w, Put s1.mem s2.mem .win (s1.mem.last .win + 1) w) ∧ s2.pc = upd s1.pc 1 (.wSpin (s1.mem.last .win)) ∧
      s2.th 1 = (s1.th 1).rmw s1.mem .win :=
    ⟨_, by simp only [sys, step, q1, if_true]; rfl, by exact ⟨_, Put.rmw _ _ _ _⟩, by rfl, by rfl⟩
  have hk : s1.mem.last .win = 0 := by rw [m1.last, if_neg (by simp), h4]
  have q2 : s2.pc 1 = .wSpin 0 := by rw [p2, upd_same, hk]
  have hw : s2.may (2 ^ 24 - 1) 1 .wout 0 := by
    refine ⟨⟨?_, Nat.zero_le _⟩, ?_⟩
    · rw [t2, t1, h8]; simp [Th.rmw, Th.load, Th.store, Th.init, upd_apply, join]
    · rw [m2.top_ne (by simp), m1.top_ne (by simp), h5]; omega
  have hv : (s2.mem.msg .wout 0).val = 0 := by rw [m2.old _ _ (Nat.zero_le _), m1.old _ _ (Nat.zero_le _), h6]
  obtain ⟨s3, e3, m3, p3, t3⟩ : ∃ s3, (sys real (2 ^ 24 - 1) 2).step s2 (.run 1 0) = some s3 ∧ s3.mem = s2.mem ∧
      s3.pc = upd s2.pc 1 (.wAnn 0) ∧ s3.th 1 = (s2.th 1).load s2.mem .wout 0 :=
    ⟨_, by simp only [sys, step, q2, hw, hv, if_true]; rfl, by rfl, by rfl, by rfl⟩
  have q3 : s3.pc 1 = .wAnn 0 := by rw [p3, upd_same]
  obtain ⟨s4, e4, ⟨w4, m4⟩, p4, t4⟩ : ∃ s4, (sys real (2 ^ 24 - 1) 2).step s3 (.run 1 0) = some s4 ∧
      (∃ w, Put s3.mem s4.mem .rin (s3.mem.last .rin + ((0 &&& 1) ||| 2)) w) ∧ s4.pc = upd s3.pc 1 (.wWait (s3.mem.last .rin)) ∧
      s4.th 1 = (s3.th 1).rmw s3.mem .rin :=
    ⟨_, by simp only [sys, step, q3]; rfl, by exact ⟨_, Put.rmw _ _ _ _⟩, by rfl, by rfl⟩
  have hr : s3.mem.last .rin = 0 := by rw [m3, m2.last, if_neg (by simp), m1.last, if_pos rfl, h1]; decide
  have q4 : s4.pc 1 = .wWait 0 := by rw [p4, upd_same, hr]
  have hw' : s4.may (2 ^ 24 - 1) 1 .rout 0 := by
    refine ⟨⟨?_, Nat.zero_le _⟩, ?_⟩
    · rw [t4, t3, t2, t1, h8]; simp [Th.rmw, Th.load, Th.store, Th.init, upd_apply, join]
    · rw [m4.top_ne (by simp), m3, m2.top_ne (by simp), m1.top_ne (by simp), h2]; omega
  have hv' : (s4.mem.msg .rout 0).val = 0 := by
    rw [m4.old _ _ (Nat.zero_le _), m3, m2.old _ _ (Nat.zero_le _), m1.old _ _ (Nat.zero_le _), h3]
  obtain ⟨s5, e5, p5⟩ : ∃ s5, (sys real (2 ^ 24 - 1) 2).step s4 (.run 1 0) = some s5 ∧ s5.pc = upd s4.pc 1 .writing :=
    ⟨_, by simp only [sys, step, q4, hw', hv', if_true]; rfl, by rfl⟩
  refine ⟨s5, ((((h.step e1).step e2).step e3).step e4).step e5, ?_, ?_⟩
  · simp [St.reads, p5, p4, p3, p2, p1, upd_apply]
  · simp [St.writes, p5]

end Verif.Weak.Pflock
