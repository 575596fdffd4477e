import Verif.Smr.HpStack
import Verif.Smr.HpUse

/-!
# The hazard pointer stack: linearizability and memory safety
-/

set_option linter.unusedSectionVars false

namespace Verif.HpStack

open Verif Verif.Lin

variable {N : Type} [DecidableEq N] {n : Nat} {D C thr : Nat}

/-! ## Invariant -/

/-- The thread is in a pop. -/
def needs : PC N → Prop
  | .p0 _ | .p1 _ _ | .p2 _ _ | .p3 _ _ | .p4 _ _ _ | .p5 _ | .p6 _ | .p7 _ | .p8 _ | .leave => True
  | _ => False

def Loc (s : St N n) (r : Fin n) : PC N → Prop
  | .pshW _ _ e => s.v0 r = s.ver → s.head = e
  | .pshC _ x e => s.next x = e ∧ (s.v0 r = s.ver → s.head = e)
  | .p1 _ e => s.v0 r = s.ver → s.head = some e
  | .p2 _ e => s.h.pts r 0 = some e ∧ (s.v0 r = s.ver → s.head = some e)
  | .p3 _ e => Hp.Named s.h r 0 e ∧ (s.v0 r = s.ver → s.head = some e)
  | .p4 _ e nx => Hp.Named s.h r 0 e ∧ s.next e = nx ∧ (s.v0 r = s.ver → s.head = some e)
  | .p5 _ => s.v0 r < s.ver
  | .p6 e => s.h.pts r 0 = some e ∧ s.v0 r < s.ver
  | .p7 _ => s.v0 r < s.ver
  | .p8 u => s.h.pts r 0 = u ∧ s.v0 r < s.ver
  | .leave => s.v0 r < s.ver
  | _ => True

structure Inv (D C thr : Nat) (s : St N n) : Prop where
  hpr : (Hp.sys D C thr).Reach s.h
  seg : Seg s.next s.head s.stk none
  nodup : s.stk.Nodup
  linked : ∀ x, s.h.life x = .linked ↔ x ∈ s.stk
  push : ∀ u x, pushing (s.th u) x → s.h.life x = .fresh
  uniq : ∀ u v x, pushing (s.th u) x → pushing (s.th v) x → u = v
  need : ∀ u, needs (s.th u) → s.h.used u = true ∧ 0 < D
  v0 : ∀ u, s.v0 u ≤ s.ver
  loc : ∀ u, Loc s u (s.th u)

theorem Loc.keep {s s' : St N n} {u : Fin n} {pc : PC N} (hv : s.v0 u ≤ s.ver) (h0 : s'.v0 u = s.v0 u)
    (hver : s.ver ≤ s'.ver) (hh : s'.ver = s.ver → s'.head = s.head)
    (hp : needs pc → s'.h.pts u 0 = s.h.pts u 0)
    (hN : needs pc → ∀ e, Hp.Named s.h u 0 e → Hp.Named s'.h u 0 e)
    (hn1 : ∀ x, pushing pc x → s'.next x = s.next x)
    (hn2 : needs pc → ∀ e, Hp.Named s.h u 0 e → s'.next e = s.next e) (h : Loc s u pc) : Loc s' u pc := by
  have key : ∀ e, (s.v0 u = s.ver → s.head = e) → (s'.v0 u = s'.ver → s'.head = e) := by
    intro e h1 h2
    rw [h0] at h2
    rw [hh (by omega), h1 (by omega)]
  have hlt : s.v0 u < s.ver → s'.v0 u < s'.ver := by rw [h0]; omega
  cases pc with
  | pshW tr x e => exact key e h
  | pshC tr x e => exact ⟨(hn1 x rfl).trans h.1, key e h.2⟩
  | p1 tr e => exact key _ h
  | p2 tr e => exact ⟨(hp trivial).trans h.1, key _ h.2⟩
  | p3 tr e => exact ⟨hN trivial e h.1, key _ h.2⟩
  | p4 tr e nx => exact ⟨hN trivial e h.1, (hn2 trivial e h.1).trans h.2.1, key _ h.2.2⟩
  | p5 => exact hlt h
  | p6 e => exact ⟨(hp trivial).trans h.1, hlt h.2⟩
  | p7 => exact hlt h
  | p8 u => exact ⟨(hp trivial).trans h.1, hlt h.2⟩
  | leave => exact hlt h
  | _ => trivial

/-- Thread `r` moves to `pc`. -/
theorem Inv.move {s s' : St N n} (h : Inv D C thr s) {r : Fin n} {pc : PC N} (hth : s'.th = upd s.th r pc)
    (hv : ∀ u, u ≠ r → s'.v0 u = s.v0 u) (hvr : s'.v0 r ≤ s'.ver)
    (hver : s.ver ≤ s'.ver) (hh : s'.ver = s.ver → s'.head = s.head)
    (hr : (Hp.sys D C thr).Reach s'.h) (hseg : Seg s'.next s'.head s'.stk none) (hnd : s'.stk.Nodup)
    (hlk : ∀ x, s'.h.life x = .linked ↔ x ∈ s'.stk)
    (hpu : ∀ x, pushing pc x → s'.h.life x = .fresh ∧ ∀ u, u ≠ r → ¬ pushing (s.th u) x)
    (hfr : ∀ u, u ≠ r → ∀ x, pushing (s.th u) x → s'.h.life x = .fresh ∧ s'.next x = s.next x)
    (hneed : needs pc → s'.h.used r = true ∧ 0 < D)
    (hus : ∀ u, u ≠ r → s.h.used u = true → s'.h.used u = true)
    (hpt : ∀ u, u ≠ r → s'.h.pts u 0 = s.h.pts u 0)
    (hN : ∀ u, u ≠ r → ∀ e, Hp.Named s.h u 0 e → Hp.Named s'.h u 0 e)
    (hn2 : ∀ e, s.h.life e ≠ .fresh → s'.next e = s.next e) (hloc : Loc s' r pc) : Inv D C thr s' := by
  constructor
  · exact hr
  · exact hseg
  · exact hnd
  · exact hlk
  · intro u x hx
    rw [hth] at hx
    by_cases hu : u = r
    · subst hu; rw [upd_same] at hx; exact (hpu x hx).1
    · rw [upd_ne _ _ hu] at hx; exact (hfr u hu x hx).1
  · intro u v x hx hy
    rw [hth] at hx hy
    by_cases hu : u = r <;> by_cases hw : v = r
    · rw [hu, hw]
    · subst hu
      rw [upd_same] at hx
      rw [upd_ne _ _ hw] at hy
      exact absurd hy ((hpu x hx).2 v hw)
    · subst hw
      rw [upd_same] at hy
      rw [upd_ne _ _ hu] at hx
      exact absurd hx ((hpu x hy).2 u hu)
    · rw [upd_ne _ _ hu] at hx
      rw [upd_ne _ _ hw] at hy
      exact h.uniq u v x hx hy
  · intro u hx
    rw [hth] at hx
    by_cases hu : u = r
    · subst hu; rw [upd_same] at hx; exact hneed hx
    · rw [upd_ne _ _ hu] at hx
      exact ⟨hus u hu (h.need u hx).1, (h.need u hx).2⟩
  · intro u
    by_cases hu : u = r
    · subst hu; exact hvr
    · rw [hv u hu]; exact Nat.le_trans (h.v0 u) hver
  · intro u
    rw [hth]
    by_cases hu : u = r
    · subst hu; rw [upd_same]; exact hloc
    · rw [upd_ne _ _ hu]
      exact (h.loc u).keep (h.v0 u) (hv u hu) hver hh (fun _ => hpt u hu) (fun _ => hN u hu)
        (fun x hx => (hfr u hu x hx).2) (fun _ e he => hn2 e (Hp.protected_live h.hpr he.1 he.2))

/-- Only the program counter of `r` moves. -/
theorem Inv.quiet {s : St N n} (h : Inv D C thr s) (r : Fin n) (pc : PC N)
    (hpu : ∀ x, pushing pc x → pushing (s.th r) x) (hneed : needs pc → needs (s.th r))
    (hloc : Loc s r pc) : Inv D C thr { s with th := upd s.th r pc } :=
  h.move (r := r) (pc := pc) rfl (fun _ _ => rfl) (h.v0 r) (Nat.le_refl _) (fun _ => rfl) h.hpr h.seg h.nodup h.linked
    (fun x hx => ⟨h.push r x (hpu x hx), fun u hu hc => hu (h.uniq u r x hc (hpu x hx))⟩)
    (fun u _ x hx => ⟨h.push u x hx, rfl⟩) (fun hn => h.need r (hneed hn)) (fun _ _ hu => hu)
    (fun _ _ => rfl) (fun _ _ _ he => he) (fun _ _ => rfl) (by cases pc <;> exact hloc)

/-- A step of `r` that stores to slot 0 or validates it. -/
theorem Inv.slot {s : St N n} (h : Inv D C thr s) (r : Fin n) (pc : PC N) {a : Hp.Act (Fin n) N} {h' : Hp.St (Fin n) N}
    (ha : (∃ x, a = .set r 0 x) ∨ a = .validate r 0) (hs : Hp.step D C thr s.h a = some h')
    (hpu : ∀ x, ¬ pushing pc x) (hneed : needs (s.th r))
    (hloc : Loc { s with h := h', th := upd s.th r pc } r pc) :
    Inv D C thr { s with h := h', th := upd s.th r pc } := by
  have hI := Hp.Inv.reach h.hpr
  have hd : ∀ u, u ≠ r → ¬ a.drops u 0 := by
    intro u hu hc
    rcases ha with ⟨x, rfl⟩ | rfl
    · exact hu hc.1.symm
    · exact hc
  have hlf : ∀ x, a ≠ .link x ∧ a ≠ .unlink x := by
    intro x
    rcases ha with ⟨y, rfl⟩ | rfl <;> exact ⟨by simp, by simp⟩
  have hun : ∀ u, a ≠ .unregister u := by
    intro u
    rcases ha with ⟨y, rfl⟩ | rfl <;> simp
  refine h.move (r := r) (pc := pc) rfl (fun _ _ => rfl) (h.v0 r) (Nat.le_refl _) (fun _ => rfl) (.step h.hpr hs)
    h.seg h.nodup (fun x => ?_) (fun x hx => absurd hx (hpu x)) (fun u _ x hx => ⟨?_, rfl⟩) (fun _ => ?_)
    (fun u _ hu => Hp.step_used hs (hun u) hu) (fun u hu => Hp.step_pts hs (hd u hu))
    (fun u hu e he => Hp.step_named hs (hd u hu) he) (fun _ _ => rfl) hloc
  · exact (Hp.step_life hI hs x (hlf x).1 (hlf x).2).1.trans (h.linked x)
  · exact (Hp.step_life hI hs x (hlf x).1 (hlf x).2).2 (h.push u x hx)
  · exact ⟨Hp.step_used hs (hun r) (h.need r hneed).1, (h.need r hneed).2⟩

theorem head_mem {s : St N n} (h : Inv D C thr s) {e : N} (he : s.head = some e) : s.stk = e :: s.stk.tail := by
  have hseg := h.seg
  rw [he] at hseg
  cases hstk : s.stk with
  | nil => rw [hstk] at hseg; cases hseg
  | cons y l => rw [hstk] at hseg; obtain ⟨h1, -⟩ := hseg; cases h1; rfl

theorem head_linked {s : St N n} (h : Inv D C thr s) {e : N} (he : s.head = some e) : s.h.life e = .linked :=
  (h.linked e).2 (by rw [head_mem h he]; exact List.mem_cons_self)

theorem via_eq {s s' : St N n} {a : Hp.Act (Fin n) N} {f : Hp.St (Fin n) N → St N n}
    (hs : via D C thr s a f = some s') : ∃ h', Hp.step D C thr s.h a = some h' ∧ f h' = s' := by
  unfold via at hs
  rw [Option.map_eq_some_iff] at hs
  exact hs

theorem set_named {s : Hp.St (Fin n) N} {h' : Hp.St (Fin n) N} {r : Fin n} {x : Option N}
    (hs : Hp.step D C thr s (.set r 0 x) = some h') : h'.pts r 0 = x := by
  simp only [Hp.step] at hs
  split at hs
  · cases hs; exact Hp.setPt_same _ _ _ _
  · cases hs

theorem validate_named {s : Hp.St (Fin n) N} {h' : Hp.St (Fin n) N} {r : Fin n} {e : N} (he : s.pts r 0 = some e)
    (hs : Hp.step D C thr s (.validate r 0) = some h') : Hp.Named h' r 0 e := by
  simp only [Hp.step, he] at hs
  split at hs
  · cases hs; exact ⟨Hp.setPr_same _ _ _ _, he⟩
  · cases hs

theorem Inv.run {s s' : St N n} (h : Inv D C thr s) {r : Fin n} (hs : HpStack.run D C thr s r = some s') :
    Inv D C thr s' := by
  have hl := h.loc r
  have hI := Hp.Inv.reach h.hpr
  unfold HpStack.run at hs
  cases hp : s.th r with
  | idle => rw [hp] at hs; cases hs
  | ret x => rw [hp] at hs; cases hs
  | psh tr x =>
    simp only [hp] at hs
    cases hs
    exact h.quiet r _ (fun y hy => by rw [hp]; exact hy) (fun hn => hn.elim) (fun _ => rfl)
  | pshW tr x e =>
    simp only [hp] at hs hl
    cases hs
    have hpx : pushing (s.th r) x := by rw [hp]; rfl
    have hfx := h.push r x hpx
    have hx : x ∉ s.stk := fun hc => by have := (h.linked x).2 hc; rw [hfx] at this; cases this
    refine h.move (r := r) (pc := .pshC tr x e) rfl (fun _ _ => rfl) (h.v0 r) (Nat.le_refl _) (fun _ => rfl) h.hpr
      ((seg_upd hx).2 h.seg) h.nodup h.linked (fun y hy => ?_) (fun u hu y hy => ⟨h.push u y hy, ?_⟩)
      (fun hn => hn.elim) (fun _ _ hu => hu) (fun _ _ => rfl) (fun _ _ _ he => he) (fun y hy => ?_)
      ⟨upd_same _ _ _, hl⟩
    · cases hy; exact ⟨hfx, fun u hu hc => hu (h.uniq u r x hc hpx)⟩
    · exact upd_ne _ _ (by rintro rfl; exact hu (h.uniq u r y hy hpx))
    · exact upd_ne _ _ (by rintro rfl; exact hy hfx)
  | pshC tr x e =>
    simp only [hp] at hs hl
    have hpx : pushing (s.th r) x := by rw [hp]; rfl
    have hfx := h.push r x hpx
    have hx : x ∉ s.stk := fun hc => by have := (h.linked x).2 hc; rw [hfx] at this; cases this
    split at hs
    · next he =>
      obtain ⟨h', hst, rfl⟩ := via_eq hs
      have hst' := hst
      simp only [Hp.step, hfx] at hst'
      cases hst'
      have hlk : ∀ y, upd s.h.life x .linked y = .linked ↔ y ∈ x :: s.stk := by
        intro y
        rw [upd_apply, List.mem_cons]
        split
        · next hy => simp [hy]
        · next hy => rw [h.linked y]; simp [hy]
      refine h.move (r := r) rfl (fun _ _ => rfl) (Nat.le_succ_of_le (h.v0 r)) (Nat.le_succ _) (fun hc => absurd hc (by simp))
        (.step (a := .link x) h.hpr hst) ⟨rfl, ?_⟩ (List.nodup_cons.2 ⟨hx, h.nodup⟩) hlk (fun y hy => ?_) (fun u hu y hy => ⟨?_, rfl⟩)
        (fun hn => ?_) (fun _ _ hu => hu) (fun _ _ => rfl) (fun _ _ _ he => he) (fun _ _ => rfl) ?_
      · show Seg s.next (s.next x) s.stk none
        rw [hl.1, ← he]; exact h.seg
      · cases tr <;> exact hy.elim
      · show upd s.h.life x .linked y = .fresh
        rw [upd_ne _ _ (by rintro rfl; exact hu (h.uniq u r y hy hpx))]
        exact h.push u y hy
      · cases tr <;> exact hn.elim
      · cases tr <;> trivial
    · split at hs
      · cases hs
        exact h.quiet r _ (fun y hy => hy.elim) (fun hn => hn.elim) trivial
      · cases hs
        exact h.quiet r _ (fun y hy => by rw [hp]; exact hy) (fun hn => hn.elim) (fun _ => rfl)
  | p0 tr =>
    simp only [hp] at hs
    split at hs
    · cases hs
      exact h.quiet r _ (fun y hy => hy.elim) (fun hn => hn.elim) trivial
    · next e he =>
      cases hs
      exact h.quiet r _ (fun y hy => hy.elim) (fun _ => by rw [hp]; trivial) (fun _ => he)
  | p1 tr e =>
    simp only [hp] at hs hl
    obtain ⟨h', hst, rfl⟩ := via_eq hs
    exact h.slot r _ (.inl ⟨_, rfl⟩) hst (fun _ hx => hx) (by rw [hp]; trivial) ⟨set_named hst, hl⟩
  | p2 tr e =>
    simp only [hp] at hs hl
    split at hs
    · obtain ⟨h', hst, rfl⟩ := via_eq hs
      exact h.slot r _ (.inr rfl) hst (fun _ hx => hx) (by rw [hp]; trivial) ⟨validate_named hl.1 hst, hl.2⟩
    · next hne =>
      have hlt : s.v0 r < s.ver := by
        rcases Nat.lt_or_eq_of_le (h.v0 r) with h1 | h1
        · exact h1
        · exact absurd (hl.2 h1) hne
      split at hs
      · cases hs
        exact h.quiet r _ (fun y hy => hy.elim) (fun _ => by rw [hp]; trivial) hlt
      · cases hs
        exact h.quiet r _ (fun y hy => hy.elim) (fun _ => by rw [hp]; trivial) trivial
  | p3 tr e =>
    simp only [hp] at hs hl
    cases hs
    exact h.quiet r _ (fun y hy => hy.elim) (fun _ => by rw [hp]; trivial) ⟨hl.1, rfl, hl.2⟩
  | p4 tr e nx =>
    simp only [hp] at hs hl
    split at hs
    · next he =>
      obtain ⟨h', hst, rfl⟩ := via_eq hs
      have hle := head_linked h he
      have hst' := hst
      simp only [Hp.step, hle] at hst'
      cases hst'
      have hcons := head_mem h he
      have hnd := h.nodup
      have hseg := h.seg
      rw [hcons] at hnd hseg
      have hlk : ∀ y, upd s.h.life e .unlinked y = .linked ↔ y ∈ s.stk.tail := by
        intro y
        rw [upd_apply]
        split
        · next hy => subst hy; exact ⟨fun hc => (nomatch hc), fun hc => absurd hc (List.nodup_cons.1 hnd).1⟩
        · next hy => rw [h.linked y, hcons]; simp [hy]
      refine h.move (r := r) rfl (fun _ _ => rfl) (Nat.le_succ_of_le (h.v0 r)) (Nat.le_succ _) (fun hc => absurd hc (by simp))
        (.step (a := .unlink e) h.hpr hst) ?_ (List.nodup_cons.1 hnd).2 hlk (fun y hy => hy.elim) (fun u hu y hy => ⟨?_, rfl⟩)
        (fun hn => hn.elim) (fun _ _ hu => hu) (fun _ _ => rfl) (fun _ _ _ he => he) (fun _ _ => rfl) trivial
      · show Seg s.next nx s.stk.tail none
        rw [← hl.2.1]; exact hseg.2
      · have hfy := h.push u y hy
        show upd s.h.life e .unlinked y = .fresh
        rw [upd_ne _ _ (by rintro rfl; rw [hle] at hfy; cases hfy)]
        exact hfy
    · next hne =>
      have hlt : s.v0 r < s.ver := by
        rcases Nat.lt_or_eq_of_le (h.v0 r) with h1 | h1
        · exact h1
        · exact absurd (hl.2.2 h1) hne
      split at hs
      · cases hs
        exact h.quiet r _ (fun y hy => hy.elim) (fun _ => by rw [hp]; trivial) hlt
      · split at hs
        · cases hs
          exact h.quiet r _ (fun y hy => hy.elim) (fun hn => hn.elim) trivial
        · cases hs
          exact h.quiet r _ (fun y hy => hy.elim) (fun _ => by rw [hp]; trivial) hlt
  | p5 e =>
    simp only [hp] at hs hl
    obtain ⟨h', hst, rfl⟩ := via_eq hs
    exact h.slot r _ (.inl ⟨_, rfl⟩) hst (fun _ hx => hx) (by rw [hp]; trivial) ⟨set_named hst, hl⟩
  | p6 e =>
    simp only [hp] at hs hl
    split at hs
    · obtain ⟨h', hst, rfl⟩ := via_eq hs
      exact h.slot r _ (.inr rfl) hst (fun _ hx => hx) (by rw [hp]; trivial)
        ⟨validate_named hl.1 hst, fun hc => absurd hc (Nat.ne_of_lt hl.2)⟩
    · cases hs
      exact h.quiet r _ (fun y hy => hy.elim) (fun _ => by rw [hp]; trivial) hl.2
  | p7 u =>
    simp only [hp] at hs hl
    obtain ⟨h', hst, rfl⟩ := via_eq hs
    exact h.slot r _ (.inl ⟨_, rfl⟩) hst (fun _ hx => hx) (by rw [hp]; trivial) ⟨set_named hst, hl⟩
  | p8 u =>
    simp only [hp] at hs hl
    split at hs
    · cases hs
      exact h.quiet r _ (fun y hy => hy.elim) (fun hn => hn.elim) trivial
    · split at hs
      · next hu =>
        obtain ⟨h', hst, rfl⟩ := via_eq hs
        exact h.slot r _ (.inr rfl) hst (fun _ hx => hx) (by rw [hp]; trivial)
          ⟨validate_named (hl.1.trans hu) hst, fun hc => absurd hc (Nat.ne_of_lt hl.2)⟩
      · cases hs
        exact h.quiet r _ (fun y hy => hy.elim) (fun _ => by rw [hp]; trivial) hl.2
  | leave =>
    simp only [hp] at hs hl
    obtain ⟨h', hst, rfl⟩ := via_eq hs
    exact h.slot r _ (.inl ⟨_, rfl⟩) hst (fun _ hx => hx) (by rw [hp]; trivial) trivial

theorem Inv.enter {s : St N n} (h : Inv D C thr s) (r : Fin n) (pc : PC N)
    (hpu : ∀ x, pushing pc x → free s x) (hneed : needs pc → s.h.used r = true ∧ 0 < D)
    (hloc : ∀ s', Loc (n := n) s' r pc) : Inv D C thr (enter s r pc) :=
  h.move (r := r) (pc := pc) rfl (fun _ hu => upd_ne _ _ hu) (Nat.le_of_eq (upd_same _ _ _)) (Nat.le_refl _) (fun _ => rfl)
    h.hpr h.seg h.nodup h.linked (fun x hx => ⟨(hpu x hx).1, fun u _ => (hpu x hx).2 u⟩)
    (fun u _ x hx => ⟨h.push u x hx, rfl⟩) hneed (fun _ _ hu => hu)
    (fun _ _ => rfl) (fun _ _ _ he => he) (fun _ _ => rfl) (hloc _)

theorem Inv.client {s : St N n} (h : Inv D C thr s) {a : Hp.Act (Fin n) N} {h' : Hp.St (Fin n) N}
    (ha : clientOk s a) (hs : Hp.step D C thr s.h a = some h') : Inv D C thr { s with h := h' } := by
  have hI := Hp.Inv.reach h.hpr
  have hlf : ∀ x, a ≠ .link x ∧ a ≠ .unlink x := by
    intro x; constructor <;> (rintro rfl; exact ha)
  have hun : ∀ u, needs (s.th u) → a ≠ .unregister u := by
    rintro u hu rfl
    simp only [clientOk] at ha
    split at ha
    · next he => rw [he] at hu; exact hu
    · exact ha
  have hd : ∀ u, needs (s.th u) → ¬ a.drops u 0 := by
    intro u hu hc
    cases a <;> simp only [Hp.Act.drops] at hc
    · subst hc
      simp only [Hp.step] at hs
      split at hs
      · cases hs
      · next hn => exact hn (hI.used _ (h.need _ hu).1)
    · subst hc; exact hun _ hu rfl
    · obtain ⟨rfl, rfl⟩ := hc
      simp only [clientOk] at ha
      rcases ha with ha | ha
      · exact ha rfl
      · split at ha
        · next he => rw [he] at hu; exact hu
        · exact ha
    · exact ha
  constructor
  · exact .step h.hpr hs
  · exact h.seg
  · exact h.nodup
  · exact fun x => (Hp.step_life hI hs x (hlf x).1 (hlf x).2).1.trans (h.linked x)
  · exact fun u x hx => (Hp.step_life hI hs x (hlf x).1 (hlf x).2).2 (h.push u x hx)
  · exact h.uniq
  · exact fun u hu => ⟨Hp.step_used hs (hun u hu) (h.need u hu).1, (h.need u hu).2⟩
  · exact h.v0
  · intro u
    exact (h.loc u).keep (h.v0 u) rfl (Nat.le_refl _) (fun _ => rfl) (fun hu => Hp.step_pts hs (hd u hu))
      (fun hu e he => Hp.step_named hs (hd u hu) he) (fun _ _ => rfl) (fun _ _ _ => rfl)

theorem Inv.step {s s' : St N n} (h : Inv D C thr s) {a : Act N n} (hs : HpStack.step D C thr s a = some s') :
    Inv D C thr s' := by
  cases a with
  | run r => exact h.run hs
  | ret r =>
    simp only [HpStack.step] at hs
    split at hs
    · cases hs
      exact h.quiet r _ (fun y hy => hy.elim) (fun hn => hn.elim) trivial
    · cases hs
  | hp a =>
    simp only [HpStack.step] at hs
    split at hs
    · next ha =>
      obtain ⟨h', hst, rfl⟩ := via_eq hs
      exact h.client ha hst
    · cases hs
  | call r o =>
    simp only [HpStack.step] at hs
    split at hs
    · cases o with
      | push x =>
        simp only at hs
        split at hs
        · next hf => cases hs; exact h.enter r _ (fun y hy => by cases hy; exact hf) (fun hn => hn.elim) (fun _ => trivial)
        · cases hs
      | tryPush x =>
        simp only at hs
        split at hs
        · next hf => cases hs; exact h.enter r _ (fun y hy => by cases hy; exact hf) (fun hn => hn.elim) (fun _ => trivial)
        · cases hs
      | pop =>
        simp only at hs
        split at hs
        · next hf => cases hs; exact h.enter r _ (fun y hy => hy.elim) (fun _ => hf) (fun _ => trivial)
        · cases hs
      | tryPop =>
        simp only at hs
        split at hs
        · next hf => cases hs; exact h.enter r _ (fun y hy => hy.elim) (fun _ => hf) (fun _ => trivial)
        · cases hs
      | batch => cases hs
    · cases hs

theorem Start.inv {s : St N n} (h : Start s) (hv : ∀ u, s.v0 u ≤ s.ver) : Inv D C thr s where
  hpr := .init h.h
  seg := by rw [h.head, h.stk]; rfl
  nodup := by rw [h.stk]; exact List.nodup_nil
  linked x := by rw [h.h.life, h.stk]; simp
  push u x hx := by rw [h.idle] at hx; exact hx.elim
  uniq u v x hx := by rw [h.idle] at hx; exact hx.elim
  need u hu := by rw [h.idle] at hu; exact hu.elim
  v0 := hv
  loc u := by rw [h.idle]; trivial

theorem Inv.reach {s : St N n} (h : (sys D C thr).Reach s) : Inv D C thr s :=
  Sys.Reach.invariant (I := Inv D C thr) (fun s (h0 : Start s) => h0.inv h0.v0) (fun _ _ _ hI hs => hI.step hs) h

/-! ## Simulation -/

def tryP (tr : Bool) (x : N) : Stack.Op N := if tr then .tryPush x else .push x
def tryQ (tr : Bool) : Stack.Op N := if tr then .tryPop else .pop

def view : PC N → TS (Stack.Op N) (Stack.Res N)
  | .idle => .idle
  | .psh tr x | .pshW tr x _ | .pshC tr x _ => .pend (tryP tr x)
  | .p0 tr | .p1 tr _ | .p2 tr _ | .p3 tr _ | .p4 tr _ _ => .pend (tryQ tr)
  | .p5 _ | .p6 _ | .p7 _ | .p8 _ => .pend .pop
  | .leave => .pend .tryPop
  | .ret r => .done r

def abs (s : St N n) : Abs (Fin n) (Stack.Op N) (Stack.Res N) (List N) :=
  { x := s.stk, th := fun t => view (s.th t) }

theorem abs_skip {s s' : St N n} {O : Obj (Stack.Op N) (Stack.Res N) (List N)} {t : Fin n} {pc : PC N}
    (h1 : s'.stk = s.stk) (h2 : s'.th = upd s.th t pc) (h3 : view pc = view (s.th t)) :
    AStar O (abs s) (none : Option (Ev (Fin n) (Stack.Op N) (Stack.Res N))).toList (abs s') := by
  refine .skip ?_
  simp only [abs, h1, h2]
  rw [upd_comp_same]
  exact h3

theorem abs_lin {s s' : St N n} {O : Obj (Stack.Op N) (Stack.Res N) (List N)} {t : Fin n} {pc : PC N}
    {r : Stack.Res N} {o : Stack.Op N} (h1 : view (s.th t) = .pend o) (h2 : s'.th = upd s.th t pc)
    (hv : view pc = .done r) (h3 : O.app s.stk o r s'.stk) :
    AStar O (abs s) (none : Option (Ev (Fin n) (Stack.Op N) (Stack.Res N))).toList (abs s') := by
  refine .lin' (o := o) (t := t) (r := r) (x' := s'.stk) h1 h3 ?_
  simp only [abs, h2, upd_comp, hv]

theorem sim_run {s s' : St N n} (h : Inv D C thr s) {t : Fin n} (hs : HpStack.run D C thr s t = some s') :
    AStar (Stack.lifo ([] : List N)) (abs s) (none : Option (Ev (Fin n) (Stack.Op N) (Stack.Res N))).toList (abs s') := by
  have hnil : s.head = none → s.stk = [] := by
    have hseg := h.seg
    intro he; rw [he] at hseg
    cases hstk : s.stk with
    | nil => rfl
    | cons y l => rw [hstk] at hseg; obtain ⟨h1, -⟩ := hseg; cases h1
  have qn : ∀ tr, s.head = none → (Stack.lifo ([] : List N)).app s.stk (tryQ tr) (.entry none) s.stk := by
    intro tr hh
    cases tr
    · exact ⟨hnil hh, rfl⟩
    · exact rfl
  have qs : ∀ tr e, s.head = some e → (Stack.lifo ([] : List N)).app s.stk (tryQ tr) (.entry (some e)) s.stk.tail := by
    intro tr e he
    cases tr <;> exact head_mem h he
  unfold HpStack.run at hs
  cases hp : s.th t with
  | idle => rw [hp] at hs; cases hs
  | ret r => rw [hp] at hs; cases hs
  | psh tr x => simp only [hp] at hs; cases hs; exact abs_skip (t := t) rfl rfl (by rw [hp]; rfl)
  | pshW tr x e => simp only [hp] at hs; cases hs; exact abs_skip (t := t) rfl rfl (by rw [hp]; rfl)
  | pshC tr x e =>
    simp only [hp] at hs
    split at hs
    · obtain ⟨h', hst, rfl⟩ := via_eq hs
      cases tr
      · exact abs_lin (t := t) (o := .push x) (by rw [hp]; rfl) rfl rfl rfl
      · exact abs_lin (t := t) (o := .tryPush x) (by rw [hp]; rfl) rfl rfl rfl
    · split at hs
      · next htr =>
        subst htr; cases hs
        exact abs_lin (t := t) (o := .tryPush x) (by rw [hp]; rfl) rfl rfl rfl
      · cases hs; exact abs_skip (t := t) rfl rfl (by rw [hp]; rfl)
  | p0 tr =>
    simp only [hp] at hs
    split at hs
    · next he => cases hs; exact abs_lin (t := t) (o := tryQ tr) (by rw [hp]; rfl) rfl rfl (qn tr he)
    · cases hs; exact abs_skip (t := t) rfl rfl (by rw [hp]; rfl)
  | p1 tr e =>
    simp only [hp] at hs
    obtain ⟨h', hst, rfl⟩ := via_eq hs
    exact abs_skip (t := t) rfl rfl (by rw [hp]; rfl)
  | p2 tr e =>
    simp only [hp] at hs
    split at hs
    · obtain ⟨h', hst, rfl⟩ := via_eq hs
      exact abs_skip (t := t) rfl rfl (by rw [hp]; rfl)
    · split at hs
      · next htr => subst htr; cases hs; exact abs_skip (t := t) rfl rfl (by rw [hp]; rfl)
      · cases hs; exact abs_skip (t := t) rfl rfl (by rw [hp]; rfl)
  | p3 tr e => simp only [hp] at hs; cases hs; exact abs_skip (t := t) rfl rfl (by rw [hp]; rfl)
  | p4 tr e nx =>
    simp only [hp] at hs
    split at hs
    · next he =>
      obtain ⟨h', hst, rfl⟩ := via_eq hs
      exact abs_lin (t := t) (o := tryQ tr) (by rw [hp]; rfl) rfl rfl (qs tr e he)
    · split at hs
      · next htr => subst htr; cases hs; exact abs_skip (t := t) rfl rfl (by rw [hp]; rfl)
      · next htr =>
        simp only [Bool.not_eq_true] at htr
        subst htr
        split at hs
        · next he => cases hs; exact abs_lin (t := t) (o := .pop) (by rw [hp]; rfl) rfl rfl (qn false he)
        · cases hs; exact abs_skip (t := t) rfl rfl (by rw [hp]; rfl)
  | p5 e =>
    simp only [hp] at hs
    obtain ⟨h', hst, rfl⟩ := via_eq hs
    exact abs_skip (t := t) rfl rfl (by rw [hp]; rfl)
  | p6 e =>
    simp only [hp] at hs
    split at hs
    · obtain ⟨h', hst, rfl⟩ := via_eq hs
      exact abs_skip (t := t) rfl rfl (by rw [hp]; rfl)
    · cases hs; exact abs_skip (t := t) rfl rfl (by rw [hp]; rfl)
  | p7 u =>
    simp only [hp] at hs
    obtain ⟨h', hst, rfl⟩ := via_eq hs
    exact abs_skip (t := t) rfl rfl (by rw [hp]; rfl)
  | p8 u =>
    simp only [hp] at hs
    split at hs
    · next he => cases hs; exact abs_lin (t := t) (o := .pop) (by rw [hp]; rfl) rfl rfl (qn false he)
    · split at hs
      · obtain ⟨h', hst, rfl⟩ := via_eq hs
        exact abs_skip (t := t) rfl rfl (by rw [hp]; rfl)
      · cases hs; exact abs_skip (t := t) rfl rfl (by rw [hp]; rfl)
  | leave =>
    simp only [hp] at hs
    obtain ⟨h', hst, rfl⟩ := via_eq hs
    exact abs_lin (t := t) (o := .tryPop) (by rw [hp]; rfl) rfl rfl rfl

/-- **C38.**  The hazard pointer stack is linearizable, entries being reused as soon as `ck_hp` has
destroyed them. -/
theorem linearizable : Linearizable (sys D C thr) (obs (N := N) (n := n)) (Stack.lifo ([] : List N)) := by
  refine linearizable_of_sim (fun s α => α = abs s) ?_ ?_
  · intro s h0
    refine ⟨[], rfl, ?_⟩
    simp only [abs, h0.stk]
    congr 1
    funext t
    rw [h0.idle t]; rfl
  · rintro s a s' α hr rfl hs
    have h := Inv.reach hr
    refine ⟨abs s', ?_, rfl⟩
    change HpStack.step D C thr s a = some s' at hs
    cases a with
    | run t => exact sim_run h hs
    | ret t =>
      simp only [HpStack.step] at hs
      split at hs
      · next x hx =>
        cases hs
        simp only [obs, hx]
        refine .ret' (t := t) (r := x) (by simp only [abs, hx]; rfl) ?_
        simp only [abs, upd_comp]; rfl
      · cases hs
    | hp a =>
      simp only [HpStack.step] at hs
      split at hs
      · obtain ⟨h', hst, rfl⟩ := via_eq hs
        exact .skip rfl
      · cases hs
    | call t o =>
      simp only [HpStack.step] at hs
      split at hs
      · next hi =>
        have key : ∀ pc, view pc = .pend o → AStar (Stack.lifo ([] : List N)) (abs s)
            (obs s (.call t o)).toList (abs (enter s t pc)) := by
          intro pc hpc
          refine .call' (t := t) (o := o) (by simp only [abs, hi]; rfl) ?_
          simp only [abs, enter, upd_comp, hpc]
        cases o with
        | batch => cases hs
        | push x => simp only at hs; split at hs <;> cases hs; exact key _ rfl
        | tryPush x => simp only at hs; split at hs <;> cases hs; exact key _ rfl
        | pop => simp only at hs; split at hs <;> cases hs; exact key _ rfl
        | tryPop => simp only at hs; split at hs <;> cases hs; exact key _ rfl
      · cases hs

/-! ## Memory safety and progress -/

/-- The entry whose `next` field the thread's next step reads. -/
def derefs : PC N → Option N
  | .p3 _ e => some e
  | _ => none

/-- **C38.**  A pop dereferences only entries that are in the stack, or popped and not yet handed to the
destructor. -/
theorem derefs_live {s : St N n} (h : (sys D C thr).Reach s) {r : Fin n} {e : N}
    (hd : derefs (s.th r) = some e) : s.h.life e ≠ .fresh := by
  have hI := Inv.reach h
  have hl := hI.loc r
  cases hp : s.th r with
  | p3 tr x =>
    rw [hp] at hd hl
    cases hd
    exact Hp.protected_live hI.hpr hl.1.1 hl.1.2
  | _ => rw [hp] at hd; cases hd

/-- The compare-and-swap of a pop installs the entry below the popped one. -/
theorem pops_top {s s' : St N n} (h : (sys D C thr).Reach s) {r : Fin n} {tr : Bool} {e : N} {nx : Option N}
    (hp : s.th r = .p4 tr e nx) (he : s.head = some e) (hs : (sys D C thr).step s (.run r) = some s') :
    s.stk = e :: s'.stk ∧ Seg s'.next s'.head s'.stk none ∧ s'.h.life e = .unlinked := by
  have hI := Inv.reach h
  have hI' := hI.step (a := .run r) hs
  refine ⟨?_, hI'.seg, ?_⟩
  all_goals
    change HpStack.run D C thr s r = some s' at hs
    unfold HpStack.run at hs
    simp only [hp, he, if_true] at hs
    obtain ⟨h', hst, rfl⟩ := via_eq hs
  · exact head_mem hI he
  · simp only [Hp.step, head_linked hI he, if_true] at hst
    cases hst
    exact upd_same _ _ _

/-- **C38.**  A failing `trypop` on a nonempty stack, and a failing `trypush`, were overtaken: some other
operation changed `head` since they were called. -/
theorem try_fail_overtaken {s s' : St N n} (h : (sys D C thr).Reach s) {r : Fin n}
    (hs : (sys D C thr).step s (.run r) = some s') :
    (s'.th r = .leave → s.v0 r < s.ver) ∧ (s'.th r = .ret (.flag false) → s.v0 r < s.ver) := by
  have hI := Inv.reach h
  have hI' := hI.step (a := .run r) hs
  constructor
  · intro hl
    have h1 := hI'.loc r
    rw [hl] at h1
    change HpStack.run D C thr s r = some s' at hs
    have key : s'.v0 = s.v0 ∧ (s'.ver = s.ver ∨ ∃ x, s'.th r = .ret x) := by
      unfold HpStack.run at hs
      split at hs
      all_goals (repeat' (split at hs))
      all_goals first
        | (cases hs; done)
        | (cases hs; exact ⟨rfl, .inl rfl⟩)
        | (obtain ⟨h', hst, rfl⟩ := via_eq hs; exact ⟨rfl, .inl rfl⟩)
        | (obtain ⟨h', hst, rfl⟩ := via_eq hs; exact ⟨rfl, .inr ⟨_, upd_same _ _ _⟩⟩)
    rcases key.2 with h2 | ⟨x, h2⟩
    · rw [← key.1, ← h2]; exact h1
    · rw [hl] at h2; cases h2
  · intro hl
    have hloc := hI.loc r
    change HpStack.run D C thr s r = some s' at hs
    have no : ∀ pc, s'.th = upd s.th r pc → pc = .ret (.flag false) := fun pc hpc => by
      rw [hpc, upd_same] at hl; exact hl
    have lt : ∀ e, (s.v0 r = s.ver → s.head = e) → s.head ≠ e → s.v0 r < s.ver := fun e h1 h2 => by
      rcases Nat.lt_or_eq_of_le (hI.v0 r) with h3 | h3
      · exact h3
      · exact absurd (h1 h3) h2
    unfold HpStack.run at hs
    cases hp : s.th r <;> rw [hp] at hloc <;> simp only [hp] at hs
    case pshC tr x e =>
      split at hs
      · obtain ⟨h', hst, rfl⟩ := via_eq hs
        have := no _ rfl
        cases tr <;> cases this
      · next hne => exact lt e hloc.2 hne
    all_goals (repeat' (split at hs))
    all_goals first
      | (cases hs; done)
      | (cases hs; have := no _ rfl; cases this)
      | (obtain ⟨h', hst, rfl⟩ := via_eq hs; have := no _ rfl; cases this)

/-- **C38.**  No step of an operation ever waits: the hazard pointer calls made by the stack are always
possible. -/
theorem never_stuck {s : St N n} (h : (sys D C thr).Reach s) {r : Fin n} (h1 : s.th r ≠ .idle)
    (h2 : ∀ x, s.th r ≠ .ret x) : ∃ s', (sys D C thr).step s (.run r) = some s' := by
  have hI := Inv.reach h
  have hH := Hp.Inv.reach hI.hpr
  have hl := hI.loc r
  have hn := hI.need r
  have hvia : ∀ a (f : Hp.St (Fin n) N → St N n) h', Hp.step D C thr s.h a = some h' → ∃ s', via D C thr s a f = some s' :=
    fun a f h' hst => ⟨f h', by unfold via; rw [hst]; rfl⟩
  show ∃ s', HpStack.run D C thr s r = some s'
  unfold HpStack.run
  cases hp : s.th r with
  | idle => exact absurd hp h1
  | ret x => exact absurd hp (h2 x)
  | psh tr x => exact ⟨_, rfl⟩
  | pshW tr x e => exact ⟨_, rfl⟩
  | pshC tr x e =>
    have hf := hI.push r x (by rw [hp]; rfl)
    by_cases he : s.head = e
    · simp only [if_pos he]; exact hvia _ _ _ (if_pos hf)
    · simp only [if_neg he]; cases tr <;> exact ⟨_, rfl⟩
  | p0 tr => cases s.head <;> exact ⟨_, rfl⟩
  | p1 tr e =>
    rw [hp] at hn
    exact hvia _ _ _ (Hp.step_set _ (hn trivial).1 (hn trivial).2)
  | p2 tr e =>
    rw [hp] at hn hl
    by_cases he : s.head = some e
    · simp only [if_pos he]
      exact hvia _ _ _ (Hp.step_validate hH (hn trivial).1 (hn trivial).2 hl.1 (head_linked hI he))
    · simp only [if_neg he]; cases tr <;> exact ⟨_, rfl⟩
  | p3 tr e => exact ⟨_, rfl⟩
  | p4 tr e nx =>
    by_cases he : s.head = some e
    · simp only [if_pos he]
      exact hvia _ _ _ (if_pos (head_linked hI he))
    · simp only [if_neg he]
      cases tr
      · simp only [Bool.false_eq_true, if_false]
        cases s.head <;> exact ⟨_, rfl⟩
      · exact ⟨_, rfl⟩
  | p5 e =>
    rw [hp] at hn
    exact hvia _ _ _ (Hp.step_set _ (hn trivial).1 (hn trivial).2)
  | p6 e =>
    rw [hp] at hn hl
    by_cases he : s.head = some e
    · simp only [if_pos he]
      exact hvia _ _ _ (Hp.step_validate hH (hn trivial).1 (hn trivial).2 hl.1 (head_linked hI he))
    · simp only [if_neg he]; exact ⟨_, rfl⟩
  | p7 u =>
    rw [hp] at hn
    exact hvia _ _ _ (Hp.step_set _ (hn trivial).1 (hn trivial).2)
  | p8 u =>
    rw [hp] at hn hl
    cases he : s.head with
    | none => exact ⟨_, rfl⟩
    | some x =>
      by_cases hu : u = some x
      · simp only [if_pos hu]
        exact hvia _ _ _ (Hp.step_validate hH (hn trivial).1 (hn trivial).2 (hl.1.trans hu) (head_linked hI he))
      · simp only [if_neg hu]; exact ⟨_, rfl⟩
  | leave =>
    rw [hp] at hn
    exact hvia _ _ _ (Hp.step_set _ (hn trivial).1 (hn trivial).2)

end Verif.HpStack
