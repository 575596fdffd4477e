import Verif.Smr.HpFifoInv
import Verif.Core.Hind

/-!
# The hazard pointer FIFO: linearizability and memory safety
-/

set_option linter.unusedSectionVars false

namespace Verif.HpFifo

open Verif Verif.Lin

variable {N V : Type} [DecidableEq N] {n : Nat} {D C thr : Nat} {tq strict : Prop}

theorem Inv.run {s s' : St N V n} (h : Inv strict D C thr s) {r : Fin n} (hs : HpFifo.run D C thr s r = some s') :
    Inv strict D C thr s' := by
  have hl := h.loc r
  unfold HpFifo.run at hs
  cases hp : s.th r with
  | idle => rw [hp] at hs; cases hs
  | ret x => rw [hp] at hs; cases hs
  | null => rw [hp] at hs; cases hs
  | eV tr x v =>
    simp only [hp] at hs
    cases hs
    have hpx : preparing (s.th r) x := by rw [hp]; rfl
    have hfx := h.prep r x hpx
    have hx : x ∉ s.chain := fun hc => by have := (h.linked x).2 hc; rw [hfx] at this; cases this
    have hne : ∀ y, s.h.life y ≠ .fresh → upd s.val x v y = s.val y := fun y hy =>
      upd_ne _ _ (by rintro rfl; exact hy hfx)
    refine h.move (r := r) (pc := .eP tr x v) rfl h.hpr h.seg h.nodup (fun p hpq => ?_) h.tail h.linked h.gone
      (h.prep_of (fun y hy => by rw [hp]; exact hy)) (fun _ _ => id) (fun y hy => hy.elim)
      (fun u hu y hy => ⟨h.prep u y hy, ?_, rfl⟩) (fun _ => h.need r (by rw [hp]; trivial)) (fun _ _ hu => hu)
      (fun _ _ _ _ => rfl) (fun _ _ _ _ _ he => he) ⟨fun _ _ _ => rfl, fun _ _ h => h, fun _ _ _ h => h, hne⟩
      (upd_same _ _ _)
    · show upd s.val x v p.1 = p.2
      rw [upd_ne _ _ (fun he : p.1 = x => hx ?_)]
      · exact h.vals p hpq
      · rw [← he]; simp only [St.chain, List.mem_cons, List.mem_map]; exact Or.inr ⟨p, hpq, rfl⟩
    · exact upd_ne _ _ (by rintro rfl; exact hu (h.uniq u r y hy hpx))
  | eP tr x v =>
    simp only [hp] at hs hl
    cases hs
    have hpx : preparing (s.th r) x := by rw [hp]; rfl
    have hfx := h.prep r x hpx
    have hx : x ∉ s.chain := fun hc => by have := (h.linked x).2 hc; rw [hfx] at this; cases this
    have hne : ∀ y, s.h.life y ≠ .fresh → upd s.next x none y = s.next y := fun y hy =>
      upd_ne _ _ (by rintro rfl; exact hy hfx)
    refine h.move (r := r) (pc := .eT tr x v) rfl h.hpr ((seg_upd hx).2 h.seg) h.nodup h.vals h.tail h.linked
      (fun y hy => ?_)
      (h.prep_of (fun y hy => by rw [hp]; exact hy)) (fun _ _ => id) (fun y hy => hy.elim)
      (fun u hu y hy => ⟨h.prep u y hy, rfl, ?_⟩) (fun _ => h.need r (by rw [hp]; trivial)) (fun _ _ hu => hu)
      (fun _ _ _ _ => rfl) (fun _ _ _ _ _ he => he) ⟨fun y hy _ => hne y hy, fun _ _ h => h, fun _ _ _ h => h,
        fun _ _ => rfl⟩ ⟨hl, upd_same _ _ _⟩
    · show y ∈ s.chain ∨ upd s.next x none y ≠ none
      rw [hne y hy]; exact h.gone y hy
    · exact upd_ne _ _ (by rintro rfl; exact hu (h.uniq u r y hy hpx))
  | eT tr x v =>
    simp only [hp] at hs hl
    cases hs
    exact h.quiet r _ (fun y hy => by rw [hp]; exact hy) (fun y hy => hy.elim) (fun _ => by rw [hp]; trivial) hl
  | eS tr x v tp =>
    simp only [hp] at hs hl
    obtain ⟨h', hst, rfl⟩ := via_eq hs
    exact h.slot r _ (.inl ⟨_, rfl⟩) hst (fun y hy => by rw [hp]; exact hy) (fun y hy => hy.elim)
      (by rw [hp]; trivial) ⟨hl, set_named hst⟩
  | eC tr x v tp =>
    simp only [hp] at hs hl
    split at hs
    · obtain ⟨h', hst, rfl⟩ := via_eq hs
      exact h.slot r _ (.inr rfl) hst (fun y hy => by rw [hp]; exact hy) (fun y hy => hy.elim)
        (by rw [hp]; trivial) ⟨hl.1, validate_named hl.2 hst⟩
    · cases hs
      exact h.quiet r _ (fun y hy => by rw [hp]; exact again_prep hy) (fun y hy => absurd hy again_held)
        (fun _ => by rw [hp]; trivial) (again_loc hl.1)
  | eN tr x v tp =>
    simp only [hp] at hs hl
    split at hs
    · split at hs
      · cases hs
        exact h.quiet r _ (fun y hy => by rw [hp]; exact hy) (fun y hy => hy.elim) (fun _ => by rw [hp]; trivial) hl
      · next y hy =>
        cases hs
        exact h.quiet r _ (fun y hy => by rw [hp]; exact hy) (fun y hy => hy.elim) (fun _ => by rw [hp]; trivial)
          ⟨hl.1, hl.2, hy⟩
    · cases hs
      exact h.quiet r _ (fun y hy => by rw [hp]; exact hy) (fun y hy => hy.elim) (fun _ => by rw [hp]; trivial)
        ⟨hl.1, hl.2, fun y hy => hy⟩
  | eK x v tp np =>
    simp only [hp] at hs hl
    split at hs
    · split at hs
      · cases hs
        exact h.quiet r _ (fun y hy => by rw [hp]; exact hy) (fun y hy => hy.elim) (fun _ => by rw [hp]; trivial)
          ⟨hl.1, hl.2.1⟩
      · next y =>
        cases hs
        exact h.quiet r _ (fun y hy => by rw [hp]; exact hy) (fun y hy => hy.elim) (fun _ => by rw [hp]; trivial)
          ⟨hl.1, hl.2.1, hl.2.2 y rfl⟩
    · cases hs
      exact h.quiet r _ (fun y hy => by rw [hp]; exact hy) (fun y hy => hy.elim) (fun _ => by rw [hp]; trivial) hl.1
  | eFwd tr x v tp y =>
    simp only [hp] at hs hl
    split at hs
    · next hc =>
      cases hs
      exact h.swing r _ (by rw [hc]; exact hl.2.2) (fun y hy => by rw [hp]; exact again_prep hy)
        (fun y => again_held) (fun _ => by rw [hp]; trivial) (again_loc hl.1)
    · cases hs
      exact h.quiet r _ (fun y hy => by rw [hp]; exact again_prep hy) (fun y hy => absurd hy again_held)
        (fun _ => by rw [hp]; trivial) (again_loc hl.1)
  | eCas tr x v tp =>
    simp only [hp] at hs hl
    split at hs
    · next hc =>
      obtain ⟨h', hst, rfl⟩ := via_eq hs
      exact h.append hp hc hst
    · cases hs
      exact h.quiet r _ (fun y hy => by rw [hp]; exact again_prep hy) (fun y hy => absurd hy again_held)
        (fun _ => by rw [hp]; trivial) (again_loc hl.1)
  | eSw tr x tp =>
    simp only [hp] at hs hl
    split at hs
    · next hc =>
      cases hs
      exact h.swing r _ (by rw [hc]; exact hl.2) (fun y hy => hy.elim) (fun y hy => hy.elim)
        (fun hn => hn.elim) trivial
    · cases hs
      exact h.quiet r _ (fun y hy => hy.elim) (fun y hy => hy.elim) (fun hn => hn.elim) trivial
  | dH =>
    simp only [hp] at hs
    cases hs
    exact h.quiet r _ (fun y hy => hy.elim) (fun y hy => hy.elim) (fun _ => by rw [hp]; trivial) trivial
  | dS hh =>
    simp only [hp] at hs
    obtain ⟨h', hst, rfl⟩ := via_eq hs
    exact h.slot r _ (.inl ⟨_, rfl⟩) hst (fun y hy => hy.elim) (fun y hy => hy.elim)
      (by rw [hp]; trivial) (set_named hst)
  | dC hh =>
    simp only [hp] at hs hl
    split at hs
    · next he =>
      obtain ⟨h', hst, rfl⟩ := via_eq hs
      exact h.slot r _ (.inr rfl) hst (fun y hy => hy.elim) (fun y hy => hy.elim)
        (by rw [hp]; trivial) ⟨validate_named hl hst, .inl he.symm⟩
    · cases hs
      exact h.quiet r _ (fun y hy => hy.elim) (fun y hy => hy.elim) (fun _ => by rw [hp]; trivial) trivial
  | dT hh =>
    simp only [hp] at hs hl
    cases hs
    exact h.quiet r _ (fun y hy => hy.elim) (fun y hy => hy.elim) (fun _ => by rw [hp]; trivial)
      ⟨hl.1, hl.2, fun hne he hc => hne (by rw [he, hc])⟩
  | dN hh tp =>
    simp only [hp] at hs hl
    cases hs
    exact h.quiet r _ (fun y hy => hy.elim) (fun y hy => hy.elim) (fun _ => by rw [hp]; trivial)
      ⟨hl.1, hl.2.1, hl.2.2, fun y hy => hy⟩
  | d1 hh tp np =>
    simp only [hp] at hs hl
    obtain ⟨h', hst, rfl⟩ := via_eq hs
    exact h.slot r _ (.inl ⟨_, rfl⟩) hst (fun y hy => hy.elim) (fun y hy => hy.elim)
      (by rw [hp]; trivial) ⟨set_other (by omega) hst hl.1, hl.2.1, hl.2.2.1, hl.2.2.2, set_named hst⟩
  | dK hh tp np =>
    simp only [hp] at hs hl
    split at hs
    · next he =>
      split at hs
      · cases hs
        exact h.quiet r _ (fun y hy => hy.elim) (fun y hy => hy.elim) (fun _ => by rw [hp]; trivial) trivial
      · next y =>
        obtain ⟨h', hst, rfl⟩ := via_eq hs
        have h1 := validate_named hl.2.2.2.2 hst
        have h2 := validate_other hst hl.1
        split
        · exact h.slot r _ (.inr rfl) hst (fun y hy => hy.elim) (fun y hy => hy.elim)
            (by rw [hp]; trivial) ⟨h2, hl.2.2.2.1 y rfl⟩
        · next hne =>
          exact h.slot r _ (.inr rfl) hst (fun y hy => hy.elim) (fun y hy => hy.elim)
            (by rw [hp]; trivial) ⟨h2, hl.2.1, hl.2.2.1 hne, hl.2.2.2.1 y rfl, h1⟩
    · cases hs
      exact h.quiet r _ (fun y hy => hy.elim) (fun y hy => hy.elim) (fun _ => by rw [hp]; trivial) trivial
  | dX0 =>
    simp only [hp] at hs
    obtain ⟨h', hst, rfl⟩ := via_eq hs
    exact h.slot r _ (.inl ⟨_, rfl⟩) hst (fun y hy => hy.elim) (fun y hy => hy.elim) (by rw [hp]; trivial) trivial
  | dX1 =>
    simp only [hp] at hs
    obtain ⟨h', hst, rfl⟩ := via_eq hs
    exact h.slot r _ (.inl ⟨_, rfl⟩) hst (fun y hy => hy.elim) (fun y hy => hy.elim) (by rw [hp]; trivial) trivial
  | dFwd hh y =>
    simp only [hp] at hs hl
    split at hs
    · next hc =>
      cases hs
      exact h.swing r _ (by rw [hc]; exact hl.2) (fun y hy => hy.elim) (fun y hy => hy.elim)
        (fun _ => by rw [hp]; trivial) trivial
    · cases hs
      exact h.quiet r _ (fun y hy => hy.elim) (fun y hy => hy.elim) (fun _ => by rw [hp]; trivial) trivial
  | dCas hh y =>
    simp only [hp] at hs hl
    split at hs
    · next he =>
      obtain ⟨h', hst, rfl⟩ := via_eq hs
      subst he
      exact h.advance (by rw [hp]; trivial) hl.2.2.1 hl.2.2.2.1 hl.2.2.2.2 rfl hst
    · cases hs
      exact h.quiet r _ (fun y hy => hy.elim) (fun y hy => hy.elim) (fun _ => by rw [hp]; trivial) trivial
  | dVal hh y v =>
    simp only [hp] at hs
    cases hs
    exact h.quiet r _ (fun y hy => hy.elim) (fun y hy => hy.elim) (fun hn => hn.elim) trivial
  | qH =>
    simp only [hp] at hs
    cases hs
    exact h.quiet r _ (fun y hy => hy.elim) (fun y hy => .inr hy.symm) (fun _ => by rw [hp]; trivial) (.inl rfl)
  | qT hh =>
    simp only [hp] at hs hl
    cases hs
    exact h.quiet r _ (fun y hy => hy.elim) (fun y hy => by rw [hp]; exact .inl hy) (fun _ => by rw [hp]; trivial)
      ⟨hl, fun hne he hc => hne (by rw [he, hc])⟩
  | qS hh tp =>
    simp only [hp] at hs hl
    obtain ⟨h', hst, rfl⟩ := via_eq hs
    exact h.slot r _ (.inl ⟨_, rfl⟩) hst (fun y hy => hy.elim) (fun y hy => by rw [hp]; exact hy)
      (by rw [hp]; trivial) ⟨hl.1, hl.2, set_named hst⟩
  | qC hh tp =>
    simp only [hp] at hs hl
    split at hs
    · next he =>
      obtain ⟨h', hst, rfl⟩ := via_eq hs
      exact h.slot r _ (.inr rfl) hst (fun y hy => hy.elim) (fun y hy => hy.elim)
        (by rw [hp]; trivial) ⟨validate_named hl.2.2 hst, hl.1, hl.2.1⟩
    · cases hs
      exact h.quiet r _ (fun y hy => hy.elim) (fun y hy => hy.elim) (fun hn => hn.elim) trivial
  | qN hh tp =>
    simp only [hp] at hs hl
    cases hs
    refine h.quiet r _ (fun y hy => hy.elim) (fun y hy => hy.elim) (fun _ => by rw [hp]; trivial)
      ⟨hl.1, hl.2.1, hl.2.2, fun hnx => ?_, fun y hy => hy⟩
    obtain ⟨h1, -, h3⟩ := h.empty hl.1 hl.2.1 hnx
    exact Classical.byContradiction fun hne => hl.2.2 hne h1 h3
  | q1 hh tp np =>
    simp only [hp] at hs hl
    obtain ⟨h', hst, rfl⟩ := via_eq hs
    exact h.slot r _ (.inl ⟨_, rfl⟩) hst (fun y hy => hy.elim) (fun y hy => hy.elim)
      (by rw [hp]; trivial)
      ⟨set_other (by omega) hst hl.1, hl.2.1, hl.2.2.1, hl.2.2.2.1, hl.2.2.2.2, set_named hst⟩
  | qK hh tp np =>
    simp only [hp] at hs hl
    split at hs
    · next he =>
      split at hs
      · cases hs
        rw [if_pos (hl.2.2.2.1 rfl)]
        exact h.quiet r _ (fun y hy => hy.elim) (fun y hy => hy.elim) (fun hn => hn.elim) trivial
      · next y =>
        obtain ⟨h', hst, rfl⟩ := via_eq hs
        have h1 := validate_named hl.2.2.2.2.2 hst
        have h2 := validate_other hst hl.1
        split
        · next hh =>
          subst hh
          exact h.slot r _ (.inr rfl) hst (fun y hy => hy.elim) (fun y hy => hy.elim)
            (by rw [hp]; trivial) ⟨h2, hl.2.2.2.2.1 y rfl⟩
        · next hne =>
          exact h.slot r _ (.inr rfl) hst (fun y hy => hy.elim) (fun y hy => hy.elim)
            (by rw [hp]; trivial) ⟨h2, hl.2.1, hl.2.2.1 hne, y, rfl, hl.2.2.2.2.1 y rfl, h1⟩
    · cases hs
      exact h.quiet r _ (fun y hy => hy.elim) (fun y hy => hy.elim) (fun hn => hn.elim) trivial
  | qFwd tp y =>
    simp only [hp] at hs hl
    split at hs
    · next hc =>
      cases hs
      exact h.swing r _ (by rw [hc]; exact hl.2) (fun y hy => hy.elim) (fun y hy => hy.elim)
        (fun hn => hn.elim) trivial
    · cases hs
      exact h.quiet r _ (fun y hy => hy.elim) (fun y hy => hy.elim) (fun hn => hn.elim) trivial
  | qCas hh np =>
    simp only [hp] at hs hl
    obtain ⟨h1, h2, h3, y, rfl, h4, h5⟩ := hl
    split at hs
    · next he =>
      simp only at hs
      obtain ⟨h', hst, rfl⟩ := via_eq hs
      subst he
      exact h.advance (by rw [hp]; trivial) h3 h4 h5 rfl hst
    · cases hs
      exact h.quiet r _ (fun y hy => hy.elim) (fun y hy => hy.elim) (fun hn => hn.elim) trivial

theorem Inv.enter {s : St N V n} (h : Inv strict D C thr s) (r : Fin n) (pc : PC N V) (hst : strict ∨ ∀ u x, ¬ held (s.th u) x)
    (hpu : ∀ x, preparing pc x → free strict s x) (hhe : ∀ x, ¬ held pc x) (hneed : s.h.used r = true ∧ 2 ≤ D)
    (hloc : ∀ s', Loc (n := n) s' r pc) : Inv strict D C thr { s with th := upd s.th r pc } :=
  h.move (r := r) (pc := pc) rfl h.hpr h.seg h.nodup h.vals h.tail h.linked h.gone
    (fun x hx => ⟨(hpu x hx).1, fun u _ => (hpu x hx).2.1 u, fun u _ hc => by
      rcases hst with h1 | h1
      · exact (hpu x hx).2.2 h1 u hc
      · exact h1 u x hc⟩)
    (fun x _ => hhe x) (fun x hx => absurd hx (hhe x))
    (fun u _ x hx => ⟨h.prep u x hx, rfl, rfl⟩) (fun _ => hneed) (fun _ _ hu => hu)
    (fun _ _ _ _ => rfl) (fun _ _ _ _ _ he => he) (.refl' rfl rfl rfl rfl rfl) (hloc _)

theorem Inv.client {s : St N V n} (h : Inv strict D C thr s) {a : Hp.Act (Fin n) N} {h' : Hp.St (Fin n) N}
    (ha : clientOk s a) (hs : Hp.step D C thr s.h a = some h') : Inv strict D C thr { s with h := h' } := by
  have hI := Hp.Inv.reach h.hpr
  have hlf : ∀ x, a ≠ .link x ∧ a ≠ .unlink x := by
    intro x; constructor <;> (rintro rfl; exact ha)
  have hun : ∀ u, needs (s.th u) → a ≠ .unregister u := by
    rintro u hu rfl
    simp only [clientOk] at ha
    split at ha
    · next he => rw [he] at hu; exact hu
    · exact ha
  have hd : ∀ u, needs (s.th u) → ∀ i, i < 2 → ¬ a.drops u i := by
    intro u hu i hi hc
    cases a <;> simp only [Hp.Act.drops] at hc
    · subst hc
      simp only [Hp.step] at hs
      split at hs
      · cases hs
      · next hn => exact hn (hI.used _ (h.need _ hu).1)
    · subst hc; exact hun _ hu rfl
    · obtain ⟨rfl, rfl⟩ := hc
      simp only [clientOk] at ha
      rcases ha with ha | ha
      · omega
      · split at ha
        · next he => rw [he] at hu; exact hu
        · exact ha
    · exact ha
  have hlife := fun x => Hp.step_life hI hs x (hlf x).1 (hlf x).2
  constructor
  · exact .step h.hpr hs
  · exact h.seg
  · exact h.nodup
  · exact h.vals
  · exact h.tail
  · exact fun x => (hlife x).1.trans (h.linked x)
  · exact fun x hx => h.gone x fun hc => hx ((hlife x).2 hc)
  · exact fun u x hx => (hlife x).2 (h.prep u x hx)
  · exact h.uniq
  · exact h.sep
  · exact fun u hu => ⟨Hp.step_used hs (hun u hu) (h.need u hu).1, (h.need u hu).2⟩
  · intro u
    exact (h.loc u).keep h.hpr h.prep (fun v x => h.sep v u x) (.refl' rfl rfl rfl rfl rfl)
      (fun hu i hi => Hp.step_pts hs (hd u hu i hi))
      (fun hu i hi e he => Hp.step_named hs (hd u hu i hi) he) (fun _ _ => ⟨rfl, rfl⟩)

/-- A thread in `trydequeue`. -/
def inTry : PC N V → Prop
  | .qH | .qT _ | .qS _ _ | .qC _ _ => True
  | _ => False

variable [Decidable tq] [Decidable strict]

/-- `trydequeue` is only entered if allowed. -/
theorem try_allowed {stub : N} {s : St N V n} (h : (sys tq strict D C thr stub).Reach s) (u : Fin n)
    (hu : inTry (s.th u)) : tq := by
  refine Sys.Reach.invariant (I := fun s : St N V n => ∀ u, inTry (s.th u) → tq) ?_ ?_ h u hu
  · intro s h0 u hu; rw [Start.idle h0 u] at hu; exact hu.elim
  · intro s a s' ih hs u hu
    have key : ∀ r pc, s'.th = upd s.th r pc → (inTry pc → inTry (s.th r) ∨ tq) → tq := by
      intro r pc hth hpc
      rw [hth, upd_apply] at hu
      split at hu
      · rcases hpc hu with h1 | h1
        · exact ih r h1
        · exact h1
      · exact ih u hu
    change HpFifo.step tq strict D C thr s a = some s' at hs
    cases a with
    | run r =>
      change HpFifo.run D C thr s r = some s' at hs
      unfold HpFifo.run again at hs
      cases hp : s.th r <;> simp only [hp] at hs
      all_goals (repeat' (split at hs))
      all_goals first
        | (cases hs; done)
        | (cases hs; exact key r _ rfl (fun hc => hc.elim))
        | (cases hs; exact key r _ rfl (fun hc => by rw [hp]; exact .inl trivial))
        | (obtain ⟨h', hst, rfl⟩ := via_eq hs; exact key r _ rfl (fun hc => hc.elim))
        | (obtain ⟨h', hst, rfl⟩ := via_eq hs; exact key r _ rfl (fun hc => by rw [hp]; exact .inl trivial))
        | (obtain ⟨h', hst, rfl⟩ := via_eq hs; exact key r _ rfl (fun hc => by split at hc <;> exact hc.elim))
        | (cases hs; exact key r _ rfl (fun hc => by split at hc <;> exact hc.elim))
    | ret r =>
      simp only [HpFifo.step] at hs
      split at hs
      · cases hs; exact key r _ rfl (fun hc => hc.elim)
      · cases hs
    | hp a =>
      simp only [HpFifo.step] at hs
      split at hs
      · obtain ⟨h', hst, rfl⟩ := via_eq hs; exact ih u hu
      · cases hs
    | call r o =>
      simp only [HpFifo.step] at hs
      split at hs
      · split at hs
        · cases o with
          | enq x v => simp only at hs; split at hs <;> cases hs; exact key r _ rfl (fun hc => hc.elim)
          | tryEnq x v => simp only at hs; split at hs <;> cases hs; exact key r _ rfl (fun hc => hc.elim)
          | deq => simp only at hs; cases hs; exact key r _ rfl (fun hc => hc.elim)
          | tryDeq => simp only at hs; split at hs <;> cases hs; exact key r _ rfl (fun _ => .inr ‹_›)
        · cases hs
      · cases hs

theorem Inv.step {s s' : St N V n} (h : Inv strict D C thr s) (hm : strict ∨ ∀ u x, ¬ held (s.th u) x) {a : Act N V n}
    (hs : HpFifo.step tq strict D C thr s a = some s') : Inv strict D C thr s' := by
  cases a with
  | run r => exact h.run hs
  | ret r =>
    simp only [HpFifo.step] at hs
    split at hs
    · cases hs
      exact h.quiet r _ (fun y hy => hy.elim) (fun y hy => hy.elim) (fun hn => hn.elim) trivial
    · cases hs
  | hp a =>
    simp only [HpFifo.step] at hs
    split at hs
    · next ha =>
      obtain ⟨h', hst, rfl⟩ := via_eq hs
      exact h.client ha hst
    · cases hs
  | call r o =>
    simp only [HpFifo.step] at hs
    split at hs
    · split at hs
      · next hu =>
        cases o with
        | enq x v =>
          simp only at hs
          split at hs
          · next hf =>
            cases hs
            exact h.enter r _ hm (fun y hy => by cases hy; exact hf) (fun _ hc => hc) hu (fun _ => trivial)
          · cases hs
        | tryEnq x v =>
          simp only at hs
          split at hs
          · next hf =>
            cases hs
            exact h.enter r _ hm (fun y hy => by cases hy; exact hf) (fun _ hc => hc) hu (fun _ => trivial)
          · cases hs
        | deq =>
          simp only at hs; cases hs
          exact h.enter r _ hm (fun y hy => hy.elim) (fun _ hc => hc) hu (fun _ => trivial)
        | tryDeq =>
          simp only at hs
          split at hs
          · cases hs
            exact h.enter r _ hm (fun y hy => hy.elim) (fun _ hc => hc) hu (fun _ => trivial)
          · cases hs
      · cases hs
    · cases hs

theorem Start.inv {stub : N} {s : St N V n} (h : Start stub s) : Inv strict D C thr s := by
  obtain ⟨h0, h1, h2⟩ := h.h
  have hch : s.chain = [stub] := by simp [St.chain, h.head, h.q]
  have hlife : ∀ x, s.h.life x = if x = stub then .linked else .fresh := by
    intro x
    rw [h2]
    show upd h0.life stub .linked x = _
    rw [upd_apply]; split
    · rfl
    · exact h1.life x
  constructor
  · rw [h2]
    exact .step (a := .link stub) (.init h1) (by show (if _ then _ else _) = _; rw [if_pos (h1.life stub)])
  · rw [hch, h.head]; exact ⟨rfl, h.next⟩
  · rw [hch]; simp
  · rw [h.q]; intro p hp; cases hp
  · rw [hch, h.tail]; simp
  · intro x; rw [hlife, hch]; split <;> simp [*]
  · intro x hx
    rw [hlife] at hx
    split at hx
    · next he => left; rw [hch, he]; simp
    · exact absurd rfl hx
  · intro u x hx; rw [h.idle] at hx; exact hx.elim
  · intro u v x hx; rw [h.idle] at hx; exact hx.elim
  · intro u v x hx; rw [h.idle] at hx; exact hx.elim
  · intro u hu; rw [h.idle] at hu; exact hu.elim
  · intro u; rw [h.idle]; trivial

theorem Inv.reach (hm : tq → strict) {stub : N} {s : St N V n} (h : (sys tq strict D C thr stub).Reach s) :
    Inv strict D C thr s := by
  induction h with
  | init h0 => exact Start.inv h0
  | @step s s' a hr hs ih =>
    refine ih.step (tq := tq) ?_ hs
    by_cases hst : strict
    · exact .inl hst
    · right
      intro u x hx
      refine hst (hm (try_allowed hr u ?_))
      revert hx
      cases s.th u <;> intro hx <;> first | exact hx.elim | trivial

end Verif.HpFifo
