import Verif.Smr.HpFifo
import Verif.Smr.HpUse

/-!
# The hazard pointer FIFO: invariant
-/

set_option linter.unusedSectionVars false

namespace Verif.HpFifo

open Verif Verif.Lin

variable {N V : Type} [DecidableEq N] {n : Nat} {D C thr : Nat} {tq strict : Prop}

/-- The thread is in an operation. -/
def needs : PC N V → Prop
  | .idle | .ret _ | .null => False
  | _ => True

/-- `y`, once loaded from `head`, is the dummy or gone. -/
def Hd (s : St N V n) (y : N) : Prop := y = s.head ∨ y ∉ s.chain

/-- If `y` is the dummy, the tail is past it. -/
def Past (s : St N V n) (y : N) : Prop := y = s.head → s.tail ≠ s.head

/-- Preparation of the entry is done. -/
def Rdy (s : St N V n) (x : N) (v : V) : Prop := s.val x = v ∧ s.next x = none

def Loc (s : St N V n) (r : Fin n) : PC N V → Prop
  | .eP _ x v => s.val x = v
  | .eT _ x v | .eS _ x v _ => Rdy s x v
  | .eC _ x v tp => Rdy s x v ∧ s.h.pts r 0 = some tp
  | .eN _ x v tp | .eCas _ x v tp => Rdy s x v ∧ Hp.Named s.h r 0 tp
  | .eK x v tp np => Rdy s x v ∧ Hp.Named s.h r 0 tp ∧ ∀ y, np = some y → s.next tp = some y
  | .eFwd _ x v tp y => Rdy s x v ∧ Hp.Named s.h r 0 tp ∧ s.next tp = some y
  | .eSw _ x tp => Hp.Named s.h r 0 tp ∧ s.next tp = some x
  | .dC h => s.h.pts r 0 = some h
  | .dT h => Hp.Named s.h r 0 h ∧ Hd s h
  | .dN h tp => Hp.Named s.h r 0 h ∧ Hd s h ∧ (h ≠ tp → Past s h)
  | .d1 h tp np => Hp.Named s.h r 0 h ∧ Hd s h ∧ (h ≠ tp → Past s h) ∧ ∀ y, np = some y → s.next h = some y
  | .dK h tp np => Hp.Named s.h r 0 h ∧ Hd s h ∧ (h ≠ tp → Past s h) ∧ (∀ y, np = some y → s.next h = some y) ∧
      s.h.pts r 1 = np
  | .dFwd h y => Hp.Named s.h r 0 h ∧ s.next h = some y
  | .dCas h y => Hp.Named s.h r 0 h ∧ Hd s h ∧ Past s h ∧ s.next h = some y ∧ Hp.Named s.h r 1 y
  | .dVal _ y v => Hp.Named s.h r 1 y ∧ s.val y = v
  | .qT h => Hd s h
  | .qS h tp => Hd s h ∧ (h ≠ tp → Past s h)
  | .qC h tp => Hd s h ∧ (h ≠ tp → Past s h) ∧ s.h.pts r 0 = some h
  | .qN h tp => Hp.Named s.h r 0 h ∧ Hd s h ∧ (h ≠ tp → Past s h)
  | .q1 h tp np => Hp.Named s.h r 0 h ∧ Hd s h ∧ (h ≠ tp → Past s h) ∧ (np = none → h = tp) ∧
      ∀ y, np = some y → s.next h = some y
  | .qK h tp np => Hp.Named s.h r 0 h ∧ Hd s h ∧ (h ≠ tp → Past s h) ∧ (np = none → h = tp) ∧
      (∀ y, np = some y → s.next h = some y) ∧ s.h.pts r 1 = np
  | .qFwd tp y => Hp.Named s.h r 0 tp ∧ s.next tp = some y
  | .qCas h np => Hp.Named s.h r 0 h ∧ Hd s h ∧ Past s h ∧ ∃ y, np = some y ∧ s.next h = some y ∧ Hp.Named s.h r 1 y
  | .null => False
  | _ => True

structure Inv (strict : Prop) (D C thr : Nat) (s : St N V n) : Prop where
  hpr : (Hp.sys D C thr).Reach s.h
  seg : Seg s.next (some s.head) s.chain none
  nodup : s.chain.Nodup
  vals : ∀ p ∈ s.q, s.val p.1 = p.2
  tail : s.tail ∈ s.chain
  linked : ∀ x, s.h.life x = .linked ↔ x ∈ s.chain
  gone : ∀ x, s.h.life x ≠ .fresh → x ∈ s.chain ∨ s.next x ≠ none
  prep : ∀ u x, preparing (s.th u) x → s.h.life x = .fresh
  uniq : ∀ u v x, preparing (s.th u) x → preparing (s.th v) x → u = v
  sep : ∀ u v x, preparing (s.th u) x → ¬ held (s.th v) x
  need : ∀ u, needs (s.th u) → s.h.used u = true ∧ 2 ≤ D
  loc : ∀ u, Loc s u (s.th u)

/-- What a step leaves alone, for entries not being enqueued. -/
structure Keep (s s' : St N V n) : Prop where
  nx : ∀ y, s.h.life y ≠ .fresh → s.next y ≠ none → s'.next y = s.next y
  hd : ∀ y, (∀ u, ¬ preparing (s.th u) y) → Hd s y → Hd s' y
  past : ∀ y, (∀ u, ¬ preparing (s.th u) y) → Hd s y → Past s y → Past s' y
  vl : ∀ y, s.h.life y ≠ .fresh → s'.val y = s.val y

theorem Keep.refl' {s s' : St N V n} (h1 : s'.next = s.next) (h2 : s'.head = s.head) (h3 : s'.tail = s.tail)
    (h4 : s'.q = s.q) (h5 : s'.val = s.val) : Keep s s' where
  nx y _ _ := by rw [h1]
  hd y _ h := by simpa only [Hd, St.chain, h2, h4] using h
  past y _ _ h := by simpa only [Past, h2, h3] using h
  vl y _ := by rw [h5]

theorem Loc.keep {s s' : St N V n} {u : Fin n} {pc : PC N V} (hr : (Hp.sys D C thr).Reach s.h)
    (hpr : ∀ v x, preparing (s.th v) x → s.h.life x = .fresh)
    (hsep : ∀ v x, preparing (s.th v) x → ¬ held pc x) (hk : Keep s s')
    (hp : needs pc → ∀ i, i < 2 → s'.h.pts u i = s.h.pts u i)
    (hN : needs pc → ∀ i, i < 2 → ∀ e, Hp.Named s.h u i e → Hp.Named s'.h u i e)
    (hx : ∀ x, preparing pc x → s'.val x = s.val x ∧ s'.next x = s.next x) (h : Loc s u pc) : Loc s' u pc := by
  have lv : ∀ {i e}, Hp.Named s.h u i e → s.h.life e ≠ .fresh := fun h => Hp.protected_live hr h.1 h.2
  have np : ∀ {i e}, Hp.Named s.h u i e → ∀ v, ¬ preparing (s.th v) e := fun h v hc => lv h (hpr v _ hc)
  have nq : ∀ {e}, held pc e → ∀ v, ¬ preparing (s.th v) e := fun h v hc => hsep v _ hc h
  have rd : ∀ {x v}, preparing pc x → Rdy s x v → Rdy s' x v := fun h1 h2 =>
    ⟨(hx _ h1).1.trans h2.1, (hx _ h1).2.trans h2.2⟩
  have nx : ∀ {i e y}, Hp.Named s.h u i e → s.next e = some y → s'.next e = some y := fun h1 h2 =>
    (hk.nx _ (lv h1) (by rw [h2]; simp)).trans h2
  have z0 : (0 : Nat) < 2 := by omega
  have z1 : (1 : Nat) < 2 := by omega
  cases pc with
  | eP tr x v => exact (hx x rfl).1.trans h
  | eT tr x v => exact rd (x := x) rfl h
  | eS tr x v tp => exact rd (x := x) rfl h
  | eC tr x v tp => exact ⟨rd rfl h.1, (hp trivial 0 z0).trans h.2⟩
  | eN tr x v tp => exact ⟨rd rfl h.1, hN trivial 0 z0 _ h.2⟩
  | eCas tr x v tp => exact ⟨rd rfl h.1, hN trivial 0 z0 _ h.2⟩
  | eK x v tp np => exact ⟨rd rfl h.1, hN trivial 0 z0 _ h.2.1, fun y hy => nx h.2.1 (h.2.2 y hy)⟩
  | eFwd tr x v tp y => exact ⟨rd rfl h.1, hN trivial 0 z0 _ h.2.1, nx h.2.1 h.2.2⟩
  | eSw tr x tp => exact ⟨hN trivial 0 z0 _ h.1, nx h.1 h.2⟩
  | dC hh => exact (hp trivial 0 z0).trans h
  | dT hh => exact ⟨hN trivial 0 z0 _ h.1, hk.hd _ (np h.1) h.2⟩
  | dN hh tp =>
    exact ⟨hN trivial 0 z0 _ h.1, hk.hd _ (np h.1) h.2.1, fun hne => hk.past _ (np h.1) h.2.1 (h.2.2 hne)⟩
  | d1 hh tp nxt =>
    exact ⟨hN trivial 0 z0 _ h.1, hk.hd _ (np h.1) h.2.1, fun hne => hk.past _ (np h.1) h.2.1 (h.2.2.1 hne),
      fun y hy => nx h.1 (h.2.2.2 y hy)⟩
  | dK hh tp nxt =>
    exact ⟨hN trivial 0 z0 _ h.1, hk.hd _ (np h.1) h.2.1, fun hne => hk.past _ (np h.1) h.2.1 (h.2.2.1 hne),
      fun y hy => nx h.1 (h.2.2.2.1 y hy), (hp trivial 1 z1).trans h.2.2.2.2⟩
  | dFwd hh y => exact ⟨hN trivial 0 z0 _ h.1, nx h.1 h.2⟩
  | dCas hh y =>
    exact ⟨hN trivial 0 z0 _ h.1, hk.hd _ (np h.1) h.2.1, hk.past _ (np h.1) h.2.1 h.2.2.1, nx h.1 h.2.2.2.1,
      hN trivial 1 z1 _ h.2.2.2.2⟩
  | dVal hh y v => exact ⟨hN trivial 1 z1 _ h.1, (hk.vl y (lv h.1)).trans h.2⟩
  | qT hh => exact hk.hd _ (nq rfl) h
  | qS hh tp => exact ⟨hk.hd _ (nq rfl) h.1, fun hne => hk.past _ (nq rfl) h.1 (h.2 hne)⟩
  | qC hh tp =>
    exact ⟨hk.hd _ (nq rfl) h.1, fun hne => hk.past _ (nq rfl) h.1 (h.2.1 hne), (hp trivial 0 z0).trans h.2.2⟩
  | qN hh tp =>
    exact ⟨hN trivial 0 z0 _ h.1, hk.hd _ (np h.1) h.2.1, fun hne => hk.past _ (np h.1) h.2.1 (h.2.2 hne)⟩
  | q1 hh tp nxt =>
    exact ⟨hN trivial 0 z0 _ h.1, hk.hd _ (np h.1) h.2.1, fun hne => hk.past _ (np h.1) h.2.1 (h.2.2.1 hne),
      h.2.2.2.1, fun y hy => nx h.1 (h.2.2.2.2 y hy)⟩
  | qK hh tp nxt =>
    exact ⟨hN trivial 0 z0 _ h.1, hk.hd _ (np h.1) h.2.1, fun hne => hk.past _ (np h.1) h.2.1 (h.2.2.1 hne),
      h.2.2.2.1, fun y hy => nx h.1 (h.2.2.2.2.1 y hy), (hp trivial 1 z1).trans h.2.2.2.2.2⟩
  | qFwd tp y => exact ⟨hN trivial 0 z0 _ h.1, nx h.1 h.2⟩
  | qCas hh nxt =>
    obtain ⟨y, h1, h2, h3⟩ := h.2.2.2
    exact ⟨hN trivial 0 z0 _ h.1, hk.hd _ (np h.1) h.2.1, hk.past _ (np h.1) h.2.1 h.2.2.1,
      y, h1, nx h.1 h2, hN trivial 1 z1 _ h3⟩
  | null => exact h.elim
  | _ => trivial

/-- Thread `r` moves to `pc`. -/
theorem Inv.move {s s' : St N V n} (h : Inv strict D C thr s) {r : Fin n} {pc : PC N V} (hth : s'.th = upd s.th r pc)
    (hr : (Hp.sys D C thr).Reach s'.h) (hseg : Seg s'.next (some s'.head) s'.chain none) (hnd : s'.chain.Nodup)
    (hv : ∀ p ∈ s'.q, s'.val p.1 = p.2) (ht : s'.tail ∈ s'.chain)
    (hlk : ∀ x, s'.h.life x = .linked ↔ x ∈ s'.chain)
    (hg : ∀ x, s'.h.life x ≠ .fresh → x ∈ s'.chain ∨ s'.next x ≠ none)
    (hpu : ∀ x, preparing pc x → s'.h.life x = .fresh ∧ (∀ u, u ≠ r → ¬ preparing (s.th u) x) ∧
      ∀ u, u ≠ r → ¬ held (s.th u) x)
    (hpu' : ∀ x, preparing pc x → ¬ held pc x)
    (hhe : ∀ x, held pc x → ∀ u, ¬ preparing (s.th u) x)
    (hfr : ∀ u, u ≠ r → ∀ x, preparing (s.th u) x →
      s'.h.life x = .fresh ∧ s'.val x = s.val x ∧ s'.next x = s.next x)
    (hneed : needs pc → s'.h.used r = true ∧ 2 ≤ D)
    (hus : ∀ u, u ≠ r → s.h.used u = true → s'.h.used u = true)
    (hpt : ∀ u, u ≠ r → ∀ i, i < 2 → s'.h.pts u i = s.h.pts u i)
    (hN : ∀ u, u ≠ r → ∀ i, i < 2 → ∀ e, Hp.Named s.h u i e → Hp.Named s'.h u i e)
    (hk : Keep s s') (hloc : Loc s' r pc) : Inv strict D C thr s' := by
  constructor
  · exact hr
  · exact hseg
  · exact hnd
  · exact hv
  · exact ht
  · exact hlk
  · exact hg
  · intro u x hx
    rw [hth] at hx
    by_cases hu : u = r
    · subst hu; rw [upd_same] at hx; exact (hpu x hx).1
    · rw [upd_ne _ _ hu] at hx; exact (hfr u hu x hx).1
  · intro u v x hx hy
    rw [hth] at hx hy
    by_cases hu : u = r <;> by_cases hw : v = r
    · rw [hu, hw]
    · subst hu
      rw [upd_same] at hx
      rw [upd_ne _ _ hw] at hy
      exact absurd hy ((hpu x hx).2.1 v hw)
    · subst hw
      rw [upd_same] at hy
      rw [upd_ne _ _ hu] at hx
      exact absurd hx ((hpu x hy).2.1 u hu)
    · rw [upd_ne _ _ hu] at hx
      rw [upd_ne _ _ hw] at hy
      exact h.uniq u v x hx hy
  · intro u v x hx hy
    rw [hth] at hx hy
    by_cases hu : u = r <;> by_cases hw : v = r
    · subst hu; subst hw
      rw [upd_same] at hx hy
      exact hpu' x hx hy
    · subst hu
      rw [upd_same] at hx
      rw [upd_ne _ _ hw] at hy
      exact (hpu x hx).2.2 v hw hy
    · subst hw
      rw [upd_same] at hy
      rw [upd_ne _ _ hu] at hx
      exact hhe x hy u hx
    · rw [upd_ne _ _ hu] at hx
      rw [upd_ne _ _ hw] at hy
      exact h.sep u v x hx hy
  · intro u hx
    rw [hth] at hx
    by_cases hu : u = r
    · subst hu; rw [upd_same] at hx; exact hneed hx
    · rw [upd_ne _ _ hu] at hx
      exact ⟨hus u hu (h.need u hx).1, (h.need u hx).2⟩
  · intro u
    rw [hth]
    by_cases hu : u = r
    · subst hu; rw [upd_same]; exact hloc
    · rw [upd_ne _ _ hu]
      exact (h.loc u).keep h.hpr h.prep (fun v x => h.sep v u x) hk (fun _ => hpt u hu) (fun _ => hN u hu)
        (fun x hx => (hfr u hu x hx).2)

/-- Preparation of the next program counter follows from that of the last. -/
theorem Inv.prep_of {s : St N V n} (h : Inv strict D C thr s) {r : Fin n} {pc : PC N V}
    (hpu : ∀ x, preparing pc x → preparing (s.th r) x) :
    ∀ x, preparing pc x → s.h.life x = .fresh ∧ (∀ u, u ≠ r → ¬ preparing (s.th u) x) ∧
      ∀ u, u ≠ r → ¬ held (s.th u) x := fun x hx =>
  ⟨h.prep r x (hpu x hx), fun u hu hc => hu (h.uniq u r x hc (hpu x hx)), fun u _ hc => h.sep r u x (hpu x hx) hc⟩

/-- Only the program counter of `r` moves. -/
theorem Inv.quiet {s : St N V n} (h : Inv strict D C thr s) (r : Fin n) (pc : PC N V)
    (hpu : ∀ x, preparing pc x → preparing (s.th r) x)
    (hhe : ∀ x, held pc x → held (s.th r) x ∨ x = s.head) (hneed : needs pc → needs (s.th r))
    (hloc : Loc s r pc) : Inv strict D C thr { s with th := upd s.th r pc } := by
  have hhe' : ∀ x, held pc x → ∀ u, ¬ preparing (s.th u) x := by
    intro x hx u hu
    rcases hhe x hx with h1 | h1
    · exact h.sep u r x hu h1
    · have := (h.linked x).2 (by rw [h1]; simp [St.chain])
      rw [h.prep u x hu] at this; cases this
  exact h.move (r := r) (pc := pc) rfl h.hpr h.seg h.nodup h.vals h.tail h.linked h.gone
    (h.prep_of hpu) (fun x hx hy => hhe' x hy r (hpu x hx)) hhe'
    (fun u _ x hx => ⟨h.prep u x hx, rfl, rfl⟩) (fun hn => h.need r (hneed hn)) (fun _ _ hu => hu)
    (fun _ _ _ _ => rfl) (fun _ _ _ _ _ he => he) (.refl' rfl rfl rfl rfl rfl) (by cases pc <;> exact hloc)

/-- A step of `r` that stores to a slot or validates it. -/
theorem Inv.slot {s : St N V n} (h : Inv strict D C thr s) (r : Fin n) (pc : PC N V) {a : Hp.Act (Fin n) N}
    {h' : Hp.St (Fin n) N} {i : Nat}
    (ha : (∃ x, a = .set r i x) ∨ a = .validate r i) (hs : Hp.step D C thr s.h a = some h')
    (hpu : ∀ x, preparing pc x → preparing (s.th r) x)
    (hhe : ∀ x, held pc x → held (s.th r) x) (hneed : needs (s.th r))
    (hloc : Loc { s with h := h', th := upd s.th r pc } r pc) :
    Inv strict D C thr { s with h := h', th := upd s.th r pc } := by
  have hI := Hp.Inv.reach h.hpr
  have hd : ∀ u, u ≠ r → ∀ j, ¬ a.drops u j := by
    intro u hu j hc
    rcases ha with ⟨x, rfl⟩ | rfl
    · exact hu hc.1.symm
    · exact hc
  have hlf : ∀ x, a ≠ .link x ∧ a ≠ .unlink x := by
    intro x
    rcases ha with ⟨y, rfl⟩ | rfl <;> exact ⟨by simp, by simp⟩
  have hun : ∀ u, a ≠ .unregister u := by
    intro u
    rcases ha with ⟨y, rfl⟩ | rfl <;> simp
  have hlife : h'.life = s.h.life := by
    rcases ha with ⟨y, rfl⟩ | rfl
    · simp only [Hp.step] at hs; split at hs <;> cases hs; rfl
    · simp only [Hp.step] at hs
      split at hs
      · cases hs
      · split at hs <;> cases hs; rfl
  refine h.move (r := r) (pc := pc) rfl (.step h.hpr hs) h.seg h.nodup h.vals h.tail (fun x => ?_) (fun x hx => ?_)
    (fun x hx => ?_) (fun x hx hy => h.sep r r x (hpu x hx) (hhe x hy)) (fun x hx u hu => h.sep u r x hu (hhe x hx))
    (fun u _ x hx => ⟨?_, rfl, rfl⟩) (fun _ => ?_)
    (fun u _ hu => Hp.step_used hs (hun u) hu) (fun u hu i _ => Hp.step_pts hs (hd u hu i))
    (fun u hu i _ e he => Hp.step_named hs (hd u hu i) he) (.refl' rfl rfl rfl rfl rfl) hloc
  · exact (Hp.step_life hI hs x (hlf x).1 (hlf x).2).1.trans (h.linked x)
  · exact h.gone x (by rw [← hlife]; exact hx)
  · show h'.life x = _ ∧ _
    rw [hlife]; exact h.prep_of hpu x hx
  · show h'.life x = _
    rw [hlife]; exact h.prep u x hx
  · exact ⟨Hp.step_used hs (hun r) (h.need r hneed).1, (h.need r hneed).2⟩

theorem via_eq {s s' : St N V n} {a : Hp.Act (Fin n) N} {f : Hp.St (Fin n) N → St N V n}
    (hs : via D C thr s a f = some s') : ∃ h', Hp.step D C thr s.h a = some h' ∧ f h' = s' := by
  unfold via at hs
  rw [Option.map_eq_some_iff] at hs
  exact hs

theorem set_named {s h' : Hp.St (Fin n) N} {r : Fin n} {i : Nat} {x : Option N}
    (hs : Hp.step D C thr s (.set r i x) = some h') : h'.pts r i = x := by
  simp only [Hp.step] at hs
  split at hs
  · cases hs; exact Hp.setPt_same _ _ _ _
  · cases hs

/-- A store to slot `i` leaves the other slot of the record alone. -/
theorem set_other {s h' : Hp.St (Fin n) N} {r : Fin n} {i j : Nat} {x : Option N} {e : N} (hij : i ≠ j)
    (hs : Hp.step D C thr s (.set r i x) = some h') (he : Hp.Named s r j e) : Hp.Named h' r j e :=
  Hp.step_named hs (fun hc => hij hc.2) he

theorem validate_named {s h' : Hp.St (Fin n) N} {r : Fin n} {i : Nat} {e : N} (he : s.pts r i = some e)
    (hs : Hp.step D C thr s (.validate r i) = some h') : Hp.Named h' r i e := by
  simp only [Hp.step, he] at hs
  split at hs
  · cases hs; exact ⟨Hp.setPr_same _ _ _ _, he⟩
  · cases hs

theorem validate_other {s h' : Hp.St (Fin n) N} {r : Fin n} {i j : Nat} {e : N}
    (hs : Hp.step D C thr s (.validate r i) = some h') (he : Hp.Named s r j e) : Hp.Named h' r j e :=
  Hp.step_named hs id he

/-! ## The chain -/

/-- The successor of a chained entry is chained. -/
theorem Inv.next_mem {s : St N V n} (h : Inv strict D C thr s) {x y : N} (hx : x ∈ s.chain) (hy : s.next x = some y) :
    y ∈ s.chain ∧ y ≠ s.head := by
  obtain ⟨a, b, hab⟩ := List.append_of_mem hx
  have hseg := h.seg
  have hnd := h.nodup
  rw [hab, seg_append] at hseg
  obtain ⟨m, -, h2, h3⟩ := hseg
  rw [hy] at h3
  cases b with
  | nil => cases h3
  | cons z b =>
    obtain ⟨h4, -⟩ := h3
    cases h4
    have hh : ∃ l, s.chain = s.head :: l := ⟨_, rfl⟩
    obtain ⟨l, hl⟩ := hh
    rw [hab] at hl hnd
    refine ⟨by rw [hab]; simp, ?_⟩
    rintro rfl
    cases a with
    | nil =>
      simp only [List.nil_append, List.cons.injEq] at hl hnd
      rw [List.nodup_cons] at hnd
      exact hnd.1 (by rw [hl.1]; simp)
    | cons w a =>
      simp only [List.cons_append, List.cons.injEq] at hl hnd
      rw [List.nodup_cons] at hnd
      exact hnd.1 (by rw [hl.1]; simp)

/-- A chained entry without successor is the last. -/
theorem Inv.last {s : St N V n} (h : Inv strict D C thr s) {x : N} (hx : x ∈ s.chain) (hy : s.next x = none) :
    ∃ a, s.chain = a ++ [x] := by
  obtain ⟨a, b, hab⟩ := List.append_of_mem hx
  have hseg := h.seg
  rw [hab, seg_append] at hseg
  obtain ⟨m, -, h2, h3⟩ := hseg
  rw [hy] at h3
  cases b with
  | nil => exact ⟨a, hab⟩
  | cons z b => obtain ⟨h4, -⟩ := h3; cases h4

theorem Inv.next_head {s : St N V n} (h : Inv strict D C thr s) : s.next s.head = (s.q.map Prod.fst).head? := by
  have := h.seg
  rw [St.chain] at this
  obtain ⟨-, h3⟩ := this
  cases hq : s.q.map Prod.fst with
  | nil => rw [hq] at h3; exact h3
  | cons y l => rw [hq] at h3; exact h3.1

/-- A named entry loaded from `head` without successor: the queue is empty. -/
theorem Inv.empty {s : St N V n} (h : Inv strict D C thr s) {r : Fin n} {i : Nat} {y : N} (hN : Hp.Named s.h r i y)
    (hd : Hd s y) (hn : s.next y = none) : y = s.head ∧ s.q = [] ∧ s.tail = s.head := by
  have hl := Hp.protected_live h.hpr hN.1 hN.2
  have hc : y ∈ s.chain := by
    rcases h.gone y hl with h1 | h1
    · exact h1
    · exact absurd hn h1
  have hy : y = s.head := by
    rcases hd with h1 | h1
    · exact h1
    · exact absurd hc h1
  have hq : s.q = [] := by
    have := h.next_head
    rw [← hy, hn] at this
    simpa using this.symm
  refine ⟨hy, hq, ?_⟩
  have := h.tail
  simpa [St.chain, hq] using this

theorem head_linked {s : St N V n} (h : Inv strict D C thr s) : s.h.life s.head = .linked :=
  (h.linked _).2 (by simp [St.chain])

theorem head_chain (s : St N V n) : s.head ∈ s.chain := by simp [St.chain]

/-- The tail moves to its successor. -/
theorem Inv.swing {s : St N V n} (h : Inv strict D C thr s) (r : Fin n) (pc : PC N V) {y : N}
    (hn : s.next s.tail = some y) (hpu : ∀ x, preparing pc x → preparing (s.th r) x)
    (hhe : ∀ x, ¬ held pc x) (hneed : needs pc → needs (s.th r))
    (hloc : Loc { s with tail := y, th := upd s.th r pc } r pc) :
    Inv strict D C thr { s with tail := y, th := upd s.th r pc } := by
  obtain ⟨hm, hne⟩ := h.next_mem h.tail hn
  refine h.move (r := r) (pc := pc) rfl h.hpr h.seg h.nodup h.vals hm h.linked h.gone
    (h.prep_of hpu) (fun x _ => hhe x) (fun x hx => absurd hx (hhe x))
    (fun u _ x hx => ⟨h.prep u x hx, rfl, rfl⟩) (fun hn => h.need r (hneed hn)) (fun _ _ hu => hu)
    (fun _ _ _ _ => rfl) (fun _ _ _ _ _ he => he) ⟨fun _ _ _ => rfl, fun _ _ h => h, fun z _ _ _ _ => hne,
      fun _ _ => rfl⟩ hloc

theorem again_prep {tr : Bool} {x y : N} {v : V} (h : preparing (again tr x v) y) : x = y := by
  unfold again at h; split at h
  · exact h.elim
  · exact h

theorem again_held {tr : Bool} {x y : N} {v : V} : ¬ held (again tr x v) y := by
  unfold again; split <;> exact id

theorem again_loc {s : St N V n} {r : Fin n} {tr : Bool} {x : N} {v : V} (h : Rdy s x v) : Loc s r (again tr x v) := by
  unfold again; split
  · trivial
  · exact h

/-- `r` appends `x`, which it has prepared, to the last entry. -/
theorem Inv.append {s : St N V n} (h : Inv strict D C thr s) {r : Fin n} {tr : Bool} {x : N} {v : V} {tp : N}
    {h' : Hp.St (Fin n) N} (hp : s.th r = .eCas tr x v tp) (hc : s.next tp = none)
    (hst : Hp.step D C thr s.h (.link x) = some h') :
    Inv strict D C thr { s with
      h := h', next := upd s.next tp (some x), q := s.q ++ [(x, v)], th := upd s.th r (.eSw tr x tp) } := by
  have hl := h.loc r
  rw [hp] at hl
  obtain ⟨⟨hv, hxn⟩, hk⟩ := hl
  have hpx : preparing (s.th r) x := by rw [hp]; rfl
  have hfx := h.prep r x hpx
  have hx : x ∉ s.chain := fun hc => by have := (h.linked x).2 hc; rw [hfx] at this; cases this
  have htl := Hp.protected_live h.hpr hk.1 hk.2
  have htp : tp ∈ s.chain := by
    rcases h.gone tp htl with hk | hk
    · exact hk
    · exact absurd hc hk
  obtain ⟨a, ha⟩ := h.last htp hc
  have hch : s.head :: (s.q ++ [(x, v)]).map Prod.fst = s.chain ++ [x] := by simp [St.chain]
  have hxt : x ≠ tp := by rintro rfl; exact hx htp
  have hnd := h.nodup
  have hta : tp ∉ a := by
    rw [ha, List.nodup_append] at hnd
    intro hm; exact hnd.2.2 _ hm _ (by simp) rfl
  have hst' := hst
  simp only [Hp.step, hfx, if_true] at hst'
  cases hst'
  refine h.move (r := r) rfl (.step (a := .link x) h.hpr hst) ?_ ?_ ?_ ?_ ?_ ?_ (fun y hy => hy.elim)
    (fun y hy => hy.elim) (fun y hy => hy.elim) (fun u hu y hy => ?_) (fun _ => h.need r (by rw [hp]; trivial))
    (fun _ _ hu => hu) (fun _ _ _ _ => rfl) (fun _ _ _ _ _ he => he) ?_ ⟨hk, upd_same _ _ _⟩
  · rw [St.chain]; simp only []; rw [hch, ha, List.append_assoc, seg_append]
    have hseg := h.seg
    rw [ha, seg_append] at hseg
    obtain ⟨m, h1, h2⟩ := hseg
    refine ⟨m, (seg_upd hta).2 h1, ?_⟩
    simp only [List.cons_append, List.nil_append]
    refine ⟨h2.1, ?_⟩
    simp only [upd_same]
    exact ⟨rfl, by rw [upd_ne _ _ hxt]; exact hxn⟩
  · rw [St.chain]; simp only []; rw [hch, List.nodup_append]
    exact ⟨h.nodup, by simp, by simp only [List.mem_singleton]; rintro a ha b rfl rfl; exact hx ha⟩
  · intro p hpq
    rcases List.mem_append.1 hpq with hpq | hpq
    · exact h.vals p hpq
    · rw [List.mem_singleton] at hpq; subst hpq; exact hv
  · rw [St.chain]; simp only []; rw [hch]; exact List.mem_append_left _ h.tail
  · intro y
    rw [St.chain]; simp only []; rw [hch, upd_apply, List.mem_append, List.mem_singleton]
    split
    · next hy => simp [hy]
    · next hy => rw [h.linked y]; simp [hy]
  · intro y hy
    rw [St.chain]; simp only []; rw [hch]
    by_cases hyx : y = x
    · left; simp [hyx]
    · change upd s.h.life x .linked y ≠ .fresh at hy
      rw [upd_ne _ _ hyx] at hy
      rcases h.gone y hy with h1 | h1
      · exact .inl (List.mem_append_left _ h1)
      · right
        by_cases hyt : y = tp
        · rw [hyt, upd_same]; simp
        · rw [upd_ne _ _ hyt]; exact h1
  · have hyx : y ≠ x := by rintro rfl; exact hu (h.uniq u r y hy hpx)
    refine ⟨?_, rfl, ?_⟩
    · show upd s.h.life x .linked y = .fresh
      rw [upd_ne _ _ hyx]; exact h.prep u y hy
    · exact upd_ne _ _ (by rintro rfl; exact htl (h.prep u y hy))
  · refine ⟨fun y _ hy => upd_ne _ _ (by rintro rfl; exact hy hc), fun y hy hd => ?_, fun y _ _ h => h,
      fun _ _ => rfl⟩
    rcases hd with hd | hd
    · exact .inl hd
    · right
      rw [St.chain]; simp only []; rw [hch, List.mem_append, List.mem_singleton]
      rintro (h1 | h1)
      · exact hd h1
      · exact hy r (by rw [h1]; exact hpx)

/-- `r` moves `head` to the next entry. -/
theorem Inv.advance {s : St N V n} (h : Inv strict D C thr s) {r : Fin n} {y : N} {v : V}
    {h' : Hp.St (Fin n) N} (hneed : needs (s.th r)) (hps : Past s s.head)
    (hn : s.next s.head = some y) (hN : Hp.Named s.h r 1 y) (hv : s.val y = v)
    (hst : Hp.step D C thr s.h (.unlink s.head) = some h') :
    Inv strict D C thr { s with h := h', head := y, q := s.q.tail, th := upd s.th r (.dVal s.head y v) } := by
  have hhl := head_linked h
  have hst' := hst
  simp only [Hp.step, hhl, if_true] at hst'
  cases hst'
  have hnh := h.next_head
  rw [hn] at hnh
  obtain ⟨p, q, hq, hpy⟩ : ∃ p q, s.q = p :: q ∧ p.1 = y := by
    cases hq : s.q with
    | nil => rw [hq] at hnh; cases hnh
    | cons p q => rw [hq] at hnh; simp only [List.map_cons, List.head?_cons] at hnh; cases hnh; exact ⟨p, q, rfl, rfl⟩
  have hch : s.chain = s.head :: (y :: s.q.tail.map Prod.fst) := by simp [St.chain, hq, hpy]
  have hseg := h.seg
  have hnd := h.nodup
  have htl := h.tail
  rw [hch] at hseg hnd htl
  have hyh : s.head ∉ y :: s.q.tail.map Prod.fst := (List.nodup_cons.1 hnd).1
  refine h.move (r := r) rfl (.step (a := .unlink s.head) h.hpr hst) ?_ (List.nodup_cons.1 hnd).2
    (fun p hp => h.vals p (List.mem_of_mem_tail hp)) ?_ ?_ ?_ (fun y hy => hy.elim)
    (fun y hy => hy.elim) (fun y hy => hy.elim) (fun u hu z hz => ⟨?_, rfl, rfl⟩) (fun _ => h.need r hneed)
    (fun _ _ hu => hu) (fun _ _ _ _ => rfl) (fun _ _ _ _ _ he => he) ?_ ⟨hN, hv⟩
  · show Seg s.next (some y) _ none
    rw [← hn]; exact hseg.2
  · rcases List.mem_cons.1 htl with h1 | h1
    · exact absurd h1 (hps rfl)
    · exact h1
  · intro z
    show upd s.h.life s.head .unlinked z = .linked ↔ z ∈ y :: s.q.tail.map Prod.fst
    rw [upd_apply]
    split
    · next hz => subst hz; exact ⟨fun hc => (nomatch hc), fun hc => absurd hc hyh⟩
    · next hz => rw [h.linked z, hch]; simp [hz]
  · intro z hz
    show z ∈ y :: s.q.tail.map Prod.fst ∨ s.next z ≠ none
    by_cases hzh : z = s.head
    · right; rw [hzh, hn]; simp
    · change upd s.h.life s.head .unlinked z ≠ .fresh at hz
      rw [upd_ne _ _ hzh] at hz
      have := h.gone z hz
      rw [hch] at this
      simpa [hzh] using this
  · show upd s.h.life s.head .unlinked z = .fresh
    have hf := h.prep u z hz
    rw [upd_ne _ _ (by rintro rfl; rw [hhl] at hf; cases hf)]; exact hf
  · have sub : ∀ z, z ∈ y :: s.q.tail.map Prod.fst → z ∈ s.chain := fun z hz => by
      rw [hch]; exact List.mem_cons_of_mem _ hz
    refine ⟨fun _ _ _ => rfl, fun z _ hd => ?_, fun z _ hd hp he => ?_, fun _ _ => rfl⟩
    · right
      rcases hd with hd | hd
      · rw [hd]; exact hyh
      · exact fun hc => hd (sub z hc)
    · change z = y at he
      subst he
      exfalso
      rcases hd with hd | hd
      · exact hyh (by rw [← hd]; simp)
      · exact hd (sub _ (by simp))

end Verif.HpFifo
