import Verif.Smr.HpFifoThm

/-!
# The hazard pointer FIFO: linearizability, memory safety, progress

A dequeue that loads `next == NULL` finds the queue empty at that moment, but whether it returns is only decided by
the second check of `head`; the simulation is therefore the hindsight one (`Core/Hind.lean`).
-/

set_option linter.unusedSectionVars false

namespace Verif.HpFifo

open Verif Verif.Lin

variable {N V : Type} [DecidableEq N] {n : Nat} {D C thr : Nat} {tq strict : Prop}

def tryE (tr : Bool) (x : N) (v : V) : Op N V := if tr then .tryEnq x v else .enq x v

def view : PC N V → HS (Op N V) (Res N V)
  | .idle => .idle
  | .eV tr x v | .eP tr x v | .eT tr x v | .eS tr x v _ | .eC tr x v _ | .eN tr x v _ | .eFwd tr x v _ _
  | .eCas tr x v _ => .pend (tryE tr x v)
  | .eK x v _ _ => .pend (.enq x v)
  | .eSw tr _ _ => .done (if tr then .flag true else .unit)
  | .dH | .dS _ | .dC _ | .dT _ | .dN _ _ | .d1 _ _ _ | .dK _ _ _ | .dFwd _ _ | .dCas _ _ => .read .deq
  | .dX0 | .dX1 => .done (.val none)
  | .dVal h _ v => .done (.val (some (v, h)))
  | .qH | .qT _ | .qS _ _ | .qC _ _ | .qN _ _ | .q1 _ _ _ | .qK _ _ _ | .qFwd _ _ | .qCas _ _ => .pend .tryDeq
  | .null => .idle
  | .ret r => .done r

/-- The queue was seen empty. -/
def sawEmpty : PC N V → Prop
  | .d1 _ _ none | .dK _ _ none => True
  | _ => False

def absX (s : St N V n) : X N V := { dummy := s.head, q := s.q }

def seen (s : St N V n) (t : Fin n) (r : Res N V) : Prop := r = .val none ∧ sawEmpty (s.th t)

def isEmpty (x : X N V) (o : Op N V) (r : Res N V) : Prop := o = .deq ∧ r = .val none ∧ x.q = []

/-- Shape of a step, as the simulation wants it. -/
abbrev Sim (x0 : X N V) (s s' : St N V n) (e : Option (Ev (Fin n) (Op N V) (Res N V))) : Prop :=
  HStep (fifo x0) isEmpty (absX s) (absX s') (fun t => view (s.th t)) (fun t => view (s'.th t)) (seen s) (seen s') e

theorem view_upd {s s' : St N V n} {t : Fin n} {pc : PC N V} (h : s'.th = upd s.th t pc) :
    (fun u => view (s'.th u)) = upd (fun u => view (s.th u)) t (view pc) := by
  rw [h]; funext u; simp only [upd]; split <;> rfl

theorem seen_other {s s' : St N V n} {t : Fin n} {pc : PC N V} (h : s'.th = upd s.th t pc) {u : Fin n} {r : Res N V}
    (hu : u ≠ t) (h1 : seen s' u r) : seen s u r := by
  refine ⟨h1.1, ?_⟩
  have := h1.2
  rw [h, upd_ne _ _ hu] at this
  exact this

/-- Nothing happens. -/
theorem sim_skip {x0 : X N V} {s s' : St N V n} {t : Fin n} {pc : PC N V} (hx : absX s' = absX s)
    (hth : s'.th = upd s.th t pc) (hv : view pc = view (s.th t))
    (hse : sawEmpty pc → sawEmpty (s.th t) ∨ view (s.th t) = .read .deq ∧ s.q = []) : Sim x0 s s' none := by
  refine .move t none (view pc) (fun o ho => hv.trans ho) (fun o ho => hv.symm.trans ho) (view_upd hth) ?_ (fun _ => ⟨rfl, hx⟩) ?_
  · intro th _ hth'
    rw [hx]
    refine .skip ?_
    rw [hv, ← hth', upd_eq_self]
  · intro u r hr
    by_cases hu : u = t
    · subst hu
      have h1 := hr.2
      rw [hth, upd_same] at h1
      rcases hse h1 with h2 | h2
      · exact .inl ⟨hr.1, h2⟩
      · exact .inr ⟨.deq, h2.1, rfl, hr.1, by rw [hx]; exact h2.2⟩
    · exact .inl (seen_other hth hu hr)

/-- An operation other than a dequeue takes effect. -/
theorem sim_lin {x0 : X N V} {s s' : St N V n} {t : Fin n} {pc : PC N V} {o : Op N V} {r : Res N V}
    (h1 : view (s.th t) = .pend o) (hth : s'.th = upd s.th t pc) (h2 : view pc = .done r)
    (ha : (fifo x0).app (absX s) o r (absX s')) : Sim x0 s s' none := by
  have hn : ¬ sawEmpty pc := by
    intro hc
    cases pc with
    | d1 h tp np => cases h2
    | dK h tp np => cases h2
    | _ => exact hc
  refine .move t none (view pc) (fun o' ho => ?_) (fun o' ho => ?_) (view_upd hth) ?_ (fun ⟨o', ho⟩ => ?_) ?_
  · rw [h1] at ho; cases ho
  · rw [h2] at ho; cases ho
  · intro th _ hth'
    simp only [h1, HS.ts] at hth'
    exact .lin' (o := o) (t := t) (r := r) (x' := absX s') hth' ha (by rw [h2]; rfl)
  · simp only [h1] at ho; cases ho
  · intro u r hr
    by_cases hu : u = t
    · subst hu
      have h3 := hr.2
      rw [hth, upd_same] at h3
      exact absurd h3 hn
    · exact .inl (seen_other hth hu hr)

theorem view_again {tr : Bool} {x : N} {v : V} : view (again tr x v) = if tr then .done (.flag false) else .pend (tryE tr x v) := by
  cases tr <;> rfl

theorem sawEmpty_again {tr : Bool} {x : N} {v : V} : ¬ sawEmpty (again tr x v) := by
  cases tr <;> exact id

/-- A failed attempt of an enqueue. -/
theorem sim_again {x0 : X N V} {s s' : St N V n} {t : Fin n} {tr : Bool} {x : N} {v : V} (hx : absX s' = absX s)
    (h1 : view (s.th t) = .pend (tryE tr x v)) (hth : s'.th = upd s.th t (again tr x v)) : Sim x0 s s' none := by
  cases tr with
  | false => exact sim_skip (t := t) hx hth (by rw [h1]; rfl) (fun hc => hc.elim)
  | true => exact sim_lin (t := t) h1 hth rfl hx

theorem sim_run {x0 : X N V} {s s' : St N V n} (h : Inv strict D C thr s) {t : Fin n}
    (hs : HpFifo.run D C thr s t = some s') : Sim x0 s s' none := by
  have hl := h.loc t
  -- the head moves
  have hdeq : ∀ y, s.next s.head = some y → ∃ q, s.q = (y, s.val y) :: q := by
    intro y hy
    have hnh := h.next_head
    rw [hy] at hnh
    cases hq : s.q with
    | nil => rw [hq] at hnh; cases hnh
    | cons p q =>
      rw [hq] at hnh; simp only [List.map_cons, List.head?_cons] at hnh; cases hnh
      refine ⟨q, ?_⟩
      rw [h.vals p (by rw [hq]; simp)]
  unfold HpFifo.run at hs
  cases hp : s.th t with
  | idle => rw [hp] at hs; cases hs
  | ret x => rw [hp] at hs; cases hs
  | null => rw [hp] at hs; cases hs
  | eV tr x v => simp only [hp] at hs; cases hs; exact sim_skip (t := t) rfl rfl (by rw [hp]; rfl) (fun hc => hc.elim)
  | eP tr x v => simp only [hp] at hs; cases hs; exact sim_skip (t := t) rfl rfl (by rw [hp]; rfl) (fun hc => hc.elim)
  | eT tr x v => simp only [hp] at hs; cases hs; exact sim_skip (t := t) rfl rfl (by rw [hp]; rfl) (fun hc => hc.elim)
  | eS tr x v tp =>
    simp only [hp] at hs
    obtain ⟨h', hst, rfl⟩ := via_eq hs
    exact sim_skip (t := t) rfl rfl (by rw [hp]; rfl) (fun hc => hc.elim)
  | eC tr x v tp =>
    simp only [hp] at hs
    split at hs
    · obtain ⟨h', hst, rfl⟩ := via_eq hs
      exact sim_skip (t := t) rfl rfl (by rw [hp]; rfl) (fun hc => hc.elim)
    · cases hs; exact sim_again (t := t) rfl (by rw [hp]; rfl) rfl
  | eN tr x v tp =>
    simp only [hp] at hs
    split at hs
    · next htr =>
      subst htr
      split at hs <;> (cases hs; exact sim_skip (t := t) rfl rfl (by rw [hp]; rfl) (fun hc => hc.elim))
    · next htr =>
      simp only [Bool.not_eq_true] at htr
      subst htr
      cases hs; exact sim_skip (t := t) rfl rfl (by rw [hp]; rfl) (fun hc => hc.elim)
  | eK x v tp np =>
    simp only [hp] at hs
    split at hs
    · split at hs <;> (cases hs; exact sim_skip (t := t) rfl rfl (by rw [hp]; rfl) (fun hc => hc.elim))
    · cases hs; exact sim_skip (t := t) rfl rfl (by rw [hp]; rfl) (fun hc => hc.elim)
  | eFwd tr x v tp y =>
    simp only [hp] at hs
    split at hs <;> (cases hs; exact sim_again (t := t) rfl (by rw [hp]; rfl) rfl)
  | eCas tr x v tp =>
    simp only [hp] at hs
    split at hs
    · obtain ⟨h', hst, rfl⟩ := via_eq hs
      cases tr
      · exact sim_lin (t := t) (o := .enq x v) (by rw [hp]; rfl) rfl rfl rfl
      · exact sim_lin (t := t) (o := .tryEnq x v) (by rw [hp]; rfl) rfl rfl rfl
    · cases hs; exact sim_again (t := t) rfl (by rw [hp]; rfl) rfl
  | eSw tr x tp =>
    simp only [hp] at hs
    split at hs <;> (cases hs; exact sim_skip (t := t) rfl rfl (by rw [hp]; rfl) (fun hc => hc.elim))
  | dH => simp only [hp] at hs; cases hs; exact sim_skip (t := t) rfl rfl (by rw [hp]; rfl) (fun hc => hc.elim)
  | dS hh =>
    simp only [hp] at hs
    obtain ⟨h', hst, rfl⟩ := via_eq hs
    exact sim_skip (t := t) rfl rfl (by rw [hp]; rfl) (fun hc => hc.elim)
  | dC hh =>
    simp only [hp] at hs
    split at hs
    · obtain ⟨h', hst, rfl⟩ := via_eq hs
      exact sim_skip (t := t) rfl rfl (by rw [hp]; rfl) (fun hc => hc.elim)
    · cases hs; exact sim_skip (t := t) rfl rfl (by rw [hp]; rfl) (fun hc => hc.elim)
  | dT hh => simp only [hp] at hs; cases hs; exact sim_skip (t := t) rfl rfl (by rw [hp]; rfl) (fun hc => hc.elim)
  | dN hh tp =>
    simp only [hp] at hs hl
    cases hs
    refine sim_skip (t := t) rfl rfl (by rw [hp]; rfl) (fun hc => .inr ⟨by rw [hp]; rfl, ?_⟩)
    cases hn : s.next hh with
    | none => exact (h.empty hl.1 hl.2.1 hn).2.1
    | some y => rw [hn] at hc; exact hc.elim
  | d1 hh tp np =>
    simp only [hp] at hs
    obtain ⟨h', hst, rfl⟩ := via_eq hs
    refine sim_skip (t := t) rfl rfl (by rw [hp]; rfl) (fun hc => ?_)
    rw [hp]
    cases np
    · exact .inl trivial
    · exact hc.elim
  | dK hh tp np =>
    simp only [hp] at hs
    split at hs
    · split at hs
      · cases hs
        exact .settle t .deq (.val none) (by simp only [hp]; rfl) ⟨rfl, by rw [hp]; trivial⟩
          (view_upd (s := s) (t := t) (pc := .dX0) rfl) rfl
          (fun u r hu hr => seen_other rfl hu hr)
      · obtain ⟨h', hst, rfl⟩ := via_eq hs
        split
        · exact sim_skip (t := t) rfl rfl (by rw [hp]; rfl) (fun hc => hc.elim)
        · exact sim_skip (t := t) rfl rfl (by rw [hp]; rfl) (fun hc => hc.elim)
    · cases hs; exact sim_skip (t := t) rfl rfl (by rw [hp]; rfl) (fun hc => hc.elim)
  | dX0 =>
    simp only [hp] at hs
    obtain ⟨h', hst, rfl⟩ := via_eq hs
    exact sim_skip (t := t) rfl rfl (by rw [hp]; rfl) (fun hc => hc.elim)
  | dX1 =>
    simp only [hp] at hs
    obtain ⟨h', hst, rfl⟩ := via_eq hs
    exact sim_skip (t := t) rfl rfl (by rw [hp]; rfl) (fun hc => hc.elim)
  | dFwd hh y =>
    simp only [hp] at hs
    split at hs <;> (cases hs; exact sim_skip (t := t) rfl rfl (by rw [hp]; rfl) (fun hc => hc.elim))
  | dCas hh y =>
    simp only [hp] at hs hl
    split at hs
    · next he =>
      obtain ⟨h', hst, rfl⟩ := via_eq hs
      subst he
      obtain ⟨q, hq⟩ := hdeq y hl.2.2.2.1
      refine .act t .deq (.val (some (s.val y, s.head))) (by simp only [hp]; rfl) ?_
        (view_upd (s := s) (t := t) (pc := .dVal s.head y (s.val y)) rfl) (fun u r hu hr => .inl (seen_other rfl hu hr))
      exact ⟨y, q, hq, rfl, by simp only [absX, hq, List.tail_cons]⟩
    · cases hs; exact sim_skip (t := t) rfl rfl (by rw [hp]; rfl) (fun hc => hc.elim)
  | dVal hh y v =>
    simp only [hp] at hs hl
    cases hs
    exact sim_skip (t := t) rfl rfl (by rw [hp, hl.2]; rfl) (fun hc => hc.elim)
  | qH => simp only [hp] at hs; cases hs; exact sim_skip (t := t) rfl rfl (by rw [hp]; rfl) (fun hc => hc.elim)
  | qT hh => simp only [hp] at hs; cases hs; exact sim_skip (t := t) rfl rfl (by rw [hp]; rfl) (fun hc => hc.elim)
  | qS hh tp =>
    simp only [hp] at hs
    obtain ⟨h', hst, rfl⟩ := via_eq hs
    exact sim_skip (t := t) rfl rfl (by rw [hp]; rfl) (fun hc => hc.elim)
  | qC hh tp =>
    simp only [hp] at hs
    split at hs
    · obtain ⟨h', hst, rfl⟩ := via_eq hs
      exact sim_skip (t := t) rfl rfl (by rw [hp]; rfl) (fun hc => hc.elim)
    · cases hs; exact sim_lin (t := t) (o := .tryDeq) (by rw [hp]; rfl) rfl rfl rfl
  | qN hh tp => simp only [hp] at hs; cases hs; exact sim_skip (t := t) rfl rfl (by rw [hp]; rfl) (fun hc => hc.elim)
  | q1 hh tp np =>
    simp only [hp] at hs
    obtain ⟨h', hst, rfl⟩ := via_eq hs
    exact sim_skip (t := t) rfl rfl (by rw [hp]; rfl) (fun hc => hc.elim)
  | qK hh tp np =>
    simp only [hp] at hs hl
    split at hs
    · split at hs
      · cases hs
        rw [if_pos (hl.2.2.2.1 rfl)]
        exact sim_lin (t := t) (o := .tryDeq) (by rw [hp]; rfl) rfl rfl rfl
      · obtain ⟨h', hst, rfl⟩ := via_eq hs
        split
        · exact sim_skip (t := t) rfl rfl (by rw [hp]; rfl) (fun hc => hc.elim)
        · exact sim_skip (t := t) rfl rfl (by rw [hp]; rfl) (fun hc => hc.elim)
    · cases hs; exact sim_lin (t := t) (o := .tryDeq) (by rw [hp]; rfl) rfl rfl rfl
  | qFwd tp y =>
    simp only [hp] at hs
    split at hs <;> (cases hs; exact sim_lin (t := t) (o := .tryDeq) (by rw [hp]; rfl) rfl rfl rfl)
  | qCas hh np =>
    simp only [hp] at hs hl
    obtain ⟨h1, h2, h3, y, rfl, h4, h5⟩ := hl
    split at hs
    · next he =>
      simp only at hs
      obtain ⟨h', hst, rfl⟩ := via_eq hs
      subst he
      obtain ⟨q, hq⟩ := hdeq y h4
      refine sim_lin (t := t) (o := .tryDeq) (r := .val (some (s.val y, s.head))) (by rw [hp]; rfl) rfl rfl ?_
      exact ⟨y, q, hq, rfl, by simp only [absX, hq, List.tail_cons]⟩
    · cases hs; exact sim_lin (t := t) (o := .tryDeq) (by rw [hp]; rfl) rfl rfl rfl

variable [Decidable tq] [Decidable strict]

/-- **C39.**  The hazard pointer FIFO is linearizable, entries being reused as soon as `ck_hp` has destroyed them,
if `trydequeue` is not used, or no entry is reused while a `trydequeue` that read its address has not yet published
it.  Missing for the full statement: the code does not ensure the latter (`trydequeue_null`). -/
theorem linearizable_partial (hm : tq → strict) (stub : N) :
    Linearizable (sys tq strict D C thr stub) (obs (N := N) (V := V) (n := n)) (fifo { dummy := stub, q := [] }) := by
  refine linearizable_of_hindsight (val := isEmpty) ?_ absX (fun s t => view (s.th t)) seen ?_ ?_
  · rintro x o r ⟨rfl, rfl, h3⟩
    exact ⟨h3, rfl⟩
  · intro s h0
    refine ⟨?_, fun t => by rw [Start.idle h0 t]; rfl⟩
    show absX s = _
    simp only [absX, Start.head h0, Start.q h0]
  · intro s a s' hr hs
    have h := Inv.reach hm hr
    change HpFifo.step tq strict D C thr s a = some s' at hs
    cases a with
    | run t => exact sim_run h hs
    | ret t =>
      simp only [HpFifo.step] at hs
      split at hs
      · next x hx =>
        cases hs
        simp only [obs, hx]
        refine .move t _ .idle (fun o ho => ?_) (fun o ho => ?_)
          (view_upd (s := s) (s' := { s with th := upd s.th t .idle }) (t := t) (pc := .idle) rfl) ?_ (fun ⟨o, ho⟩ => ?_) ?_
        · simp only [hx] at ho; cases ho
        · cases ho
        · intro th _ hth
          simp only [hx] at hth
          exact .ret' (t := t) (r := x) hth rfl
        · simp only [hx] at ho; cases ho
        · intro u r hr
          by_cases hu : u = t
          · subst hu
            have h3 := hr.2
            change sawEmpty (upd s.th u .idle u) at h3
            rw [upd_same] at h3
            exact h3.elim
          · exact .inl (seen_other rfl hu hr)
      · cases hs
    | hp a =>
      simp only [HpFifo.step] at hs
      split at hs
      · next ha =>
        obtain ⟨h', hst, rfl⟩ := via_eq hs
        -- any thread may serve as the one that does nothing
        by_cases hn : Nonempty (Fin n)
        · obtain ⟨t⟩ := hn
          exact sim_skip (t := t) (pc := s.th t) rfl (upd_eq_self _ _).symm rfl .inl
        · exfalso
          cases a with
          | register r => exact hn ⟨r⟩
          | recycle r => exact hn ⟨r⟩
          | unregister r => exact hn ⟨r⟩
          | set r i p => exact hn ⟨r⟩
          | validate r i => exact hn ⟨r⟩
          | copy r i j => exact hn ⟨r⟩
          | link p => exact ha.elim
          | unlink p => exact ha.elim
          | retire r p => exact hn ⟨r⟩
          | free r p => exact hn ⟨r⟩
          | reclaim r => exact hn ⟨r⟩
          | purge r => exact hn ⟨r⟩
          | tick r => exact hn ⟨r⟩
      · cases hs
    | call t o =>
      simp only [HpFifo.step] at hs
      split at hs
      · next hi =>
        split at hs
        · have key : ∀ pc, view pc = .pend o → Sim { dummy := stub, q := [] } s { s with th := upd s.th t pc }
              (some (.call t o)) := by
            intro pc hpc
            refine .move t _ (.pend o) (fun o' ho => ?_) (fun o' ho => ?_) (by rw [view_upd (pc := pc) rfl, hpc]) ?_
              (fun ⟨o', ho⟩ => ?_) ?_
            · simp only [hi] at ho; cases ho
            · cases ho
            · intro th _ hth
              simp only [hi] at hth
              exact .call' (t := t) (o := o) hth rfl
            · simp only [hi] at ho; cases ho
            · intro u r hr
              by_cases hu : u = t
              · subst hu
                have h3 := hr.2
                change sawEmpty (upd s.th u pc u) at h3
                rw [upd_same] at h3
                cases pc with
                | d1 => cases hpc
                | dK => cases hpc
                | _ => exact h3.elim
              · exact .inl (seen_other rfl hu hr)
          cases o with
          | enq x v => simp only at hs; split at hs <;> cases hs; exact key _ rfl
          | tryEnq x v => simp only at hs; split at hs <;> cases hs; exact key _ rfl
          | tryDeq => simp only at hs; split at hs <;> cases hs; exact key _ rfl
          | deq =>
            simp only at hs; cases hs
            show Sim { dummy := stub, q := [] } s { s with th := upd s.th t .dH } (some (.call t .deq))
            have h4 : (fun u => view (s.th u)) t = HS.idle := by simp only [hi]; rfl
            refine HStep.call t _ h4 (view_upd (s := s) (t := t) (pc := .dH) rfl) rfl
              (fun u r hu hr => seen_other (s := s) (t := t) (pc := .dH) rfl hu hr) (fun r hr => ?_)
            have h3 := hr.2
            change sawEmpty (upd s.th t .dH t) at h3
            rw [upd_same] at h3
            exact h3.elim
        · cases hs
      · cases hs

/-! ## Memory safety and progress -/

/-- The entries whose fields the thread's next step reads or changes, its own entry aside. -/
def derefs : PC N V → List N
  | .eN _ _ _ tp | .eCas _ _ _ tp => [tp]
  | .dN h _ | .qN h _ => [h]
  | .dVal _ y _ => [y]
  | _ => []

/-- **C39.**  Only entries that are in the queue, or dequeued and not yet handed to the destructor, are
dereferenced. -/
theorem derefs_live_partial (hm : tq → strict) {stub : N} {s : St N V n} (h : (sys tq strict D C thr stub).Reach s)
    {r : Fin n} {e : N} (hd : e ∈ derefs (s.th r)) : s.h.life e ≠ .fresh := by
  have hI := Inv.reach hm h
  have hl := hI.loc r
  have key : ∀ {i y}, Hp.Named s.h r i y → e = y → s.h.life e ≠ .fresh := by
    rintro i y hN rfl; exact Hp.protected_live hI.hpr hN.1 hN.2
  cases hp : s.th r <;> rw [hp] at hd hl <;> simp only [derefs, List.mem_singleton, List.not_mem_nil] at hd
  · exact key hl.2 hd
  · exact key hl.2 hd
  · exact key hl.1 hd
  · exact key hl.1 hd
  · exact key hl.1 hd

/-- **C39.**  `head` leads through the queue to `NULL`, `tail` points into it, all its entries are live and hold the
values enqueued; no thread stores `NULL` in `head`. -/
theorem linked_partial (hm : tq → strict) {stub : N} {s : St N V n} (h : (sys tq strict D C thr stub).Reach s) :
    (∃ l, Seg s.next (some s.head) (s.head :: l) none ∧ s.tail ∈ s.head :: l ∧ l.map (fun x => (x, s.val x)) = s.q ∧
      ∀ x, x ∈ s.head :: l ↔ s.h.life x = .linked) ∧ ∀ u, s.th u ≠ .null := by
  have hI := Inv.reach hm h
  refine ⟨⟨s.q.map Prod.fst, hI.seg, hI.tail, ?_, fun x => (hI.linked x).symm⟩, fun u hu => ?_⟩
  · rw [List.map_map]
    conv => rhs; rw [← List.map_id s.q]
    refine List.map_congr_left fun p hp => ?_
    show (p.1, s.val p.1) = p
    rw [hI.vals p hp]
  · have := hI.loc u
    rw [hu] at this
    exact this

/-- **C39.**  No step of an operation ever waits: the hazard pointer calls made by the queue are always possible. -/
theorem never_stuck_partial (hm : tq → strict) {stub : N} {s : St N V n} (h : (sys tq strict D C thr stub).Reach s)
    {r : Fin n} (h1 : s.th r ≠ .idle) (h2 : ∀ x, s.th r ≠ .ret x) :
    ((sys tq strict D C thr stub).step s (.run r)).isSome := by
  have hI := Inv.reach hm h
  have hl := hI.loc r
  have hhp := Hp.Inv.reach hI.hpr
  have hnd := hI.need r
  have hset : ∀ i x f, needs (s.th r) → i < 2 → (via D C thr s (.set r i x) f).isSome := by
    intro i x f hn hi
    unfold via
    rw [Hp.step_set x (hnd hn).1 (by have := (hnd hn).2; omega)]; rfl
  have hval : ∀ i x f, needs (s.th r) → i < 2 → s.h.pts r i = some x → x ∈ s.chain →
      (via D C thr s (.validate r i) f).isSome := by
    intro i x f hn hi hpt hx
    unfold via
    rw [Hp.step_validate hhp (hnd hn).1 (by have := (hnd hn).2; omega) hpt ((hI.linked x).2 hx)]; rfl
  have hlink : ∀ x f, preparing (s.th r) x → (via D C thr s (.link x) f).isSome := by
    intro x f hx
    unfold via
    simp only [Hp.step, hI.prep r x hx, if_true, Option.map_some, Option.isSome_some]
  have hunl : ∀ f, (via D C thr s (.unlink s.head) f).isSome := by
    intro f
    unfold via
    simp only [Hp.step, head_linked hI, if_true, Option.map_some, Option.isSome_some]
  have hneed : (∀ x, s.th r ≠ .ret x) → s.th r ≠ .null → needs (s.th r) := by
    intro h3 h4
    cases hp : s.th r with
    | idle => exact absurd hp h1
    | ret x => exact absurd hp (h3 x)
    | null => exact absurd hp h4
    | _ => trivial
  have hnn : s.th r ≠ .null := (linked_partial hm h).2 r
  have hne := hneed h2 hnn
  change (HpFifo.run D C thr s r).isSome
  unfold HpFifo.run
  cases hp : s.th r with
  | idle => exact absurd hp h1
  | ret x => exact absurd hp (h2 x)
  | null => exact absurd hp hnn
  | eS tr x v tp => exact hset _ _ _ hne (by omega)
  | eC tr x v tp =>
    rw [hp] at hl
    simp only
    split
    · next he => exact hval _ _ _ hne (by omega) hl.2 (he ▸ hI.tail)
    · rfl
  | eN tr x v tp =>
    simp only
    split
    · split <;> rfl
    · rfl
  | eK x v tp np =>
    simp only
    split
    · split <;> rfl
    · rfl
  | eFwd tr x v tp y => simp only; split <;> rfl
  | eCas tr x v tp =>
    simp only
    split
    · exact hlink x _ (by rw [hp]; rfl)
    · rfl
  | eSw tr x tp => simp only; split <;> rfl
  | dS hh => exact hset _ _ _ hne (by omega)
  | dC hh =>
    rw [hp] at hl
    simp only
    split
    · next he => exact hval _ _ _ hne (by omega) hl (he ▸ head_chain s)
    · rfl
  | d1 hh tp np => exact hset _ _ _ hne (by omega)
  | dK hh tp np =>
    rw [hp] at hl
    simp only
    split
    · next he =>
      split
      · rfl
      · next y =>
        exact hval _ _ _ hne (by omega) hl.2.2.2.2
          (hI.next_mem (head_chain s) (by rw [he]; exact hl.2.2.2.1 y rfl)).1
    · rfl
  | dX0 => exact hset _ _ _ hne (by omega)
  | dX1 => exact hset _ _ _ hne (by omega)
  | dFwd hh y => simp only; split <;> rfl
  | dCas hh y =>
    simp only
    split
    · next he => subst he; exact hunl _
    · rfl
  | qS hh tp => exact hset _ _ _ hne (by omega)
  | qC hh tp =>
    rw [hp] at hl
    simp only
    split
    · next he => exact hval _ _ _ hne (by omega) hl.2.2 (he ▸ head_chain s)
    · rfl
  | q1 hh tp np => exact hset _ _ _ hne (by omega)
  | qK hh tp np =>
    rw [hp] at hl
    simp only
    split
    · next he =>
      split
      · rfl
      · next y =>
        exact hval _ _ _ hne (by omega) hl.2.2.2.2.2
          (hI.next_mem (head_chain s) (by rw [he]; exact hl.2.2.2.2.1 y rfl)).1
    · rfl
  | qFwd tp y => simp only; split <;> rfl
  | qCas hh np =>
    simp only
    split
    · next he =>
      subst he
      split <;> exact hunl _
    · rfl
  | _ => rfl

end Verif.HpFifo
