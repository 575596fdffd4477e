import Verif.Spin.Ticket
import Mathlib.Tactic.Ring

/-! # Ticket spinlock: invariant and refinement of the packed word -/

namespace Verif.Spin.Ticket

/-- holds or waits -/
def PC.active {w : Nat} {σ : Type} : PC w σ → Bool
  | .wait _ => true
  | .inside => true
  | .unlocking _ => true
  | _ => false

def PC.held {w : Nat} {σ : Type} : PC w σ → Bool
  | .inside => true
  | .unlocking _ => true
  | _ => false

structure Inv {w n : Nat} (s : St w n) : Prop where
  next_eq : s.next = BitVec.ofNat w s.arrivals.length
  pos_eq : s.position = BitVec.ofNat w s.released
  len : s.arrivals.length = s.released + cnt PC.active s.pc
  slen : s.served.length = s.released + cnt PC.held s.pc
  pre : s.served <+: s.arrivals
  act : ∀ t, (s.pc t).active = true →
    s.released ≤ s.ticket t ∧ s.arrivals[s.ticket t]? = some t
  wait : ∀ t r, s.pc t = .wait r → r = BitVec.ofNat w (s.ticket t)
  held : ∀ t, (s.pc t).held = true → s.ticket t = s.released
  cas : ∀ t a b, s.pc t = .tryCas (a, b) → a = b
  unl : ∀ t u, s.pc t = .unlocking u → u = s.position
  cov : ∀ i t, s.released ≤ i → s.arrivals[i]? = some t →
    (s.pc t).active = true ∧ s.ticket t = i

theorem ofNat_inj_of_window {w a b n : Nat} (hab : a ≤ b) (hb : b < a + n) (hn : n ≤ 2 ^ w)
    (h : BitVec.ofNat w a = BitVec.ofNat w b) : a = b := by
  have h1 := congrArg BitVec.toNat h
  simp only [BitVec.toNat_ofNat] at h1
  have h2 : (b - a) % 2 ^ w = 0 := Nat.sub_mod_eq_zero_of_mod_eq h1.symm
  rw [Nat.mod_eq_of_lt (by omega)] at h2
  omega

theorem getElem?_lt {α : Type _} {l : List α} {i : Nat} {a : α} (h : l[i]? = some a) :
    i < l.length := by
  by_contra hc
  rw [List.getElem?_eq_none (by omega)] at h
  cases h

theorem getElem?_append_some {α : Type _} {l : List α} {i : Nat} {a : α} (b : List α)
    (h : l[i]? = some a) : (l ++ b)[i]? = some a := by
  have := getElem?_lt h
  rw [List.getElem?_append_left this]; exact h

theorem prefix_snoc {α : Type _} {l m : List α} {a : α} (h : l <+: m)
    (hi : m[l.length]? = some a) : l ++ [a] <+: m := by
  obtain ⟨r, rfl⟩ := h
  cases r with
  | nil => simp at hi
  | cons b r =>
    simp at hi
    subst hi
    exact ⟨r, by simp⟩

theorem inv_init (w n : Nat) : Inv (initSt w n) := by
  constructor <;> simp [initSt, cnt, PC.active, PC.held]

theorem held_unique {w n : Nat} {s : St w n} (hi : Inv s) {t u : Fin n}
    (ht : (s.pc t).held = true) (hu : (s.pc u).held = true) : t = u := by
  have a := hi.held t ht
  have b := hi.held u hu
  have ha : (s.pc t).active = true := by cases h : s.pc t <;> simp_all [PC.held, PC.active]
  have hb : (s.pc u).active = true := by cases h : s.pc u <;> simp_all [PC.held, PC.active]
  have h1 := (hi.act t ha).2
  have h2 := (hi.act u hb).2
  rw [a] at h1
  rw [b, h1] at h2
  simpa using h2

set_option maxHeartbeats 1000000 in
theorem inv_step {w n : Nat} (hn : n ≤ 2 ^ w) {s s' : St w n} {a : Act n}
    (hi : Inv s) (hs : step s a = some s') : Inv s' := by
  have hca := fun t v => cnt_update PC.active s.pc t v
  have hch := fun t v => cnt_update PC.held s.pc t v
  have huniq := fun t u => held_unique hi (t := t) (u := u)
  have hha : ∀ t, (s.pc t).held = true → (s.pc t).active = true := by
    intro t; cases s.pc t <;> simp [PC.held, PC.active]
  have hlt : ∀ t, (s.pc t).active = true → s.ticket t < s.arrivals.length :=
    fun t h => getElem?_lt (hi.act t h).2
  have hfree : ∀ t, (s.pc t).active = true → s.ticket t = s.released →
      (s.pc t).held = false → ∀ u, (s.pc u).held = false := by
    intro t ht htk hth u
    by_contra hc
    simp only [Bool.not_eq_false] at hc
    have e1 := (hi.act u (hha u hc)).2
    have e2 := (hi.act t ht).2
    rw [hi.held u hc] at e1
    rw [htk, e1] at e2
    simp only [Option.some.injEq] at e2
    subst e2
    simp [hth] at hc
  have hcle := cnt_le PC.active s.pc
  have happ := fun b i (a : Fin n) => getElem?_append_some (l := s.arrivals) (i := i) (a := a) b
  have hlast := fun (t : Fin n) =>
    (by simp : (s.arrivals ++ [t])[s.arrivals.length]? = some t)
  obtain ⟨h1, h2, h3, h4, h5, h6, h7, h8, hc9, h9, h10⟩ := hi
  have hi : Inv s := ⟨h1, h2, h3, h4, h5, h6, h7, h8, hc9, h9, h10⟩
  rcases a with t | t | t | t | t
  · -- lock
    simp only [step] at hs
    step_split hs
    next hp =>
    have ca := hca t (.wait s.next)
    have ch := hch t (.wait s.next)
    simp [hp, PC.active, PC.held] at ca ch
    refine ⟨by simp [h1, BitVec.ofNat_add], h2, ?_, ?_, ?_, ?_, ?_, ?_, ?_, ?_, ?_⟩
    · simp only [List.length_append, List.length_singleton]; omega
    · simp only; omega
    · exact h5.trans (List.prefix_append _ _)
    all_goals clear hca hch hfree hcle; grind [PC.active, PC.held]
  · -- run
    simp only [step] at hs
    split at hs
    · next r hp =>
      split at hs
      · next hpos =>
        simp only [Option.some.injEq] at hs; subst hs
        have hpa : (s.pc t).active = true := by simp [hp, PC.active]
        have htk : s.ticket t = s.released := by
          have e := h7 t r hp
          rw [e, h2] at hpos
          have := hlt t hpa
          exact (ofNat_inj_of_window (n := n) (h6 t hpa).1 (by omega) hn hpos).symm
        have h0 := cnt_zero_of (hfree t hpa htk (by simp [hp, PC.held]))
        have ca := hca t .inside
        have ch := hch t .inside
        simp [hp, PC.active, PC.held] at ca ch
        have hsl : s.served.length = s.ticket t := by omega
        refine ⟨h1, h2, ?_, ?_, ?_, ?_, ?_, ?_, ?_, ?_, ?_⟩
        · simp only; omega
        · simp only [List.length_append, List.length_singleton]; omega
        · exact prefix_snoc h5 (by rw [hsl]; exact (h6 t hpa).2)
        all_goals clear hca hch hfree happ hlast hcle h1 h2; grind [PC.active, PC.held]
      · simp only [Option.some.injEq] at hs; subst hs; exact hi
    · next sn sp hp =>
      split at hs
      · next hcas =>
        simp only [Option.some.injEq] at hs; subst hs
        have ca := hca t .inside
        have ch := hch t .inside
        simp [hp, PC.active, PC.held] at ca ch
        have hclt : cnt PC.active s.pc < n := cnt_lt_of (t := t) (by simp [hp, PC.active])
        have heq : s.released = s.arrivals.length := by
          have e := hc9 t sn sp hp
          apply ofNat_inj_of_window (n := n) (w := w) (by omega) (by omega) hn
          rw [← h1, ← h2]; grind
        have hsl : s.served.length = s.arrivals.length := by
          have := h5.length_le
          omega
        have hse : s.served = s.arrivals := h5.eq_of_length hsl
        refine ⟨by simp [h1, BitVec.ofNat_add], h2, ?_, ?_, ?_, ?_, ?_, ?_, ?_, ?_, ?_⟩
        · simp only [List.length_append, List.length_singleton]; omega
        · simp only [List.length_append, List.length_singleton]; omega
        · rw [hse]
        all_goals clear hca hch hfree hcle; grind [PC.active, PC.held]
      · simp only [Option.some.injEq] at hs; subst hs
        have ca := hca t .idle
        have ch := hch t .idle
        simp [hp, PC.active, PC.held] at ca ch
        refine ⟨h1, h2, ?_, ?_, h5, ?_, ?_, ?_, ?_, ?_, ?_⟩
        all_goals clear hca hch hfree happ hlast hcle h1 h2; grind [PC.active, PC.held]
    · next u hp =>
      simp only [Option.some.injEq] at hs; subst hs
      have ca := hca t .idle
      have ch := hch t .idle
      simp [hp, PC.active, PC.held] at ca ch
      have hu := h9 t u hp
      have hht : (s.pc t).held = true := by simp [hp, PC.held]
      refine ⟨h1, by simp [hu, h2, BitVec.ofNat_add], ?_, ?_, h5, ?_, ?_, ?_, ?_, ?_, ?_⟩
      · simp only; omega
      · simp only; omega
      · intro v hv
        have hne : v ≠ t := by rintro rfl; simp [PC.active] at hv
        simp only [upd_ne _ _ hne] at hv ⊢
        refine ⟨?_, (h6 v hv).2⟩
        have := (h6 v hv).1
        have := (h6 t (hha t hht)).2
        have := (h6 v hv).2
        grind
      all_goals clear hca hch hfree happ hlast hcle h1 h2; grind [PC.active, PC.held]
    · cases hs
  · -- trylock
    simp only [step] at hs
    step_split hs
    · exact hi
    · next hp _ =>
      have ca := hca t (.tryCas (s.next, s.position))
      have ch := hch t (.tryCas (s.next, s.position))
      simp [hp, PC.active, PC.held] at ca ch
      refine ⟨h1, h2, ?_, ?_, h5, ?_, ?_, ?_, ?_, ?_, ?_⟩
      all_goals clear hca hch hfree happ hlast hcle h1 h2; grind [PC.active, PC.held]
  · -- unlock
    simp only [step] at hs
    step_split hs
    next hp =>
    have ca := hca t (.unlocking s.position)
    have ch := hch t (.unlocking s.position)
    simp [hp, PC.active, PC.held] at ca ch
    refine ⟨h1, h2, ?_, ?_, h5, ?_, ?_, ?_, ?_, ?_, ?_⟩
    all_goals clear hca hch hfree happ hlast hcle h1 h2; grind [PC.active, PC.held]
  · -- unlockInc
    simp only [step] at hs
    step_split hs
    next hp =>
    have ca := hca t .idle
    have ch := hch t .idle
    simp [hp, PC.active, PC.held] at ca ch
    have hht : (s.pc t).held = true := by simp [hp, PC.held]
    refine ⟨h1, by simp [h2, BitVec.ofNat_add], ?_, ?_, h5, ?_, ?_, ?_, ?_, ?_, ?_⟩
    · simp only; omega
    · simp only; omega
    · intro v hv
      have hne : v ≠ t := by rintro rfl; simp [PC.active] at hv
      simp only [upd_ne _ _ hne] at hv ⊢
      refine ⟨?_, (h6 v hv).2⟩
      have := (h6 v hv).1
      have := (h6 t (hha t hht)).2
      have := (h6 v hv).2
      grind
    all_goals clear hca hch hfree happ hlast hcle h1 h2; grind [PC.active, PC.held]

theorem inv_of_reach {w n : Nat} (hn : n ≤ 2 ^ w) {s : St w n} (h : (sys w n).Reach s) : Inv s :=
  h.invariant (I := Inv) (by rintro s rfl; exact inv_init w n) (fun _ _ _ hi hs => inv_step hn hi hs)

/-! ## The packed word -/

namespace Packed

theorem hi_toNat {w : Nat} (v : BitVec (w + w)) : (hi v).toNat = v.toNat / 2 ^ w := by
  have h := v.isLt
  have hp : 0 < 2 ^ w := Nat.two_pow_pos w
  simp only [hi, BitVec.toNat_ofNat]
  apply Nat.mod_eq_of_lt
  rw [Nat.div_lt_iff_lt_mul hp, ← Nat.pow_add]
  exact h

theorem lo_toNat {w : Nat} (v : BitVec (w + w)) : (lo v).toNat = v.toNat % 2 ^ w := by
  simp [lo]

theorem ext_halves {w : Nat} {v u : BitVec (w + w)} (h1 : hi v = hi u) (h2 : lo v = lo u) :
    v = u := by
  apply BitVec.eq_of_toNat_eq
  have a := congrArg BitVec.toNat h1
  have b := congrArg BitVec.toNat h2
  rw [hi_toNat, hi_toNat] at a
  rw [lo_toNat, lo_toNat] at b
  rw [← Nat.div_add_mod v.toNat (2 ^ w), ← Nat.div_add_mod u.toNat (2 ^ w), a, b]

theorem hi_faa {w : Nat} (v : BitVec (w + w)) :
    hi (v + BitVec.ofNat (w + w) (2 ^ w)) = hi v + 1 := by
  apply BitVec.eq_of_toNat_eq
  have hp : 0 < 2 ^ w := Nat.two_pow_pos w
  rw [hi_toNat, BitVec.toNat_add, BitVec.toNat_add, hi_toNat, BitVec.toNat_ofNat,
    Nat.add_mod_mod, Nat.pow_add, Nat.mod_mul_left_div_self]
  rw [Nat.add_div_right _ hp]
  simp

theorem lo_faa {w : Nat} (v : BitVec (w + w)) :
    lo (v + BitVec.ofNat (w + w) (2 ^ w)) = lo v := by
  apply BitVec.eq_of_toNat_eq
  rw [lo_toNat, BitVec.toNat_add, lo_toNat, BitVec.toNat_ofNat,
    Nat.add_mod_mod, Nat.pow_add, Nat.mod_mul_left_mod]
  simp

theorem incLo_toNat {w : Nat} (v : BitVec (w + w)) :
    (incLo v).toNat = v.toNat / 2 ^ w * 2 ^ w + (v.toNat % 2 ^ w + 1) % 2 ^ w := by
  have hp : 0 < 2 ^ w := Nat.two_pow_pos w
  simp only [incLo, BitVec.toNat_ofNat]
  apply Nat.mod_eq_of_lt
  have h1 : v.toNat / 2 ^ w < 2 ^ w := by rw [← hi_toNat]; exact (hi v).isLt
  have h2 := Nat.mod_lt (v.toNat % 2 ^ w + 1) hp
  calc _ < v.toNat / 2 ^ w * 2 ^ w + 2 ^ w := by omega
    _ = (v.toNat / 2 ^ w + 1) * 2 ^ w := by ring
    _ ≤ 2 ^ w * 2 ^ w := Nat.mul_le_mul_right _ h1
    _ = 2 ^ (w + w) := by rw [Nat.pow_add]

theorem hi_incLo {w : Nat} (v : BitVec (w + w)) : hi (incLo v) = hi v := by
  have hp : 0 < 2 ^ w := Nat.two_pow_pos w
  apply BitVec.eq_of_toNat_eq
  rw [hi_toNat, incLo_toNat, hi_toNat, Nat.mul_comm, Nat.mul_add_div hp,
    Nat.div_eq_of_lt (Nat.mod_lt _ hp), Nat.add_zero]

theorem lo_incLo {w : Nat} (v : BitVec (w + w)) : lo (incLo v) = lo v + 1 := by
  apply BitVec.eq_of_toNat_eq
  rw [lo_toNat, incLo_toNat, BitVec.toNat_add, lo_toNat, Nat.mul_comm, Nat.mul_add_mod]
  simp

/-- The field-level view of a thread's position. -/
def absPc {w : Nat} : PC w (BitVec (w + w)) → PC w (BitVec w × BitVec w)
  | .idle => .idle
  | .wait r => .wait r
  | .tryCas v => .tryCas (hi v, lo v)
  | .inside => .inside
  | .unlocking u => .unlocking u

/-- The field-level view of a packed state. -/
def abs {w n : Nat} (s : St w n) : Ticket.St w n :=
  { next := hi s.value, position := lo s.value, pc := fun t => absPc (s.pc t),
    arrivals := s.arrivals, served := s.served, released := s.released, ticket := s.ticket }

@[simp] theorem absPc_idle {w : Nat} : absPc (w := w) .idle = .idle := rfl
@[simp] theorem absPc_wait {w : Nat} (r : BitVec w) : absPc (.wait r) = .wait r := rfl
@[simp] theorem absPc_tryCas {w : Nat} (v : BitVec (w + w)) :
    absPc (.tryCas v) = .tryCas (hi v, lo v) := rfl
@[simp] theorem absPc_inside {w : Nat} : absPc (w := w) .inside = .inside := rfl

theorem absPc_upd {w n : Nat} (f : Fin n → PC w (BitVec (w + w))) (t : Fin n)
    (p : PC w (BitVec (w + w))) :
    (fun u => absPc (upd f t p u)) = upd (fun u => absPc (f u)) t (absPc p) := by
  funext u; simp only [upd]; split <;> rfl

/-- Every step on the packed word is the field-level step. -/
theorem step_sim {w n : Nat} {s s' : St w n} {a : Act n} (hs : step s a = some s') :
    Ticket.step (abs s) a = some (abs s') := by
  rcases a with t | t | t | t | t
  · simp only [step] at hs
    step_split hs
    next hp => simp [Ticket.step, abs, hp, absPc_upd, hi_faa, lo_faa]
  · simp only [step] at hs
    split at hs
    · next r hp =>
      split at hs <;> cases hs
      · next h => simp [Ticket.step, abs, hp, absPc_upd, h]
      · next h => simp [Ticket.step, abs, hp, h]
    · next v hp =>
      split at hs <;> cases hs
      · next h => simp [Ticket.step, abs, hp, absPc_upd, h, hi_faa, lo_faa]
      · next h =>
        have : ¬ (hi s.value = hi v ∧ lo s.value = lo v) := fun ⟨a, b⟩ => h (ext_halves a b)
        simp [Ticket.step, abs, hp, absPc_upd, this]
    · cases hs
  · simp only [step] at hs
    step_split hs
    · next hp h => simp [Ticket.step, abs, hp, h]
    · next hp h => 
      simp only [ne_eq, Decidable.not_not] at h
      simp [Ticket.step, abs, hp, h, absPc_upd]
  · cases hs
  · simp only [step] at hs
    step_split hs
    next hp => simp [Ticket.step, abs, hp, absPc_upd, hi_incLo, lo_incLo]

theorem reach_abs {w n : Nat} {s : St w n} (h : (sys w n).Reach s) :
    (Ticket.sys w n).Reach (abs s) := by
  induction h with
  | init h =>
    cases h
    refine .init ?_
    simp [Ticket.sys, abs, initSt, Ticket.initSt, hi, lo, absPc]
  | step _ hs ih => exact .step ih (step_sim hs)

end Packed

end Verif.Spin.Ticket
