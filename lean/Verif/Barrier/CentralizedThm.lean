import Verif.Barrier.Centralized

/-!
# `ck_barrier_centralized`: phase separation, no lost wake-up (C23)
-/

set_option linter.unusedVariables false

namespace Verif.Barrier.Centralized

open Verif Verif.Spec

variable {n : Nat}

/-- Parity of a call count. -/
@[grind] def par (k : Nat) : Bool := k % 2 = 1

/-- Arrived in phase `g` and counted in `value`. -/
@[grind] def arr (g : Nat) (x : Th) : Bool :=
  match x.pc with
  | .wait => decide (x.e = g + 1)
  | .sto0 => true
  | _ => false

@[grind] def last (x : Th) : Bool := match x.pc with | .sto0 | .stoS => true | _ => false

/-- `g` is the number of completed phases. -/
structure Inv (s : St n) (g : Nat) : Prop where
  idl : ∀ t, (s.th t).pc = .idle → (s.th t).e = g ∧ (s.th t).r = g
  faa : ∀ t, (s.th t).pc = .faa → (s.th t).e = g + 1 ∧ (s.th t).r = g
  wt : ∀ t, (s.th t).pc = .wait → (s.th t).e = (s.th t).r + 1 ∧ ((s.th t).e = g + 1 ∨ (s.th t).e = g)
  la : ∀ t, last (s.th t) = true → (s.th t).e = g + 1 ∧ (s.th t).r = g ∧
    ∀ u, u ≠ t → (s.th u).pc = .wait ∧ (s.th u).e = g + 1
  sns : ∀ t, (s.th t).sense = par (s.th t).e
  gs : s.sense = par g
  val : (∀ t, (s.th t).pc ≠ .stoS) → s.value = BitVec.ofNat 32 (cnt (arr g) s.th)
  val0 : ∀ t, (s.th t).pc = .stoS → s.value = 0
  nf : (∀ t, last (s.th t) = false) → 0 < n → cnt (arr g) s.th < n

theorem par_ne {g : Nat} : par (g + 1) ≠ par g := by unfold par; grind

theorem inv_step (hn : n < 2 ^ 32) {s s' : St n} {a : Act n} {g : Nat} (hi : Inv s g)
    (hs : step s a = some s') : ∃ g', Inv s' g' := by
  have hc := fun t v => cnt_update (arr g) s.th t v
  have hpg := @par_ne g
  obtain ⟨h1, h2, h3, h4, h5, h6, h7, h8, h9⟩ := hi
  have hpar : ∀ k, par (k + 1) = !par k := by intro k; unfold par; grind
  cases a <;> simp only [step] at hs
  case call t =>
    step_split hs; next hp =>
    have ⟨e1, e2⟩ := h1 t hp
    have hl : ∀ u, last (s.th u) = false := by
      intro u; cases hu : last (s.th u)
      · rfl
      · have := (h4 u hu).2.2 t (by rintro rfl; simp [last, hp] at hu)
        rw [hp] at this; cases this.1
    refine ⟨g, ?_⟩
    constructor <;> simp only
    case idl => fin h1 hp
    case faa => fin h2 hp e1 e2
    case wt => fin h3 hp
    case la => fin hl hp
    case sns => fin h5 hpar
    case gs => exact h6
    case val =>
      intro _
      rw [h7 (fun u => by have := hl u; intro e; simp [last, e] at this)]
      have := hc t { s.th t with pc := .faa, sense := !(s.th t).sense, e := (s.th t).e + 1 }
      simp [arr, hp] at this
      rw [← this]
    case val0 => fin h8 hp
    case nf =>
      intro _ h0
      have := hc t { s.th t with pc := .faa, sense := !(s.th t).sense, e := (s.th t).e + 1 }
      simp [arr, hp] at this
      rw [this]; exact h9 hl h0
  case run t =>
    cases hp : (s.th t).pc <;> simp only [hp] at hs
    case faa =>
      have ⟨e1, e2⟩ := h2 t hp
      have hl : ∀ u, last (s.th u) = false := by
        intro u; cases hu : last (s.th u)
        · rfl
        · have := (h4 u hu).2.2 t (by rintro rfl; simp [last, hp] at hu)
          rw [hp] at this; cases this.1
      have hv := h7 (fun u => by have := hl u; intro e; simp [last, e] at this)
      have hlt : cnt (arr g) s.th < n := cnt_lt_of (t := t) (by simp [arr, hp])
      split at hs
      · next hlast =>
        cases hs
        -- everybody else has arrived
        have hall : cnt (arr g) s.th + 1 = n := by
          rw [hv] at hlast
          have hh := congrArg BitVec.toNat hlast
          simp [BitVec.toNat_sub] at hh
          omega
        have hoth : ∀ u, u ≠ t → arr g (s.th u) = true := by
          intro u hu
          by_contra hf
          have h0 := cnt_add_not (arr g) s.th
          have : 2 ≤ cnt (fun x => !arr g x) s.th :=
            cnt_two (t := t) (u := u) (Ne.symm hu) (by simp [arr, hp]) (by simpa using hf)
          omega
        have how : ∀ u, u ≠ t → (s.th u).pc = .wait ∧ (s.th u).e = g + 1 := by
          intro u hu
          have h0 := hoth u hu
          have hl' := hl u
          cases hpu : (s.th u).pc <;> simp [arr, last, hpu] at h0 hl' ⊢
          exact h0
        refine ⟨g, ?_⟩
        constructor <;> simp only
        case idl => fin h1 hp
        case faa => fin h2 hp
        case wt => fin h3 hp
        case la => fin hl hp e1 e2 how
        case sns => fin h5
        case gs => exact h6
        case val =>
          intro _
          have := hc t { s.th t with pc := .sto0 }
          simp [arr, hp] at this
          rw [this, hv, BitVec.ofNat_add]; rfl
        case val0 => fin hl hp
        case nf => intro h; have := h t; simp [last] at this
      · next hlast =>
        cases hs
        refine ⟨g, ?_⟩
        constructor <;> simp only
        case idl => fin h1 hp
        case faa => fin h2 hp
        case wt => fin h3 hp e1 e2
        case la => fin hl hp
        case sns => fin h5
        case gs => exact h6
        case val =>
          intro _
          have := hc t { s.th t with pc := .wait }
          rw [show arr g (s.th t) = false by simp [arr, hp], show arr g { s.th t with pc := .wait } = true by simp [arr, e1]] at this
          simp only [Bool.toNat_false, Bool.toNat_true, Nat.add_zero] at this
          rw [this, hv, BitVec.ofNat_add]; rfl
        case val0 => fin hl hp
        case nf =>
          intro _ h0
          have := hc t { s.th t with pc := .wait }
          rw [show arr g (s.th t) = false by simp [arr, hp], show arr g { s.th t with pc := .wait } = true by simp [arr, e1]] at this
          simp only [Bool.toNat_false, Bool.toNat_true, Nat.add_zero] at this
          rw [this]
          refine Nat.lt_of_le_of_ne hlt fun he => ?_
          rw [hv] at hlast
          apply hlast
          apply BitVec.eq_of_toNat_eq
          simp [BitVec.toNat_sub]; omega
    case sto0 =>
      have ⟨e1, e2, e3⟩ := h4 t (by simp [last, hp])
      cases hs
      refine ⟨g, ?_⟩
      constructor <;> simp only
      case idl => fin h1 hp
      case faa => fin h2 hp
      case wt => fin h3 hp
      case la => fin h4 hp e1 e2 e3
      case sns => fin h5
      case gs => exact h6
      case val => intro h; have := h t; simp at this
      case val0 => intros; trivial
      case nf => intro h; have := h t; simp [last] at this
    case stoS =>
      have ⟨e1, e2, e3⟩ := h4 t (by simp [last, hp])
      have hv0 := h8 t hp
      have hse := h5 t
      cases hs
      refine ⟨g + 1, ?_⟩
      constructor <;> simp only
      case idl => fin h1 hp e1 e2 e3
      case faa => fin hp e3
      case wt => fin h3 hp e3
      case la => fin hp e3
      case sns => fin h5
      case gs => rw [hse, e1]
      case val =>
        intro _
        rw [hv0, cnt_zero_of]; rfl
        intro u; simp only [upd_apply]; split
        · simp [arr]
        · next hu => simp [arr, e3 u hu]
      case val0 => fin hp e3
      case nf =>
        intro _ h0
        rw [cnt_zero_of]; exact h0
        intro u; simp only [upd_apply]; split
        · simp [arr]
        · next hu => simp [arr, e3 u hu]
    case wait =>
      split at hs
      · cases hs; exact ⟨g, h1, h2, h3, h4, h5, h6, h7, h8, h9⟩
      · next hse =>
        have ⟨e1, e2⟩ := h3 t hp
        have he : (s.th t).e = g := by
          rcases e2 with e | e
          · simp only [ne_eq, Decidable.not_not] at hse
            rw [h5 t, e, h6] at hse; exact absurd hse hpg
          · exact e
        have hl : ∀ u, last (s.th u) = false := by
          intro u; cases hu : last (s.th u)
          · rfl
          · have := (h4 u hu).2.2 t (by rintro rfl; simp [last, hp] at hu)
            omega
        cases hs
        refine ⟨g, ?_⟩
        constructor <;> simp only
        case idl => fin h1 hp e1 he
        case faa => fin h2 hp
        case wt => fin h3 hp
        case la => fin hl hp
        case sns => fin h5
        case gs => exact h6
        case val =>
          intro _
          rw [h7 (fun u => by have := hl u; intro e; simp [last, e] at this)]
          have := hc t { s.th t with pc := .idle, r := (s.th t).r + 1 }
          rw [show arr g (s.th t) = false by simp [arr, hp, he], show arr g { s.th t with pc := .idle, r := (s.th t).r + 1 } = false by simp [arr]] at this
          simp only [Bool.toNat_false, Nat.add_zero] at this
          rw [this]
        case val0 => fin hl hp
        case nf =>
          intro _ h0
          have := hc t { s.th t with pc := .idle, r := (s.th t).r + 1 }
          rw [show arr g (s.th t) = false by simp [arr, hp, he], show arr g { s.th t with pc := .idle, r := (s.th t).r + 1 } = false by simp [arr]] at this
          simp only [Bool.toNat_false, Nat.add_zero] at this
          rw [this]; exact h9 hl h0
    all_goals cases hs

theorem inv_of_reach (hn : n < 2 ^ 32) {s : St n} (h : (sys n).Reach s) : ∃ g, Inv s g := by
  refine h.invariant (I := fun s => ∃ g, Inv s g) ?_ (fun _ _ _ ⟨g, hi⟩ hs => inv_step hn hi hs)
  rintro s rfl
  refine ⟨0, ?_⟩
  constructor <;> simp [initSt, last, par]
  · rw [cnt_zero_of]; intro t; rfl
  · intro h0; rw [cnt_zero_of (fun t => rfl)]; exact h0

/-! ## Properties -/

/-- C23: nobody has returned from its k-th call before everybody has made theirs. -/
theorem phase_separation (hn : n < 2 ^ 32) {s : St n} (h : (sys n).Reach s) :
    PhaseSep (fun t => (s.th t).e) (fun t => (s.th t).r) := by
  obtain ⟨g, h1, h2, h3, h4, -⟩ := inv_of_reach hn h
  have hb : ∀ t, g ≤ (s.th t).e ∧ (s.th t).r ≤ g := by
    intro t
    cases hp : (s.th t).pc
    · have := h1 t hp; omega
    · have := h2 t hp; omega
    · have := h4 t (by simp [last, hp]); omega
    · have := h4 t (by simp [last, hp]); omega
    · have := h3 t hp; omega
  intro t u
  have := (hb t).2; have := (hb u).1; simp only; omega

/-- C23: nobody stays blocked.  If everybody is inside its k-th call, some thread can take a step
that is not a spin: it leaves its program counter. -/
theorem no_deadlock (hn : n < 2 ^ 32) (h0 : 0 < n) {s : St n} (h : (sys n).Reach s)
    (hq : ∀ t, (s.th t).pc ≠ .idle) :
    ∃ t s', (sys n).step s (.run t) = some s' ∧ (s'.th t).pc ≠ (s.th t).pc := by
  obtain ⟨g, h1, h2, h3, h4, h5, h6, h7, h8, h9⟩ := inv_of_reach hn h
  by_cases hw : ∃ t, (s.th t).pc ≠ .wait
  · obtain ⟨t, ht⟩ := hw
    refine ⟨t, ?_⟩
    simp only [sys, step]
    cases hp : (s.th t).pc
    · exact absurd hp (hq t)
    · simp only; split <;> exact ⟨_, rfl, by simp⟩
    · exact ⟨_, rfl, by simp⟩
    · exact ⟨_, rfl, by simp⟩
    · exact absurd hp ht
  · simp only [ne_eq, not_exists, Decidable.not_not] at hw
    -- not all can have arrived in the current phase
    have : ∃ t, (s.th t).e = g := by
      by_contra hne
      simp only [not_exists] at hne
      have hall : ∀ t, arr g (s.th t) = true := by
        intro t; have := (h3 t (hw t)).2; simp only [arr, hw t]; simpa using this.resolve_right (hne t)
      have := h9 (fun t => by simp [last, hw t]) h0
      have h10 := cnt_add_not (arr g) s.th
      rw [cnt_zero_of (P := fun x => !arr g x) (fun t => by simp [hall t])] at h10
      omega
    obtain ⟨t, ht⟩ := this
    refine ⟨t, { s with th := upd s.th t { s.th t with pc := .idle, r := (s.th t).r + 1 } }, ?_, ?_⟩
    · simp only [sys, step, hw t]
      rw [if_neg]
      rw [h5 t, ht, h6]; simp
    · simp [hw t]

/-- Two episodes of three threads: thread 0 runs ahead into its second call while thread 1 has not
yet left the first. -/
example : ((sys 3).run (initSt 3) [.call 0, .call 1, .call 2, .run 0, .run 1, .run 2, .run 2, .run 2,
    .run 0, .call 0, .run 0, .call 2, .run 2]).map
    (fun s => ((s.th 0).r, (s.th 0).e, (s.th 1).r, (s.th 1).pc, s.value)) =
    some (1, 2, 0, .wait, 2) := by decide

end Verif.Barrier.Centralized
