import Verif.Barrier.McsBarrier
import Mathlib.Data.Fintype.EquivFin
import Mathlib.Data.Fintype.Lattice

/-!
# `ck_barrier_mcs`: phase separation, no lost wake-up (C27)

Progress counters per thread; the words between a thread and its parents are functions of them.
-/

set_option linter.unusedVariables false

namespace Verif.Barrier.Mcs

open Verif Verif.Spec

variable {n : Nat}

/-- `i` is the `k`-th arrival child of `p`. -/
structure AE (n p i k : Nat) : Prop where
  k4 : k < 4
  i_n : i < n
  ie : i = 4 * p + k + 1

/-- `i` is the `b`-th wake-up child of `p`. -/
structure WE (n p i b : Nat) : Prop where
  b2 : b < 2
  i_n : i < n
  ie : i = 2 * p + b + 1

/-- Slots seen ready. -/
def C (x : Th) (k : Nat) : Nat := x.r + match x.pc with
  | .idle => 0 | .chk m => if k < m then 1 else 0 | _ => 1

/-- Slots reinitialized. -/
def Z (x : Th) (k : Nat) : Nat := x.r + match x.pc with
  | .idle => 0 | .chk _ => 0 | .rei m => if k < m then 1 else 0 | _ => 1

/-- Arrivals reported to the parent. -/
def A (x : Th) : Nat := x.r + match x.pc with
  | .pwait => 1 | .wk _ => 1 | _ => 0

/-- Releases. -/
def Q (x : Th) : Nat := x.r + match x.pc with
  | .wk _ => 1 | _ => 0

/-- Releases passed on to the `b`-th child. -/
def R (x : Th) (b : Nat) : Nat := x.r + match x.pc with
  | .wk m => if b < m then 1 else 0 | _ => 0

def odd (c : Nat) : Bool := decide (c % 2 = 1)

theorem odd_succ (c : Nat) : odd (c + 1) = !odd c := by
  unfold odd; rcases Nat.mod_two_eq_zero_or_one c with h | h <;> simp [h] <;> omega

structure Loc (i : Nat) (x : Th) : Prop where
  er : x.e = x.r + if x.pc = .idle then 0 else 1
  sns : x.sense = !odd x.r
  ck : ∀ k, x.pc = .chk k → k < 4
  ri : ∀ k, x.pc = .rei k → k < 4
  pw : x.pc = .pwait → i ≠ 0
  wk : ∀ b, x.pc = .wk b → b < 2

structure AOk (nr : Bool) (c z a : Nat) : Prop where
  ca : c ≤ a
  za : z ≤ a
  az : a ≤ z + 1
  nr : nr = decide (a = z)

structure WOk (ps : Bool) (q r : Nat) : Prop where
  qr : q ≤ r
  ps : ps = odd r

structure Inv (s : St n) : Prop where
  loc : ∀ t : Fin n, Loc t (s.th t)
  arr : ∀ (p i : Fin n) k, AE n p i k → AOk (s.nr p k) (C (s.th p) k) (Z (s.th p) k) (A (s.th i))
  wake : ∀ (p i : Fin n) b, WE n p i b → WOk (s.ps i) (Q (s.th i)) (R (s.th p) b)
  noc : ∀ (p : Fin n) k, n ≤ 4 * p + k + 1 → s.nr p k = false

/-! ## Chains through the two trees -/

theorem r_le_Q (x : Th) : x.r ≤ Q x := by unfold Q; omega
theorem R_le_Q {x : Th} {b : Nat} : R x b ≤ Q x := by
  unfold R Q; cases x.pc <;> simp only <;> grind
theorem A_le_C {x : Th} {k : Nat} : A x ≤ C x k := by
  unfold A C; cases x.pc <;> simp only <;> grind
theorem A_le_Z {x : Th} {k : Nat} : A x ≤ Z x k := by
  unfold A Z; cases x.pc <;> simp only <;> grind
theorem Q_le_C {x : Th} {k : Nat} : Q x ≤ C x k := by
  unfold Q C; cases x.pc <;> simp only <;> grind
theorem Q_le_Z {x : Th} {k : Nat} : Q x ≤ Z x k := by
  unfold Q Z; cases x.pc <;> simp only <;> grind

theorem Inv.Q_le_root {s : St n} (hi : Inv s) (h0 : 0 < n) :
    ∀ j (hj : j < n), Q (s.th ⟨j, hj⟩) ≤ Q (s.th ⟨0, h0⟩) := by
  intro j
  induction j using Nat.strongRecOn with
  | _ j ih =>
    intro hj
    by_cases hz : j = 0
    · subst hz; exact Nat.le_refl _
    · have h1 := (hi.wake ⟨(j - 1) / 2, by omega⟩ ⟨j, hj⟩ ((j - 1) % 2) ⟨by omega, hj, by simp only; omega⟩).qr
      have h2 := ih ((j - 1) / 2) (by omega) (by omega)
      exact Nat.le_trans h1 (Nat.le_trans R_le_Q h2)

theorem Inv.root_le_A {s : St n} (hi : Inv s) (h0 : 0 < n) :
    ∀ j (hj : j < n), j ≠ 0 → Q (s.th ⟨0, h0⟩) ≤ A (s.th ⟨j, hj⟩) := by
  intro j
  induction j using Nat.strongRecOn with
  | _ j ih =>
    intro hj hz
    have h1 := (hi.arr ⟨(j - 1) / 4, by omega⟩ ⟨j, hj⟩ ((j - 1) % 4) ⟨by omega, hj, by simp only; omega⟩).ca
    by_cases hp : (j - 1) / 4 = 0
    · simp only [hp] at h1
      exact Nat.le_trans Q_le_C h1
    · exact Nat.le_trans (ih _ (by omega) (by omega) hp) (Nat.le_trans A_le_C h1)

theorem Inv.root_le_Z {s : St n} (hi : Inv s) (h0 : 0 < n) (p : Fin n) (k : Nat) :
    Q (s.th ⟨0, h0⟩) ≤ Z (s.th p) k := by
  by_cases hz : (p : Nat) = 0
  · rw [show p = ⟨0, h0⟩ from Fin.ext hz]; exact Q_le_Z
  · exact Nat.le_trans (hi.root_le_A h0 p p.isLt hz) A_le_Z

/-! ## Steps -/

theorem Inv.set {s : St n} (hi : Inv s) (t : Fin n) (x : Th) (nr : Nat → Nat → Bool) (ps : Nat → Bool)
    (hl : Loc t x)
    (ha : ∀ (i : Fin n) k, AE n t i k → AOk (nr t k) (C x k) (Z x k) (A (s.th i)))
    (ha' : ∀ (p : Fin n) k, AE n p t k → AOk (nr p k) (C (s.th p) k) (Z (s.th p) k) (A x))
    (hao : ∀ (p i : Fin n) k, AE n p i k → p ≠ t → i ≠ t → nr p k = s.nr p k)
    (hw : ∀ (i : Fin n) b, WE n t i b → WOk (ps i) (Q (s.th i)) (R x b))
    (hw' : ∀ (p : Fin n) b, WE n p t b → WOk (ps t) (Q x) (R (s.th p) b))
    (hwo : ∀ (p i : Fin n) b, WE n p i b → p ≠ t → i ≠ t → ps i = s.ps i)
    (hn : ∀ (p : Fin n) k, n ≤ 4 * p + k + 1 → nr p k = false) :
    Inv { nr := nr, ps := ps, th := upd s.th t x } := by
  constructor <;> simp only
  · intro u
    by_cases hu : u = t
    · subst hu; rw [upd_same]; exact hl
    · rw [upd_ne _ _ hu]; exact hi.loc u
  · intro p i k he
    have hne : p ≠ i := fun h => by have := he.ie; rw [h] at this; omega
    by_cases h1 : p = t
    · subst h1
      rw [upd_same, upd_ne _ _ (Ne.symm hne)]; exact ha i k he
    · by_cases h2 : i = t
      · subst h2
        rw [upd_same, upd_ne _ _ hne]; exact ha' p k he
      · rw [upd_ne _ _ h1, upd_ne _ _ h2, hao p i k he h1 h2]
        exact hi.arr p i k he
  · intro p i k he
    have hne : p ≠ i := fun h => by have := he.ie; rw [h] at this; omega
    by_cases h1 : p = t
    · subst h1
      rw [upd_same, upd_ne _ _ (Ne.symm hne)]; exact hw i k he
    · by_cases h2 : i = t
      · subst h2
        rw [upd_same, upd_ne _ _ hne]; exact hw' p k he
      · rw [upd_ne _ _ h1, upd_ne _ _ h2, hwo p i k he h1 h2]
        exact hi.wake p i k he
  · exact hn

/-- A step of `t` that stores nothing another thread reads. -/
theorem Inv.silent {s : St n} (hi : Inv s) (t : Fin n) (x : Th) (hl : Loc t x)
    (ha : ∀ (i : Fin n) k, AE n t i k → (C x k ≤ C (s.th t) k ∨ C x k ≤ A (s.th i)) ∧ Z x k = Z (s.th t) k)
    (ha' : (t : Nat) ≠ 0 → A x = A (s.th t))
    (hw : ∀ (i : Fin n) b, WE n t i b → R x b = R (s.th t) b)
    (hw' : ∀ (p : Fin n) b, WE n p t b → Q x ≤ Q (s.th t) ∨ Q x ≤ R (s.th p) b) :
    Inv { s with th := upd s.th t x } := by
  refine hi.set t x s.nr s.ps hl ?_ ?_ (fun _ _ _ _ _ _ => rfl) ?_ ?_ (fun _ _ _ _ _ _ => rfl) hi.noc
  · intro i k he
    have h := hi.arr t i k he
    obtain ⟨h1, h2⟩ := ha i k he
    refine ⟨?_, by rw [h2]; exact h.za, by rw [h2]; exact h.az, by rw [h2]; exact h.nr⟩
    have := h.ca; omega
  · intro p k he
    rw [ha' (by have := he.ie; omega)]; exact hi.arr p t k he
  · intro i b he; rw [hw i b he]; exact hi.wake t i b he
  · intro p b he
    have h := hi.wake p t b he
    exact ⟨by have := hw' p b he; have := h.qr; omega, h.ps⟩

theorem inv_step {s s' : St n} {a : Act n} (hi : Inv s) (hs : step s a = some s') : Inv s' := by
  cases a <;> simp only [step] at hs
  case call t =>
    split at hs
    case isFalse => cases hs
    rename_i hp
    cases hs
    have hl := hi.loc t
    have he := hl.er
    simp only [hp, if_true] at he
    refine hi.silent t _ ?_ ?_ ?_ ?_ ?_
    · constructor <;> simp
      · exact he
      · exact hl.sns
    · intro i k hk; simp [C, Z, hp]
    · intro _; simp [A, hp]
    · intro i b hb; simp [R, hp]
    · intro p b hb; simp [Q, hp]
  case run t =>
    have hl := hi.loc t
    have he := hl.er
    have h0 : 0 < n := Nat.zero_lt_of_lt t.isLt
    cases hp : (s.th t).pc <;> simp only [hp] at hs
    case idle => cases hs
    case chk k =>
      have hk4 := hl.ck k hp
      simp only [hp] at he
      split at hs
      · cases hs
        refine hi.silent t _ ?_ ?_ ?_ ?_ ?_
        · constructor <;> simp
          · simpa using he
          · exact hl.sns
        · intro i k hk; simp [C, Z, hp]
        · intro _; simp [A, hp]
        · intro i b hb; simp [R, hp]
        · intro p b hb; simp [Q, hp]
      · next hf =>
        cases hs
        -- the child has arrived
        have harr : ∀ (i : Fin n), AE n t i k → (s.th t).r + 1 ≤ A (s.th i) := by
          intro i hk
          have h := hi.arr t i k hk
          have h1 := h.nr
          have h2 := h.za
          rw [show Z (s.th t) k = (s.th t).r by simp [Z, hp]] at h1 h2
          refine Nat.lt_of_le_of_ne h2 fun hc => hf ?_
          rw [h1]; exact decide_eq_true hc.symm
        have hpc : ∀ m, (if k < 3 then PC.chk (k + 1) else .rei 0) = .chk m → m < 4 := by
          intro m; split <;> simp <;> omega
        have hpr : ∀ m, (if k < 3 then PC.chk (k + 1) else .rei 0) = .rei m → m < 4 := by
          intro m; split <;> simp <;> omega
        refine hi.silent t _ ?_ ?_ ?_ ?_ ?_
        · refine ⟨?_, hl.sns, hpc, hpr, ?_, ?_⟩
          · simp only; rw [if_neg (by split <;> simp)]; simpa using he
          · simp only; split <;> simp
          · simp only; split <;> simp
        · intro i m hm
          have hm4 := hm.k4
          refine ⟨?_, ?_⟩
          · by_cases hmk : m = k
            · subst hmk
              right
              refine Nat.le_trans ?_ (harr i hm)
              simp only [C]; split <;> simp <;> split <;> simp
            · left; simp only [C, hp]
              by_cases hk3 : k < 3
              · simp only [hk3, if_true]; grind
              · simp only [hk3, if_false]; rw [if_pos (by omega)]
          · simp only [Z, hp]; by_cases hk3 : k < 3 <;> simp [hk3]
        · intro _; simp only [A, hp]; by_cases hk3 : k < 3 <;> simp [hk3]
        · intro i b hb; simp only [R, hp]; by_cases hk3 : k < 3 <;> simp [hk3]
        · intro p b hb; simp only [Q, hp]; by_cases hk3 : k < 3 <;> simp [hk3]
    case rei k =>
      have hk4 := hl.ri k hp
      simp only [hp] at he
      cases hs
      have hx : ∀ m, m < 4 → Z { s.th t with pc := if k < 3 then .rei (k + 1) else .par } m =
          (s.th t).r + if m ≤ k then 1 else 0 := by
        intro m hm
        simp only [Z]; by_cases hk3 : k < 3
        · simp only [hk3, if_true]; congr 1; grind
        · simp only [hk3, if_false]; rw [if_pos (by omega)]
      have hC : ∀ m, C { s.th t with pc := if k < 3 then .rei (k + 1) else .par } m = C (s.th t) m := by
        intro m; simp only [C, hp]; by_cases hk3 : k < 3 <;> simp [hk3]
      have hA : A { s.th t with pc := if k < 3 then .rei (k + 1) else .par } = A (s.th t) := by
        simp only [A, hp]; by_cases hk3 : k < 3 <;> simp [hk3]
      have hQ : Q { s.th t with pc := if k < 3 then .rei (k + 1) else .par } = Q (s.th t) := by
        simp only [Q, hp]; by_cases hk3 : k < 3 <;> simp [hk3]
      have hR : ∀ m, R { s.th t with pc := if k < 3 then .rei (k + 1) else .par } m = R (s.th t) m := by
        intro m; simp only [R, hp]; by_cases hk3 : k < 3 <;> simp [hk3]
      refine hi.set t _ _ s.ps ?_ ?_ ?_ ?_ ?_ ?_ (fun _ _ _ _ _ _ => rfl) ?_
      · refine ⟨?_, hl.sns, ?_, ?_, ?_, ?_⟩
        · simp only; rw [if_neg (by split <;> simp)]; simpa using he
        · intro m; simp only; split <;> simp
        · intro m; simp only; split <;> simp <;> omega
        · simp only; split <;> simp
        · simp only; split <;> simp
      · intro i m hm
        have h := hi.arr t i m hm
        rw [hC, hx m hm.k4]
        have hz : Z (s.th t) m = (s.th t).r + if m < k then 1 else 0 := by simp [Z, hp]
        have hca := h.ca
        rw [show C (s.th t) m = (s.th t).r + 1 by simp [C, hp]] at *
        by_cases hmk : m = k
        · subst hmk
          rw [if_pos (Nat.le_refl _)]
          rw [if_neg (by omega)] at hz
          have haz := h.az
          refine ⟨hca, hca, by omega, ?_⟩
          simp only [set2]; rw [if_pos ⟨trivial, trivial⟩]
          have h1 : A (s.th i) = (s.th t).r + 1 := by omega
          rw [h1]; simp only [decide_true, have_]
          have := hm.ie; have := hm.i_n
          exact decide_eq_true (by omega)
        · have hz' : ((s.th t).r + if m ≤ k then 1 else 0) = Z (s.th t) m := by
            rw [hz]; congr 1; grind
          rw [hz']
          refine ⟨hca, h.za, h.az, ?_⟩
          simp only [set2]; rw [if_neg (fun hh => hmk hh.2)]; exact h.nr
      · intro p m hm
        have hpt : (p : Nat) ≠ t := by have := hm.ie; omega
        have h := hi.arr p t m hm
        simp only [set2]; rw [if_neg (fun hh => hpt hh.1), hA]; exact h
      · intro p i m hm h1 h2
        simp only [set2]; rw [if_neg (fun hh => h1 (Fin.ext hh.1))]
      · intro i b hb; rw [hR]; exact hi.wake t i b hb
      · intro p b hb; rw [hQ]; exact hi.wake p t b hb
      · intro p m hm
        simp only [set2]
        split
        · next hh =>
          simp only [have_]; rw [← hh.1, ← hh.2]; exact decide_eq_false (by omega)
        · exact hi.noc p m hm
    case par =>
      simp only [hp] at he
      split at hs
      · next hz =>
        cases hs
        refine hi.silent t _ ?_ ?_ ?_ ?_ ?_
        · constructor <;> simp
          · simpa using he
          · exact hl.sns
        · intro i k hk; simp [C, Z, hp]
        · intro h; exact absurd hz h
        · intro i b hb; simp [R, hp]
        · intro p b hb; have := hb.ie; omega
      · next hz =>
        cases hs
        have hx : ∀ m, Z { s.th t with pc := .pwait } m = Z (s.th t) m := by intro m; simp [Z, hp]
        have hC : ∀ m, C { s.th t with pc := .pwait } m = C (s.th t) m := by intro m; simp [C, hp]
        have hQ : Q { s.th t with pc := .pwait } = Q (s.th t) := by simp [Q, hp]
        have hR : ∀ m, R { s.th t with pc := .pwait } m = R (s.th t) m := by intro m; simp [R, hp]
        have hA : A { s.th t with pc := .pwait } = A (s.th t) + 1 := by simp [A, hp]
        have hA0 : A (s.th t) = (s.th t).r := by simp [A, hp]
        refine hi.set t _ _ s.ps ?_ ?_ ?_ ?_ ?_ ?_ (fun _ _ _ _ _ _ => rfl) ?_
        · constructor <;> simp
          · simpa using he
          · exact hl.sns
          · exact hz
        · intro i m hm
          have h := hi.arr t i m hm
          rw [hC, hx]
          have : ¬ ((t : Nat) = (t - 1) / 4 ∧ m = (t - 1) % 4) := by omega
          simp only [set2]; rw [if_neg this]; exact h
        · intro p m hm
          have h := hi.arr p t m hm
          have hie := hm.ie
          have hk4 := hm.k4
          have hlow : A (s.th t) ≤ Z (s.th p) m := by
            rw [hA0]
            exact Nat.le_trans (r_le_Q _) (Nat.le_trans (hi.Q_le_root h0 t t.isLt) (hi.root_le_Z h0 p m))
          have hza := h.za
          rw [hA]
          refine ⟨by have := h.ca; omega, by omega, by omega, ?_⟩
          simp only [set2]; rw [if_pos ⟨by omega, by omega⟩]
          exact (decide_eq_false (by omega)).symm
        · intro p i m hm h1 h2
          have hie := hm.ie
          have hk4 := hm.k4
          simp only [set2]; rw [if_neg]
          rintro ⟨e1, e2⟩
          exact h2 (Fin.ext (by omega))
        · intro i b hb; rw [hR]; exact hi.wake t i b hb
        · intro p b hb; rw [hQ]; exact hi.wake p t b hb
        · intro p m hm
          simp only [set2]
          split
          · rfl
          · exact hi.noc p m hm
    case pwait =>
      simp only [hp] at he
      split at hs
      · cases hs; exact hi
      · next hf =>
        simp only [ne_eq, Decidable.not_not] at hf
        cases hs
        refine hi.silent t _ ?_ ?_ ?_ ?_ ?_
        · constructor <;> simp
          · simpa using he
          · exact hl.sns
        · intro i k hk; simp [C, Z, hp]
        · intro h; simp [A, hp]
        · intro i b hb; simp [R, hp]
        · intro p b hb
          right
          have h := hi.wake p t b hb
          have h1 := h.qr
          rw [show Q (s.th t) = (s.th t).r by simp [Q, hp]] at h1
          show (s.th t).r + 1 ≤ _
          refine Nat.lt_of_le_of_ne h1 fun hc => ?_
          have h2 := h.ps
          rw [hf, hl.sns, ← hc] at h2
          cases ho : odd (s.th t).r <;> rw [ho] at h2 <;> cases h2
    case wk b =>
      have hb2 := hl.wk b hp
      simp only [hp] at he
      -- the new local state, with its counters
      have key : ∀ x : Th, Loc t x → (∀ k, C x k = C (s.th t) k) → (∀ k, Z x k = Z (s.th t) k) →
          A x = A (s.th t) → Q x = Q (s.th t) →
          (∀ m, m < 2 → R x m = (s.th t).r + if m ≤ b then 1 else 0) →
          Inv { s with ps := if 2 * (t : Nat) + 1 + b ≥ n then s.ps else upd s.ps (2 * t + 1 + b) (s.th t).sense
                       th := upd s.th t x } := by
        intro x hlx hC hZ hA hQ hR
        have hcell : ∀ (i : Nat), i ≠ 2 * t + 1 + b →
            (if 2 * (t : Nat) + 1 + b ≥ n then s.ps else upd s.ps (2 * t + 1 + b) (s.th t).sense) i = s.ps i := by
          intro i hne
          split
          · rfl
          · rw [upd_ne _ _ hne]
        have hold : ∀ m, R (s.th t) m = (s.th t).r + if m < b then 1 else 0 := by intro m; simp [R, hp]
        refine hi.set t x s.nr _ hlx ?_ ?_ (fun _ _ _ _ _ _ => rfl) ?_ ?_ ?_ hi.noc
        · intro i k hk; rw [hC, hZ]; exact hi.arr t i k hk
        · intro p k hk; rw [hA]; exact hi.arr p t k hk
        · intro i m hm
          have h := hi.wake t i m hm
          rw [hR m hm.b2]
          rw [hold] at h
          have hie := hm.ie
          by_cases hmb : m = b
          · subst hmb
            have hin := hm.i_n
            rw [if_neg (show ¬ 2 * (t : Nat) + 1 + m ≥ n by omega), if_pos (Nat.le_refl _)]
            refine ⟨by have := h.qr; rw [if_neg (Nat.lt_irrefl _)] at this; omega, ?_⟩
            rw [show (i : Nat) = 2 * t + 1 + m by omega, upd_same, odd_succ, hl.sns]
          · rw [hcell i (by omega)]
            rwa [show (if m ≤ b then 1 else 0) = (if m < b then 1 else 0) by grind]
        · intro p m hm
          have hie := hm.ie
          rw [hcell t (by omega), hQ]
          exact hi.wake p t m hm
        · intro p i m hm h1 h2
          have hie := hm.ie
          have hb2' := hm.b2
          rw [hcell i]
          intro hc
          exact h1 (Fin.ext (by omega))
      split at hs
      · next hb =>
        cases hs
        refine key _ ?_ ?_ ?_ ?_ ?_ ?_
        · constructor <;> simp
          · simpa using he
          · exact hl.sns
        · intro k; simp [C, hp]
        · intro k; simp [Z, hp]
        · simp [A, hp]
        · simp [Q, hp]
        · intro m hm; simp only [R]; congr 1; grind
      · next hb =>
        cases hs
        refine key _ ?_ ?_ ?_ ?_ ?_ ?_
        · constructor <;> simp
          · simpa using he
          · rw [odd_succ, hl.sns]
        · intro k; simp [C, hp]
        · intro k; simp [Z, hp]
        · simp [A, hp]
        · simp [Q, hp]
        · intro m hm; simp only [R]; rw [if_pos (by omega)]

theorem inv_of_reach {s : St n} (h : (sys n).Reach s) : Inv s := by
  refine h.invariant (I := Inv) ?_ (fun _ _ _ hi hs => inv_step hi hs)
  rintro s rfl
  constructor
  · intro t; constructor <;> simp [initSt, odd]
  · intro p i k he
    have := he.ie; have := he.i_n
    refine ⟨?_, ?_, ?_, ?_⟩ <;> simp [initSt, C, Z, A, have_]
    omega
  · intro p i b he; constructor <;> simp [initSt, Q, R, odd]
  · intro p k hk; simp [initSt, have_]; omega

/-! ## Properties -/

/-- C27: nobody has returned from its k-th call before everybody has made theirs. -/
theorem phase_separation {s : St n} (h : (sys n).Reach s) :
    PhaseSep (fun t => (s.th t).e) (fun t => (s.th t).r) := by
  intro t u
  have h0 : 0 < n := Nat.zero_lt_of_lt t.isLt
  simp only
  have hi := inv_of_reach h
  refine Nat.le_trans (r_le_Q _) (Nat.le_trans (hi.Q_le_root h0 t t.isLt) ?_)
  have hA : ∀ x : Fin n, A (s.th x) ≤ (s.th x).e ∧ Q (s.th x) ≤ (s.th x).e := by
    intro x; rw [(hi.loc x).er]; unfold A Q; cases (s.th x).pc <;> simp
  by_cases hu : (u : Nat) = 0
  · have : (⟨0, h0⟩ : Fin n) = u := Fin.ext hu.symm
    rw [this]; exact (hA u).2
  · exact Nat.le_trans (hi.root_le_A h0 u u.isLt hu) (hA u).1

/-- How far a call has got: rechecking the children is no progress. -/
def rank : PC → Nat
  | .idle => 0 | .chk _ => 1 | .rei k => 2 + k | .par => 6 | .pwait => 7 | .wk b => 8 + b

/-- With every slot ready, the check succeeds. -/
theorem check_completes {s : St n} (t : Fin n) {k : Nat} (hk : k < 4) (hp : (s.th t).pc = .chk k)
    (hr : ∀ m, m < 4 → s.nr t m = false) :
    ∃ m s', (sys n).run s (List.replicate m (.run t)) = some s' ∧ (s'.th t).pc = .rei 0 ∧ (s'.th t).r = (s.th t).r := by
  suffices H : ∀ d k (s : St n), k + d = 3 → (s.th t).pc = .chk k → (∀ m, m < 4 → s.nr t m = false) →
      ∃ m s', (sys n).run s (List.replicate m (.run t)) = some s' ∧ (s'.th t).pc = .rei 0 ∧ (s'.th t).r = (s.th t).r from
    H (3 - k) k s (by omega) hp hr
  intro d
  induction d with
  | zero =>
    intro k s hk hp hr
    refine ⟨1, { s with th := upd s.th t { s.th t with pc := .rei 0 } }, ?_, ?_, ?_⟩
    · simp only [List.replicate, Sys.run, sys, step, hp]
      rw [if_neg (by rw [hr k (by omega)]; simp), if_neg (by omega)]
    · simp only [upd_same]
    · simp only [upd_same]
  | succ d ih =>
    intro k s hk hp hr
    obtain ⟨m, s', h1, h2, h3⟩ := ih (k + 1) { s with th := upd s.th t { s.th t with pc := .chk (k + 1) } } (by omega)
      (by simp) hr
    refine ⟨m + 1, s', ?_, h2, by simpa using h3⟩
    rw [List.replicate_succ]
    simp only [Sys.run]
    have : (sys n).step s (.run t) = some { s with th := upd s.th t { s.th t with pc := .chk (k + 1) } } := by
      simp only [sys, step, hp]
      rw [if_neg (by rw [hr k (by omega)]; simp), if_pos (by omega)]
    rw [this]; exact h1

/-- C27: nobody stays blocked.  If everybody is inside a call, some thread advances by its own steps. -/
theorem no_deadlock (h0 : 0 < n) {s : St n} (h : (sys n).Reach s) (hq : ∀ t, (s.th t).pc ≠ .idle) :
    ∃ t m s', (sys n).run s (List.replicate m (.run t)) = some s' ∧
      ((s'.th t).r = (s.th t).r ∧ rank (s.th t).pc < rank (s'.th t).pc ∨ (s.th t).r < (s'.th t).r) := by
  have hi := inv_of_reach h
  by_contra hno
  have hstuck1 : ∀ t s', (sys n).step s (.run t) = some s' →
      ¬ ((s'.th t).r = (s.th t).r ∧ rank (s.th t).pc < rank (s'.th t).pc ∨ (s.th t).r < (s'.th t).r) := by
    intro t s' h1 h2
    exact hno ⟨t, 1, s', by simp only [List.replicate, Sys.run, h1], h2⟩
  -- a blocked thread waits for an arrival or for its release
  have hkind : ∀ t : Fin n, (∃ (i : Fin n) (j k : Nat), AE n t i k ∧ (s.th t).pc = .chk j ∧ s.nr t k = true) ∨
      ((s.th t).pc = .pwait ∧ s.ps t ≠ (s.th t).sense) := by
    intro t
    have hst := hstuck1 t
    have hl := hi.loc t
    simp only [sys, step] at hst
    cases hp : (s.th t).pc <;> simp only [hp] at hst
    case idle => exact absurd hp (hq t)
    case chk j =>
      left
      by_cases hall : ∀ m, m < 4 → s.nr t m = false
      · exfalso
        obtain ⟨m, s', h1, h2, h3⟩ := check_completes t (hl.ck j hp) hp hall
        exact hno ⟨t, m, s', h1, .inl ⟨h3, by rw [hp, h2]; simp [rank]⟩⟩
      · simp only [not_forall] at hall
        obtain ⟨k, hk4, hk⟩ := hall
        have hin : 4 * (t : Nat) + k + 1 < n := by
          by_contra hc
          exact hk (hi.noc t k (by omega))
        exact ⟨⟨4 * t + k + 1, hin⟩, j, k, ⟨hk4, hin, rfl⟩, rfl, by simpa using hk⟩
    case rei k =>
      exfalso
      refine hst _ rfl (.inl ?_)
      simp only [upd_same, rank]
      refine ⟨trivial, ?_⟩
      have := hl.ri k hp
      by_cases hk3 : k < 3 <;> simp [hk3] <;> omega
    case par =>
      exfalso
      split at hst <;> refine hst _ rfl (.inl ?_) <;> simp [rank]
    case pwait =>
      right
      refine ⟨rfl, ?_⟩
      intro hf
      rw [if_neg (by simpa using hf)] at hst
      refine hst _ rfl (.inl ?_); simp [rank]
    case wk b =>
      exfalso
      have := hl.wk b hp
      split at hst
      · refine hst _ rfl (.inl ?_); simp [rank]; omega
      · refine hst _ rfl (.inr ?_); simp
  have : Nonempty (Fin n) := ⟨⟨0, h0⟩⟩
  obtain ⟨m, hmin⟩ := Finite.exists_min (fun t => (s.th t).r)
  -- no arrival wait in the least advanced call: look at the last such thread
  have hnoup : ∀ (t : Fin n) j, (s.th t).pc = .chk j → (s.th t).r ≠ (s.th m).r := by
    suffices H : ∀ d (t : Fin n) j, n - t ≤ d → (s.th t).pc = .chk j → (s.th t).r ≠ (s.th m).r from
      fun t j => H n t j (by omega)
    intro d
    induction d with
    | zero => intro t k hd; have := t.isLt; omega
    | succ d ih =>
      intro t j hd hp hr
      rcases hkind t with ⟨i, j', k, hae, hp', hnr⟩ | ⟨hp', hf⟩
      · have hok := hi.arr t i k hae
        have hA : A (s.th i) = (s.th t).r := by
          have h1 := hok.nr
          rw [hnr, show Z (s.th t) k = (s.th t).r by simp [Z, hp]] at h1
          exact of_decide_eq_true h1.symm
        have hir : (s.th i).r = (s.th m).r := by
          have h1 := hmin i
          have h2 : (s.th i).r ≤ A (s.th i) := by unfold A; omega
          omega
        rcases hkind i with ⟨i', j'', k', hae', hpi, hnri⟩ | ⟨hpi, hfi⟩
        · exact ih i j'' (by have := hae.ie; omega) hpi hir
        · have : A (s.th i) = (s.th i).r + 1 := by simp [A, hpi]
          omega
      · rw [hp] at hp'; cases hp'
  have hnolw : ∀ d (t : Fin n), (t : Nat) ≤ d → (s.th t).r ≠ (s.th m).r := by
    intro d
    induction d with
    | zero =>
      intro t hd hr
      rcases hkind t with ⟨i, j', k, hae, hp', hnr⟩ | ⟨hp', hf⟩
      · exact hnoup t j' hp' hr
      · exact (hi.loc t).pw hp' (by omega)
    | succ d ih =>
      intro t hd hr
      rcases hkind t with ⟨i, j', k, hae, hp', hnr⟩ | ⟨hp', hf⟩
      · exact hnoup t j' hp' hr
      · have ht0 := (hi.loc t).pw hp'
        have hlt := t.isLt
        have hwe : WE n (⟨(t - 1) / 2, by omega⟩ : Fin n) t ((t - 1) % 2) :=
          ⟨by omega, t.isLt, by simp only; omega⟩
        have hok := hi.wake ⟨(t - 1) / 2, by omega⟩ t _ hwe
        generalize hpe : (⟨((t : Nat) - 1) / 2, by omega⟩ : Fin n) = p at hwe hok
        have hpv : (p : Nat) = (t - 1) / 2 := by rw [← hpe]
        have h1 := hok.qr
        have h2 : R (s.th p) ((t - 1) % 2) ≤ A (s.th t) :=
          Nat.le_trans R_le_Q (Nat.le_trans (hi.Q_le_root h0 p p.isLt) (hi.root_le_A h0 t t.isLt ht0))
        rw [show Q (s.th t) = (s.th t).r by simp [Q, hp']] at h1
        rw [show A (s.th t) = (s.th t).r + 1 by simp [A, hp']] at h2
        have hR : R (s.th p) ((t - 1) % 2) = (s.th t).r := by
          by_contra hc
          apply hf
          rw [hok.ps, show R (s.th p) ((t - 1) % 2) = (s.th t).r + 1 by omega, odd_succ, (hi.loc t).sns]
        have h3 := hmin p
        have h4 : (s.th p).r ≤ R (s.th p) ((t - 1) % 2) := by unfold R; omega
        exact ih p (by omega) (by omega)
  exact hnolw n m (by omega) rfl

/-- Six threads: thread 5 reports to thread 1, the root releases thread 1 and is already checking its
children again in the next call. -/
example : ((sys 6).run (initSt 6) ([.call 0, .call 1, .call 2, .call 3, .call 4, .call 5] ++
    List.replicate 9 (.run 5) ++ List.replicate 9 (.run 4) ++ List.replicate 9 (.run 3) ++
    List.replicate 9 (.run 2) ++ List.replicate 9 (.run 1) ++ List.replicate 11 (.run 0) ++
    [.call 0, .run 1])).map
    (fun s => ((s.th 0).r, (s.th 0).pc, (s.th 1).pc, (s.th 5).pc, s.nr 0 0)) =
    some (1, .chk 0, .wk 0, .pwait, true) := by decide

end Verif.Barrier.Mcs
