import Verif.Barrier.Tournament
import Mathlib.Data.Nat.Bitwise
import Mathlib.Data.Fintype.EquivFin
import Mathlib.Data.Fintype.Lattice

/-!
# `ck_barrier_tournament`: phase separation, no lost wake-up (C26)
-/

set_option linter.unusedVariables false

namespace Verif.Barrier.Tournament

open Verif Verif.Spec

variable {n : Nat}

/-! ## Arithmetic of the rounds -/

theorem two_pow_pred {k : Nat} (h : 1 ≤ k) : 2 ^ k = 2 ^ (k - 1) * 2 := by
  rw [← Nat.pow_succ]; congr 1; omega

theorem size_spec (h0 : 0 < n) (h : n ≤ 2 ^ 31) :
    n ≤ 2 ^ (size n - 1) ∧ ∀ k, n ≤ 2 ^ k → size n - 1 ≤ k := by
  have hv : (BitVec.ofNat 32 n).toNat = n := by simp; omega
  have := Internal.log_power2 (BitVec.ofNat 32 n) (by omega) (by omega)
  rw [hv] at this
  exact this

theorem mod_cases {i k : Nat} (h : 1 ≤ k) (hd : i % 2 ^ (k - 1) = 0) :
    i % 2 ^ k = 0 ∨ i % 2 ^ k = 2 ^ (k - 1) := by
  rw [two_pow_pred h, Nat.mod_mul, hd]
  rcases Nat.mod_two_eq_zero_or_one (i / 2 ^ (k - 1)) with e | e <;> rw [e] <;> simp

theorem mod_of_le {i k m : Nat} (h : i % 2 ^ k = 0) (hm : m ≤ k) : i % 2 ^ m = 0 := by
  have h1 : 2 ^ m ∣ 2 ^ k := Nat.pow_dvd_pow 2 hm
  exact Nat.mod_eq_zero_of_dvd (h1.trans (Nat.dvd_of_mod_eq_zero h))

theorem mod_half {i k m : Nat} (h1 : 1 ≤ k) (h : i % 2 ^ k = 2 ^ (k - 1)) :
    i % 2 ^ m = 0 ↔ m ≤ k - 1 := by
  have hp := Nat.two_pow_pos (k - 1)
  constructor
  · intro hm
    by_contra hc
    have := mod_of_le hm (show k ≤ m by omega)
    omega
  · intro hm
    have : i % 2 ^ (k - 1) = 0 := by
      rw [two_pow_pred h1, Nat.mod_mul] at h
      have hlt := Nat.mod_lt i hp
      rcases Nat.mod_two_eq_zero_or_one (i / 2 ^ (k - 1)) with e | e <;> rw [e] at h <;> omega
    exact mod_of_le this hm

/-- `j` loses to `i` in round `k`. -/
structure Edge (n i j k : Nat) : Prop where
  k1 : 1 ≤ k
  ks : k < size n
  im : i % 2 ^ k = 0
  jn : j < n
  je : j = i + 2 ^ (k - 1)

theorem Edge.jm {i j k : Nat} (h : Edge n i j k) : j % 2 ^ k = 2 ^ (k - 1) := by
  have hp := Nat.two_pow_pos (k - 1)
  rw [h.je, Nat.add_mod, h.im, Nat.zero_add, Nat.mod_mod]
  exact Nat.mod_eq_of_lt (by rw [two_pow_pred h.k1]; omega)

theorem Edge.ne {i j k : Nat} (h : Edge n i j k) : i ≠ j := by
  have hp := Nat.two_pow_pos (k - 1)
  have := h.je; omega

theorem Edge.jpos {i j k : Nat} (h : Edge n i j k) : j ≠ 0 := by
  have hp := Nat.two_pow_pos (k - 1)
  have := h.je; omega

/-- The edge to a thread is unique. -/
theorem Edge.uniq {i j k i' k' : Nat} (h : Edge n i j k) (h' : Edge n i' j k') : k = k' ∧ i = i' := by
  have e1 := h.jm
  have e2 := h'.jm
  have hk : k = k' := by
    have a1 := (mod_half (m := k - 1) h.k1 e1).2 (by omega)
    have a2 := (mod_half (m := k' - 1) h'.k1 e2).2 (by omega)
    have b1 := (mod_half (m := k' - 1) h.k1 e1).1 a2
    have b2 := (mod_half (m := k - 1) h'.k1 e2).1 a1
    have := h.k1; have := h'.k1
    omega
  subst hk
  exact ⟨rfl, by have := h.je; have := h'.je; omega⟩

/-- Nobody wins at or after the round it loses. -/
theorem Edge.below {i j k m : Nat} (h1 : 1 ≤ k) (hl : i % 2 ^ k = 2 ^ (k - 1)) (h : Edge n i j m) : m < k := by
  have := (mod_half (m := m) h1 hl).1 h.im
  omega

theorem edge_of_lose {j k : Nat} (h1 : 1 ≤ k) (hk : k < size n) (hj : j < n)
    (hl : j % 2 ^ k = 2 ^ (k - 1)) : Edge n (j - 2 ^ (k - 1)) j k := by
  have hp := Nat.two_pow_pos (k - 1)
  have hle : 2 ^ (k - 1) ≤ j := by have := Nat.mod_le j (2 ^ k); omega
  refine ⟨h1, hk, ?_, hj, by omega⟩
  have := Nat.div_add_mod j (2 ^ k)
  rw [hl] at this
  rw [show j - 2 ^ (k - 1) = 2 ^ k * (j / 2 ^ k) by omega, Nat.mul_mod_right]

/-- The role a thread finds on its way up. -/
theorem role_cases (hn : n ≤ 2 ^ 31) {i k : Nat} (hi : i < n) (h1 : 1 ≤ k) (hk : k < size n)
    (hd : i % 2 ^ (k - 1) = 0) :
    (i % 2 ^ k = 2 ^ (k - 1) ∧ role n i k = some .loser) ∨
    (i % 2 ^ k = 0 ∧ i + 2 ^ (k - 1) < n ∧ role n i k = some .winner ∧ k + 1 < size n ∧ 2 ^ k < n) ∨
    (i = 0 ∧ i + 2 ^ (k - 1) < n ∧ role n i k = some .champion ∧ n ≤ 2 ^ k) ∨
    (i % 2 ^ k = 0 ∧ n ≤ i + 2 ^ (k - 1) ∧ role n i k = some .bye ∧ k + 1 < size n ∧ i ≠ 0) := by
  have h0 : 0 < n := by omega
  obtain ⟨hs1, hs2⟩ := size_spec h0 hn
  have hp := Nat.two_pow_pos (k - 1)
  have hsmall : 2 ^ (k - 1) < n := by
    by_contra hc
    have := hs2 (k - 1) (by omega); omega
  have hnk : ¬ k ≥ size n := by omega
  have hk0 : ¬ k = 0 := by omega
  simp only [role, hnk, hk0, if_false, Nat.and_two_pow_sub_one_eq_mod]
  rcases mod_cases h1 hd with hm | hm
  · right
    have hne : ¬ (0 = 2 ^ (k - 1)) := by omega
    rw [hm, if_neg hne]
    by_cases hc : i = 0 ∧ 2 ^ k ≥ n
    · right; left
      rw [if_pos hc]
      exact ⟨hc.1, by rw [hc.1]; omega, rfl, hc.2⟩
    · rw [if_neg hc, if_pos rfl]
      by_cases hw : i + 2 ^ (k - 1) < n ∧ 2 ^ k < n
      · left
        rw [if_pos hw]
        refine ⟨rfl, hw.1, rfl, ?_, hw.2⟩
        by_contra hcc
        have : 2 ^ (size n - 1) ≤ 2 ^ k := Nat.pow_le_pow_right (by omega) (by omega)
        omega
      · right; right
        have hb : i + 2 ^ (k - 1) ≥ n := by
          by_contra hcc
          have hk2 : ¬ 2 ^ k < n := fun h => hw ⟨by omega, h⟩
          have : i < 2 ^ k := by rw [two_pow_pred h1] at *; omega
          rw [Nat.mod_eq_of_lt this] at hm
          exact hc ⟨hm, by omega⟩
        rw [if_neg hw, if_pos hb]
        refine ⟨rfl, hb, rfl, ?_, by omega⟩
        by_contra hcc
        have : 2 ^ (size n - 1) ≤ 2 ^ k := Nat.pow_le_pow_right (by omega) (by omega)
        rw [Nat.mod_eq_of_lt (by omega)] at hm
        omega
  · left
    refine ⟨hm, ?_⟩
    rw [hm, if_pos rfl]

/-! ## Progress counters of a thread -/

/-- Completed arrival waits in round `k`. -/
def W (x : Th) (k : Nat) : Nat := x.r + match x.pc with
  | .idle => 0 | .up m => if k < m then 1 else 0 | .cst _ => 1 | .lwait _ => 1 | .down _ => 1

/-- Completed arrival stores. -/
def A (x : Th) : Nat := x.r + match x.pc with
  | .lwait _ => 1 | .down _ => 1 | _ => 0

/-- Completed release waits (for the champion: its last arrival wait). -/
def Q (x : Th) : Nat := x.r + match x.pc with
  | .cst _ => 1 | .down _ => 1 | _ => 0

/-- Completed release stores in round `k`. -/
def R (x : Th) (k : Nat) : Nat := x.r + match x.pc with
  | .down m => if m < k then 1 else 0 | _ => 0

def odd (c : Nat) : Bool := decide (c % 2 = 1)

theorem odd_succ (c : Nat) : odd (c + 1) = !odd c := by
  unfold odd; rcases Nat.mod_two_eq_zero_or_one c with h | h <;> simp [h] <;> omega

/-- What a thread's fields satisfy. -/
structure Loc (n i : Nat) (x : Th) : Prop where
  er : x.e = x.r + if x.pc = .idle then 0 else 1
  sns : x.sense = !odd x.r
  up : ∀ k, x.pc = .up k → 1 ≤ k ∧ k < size n ∧ i % 2 ^ (k - 1) = 0
  cst : ∀ k, x.pc = .cst k → i = 0 ∧ 1 ≤ k ∧ k < size n ∧ n ≤ 2 ^ k
  lw : ∀ k, x.pc = .lwait k → 1 ≤ k ∧ k < size n ∧ i % 2 ^ k = 2 ^ (k - 1)
  dn : ∀ k, x.pc = .down k → k + 1 < size n ∧ i % 2 ^ k = 0

/-- What holds between winner and loser of a round: `fa`, `fr` are the arrival and release flags. -/
structure EOk (fa fr : Bool) (w a q r : Nat) : Prop where
  wa : w ≤ a
  fa : fa = odd a
  qr : q ≤ r
  fr : fr = odd r

structure Inv (s : St n) : Prop where
  loc : ∀ t : Fin n, Loc n t (s.th t)
  edge : ∀ (i j : Fin n) k, Edge n i j k →
    EOk (s.flag i k) (s.flag j k) (W (s.th i) k) (A (s.th j)) (Q (s.th j)) (R (s.th i) k)

theorem Inv.set {s : St n} (hi : Inv s) (t : Fin n) (x : Th) (f : Nat → Nat → Bool)
    (hl : Loc n t x)
    (hp : ∀ (j : Fin n) k, Edge n t j k → EOk (f t k) (f j k) (W x k) (A (s.th j)) (Q (s.th j)) (R x k))
    (hc : ∀ (i : Fin n) k, Edge n i t k → EOk (f i k) (f t k) (W (s.th i) k) (A x) (Q x) (R (s.th i) k))
    (ho : ∀ (i j : Fin n) k, Edge n i j k → i ≠ t → j ≠ t → f i k = s.flag i k ∧ f j k = s.flag j k) :
    Inv { flag := f, th := upd s.th t x } := by
  constructor <;> simp only
  · intro u
    by_cases hu : u = t
    · subst hu; rw [upd_same]; exact hl
    · rw [upd_ne _ _ hu]; exact hi.loc u
  · intro i j k he
    have hij : i ≠ j := fun h => he.ne (by rw [h])
    by_cases h1 : i = t
    · subst h1
      rw [upd_same, upd_ne _ _ (Ne.symm hij)]; exact hp j k he
    · by_cases h2 : j = t
      · subst h2
        rw [upd_same, upd_ne _ _ hij]; exact hc i k he
      · rw [upd_ne _ _ h1, upd_ne _ _ h2]
        obtain ⟨e1, e2⟩ := ho i j k he h1 h2
        rw [e1, e2]; exact hi.edge i j k he

/-- A step of thread `t` without a store. -/
theorem Inv.silent {s : St n} (hi : Inv s) (t : Fin n) (x : Th) (hl : Loc n t x)
    (hp : ∀ (j : Fin n) k, Edge n t j k → (W x k ≤ W (s.th t) k ∨ W x k ≤ A (s.th j)) ∧ R x k = R (s.th t) k)
    (hc : ∀ (i : Fin n) k, Edge n i t k → A x = A (s.th t) ∧ (Q x ≤ Q (s.th t) ∨ Q x ≤ R (s.th i) k)) :
    Inv { s with th := upd s.th t x } := by
  refine hi.set t x s.flag hl ?_ ?_ (fun _ _ _ _ _ _ => ⟨rfl, rfl⟩)
  · intro j k he
    have h := hi.edge t j k he
    obtain ⟨h1, h2⟩ := hp j k he
    exact ⟨by have := h.wa; omega, h.fa, by rw [h2]; exact h.qr, by rw [h2]; exact h.fr⟩
  · intro i k he
    have h := hi.edge i t k he
    obtain ⟨h1, h2⟩ := hc i k he
    exact ⟨by rw [h1]; exact h.wa, by rw [h1]; exact h.fa, by have := h.qr; omega, h.fr⟩

/-- The winner `t` stores the release flag of its opponent of round `k`. -/
theorem Inv.release {s : St n} (hi : Inv s) (t : Fin n) (x : Th) {j : Fin n} {k : Nat} (he : Edge n t j k)
    (hl : Loc n t x) (hr : R (s.th t) k = (s.th t).r) (hr' : R x k = (s.th t).r + 1)
    (hw : ∀ (j : Fin n) m, Edge n t j m → W x m = W (s.th t) m)
    (hm : ∀ (j : Fin n) m, Edge n t j m → m ≠ k → R x m = R (s.th t) m)
    (hc : ∀ (i : Fin n) m, Edge n i t m → A x = A (s.th t) ∧ Q x = Q (s.th t)) :
    Inv { flag := setFlag s.flag (t + 2 ^ (k - 1)) k (s.th t).sense, th := upd s.th t x } := by
  have hje := he.je
  have hsn := (hi.loc t).sns
  have hcell : ∀ (i' : Fin n) (k' : Nat), (i' : Nat) % 2 ^ k' = 0 → 1 ≤ k' → ¬ ((i' : Nat) = t + 2 ^ (k - 1) ∧ k' = k) := by
    rintro i' k' h0 h1 ⟨e1, rfl⟩
    have := he.jm
    rw [hje, ← e1, h0] at this
    have := Nat.two_pow_pos (k' - 1); omega
  refine hi.set t x _ hl ?_ ?_ ?_
  · intro j' k' he'
    have h := hi.edge t j' k' he'
    have hfa : setFlag s.flag (t + 2 ^ (k - 1)) k (s.th t).sense t k' = s.flag t k' := by
      simp only [setFlag]; rw [if_neg (hcell t k' he'.im he'.k1)]
    rw [hfa, hw j' k' he']
    by_cases hk : k' = k
    · subst hk
      have hj' : (j' : Nat) = t + 2 ^ (k' - 1) := he'.je
      refine ⟨h.wa, h.fa, ?_, ?_⟩
      · have := h.qr; rw [hr]at this; rw [hr']; omega
      · simp only [setFlag]; rw [if_pos ⟨hj', trivial⟩, hr', odd_succ, hsn]
    · refine ⟨h.wa, h.fa, by rw [hm j' k' he' hk]; exact h.qr, ?_⟩
      simp only [setFlag]; rw [if_neg (fun hh => hk hh.2), hm j' k' he' hk]; exact h.fr
  · intro i k' he'
    have h := hi.edge i t k' he'
    obtain ⟨e1, e2⟩ := hc i k' he'
    have hfa : setFlag s.flag (t + 2 ^ (k - 1)) k (s.th t).sense i k' = s.flag i k' := by
      simp only [setFlag]; rw [if_neg (hcell i k' he'.im he'.k1)]
    have hfr : setFlag s.flag (t + 2 ^ (k - 1)) k (s.th t).sense t k' = s.flag t k' := by
      simp only [setFlag]; rw [if_neg]; rintro ⟨e, _⟩
      have := Nat.two_pow_pos (k - 1); omega
    rw [hfa, hfr, e1, e2]; exact h
  · intro i j' k' he' h1 h2
    constructor
    · simp only [setFlag]; rw [if_neg (hcell i k' he'.im he'.k1)]
    · simp only [setFlag]; rw [if_neg]
      rintro ⟨e, rfl⟩
      have : (j' : Nat) = j := by omega
      have := (he'.uniq (show Edge n t j' k' from this ▸ he)).2
      exact h1 (Fin.ext this)

theorem inv_step (hn : n ≤ 2 ^ 31) (hsz : size n ≠ 1) {s s' : St n} {a : Act n} (hi : Inv s)
    (hs : step s a = some s') : Inv s' := by
  cases a <;> simp only [step] at hs
  case call t =>
    rw [if_neg hsz] at hs
    split at hs
    case isFalse => cases hs
    rename_i hp
    cases hs
    have hl := hi.loc t
    have he := hl.er
    simp only [hp, if_true] at he
    have hs2 : 1 < size n := by unfold size at *; omega
    refine hi.silent t _ ?_ ?_ ?_
    · constructor <;> simp
      · exact he
      · exact hl.sns
      · exact ⟨hs2, Nat.mod_one _⟩
    · intro j k hk; have := hk.k1; simp [W, R, hp]; left; split <;> omega
    · intro i k hk; simp [A, Q, hp]
  case run t =>
    have hl := hi.loc t
    have he := hl.er
    have ht := t.isLt
    have h0 : 0 < n := by omega
    obtain ⟨hz1, hz2⟩ := size_spec h0 hn
    -- passing an arrival wait
    have hpass : ∀ (j : Fin n) k, Edge n t j k → W (s.th t) k = (s.th t).r → s.flag t k = (s.th t).sense →
        (s.th t).r + 1 ≤ A (s.th j) := by
      intro j k hk hw hf
      have h := hi.edge t j k hk
      have h1 := h.wa; rw [hw] at h1
      refine Nat.lt_of_le_of_ne h1 fun hc => ?_
      have h2 := h.fa
      rw [hf, hl.sns, ← hc] at h2
      cases ho : odd (s.th t).r <;> rw [ho] at h2 <;> cases h2
    cases hp : (s.th t).pc <;> simp only [hp] at hs
    case idle => cases hs
    case up k =>
      obtain ⟨k1, ks, kd⟩ := hl.up k hp
      simp only [hp] at he
      rcases role_cases hn ht k1 ks kd with ⟨hm, hr⟩ | ⟨hm, hlt, hr, hk2, h2k⟩ | ⟨hz, hlt, hr, h2k⟩ | ⟨hm, hge, hr, hk2, hne⟩
      · -- loser
        simp only [hr, opponent, if_true] at hs
        cases hs
        have hedge := edge_of_lose k1 ks ht hm
        have hlt' : (t : Nat) - 2 ^ (k - 1) < n := by omega
        let w : Fin n := ⟨t - 2 ^ (k - 1), hlt'⟩
        have hedge' : Edge n w t k := hedge
        have hW : ∀ (j : Fin n) m, Edge n t j m → W { s.th t with pc := .lwait k } m = W (s.th t) m := by
          intro j m hm'
          have := Edge.below k1 hm hm'
          simp [W, hp, this]
        have hR : ∀ m, R { s.th t with pc := .lwait k } m = R (s.th t) m := by intro m; simp [R, hp]
        have hQ : Q { s.th t with pc := .lwait k } = Q (s.th t) := by simp [Q, hp]
        have hA : A { s.th t with pc := .lwait k } = (s.th t).r + 1 := by simp [A]
        have hA0 : A (s.th t) = (s.th t).r := by simp [A, hp]
        -- the cell is nobody's release cell
        have hcell : ∀ (j : Fin n) (k' : Nat), (j : Nat) % 2 ^ k' = 2 ^ (k' - 1) → 1 ≤ k' →
            ¬ ((j : Nat) = t - 2 ^ (k - 1) ∧ k' = k) := by
          rintro j k' h2 h1 ⟨e1, rfl⟩
          have := hedge.im
          rw [← e1, h2] at this
          have := Nat.two_pow_pos (k' - 1); omega
        refine hi.set t _ _ ?_ ?_ ?_ ?_
        · constructor <;> simp
          · simpa using he
          · exact hl.sns
          · exact ⟨k1, ks, hm⟩
        · intro j m hm'
          have h := hi.edge t j m hm'
          have hbel := Edge.below k1 hm hm'
          rw [hW j m hm', hR]
          have e1 : setFlag s.flag (t - 2 ^ (k - 1)) k (s.th t).sense t m = s.flag t m := by
            simp only [setFlag]; rw [if_neg]; rintro ⟨_, e⟩; omega
          have e2 : setFlag s.flag (t - 2 ^ (k - 1)) k (s.th t).sense j m = s.flag j m := by
            simp only [setFlag]; rw [if_neg]; rintro ⟨_, e⟩; omega
          rw [e1, e2]; exact h
        · intro i m hm'
          obtain ⟨rfl, hiw⟩ := hm'.uniq hedge
          have h := hi.edge i t m hm'
          rw [hQ, hA]
          refine ⟨?_, ?_, h.qr, ?_⟩
          · have := h.wa; rw [hA0] at this; omega
          · simp only [setFlag]; rw [if_pos ⟨hiw, trivial⟩, odd_succ, hl.sns]
          · have hcc := hcell t m hm'.jm hm'.k1
            simp only [setFlag]; rw [if_neg (fun hh => hcc ⟨hh.1, rfl⟩)]; exact h.fr
        · intro i j m hm' h1 h2
          constructor
          · simp only [setFlag]; rw [if_neg]
            rintro ⟨e, rfl⟩
            have e1 := hm'.je
            have e2 := hedge.je
            exact h2 (Fin.ext (by omega))
          · simp only [setFlag]; rw [if_neg (hcell j m hm'.jm hm'.k1)]
      · -- winner
        simp only [hr] at hs
        split at hs
        · cases hs; exact hi
        · next hf =>
          simp only [ne_eq, Decidable.not_not] at hf
          cases hs
          refine hi.silent t _ ?_ ?_ ?_
          · constructor <;> simp
            · simpa using he
            · exact hl.sns
            · exact ⟨hk2, hm⟩
          · intro j m hm'
            refine ⟨?_, by simp [R, hp]⟩
            by_cases hmk : m = k
            · subst hmk
              right
              have := hpass j m hm' (by simp [W, hp]) hf
              simpa [W] using this
            · left; simp only [W, hp]; grind
          · intro i m hm'; simp [A, Q, hp]
      · -- champion
        simp only [hr] at hs
        split at hs
        · cases hs; exact hi
        · next hf =>
          simp only [ne_eq, Decidable.not_not] at hf
          cases hs
          refine hi.silent t _ ?_ ?_ ?_
          · constructor <;> simp
            · simpa using he
            · exact hl.sns
            · exact ⟨hz, k1, ks, h2k⟩
          · intro j m hm'
            refine ⟨?_, by simp [R, hp]⟩
            have hmk : m ≤ k := by
              by_contra hc
              have h1 := hm'.je; have h2 := hm'.jn
              have : 2 ^ k ≤ 2 ^ (m - 1) := Nat.pow_le_pow_right (by omega) (by omega)
              omega
            by_cases hmk' : m = k
            · subst hmk'
              right
              have := hpass j m hm' (by simp [W, hp]) hf
              simpa [W] using this
            · left; simp only [W, hp]; rw [if_pos (by omega)]
          · intro i m hm'
            exact absurd hz hm'.jpos
      · -- bye
        simp only [hr] at hs
        cases hs
        refine hi.silent t _ ?_ ?_ ?_
        · constructor <;> simp
          · simpa using he
          · exact hl.sns
          · exact ⟨hk2, hm⟩
        · intro j m hm'
          refine ⟨?_, by simp [R, hp]⟩
          have : m ≠ k := by
            rintro rfl
            have h1 := hm'.je; have h2 := hm'.jn; omega
          left; simp only [W, hp]; grind
        · intro i m hm'; simp [A, Q, hp]
    case cst k =>
      obtain ⟨hz, k1, ks, h2k⟩ := hl.cst k hp
      simp only [hp] at he
      have hnl : role n t k ≠ some .loser := by
        intro h
        rcases role_cases hn ht k1 ks (by rw [hz]; exact Nat.zero_mod _) with ⟨hm, hr⟩ | ⟨_, _, hr, _⟩ | ⟨_, _, hr, _⟩ | ⟨_, _, hr, _⟩
        · rw [hz, Nat.zero_mod] at hm
          have := Nat.two_pow_pos (k - 1); omega
        all_goals rw [hr] at h; cases h
      have hlt : (t : Nat) + 2 ^ (k - 1) < n := by
        rw [hz, Nat.zero_add]
        by_contra hc
        have := hz2 (k - 1) (by omega); omega
      simp only [opponent, if_neg hnl] at hs
      cases hs
      have hed : Edge n t (⟨t + 2 ^ (k - 1), hlt⟩ : Fin n) k := ⟨k1, ks, by rw [hz]; exact Nat.zero_mod _, hlt, rfl⟩
      refine hi.release t _ hed ?_ (by simp [R, hp]) ?_ ?_ ?_ ?_
      · constructor <;> simp
        · simpa using he
        · exact hl.sns
        · exact ⟨by omega, by rw [hz]; exact Nat.zero_mod _⟩
      · simp only [R]; rw [if_pos (by omega)]
      · intro j m hm'; simp [W, hp]
      · intro j m hm' hne
        have hmk : m ≤ k := by
          by_contra hc
          have h1 := hm'.je; have h2 := hm'.jn
          have : 2 ^ k ≤ 2 ^ (m - 1) := Nat.pow_le_pow_right (by omega) (by omega)
          omega
        simp only [R, hp]; rw [if_neg (by omega)]
      · intro i m hm'; exact absurd hz hm'.jpos
    case lwait k =>
      obtain ⟨k1, ks, hm⟩ := hl.lw k hp
      simp only [hp] at he
      split at hs
      · cases hs; exact hi
      · next hf =>
        simp only [ne_eq, Decidable.not_not] at hf
        cases hs
        have hd0 := (mod_half (m := k - 1) k1 hm).2 (by omega)
        refine hi.silent t _ ?_ ?_ ?_
        · constructor <;> simp
          · simpa using he
          · exact hl.sns
          · exact ⟨by omega, hd0⟩
        · intro j m hm'
          have := Edge.below k1 hm hm'
          refine ⟨.inl (by simp [W, hp]), ?_⟩
          simp only [R, hp]; rw [if_neg (by omega)]
        · intro i m hm'
          refine ⟨by simp [A, hp], .inr ?_⟩
          obtain ⟨rfl, -⟩ := hm'.uniq (edge_of_lose k1 ks ht hm)
          have h := hi.edge i t m hm'
          have h1 := h.qr
          rw [show Q (s.th t) = (s.th t).r by simp [Q, hp]] at h1
          show (s.th t).r + 1 ≤ _
          refine Nat.lt_of_le_of_ne h1 fun hc => ?_
          have h2 := h.fr
          rw [hf, hl.sns, ← hc] at h2
          cases ho : odd (s.th t).r <;> rw [ho] at h2 <;> cases h2
    case down k =>
      obtain ⟨ks, hm⟩ := hl.dn k hp
      simp only [hp] at he
      by_cases hk0 : k = 0
      · subst hk0
        have hr : role n t 0 = some .dropout := by
          simp only [role]; rw [if_neg (by omega)]; simp
        simp only [hr] at hs
        cases hs
        refine hi.silent t _ ?_ ?_ ?_
        · constructor <;> simp
          · simpa using he
          · rw [odd_succ, hl.sns]
        · intro j m hm'; have := hm'.k1
          refine ⟨.inl (by simp [W, hp]), ?_⟩
          simp only [R, hp]; rw [if_pos (by omega)]
        · intro i m hm'; simp [A, Q, hp]
      · have k1 : 1 ≤ k := by omega
        have hd1 : (t : Nat) % 2 ^ (k - 1) = 0 := mod_of_le hm (by omega)
        have hloc : Loc n t { s.th t with pc := .down (k - 1) } := by
          constructor <;> simp
          · simpa using he
          · exact hl.sns
          · exact ⟨by omega, hd1⟩
        have hp2 := Nat.two_pow_pos (k - 1)
        rcases role_cases hn ht k1 (by omega) hd1 with ⟨hm2, hr⟩ | ⟨-, hlt, hr, hk2, h2k⟩ | ⟨hz, hlt, hr, h2k⟩ | ⟨-, hge, hr, hk2, hne⟩
        · omega
        · have hnl : role n t k ≠ some .loser := by rw [hr]; simp
          simp only [hr, opponent] at hs
          rw [if_neg (by simp)] at hs
          cases hs
          have hed : Edge n t (⟨t + 2 ^ (k - 1), hlt⟩ : Fin n) k := ⟨k1, by omega, hm, hlt, rfl⟩
          refine hi.release t _ hed hloc (by simp [R, hp]) ?_ ?_ ?_ ?_
          · simp only [R]; rw [if_pos (by omega)]
          · intro j m hm'; simp [W, hp]
          · intro j m hm' hne; simp only [R, hp]; grind
          · intro i m hm'; simp [A, Q, hp]
        · exfalso
          have := hz2 k h2k
          omega
        · simp only [hr] at hs
          cases hs
          refine hi.silent t _ hloc ?_ ?_
          · intro j m hm'
            have : m ≠ k := by
              rintro rfl
              have h1 := hm'.je; have h2 := hm'.jn; omega
            refine ⟨.inl (by simp [W, hp]), ?_⟩
            simp only [R, hp]; grind
          · intro i m hm'; simp [A, Q, hp]

theorem inv_of_reach (hn : n ≤ 2 ^ 31) (hsz : size n ≠ 1) {s : St n} (h : (sys n).Reach s) : Inv s := by
  refine h.invariant (I := Inv) ?_ (fun _ _ _ hi hs => inv_step hn hsz hi hs)
  rintro s rfl
  constructor
  · intro t; constructor <;> simp [initSt, odd]
  · intro i j k he; constructor <;> simp [initSt, W, A, Q, R, odd]

/-! ## Consequences -/

theorem r_le_Q (x : Th) : x.r ≤ Q x := by unfold Q; omega
theorem R_le_Q {n i : Nat} {x : Th} (k : Nat) : R x k ≤ Q x := by
  unfold R Q; cases x.pc <;> simp only <;> grind
theorem A_le_W {x : Th} {k : Nat} : A x ≤ W x k := by
  unfold A W; cases x.pc <;> simp only <;> grind
theorem Q_le_W {x : Th} {k : Nat} : Q x ≤ W x k := by
  unfold Q W; cases x.pc <;> simp only <;> grind
theorem R_le_W {x : Th} {k : Nat} : R x k ≤ W x k := Nat.le_trans (R_le_Q (n := 0) (i := 0) k) Q_le_W

/-- Every thread but the first loses in some round. -/
theorem exists_edge (hn : n ≤ 2 ^ 31) {j : Nat} (hj : j < n) (h0 : j ≠ 0) : ∃ i k, Edge n i j k ∧ i < j := by
  obtain ⟨hz1, -⟩ := size_spec (by omega) hn
  have hex : ∃ k, j % 2 ^ k ≠ 0 := ⟨size n - 1, by rw [Nat.mod_eq_of_lt (by omega)]; exact h0⟩
  classical
  have hk := Nat.find_spec hex
  have hmin := fun m => Nat.find_min hex (m := m)
  generalize Nat.find hex = k at hk hmin
  have k1 : 1 ≤ k := by
    rcases Nat.eq_zero_or_pos k with rfl | h
    · simp at hk; omega
    · exact h
  have hkm : j % 2 ^ (k - 1) = 0 := by
    have := hmin (k - 1) (by omega); simpa using this
  have hks : k < size n := by
    by_contra hc
    have : ¬ j % 2 ^ (size n - 1) ≠ 0 := hmin (size n - 1) (by omega)
    rw [Nat.mod_eq_of_lt (by omega)] at this
    omega
  have hl := (mod_cases k1 hkm).resolve_left hk
  have hp := Nat.two_pow_pos (k - 1)
  have he := edge_of_lose k1 hks hj hl
  exact ⟨_, k, he, by have := he.je; omega⟩

theorem Q_le_root (hn : n ≤ 2 ^ 31) {s : St n} (hi : Inv s) (h0 : 0 < n) :
    ∀ j (hj : j < n), Q (s.th ⟨j, hj⟩) ≤ Q (s.th ⟨0, h0⟩) := by
  intro j
  induction j using Nat.strongRecOn with
  | _ j ih =>
    intro hj
    by_cases hz : j = 0
    · subst hz; exact Nat.le_refl _
    · obtain ⟨i, k, he, hlt⟩ := exists_edge hn hj hz
      have := (hi.edge ⟨i, by omega⟩ ⟨j, hj⟩ k he).qr
      have h2 := ih i hlt (by omega)
      exact Nat.le_trans this (Nat.le_trans (R_le_Q (n := 0) (i := 0) k) h2)

theorem root_le_A (hn : n ≤ 2 ^ 31) {s : St n} (hi : Inv s) (h0 : 0 < n) :
    ∀ j (hj : j < n), j ≠ 0 → Q (s.th ⟨0, h0⟩) ≤ A (s.th ⟨j, hj⟩) := by
  intro j
  induction j using Nat.strongRecOn with
  | _ j ih =>
    intro hj hz
    obtain ⟨i, k, he, hlt⟩ := exists_edge hn hj hz
    have h1 := (hi.edge ⟨i, by omega⟩ ⟨j, hj⟩ k he).wa
    by_cases hi0 : i = 0
    · subst hi0
      exact Nat.le_trans Q_le_W h1
    · exact Nat.le_trans (ih i hlt (by omega) hi0) (Nat.le_trans A_le_W h1)

/-! ## Properties -/

/-- C26: nobody has returned from its k-th call before everybody has made theirs. -/
theorem phase_separation (hn : n ≤ 2 ^ 31) {s : St n} (h : (sys n).Reach s) :
    PhaseSep (fun t => (s.th t).e) (fun t => (s.th t).r) := by
  intro t u
  have h0 : 0 < n := Nat.zero_lt_of_lt t.isLt
  simp only
  by_cases hsz : size n = 1
  · -- a single thread
    have hz := (size_spec h0 hn).1
    rw [hsz] at hz
    have htu : t = u := by apply Fin.ext; have := t.isLt; have := u.isLt; omega
    subst htu
    have : ∀ t, (s.th t).pc = .idle ∧ (s.th t).r ≤ (s.th t).e := by
      refine h.invariant (I := fun s => ∀ t, (s.th t).pc = .idle ∧ (s.th t).r ≤ (s.th t).e) ?_ ?_
      · rintro s rfl t; simp [initSt]
      · intro s a s' ih hs
        cases a <;> simp only [sys, step] at hs
        case call v =>
          rw [if_pos (ih v).1, if_pos hsz] at hs
          cases hs
          intro w
          by_cases hw : w = v
          · subst hw; simp only [upd_same]; have := ih w; exact ⟨this.1, by omega⟩
          · simp only [upd_ne _ _ hw]; exact ih w
        case run v => rw [(ih v).1] at hs; cases hs
    exact (this t).2
  · have hi := inv_of_reach hn hsz h
    have h1 := Q_le_root hn hi h0 t t.isLt
    refine Nat.le_trans (r_le_Q _) (Nat.le_trans h1 ?_)
    have hA : ∀ x : Fin n, A (s.th x) ≤ (s.th x).e ∧ Q (s.th x) ≤ (s.th x).e := by
      intro x; rw [(hi.loc x).er]; unfold A Q; cases (s.th x).pc <;> simp
    by_cases hu : (u : Nat) = 0
    · have : (⟨0, h0⟩ : Fin n) = u := Fin.ext hu.symm
      rw [this]; exact (hA u).2
    · exact Nat.le_trans (root_le_A hn hi h0 u u.isLt hu) (hA u).1

/-- C26: nobody stays blocked.  If everybody is inside a call, some thread can take a step that is
not a spin. -/
theorem no_deadlock (hn : n ≤ 2 ^ 31) (h0 : 0 < n) {s : St n} (h : (sys n).Reach s)
    (hq : ∀ t, (s.th t).pc ≠ .idle) :
    ∃ t s', (sys n).step s (.run t) = some s' ∧ (s'.th t).pc ≠ (s.th t).pc := by
  by_cases hsz : size n = 1
  · exfalso
    have : ∀ t, (s.th t).pc = .idle := by
      refine h.invariant (I := fun s => ∀ t, (s.th t).pc = .idle) ?_ ?_
      · rintro s rfl t; simp [initSt]
      · intro s a s' ih hs
        cases a <;> simp only [sys, step] at hs
        case call v =>
          rw [if_pos (ih v), if_pos hsz] at hs
          cases hs
          intro w
          by_cases hw : w = v
          · subst hw; simp only [upd_same]; exact ih w
          · simp only [upd_ne _ _ hw]; exact ih w
        case run v => rw [ih v] at hs; cases hs
    exact hq ⟨0, h0⟩ (this _)
  have hi := inv_of_reach hn hsz h
  by_contra hno
  have hstuck : ∀ t s', (sys n).step s (.run t) = some s' → (s'.th t).pc = (s.th t).pc := by
    intro t s' h1; by_contra h2; exact hno ⟨t, s', h1, h2⟩
  have he1 : ∀ t, (s.th t).e = (s.th t).r + 1 := by
    intro t; rw [(hi.loc t).er, if_neg (hq t)]
  have hne : ∀ c, odd (c + 1) = !odd c := odd_succ
  -- a blocked thread is at an arrival wait or at a release wait whose flag is not set
  have hkind : ∀ t : Fin n, (∃ (j : Fin n) (k : Nat), Edge n t j k ∧ (s.th t).pc = .up k ∧ s.flag t k ≠ (s.th t).sense) ∨
      (∃ k, (s.th t).pc = .lwait k ∧ s.flag t k ≠ (s.th t).sense) := by
    intro t
    have hst := hstuck t
    have hl := hi.loc t
    simp only [sys, step] at hst
    cases hp : (s.th t).pc <;> simp only [hp] at hst
    case idle => exact absurd hp (hq t)
    case up k =>
      obtain ⟨k1, ks, kd⟩ := hl.up k hp
      rcases role_cases hn t.isLt k1 ks kd with ⟨hm, hr⟩ | ⟨hm, hlt, hr, hk2, h2k⟩ | ⟨hz, hlt, hr, h2k⟩ | ⟨hm, hge, hr, hk2, hne⟩ <;>
        simp only [hr] at hst
      · have := hst _ rfl; simp at this
      · left
        refine ⟨⟨t + 2 ^ (k - 1), hlt⟩, k, ⟨k1, ks, hm, hlt, rfl⟩, rfl, ?_⟩
        intro hf; rw [if_neg (by simpa using hf)] at hst
        have := hst _ rfl; simp at this
      · left
        refine ⟨⟨t + 2 ^ (k - 1), hlt⟩, k, ⟨k1, ks, by rw [hz]; exact Nat.zero_mod _, hlt, rfl⟩, rfl, ?_⟩
        intro hf; rw [if_neg (by simpa using hf)] at hst
        have := hst _ rfl; simp at this
      · have := hst _ rfl; simp at this
    case cst k => have := hst _ rfl; simp at this
    case lwait k =>
      right
      refine ⟨k, rfl, ?_⟩
      intro hf; rw [if_neg (by simpa using hf)] at hst
      have := hst _ rfl; simp at this
    case down k =>
      obtain ⟨ks, hm⟩ := hl.dn k hp
      by_cases hk0 : k = 0
      · subst hk0
        have hr : role n t 0 = some .dropout := by
          simp only [role]; rw [if_neg (by omega)]; simp
        simp only [hr] at hst
        have := hst _ rfl; simp at this
      · have k1 : 1 ≤ k := by omega
        rcases role_cases hn t.isLt k1 (by omega) (mod_of_le hm (by omega)) with ⟨hm, hr⟩ | ⟨hm, hlt, hr, hk2, h2k⟩ | ⟨hz, hlt, hr, h2k⟩ | ⟨hm, hge, hr, hk2, hne⟩ <;>
          simp only [hr] at hst <;> have := hst _ rfl <;> simp at this <;> omega
  -- a thread blocked at an arrival wait has an opponent of the same call that is on its way up
  have hup : ∀ (t j : Fin n) (k : Nat), Edge n t j k → (s.th t).pc = .up k → s.flag t k ≠ (s.th t).sense →
      A (s.th j) = (s.th t).r := by
    intro t j k hedge hp hf
    have h := hi.edge t j k hedge
    have h1 := h.wa
    rw [show W (s.th t) k = (s.th t).r by simp [W, hp]] at h1
    have h2 : A (s.th j) ≤ (s.th j).r + 1 := by unfold A; cases (s.th j).pc <;> simp
    have h3 := Nat.le_trans (r_le_Q (s.th j)) h.qr
    rw [show R (s.th t) k = (s.th t).r by simp [R, hp]] at h3
    by_contra hc
    have h4 : A (s.th j) = (s.th t).r + 1 := by omega
    apply hf
    rw [h.fa, h4, hne, (hi.loc t).sns]
  have hlw : ∀ (i t : Fin n) (k : Nat), Edge n i t k → (s.th t).pc = .lwait k → s.flag t k ≠ (s.th t).sense →
      R (s.th i) k = (s.th t).r := by
    intro i t k hedge hp hf
    have h := hi.edge i t k hedge
    have h1 := h.qr
    rw [show Q (s.th t) = (s.th t).r by simp [Q, hp]] at h1
    have h2 : R (s.th i) k ≤ A (s.th t) := Nat.le_trans R_le_W h.wa
    rw [show A (s.th t) = (s.th t).r + 1 by simp [A, hp]] at h2
    by_contra hc
    have h4 : R (s.th i) k = (s.th t).r + 1 := by omega
    apply hf
    rw [h.fr, h4, hne, (hi.loc t).sns]
  -- least number of returns
  have : Nonempty (Fin n) := ⟨⟨0, h0⟩⟩
  obtain ⟨m, hmin⟩ := Finite.exists_min (fun t => (s.th t).r)
  -- no arrival wait in that call: look at the last such thread
  have hnoup : ∀ t k, (s.th t).pc = .up k → (s.th t).r ≠ (s.th m).r := by
    suffices H : ∀ d (t : Fin n) k, n - t ≤ d → (s.th t).pc = .up k → (s.th t).r ≠ (s.th m).r from
      fun t k => H n t k (by omega)
    intro d
    induction d with
    | zero => intro t k hd; have := t.isLt; omega
    | succ d ih =>
      intro t k hd hp hr
      rcases hkind t with ⟨j, k', hedge, hp', hf⟩ | ⟨k', hp', hf⟩
      · have hA := hup t j k' hedge hp' hf
        have hjlt : (t : Nat) < j := by
          have := hedge.je; have := Nat.two_pow_pos (k' - 1); omega
        have hjr : (s.th j).r = (s.th m).r := by
          have h1 := hmin j
          have h2 : (s.th j).r ≤ A (s.th j) := by unfold A; omega
          omega
        rcases hkind j with ⟨j', k'', hedge', hpj, hfj⟩ | ⟨k'', hpj, hfj⟩
        · exact ih j k'' (by omega) hpj hjr
        · have : A (s.th j) = (s.th j).r + 1 := by simp [A, hpj]
          omega
      · rw [hp] at hp'; cases hp'
  -- so the least advanced threads wait for their release: look at the first
  have hnolw : ∀ d (t : Fin n), (t : Nat) ≤ d → (s.th t).r ≠ (s.th m).r := by
    intro d
    induction d with
    | zero =>
      intro t hd hr
      have ht0 : (t : Nat) = 0 := by omega
      rcases hkind t with ⟨j, k', hedge, hp', hf⟩ | ⟨k', hp', hf⟩
      · exact hnoup t k' hp' hr
      · obtain ⟨k1, ks, hm⟩ := (hi.loc t).lw k' hp'
        rw [ht0, Nat.zero_mod] at hm
        have := Nat.two_pow_pos (k' - 1); omega
    | succ d ih =>
      intro t hd hr
      rcases hkind t with ⟨j, k', hedge, hp', hf⟩ | ⟨k', hp', hf⟩
      · exact hnoup t k' hp' hr
      · obtain ⟨k1, ks, hm⟩ := (hi.loc t).lw k' hp'
        have hedge := edge_of_lose k1 ks t.isLt hm
        have hlt : (t : Nat) - 2 ^ (k' - 1) < t := by
          have := hedge.je; have := Nat.two_pow_pos (k' - 1); omega
        let i : Fin n := ⟨t - 2 ^ (k' - 1), by omega⟩
        have hR := hlw i t k' hedge hp' hf
        have h1 := hmin i
        have h2 : (s.th i).r ≤ R (s.th i) k' := by unfold R; omega
        exact ih i (show (t : Nat) - 2 ^ (k' - 1) ≤ d by omega) (by omega)
  exact hnolw n m (by omega) rfl

/-- Five threads: thread 4 has a bye in the first two rounds and loses to the champion; after its release
thread 0 is already in the second call. -/
example : ((sys 5).run (initSt 5) ([.call 0, .call 1, .call 2, .call 3, .call 4] ++
    [.run 1, .run 3, .run 4, .run 4, .run 4, .run 2, .run 2, .run 0, .run 0, .run 0, .run 0, .run 0, .run 0, .run 0,
      .call 0])).map
    (fun s => (size 5, (s.th 0).r, (s.th 0).pc, (s.th 4).r, (s.th 4).pc)) =
    some (4, 1, .up 1, 0, .lwait 3) := by decide

end Verif.Barrier.Tournament
