import Verif.Barrier.Dissemination
import Mathlib.Data.Nat.Bitwise
import Mathlib.Data.Nat.ModEq
import Mathlib.Data.Fintype.EquivFin
import Mathlib.Data.Fintype.Card
import Mathlib.Data.Fintype.Lattice

/-!
# `ck_barrier_dissemination`: phase separation, no lost wake-up (C25)
-/

set_option linter.unusedVariables false

namespace Verif.Barrier.Dissemination

open Verif Verif.Spec

variable {n : Nat}

/-! ## The partner function -/

theorem pow_of_and {n : Nat} (h0 : 0 < n) (h : n &&& (n - 1) = 0) : ∃ m, n = 2 ^ m := by
  refine ⟨Nat.log2 n, ?_⟩
  by_contra hne
  have h1 : 2 ^ Nat.log2 n ≤ n := Nat.log2_self_le (by omega)
  have hb1 : n.testBit (Nat.log2 n) = true := Nat.testBit_log2 (by omega)
  have hb2 : (n - 1).testBit (Nat.log2 n) = true := by
    have hl : Nat.log2 (n - 1) = Nat.log2 n := by
      have hn : n - 1 ≠ 0 := by
        intro e
        obtain rfl : n = 1 := by omega
        exact hne (by decide)
      have a1 : Nat.log2 n ≤ Nat.log2 (n - 1) := (Nat.le_log2 hn).2 (by omega)
      have a2 : Nat.log2 (n - 1) < Nat.log2 n + 1 :=
        (Nat.log2_lt hn).2 (by have := Nat.lt_log2_self (n := n); omega)
      omega
    rw [← hl]; apply Nat.testBit_log2
    intro e
    obtain rfl : n = 1 := by omega
    exact hne (by decide)
  have := congrArg (fun x => x.testBit (Nat.log2 n)) h
  simp [Nat.testBit_and, hb1, hb2] at this

theorem pidx_eq {n i k : Nat} (h0 : 0 < n) : pidx n i k = (i + 2 ^ k) % n := by
  unfold pidx; split
  · next h =>
    obtain ⟨m, rfl⟩ := pow_of_and h0 h
    rw [Nat.and_two_pow_sub_one_eq_mod]
  · rfl

theorem partner_inj {i j : Fin n} {k : Nat} (h : partner i k = partner j k) : i = j := by
  have h0 : 0 < n := Nat.zero_lt_of_lt i.isLt
  have := congrArg Fin.val h
  simp only [partner, pidx_eq h0] at this
  have h2 : (i : Nat) ≡ j [MOD n] := Nat.ModEq.add_right_cancel' _ this
  apply Fin.ext
  rw [Nat.ModEq, Nat.mod_eq_of_lt i.isLt, Nat.mod_eq_of_lt j.isLt] at h2
  exact h2

theorem partner_surj (j : Fin n) (k : Nat) : ∃ i, partner i k = j := by
  exact (Finite.injective_iff_surjective.1 (fun _ _ h => partner_inj (k := k) h)) j

/-- `n` threads fit in `size n` rounds. -/
theorem size_le (h0 : 0 < n) (h : n ≤ 2 ^ 31) : n ≤ 2 ^ size n := by
  have hv : (BitVec.ofNat 32 n).toNat = n := by simp; omega
  have := (Internal.log_power2 (BitVec.ofNat 32 n) (by omega) (by omega)).1
  rwa [hv] at this

/-! ## Progress counters of a thread -/

/-- Completed stores in round `k`. -/
def S (x : Th) (k : Nat) : Nat :=
  match x.pc with
  | .idle => x.r
  | .sto m => x.r + if k < m then 1 else 0
  | .wait m => x.r + if k ≤ m then 1 else 0

/-- Completed waits in round `k`. -/
def D (x : Th) (k : Nat) : Nat :=
  match x.pc with
  | .idle => x.r
  | .sto m => x.r + if k < m then 1 else 0
  | .wait m => x.r + if k < m then 1 else 0

/-- Value of the flag of parity `p` after `c` stores of its writer. -/
def fv (p : Bool) (c : Nat) : Bool := decide (((c + (1 - p.toNat)) / 2) % 2 = 1)

/-- Sense and parity in call number `c` (from 0). -/
def sn (c : Nat) : Bool := decide ((c / 2) % 2 = 0)
def pr (c : Nat) : Bool := decide (c % 2 = 1)

theorem fv_same (c : Nat) : fv (pr c) c ≠ sn c := by
  unfold fv sn pr
  rcases Nat.mod_two_eq_zero_or_one c with h | h <;> simp [h] <;> omega

theorem fv_succ (c : Nat) : fv (pr c) (c + 1) = sn c := by
  unfold fv sn pr
  rcases Nat.mod_two_eq_zero_or_one c with h | h <;> simp [h] <;> omega

theorem fv_succ2 (c : Nat) : fv (pr c) (c + 2) = sn c := by
  unfold fv sn pr
  rcases Nat.mod_two_eq_zero_or_one c with h | h <;> simp [h] <;> omega

theorem fv_other (c : Nat) (p : Bool) (h : p ≠ pr c) : fv p (c + 1) = fv p c := by
  unfold fv pr at *
  rcases Nat.mod_two_eq_zero_or_one c with h' | h' <;> simp [h'] at h <;> subst h <;> simp <;> omega

structure Inv (s : St n) : Prop where
  er : ∀ t, (s.th t).e = (s.th t).r + if (s.th t).pc = .idle then 0 else 1
  sns : ∀ t, (s.th t).sense = sn (s.th t).r
  par : ∀ t, (s.th t).parity = pr (s.th t).r
  bs : ∀ t k, (s.th t).pc = .sto k → k ≤ size n
  bw : ∀ t k, (s.th t).pc = .wait k → k < size n
  flag : ∀ i k p, k < size n → s.flags p k (partner i k) = fv p (S (s.th i) k)
  ord : ∀ i k, k < size n → D (s.th (partner i k)) k ≤ S (s.th i) k

theorem S_le (x : Th) (k : Nat) : x.r ≤ S x k := by
  unfold S; split <;> omega

theorem D_ge (x : Th) (k : Nat) : x.r ≤ D x k := by
  unfold D; split <;> omega

theorem D_le_S (x : Th) (k : Nat) : D x k ≤ S x k := by
  unfold S D; cases x.pc <;> simp only <;> grind

theorem D_mono (x : Th) (k : Nat) : D x (k + 1) ≤ D x k := by
  unfold D; cases x.pc <;> simp only <;> grind

theorem S_le_D (x : Th) (k : Nat) : S x (k + 1) ≤ D x k := by
  unfold S D; cases x.pc <;> simp only <;> grind

/-- A step that changes only thread `t`, does not lower its counters below what they were, and
lowers none. -/
theorem Inv.silent {s : St n} (hi : Inv s) (t : Fin n) (x : Th)
    (h1 : x.e = x.r + if x.pc = .idle then 0 else 1) (h2 : x.sense = sn x.r) (h3 : x.parity = pr x.r)
    (h4 : ∀ k, x.pc = .sto k → k ≤ size n) (h5 : ∀ k, x.pc = .wait k → k < size n)
    (h6 : ∀ k, k < size n → S x k = S (s.th t) k)
    (h7 : ∀ k, k < size n → D x k ≤ D (s.th t) k ∨ ∀ i, partner i k = t → D x k ≤ S (s.th i) k) :
    Inv { s with th := upd s.th t x } := by
  constructor <;> simp only
  case er => intro u; by_cases hu : u = t <;> simp only [upd_apply, hu, if_true, if_false]; exact h1; exact hi.er u
  case sns => intro u; by_cases hu : u = t <;> simp only [upd_apply, hu, if_true, if_false]; exact h2; exact hi.sns u
  case par => intro u; by_cases hu : u = t <;> simp only [upd_apply, hu, if_true, if_false]; exact h3; exact hi.par u
  case bs => intro u k; by_cases hu : u = t <;> simp only [upd_apply, hu, if_true, if_false]; exact h4 k; exact hi.bs u k
  case bw => intro u k; by_cases hu : u = t <;> simp only [upd_apply, hu, if_true, if_false]; exact h5 k; exact hi.bw u k
  case flag =>
    intro i k p hk
    rw [hi.flag i k p hk]
    by_cases hu : i = t
    · subst hu; simp only [upd_same]; rw [h6 k hk]
    · rw [upd_ne _ _ hu]
  case ord =>
    intro i k hk
    have hS : S (upd s.th t x i) k = S (s.th i) k := by
      by_cases hu : i = t
      · subst hu; simp only [upd_same]; exact h6 k hk
      · rw [upd_ne _ _ hu]
    rw [hS]
    by_cases hu : partner i k = t
    · rw [hu, upd_same]
      rcases h7 k hk with h | h
      · have := hi.ord i k hk; rw [hu] at this; omega
      · exact h i hu
    · rw [upd_ne _ _ hu]; exact hi.ord i k hk

theorem inv_step {s s' : St n} {a : Act n} (hi : Inv s) (hs : step s a = some s') : Inv s' := by
  cases a <;> simp only [step] at hs
  case call t =>
    step_split hs; next hp =>
    have he := hi.er t
    simp only [hp, if_true] at he
    refine hi.silent t _ ?_ (hi.sns t) (hi.par t) ?_ ?_ ?_ ?_
    · simp [he]
    · simp
    · simp
    · intro k hk; simp [S, hp]
    · intro k hk; left; simp [D, hp]
  case run t =>
    cases hp : (s.th t).pc <;> simp only [hp] at hs
    case idle => cases hs
    case sto k =>
      have he := hi.er t
      simp only [hp] at he
      split at hs
      · next hk =>
        cases hs
        -- the store of round k
        have hS : ∀ m, m ≠ k → S { s.th t with pc := .wait k } m = S (s.th t) m := by
          intro m hm; simp only [S, hp]; grind
        have hSk : S { s.th t with pc := .wait k } k = (s.th t).r + 1 := by simp [S]
        have hSo : S (s.th t) k = (s.th t).r := by simp [S, hp]
        have hD : ∀ m, D { s.th t with pc := .wait k } m = D (s.th t) m := by
          intro m; simp only [D, hp]
        constructor <;> simp only
        case er =>
          intro u; by_cases hu : u = t <;> simp only [upd_apply, hu, if_true, if_false]
          · simpa using he
          · exact hi.er u
        case sns =>
          intro u; by_cases hu : u = t <;> simp only [upd_apply, hu, if_true, if_false]
          · exact hi.sns t
          · exact hi.sns u
        case par =>
          intro u; by_cases hu : u = t <;> simp only [upd_apply, hu, if_true, if_false]
          · exact hi.par t
          · exact hi.par u
        case bs =>
          intro u m; by_cases hu : u = t <;> simp only [upd_apply, hu, if_true, if_false]
          · simp
          · exact hi.bs u m
        case bw =>
          intro u m; by_cases hu : u = t <;> simp only [upd_apply, hu, if_true, if_false]
          · simp only [PC.wait.injEq]; rintro rfl; exact hk
          · exact hi.bw u m
        case flag =>
          intro i m p hm
          simp only [setFlag]
          by_cases hmk : m = k
          · subst hmk
            by_cases hu : i = t
            · subst hu
              simp only [upd_same, hSk]
              by_cases hpp : p = (s.th i).parity
              · rw [if_pos ⟨hpp, trivial, trivial⟩, hpp, hi.par i, fv_succ, hi.sns i]
              · rw [if_neg (fun h => hpp h.1), hi.flag i m p hm, hSo]
                rw [hi.par i] at hpp
                rw [fv_other _ _ hpp]
            · rw [if_neg (fun h => hu (partner_inj h.2.2)), upd_ne _ _ hu]
              exact hi.flag i m p hm
          · rw [if_neg (fun h => hmk h.2.1), hi.flag i m p hm]
            by_cases hu : i = t
            · subst hu; rw [upd_same, hS m hmk]
            · rw [upd_ne _ _ hu]
        case ord =>
          intro i m hm
          have hD' : ∀ j, D (upd s.th t { s.th t with pc := .wait k } j) m = D (s.th j) m := by
            intro j
            by_cases hu : j = t
            · subst hu; rw [upd_same, hD]
            · rw [upd_ne _ _ hu]
          rw [hD']
          refine Nat.le_trans (hi.ord i m hm) ?_
          by_cases hu : i = t
          · subst hu; rw [upd_same]
            by_cases hmk : m = k
            · subst hmk; rw [hSk, hSo]; omega
            · rw [hS m hmk]
          · rw [upd_ne _ _ hu]
      · next hk =>
        have hk' := hi.bs t k hp
        cases hs
        refine hi.silent t _ ?_ ?_ ?_ ?_ ?_ ?_ ?_
        · simpa using he
        · simp only [hi.par t, hi.sns t]
          unfold pr sn
          rcases Nat.mod_two_eq_zero_or_one (s.th t).r with h | h <;> simp [h] <;> grind
        · simp only [hi.par t]
          unfold pr
          rcases Nat.mod_two_eq_zero_or_one (s.th t).r with h | h <;> simp [h] <;> omega
        · simp
        · simp
        · intro m hm; simp only [S, hp]; rw [if_pos (by omega)]
        · intro m hm; left; simp only [D, hp]; rw [if_pos (by omega)]
    case wait k =>
      split at hs
      · cases hs; exact hi
      · next hf =>
        simp only [ne_eq, Decidable.not_not] at hf
        have hk := hi.bw t k hp
        have he := hi.er t
        simp only [hp] at he
        cases hs
        refine hi.silent t _ ?_ (hi.sns t) (hi.par t) ?_ ?_ ?_ ?_
        · simpa using he
        · simp only [PC.sto.injEq]; rintro m rfl; omega
        · simp
        · intro m hm; simp only [S, hp]; grind
        · intro m hm
          by_cases hmk : m = k
          · subst hmk
            right
            intro i hpi
            have h1 := hi.flag i m (s.th t).parity hk
            rw [hpi, hf, hi.sns t, hi.par t] at h1
            have h2 := hi.ord i m hk
            rw [hpi] at h2
            have h3 : D (s.th t) m = (s.th t).r := by simp [D, hp]
            have h4 : D { s.th t with pc := .sto (m + 1) } m = (s.th t).r + 1 := by simp [D]
            rw [h4]
            rw [h3] at h2
            refine Nat.lt_of_le_of_ne h2 fun hc => ?_
            rw [← hc] at h1
            exact fv_same _ h1.symm
          · left; simp only [D, hp]; grind

theorem inv_of_reach {s : St n} (h : (sys n).Reach s) : Inv s := by
  refine h.invariant (I := Inv) ?_ (fun _ _ _ hi hs => inv_step hi hs)
  rintro s rfl
  constructor <;> simp [initSt, S, D, sn, pr, fv]

/-- What a completed wait of round `k` implies about the `2 ^ (k + 1)` threads behind. -/
theorem chain {s : St n} (hi : Inv s) (h0 : 0 < n) :
    ∀ k, k < size n → ∀ (u : Fin n) (m : Nat) (t : Fin n), m < 2 ^ (k + 1) →
      (t : Nat) = (u + m) % n → D (s.th t) k ≤ (s.th u).e := by
  have hSe : ∀ x : Fin n, ∀ k, k < size n → S (s.th x) k ≤ (s.th x).e := by
    intro x k hk; rw [hi.er x]; unfold S; cases hp : (s.th x).pc <;> simp <;> split <;> omega
  have hp : ∀ (k : Nat) (v t : Fin n) (m : Nat), (t : Nat) = (v + 2 ^ k) % n → partner v k = t := by
    intro k v t m h; apply Fin.ext; simp only [partner, pidx_eq h0]; exact h.symm
  intro k
  induction k with
  | zero =>
    intro hk u m t hm ht
    obtain rfl | rfl : m = 0 ∨ m = 1 := by omega
    · have : t = u := by apply Fin.ext; rw [ht, Nat.add_zero, Nat.mod_eq_of_lt u.isLt]
      subst this
      exact Nat.le_trans (D_le_S _ _) (hSe t 0 hk)
    · have := hp 0 u t 0 (by simpa using ht)
      subst this
      exact Nat.le_trans (hi.ord u 0 hk) (hSe u 0 hk)
  | succ k ih =>
    intro hk u m t hm ht
    by_cases hlt : m < 2 ^ (k + 1)
    · exact Nat.le_trans (D_mono _ _) (ih (by omega) u m t hlt ht)
    · have hpw : 2 ^ (k + 1 + 1) = 2 ^ (k + 1) + 2 ^ (k + 1) := by rw [Nat.pow_succ]; omega
      let v : Fin n := ⟨(u + (m - 2 ^ (k + 1))) % n, Nat.mod_lt _ h0⟩
      have hv := ih (by omega) u (m - 2 ^ (k + 1)) v (by omega) rfl
      have hpt : partner v (k + 1) = t := by
        apply hp (k + 1) v t 0
        rw [ht]
        show _ = ((u + (m - 2 ^ (k + 1))) % n + 2 ^ (k + 1)) % n
        rw [Nat.mod_add_mod]; congr 1; omega
      have := hi.ord v (k + 1) hk
      rw [hpt] at this
      exact Nat.le_trans this (Nat.le_trans (S_le_D _ _) hv)

/-! ## Properties -/

/-- C25: nobody has returned from its k-th call before everybody has made theirs. -/
theorem phase_separation (hn : n ≤ 2 ^ 31) {s : St n} (h : (sys n).Reach s) :
    PhaseSep (fun t => (s.th t).e) (fun t => (s.th t).r) := by
  have hi := inv_of_reach h
  intro t u
  have h0 : 0 < n := Nat.zero_lt_of_lt t.isLt
  have hsz := size_le h0 hn
  simp only
  by_cases hR : size n = 0
  · rw [hR] at hsz
    have : t = u := by apply Fin.ext; have := t.isLt; have := u.isLt; omega
    subst this; rw [hi.er t]; omega
  · have hu := u.isLt
    have ht := t.isLt
    refine Nat.le_trans (D_ge _ (size n - 1)) (chain hi h0 (size n - 1) (by omega) u ((t + (n - u)) % n) t ?_ ?_)
    · rw [show size n - 1 + 1 = size n by omega]
      exact Nat.lt_of_lt_of_le (Nat.mod_lt _ h0) hsz
    · rw [Nat.add_mod_mod, show (u : Nat) + (t + (n - u)) = t + n by omega, Nat.add_mod_right,
        Nat.mod_eq_of_lt ht]

/-- C25: a wake-up is never lost.  A thread whose signaller of the current round has stored in this
call finds the flag set, however far the signaller has run ahead since. -/
theorem no_lost_signal (hn : n ≤ 2 ^ 31) {s : St n} (h : (sys n).Reach s) {i j : Fin n} {k : Nat}
    (hp : (s.th j).pc = .wait k) (hpart : partner i k = j) (hsig : (s.th j).r < S (s.th i) k) :
    s.flags (s.th j).parity k j = (s.th j).sense := by
  have hi := inv_of_reach h
  have hps := phase_separation hn h i j
  simp only at hps
  have hk := hi.bw j k hp
  have hej := hi.er j
  simp only [hp] at hej
  have hSe : S (s.th i) k ≤ (s.th i).r + 1 := by
    unfold S; cases (s.th i).pc <;> simp only <;> grind
  have hfl := hi.flag i k (s.th j).parity hk
  rw [hpart, hi.par j] at hfl
  rw [hi.par j, hi.sns j, hfl]
  have : S (s.th i) k = (s.th j).r + 1 ∨ S (s.th i) k = (s.th j).r + 2 := by
    simp at hej; omega
  rcases this with e | e <;> rw [e]
  · exact fv_succ _
  · exact fv_succ2 _

/-- C25: nobody stays blocked.  If everybody is inside a call, some thread can take a step that is
not a spin. -/
theorem no_deadlock (hn : n ≤ 2 ^ 31) (h0 : 0 < n) {s : St n} (h : (sys n).Reach s)
    (hq : ∀ t, (s.th t).pc ≠ .idle) :
    ∃ t s', (sys n).step s (.run t) = some s' ∧ (s'.th t).pc ≠ (s.th t).pc := by
  have hi := inv_of_reach h
  -- a thread that is least advanced
  let f : Fin n → Nat := fun t => (s.th t).r * (size n + 1) + match (s.th t).pc with
    | .idle => 0 | .sto k => k | .wait k => k
  have : Nonempty (Fin n) := ⟨⟨0, h0⟩⟩
  obtain ⟨j, hj⟩ := Finite.exists_min f
  have hsto : ∀ t k, (s.th t).pc = .sto k →
      ∃ t s', (sys n).step s (.run t) = some s' ∧ (s'.th t).pc ≠ (s.th t).pc := by
    intro t k hp
    refine ⟨t, ?_⟩
    simp only [sys, step, hp]
    split
    · exact ⟨_, rfl, by simp⟩
    · exact ⟨_, rfl, by simp⟩
  cases hp : (s.th j).pc with
  | idle => exact absurd hp (hq j)
  | sto k => exact hsto j k hp
  | wait k =>
    obtain ⟨i, hpi⟩ := partner_surj j k
    have hk := hi.bw j k hp
    have hji := hj i
    simp only [f, hp] at hji
    cases hpi' : (s.th i).pc with
    | idle => exact absurd hpi' (hq i)
    | sto m => exact hsto i m hpi'
    | wait m =>
      have hm := hi.bw i m hpi'
      rw [hpi'] at hji
      simp only at hji
      have hsig : (s.th j).r < S (s.th i) k := by
        simp only [S, hpi']
        by_cases hr : (s.th i).r < (s.th j).r
        · exfalso
          have : ((s.th i).r + 1) * (size n + 1) ≤ (s.th j).r * (size n + 1) := Nat.mul_le_mul_right _ hr
          rw [Nat.succ_mul] at this
          omega
        · by_cases hr2 : (s.th i).r = (s.th j).r
          · rw [hr2] at hji ⊢
            rw [if_pos (by omega)]; omega
          · split <;> omega
      have hf := no_lost_signal hn h hp hpi hsig
      refine ⟨j, { s with th := upd s.th j { s.th j with pc := .sto (k + 1) } }, ?_, ?_⟩
      · simp only [sys, step, hp, hf]; simp
      · simp [hp]

/-- Three threads, two rounds; thread 0 has returned and is waiting in its second call while thread 2
is still in its first. -/
example : ((sys 3).run (initSt 3) [.call 0, .call 1, .call 2, .run 0, .run 1, .run 2, .run 0, .run 1,
    .run 2, .run 0, .run 1, .run 2, .run 0, .run 0, .call 0, .run 0]).map
    (fun s => (size 3, (s.th 0).r, (s.th 0).pc, (s.th 2).r, (s.th 2).pc)) =
    some (2, 1, .wait 0, 0, .wait 1) := by decide

end Verif.Barrier.Dissemination
