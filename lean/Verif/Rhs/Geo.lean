import Verif.Rhs.Rhs
import Mathlib.Tactic.Ring
import Mathlib.Data.Nat.ModEq
import Mathlib.Data.Nat.Prime.Basic
import Mathlib.Data.Fintype.EquivFin

/-!
# Robin-hood hash set: the probe sequence

Lines are visited at triangular distances, and within a line all its slots in turn.  The first `cap` probes visit every
slot once; a slot and a probe number determine the first slot.
-/

namespace Verif.Rhs

/-- `C` is a number of lines that is a power of two, of `L` slots each. -/
structure Geo (L C : Nat) : Prop where
  pos : 0 < L
  ex : ∃ n, C = L * 2 ^ n

/-- Slot of probe number `k + 1` for hash `h`: lines 724 and 789 (523 and 561, 851 and 863). -/
def sq (L C h : Nat) : Nat → Nat
  | 0 => h % C
  | k + 1 => next L C (sq L C h k) (k + 1)

/-- Triangular numbers. -/
def tri : Nat → Nat
  | 0 => 0
  | a + 1 => tri a + (a + 1)

theorem two_tri (a : Nat) : 2 * tri a = a * (a + 1) := by
  induction a with
  | zero => rfl
  | succ a ih => unfold tri; rw [Nat.mul_add, ih]; ring

/-- Closed form: slot `b` of line `a`. -/
def cf (L N h a b : Nat) : Nat := L * ((h / L + tri a) % N) + (h % L + (L - 1) * a + b) % L

theorem cf_div (L N h a b : Nat) (hL : 0 < L) : cf L N h a b / L = (h / L + tri a) % N := by
  unfold cf
  rw [Nat.mul_add_div hL, Nat.div_eq_of_lt (Nat.mod_lt _ hL), Nat.add_zero]

theorem cf_mod (L N h a b : Nat) : cf L N h a b % L = (h % L + (L - 1) * a + b) % L := by
  unfold cf
  rw [Nat.mul_add_mod, Nat.mod_mod]

theorem mod_split (L N x : Nat) : x % (L * N) = L * (x / L % N) + x % L := by
  rw [Nat.mod_mul]; omega

theorem add_line (L N x c : Nat) (hL : 0 < L) : (x + L * c) % (L * N) = L * ((x / L + c) % N) + x % L := by
  rw [mod_split, Nat.add_mul_div_left _ _ hL, Nat.add_mul_mod_self_left]

theorem sq_cf (L N h a b : Nat) (hL : 0 < L) (hb : b < L) : sq L (L * N) h (L * a + b) = cf L N h a b := by
  have key : ∀ k a b, b < L → k = L * a + b → sq L (L * N) h k = cf L N h a b := by
    intro k
    induction k with
    | zero =>
      intro a b hb he
      have ha : a = 0 := by
        rcases Nat.eq_zero_or_pos a with h | h
        · exact h
        · have := Nat.mul_pos hL h; omega
      have hb0 : b = 0 := by omega
      subst ha; subst hb0
      unfold sq cf tri
      rw [mod_split]; simp
    | succ k ih =>
      intro a b hb he
      unfold sq
      by_cases h0 : b = 0
      · -- first slot of a line
        subst h0
        have ha : 0 < a := by
          rcases Nat.eq_zero_or_pos a with h | h
          · subst h; omega
          · exact h
        obtain ⟨a, rfl⟩ := Nat.exists_eq_succ_of_ne_zero (Nat.pos_iff_ne_zero.1 ha)
        have hk : k = L * a + (L - 1) := by rw [Nat.mul_succ] at he; omega
        rw [ih a (L - 1) (by omega) hk]
        unfold next
        rw [if_neg (by rw [he]; simp), he, Nat.add_zero, add_line _ _ _ _ hL, cf_div _ _ _ _ _ hL, cf_mod]
        unfold cf
        have e1 : ((h / L + tri a) % N + (a + 1)) % N = (h / L + tri (a + 1)) % N := by
          rw [Nat.mod_add_mod, Nat.add_assoc]; rfl
        have e2 : h % L + (L - 1) * a + (L - 1) = h % L + (L - 1) * (a + 1) + 0 := by
          rw [Nat.mul_succ, Nat.add_zero, Nat.add_assoc]
        rw [Nat.succ_eq_add_one, e1, e2]
      · have hk : k = L * a + (b - 1) := by omega
        rw [ih a (b - 1) (by omega) hk]
        unfold next
        rw [if_pos (by rw [he, Nat.mul_add_mod, Nat.mod_eq_of_lt hb]; exact h0), cf_div _ _ _ _ _ hL]
        have : (cf L N h a (b - 1) + 1) % L = (h % L + (L - 1) * a + b) % L := by
          rw [Nat.add_mod, cf_mod, ← Nat.add_mod]; congr 1; omega
        rw [this]
        unfold cf
        rw [Nat.mul_comm]
  exact key _ a b hb rfl

/-- Triangular numbers are distinct modulo a power of two. -/
theorem tri_inj (n c a b : Nat) (ha : a < 2 ^ n) (hb : b < 2 ^ n) (h : (c + tri a) % 2 ^ n = (c + tri b) % 2 ^ n) :
    a = b := by
  have key : ∀ a b, a < 2 ^ n → b < a → (c + tri a) % 2 ^ n = (c + tri b) % 2 ^ n → False := by
    intro a b ha hlt h
    have h1 : tri a ≡ tri b [MOD 2 ^ n] := Nat.ModEq.add_left_cancel' c h
    have hle : tri b ≤ tri a := by
      have : ∀ d, tri b ≤ tri (b + d) := by
        intro d
        induction d with
        | zero => exact Nat.le_refl _
        | succ d ih => show tri b ≤ tri (b + d) + (b + d + 1); omega
      have := this (a - b)
      rwa [show b + (a - b) = a by omega] at this
    have h2 : 2 ^ n ∣ tri a - tri b := (Nat.modEq_iff_dvd' hle).1 h1.symm
    have h3 : 2 ^ (n + 1) ∣ (a - b) * (a + b + 1) := by
      have h4 : 2 * (tri a - tri b) = (a - b) * (a + b + 1) := by
        rw [Nat.mul_sub, two_tri, two_tri]
        obtain ⟨d, rfl⟩ := Nat.exists_eq_add_of_lt hlt
        rw [show b + d + 1 - b = d + 1 by omega]
        apply Nat.sub_eq_of_eq_add
        ring
      rw [← h4, Nat.pow_succ, Nat.mul_comm (2 ^ n)]
      exact Nat.mul_dvd_mul_left 2 h2
    rcases Nat.even_or_odd (a - b) with he | ho
    · have hodd : Nat.Coprime (2 ^ (n + 1)) (a + b + 1) := by
        apply Nat.Coprime.pow_left
        rw [Nat.coprime_two_left] 
        rw [Nat.odd_iff]; rw [Nat.even_iff] at he; omega
      have := Nat.le_of_dvd (by omega) (hodd.dvd_of_dvd_mul_right h3)
      rw [Nat.pow_succ] at this; omega
    · have hodd : Nat.Coprime (2 ^ (n + 1)) (a - b) := by
        apply Nat.Coprime.pow_left
        rw [Nat.coprime_two_left]; exact ho
      have := Nat.le_of_dvd (by omega) (hodd.dvd_of_dvd_mul_left h3)
      rw [Nat.pow_succ] at this; omega
  rcases Nat.lt_trichotomy a b with hl | hl | hl
  · exact (key b a hb hl h.symm).elim
  · exact hl
  · exact (key a b ha hl h).elim

variable {L C : Nat}

theorem Geo.cpos (g : Geo L C) : 0 < C := by
  obtain ⟨n, rfl⟩ := g.ex
  exact Nat.mul_pos g.pos (Nat.two_pow_pos n)

theorem Geo.sq_lt (g : Geo L C) (h k : Nat) : sq L C h k < C := by
  obtain ⟨n, rfl⟩ := g.ex
  have hL := g.pos
  rw [show k = L * (k / L) + k % L from (Nat.div_add_mod k L).symm, sq_cf _ _ _ _ _ hL (Nat.mod_lt _ hL)]
  unfold cf
  have h1 := Nat.mod_lt (h / L + tri (k / L)) (Nat.two_pow_pos n)
  have h2 := Nat.mod_lt (h % L + (L - 1) * (k / L) + k % L) hL
  calc _ < L * ((h / L + tri (k / L)) % 2 ^ n) + L := by omega
    _ = L * ((h / L + tri (k / L)) % 2 ^ n + 1) := by ring
    _ ≤ L * 2 ^ n := Nat.mul_le_mul_left _ h1

/-- The first `C` probes visit different slots. -/
theorem Geo.sq_inj (g : Geo L C) {h k k' : Nat} (hk : k < C) (hk' : k' < C) (he : sq L C h k = sq L C h k') : k = k' := by
  obtain ⟨n, rfl⟩ := g.ex
  have hL := g.pos
  have d1 := Nat.div_add_mod k L
  have d2 := Nat.div_add_mod k' L
  have b1 := Nat.mod_lt k hL
  have b2 := Nat.mod_lt k' hL
  rw [← d1, ← d2, sq_cf _ _ _ _ _ hL b1, sq_cf _ _ _ _ _ hL b2] at he
  have h1 := congrArg (· / L) he
  simp only [cf_div _ _ _ _ _ hL] at h1
  have h2 := congrArg (· % L) he
  simp only [cf_mod] at h2
  have ha := tri_inj n _ _ _ (Nat.div_lt_of_lt_mul hk) (Nat.div_lt_of_lt_mul hk') h1
  rw [ha] at h2
  have h3 := Nat.ModEq.add_left_cancel' (h % L + (L - 1) * (k' / L)) (show _ ≡ _ [MOD L] from h2)
  have h4 : k % L = k' % L := by simpa [Nat.ModEq] using h3
  rw [← d1, ← d2, ha, h4]

/-- and so every slot. -/
theorem Geo.sq_surj (g : Geo L C) (h o : Nat) (ho : o < C) : ∃ k, k < C ∧ sq L C h k = o := by
  let f : Fin C → Fin C := fun k => ⟨sq L C h k, g.sq_lt h k⟩
  have hi : Function.Injective f := by
    intro a b hab
    exact Fin.ext (g.sq_inj a.2 b.2 (congrArg Fin.val hab))
  obtain ⟨k, hk⟩ := (Finite.injective_iff_surjective.1 hi) ⟨o, ho⟩
  exact ⟨k, k.2, congrArg Fin.val hk⟩

theorem subMod_add (n o p : Nat) (ho : o < n) : subMod n ((o + p) % n) p = o := by
  unfold subMod
  have h1 := Nat.mod_lt p (show 0 < n by omega)
  rw [Nat.mod_add_mod, show o + p + (n - p % n) = o + n * (p / n) + n by
    have := Nat.div_add_mod p n; omega]
  rw [Nat.add_mod_right, Nat.add_mul_mod_self_left, Nat.mod_eq_of_lt ho]

/-- `subMod` only depends on the remainder of its argument. -/
theorem subMod_mod (n o p : Nat) : subMod n (o % n) p = subMod n o p := by
  unfold subMod; rw [Nat.mod_add_mod]

/-- `prev` undoes `next`. -/
theorem Geo.prev_next (g : Geo L C) (o p : Nat) (ho : o < C) : prev L C (next L C o p) p = o := by
  have hL := g.pos
  unfold prev next
  split
  · have h1 : (o / L * L + (o + 1) % L) / L = o / L := by
      rw [Nat.mul_comm, Nat.mul_add_div hL, Nat.div_eq_of_lt (Nat.mod_lt _ hL), Nat.add_zero]
    rw [h1, ← subMod_mod, Nat.mul_comm, Nat.mul_add_mod, Nat.mod_mod, ← Nat.mod_add_mod,
      subMod_add _ _ _ (Nat.mod_lt _ hL)]
    exact Nat.div_add_mod _ _
  · exact subMod_add _ _ _ ho

theorem Geo.prev_sq (g : Geo L C) (h k : Nat) : prev L C (sq L C h (k + 1)) (k + 1) = sq L C h k :=
  g.prev_next _ _ (g.sq_lt h k)

/-- A slot and a probe number determine the first slot. -/
theorem Geo.sq_home (g : Geo L C) {h h' k : Nat} (he : sq L C h k = sq L C h' k) : h % C = h' % C := by
  induction k with
  | zero => exact he
  | succ k ih => exact ih (by rw [← g.prev_sq h k, ← g.prev_sq h' k, he])

theorem sq_congr {h h' : Nat} (he : h % C = h' % C) (k : Nat) : sq L C h k = sq L C h' k := by
  induction k with
  | zero => exact he
  | succ k ih => unfold sq; rw [ih]

theorem sq_mod (h k : Nat) : sq L C (h % C) k = sq L C h k := sq_congr (Nat.mod_mod _ _) k

/-- Every slot is at every place of some probe sequence. -/
theorem Geo.home_ex (g : Geo L C) (o k : Nat) (ho : o < C) : ∃ h, h < C ∧ sq L C h k = o := by
  let f : Fin C → Fin C := fun h => ⟨sq L C h k, g.sq_lt h k⟩
  have hi : Function.Injective f := by
    intro a b hab
    have := g.sq_home (congrArg Fin.val hab)
    rw [Nat.mod_eq_of_lt a.2, Nat.mod_eq_of_lt b.2] at this
    exact Fin.ext this
  obtain ⟨h, hh⟩ := (Finite.injective_iff_surjective.1 hi) ⟨o, ho⟩
  exact ⟨h, h.2, congrArg Fin.val hh⟩

theorem firstLoop_eq (g : Geo L C) (h : Nat) : ∀ fuel k, k < fuel → firstLoop L C fuel (sq L C h k) (k + 1) = h % C := by
  obtain ⟨n, rfl⟩ := g.ex
  have hL := g.pos
  have small : ∀ k, k < L → sq L (L * 2 ^ n) h k / L * L + subMod L (sq L (L * 2 ^ n) h k) (k + 1 - 1) = h % (L * 2 ^ n) := by
    intro k hk
    have h1 := sq_cf L (2 ^ n) h 0 k hL hk
    rw [Nat.mul_zero, Nat.zero_add] at h1
    rw [h1, cf_div _ _ _ _ _ hL, ← subMod_mod, cf_mod, Nat.mul_zero, Nat.add_zero, Nat.add_sub_cancel,
      subMod_add _ _ _ (Nat.mod_lt _ hL), mod_split, Nat.mul_comm]
    rfl
  intro fuel
  induction fuel with
  | zero => intro k hk; omega
  | succ fuel ih =>
    intro k hk
    unfold firstLoop
    split
    · next hgt =>
      have hd := Nat.div_add_mod k L
      have hb := Nat.mod_lt k hL
      have ha : 0 < k / L := Nat.div_pos (by omega) hL
      obtain ⟨a, ha'⟩ := Nat.exists_eq_succ_of_ne_zero (Nat.pos_iff_ne_zero.1 ha)
      rw [ha'] at hd
      have hk' : k - L = L * a + k % L := by rw [Nat.mul_succ] at hd; omega
      have hrec := ih (k - L) (by omega)
      rw [hk', sq_cf _ _ _ _ _ hL hb] at hrec
      have e1 : subMod (L * 2 ^ n) (sq L (L * 2 ^ n) h k) ((k + 1 - 1) / L * L) =
          L * ((h / L + tri a) % 2 ^ n) + (h % L + (L - 1) * (a + 1) + k % L) % L := by
        have e2 : sq L (L * 2 ^ n) h k =
            (L * ((h / L + tri a) % 2 ^ n) + (h % L + (L - 1) * (a + 1) + k % L) % L + L * (a + 1)) % (L * 2 ^ n) := by
          conv => lhs; rw [← hd]
          rw [sq_cf _ _ _ _ _ hL hb, add_line _ _ _ _ hL, Nat.mul_add_div hL,
            Nat.div_eq_of_lt (Nat.mod_lt _ hL), Nat.add_zero, Nat.mod_add_mod, Nat.mul_add_mod, Nat.mod_mod]
          unfold cf
          show L * ((h / L + (tri a + (a + 1))) % 2 ^ n) + _ = _
          rw [Nat.add_assoc (h / L)]
        have e3 : (k + 1 - 1) / L * L = L * (a + 1) := by rw [Nat.add_sub_cancel, ha', Nat.mul_comm]
        rw [e2, e3, subMod_add]
        have h1 := Nat.mod_lt (h / L + tri a) (Nat.two_pow_pos n)
        have h2 := Nat.mod_lt (h % L + (L - 1) * (a + 1) + k % L) hL
        calc _ < L * ((h / L + tri a) % 2 ^ n) + L := by omega
          _ = L * ((h / L + tri a) % 2 ^ n + 1) := by ring
          _ ≤ L * 2 ^ n := Nat.mul_le_mul_left _ h1
      simp only []
      rw [e1, Nat.mul_add_div hL, Nat.div_eq_of_lt (Nat.mod_lt _ hL), Nat.add_zero]
      rw [← subMod_mod, Nat.mul_add_mod, Nat.mod_mod]
      have e4 : subMod L ((h % L + (L - 1) * (a + 1) + k % L) % L) (L - 1) = (h % L + (L - 1) * a + k % L) % L := by
        have := subMod_add L ((h % L + (L - 1) * a + k % L) % L) (L - 1) (Nat.mod_lt _ hL)
        rw [Nat.mod_add_mod] at this
        rw [← this]; congr 2; rw [Nat.mul_succ]; omega
      rw [e4, Nat.mul_comm _ L, show k + 1 - L = L * a + k % L + 1 by omega]
      exact hrec
    · exact small k (by omega)

/-- `ck_rhs_get_first_offset` returns the first slot of the probe sequence. -/
theorem Geo.first_sq (g : Geo L C) (h k : Nat) : first L C (sq L C h k) (k + 1) = h % C :=
  firstLoop_eq g h (k + 1) k (by omega)

end Verif.Rhs
