import Mathlib.Data.List.Induction
import Mathlib.Tactic.NormNum

/-!
# The hash function of `ck_ht` (C91), `src/ck_ht_hash.h` lines 175-229, `src/ck_ht.c` lines 105-135

`MurmurHash64A` on lists of bytes, for machines where `unsigned long` has 64 bits.  `be`: the machine is big-endian, which matters for the load of a block of 8 bytes.  A block that is aligned is loaded
directly and any other through `memcpy`, with the same result, so that the address of the key does not occur here.

Spec: keys of the same length that differ in one block only have different hash values; in particular keys of at most 8 bytes, such as those of a table in direct mode, collide in the hash only if they are equal.
-/

namespace Verif.Ht.Murmur

/-- `src/ck_ht_hash.h` line 177 -/
def m : BitVec 64 := 0xc6a4a7935bd1e995#64

/-- The bytes at positions `i`, `i + 1`, ... of a word, `src/ck_ht_hash.h` lines 208-220. -/
def word (i : Nat) : List (BitVec 8) → BitVec 64
  | [] => 0
  | b :: l => word (i + 1) l ^^^ (b.setWidth 64 <<< (8 * i))

/-- `src/ck_ht_hash.h` lines 187-194: the load of a block -/
def block (be : Bool) (l : List (BitVec 8)) : BitVec 64 := word 0 (if be then l.reverse else l)

/-- `src/ck_ht_hash.h` lines 196-198 -/
def mixk (k : BitVec 64) : BitVec 64 := ((k * m) ^^^ ((k * m) >>> 47)) * m

/-- One turn of the loop, `src/ck_ht_hash.h` lines 185-202. -/
def body (be : Bool) (l : List (BitVec 8)) (h : BitVec 64) : BitVec 64 := (h ^^^ mixk (block be l)) * m

/-- The bytes after the last whole block, `src/ck_ht_hash.h` lines 204-222. -/
def rest (l : List (BitVec 8)) (h : BitVec 64) : BitVec 64 := if l = [] then h else (h ^^^ word 0 l) * m

/-- `src/ck_ht_hash.h` lines 182-222: `n` turns of the loop, one for each whole block, and then the rest. -/
def blocks {α β : Type} (f g : List α → β → β) : Nat → List α → β → β
  | 0, l, h => g l h
  | n + 1, l, h => blocks f g n (l.drop 8) (f (l.take 8) h)

/-- `src/ck_ht_hash.h` lines 224-226 -/
def final (h : BitVec 64) : BitVec 64 := ((h ^^^ (h >>> 47)) * m) ^^^ (((h ^^^ (h >>> 47)) * m) >>> 47)

/-- `MurmurHash64A`, `src/ck_ht_hash.h` lines 175-229 -/
def hash (be : Bool) (key : List (BitVec 8)) (seed : BitVec 64) : BitVec 64 := final (blocks (body be) rest (key.length / 8) key (seed ^^^ (BitVec.ofNat 64 key.length * m)))

/-! ## Theorems -/

theorem mul_inj {x y : BitVec 64} (h : x * m = y * m) : x = y := by
  have hi : m * 0x5f7a0ea7e59b19bd#64 = 1#64 := by decide +kernel
  have := congrArg (· * 0x5f7a0ea7e59b19bd#64) h
  simpa only [BitVec.mul_assoc, hi, BitVec.mul_one] using this

theorem shift_twice (x : BitVec 64) : (x ^^^ (x >>> 47)) ^^^ ((x ^^^ (x >>> 47)) >>> 47) = x := by
  ext i hi
  have : x.getLsbD (47 + (47 + i)) = false := BitVec.getLsbD_of_ge _ _ (by omega)
  simp [BitVec.getElem_xor, BitVec.getElem_ushiftRight, BitVec.getLsbD_xor, BitVec.getLsbD_ushiftRight, this]

theorem shift_inj {x y : BitVec 64} (h : x ^^^ (x >>> 47) = y ^^^ (y >>> 47)) : x = y := by
  rw [← shift_twice x, ← shift_twice y, h]

theorem xor_inj {x y z : BitVec 64} (h : z ^^^ x = z ^^^ y) : x = y := by
  have := congrArg (z ^^^ ·) h
  simpa only [← BitVec.xor_assoc, BitVec.xor_self, BitVec.zero_xor] using this

theorem mixk_inj {x y : BitVec 64} (h : mixk x = mixk y) : x = y := mul_inj (shift_inj (mul_inj h))

theorem final_inj {x y : BitVec 64} (h : final x = final y) : x = y := shift_inj (mul_inj (shift_inj h))

theorem word_low (l : List (BitVec 8)) (i k : Nat) (h : k < 8 * i) : (word i l).getLsbD k = false := by
  induction l generalizing i with
  | nil => simp [word]
  | cons b l ih =>
    simp only [word, BitVec.getLsbD_xor, ih (i + 1) (by omega), BitVec.getLsbD_shiftLeft, Bool.false_xor]
    simp [h]

theorem word_inj (l l' : List (BitVec 8)) (i : Nat) (hl : l.length = l'.length) (hi : i + l.length ≤ 8) (h : word i l = word i l') : l = l' := by
  induction l generalizing i l' with
  | nil => exact (List.length_eq_zero_iff.1 hl.symm).symm
  | cons b l ih =>
    cases l' with
    | nil => cases hl
    | cons b' l' =>
      simp only [List.length_cons] at hi hl
      have hb : b = b' := by
        ext k hk
        have := congrArg (·.getLsbD (8 * i + k)) h
        simp only [word, BitVec.getLsbD_xor, word_low l (i + 1) (8 * i + k) (by omega), word_low l' (i + 1) (8 * i + k) (by omega), BitVec.getLsbD_shiftLeft, Bool.false_xor] at this
        have e1 : 8 * i + k < 64 := by omega
        have e2 : ¬ 8 * i + k < 8 * i := by omega
        have e3 : 8 * i + k - 8 * i = k := by omega
        simp only [e1, e2, e3, decide_true, decide_false, Bool.not_false, Bool.true_and, BitVec.getLsbD_setWidth, show k < 64 by omega] at this
        simpa only [BitVec.getLsbD_eq_getElem hk] using this
      subst hb
      have := congrArg (· ^^^ (b.setWidth 64 <<< (8 * i))) h
      simp only [word, BitVec.xor_assoc, BitVec.xor_self, BitVec.xor_zero] at this
      rw [ih l' (i + 1) (by omega) (by omega) this]

theorem block_inj {be : Bool} {l l' : List (BitVec 8)} (hl : l.length = l'.length) (hi : l.length ≤ 8) (h : block be l = block be l') : l = l' := by
  unfold block at h
  cases be with
  | false => exact word_inj l l' 0 hl (by omega) h
  | true => exact List.reverse_inj.1 (word_inj _ _ 0 (by simpa using hl) (by simpa using hi) h)

theorem body_inj_left {be : Bool} {l : List (BitVec 8)} {h h' : BitVec 64} (e : body be l h = body be l h') : h = h' := by
  have := mul_inj e
  rw [BitVec.xor_comm h, BitVec.xor_comm h'] at this
  exact xor_inj this

theorem rest_inj_left {l : List (BitVec 8)} {h h' : BitVec 64} (e : rest l h = rest l h') : h = h' := by
  unfold rest at e
  split at e
  · exact e
  · have := mul_inj e
    rw [BitVec.xor_comm h, BitVec.xor_comm h'] at this
    exact xor_inj this

/-- The loop is injective in what it starts from. -/
theorem blocks_inj {α β : Type} {f g : List α → β → β} (hf : ∀ l h h', f l h = f l h' → h = h') (hg : ∀ l h h', g l h = g l h' → h = h') (n : Nat) (l : List α) {h h' : β}
    (e : blocks f g n l h = blocks f g n l h') : h = h' := by
  induction n generalizing l h h' with
  | zero => exact hg _ _ _ e
  | succ n ih => exact hf _ _ _ (ih _ e)

theorem blocks_prefix {α β : Type} {f g : List α → β → β} (k n : Nat) (p a b : List α) (hp : p.length = 8 * k) {h : β}
    (e : blocks f g (k + n) (p ++ a) h = blocks f g (k + n) (p ++ b) h) : ∃ h', blocks f g n a h' = blocks f g n b h' := by
  induction k generalizing p h with
  | zero =>
    obtain rfl : p = [] := List.length_eq_zero_iff.1 (by omega)
    exact ⟨h, by simpa using e⟩
  | succ k ih =>
    rw [show k + 1 + n = (k + n) + 1 by omega] at e
    simp only [blocks, List.drop_append_of_le_length (show 8 ≤ p.length by omega), List.take_append_of_le_length (show 8 ≤ p.length by omega)] at e
    exact ih (p.drop 8) (by simp; omega) e

/-- Keys that differ in one block are told apart if both functions tell blocks apart. -/
theorem blocks_one {α β : Type} {f g : List α → β → β} (hf : ∀ l h h', f l h = f l h' → h = h') (hg : ∀ l h h', g l h = g l h' → h = h')
    (hf' : ∀ a b h, a.length = 8 → b.length = 8 → f a h = f b h → a = b) (hg' : ∀ a b h, a.length < 8 → a.length = b.length → g a h = g b h → a = b)
    (p a b q : List α) (hp : p.length % 8 = 0) (hab : a.length = b.length) (h8 : a.length = 8 ∨ a.length < 8 ∧ q = []) (h : β)
    (e : blocks f g ((p ++ a ++ q).length / 8) (p ++ a ++ q) h = blocks f g ((p ++ b ++ q).length / 8) (p ++ b ++ q) h) : a = b := by
  have hlen : (p ++ a ++ q).length = (p ++ b ++ q).length := by simp [hab]
  rw [hlen, List.append_assoc, List.append_assoc] at e
  have hn : (p ++ (b ++ q)).length / 8 = p.length / 8 + (b ++ q).length / 8 := by rw [List.length_append]; omega
  rw [hn] at e
  obtain ⟨h', e⟩ := blocks_prefix _ _ p _ _ (by omega) e
  rcases h8 with h8 | ⟨h8, rfl⟩
  · rw [show (b ++ q).length / 8 = q.length / 8 + 1 by rw [List.length_append]; omega] at e
    simp only [blocks, List.drop_left' h8, List.drop_left' (hab.symm.trans h8), List.take_left' h8, List.take_left' (hab.symm.trans h8)] at e
    exact hf' a b h' h8 (hab.symm.trans h8) (blocks_inj hf hg _ q e)
  · rw [List.append_nil, List.append_nil, show b.length / 8 = 0 by omega] at e
    exact hg' a b h' h8 hab e

theorem rest_inj {a b : List (BitVec 8)} {h : BitVec 64} (h8 : a.length < 8) (hab : a.length = b.length) (e : rest a h = rest b h) : a = b := by
  unfold rest at e
  by_cases ha : a = []
  · subst ha; exact (List.length_eq_zero_iff.1 hab.symm).symm
  · have hb : b ≠ [] := by rintro rfl; exact ha (List.length_eq_zero_iff.1 hab)
    rw [if_neg ha, if_neg hb] at e
    exact word_inj a b 0 hab (by omega) (xor_inj (mul_inj e))

theorem body_inj {be : Bool} {a b : List (BitVec 8)} {h : BitVec 64} (h8 : a.length = 8) (hb : b.length = 8) (e : body be a h = body be b h) : a = b :=
  block_inj (h8.trans hb.symm) (by omega) (mixk_inj (xor_inj (mul_inj e)))

/-- Keys that differ in one block of 8 bytes, or only in the bytes after the last whole block, have different hash values, for every seed. -/
theorem one_block (be : Bool) (p a b q : List (BitVec 8)) (hp : p.length % 8 = 0) (hab : a.length = b.length) (h8 : a.length = 8 ∨ a.length < 8 ∧ q = []) (seed : BitVec 64)
    (h : hash be (p ++ a ++ q) seed = hash be (p ++ b ++ q) seed) : a = b := by
  unfold hash at h
  have e := final_inj h
  have hlen : (p ++ a ++ q).length = (p ++ b ++ q).length := by simp [hab]
  generalize hx : seed ^^^ (BitVec.ofNat 64 (p ++ a ++ q).length * m) = x at e
  rw [← hlen, hx] at e
  refine blocks_one (f := body be) (g := rest) (fun _ _ _ => body_inj_left) (fun _ _ _ => rest_inj_left) (fun _ _ _ => body_inj) (fun _ _ _ => rest_inj) p a b q hp hab h8 x ?_
  rw [← hlen]
  exact e

/-- Keys of the same length of at most 8 bytes have different hash values. -/
theorem short_keys (be : Bool) (a b : List (BitVec 8)) (hab : a.length = b.length) (h8 : a.length ≤ 8) (seed : BitVec 64) (h : hash be a seed = hash be b seed) : a = b := by
  refine one_block be [] a b [] rfl hab ?_ seed (by simp only [List.nil_append, List.append_nil, h])
  rcases Nat.lt_or_ge a.length 8 with h | h
  · exact .inr ⟨h, rfl⟩
  · exact .inl (by omega)

/-- The same key has different hash values for different seeds. -/
theorem seeds (be : Bool) (key : List (BitVec 8)) {s s' : BitVec 64} (h : hash be key s = hash be key s') : s = s' := by
  unfold hash at h
  have := blocks_inj (f := body be) (g := rest) (fun _ _ _ => body_inj_left) (fun _ _ _ => rest_inj_left) _ key (final_inj h)
  rw [BitVec.xor_comm s, BitVec.xor_comm s'] at this
  exact xor_inj this

/-- `ck_ht_hash_direct` (`src/ck_ht.c` lines 116-124): the bytes of the key as they are in memory. -/
def direct (be : Bool) (k : BitVec 64) (seed : BitVec 64) : BitVec 64 :=
  let l := (List.range 8).map fun i => (k >>> (8 * i)).setWidth 8
  hash be (if be then l.reverse else l) seed

/-- Distinct keys of a table in direct mode have distinct hash values. -/
theorem direct_keys (be : Bool) (k k' seed : BitVec 64) (h : direct be k seed = direct be k' seed) : k = k' := by
  have hl : (List.range 8).map (fun i => (k >>> (8 * i)).setWidth 8) = (List.range 8).map (fun i => (k' >>> (8 * i)).setWidth 8) := by
    unfold direct at h
    cases be with
    | false => exact short_keys false _ _ (by simp only [List.length_map]) (by simp) seed h
    | true => exact List.reverse_inj.1 (short_keys true _ _ (by simp only [List.length_reverse, List.length_map]) (by simp) seed h)
  have hb : ∀ i, i < 8 → (k >>> (8 * i)).setWidth 8 = (k' >>> (8 * i)).setWidth 8 := by
    intro i hi
    have := congrArg (·[i]?) hl
    simpa [hi] using this
  ext j hj
  have := congrArg (·.getLsbD (j % 8)) (hb (j / 8) (by omega))
  simp only [BitVec.getLsbD_setWidth, BitVec.getLsbD_ushiftRight, show j % 8 < 8 by omega, decide_true, Bool.true_and, show 8 * (j / 8) + j % 8 = j by omega] at this
  simpa only [BitVec.getLsbD_eq_getElem hj] using this

/-- A key with a whole block and one byte more, the seed of `ck_ht_init` in the unit tests: the value of an independent implementation.  Keys that differ in one byte, and the same key on a big-endian machine. -/
theorem hash_example : hash false [1, 2, 3, 4, 5, 6, 7, 8, 9] 6602834 = 0x386020800c115bbb#64 ∧
    hash false [1, 2, 3, 4, 5, 6, 7, 8, 9] 0 ≠ hash false [1, 2, 3, 4, 5, 6, 7, 8, 10] 0 ∧ hash false [1, 2, 3, 4, 5, 6, 7, 8] 1 ≠ hash true [1, 2, 3, 4, 5, 6, 7, 8] 1 ∧
    direct false 1 0 ≠ direct false 2 0 := by decide +kernel

end Verif.Ht.Murmur
