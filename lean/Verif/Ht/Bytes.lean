import Verif.Ht.HtThm

/-!
# Hash table: byte string mode (C76)

With `CK_HT_MODE_BYTESTRING` an entry holds the address and the length of a string, packed into a word together with the
address if `CK_HT_PP` is defined, and part of the hash.  The probes compare addresses, then lengths, then hashes, then the
bytes.  The claim: this comparison is equality of strings, so that byte string mode is direct mode (`Ht.lean`) with strings
for keys.

Simplified: the bytes of the keys do not change while they are in the table (`mem` is a parameter); a word has 64 bits.
-/

namespace Verif.Ht.Bytes

open Verif Verif.Ht

/-- Build: pointer packing with `CK_MD_VMA_BITS` bits for addresses (`CK_HT_PP`), or entries of four words (the default);
`include/ck_ht.h`, lines 62-68. -/
inductive Build
  | pp (vma : Nat)
  | plain
deriving DecidableEq

/-- `struct ck_ht_entry`, `include/ck_ht.h`, lines 70-81; `len` and `hash` exist without pointer packing only. -/
structure REnt where
  key : Nat
  value : Nat
  len : Nat
  hash : Nat
deriving DecidableEq

/-- `CK_HT_KEY_TOMBSTONE`, `include/ck_ht.h`, lines 91-93. -/
def tombstone : Nat := 2 ^ 64 - 1

/-- A 64-bit word `p | x << v`, `include/ck_ht.h`, lines 154, 205, 206. -/
def pack (v p x : Nat) : Nat := p ||| ((x <<< v) % 2 ^ 64)

/-- `ck_ht_entry_set`, `include/ck_ht.h`, lines 196-217. -/
def entrySet (b : Build) (h p len value : Nat) : REnt :=
  match b with
  | .pp v => { key := pack v p len, value := pack v value (h >>> 32), len := 0, hash := 0 }
  | .plain => { key := p, value := value, len := len, hash := h }

/-- `ck_ht_entry_key`, `include/ck_ht.h`, lines 163-172. -/
def entryKey (b : Build) (e : REnt) : Nat :=
  match b with
  | .pp v => e.key &&& (2 ^ v - 1)
  | .plain => e.key

/-- `ck_ht_entry_key_length`, `include/ck_ht.h`, lines 174-183; the result is a `uint16_t`. -/
def entryLen (b : Build) (e : REnt) : Nat :=
  match b with
  | .pp v => (e.key >>> v) % 2 ^ 16
  | .plain => e.len % 2 ^ 16

/-- `ck_ht_entry_value`, `include/ck_ht.h`, lines 185-194. -/
def entryValue (b : Build) (e : REnt) : Nat :=
  match b with
  | .pp v => e.value &&& (2 ^ v - 1)
  | .plain => e.value

/-- `memcmp(p, q, n) == 0`. -/
def memeq (mem : Nat → UInt8) : Nat → Nat → Nat → Bool
  | _, _, 0 => true
  | p, q, n + 1 => if mem p = mem q then memeq mem (p + 1) (q + 1) n else false

/-- The memoized part of the hash agrees: `src/ck_ht.c`, lines 347-353 (also 568-574); `CK_HT_KEY_MASK`, `include/ck_ht.h`,
line 65. -/
def memo (b : Build) (h : Nat) (e : REnt) : Bool :=
  match b with
  | .pp v => e.value >>> v == (h >>> 32) &&& (2 ^ (64 - v) - 1)
  | .plain => e.hash == h

/-- `goto leave` in the probes in byte string mode: `src/ck_ht.c`, lines 322-359 (also 551-589), for an entry, the hash and
the address and length of the key sought.  The re-probe of lines 576-583 happens only if somebody else writes. -/
def stopB (b : Build) (mem : Nat → UInt8) (h p len : Nat) (e : REnt) : Bool :=
  if e.key = tombstone then false
  else if e.key = 0 then true
  else if e.key = p then true
  else if entryLen b e ≠ len then false
  else if memo b h e = false then false
  else memeq mem (entryKey b e) p len

/-- `ck_ht_map_probe_rd`, `src/ck_ht.c`, lines 493-598, when nobody writes: the number of the probe at which it leaves.  `re`
are the entries; the rest of the map is that of `Ht.lean`. -/
def probeRdB {K V : Type} (b : Build) (mem : Nat → UInt8) (cfg : Cfg K V) (m : Map K V) (re : Nat → REnt) (h p len : Nat) :
    Option Nat :=
  (List.range (Nat.min (m.len cfg) (bound cfg m h + 1))).find? fun k => stopB b mem h p len (re (slotAt cfg m h k))

/-- `ck_ht_map_probe_wr`, `src/ck_ht.c`, lines 276-380; compare `Ht.probeWr`. -/
def probeWrB {K V : Type} (b : Build) (mem : Nat → UInt8) (cfg : Cfg K V) (m : Map K V) (re : Nat → REnt) (h p len : Nat)
    (lim : Option Nat) : PW :=
  let l := match lim with | none => m.len cfg | some b => Nat.min (m.len cfg) (b + 1)
  let cur := (List.range l).find? fun k => stopB b mem h p len (re (slotAt cfg m h k))
  { cur := cur
    pr := (List.range (cur.getD l)).find? fun k => decide ((re (slotAt cfg m h k)).key = tombstone) }

/-- `ck_ht_get_spmc`, lines 775-816, when nobody writes: the entry found. -/
def getB {K V : Type} (b : Build) (mem : Nat → UInt8) (cfg : Cfg K V) (m : Map K V) (re : Nat → REnt) (h p len : Nat) :
    Option REnt :=
  match probeRdB b mem cfg m re h p len with
  | none => none
  | some k => if (re (slotAt cfg m h k)).key = 0 then none else some (re (slotAt cfg m h k))

/-! ## Specification -/

/-- The string of `len` bytes at `p`. -/
def str (mem : Nat → UInt8) (p len : Nat) : List UInt8 := (List.range len).map fun i => mem (p + i)

/-- Addresses and lengths the build can represent.  Without pointer packing any length of 16 bits; an address is neither
`CK_HT_KEY_EMPTY` nor `CK_HT_KEY_TOMBSTONE`. -/
def Fits : Build → Nat → Nat → Prop
  | .pp v, p, len => 16 ≤ v ∧ v < 64 ∧ 0 < p ∧ p < 2 ^ v - 1 ∧ len < 2 ^ 16 ∧ len < 2 ^ (64 - v)
  | .plain, p, len => 0 < p ∧ p < tombstone ∧ len < 2 ^ 16

/-- The keys `p, len` and `p', len'` are not distinct strings at the same address; with pointer packing this matters only for
the empty string. -/
def Apart : Build → Nat → Nat → Nat → Nat → Prop
  | .pp _, p, len, p', len' => p = p' → len' = 0 → len = len'
  | .plain, p, len, p', len' => p = p' → len = len'

/-- Values the build can represent. -/
def FitsV : Build → Nat → Prop
  | .pp v, x => x < 2 ^ v
  | .plain, _ => True

/-! ## Packing -/

theorem pack_eq {v p x : Nat} (hv : v ≤ 64) (hp : p < 2 ^ v) : pack v p x = (x % 2 ^ (64 - v)) * 2 ^ v + p := by
  have h1 : (x <<< v) % 2 ^ 64 = (x % 2 ^ (64 - v)) <<< v := by
    rw [Nat.shiftLeft_eq, Nat.shiftLeft_eq]
    have : 2 ^ 64 = 2 ^ (64 - v) * 2 ^ v := by rw [← Nat.pow_add]; congr 1; omega
    rw [this, Nat.mul_mod_mul_right]
  rw [pack, h1, Nat.or_comm, ← Nat.shiftLeft_add_eq_or_of_lt hp, Nat.shiftLeft_eq]

theorem pack_low {v p x : Nat} (hv : v ≤ 64) (hp : p < 2 ^ v) : pack v p x &&& (2 ^ v - 1) = p := by
  rw [Nat.and_two_pow_sub_one_eq_mod, pack_eq hv hp, Nat.add_comm, Nat.add_mul_mod_self_right, Nat.mod_eq_of_lt hp]

theorem pack_high {v p x : Nat} (hv : v ≤ 64) (hp : p < 2 ^ v) : pack v p x >>> v = x % 2 ^ (64 - v) := by
  rw [Nat.shiftRight_eq_div_pow, pack_eq hv hp, Nat.add_comm, Nat.add_mul_div_right _ _ (Nat.two_pow_pos v),
    Nat.div_eq_of_lt hp, Nat.zero_add]

theorem fits_lt {v p len : Nat} (h : Fits (.pp v) p len) : v ≤ 64 ∧ p < 2 ^ v := by
  obtain ⟨h1, h2, h3, h4, -⟩ := h; omega

/-- Address, length and value of an entry are those it was given. -/
theorem entry_round_trip {b : Build} {h p len value : Nat} (hf : Fits b p len) (hv : FitsV b value) :
    entryKey b (entrySet b h p len value) = p ∧ entryLen b (entrySet b h p len value) = len ∧
      entryValue b (entrySet b h p len value) = value := by
  cases b with
  | plain => exact ⟨rfl, Nat.mod_eq_of_lt hf.2.2, rfl⟩
  | pp v =>
    obtain ⟨h1, h2⟩ := fits_lt hf
    refine ⟨pack_low h1 h2, ?_, pack_low h1 hv⟩
    show (pack v p len >>> v) % 2 ^ 16 = len
    rw [pack_high h1 h2, Nat.mod_eq_of_lt hf.2.2.2.2.2, Nat.mod_eq_of_lt hf.2.2.2.2.1]

/-- An entry is neither empty nor a tombstone. -/
theorem entry_not_stub {b : Build} {h p len value : Nat} (hf : Fits b p len) :
    (entrySet b h p len value).key ≠ 0 ∧ (entrySet b h p len value).key ≠ tombstone := by
  cases b with
  | plain => exact ⟨Nat.ne_of_gt hf.1, Nat.ne_of_lt hf.2.1⟩
  | pp v =>
    obtain ⟨h1, h2⟩ := fits_lt hf
    show pack v p len ≠ 0 ∧ pack v p len ≠ tombstone
    obtain ⟨-, hv, h3, h4, -, h6⟩ := hf
    have hl := pack_low (x := len) h1 h2
    constructor
    · intro h0; rw [h0, Nat.zero_and] at hl; omega
    · intro h0
      rw [h0, Nat.and_two_pow_sub_one_eq_mod] at hl
      have : tombstone % 2 ^ v = 2 ^ v - 1 := by
        have h7 : tombstone = 2 ^ v * (2 ^ (64 - v) - 1) + (2 ^ v - 1) := by
          have h8 : 2 ^ 64 = 2 ^ v * 2 ^ (64 - v) := by rw [← Nat.pow_add]; congr 1; omega
          have h9 := Nat.two_pow_pos v
          have h10 := Nat.two_pow_pos (64 - v)
          rw [Nat.mul_sub, ← h8, Nat.mul_one]
          have : 2 ^ v ≤ 2 ^ 64 := Nat.pow_le_pow_right (by omega) (by omega)
          show 2 ^ 64 - 1 = _
          omega
        rw [h7, Nat.mul_add_mod]
        exact Nat.mod_eq_of_lt (by have := Nat.two_pow_pos v; omega)
      omega

theorem memeq_iff (mem : Nat → UInt8) : ∀ (n p q : Nat), memeq mem p q n = true ↔ str mem p n = str mem q n
  | 0, p, q => by simp [memeq, str]
  | n + 1, p, q => by
    have h : ∀ p, str mem p (n + 1) = mem p :: str mem (p + 1) n := by
      intro p
      simp only [str, List.range_succ_eq_map, List.map_cons, List.map_map, Nat.add_zero, List.cons.injEq, true_and]
      apply List.map_congr_left
      intro i _
      show mem (p + (i + 1)) = mem (p + 1 + i)
      congr 1; omega
    rw [h p, h q, memeq]
    by_cases he : mem p = mem q
    · rw [if_pos he, memeq_iff mem n, he]; simp
    · rw [if_neg he]; simp [he]

theorem str_len (mem : Nat → UInt8) (p n : Nat) : (str mem p n).length = n := by simp [str]

theorem memo_self {b : Build} {h p len value : Nat} (hf : Fits b p len) (hv : FitsV b value) :
    memo b h (entrySet b h p len value) = true := by
  cases b with
  | plain => exact beq_self_eq_true h
  | pp v =>
    obtain ⟨h1, h2⟩ := fits_lt hf
    show (pack v value (h >>> 32) >>> v == (h >>> 32) &&& (2 ^ (64 - v) - 1)) = true
    rw [pack_high h1 hv, Nat.and_two_pow_sub_one_eq_mod]
    exact beq_self_eq_true _

/-- The entry is where the address is compared. -/
theorem key_eq {b : Build} {h p len p' len' value : Nat} (hf : Fits b p len) (hf' : Fits b p' len')
    (he : (entrySet b h p' len' value).key = p) : p = p' ∧ (b = .plain ∨ len' = 0) := by
  cases b with
  | plain => exact ⟨he.symm, .inl rfl⟩
  | pp v =>
    obtain ⟨h1, h2⟩ := fits_lt hf'
    obtain ⟨-, h3⟩ := fits_lt hf
    have he : pack v p' len' = p := he
    have ha := pack_low (x := len') h1 h2
    have hb := pack_high (x := len') h1 h2
    rw [he] at ha hb
    rw [Nat.and_two_pow_sub_one_eq_mod, Nat.mod_eq_of_lt h3] at ha
    rw [Nat.shiftRight_eq_div_pow, Nat.div_eq_of_lt h3, Nat.mod_eq_of_lt hf'.2.2.2.2.2] at hb
    exact ⟨ha, .inr hb.symm⟩

/-! ## The comparison is equality of strings -/

/-- The full statement drops `Apart`; see `confused_plain` and `confused_packed`. -/
theorem stop_iff_partial {b : Build} {mem : Nat → UInt8} {hash : List UInt8 → Nat} {p len p' len' value : Nat}
    (hf : Fits b p len) (hf' : Fits b p' len') (hv : FitsV b value) (ha : Apart b p len p' len') :
    stopB b mem (hash (str mem p len)) p len (entrySet b (hash (str mem p' len')) p' len' value) = true ↔
      str mem p' len' = str mem p len := by
  have hr := entry_round_trip (h := hash (str mem p' len')) hf' hv
  have hs := entry_not_stub (h := hash (str mem p' len')) (value := value) hf'
  rw [stopB, if_neg hs.2, if_neg hs.1]
  by_cases hk : (entrySet b (hash (str mem p' len')) p' len' value).key = p
  · rw [if_pos hk]
    obtain ⟨h1, h2⟩ := key_eq hf hf' hk
    have : len = len' := by
      cases b with
      | plain => exact ha h1
      | pp v => exact ha h1 (h2.resolve_left (fun h => nomatch h))
    rw [h1, this]; simp
  · rw [if_neg hk, hr.2.1]
    by_cases hl : len' = len
    · subst hl
      rw [if_neg (fun h => h rfl), hr.1]
      constructor
      · intro h
        split at h
        · cases h
        · exact (memeq_iff mem _ _ _).1 h
      · intro h
        rw [h, memo_self hf' hv, if_neg (by simp)]
        exact (memeq_iff mem _ _ _).2 h
    · rw [if_pos hl]
      constructor
      · intro h; cases h
      · intro h
        have := congrArg List.length h
        rw [str_len, str_len] at this
        exact absurd this hl

/-- The raw entries represent the entries of a table whose keys are strings. -/
def Repr (b : Build) (mem : Nat → UInt8) (cfg : Cfg (List UInt8) Nat) (m : Map (List UInt8) Nat) (re : Nat → REnt)
    (p len : Nat) : Prop :=
  ∀ x, match (m.ent x).key with
    | .empty => (re x).key = 0
    | .tomb => (re x).key = tombstone
    | .key q => ∃ p' len' value, re x = entrySet b (cfg.hash q) p' len' value ∧ q = str mem p' len' ∧ Fits b p' len' ∧
        FitsV b value ∧ Apart b p len p' len' ∧ (m.ent x).val = value

theorem stop_repr {b : Build} {mem : Nat → UInt8} {cfg : Cfg (List UInt8) Nat} {m : Map (List UInt8) Nat}
    {re : Nat → REnt} {p len : Nat} (hf : Fits b p len) (hr : Repr b mem cfg m re p len) (x : Nat) :
    stopB b mem (cfg.hash (str mem p len)) p len (re x) = stop (str mem p len) (m.ent x).key := by
  have h := hr x
  generalize hk : (m.ent x).key = k at *
  cases k with
  | empty =>
    have h : (re x).key = 0 := h
    rw [stopB, if_neg (by rw [h]; decide), if_pos h]; rfl
  | tomb =>
    have h : (re x).key = tombstone := h
    rw [stopB, if_pos h]; rfl
  | key q =>
    obtain ⟨p', len', value, h1, h2, h3, h4, h5, -⟩ := h
    rw [h1]
    subst h2
    have := stop_iff_partial (mem := mem) (hash := cfg.hash) hf h3 h4 h5
    show _ = decide _
    by_cases hd : str mem p' len' = str mem p len
    · rw [decide_eq_true hd]; exact this.2 hd
    · rw [decide_eq_false hd]; exact Bool.eq_false_iff.2 fun hc => hd (this.1 hc)

/-- `ck_ht_map_probe_rd` in byte string mode is `ck_ht_map_probe_rd` with the string as key. -/
theorem probe_rd_partial {b : Build} {mem : Nat → UInt8} {cfg : Cfg (List UInt8) Nat} {m : Map (List UInt8) Nat}
    {re : Nat → REnt} {p len : Nat} (hf : Fits b p len) (hr : Repr b mem cfg m re p len) :
    probeRdB b mem cfg m re (cfg.hash (str mem p len)) p len = probeRd cfg m (str mem p len) := by
  unfold probeRdB probeRd
  congr 1
  funext k
  exact stop_repr hf hr _

theorem tomb_repr {b : Build} {mem : Nat → UInt8} {cfg : Cfg (List UInt8) Nat} {m : Map (List UInt8) Nat}
    {re : Nat → REnt} {p len : Nat} (hr : Repr b mem cfg m re p len) (x : Nat) :
    decide ((re x).key = tombstone) = decide ((m.ent x).key = .tomb) := by
  have h := hr x
  generalize hk : (m.ent x).key = k at *
  cases k with
  | empty =>
    have h : (re x).key = 0 := h
    rw [h]; decide
  | tomb =>
    have h : (re x).key = tombstone := h
    rw [h]; decide
  | key q =>
    obtain ⟨p', len', value, h1, h2, h3, h4, h5, -⟩ := h
    rw [h1, decide_eq_false (entry_not_stub h3).2]
    simp

/-- The same for `ck_ht_map_probe_wr`. -/
theorem probe_wr_partial {b : Build} {mem : Nat → UInt8} {cfg : Cfg (List UInt8) Nat} {m : Map (List UInt8) Nat}
    {re : Nat → REnt} {p len : Nat} {lim : Option Nat} (hf : Fits b p len) (hr : Repr b mem cfg m re p len) :
    probeWrB b mem cfg m re (cfg.hash (str mem p len)) p len lim = probeWr cfg m (str mem p len) lim := by
  have h1 : (fun k => stopB b mem (cfg.hash (str mem p len)) p len (re (slotAt cfg m (cfg.hash (str mem p len)) k))) =
      fun k => stop (str mem p len) (m.ent (slotAt cfg m (cfg.hash (str mem p len)) k)).key := by
    funext k; exact stop_repr hf hr _
  have h2 : (fun k => decide ((re (slotAt cfg m (cfg.hash (str mem p len)) k)).key = tombstone)) =
      fun k => decide ((m.ent (slotAt cfg m (cfg.hash (str mem p len)) k)).key = .tomb) := by
    funext k; exact tomb_repr hr _
  unfold probeWrB probeWr
  simp only [h1, h2]
  cases lim <;> rfl

/-- A lookup in a table with contents `abs` finds an entry exactly if the string is a key; the entry has that string and its
value. -/
theorem get_iff_partial {b : Build} {mem : Nat → UInt8} {cfg : Cfg (List UInt8) Nat} {m : Map (List UInt8) Nat}
    {abs : List UInt8 → Option Nat} {re : Nat → REnt} {p len : Nat} (hw : Wf cfg m abs) (hf : Fits b p len)
    (hr : Repr b mem cfg m re p len) :
    (getB b mem cfg m re (cfg.hash (str mem p len)) p len).map (entryValue b) = abs (str mem p len) ∧
      ∀ e, getB b mem cfg m re (cfg.hash (str mem p len)) p len = some e →
        str mem (entryKey b e) (entryLen b e) = str mem p len := by
  rw [← hw.get, Ht.get, getB, probe_rd_partial hf hr]
  cases hp : probeRd cfg m (str mem p len) with
  | none => exact ⟨rfl, fun e h => nomatch h⟩
  | some k =>
    have hs := List.find?_some hp
    simp only [Option.bind_some, at_]
    generalize slotAt cfg m (cfg.hash (str mem p len)) k = x at *
    have h := hr x
    generalize hk : (m.ent x).key = key at *
    cases key with
    | empty =>
      have h : (re x).key = 0 := h
      rw [if_pos h, valOf, hk]
      exact ⟨rfl, fun e h => nomatch h⟩
    | tomb => cases hs
    | key q =>
      obtain ⟨p', len', value, h1, h2, h3, h4, h5, h6⟩ := h
      have hs : q = str mem p len := of_decide_eq_true hs
      obtain ⟨ha, hb, hc⟩ := entry_round_trip (h := cfg.hash q) h3 h4
      rw [valOf, hk, h1, if_neg (entry_not_stub h3).1]
      refine ⟨?_, ?_⟩
      · show some (entryValue b _) = some _
        rw [hc, h6]
      · intro e he
        cases he
        rw [ha, hb, ← h2, hs]

/-! ## The comparison of addresses is not enough -/

/-- "ab" at 1000. -/
def mem0 (a : Nat) : UInt8 := if a = 1000 then 97 else 98

/-- Without pointer packing, the prefix "a" of a key "ab" at the same address is taken for that key. -/
theorem confused_plain :
    stopB .plain mem0 7 1000 1 (entrySet .plain 9 1000 2 5) = true ∧ str mem0 1000 2 ≠ str mem0 1000 1 ∧
      Fits .plain 1000 1 ∧ Fits .plain 1000 2 := by
  refine ⟨by decide +kernel, by decide +kernel, ?_, ?_⟩ <;> (unfold Fits; decide)

/-- With pointer packing, any string at the address of an empty string that is a key is taken for the empty string. -/
theorem confused_packed :
    stopB (.pp 48) mem0 7 1000 1 (entrySet (.pp 48) 9 1000 0 5) = true ∧ str mem0 1000 0 ≠ str mem0 1000 1 ∧
      Fits (.pp 48) 1000 1 ∧ Fits (.pp 48) 1000 0 := by
  refine ⟨by decide +kernel, by decide +kernel, ?_, ?_⟩ <;> (unfold Fits; decide)

/-- Pointer packing with `v` bits for addresses: a key whose length does not fit into the rest is not found again. -/
theorem long_lost {v h p len value : Nat} (mem : Nat → UInt8) (hv : v ≤ 64) (hv' : 48 < v) (h0 : 0 < p) (hp : p < 2 ^ v - 1)
    (h1 : 2 ^ (64 - v) ≤ len) (h3 : len % 2 ^ (64 - v) ≠ 0) :
    stopB (.pp v) mem h p len (entrySet (.pp v) h p len value) = false := by
  have hp' : p < 2 ^ v := by omega
  have hl : entryLen (.pp v) (entrySet (.pp v) h p len value) = len % 2 ^ (64 - v) := by
    show (pack v p len >>> v) % 2 ^ 16 = _
    rw [pack_high hv hp']
    refine Nat.mod_eq_of_lt (Nat.lt_of_lt_of_le (Nat.mod_lt _ (Nat.two_pow_pos _)) ?_)
    exact Nat.pow_le_pow_right (by omega) (by omega)
  have hlt : len % 2 ^ (64 - v) < 2 ^ (64 - v) := Nat.mod_lt _ (Nat.two_pow_pos _)
  have hk : (entrySet (.pp v) h p len value).key = (len % 2 ^ (64 - v)) * 2 ^ v + p := pack_eq hv hp'
  have hm : 1 * 2 ^ v ≤ (len % 2 ^ (64 - v)) * 2 ^ v := Nat.mul_le_mul_right _ (Nat.pos_of_ne_zero h3)
  rw [stopB, hl, hk]
  split
  · rfl
  · rw [if_neg (by omega), if_neg (by omega), if_pos (by omega)]

/-! ## A table -/

/-- Hash callback that maps everything to one bucket, and the default build. -/
def cfg0 : Cfg (List UInt8) Nat :=
  { hash := fun _ => 0, del := false, wmax := 255, pp := false, zero := 0, tv := 2 ^ 64 - 1, wild := fun _ _ => 0 }

/-- A table with the key "ab" and the value 5, made by `ck_ht_put_spmc`. -/
def m0 : Map (List UInt8) Nat := execs (create cfg0 8) ((prog cfg0 (create cfg0 8) [] (.put [97, 98] 5)).getD ([], .denied)).1

/-- Its entries: the key is at address 1000. -/
def re0 (x : Nat) : REnt := if x = 0 then entrySet .plain 0 1000 2 5 else ⟨0, 0, 0, 0⟩

/-- `ck_ht_get_spmc` with the string "a" at address 1000 finds the entry of "ab". -/
theorem get_confused :
    Ht.get cfg0 m0 [97] = none ∧ Ht.get cfg0 m0 [97, 98] = some 5 ∧ str mem0 1000 1 = [97] ∧ str mem0 1000 2 = [97, 98] ∧
      getB .plain mem0 cfg0 m0 re0 (cfg0.hash [97]) 1000 1 = some (entrySet .plain 0 1000 2 5) := by
  refine ⟨by decide +kernel, by decide +kernel, by decide +kernel, by decide +kernel, by decide +kernel⟩

theorem m0_ent (x : Nat) : m0.ent x = if x = 0 then ⟨.key [97, 98], 5⟩ else ⟨.empty, 0⟩ := by
  have h : prog cfg0 (create cfg0 8) [] (.put [97, 98] 5) =
      some ([.setMax 1, .val 0 5, .key 0 [97, 98] none, .cnt 1], .bool true) := by rfl
  rw [m0, h]
  show (upd (upd (create cfg0 8).ent 0 _) 0 _) x = _
  by_cases hx : x = 0
  · subst hx; rw [upd_same, if_pos rfl]; rfl
  · rw [upd_ne _ _ hx, upd_ne _ _ hx, if_neg hx]; rfl

/-- "ab" at 2000 as well: the hypotheses of `get_iff_partial` hold, and the key is found from a copy of the string. -/
theorem get_copy (mem : Nat → UInt8) (h1 : mem 1000 = 97) (h2 : mem 1001 = 98) (h3 : mem 2000 = 97) (h4 : mem 2001 = 98) :
    Fits .plain 2000 2 ∧ Repr .plain mem cfg0 m0 re0 2000 2 ∧
      getB .plain mem cfg0 m0 re0 (cfg0.hash (str mem 2000 2)) 2000 2 = some (entrySet .plain 0 1000 2 5) := by
  refine ⟨by unfold Fits; decide, ?_, ?_⟩
  · intro x
    rw [m0_ent]
    by_cases hx : x = 0
    · subst hx
      refine ⟨1000, 2, 5, rfl, ?_, by unfold Fits; decide, trivial, (fun h => absurd h (by decide)), rfl⟩
      simp [str, List.range_succ, h1, h2]
    · rw [if_neg hx]
      show (re0 x).key = 0
      rw [re0, if_neg hx]
  · have hs : ∀ x, stopB .plain mem 0 2000 2 (re0 x) = true := by
      intro x
      by_cases hx : x = 0
      · subst hx
        simp [stopB, re0, entrySet, tombstone, entryLen, memo, entryKey, memeq, h1, h2, h3, h4]
      · simp [stopB, re0, hx, tombstone]
    have hp : probeRdB .plain mem cfg0 m0 re0 0 2000 2 = some 0 := by
      unfold probeRdB
      have : (List.range (Nat.min (m0.len cfg0) (bound cfg0 m0 0 + 1))) = [0, 1] := by decide +kernel
      rw [this]
      exact List.find?_cons_of_pos (p := fun k => stopB .plain mem 0 2000 2 (re0 (slotAt cfg0 m0 0 k))) (hs _)
    show getB .plain mem cfg0 m0 re0 0 2000 2 = _
    rw [getB, hp]
    decide +kernel

end Verif.Ht.Bytes
