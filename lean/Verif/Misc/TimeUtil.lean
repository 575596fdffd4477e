/-!
# Deadline arithmetic (C57), `src/ck_ec_timeutil.h`

`time_t` and `long` are 64-bit two's complement (LP64); the fields are `Int`s and every signed
addition or subtraction is checked: the value `none` is undefined behaviour (signed overflow).
Unsigned 32-bit and 64-bit quantities are `Nat`s reduced explicitly.
-/

namespace Verif.TimeUtil

/-! ## Model -/

structure TS where
  sec : Int
  nsec : Int
  deriving DecidableEq

/-- `TIME_MAX`, `NSEC_MAX`, lines 9-10. -/
def TIME_MAX : Int := 2 ^ 63 - 1
def NSEC_MAX : Int := 1000 * 1000 * 1000 - 1

/-- Signed 64-bit result or undefined. -/
def chk (x : Int) : Option Int := if -2 ^ 63 ≤ x ∧ x ≤ 2 ^ 63 - 1 then some x else none

/-- Conversion to `uint32_t` and to `unsigned long`. -/
def u32 (x : Int) : Int := x % 2 ^ 32
def u64 (x : Int) : Int := x % 2 ^ 64

/-- `wait_time_scale`, lines 16-29; the product and the shift are `uint64_t`.  A shift of 64 or more
is undefined. -/
def waitTimeScale (nsec mult shift : Nat) : Option Nat :=
  if shift < 64 then
    let temp := (nsec * mult) % 2 ^ 64
    let mx := ((2 ^ 32 - 1) * 2 ^ shift) % 2 ^ 64
    if temp ≥ mx then some (2 ^ 32 - 1)
    else some ((temp / 2 ^ shift) % 2 ^ 32)
  else none

/-- `timespec_add_ns`, lines 37-71. -/
def addNs (ts : TS) (ns : Nat) : Option TS :=
  if (ns : Int) > u32 NSEC_MAX then
    if ts.sec ≥ TIME_MAX then some ⟨TIME_MAX, NSEC_MAX⟩
    else do
      let s ← chk (ts.sec + 1)
      return ⟨s, ts.nsec⟩
  else do
    let sum ← chk (ns + ts.nsec)
    let sum := u32 sum
    if sum > NSEC_MAX then
      if ts.sec ≥ TIME_MAX then return ⟨TIME_MAX, NSEC_MAX⟩
      else
        let s ← chk (ts.sec + 1)
        return ⟨s, u32 (sum - (NSEC_MAX + 1))⟩
    else return ⟨ts.sec, sum⟩

/-- `timespec_add`, lines 78-115. -/
def add (ts inc : TS) : Option TS :=
  if inc.sec < 0 ∨ inc.nsec < 0 ∨ inc.nsec > NSEC_MAX then some ts
  else do
    let d ← chk (TIME_MAX - ts.sec)
    if inc.sec > d then return ⟨TIME_MAX, NSEC_MAX⟩
    else
      let sec ← chk (ts.sec + inc.sec)
      let nsec := u64 (ts.nsec + inc.nsec)
      if nsec > u64 NSEC_MAX then
        if sec ≥ TIME_MAX then return ⟨TIME_MAX, NSEC_MAX⟩
        else
          let sec ← chk (sec + 1)
          return ⟨sec, u64 (nsec - (NSEC_MAX + 1))⟩
      else return ⟨sec, nsec⟩

/-- `timespec_cmp`, lines 118-130. -/
def cmp (x y : TS) : Int :=
  if x.sec ≠ y.sec then if x.sec < y.sec then -1 else 1
  else if x.nsec ≠ y.nsec then if x.nsec < y.nsec then -1 else 1
  else 0

/-- `check_deadline`, lines 137-149: the clock returned `r` and the time `now`. -/
def checkDeadline (r : Int) (now deadline : TS) : Bool :=
  if r ≠ 0 then true else cmp now deadline ≥ 0

/-! ## Specification: time as one number of nanoseconds -/

/-- A normalized time that fits the type. -/
def Valid (t : TS) : Prop := -2 ^ 63 ≤ t.sec ∧ t.sec ≤ 2 ^ 63 - 1 ∧ 0 ≤ t.nsec ∧ t.nsec < 10 ^ 9

def nanos (t : TS) : Int := t.sec * 10 ^ 9 + t.nsec

/-- The largest representable time. -/
def maxNanos : Int := (2 ^ 63 - 1) * 10 ^ 9 + (10 ^ 9 - 1)

/-! ## Proofs -/

theorem valid_le_max {t : TS} (h : Valid t) : nanos t ≤ maxNanos := by
  unfold Valid at h; unfold nanos maxNanos; omega

/-- The number determines a normalized time. -/
theorem nanos_inj {a b : TS} (ha : Valid a) (hb : Valid b) (h : nanos a = nanos b) : a = b := by
  obtain ⟨as, an⟩ := a; obtain ⟨bs, bn⟩ := b
  simp only [Valid, nanos, TS.mk.injEq] at *; omega

theorem chk_some {x : Int} (h1 : -2 ^ 63 ≤ x) (h2 : x ≤ 2 ^ 63 - 1) : chk x = some x := if_pos ⟨h1, h2⟩
theorem chk_none {x : Int} (h : 2 ^ 63 - 1 < x) : chk x = none := if_neg (by omega)

/-- C57: `timespec_add_ns` is defined for every valid time and every 32-bit increment, and returns
the exact normalized sum (increments above a second count as one second), saturated at the
largest time. -/
theorem addNs_spec (ts : TS) (h : Valid ts) (ns : Nat) (hns : ns < 2 ^ 32) :
    ∃ r, addNs ts ns = some r ∧ Valid r ∧
      nanos r = min (nanos ts + min (ns : Int) (10 ^ 9)) maxNanos := by
  obtain ⟨s, n⟩ := ts
  simp only [Valid] at h
  simp only [addNs, chk, u32, TIME_MAX, NSEC_MAX, maxNanos, nanos, Valid, bind, Option.bind, pure]
  by_cases h1 : (ns : Int) > (1000 * 1000 * 1000 - 1) % 2 ^ 32
  · rw [if_pos h1]
    by_cases h2 : s ≥ 2 ^ 63 - 1
    · rw [if_pos h2]; refine ⟨_, rfl, ?_, ?_⟩ <;> simp only <;> omega
    · rw [if_neg h2, if_pos (by omega)]; refine ⟨_, rfl, ?_, ?_⟩ <;> simp only <;> omega
  · rw [if_neg h1, if_pos (by omega)]
    simp only
    by_cases h2 : ((ns : Int) + n) % 2 ^ 32 > 1000 * 1000 * 1000 - 1
    · rw [if_pos h2]
      by_cases h3 : s ≥ 2 ^ 63 - 1
      · rw [if_pos h3]; refine ⟨_, rfl, ?_, ?_⟩ <;> simp only <;> omega
      · rw [if_neg h3, if_pos (by omega)]; refine ⟨_, rfl, ?_, ?_⟩ <;> simp only <;> omega
    · rw [if_neg h2]; refine ⟨_, rfl, ?_, ?_⟩ <;> simp only <;> omega

/-- C57: `timespec_add` on a valid non-negative time (any time of a monotonic clock) and a valid
non-negative increment: defined, and the exact normalized sum saturated at the largest time. -/
theorem add_spec (ts inc : TS) (h : Valid ts) (h0 : 0 ≤ ts.sec) (hi : Valid inc) (hi0 : 0 ≤ inc.sec) :
    ∃ r, add ts inc = some r ∧ Valid r ∧ nanos r = min (nanos ts + nanos inc) maxNanos := by
  obtain ⟨s, n⟩ := ts
  obtain ⟨s', n'⟩ := inc
  simp only [Valid] at h hi h0 hi0
  have hg : ¬ (s' < 0 ∨ n' < 0 ∨ n' > NSEC_MAX) := by simp only [NSEC_MAX]; omega
  have ht : TIME_MAX = 2 ^ 63 - 1 := rfl
  have hn : NSEC_MAX = 10 ^ 9 - 1 := rfl
  have hu1 : u64 (n + n') = n + n' := by unfold u64; omega
  have hu2 : u64 NSEC_MAX = 10 ^ 9 - 1 := by decide
  rw [add, if_neg hg, chk_some (x := TIME_MAX - s) (by omega) (by omega)]
  simp only [bind, Option.bind, pure]
  by_cases h1 : s' > TIME_MAX - s
  · rw [if_pos h1]; refine ⟨_, rfl, ?_, ?_⟩ <;> simp only [Valid, nanos, maxNanos] <;> omega
  · rw [if_neg h1, chk_some (x := s + s') (by omega) (by omega)]
    simp only
    by_cases h2 : u64 (n + n') > u64 NSEC_MAX
    · have hu3 : u64 (u64 (n + n') - (NSEC_MAX + 1)) = n + n' - 10 ^ 9 := by
        rw [hu1, hn]; unfold u64; omega
      rw [if_pos h2]
      by_cases h3 : s + s' ≥ TIME_MAX
      · rw [if_pos h3]; refine ⟨_, rfl, ?_, ?_⟩ <;> simp only [Valid, nanos, maxNanos] <;> omega
      · rw [if_neg h3, chk_some (x := s + s' + 1) (by omega) (by omega)]
        refine ⟨_, rfl, ?_, ?_⟩ <;> simp only [Valid, nanos, maxNanos] <;> omega
    · rw [if_neg h2]; refine ⟨_, rfl, ?_, ?_⟩ <;> simp only [Valid, nanos, maxNanos] <;> omega

/-- C57: a negative or malformed increment is a no-op. -/
theorem add_invalid (ts inc : TS) (h : inc.sec < 0 ∨ inc.nsec < 0 ∨ 10 ^ 9 ≤ inc.nsec) :
    add ts inc = some ts := by
  have : inc.sec < 0 ∨ inc.nsec < 0 ∨ inc.nsec > NSEC_MAX := by simp only [NSEC_MAX]; omega
  simp only [add, if_pos this]

/-- The guard `0 ≤ ts.sec` of `add_spec` is exact: with a negative time the overflow test itself
overflows (undefined behaviour). -/
theorem add_negative_ub (ts inc : TS) (hs : ts.sec < 0) (hi : Valid inc) (hi0 : 0 ≤ inc.sec) :
    add ts inc = none := by
  obtain ⟨s, n⟩ := ts
  obtain ⟨s', n'⟩ := inc
  simp only [Valid] at hi hi0 hs
  have hg : ¬ (s' < 0 ∨ n' < 0 ∨ n' > NSEC_MAX) := by simp only [NSEC_MAX]; omega
  rw [add, if_neg hg]
  simp only [TIME_MAX, NSEC_MAX, bind, Option.bind]
  rw [chk_none (x := 2 ^ 63 - 1 - s) (by omega)]

/-- C57: later times and larger increments give later deadlines. -/
theorem add_mono {a b i j ra rb : TS} (ha : Valid a) (hb : Valid b) (ha0 : 0 ≤ a.sec) (hb0 : 0 ≤ b.sec)
    (hi : Valid i) (hj : Valid j) (hi0 : 0 ≤ i.sec) (hj0 : 0 ≤ j.sec)
    (hab : nanos a ≤ nanos b) (hij : nanos i ≤ nanos j)
    (e1 : add a i = some ra) (e2 : add b j = some rb) : nanos ra ≤ nanos rb := by
  obtain ⟨_, f1, -, g1⟩ := add_spec a i ha ha0 hi hi0
  obtain ⟨_, f2, -, g2⟩ := add_spec b j hb hb0 hj hj0
  rw [f1] at e1; rw [f2] at e2; cases e1; cases e2
  omega

/-- C57: `timespec_cmp` is the order of times. -/
theorem cmp_spec {a b : TS} (ha : Valid a) (hb : Valid b) :
    (cmp a b = -1 ↔ nanos a < nanos b) ∧ (cmp a b = 0 ↔ a = b) ∧ (cmp a b = 1 ↔ nanos b < nanos a) := by
  obtain ⟨s, n⟩ := a; obtain ⟨s', n'⟩ := b
  simp only [Valid, nanos, cmp, TS.mk.injEq] at *
  by_cases h1 : s = s'
  · subst h1
    by_cases h2 : n = n'
    · subst h2; simp
    · simp only [ne_eq, not_true_eq_false, if_false, h2, not_false_eq_true, if_true]
      split <;> simp <;> omega
  · simp only [ne_eq, h1, not_false_eq_true, if_true]
    split <;> simp <;> omega

/-- C57: with a working clock the deadline test is exactly "now is not before the deadline"; with a
broken clock it is true, so a wait never hangs on it. -/
theorem checkDeadline_spec {now dl : TS} (h1 : Valid now) (h2 : Valid dl) (r : Int) :
    checkDeadline r now dl = true ↔ r ≠ 0 ∨ nanos dl ≤ nanos now := by
  have ⟨c1, c2, c3⟩ := cmp_spec h1 h2
  unfold checkDeadline
  by_cases hr : r = 0
  · simp only [hr, ne_eq, not_true_eq_false, if_false, false_or, decide_eq_true_eq]
    have h3 : cmp now dl = -1 ∨ cmp now dl = 0 ∨ cmp now dl = 1 := by
      unfold cmp; repeat' split
      all_goals simp
    constructor
    · intro h
      have : cmp now dl ≠ -1 := by omega
      have := mt c1.2 this
      omega
    · intro h
      have : cmp now dl ≠ -1 := fun e => by have := c1.1 e; omega
      omega
  · simp [hr]

/-- C57: `wait_time_scale` is the product divided by `2 ^ shift`, clamped to `2 ^ 32 - 1`.  The
shifts in use are 0 to 32 (the exponential backoff passes its shift count straight through). -/
theorem waitTimeScale_spec (nsec mult shift : Nat) (h1 : nsec < 2 ^ 32) (h2 : mult < 2 ^ 32)
    (h3 : shift ≤ 32) :
    waitTimeScale nsec mult shift = some (min (nsec * mult / 2 ^ shift) (2 ^ 32 - 1)) := by
  have hb : nsec * mult < 2 ^ 64 := by
    have : nsec * mult ≤ (2 ^ 32 - 1) * (2 ^ 32 - 1) := Nat.mul_le_mul (by omega) (by omega)
    omega
  have hp : 0 < 2 ^ shift := Nat.two_pow_pos shift
  have hp2 : 2 ^ shift ≤ 2 ^ 32 := Nat.pow_le_pow_right (by omega) h3
  have hm : (2 ^ 32 - 1) * 2 ^ shift < 2 ^ 64 := by
    have : (2 ^ 32 - 1) * 2 ^ shift ≤ (2 ^ 32 - 1) * 2 ^ 32 := Nat.mul_le_mul_left _ hp2
    omega
  simp only [waitTimeScale]
  rw [if_pos (by omega), Nat.mod_eq_of_lt hb, Nat.mod_eq_of_lt hm]
  by_cases h : nsec * mult ≥ (2 ^ 32 - 1) * 2 ^ shift
  · rw [if_pos h]
    have : 2 ^ 32 - 1 ≤ nsec * mult / 2 ^ shift := (Nat.le_div_iff_mul_le hp).2 h
    congr 1; omega
  · rw [if_neg h]
    have : nsec * mult / 2 ^ shift < 2 ^ 32 - 1 := (Nat.div_lt_iff_lt_mul hp).2 (by omega)
    rw [Nat.mod_eq_of_lt (by omega)]
    congr 1; omega

/-- Beyond 32 the clamp value itself is truncated and the result is wrong. -/
theorem waitTimeScale_large_shift : waitTimeScale (2 ^ 31) (2 ^ 31) 63 = some 0 ∧
    waitTimeScale (2 ^ 32 - 1) (2 ^ 32 - 1) 63 = some (2 ^ 32 - 1) := by decide

example : Valid ⟨5, 999999999⟩ ∧ addNs ⟨5, 999999999⟩ 2 = some ⟨6, 1⟩ ∧
    add ⟨2 ^ 63 - 1, 5⟩ ⟨0, 999999999⟩ = some ⟨2 ^ 63 - 1, 999999999⟩ := by
  refine ⟨by simp [Valid], by decide, by decide⟩

end Verif.TimeUtil
