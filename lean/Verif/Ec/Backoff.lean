import Verif.Misc.TimeUtil

/-!
# The sleeps of `ck_ec_wait` (C63), `exponential_backoff`, `src/ck_ec.c` lines 125-193

One round of the backoff loop: from the clock and the caller's deadline it computes the deadline of the sleep.
The inner `do … while` loop (lines 169-175) is the relation `Inner`, since it need not terminate.
Times are as in `Misc/TimeUtil.lean`.
-/

namespace Verif.Ec.Backoff

open Verif.TimeUtil

/-- The settings of `ck_ec_ops` after the defaults are filled in, lines 138-146. -/
structure Cfg where
  scale : Nat
  shift : Nat

/-- `DEFAULT_WAIT_SCALE_FACTOR`, `DEFAULT_WAIT_SHIFT_COUNT`, `DEFAULT_INITIAL_WAIT_NS`, lines 10-16. -/
def Cfg.default : Cfg := ⟨8, 0⟩
def defaultWait : Nat := 2000000

/-- The inner loop, lines 169-175: from `wait_ns` to the partial deadline and the next `wait_ns`. -/
inductive Inner (c : Cfg) (start now : TS) : Nat → TS → Nat → Prop
  | stop {w w' : Nat} {p : TS} : addNs start w = some p → waitTimeScale w c.scale c.shift = some w' →
      ¬ cmp p now ≤ 0 → Inner c start now w p w'
  | again {w w1 w' : Nat} {p q : TS} : addNs start w = some p → waitTimeScale w c.scale c.shift = some w1 →
      cmp p now ≤ 0 → Inner c start now w1 q w' → Inner c start now w q w'

/-- One round after the deadline test, lines 160-176: `stop_backoff` is one second after the start.  The result is
the deadline passed to the predicate and to the sleep. -/
inductive Round (c : Cfg) (start now deadline : TS) : Nat → TS → Nat → Prop
  | full {w : Nat} {stop : TS} : add start ⟨1, 0⟩ = some stop → cmp now stop ≥ 0 →
      Round c start now deadline w deadline w
  | part {w w' : Nat} {p stop : TS} : add start ⟨1, 0⟩ = some stop → ¬ cmp now stop ≥ 0 →
      Inner c start now w p w' → Round c start now deadline w p w'

/-- A sane clock reading: valid, non-negative, and more than a second before the end of time. -/
def Sane (t : TS) : Prop := Valid t ∧ 0 ≤ t.sec ∧ nanos t + 10 ^ 9 < maxNanos

theorem cmp_le {a b : TS} (ha : Valid a) (hb : Valid b) : cmp a b ≤ 0 ↔ nanos a ≤ nanos b := by
  have ⟨c1, _, c3⟩ := cmp_spec ha hb
  have h3 : cmp a b = -1 ∨ cmp a b = 0 ∨ cmp a b = 1 := by
    unfold cmp; repeat' split
    all_goals simp
  constructor
  · intro h
    have : cmp a b ≠ 1 := by omega
    have := mt c3.2 this
    omega
  · intro h
    have : cmp a b ≠ 1 := fun e => by have := c3.1 e; omega
    omega

theorem cmp_ge {a b : TS} (ha : Valid a) (hb : Valid b) : cmp a b ≥ 0 ↔ nanos b ≤ nanos a := by
  have ⟨c1, _, c3⟩ := cmp_spec ha hb
  have h3 : cmp a b = -1 ∨ cmp a b = 0 ∨ cmp a b = 1 := by
    unfold cmp; repeat' split
    all_goals simp
  constructor
  · intro h
    have : cmp a b ≠ -1 := by omega
    have := mt c1.2 this
    omega
  · intro h
    have : cmp a b ≠ -1 := fun e => by have := c1.1 e; omega
    omega

theorem addNs_sane {start : TS} (hs : Sane start) {w : Nat} (hw : w < 2 ^ 32) :
    ∃ p, addNs start w = some p ∧ Valid p ∧ nanos p = nanos start + min (w : Int) (10 ^ 9) := by
  obtain ⟨p, h1, h2, h3⟩ := addNs_spec start hs.1 w hw
  refine ⟨p, h1, h2, ?_⟩
  have := hs.2.2
  omega

theorem stop_sane {start : TS} (hs : Sane start) :
    ∃ p, add start ⟨1, 0⟩ = some p ∧ Valid p ∧ nanos p = nanos start + 10 ^ 9 := by
  obtain ⟨p, h1, h2, h3⟩ := add_spec start ⟨1, 0⟩ hs.1 hs.2.1 (by simp [Valid]) (by simp)
  refine ⟨p, h1, h2, ?_⟩
  have h4 : nanos ⟨1, 0⟩ = 10 ^ 9 := by simp [nanos]
  have := hs.2.2
  omega

/-- What the inner loop computes. -/
theorem inner_spec {c : Cfg} {start now : TS} (hs : Sane start) (hn : Valid now) (hc : c.scale < 2 ^ 32)
    (hsh : c.shift ≤ 32) {w w' : Nat} {p : TS} (hw : w < 2 ^ 32) (h : Inner c start now w p w') :
    Valid p ∧ nanos now < nanos p ∧ nanos p ≤ nanos start + 10 ^ 9 ∧ w' < 2 ^ 32 := by
  induction h with
  | stop h1 h2 h3 =>
    obtain ⟨q, e1, e2, e3⟩ := addNs_sane hs hw
    rw [e1] at h1; cases h1
    rw [cmp_le e2 hn] at h3
    rw [waitTimeScale_spec _ _ _ hw hc hsh] at h2; cases h2
    exact ⟨e2, by omega, by omega, by omega⟩
  | again h1 h2 h3 _ ih =>
    rw [waitTimeScale_spec _ _ _ hw hc hsh] at h2; cases h2
    exact ih (by omega)

/-- **C63**: a round that does not give up sleeps until a time after now; while backing off, at most one second
after the start of the wait; once a second has passed, until exactly the caller's deadline. -/
theorem round_spec {c : Cfg} {start now deadline : TS} (hs : Sane start) (hn : Valid now) (hd : Valid deadline)
    (hc : c.scale < 2 ^ 32) (hsh : c.shift ≤ 32) {w w' : Nat} {p : TS} (hw : w < 2 ^ 32)
    (hnow : checkDeadline 0 now deadline = false) (h : Round c start now deadline w p w') :
    nanos now < nanos p ∧ w' < 2 ^ 32 ∧
      (nanos start + 10 ^ 9 ≤ nanos now → p = deadline) ∧
      (nanos now < nanos start + 10 ^ 9 → nanos p ≤ nanos start + 10 ^ 9) := by
  obtain ⟨st, e1, e2, e3⟩ := stop_sane hs
  cases h with
  | full h1 h2 =>
    rw [e1] at h1; cases h1
    rw [cmp_ge hn e2] at h2
    have h4 : ¬ (checkDeadline 0 now deadline = true) := by rw [hnow]; simp
    rw [checkDeadline_spec hn hd] at h4
    exact ⟨by omega, hw, fun _ => rfl, by omega⟩
  | part h1 h2 h3 =>
    rw [e1] at h1; cases h1
    rw [cmp_ge hn e2] at h2
    obtain ⟨i1, i2, i3, i4⟩ := inner_spec hs hn hc hsh hw h3
    exact ⟨i2, i4, by omega, fun _ => i3⟩

/-- **C63, termination**: if the wait time at least doubles per round of the inner loop, as with the defaults, the
round computes a deadline. -/
theorem round_terminates {c : Cfg} {start now deadline : TS} (hs : Sane start) (hn : Valid now)
    (hc : c.scale < 2 ^ 32) (hsh : c.shift ≤ 32) (hg : 2 * 2 ^ c.shift ≤ c.scale) {w : Nat} (hw : w < 2 ^ 32)
    (h0 : 0 < w) : ∃ p w', 0 < w' ∧ Round c start now deadline w p w' := by
  obtain ⟨st, e1, e2, e3⟩ := stop_sane hs
  by_cases hfull : nanos start + 10 ^ 9 ≤ nanos now
  · exact ⟨deadline, w, h0, .full e1 (by rw [cmp_ge hn e2]; omega)⟩
  · suffices H : ∃ p w', 0 < w' ∧ Inner c start now w p w' by
      obtain ⟨p, w', h1, h2⟩ := H
      exact ⟨p, w', h1, .part e1 (by rw [cmp_ge hn e2]; omega) h2⟩
    induction hk : 2 ^ 32 - w using Nat.strongRecOn generalizing w with
    | ind k ih =>
      obtain ⟨p, f1, f2, f3⟩ := addNs_sane hs hw
      have hpos : 0 < 2 ^ c.shift := Nat.two_pow_pos _
      have hgrow : 2 * w ≤ w * c.scale / 2 ^ c.shift := by
        rw [Nat.le_div_iff_mul_le hpos]
        calc 2 * w * 2 ^ c.shift = w * (2 * 2 ^ c.shift) := by rw [Nat.mul_comm 2 w, Nat.mul_assoc]
          _ ≤ w * c.scale := Nat.mul_le_mul_left _ hg
      have hsc := waitTimeScale_spec w c.scale c.shift hw hc hsh
      by_cases hcmp : cmp p now ≤ 0
      · have hle := (cmp_le f2 hn).1 hcmp
        have hlt : w < 10 ^ 9 := by omega
        obtain ⟨q, w', g1, g2⟩ := ih (2 ^ 32 - min (w * c.scale / 2 ^ c.shift) (2 ^ 32 - 1)) (by omega)
          (w := min (w * c.scale / 2 ^ c.shift) (2 ^ 32 - 1)) (by omega) (by omega) rfl
        exact ⟨q, w', g1, .again f1 hsc hcmp g2⟩
      · exact ⟨p, _, by omega, .stop f1 hsc hcmp⟩

/-- The defaults meet the hypotheses: after 0.9 s the deadline is one second after the start. -/
example : 2 * 2 ^ Cfg.default.shift ≤ Cfg.default.scale ∧
    Inner .default ⟨100, 0⟩ ⟨100, 900000000⟩ defaultWait ⟨101, 0⟩ (2 ^ 32 - 1) := by
  refine ⟨by decide, ?_⟩
  refine .again (p := ⟨100, 2000000⟩) (w1 := 16000000) (by decide) (by decide) (by decide) ?_
  refine .again (p := ⟨100, 16000000⟩) (w1 := 128000000) (by decide) (by decide) (by decide) ?_
  refine .again (p := ⟨100, 128000000⟩) (w1 := 1024000000) (by decide) (by decide) (by decide) ?_
  exact .stop (by decide) (by decide) (by decide)

/-- **Deviation**: if the wait time does not grow (scale factor at most `2 ^ shift`, e.g. a scale factor of 1), then
from the moment `wait_ns` has passed until a second has passed the round never ends: wait spins without testing
the counter, the predicate or the caller's deadline. -/
theorem no_growth_hangs {c : Cfg} {start now deadline : TS} (hs : Sane start) (hn : Valid now)
    (hc : c.scale ≤ 2 ^ c.shift) (hc2 : c.scale < 2 ^ 32) (hsh : c.shift ≤ 32) {w : Nat} (hw : w < 2 ^ 32)
    (h1 : nanos start + w ≤ nanos now) (h2 : nanos now < nanos start + 10 ^ 9) :
    ¬ ∃ p w', Round c start now deadline w p w' := by
  rintro ⟨p, w', h⟩
  obtain ⟨st, e1, e2, e3⟩ := stop_sane hs
  cases h with
  | full h3 h4 =>
    rw [e1] at h3; cases h3
    rw [cmp_ge hn e2] at h4
    omega
  | part _ _ h =>
    induction h with
    | stop g1 g2 g3 =>
      obtain ⟨q, f1, f2, f3⟩ := addNs_sane hs hw
      rw [f1] at g1; cases g1
      exact g3 ((cmp_le f2 hn).2 (by omega))
    | @again w w1 w' p q g1 g2 g3 _ ih =>
      have hle : w * c.scale / 2 ^ c.shift ≤ w := by
        rw [Nat.div_le_iff_le_mul_add_pred (Nat.two_pow_pos _)]
        have := Nat.mul_le_mul_left w hc
        rw [Nat.mul_comm (2 ^ c.shift) w]
        omega
      rw [waitTimeScale_spec _ _ _ hw hc2 hsh] at g2; cases g2
      exact ih (by omega) (by omega)

example : ¬ ∃ p w', Round ⟨1, 0⟩ ⟨100, 0⟩ ⟨100, 3000000⟩ ⟨100, 4000000⟩ 2000000 p w' := by
  refine no_growth_hangs ?_ ?_ (by decide) (by decide) (by decide) (by decide) ?_ ?_ <;>
    simp [Sane, Valid, nanos, maxNanos]

/-- **Deviation**: while backing off, the sleep is not cut at the caller's deadline: with the defaults a wait whose
deadline is 130 ms away may sleep for a whole second. -/
theorem oversleeps : ∃ start now deadline p w w', Sane start ∧ Valid now ∧ Valid deadline ∧
    checkDeadline 0 now deadline = false ∧ Round .default start now deadline w p w' ∧
    nanos deadline = nanos start + 130000000 ∧ nanos p = nanos start + 10 ^ 9 := by
  refine ⟨⟨100, 0⟩, ⟨100, 129000000⟩, ⟨100, 130000000⟩, ⟨101, 0⟩, 1024000000, 2 ^ 32 - 1, ?_, ?_, ?_, by decide,
    .part (stop := ⟨101, 0⟩) (by decide) (by decide) (.stop (by decide) (by decide) (by decide)), ?_, ?_⟩ <;>
    simp [Sane, Valid, nanos, maxNanos]

end Verif.Ec.Backoff
