import Verif.Bitmap.Thm
import Verif.Core.Lin

/-!
# Concurrent use of `ck_bitmap` (C46)

`ck_bitmap_set` (172-178), `ck_bitmap_bts` (186-192), `ck_bitmap_reset` (197-203) and `ck_bitmap_test`
(209-216) on one bitmap of `N` bits by any number of threads.  The read-modify-write of a word is
either one indivisible instruction (`fused`) or the load and compare-and-swap loop of
`include/ck_pr.h:222-237,491-503` (`run`).  `won`, `bts`, `put`, `cut` are ghost counters per bit.
-/

namespace Verif.Bitmap.Conc

open Verif Verif.Lin Verif.Bitmap

variable {N n : Nat}

inductive Op (N : Nat)
  | set (i : Fin N) | bts (i : Fin N) | reset (i : Fin N) | test (i : Fin N)

inductive Res
  | unit | flag (b : Bool)

/-- The bit an operation names. -/
def Op.idx : Op N → Fin N
  | .set i | .bts i | .reset i | .test i => i

/-- New value of the word. -/
def expr : Op N → BitVec 32 → BitVec 32
  | .set i, p => p ||| bitOf i
  | .bts i, p => p ||| (1#32 <<< (i.val % 32))
  | .reset i, p => p &&& ~~~ bitOf i
  | .test _, p => p

/-- Result computed from the old value of the word. -/
def out : Op N → BitVec 32 → Res
  | .bts i, p => .flag (p.getLsbD (i.val % 32))
  | .test i, p => .flag (p &&& bitOf i != 0#32)
  | _, _ => .unit

inductive PC (N : Nat)
  | idle
  | load (o : Op N)
  | cas (o : Op N) (p : BitVec 32)
  | ret (r : Res)

structure St (N n : Nat) where
  map : Nat → BitVec 32
  th : Fin n → PC N
  /-- completed `bts` that found the bit clear -/
  won : Fin N → Nat
  /-- completed `bts` -/
  bts : Fin N → Nat
  /-- completed `set` -/
  put : Fin N → Nat
  /-- completed `reset` -/
  cut : Fin N → Nat

inductive Act (N n : Nat)
  | call (t : Fin n) (o : Op N)
  | run (t : Fin n)
  | fused (t : Fin n)
  | ret (t : Fin n)

def cnt1 (f : Fin N → Nat) (i : Fin N) : Fin N → Nat := upd f i (f i + 1)

/-- The indivisible update by operation `o`, which found the word `p`. -/
def apply (s : St N n) (t : Fin n) (o : Op N) (p : BitVec 32) : St N n :=
  let s := { s with map := upd s.map (o.idx / 32) (expr o p), th := upd s.th t (.ret (out o p)) }
  match o with
  | .set i => { s with put := cnt1 s.put i }
  | .bts i => { s with bts := cnt1 s.bts i, won := if p.getLsbD (i.val % 32) then s.won else cnt1 s.won i }
  | .reset i => { s with cut := cnt1 s.cut i }
  | .test _ => s

def step (s : St N n) : Act N n → Option (St N n)
  | .call t o => match s.th t with
    | .idle => some { s with th := upd s.th t (.load o) }
    | _ => none
  | .run t => match s.th t with
    | .load o => some { s with th := upd s.th t (.cas o (s.map (o.idx / 32))) }
    | .cas o p =>
      if s.map (o.idx / 32) = p then some (apply s t o p)
      else some { s with th := upd s.th t (.cas o (s.map (o.idx / 32))) }
    | _ => none
  | .fused t => match s.th t with
    | .load o => some (apply s t o (s.map (o.idx / 32)))
    | _ => none
  | .ret t => match s.th t with
    | .ret _ => some { s with th := upd s.th t .idle }
    | _ => none

def sys (N n : Nat) : Sys (St N n) (Act N n) :=
  { init := fun s => (∀ t, s.th t = .idle) ∧
      ∀ i, s.won i = 0 ∧ s.bts i = 0 ∧ s.put i = 0 ∧ s.cut i = 0
    step := step }

def obs (s : St N n) : Act N n → Option (Ev (Fin n) (Op N) Res)
  | .call t o => some (.call t o)
  | .run _ => none
  | .fused _ => none
  | .ret t => match s.th t with
    | .ret r => some (.ret t r)
    | _ => none

/-! ## Specification: an array of independent booleans -/

def App (x : Fin N → Bool) : Op N → Res → (Fin N → Bool) → Prop
  | .set i, r, x' => x' = upd x i true ∧ r = .unit
  | .bts i, r, x' => x' = upd x i true ∧ r = .flag (x i)
  | .reset i, r, x' => x' = upd x i false ∧ r = .unit
  | .test i, r, x' => x' = x ∧ r = .flag (x i)

def obj (N : Nat) : Obj (Op N) Res (Fin N → Bool) := { init := fun _ => True, app := App }

/-- The bits held by a buffer. -/
def bits (m : Nat → BitVec 32) (i : Fin N) : Bool := (m (i / 32)).getLsbD (i % 32)

/-! ## Proofs -/

theorem bits_upd (m : Nat → BitVec 32) (i j : Fin N) (w : BitVec 32) :
    bits (upd m (i / 32) w) j =
      if (j : Nat) / 32 = i / 32 then w.getLsbD (j % 32) else bits m j := by
  simp only [bits, upd_apply]; split <;> rfl

theorem same {i j : Fin N} (h : (j : Nat) / 32 = i / 32) : ((j : Nat) % 32 = i % 32) ↔ j = i := by
  rw [Fin.ext_iff]; omega

theorem bits_or (m : Nat → BitVec 32) (i : Fin N) :
    bits (upd m (i / 32) (m (i / 32) ||| bitOf i)) = upd (bits m) i true := by
  funext j
  rw [bits_upd, upd_apply]
  by_cases h : (j : Nat) / 32 = i / 32
  · rw [if_pos h, BitVec.getLsbD_or, bitOf_lsb, show decide ((j : Nat) % 32 = i % 32) = decide (j = i) from decide_eq_decide.2 (same h)]
    by_cases hj : j = i
    · simp [hj]
    · simp [hj, bits, h]
  · rw [if_neg h, if_neg]; rintro rfl; exact h rfl

theorem bits_and (m : Nat → BitVec 32) (i : Fin N) :
    bits (upd m (i / 32) (m (i / 32) &&& ~~~ bitOf i)) = upd (bits m) i false := by
  funext j
  have h32 : (j : Nat) % 32 < 32 := Nat.mod_lt _ (by decide)
  rw [bits_upd, upd_apply]
  by_cases h : (j : Nat) / 32 = i / 32
  · rw [if_pos h, BitVec.getLsbD_and, BitVec.getLsbD_not, bitOf_lsb, show decide ((j : Nat) % 32 = i % 32) = decide (j = i) from decide_eq_decide.2 (same h)]
    by_cases hj : j = i
    · simp [hj]
    · simp [hj, bits, h, h32]
  · rw [if_neg h, if_neg]; rintro rfl; exact h rfl

theorem bits_same (m : Nat → BitVec 32) (i : Fin N) :
    bits (N := N) (upd m (i / 32) (m (i / 32))) = bits m := by
  rw [upd_eq_self]

theorem apply_app (s : St N n) (t : Fin n) (o : Op N) :
    App (bits s.map) o (out o (s.map (o.idx / 32))) (bits (apply s t o (s.map (o.idx / 32))).map) := by
  cases o with
  | set i => exact ⟨bits_or s.map i, rfl⟩
  | bts i => exact ⟨bits_or s.map i, rfl⟩
  | reset i => exact ⟨bits_and s.map i, rfl⟩
  | test i => exact ⟨bits_same s.map i, by simp only [out, test_lsb]; rfl⟩

theorem apply_th (s : St N n) (t : Fin n) (o : Op N) (p : BitVec 32) :
    (apply s t o p).th = upd s.th t (.ret (out o p)) := by cases o <;> rfl

def view : PC N → TS (Op N) Res
  | .idle => .idle
  | .load o => .pend o
  | .cas o _ => .pend o
  | .ret r => .done r

/-- **C46.**  Any interleaving of `set`, `bts`, `reset` and `test` behaves as if each call changed or
read its own bit in one indivisible step: no update of another bit of the same word, or of the same bit,
is lost. -/
theorem linearizable : Linearizable (sys N n) obs (obj N) := by
  refine linearizable_of_sim (fun s α => α = { x := bits s.map, th := fun t => view (s.th t) }) ?_ ?_
  · intro s h0
    exact ⟨bits s.map, trivial, by congr; funext t; rw [h0.1 t]; rfl⟩
  · rintro s a s' α - rfl hs
    refine ⟨_, ?_, rfl⟩
    cases a <;> simp only [sys, step] at hs
    case call t o =>
      split at hs <;> cases hs
      next hp => exact .call' (by simp [hp, view]) (by simp only [upd_comp]; rfl)
    case run t =>
      split at hs
      · next o hp =>
        cases hs
        exact .skip (by simp only; rw [upd_comp_same]; simp [hp, view])
      · next o p hp =>
        split at hs <;> cases hs
        · next hx =>
          subst hx
          refine .lin' (o := o) (t := t) (by simp [hp, view]) (apply_app s t o) ?_
          simp only [apply_th, upd_comp]; rfl
        · exact .skip (by simp only; rw [upd_comp_same]; simp [hp, view])
      · cases hs
    case fused t =>
      split at hs <;> cases hs
      next o hp =>
        refine .lin' (o := o) (t := t) (by simp [hp, view]) (apply_app s t o) ?_
        simp only [apply_th, upd_comp]; rfl
    case ret t =>
      split at hs <;> cases hs
      next r hp =>
        simp only [obs, hp]
        exact .ret' (by simp [hp, view]) (by simp only [upd_comp]; rfl)

/-- Per bit: what the counters say about the bit, `b0` being its initial value. -/
structure BitInv (s : St N n) (i : Fin N) (b0 : Bool) : Prop where
  le : s.won i + (if b0 then 1 else 0) ≤ s.cut i + 1
  up : s.cut i = 0 → bits s.map i = (b0 || decide (0 < s.put i + s.bts i))
  one : s.cut i = 0 → s.put i = 0 → s.won i = if b0 then 0 else if 0 < s.bts i then 1 else 0
  down : bits s.map i = false → s.won i + (if b0 then 1 else 0) ≤ s.cut i
  wb : s.won i ≤ s.bts i

theorem BitInv.apply {s : St N n} {i : Fin N} {b0 : Bool} (h : BitInv s i b0) (t : Fin n) (o : Op N) :
    BitInv (apply s t o (s.map (o.idx / 32))) i b0 := by
  have happ := apply_app s t o
  obtain ⟨h1, h2, h3, h4, h5⟩ := h
  cases o with
  | set j =>
    obtain ⟨hb, -⟩ := happ
    by_cases hj : i = j
    · subst hj
      constructor
      · exact h1
      · intro hc
        rw [hb, upd_same]
        simp [Conc.apply, cnt1]
      · intro _ hp; simp [Conc.apply, cnt1] at hp
      · rw [hb, upd_same]; simp
      · exact h5
    · have hu : upd (bits s.map) j true i = bits s.map i := upd_ne _ _ hj
      have hp : (Conc.apply s t (.set j) (s.map ((Op.set j).idx / 32))).put i = s.put i := by
        simp [Conc.apply, cnt1, upd_ne _ _ hj]
      constructor
      · exact h1
      · rw [hb, hu, hp]; exact h2
      · rw [hp]; exact h3
      · rw [hb, hu]; exact h4
      · exact h5
  | bts j =>
    obtain ⟨hb, -⟩ := happ
    by_cases hj : i = j
    · subst hj
      have hbit : (s.map (i.val / 32)).getLsbD (i.val % 32) = bits s.map i := rfl
      cases hv : bits s.map i with
      | true =>
        rw [hv] at hbit h2
        constructor
        · simpa [Conc.apply, Op.idx, hbit] using h1
        · intro hc; rw [hb, upd_same]; simp [Conc.apply, cnt1]
        · intro hc hp
          have hc : s.cut i = 0 := hc
          have hp : s.put i = 0 := hp
          have e2 := h2 hc
          have e3 := h3 hc hp
          simp only [Conc.apply, Op.idx, hbit, if_true, cnt1, upd_same]
          rw [e3]
          cases b0
          · simp [hp] at e2; simp [e2]
          · simp
        · rw [hb, upd_same]; simp
        · simp only [Conc.apply, Op.idx, hbit, if_true, cnt1, upd_same]; omega
      | false =>
        rw [hv] at hbit h2
        have e4 := h4 hv
        constructor
        · simp only [Conc.apply, Op.idx, hbit, cnt1, upd_same, Bool.false_eq_true, if_false]; omega
        · intro hc; rw [hb, upd_same]; simp [Conc.apply, cnt1]
        · intro hc hp
          have hc : s.cut i = 0 := hc
          have hp : s.put i = 0 := hp
          have e2 := h2 hc
          simp only [Conc.apply, Op.idx, hbit, cnt1, upd_same, Bool.false_eq_true, if_false]
          cases b0
          · have : s.won i = 0 := by simp at e4; omega
            simp [this]
          · simp at e2
        · rw [hb, upd_same]; simp
        · simp only [Conc.apply, Op.idx, hbit, cnt1, upd_same, Bool.false_eq_true, if_false]; omega
    · have hu : upd (bits s.map) j true i = bits s.map i := upd_ne _ _ hj
      have hw : (Conc.apply s t (.bts j) (s.map ((Op.bts j).idx / 32))).won i = s.won i := by
        simp only [Conc.apply]; split
        · rfl
        · simp [cnt1, upd_ne _ _ hj]
      have hbt : (Conc.apply s t (.bts j) (s.map ((Op.bts j).idx / 32))).bts i = s.bts i := by
        simp [Conc.apply, cnt1, upd_ne _ _ hj]
      constructor
      · rw [hw]; exact h1
      · rw [hb, hu, hbt]; exact h2
      · rw [hw, hbt]; exact h3
      · rw [hb, hu, hw]; exact h4
      · rw [hw, hbt]; exact h5
  | reset j =>
    obtain ⟨hb, -⟩ := happ
    by_cases hj : i = j
    · subst hj
      have hc : (Conc.apply s t (.reset i) (s.map ((Op.reset i).idx / 32))).cut i = s.cut i + 1 := by
        simp [Conc.apply, cnt1]
      constructor
      · rw [hc]; have : s.won i + _ ≤ s.cut i + 1 := h1
        exact Nat.le_succ_of_le h1
      · rw [hc]; intro h; omega
      · rw [hc]; intro h; omega
      · intro _; rw [hc]; exact h1
      · exact h5
    · have hu : upd (bits s.map) j false i = bits s.map i := upd_ne _ _ hj
      have hc : (Conc.apply s t (.reset j) (s.map ((Op.reset j).idx / 32))).cut i = s.cut i := by
        simp [Conc.apply, cnt1, upd_ne _ _ hj]
      constructor
      · rw [hc]; exact h1
      · rw [hb, hu, hc]; exact h2
      · rw [hc]; exact h3
      · rw [hb, hu, hc]; exact h4
      · exact h5
  | test j =>
    obtain ⟨hb, -⟩ := happ
    constructor
    · exact h1
    · rw [hb]; exact h2
    · exact h3
    · rw [hb]; exact h4
    · exact h5

/-- `sys` with the bits initially given by `b0`. -/
def sysFrom (n : Nat) (b0 : Fin N → Bool) : Sys (St N n) (Act N n) :=
  { init := fun s => (sys N n).init s ∧ bits s.map = b0, step := step }

theorem inv {b0 : Fin N → Bool} {s : St N n} (h : (sysFrom n b0).Reach s) (i : Fin N) :
    BitInv s i (b0 i) := by
  induction h with
  | init h0 =>
    obtain ⟨⟨-, h1⟩, h2⟩ := h0
    obtain ⟨a, b, c, d⟩ := h1 i
    constructor
    · rw [a, d]; split <;> simp
    · intro _; rw [h2, b, c]; simp
    · intro _ _; rw [a, b]; simp
    · rw [h2]; intro h; rw [h, a]; simp
    · omega
  | @step s s' a _ hs ih =>
    cases a <;> simp only [sysFrom, step] at hs
    case call t o =>
      split at hs <;> cases hs
      exact ⟨ih.1, ih.2, ih.3, ih.4, ih.5⟩
    case run t =>
      split at hs
      · cases hs; exact ⟨ih.1, ih.2, ih.3, ih.4, ih.5⟩
      · split at hs <;> cases hs
        · next o p hp hx => subst hx; exact ih.apply t o
        · exact ⟨ih.1, ih.2, ih.3, ih.4, ih.5⟩
      · cases hs
    case fused t =>
      split at hs <;> cases hs
      next o hp => exact ih.apply t o
    case ret t =>
      split at hs <;> cases hs
      exact ⟨ih.1, ih.2, ih.3, ih.4, ih.5⟩

/-- **C46.**  If a bit starts clear and is never reset or set otherwise, then as soon as some `bts` on it
has taken effect exactly one of them has found it clear; however many run concurrently. -/
theorem exactly_one_winner {b0 : Fin N → Bool} {s : St N n} (h : (sysFrom n b0).Reach s) (i : Fin N)
    (hb : b0 i = false) (hput : s.put i = 0) (hcut : s.cut i = 0) (hbts : 0 < s.bts i) :
    s.won i = 1 ∧ bits s.map i = true := by
  have hi := inv h i
  constructor
  · have := hi.one hcut hput; simpa [hb, hbts] using this
  · have := hi.up hcut; simpa [hb, hput, hbts] using this

/-- In general a clear bit is won at most once per `reset`. -/
theorem winners_bounded {b0 : Fin N → Bool} {s : St N n} (h : (sysFrom n b0).Reach s) (i : Fin N) :
    s.won i ≤ s.cut i + 1 := by
  have := (inv h i).le; split at this <;> omega

/-- A bit that is never reset stays set once a `set` or `bts` on it has taken effect. -/
theorem never_lost {b0 : Fin N → Bool} {s : St N n} (h : (sysFrom n b0).Reach s) (i : Fin N)
    (hcut : s.cut i = 0) (hp : 0 < s.put i + s.bts i) : bits s.map i = true := by
  rw [(inv h i).up hcut]; simp [hp]

/-- Two threads race for bit 33 through compare-and-swap while a third sets bit 34 of the same word;
the loser sees the bit set, and nothing is lost. -/
example : ((sysFrom (N := 40) 3 (fun _ => false)).run
    { map := fun _ => 0#32, th := fun _ => .idle, won := fun _ => 0, bts := fun _ => 0,
      put := fun _ => 0, cut := fun _ => 0 }
    [.call 0 (.bts 33), .call 1 (.bts 33), .call 2 (.set 34), .run 0, .run 1, .fused 2, .run 0, .run 1,
      .run 1, .run 0, .run 0]).map
      (fun s => (s.map 1, s.th 0, s.th 1, s.won 33, s.bts 33)) =
    some (6#32, .ret (.flag true), .ret (.flag false), 1, 2) := by rfl

end Verif.Bitmap.Conc
