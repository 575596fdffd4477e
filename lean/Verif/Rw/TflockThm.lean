import Verif.Rw.Tflock

/-! # C13: `ck_tflock_ticket` -/

set_option linter.unusedSimpArgs false
set_option linter.unusedVariables false

namespace Verif.Rw.Tflock

open Spec

variable {n : Nat}

/-! ## The packed words -/

/-- The 16-bit code of a counter: it runs 0, 1, …, 2^15, 1, …, 2^15, 1, … -/
def f (k : Nat) : Nat := if k = 0 then 0 else (k - 1) % 2 ^ 15 + 1

theorem f_le (k : Nat) : f k ≤ 2 ^ 15 := by unfold f; split <;> omega

theorem f_succ (k : Nat) : f (k + 1) = f k % 2 ^ 15 + 1 := by
  unfold f
  rw [if_neg (by omega)]
  split <;> omega

theorem f_inj {a b : Nat} (h : f a = f b) (hab : a ≤ b) (hd : b < a + 2 ^ 15) : a = b := by
  unfold f at h; split at h <;> split at h <;> omega

/-- The word that stores `r` reads and `w` writes. -/
def word (r w : Nat) : BitVec 32 := BitVec.ofNat 32 (f r * 65536 + f w)

theorem toNat_word (r w : Nat) : (word r w).toNat = f r * 65536 + f w := by
  have h1 := f_le r
  have h2 := f_le w
  simp only [word, BitVec.toNat_ofNat]; omega

theorem goalR_word (r w : Nat) : goalR (word r w) = word (r + 1) w := by
  apply BitVec.eq_of_toNat_eq
  have hm : (~~~0x80000000#32).toNat = 2 ^ 31 - 1 := rfl
  have h2 := f_le w
  have h1 := f_le r
  have h3 := f_succ r
  have h4 : (0x10000#32).toNat = 65536 := rfl
  rw [goalR, BitVec.toNat_add, BitVec.toNat_and, hm, Nat.and_two_pow_sub_one_eq_mod, toNat_word,
    toNat_word, h3, h4]
  omega

theorem maskW (x : BitVec 32) :
    x &&& ~~~0x8000#32 = ((x >>> 16) <<< 16) ||| (x &&& 0x7fff#32) := by
  have hm : ∀ i : Fin 32, (~~~0x8000#32).getLsbD i = decide (i.val ≠ 15) := by decide
  have hm2 : ∀ i : Fin 32, (0x7fff#32).getLsbD i = decide (i.val < 15) := by decide
  apply BitVec.eq_of_getLsbD_eq
  intro i hi
  have h1 := hm ⟨i, hi⟩
  have h2 := hm2 ⟨i, hi⟩
  simp only at h1 h2
  rw [BitVec.getLsbD_and, h1, BitVec.getLsbD_or, BitVec.getLsbD_and, h2, BitVec.getLsbD_shiftLeft,
    BitVec.getLsbD_ushiftRight]
  by_cases h16 : i < 16
  · by_cases h15 : i = 15
    · subst h15; simp
    · have : i < 15 := by omega
      simp [h15, this, h16]
  · have e : 16 + (i - 16) = i := by omega
    have : ¬ i < 15 := by omega
    have : ¬ i = 15 := by omega
    simp [*]

theorem goalW_word (r w : Nat) : goalW (word r w) = word r (w + 1) := by
  apply BitVec.eq_of_toNat_eq
  have hm : (0x7fff#32).toNat = 2 ^ 15 - 1 := rfl
  have h2 := f_le w
  have h1 := f_le r
  have h3 := f_succ w
  have h4 : (1#32).toNat = 1 := rfl
  rw [goalW, maskW, BitVec.toNat_add, BitVec.toNat_or, BitVec.toNat_and, hm,
    Nat.and_two_pow_sub_one_eq_mod, BitVec.toNat_shiftLeft, BitVec.toNat_ushiftRight, toNat_word,
    toNat_word, h3]
  have e1 : (f r * 65536 + f w) >>> 16 = f r := by
    rw [Nat.shiftRight_eq_div_pow]; omega
  have e2 : f r <<< 16 % 2 ^ 32 = f r <<< 16 := by
    rw [Nat.shiftLeft_eq]; omega
  rw [e1, e2, ← Nat.shiftLeft_add_eq_or_of_lt (by omega), Nat.shiftLeft_eq]
  have h4 : BitVec.toNat (1 : BitVec 32) = 1 := rfl
  rw [h4]
  omega

theorem low_word (r w : Nat) : word r w &&& 0xffff#32 = BitVec.ofNat 32 (f w) := by
  apply BitVec.eq_of_toNat_eq
  have hm : (0xffff#32).toNat = 2 ^ 16 - 1 := rfl
  have h2 := f_le w
  rw [BitVec.toNat_and, hm, Nat.and_two_pow_sub_one_eq_mod, toNat_word, BitVec.toNat_ofNat]
  omega

theorem word_inj {r w r' w' : Nat} (h : word r w = word r' w') : f r = f r' ∧ f w = f w' := by
  have h := congrArg BitVec.toNat h
  rw [toNat_word, toNat_word] at h
  have := f_le w
  have := f_le w'
  omega

/-! ## Order of requests -/

/-- Number of threads in `R` whose request precedes number `k`. -/
def bef (R : Fin n → Bool) (r w : Fin n → Nat) (k : Nat) : Nat :=
  cnt id (fun u => R u && decide (r u + w u < k))

/-- `R`, `W`: threads with an open read (write) request; `RI`, `WI`: those inside. -/
structure TInv (R W RI WI : Fin n → Bool) (r w : Fin n → Nat) (rq wq rc wc : Nat) : Prop where
  nr : rq = rc + cnt id R
  nw : wq = wc + cnt id W
  dis : ∀ t, R t = true → W t = true → False
  rlt : ∀ t, R t = true → r t < rq ∧ w t ≤ wq
  wlt : ∀ t, W t = true → r t ≤ rq ∧ w t < wq
  neq : ∀ t u, R t = true ∨ W t = true → R u = true ∨ W u = true → t ≠ u → r t + w t ≠ r u + w u
  b1 : ∀ t, W t = true → r t = rc + bef R r w (r t + w t)
  b2 : ∀ t, R t = true ∨ W t = true → w t = wc + bef W r w (r t + w t)
  ri : ∀ t, RI t = true → R t = true
  wi : ∀ t, WI t = true → W t = true
  d1 : ∀ t u, WI t = true → R u = true ∨ W u = true → u ≠ t → r t + w t < r u + w u
  d2 : ∀ t u, RI t = true → W u = true → r t + w t < r u + w u

namespace TInv

variable {R W RI WI : Fin n → Bool} {r w : Fin n → Nat} {rq wq rc wc : Nat}

theorem bef_new {P : Fin n → Bool} {t : Fin n} (ht : P t = false) (b : Bool) {k a c : Nat}
    (hk : k ≤ a + c) : bef (upd P t b) (upd r t a) (upd w t c) k = bef P r w k := by
  apply cnt_congr
  intro u
  by_cases hu : u = t
  · subst hu; simp [ht]; intro _; omega
  · simp [upd_ne _ _ hu]

theorem bef_new' {P : Fin n → Bool} {t : Fin n} (ht : P t = false) {k a c : Nat} :
    bef P (upd r t a) (upd w t c) k = bef P r w k := by
  apply cnt_congr
  intro u
  by_cases hu : u = t
  · subst hu; simp [ht]
  · simp [upd_ne _ _ hu]

theorem bef_all {P : Fin n → Bool} {k : Nat} (h : ∀ u, P u = true → r u + w u < k) :
    bef P r w k = cnt id P := by
  apply cnt_congr
  intro u
  cases hu : P u
  · simp
  · simp [h u hu]

theorem arriveW (h : TInv R W RI WI r w rq wq rc wc) {t : Fin n} (hr : R t = false)
    (hw : W t = false) :
    TInv R (upd W t true) RI WI (upd r t rq) (upd w t wq) rq (wq + 1) rc wc := by
  obtain ⟨h1, h2, h3, h4, h5, h6, h7, h8, h9, h10, h11, h12⟩ := h
  have hc := cnt_update id W t true
  simp [hw] at hc
  have eW : ∀ k, k ≤ rq + wq → bef (upd W t true) (upd r t rq) (upd w t wq) k = bef W r w k :=
    fun k hk => bef_new hw true hk
  have eR : ∀ k, bef R (upd r t rq) (upd w t wq) k = bef R r w k := fun k => bef_new' hr
  have aR : bef R r w (rq + wq) = cnt id R := bef_all fun u hu => by have := h4 u hu; omega
  have aW : bef W r w (rq + wq) = cnt id W := bef_all fun u hu => by have := h5 u hu; omega
  constructor
  case nr => exact h1
  case nw => omega
  case dis => fin h3 hr
  case rlt => fin h4 hr
  case wlt => fin h5
  case neq => fin h6 h4 h5 hr hw
  case b1 =>
    intro u hu
    by_cases e : u = t
    · subst e; simp only [upd_same, eR]; omega
    · simp only [upd_ne _ _ e, eR] at hu ⊢; exact h7 u hu
  case b2 =>
    intro u hu
    by_cases e : u = t
    · subst e; simp only [upd_same]; rw [eW _ (Nat.le_refl _)]; omega
    · simp only [upd_ne _ _ e] at hu ⊢
      rw [eW _ (by rcases hu with hu | hu; (have := h4 u hu; omega); (have := h5 u hu; omega))]
      exact h8 u hu
  case ri => exact h9
  case wi => fin h10
  case d1 => fin h11 h10 h4 h5 hw hr
  case d2 => fin h12 h9 hr h4

theorem arriveR (h : TInv R W RI WI r w rq wq rc wc) {t : Fin n} (hr : R t = false)
    (hw : W t = false) :
    TInv (upd R t true) W RI WI (upd r t rq) (upd w t wq) (rq + 1) wq rc wc := by
  obtain ⟨h1, h2, h3, h4, h5, h6, h7, h8, h9, h10, h11, h12⟩ := h
  have hc := cnt_update id R t true
  simp [hr] at hc
  have eR : ∀ k, k ≤ rq + wq → bef (upd R t true) (upd r t rq) (upd w t wq) k = bef R r w k :=
    fun k hk => bef_new hr true hk
  have eW : ∀ k, bef W (upd r t rq) (upd w t wq) k = bef W r w k := fun k => bef_new' hw
  have aW : bef W r w (rq + wq) = cnt id W := bef_all fun u hu => by have := h5 u hu; omega
  constructor
  case nr => omega
  case nw => exact h2
  case dis => fin h3 hw
  case rlt => fin h4
  case wlt => fin h5 hw
  case neq => fin h6 h4 h5 hr hw
  case b1 =>
    intro u hu
    have e : u ≠ t := by rintro rfl; simp [hw] at hu
    simp only [upd_ne _ _ e]
    rw [eR _ (by have := h5 u hu; omega)]
    exact h7 u hu
  case b2 =>
    intro u hu
    by_cases e : u = t
    · subst e; simp only [upd_same, eW]; omega
    · simp only [upd_ne _ _ e, eW] at hu ⊢; exact h8 u hu
  case ri => fin h9
  case wi => exact h10
  case d1 => fin h11 h10 h4 h5 hw hr
  case d2 => fin h12 h9 hr h4 hw

theorem enterW (h : TInv R W RI WI r w rq wq rc wc) {t : Fin n} (ht : W t = true)
    (h1 : r t = rc) (h2 : w t = wc) : TInv R W RI (upd WI t true) r w rq wq rc wc := by
  have b1 := h.b1 t ht
  have b2 := h.b2 t (.inr ht)
  have c1 := fun u => cnt_eq_zero (P := id) (f := fun u => R u && decide (r u + w u < r t + w t))
    (by rw [bef] at b1; omega) u
  have c2 := fun u => cnt_eq_zero (P := id) (f := fun u => W u && decide (r u + w u < r t + w t))
    (by rw [bef] at b2; omega) u
  simp only [id, Bool.and_eq_false_iff, decide_eq_false_iff_not] at c1 c2
  refine { h with wi := ?_, d1 := ?_ }
  · have := h.wi; clear b1 b2; grind
  · have h1 := h.d1
    have h2 := h.neq
    clear b1 b2
    fin h1 h2 c1 c2 ht

theorem enterR (h : TInv R W RI WI r w rq wq rc wc) {t : Fin n} (ht : R t = true)
    (h2 : w t = wc) : TInv R W (upd RI t true) WI r w rq wq rc wc := by
  have b2 := h.b2 t (.inl ht)
  have c2 := fun u => cnt_eq_zero (P := id) (f := fun u => W u && decide (r u + w u < r t + w t))
    (by rw [bef] at b2; omega) u
  simp only [id, Bool.and_eq_false_iff, decide_eq_false_iff_not] at c2
  refine { h with ri := ?_, d2 := ?_ }
  · have := h.ri; clear b2; grind
  · have h1 := h.d2
    have h2 := h.neq
    have h3 := h.dis
    clear b2
    fin h1 h2 c2 ht h3

theorem leaveW (h : TInv R W RI WI r w rq wq rc wc) {t : Fin n} (ht : WI t = true) :
    TInv R (upd W t false) RI (upd WI t false) r w rq wq rc (wc + 1) := by
  obtain ⟨h1, h2, h3, h4, h5, h6, h7, h8, h9, h10, h11, h12⟩ := h
  have hW := h10 t ht
  have hc := cnt_update id W t false
  simp [hW] at hc
  have e : ∀ u, R u = true ∨ W u = true → u ≠ t →
      bef W r w (r u + w u) = bef (upd W t false) r w (r u + w u) + 1 := by
    intro u hu hne
    have := h11 t u ht hu hne
    refine cnt_drop (t := t) (fun v hv => ?_) ?_ ?_
    · simp [upd_ne _ _ hv]
    · simp [hW, this]
    · simp
  constructor
  case nr => exact h1
  case nw => omega
  case dis => fin h3
  case rlt => exact h4
  case wlt => fin h5
  case neq => fin h6
  case b1 => fin h7
  case b2 =>
    intro u hu
    have hne : u ≠ t := by rintro rfl; simp at hu; exact h3 u hu hW
    rw [upd_ne _ _ hne] at hu
    have := h8 u hu
    have := e u hu hne
    omega
  case ri => exact h9
  case wi => fin h10
  case d1 => fin h11
  case d2 => fin h12

theorem leaveR (h : TInv R W RI WI r w rq wq rc wc) {t : Fin n} (ht : RI t = true) :
    TInv (upd R t false) W (upd RI t false) WI r w rq wq (rc + 1) wc := by
  obtain ⟨h1, h2, h3, h4, h5, h6, h7, h8, h9, h10, h11, h12⟩ := h
  have hR := h9 t ht
  have hc := cnt_update id R t false
  simp [hR] at hc
  have e : ∀ u, W u = true →
      bef R r w (r u + w u) = bef (upd R t false) r w (r u + w u) + 1 := by
    intro u hu
    have := h12 t u ht hu
    refine cnt_drop (t := t) (fun v hv => ?_) ?_ ?_
    · simp [upd_ne _ _ hv]
    · simp [hR, this]
    · simp
  constructor
  case nr => omega
  case nw => exact h2
  case dis => fin h3
  case rlt => fin h4
  case wlt => exact h5
  case neq => fin h6
  case b1 =>
    intro u hu
    have := h7 u hu
    have := e u hu
    omega
  case b2 => fin h8
  case ri => fin h9
  case wi => exact h10
  case d1 => fin h11 h3 hR
  case d2 => fin h12

end TInv

def PC.rd : PC → Bool
  | .rSpin _ | .reading | .load .ru | .cas .ru _ => true
  | _ => false
def PC.wr : PC → Bool
  | .wSpin _ | .writing | .load .wu | .cas .wu _ => true
  | _ => false
def PC.rin : PC → Bool
  | .reading | .load .ru | .cas .ru _ => true
  | _ => false
def PC.win : PC → Bool
  | .writing | .load .wu | .cas .wu _ => true
  | _ => false

@[simp] theorem PC.rd_idle : (PC.idle).rd = false := rfl
@[simp] theorem PC.rd_writing : (PC.writing).rd = false := rfl
@[simp] theorem PC.rd_reading : (PC.reading).rd = true := rfl
@[simp] theorem PC.rd_wSpin {x} : (PC.wSpin x).rd = false := rfl
@[simp] theorem PC.rd_rSpin {x} : (PC.rSpin x).rd = true := rfl
@[simp] theorem PC.rd_load_wl : (PC.load .wl).rd = false := rfl
@[simp] theorem PC.rd_load_wu : (PC.load .wu).rd = false := rfl
@[simp] theorem PC.rd_load_rl : (PC.load .rl).rd = false := rfl
@[simp] theorem PC.rd_load_ru : (PC.load .ru).rd = true := rfl
@[simp] theorem PC.rd_cas_wl {x} : (PC.cas .wl x).rd = false := rfl
@[simp] theorem PC.rd_cas_wu {x} : (PC.cas .wu x).rd = false := rfl
@[simp] theorem PC.rd_cas_rl {x} : (PC.cas .rl x).rd = false := rfl
@[simp] theorem PC.rd_cas_ru {x} : (PC.cas .ru x).rd = true := rfl
@[simp] theorem PC.wr_idle : (PC.idle).wr = false := rfl
@[simp] theorem PC.wr_writing : (PC.writing).wr = true := rfl
@[simp] theorem PC.wr_reading : (PC.reading).wr = false := rfl
@[simp] theorem PC.wr_wSpin {x} : (PC.wSpin x).wr = true := rfl
@[simp] theorem PC.wr_rSpin {x} : (PC.rSpin x).wr = false := rfl
@[simp] theorem PC.wr_load_wl : (PC.load .wl).wr = false := rfl
@[simp] theorem PC.wr_load_wu : (PC.load .wu).wr = true := rfl
@[simp] theorem PC.wr_load_rl : (PC.load .rl).wr = false := rfl
@[simp] theorem PC.wr_load_ru : (PC.load .ru).wr = false := rfl
@[simp] theorem PC.wr_cas_wl {x} : (PC.cas .wl x).wr = false := rfl
@[simp] theorem PC.wr_cas_wu {x} : (PC.cas .wu x).wr = true := rfl
@[simp] theorem PC.wr_cas_rl {x} : (PC.cas .rl x).wr = false := rfl
@[simp] theorem PC.wr_cas_ru {x} : (PC.cas .ru x).wr = false := rfl
@[simp] theorem PC.rin_idle : (PC.idle).rin = false := rfl
@[simp] theorem PC.rin_writing : (PC.writing).rin = false := rfl
@[simp] theorem PC.rin_reading : (PC.reading).rin = true := rfl
@[simp] theorem PC.rin_wSpin {x} : (PC.wSpin x).rin = false := rfl
@[simp] theorem PC.rin_rSpin {x} : (PC.rSpin x).rin = false := rfl
@[simp] theorem PC.rin_load_wl : (PC.load .wl).rin = false := rfl
@[simp] theorem PC.rin_load_wu : (PC.load .wu).rin = false := rfl
@[simp] theorem PC.rin_load_rl : (PC.load .rl).rin = false := rfl
@[simp] theorem PC.rin_load_ru : (PC.load .ru).rin = true := rfl
@[simp] theorem PC.rin_cas_wl {x} : (PC.cas .wl x).rin = false := rfl
@[simp] theorem PC.rin_cas_wu {x} : (PC.cas .wu x).rin = false := rfl
@[simp] theorem PC.rin_cas_rl {x} : (PC.cas .rl x).rin = false := rfl
@[simp] theorem PC.rin_cas_ru {x} : (PC.cas .ru x).rin = true := rfl
@[simp] theorem PC.win_idle : (PC.idle).win = false := rfl
@[simp] theorem PC.win_writing : (PC.writing).win = true := rfl
@[simp] theorem PC.win_reading : (PC.reading).win = false := rfl
@[simp] theorem PC.win_wSpin {x} : (PC.wSpin x).win = false := rfl
@[simp] theorem PC.win_rSpin {x} : (PC.rSpin x).win = false := rfl
@[simp] theorem PC.win_load_wl : (PC.load .wl).win = false := rfl
@[simp] theorem PC.win_load_wu : (PC.load .wu).win = true := rfl
@[simp] theorem PC.win_load_rl : (PC.load .rl).win = false := rfl
@[simp] theorem PC.win_load_ru : (PC.load .ru).win = false := rfl
@[simp] theorem PC.win_cas_wl {x} : (PC.cas .wl x).win = false := rfl
@[simp] theorem PC.win_cas_wu {x} : (PC.cas .wu x).win = true := rfl
@[simp] theorem PC.win_cas_rl {x} : (PC.cas .rl x).win = false := rfl
@[simp] theorem PC.win_cas_ru {x} : (PC.cas .ru x).win = false := rfl

structure Inv (s : St n) : Prop where
  t : TInv (fun t => (s.pc t).rd) (fun t => (s.pc t).wr) (fun t => (s.pc t).rin)
    (fun t => (s.pc t).win) s.r s.w s.rq s.wq s.rc s.wc
  req : s.request = word s.rq s.wq
  comp : s.completion = word s.rc s.wc
  p1 : ∀ t p, s.pc t = .wSpin p → p = word (s.r t) (s.w t)
  p2 : ∀ t p, s.pc t = .rSpin p → p = BitVec.ofNat 32 (f (s.w t))

/-- Steps that do not change which requests are open or inside. -/
theorem Inv.silent {s : St n} (hi : Inv s) {t : Fin n} {p : PC} (h1 : p.rd = (s.pc t).rd)
    (h2 : p.wr = (s.pc t).wr) (h3 : p.rin = (s.pc t).rin) (h4 : p.win = (s.pc t).win)
    (h5 : ∀ x, p ≠ .wSpin x) (h6 : ∀ x, p ≠ .rSpin x) : Inv { s with pc := upd s.pc t p } := by
  obtain ⟨ht, hr, hc, hp1, hp2⟩ := hi
  refine ⟨?_, hr, hc, ?_, ?_⟩
  · simp only [comp_upd_same PC.rd s.pc t p h1, comp_upd_same PC.wr s.pc t p h2,
      comp_upd_same PC.rin s.pc t p h3, comp_upd_same PC.win s.pc t p h4]
    exact ht
  · fin hp1 h5
  · fin hp2 h6

theorem inv_step (hn : n < 2 ^ 15) {s s' : St n} {a : Act n} (hi : Inv s)
    (hs : step s a = some s') : Inv s' := by
  have hi' := hi
  obtain ⟨ht, hr, hc, hp1, hp2⟩ := hi'
  rcases a with t | t | t | t | t <;> simp only [step] at hs
  · step_split hs; next hp => exact hi.silent (by rw [hp]; rfl) (by rw [hp]; rfl) (by rw [hp]; rfl) (by rw [hp]; rfl) (by simp) (by simp)
  · step_split hs; next hp => exact hi.silent (by rw [hp]; rfl) (by rw [hp]; rfl) (by rw [hp]; rfl) (by rw [hp]; rfl) (by simp) (by simp)
  · step_split hs; next hp => exact hi.silent (by rw [hp]; rfl) (by rw [hp]; rfl) (by rw [hp]; rfl) (by rw [hp]; rfl) (by simp) (by simp)
  · step_split hs; next hp => exact hi.silent (by rw [hp]; rfl) (by rw [hp]; rfl) (by rw [hp]; rfl) (by rw [hp]; rfl) (by simp) (by simp)
  · cases hp : s.pc t <;> simp only [hp] at hs
    case load o =>
      cases o <;> dsimp only at hs <;> step_split hs <;> exact hi.silent (by rw [hp]; rfl) (by rw [hp]; rfl) (by rw [hp]; rfl) (by rw [hp]; rfl) (by simp) (by simp)
    case cas o x =>
      cases o <;> dsimp only at hs <;> split at hs <;> (simp only [Option.some.injEq] at hs; subst hs)
      · next hx =>
        subst hx
        refine ⟨?_, ?_, hc, ?_, ?_⟩
        · simp only [comp_upd PC.wr s.pc t, comp_upd_same PC.rd s.pc t (.wSpin s.request) (by rw [hp]; rfl),
            comp_upd_same PC.rin s.pc t (.wSpin s.request) (by rw [hp]; rfl),
            comp_upd_same PC.win s.pc t (.wSpin s.request) (by rw [hp]; rfl)]
          exact ht.arriveW (by simp only [hp]; rfl) (by simp only [hp]; rfl)
        · simp only; rw [hr, goalW_word]
        · fin hp1 hr
        · fin hp2
      · exact hi.silent (by rw [hp]; rfl) (by rw [hp]; rfl) (by rw [hp]; rfl) (by rw [hp]; rfl) (by simp) (by simp)
      · next hx =>
        subst hx
        refine ⟨?_, hr, ?_, ?_, ?_⟩
        · simp only [comp_upd PC.wr s.pc t, comp_upd PC.win s.pc t,
            comp_upd_same PC.rd s.pc t .idle (by rw [hp]; rfl),
            comp_upd_same PC.rin s.pc t .idle (by rw [hp]; rfl)]
          exact ht.leaveW (by simp only [hp]; rfl)
        · simp only; rw [hc, goalW_word]
        · fin hp1
        · fin hp2
      · exact hi.silent (by rw [hp]; rfl) (by rw [hp]; rfl) (by rw [hp]; rfl) (by rw [hp]; rfl) (by simp) (by simp)
      · next hx =>
        subst hx
        have hlow : s.request &&& 0xffff#32 = BitVec.ofNat 32 (f s.wq) := by rw [hr, low_word]
        refine ⟨?_, ?_, hc, ?_, ?_⟩
        · simp only [comp_upd PC.rd s.pc t, comp_upd_same PC.wr s.pc t (.rSpin (s.request &&& 0xffff#32)) (by rw [hp]; rfl),
            comp_upd_same PC.rin s.pc t (.rSpin (s.request &&& 0xffff#32)) (by rw [hp]; rfl),
            comp_upd_same PC.win s.pc t (.rSpin (s.request &&& 0xffff#32)) (by rw [hp]; rfl)]
          exact ht.arriveR (by simp only [hp]; rfl) (by simp only [hp]; rfl)
        · simp only; rw [hr, goalR_word]
        · fin hp1
        · fin hp2 hlow
      · exact hi.silent (by rw [hp]; rfl) (by rw [hp]; rfl) (by rw [hp]; rfl) (by rw [hp]; rfl) (by simp) (by simp)
      · next hx =>
        subst hx
        refine ⟨?_, hr, ?_, ?_, ?_⟩
        · simp only [comp_upd PC.rd s.pc t, comp_upd PC.rin s.pc t,
            comp_upd_same PC.wr s.pc t .idle (by rw [hp]; rfl),
            comp_upd_same PC.win s.pc t .idle (by rw [hp]; rfl)]
          exact ht.leaveR (by simp only [hp]; rfl)
        · simp only; rw [hc, goalR_word]
        · fin hp1
        · fin hp2
      · exact hi.silent (by rw [hp]; rfl) (by rw [hp]; rfl) (by rw [hp]; rfl) (by rw [hp]; rfl) (by simp) (by simp)
    case wSpin p =>
      step_split hs
      · next hx =>
        have hw : (s.pc t).wr = true := by rw [hp]; rfl
        have e := hp1 t p hp
        rw [← hx, hc] at e
        have e := word_inj e
        have b1 := ht.b1 t hw
        have b2 := ht.b2 t (.inr hw)
        have l1 := cnt_le id (fun u => (s.pc u).rd && decide (s.r u + s.w u < s.r t + s.w t))
        have l2 := cnt_le id (fun u => (s.pc u).wr && decide (s.r u + s.w u < s.r t + s.w t))
        rw [bef] at b1 b2
        have e1 := f_inj e.1 (by omega) (by omega)
        have e2 := f_inj e.2 (by omega) (by omega)
        refine ⟨?_, hr, hc, ?_, ?_⟩
        · simp only [comp_upd PC.win s.pc t, comp_upd_same PC.rd s.pc t .writing (by rw [hp]; rfl),
            comp_upd_same PC.wr s.pc t .writing (by rw [hp]; rfl),
            comp_upd_same PC.rin s.pc t .writing (by rw [hp]; rfl)]
          exact ht.enterW hw e1.symm e2.symm
        · fin hp1
        · fin hp2
      · exact hi
    case rSpin p =>
      step_split hs
      · next hx =>
        have hw : (s.pc t).rd = true := by rw [hp]; rfl
        have e := hp2 t p hp
        rw [← hx, hc, low_word] at e
        have e := congrArg BitVec.toNat e
        have := f_le s.wc
        have := f_le (s.w t)
        have b2 := ht.b2 t (.inl hw)
        have l2 := cnt_le id (fun u => (s.pc u).wr && decide (s.r u + s.w u < s.r t + s.w t))
        rw [bef] at b2
        simp only [BitVec.toNat_ofNat] at e
        have e2 := f_inj (a := s.wc) (b := s.w t) (by omega) (by omega) (by omega)
        refine ⟨?_, hr, hc, ?_, ?_⟩
        · simp only [comp_upd PC.rin s.pc t, comp_upd_same PC.rd s.pc t .reading (by rw [hp]; rfl),
            comp_upd_same PC.wr s.pc t .reading (by rw [hp]; rfl),
            comp_upd_same PC.win s.pc t .reading (by rw [hp]; rfl)]
          exact ht.enterR hw e2.symm
        · fin hp1
        · fin hp2
      · exact hi
    all_goals cases hs

theorem init_inv : Inv (initSt n) := by
  refine ⟨?_, by simp [initSt, word, f], by simp [initSt, word, f], ?_, ?_⟩
  · constructor <;> simp [initSt, cnt, bef]
  · simp [initSt]
  · simp [initSt]

theorem inv_of_reach (hn : n < 2 ^ 15) {s : St n} (h : (sys n).Reach s) : Inv s := by
  refine h.invariant (I := Inv) ?_ (fun _ _ _ => inv_step hn)
  rintro s rfl
  exact init_inv

theorem writes_iff {s : St n} {t : Fin n} : s.writes t ↔ (s.pc t).win = true := by
  simp only [St.writes]
  cases s.pc t with
  | load o => cases o <;> simp
  | cas o x => cases o <;> simp
  | _ => simp

theorem reads_iff {s : St n} {t : Fin n} : s.reads t ↔ (s.pc t).rin = true := by
  simp only [St.reads]
  cases s.pc t with
  | load o => cases o <;> simp
  | cas o x => cases o <;> simp
  | _ => simp

theorem wreq_iff {s : St n} {t : Fin n} : s.wreq t ↔ (s.pc t).wr = true := by
  simp only [St.wreq, St.writes]
  cases s.pc t with
  | load o => cases o <;> simp
  | cas o x => cases o <;> simp
  | _ => simp

theorem rreq_iff {s : St n} {t : Fin n} : s.rreq t ↔ (s.pc t).rd = true := by
  simp only [St.rreq, St.reads]
  cases s.pc t with
  | load o => cases o <;> simp
  | cas o x => cases o <;> simp
  | _ => simp

/-! ## Properties -/

theorem Inv.excl {s : St n} (h : Inv s) : RwEx s.reads s.writes := by
  have hi := h.t
  refine ⟨fun t u ht hu => ?_, fun t u ht hu => ?_⟩
  · rw [writes_iff] at ht hu
    by_contra hne
    have h1 := hi.d1 t u ht (.inr (hi.wi u hu)) (Ne.symm hne)
    have h2 := hi.d1 u t hu (.inr (hi.wi t ht)) hne
    omega
  · rw [writes_iff] at ht
    rw [reads_iff] at hu
    have hne : u ≠ t := by rintro rfl; exact hi.dis u (hi.ri u hu) (hi.wi u ht)
    have h1 := hi.d1 t u ht (.inl (hi.ri u hu)) hne
    have h2 := hi.d2 u t hu (hi.wi t ht)
    omega

/-- C13: a writer is alone, for fewer than 2^15 threads and any number of earlier requests. -/
theorem rw_exclusion (hn : n < 2 ^ 15) {s : St n} (h : (sys n).Reach s) :
    RwEx s.reads s.writes := (inv_of_reach hn h).excl

theorem Inv.fair {s : St n} (h : Inv s) (t u : Fin n) :
    (s.writes t → (s.wreq u ∨ s.rreq u) → u ≠ t → s.ix t < s.ix u) ∧
    (s.reads t → s.wreq u → s.ix t < s.ix u) := by
  rw [writes_iff, wreq_iff, rreq_iff, reads_iff]
  exact ⟨fun h1 h2 h3 => h.t.d1 t u h1 h2.symm h3, fun h1 h2 => h.t.d2 t u h1 h2⟩

/-- C13: task fairness.  While `t` is inside, every open conflicting request was made after `t`'s:
a writer is inside only if all earlier requests were completed, a reader only if all earlier write
requests were. -/
theorem task_fair (hn : n < 2 ^ 15) {s : St n} (h : (sys n).Reach s) (t u : Fin n) :
    (s.writes t → (s.wreq u ∨ s.rreq u) → u ≠ t → s.ix t < s.ix u) ∧
    (s.reads t → s.wreq u → s.ix t < s.ix u) := (inv_of_reach hn h).fair t u

/-- C13: requests are numbered without repetition, so "earlier" above is a total order. -/
theorem ix_injective (hn : n < 2 ^ 15) {s : St n} (h : (sys n).Reach s) {t u : Fin n}
    (ht : s.wreq t ∨ s.rreq t) (hu : s.wreq u ∨ s.rreq u) (he : s.ix t = s.ix u) : t = u := by
  have hi := (inv_of_reach hn h).t
  rw [wreq_iff, rreq_iff] at ht hu
  by_contra hne
  exact hi.neq t u ht.symm hu.symm hne he

/-- C13, progress: a waiting writer before which no request is open enters with its next step. -/
theorem writer_progress (hn : n < 2 ^ 15) {s : St n} (h : (sys n).Reach s) {t : Fin n}
    {p : BitVec 32} (ht : s.pc t = .wSpin p) (hf : ∀ u, s.wreq u ∨ s.rreq u → s.ix t ≤ s.ix u) :
    ∃ s', (sys n).step s (.run t) = some s' ∧ s'.writes t := by
  have hi := inv_of_reach hn h
  have hw : (s.pc t).wr = true := by rw [ht]; rfl
  have b1 := hi.t.b1 t hw
  have b2 := hi.t.b2 t (.inr hw)
  have c1 : bef (fun t => (s.pc t).rd) s.r s.w (s.r t + s.w t) = 0 := cnt_zero_of fun u => by
    cases hu : (s.pc u).rd
    · simp [hu]
    · have := hf u (.inr (rreq_iff.2 hu)); simp only [St.ix] at this; simp; omega
  have c2 : bef (fun t => (s.pc t).wr) s.r s.w (s.r t + s.w t) = 0 := cnt_zero_of fun u => by
    cases hu : (s.pc u).wr
    · simp [hu]
    · have := hf u (.inl (wreq_iff.2 hu)); simp only [St.ix] at this; simp; omega
  have hx : s.completion = p := by
    rw [hi.p1 t p ht, hi.comp]
    rw [c1] at b1
    rw [c2] at b2
    rw [b1, b2]; rfl
  exact ⟨_, by simp only [sys, step, ht]; rw [if_pos hx], .inl (by simp)⟩

/-- C13, progress: a waiting reader before which no write request is open enters with its next
step. -/
theorem reader_progress (hn : n < 2 ^ 15) {s : St n} (h : (sys n).Reach s) {t : Fin n}
    {p : BitVec 32} (ht : s.pc t = .rSpin p) (hf : ∀ u, s.wreq u → s.ix t ≤ s.ix u) :
    ∃ s', (sys n).step s (.run t) = some s' ∧ s'.reads t := by
  have hi := inv_of_reach hn h
  have hw : (s.pc t).rd = true := by rw [ht]; rfl
  have b2 := hi.t.b2 t (.inl hw)
  have c2 : bef (fun t => (s.pc t).wr) s.r s.w (s.r t + s.w t) = 0 := cnt_zero_of fun u => by
    cases hu : (s.pc u).wr
    · simp [hu]
    · have := hf u (wreq_iff.2 hu); simp only [St.ix] at this; simp; omega
  have hx : s.completion &&& 0xffff#32 = p := by
    rw [hi.p2 t p ht, hi.comp, low_word]
    rw [c2] at b2
    rw [b2]; rfl
  exact ⟨_, by simp only [sys, step, ht]; rw [if_pos hx], .inl (by simp)⟩

/-- Reader 0 inside, writer 1 waits, reader 2 (later) waits behind the writer; 0 leaves, 1 enters. -/
example : ((sys 3).run (initSt 3)
    [.rlock 0, .run 0, .run 0, .run 0, .wlock 1, .run 1, .run 1, .run 1, .rlock 2, .run 2, .run 2,
     .run 2, .runlock 0, .run 0, .run 0, .run 2, .run 1]).map
    (fun s => (s.pc 0, s.pc 1, s.pc 2)) =
    some (.idle, .writing, .rSpin 1) := by decide

end Verif.Rw.Tflock
