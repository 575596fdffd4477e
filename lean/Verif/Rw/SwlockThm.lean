import Verif.Rw.Swlock
import Mathlib.Tactic.Ring

/-!
# `ck_swlock`: exclusion, exact accounting, progress (C14)
-/

set_option linter.unusedSimpArgs false
set_option linter.unusedVariables false

namespace Verif.Rw.Swlock

open Verif Verif.Spec

variable {n : Nat}

/-- writer bit, latch bit, count. -/
def word (w l : Bool) (c : Nat) : BitVec 32 := BitVec.ofNat 32 (w.toNat * 2 ^ 31 + l.toNat * 2 ^ 30 + c)

theorem toNat_word (w l : Bool) {c : Nat} (h : c < 2 ^ 30) :
    (word w l c).toNat = w.toNat * 2 ^ 31 + l.toNat * 2 ^ 30 + c := by
  unfold word; rw [BitVec.toNat_ofNat]
  cases w <;> cases l <;> simp <;> omega

theorem word_succ (w l : Bool) (c : Nat) : word w l c + 1 = word w l (c + 1) := by
  unfold word; rw [← Nat.add_assoc, BitVec.ofNat_add _ 1]; rfl

theorem word_pred (w l : Bool) {c : Nat} (h : 0 < c) : word w l c - 1 = word w l (c - 1) := by
  obtain ⟨k, rfl⟩ : ∃ k, c = k + 1 := ⟨c - 1, by omega⟩
  rw [← word_succ]; exact BitVec.add_sub_cancel _ _

theorem bit_word (w l : Bool) {c : Nat} (h : c < 2 ^ 30) (i : Nat) (hi : i < 32) :
    (word w l c).getLsbD i = if i = 31 then w else if i = 30 then l else c.testBit i := by
  have e := toNat_word w l h
  have e1 : (word w l c).getLsbD i = (w.toNat * 2 ^ 31 + l.toNat * 2 ^ 30 + c).testBit i := by
    rw [← e]; rfl
  rw [e1]
  rcases Nat.lt_or_ge i 30 with h1 | h1
  · rw [if_neg (by omega), if_neg (by omega)]
    have : w.toNat * 2 ^ 31 + l.toNat * 2 ^ 30 + c = 2 ^ 30 * (w.toNat * 2 + l.toNat) + c := by ring
    rw [this, Nat.testBit_two_pow_mul_add _ h, if_pos h1]
  · have : w.toNat * 2 ^ 31 + l.toNat * 2 ^ 30 + c = 2 ^ 30 * (w.toNat * 2 + l.toNat) + c := by ring
    rw [this, Nat.testBit_two_pow_mul_add _ h, if_neg (by omega)]
    have : i = 30 ∨ i = 31 := by omega
    rcases this with rfl | rfl <;> clear this e e1 h <;> cases w <;> cases l <;> simp <;> decide

theorem bit_WB : ∀ i, i < 32 → (WB).getLsbD i = decide (i = 31) := by decide
theorem bit_WM : ∀ i, i < 32 → (WM).getLsbD i = decide (i = 31 ∨ i = 30) := by decide
theorem bit_RM : ∀ i, i < 32 → (RM).getLsbD i = decide (i < 30) := by decide

theorem word_or_WB (w l : Bool) {c : Nat} (h : c < 2 ^ 30) : word w l c ||| WB = word true l c := by
  apply BitVec.eq_of_getLsbD_eq; intro i hi
  rw [BitVec.getLsbD_or, bit_word _ _ h i hi, bit_word _ _ h i hi, bit_WB i hi]
  split <;> simp [*]

theorem word_and_RM (w l : Bool) {c : Nat} (h : c < 2 ^ 30) :
    word w l c &&& RM = word false false c := by
  apply BitVec.eq_of_getLsbD_eq; intro i hi
  rw [BitVec.getLsbD_and, bit_word _ _ h i hi, bit_word _ _ h i hi, bit_RM i hi]
  split
  · subst i; simp
  · split
    · subst i; simp
    · have : i < 30 := by omega
      simp [this]

theorem word_and_WM (w l : Bool) {c : Nat} (h : c < 2 ^ 30) : word w l c &&& WM = word w l 0 := by
  apply BitVec.eq_of_getLsbD_eq; intro i hi
  rw [BitVec.getLsbD_and, bit_word _ _ h i hi, bit_word _ _ (by omega) i hi, bit_WM i hi]
  split
  · subst i; simp
  · split
    · subst i; simp
    · have : ¬ (i = 31 ∨ i = 30) := by omega
      simp [this]

theorem word_and_WB (w l : Bool) {c : Nat} (h : c < 2 ^ 30) : word w l c &&& WB = word w false 0 := by
  apply BitVec.eq_of_getLsbD_eq; intro i hi
  rw [BitVec.getLsbD_and, bit_word _ _ h i hi, bit_word _ _ (by omega) i hi, bit_WB i hi]
  split
  · subst i; simp
  · simp [*]

theorem word_inj {w l w' l' : Bool} {c c' : Nat} (h : c < 2 ^ 30) (h' : c' < 2 ^ 30)
    (he : word w l c = word w' l' c') : w = w' ∧ l = l' ∧ c = c' := by
  have e := congrArg BitVec.toNat he
  rw [toNat_word _ _ h, toNat_word _ _ h'] at e
  cases w <;> cases l <;> cases w' <;> cases l' <;> simp at * <;> omega

def WPC.wb : WPC → Bool
  | .lkWait | .writing | .ltCas | .ltWait | .latched | .dgAnd => true
  | _ => false
def WPC.lb : WPC → Bool
  | .latched => true
  | _ => false
/-- The writer's own contribution to the count. -/
def WPC.rd : WPC → Bool
  | .dgAnd | .reading => true
  | _ => false
def WPC.ex : WPC → Bool
  | .writing | .latched => true
  | _ => false

/-- The reader's increment is in the word and will be taken back. -/
def PC.inc : PC → Bool
  | .reading | .rDec _ => true
  | _ => false

@[simp] theorem again_true : again true = .idle := rfl
@[simp] theorem again_false : again false = .rLoad false := rfl

structure Inv (s : St n) : Prop where
  val : s.value = word s.wpc.wb s.wpc.lb (cnt PC.inc s.pc + cnt id s.leak + s.wpc.rd.toNat)
  ex : s.wpc.ex = true → ∀ t, s.pc t ≠ .reading
  lt : s.wpc.lb = true → cnt PC.inc s.pc = 0
  lk : s.wpc.lb = false → ∀ t, s.leak t = false
  nf : ∀ t b, s.leak t = true → s.pc t ≠ .rFaa b

theorem Inv.bound {s : St n} (hi : Inv s) (hn : n + 1 < 2 ^ 30) :
    cnt PC.inc s.pc + cnt id s.leak + s.wpc.rd.toNat < 2 ^ 30 := by
  have h1 := cnt_le PC.inc s.pc
  have h2 := cnt_le id s.leak
  have h3 : s.wpc.rd.toNat ≤ 1 := by cases s.wpc.rd <;> simp
  cases hl : s.wpc.lb
  · have := cnt_zero_of (P := id) (f := s.leak) (hi.lk hl); omega
  · have := hi.lt hl; omega

/-- Equality of words is equality of the parts. -/
theorem Inv.value_eq {s : St n} (hi : Inv s) (hn : n + 1 < 2 ^ 30) {w l : Bool} {c : Nat}
    (hc : c < 2 ^ 30) : s.value = word w l c ↔ s.wpc.wb = w ∧ s.wpc.lb = l ∧
      cnt PC.inc s.pc + cnt id s.leak + s.wpc.rd.toNat = c := by
  rw [hi.val]
  constructor
  · exact fun h => word_inj (hi.bound hn) hc h
  · rintro ⟨h1, h2, h3⟩; rw [h1, h2, h3]

theorem WB_eq : WB = word true false 0 := by decide
theorem WM_eq : WM = word true true 0 := by decide
theorem zero_eq : (0 : BitVec 32) = word false false 0 := by decide

theorem Inv.and_WB {s : St n} (hi : Inv s) (hn : n + 1 < 2 ^ 30) :
    s.value &&& WB = 0 ↔ s.wpc.wb = false := by
  rw [hi.val, word_and_WB _ _ (hi.bound hn), zero_eq]
  constructor
  · intro h; exact (word_inj (by omega) (by omega) h).1
  · intro h; rw [h]
theorem Inv.and_WM0 {s : St n} (hi : Inv s) (hn : n + 1 < 2 ^ 30) :
    s.value &&& WM = 0 ↔ s.wpc.wb = false ∧ s.wpc.lb = false := by
  rw [hi.val, word_and_WM _ _ (hi.bound hn), zero_eq]
  constructor
  · intro h; have := word_inj (by omega) (by omega) h; exact ⟨this.1, this.2.1⟩
  · intro h; rw [h.1, h.2]
theorem Inv.and_WM1 {s : St n} (hi : Inv s) (hn : n + 1 < 2 ^ 30) :
    s.value &&& WM = WB ↔ s.wpc.wb = true ∧ s.wpc.lb = false := by
  rw [hi.val, word_and_WM _ _ (hi.bound hn), WB_eq]
  constructor
  · intro h; have := word_inj (by omega) (by omega) h; exact ⟨this.1, this.2.1⟩
  · intro h; rw [h.1, h.2]
theorem Inv.and_RM {s : St n} (hi : Inv s) (hn : n + 1 < 2 ^ 30) :
    s.value &&& RM = 0 ↔ cnt PC.inc s.pc + cnt id s.leak + s.wpc.rd.toNat = 0 := by
  rw [hi.val, word_and_RM _ _ (hi.bound hn), zero_eq]
  constructor
  · intro h; exact (word_inj (hi.bound hn) (by omega) h).2.2
  · intro h; rw [h]

theorem lb_wb : ∀ p : WPC, p.lb = true → p.wb = true := by intro p; cases p <;> simp [WPC.lb, WPC.wb]

theorem none_reading {pc : Fin n → PC} (h : cnt PC.inc pc = 0) (t : Fin n) : pc t ≠ .reading := fun ht => by
  have := cnt_eq_zero h t; rw [ht] at this; simp [PC.inc] at this

/-- A writer step that leaves the readers alone. -/
theorem Inv.wstep {s : St n} (hi : Inv s) {v : BitVec 32} {p : WPC}
    (hv : v = word p.wb p.lb (cnt PC.inc s.pc + cnt id s.leak + p.rd.toNat))
    (hx : p.ex = true → s.wpc.ex = true ∨ ∀ t, s.pc t ≠ .reading)
    (hl : p.lb = true → cnt PC.inc s.pc = 0) (hk : s.wpc.lb = false) :
    Inv { s with value := v, wpc := p } := by
  obtain ⟨h1, h2, h3, h4, h5⟩ := hi
  refine ⟨hv, ?_, hl, fun _ => h4 hk, h5⟩
  intro hp t ht
  rcases hx hp with h | h
  · exact h2 h t ht
  · exact h t ht

/-- A reader step. -/
theorem Inv.rstep {s : St n} (hi : Inv s) {t : Fin n} {v : BitVec 32} {p : PC}
    (hv : v = word s.wpc.wb s.wpc.lb
      (cnt PC.inc s.pc + p.inc.toNat - (s.pc t).inc.toNat + cnt id s.leak + s.wpc.rd.toNat))
    (hr : p = .reading → s.wpc.ex = false) (hl : p.inc = true → s.wpc.lb = false)
    (hf : ∀ b, p = .rFaa b → s.leak t = false) :
    Inv { s with value := v, pc := upd s.pc t p } := by
  obtain ⟨h1, h2, h3, h4, h5⟩ := hi
  refine ⟨?_, ?_, ?_, h4, ?_⟩
  · rw [hv]; simp only [cnt_upd]
  · intro hw u; simp only [upd_apply]; split
    · intro e; rw [hr e] at hw; cases hw
    · exact h2 hw u
  · intro hw; simp only [cnt_upd]; have := h3 hw
    cases hp : p.inc
    · simp; omega
    · rw [hl hp] at hw; cases hw
  · intro u b hu; simp only [upd_apply]; split
    · intro e; subst u; rw [hf b e] at hu; cases hu
    · exact h5 u b hu

theorem inv_step (hn : n + 1 < 2 ^ 30) {s s' : St n} {a : Act n} (hi : Inv s)
    (hs : step s a = some s') : Inv s' := by
  have hb := hi.bound hn
  have hv := hi.val
  cases a <;> simp only [step] at hs
  case wlock =>
    step_split hs; next hp =>
    exact hi.wstep (by rw [hv, hp]; rfl) (by simp [WPC.ex]) (by simp [WPC.lb]) (by rw [hp]; rfl)
  case wtrylock =>
    step_split hs
    · next hp h0 =>
      have h0 := ((hi.value_eq hn (w := false) (l := false) (c := 0) (by omega)).1 (h0.trans zero_eq)).2.2
      have e1 : cnt PC.inc s.pc = 0 := by omega
      have e2 : cnt id s.leak = 0 := by omega
      exact hi.wstep (by rw [WB_eq, e1, e2]; rfl) (fun _ => .inr (none_reading e1)) (by simp [WPC.lb]) (by rw [hp]; rfl)
    · exact hi
  case wunlock =>
    step_split hs; next hp =>
    exact hi.wstep (by rw [hv, word_and_RM _ _ hb, hp]; rfl) (by simp [WPC.ex]) (by simp [WPC.lb]) (by rw [hp]; rfl)
  case wdowngrade =>
    step_split hs; next hp =>
    exact hi.wstep (by rw [hv, word_succ, hp]; rfl) (by simp [WPC.ex]) (by simp [WPC.lb]) (by rw [hp]; rfl)
  case wlatch =>
    step_split hs; next hp =>
    exact hi.wstep (by rw [hv, hp]; rfl) (by simp [WPC.ex]) (by simp [WPC.lb]) (by rw [hp]; rfl)
  case wunlatch =>
    step_split hs; next hp =>
    have e1 := hi.lt (by rw [hp]; rfl)
    have e2 : cnt id (fun _ : Fin n => false) = 0 := cnt_zero_of (fun _ => rfl)
    refine ⟨?_, by simp [WPC.ex], by simp [WPC.lb], by simp, by simp⟩
    simp only [e1, e2]; rfl
  case wrunlock =>
    step_split hs; next hp =>
    rw [hp] at hv
    exact hi.wstep (by rw [hv, word_pred _ _ (by simp [WPC.rd])]; simp [WPC.rd, WPC.wb, WPC.lb]) (by simp [WPC.ex]) (by simp [WPC.lb]) (by rw [hp]; rfl)
  case wrun =>
    cases hp : s.wpc <;> simp only [hp] at hs <;> rw [hp] at hv hb
    case lkOr =>
      step_split hs
      exact hi.wstep (by rw [hv, word_or_WB _ _ hb]; rfl) (by simp [WPC.ex]) (by simp [WPC.lb]) (by rw [hp]; rfl)
    case lkWait =>
      step_split hs
      · exact hi
      · next h0 =>
        have h0 := (hi.and_RM hn).1 (by simpa using h0)
        exact hi.wstep (by rw [hv]; rfl) (fun _ => .inr (none_reading (by omega))) (by simp [WPC.lb]) (by rw [hp]; rfl)
    case ltOr =>
      step_split hs
      exact hi.wstep (by rw [hv, word_or_WB _ _ hb]; rfl) (by simp [WPC.ex]) (by simp [WPC.lb]) (by rw [hp]; rfl)
    case ltCas =>
      step_split hs
      · next h0 =>
        have h0 := ((hi.value_eq hn (w := true) (l := false) (c := 0) (by omega)).1 (h0.trans WB_eq)).2.2
        have e1 : cnt PC.inc s.pc = 0 := by omega
        have e2 : cnt id s.leak = 0 := by omega
        exact hi.wstep (by rw [WM_eq, e1, e2]; rfl) (fun _ => .inr (none_reading e1)) (by simp [e1]) (by rw [hp]; rfl)
      · exact hi.wstep (by rw [hv]; rfl) (by simp [WPC.ex]) (by simp [WPC.lb]) (by rw [hp]; rfl)
    case ltWait =>
      step_split hs
      · exact hi
      · exact hi.wstep (by rw [hv]; rfl) (by simp [WPC.ex]) (by simp [WPC.lb]) (by rw [hp]; rfl)
    case dgAnd =>
      step_split hs
      exact hi.wstep (by rw [hv, word_and_RM _ _ hb]; rfl) (by simp [WPC.ex]) (by simp [WPC.lb]) (by rw [hp]; rfl)
    all_goals cases hs
  case rlock t =>
    step_split hs; next hp =>
    exact hi.rstep (by rw [hv, hp]; rfl) (by simp) (by simp [PC.inc]) (by simp)
  case rtrylock t =>
    step_split hs; next hp =>
    exact hi.rstep (by rw [hv, hp]; rfl) (by simp) (by simp [PC.inc]) (by simp)
  case runlock t =>
    step_split hs; next hp =>
    have := cnt_pos (P := PC.inc) (f := s.pc) t (by rw [hp]; rfl)
    refine hi.rstep (by rw [hv, word_pred _ _ (by omega), hp]; congr 1; simp [PC.inc]; omega) (by simp) (by simp [PC.inc]) (by simp)
  case run t =>
    cases hp : s.pc t <;> simp only [hp] at hs
    case rLoad b =>
      step_split hs
      · cases b <;> simp only [again_true, again_false] <;> exact hi.rstep (by rw [hv, hp]; rfl) (by simp) (by simp [PC.inc]) (by simp)
      · next h0 =>
        have h0 := (hi.and_WB hn).1 (by simpa using h0)
        have hl : s.wpc.lb = false := by
          cases h : s.wpc.lb
          · rfl
          · rw [lb_wb _ h] at h0; cases h0
        exact hi.rstep (by rw [hv, hp]; rfl) (by simp) (by simp [PC.inc]) (fun _ _ => hi.lk hl t)
    case rFaa b =>
      step_split hs
      · next h0 =>
        have h0 := (hi.and_WM0 hn).1 h0
        have hx : s.wpc.ex = false := by revert h0; cases s.wpc <;> simp [WPC.wb, WPC.lb, WPC.ex]
        refine hi.rstep (by rw [hv, word_succ, hp]; congr 1; simp [PC.inc]; omega) (fun _ => hx) (fun _ => h0.2) (by simp)
      · next h1 h0 =>
        have h0 := (hi.and_WM1 hn).1 h0
        refine hi.rstep (by rw [hv, word_succ, hp]; congr 1; simp [PC.inc]; omega) (by simp) (fun _ => h0.2) (by simp)
      · next h1 h0 =>
        have hl : s.wpc.lb = true := by
          cases h : s.wpc.lb
          · exfalso
            cases hw : s.wpc.wb
            · exact h1 ((hi.and_WM0 hn).2 ⟨hw, h⟩)
            · exact h0 ((hi.and_WM1 hn).2 ⟨hw, h⟩)
          · rfl
        have hk : s.leak t = false := by
          cases h : s.leak t
          · rfl
          · exact absurd hp (hi.nf t b h)
        have e1 := hi.lt hl
        have e3 : (again b).inc = false := by cases b <;> rfl
        have e4 := cnt_upd PC.inc s.pc t (again b)
        have e5 := cnt_upd id s.leak t true
        rw [hp, e3] at e4
        simp only [hk, id] at e5
        refine ⟨?_, ?_, ?_, ?_, ?_⟩
        · simp only [e4, e5]; rw [hv, word_succ]; congr 1; simp [PC.inc]; omega
        · intro hw u; simp only [upd_apply]; split
          · cases b <;> simp
          · exact hi.ex hw u
        · intro _; simp only [e4, e1]; simp [PC.inc]
        · intro h; simp only at h; rw [hl] at h; cases h
        · intro u b' hu; simp only [upd_apply] at hu ⊢; split
          · cases b <;> simp
          · next hne => rw [if_neg hne] at hu; exact hi.nf u b' hu
    case rDec b =>
      step_split hs
      have := cnt_pos (P := PC.inc) (f := s.pc) t (by rw [hp]; rfl)
      cases b <;> simp only [again_true, again_false] <;> refine hi.rstep (by rw [hv, word_pred _ _ (by omega), hp]; congr 1; simp [PC.inc]; omega) (by simp) (by simp [PC.inc]) (by simp)
    all_goals cases hs

theorem init_inv : Inv (initSt n) := by
  have e1 : cnt PC.inc (fun _ : Fin n => PC.idle) = 0 := cnt_zero_of (fun _ => rfl)
  have e2 : cnt id (fun _ : Fin n => false) = 0 := cnt_zero_of (fun _ => rfl)
  refine ⟨?_, by simp [initSt], by simp [initSt, WPC.lb], by simp [initSt], by simp [initSt]⟩
  simp only [initSt, e1, e2]; rfl

theorem inv_of_reach (hn : n + 1 < 2 ^ 30) {s : St n} (h : (sys n).Reach s) : Inv s := by
  refine h.invariant (I := Inv) ?_ (fun _ _ _ => inv_step hn)
  rintro s rfl
  exact init_inv

/-! ## Properties -/

/-- C14: while the writer holds the lock (write_lock, write_trylock or write_latch) no reader is
inside; equivalently while a reader is inside the writer is not. -/
theorem rw_exclusion (hn : n + 1 < 2 ^ 30) {s : St n} (h : (sys n).Reach s) (hw : s.writes)
    (t : Fin n) : ¬ s.reads t := by
  have hi := inv_of_reach hn h
  refine hi.ex ?_ t
  rcases hw with e | e <;> rw [e] <;> rfl

theorem Inv.count (hn : n + 1 < 2 ^ 30) {s : St n} (hi : Inv s)
    (hw : s.wpc = .idle ∨ s.wpc = .reading) (hq : ∀ t, s.pc t = .idle ∨ s.pc t = .reading) :
    s.value.toNat = cnt (· = PC.reading) s.pc + if s.wpc = .reading then 1 else 0 := by
  have hl : s.wpc.lb = false := by rcases hw with e | e <;> rw [e] <;> rfl
  have hwb : s.wpc.wb = false := by rcases hw with e | e <;> rw [e] <;> rfl
  have e2 := cnt_zero_of (P := id) (f := s.leak) (hi.lk hl)
  have e1 : cnt PC.inc s.pc = cnt (· = PC.reading) s.pc := by
    unfold cnt
    refine Finset.sum_congr rfl fun t _ => ?_
    rcases hq t with e | e <;> rw [e] <;> rfl
  rw [hi.val, toNat_word _ _ (hi.bound hn), hl, hwb, e1, e2]
  rcases hw with e | e <;> rw [e] <;> simp [WPC.rd]

/-- C14: no reader count is leaked or lost, whatever readers did during latched phases: while the
writer is outside or only holds read ownership and no reader is in the middle of a call, the word is
exactly the number of read owners (in particular 0 when there are none). -/
theorem count_exact (hn : n + 1 < 2 ^ 30) {s : St n} (h : (sys n).Reach s)
    (hw : s.wpc = .idle ∨ s.wpc = .reading) (hq : ∀ t, s.pc t = .idle ∨ s.pc t = .reading) :
    s.value.toNat = cnt (· = PC.reading) s.pc + if s.wpc = .reading then 1 else 0 := (inv_of_reach hn h).count hn hw hq

/-- C14: the read count never drops below the number of read owners, so `locked_reader` answers
true as long as someone (possibly the downgraded writer) owns a read lock. -/
theorem reader_seen (hn : n + 1 < 2 ^ 30) {s : St n} (h : (sys n).Reach s)
    (hr : s.wreads ∨ ∃ t, s.reads t) : lockedReader s = true ∧ locked s = true := by
  have hi := inv_of_reach hn h
  have hc : 0 < cnt PC.inc s.pc + cnt id s.leak + s.wpc.rd.toNat := by
    rcases hr with (e | e) | ⟨t, e⟩
    · rw [e]; simp [WPC.rd]
    · rw [e]; simp [WPC.rd]
    · have := cnt_pos (P := PC.inc) (f := s.pc) t (by rw [show s.pc t = _ from e]; rfl)
      omega
  have hne : s.value &&& RM ≠ 0 := by
    intro h0; have := (hi.and_RM hn).1 h0; omega
  refine ⟨by simpa [lockedReader] using hne, ?_⟩
  have : s.value ≠ 0 := by intro h0; rw [h0] at hne; simp at hne
  simpa [locked] using this

/-- C14: write_downgrade hands over without a gap: between its first access and read_unlock the
former writer is counted as a reader, a write lock by trylock cannot be taken, and before that first
access nobody else is inside. -/
theorem downgrade (hn : n + 1 < 2 ^ 30) {s s' : St n} (h : (sys n).Reach s)
    (hs : (sys n).step s .wdowngrade = some s') :
    s.writes ∧ s'.wreads ∧ (∀ t, ¬ s'.reads t) ∧ s'.value.toNat % 2 ^ 30 ≥ 1 := by
  have h' := Sys.Reach.step h hs
  have hi' := inv_of_reach hn h'
  simp only [sys, step] at hs
  split at hs
  · next hp =>
    have hw : s.writes := .inl hp
    have hx := rw_exclusion hn h hw
    simp only [Option.some.injEq] at hs
    subst hs
    refine ⟨hw, .inl rfl, hx, ?_⟩
    have := toNat_word true false (hi'.bound hn)
    have hv := hi'.val
    simp only [WPC.wb, WPC.lb, WPC.rd] at hv this ⊢
    rw [hv, this]
    have hb := hi'.bound hn
    simp only [WPC.rd] at hb
    simp at hb ⊢
    omega
  · cases hs

/-- C14, progress: a waiting writer enters as soon as nobody owns a read lock and no reader is
taking a failed increment back. -/
theorem write_progress (hn : n + 1 < 2 ^ 30) {s : St n} (h : (sys n).Reach s)
    (hw : s.wpc = .lkWait ∨ s.wpc = .ltCas) (hq : ∀ t b, s.pc t ≠ .reading ∧ s.pc t ≠ .rDec b) :
    ∃ s', (sys n).step s .wrun = some s' ∧ s'.writes := by
  have hi := inv_of_reach hn h
  have hl : s.wpc.lb = false := by rcases hw with e | e <;> rw [e] <;> rfl
  have e2 := cnt_zero_of (P := id) (f := s.leak) (hi.lk hl)
  have e1 : cnt PC.inc s.pc = 0 := cnt_zero_of fun t => by
    have := hq t
    cases hp : s.pc t <;> simp_all [PC.inc]
  rcases hw with e | e
  · have h0 := (hi.and_RM hn).2 (by rw [e1, e2, e]; rfl)
    exact ⟨_, by simp only [sys, step, e]; rw [if_neg (by simpa using h0)], .inl rfl⟩
  · have h0 := (hi.value_eq hn (w := true) (l := false) (c := 0) (by omega)).2
      ⟨by rw [e]; rfl, hl, by rw [e1, e2, e]; rfl⟩
    exact ⟨_, by simp only [sys, step, e]; rw [if_pos (h0.trans WB_eq.symm)], .inr rfl⟩

/-- C14, progress: while the writer is outside, a reader passes. -/
theorem read_progress (hn : n + 1 < 2 ^ 30) {s : St n} (h : (sys n).Reach s)
    (hw : s.wpc = .idle ∨ s.wpc = .reading) {t : Fin n} {b : Bool} :
    (s.pc t = .rLoad b → ∃ s', (sys n).step s (.run t) = some s' ∧ s'.pc t = .rFaa b) ∧
    (s.pc t = .rFaa b → ∃ s', (sys n).step s (.run t) = some s' ∧ s'.reads t) := by
  have hi := inv_of_reach hn h
  have hl : s.wpc.lb = false := by rcases hw with e | e <;> rw [e] <;> rfl
  have hwb : s.wpc.wb = false := by rcases hw with e | e <;> rw [e] <;> rfl
  constructor
  · intro e
    have h0 := (hi.and_WB hn).2 hwb
    exact ⟨_, by simp only [sys, step, e]; rw [if_neg (by simpa using h0)], by simp⟩
  · intro e
    have h0 := (hi.and_WM0 hn).2 ⟨hwb, hl⟩
    exact ⟨_, by simp only [sys, step, e]; rw [if_pos h0], by simp [St.reads]⟩

/-- A reader passes the check, the writer latches, the reader's increment is absorbed, unlatch, the
reader gets in. -/
example : ((sys 2).run (initSt 2)
    [.rlock 0, .run 0, .wlatch, .wrun, .wrun, .run 0, .rtrylock 1, .run 1, .wunlatch, .run 0,
     .run 0]).map (fun s => (s.value, s.wpc, s.pc 0, s.pc 1)) =
    some (1, .idle, .reading, .idle) := by decide

/-- Downgrade with a reader waiting. -/
example : ((sys 1).run (initSt 1)
    [.wlock, .wrun, .wrun, .rlock 0, .run 0, .wdowngrade, .wrun, .run 0, .run 0]).map
    (fun s => (s.value, s.wpc, s.pc 0)) = some (2, .reading, .reading) := by decide

end Verif.Rw.Swlock
