import Verif.Rw.Pflock

/-! # C11, C12: `ck_pflock` -/

set_option linter.unusedSimpArgs false
set_option linter.unusedVariables false

namespace Verif.Rw.Pflock

open Spec

variable {n : Nat}

def PC.act : PC → Bool
  | .wSpin _ | .wAnn _ | .wWait _ | .writing | .uFaa => true
  | _ => false

def PC.held : PC → Bool
  | .wAnn _ | .wWait _ | .writing | .uFaa => true
  | _ => false

@[simp, grind =] theorem PC.act_idle : PC.idle.act = false := rfl
@[simp, grind =] theorem PC.act_wSpin {a} : (PC.wSpin a).act = true := rfl
@[simp, grind =] theorem PC.act_wAnn {a} : (PC.wAnn a).act = true := rfl
@[simp, grind =] theorem PC.act_wWait {a} : (PC.wWait a).act = true := rfl
@[simp, grind =] theorem PC.act_writing : PC.writing.act = true := rfl
@[simp, grind =] theorem PC.act_uFaa : PC.uFaa.act = true := rfl
@[simp, grind =] theorem PC.act_rSpin {a} : (PC.rSpin a).act = false := rfl
@[simp, grind =] theorem PC.act_reading : PC.reading.act = false := rfl
@[simp, grind =] theorem PC.held_idle : PC.idle.held = false := rfl
@[simp, grind =] theorem PC.held_wSpin {a} : (PC.wSpin a).held = false := rfl
@[simp, grind =] theorem PC.held_wAnn {a} : (PC.wAnn a).held = true := rfl
@[simp, grind =] theorem PC.held_wWait {a} : (PC.wWait a).held = true := rfl
@[simp, grind =] theorem PC.held_writing : PC.writing.held = true := rfl
@[simp, grind =] theorem PC.held_uFaa : PC.uFaa.held = true := rfl
@[simp, grind =] theorem PC.held_rSpin {a} : (PC.rSpin a).held = false := rfl
@[simp, grind =] theorem PC.held_reading : PC.reading.held = false := rfl
@[simp, grind =] theorem PC.rd_idle : PC.idle.rd = false := rfl
@[simp, grind =] theorem PC.rd_wSpin {a} : (PC.wSpin a).rd = false := rfl
@[simp, grind =] theorem PC.rd_wAnn {a} : (PC.wAnn a).rd = false := rfl
@[simp, grind =] theorem PC.rd_wWait {a} : (PC.wWait a).rd = false := rfl
@[simp, grind =] theorem PC.rd_writing : PC.writing.rd = false := rfl
@[simp, grind =] theorem PC.rd_uFaa : PC.uFaa.rd = false := rfl
@[simp, grind =] theorem PC.rd_rSpin {a} : (PC.rSpin a).rd = true := rfl
@[simp, grind =] theorem PC.rd_reading : PC.reading.rd = true := rfl

/-- Low bits of `rin`. -/
def wb (ann : Bool) (ph : Nat) : Nat := if ann then 2 + (ph - 1) % 2 else 0

theorem wb_lt (a : Bool) (p : Nat) : wb a p < 4 := by unfold wb; split <;> omega

structure Inv (s : St n) : Prop where
  q : QInv s.q (fun t => (s.pc t).act) (fun t => (s.pc t).held)
  win : s.win = BitVec.ofNat 32 s.q.arr.length
  wout : s.wout = BitVec.ofNat 32 s.q.rel
  tkt : ∀ t k, s.pc t = .wSpin k ∨ s.pc t = .wAnn k → k = BitVec.ofNat 32 (s.q.tk t)
  rin : s.rin = BitVec.ofNat 32 (256 * s.ri + wb s.ann s.ph)
  rout : s.rout = BitVec.ofNat 32 (256 * s.ro)
  ri : s.ri = s.ro + cnt PC.rd s.pc
  p1 : ∀ t k, s.pc t = .wAnn k → s.ann = false ∧ s.ph = s.q.rel
  p2 : ∀ t r, s.pc t = .wWait r → s.ann = true ∧ s.ph = s.q.rel + 1
  p2' : ∀ t, s.pc t = .writing → s.ann = true ∧ s.ph = s.q.rel + 1
  p3 : ∀ t, s.pc t = .uFaa → s.ann = false ∧ s.ph = s.q.rel + 1
  p4 : (∀ t, (s.pc t).held = false) → s.ann = false ∧ s.ph = s.q.rel
  o1 : ∀ t r, s.pc t = .wWait r → r = BitVec.ofNat 32 (256 * (s.ro + cnt id s.old))
  o2 : ∀ t, s.old t = true → (s.pc t).rd = true
  o3 : ∀ t, s.ann = true → s.pc t = .reading → s.old t = true
  o4 : ∀ t u, s.pc t = .writing → s.old u = false
  s1 : ∀ t w, s.pc t = .rSpin w → w = BitVec.ofNat 32 (2 + s.gph t % 2)
  s2 : ∀ t w, s.pc t = .rSpin w → s.ann = false → s.gph t + 1 = s.ph
  s3 : ∀ t w, s.pc t = .rSpin w → s.ann = true → s.old t = true → s.gph t + 2 = s.ph
  s4 : ∀ t w, s.pc t = .rSpin w → s.ann = true → s.old t = false → s.gph t + 1 = s.ph
  e1 : s.ann = false → s.entries = s.ph
  e2 : ∀ t, s.pc t = .writing → s.entries = s.ph
  e3 : ∀ t r, s.pc t = .wWait r → s.entries + 1 = s.ph
  e4 : s.ann = true → s.ph ≤ s.entries + 1 ∧ 1 ≤ s.ph
  e5 : ∀ t w, s.pc t = .rSpin w → s.gph t ≤ s.e0 t

theorem ofNat_inj {a b : Nat} (h : BitVec.ofNat 32 a = BitVec.ofNat 32 b) : a % 2 ^ 32 = b % 2 ^ 32 := by
  have := congrArg BitVec.toNat h
  simpa using this

theorem and3 (a b : Nat) (hb : b < 4) :
    BitVec.ofNat 32 (256 * a + b) &&& 3 = BitVec.ofNat 32 b := by
  apply BitVec.eq_of_toNat_eq
  have : (3 : BitVec 32).toNat = 2 ^ 2 - 1 := rfl
  rw [BitVec.toNat_and, this, Nat.and_two_pow_sub_one_eq_mod]
  simp only [BitVec.toNat_ofNat]
  omega

theorem mask_eq (x : BitVec 32) : x &&& 0xFFFFFFF0#32 = (x >>> 4) <<< 4 := by
  have hm : ∀ i : Fin 32, (0xFFFFFFF0#32).getLsbD i = decide (4 ≤ i.val) := by decide
  apply BitVec.eq_of_getLsbD_eq
  intro i hi
  have := hm ⟨i, hi⟩
  simp only at this
  rw [BitVec.getLsbD_and, this, BitVec.getLsbD_shiftLeft, BitVec.getLsbD_ushiftRight]
  by_cases h4 : 4 ≤ i
  · have e : 4 + (i - 4) = i := by omega
    simp [h4, hi, e, Nat.not_lt.2 h4]
  · simp [h4]

theorem clear_bits (a b : Nat) (hb : b < 4) :
    BitVec.ofNat 32 (256 * a + b) &&& 0xFFFFFFF0#32 = BitVec.ofNat 32 (256 * a) := by
  rw [mask_eq]
  apply BitVec.eq_of_toNat_eq
  rw [BitVec.toNat_shiftLeft, BitVec.toNat_ushiftRight]
  simp only [BitVec.toNat_ofNat, Nat.shiftLeft_eq, Nat.shiftRight_eq_div_pow]
  omega

theorem phase_bits (k : Nat) :
    (BitVec.ofNat 32 k &&& 1) ||| 2 = BitVec.ofNat 32 (2 + k % 2) := by
  have h1 : BitVec.ofNat 32 k &&& 1 = BitVec.ofNat 32 (k % 2) := by
    apply BitVec.eq_of_toNat_eq
    have : (1 : BitVec 32).toNat = 2 ^ 1 - 1 := rfl
    rw [BitVec.toNat_and, this, Nat.and_two_pow_sub_one_eq_mod]
    simp only [BitVec.toNat_ofNat]
    omega
  rw [h1]
  rcases Nat.mod_two_eq_zero_or_one k with h | h <;> rw [h] <;> rfl

theorem init_inv : Inv (initSt n) := by
  have hr : cnt PC.rd (initSt n).pc = 0 := cnt_zero_of fun _ => rfl
  constructor
  case q => exact QInv.empty n
  case ri => rw [hr]; rfl
  all_goals simp [initSt, Q.empty, wb]

theorem inv_wlock (hn : n < 2 ^ 24) {s s' : St n} {t : Fin n} (hi : Inv s)
    (hs : step s (.wlock t) = some s') : Inv s' := by
  obtain ⟨hq, h1, h2, h3, h4, h5, h6, h7, h8, h9, h10, h11, h12, h13, h14, h15, h16, h17, h18, h19, h20, h21, h22, h23, h24⟩ := hi
  simp only [step] at hs
  step_split hs
  next hp =>
  have ea := comp_upd PC.act s.pc t (.wSpin s.win)
  have eh := comp_upd_same PC.held s.pc t (.wSpin s.win) (by rw [hp]; rfl)
  have eh' := fun u => congrFun eh u
  have hc := cnt_update PC.rd s.pc t (.wSpin s.win)
  rw [hp] at hc
  simp only [PC.rd_idle, PC.rd_wSpin, PC.rd_wAnn, PC.rd_wWait, PC.rd_writing, PC.rd_uFaa, PC.rd_rSpin, PC.rd_reading, Bool.toNat_true, Bool.toNat_false] at hc
  have hna : (s.pc t).act = false := by rw [hp]; rfl
  have hta : ∀ u k, s.pc u = .wSpin k ∨ s.pc u = .wAnn k → u ≠ t := by
    rintro u k h rfl; rw [hp] at h; simp at h
  constructor
  case q => simp only [ea, eh]; exact hq.arrive hna
  all_goals simp only [Q.arrive, List.length_append, List.length_singleton]
  case win => rw [h1, BitVec.ofNat_add]; rfl
  case wout => fin h2 hp
  case tkt => fin h3 hp hta h1
  case rin => fin h4 hp
  case rout => fin h5 hp
  case ri => fin h6 hp hc
  case p1 => fin h7 hp
  case p2 => fin h8 hp
  case p2' => fin h9 hp
  case p3 => fin h10 hp
  case p4 => fin h11 hp eh'
  case o1 => fin h12 hp
  case o2 => fin h13 hp
  case o3 => fin h14 hp
  case o4 => fin h15 hp
  case s1 => fin h16 hp
  case s2 => fin h17 hp
  case s3 => fin h18 hp
  case s4 => fin h19 hp
  case e1 => fin h20 hp
  case e2 => fin h21 hp
  case e3 => fin h22 hp
  case e4 => fin h23 hp
  case e5 => fin h24 hp

theorem inv_wunlock (hn : n < 2 ^ 24) {s s' : St n} {t : Fin n} (hi : Inv s)
    (hs : step s (.wunlock t) = some s') : Inv s' := by
  obtain ⟨hq, h1, h2, h3, h4, h5, h6, h7, h8, h9, h10, h11, h12, h13, h14, h15, h16, h17, h18, h19, h20, h21, h22, h23, h24⟩ := hi
  simp only [step] at hs
  step_split hs
  next hp =>
  have ea := comp_upd_same PC.act s.pc t .uFaa (by rw [hp]; rfl)
  have eh := comp_upd_same PC.held s.pc t .uFaa (by rw [hp]; rfl)
  have eh' := fun u => congrFun eh u
  have hc := cnt_update PC.rd s.pc t .uFaa
  rw [hp] at hc
  simp only [PC.rd_idle, PC.rd_wSpin, PC.rd_wAnn, PC.rd_wWait, PC.rd_writing, PC.rd_uFaa, PC.rd_rSpin, PC.rd_reading, Bool.toNat_true, Bool.toNat_false] at hc
  have hh : (s.pc t).held = true := by rw [hp]; rfl
  have huni : ∀ u, (s.pc u).held = true → u = t := fun u h => hq.held_unique h hh
  have hann := h9 t hp
  constructor
  case q => simp only [ea, eh]; exact hq
  case rin => simp only [wb]; rw [h4, clear_bits _ _ (wb_lt _ _)]; rfl
  case win => fin h1 hp
  case wout => fin h2 hp
  case tkt => fin h3 hp
  case rout => fin h5 hp
  case ri => fin h6 hp hc
  case p1 => fin h7 hp huni
  case p2 => fin h8 hp huni
  case p2' => fin h9 hp huni
  case p3 => fin h10 hp hann
  case p4 => fin h11 hp eh' hh
  case o1 => fin h12 hp
  case o2 => fin h13 hp
  case o3 => fin h14 hp
  case o4 => fin h15 hp
  case s1 => fin h16 hp
  case s2 => fin h17 hp h15 h19 hann
  case s3 => fin h18 hp
  case s4 => fin h19 hp
  case e1 => fin h20 hp h21
  case e2 => fin h21 hp
  case e3 => fin h22 hp
  case e4 => fin h23 hp
  case e5 => fin h24 hp

theorem inv_rlock (hn : n < 2 ^ 24) {s s' : St n} {t : Fin n} (hi : Inv s)
    (hs : step s (.rlock t) = some s') : Inv s' := by
  obtain ⟨hq, h1, h2, h3, h4, h5, h6, h7, h8, h9, h10, h11, h12, h13, h14, h15, h16, h17, h18, h19, h20, h21, h22, h23, h24⟩ := hi
  simp only [step] at hs
  have hrb : s.rin &&& 3 = BitVec.ofNat 32 (wb s.ann s.ph) := by rw [h4, and3 _ _ (wb_lt _ _)]
  have hrp : s.rin + 0x100 = BitVec.ofNat 32 (256 * (s.ri + 1) + wb s.ann s.ph) := by
    rw [h4, show 256 * (s.ri + 1) + wb s.ann s.ph = 256 * s.ri + wb s.ann s.ph + 256 by omega,
      BitVec.ofNat_add (x := 256 * s.ri + wb s.ann s.ph)]
    rfl
  have hann : s.rin &&& 3 = 0 ↔ s.ann = false := by
    rw [hrb]
    constructor
    · intro h
      have h := ofNat_inj (b := 0) h
      cases ha : s.ann
      · rfl
      · rw [ha] at h; simp only [wb, if_true] at h; omega
    · intro h; rw [h]; rfl
  have hwb : s.ann = true → wb s.ann s.ph = 2 + (s.ph - 1) % 2 := by
    intro h; rw [h]; rfl
  split at hs
  rotate_left
  · cases hs
  next hp =>
  have hold : s.old t = false := by
    by_contra hc
    have := h13 t (by simpa using hc)
    rw [hp] at this; cases this
  have ho : upd s.old t false = s.old := by rw [← hold]; simp
  step_split hs
  · next hz =>
    have ha := hann.1 hz
    have ea := comp_upd_same PC.act s.pc t .reading (by rw [hp]; rfl)
    have eh := comp_upd_same PC.held s.pc t .reading (by rw [hp]; rfl)
    have eh' := fun u => congrFun eh u
    have hc := cnt_update PC.rd s.pc t .reading
    rw [hp] at hc
    simp only [PC.rd_idle, PC.rd_wSpin, PC.rd_wAnn, PC.rd_wWait, PC.rd_writing, PC.rd_uFaa, PC.rd_rSpin, PC.rd_reading, Bool.toNat_true, Bool.toNat_false] at hc
    constructor
    case q => simp only [ea, eh]; exact hq
    case rin => exact hrp
    case o1 => rw [ho]; fin h12 hp
    case win => fin h1 hp
    case wout => fin h2 hp
    case tkt => fin h3 hp
    case rout => fin h5 hp
    case ri => fin h6 hp hc
    case p1 => fin h7 hp
    case p2 => fin h8 hp
    case p2' => fin h9 hp
    case p3 => fin h10 hp
    case p4 => fin h11 hp eh'
    case o2 => fin h13 hp
    case o3 => fin h14 hp ha
    case o4 => fin h15 hp
    case s1 => fin h16 hp
    case s2 => fin h17 hp
    case s3 => fin h18 hp
    case s4 => fin h19 hp
    case e1 => fin h20 hp
    case e2 => fin h21 hp
    case e3 => fin h22 hp
    case e4 => fin h23 hp
    case e5 => fin h24 hp
  · next hz =>
    have ha : s.ann = true := by
      cases h : s.ann
      · exact absurd (hann.2 h) hz
      · rfl
    have ea := comp_upd_same PC.act s.pc t (.rSpin (s.rin &&& 3)) (by rw [hp]; rfl)
    have eh := comp_upd_same PC.held s.pc t (.rSpin (s.rin &&& 3)) (by rw [hp]; rfl)
    have eh' := fun u => congrFun eh u
    have hc := cnt_update PC.rd s.pc t (.rSpin (s.rin &&& 3))
    rw [hp] at hc
    simp only [PC.rd_idle, PC.rd_wSpin, PC.rd_wAnn, PC.rd_wWait, PC.rd_writing, PC.rd_uFaa, PC.rd_rSpin, PC.rd_reading, Bool.toNat_true, Bool.toNat_false] at hc
    constructor
    case q => simp only [ea, eh]; exact hq
    case rin => exact hrp
    case o1 => rw [ho]; fin h12 hp
    case win => fin h1 hp
    case wout => fin h2 hp
    case tkt => fin h3 hp
    case rout => fin h5 hp
    case ri => fin h6 hp hc
    case p1 => fin h7 hp
    case p2 => fin h8 hp
    case p2' => fin h9 hp
    case p3 => fin h10 hp
    case p4 => fin h11 hp eh'
    case o2 => fin h13 hp
    case o3 => fin h14 hp
    case o4 => fin h15 hp
    case s1 => fin h16 hp hrb hwb ha
    case s2 => fin h17 hp ha
    case s3 => fin h18 hp hold
    case s4 => fin h19 hp h23 ha
    case e1 => fin h20 hp
    case e2 => fin h21 hp
    case e3 => fin h22 hp
    case e4 => fin h23 hp
    case e5 => fin h24 hp h23 ha

theorem inv_runlock (hn : n < 2 ^ 24) {s s' : St n} {t : Fin n} (hi : Inv s)
    (hs : step s (.runlock t) = some s') : Inv s' := by
  obtain ⟨hq, h1, h2, h3, h4, h5, h6, h7, h8, h9, h10, h11, h12, h13, h14, h15, h16, h17, h18, h19, h20, h21, h22, h23, h24⟩ := hi
  simp only [step] at hs
  step_split hs
  next hp =>
  have ea := comp_upd_same PC.act s.pc t .idle (by rw [hp]; rfl)
  have eh := comp_upd_same PC.held s.pc t .idle (by rw [hp]; rfl)
  have eh' := fun u => congrFun eh u
  have hc := cnt_update PC.rd s.pc t .idle
  rw [hp] at hc
  simp only [PC.rd_idle, PC.rd_wSpin, PC.rd_wAnn, PC.rd_wWait, PC.rd_writing, PC.rd_uFaa, PC.rd_rSpin, PC.rd_reading, Bool.toNat_true, Bool.toNat_false] at hc
  have ho := cnt_update id s.old t false
  have hle := cnt_pos (P := PC.rd) (f := s.pc) t (by rw [hp]; rfl)
  constructor
  case q => simp only [ea, eh]; exact hq
  case rout =>
    simp only
    rw [h5, show 256 * (s.ro + 1) = 256 * s.ro + 256 by omega, BitVec.ofNat_add (x := 256 * s.ro)]
    rfl
  case o1 =>
    intro u r hu
    have hu' : s.pc u = .wWait r := by fin hu
    have ht := h14 t (h8 u r hu').1 hp
    simp [ht] at ho
    rw [h12 u r hu']
    congr 2
    simp only
    omega
  case win => fin h1 hp
  case wout => fin h2 hp
  case tkt => fin h3 hp
  case rin => fin h4 hp
  case ri => fin h6 hp hc hle
  case p1 => fin h7 hp
  case p2 => fin h8 hp
  case p2' => fin h9 hp
  case p3 => fin h10 hp
  case p4 => fin h11 hp eh'
  case o2 => fin h13 hp
  case o3 => fin h14 hp
  case o4 => fin h15 hp
  case s1 => fin h16 hp
  case s2 => fin h17 hp
  case s3 => fin h18 hp
  case s4 => fin h19 hp
  case e1 => fin h20 hp
  case e2 => fin h21 hp
  case e3 => fin h22 hp
  case e4 => fin h23 hp
  case e5 => fin h24 hp

theorem inv_wSpin (hn : n < 2 ^ 24) {s s' : St n} {t : Fin n} {k : BitVec 32} (hi : Inv s)
    (hp : s.pc t = .wSpin k) (hs : step s (.run t) = some s') : Inv s' := by
  obtain ⟨hq, h1, h2, h3, h4, h5, h6, h7, h8, h9, h10, h11, h12, h13, h14, h15, h16, h17, h18, h19, h20, h21, h22, h23, h24⟩ := hi
  have hi : Inv s := ⟨hq, h1, h2, h3, h4, h5, h6, h7, h8, h9, h10, h11, h12, h13, h14, h15, h16, h17, h18, h19, h20, h21, h22, h23, h24⟩
  simp only [step, hp] at hs
  have hact : (s.pc t).act = true := by rw [hp]; rfl
  step_split hs
  · next hw =>
    have htk : s.q.tk t = s.q.rel := by
      have e := h3 t k (.inl hp)
      rw [← hw, h2] at e
      have := ofNat_inj e
      have h1 := hq.window
      have h2 := hq.tk_lt (t := t) hact
      have h3 := (hq.act_tk t hact).1
      omega
    have hnh := hq.none_held hact htk (by rw [hp]; rfl)
    have h4' := h11 hnh
    have ea := comp_upd_same PC.act s.pc t (.wAnn k) (by rw [hp]; rfl)
    have eh := comp_upd PC.held s.pc t (.wAnn k)
    have eh' := fun u => congrFun eh u
    have hc := cnt_update PC.rd s.pc t (.wAnn k)
    rw [hp] at hc
    simp only [PC.rd_idle, PC.rd_wSpin, PC.rd_wAnn, PC.rd_wWait, PC.rd_writing, PC.rd_uFaa, PC.rd_rSpin, PC.rd_reading, Bool.toNat_true, Bool.toNat_false] at hc
    constructor
    case q => simp only [ea, eh]; exact hq.enter hact htk (by rw [hp]; rfl)
    all_goals simp only [Q.enter]
    case win => fin h1 hp
    case wout => fin h2 hp
    case tkt => fin h3 hp
    case rin => fin h4 hp
    case rout => fin h5 hp
    case ri => fin h6 hp hc
    case p1 => fin h7 hp h4' hnh
    case p2 => fin h8 hp hnh
    case p2' => fin h9 hp
    case p3 => fin h10 hp
    case p4 => fin h11 hp eh' h4'
    case o1 => fin h12 hp
    case o2 => fin h13 hp
    case o3 => fin h14 hp
    case o4 => fin h15 hp
    case s1 => fin h16 hp
    case s2 => fin h17 hp
    case s3 => fin h18 hp
    case s4 => fin h19 hp
    case e1 => fin h20 hp
    case e2 => fin h21 hp
    case e3 => fin h22 hp
    case e4 => fin h23 hp
    case e5 => fin h24 hp
  · exact hi

theorem inv_wAnn (hn : n < 2 ^ 24) {s s' : St n} {t : Fin n} {k : BitVec 32} (hi : Inv s)
    (hp : s.pc t = .wAnn k) (hs : step s (.run t) = some s') : Inv s' := by
  obtain ⟨hq, h1, h2, h3, h4, h5, h6, h7, h8, h9, h10, h11, h12, h13, h14, h15, h16, h17, h18, h19, h20, h21, h22, h23, h24⟩ := hi
  have hi : Inv s := ⟨hq, h1, h2, h3, h4, h5, h6, h7, h8, h9, h10, h11, h12, h13, h14, h15, h16, h17, h18, h19, h20, h21, h22, h23, h24⟩
  simp only [step, hp] at hs
  have hh : (s.pc t).held = true := by rw [hp]; rfl
  have huni : ∀ u, (s.pc u).held = true → u = t := fun u h => hq.held_unique h hh
  step_split hs
  have hann := h7 t k hp
  have hk := h3 t k (.inr hp)
  have htk : s.q.tk t = s.q.rel := hq.held_tk t hh
  have ea := comp_upd_same PC.act s.pc t (.wWait s.rin) (by rw [hp]; rfl)
  have eh := comp_upd_same PC.held s.pc t (.wWait s.rin) (by rw [hp]; rfl)
  have eh' := fun u => congrFun eh u
  have hc := cnt_update PC.rd s.pc t (.wWait s.rin)
  rw [hp] at hc
  simp only [PC.rd_idle, PC.rd_wSpin, PC.rd_wAnn, PC.rd_wWait, PC.rd_writing, PC.rd_uFaa, PC.rd_rSpin, PC.rd_reading, Bool.toNat_true, Bool.toNat_false] at hc
  have hcr : cnt id (fun u => (s.pc u).rd) = cnt PC.rd s.pc := rfl
  constructor
  case q => simp only [ea, eh]; exact hq
  case rin =>
    simp only
    rw [h4, hk, phase_bits, htk, hann.1, hann.2, ← BitVec.ofNat_add]
    simp [wb]
  case o1 =>
    simp only
    intro u r hu
    rw [hcr, ← h6]
    have : r = s.rin := by fin hu hp huni
    rw [this, h4, hann.1]; rfl
  case win => fin h1 hp
  case wout => fin h2 hp
  case tkt => fin h3 hp
  case rout => fin h5 hp
  case ri => fin h6 hp hc
  case p1 => fin h7 hp huni
  case p2 => fin h8 hp hann huni
  case p2' => fin h9 hp huni
  case p3 => fin h10 hp huni
  case p4 => fin h11 hp eh' hh
  case o2 => fin h13 hp
  case o3 => fin h14 hp
  case o4 => fin h15 hp huni
  case s1 => fin h16 hp
  case s2 => fin h17 hp
  case s3 => fin h18 hp h17 hann
  case s4 => fin h19 hp
  case e1 => fin h20 hp hann
  case e2 => fin h21 hp huni
  case e3 => fin h22 hp huni h20 hann
  case e4 => fin h23 hp h20 hann
  case e5 => fin h24 hp

theorem inv_wWait (hn : n < 2 ^ 24) {s s' : St n} {t : Fin n} {r : BitVec 32} (hi : Inv s)
    (hp : s.pc t = .wWait r) (hs : step s (.run t) = some s') : Inv s' := by
  obtain ⟨hq, h1, h2, h3, h4, h5, h6, h7, h8, h9, h10, h11, h12, h13, h14, h15, h16, h17, h18, h19, h20, h21, h22, h23, h24⟩ := hi
  have hi : Inv s := ⟨hq, h1, h2, h3, h4, h5, h6, h7, h8, h9, h10, h11, h12, h13, h14, h15, h16, h17, h18, h19, h20, h21, h22, h23, h24⟩
  simp only [step, hp] at hs
  have hh : (s.pc t).held = true := by rw [hp]; rfl
  have huni : ∀ u, (s.pc u).held = true → u = t := fun u h => hq.held_unique h hh
  step_split hs
  · next hr =>
    have h0 : cnt id s.old = 0 := by
      have e := h12 t r hp
      rw [← hr, h5] at e
      have e := ofNat_inj e
      have := cnt_le id s.old
      omega
    have hold := fun u => cnt_eq_zero h0 u
    simp only [id] at hold
    have ea := comp_upd_same PC.act s.pc t .writing (by rw [hp]; rfl)
    have eh := comp_upd_same PC.held s.pc t .writing (by rw [hp]; rfl)
    have eh' := fun u => congrFun eh u
    have hc := cnt_update PC.rd s.pc t .writing
    rw [hp] at hc
    simp only [PC.rd_idle, PC.rd_wSpin, PC.rd_wAnn, PC.rd_wWait, PC.rd_writing, PC.rd_uFaa, PC.rd_rSpin, PC.rd_reading, Bool.toNat_true, Bool.toNat_false] at hc
    constructor
    case q => simp only [ea, eh]; exact hq
    case win => fin h1 hp
    case wout => fin h2 hp
    case tkt => fin h3 hp
    case rin => fin h4 hp
    case rout => fin h5 hp
    case ri => fin h6 hp hc
    case p1 => fin h7 hp
    case p2 => fin h8 hp
    case p2' => fin h9 hp h8
    case p3 => fin h10 hp
    case p4 => fin h11 hp eh' hh
    case o1 => fin h12 hp
    case o2 => fin h13 hp
    case o3 => fin h14 hp
    case o4 => fin h15 hp hold
    case s1 => fin h16 hp
    case s2 => fin h17 hp
    case s3 => fin h18 hp
    case s4 => fin h19 hp
    case e1 => fin h20 hp h8
    case e2 => fin h21 hp huni h22
    case e3 => fin h22 hp huni
    case e4 => fin h23 hp h22
    case e5 => fin h24 hp
  · exact hi

theorem inv_uFaa (hn : n < 2 ^ 24) {s s' : St n} {t : Fin n} (hi : Inv s)
    (hp : s.pc t = .uFaa) (hs : step s (.run t) = some s') : Inv s' := by
  obtain ⟨hq, h1, h2, h3, h4, h5, h6, h7, h8, h9, h10, h11, h12, h13, h14, h15, h16, h17, h18, h19, h20, h21, h22, h23, h24⟩ := hi
  have hi : Inv s := ⟨hq, h1, h2, h3, h4, h5, h6, h7, h8, h9, h10, h11, h12, h13, h14, h15, h16, h17, h18, h19, h20, h21, h22, h23, h24⟩
  simp only [step, hp] at hs
  have hh : (s.pc t).held = true := by rw [hp]; rfl
  have huni : ∀ u, (s.pc u).held = true → u = t := fun u h => hq.held_unique h hh
  step_split hs
  have hann := h10 t hp
  have ea := comp_upd PC.act s.pc t .idle
  have eh := comp_upd PC.held s.pc t .idle
  have eh' := fun u => congrFun eh u
  have hc := cnt_update PC.rd s.pc t .idle
  rw [hp] at hc
  simp only [PC.rd_idle, PC.rd_wSpin, PC.rd_wAnn, PC.rd_wWait, PC.rd_writing, PC.rd_uFaa, PC.rd_rSpin, PC.rd_reading, Bool.toNat_true, Bool.toNat_false] at hc
  constructor
  case q => simp only [ea, eh]; exact hq.leave hh
  all_goals simp only [Q.leave]
  case wout => rw [h2, BitVec.ofNat_add]; rfl
  case win => fin h1 hp
  case tkt => fin h3 hp
  case rin => fin h4 hp
  case rout => fin h5 hp
  case ri => fin h6 hp hc
  case p1 => fin h7 hp huni
  case p2 => fin h8 hp huni
  case p2' => fin h9 hp huni
  case p3 => fin h10 hp huni
  case p4 => fin h11 hp hann
  case o1 => fin h12 hp
  case o2 => fin h13 hp
  case o3 => fin h14 hp
  case o4 => fin h15 hp
  case s1 => fin h16 hp
  case s2 => fin h17 hp
  case s3 => fin h18 hp
  case s4 => fin h19 hp
  case e1 => fin h20 hp
  case e2 => fin h21 hp
  case e3 => fin h22 hp
  case e4 => fin h23 hp
  case e5 => fin h24 hp

theorem inv_rSpin (hn : n < 2 ^ 24) {s s' : St n} {t : Fin n} {w : BitVec 32} (hi : Inv s)
    (hp : s.pc t = .rSpin w) (hs : step s (.run t) = some s') : Inv s' := by
  obtain ⟨hq, h1, h2, h3, h4, h5, h6, h7, h8, h9, h10, h11, h12, h13, h14, h15, h16, h17, h18, h19, h20, h21, h22, h23, h24⟩ := hi
  have hi : Inv s := ⟨hq, h1, h2, h3, h4, h5, h6, h7, h8, h9, h10, h11, h12, h13, h14, h15, h16, h17, h18, h19, h20, h21, h22, h23, h24⟩
  simp only [step, hp] at hs
  step_split hs
  · exact hi
  · next hr =>
    have hsp := h16 t w hp
    have hrb : s.rin &&& 3 = BitVec.ofNat 32 (wb s.ann s.ph) := by rw [h4, and3 _ _ (wb_lt _ _)]
    have hold : s.ann = true → s.old t = true := by
      intro ha
      by_contra hc
      simp only [Bool.not_eq_true] at hc
      have := h19 t w hp ha hc
      rw [hrb, hsp, ha] at hr
      simp only [wb, if_true] at hr
      have e : (s.ph - 1) = s.gph t := by omega
      rw [e] at hr
      exact hr rfl
    have ea := comp_upd_same PC.act s.pc t .reading (by rw [hp]; rfl)
    have eh := comp_upd_same PC.held s.pc t .reading (by rw [hp]; rfl)
    have eh' := fun u => congrFun eh u
    have hc := cnt_update PC.rd s.pc t .reading
    rw [hp] at hc
    simp only [PC.rd_idle, PC.rd_wSpin, PC.rd_wAnn, PC.rd_wWait, PC.rd_writing, PC.rd_uFaa, PC.rd_rSpin, PC.rd_reading, Bool.toNat_true, Bool.toNat_false] at hc
    constructor
    case q => simp only [ea, eh]; exact hq
    case win => fin h1 hp
    case wout => fin h2 hp
    case tkt => fin h3 hp
    case rin => fin h4 hp
    case rout => fin h5 hp
    case ri => fin h6 hp hc
    case p1 => fin h7 hp
    case p2 => fin h8 hp
    case p2' => fin h9 hp
    case p3 => fin h10 hp
    case p4 => fin h11 hp eh'
    case o1 => fin h12 hp
    case o2 => fin h13 hp
    case o3 => fin h14 hp hold
    case o4 => fin h15 hp
    case s1 => fin h16 hp
    case s2 => fin h17 hp
    case s3 => fin h18 hp
    case s4 => fin h19 hp
    case e1 => fin h20 hp
    case e2 => fin h21 hp
    case e3 => fin h22 hp
    case e4 => fin h23 hp
    case e5 => fin h24 hp

theorem inv_step (hn : n < 2 ^ 24) {s s' : St n} {a : Act n} (hi : Inv s)
    (hs : step s a = some s') : Inv s' := by
  rcases a with t | t | t | t | t
  · exact inv_wlock hn hi hs
  · exact inv_wunlock hn hi hs
  · exact inv_rlock hn hi hs
  · exact inv_runlock hn hi hs
  · cases hp : s.pc t
    case wSpin k => exact inv_wSpin hn hi hp hs
    case wAnn k => exact inv_wAnn hn hi hp hs
    case wWait k => exact inv_wWait hn hi hp hs
    case uFaa => exact inv_uFaa hn hi hp hs
    case rSpin => exact inv_rSpin hn hi hp hs
    all_goals (simp only [step, hp] at hs; cases hs)

theorem inv_of_reach (hn : n < 2 ^ 24) {s : St n} (h : (sys n).Reach s) : Inv s :=
  h.invariant (I := Inv) (fun _ h => h ▸ init_inv) (fun _ _ _ => inv_step hn)

/-! ## Properties -/

/-- C11: a writer is alone, for fewer than 2^24 threads and any number of earlier acquisitions. -/
theorem rw_exclusion (hn : n < 2 ^ 24) {s : St n} (h : (sys n).Reach s) :
    RwEx s.reads s.writes := by
  have hi := inv_of_reach hn h
  refine ⟨fun t u ht hu => ?_, fun t u ht hu => ?_⟩
  · exact hi.q.held_unique (t := t) (u := u) (by rw [ht]; rfl) (by rw [hu]; rfl)
  · have h1 := hi.o3 u (hi.p2' t ht).1 hu
    rw [hi.o4 t u ht] at h1
    cases h1

/-- C11: writers get their turn in the order of their tickets. -/
theorem writers_fcfs (hn : n < 2 ^ 24) {s : St n} (h : (sys n).Reach s) :
    Fcfs s.q.arr s.q.srv := (inv_of_reach hn h).q.pre

theorem Inv.fair {s : St n} (hi : Inv s) {t : Fin n} (ht : s.rwaits t) : s.entries ≤ s.e0 t + 1 := by
  obtain ⟨w, hw⟩ := ht
  have h5 := hi.e5 t w hw
  cases ha : s.ann
  · have h1 := hi.s2 t w hw ha
    have h2 := hi.e1 ha
    omega
  · cases ho : s.old t
    · have h1 := hi.s4 t w hw ha ho
      by_cases hex : ∃ u, (s.pc u).held = true
      · obtain ⟨u, hu⟩ := hex
        cases hp : s.pc u <;> rw [hp] at hu <;> try (cases hu; done)
        · have := (hi.p1 u _ hp).1; simp [ha] at this
        · have := hi.e3 u _ hp; omega
        · have := hi.e2 u hp; omega
        · have := (hi.p3 u hp).1; simp [ha] at this
      · have := (hi.p4 fun u => by have := not_exists.1 hex u; simpa using this).1
        simp [ha] at this
    · have h1 := hi.s3 t w hw ha ho
      by_cases hex : ∃ u, (s.pc u).held = true
      · obtain ⟨u, hu⟩ := hex
        cases hp : s.pc u <;> rw [hp] at hu <;> try (cases hu; done)
        · have := (hi.p1 u _ hp).1; simp [ha] at this
        · have := hi.e3 u _ hp; omega
        · have := hi.o4 u t hp; simp [ho] at this
        · have := (hi.p3 u hp).1; simp [ha] at this
      · have := (hi.p4 fun u => by have := not_exists.1 hex u; simpa using this).1
        simp [ha] at this

/-- C12: from the announcement of a reader until its admission at most one writer critical section
begins.  (`e0 t` is the number of writer critical sections begun before reader `t` announced itself,
`entries` the number begun so far.) -/
theorem phase_fair (hn : n < 2 ^ 24) {s : St n} (h : (sys n).Reach s) {t : Fin n}
    (ht : s.rwaits t) : s.entries ≤ s.e0 t + 1 :=
  (inv_of_reach hn h).fair ht

/-- C12: as soon as the writer critical section a reader met is over, the reader is admitted by its
next step, even if another writer has announced itself meanwhile. -/
theorem reader_admitted (hn : n < 2 ^ 24) {s : St n} (h : (sys n).Reach s) {t : Fin n}
    (ht : s.rwaits t) (hph : ¬ (s.ann = true ∧ s.ph = s.gph t + 1)) :
    ∃ s', (sys n).step s (.run t) = some s' ∧ s'.reads t := by
  have hi := inv_of_reach hn h
  obtain ⟨w, hw⟩ := ht
  have hsp := hi.s1 t w hw
  have hrb : s.rin &&& 3 = BitVec.ofNat 32 (wb s.ann s.ph) := by rw [hi.rin, and3 _ _ (wb_lt _ _)]
  have hne : ¬ s.rin &&& 3 = w := by
    rw [hrb, hsp]
    intro e
    have e := ofNat_inj e
    cases ha : s.ann
    · rw [ha] at e; simp [wb] at e; omega
    · cases ho : s.old t
      · have := hi.s4 t w hw ha ho
        exact hph ⟨ha, by omega⟩
      · have := hi.s3 t w hw ha ho
        rw [ha] at e
        simp only [wb, if_true] at e
        omega
  exact ⟨_, by simp only [sys, step, hw]; rw [if_neg hne], by simp [St.reads]⟩

/-- C12: a reader that meets no announced writer enters at once. -/
theorem reader_free (hn : n < 2 ^ 24) {s : St n} (h : (sys n).Reach s) {t : Fin n}
    (ht : s.pc t = .idle) (hfree : s.ann = false) :
    ∃ s', (sys n).step s (.rlock t) = some s' ∧ s'.reads t := by
  have hi := inv_of_reach hn h
  have hz : s.rin &&& 3 = 0 := by
    rw [hi.rin, and3 _ _ (wb_lt _ _), hfree]; rfl
  exact ⟨_, by simp only [sys, step]; rw [if_pos ht, if_pos hz], by simp [St.reads]⟩

/-- C12: an announced writer enters as soon as the readers active at its announcement left; readers
that announced themselves later do not delay it. -/
theorem writer_admitted (hn : n < 2 ^ 24) {s : St n} (h : (sys n).Reach s) {t : Fin n} {r : BitVec 32}
    (ht : s.pc t = .wWait r) (hold : ∀ u, s.old u = false) :
    ∃ s', (sys n).step s (.run t) = some s' ∧ s'.writes t := by
  have hi := inv_of_reach hn h
  have hr : s.rout = r := by
    rw [hi.o1 t r ht, hi.rout, cnt_zero_of (P := id) hold, Nat.add_zero]
  exact ⟨_, by simp [sys, step, ht, hr]; rfl, by simp [St.writes]⟩

/-- Reader 0 inside, writer 1 announced, reader 2 waits; 0 leaves, 1 writes and leaves, writer 3
announces, and reader 2 gets in although writer 3 is present. -/
example : ((sys 4).run (initSt 4)
    [.rlock 0, .wlock 1, .run 1, .run 1, .rlock 2, .run 1, .run 2, .runlock 0, .run 1, .wlock 3,
     .wunlock 1, .run 1, .run 3, .run 3, .run 3, .run 2]).map
    (fun s => (s.pc 1, s.pc 2, s.pc 3, s.entries)) =
    some (.idle, .reading, .wWait 0x200, 1) := by decide

end Verif.Rw.Pflock
