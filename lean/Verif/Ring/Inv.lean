import Verif.Ring.Ring
import Mathlib.Data.Nat.Bitwise
import Mathlib.Data.Nat.ModEq
import Mathlib.Tactic.Ring

/-! # Invariant of `ck_ring` -/

namespace Verif.Ring

open Verif Verif.Lin

variable {L n : Nat} {B : Type}

/-! ## Words -/

theorem ofNat_inj {a b : Nat} (h : BitVec.ofNat 32 a = BitVec.ofNat 32 b) (h1 : a ≤ b)
    (h2 : b < a + 4294967296) : a = b := by
  have := congrArg BitVec.toNat h
  simp only [BitVec.toNat_ofNat] at this
  omega

theorem ofNat_succ (a : Nat) : BitVec.ofNat 32 a + 1#32 = BitVec.ofNat 32 (a + 1) := by
  apply BitVec.eq_of_toNat_eq
  simp only [BitVec.toNat_add, BitVec.toNat_ofNat]; omega

theorem pow_le {k : Nat} (hk : k ≤ 31) : 2 ^ k ≤ 2147483648 :=
  Nat.pow_le_pow_right (by decide) hk

theorem mask_toNat (cfg : Cfg n) (hk : cfg.k ≤ 31) : cfg.mask.toNat = 2 ^ cfg.k - 1 := by
  have h1 := pow_le hk
  have h2 : 1 ≤ 2 ^ cfg.k := Nat.one_le_two_pow
  simp only [Cfg.mask, BitVec.toNat_sub, BitVec.toNat_ofNat]; omega

theorem and_mask (cfg : Cfg n) (hk : cfg.k ≤ 31) (p : BitVec 32) :
    (p &&& cfg.mask).toNat = p.toNat % 2 ^ cfg.k := by
  rw [BitVec.toNat_and, mask_toNat cfg hk, Nat.and_two_pow_sub_one_eq_mod]

theorem slot_ofNat (cfg : Cfg n) (hk : cfg.k ≤ 31) (a : Nat) :
    cfg.slot (BitVec.ofNat 32 a) = a % 2 ^ cfg.k := by
  rw [Cfg.slot, and_mask cfg hk, BitVec.toNat_ofNat,
    Nat.mod_mod_of_dvd _ (Nat.pow_dvd_pow 2 (by omega : cfg.k ≤ 32))]

theorem sub_ofNat {a b : Nat} (h1 : b ≤ a) (h2 : a < b + 4294967296) :
    (BitVec.ofNat 32 a - BitVec.ofNat 32 b).toNat = a - b := by
  simp only [BitVec.toNat_sub, BitVec.toNat_ofNat]; omega

theorem sub_mask (cfg : Cfg n) (hk : cfg.k ≤ 31) {a b : Nat} (h1 : b ≤ a) (h2 : a < b + 2 ^ cfg.k) :
    ((BitVec.ofNat 32 a - BitVec.ofNat 32 b) &&& cfg.mask).toNat = a - b := by
  have := pow_le hk
  rw [and_mask cfg hk, sub_ofNat h1 (by omega), Nat.mod_eq_of_lt (by omega)]

/-- The full test of `_ck_ring_enqueue_sp`. -/
theorem full_test (cfg : Cfg n) (hk : cfg.k ≤ 31) {a b : Nat} (h1 : b ≤ a) (h2 : a < b + 2 ^ cfg.k) :
    (BitVec.ofNat 32 a + 1#32) &&& cfg.mask = BitVec.ofNat 32 b &&& cfg.mask ↔ a + 1 = b + 2 ^ cfg.k := by
  have hp : 0 < 2 ^ cfg.k := Nat.two_pow_pos _
  have hd : 2 ^ cfg.k ∣ 4294967296 := Nat.pow_dvd_pow 2 (by omega : cfg.k ≤ 32)
  rw [ofNat_succ, ← BitVec.toNat_inj, and_mask cfg hk, and_mask cfg hk, BitVec.toNat_ofNat,
    BitVec.toNat_ofNat, Nat.mod_mod_of_dvd _ hd, Nat.mod_mod_of_dvd _ hd]
  constructor
  · intro h
    obtain ⟨e, he⟩ : ∃ e, a + 1 = b + e := ⟨a + 1 - b, by omega⟩
    rw [he] at h
    have hz : e % 2 ^ cfg.k = 0 := by
      have : (b + e) % 2 ^ cfg.k = (b + 0) % 2 ^ cfg.k := by simpa using h
      exact Nat.ModEq.add_left_cancel' b this
    have : 2 ^ cfg.k ≤ e := by
      by_contra hc
      rw [Nat.mod_eq_of_lt (by omega)] at hz; omega
    omega
  · intro h; rw [h, Nat.add_mod_right]

theorem slot_ne {m i j : Nat} (h1 : i < j) (h2 : j < i + m) : i % m ≠ j % m := by
  intro h
  have hm : 0 < m := by omega
  obtain ⟨e, rfl⟩ : ∃ e, j = i + e := ⟨j - i, by omega⟩
  have : e % m = 0 := by
    have : (i + e) % m = (i + 0) % m := by simpa using h.symm
    exact Nat.ModEq.add_left_cancel' i this
  rw [Nat.mod_eq_of_lt (by omega)] at this; omega

theorem slot_ne' {m i j b : Nat} (h : i ≠ j) (hi : b ≤ i) (hj : b ≤ j) (hi' : i < b + m) (hj' : j < b + m) :
    i % m ≠ j % m := by
  rcases Nat.lt_or_gt_of_ne h with h | h
  · exact slot_ne h (by omega)
  · exact (slot_ne h (by omega)).symm

/-! ## The invariant -/

/-- The thread holds a reserved slot. -/
def own : PC L B → Bool
  | .wr .. | .wait .. | .commit .. => true
  | _ => false

def Snap (cfg : Cfg n) (s : St L n B) (t : Fin n) : Prop :=
  s.PH = s.gp t → s.gc t ≤ s.gp t ∧ s.gp t < s.gc t + 2 ^ cfg.k ∧ s.occ t = s.gp t - s.gc t

def Own (cfg : Cfg n) (s : St L n B) (t : Fin n) (p sz : BitVec 32) : Prop :=
  p = BitVec.ofNat 32 (s.gp t) ∧ s.PT ≤ s.gp t ∧ s.gp t < s.PH ∧ sz.toNat = s.occ t ∧
    s.occ t < 2 ^ cfg.k - 1 ∧ ∀ q, cfg.sp = some q → t = q

def Loc (cfg : Cfg n) (s : St L n B) (t : Fin n) : PC L B → Prop
  | .idle => True
  | .spLoad _ => cfg.sp = some t
  | .mpLoad _ => cfg.sp = none
  | .mpC _ p => cfg.sp = none ∧ p = BitVec.ofNat 32 (s.gp t) ∧ s.gp t ≤ s.PH
  | .mpCas _ p c => cfg.sp = none ∧ p = BitVec.ofNat 32 (s.gp t) ∧ s.gp t ≤ s.PH ∧
      c = BitVec.ofNat 32 (s.gc t) ∧ s.gc t ≤ s.C ∧ p - c < cfg.mask ∧ Snap cfg s t
  | .mpRe _ p c => cfg.sp = none ∧ p = BitVec.ofNat 32 (s.gp t) ∧ s.gp t ≤ s.PH ∧
      c = BitVec.ofNat 32 (s.gc t) ∧ s.gc t ≤ s.C ∧ ¬ p - c < cfg.mask ∧ Snap cfg s t
  | .wr v p sz j => Own cfg s t p sz ∧ j ≤ L ∧ ∀ i : Fin L, i.val < j → s.buf (s.gp t % 2 ^ cfg.k) i = v i
  | .wait v p sz => Own cfg s t p sz ∧ cfg.sp = none ∧ s.buf (s.gp t % 2 ^ cfg.k) = v
  | .commit v p sz => Own cfg s t p sz ∧ s.gp t = s.PT ∧ s.buf (s.gp t % 2 ^ cfg.k) = v
  | .scLoad _ => cfg.sc = some t
  | .mcLoad _ _ => cfg.sc = none
  | .mcP _ _ c => cfg.sc = none ∧ c = BitVec.ofNat 32 (s.gc t) ∧ s.gc t ≤ s.C
  | .cp m d c j => (match m with
        | none => cfg.sc = some t ∧ s.gc t = s.C
        | some _ => cfg.sc = none) ∧
      c = BitVec.ofNat 32 (s.gc t) ∧ s.gc t ≤ s.C ∧ s.gc t < s.PT ∧ j ≤ L ∧
      (s.gc t = s.C → ∀ i : Fin L, i.val < j → d i = s.item (s.gc t) i)
  | .scStore d c => cfg.sc = some t ∧ s.gc t = s.C ∧ c = BitVec.ofNat 32 (s.gc t) ∧ s.gc t < s.PT ∧
      d = s.item (s.gc t)
  | .mcCas _ d c => cfg.sc = none ∧ c = BitVec.ofNat 32 (s.gc t) ∧ s.gc t ≤ s.C ∧ s.gc t < s.PT ∧
      (s.gc t = s.C → d = s.item (s.gc t))
  | .ret (.enq ok sz) => sz.toNat = s.occ t ∧ (ok = false → s.occ t = 2 ^ cfg.k - 1) ∧
      (ok = true → s.occ t < 2 ^ cfg.k - 1)
  | .ret (.deq _) => True

structure Inv (cfg : Cfg n) (s : St L n B) : Prop where
  wc : s.c_head = BitVec.ofNat 32 s.C
  wt : s.p_tail = BitVec.ofNat 32 s.PT
  wh : cfg.sp = none → s.p_head = BitVec.ofNat 32 s.PH
  ct : s.C ≤ s.PT
  tp : s.PT ≤ s.PH
  cap : s.PH < s.C + 2 ^ cfg.k
  slots : ∀ j, s.C ≤ j → j < s.PT → s.buf (j % 2 ^ cfg.k) = s.item j
  spq : ∀ q, cfg.sp = some q → own (s.th q) = false → s.PH = s.PT
  spo : ∀ q, cfg.sp = some q → own (s.th q) = true → s.PH = s.PT + 1
  uniq : ∀ t u, own (s.th t) = true → own (s.th u) = true → s.gp t = s.gp u → t = u
  loc : ∀ t, Loc cfg s t (s.th t)

theorem Loc.toOwn {cfg : Cfg n} {s : St L n B} {t : Fin n} {pc : PC L B} (h : Loc cfg s t pc)
    (ho : own pc = true) : ∃ p sz, Own cfg s t p sz := by
  cases pc <;> first | cases ho; done | exact ⟨_, _, h.1⟩

theorem Loc.mono {cfg : Cfg n} {s s' : St L n B} {u : Fin n} {pc : PC L B} (h : Loc cfg s u pc)
    (e1 : s'.gp u = s.gp u) (e2 : s'.gc u = s.gc u) (e3 : s'.occ u = s.occ u)
    (m1 : s.C ≤ s'.C) (m2 : s.PT ≤ s'.PT) (m3 : s.PH ≤ s'.PH)
    (ho : own pc = true → s'.PT ≤ s.gp u ∧ s'.buf (s.gp u % 2 ^ cfg.k) = s.buf (s.gp u % 2 ^ cfg.k))
    (hi : ∀ j, j < s.PT → s'.item j = s.item j)
    (hc : cfg.sc = some u → s'.C = s.C) : Loc cfg s' u pc := by
  cases pc with
  | idle => trivial
  | spLoad => exact h
  | mpLoad => exact h
  | mpC => simp only [Loc] at h ⊢; rw [e1]; exact ⟨h.1, h.2.1, by omega⟩
  | mpCas =>
    simp only [Loc, Snap] at h ⊢; rw [e1, e2, e3]
    obtain ⟨a, b, c, d, e, f, g⟩ := h
    exact ⟨a, b, by omega, d, by omega, f, fun hp => g (by omega)⟩
  | mpRe =>
    simp only [Loc, Snap] at h ⊢; rw [e1, e2, e3]
    obtain ⟨a, b, c, d, e, f, g⟩ := h
    exact ⟨a, b, by omega, d, by omega, f, fun hp => g (by omega)⟩
  | wr =>
    simp only [Loc, Own] at h ⊢; rw [e1, e3]
    obtain ⟨⟨a, b, c, d, e⟩, f, g⟩ := h
    obtain ⟨o1, o2⟩ := ho rfl
    rw [o2]
    exact ⟨⟨a, o1, by omega, d, e⟩, f, g⟩
  | wait =>
    simp only [Loc, Own] at h ⊢; rw [e1, e3]
    obtain ⟨⟨a, b, c, d, e⟩, f, g⟩ := h
    obtain ⟨o1, o2⟩ := ho rfl
    rw [o2]
    exact ⟨⟨a, o1, by omega, d, e⟩, f, g⟩
  | commit =>
    simp only [Loc, Own] at h ⊢; rw [e1, e3]
    obtain ⟨⟨a, b, c, d, e⟩, f, g⟩ := h
    obtain ⟨o1, o2⟩ := ho rfl
    rw [o2]
    exact ⟨⟨a, o1, by omega, d, e⟩, by omega, g⟩
  | scLoad => exact h
  | mcLoad => exact h
  | mcP => simp only [Loc] at h ⊢; rw [e2]; exact ⟨h.1, h.2.1, by omega⟩
  | cp m d c j =>
    simp only [Loc] at h ⊢; rw [e2]
    obtain ⟨a, b, c, d, e, f⟩ := h
    refine ⟨?_, b, by omega, by omega, e, fun hg => ?_⟩
    · cases m with
      | none => exact ⟨a.1, by rw [hc a.1]; exact a.2⟩
      | some => exact a
    · rw [hi _ d]; exact f (by omega)
  | scStore =>
    simp only [Loc] at h ⊢; rw [e2]
    obtain ⟨a, b, c, d, e⟩ := h
    rw [hi _ d]
    exact ⟨a, by rw [hc a]; exact b, c, by omega, e⟩
  | mcCas =>
    simp only [Loc] at h ⊢; rw [e2]
    obtain ⟨a, b, c, d, e⟩ := h
    rw [hi _ d]
    exact ⟨a, b, by omega, by omega, fun hg => e (by omega)⟩
  | ret r =>
    cases r with
    | enq ok sz => simp only [Loc] at h ⊢; rw [e3]; exact h
    | deq => trivial

/-- A step that changes only thread `t`'s own variables. -/
theorem Inv.quiet {cfg : Cfg n} {s : St L n B} (h : Inv cfg s) (t : Fin n) (pc : PC L B)
    (g1 g2 g3 : Nat) (ho : own pc = own (s.th t)) (hg : own pc = true → g1 = s.gp t)
    (hl : Loc cfg { s with th := upd s.th t pc, gp := upd s.gp t g1, gc := upd s.gc t g2,
                           occ := upd s.occ t g3 } t pc) :
    Inv cfg { s with th := upd s.th t pc, gp := upd s.gp t g1, gc := upd s.gc t g2,
                     occ := upd s.occ t g3 } where
  wc := h.wc
  wt := h.wt
  wh := h.wh
  ct := h.ct
  tp := h.tp
  cap := h.cap
  slots := h.slots
  spq q hq hn := by
    simp only [upd_apply] at hn
    refine h.spq q hq ?_
    split at hn
    · next e => subst e; rw [← ho]; exact hn
    · exact hn
  spo q hq hn := by
    simp only [upd_apply] at hn
    refine h.spo q hq ?_
    split at hn
    · next e => subst e; rw [← ho]; exact hn
    · exact hn
  uniq a b ha hb he := by
    simp only [upd_apply] at ha hb he
    apply h.uniq a b
    · split at ha
      · next e => subst e; rw [← ho]; exact ha
      · exact ha
    · split at hb
      · next e => subst e; rw [← ho]; exact hb
      · exact hb
    · by_cases h1 : a = t
      · subst h1; rw [if_pos rfl] at he ha
        rw [hg ha] at he
        by_cases h2 : b = a
        · rw [h2]
        · rw [if_neg h2] at he; exact he
      · rw [if_neg h1] at he
        by_cases h2 : b = t
        · subst h2; rw [if_pos rfl] at he hb
          rw [hg hb] at he; exact he
        · rw [if_neg h2] at he; exact he
  loc u := by
    by_cases hu : u = t
    · subst hu; simp only [upd_same]; exact hl
    · simp only [upd_ne _ _ hu]
      exact (h.loc u).mono (upd_ne _ _ hu) (upd_ne _ _ hu) (upd_ne _ _ hu) (Nat.le_refl _)
        (Nat.le_refl _) (Nat.le_refl _)
        (fun ho => by
          obtain ⟨p, sz, hO⟩ := (h.loc u).toOwn ho
          exact ⟨hO.2.1, rfl⟩)
        (fun _ _ => rfl) (fun _ => rfl)

/-- Reservation of the next slot (`PH` advances) by a thread whose snapshot is current. -/
theorem Inv.reserve {cfg : Cfg n} {s s' : St L n B} (h : Inv cfg s) (t : Fin n) (v : Val L B)
    (p sz : BitVec 32) (hn : own (s.th t) = false) (g1 g3 : Nat) (ph : BitVec 32)
    (hs' : s' = { s with th := upd s.th t (.wr v p sz 0), gp := upd s.gp t g1,
                         occ := upd s.occ t g3, PH := s.PH + 1, p_head := ph })
    (h1 : g1 = s.PH) (hp : p = BitVec.ofNat 32 s.PH) (hsz : sz.toNat = g3) (h3 : g3 < 2 ^ cfg.k - 1)
    (hroom : s.PH + 1 < s.C + 2 ^ cfg.k) (hw : cfg.sp = none → ph = BitVec.ofNat 32 (s.PH + 1))
    (hq : ∀ q, cfg.sp = some q → t = q) : Inv cfg s' := by
  subst hs' h1
  have hfree : ∀ u, own (s.th u) = true → s.gp u < s.PH := fun u hu => by
    obtain ⟨_, _, hO⟩ := (h.loc u).toOwn hu; exact hO.2.2.1
  constructor
  · exact h.wc
  · exact h.wt
  · exact hw
  · exact h.ct
  · exact Nat.le_succ_of_le h.tp
  · exact hroom
  · exact h.slots
  · intro q hq' hn'
    have := hq q hq'; subst this
    simp [upd_same, own] at hn'
  · intro q hq' _
    have := hq q hq'; subst this
    simp only; rw [h.spq _ hq' hn]
  · intro a b ha hb he
    simp only [upd_apply] at ha hb he
    by_cases h1 : a = t <;> by_cases h2 : b = t
    · rw [h1, h2]
    · rw [if_pos h1, if_neg h2] at he
      rw [if_neg h2] at hb
      have := hfree b hb; omega
    · rw [if_neg h1, if_pos h2] at he
      rw [if_neg h1] at ha
      have := hfree a ha; omega
    · rw [if_neg h1, if_neg h2] at he
      rw [if_neg h1] at ha; rw [if_neg h2] at hb
      exact h.uniq a b ha hb he
  · intro u
    by_cases hu : u = t
    · subst hu
      simp only [upd_same, Loc, Own]
      exact ⟨⟨hp, h.tp, by omega, hsz, h3, hq⟩, Nat.zero_le _, fun i hi => by omega⟩
    · simp only [upd_ne _ _ hu]
      exact (h.loc u).mono (upd_ne _ _ hu) rfl (upd_ne _ _ hu) (Nat.le_refl _)
        (Nat.le_refl _) (Nat.le_succ _)
        (fun ho => by
          obtain ⟨p, sz, hO⟩ := (h.loc u).toOwn ho
          exact ⟨hO.2.1, rfl⟩)
        (fun _ _ => rfl) (fun _ => rfl)

/-- A chunk is written. -/
theorem Inv.write {cfg : Cfg n} (hk : cfg.k ≤ 31) {s : St L n B} (h : Inv cfg s) {t : Fin n}
    {v : Val L B} {p sz : BitVec 32} {j : Nat} (hp : s.th t = .wr v p sz j) (hj : j < L) :
    Inv cfg { s with buf := upd s.buf (cfg.slot p) (putChunk (s.buf (cfg.slot p)) v j),
                     th := upd s.th t (.wr v p sz (j + 1)) } := by
  have hl := h.loc t
  rw [hp] at hl
  obtain ⟨⟨o1, o2, o3, o4, o5⟩, o6, o7⟩ := hl
  have hslot : cfg.slot p = s.gp t % 2 ^ cfg.k := by rw [o1, slot_ofNat cfg hk]
  rw [hslot]
  have hown : own (s.th t) = true := by rw [hp]; rfl
  constructor
  · exact h.wc
  · exact h.wt
  · exact h.wh
  · exact h.ct
  · exact h.tp
  · exact h.cap
  · intro i h1 h2
    have := h.cap
    simp only [] at h1 h2 ⊢
    rw [upd_ne _ _ (slot_ne' (b := s.C) (by omega) h1 (by omega) (by omega) (by omega))]
    exact h.slots i h1 h2
  · intro q hq hn
    refine h.spq q hq ?_
    by_cases hqt : q = t
    · subst hqt; simp [upd_same, own] at hn
    · simp only [upd_ne _ _ hqt] at hn; exact hn
  · intro q hq hn
    refine h.spo q hq ?_
    by_cases hqt : q = t
    · subst hqt; exact hown
    · simp only [upd_ne _ _ hqt] at hn; exact hn
  · intro a b ha hb he
    apply h.uniq a b _ _ he
    · by_cases e : a = t
      · rw [e]; exact hown
      · simp only [upd_ne _ _ e] at ha; exact ha
    · by_cases e : b = t
      · rw [e]; exact hown
      · simp only [upd_ne _ _ e] at hb; exact hb
  · intro u
    by_cases hu : u = t
    · subst hu
      simp only [upd_same, Loc, Own]
      refine ⟨⟨o1, o2, o3, o4, o5⟩, by omega, fun i hi => ?_⟩
      simp only [putChunk]
      split
      · rfl
      · exact o7 i (by omega)
    · simp only [upd_ne _ _ hu]
      refine (h.loc u).mono rfl rfl rfl (Nat.le_refl _) (Nat.le_refl _) (Nat.le_refl _)
        (fun ho => ?_) (fun _ _ => rfl) (fun _ => rfl)
      obtain ⟨p', sz', hO⟩ := (h.loc u).toOwn ho
      refine ⟨hO.2.1, ?_⟩
      have hne : s.gp u ≠ s.gp t := fun e => hu (h.uniq u t ho hown e)
      have := h.cap; have := h.ct; have := hO.2.1; have := hO.2.2.1
      simp only []
      rw [upd_ne _ _ (slot_ne' (b := s.C) hne (by omega) (by omega) (by omega) (by omega))]

/-- An entry is committed (`PT` advances). -/
theorem Inv.commit {cfg : Cfg n} {s : St L n B} (h : Inv cfg s) {t : Fin n}
    {v : Val L B} {p sz : BitVec 32} (hp : s.th t = .commit v p sz) :
    Inv cfg { s with p_tail := p + 1#32, PT := s.PT + 1, item := upd s.item s.PT v,
                     th := upd s.th t (.ret (.enq true sz)) } := by
  have hl := h.loc t
  rw [hp] at hl
  obtain ⟨⟨o1, o2, o3, o4, o5, o5'⟩, o6, o7⟩ := hl
  have hown : own (s.th t) = true := by rw [hp]; rfl
  constructor
  · exact h.wc
  · simp only []; rw [o1, ofNat_succ, o6]
  · exact h.wh
  · exact Nat.le_succ_of_le h.ct
  · simp only []; omega
  · exact h.cap
  · intro i h1 h2
    simp only [] at h1 h2 ⊢
    by_cases hi : i = s.PT
    · subst hi; rw [upd_same, ← o6]; exact o7
    · rw [upd_ne _ _ hi]; exact h.slots i h1 (by omega)
  · intro q hq hn
    have := o5' q hq; subst this
    exact h.spo _ hq hown
  · intro q hq hn
    have := o5' q hq; subst this
    simp [upd_same, own] at hn
  · intro a b ha hb he
    by_cases e1 : a = t
    · subst e1; simp [upd_same, own] at ha
    · by_cases e2 : b = t
      · subst e2; simp [upd_same, own] at hb
      · simp only [upd_ne _ _ e1] at ha; simp only [upd_ne _ _ e2] at hb
        exact h.uniq a b ha hb he
  · intro u
    by_cases hu : u = t
    · subst hu
      simp only [upd_same, Loc]
      exact ⟨o4, by simp, fun _ => o5⟩
    · simp only [upd_ne _ _ hu]
      refine (h.loc u).mono rfl rfl rfl (Nat.le_refl _) (Nat.le_succ _) (Nat.le_refl _)
        (fun ho => ?_) (fun i hi => upd_ne _ _ (by omega)) (fun _ => rfl)
      obtain ⟨p', sz', hO⟩ := (h.loc u).toOwn ho
      have hne : s.gp u ≠ s.gp t := fun e => hu (h.uniq u t ho hown e)
      have := hO.2.1
      exact ⟨by simp only []; omega, rfl⟩

/-- An entry is taken (`C` advances). -/
theorem Inv.take {cfg : Cfg n} {s : St L n B} (h : Inv cfg s) {t : Fin n} (r : Option (Val L B))
    (c : BitVec 32) (hc : c = BitVec.ofNat 32 s.C) (hlt : s.C < s.PT) (hn : own (s.th t) = false)
    (hsc : ∀ u, cfg.sc = some u → u = t) :
    Inv cfg { s with c_head := c + 1#32, C := s.C + 1, th := upd s.th t (.ret (.deq r)) } := by
  constructor
  · simp only []; rw [hc, ofNat_succ]
  · exact h.wt
  · exact h.wh
  · exact hlt
  · exact h.tp
  · have := h.cap; simp only []; omega
  · intro i h1 h2; exact h.slots i (by simp only [] at h1; omega) h2
  · intro q hq hn'
    refine h.spq q hq ?_
    by_cases hqt : q = t
    · subst hqt; exact hn
    · simp only [upd_ne _ _ hqt] at hn'; exact hn'
  · intro q hq hn'
    refine h.spo q hq ?_
    by_cases hqt : q = t
    · subst hqt; simp [upd_same, own] at hn'
    · simp only [upd_ne _ _ hqt] at hn'; exact hn'
  · intro a b ha hb he
    by_cases e1 : a = t
    · subst e1; simp [upd_same, own] at ha
    · by_cases e2 : b = t
      · subst e2; simp [upd_same, own] at hb
      · simp only [upd_ne _ _ e1] at ha; simp only [upd_ne _ _ e2] at hb
        exact h.uniq a b ha hb he
  · intro u
    by_cases hu : u = t
    · subst hu; simp only [upd_same, Loc]
    · simp only [upd_ne _ _ hu]
      refine (h.loc u).mono rfl rfl rfl (Nat.le_succ _) (Nat.le_refl _) (Nat.le_refl _)
        (fun ho => ?_) (fun _ _ => rfl) (fun hc => absurd (hsc u hc) hu)
      obtain ⟨p', sz', hO⟩ := (h.loc u).toOwn ho
      exact ⟨hO.2.1, rfl⟩

/-! ## Preservation -/

/-- `quiet` for steps that keep some of the snapshots. -/
theorem Inv.q0 {cfg : Cfg n} {s : St L n B} (h : Inv cfg s) (t : Fin n) (pc : PC L B)
    (ho : own pc = own (s.th t)) (hl : Loc cfg { s with th := upd s.th t pc } t pc) :
    Inv cfg { s with th := upd s.th t pc } := by
  have := h.quiet t pc (s.gp t) (s.gc t) (s.occ t) ho (fun _ => rfl)
  simp only [upd_eq_self] at this
  exact this hl

theorem Inv.qgp {cfg : Cfg n} {s : St L n B} (h : Inv cfg s) (t : Fin n) (pc : PC L B) (g : Nat)
    (ho : own pc = false) (hn : own (s.th t) = false)
    (hl : Loc cfg { s with th := upd s.th t pc, gp := upd s.gp t g } t pc) :
    Inv cfg { s with th := upd s.th t pc, gp := upd s.gp t g } := by
  have := h.quiet t pc g (s.gc t) (s.occ t) (by rw [ho, hn]) (fun e => by rw [ho] at e; cases e)
  simp only [upd_eq_self] at this
  exact this hl

theorem Inv.qgc {cfg : Cfg n} {s : St L n B} (h : Inv cfg s) (t : Fin n) (pc : PC L B) (g : Nat)
    (ho : own pc = own (s.th t))
    (hl : Loc cfg { s with th := upd s.th t pc, gc := upd s.gc t g } t pc) :
    Inv cfg { s with th := upd s.th t pc, gc := upd s.gc t g } := by
  have := h.quiet t pc (s.gp t) g (s.occ t) ho (fun _ => rfl)
  simp only [upd_eq_self] at this
  exact this hl

theorem Inv.run {cfg : Cfg n} (hk : cfg.k ≤ 31) {s s' : St L n B} (h : Inv cfg s) (hf : Fresh s)
    {t : Fin n} (hs : Ring.run cfg s t = some s') : Inv cfg s' := by
  have hl := h.loc t
  have hft := hf t
  have h2k : 1 ≤ 2 ^ cfg.k := Nat.one_le_two_pow
  have hpl := pow_le hk
  have hct := h.ct; have htp := h.tp; have hcap := h.cap
  unfold Ring.run at hs
  cases hp : s.th t with
  | idle => rw [hp] at hs; cases hs
  | ret r => rw [hp] at hs; cases hs
  | spLoad v =>
    simp only [hp] at hs hl
    have hq : cfg.sp = some t := hl
    have hno : own (s.th t) = false := by rw [hp]; rfl
    have hPH := h.spq t hq hno
    have hft' := full_test cfg hk (a := s.PT) (b := s.C) hct (by omega)
    have hsz := sub_mask cfg hk (a := s.PT) (b := s.C) hct (by omega)
    rw [← h.wt, ← h.wc] at hft' hsz
    split at hs
    · next hfull =>
      have hfull := hft'.1 hfull
      cases hs
      have := h.quiet t (.ret (.enq false ((s.p_tail - s.c_head) &&& cfg.mask)))
        (s.gp t) (s.gc t) (s.PH - s.C) (by rw [hno]; rfl) (fun _ => rfl)
      simp only [upd_eq_self] at this
      refine this ?_
      simp only [Loc, upd_same]
      exact ⟨by rw [hsz, hPH], fun _ => by omega, by simp⟩
    · next hfull =>
      have hne := mt hft'.2 hfull
      cases hs
      refine h.reserve t v s.p_tail _ hno s.PT (s.PH - s.C) s.p_head rfl hPH.symm
        (by rw [hPH, h.wt]) (by rw [hsz, hPH]) (by omega) (by omega) (fun e => by rw [hq] at e; cases e)
        (fun q e => by rw [hq] at e; cases e; rfl)
  | mpLoad v =>
    simp only [hp] at hs hl
    have hq : cfg.sp = none := hl
    cases hs
    refine h.qgp t _ _ rfl (by rw [hp]; rfl) ?_
    simp only [Loc, upd_same]
    exact ⟨hq, h.wh hq, Nat.le_refl _⟩
  | mpC v p =>
    simp only [hp] at hs hl
    obtain ⟨a, b, c⟩ := hl
    cases hs
    by_cases hlt : p - s.c_head < cfg.mask
    · simp only [hlt, if_true]
      have := h.quiet t (.mpCas v p s.c_head) (s.gp t) s.C (s.PH - s.C) (by rw [hp]; rfl) (fun _ => rfl)
      simp only [upd_eq_self] at this
      refine this ?_
      simp only [Loc, Snap, upd_same]
      exact ⟨a, b, c, h.wc, Nat.le_refl _, hlt, fun e => ⟨by omega, by omega, by omega⟩⟩
    · simp only [hlt, if_false]
      have := h.quiet t (.mpRe v p s.c_head) (s.gp t) s.C (s.PH - s.C) (by rw [hp]; rfl) (fun _ => rfl)
      simp only [upd_eq_self] at this
      refine this ?_
      simp only [Loc, Snap, upd_same]
      exact ⟨a, b, c, h.wc, Nat.le_refl _, hlt, fun e => ⟨by omega, by omega, by omega⟩⟩
  | mpCas v p c =>
    simp only [hp] at hs hl
    have hsn := hft.2 (by rw [hp]; rfl)
    obtain ⟨l1, l2, l3, l4, l5, l6, l7⟩ := hl
    split at hs
    · next hw =>
      cases hs
      have hgp : s.gp t = s.PH := by
        rw [h.wh l1, l2] at hw
        exact ofNat_inj hw.symm l3 hsn
      obtain ⟨s1, s2, s3⟩ := l7 hgp.symm
      have hd : (p - c).toNat = s.gp t - s.gc t := by rw [l2, l4]; exact sub_ofNat s1 (by omega)
      have hlt : (p - c).toNat < cfg.mask.toNat := l6
      rw [hd, mask_toNat cfg hk] at hlt
      refine h.reserve t v p ((p - c) &&& cfg.mask) (by rw [hp]; rfl) (s.gp t) (s.occ t) (p + 1#32)
        (by simp only [upd_eq_self]) hgp (by rw [l2, hgp])
        (by rw [l2, l4, sub_mask cfg hk s1 s2, s3]) (by omega) (by omega)
        (fun _ => by rw [l2, ofNat_succ, hgp]) (fun q e => by rw [l1] at e; cases e)
    · cases hs
      refine h.qgp t _ _ rfl (by rw [hp]; rfl) ?_
      simp only [Loc, upd_same]
      exact ⟨l1, h.wh l1, Nat.le_refl _⟩
  | mpRe v p c =>
    simp only [hp] at hs hl
    have hsn := hft.2 (by rw [hp]; rfl)
    obtain ⟨l1, l2, l3, l4, l5, l6, l7⟩ := hl
    split at hs
    · next hw =>
      cases hs
      have hgp : s.gp t = s.PH := by
        rw [h.wh l1, l2] at hw
        exact ofNat_inj hw.symm l3 hsn
      obtain ⟨s1, s2, s3⟩ := l7 hgp.symm
      have hd : (p - c).toNat = s.gp t - s.gc t := by rw [l2, l4]; exact sub_ofNat s1 (by omega)
      have hlt : ¬ (p - c).toNat < cfg.mask.toNat := l6
      rw [hd, mask_toNat cfg hk] at hlt
      refine h.q0 t _ (by rw [hp]; rfl) ?_
      simp only [Loc]
      exact ⟨by rw [l2, l4, sub_mask cfg hk s1 s2, s3], fun _ => by omega, by simp⟩
    · cases hs
      refine h.qgp t _ _ rfl (by rw [hp]; rfl) ?_
      simp only [Loc, upd_same]
      exact ⟨l1, h.wh l1, Nat.le_refl _⟩
  | wr v p sz j =>
    simp only [hp] at hs
    split at hs
    · next hj => cases hs; exact h.write hk hp hj
    · next hj =>
      rw [hp] at hl
      obtain ⟨l1, l2, l3⟩ := hl
      have hb : s.buf (s.gp t % 2 ^ cfg.k) = v := funext fun i => l3 i (by omega)
      split at hs
      · next q hq =>
        cases hs
        refine h.q0 t _ (by rw [hp]; rfl) ?_
        simp only [Loc]
        have hqt := l1.2.2.2.2.2 q hq
        subst hqt
        have := h.spo t hq (by rw [hp]; rfl)
        have h1 := l1.2.1; have h2 := l1.2.2.1
        exact ⟨l1, by omega, hb⟩
      · next hq =>
        cases hs
        refine h.q0 t _ (by rw [hp]; rfl) ?_
        simp only [Loc]
        exact ⟨l1, hq, hb⟩
  | wait v p sz =>
    simp only [hp] at hs
    split at hs
    · next hw =>
      cases hs
      rw [hp] at hl
      obtain ⟨l1, l2, l3⟩ := hl
      refine h.q0 t _ (by rw [hp]; rfl) ?_
      simp only [Loc]
      have h1 := l1.2.1; have h2 := l1.2.2.1
      refine ⟨l1, ?_, l3⟩
      rw [h.wt, l1.1] at hw
      exact (ofNat_inj hw h1 (by omega)).symm
    · cases hs; exact h
  | commit v p sz =>
    simp only [hp] at hs
    cases hs
    exact h.commit hp
  | scLoad d =>
    simp only [hp] at hs hl
    have hq : cfg.sc = some t := hl
    split at hs
    · cases hs; exact h.q0 t _ (by rw [hp]; rfl) trivial
    · next hne =>
      cases hs
      refine h.qgc t _ _ (by rw [hp]; rfl) ?_
      simp only [Loc, upd_same]
      refine ⟨⟨hq, trivial⟩, h.wc, Nat.le_refl _, ?_, Nat.zero_le _, fun _ i hi => by omega⟩
      rcases Nat.lt_or_ge s.C s.PT with hlt | hge
      · exact hlt
      · exact absurd (by rw [h.wc, h.wt, show s.C = s.PT by omega]) hne
  | mcLoad b d =>
    simp only [hp] at hs hl
    have hq : cfg.sc = none := hl
    cases hs
    refine h.qgc t _ _ (by rw [hp]; rfl) ?_
    simp only [Loc, upd_same]
    exact ⟨hq, h.wc, Nat.le_refl _⟩
  | mcP b d c =>
    simp only [hp] at hs hl
    obtain ⟨l1, l2, l3⟩ := hl
    split at hs
    · cases hs; exact h.q0 t _ (by rw [hp]; rfl) trivial
    · next hne =>
      cases hs
      refine h.q0 t _ (by rw [hp]; rfl) ?_
      simp only [Loc]
      refine ⟨l1, l2, l3, ?_, Nat.zero_le _, fun _ i hi => by omega⟩
      rcases Nat.lt_or_ge (s.gc t) s.PT with hlt | hge
      · exact hlt
      · exact absurd (by rw [l2, h.wt, show s.gc t = s.PT by omega]) hne
  | cp m d c j =>
    simp only [hp] at hs
    rw [hp] at hl
    obtain ⟨l1, l2, l3, l4, l5, l6⟩ := hl
    split at hs
    · next hj =>
      cases hs
      refine h.q0 t _ (by rw [hp]; rfl) ?_
      simp only [Loc]
      refine ⟨l1, l2, l3, l4, by omega, fun e i hi => ?_⟩
      simp only [putChunk]
      split
      · rw [l2, slot_ofNat cfg hk, h.slots _ (by omega) l4]
      · exact l6 e i (by omega)
    · next hj =>
      split at hs
      · cases hs
        refine h.q0 t _ (by rw [hp]; rfl) ?_
        simp only [Loc]
        exact ⟨l1.1, l1.2, l2, l4, funext fun i => l6 l1.2 i (by omega)⟩
      · cases hs
        refine h.q0 t _ (by rw [hp]; rfl) ?_
        simp only [Loc]
        exact ⟨l1, l2, l3, l4, fun e => funext fun i => l6 e i (by omega)⟩
  | scStore d c =>
    simp only [hp] at hs hl
    obtain ⟨l1, l2, l3, l4, l5⟩ := hl
    cases hs
    exact h.take (some d) c (by rw [l3, l2]) (by omega) (by rw [hp]; rfl)
      (fun u e => by rw [l1] at e; cases e; rfl)
  | mcCas b d c =>
    simp only [hp] at hs hl
    have hsn := hft.1 (by rw [hp]; rfl)
    obtain ⟨l1, l2, l3, l4, l5⟩ := hl
    split at hs
    · next hw =>
      have hgc : s.gc t = s.C := by
        rw [h.wc, l2] at hw
        exact ofNat_inj hw.symm l3 (by omega)
      cases hs
      exact h.take (some d) c (by rw [l2, hgc]) (by omega) (by rw [hp]; rfl)
        (fun u e => by rw [l1] at e; cases e)
    · split at hs
      · cases hs; exact h.q0 t _ (by rw [hp]; rfl) trivial
      · cases hs
        refine h.qgc t _ _ (by rw [hp]; rfl) ?_
        simp only [Loc, upd_same]
        exact ⟨l1, h.wc, Nat.le_refl _⟩

theorem Inv.step {cfg : Cfg n} (hk : cfg.k ≤ 31) {s s' : St L n B} (h : Inv cfg s) (hf : Fresh s)
    {a : Act L n B} (hs : Ring.step cfg s a = some s') : Inv cfg s' := by
  cases a with
  | run t => exact h.run hk hf hs
  | ret t =>
    simp only [Ring.step] at hs
    split at hs
    · next r hp => cases hs; exact h.q0 t _ (by rw [hp]; rfl) trivial
    · cases hs
  | call t o =>
    simp only [Ring.step] at hs
    split at hs
    · next hp =>
      cases o with
      | enq v =>
        simp only at hs
        split at hs
        · next q hq =>
          split at hs
          · next e => cases hs; exact h.q0 t _ (by rw [hp]; rfl) (by simp only [Loc]; rw [hq, e])
          · cases hs
        · next hq => cases hs; exact h.q0 t _ (by rw [hp]; rfl) hq
      | deq d =>
        simp only at hs
        split at hs
        · next q hq =>
          split at hs
          · next e => cases hs; exact h.q0 t _ (by rw [hp]; rfl) (by simp only [Loc]; rw [hq, e])
          · cases hs
        · next hq => cases hs; exact h.q0 t _ (by rw [hp]; rfl) hq
      | tryDeq d =>
        simp only at hs
        split at hs
        · cases hs
        · next hq => cases hs; exact h.q0 t _ (by rw [hp]; rfl) hq
    · cases hs

end Verif.Ring
