import Verif.Weak.Cohort
import Verif.Core.Tactic

/-!
# Cohort lock and reader-writer cohort locks on relaxed memory (C83, C84)
-/

namespace Verif.Weak.Cohort

open Verif Verif.Spec
open Fas (opt)

variable {n : Nat}

/-! ## Classes of program counters -/

/-- has the local lock -/
@[simp, grind] def PC.lh : PC → Bool
  | .ld _ | .gl _ | .held _ | .wChk | .writing | .uSel _ | .uRs _ | .uLoc _ => true
  | _ => false
/-- has the global lock -/
@[simp, grind] def PC.tk : PC → Bool
  | .held _ | .wChk | .writing | .uSel _ => true
  | _ => false
/-- has the local lock; `release_state` tells whether the global lock is with the cohort -/
@[simp, grind] def PC.ldu : PC → Bool
  | .ld _ | .uLoc _ => true
  | _ => false

theorem PC.lh_of_tk {p : PC} (h : p.tk = true) : p.lh = true := by cases p <;> first | rfl | cases h
theorem PC.lh_of_ldu {p : PC} (h : p.ldu = true) : p.lh = true := by cases p <;> first | rfl | cases h
theorem PC.tk_ldu {p : PC} (h : p.tk = true) : p.ldu = false := by cases p <;> first | rfl | cases h

/-- View of the newest value. -/
def vw (m : Mem Loc Nat) (l : Loc) : View Loc := (m.msg l (m.top l)).view

theorem put_vw {m m' : Mem Loc Nat} {l : Loc} {v : Nat} {w : View Loc} (h : Put m m' l v w) (y : Loc) : vw m' y = if y = l then w else vw m y := by
  simp only [vw]
  by_cases e : y = l
  · subst e; rw [if_pos rfl, h.msg_at]
  · rw [if_neg e, h.msg_ne e]

/-- Who knows `v` knows what the holder of the global lock must know. -/
@[grind =] def K (m : Mem Loc Nat) (gi li : Nat) (v : View Loc) : Prop := (∀ x, m.top (.usr x) ≤ v (.usr x)) ∧ gi ≤ v .glob ∧ li ≤ v .rc

theorem K.mono {m : Mem Loc Nat} {gi li : Nat} {v w : View Loc} (h : K m gi li v) (hw : ∀ x, v x ≤ w x) : K m gi li w :=
  ⟨fun x => Nat.le_trans (h.1 x) (hw _), Nat.le_trans h.2.1 (hw _), Nat.le_trans h.2.2 (hw _)⟩

/-! ## The cohort lock -/

structure Core (s : St n) : Prop where
  l1 : ∀ t u, (s.pc t).lh = true → (s.pc u).lh = true → s.co t = s.co u → t = u
  l2 : ∀ t, (s.pc t).lh = true → s.mem.last (.loc (s.co t)) ≠ 0
  t1 : ∀ t, (s.pc t).tk = true → s.tok = .thr t
  t2 : ∀ t, s.tok = .thr t → (s.pc t).tk = true
  g1 : s.mem.last .glob = 0 → s.tok = .free
  g2 : s.tok = .free → s.mem.last .glob = 0
  g3 : s.gi ≤ s.mem.top .glob
  g4 : s.tok ≠ .free → ∀ j, s.gi ≤ j → j ≤ s.mem.top .glob → (s.mem.msg .glob j).val ≠ 0
  r1 : ∀ c, s.mem.last (.loc c) = 0 → s.mem.last (.rs c) ≠ 0 → s.tok = .coh c
  r2 : ∀ t, (s.pc t).ldu = true → s.mem.last (.rs (s.co t)) ≠ 0 → s.tok = .coh (s.co t)
  r3 : ∀ t, (s.pc t).lh = true → s.mem.top (.rs (s.co t)) ≤ (s.th t).cur (.rs (s.co t))
  r4 : ∀ c, s.mem.last (.loc c) = 0 → s.mem.top (.rs c) ≤ vw s.mem (.loc c) (.rs c)
  k1 : ∀ t, s.tok = .thr t → K s.mem s.gi s.li (s.th t).cur
  k2 : s.tok = .free → K s.mem s.gi s.li (vw s.mem .glob)
  k3 : ∀ c t, s.tok = .coh c → (s.pc t).lh = true → s.co t = c → K s.mem s.gi s.li (s.th t).cur
  k4 : ∀ c, s.tok = .coh c → s.mem.last (.loc c) = 0 → K s.mem s.gi s.li (vw s.mem (.loc c))

/-- A step of `t` that does not store. -/
theorem Core.go {s : St n} (hi : Core s) {t : Fin n} {q : Th Loc} {p : PC} {c : Nat} {sc : View Loc} {e : Bool} (hc : ∀ y, (s.th t).cur y ≤ q.cur y)
    (hl : p.lh = (s.pc t).lh) (ht : p.tk = (s.pc t).tk) (hd : p.ldu = true → (s.pc t).ldu = true) (hco : p.lh = true → c = s.co t) :
    Core { s with sc := sc, th := upd s.th t q, pc := upd s.pc t p, co := upd s.co t c, ent := e } := by
  obtain ⟨h1, h2, h3, h4, h5, h6, h7, h8, h9, h10, h11, h12, h13, h14, h15, h16⟩ := hi
  have hx := fun p => PC.lh_of_ldu (p := p)
  constructor <;> simp only
  case l1 => fin h1 hl hco
  case l2 => fin h2 hl hco
  case t1 => fin h3 ht
  case t2 => fin h4 ht
  case g1 => exact h5
  case g2 => exact h6
  case g3 => exact h7
  case g4 => exact h8
  case r1 => exact h9
  case r2 => fin h10 hd hco hx
  case r3 => fin h11 hl hco hc
  case r4 => exact h12
  case k1 =>
    intro u hu
    by_cases e : u = t
    · subst e; rw [upd_same]; exact (h13 u hu).mono hc
    · rw [upd_ne _ _ e]; exact h13 u hu
  case k2 => exact h14
  case k3 =>
    intro c' u hu
    by_cases e : u = t
    · subst e; rw [upd_same, upd_same, upd_same]
      intro a b
      exact (h15 c' u hu (by rw [← hl]; exact a) (by rw [← hco a]; exact b)).mono hc
    · rw [upd_ne _ _ e, upd_ne _ _ e, upd_ne _ _ e]; exact h15 c' u hu
  case k4 => exact h16

/-- Line 89: the global lock is with the cohort. -/
theorem Core.take {s : St n} (hi : Core s) {t : Fin n} {q : Th Loc} {p : PC} (hc : ∀ y, (s.th t).cur y ≤ q.cur y) (hp : (s.pc t).ldu = true)
    (hr : s.mem.last (.rs (s.co t)) ≠ 0) (hl : p.tk = true) : Core { s with th := upd s.th t q, pc := upd s.pc t p, tok := .thr t } := by
  obtain ⟨h1, h2, h3, h4, h5, h6, h7, h8, h9, h10, h11, h12, h13, h14, h15, h16⟩ := hi
  have hx := fun p => PC.lh_of_ldu (p := p)
  have hy := fun p => PC.lh_of_tk (p := p)
  have hz := fun p => PC.tk_ldu (p := p)
  have ht : s.tok = .coh (s.co t) := h10 t hp hr
  have hk := h15 _ t ht (hx _ hp) rfl
  constructor <;> simp only
  case l1 => fin h1 hx hp hl hy
  case l2 => fin h2 hx hp hl hy
  case t1 => fin h3 ht hl
  case t2 => fin h4 ht hl
  case g1 => fin h5 ht
  case g2 => nofun
  case g3 => exact h7
  case g4 => fin h8 ht
  case r1 => fin h9 ht h2 hx hp
  case r2 => fin h10 ht hz hl hx h1 hp
  case r3 => fin h11 hx hp hc
  case r4 => exact h12
  case k1 =>
    intro u hu
    obtain rfl : t = u := by simpa using hu
    rw [upd_same]; exact hk.mono hc
  case k2 => nofun
  case k3 => nofun
  case k4 => nofun

/-- Line 86: `fas` of the local lock. -/
theorem Core.fasL {s : St n} (hi : Core s) {t : Fin n} {q : Th Loc} {p : PC} {m : Mem Loc Nat} {w : View Loc} (hm : Put s.mem m (.loc (s.co t)) 1 w)
    (hc : ∀ y, y ≠ .loc (s.co t) → (s.th t).cur y ≤ q.cur y) (hp : (s.pc t).lh = false) (hl : p.tk = false)
    (hf : p.lh = true → s.mem.last (.loc (s.co t)) = 0 ∧ ∀ y, y ≠ .loc (s.co t) → vw s.mem (.loc (s.co t)) y ≤ q.cur y) :
    Core { s with mem := m, th := upd s.th t q, pc := upd s.pc t p } := by
  obtain ⟨h1, h2, h3, h4, h5, h6, h7, h8, h9, h10, h11, h12, h13, h14, h15, h16⟩ := hi
  have hx := fun p => PC.lh_of_ldu (p := p)
  have hy := fun p => PC.lh_of_tk (p := p)
  have mg : ∀ i, i ≤ s.mem.top .glob → m.msg .glob i = s.mem.msg .glob i := fun i h => hm.old _ _ h
  have hK : ∀ gi li v, K m gi li v ↔ K s.mem gi li v := fun gi li v => by simp [K, hm.top]
  have hq : ∀ gi li, K s.mem gi li (s.th t).cur → K s.mem gi li q.cur := fun gi li h =>
    ⟨fun x => Nat.le_trans (h.1 x) (hc _ (by simp)), Nat.le_trans h.2.1 (hc _ (by simp)), Nat.le_trans h.2.2 (hc _ (by simp))⟩
  have hq' : ∀ gi li, p.lh = true → K s.mem gi li (vw s.mem (.loc (s.co t))) → K s.mem gi li q.cur := fun gi li e h =>
    ⟨fun x => Nat.le_trans (h.1 x) ((hf e).2 _ (by simp)), Nat.le_trans h.2.1 ((hf e).2 _ (by simp)), Nat.le_trans h.2.2 ((hf e).2 _ (by simp))⟩
  have hr : p.lh = true → vw s.mem (.loc (s.co t)) (.rs (s.co t)) ≤ q.cur (.rs (s.co t)) := fun e => (hf e).2 _ (by simp)
  have hr' : ∀ c, (s.th t).cur (.rs c) ≤ q.cur (.rs c) := fun c => hc _ (by simp)
  constructor <;> simp only [hm.top, hm.last, put_vw hm, reduceCtorEq, if_false, Loc.loc.injEq, hK]
  case l1 => fin h1 h2 hf
  case l2 => fin h2
  case t1 => fin h3 hl
  case t2 => fin h4 hy hp
  case g1 => exact h5
  case g2 => exact h6
  case g3 => exact h7
  case g4 => fin h8 mg
  case r1 => fin h9
  case r2 => fin h10 hx hf h9
  case r3 => fin h11 h12 hf hr hr'
  case r4 => fin h12
  case k1 => fin h13 hq
  case k2 => exact h14
  case k3 => fin h15 h16 hf hq'
  case k4 => fin h16

/-- Lines 111-112: the local lock is released. -/
theorem Core.unL {s : St n} (hi : Core s) {t : Fin n} {q : Th Loc} {p : PC} {m : Mem Loc Nat} {w : View Loc} (hm : Put s.mem m (.loc (s.co t)) 0 w)
    (hp : (s.pc t).ldu = true) (hl : p.lh = false) (hw : ∀ y, y ≠ .loc (s.co t) → (s.th t).cur y ≤ w y) :
    Core { s with mem := m, th := upd s.th t q, pc := upd s.pc t p } := by
  obtain ⟨h1, h2, h3, h4, h5, h6, h7, h8, h9, h10, h11, h12, h13, h14, h15, h16⟩ := hi
  have hx := fun p => PC.lh_of_ldu (p := p)
  have hy := fun p => PC.lh_of_tk (p := p)
  have hz := fun p => PC.tk_ldu (p := p)
  have mg : ∀ i, i ≤ s.mem.top .glob → m.msg .glob i = s.mem.msg .glob i := fun i h => hm.old _ _ h
  have hK : ∀ gi li v, K m gi li v ↔ K s.mem gi li v := fun gi li v => by simp [K, hm.top]
  have hq : ∀ gi li, K s.mem gi li (s.th t).cur → K s.mem gi li w := fun gi li h =>
    ⟨fun x => Nat.le_trans (h.1 x) (hw _ (by simp)), Nat.le_trans h.2.1 (hw _ (by simp)), Nat.le_trans h.2.2 (hw _ (by simp))⟩
  have hr : (s.th t).cur (.rs (s.co t)) ≤ w (.rs (s.co t)) := hw _ (by simp)
  constructor <;> simp only [hm.top, hm.last, put_vw hm, reduceCtorEq, if_false, Loc.loc.injEq, hK]
  case l1 => fin h1 hl
  case l2 => fin h2 hl h1 hp hx
  case t1 => fin h3 hl hy
  case t2 => fin h4 hz hp
  case g1 => exact h5
  case g2 => exact h6
  case g3 => exact h7
  case g4 => fin h8 mg
  case r1 => fin h9 h10 hp
  case r2 => fin h10 hx hl
  case r3 => fin h11 hl
  case r4 => fin h12 h11 hp hx hr
  case k1 => fin h13 h4 hz hp
  case k2 => exact h14
  case k3 => fin h15 hl
  case k4 => fin h16 h15 hp hx hq

/-- Lines 104, 107: a store to `release_state`. -/
theorem Core.putR {s : St n} (hi : Core s) {t : Fin n} {q : Th Loc} {p : PC} {m : Mem Loc Nat} {v : Nat} {w : View Loc} {k : Tok n}
    (hm : Put s.mem m (.rs (s.co t)) v w) (hc : ∀ y, y ≠ .rs (s.co t) → (s.th t).cur y ≤ q.cur y) (hc' : q.cur (.rs (s.co t)) = s.mem.top (.rs (s.co t)) + 1)
    (hl : (s.pc t).lh = true) (hp : p.ldu = true) (hk : v = 0 ∧ k = s.tok ∧ s.tok ≠ .thr t ∨ v ≠ 0 ∧ k = .coh (s.co t) ∧ s.tok = .thr t) :
    Core { s with mem := m, th := upd s.th t q, pc := upd s.pc t p, tok := k } := by
  obtain ⟨h1, h2, h3, h4, h5, h6, h7, h8, h9, h10, h11, h12, h13, h14, h15, h16⟩ := hi
  have hx := fun p => PC.lh_of_ldu (p := p)
  have hy := fun p => PC.lh_of_tk (p := p)
  have hz := fun p => PC.tk_ldu (p := p)
  have mg : ∀ i, i ≤ s.mem.top .glob → m.msg .glob i = s.mem.msg .glob i := fun i h => hm.old _ _ h
  have hK : ∀ gi li v, K m gi li v ↔ K s.mem gi li v := fun gi li v => by simp [K, hm.top]
  have hq : ∀ gi li, K s.mem gi li (s.th t).cur → K s.mem gi li q.cur := fun gi li h =>
    ⟨fun x => Nat.le_trans (h.1 x) (hc _ (by simp)), Nat.le_trans h.2.1 (hc _ (by simp)), Nat.le_trans h.2.2 (hc _ (by simp))⟩
  constructor <;> simp only [hm.top, hm.last, put_vw hm, reduceCtorEq, if_false, Loc.rs.injEq, hK]
  case l1 => fin h1 hl
  case l2 => fin h2 hl
  case t1 => fin h3 hk hp hz
  case t2 => fin h4 hk
  case g1 => fin h5 hk
  case g2 => fin h6 hk
  case g3 => exact h7
  case g4 => fin h8 mg hk
  case r1 => fin h9 hk h2 hl
  case r2 => fin h10 hk hx h1 hl
  case r3 => fin h11 hl hc' h1
  case r4 => fin h12 h2 hl
  case k1 => fin h13 hk
  case k2 => fin h14 hk
  case k3 => fin h15 hk hl h1 h13 hq
  case k4 => fin h16 hk h2 hl

/-- Line 90: `fas` of the global lock. -/
theorem Core.fasG {s : St n} (hi : Core s) {t : Fin n} {q : Th Loc} {p : PC} {m : Mem Loc Nat} {w : View Loc} {gi : Nat} {k : Tok n}
    (hm : Put s.mem m .glob 1 w) (hc : ∀ y, y ≠ .glob → (s.th t).cur y ≤ q.cur y) (hp : (s.pc t).lh = true ∧ (s.pc t).tk = false)
    (hl : p.lh = true ∧ p.ldu = false)
    (hf : p.tk = false ∧ k = s.tok ∧ gi = s.gi ∧ s.tok ≠ .free ∧ s.mem.top .glob + 1 ≤ q.cur .glob ∨
      p.tk = true ∧ k = .thr t ∧ gi = s.mem.top .glob + 1 ∧ s.tok = .free ∧ (∀ y, y ≠ .glob → vw s.mem .glob y ≤ q.cur y) ∧ s.mem.top .glob + 1 ≤ q.cur .glob) :
    Core { s with mem := m, th := upd s.th t q, pc := upd s.pc t p, tok := k, gi := gi } := by
  obtain ⟨h1, h2, h3, h4, h5, h6, h7, h8, h9, h10, h11, h12, h13, h14, h15, h16⟩ := hi
  have hx := fun p => PC.lh_of_ldu (p := p)
  have hy := fun p => PC.lh_of_tk (p := p)
  have hz := fun p => PC.tk_ldu (p := p)
  have mg : ∀ i, i ≤ s.mem.top .glob → m.msg .glob i = s.mem.msg .glob i := fun i h => hm.old _ _ h
  have mg' : (m.msg .glob (s.mem.top .glob + 1)).val = 1 := by rw [hm.new]
  have hK : ∀ gi li v, K m gi li v ↔ K s.mem gi li v := fun gi li v => by simp [K, hm.top]
  have hr : ∀ c, (s.th t).cur (.rs c) ≤ q.cur (.rs c) := fun c => hc _ (by simp)
  rcases hf with ⟨a1, rfl, rfl, a2, a3⟩ | ⟨a1, rfl, rfl, a2, a3, a4⟩
  · constructor <;> simp only [hm.top, hm.last, put_vw hm, reduceCtorEq, if_false, if_true, hK]
    case l1 => fin h1 hp hl
    case l2 => fin h2 hp hl
    case t1 => fin h3 a1
    case t2 => fin h4 hp
    case g1 => nofun
    case g2 => fin a2
    case g3 => fin h7
    case g4 =>
      intro _ j e1 e2
      by_cases e : j ≤ s.mem.top .glob
      · rw [mg j e]; exact h8 a2 j e1 e
      · obtain rfl : j = s.mem.top .glob + 1 := by omega
        rw [mg']; simp
    case r1 => exact h9
    case r2 => fin h10 hl
    case r3 => fin h11 hp hr
    case r4 => exact h12
    case k1 => fin h13 hp h4
    case k2 => fin a2
    case k3 =>
      intro c u hu
      by_cases e : u = t
      · subst e
        rw [upd_same, upd_same]
        intro _ e2
        have := h15 c u hu hp.1 e2
        exact ⟨fun x => Nat.le_trans (this.1 x) (hc _ (by simp)), by omega, Nat.le_trans this.2.2 (hc _ (by simp))⟩
      · rw [upd_ne _ _ e, upd_ne _ _ e]; exact h15 c u hu
    case k4 => exact h16
  · have hk : K s.mem (s.mem.top .glob + 1) s.li q.cur :=
      ⟨fun x => Nat.le_trans ((h14 a2).1 x) (a3 _ (by simp)), a4, Nat.le_trans (h14 a2).2.2 (a3 _ (by simp))⟩
    constructor <;> simp only [hm.top, hm.last, put_vw hm, reduceCtorEq, if_false, if_true, hK]
    case l1 => fin h1 hp hl
    case l2 => fin h2 hp hl
    case t1 => fin h3 a2
    case t2 => fin a1
    case g1 => nofun
    case g2 => nofun
    case g3 => exact Nat.le_refl _
    case g4 =>
      intro _ j e1 e2
      obtain rfl : j = s.mem.top .glob + 1 := by omega
      rw [mg']; simp
    case r1 => fin h9 a2
    case r2 => fin h10 hl a2
    case r3 => fin h11 hp hr
    case r4 => exact h12
    case k1 => fin hk
    case k2 => nofun
    case k3 => nofun
    case k4 => nofun

/-- Line 106: the global lock is released. -/
theorem Core.unG {s : St n} (hi : Core s) {t : Fin n} {q : Th Loc} {p : PC} {m : Mem Loc Nat} {w : View Loc} {e : Bool} {lw lu : Nat} {base : Nat → Nat}
    (hm : Put s.mem m .glob 0 w) (hc : ∀ y, y ≠ .glob → (s.th t).cur y ≤ q.cur y) (hp : (s.pc t).tk = true)
    (hl : p.lh = true ∧ p.ldu = false ∧ p.tk = false) (hw : ∀ y, y ≠ .glob → (s.th t).cur y ≤ w y) (hw' : s.mem.top .glob < w .glob) :
    Core { s with mem := m, th := upd s.th t q, pc := upd s.pc t p, tok := .free, ent := e, lw := lw, lu := lu, base := base } := by
  obtain ⟨h1, h2, h3, h4, h5, h6, h7, h8, h9, h10, h11, h12, h13, h14, h15, h16⟩ := hi
  have hx := fun p => PC.lh_of_ldu (p := p)
  have hy := fun p => PC.lh_of_tk (p := p)
  have hK : ∀ gi li v, K m gi li v ↔ K s.mem gi li v := fun gi li v => by simp [K, hm.top]
  have hr : ∀ c, (s.th t).cur (.rs c) ≤ q.cur (.rs c) := fun c => hc _ (by simp)
  have ht := h3 t hp
  have hk : K s.mem s.gi s.li w :=
    ⟨fun x => Nat.le_trans ((h13 t ht).1 x) (hw _ (by simp)), by omega, Nat.le_trans (h13 t ht).2.2 (hw _ (by simp))⟩
  constructor <;> simp only [hm.top, hm.last, put_vw hm, reduceCtorEq, if_false, if_true, hK]
  case l1 => fin h1 hp hl hy
  case l2 => fin h2 hp hl hy
  case t1 => fin h3 hl ht
  case t2 => nofun
  case g1 => fin
  case g2 => fin
  case g3 => fin h7
  case g4 => fin
  case r1 => fin h9 ht
  case r2 => fin h10 hl ht
  case r3 => fin h11 hp hy hr
  case r4 => exact h12
  case k1 => nofun
  case k2 => fin hk
  case k3 => nofun
  case k4 => nofun

/-- A store to `read_counter` or to a data word. -/
theorem Core.putX {s : St n} (hi : Core s) {t : Fin n} {q : Th Loc} {p : PC} {m : Mem Loc Nat} {l : Loc} {v : Nat} {w : View Loc} {ri : Fin n → Nat} {li : Nat}
    (hm : Put s.mem m l v w) (hl : l = .rc ∨ ∃ x, l = .usr x) (hc : ∀ y, y ≠ l → (s.th t).cur y ≤ q.cur y) (hc' : q.cur l = s.mem.top l + 1)
    (hp : p.lh = (s.pc t).lh ∧ p.tk = (s.pc t).tk) (hd : p.ldu = true → (s.pc t).ldu = true)
    (hk : l = .rc ∧ s.li = li ∧ s.li ≤ s.mem.top .rc ∨ (s.pc t).tk = true ∧ (l = .rc ∧ li = s.mem.top .rc + 1 ∨ (∃ x, l = .usr x) ∧ li = s.li)) :
    Core { s with mem := m, th := upd s.th t q, pc := upd s.pc t p, ri := ri, li := li } := by
  obtain ⟨h1, h2, h3, h4, h5, h6, h7, h8, h9, h10, h11, h12, h13, h14, h15, h16⟩ := hi
  have hx := fun p => PC.lh_of_ldu (p := p)
  have hy := fun p => PC.lh_of_tk (p := p)
  have hr : ∀ c, (s.th t).cur (.rs c) ≤ q.cur (.rs c) := fun c => hc _ (by rcases hl with h | ⟨x, h⟩ <;> rw [h] <;> simp)
  have hg : (s.th t).cur .glob ≤ q.cur .glob := hc _ (by rcases hl with h | ⟨x, h⟩ <;> rw [h] <;> simp)
  have mg : ∀ i, i ≤ s.mem.top .glob → m.msg .glob i = s.mem.msg .glob i := fun i h => hm.old _ _ h
  have n1 : ∀ c, Loc.loc c ≠ l := fun c => by rcases hl with h | ⟨x, h⟩ <;> rw [h] <;> simp
  have n2 : ∀ c, Loc.rs c ≠ l := fun c => by rcases hl with h | ⟨x, h⟩ <;> rw [h] <;> simp
  have n3 : Loc.glob ≠ l := by rcases hl with h | ⟨x, h⟩ <;> rw [h] <;> simp
  have hq : (s.pc t).tk = true → K m s.gi li q.cur := fun h => by
    have := h13 t (h3 t h)
    refine ⟨fun x => ?_, Nat.le_trans this.2.1 hg, ?_⟩
    · rw [hm.top]
      split
      · next e => rw [e, hc']
      · next e => exact Nat.le_trans (this.1 x) (hc _ e)
    · rcases hk with ⟨rfl, rfl, b⟩ | ⟨_, ⟨rfl, rfl⟩ | ⟨⟨x, rfl⟩, rfl⟩⟩
      · rw [hc']; omega
      · rw [hc']
      · exact Nat.le_trans this.2.2 (hc _ (by simp))
  have hq2 : (s.pc t).tk = false → ∀ v, K s.mem s.gi s.li v → K m s.gi li v := fun h v e => by
    rcases hk with ⟨rfl, rfl, b⟩ | ⟨c, _⟩
    · exact ⟨fun x => by rw [hm.top, if_neg (by simp)]; exact e.1 x, e.2.1, e.2.2⟩
    · rw [h] at c; cases c
  have hq3 : (s.pc t).tk = false → K s.mem s.gi s.li (s.th t).cur → K m s.gi li q.cur := fun h e => by
    refine hq2 h _ ⟨fun x => ?_, Nat.le_trans e.2.1 hg, ?_⟩
    · rcases hk with ⟨rfl, rfl, b⟩ | ⟨c, _⟩
      · exact Nat.le_trans (e.1 x) (hc _ (by simp))
      · rw [h] at c; cases c
    · rcases hk with ⟨rfl, rfl, b⟩ | ⟨c, _⟩
      · rw [hc']; omega
      · rw [h] at c; cases c
  constructor <;> simp only [hm.top, hm.last, put_vw hm, n1, n2, n3, if_false]
  case l1 => fin h1 hp
  case l2 => fin h2 hp
  case t1 => fin h3 hp
  case t2 => fin h4 hp
  case g1 => exact h5
  case g2 => exact h6
  case g3 => exact h7
  case g4 => fin h8 mg
  case r1 => exact h9
  case r2 => fin h10 hd
  case r3 => fin h11 hp hr
  case r4 => exact h12
  case k1 =>
    intro u hu
    by_cases e : u = t
    · subst e; rw [upd_same]; exact hq (h4 u hu)
    · rw [upd_ne _ _ e]
      refine hq2 ?_ _ (h13 u hu)
      have := h3 t; have := h4 u hu
      grind
  case k2 =>
    intro hu
    refine hq2 ?_ _ (h14 hu)
    have := h3 t
    grind
  case k3 =>
    intro c u hu e1 e2
    have hn : (s.pc t).tk = false := by have := h3 t; grind
    by_cases e : u = t
    · subst e
      rw [upd_same] at e1 ⊢
      exact hq3 hn (h15 c u hu (by rw [← hp.1]; exact e1) e2)
    · rw [upd_ne _ _ e] at e1 ⊢
      exact hq2 hn _ (h15 c u hu e1 e2)
  case k4 =>
    intro c hu e
    have hn : (s.pc t).tk = false := by have := h3 t; grind
    exact hq2 hn _ (h16 c hu e)

/-! ## Readers and writers -/

/-- counted in `read_counter` -/
@[simp, grind] def PC.cn : PC → Bool
  | .uSel .r | .uRs .r | .uLoc .r | .reading | .rFence | .rLoc | .rGlob | .rDec => true
  | _ => false
/-- a reader that writers must wait for -/
@[simp, grind] def PC.rdg : PC → Bool
  | .uSel .r | .uRs .r | .uLoc .r | .reading => true
  | _ => false
/-- a reader after its full fence (WP, RP) -/
@[simp, grind] def PC.chk : PC → Bool
  | .rLoc | .rGlob => true
  | _ => false
/-- a writer after its full fence (WP, RP) -/
@[simp, grind] def PC.wk : PC → Bool
  | .wChk | .writing => true
  | _ => false
/-- only in WP and RP -/
@[simp, grind] def PC.hsp : PC → Bool
  | .rInc | .rFence | .rLoc | .rGlob | .rDec => true
  | _ => false
/-- only in NEUTRAL -/
@[simp, grind] def PC.jr : PC → Bool
  | .ll .r | .ld .r | .gl .r | .held .r | .uSel .r | .uRs .r | .uLoc .r => true
  | _ => false

theorem PC.tk_of_wk {p : PC} (h : p.wk = true) : p.tk = true := by cases p <;> first | rfl | cases h
theorem PC.chk_cn {p : PC} (h : p.chk = true) : p.cn = true := by cases p <;> first | rfl | cases h
theorem PC.rdg_cn {p : PC} (h : p.rdg = true) : p.cn = true := by revert h; cases p <;> simp <;> rename_i j <;> cases j <;> simp

/-- `N`: the lock is CK_RWCOHORT_NEUTRAL; `H`: it is one of the others, and no fence is missing. -/
structure Rw (N H : Prop) (s : St n) : Prop where
  cn : s.mem.last .rc = cnt PC.cn s.pc
  vj : ∀ t, (s.pc t).cn = true → s.ri t ≤ s.mem.top .rc ∧ ∀ j, s.ri t ≤ j → j ≤ s.mem.top .rc → (s.mem.msg .rc j).val ≠ 0
  lt : s.li ≤ s.mem.top .rc
  qu : s.ent = false → ∀ x, s.mem.top (.usr x) ≤ s.base x
  gt : ∀ x, s.base x ≤ s.mem.top (.usr x)
  gl : s.lw ≤ s.lu ∧ s.lu ≤ s.mem.top .glob
  gv : ∀ i, s.lw ≤ i → i < s.lu → (s.mem.msg .glob i).val ≠ 0
  gw : ∀ i x, s.lu ≤ i → i ≤ s.mem.top .glob → s.base x ≤ (s.mem.msg .glob i).view (.usr x)
  ef : s.ent = true → s.tok ≠ .free
  we : ∀ t, s.pc t = .writing → s.ent = true
  pn : N → ∀ t, (s.pc t).hsp = false
  pw : ¬ N → ∀ t, (s.pc t).jr = false
  nn : N → ∀ t, (s.pc t).cn = true → s.ri t ≤ s.li
  rb : N ∨ H → ∀ t, (s.pc t).rdg = true → ∀ x, s.mem.top (.usr x) ≤ (s.th t).cur (.usr x)
  ex : N ∨ H → ∀ t u, s.pc t = .writing → (s.pc u).rdg = false
  s1 : H → ∀ t, (s.pc t).chk = true ∨ s.pc t = .reading → s.ri t ≤ s.sc .rc
  s2 : H → ∀ u, (s.pc u).wk = true → s.gi ≤ s.sc .glob
  s3 : H → ∀ u t, (s.pc u).wk = true → s.pc t = .reading → s.ri t ≤ (s.th u).cur .rc
  s4 : H → ∀ u t, (s.pc u).wk = true → (s.pc t).chk = true → s.gi ≤ (s.th t).cur .glob ∨ s.ri t ≤ (s.th u).cur .rc
  e1 : H → s.ent = true → s.gi ≤ s.sc .glob
  e2 : H → s.ent = true → ∀ t, (s.pc t).chk = true → s.gi ≤ (s.th t).cur .glob
  e3 : H → s.ent = true → ∀ t, s.pc t ≠ .reading
  ck : H → ∀ t, (s.pc t).chk = true → s.lw ≤ (s.th t).cur .glob
  cs : H → s.lw ≤ s.sc .glob

variable {N H : Prop}

/-- A step of `t` that does not store to the global lock, to `read_counter` or to data. -/
theorem Rw.go {s : St n} (hi : Rw N H s) {t : Fin n} {q : Th Loc} {p : PC} {c : Nat} {sc : View Loc} {e : Bool} {m : Mem Loc Nat} {k : Tok n}
    (hm : ∀ y, y = .glob ∨ y = .rc ∨ (∃ x, y = .usr x) → m.top y = s.mem.top y ∧ ∀ i, i ≤ s.mem.top y → m.msg y i = s.mem.msg y i)
    (hc : ∀ y, y = .glob ∨ y = .rc ∨ (∃ x, y = .usr x) → (s.th t).cur y ≤ q.cur y) (hs : ∀ y, s.sc y ≤ sc y)
    (hn : p.cn = (s.pc t).cn) (hN : N → p.hsp = false) (hN' : ¬ N → p.jr = false)
    (hk : s.ent = true → k ≠ .free) (he : s.ent = true → e = true)
    (he' : e = true → s.ent = true ∨ k ≠ .free ∧
      (H → s.gi ≤ sc .glob ∧ p.chk = false ∧ p ≠ .reading ∧ (∀ u, u ≠ t → (s.pc u).chk = true → s.gi ≤ (s.th u).cur .glob) ∧ ∀ u, s.pc u ≠ .reading))
    (hrd : p.rdg = true → (s.pc t).rdg = true ∨ (N ∨ H → (∀ x, s.mem.top (.usr x) ≤ q.cur (.usr x)) ∧ ∀ u, s.pc u ≠ .writing))
    (hw : p = .writing → s.pc t = .writing ∨ e = true ∧ (N ∨ H → ∀ u, (s.pc u).rdg = false))
    (haf : H → p.chk = true ∨ p = .reading → (s.pc t).chk = true ∨ s.pc t = .reading ∨ s.ri t ≤ sc .rc)
    (hwk : H → p.wk = true → (s.pc t).wk = true ∨ s.gi ≤ sc .glob ∧ s.sc .rc ≤ q.cur .rc)
    (hck : H → p.chk = true → (s.pc t).chk = true ∨
      s.lw ≤ q.cur .glob ∧ (∀ u, (s.pc u).wk = true → s.gi ≤ q.cur .glob) ∧ (s.ent = true → s.gi ≤ q.cur .glob))
    (hre : H → p = .reading → s.pc t = .reading ∨ (∀ u, (s.pc u).wk = true → s.ri t ≤ (s.th u).cur .rc) ∧ e = false) :
    Rw N H { s with mem := m, sc := sc, th := upd s.th t q, pc := upd s.pc t p, co := upd s.co t c, tok := k, ent := e } := by
  obtain ⟨h1, h2, h3, h4, h5, h6, h7, h8, h9, h10, h11, h12, h13, h14, h15, h16, h17, h18, h19, h20, h21, h22, h23, h24⟩ := hi
  have tg := (hm .glob (by simp)).1
  have mg := (hm .glob (by simp)).2
  have tr := (hm .rc (by simp)).1
  have mr := (hm .rc (by simp)).2
  have tu := fun x => (hm (.usr x) (by simp)).1
  have cg := hc .glob (by simp)
  have cr := hc .rc (by simp)
  have cu := fun x => hc (.usr x) (by simp)
  have lr : m.last .rc = s.mem.last .rc := by simp only [Mem.last]; rw [tr, mr _ (Nat.le_refl _)]
  have sg := hs .glob
  have sr := hs .rc
  have hx : p.wk = true → p.chk = true → False := by cases p <;> simp
  have hx' : p.wk = true → p ≠ .reading := by cases p <;> simp
  have hx2 : p = .writing → p.rdg = false := by rintro rfl; rfl
  constructor <;> simp only [tg, tr, tu, lr]
  case cn => rw [h1]; have := cnt_update PC.cn s.pc t p; rw [hn] at this; omega
  case vj => fin h2 mr hn
  case lt => exact h3
  case qu => fin h4 he
  case gt => exact h5
  case gl => exact h6
  case gv => fin h7 mg h6
  case gw => fin h8 mg
  case ef => fin h9 he' hk
  case we => fin h10 hw he
  case pn => fin h11 hN
  case pw => fin h12 hN'
  case nn => fin h13 hn
  case rb => fin h14 cu hrd
  case ex => fin h15 hw hrd hx2
  case s1 => fin h16 haf sr
  case s2 => fin h17 hwk sg
  case s3 => fin h18 hwk hre cr h16 hx'
  case s4 => fin h19 hwk hck cr cg h16 hx
  case e1 => fin h20 he' sg
  case e2 => fin h21 he' cg hck
  case e3 => fin h22 he' hre
  case ck => fin h23 hck cg
  case cs => fin h24 sg

/-- A failing `fas` of the global lock. -/
theorem Rw.fasFail {s : St n} (hi : Rw N H s) {t : Fin n} {q : Th Loc} {m : Mem Loc Nat} {w : View Loc} (hm : Put s.mem m .glob 1 w)
    (hc : ∀ y, y ≠ .glob → (s.th t).cur y ≤ q.cur y) (hw : ∀ x, vw s.mem .glob (.usr x) ≤ w (.usr x)) (hp : (s.pc t).chk = false) :
    Rw N H { s with mem := m, th := upd s.th t q } := by
  obtain ⟨h1, h2, h3, h4, h5, h6, h7, h8, h9, h10, h11, h12, h13, h14, h15, h16, h17, h18, h19, h20, h21, h22, h23, h24⟩ := hi
  have mr : ∀ i, i ≤ s.mem.top .rc → m.msg .rc i = s.mem.msg .rc i := fun i h => hm.old _ _ h
  have mg : ∀ i, i ≤ s.mem.top .glob → m.msg .glob i = s.mem.msg .glob i := fun i h => hm.old _ _ h
  have cr := hc .rc (by simp)
  have cu := fun x => hc (.usr x) (by simp)
  constructor <;> simp only [hm.top, hm.last, reduceCtorEq, if_false, if_true]
  case cn => exact h1
  case vj => fin h2 mr
  case lt => exact h3
  case qu => exact h4
  case gt => exact h5
  case gl => fin h6
  case gv => fin h7 mg h6
  case gw =>
    intro i x e1 e2
    by_cases e : i ≤ s.mem.top .glob
    · rw [mg i e]; exact h8 i x e1 e
    · obtain rfl : i = s.mem.top .glob + 1 := by omega
      rw [hm.new]; exact Nat.le_trans (h8 _ x h6.2 (Nat.le_refl _)) (hw x)
  case ef => exact h9
  case we => exact h10
  case pn => exact h11
  case pw => exact h12
  case nn => exact h13
  case rb => fin h14 cu
  case ex => exact h15
  case s1 => exact h16
  case s2 => exact h17
  case s3 => fin h18 cr
  case s4 => fin h19 cr hp
  case e1 => exact h20
  case e2 => fin h21 hp
  case e3 => exact h22
  case ck => fin h23 hp
  case cs => exact h24

/-- The global lock is taken. -/
theorem Rw.fasOk {s : St n} (hi : Rw N H s) (hC : Core s) {t : Fin n} {q : Th Loc} {p : PC} {m : Mem Loc Nat} {w : View Loc} (hm : Put s.mem m .glob 1 w)
    (hc : ∀ y, y ≠ .glob → (s.th t).cur y ≤ q.cur y) (hw : ∀ x, vw s.mem .glob (.usr x) ≤ w (.usr x)) (hf : s.tok = .free)
    (hp : (s.pc t).cn = false ∧ p.cn = false ∧ p.wk = false ∧ p.hsp = false) (hN : ¬ N → p.jr = false) :
    Rw N H { s with mem := m, th := upd s.th t q, pc := upd s.pc t p, tok := .thr t, gi := s.mem.top .glob + 1 } := by
  obtain ⟨h1, h2, h3, h4, h5, h6, h7, h8, h9, h10, h11, h12, h13, h14, h15, h16, h17, h18, h19, h20, h21, h22, h23, h24⟩ := hi
  have mr : ∀ i, i ≤ s.mem.top .rc → m.msg .rc i = s.mem.msg .rc i := fun i h => hm.old _ _ h
  have mg : ∀ i, i ≤ s.mem.top .glob → m.msg .glob i = s.mem.msg .glob i := fun i h => hm.old _ _ h
  have hne : s.ent = false := by cases e : s.ent; rfl; exact absurd hf (h9 e)
  have hnw : ∀ u, (s.pc u).wk = false := fun u => by
    cases e : (s.pc u).wk
    · rfl
    · have := hC.t1 u (PC.tk_of_wk e); rw [hf] at this; cases this
  have hx : p.chk = false ∧ p ≠ .reading ∧ p.rdg = false ∧ p ≠ .writing := by revert hp; cases p <;> simp <;> rename_i j <;> cases j <;> simp
  constructor <;> simp only [hm.top, hm.last, reduceCtorEq, if_false, if_true]
  case cn => rw [h1]; have := cnt_update PC.cn s.pc t p; rw [hp.1, hp.2.1] at this; simpa using this.symm
  case vj => fin h2 mr hp
  case lt => exact h3
  case qu => exact h4
  case gt => exact h5
  case gl => fin h6
  case gv => fin h7 mg h6
  case gw =>
    intro i x e1 e2
    by_cases e : i ≤ s.mem.top .glob
    · rw [mg i e]; exact h8 i x e1 e
    · obtain rfl : i = s.mem.top .glob + 1 := by omega
      rw [hm.new]; exact Nat.le_trans (h8 _ x h6.2 (Nat.le_refl _)) (hw x)
  case ef => fin
  case we => fin h10 hx
  case pn => fin h11 hp
  case pw => fin h12 hN
  case nn => fin h13 hp
  case rb => fin h14 hx
  case ex => fin h15 hx
  case s1 => fin h16 hx
  case s2 => fin hnw hp
  case s3 => fin hnw hp
  case s4 => fin hnw hp
  case e1 => fin hne
  case e2 => fin hne
  case e3 => fin hne
  case ck => fin h23 hx
  case cs => exact h24

/-- The global lock is released. -/
theorem Rw.unG {s : St n} (hi : Rw N H s) (hC : Core s) {t : Fin n} {q : Th Loc} {p : PC} {m : Mem Loc Nat} {w : View Loc} (hm : Put s.mem m .glob 0 w)
    (hc : ∀ y, y ≠ .glob → (s.th t).cur y ≤ q.cur y) (hw : ∀ y, y ≠ .glob → (s.th t).cur y ≤ w y) (ht : (s.pc t).tk = true)
    (hp : (s.pc t).cn = p.cn ∧ (s.pc t).rdg = p.rdg ∧ p.wk = false ∧ p.hsp = false ∧ p ≠ .reading) (hN : ¬ N → p.jr = false) :
    Rw N H { s with mem := m, th := upd s.th t q, pc := upd s.pc t p, tok := .free, ent := false, lw := if s.ent then s.gi else s.lw
                    lu := if s.ent then s.mem.top .glob + 1 else s.lu, base := if s.ent then fun x => s.mem.top (.usr x) else s.base } := by
  obtain ⟨h1, h2, h3, h4, h5, h6, h7, h8, h9, h10, h11, h12, h13, h14, h15, h16, h17, h18, h19, h20, h21, h22, h23, h24⟩ := hi
  have mr : ∀ i, i ≤ s.mem.top .rc → m.msg .rc i = s.mem.msg .rc i := fun i h => hm.old _ _ h
  have mg : ∀ i, i ≤ s.mem.top .glob → m.msg .glob i = s.mem.msg .glob i := fun i h => hm.old _ _ h
  have hnw : ∀ u, u ≠ t → (s.pc u).wk = false := fun u hu => by
    cases e : (s.pc u).wk
    · rfl
    · have := hC.t1 u (PC.tk_of_wk e); rw [hC.t1 t ht] at this; exact absurd (Tok.thr.inj this).symm hu
  have hnw' : ∀ u, u ≠ t → s.pc u ≠ .writing := fun u hu h => by have := hnw u hu; rw [h] at this; cases this
  have hx : p.chk = false ∧ p ≠ .writing := by revert hp; cases p <;> simp
  have hK := hC.k1 t (hC.t1 t ht)
  have hg := hC.g3
  have hg4 := hC.g4 (by rw [hC.t1 t ht]; nofun)
  have cu := fun x => hc (.usr x) (by simp)
  have wu : ∀ x, s.mem.top (.usr x) ≤ w (.usr x) := fun x => Nat.le_trans (hK.1 x) (hw _ (by simp))
  constructor <;> simp only [hm.top, hm.last, reduceCtorEq, if_false, if_true]
  case cn => rw [h1]; have := cnt_update PC.cn s.pc t p; rw [hp.1] at this; omega
  case vj => fin h2 mr hp
  case lt => exact h3
  case qu =>
    intro _ x
    split
    · exact Nat.le_refl _
    · next h => exact h4 (by simpa using h) x
  case gt =>
    intro x
    split
    · exact Nat.le_refl _
    · exact h5 x
  case gl => fin h6 hg
  case gv => fin h7 mg h6 hg4
  case gw =>
    intro i x e1 e2
    by_cases e : i ≤ s.mem.top .glob
    · rw [mg i e]; split at e1
      · omega
      · next h => rw [if_neg h]; exact h8 i x e1 e
    · obtain rfl : i = s.mem.top .glob + 1 := by omega
      rw [hm.new]
      split
      · exact wu x
      · exact Nat.le_trans (h5 x) (wu x)
  case ef => fin
  case we => fin hnw' hx
  case pn => fin h11 hp
  case pw => fin h12 hN
  case nn => fin h13 hp
  case rb => fin h14 hp cu
  case ex => fin hnw' hx
  case s1 => fin h16 hx hp
  case s2 => fin hnw hp
  case s3 => fin hnw hp
  case s4 => fin hnw hp
  case e1 => fin
  case e2 => fin
  case e3 => fin
  case ck => fin h23 hx h21
  case cs => fin h24 h20

/-- `read_counter` is changed. -/
theorem Rw.putC {s : St n} (hi : Rw N H s) {t : Fin n} {q : Th Loc} {p : PC} {m : Mem Loc Nat} {w : View Loc} {v r li : Nat} (hm : Put s.mem m .rc v w)
    (hc : ∀ y, y ≠ .rc → (s.th t).cur y ≤ q.cur y) (hv : v + (s.pc t).cn.toNat = s.mem.last .rc + p.cn.toNat)
    (hp : p.wk = false ∧ (s.pc t).wk = false ∧ p.chk = false ∧ p ≠ .reading) (hr : p.cn = true → r = s.mem.top .rc + 1)
    (hl : s.li ≤ li ∧ li ≤ s.mem.top .rc + 1 ∧ (N → p.cn = true → li = s.mem.top .rc + 1))
    (hN : N → p.hsp = false) (hN' : ¬ N → p.jr = false)
    (hrd : p.rdg = true → (N ∨ H → ∀ x, s.mem.top (.usr x) ≤ q.cur (.usr x)) ∧ ∀ u, s.pc u ≠ .writing) :
    Rw N H { s with mem := m, th := upd s.th t q, pc := upd s.pc t p, ri := upd s.ri t r, li := li } := by
  obtain ⟨h1, h2, h3, h4, h5, h6, h7, h8, h9, h10, h11, h12, h13, h14, h15, h16, h17, h18, h19, h20, h21, h22, h23, h24⟩ := hi
  have mr : ∀ i, i ≤ s.mem.top .rc → m.msg .rc i = s.mem.msg .rc i := fun i h => hm.old _ _ h
  have mg : ∀ i, i ≤ s.mem.top .glob → m.msg .glob i = s.mem.msg .glob i := fun i h => hm.old _ _ h
  have hcn : v = cnt PC.cn (upd s.pc t p) := by have := cnt_update PC.cn s.pc t p; omega
  have hx : p ≠ .writing := by rintro rfl; exact absurd hp.1 (by simp)
  have hx' : s.pc t ≠ .writing := fun h => absurd hp.2.1 (by simp [h])
  have cu := fun x => hc (.usr x) (by simp)
  constructor <;> simp only [hm.top, hm.last, reduceCtorEq, if_false, if_true]
  case cn => exact hcn
  case vj =>
    intro u hu
    have hv1 : v ≠ 0 := by rw [hcn]; exact Nat.ne_of_gt (cnt_pos u hu)
    by_cases e : u = t
    · subst e
      rw [upd_same] at hu ⊢
      rw [hr hu]
      refine ⟨Nat.le_refl _, fun j e1 e2 => ?_⟩
      obtain rfl : j = s.mem.top .rc + 1 := by omega
      rw [hm.new]; exact hv1
    · rw [upd_ne _ _ e] at hu ⊢
      refine ⟨Nat.le_succ_of_le (h2 u hu).1, fun j e1 e2 => ?_⟩
      by_cases e : j ≤ s.mem.top .rc
      · rw [mr j e]; exact (h2 u hu).2 j e1 e
      · obtain rfl : j = s.mem.top .rc + 1 := by omega
        rw [hm.new]; exact hv1
  case lt => exact hl.2.1
  case qu => exact h4
  case gt => exact h5
  case gl => exact h6
  case gv => fin h7 mg h6
  case gw => fin h8 mg
  case ef => exact h9
  case we => fin h10 hx
  case pn => fin h11 hN
  case pw => fin h12 hN'
  case nn => fin h13 hl hr
  case rb => fin h14 hrd cu
  case ex => fin h15 hx hrd
  case s1 => fin h16 hp
  case s2 => fin h17 hp
  case s3 => fin h18 hp
  case s4 => fin h19 hp
  case e1 => exact h20
  case e2 => fin h21 hp
  case e3 => fin h22 hp
  case ck => fin h23 hp
  case cs => exact h24

/-- A writer stores to data. -/
theorem Rw.putU {s : St n} (hi : Rw N H s) {t : Fin n} {q : Th Loc} {m : Mem Loc Nat} {x v : Nat} {w : View Loc} (hm : Put s.mem m (.usr x) v w)
    (hc : ∀ y, y ≠ .usr x → (s.th t).cur y ≤ q.cur y) (hp : s.pc t = .writing) : Rw N H { s with mem := m, th := upd s.th t q } := by
  obtain ⟨h1, h2, h3, h4, h5, h6, h7, h8, h9, h10, h11, h12, h13, h14, h15, h16, h17, h18, h19, h20, h21, h22, h23, h24⟩ := hi
  have mr : ∀ i, i ≤ s.mem.top .rc → m.msg .rc i = s.mem.msg .rc i := fun i h => hm.old _ _ h
  have mg : ∀ i, i ≤ s.mem.top .glob → m.msg .glob i = s.mem.msg .glob i := fun i h => hm.old _ _ h
  have cg := hc .glob (by simp)
  have cr := hc .rc (by simp)
  have he := h10 t hp
  constructor <;> simp only [hm.top, hm.last, reduceCtorEq, if_false, Loc.usr.injEq]
  case cn => exact h1
  case vj => fin h2 mr
  case lt => exact h3
  case qu => fin he
  case gt => fin h5
  case gl => exact h6
  case gv => fin h7 mg h6
  case gw => fin h8 mg
  case ef => exact h9
  case we => exact h10
  case pn => exact h11
  case pw => exact h12
  case nn => exact h13
  case rb => exact fun h u hu => absurd hu (by rw [h15 h t u hp]; simp)
  case ex => exact h15
  case s1 => exact h16
  case s2 => exact h17
  case s3 => fin h18 cr
  case s4 => fin h19 cr cg
  case e1 => exact h20
  case e2 => fin h21 cg
  case e3 => exact h22
  case ck => fin h23 cg
  case cs => exact h24

/-! ## The steps -/

structure Inv (N H : Prop) (s : St n) : Prop where
  c : Core s
  r : Rw N H s

theorem opt_cur (b : Bool) (q : Th Loc) (y : Loc) : q.cur y ≤ (opt b Th.fenceLoad q).cur y := by
  cases b
  · exact Nat.le_refl _
  · exact le_join_left _ _ _
theorem fence_cur (q : Th Loc) (sc : View Loc) (y : Loc) : q.cur y ≤ (q.fence sc).cur y :=
  Nat.le_trans (le_join_left _ _ _) (le_join_left _ _ _)
theorem fence_sc (q : Th Loc) (sc : View Loc) (y : Loc) : sc y ≤ (q.fence sc).cur y := le_join_right _ _ _
theorem rmw_at (q : Th Loc) (m : Mem Loc Nat) (l : Loc) : (q.rmw m l).cur l = m.top l + 1 := by simp [Th.rmw, Th.store]
theorem store_at (q : Th Loc) (m : Mem Loc Nat) (l : Loc) : (q.store m l).cur l = m.top l + 1 := by simp [Th.store]
/-- A successful `fas` and a fence. -/
theorem fas_view (q : Th Loc) (m : Mem Loc Nat) (l y : Loc) : vw m l y ≤ (Th.fenceAcq (q.rmw m l)).cur y := by
  refine Nat.le_trans ?_ (le_join_right _ _ _)
  exact Nat.le_trans (Th.load_view_le q m l _ y) (Nat.le_refl _)

theorem same_refl (m : Mem Loc Nat) : ∀ y, y = Loc.glob ∨ y = .rc ∨ (∃ x, y = .usr x) → m.top y = m.top y ∧ ∀ i, i ≤ m.top y → m.msg y i = m.msg y i :=
  fun _ _ => ⟨rfl, fun _ _ => rfl⟩
theorem same_put {m m' : Mem Loc Nat} {l : Loc} {v : Nat} {w : View Loc} (h : Put m m' l v w) (hl : ∀ y, y = Loc.glob ∨ y = .rc ∨ (∃ x, y = .usr x) → y ≠ l) :
    ∀ y, y = Loc.glob ∨ y = .rc ∨ (∃ x, y = .usr x) → m'.top y = m.top y ∧ ∀ i, i ≤ m.top y → m'.msg y i = m.msg y i :=
  fun y hy => ⟨h.top_ne (hl y hy), fun i hi => h.old _ _ hi⟩

variable {k : Kind} {fc : Fences}

/-- The fences of the cohort lock exist; those of readers and writers do if `H`. -/
structure Ok (N H : Prop) (k : Kind) (fc : Fences) : Prop where
  lock : fc.lock = true
  gunlock : fc.gunlock = true
  lunlock : fc.lunlock = true
  n : N ↔ k = .neutral
  h : H → ¬ N
  rfull : H → fc.rfull = true
  wfull : H → fc.wfull = true
  lkd : H → fc.lkd = true

/-- A step that neither stores nor changes what matters about the program counter. -/
theorem Inv.plain {s : St n} (hi : Inv N H s) {t : Fin n} {q : Th Loc} {p : PC} {c : Nat} (hc : ∀ y, (s.th t).cur y ≤ q.cur y)
    (hl : p.lh = (s.pc t).lh ∧ p.tk = (s.pc t).tk ∧ p.ldu = (s.pc t).ldu ∧ p.cn = (s.pc t).cn ∧ p.rdg = (s.pc t).rdg ∧
      (p.chk = true → (s.pc t).chk = true) ∧ (p.wk = true → (s.pc t).wk = true) ∧ (p = .writing → s.pc t = .writing) ∧ (p = .reading → s.pc t = .reading))
    (hN : N → p.hsp = false) (hN' : ¬ N → p.jr = false) (hco : p.lh = true → c = s.co t) :
    Inv N H { s with th := upd s.th t q, pc := upd s.pc t p, co := upd s.co t c } :=
  ⟨hi.c.go (sc := s.sc) (e := s.ent) hc hl.1 hl.2.1 (fun h => hl.2.2.1 ▸ h) hco,
    hi.r.go (m := s.mem) (sc := s.sc) (e := s.ent) (same_refl _) (fun y _ => hc y) (fun _ => Nat.le_refl _) hl.2.2.2.1 hN hN' hi.r.ef id .inl
      (fun h => .inl (hl.2.2.2.2.1 ▸ h)) (fun h => .inl (hl.2.2.2.2.2.2.2.1 h))
      (fun _ h => h.elim (fun h => .inl (hl.2.2.2.2.2.1 h)) fun h => .inr (.inl (hl.2.2.2.2.2.2.2.2 h)))
      (fun _ h => .inl (hl.2.2.2.2.2.2.1 h)) (fun _ h => .inl (hl.2.2.2.2.2.1 h)) (fun _ h => .inl (hl.2.2.2.2.2.2.2.2 h))⟩

theorem Inv.plain' {s : St n} (hi : Inv N H s) {t : Fin n} {q : Th Loc} {p : PC} (hc : ∀ y, (s.th t).cur y ≤ q.cur y)
    (hl : p.lh = (s.pc t).lh ∧ p.tk = (s.pc t).tk ∧ p.ldu = (s.pc t).ldu ∧ p.cn = (s.pc t).cn ∧ p.rdg = (s.pc t).rdg ∧
      (p.chk = true → (s.pc t).chk = true) ∧ (p.wk = true → (s.pc t).wk = true) ∧ (p = .writing → s.pc t = .writing) ∧ (p = .reading → s.pc t = .reading))
    (hN : N → p.hsp = false) (hN' : ¬ N → p.jr = false) : Inv N H { s with th := upd s.th t q, pc := upd s.pc t p } := by
  have := hi.plain (c := s.co t) hc hl hN hN' (fun _ => rfl)
  rwa [upd_eq_self] at this

theorem Inv.call {s s' : St n} (hi : Inv N H s) (hf : Ok N H k fc) {t : Fin n} {c : Nat} {r : Bool}
    (hs : step k fc s (if r then .rlock t c else .wlock t c) = some s') : Inv N H s' := by
  have key : ∀ p : PC, s.pc t = .idle → (p = .ll .w ∨ p = .ll .r ∧ N ∨ p = .rInc ∧ ¬ N) →
      Inv N H { s with pc := upd s.pc t p, co := upd s.co t c } := by
    intro p hp hq
    have := hi.plain (t := t) (q := s.th t) (p := p) (c := c) (fun _ => Nat.le_refl _) (by rw [hp]; rcases hq with rfl | ⟨rfl, _⟩ | ⟨rfl, _⟩ <;> simp)
      (fun h => by rcases hq with rfl | ⟨rfl, h'⟩ | ⟨rfl, h'⟩ <;> first | rfl | exact absurd h h')
      (fun h => by rcases hq with rfl | ⟨rfl, h'⟩ | ⟨rfl, h'⟩ <;> first | rfl | exact absurd h' h)
      (fun h => by rcases hq with rfl | ⟨rfl, h'⟩ | ⟨rfl, h'⟩ <;> simp at h)
    rwa [upd_eq_self] at this
  cases r <;> simp only [step, if_true, Bool.false_eq_true, if_false] at hs <;> split at hs <;> simp only [Option.some.injEq, reduceCtorEq] at hs <;> subst hs
  · next hp => exact key _ hp (.inl rfl)
  · next hp =>
    refine key _ hp ?_
    have := hf.n
    split <;> simp_all

theorem Inv.wunlock {s s' : St n} (hi : Inv N H s) {t : Fin n} (hs : step k fc s (.wunlock t) = some s') : Inv N H s' := by
  simp only [step] at hs
  split at hs <;> simp only [Option.some.injEq, reduceCtorEq] at hs
  next hp =>
  subst hs
  have := hi.plain' (t := t) (q := s.th t) (p := .uSel .w) (fun _ => Nat.le_refl _) (by rw [hp]; simp) (fun _ => rfl) (fun _ => rfl)
  rwa [upd_eq_self] at this

theorem Inv.runlock {s s' : St n} (hi : Inv N H s) {t : Fin n} (hs : step k fc s (.runlock t) = some s') : Inv N H s' := by
  simp only [step] at hs
  split at hs <;> simp only [Option.some.injEq, reduceCtorEq] at hs
  next hp =>
  subst hs
  have hm := Put.rmw s.mem (opt fc.rdec Th.fenceLoad (s.th t)) .rc (s.mem.last .rc - 1)
  have hc : ∀ y, y ≠ Loc.rc → (s.th t).cur y ≤ ((opt fc.rdec Th.fenceLoad (s.th t)).rmw s.mem .rc).cur y := fun y hy =>
    Nat.le_trans (opt_cur _ _ _) (Th.rmw_cur_le _ _ _ hy)
  have hl : 0 < s.mem.last .rc := by rw [hi.r.cn]; exact cnt_pos t (by rw [hp]; rfl)
  have h1 := hi.c.putX (p := .idle) (ri := s.ri) hm (.inl rfl) hc (rmw_at _ _ _) (by rw [hp]; simp) nofun (.inl ⟨rfl, rfl, hi.r.lt⟩)
  have h2 := hi.r.putC (p := .idle) (r := s.ri t) (li := s.li) hm hc (by rw [hp]; simp; omega) ⟨rfl, by rw [hp]; rfl, rfl, by simp⟩ nofun
    ⟨Nat.le_refl _, Nat.le_succ_of_le hi.r.lt, fun _ h => by cases h⟩ (fun _ => rfl) (fun _ => rfl) nofun
  rw [upd_eq_self] at h2
  exact ⟨h1, h2⟩

theorem Inv.read {s s' : St n} (hi : Inv N H s) {t : Fin n} {x i : Nat} (hs : step k fc s (.read t x i) = some s') : Inv N H s' := by
  simp only [step] at hs
  split at hs <;> simp only [Option.some.injEq, reduceCtorEq] at hs
  next hp =>
  subst hs
  have := hi.plain' (t := t) (q := (s.th t).load s.mem (.usr x) i) (p := s.pc t) (Th.load_cur_le _ _ _ _) ⟨rfl, rfl, rfl, rfl, rfl, id, id, id, id⟩
    (fun h => hi.r.pn h t) (fun h => hi.r.pw h t)
  rwa [upd_eq_self] at this

theorem Inv.write {s s' : St n} (hi : Inv N H s) {t : Fin n} {x v : Nat} (hs : step k fc s (.write t x v) = some s') : Inv N H s' := by
  simp only [step] at hs
  split at hs <;> simp only [Option.some.injEq, reduceCtorEq] at hs
  next hp =>
  subst hs
  have hm := Put.store s.mem (s.th t) (.usr x) v
  have hc : ∀ y, y ≠ Loc.usr x → (s.th t).cur y ≤ ((s.th t).store s.mem (.usr x)).cur y := fun y hy => Th.store_cur_le _ _ _ hy
  have h1 := hi.c.putX (p := s.pc t) (ri := s.ri) hm (.inr ⟨x, rfl⟩) hc (store_at _ _ _) ⟨rfl, rfl⟩ id (.inr ⟨by rw [hp]; rfl, .inr ⟨⟨x, rfl⟩, rfl⟩⟩)
  rw [upd_eq_self] at h1
  exact ⟨h1, hi.r.putU hm hc hp⟩

/-- A step of the cohort lock that stores to a local lock or to `release_state`, or only loads. -/
theorem Rw.quiet {s : St n} (hi : Rw N H s) {t : Fin n} {q : Th Loc} {p : PC} {m : Mem Loc Nat} {k : Tok n}
    (hm : ∀ y, y = .glob ∨ y = .rc ∨ (∃ x, y = .usr x) → m.top y = s.mem.top y ∧ ∀ i, i ≤ s.mem.top y → m.msg y i = s.mem.msg y i)
    (hc : ∀ y, y = .glob ∨ y = .rc ∨ (∃ x, y = .usr x) → (s.th t).cur y ≤ q.cur y)
    (hk : s.ent = true → k ≠ .free) (hp : p.cn = (s.pc t).cn ∧ p.rdg = (s.pc t).rdg ∧ p.wk = false ∧ p.chk = false)
    (hN : N → p.hsp = false) (hN' : ¬ N → p.jr = false) (hr : H → p ≠ .reading) :
    Rw N H { s with mem := m, th := upd s.th t q, pc := upd s.pc t p, tok := k } := by
  have hw : p ≠ .writing := by rintro rfl; exact absurd hp.2.2.1 (by simp)
  have := hi.go (q := q) (p := p) (c := s.co t) (sc := s.sc) (e := s.ent) hm hc (fun _ => Nat.le_refl _) hp.1 hN hN' hk id .inl (fun h => .inl (hp.2.1 ▸ h))
    (fun h => absurd h hw) (fun h e => e.elim (fun e => by rw [hp.2.2.2] at e; cases e) fun e => absurd e (hr h)) (fun _ e => by rw [hp.2.2.1] at e; cases e)
    (fun _ e => by rw [hp.2.2.2] at e; cases e) (fun h e => absurd e (hr h))
  rwa [upd_eq_self] at this

theorem ne_loc (c : Nat) : ∀ y, y = Loc.glob ∨ y = .rc ∨ (∃ x, y = .usr x) → y ≠ .loc c := by rintro y (rfl | rfl | ⟨x, rfl⟩) <;> simp
theorem ne_rs (c : Nat) : ∀ y, y = Loc.glob ∨ y = .rc ∨ (∃ x, y = .usr x) → y ≠ .rs c := by rintro y (rfl | rfl | ⟨x, rfl⟩) <;> simp

theorem Inv.ll {s s' : St n} (hi : Inv N H s) (hf : Ok N H k fc) {t : Fin n} {i : Nat} {b : Bool} {j : Job} (hp : s.pc t = .ll j)
    (hs : run k fc s t i b = some s') : Inv N H s' := by
  simp only [run, hp, hf.lock, opt, if_true] at hs
  have hm := Put.rmw s.mem (s.th t) (.loc (s.co t)) 1
  have hc := fun y (h : y ≠ Loc.loc (s.co t)) => Th.rmw_cur_le (s.th t) s.mem _ h
  have hj : ¬ N → j ≠ .r := fun h e => by have := hi.r.pw h t; rw [hp, e] at this; cases this
  split at hs <;> simp only [Option.some.injEq] at hs <;> subst hs
  · next h0 =>
    have hc' := fun y (h : y ≠ Loc.loc (s.co t)) => Nat.le_trans (hc y h) (le_join_left _ ((s.th t).rmw s.mem (.loc (s.co t))).acq y)
    refine ⟨hi.c.fasL hm hc' (by rw [hp]; rfl) rfl fun _ => ⟨h0, fun y _ => fas_view _ _ _ _⟩,
      hi.r.quiet (same_put hm (ne_loc _)) (fun y h => hc' y (ne_loc _ y h)) hi.r.ef (by rw [hp]; simp) (fun _ => rfl) (fun h => ?_) nofun⟩
    have := hj h
    cases j <;> simp_all
  · have h1 := hi.c.fasL (p := s.pc t) hm hc (by rw [hp]; rfl) (by rw [hp]; rfl) (fun h => by rw [hp] at h; cases h)
    have h2 := hi.r.quiet (p := s.pc t) (same_put hm (ne_loc _)) (fun y h => hc y (ne_loc _ y h)) hi.r.ef (by rw [hp]; simp) (fun h => hi.r.pn h t)
      (fun h => hi.r.pw h t) (fun _ h => by rw [hp] at h; cases h)
    rw [upd_eq_self] at h1 h2
    exact ⟨h1, h2⟩

theorem Inv.ld {s s' : St n} (hi : Inv N H s) {t : Fin n} {i : Nat} {b : Bool} {j : Job} (hp : s.pc t = .ld j)
    (hs : run k fc s t i b = some s') : Inv N H s' := by
  simp only [run, hp] at hs
  have hj : ¬ N → j ≠ .r := fun h e => by have := hi.r.pw h t; rw [hp, e] at this; cases this
  split at hs
  · next hm =>
    have hl : (s.pc t).lh = true := by rw [hp]; rfl
    obtain rfl : i = s.mem.top (.rs (s.co t)) := Nat.le_antisymm hm.2 (Nat.le_trans (hi.c.r3 t hl) hm.1)
    split at hs <;> simp only [Option.some.injEq] at hs <;> subst hs
    · have h1 := hi.c.go (t := t) (q := (s.th t).load s.mem (.rs (s.co t)) (s.mem.top (.rs (s.co t)))) (p := .gl j) (c := s.co t) (sc := s.sc) (e := s.ent)
        (Th.load_cur_le _ _ _ _) (by rw [hp]; rfl) (by rw [hp]; rfl) nofun (fun _ => rfl)
      rw [upd_eq_self] at h1
      refine ⟨h1, hi.r.quiet (same_refl _) (fun y _ => Th.load_cur_le _ _ _ _ _) hi.r.ef (by rw [hp]; simp) (fun _ => rfl) (fun h => ?_) nofun⟩
      have := hj h
      cases j <;> simp_all
    · next hv =>
      refine ⟨hi.c.take (Th.load_cur_le _ _ _ _) (by rw [hp]; rfl) hv rfl,
        hi.r.quiet (same_refl _) (fun y _ => Th.load_cur_le _ _ _ _ _) (fun _ => nofun) (by rw [hp]; simp) (fun _ => rfl) (fun h => ?_) nofun⟩
      have := hj h
      cases j <;> simp_all
  · cases hs

theorem Inv.gl {s s' : St n} (hi : Inv N H s) (hf : Ok N H k fc) {t : Fin n} {i : Nat} {b : Bool} {j : Job} (hp : s.pc t = .gl j)
    (hs : run k fc s t i b = some s') : Inv N H s' := by
  simp only [run, hp, hf.lock, opt, if_true] at hs
  have hm := Put.rmw s.mem (s.th t) .glob 1
  have hc := fun y (h : y ≠ Loc.glob) => Th.rmw_cur_le (s.th t) s.mem _ h
  have hw : ∀ x, vw s.mem .glob (.usr x) ≤ upd (join (s.th t).rel (s.mem.msg .glob (s.mem.top .glob)).view) .glob (s.mem.top .glob + 1) (.usr x) := fun x => by
    rw [upd_ne _ _ (by simp)]; exact le_join_right _ _ _
  have hj : ¬ N → j ≠ .r := fun h e => by have := hi.r.pw h t; rw [hp, e] at this; cases this
  split at hs <;> simp only [Option.some.injEq] at hs <;> subst hs
  · next h0 =>
    have hc' := fun y (h : y ≠ Loc.glob) => Nat.le_trans (hc y h) (le_join_left _ ((s.th t).rmw s.mem .glob).acq y)
    have ht := hi.c.g1 h0
    refine ⟨hi.c.fasG hm hc' (by rw [hp]; simp) ⟨rfl, rfl⟩ (.inr ⟨rfl, rfl, rfl, ht, fun y _ => fas_view _ _ _ _, ?_⟩),
      hi.r.fasOk hi.c hm hc' hw ht (by rw [hp]; simp) fun h => ?_⟩
    · exact Nat.le_trans (Nat.le_of_eq (rmw_at (s.th t) s.mem .glob).symm) (le_join_left _ _ _)
    · have := hj h
      cases j <;> simp_all
  · next h0 =>
    have ht : s.tok ≠ .free := fun h => h0 (hi.c.g2 h)
    have h1 := hi.c.fasG (p := s.pc t) (gi := s.gi) (k := s.tok) hm hc (by rw [hp]; simp) (by rw [hp]; simp) (.inl ⟨by rw [hp]; rfl, rfl, rfl, ht, Nat.le_of_eq (rmw_at _ _ _).symm⟩)
    rw [upd_eq_self] at h1
    exact ⟨h1, hi.r.fasFail hm hc hw (by rw [hp]; rfl)⟩

theorem Inv.heldW {s s' : St n} (hi : Inv N H s) (hf : Ok N H k fc) {t : Fin n} {i : Nat} {b : Bool} (hp : s.pc t = .held .w)
    (hs : run k fc s t i b = some s') : Inv N H s' := by
  simp only [run, hp] at hs
  have ht : s.tok = .thr t := hi.c.t1 t (by rw [hp]; rfl)
  have hK := hi.c.k1 t ht
  split at hs <;> simp only [Option.some.injEq] at hs <;> subst hs
  · have h1 := hi.c.go (t := t) (q := (s.th t).fence s.sc) (p := .wChk) (c := s.co t) (sc := (s.th t).fenceSc s.sc) (e := s.ent) (fence_cur _ _)
      (by rw [hp]; rfl) (by rw [hp]; rfl) nofun (fun _ => rfl)
    have h2 := hi.r.go (t := t) (q := (s.th t).fence s.sc) (p := .wChk) (c := s.co t) (sc := (s.th t).fenceSc s.sc) (e := s.ent) (k := s.tok) (same_refl _)
      (fun y _ => fence_cur _ _ y) (fence_sc _ _) (by rw [hp]; rfl) (fun _ => rfl) (fun _ => rfl) hi.r.ef id .inl nofun nofun (fun _ h => by rcases h with h | h <;> cases h)
      (fun _ _ => .inr ⟨Nat.le_trans hK.2.1 (fence_cur _ _ _), fence_sc _ _ _⟩) nofun nofun
    rw [upd_eq_self] at h1 h2
    exact ⟨h1, h2⟩
  · next hw =>
    have hH : ¬ H := fun h => hw (hf.wfull h)
    have h1 := hi.c.go (t := t) (q := s.th t) (p := .wChk) (c := s.co t) (sc := s.sc) (e := s.ent) (fun _ => Nat.le_refl _)
      (by rw [hp]; rfl) (by rw [hp]; rfl) nofun (fun _ => rfl)
    have h2 := hi.r.go (t := t) (q := s.th t) (p := .wChk) (c := s.co t) (sc := s.sc) (e := s.ent) (k := s.tok) (same_refl _)
      (fun y _ => Nat.le_refl _) (fun _ => Nat.le_refl _) (by rw [hp]; rfl) (fun _ => rfl) (fun _ => rfl) hi.r.ef id .inl nofun nofun (fun h => absurd h hH)
      (fun h => absurd h hH) nofun nofun
    rw [upd_eq_self, upd_eq_self] at h1 h2
    exact ⟨h1, h2⟩

theorem Inv.heldR {s s' : St n} (hi : Inv N H s) {t : Fin n} {i : Nat} {b : Bool} (hp : s.pc t = .held .r)
    (hs : run k fc s t i b = some s') : Inv N H s' := by
  simp only [run, hp, Option.some.injEq] at hs
  subst hs
  have hm := Put.rmw s.mem (s.th t) .rc (s.mem.last .rc + 1)
  have hc := fun y (h : y ≠ Loc.rc) => Th.rmw_cur_le (s.th t) s.mem _ h
  have ht : s.tok = .thr t := hi.c.t1 t (by rw [hp]; rfl)
  have hK := hi.c.k1 t ht
  have hN : ¬ ¬ N := fun h => by have := hi.r.pw h t; rw [hp] at this; cases this
  refine ⟨hi.c.putX (p := .uSel .r) hm (.inl rfl) hc (rmw_at _ _ _) (by rw [hp]; simp) nofun (.inr ⟨by rw [hp]; rfl, .inl ⟨rfl, rfl⟩⟩),
    hi.r.putC hm hc (by rw [hp]; simp) ⟨rfl, by rw [hp]; rfl, rfl, by simp⟩ (fun _ => rfl)
    ⟨Nat.le_succ_of_le hi.r.lt, Nat.le_refl _, fun _ _ => rfl⟩ (fun _ => rfl) (fun h => absurd h hN)
    (fun _ => ⟨fun _ x => Nat.le_trans (hK.1 x) (hc _ (by simp)), fun u hu => ?_⟩)⟩
  have := hi.c.t1 u (by rw [hu]; rfl)
  rw [ht] at this
  obtain rfl := Tok.thr.inj this
  rw [hp] at hu
  cases hu

theorem Inv.wChk {s s' : St n} (hi : Inv N H s) (hf : Ok N H k fc) {t : Fin n} {i : Nat} {b : Bool} (hp : s.pc t = .wChk)
    (hs : run k fc s t i b = some s') : Inv N H s' := by
  simp only [run, hp] at hs
  have ht : s.tok = .thr t := hi.c.t1 t (by rw [hp]; rfl)
  have hK := hi.c.k1 t ht
  have hwk : (s.pc t).wk = true := by rw [hp]; rfl
  split at hs
  · next hm =>
    split at hs <;> simp only [Option.some.injEq] at hs <;> subst hs
    · next hv =>
      have hcn : ∀ u, (s.pc u).cn = true → ¬ s.ri u ≤ (s.th t).cur .rc := fun u hu h => (hi.r.vj u hu).2 i (Nat.le_trans h hm.1) hm.2 hv
      have hnr : H → ∀ u, s.pc u ≠ .reading := fun h u hu => hcn u (by rw [hu]; rfl) (hi.r.s3 h t u hwk hu)
      have h1 := hi.c.go (t := t) (q := (s.th t).load s.mem .rc i) (p := .writing) (c := s.co t) (sc := s.sc) (e := true) (Th.load_cur_le _ _ _ _)
        (by rw [hp]; rfl) (by rw [hp]; rfl) nofun (fun _ => rfl)
      have h2 := hi.r.go (t := t) (q := (s.th t).load s.mem .rc i) (p := .writing) (c := s.co t) (sc := s.sc) (e := true) (k := s.tok) (same_refl _)
        (fun y _ => Th.load_cur_le _ _ _ _ _) (fun _ => Nat.le_refl _) (by rw [hp]; rfl) (fun _ => rfl) (fun _ => rfl) hi.r.ef (fun _ => rfl)
        (fun _ => .inr ⟨by rw [ht]; nofun, fun h => ⟨hi.r.s2 h t hwk, rfl, by simp, fun u _ hu =>
          (hi.r.s4 h t u hwk hu).resolve_right (hcn u (PC.chk_cn hu)), hnr h⟩⟩) nofun
        (fun _ => .inr ⟨rfl, fun h u => ?_⟩) (fun _ h => by rcases h with h | h <;> cases h) (fun _ _ => .inl hwk) nofun nofun
      · rw [upd_eq_self] at h1 h2
        exact ⟨h1, h2⟩
      · cases hu : (s.pc u).rdg
        · rfl
        · by_cases hN : N
          · exact absurd (Nat.le_trans (hi.r.nn hN u (PC.rdg_cn hu)) hK.2.2) (hcn u (PC.rdg_cn hu))
          · have h1 := hi.r.pw hN u
            have h2 : s.pc u ≠ .reading := hnr (h.resolve_left hN) u
            revert hu h1 h2
            cases s.pc u <;> simp <;> rename_i j <;> cases j <;> simp
    · next hv =>
      refine hi.plain' (Th.load_cur_le _ _ _ _) ?_ (fun _ => by split <;> rfl) (fun _ => by split <;> rfl)
      rw [hp]
      split <;> simp
  · cases hs

theorem Inv.uSel {s s' : St n} (hi : Inv N H s) (hf : Ok N H k fc) {t : Fin n} {i : Nat} {b : Bool} {j : Job} (hp : s.pc t = .uSel j)
    (hs : run k fc s t i b = some s') : Inv N H s' := by
  simp only [run, hp, hf.gunlock, opt, if_true] at hs
  have ht : s.tok = .thr t := hi.c.t1 t (by rw [hp]; rfl)
  have hj : ¬ N → j ≠ .r := fun h e => by have := hi.r.pw h t; rw [hp, e] at this; cases this
  have hj' : ∀ P : PC, (P = .uLoc j ∨ P = .uRs j) → ¬ N → P.jr = false := fun P hP h => by
    have := hj h
    rcases hP with rfl | rfl <;> cases j <;> simp_all
  split at hs <;> simp only [Option.some.injEq] at hs <;> subst hs
  · have hm := Put.store s.mem (s.th t) (.rs (s.co t)) 1
    have hc := fun y (h : y ≠ Loc.rs (s.co t)) => Th.store_cur_le (s.th t) s.mem _ h
    exact ⟨hi.c.putR hm hc (store_at _ _ _) (by rw [hp]; rfl) rfl (.inr ⟨by simp, rfl, ht⟩),
      hi.r.quiet (same_put hm (ne_rs _)) (fun y h => hc y (ne_rs _ y h)) (fun _ => nofun) (by rw [hp]; cases j <;> simp) (fun _ => rfl)
        (hj' _ (.inl rfl)) nofun⟩
  · have hm := Put.store s.mem (Th.fenceRel (s.th t)) .glob 0
    have hc := fun y (h : y ≠ Loc.glob) => Th.store_cur_le (Th.fenceRel (s.th t)) s.mem _ h
    have hw : ∀ y, y ≠ Loc.glob → (s.th t).cur y ≤ upd (Th.fenceRel (s.th t)).rel .glob (s.mem.top .glob + 1) y := fun y hy => by
      rw [upd_ne _ _ hy]; exact le_join_right _ _ _
    exact ⟨hi.c.unG hm hc (by rw [hp]; rfl) ⟨rfl, rfl, rfl⟩ hw (by rw [upd_same]; exact Nat.lt_succ_self _),
      hi.r.unG hi.c hm hc hw (by rw [hp]; rfl) (by rw [hp]; cases j <;> simp) (hj' _ (.inr rfl))⟩

theorem Inv.uRs {s s' : St n} (hi : Inv N H s) {t : Fin n} {i : Nat} {b : Bool} {j : Job} (hp : s.pc t = .uRs j)
    (hs : run k fc s t i b = some s') : Inv N H s' := by
  simp only [run, hp, Option.some.injEq] at hs
  subst hs
  have hj : ¬ N → (PC.uLoc j).jr = false := fun h => by have := hi.r.pw h t; rw [hp] at this; cases j <;> simp_all
  have hm := Put.store s.mem (s.th t) (.rs (s.co t)) 0
  have hc := fun y (h : y ≠ Loc.rs (s.co t)) => Th.store_cur_le (s.th t) s.mem _ h
  exact ⟨hi.c.putR hm hc (store_at _ _ _) (by rw [hp]; rfl) rfl (.inl ⟨rfl, rfl, fun h => by have := hi.c.t2 t h; rw [hp] at this; cases this⟩),
    hi.r.quiet (same_put hm (ne_rs _)) (fun y h => hc y (ne_rs _ y h)) hi.r.ef (by rw [hp]; cases j <;> simp) (fun _ => rfl) hj nofun⟩

theorem Inv.uLoc {s s' : St n} (hi : Inv N H s) (hf : Ok N H k fc) {t : Fin n} {i : Nat} {b : Bool} {j : Job} (hp : s.pc t = .uLoc j)
    (hs : run k fc s t i b = some s') : Inv N H s' := by
  simp only [run, hp, hf.lunlock, opt, if_true, Option.some.injEq] at hs
  subst hs
  have hj : ¬ N → j ≠ .r := fun h e => by have := hi.r.pw h t; rw [hp, e] at this; cases this
  have hm := Put.store s.mem (Th.fenceRel (s.th t)) (.loc (s.co t)) 0
  have hc := fun y (h : y ≠ Loc.loc (s.co t)) => Th.store_cur_le (Th.fenceRel (s.th t)) s.mem _ h
  have hw : ∀ y, y ≠ Loc.loc (s.co t) → (s.th t).cur y ≤ upd (Th.fenceRel (s.th t)).rel (.loc (s.co t)) (s.mem.top (.loc (s.co t)) + 1) y := fun y hy => by
    rw [upd_ne _ _ hy]; exact le_join_right _ _ _
  refine ⟨hi.c.unL hm (by rw [hp]; rfl) (by cases j <;> rfl) hw,
    hi.r.quiet (same_put hm (ne_loc _)) (fun y h => hc y (ne_loc _ y h)) hi.r.ef (by rw [hp]; cases j <;> simp) (fun _ => by cases j <;> rfl)
      (fun _ => by cases j <;> rfl) fun h e => ?_⟩
  have := hj (hf.h h)
  cases j <;> simp_all

theorem Inv.rInc {s s' : St n} (hi : Inv N H s) {t : Fin n} {i : Nat} {b : Bool} (hp : s.pc t = .rInc)
    (hs : run k fc s t i b = some s') : Inv N H s' := by
  simp only [run, hp, Option.some.injEq] at hs
  subst hs
  have hm := Put.rmw s.mem (s.th t) .rc (s.mem.last .rc + 1)
  have hc := fun y (h : y ≠ Loc.rc) => Th.rmw_cur_le (s.th t) s.mem _ h
  have hN : ¬ N := fun h => by have := hi.r.pn h t; rw [hp] at this; cases this
  exact ⟨hi.c.putX (p := .rFence) hm (.inl rfl) hc (rmw_at _ _ _) (by rw [hp]; simp) nofun (.inl ⟨rfl, rfl, hi.r.lt⟩),
    hi.r.putC hm hc (by rw [hp]; simp) ⟨rfl, by rw [hp]; rfl, rfl, by simp⟩ (fun _ => rfl)
    ⟨Nat.le_refl _, Nat.le_succ_of_le hi.r.lt, fun h => absurd h hN⟩ (fun h => absurd h hN) (fun _ => rfl) nofun⟩

theorem Inv.rDec {s s' : St n} (hi : Inv N H s) {t : Fin n} {i : Nat} {b : Bool} (hp : s.pc t = .rDec)
    (hs : run k fc s t i b = some s') : Inv N H s' := by
  simp only [run, hp, Option.some.injEq] at hs
  subst hs
  have hm := Put.rmw s.mem (s.th t) .rc (s.mem.last .rc - 1)
  have hc := fun y (h : y ≠ Loc.rc) => Th.rmw_cur_le (s.th t) s.mem _ h
  have hN : ¬ N := fun h => by have := hi.r.pn h t; rw [hp] at this; cases this
  have hl : 0 < s.mem.last .rc := by rw [hi.r.cn]; exact cnt_pos t (by rw [hp]; rfl)
  have h2 := hi.r.putC (p := .rInc) (r := s.ri t) (li := s.li) hm hc (by rw [hp]; simp; omega) ⟨rfl, by rw [hp]; rfl, rfl, by simp⟩ nofun
    ⟨Nat.le_refl _, Nat.le_succ_of_le hi.r.lt, fun _ h => by cases h⟩ (fun h => absurd h hN) (fun _ => rfl) nofun
  rw [upd_eq_self] at h2
  exact ⟨hi.c.putX (p := .rInc) hm (.inl rfl) hc (rmw_at _ _ _) (by rw [hp]; simp) nofun (.inl ⟨rfl, rfl, hi.r.lt⟩), h2⟩

/-- A reader about to issue its fence has seen its own increment. -/
def Seen (s : St n) : Prop := ∀ t, s.pc t = .rFence → s.ri t ≤ (s.th t).cur .rc

theorem Inv.rFence {s s' : St n} (hi : Inv N H s) (hq : Seen s) (hf : Ok N H k fc) {t : Fin n} {i : Nat} {b : Bool} (hp : s.pc t = .rFence)
    (hs : run k fc s t i b = some s') : Inv N H s' := by
  simp only [run, hp] at hs
  have hN : ¬ N := fun h => by have := hi.r.pn h t; rw [hp] at this; cases this
  split at hs <;> simp only [Option.some.injEq] at hs <;> subst hs
  · have h1 := hi.c.go (t := t) (q := (s.th t).fence s.sc) (p := .rLoc) (c := s.co t) (sc := (s.th t).fenceSc s.sc) (e := s.ent) (fence_cur _ _)
      (by rw [hp]; rfl) (by rw [hp]; rfl) nofun (fun _ => rfl)
    have h2 := hi.r.go (t := t) (q := (s.th t).fence s.sc) (p := .rLoc) (c := s.co t) (sc := (s.th t).fenceSc s.sc) (e := s.ent) (k := s.tok) (same_refl _)
      (fun y _ => fence_cur _ _ y) (fence_sc _ _) (by rw [hp]; rfl) (fun h => absurd h hN) (fun _ => rfl) hi.r.ef id .inl nofun nofun
      (fun _ _ => .inr (.inr (Nat.le_trans (hq t hp) (fence_cur _ _ _))))
      nofun (fun h _ => .inr ⟨Nat.le_trans (hi.r.cs h) (fence_sc _ _ _), fun u hu => Nat.le_trans (hi.r.s2 h u hu) (fence_sc _ _ _),
        fun he => Nat.le_trans (hi.r.e1 h he) (fence_sc _ _ _)⟩) nofun
    rw [upd_eq_self] at h1 h2
    exact ⟨h1, h2⟩
  · next hw =>
    have hH : ¬ H := fun h => hw (hf.rfull h)
    have h1 := hi.c.go (t := t) (q := s.th t) (p := .rLoc) (c := s.co t) (sc := s.sc) (e := s.ent) (fun _ => Nat.le_refl _)
      (by rw [hp]; rfl) (by rw [hp]; rfl) nofun (fun _ => rfl)
    have h2 := hi.r.go (t := t) (q := s.th t) (p := .rLoc) (c := s.co t) (sc := s.sc) (e := s.ent) (k := s.tok) (same_refl _)
      (fun y _ => Nat.le_refl _) (fun _ => Nat.le_refl _) (by rw [hp]; rfl) (fun h => absurd h hN) (fun _ => rfl) hi.r.ef id .inl nofun nofun (fun h => absurd h hH)
      nofun (fun h => absurd h hH) nofun
    rw [upd_eq_self, upd_eq_self] at h1 h2
    exact ⟨h1, h2⟩

theorem Inv.rLoc {s s' : St n} (hi : Inv N H s) {t : Fin n} {i : Nat} {b : Bool} (hp : s.pc t = .rLoc)
    (hs : run k fc s t i b = some s') : Inv N H s' := by
  simp only [run, hp] at hs
  have hN : ¬ N := fun h => by have := hi.r.pn h t; rw [hp] at this; cases this
  split at hs <;> simp only [Option.some.injEq, reduceCtorEq] at hs
  subst hs
  refine hi.plain' (fun y => Nat.le_trans (Th.load_cur_le _ _ _ _ _) (opt_cur _ _ _)) ?_ (fun h => absurd h hN) (fun _ => ?_)
  · rw [hp]; split <;> [skip; split] <;> simp
  · split <;> [skip; split] <;> rfl

theorem Inv.rGlob {s s' : St n} (hi : Inv N H s) (hf : Ok N H k fc) {t : Fin n} {i : Nat} {b : Bool} (hp : s.pc t = .rGlob)
    (hs : run k fc s t i b = some s') : Inv N H s' := by
  simp only [run, hp] at hs
  have hN : ¬ N := fun h => by have := hi.r.pn h t; rw [hp] at this; cases this
  have hk : (s.pc t).chk = true := by rw [hp]; rfl
  split at hs
  · next hm =>
    split at hs <;> simp only [Option.some.injEq] at hs <;> subst hs
    · next hv =>
      have hc : ∀ y, (s.th t).cur y ≤ (opt (fc.racq && decide (k = .wp)) Th.fenceLoad (opt fc.lkd Th.fenceAcq ((s.th t).load s.mem .glob i))).cur y := fun y =>
        Nat.le_trans (Th.load_cur_le _ _ _ _ _) (Nat.le_trans (opt_cur _ _ _) (opt_cur _ _ _))
      have h1 := hi.c.go (t := t) (p := .reading) (c := s.co t) (sc := s.sc) (e := s.ent) hc (by rw [hp]; rfl) (by rw [hp]; rfl) nofun (fun _ => rfl)
      have hng : s.tok ≠ .free → ¬ s.gi ≤ (s.th t).cur .glob := fun h h' => hi.c.g4 h i (Nat.le_trans h' hm.1) hm.2 hv
      have hne : H → s.ent = false := fun h => by
        cases e : s.ent
        · rfl
        · exact absurd (hi.r.e2 h e t hk) (hng (hi.r.ef e))
      have h2 := hi.r.go (t := t) (p := .reading) (c := s.co t) (sc := s.sc) (e := s.ent) (k := s.tok) (same_refl _)
        (fun y _ => hc y) (fun _ => Nat.le_refl _) (by rw [hp]; rfl) (fun _ => rfl) (fun _ => rfl) hi.r.ef id .inl
        (fun _ => .inr fun h => ⟨fun x => ?_, fun u hu => ?_⟩) nofun (fun _ _ => .inl hk) nofun nofun
        (fun h _ => .inr ⟨fun u hu => (hi.r.s4 h u t hu hk).resolve_left (hng (by rw [hi.c.t1 u (PC.tk_of_wk hu)]; nofun)), hne h⟩)
      · rw [upd_eq_self] at h1 h2
        exact ⟨h1, h2⟩
      · have h := h.resolve_left hN
        have h1 := Nat.le_trans (hi.r.ck h t hk) hm.1
        have h2 : s.lu ≤ i := Nat.le_of_not_lt fun h => hi.r.gv i h1 h hv
        refine Nat.le_trans (hi.r.qu (hne h) x) (Nat.le_trans (hi.r.gw i x h2 hm.2) (Nat.le_trans ?_ (opt_cur _ _ _)))
        rw [hf.lkd h]
        exact Nat.le_trans (Th.load_view_le (s.th t) s.mem .glob i _) (le_join_right _ _ _)
      · have := hi.r.we u hu
        rw [hne (h.resolve_left hN)] at this
        cases this
    · refine hi.plain' (fun y => Nat.le_trans (Th.load_cur_le _ _ _ _ _) (opt_cur _ _ _)) ?_ (fun h => absurd h hN) (fun _ => by split <;> rfl)
      rw [hp]; split <;> simp
  · cases hs

theorem Seen.upd {s : St n} (h : Seen s) {m : Mem Loc Nat} {sc : View Loc} {t : Fin n} {q : Th Loc} {p : PC} {co : Fin n → Nat} {tok : Tok n} {gi r li : Nat}
    {e : Bool} {lw lu : Nat} {base : Nat → Nat} (hr : p = .rFence → r ≤ q.cur .rc) :
    Seen { mem := m, sc := sc, th := Verif.upd s.th t q, pc := Verif.upd s.pc t p, co := co, tok := tok, gi := gi, ri := Verif.upd s.ri t r, li := li, ent := e
           lw := lw, lu := lu, base := base } := by
  intro u
  by_cases e : u = t
  · subst e; simpa using hr
  · simpa [upd_ne _ _ e] using h u

theorem Seen.other {s s' : St n} (h : Seen s) (t : Fin n) (hp : s'.pc t ≠ .rFence) (ho : ∀ u, u ≠ t → s'.pc u = s.pc u ∧ s'.th u = s.th u ∧ s'.ri u = s.ri u) :
    Seen s' := by
  intro u hu
  by_cases e : u = t
  · subst e; exact absurd hu hp
  · obtain ⟨h1, h2, h3⟩ := ho u e
    rw [h2, h3]; exact h u (h1 ▸ hu)

/-- What `seen_step` does after case distinction. -/
local macro "seen" t:term "," hi:term "," hs:ident : tactic =>
  `(tactic| (repeat' split at $hs:ident) <;> cases $hs:ident <;> refine Seen.other $hi $t ?_ (fun u hu => ?_) <;> simp_all [upd_apply] <;> (repeat' split) <;> simp_all)

theorem seen_step {s s' : St n} (hi : Seen s) {a : Act n} (hs : step k fc s a = some s') : Seen s' := by
  cases a <;> simp only [step] at hs
  case run t i b =>
    simp only [run] at hs
    cases hp : s.pc t <;> simp only [hp, reduceCtorEq] at hs
    case rInc =>
      simp only [Option.some.injEq] at hs
      subst hs
      exact hi.upd fun _ => Nat.le_of_eq (rmw_at _ _ _).symm
    case held j => cases j <;> simp only [reduceCtorEq] at hs <;> seen t, hi, hs
    all_goals seen t, hi, hs
  case wlock t _ => seen t, hi, hs
  case rlock t _ => seen t, hi, hs
  case wunlock t => seen t, hi, hs
  case runlock t => seen t, hi, hs
  case read t _ _ =>
    split at hs <;> cases hs
    next hp => refine hi.other t ?_ fun u hu => ?_ <;> rcases hp.1 with h | h <;> simp_all [upd_apply]
  case write t _ _ => seen t, hi, hs

theorem inv_step {s s' : St n} (hi : Inv N H s) (hq : Seen s) (hf : Ok N H k fc) {a : Act n} (hs : step k fc s a = some s') : Inv N H s' := by
  cases a
  case wlock => exact hi.call (r := false) hf hs
  case rlock => exact hi.call (r := true) hf hs
  case wunlock => exact hi.wunlock hs
  case runlock => exact hi.runlock hs
  case read => exact hi.read hs
  case write => exact hi.write hs
  case run t i b =>
    cases hp : s.pc t
    case ll => exact hi.ll hf hp hs
    case ld => exact hi.ld hp hs
    case gl => exact hi.gl hf hp hs
    case held j =>
      cases j
      · exact hi.heldW hf hp hs
      · simp [step, run, hp] at hs
      · exact hi.heldR hp hs
    case wChk => exact hi.wChk hf hp hs
    case uSel => exact hi.uSel hf hp hs
    case uRs => exact hi.uRs hp hs
    case uLoc => exact hi.uLoc hf hp hs
    case rInc => exact hi.rInc hp hs
    case rFence => exact hi.rFence hq hf hp hs
    case rLoc => exact hi.rLoc hp hs
    case rGlob => exact hi.rGlob hf hp hs
    case rDec => exact hi.rDec hp hs
    all_goals simp [step, run, hp] at hs

theorem inv_init : Inv N H (initSt n) := by
  constructor
  · constructor <;> simp [initSt, Mem.init, Th.init, Mem.last, K, vw]
  · constructor <;> simp [initSt, Mem.init, Th.init, Mem.last, cnt]

theorem inv_reach (hf : Ok N H k fc) {s : St n} (h : (sys k fc n).Reach s) : Inv N H s :=
  (h.invariant (I := fun s => Inv N H s ∧ Seen s) (by rintro s rfl; exact ⟨inv_init, fun _ h => by cases h⟩)
    fun _ _ _ hi hs => ⟨inv_step hi.1 hi.2 hf hs, seen_step hi.2 hs⟩).1

theorem ok_real (k : Kind) : Ok (k = .neutral) False k real := ⟨rfl, rfl, rfl, Iff.rfl, nofun, nofun, nofun, nofun⟩
theorem ok_fixed (k : Kind) : Ok (k = .neutral) (k ≠ .neutral) k fixed := ⟨rfl, rfl, rfl, Iff.rfl, id, fun _ => rfl, fun _ => rfl, fun _ => rfl⟩

/-! ## Theorems -/

theorem tok_of_holds {s : St n} (hi : Inv N H s) {t : Fin n} (h : s.holds t) : s.tok = .thr t := by
  refine hi.c.t1 t ?_
  rcases h with ⟨j, h⟩ | h | h <;> rw [h] <;> rfl

/-- C83: one thread at a time holds the cohort lock, whatever the cohorts and however often the global lock is passed on. -/
theorem cohort_mutex {s : St n} (h : (sys k real n).Reach s) : MutEx s.holds := fun t u ht hu => by
  have hi := inv_reach (ok_real k) h
  have := tok_of_holds hi ht
  rw [tok_of_holds hi hu] at this
  exact (Tok.thr.inj this).symm

theorem last_of_writes (hf : Ok N H k fc) {s s' : St n} (h : (sys k fc n).Reach s) {t : Fin n} {x i : Nat} (ht : s.writes t)
    (hs : (sys k fc n).step s (.read t x i) = some s') : (s.mem.msg (.usr x) i).val = s.mem.last (.usr x) := by
  have hi := inv_reach hf h
  simp only [sys, step] at hs
  split at hs
  · next hp =>
    have := (hi.c.k1 t (tok_of_holds hi (.inr (.inr ht)))).1 x
    rw [show i = s.mem.top (.usr x) from Nat.le_antisymm hp.2.2 (Nat.le_trans this hp.2.1)]; rfl
  · cases hs

/-- C83: a thread that writes under the lock loads the newest value of any data word. -/
theorem wreads_last {s s' : St n} (h : (sys k real n).Reach s) {t : Fin n} {x i : Nat} (ht : s.writes t)
    (hs : (sys k real n).step s (.read t x i) = some s') : (s.mem.msg (.usr x) i).val = s.mem.last (.usr x) :=
  last_of_writes (ok_real k) h ht hs

theorem rw_of (hf : Ok N H k fc) (hx : N ∨ H) {s : St n} (h : (sys k fc n).Reach s) : RwEx s.reads s.writes := by
  have hi := inv_reach hf h
  refine ⟨fun t u ht hu => ?_, fun t u ht hu => ?_⟩
  · have := tok_of_holds hi (.inr (.inr ht))
    rw [tok_of_holds hi (.inr (.inr hu))] at this
    exact (Tok.thr.inj this).symm
  · have := hi.r.ex hx t u ht
    rw [show s.pc u = .reading from hu] at this
    cases this

theorem last_of (hf : Ok N H k fc) (hx : N ∨ H) {s s' : St n} (h : (sys k fc n).Reach s) {t : Fin n} {x i : Nat}
    (hs : (sys k fc n).step s (.read t x i) = some s') : (s.mem.msg (.usr x) i).val = s.mem.last (.usr x) := by
  have hi := inv_reach hf h
  have hs' := hs
  simp only [sys, step] at hs
  split at hs
  · next hp =>
    rcases hp.1 with h1 | h1
    · rw [show i = s.mem.top (.usr x) from Nat.le_antisymm hp.2.2 (Nat.le_trans (hi.r.rb hx t (by rw [h1]; rfl) x) hp.2.1)]; rfl
    · exact last_of_writes hf h h1 hs'
  · cases hs

/-- C84: NEUTRAL, a writer holds the lock alone. -/
theorem neutral_exclusion {s : St n} (h : (sys .neutral real n).Reach s) : RwEx s.reads s.writes := rw_of (ok_real _) (.inl rfl) h

/-- C84: NEUTRAL, a holder loads the newest value of any data word. -/
theorem neutral_reads_last {s s' : St n} (h : (sys .neutral real n).Reach s) {t : Fin n} {x i : Nat}
    (hs : (sys .neutral real n).step s (.read t x i) = some s') : (s.mem.msg (.usr x) i).val = s.mem.last (.usr x) :=
  last_of (ok_real _) (.inl rfl) h hs

theorem kind_or (k : Kind) : k = .neutral ∨ k ≠ .neutral := Decidable.em _

/-- C84: a writer holds the lock alone, of any kind, if `write_lock` has a full fence between CK_COHORT_LOCK and the load of `read_counter`.  The full statement
has `real` in place of `fixed`; it is false (`wp_breaks`, `rp_breaks`). -/
theorem rw_exclusion_partial {s : St n} (h : (sys k fixed n).Reach s) : RwEx s.reads s.writes := rw_of (ok_fixed k) (kind_or k) h

/-- C84: a holder loads the newest value of any data word, under the same condition. -/
theorem reads_last_partial {s s' : St n} (h : (sys k fixed n).Reach s) {t : Fin n} {x i : Nat}
    (hs : (sys k fixed n).step s (.read t x i) = some s') : (s.mem.msg (.usr x) i).val = s.mem.last (.usr x) :=
  last_of (ok_fixed k) (kind_or k) h hs

/-! ## The missing fence, and the others -/

/-- The run `as` is possible. -/
def can (k : Kind) (fc : Fences) (as : List (Act 2)) : Bool := ((sys k fc 2).run (initSt 2) as).isSome

/-- After the run `as` thread 0 reads and thread 1 writes. -/
def both (k : Kind) (fc : Fences) (as : List (Act 2)) : Bool := match (sys k fc 2).run (initSt 2) as with
  | some s => decide (s.pc 0 = .reading ∧ s.pc 1 = .writing)
  | none => false

/-- `write_lock` of thread `t` in cohort `c` up to the fence: it takes the global lock. -/
def take (t : Fin 2) (c : Nat) : List (Act 2) := [.wlock t c, .run t 0 false, .run t 0 false, .run t 0 false]

/-- Reader and writer announce themselves, then each looks for the other. -/
def dekker : List (Act 2) :=
  [.rlock 0 0, .run 0 0 false, .run 0 0 false] ++ take 1 0 ++ [.run 1 0 false, .run 0 0 false, .run 0 0 false, .run 1 0 false]

/-- The same, the writer is first. -/
def dekker' : List (Act 2) :=
  take 1 0 ++ [.run 1 0 false, .rlock 0 0, .run 0 0 false, .run 0 0 false, .run 0 0 false, .run 0 0 false, .run 1 0 false]

/-- Without a full fence a writer and a reader hold the lock at once. -/
theorem wp_breaks : both .wp real dekker = true := by decide +kernel
theorem rp_breaks : both .rp real dekker = true := by decide +kernel
theorem no_fence_rfull : both .wp { fixed with rfull := false } dekker' = true ∧ both .rp { fixed with rfull := false } dekker' = true := by decide +kernel

/-- With it these runs are impossible. -/
example : can .wp fixed dekker = false ∧ can .rp fixed dekker = false ∧ can .wp fixed dekker' = false ∧ can .rp fixed dekker' = false := by decide +kernel

/-- `rw_exclusion_partial` without the added fence does not hold. -/
theorem rw_exclusion_fails (hk : k ≠ .neutral) : ¬ ∀ s : St 2, (sys k real 2).Reach s → RwEx s.reads s.writes := by
  intro h
  have key : both k real dekker = true := by
    cases k
    · exact wp_breaks
    · exact rp_breaks
    · exact absurd rfl hk
  unfold both at key
  split at key
  · next s hs =>
    have hp := of_decide_eq_true key
    exact (h s (.of_run (.init rfl) hs)).2 1 0 hp.2 hp.1
  · cases key

/-- Thread 1 stores 5 and unlocks; the last argument: whether it passes the global lock on. -/
def wrote (b : Bool) : List (Act 2) :=
  take 1 0 ++ [.run 1 0 false, .run 1 0 false, .write 1 0 5, .wunlock 1, .run 1 0 b] ++ (if b then [] else [.run 1 0 false]) ++ [.run 1 0 false]

/-- Thread 0 then takes the write lock in the same cohort, in another one, or after the global lock was passed on. -/
def same : List (Act 2) := wrote false ++ [.wlock 0 0, .run 0 0 false, .run 0 1 false, .run 0 0 false, .run 0 0 false, .run 0 0 false]
def other : List (Act 2) := wrote false ++ take 0 1 ++ [.run 0 0 false, .run 0 0 false]
def passed : List (Act 2) := wrote true ++ [.wlock 0 0, .run 0 0 false, .run 0 1 false, .run 0 0 false, .run 0 0 false]
/-- Thread 0 takes the read lock. -/
def reader : List (Act 2) := wrote false ++ [.rlock 0 1, .run 0 0 false, .run 0 0 false, .run 0 0 false, .run 0 2 false]

theorem no_fence_lock : can .wp { real with lock := false } (same ++ [.read 0 0 0]) = true := by decide +kernel
theorem no_fence_gunlock : can .wp { real with gunlock := false } (other ++ [.read 0 0 0]) = true := by decide +kernel
theorem no_fence_lunlock : can .wp { real with lunlock := false } (passed ++ [.read 0 0 0]) = true := by decide +kernel
theorem no_fence_lkd : can .rp { fixed with lkd := false } (reader ++ [.read 0 0 0]) = true := by decide +kernel

/-- With the fences thread 0 loads 5. -/
example : (∀ as ∈ [same, other, passed, reader], can .wp real (as ++ [.read 0 0 0]) = false ∧ can .wp real (as ++ [.read 0 0 1]) = true) ∧
    (∀ as ∈ [same, other, passed, reader], can .rp fixed (as ++ [.read 0 0 0]) = false ∧ can .rp fixed (as ++ [.read 0 0 1]) = true) := by decide +kernel

/-- Without the fences of the local unlock a thread takes the global lock for passed on when it is not; both threads hold the cohort lock. -/
def stale : List (Act 2) :=
  wrote true ++ [.wlock 0 0, .run 0 0 false, .run 0 1 false, .run 0 0 false, .run 0 0 false, .wunlock 0, .run 0 0 false, .run 0 0 false, .run 0 0 false] ++
    take 0 1 ++ [.run 0 0 false, .run 0 0 false, .wlock 1 0, .run 1 0 false, .run 1 1 false, .run 1 0 false, .run 1 0 false]
theorem no_fence_lunlock_mutex : (match (sys .wp { real with lunlock := false } 2).run (initSt 2) stale with
    | some s => decide (s.pc 0 = .writing ∧ s.pc 1 = .writing) | none => false) = true := by decide +kernel
example : can .wp real stale = false := by decide +kernel

/-- NEUTRAL: thread 1 writes, thread 0 reads what it stored, thread 1 waits until the reader is gone. -/
example : can .neutral real (wrote false ++ [.rlock 0 1, .run 0 0 false, .run 0 0 false, .run 0 0 false, .run 0 0 false, .run 0 0 false, .run 0 0 false,
    .run 0 0 false, .read 0 0 1, .wlock 1 0, .run 1 0 false, .run 1 1 false, .run 1 0 false, .run 1 0 false, .run 1 1 false, .runlock 0, .run 1 2 false,
    .write 1 0 6]) = true := by decide +kernel

end Verif.Weak.Cohort
