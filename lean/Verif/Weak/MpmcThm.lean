import Verif.Weak.Mpmc
import Verif.Core.Tactic

/-!
# `ck_ring` with many producers or many consumers on relaxed memory: FIFO order, what is visible in dequeued objects (C86)
-/

namespace Verif.Weak.Mpmc

open Verif
open Fas (opt)

variable {n : Nat} {g : Cfg n} {fc : Fences}

/-- The object the thread is about to enqueue. -/
@[simp, grind] def PC.ev : PC → Option Nat
  | .eP v => some v
  | .eC v _ => some v
  | .eX v _ _ => some v
  | .eR v _ _ => some v
  | .eQ v => some v
  | _ => none

/-- The slot the thread has taken, and for what. -/
@[simp, grind] def PC.tk : PC → Option (Nat × Nat)
  | .eS v p => some (p, v)
  | .eW v p => some (p, v)
  | .eT v p => some (p, v)
  | _ => none

/-- The thread has stored its entry. -/
@[simp, grind] def PC.fd : PC → Bool
  | .eW _ _ => true
  | .eT _ _ => true
  | _ => false

/-- The thread is in a function for many producers and has no slot yet. -/
@[simp, grind] def PC.mp : PC → Bool
  | .eP _ => true
  | .eC _ _ => true
  | .eX _ _ _ => true
  | .eR _ _ _ => true
  | _ => false

/-- The thread is dequeueing. -/
@[simp, grind] def PC.dq : PC → Bool
  | .dC _ => true
  | .dP _ _ => true
  | .dS _ _ => true
  | .dX _ _ _ => true
  | _ => false

/-- `w` knows the entries below `p`. -/
def Kn (g : Cfg n) (s : St n) (w : View Loc) (p : Nat) : Prop :=
  (g.sp = none → p ≤ w .phead) ∧ ∀ j, s.mem.top .chead ≤ j → j < p → s.si j ≤ w (.slot (j % g.z)) ∧ s.mem.top (.dat (s.en j).2) ≤ w (.dat (s.en j).2)

/-- `w` knows that number `c` was enqueued. -/
def Kc (g : Cfg n) (w : View Loc) (c : Nat) : Prop := c ≤ w .ptail ∧ (g.sp = none → c ≤ w .phead)

theorem Kn.mono {s : St n} {w w' : View Loc} {p : Nat} (h : Kn g s w p) (hw : ∀ y, w y ≤ w' y) : Kn g s w' p :=
  ⟨fun e => Nat.le_trans (h.1 e) (hw _), fun j h1 h2 => ⟨Nat.le_trans (h.2 j h1 h2).1 (hw _), Nat.le_trans (h.2 j h1 h2).2 (hw _)⟩⟩

theorem Kc.mono {w w' : View Loc} {c : Nat} (h : Kc g w c) (hw : ∀ y, w y ≤ w' y) : Kc g w' c := ⟨Nat.le_trans h.1 (hw _), fun e => Nat.le_trans (h.2 e) (hw _)⟩

structure Inv (g : Cfg n) (s : St n) : Prop where
  vp : ∀ i, i ≤ s.mem.top .phead → (s.mem.msg .phead i).val = i
  vt : ∀ i, i ≤ s.mem.top .ptail → (s.mem.msg .ptail i).val = i
  vc : ∀ i, i ≤ s.mem.top .chead → (s.mem.msg .chead i).val = i
  np : g.sp = none → s.mem.top .phead = s.np
  ct : s.mem.top .chead ≤ s.mem.top .ptail
  tp : s.mem.top .ptail ≤ s.np
  rm : s.np ≤ s.mem.top .chead + g.mask
  sl : ∀ j, s.mem.top .chead ≤ j → j < s.mem.top .ptail → s.si j = s.mem.top (.slot (j % g.z)) ∧ s.mem.last (.slot (j % g.z)) = (s.en j).2
  kt : ∀ i, i ≤ s.mem.top .ptail → Kn g s (s.mem.msg .ptail i).view i
  kc : ∀ c, c ≤ s.mem.top .chead → Kc g (s.mem.msg .chead c).view c
  ow : ∀ j, s.mem.top .chead ≤ j → j < s.np → s.own (s.en j).2 = none
  ij : ∀ j j', s.mem.top .chead ≤ j → j < j' → j' < s.np → (s.en j).2 ≠ (s.en j').2
  oc : ∀ x t, s.own x = some t → s.mem.top (.dat x) ≤ (s.th t).cur (.dat x)
  ev : ∀ t v, (s.pc t).ev = some v → s.own v = some t
  tk : ∀ t p v, (s.pc t).tk = some (p, v) → s.mem.top .ptail ≤ p ∧ p < s.np ∧ s.en p = (t, v) ∧ s.mem.top (.dat v) ≤ (s.th t).cur (.dat v) ∧
    (g.sp = none → p + 1 ≤ (s.th t).cur .phead)
  fd : ∀ t p v, (s.pc t).tk = some (p, v) → (s.pc t).fd = true → s.si p = s.mem.top (.slot (p % g.z)) ∧ s.mem.last (.slot (p % g.z)) = v ∧
    s.si p ≤ (s.th t).cur (.slot (p % g.z))
  eT : ∀ t v p, s.pc t = .eT v p → s.mem.top .ptail = p ∧ Kn g s (join (s.th t).cur (s.th t).acq) p
  eX : ∀ t v p c, s.pc t = .eX v p c → c ≤ s.mem.top .chead ∧ c ≤ p ∧ p - c < g.mask
  eR : ∀ t v p c, s.pc t = .eR v p c → Kc g (join (s.th t).cur (s.th t).acq) c ∧ ¬ (c ≤ p ∧ p - c < g.mask)
  sp : ∀ t, g.sp = some t → s.np ≤ (s.th t).cur .chead + g.mask ∧ Kn g s (s.th t).cur (s.mem.top .ptail) ∧
    ((s.pc t).tk = none → s.np = s.mem.top .ptail) ∧ ∀ p v, (s.pc t).tk = some (p, v) → s.np = s.mem.top .ptail + 1 ∧ p = s.mem.top .ptail
  so : ∀ t, g.sp ≠ none → g.sp ≠ some t → (s.pc t).tk = none ∧ (s.pc t).ev = none
  mp : ∀ t, (s.pc t).mp = true → g.sp = none
  eQ : ∀ t v, s.pc t = .eQ v → g.sp = some t
  dC : ∀ t tr, s.pc t = .dC tr → g.sc = none
  dq : ∀ t, g.sc ≠ none → g.sc ≠ some t → (s.pc t).dq = false
  dP : ∀ t tr c, s.pc t = .dP tr c → c ≤ s.mem.top .chead ∧ Kc g (s.th t).cur c ∧ ∀ j, j < s.mem.top .chead → (s.de j).1 = t → j < c
  dS : ∀ t tr c, s.pc t = .dS tr c → c ≤ s.mem.top .chead ∧ Kc g (s.th t).cur (c + 1) ∧ (s.mem.top .chead = c → c < s.mem.top .ptail ∧
    s.si c ≤ (s.th t).cur (.slot (c % g.z)) ∧ s.mem.top (.dat (s.en c).2) ≤ (s.th t).cur (.dat (s.en c).2))
  dX : ∀ t tr c v, s.pc t = .dX tr c v → c ≤ s.mem.top .chead ∧ Kc g (s.th t).cur (c + 1) ∧ (s.mem.top .chead = c → c < s.mem.top .ptail ∧
    v = (s.en c).2 ∧ s.mem.top (.dat v) ≤ (s.th t).cur (.dat v))
  sc : ∀ t, g.sc = some t → Kc g (s.th t).cur (s.mem.top .chead) ∧ (∀ tr c, s.pc t = .dP tr c → c = s.mem.top .chead) ∧
    (∀ tr c, s.pc t = .dS tr c → c = s.mem.top .chead) ∧ ∀ tr c v, s.pc t = .dX tr c v → c = s.mem.top .chead
  le : ∀ j t, j < s.np → (s.en j).1 = t → (s.pc t).tk = some (j, (s.en j).2) ∨ j < s.mem.top .ptail ∧ j + 1 ≤ (s.th t).cur .ptail
  ld : ∀ j t, j < s.mem.top .chead → (s.de j).1 = t → j + 1 ≤ (s.th t).cur .chead
  ff : ∀ j, j < s.mem.top .chead → (s.de j).2 = (s.en j).2

theorem Kn.congr {s s' : St n} {w : View Loc} {p : Nat} (h : Kn g s w p) (h1 : s.mem.top .chead ≤ s'.mem.top .chead)
    (h2 : ∀ j, s'.mem.top .chead ≤ j → j < p → s'.si j = s.si j ∧ s'.en j = s.en j ∧ s'.mem.top (.dat (s.en j).2) = s.mem.top (.dat (s.en j).2)) : Kn g s' w p :=
  ⟨h.1, fun j hj hj' => by
    obtain ⟨a, b, c⟩ := h2 j hj hj'
    rw [a, b, c]
    exact h.2 j (by omega) hj'⟩

/-- A step of `t` that does not store. -/
theorem Inv.go {s : St n} (hi : Inv g s) {t : Fin n} {q : Th Loc} {p : PC} (hc : ∀ y, (s.th t).cur y ≤ q.cur y) (ha : ∀ y, (s.th t).acq y ≤ q.acq y)
    (h1 : p.ev = none ∨ p.ev = (s.pc t).ev ∨ ∃ v, p.ev = some v ∧ s.own v = some t) (h2 : p.tk = (s.pc t).tk) (h3 : p.fd = (s.pc t).fd)
    (h4 : ∀ v k, p = .eT v k → s.pc t = .eT v k ∨ s.mem.top .ptail = k ∧ Kn g s (join q.cur q.acq) k)
    (h5 : ∀ v k c, p = .eX v k c → c ≤ s.mem.top .chead ∧ c ≤ k ∧ k - c < g.mask)
    (h6 : ∀ v k c, p = .eR v k c → Kc g (join q.cur q.acq) c ∧ ¬ (c ≤ k ∧ k - c < g.mask))
    (h7 : p.ev ≠ none → g.sp = none ∨ g.sp = some t)
    (h8 : p.mp = true → g.sp = none) (h9 : ∀ v, p = .eQ v → g.sp = some t) (h10 : ∀ tr, p = .dC tr → g.sc = none)
    (h11 : p.dq = true → g.sc = none ∨ g.sc = some t)
    (h12 : ∀ tr c, p = .dP tr c → c ≤ s.mem.top .chead ∧ Kc g q.cur c ∧ (∀ j, j < s.mem.top .chead → (s.de j).1 = t → j < c) ∧ (g.sc ≠ none → c = s.mem.top .chead))
    (h13 : ∀ tr c, p = .dS tr c → c ≤ s.mem.top .chead ∧ Kc g q.cur (c + 1) ∧ (s.mem.top .chead = c → c < s.mem.top .ptail ∧
      s.si c ≤ q.cur (.slot (c % g.z)) ∧ s.mem.top (.dat (s.en c).2) ≤ q.cur (.dat (s.en c).2)) ∧ (g.sc ≠ none → c = s.mem.top .chead))
    (h14 : ∀ tr c v, p = .dX tr c v → c ≤ s.mem.top .chead ∧ Kc g q.cur (c + 1) ∧ (s.mem.top .chead = c → c < s.mem.top .ptail ∧
      v = (s.en c).2 ∧ s.mem.top (.dat v) ≤ q.cur (.dat v)) ∧ (g.sc ≠ none → c = s.mem.top .chead)) :
    Inv g { s with th := upd s.th t q, pc := upd s.pc t p } := by
  obtain ⟨a1, a2, a3, a4, a5, a6, a7, a8, a9, a10, a11, a12, a13, a14, a15, a16, a17, a18, a19, a20, a21, a22, a23, a24, a25, a26, a27, a28, a29, a30, a31, a32⟩ := hi
  have hj : ∀ y, join (s.th t).cur (s.th t).acq y ≤ join q.cur q.acq y := fun y => by
    have := hc y
    have := ha y
    simp only [join_apply]
    omega
  have kn : ∀ w k, Kn g { s with th := upd s.th t q, pc := upd s.pc t p } w k ↔ Kn g s w k := fun w k => Iff.rfl
  have k1 : ∀ k, Kn g s (s.th t).cur k → Kn g s q.cur k := fun k h => h.mono hc
  have k2 : ∀ k, Kc g (s.th t).cur k → Kc g q.cur k := fun k h => h.mono hc
  have k3 : ∀ k, Kn g s (join (s.th t).cur (s.th t).acq) k → Kn g s (join q.cur q.acq) k := fun k h => h.mono hj
  have k4 : ∀ k, Kc g (join (s.th t).cur (s.th t).acq) k → Kc g (join q.cur q.acq) k := fun k h => h.mono hj
  constructor <;> simp only [kn]
  case vp => exact a1
  case vt => exact a2
  case vc => exact a3
  case np => exact a4
  case ct => exact a5
  case tp => exact a6
  case rm => exact a7
  case sl => exact a8
  case kt => exact a9
  case kc => exact a10
  case ow => exact a11
  case ij => exact a12
  case oc =>
    intro x u hu
    have b1 := a13 x u hu
    have b2 := hc (.dat x)
    fin b1 b2
  case ev => fin a14 h1
  case tk =>
    intro u k v hu
    have b1 := a15 u k v
    have b2 := hc (.dat v)
    have b3 := hc .phead
    fin b1 b2 b3 h2 hu
  case fd =>
    intro u k v hu hv
    have b1 := a16 u k v
    have b2 := hc (.slot (k % g.z))
    fin b1 b2 h2 h3 hu hv
  case eT =>
    intro u v k hu
    have b1 := a17 u v k
    have b2 := h4 v k
    have b3 := k3 k
    fin b1 b2 b3 hu
  case eX => fin a18 h5
  case eR =>
    intro u v k c hu
    have b1 := a19 u v k c
    have b2 := h6 v k c
    fin b1 b2 hu
  case sp =>
    intro u hu
    have b1 := a20 u hu
    have b2 := hc .chead
    have b3 := k1 (s.mem.top .ptail)
    fin b1 b2 b3 h2
  case so => fin a21 h2 h7
  case mp => fin a22 h8
  case eQ => fin a23 h9
  case dC => fin a24 h10
  case dq => fin a25 h11
  case dP =>
    intro u tr c hu
    have b1 := a26 u tr c
    have b2 := h12 tr c
    have b3 := k2 c
    fin b1 b2 b3 hu
  case dS =>
    intro u tr c hu
    have b1 := a27 u tr c
    have b2 := h13 tr c
    fin b1 b2 hu
  case dX =>
    intro u tr c v hu
    have b1 := a28 u tr c v
    have b2 := h14 tr c v
    fin b1 b2 hu
  case sc =>
    intro u hu
    have b1 := a29 u hu
    have b2 := k2 (s.mem.top .chead)
    fin b1 b2 h12 h13 h14 hu
  case le =>
    intro j u hj hu
    have b1 := a30 j u hj hu
    have b2 := hc .ptail
    fin b1 b2 h2
  case ld =>
    intro j u hj hu
    have b1 := a31 j u hj hu
    have b2 := hc .chead
    fin b1 b2
  case ff => exact a32

/-- The client stores to its object. -/
theorem Inv.dat {s : St n} (hi : Inv g s) {t : Fin n} {m' : Mem Loc Nat} {x v : Nat} {w : View Loc} {q : Th Loc} (hm : Put s.mem m' (.dat x) v w)
    (hp : s.pc t = .idle) (ho : s.own x = some t) (hc : ∀ y, y ≠ .dat x → (s.th t).cur y ≤ q.cur y) (hx : q.cur (.dat x) = s.mem.top (.dat x) + 1)
    (ha : ∀ y, (s.th t).acq y ≤ q.acq y) : Inv g { s with mem := m', th := upd s.th t q } := by
  obtain ⟨a1, a2, a3, a4, a5, a6, a7, a8, a9, a10, a11, a12, a13, a14, a15, a16, a17, a18, a19, a20, a21, a22, a23, a24, a25, a26, a27, a28, a29, a30, a31, a32⟩ := hi
  have e1 : m'.top .phead = s.mem.top .phead := hm.top_ne (by simp)
  have e2 : m'.top .ptail = s.mem.top .ptail := hm.top_ne (by simp)
  have e3 : m'.top .chead = s.mem.top .chead := hm.top_ne (by simp)
  have e4 : ∀ i, m'.top (.slot i) = s.mem.top (.slot i) := fun i => hm.top_ne (by simp)
  have e5 : ∀ i, m'.last (.slot i) = s.mem.last (.slot i) := fun i => by rw [hm.last, if_neg (by simp)]
  have e6 : ∀ y, y ≠ x → m'.top (.dat y) = s.mem.top (.dat y) := fun y h => hm.top_ne (by simp [h])
  have e7 : m'.top (.dat x) = s.mem.top (.dat x) + 1 := by rw [hm.top, if_pos rfl]
  have o1 := fun i => hm.old .phead i
  have o2 := fun i => hm.old .ptail i
  have o3 := fun i => hm.old .chead i
  have nx : ∀ j, s.mem.top .chead ≤ j → j < s.np → (s.en j).2 ≠ x := fun j h1 h2 e => by have := a11 j h1 h2; rw [e, ho] at this; cases this
  have kn : ∀ w k, k ≤ s.np → Kn g s w k → Kn g { s with mem := m', th := upd s.th t q } w k := fun w k hk h =>
    h.congr (Nat.le_of_eq e3.symm) fun j h1 h2 => ⟨rfl, rfl, e6 _ (nx j (by rw [← e3]; exact h1) (by omega))⟩
  have cs : ∀ i, (s.th t).cur (.slot i) ≤ q.cur (.slot i) := fun i => hc _ (by simp)
  have ct := hc .ptail (by simp)
  have ch := hc .chead (by simp)
  have cp := hc .phead (by simp)
  have kc : ∀ k, Kc g (s.th t).cur k → Kc g q.cur k := fun k h => ⟨Nat.le_trans h.1 ct, fun e => Nat.le_trans (h.2 e) cp⟩
  have k1 : ∀ k, k ≤ s.np → Kn g s (s.th t).cur k → Kn g { s with mem := m', th := upd s.th t q } q.cur k := fun k hk h => by
    refine kn _ k hk ⟨fun e => Nat.le_trans (h.1 e) cp, fun j h1 h2 => ⟨Nat.le_trans (h.2 j h1 h2).1 (cs _), Nat.le_trans (h.2 j h1 h2).2 (hc _ ?_)⟩⟩
    simp [nx j h1 (by omega)]
  constructor <;> simp only [e1, e2, e3, e4, e5]
  case vp => fin a1 o1
  case vt => fin a2 o2
  case vc => fin a3 o3
  case np => exact a4
  case ct => exact a5
  case tp => exact a6
  case rm => exact a7
  case sl => exact a8
  case kt => intro i h; rw [o2 i h]; exact kn _ i (by omega) (a9 i h)
  case kc => fin a10 o3
  case ow => exact a11
  case ij => exact a12
  case oc =>
    intro y u hu
    have b1 := a13 y u hu
    have b2 := hc (.dat y)
    have b3 := e6 y
    fin b1 b2 b3 e7 hx ho hu
  case ev => exact a14
  case tk =>
    intro u k v hu
    have b1 := a15 u k v hu
    have b2 : v ≠ x := fun e => by
      have := a11 k (by omega) b1.2.1
      rw [b1.2.2.1, e, ho] at this
      cases this
    have b3 := e6 v b2
    have b4 := hc (.dat v) (by simp [b2])
    fin b1 b3 b4 cp
  case fd =>
    intro u k v hu hv
    have b1 := a16 u k v
    fin b1 cs hu hv hp
  case eT =>
    intro u v k hu
    have b1 := a17 u v k hu
    have : u ≠ t := fun e => by rw [e, hp] at hu; cases hu
    rw [upd_ne _ _ this]
    exact ⟨b1.1, kn _ k (by omega) b1.2⟩
  case eX => exact a18
  case eR => fin a19 hp
  case sp =>
    intro u hu
    have b1 := a20 u hu
    have b2 := k1 (s.mem.top .ptail) a6
    have b3 := kn (s.th u).cur (s.mem.top .ptail) a6
    by_cases e : u = t
    · subst e
      rw [upd_same]
      exact ⟨by omega, b2 b1.2.1, b1.2.2⟩
    · rw [upd_ne _ _ e]
      exact ⟨b1.1, b3 b1.2.1, b1.2.2⟩
  case so => exact a21
  case mp => exact a22
  case eQ => exact a23
  case dC => exact a24
  case dq => exact a25
  case dP => fin a26 hp
  case dS =>
    intro u tr c hu
    have b1 := a27 u tr c hu
    have b2 := nx c
    have b3 := e6 (s.en c).2
    fin b1 b2 b3 hu hp a6
  case dX =>
    intro u tr c v hu
    have b1 := a28 u tr c v hu
    have b2 := nx c
    have b3 := e6 (s.en c).2
    fin b1 b2 b3 hu hp a6
  case sc => fin a29 hp kc
  case le =>
    intro j u hj hu
    have b1 := a30 j u hj hu
    fin b1 ct
  case ld =>
    intro j u hj hu
    have b1 := a31 j u hj hu
    fin b1 ch
  case ff => exact a32

/-- A producer takes the next slot. -/
theorem Inv.take {s : St n} (hi : Inv g s) {t : Fin n} {m' : Mem Loc Nat} {v : Nat} {w : View Loc} {q : Th Loc}
    (hm : g.sp = none ∧ Put s.mem m' .phead (s.np + 1) w ∨ g.sp = some t ∧ m' = s.mem)
    (ho : s.own v = some t) (ht : (s.pc t).tk = none) (hr : s.np + 1 ≤ s.mem.top .chead + g.mask) (hr' : g.sp = some t → s.np + 1 ≤ q.cur .chead + g.mask)
    (hc : ∀ y, y ≠ .phead → (s.th t).cur y ≤ q.cur y) (hx : g.sp = none → q.cur .phead = s.np + 1) :
    Inv g { s with mem := m', th := upd s.th t q, pc := upd s.pc t (.eS v s.np), own := upd s.own v none, np := s.np + 1, en := upd s.en s.np (t, v) } := by
  obtain ⟨a1, a2, a3, a4, a5, a6, a7, a8, a9, a10, a11, a12, a13, a14, a15, a16, a17, a18, a19, a20, a21, a22, a23, a24, a25, a26, a27, a28, a29, a30, a31, a32⟩ := hi
  have et : ∀ y, y ≠ .phead → m'.top y = s.mem.top y := fun y h => by
    rcases hm with ⟨_, h1⟩ | ⟨_, h1⟩
    · exact h1.top_ne h
    · rw [h1]
  have eo : ∀ y i, i ≤ s.mem.top y → m'.msg y i = s.mem.msg y i := fun y i h => by
    rcases hm with ⟨_, h1⟩ | ⟨_, h1⟩
    · exact h1.old y i h
    · rw [h1]
  have e2 : m'.top .ptail = s.mem.top .ptail := et _ (by simp)
  have e3 : m'.top .chead = s.mem.top .chead := et _ (by simp)
  have e4 : ∀ i, m'.top (.slot i) = s.mem.top (.slot i) := fun i => et _ (by simp)
  have e5 : ∀ i, m'.last (.slot i) = s.mem.last (.slot i) := fun i => by simp only [Mem.last]; rw [e4, eo _ _ (Nat.le_refl _)]
  have e6 : ∀ y, m'.top (.dat y) = s.mem.top (.dat y) := fun y => et _ (by simp)
  have o2 := fun i => eo .ptail i
  have o3 := fun i => eo .chead i
  have kn : ∀ w k, k ≤ s.np → Kn g s w k → Kn g { s with mem := m', th := upd s.th t q, pc := upd s.pc t (.eS v s.np), own := upd s.own v none, np := s.np + 1, en := upd s.en s.np (t, v) } w k := fun w k hk h =>
    h.congr (Nat.le_of_eq e3.symm) fun j h1 h2 => ⟨rfl, upd_ne _ _ (by omega), e6 _⟩
  have cs : ∀ i, (s.th t).cur (.slot i) ≤ q.cur (.slot i) := fun i => hc _ (by simp)
  have cd : ∀ i, (s.th t).cur (.dat i) ≤ q.cur (.dat i) := fun i => hc _ (by simp)
  have ct := hc .ptail (by simp)
  have ch := hc .chead (by simp)
  have cp : g.sp = none → (s.th t).cur .phead ≤ s.np → (s.th t).cur .phead ≤ q.cur .phead := fun h1 h2 => by rw [hx h1]; omega
  have kc : ∀ k, k ≤ s.np → Kc g (s.th t).cur k → Kc g q.cur k := fun k hk h => ⟨Nat.le_trans h.1 ct, fun e => by rw [hx e]; omega⟩
  have k1 : ∀ k, k ≤ s.np → Kn g s (s.th t).cur k → Kn g { s with mem := m', th := upd s.th t q, pc := upd s.pc t (.eS v s.np), own := upd s.own v none, np := s.np + 1, en := upd s.en s.np (t, v) } q.cur k := fun k hk h =>
    kn _ k hk ⟨fun e => by rw [hx e]; omega, fun j h1 h2 => ⟨Nat.le_trans (h.2 j h1 h2).1 (cs _), Nat.le_trans (h.2 j h1 h2).2 (cd _)⟩⟩
  constructor <;> simp only [e2, e3, e4, e5, e6]
  case vp =>
    rcases hm with ⟨h0, h1⟩ | ⟨_, h1⟩
    · intro i hi
      rw [h1.top, if_pos rfl] at hi
      by_cases e : i = s.mem.top .phead + 1
      · subst e; rw [h1.new, a4 h0]
      · rw [h1.old _ _ (by omega)]; exact a1 i (by omega)
    · rw [h1]; exact a1
  case vt => fin a2 o2
  case vc => fin a3 o3
  case np =>
    intro h0
    rcases hm with ⟨_, h1⟩ | ⟨h, _⟩
    · rw [h1.top, if_pos rfl, a4 h0]
    · rw [h0] at h; cases h
  case ct => exact a5
  case tp => omega
  case rm => exact hr
  case sl =>
    intro j h1 h2
    rw [upd_ne _ _ (by omega)]
    exact a8 j h1 h2
  case kt => intro i h; rw [o2 i h]; exact kn _ i (by omega) (a9 i h)
  case kc => fin a10 o3
  case ow => fin a11 ho
  case ij =>
    intro j j' h1 h2 h3
    have b1 := a12 j j' h1 h2
    have b2 := a11 j h1
    fin b1 b2 h2 h3 ho
  case oc =>
    intro y u hu
    have b1 := a13 y u
    have b2 := cd y
    fin b1 b2 hu
  case ev =>
    intro u y hu
    have b1 := a14 u y
    fin b1 hu ho
  case tk =>
    intro u k v' hu
    have b1 := a15 u k v'
    have b2 := a13 v t ho
    have b3 := cd v
    fin b1 b2 b3 hu a6 hx
  case fd =>
    intro u k v hu hv
    have b1 := a16 u k v
    fin b1 hu hv
  case eT =>
    intro u v' k hu
    by_cases e : u = t
    · subst e; rw [upd_same] at hu; cases hu
    · rw [upd_ne _ _ e] at hu ⊢
      have b1 := a17 u v' k hu
      exact ⟨b1.1, kn _ k (by omega) b1.2⟩
  case eX => fin a18
  case eR =>
    intro u v' k c hu
    have b1 := a19 u v' k c
    fin b1 hu
  case sp =>
    intro u hu
    have b1 := a20 u hu
    have b2 := k1 (s.mem.top .ptail) a6
    by_cases e : u = t
    · subst e
      rw [upd_same, upd_same]
      refine ⟨hr' hu, b2 b1.2.1, ?_⟩
      have := b1.2.2.1 ht
      simp [this]
    · exfalso
      rcases hm with ⟨h, _⟩ | ⟨h, _⟩
      · rw [h] at hu; cases hu
      · rw [h] at hu; exact e (Option.some.inj hu).symm
  case so =>
    intro u h1 h2
    have b1 := a21 u h1 h2
    have : u ≠ t := fun e => by
      subst e
      rcases hm with ⟨h, _⟩ | ⟨h, _⟩
      · exact h1 h
      · exact h2 h
    rw [upd_ne _ _ this]
    exact b1
  case mp => fin a22
  case eQ => fin a23
  case dC => fin a24
  case dq => fin a25
  case dP => fin a26
  case dS =>
    intro u tr c hu
    have b1 := a27 u tr c
    fin b1 hu a6
  case dX =>
    intro u tr c v hu
    have b1 := a28 u tr c v
    fin b1 hu a6
  case sc =>
    intro u hu
    have b1 := a29 u hu
    have b2 := kc (s.mem.top .chead) (by omega)
    fin b1 b2
  case le =>
    intro j u hj hu
    by_cases e : j = s.np
    · subst e
      simp only [upd_same] at hu ⊢
      subst hu
      rw [upd_same]
      exact .inl rfl
    · rw [upd_ne _ _ e] at hu ⊢
      have b1 := a30 j u (by omega) hu
      by_cases eu : u = t
      · subst eu
        rw [ht] at b1
        rw [upd_same, upd_same]
        right
        have := b1.resolve_left nofun
        omega
      · rw [upd_ne _ _ eu, upd_ne _ _ eu]
        exact b1
  case ld =>
    intro j u hj hu
    have b1 := a31 j u hj hu
    fin b1 ch
  case ff =>
    intro j hj
    rw [upd_ne _ _ (by omega)]
    exact a32 j hj

theorem mod_inj {a b z : Nat} (h1 : a < b + z) (h2 : b < a + z) (h : a % z = b % z) : a = b := by
  have key : ∀ a b : Nat, a ≤ b → b < a + z → a % z = b % z → a = b := fun a b h1 h2 h => by
    have h3 : (b - a) % z = 0 := Nat.sub_mod_eq_zero_of_mod_eq h.symm
    rw [Nat.mod_eq_of_lt (by omega)] at h3
    omega
  rcases Nat.le_total a b with h3 | h3
  · exact key a b h3 h2 h
  · exact (key b a h3 h1 h.symm).symm

theorem z_eq (g : Cfg n) : g.z = g.mask + 1 := (Nat.sub_add_cancel (Nat.one_le_two_pow)).symm

/-- No two threads have taken the same slot. -/
theorem Inv.tk_ne {s : St n} (hi : Inv g s) {t u : Fin n} {p k v v' : Nat} (h1 : (s.pc t).tk = some (p, v)) (h2 : (s.pc u).tk = some (k, v')) (h : u ≠ t) : k ≠ p := fun e => by
  have h3 := (hi.tk t p v h1).2.2.1
  have h4 := (hi.tk u k v' h2).2.2.1
  rw [e, h3] at h4
  exact h (Prod.mk.inj h4).1.symm

/-- Different entries in the ring are in different slots. -/
theorem Inv.slot_ne {s : St n} (hi : Inv g s) {j k : Nat} (h1 : s.mem.top .chead ≤ j) (h2 : j < s.np) (h3 : s.mem.top .chead ≤ k) (h4 : k < s.np) (h : j ≠ k) :
    j % g.z ≠ k % g.z := fun e => by
  have := hi.rm
  have hz := z_eq g
  exact h (mod_inj (by omega) (by omega) e)

/-- A producer stores its entry. -/
theorem Inv.slot {s : St n} (hi : Inv g s) {t : Fin n} {m' : Mem Loc Nat} {v k : Nat} {w : View Loc} {q : Th Loc} (hm : Put s.mem m' (.slot (k % g.z)) v w)
    (hp : s.pc t = .eS v k) (hc : ∀ y, y ≠ .slot (k % g.z) → (s.th t).cur y ≤ q.cur y) (hx : q.cur (.slot (k % g.z)) = s.mem.top (.slot (k % g.z)) + 1)
    (ha : ∀ y, (s.th t).acq y ≤ q.acq y) : Inv g { s with
      mem := m', th := upd s.th t q, pc := upd s.pc t (if g.sp = none then .eW v k else .eT v k), si := upd s.si k (s.mem.top (.slot (k % g.z)) + 1) } := by
  have hne := fun {u : Fin n} {k' v' : Nat} (h : (s.pc u).tk = some (k', v')) (e : u ≠ t) => hi.tk_ne (t := t) (p := k) (v := v) (by rw [hp]; rfl) h e
  have hsl := fun {j : Nat} h1 h2 h3 h4 h5 => hi.slot_ne (j := j) (k := k) h1 h2 h3 h4 h5
  obtain ⟨a1, a2, a3, a4, a5, a6, a7, a8, a9, a10, a11, a12, a13, a14, a15, a16, a17, a18, a19, a20, a21, a22, a23, a24, a25, a26, a27, a28, a29, a30, a31, a32⟩ := hi
  obtain ⟨t1, t2, t3, t4, t5⟩ := a15 t k v (by rw [hp]; rfl)
  have e1 : m'.top .phead = s.mem.top .phead := hm.top_ne (by simp)
  have e2 : m'.top .ptail = s.mem.top .ptail := hm.top_ne (by simp)
  have e3 : m'.top .chead = s.mem.top .chead := hm.top_ne (by simp)
  have e4 : ∀ i, i ≠ k % g.z → m'.top (.slot i) = s.mem.top (.slot i) := fun i h => hm.top_ne (by simp [h])
  have e5 : ∀ i, i ≠ k % g.z → m'.last (.slot i) = s.mem.last (.slot i) := fun i h => by rw [hm.last, if_neg (by simp [h])]
  have e6 : ∀ y, m'.top (.dat y) = s.mem.top (.dat y) := fun y => hm.top_ne (by simp)
  have e7 : m'.top (.slot (k % g.z)) = s.mem.top (.slot (k % g.z)) + 1 := by rw [hm.top, if_pos rfl]
  have e8 : m'.last (.slot (k % g.z)) = v := by rw [hm.last, if_pos rfl]
  have o1 := fun i => hm.old .phead i
  have o2 := fun i => hm.old .ptail i
  have o3 := fun i => hm.old .chead i
  have sn : ∀ j, s.mem.top .chead ≤ j → j < s.np → j ≠ k → j % g.z ≠ k % g.z := fun j h1 h2 h3 => hsl h1 h2 (by omega) t2 h3
  have cd : ∀ i, (s.th t).cur (.dat i) ≤ q.cur (.dat i) := fun i => hc _ (by simp)
  have ct := hc .ptail (by simp)
  have ch := hc .chead (by simp)
  have cp := hc .phead (by simp)
  have kn : ∀ w i, i ≤ k → Kn g s w i → Kn g { s with mem := m', th := upd s.th t q, pc := upd s.pc t (if g.sp = none then .eW v k else .eT v k), si := upd s.si k (s.mem.top (.slot (k % g.z)) + 1) } w i :=
    fun w i hk h => h.congr (Nat.le_of_eq e3.symm) fun j h1 h2 => ⟨upd_ne _ _ (by omega), rfl, e6 _⟩
  have kc : ∀ i, Kc g (s.th t).cur i → Kc g q.cur i := fun i h => ⟨Nat.le_trans h.1 ct, fun e => Nat.le_trans (h.2 e) cp⟩
  have k0 : ∀ i, i ≤ k → Kn g s (s.th t).cur i → Kn g s q.cur i := fun i hk h =>
    ⟨fun e => Nat.le_trans (h.1 e) cp, fun j h1 h2 => ⟨Nat.le_trans (h.2 j h1 h2).1 (hc _ (by have := sn j h1 (by omega) (by omega); simp [this])), Nat.le_trans (h.2 j h1 h2).2 (cd _)⟩⟩
  constructor <;> simp only [e1, e2, e3, e6]
  case vp => fin a1 o1
  case vt => fin a2 o2
  case vc => fin a3 o3
  case np => exact a4
  case ct => exact a5
  case tp => exact a6
  case rm => exact a7
  case sl =>
    intro j h1 h2
    have h3 := sn j h1 (by omega) (by omega)
    rw [upd_ne _ _ (by omega), e4 _ h3, e5 _ h3]
    exact a8 j h1 h2
  case kt => intro i h; rw [o2 i h]; exact kn _ i (by omega) (a9 i h)
  case kc => fin a10 o3
  case ow => exact a11
  case ij => exact a12
  case oc =>
    intro y u hu
    have b1 := a13 y u hu
    have b2 := cd y
    fin b1 b2
  case ev => fin a14
  case tk =>
    intro u i y hu
    have b1 := a15 u i y
    have b2 := cd y
    fin b1 b2 hu cp hp
  case fd =>
    intro u i y hu hv
    by_cases e : u = t
    · subst e
      rw [upd_same] at hu ⊢
      obtain ⟨rfl, rfl⟩ : k = i ∧ v = y := by split at hu <;> simpa using hu
      rw [upd_same]
      exact ⟨e7.symm, e8, Nat.le_of_eq hx.symm⟩
    · rw [upd_ne _ _ e] at hu hv ⊢
      have b1 := a16 u i y hu hv
      have b2 := hne hu e
      have b3 := a15 u i y hu
      have b4 := sn i (by omega) b3.2.1 b2
      rw [upd_ne _ _ b2, e4 _ b4, e5 _ b4]
      exact b1
  case eT =>
    intro u y i hu
    by_cases e : u = t
    · subst e
      rw [upd_same] at hu ⊢
      split at hu
      · cases hu
      · next hg =>
        obtain ⟨rfl, rfl⟩ := PC.eT.inj hu
        obtain ⟨r, hs⟩ := Option.ne_none_iff_exists'.1 hg
        have : r = u := Decidable.byContradiction fun h => by
          have := (a21 u hg (by rw [hs]; simp [h])).1
          rw [hp] at this
          cases this
        subst this
        have b1 := a20 r hs
        have b2 := b1.2.2.2 k v (by rw [hp]; rfl)
        have b3 : Kn g s (s.th r).cur k := b2.2 ▸ b1.2.1
        exact ⟨b2.2.symm, kn _ _ (Nat.le_refl _) ((k0 _ (Nat.le_refl _) b3).mono (le_join_left _ _))⟩
    · rw [upd_ne _ _ e] at hu ⊢
      have b1 := a17 u y i hu
      exact ⟨b1.1, kn _ i (by omega) b1.2⟩
  case eX => fin a18
  case eR =>
    intro u v' k c hu
    have b1 := a19 u v' k c
    fin b1 hu
  case sp =>
    intro u hu
    have b1 := a20 u hu
    have b2 := kn q.cur (s.mem.top .ptail) t1
    have b3 := kn (s.th u).cur (s.mem.top .ptail) t1
    by_cases e : u = t
    · subst e
      rw [upd_same, upd_same]
      have b4 := b1.2.2.2 k v (by rw [hp]; rfl)
      refine ⟨by omega, b2 (k0 _ t1 b1.2.1), ?_, ?_⟩
      · split <;> simp
      · intro i y h
        obtain ⟨rfl, rfl⟩ : k = i ∧ v = y := by split at h <;> simpa using h
        exact b4
    · rw [upd_ne _ _ e, upd_ne _ _ e]
      exact ⟨b1.1, b3 b1.2.1, b1.2.2⟩
  case so => fin a21 hp
  case mp => fin a22
  case eQ => fin a23
  case dC => fin a24
  case dq => fin a25
  case dP => fin a26
  case dS =>
    intro u tr c hu
    have b1 := a27 u tr c
    fin b1 hu t1
  case dX =>
    intro u tr c v hu
    have b1 := a28 u tr c v
    fin b1 hu
  case sc =>
    intro u hu
    have b1 := a29 u hu
    have b2 := kc (s.mem.top .chead)
    fin b1 b2
  case le =>
    intro j u hj hu
    have b1 := a30 j u hj hu
    fin b1 ct hp
  case ld =>
    intro j u hj hu
    have b1 := a31 j u hj hu
    fin b1 ch
  case ff => exact a32

/-- A producer publishes its entry. -/
theorem Inv.pub {s : St n} (hi : Inv g s) {t : Fin n} {m' : Mem Loc Nat} {v k : Nat} {w : View Loc} {q : Th Loc} (hm : Put s.mem m' .ptail (k + 1) w)
    (hp : s.pc t = .eT v k) (hw : ∀ y, y ≠ .ptail → join (s.th t).cur (s.th t).acq y ≤ w y) (hc : ∀ y, y ≠ .ptail → join (s.th t).cur (s.th t).acq y ≤ q.cur y)
    (hx : q.cur .ptail = s.mem.top .ptail + 1) : Inv g { s with mem := m', th := upd s.th t q, pc := upd s.pc t .idle } := by
  have hne := fun {u : Fin n} {k' v' : Nat} (h : (s.pc u).tk = some (k', v')) (e : u ≠ t) => hi.tk_ne (t := t) (p := k) (v := v) (by rw [hp]; rfl) h e
  obtain ⟨a1, a2, a3, a4, a5, a6, a7, a8, a9, a10, a11, a12, a13, a14, a15, a16, a17, a18, a19, a20, a21, a22, a23, a24, a25, a26, a27, a28, a29, a30, a31, a32⟩ := hi
  obtain ⟨t1, t2, t3, t4, t5⟩ := a15 t k v (by rw [hp]; rfl)
  obtain ⟨f1, f2, f3⟩ := a16 t k v (by rw [hp]; rfl) (by rw [hp]; rfl)
  obtain ⟨c1, c2⟩ := a17 t v k hp
  have e1 : m'.top .phead = s.mem.top .phead := hm.top_ne (by simp)
  have e2 : m'.top .ptail = k + 1 := by rw [hm.top, if_pos rfl, c1]
  have e3 : m'.top .chead = s.mem.top .chead := hm.top_ne (by simp)
  have e4 : ∀ i, m'.top (.slot i) = s.mem.top (.slot i) := fun i => hm.top_ne (by simp)
  have e5 : ∀ i, m'.last (.slot i) = s.mem.last (.slot i) := fun i => by rw [hm.last, if_neg (by simp)]
  have e6 : ∀ y, m'.top (.dat y) = s.mem.top (.dat y) := fun y => hm.top_ne (by simp)
  have o1 := fun i => hm.old .phead i
  have o2 := fun i => hm.old .ptail i
  have o3 := fun i => hm.old .chead i
  have nw := hm.new
  have hc' : ∀ y, y ≠ .ptail → (s.th t).cur y ≤ q.cur y := fun y h => Nat.le_trans (le_join_left _ _ _) (hc y h)
  have cs : ∀ i, (s.th t).cur (.slot i) ≤ q.cur (.slot i) := fun i => hc' _ (by simp)
  have cd : ∀ i, (s.th t).cur (.dat i) ≤ q.cur (.dat i) := fun i => hc' _ (by simp)
  have ch := hc' .chead (by simp)
  have cp := hc' .phead (by simp)
  have kn : ∀ w i, Kn g s w i → Kn g { s with mem := m', th := upd s.th t q, pc := upd s.pc t .idle } w i :=
    fun w i h => h.congr (Nat.le_of_eq e3.symm) fun j h1 h2 => ⟨rfl, rfl, e6 _⟩
  have k0 : ∀ w : View Loc, (∀ y, y ≠ .ptail → join (s.th t).cur (s.th t).acq y ≤ w y) → Kn g s w (k + 1) := fun w hw => by
    have h0 : ∀ y, y ≠ .ptail → (s.th t).cur y ≤ w y := fun y h => Nat.le_trans (le_join_left _ _ _) (hw y h)
    refine ⟨fun e => Nat.le_trans (t5 e) (h0 _ (by simp)), fun j h1 h2 => ?_⟩
    by_cases e : j = k
    · subst e
      rw [t3]
      exact ⟨Nat.le_trans f3 (h0 _ (by simp)), Nat.le_trans t4 (h0 _ (by simp))⟩
    · have h3 := c2.2 j h1 (by omega)
      exact ⟨Nat.le_trans h3.1 (hw _ (by simp)), Nat.le_trans h3.2 (hw _ (by simp))⟩
  constructor <;> simp only [e1, e2, e3, e4, e5, e6]
  case vp => fin a1 o1
  case vt =>
    intro i h
    by_cases e : i = k + 1
    · subst e; rw [← c1, nw, c1]
    · rw [o2 _ (by omega)]; exact a2 i (by omega)
  case vc => fin a3 o3
  case np => exact a4
  case ct => omega
  case tp => omega
  case rm => exact a7
  case sl =>
    intro j h1 h2
    by_cases e : j = k
    · subst e; rw [t3]; exact ⟨f1, f2⟩
    · exact a8 j h1 (by omega)
  case kt =>
    intro i h
    by_cases e : i = k + 1
    · subst e; rw [← c1, nw]; rw [c1]; exact kn _ _ (k0 w hw)
    · rw [o2 _ (by omega)]; exact kn _ _ (a9 i (by omega))
  case kc => fin a10 o3
  case ow => exact a11
  case ij => exact a12
  case oc =>
    intro y u hu
    have b1 := a13 y u hu
    have b2 := cd y
    fin b1 b2
  case ev => fin a14
  case tk =>
    intro u i y hu
    have b1 := a15 u i y
    have b2 := fun h => hne (u := u) (k' := i) (v' := y) h
    fin b1 b2 hu c1
  case fd => fin a16
  case eT =>
    intro u y i hu
    by_cases e : u = t
    · subst e; rw [upd_same] at hu; cases hu
    · rw [upd_ne _ _ e] at hu ⊢
      have b1 := a17 u y i hu
      have b2 := hne (u := u) (k' := i) (v' := y) (by rw [hu]; rfl) e
      omega
  case eX => fin a18
  case eR => fin a19
  case sp =>
    intro u hu
    have b1 := a20 u hu
    have b2 := k0 q.cur hc
    by_cases e : u = t
    · subst e
      rw [upd_same, upd_same]
      have b4 := b1.2.2.2 k v (by rw [hp]; rfl)
      exact ⟨by omega, kn _ _ b2, fun _ => by omega, nofun⟩
    · have := (a21 t (by rw [hu]; simp) (by rw [hu]; simp [e])).1
      rw [hp] at this
      cases this
  case so => fin a21
  case mp => fin a22
  case eQ => fin a23
  case dC => fin a24
  case dq => fin a25
  case dP => fin a26
  case dS =>
    intro u tr c hu
    have b1 := a27 u tr c
    fin b1 hu c1
  case dX =>
    intro u tr c v hu
    have b1 := a28 u tr c v
    fin b1 hu c1
  case sc =>
    intro u hu
    have b1 := a29 u hu
    have b2 : Kc g (s.th t).cur (s.mem.top .chead) → Kc g q.cur (s.mem.top .chead) := fun h => ⟨by omega, fun e => Nat.le_trans (h.2 e) cp⟩
    fin b1 b2
  case le =>
    intro j u hj hu
    have b1 := a30 j u hj hu
    fin b1 hx hp c1
  case ld =>
    intro j u hj hu
    have b1 := a31 j u hj hu
    fin b1 ch
  case ff => exact a32

/-- A consumer takes an entry. -/
theorem Inv.con {s : St n} (hi : Inv g s) {t : Fin n} {m' : Mem Loc Nat} {tr : Bool} {c v : Nat} {w : View Loc} {q : Th Loc} (hm : Put s.mem m' .chead (c + 1) w)
    (hp : s.pc t = .dX tr c v) (hl : s.mem.top .chead = c) (hw : ∀ y, y ≠ .chead → (s.th t).cur y ≤ w y) (hc : ∀ y, y ≠ .chead → (s.th t).cur y ≤ q.cur y)
    (hx : q.cur .chead = s.mem.top .chead + 1) :
    Inv g { s with mem := m', th := upd s.th t q, pc := upd s.pc t .idle, own := upd s.own v (some t), de := upd s.de c (t, v) } := by
  obtain ⟨a1, a2, a3, a4, a5, a6, a7, a8, a9, a10, a11, a12, a13, a14, a15, a16, a17, a18, a19, a20, a21, a22, a23, a24, a25, a26, a27, a28, a29, a30, a31, a32⟩ := hi
  obtain ⟨c1, c2, c3⟩ := a28 t tr c v hp
  obtain ⟨c3, c4, c5⟩ := c3 hl
  have e1 : m'.top .phead = s.mem.top .phead := hm.top_ne (by simp)
  have e2 : m'.top .ptail = s.mem.top .ptail := hm.top_ne (by simp)
  have e3 : m'.top .chead = c + 1 := by rw [hm.top, if_pos rfl, hl]
  have e4 : ∀ i, m'.top (.slot i) = s.mem.top (.slot i) := fun i => hm.top_ne (by simp)
  have e5 : ∀ i, m'.last (.slot i) = s.mem.last (.slot i) := fun i => by rw [hm.last, if_neg (by simp)]
  have e6 : ∀ y, m'.top (.dat y) = s.mem.top (.dat y) := fun y => hm.top_ne (by simp)
  have o1 := fun i => hm.old .phead i
  have o2 := fun i => hm.old .ptail i
  have o3 := fun i => hm.old .chead i
  have nw := hm.new
  have cs : ∀ i, (s.th t).cur (.slot i) ≤ q.cur (.slot i) := fun i => hc _ (by simp)
  have cd : ∀ i, (s.th t).cur (.dat i) ≤ q.cur (.dat i) := fun i => hc _ (by simp)
  have ct := hc .ptail (by simp)
  have cp := hc .phead (by simp)
  have kn : ∀ w i, Kn g s w i → Kn g { s with mem := m', th := upd s.th t q, pc := upd s.pc t .idle, own := upd s.own v (some t), de := upd s.de c (t, v) } w i :=
    fun w i h => h.congr (by show _ ≤ m'.top .chead; omega) fun j h1 h2 => ⟨rfl, rfl, e6 _⟩
  have k1 : ∀ i, Kn g s (s.th t).cur i → Kn g s q.cur i := fun i h =>
    ⟨fun e => Nat.le_trans (h.1 e) cp, fun j h1 h2 => ⟨Nat.le_trans (h.2 j h1 h2).1 (cs _), Nat.le_trans (h.2 j h1 h2).2 (cd _)⟩⟩
  have kc : ∀ w : View Loc, (∀ y, y ≠ .chead → (s.th t).cur y ≤ w y) → Kc g w (c + 1) := fun w hw =>
    ⟨Nat.le_trans c2.1 (hw _ (by simp)), fun e => Nat.le_trans (c2.2 e) (hw _ (by simp))⟩
  have hv : s.own v = none := by rw [c4]; exact a11 c (by omega) (by omega)
  constructor <;> simp only [e1, e2, e3, e4, e5, e6]
  case vp => fin a1 o1
  case vt => fin a2 o2
  case vc =>
    intro i h
    by_cases e : i = c + 1
    · subst e; rw [← hl, nw, hl]
    · rw [o3 _ (by omega)]; exact a3 i (by omega)
  case np => exact a4
  case ct => omega
  case tp => exact a6
  case rm => omega
  case sl =>
    intro j h1 h2
    exact a8 j (by omega) h2
  case kt => intro i h; rw [o2 i h]; exact kn _ _ (a9 i h)
  case kc =>
    intro i h
    by_cases e : i = c + 1
    · subst e; rw [← hl, nw]; rw [hl]; exact kc w hw
    · rw [o3 _ (by omega)]; exact a10 i (by omega)
  case ow =>
    intro j h1 h2
    have h3 := a12 c j (by omega) (by omega) h2
    rw [upd_ne _ _ (by rw [c4]; exact h3.symm)]
    exact a11 j (by omega) h2
  case ij =>
    intro j j' h1 h2 h3
    exact a12 j j' (by omega) h2 h3
  case oc =>
    intro y u hu
    have b1 := a13 y u
    have b2 := cd y
    fin b1 b2 c5 hu
  case ev => fin a14 hv
  case tk => fin a15
  case fd => fin a16
  case eT =>
    intro u y i hu
    by_cases e : u = t
    · subst e; rw [upd_same] at hu; cases hu
    · rw [upd_ne _ _ e] at hu ⊢
      have b1 := a17 u y i hu
      exact ⟨b1.1, kn _ _ b1.2⟩
  case eX =>
    intro u y i d hu
    have b1 := a18 u y i d
    fin b1 hu hl
  case eR => fin a19
  case sp =>
    intro u hu
    have b1 := a20 u hu
    have b2 := k1 (s.mem.top .ptail)
    by_cases e : u = t
    · subst e
      rw [upd_same, upd_same]
      exact ⟨by omega, kn _ _ (b2 b1.2.1), fun _ => b1.2.2.1 (by rw [hp]; rfl), nofun⟩
    · rw [upd_ne _ _ e, upd_ne _ _ e]
      exact ⟨b1.1, kn _ _ b1.2.1, b1.2.2⟩
  case so => fin a21
  case mp => fin a22
  case eQ => fin a23
  case dC => fin a24
  case dq => fin a25
  case dP =>
    intro u tr d hu
    have b1 := a26 u tr d
    fin b1 hu hl
  case dS =>
    intro u tr d hu
    have b1 := a27 u tr d
    fin b1 hu hl
  case dX =>
    intro u tr d v hu
    have b1 := a28 u tr d v
    fin b1 hu hl
  case sc =>
    intro u hu
    by_cases e : u = t
    · subst e
      rw [upd_same, upd_same]
      exact ⟨kc _ hc, nofun, nofun, nofun⟩
    · have := a25 t (by rw [hu]; simp) (by rw [hu]; simp [e])
      rw [hp] at this
      cases this
  case le =>
    intro j u hj hu
    have b1 := a30 j u hj hu
    fin b1 ct hp
  case ld =>
    intro j u hj hu
    have b1 := a31 j u
    fin b1 hx hl hj hu
  case ff =>
    intro j hj
    have b1 := a32 j
    fin b1 hj c4 hl

/-! ## Each step -/

theorem of_if {α : Type} {c : Prop} [Decidable c] {a b : α} (h : (if c then some a else none) = some b) : c ∧ a = b := by
  split at h
  · next hc => exact ⟨hc, Option.some.inj h⟩
  · cases h


theorem inv_init (o : Nat → Option (Fin n)) (e : Nat → Fin n × Nat) : Inv g (initSt o e) := by
  constructor <;> simp [initSt, Mem.init, Th.init, Mem.last, Kn, Kc]

theorem Inv.same {s : St n} (hi : Inv g s) {t : Fin n} {p : PC} (h : Inv g { s with th := upd s.th t (s.th t), pc := upd s.pc t p }) :
    Inv g { s with pc := upd s.pc t p } := by rw [upd_eq_self] at h; exact h

theorem Inv.enq {s s' : St n} (hi : Inv g s) {t : Fin n} {v : Nat} (hs : step g fc s (.enq t v) = some s') : Inv g s' := by
  simp only [step] at hs
  obtain ⟨h, rfl⟩ := of_if hs
  obtain ⟨hp, ho, hg⟩ := h
  refine hi.same (hi.go (fun _ => Nat.le_refl _) (fun _ => Nat.le_refl _) (.inr (.inr ⟨v, by split <;> rfl, ho⟩)) ?_ ?_ ?_ ?_ ?_ ?_ ?_ ?_ ?_ ?_ ?_ ?_ ?_) <;> grind

theorem Inv.deq {s s' : St n} (hi : Inv g s) {t : Fin n} {tr : Bool} (hs : step g fc s (.deq t tr) = some s') : Inv g s' := by
  simp only [step] at hs
  obtain ⟨h, rfl⟩ := of_if hs
  obtain ⟨hp, hg⟩ := h
  have hl : s.mem.last .chead = s.mem.top .chead := hi.vc _ (Nat.le_refl _)
  refine hi.same (hi.go (fun _ => Nat.le_refl _) (fun _ => Nat.le_refl _) (.inl ?_) ?_ ?_ ?_ ?_ ?_ ?_ ?_ ?_ ?_ ?_ ?_ ?_ ?_)
  case refine_12 =>
    intro tr' c h
    split at h
    · cases h
    · next hn =>
      obtain ⟨_, rfl⟩ := PC.dP.inj h
      have := hi.sc t (hg.resolve_left hn)
      rw [hl]
      exact ⟨Nat.le_refl _, this.1, fun j h _ => h, fun _ => rfl⟩
  all_goals grind

theorem Inv.look {s s' : St n} (hi : Inv g s) {t : Fin n} {x i : Nat} (hs : step g fc s (.look t x i) = some s') : Inv g s' := by
  simp only [step] at hs
  obtain ⟨h, rfl⟩ := of_if hs
  obtain ⟨hp, ho, hm⟩ := h
  have := hi.go (t := t) (q := (s.th t).load s.mem (.dat x) i) (p := .idle) (Th.load_cur_le _ _ _ _) (Th.load_acq_le _ _ _ _) (.inl rfl) (by rw [hp]) (by rw [hp])
    nofun nofun nofun nofun nofun nofun nofun nofun nofun nofun nofun
  rw [← hp, upd_eq_self] at this
  exact this

theorem Inv.fill {s s' : St n} (hi : Inv g s) {t : Fin n} {x v : Nat} (hs : step g fc s (.fill t x v) = some s') : Inv g s' := by
  simp only [step] at hs
  obtain ⟨h, rfl⟩ := of_if hs
  exact hi.dat (Put.store _ _ _ _) h.1 h.2 (fun y h => Th.store_cur_le _ _ _ h) (by simp [Th.store]) (fun _ => Nat.le_refl _)

/-- Views after a load, with a fence behind it. -/
theorem ld_cur (q : Th Loc) (m : Mem Loc Nat) (l : Loc) (i : Nat) (y : Loc) : q.cur y ≤ ((q.load m l i).fenceLoad).cur y :=
  Nat.le_trans (Th.load_cur_le q m l i y) (le_join_left _ _ _)

theorem ld_view (q : Th Loc) (m : Mem Loc Nat) (l : Loc) (i : Nat) (y : Loc) : (m.msg l i).view y ≤ ((q.load m l i).fenceLoad).cur y :=
  Nat.le_trans (Th.load_view_le q m l i y) (le_join_right _ _ _)

theorem ld_view' (q : Th Loc) (m : Mem Loc Nat) (l : Loc) (i : Nat) (y : Loc) : (m.msg l i).view y ≤ join (q.load m l i).cur (q.load m l i).acq y :=
  ld_view q m l i y

theorem Inv.run {s s' : St n} (hi : Inv g s) {t : Fin n} {i : Nat} (hs : run g cum s t i = some s') : Inv g s' := by
  unfold Mpmc.run at hs
  simp only [cum, opt, if_true, K.fence] at hs
  cases hp : s.pc t with
  | idle => simp [hp] at hs
  | eP v =>
    simp only [hp] at hs
    step_split hs
    have h1 := hi.mp t (by rw [hp]; rfl)
    refine hi.go (Th.load_cur_le _ s.mem _ _) (Th.load_acq_le _ s.mem _ _) (.inr (.inl ?_)) ?_ ?_ ?_ ?_ ?_ ?_ ?_ ?_ ?_ ?_ ?_ ?_ ?_ <;> grind
  | eC v p =>
    simp only [hp] at hs
    obtain ⟨hm, rfl⟩ := of_if hs
    have h1 := hi.mp t (by rw [hp]; rfl)
    have h2 := hi.vc i hm.2
    have h3 := (hi.kc i hm.2).mono (ld_view' (s.th t) s.mem .chead i)
    have h4 := hm.2
    refine hi.go (Th.load_cur_le _ s.mem _ _) (Th.load_acq_le _ s.mem _ _) (.inr (.inl ?_)) ?_ ?_ ?_ ?_ ?_ ?_ ?_ ?_ ?_ ?_ ?_ ?_ ?_ <;> fin h1 h2 h3 h4 hp
  | eX v p c =>
    simp only [hp] at hs
    have h1 := hi.mp t (by rw [hp]; rfl)
    have h2 := hi.eX t v p c hp
    have h3 : s.mem.last .phead = s.mem.top .phead := hi.vp _ (Nat.le_refl _)
    have h4 := hi.np h1
    split at hs <;> simp only [Option.some.injEq] at hs <;> subst hs
    · next he =>
      obtain rfl : s.np = p := by omega
      exact hi.take (.inl ⟨h1, Put.rmw _ _ _ _⟩) (hi.ev t v (by rw [hp]; rfl)) (by rw [hp]; rfl) (by omega) (fun h => by rw [h1] at h; cases h)
        (fun y h => Th.rmw_cur_le _ _ _ h) (fun _ => by simp [Th.rmw, Th.store, h4])
    · refine hi.go (Th.load_cur_le _ s.mem _ _) (Th.load_acq_le _ s.mem _ _) (.inr (.inl ?_)) ?_ ?_ ?_ ?_ ?_ ?_ ?_ ?_ ?_ ?_ ?_ ?_ ?_ <;> fin h1 hp
  | eR v p c =>
    simp only [hp] at hs
    obtain ⟨hm, rfl⟩ := of_if hs
    have h1 := hi.mp t (by rw [hp]; rfl)
    refine hi.go (fun y => Nat.le_trans (le_join_left _ (s.th t).acq _) (Th.load_cur_le (s.th t).fenceLoad s.mem _ _ y)) (fun y => Th.load_acq_le _ s.mem _ _ y) ?_ ?_ ?_ ?_ ?_ ?_ ?_ ?_ ?_ ?_ ?_ ?_ ?_ ?_ <;>
      fin h1 hp
  | eQ v =>
    simp only [hp] at hs
    have h1 := hi.eQ t v hp
    have h2 := hi.sp t h1
    have h3 := h2.2.2.1 (by rw [hp]; rfl)
    have h4 : s.mem.last .ptail = s.mem.top .ptail := hi.vt _ (Nat.le_refl _)
    split at hs
    · next hm =>
      have h5 := hi.vc i hm.2
      have h6 := hm.1
      have h7 := hm.2
      have h8 := Th.load_at (s.th t) s.mem .chead i
      split at hs <;> simp only [Option.some.injEq] at hs <;> subst hs
      · refine hi.go (Th.load_cur_le _ s.mem _ _) (Th.load_acq_le _ s.mem _ _) (.inl rfl) ?_ ?_ ?_ ?_ ?_ ?_ ?_ ?_ ?_ ?_ ?_ ?_ ?_ <;> fin hp
      · next hn =>
        rw [h4, ← h3]
        rw [h5, h4, ← h3] at hn
        have hz := z_eq g
        have h9 : s.np + 1 ≠ i + g.z := fun e => hn (by rw [e, Nat.add_mod_right])
        have h10 := hi.ct
        refine hi.take (w := fun _ => 0) (.inr ⟨h1, rfl⟩) (hi.ev t v (by rw [hp]; rfl)) (by rw [hp]; rfl) (by omega) (fun h => by omega)
          (fun y _ => Th.load_cur_le _ s.mem _ _ y) (fun h => by rw [h1] at h; cases h)
    · cases hs
  | eS v p =>
    simp only [hp, Option.some.injEq] at hs
    subst hs
    exact hi.slot (Put.store _ _ _ _) hp (fun y h => Th.store_cur_le _ _ _ h) (by simp [Th.store]) (fun _ => Nat.le_refl _)
  | eW v p =>
    simp only [hp] at hs
    obtain ⟨hm, rfl⟩ := of_if hs
    have h1 := hi.vt i hm.2
    have h2 := (hi.tk t p v (by rw [hp]; rfl)).1
    have h3 := (hi.kt i hm.2).mono (ld_view' (s.th t) s.mem .ptail i)
    have h4 := hm.2
    refine hi.go (Th.load_cur_le _ s.mem _ _) (Th.load_acq_le _ s.mem _ _) (.inl ?_) ?_ ?_ ?_ ?_ ?_ ?_ ?_ ?_ ?_ ?_ ?_ ?_ ?_ <;> fin h1 h2 h3 h4 hp
  | eT v p =>
    simp only [hp, Option.some.injEq] at hs
    subst hs
    refine hi.pub (Put.store _ _ _ _) hp (fun y h => ?_) (fun y h => Th.store_cur_le (s.th t).fenceLoad.fenceRel s.mem _ h) (by simp [Th.store])
    rw [upd_ne _ _ h]
    exact le_join_right _ _ _
  | dC tr =>
    simp only [hp] at hs
    obtain ⟨hm, rfl⟩ := of_if hs
    have h1 := hi.dC t tr hp
    have h2 := hi.vc i hm.2
    have h3 := (hi.kc i hm.2).mono (ld_view (s.th t) s.mem .chead i)
    have h4 := fun j => hi.ld j t
    have h5 := hm.1
    have h6 := hm.2
    refine hi.go (ld_cur _ s.mem _ _) (Th.load_acq_le _ s.mem _ _) (.inl ?_) ?_ ?_ ?_ ?_ ?_ ?_ ?_ ?_ ?_ ?_ ?_ ?_ ?_ <;> fin h1 h2 h3 h4 h5 h6 hp
  | dP tr c =>
    simp only [hp] at hs
    have h0 := hi.dP t tr c hp
    have h01 := hi.dq t
    have h02 := hi.sc t
    split at hs
    · next hm =>
      have h1 := hi.vt i hm.2
      split at hs <;> simp only [Option.some.injEq] at hs <;> subst hs
      · refine hi.go (Th.load_cur_le _ s.mem _ _) (Th.load_acq_le _ s.mem _ _) (.inl rfl) ?_ ?_ ?_ ?_ ?_ ?_ ?_ ?_ ?_ ?_ ?_ ?_ ?_ <;> fin hp
      · next hn =>
        rw [h1] at hn
        have h2 := (hi.kt i hm.2).mono (ld_view (s.th t) s.mem .ptail i)
        have h3 := Nat.le_trans h0.2.1.1 hm.1
        have h4 := Th.load_at (s.th t) s.mem .ptail i
        have h5 : Kc g ((s.th t).load s.mem .ptail i).fenceLoad.cur (c + 1) := by
          refine ⟨?_, fun e => ?_⟩
          · exact Nat.le_trans (by omega) (Nat.le_trans h4 (le_join_left _ _ _))
          · have := h2.1 e
            omega
        have h6 := h2.2 c
        have h7 := hm.2
        refine hi.go (ld_cur _ s.mem _ _) (Th.load_acq_le _ s.mem _ _) (.inl rfl) ?_ ?_ ?_ ?_ ?_ ?_ ?_ ?_ ?_ ?_ ?_ ?_ ?_ <;> fin h0 h01 h02 hn h3 h5 h6 h7 hp
    · cases hs
  | dS tr c =>
    simp only [hp] at hs
    have h0 := hi.dS t tr c hp
    have h01 := hi.dq t
    have h02 := hi.sc t
    obtain ⟨hm, rfl⟩ := of_if hs
    have h1 := hi.sl c
    have h2 := Th.load_cur_le (s.th t) s.mem (.slot (c % g.z)) i
    have h3 := h0.2.1.mono h2
    have h4 := h2 (.dat (s.en c).2)
    have h5 : s.mem.top .chead = c → i = s.mem.top (.slot (c % g.z)) := fun h => by
      have := h0.2.2 h
      have := h1 (by omega) this.1
      have := hm.1
      have := hm.2
      omega
    have h6 : s.mem.top .chead = c → (s.mem.msg (.slot (c % g.z)) i).val = (s.en c).2 := fun h => by
      rw [h5 h]
      exact (h1 (by omega) (h0.2.2 h).1).2
    refine hi.go h2 (Th.load_acq_le _ s.mem _ _) (.inl rfl) ?_ ?_ ?_ ?_ ?_ ?_ ?_ ?_ ?_ ?_ ?_ ?_ ?_ <;> fin h0 h01 h02 h3 h4 h6 hp
  | dX tr c v =>
    simp only [hp] at hs
    have h0 := hi.dX t tr c v hp
    have h3 : s.mem.last .chead = s.mem.top .chead := hi.vc _ (Nat.le_refl _)
    split at hs
    · next hn =>
      simp only [Option.some.injEq] at hs
      subst hs
      obtain ⟨r, hr⟩ := Option.ne_none_iff_exists'.1 hn
      obtain rfl : r = t := Decidable.byContradiction fun h => by
        have := hi.dq t hn (by rw [hr]; simp [h])
        rw [hp] at this
        cases this
      have h1 := (hi.sc r hr).2.2.2 tr c v hp
      refine hi.con (Put.store _ _ _ _) hp h1.symm (fun y h => ?_) (fun y h => Nat.le_trans (le_join_left _ (s.th r).acq _) (Th.store_cur_le (s.th r).fenceLoad.fenceRel s.mem _ h)) (by simp [Th.store])
      rw [upd_ne _ _ h]
      exact Nat.le_trans (le_join_left _ _ _) (le_join_right _ _ _)
    · next hn =>
      split at hs
      · next he =>
        simp only [Option.some.injEq] at hs
        subst hs
        refine hi.con (Put.rmw _ _ _ _) hp (h3.symm.trans he) (fun y h => ?_) (fun y h => Nat.le_trans (le_join_left _ (s.th t).acq _) (Th.rmw_cur_le (s.th t).fenceLoad.fenceRel s.mem _ h)) (by simp [Th.rmw, Th.store])
        rw [upd_ne _ _ h]
        exact Nat.le_trans (Nat.le_trans (le_join_left _ _ _) (le_join_right _ _ _)) (le_join_left _ _ _)
      · have h1 := Th.load_cur_le (s.th t).fenceLoad.fenceRel s.mem .chead (s.mem.top .chead)
        have h2 := Th.load_acq_le (s.th t).fenceLoad.fenceRel s.mem .chead (s.mem.top .chead)
        have h4 : ∀ y, (s.th t).cur y ≤ ((s.th t).fenceLoad.fenceRel.load s.mem .chead (s.mem.top .chead)).cur y := fun y => Nat.le_trans (le_join_left _ _ _) (h1 y)
        split at hs <;> simp only [Option.some.injEq] at hs <;> subst hs
        · refine hi.go h4 h2 (.inl rfl) ?_ ?_ ?_ ?_ ?_ ?_ ?_ ?_ ?_ ?_ ?_ ?_ ?_ <;> fin hp
        · have h5 := (hi.kc _ (Nat.le_refl _)).mono (ld_view (s.th t).fenceLoad.fenceRel s.mem .chead (s.mem.top .chead))
          refine hi.go (fun y => Nat.le_trans (h4 y) (le_join_left _ _ _)) h2 (.inl rfl) ?_ ?_ ?_ ?_ ?_ ?_ ?_ ?_ ?_ ?_ ?_ ?_ ?_ <;> fin h5 h3 hn hp

theorem inv_reach {s : St n} (h : (sys g cum).Reach s) : Inv g s :=
  h.invariant (I := Inv g) (fun s h => by obtain ⟨o, e, rfl⟩ := h; exact inv_init o e) fun s a s' hi hs => by
    cases a with
    | enq t v => exact hi.enq (fc := cum) hs
    | deq t tr => exact hi.deq (fc := cum) hs
    | run t i => exact hi.run hs
    | fill t x v => exact hi.fill (fc := cum) hs
    | look t x i => exact hi.look (fc := cum) hs

/-! ## The theorems

The full statements have `weak` in place of `cum`: fences for stores that order the stores of the thread itself, as their documentation says.  They are false
(`weak_enqueue`, `weak_dequeue`). -/

/-- C86: dequeue number `j` returned what enqueue number `j` was given; no more is dequeued than was enqueued, and no more is in the ring than it can hold.  (`c_head` and
`p_tail` are the numbers of dequeued and enqueued objects.) -/
theorem fifo_partial {s : St n} (h : (sys g cum).Reach s) : (∀ j, j < s.mem.last .chead → (s.de j).2 = (s.en j).2) ∧
    s.mem.last .chead ≤ s.mem.last .ptail ∧ s.mem.last .ptail ≤ s.np ∧ s.np ≤ s.mem.last .chead + (2 ^ g.k - 1) := by
  have hi := inv_reach h
  have h1 : s.mem.last .chead = s.mem.top .chead := hi.vc _ (Nat.le_refl _)
  have h2 : s.mem.last .ptail = s.mem.top .ptail := hi.vt _ (Nat.le_refl _)
  rw [h1, h2]
  exact ⟨hi.ff, hi.ct, hi.tp, hi.rm⟩

/-- C86: the thread that has dequeued an object loads what was stored in it last. -/
theorem reads_last_partial {s s' : St n} (h : (sys g cum).Reach s) {t : Fin n} {x i : Nat} (hs : (sys g cum).step s (.look t x i) = some s') :
    (s.mem.msg (.dat x) i).val = s.mem.last (.dat x) := by
  have hi := inv_reach h
  obtain ⟨⟨_, ho, hm⟩, _⟩ := of_if hs
  rw [show i = s.mem.top (.dat x) from Nat.le_antisymm hm.2 (Nat.le_trans (hi.oc x t ho) hm.1)]; rfl

/-- C86: a dequeue that returns false has seen the ring empty: the first `c` objects, all that had been enqueued when `p_tail` was `c`, were dequeued, and what the thread itself has
enqueued or dequeued is among them. -/
theorem empty_right_partial {s s' : St n} (h : (sys g cum).Reach s) {t : Fin n} {tr : Bool} {c i : Nat} (hp : s.pc t = .dP tr c)
    (hs : (sys g cum).step s (.run t i) = some s') (hr : s'.pc t = .idle) : (s.mem.msg .ptail i).val = c ∧ c ≤ s.mem.last .chead ∧
      (∀ j, j < s.np → (s.en j).1 = t → j < c) ∧ ∀ j, j < s.mem.last .chead → (s.de j).1 = t → j < c := by
  have hi := inv_reach h
  have h1 : s.mem.last .chead = s.mem.top .chead := hi.vc _ (Nat.le_refl _)
  have h2 := hi.dP t tr c hp
  simp only [sys, step, run, hp] at hs
  split at hs
  · next hm =>
    split at hs
    · next he =>
      rw [h1]
      refine ⟨he.symm, h2.1, fun j hj hj' => ?_, h2.2.2⟩
      have h3 := hi.le j t hj hj'
      rw [hp] at h3
      have h4 := hi.vt i hm.2
      have h5 := h3.resolve_left nofun
      have := hm.1
      omega
    · simp only [Option.some.injEq] at hs
      subst hs
      simp only [upd_same] at hr
      cases hr
  · cases hs

/-- C86: an enqueue of one of many producers that returns false has seen the ring full: `p` slots had been taken when `c` objects had been dequeued. -/
theorem full_right_partial {s s' : St n} (h : (sys g cum).Reach s) {t : Fin n} {v p c i : Nat} (hp : s.pc t = .eR v p c)
    (hs : (sys g cum).step s (.run t i) = some s') (hr : s'.pc t = .idle) : c + (2 ^ g.k - 1) ≤ p ∧ p ≤ s.np := by
  have hi := inv_reach h
  have h0 := hi.mp t (by rw [hp]; rfl)
  have h2 := hi.eR t v p c hp
  simp only [sys, step, run, hp] at hs
  obtain ⟨hm, rfl⟩ := of_if hs
  simp only [upd_same] at hr
  split at hr
  · next he =>
    have h3 := hi.vp i hm.2
    have h4 := Nat.le_trans (h2.1.2 h0) hm.1
    have h5 := hi.np h0
    have h6 := hm.2
    have h7 := h2.2
    simp only [Cfg.mask] at h7
    omega
  · cases hr

/-- C86: an enqueue of the only producer that returns false has seen the ring full. -/
theorem full_right_sp_partial {s s' : St n} (h : (sys g cum).Reach s) {t : Fin n} {v i : Nat} (hp : s.pc t = .eQ v)
    (hs : (sys g cum).step s (.run t i) = some s') (hr : s'.pc t = .idle) : (s.mem.msg .chead i).val + (2 ^ g.k - 1) = s.np := by
  have hi := inv_reach h
  have h1 := hi.eQ t v hp
  have h2 := hi.sp t h1
  have h3 := h2.2.2.1 (by rw [hp]; rfl)
  have h4 : s.mem.last .ptail = s.mem.top .ptail := hi.vt _ (Nat.le_refl _)
  simp only [sys, step, run, hp] at hs
  split at hs
  · next hm =>
    split at hs
    · next he =>
      rw [h4, ← h3, hi.vc i hm.2] at he
      rw [hi.vc i hm.2]
      have hz := z_eq g
      have h5 := hi.ct
      have h6 := hm.1
      have h7 := hm.2
      rcases Nat.lt_or_ge (s.np + 1) (i + g.z) with h8 | h8
      · have := mod_inj (by omega) (by omega) he
        omega
      · simp only [Cfg.mask, Cfg.z] at *
        omega
    · simp only [Option.some.injEq] at hs
      subst hs
      simp only [upd_same] at hr
      cases hr
  · cases hs

/-! ## What goes wrong with weaker fences -/

abbrev A := Act 3

/-- Four slots, any thread enqueues and dequeues. -/
def mm : Cfg 3 := { k := 2, sp := none, sc := none }

/-- Thread 0 has the objects below 20, thread 1 the others. -/
def start : St 3 := initSt (fun x => if x < 20 then some 0 else some 1) fun _ => (0, 0)

/-- The run `as` is possible. -/
def can (g : Cfg 3) (fc : Fences) (as : List A) : Bool := ((sys g fc).run start as).isSome

/-- What was dequeued after the run `as`, and how many were enqueued. -/
def out (g : Cfg 3) (fc : Fences) (as : List A) : Option (List Nat × Nat) := match (sys g fc).run start as with
  | some s => some ((List.range (s.mem.last .chead)).map fun j => (s.de j).2, s.mem.last .ptail)
  | none => none

/-- Thread `t` enqueues `v` as number `k`, when it knows `c` dequeues. -/
def enqs (t : Fin 3) (v k c : Nat) : List A := [.enq t v, .run t k, .run t c, .run t 0, .run t 0, .run t k, .run t 0]

/-- Thread `t` dequeues number `c`; it loads value `p` of `p_tail` and value `i` of the slot. -/
def deqs (t : Fin 3) (c p i : Nat) : List A := [.deq t false, .run t c, .run t p, .run t i, .run t 0]

/-- Two producers, one consumer: it loads the second value of `p_tail`, and the first slot from before. -/
def skips : List A := enqs 0 10 0 0 ++ enqs 1 20 1 0 ++ deqs 2 0 2 0
/-- One producer, two consumers: the second knows of the first but not of the producer. -/
def early : List A := enqs 0 10 0 0 ++ deqs 1 0 1 1 ++ deqs 2 1 0 0

theorem weak_enqueue : out mm weak skips = some ([0], 2) := by decide +kernel
theorem weak_dequeue : out mm weak early = some ([10, 0], 1) := by decide +kernel

/-- `fifo_partial` does not hold for `weak`. -/
theorem fifo_fails : ¬ ∀ s : St 3, (sys mm weak).Reach s → ∀ j, j < s.mem.last .chead → (s.de j).2 = (s.en j).2 := by
  intro h
  have key : (match (sys mm weak).run start skips with
    | some s => decide (s.mem.last .chead = 1 ∧ (s.de 0).2 ≠ (s.en 0).2) | none => false) = true := by decide +kernel
  split at key
  · next s hs =>
    have hp := of_decide_eq_true key
    exact hp.2 (h s (.of_run (.init ⟨_, _, rfl⟩) hs) 0 (by omega))
  · cases key

/-- With cumulative fences these runs are impossible. -/
example : can mm cum skips = false ∧ can mm cum early = false := by decide +kernel

/-- The other fences. -/
theorem no_fence_deq1 : out mm { cum with deq1 := false } early = some ([10, 0], 1) := by decide +kernel
theorem no_fence_deq2 : out mm { cum with deq2 := false } skips = some ([0], 2) := by decide +kernel
theorem no_fence_enq : out mm { cum with enq := .none } (enqs 0 10 0 0 ++ deqs 2 0 1 0) = some ([0], 1) := by decide +kernel
theorem no_fence_deq : out mm { cum with deq := .none } early = some ([10, 0], 1) := by decide +kernel
/-- The ring is empty, thread 1 takes it for full. -/
def spurious : List A := enqs 0 10 0 0 ++ deqs 2 0 1 1 ++ [.enq 1 20, .run 1 0, .run 1 1, .run 1 0, .fill 1 20 0]
theorem no_fence_full : can mm { cum with full := false } spurious = true := by decide +kernel
example : can mm cum spurious = false := by decide +kernel

/-- Objects with their data go through the ring, back and forth. -/
def trip : List A := [.fill 0 10 7] ++ enqs 0 10 0 0 ++ enqs 1 20 1 0 ++ deqs 2 0 2 1 ++ [.look 2 10 1, .fill 2 10 8] ++ enqs 2 10 2 1 ++ deqs 1 1 3 1 ++ deqs 1 2 3 1
example : out mm cum trip = some ([10, 20, 10], 3) ∧ can mm cum (trip ++ [.look 1 10 2]) = true ∧ can mm cum (trip ++ [.look 1 10 1]) = false := by decide +kernel

/-- Three objects fill the ring; the fourth is refused. -/
example : can mm cum (enqs 0 10 0 0 ++ enqs 0 11 1 0 ++ enqs 0 12 2 0 ++ [.enq 0 13, .run 0 3, .run 0 0, .run 0 3, .fill 0 13 1]) = true ∧
    can mm cum (enqs 0 10 0 0 ++ enqs 0 11 1 0 ++ enqs 0 12 2 0 ++ enqs 0 13 3 0) = false := by decide +kernel

/-- One producer, many consumers; many producers, one consumer. -/
def enqs' (t : Fin 3) (v c : Nat) : List A := [.enq t v, .run t c, .run t 0, .run t 0]
def deqs' (t : Fin 3) (p i : Nat) : List A := [.deq t false, .run t p, .run t i, .run t 0]
example : out { mm with sp := some 0 } cum (enqs' 0 10 0 ++ enqs' 0 11 0 ++ deqs 1 0 2 1 ++ deqs 2 1 2 1) = some ([10, 11], 2) ∧
    out { mm with sc := some 2 } cum (enqs 0 10 0 0 ++ enqs 1 20 1 0 ++ deqs' 2 1 1 ++ deqs' 2 2 1) = some ([10, 20], 2) ∧
    can { mm with sp := some 0 } cum (enqs' 0 10 0 ++ enqs' 0 11 0 ++ enqs' 0 12 0 ++ [.enq 0 13, .run 0 0, .fill 0 13 1]) = true := by decide +kernel

/-- With `weak` these uses go wrong in the same way. -/
theorem weak_spmc : out { mm with sp := some 0 } weak (enqs' 0 10 0 ++ deqs 1 0 1 1 ++ deqs 2 1 0 0) = some ([10, 0], 1) := by decide +kernel
theorem weak_mpsc : out { mm with sc := some 2 } weak (enqs 0 10 0 0 ++ enqs 1 20 1 0 ++ deqs' 2 2 0) = some ([0], 2) := by decide +kernel

end Verif.Weak.Mpmc
