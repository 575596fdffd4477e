import Verif.Weak.Brlock
import Verif.Core.Tactic

/-!
# Big-reader lock on relaxed memory: exclusion, and what the holders load (C82)

The argument: the full fences of reader and writer are ordered.  If the writer's was first, the reader loads `writer` as the writer has set it, or
newer; if the reader's was first, the writer loads `n_readers` as the reader has set it, or newer.
-/

namespace Verif.Weak.Brlock

open Verif Verif.Spec
open Fas (opt)

variable {n : Nat}

/-! ## Classes of program counters -/

/-- has set `writer` -/
@[simp, grind] def PC.own : PC → Bool
  | .wFence _ | .wScan _ _ | .wBack | .writing => true
  | _ => false
/-- a writer before its full fence -/
@[simp, grind] def PC.wfen : PC → Bool
  | .wFence _ => true
  | _ => false
/-- a writer after its full fence -/
@[simp, grind] def PC.fen : PC → Bool
  | .wScan _ _ | .wBack | .writing => true
  | _ => false
/-- has set `n_readers` tentatively -/
@[simp, grind] def PC.tent : PC → Bool
  | .rFence _ | .rChk _ | .rBack _ => true
  | _ => false
/-- a reader after its full fence -/
@[simp, grind] def PC.chk : PC → Bool
  | .rChk _ => true
  | _ => false
/-- in the slow path of a read lock -/
@[simp, grind] def PC.rd : PC → Bool
  | .rLoad _ | .rSet _ | .rFence _ | .rChk _ | .rBack _ => true
  | _ => false
/-- a writer that has seen reader `v` outside -/
@[simp, grind] def PC.seen (v : Fin n) : PC → Prop
  | .wScan _ k => v < k
  | .writing => True
  | _ => False

theorem PC.own_of_fen {p : PC} (h : p.fen = true) : p.own = true := by cases p <;> first | rfl | cases h
theorem PC.fen_of_seen {p : PC} {v : Fin n} (h : p.seen v) : p.fen = true := by cases p <;> first | rfl | cases h
theorem PC.own_of_wfen {p : PC} (h : p.wfen = true) : p.own = true := by cases p <;> first | rfl | cases h

/-! ## Invariant -/

structure Inv (s : St n) : Prop where
  /-- one owner of `writer` -/
  uq : ∀ t u, (s.pc t).own = true → (s.pc u).own = true → t = u
  ow : ∀ t, (s.pc t).own = true → s.wi ≤ s.mem.top .writer ∧ ∀ j, s.wi ≤ j → j ≤ s.mem.top .writer → (s.mem.msg .writer j).val ≠ 0
  fr : (∀ t, (s.pc t).own = false) → s.mem.last .writer = 0
  /-- the reader objects -/
  nt : ∀ t, s.mem.top (.nr t) ≤ (s.th t).cur (.nr t)
  nv : ∀ t, s.mem.last (.nr t) = s.depth t + (s.pc t).tent.toNat
  dp : ∀ t, (s.pc t).rd = true → s.depth t = 0
  hs : ∀ t, s.lq t ≤ s.sc (.nr t)
  lt : ∀ t, s.lr t ≤ s.mem.top (.nr t)
  hv : ∀ t i, s.lq t ≤ i → i ≤ s.mem.top (.nr t) → 0 < s.depth t ∨ i < s.lr t → (s.mem.msg (.nr t) i).val ≠ 0
  hw : ∀ t, s.depth t = 0 → ∀ i, s.lr t ≤ i → i ≤ s.mem.top (.nr t) → s.mem.top (.own t) ≤ (s.mem.msg (.nr t) i).view (.own t)
  hr : ∀ t, s.depth t = 0 → s.mem.top (.own t) ≤ (s.th t).rel (.own t)
  oc : ∀ t, s.mem.top (.own t) ≤ (s.th t).cur (.own t)
  /-- a reader after its full fence -/
  ck : ∀ t, (s.pc t).chk = true → s.mem.top (.nr t) ≤ s.sc (.nr t) ∧ s.lw ≤ (s.th t).cur .writer
  /-- a writer before and after its full fence -/
  wf : ∀ u, (s.pc u).wfen = true → s.wi ≤ (s.th u).cur .writer ∧ ∀ x, s.base x ≤ (s.th u).acq (.usr x)
  fs : ∀ u, (s.pc u).fen = true → s.wi ≤ s.sc .writer ∧ ∀ x, s.base x ≤ (s.th u).cur (.usr x)
  fq : ∀ u, (s.pc u).fen = true → ∀ t, s.lq t ≤ (s.th u).cur (.nr t)
  fc : ∀ u t, (s.pc u).fen = true → (s.pc t).chk = true → s.wi ≤ (s.th t).cur .writer ∨ s.mem.top (.nr t) ≤ (s.th u).cur (.nr t)
  sn : ∀ u t, (s.pc u).seen t → s.depth t = 0 ∧ s.mem.top (.own t) ≤ (s.th u).acq (.own t) ∧ ((s.pc t).chk = true → s.wi ≤ (s.th t).cur .writer)
  cr : ∀ u, s.pc u = .writing → (∀ x, s.mem.top (.usr x) ≤ (s.th u).cur (.usr x)) ∧ ∀ t, s.mem.top (.own t) ≤ (s.th u).cur (.own t)
  /-- the last completed write section -/
  gl : s.lw ≤ s.lu ∧ s.lu ≤ s.mem.top .writer ∧ s.lw ≤ s.sc .writer
  gv : ∀ i, s.lw ≤ i → i < s.lu → (s.mem.msg .writer i).val ≠ 0
  gw : ∀ i x, s.lu ≤ i → i ≤ s.mem.top .writer → s.base x ≤ (s.mem.msg .writer i).view (.usr x)
  gt : ∀ x, s.base x ≤ s.mem.top (.usr x)
  qu : (∀ t, s.pc t ≠ .writing) → ∀ x, s.mem.top (.usr x) ≤ s.base x
  rb : ∀ t, 0 < s.depth t → ∀ x, s.base x ≤ (s.th t).cur (.usr x)

/-- A step of `t` that does not store. -/
theorem Inv.go {s : St n} (hi : Inv s) {t : Fin n} {q : Th (Loc n)} {p : PC} {sc : View (Loc n)} (hc : ∀ y, (s.th t).cur y ≤ q.cur y)
    (ha : ∀ y, (s.th t).acq y ≤ q.acq y) (hr : s.mem.top (.own t) ≤ (s.th t).rel (.own t) → s.mem.top (.own t) ≤ q.rel (.own t)) (hs : ∀ y, s.sc y ≤ sc y)
    (ho : p.own = (s.pc t).own) (ht : p.tent = (s.pc t).tent) (hd : p.rd = true → s.depth t = 0)
    (hk : p.chk = true → (s.pc t).chk = true ∨
      s.mem.top (.nr t) ≤ sc (.nr t) ∧ s.lw ≤ q.cur .writer ∧ ∀ u, (s.pc u).fen = true → s.wi ≤ q.cur .writer)
    (hwf : p.wfen = true → (s.pc t).wfen = true)
    (hf : p.fen = true → (s.pc t).fen = true ∨
      s.wi ≤ sc .writer ∧ (∀ x, s.base x ≤ q.cur (.usr x)) ∧ ∀ v, s.sc (.nr v) ≤ q.cur (.nr v))
    (hn : ∀ v, p.seen v → (s.pc t).seen v ∨
      s.depth v = 0 ∧ s.mem.top (.own v) ≤ q.acq (.own v) ∧ ((s.pc v).chk = true → s.wi ≤ (s.th v).cur .writer))
    (hw : p = .writing → (∀ x, s.mem.top (.usr x) ≤ q.cur (.usr x)) ∧ ∀ v, s.mem.top (.own v) ≤ q.cur (.own v))
    (hw' : s.pc t = .writing → p = .writing) : Inv { s with sc := sc, th := upd s.th t q, pc := upd s.pc t p } := by
  obtain ⟨h1, h2, h3, h4, h5, h6, h7, h8, h9, h10, h11, h12, h13, h14, h15, h16, h17, h18, h19, h20, h21, h22, h25, h23, h24⟩ := hi
  have hx : p.fen = true → p.chk = true → False := by cases p <;> simp
  have hz := fun u v => PC.fen_of_seen (n := n) (p := s.pc u) (v := v)
  have hz' := fun v => PC.fen_of_seen (n := n) (p := p) (v := v)
  constructor <;> simp only
  case uq => fin h1 ho
  case ow => fin h2 ho
  case fr => exact fun h => h3 fun u => by have := h u; fin this ho
  case nt => fin h4 hc
  case nv => fin h5 ht
  case dp => fin h6 hd
  case hs => fin h7 hs
  case lt => exact h8
  case hv => exact h9
  case hw => exact h10
  case hr => fin h11 hr
  case oc => fin h12 hc
  case ck => fin h13 hc hk hs
  case wf => fin h14 hwf hc ha
  case fs => fin h15 hf hc hs
  case fq => fin h16 hf hc hs h7
  case fc => fin h17 hf hc hs h7 hk h13 hx
  case sn => fin h18 hn hk hc ha hz hz' hx
  case cr => fin h19 hw
  case gl => fin h20 hs
  case gv => exact h21
  case gw => exact h22
  case gt => exact h25
  case qu => exact fun h => h23 fun u => by have := h u; fin this hw'
  case rb => fin h24 hc

/-- A reader enters. -/
theorem Inv.enter {s : St n} (hi : Inv s) {t : Fin n} {q : Th (Loc n)} (hc : ∀ y, (s.th t).cur y ≤ q.cur y)
    (ha : ∀ y, (s.th t).acq y ≤ q.acq y) (hr : ∀ y, (s.th t).rel y ≤ q.rel y) (hk : (s.pc t).chk = true)
    (hf : ∀ u, (s.pc u).fen = true → ¬ s.wi ≤ (s.th t).cur .writer) (hb : ∀ x, s.base x ≤ q.cur (.usr x)) :
    Inv { s with th := upd s.th t q, pc := upd s.pc t .idle, depth := upd s.depth t 1, lq := upd s.lq t (s.mem.top (.nr t)) } := by
  obtain ⟨h1, h2, h3, h4, h5, h6, h7, h8, h9, h10, h11, h12, h13, h14, h15, h16, h17, h18, h19, h20, h21, h22, h25, h23, h24⟩ := hi
  have hz := fun u v => PC.fen_of_seen (n := n) (p := s.pc u) (v := v)
  have hp : (s.pc t).own = false ∧ (s.pc t).tent = true ∧ (s.pc t).rd = true ∧ (s.pc t).fen = false ∧ s.pc t ≠ .writing := by
    revert hk; cases s.pc t <;> simp
  have hd := h6 t hp.2.2.1
  have hl : s.mem.last (.nr t) = 1 := by rw [h5 t, hd, hp.2.1]; rfl
  constructor <;> simp only
  case uq => fin h1
  case ow => fin h2
  case fr => exact fun h => h3 fun u => by have := h u; fin this hp
  case nt => fin h4 hc
  case nv => fin h5 hd hp
  case dp => fin h6
  case hs => fin h7 h13 hk
  case lt => exact h8
  case hv =>
    intro u i e1 e2 e3
    by_cases e : u = t
    · subst e
      rw [upd_same] at e1
      obtain rfl : i = s.mem.top (.nr u) := by omega
      rw [Mem.last] at hl
      omega
    · fin e e1 e2 e3 h9
  case hw => fin h10
  case hr => fin h11 hr
  case oc => fin h12 hc
  case ck => fin h13
  case wf => fin h14
  case fs => fin h15
  case fq => fin h16 h17 hf hk
  case fc => fin h17
  case sn =>
    intro u v
    by_cases e : u = t
    · subst e; rw [upd_same]; nofun
    · rw [upd_ne _ _ e, upd_ne _ _ e]
      intro h
      have := h18 u v h
      have h' := hz u v h
      by_cases e' : v = t
      · subst e'; exact absurd (this.2.2 hk) (hf u h')
      · rw [upd_ne _ _ e', upd_ne _ _ e', upd_ne _ _ e']; exact this
  case cr => fin h19
  case gl => exact h20
  case gv => exact h21
  case gw => exact h22
  case gt => exact h25
  case qu => exact fun h => h23 fun u => by have := h u; fin this hp
  case rb => fin h24 hb

/-- A reader stores to its `n_readers`. -/
theorem Inv.putN {s : St n} (hi : Inv s) {t : Fin n} {q : Th (Loc n)} {p : PC} {m : Mem (Loc n) Nat} {v d r : Nat} {w : View (Loc n)}
    (hm : Put s.mem m (.nr t) v w) (hc : ∀ y, y ≠ .nr t → (s.th t).cur y ≤ q.cur y) (hcn : q.cur (.nr t) = s.mem.top (.nr t) + 1)
    (hp : (s.pc t).own = false) (hp' : p.own = false) (hk : p.chk = false) (hv : v = d + p.tent.toNat)
    (hd : 0 < d → 0 < s.depth t ∧ p.rd = false) (hr : r = if 0 < s.depth t ∧ d = 0 then s.mem.top (.nr t) + 1 else s.lr t)
    (hw : d = 0 → s.mem.top (.own t) ≤ w (.own t) ∧ s.mem.top (.own t) ≤ q.rel (.own t)) :
    Inv { s with mem := m, th := upd s.th t q, pc := upd s.pc t p, depth := upd s.depth t d, lr := upd s.lr t r } := by
  obtain ⟨h1, h2, h3, h4, h5, h6, h7, h8, h9, h10, h11, h12, h13, h14, h15, h16, h17, h18, h19, h20, h21, h22, h25, h23, h24⟩ := hi
  have tw : m.top .writer = s.mem.top .writer := hm.top_ne (by simp)
  have tn : m.top (.nr t) = s.mem.top (.nr t) + 1 := by rw [hm.top, if_pos rfl]
  have tn' : ∀ u, u ≠ t → m.top (.nr u) = s.mem.top (.nr u) := fun u hu => hm.top_ne (by simpa using hu)
  have tu : ∀ x, m.top (.usr x) = s.mem.top (.usr x) := fun x => hm.top_ne (by simp)
  have to : ∀ u, m.top (.own u) = s.mem.top (.own u) := fun x => hm.top_ne (by simp)
  have mw : ∀ i, i ≤ s.mem.top .writer → m.msg .writer i = s.mem.msg .writer i := fun i h => hm.old _ _ h
  have mn : ∀ u i, i ≤ s.mem.top (.nr u) → m.msg (.nr u) i = s.mem.msg (.nr u) i := fun u i h => hm.old _ _ h
  have mt : (m.msg (.nr t) (s.mem.top (.nr t) + 1)).val = v ∧ (m.msg (.nr t) (s.mem.top (.nr t) + 1)).view = w := by rw [hm.new]; exact ⟨rfl, rfl⟩
  have ln : m.last (.nr t) = v := by rw [hm.last, if_pos rfl]
  have ln' : ∀ u, u ≠ t → m.last (.nr u) = s.mem.last (.nr u) := fun u hu => by rw [hm.last, if_neg (by simpa using hu)]
  have lw : m.last .writer = s.mem.last .writer := by rw [hm.last, if_neg (by simp)]
  have hq : ∀ p : PC, p.own = false → p.fen = false ∧ p.wfen = false ∧ p ≠ .writing ∧ ∀ v : Fin n, ¬ p.seen v := by
    intro p; cases p <;> simp
  obtain ⟨a1, a2, a3, a4⟩ := hq _ hp
  obtain ⟨b1, b2, b3, b4⟩ := hq _ hp'
  constructor <;> simp only [tw, tu, to]
  case uq => fin h1 hp'
  case ow => fin h2 mw hp'
  case fr => exact fun h => lw.trans (h3 fun u => by have := h u; fin this hp)
  case nt =>
    intro u
    by_cases e : u = t
    · subst e; rw [tn, upd_same, hcn]; exact Nat.le_refl _
    · fin e tn' h4
  case nv => fin h5 hv ln ln'
  case dp => fin h6 hd
  case hs => exact h7
  case lt => fin h8 tn tn' hr
  case hv =>
    intro u i e1 e2 e3
    by_cases e : u = t
    · subst e
      rw [tn] at e2
      have := h8 u
      by_cases e' : i ≤ s.mem.top (.nr u)
      · rw [mn u i e']
        fin e1 e2 e3 hr hd h9 e'
      · obtain rfl : i = s.mem.top (.nr u) + 1 := by omega
        rw [mt.1]
        simp only [upd_same] at e3
        rw [hr] at e3
        split at e3 <;> omega
    · rw [tn' u e] at e2
      rw [mn u i e2]
      rw [upd_ne _ _ e, upd_ne _ _ e] at e3
      exact h9 u i e1 e2 e3
  case hw =>
    intro u e0 i e1 e2
    by_cases e : u = t
    · subst e
      rw [tn] at e2
      simp only [upd_same] at e0 e1
      by_cases e' : i ≤ s.mem.top (.nr u)
      · rw [mn u i e']
        rw [hr] at e1
        split at e1
        · omega
        · exact h10 u (by omega) i e1 e'
      · obtain rfl : i = s.mem.top (.nr u) + 1 := by omega
        rw [mt.2]
        exact (hw e0).1
    · rw [tn' u e] at e2
      rw [mn u i e2]
      rw [upd_ne _ _ e] at e0 e1
      exact h10 u e0 i e1 e2
  case hr => fin h11 hw
  case oc => fin h12 hc
  case ck => fin h13 tn' hk
  case wf => fin h14 b2
  case fs => fin h15 b1
  case fq => fin h16 b1
  case fc => fin h17 b1 hk tn'
  case sn => fin h18 b4 hd hk
  case cr => fin h19 b3
  case gl => exact h20
  case gv => fin h21 mw h20
  case gw => fin h22 mw
  case gt => exact h25
  case qu => exact fun h => h23 fun u => by have := h u; fin this a3
  case rb => fin h24 hc hd

/-- A writer stores to `writer`: `ck_pr_fas_uint` or unlock. -/
theorem Inv.putW {s : St n} (hi : Inv s) {t : Fin n} {q : Th (Loc n)} {p : PC} {m : Mem (Loc n) Nat} {v wi lw lu : Nat} {base : Nat → Nat}
    {w : View (Loc n)} (hm : Put s.mem m .writer v w) (hc : ∀ y, y ≠ .writer → (s.th t).cur y ≤ q.cur y) (hr : ∀ y, (s.th t).rel y ≤ q.rel y)
    (hp : p.tent = false ∧ p.rd = false ∧ p.chk = false ∧ p.fen = false ∧ (∀ v : Fin n, ¬ p.seen v) ∧ p ≠ .writing)
    (hp' : (s.pc t).tent = false)
    (huq : p.own = true → ∀ u, (s.pc u).own = false)
    (how : ∀ u, (upd s.pc t p u).own = true →
      v ≠ 0 ∧ wi ≤ s.mem.top .writer + 1 ∧ ∀ j, wi ≤ j → j ≤ s.mem.top .writer → (s.mem.msg .writer j).val ≠ 0)
    (hfr : (∀ u, (upd s.pc t p u).own = false) → v = 0)
    (hwi : ∀ u, u ≠ t → (s.pc u).own = true → wi = s.wi)
    (hck : ∀ u, (s.pc u).chk = true → lw ≤ (s.th u).cur .writer)
    (hwf : p.wfen = true → wi ≤ q.cur .writer ∧ ∀ x, base x ≤ q.acq (.usr x))
    (hb : base = s.base ∨ (s.pc t).own = true ∧ ∀ u, s.depth u = 0)
    (hgl : lw ≤ lu ∧ lu ≤ s.mem.top .writer + 1 ∧ lw ≤ s.sc .writer)
    (hgv : ∀ i, lw ≤ i → i < lu → i ≤ s.mem.top .writer → (s.mem.msg .writer i).val ≠ 0)
    (hgw : ∀ i x, lu ≤ i → i ≤ s.mem.top .writer → base x ≤ (s.mem.msg .writer i).view (.usr x)) (hgw' : ∀ x, base x ≤ w (.usr x))
    (hgt : ∀ x, base x ≤ s.mem.top (.usr x))
    (hqu : (∀ u, upd s.pc t p u ≠ .writing) → ∀ x, s.mem.top (.usr x) ≤ base x) :
    Inv { s with mem := m, th := upd s.th t q, pc := upd s.pc t p, wi := wi, lw := lw, lu := lu, base := base } := by
  have hz := fun u v => PC.fen_of_seen (n := n) (p := s.pc u) (v := v)
  have hy := fun u => PC.own_of_fen (p := s.pc u)
  have hy' := fun u => PC.own_of_wfen (p := s.pc u)
  obtain ⟨h1, h2, h3, h4, h5, h6, h7, h8, h9, h10, h11, h12, h13, h14, h15, h16, h17, h18, h19, h20, h21, h22, h25, h23, h24⟩ := hi
  have tw : m.top .writer = s.mem.top .writer + 1 := by rw [hm.top, if_pos rfl]
  have tn : ∀ u, m.top (.nr u) = s.mem.top (.nr u) := fun u => hm.top_ne (by simp)
  have tu : ∀ x, m.top (.usr x) = s.mem.top (.usr x) := fun x => hm.top_ne (by simp)
  have to : ∀ u, m.top (.own u) = s.mem.top (.own u) := fun x => hm.top_ne (by simp)
  have mw : ∀ i, i ≤ s.mem.top .writer → m.msg .writer i = s.mem.msg .writer i := fun i h => hm.old _ _ h
  have mt : (m.msg .writer (s.mem.top .writer + 1)).val = v ∧ (m.msg .writer (s.mem.top .writer + 1)).view = w := by rw [hm.new]; exact ⟨rfl, rfl⟩
  have mn : ∀ u i, i ≤ s.mem.top (.nr u) → m.msg (.nr u) i = s.mem.msg (.nr u) i := fun u i h => hm.old _ _ h
  have ln : ∀ u, m.last (.nr u) = s.mem.last (.nr u) := fun u => by rw [hm.last, if_neg (by simp)]
  have lw' : m.last .writer = v := by rw [hm.last, if_pos rfl]
  obtain ⟨a1, a2, a3, a4, a5, a6⟩ := hp
  constructor <;> simp only [tw, tn, tu, to, ln]
  case uq => fin h1 huq
  case ow =>
    intro u hu
    obtain ⟨e1, e2, e3⟩ := how u hu
    refine ⟨e2, fun j k1 k2 => ?_⟩
    by_cases e : j ≤ s.mem.top .writer
    · rw [mw j e]; exact e3 j k1 e
    · obtain rfl : j = s.mem.top .writer + 1 := by omega
      rw [mt.1]; exact e1
  case fr => exact fun h => lw'.trans (hfr h)
  case nt => fin h4 hc
  case nv => fin h5 a1 hp'
  case dp => fin h6 a2
  case hs => exact h7
  case lt => exact h8
  case hv => fin h9 mn
  case hw => fin h10 mn
  case hr => fin h11 hr
  case oc => fin h12 hc
  case ck => fin h13 hck a3
  case wf => fin h14 hwf hwi hy' hb h1
  case fs => fin h15 a4 hwi hy hb h1
  case fq => fin h16 a4
  case fc => fin h17 a4 a3 hwi hy
  case sn => fin h18 a5 a3 hz hwi hy
  case cr => fin h19 a6
  case gl => exact ⟨hgl.1, hgl.2.1, hgl.2.2⟩
  case gv =>
    intro i k1 k2
    have := hgl.2.1
    rw [mw i (by omega)]
    exact hgv i k1 k2 (by omega)
  case gw =>
    intro i x k1 k2
    by_cases e : i ≤ s.mem.top .writer
    · rw [mw i e]; exact hgw i x k1 e
    · obtain rfl : i = s.mem.top .writer + 1 := by omega
      rw [mt.2]; exact hgw' x
  case gt => exact hgt
  case qu => exact hqu
  case rb => fin h24 hc hb

/-- A writer stores to its data. -/
theorem Inv.putU {s : St n} (hi : Inv s) {t : Fin n} {q : Th (Loc n)} {m : Mem (Loc n) Nat} {x v : Nat} {w : View (Loc n)}
    (hm : Put s.mem m (.usr x) v w) (hc : ∀ y, y ≠ .usr x → (s.th t).cur y ≤ q.cur y) (hcx : q.cur (.usr x) = s.mem.top (.usr x) + 1)
    (ha : ∀ y, (s.th t).acq y ≤ q.acq y) (hr : ∀ y, (s.th t).rel y ≤ q.rel y) (hp : s.pc t = .writing) :
    Inv { s with mem := m, th := upd s.th t q } := by
  have hz := fun u => PC.own_of_fen (p := s.pc u)
  obtain ⟨h1, h2, h3, h4, h5, h6, h7, h8, h9, h10, h11, h12, h13, h14, h15, h16, h17, h18, h19, h20, h21, h22, h25, h23, h24⟩ := hi
  have tw : m.top .writer = s.mem.top .writer := hm.top_ne (by simp)
  have tn : ∀ u, m.top (.nr u) = s.mem.top (.nr u) := fun u => hm.top_ne (by simp)
  have tx : m.top (.usr x) = s.mem.top (.usr x) + 1 := by rw [hm.top, if_pos rfl]
  have tu : ∀ y, y ≠ x → m.top (.usr y) = s.mem.top (.usr y) := fun y hy => hm.top_ne (by simpa using hy)
  have to : ∀ u, m.top (.own u) = s.mem.top (.own u) := fun x => hm.top_ne (by simp)
  have mw : ∀ i, i ≤ s.mem.top .writer → m.msg .writer i = s.mem.msg .writer i := fun i h => hm.old _ _ h
  have mn : ∀ u i, i ≤ s.mem.top (.nr u) → m.msg (.nr u) i = s.mem.msg (.nr u) i := fun u i h => hm.old _ _ h
  have ln : ∀ u, m.last (.nr u) = s.mem.last (.nr u) := fun u => by rw [hm.last, if_neg (by simp)]
  have lw : m.last .writer = s.mem.last .writer := by rw [hm.last, if_neg (by simp)]
  have hu : ∀ u, s.pc u = .writing → u = t := fun u h => h1 u t (by rw [h]; rfl) (by rw [hp]; rfl)
  have hb : ∀ u, (∀ y, s.base y ≤ (s.th u).cur (.usr y)) → ∀ y, s.base y ≤ (upd s.th t q u).cur (.usr y) := by
    intro u h y
    have := h25 y
    have := h y
    by_cases e : u = t
    · subst e
      rw [upd_same]
      by_cases e' : y = x
      · subst e'; omega
      · exact Nat.le_trans this (hc _ (by simpa using e'))
    · rwa [upd_ne _ _ e]
  constructor <;> simp only [tw, tn, to, ln, lw]
  case uq => exact h1
  case ow => fin h2 mw
  case fr => exact h3
  case nt => fin h4 hc
  case nv => exact h5
  case dp => exact h6
  case hs => exact h7
  case lt => exact h8
  case hv => fin h9 mn
  case hw => fin h10 mn
  case hr => fin h11 hr
  case oc => fin h12 hc
  case ck => fin h13 hc
  case wf => fin h14 hc ha
  case fs => exact fun u h => ⟨(h15 u h).1, hb u (h15 u h).2⟩
  case fq => fin h16 hc
  case fc => fin h17 hc
  case sn => fin h18 hc ha
  case cr =>
    intro u h
    obtain rfl := hu u h
    rw [upd_same]
    refine ⟨fun y => ?_, fun v => Nat.le_trans ((h19 u h).2 v) (hc _ (by simp))⟩
    by_cases e : y = x
    · subst e; rw [tx, hcx]; exact Nat.le_refl _
    · rw [tu y e]; exact Nat.le_trans ((h19 u h).1 y) (hc _ (by simpa using e))
  case gl => exact h20
  case gv => fin h21 mw h20
  case gw => fin h22 mw
  case gt => exact fun y => Nat.le_trans (h25 y) (hm.top_le _)
  case qu => exact fun h => absurd hp (h t)
  case rb => exact fun u h => hb u (h24 u h)

/-- A reader stores to its own word. -/
theorem Inv.putO {s : St n} (hi : Inv s) {t : Fin n} {q : Th (Loc n)} {m : Mem (Loc n) Nat} {v : Nat} {w : View (Loc n)}
    (hm : Put s.mem m (.own t) v w) (hc : ∀ y, y ≠ .own t → (s.th t).cur y ≤ q.cur y) (hcx : q.cur (.own t) = s.mem.top (.own t) + 1)
    (ha : ∀ y, (s.th t).acq y ≤ q.acq y) (hr : ∀ y, (s.th t).rel y ≤ q.rel y) (hd : 0 < s.depth t) :
    Inv { s with mem := m, th := upd s.th t q } := by
  obtain ⟨h1, h2, h3, h4, h5, h6, h7, h8, h9, h10, h11, h12, h13, h14, h15, h16, h17, h18, h19, h20, h21, h22, h25, h23, h24⟩ := hi
  have tw : m.top .writer = s.mem.top .writer := hm.top_ne (by simp)
  have tn : ∀ u, m.top (.nr u) = s.mem.top (.nr u) := fun u => hm.top_ne (by simp)
  have tu : ∀ y, m.top (.usr y) = s.mem.top (.usr y) := fun y => hm.top_ne (by simp)
  have tx : m.top (.own t) = s.mem.top (.own t) + 1 := by rw [hm.top, if_pos rfl]
  have to : ∀ u, u ≠ t → m.top (.own u) = s.mem.top (.own u) := fun u hu => hm.top_ne (by simpa using hu)
  have mw : ∀ i, i ≤ s.mem.top .writer → m.msg .writer i = s.mem.msg .writer i := fun i h => hm.old _ _ h
  have mn : ∀ u i, i ≤ s.mem.top (.nr u) → m.msg (.nr u) i = s.mem.msg (.nr u) i := fun u i h => hm.old _ _ h
  have ln : ∀ u, m.last (.nr u) = s.mem.last (.nr u) := fun u => by rw [hm.last, if_neg (by simp)]
  have lw : m.last .writer = s.mem.last .writer := by rw [hm.last, if_neg (by simp)]
  have hnw : ∀ u, s.pc u ≠ .writing := fun u h => by
    have := (h18 u t (by rw [h]; trivial)).1
    omega
  constructor <;> simp only [tw, tn, tu, ln, lw]
  case uq => exact h1
  case ow => fin h2 mw
  case fr => exact h3
  case nt => fin h4 hc
  case nv => exact h5
  case dp => exact h6
  case hs => exact h7
  case lt => exact h8
  case hv => fin h9 mn
  case hw => fin h10 mn to hd
  case hr => fin h11 hr to hd
  case oc =>
    intro u
    by_cases e : u = t
    · subst e; rw [tx, upd_same, hcx]; exact Nat.le_refl _
    · rw [to u e, upd_ne _ _ e]; exact h12 u
  case ck => fin h13 hc
  case wf => fin h14 hc ha
  case fs => fin h15 hc
  case fq => fin h16 hc
  case fc => fin h17 hc
  case sn => fin h18 hc ha to hd
  case cr => exact fun u h => absurd h (hnw u)
  case gl => exact h20
  case gv => fin h21 mw h20
  case gw => fin h22 mw
  case gt => exact h25
  case qu => exact h23
  case rb => fin h24 hc

/-! ## Steps -/

theorem fenceAcq_le (b : Bool) (q : Th (Loc n)) (y : Loc n) : q.cur y ≤ (opt b Th.fenceAcq q).cur y := by
  cases b
  · exact Nat.le_refl _
  · exact le_join_left _ _ _

/-- The slow path of a reader. -/
theorem Inv.goR {s : St n} (hi : Inv s) {t : Fin n} {q : Th (Loc n)} {p : PC} (hc : ∀ y, (s.th t).cur y ≤ q.cur y)
    (ha : ∀ y, (s.th t).acq y ≤ q.acq y) (hr : s.mem.top (.own t) ≤ (s.th t).rel (.own t) → s.mem.top (.own t) ≤ q.rel (.own t)) (ho : (s.pc t).own = false ∧ (s.pc t).tent = false)
    (hp : p = .idle ∨ (∃ tr, p = .rLoad tr) ∨ ∃ tr, p = .rSet tr) (hd : p.rd = true → s.depth t = 0) :
    Inv { s with th := upd s.th t q, pc := upd s.pc t p } := by
  have hw : s.pc t = .writing → p = .writing := fun h => by rw [h] at ho; cases ho.1
  rcases hp with rfl | ⟨tr, rfl⟩ | ⟨tr, rfl⟩ <;>
    exact hi.go hc ha hr (fun _ => Nat.le_refl _) ho.1.symm ho.2.symm hd nofun nofun nofun nofun nofun hw

theorem Inv.rcall {s s' : St n} (hi : Inv s) {t : Fin n} {tr : Bool} {i : Nat} (hs : step real s (.rcall t tr i) = some s') : Inv s' := by
  simp only [step] at hs
  split at hs
  · next hp =>
    obtain ⟨hp, h1, h2⟩ := hp
    obtain rfl : i = s.mem.top (.nr t) := Nat.le_antisymm h2 (Nat.le_trans (hi.nt t) h1)
    have hv := hi.nv t
    rw [hp] at hv
    simp only [Mem.last, PC.tent, Bool.toNat_false, Nat.add_zero] at hv
    split at hs <;> simp only [Option.some.injEq] at hs <;> subst hs
    · next h =>
      have := hi.putN (p := .idle) (d := s.depth t + 1) (r := s.lr t) (q := ((s.th t).load s.mem (.nr t) (s.mem.top (.nr t))).store s.mem (.nr t))
        (Put.store s.mem ((s.th t).load s.mem (.nr t) (s.mem.top (.nr t))) (.nr t) ((s.mem.msg (.nr t) (s.mem.top (.nr t))).val + 1))
        (fun y hy => Nat.le_trans (Th.load_cur_le _ _ _ _ _) (Th.store_cur_le _ _ _ hy)) (by simp [Th.store]) (by rw [hp]; rfl) rfl rfl
        (by rw [hv]; rfl) (fun _ => ⟨by omega, rfl⟩) (by simp) (by omega)
      rw [upd_eq_self s.lr, ← hp, upd_eq_self s.pc] at this
      exact this
    · exact hi.goR (Th.load_cur_le _ _ _ _) (Th.load_acq_le _ _ _ _) id (by rw [hp]; exact ⟨rfl, rfl⟩) (.inr (.inl ⟨tr, rfl⟩))
        fun _ => by omega
  · cases hs

theorem Inv.rlook {s s' : St n} (hi : Inv s) {t : Fin n} {i : Nat} {g : Bool} (hs : step real s (.rlook t i g) = some s') : Inv s' := by
  cases hp : s.pc t <;> simp only [step, hp, reduceCtorEq] at hs
  next tr =>
  split at hs <;> simp only [Option.some.injEq, reduceCtorEq] at hs
  subst hs
  have hd := hi.dp t (by rw [hp]; rfl)
  refine hi.goR (Th.load_cur_le _ _ _ _) (Th.load_acq_le _ _ _ _) id (by rw [hp]; exact ⟨rfl, rfl⟩) ?_ fun _ => hd
  split
  · exact .inr (.inr ⟨tr, rfl⟩)
  · split
    · exact .inl rfl
    · exact .inr (.inl ⟨tr, rfl⟩)

theorem Inv.rset {s s' : St n} (hi : Inv s) {t : Fin n} (hs : step real s (.rset t) = some s') : Inv s' := by
  cases hp : s.pc t <;> simp only [step, hp, reduceCtorEq, Option.some.injEq] at hs
  next tr =>
  subst hs
  have hd := hi.dp t (by rw [hp]; rfl)
  have := hi.putN (p := .rFence tr) (d := 0) (r := s.lr t) (q := (s.th t).store s.mem (.nr t)) (Put.store s.mem (s.th t) (.nr t) 1)
    (fun y hy => Th.store_cur_le _ _ _ hy) (by simp [Th.store]) (by rw [hp]; rfl) rfl rfl rfl (by omega) (by simp [hd])
    (fun _ => ⟨by rw [upd_ne _ _ (by simp)]; exact hi.hr t hd, hi.hr t hd⟩)
  rw [upd_eq_self s.lr, ← hd, upd_eq_self s.depth] at this
  exact this

theorem Inv.rback {s s' : St n} (hi : Inv s) {t : Fin n} {g : Bool} (hs : step real s (.rback t g) = some s') : Inv s' := by
  cases hp : s.pc t <;> simp only [step, hp, reduceCtorEq, Option.some.injEq] at hs
  next tr =>
  subst hs
  have hd := hi.dp t (by rw [hp]; rfl)
  have := hi.putN (p := if tr && g then .idle else .rLoad tr) (d := 0) (r := s.lr t) (q := (s.th t).store s.mem (.nr t)) (Put.store s.mem (s.th t) (.nr t) 0)
    (fun y hy => Th.store_cur_le _ _ _ hy) (by simp [Th.store]) (by rw [hp]; rfl) (by split <;> rfl) (by split <;> rfl) (by split <;> rfl) (by omega)
    (by simp [hd]) (fun _ => ⟨by rw [upd_ne _ _ (by simp)]; exact hi.hr t hd, hi.hr t hd⟩)
  rw [upd_eq_self s.lr] at this
  have e : upd s.depth t 0 = s.depth := by rw [← hd, upd_eq_self]
  rw [e] at this
  exact this

theorem Inv.runlock {s s' : St n} (hi : Inv s) {t : Fin n} {i : Nat} (hs : step real s (.runlock t i) = some s') : Inv s' := by
  simp only [step] at hs
  split at hs <;> simp only [Option.some.injEq, reduceCtorEq] at hs
  next hp =>
  subst hs
  obtain ⟨hp, hd, h1, h2⟩ := hp
  obtain rfl : i = s.mem.top (.nr t) := Nat.le_antisymm h2 (Nat.le_trans (hi.nt t) h1)
  have hv := hi.nv t
  rw [hp] at hv
  simp only [Mem.last, PC.tent, Bool.toNat_false, Nat.add_zero] at hv
  have ho : s.mem.top (.own t) ≤ (Th.fenceRel (s.th t)).rel (.own t) := Nat.le_trans (hi.oc t) (le_join_right _ _ _)
  have := hi.putN (p := .idle) (d := s.depth t - 1) (r := if s.depth t = 1 then s.mem.top (.nr t) + 1 else s.lr t)
    (q := ((opt real.runlock Th.fenceRel (s.th t)).load s.mem (.nr t) (s.mem.top (.nr t))).store s.mem (.nr t))
    (Put.store s.mem ((opt real.runlock Th.fenceRel (s.th t)).load s.mem (.nr t) (s.mem.top (.nr t))) (.nr t) ((s.mem.msg (.nr t) (s.mem.top (.nr t))).val - 1))
    (fun y hy => Nat.le_trans (Th.load_cur_le (opt real.runlock Th.fenceRel (s.th t)) _ _ _ _) (Th.store_cur_le _ _ _ hy)) (by simp [Th.store])
    (by rw [hp]; rfl) rfl rfl (by rw [hv]; rfl) (fun _ => ⟨hd, rfl⟩) (by split <;> split <;> first | rfl | omega)
    (fun _ => ⟨by rw [upd_ne _ _ (by simp)]; exact ho, ho⟩)
  rw [← hp, upd_eq_self s.pc] at this
  have e : (if s.depth t = 1 then upd s.lr t (s.mem.top (.nr t) + 1) else s.lr) = upd s.lr t (if s.depth t = 1 then s.mem.top (.nr t) + 1 else s.lr t) := by
    split
    · rfl
    · rw [upd_eq_self]
  rw [e]
  exact this

theorem fence_cur (q : Th (Loc n)) (sc : View (Loc n)) (y : Loc n) : q.cur y ≤ (q.fence sc).cur y :=
  Nat.le_trans (le_join_left _ _ _) (le_join_left _ _ _)
theorem fence_acq (q : Th (Loc n)) (sc : View (Loc n)) (y : Loc n) : q.acq y ≤ (q.fence sc).cur y :=
  Nat.le_trans (le_join_right _ _ _) (le_join_left _ _ _)
theorem fence_sc (q : Th (Loc n)) (sc : View (Loc n)) (y : Loc n) : sc y ≤ (q.fence sc).cur y := le_join_right _ _ _

theorem Inv.rfence {s s' : St n} (hi : Inv s) {t : Fin n} (hs : step real s (.rfence t) = some s') :
    Inv s' := by
  cases hp : s.pc t <;> simp only [step, hp, reduceCtorEq, Option.some.injEq, real, if_true] at hs
  next tr =>
  subst hs
  have hd := hi.dp t (by rw [hp]; rfl)
  refine hi.go (fence_cur _ _) (fence_acq _ _) (fun _ => Nat.le_trans (hi.oc t) (fence_cur _ _ _)) (fence_sc _ _) (by rw [hp]; rfl) (by rw [hp]; rfl)
    (fun _ => hd) (fun _ => .inr ⟨?_, ?_, fun u hu => ?_⟩) nofun nofun nofun nofun (fun h => by rw [hp] at h; cases h)
  · exact Nat.le_trans (hi.nt t) (fence_cur _ _ _)
  · exact Nat.le_trans hi.gl.2.2 (fence_sc _ _ _)
  · exact Nat.le_trans (hi.fs u hu).1 (fence_sc _ _ _)

theorem Inv.rchk {s s' : St n} (hi : Inv s) {t : Fin n} {i : Nat} (hs : step real s (.rchk t i) = some s') : Inv s' := by
  cases hp : s.pc t <;> simp only [step, hp, reduceCtorEq] at hs
  next tr =>
  have hd := hi.dp t (by rw [hp]; rfl)
  split at hs
  · next hm =>
    split at hs <;> simp only [Option.some.injEq] at hs <;> subst hs
    · next hv =>
      have hk : (s.pc t).chk = true := by rw [hp]; rfl
      refine hi.enter (fun y => Nat.le_trans (Th.load_cur_le _ _ _ _ _) (fenceAcq_le _ _ _)) (Th.load_acq_le _ _ _ _) (fun _ => Nat.le_refl _)
        hk (fun u hu h => ?_) (fun x => ?_)
      · exact (hi.ow u (PC.own_of_fen hu)).2 i (Nat.le_trans h hm.1) hm.2 hv
      · have h1 := Nat.le_trans (hi.ck t hk).2 hm.1
        have h2 : s.lu ≤ i := Nat.le_of_not_lt fun h => hi.gv i h1 h hv
        exact Nat.le_trans (hi.gw i x h2 hm.2) (Nat.le_trans (Th.load_view_le _ _ _ _ _) (le_join_right _ _ _))
    · exact hi.go (Th.load_cur_le _ _ _ _) (Th.load_acq_le _ _ _ _) id (fun _ => Nat.le_refl _) (by rw [hp]; rfl) (by rw [hp]; rfl)
        (fun _ => hd) nofun nofun nofun nofun nofun (fun h => by rw [hp] at h; cases h)
  · cases hs

theorem Inv.wcall {s s' : St n} (hi : Inv s) {t : Fin n} {tr : Bool} (hs : step real s (.wcall t tr) = some s') : Inv s' := by
  simp only [step] at hs
  split at hs <;> simp only [Option.some.injEq, reduceCtorEq] at hs
  next hp =>
  subst hs
  have := hi.go (t := t) (q := s.th t) (p := .wFas tr) (sc := s.sc) (fun _ => Nat.le_refl _) (fun _ => Nat.le_refl _) id (fun _ => Nat.le_refl _) (by rw [hp]; rfl)
    (by rw [hp]; rfl) nofun nofun nofun nofun nofun nofun (fun h => by rw [hp] at h; cases h)
  rwa [upd_eq_self] at this

theorem hall {P : Fin n → Prop} {t : Fin n} (ht : P t) (h : ∀ u, u ≠ t → P u) : ∀ u, P u := fun u => by
  by_cases hu : u = t
  · subst hu; exact ht
  · exact h u hu

theorem Inv.wfas {s s' : St n} (hi : Inv s) {t : Fin n} {g : Bool} (hs : step real s (.wfas t g) = some s') : Inv s' := by
  cases hp : s.pc t <;> simp only [step, hp, reduceCtorEq] at hs
  next tr =>
  have hm := Put.rmw s.mem (s.th t) .writer 1
  have hgw : ∀ x, s.base x ≤ (s.mem.msg .writer (s.mem.top .writer)).view (.usr x) := fun x => hi.gw _ x hi.gl.2.1 (Nat.le_refl _)
  have hvw : ∀ x, s.base x ≤ upd (join (s.th t).rel (s.mem.msg .writer (s.mem.top .writer)).view) .writer (s.mem.top .writer + 1) (.usr x) := fun x => by
    rw [upd_ne _ _ (by simp)]
    exact Nat.le_trans (hgw x) (le_join_right _ _ _)
  have hgl : s.lw ≤ s.lu ∧ s.lu ≤ s.mem.top .writer + 1 ∧ s.lw ≤ s.sc .writer := ⟨hi.gl.1, Nat.le_succ_of_le hi.gl.2.1, hi.gl.2.2⟩
  have hqu : ∀ p, p ≠ PC.writing → (∀ u, upd s.pc t p u ≠ .writing) → ∀ x, s.mem.top (.usr x) ≤ s.base x := fun p hp' h =>
    hi.qu (hall (t := t) (by rw [hp]; simp) fun u hu => by have := h u; rwa [upd_ne _ _ hu] at this)
  split at hs <;> simp only [Option.some.injEq] at hs <;> subst hs
  · next h0 =>
    have hno : ∀ u, (s.pc u).own = false := fun u => by
      cases h : (s.pc u).own
      · rfl
      · exact absurd h0 ((hi.ow u h).2 _ (hi.ow u h).1 (Nat.le_refl _))
    refine hi.putW (p := .wFence tr) hm (fun y hy => Th.rmw_cur_le _ _ _ hy) (fun _ => Nat.le_refl _) ⟨rfl, rfl, rfl, rfl, nofun, nofun⟩ (by rw [hp]; rfl)
      (fun _ => hno) (fun u hu => ⟨by simp, Nat.le_refl _, fun j _ _ => by omega⟩) (fun h => ?_) (fun u _ h => ?_) (fun u h => (hi.ck u h).2) (fun _ => ⟨?_, fun x => ?_⟩) (.inl rfl) hgl
      (fun i h1 h2 _ => hi.gv i h1 h2) (fun i x h1 h2 => hi.gw i x h1 h2) hvw hi.gt (hqu _ (by simp))
    · have := h t; rw [upd_same] at this; cases this
    · rw [hno] at h; cases h
    · simp [Th.rmw, Th.store]
    · exact Nat.le_trans (hgw x) (Th.load_view_le _ _ _ _ _)
  · next h0 =>
    have hne : ¬ ∀ u, (s.pc u).own = false := fun h => h0 (hi.fr h)
    refine hi.putW (p := if tr && g then .idle else .wFas tr) hm (fun y hy => Th.rmw_cur_le _ _ _ hy) (fun _ => Nat.le_refl _) ?_ (by rw [hp]; rfl)
      ?_ (fun u hu => ⟨by simp, ?_, ?_⟩) (fun h => ?_) (fun u _ h => rfl) (fun u h => (hi.ck u h).2) ?_ (.inl rfl) hgl
      (fun i h1 h2 _ => hi.gv i h1 h2) (fun i x h1 h2 => hi.gw i x h1 h2) hvw hi.gt (hqu _ (by split <;> simp))
    · split <;> exact ⟨rfl, rfl, rfl, rfl, nofun, nofun⟩
    · split <;> nofun
    · by_cases e : u = t
      · subst e; rw [upd_same] at hu; split at hu <;> cases hu
      · rw [upd_ne _ _ e] at hu; exact Nat.le_succ_of_le (hi.ow u hu).1
    · by_cases e : u = t
      · subst e; rw [upd_same] at hu; split at hu <;> cases hu
      · rw [upd_ne _ _ e] at hu; exact (hi.ow u hu).2
    · exact absurd (hall (t := t) (by rw [hp]; rfl) fun u hu => by have := h u; rwa [upd_ne _ _ hu] at this) hne
    · split <;> nofun

theorem Inv.wfence {s s' : St n} (hi : Inv s) {t : Fin n} (hs : step real s (.wfence t) = some s') :
    Inv s' := by
  cases hp : s.pc t <;> simp only [step, hp, reduceCtorEq, Option.some.injEq, real, if_true] at hs
  next tr =>
  subst hs
  have hw := hi.wf t (by rw [hp]; rfl)
  refine hi.go (fence_cur _ _) (fence_acq _ _) (fun _ => Nat.le_trans (hi.oc t) (fence_cur _ _ _)) (fence_sc _ _) (by rw [hp]; rfl) (by rw [hp]; rfl)
    nofun nofun nofun (fun _ => .inr ⟨?_, fun x => ?_, fun v => ?_⟩) (fun v h => absurd h (Nat.not_lt_zero _)) nofun (fun h => by rw [hp] at h; cases h)
  · exact Nat.le_trans hw.1 (fence_cur _ _ _)
  · exact Nat.le_trans (hw.2 x) (fence_acq _ _ _)
  · exact fence_sc _ _ _

theorem Inv.wscan {s s' : St n} (hi : Inv s) {t c : Fin n} {i : Nat} {g : Bool} (hs : step real s (.wscan t c i g) = some s') : Inv s' := by
  cases hp : s.pc t <;> simp only [step, hp, reduceCtorEq] at hs
  next tr k =>
  split at hs <;> simp only [Option.some.injEq, reduceCtorEq] at hs
  next hk =>
  obtain ⟨rfl, hm⟩ := hk
  subst hs
  have hf : (s.pc t).fen = true := by rw [hp]; rfl
  have hsn : ∀ v : Fin n, v < (c : Nat) → (s.pc t).seen v := fun v h => by rw [hp]; exact h
  by_cases hv : (s.mem.msg (.nr c) i).val = 0
  · have h1 : s.lr c ≤ i ∧ s.depth c = 0 := by
      have := fun h => hi.hv c i (Nat.le_trans (hi.fq t hf c) hm.1) hm.2 h hv
      exact ⟨Nat.le_of_not_lt fun h => this (.inr h), Nat.eq_zero_of_not_pos fun h => this (.inl h)⟩
    rw [if_pos hv]
    refine hi.go (Th.load_cur_le _ _ _ _) (Th.load_acq_le _ _ _ _) id (fun _ => Nat.le_refl _) (by rw [hp]; rfl) (by rw [hp]; rfl)
      nofun nofun nofun (fun _ => .inl hf) (fun v h => ?_) nofun (fun h => by rw [hp] at h; cases h)
    by_cases e : v = c
    · subst e
      refine .inr ⟨h1.2, Nat.le_trans (hi.hw v h1.2 i h1.1 hm.2) (Th.load_view_le _ _ _ _ _), fun hk => ?_⟩
      rcases hi.fc t v hf hk with h | h
      · exact h
      · obtain rfl : i = s.mem.top (.nr v) := Nat.le_antisymm hm.2 (Nat.le_trans h hm.1)
        have := hi.nv v
        rw [Mem.last, hv] at this
        revert hk this
        cases s.pc v <;> simp
    · exact .inl (hsn v (by have : (v : Nat) < c + 1 := h; have : (v : Nat) ≠ c := fun h => e (Fin.ext h); omega))
  · rw [if_neg hv]
    split
    · exact hi.go (Th.load_cur_le _ _ _ _) (Th.load_acq_le _ _ _ _) id (fun _ => Nat.le_refl _) (by rw [hp]; rfl) (by rw [hp]; rfl)
        nofun nofun nofun (fun _ => .inl hf) nofun nofun (fun h => by rw [hp] at h; cases h)
    · exact hi.go (Th.load_cur_le _ _ _ _) (Th.load_acq_le _ _ _ _) id (fun _ => Nat.le_refl _) (by rw [hp]) (by rw [hp])
        nofun nofun nofun (fun _ => .inl hf) (fun v h => .inl (hsn v h)) nofun (fun h => by rw [hp] at h; cases h)

theorem Inv.wdone {s s' : St n} (hi : Inv s) {t : Fin n} (hs : step real s (.wdone t) = some s') : Inv s' := by
  cases hp : s.pc t <;> simp only [step, hp, reduceCtorEq] at hs
  next tr k =>
  split at hs <;> simp only [Option.some.injEq, reduceCtorEq] at hs
  next hk =>
  subst hk hs
  have hf : (s.pc t).fen = true := by rw [hp]; rfl
  have hsn : ∀ v : Fin k, (s.pc t).seen v := fun v => by rw [hp]; exact v.2
  have hnw : ∀ u, s.pc u ≠ .writing := fun u h => by
    have := hi.uq u t (by rw [h]; rfl) (by rw [hp]; rfl)
    subst this
    rw [hp] at h; cases h
  refine hi.go (fenceAcq_le _ _) (fun _ => Nat.le_refl _) id (fun _ => Nat.le_refl _) (by rw [hp]; rfl) (by rw [hp]; rfl)
    nofun nofun nofun (fun _ => .inl hf) (fun v _ => .inl (hsn v)) (fun _ => ⟨fun x => ?_, fun v => ?_⟩) (fun h => by rw [hp] at h)
  · exact Nat.le_trans (hi.qu hnw x) (Nat.le_trans ((hi.fs t hf).2 x) (fenceAcq_le _ _ _))
  · exact Nat.le_trans (hi.sn t v (hsn v)).2.1 (le_join_right _ _ _)

theorem Inv.wback {s s' : St n} (hi : Inv s) {t : Fin n} (hs : step real s (.wback t) = some s') : Inv s' := by
  simp only [step] at hs
  split at hs <;> simp only [Option.some.injEq, reduceCtorEq] at hs
  next hp =>
  subst hs
  have hf : (s.pc t).fen = true := by rw [hp]; rfl
  have hno : ∀ u, u ≠ t → (s.pc u).own = false := fun u hu => by
    cases h : (s.pc u).own
    · rfl
    · exact absurd (hi.uq u t h (by rw [hp]; rfl)) hu
  refine hi.putW (p := .idle) (Put.store s.mem (Th.fenceRel (s.th t)) .writer 0) (fun y hy => Th.store_cur_le (Th.fenceRel (s.th t)) _ _ hy)
    (fun y => le_join_left _ _ _) ⟨rfl, rfl, rfl, rfl, nofun, nofun⟩ (by rw [hp]; rfl) nofun (fun u hu => ?_) (fun _ => rfl) (fun u h1 h => ?_) (fun u h => (hi.ck u h).2) nofun (.inl rfl)
    ⟨hi.gl.1, Nat.le_succ_of_le hi.gl.2.1, hi.gl.2.2⟩ (fun i h1 h2 _ => hi.gv i h1 h2) (fun i x h1 h2 => hi.gw i x h1 h2) (fun x => ?_) hi.gt (fun h => ?_)
  · by_cases e : u = t
    · subst e; rw [upd_same] at hu; cases hu
    · rw [upd_ne _ _ e, hno u e] at hu; cases hu
  · rw [hno u h1] at h
  · rw [upd_ne _ _ (by simp)]
    exact Nat.le_trans ((hi.fs t hf).2 x) (le_join_right _ _ _)
  · exact hi.qu (hall (t := t) (by rw [hp]; simp) fun u hu => by have := h u; rwa [upd_ne _ _ hu] at this)

theorem Inv.wunlock {s s' : St n} (hi : Inv s) {t : Fin n} (hs : step real s (.wunlock t) = some s') : Inv s' := by
  simp only [step] at hs
  split at hs <;> simp only [Option.some.injEq, reduceCtorEq] at hs
  next hp =>
  subst hs
  have hf : (s.pc t).fen = true := by rw [hp]; rfl
  have ho := hi.ow t (PC.own_of_fen hf)
  have hsn : ∀ v : Fin n, (s.pc t).seen v := fun v => by rw [hp]; trivial
  have hno : ∀ u, u ≠ t → (s.pc u).own = false := fun u hu => by
    cases h : (s.pc u).own
    · rfl
    · exact absurd (hi.uq u t h (by rw [hp]; rfl)) hu
  refine hi.putW (p := .idle) (Put.store s.mem (Th.fenceRel (s.th t)) .writer 0) (fun y hy => Th.store_cur_le (Th.fenceRel (s.th t)) _ _ hy)
    (fun y => le_join_left _ _ _) ⟨rfl, rfl, rfl, rfl, nofun, nofun⟩ (by rw [hp]; rfl) nofun (fun u hu => ?_) (fun _ => rfl) (fun u h1 h => ?_)
    (fun u h => (hi.sn t u (hsn u)).2.2 h) nofun (.inr ⟨PC.own_of_fen hf, fun u => (hi.sn t u (hsn u)).1⟩)
    ⟨by have := ho.1; omega, Nat.le_refl _, (hi.fs t hf).1⟩ (fun i h1 _ h2 => ho.2 i h1 h2) (fun i x h1 h2 => by omega) (fun x => ?_)
    (fun _ => Nat.le_refl _) (fun _ _ => Nat.le_refl _)
  · by_cases e : u = t
    · subst e; rw [upd_same] at hu; cases hu
    · rw [upd_ne _ _ e, hno u e] at hu; cases hu
  · rw [hno u h1] at h
  · rw [upd_ne _ _ (by simp)]
    exact Nat.le_trans ((hi.cr t hp).1 x) (le_join_right _ _ _)

theorem Inv.load {s : St n} (hi : Inv s) (t : Fin n) (l : Loc n) (i : Nat) : Inv { s with th := upd s.th t ((s.th t).load s.mem l i) } := by
  have := hi.go (t := t) (q := (s.th t).load s.mem l i) (p := s.pc t) (sc := s.sc) (Th.load_cur_le _ _ _ _) (Th.load_acq_le _ _ _ _) id
    (fun _ => Nat.le_refl _) rfl rfl (hi.dp t) .inl id .inl (fun _ => .inl) (fun h => ⟨fun x => ?_, fun x => ?_⟩) id
  · rwa [upd_eq_self] at this
  · exact Nat.le_trans ((hi.cr t h).1 x) (Th.load_cur_le _ _ _ _ _)
  · exact Nat.le_trans ((hi.cr t h).2 x) (Th.load_cur_le _ _ _ _ _)

theorem Inv.client {s s' : St n} (hi : Inv s) {a : Act n}
    (ha : (∃ t x i, a = .read t x i) ∨ (∃ t x v, a = .write t x v) ∨ (∃ t v, a = .put t v) ∨ ∃ t u i, a = .get t u i)
    (hs : step real s a = some s') : Inv s' := by
  rcases ha with ⟨t, x, i, rfl⟩ | ⟨t, x, v, rfl⟩ | ⟨t, v, rfl⟩ | ⟨t, u, i, rfl⟩ <;> simp only [step] at hs <;> split at hs <;>
    simp only [Option.some.injEq, reduceCtorEq] at hs <;> subst hs
  · exact hi.load t _ _
  · next hp =>
    exact hi.putU (Put.store s.mem (s.th t) (.usr x) v) (fun y hy => Th.store_cur_le _ _ _ hy) (by simp [Th.store]) (fun _ => Nat.le_refl _)
      (fun _ => Nat.le_refl _) hp
  · next hp =>
    exact hi.putO (Put.store s.mem (s.th t) (.own t) v) (fun y hy => Th.store_cur_le _ _ _ hy) (by simp [Th.store]) (fun _ => Nat.le_refl _)
      (fun _ => Nat.le_refl _) hp.2
  · exact hi.load t _ _

theorem inv_step {s s' : St n} (hi : Inv s) {a : Act n} (hs : step real s a = some s') : Inv s' := by
  cases a
  case rcall => exact hi.rcall hs
  case rlook => exact hi.rlook hs
  case rset => exact hi.rset hs
  case rfence => exact hi.rfence hs
  case rchk => exact hi.rchk hs
  case rback => exact hi.rback hs
  case runlock => exact hi.runlock hs
  case wcall => exact hi.wcall hs
  case wfas => exact hi.wfas hs
  case wfence => exact hi.wfence hs
  case wscan => exact hi.wscan hs
  case wdone => exact hi.wdone hs
  case wback => exact hi.wback hs
  case wunlock => exact hi.wunlock hs
  case read => exact hi.client (.inl ⟨_, _, _, rfl⟩) hs
  case write => exact hi.client (.inr (.inl ⟨_, _, _, rfl⟩)) hs
  case put => exact hi.client (.inr (.inr (.inl ⟨_, _, rfl⟩))) hs
  case get => exact hi.client (.inr (.inr (.inr ⟨_, _, _, rfl⟩))) hs

theorem inv_init : Inv (initSt n) := by
  constructor <;> simp [initSt, Mem.init, Th.init, Mem.last]

theorem inv_reach {s : St n} (h : (sys real n).Reach s) : Inv s :=
  h.invariant (I := Inv) (by rintro s rfl; exact inv_init) fun _ _ _ hi hs => inv_step hi hs

/-! ## Theorems -/

/-- C82: a writer holds the lock alone. -/
theorem rw_exclusion {s : St n} (h : (sys real n).Reach s) : RwEx s.reads s.writes := by
  have hi := inv_reach h
  refine ⟨fun t u ht hu => hi.uq t u (by rw [show s.pc t = _ from ht]; rfl) (by rw [show s.pc u = _ from hu]; rfl), fun t u ht hu => ?_⟩
  have h1 := (hi.sn t u (by rw [show s.pc t = _ from ht]; trivial)).1
  have h2 : 0 < s.depth u := hu
  omega

/-- C82: a holder loads the newest value of any data word. -/
theorem reads_last {s s' : St n} (h : (sys real n).Reach s) {t : Fin n} {x i : Nat} (hs : (sys real n).step s (.read t x i) = some s') :
    (s.mem.msg (.usr x) i).val = s.mem.last (.usr x) := by
  have hi := inv_reach h
  simp only [sys, step] at hs
  split at hs
  · next hp =>
    have : s.mem.top (.usr x) ≤ (s.th t).cur (.usr x) := by
      rcases hp.1 with h | ⟨_, h⟩
      · exact (hi.cr t h).1 x
      · refine Nat.le_trans (hi.qu (fun u hu => ?_) x) (hi.rb t h x)
        have := (hi.sn u t (by rw [hu]; trivial)).1
        omega
    rw [show i = s.mem.top (.usr x) from Nat.le_antisymm hp.2.2 (Nat.le_trans this hp.2.1)]; rfl
  · cases hs

/-- C82: a writer loads the newest value stored by any reader. -/
theorem wreads_last {s s' : St n} (h : (sys real n).Reach s) {t u : Fin n} {i : Nat} (hs : (sys real n).step s (.get t u i) = some s') :
    (s.mem.msg (.own u) i).val = s.mem.last (.own u) := by
  simp only [sys, step] at hs
  split at hs
  · next hp =>
    rw [show i = s.mem.top (.own u) from Nat.le_antisymm hp.2.2 (Nat.le_trans (((inv_reach h).cr t hp.1).2 u) hp.2.1)]; rfl
  · cases hs

/-- C82: `n_readers` is the nesting depth of a thread that is not about to take the lock. -/
theorem count_exact {s : St n} (h : (sys real n).Reach s) {t : Fin n} (ht : s.pc t = .idle) : s.mem.last (.nr t) = s.depth t := by
  rw [(inv_reach h).nv t, ht]; rfl

/-! ## The fences are needed -/

/-- The run `as` is possible. -/
def can (fc : Fences) (as : List (Act 2)) : Bool := ((sys fc 2).run (initSt 2) as).isSome

/-- After the run `as` both threads hold the lock, thread 0 as a reader and thread 1 as a writer. -/
def both (fc : Fences) (as : List (Act 2)) : Bool := match (sys fc 2).run (initSt 2) as with
  | some s => decide (0 < s.depth 0 ∧ s.pc 1 = .writing)
  | none => false

/-- Reader and writer announce themselves, then each looks for the other. -/
def dekker : List (Act 2) :=
  [.rcall 0 false 0, .rlook 0 0 false, .rset 0, .wcall 1 false, .wfas 1 false, .wfence 1, .rfence 0, .rchk 0 0,
   .wscan 1 0 0 false, .wscan 1 1 0 false, .wdone 1]

/-- The same, the reader is faster. -/
def dekker' : List (Act 2) :=
  [.rcall 0 false 0, .rlook 0 0 false, .rset 0, .wcall 1 false, .wfas 1 false, .rfence 0, .rchk 0 0, .wfence 1,
   .wscan 1 0 0 false, .wscan 1 1 0 false, .wdone 1]

theorem no_fence_rd : both { real with rd := false } dekker = true := by decide +kernel
theorem no_fence_wr : both { real with wr := false } dekker' = true := by decide +kernel

/-- With the fences neither run is possible. -/
example : can real dekker = false ∧ can real dekker' = false := by decide +kernel

/-- Thread 1 takes the write lock, stores 5 and unlocks; thread 0 takes the read lock. -/
def wrote : List (Act 2) :=
  [.wcall 1 false, .wfas 1 false, .wfence 1, .wscan 1 0 0 false, .wscan 1 1 0 false, .wdone 1, .write 1 0 5, .wunlock 1,
   .rcall 0 false 0, .rlook 0 0 false, .rset 0, .rfence 0, .rchk 0 2]

theorem no_fence_rdAcq : can { real with rdAcq := false } (wrote ++ [.read 0 0 0]) = true := by decide +kernel
theorem no_fence_wunlock : can { real with wunlock := false } (wrote ++ [.read 0 0 0]) = true := by decide +kernel

/-- Thread 0 takes the read lock, stores 5 to its own word and unlocks; thread 1 takes the write lock. -/
def readw : List (Act 2) :=
  [.rcall 0 false 0, .rlook 0 0 false, .rset 0, .rfence 0, .rchk 0 0, .put 0 5, .runlock 0 1,
   .wcall 1 false, .wfas 1 false, .wfence 1, .wscan 1 0 2 false, .wscan 1 1 0 false, .wdone 1]

theorem no_fence_wrAcq : can { real with wrAcq := false } (readw ++ [.get 1 0 0]) = true := by decide +kernel
theorem no_fence_runlock : can { real with runlock := false } (readw ++ [.get 1 0 0]) = true := by decide +kernel

/-- With the fences the holders load 5. -/
example : can real (wrote ++ [.read 0 0 0]) = false ∧ can real (wrote ++ [.read 0 0 1]) = true ∧
    can real (readw ++ [.get 1 0 0]) = false ∧ can real (readw ++ [.get 1 0 1]) = true := by decide +kernel

/-- Nested read sections, a writer that gives up, a reader that backs out of an attempt. -/
example : can real [.rcall 0 false 0, .rlook 0 0 false, .rset 0, .rfence 0, .rchk 0 0, .rcall 0 false 1, .wcall 1 true, .wfas 1 false, .wfence 1,
    .wscan 1 0 2 false, .runlock 0 2, .wscan 1 0 3 true, .wback 1, .read 0 0 0, .runlock 0 3, .rcall 0 true 4, .rlook 0 0 false, .rset 0,
    .wcall 1 true, .wfas 1 false, .wfence 1, .rfence 0, .rchk 0 3, .rback 0 true, .wscan 1 0 6 false] = true := by decide +kernel

end Verif.Weak.Brlock
