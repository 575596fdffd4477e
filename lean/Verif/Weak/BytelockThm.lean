import Verif.Weak.Bytelock
import Verif.Core.Tactic

/-!
# Byte lock on relaxed memory: exclusion, and what the holders load (C92)

The argument: the full fences of reader and writer are ordered.  If the writer's was first, the reader loads `owner` as the writer has set it, or
newer; if the reader's was first, the writer loads the word in which the reader announced itself as the reader has set it, or newer.  A reader that was a writer before (downgrade) has no full fence; its slot
is passed on with the store of 0 to `owner`, which the next writer reads.  A writer that was a reader before (upgrade) clears its slot without a fence for release; what it stored as a reader is passed on
with its next store to `owner`.
-/

namespace Verif.Weak.Bytelock

open Verif Verif.Spec
open Fas (opt)

variable {n : Nat} {sl : Fin n → Bool}

/-! ## Classes of program counters -/

/-- owns `owner` -/
@[simp, grind] def PC.own : PC → Bool
  | .wClr | .wFence | .wScan _ | .writing | .dSet | .dRel => true
  | _ => false
/-- a writer before its full fence -/
@[simp, grind] def PC.wfen : PC → Bool
  | .wClr | .wFence => true
  | _ => false
/-- a writer after its full fence -/
@[simp, grind] def PC.fen : PC → Bool
  | .wScan _ | .writing | .dSet | .dRel => true
  | _ => false
/-- has announced itself as a reader tentatively -/
@[simp, grind] def PC.tent : PC → Bool
  | .rFence | .rChk | .rBack | .dRel => true
  | _ => false
/-- a reader after its full fence -/
@[simp, grind] def PC.chk : PC → Bool
  | .rChk => true
  | _ => false
/-- a writer that has seen all readers outside -/
@[simp, grind] def PC.crs : PC → Bool
  | .writing | .dSet | .dRel => true
  | _ => false
/-- the calls in which a thread may have the read lock -/
@[simp, grind] def PC.hld : PC → Bool
  | .idle | .wCas | .wClr => true
  | _ => false
/-- a writer that has seen reader `v` outside -/
@[simp, grind] def PC.seen (sl : Fin n → Bool) (v : Fin n) : PC → Prop
  | .wScan k => v < k ∧ sl v = true
  | .writing | .dSet | .dRel => True
  | _ => False

theorem PC.own_of_fen {p : PC} (h : p.fen = true) : p.own = true := by cases p <;> first | rfl | cases h
theorem PC.fen_of_seen {p : PC} {v : Fin n} (h : p.seen sl v) : p.fen = true := by cases p <;> first | rfl | cases h
theorem PC.own_of_wfen {p : PC} (h : p.wfen = true) : p.own = true := by cases p <;> first | rfl | cases h
theorem PC.fen_of_crs {p : PC} (h : p.crs = true) : p.fen = true := by cases p <;> first | rfl | cases h
theorem PC.seen_of_crs {p : PC} {v : Fin n} (h : p.crs = true) : p.seen sl v := by cases p <;> trivial

/-! ## Invariant -/

/-- Announced in `n_readers`. -/
def inn (sl : Fin n → Bool) (hold : Fin n → Bool) (pc : Fin n → PC) (t : Fin n) : Bool := !sl t && (hold t || (pc t).tent)

structure Inv (sl : Fin n → Bool) (s : St n) : Prop where
  /-- one owner -/
  uq : ∀ t u, (s.pc t).own = true → (s.pc u).own = true → t = u
  ow : ∀ t, (s.pc t).own = true → s.wi = s.mem.top .owner ∧ s.mem.last .owner = t + 1 ∧ s.wi ≤ (s.th t).cur .owner
  fr : (∀ t, (s.pc t).own = false) → s.mem.last .owner = 0
  os : ∀ t i, (s.th t).cur .owner ≤ i → i ≤ s.mem.top .owner → (s.mem.msg .owner i).val = t + 1 → (s.pc t).own = true
  /-- the readers -/
  nc : s.mem.last .count = cnt id (inn sl s.hold s.pc)
  tc : ∀ t, (s.pc t).tent = true → s.ti t ≤ (s.th t).cur (loc sl t)
  tv : ∀ t, (s.pc t).tent = true → s.ti t ≤ s.mem.top (loc sl t) ∧ ∀ i, s.ti t ≤ i → i ≤ s.mem.top (loc sl t) → (s.mem.msg (loc sl t) i).val ≠ 0
  dp : ∀ t, s.hold t = true → (s.pc t).hld = true ∧ (s.pc t = .idle ∨ sl t = true)
  ds : ∀ t, s.pc t = .dSet ∨ s.pc t = .dRel ∨ s.pc t = .wClr → sl t = true
  dw : ∀ t, s.pc t = .dRel → s.ti t ≤ (s.th t).wr (loc sl t)
  lt : ∀ t, s.lr t ≤ s.mem.top (loc sl t) ∧ s.lq t ≤ s.mem.top (loc sl t)
  hv : ∀ t i, s.lq t ≤ i → i ≤ s.mem.top (loc sl t) → s.hold t = true ∨ i < s.lr t → (s.mem.msg (loc sl t) i).val ≠ 0
  hs : ∀ t, s.lq t ≤ s.sc (loc sl t) ∨ s.lq t ≤ (s.mem.msg .owner (s.mem.top .owner)).view (loc sl t)
  hw : ∀ t, s.hold t = false → (s.pc t).own = false →
    (∀ i, s.lr t ≤ i → i ≤ s.mem.top (loc sl t) → s.mem.top (.own t) ≤ (s.mem.msg (loc sl t) i).view (.own t)) ∨ s.mem.top (.own t) ≤ s.ob t
  hr : ∀ t, s.hold t = false → s.pc t ≠ .wFence → s.mem.top (.own t) ≤ (s.th t).rel (.own t)
  oc : ∀ t, s.mem.top (.own t) ≤ (s.th t).cur (.own t)
  od : ∀ t, s.mem.top (.own t) ≤ (s.th t).wr (.own t)
  /-- a reader after its full fence -/
  ck : ∀ t, (s.pc t).chk = true → s.ti t ≤ s.sc (loc sl t) ∧ s.lu - 1 ≤ (s.th t).cur .owner
  /-- a writer before and after its full fence -/
  wf : ∀ u, (s.pc u).wfen = true → (∀ x, s.base x ≤ (s.th u).acq (.usr x)) ∧ (∀ t, s.ob t ≤ (s.th u).acq (.own t)) ∧
    ∀ t, s.lq t ≤ s.sc (loc sl t) ∨ s.lq t ≤ (s.th u).acq (loc sl t)
  fs : ∀ u, (s.pc u).fen = true → s.wi ≤ s.sc .owner ∧ (∀ x, s.base x ≤ (s.th u).cur (.usr x) ∧ s.base x ≤ (s.th u).rel (.usr x)) ∧
    ∀ t, s.ob t ≤ (s.th u).cur (.own t) ∧ s.ob t ≤ (s.th u).rel (.own t)
  fq : ∀ u, (s.pc u).fen = true → ∀ t, s.lq t ≤ (s.th u).cur (loc sl t) ∧ s.lq t ≤ s.sc (loc sl t)
  fc : ∀ u t, (s.pc u).fen = true → (s.pc t).chk = true → s.wi ≤ (s.th t).cur .owner ∨ s.ti t ≤ (s.th u).cur (loc sl t)
  sn : ∀ u t, (s.pc u).seen sl t → s.hold t = false ∧ (s.mem.top (.own t) ≤ (s.th u).cur (.own t) ∨ s.mem.top (.own t) ≤ (s.th u).acq (.own t)) ∧
    ((s.pc t).chk = true → s.wi ≤ (s.th t).cur .owner)
  cr : ∀ u, (s.pc u).crs = true → (∀ x, s.mem.top (.usr x) ≤ (s.th u).cur (.usr x)) ∧ (∀ t, s.mem.top (.own t) ≤ (s.th u).cur (.own t)) ∧
    ∀ x, s.mem.top (.usr x) ≤ (s.th u).rel (.usr x) ∨ s.mem.top (.usr x) ≤ (s.th u).wr (.usr x)
  /-- the last completed write section -/
  gl : s.lu ≤ s.mem.top .owner ∧ s.lu - 1 ≤ s.sc .owner
  gv : 0 < s.lu → (s.mem.msg .owner (s.lu - 1)).val ≠ 0
  gw : ∀ i x, s.lu ≤ i → i ≤ s.mem.top .owner → s.base x ≤ (s.mem.msg .owner i).view (.usr x)
  go : ∀ t, s.ob t ≤ (s.mem.msg .owner (s.mem.top .owner)).view (.own t)
  gt : ∀ x, s.base x ≤ s.mem.top (.usr x)
  qu : (∀ t, (s.pc t).crs = false) → ∀ x, s.mem.top (.usr x) ≤ s.base x
  rb : ∀ t, s.hold t = true → ∀ x, s.base x ≤ (s.th t).cur (.usr x)

theorem inn_congr {hold hold' : Fin n → Bool} {pc pc' : Fin n → PC} (h : ∀ t, (hold' t || (pc' t).tent) = (hold t || (pc t).tent)) :
    cnt id (inn sl hold' pc') = cnt id (inn sl hold pc) := cnt_congr fun t => by simp only [inn, h]

theorem inn_ext {hold hold' : Fin n → Bool} {pc pc' : Fin n → PC} {t : Fin n} (h : ∀ u, u ≠ t → hold' u = hold u ∧ pc' u = pc u) :
    cnt id (inn sl hold' pc') + (inn sl hold pc t).toNat = cnt id (inn sl hold pc) + (inn sl hold' pc' t).toNat := by
  have e : inn sl hold' pc' = upd (inn sl hold pc) t (inn sl hold' pc' t) := by
    funext u
    by_cases hu : u = t
    · subst hu; rw [upd_same]
    · rw [upd_ne _ _ hu]; simp only [inn, h u hu]
  have := cnt_update id (inn sl hold pc) t (inn sl hold' pc' t)
  rw [← e] at this
  simpa using this

/-- A step of `t` that does not store. -/
theorem Inv.step {s : St n} (hi : Inv sl s) {t : Fin n} {q : Th (Loc n)} {p : PC} {sc : View (Loc n)} (hc : ∀ y, (s.th t).cur y ≤ q.cur y)
    (ha : ∀ y, (s.th t).acq y ≤ q.acq y) (hr : (∀ y, (s.th t).rel y ≤ q.rel y) ∧ s.pc t ≠ .wFence ∨ (s.pc t).fen = false ∧ s.mem.top (.own t) ≤ q.rel (.own t))
    (hwr : q.wr = (s.th t).wr) (hs : ∀ y, s.sc y ≤ sc y)
    (ho : p.own = (s.pc t).own) (ht : p.tent = (s.pc t).tent) (hcs : (s.pc t).crs = true → p.crs = true)
    (hd : s.hold t = true → p.hld = true ∧ (p = .idle ∨ sl t = true))
    (hds : p = .dSet ∨ p = .dRel ∨ p = .wClr → sl t = true) (hdr : p = .dRel → s.pc t = .dRel)
    (hk : p.chk = true → (s.pc t).chk = true ∨
      s.ti t ≤ sc (loc sl t) ∧ s.lu - 1 ≤ q.cur .owner ∧ ∀ u, (s.pc u).fen = true → s.wi ≤ q.cur .owner)
    (hwf : p.wfen = true → (s.pc t).wfen = true)
    (hf : p.fen = true → (s.pc t).fen = true ∨
      s.wi ≤ sc .owner ∧ (∀ x, s.base x ≤ q.cur (.usr x) ∧ s.base x ≤ q.rel (.usr x)) ∧ (∀ v, s.ob v ≤ q.cur (.own v) ∧ s.ob v ≤ q.rel (.own v)) ∧
      (∀ v, s.lq v ≤ q.cur (loc sl v) ∧ s.lq v ≤ sc (loc sl v)) ∧ ∀ v, s.sc (loc sl v) ≤ q.cur (loc sl v))
    (hn : ∀ v, p.seen sl v → (s.pc t).seen sl v ∨
      s.hold v = false ∧ (s.mem.top (.own v) ≤ q.cur (.own v) ∨ s.mem.top (.own v) ≤ q.acq (.own v)) ∧ ((s.pc v).chk = true → s.wi ≤ (s.th v).cur .owner))
    (hw : p.crs = true → (s.pc t).crs = true ∨ (∀ x, s.mem.top (.usr x) ≤ q.cur (.usr x)) ∧ (∀ v, s.mem.top (.own v) ≤ q.cur (.own v)) ∧
      ∀ x, s.mem.top (.usr x) ≤ q.rel (.usr x)) :
    Inv sl { s with sc := sc, th := upd s.th t q, pc := upd s.pc t p } := by
  have hz := fun u v => PC.fen_of_seen (sl := sl) (p := s.pc u) (v := v)
  have hz' := fun v => PC.fen_of_seen (sl := sl) (p := p) (v := v)
  have hy := fun u => PC.fen_of_crs (p := s.pc u)
  have hx : p.fen = true → p.chk = true → False := by cases p <;> simp
  have hx' : p.fen = true → p.wfen = true → False := by cases p <;> simp
  obtain ⟨h1, h2, h3, h4, h5, h6, h7, h8, h9, h10, h11, h12, h13, h14, h15, h16, h17, h18, h19, h20, h21, h22, h23, h24, h25, h26, h27, h28, h29, h30, h31⟩ := hi
  constructor <;> simp only
  case uq => fin h1 ho
  case ow => fin h2 ho hc
  case fr => exact fun h => h3 fun u => by have := h u; fin this ho
  case os => fin h4 ho hc
  case nc => rw [h5]; exact (inn_congr fun u => by fin ht).symm
  case tc => fin h6 ht hc
  case tv => fin h7 ht
  case dp => fin h8 hd
  case ds => fin h9 hds
  case dw => fin h10 hdr hwr
  case lt => exact h11
  case hv => exact h12
  case hs => fin h13 hs
  case hw => fin h14 ho
  case hr => fin h15 hr
  case oc => fin h16 hc
  case od => fin h17 hwr
  case ck => fin h18 hc hk hs
  case wf => fin h19 hwf ha hs
  case fs => fin h20 hf hc hs hr
  case fq => fin h21 hf hc hs
  case fc => fin h22 hf hc hs hk h18 hx
  case sn => fin h23 hn hk hc ha hz hz' hx
  case cr => fin h24 hw hwr hc hr hy
  case gl => fin h25 hs
  case gv => exact h26
  case gw => exact h27
  case go => exact h28
  case gt => exact h29
  case qu => exact fun h => h30 fun u => by have := h u; fin this hcs
  case rb => fin h31 hc

/-- A reader enters. -/
theorem Inv.enter {s : St n} (hi : Inv sl s) {t : Fin n} {q : Th (Loc n)} (hc : ∀ y, (s.th t).cur y ≤ q.cur y)
    (ha : ∀ y, (s.th t).acq y ≤ q.acq y) (hr : ∀ y, (s.th t).rel y ≤ q.rel y) (hwr : q.wr = (s.th t).wr) (hk : s.pc t = .rChk)
    (hf : ∀ u, (s.pc u).fen = true → ¬ s.wi ≤ (s.th t).cur .owner) (hb : ∀ x, s.base x ≤ q.cur (.usr x)) :
    Inv sl { s with th := upd s.th t q, pc := upd s.pc t .idle, hold := upd s.hold t true, lq := upd s.lq t (s.ti t) } := by
  have hz := fun u v => PC.fen_of_seen (sl := sl) (p := s.pc u) (v := v)
  obtain ⟨h1, h2, h3, h4, h5, h6, h7, h8, h9, h10, h11, h12, h13, h14, h15, h16, h17, h18, h19, h20, h21, h22, h23, h24, h25, h26, h27, h28, h29, h30, h31⟩ := hi
  have hd : s.hold t = false := by
    cases h : s.hold t
    · rfl
    · have := (h8 t h).1; rw [hk] at this; cases this
  have h18t := h18 t (by rw [hk]; rfl)
  have h7t := h7 t (by rw [hk]; rfl)
  have h22t : ∀ u, (s.pc u).fen = true → s.wi ≤ (s.th t).cur .owner ∨ s.ti t ≤ (s.th u).cur (loc sl t) := fun u hu => h22 u t hu (by rw [hk]; rfl)
  constructor <;> simp only
  case uq => fin h1
  case ow => fin h2
  case fr => exact fun h => h3 fun u => by have := h u; fin this hk
  case os => fin h4 hc hk
  case nc => rw [h5]; exact (inn_congr fun u => by fin hk).symm
  case tc => fin h6
  case tv => fin h7
  case dp => fin h8
  case ds => fin h9
  case dw => fin h10
  case lt => fin h11 h7t
  case hv => fin h12 h7t
  case hs => fin h13 h18t
  case hw => fin h14
  case hr => fin h15
  case oc => fin h16 hc
  case od => fin h17 hwr
  case ck => fin h18
  case wf => fin h19 h18t
  case fs => fin h20
  case fq => fin h21 h22t hf h18t
  case fc => fin h22
  case sn =>
    intro u v
    by_cases e : u = t
    · subst e; rw [upd_same]; nofun
    · rw [upd_ne _ _ e, upd_ne _ _ e]
      intro h
      have := h23 u v h
      have h' := hz u v h
      by_cases e' : v = t
      · subst e'; exact absurd (this.2.2 (by rw [hk]; rfl)) (hf u h')
      · rw [upd_ne _ _ e', upd_ne _ _ e', upd_ne _ _ e']; exact this
  case cr => fin h24
  case gl => exact h25
  case gv => exact h26
  case gw => exact h27
  case go => exact h28
  case gt => exact h29
  case qu => exact fun h => h30 fun u => by have := h u; fin this hk
  case rb => fin h31 hb

theorem loc_ne {t u : Fin n} (h : u ≠ t) (e : loc sl u = loc sl t) : sl u = false ∧ sl t = false := by
  unfold loc at e
  split at e <;> split at e <;> simp_all

theorem loc_owner (u : Fin n) : Loc.owner ≠ loc sl u := by unfold loc; split <;> simp
theorem loc_usr (x : Nat) (u : Fin n) : Loc.usr x ≠ loc sl u := by unfold loc; split <;> simp
theorem loc_own (x u : Fin n) : Loc.own x ≠ loc sl u := by unfold loc; split <;> simp

/-- A thread stores to the word in which it announces itself. -/
theorem Inv.putN {s : St n} (hi : Inv sl s) {t : Fin n} {q : Th (Loc n)} {p : PC} {m : Mem (Loc n) Nat} {v k r : Nat} {w : View (Loc n)}
    (hm : Put s.mem m (loc sl t) v w) (hc : ∀ y, y ≠ loc sl t → (s.th t).cur y ≤ q.cur y) (hcn : q.cur (loc sl t) = s.mem.top (loc sl t) + 1)
    (ha : ∀ y, (s.th t).acq y ≤ q.acq y) (hrl : ∀ y, (s.th t).rel y ≤ q.rel y) (hwr : ∀ y, y ≠ loc sl t → (s.th t).wr y ≤ q.wr y)
    (hwn : q.wr (loc sl t) = s.mem.top (loc sl t) + 1)
    (ho : p.own = (s.pc t).own) (hk : p.chk = false) (hcs : p.crs = (s.pc t).crs) (hwf : p.wfen = true → (s.pc t).wfen = true)
    (hf : p.fen = true → (s.pc t).fen = true) (hsn : ∀ v, p.seen sl v → (s.pc t).seen sl v)
    (hds : p = .dSet ∨ p = .dRel ∨ p = .wClr → sl t = true) (hsl : (s.pc t).own = true → sl t = true)
    (ht : p.tent = true → v ≠ 0 ∧ k = s.mem.top (loc sl t) + 1)
    (hcnt : sl t = false → v + (inn sl s.hold s.pc t).toNat = s.mem.last .count + p.tent.toNat)
    (hvw : sl t = false → ∀ y, y ≠ .count → (s.mem.msg .count (s.mem.top .count)).view y ≤ w y)
    (hr : r = if s.hold t then s.mem.top (loc sl t) + 1 else s.lr t)
    (hw : p.own = false → s.mem.top (.own t) ≤ w (.own t)) (hre : p ≠ .wFence → s.mem.top (.own t) ≤ q.rel (.own t)) :
    Inv sl { s with mem := m, th := upd s.th t q, pc := upd s.pc t p, hold := upd s.hold t false, ti := upd s.ti t k, lr := upd s.lr t r } := by
  have hz := fun u v => PC.fen_of_seen (sl := sl) (p := s.pc u) (v := v)
  have hy := fun u => PC.fen_of_crs (p := s.pc u)
  have hyo := fun u => PC.own_of_fen (p := s.pc u)
  have hyw := fun u => PC.own_of_wfen (p := s.pc u)
  obtain ⟨h1, h2, h3, h4, h5, h6, h7, h8, h9, h10, h11, h12, h13, h14, h15, h16, h17, h18, h19, h20, h21, h22, h23, h24, h25, h26, h27, h28, h29, h30, h31⟩ := hi
  have tw : m.top .owner = s.mem.top .owner := hm.top_ne (loc_owner t)
  have tu : ∀ x, m.top (.usr x) = s.mem.top (.usr x) := fun x => hm.top_ne (loc_usr x t)
  have tO : ∀ u, m.top (.own u) = s.mem.top (.own u) := fun x => hm.top_ne (loc_own x t)
  have tn : m.top (loc sl t) = s.mem.top (loc sl t) + 1 := by rw [hm.top, if_pos rfl]
  have tn' : ∀ u, loc sl u ≠ loc sl t → m.top (loc sl u) = s.mem.top (loc sl u) := fun u hu => hm.top_ne hu
  have mw : ∀ i, i ≤ s.mem.top .owner → m.msg .owner i = s.mem.msg .owner i := fun i h => hm.old _ _ h
  have mt : m.msg .owner (s.mem.top .owner) = s.mem.msg .owner (s.mem.top .owner) := mw _ (Nat.le_refl _)
  have mn : ∀ u i, i ≤ s.mem.top (loc sl u) → m.msg (loc sl u) i = s.mem.msg (loc sl u) i := fun u i h => hm.old _ _ h
  have mv : (m.msg (loc sl t) (s.mem.top (loc sl t) + 1)).val = v ∧ (m.msg (loc sl t) (s.mem.top (loc sl t) + 1)).view = w := by rw [hm.new]; exact ⟨rfl, rfl⟩
  have lw : m.last .owner = s.mem.last .owner := by rw [hm.last, if_neg (loc_owner t)]
  have hnc : m.last .count = cnt id (inn sl (upd s.hold t false) (upd s.pc t p)) := by
    have e := inn_ext (sl := sl) (hold := s.hold) (hold' := upd s.hold t false) (pc := s.pc) (pc' := upd s.pc t p) (t := t)
      fun u hu => ⟨upd_ne _ _ hu, upd_ne _ _ hu⟩
    rw [← h5] at e
    have e2 : inn sl (upd s.hold t false) (upd s.pc t p) t = (!sl t && p.tent) := by simp [inn]
    rw [e2] at e
    cases hs : sl t
    · have := hcnt hs
      have el : m.last .count = v := by rw [hm.last, if_pos (by simp [loc, hs])]
      simp only [hs, Bool.not_false, Bool.true_and] at e
      omega
    · have el : m.last .count = s.mem.last .count := by rw [hm.last, if_neg (by simp [loc, hs])]
      simp only [inn, hs, Bool.not_true, Bool.false_and, Bool.toNat_false, Nat.add_zero] at e
      rw [el, ← e]
  -- another thread that is announced in the same word
  have hv0 : ∀ u, u ≠ t → loc sl u = loc sl t → (s.hold u || (s.pc u).tent) = true → v ≠ 0 := by
    intro u hu e h
    obtain ⟨e1, e2⟩ := loc_ne hu e
    have el : m.last .count = v := by rw [hm.last, if_pos (by simp [loc, e2])]
    have : 0 < cnt id (inn sl (upd s.hold t false) (upd s.pc t p)) := cnt_pos u (by simp only [inn, upd_ne _ _ hu, e1, h]; rfl)
    omega
  -- values of the word of another thread
  have hval : ∀ u, u ≠ t → ∀ P : Nat → Prop, (∀ i, i ≤ s.mem.top (loc sl u) → P i → (s.mem.msg (loc sl u) i).val ≠ 0) → (P (s.mem.top (loc sl u) + 1) → (s.hold u || (s.pc u).tent) = true) →
      ∀ i, i ≤ m.top (loc sl u) → P i → (m.msg (loc sl u) i).val ≠ 0 := by
    intro u hu P hP hh i hi' hPi
    by_cases e : i ≤ s.mem.top (loc sl u)
    · rw [mn u i e]; exact hP i e hPi
    · by_cases el : loc sl u = loc sl t
      · rw [el] at hi' e hh ⊢
        obtain rfl : i = s.mem.top (loc sl t) + 1 := by omega
        rw [mv.1]
        exact hv0 u hu el (hh hPi)
      · rw [tn' u el] at hi'; omega
  have htop : ∀ u, s.mem.top (loc sl u) ≤ m.top (loc sl u) := fun u => hm.top_le _
  have hfl : ∀ u, u ≠ t → (s.pc t).own = true → loc sl u ≠ loc sl t := fun u hu h e => by
    have := (loc_ne hu e).2; rw [hsl h] at this; cases this
  constructor <;> simp only [tw, tu, tO, mt]
  case uq => fin h1 ho
  case ow => have := loc_owner (sl := sl) t; fin h2 ho hc lw this
  case fr => exact fun h => lw.trans (h3 fun u => by have := h u; fin this ho)
  case os => have := loc_owner (sl := sl) t; fin h4 ho hc mw this
  case nc => exact hnc
  case tc => fin h6 ht hcn
  case tv =>
    intro u hu
    by_cases e : u = t
    · subst e
      rw [upd_same] at hu ⊢
      obtain ⟨e1, rfl⟩ := ht hu
      rw [tn]
      refine ⟨Nat.le_refl _, fun i k1 k2 => ?_⟩
      obtain rfl : i = s.mem.top (loc sl u) + 1 := by omega
      rw [mv.1]; exact e1
    · rw [upd_ne _ _ e] at hu ⊢
      have h7' := h7 u hu
      exact ⟨Nat.le_trans h7'.1 (htop u), fun i k1 k2 => hval u e (fun i => s.ti u ≤ i) (fun i a b => h7'.2 i b a) (fun _ => by rw [hu, Bool.or_true]) i k2 k1⟩
  case dp => fin h8
  case ds => fin h9 hds
  case dw => fin h10 ht hwn
  case lt => fin h11 htop hr tn
  case hv =>
    intro u i k1 k2 k3
    by_cases e : u = t
    · subst e
      simp only [upd_same] at k3
      have := (h11 u).1
      have e' : i ≤ s.mem.top (loc sl u) := by
        rcases k3 with k3 | k3
        · cases k3
        · rw [hr] at k3; split at k3 <;> omega
      rw [mn u i e']
      refine h12 u i k1 e' ?_
      rcases k3 with k3 | k3
      · cases k3
      · rw [hr] at k3
        split at k3
        · next h => exact .inl h
        · exact .inr k3
    · rw [upd_ne _ _ e, upd_ne _ _ e] at k3
      refine hval u e (fun i => s.lq u ≤ i ∧ (s.hold u = true ∨ i < s.lr u)) (fun i a b => h12 u i b.1 a b.2) (fun h => ?_) i k2 ⟨k1, k3⟩
      rcases h.2 with h | h
      · simp [h]
      · have := (h11 u).1; omega
  case hs => exact h13
  case hw =>
    intro u k1 k2
    by_cases e : u = t
    · subst e
      simp only [upd_same] at k1 k2 ⊢
      have hw' := hw k2
      rw [ho] at k2
      cases hh : s.hold u
      · rcases h14 u hh k2 with h | h
        · refine .inl fun i a b => ?_
          rw [tn] at b
          rw [hr, hh] at a
          by_cases e' : i ≤ s.mem.top (loc sl u)
          · rw [mn u i e']; exact h i a e'
          · obtain rfl : i = s.mem.top (loc sl u) + 1 := by omega
            rw [mv.2]; exact hw'
        · exact .inr h
      · refine .inl fun i a b => ?_
        rw [tn] at b
        rw [hr, hh] at a
        obtain rfl : i = s.mem.top (loc sl u) + 1 := by simp at a; omega
        rw [mv.2]; exact hw'
    · rw [upd_ne _ _ e] at k1 k2 ⊢
      rcases h14 u k1 k2 with h | h
      · refine .inl fun i a b => ?_
        by_cases e' : i ≤ s.mem.top (loc sl u)
        · rw [mn u i e']; exact h i a e'
        · by_cases el : loc sl u = loc sl t
          · obtain ⟨e1, e2⟩ := loc_ne e el
            have ec : loc sl t = .count := by simp [loc, e2]
            have := h (s.mem.top (loc sl u)) (h11 u).1 (Nat.le_refl _)
            rw [el] at e' b this ⊢
            obtain rfl : i = s.mem.top (loc sl t) + 1 := by omega
            rw [mv.2]
            rw [ec] at this
            exact Nat.le_trans this (hvw e2 _ (by simp))
          · rw [tn' u el] at b; omega
      · exact .inr h
  case hr => fin h15 hre
  case oc => have := loc_own (sl := sl) t t; fin h16 hc this
  case od => have := loc_own (sl := sl) t t; fin h17 hwr this
  case ck => fin h18 hk
  case wf => fin h19 hwf ha
  case fs => have a1 := fun x => loc_own (sl := sl) x t; have a2 := fun x => loc_usr (sl := sl) x t; fin h20 hf hc hrl a1 a2
  case fq =>
    intro u hu v
    by_cases e : u = t
    · subst e
      rw [upd_same] at hu ⊢
      have h21' := h21 u (hf hu) v
      refine ⟨?_, h21'.2⟩
      by_cases e' : v = u
      · subst e'; have := (h11 v).2; omega
      · exact Nat.le_trans h21'.1 (hc _ (hfl v e' (PC.own_of_fen (hf hu))))
    · rw [upd_ne _ _ e] at hu ⊢; exact h21 u hu v
  case fc =>
    intro u v hu hv'
    have e' : v ≠ t := by rintro rfl; rw [upd_same, hk] at hv'; cases hv'
    rw [upd_ne _ _ e'] at hv' ⊢
    rw [upd_ne _ _ e']
    by_cases e : u = t
    · subst e
      rw [upd_same] at hu ⊢
      exact (h22 u v (hf hu) hv').imp_right fun h => Nat.le_trans h (hc _ (hfl v e' (PC.own_of_fen (hf hu))))
    · rw [upd_ne _ _ e] at hu ⊢; exact h22 u v hu hv'
  case sn => have a1 := fun x => loc_own (sl := sl) x t; fin h23 hsn hk hc ha a1
  case cr => have a1 := fun x => loc_own (sl := sl) x t; have a2 := fun x => loc_usr (sl := sl) x t; fin h24 hcs hc hrl hwr a1 a2
  case gl => exact h25
  case gv => fin h26 mw h25
  case gw => fin h27 mw
  case go => exact h28
  case gt => exact h29
  case qu => exact fun h => h30 fun u => by have := h u; fin this hcs
  case rb => fin h31

/-- A writer acquires `owner`. -/
theorem Inv.acquire {s : St n} (hi : Inv sl s) {t : Fin n} {q : Th (Loc n)} {p : PC} {m : Mem (Loc n) Nat} {w : View (Loc n)}
    (hm : Put s.mem m .owner (t + 1) w) (hc : ∀ y, y ≠ .owner → (s.th t).cur y ≤ q.cur y) (hcn : q.cur .owner = s.mem.top .owner + 1)
    (ha : ∀ y, (s.mem.msg .owner (s.mem.top .owner)).view y ≤ q.acq y) (hrl : q.rel = (s.th t).rel) (hwr : ∀ y, y ≠ .owner → (s.th t).wr y ≤ q.wr y)
    (hp : s.pc t = .wCas) (hp' : p = if sl t then .wClr else .wFence) (h0 : s.mem.last .owner = 0)
    (hvw : ∀ y, y ≠ .owner → (s.mem.msg .owner (s.mem.top .owner)).view y ≤ w y) :
    Inv sl { s with mem := m, th := upd s.th t q, pc := upd s.pc t p, wi := s.mem.top .owner + 1 } := by
  have hz := fun u v => PC.fen_of_seen (sl := sl) (p := s.pc u) (v := v)
  have hy := fun u => PC.fen_of_crs (p := s.pc u)
  have hyo := fun u => PC.own_of_fen (p := s.pc u)
  have hyw := fun u => PC.own_of_wfen (p := s.pc u)
  have hno : ∀ u, (s.pc u).own = false := fun u => by
    cases h : (s.pc u).own
    · rfl
    · have := (hi.ow u h).2.1; omega
  have hnf : ∀ u, (s.pc u).fen = false := fun u => by
    cases h : (s.pc u).fen
    · rfl
    · have := hyo u h; rw [hno] at this; cases this
  have hns : ∀ u v, ¬ (s.pc u).seen sl v := fun u v h => by have := hz u v h; rw [hnf] at this; cases this
  have hnc : ∀ u, (s.pc u).crs = false := fun u => by
    cases h : (s.pc u).crs
    · rfl
    · have := hy u h; rw [hnf] at this; cases this
  have hnw : ∀ u, (s.pc u).wfen = false := fun u => by
    cases h : (s.pc u).wfen
    · rfl
    · have := hyw u h; rw [hno] at this; cases this
  obtain ⟨h1, h2, h3, h4, h5, h6, h7, h8, h9, h10, h11, h12, h13, h14, h15, h16, h17, h18, h19, h20, h21, h22, h23, h24, h25, h26, h27, h28, h29, h30, h31⟩ := hi
  have tw : m.top .owner = s.mem.top .owner + 1 := by rw [hm.top, if_pos rfl]
  have tu : ∀ x, m.top (.usr x) = s.mem.top (.usr x) := fun x => hm.top_ne (by simp)
  have tO : ∀ u, m.top (.own u) = s.mem.top (.own u) := fun x => hm.top_ne (by simp)
  have tn : ∀ u, m.top (loc sl u) = s.mem.top (loc sl u) := fun u => hm.top_ne (loc_owner u).symm
  have mw : ∀ i, i ≤ s.mem.top .owner → m.msg .owner i = s.mem.msg .owner i := fun i h => hm.old _ _ h
  have mt : (m.msg .owner (s.mem.top .owner + 1)).val = t + 1 ∧ (m.msg .owner (s.mem.top .owner + 1)).view = w := by rw [hm.new]; exact ⟨rfl, rfl⟩
  have mn : ∀ u i, i ≤ s.mem.top (loc sl u) → m.msg (loc sl u) i = s.mem.msg (loc sl u) i := fun u i h => hm.old _ _ h
  have lw : m.last .owner = t + 1 := by rw [hm.last, if_pos rfl]
  have lc : m.last .count = s.mem.last .count := by rw [hm.last, if_neg (by simp)]
  have hq : p.own = true ∧ p.wfen = true ∧ p.fen = false ∧ p.tent = false ∧ p.chk = false ∧ p.crs = false ∧ (∀ v, ¬ p.seen sl v) ∧ p ≠ .dSet ∧ p ≠ .dRel ∧ (p = .wClr → sl t = true) ∧ (sl t = true → p = .wClr) := by
    rw [hp']; cases sl t <;> simp
  clear hp'
  obtain ⟨a1, a2, a3, a4, a5, a6, a7, a8, a9, a10, a11⟩ := hq
  have b1 := fun u => loc_owner (sl := sl) u
  constructor <;> simp only [tw, tu, tO, tn]
  case uq => fin h1 hno
  case ow => fin hno lw hcn
  case fr => intro h; have := h t; rw [upd_same, a1] at this; cases this
  case os =>
    intro u i k1 k2 k3
    by_cases e : u = t
    · subst e; rw [upd_same]; exact a1
    · rw [upd_ne _ _ e] at k1 ⊢
      by_cases e' : i ≤ s.mem.top .owner
      · rw [mw i e'] at k3; exact h4 u i k1 e' k3
      · obtain rfl : i = s.mem.top .owner + 1 := by omega
        rw [mt.1] at k3
        exact absurd (Fin.ext (by omega)) e
  case nc => rw [lc, h5]; exact (inn_congr fun u => by fin hp a4).symm
  case tc => fin h6 a4
  case tv => fin h7 a4 mn
  case dp => fin h8 a11 hp
  case ds => fin h9 a8 a9 a10
  case dw => fin h10 a9
  case lt => exact h11
  case hv => fin h12 mn
  case hs => fin h13 mt hvw b1
  case hw => fin h14 mn a1
  case hr => fin h15 hrl hp
  case oc => fin h16 hc
  case od => fin h17 hwr
  case ck => fin h18 a5
  case wf => fin hnw a2 ha h13 h27 h28 h25
  case fs => fin hnf a3
  case fq => fin hnf a3
  case fc => fin hnf a3
  case sn => fin hns a7
  case cr => fin hnc a6
  case gl => fin h25
  case gv => fin h26 mw h25
  case gw =>
    intro i x k1 k2
    by_cases e : i ≤ s.mem.top .owner
    · rw [mw i e]; exact h27 i x k1 e
    · obtain rfl : i = s.mem.top .owner + 1 := by omega
      rw [mt.2]; exact Nat.le_trans (h27 _ x h25.1 (Nat.le_refl _)) (hvw _ (by simp))
  case go => intro u; rw [mt.2]; exact Nat.le_trans (h28 u) (hvw _ (by simp))
  case gt => exact h29
  case qu => exact fun _ => h30 hnc
  case rb => fin h31 hc

/-- A writer releases `owner`, and becomes a reader if `b`. -/
theorem Inv.release {s : St n} (hi : Inv sl s) {t : Fin n} {q : Th (Loc n)} {m : Mem (Loc n) Nat} {w : View (Loc n)} {b : Bool} {l : Nat}
    (hm : Put s.mem m .owner 0 w) (hc : ∀ y, y ≠ .owner → (s.th t).cur y ≤ q.cur y) (hcn : q.cur .owner = s.mem.top .owner + 1)
    (hrl : ∀ y, (s.th t).rel y ≤ q.rel y) (hwr : ∀ y, y ≠ .owner → (s.th t).wr y ≤ q.wr y)
    (hp : s.pc t = if b then .dRel else .writing) (hl : l = if b then s.ti t else s.lq t)
    (hwu : ∀ x, s.mem.top (.usr x) ≤ w (.usr x)) (hwo : ∀ u, s.ob u ≤ w (.own u)) (hwt : s.mem.top (.own t) ≤ w (.own t)) (hwl : b = true → s.ti t ≤ w (loc sl t)) :
    Inv sl { s with mem := m, th := upd s.th t q, pc := upd s.pc t .idle, hold := upd s.hold t b, lq := upd s.lq t l
                    lu := s.mem.top .owner + 1, base := fun x => s.mem.top (.usr x), ob := upd s.ob t (s.mem.top (.own t)) } := by
  have hcr : (s.pc t).crs = true := by rw [hp]; cases b <;> rfl
  have hfe := PC.fen_of_crs hcr
  have how := PC.own_of_fen hfe
  have hse := fun v => PC.seen_of_crs (sl := sl) (v := v) hcr
  have hz := fun u v => PC.fen_of_seen (sl := sl) (p := s.pc u) (v := v)
  have hy := fun u => PC.fen_of_crs (p := s.pc u)
  have hyo := fun u => PC.own_of_fen (p := s.pc u)
  have hyw := fun u => PC.own_of_wfen (p := s.pc u)
  have hno : ∀ u, u ≠ t → (s.pc u).own = false := fun u hu => by
    cases h : (s.pc u).own
    · rfl
    · exact absurd (hi.uq u t h how) hu
  have hnf : ∀ u, u ≠ t → (s.pc u).fen = false := fun u hu => by
    cases h : (s.pc u).fen
    · rfl
    · have := hyo u h; rw [hno u hu] at this; cases this
  have hns : ∀ u v, u ≠ t → ¬ (s.pc u).seen sl v := fun u v hu h => by have := hz u v h; rw [hnf u hu] at this; cases this
  have hnc : ∀ u, u ≠ t → (s.pc u).crs = false := fun u hu => by
    cases h : (s.pc u).crs
    · rfl
    · have := hy u h; rw [hnf u hu] at this; cases this
  have hnw : ∀ u, u ≠ t → (s.pc u).wfen = false := fun u hu => by
    cases h : (s.pc u).wfen
    · rfl
    · have := hyw u h; rw [hno u hu] at this; cases this
  obtain ⟨h1, h2, h3, h4, h5, h6, h7, h8, h9, h10, h11, h12, h13, h14, h15, h16, h17, h18, h19, h20, h21, h22, h23, h24, h25, h26, h27, h28, h29, h30, h31⟩ := hi
  have hh : ∀ u, s.hold u = false := fun u => (h23 t u (hse u)).1
  have htb : (s.pc t).tent = b := by rw [hp]; cases b <;> rfl
  have tw : m.top .owner = s.mem.top .owner + 1 := by rw [hm.top, if_pos rfl]
  have tu : ∀ x, m.top (.usr x) = s.mem.top (.usr x) := fun x => hm.top_ne (by simp)
  have tO : ∀ u, m.top (.own u) = s.mem.top (.own u) := fun x => hm.top_ne (by simp)
  have tn : ∀ u, m.top (loc sl u) = s.mem.top (loc sl u) := fun u => hm.top_ne (loc_owner u).symm
  have mw : ∀ i, i ≤ s.mem.top .owner → m.msg .owner i = s.mem.msg .owner i := fun i h => hm.old _ _ h
  have mt : (m.msg .owner (s.mem.top .owner + 1)).val = 0 ∧ (m.msg .owner (s.mem.top .owner + 1)).view = w := by rw [hm.new]; exact ⟨rfl, rfl⟩
  have mn : ∀ u i, i ≤ s.mem.top (loc sl u) → m.msg (loc sl u) i = s.mem.msg (loc sl u) i := fun u i h => hm.old _ _ h
  have lw : m.last .owner = 0 := by rw [hm.last, if_pos rfl]
  have lc : m.last .count = s.mem.last .count := by rw [hm.last, if_neg (by simp)]
  have b1 := fun u => loc_owner (sl := sl) u
  have h2t := h2 t how
  have h7t : b = true → s.ti t ≤ s.mem.top (loc sl t) ∧ ∀ i, s.ti t ≤ i → i ≤ s.mem.top (loc sl t) → (s.mem.msg (loc sl t) i).val ≠ 0 := fun hb => h7 t (htb.trans hb)
  have h9t : b = true → sl t = true := fun hb => h9 t (by rw [hp, hb]; exact .inr (.inl rfl))
  have h21t := h21 t hfe
  constructor <;> simp only [tw, tu, tO, tn]
  case uq => fin hno
  case ow => fin hno
  case fr => exact fun _ => lw
  case os =>
    intro u i k1 k2 k3
    exfalso
    by_cases e' : i ≤ s.mem.top .owner
    · by_cases e : u = t
      · subst e; rw [upd_same] at k1; omega
      · rw [upd_ne _ _ e] at k1
        rw [mw i e'] at k3
        have := h4 u i k1 e' k3
        rw [hno u e] at this; cases this
    · obtain rfl : i = s.mem.top .owner + 1 := by omega
      rw [mt.1] at k3
      omega
  case nc => rw [lc, h5]; exact (inn_congr fun u => by fin htb hh).symm
  case tc => fin h6 hno
  case tv => fin h7 mn
  case dp => fin h8 h9t
  case ds => fin h9
  case dw => fin h10
  case lt => fin h11 hl h7t
  case hv =>
    intro u i k1 k2 k3
    rw [mn u i k2]
    by_cases e : u = t
    · subst e
      simp only [upd_same] at k1 k3
      rw [hl] at k1
      cases b
      · exact h12 u i k1 k2 (.inr (by simpa using k3))
      · exact (h7t rfl).2 i k1 k2
    · rw [upd_ne _ _ e] at k1 k3; exact h12 u i k1 k2 k3
  case hs =>
    intro u
    rw [mt.2]
    by_cases e : u = t
    · subst e
      rw [upd_same, hl]
      cases b
      · exact .inl (h21t u).2
      · exact .inr (hwl rfl)
    · rw [upd_ne _ _ e]; exact .inl (h21t u).2
  case hw => fin h14 mn
  case hr => 
    intro u k1 _
    by_cases e : u = t
    · subst e
      rw [upd_same]
      refine Nat.le_trans (h15 u (hh u) ?_) (hrl _)
      rw [hp]; cases b <;> simp
    · rw [upd_ne _ _ e] at k1 ⊢
      refine h15 u k1 fun h => ?_
      have := hno u e; rw [h] at this; cases this
  case oc => fin h16 hc
  case od => fin h17 hwr
  case ck =>
    intro u hu
    have e : u ≠ t := by rintro rfl; rw [upd_same] at hu; cases hu
    rw [upd_ne _ _ e] at hu ⊢
    have := (h23 t u (hse u)).2.2 hu
    exact ⟨(h18 u hu).1, by omega⟩
  case wf => fin hnw
  case fs => fin hnf
  case fq => fin hnf
  case fc => fin hnf
  case sn => fin hns
  case cr => fin hnc
  case gl => have := (h20 t hfe).1; omega
  case gv => intro _; rw [Nat.add_sub_cancel, mw _ (Nat.le_refl _)]; have := h2t.2.1; rw [Mem.last] at this; omega
  case gw =>
    intro i x k1 k2
    obtain rfl : i = s.mem.top .owner + 1 := by omega
    rw [mt.2]; exact hwu x
  case go => fin mt hwo hwt
  case gt => exact fun _ => Nat.le_refl _
  case qu => exact fun _ _ => Nat.le_refl _
  case rb =>
    intro u k1 x
    by_cases e : u = t
    · subst e; rw [upd_same]; exact Nat.le_trans ((h24 u hcr).1 x) (hc _ (by simp))
    · rw [upd_ne _ _ e, hh] at k1; cases k1

/-- A writer stores to its data. -/
theorem Inv.putU {s : St n} (hi : Inv sl s) {t : Fin n} {q : Th (Loc n)} {m : Mem (Loc n) Nat} {x v : Nat} {w : View (Loc n)}
    (hm : Put s.mem m (.usr x) v w) (hc : ∀ y, y ≠ .usr x → (s.th t).cur y ≤ q.cur y) (hcx : q.cur (.usr x) = s.mem.top (.usr x) + 1)
    (ha : q.acq = (s.th t).acq) (hr : q.rel = (s.th t).rel) (hwr : ∀ y, y ≠ .usr x → (s.th t).wr y ≤ q.wr y) (hwx : q.wr (.usr x) = s.mem.top (.usr x) + 1)
    (hp : s.pc t = .writing) : Inv sl { s with mem := m, th := upd s.th t q } := by
  have hcr : (s.pc t).crs = true := by rw [hp]; rfl
  have hy := fun u => PC.fen_of_crs (p := s.pc u)
  have hyo := fun u => PC.own_of_fen (p := s.pc u)
  obtain ⟨h1, h2, h3, h4, h5, h6, h7, h8, h9, h10, h11, h12, h13, h14, h15, h16, h17, h18, h19, h20, h21, h22, h23, h24, h25, h26, h27, h28, h29, h30, h31⟩ := hi
  have tw : m.top .owner = s.mem.top .owner := hm.top_ne (by simp)
  have tx : m.top (.usr x) = s.mem.top (.usr x) + 1 := by rw [hm.top, if_pos rfl]
  have tu : ∀ y, y ≠ x → m.top (.usr y) = s.mem.top (.usr y) := fun y hy => hm.top_ne (by simpa using hy)
  have tO : ∀ u, m.top (.own u) = s.mem.top (.own u) := fun x => hm.top_ne (by simp)
  have tn : ∀ u, m.top (loc sl u) = s.mem.top (loc sl u) := fun u => hm.top_ne (loc_usr x u).symm
  have mw : ∀ i, i ≤ s.mem.top .owner → m.msg .owner i = s.mem.msg .owner i := fun i h => hm.old _ _ h
  have mt : m.msg .owner (s.mem.top .owner) = s.mem.msg .owner (s.mem.top .owner) := mw _ (Nat.le_refl _)
  have mn : ∀ u i, i ≤ s.mem.top (loc sl u) → m.msg (loc sl u) i = s.mem.msg (loc sl u) i := fun u i h => hm.old _ _ h
  have lw : m.last .owner = s.mem.last .owner := by rw [hm.last, if_neg (by simp)]
  have lc : m.last .count = s.mem.last .count := by rw [hm.last, if_neg (by simp)]
  have b1 := fun u => (loc_usr (sl := sl) x u).symm
  have hut : ∀ u, (s.pc u).crs = true → u = t := fun u h => h1 u t (hyo u (hy u h)) (hyo t (hy t hcr))
  have hb : ∀ u, (∀ y, s.base y ≤ (s.th u).cur (.usr y)) → ∀ y, s.base y ≤ (upd s.th t q u).cur (.usr y) := by
    intro u h y
    have := h29 y
    have := h y
    by_cases e : u = t
    · subst e
      rw [upd_same]
      by_cases e' : y = x
      · subst e'; omega
      · exact Nat.le_trans this (hc _ (by simpa using e'))
    · rwa [upd_ne _ _ e]
  have hb2 : ∀ u y, (s.th u).rel y = (upd s.th t q u).rel y := fun u y => by
    by_cases e : u = t
    · subst e; rw [upd_same, hr]
    · rw [upd_ne _ _ e]
  constructor <;> simp only [tw, tO, tn, lw, lc, mt]
  case uq => exact h1
  case ow => fin h2 hc
  case fr => exact h3
  case os => fin h4 hc mw
  case nc => exact h5
  case tc => fin h6 hc b1
  case tv => fin h7 mn
  case dp => exact h8
  case ds => exact h9
  case dw => fin h10 hwr b1
  case lt => exact h11
  case hv => fin h12 mn
  case hs => exact h13
  case hw => fin h14 mn
  case hr => fin h15 hr
  case oc => fin h16 hc
  case od => fin h17 hwr
  case ck => fin h18 hc
  case wf => fin h19 ha
  case fs =>
    intro u hu
    obtain ⟨k1, k2, k3⟩ := h20 u hu
    refine ⟨k1, fun y => ⟨hb u (fun y => (k2 y).1) y, (hb2 u _) ▸ (k2 y).2⟩, fun v => ⟨?_, (hb2 u _) ▸ (k3 v).2⟩⟩
    have := (k3 v).1
    fin this hc
  case fq => fin h21 hc b1
  case fc => fin h22 hc b1
  case sn => fin h23 hc ha
  case cr =>
    intro u h
    obtain rfl := hut u h
    rw [upd_same]
    obtain ⟨k1, k2, k3⟩ := h24 u h
    refine ⟨fun y => ?_, fun v => Nat.le_trans (k2 v) (hc _ (by simp)), fun y => ?_⟩
    · by_cases e : y = x
      · subst e; rw [tx, hcx]
      · rw [tu y e]; exact Nat.le_trans (k1 y) (hc _ (by simpa using e))
    · by_cases e : y = x
      · subst e; rw [tx, hwx]; exact .inr (Nat.le_refl _)
      · rw [tu y e, hr]
        exact (k3 y).imp_right fun h => Nat.le_trans h (hwr _ (by simpa using e))
  case gl => exact h25
  case gv => fin h26 mw h25
  case gw => fin h27 mw
  case go => exact h28
  case gt => exact fun y => Nat.le_trans (h29 y) (hm.top_le _)
  case qu => intro h; have := h t; rw [hcr] at this; cases this
  case rb => exact fun u h => hb u (h31 u h)

/-- A reader stores to its own word. -/
theorem Inv.putO {s : St n} (hi : Inv sl s) {t : Fin n} {q : Th (Loc n)} {m : Mem (Loc n) Nat} {v : Nat} {w : View (Loc n)}
    (hm : Put s.mem m (.own t) v w) (hc : ∀ y, y ≠ .own t → (s.th t).cur y ≤ q.cur y) (hcx : q.cur (.own t) = s.mem.top (.own t) + 1)
    (ha : q.acq = (s.th t).acq) (hr : q.rel = (s.th t).rel) (hwr : ∀ y, y ≠ .own t → (s.th t).wr y ≤ q.wr y) (hwx : q.wr (.own t) = s.mem.top (.own t) + 1)
    (hd : s.hold t = true) (hp : s.pc t = .idle) : Inv sl { s with mem := m, th := upd s.th t q } := by
  obtain ⟨h1, h2, h3, h4, h5, h6, h7, h8, h9, h10, h11, h12, h13, h14, h15, h16, h17, h18, h19, h20, h21, h22, h23, h24, h25, h26, h27, h28, h29, h30, h31⟩ := hi
  have tw : m.top .owner = s.mem.top .owner := hm.top_ne (by simp)
  have tu : ∀ y, m.top (.usr y) = s.mem.top (.usr y) := fun y => hm.top_ne (by simp)
  have tx : m.top (.own t) = s.mem.top (.own t) + 1 := by rw [hm.top, if_pos rfl]
  have tO : ∀ u, u ≠ t → m.top (.own u) = s.mem.top (.own u) := fun u hu => hm.top_ne (by simpa using hu)
  have tn : ∀ u, m.top (loc sl u) = s.mem.top (loc sl u) := fun u => hm.top_ne (loc_own t u).symm
  have mw : ∀ i, i ≤ s.mem.top .owner → m.msg .owner i = s.mem.msg .owner i := fun i h => hm.old _ _ h
  have mt : m.msg .owner (s.mem.top .owner) = s.mem.msg .owner (s.mem.top .owner) := mw _ (Nat.le_refl _)
  have mn : ∀ u i, i ≤ s.mem.top (loc sl u) → m.msg (loc sl u) i = s.mem.msg (loc sl u) i := fun u i h => hm.old _ _ h
  have lw : m.last .owner = s.mem.last .owner := by rw [hm.last, if_neg (by simp)]
  have lc : m.last .count = s.mem.last .count := by rw [hm.last, if_neg (by simp)]
  have b1 := fun u => (loc_own (sl := sl) t u).symm
  have hns : ∀ u, ¬ (s.pc u).seen sl t := fun u h => by have := (h23 u t h).1; rw [hd] at this; cases this
  have hnc : ∀ u, (s.pc u).crs = false := fun u => by
    cases h : (s.pc u).crs
    · rfl
    · exact absurd (PC.seen_of_crs h) (hns u)
  constructor <;> simp only [tw, tn, tu, lw, lc, mt]
  case uq => exact h1
  case ow => fin h2 hc
  case fr => exact h3
  case os => fin h4 hc mw
  case nc => exact h5
  case tc => fin h6 hc b1
  case tv => fin h7 mn
  case dp => exact h8
  case ds => exact h9
  case dw => fin h10 hwr b1
  case lt => exact h11
  case hv => fin h12 mn
  case hs => exact h13
  case hw => fin h14 mn tO hd
  case hr => fin h15 hr tO hd
  case oc => fin h16 hc tO tx hcx
  case od => fin h17 hwr tO tx hwx
  case ck => fin h18 hc
  case wf => fin h19 ha
  case fs => fin h20 hc hr hp
  case fq => fin h21 hc b1
  case fc => fin h22 hc b1
  case sn => fin h23 hc ha tO hns hp
  case cr => intro u h; rw [hnc] at h; cases h
  case gl => exact h25
  case gv => fin h26 mw h25
  case gw => fin h27 mw
  case go => exact h28
  case gt => exact h29
  case qu => exact h30
  case rb => fin h31 hc

/-! ## Steps -/

theorem fenceAcq_le (b : Bool) (q : Th (Loc n)) (y : Loc n) : q.cur y ≤ (opt b Th.fenceAcq q).cur y := by
  cases b
  · exact Nat.le_refl _
  · exact le_join_left _ _ _

theorem fence_cur (q : Th (Loc n)) (sc : View (Loc n)) (y : Loc n) : q.cur y ≤ (q.fence sc).cur y :=
  Nat.le_trans (le_join_left _ _ _) (le_join_left _ _ _)
theorem fence_acq (q : Th (Loc n)) (sc : View (Loc n)) (y : Loc n) : q.acq y ≤ (q.fence sc).cur y :=
  Nat.le_trans (le_join_right _ _ _) (le_join_left _ _ _)
theorem fence_sc (q : Th (Loc n)) (sc : View (Loc n)) (y : Loc n) : sc y ≤ (q.fence sc).cur y := le_join_right _ _ _

/-- What a store to the word of `t` by a thread with views `q0` leaves behind. -/
structure Stored (s : St n) (sl : Fin n → Bool) (t : Fin n) (q0 q : Th (Loc n)) (m : Mem (Loc n) Nat) (v : Nat) (w : View (Loc n)) : Prop where
  put : Put s.mem m (loc sl t) v w
  cur : ∀ y, y ≠ loc sl t → q0.cur y ≤ q.cur y
  cur' : q.cur (loc sl t) = s.mem.top (loc sl t) + 1
  acq : ∀ y, q0.acq y ≤ q.acq y
  rel : q.rel = q0.rel
  wr : ∀ y, y ≠ loc sl t → q0.wr y ≤ q.wr y
  wr' : q.wr (loc sl t) = s.mem.top (loc sl t) + 1
  view : ∀ y, y ≠ loc sl t → q0.rel y ≤ w y
  view' : sl t = false → ∀ y, y ≠ .count → (s.mem.msg .count (s.mem.top .count)).view y ≤ w y

theorem stored_slot (s : St n) {t : Fin n} (q0 : Th (Loc n)) (v : Nat) (h : sl t = true) :
    Stored s sl t q0 (q0.store s.mem (.slot t)) (s.mem.store q0 (.slot t) v) v (upd q0.rel (.slot t) (s.mem.top (.slot t) + 1)) := by
  have e : loc sl t = .slot t := by simp [loc, h]
  constructor <;> (try simp only [e])
  · exact Put.store _ _ _ _
  · exact fun y hy => Th.store_cur_le _ _ _ hy
  · simp [Th.store]
  · exact fun y => Nat.le_refl _
  · rfl
  · exact fun y hy => by simp only [Th.store, upd_ne _ _ hy]; exact Nat.le_refl _
  · simp [Th.store]
  · exact fun y hy => by rw [upd_ne _ _ hy]
  · rw [h]; nofun

theorem stored_count (s : St n) {t : Fin n} (q0 : Th (Loc n)) (v : Nat) (h : sl t = false) :
    Stored s sl t q0 (q0.rmw s.mem .count) (s.mem.rmw q0 .count v) v (upd (join q0.rel (s.mem.msg .count (s.mem.top .count)).view) .count (s.mem.top .count + 1)) := by
  have e : loc sl t = .count := by simp [loc, h]
  constructor <;> (try simp only [e])
  · exact Put.rmw _ _ _ _
  · exact fun y hy => Th.rmw_cur_le _ _ _ hy
  · simp [Th.rmw, Th.store]
  · exact fun y => Th.load_acq_le _ _ _ _ _
  · rfl
  · exact fun y hy => by simp only [Th.rmw, Th.store, upd_ne _ _ hy]; exact Nat.le_refl _
  · simp [Th.rmw, Th.store]
  · exact fun y hy => by rw [upd_ne _ _ hy]; exact le_join_left _ _ _
  · exact fun _ y hy => by rw [upd_ne _ _ hy]; exact le_join_right _ _ _

theorem announce_eq (s : St n) (sl : Fin n → Bool) (t : Fin n) : ∃ q m v w, Stored s sl t (s.th t) q m v w ∧ v ≠ 0 ∧ (sl t = false → v = s.mem.last .count + 1) ∧
    s.announce sl t = { s with mem := m, th := upd s.th t q, ti := upd s.ti t (s.mem.top (loc sl t) + 1) } := by
  unfold St.announce loc
  split
  · next h => exact ⟨_, _, _, _, stored_slot s _ 1 h, by simp, by rw [h]; nofun, rfl⟩
  · next h => exact ⟨_, _, _, _, stored_count s _ _ (by simpa using h), by simp, fun _ => rfl, rfl⟩

theorem withdraw_eq (s : St n) (sl : Fin n → Bool) (t : Fin n) (q0 : Th (Loc n)) : ∃ q m v w, Stored s sl t q0 q m v w ∧ (sl t = false → v = s.mem.last .count - 1) ∧
    s.withdraw sl t q0 = { s with mem := m, th := upd s.th t q, hold := upd s.hold t false
                                  lr := upd s.lr t (if s.hold t then s.mem.top (loc sl t) + 1 else s.lr t) } := by
  have e : (if s.hold t then upd s.lr t (s.mem.top (loc sl t) + 1) else s.lr) = upd s.lr t (if s.hold t then s.mem.top (loc sl t) + 1 else s.lr t) := by
    split
    · rfl
    · rw [upd_eq_self]
  unfold St.withdraw
  simp only [e]
  by_cases h : sl t = true
  · rw [if_pos h]; exact ⟨_, _, _, _, stored_slot s _ 0 h, by rw [h]; nofun, rfl⟩
  · rw [if_neg h]; exact ⟨_, _, _, _, stored_count s _ _ (by simpa using h), fun _ => rfl, rfl⟩

theorem Inv.noh {s : St n} (hi : Inv sl s) {t : Fin n} (h : (s.pc t).hld = false) : s.hold t = false := by
  cases hh : s.hold t
  · rfl
  · have := (hi.dp t hh).1; rw [h] at this; cases this

/-- A load that leaves the class of the program counter as it is. -/
theorem Inv.look {s : St n} (hi : Inv sl s) {t : Fin n} {p : PC} (l : Loc n) (i : Nat) (h1 : s.pc t ≠ .wFence) (ho : p.own = (s.pc t).own) (ht : p.tent = (s.pc t).tent)
    (hcs : (s.pc t).crs = true → p.crs = true) (hd : s.hold t = true → p.hld = true ∧ (p = .idle ∨ sl t = true))
    (hds : p = .dSet ∨ p = .dRel ∨ p = .wClr → sl t = true) (hdr : p = .dRel → s.pc t = .dRel) (hk : p.chk = true → (s.pc t).chk = true)
    (hwf : p.wfen = true → (s.pc t).wfen = true) (hf : p.fen = true → (s.pc t).fen = true) (hn : ∀ v, p.seen sl v → (s.pc t).seen sl v)
    (hw : p.crs = true → (s.pc t).crs = true) : Inv sl { s with th := upd s.th t ((s.th t).load s.mem l i), pc := upd s.pc t p } :=
  hi.step (Th.load_cur_le _ _ _ _) (Th.load_acq_le _ _ _ _) (.inl ⟨fun _ => Nat.le_refl _, h1⟩) rfl (fun _ => Nat.le_refl _) ho ht hcs hd hds hdr
    (fun h => .inl (hk h)) hwf (fun h => .inl (hf h)) (fun v h => .inl (hn v h)) (fun h => .inl (hw h))

theorem Inv.rcall {s s' : St n} (hi : Inv sl s) {t : Fin n} {i : Nat} (hs : Bytelock.step real sl s (.rcall t i) = some s') : Inv sl s' := by
  simp only [Bytelock.step] at hs
  split at hs <;> simp only [Option.some.injEq, reduceCtorEq] at hs
  next hp =>
  subst hs
  obtain ⟨hp, hm⟩ := hp
  rcases hp with ⟨hp, hh⟩ | ⟨hp, hsl⟩
  · have hv : (s.mem.msg .owner i).val ≠ t + 1 := fun h => by have := hi.os t i hm.1 hm.2 h; rw [hp] at this; cases this
    rw [if_neg hv]
    refine hi.look .owner i ?_ ?_ ?_ ?_ ?_ ?_ ?_ ?_ ?_ ?_ ?_ ?_ <;> simp [hp, hh]
  · obtain ⟨h1, h2, h3⟩ := hi.ow t (by rw [hp]; rfl)
    obtain rfl : i = s.mem.top .owner := Nat.le_antisymm hm.2 (by have := hm.1; omega)
    rw [if_pos (show (s.mem.msg .owner (s.mem.top .owner)).val = _ from h2)]
    have hh := hi.noh (t := t) (by rw [hp]; rfl)
    refine hi.look .owner _ ?_ ?_ ?_ ?_ ?_ ?_ ?_ ?_ ?_ ?_ ?_ ?_ <;> simp [hp, hh, hsl]

theorem Inv.rset {s s' : St n} (hi : Inv sl s) {t : Fin n} (hs : Bytelock.step real sl s (.rset t) = some s') : Inv sl s' := by
  simp only [Bytelock.step] at hs
  split at hs <;> simp only [Option.some.injEq, reduceCtorEq] at hs
  next hp =>
  subst hs
  obtain ⟨q, m, v, w, h, h1, h2, e⟩ := announce_eq s sl t
  rw [e]
  have hh := hi.noh (t := t) (by rw [hp]; rfl)
  have hr := hi.hr t hh (by rw [hp]; simp)
  have := hi.putN (p := .rFence) h.put h.cur h.cur' h.acq (fun y => by rw [h.rel]) h.wr h.wr' (by rw [hp]; rfl) rfl (by rw [hp]; rfl) nofun nofun nofun
    (by simp) (by rw [hp]; nofun) (fun _ => ⟨h1, rfl⟩) (fun hs => by rw [h2 hs]; simp [inn, hh, hp]) h.view' rfl
    (fun _ => Nat.le_trans hr (h.view _ (loc_own t t))) (fun _ => by rw [h.rel]; exact hr)
  rw [hh] at this
  have e1 : upd s.hold t false = s.hold := by rw [← hh, upd_eq_self]
  have e2 : upd s.lr t (s.lr t) = s.lr := upd_eq_self _ _
  simp only [e1, Bool.false_eq_true, if_false, e2] at this
  exact this

theorem Inv.rback {s s' : St n} (hi : Inv sl s) {t : Fin n} (hs : Bytelock.step real sl s (.rback t) = some s') : Inv sl s' := by
  simp only [Bytelock.step] at hs
  split at hs <;> simp only [Option.some.injEq, reduceCtorEq] at hs
  next hp =>
  subst hs
  obtain ⟨q, m, v, w, h, h2, e⟩ := withdraw_eq s sl t (s.th t)
  rw [e]
  have hh := hi.noh (t := t) (by rw [hp]; rfl)
  have hr := hi.hr t hh (by rw [hp]; simp)
  have hc : sl t = false → 0 < s.mem.last .count := fun hs => by rw [hi.nc]; exact cnt_pos t (by simp [inn, hs, hp])
  have := hi.putN (p := .rWait) (k := s.ti t) h.put h.cur h.cur' h.acq (fun y => by rw [h.rel]) h.wr h.wr' (by rw [hp]; rfl) rfl (by rw [hp]; rfl) nofun nofun nofun
    (by simp) (by rw [hp]; nofun) nofun (fun hs => by rw [h2 hs]; have := hc hs; simp [inn, hs, hp]; omega) h.view' rfl
    (fun _ => Nat.le_trans hr (h.view _ (loc_own t t))) (fun _ => by rw [h.rel]; exact hr)
  rw [upd_eq_self] at this
  exact this

theorem Inv.runlock {s s' : St n} (hi : Inv sl s) {t : Fin n} (hs : Bytelock.step real sl s (.runlock t) = some s') : Inv sl s' := by
  simp only [Bytelock.step] at hs
  split at hs <;> simp only [Option.some.injEq, reduceCtorEq] at hs
  next hp =>
  subst hs
  obtain ⟨hp, hh⟩ := hp
  obtain ⟨q, m, v, w, h, h2, e⟩ := withdraw_eq s sl t (opt real.runlock Th.fenceRel (s.th t))
  rw [e]
  have hr : s.mem.top (.own t) ≤ (Th.fenceRel (s.th t)).rel (.own t) := Nat.le_trans (hi.oc t) (le_join_right _ _ _)
  have hc : sl t = false → 0 < s.mem.last .count := fun hs => by rw [hi.nc]; exact cnt_pos t (by simp [inn, hs, hh])
  have := hi.putN (p := .idle) (k := s.ti t) h.put h.cur h.cur' h.acq (fun y => by rw [h.rel]; exact le_join_left _ _ _) h.wr h.wr' (by rw [hp]) rfl (by rw [hp]) nofun nofun nofun
    (by simp) (by rw [hp]; nofun) nofun (fun hs => by rw [h2 hs]; have := hc hs; simp [inn, hs, hp, hh]; omega) h.view' rfl
    (fun _ => Nat.le_trans hr (h.view _ (loc_own t t))) (fun _ => by rw [h.rel]; exact hr)
  rw [upd_eq_self, ← hp, upd_eq_self] at this
  exact this

theorem Inv.wclr {s s' : St n} (hi : Inv sl s) {t : Fin n} (hs : Bytelock.step real sl s (.wclr t) = some s') : Inv sl s' := by
  simp only [Bytelock.step] at hs
  split at hs <;> simp only [Option.some.injEq, reduceCtorEq] at hs
  next hp =>
  subst hs
  obtain ⟨q, m, v, w, h, h2, e⟩ := withdraw_eq s sl t (s.th t)
  rw [e]
  have hsl := hi.ds t (by rw [hp]; simp)
  have := hi.putN (p := .wFence) (k := s.ti t) h.put h.cur h.cur' h.acq (fun y => by rw [h.rel]) h.wr h.wr' (by rw [hp]; rfl) rfl (by rw [hp]; rfl) (by rw [hp]; simp) nofun nofun
    (by simp) (fun _ => hsl) nofun (by rw [hsl]; nofun) h.view' rfl nofun (fun h => absurd rfl h)
  rw [upd_eq_self] at this
  exact this

theorem Inv.dset {s s' : St n} (hi : Inv sl s) {t : Fin n} (hs : Bytelock.step real sl s (.dset t) = some s') : Inv sl s' := by
  simp only [Bytelock.step] at hs
  split at hs <;> simp only [Option.some.injEq, reduceCtorEq] at hs
  next hp =>
  subst hs
  have hsl := hi.ds t (by rw [hp]; simp)
  have ea : s.announce (fun _ => true) t = s.announce sl t := by simp [St.announce, hsl]
  obtain ⟨q, m, v, w, h, h1, h2, e⟩ := announce_eq s sl t
  rw [ea, e]
  have hh := hi.noh (t := t) (by rw [hp]; rfl)
  have hr := hi.hr t hh (by rw [hp]; simp)
  have := hi.putN (p := .dRel) h.put h.cur h.cur' h.acq (fun y => by rw [h.rel]) h.wr h.wr' (by rw [hp]; rfl) rfl (by rw [hp]; rfl) nofun (by rw [hp]; simp) (by rw [hp]; simp)
    (fun _ => hsl) (fun _ => hsl) (fun _ => ⟨h1, rfl⟩) (by rw [hsl]; nofun) h.view' rfl nofun (fun _ => by rw [h.rel]; exact hr)
  rw [hh] at this
  have e1 : upd s.hold t false = s.hold := by rw [← hh, upd_eq_self]
  have e2 : upd s.lr t (s.lr t) = s.lr := upd_eq_self _ _
  simp only [e1, Bool.false_eq_true, if_false, e2] at this
  exact this

theorem Inv.rfence {s s' : St n} (hi : Inv sl s) {t : Fin n} (hs : Bytelock.step real sl s (.rfence t) = some s') : Inv sl s' := by
  simp only [Bytelock.step, real, if_true] at hs
  split at hs <;> simp only [Option.some.injEq, reduceCtorEq] at hs
  next hp =>
  subst hs
  have hh := hi.noh (t := t) (by rw [hp]; rfl)
  refine hi.step (fence_cur _ _) (fence_acq _ _) (.inr ⟨by rw [hp]; rfl, Nat.le_trans (hi.oc t) (fence_cur _ _ _)⟩) rfl (fence_sc _ _) (by rw [hp]; rfl) (by rw [hp]; rfl) (by rw [hp]; nofun)
    (by rw [hh]; nofun) (by simp) nofun (fun _ => .inr ⟨?_, ?_, fun u hu => ?_⟩) nofun nofun nofun nofun
  · exact Nat.le_trans (hi.tc t (by rw [hp]; rfl)) (fence_cur _ _ _)
  · exact Nat.le_trans hi.gl.2 (fence_sc _ _ _)
  · exact Nat.le_trans (hi.fs u hu).1 (fence_sc _ _ _)

theorem Inv.rchk {s s' : St n} (hi : Inv sl s) {t : Fin n} {i : Nat} (hs : Bytelock.step real sl s (.rchk t i) = some s') : Inv sl s' := by
  simp only [Bytelock.step] at hs
  split at hs
  · next hm =>
    obtain ⟨hp, hm⟩ := hm
    have hh := hi.noh (t := t) (by rw [hp]; rfl)
    split at hs <;> simp only [Option.some.injEq] at hs <;> subst hs
    · next hv =>
      refine hi.enter (fun y => Nat.le_trans (Th.load_cur_le _ _ _ _ _) (fenceAcq_le _ _ _)) (Th.load_acq_le _ _ _ _) (fun _ => Nat.le_refl _) rfl
        hp (fun u hu h => ?_) (fun x => ?_)
      · obtain ⟨h1, h2, h3⟩ := hi.ow u (PC.own_of_fen hu)
        obtain rfl : i = s.mem.top .owner := Nat.le_antisymm hm.2 (by have := hm.1; omega)
        rw [Mem.last] at h2
        omega
      · have h1 := Nat.le_trans (hi.ck t (by rw [hp]; rfl)).2 hm.1
        have h2 : s.lu ≤ i := by
          by_cases e : i = s.lu - 1 ∧ 0 < s.lu
          · rw [e.1] at hv; exact absurd hv (hi.gv e.2)
          · omega
        exact Nat.le_trans (hi.gw i x h2 hm.2) (Nat.le_trans (Th.load_view_le _ _ _ _ _) (le_join_right _ _ _))
    · refine hi.look .owner i ?_ ?_ ?_ ?_ ?_ ?_ ?_ ?_ ?_ ?_ ?_ ?_ <;> simp [hp, hh]
  · cases hs

theorem Inv.rwait {s s' : St n} (hi : Inv sl s) {t : Fin n} {i : Nat} (hs : Bytelock.step real sl s (.rwait t i) = some s') : Inv sl s' := by
  simp only [Bytelock.step] at hs
  split at hs <;> simp only [Option.some.injEq, reduceCtorEq] at hs
  next hp =>
  subst hs
  obtain ⟨hp, hm⟩ := hp
  have hh := hi.noh (t := t) (by rw [hp]; rfl)
  split <;> (refine hi.look .owner i ?_ ?_ ?_ ?_ ?_ ?_ ?_ ?_ ?_ ?_ ?_ ?_ <;> simp [hp, hh])

theorem Inv.wcall {s s' : St n} (hi : Inv sl s) {t : Fin n} (hs : Bytelock.step real sl s (.wcall t) = some s') : Inv sl s' := by
  simp only [Bytelock.step] at hs
  split at hs <;> simp only [Option.some.injEq, reduceCtorEq] at hs
  next hp =>
  subst hs
  obtain ⟨hp, hh⟩ := hp
  have := hi.step (t := t) (q := s.th t) (p := .wCas) (sc := s.sc) (fun _ => Nat.le_refl _) (fun _ => Nat.le_refl _) (.inl ⟨fun _ => Nat.le_refl _, by rw [hp]; simp⟩) rfl
    (fun _ => Nat.le_refl _) (by rw [hp]; rfl) (by rw [hp]; rfl) (by rw [hp]; nofun) (fun h => ⟨rfl, .inr (hh h)⟩) (by simp) nofun nofun nofun nofun nofun nofun
  rwa [upd_eq_self] at this

theorem Inv.wcas {s s' : St n} (hi : Inv sl s) {t : Fin n} (hs : Bytelock.step real sl s (.wcas t) = some s') : Inv sl s' := by
  simp only [Bytelock.step] at hs
  split at hs <;> simp only [Option.some.injEq, reduceCtorEq] at hs
  next hp =>
  subst hs
  obtain ⟨hp, h0⟩ := hp
  refine hi.acquire (Put.rmw s.mem (s.th t) .owner (t + 1)) (fun y hy => Th.rmw_cur_le _ _ _ hy) (by simp [Th.rmw, Th.store]) (fun y => Th.load_view_le _ _ _ _ _) rfl
    (fun y hy => by simp only [Th.rmw, Th.store, upd_ne _ _ hy]; exact Nat.le_refl _) hp rfl h0 (fun y hy => ?_)
  rw [upd_ne _ _ hy]
  exact le_join_right _ _ _

theorem Inv.load {s : St n} (hi : Inv sl s) (t : Fin n) (l : Loc n) (i : Nat) (h : s.pc t ≠ .wFence) : Inv sl { s with th := upd s.th t ((s.th t).load s.mem l i) } := by
  have := hi.look (t := t) (p := s.pc t) l i h rfl rfl id (hi.dp t) (hi.ds t) id id id id (fun _ => id) id
  rwa [upd_eq_self] at this

theorem Inv.wfence {s s' : St n} (hi : Inv sl s) {t : Fin n} (hs : Bytelock.step real sl s (.wfence t) = some s') : Inv sl s' := by
  simp only [Bytelock.step, real, if_true] at hs
  split at hs <;> simp only [Option.some.injEq, reduceCtorEq] at hs
  next hp =>
  subst hs
  have hh := hi.noh (t := t) (by rw [hp]; rfl)
  obtain ⟨w1, w2, w3⟩ := hi.wf t (by rw [hp]; rfl)
  have ho := hi.ow t (by rw [hp]; rfl)
  refine hi.step (fence_cur _ _) (fence_acq _ _) (.inr ⟨by rw [hp]; rfl, Nat.le_trans (hi.oc t) (fence_cur _ _ _)⟩) rfl (fence_sc _ _) (by rw [hp]; rfl) (by rw [hp]; rfl) (by rw [hp]; nofun)
    (by rw [hh]; nofun) (by simp) nofun nofun nofun (fun _ => .inr ⟨?_, fun x => ?_, fun v => ?_, fun v => ?_, fun v => ?_⟩) (fun v h => absurd h.1 (Nat.not_lt_zero _)) nofun
  · exact Nat.le_trans ho.2.2 (fence_cur _ _ _)
  · exact ⟨Nat.le_trans (w1 x) (fence_acq _ _ _), Nat.le_trans (w1 x) (fence_acq _ _ _)⟩
  · exact ⟨Nat.le_trans (w2 v) (fence_acq _ _ _), Nat.le_trans (w2 v) (fence_acq _ _ _)⟩
  · rcases w3 v with h | h
    · exact ⟨Nat.le_trans h (fence_sc _ _ _), Nat.le_trans h (fence_sc _ _ _)⟩
    · exact ⟨Nat.le_trans h (fence_acq _ _ _), Nat.le_trans h (fence_acq _ _ _)⟩
  · exact fence_sc _ _ _

/-- A writer loads 0 from the word of `c`. -/
theorem Inv.empty {s : St n} (hi : Inv sl s) {t c : Fin n} {i : Nat} (hf : (s.pc t).fen = true) (hm : (s.th t).may s.mem (loc sl c) i) (hv : (s.mem.msg (loc sl c) i).val = 0) :
    s.hold c = false ∧ (s.mem.top (.own c) ≤ ((s.th t).load s.mem (loc sl c) i).cur (.own c) ∨ s.mem.top (.own c) ≤ ((s.th t).load s.mem (loc sl c) i).acq (.own c)) ∧
      ((s.pc c).chk = true → s.wi ≤ (s.th c).cur .owner) := by
  have h1 : s.lr c ≤ i ∧ s.hold c = false := by
    have := fun h => hi.hv c i (Nat.le_trans (hi.fq t hf c).1 hm.1) hm.2 h hv
    refine ⟨Nat.le_of_not_lt fun h => this (.inr h), ?_⟩
    cases hh : s.hold c
    · rfl
    · exact absurd (.inl hh) this
  refine ⟨h1.2, ?_, fun hk => ?_⟩
  · by_cases e : c = t
    · subst e; exact .inl (Nat.le_trans (hi.oc c) (Th.load_cur_le _ _ _ _ _))
    · have ho : (s.pc c).own = false := by
        cases h : (s.pc c).own
        · rfl
        · exact absurd (hi.uq c t h (PC.own_of_fen hf)) e
      rcases hi.hw c h1.2 ho with h | h
      · exact .inr (Nat.le_trans (h i h1.1 hm.2) (Th.load_view_le _ _ _ _ _))
      · exact .inl (Nat.le_trans h (Nat.le_trans ((hi.fs t hf).2.2 c).1 (Th.load_cur_le _ _ _ _ _)))
  · rcases hi.fc t c hf hk with h | h
    · exact h
    · have ht : (s.pc c).tent = true := by revert hk; cases s.pc c <;> simp
      exact absurd hv ((hi.tv c ht).2 i (Nat.le_trans h hm.1) hm.2)

theorem Inv.wscan {s s' : St n} (hi : Inv sl s) {t c : Fin n} {i : Nat} (hs : Bytelock.step real sl s (.wscan t c i) = some s') : Inv sl s' := by
  cases hp : s.pc t <;> simp only [Bytelock.step, hp, reduceCtorEq] at hs
  next k =>
  have hf : (s.pc t).fen = true := by rw [hp]; rfl
  have hh := hi.noh (t := t) (by rw [hp]; rfl)
  have hle : ∀ v : Fin n, (v : Nat) < c + 1 → v ≠ c → (v : Nat) < c := fun v h e => by have : (v : Nat) ≠ c := fun h => e (Fin.ext h); omega
  split at hs
  · next hk =>
    obtain ⟨rfl, hsl⟩ := hk
    simp only [Option.some.injEq] at hs
    subst hs
    have := hi.step (t := t) (q := s.th t) (p := .wScan (c + 1)) (sc := s.sc) (fun _ => Nat.le_refl _) (fun _ => Nat.le_refl _) (.inl ⟨fun _ => Nat.le_refl _, by rw [hp]; simp⟩) rfl
      (fun _ => Nat.le_refl _) (by rw [hp]; rfl) (by rw [hp]; rfl) (by rw [hp]; nofun) (by rw [hh]; nofun) (by simp) nofun nofun nofun (fun _ => .inl hf)
      (fun v h => .inl (by rw [hp]; exact ⟨hle v h.1 (fun e => by have := h.2; rw [e, hsl] at this; cases this), h.2⟩)) nofun
    rwa [upd_eq_self] at this
  · next hk0 =>
    split at hs <;> simp only [Option.some.injEq, reduceCtorEq] at hs
    next hk =>
    obtain ⟨rfl, hm⟩ := hk
    have hsl : sl c = true := by
      cases h : sl c
      · exact absurd ⟨rfl, h⟩ hk0
      · rfl
    have el : loc sl c = .slot c := by simp [loc, hsl]
    subst hs
    split
    · next hv =>
      rw [← el] at hm hv ⊢
      refine hi.step (Th.load_cur_le _ _ _ _) (Th.load_acq_le _ _ _ _) (.inl ⟨fun _ => Nat.le_refl _, by rw [hp]; simp⟩) rfl (fun _ => Nat.le_refl _)
        (by rw [hp]; rfl) (by rw [hp]; rfl) (by rw [hp]; nofun) (by rw [hh]; nofun) (by simp) nofun nofun nofun (fun _ => .inl hf) (fun v h => ?_) nofun
      by_cases e : v = c
      · subst e; exact .inr (hi.empty hf hm hv)
      · exact .inl (by rw [hp]; exact ⟨hle v h.1 e, h.2⟩)
    · refine hi.look (.slot c) i ?_ ?_ ?_ ?_ ?_ ?_ ?_ ?_ ?_ ?_ ?_ ?_ <;> simp [hp, hh]

theorem Inv.wcnt {s s' : St n} (hi : Inv sl s) {t : Fin n} {i : Nat} (hs : Bytelock.step real sl s (.wcnt t i) = some s') : Inv sl s' := by
  simp only [Bytelock.step] at hs
  split at hs
  · next hk =>
    obtain ⟨hp, hm⟩ := hk
    have hf : (s.pc t).fen = true := by rw [hp]; rfl
    have hh := hi.noh (t := t) (by rw [hp]; rfl)
    split at hs <;> simp only [Option.some.injEq] at hs <;> subst hs
    · next hv =>
      have hnc : ∀ u, (s.pc u).crs = false := fun u => by
        cases h : (s.pc u).crs
        · rfl
        · have e := hi.uq u t (PC.own_of_fen (PC.fen_of_crs h)) (by rw [hp]; rfl)
          rw [e, hp] at h; cases h
      have hall : ∀ v, s.hold v = false ∧ (s.mem.top (.own v) ≤ ((s.th t).load s.mem .count i).cur (.own v) ∨ s.mem.top (.own v) ≤ ((s.th t).load s.mem .count i).acq (.own v)) ∧
          ((s.pc v).chk = true → s.wi ≤ (s.th v).cur .owner) := fun v => by
        cases hv' : sl v
        · have el : loc sl v = .count := by simp [loc, hv']
          rw [← el] at hm hv ⊢
          exact hi.empty hf hm hv
        · obtain ⟨a, b, c⟩ := hi.sn t v (by rw [hp]; exact ⟨v.2, hv'⟩)
          exact ⟨a, b.imp (fun h => Nat.le_trans h (Th.load_cur_le _ _ _ _ _)) fun h => Nat.le_trans h (Th.load_acq_le _ _ _ _ _), c⟩
      have hb := (hi.fs t hf).2.1
      refine hi.step (fun y => Nat.le_trans (Th.load_cur_le _ _ _ _ _) (fenceAcq_le _ _ _)) (Th.load_acq_le _ _ _ _) (.inl ⟨fun _ => Nat.le_refl _, by rw [hp]; simp⟩) rfl (fun _ => Nat.le_refl _)
        (by rw [hp]; rfl) (by rw [hp]; rfl) (by rw [hp]; nofun) (by rw [hh]; nofun) (by simp) nofun nofun nofun (fun _ => .inl hf)
        (fun v _ => .inr ⟨(hall v).1, (hall v).2.1.imp_left fun h => Nat.le_trans h (fenceAcq_le _ _ _), (hall v).2.2⟩)
        (fun _ => .inr ⟨fun x => ?_, fun v => ?_, fun x => ?_⟩)
      · exact Nat.le_trans (hi.qu hnc x) (Nat.le_trans (hb x).1 (Nat.le_trans (Th.load_cur_le _ _ _ _ _) (fenceAcq_le _ _ _)))
      · rcases (hall v).2.1 with h | h
        · exact Nat.le_trans h (le_join_left _ _ _)
        · exact Nat.le_trans h (le_join_right _ _ _)
      · exact Nat.le_trans (hi.qu hnc x) (hb x).2
    · exact hi.load t _ _ (by rw [hp]; simp)
  · cases hs

theorem Inv.wunlock {s s' : St n} (hi : Inv sl s) {t : Fin n} (hs : Bytelock.step real sl s (.wunlock t) = some s') : Inv sl s' := by
  simp only [Bytelock.step] at hs
  split at hs <;> simp only [Option.some.injEq, reduceCtorEq] at hs
  next hp =>
  subst hs
  have hh := hi.noh (t := t) (by rw [hp]; rfl)
  have hcr := hi.cr t (by rw [hp]; rfl)
  have hfs := hi.fs t (by rw [hp]; rfl)
  have := hi.release (t := t) (b := false) (q := (Th.fenceRel (s.th t)).store s.mem .owner) (Put.store s.mem (Th.fenceRel (s.th t)) .owner 0) (fun y hy => Th.store_cur_le (Th.fenceRel (s.th t)) _ _ hy) (by simp [Th.store])
    (fun y => le_join_left _ _ _) (fun y hy => by simp only [Th.store, upd_ne _ _ hy]; exact Nat.le_refl _) (by simpa using hp) rfl
    (fun x => by rw [upd_ne _ _ (by simp)]; exact Nat.le_trans (hcr.1 x) (le_join_right _ _ _))
    (fun u => by rw [upd_ne _ _ (by simp)]; exact Nat.le_trans (hfs.2.2 u).1 (le_join_right _ _ _))
    (by rw [upd_ne _ _ (by simp)]; exact Nat.le_trans (hi.oc t) (le_join_right _ _ _)) nofun
  have e1 : upd s.hold t false = s.hold := by rw [← hh, upd_eq_self]
  have e2 : upd s.lq t (s.lq t) = s.lq := upd_eq_self _ _
  simp only [e1, Bool.false_eq_true, if_false, e2] at this
  exact this

theorem Inv.drel {s s' : St n} (hi : Inv sl s) {t : Fin n} (hs : Bytelock.step real sl s (.drel t) = some s') : Inv sl s' := by
  simp only [Bytelock.step] at hs
  split at hs <;> simp only [Option.some.injEq, reduceCtorEq] at hs
  next hp =>
  subst hs
  have hcr := hi.cr t (by rw [hp]; rfl)
  have hfs := hi.fs t (by rw [hp]; rfl)
  refine hi.release (t := t) (b := true) (q := (Th.fenceStore (s.th t)).store s.mem .owner) (Put.store s.mem (Th.fenceStore (s.th t)) .owner 0) (fun y hy => Th.store_cur_le (Th.fenceStore (s.th t)) _ _ hy) (by simp [Th.store])
    (fun y => le_join_left _ _ _) (fun y hy => by simp only [Th.store, upd_ne _ _ hy]; exact Nat.le_refl _) (by simpa using hp) rfl
    (fun x => ?_) (fun u => ?_) ?_ (fun _ => ?_)
  · rw [upd_ne _ _ (by simp)]
    rcases hcr.2.2 x with h | h
    · exact Nat.le_trans h (le_join_left _ _ _)
    · exact Nat.le_trans h (le_join_right _ _ _)
  · rw [upd_ne _ _ (by simp)]; exact Nat.le_trans (hfs.2.2 u).2 (le_join_left _ _ _)
  · rw [upd_ne _ _ (by simp)]; exact Nat.le_trans (hi.od t) (le_join_right _ _ _)
  · rw [upd_ne _ _ (loc_owner t).symm]; exact Nat.le_trans (hi.dw t hp) (le_join_right _ _ _)

theorem Inv.client {s s' : St n} (hi : Inv sl s) {a : Act n}
    (ha : (∃ t x i, a = .read t x i) ∨ (∃ t x v, a = .write t x v) ∨ (∃ t v, a = .put t v) ∨ (∃ t u i, a = .get t u i) ∨ ∃ t i, a = .wspin t i)
    (hs : Bytelock.step real sl s a = some s') : Inv sl s' := by
  rcases ha with ⟨t, x, i, rfl⟩ | ⟨t, x, v, rfl⟩ | ⟨t, v, rfl⟩ | ⟨t, u, i, rfl⟩ | ⟨t, i, rfl⟩ <;> simp only [Bytelock.step] at hs <;> split at hs <;>
    simp only [Option.some.injEq, reduceCtorEq] at hs <;> subst hs
  · next hp => exact hi.load t _ _ (by rcases hp.1 with h | h <;> simp [h])
  · next hp =>
    exact hi.putU (Put.store s.mem (s.th t) (.usr x) v) (fun y hy => Th.store_cur_le _ _ _ hy) (by simp [Th.store]) rfl rfl
      (fun y hy => by simp only [Th.store, upd_ne _ _ hy]; exact Nat.le_refl _) (by simp [Th.store]) hp
  · next hp =>
    exact hi.putO (Put.store s.mem (s.th t) (.own t) v) (fun y hy => Th.store_cur_le _ _ _ hy) (by simp [Th.store]) rfl rfl
      (fun y hy => by simp only [Th.store, upd_ne _ _ hy]; exact Nat.le_refl _) (by simp [Th.store]) hp.2 hp.1
  · next hp => exact hi.load t _ _ (by simp [hp.1])
  · next hp => exact hi.load t _ _ (by simp [hp.1])

theorem inv_step {s s' : St n} (hi : Inv sl s) {a : Act n} (hs : Bytelock.step real sl s a = some s') : Inv sl s' := by
  cases a
  case rcall => exact hi.rcall hs
  case rset => exact hi.rset hs
  case rfence => exact hi.rfence hs
  case rchk => exact hi.rchk hs
  case rback => exact hi.rback hs
  case rwait => exact hi.rwait hs
  case runlock => exact hi.runlock hs
  case wcall => exact hi.wcall hs
  case wcas => exact hi.wcas hs
  case wclr => exact hi.wclr hs
  case wfence => exact hi.wfence hs
  case wscan => exact hi.wscan hs
  case wcnt => exact hi.wcnt hs
  case wunlock => exact hi.wunlock hs
  case dset => exact hi.dset hs
  case drel => exact hi.drel hs
  case read => exact hi.client (.inl ⟨_, _, _, rfl⟩) hs
  case write => exact hi.client (.inr (.inl ⟨_, _, _, rfl⟩)) hs
  case put => exact hi.client (.inr (.inr (.inl ⟨_, _, rfl⟩))) hs
  case get => exact hi.client (.inr (.inr (.inr (.inl ⟨_, _, _, rfl⟩)))) hs
  case wspin => exact hi.client (.inr (.inr (.inr (.inr ⟨_, _, rfl⟩)))) hs

theorem inv_init : Inv sl (initSt n) := by
  have e : cnt id (inn sl (initSt n).hold (initSt n).pc) = 0 := cnt_zero_of fun t => by simp [inn, initSt]
  constructor <;> (try rw [e]) <;> simp [initSt, Mem.init, Th.init, Mem.last]

theorem inv_reach {s : St n} (h : (sys real sl).Reach s) : Inv sl s :=
  h.invariant (I := Inv sl) (by rintro s rfl; exact inv_init) fun _ _ _ hi hs => inv_step hi hs

/-! ## Theorems -/

/-- C92: a writer holds the lock alone. -/
theorem rw_exclusion {s : St n} (h : (sys real sl).Reach s) : RwEx s.reads s.writes := by
  have hi := inv_reach h
  refine ⟨fun t u ht hu => hi.uq t u (by rw [show s.pc t = _ from ht]; rfl) (by rw [show s.pc u = _ from hu]; rfl), fun t u ht hu => ?_⟩
  have h1 := (hi.sn t u (by rw [show s.pc t = _ from ht]; trivial)).1
  have h2 : s.hold u = true := hu
  rw [h1] at h2; cases h2

/-- C92: a holder loads the newest value of any data word. -/
theorem reads_last {s s' : St n} (h : (sys real sl).Reach s) {t : Fin n} {x i : Nat} (hs : (sys real sl).step s (.read t x i) = some s') :
    (s.mem.msg (.usr x) i).val = s.mem.last (.usr x) := by
  have hi := inv_reach h
  simp only [sys, Bytelock.step] at hs
  split at hs
  · next hp =>
    have : s.mem.top (.usr x) ≤ (s.th t).cur (.usr x) := by
      rcases hp.1 with h | ⟨_, h⟩
      · exact (hi.cr t (by rw [h]; rfl)).1 x
      · refine Nat.le_trans (hi.qu (fun u => ?_) x) (hi.rb t h x)
        cases hu : (s.pc u).crs
        · rfl
        · have := (hi.sn u t (PC.seen_of_crs hu)).1
          rw [h] at this; cases this
    rw [show i = s.mem.top (.usr x) from Nat.le_antisymm hp.2.2 (Nat.le_trans this hp.2.1)]; rfl
  · cases hs

/-- C92: a writer loads the newest value stored by any reader. -/
theorem wreads_last {s s' : St n} (h : (sys real sl).Reach s) {t u : Fin n} {i : Nat} (hs : (sys real sl).step s (.get t u i) = some s') :
    (s.mem.msg (.own u) i).val = s.mem.last (.own u) := by
  simp only [sys, Bytelock.step] at hs
  split at hs
  · next hp =>
    rw [show i = s.mem.top (.own u) from Nat.le_antisymm hp.2.2 (Nat.le_trans (((inv_reach h).cr t (by rw [hp.1]; rfl)).2.1 u) hp.2.1)]; rfl
  · cases hs

/-- C92: a writer that calls `read_lock` takes the path for a downgrade, and no other thread does. -/
theorem downgrade {s s' : St n} (h : (sys real sl).Reach s) {t : Fin n} {i : Nat} (hs : (sys real sl).step s (.rcall t i) = some s') :
    s'.pc t = .dSet ↔ s.writes t := by
  have hi := inv_reach h
  simp only [sys, Bytelock.step] at hs
  split at hs <;> simp only [Option.some.injEq, reduceCtorEq] at hs
  next hp =>
  subst hs
  obtain ⟨hp, hm⟩ := hp
  simp only [upd_same, St.writes]
  rcases hp with ⟨hp, _⟩ | ⟨hp, _⟩
  · have hv : (s.mem.msg .owner i).val ≠ t + 1 := fun h => by have := hi.os t i hm.1 hm.2 h; rw [hp] at this; cases this
    rw [if_neg hv, hp]; simp
  · obtain ⟨h1, h2, h3⟩ := hi.ow t (by rw [hp]; rfl)
    obtain rfl : i = s.mem.top .owner := Nat.le_antisymm hm.2 (by have := hm.1; omega)
    rw [if_pos (show (s.mem.msg .owner (s.mem.top .owner)).val = _ from h2), hp]; simp

/-! ## The fences are needed -/

/-- Both threads have slots. -/
def both : Fin 2 → Bool := fun _ => true
/-- Thread 0 has no slot and counts itself in `n_readers`. -/
def only1 : Fin 2 → Bool := fun t => t = 1

def can (fc : Fences) (sl : Fin 2 → Bool) (as : List (Act 2)) : Bool := ((sys fc sl).run (initSt 2) as).isSome

/-- After the run `as` thread `t` holds the lock as a reader and thread `u` as a writer. -/
def clash (fc : Fences) (sl : Fin 2 → Bool) (t u : Fin 2) (as : List (Act 2)) : Bool := match (sys fc sl).run (initSt 2) as with
  | some s => decide (s.hold t = true ∧ s.pc u = .writing)
  | none => false

/-- Reader and writer announce themselves, then each looks for the other. -/
def dekker : List (Act 2) :=
  [.rcall 0 0, .rset 0, .wcall 1, .wcas 1, .wclr 1, .wfence 1, .rfence 0, .rchk 0 0, .wscan 1 0 0, .wscan 1 1 1, .wcnt 1 0]

/-- The same, the reader is faster. -/
def dekker' : List (Act 2) :=
  [.rcall 0 0, .rset 0, .rfence 0, .rchk 0 0, .wcall 1, .wcas 1, .wclr 1, .wfence 1, .wscan 1 0 0, .wscan 1 1 1, .wcnt 1 0]

theorem no_fence_rd : clash { real with rd := false } both 0 1 dekker = true ∧ clash { real with rd := false } only1 0 1 dekker = true := by decide +kernel
theorem no_fence_wr : clash { real with wr := false } both 0 1 dekker' = true ∧ clash { real with wr := false } only1 0 1 dekker' = true := by decide +kernel

/-- With the fences neither run is possible. -/
example : can real both dekker = false ∧ can real only1 dekker = false ∧ can real both dekker' = false ∧ can real only1 dekker' = false := by decide +kernel

/-- Thread 1 takes the write lock and stores 5. -/
def wrote : List (Act 2) := [.wcall 1, .wcas 1, .wclr 1, .wfence 1, .wscan 1 0 0, .wscan 1 1 1, .wcnt 1 0, .write 1 0 5]
/-- Thread 0 takes the read lock. -/
def enters : List (Act 2) := [.rcall 0 0, .rset 0, .rfence 0, .rchk 0 2]

theorem no_fence_rdAcq : can { real with rdAcq := false } both (wrote ++ [.wunlock 1] ++ enters ++ [.read 0 0 0]) = true ∧
    can { real with rdAcq := false } only1 (wrote ++ [.wunlock 1] ++ enters ++ [.read 0 0 0]) = true := by decide +kernel
theorem no_fence_wunlock : can { real with wunlock := false } both (wrote ++ [.wunlock 1] ++ enters ++ [.read 0 0 0]) = true := by decide +kernel

/-- Thread 0 takes the read lock, stores 5 to its own word and unlocks; thread 1 takes the write lock, the message `i` of the word of thread 0 is read. -/
def readw (i j : Nat) : List (Act 2) :=
  [.rcall 0 0, .rset 0, .rfence 0, .rchk 0 0, .put 0 5, .runlock 0, .wcall 1, .wcas 1, .wclr 1, .wfence 1, .wscan 1 0 i, .wscan 1 1 1, .wcnt 1 j]

theorem no_fence_wrAcq : can { real with wrAcq := false } both (readw 2 0 ++ [.get 1 0 0]) = true ∧
    can { real with wrAcq := false } only1 (readw 0 2 ++ [.get 1 0 0]) = true := by decide +kernel
theorem no_fence_runlock : can { real with runlock := false } both (readw 2 0 ++ [.get 1 0 0]) = true ∧
    can { real with runlock := false } only1 (readw 0 2 ++ [.get 1 0 0]) = true := by decide +kernel

/-- Thread 1 downgrades, then thread 0 takes the write lock. -/
def downs (i : Nat) : List (Act 2) :=
  wrote ++ [.rcall 1 1, .dset 1, .drel 1, .wcall 0, .wcas 0, .wclr 0, .wfence 0, .wscan 0 0 1, .wscan 0 1 i]

/-- Without the fence of line 133 the new writer does not see the slot of the old one. -/
theorem no_fence_down : clash { real with down := false } both 1 0 (downs 1 ++ [.wcnt 0 0]) = true ∧
    can { real with down := false } both (wrote ++ [.rcall 1 1, .dset 1, .drel 1] ++ enters ++ [.read 0 0 0]) = true := by decide +kernel

/-- With the fences the holders load 5, and the writer that follows a downgrade waits. -/
example : can real both (wrote ++ [.wunlock 1] ++ enters ++ [.read 0 0 0]) = false ∧ can real both (wrote ++ [.wunlock 1] ++ enters ++ [.read 0 0 1]) = true ∧
    can real both (wrote ++ [.rcall 1 1, .dset 1, .drel 1] ++ enters ++ [.read 0 0 0]) = false ∧
    can real both (wrote ++ [.rcall 1 1, .dset 1, .drel 1] ++ enters ++ [.read 0 0 1, .read 1 0 1]) = true ∧
    can real both (readw 2 0 ++ [.get 1 0 0]) = false ∧ can real both (readw 2 0 ++ [.get 1 0 1]) = true ∧
    can real only1 (readw 0 2 ++ [.get 1 0 0]) = false ∧ can real only1 (readw 0 2 ++ [.get 1 0 1]) = true ∧
    can real both (downs 1) = false ∧ can real both (downs 2 ++ [.runlock 1, .wscan 0 1 3, .wcnt 0 0, .read 0 0 1]) = true := by decide +kernel

/-- Thread 0 upgrades, reads what thread 1 stored as a reader; a reader that meets a writer backs out and waits. -/
example : can real both [.rcall 0 0, .rset 0, .rfence 0, .rchk 0 0, .rcall 1 0, .rset 1, .rfence 1, .rchk 1 0, .put 1 7, .wcall 0, .wcas 0, .wclr 0, .wfence 0,
    .wscan 0 0 2, .wscan 0 1 1, .wcall 1, .wspin 1 1, .wscan 0 1 1] = true ∧
  can real only1 [.wcall 1, .wcas 1, .wclr 1, .rcall 0 1, .rset 0, .rfence 0, .wfence 1, .wscan 1 0 0, .wscan 1 1 1, .wcnt 1 1, .rchk 0 1, .rback 0, .wcnt 1 2, .write 1 0 3,
    .rwait 0 1, .wunlock 1, .rwait 0 2, .rset 0, .rfence 0, .rchk 0 2, .read 0 0 1, .runlock 0, .wcall 0, .wcas 0] = true := by decide +kernel

end Verif.Weak.Bytelock
