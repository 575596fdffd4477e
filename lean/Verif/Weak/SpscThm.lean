import Verif.Weak.Spsc
import Verif.Core.Seg
import Verif.Core.Tactic

/-!
# `ck_fifo_spsc` on relaxed memory: FIFO order, recycling, what is visible in dequeued objects (C88)
-/

namespace Verif.Weak.Spsc

open Verif
open Fas (opt)

variable {N V : Type} [DecidableEq N] [DecidableEq V] {stub : N}

/-- The entry the producer is enqueuing. -/
@[simp, grind] def PPC.x : PPC N V → Option N
  | .nul x _ => some x
  | .pub x _ => some x
  | _ => none

/-- What the view `w` of a pointer to the `k`-th entry contains. -/
structure Knows (m : Mem (Loc N V) (W N V)) (ent : Nat → N) (ix dx : Nat → Nat) (put : List (Option V)) (w : View (Loc N V)) (k : Nat) : Prop where
  nx : ix k ≤ w (.next (ent k))
  vl : m.top (.val (ent k)) ≤ w (.val (ent k))
  dt : ∀ o, put[k - 1]? = some (some o) → dx k ≤ w (.dat o)

structure Inv (s : St N V) : Prop where
  o1 : s.ng ≤ s.ns
  o2 : s.ns ≤ s.got.length
  o3 : s.got.length ≤ s.put.length
  ht : s.mem.top .hd = s.got.length
  hm : ∀ i, i ≤ s.got.length → (s.mem.msg .hd i).val.p = some (s.ent i)
  tl : s.tail = s.ent s.put.length
  hh : s.head = s.ent s.got.length
  sn : s.snap = some (s.ent s.ns)
  ga : s.garb = some (s.ent s.ng)
  inj : ∀ i j, s.ng ≤ i → i < j → j ≤ s.put.length → s.ent i ≠ s.ent j
  fr : ∀ i, s.ng ≤ i → i ≤ s.put.length → s.free (s.ent i) = false
  fx : ∀ x, s.ppc.x = some x → s.free x = false
  px : ∀ x i, s.ppc.x = some x → s.ng ≤ i → i ≤ s.put.length → s.ent i ≠ x
  xt : ∀ k, s.ng ≤ k → k < s.put.length → s.mem.top (.next (s.ent k)) = s.ix k + 1
  xe : s.mem.top (.next (s.ent s.put.length)) = s.ix s.put.length
  x0 : ∀ k, s.ng ≤ k → k ≤ s.put.length → (s.mem.msg (.next (s.ent k)) (s.ix k)).val.p = none
  x1 : ∀ k, s.ng ≤ k → k < s.put.length → (s.mem.msg (.next (s.ent k)) (s.ix k + 1)).val.p = some (s.ent (k + 1))
  xv : ∀ k, s.ng ≤ k → k < s.put.length → Knows s.mem s.ent s.ix s.dx s.put (s.mem.msg (.next (s.ent k)) (s.ix k + 1)).view (k + 1)
  vl : ∀ k, s.ng ≤ k → k < s.put.length → s.put[k]? = some (s.mem.last (.val (s.ent (k + 1)))).o
  pw : ∀ l, l ≠ .hd → s.mem.top l ≤ s.p.wr l ∧ s.mem.top l ≤ s.p.cur l
  ph : s.ns ≤ s.p.cur .hd
  pn : ∀ x v, s.ppc = .nul x v → (s.mem.last (.val x)).o = v
  pp : ∀ x v, s.ppc = .pub x v → (s.mem.last (.val x)).o = v ∧ (s.mem.last (.next x)).p = none
  pt : s.ppc = .take → s.ng < s.ns
  pe : ∀ x, s.ppc = .emp x → ∃ i, s.ns ≤ i ∧ i ≤ s.got.length ∧ x = some (s.ent i)
  hv : s.ix s.got.length ≤ s.hv (.next s.head)
  c1 : ∀ e w, s.cpc = .val e w → s.got.length < s.put.length ∧ e = s.ent (s.got.length + 1) ∧ Knows s.mem s.ent s.ix s.dx s.put w (s.got.length + 1)
  c2 : ∀ e w v u, s.cpc = .done e w v u → s.got.length < s.put.length ∧ e = s.ent (s.got.length + 1) ∧ Knows s.mem s.ent s.ix s.dx s.put w (s.got.length + 1) ∧
    s.put[s.got.length]? = some v ∧ ∀ o, v = some o → s.dx (s.got.length + 1) ≤ u (.dat o)
  gp : s.got = s.put.take s.got.length
  ob : ∀ o, s.obj = some o → s.dx s.got.length ≤ s.ov (.dat o)
  ev : ∀ j k, s.ng ≤ j → j < k → k ≤ s.put.length → s.ix j + 1 ≤ s.ev k (.next (s.ent j))

theorem Inv.init : Inv (initSt stub : St N V) := by
  constructor <;> simp [initSt, Mem.init, Th.init] <;> omega

/-- A store of the producer to a location that the consumer does not look at. -/
theorem Inv.put {s : St N V} (hi : Inv s) {m' : Mem (Loc N V) (W N V)} {l : Loc N V} {v : W N V} {w : View (Loc N V)} {q : Th (Loc N V)} {p' : PPC N V} {f' : N → Bool}
    (hm : Put s.mem m' l v w) (h0 : l ≠ .hd) (h1 : ∀ k, s.ng ≤ k → k ≤ s.put.length → l ≠ .next (s.ent k) ∧ l ≠ .val (s.ent k))
    (hq : ∀ y, y ≠ l → s.p.cur y ≤ q.cur y ∧ s.p.wr y ≤ q.wr y) (hq' : q.cur l = s.mem.top l + 1 ∧ q.wr l = s.mem.top l + 1)
    (hf : ∀ i, s.ng ≤ i → i ≤ s.put.length → f' (s.ent i) = false) (hx : ∀ x, p'.x = some x → f' x = false)
    (hx' : ∀ x i, p'.x = some x → s.ng ≤ i → i ≤ s.put.length → s.ent i ≠ x)
    (hn : ∀ x v, p' = .nul x v → (m'.last (.val x)).o = v) (hp : ∀ x v, p' = .pub x v → (m'.last (.val x)).o = v ∧ (m'.last (.next x)).p = none)
    (ht : p' ≠ .take) (he : ∀ x, p' ≠ .emp x) :
    Inv { s with mem := m', p := q, ppc := p', free := f' } := by
  obtain ⟨a1, a2, a3, a4, a5, a6, a7, a8, a9, a10, a11, a12, a13, a14, a15, a16, a17, a18, a19, a20, a21, a22, a23, a24, a25, a26, a27, a28, a29, a30, a31⟩ := hi
  have tn : ∀ k, s.ng ≤ k → k ≤ s.put.length → m'.top (.next (s.ent k)) = s.mem.top (.next (s.ent k)) := fun k h h' => hm.top_ne (h1 k h h').1.symm
  have tv : ∀ k, s.ng ≤ k → k ≤ s.put.length → m'.top (.val (s.ent k)) = s.mem.top (.val (s.ent k)) := fun k h h' => hm.top_ne (h1 k h h').2.symm
  have kn : ∀ w k, s.ng ≤ k → k ≤ s.put.length → Knows s.mem s.ent s.ix s.dx s.put w k → Knows m' s.ent s.ix s.dx s.put w k := fun w k h h' hk =>
    ⟨hk.nx, by rw [tv k h h']; exact hk.vl, hk.dt⟩
  constructor <;> simp only
  case ht => rw [hm.top_ne h0.symm]; exact a4
  case hm =>
    intro i h
    rw [hm.old _ _ (by omega)]; exact a5 i h
  case xt =>
    intro k h h'
    rw [tn k h (by omega)]; exact a14 k h h'
  case xe => rw [tn _ (by omega) (by omega)]; exact a15
  case x0 =>
    intro k h h'
    rw [hm.old _ _ (by have := a14 k h; grind)]; exact a16 k h h'
  case x1 =>
    intro k h h'
    rw [hm.old _ _ (by have := a14 k h; grind)]; exact a17 k h h'
  case xv =>
    intro k h h'
    rw [hm.old _ _ (by have := a14 k h; grind)]; exact kn _ _ (by omega) (by omega) (a18 k h h')
  case vl =>
    intro k h h'
    rw [hm.last, if_neg (h1 (k + 1) (by omega) (by omega)).2.symm]; exact a19 k h h'
  case pw =>
    intro y hy
    have := a20 y hy
    have := hq y
    rw [hm.top]
    grind
  case ph => exact Nat.le_trans a21 (hq _ h0.symm).1
  case c1 =>
    intro e w h
    obtain ⟨b1, b2, b3⟩ := a27 e w h
    exact ⟨b1, b2, kn _ _ (by omega) (by omega) b3⟩
  case c2 =>
    intro e w v u h
    obtain ⟨b1, b2, b3, b4⟩ := a28 e w v u h
    exact ⟨b1, b2, kn _ _ (by omega) (by omega) b3, b4⟩
  case pt => exact fun h => absurd h ht
  case pe => exact fun x h => absurd h (he x)
  all_goals assumption

omit [DecidableEq V] [DecidableEq N] in
theorem Knows.congr {m m' : Mem (Loc N V) (W N V)} {e e' : Nat → N} {ix ix' dx dx' : Nat → Nat} {u u' : List (Option V)} {w : View (Loc N V)} {k : Nat} (h : Knows m e ix dx u w k)
    (h1 : e' k = e k) (h2 : ix' k = ix k) (h3 : dx' k = dx k) (h4 : u'[k - 1]? = u[k - 1]?) (h5 : m'.top (.val (e k)) = m.top (.val (e k))) :
    Knows m' e' ix' dx' u' w k := by
  obtain ⟨a, b, c⟩ := h
  exact ⟨by rw [h1, h2]; exact a, by rw [h1, h5]; exact b, by rw [h3, h4]; exact c⟩

theorem store_le (q : Th (Loc N V)) (m : Mem (Loc N V) (W N V)) (l : Loc N V) (y : Loc N V) (h : y ≠ l) : q.cur y ≤ (q.store m l).cur y ∧ q.wr y ≤ (q.store m l).wr y := by
  simp only [Th.store, upd_ne _ _ h]; exact ⟨Nat.le_refl _, Nat.le_refl _⟩

/-- A step of the producer that does not store. -/
theorem Inv.go {s : St N V} (hi : Inv s) {q : Th (Loc N V)} {p' : PPC N V} (hc : ∀ y, s.p.cur y ≤ q.cur y) (hw : ∀ y, s.p.wr y ≤ q.wr y) (hx : p'.x = none)
    (ht : p' = .take → s.ng < s.ns) (he : ∀ x, p' = .emp x → ∃ i, s.ns ≤ i ∧ i ≤ s.got.length ∧ x = some (s.ent i)) :
    Inv { s with p := q, ppc := p' } := by
  obtain ⟨a1, a2, a3, a4, a5, a6, a7, a8, a9, a10, a11, a12, a13, a14, a15, a16, a17, a18, a19, a20, a21, a22, a23, a24, a25, a26, a27, a28, a29, a30, a31⟩ := hi
  constructor <;> simp only
  case fx => fin hx
  case px => fin hx
  case pn => fin hx
  case pp => fin hx
  case pw => exact fun l h => ⟨Nat.le_trans (a20 l h).1 (hw l), Nat.le_trans (a20 l h).2 (hc l)⟩
  case ph => exact Nat.le_trans a21 (hc _)
  all_goals assumption

/-- A step of the consumer that does not store. -/
theorem Inv.cgo {s : St N V} (hi : Inv s) {q : Th (Loc N V)} {p' : CPC N V}
    (h1 : ∀ e w, p' = .val e w → s.got.length < s.put.length ∧ e = s.ent (s.got.length + 1) ∧ Knows s.mem s.ent s.ix s.dx s.put w (s.got.length + 1))
    (h2 : ∀ e w v u, p' = .done e w v u → s.got.length < s.put.length ∧ e = s.ent (s.got.length + 1) ∧ Knows s.mem s.ent s.ix s.dx s.put w (s.got.length + 1) ∧
      s.put[s.got.length]? = some v ∧ ∀ o, v = some o → s.dx (s.got.length + 1) ≤ u (.dat o)) :
    Inv { s with c := q, cpc := p' } := by
  obtain ⟨a1, a2, a3, a4, a5, a6, a7, a8, a9, a10, a11, a12, a13, a14, a15, a16, a17, a18, a19, a20, a21, a22, a23, a24, a25, a26, a27, a28, a29, a30, a31⟩ := hi
  constructor <;> simp only <;> assumption

/-- `ck_pr_store_ptr(&fifo->tail->next, entry)`. -/
theorem Inv.pub {s : St N V} (hi : Inv s) {x : N} {v : Option V} (hp : s.ppc = .pub x v) {m' : Mem (Loc N V) (W N V)} {w : View (Loc N V)} {q : Th (Loc N V)}
    (hm : Put s.mem m' (.next s.tail) { p := some x } w) (hw : ∀ y, y ≠ .next s.tail → s.p.wr y ≤ w y)
    (hq : ∀ y, y ≠ .next s.tail → s.p.cur y ≤ q.cur y ∧ s.p.wr y ≤ q.wr y) (hq' : q.cur (.next s.tail) = s.mem.top (.next s.tail) + 1 ∧ q.wr (.next s.tail) = s.mem.top (.next s.tail) + 1) :
    Inv { s with
      mem := m', p := q, ppc := .idle, tail := x
      put := s.put ++ [v], ent := upd s.ent (s.put.length + 1) x, ix := upd s.ix (s.put.length + 1) (s.mem.top (.next x)), ev := upd s.ev (s.put.length + 1) q.cur
      dx := upd s.dx (s.put.length + 1) (dtop s.mem v) } := by
  obtain ⟨a1, a2, a3, a4, a5, a6, a7, a8, a9, a10, a11, a12, a13, a14, a15, a16, a17, a18, a19, a20, a21, a22, a23, a24, a25, a26, a27, a28, a29, a30, a31⟩ := hi
  have hx : x ≠ s.tail := fun e => a13 x s.put.length (by simp [hp]) (by omega) (by omega) (by rw [e, a6])
  have hxf := a12 x (by simp [hp])
  have hxe := fun i => a13 x i (by simp [hp])
  have hv := a23 x v hp
  have tx : m'.top (.next x) = s.mem.top (.next x) := hm.top_ne (by simp [hx])
  have tv : ∀ y, m'.top (.val y) = s.mem.top (.val y) := fun y => hm.top_ne (by simp)
  have lv : ∀ y, m'.last (.val y) = s.mem.last (.val y) := fun y => by rw [hm.last, if_neg (by simp)]
  have en : ∀ k, k ≤ s.put.length → upd s.ent (s.put.length + 1) x k = s.ent k := fun k h => upd_ne _ _ (by omega)
  have xn : ∀ k, k ≤ s.put.length → upd s.ix (s.put.length + 1) (s.mem.top (.next x)) k = s.ix k := fun k h => upd_ne _ _ (by omega)
  have ntl : ∀ k, s.ng ≤ k → k < s.put.length → s.ent k ≠ s.tail := fun k h h' => by rw [a6]; exact a10 k _ h h' (Nat.le_refl _)
  have kn : ∀ u k, 1 ≤ k → k ≤ s.put.length → Knows s.mem s.ent s.ix s.dx s.put u k →
      Knows m' (upd s.ent (s.put.length + 1) x) (upd s.ix (s.put.length + 1) (s.mem.top (.next x)))
        (upd s.dx (s.put.length + 1) (dtop s.mem v)) (s.put ++ [v]) u k :=
    fun u k h h' hk => hk.congr (en k h') (xn k h') (upd_ne _ _ (by omega)) (List.getElem?_append_left (by omega)) (tv _)
  constructor <;> simp only [List.length_append, List.length_singleton, PPC.x, reduceCtorEq, false_implies, implies_true]
  case o1 => exact a1
  case o2 => exact a2
  case o3 => omega
  case ht => rw [hm.top_ne (by simp)]; exact a4
  case hm =>
    intro i h
    rw [hm.old _ _ (by omega), en _ (by omega)]; exact a5 i h
  case tl => rw [upd_same]
  case hh => rw [en _ (by omega)]; exact a7
  case sn => rw [en _ (by omega)]; exact a8
  case ga => rw [en _ (by omega)]; exact a9
  case inj =>
    intro i j h1 h2 h3
    rw [en i (by omega)]
    by_cases e : j = s.put.length + 1
    · rw [e, upd_same]; exact hxe i h1 (by omega)
    · rw [en j (by omega)]; exact a10 i j h1 h2 (by omega)
  case fr =>
    intro i h1 h2
    by_cases e : i = s.put.length + 1
    · rw [e, upd_same]; exact hxf
    · rw [en i (by omega)]; exact a11 i h1 (by omega)
  case xt =>
    intro k h h'
    rw [en k (by omega), xn k (by omega)]
    by_cases e : k = s.put.length
    · rw [e, ← a6, hm.top, if_pos rfl, a6, a15]
    · rw [hm.top_ne (by simpa using ntl k h (by omega))]; exact a14 k h (by omega)
  case xe => rw [upd_same, upd_same]; exact tx
  case x0 =>
    intro k h h'
    by_cases e : k = s.put.length + 1
    · rw [e, upd_same, upd_same, ← tx]
      show (m'.last _).p = _
      rw [hm.last, if_neg (by simp [hx])]; exact hv.2
    · rw [en k (by omega), xn k (by omega), hm.old _ _ (by have := a14 k h; grind)]; exact a16 k h (by omega)
  case x1 =>
    intro k h h'
    rw [en k (by omega), xn k (by omega)]
    by_cases e : k = s.put.length
    · have := hm.new
      rw [e, upd_same, ← a15, ← a6, this]
    · rw [en (k + 1) (by omega), hm.old _ _ (by have := a14 k h; grind)]; exact a17 k h (by omega)
  case xv =>
    intro k h h'
    rw [en k (by omega), xn k (by omega)]
    by_cases e : k = s.put.length
    · have := hm.new
      rw [e, ← a15, ← a6, this]
      refine ⟨?_, ?_, ?_⟩
      · rw [upd_same, upd_same]
        exact Nat.le_trans (a20 _ (by simp)).1 (hw _ (by simp [hx]))
      · rw [upd_same, tv]
        exact Nat.le_trans (a20 _ (by simp)).1 (hw _ (by simp))
      · intro o ho
        rw [upd_same]
        simp at ho
        subst ho
        exact Nat.le_trans (a20 _ (by simp)).1 (hw _ (by simp))
    · rw [hm.old _ _ (by have := a14 k h; grind)]
      exact kn _ _ (by omega) (by omega) (a18 k h (by omega))
  case vl =>
    intro k h h'
    by_cases e : k = s.put.length
    · rw [e, upd_same, lv, hv.1]; simp
    · rw [en (k + 1) (by omega), lv, List.getElem?_append_left (by omega)]; exact a19 k h (by omega)
  case pw =>
    intro l hl
    have := a20 l hl
    have := hq l
    rw [hm.top]
    grind
  case ph => exact Nat.le_trans a21 (hq _ (by simp)).1
  case hv => rw [xn _ (by omega)]; exact a26
  case c1 =>
    intro e u h
    obtain ⟨b1, b2, b3⟩ := a27 e u h
    exact ⟨by omega, by rw [en _ (by omega)]; exact b2, kn _ _ (by omega) (by omega) b3⟩
  case c2 =>
    intro e u v' u' h
    obtain ⟨b1, b2, b3, b4, b5⟩ := a28 e u v' u' h
    refine ⟨by omega, by rw [en _ (by omega)]; exact b2, kn _ _ (by omega) (by omega) b3, by rw [List.getElem?_append_left (by omega)]; exact b4, ?_⟩
    rw [upd_ne _ _ (by omega)]; exact b5
  case gp => rw [List.take_append_of_le_length a3]; exact a29
  case ob => rw [upd_ne _ _ (by omega)]; exact a30
  case ev =>
    intro j k h1 h2 h3
    rw [en j (by omega), xn j (by omega)]
    by_cases e : k = s.put.length + 1
    · rw [e, upd_same]
      by_cases e' : j = s.put.length
      · have := hq'.1
        rw [e', ← a6, this, a6, a15]; exact Nat.le_refl _
      · rw [← a14 j h1 (by omega)]
        exact Nat.le_trans (a20 _ (by simp)).2 (hq _ (by simpa using ntl j h1 (by omega))).1
    · rw [upd_ne _ _ e]; exact a31 j k h1 h2 (by omega)

/-- `ck_pr_store_ptr(&fifo->head, entry)`. -/
theorem Inv.done {s : St N V} (hi : Inv s) {e : N} {w u : View (Loc N V)} {v : Option V} (hp : s.cpc = .done e w v u) {m' : Mem (Loc N V) (W N V)} {w' : View (Loc N V)} {q : Th (Loc N V)}
    (hm : Put s.mem m' .hd { p := some e } w') :
    Inv { s with mem := m', c := q, cpc := .idle, head := e, hv := w, obj := v, ov := u, got := s.got ++ [v] } := by
  obtain ⟨a1, a2, a3, a4, a5, a6, a7, a8, a9, a10, a11, a12, a13, a14, a15, a16, a17, a18, a19, a20, a21, a22, a23, a24, a25, a26, a27, a28, a29, a30, a31⟩ := hi
  obtain ⟨b1, b2, b3, b4, b5⟩ := a28 e w v u hp
  have tp : ∀ y, y ≠ .hd → m'.top y = s.mem.top y := fun y h => hm.top_ne h
  have ls : ∀ y, y ≠ .hd → m'.last y = s.mem.last y := fun y h => by rw [hm.last, if_neg h]
  constructor <;> simp only [List.length_append, List.length_singleton, reduceCtorEq, false_implies, implies_true]
  case o1 => exact a1
  case o2 => omega
  case o3 => omega
  case ht => rw [hm.top, if_pos rfl, a4]
  case hm =>
    intro i h
    by_cases e' : i = s.got.length + 1
    · have := hm.new
      rw [e', ← a4, this, a4, b2]
    · rw [hm.old _ _ (by omega)]; exact a5 i (by omega)
  case tl => exact a6
  case hh => exact b2
  case sn => exact a8
  case ga => exact a9
  case inj => exact a10
  case fr => exact a11
  case fx => exact a12
  case px => exact a13
  case xt => intro k h h'; rw [tp _ (by simp)]; exact a14 k h h'
  case xe => rw [tp _ (by simp)]; exact a15
  case x0 => intro k h h'; rw [hm.old _ _ (by have := a14 k h; grind)]; exact a16 k h h'
  case x1 => intro k h h'; rw [hm.old _ _ (by have := a14 k h; grind)]; exact a17 k h h'
  case xv =>
    intro k h h'
    rw [hm.old _ _ (by have := a14 k h; grind)]
    exact (a18 k h h').congr rfl rfl rfl rfl (tp _ (by simp))
  case vl => intro k h h'; rw [ls _ (by simp)]; exact a19 k h h'
  case pw => intro l hl; rw [tp _ hl]; exact a20 l hl
  case ph => exact a21
  case pn => intro x v h; rw [ls _ (by simp)]; exact a22 x v h
  case pp => intro x v h; rw [ls _ (by simp), ls _ (by simp)]; exact a23 x v h
  case pt => exact a24
  case pe =>
    intro x h
    obtain ⟨i, h1, h2, h3⟩ := a25 x h
    exact ⟨i, h1, by omega, h3⟩
  case hv => rw [b2]; exact b3.nx
  case gp =>
    rw [List.take_add_one, b4, ← a29]; rfl
  case ob => exact b5
  case ev => exact a31

theorem Inv.step {s s' : St N V} {a : Act N V} (hi : Inv s) (h : step true true s a = some s') : Inv s' := by
  have hng : s.ng ≤ s.put.length := Nat.le_trans hi.o1 (Nat.le_trans hi.o2 hi.o3)
  cases a <;> simp only [Spsc.step] at h
  case fill o d =>
    step_split h
    next hc =>
    exact hi.put (Put.store _ _ _ _) (by simp) (by simp) (store_le _ _ _) (by simp [Th.store]) hi.fr hi.fx hi.px hi.pn hi.pp (by simp [hc]) (by simp [hc])
  case enq x v =>
    step_split h
    next hc =>
    have hx : ∀ k, s.ng ≤ k → k ≤ s.put.length → s.ent k ≠ x := fun k h1 h2 e => by
      have := hi.fr k h1 h2
      rw [e, hc.2] at this; cases this
    refine hi.put (Put.store _ _ _ _) (by simp) (fun k h1 h2 => ⟨by simp, by simpa using (hx k h1 h2).symm⟩) (store_le _ _ _) (by simp [Th.store])
      (fun i h1 h2 => by rw [upd_ne _ _ (hx i h1 h2)]; exact hi.fr i h1 h2) (by simp) (fun y i hy h1 h2 => by simp at hy; subst hy; exact hx i h1 h2)
      (fun y v' hy => ?_) (by simp) (by simp) (by simp)
    cases hy
    rw [(Put.store _ _ _ _).last, if_pos rfl]
  case nul =>
    step_split h
    next x v hc =>
    have hx := fun k => hi.px x k (by simp [hc])
    refine hi.put (Put.store _ _ _ _) (by simp) (fun k h1 h2 => ⟨by simpa using (hx k h1 h2).symm, by simp⟩) (store_le _ _ _) (by simp [Th.store])
      hi.fr (fun y hy => hi.fx y (by simpa [hc] using hy)) (fun y i hy h1 h2 => by simp at hy; subst hy; exact hx i h1 h2) (by simp) (fun y v' hy => ?_) (by simp) (by simp)
    cases hy
    rw [(Put.store _ _ _ _).last, (Put.store _ _ _ _).last, if_pos rfl, if_neg (by simp)]
    exact ⟨hi.pn x v hc, rfl⟩
  case pub =>
    split at h <;> simp only [reduceCtorEq, Option.some.injEq] at h
    next x v hc =>
    subst h
    refine hi.pub hc (Put.store _ _ _ _) (fun y hy => ?_) (store_le _ _ _) (by simp [Th.store])
    rw [upd_ne _ _ hy]
    exact le_join_right _ _ _
  case snap i =>
    split at h <;> simp only [reduceCtorEq, Option.some.injEq] at h
    next hc =>
    subst h
    obtain ⟨h1, h2, h3, h4⟩ := hc
    have hn : s.ns ≤ i := Nat.le_trans hi.ph h3
    have hl : i ≤ s.got.length := by rw [← hi.ht]; exact h4
    have hv := hi.hm i hl
    have hne : s.ng < i → (s.mem.msg .hd i).val.p ≠ s.garb := fun h => by
      rw [hv, hi.ga]
      intro e
      exact hi.inj s.ng i (Nat.le_refl _) h (Nat.le_trans hl hi.o3) (by simpa using e.symm)
    have hi' : Inv { s with snap := (s.mem.msg .hd i).val.p, ns := i, p := s.p.load s.mem .hd i } := by
      obtain ⟨a1, a2, a3, a4, a5, a6, a7, a8, a9, a10, a11, a12, a13, a14, a15, a16, a17, a18, a19, a20, a21, a22, a23, a24, a25, a26, a27, a28, a29, a30, a31⟩ := hi
      constructor <;> simp only
      case o1 => omega
      case o2 => exact hl
      case sn => exact hv
      case ph => exact Th.load_at _ _ _ _
      case pw => exact fun l h => ⟨(a20 l h).1, Nat.le_trans (a20 l h).2 (Th.load_cur_le _ _ _ _ _)⟩
      case pt => rw [h1]; simp
      case pe => rw [h1]; simp
      all_goals assumption
    refine hi'.go (fun _ => Nat.le_refl _) (fun _ => Nat.le_refl _) (by split <;> rfl) (fun h => ?_) (fun x h => ?_)
    · split at h
      · cases h
      · next e =>
        show s.ng < i
        refine Nat.lt_of_le_of_ne (Nat.le_trans hi.o1 hn) fun e' => e ?_
        rw [hv, hi.ga, e']
    · split at h <;> cases h
  case skip =>
    step_split h
    next hc =>
    refine hi.go (fun _ => Nat.le_refl _) (fun _ => Nat.le_refl _) rfl (fun _ => ?_) (by simp)
    exact Nat.lt_of_le_of_ne hi.o1 fun e => hc.2 (by rw [hi.sn, hi.ga, e])
  case take i =>
    step_split h
    next hc _ g hg hm =>
    have hlt := hi.pt hc
    obtain ⟨a1, a2, a3, a4, a5, a6, a7, a8, a9, a10, a11, a12, a13, a14, a15, a16, a17, a18, a19, a20, a21, a22, a23, a24, a25, a26, a27, a28, a29, a30, a31⟩ := hi
    obtain rfl : s.ent s.ng = g := by rw [a9] at hg; exact Option.some.inj hg
    have hlt' : s.ng < s.put.length := by omega
    have e : i = s.ix s.ng + 1 := by
      have := a14 s.ng (Nat.le_refl _) hlt'
      have := (a20 (.next (s.ent s.ng)) (by simp)).2
      have := hm.1
      have := hm.2
      omega
    have hpx : PPC.x (.idle : PPC N V) = none := rfl
    constructor <;> simp only [PPC.x, reduceCtorEq, false_implies, implies_true]
    case o1 => exact hlt
    case ga => rw [e]; exact a17 _ (Nat.le_refl _) hlt'
    case inj => exact fun i j h => a10 i j (by omega)
    case fr =>
      intro k h1 h2
      rw [upd_ne _ _ (a10 s.ng k (Nat.le_refl _) (by omega) h2).symm]
      exact a11 k (by omega) h2
    case xt => exact fun k h => a14 k (by omega)
    case x0 => exact fun k h => a16 k (by omega)
    case x1 => exact fun k h => a17 k (by omega)
    case xv => exact fun k h => a18 k (by omega)
    case vl => exact fun k h => a19 k (by omega)
    case pw => exact fun l h => ⟨(a20 l h).1, Nat.le_trans (a20 l h).2 (Th.load_cur_le _ _ _ _ _)⟩
    case ph => exact Nat.le_trans a21 (Th.load_cur_le _ _ _ _ _)
    case ev => exact fun j k h => a31 j k (by omega)
    all_goals assumption
  case emp i =>
    step_split h
    next hc =>
    refine hi.go (fun _ => Th.load_cur_le _ _ _ _ _) (fun _ => Nat.le_refl _) rfl (by simp) (fun x hx => ?_)
    cases hx
    have hl : i ≤ s.got.length := by rw [← hi.ht]; exact hc.2.2
    exact ⟨i, Nat.le_trans hi.ph hc.2.1, hl, hi.hm i hl⟩
  case emp2 i =>
    step_split h
    exact hi.go (fun _ => Th.load_cur_le _ _ _ _ _) (fun _ => Nat.le_refl _) rfl (by simp) (by simp)
  case deq i =>
    split at h <;> try simp only [reduceCtorEq] at h
    next hc =>
    split at h <;> simp only [reduceCtorEq, Option.some.injEq] at h
    next hm =>
    subst h
    have h1 : s.ix s.got.length ≤ i := Nat.le_trans hi.hv (hm.2 rfl)
    have h2 := hm.1.2
    have hg : s.ng ≤ s.got.length := Nat.le_trans hi.o1 hi.o2
    refine hi.cgo (fun e w h => ?_) (fun e w v u h => ?_)
    · split at h
      · next e' he =>
        cases h
        rw [hi.hh] at h2 he ⊢
        have hlt : s.got.length < s.put.length := by
          refine Nat.lt_of_le_of_ne hi.o3 fun e1 => ?_
          have h3 := hi.xe
          rw [← e1] at h3
          obtain rfl : i = s.ix s.got.length := by omega
          rw [hi.x0 _ hg hi.o3] at he; cases he
        have h3 := hi.xt _ hg hlt
        obtain rfl | rfl : i = s.ix s.got.length ∨ i = s.ix s.got.length + 1 := by omega
        · rw [hi.x0 _ hg hi.o3] at he; cases he
        · refine ⟨hlt, ?_, hi.xv _ hg hlt⟩
          rw [hi.x1 _ hg hlt] at he
          exact (Option.some.inj he).symm
      · cases h
    · split at h <;> cases h
  case val i =>
    step_split h
    next e w hc hm =>
    obtain ⟨b1, b2, b3⟩ := hi.c1 e w hc
    refine hi.cgo (by simp) (fun e' w' v u h => ?_)
    cases h
    have hv : s.put[s.got.length]? = some (s.mem.msg (.val e) i).val.o := by
      rw [hi.vl _ (Nat.le_trans hi.o1 hi.o2) b1, ← b2]
      have : i = s.mem.top (.val e) := by
        refine Nat.le_antisymm hm.1.2 (Nat.le_trans ?_ (hm.2 rfl))
        rw [b2]; exact b3.vl
      rw [this]; rfl
    refine ⟨b1, b2, b3, hv, fun o ho => Nat.le_trans (b3.dt o ?_) (le_join_left _ _ _)⟩
    rw [← ho]; exact hv
  case done =>
    step_split h
    next e w v u hc =>
    exact hi.done hc (Put.store _ _ _ _)
  case look i =>
    step_split h
    exact hi.cgo hi.c1 hi.c2
  case learn l i =>
    step_split h
    exact hi.cgo hi.c1 hi.c2

theorem inv_reach {s : St N V} (h : (sys true true stub).Reach s) : Inv s :=
  Sys.Reach.invariant (I := Inv) (fun _ h => h ▸ Inv.init) (fun _ _ _ hi hs => hi.step hs) h

/-! ## Theorems -/

/-- The values come out in the order in which they were put in. -/
theorem fifo {s : St N V} (h : (sys true true stub).Reach s) : s.got <+: s.put := by
  rw [(inv_reach h).gp]
  exact List.take_prefix _ _

/-- A dequeue that fails does not know of an enqueue that was not matched: whoever has learned what the producer knew after the `k`-th enqueue, can dequeue `k` times. -/
theorem empty_seen {s s' : St N V} (h : (sys true true stub).Reach s) {i : Nat} (hs : step true true s (.deq i) = some s') (he : s'.cpc = .idle) {k : Nat} (hk : k ≤ s.put.length)
    (hv : ∀ l, s.ev k l ≤ s.c.cur l) : k ≤ s.got.length := by
  have hi := inv_reach h
  by_contra hlt
  have hg : s.ng ≤ s.got.length := Nat.le_trans hi.o1 hi.o2
  have h1 := hi.ev _ k hg (by omega) hk
  have h2 := hv (.next (s.ent s.got.length))
  simp only [Spsc.step] at hs
  split at hs <;> try simp only [reduceCtorEq] at hs
  split at hs <;> simp only [reduceCtorEq, Option.some.injEq] at hs
  next hm =>
  subst hs
  have h3 := hm.1.1
  have h4 := hm.1.2
  rw [hi.hh] at h3 h4
  have h5 := hi.xt _ hg (by omega)
  obtain rfl : i = s.ix s.got.length + 1 := by omega
  have h6 := hi.x1 _ hg (by omega)
  simp only [hi.hh, h6, reduceCtorEq] at he

/-- If the producer finds the fifo empty, it is. -/
theorem empty_now {s : St N V} (h : (sys true true stub).Reach s) {x : N} (hx : s.ppc = .emp (some x)) {i : Nat} (hm : s.p.may s.mem (.next x) i)
    (he : (s.mem.msg (.next x) i).val.p = none) : s.got.length = s.put.length := by
  have hi := inv_reach h
  obtain ⟨j, h1, h2, h3⟩ := hi.pe _ hx
  cases h3
  have h4 : s.ng ≤ j := Nat.le_trans hi.o1 h1
  by_contra hne
  have hlt : j < s.put.length := by have := hi.o3; omega
  have h5 := hi.xt j h4 hlt
  have h6 := (hi.pw (.next (s.ent j)) (by simp)).2
  obtain rfl : i = s.ix j + 1 := by have := hm.1; have := hm.2; omega
  rw [hi.x1 j h4 hlt] at he; cases he

/-- From `head` on, the entries form a list without duplicates, one more than there are values, and none of them may be used by the client. -/
theorem content {s : St N V} (h : (sys true true stub).Reach s) :
    ∃ l, Seg (fun x => (s.mem.last (.next x)).p) (some s.head) l none ∧ l.length = s.put.length - s.got.length + 1 ∧ l.Nodup ∧ ∀ x ∈ l, s.free x = false := by
  have hi := inv_reach h
  have key : ∀ d k, k + d = s.put.length → s.ng ≤ k → ∃ l, Seg (fun x => (s.mem.last (.next x)).p) (some (s.ent k)) l none ∧ l.length = d + 1 ∧
      l.Nodup ∧ ∀ x ∈ l, ∃ j, k ≤ j ∧ j ≤ s.put.length ∧ x = s.ent j := by
    intro d
    induction d with
    | zero =>
      intro k hk hg
      obtain rfl : k = s.put.length := by omega
      refine ⟨[s.ent s.put.length], ?_, rfl, by simp, fun x hx => ⟨_, Nat.le_refl _, Nat.le_refl _, by simpa using hx⟩⟩
      refine ⟨rfl, ?_⟩
      show (s.mem.msg _ (s.mem.top _)).val.p = none
      rw [hi.xe]; exact hi.x0 _ hg (Nat.le_refl _)
    | succ d ih =>
      intro k hk hg
      obtain ⟨l, h1, h2, h3, h4⟩ := ih (k + 1) (by omega) (by omega)
      refine ⟨s.ent k :: l, ?_, by simp [h2], ?_, ?_⟩
      · have : (s.mem.last (.next (s.ent k))).p = some (s.ent (k + 1)) := by
          show (s.mem.msg _ (s.mem.top _)).val.p = _
          rw [hi.xt k hg (by omega)]; exact hi.x1 k hg (by omega)
        exact ⟨rfl, by beta_reduce; rw [this]; exact h1⟩
      · refine List.nodup_cons.2 ⟨fun hm => ?_, h3⟩
        obtain ⟨j, h5, h6, h7⟩ := h4 _ hm
        exact hi.inj k j hg (by omega) h6 h7
      · intro x hx
        rcases List.mem_cons.1 hx with rfl | hx
        · exact ⟨k, Nat.le_refl _, by omega, rfl⟩
        · obtain ⟨j, h5, h6, h7⟩ := h4 x hx
          exact ⟨j, by omega, h6, h7⟩
  have hg : s.ng ≤ s.got.length := Nat.le_trans hi.o1 hi.o2
  obtain ⟨l, h1, h2, h3, h4⟩ := key (s.put.length - s.got.length) s.got.length (by have := hi.o3; omega) hg
  refine ⟨l, by rw [hi.hh]; exact h1, h2, h3, fun x hx => ?_⟩
  obtain ⟨j, h5, h6, rfl⟩ := h4 x hx
  exact hi.fr j (by omega) h6

/-- What the consumer is using was not returned by `ck_fifo_spsc_recycle`. -/
theorem recycle_safe {s : St N V} (h : (sys true true stub).Reach s) {x : N} (hx : s.free x = true) :
    x ≠ s.head ∧ (∀ e w, s.cpc = .val e w → x ≠ e) ∧ ∀ e w v u, s.cpc = .done e w v u → x ≠ e := by
  have hi := inv_reach h
  have hg : s.ng ≤ s.got.length := Nat.le_trans hi.o1 hi.o2
  refine ⟨fun e => ?_, fun y w hc e => ?_, fun y w v u hc e => ?_⟩
  · rw [e, hi.hh, hi.fr _ hg hi.o3] at hx; cases hx
  · obtain ⟨b1, b2, _⟩ := hi.c1 y w hc
    rw [e, b2, hi.fr _ (by omega) b1] at hx; cases hx
  · obtain ⟨b1, b2, _⟩ := hi.c2 y w v u hc
    rw [e, b2, hi.fr _ (by omega) b1] at hx; cases hx

/-- `head_snapshot` and `garbage` point to entries; the one that `ck_fifo_spsc_recycle` returns was not returned since it was enqueued. -/
theorem recycle_once {s : St N V} (h : (sys true true stub).Reach s) : s.snap ≠ none ∧ ∃ g, s.garb = some g ∧ s.free g = false := by
  have hi := inv_reach h
  exact ⟨by rw [hi.sn]; simp, _, hi.ga, hi.fr _ (Nat.le_refl _) (Nat.le_trans hi.o1 (Nat.le_trans hi.o2 hi.o3))⟩

/-- What the consumer loads from the object it has dequeued is not older than what was stored there when it was enqueued. -/
theorem init_seen {s : St N V} (h : (sys true true stub).Reach s) {o : V} (ho : s.obj = some o) {i : Nat} (hm : s.may true s.ov (.dat o) i) : s.dx s.got.length ≤ i :=
  Nat.le_trans ((inv_reach h).ob o ho) (hm.2 rfl)

/-- If the object was not changed since, it is the newest value. -/
theorem data_exact {s : St N V} (h : (sys true true stub).Reach s) {o : V} (ho : s.obj = some o) {i : Nat} (hm : s.may true s.ov (.dat o) i)
    (hx : s.mem.top (.dat o) = s.dx s.got.length) : (s.mem.msg (.dat o) i).val = s.mem.last (.dat o) := by
  have := init_seen h ho hm
  obtain rfl : i = s.mem.top (.dat o) := Nat.le_antisymm hm.1.2 (hx ▸ this)
  rfl

/-! ## Executions -/

abbrev A := Act Nat Nat

/-- What was enqueued and dequeued, the entry in `head`, whether a dequeue is under way, what `entry->value` may be there, the data that may be loaded from the object dequeued last. -/
structure Out where
  put : List (Option Nat)
  got : List (Option Nat)
  head : Nat
  mid : Option Nat
  vals : List (Option Nat)
  dat : List Nat
deriving DecidableEq

/-- That after the given steps. -/
def seen (fc dep : Bool) (as : List A) : Option Out :=
  ((sys fc dep (0 : Nat)).run (initSt 0) as).map fun s =>
    { put := s.put, got := s.got, head := s.head
      mid := match s.cpc with | .idle => none | .val e _ => some e | .done e _ _ _ => some e
      vals := match s.cpc with
        | .val e w => ((List.range (s.mem.top (.val e) + 1)).filter fun i => s.may dep w (.val e) i).map fun i => (s.mem.msg (.val e) i).val.o
        | _ => []
      dat := match s.obj with
        | some o => ((List.range (s.mem.top (.dat o) + 1)).filter fun i => s.may dep s.ov (.dat o) i).map fun i => (s.mem.msg (.dat o) i).val.d
        | none => [] }

/-- An enqueue of object 7 with data 5 in entry 1. -/
def put1 : List A := [.fill 7 5, .enq 1 (some 7), .nul, .pub]

/-- A dequeue. -/
def get1 : List A := [.deq 1, .val 1, .done]

/-- The dequeue returns 7, and 5 is loaded from it; or it fails as the consumer does not know of the enqueue, but if it has learned of it, it does not. -/
example : seen true true (put1 ++ [.deq 1]) = some { put := [some 7], got := [], head := 0, mid := some 1, vals := [some 7], dat := [] } ∧
    seen true true (put1 ++ get1) = some { put := [some 7], got := [some 7], head := 1, mid := none, vals := [], dat := [5] } ∧
    seen true true (put1 ++ [.deq 0]) = some { put := [some 7], got := [], head := 0, mid := none, vals := [], dat := [] } ∧
    seen true true (put1 ++ [.learn (.next 0) 1, .deq 0]) = none := by decide +kernel

/-- The stub is recycled after the dequeue, not before, and may then be enqueued again. -/
example : (seen true true (put1 ++ [.enq 0 (some 8)])) = none ∧ (seen true true (put1 ++ [.snap 0, .take 1])) = none ∧
    (seen true true (put1 ++ get1 ++ [.snap 1, .take 1, .enq 0 (some 8), .nul, .pub, .deq 2, .val 1, .done])) =
      some { put := [some 7, some 8], got := [some 7, some 8], head := 0, mid := none, vals := [], dat := [0] } := by decide +kernel

/-- The producer finds the fifo empty after the dequeue, if it knows of it. -/
example : (seen true true (put1 ++ get1 ++ [.emp 1, .emp2 1])).isSome = true ∧ (seen true true (put1 ++ get1 ++ [.emp 0, .emp2 1])).isSome = true ∧
    (seen true true (put1 ++ get1 ++ [.emp 0, .emp2 0])) = none := by decide +kernel

/-- Without the fence, or on a machine that does not order loads through a pointer, the consumer loads what was in the entry and in the object before. -/
theorem no_fence : seen false true (put1 ++ [.deq 1]) = some { put := [some 7], got := [], head := 0, mid := some 1, vals := [none, some 7], dat := [] } ∧
    seen false true (put1 ++ [.deq 1, .val 0, .done]) = some { put := [some 7], got := [none], head := 1, mid := none, vals := [], dat := [] } ∧
    seen false true (put1 ++ get1) = some { put := [some 7], got := [some 7], head := 1, mid := none, vals := [], dat := [0, 5] } := by decide +kernel
theorem no_dep : seen true false (put1 ++ [.deq 1, .val 0, .done]) = some { put := [some 7], got := [none], head := 1, mid := none, vals := [], dat := [] } ∧
    seen true false (put1 ++ get1) = some { put := [some 7], got := [some 7], head := 1, mid := none, vals := [], dat := [0, 5] } := by decide +kernel

end Verif.Weak.Spsc
