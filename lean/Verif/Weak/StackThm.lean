import Verif.Weak.Stack
import Verif.Core.Seg
import Verif.Core.Tactic

/-!
# `ck_stack` on relaxed memory: LIFO order, what is visible in popped entries (C85)
-/

namespace Verif.Weak.Stack

open Verif
open Fas (opt)

variable {N : Type} [DecidableEq N] {n : Nat} {m : Mode} {fc : Fences}

/-- The entry the thread is pushing. -/
@[simp, grind] def PC.px : PC N → Option N
  | .psh _ x => some x
  | .pshW _ x _ => some x
  | .pshC _ x _ => some x
  | _ => none

abbrev nx (m : Mem (Loc N) (Option N × Nat)) (x : N) : Option N := (m.last (.nxt x)).1

structure Core (s : St N n) : Prop where
  ch : Seg (nx s.mem) (s.mem.last .head).1 s.stk none
  nd : s.stk.Nodup
  st : ∀ x ∈ s.stk, s.live x = true ∧ s.own x = none
  pt : ∀ x, s.live x = true → s.pi x ≤ s.mem.top .head
  kn : ∀ x j, s.live x = true → s.pi x ≤ j → j ≤ s.mem.top .head → s.mem.top (.nxt x) ≤ (s.mem.msg .head j).view (.nxt x)
  kd : ∀ x j, s.live x = true → s.pi x ≤ j → j ≤ s.mem.top .head → s.mem.top (.dat x) ≤ (s.mem.msg .head j).view (.dat x)
  mm : ∀ j e, j ≤ s.mem.top .head → s.gc j = s.mem.top .gen → (s.mem.msg .head j).val.1 = some e → s.live e = true ∧ s.pi e ≤ j
  gl : ∀ j, j ≤ s.mem.top .head → s.gc j ≤ s.mem.top .gen
  gt : s.gc (s.mem.top .head) = s.mem.top .gen
  gv : ∀ g j, g ≤ s.mem.top .gen → (s.mem.msg .gen g).view .head ≤ j → j ≤ s.mem.top .head → g ≤ s.gc j
  gi : ∀ g, g ≤ s.mem.top .gen → (s.mem.msg .gen g).val.2 = g
  oc : ∀ x t, s.own x = some t → s.mem.top (.dat x) ≤ (s.th t).cur (.dat x)
  ow : ∀ x t, s.own x = some t → s.live x = false →
    s.mem.top (.dat x) ≤ (s.th t).wr (.dat x) ∨ s.mem.top (.dat x) ≤ (s.mem.msg .head (s.mem.top .head)).view (.dat x)
  pu : ∀ t x, (s.pc t).px = some x → s.own x = some t ∧ s.live x = false
  pw : ∀ t tr x e, s.pc t = .pshC tr x e → nx s.mem x = e ∧ s.mem.top (.nxt x) ≤ (s.th t).wr (.nxt x)
  ph : ∀ t tr g, s.pc t = .popH tr g → g ≤ s.mem.top .gen ∧ ∀ j, (s.th t).cur .head ≤ j → j ≤ s.mem.top .head → g ≤ s.gc j
  pn : ∀ t tr g e, s.pc t = .popN tr g e → g ≤ s.mem.top .gen ∧
    (s.mem.top .gen = g → s.live e = true ∧ s.mem.top (.nxt e) ≤ (s.th t).cur (.nxt e) ∧ s.mem.top (.dat e) ≤ (s.th t).cur (.dat e))
  pq : ∀ t tr g e v, s.pc t = .popC tr g e v → g ≤ s.mem.top .gen ∧
    (s.mem.top .gen = g → s.live e = true ∧ v = nx s.mem e ∧ s.mem.top (.dat e) ≤ (s.th t).cur (.dat e))
  wk : ∀ t full acc c, s.pc t = .walk full acc c → ∃ rest, full = acc.reverse ++ rest ∧ Seg (nx s.mem) c rest none ∧
    ∀ x ∈ rest, s.live x = true ∧ s.mem.top (.nxt x) ≤ (s.th t).cur (.nxt x) ∧ x ∉ s.stk

/-- A step of `t` that does not store. -/
theorem Core.go {s : St N n} (hi : Core s) {t : Fin n} {q : Th (Loc N)} {p : PC N} (hc : ∀ y, (s.th t).cur y ≤ q.cur y) (hw : ∀ y, (s.th t).wr y ≤ q.wr y)
    (h1 : ∀ x, p.px = some x → s.own x = some t ∧ s.live x = false)
    (h2 : ∀ tr x e, p = .pshC tr x e → s.pc t = p)
    (h3 : ∀ tr g, p = .popH tr g → s.pc t = p ∨ g ≤ s.mem.top .gen ∧ ∀ j, q.cur .head ≤ j → j ≤ s.mem.top .head → g ≤ s.gc j)
    (h4 : ∀ tr g e, p = .popN tr g e → s.pc t = p ∨ g ≤ s.mem.top .gen ∧
      (s.mem.top .gen = g → s.live e = true ∧ s.mem.top (.nxt e) ≤ q.cur (.nxt e) ∧ s.mem.top (.dat e) ≤ q.cur (.dat e)))
    (h5 : ∀ tr g e v, p = .popC tr g e v → s.pc t = p ∨ g ≤ s.mem.top .gen ∧
      (s.mem.top .gen = g → s.live e = true ∧ v = nx s.mem e ∧ s.mem.top (.dat e) ≤ q.cur (.dat e)))
    (h6 : ∀ full acc c, p = .walk full acc c → s.pc t = p ∨ ∃ rest, full = acc.reverse ++ rest ∧ Seg (nx s.mem) c rest none ∧
      ∀ x ∈ rest, s.live x = true ∧ s.mem.top (.nxt x) ≤ q.cur (.nxt x) ∧ x ∉ s.stk) :
    Core { s with th := upd s.th t q, pc := upd s.pc t p } := by
  obtain ⟨a1, a2, a3, a4, a5, a6, a7, a8, a9, a10, a11, a12, a13, a14, a15, a16, a17, a18, a19⟩ := hi
  constructor <;> simp only
  case ch => exact a1
  case nd => exact a2
  case st => exact a3
  case pt => exact a4
  case kn => exact a5
  case kd => exact a6
  case mm => exact a7
  case gl => exact a8
  case gt => exact a9
  case gv => exact a10
  case gi => exact a11
  case oc =>
    intro x u hu
    have := a12 x u hu
    have := hc (.dat x)
    grind
  case ow =>
    intro x u hu hl
    have := a13 x u hu hl
    have := hw (.dat x)
    grind
  case pu => fin a14 h1
  case pw =>
    intro u tr x e hu
    have := a15 u tr x e
    have := hw (.nxt x)
    grind
  case ph =>
    intro u tr g hu
    have := a16 u tr g
    have := h3 tr g
    have := hc .head
    grind
  case pn =>
    intro u tr g e hu
    have := a17 u tr g e
    have := h4 tr g e
    have := hc (.nxt e)
    have := hc (.dat e)
    grind
  case pq =>
    intro u tr g e v hu
    have := a18 u tr g e v
    have := h5 tr g e v
    have := hc (.dat e)
    grind
  case wk =>
    intro u full acc c hu
    by_cases e : u = t
    · subst e
      rw [upd_same] at hu ⊢
      rcases h6 full acc c hu with h | h
      · obtain ⟨r, r1, r2, r3⟩ := a19 u full acc c (h.trans hu)
        exact ⟨r, r1, r2, fun x hx => ⟨(r3 x hx).1, Nat.le_trans (r3 x hx).2.1 (hc _), (r3 x hx).2.2⟩⟩
      · exact h
    · rw [upd_ne _ _ e] at hu ⊢
      exact a19 u full acc c hu

/-- The owner stores to an entry that is not in the stack. -/
theorem Core.put {s : St N n} (hi : Core s) {t : Fin n} {m' : Mem (Loc N) (Option N × Nat)} {l : Loc N} {x : N} {v : Option N × Nat} {w : View (Loc N)} {q : Th (Loc N)} {p : PC N}
    (hm : Put s.mem m' l v w) (ho : s.own x = some t) (hl : s.live x = false)
    (hc : ∀ y, y ≠ l → (s.th t).cur y ≤ q.cur y) (hw : ∀ y, y ≠ l → (s.th t).wr y ≤ q.wr y)
    (hc' : q.cur l = s.mem.top l + 1) (hw' : q.wr l = s.mem.top l + 1)
    (hp : l = .dat x ∧ s.pc t = .idle ∧ p = .idle ∨ l = .nxt x ∧ (s.pc t).px = some x ∧ ∃ tr, p = .pshC tr x v.1) :
    Core { s with mem := m', th := upd s.th t q, pc := upd s.pc t p } := by
  obtain ⟨a1, a2, a3, a4, a5, a6, a7, a8, a9, a10, a11, a12, a13, a14, a15, a16, a17, a18, a19⟩ := hi
  have hh : (.head : Loc N) ≠ l := by rcases hp with ⟨h, _⟩ | ⟨h, _⟩ <;> rw [h] <;> simp
  have hg : (.gen : Loc N) ≠ l := by rcases hp with ⟨h, _⟩ | ⟨h, _⟩ <;> rw [h] <;> simp
  have hn : ∀ y, y ≠ x → (.nxt y : Loc N) ≠ l := fun y hy => by rcases hp with ⟨h, _⟩ | ⟨h, _⟩ <;> rw [h] <;> simp [hy]
  have hd : ∀ y, y ≠ x → (.dat y : Loc N) ≠ l := fun y hy => by rcases hp with ⟨h, _⟩ | ⟨h, _⟩ <;> rw [h] <;> simp [hy]
  have th := hm.top_ne hh
  have tg := hm.top_ne hg
  have tn := fun y (h : y ≠ x) => hm.top_ne (hn y h)
  have td := fun y (h : y ≠ x) => hm.top_ne (hd y h)
  have ln : ∀ y, y ≠ x → nx m' y = nx s.mem y := fun y h => by simp only [nx]; rw [hm.last, if_neg (hn y h)]
  have lh : m'.last .head = s.mem.last .head := by rw [hm.last, if_neg hh]
  have mh : ∀ j, j ≤ s.mem.top .head → m'.msg .head j = s.mem.msg .head j := fun j => hm.old _ j
  have mg : ∀ j, j ≤ s.mem.top .gen → m'.msg .gen j = s.mem.msg .gen j := fun j => hm.old _ j
  have ne : ∀ y, s.live y = true → y ≠ x := fun y hy e => by rw [e, hl] at hy; cases hy
  have cg := hc .head hh
  constructor <;> simp only [th, tg, lh]
  case ch => exact (seg_congr fun y hy => ln y (ne y (a3 y hy).1)).2 a1
  case nd => exact a2
  case st => exact a3
  case pt => exact a4
  case kn => fin a5 mh tn ne
  case kd => fin a6 mh td ne
  case mm => fin a7 mh
  case gl => exact a8
  case gt => exact a9
  case gv => fin a10 mg
  case gi => fin a11 mg
  case oc =>
    intro y u hu
    have h1 := a12 y u hu
    by_cases e : y = x
    · subst e
      obtain rfl : u = t := by rw [ho] at hu; exact (Option.some.inj hu).symm
      rw [upd_same]
      rcases hp with ⟨h, _⟩ | ⟨h, _⟩
      · subst h; rw [hc', hm.top, if_pos rfl]; exact Nat.le_refl _
      · rw [hm.top_ne (by rw [h]; simp)]
        exact Nat.le_trans h1 (hc _ (by rw [h]; simp))
    · rw [td y e]
      have := hc (.dat y) (hd y e)
      grind
  case ow =>
    intro y u hu hly
    have h1 := a13 y u hu hly
    rw [mh _ (Nat.le_refl _)]
    by_cases e : y = x
    · subst e
      obtain rfl : u = t := by rw [ho] at hu; exact (Option.some.inj hu).symm
      rw [upd_same]
      rcases hp with ⟨h, _⟩ | ⟨h, _⟩
      · left; subst h; rw [hw', hm.top, if_pos rfl]; exact Nat.le_refl _
      · rw [hm.top_ne (by rw [h]; simp)]
        have := hw (.dat y) (by rw [h]; simp)
        omega
    · rw [td y e]
      have := hw (.dat y) (hd y e)
      grind
  case pu => fin a14 hp ho hl
  case pw =>
    intro u tr y e hu
    by_cases eu : u = t
    · subst eu
      rw [upd_same] at hu ⊢
      rcases hp with ⟨_, _, h⟩ | ⟨h, _, tr', h'⟩
      · rw [h] at hu; cases hu
      · rw [h'] at hu
        obtain ⟨rfl, rfl, rfl⟩ := PC.pshC.inj hu
        subst h
        refine ⟨?_, ?_⟩
        · simp only [nx]; rw [hm.last, if_pos rfl]
        · rw [hw', hm.top, if_pos rfl]; exact Nat.le_refl _
    · rw [upd_ne _ _ eu] at hu ⊢
      have h1 := (a14 u y (by rw [hu]; rfl)).1
      have : y ≠ x := fun h => by rw [h, ho] at h1; exact eu (Option.some.inj h1).symm
      rw [ln y this, tn y this]
      exact a15 u tr y e hu
  case ph =>
    intro u tr g hu
    have := a16 u tr g
    fin this hu hp
  case pn =>
    intro u tr g e hu
    have := a17 u tr g e
    fin this hu hp ne tn td
  case pq =>
    intro u tr g e c hu
    have := a18 u tr g e c
    fin this hu hp ne ln td
  case wk =>
    intro u full acc c hu
    by_cases e : u = t
    · subst e
      rw [upd_same] at hu
      rcases hp with ⟨_, _, h⟩ | ⟨_, _, _, h⟩ <;> rw [h] at hu <;> cases hu
    · rw [upd_ne _ _ e] at hu ⊢
      obtain ⟨r, r1, r2, r3⟩ := a19 u full acc c hu
      exact ⟨r, r1, (seg_congr fun y hy => ln y (ne y (r3 y hy).1)).2 r2, fun y hy => ⟨(r3 y hy).1, by rw [tn y (ne y (r3 y hy).1)]; exact (r3 y hy).2⟩⟩

/-- `m'` is `m` after an operation on `head` that stores `v` with view `w`, and counts a pop if `b`. -/
structure Hd (m m' : Mem (Loc N) (Option N × Nat)) (v : Option N) (w : View (Loc N)) (b : Bool) : Prop where
  th : m'.top .head = m.top .head + 1
  oh : ∀ j, j ≤ m.top .head → m'.msg .head j = m.msg .head j
  nh : m'.msg .head (m.top .head + 1) = { val := (v, 0), view := w }
  tn : ∀ x, m'.top (.nxt x) = m.top (.nxt x)
  td : ∀ x, m'.top (.dat x) = m.top (.dat x)
  ln : ∀ x, nx m' x = nx m x
  og : ∀ j, j ≤ m.top .gen → m'.msg .gen j = m.msg .gen j
  tg : m'.top .gen = m.top .gen + b.toNat
  ng : b = true → (m'.msg .gen (m.top .gen + 1)).val.2 = m.top .gen + 1 ∧ m.top .head + 1 ≤ (m'.msg .gen (m.top .gen + 1)).view .head
  vn : ∀ x, (m.msg .head (m.top .head)).view (.nxt x) ≤ w (.nxt x)
  vd : ∀ x, (m.msg .head (m.top .head)).view (.dat x) ≤ w (.dat x)

theorem Hd.rmw (m : Mem (Loc N) (Option N × Nat)) (q : Th (Loc N)) (v : Option N) :
    Hd m (m.rmw q .head (v, 0)) v (upd (join q.rel (m.msg .head (m.top .head)).view) .head (m.top .head + 1)) false := by
  have hm := Put.rmw m q .head (v, 0)
  refine ⟨by rw [hm.top, if_pos rfl], fun j => hm.old _ j, hm.new, fun x => hm.top_ne (by simp), fun x => hm.top_ne (by simp), fun x => ?_, fun j => hm.old _ j,
    hm.top_ne (by simp), nofun, fun x => ?_, fun x => ?_⟩
  · simp only [nx]; rw [hm.last, if_neg (by simp)]
  · rw [upd_ne _ _ (by simp)]; exact le_join_right _ _ _
  · rw [upd_ne _ _ (by simp)]; exact le_join_right _ _ _

theorem Hd.rmw2 (m : Mem (Loc N) (Option N × Nat)) (q : Th (Loc N)) (v : Option N) : Hd m (rmw2 m q v (m.top .gen + 1)) v (view2 m q) true := by
  have h1 : (Loc.head : Loc N) ≠ .gen := by simp
  refine ⟨?_, fun j hj => ?_, ?_, fun x => ?_, fun x => ?_, fun x => ?_, fun j hj => ?_, ?_, fun _ => ⟨?_, ?_⟩, fun x => ?_, fun x => ?_⟩
  · simp [Stack.rmw2, upd_apply]
  · have : j ≠ m.top .head + 1 := by omega
    simp [Stack.rmw2, upd_apply, this]
  · simp [Stack.rmw2, upd_apply]
  · simp [Stack.rmw2, upd_apply]
  · simp [Stack.rmw2, upd_apply]
  · simp [nx, Mem.last, Stack.rmw2, upd_apply]
  · have : j ≠ m.top .gen + 1 := by omega
    simp [Stack.rmw2, upd_apply, this]
  · simp [Stack.rmw2]
  · simp [Stack.rmw2]
  · simp [Stack.rmw2, view2, upd_apply]
  · simp only [view2]
    rw [upd_ne _ _ (by simp), upd_ne _ _ (by simp)]
    exact Nat.le_trans (le_join_left _ _ _) (le_join_right _ _ _)
  · simp only [view2]
    rw [upd_ne _ _ (by simp), upd_ne _ _ (by simp)]
    exact Nat.le_trans (le_join_left _ _ _) (le_join_right _ _ _)

/-- An operation on `head` succeeds. -/
theorem Core.head {s : St N n} (hi : Core s) {t : Fin n} {m' : Mem (Loc N) (Option N × Nat)} {v : Option N} {w : View (Loc N)} {b : Bool} {q : Th (Loc N)} {p : PC N}
    {own : N → Option (Fin n)} {live : N → Bool} {pi : N → Nat} {stk : List N} {log : List (Op N n)} (hm : Hd s.mem m' v w b)
    (hc : ∀ y, y ≠ .head → y ≠ .gen → (s.th t).cur y ≤ q.cur y) (hw : ∀ y, y ≠ .head → y ≠ .gen → (s.th t).wr y ≤ q.wr y)
    (ch : Seg (nx s.mem) v stk none) (nd : stk.Nodup) (st : ∀ x ∈ stk, live x = true ∧ own x = none)
    (lv : ∀ x, live x = true → s.live x = true ∧ pi x = s.pi x ∨
      pi x = s.mem.top .head + 1 ∧ s.mem.top (.nxt x) ≤ w (.nxt x) ∧ s.mem.top (.dat x) ≤ w (.dat x))
    (lb : b = false → ∀ x, s.live x = true → live x = true ∧ pi x = s.pi x)
    (lw : ∀ x, s.live x = true → x ∉ s.stk → live x = true ∧ x ∉ stk)
    (oc : ∀ x u, own x = some u → s.own x = some u ∨ u = t ∧ s.mem.top (.dat x) ≤ q.cur (.dat x))
    (ow : ∀ x u, own x = some u → live x = false → s.own x = some u ∧ s.live x = false ∨ s.mem.top (.dat x) ≤ w (.dat x))
    (pu : ∀ x u, u ≠ t → s.own x = some u → s.live x = false → own x = some u ∧ live x = false)
    (hp : p = .idle ∨ ∃ full acc c, p = .walk full acc c ∧ ∃ rest, full = acc.reverse ++ rest ∧ Seg (nx s.mem) c rest none ∧
      ∀ x ∈ rest, live x = true ∧ s.mem.top (.nxt x) ≤ q.cur (.nxt x) ∧ x ∉ stk) :
    Core { mem := m', th := upd s.th t q, pc := upd s.pc t p, own := own, live := live, pi := pi, gc := upd s.gc (s.mem.top .head + 1) (m'.top .gen)
           stk := stk, log := log } := by
  obtain ⟨a1, a2, a3, a4, a5, a6, a7, a8, a9, a10, a11, a12, a13, a14, a15, a16, a17, a18, a19⟩ := hi
  obtain ⟨b1, b2, b3, b4, b5, b6, b7, b8, b9, b10, b11⟩ := hm
  have b6' : nx m' = nx s.mem := funext b6
  have nl : (m'.last .head).1 = v := by simp only [Mem.last]; rw [b1, b3]
  have tl : s.mem.top .gen ≤ m'.top .gen := by omega
  have hv : ∀ e, v = some e → live e = true ∧ pi e ≤ s.mem.top .head + 1 := fun e he => by
    cases stk with
    | nil => rw [seg_nil.1 ch] at he; cases he
    | cons y r =>
      obtain ⟨h1, _⟩ := seg_cons.1 ch
      rw [he] at h1
      obtain rfl := Option.some.inj h1
      have h2 := (st e (by simp)).1
      refine ⟨h2, ?_⟩
      have := a4 e
      have := lv e h2
      grind
  have hq : p.px = none ∧ (∀ tr x e, p ≠ .pshC tr x e) ∧ (∀ tr g, p ≠ .popH tr g) ∧ (∀ tr g e, p ≠ .popN tr g e) ∧ ∀ tr g e v, p ≠ .popC tr g e v := by
    rcases hp with h | ⟨_, _, _, h, _⟩ <;> subst h <;> simp
  constructor <;> simp only [b1, nl, b6']
  case ch => exact ch
  case nd => exact nd
  case st => exact st
  case pt =>
    intro x hx
    have := a4 x
    have := lv x hx
    grind
  case kn =>
    intro x j hx hj hj'
    rw [b4]
    have h1 := a5 x
    have h2 := a4 x
    have h3 := b10 x
    have h4 := lv x hx
    by_cases e : j ≤ s.mem.top .head
    · rw [b2 _ e]; fin h1 h4 hj e
    · obtain rfl : j = s.mem.top .head + 1 := by omega
      rw [b3]
      rcases h4 with h4 | h4
      · exact Nat.le_trans (h1 _ h4.1 (h2 h4.1) (Nat.le_refl _)) h3
      · exact h4.2.1
  case kd =>
    intro x j hx hj hj'
    rw [b5]
    have h1 := a6 x
    have h2 := a4 x
    have h3 := b11 x
    have h4 := lv x hx
    by_cases e : j ≤ s.mem.top .head
    · rw [b2 _ e]; fin h1 h4 hj e
    · obtain rfl : j = s.mem.top .head + 1 := by omega
      rw [b3]
      rcases h4 with h4 | h4
      · exact Nat.le_trans (h1 _ h4.1 (h2 h4.1) (Nat.le_refl _)) h3
      · exact h4.2.2
  case mm =>
    intro j e hj hg he
    by_cases ej : j = s.mem.top .head + 1
    · subst ej; rw [b3] at he; exact hv e he
    · rw [upd_ne _ _ ej] at hg
      rw [b2 _ (by omega)] at he
      have h1 := a8 j (by omega)
      have hb : b = false := by cases b <;> simp at b8 ⊢; omega
      have h2 := a7 j e (by omega) (by omega) he
      have h3 := lb hb e h2.1
      exact ⟨h3.1, by omega⟩
  case gl =>
    intro j hj
    have := a8 j
    grind
  case gt => simp
  case gv =>
    intro g j hg hv hj
    by_cases ej : j = s.mem.top .head + 1
    · subst ej; rw [upd_same]; exact hg
    · rw [upd_ne _ _ ej]
      by_cases eg : g ≤ s.mem.top .gen
      · rw [b7 _ eg] at hv
        exact a10 g j eg hv (by omega)
      · have hb : b = true := by cases b <;> simp at b8 ⊢; omega
        subst hb
        simp at b8
        obtain rfl : g = s.mem.top .gen + 1 := by omega
        have := (b9 rfl).2
        omega
  case gi =>
    intro g hg
    by_cases eg : g ≤ s.mem.top .gen
    · rw [b7 _ eg]; exact a11 g eg
    · have hb : b = true := by cases b <;> simp at b8 ⊢; omega
      subst hb
      simp at b8
      obtain rfl : g = s.mem.top .gen + 1 := by omega
      exact (b9 rfl).1
  case oc =>
    intro x u hu
    rw [b5]
    have h1 := a12 x u
    have h2 := hc (.dat x) (by simp) (by simp)
    have h3 := oc x u hu
    fin h1 h2 h3
  case ow =>
    intro x u hu hl
    rw [b5, b3]
    have h1 := a13 x u
    have h2 := hw (.dat x) (by simp) (by simp)
    have h3 := ow x u hu hl
    have h4 := b11 x
    fin h1 h2 h3 h4
  case pu =>
    intro u x hu
    by_cases e : u = t
    · subst e; rw [upd_same, hq.1] at hu; cases hu
    · rw [upd_ne _ _ e] at hu
      exact pu x u e (a14 u x hu).1 (a14 u x hu).2
  case pw =>
    intro u tr x e hu
    rw [b4]
    have h1 := a15 u tr x e
    have h2 := b6 x
    fin h1 h2 hu hq
  case ph =>
    intro u tr g hu
    have h1 := a16 u tr g
    fin h1 hu hq tl
  case pn =>
    intro u tr g e hu
    by_cases eu : u = t
    · subst eu; rw [upd_same] at hu; exact absurd hu (hq.2.2.2.1 tr g e)
    · rw [upd_ne _ _ eu] at hu ⊢
      have h1 := a17 u tr g e hu
      refine ⟨by omega, fun h => ?_⟩
      have hb : b = false := by cases b <;> simp at b8 ⊢; omega
      rw [b4, b5]
      have h2 := h1.2 (by omega)
      exact ⟨(lb hb e h2.1).1, h2.2⟩
  case pq =>
    intro u tr g e c hu
    by_cases eu : u = t
    · subst eu; rw [upd_same] at hu; exact absurd hu (hq.2.2.2.2 tr g e c)
    · rw [upd_ne _ _ eu] at hu ⊢
      have h1 := a18 u tr g e c hu
      refine ⟨by omega, fun h => ?_⟩
      have hb : b = false := by cases b <;> simp at b8 ⊢; omega
      rw [b5]
      have h2 := h1.2 (by omega)
      exact ⟨(lb hb e h2.1).1, h2.2.1.trans (b6 e).symm, h2.2.2⟩
  case wk =>
    intro u full acc c hu
    simp only [b4]
    by_cases e : u = t
    · subst e
      rw [upd_same] at hu ⊢
      rcases hp with h | ⟨f, a, d, h, hr⟩
      · rw [h] at hu; cases hu
      · rw [h] at hu
        obtain ⟨rfl, rfl, rfl⟩ := PC.walk.inj hu
        exact hr
    · rw [upd_ne _ _ e] at hu ⊢
      obtain ⟨r, r1, r2, r3⟩ := a19 u full acc c hu
      exact ⟨r, r1, r2, fun x hx => ⟨(lw x (r3 x hx).1 (r3 x hx).2.2).1, (r3 x hx).2.1, (lw x (r3 x hx).1 (r3 x hx).2.2).2⟩⟩

/-! ## The operations in their order -/

structure Lg (s : St N n) : Prop where
  lr : replay s.log = some s.stk
  ll : s.log.length = s.mem.top .head
  lh : ∀ j, j ≤ s.mem.top .head → ∃ l, replay (s.log.take j) = some l ∧ l.head? = (s.mem.msg .head j).val.1
  lb : ∀ (k : Nat) (o : Op N n), s.log[k]? = some o → k + 1 ≤ (s.th o.by).cur .head

theorem replay_snoc (log : List (Op N n)) (o : Op N n) {l : List N} (h : replay log = some l) : replay (log ++ [o]) = Op.apply l o := by
  simp only [replay] at h ⊢
  rw [List.foldlM_append, h]
  simp

theorem Lg.go {s s' : St N n} (hi : Lg s) (h1 : s'.log = s.log) (h2 : s'.stk = s.stk) (h3 : s'.mem.top .head = s.mem.top .head)
    (h4 : ∀ j, j ≤ s.mem.top .head → s'.mem.msg .head j = s.mem.msg .head j) (h5 : ∀ u, (s.th u).cur .head ≤ (s'.th u).cur .head) : Lg s' := by
  obtain ⟨a1, a2, a3, a4⟩ := hi
  constructor
  · rw [h1, h2]; exact a1
  · rw [h1, h3]; exact a2
  · intro j hj
    rw [h3] at hj
    rw [h1, h4 j hj]; exact a3 j hj
  · intro k o ho
    rw [h1] at ho
    exact Nat.le_trans (a4 k o ho) (h5 _)

theorem Lg.head {s s' : St N n} (hi : Lg s) {v : Option N} {w : View (Loc N)} {b : Bool} (hm : Hd s.mem s'.mem v w b) {o : Op N n} (h1 : s'.log = s.log ++ [o])
    (h2 : Op.apply s.stk o = some s'.stk) (h3 : s'.stk.head? = v) (h4 : ∀ u, u ≠ o.by → s'.th u = s.th u)
    (h5 : s.mem.top .head + 1 ≤ (s'.th o.by).cur .head) : Lg s' := by
  obtain ⟨a1, a2, a3, a4⟩ := hi
  have hr : replay s'.log = some s'.stk := by rw [h1, replay_snoc _ _ a1, h2]
  have hl : s'.log.length = s'.mem.top .head := by rw [h1, hm.th]; simp [a2]
  constructor
  · exact hr
  · exact hl
  · intro j hj
    by_cases e : j = s.mem.top .head + 1
    · subst e
      refine ⟨s'.stk, ?_, ?_⟩
      · rw [List.take_of_length_le (by rw [hl, hm.th]; exact Nat.le_refl _)]; exact hr
      · rw [hm.nh]; exact h3
    · have hj' : j ≤ s.mem.top .head := by have := hm.th; omega
      rw [h1, List.take_append_of_le_length (by omega), hm.oh j hj']
      exact a3 j hj'
  · intro k o' ho
    rw [h1] at ho
    by_cases e : k < s.log.length
    · rw [List.getElem?_append_left e] at ho
      by_cases eu : o'.by = o.by
      · rw [eu]
        omega
      · rw [h4 _ eu]; exact a4 k o' ho
    · rw [List.getElem?_append_right (by omega)] at ho
      have : k = s.log.length := by
        rcases Nat.lt_or_ge 0 (k - s.log.length) with h | h
        · rw [List.getElem?_eq_none (by simp; omega)] at ho; cases ho
        · omega
      subst this
      simp at ho
      subst ho
      omega

/-! ## Each step -/

structure Inv (m : Mode) (s : St N n) : Prop where
  c : Core s
  l : Lg s
  ou : m = .upmc → s.mem.top .gen = 0

theorem rmw_at (q : Th (Loc N)) (m : Mem (Loc N) (Option N × Nat)) (l : Loc N) : (q.rmw m l).cur l = m.top l + 1 := by
  simp [Th.rmw, Th.store]

theorem opt_cur (b : Bool) (q : Th (Loc N)) (y : Loc N) : q.cur y ≤ (opt b Th.fenceLoad q).cur y := by
  unfold opt; split
  · exact le_join_left _ _ _
  · exact Nat.le_refl _

theorem opt_wr (b : Bool) (q : Th (Loc N)) (y : Loc N) : (opt b Th.fenceLoad q).wr y = q.wr y := by
  unfold opt; split <;> rfl

/-- After a load of `head` and the fence the thread knows all that came with the value. -/
theorem load_view (q : Th (Loc N)) (m : Mem (Loc N) (Option N × Nat)) (l : Loc N) (i : Nat) (y : Loc N) : (m.msg l i).view y ≤ ((q.load m l i).fenceLoad).cur y :=
  Nat.le_trans (Th.load_view_le q m l i y) (le_join_right _ _ _)

theorem Inv.go {s : St N n} (hi : Inv m s) {t : Fin n} {q : Th (Loc N)} {p : PC N} (hc : ∀ y, (s.th t).cur y ≤ q.cur y)
    (h : Core { s with th := upd s.th t q, pc := upd s.pc t p }) : Inv m { s with th := upd s.th t q, pc := upd s.pc t p } := by
  refine ⟨h, hi.l.go rfl rfl rfl (fun _ _ => rfl) fun u => ?_, hi.ou⟩
  show _ ≤ (upd s.th t q u).cur _
  by_cases e : u = t
  · subst e; rw [upd_same]; exact hc _
  · rw [upd_ne _ _ e]; exact Nat.le_refl _

theorem Inv.push {s s' : St N n} (hi : Inv m s) {t : Fin n} {tr : Bool} {x : N} (hs : step m fc s (.push t tr x) = some s') : Inv m s' := by
  simp only [step] at hs
  step_split hs
  next hp h =>
  have := hi.go (t := t) (q := s.th t) (p := .psh tr x) (fun _ => Nat.le_refl _) (hi.c.go (fun _ => Nat.le_refl _) (fun _ => Nat.le_refl _) (fun y hy => ?_)
    nofun nofun nofun nofun nofun)
  · rw [upd_eq_self] at this; exact this
  · simp at hy; subst hy; exact h

theorem Inv.pop {s s' : St N n} (hi : Inv m s) {t : Fin n} {tr : Bool} (hs : step m fc s (.pop t tr) = some s') : Inv m s' := by
  simp only [step] at hs
  split at hs
  · next hp =>
    simp only [Option.some.injEq] at hs
    subst hs
    have := hi.go (t := t) (q := s.th t) (p := if m = .mpmc then .popG tr else .popH tr 0) (fun _ => Nat.le_refl _) (hi.c.go (fun _ => Nat.le_refl _)
      (fun _ => Nat.le_refl _) (by split <;> simp) (by split <;> simp) (fun tr' g h => .inr ?_) (by split <;> simp) (by split <;> simp) (by split <;> simp))
    · rw [upd_eq_self] at this; exact this
    · split at h
      · cases h
      · obtain ⟨_, rfl⟩ := PC.popH.inj h
        exact ⟨Nat.zero_le _, fun _ _ _ => Nat.zero_le _⟩
  · cases hs

theorem Inv.batch {s s' : St N n} (hi : Inv m s) {t : Fin n} (hs : step m fc s (.batch t) = some s') : Inv m s' := by
  simp only [step] at hs
  split at hs
  · next hp =>
    simp only [Option.some.injEq] at hs
    subst hs
    have := hi.go (t := t) (q := s.th t) (p := .bat) (fun _ => Nat.le_refl _) (hi.c.go (fun _ => Nat.le_refl _)
      (fun _ => Nat.le_refl _) nofun nofun nofun nofun nofun nofun)
    rw [upd_eq_self] at this; exact this
  · cases hs

theorem Inv.look {s s' : St N n} (hi : Inv m s) {t : Fin n} {x : N} {i : Nat} (hs : step m fc s (.look t x i) = some s') : Inv m s' := by
  simp only [step] at hs
  step_split hs
  next h =>
  have := hi.go (t := t) (q := (s.th t).load s.mem (.dat x) i) (p := s.pc t) (Th.load_cur_le _ _ _ _) (hi.c.go (Th.load_cur_le _ _ _ _)
    (fun _ => Nat.le_refl _) (hi.c.pu t) (fun _ _ _ _ => rfl) (fun _ _ _ => .inl rfl) (fun _ _ _ _ => .inl rfl) (fun _ _ _ _ _ => .inl rfl) (fun _ _ _ _ => .inl rfl))
  rw [upd_eq_self] at this; exact this

theorem Inv.put {s : St N n} (hi : Inv m s) {t : Fin n} {l : Loc N} {v : Option N × Nat} {p : PC N} (hl : l ≠ .head ∧ l ≠ .gen)
    (h : Core { s with mem := s.mem.store (s.th t) l v, th := upd s.th t ((s.th t).store s.mem l), pc := upd s.pc t p }) :
    Inv m { s with mem := s.mem.store (s.th t) l v, th := upd s.th t ((s.th t).store s.mem l), pc := upd s.pc t p } := by
  have hm := Put.store s.mem (s.th t) l v
  refine ⟨h, hi.l.go rfl rfl (hm.top_ne hl.1.symm) (fun j hj => hm.old _ j hj) fun u => ?_, fun h => (hm.top_ne hl.2.symm).trans (hi.ou h)⟩
  show _ ≤ (upd s.th t _ u).cur _
  by_cases e : u = t
  · subst e; rw [upd_same]; exact Th.store_cur_le _ _ _ hl.1.symm
  · rw [upd_ne _ _ e]; exact Nat.le_refl _

theorem store_facts (q : Th (Loc N)) (m : Mem (Loc N) (Option N × Nat)) (l : Loc N) : (q.store m l).cur l = m.top l + 1 ∧ (q.store m l).wr l = m.top l + 1 ∧
    (∀ y, y ≠ l → q.wr y ≤ (q.store m l).wr y) := by
  refine ⟨by simp [Th.store], by simp [Th.store], fun y hy => ?_⟩
  simp only [Th.store, upd_ne _ _ hy]
  exact Nat.le_refl _

theorem Inv.fill {s s' : St N n} (hi : Inv m s) {t : Fin n} {x : N} {v : Nat} (hs : step m fc s (.fill t x v) = some s') : Inv m s' := by
  simp only [step] at hs
  step_split hs
  next hp h =>
  have f := store_facts (s.th t) s.mem (.dat x)
  have := hi.put (t := t) (l := .dat x) (v := (none, v)) (p := .idle) (by simp) (hi.c.put (Put.store _ _ _ _) h.1 h.2 (fun y h => Th.store_cur_le _ _ _ h) f.2.2 f.1 f.2.1
    (.inl ⟨rfl, hp, rfl⟩))
  rw [← hp, upd_eq_self] at this; exact this

theorem Inv.psh {s s' : St N n} (hi : Inv m s) {t : Fin n} {tr : Bool} {x : N} {i : Nat} (hp : s.pc t = .psh tr x) (hs : run m fc s t i = some s') : Inv m s' := by
  simp only [run, hp] at hs
  step_split hs
  exact hi.go (Th.load_cur_le _ _ _ _) (hi.c.go (Th.load_cur_le _ _ _ _) (fun _ => Nat.le_refl _) (fun y hy => hi.c.pu t y (by rw [hp]; exact hy)) nofun nofun nofun nofun nofun)

theorem Inv.pshW {s s' : St N n} (hi : Inv m s) {t : Fin n} {tr : Bool} {x : N} {e : Option N} {i : Nat} (hp : s.pc t = .pshW tr x e)
    (hs : run m fc s t i = some s') : Inv m s' := by
  simp only [run, hp, Option.some.injEq] at hs
  subst hs
  have h := hi.c.pu t x (by rw [hp]; rfl)
  have f := store_facts (s.th t) s.mem (.nxt x)
  exact hi.put (by simp) (hi.c.put (Put.store _ _ _ _) h.1 h.2 (fun y h => Th.store_cur_le _ _ _ h) f.2.2 f.1 f.2.1 (.inr ⟨rfl, by rw [hp]; rfl, tr, rfl⟩))

theorem Inv.pshC {s s' : St N n} (hi : Inv m s) (hf : fc.push = true) {t : Fin n} {tr : Bool} {x : N} {e : Option N} {i : Nat} (hp : s.pc t = .pshC tr x e)
    (hs : run m fc s t i = some s') : Inv m s' := by
  simp only [run, hp, hf, opt, if_true] at hs
  have h := hi.c.pu t x (by rw [hp]; rfl)
  have hw := hi.c.pw t tr x e hp
  have hx : x ∉ s.stk := fun hx => by have := (hi.c.st x hx).2; rw [h.1] at this; cases this
  split at hs <;> simp only [Option.some.injEq] at hs <;> subst hs
  · next he =>
    have hd := Hd.rmw s.mem (s.th t).fenceStore (some x)
    have hn : s.mem.top (.nxt x) ≤ upd (join (s.th t).fenceStore.rel (s.mem.msg .head (s.mem.top .head)).view) .head (s.mem.top .head + 1) (.nxt x) := by
      rw [upd_ne _ _ (by simp)]
      exact Nat.le_trans hw.2 (Nat.le_trans (le_join_right _ _ _) (le_join_left _ _ _))
    have hdt : s.mem.top (.dat x) ≤ upd (join (s.th t).fenceStore.rel (s.mem.msg .head (s.mem.top .head)).view) .head (s.mem.top .head + 1) (.dat x) := by
      rw [upd_ne _ _ (by simp)]
      rcases hi.c.ow x t h.1 h.2 with h | h
      · exact Nat.le_trans h (Nat.le_trans (le_join_right _ _ _) (le_join_left _ _ _))
      · exact Nat.le_trans h (le_join_right _ _ _)
    have hcore := hi.c.head (t := t) (q := (s.th t).fenceStore.rmw s.mem .head) (p := .idle) (own := upd s.own x none) (live := upd s.live x true)
      (pi := upd s.pi x (s.mem.top .head + 1)) (stk := x :: s.stk) (log := s.log ++ [.push t x]) hd (fun y h1 _ => Th.rmw_cur_le _ _ _ h1)
      (fun y h1 _ => by show _ ≤ upd _ _ _ _; rw [upd_ne _ _ h1]; exact Nat.le_refl _)
      ⟨rfl, by rw [hw.1, ← he]; exact hi.c.ch⟩ (List.nodup_cons.2 ⟨hx, hi.c.nd⟩) ?_ ?_ ?_ ?_ ?_ ?_ ?_ (.inl rfl)
    · rw [hd.tg] at hcore
      exact ⟨hcore, hi.l.head hd rfl rfl rfl (fun u hu => upd_ne _ _ hu) (by show _ ≤ (upd s.th t _ t).cur _; rw [upd_same, rmw_at]; exact Nat.le_refl _),
        fun h => hd.tg.trans (hi.ou h)⟩
    · have := hi.c.st
      grind
    · have h1 := hn
      have h2 := hdt
      grind
    · have := h.2
      grind
    · have := h.2
      grind
    · grind
    · grind
    · have := h.1
      grind
  · next he =>
    refine hi.go (Th.load_cur_le _ s.mem _ _) (hi.c.go (Th.load_cur_le _ s.mem _ _) (fun _ => Nat.le_refl _) ?_ (by split <;> simp) (by split <;> simp) (by split <;> simp)
      (by split <;> simp) (by split <;> simp))
    split
    · simp
    · intro y hy
      simp at hy
      subst hy
      exact h

theorem Inv.popG {s s' : St N n} (hi : Inv m s) (hf : fc.gen = true) {t : Fin n} {tr : Bool} {i : Nat} (hp : s.pc t = .popG tr)
    (hs : run m fc s t i = some s') : Inv m s' := by
  simp only [run, hp, hf, opt, if_true] at hs
  step_split hs
  next h =>
  have hc : ∀ y, (s.th t).cur y ≤ ((s.th t).load s.mem .gen i).fenceLoad.cur y := fun y => Nat.le_trans (Th.load_cur_le _ s.mem .gen i y) (le_join_left _ _ _)
  refine hi.go hc (hi.c.go hc (fun _ => Nat.le_refl _) nofun nofun (fun tr' g e => .inr ?_) nofun nofun nofun)
  obtain ⟨_, rfl⟩ := PC.popH.inj e
  rw [hi.c.gi i h.2]
  exact ⟨h.2, fun j hj hj' => hi.c.gv i j h.2 (Nat.le_trans (load_view _ _ _ _ _) hj) hj'⟩

/-- What is known after a load of `head` that gave `e`. -/
theorem Core.got {s : St N n} (hi : Core s) {i g : Nat} {e : N} {q : Th (Loc N)} (hi' : i ≤ s.mem.top .head) (hg : g ≤ s.gc i) (he : (s.mem.msg .head i).val.1 = some e)
    (hv : ∀ y, (s.mem.msg .head i).view y ≤ q.cur y) : g ≤ s.mem.top .gen ∧
      (s.mem.top .gen = g → s.live e = true ∧ s.mem.top (.nxt e) ≤ q.cur (.nxt e) ∧ s.mem.top (.dat e) ≤ q.cur (.dat e)) := by
  have h1 := hi.gl i hi'
  refine ⟨by omega, fun h => ?_⟩
  have h2 := hi.mm i e hi' (by omega) he
  exact ⟨h2.1, Nat.le_trans (hi.kn e i h2.1 h2.2 hi') (hv _), Nat.le_trans (hi.kd e i h2.1 h2.2 hi') (hv _)⟩

theorem Inv.popH {s s' : St N n} (hi : Inv m s) (hf : fc.pop = true) {t : Fin n} {tr : Bool} {g i : Nat} (hp : s.pc t = .popH tr g)
    (hs : run m fc s t i = some s') : Inv m s' := by
  simp only [run, hp, hf, opt, if_true] at hs
  have h0 := hi.c.ph t tr g hp
  split at hs
  · next h =>
    split at hs <;> simp only [Option.some.injEq] at hs <;> subst hs
    · have hc := Th.load_cur_le (s.th t) s.mem .head i
      exact hi.go hc (hi.c.go hc (fun _ => Nat.le_refl _) nofun nofun nofun nofun nofun nofun)
    · next e he =>
      have hc : ∀ y, (s.th t).cur y ≤ ((s.th t).load s.mem .head i).fenceLoad.cur y := fun y => Nat.le_trans (Th.load_cur_le _ s.mem .head i y) (le_join_left _ _ _)
      refine hi.go hc (hi.c.go hc (fun _ => Nat.le_refl _) nofun nofun nofun (fun tr' g' e' h' => .inr ?_) nofun nofun)
      obtain ⟨_, rfl, rfl⟩ := PC.popN.inj h'
      exact hi.c.got h.2 (h0.2 i h.1 h.2) he (load_view _ _ _ _)
  · cases hs

theorem Inv.popN {s s' : St N n} (hi : Inv m s) {t : Fin n} {tr : Bool} {g i : Nat} {e : N} (hp : s.pc t = .popN tr g e)
    (hs : run m fc s t i = some s') : Inv m s' := by
  simp only [run, hp] at hs
  have h0 := hi.c.pn t tr g e hp
  step_split hs
  next h =>
  have hc := Th.load_cur_le (s.th t) s.mem (.nxt e) i
  refine hi.go hc (hi.c.go hc (fun _ => Nat.le_refl _) nofun nofun nofun nofun (fun tr' g' e' v h' => .inr ⟨?_, fun hg => ?_⟩) nofun)
  · obtain ⟨_, rfl, rfl, _⟩ := PC.popC.inj h'
    exact h0.1
  · obtain ⟨_, rfl, rfl, rfl⟩ := PC.popC.inj h'
    obtain ⟨h1, h2, h3⟩ := h0.2 hg
    obtain rfl : i = s.mem.top (.nxt e) := Nat.le_antisymm h.2 (Nat.le_trans h2 h.1)
    exact ⟨h1, rfl, Nat.le_trans h3 (hc _)⟩

/-- After a failed compare and swap. -/
theorem Inv.retry {s : St N n} (hi : Inv m s) {t : Fin n} {q : Th (Loc N)} {g : Nat} {p : PC N} (hg : g ≤ s.mem.top .gen) (hc : ∀ y, (s.th t).cur y ≤ q.cur y)
    (hw : ∀ y, (s.th t).wr y ≤ q.wr y)
    (hv : (∃ e, (s.mem.last .head).1 = some e ∧ p = .popN false g e ∧ ∀ y, (s.mem.msg .head (s.mem.top .head)).view y ≤ q.cur y) ∨ p = .idle) :
    Inv m { s with th := upd s.th t q, pc := upd s.pc t p } := by
  rcases hv with ⟨e, h1, rfl, h2⟩ | rfl
  · refine hi.go hc (hi.c.go hc hw nofun nofun nofun (fun tr' g' e' h' => .inr ?_) nofun nofun)
    obtain ⟨_, rfl, rfl⟩ := PC.popN.inj h'
    exact hi.c.got (Nat.le_refl _) (by rw [hi.c.gt]; exact hg) h1 h2
  · exact hi.go hc (hi.c.go hc hw nofun nofun nofun nofun nofun nofun)

/-- The first entry is `e`. -/
theorem Core.top {s : St N n} (hi : Core s) {e : N} (h : (s.mem.last .head).1 = some e) : ∃ r, s.stk = e :: r ∧ Seg (nx s.mem) (nx s.mem e) r none := by
  have h1 := hi.ch
  cases hs : s.stk with
  | nil => rw [hs] at h1; rw [seg_nil.1 h1] at h; cases h
  | cons y r =>
    rw [hs] at h1
    obtain ⟨h2, h3⟩ := seg_cons.1 h1
    rw [h] at h2
    obtain rfl := Option.some.inj h2
    exact ⟨r, rfl, h3⟩

theorem Inv.popU {s s' : St N n} (hi : Inv .upmc s) (hf : fc.pop = true) {t : Fin n} {tr : Bool} {g i : Nat} {e : N} {v : Option N} (hp : s.pc t = .popC tr g e v)
    (hs : run .upmc fc s t i = some s') : Inv .upmc s' := by
  simp only [run, hp, hf, opt, if_true] at hs
  have h0 := hi.c.pq t tr g e v hp
  have hu := hi.ou rfl
  split at hs
  · next he =>
    simp only [Option.some.injEq] at hs
    subst hs
    obtain ⟨r, hr, hr'⟩ := hi.c.top he
    obtain ⟨h1, h2, h3⟩ := h0.2 (by omega)
    have hnd := hi.c.nd
    rw [hr, List.nodup_cons] at hnd
    have hst := hi.c.st
    rw [hr] at hst
    have hd := Hd.rmw s.mem (s.th t) v
    have hcore := hi.c.head (t := t) (q := (s.th t).rmw s.mem .head) (p := .idle) (own := upd s.own e (some t)) (live := s.live)
      (pi := s.pi) (stk := r) (log := s.log ++ [.pop t e]) hd (fun y h1 _ => Th.rmw_cur_le _ _ _ h1)
      (fun y h1 _ => by show _ ≤ upd _ _ _ _; rw [upd_ne _ _ h1]; exact Nat.le_refl _)
      (by rw [h2]; exact hr') hnd.2 ?_ (fun x hx => .inl ⟨hx, rfl⟩) (fun _ x hx => ⟨hx, rfl⟩) ?_ ?_ ?_ ?_ (.inl rfl)
    · rw [hd.tg] at hcore
      rw [hr]
      refine ⟨hcore, hi.l.head hd rfl (by rw [hr]; simp [Op.apply]) ?_ (fun u hu => upd_ne _ _ hu) (by show _ ≤ (upd s.th t _ t).cur _; rw [upd_same, rmw_at]; exact Nat.le_refl _),
        fun h => hd.tg.trans (hi.ou h)⟩
      rw [h2]
      show r.head? = _
      cases r with
      | nil => exact (seg_nil.1 hr').symm
      | cons y r => exact (seg_cons.1 hr').1.symm
    · intro x hx
      have : x ≠ e := fun h => hnd.1 (h ▸ hx)
      rw [upd_ne _ _ this]
      exact hst x (List.mem_cons_of_mem _ hx)
    · intro x hx hn
      rw [hr] at hn
      exact ⟨hx, fun h => hn (List.mem_cons_of_mem _ h)⟩
    · intro x u hu
      by_cases ex : x = e
      · subst ex
        rw [upd_same] at hu
        exact .inr ⟨(Option.some.inj hu).symm, Nat.le_trans h3 (Th.rmw_cur_le _ _ _ (by simp))⟩
      · rw [upd_ne _ _ ex] at hu
        exact .inl hu
    · intro x u hu hl
      by_cases ex : x = e
      · subst ex
        rw [h1] at hl; cases hl
      · rw [upd_ne _ _ ex] at hu
        exact .inl ⟨hu, hl⟩
    · intro x u _ hu hl
      have : x ≠ e := fun h => by rw [h, h1] at hl; cases hl
      rw [upd_ne _ _ this]
      exact ⟨hu, hl⟩
  · split at hs <;> simp only [Option.some.injEq] at hs <;> subst hs
    · next e' hh =>
      exact hi.retry (Nat.zero_le _) (fun y => Nat.le_trans (Th.load_cur_le _ s.mem .head _ y) (le_join_left _ _ _)) (fun _ => Nat.le_refl _)
        (.inl ⟨e', hh, rfl, load_view _ _ _ _⟩)
    · exact hi.retry (Nat.zero_le _) (Th.load_cur_le _ s.mem .head _) (fun _ => Nat.le_refl _) (.inr rfl)

theorem Inv.popM {s s' : St N n} (hi : Inv .mpmc s) (hf : fc.pop = true) {t : Fin n} {tr : Bool} {g i : Nat} {e : N} {v : Option N} (hp : s.pc t = .popC tr g e v)
    (hs : run .mpmc fc s t i = some s') : Inv .mpmc s' := by
  simp only [run, hp, hf, opt, if_true] at hs
  have h0 := hi.c.pq t tr g e v hp
  have hgi := hi.c.gi _ (Nat.le_refl _)
  have hlg : (s.mem.last .gen).2 = s.mem.top .gen := hgi
  have h2c : ∀ y, y ≠ .head → y ≠ .gen → (s.th t).cur y ≤ (((s.th t).rmw s.mem .head).rmw s.mem .gen).cur y := fun y h1 h2 =>
    Nat.le_trans (Th.rmw_cur_le _ s.mem _ h1) (Th.rmw_cur_le _ s.mem _ h2)
  split at hs
  · next he =>
    obtain ⟨he, hg⟩ := he
    simp only [Option.some.injEq] at hs
    subst hs
    obtain ⟨r, hr, hr'⟩ := hi.c.top he
    obtain rfl : s.mem.top .gen = g := hlg.symm.trans hg
    obtain ⟨h1, h2, h3⟩ := h0.2 rfl
    have hnd := hi.c.nd
    rw [hr, List.nodup_cons] at hnd
    have hst := hi.c.st
    rw [hr] at hst
    have hd := Hd.rmw2 s.mem (s.th t) v
    have hkd := Nat.le_trans (hi.c.kd e _ h1 (hi.c.pt e h1) (Nat.le_refl _)) (hd.vd e)
    have hcore := hi.c.head (t := t) (q := ((s.th t).rmw s.mem .head).rmw s.mem .gen) (p := .idle) (own := upd s.own e (some t)) (live := upd s.live e false)
      (pi := s.pi) (stk := r) (log := s.log ++ [.pop t e]) hd h2c
      (fun y h1 h2 => by show _ ≤ upd (upd _ _ _) _ _ _; rw [upd_ne _ _ h2, upd_ne _ _ h1]; exact Nat.le_refl _)
      (by rw [h2]; exact hr') hnd.2 ?_ ?_ nofun ?_ ?_ ?_ ?_ (.inl rfl)
    · rw [hd.tg] at hcore
      rw [hr]
      refine ⟨hcore, hi.l.head hd rfl (by rw [hr]; simp [Op.apply]) ?_ (fun u hu => upd_ne _ _ hu) ?_, nofun⟩
      · rw [h2]
        show r.head? = _
        cases r with
        | nil => exact (seg_nil.1 hr').symm
        | cons y r => exact (seg_cons.1 hr').1.symm
      · show _ ≤ (upd s.th t _ t).cur _
        rw [upd_same]
        exact Nat.le_trans (Nat.le_of_eq (rmw_at (s.th t) s.mem .head).symm) (Th.rmw_cur_le _ s.mem .gen (by simp))
    · intro x hx
      have : x ≠ e := fun h => hnd.1 (h ▸ hx)
      rw [upd_ne _ _ this, upd_ne _ _ this]
      exact hst x (List.mem_cons_of_mem _ hx)
    · intro x hx
      by_cases ex : x = e
      · subst ex; rw [upd_same] at hx; cases hx
      · rw [upd_ne _ _ ex] at hx; exact .inl ⟨hx, rfl⟩
    · intro x hx hn
      rw [hr] at hn
      have : x ≠ e := fun h => hn (by simp [h])
      rw [upd_ne _ _ this]
      exact ⟨hx, fun h => hn (List.mem_cons_of_mem _ h)⟩
    · intro x u hu
      by_cases ex : x = e
      · subst ex
        rw [upd_same] at hu
        exact .inr ⟨(Option.some.inj hu).symm, Nat.le_trans h3 (h2c _ (by simp) (by simp))⟩
      · rw [upd_ne _ _ ex] at hu
        exact .inl hu
    · intro x u hu hl
      by_cases ex : x = e
      · subst ex
        exact .inr hkd
      · rw [upd_ne _ _ ex] at hu hl
        exact .inl ⟨hu, hl⟩
    · intro x u _ hu hl
      have : x ≠ e := fun h => by rw [h, h1] at hl; cases hl
      rw [upd_ne _ _ this, upd_ne _ _ this]
      exact ⟨hu, hl⟩
  · have h3c : ∀ y, (s.th t).cur y ≤ (((s.th t).load s.mem .head (s.mem.top .head)).load s.mem .gen (s.mem.top .gen)).cur y := fun y =>
      Nat.le_trans (Th.load_cur_le _ s.mem .head _ y) (Th.load_cur_le _ s.mem .gen _ y)
    split at hs <;> simp only [Option.some.injEq] at hs <;> subst hs
    · next e' hh =>
      refine hi.retry (by omega) (fun y => Nat.le_trans (h3c y) (le_join_left _ _ _)) (fun _ => Nat.le_refl _) (.inl ⟨e', hh, rfl, fun y => ?_⟩)
      exact Nat.le_trans (Th.load_view_le (s.th t) s.mem .head _ y) (Nat.le_trans (Th.load_acq_le _ s.mem .gen _ y) (le_join_right _ _ _))
    · exact hi.retry (Nat.zero_le _) h3c (fun _ => Nat.le_refl _) (.inr rfl)

theorem Inv.bat {s s' : St N n} (hi : Inv m s) (hf : fc.batch = true) {t : Fin n} {i : Nat} (hp : s.pc t = .bat) (hs : run m fc s t i = some s') : Inv m s' := by
  simp only [run, hp, hf, opt, if_true, Option.some.injEq] at hs
  subst hs
  have hd := Hd.rmw s.mem (s.th t) none
  have hst := hi.c.st
  have hv : ∀ y, (s.mem.msg .head (s.mem.top .head)).view y ≤ ((s.th t).rmw s.mem .head).fenceLoad.cur y := fun y =>
    Nat.le_trans (Th.load_view_le (s.th t) s.mem .head _ y) (le_join_right _ _ _)
  have hcore := hi.c.head (t := t) (q := ((s.th t).rmw s.mem .head).fenceLoad) (p := .walk s.stk [] (s.mem.last .head).1)
    (own := fun x => if x ∈ s.stk then some t else s.own x) (live := s.live)
    (pi := s.pi) (stk := []) (log := s.log ++ [.batch t s.stk]) hd (fun y h1 _ => Nat.le_trans (Th.rmw_cur_le _ s.mem _ h1) (le_join_left _ _ _))
    (fun y h1 _ => by show _ ≤ upd _ _ _ _; rw [upd_ne _ _ h1]; exact Nat.le_refl _)
    rfl List.nodup_nil nofun (fun x hx => .inl ⟨hx, rfl⟩) (fun _ x hx => ⟨hx, rfl⟩) (fun x hx _ => ⟨hx, nofun⟩) ?_ ?_ ?_
    (.inr ⟨_, _, _, rfl, s.stk, rfl, hi.c.ch, fun x hx => ⟨(hst x hx).1, ?_, nofun⟩⟩)
  · rw [hd.tg] at hcore
    refine ⟨hcore, hi.l.head hd rfl (by simp [Op.apply]) rfl (fun u hu => upd_ne _ _ hu) ?_, fun h => hd.tg.trans (hi.ou h)⟩
    show _ ≤ (upd s.th t _ t).cur _
    rw [upd_same]
    exact Nat.le_trans (Nat.le_of_eq (rmw_at (s.th t) s.mem .head).symm) (le_join_left _ _ _)
  · intro x u hu
    split at hu
    · next hx =>
      have h1 := (hst x hx).1
      exact .inr ⟨(Option.some.inj hu).symm, Nat.le_trans (hi.c.kd x _ h1 (hi.c.pt x h1) (Nat.le_refl _)) (hv _)⟩
    · exact .inl hu
  · intro x u hu hl
    split at hu
    · next hx => rw [(hst x hx).1] at hl; cases hl
    · exact .inl ⟨hu, hl⟩
  · intro x u _ hu hl
    refine ⟨?_, hl⟩
    split
    · next hx => rw [(hst x hx).1] at hl; cases hl
    · exact hu
  · have h1 := (hst x hx).1
    exact Nat.le_trans (hi.c.kn x _ h1 (hi.c.pt x h1) (Nat.le_refl _)) (hv _)

theorem Inv.walk {s s' : St N n} (hi : Inv m s) {t : Fin n} {full acc : List N} {c : Option N} {i : Nat} (hp : s.pc t = .walk full acc c)
    (hs : run m fc s t i = some s') : Inv m s' := by
  simp only [run, hp] at hs
  obtain ⟨r, h1, h2, h3⟩ := hi.c.wk t full acc c hp
  cases c with
  | none =>
    simp only [Option.some.injEq] at hs
    subst hs
    have := hi.go (t := t) (q := s.th t) (p := .idle) (fun _ => Nat.le_refl _) (hi.c.go (fun _ => Nat.le_refl _)
      (fun _ => Nat.le_refl _) nofun nofun nofun nofun nofun nofun)
    rw [upd_eq_self] at this; exact this
  | some e =>
    simp only at hs
    step_split hs
    next h =>
    have hc := Th.load_cur_le (s.th t) s.mem (.nxt e) i
    refine hi.go hc (hi.c.go hc (fun _ => Nat.le_refl _) nofun nofun nofun nofun nofun fun f a c' h' => .inr ?_)
    obtain ⟨rfl, rfl, rfl⟩ := PC.walk.inj h'
    cases r with
    | nil => cases seg_nil.1 h2
    | cons y r =>
      obtain ⟨h4, h5⟩ := seg_cons.1 h2
      obtain rfl := Option.some.inj h4
      have h6 := h3 e (by simp)
      obtain rfl : i = s.mem.top (.nxt e) := Nat.le_antisymm h.2 (Nat.le_trans h6.2.1 h.1)
      refine ⟨r, by simp [h1], h5, fun x hx => ?_⟩
      have h7 := h3 x (List.mem_cons_of_mem _ hx)
      exact ⟨h7.1, Nat.le_trans h7.2.1 (hc _), h7.2.2⟩

theorem inv_init (o : N → Option (Fin n)) : Inv m (initSt o) := by
  refine ⟨?_, ?_, fun _ => rfl⟩
  · constructor <;> simp [initSt, Mem.init, Th.init, Mem.last, nx]
  · constructor <;> simp [initSt, Mem.init, Th.init, replay]

theorem inv_step {s s' : St N n} {a : Act N n} (hi : Inv m s) (hs : step m real s a = some s') : Inv m s' := by
  cases a with
  | push t tr x => exact hi.push hs
  | pop t tr => exact hi.pop hs
  | batch t => exact hi.batch hs
  | fill t x v => exact hi.fill hs
  | look t x i => exact hi.look hs
  | run t i =>
    simp only [step] at hs
    cases hp : s.pc t with
    | idle => simp [run, hp] at hs
    | psh tr x => exact hi.psh hp hs
    | pshW tr x e => exact hi.pshW hp hs
    | pshC tr x e => exact hi.pshC rfl hp hs
    | popG tr => exact hi.popG rfl hp hs
    | popH tr g => exact hi.popH rfl hp hs
    | popN tr g e => exact hi.popN hp hs
    | popC tr g e v => cases m with
      | upmc => exact hi.popU rfl hp hs
      | mpmc => exact hi.popM rfl hp hs
    | bat => exact hi.bat rfl hp hs
    | walk full acc c => exact hi.walk hp hs

theorem inv_reach {s : St N n} (h : (sys m real N n).Reach s) : Inv m s :=
  h.invariant (I := Inv m) (fun s h => by obtain ⟨o, rfl⟩ := h; exact inv_init o) fun _ _ _ hi hs => inv_step hi hs

/-- What a thread traverses is what it popped. -/
theorem walk_log {s : St N n} (h : (sys m fc N n).Reach s) : ∀ t full acc c, s.pc t = .walk full acc c → .batch t full ∈ s.log := by
  refine h.invariant (I := fun s => ∀ t full acc c, s.pc t = .walk full acc c → .batch t full ∈ s.log) (fun s h => ?_) fun s a s' hi hs => ?_
  · obtain ⟨o, rfl⟩ := h
    exact fun t full acc c h => by simp [initSt] at h
  · have go : ∀ (t : Fin n) (p : PC N), (∀ full acc c, p = .walk full acc c → .batch t full ∈ s.log ∨ False) → ∀ u full acc c, upd s.pc t p u = .walk full acc c →
        .batch u full ∈ s.log := fun t p h u full acc c hu => by
      by_cases e : u = t
      · subst e; rw [upd_same] at hu; exact (h _ _ _ hu).resolve_right id
      · rw [upd_ne _ _ e] at hu; exact hi u full acc c hu
    have go' : ∀ (t : Fin n) (o : Op N n) u full acc c, upd s.pc t .idle u = .walk full acc c → .batch u full ∈ s.log ++ [o] := fun t o u full acc c hu =>
      List.mem_append_left _ (go t .idle nofun u full acc c hu)
    cases a with
    | run t i =>
      simp only [sys, step, run] at hs
      cases hp : s.pc t with
      | idle => simp [hp] at hs
      | psh tr x => simp only [hp] at hs; step_split hs; exact go _ _ nofun
      | pshW tr x e => simp only [hp, Option.some.injEq] at hs; subst hs; exact go _ _ nofun
      | pshC tr x e =>
        simp only [hp] at hs
        split at hs <;> simp only [Option.some.injEq] at hs <;> subst hs
        · exact go' _ _
        · exact go _ _ (by split <;> nofun)
      | popG tr => simp only [hp] at hs; step_split hs; exact go _ _ nofun
      | popH tr g =>
        simp only [hp] at hs
        split at hs
        · split at hs <;> simp only [Option.some.injEq] at hs <;> subst hs <;> exact go _ _ nofun
        · cases hs
      | popN tr g e => simp only [hp] at hs; step_split hs; exact go _ _ nofun
      | popC tr g e v =>
        simp only [hp] at hs
        cases m <;> simp only at hs
        all_goals
          split at hs
          · simp only [Option.some.injEq] at hs
            subst hs
            exact go' _ _
          · split at hs <;> simp only [Option.some.injEq] at hs <;> subst hs <;> exact go _ _ nofun
      | bat =>
        simp only [hp, Option.some.injEq] at hs
        subst hs
        intro u full acc c hu
        simp only at hu ⊢
        by_cases e : u = t
        · subst e
          rw [upd_same] at hu
          obtain ⟨rfl, _, _⟩ := PC.walk.inj hu
          simp
        · rw [upd_ne _ _ e] at hu
          exact List.mem_append_left _ (hi u full acc c hu)
      | walk full acc c =>
        have h0 := hi t full acc c hp
        simp only [hp] at hs
        cases c with
        | none => simp only [Option.some.injEq] at hs; subst hs; exact go _ _ nofun
        | some e =>
          simp only at hs
          step_split hs
          refine go _ _ fun f a c h => .inl ?_
          obtain ⟨rfl, _, _⟩ := PC.walk.inj h
          exact h0
    | push t tr x => simp only [sys, step] at hs; step_split hs; exact go _ _ nofun
    | pop t tr =>
      simp only [sys, step] at hs
      split at hs
      · simp only [Option.some.injEq] at hs
        subst hs
        exact go _ _ (by split <;> nofun)
      · cases hs
    | batch t =>
      simp only [sys, step] at hs
      split at hs
      · simp only [Option.some.injEq] at hs
        subst hs
        exact go _ _ nofun
      · cases hs
    | fill t x v => simp only [sys, step] at hs; step_split hs; exact hi
    | look t x i => simp only [sys, step] at hs; step_split hs; exact hi

/-! ## The theorems -/

/-- C85: the results of all pushes and pops are those of a stack, in the order of the stores to `head`; `stk` is its content. -/
theorem lifo {s : St N n} (h : (sys m real N n).Reach s) : replay s.log = some s.stk := (inv_reach h).l.lr

/-- C85: `batch_pop` returns the whole content, in order: a traversal of the result that is over has seen the entries of the operation, and the first is the newest. -/
theorem batch_exact {s : St N n} (h : (sys m real N n).Reach s) {t : Fin n} {full acc : List N} (hp : s.pc t = .walk full acc none) :
    acc.reverse = full ∧ .batch t full ∈ s.log := by
  obtain ⟨r, h1, h2, _⟩ := (inv_reach h).c.wk t full acc none hp
  refine ⟨?_, walk_log h t full acc none hp⟩
  cases r with
  | nil => simpa using h1.symm
  | cons y r => cases (seg_cons.1 h2).1

/-- C85: a pop that finds `head` NULL was right at some time: the stack was empty after the first `i` operations, and the thread's own operations are among these. -/
theorem empty_seen {s s' : St N n} (h : (sys m real N n).Reach s) {t : Fin n} {tr : Bool} {g i : Nat} (hp : s.pc t = .popH tr g)
    (hs : (sys m real N n).step s (.run t i) = some s') (hr : s'.pc t = .idle) :
    replay (s.log.take i) = some [] ∧ ∀ (k : Nat) (o : Op N n), s.log[k]? = some o → o.by = t → k < i := by
  have hi := inv_reach h
  simp only [sys, step, run, hp] at hs
  split at hs
  · next hm =>
    refine ⟨?_, fun k o ho hb => ?_⟩
    · split at hs
      · next he =>
        obtain ⟨l, h1, h2⟩ := hi.l.lh i hm.2
        rw [he] at h2
        rw [h1, List.head?_eq_none_iff.1 h2]
      · simp only [Option.some.injEq] at hs
        subst hs
        simp only [upd_same] at hr
        cases hr
    · have := hi.l.lb k o ho
      rw [hb] at this
      exact Nat.lt_of_lt_of_le this hm.1
  · cases hs

/-- C85: a pop, not of the `try` kind, that ends after a failed compare and swap without an entry: the stack is empty. -/
theorem empty_now {s s' : St N n} (h : (sys m real N n).Reach s) {t : Fin n} {g i : Nat} {e : N} {v : Option N} (hp : s.pc t = .popC false g e v)
    (hs : (sys m real N n).step s (.run t i) = some s') (hl : s'.log = s.log) (hr : s'.pc t = .idle) : s.stk = [] := by
  have hi := inv_reach h
  have hne : ∀ o : Op N n, s.log ++ [o] ≠ s.log := fun o h => by have := congrArg List.length h; simp at this
  have hh : (s.mem.last .head).1 = none := by
    simp only [sys, step, run, hp] at hs
    cases m <;> simp only at hs
    all_goals
      split at hs
      · simp only [Option.some.injEq] at hs
        subst hs
        exact absurd hl (hne _)
      · cases hq : (s.mem.last .head).1 with
        | none => rfl
        | some e =>
          rw [hq] at hs
          simp only [Option.some.injEq] at hs
          subst hs
          simp only [upd_same] at hr
          cases hr
  have := hi.c.ch
  rw [hh] at this
  cases hs : s.stk with
  | nil => rfl
  | cons y r => rw [hs] at this; cases (seg_cons.1 this).1

/-- C85: the thread that popped an entry loads what was stored in it last. -/
theorem reads_last {s s' : St N n} (h : (sys m real N n).Reach s) {t : Fin n} {x : N} {i : Nat} (hs : (sys m real N n).step s (.look t x i) = some s') :
    (s.mem.msg (.dat x) i).val = s.mem.last (.dat x) := by
  have hi := inv_reach h
  simp only [sys, step] at hs
  split at hs
  · next hp =>
    rw [show i = s.mem.top (.dat x) from Nat.le_antisymm hp.2.2 (Nat.le_trans (hi.c.oc x t hp.1) hp.2.1)]; rfl
  · cases hs

/-- C85: no entry is in the stack twice, and one that some thread has is not in it. -/
theorem disjoint {s : St N n} (h : (sys m real N n).Reach s) : s.stk.Nodup ∧ ∀ x ∈ s.stk, s.own x = none := ⟨(inv_reach h).c.nd, fun x hx => ((inv_reach h).c.st x hx).2⟩

/-! ## The fences are needed -/

abbrev A := Act Bool 2

def start : St Bool 2 := initSt fun _ => some 0

/-- The run `as` is possible. -/
def can (m : Mode) (fc : Fences) (as : List A) : Bool := ((sys m fc Bool 2).run start as).isSome

/-- After the run `as` the operations are not those of a stack. -/
def bad (m : Mode) (fc : Fences) (as : List A) : Bool := match (sys m fc Bool 2).run start as with
  | some s => decide (replay s.log = none)
  | none => false

/-- Thread `t` pushes `x`, loading value `i` of `head`. -/
def pushes (t : Fin 2) (x : Bool) (i : Nat) : List A := [.push t false x, .run t i, .run t 0, .run t 0]

/-- Thread `t` pops, loading value `i` of `head` and `j` of `next`. -/
def popsU (t : Fin 2) (i j : Nat) : List A := [.pop t false, .run t i, .run t j, .run t 0]

/-- The same, loading value `g` of `generation`. -/
def popsM (t : Fin 2) (g i j : Nat) : List A := [.pop t false, .run t g, .run t i, .run t j, .run t 0]

/-- Thread 0 pushes both entries. -/
def two : List A := [.fill 0 false 5] ++ pushes 0 false 0 ++ [.fill 0 true 6] ++ pushes 0 true 1

/-- With the fences: thread 1 pops both and reads what is in them; no stale value can be loaded. -/
example : can .upmc real (two ++ popsU 1 2 1 ++ [.look 1 true 1] ++ popsU 1 3 1 ++ [.look 1 false 1]) = true ∧
    can .upmc real (two ++ popsU 1 2 0) = false ∧ can .upmc real (two ++ popsU 1 2 1 ++ [.look 1 true 0]) = false ∧
    can .mpmc real (two ++ popsM 1 0 2 1 ++ [.look 1 true 1] ++ popsM 1 1 3 1 ++ [.look 1 false 1, .fill 1 true 7] ++ pushes 1 true 4) = true := by decide +kernel

/-- Without a fence the popped entry seems to hold an old value, or thread 1 loads an old `next` and the other entry is lost: a pop returns NULL although all
operations are known and the stack is not empty. -/
theorem no_fence_push : can .upmc { real with push := false } (two ++ popsU 1 2 0 ++ [.look 1 true 0] ++ [.pop 1 false, .run 1 3, .batch 1]) = true := by decide +kernel
theorem no_fence_pop : can .upmc { real with pop := false } (two ++ popsU 1 2 0 ++ [.look 1 true 0] ++ [.pop 1 false, .run 1 3, .batch 1]) = true ∧
    can .mpmc { real with pop := false } (two ++ popsM 1 0 2 0 ++ [.look 1 true 0] ++ [.pop 1 false, .run 1 1, .run 1 3, .batch 1]) = true := by decide +kernel

/-- What a complete traversal saw, and should have seen. -/
def seen (fc : Fences) (as : List A) : Option (List Bool × List Bool) := match (sys .upmc fc Bool 2).run start as with
  | some s => match s.pc 1 with
    | .walk full acc none => some (full, acc.reverse)
    | _ => none
  | none => none

theorem no_fence_batch : seen { real with batch := false } (two ++ [.batch 1, .run 1 0, .run 1 0]) = some ([true, false], [true]) := by decide +kernel
example : seen real (two ++ [.batch 1, .run 1 0, .run 1 0]) = none ∧
    seen real (two ++ [.batch 1, .run 1 0, .run 1 1, .run 1 1]) = some ([true, false], [true, false]) := by decide +kernel

/-- Thread 0 pops both entries and pushes the first again; thread 1 knows of the pops by `generation` but loads the old `head` and the old `next`.  Its compare and swap
succeeds; then it pops an entry that thread 0 has. -/
def aba : List A :=
  two ++ popsM 0 0 2 1 ++ popsM 0 1 3 1 ++ pushes 0 true 4 ++ popsM 1 2 2 1 ++ popsM 1 3 6 1

theorem no_fence_gen : bad .mpmc { real with gen := false } aba = true := by decide +kernel
example : can .mpmc real aba = false ∧ can .mpmc real (two ++ popsM 0 0 2 1 ++ popsM 0 1 3 1 ++ pushes 0 true 4 ++ popsM 1 2 5 2) = true := by decide +kernel

/-- Without the generation (mode `upmc`), entries must not be used again: the model does not allow it. -/
example : can .upmc real (two ++ popsU 0 2 1 ++ pushes 0 true 3) = false := by decide +kernel

/-- A pop finds the stack empty although there is an entry: its load returned the old value. -/
example : can .upmc real (two ++ [.pop 1 false, .run 1 0, .batch 1]) = true ∧ can .upmc real (two ++ [.pop 0 false, .run 0 0, .batch 0]) = false := by decide +kernel

end Verif.Weak.Stack
