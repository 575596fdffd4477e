import Verif.Weak.Rwlock

/-!
# `ck_rwlock` on relaxed memory: exclusion, visibility, necessity of fences (C73)

The argument: the two full fences are ordered.  If the writer's was first, the reader loads `writer` as the writer has
set it, or newer; if the reader's was first, the writer loads `n_readers` as the reader has incremented it, or newer.
-/

namespace Verif.Weak.Rwlock

open Verif
open Verif.Weak.Fas (opt last_rmw last_store)

/-! ## Classes of program counters -/

/-- has incremented `n_readers` -/
def PC.reg : PC → Bool
  | .rfence _ | .rchk _ | .rdec _ | .rcs | .wdg => true
  | _ => false

/-- has set `writer` -/
def PC.own : PC → Bool
  | .wfence _ | .wchk _ | .wback | .wcs | .wdg => true
  | _ => false

def PC.rfen : PC → Bool
  | .rfence _ => true
  | _ => false

def PC.wfen : PC → Bool
  | .wfence _ => true
  | _ => false

def PC.chk : PC → Bool
  | .rchk _ => true
  | _ => false

/-- a writer after its full fence -/
def PC.fen : PC → Bool
  | .wchk _ | .wback | .wcs | .wdg => true
  | _ => false

/-- a writer in its section -/
def PC.crit : PC → Bool
  | .wcs | .wdg => true
  | _ => false

theorem PC.own_of_fen {p : PC} (h : p.fen = true) : p.own = true := by cases p <;> first | rfl | cases h

theorem PC.fen_of_crit {p : PC} (h : p.crit = true) : p.fen = true := by cases p <;> first | rfl | cases h

theorem PC.own_of_wfen {p : PC} (h : p.wfen = true) : p.own = true := by cases p <;> first | rfl | cases h

/-! ## Invariant -/

structure G (m : Mem Loc Nat) (sc : View Loc) (lw lu : Nat) (base : Nat → Nat) : Prop where
  le : lw ≤ lu ∧ lu ≤ m.top .writer ∧ lw ≤ sc .writer
  val : ∀ i, lw ≤ i → i < lu → (m.msg .writer i).val ≠ 0
  view : ∀ i x, lu ≤ i → i ≤ m.top .writer → base x ≤ (m.msg .writer i).view (.usr x)
  top : ∀ x, base x ≤ m.top (.usr x)

structure U (m : Mem Loc Nat) (sc : View Loc) (wi lw : Nat) (base : Nat → Nat) (a : TS) : Prop where
  reg : a.pc.reg = true → a.ri ≤ m.top .readers ∧ ∀ j, a.ri ≤ j → j ≤ m.top .readers → (m.msg .readers j).val ≠ 0
  own : a.pc.own = true → wi ≤ m.top .writer ∧ ∀ j, wi ≤ j → j ≤ m.top .writer → (m.msg .writer j).val ≠ 0
  rfen : a.pc.rfen = true → a.ri ≤ a.th.cur .readers
  wfen : a.pc.wfen = true → wi ≤ a.th.cur .writer ∧ ∀ x, base x ≤ a.th.acq (.usr x)
  chk : a.pc.chk = true → a.ri ≤ sc .readers ∧ lw ≤ a.th.cur .writer
  fen : a.pc.fen = true → wi ≤ sc .writer ∧ ∀ x, base x ≤ a.th.cur (.usr x)
  crit : a.pc.crit = true → ∀ x, m.top (.usr x) ≤ a.th.cur (.usr x)
  rcs : a.pc = .rcs → (a.ri ≤ sc .readers ∨ a.ri ≤ (m.msg .writer (m.top .writer)).view .readers) ∧
    ∀ x, base x ≤ a.th.cur (.usr x)
  wdg : a.pc = .wdg → a.ri ≤ a.th.cur .readers

structure B (sc : View Loc) (wi : Nat) (a b : TS) : Prop where
  own : a.pc.own = true → b.pc.own = false
  chkf : a.pc.chk = true → b.pc.fen = true → wi ≤ a.th.cur .writer ∨ a.ri ≤ b.th.cur .readers
  chkc : a.pc.chk = true → b.pc.crit = true → wi ≤ a.th.cur .writer
  rcsf : a.pc = .rcs → b.pc.fen = true → a.ri ≤ b.th.cur .readers
  rcsw : a.pc = .rcs → b.pc.wfen = true → a.ri ≤ sc .readers ∨ a.ri ≤ b.th.acq .readers
  rcsc : a.pc = .rcs → b.pc.crit = false

structure Inv {n : Nat} (s : St n) : Prop where
  g : G s.mem s.sc s.lw s.lu s.base
  u : ∀ t, U s.mem s.sc s.wi s.lw s.base (s.ts t)
  b : ∀ t u, t ≠ u → B s.sc s.wi (s.ts t) (s.ts u)
  free : (∀ t, (s.ts t).pc.own = false) → s.mem.last .writer = 0
  quiet : (∀ t, (s.ts t).pc.crit = false) → ∀ x, s.mem.top (.usr x) ≤ s.base x
  cnt : s.mem.last .readers = cnt (fun a : TS => a.pc.reg) s.ts

variable {n : Nat}

/-- One thread moves. -/
theorem Inv.mk' {s : St n} (hi : Inv s) {t : Fin n} {a : TS} {m : Mem Loc Nat} {sc : View Loc} {wi lw lu : Nat}
    {base : Nat → Nat} (g : G m sc lw lu base) (ua : U m sc wi lw base a)
    (uo : ∀ u, u ≠ t → U m sc wi lw base (s.ts u))
    (b1 : ∀ u, u ≠ t → B sc wi a (s.ts u)) (b2 : ∀ u, u ≠ t → B sc wi (s.ts u) a)
    (bo : ∀ u v, u ≠ t → v ≠ t → u ≠ v → B sc wi (s.ts u) (s.ts v))
    (free : a.pc.own = false → (∀ u, u ≠ t → (s.ts u).pc.own = false) → m.last .writer = 0)
    (quiet : a.pc.crit = false → (∀ u, u ≠ t → (s.ts u).pc.crit = false) → ∀ x, m.top (.usr x) ≤ base x)
    (cnt : m.last .readers + (s.ts t).pc.reg.toNat = s.mem.last .readers + a.pc.reg.toNat) :
    Inv { mem := m, sc := sc, ts := upd s.ts t a, wi := wi, lw := lw, lu := lu, base := base } := by
  have e : ∀ u, u ≠ t → upd s.ts t a u = s.ts u := fun u hu => upd_ne _ _ hu
  refine ⟨g, fun u => ?_, fun u v huv => ?_, fun h => ?_, fun h => ?_, ?_⟩
  · simp only
    by_cases hu : u = t
    · subst hu; rw [upd_same]; exact ua
    · rw [e u hu]; exact uo u hu
  · simp only
    by_cases hu : u = t
    · subst hu
      rw [upd_same, e v (Ne.symm huv)]
      exact b1 v (Ne.symm huv)
    · by_cases hv : v = t
      · subst hv
        rw [upd_same, e u hu]
        exact b2 u hu
      · rw [e u hu, e v hv]; exact bo u v hu hv huv
  · refine free ?_ fun u hu => ?_
    · have := h t; simp only [upd_same] at this; exact this
    · have := h u; simp only at this; rwa [e u hu] at this
  · refine quiet ?_ fun u hu => ?_
    · have := h t; simp only [upd_same] at this; exact this
    · have := h u; simp only at this; rwa [e u hu] at this
  · simp only
    have := Verif.cnt_update (fun a : TS => a.pc.reg) s.ts t a
    rw [← hi.cnt] at this
    omega

/-! ## What the others keep -/

theorem U.nr {m : Mem Loc Nat} {sc : View Loc} {wi lw : Nat} {base : Nat → Nat} {b : TS} (h : U m sc wi lw base b) (q : Th Loc)
    {v : Nat} (hv : b.pc.reg = true → v ≠ 0) : U (m.rmw q .readers v) sc wi lw base b := by
  refine { h with reg := fun hr => ?_, own := fun ho => ?_, rcs := fun hc => ?_ }
  · obtain ⟨h1, h2⟩ := h.reg hr
    simp only [Mem.rmw_top, if_true]
    refine ⟨by omega, fun j hj1 hj2 => ?_⟩
    by_cases hj : j ≤ m.top .readers
    · rw [Mem.rmw_old hj]; exact h2 j hj1 hj
    · rw [Mem.rmw_at _ _ (by omega)]; exact hv hr
  · obtain ⟨h1, h2⟩ := h.own ho
    refine ⟨h1, fun j hj1 hj2 => ?_⟩
    rw [Mem.rmw_ne _ (by simp)]
    exact h2 j hj1 hj2
  · obtain ⟨h1, h2⟩ := h.rcs hc
    refine ⟨?_, h2⟩
    rw [Mem.rmw_ne _ (by simp)]
    exact h1

theorem U.w1 {m : Mem Loc Nat} {sc : View Loc} {wi wi' lw : Nat} {base : Nat → Nat} {b : TS} (h : U m sc wi lw base b)
    (q : Th Loc) (ho : b.pc.own = false ∨ wi' = wi) : U (m.rmw q .writer 1) sc wi' lw base b := by
  have hno : b.pc.own = true → wi' = wi := fun h => by
    rcases ho with h' | h'
    · rw [h] at h'; cases h'
    · exact h'
  refine { h with reg := fun hr => ?_, own := fun ho => ?_, wfen := fun hw => ?_, fen := fun hf => ?_, rcs := fun hc => ?_ }
  · obtain ⟨h1, h2⟩ := h.reg hr
    refine ⟨h1, fun j hj1 hj2 => ?_⟩
    rw [Mem.rmw_ne _ (by simp)]
    exact h2 j hj1 hj2
  · obtain ⟨h1, h2⟩ := h.own ho
    rw [hno ho]
    simp only [Mem.rmw_top, if_true]
    refine ⟨by omega, fun j hj1 hj2 => ?_⟩
    by_cases hj : j ≤ m.top .writer
    · rw [Mem.rmw_old hj]; exact h2 j hj1 hj
    · rw [Mem.rmw_at _ _ (by omega)]; simp
  · rw [hno (PC.own_of_wfen hw)]; exact h.wfen hw
  · rw [hno (PC.own_of_fen hf)]; exact h.fen hf
  · obtain ⟨h1, h2⟩ := h.rcs hc
    refine ⟨h1.imp_right fun h1 => ?_, h2⟩
    simp only [Mem.rmw_top, if_true]
    rw [Mem.rmw_at _ _ rfl]
    simp only
    rw [upd_ne _ _ (by simp)]
    exact Nat.le_trans h1 (le_join_right _ _ _)

theorem U.w0 {m : Mem Loc Nat} {sc : View Loc} {wi lw lw' : Nat} {base base' : Nat → Nat} {b : TS} (h : U m sc wi lw base b)
    {q : Th Loc} (ho : b.pc.own = false) (hq : b.pc = .rcs → b.ri ≤ sc .readers ∨ b.ri ≤ q.rel .readers)
    (hl : b.pc.chk = true → lw' ≤ b.th.cur .writer) (hb : b.pc = .rcs → ∀ x, base' x ≤ b.th.cur (.usr x)) :
    U (m.store q .writer 0) sc wi lw' base' b := by
  have hno : b.pc.own = true → False := fun h => by rw [ho] at h; cases h
  refine { reg := fun hr => ?_, own := fun h => (hno h).elim, rfen := h.rfen, wfen := fun h => (hno (PC.own_of_wfen h)).elim,
           chk := fun hc => ⟨(h.chk hc).1, hl hc⟩, fen := fun h => (hno (PC.own_of_fen h)).elim
           crit := fun h => (hno (PC.own_of_fen (PC.fen_of_crit h))).elim, rcs := fun hc => ⟨?_, hb hc⟩, wdg := h.wdg }
  · obtain ⟨h1, h2⟩ := h.reg hr
    refine ⟨h1, fun j hj1 hj2 => ?_⟩
    rw [Mem.store_ne _ (by simp)]
    exact h2 j hj1 hj2
  · refine (hq hc).imp_right fun h1 => ?_
    simp only [Mem.store_top, if_true]
    rw [Mem.store_at _ _ rfl]
    simp only
    rw [upd_ne _ _ (by simp)]
    exact h1

theorem U.us {m : Mem Loc Nat} {sc : View Loc} {wi lw : Nat} {base : Nat → Nat} {b : TS} (h : U m sc wi lw base b) (q : Th Loc)
    (x v : Nat) (hc : b.pc.crit = false) : U (m.store q (.usr x) v) sc wi lw base b := by
  refine { h with reg := fun hr => ?_, own := fun ho => ?_, crit := fun h => ?_, rcs := fun hc => ?_ }
  · obtain ⟨h1, h2⟩ := h.reg hr
    refine ⟨h1, fun j hj1 hj2 => ?_⟩
    rw [Mem.store_ne _ (by simp)]
    exact h2 j hj1 hj2
  · obtain ⟨h1, h2⟩ := h.own ho
    refine ⟨h1, fun j hj1 hj2 => ?_⟩
    rw [Mem.store_ne _ (by simp)]
    exact h2 j hj1 hj2
  · rw [hc] at h; cases h
  · obtain ⟨h1, h2⟩ := h.rcs hc
    refine ⟨?_, h2⟩
    rw [Mem.store_ne _ (by simp)]
    exact h1

theorem U.sc {m : Mem Loc Nat} {sc sc' : View Loc} {wi lw : Nat} {base : Nat → Nat} {b : TS} (h : U m sc wi lw base b)
    (hs : ∀ x, sc x ≤ sc' x) : U m sc' wi lw base b :=
  { h with
    chk := fun hc => ⟨Nat.le_trans (h.chk hc).1 (hs _), (h.chk hc).2⟩
    fen := fun hc => ⟨Nat.le_trans (h.fen hc).1 (hs _), (h.fen hc).2⟩
    rcs := fun hc => ⟨(h.rcs hc).1.imp_left fun h => Nat.le_trans h (hs _), (h.rcs hc).2⟩ }

theorem B.sc {sc sc' : View Loc} {wi : Nat} {a b : TS} (h : B sc wi a b) (hs : ∀ x, sc x ≤ sc' x) : B sc' wi a b :=
  { h with rcsw := fun h1 h2 => (h.rcsw h1 h2).imp_left fun h => Nat.le_trans h (hs _) }

theorem B.wi {sc : View Loc} {wi wi' : Nat} {a b : TS} (h : B sc wi a b) (ho : b.pc.own = false) : B sc wi' a b := by
  have hno : b.pc.own = true → False := fun h => by rw [ho] at h; cases h
  exact { h with chkf := fun _ h => (hno (PC.own_of_fen h)).elim
                 chkc := fun _ h => (hno (PC.own_of_fen (PC.fen_of_crit h))).elim }

/-- A thread that stays where it is and learns more. -/
theorem U.more {m : Mem Loc Nat} {sc : View Loc} {wi lw : Nat} {base : Nat → Nat} {a : TS} {q : Th Loc}
    (h : U m sc wi lw base a) (h1 : ∀ x, a.th.cur x ≤ q.cur x) (h2 : ∀ x, a.th.acq x ≤ q.acq x) :
    U m sc wi lw base { a with th := q } :=
  { reg := h.reg, own := h.own
    rfen := fun hc => Nat.le_trans (h.rfen hc) (h1 _)
    wfen := fun hc => ⟨Nat.le_trans (h.wfen hc).1 (h1 _), fun x => Nat.le_trans ((h.wfen hc).2 x) (h2 _)⟩
    chk := fun hc => ⟨(h.chk hc).1, Nat.le_trans (h.chk hc).2 (h1 _)⟩
    fen := fun hc => ⟨(h.fen hc).1, fun x => Nat.le_trans ((h.fen hc).2 x) (h1 _)⟩
    crit := fun hc x => Nat.le_trans (h.crit hc x) (h1 _)
    rcs := fun hc => ⟨(h.rcs hc).1, fun x => Nat.le_trans ((h.rcs hc).2 x) (h1 _)⟩
    wdg := fun hc => Nat.le_trans (h.wdg hc) (h1 _) }

theorem B.more1 {sc : View Loc} {wi : Nat} {a b : TS} {q : Th Loc} (h : B sc wi a b) (h1 : ∀ x, a.th.cur x ≤ q.cur x) :
    B sc wi { a with th := q } b :=
  { own := h.own
    chkf := fun ha hb => (h.chkf ha hb).imp_left fun h => Nat.le_trans h (h1 _)
    chkc := fun ha hb => Nat.le_trans (h.chkc ha hb) (h1 _)
    rcsf := h.rcsf, rcsw := h.rcsw, rcsc := h.rcsc }

theorem B.more2 {sc : View Loc} {wi : Nat} {a b : TS} {q : Th Loc} (h : B sc wi a b) (h1 : ∀ x, b.th.cur x ≤ q.cur x)
    (h2 : ∀ x, b.th.acq x ≤ q.acq x) : B sc wi a { b with th := q } :=
  { own := h.own
    chkf := fun ha hb => (h.chkf ha hb).imp_right fun h => Nat.le_trans h (h1 _)
    chkc := h.chkc
    rcsf := fun ha hb => Nat.le_trans (h.rcsf ha hb) (h1 _)
    rcsw := fun ha hb => (h.rcsw ha hb).imp_right fun h => Nat.le_trans h (h2 _)
    rcsc := h.rcsc }

/-- A thread without obligations. -/
def PC.neutral : PC → Bool
  | .idle | .rwait _ | .rinc _ | .wtry _ => true
  | _ => false

theorem U.neutral {m : Mem Loc Nat} {sc : View Loc} {wi lw : Nat} {base : Nat → Nat} {a : TS} (h : a.pc.neutral = true) :
    U m sc wi lw base a := by
  obtain ⟨p, q, r⟩ := a
  simp only at h
  cases p <;> simp only [PC.neutral] at h <;> first | cases h | skip
  all_goals (constructor <;> intro h <;> cases h)

theorem B.left {sc : View Loc} {wi : Nat} {a b : TS} (h1 : a.pc.own = false) (h2 : a.pc.chk = false) (h3 : a.pc ≠ .rcs) :
    B sc wi a b := by
  constructor
  case own => intro h; rw [h1] at h; cases h
  case chkf => intro h; rw [h2] at h; cases h
  case chkc => intro h; rw [h2] at h; cases h
  all_goals (intro h; exact absurd h h3)

theorem B.right {sc : View Loc} {wi : Nat} {a b : TS} (h : b.pc.own = false) : B sc wi a b := by
  have hno : b.pc.own = true → False := fun h' => by rw [h] at h'; cases h'
  constructor
  case own => intro _; exact h
  case chkf => intro _ h; exact (hno (PC.own_of_fen h)).elim
  case chkc => intro _ h; exact (hno (PC.own_of_fen (PC.fen_of_crit h))).elim
  case rcsf => intro _ h; exact (hno (PC.own_of_fen h)).elim
  case rcsw => intro _ h; exact (hno (PC.own_of_wfen h)).elim
  case rcsc =>
    intro _
    cases hc : b.pc.crit with
    | false => rfl
    | true => exact (hno (PC.own_of_fen (PC.fen_of_crit hc))).elim

theorem G.nr {m : Mem Loc Nat} {sc : View Loc} {lw lu : Nat} {base : Nat → Nat} (h : G m sc lw lu base) (q : Th Loc) (v : Nat) :
    G (m.rmw q .readers v) sc lw lu base := by
  refine ⟨h.le, fun i h1 h2 => ?_, fun i x h1 h2 => ?_, h.top⟩
  · rw [Mem.rmw_ne _ (by simp)]; exact h.val i h1 h2
  · rw [Mem.rmw_ne _ (by simp)]; exact h.view i x h1 h2

theorem G.w1 {m : Mem Loc Nat} {sc : View Loc} {lw lu : Nat} {base : Nat → Nat} (h : G m sc lw lu base) (q : Th Loc) :
    G (m.rmw q .writer 1) sc lw lu base := by
  have hle := h.le
  refine ⟨by simp only [Mem.rmw_top, if_true]; omega, fun i h1 h2 => ?_, fun i x h1 h2 => ?_, h.top⟩
  · rw [Mem.rmw_old (by omega)]; exact h.val i h1 h2
  · simp only [Mem.rmw_top, if_true] at h2
    by_cases hi : i ≤ m.top .writer
    · rw [Mem.rmw_old hi]; exact h.view i x h1 hi
    · rw [Mem.rmw_at _ _ (by omega)]
      simp only
      rw [upd_ne _ _ (by simp)]
      exact Nat.le_trans (h.view _ x hle.2.1 (Nat.le_refl _)) (le_join_right _ _ _)

theorem last_rmw_ne {L V : Type} [DecidableEq L] (m : Mem L V) (t : Th L) {x y : L} (v : V) (h : y ≠ x) :
    (m.rmw t x v).last y = m.last y := by
  simp only [Mem.last, Mem.rmw_top]
  rw [if_neg h, Mem.rmw_ne _ h]

theorem last_store_ne {L V : Type} [DecidableEq L] (m : Mem L V) (t : Th L) {x y : L} (v : V) (h : y ≠ x) :
    (m.store t x v).last y = m.last y := by
  simp only [Mem.last, Mem.store_top]
  rw [if_neg h, Mem.store_ne _ h]

theorem rmw_cur_le {L V : Type} [DecidableEq L] (t : Th L) (m : Mem L V) {x y : L} (h : y ≠ x) :
    t.cur y ≤ (t.rmw m x).cur y := by
  simp only [Th.rmw, Th.store]
  rw [upd_ne _ _ h]
  exact Th.load_cur_le _ _ _ _ _

theorem rmw_cur_at {L V : Type} [DecidableEq L] (t : Th L) (m : Mem L V) (x : L) : (t.rmw m x).cur x = m.top x + 1 := by
  simp only [Th.rmw, Th.store, upd_same]

theorem rmw_view_le {L V : Type} [DecidableEq L] (t : Th L) (m : Mem L V) (x y : L) :
    (m.msg x (m.top x)).view y ≤ (t.rmw m x).acq y := by
  simp only [Th.rmw, Th.store]
  exact Th.load_view_le _ _ _ _ _

theorem fence_cur_sc {L : Type} (t : Th L) (sc : View L) (x : L) : sc x ≤ (t.fence sc).cur x := le_join_right _ _ _

theorem fence_cur_acq {L : Type} (t : Th L) (sc : View L) (x : L) : t.acq x ≤ (t.fence sc).cur x :=
  Nat.le_trans (le_join_right _ _ _) (le_join_left _ _ _)

theorem fence_cur_cur {L : Type} (t : Th L) (sc : View L) (x : L) : t.cur x ≤ (t.fence sc).cur x :=
  Nat.le_trans (le_join_left _ _ _) (le_join_left _ _ _)

theorem fenceSc_sc {L : Type} (t : Th L) (sc : View L) (x : L) : sc x ≤ t.fenceSc sc x := le_join_right _ _ _

theorem fenceSc_cur {L : Type} (t : Th L) (sc : View L) (x : L) : t.cur x ≤ t.fenceSc sc x :=
  Nat.le_trans (le_join_left _ _ _) (le_join_left _ _ _)

theorem hall {P : Fin n → Prop} {t : Fin n} (ht : P t) (h : ∀ u, u ≠ t → P u) : ∀ u, P u := fun u => by
  by_cases hu : u = t
  · subst hu; exact ht
  · exact h u hu

theorem Inv.others {s : St n} (hi : Inv s) {t : Fin n} (h : (s.ts t).pc.own = true) {u : Fin n} (hu : u ≠ t) :
    (s.ts u).pc.own = false := (hi.b t u (Ne.symm hu)).own h

theorem crit_false {p : PC} (h : p.own = false) : p.crit = false := by cases p <;> first | rfl | cases h

/-- Decrement of `n_readers`. -/
theorem inv_dec {s : St n} (hi : Inv s) {t : Fin n} {p : PC} (hr : (s.ts t).pc.reg = true) (ho : (s.ts t).pc.own = false)
    (hp : p.neutral = true) :
    Inv { s with
      mem := s.mem.rmw (s.ts t).th .readers (s.mem.last .readers - 1)
      ts := upd s.ts t { s.ts t with pc := p, th := (s.ts t).th.rmw s.mem .readers } } := by
  have hpo : p.own = false ∧ p.chk = false ∧ p ≠ .rcs ∧ p.reg = false := by
    cases p <;> first | exact ⟨rfl, rfl, by simp, rfl⟩ | cases hp
  have hpos := cnt_pos (P := fun a : TS => a.pc.reg) (f := s.ts) t hr
  rw [← hi.cnt] at hpos
  refine hi.mk' (hi.g.nr _ _) (U.neutral hp) (fun u hu => (hi.u u).nr _ fun hru => ?_)
    (fun u _ => B.left hpo.1 hpo.2.1 hpo.2.2.1) (fun u _ => B.right hpo.1) (fun u v _ _ huv => hi.b u v huv)
    (fun _ h => ?_) (fun _ h x => ?_) ?_
  · have := cnt_two (P := fun a : TS => a.pc.reg) (f := s.ts) (Ne.symm hu) hr hru
    rw [← hi.cnt] at this
    omega
  · rw [last_rmw_ne _ _ _ (by simp)]
    exact hi.free (hall ho h)
  · simp only [Mem.rmw_top]
    rw [if_neg (by simp)]
    exact hi.quiet (hall (crit_false ho) h) x
  · rw [last_rmw, hr, hpo.2.2.2]
    simp only [Bool.toNat_true, Bool.toNat_false]
    omega

/-- The store of `ck_rwlock_write_unlock` at the end of a write section. -/
theorem inv_release {s : St n} (hi : Inv s) {t : Fin n} {p : PC} (hc : (s.ts t).pc.crit = true)
    (hp : p = .idle ∨ p = .rcs) (hr : p.reg = (s.ts t).pc.reg) (hw : p = .rcs → (s.ts t).pc = .wdg) :
    Inv (release real s t p) := by
  have hf := PC.fen_of_crit hc
  have ho := PC.own_of_fen hf
  have hut := hi.u t
  have hpo : p.own = false := by rcases hp with rfl | rfl <;> rfl
  have hrel : ∀ x, (s.ts t).th.cur x ≤ (Th.fenceRel (s.ts t).th).rel x := fun x => le_join_right _ _ _
  simp only [release, opt, real, if_true]
  refine hi.mk' ?_ ?_ (fun u hu => ?_) (fun u hu => ?_) (fun u _ => B.right hpo) (fun u v _ _ huv => hi.b u v huv)
    (fun _ _ => last_store _ _ _ _) (fun _ _ x => ?_) ?_
  · obtain ⟨h1, h2⟩ := hut.own ho
    refine ⟨⟨by omega, by simp [Mem.store_top], (hut.fen hf).1⟩, fun i h3 h4 => ?_, fun i x h3 h4 => ?_, fun x => ?_⟩
    · rw [Mem.store_old (by omega)]; exact h2 i h3 (by omega)
    · simp only [Mem.store_top, if_true] at h4
      rw [Mem.store_at _ _ (by omega)]
      simp only
      rw [upd_ne _ _ (by simp)]
      exact Nat.le_trans (hut.crit hc x) (hrel _)
    · simp [Mem.store_top]
  · rcases hp with rfl | rfl
    · exact U.neutral rfl
    · have hpc := hw rfl
      constructor
      case reg =>
        intro _
        obtain ⟨h1, h2⟩ := hut.reg (by rw [hpc]; rfl)
        refine ⟨h1, fun j h3 h4 => ?_⟩
        rw [Mem.store_ne _ (by simp)]
        exact h2 j h3 h4
      case rcs =>
        intro _
        refine ⟨.inr ?_, fun x => ?_⟩
        · simp only [Mem.store_top, if_true]
          rw [Mem.store_at _ _ rfl]
          simp only
          rw [upd_ne _ _ (by simp)]
          exact Nat.le_trans (hut.wdg hpc) (hrel _)
        · simp only [Th.store, Th.fenceRel]
          rw [upd_ne _ _ (by simp)]
          exact hut.crit hc x
      all_goals (intro h; cases h)
  · have hb := hi.b u t hu
    have hex : (s.ts u).pc = .rcs → False := fun h => by have := hb.rcsc h; rw [hc] at this; cases this
    exact (hi.u u).w0 (hi.others ho hu) (fun h => (hex h).elim) (fun h => hb.chkc h hc) (fun h => (hex h).elim)
  · rcases hp with rfl | rfl
    · exact B.left rfl rfl (by simp)
    · exact B.right (hi.others ho hu)
  · simp [Mem.store_top]
  · rw [last_store_ne _ _ _ (by simp), hr]

theorem inv_step {s s' : St n} {a : Act n} (hi : Inv s) (hs : step real s a = some s') : Inv s' := by
  have bo : ∀ {t : Fin n} u v, u ≠ t → v ≠ t → u ≠ v → B s.sc s.wi (s.ts u) (s.ts v) := fun u v _ _ huv => hi.b u v huv
  -- a thread moves between places without obligations, memory stays
  have quietly : ∀ (t : Fin n) (a : TS), (s.ts t).pc.neutral = true → a.pc.neutral = true →
      Inv { s with ts := upd s.ts t a } := by
    intro t a h1 h2
    have hn : ∀ {p : PC}, p.neutral = true → p.own = false ∧ p.chk = false ∧ p ≠ .rcs ∧ p.reg = false ∧ p.crit = false := by
      intro p h
      cases p <;> first | exact ⟨rfl, rfl, by simp, rfl, rfl⟩ | cases h
    refine hi.mk' hi.g (U.neutral h2) (fun u _ => hi.u u) (fun u _ => B.left (hn h2).1 (hn h2).2.1 (hn h2).2.2.1)
      (fun u _ => B.right (hn h2).1) bo (fun _ h => hi.free (hall (hn h1).1 h))
      (fun _ h => hi.quiet (hall (hn h1).2.2.2.2 h)) ?_
    rw [(hn h1).2.2.2.1, (hn h2).2.2.2.1]
  -- a thread loads, and stays
  have learn : ∀ (t : Fin n) (x : Loc) (i : Nat),
      Inv { s with ts := upd s.ts t { s.ts t with th := (s.ts t).th.load s.mem x i } } := by
    intro t x i
    have hc := Th.load_cur_le (s.ts t).th s.mem x i
    have ha := Th.load_acq_le (s.ts t).th s.mem x i
    exact hi.mk' hi.g ((hi.u t).more hc ha) (fun u _ => hi.u u) (fun u hu => (hi.b t u (Ne.symm hu)).more1 hc)
      (fun u hu => (hi.b u t hu).more2 hc ha) bo (fun h1 h => hi.free (hall h1 h)) (fun h1 h => hi.quiet (hall h1 h)) rfl
  cases a with
  | rcall t tr =>
    simp only [step] at hs
    split at hs
    · next hc => cases hs; exact quietly t _ (by rw [hc]; rfl) rfl
    · cases hs
  | wcall t tr =>
    simp only [step] at hs
    split at hs
    · next hc => cases hs; exact quietly t _ (by rw [hc]; rfl) rfl
    · cases hs
  | rlook t i =>
    simp only [step] at hs
    cases hp : (s.ts t).pc <;> simp only [hp] at hs <;> try (cases hs; done)
    next tr =>
    split at hs
    · cases hs
      refine quietly t _ (by rw [hp]; rfl) ?_
      simp only
      split
      · rfl
      · split <;> rfl
    · cases hs
  | rinc t =>
    simp only [step] at hs
    cases hp : (s.ts t).pc <;> simp only [hp] at hs <;> try (cases hs; done)
    next tr =>
    cases hs
    refine hi.mk' (hi.g.nr _ _) ?_ (fun u _ => (hi.u u).nr _ fun _ => by omega) (fun u _ => B.left rfl rfl (by simp))
      (fun u _ => B.right rfl) bo (fun _ h => ?_) (fun _ h x => ?_) ?_
    · constructor
      case reg =>
        intro _
        simp only [Mem.rmw_top, if_true]
        refine ⟨Nat.le_refl _, fun j h1 h2 => ?_⟩
        rw [Mem.rmw_at _ _ (by omega)]
        simp
      case rfen => intro _; simp only; rw [rmw_cur_at]
      all_goals (intro h; cases h)
    · rw [last_rmw_ne _ _ _ (by simp)]
      exact hi.free (hall (by rw [hp]; rfl) h)
    · simp only [Mem.rmw_top]
      rw [if_neg (by simp)]
      exact hi.quiet (hall (by rw [hp]; rfl) h) x
    · rw [last_rmw, hp]; rfl
  | rfence t =>
    simp only [step] at hs
    cases hp : (s.ts t).pc <;> simp only [hp] at hs <;> try (cases hs; done)
    next tr =>
    simp only [real, if_true] at hs
    cases hs
    have hut := hi.u t
    have hsc := fenceSc_sc (s.ts t).th s.sc
    refine hi.mk' ?_ ?_ (fun u _ => (hi.u u).sc hsc) (fun u hu => ?_) (fun u _ => B.right rfl)
      (fun u v _ _ huv => (hi.b u v huv).sc hsc) (fun _ h => hi.free (hall (by rw [hp]; rfl) h))
      (fun _ h => hi.quiet (hall (by rw [hp]; rfl) h)) (by rw [hp]; rfl)
    · have := hi.g.le
      exact ⟨⟨this.1, this.2.1, Nat.le_trans this.2.2 (hsc _)⟩, hi.g.val, hi.g.view, hi.g.top⟩
    · constructor
      case reg => intro _; exact hut.reg (by rw [hp]; rfl)
      case chk =>
        intro _
        exact ⟨Nat.le_trans (hut.rfen (by rw [hp]; rfl)) (fenceSc_cur _ _ _),
          Nat.le_trans hi.g.le.2.2 (fence_cur_sc _ _ _)⟩
      all_goals (intro h; cases h)
    · constructor
      case chkf => intro _ hf; exact .inl (Nat.le_trans ((hi.u u).fen hf).1 (fence_cur_sc _ _ _))
      case chkc => intro _ hf; exact Nat.le_trans ((hi.u u).fen (PC.fen_of_crit hf)).1 (fence_cur_sc _ _ _)
      all_goals (intro h; cases h)
  | rchk t i =>
    simp only [step] at hs
    cases hp : (s.ts t).pc <;> simp only [hp] at hs <;> try (cases hs; done)
    next tr =>
    have hut := hi.u t
    have hchk : (s.ts t).pc.chk = true := by rw [hp]; rfl
    split at hs
    · next hm =>
      obtain ⟨hm1, hm2⟩ := hm
      split at hs
      · next hv =>
        cases hs
        simp only [opt, real, if_true]
        have hno : ∀ u, (s.ts u).pc.own = true → ¬ s.wi ≤ (s.ts t).th.cur .writer := fun u hu h =>
          ((hi.u u).own hu).2 i (Nat.le_trans h hm1) hm2 hv
        refine hi.mk' hi.g ?_ (fun u _ => hi.u u) (fun u hu => ?_) (fun u _ => B.right rfl) bo
          (fun _ h => hi.free (hall (by rw [hp]; rfl) h)) (fun _ h => hi.quiet (hall (by rw [hp]; rfl) h)) (by rw [hp]; rfl)
        · constructor
          case reg => intro _; exact hut.reg (by rw [hp]; rfl)
          case rcs =>
            intro _
            refine ⟨.inl (hut.chk hchk).1, fun x => ?_⟩
            have hlu : s.lu ≤ i := by
              refine Decidable.byContradiction fun h => ?_
              exact hi.g.val i (Nat.le_trans (hut.chk hchk).2 hm1) (by omega) hv
            exact Nat.le_trans (Nat.le_trans (hi.g.view i x hlu hm2) (Th.load_view_le _ _ _ _ _)) (le_join_right _ _ _)
          all_goals (intro h; cases h)
        · have hb := hi.b t u (Ne.symm hu)
          constructor
          case rcsf =>
            intro _ hf
            exact (hb.chkf hchk hf).resolve_left (hno u (PC.own_of_fen hf))
          case rcsw => intro _ _; exact .inl (hut.chk hchk).1
          case rcsc =>
            intro _
            cases hc : (s.ts u).pc.crit with
            | false => rfl
            | true => exact absurd (hb.chkc hchk hc) (hno u (PC.own_of_fen (PC.fen_of_crit hc)))
          all_goals (intro h; cases h)
      · cases hs
        refine hi.mk' hi.g ?_ (fun u _ => hi.u u) (fun u hu => B.left rfl rfl (by simp)) (fun u _ => B.right rfl) bo
          (fun _ h => hi.free (hall (by rw [hp]; rfl) h)) (fun _ h => hi.quiet (hall (by rw [hp]; rfl) h)) (by rw [hp]; rfl)
        constructor
        case reg => intro _; exact hut.reg (by rw [hp]; rfl)
        all_goals (intro h; cases h)
    · cases hs
  | rdec t =>
    simp only [step] at hs
    cases hp : (s.ts t).pc <;> simp only [hp] at hs <;> try (cases hs; done)
    next tr =>
    cases hs
    exact inv_dec hi (by rw [hp]; rfl) (by rw [hp]; rfl) (by split <;> rfl)
  | runlock t =>
    simp only [step] at hs
    split at hs
    · next hp => cases hs; exact inv_dec hi (by rw [hp]; rfl) (by rw [hp]; rfl) rfl
    · cases hs
  | wfas t =>
    simp only [step] at hs
    cases hp : (s.ts t).pc <;> simp only [hp] at hs <;> try (cases hs; done)
    next tr =>
    split at hs
    · next h0 =>
      cases hs
      have hno : ∀ u, (s.ts u).pc.own = false := by
        intro u
        cases h : (s.ts u).pc.own with
        | false => rfl
        | true =>
          obtain ⟨h1, h2⟩ := (hi.u u).own h
          exact absurd h0 (h2 _ h1 (Nat.le_refl _))
      refine hi.mk' (hi.g.w1 _) ?_ (fun u _ => (hi.u u).w1 _ (.inl (hno u))) (fun u hu => ?_) (fun u hu => ?_)
        (fun u v _ _ huv => (hi.b u v huv).wi (hno v)) (fun h => by cases h) (fun _ _ x => ?_) ?_
      · constructor
        case own =>
          intro _
          simp only [Mem.rmw_top, if_true]
          refine ⟨Nat.le_refl _, fun j h1 h2 => ?_⟩
          rw [Mem.rmw_at _ _ (by omega)]
          simp
        case wfen =>
          intro _
          simp only
          refine ⟨by rw [rmw_cur_at], fun x => ?_⟩
          exact Nat.le_trans (hi.g.view _ x hi.g.le.2.1 (Nat.le_refl _)) (rmw_view_le _ _ _ _)
        all_goals (intro h; cases h)
      · constructor
        case own => intro _; exact hno u
        all_goals (intro h; cases h)
      · constructor
        case own => intro h; rw [hno u] at h; cases h
        case rcsw =>
          intro h _
          exact ((hi.u u).rcs h).1.imp_right fun h => Nat.le_trans h (rmw_view_le _ _ _ _)
        case rcsc => intro _; rfl
        all_goals (intro _ h; cases h)
      · simp only [Mem.rmw_top]
        rw [if_neg (by simp)]
        exact hi.quiet (fun u => crit_false (hno u)) x
      · rw [last_rmw_ne _ _ _ (by simp), hp]; rfl
    · next h0 =>
      cases hs
      obtain ⟨p, hpp⟩ : ∃ p, p = (if tr then PC.idle else PC.wtry tr) := ⟨_, rfl⟩
      have hpo : p.neutral = true ∧ p.own = false ∧ p.chk = false ∧ p ≠ .rcs ∧ p.reg = false := by
        cases tr <;> simp [hpp, PC.neutral, PC.own, PC.chk, PC.reg]
      rw [← hpp]
      refine hi.mk' (hi.g.w1 _) (U.neutral hpo.1) (fun u _ => (hi.u u).w1 _ (.inr rfl))
        (fun u _ => B.left hpo.2.1 hpo.2.2.1 hpo.2.2.2.1) (fun u _ => B.right hpo.2.1) bo
        (fun _ h => absurd (hi.free (hall (by rw [hp]; rfl) h)) h0) (fun _ h x => ?_) ?_
      · simp only [Mem.rmw_top]
        rw [if_neg (by simp)]
        exact hi.quiet (hall (by rw [hp]; rfl) h) x
      · rw [last_rmw_ne _ _ _ (by simp), hp, hpo.2.2.2.2]; rfl
  | wfence t =>
    simp only [step] at hs
    cases hp : (s.ts t).pc <;> simp only [hp] at hs <;> try (cases hs; done)
    next tr =>
    simp only [real, if_true] at hs
    cases hs
    have hut := hi.u t
    have ho : (s.ts t).pc.own = true := by rw [hp]; rfl
    have hwf : (s.ts t).pc.wfen = true := by rw [hp]; rfl
    have hsc := fenceSc_sc (s.ts t).th s.sc
    refine hi.mk' ?_ ?_ (fun u _ => (hi.u u).sc hsc) (fun u hu => ?_) (fun u hu => ?_)
      (fun u v _ _ huv => (hi.b u v huv).sc hsc) (fun h => by cases h)
      (fun _ h => hi.quiet (hall (by rw [hp]; rfl) h)) (by rw [hp]; rfl)
    · have := hi.g.le
      exact ⟨⟨this.1, this.2.1, Nat.le_trans this.2.2 (hsc _)⟩, hi.g.val, hi.g.view, hi.g.top⟩
    · constructor
      case own => intro _; exact hut.own ho
      case fen =>
        intro _
        exact ⟨Nat.le_trans (hut.wfen hwf).1 (fenceSc_cur _ _ _),
          fun x => Nat.le_trans ((hut.wfen hwf).2 x) (fence_cur_acq _ _ _)⟩
      all_goals (intro h; cases h)
    · constructor
      case own => intro _; exact hi.others ho hu
      all_goals (intro h; cases h)
    · have hb := hi.b u t hu
      constructor
      case own => intro h; rw [hi.others ho hu] at h; cases h
      case chkf => intro h _; exact .inr (Nat.le_trans ((hi.u u).chk h).1 (fence_cur_sc _ _ _))
      case rcsf =>
        intro h _
        rcases hb.rcsw h hwf with h | h
        · exact Nat.le_trans h (fence_cur_sc _ _ _)
        · exact Nat.le_trans h (fence_cur_acq _ _ _)
      case rcsc => intro _; rfl
      all_goals (intro _ h; cases h)
  | wchk t i =>
    simp only [step] at hs
    cases hp : (s.ts t).pc <;> simp only [hp] at hs <;> try (cases hs; done)
    next tr =>
    have hut := hi.u t
    have ho : (s.ts t).pc.own = true := by rw [hp]; rfl
    have hf : (s.ts t).pc.fen = true := by rw [hp]; rfl
    have hq : ∀ x, s.mem.top (.usr x) ≤ s.base x :=
      hi.quiet (hall (by rw [hp]; rfl) fun u hu => crit_false (hi.others ho hu))
    split at hs
    · next hm =>
      obtain ⟨hm1, hm2⟩ := hm
      have hcl := Th.load_cur_le (s.ts t).th s.mem .readers i
      split at hs
      · next hv =>
        cases hs
        simp only [opt, real, if_true]
        have hca : ∀ x, (s.ts t).th.cur x ≤ (((s.ts t).th.load s.mem .readers i).fenceAcq).cur x := fun x =>
          Nat.le_trans (hcl x) (le_join_left _ _ _)
        have hno : ∀ u, (s.ts u).pc.reg = true → ¬ (s.ts u).ri ≤ (s.ts t).th.cur .readers := fun u hu h =>
          ((hi.u u).reg hu).2 i (Nat.le_trans h hm1) hm2 hv
        refine hi.mk' hi.g ?_ (fun u _ => hi.u u) (fun u hu => ?_) (fun u hu => ?_) bo
          (fun h => by cases h) (fun h => by cases h) (by rw [hp]; rfl)
        · constructor
          case own => intro _; exact hut.own ho
          case fen => intro _; exact ⟨(hut.fen hf).1, fun x => Nat.le_trans ((hut.fen hf).2 x) (hca _)⟩
          case crit => intro _ x; exact Nat.le_trans (hq x) (Nat.le_trans ((hut.fen hf).2 x) (hca _))
          all_goals (intro h; cases h)
        · constructor
          case own => intro _; exact hi.others ho hu
          all_goals (intro h; cases h)
        · have hb := hi.b u t hu
          have hreg : (s.ts u).pc.chk = true → (s.ts u).pc.reg = true := by
            cases (s.ts u).pc <;> intro h <;> first | rfl | cases h
          have hleft : (s.ts u).pc.chk = true → s.wi ≤ (s.ts u).th.cur .writer := fun h =>
            (hb.chkf h hf).resolve_right (hno u (hreg h))
          have hrcs : (s.ts u).pc = .rcs → False := fun h => hno u (by rw [h]; rfl) (hb.rcsf h hf)
          constructor
          case own => intro h; rw [hi.others ho hu] at h; cases h
          case chkf => intro h _; exact .inl (hleft h)
          case chkc => intro h _; exact hleft h
          all_goals (intro h; exact (hrcs h).elim)
      · cases hs
        obtain ⟨p, hpp⟩ : ∃ p, p = (if tr then PC.wback else PC.wchk tr) := ⟨_, rfl⟩
        have hpo : p.own = true ∧ p.fen = true ∧ p.chk = false ∧ p ≠ .rcs ∧ p ≠ .wdg ∧ p.reg = false ∧ p.crit = false ∧
            p.wfen = false ∧ p.rfen = false := by
          cases tr <;> simp [hpp, PC.own, PC.fen, PC.chk, PC.reg, PC.crit, PC.wfen, PC.rfen]
        obtain ⟨p1, p2, p3, p4, p5, p6, p7, p8, p9⟩ := hpo
        rw [← hpp]
        refine hi.mk' hi.g ?_ (fun u _ => hi.u u) (fun u hu => ?_) (fun u hu => ?_) bo
          (fun h => by rw [p1] at h; cases h) (fun _ _ => hq) (by rw [hp, p6]; rfl)
        · constructor
          case own => intro _; exact hut.own ho
          case fen => intro _; exact ⟨(hut.fen hf).1, fun x => Nat.le_trans ((hut.fen hf).2 x) (hcl _)⟩
          case rcs => intro h; exact absurd h p4
          case wdg => intro h; exact absurd h p5
          all_goals (intro h; simp only [p3, p6, p7, p8, p9] at h; cases h)
        · constructor
          case own => intro _; exact hi.others ho hu
          case chkf => intro h; rw [p3] at h; cases h
          case chkc => intro h; rw [p3] at h; cases h
          all_goals (intro h; exact absurd h p4)
        · have hb := hi.b u t hu
          constructor
          case own => intro h; rw [hi.others ho hu] at h; cases h
          case chkf => intro h _; exact (hb.chkf h hf).imp_right fun h => Nat.le_trans h (hcl _)
          case chkc => intro _ h; rw [p7] at h; cases h
          case rcsf => intro h _; exact Nat.le_trans (hb.rcsf h hf) (hcl _)
          case rcsw => intro _ h; rw [p8] at h; cases h
          case rcsc => intro _; exact p7
    · cases hs
  | wback t =>
    simp only [step] at hs
    split at hs
    · next hp =>
      cases hs
      simp only [opt, real, if_true]
      have hut := hi.u t
      have ho : (s.ts t).pc.own = true := by rw [hp]; rfl
      have hf : (s.ts t).pc.fen = true := by rw [hp]; rfl
      have hle := hi.g.le
      have hrel : ∀ x, (s.ts t).th.cur x ≤ (Th.fenceRel (s.ts t).th).rel x := fun x => le_join_right _ _ _
      refine hi.mk' ?_ (U.neutral rfl) (fun u hu => ?_) (fun u hu => B.left rfl rfl (by simp)) (fun u _ => B.right rfl) bo
        (fun _ _ => last_store _ _ _ _) (fun _ h x => ?_) ?_
      · refine ⟨by simp only [Mem.store_top, if_true]; omega, fun i h3 h4 => ?_, fun i x h3 h4 => ?_, hi.g.top⟩
        · rw [Mem.store_old (by omega)]; exact hi.g.val i h3 h4
        · simp only [Mem.store_top, if_true] at h4
          by_cases hj : i ≤ s.mem.top .writer
          · rw [Mem.store_old hj]; exact hi.g.view i x h3 hj
          · rw [Mem.store_at _ _ (by omega)]
            simp only
            rw [upd_ne _ _ (by simp)]
            exact Nat.le_trans ((hut.fen hf).2 x) (hrel _)
      · have hb := hi.b u t hu
        exact (hi.u u).w0 (hi.others ho hu) (fun h => .inr (Nat.le_trans (hb.rcsf h hf) (hrel _)))
          (fun h => ((hi.u u).chk h).2) (fun h => ((hi.u u).rcs h).2)
      · simp only [Mem.store_top]
        rw [if_neg (by simp)]
        exact hi.quiet (hall (by rw [hp]; rfl) h) x
      · rw [last_store_ne _ _ _ (by simp), hp]; rfl
    · cases hs
  | wunlock t =>
    simp only [step] at hs
    split at hs
    · next hp => cases hs; exact inv_release hi (by rw [hp]; rfl) (.inl rfl) (by rw [hp]; rfl) (fun h => by cases h)
    · cases hs
  | wdown t =>
    simp only [step] at hs
    split at hs
    · next hp =>
      cases hs
      have hut := hi.u t
      have ho : (s.ts t).pc.own = true := by rw [hp]; rfl
      have hf : (s.ts t).pc.fen = true := by rw [hp]; rfl
      have hc : (s.ts t).pc.crit = true := by rw [hp]; rfl
      refine hi.mk' (hi.g.nr _ _) ?_ (fun u _ => (hi.u u).nr _ fun _ => by omega) (fun u hu => ?_) (fun u hu => ?_) bo
        (fun h => by cases h) (fun h => by cases h) ?_
      · constructor
        case reg =>
          intro _
          simp only [Mem.rmw_top, if_true]
          refine ⟨Nat.le_refl _, fun j h1 h2 => ?_⟩
          rw [Mem.rmw_at _ _ (by omega)]
          simp
        case own =>
          intro _
          obtain ⟨h1, h2⟩ := hut.own ho
          refine ⟨h1, fun j h3 h4 => ?_⟩
          rw [Mem.rmw_ne _ (by simp)]
          exact h2 j h3 h4
        case fen =>
          intro _
          exact ⟨(hut.fen hf).1, fun x => Nat.le_trans ((hut.fen hf).2 x) (rmw_cur_le _ _ (by simp))⟩
        case crit => intro _ x; exact Nat.le_trans (hut.crit hc x) (rmw_cur_le _ _ (by simp))
        case wdg => intro _; simp only; rw [rmw_cur_at]
        all_goals (intro h; cases h)
      · constructor
        case own => intro _; exact hi.others ho hu
        all_goals (intro h; cases h)
      · have hb := hi.b u t hu
        have hrcs : (s.ts u).pc = .rcs → False := fun h => by have := hb.rcsc h; rw [hc] at this; cases this
        constructor
        case own => intro h; rw [hi.others ho hu] at h; cases h
        case chkf => intro h _; exact .inl (hb.chkc h hc)
        case chkc => intro h _; exact hb.chkc h hc
        all_goals (intro h; exact (hrcs h).elim)
      · rw [last_rmw, hp]; rfl
    · cases hs
  | wdg t =>
    simp only [step] at hs
    split at hs
    · next hp => cases hs; exact inv_release hi (by rw [hp]; rfl) (.inr rfl) (by rw [hp]; rfl) (fun _ => hp)
    · cases hs
  | read t x i =>
    simp only [step] at hs
    split at hs
    · cases hs; exact learn t _ i
    · cases hs
  | write t x v =>
    simp only [step] at hs
    split at hs
    · next hp =>
      cases hs
      have hut := hi.u t
      have ho : (s.ts t).pc.own = true := by rw [hp]; rfl
      have hf : (s.ts t).pc.fen = true := by rw [hp]; rfl
      have hc : (s.ts t).pc.crit = true := by rw [hp]; rfl
      have hst : ∀ y, y ≠ Loc.usr x → ((s.ts t).th.store s.mem (.usr x)).cur y = (s.ts t).th.cur y := fun y hy => by
        simp only [Th.store]; rw [upd_ne _ _ hy]
      refine hi.mk' ?_ ?_ (fun u hu => (hi.u u).us _ _ _ (crit_false (hi.others ho hu))) (fun u hu => ?_) (fun u hu => ?_) bo
        (fun h => by simp only at h; rw [ho] at h; cases h) (fun h => by simp only at h; rw [hc] at h; cases h) ?_
      · refine ⟨hi.g.le, fun i h1 h2 => ?_, fun i y h1 h2 => ?_, fun y => ?_⟩
        · rw [Mem.store_ne _ (by simp)]; exact hi.g.val i h1 h2
        · rw [Mem.store_ne _ (by simp)]; exact hi.g.view i y h1 h2
        · exact Nat.le_trans (hi.g.top y) (Mem.store_top_le _ _ _ _ _)
      · constructor
        case own =>
          intro _
          obtain ⟨h1, h2⟩ := hut.own ho
          refine ⟨h1, fun j h3 h4 => ?_⟩
          rw [Mem.store_ne _ (by simp)]
          exact h2 j h3 h4
        case fen =>
          intro _
          refine ⟨(hut.fen hf).1, fun y => ?_⟩
          simp only [Th.store, upd_apply]
          split
          · next e => have := hi.g.top y; rw [← e]; omega
          · exact (hut.fen hf).2 y
        case crit =>
          intro _ y
          simp only [Th.store, upd_apply, Mem.store_top]
          split
          · exact Nat.le_refl _
          · exact hut.crit hc y
        all_goals (intro h; simp only [hp] at h; cases h)
      · constructor
        case own => intro _; exact hi.others ho hu
        all_goals (intro h; simp only [hp] at h; cases h)
      · have hb := hi.b u t hu
        have hrcs : (s.ts u).pc = .rcs → False := fun h => by have := hb.rcsc h; rw [hc] at this; cases this
        constructor
        case own => intro h; rw [hi.others ho hu] at h; cases h
        case chkf => intro h _; exact .inl (hb.chkc h hc)
        case chkc => intro h _; exact hb.chkc h hc
        all_goals (intro h; exact (hrcs h).elim)
      · rw [last_store_ne _ _ _ (by simp)]
    · cases hs

theorem inv_reach {s : St n} (h : (sys real n).Reach s) : Inv s := by
  refine h.invariant (I := Inv) ?_ (fun _ _ _ hi hs => inv_step hi hs)
  rintro s rfl
  refine ⟨⟨⟨Nat.le_refl _, Nat.le_refl _, Nat.le_refl _⟩, fun i _ h => absurd h (Nat.not_lt_zero i),
    fun _ _ _ _ => Nat.zero_le _, fun _ => Nat.zero_le _⟩, fun t => U.neutral rfl, fun t u _ => B.right rfl, fun _ => rfl,
    fun _ _ => Nat.zero_le _, ?_⟩
  exact (cnt_zero_of fun _ => rfl).symm

/-! ## Properties -/

/-- C73: while a thread is in a write section, no other thread is in a read or write section. -/
theorem exclusion {s : St n} (h : (sys real n).Reach s) {t u : Fin n} (hne : t ≠ u) (ht : (s.ts t).pc = .wcs) :
    (s.ts u).pc ≠ .wcs ∧ (s.ts u).pc ≠ .rcs := by
  have hi := inv_reach h
  refine ⟨fun hu => ?_, fun hu => ?_⟩
  · have := (hi.b t u hne).own (by rw [ht]; rfl)
    rw [hu] at this
    cases this
  · have := (hi.b u t (Ne.symm hne)).rcsc hu
    rw [ht] at this
    cases this

/-- C73: whatever a thread loads in a read or write section is the value stored last, by whichever thread. -/
theorem reads_last {s s' : St n} (h : (sys real n).Reach s) {t : Fin n} {x i : Nat}
    (hs : (sys real n).step s (.read t x i) = some s') : (s.mem.msg (.usr x) i).val = s.mem.last (.usr x) := by
  have hi := inv_reach h
  simp only [sys, step] at hs
  split at hs
  · next hc =>
    obtain ⟨hp, hm1, hm2⟩ := hc
    have : s.mem.top (.usr x) ≤ (s.ts t).th.cur (.usr x) := by
      rcases hp with hp | hp
      · refine Nat.le_trans (hi.quiet (fun u => ?_) x) (((hi.u t).rcs hp).2 x)
        by_cases hu : u = t
        · subst hu; rw [hp]; rfl
        · exact (hi.b t u (Ne.symm hu)).rcsc hp
      · exact (hi.u t).crit (by rw [hp]; rfl) x
    have : i = s.mem.top (.usr x) := Nat.le_antisymm hm2 (Nat.le_trans this hm1)
    rw [Mem.last, this]
  · cases hs

/-- C73: `n_readers` never exceeds the number of threads, so it does not overflow. -/
theorem readers_le {s : St n} (h : (sys real n).Reach s) : s.mem.last .readers ≤ n := by
  rw [(inv_reach h).cnt]
  exact cnt_le _ _

/-! ## The fences are needed -/

/-- A run after which a reader (thread 0) and a writer (thread 1) are in their sections. -/
def both (fc : Fences) (as : List (Act 2)) : Bool :=
  match (sys fc 2).run (initSt 2) as with
  | some s => decide ((s.ts 0).pc = .rcs ∧ (s.ts 1).pc = .wcs)
  | none => false

/-- A run after which a reader (thread 0) may load the initial value of a word the writer has set to 5. -/
def stale (fc : Fences) (as : List (Act 2)) : Bool :=
  match (sys fc 2).run (initSt 2) as with
  | some s => decide ((s.ts 0).pc = .rcs ∧ (s.ts 0).th.may s.mem (.usr 0) 0 ∧ s.mem.last (.usr 0) = 5)
  | none => false

theorem no_fence_rd : both { real with rd := false }
    [.rcall 0 false, .rlook 0 0, .wcall 1 false, .wfas 1, .wfence 1, .wchk 1 0, .rinc 0, .rfence 0, .rchk 0 0] = true := by
  decide +kernel

theorem no_fence_wr : both { real with wr := false }
    [.rcall 0 false, .rlook 0 0, .rinc 0, .rfence 0, .rchk 0 0, .wcall 1 false, .wfas 1, .wfence 1, .wchk 1 0] = true := by
  decide +kernel

theorem no_fence_rd_acquire : stale { real with rdAcq := false }
    [.wcall 1 false, .wfas 1, .wfence 1, .wchk 1 0, .write 1 0 5, .rcall 0 false, .rlook 0 0, .rinc 0, .rfence 0, .wunlock 1,
      .rchk 0 2] = true := by decide +kernel

theorem no_fence_unlock : stale { real with unlock := false }
    [.wcall 1 false, .wfas 1, .wfence 1, .wchk 1 0, .write 1 0 5, .wunlock 1, .rcall 0 false, .rlook 0 2, .rinc 0, .rfence 0,
      .rchk 0 2] = true := by decide +kernel

/-! ## A run -/

/-- Thread 1 writes 5, downgrades; thread 0 joins it as a reader and loads 5; both leave; a trylock of thread 0 succeeds. -/
def sample : List (Act 2) :=
  [.wcall 1 false, .wfas 1, .wfence 1, .wchk 1 0, .write 1 0 5, .wdown 1, .wdg 1, .rcall 0 false, .rlook 0 2, .rinc 0, .rfence 0,
    .rchk 0 2, .read 0 0 1, .runlock 1, .runlock 0, .wcall 0 true, .wfas 0, .wfence 0, .wchk 0 4, .write 0 0 6]

theorem sample_run : ((sys real 2).run (initSt 2) sample).map (fun s => (s.mem.last (.usr 0), s.mem.last .readers, (s.ts 0).pc)) =
    some (6, 0, PC.wcs) := by decide +kernel

example : ∃ s : St 2, (sys real 2).Reach s ∧ (s.ts 0).pc = .wcs ∧ s.mem.last (.usr 0) = 6 := by
  cases hr : (sys real 2).run (initSt 2) sample with
  | none => have h := sample_run; rw [hr] at h; cases h
  | some s =>
    have h := sample_run
    rw [hr] at h
    simp only [Option.map_some, Option.some.injEq, Prod.mk.injEq] at h
    exact ⟨s, Sys.Reach.of_run (.init rfl) hr, h.2.2, h.1⟩

end Verif.Weak.Rwlock
