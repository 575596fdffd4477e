import Verif.Core.Sys

/-!
# Relaxed memory

A memory without order between accesses to different locations, except where a fence asks for it: the relaxed memory order
`CK_MD_RMO` of `include/ck_pr.h`, lines 97-119 ("only stores to the same location have a global ordering").  Each location
keeps all values ever stored to it, in the order of the stores.  A thread has a view: for each location the
oldest value it may still load.  A load may return any value that is not older, so loads to different locations may seem
to happen early and stores late.  Views are passed on with the stored values, in both cases only through fences:

* `ck_pr_fence_load`: what the loads before have learned bounds the loads after;
* `ck_pr_fence_store`: the stores before are known to whoever learns of a store after (and fences loads);
* `ck_pr_fence_acquire`, `ck_pr_fence_lock`: as `ck_pr_fence_load`;
* `ck_pr_fence_release`, `ck_pr_fence_unlock`: as `ck_pr_fence_store`, also for what the loads before have returned;
* `ck_pr_fence_memory`, `ck_pr_fence_store_load`, `ck_pr_fence_atomic_load`: both, and totally ordered among themselves.

A read-modify-write operation reads the newest value and passes on the view of that value (a release sequence), it is not a
fence.  This is the view-based operational model of C11 relaxed accesses and fences.  It does not let a load return
a value that depends on a later store of the same thread (load buffering), and it takes stores to one location that race
with each other in the order of execution.
-/

namespace Verif.Weak

/-- For each location, the index of a value. -/
abbrev View (L : Type) := L → Nat

def join {L : Type} (a b : View L) : View L := fun x => max (a x) (b x)

theorem le_join_left {L : Type} (a b : View L) (x : L) : a x ≤ join a b x := Nat.le_max_left _ _

theorem le_join_right {L : Type} (a b : View L) (x : L) : b x ≤ join a b x := Nat.le_max_right _ _

theorem join_le {L : Type} {a b : View L} {x : L} {k : Nat} (h1 : a x ≤ k) (h2 : b x ≤ k) : join a b x ≤ k :=
  Nat.max_le.2 ⟨h1, h2⟩

theorem join_apply {L : Type} (a b : View L) (x : L) : join a b x = max (a x) (b x) := rfl

/-- A value that was stored, with the view that goes with it. -/
structure Msg (L V : Type) where
  val : V
  view : View L

/-- `top x` is the index of the newest value of `x`, `msg x 0` the initial one. -/
structure Mem (L V : Type) where
  top : L → Nat
  msg : L → Nat → Msg L V

/-- What a thread knows. -/
structure Th (L : Type) where
  /-- the oldest value it may load -/
  cur : View L
  /-- what its loads have learned -/
  acq : View L
  /-- its own stores -/
  wr : View L
  /-- passed on with its stores -/
  rel : View L

variable {L V : Type} [DecidableEq L]

def Th.init : Th L := { cur := fun _ => 0, acq := fun _ => 0, wr := fun _ => 0, rel := fun _ => 0 }

def Mem.init (v : L → V) : Mem L V := { top := fun _ => 0, msg := fun x _ => { val := v x, view := fun _ => 0 } }

/-- Whether a load of `x` may return value `i`. -/
def Th.may (t : Th L) (m : Mem L V) (x : L) (i : Nat) : Prop := t.cur x ≤ i ∧ i ≤ m.top x

instance (t : Th L) (m : Mem L V) (x : L) (i : Nat) : Decidable (t.may m x i) := by unfold Th.may; infer_instance

/-- After a load of `x` that returned value `i`. -/
def Th.load (t : Th L) (m : Mem L V) (x : L) (i : Nat) : Th L :=
  { t with cur := join t.cur (upd (fun _ => 0) x i), acq := join t.acq (join (m.msg x i).view (upd (fun _ => 0) x i)) }

/-- After a store to `x`. -/
def Th.store (t : Th L) (m : Mem L V) (x : L) : Th L :=
  { t with cur := upd t.cur x (m.top x + 1), wr := upd t.wr x (m.top x + 1) }

/-- A store to `x`. -/
def Mem.store (m : Mem L V) (t : Th L) (x : L) (v : V) : Mem L V :=
  { top := upd m.top x (m.top x + 1)
    msg := upd m.msg x (upd (m.msg x) (m.top x + 1) { val := v, view := upd t.rel x (m.top x + 1) }) }

/-- The newest value, which a read-modify-write operation reads. -/
def Mem.last (m : Mem L V) (x : L) : V := (m.msg x (m.top x)).val

/-- The store of a read-modify-write operation. -/
def Mem.rmw (m : Mem L V) (t : Th L) (x : L) (v : V) : Mem L V :=
  { top := upd m.top x (m.top x + 1)
    msg := upd m.msg x (upd (m.msg x) (m.top x + 1)
      { val := v, view := upd (join t.rel (m.msg x (m.top x)).view) x (m.top x + 1) }) }

/-- After a read-modify-write operation on `x`. -/
def Th.rmw (t : Th L) (m : Mem L V) (x : L) : Th L := (t.load m x (m.top x)).store m x

def Th.fenceLoad (t : Th L) : Th L := { t with cur := join t.cur t.acq }

def Th.fenceStore (t : Th L) : Th L := { t with rel := join t.rel t.wr }

def Th.fenceAcq (t : Th L) : Th L := t.fenceLoad

def Th.fenceRel (t : Th L) : Th L := { t with rel := join t.rel t.cur }

/-- `sc` is what the full fences before have seen. -/
def Th.fence (t : Th L) (sc : View L) : Th L :=
  { t with
    cur := join (join t.cur t.acq) sc, acq := join (join t.cur t.acq) sc, rel := join (join t.cur t.acq) sc }

/-- `sc` after a full fence. -/
def Th.fenceSc (t : Th L) (sc : View L) : View L := join (join t.cur t.acq) sc

theorem Mem.store_top (m : Mem L V) (t : Th L) (x : L) (v : V) (y : L) :
    (m.store t x v).top y = if y = x then m.top x + 1 else m.top y := rfl

theorem Mem.store_ne {m : Mem L V} {t : Th L} {x y : L} {v : V} (i : Nat) (h : y ≠ x) :
    (m.store t x v).msg y i = m.msg y i := by
  simp only [Mem.store, upd_ne _ _ h]

theorem Mem.store_old {m : Mem L V} {t : Th L} {x : L} {v : V} {y : L} {i : Nat} (h : i ≤ m.top y) :
    (m.store t x v).msg y i = m.msg y i := by
  by_cases hy : y = x
  · subst hy
    simp only [Mem.store, upd_same]
    rw [upd_ne _ _ (by omega)]
  · exact Mem.store_ne i hy

theorem Mem.store_new (m : Mem L V) (t : Th L) (x : L) (v : V) :
    (m.store t x v).msg x (m.top x + 1) = { val := v, view := upd t.rel x (m.top x + 1) } := by
  simp only [Mem.store, upd_same]

theorem Mem.store_at (m : Mem L V) (t : Th L) {x : L} {v : V} {i : Nat} (h : i = m.top x + 1) :
    (m.store t x v).msg x i = { val := v, view := upd t.rel x i } := by
  subst h; exact Mem.store_new m t x v

theorem Mem.rmw_top (m : Mem L V) (t : Th L) (x : L) (v : V) (y : L) :
    (m.rmw t x v).top y = if y = x then m.top x + 1 else m.top y := rfl

theorem Mem.rmw_ne {m : Mem L V} {t : Th L} {x y : L} {v : V} (i : Nat) (h : y ≠ x) :
    (m.rmw t x v).msg y i = m.msg y i := by
  simp only [Mem.rmw, upd_ne _ _ h]

theorem Mem.rmw_old {m : Mem L V} {t : Th L} {x : L} {v : V} {y : L} {i : Nat} (h : i ≤ m.top y) :
    (m.rmw t x v).msg y i = m.msg y i := by
  by_cases hy : y = x
  · subst hy
    simp only [Mem.rmw, upd_same]
    rw [upd_ne _ _ (by omega)]
  · exact Mem.rmw_ne i hy

theorem Mem.rmw_new (m : Mem L V) (t : Th L) (x : L) (v : V) :
    (m.rmw t x v).msg x (m.top x + 1) =
      { val := v, view := upd (join t.rel (m.msg x (m.top x)).view) x (m.top x + 1) } := by
  simp only [Mem.rmw, upd_same]

theorem Mem.rmw_at (m : Mem L V) (t : Th L) {x : L} {v : V} {i : Nat} (h : i = m.top x + 1) :
    (m.rmw t x v).msg x i = { val := v, view := upd (join t.rel (m.msg x (m.top x)).view) x i } := by
  subst h; exact Mem.rmw_new m t x v

theorem Th.load_cur_le (t : Th L) (m : Mem L V) (x : L) (i : Nat) (y : L) : t.cur y ≤ (t.load m x i).cur y :=
  le_join_left _ _ _

theorem Th.load_acq_le (t : Th L) (m : Mem L V) (x : L) (i : Nat) (y : L) : t.acq y ≤ (t.load m x i).acq y :=
  le_join_left _ _ _

theorem Th.load_view_le (t : Th L) (m : Mem L V) (x : L) (i : Nat) (y : L) :
    (m.msg x i).view y ≤ (t.load m x i).acq y :=
  Nat.le_trans (le_join_left _ _ _) (le_join_right _ _ _)

theorem Th.load_at (t : Th L) (m : Mem L V) (x : L) (i : Nat) : i ≤ (t.load m x i).cur x := by
  refine Nat.le_trans ?_ (le_join_right _ _ _)
  simp

theorem Th.load_at_acq (t : Th L) (m : Mem L V) (x : L) (i : Nat) : i ≤ (t.load m x i).acq x := by
  refine Nat.le_trans (Nat.le_trans ?_ (le_join_right _ _ _)) (le_join_right _ _ _)
  simp

/-! ## Views never point beyond the newest value -/

def Th.Wf (t : Th L) (m : Mem L V) : Prop :=
  ∀ y, t.cur y ≤ m.top y ∧ t.acq y ≤ m.top y ∧ t.wr y ≤ m.top y ∧ t.rel y ≤ m.top y

def Mem.Wf (m : Mem L V) : Prop := ∀ x i y, i ≤ m.top x → (m.msg x i).view y ≤ m.top y

omit [DecidableEq L] in
theorem Th.Wf.init (v : L → V) : (Th.init : Th L).Wf (Mem.init v) :=
  fun _ => ⟨Nat.le_refl _, Nat.le_refl _, Nat.le_refl _, Nat.le_refl _⟩

omit [DecidableEq L] in
theorem Mem.Wf.init (v : L → V) : (Mem.init v).Wf := fun _ _ _ _ => Nat.zero_le _

theorem Mem.store_top_le (m : Mem L V) (t : Th L) (x : L) (v : V) (y : L) : m.top y ≤ (m.store t x v).top y := by
  rw [Mem.store_top]
  split
  · next h => subst h; omega
  · exact Nat.le_refl _

theorem Mem.rmw_top_le (m : Mem L V) (t : Th L) (x : L) (v : V) (y : L) : m.top y ≤ (m.rmw t x v).top y :=
  Mem.store_top_le m t x v y

omit [DecidableEq L] in
/-- Only the newest values matter. -/
theorem Th.Wf.mono {t : Th L} {m m' : Mem L V} (h : t.Wf m) (hm : ∀ y, m.top y ≤ m'.top y) : t.Wf m' := fun y => by
  have := h y
  have := hm y
  omega

theorem Th.Wf.load {t : Th L} {m : Mem L V} (h : t.Wf m) (hm : m.Wf) {x : L} {i : Nat} (hi : i ≤ m.top x) :
    (t.load m x i).Wf m := fun y => by
  have h1 := h y
  have h2 := hm x i y hi
  have h3 : upd (fun _ => 0) x i y ≤ m.top y := by
    rw [upd_apply]
    split
    · next h => subst h; exact hi
    · exact Nat.zero_le _
  exact ⟨join_le h1.1 h3, join_le h1.2.1 (join_le h2 h3), h1.2.2.1, h1.2.2.2⟩

theorem Th.Wf.store {t u : Th L} {m : Mem L V} (h : t.Wf m) (x : L) (v : V) : (t.store m x).Wf (m.store u x v) := fun y => by
  have h1 := h y
  have h2 := Mem.store_top_le m u x v y
  refine ⟨?_, by simp only [Th.store]; omega, ?_, by simp only [Th.store]; omega⟩
  · simp only [Th.store, upd_apply]
    split
    · next e => subst e; rw [Mem.store_top, if_pos rfl]; exact Nat.le_refl _
    · omega
  · simp only [Th.store, upd_apply]
    split
    · next e => subst e; rw [Mem.store_top, if_pos rfl]; exact Nat.le_refl _
    · omega

theorem Mem.Wf.store {m : Mem L V} (hm : m.Wf) {t : Th L} (h : t.Wf m) (x : L) (v : V) : (m.store t x v).Wf := by
  intro z i y hi
  by_cases ho : i ≤ m.top z
  · rw [Mem.store_old ho]
    exact Nat.le_trans (hm z i y ho) (Mem.store_top_le _ _ _ _ _)
  · rw [Mem.store_top] at hi
    split at hi
    · next e =>
      subst e
      rw [Mem.store_at _ _ (by omega)]
      simp only [upd_apply, Mem.store_top]
      split
      · omega
      · exact (h y).2.2.2
    · omega

theorem Mem.Wf.rmw {m : Mem L V} (hm : m.Wf) {t : Th L} (h : t.Wf m) (x : L) (v : V) : (m.rmw t x v).Wf := by
  intro z i y hi
  by_cases ho : i ≤ m.top z
  · rw [Mem.rmw_old ho]
    exact Nat.le_trans (hm z i y ho) (Mem.rmw_top_le _ _ _ _ _)
  · rw [Mem.rmw_top] at hi
    split at hi
    · next e =>
      subst e
      rw [Mem.rmw_at _ _ (by omega)]
      simp only [upd_apply, Mem.rmw_top]
      split
      · omega
      · exact join_le (h y).2.2.2 (hm _ _ _ (Nat.le_refl _))
    · omega

theorem Th.Wf.rmw {t u : Th L} {m : Mem L V} (h : t.Wf m) (hm : m.Wf) (x : L) (v : V) : (t.rmw m x).Wf (m.rmw u x v) :=
  ((h.load hm (Nat.le_refl _)).store (u := u) x v).mono fun _ => Nat.le_refl _

omit [DecidableEq L] in
theorem Th.Wf.fenceLoad {t : Th L} {m : Mem L V} (h : t.Wf m) : t.fenceLoad.Wf m := fun y =>
  ⟨join_le (h y).1 (h y).2.1, (h y).2⟩

omit [DecidableEq L] in
theorem Th.Wf.fenceAcq {t : Th L} {m : Mem L V} (h : t.Wf m) : t.fenceAcq.Wf m := h.fenceLoad

omit [DecidableEq L] in
theorem Th.Wf.fenceStore {t : Th L} {m : Mem L V} (h : t.Wf m) : t.fenceStore.Wf m := fun y =>
  ⟨(h y).1, (h y).2.1, (h y).2.2.1, join_le (h y).2.2.2 (h y).2.2.1⟩

omit [DecidableEq L] in
theorem Th.Wf.fenceRel {t : Th L} {m : Mem L V} (h : t.Wf m) : t.fenceRel.Wf m := fun y =>
  ⟨(h y).1, (h y).2.1, (h y).2.2.1, join_le (h y).2.2.2 (h y).1⟩

omit [DecidableEq L] in
theorem Th.Wf.fence {t : Th L} {m : Mem L V} (h : t.Wf m) {sc : View L} (hsc : ∀ y, sc y ≤ m.top y) : (t.fence sc).Wf m :=
  fun y => by
    have := join_le (join_le (h y).1 (h y).2.1) (hsc y)
    exact ⟨this, this, (h y).2.2.1, this⟩

end Verif.Weak
