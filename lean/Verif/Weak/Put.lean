import Verif.Weak.Fas

/-!
# A store, or the store of a read-modify-write operation
-/

namespace Verif.Weak

open Verif

variable {L V : Type} [DecidableEq L]

/-- `m'` is `m` after a store of `v` to `l` with view `w`. -/
structure Put (m m' : Mem L V) (l : L) (v : V) (w : View L) : Prop where
  top : ∀ y, m'.top y = if y = l then m.top l + 1 else m.top y
  old : ∀ y i, i ≤ m.top y → m'.msg y i = m.msg y i
  new : m'.msg l (m.top l + 1) = { val := v, view := w }

theorem Put.store (m : Mem L V) (t : Th L) (l : L) (v : V) : Put m (m.store t l v) l v (upd t.rel l (m.top l + 1)) :=
  ⟨Mem.store_top m t l v, fun _ _ h => Mem.store_old h, Mem.store_new m t l v⟩

theorem Put.rmw (m : Mem L V) (t : Th L) (l : L) (v : V) :
    Put m (m.rmw t l v) l v (upd (join t.rel (m.msg l (m.top l)).view) l (m.top l + 1)) :=
  ⟨Mem.rmw_top m t l v, fun _ _ h => Mem.rmw_old h, Mem.rmw_new m t l v⟩

theorem Put.last {m m' : Mem L V} {l : L} {v : V} {w : View L} (h : Put m m' l v w) (y : L) :
    m'.last y = if y = l then v else m.last y := by
  simp only [Mem.last, h.top]
  split
  · next e => subst e; rw [h.new]
  · rw [h.old _ _ (Nat.le_refl _)]

theorem Put.top_ne {m m' : Mem L V} {l : L} {v : V} {w : View L} (h : Put m m' l v w) {y : L} (hy : y ≠ l) : m'.top y = m.top y := by
  rw [h.top, if_neg hy]

theorem Put.top_le {m m' : Mem L V} {l : L} {v : V} {w : View L} (h : Put m m' l v w) (y : L) : m.top y ≤ m'.top y := by
  rw [h.top]
  split
  · next e => subst e; omega
  · exact Nat.le_refl _

/-- The newest value of another location is the same. -/
theorem Put.msg_ne {m m' : Mem L V} {l : L} {v : V} {w : View L} (h : Put m m' l v w) {y : L} (hy : y ≠ l) :
    m'.msg y (m'.top y) = m.msg y (m.top y) := by
  rw [h.top_ne hy, h.old _ _ (Nat.le_refl _)]

theorem Put.msg_at {m m' : Mem L V} {l : L} {v : V} {w : View L} (h : Put m m' l v w) :
    m'.msg l (m'.top l) = { val := v, view := w } := by
  rw [h.top, if_pos rfl, h.new]

/-- From value `k` on, all values but the newest satisfy `P`. -/
def From (m : Mem L V) (l : L) (k : Nat) (P : V → Prop) : Prop := ∀ i, k ≤ i → i < m.top l → P (m.msg l i).val

omit [DecidableEq L] in
theorem From.mono {m : Mem L V} {l : L} {k k' : Nat} {P : V → Prop} (h : From m l k P) (hk : k ≤ k') : From m l k' P :=
  fun i hi => h i (Nat.le_trans hk hi)

omit [DecidableEq L] in
theorem From.of_top {m : Mem L V} {l : L} {k : Nat} {P : V → Prop} (h : m.top l ≤ k) : From m l k P :=
  fun i hi hi' => absurd hi' (by omega)

theorem From.put {m m' : Mem L V} {l x : L} {v : V} {w : View L} {k : Nat} {P : V → Prop} (hp : Put m m' l v w) (h : From m x k P)
    (hl : l = x → P (m.last l)) : From m' x k P := by
  intro i hi hi'
  by_cases e : x = l
  · subst e
    rw [hp.top, if_pos rfl] at hi'
    rw [hp.old _ _ (by omega)]
    by_cases e' : i = m.top x
    · subst e'; exact hl rfl
    · exact h i hi (by omega)
  · rw [hp.top_ne e] at hi'
    rw [hp.old _ _ (by omega)]
    exact h i hi hi'

omit [DecidableEq L] in
/-- A load that finds the contrary has found the newest value. -/
theorem From.eq_top {m : Mem L V} {l : L} {k i : Nat} {P : V → Prop} (h : From m l k P) (hk : k ≤ i) (hi : i ≤ m.top l)
    (hn : ¬ P (m.msg l i).val) : i = m.top l := by
  refine Decidable.byContradiction fun hne => hn (h i hk ?_)
  omega

theorem Th.store_cur_le (q : Th L) (m : Mem L V) (l : L) {y : L} (h : y ≠ l) : q.cur y ≤ (q.store m l).cur y := by
  simp only [Th.store, upd_ne _ _ h]; exact Nat.le_refl _

theorem Th.rmw_cur_le (q : Th L) (m : Mem L V) (l : L) {y : L} (h : y ≠ l) : q.cur y ≤ (q.rmw m l).cur y :=
  Nat.le_trans (Th.load_cur_le _ _ _ _ _) (Th.store_cur_le _ m l h)

end Verif.Weak
