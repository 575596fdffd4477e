import Verif.Weak.MpFifo
import Verif.Core.Tactic

/-!
# `ck_fifo_mpmc` on relaxed memory: order, what is visible, when nothing is found (C100)

The generation of `head` and `tail` is their position: value `j` of either is entry `ent j`.  `Init w j`: view `w` contains the stores to
the `j`-th entry, and to the object.
-/

namespace Verif.Weak.MpFifo

open Verif
open Fas (opt)

variable {V : Type} [DecidableEq V] {n : Nat}

/-- The part of the state that does not belong to a thread. -/
structure G (V : Type) where
  mem : Mem (Loc V) (W V)
  put : List V
  got : List (Option V)
  ent : Nat → Nat
  dx : Nat → Nat
  free : Nat → Bool

def St.g (s : St V n) : G V := ⟨s.mem, s.put, s.got, s.ent, s.dx, s.free⟩

/-- Index of the stores to an entry before it is enqueued. -/
abbrev G.ix (g : G V) (x : Nat) : Nat := g.mem.top (.val x)

abbrev G.len (g : G V) : Nat := g.put.length

def Init (g : G V) (w : View (Loc V)) (j : Nat) : Prop :=
  g.ix (g.ent j) ≤ w (.next (g.ent j)) ∧ g.ix (g.ent j) ≤ w (.val (g.ent j)) ∧ ∀ i v, j = i + 1 → g.put[i]? = some v → g.dx j ≤ w (.dat v)

structure C (g : G V) : Prop where
  mwf : g.mem.Wf
  inj : ∀ i j, i ≤ g.len → j ≤ g.len → g.ent i = g.ent j → i = j
  fr : ∀ i, i ≤ g.len → g.free (g.ent i) = false
  hl : g.mem.top .head = g.got.length
  hle : g.mem.top .head ≤ g.len
  tle : g.mem.top .tail ≤ g.len
  hm : ∀ j, j ≤ g.mem.top .head → (g.mem.msg .head j).val.p = some (g.ent j) ∧ (g.mem.msg .head j).val.g = j ∧ Init g (g.mem.msg .head j).view j
  tm : ∀ j, j ≤ g.mem.top .tail → (g.mem.msg .tail j).val.p = some (g.ent j) ∧ (g.mem.msg .tail j).val.g = j ∧ Init g (g.mem.msg .tail j).view j
  ln : ∀ i, i < g.len → g.mem.top (.next (g.ent i)) = g.ix (g.ent i) + 1 ∧ (g.mem.msg (.next (g.ent i)) (g.ix (g.ent i) + 1)).val.p = some (g.ent (i + 1))
    ∧ Init g (g.mem.msg (.next (g.ent i)) (g.ix (g.ent i) + 1)).view (i + 1)
  lt : g.mem.top (.next (g.ent g.len)) = g.ix (g.ent g.len)
  nn : ∀ i, i ≤ g.len → (g.mem.msg (.next (g.ent i)) (g.ix (g.ent i))).val.p = none
  vl : ∀ i, i < g.len → (g.mem.msg (.val (g.ent (i + 1))) (g.ix (g.ent (i + 1)))).val.o = g.put[i]?
  gp : ∀ i, i < g.got.length → g.got[i]? = some g.put[i]?
  un : ∀ x, (∀ i, i ≤ g.len → g.ent i ≠ x) → g.mem.top (.next x) = g.ix x

/-- The entry a thread is about to enqueue. -/
def Hold (g : G V) (q : Th (Loc V)) (x : Nat) (v : V) : Prop :=
  g.free x = false ∧ (∀ i, i ≤ g.len → g.ent i ≠ x) ∧ g.mem.top (.next x) = g.ix x ∧ (g.mem.msg (.next x) (g.ix x)).val.p = none ∧ (g.mem.msg (.val x) (g.ix x)).val.o = some v
    ∧ g.ix x ≤ q.rel (.next x) ∧ g.ix x ≤ q.rel (.val x) ∧ q.wr (.dat v) ≤ q.rel (.dat v)

/-- `y` was loaded with view `u` as the successor of entry number `i`. -/
def Nx (g : G V) (u : View (Loc V)) (y i : Nat) : Prop := i < g.len ∧ y = g.ent (i + 1) ∧ Init g u (i + 1) ∧ ∀ l, u l ≤ g.mem.top l

/-- A thread that knows of the first `kn` enqueues. -/
def K (g : G V) (q : Th (Loc V)) (kn i : Nat) : Prop := kn ≤ i ∨ ∃ k, kn = k + 1 ∧ k < g.len ∧ k ≤ q.cur .tail ∧ g.ix (g.ent k) + 1 ≤ q.cur (.next (g.ent k))

def Pc (g : G V) (q : Th (Loc V)) (kn : Nat) : PC V → Prop
  | .eT x v => Hold g q x v
  | .eN x v _ p w => Hold g q x v ∧ ∃ i, i ≤ g.len ∧ p = g.ent i ∧ Init g w i ∧ i ≤ q.cur .tail
  | .eC x v _ p _ r u => Hold g q x v ∧ ∃ i, i ≤ g.len ∧ p = g.ent i ∧ i ≤ q.cur .tail ∧ ∀ y, r = some y → Nx g u y i
  | .eF x _ p => ∃ i, i < g.len ∧ p = g.ent i ∧ x = g.ent (i + 1) ∧ Init g q.rel (i + 1)
  | .dT _ p w => ∃ i, i ≤ g.mem.top .head ∧ i ≤ g.len ∧ p = g.ent i ∧ Init g w i ∧ K g q kn i
  | .dN _ p w _ tp => ∃ i, i ≤ g.mem.top .head ∧ i ≤ g.len ∧ p = g.ent i ∧ Init g w i ∧ (some p = tp → kn ≤ i ∨ kn = i + 1 ∧ g.ix p + 1 ≤ q.cur (.next p))
  | .dF _ p y u => ∃ i, p = g.ent i ∧ Nx g u y i
  | .dV _ p y u => ∃ i, p = g.ent i ∧ Nx g u y i
  | .dC _ p y u v uv => ∃ i, p = g.ent i ∧ Nx g u y i ∧ v = g.put[i]? ∧ ∀ v', v = some v' → g.dx (i + 1) ≤ uv (.dat v')
  | .none => kn ≤ g.mem.top .head
  | _ => True

structure T (g : G V) (q : Th (Loc V)) (pc : PC V) (kn : Nat) (obj : Option (V × View (Loc V) × Nat)) : Prop where
  wf : q.Wf g.mem
  lk : K g q kn (q.cur .head)
  ob : ∀ v u j, obj = some (v, u, j) → ∃ i, j = i + 1 ∧ j ≤ g.got.length ∧ g.put[i]? = some v ∧ g.dx j ≤ u (.dat v)
  pc : Pc g q kn pc

@[simp, grind] def PC.hx : PC V → Option Nat
  | .eT x _ => some x
  | .eN x _ _ _ _ => some x
  | .eC x _ _ _ _ _ _ => some x
  | _ => Option.none

structure Inv (s : St V n) : Prop where
  c : C s.g
  t : ∀ t, T s.g (s.th t) (s.pc t) (s.kn t) (s.obj t)
  u : ∀ t u x, (s.pc t).hx = some x → (s.pc u).hx = some x → t = u

/-! ## The queue grows -/

structure Ext (g g' : G V) : Prop where
  len : g.len ≤ g'.len
  put : ∀ i, i < g.len → g'.put[i]? = g.put[i]?
  got : g.got.length ≤ g'.got.length
  ent : ∀ i, i ≤ g.len → g'.ent i = g.ent i
  dx : ∀ i, i ≤ g.len → g'.dx i = g.dx i
  iv : ∀ i, i ≤ g.len → g'.ix (g.ent i) = g.ix (g.ent i)
  top : ∀ l, g.mem.top l ≤ g'.mem.top l
  old : ∀ l i, i ≤ g.mem.top l → g'.mem.msg l i = g.mem.msg l i

omit [DecidableEq V]

theorem K.ext {g g' : G V} (e : Ext g g') {q : Th (Loc V)} {kn i : Nat} (h : K g q kn i) : K g' q kn i := by
  rcases h with h | ⟨k, h1, h2, h3, h4⟩
  · exact Or.inl h
  · refine Or.inr ⟨k, h1, Nat.lt_of_lt_of_le h2 e.len, h3, ?_⟩
    rw [e.ent k (by omega), e.iv k (by omega)]; exact h4

theorem K.mono {g : G V} {q q' : Th (Loc V)} {kn i i' : Nat} (h : K g q kn i) (hq : ∀ y, q.cur y ≤ q'.cur y) (hi : i ≤ i') : K g q' kn i' := by
  rcases h with h | ⟨k, h1, h2, h3, h4⟩
  · exact Or.inl (Nat.le_trans h hi)
  · exact Or.inr ⟨k, h1, h2, Nat.le_trans h3 (hq _), Nat.le_trans h4 (hq _)⟩

theorem Init.ext {g g' : G V} (e : Ext g g') {w : View (Loc V)} {j : Nat} (hj : j ≤ g.len) (h : Init g w j) : Init g' w j := by
  unfold Init
  rw [e.ent j hj, e.iv j hj, e.dx j hj]
  refine ⟨h.1, h.2.1, fun i v hi hv => h.2.2 i v hi ?_⟩
  rw [← e.put i (by omega)]; exact hv

theorem Init.mono {g : G V} {w w' : View (Loc V)} {j : Nat} (h : Init g w j) (hw : ∀ y, w y ≤ w' y) : Init g w' j :=
  ⟨Nat.le_trans h.1 (hw _), Nat.le_trans h.2.1 (hw _), fun i v hi hv => Nat.le_trans (h.2.2 i v hi hv) (hw _)⟩

theorem Nx.ext {g g' : G V} (e : Ext g g') {u : View (Loc V)} {y i : Nat} (h : Nx g u y i) : Nx g' u y i := by
  obtain ⟨h1, h2, h3, h4⟩ := h
  exact ⟨Nat.lt_of_lt_of_le h1 e.len, by rw [e.ent _ (by omega)]; exact h2, h3.ext e (by omega), fun l => Nat.le_trans (h4 l) (e.top l)⟩

theorem Hold.ext {g g' : G V} (e : Ext g g') {q : Th (Loc V)} {x : Nat} {v : V} (h : Hold g q x v)
    (hf : g'.free x = g.free x) (he : ∀ i, i ≤ g'.len → g'.ent i ≠ x) (hv : g'.ix x = g.ix x) (hn : g'.mem.top (.next x) = g.mem.top (.next x)) : Hold g' q x v := by
  obtain ⟨h1, h2, h3, h4, h5, h6, h7, h8⟩ := h
  unfold Hold
  rw [hf, hv, hn, e.old _ _ (by omega), e.old _ _ (Nat.le_refl _)]
  exact ⟨h1, he, h3, h4, h5, h6, h7, h8⟩

theorem Pc.ext {g g' : G V} (e : Ext g g') {q : Th (Loc V)} {pc : PC V} {kn : Nat} (h : Pc g q kn pc)
    (hx : ∀ x, pc.hx = some x → g'.free x = g.free x ∧ (∀ i, i ≤ g'.len → g'.ent i ≠ x) ∧ g'.ix x = g.ix x ∧ g'.mem.top (.next x) = g.mem.top (.next x)) : Pc g' q kn pc := by
  have hl := e.len
  have ht := e.top .head
  have H : ∀ x v, pc.hx = some x → Hold g q x v → Hold g' q x v := fun x v h1 h2 => h2.ext e (hx x h1).1 (hx x h1).2.1 (hx x h1).2.2.1 (hx x h1).2.2.2
  unfold Pc at h ⊢
  split at h
  · exact H _ _ rfl h
  · obtain ⟨h1, i, h2, h3, h4, h5⟩ := h
    exact ⟨H _ _ rfl h1, i, by omega, by rw [e.ent i h2]; exact h3, h4.ext e h2, h5⟩
  · obtain ⟨h1, i, h2, h3, h4, h5⟩ := h
    exact ⟨H _ _ rfl h1, i, by omega, by rw [e.ent i h2]; exact h3, h4, fun y hy => (h5 y hy).ext e⟩
  · obtain ⟨i, h2, h3, h4, h5⟩ := h
    exact ⟨i, by omega, by rw [e.ent i (by omega)]; exact h3, by rw [e.ent _ (by omega)]; exact h4, h5.ext e (by omega)⟩
  · obtain ⟨i, h1, h2, h3, h4, h5⟩ := h
    exact ⟨i, by omega, by omega, by rw [e.ent i h2]; exact h3, h4.ext e h2, h5.ext e⟩
  · obtain ⟨i, h1, h2, h3, h4, h5⟩ := h
    refine ⟨i, by omega, by omega, by rw [e.ent i h2]; exact h3, h4.ext e h2, ?_⟩
    rw [h3, e.iv i h2, ← h3]; exact h5
  · obtain ⟨i, h1, h2⟩ := h
    have := h2.1
    exact ⟨i, by rw [e.ent i (by omega)]; exact h1, h2.ext e⟩
  · obtain ⟨i, h1, h2⟩ := h
    have := h2.1
    exact ⟨i, by rw [e.ent i (by omega)]; exact h1, h2.ext e⟩
  · obtain ⟨i, h1, h2, h4, h5⟩ := h
    have := h2.1
    refine ⟨i, by rw [e.ent i (by omega)]; exact h1, h2.ext e, by rw [e.put i (by omega)]; exact h4, ?_⟩
    rw [e.dx _ (by omega)]; exact h5
  · exact Nat.le_trans h ht
  · trivial

/-- A step of another thread. -/
theorem T.ext {g g' : G V} (e : Ext g g') {q : Th (Loc V)} {pc : PC V} {kn : Nat} {obj : Option (V × View (Loc V) × Nat)} (hc : g.got.length ≤ g.len) (h : T g q pc kn obj)
    (hx : ∀ x, pc.hx = some x → g'.free x = g.free x ∧ (∀ i, i ≤ g'.len → g'.ent i ≠ x) ∧ g'.ix x = g.ix x ∧ g'.mem.top (.next x) = g.mem.top (.next x)) : T g' q pc kn obj := by
  refine ⟨h.wf.mono e.top, h.lk.ext e, fun v u j hj => ?_, h.pc.ext e hx⟩
  obtain ⟨i, h1, h2, h3, h4⟩ := h.ob v u j hj
  refine ⟨i, h1, Nat.le_trans h2 e.got, by rw [e.put i (by omega)]; exact h3, ?_⟩
  rw [e.dx _ (by omega)]; exact h4

/-- A step that stores only to entries that are not in the queue, and to objects. -/
theorem Ext.other {g : G V} {m' : Mem (Loc V) (W V)} {fr : Nat → Bool} (hv : ∀ i, i ≤ g.len → m'.top (.val (g.ent i)) = g.ix (g.ent i)) (ht : ∀ l, g.mem.top l ≤ m'.top l)
    (ho : ∀ l i, i ≤ g.mem.top l → m'.msg l i = g.mem.msg l i) : Ext g { g with mem := m', free := fr } :=
  ⟨Nat.le_refl _, fun _ _ => rfl, Nat.le_refl _, fun _ _ => rfl, fun _ _ => rfl, hv, ht, ho⟩

theorem C.other {g : G V} (h : C g) {m' : Mem (Loc V) (W V)} {fr : Nat → Bool} (hw : m'.Wf) (hh : m'.top .head = g.mem.top .head) (htl : m'.top .tail = g.mem.top .tail)
    (hv : ∀ i, i ≤ g.len → m'.top (.val (g.ent i)) = g.ix (g.ent i)) (hn : ∀ i, i ≤ g.len → m'.top (.next (g.ent i)) = g.mem.top (.next (g.ent i)))
    (ht : ∀ l, g.mem.top l ≤ m'.top l) (ho : ∀ l i, i ≤ g.mem.top l → m'.msg l i = g.mem.msg l i)
    (hu : ∀ x, (∀ i, i ≤ g.len → g.ent i ≠ x) → m'.top (.next x) = m'.top (.val x)) (hf : ∀ i, i ≤ g.len → fr (g.ent i) = false) :
    C { g with mem := m', free := fr } := by
  have e : Ext g { g with mem := m', free := fr } := Ext.other hv ht ho
  refine ⟨hw, h.inj, hf, hh.trans h.hl, ?_, ?_, fun j hj => ?_, fun j hj => ?_, fun i hi => ?_, ?_, fun i hi => ?_, fun i hi => ?_, h.gp, hu⟩
  · show m'.top .head ≤ _
    rw [hh]; exact h.hle
  · show m'.top .tail ≤ _
    rw [htl]; exact h.tle
  · have hj : j ≤ m'.top .head := hj
    rw [hh] at hj
    obtain ⟨h1, h2, h4⟩ := h.hm j hj
    have := h.hle
    show (m'.msg .head j).val.p = _ ∧ (m'.msg .head j).val.g = _ ∧ Init _ (m'.msg .head j).view _
    rw [ho _ _ hj]
    exact ⟨h1, h2, h4.ext e (by omega)⟩
  · have hj : j ≤ m'.top .tail := hj
    rw [htl] at hj
    obtain ⟨h1, h2, h4⟩ := h.tm j hj
    have := h.tle
    show (m'.msg .tail j).val.p = _ ∧ (m'.msg .tail j).val.g = _ ∧ Init _ (m'.msg .tail j).view _
    rw [ho _ _ hj]
    exact ⟨h1, h2, h4.ext e (by omega)⟩
  · have hi : i < g.len := hi
    obtain ⟨h1, h2, h4⟩ := h.ln i hi
    show m'.top (.next (g.ent i)) = m'.top (.val (g.ent i)) + 1 ∧ (m'.msg (.next (g.ent i)) (m'.top (.val (g.ent i)) + 1)).val.p = _ ∧
      Init _ (m'.msg (.next (g.ent i)) (m'.top (.val (g.ent i)) + 1)).view _
    rw [hn i (by omega), hv i (by omega), ho _ _ (by omega)]
    exact ⟨h1, h2, h4.ext e (by show i + 1 ≤ g.len; omega)⟩
  · show m'.top (.next (g.ent g.len)) = m'.top (.val (g.ent g.len))
    rw [hn _ (Nat.le_refl _), hv _ (Nat.le_refl _)]; exact h.lt
  · have hi : i ≤ g.len := hi
    show (m'.msg (.next (g.ent i)) (m'.top (.val (g.ent i)))).val.p = none
    have : g.ix (g.ent i) ≤ g.mem.top (.next (g.ent i)) := by
      rcases Nat.lt_or_ge i g.len with h1 | h1
      · have := (h.ln i h1).1; omega
      · have : i = g.len := by omega
        rw [this, h.lt]; exact Nat.le_refl _
    rw [hv i hi, ho _ _ this]
    exact h.nn i hi
  · have hi : i < g.len := hi
    show (m'.msg (.val (g.ent (i + 1))) (m'.top (.val (g.ent (i + 1))))).val.o = _
    rw [hv _ (by omega), ho _ _ (Nat.le_refl _)]
    exact h.vl i hi

/-! ## The compare and swap operations -/

variable [DecidableEq V]

theorem Ext.put1 {g : G V} {m' : Mem (Loc V) (W V)} {l : Loc V} {v : W V} {w : View (Loc V)} {got : List (Option V)} (hp : Put g.mem m' l v w) (hl : ∀ x, l ≠ .val x)
    (hg : g.got.length ≤ got.length) : Ext g { g with mem := m', got := got } :=
  ⟨Nat.le_refl _, fun _ _ => rfl, hg, fun _ _ => rfl, fun _ _ => rfl, fun i _ => hp.top_ne (Ne.symm (hl _)), hp.top_le, hp.old⟩

/-- `head` or `tail` moves to the next entry. -/
theorem C.move {g : G V} (h : C g) {m' : Mem (Loc V) (W V)} {l : Loc V} {k : Nat} {w : View (Loc V)} {got : List (Option V)} (hw : m'.Wf) (hk : k = g.mem.top l + 1)
    (hp : Put g.mem m' l { p := some (g.ent k), g := k } w) (hlt : g.mem.top l < g.len) (h2 : Init g w k)
    (hl : l = .tail ∧ got = g.got ∨ l = .head ∧ got = g.got ++ [g.put[g.mem.top .head]?]) : C { g with mem := m', got := got } := by
  have hv : ∀ x, l ≠ .val x := fun x => by rcases hl with ⟨rfl, _⟩ | ⟨rfl, _⟩ <;> simp
  have hx : ∀ x, l ≠ .next x := fun x => by rcases hl with ⟨rfl, _⟩ | ⟨rfl, _⟩ <;> simp
  have e : Ext g { g with mem := m', got := got } := Ext.put1 hp hv (by rcases hl with ⟨_, rfl⟩ | ⟨_, rfl⟩ <;> simp)
  have key : ∀ l', (∀ j, j ≤ g.mem.top l' → (g.mem.msg l' j).val.p = some (g.ent j) ∧ (g.mem.msg l' j).val.g = j ∧ Init g (g.mem.msg l' j).view j) →
      g.mem.top l' ≤ g.len → ∀ j, j ≤ m'.top l' → (m'.msg l' j).val.p = some (g.ent j) ∧ (m'.msg l' j).val.g = j ∧
      Init { g with mem := m', got := got } (m'.msg l' j).view j := by
    intro l' hm hle j hj
    by_cases ho : j ≤ g.mem.top l'
    · rw [hp.old _ _ ho]
      obtain ⟨a1, a2, a4⟩ := hm j ho
      exact ⟨a1, a2, a4.ext e (by omega)⟩
    · rw [hp.top] at hj
      split at hj
      · next el =>
        subst el
        have : j = g.mem.top l' + 1 := by omega
        rw [this, hp.new, ← hk]
        exact ⟨rfl, rfl, h2.ext e (by show k ≤ g.len; omega)⟩
      · omega
  have hvt : ∀ x, m'.top (.val x) = g.mem.top (.val x) := fun x => hp.top_ne (Ne.symm (hv x))
  have hnt : ∀ x, m'.top (.next x) = g.mem.top (.next x) := fun x => hp.top_ne (Ne.symm (hx x))
  refine ⟨hw, h.inj, h.fr, ?_, ?_, ?_, key .head h.hm h.hle, key .tail h.tm h.tle, fun i hi => ?_, ?_, fun i hi => ?_, fun i hi => ?_, ?_, fun x hx => ?_⟩
  · show m'.top .head = got.length
    rw [hp.top]
    rcases hl with ⟨rfl, rfl⟩ | ⟨rfl, rfl⟩
    · rw [if_neg (by simp)]; exact h.hl
    · rw [if_pos rfl, h.hl]; simp
  · show m'.top .head ≤ g.len
    have := h.hle
    rw [hp.top]; split
    · next el => subst el; omega
    · exact this
  · show m'.top .tail ≤ g.len
    have := h.tle
    rw [hp.top]; split
    · next el => subst el; omega
    · exact this
  · have hi : i < g.len := hi
    obtain ⟨h1, h2, h4⟩ := h.ln i hi
    show m'.top (.next (g.ent i)) = m'.top (.val (g.ent i)) + 1 ∧ (m'.msg (.next (g.ent i)) (m'.top (.val (g.ent i)) + 1)).val.p = _ ∧
      Init _ (m'.msg (.next (g.ent i)) (m'.top (.val (g.ent i)) + 1)).view _
    rw [hnt, hvt, hp.old _ _ (Nat.le_of_eq h1.symm)]
    exact ⟨h1, h2, h4.ext e (by show i + 1 ≤ g.len; omega)⟩
  · show m'.top (.next (g.ent g.len)) = m'.top (.val (g.ent g.len))
    rw [hnt, hvt]; exact h.lt
  · have hi : i ≤ g.len := hi
    show (m'.msg (.next (g.ent i)) (m'.top (.val (g.ent i)))).val.p = none
    have : g.ix (g.ent i) ≤ g.mem.top (.next (g.ent i)) := by
      rcases Nat.lt_or_ge i g.len with h1 | h1
      · have := (h.ln i h1).1; omega
      · have : i = g.len := by omega
        rw [this, h.lt]; exact Nat.le_refl _
    rw [hvt, hp.old _ _ this]
    exact h.nn i hi
  · have hi : i < g.len := hi
    show (m'.msg (.val (g.ent (i + 1))) (m'.top (.val (g.ent (i + 1))))).val.o = _
    rw [hvt, hp.old _ _ (Nat.le_refl _)]
    exact h.vl i hi
  · show ∀ i, i < got.length → got[i]? = some g.put[i]?
    rcases hl with ⟨rfl, rfl⟩ | ⟨rfl, rfl⟩
    · exact h.gp
    · intro i hi
      simp only [List.length_append, List.length_singleton] at hi
      by_cases e : i < g.got.length
      · rw [List.getElem?_append_left e]; exact h.gp i e
      · have : i = g.got.length := by omega
        subst this
        rw [List.getElem?_concat_length, h.hl]
  · show m'.top (.next x) = m'.top (.val x)
    rw [hnt, hvt]; exact h.un x hx

/-- The ghost state after an entry was linked. -/
def G.link (g : G V) (m' : Mem (Loc V) (W V)) (x : Nat) (v : V) (d : Nat) : G V :=
  { g with mem := m', put := g.put ++ [v], ent := upd g.ent (g.len + 1) x, dx := upd g.dx (g.len + 1) d }

theorem Ext.link {g : G V} {m' : Mem (Loc V) (W V)} {p x d : Nat} {v : V} {a : W V} {w : View (Loc V)} (hp : Put g.mem m' (.next p) a w) : Ext g (g.link m' x v d) :=
  ⟨by simp [G.link, G.len], fun i hi => by simp only [G.link]; rw [List.getElem?_append_left hi], Nat.le_refl _, fun i hi => by simp only [G.link]; rw [upd_ne _ _ (by omega)],
    fun i hi => by simp only [G.link]; rw [upd_ne _ _ (by omega)], fun i _ => hp.top_ne (by simp), hp.top_le, hp.old⟩

theorem C.link {g : G V} (h : C g) {q : Th (Loc V)} {x d : Nat} {v : V} (hx : Hold g q x v) {m' : Mem (Loc V) (W V)} {a : W V} {w : View (Loc V)} (hw : m'.Wf)
    (hp : Put g.mem m' (.next (g.ent g.len)) a w) (ha : a.p = some x) (h1 : ∀ y, y ≠ .next (g.ent g.len) → q.rel y ≤ w y)
    (hd : d ≤ q.rel (.dat v)) : C (g.link m' x v d) := by
  have e : Ext g (g.link m' x v d) := Ext.link hp
  obtain ⟨x1, x2, x3, x4, x5, x6, x7, x8⟩ := hx
  have hlen : (g.link m' x v d).len = g.len + 1 := by simp [G.link, G.len]
  have hent : ∀ i, i ≤ g.len → (g.link m' x v d).ent i = g.ent i := e.ent
  have hentx : (g.link m' x v d).ent (g.len + 1) = x := by simp [G.link]
  have hvt : ∀ y, m'.top (.val y) = g.mem.top (.val y) := fun y => hp.top_ne (by simp)
  have hne : x ≠ g.ent g.len := fun e => x2 _ (Nat.le_refl _) e.symm
  have hix : ∀ y, (g.link m' x v d).ix y = g.ix y := hvt
  have hnt : ∀ i, i < g.len → m'.top (.next (g.ent i)) = g.mem.top (.next (g.ent i)) := fun i hi => hp.top_ne (by
    intro e; simp only [Loc.next.injEq] at e
    have := h.inj i g.len (by omega) (Nat.le_refl _) e
    omega)
  have hlast := h.lt
  have hinit : Init (g.link m' x v d) w (g.len + 1) := by
    unfold Init
    rw [hentx, hix]
    refine ⟨Nat.le_trans x6 (h1 _ (by simpa using hne)), Nat.le_trans x7 (h1 _ (by simp)), fun i v' hi hv' => ?_⟩
    have : i = g.len := by omega
    subst this
    simp only [G.link] at hv' ⊢
    rw [List.getElem?_concat_length] at hv'
    obtain rfl := Option.some.inj hv'
    rw [upd_same]
    exact Nat.le_trans hd (h1 _ (by simp))
  have ht1 : m'.top (.next (g.ent g.len)) = g.mem.top (.next (g.ent g.len)) + 1 := by rw [hp.top, if_pos rfl]
  have hnx : m'.top (.next x) = g.mem.top (.next x) := hp.top_ne (by simpa using hne)
  refine ⟨hw, fun i j hi hj hij => ?_, fun i hi => ?_, ?_, ?_, ?_, fun j hj => ?_, fun j hj => ?_, fun i hi => ?_, ?_, fun i hi => ?_, fun i hi => ?_, ?_, fun y hy => ?_⟩
  · rw [hlen] at hi hj
    by_cases e1 : i ≤ g.len
    · by_cases e2 : j ≤ g.len
      · rw [hent i e1, hent j e2] at hij; exact h.inj i j e1 e2 hij
      · have : j = g.len + 1 := by omega
        rw [hent i e1, this, hentx] at hij
        exact absurd hij (x2 i e1)
    · have e3 : i = g.len + 1 := by omega
      by_cases e2 : j ≤ g.len
      · rw [hent j e2, e3, hentx] at hij
        exact absurd hij.symm (x2 j e2)
      · omega
  · rw [hlen] at hi
    show g.free _ = false
    by_cases e1 : i ≤ g.len
    · rw [hent i e1]; exact h.fr i e1
    · have e3 : i = g.len + 1 := by omega
      rw [e3, hentx]; exact x1
  · show m'.top .head = g.got.length
    rw [hp.top_ne (by simp)]; exact h.hl
  · rw [hlen]
    show m'.top .head ≤ _
    rw [hp.top_ne (by simp)]; exact Nat.le_succ_of_le h.hle
  · rw [hlen]
    show m'.top .tail ≤ _
    rw [hp.top_ne (by simp)]; exact Nat.le_succ_of_le h.tle
  · have hj : j ≤ m'.top .head := hj
    rw [hp.top_ne (by simp)] at hj
    obtain ⟨a1, a2, a4⟩ := h.hm j hj
    have := h.hle
    show (m'.msg .head j).val.p = _ ∧ (m'.msg .head j).val.g = _ ∧ Init _ (m'.msg .head j).view _
    rw [hp.old _ _ hj, hent j (by omega)]
    exact ⟨a1, a2, a4.ext e (by omega)⟩
  · have hj : j ≤ m'.top .tail := hj
    rw [hp.top_ne (by simp)] at hj
    obtain ⟨a1, a2, a4⟩ := h.tm j hj
    have := h.tle
    show (m'.msg .tail j).val.p = _ ∧ (m'.msg .tail j).val.g = _ ∧ Init _ (m'.msg .tail j).view _
    rw [hp.old _ _ hj, hent j (by omega)]
    exact ⟨a1, a2, a4.ext e (by omega)⟩
  · rw [hlen] at hi
    rw [hix, hent i (by omega)]
    show m'.top (.next (g.ent i)) = _ ∧ (m'.msg (.next (g.ent i)) _).val.p = _ ∧ Init _ (m'.msg (.next (g.ent i)) _).view _
    by_cases e1 : i < g.len
    · obtain ⟨a1, a2, a4⟩ := h.ln i e1
      rw [hnt i e1, hp.old _ _ (by omega), hent _ (by omega)]
      exact ⟨a1, a2, a4.ext e (by omega)⟩
    · have : i = g.len := by omega
      subst this
      rw [ht1, hlast, ← hlast, hp.new, hentx]
      exact ⟨rfl, ha, hinit⟩
  · rw [hlen, hentx, hix]
    show m'.top (.next x) = _
    rw [hnx]; exact x3
  · rw [hlen] at hi
    rw [hix]
    show (m'.msg (.next _) _).val.p = none
    by_cases e1 : i ≤ g.len
    · rw [hent i e1]
      have : g.ix (g.ent i) ≤ g.mem.top (.next (g.ent i)) := by
        rcases Nat.lt_or_ge i g.len with h1 | h1
        · have := (h.ln i h1).1; omega
        · have : i = g.len := by omega
          rw [this, h.lt]; exact Nat.le_refl _
      rw [hp.old _ _ this]; exact h.nn i e1
    · have e3 : i = g.len + 1 := by omega
      rw [e3, hentx, hp.old _ _ (by omega)]; exact x4
  · rw [hlen] at hi
    rw [hix]
    show (m'.msg (.val _) _).val.o = (g.put ++ [v])[i]?
    by_cases e1 : i < g.len
    · rw [hent _ (by omega), hp.old _ _ (Nat.le_refl _), List.getElem?_append_left e1]
      exact h.vl i e1
    · have : i = g.len := by omega
      subst this
      rw [hentx, hp.old _ _ (Nat.le_refl _), List.getElem?_concat_length]; exact x5
  · intro i hi
    have hle := h.hle
    have hl := h.hl
    have hi : i < g.got.length := hi
    show g.got[i]? = some (g.put ++ [v])[i]?
    rw [List.getElem?_append_left (by show i < g.len; omega)]
    exact h.gp i hi
  · rw [hlen] at hy
    rw [hix]
    show m'.top (.next y) = _
    have : y ≠ g.ent g.len := by
      intro e
      have := hy g.len (by omega)
      rw [hent _ (Nat.le_refl _)] at this
      exact this e.symm
    rw [hp.top_ne (by simpa using this)]
    exact h.un y fun i hi => by
      have := hy i (by omega)
      rw [hent i hi] at this
      exact this

/-! ## Steps -/

omit [DecidableEq V] in
theorem Ext.refl (g : G V) : Ext g g := ⟨Nat.le_refl _, fun _ _ => rfl, Nat.le_refl _, fun _ _ => rfl, fun _ _ => rfl, fun _ _ => rfl, fun _ => Nat.le_refl _, fun _ _ _ => rfl⟩

omit [DecidableEq V] in
theorem Pc.hold {g : G V} {q : Th (Loc V)} {kn : Nat} {pc : PC V} (h : Pc g q kn pc) {x : Nat} (hx : pc.hx = some x) : ∃ v, Hold g q x v := by
  cases pc <;> simp only [PC.hx, reduceCtorEq, Option.some.injEq] at hx <;> subst hx
  · exact ⟨_, h⟩
  · exact ⟨_, h.1⟩
  · exact ⟨_, h.1⟩

omit [DecidableEq V] in
/-- A step of thread `t`. -/
theorem Inv.one {s s' : St V n} (h : Inv s) (t : Fin n) (hc : C s'.g) (e : Ext s.g s'.g) (ho : ∀ u, u ≠ t → s'.th u = s.th u ∧ s'.pc u = s.pc u ∧ s'.kn u = s.kn u ∧ s'.obj u = s.obj u)
    (hx : ∀ u x, u ≠ t → (s.pc u).hx = some x → s'.free x = s.free x ∧ (∀ i, i ≤ s'.g.len → s'.ent i ≠ x) ∧ s'.g.ix x = s.g.ix x ∧ s'.mem.top (.next x) = s.mem.top (.next x))
    (ht : T s'.g (s'.th t) (s'.pc t) (s'.kn t) (s'.obj t)) (hu : ∀ x, (s'.pc t).hx = some x → ∀ u, u ≠ t → (s.pc u).hx ≠ some x) : Inv s' := by
  refine ⟨hc, fun u => ?_, fun a b x ha hb => ?_⟩
  · by_cases hu : u = t
    · subst hu; exact ht
    · obtain ⟨h1, h2, h3, h4⟩ := ho u hu
      rw [h1, h2, h3, h4]
      exact (h.t u).ext e (by have := h.c.hle; have := h.c.hl; omega) fun x hx' => hx u x hu hx'
  · by_cases e1 : a = t
    · by_cases e2 : b = t
      · rw [e1, e2]
      · subst e1
        rw [(ho b e2).2.1] at hb
        exact absurd hb (hu x ha b e2)
    · rw [(ho a e1).2.1] at ha
      by_cases e2 : b = t
      · subst e2
        exact absurd ha (hu x hb a e1)
      · rw [(ho b e2).2.1] at hb
        exact h.u a b x ha hb

omit [DecidableEq V] in
/-- A step that stores nothing. -/
theorem Inv.loc {s : St V n} (h : Inv s) (t : Fin n) {q : Th (Loc V)} {pc : PC V} (hw : q.Wf s.mem) (hq : ∀ y, (s.th t).cur y ≤ q.cur y)
    (hp : Pc s.g q (s.kn t) pc) (hu : ∀ x, pc.hx = some x → (s.pc t).hx = some x) : Inv { s with th := upd s.th t q, pc := upd s.pc t pc } := by
  refine h.one t h.c (Ext.refl _) (fun u hu => by simp [upd_ne _ _ hu]) (fun u x hu hx => ?_) ?_ (fun x hx u hne hx' => ?_)
  · obtain ⟨v, hv⟩ := (h.t u).pc.hold hx
    exact ⟨rfl, hv.2.1, rfl, rfl⟩
  · simp only [upd_same]
    exact ⟨hw, (h.t t).lk.mono hq (hq _), (h.t t).ob, hp⟩
  · simp only [upd_same] at hx
    exact hne (h.u u t x hx' (hu x hx))

omit [DecidableEq V] in
theorem Inv.loc' {s : St V n} (h : Inv s) (t : Fin n) {q : Th (Loc V)} (hw : q.Wf s.mem) (hq : ∀ y, (s.th t).cur y ≤ q.cur y)
    (hp : Pc s.g q (s.kn t) (s.pc t)) : Inv { s with th := upd s.th t q } := by
  have := h.loc t hw hq hp (fun x hx => hx)
  rwa [show upd s.pc t (s.pc t) = s.pc from by funext u; by_cases e : u = t <;> simp [upd_apply, e]] at this

omit [DecidableEq V] in
theorem Inv.goto {s : St V n} (h : Inv s) (t : Fin n) {pc : PC V} (hp : Pc s.g (s.th t) (s.kn t) pc) (hu : ∀ x, pc.hx = some x → (s.pc t).hx = some x) : Inv (s.goto t pc) := by
  have := h.loc t (h.t t).wf (fun _ => Nat.le_refl _) hp hu
  rwa [show upd s.th t (s.th t) = s.th from by funext u; by_cases e : u = t <;> simp [upd_apply, e]] at this

omit [DecidableEq V] in
theorem Hold.thr {g : G V} {q q' : Th (Loc V)} {x : Nat} {v : V} (h : Hold g q x v) (h1 : q'.rel = q.rel) (h2 : q'.wr (.dat v) = q.wr (.dat v)) : Hold g q' x v := by
  unfold Hold
  rw [h1, h2]; exact h

omit [DecidableEq V] in
theorem Pc.thr {g : G V} {q q' : Th (Loc V)} {kn : Nat} {pc : PC V} (h : Pc g q kn pc) (h1 : q'.rel = q.rel) (h2 : q'.wr = q.wr) (h3 : ∀ y, q.cur y ≤ q'.cur y) :
    Pc g q' kn pc := by
  cases pc with
  | eT x v => exact Hold.thr h h1 (by rw [h2])
  | eN x v g' p w =>
    obtain ⟨a, i, b, c, d, e⟩ := h
    exact ⟨a.thr h1 (by rw [h2]), i, b, c, d, Nat.le_trans e (h3 _)⟩
  | eC x v g' p ng r u =>
    obtain ⟨a, i, b, c, d, e⟩ := h
    exact ⟨a.thr h1 (by rw [h2]), i, b, c, Nat.le_trans d (h3 _), e⟩
  | eF x g' p =>
    obtain ⟨i, a, b, c, d⟩ := h
    exact ⟨i, a, b, c, by rw [h1]; exact d⟩
  | dT g' p w =>
    obtain ⟨i, a, b, c, d, e⟩ := h
    exact ⟨i, a, b, c, d, e.mono h3 (Nat.le_refl _)⟩
  | dN g' p w tg tp =>
    obtain ⟨i, a, b, c, d, e⟩ := h
    exact ⟨i, a, b, c, d, fun h => (e h).imp_right fun h => ⟨h.1, Nat.le_trans h.2 (h3 _)⟩⟩
  | dV g' p y u => exact h
  | dC g' p y u v uv => exact h
  | idle => exact h
  | dH => exact h
  | dF tg p y u => exact h
  | none => exact h

theorem rmw_cur_le {q : Th (Loc V)} {m : Mem (Loc V) (W V)} {l : Loc V} (hw : q.Wf m) (y : Loc V) : q.cur y ≤ (q.rmw m l).cur y := by
  have : (q.rmw m l).cur y = upd (q.load m l (m.top l)).cur l (m.top l + 1) y := rfl
  rw [this, upd_apply]; split
  · next e => subst e; have := (hw y).1; omega
  · exact q.load_cur_le m l _ y

omit [DecidableEq V] in
theorem pass_wf {m : Mem (Loc V) (W V)} {q : Th (Loc V)} (hw : q.Wf m) {u : View (Loc V)} (hu : ∀ l, u l ≤ m.top l) (dep : Bool) : (pass dep q u).Wf m := by
  unfold pass; split
  · exact fun y => ⟨(hw y).1, (hw y).2.1, (hw y).2.2.1, join_le (hw y).2.2.2 (hu y)⟩
  · exact hw

theorem cas_eq {fc : Fences} {s s' : St V n} {t : Fin n} {q : Th (Loc V)} {l : Loc V} {p : Option Nat} {g x : Nat} {u : View (Loc V)} (h : cas fc s t q l p g x u = some s') :
    (s.mem.last l).p = p ∧ (s.mem.last l).g = g ∧ s' = { s with mem := s.mem.rmw (pass fc.dep q u) l { p := some x, g := g + 1 }, th := upd s.th t (q.rmw s.mem l) } := by
  unfold cas at h
  split at h
  · next e => exact ⟨e.1, e.2, (Option.some.inj h).symm⟩
  · cases h

/-- What moving `head` or `tail` needs. -/
theorem C.cas {g : G V} (h : C g) {l : Loc V} (hl : l = .tail ∨ l = .head) {q : Th (Loc V)} (hw : q.Wf g.mem) {u : View (Loc V)} (hu : ∀ y, u y ≤ g.mem.top y) {p g' y i : Nat}
    (h1 : (g.mem.last l).p = some p) (h2 : (g.mem.last l).g = g') (hp : p = g.ent i) (hi : i < g.len) (hy : y = g.ent (i + 1))
    (hI : Init g (join q.rel u) (i + 1))
    {got : List (Option V)} (hg : l = .tail ∧ got = g.got ∨ l = .head ∧ got = g.got ++ [g.put[g.mem.top .head]?]) :
    i = g.mem.top l ∧ C { g with mem := g.mem.rmw (pass true q u) l { p := some y, g := g' + 1 }, got := got } := by
  have hm : (g.mem.last l).p = some (g.ent (g.mem.top l)) ∧ (g.mem.last l).g = g.mem.top l ∧ g.mem.top l ≤ g.len := by
    rcases hl with rfl | rfl
    · have := h.tm _ (Nat.le_refl _)
      exact ⟨this.1, this.2.1, h.tle⟩
    · have := h.hm _ (Nat.le_refl _)
      exact ⟨this.1, this.2.1, h.hle⟩
  have hi' : i = g.mem.top l := by
    rw [hm.1, hp] at h1
    exact (h.inj _ _ hm.2.2 (by omega) (Option.some.inj h1)).symm
  refine ⟨hi', ?_⟩
  subst hy
  have hg' : g' = g.mem.top l := by rw [← h2]; exact hm.2.1
  have hne : ∀ y, Loc.next y ≠ l ∧ Loc.val y ≠ l := fun y => by rcases hl with rfl | rfl <;> simp
  have hned : ∀ v, Loc.dat v ≠ l := fun y => by rcases hl with rfl | rfl <;> simp
  have hput := Put.rmw g.mem (pass true q u) l { p := some (g.ent (i + 1)), g := g' + 1 }
  have hge : ∀ z, z ≠ l → join q.rel u z ≤ upd (join (pass true q u).rel (g.mem.msg l (g.mem.top l)).view) l (g.mem.top l + 1) z := fun z hz => by
    rw [upd_ne _ _ hz]; exact le_join_left (join q.rel u) _ z
  have hgi : g' = i := by omega
  subst hgi
  refine h.move (k := g' + 1) (l := l) (h.mwf.rmw (pass_wf hw hu _) l _) (by rw [hi']) hput (by omega) ?_ hg
  exact ⟨Nat.le_trans hI.1 (hge _ (hne _).1), Nat.le_trans hI.2.1 (hge _ (hne _).2), fun j v hj hv => Nat.le_trans (hI.2.2 j v hj hv) (hge _ (hned v))⟩

omit [DecidableEq V] in
theorem T.idle {g : G V} {q : Th (Loc V)} {pc : PC V} {kn : Nat} {obj : Option (V × View (Loc V) × Nat)} (h : T g q pc kn obj) : T g q .idle kn obj := ⟨h.wf, h.lk, h.ob, trivial⟩

omit [DecidableEq V] in
theorem T.with {g : G V} {q q' : Th (Loc V)} {pc pc' : PC V} {kn : Nat} {obj : Option (V × View (Loc V) × Nat)} (h : T g q pc kn obj) (hw : q'.Wf g.mem) (hq : ∀ y, q.cur y ≤ q'.cur y)
    (hp : Pc g q' kn pc') : T g q' pc' kn obj := ⟨hw, h.lk.mono hq (hq _), h.ob, hp⟩

omit [DecidableEq V] in
theorem C.gle {g : G V} (h : C g) : g.got.length ≤ g.len := by have := h.hle; have := h.hl; omega

/-- `tail` is moved, or the compare and swap fails. -/
theorem Inv.tail {fc : Fences} (hd : fc.dep = true) {s : St V n} (h : Inv s) (t : Fin n) {q : Th (Loc V)} (hw : q.Wf s.mem) (hq : ∀ y, (s.th t).cur y ≤ q.cur y) {p g' y i : Nat} {u : View (Loc V)} (hu : ∀ y, u y ≤ s.mem.top y)
    (hp : p = s.ent i) (hi : i < s.g.len) (hy : y = s.ent (i + 1)) (hI : Init s.g (join q.rel u) (i + 1)) {pc : PC V}
    (hpc : pc = .idle ∨ pc = .dH ∨ ∃ x v, pc = .eT x v ∧ Hold s.g q x v ∧ (s.pc t).hx = some x) :
    Inv (((cas fc s t q .tail (some p) g' y u).getD (fail s t q .tail)).goto t pc) := by
  have hh : ∀ x, pc.hx = some x → (s.pc t).hx = some x := by
    intro x hx
    rcases hpc with rfl | rfl | ⟨x', v, rfl, h1, h2⟩
    · simp at hx
    · simp at hx
    · simp only [PC.hx, Option.some.injEq] at hx; rw [← hx]; exact h2
  cases hc : cas fc s t q .tail (some p) g' y u with
  | none =>
    refine h.loc t (hw.load h.c.mwf (Nat.le_refl _)) (fun y => Nat.le_trans (hq y) (q.load_cur_le _ _ _ _)) ?_ hh
    rcases hpc with rfl | rfl | ⟨x, v, rfl, h1, h2⟩
    · trivial
    · trivial
    · exact h1.thr rfl rfl
  | some s' =>
    obtain ⟨h1, h2, e⟩ := cas_eq hc
    rw [hd] at e
    subst e
    have hput := Put.rmw s.mem (pass true q u) .tail { p := some y, g := g' + 1 }
    have e := Ext.put1 (g := s.g) (got := s.got) hput (by simp) (Nat.le_refl _)
    obtain ⟨_, hC⟩ := h.c.cas (Or.inl rfl) hw hu h1 h2 hp hi hy hI (got := s.got) (Or.inl ⟨rfl, rfl⟩)
    refine h.one t hC e (fun u hu => by simp [St.goto, upd_ne _ _ hu]) (fun u x hu hx => ?_) ?_ (fun x hx u hne hx' => ?_)
    · obtain ⟨v, hv⟩ := (h.t u).pc.hold hx
      exact ⟨rfl, hv.2.1, hput.top_ne (by simp), hput.top_ne (by simp)⟩
    · simp only [Option.getD_some, St.goto, upd_same]
      refine ((h.t t).idle.ext e h.c.gle (by simp)).with (hw.rmw h.c.mwf _ _) (fun y => Nat.le_trans (hq y) (rmw_cur_le hw y)) ?_
      rcases hpc with rfl | rfl | ⟨x, v, rfl, h1, h2⟩
      · trivial
      · trivial
      · exact (h1.thr (q' := q.rmw s.mem .tail) rfl (by show upd q.wr .tail (s.mem.top .tail + 1) (.dat v) = _; rw [upd_ne _ _ (by simp)])).ext e rfl h1.2.1 (hput.top_ne (by simp)) (hput.top_ne (by simp))
    · simp only [Option.getD_some, St.goto, upd_same] at hx
      exact hne (h.u u t x hx' (hh x hx))

theorem Inv.dC {fc : Fences} (hd : fc.dep = true) {s s' : St V n} (h : Inv s) (t : Fin n) {g' p y : Nat} {u uv : View (Loc V)} {v : Option V} (hp : s.pc t = .dC g' p y u v uv) {i g : Nat} (hs : run fc s t i g = some s') : Inv s' := by
  have hP := (h.t t).pc
  rw [hp] at hP
  obtain ⟨i, h1, ⟨h2, h3, h4, h6⟩, h8, h9⟩ := hP
  have hw := (h.t t).wf
  simp only [run, hp] at hs
  split at hs
  · next s1 hc =>
    obtain rfl := Option.some.inj hs
    obtain ⟨a1, a2, e⟩ := cas_eq hc
    rw [hd] at e
    subst e
    have hput := Put.rmw s.mem (pass true (s.th t) u) .head { p := some y, g := g' + 1 }
    have e := Ext.put1 (g := s.g) (got := s.got ++ [v]) hput (by simp) (by simp [St.g])
    have hrel : ∀ y, u y ≤ join (s.th t).rel u y := le_join_right _ _
    have hC := h.c.cas (Or.inr rfl) hw h6 a1 a2 h1 h2 h3 (h4.mono hrel) (got := s.got ++ [s.put[s.mem.top .head]?]) (Or.inr ⟨rfl, rfl⟩)
    obtain ⟨b1, b2⟩ := hC
    have hv : s.put[s.mem.top .head]? = v := by
      have b1 : i = s.mem.top .head := b1
      rw [← b1]; exact h8.symm
    rw [hv] at b2
    have hl : s.got.length = i := by rw [b1]; exact h.c.hl.symm
    refine h.one t b2 e (fun u hu => by simp [St.goto, upd_ne _ _ hu]) (fun u x hu hx => ?_) ?_ (fun x hx u hne hx' => ?_)
    · obtain ⟨v, hv⟩ := (h.t u).pc.hold hx
      exact ⟨rfl, hv.2.1, hput.top_ne (by simp), hput.top_ne (by simp)⟩
    · simp only [St.goto, upd_same]
      have hT := (h.t t).idle.ext e h.c.gle (by simp)
      have hcur : ∀ y, (s.th t).cur y ≤ ((s.th t).rmw s.mem .head).cur y := rmw_cur_le hw
      refine ⟨hw.rmw h.c.mwf _ _, ?_, ?_, trivial⟩
      · have hk : ((s.th t).rmw s.mem .head).cur .head = s.got.length + 1 := by
          show upd ((s.th t).load s.mem .head (s.mem.top .head)).cur .head (s.mem.top .head + 1) .head = _
          rw [upd_same, show s.mem.top .head = s.got.length from h.c.hl]
        show K _ _ (max (s.kn t) (s.got.length + 1)) _
        by_cases hle : s.kn t ≤ s.got.length + 1
        · left; rw [hk]; omega
        · rw [Nat.max_eq_left (by omega)]
          exact hT.lk.mono hcur (hcur _)
      · intro v1 u1 j hj
        cases v with
        | none => simp at hj
        | some v2 =>
          simp only [Option.map_some, Option.some.injEq, Prod.mk.injEq] at hj
          obtain ⟨rfl, rfl, rfl⟩ := hj
          refine ⟨i, by rw [hl], ?_, h8.symm, ?_⟩
          · show s.got.length + 1 ≤ (s.got ++ [some v2]).length
            simp
          · rw [hl]; exact h9 _ rfl
    · simp [St.goto] at hx
  · next hc =>
    obtain rfl := Option.some.inj hs
    exact h.loc t (hw.load h.c.mwf (Nat.le_refl _)) (fun y => (s.th t).load_cur_le _ _ _ _) trivial (by simp)

/-- The successor of an entry that is in the queue. -/
theorem C.next {g : G V} (h : C g) {i k : Nat} (hi : i ≤ g.len) (h1 : g.ix (g.ent i) ≤ k) (h2 : k ≤ g.mem.top (.next (g.ent i))) :
    ((g.mem.msg (.next (g.ent i)) k).val.p = none ∧ k = g.ix (g.ent i)) ∨ (k = g.ix (g.ent i) + 1 ∧ ∀ y, (g.mem.msg (.next (g.ent i)) k).val.p = some y → Nx g (g.mem.msg (.next (g.ent i)) k).view y i) := by
  by_cases e : k = g.ix (g.ent i)
  · left; rw [e]; exact ⟨h.nn i hi, rfl⟩
  · have hil : i < g.len := by
      rcases Nat.lt_or_ge i g.len with h3 | h3
      · exact h3
      · have : i = g.len := by omega
        rw [this] at h2 h1 e
        have := h.lt
        omega
    obtain ⟨a1, a2, a4⟩ := h.ln i hil
    have hk : k = g.ix (g.ent i) + 1 := by omega
    refine Or.inr ⟨hk, fun y hy => ?_⟩
    rw [hk] at hy ⊢
    rw [a2] at hy
    exact ⟨hil, (Option.some.inj hy).symm, a4, fun l => h.mwf _ _ _ (by rw [a1]; exact Nat.le_refl _)⟩

theorem Inv.eC {fc : Fences} (hd : fc.dep = true) {s s' : St V n} (h : Inv s) (t : Fin n) {x g' p ng : Nat} {v : V} {r : Option Nat} {u : View (Loc V)} (hp : s.pc t = .eC x v g' p ng r u) {i g : Nat}
    (hs : run fc s t i g = some s') : Inv s' := by
  have hP := (h.t t).pc
  rw [hp] at hP
  obtain ⟨hH, i, h1, h2, h3, h4⟩ := hP
  have hw := (h.t t).wf
  have hhx : (s.pc t).hx = some x := by rw [hp]; rfl
  simp only [run, hp] at hs
  cases r with
  | some y =>
    obtain rfl := Option.some.inj hs
    obtain ⟨b1, b2, b3, b5⟩ := h4 y rfl
    have hrel : ∀ y, u y ≤ join (s.th t).rel u y := le_join_right _ _
    exact h.tail hd t hw (fun _ => Nat.le_refl _) b5 h2 b1 b2 (b3.mono hrel) (Or.inr (Or.inr ⟨x, v, rfl, hH, hhx⟩))
  | none =>
    simp only at hs
    split at hs
    · next s1 hc =>
      obtain rfl := Option.some.inj hs
      obtain ⟨a1, a2, e⟩ := cas_eq hc
      rw [hd] at e
      subst e
      have hil : i = s.g.len := by
        rcases Nat.lt_or_ge i s.g.len with h5 | h5
        · have b := h.c.ln i h5
          have a1 : (s.g.mem.msg (.next p) (s.g.mem.top (.next p))).val.p = none := a1
          rw [h2, b.1, b.2.1] at a1
          cases a1
        · omega
      subst hil
      have hput := Put.rmw s.mem (pass true (s.th t) fun _ => 0) (.next p) { p := some x, g := ng + 1 }
      rw [h2] at hput
      have e : Ext s.g _ := Ext.link (g := s.g) (x := x) (v := v) (d := (s.th t).wr (.dat v)) hput
      have hC := h.c.link hH (d := (s.th t).wr (.dat v)) (h.c.mwf.rmw (pass_wf hw (u := fun _ => 0) (fun _ => Nat.zero_le _) _) _ _) hput rfl
        (fun y hy => by
          rw [upd_ne _ _ hy]
          exact Nat.le_trans (le_join_left (s.th t).rel (fun _ => 0) y) (le_join_left _ _ y)) hH.2.2.2.2.2.2.2
      have hne : x ≠ s.ent s.g.len := fun e => hH.2.1 _ (Nat.le_refl _) e.symm
      subst h2
      have hcur : ∀ y, (s.th t).cur y ≤ ((s.th t).rmw s.mem (.next (s.g.ent s.g.len))).cur y := rmw_cur_le hw
      have hlen : (s.put ++ [v]).length = s.g.len + 1 := by simp [St.g]
      refine h.one t hC e (fun u hu => by simp [St.goto, upd_ne _ _ hu]) (fun w z hwt hz => ?_) ?_ (fun x hx u hne hx' => ?_)
      · obtain ⟨v', hv⟩ := (h.t w).pc.hold hz
        have hzx : z ≠ x := fun e => hwt (h.u w t x (by rw [← e]; exact hz) hhx)
        refine ⟨rfl, fun j hj => ?_, hput.top_ne (by simp), hput.top_ne ?_⟩
        · show upd s.ent (s.g.len + 1) x j ≠ z
          have hj : j ≤ (s.put ++ [v]).length := hj
          rw [hlen] at hj
          rw [upd_apply]; split
          · exact fun e => hzx e.symm
          · exact hv.2.1 j (by show j ≤ s.g.len; omega)
        · simp only [ne_eq, Loc.next.injEq]
          exact fun e => hv.2.1 _ (Nat.le_refl _) e.symm
      · simp only [St.goto, upd_same]
        have hT := (h.t t).idle.ext e h.c.gle (by simp)
        change T (G.link s.g (s.mem.rmw (pass true (s.th t) fun _ => 0) (.next (s.g.ent s.g.len)) { p := some x, g := ng + 1 }) x v ((s.th t).wr (.dat v))) _ _ (s.g.len + 1) _
        refine ⟨hw.rmw h.c.mwf _ _, Or.inr ⟨s.g.len, rfl, ?_, Nat.le_trans h3 (hcur _), ?_⟩, hT.ob, s.g.len, ?_, ?_, ?_, ?_⟩
        · show s.g.len < (s.put ++ [v]).length
          omega
        · rw [e.ent _ (Nat.le_refl _), e.iv _ (Nat.le_refl _), ← h.c.lt]
          show _ ≤ upd _ _ _ _
          rw [upd_same]; exact Nat.le_refl _
        · show s.g.len < (s.put ++ [v]).length
          omega
        · exact (e.ent _ (Nat.le_refl _)).symm
        · show x = upd s.ent (s.g.len + 1) x (s.g.len + 1)
          rw [upd_same]
        · have hix : (G.link s.g (s.mem.rmw (pass true (s.th t) fun _ => 0) (.next (s.g.ent s.g.len)) { p := some x, g := ng + 1 }) x v ((s.th t).wr (.dat v))).ix x = s.g.ix x := hput.top_ne (by simp)
          have hex : (G.link s.g (s.mem.rmw (pass true (s.th t) fun _ => 0) (.next (s.g.ent s.g.len)) { p := some x, g := ng + 1 }) x v ((s.th t).wr (.dat v))).ent (s.g.len + 1) = x := upd_same _ _ _
          have hI : Init (G.link s.g (s.mem.rmw (pass true (s.th t) fun _ => 0) (.next (s.g.ent s.g.len)) { p := some x, g := ng + 1 }) x v ((s.th t).wr (.dat v))) (s.th t).rel (s.g.len + 1) := by
            unfold Init
            rw [hex, hix]
            refine ⟨hH.2.2.2.2.2.1, hH.2.2.2.2.2.2.1, fun j v' hj hv' => ?_⟩
            have : j = s.g.len := by omega
            subst this
            have hv' : (s.put ++ [v])[s.put.length]? = some v' := hv'
            rw [List.getElem?_concat_length] at hv'
            obtain rfl := Option.some.inj hv'
            show upd s.dx (s.g.len + 1) ((s.th t).wr (.dat v)) (s.g.len + 1) ≤ _
            rw [upd_same]
            exact hH.2.2.2.2.2.2.2
          exact hI
      · simp [St.goto] at hx
    · next hc =>
      obtain rfl := Option.some.inj hs
      exact h.loc t (hw.load h.c.mwf (Nat.le_refl _)) (fun y => (s.th t).load_cur_le _ _ _ _) (hH.thr rfl rfl) (fun z hz => by rw [hp]; exact hz)

omit [DecidableEq V] in
theorem opt_load {q : Th (Loc V)} {m : Mem (Loc V) (W V)} (hw : q.Wf m) (b : Bool) : (opt b Th.fenceLoad q).Wf m ∧ (∀ y, q.cur y ≤ (opt b Th.fenceLoad q).cur y) ∧
    (opt b Th.fenceLoad q).rel = q.rel ∧ (opt b Th.fenceLoad q).wr = q.wr := by
  unfold Fas.opt; split
  · exact ⟨hw.fenceLoad, fun y => le_join_left _ _ y, rfl, rfl⟩
  · exact ⟨hw, fun _ => Nat.le_refl _, rfl, rfl⟩

omit [DecidableEq V] in
theorem opt_store {q : Th (Loc V)} {m : Mem (Loc V) (W V)} (hw : q.Wf m) (b : Bool) : (opt b Th.fenceStore q).Wf m ∧ (∀ y, q.cur y ≤ (opt b Th.fenceStore q).cur y) ∧
    ∀ y, q.rel y ≤ (opt b Th.fenceStore q).rel y := by
  unfold Fas.opt; split
  · exact ⟨hw.fenceStore, fun _ => Nat.le_refl _, fun y => le_join_left _ _ y⟩
  · exact ⟨hw, fun _ => Nat.le_refl _, fun _ => Nat.le_refl _⟩

theorem Inv.run {fc : Fences} (hd : fc.dep = true) {s s' : St V n} (h : Inv s) (t : Fin n) {i g : Nat} (hs : run fc s t i g = some s') : Inv s' := by
  have hw := (h.t t).wf
  have hP := (h.t t).pc
  have hlk := (h.t t).lk
  have hcl : ∀ (l : Loc V) i y, (s.th t).cur y ≤ ((s.th t).load s.mem l i).cur y := fun l i y => (s.th t).load_cur_le _ _ _ _
  cases hp : s.pc t with
  | idle => simp [MpFifo.run, hp] at hs
  | none =>
    simp only [MpFifo.run, hp] at hs
    obtain rfl := Option.some.inj hs
    exact h.goto t trivial (by simp)
  | eT x v =>
    rw [hp] at hP
    simp only [MpFifo.run, hp] at hs
    split at hs
    · next hm =>
      obtain ⟨a1, a2, a4⟩ := h.c.tm i hm.2
      have a1 : (s.mem.msg .tail i).val.p = some (s.ent i) := a1
      rw [a1] at hs
      obtain rfl := Option.some.inj hs
      exact h.loc t (hw.load h.c.mwf hm.2) (hcl _ _) ⟨Hold.thr hP rfl rfl, i, Nat.le_trans hm.2 h.c.tle, rfl, a4, (s.th t).load_at _ _ _⟩ (fun x hx => by rw [hp]; exact hx)
    · cases hs
  | eN x v g' p w =>
    rw [hp] at hP
    obtain ⟨hH, j, h1, h2, h3, h4⟩ := hP
    simp only [MpFifo.run, hp] at hs
    obtain ⟨o1, o2, o3, o4⟩ := opt_load hw fc.eload
    generalize opt fc.eload Th.fenceLoad (s.th t) = q at hs o1 o2 o3 o4
    split at hs
    · next hm =>
      obtain rfl := Option.some.inj hs
      have hm1 : i ≤ s.mem.top (.next p) := hm.1.2
      have hm2 : w (.next p) ≤ i := hm.2 hd
      subst h2
      have hc : ∀ y, (s.th t).cur y ≤ (q.load s.mem (.next (s.g.ent j)) i).cur y := fun y => Nat.le_trans (o2 y) (q.load_cur_le _ _ _ _)
      refine h.loc t (o1.load h.c.mwf hm1) hc ⟨Hold.thr hH o3 (by rw [← o4]; rfl), j, h1, rfl, Nat.le_trans h4 (hc _), fun y hy => ?_⟩ (fun x hx => by rw [hp]; exact hx)
      rcases h.c.next h1 (Nat.le_trans h3.1 hm2) hm1 with ⟨b1, _⟩ | ⟨_, b2⟩
      · have hy : (s.g.mem.msg (.next (s.g.ent j)) i).val.p = some y := hy
        rw [b1] at hy; cases hy
      · exact b2 y hy
    · cases hs
  | eC x v g' p ng r u => exact h.eC hd t hp hs
  | eF x g' p =>
    rw [hp] at hP
    obtain ⟨j, h1, h2, h3, h5⟩ := hP
    simp only [MpFifo.run, hp] at hs
    obtain ⟨o1, o2, o3⟩ := opt_store hw fc.at'
    generalize opt fc.at' Th.fenceStore (s.th t) = q at hs o1 o2 o3
    obtain rfl := Option.some.inj hs
    refine h.tail hd t o1 o2 (fun _ => Nat.zero_le _) h2 h1 h3 ?_ (Or.inl rfl)
    exact h5.mono fun y => Nat.le_trans (o3 y) (le_join_left _ _ y)
  | dH =>
    simp only [MpFifo.run, hp] at hs
    split at hs
    · next hm =>
      obtain ⟨a1, a2, a4⟩ := h.c.hm i hm.2
      have a1 : (s.mem.msg .head i).val.p = some (s.ent i) := a1
      rw [a1] at hs
      obtain rfl := Option.some.inj hs
      exact h.loc t (hw.load h.c.mwf hm.2) (hcl _ _) ⟨i, hm.2, Nat.le_trans hm.2 h.c.hle, rfl, a4, hlk.mono (hcl _ _) hm.1⟩ (by simp)
    · cases hs
  | dT g' p w =>
    rw [hp] at hP
    obtain ⟨j, h1, h2, h3, h4, h5⟩ := hP
    simp only [MpFifo.run, hp] at hs
    obtain ⟨o1, o2, o3, o4⟩ := opt_load hw fc.dload
    generalize opt fc.dload Th.fenceLoad (s.th t) = q at hs o1 o2 o3 o4
    split at hs
    · next hm =>
      obtain rfl := Option.some.inj hs
      have hc : ∀ y, (s.th t).cur y ≤ (q.load s.mem .tail i).cur y := fun y => Nat.le_trans (o2 y) (q.load_cur_le _ _ _ _)
      refine h.loc t (o1.load h.c.mwf hm.2) hc ⟨j, h1, h2, h3, h4, fun ht => ?_⟩ (by simp)
      have a1 : (s.mem.msg .tail i).val.p = some (s.g.ent i) := (h.c.tm i hm.2).1
      rw [a1, h3] at ht
      have hij := h.c.inj j i h2 (Nat.le_trans hm.2 h.c.tle) (Option.some.inj ht)
      rcases h5 with h5 | ⟨k, k1, k2, k3, k4⟩
      · exact Or.inl h5
      · have k5 : k ≤ i := Nat.le_trans k3 (Nat.le_trans (o2 _) hm.1)
        by_cases hk : k = j
        · subst hk
          refine Or.inr ⟨k1, ?_⟩
          rw [h3]
          exact Nat.le_trans k4 (hc _)
        · left; omega
    · cases hs
  | dN g' p w tg tp =>
    rw [hp] at hP
    obtain ⟨j, h1, h2, h3, h4, h5⟩ := hP
    simp only [MpFifo.run, hp] at hs
    obtain ⟨o1, o2, o3, o4⟩ := opt_load hw fc.dload
    generalize opt fc.dload Th.fenceLoad (s.th t) = q at hs o1 o2 o3 o4
    split at hs
    · next hm =>
      obtain rfl := Option.some.inj hs
      have hm1 : i ≤ s.mem.top (.next p) := hm.1.2
      have hm2 : w (.next p) ≤ i := hm.2 hd
      have hm3 : (s.th t).cur (.next p) ≤ i := Nat.le_trans (o2 _) hm.1.1
      subst h3
      have hc : ∀ y, (s.th t).cur y ≤ (q.load s.mem (.next (s.g.ent j)) i).cur y := fun y => Nat.le_trans (o2 y) (q.load_cur_le _ _ _ _)
      refine h.loc t (o1.load h.c.mwf hm1) hc ?_ (fun x hx => ?_)
      · rcases h.c.next h2 (Nat.le_trans h4.1 hm2) hm1 with ⟨b1, b2⟩ | ⟨b1, b2⟩
        · have b1 : (s.mem.msg (.next (s.g.ent j)) i).val.p = none := b1
          rw [b1]
          simp only
          split
          · next ht =>
            show s.kn t ≤ s.mem.top .head
            rcases h5 ht with h6 | ⟨_, h6⟩
            · exact Nat.le_trans h6 h1
            · omega
          · trivial
        · cases hv : (s.mem.msg (.next (s.g.ent j)) i).val.p with
          | none =>
            simp only
            have h6 := h.c.ln j (by
              rcases Nat.lt_or_ge j s.g.len with h3 | h3
              · exact h3
              · have : j = s.g.len := by omega
                subst this
                have := h.c.lt
                have hm1 : i ≤ s.g.mem.top (.next (s.g.ent s.g.len)) := hm1
                omega)
            rw [← b1] at h6
            have := h6.2.1
            have hv : (s.g.mem.msg (.next (s.g.ent j)) i).val.p = none := hv
            rw [hv] at this; cases this
          | some y =>
            simp only
            split
            · exact ⟨j, rfl, b2 y hv⟩
            · exact ⟨j, rfl, b2 y hv⟩
      · split at hx <;> (split at hx <;> simp at hx)
    · cases hs
  | dF tg p y u =>
    rw [hp] at hP
    obtain ⟨j, h1, b1, b2, b3, b5⟩ := hP
    simp only [MpFifo.run, hp] at hs
    obtain rfl := Option.some.inj hs
    have hrel : ∀ y, u y ≤ join (s.th t).rel u y := le_join_right _ _
    exact h.tail hd t hw (fun _ => Nat.le_refl _) b5 h1 b1 b2 (b3.mono hrel) (Or.inr (Or.inl rfl))
  | dV g' p y u =>
    rw [hp] at hP
    obtain ⟨j, h1, ⟨b1, b2, b3, b5⟩⟩ := hP
    simp only [MpFifo.run, hp] at hs
    split at hs
    · next hm =>
      obtain rfl := Option.some.inj hs
      have hm1 : i ≤ s.mem.top (.val y) := hm.1.2
      have hm2 : u (.val y) ≤ i := hm.2 hd
      have hi : i = s.g.ix y := by
        have := b3.2.1
        rw [← b2] at this
        exact Nat.le_antisymm hm1 (Nat.le_trans this hm2)
      have hv : (s.mem.msg (.val y) i).val.o = s.put[j]? := by
        have := h.c.vl j b1
        rw [hi, b2]; exact this
      refine h.loc t (hw.load h.c.mwf hm1) (hcl _ _) ⟨j, h1, ⟨b1, b2, b3, b5⟩, hv, fun v' hv' => ?_⟩ (by simp)
      exact Nat.le_trans (b3.2.2 j v' rfl (by rw [hv] at hv'; exact hv')) (le_join_left _ _ _)
    · cases hs
  | dC g' p y u v uv => exact h.dC hd t hp hs

theorem Inv.fill {s : St V n} (h : Inv s) (t : Fin n) (o : V) (d : Nat) (hp : s.pc t = .idle) :
    Inv { s with mem := s.mem.store (s.th t) (.dat o) { d := d }, th := upd s.th t ((s.th t).store s.mem (.dat o)) } := by
  have hw := (h.t t).wf
  have hput := Put.store s.mem (s.th t) (.dat o) ({ d := d } : W V)
  have hC := h.c.other (m' := s.mem.store (s.th t) (.dat o) { d := d }) (fr := s.free) (h.c.mwf.store hw _ _) (hput.top_ne (by simp)) (hput.top_ne (by simp)) (fun i _ => hput.top_ne (by simp))
    (fun i _ => hput.top_ne (by simp)) hput.top_le hput.old (fun x hx => by rw [hput.top_ne (by simp), hput.top_ne (by simp)]; exact h.c.un x hx) h.c.fr
  have e : Ext s.g _ := Ext.other (g := s.g) (m' := s.mem.store (s.th t) (.dat o) { d := d }) (fr := s.free) (fun i _ => hput.top_ne (by simp)) hput.top_le hput.old
  refine h.one t hC e (fun u hu => by simp [upd_ne _ _ hu]) (fun u x hu hx => ?_) ?_ (fun x hx u hne hx' => ?_)
  · obtain ⟨v, hv⟩ := (h.t u).pc.hold hx
    exact ⟨rfl, hv.2.1, hput.top_ne (by simp), hput.top_ne (by simp)⟩
  · simp only [upd_same]
    refine ((h.t t).idle.ext e h.c.gle (by simp)).with (hw.store _ _) (fun y => ?_) (by rw [hp]; trivial)
    show _ ≤ upd _ _ _ y
    rw [upd_apply]; split
    · next e => subst e; exact Nat.le_succ_of_le (hw _).1
    · exact Nat.le_refl _
  · have hx : (s.pc t).hx = some x := hx
    rw [hp] at hx; simp at hx

theorem Inv.enq {s : St V n} (h : Inv s) (t : Fin n) (x : Nat) (v : V) (hp : s.pc t = .idle) (hx : s.free x = true) :
    Inv { s with
      mem := prepM s.mem (s.th t) x v, th := upd s.th t (prepT s.mem (s.th t) x v).fenceStore
      pc := upd s.pc t (.eT x v), free := upd s.free x false } := by
  have hw := (h.t t).wf
  have p1 := Put.store s.mem (s.th t) (.val x) ({ o := some v } : W V)
  have p2 := Put.store (s.mem.store (s.th t) (.val x) { o := some v }) ((s.th t).store s.mem (.val x)) (.next x) ({} : W V)
  have hnx : ∀ i, i ≤ s.g.len → s.g.ent i ≠ x := fun i hi e => by
    have := h.c.fr i hi
    rw [e] at this
    rw [show s.g.free x = s.free x from rfl, hx] at this; cases this
  have htop : ∀ l, l ≠ .val x → l ≠ .next x → (prepM s.mem (s.th t) x v).top l = s.mem.top l := fun l h1 h2 => by
    show ((s.mem.store _ _ _).store _ _ _).top l = _
    rw [p2.top_ne h2, p1.top_ne h1]
  have htv : (prepM s.mem (s.th t) x v).top (.val x) = s.mem.top (.val x) + 1 := by
    show ((s.mem.store _ _ _).store _ _ _).top _ = _
    rw [p2.top_ne (by simp), p1.top, if_pos rfl]
  have htn : (prepM s.mem (s.th t) x v).top (.next x) = s.mem.top (.next x) + 1 := by
    show ((s.mem.store _ _ _).store _ _ _).top _ = _
    rw [p2.top, if_pos rfl, p1.top_ne (by simp)]
  have hun : s.mem.top (.next x) = s.mem.top (.val x) := h.c.un x hnx
  have hle : ∀ l, s.mem.top l ≤ (prepM s.mem (s.th t) x v).top l := fun l => Nat.le_trans (p1.top_le l) (p2.top_le l)
  have hold : ∀ l i, i ≤ s.mem.top l → (prepM s.mem (s.th t) x v).msg l i = s.mem.msg l i := fun l i hi => by
    show ((s.mem.store _ _ _).store _ _ _).msg l i = _
    rw [p2.old _ _ (Nat.le_trans hi (p1.top_le l)), p1.old _ _ hi]
  have hwf1 : ((s.th t).store s.mem (.val x)).Wf (s.mem.store (s.th t) (.val x) { o := some v }) := hw.store _ _
  have hC := h.c.other (m' := prepM s.mem (s.th t) x v) (fr := upd s.free x false) ((h.c.mwf.store hw _ _).store hwf1 _ _) (htop _ (by simp) (by simp)) (htop _ (by simp) (by simp))
    (fun i hi => htop _ (by simpa using hnx i hi) (by simp)) (fun i hi => htop _ (by simp) (by simpa using hnx i hi)) hle hold
    (fun y hy => by
      by_cases e : y = x
      · subst e; rw [htv, htn, hun]
      · rw [htop _ (by simp) (by simpa using e), htop _ (by simpa using e) (by simp)]; exact h.c.un y hy)
    (fun i hi => by rw [upd_ne _ _ (hnx i hi)]; exact h.c.fr i hi)
  have e : Ext s.g _ := Ext.other (g := s.g) (m' := prepM s.mem (s.th t) x v) (fr := upd s.free x false) (fun i hi => htop _ (by simpa using hnx i hi) (by simp)) hle hold
  have hother : ∀ u y, (s.pc u).hx = some y → y ≠ x := fun u y hy e => by
    obtain ⟨v, hv⟩ := (h.t u).pc.hold hy
    have := hv.1
    rw [e] at this
    rw [show s.g.free x = s.free x from rfl, hx] at this; cases this
  refine h.one t hC e (fun u hu => by simp [upd_ne _ _ hu]) (fun u y hu hy => ?_) ?_ (fun y hy u hne hy' => ?_)
  · obtain ⟨v, hv⟩ := (h.t u).pc.hold hy
    have hne := hother u y hy
    exact ⟨upd_ne _ _ hne, hv.2.1, htop _ (by simpa using hne) (by simp), htop _ (by simp) (by simpa using hne)⟩
  · simp only [upd_same]
    refine ((h.t t).idle.ext e h.c.gle (by simp)).with (hwf1.store _ _).fenceStore (fun y => ?_) ?_
    · show (s.th t).cur y ≤ upd (upd (s.th t).cur (.val x) (s.mem.top (.val x) + 1)) (.next x) ((s.mem.store (s.th t) (.val x) { o := some v }).top (.next x) + 1) y
      rw [p1.top_ne (by simp), upd_apply]; split
      · next e => subst e; exact Nat.le_succ_of_le (hw _).1
      · rw [upd_apply]; split
        · next e => subst e; exact Nat.le_succ_of_le (hw _).1
        · exact Nat.le_refl _
    · have hwr : ∀ y, (prepT s.mem (s.th t) x v).wr y ≤ (prepT s.mem (s.th t) x v).fenceStore.rel y := fun y => le_join_right _ _ y
      refine ⟨upd_same _ _ _, hnx, ?_, ?_, ?_, ?_, ?_, ?_⟩
      · show (prepM s.mem (s.th t) x v).top (.next x) = (prepM s.mem (s.th t) x v).top (.val x)
        rw [htn, htv, hun]
      · show ((prepM s.mem (s.th t) x v).msg (.next x) ((prepM s.mem (s.th t) x v).top (.val x))).val.p = none
        have := p2.new
        rw [p1.top_ne (by simp)] at this
        rw [htv, ← hun]
        show (((s.mem.store _ _ _).store _ _ _).msg _ _).val.p = none
        rw [this]
      · show ((prepM s.mem (s.th t) x v).msg (.val x) ((prepM s.mem (s.th t) x v).top (.val x))).val.o = some v
        rw [htv]
        show (((s.mem.store _ _ _).store _ _ _).msg _ _).val.o = some v
        rw [p2.old _ _ (by rw [p1.top, if_pos rfl]; exact Nat.le_refl _), p1.new]
      · show (prepM s.mem (s.th t) x v).top (.val x) ≤ _
        refine Nat.le_trans ?_ (hwr _)
        show _ ≤ upd (upd (s.th t).wr (.val x) (s.mem.top (.val x) + 1)) (.next x) ((s.mem.store (s.th t) (.val x) { o := some v }).top (.next x) + 1) (.next x)
        rw [htv, p1.top_ne (by simp), upd_same, hun]; exact Nat.le_refl _
      · show (prepM s.mem (s.th t) x v).top (.val x) ≤ _
        refine Nat.le_trans ?_ (hwr _)
        show _ ≤ upd (upd (s.th t).wr (.val x) (s.mem.top (.val x) + 1)) (.next x) ((s.mem.store (s.th t) (.val x) { o := some v }).top (.next x) + 1) (.val x)
        rw [htv, upd_ne _ _ (by simp), upd_same]; exact Nat.le_refl _
      · exact hwr (.dat v)
  · simp only [upd_same, PC.hx, Option.some.injEq] at hy
    exact hother u y hy' hy.symm

theorem Inv.init : Inv (initSt : St V n) := by
  refine ⟨⟨Mem.Wf.init _, ?_, ?_, ?_, ?_, ?_, ?_, ?_, ?_, ?_, ?_, ?_, ?_, ?_⟩, fun t => ⟨Th.Wf.init _, Or.inl (Nat.le_refl _), ?_, trivial⟩, ?_⟩ <;>
    simp (config := { decide := true }) [initSt, St.g, Mem.init, Init, G.len, G.ix]
  all_goals (intros; first | rfl | omega | simp_all)

theorem Inv.step {fc : Fences} (he : fc.enq = true) (hd : fc.dep = true) {s s' : St V n} {a : Act V n} (h : Inv s) (hs : step fc s a = some s') : Inv s' := by
  cases a with
  | fill t o d =>
    obtain ⟨h1, rfl⟩ := Option.ite_none_right_eq_some.mp hs |>.imp_right Option.some.inj
    exact h.fill t o d h1
  | enq t x v =>
    simp only [MpFifo.step, he] at hs
    obtain ⟨h1, rfl⟩ := Option.ite_none_right_eq_some.mp hs |>.imp_right Option.some.inj
    exact h.enq t x v h1.1 h1.2
  | deq t =>
    obtain ⟨h1, rfl⟩ := Option.ite_none_right_eq_some.mp hs |>.imp_right Option.some.inj
    exact h.goto t trivial (by simp)
  | run t i g => exact h.run hd t hs
  | back t =>
    have hP := (h.t t).pc
    simp only [MpFifo.step] at hs
    split at hs
    · next hp =>
      rw [hp] at hP
      obtain rfl := Option.some.inj hs
      exact h.goto t hP.1 (fun x hx => by rw [hp]; exact hx)
    · cases hs
  | quit t =>
    have hP := (h.t t).pc
    simp only [MpFifo.step] at hs
    split at hs
    · next x v hp =>
      rw [hp] at hP
      obtain rfl := Option.some.inj hs
      have hother : ∀ u y, u ≠ t → (s.pc u).hx = some y → y ≠ x := fun u y hu hy e => hu (h.u u t x (by rw [← e]; exact hy) (by rw [hp]; rfl))
      have hC := h.c.other (m' := s.mem) (fr := upd s.free x true) h.c.mwf rfl rfl (fun _ _ => rfl) (fun _ _ => rfl) (fun _ => Nat.le_refl _) (fun _ _ _ => rfl) h.c.un
        (fun i hi => by rw [upd_ne _ _ (hP.2.1 i hi)]; exact h.c.fr i hi)
      have e : Ext s.g _ := Ext.other (g := s.g) (m' := s.mem) (fr := upd s.free x true) (fun _ _ => rfl) (fun _ => Nat.le_refl _) (fun _ _ _ => rfl)
      refine h.one t hC e (fun u hu => by simp [St.goto, upd_ne _ _ hu]) (fun u y hu hy => ?_) ?_ (fun y hy u hne hy' => ?_)
      · obtain ⟨v, hv⟩ := (h.t u).pc.hold hy
        exact ⟨upd_ne _ _ (hother u y hu hy), hv.2.1, rfl, rfl⟩
      · simp only [St.goto, upd_same]
        exact (h.t t).idle.ext e h.c.gle (by simp)
      · simp [St.goto] at hy
    · next hp =>
      obtain rfl := Option.some.inj hs
      exact h.goto t trivial (by simp)
    · cases hs
  | look t i =>
    simp only [MpFifo.step] at hs
    split at hs
    · split at hs
      · next hm =>
        obtain rfl := Option.some.inj hs
        refine h.loc' t ((h.t t).wf.load h.c.mwf hm.1.2) (fun y => (s.th t).load_cur_le _ _ _ _) ?_
        exact (h.t t).pc.thr rfl rfl (fun y => (s.th t).load_cur_le _ _ _ _)
      · cases hs
    · cases hs
  | sync t u =>
    obtain ⟨h1, rfl⟩ := Option.ite_none_right_eq_some.mp hs |>.imp_right Option.some.inj
    refine h.one t h.c (Ext.refl _) (fun u hu => by simp [upd_ne _ _ hu]) (fun u x hu hx => ?_) ?_ (fun x hx u hne hx' => ?_)
    · obtain ⟨v, hv⟩ := (h.t u).pc.hold hx
      exact ⟨rfl, hv.2.1, rfl, rfl⟩
    · simp only [upd_same]
      refine ⟨fun y => ⟨join_le ((h.t t).wf y).1 ((h.t u).wf y).1, ((h.t t).wf y).2⟩, ?_, (h.t t).ob, by rw [h1]; trivial⟩
      rcases Nat.le_total (s.kn t) (s.kn u) with hk | hk
      · rw [Nat.max_eq_right hk]
        exact (h.t u).lk.mono (fun y => le_join_right _ _ y) (le_join_right _ _ _)
      · rw [Nat.max_eq_left hk]
        exact (h.t t).lk.mono (fun y => le_join_left _ _ y) (le_join_left _ _ _)
    · have hx : (s.pc t).hx = some x := hx
      rw [h1] at hx; simp at hx

theorem reach_inv {fc : Fences} (he : fc.enq = true) (hd : fc.dep = true) {s : St V n} (h : (sys fc V n).Reach s) : Inv s :=
  Sys.Reach.invariant (I := Inv) (fun _ e => e ▸ Inv.init) (fun _ _ _ hi hs => hi.step he hd hs) h

/-! ## The property -/

/-- C100: the values come out in the order in which they were enqueued, each at most once. -/
theorem fifo {fc : Fences} (he : fc.enq = true) (hd : fc.dep = true) {s : St V n} (h : (sys fc V n).Reach s) : s.got <+: s.put.map some := by
  have hc := (reach_inv he hd h).c
  have hl : s.got.length ≤ s.put.length := hc.gle
  have : s.got = (s.put.map some).take s.got.length := by
    apply List.ext_getElem?
    intro i
    by_cases hi : i < s.got.length
    · rw [List.getElem?_take_of_lt hi, List.getElem?_map]
      have h1 : s.got[i]? = some s.put[i]? := hc.gp i hi
      rw [h1, List.getElem?_eq_getElem (show i < s.put.length by omega)]; rfl
    · rw [List.getElem?_eq_none (by omega), List.getElem?_eq_none (by simp; omega)]
  rw [this]
  exact List.take_prefix _ _

/-- C100: who dequeued a value sees what the thread that enqueued it had stored to the object before. -/
theorem look_ok {fc : Fences} (he : fc.enq = true) (hd : fc.dep = true) {s s' : St V n} {t : Fin n} {v : V} {u : View (Loc V)} {j i : Nat} (h : (sys fc V n).Reach s) (ho : s.obj t = some (v, u, j)) (hs : step fc s (.look t i) = some s') :
    ∃ k, j = k + 1 ∧ s.put[k]? = some v ∧ s.got[k]? = some (some v) ∧ s.dx j ≤ i := by
  have hi := reach_inv he hd h
  obtain ⟨k, h1, h2, h3, h4⟩ := (hi.t t).ob v u j ho
  simp only [step, ho] at hs
  split at hs
  · next hm =>
    have h5 : s.got[k]? = some s.put[k]? := hi.c.gp k (by show k < s.g.got.length; omega)
    have h3' : s.put[k]? = some v := h3
    exact ⟨k, h1, h3, by rw [h5, h3'], Nat.le_trans h4 (hm.2 hd)⟩
  · cases hs

/-- C100: a dequeue that finds nothing: all values whose enqueue the thread knows of have been dequeued. -/
theorem empty_ok {fc : Fences} (he : fc.enq = true) (hd : fc.dep = true) {s : St V n} (h : (sys fc V n).Reach s) {t : Fin n} (hp : s.pc t = .none) : s.kn t ≤ s.got.length := by
  have hi := reach_inv he hd h
  have := (hi.t t).pc
  rw [hp] at this
  have hl : s.mem.top .head = s.got.length := hi.c.hl
  have h1 : s.kn t ≤ s.mem.top .head := this
  omega

/-- C100: whatever a thread loads from `head` and `tail`, it can dereference. -/
theorem ptr_ok {fc : Fences} (he : fc.enq = true) (hd : fc.dep = true) {s : St V n} (h : (sys fc V n).Reach s) :
    (∀ i, i ≤ s.mem.top .head → (s.mem.msg .head i).val.p ≠ none) ∧ ∀ i, i ≤ s.mem.top .tail → (s.mem.msg .tail i).val.p ≠ none := by
  have hc := (reach_inv he hd h).c
  refine ⟨fun i hi => ?_, fun i hi => ?_⟩
  · have : (s.mem.msg .head i).val.p = some (s.ent i) := (hc.hm i hi).1
    rw [this]; simp
  · have : (s.mem.msg .tail i).val.p = some (s.ent i) := (hc.tm i hi).1
    rw [this]; simp

/-- `put` is a log: it only grows, when an enqueue takes effect. -/
theorem put_log {fc : Fences} {s s' : St V n} {a : Act V n} (hs : step fc s a = some s') :
    (s'.put = s.put ∧ s'.dx = s.dx ∧ (∀ t, s'.kn t = s.kn t ∨ s'.kn t = max (s.kn t) (s'.got.length) ∨ ∃ u, a = .sync t u ∧ s'.kn t = max (s.kn t) (s.kn u)) ∧
      ∀ t x g p, s'.pc t = .eF x g p → s.pc t = .eF x g p) ∨
    ∃ t i g x v g' p ng u, a = .run t i g ∧ s.pc t = .eC x v g' p ng none u ∧ s'.pc t = .eF x g' p ∧ s'.put = s.put ++ [v] ∧ s'.dx = upd s.dx (s.put.length + 1) ((s.th t).wr (.dat v)) ∧
      s'.kn t = s.put.length + 1 := by
  cases a with
  | run t i g =>
    cases hp : s.pc t with
    | eC x v g' p ng r u =>
      cases r with
      | some y =>
        left
        simp only [step, MpFifo.run, hp] at hs
        obtain rfl := Option.some.inj hs
        unfold cas
        split <;> simp only [Option.getD_some, Option.getD_none, St.goto, fail] <;> grind
      | none =>
        simp only [step, MpFifo.run, hp] at hs
        split at hs
        · next s1 hc =>
          obtain rfl := Option.some.inj hs
          right
          exact ⟨t, i, g, x, v, g', p, ng, u, rfl, hp, by simp [St.goto], rfl, rfl, by simp [St.goto]⟩
        · obtain rfl := Option.some.inj hs
          left
          simp only [St.goto, fail]; grind
    | dC g' p y u v uv =>
      left
      simp only [step, MpFifo.run, hp] at hs
      split at hs
      · next s1 hc =>
        obtain ⟨_, _, rfl⟩ := cas_eq hc
        obtain rfl := Option.some.inj hs
        simp only [St.goto, List.length_append, List.length_singleton]; grind
      · obtain rfl := Option.some.inj hs
        simp only [St.goto, fail]; grind
    | idle => simp [step, MpFifo.run, hp] at hs
    | _ =>
      left
      simp only [step, MpFifo.run, hp] at hs
      first
        | (obtain rfl := Option.some.inj hs
           unfold cas
           split <;> simp only [Option.getD_some, Option.getD_none, St.goto, fail] <;> grind)
        | (obtain rfl := Option.some.inj hs
           simp only [St.goto]; grind)
        | (split at hs
           · (first | (obtain ⟨_, _, rfl⟩ := Option.map_eq_some_iff.mp hs) | (obtain rfl := Option.some.inj hs)) <;> simp only <;> grind
           · cases hs)
  | _ =>
    left
    simp only [step] at hs
    (repeat' split at hs) <;> first | (obtain rfl := Option.some.inj hs; simp only [St.goto]; grind) | cases hs

/-- `got` is a log: it only grows, when a dequeue takes effect. -/
theorem got_log {fc : Fences} {s s' : St V n} {a : Act V n} (hs : step fc s a = some s') :
    (s'.got = s.got ∧ s'.obj = s.obj) ∨
    ∃ t i g g' p y u v uv, a = .run t i g ∧ s.pc t = .dC g' p y u v uv ∧ s'.pc t = .idle ∧ s'.got = s.got ++ [v] ∧ s'.obj t = v.map fun v => (v, uv, s.got.length + 1) := by
  cases a with
  | run t i g =>
    cases hp : s.pc t with
    | eC x v g' p ng r u =>
      left
      cases r with
      | some y =>
        simp only [step, MpFifo.run, hp] at hs
        obtain rfl := Option.some.inj hs
        unfold cas
        split <;> simp only [Option.getD_some, Option.getD_none, St.goto, fail] <;> grind
      | none =>
        simp only [step, MpFifo.run, hp] at hs
        split at hs
        · next s1 hc =>
          obtain ⟨_, _, rfl⟩ := cas_eq hc
          obtain rfl := Option.some.inj hs
          exact ⟨rfl, rfl⟩
        · obtain rfl := Option.some.inj hs
          exact ⟨rfl, rfl⟩
    | dC g' p y u v uv =>
      simp only [step, MpFifo.run, hp] at hs
      split at hs
      · next s1 hc =>
        obtain rfl := Option.some.inj hs
        right
        exact ⟨t, i, g, g', p, y, u, v, uv, rfl, hp, by simp [St.goto], rfl, by simp⟩
      · obtain rfl := Option.some.inj hs
        exact Or.inl ⟨rfl, rfl⟩
    | idle => simp [step, MpFifo.run, hp] at hs
    | _ =>
      left
      simp only [step, MpFifo.run, hp] at hs
      first
        | (obtain rfl := Option.some.inj hs
           unfold cas
           split <;> simp only [Option.getD_some, Option.getD_none, St.goto, fail] <;> grind)
        | (obtain rfl := Option.some.inj hs
           simp only [St.goto]; grind)
        | (split at hs
           · (first | (obtain ⟨_, _, rfl⟩ := Option.map_eq_some_iff.mp hs) | (obtain rfl := Option.some.inj hs)) <;> simp only <;> grind
           · cases hs)
  | _ =>
    left
    simp only [step] at hs
    (repeat' split at hs) <;> first | (obtain rfl := Option.some.inj hs; simp only [St.goto]; grind) | cases hs

end Verif.Weak.MpFifo
