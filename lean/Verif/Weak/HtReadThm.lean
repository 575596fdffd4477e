import Verif.Weak.HtRead
import Verif.Core.Tactic

/-!
# Readers of a hash table on relaxed memory: what a lookup returns (C99)

`Out x a`: some value of `deletions`, and all later ones, tell that message `a` of the key of slot `x` is outdated.  `Torn x a c`: whoever has loaded message `a` of the key and `c` of the value learns
such a value of `deletions`.
-/

namespace Verif.Weak.HtRead

open Verif
open Fas (opt)

variable {K V : Type} {n : Nat}

def Out (m : Mem Loc (Val K V)) (x a D : Nat) : Prop := D ≤ m.top .del ∧ ∀ D', D ≤ D' → D' ≤ m.top .del → a < (m.msg .del D').view (.key x)

def Torn (m : Mem Loc (Val K V)) (x a c : Nat) : Prop := ∃ D, D ≤ (m.msg (.val x) c).view .del ∧ Out m x a D

/-- All three repairs. -/
def Fixed (fc : Fences) : Prop := fc.set = true ∧ fc.rd1 = true ∧ fc.rd2 = true

/-- All repairs, or no tombstone was reused since `b`. -/
def Ok (fc : Fences) (s : St K V n) (b : Nat) : Prop := Fixed fc ∨ s.reu ≤ b

/-- `x` is being reused. -/
def Busy (p : WPC K V) (x : Nat) : Prop := ∃ k v, p = .val k x v ∨ p = .key k x v

/-- A message `a` of the key of slot `x` with key `k` is of the entry in the slot, or the slot is a tombstone, or `deletions` tells. -/
def O (fc : Fences) (s : St K V n) (x a : Nat) (k : K) : Prop :=
  s.mem.last (.key x) = .key k ∨ (s.mem.last (.key x) = .tomb ∧ (Fixed fc → ¬ Busy s.wpc x)) ∨ (Fixed fc ∧ ∃ D, Out s.mem x a D)

/-- `k` had this value since `b`. -/
def Was (s : St K V n) (b : Nat) (k : K) (v : V) : Prop := ∃ t, b ≤ t ∧ t ≤ s.now ∧ s.hist t k = some v

/-- Whoever has loaded message `a` of the key of slot `x`, and loads the value at `lo` or later, gets a value that `k` had, or learns of the reuse. -/
def Pair (fc : Fences) (s : St K V n) (b lo x a : Nat) (k : K) : Prop :=
  Ok fc s b → O fc s x a k ∧ ∀ c, lo ≤ c → (s.mem.msg (.key x) a).view (.val x) ≤ c → c ≤ s.mem.top (.val x) →
    (∃ v, (s.mem.msg (.val x) c).val = .usr v ∧ Was s b k v) ∨ (Fixed fc ∧ Torn s.mem x a c)

/-- What holds inside of a call. -/
def Pc (fc : Fences) (s : St K V n) (q : Rd K V) : RPC K V → Prop
  | .probe _ d => d ≤ s.mem.top .del ∧ (fc.rd1 = true → ∀ x, (s.mem.msg .del d).view (.key x) ≤ q.th.cur (.key x))
  | .vload k d x a => (fc.rd1 = true → d ≤ s.mem.top .del ∧ (s.mem.msg .del d).view (.key x) ≤ a) ∧ a ≤ s.mem.top (.key x) ∧ (s.mem.msg (.key x) a).val = .key k
      ∧ (s.mem.msg (.key x) a).view (.val x) ≤ q.th.cur (.val x) ∧ Pair fc s q.b (q.th.cur (.val x)) x a k
  | .chk k d res => ∀ v, res = some v → Ok fc s q.b → Was s q.b k v ∨ (Fixed fc ∧ d < q.th.acq .del)
  | .ret k res => ∀ v, res = some v → Ok fc s q.b → Was s q.b k v
  | _ => True

structure RInv (fc : Fences) (s : St K V n) (q : Rd K V) : Prop where
  wf : q.th.Wf s.mem
  bn : q.b ≤ s.now
  pair : ∀ x a k, q.th.cur (.key x) ≤ a → a ≤ s.mem.top (.key x) → (s.mem.msg (.key x) a).val = .key k → Pair fc s q.b (q.th.cur (.val x)) x a k
  pc : Pc fc s q q.pc

structure Base (m : Mem Loc (Val K V)) (w : Th Loc) : Prop where
  mwf : m.Wf
  wwf : w.Wf m
  cur : ∀ l, w.cur l = m.top l
  wr : ∀ l, w.wr l = m.top l
  rel : w.rel .del = m.top .del
  dval : ∀ i, i ≤ m.top .del → (m.msg .del i).val.toNat = i
  ne : ∀ x i i', i ≤ i' → i' ≤ m.top (.key x) → (m.msg (.key x) i').val = .empty → (m.msg (.key x) i).val = .empty
  mono : ∀ i x, i ≤ m.top .del → (m.msg .del i).view (.key x) ≤ w.rel (.key x)
  tmb : ∀ x, m.last (.key x) = .tomb → w.rel (.key x) = m.top (.key x)

structure WInv (s : St K V n) : Prop where
  base : Base s.mem s.w
  here : ∀ k x, s.pos k = some x → s.mem.last (.key x) = .key k ∧ ∃ v, s.mem.last (.val x) = .usr v ∧ s.hist s.now k = some v
  gone : ∀ k, s.pos k = none → s.hist s.now k = none
  own : ∀ x k, s.mem.last (.key x) = .key k → s.pos k = some x ∨ s.wpc = .incr k x ∨ s.wpc = .tomb k x
  wval : ∀ k x v, s.wpc = .val k x v → s.mem.last (.key x) = .tomb
  wkey : ∀ k x v, s.wpc = .key k x v → s.mem.last (.val x) = .usr v ∧ s.w.rel (.val x) = s.mem.top (.val x)
    ∧ (s.mem.last (.key x) = .empty ∨ s.mem.last (.key x) = .tomb ∧ s.reu = s.now + 1)
  wold : ∀ k y, s.wpc = .incr k y ∨ s.wpc = .tomb k y → s.mem.last (.key y) = .key k ∧ s.pos k ≠ some y
  wrek : ∀ k x, s.wpc = .rekey k x → s.pos k = some x ∧ s.w.rel (.val x) = s.mem.top (.val x)

/-- Whoever has loaded a key from a slot finds a value there. -/
def Full (m : Mem Loc (Val K V)) : Prop :=
  ∀ x a k, a ≤ m.top (.key x) → (m.msg (.key x) a).val = .key k → ∀ c, (m.msg (.key x) a).view (.val x) ≤ c → c ≤ m.top (.val x) → ∃ v, (m.msg (.val x) c).val = .usr v

structure Inv (fc : Fences) (s : St K V n) : Prop where
  w : WInv s
  full : Full s.mem
  r : ∀ r, RInv fc s (s.rd r)

/-! ## Stores of the writer -/

theorem Out.lt {m : Mem Loc (Val K V)} {w : Th Loc} (hb : Base m w) {x a D : Nat} (h : Out m x a D) : a < w.rel (.key x) :=
  Nat.lt_of_lt_of_le (h.2 _ h.1 (Nat.le_refl _)) (hb.mono _ x (Nat.le_refl _))

theorem Out.put {m m' : Mem Loc (Val K V)} {l : Loc} {v : Val K V} {w : View Loc} {x a D : Nat} (h : Out m x a D) (hp : Put m m' l v w)
    (hd : l = .del → a < w (.key x)) : Out m' x a D := by
  refine ⟨Nat.le_trans h.1 (hp.top_le _), fun D' h1 h2 => ?_⟩
  by_cases hl : l = .del
  · subst hl
    rw [hp.top, if_pos rfl] at h2
    by_cases e : D' = m.top .del + 1
    · subst e; rw [hp.new]; exact hd rfl
    · rw [hp.old _ _ (by omega)]; exact h.2 D' h1 (by omega)
  · rw [hp.top_ne (Ne.symm hl)] at h2
    rw [hp.old _ _ h2]; exact h.2 D' h1 h2

/-- What a store of the writer does for readers. -/
structure WStep (fc : Fences) (s s' : St K V n) (l : Loc) (v : Val K V) (w : View Loc) : Prop where
  usr : ∀ x, l = .val x → ∃ v', v = .usr v'
  put : Put s.mem s'.mem l v w
  now : s.now ≤ s'.now
  hist : ∀ t, t ≤ s.now → s'.hist t = s.hist t
  reu : s'.reu = s.reu ∨ s.now < s'.reu
  del : l = .del → ∀ x, s.w.rel (.key x) ≤ w (.key x)
  out : ∀ b, b ≤ s.now → Ok fc s' b → ∀ x a k, a ≤ s.mem.top (.key x) → (s.mem.msg (.key x) a).val = .key k → O fc s x a k → O fc s' x a k
  newk : ∀ x k, l = .key x → v = .key k → w (.val x) = s.mem.top (.val x) ∧ ∃ v', s.mem.last (.val x) = .usr v' ∧ s'.hist s'.now k = some v'
  newv : ∀ b, b ≤ s.now → Ok fc s' b → ∀ x, l = .val x → ∀ a k, a ≤ s.mem.top (.key x) → (s.mem.msg (.key x) a).val = .key k → O fc s x a k →
    (∃ v', v = .usr v' ∧ s'.hist s'.now k = some v') ∨ (Fixed fc ∧ ∃ D, D ≤ w .del ∧ Out s.mem x a D)

theorem WStep.ok {fc : Fences} {s s' : St K V n} {l : Loc} {v : Val K V} {w : View Loc} (h : WStep fc s s' l v w) {b : Nat} (hb : b ≤ s.now) (hk : Ok fc s' b) :
    Ok fc s b := hk.imp_right fun h1 => by
  rcases h.reu with h2 | h2 <;> omega

theorem WStep.was {fc : Fences} {s s' : St K V n} {l : Loc} {v : Val K V} {w : View Loc} (h : WStep fc s s' l v w) {b : Nat} {k : K} {x : V}
    (hw : Was s b k x) : Was s' b k x := by
  obtain ⟨t, h1, h2, h3⟩ := hw
  exact ⟨t, h1, Nat.le_trans h2 h.now, by rw [h.hist t h2]; exact h3⟩

theorem Pair.wstep {fc : Fences} {s s' : St K V n} {l : Loc} {v : Val K V} {w : View Loc} (hb : Base s.mem s.w) {b lo x a : Nat} {k : K} (hs : WStep fc s s' l v w)
    (hn : b ≤ s.now) (ho : a ≤ s.mem.top (.key x)) (h3 : (s.mem.msg (.key x) a).val = .key k) (h : Pair fc s b lo x a k) : Pair fc s' b lo x a k := by
  have hp := hs.put
  have hO : ∀ x a D, Out s.mem x a D → Out s'.mem x a D := fun x a D ho => ho.put hp fun e => Nat.lt_of_lt_of_le (ho.lt hb) (hs.del e x)
  intro hk
  obtain ⟨g1, g2⟩ := h (hs.ok hn hk)
  refine ⟨hs.out _ hn hk x a k ho h3 g1, fun c h4 h5 h6 => ?_⟩
  rw [hp.old _ _ ho] at h5
  by_cases hc : c ≤ s.mem.top (.val x)
  · rw [hp.old _ _ hc]
    rcases g2 c h4 h5 hc with ⟨v', e1, e2⟩ | ⟨e1, D, e2, e3⟩
    · exact .inl ⟨v', e1, hs.was e2⟩
    · exact .inr ⟨e1, D, by rw [hp.old _ _ hc]; exact e2, hO _ _ _ e3⟩
  · have e := hp.top (.val x)
    split at e
    · next el =>
      have ec : c = s.mem.top l + 1 := by rw [← el]; rw [← el] at e; omega
      rcases hs.newv _ hn hk x el.symm a k ho h3 g1 with ⟨v', e1, e2⟩ | ⟨e1, D, e2, e3⟩
      · left
        refine ⟨v', ?_, s'.now, Nat.le_trans hn hs.now, Nat.le_refl _, e2⟩
        rw [ec, el, hp.new]; exact e1
      · right
        refine ⟨e1, D, ?_, hO _ _ _ e3⟩
        rw [ec, el, hp.new]; exact e2
    · omega

theorem RInv.wstep {fc : Fences} {s s' : St K V n} {l : Loc} {v : Val K V} {w : View Loc} {q : Rd K V} (hb : Base s.mem s.w) (h : RInv fc s q)
    (hs : WStep fc s s' l v w) : RInv fc s' q := by
  have hn := hs.now
  have hp := hs.put
  refine ⟨h.wf.mono hp.top_le, Nat.le_trans h.bn hn, ?_, ?_⟩
  · intro x a k h1 h2 h3
    by_cases ho : a ≤ s.mem.top (.key x)
    · rw [hp.old _ _ ho] at h3
      exact (h.pair x a k h1 ho h3).wstep hb hs h.bn ho h3
    · intro hk
      have e := hp.top (.key x)
      split at e
      · next el =>
        have ea : a = s.mem.top l + 1 := by rw [← el]; rw [← el] at e; omega
        refine ⟨.inl ?_, fun c h4 h5 h6 => ?_⟩
        · have : a = s'.mem.top (.key x) := by omega
          rw [this] at h3
          exact h3
        · rw [ea, el, hp.new] at h3 h5
          obtain ⟨e1, v', e2, e3⟩ := hs.newk x k el.symm h3
          rw [hp.top_ne (by rw [← el]; simp)] at h6
          have ec : c = s.mem.top (.val x) := by
            have : w (.val x) ≤ c := h5
            omega
          left
          refine ⟨v', ?_, s'.now, Nat.le_trans h.bn hn, Nat.le_refl _, e3⟩
          rw [ec, hp.old _ _ (Nat.le_refl _)]; exact e2
      · omega
  · have hpc := h.pc
    have hk := fun e => hs.ok h.bn (fc := fc) e
    unfold Pc at hpc ⊢
    split at hpc
    · next k d _ =>
      exact ⟨Nat.le_trans hpc.1 (hp.top_le _), by rw [hp.old _ _ hpc.1]; exact hpc.2⟩
    · next k d x a _ =>
      obtain ⟨g1, g2, g3, g4, g5⟩ := hpc
      refine ⟨fun e => ⟨Nat.le_trans (g1 e).1 (hp.top_le _), by rw [hp.old _ _ (g1 e).1]; exact (g1 e).2⟩, Nat.le_trans g2 (hp.top_le _), ?_, ?_, g5.wstep hb hs h.bn g2 g3⟩
      · rw [hp.old _ _ g2]; exact g3
      · rw [hp.old _ _ g2]; exact g4
    · exact fun v e ho => (hpc v e (hk ho)).imp_left hs.was
    · exact fun v e ho => hs.was (hpc v e (hk ho))
    · trivial

theorem Base.fence {m : Mem Loc (Val K V)} {w : Th Loc} (h : Base m w) : Base m w.fenceStore := by
  refine ⟨h.mwf, h.wwf.fenceStore, h.cur, h.wr, ?_, h.dval, h.ne, fun i x hi => Nat.le_trans (h.mono i x hi) (le_join_left _ _ _), fun x hx => ?_⟩
  · show join w.rel w.wr _ = _
    rw [join_apply, h.rel, h.wr, Nat.max_self]
  · show join w.rel w.wr _ = _
    rw [join_apply, h.tmb x hx, h.wr, Nat.max_self]

/-- A store other than to `deletions`; a tombstone only together with a fence. -/
theorem Base.store {m : Mem Loc (Val K V)} {w : Th Loc} (h : Base m w) {l : Loc} {v : Val K V} {f : Bool} (hd : l ≠ .del) (hv : ∀ x, l = .key x → v ≠ .empty)
    (ht : ∀ x, l = .key x → v = .tomb → f = true) : Base (m.store w l v) (opt f Th.fenceStore (w.store m l)) := by
  have hp := Put.store m w l v
  have hw : ∀ y, (w.store m l).wr y = (m.store w l v).top y := by
    intro y
    rw [hp.top]; simp only [Th.store, upd_apply]; split
    · rfl
    · exact h.wr y
  have key : (∀ x, (m.store w l v).last (.key x) = .tomb → (opt f Th.fenceStore (w.store m l)).rel (.key x) = (m.store w l v).top (.key x)) := by
    intro x hx
    cases f with
    | true =>
      show join w.rel (w.store m l).wr _ = _
      rw [join_apply, hw]
      exact Nat.max_eq_right (Nat.le_trans (h.wwf (.key x)).2.2.2 (hp.top_le _))
    | false =>
      rw [hp.last] at hx
      split at hx
      · next e => exact absurd (ht x e.symm hx) (by simp)
      · next e => rw [hp.top_ne e]; exact h.tmb x hx
  have hrel : ∀ y, w.rel y ≤ (opt f Th.fenceStore (w.store m l)).rel y := by
    intro y
    cases f with
    | true => exact le_join_left _ _ _
    | false => exact Nat.le_refl _
  refine ⟨h.mwf.store h.wwf l v, ?_, fun y => ?_, fun y => ?_, ?_, fun i hi => ?_, fun x i i' h1 h2 h3 => ?_, fun i x hi => ?_, key⟩
  · cases f with
    | true => exact (h.wwf.store l v).fenceStore
    | false => exact h.wwf.store l v
  · have : (opt f Th.fenceStore (w.store m l)).cur y = (w.store m l).cur y := by cases f <;> rfl
    rw [this, hp.top]; simp only [Th.store, upd_apply]; split
    · rfl
    · exact h.cur y
  · have : (opt f Th.fenceStore (w.store m l)).wr y = (w.store m l).wr y := by cases f <;> rfl
    rw [this]; exact hw y
  · rw [hp.top_ne (Ne.symm hd)]
    cases f with
    | true =>
      show join w.rel (w.store m l).wr _ = _
      rw [join_apply, hw, hp.top_ne (Ne.symm hd), h.rel, Nat.max_self]
    | false => exact h.rel
  · rw [hp.top_ne (Ne.symm hd)] at hi
    rw [hp.old _ _ hi]; exact h.dval i hi
  · rw [hp.top] at h2
    split at h2
    · next e =>
      subst e
      by_cases e' : i' = m.top (.key x) + 1
      · subst e'; rw [hp.new] at h3; exact absurd h3 (hv x rfl)
      · rw [hp.old _ _ (by omega)] at h3 ⊢
        exact h.ne x i i' h1 (by omega) h3
    · rw [hp.old _ _ (by omega)] at h3 ⊢
      exact h.ne x i i' h1 h2 h3
  · rw [hp.top_ne (Ne.symm hd)] at hi
    rw [hp.old _ _ hi]; exact Nat.le_trans (h.mono i x hi) (hrel _)

theorem Base.incr {m : Mem Loc (Val K V)} {w : Th Loc} (h : Base m w) :
    Base (m.store w .del (.num ((m.last .del).toNat + 1))) (w.store m .del).fenceStore := by
  have hp := Put.store m w .del (.num ((m.last .del).toNat + 1))
  have hw : ∀ y, (w.store m .del).wr y = (m.store w .del (.num ((m.last .del).toNat + 1))).top y := by
    intro y
    rw [hp.top]; simp only [Th.store, upd_apply]; split
    · rfl
    · exact h.wr y
  refine ⟨h.mwf.store h.wwf _ _, (h.wwf.store _ _).fenceStore, fun y => ?_, hw, ?_, fun i hi => ?_, fun x i i' h1 h2 h3 => ?_, fun i x hi => ?_, fun x hx => ?_⟩
  · rw [hp.top]
    show upd w.cur _ _ y = _
    rw [upd_apply]; split
    · rfl
    · exact h.cur y
  · show join w.rel (w.store m .del).wr _ = _
    rw [join_apply, hw, h.rel]
    exact Nat.max_eq_right (hp.top_le _)
  · rw [hp.top, if_pos rfl] at hi
    by_cases e' : i = m.top .del + 1
    · rw [e', hp.new]
      show (m.last .del).toNat + 1 = _
      rw [Mem.last, h.dval _ (Nat.le_refl _)]
    · rw [hp.old _ _ (by omega)]; exact h.dval i (by omega)
  · rw [hp.top_ne (by simp)] at h2
    rw [hp.old _ _ (by omega)] at h3 ⊢
    exact h.ne x i i' h1 h2 h3
  · refine Nat.le_trans ?_ (le_join_left _ _ _)
    rw [hp.top, if_pos rfl] at hi
    by_cases e' : i = m.top .del + 1
    · rw [e', hp.new]
      show (upd w.rel .del (m.top .del + 1)) (.key x) ≤ w.rel (.key x)
      rw [upd_ne _ _ (by simp)]; exact Nat.le_refl _
    · rw [hp.old _ _ (by omega)]; exact h.mono i x (by omega)
  · show join w.rel (w.store m .del).wr _ = _
    rw [join_apply, hw]
    exact Nat.max_eq_right (Nat.le_trans (h.wwf (.key x)).2.2.2 (hp.top_le _))

/-- After a store and a fence all stores are passed on. -/
theorem Base.full {m : Mem Loc (Val K V)} {w : Th Loc} (h : Base m w) (l : Loc) (v : Val K V) (y : Loc) : (w.store m l).fenceStore.rel y = (m.store w l v).top y := by
  have hp := Put.store m w l v
  have hw : (w.store m l).wr y = (m.store w l v).top y := by
    rw [hp.top]; simp only [Th.store, upd_apply]; split
    · rfl
    · exact h.wr y
  show join w.rel (w.store m l).wr _ = _
  rw [join_apply, hw]
  exact Nat.max_eq_right (Nat.le_trans (h.wwf y).2.2.2 (hp.top_le _))

/-! ## Steps of a reader -/

theorem Pair.lo {fc : Fences} {s : St K V n} {b lo lo' x a : Nat} {k : K} (h : Pair fc s b lo x a k) (hl : lo ≤ lo') : Pair fc s b lo' x a k := fun ho =>
  ⟨(h ho).1, fun c h1 h2 h3 => (h ho).2 c (Nat.le_trans hl h1) h2 h3⟩

/-- The reader learns something. -/
theorem RInv.th {fc : Fences} {s : St K V n} {q q' : Rd K V} (h : RInv fc s q) (hb : q'.b = q.b) (hf : q'.th.Wf s.mem)
    (hc : ∀ y, q.th.cur y ≤ q'.th.cur y) (hpc : Pc fc s q' q'.pc) : RInv fc s q' :=
  ⟨hf, hb ▸ h.bn, fun x a k h1 h2 h3 => hb ▸ (h.pair x a k (Nat.le_trans (hc _) h1) h2 h3).lo (hc _), hpc⟩

theorem RInv.sync {fc : Fences} {s : St K V n} {q : Rd K V} (h : RInv fc s q) (hw : WInv s) (hpc : q.pc = .idle) (hi : s.wpc = .idle) :
    RInv fc s { q with th := { q.th with cur := join q.th.cur s.w.cur }, b := s.now } := by
  have ec : ∀ y, join q.th.cur s.w.cur y = s.mem.top y := fun y => by
    rw [join_apply, hw.base.cur]; exact Nat.max_eq_right (h.wf y).1
  have ek : ∀ x a, join q.th.cur s.w.cur (.key x) ≤ a → a ≤ s.mem.top (.key x) → a = s.mem.top (.key x) := fun x a h1 h2 => by
    rw [ec] at h1; omega
  refine ⟨fun y => ⟨Nat.le_of_eq (ec y), (h.wf y).2⟩, Nat.le_refl _, ?_, ?_⟩
  · intro x a k h1 h2 h3 _
    have := ek x a h1 h2
    subst this
    refine ⟨.inl h3, fun c h4 h5 h6 => ?_⟩
    have : c = s.mem.top (.val x) := by
      have h4 : join q.th.cur s.w.cur (.val x) ≤ c := h4
      rw [ec] at h4; omega
    subst this
    rcases hw.own x k h3 with h7 | h7 | h7
    · obtain ⟨_, v, h8, h9⟩ := hw.here k x h7
      exact .inl ⟨v, h8, s.now, Nat.le_refl _, Nat.le_refl _, h9⟩
    · rw [hi] at h7; simp at h7
    · rw [hi] at h7; simp at h7
  · show Pc fc s _ q.pc
    rw [hpc]; trivial

theorem RInv.dels {fc : Fences} {s : St K V n} {q : Rd K V} (h : RInv fc s q) (hw : WInv s) {k : K} {i : Nat} (hm : q.th.may s.mem .del i) :
    RInv fc s { q with th := opt fc.rd1 Th.fenceLoad (q.th.load s.mem .del i), pc := .probe k (s.mem.msg .del i).val.toNat } := by
  have hf := h.wf.load hw.base.mwf hm.2
  have hc := Th.load_cur_le q.th s.mem .del i
  rw [hw.base.dval _ hm.2]
  cases e : fc.rd1 with
  | true => 
    refine h.th rfl hf.fenceLoad (fun y => Nat.le_trans (hc y) (le_join_left _ _ _)) ⟨hm.2, fun _ x => ?_⟩
    exact Nat.le_trans (Th.load_view_le _ _ _ _ _) (le_join_right _ _ _)
  | false => exact h.th rfl hf hc ⟨hm.2, fun e' => by rw [e] at e'; simp at e'⟩

theorem RInv.probe {fc : Fences} {s : St K V n} {q : Rd K V} (h : RInv fc s q) (hw : WInv s) {k : K} {d x i : Nat} (hpc : q.pc = .probe k d)
    (hm : q.th.may s.mem (.key x) i) {p : RPC K V}
    (hp : p = .probe k d ∨ p = .chk k d none ∨ (p = .vload k d x i ∧ (s.mem.msg (.key x) i).val = .key k)) :
    RInv fc s { q with th := (q.th.load s.mem (.key x) i).fenceLoad, pc := p } := by
  have hf := (h.wf.load hw.base.mwf hm.2).fenceLoad
  have hc : ∀ y, q.th.cur y ≤ (q.th.load s.mem (.key x) i).fenceLoad.cur y := fun y =>
    Nat.le_trans (Th.load_cur_le q.th s.mem (.key x) i y) (le_join_left _ _ _)
  have hq := h.pc
  rw [hpc] at hq
  refine h.th rfl hf hc ?_
  rcases hp with rfl | rfl | ⟨rfl, hv⟩
  · exact ⟨hq.1, fun e y => Nat.le_trans (hq.2 e y) (hc _)⟩
  · intro v e; cases e
  · refine ⟨fun e => ⟨hq.1, Nat.le_trans (hq.2 e x) hm.1⟩, hm.2, hv, ?_, (h.pair x i k hm.1 hm.2 hv).lo (hc _)⟩
    exact Nat.le_trans (Th.load_view_le _ _ _ _ _) (le_join_right _ _ _)

theorem RInv.vload {fc : Fences} {s : St K V n} {q : Rd K V} (h : RInv fc s q) (hw : WInv s) {k : K} {d x a i : Nat} (hpc : q.pc = .vload k d x a)
    (hm : q.th.may s.mem (.val x) i) {v : V} (hv : (s.mem.msg (.val x) i).val = .usr v) :
    RInv fc s { q with th := q.th.load s.mem (.val x) i, pc := .chk k d (some v) } := by
  have hf := h.wf.load hw.base.mwf hm.2
  have hq := h.pc
  rw [hpc] at hq
  obtain ⟨g1, g2, g3, g4, g5⟩ := hq
  refine h.th rfl hf (Th.load_cur_le _ _ _ _) (fun v' e ho => ?_)
  simp only [Option.some.injEq] at e
  subst e
  rcases (g5 ho).2 i hm.1 (Nat.le_trans g4 hm.1) hm.2 with ⟨v', e1, e2⟩ | ⟨e1, D, e2, e3⟩
  · rw [hv] at e1
    simp only [Val.usr.injEq] at e1
    subst e1
    exact .inl e2
  · right
    refine ⟨e1, Nat.lt_of_lt_of_le ?_ (Th.load_view_le q.th s.mem (.val x) i .del)⟩
    obtain ⟨g6, g7⟩ := g1 e1.2.1
    refine Nat.lt_of_lt_of_le ?_ e2
    apply Nat.lt_of_not_le
    intro hd
    have := e3.2 d hd g6
    omega

theorem RInv.chk {fc : Fences} {s : St K V n} {q : Rd K V} (h : RInv fc s q) (hw : WInv s) {k : K} {d i : Nat} {res : Option V} (hpc : q.pc = .chk k d res)
    (hm : (opt fc.rd2 Th.fenceLoad q.th).may s.mem .del i) :
    RInv fc s { q with
      th := (opt fc.rd2 Th.fenceLoad q.th).load s.mem .del i
      pc := if (s.mem.msg .del i).val.toNat = d then .ret k res else .start k } := by
  have hq := h.pc
  rw [hpc] at hq
  have hf : (opt fc.rd2 Th.fenceLoad q.th).Wf s.mem := by
    unfold opt; split
    · exact h.wf.fenceLoad
    · exact h.wf
  have hc : ∀ y, q.th.cur y ≤ (opt fc.rd2 Th.fenceLoad q.th).cur y := by
    intro y; unfold opt; split
    · exact le_join_left _ _ _
    · exact Nat.le_refl _
  refine h.th rfl (hf.load hw.base.mwf hm.2) (fun y => Nat.le_trans (hc y) (Th.load_cur_le _ _ _ _ _)) ?_
  show Pc fc s _ (if (s.mem.msg .del i).val.toNat = d then .ret k res else .start k)
  split
  · next e =>
    rw [hw.base.dval _ hm.2] at e
    intro v hv ho
    rcases hq v hv ho with h1 | ⟨h1, h2⟩
    · exact h1
    · have : q.th.acq .del ≤ i := by
        have h3 := hm.1
        rw [h1.2.2] at h3
        exact Nat.le_trans (le_join_right _ _ _) h3
      omega
  · trivial

/-! ## Steps of the writer -/

variable [DecidableEq K]

omit [DecidableEq K] in
theorem WInv.incr {s : St K V n} (h : WInv s) {k : K} {x : Nat} {v : V} (hi : s.wpc = .idle) (ht : s.mem.last (.key x) = .tomb) :
    WInv ({ s.incr true with wpc := .val k x v }) := by
  have hp := Put.store s.mem s.w .del (.num ((s.mem.last .del).toNat + 1))
  have hl := hp.last
  have hy := h.here
  have ho := h.own
  have hg := h.gone
  have h1 := h.wval
  have h2 := h.wkey
  have h3 := h.wold
  have h4 := h.wrek
  have hfl := h.base.full .del (.num ((s.mem.last .del).toNat + 1))
  have hrel : ∀ l, (s.w.store s.mem .del).rel l = s.w.rel l := fun _ => rfl
  have htop := hp.top
  have hb := h.base.incr
  refine ⟨hb, ?_, ?_, ?_, ?_, ?_, ?_, ?_⟩ <;> simp only [St.change, St.wput, St.incr, upd_apply, opt, if_true, if_false, Bool.false_eq_true] at * <;> clear hb hp
  · grind
  · grind
  · grind
  · grind
  · grind
  · grind
  · grind

omit [DecidableEq K] in
theorem WInv.value {s : St K V n} (h : WInv s) {k : K} {x : Nat} {v : V} (hi : s.wpc = .val k x v ∨ (s.wpc = .idle ∧ s.mem.last (.key x) = .tomb)) :
    WInv ({ s.wput (.val x) (.usr v) true with wpc := .key k x v, reu := s.now + 1 }) := by
  have hp := Put.store s.mem s.w (.val x) (.usr v)
  have hl := hp.last
  have hy := h.here
  have ho := h.own
  have hg := h.gone
  have h1 := h.wval
  have h2 := h.wkey
  have h3 := h.wold
  have h4 := h.wrek
  have hfl := h.base.full (.val x) (.usr v)
  have hrel : ∀ l, (s.w.store s.mem (.val x)).rel l = s.w.rel l := fun _ => rfl
  have htop := hp.top
  have hb := h.base.store (l := (.val x)) (v := (.usr v)) (f := true) (by simp) (by simp) (by simp)
  refine ⟨hb, ?_, ?_, ?_, ?_, ?_, ?_, ?_⟩ <;> simp only [St.change, St.wput, St.incr, upd_apply, opt, if_true, if_false, Bool.false_eq_true] at * <;> clear hb hp
  · grind
  · grind
  · grind
  · grind
  · grind
  · grind
  · grind

omit [DecidableEq K] in
theorem WInv.fresh {s : St K V n} (h : WInv s) {k : K} {x : Nat} {v : V} (hi : s.wpc = .idle) (ht : s.mem.last (.key x) = .empty) :
    WInv ({ s.wput (.val x) (.usr v) true with wpc := .key k x v }) := by
  have hp := Put.store s.mem s.w (.val x) (.usr v)
  have hl := hp.last
  have hy := h.here
  have ho := h.own
  have hg := h.gone
  have h1 := h.wval
  have h2 := h.wkey
  have h3 := h.wold
  have h4 := h.wrek
  have hfl := h.base.full (.val x) (.usr v)
  have hrel : ∀ l, (s.w.store s.mem (.val x)).rel l = s.w.rel l := fun _ => rfl
  have htop := hp.top
  have hb := h.base.store (l := (.val x)) (v := (.usr v)) (f := true) (by simp) (by simp) (by simp)
  refine ⟨hb, ?_, ?_, ?_, ?_, ?_, ?_, ?_⟩ <;> simp only [St.change, St.wput, St.incr, upd_apply, opt, if_true, if_false, Bool.false_eq_true] at * <;> clear hb hp
  · grind
  · grind
  · grind
  · grind
  · grind
  · grind
  · grind

theorem WInv.keyNew {s : St K V n} (h : WInv s) {k : K} {x : Nat} {v : V} (hi : s.wpc = .key k x v) (hn : s.pos k = none) :
    WInv ({ (s.wput (.key x) (.key k) false).change k (some v) (some x) with wpc := .idle }) := by
  have hp := Put.store s.mem s.w (.key x) (.key k)
  have hl := hp.last
  have hy := h.here
  have ho := h.own
  have hg := h.gone
  have h1 := h.wval
  have h2 := h.wkey
  have h3 := h.wold
  have h4 := h.wrek
  have hfl := h.base.full (.key x) (.key k)
  have hrel : ∀ l, (s.w.store s.mem (.key x)).rel l = s.w.rel l := fun _ => rfl
  have htop := hp.top
  have hb := h.base.store (l := (.key x)) (v := (.key k)) (f := false) (by simp) (by simp) (by simp)
  refine ⟨hb, ?_, ?_, ?_, ?_, ?_, ?_, ?_⟩ <;> simp only [St.change, St.wput, St.incr, upd_apply, opt, if_true, if_false, Bool.false_eq_true] at * <;> clear hb hp
  · grind
  · grind
  · grind
  · grind
  · grind
  · grind
  · grind

theorem WInv.keyMove {s : St K V n} (h : WInv s) {k : K} {x y : Nat} {v : V} (hi : s.wpc = .key k x v) (hn : s.pos k = some y) :
    WInv ({ (s.wput (.key x) (.key k) true).change k (some v) (some x) with wpc := .incr k y }) := by
  have hp := Put.store s.mem s.w (.key x) (.key k)
  have hl := hp.last
  have hy := h.here
  have ho := h.own
  have hg := h.gone
  have h1 := h.wval
  have h2 := h.wkey
  have h3 := h.wold
  have h4 := h.wrek
  have hfl := h.base.full (.key x) (.key k)
  have hrel : ∀ l, (s.w.store s.mem (.key x)).rel l = s.w.rel l := fun _ => rfl
  have htop := hp.top
  have hb := h.base.store (l := (.key x)) (v := (.key k)) (f := true) (by simp) (by simp) (by simp)
  refine ⟨hb, ?_, ?_, ?_, ?_, ?_, ?_, ?_⟩ <;> simp only [St.change, St.wput, St.incr, upd_apply, opt, if_true, if_false, Bool.false_eq_true] at * <;> clear hb hp
  · grind
  · grind
  · grind
  · grind
  · grind
  · grind
  · grind

omit [DecidableEq K] in
theorem WInv.incr2 {s : St K V n} (h : WInv s) {k : K} {y : Nat} (hi : s.wpc = .incr k y) :
    WInv ({ s.incr true with wpc := .tomb k y }) := by
  have hp := Put.store s.mem s.w .del (.num ((s.mem.last .del).toNat + 1))
  have hl := hp.last
  have hy := h.here
  have ho := h.own
  have hg := h.gone
  have h1 := h.wval
  have h2 := h.wkey
  have h3 := h.wold
  have h4 := h.wrek
  have hfl := h.base.full .del (.num ((s.mem.last .del).toNat + 1))
  have hrel : ∀ l, (s.w.store s.mem .del).rel l = s.w.rel l := fun _ => rfl
  have htop := hp.top
  have hb := h.base.incr
  refine ⟨hb, ?_, ?_, ?_, ?_, ?_, ?_, ?_⟩ <;> simp only [St.change, St.wput, St.incr, upd_apply, opt, if_true, if_false, Bool.false_eq_true] at * <;> clear hb hp
  · grind
  · grind
  · grind
  · grind
  · grind
  · grind
  · grind

omit [DecidableEq K] in
theorem WInv.tomb {s : St K V n} (h : WInv s) {k : K} {y : Nat} (hi : s.wpc = .tomb k y) :
    WInv ({ s.wput (.key y) .tomb true with wpc := .idle }) := by
  have hp := Put.store s.mem s.w (.key y) .tomb
  have hl := hp.last
  have hy := h.here
  have ho := h.own
  have hg := h.gone
  have h1 := h.wval
  have h2 := h.wkey
  have h3 := h.wold
  have h4 := h.wrek
  have hfl := h.base.full (.key y) .tomb
  have hrel : ∀ l, (s.w.store s.mem (.key y)).rel l = s.w.rel l := fun _ => rfl
  have htop := hp.top
  have hb := h.base.store (l := (.key y)) (v := .tomb) (f := true) (by simp) (by simp) (by simp)
  refine ⟨hb, ?_, ?_, ?_, ?_, ?_, ?_, ?_⟩ <;> simp only [St.change, St.wput, St.incr, upd_apply, opt, if_true, if_false, Bool.false_eq_true] at * <;> clear hb hp
  · grind
  · grind
  · grind
  · grind
  · grind
  · grind
  · grind

theorem WInv.repl {s : St K V n} (h : WInv s) {k : K} {x : Nat} {v : V} (hi : s.wpc = .idle) (hn : s.pos k = some x) :
    WInv ({ (s.wput (.val x) (.usr v) true).change k (some v) (some x) with wpc := .rekey k x }) := by
  have hp := Put.store s.mem s.w (.val x) (.usr v)
  have hl := hp.last
  have hy := h.here
  have ho := h.own
  have hg := h.gone
  have h1 := h.wval
  have h2 := h.wkey
  have h3 := h.wold
  have h4 := h.wrek
  have hfl := h.base.full (.val x) (.usr v)
  have hrel : ∀ l, (s.w.store s.mem (.val x)).rel l = s.w.rel l := fun _ => rfl
  have htop := hp.top
  have hb := h.base.store (l := (.val x)) (v := (.usr v)) (f := true) (by simp) (by simp) (by simp)
  refine ⟨hb, ?_, ?_, ?_, ?_, ?_, ?_, ?_⟩ <;> simp only [St.change, St.wput, St.incr, upd_apply, opt, if_true, if_false, Bool.false_eq_true] at * <;> clear hb hp
  · grind
  · grind
  · grind
  · grind
  · grind
  · grind
  · grind

omit [DecidableEq K] in
theorem WInv.rekey {s : St K V n} (h : WInv s) {k : K} {x : Nat} (hi : s.wpc = .rekey k x) :
    WInv ({ s.wput (.key x) (.key k) false with wpc := .idle }) := by
  have hp := Put.store s.mem s.w (.key x) (.key k)
  have hl := hp.last
  have hy := h.here
  have ho := h.own
  have hg := h.gone
  have h1 := h.wval
  have h2 := h.wkey
  have h3 := h.wold
  have h4 := h.wrek
  have hfl := h.base.full (.key x) (.key k)
  have hrel : ∀ l, (s.w.store s.mem (.key x)).rel l = s.w.rel l := fun _ => rfl
  have htop := hp.top
  have hb := h.base.store (l := (.key x)) (v := (.key k)) (f := false) (by simp) (by simp) (by simp)
  refine ⟨hb, ?_, ?_, ?_, ?_, ?_, ?_, ?_⟩ <;> simp only [St.change, St.wput, St.incr, upd_apply, opt, if_true, if_false, Bool.false_eq_true] at * <;> clear hb hp
  · grind
  · grind
  · grind
  · grind
  · grind
  · grind
  · grind

theorem WInv.del {s : St K V n} (h : WInv s) {k : K} {x : Nat} (hi : s.wpc = .idle) (hn : s.pos k = some x) :
    WInv ((s.wput (.key x) .tomb true).change k none none) := by
  have hp := Put.store s.mem s.w (.key x) .tomb
  have hl := hp.last
  have hy := h.here
  have ho := h.own
  have hg := h.gone
  have h1 := h.wval
  have h2 := h.wkey
  have h3 := h.wold
  have h4 := h.wrek
  have hfl := h.base.full (.key x) .tomb
  have hrel : ∀ l, (s.w.store s.mem (.key x)).rel l = s.w.rel l := fun _ => rfl
  have htop := hp.top
  have hb := h.base.store (l := (.key x)) (v := .tomb) (f := true) (by simp) (by simp) (by simp)
  refine ⟨hb, ?_, ?_, ?_, ?_, ?_, ?_, ?_⟩ <;> simp only [St.change, St.wput, St.incr, upd_apply, opt, if_true, if_false, Bool.false_eq_true] at * <;> clear hb hp
  · grind
  · grind
  · grind
  · grind
  · grind
  · grind
  · grind

/-! ## What these steps do for readers -/

omit [DecidableEq K] in
theorem WInv.nokey {s : St K V n} (h : WInv s) {x a : Nat} {k : K} (he : s.mem.last (.key x) = .empty) (ha : a ≤ s.mem.top (.key x))
    (hk : (s.mem.msg (.key x) a).val = .key k) : False := by
  have := h.base.ne x a _ ha (Nat.le_refl _) he
  rw [hk] at this; cases this

omit [DecidableEq K] in
theorem WInv.outPut {s : St K V n} (h : WInv s) (l : Loc) (v : Val K V) {x a : Nat} (ho : ∃ D, Out s.mem x a D) : ∃ D, Out (s.mem.store s.w l v) x a D := by
  obtain ⟨D, ho⟩ := ho
  refine ⟨D, ho.put (Put.store s.mem s.w l v) fun e => ?_⟩
  subst e
  rw [upd_ne _ _ (by simp)]
  exact ho.lt h.base

omit [DecidableEq K] in
/-- The counter is incremented while slot `x` is a tombstone. -/
theorem WInv.outIncr {s : St K V n} (h : WInv s) (v : Val K V) {x a : Nat} {k : K} (ht : s.mem.last (.key x) = .tomb) (ha : a ≤ s.mem.top (.key x))
    (hk : (s.mem.msg (.key x) a).val = .key k) : ∃ D, Out (s.mem.store s.w .del v) x a D := by
  have hp := Put.store s.mem s.w .del v
  have hr := h.base.tmb x ht
  have hne : a ≠ s.mem.top (.key x) := by
    intro e
    rw [e] at hk
    rw [Mem.last, hk] at ht
    cases ht
  refine ⟨s.mem.top .del + 1, by rw [hp.top, if_pos rfl]; exact Nat.le_refl _, fun D' h1 h2 => ?_⟩
  rw [hp.top, if_pos rfl] at h2
  have : D' = s.mem.top .del + 1 := by omega
  subst this
  rw [hp.new]
  show a < upd s.w.rel .del (s.mem.top .del + 1) (.key x)
  rw [upd_ne _ _ (by simp)]
  omega

variable {fc : Fences} {s : St K V n}

omit [DecidableEq K] in
theorem WInv.sIncr (h : WInv s) {k : K} {x : Nat} {v : V} (ht : s.mem.last (.key x) = .tomb) :
    WStep fc s { s.incr true with wpc := .val k x v } .del (.num ((s.mem.last .del).toNat + 1)) (upd s.w.rel .del (s.mem.top .del + 1)) := by
  have hp := Put.store s.mem s.w .del (.num ((s.mem.last .del).toNat + 1))
  refine ⟨fun _ e => by simp at e, hp, Nat.le_refl _, fun _ _ => rfl, .inl rfl, fun _ y => by rw [upd_ne _ _ (by simp)]; exact Nat.le_refl _, fun b hb hk y a k' h1 h2 h3 => ?_,
    fun _ _ e => by simp at e, fun _ _ _ _ e => by simp at e⟩
  have hl : (s.mem.store s.w .del (.num ((s.mem.last .del).toNat + 1))).last (.key y) = s.mem.last (.key y) := by rw [hp.last, if_neg (by simp)]
  rcases h3 with h3 | ⟨h3, h4⟩ | ⟨h3, h4⟩
  · exact .inl (hl.trans h3)
  · by_cases hf : Fixed fc ∧ y = x
    · obtain ⟨hf, rfl⟩ := hf
      exact .inr (.inr ⟨hf, h.outIncr _ h3 h1 h2⟩)
    · refine .inr (.inl ⟨hl.trans h3, fun hf' hy => hf ⟨hf', ?_⟩⟩)
      obtain ⟨k2, v2, e | e⟩ := hy
      · simp only [WPC.val.injEq] at e; exact e.2.1.symm
      · simp at e
  · exact .inr (.inr ⟨h3, h.outPut _ _ h4⟩)

omit [DecidableEq K] in
theorem WInv.sIncr2 (h : WInv s) {k : K} {y : Nat} :
    WStep fc s { s.incr true with wpc := .tomb k y } .del (.num ((s.mem.last .del).toNat + 1)) (upd s.w.rel .del (s.mem.top .del + 1)) := by
  have hp := Put.store s.mem s.w .del (.num ((s.mem.last .del).toNat + 1))
  refine ⟨fun _ e => by simp at e, hp, Nat.le_refl _, fun _ _ => rfl, .inl rfl, fun _ y => by rw [upd_ne _ _ (by simp)]; exact Nat.le_refl _, fun b hb hk y a k' h1 h2 h3 => ?_,
    fun _ _ e => by simp at e, fun _ _ _ _ e => by simp at e⟩
  have hl : (s.mem.store s.w .del (.num ((s.mem.last .del).toNat + 1))).last (.key y) = s.mem.last (.key y) := by rw [hp.last, if_neg (by simp)]
  rcases h3 with h3 | ⟨h3, h4⟩ | ⟨h3, h4⟩
  · exact .inl (hl.trans h3)
  · refine .inr (.inl ⟨hl.trans h3, fun hf' hy => ?_⟩)
    obtain ⟨k2, v2, e | e⟩ := hy <;> simp at e
  · exact .inr (.inr ⟨h3, h.outPut _ _ h4⟩)

omit [DecidableEq K] in
theorem WInv.sValue (h : WInv s) {k : K} {x : Nat} {v : V} {f : Bool} (ht : s.mem.last (.key x) = .tomb) (hf : Fixed fc → s.wpc = .val k x v) :
    WStep fc s { s.wput (.val x) (.usr v) f with wpc := .key k x v, reu := s.now + 1 } (.val x) (.usr v) (upd s.w.rel (.val x) (s.mem.top (.val x) + 1)) := by
  have hp := Put.store s.mem s.w (.val x) (.usr v)
  have key : ∀ b, b ≤ s.now → Ok fc ({ s.wput (.val x) (.usr v) f with wpc := .key k x v, reu := s.now + 1 } : St K V n) b → Fixed fc := by
    rintro b hb (hk | hk)
    · exact hk
    · exact absurd hk (by show ¬ s.now + 1 ≤ b; omega)
  refine ⟨fun _ _ => ⟨_, rfl⟩, hp, Nat.le_refl _, fun _ _ => rfl, .inr (Nat.lt_succ_self _), fun e => by simp at e, fun b hb hk y a k' h1 h2 h3 => ?_,
    fun _ _ e => by simp at e, fun b hb hk y e a k' h1 h2 h3 => ?_⟩
  · have hl : (s.mem.store s.w (.val x) (.usr v)).last (.key y) = s.mem.last (.key y) := by rw [hp.last, if_neg (by simp)]
    rcases h3 with h3 | ⟨h3, h4⟩ | ⟨h3, h4⟩
    · exact .inl (hl.trans h3)
    · refine .inr (.inl ⟨hl.trans h3, fun hf' hy => h4 hf' ⟨k, v, ?_⟩⟩)
      obtain ⟨k2, v2, e | e⟩ := hy
      · simp at e
      · simp only [WPC.key.injEq] at e
        rw [← e.2.1]; exact .inl (hf hf')
    · exact .inr (.inr ⟨h3, h.outPut _ _ h4⟩)
  · simp only [Loc.val.injEq] at e
    subst e
    have hf' := key b hb hk
    rcases h3 with h3 | ⟨h3, h4⟩ | ⟨h3, D, h4⟩
    · rw [ht] at h3; cases h3
    · exact absurd ⟨k, v, .inl (hf hf')⟩ (h4 hf')
    · refine .inr ⟨hf', D, ?_, h4⟩
      rw [upd_ne _ _ (by simp), h.base.rel]; exact h4.1

omit [DecidableEq K] in
theorem WInv.sFresh (h : WInv s) {k : K} {x : Nat} {v : V} {f : Bool} (hi : s.wpc = .idle) (ht : s.mem.last (.key x) = .empty) :
    WStep fc s { s.wput (.val x) (.usr v) f with wpc := .key k x v } (.val x) (.usr v) (upd s.w.rel (.val x) (s.mem.top (.val x) + 1)) := by
  have hp := Put.store s.mem s.w (.val x) (.usr v)
  refine ⟨fun _ _ => ⟨_, rfl⟩, hp, Nat.le_refl _, fun _ _ => rfl, .inl rfl, fun e => by simp at e, fun b hb hk y a k' h1 h2 h3 => ?_,
    fun _ _ e => by simp at e, fun b hb hk y e a k' h1 h2 h3 => ?_⟩
  · have hl : (s.mem.store s.w (.val x) (.usr v)).last (.key y) = s.mem.last (.key y) := by rw [hp.last, if_neg (by simp)]
    rcases h3 with h3 | ⟨h3, h4⟩ | ⟨h3, h4⟩
    · exact .inl (hl.trans h3)
    · refine .inr (.inl ⟨hl.trans h3, fun hf' hy => ?_⟩)
      obtain ⟨k2, v2, e | e⟩ := hy
      · simp at e
      · simp only [WPC.key.injEq] at e
        rw [← e.2.1, ht] at h3; cases h3
    · exact .inr (.inr ⟨h3, h.outPut _ _ h4⟩)
  · simp only [Loc.val.injEq] at e
    subst e
    exact (h.nokey ht h1 h2).elim

theorem WInv.sRepl (h : WInv s) {k : K} {x : Nat} {v : V} {f : Bool} (hi : s.wpc = .idle) (hn : s.pos k = some x) :
    WStep fc s { (s.wput (.val x) (.usr v) f).change k (some v) (some x) with wpc := .rekey k x } (.val x) (.usr v) (upd s.w.rel (.val x) (s.mem.top (.val x) + 1)) := by
  have hp := Put.store s.mem s.w (.val x) (.usr v)
  have ht := (h.here k x hn).1
  refine ⟨fun _ _ => ⟨_, rfl⟩, hp, Nat.le_succ _, fun t ht => ?_, .inl rfl, fun e => by simp at e, fun b hb hk y a k' h1 h2 h3 => ?_,
    fun _ _ e => by simp at e, fun b hb hk y e a k' h1 h2 h3 => ?_⟩
  · show upd s.hist (s.now + 1) _ t = _
    rw [upd_ne _ _ (by omega)]
  · have hl : (s.mem.store s.w (.val x) (.usr v)).last (.key y) = s.mem.last (.key y) := by rw [hp.last, if_neg (by simp)]
    rcases h3 with h3 | ⟨h3, h4⟩ | ⟨h3, h4⟩
    · exact .inl (hl.trans h3)
    · refine .inr (.inl ⟨hl.trans h3, fun hf' hy => ?_⟩)
      obtain ⟨k2, v2, e | e⟩ := hy <;> simp at e
    · exact .inr (.inr ⟨h3, h.outPut _ _ h4⟩)
  · simp only [Loc.val.injEq] at e
    subst e
    rcases h3 with h3 | ⟨h3, h4⟩ | ⟨h3, D, h4⟩
    · rw [ht] at h3
      simp only [Val.key.injEq] at h3
      subst h3
      refine .inl ⟨v, rfl, ?_⟩
      show upd s.hist (s.now + 1) _ (s.now + 1) k = _
      rw [upd_same, upd_same]
    · rw [ht] at h3; cases h3
    · refine .inr ⟨h3, D, ?_, h4⟩
      rw [upd_ne _ _ (by simp), h.base.rel]; exact h4.1

/-- The key is stored over an empty slot or a tombstone. -/
theorem WInv.sKey (h : WInv s) {k : K} {x : Nat} {v : V} {f : Bool} {p : WPC K V} (hi : s.wpc = .key k x v) (hp : ∀ y, ¬ Busy p y) :
    WStep fc s { (s.wput (.key x) (.key k) f).change k (some v) (some x) with wpc := p } (.key x) (.key k) (upd s.w.rel (.key x) (s.mem.top (.key x) + 1)) := by
  have hput := Put.store s.mem s.w (.key x) (.key k)
  obtain ⟨w1, w2, w3⟩ := h.wkey k x v hi
  refine ⟨fun _ e => by simp at e, hput, Nat.le_succ _, fun t ht => ?_, .inl rfl, fun e => by simp at e, fun b hb hk y a k' h1 h2 h3 => ?_,
    fun y k' e e' => ?_, fun _ _ _ _ e => by simp at e⟩
  · show upd s.hist (s.now + 1) _ t = _
    rw [upd_ne _ _ (by omega)]
  · by_cases hy : y = x
    · subst hy
      rcases w3 with w3 | ⟨w3, w4⟩
      · exact (h.nokey w3 h1 h2).elim
      · rcases h3 with h3 | ⟨h3, h4⟩ | ⟨h3, h4⟩
        · rw [w3] at h3; cases h3
        · rcases hk with hk | hk
          · exact absurd ⟨k, v, .inr hi⟩ (h4 hk)
          · have hk : s.reu ≤ b := hk
            omega
        · exact .inr (.inr ⟨h3, h.outPut _ _ h4⟩)
    · have hl : (s.mem.store s.w (.key x) (.key k)).last (.key y) = s.mem.last (.key y) := by rw [hput.last, if_neg (by simpa using hy)]
      rcases h3 with h3 | ⟨h3, h4⟩ | ⟨h3, h4⟩
      · exact .inl (hl.trans h3)
      · exact .inr (.inl ⟨hl.trans h3, fun _ => hp y⟩)
      · exact .inr (.inr ⟨h3, h.outPut _ _ h4⟩)
  · simp only [Loc.key.injEq] at e
    simp only [Val.key.injEq] at e'
    subst e e'
    refine ⟨?_, v, w1, ?_⟩
    · rw [upd_ne _ _ (by simp)]; exact w2
    · show upd s.hist (s.now + 1) _ (s.now + 1) k = _
      rw [upd_same, upd_same]

omit [DecidableEq K] in
theorem WInv.sRekey (h : WInv s) {k : K} {x : Nat} {f : Bool} (hi : s.wpc = .rekey k x) :
    WStep fc s { s.wput (.key x) (.key k) f with wpc := .idle } (.key x) (.key k) (upd s.w.rel (.key x) (s.mem.top (.key x) + 1)) := by
  have hput := Put.store s.mem s.w (.key x) (.key k)
  obtain ⟨w1, w2⟩ := h.wrek k x hi
  obtain ⟨w3, v, w4, w5⟩ := h.here k x w1
  refine ⟨fun _ e => by simp at e, hput, Nat.le_refl _, fun t ht => rfl, .inl rfl, fun e => by simp at e, fun b hb hk y a k' h1 h2 h3 => ?_,
    fun y k' e e' => ?_, fun _ _ _ _ e => by simp at e⟩
  · have hl : (s.mem.store s.w (.key x) (.key k)).last (.key y) = s.mem.last (.key y) := by
      rw [hput.last]; split
      · next e => rw [e, w3]
      · rfl
    rcases h3 with h3 | ⟨h3, h4⟩ | ⟨h3, h4⟩
    · exact .inl (hl.trans h3)
    · refine .inr (.inl ⟨hl.trans h3, fun hf' hy => ?_⟩)
      obtain ⟨k2, v2, e | e⟩ := hy <;> simp at e
    · exact .inr (.inr ⟨h3, h.outPut _ _ h4⟩)
  · simp only [Loc.key.injEq] at e
    simp only [Val.key.injEq] at e'
    subst e e'
    exact ⟨by rw [upd_ne _ _ (by simp)]; exact w2, v, w4, w5⟩

omit [DecidableEq K] in
/-- A slot becomes a tombstone. -/
theorem WInv.tombO (h : WInv s) {x : Nat} {s' : St K V n} (hm : s'.mem = s.mem.store s.w (.key x) .tomb) (hw : s'.wpc = .idle) {y a : Nat} {k : K}
    (h3 : O fc s y a k) : O fc s' y a k := by
  have hput := Put.store s.mem s.w (.key x) (.tomb : Val K V)
  have hn : Fixed fc → ¬ Busy s'.wpc y := fun _ hy => by
    rw [hw] at hy
    obtain ⟨k2, v2, e | e⟩ := hy <;> simp at e
  unfold O
  rw [hm, hput.last]
  split
  · exact .inr (.inl ⟨rfl, hn⟩)
  · rcases h3 with h3 | ⟨h3, h4⟩ | ⟨h3, h4⟩
    · exact .inl h3
    · exact .inr (.inl ⟨h3, hn⟩)
    · exact .inr (.inr ⟨h3, h.outPut _ _ h4⟩)

omit [DecidableEq K] in
theorem WInv.sTomb (h : WInv s) {y : Nat} {f : Bool} :
    WStep fc s { s.wput (.key y) .tomb f with wpc := .idle } (.key y) .tomb (upd s.w.rel (.key y) (s.mem.top (.key y) + 1)) :=
  ⟨fun _ e => by simp at e, Put.store s.mem s.w (.key y) .tomb, Nat.le_refl _, fun t ht => rfl, .inl rfl, fun e => by simp at e, fun _ _ _ _ _ _ _ _ h3 => h.tombO rfl rfl h3,
    fun _ _ _ e => by simp at e, fun _ _ _ _ e => by simp at e⟩

theorem WInv.sDel (h : WInv s) {k : K} {x : Nat} {f : Bool} (hi : s.wpc = .idle) :
    WStep fc s ((s.wput (.key x) .tomb f).change k none none) (.key x) .tomb (upd s.w.rel (.key x) (s.mem.top (.key x) + 1)) :=
  ⟨fun _ e => by simp at e, Put.store s.mem s.w (.key x) .tomb, Nat.le_succ _, fun t ht => by
      show upd s.hist (s.now + 1) _ t = _
      rw [upd_ne _ _ (by omega)], .inl rfl, fun e => by simp at e, fun _ _ _ _ _ _ _ _ h3 => h.tombO (s' := (s.wput (.key x) .tomb f).change k none none) rfl hi h3,
    fun _ _ _ e => by simp at e, fun _ _ _ _ e => by simp at e⟩

/-! ## All steps -/

omit [DecidableEq K] in
theorem Full.wstep {s s' : St K V n} {l : Loc} {v : Val K V} {w : View Loc} (h : Full s.mem) (hs : WStep fc s s' l v w) : Full s'.mem := by
  have hp := hs.put
  intro x a k h1 h2 c h3 h4
  by_cases ho : a ≤ s.mem.top (.key x)
  · rw [hp.old _ _ ho] at h2 h3
    by_cases hc : c ≤ s.mem.top (.val x)
    · rw [hp.old _ _ hc]; exact h x a k ho h2 c h3 hc
    · have e := hp.top (.val x)
      split at e
      · next el =>
        have ec : c = s.mem.top l + 1 := by rw [← el]; rw [← el] at e; omega
        rw [ec, el, hp.new]; exact hs.usr x el.symm
      · omega
  · have e := hp.top (.key x)
    split at e
    · next el =>
      have ea : a = s.mem.top l + 1 := by rw [← el]; rw [← el] at e; omega
      rw [ea, el, hp.new] at h2 h3
      obtain ⟨e1, v', e2, _⟩ := hs.newk x k el.symm h2
      rw [hp.top_ne (by rw [← el]; simp)] at h4
      have ec : c = s.mem.top (.val x) := by
        have : w (.val x) ≤ c := h3
        omega
      rw [ec, hp.old _ _ (Nat.le_refl _)]; exact ⟨v', e2⟩
    · omega

omit [DecidableEq K] in
theorem Inv.wstep {s s' : St K V n} {l : Loc} {v : Val K V} {w : View Loc} (h : Inv fc s) (hw : WInv s') (hs : WStep fc s s' l v w) (hr : s'.rd = s.rd) : Inv fc s' :=
  ⟨hw, h.full.wstep hs, fun r => by rw [hr]; exact (h.r r).wstep h.w.base hs⟩

omit [DecidableEq K] in
theorem Inv.rstep {s : St K V n} (h : Inv fc s) {r : Fin n} {q : Rd K V} (hq : RInv fc s q) : Inv fc (s.setRd r q) := by
  have hw := h.w
  refine ⟨⟨hw.base, hw.here, hw.gone, hw.own, hw.wval, hw.wkey, hw.wold, hw.wrek⟩, h.full, fun r' => ?_⟩
  have key : ∀ q', RInv fc s q' → RInv fc (s.setRd r q) q' := fun q' g => ⟨g.wf, g.bn, g.pair, g.pc⟩
  show RInv fc _ (upd s.rd r q r')
  rw [upd_apply]
  split
  · exact key _ hq
  · exact key _ (h.r r')

theorem Inv.init : Inv fc (initSt : St K V n) := by
  refine ⟨⟨⟨Mem.Wf.init _, Th.Wf.init _, fun _ => rfl, fun _ => rfl, rfl, fun i hi => ?_, fun _ _ _ _ _ _ => rfl, fun i x hi => ?_, fun _ _ => rfl⟩,
    fun _ _ e => by simp [initSt] at e, fun _ _ => rfl, fun _ _ e => ?_, fun _ _ _ e => by simp [initSt] at e, fun _ _ _ e => by simp [initSt] at e,
    fun _ _ e => by simp [initSt] at e, fun _ _ e => by simp [initSt] at e⟩, fun _ _ _ _ e => (by cases e), fun r => ⟨Th.Wf.init _, Nat.le_refl _, fun x a k h1 h2 h3 => ?_, trivial⟩⟩
  · have : i = 0 := Nat.le_zero.mp hi
    subst this; rfl
  · exact Nat.le_refl _
  · cases e
  · cases h3

theorem Inv.step {s s' : St K V n} {a : Act K V n} (h1 : fc.wdel = true) (h2 : fc.wval = true) (h3 : fc.wtmb = true) (h4 : fc.rkey = true) (h : Inv fc s)
    (hs : HtRead.step fc s a = some s') : Inv fc s' := by
  have tomb : ∀ {v : Val K V}, isTomb v = true → v = .tomb := by intro v hv; cases v <;> simp_all [isTomb]
  have empty : ∀ {v : Val K V}, isEmpty v = true → v = .empty := by intro v hv; cases v <;> simp_all [isEmpty]
  unfold HtRead.step at hs
  split at hs
  · next k x v =>
    rw [h1] at hs
    obtain ⟨⟨c1, c2⟩, rfl⟩ := Option.ite_none_right_eq_some.mp hs |>.imp_right Option.some.inj
    exact h.wstep (h.w.incr c1 (tomb c2)) (h.w.sIncr (tomb c2)) rfl
  · rw [h2] at hs
    split at hs
    · next k x v e =>
      obtain rfl := Option.some.inj hs
      have ht := h.w.wval k x v e
      exact h.wstep (h.w.value (.inl e)) (h.w.sValue ht fun _ => e) rfl
    · cases hs
  · next k x v =>
    rw [h2] at hs
    obtain ⟨⟨c1, c2, c3⟩, rfl⟩ := Option.ite_none_right_eq_some.mp hs |>.imp_right Option.some.inj
    exact h.wstep (h.w.fresh c1 (empty c3)) (h.w.sFresh c1 (empty c3)) rfl
  · next k x v =>
    rw [h2] at hs
    obtain ⟨⟨c1, c2, c3, c4⟩, rfl⟩ := Option.ite_none_right_eq_some.mp hs |>.imp_right Option.some.inj
    exact h.wstep (h.w.value (.inr ⟨c1, tomb c4⟩)) (h.w.sValue (tomb c4) fun hf => by rw [hf.1] at c2; simp at c2) rfl
  · split at hs
    · next k x v e =>
      split at hs
      · next e' =>
        obtain rfl := Option.some.inj hs
        exact h.wstep (h.w.keyNew e e') (h.w.sKey e (by rintro y ⟨_, _, e | e⟩ <;> simp at e)) rfl
      · next y e' =>
        obtain rfl := Option.some.inj hs
        exact h.wstep (h.w.keyMove e e') (h.w.sKey e (by rintro y ⟨_, _, e | e⟩ <;> simp at e)) rfl
    · cases hs
  · rw [h1] at hs
    split at hs
    · next e =>
      obtain rfl := Option.some.inj hs
      exact h.wstep (h.w.incr2 e) h.w.sIncr2 rfl
    · cases hs
  · rw [h3] at hs
    split at hs
    · next e =>
      obtain rfl := Option.some.inj hs
      exact h.wstep (h.w.tomb e) h.w.sTomb rfl
    · cases hs
  · rw [h2] at hs
    split at hs
    · next e =>
      obtain ⟨c1, rfl⟩ := Option.ite_none_right_eq_some.mp hs |>.imp_right Option.some.inj
      exact h.wstep (h.w.repl c1 e) (h.w.sRepl c1 e) rfl
    · cases hs
  · split at hs
    · next e =>
      obtain rfl := Option.some.inj hs
      exact h.wstep (h.w.rekey e) (h.w.sRekey e) rfl
    · cases hs
  · rw [h3] at hs
    split at hs
    · next e =>
      obtain ⟨c1, rfl⟩ := Option.ite_none_right_eq_some.mp hs |>.imp_right Option.some.inj
      exact h.wstep (h.w.del c1 e) (h.w.sDel c1) rfl
    · cases hs
  · next r =>
    obtain ⟨⟨c1, c2⟩, rfl⟩ := Option.ite_none_right_eq_some.mp hs |>.imp_right Option.some.inj
    exact h.rstep ((h.r r).sync h.w c1 c2)
  · next r k =>
    obtain ⟨c1, rfl⟩ := Option.ite_none_right_eq_some.mp hs |>.imp_right Option.some.inj
    exact h.rstep ((h.r r).th rfl (h.r r).wf (fun _ => Nat.le_refl _) trivial)
  · next r i =>
    dsimp only at hs
    split at hs
    · next e =>
      obtain ⟨c1, rfl⟩ := Option.ite_none_right_eq_some.mp hs |>.imp_right Option.some.inj
      exact h.rstep ((h.r r).dels h.w c1)
    · cases hs
  · next r x i =>
    dsimp only at hs
    rw [h4] at hs
    split at hs
    · next k d e =>
      obtain ⟨c1, hs⟩ := Option.ite_none_right_eq_some.mp hs
      split at hs
      · next k' e' =>
        obtain rfl := Option.some.inj hs
        refine h.rstep ((h.r r).probe h.w e c1 ?_)
        split
        · next e2 => subst e2; exact .inr (.inr ⟨rfl, e'⟩)
        · exact .inl rfl
      · obtain rfl := Option.some.inj hs
        have := (h.r r).probe h.w e c1 (.inl e)
        exact h.rstep this
      · obtain rfl := Option.some.inj hs
        exact h.rstep ((h.r r).probe h.w e c1 (.inr (.inl rfl)))
    · cases hs
  · next r i =>
    dsimp only at hs
    split at hs
    · next k d x a e =>
      obtain ⟨c1, hs⟩ := Option.ite_none_right_eq_some.mp hs
      split at hs
      · next v e' =>
        obtain rfl := Option.some.inj hs
        exact h.rstep ((h.r r).vload h.w e c1 e')
      · cases hs
    · cases hs
  · next r =>
    dsimp only at hs
    split at hs
    · next k d e =>
      obtain rfl := Option.some.inj hs
      exact h.rstep ((h.r r).th rfl (h.r r).wf (fun _ => Nat.le_refl _) (by intro v e; cases e))
    · cases hs
  · next r i =>
    dsimp only at hs
    split at hs
    · next k d res e =>
      obtain ⟨c1, rfl⟩ := Option.ite_none_right_eq_some.mp hs |>.imp_right Option.some.inj
      exact h.rstep ((h.r r).chk h.w e c1)
    · cases hs
  · next r =>
    dsimp only at hs
    split at hs
    · next e =>
      obtain rfl := Option.some.inj hs
      exact h.rstep ((h.r r).th rfl (h.r r).wf (fun _ => Nat.le_refl _) trivial)
    · cases hs

theorem inv (h1 : fc.wdel = true) (h2 : fc.wval = true) (h3 : fc.wtmb = true) (h4 : fc.rkey = true) {s : St K V n} (h : (sys fc K V n).Reach s) : Inv fc s :=
  Sys.Reach.invariant (I := Inv fc) (fun _ e => e ▸ Inv.init) (fun _ _ _ hi hs => hi.step h1 h2 h3 h4 hs) h

/-! ## C99 -/

/-- With three repairs, a lookup that returns a value returns one that the key had at some moment since the reader last synchronized with the writer. -/
theorem get_some_fixed {s : St K V n} (h : (sys fixed K V n).Reach s) (r : Fin n) {k : K} {v : V} (hr : (s.rd r).pc = .ret k (some v)) :
    ∃ t, (s.rd r).b ≤ t ∧ t ≤ s.now ∧ s.hist t k = some v := by
  have := ((inv rfl rfl rfl rfl h).r r).pc
  rw [hr] at this
  exact this v rfl (.inl ⟨rfl, rfl, rfl⟩)

/-- The code: the same, if no tombstone was reused since.  Missing: the same without that condition, which is false (`get_some_fails`). -/
theorem get_some_partial {s : St K V n} (h : (sys real K V n).Reach s) (r : Fin n) {k : K} {v : V} (hr : (s.rd r).pc = .ret k (some v)) (hu : s.reu ≤ (s.rd r).b) :
    ∃ t, (s.rd r).b ≤ t ∧ t ≤ s.now ∧ s.hist t k = some v := by
  have := ((inv rfl rfl rfl rfl h).r r).pc
  rw [hr] at this
  exact this v rfl (.inr hu)

/-- The code: a reader that has found the key in a slot gets a value from it, never what was there before the first entry. -/
theorem value_there {s : St K V n} (h : (sys real K V n).Reach s) (r : Fin n) {k : K} {d x a i : Nat} (hr : (s.rd r).pc = .vload k d x a)
    (hm : (s.rd r).th.may s.mem (.val x) i) : ∃ v, (s.mem.msg (.val x) i).val = .usr v := by
  have hi := inv rfl rfl rfl rfl h
  have := (hi.r r).pc
  rw [hr] at this
  obtain ⟨_, g2, g3, g4, _⟩ := this
  exact hi.full x a k g2 g3 i (Nat.le_trans g4 hm.1) hm.2

/-- `b` of a reader changes only by its `sync`, and is then the number of changes so far. -/
theorem b_sync {fc : Fences} {s s' : St K V n} {a : Act K V n} (hs : step fc s a = some s') (r : Fin n) :
    (a = .sync r → (s'.rd r).b = s.now) ∧ (a ≠ .sync r → (s'.rd r).b = (s.rd r).b) := by
  cases a <;> simp only [step] at hs <;> (repeat' split at hs) <;> first
    | (obtain rfl := Option.some.inj hs
       simp only [St.setRd, St.wput, St.incr, St.change, upd_apply]
       grind)
    | cases hs

/-- The past does not change. -/
theorem hist_fixed {fc : Fences} {s s' : St K V n} {a : Act K V n} (hs : step fc s a = some s') : s.now ≤ s'.now ∧ ∀ t, t ≤ s.now → s'.hist t = s.hist t := by
  cases a <;> simp only [step] at hs <;> (repeat' split at hs) <;> first
    | (obtain rfl := Option.some.inj hs
       simp only [St.setRd, St.wput, St.incr, St.change, upd_apply]
       grind)
    | cases hs

end Verif.Weak.HtRead
