import Verif.Weak.HsRead
import Verif.Core.Tactic

/-!
# Readers of a hash set on relaxed memory: what a lookup returns (C95)

`Good k i c m`: whoever looks at slot number `i` of the path of `k`, knows its value `c`, and has loaded generation `m`, finds `k` there or learns of a newer generation.
`Item`: such a slot exists, is known, within the bound, and no slot before is known empty.
-/

namespace Verif.Weak.HsRead

open Verif
open Fas (opt)

variable {K V : Type} {n : Nat}

def IsObj (k : K) (x : Val K V) : Prop := ∃ v, x = .obj k v

/-- `k` is at `i`, or about to leave it with a newer generation, or has left it with a newer generation. -/
def Alive (G : Geo K) (s : St K V n) (k : K) (i m : Nat) : Prop :=
  s.pos k = some i ∨ s.wpc = .sig k i ∨ (s.wpc = .tomb k i ∧ m < s.mem.top (.gen (G.gi k)))
    ∨ m < (s.mem.msg (.slot (G.path k i)) (s.mem.top (.slot (G.path k i)))).view (.gen (G.gi k))

structure GoodC (G : Geo K) (mem : Mem Loc (Val K V)) (wpc : WPC K) (pos : K → Option Nat) (k : K) (i c m : Nat) : Prop where
  first : First G k i
  le : c ≤ mem.top (.slot (G.path k i))
  msgs : ∀ a, c ≤ a → a ≤ mem.top (.slot (G.path k i)) →
    IsObj k (mem.msg (.slot (G.path k i)) a).val ∨ m < (mem.msg (.slot (G.path k i)) a).view (.gen (G.gi k))
  alive : pos k = some i ∨ wpc = .sig k i ∨ (wpc = .tomb k i ∧ m < mem.top (.gen (G.gi k)))
    ∨ m < (mem.msg (.slot (G.path k i)) (mem.top (.slot (G.path k i)))).view (.gen (G.gi k))

abbrev Good (G : Geo K) (s : St K V n) (k : K) (i c m : Nat) : Prop := GoodC G s.mem s.wpc s.pos k i c m

/-- No slot up to `i` is known empty. -/
def Known (G : Geo K) (s : St K V n) (k : K) (i : Nat) (cur : View Loc) : Prop :=
  ∀ l, l ≤ i → (s.mem.msg (.slot (G.path k l)) (cur (.slot (G.path k l)))).val ≠ .empty

def Item (G : Geo K) (s : St K V n) (k : K) (m : Nat) (S cur : View Loc) : Prop :=
  ∃ i c, Good G s k i c m ∧ c ≤ S (.slot (G.path k i)) ∧ Known G s k i cur
    ∧ ∀ a, cur (.bound (G.hm k)) ≤ a → a ≤ s.mem.top (.bound (G.hm k)) →
        i < (s.mem.msg (.bound (G.hm k)) a).val.toNat ∨ m < (s.mem.msg (.bound (G.hm k)) a).view (.gen (G.gi k))

/-- `k` is in the set since the last `sync` of the reader; without the fence `fix`, it is also not moved. -/
def Kn (fc : Fences) (s : St K V n) (b : Nat) (k : K) : Prop :=
  (∀ t, b ≤ t → t ≤ s.now → s.hist t k ≠ none) ∧ (fc.fix = true ∨ s.mvd k ≤ b)

/-- The object was in the set since the last `sync`. -/
def Was (s : St K V n) (b : Nat) (k : K) (v : V) : Prop := ∃ t, b ≤ t ∧ t ≤ s.now ∧ s.hist t k = some v

/-- What holds inside of a call. -/
def Pc (G : Geo K) (fc : Fences) (s : St K V n) (q : Rd K V) : RPC K V → Prop
  | .bnd k g => g ≤ s.mem.top (.gen (G.gi k)) ∧ (Kn fc s q.b k → Item G s k g (join q.th.cur q.th.acq) q.th.cur)
  | .probe k g m l => g ≤ s.mem.top (.gen (G.gi k)) ∧ (Kn fc s q.b k → g < q.th.acq (.gen (G.gi k)) ∨
      ∃ i c, Good G s k i c g ∧ c ≤ q.th.cur (.slot (G.path k i)) ∧ Known G s k i q.th.cur ∧ i < m ∧ l ≤ i)
  | .chk k g res => (res = none → Kn fc s q.b k → g < q.th.acq (.gen (G.gi k))) ∧ ∀ v, res = some v → Was s q.b k v
  | .ret k res => (res = none → ¬ Kn fc s q.b k) ∧ ∀ v, res = some v → Was s q.b k v
  | _ => True

structure RInv (G : Geo K) (fc : Fences) (s : St K V n) (q : Rd K V) : Prop where
  wf : q.th.Wf s.mem
  bn : q.b ≤ s.now
  wb : s.wpc ≠ .idle → q.b < s.now
  val : ∀ x a k v, q.th.cur (.slot x) ≤ a → a ≤ s.mem.top (.slot x) → (s.mem.msg (.slot x) a).val = .obj k v → Was s q.b k v
  rk : ∀ k, Kn fc s q.b k → ∀ m, q.th.cur (.gen (G.gi k)) ≤ m → m ≤ s.mem.top (.gen (G.gi k)) →
    Item G s k m (join q.th.cur (s.mem.msg (.gen (G.gi k)) m).view) q.th.cur
  pc : Pc G fc s q q.pc

structure Base (m : Mem Loc (Val K V)) (w : Th Loc) : Prop where
  mwf : m.Wf
  wwf : w.Wf m
  cur : ∀ l, w.cur l = m.top l
  wr : ∀ l, w.wr l = m.top l
  rel : ∀ g, w.rel (.gen g) = m.top (.gen g)
  gval : ∀ g i, i ≤ m.top (.gen g) → (m.msg (.gen g) i).val.toNat = i
  ne : ∀ x i i', i ≤ i' → i' ≤ m.top (.slot x) → (m.msg (.slot x) i').val = .empty → (m.msg (.slot x) i).val = .empty
  mono : ∀ g i x, i ≤ m.top (.gen g) → (m.msg (.gen g) i).view (.slot x) ≤ w.rel (.slot x)

structure WInv (G : Geo K) (s : St K V n) : Prop where
  base : Base s.mem s.w
  here : ∀ k i, s.pos k = some i →
    IsObj k (s.mem.last (.slot (G.path k i))) ∧ s.hist s.now k ≠ none ∧ First G k i ∧ Full G s.mem k i ∧ i < (s.mem.last (.bound (G.hm k))).toNat
  gone : ∀ k, s.pos k = none → s.hist s.now k = none
  own : ∀ x k v, s.mem.last (.slot x) = .obj k v → (s.hist s.now k = some v ∧ ∃ i, s.pos k = some i ∧ G.path k i = x)
    ∨ ∃ j, (s.wpc = .sig k j ∨ s.wpc = .tomb k j) ∧ G.path k j = x
  wpc : ∀ k j, s.wpc = .sig k j ∨ s.wpc = .tomb k j →
    First G k j ∧ IsObj k (s.mem.last (.slot (G.path k j))) ∧ s.mvd k = s.now ∧ ∃ i, s.pos k = some i ∧ i < j
  mvd : ∀ k, s.mvd k ≤ s.now

structure Inv (G : Geo K) (fc : Fences) (s : St K V n) : Prop where
  w : WInv G s
  r : ∀ r, RInv G fc s (s.rd r)

/-! ## Stores of the writer -/

theorem Good.put {G : Geo K} {s s' : St K V n} {k : K} {i c m : Nat} {l : Loc} {v : Val K V} {w : View Loc} (h : Good G s k i c m)
    (hp : Put s.mem s'.mem l v w) (ha : l = .slot (G.path k i) → IsObj k v ∨ m < w (.gen (G.gi k))) (hb : Alive G s' k i m) : Good G s' k i c m := by
  refine ⟨h.first, Nat.le_trans h.le (hp.top_le _), fun a h1 h2 => ?_, hb⟩
  by_cases hl : l = .slot (G.path k i)
  · subst hl
    rw [hp.top, if_pos rfl] at h2
    by_cases e : a = s.mem.top (.slot (G.path k i)) + 1
    · subst e; rw [hp.new]; exact ha rfl
    · rw [hp.old _ _ (by omega)]; exact h.msgs a h1 (by omega)
  · rw [hp.top_ne (Ne.symm hl)] at h2
    rw [hp.old _ _ h2]; exact h.msgs a h1 h2

theorem Known.put {G : Geo K} {s s' : St K V n} {k : K} {i : Nat} {l : Loc} {v : Val K V} {w cur : View Loc} (h : Known G s k i cur)
    (hp : Put s.mem s'.mem l v w) (hc : ∀ y, cur y ≤ s.mem.top y) : Known G s' k i cur := by
  intro l' hl'
  rw [hp.old _ _ (hc _)]
  exact h l' hl'

theorem Item.put {G : Geo K} {s s' : St K V n} {k : K} {m : Nat} {l : Loc} {v : Val K V} {w S cur : View Loc} (h : Item G s k m S cur)
    (hp : Put s.mem s'.mem l v w) (hc : ∀ y, cur y ≤ s.mem.top y) (hg : ∀ i c, Good G s k i c m → Good G s' k i c m)
    (hb : l = .bound (G.hm k) → ∀ i c, Good G s k i c m → i < v.toNat ∨ m < w (.gen (G.gi k))) : Item G s' k m S cur := by
  obtain ⟨i, c, h1, h2, h3, h4⟩ := h
  refine ⟨i, c, hg i c h1, h2, h3.put hp hc, fun a a1 a2 => ?_⟩
  by_cases hl : l = .bound (G.hm k)
  · subst hl
    rw [hp.top, if_pos rfl] at a2
    by_cases e : a = s.mem.top (.bound (G.hm k)) + 1
    · subst e; rw [hp.new]; exact hb rfl i c h1
    · rw [hp.old _ _ (by omega)]; exact h4 a a1 (by omega)
  · rw [hp.top_ne (Ne.symm hl)] at a2
    rw [hp.old _ _ a2]; exact h4 a a1 a2

/-- What a store of the writer does for readers. -/
structure WStep (G : Geo K) (fc : Fences) (s s' : St K V n) (l : Loc) (v : Val K V) (w : View Loc) : Prop where
  put : Put s.mem s'.mem l v w
  now : s.now ≤ s'.now
  hist : ∀ t, t ≤ s.now → s'.hist t = s.hist t
  mvd : ∀ k, s'.mvd k = s.mvd k ∨ s.now < s'.mvd k
  wpc : s'.wpc ≠ .idle → s.wpc ≠ .idle ∨ s.now < s'.now
  obj : ∀ k x, v = .obj k x → s'.hist s'.now k = some x
  good : ∀ k, s.hist s.now k ≠ none → s'.hist s'.now k ≠ none → ∀ i c m, m ≤ s.mem.top (.gen (G.gi k)) → Good G s k i c m → Good G s' k i c m
  bnd : ∀ k, l = .bound (G.hm k) → ∀ i c m, m ≤ s.mem.top (.gen (G.gi k)) → Good G s k i c m → i < v.toNat ∨ m < w (.gen (G.gi k))
  gen : ∀ k, l = .gen (G.gi k) → ∀ q, RInv G fc s q → Kn fc s q.b k → Kn fc s' q.b k →
    Item G s' k (s.mem.top l + 1) (join q.th.cur w) q.th.cur

theorem WStep.kn {G : Geo K} {fc : Fences} {s s' : St K V n} {l : Loc} {v : Val K V} {w : View Loc} (h : WStep G fc s s' l v w) {b : Nat} {k : K}
    (hb : b ≤ s.now) (hk : Kn fc s' b k) : Kn fc s b k ∧ s.hist s.now k ≠ none ∧ s'.hist s'.now k ≠ none := by
  have e : ∀ t, b ≤ t → t ≤ s.now → s.hist t k ≠ none := by
    intro t t1 t2
    have := hk.1 t t1 (Nat.le_trans t2 h.now)
    rwa [h.hist t t2] at this
  refine ⟨⟨e, hk.2.imp_right fun h1 => ?_⟩, e _ hb (Nat.le_refl _), hk.1 _ (Nat.le_trans hb h.now) (Nat.le_refl _)⟩
  rcases h.mvd k with h2 | h2
  · omega
  · omega

theorem WStep.was {G : Geo K} {fc : Fences} {s s' : St K V n} {l : Loc} {v : Val K V} {w : View Loc} (h : WStep G fc s s' l v w) {b : Nat} {k : K} {x : V}
    (hw : Was s b k x) : Was s' b k x := by
  obtain ⟨t, h1, h2, h3⟩ := hw
  exact ⟨t, h1, Nat.le_trans h2 h.now, by rw [h.hist t h2]; exact h3⟩

theorem RInv.wstep {G : Geo K} {fc : Fences} {s s' : St K V n} {l : Loc} {v : Val K V} {w : View Loc} {q : Rd K V} (h : RInv G fc s q)
    (hs : WStep G fc s s' l v w) : RInv G fc s' q := by
  have hc : ∀ y, q.th.cur y ≤ s.mem.top y := fun y => (h.wf y).1
  have hn := hs.now
  have hI : ∀ k m S, Kn fc s' q.b k → m ≤ s.mem.top (.gen (G.gi k)) → Item G s k m S q.th.cur → Item G s' k m S q.th.cur := by
    intro k m S hk hm hi
    have := hs.kn h.bn hk
    exact hi.put hs.put hc (fun i c => hs.good k this.2.1 this.2.2 i c m hm) (fun e i c => hs.bnd k e i c m hm)
  refine ⟨h.wf.mono hs.put.top_le, Nat.le_trans h.bn hn, ?_, ?_, ?_, ?_⟩
  · intro e
    have := h.bn
    rcases hs.wpc e with h1 | h1
    · have := h.wb h1; omega
    · omega
  · intro x a k y h1 h2 h3
    by_cases ho : a ≤ s.mem.top (.slot x)
    · rw [hs.put.old _ _ ho] at h3
      exact hs.was (h.val x a k y h1 ho h3)
    · rw [hs.put.top] at h2
      split at h2
      · next e =>
        have ea : a = s.mem.top l + 1 := by rw [e] at ho; omega
        rw [ea, e, hs.put.new] at h3
        exact ⟨s'.now, Nat.le_trans h.bn hn, Nat.le_refl _, hs.obj k y h3⟩
      · omega
  · intro k hk m h1 h2
    have hk' := (hs.kn h.bn hk).1
    by_cases ho : m ≤ s.mem.top (.gen (G.gi k))
    · rw [hs.put.old _ _ ho]
      exact hI k m _ hk ho (h.rk k hk' m h1 ho)
    · rw [hs.put.top] at h2
      split at h2
      · next e =>
        have ea : m = s.mem.top l + 1 := by rw [e] at ho; omega
        rw [e, ea, hs.put.new]
        exact hs.gen k e.symm q h hk' hk
      · omega
  · have hp := h.pc
    unfold Pc at hp ⊢
    split at hp
    · next k g _ =>
      exact ⟨Nat.le_trans hp.1 (hs.put.top_le _), fun hk => hI k g _ hk hp.1 (hp.2 (hs.kn h.bn hk).1)⟩
    · next k g m l' _ =>
      refine ⟨Nat.le_trans hp.1 (hs.put.top_le _), fun hk => ?_⟩
      have := hs.kn h.bn hk
      refine (hp.2 this.1).imp_right ?_
      rintro ⟨i, c, h1, h2, h3, h4⟩
      exact ⟨i, c, hs.good k this.2.1 this.2.2 i c g hp.1 h1, h2, h3.put hs.put hc, h4⟩
    · exact ⟨fun e hk => hp.1 e (hs.kn h.bn hk).1, fun v e => hs.was (hp.2 v e)⟩
    · exact ⟨fun e hk => hp.1 e (hs.kn h.bn hk).1, fun v e => hs.was (hp.2 v e)⟩
    · trivial

theorem Base.store {m : Mem Loc (Val K V)} {w : Th Loc} (h : Base m w) {l : Loc} {v : Val K V} (hg : ∀ g, l ≠ .gen g) (hv : ∀ x, l = .slot x → v ≠ .empty) :
    Base (m.store w l v) (w.store m l) := by
  have hp := Put.store m w l v
  refine ⟨h.mwf.store h.wwf l v, h.wwf.store l v, fun y => ?_, fun y => ?_, fun g => ?_, fun g i hi => ?_, fun x i i' h1 h2 h3 => ?_, fun g' i x hi => ?_⟩
  · rw [hp.top]; simp only [Th.store, upd_apply]; split
    · rfl
    · exact h.cur y
  · rw [hp.top]; simp only [Th.store, upd_apply]; split
    · rfl
    · exact h.wr y
  · rw [hp.top_ne (Ne.symm (hg g))]; exact h.rel g
  · rw [hp.top_ne (Ne.symm (hg g))] at hi
    rw [hp.old _ _ hi]; exact h.gval g i hi
  · rw [hp.top] at h2
    split at h2
    · next e =>
      subst e
      by_cases e' : i' = m.top (.slot x) + 1
      · subst e'; rw [hp.new] at h3; exact absurd h3 (hv x rfl)
      · rw [hp.old _ _ (by omega)] at h3 ⊢
        exact h.ne x i i' h1 (by omega) h3
    · rw [hp.old _ _ (by omega)] at h3 ⊢
      exact h.ne x i i' h1 h2 h3
  · rw [hp.top_ne (Ne.symm (hg g'))] at hi
    rw [hp.old _ _ hi]; exact h.mono g' i x hi

theorem Base.fence {m : Mem Loc (Val K V)} {w : Th Loc} (h : Base m w) : Base m w.fenceStore := by
  refine ⟨h.mwf, h.wwf.fenceStore, h.cur, h.wr, fun g => ?_, h.gval, h.ne, fun g i x hi => Nat.le_trans (h.mono g i x hi) (le_join_left _ _ _)⟩
  show join w.rel w.wr _ = _
  rw [join_apply, h.rel, h.wr, Nat.max_self]

theorem Base.sig {m : Mem Loc (Val K V)} {w : Th Loc} (h : Base m w) (g : Nat) :
    Base (m.store w (.gen g) (.num ((m.last (.gen g)).toNat + 1))) (w.store m (.gen g)).fenceStore := by
  have hp := Put.store m w (.gen g) (.num ((m.last (.gen g)).toNat + 1))
  have hw : ∀ y, (w.store m (.gen g)).wr y = (m.store w (.gen g) (.num ((m.last (.gen g)).toNat + 1))).top y := by
    intro y
    rw [hp.top]; simp only [Th.store, upd_apply]; split
    · rfl
    · exact h.wr y
  refine ⟨h.mwf.store h.wwf _ _, (h.wwf.store _ _).fenceStore, fun y => ?_, hw, fun g' => ?_, fun g' i hi => ?_, fun x i i' h1 h2 h3 => ?_, fun g' i x hi => ?_⟩
  · rw [hp.top]
    show upd w.cur _ _ y = _
    rw [upd_apply]; split
    · rfl
    · exact h.cur y
  · show join w.rel (w.store m (.gen g)).wr _ = _
    rw [join_apply, hw, h.rel]
    exact Nat.max_eq_right (hp.top_le _)
  · rw [hp.top] at hi
    split at hi
    · next e =>
      by_cases e' : i = m.top (.gen g) + 1
      · rw [e, e', hp.new]
        show (m.last (.gen g)).toNat + 1 = _
        rw [Mem.last, h.gval g _ (Nat.le_refl _)]
      · rw [e, hp.old _ _ (by omega)]; exact h.gval g i (by omega)
    · rw [hp.old _ _ hi]; exact h.gval g' i hi
  · rw [hp.top_ne (by simp)] at h2
    rw [hp.old _ _ (by omega)] at h3 ⊢
    exact h.ne x i i' h1 h2 h3
  · refine Nat.le_trans ?_ (le_join_left _ _ _)
    rw [hp.top] at hi
    split at hi
    · next e =>
      by_cases e' : i = m.top (.gen g) + 1
      · rw [e, e', hp.new]
        show (upd w.rel (.gen g) (m.top (.gen g) + 1)) (.slot x) ≤ w.rel (.slot x)
        rw [upd_ne _ _ (by simp)]
      · rw [e, hp.old _ _ (by omega)]; exact h.mono g i x (by omega)
    · rw [hp.old _ _ hi]; exact h.mono g' i x hi

theorem WInv.view {G : Geo K} {s : St K V n} (h : WInv G s) {y : Loc} {i g : Nat} (hi : i ≤ s.mem.top y) : (s.mem.msg y i).view (.gen g) ≤ s.mem.top (.gen g) :=
  h.base.mwf y i _ hi

/-- A store to a slot. -/
theorem Good.slot {G : Geo K} {s s' : St K V n} {k : K} {i c m X : Nat} {v : Val K V} (h : Good G s k i c m) (hw : WInv G s)
    (hp : Put s.mem s'.mem (.slot X) v (upd s.w.rel (.slot X) (s.mem.top (.slot X) + 1)))
    (hA : s.pos k = some i ∨ s.wpc = .sig k i ∨ (s.wpc = .tomb k i ∧ m < s.mem.top (.gen (G.gi k))) → Alive G s' k i m)
    (hO : X = G.path k i → IsObj k v ∨ ¬ IsObj k (s.mem.last (.slot X)) ∨ m < s.mem.top (.gen (G.gi k))) : Good G s' k i c m := by
  have ew : upd s.w.rel (.slot X) (s.mem.top (.slot X) + 1) (.gen (G.gi k)) = s.mem.top (.gen (G.gi k)) := by
    rw [upd_ne _ _ (by simp), hw.base.rel]
  have ht := hw.view (y := .slot (G.path k i)) (g := G.gi k) (Nat.le_refl _)
  refine h.put hp (fun e => ?_) ?_
  · simp only [Loc.slot.injEq] at e
    rw [ew]
    rcases hO e with h1 | h1 | h1
    · exact .inl h1
    · right
      rcases h.msgs _ h.le (Nat.le_refl _) with h2 | h2
      · rw [e] at h1; exact absurd h2 h1
      · omega
    · exact .inr h1
  · rcases h.alive with h1 | h1 | h1 | h1
    · exact hA (.inl h1)
    · exact hA (.inr (.inl h1))
    · exact hA (.inr (.inr h1))
    · right; right; right
      by_cases e : X = G.path k i
      · subst e
        rw [hp.msg_at]
        exact lt_of_lt_of_eq (by omega) ew.symm
      · rw [hp.msg_ne (by simpa using Ne.symm e)]; exact h1

/-! ## Steps of a reader -/

theorem Known.mono {G : Geo K} {s : St K V n} {k : K} {i : Nat} {cur cur' : View Loc} (hw : WInv G s) (h : Known G s k i cur)
    (h1 : ∀ y, cur y ≤ cur' y) (h2 : ∀ y, cur' y ≤ s.mem.top y) : Known G s k i cur' := fun l hl e =>
  h l hl (hw.base.ne _ _ _ (h1 _) (h2 _) e)

theorem Item.mono {G : Geo K} {s : St K V n} {k : K} {m : Nat} {S S' cur cur' : View Loc} (hw : WInv G s) (h : Item G s k m S cur)
    (h0 : ∀ y, S y ≤ S' y) (h1 : ∀ y, cur y ≤ cur' y) (h2 : ∀ y, cur' y ≤ s.mem.top y) : Item G s k m S' cur' := by
  obtain ⟨i, c, a1, a2, a3, a4⟩ := h
  exact ⟨i, c, a1, Nat.le_trans a2 (h0 _), a3.mono hw h1 h2, fun a e1 e2 => a4 a (Nat.le_trans (h1 _) e1) e2⟩

/-- The reader learns something. -/
theorem RInv.th {G : Geo K} {fc : Fences} {s : St K V n} {q q' : Rd K V} (h : RInv G fc s q) (hw : WInv G s) (hb : q'.b = q.b) (hf : q'.th.Wf s.mem)
    (hc : ∀ y, q.th.cur y ≤ q'.th.cur y) (hpc : Pc G fc s q' q'.pc) : RInv G fc s q' := by
  refine ⟨hf, hb ▸ h.bn, fun e => hb ▸ h.wb e, fun x a k v h1 h2 h3 => hb ▸ h.val x a k v (Nat.le_trans (hc _) h1) h2 h3, fun k hk m h1 h2 => ?_, hpc⟩
  rw [hb] at hk
  refine (h.rk k hk m (Nat.le_trans (hc _) h1) h2).mono hw (fun y => ?_) hc (fun y => (hf y).1)
  exact join_le (Nat.le_trans (hc y) (le_join_left _ _ _)) (le_join_right _ _ _)

theorem RInv.sync {G : Geo K} {fc : Fences} {s : St K V n} {q : Rd K V} (h : RInv G fc s q) (hw : WInv G s) (hpc : q.pc = .idle) (hi : s.wpc = .idle) :
    RInv G fc s { q with th := { q.th with cur := join q.th.cur s.w.cur }, b := s.now } := by
  have ec : ∀ y, join q.th.cur s.w.cur y = s.mem.top y := fun y => by
    rw [join_apply, hw.base.cur]; exact Nat.max_eq_right (h.wf y).1
  refine ⟨fun y => ⟨(ec y).le, (h.wf y).2⟩, Nat.le_refl _, fun e => absurd hi e, ?_, ?_, ?_⟩
  · intro x a k v h1 h2 h3
    replace h1 : join q.th.cur s.w.cur (.slot x) ≤ a := h1
    rw [ec] at h1
    have ea : a = s.mem.top (.slot x) := by omega
    subst ea
    rcases hw.own x k v h3 with h4 | ⟨j, h4, _⟩
    · exact ⟨s.now, Nat.le_refl _, Nat.le_refl _, h4.1⟩
    · rw [hi] at h4; simp at h4
  · intro k hk m h1 h2
    replace h1 : join q.th.cur s.w.cur (.gen (G.gi k)) ≤ m := h1
    rw [ec] at h1
    have hn := hk.1 s.now (Nat.le_refl _) (Nat.le_refl _)
    cases hp : s.pos k with
    | none => exact absurd (hw.gone k hp) hn
    | some i =>
      obtain ⟨a1, _, a2, a3, a4⟩ := hw.here k i hp
      refine ⟨i, s.mem.top (.slot (G.path k i)), ⟨a2, Nat.le_refl _, fun a e1 e2 => .inl ?_, .inl hp⟩, ?_, ?_, ?_⟩
      · have : a = s.mem.top (.slot (G.path k i)) := by omega
        subst this; exact a1
      · refine Nat.le_trans ?_ (le_join_left _ _ _)
        exact (ec _).ge
      · intro l hl
        show (s.mem.msg _ (join q.th.cur s.w.cur _)).val ≠ _
        rw [ec]
        by_cases e : l = i
        · subst e
          obtain ⟨v, hv⟩ := a1
          rw [show (s.mem.msg _ _).val = _ from hv]; simp
        · exact a3 l (by omega)
      · intro a e1 e2
        replace e1 : join q.th.cur s.w.cur (.bound (G.hm k)) ≤ a := e1
        rw [ec] at e1
        have : a = s.mem.top (.bound (G.hm k)) := by omega
        subst this; exact .inl a4
  · show Pc G fc s _ q.pc
    rw [hpc]; trivial

theorem RInv.gen {G : Geo K} {fc : Fences} {s : St K V n} {q : Rd K V} (h : RInv G fc s q) (hw : WInv G s) {k : K} {i : Nat}
    (hm : q.th.may s.mem (.gen (G.gi k)) i) :
    RInv G fc s { q with th := q.th.load s.mem (.gen (G.gi k)) i, pc := .bnd k (s.mem.msg (.gen (G.gi k)) i).val.toNat } := by
  have hf := h.wf.load hw.base.mwf hm.2
  refine h.th hw rfl hf (Th.load_cur_le _ _ _ _) ?_
  rw [hw.base.gval _ _ hm.2]
  refine ⟨hm.2, fun hk => (h.rk k hk i hm.1 hm.2).mono hw (fun y => ?_) (Th.load_cur_le _ _ _ _) (fun y => (hf y).1)⟩
  exact join_le (Nat.le_trans (Th.load_cur_le _ _ _ _ _) (le_join_left _ _ _)) (Nat.le_trans (Th.load_view_le _ _ _ _ _) (le_join_right _ _ _))

theorem RInv.bnd {G : Geo K} {fc : Fences} {s : St K V n} {q : Rd K V} (h : RInv G fc s q) (hw : WInv G s) {k : K} {g i : Nat} (hpc : q.pc = .bnd k g)
    (hm : q.th.may s.mem (.bound (G.hm k)) i) :
    RInv G fc s { q with
      th := (q.th.load s.mem (.bound (G.hm k)) i).fenceLoad, pc := .probe k g (s.mem.msg (.bound (G.hm k)) i).val.toNat 0 } := by
  have hf := (h.wf.load hw.base.mwf hm.2).fenceLoad
  have hc : ∀ y, q.th.cur y ≤ (q.th.load s.mem (.bound (G.hm k)) i).fenceLoad.cur y := fun y =>
    Nat.le_trans (Th.load_cur_le _ _ _ _ _) (le_join_left _ _ _)
  have hp := h.pc
  rw [hpc] at hp
  refine h.th hw rfl hf hc ⟨hp.1, fun hk => ?_⟩
  obtain ⟨i', c, a1, a2, a3, a4⟩ := hp.2 hk
  rcases a4 i hm.1 hm.2 with a5 | a5
  · refine .inr ⟨i', c, a1, Nat.le_trans a2 ?_, a3.mono hw hc (fun y => (hf y).1), a5, Nat.zero_le _⟩
    exact join_le (hc _) (Nat.le_trans (Th.load_acq_le _ _ _ _ _) (le_join_right _ _ _))
  · exact .inl (Nat.lt_of_lt_of_le a5 (Th.load_view_le _ _ _ _ _))

theorem RInv.last {G : Geo K} {fc : Fences} {s : St K V n} {q : Rd K V} (h : RInv G fc s q) (hw : WInv G s) {k : K} {g m l : Nat} (hpc : q.pc = .probe k g m l)
    (hm : m ≤ l) : RInv G fc s { q with pc := .chk k g none } := by
  have hp := h.pc
  rw [hpc] at hp
  refine h.th hw rfl h.wf (fun _ => Nat.le_refl _) ⟨fun _ hk => ?_, by simp⟩
  rcases hp.2 hk with h1 | ⟨i, c, _, _, _, h2, h3⟩
  · exact h1
  · omega

theorem RInv.probe [DecidableEq K] {G : Geo K} {fc : Fences} {s : St K V n} {q : Rd K V} (h : RInv G fc s q) (hw : WInv G s) {k : K} {g m l i : Nat} (hpc : q.pc = .probe k g m l)
    (hm : q.th.may s.mem (.slot (G.path k l)) i) :
    RInv G fc s { q with
      th := q.th.load s.mem (.slot (G.path k l)) i
      pc := match (s.mem.msg (.slot (G.path k l)) i).val with
        | .empty => .chk k g none
        | .obj k' v => if k' = k then .chk k g (some v) else .probe k g m (l + 1)
        | _ => .probe k g m (l + 1) } := by
  have hf := h.wf.load hw.base.mwf hm.2
  have hc : ∀ y, q.th.cur y ≤ (q.th.load s.mem (.slot (G.path k l)) i).cur y := Th.load_cur_le _ _ _ _
  have hp := h.pc
  rw [hpc] at hp
  refine h.th hw rfl hf hc ?_
  have key : ¬ IsObj k (s.mem.msg (.slot (G.path k l)) i).val →
      Pc G fc s { q with th := q.th.load s.mem (.slot (G.path k l)) i } (.probe k g m (l + 1)) := by
    intro hn
    refine ⟨hp.1, fun hk => ?_⟩
    rcases hp.2 hk with h1 | ⟨i', c, a1, a2, a3, a4, a5⟩
    · exact .inl (Nat.lt_of_lt_of_le h1 (Th.load_acq_le _ _ _ _ _))
    · by_cases e : i' = l
      · subst e
        rcases a1.msgs i (Nat.le_trans a2 hm.1) hm.2 with h2 | h2
        · exact absurd h2 hn
        · exact .inl (Nat.lt_of_lt_of_le h2 (Th.load_view_le _ _ _ _ _))
      · exact .inr ⟨i', c, a1, Nat.le_trans a2 (hc _), a3.mono hw hc (fun y => (hf y).1), a4, by omega⟩
  show Pc G fc s _ (match (s.mem.msg (.slot (G.path k l)) i).val with
        | .empty => .chk k g none
        | .obj k' v => if k' = k then .chk k g (some v) else .probe k g m (l + 1)
        | _ => .probe k g m (l + 1))
  split
  · next e =>
    refine ⟨fun _ hk => ?_, by simp⟩
    rcases hp.2 hk with h1 | ⟨i', c, a1, a2, a3, a4, a5⟩
    · exact Nat.lt_of_lt_of_le h1 (Th.load_acq_le _ _ _ _ _)
    · exact absurd (hw.base.ne _ _ _ hm.1 hm.2 e) (a3 l a5)
  · next k' v e =>
    split
    · next ek =>
      subst ek
      refine ⟨by simp, fun v' hv => ?_⟩
      simp only [Option.some.injEq] at hv
      subst hv
      exact h.val _ i k' v hm.1 hm.2 e
    · next ek => exact key (by rw [e]; rintro ⟨v', hv⟩; simp only [Val.obj.injEq] at hv; exact ek hv.1)
  · next h1 h2 => exact key (by rintro ⟨v', hv⟩; exact h2 _ _ hv)

theorem RInv.chk {G : Geo K} {fc : Fences} {s : St K V n} {q : Rd K V} (h : RInv G fc s q) (hw : WInv G s) {k : K} {g i : Nat} {res : Option V} (hpc : q.pc = .chk k g res)
    (hm : q.th.fenceLoad.may s.mem (.gen (G.gi k)) i) :
    RInv G fc s { q with
      th := q.th.fenceLoad.load s.mem (.gen (G.gi k)) i
      pc := if (s.mem.msg (.gen (G.gi k)) i).val.toNat = g then .ret k res else .start k } := by
  have hp := h.pc
  rw [hpc] at hp
  refine h.th hw rfl (h.wf.fenceLoad.load hw.base.mwf hm.2) (fun y => Nat.le_trans (le_join_left q.th.cur q.th.acq y) (Th.load_cur_le q.th.fenceLoad s.mem (.gen (G.gi k)) i y)) ?_
  show Pc G fc s _ (if (s.mem.msg (.gen (G.gi k)) i).val.toNat = g then .ret k res else .start k)
  split
  · next e =>
    rw [hw.base.gval _ _ hm.2] at e
    refine ⟨fun e1 hk => ?_, hp.2⟩
    have h1 := hp.1 e1 hk
    have h2 : q.th.acq (.gen (G.gi k)) ≤ i := Nat.le_trans (le_join_right _ _ _) hm.1
    omega
  · trivial

/-! ## Steps of the writer -/

variable [DecidableEq K]

/-- `pos` and `hist` after a change. -/
theorem change_pos (s : St K V n) (k : K) (v : Option V) (p : Option Nat) : (s.change k v p).pos = upd s.pos k p := rfl

theorem WInv.put {G : Geo K} {s : St K V n} (h : WInv G s) {k : K} {i : Nat} {v : V} (hi : s.wpc = .idle) (hn : s.pos k = none) (h1 : First G k i)
    (h2 : Full G s.mem k i) (h3 : i < (s.mem.last (.bound (G.hm k))).toNat)
    (h4 : s.mem.last (.slot (G.path k i)) = .empty ∨ s.mem.last (.slot (G.path k i)) = .tomb) :
    WInv G ((s.wput s.w (.slot (G.path k i)) (.obj k v)).change k (some v) (some i)) := by
  have hp := Put.store s.mem s.w (.slot (G.path k i)) (.obj k v)
  have hl := hp.last
  have hb := h.base.store (l := .slot (G.path k i)) (v := .obj k v) (by simp) (by simp)
  have hy := h.here
  have ho := h.own
  have hg := h.gone
  have hm := h.mvd
  refine ⟨hb, ?_, ?_, ?_, ?_, ?_⟩ <;> simp only [St.change, St.wput, upd_apply, IsObj, Full, First] at * <;> clear hb hp
  · grind
  · grind
  · grind
  · grind
  · grind

theorem WInv.repl {G : Geo K} {s : St K V n} (h : WInv G s) {k : K} {i : Nat} {v : V} (hi : s.wpc = .idle) (hn : s.pos k = some i) :
    WInv G ((s.wput s.w (.slot (G.path k i)) (.obj k v)).change k (some v) (some i)) := by
  have hp := Put.store s.mem s.w (.slot (G.path k i)) (.obj k v)
  have hl := hp.last
  have hy := h.here
  have ho := h.own
  have hg := h.gone
  have hm := h.mvd
  have hb := h.base.store (l := .slot (G.path k i)) (v := .obj k v) (by simp) (by simp)
  refine ⟨hb, ?_, ?_, ?_, ?_, ?_⟩ <;> simp only [St.change, St.wput, upd_apply, IsObj, Full, First] at * <;> clear hb hp
  · grind
  · grind
  · grind
  · grind
  · grind

theorem WInv.move {G : Geo K} {s : St K V n} (h : WInv G s) {k : K} {i j : Nat} {v : V} (hi : s.wpc = .idle) (hn : s.pos k = some j) (h1 : i < j) (h2 : First G k i)
    (h3 : s.mem.last (.slot (G.path k i)) = .tomb) :
    WInv G ({ (s.wput s.w (.slot (G.path k i)) (.obj k v)).change k (some v) (some i) with wpc := .sig k j, mvd := upd s.mvd k (s.now + 1) }) := by
  have hp := Put.store s.mem s.w (.slot (G.path k i)) (.obj k v)
  have hl := hp.last
  have hy := h.here
  have ho := h.own
  have hg := h.gone
  have hm := h.mvd
  have hb := h.base.store (l := .slot (G.path k i)) (v := .obj k v) (by simp) (by simp)
  refine ⟨hb, ?_, ?_, ?_, ?_, ?_⟩ <;> simp only [St.change, St.wput, upd_apply, IsObj, Full, First] at * <;> clear hb hp
  · grind
  · grind
  · grind
  · grind
  · grind

theorem WInv.del {G : Geo K} {s : St K V n} (h : WInv G s) {k : K} {i : Nat} (hi : s.wpc = .idle) (hn : s.pos k = some i) :
    WInv G ((s.wput s.w (.slot (G.path k i)) .tomb).change k none none) := by
  have hp := Put.store s.mem s.w (.slot (G.path k i)) (.tomb)
  have hl := hp.last
  have hy := h.here
  have ho := h.own
  have hg := h.gone
  have hm := h.mvd
  have hb := h.base.store (l := .slot (G.path k i)) (v := .tomb) (by simp) (by simp)
  refine ⟨hb, ?_, ?_, ?_, ?_, ?_⟩ <;> simp only [St.change, St.wput, upd_apply, IsObj, Full, First] at * <;> clear hb hp
  · grind
  · grind
  · grind
  · grind
  · grind

omit [DecidableEq K] in
theorem WInv.tomb {G : Geo K} {s : St K V n} (h : WInv G s) {k : K} {j : Nat} (hi : s.wpc = .tomb k j) :
    WInv G ({ s.wput s.w (.slot (G.path k j)) .tomb with wpc := .idle }) := by
  have hp := Put.store s.mem s.w (.slot (G.path k j)) (.tomb)
  have hl := hp.last
  have hy := h.here
  have ho := h.own
  have hg := h.gone
  have hm := h.mvd
  have hb := h.base.store (l := .slot (G.path k j)) (v := .tomb) (by simp) (by simp)
  have hw := h.wpc
  refine ⟨hb, ?_, ?_, ?_, ?_, ?_⟩ <;> simp only [St.wput, IsObj, Full, First] at * <;> clear hb hp
  · grind
  · grind
  · grind
  · grind
  · grind

omit [DecidableEq K] in
theorem WInv.bound {G : Geo K} {s : St K V n} (h : WInv G s) {x m : Nat} (hi : s.wpc = .idle) (h1 : Within G s x m) :
    WInv G (s.wput s.w (.bound x) (.num m)) := by
  have hp := Put.store s.mem s.w (.bound x) (.num m)
  have hl := hp.last
  have hy := h.here
  have ho := h.own
  have hg := h.gone
  have hm := h.mvd
  have hb := h.base.store (l := .bound x) (v := .num m) (by simp) (by simp)
  refine ⟨hb, ?_, ?_, ?_, ?_, ?_⟩ <;> simp only [St.wput, Within, Val.toNat, Option.mem_def, IsObj, Full, First] at * <;> clear hb hp
  · grind
  · grind
  · grind
  · grind
  · grind

omit [DecidableEq K] in
theorem WInv.sig {G : Geo K} {s : St K V n} (h : WInv G s) (b : Bool) {k : K} {j : Nat} (hi : s.wpc = .sig k j) :
    WInv G { s.wput (opt b Th.fenceStore s.w) (.gen (G.gi k)) (.num ((s.mem.last (.gen (G.gi k))).toNat + 1)) with
      w := ((opt b Th.fenceStore s.w).store s.mem (.gen (G.gi k))).fenceStore, wpc := .tomb k j } := by
  have hp := Put.store s.mem (opt b Th.fenceStore s.w) (.gen (G.gi k)) (.num ((s.mem.last (.gen (G.gi k))).toNat + 1))
  have hl := hp.last
  have hy := h.here
  have ho := h.own
  have hg := h.gone
  have hm := h.mvd
  have hw := h.wpc
  have hb : Base s.mem (opt b Th.fenceStore s.w) := by
    unfold opt; split
    · exact h.base.fence
    · exact h.base
  replace hb := hb.sig (G.gi k)
  refine ⟨hb, ?_, ?_, ?_, ?_, ?_⟩ <;> simp only [St.wput, IsObj, Full, First] at * <;> clear hb hp
  · grind
  · grind
  · grind
  · grind
  · grind

theorem WStep.ofPut {G : Geo K} {fc : Fences} {s : St K V n} (h : WInv G s) {k : K} {i : Nat} {v : V} (hi : s.wpc = .idle) (hn : s.pos k = none)
    (h4 : s.mem.last (.slot (G.path k i)) = .empty ∨ s.mem.last (.slot (G.path k i)) = .tomb) :
    WStep G fc s ((s.wput s.w (.slot (G.path k i)) (.obj k v)).change k (some v) (some i)) (.slot (G.path k i)) (.obj k v) (upd s.w.rel (.slot (G.path k i)) (s.mem.top (.slot (G.path k i)) + 1)) := by
  have hp := Put.store s.mem s.w (.slot (G.path k i)) (.obj k v)
  refine ⟨hp, Nat.le_succ _, fun t ht => upd_ne _ _ (Nat.ne_of_lt (Nat.lt_succ_of_le ht)), fun _ => .inl rfl, fun e => .inl e, ?_, ?_, by simp, by simp⟩
  · intro k' x e
    simp only [Val.obj.injEq] at e
    obtain ⟨rfl, rfl⟩ := e
    simp [St.change]
  · intro k' e1 e2 i' c m hm hG
    refine hG.slot h hp ?_ ?_
    · intro h1
      rw [hi] at h1
      simp only [reduceCtorEq, false_and, or_self, or_false] at h1
      left
      have : k' ≠ k := by rintro rfl; exact e1 (h.gone _ hn)
      rw [change_pos, upd_ne _ _ this]; exact h1
    · intro _
      right; left
      rintro ⟨x, hx⟩
      rw [hx] at h4; simp at h4

theorem WStep.ofRepl {G : Geo K} {fc : Fences} {s : St K V n} (h : WInv G s) {k : K} {i : Nat} {v : V} (hi : s.wpc = .idle) (hn : s.pos k = some i) :
    WStep G fc s ((s.wput s.w (.slot (G.path k i)) (.obj k v)).change k (some v) (some i)) (.slot (G.path k i)) (.obj k v) (upd s.w.rel (.slot (G.path k i)) (s.mem.top (.slot (G.path k i)) + 1)) := by
  have hp := Put.store s.mem s.w (.slot (G.path k i)) (.obj k v)
  refine ⟨hp, Nat.le_succ _, fun t ht => upd_ne _ _ (Nat.ne_of_lt (Nat.lt_succ_of_le ht)), fun _ => .inl rfl, fun e => .inl e, ?_, ?_, by simp, by simp⟩
  · intro k' x e
    simp only [Val.obj.injEq] at e
    obtain ⟨rfl, rfl⟩ := e
    simp [St.change]
  · intro k' e1 e2 i' c m hm hG
    refine hG.slot h hp ?_ ?_
    · intro h1
      rw [hi] at h1
      simp only [reduceCtorEq, false_and, or_self, or_false] at h1
      left
      rw [change_pos, upd_apply]; split
      · next e => rw [← hn, ← e]; exact h1
      · exact h1
    · intro _
      by_cases e : k' = k
      · left; exact ⟨v, by rw [e]⟩
      · right; left
        obtain ⟨y, hy⟩ := (h.here k i hn).1
        rintro ⟨x, hx⟩
        rw [hx] at hy; simp only [Val.obj.injEq] at hy; exact e hy.1

theorem WStep.ofMove {G : Geo K} {fc : Fences} {s : St K V n} (h : WInv G s) {k : K} {i j : Nat} {v : V} (hi : s.wpc = .idle) (hn : s.pos k = some j)
    (h3 : s.mem.last (.slot (G.path k i)) = .tomb) :
    WStep G fc s ({ (s.wput s.w (.slot (G.path k i)) (.obj k v)).change k (some v) (some i) with wpc := .sig k j, mvd := upd s.mvd k (s.now + 1) }) (.slot (G.path k i)) (.obj k v) (upd s.w.rel (.slot (G.path k i)) (s.mem.top (.slot (G.path k i)) + 1)) := by
  have hp := Put.store s.mem s.w (.slot (G.path k i)) (.obj k v)
  refine ⟨hp, Nat.le_succ _, fun t ht => upd_ne _ _ (Nat.ne_of_lt (Nat.lt_succ_of_le ht)), fun k' => ?_, fun _ => .inr (Nat.lt_succ_self _), ?_, ?_, by simp, by simp⟩
  · show upd s.mvd k _ k' = _ ∨ _ < upd s.mvd k _ k'
    rw [upd_apply]; split
    · right; omega
    · left; rfl
  · intro k' x e
    simp only [Val.obj.injEq] at e
    obtain ⟨rfl, rfl⟩ := e
    simp [St.change]
  · intro k' e1 e2 i' c m hm hG
    refine hG.slot h hp ?_ ?_
    · intro h1
      rw [hi] at h1
      simp only [reduceCtorEq, false_and, or_self, or_false] at h1
      by_cases e : k' = k
      · subst e
        rw [hn] at h1
        simp only [Option.some.injEq] at h1
        right; left
        show WPC.sig k' j = _
        rw [h1]
      · left
        show upd s.pos k _ k' = _
        rw [upd_ne _ _ e]; exact h1
    · intro _
      right; left
      rintro ⟨x, hx⟩
      rw [hx] at h3; simp at h3

theorem WStep.ofDel {G : Geo K} {fc : Fences} {s : St K V n} (h : WInv G s) {k : K} {i : Nat} (hi : s.wpc = .idle) (hn : s.pos k = some i) :
    WStep G fc s ((s.wput s.w (.slot (G.path k i)) .tomb).change k none none) (.slot (G.path k i)) (.tomb) (upd s.w.rel (.slot (G.path k i)) (s.mem.top (.slot (G.path k i)) + 1)) := by
  have hp := Put.store s.mem s.w (.slot (G.path k i)) (.tomb)
  refine ⟨hp, Nat.le_succ _, fun t ht => upd_ne _ _ (Nat.ne_of_lt (Nat.lt_succ_of_le ht)), fun _ => .inl rfl, fun e => .inl e, ?_, ?_, by simp, by simp⟩
  · intro k' x e
    simp only [reduceCtorEq] at e
  · intro k' e1 e2 i' c m hm hG
    refine hG.slot h hp ?_ ?_
    · intro h1
      rw [hi] at h1
      simp only [reduceCtorEq, false_and, or_self, or_false] at h1
      left
      have : k' ≠ k := by rintro rfl; exact e2 (by simp [St.change])
      rw [change_pos, upd_ne _ _ this]; exact h1
    · intro _
      right; left
      have : k' ≠ k := by rintro rfl; exact e2 (by simp [St.change])
      obtain ⟨y, hy⟩ := (h.here k i hn).1
      rintro ⟨x, hx⟩
      rw [hx] at hy; simp only [Val.obj.injEq] at hy; exact this hy.1

omit [DecidableEq K] in
theorem WStep.ofTomb {G : Geo K} {fc : Fences} {s : St K V n} (h : WInv G s) {k : K} {j : Nat} (hi : s.wpc = .tomb k j) :
    WStep G fc s ({ s.wput s.w (.slot (G.path k j)) .tomb with wpc := .idle }) (.slot (G.path k j)) (.tomb) (upd s.w.rel (.slot (G.path k j)) (s.mem.top (.slot (G.path k j)) + 1)) := by
  have hp := Put.store s.mem s.w (.slot (G.path k j)) (.tomb)
  obtain ⟨a1, a2, a3, ip, a4, a5⟩ := h.wpc k j (.inr hi)
  refine ⟨hp, Nat.le_refl _, fun _ _ => rfl, fun _ => .inl rfl, fun e => absurd rfl e, by simp, ?_, by simp, by simp⟩
  intro k' e1 e2 i' c m hm hG
  refine hG.slot h hp ?_ ?_
  · rintro (h1 | h1 | h1)
    · exact .inl h1
    · rw [hi] at h1; simp at h1
    · rw [hi] at h1
      simp only [WPC.tomb.injEq] at h1
      obtain ⟨⟨rfl, rfl⟩, h1⟩ := h1
      right; right; right
      show m < ((s.mem.store s.w _ _).msg _ ((s.mem.store s.w _ _).top _)).view _
      rw [hp.msg_at]
      show m < (upd s.w.rel (.slot (G.path k j)) (s.mem.top (.slot (G.path k j)) + 1)) (.gen (G.gi k))
      rw [upd_ne _ _ (by simp), h.base.rel]; exact h1
  · intro e
    by_cases ek : k' = k
    · subst ek
      have ij : i' = j := by
        rcases Nat.lt_trichotomy i' j with h1 | h1 | h1
        · exact absurd e.symm (a1 _ h1)
        · exact h1
        · exact absurd e (hG.first _ h1)
      subst ij
      right; right
      rcases hG.alive with h1 | h1 | h1 | h1
      · rw [a4] at h1; simp only [Option.some.injEq] at h1; omega
      · rw [hi] at h1; simp at h1
      · exact h1.2
      · exact Nat.lt_of_lt_of_le h1 (h.view (Nat.le_refl _))
    · right; left
      obtain ⟨y, hy⟩ := a2
      rintro ⟨x, hx⟩
      rw [hx] at hy; simp only [Val.obj.injEq] at hy; exact ek hy.1

omit [DecidableEq K] in
theorem WStep.ofBound {G : Geo K} {fc : Fences} {s : St K V n} (h : WInv G s) {x m : Nat} (hi : s.wpc = .idle) (h1 : Within G s x m) :
    WStep G fc s (s.wput s.w (.bound x) (.num m)) (.bound x) (.num m) (upd s.w.rel (.bound x) (s.mem.top (.bound x) + 1)) := by
  have hp := Put.store s.mem s.w (.bound x) (.num m)
  refine ⟨hp, Nat.le_refl _, fun _ _ => rfl, fun _ => .inl rfl, fun e => .inl e, by simp, ?_, ?_, by simp⟩
  · intro k' e1 e2 i' c m' hm hG
    refine hG.put hp (by simp) ?_
    rcases hG.alive with h1 | h1 | h1 | h1
    · exact .inl h1
    · rw [hi] at h1; simp at h1
    · rw [hi] at h1; simp at h1
    · right; right; right
      show m' < ((s.mem.store s.w _ _).msg _ ((s.mem.store s.w _ _).top _)).view _
      rw [hp.msg_ne (by simp)]; exact h1
  · intro k' e i' c m' hm hG
    rw [upd_ne _ _ (by simp), h.base.rel]
    by_cases e' : m' < s.mem.top (.gen (G.gi k'))
    · exact .inr e'
    · left
      rcases hG.alive with h2 | h2 | h2 | h2
      · simp only [Loc.bound.injEq] at e
        exact h1 k' e.symm i' h2
      · rw [hi] at h2; simp at h2
      · rw [hi] at h2; simp at h2
      · have := h.view (y := .slot (G.path k' i')) (g := G.gi k') (Nat.le_refl _)
        omega

omit [DecidableEq K] in
theorem WStep.ofSig {G : Geo K} {fc : Fences} {s : St K V n} (h : WInv G s) {k : K} {j : Nat} (hi : s.wpc = .sig k j) :
    WStep G fc s
      { s.wput (opt fc.fix Th.fenceStore s.w) (.gen (G.gi k)) (.num ((s.mem.last (.gen (G.gi k))).toNat + 1)) with
        w := ((opt fc.fix Th.fenceStore s.w).store s.mem (.gen (G.gi k))).fenceStore, wpc := .tomb k j }
      (.gen (G.gi k)) (.num ((s.mem.last (.gen (G.gi k))).toNat + 1)) (upd (opt fc.fix Th.fenceStore s.w).rel (.gen (G.gi k)) (s.mem.top (.gen (G.gi k)) + 1)) := by
  have hp := Put.store s.mem (opt fc.fix Th.fenceStore s.w) (.gen (G.gi k)) (.num ((s.mem.last (.gen (G.gi k))).toNat + 1))
  obtain ⟨a1, a2, a3, ip, a4, a5⟩ := h.wpc k j (.inl hi)
  have key : ∀ k' i' c m m', Good G s k' i' c m → m ≤ s.mem.top (.gen (G.gi k')) → (m' = m ∨ s.pos k' = some i' ∧ m = s.mem.top (.gen (G.gi k'))) →
      Good G { s.wput (opt fc.fix Th.fenceStore s.w) (.gen (G.gi k)) (.num ((s.mem.last (.gen (G.gi k))).toNat + 1)) with
        w := ((opt fc.fix Th.fenceStore s.w).store s.mem (.gen (G.gi k))).fenceStore, wpc := .tomb k j } k' i' c m' := by
    intro k' i' c m m' hG hm e
    rcases e with rfl | ⟨e, em⟩
    · refine hG.put hp (by simp) ?_
      rcases hG.alive with h1 | h1 | h1 | h1
      · exact .inl h1
      · right; right; left
        rw [hi] at h1
        simp only [WPC.sig.injEq] at h1
        obtain ⟨rfl, rfl⟩ := h1
        refine ⟨rfl, ?_⟩
        show _ < (s.mem.store _ _ _).top _
        rw [hp.top, if_pos rfl]; omega
      · rw [hi] at h1; simp at h1
      · right; right; right
        show m' < ((s.mem.store _ _ _).msg _ ((s.mem.store _ _ _).top _)).view _
        rw [hp.msg_ne (by simp)]; exact h1
    · refine ⟨hG.first, ?_, fun a b1 b2 => .inl ?_, .inl e⟩
      · exact Nat.le_trans hG.le (hp.top_le _)
      · replace b2 : a ≤ (s.mem.store _ _ _).top _ := b2
        rw [hp.top_ne (by simp)] at b2
        show IsObj _ ((s.mem.store _ _ _).msg _ _).val
        rw [hp.old _ _ b2]
        rcases hG.msgs a b1 b2 with h1 | h1
        · exact h1
        · have := h.view (y := .slot (G.path k' i')) (g := G.gi k') b2
          omega
  refine ⟨hp, Nat.le_refl _, fun _ _ => rfl, fun _ => .inl rfl, fun _ => .inl (by rw [hi]; simp), by simp, ?_, by simp, ?_⟩
  · intro k' _ _ i' c m hm hG
    exact key k' i' c m m hG hm (.inl rfl)
  · intro k' e q hq hk hk'
    simp only [Loc.gen.injEq] at e
    have hc := (hq.wf (.gen (G.gi k'))).1
    obtain ⟨i', c, b1, b2, b3, b4⟩ := hq.rk k' hk _ hc (Nat.le_refl _)
    have hcur : ∀ y, q.th.cur y ≤ s.mem.top y := fun y => (hq.wf y).1
    have hB : ∀ a, q.th.cur (.bound (G.hm k')) ≤ a → a ≤ s.mem.top (.bound (G.hm k')) → i' < (s.mem.msg (.bound (G.hm k')) a).val.toNat := by
      intro a c1 c2
      rcases b4 a c1 c2 with h1 | h1
      · exact h1
      · have := h.view (y := .bound (G.hm k')) (g := G.gi k') c2
        omega
    by_cases ek : k' = k
    · subst ek
      have hfix : fc.fix = true := by
        rcases hk.2 with h1 | h1
        · exact h1
        · have := hq.wb (by rw [hi]; simp)
          omega
      have le : ip ≤ i' := by
        rcases b1.alive with h1 | h1 | h1 | h1
        · rw [a4] at h1; simp only [Option.some.injEq] at h1; omega
        · rw [hi] at h1; simp only [WPC.sig.injEq, true_and] at h1; omega
        · rw [hi] at h1; simp at h1
        · have := h.view (y := .slot (G.path k' i')) (g := G.gi k') (Nat.le_refl _)
          omega
      obtain ⟨d1, _, d2, _, _⟩ := h.here k' ip a4
      refine ⟨ip, s.mem.top (.slot (G.path k' ip)), ⟨d2, hp.top_le _, fun a e1 e2 => .inl ?_, .inl a4⟩, ?_, ?_, ?_⟩
      · replace e2 : a ≤ (s.mem.store _ _ _).top _ := e2
        rw [hp.top_ne (by simp)] at e2
        have : a = s.mem.top (.slot (G.path k' ip)) := by omega
        subst this
        show IsObj _ ((s.mem.store _ _ _).msg _ _).val
        rw [hp.old _ _ e2]; exact d1
      · refine Nat.le_trans ?_ (le_join_right _ _ _)
        rw [upd_ne _ _ (by simp), hfix]
        show _ ≤ join s.w.rel s.w.wr _
        exact Nat.le_trans (h.base.wr _).ge (le_join_right _ _ _)
      · exact Known.put (fun l hl => b3 l (by omega)) hp hcur
      · intro a c1 c2
        replace c2 : a ≤ (s.mem.store _ _ _).top _ := c2
        rw [hp.top_ne (by simp)] at c2
        left
        show _ < ((s.mem.store _ _ _).msg _ _).val.toNat
        rw [hp.old _ _ c2]
        have := hB a c1 c2
        omega
    · have hpos : s.pos k' = some i' := by
        rcases b1.alive with h1 | h1 | h1 | h1
        · exact h1
        · rw [hi] at h1; simp only [WPC.sig.injEq] at h1; exact absurd h1.1.symm ek
        · rw [hi] at h1; simp at h1
        · have := h.view (y := .slot (G.path k' i')) (g := G.gi k') (Nat.le_refl _)
          omega
      refine ⟨i', c, key k' i' c _ _ b1 (Nat.le_refl _) (.inr ⟨hpos, rfl⟩), ?_, b3.put hp hcur, ?_⟩
      · refine Nat.le_trans b2 (join_le (le_join_left _ _ _) ?_)
        refine Nat.le_trans ?_ (le_join_right _ _ _)
        rw [upd_ne _ _ (by simp)]
        refine Nat.le_trans (h.base.mono (G.gi k') _ _ (Nat.le_refl _)) ?_
        unfold opt; split
        · exact le_join_left _ _ _
        · exact Nat.le_refl _
      · intro a c1 c2
        replace c2 : a ≤ (s.mem.store _ _ _).top _ := c2
        rw [hp.top_ne (by simp)] at c2
        left
        show _ < ((s.mem.store _ _ _).msg _ _).val.toNat
        rw [hp.old _ _ c2]
        exact hB a c1 c2

/-! ## All reachable states -/

variable [Fintype K] [DecidableEq V]

omit [DecidableEq K] [Fintype K] [DecidableEq V] in
theorem Inv.init (G : Geo K) (fc : Fences) : Inv G fc (initSt : St K V n) := by
  refine ⟨⟨⟨Mem.Wf.init _, Th.Wf.init _, fun _ => rfl, fun _ => rfl, fun _ => rfl, ?_, ?_, fun _ _ _ _ => Nat.le_refl _⟩, ?_, ?_, ?_, ?_, ?_⟩, fun r => ⟨Th.Wf.init _, Nat.le_refl _, ?_, ?_, ?_, ?_⟩⟩
  · intro g i hi
    have : i = 0 := Nat.le_zero.1 hi
    subst this; rfl
  · intro x i i' _ _ _; rfl
  · intro k i h; simp [initSt] at h
  · intro k _; rfl
  · intro x k v h
    exact absurd h (by simp [initSt, Mem.last, Mem.init])
  · intro k j h; simp [initSt] at h
  · intro k; exact Nat.le_refl _
  · intro h; simp [initSt] at h
  · intro x a k v _ _ h
    exact absurd h (by simp [initSt, Mem.init])
  · intro k h
    exact absurd rfl (h.1 0 (Nat.le_refl _) (Nat.le_refl _))
  · trivial

omit [DecidableEq K] [Fintype K] [DecidableEq V] in
theorem Inv.wstep {G : Geo K} {fc : Fences} {s s' : St K V n} {l : Loc} {v : Val K V} {w : View Loc} (h : Inv G fc s) (hw : WInv G s')
    (hs : WStep G fc s s' l v w) (hr : s'.rd = s.rd) : Inv G fc s' :=
  ⟨hw, fun r => by rw [hr]; exact (h.r r).wstep hs⟩

omit [DecidableEq K] [Fintype K] [DecidableEq V] in
theorem Inv.rstep {G : Geo K} {fc : Fences} {s : St K V n} {r : Fin n} {q : Rd K V} (h : Inv G fc s) (hq : RInv G fc s q) :
    Inv G fc { s with rd := upd s.rd r q } := by
  refine ⟨⟨h.w.base, h.w.here, h.w.gone, h.w.own, h.w.wpc, h.w.mvd⟩, fun r' => ?_⟩
  show RInv G fc _ (upd s.rd r q r')
  have e : ∀ q', RInv G fc s q' → RInv G fc { s with rd := upd s.rd r q } q' := fun q' h =>
    ⟨h.wf, h.bn, h.wb, h.val, h.rk, h.pc⟩
  rw [upd_apply]; split
  · exact e _ hq
  · exact e _ (h.r r')

theorem Inv.step {G : Geo K} {fc : Fences} (h1 : fc.sig = true) (h2 : fc.rd1 = true) (h3 : fc.rd2 = true) {s s' : St K V n} {a : Act K V n} (h : Inv G fc s)
    (hs : step G fc s a = some s') : Inv G fc s' := by
  cases a with
  | bound x m =>
    simp only [HsRead.step] at hs
    split at hs
    · next hc => simp only [Option.some.injEq] at hs; subst hs; exact h.wstep (h.w.bound hc.1 hc.2) (.ofBound h.w hc.1 hc.2) rfl
    · simp at hs
  | put k i v =>
    simp only [HsRead.step] at hs
    split at hs
    · next hc => simp only [Option.some.injEq] at hs; subst hs; exact h.wstep (h.w.put hc.1 hc.2.1 hc.2.2.1 hc.2.2.2.1 hc.2.2.2.2.1 hc.2.2.2.2.2) (.ofPut h.w hc.1 hc.2.1 hc.2.2.2.2.2) rfl
    · simp at hs
  | repl k v =>
    simp only [HsRead.step] at hs
    split at hs
    · next hp =>
      split at hs
      · next hc => simp only [Option.some.injEq] at hs; subst hs; exact h.wstep (h.w.repl hc hp) (.ofRepl h.w hc hp) rfl
      · simp at hs
    · simp at hs
  | move k i v =>
    simp only [HsRead.step] at hs
    split at hs
    · next hp =>
      split at hs
      · next hc => simp only [Option.some.injEq] at hs; subst hs; exact h.wstep (h.w.move hc.1 hp hc.2.1 hc.2.2.1 hc.2.2.2) (.ofMove h.w hc.1 hp hc.2.2.2) rfl
      · simp at hs
    · simp at hs
  | sig =>
    simp only [HsRead.step, h1] at hs
    split at hs
    · next hp => simp only [Option.some.injEq] at hs; subst hs; exact h.wstep (h.w.sig fc.fix hp) (.ofSig h.w hp) rfl
    · simp at hs
  | tomb =>
    simp only [HsRead.step] at hs
    split at hs
    · next hp => simp only [Option.some.injEq] at hs; subst hs; exact h.wstep (h.w.tomb hp) (.ofTomb h.w hp) rfl
    · simp at hs
  | del k =>
    simp only [HsRead.step] at hs
    split at hs
    · next hp =>
      split at hs
      · next hc => simp only [Option.some.injEq] at hs; subst hs; exact h.wstep (h.w.del hc hp) (.ofDel h.w hc hp) rfl
      · simp at hs
    · simp at hs
  | sync r =>
    simp only [HsRead.step] at hs
    split at hs
    · next hc => simp only [Option.some.injEq] at hs; subst hs; exact h.rstep ((h.r _).sync h.w hc.1 hc.2)
    · simp at hs
  | call r k =>
    simp only [HsRead.step] at hs
    split at hs
    · next hc => simp only [Option.some.injEq] at hs; subst hs; exact h.rstep ((h.r _).th h.w rfl (h.r _).wf (fun _ => Nat.le_refl _) trivial)
    · simp at hs
  | gen r i =>
    simp only [HsRead.step] at hs
    split at hs
    · next hp =>
      split at hs
      · next hc => simp only [Option.some.injEq] at hs; subst hs; exact h.rstep ((h.r _).gen h.w hc)
      · simp at hs
    · simp at hs
  | bnd r i =>
    simp only [HsRead.step, h2] at hs
    split at hs
    · next hp =>
      split at hs
      · next hc => simp only [Option.some.injEq] at hs; subst hs; exact h.rstep ((h.r _).bnd h.w hp hc)
      · simp at hs
    · simp at hs
  | probe r i =>
    simp only [HsRead.step] at hs
    split at hs
    · next hp =>
      split at hs
      · next hc => simp only [Option.some.injEq] at hs; subst hs; exact h.rstep ((h.r _).last h.w hp hc)
      · split at hs
        · next hc => simp only [Option.some.injEq] at hs; subst hs; exact h.rstep ((h.r _).probe h.w hp hc)
        · simp at hs
    · simp at hs
  | chk r i =>
    simp only [HsRead.step, h3] at hs
    split at hs
    · next hp =>
      split at hs
      · next hc => simp only [Option.some.injEq] at hs; subst hs; exact h.rstep ((h.r _).chk h.w hp hc)
      · simp at hs
    · simp at hs
  | leave r =>
    simp only [HsRead.step] at hs
    split at hs
    · next hp => simp only [Option.some.injEq] at hs; subst hs; exact h.rstep ((h.r _).th h.w rfl (h.r _).wf (fun _ => Nat.le_refl _) trivial)
    · simp at hs

theorem inv {G : Geo K} {fc : Fences} (h1 : fc.sig = true) (h2 : fc.rd1 = true) (h3 : fc.rd2 = true) {s : St K V n} (h : (sys G fc V n).Reach s) : Inv G fc s :=
  Sys.Reach.invariant (I := Inv G fc) (fun _ e => by cases e; exact Inv.init G fc) (fun _ _ _ hi hs => hi.step h1 h2 h3 hs) h

/-! ## The property -/

/-- An object that a lookup returns was in the set since the last `sync` of the reader. -/
theorem get_some {G : Geo K} {s : St K V n} (h : (sys G real V n).Reach s) {r : Fin n} {k : K} {v : V} (hr : (s.rd r).pc = .ret k (some v)) :
    ∃ t, (s.rd r).b ≤ t ∧ t ≤ s.now ∧ s.hist t k = some v := by
  have := ((inv rfl rfl rfl h).r r).pc
  rw [hr] at this
  exact this.2 v rfl

/-- If a lookup returns nothing, the key was not in the set at some time since the last `sync`, or it was moved.  Without "or it was moved" this is what a user relies on, and wrong (`get_none_fails`). -/
theorem get_none_partial {G : Geo K} {s : St K V n} (h : (sys G real V n).Reach s) {r : Fin n} {k : K} (hr : (s.rd r).pc = .ret k none) :
    (∃ t, (s.rd r).b ≤ t ∧ t ≤ s.now ∧ s.hist t k = none) ∨ (s.rd r).b < s.mvd k := by
  have := ((inv rfl rfl rfl h).r r).pc
  rw [hr] at this
  refine Classical.byContradiction fun hn => this.1 rfl ⟨fun t h1 h2 h3 => hn (.inl ⟨t, h1, h2, h3⟩), .inr ?_⟩
  exact Nat.le_of_not_lt fun h1 => hn (.inr h1)

/-- With a store fence before the generation is incremented, a lookup returns what the set had for the key at some time since the last `sync`. -/
theorem get_fixed {G : Geo K} {s : St K V n} (h : (sys G { real with fix := true } V n).Reach s) {r : Fin n} {k : K} {res : Option V} (hr : (s.rd r).pc = .ret k res) :
    ∃ t, (s.rd r).b ≤ t ∧ t ≤ s.now ∧ s.hist t k = res := by
  have := ((inv rfl rfl rfl h).r r).pc
  rw [hr] at this
  cases res with
  | some v => exact this.2 v rfl
  | none => exact Classical.byContradiction fun hn => this.1 rfl ⟨fun t h1 h2 h3 => hn ⟨t, h1, h2, h3⟩, .inl rfl⟩

end Verif.Weak.HsRead
