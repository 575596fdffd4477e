import Verif.Weak.RhsRead
import Verif.Core.Tactic

/-!
# Readers of a robin-hood hash set on relaxed memory: what a lookup returns (C96)

`Good k i c m`: whoever looks at slot number `i` of the path of `k`, knows its value `c`, and has loaded generation `m`, finds `k` there or learns of a newer generation.
`Item`: such a slot exists and is known; whoever finds an empty slot before it, or a bound below it, learns of a newer generation.
-/

namespace Verif.Weak.RhsRead

open Verif
open Fas (opt)

variable {K V : Type} {n : Nat}

def IsObj (k : K) (x : Val K V) : Prop := ∃ v, x = .obj k v

/-- `k` is at `i`, or about to leave it with a newer generation, or has left it with a newer generation. -/
structure GoodC (G : Geo K) (mem : Mem Loc (Val K V)) (wpc : WPC K) (pos : K → Option Nat) (k : K) (i c m : Nat) : Prop where
  first : First G k i
  le : c ≤ mem.top (.slot (G.path k i))
  msgs : ∀ a, c ≤ a → a ≤ mem.top (.slot (G.path k i)) →
    IsObj k (mem.msg (.slot (G.path k i)) a).val ∨ m < (mem.msg (.slot (G.path k i)) a).view (.gen (G.gr k))
  alive : pos k = some i ∨ (∃ f, wpc = .sig k i f) ∨ (wpc = .hole (G.path k i) ∧ m < mem.top (.gen (G.gr k)))
    ∨ m < (mem.msg (.slot (G.path k i)) (mem.top (.slot (G.path k i)))).view (.gen (G.gr k))

abbrev Good (G : Geo K) (s : St K V n) (k : K) (i c m : Nat) : Prop := GoodC G s.mem s.wpc s.pos k i c m

/-- Whoever finds an empty slot before number `i` learns of a newer generation. -/
def Known (G : Geo K) (s : St K V n) (k : K) (i m : Nat) (cur : View Loc) : Prop :=
  ∀ l, l < i → ∀ a, cur (.slot (G.path k l)) ≤ a → a ≤ s.mem.top (.slot (G.path k l)) →
    (s.mem.msg (.slot (G.path k l)) a).val ≠ .empty ∨ m < (s.mem.msg (.slot (G.path k l)) a).view (.gen (G.gr k))

def Item (G : Geo K) (s : St K V n) (k : K) (m : Nat) (S : View Loc) : Prop :=
  ∃ i c, Good G s k i c m ∧ c ≤ S (.slot (G.path k i)) ∧ Known G s k i m S
    ∧ ∀ a, S (.bound (G.hm k)) ≤ a → a ≤ s.mem.top (.bound (G.hm k)) →
        i < (s.mem.msg (.bound (G.hm k)) a).val.toNat ∨ m < (s.mem.msg (.bound (G.hm k)) a).view (.gen (G.gr k))

/-- Moves of `k` are noticed. -/
def Mv (G : Geo K) (fc : Fences) (k : K) : Prop := fc.fix = true ∧ fc.rd0 = true ∧ G.gw k = G.gr k

instance (G : Geo K) (fc : Fences) (k : K) : Decidable (Mv G fc k) := by unfold Mv; infer_instance

/-- `k` is in the set since the last `sync` of the reader; if moves are not noticed, it is also not moved. -/
def Kn (G : Geo K) (fc : Fences) (s : St K V n) (b : Nat) (k : K) : Prop :=
  (∀ t, b ≤ t → t ≤ s.now → s.hist t k ≠ none) ∧ (Mv G fc k ∨ s.mvd k ≤ b)

/-- The object was in the set since the last `sync`. -/
def Was (s : St K V n) (b : Nat) (k : K) (v : V) : Prop := ∃ t, b ≤ t ∧ t ≤ s.now ∧ s.hist t k = some v

/-- What a reader knows that has loaded a generation with view `v`. -/
def kno (G : Geo K) (fc : Fences) (k : K) (cur v : View Loc) : View Loc := if Mv G fc k then join cur v else cur

/-- What holds inside of a call. -/
def Pc (G : Geo K) (fc : Fences) (s : St K V n) (q : Rd K V) : RPC K V → Prop
  | .bnd k g => g ≤ s.mem.top (.gen (G.gr k)) ∧ (Kn G fc s q.b k → Item G s k g q.th.cur)
  | .probe k g m l => g ≤ s.mem.top (.gen (G.gr k)) ∧ (Kn G fc s q.b k → g < q.th.acq (.gen (G.gr k)) ∨
      ∃ i c, Good G s k i c g ∧ c ≤ q.th.cur (.slot (G.path k i)) ∧ Known G s k i g q.th.cur ∧ i < m ∧ l ≤ i)
  | .chk k g res => (res = none → Kn G fc s q.b k → g < q.th.acq (.gen (G.gr k))) ∧ ∀ v, res = some v → Was s q.b k v
  | .ret k res => (res = none → ¬ Kn G fc s q.b k) ∧ ∀ v, res = some v → Was s q.b k v
  | _ => True

structure RInv (G : Geo K) (fc : Fences) (s : St K V n) (q : Rd K V) : Prop where
  wf : q.th.Wf s.mem
  bn : q.b ≤ s.now
  wb : ∀ k j f, s.wpc = .sig k j f → q.b < s.now
  val : ∀ x a k v, q.th.cur (.slot x) ≤ a → a ≤ s.mem.top (.slot x) → (s.mem.msg (.slot x) a).val = .obj k v → Was s q.b k v
  rk : ∀ k, Kn G fc s q.b k → ∀ m, q.th.cur (.gen (G.gr k)) ≤ m → m ≤ s.mem.top (.gen (G.gr k)) →
    Item G s k m (kno G fc k q.th.cur (s.mem.msg (.gen (G.gr k)) m).view)
  pc : Pc G fc s q q.pc

structure Base (m : Mem Loc (Val K V)) (w : Th Loc) : Prop where
  mwf : m.Wf
  wwf : w.Wf m
  cur : ∀ l, w.cur l = m.top l
  wr : ∀ l, w.wr l = m.top l
  rel : ∀ g, w.rel (.gen g) = m.top (.gen g)
  gval : ∀ g i, i ≤ m.top (.gen g) → (m.msg (.gen g) i).val.toNat = i
  mono : ∀ g i y, i ≤ m.top (.gen g) → (m.msg (.gen g) i).view y ≤ w.rel y

structure WInv (G : Geo K) (s : St K V n) : Prop where
  base : Base s.mem s.w
  here : ∀ k i, s.pos k = some i →
    IsObj k (s.mem.last (.slot (G.path k i))) ∧ s.hist s.now k ≠ none ∧ First G k i ∧ Full G s.mem k i ∧ i < (s.mem.last (.bound (G.hm k))).toNat
  gone : ∀ k, s.pos k = none → s.hist s.now k = none
  own : ∀ x k v, s.mem.last (.slot x) = .obj k v → (s.hist s.now k = some v ∧ ∃ i, s.pos k = some i ∧ G.path k i = x)
    ∨ s.wpc = .hole x ∨ ∃ k' j f, s.wpc = .sig k' j f ∧ G.path k' j = x
  hole : ∀ x, s.wpc = .hole x → ∀ k i, s.pos k = some i → G.path k i ≠ x
  sig : ∀ k j f, s.wpc = .sig k j f → First G k j ∧ s.mvd k = s.now ∧ s.pos k ≠ none ∧ ∀ k' i, s.pos k' = some i → G.path k' i ≠ G.path k j
  mvd : ∀ k, s.mvd k ≤ s.now

structure Inv (G : Geo K) (fc : Fences) (s : St K V n) : Prop where
  w : WInv G s
  r : ∀ r, RInv G fc s (s.rd r)

theorem kno_le {G : Geo K} {fc : Fences} {k : K} {cur v cur' v' : View Loc} (h1 : ∀ y, cur y ≤ cur' y) (h2 : ∀ y, v y ≤ v' y) (y : Loc) :
    kno G fc k cur v y ≤ kno G fc k cur' v' y := by
  unfold kno
  split
  · exact join_le (Nat.le_trans (h1 y) (le_join_left _ _ _)) (Nat.le_trans (h2 y) (le_join_right _ _ _))
  · exact h1 y

/-! ## Steps of the writer, as readers see them -/

/-- What a step of the writer does for readers. -/
structure WStep (G : Geo K) (fc : Fences) (s s' : St K V n) : Prop where
  top : ∀ y, s.mem.top y ≤ s'.mem.top y
  old : ∀ y i, i ≤ s.mem.top y → s'.mem.msg y i = s.mem.msg y i
  now : s.now ≤ s'.now
  hist : ∀ t, t ≤ s.now → s'.hist t = s.hist t
  mvd : ∀ k, s'.mvd k = s.mvd k ∨ s.now < s'.mvd k
  wpc : ∀ k j f, s'.wpc = .sig k j f → s.now < s'.now
  obj : ∀ x a k v, s.mem.top (.slot x) < a → a ≤ s'.mem.top (.slot x) → (s'.mem.msg (.slot x) a).val = .obj k v → s'.hist s'.now k = some v
  good : ∀ k b, b ≤ s.now → ((∃ k j f, s.wpc = .sig k j f) → b < s.now) → Kn G fc s b k → Kn G fc s' b k → ∀ i c m, m ≤ s.mem.top (.gen (G.gr k)) →
    Good G s k i c m → Good G s' k i c m
  emp : ∀ k i c m l a, m ≤ s.mem.top (.gen (G.gr k)) → Good G s k i c m → l < i →
    s.mem.top (.slot (G.path k l)) < a → a ≤ s'.mem.top (.slot (G.path k l)) →
      (s'.mem.msg (.slot (G.path k l)) a).val ≠ .empty ∨ m < (s'.mem.msg (.slot (G.path k l)) a).view (.gen (G.gr k))
  bnd : ∀ k i c m a, m ≤ s.mem.top (.gen (G.gr k)) → Good G s k i c m →
    s.mem.top (.bound (G.hm k)) < a → a ≤ s'.mem.top (.bound (G.hm k)) →
      i < (s'.mem.msg (.bound (G.hm k)) a).val.toNat ∨ m < (s'.mem.msg (.bound (G.hm k)) a).view (.gen (G.gr k))
  gen : ∀ k a, s.mem.top (.gen (G.gr k)) < a → a ≤ s'.mem.top (.gen (G.gr k)) → ∀ q, RInv G fc s q → Kn G fc s q.b k → Kn G fc s' q.b k →
    Item G s' k a (kno G fc k q.th.cur (s'.mem.msg (.gen (G.gr k)) a).view)

theorem WStep.kn {G : Geo K} {fc : Fences} {s s' : St K V n} (h : WStep G fc s s') {b : Nat} {k : K} (hb : b ≤ s.now) (hk : Kn G fc s' b k) : Kn G fc s b k := by
  refine ⟨fun t t1 t2 => ?_, hk.2.imp_right fun h1 => ?_⟩
  · have := hk.1 t t1 (Nat.le_trans t2 h.now)
    rwa [h.hist t t2] at this
  · rcases h.mvd k with h2 | h2
    · omega
    · omega

theorem WStep.was {G : Geo K} {fc : Fences} {s s' : St K V n} (h : WStep G fc s s') {b : Nat} {k : K} {x : V}
    (hw : Was s b k x) : Was s' b k x := by
  obtain ⟨t, h1, h2, h3⟩ := hw
  exact ⟨t, h1, Nat.le_trans h2 h.now, by rw [h.hist t h2]; exact h3⟩

theorem WStep.known {G : Geo K} {fc : Fences} {s s' : St K V n} (h : WStep G fc s s') {k : K} {i c m : Nat} {S : View Loc} (hm : m ≤ s.mem.top (.gen (G.gr k)))
    (hG : Good G s k i c m) (hK : Known G s k i m S) : Known G s' k i m S := by
  intro l hl a a1 a2
  by_cases ho : a ≤ s.mem.top (.slot (G.path k l))
  · rw [h.old _ _ ho]; exact hK l hl a a1 ho
  · exact h.emp k i c m l a hm hG hl (by omega) a2

theorem RInv.wstep {G : Geo K} {fc : Fences} {s s' : St K V n} {q : Rd K V} (h : RInv G fc s q) (hs : WStep G fc s s') : RInv G fc s' q := by
  have hn := hs.now
  have hwb : (∃ k j f, s.wpc = .sig k j f) → q.b < s.now := by
    rintro ⟨k, j, f, e⟩; exact h.wb k j f e
  have hG : ∀ k, Kn G fc s' q.b k → ∀ i c m, m ≤ s.mem.top (.gen (G.gr k)) → Good G s k i c m → Good G s' k i c m := fun k hk =>
    hs.good k q.b h.bn hwb (hs.kn h.bn hk) hk
  have hI : ∀ k m S, Kn G fc s' q.b k → m ≤ s.mem.top (.gen (G.gr k)) → Item G s k m S → Item G s' k m S := by
    rintro k m S hk hm ⟨i, c, a1, a2, a3, a4⟩
    refine ⟨i, c, hG k hk i c m hm a1, a2, hs.known hm a1 a3, fun a e1 e2 => ?_⟩
    by_cases ho : a ≤ s.mem.top (.bound (G.hm k))
    · rw [hs.old _ _ ho]; exact a4 a e1 ho
    · exact hs.bnd k i c m a hm a1 (by omega) e2
  refine ⟨h.wf.mono hs.top, Nat.le_trans h.bn hn, ?_, ?_, ?_, ?_⟩
  · intro k j f e
    have := h.bn
    have := hs.wpc k j f e
    omega
  · intro x a k y h1 h2 h3
    by_cases ho : a ≤ s.mem.top (.slot x)
    · rw [hs.old _ _ ho] at h3
      exact hs.was (h.val x a k y h1 ho h3)
    · exact ⟨s'.now, Nat.le_trans h.bn hn, Nat.le_refl _, hs.obj x a k y (by omega) h2 h3⟩
  · intro k hk m h1 h2
    have hk' := hs.kn h.bn hk
    by_cases ho : m ≤ s.mem.top (.gen (G.gr k))
    · rw [hs.old _ _ ho]
      exact hI k m _ hk ho (h.rk k hk' m h1 ho)
    · exact hs.gen k m (by omega) h2 q h hk' hk
  · have hp := h.pc
    unfold Pc at hp ⊢
    split at hp
    · next k g _ =>
      exact ⟨Nat.le_trans hp.1 (hs.top _), fun hk => hI k g _ hk hp.1 (hp.2 (hs.kn h.bn hk))⟩
    · next k g m l' _ =>
      refine ⟨Nat.le_trans hp.1 (hs.top _), fun hk => (hp.2 (hs.kn h.bn hk)).imp_right ?_⟩
      rintro ⟨i, c, h1, h2, h3, h4⟩
      exact ⟨i, c, hG k hk i c g hp.1 h1, h2, hs.known hp.1 h1 h3, h4⟩
    · exact ⟨fun e hk => hp.1 e (hs.kn h.bn hk), fun v e => hs.was (hp.2 v e)⟩
    · exact ⟨fun e hk => hp.1 e (hs.kn h.bn hk), fun v e => hs.was (hp.2 v e)⟩
    · trivial

theorem Base.store {m : Mem Loc (Val K V)} {w : Th Loc} (h : Base m w) {l : Loc} {v : Val K V} (hg : ∀ g, l ≠ .gen g) :
    Base (m.store w l v) (w.store m l) := by
  have hp := Put.store m w l v
  refine ⟨h.mwf.store h.wwf l v, h.wwf.store l v, fun y => ?_, fun y => ?_, fun g => ?_, fun g i hi => ?_, fun g' i x hi => ?_⟩
  · rw [hp.top]; simp only [Th.store, upd_apply]; split
    · rfl
    · exact h.cur y
  · rw [hp.top]; simp only [Th.store, upd_apply]; split
    · rfl
    · exact h.wr y
  · rw [hp.top_ne (Ne.symm (hg g))]; exact h.rel g
  · rw [hp.top_ne (Ne.symm (hg g))] at hi
    rw [hp.old _ _ hi]; exact h.gval g i hi
  · rw [hp.top_ne (Ne.symm (hg g'))] at hi
    rw [hp.old _ _ hi]; exact h.mono g' i x hi

theorem Base.fence {m : Mem Loc (Val K V)} {w : Th Loc} (h : Base m w) : Base m w.fenceStore := by
  refine ⟨h.mwf, h.wwf.fenceStore, h.cur, h.wr, fun g => ?_, h.gval, fun g i x hi => Nat.le_trans (h.mono g i x hi) (le_join_left _ _ _)⟩
  show join w.rel w.wr _ = _
  rw [join_apply, h.rel, h.wr, Nat.max_self]

theorem Base.sig {m : Mem Loc (Val K V)} {w : Th Loc} (h : Base m w) (g : Nat) :
    Base (m.rmw w (.gen g) (.num ((m.last (.gen g)).toNat + 1))) (w.rmw m (.gen g)).fenceStore := by
  have hp := Put.rmw m w (.gen g) (.num ((m.last (.gen g)).toNat + 1))
  have hw : ∀ y, (w.rmw m (.gen g)).wr y = (m.rmw w (.gen g) (.num ((m.last (.gen g)).toNat + 1))).top y := by
    intro y
    rw [hp.top]; simp only [Th.rmw, Th.store, Th.load, upd_apply]; split
    · rfl
    · exact h.wr y
  have hmwf := h.mwf.rmw h.wwf (.gen g) (.num ((m.last (.gen g)).toNat + 1))
  refine ⟨hmwf, (h.wwf.rmw h.mwf _ _).fenceStore, fun y => ?_, hw, fun g' => ?_, fun g' i hi => ?_, fun g' i y hi => ?_⟩
  · rw [hp.top]
    show upd (join w.cur _) _ _ y = _
    rw [upd_apply]; split
    · rfl
    · next e => rw [join_apply, upd_ne _ _ e, h.cur]; exact Nat.max_eq_left (Nat.zero_le _)
  · show join w.rel (w.rmw m (.gen g)).wr _ = _
    rw [join_apply, hw, h.rel]
    exact Nat.max_eq_right (hp.top_le _)
  · rw [hp.top] at hi
    split at hi
    · next e =>
      by_cases e' : i = m.top (.gen g) + 1
      · rw [e, e', hp.new]
        show (m.last (.gen g)).toNat + 1 = _
        rw [Mem.last, h.gval g _ (Nat.le_refl _)]
      · rw [e, hp.old _ _ (by omega)]; exact h.gval g i (by omega)
    · rw [hp.old _ _ hi]; exact h.gval g' i hi
  · refine Nat.le_trans (hmwf _ _ y hi) ?_
    refine Nat.le_trans ?_ (le_join_right _ _ _)
    rw [hw]

theorem WInv.view {G : Geo K} {s : St K V n} (h : WInv G s) {y : Loc} {i g : Nat} (hi : i ≤ s.mem.top y) : (s.mem.msg y i).view (.gen g) ≤ s.mem.top (.gen g) :=
  h.base.mwf y i _ hi

/-! ## Steps of a reader -/

theorem Known.mono {G : Geo K} {s : St K V n} {k : K} {i m : Nat} {S S' : View Loc} (h : Known G s k i m S)
    (h1 : ∀ y, S y ≤ S' y) : Known G s k i m S' := fun l hl a a1 a2 => h l hl a (Nat.le_trans (h1 _) a1) a2

theorem Item.mono {G : Geo K} {s : St K V n} {k : K} {m : Nat} {S S' : View Loc} (h : Item G s k m S)
    (h0 : ∀ y, S y ≤ S' y) : Item G s k m S' := by
  obtain ⟨i, c, a1, a2, a3, a4⟩ := h
  exact ⟨i, c, a1, Nat.le_trans a2 (h0 _), a3.mono h0, fun a e1 e2 => a4 a (Nat.le_trans (h0 _) e1) e2⟩

/-- All is known. -/
theorem WInv.item {G : Geo K} {s : St K V n} (h : WInv G s) {k : K} {i : Nat} (hp : s.pos k = some i) (m : Nat) {S : View Loc}
    (hS : ∀ y, (∀ g, y ≠ .gen g) → s.mem.top y ≤ S y) : Item G s k m S := by
  obtain ⟨a1, _, a2, a3, a4⟩ := h.here k i hp
  refine ⟨i, s.mem.top (.slot (G.path k i)), ⟨a2, Nat.le_refl _, fun a e1 e2 => .inl ?_, .inl hp⟩, hS _ (by simp), fun l hl a e1 e2 => .inl ?_, fun a e1 e2 => .inl ?_⟩
  · have : a = s.mem.top (.slot (G.path k i)) := by omega
    subst this; exact a1
  · have := hS (.slot (G.path k l)) (by simp)
    have : a = s.mem.top (.slot (G.path k l)) := by omega
    subst this; exact a3 l hl
  · have := hS (.bound (G.hm k)) (by simp)
    have : a = s.mem.top (.bound (G.hm k)) := by omega
    subst this; exact a4

/-- The reader learns something. -/
theorem RInv.th {G : Geo K} {fc : Fences} {s : St K V n} {q q' : Rd K V} (h : RInv G fc s q) (hb : q'.b = q.b) (hf : q'.th.Wf s.mem)
    (hc : ∀ y, q.th.cur y ≤ q'.th.cur y) (hpc : Pc G fc s q' q'.pc) : RInv G fc s q' := by
  refine ⟨hf, hb ▸ h.bn, fun k j f e => hb ▸ h.wb k j f e, fun x a k v h1 h2 h3 => hb ▸ h.val x a k v (Nat.le_trans (hc _) h1) h2 h3, fun k hk m h1 h2 => ?_, hpc⟩
  rw [hb] at hk
  exact (h.rk k hk m (Nat.le_trans (hc _) h1) h2).mono (kno_le hc (fun _ => Nat.le_refl _))

theorem RInv.sync {G : Geo K} {fc : Fences} {s : St K V n} {q : Rd K V} (h : RInv G fc s q) (hw : WInv G s) (hpc : q.pc = .idle) (hi : s.wpc = .idle) :
    RInv G fc s { q with th := { q.th with cur := join q.th.cur s.w.cur }, b := s.now } := by
  have ec : ∀ y, join q.th.cur s.w.cur y = s.mem.top y := fun y => by
    rw [join_apply, hw.base.cur]; exact Nat.max_eq_right (h.wf y).1
  refine ⟨fun y => ⟨(ec y).le, (h.wf y).2⟩, Nat.le_refl _, fun k j f e => by rw [hi] at e; simp at e, ?_, ?_, ?_⟩
  · intro x a k v h1 h2 h3
    replace h1 : join q.th.cur s.w.cur (.slot x) ≤ a := h1
    rw [ec] at h1
    have ea : a = s.mem.top (.slot x) := by omega
    subst ea
    rcases hw.own x k v h3 with h4 | h4 | ⟨k', j, f, h4, _⟩
    · exact ⟨s.now, Nat.le_refl _, Nat.le_refl _, h4.1⟩
    · rw [hi] at h4; simp at h4
    · rw [hi] at h4; simp at h4
  · intro k hk m h1 h2
    have hn := hk.1 s.now (Nat.le_refl _) (Nat.le_refl _)
    cases hp : s.pos k with
    | none => exact absurd (hw.gone k hp) hn
    | some i =>
      refine hw.item hp m fun y _ => ?_
      unfold kno
      split
      · exact Nat.le_trans (ec y).ge (le_join_left _ _ _)
      · exact (ec y).ge
  · show Pc G fc s _ q.pc
    rw [hpc]; trivial

theorem opt_load_le (b : Bool) (t : Th Loc) (y : Loc) : t.cur y ≤ (opt b Th.fenceLoad t).cur y := by
  cases b
  · exact Nat.le_refl _
  · exact le_join_left _ _ _

theorem opt_load_acq (b : Bool) (t : Th Loc) : (opt b Th.fenceLoad t).acq = t.acq := by
  cases b <;> rfl

theorem opt_load_wf {m : Mem Loc (Val K V)} {t : Th Loc} (h : t.Wf m) (b : Bool) : (opt b Th.fenceLoad t).Wf m := by
  cases b
  · exact h
  · exact h.fenceLoad

theorem RInv.gen {G : Geo K} {fc : Fences} {s : St K V n} {q : Rd K V} (h : RInv G fc s q) (hw : WInv G s) {k : K} {i : Nat}
    (hm : q.th.may s.mem (.gen (G.gr k)) i) :
    RInv G fc s { q with
      th := opt fc.rd0 Th.fenceLoad (q.th.load s.mem (.gen (G.gr k)) i), pc := .bnd k (s.mem.msg (.gen (G.gr k)) i).val.toNat } := by
  have hf := opt_load_wf (h.wf.load hw.base.mwf hm.2) fc.rd0
  have hc : ∀ y, q.th.cur y ≤ (opt fc.rd0 Th.fenceLoad (q.th.load s.mem (.gen (G.gr k)) i)).cur y := fun y =>
    Nat.le_trans (Th.load_cur_le _ _ _ _ _) (opt_load_le _ _ _)
  refine h.th rfl hf hc ?_
  rw [hw.base.gval _ _ hm.2]
  refine ⟨hm.2, fun hk => (h.rk k hk i hm.1 hm.2).mono fun y => ?_⟩
  unfold kno
  split
  · next e =>
    refine join_le (hc y) ?_
    rw [e.2.1]
    exact Nat.le_trans (Th.load_view_le _ _ _ _ _) (le_join_right _ _ _)
  · exact hc y

theorem RInv.bnd {G : Geo K} {fc : Fences} {s : St K V n} {q : Rd K V} (h : RInv G fc s q) (hw : WInv G s) {k : K} {g i : Nat} (hpc : q.pc = .bnd k g)
    (hm : q.th.may s.mem (.bound (G.hm k)) i) :
    RInv G fc s { q with
      th := opt fc.rd1 Th.fenceLoad (q.th.load s.mem (.bound (G.hm k)) i), pc := .probe k g (s.mem.msg (.bound (G.hm k)) i).val.toNat 0 } := by
  have hf := opt_load_wf (h.wf.load hw.base.mwf hm.2) fc.rd1
  have hc : ∀ y, q.th.cur y ≤ (opt fc.rd1 Th.fenceLoad (q.th.load s.mem (.bound (G.hm k)) i)).cur y := fun y =>
    Nat.le_trans (Th.load_cur_le _ _ _ _ _) (opt_load_le _ _ _)
  have hp := h.pc
  rw [hpc] at hp
  refine h.th rfl hf hc ⟨hp.1, fun hk => ?_⟩
  obtain ⟨i', c, a1, a2, a3, a4⟩ := hp.2 hk
  rcases a4 i hm.1 hm.2 with a5 | a5
  · exact .inr ⟨i', c, a1, Nat.le_trans a2 (hc _), a3.mono hc, a5, Nat.zero_le _⟩
  · left
    show g < (opt fc.rd1 Th.fenceLoad _).acq _
    rw [opt_load_acq]
    exact Nat.lt_of_lt_of_le a5 (Th.load_view_le _ _ _ _ _)

theorem RInv.last {G : Geo K} {fc : Fences} {s : St K V n} {q : Rd K V} (h : RInv G fc s q) {k : K} {g m l : Nat} (hpc : q.pc = .probe k g m l)
    (hm : m ≤ l) : RInv G fc s { q with pc := .chk k g none } := by
  have hp := h.pc
  rw [hpc] at hp
  refine h.th rfl h.wf (fun _ => Nat.le_refl _) ⟨fun _ hk => ?_, by simp⟩
  rcases hp.2 hk with h1 | ⟨i, c, _, _, _, h2, h3⟩
  · exact h1
  · omega

theorem RInv.probe [DecidableEq K] {G : Geo K} {fc : Fences} {s : St K V n} {q : Rd K V} (h : RInv G fc s q) (hw : WInv G s) {k : K} {g m l i : Nat} (hpc : q.pc = .probe k g m l)
    (hm : q.th.may s.mem (.slot (G.path k l)) i) :
    RInv G fc s { q with
      th := q.th.load s.mem (.slot (G.path k l)) i
      pc := match (s.mem.msg (.slot (G.path k l)) i).val with
        | .empty => .chk k g none
        | .obj k' v => if k' = k then .chk k g (some v) else .probe k g m (l + 1)
        | _ => .probe k g m (l + 1) } := by
  have hf := h.wf.load hw.base.mwf hm.2
  have hc : ∀ y, q.th.cur y ≤ (q.th.load s.mem (.slot (G.path k l)) i).cur y := Th.load_cur_le _ _ _ _
  have hp := h.pc
  rw [hpc] at hp
  refine h.th rfl hf hc ?_
  have key : ¬ IsObj k (s.mem.msg (.slot (G.path k l)) i).val →
      Pc G fc s { q with th := q.th.load s.mem (.slot (G.path k l)) i } (.probe k g m (l + 1)) := by
    intro hn
    refine ⟨hp.1, fun hk => ?_⟩
    rcases hp.2 hk with h1 | ⟨i', c, a1, a2, a3, a4, a5⟩
    · exact .inl (Nat.lt_of_lt_of_le h1 (Th.load_acq_le _ _ _ _ _))
    · by_cases e : i' = l
      · subst e
        rcases a1.msgs i (Nat.le_trans a2 hm.1) hm.2 with h2 | h2
        · exact absurd h2 hn
        · exact .inl (Nat.lt_of_lt_of_le h2 (Th.load_view_le _ _ _ _ _))
      · exact .inr ⟨i', c, a1, Nat.le_trans a2 (hc _), a3.mono hc, a4, by omega⟩
  show Pc G fc s _ (match (s.mem.msg (.slot (G.path k l)) i).val with
        | .empty => .chk k g none
        | .obj k' v => if k' = k then .chk k g (some v) else .probe k g m (l + 1)
        | _ => .probe k g m (l + 1))
  split
  · next e =>
    refine ⟨fun _ hk => ?_, by simp⟩
    have hn : ¬ IsObj k (s.mem.msg (.slot (G.path k l)) i).val := by rw [e]; rintro ⟨v, hv⟩; simp at hv
    rcases hp.2 hk with h1 | ⟨i', c, a1, a2, a3, a4, a5⟩
    · exact Nat.lt_of_lt_of_le h1 (Th.load_acq_le _ _ _ _ _)
    · by_cases e' : i' = l
      · subst e'
        rcases a1.msgs i (Nat.le_trans a2 hm.1) hm.2 with h2 | h2
        · exact absurd h2 hn
        · exact Nat.lt_of_lt_of_le h2 (Th.load_view_le _ _ _ _ _)
      · rcases a3 l (by omega) i hm.1 hm.2 with h2 | h2
        · exact absurd e h2
        · exact Nat.lt_of_lt_of_le h2 (Th.load_view_le _ _ _ _ _)
  · next k' v e =>
    split
    · next ek =>
      subst ek
      refine ⟨by simp, fun v' hv => ?_⟩
      simp only [Option.some.injEq] at hv
      subst hv
      exact h.val _ i k' v hm.1 hm.2 e
    · next ek => exact key (by rw [e]; rintro ⟨v', hv⟩; simp only [Val.obj.injEq] at hv; exact ek hv.1)
  · next h1 h2 => exact key (by rintro ⟨v', hv⟩; exact h2 _ _ hv)

theorem RInv.chk {G : Geo K} {fc : Fences} {s : St K V n} {q : Rd K V} (h : RInv G fc s q) (hw : WInv G s) {k : K} {g i : Nat} {res : Option V} (hpc : q.pc = .chk k g res)
    (hm : q.th.fenceLoad.may s.mem (.gen (G.gr k)) i) :
    RInv G fc s { q with
      th := q.th.fenceLoad.load s.mem (.gen (G.gr k)) i
      pc := if (s.mem.msg (.gen (G.gr k)) i).val.toNat = g then .ret k res else .start k } := by
  have hp := h.pc
  rw [hpc] at hp
  refine h.th rfl (h.wf.fenceLoad.load hw.base.mwf hm.2) (fun y => Nat.le_trans (le_join_left q.th.cur q.th.acq y) (Th.load_cur_le q.th.fenceLoad s.mem (.gen (G.gr k)) i y)) ?_
  show Pc G fc s _ (if (s.mem.msg (.gen (G.gr k)) i).val.toNat = g then .ret k res else .start k)
  split
  · next e =>
    rw [hw.base.gval _ _ hm.2] at e
    refine ⟨fun e1 hk => ?_, hp.2⟩
    have h1 := hp.1 e1 hk
    have h2 : q.th.acq (.gen (G.gr k)) ≤ i := Nat.le_trans (le_join_right _ _ _) hm.1
    omega
  · trivial

/-! ## Steps of the writer -/

/-- A store to a slot. -/
theorem WStep.ofSlot {G : Geo K} {fc : Fences} {s s' : St K V n} (hw : WInv G s) {X : Nat} {v : Val K V}
    (hp : Put s.mem s'.mem (.slot X) v (upd s.w.rel (.slot X) (s.mem.top (.slot X) + 1))) (hn : s.now ≤ s'.now) (hh : ∀ t, t ≤ s.now → s'.hist t = s.hist t)
    (hm : ∀ k, s'.mvd k = s.mvd k ∨ s.now < s'.mvd k) (hs : ∀ k j f, s'.wpc = .sig k j f → s.now < s'.now)
    (ho : ∀ k x, v = .obj k x → s'.hist s'.now k = some x)
    (hg : ∀ k, s.hist s.now k ≠ none → s'.hist s'.now k ≠ none → ∀ i c m, m ≤ s.mem.top (.gen (G.gr k)) → Good G s k i c m →
      (s'.pos k = some i ∨ (∃ f, s'.wpc = .sig k i f) ∨ (X = G.path k i ∧ m < s.mem.top (.gen (G.gr k)))
        ∨ m < (s.mem.msg (.slot (G.path k i)) (s.mem.top (.slot (G.path k i)))).view (.gen (G.gr k)))
      ∧ (X = G.path k i → IsObj k v ∨ m < s.mem.top (.gen (G.gr k))))
    (he : v = .empty → ∀ k i c m l, Good G s k i c m → l < i → G.path k l = X → m < s.mem.top (.gen (G.gr k))) : WStep G fc s s' := by
  have ew : ∀ g, upd s.w.rel (.slot X) (s.mem.top (.slot X) + 1) (.gen g) = s.mem.top (.gen g) := fun g => by
    rw [upd_ne _ _ (by simp), hw.base.rel]
  have hnew : ∀ x a, s.mem.top (.slot x) < a → a ≤ s'.mem.top (.slot x) → x = X ∧ s'.mem.msg (.slot x) a = ⟨v, upd s.w.rel (.slot X) (s.mem.top (.slot X) + 1)⟩ := by
    intro x a a1 a2
    rw [hp.top] at a2
    split at a2
    · next e =>
      have e' := e
      simp only [Loc.slot.injEq] at e'
      subst e'
      have : a = s.mem.top (.slot x) + 1 := by omega
      subst this
      exact ⟨rfl, hp.new⟩
    · omega
  refine ⟨hp.top_le, hp.old, hn, hh, hm, hs, ?_, ?_, ?_, ?_, ?_⟩
  · intro x a k y a1 a2 a3
    obtain ⟨_, e⟩ := hnew x a a1 a2
    rw [e] at a3
    exact ho k y a3
  · intro k b hb _ hk hk' i c m hm' hG
    obtain ⟨h1, h2⟩ := hg k (hk.1 _ hb (Nat.le_refl _)) (hk'.1 _ (Nat.le_trans hb hn) (Nat.le_refl _)) i c m hm' hG
    refine ⟨hG.first, Nat.le_trans hG.le (hp.top_le _), fun a a1 a2 => ?_, ?_⟩
    · by_cases ho : a ≤ s.mem.top (.slot (G.path k i))
      · rw [hp.old _ _ ho]; exact hG.msgs a a1 ho
      · obtain ⟨e1, e2⟩ := hnew _ a (by omega) a2
        rw [e2]
        show IsObj k v ∨ m < upd s.w.rel (.slot X) (s.mem.top (.slot X) + 1) (.gen (G.gr k))
        rw [ew]
        exact h2 e1.symm
    · rcases h1 with h1 | h1 | ⟨e, h1⟩ | h1
      · exact .inl h1
      · exact .inr (.inl h1)
      · right; right; right
        subst e
        rw [hp.msg_at]
        exact lt_of_lt_of_eq h1 (ew _).symm
      · right; right; right
        by_cases e : X = G.path k i
        · subst e
          rw [hp.msg_at]
          exact lt_of_lt_of_eq (Nat.lt_of_lt_of_le h1 (hw.view (Nat.le_refl _))) (ew _).symm
        · rw [hp.msg_ne (by simpa using Ne.symm e)]; exact h1
  · intro k i c m l a _ hG hl a1 a2
    obtain ⟨e1, e2⟩ := hnew _ a a1 a2
    rw [e2]
    show v ≠ .empty ∨ m < upd s.w.rel (.slot X) (s.mem.top (.slot X) + 1) (.gen (G.gr k))
    rw [ew]
    by_cases hv : v = .empty
    · exact .inr (he hv k i c m l hG hl e1)
    · exact .inl hv
  · intro k i c m a _ _ a1 a2
    rw [hp.top_ne (by simp)] at a2
    omega
  · intro k a a1 a2
    rw [hp.top_ne (by simp)] at a2
    omega

/-- No store. -/
theorem WStep.ofNone {G : Geo K} {fc : Fences} {s s' : St K V n} (hp : s'.mem = s.mem) (hn : s.now ≤ s'.now) (hh : ∀ t, t ≤ s.now → s'.hist t = s.hist t)
    (hm : s'.mvd = s.mvd) (hs : ∀ k j f, s'.wpc ≠ .sig k j f)
    (hg : ∀ k, s'.hist s'.now k ≠ none → ∀ i c m, Good G s k i c m →
      s'.pos k = some i ∨ m < (s.mem.msg (.slot (G.path k i)) (s.mem.top (.slot (G.path k i)))).view (.gen (G.gr k))) : WStep G fc s s' := by
  refine ⟨fun y => by rw [hp], fun y i _ => by rw [hp], hn, hh, fun k => .inl (by rw [hm]), fun k j f e => absurd e (hs k j f), ?_, ?_, ?_, ?_, ?_⟩
  · intro x a k y a1 a2
    rw [hp] at a2; omega
  · intro k b hb _ hk hk' i c m hm' hG
    refine ⟨hG.first, by rw [hp]; exact hG.le, by rw [hp]; exact hG.msgs, ?_⟩
    rcases hg k (hk'.1 _ (Nat.le_trans hb hn) (Nat.le_refl _)) i c m hG with h1 | h1
    · exact .inl h1
    · right; right; right; rw [hp]; exact h1
  · intro k i c m l a _ hG hl a1 a2
    rw [hp] at a2; omega
  · intro k i c m a _ _ a1 a2
    rw [hp] at a2; omega
  · intro k a a1 a2
    rw [hp] at a2; omega

/-- A key that is not there has left for a newer generation. -/
theorem WInv.hole_lt {G : Geo K} {s : St K V n} (h : WInv G s) {X : Nat} (hi : s.wpc = .hole X) {k : K} {i c m : Nat} (hG : Good G s k i c m)
    (hn : s.pos k ≠ some i) : m < s.mem.top (.gen (G.gr k)) := by
  rcases hG.alive with h1 | ⟨f, h1⟩ | h1 | h1
  · exact absurd h1 hn
  · rw [hi] at h1; simp at h1
  · exact h1.2
  · exact Nat.lt_of_lt_of_le h1 (h.view (Nat.le_refl _))

/-- The cases of `alive` that are left. -/
theorem WInv.hole_alive {G : Geo K} {s : St K V n} {X : Nat} (hi : s.wpc = .hole X) {k : K} {i c m : Nat} (hG : Good G s k i c m) :
    s.pos k = some i ∨ (X = G.path k i ∧ m < s.mem.top (.gen (G.gr k)))
      ∨ m < (s.mem.msg (.slot (G.path k i)) (s.mem.top (.slot (G.path k i)))).view (.gen (G.gr k)) := by
  rcases hG.alive with h1 | ⟨f, h1⟩ | h1 | h1
  · exact .inl h1
  · rw [hi] at h1; simp at h1
  · rw [hi] at h1
    simp only [WPC.hole.injEq] at h1
    exact .inr (.inl h1)
  · exact .inr (.inr h1)

theorem WInv.idle_alive {G : Geo K} {s : St K V n} (hi : s.wpc = .idle) {k : K} {i c m : Nat} (hG : Good G s k i c m) :
    s.pos k = some i ∨ m < (s.mem.msg (.slot (G.path k i)) (s.mem.top (.slot (G.path k i)))).view (.gen (G.gr k)) := by
  rcases hG.alive with h1 | ⟨f, h1⟩ | h1 | h1
  · exact .inl h1
  · rw [hi] at h1; simp at h1
  · rw [hi] at h1; simp at h1
  · exact .inr h1

variable [DecidableEq K]

theorem WStep.ofCopy {G : Geo K} {fc : Fences} {s : St K V n} (h : WInv G s) {X j i : Nat} {k : K} {v : V} {f : Bool} (hi : s.wpc = .hole X) (hn : s.pos k = some j) :
    WStep G fc s { (s.wput (.slot X) (.obj k v)).change k (some v) (some i) with wpc := .sig k j f, mvd := upd s.mvd k (s.now + 1) } := by
  have hp := Put.store s.mem s.w (.slot X) (.obj k v)
  refine .ofSlot h hp (Nat.le_succ _) (fun t ht => upd_ne _ _ (Nat.ne_of_lt (Nat.lt_succ_of_le ht))) (fun k' => ?_) (fun _ _ _ _ => Nat.lt_succ_self _) ?_ ?_ (by simp)
  · show upd s.mvd k _ k' = _ ∨ _ < upd s.mvd k _ k'
    rw [upd_apply]; split
    · right; omega
    · left; rfl
  · intro k' x e
    simp only [Val.obj.injEq] at e
    obtain ⟨rfl, rfl⟩ := e
    simp [St.change]
  · intro k' _ _ i' c m hm hG
    by_cases e : k' = k
    · subst e
      refine ⟨?_, fun _ => .inl ⟨v, rfl⟩⟩
      rcases WInv.hole_alive hi hG with h1 | h1 | h1
      · rw [hn] at h1
        simp only [Option.some.injEq] at h1
        subst h1
        exact .inr (.inl ⟨f, rfl⟩)
      · exact .inr (.inr (.inl h1))
      · exact .inr (.inr (.inr h1))
    · refine ⟨?_, fun e' => .inr (h.hole_lt hi hG fun e2 => h.hole X hi k' i' e2 e'.symm)⟩
      rcases WInv.hole_alive hi hG with h1 | h1 | h1
      · left
        show upd s.pos k _ k' = _
        rw [upd_ne _ _ e]; exact h1
      · exact .inr (.inr (.inl h1))
      · exact .inr (.inr (.inr h1))

theorem WStep.ofFill {G : Geo K} {fc : Fences} {s : St K V n} (h : WInv G s) {X i : Nat} {k : K} {v : V} (hi : s.wpc = .hole X) (hn : s.pos k = none) :
    WStep G fc s { (s.wput (.slot X) (.obj k v)).change k (some v) (some i) with wpc := .idle } := by
  have hp := Put.store s.mem s.w (.slot X) (.obj k v)
  refine .ofSlot h hp (Nat.le_succ _) (fun t ht => upd_ne _ _ (Nat.ne_of_lt (Nat.lt_succ_of_le ht))) (fun k' => .inl rfl) (fun _ _ _ e => by simp at e) ?_ ?_ (by simp)
  · intro k' x e
    simp only [Val.obj.injEq] at e
    obtain ⟨rfl, rfl⟩ := e
    simp [St.change]
  · intro k' e1 _ i' c m hm hG
    have e : k' ≠ k := by rintro rfl; exact e1 (h.gone _ hn)
    refine ⟨?_, fun e' => .inr (h.hole_lt hi hG fun e2 => h.hole X hi k' i' e2 e'.symm)⟩
    rcases WInv.hole_alive hi hG with h1 | h1 | h1
    · left
      show upd s.pos k _ k' = _
      rw [upd_ne _ _ e]; exact h1
    · exact .inr (.inr (.inl h1))
    · exact .inr (.inr (.inr h1))

theorem WStep.ofRepl {G : Geo K} {fc : Fences} {s : St K V n} (h : WInv G s) {i : Nat} {k : K} {v : V} (hi : s.wpc = .idle) (hn : s.pos k = some i) :
    WStep G fc s ((s.wput (.slot (G.path k i)) (.obj k v)).change k (some v) (some i)) := by
  have hp := Put.store s.mem s.w (.slot (G.path k i)) (.obj k v)
  refine .ofSlot h hp (Nat.le_succ _) (fun t ht => upd_ne _ _ (Nat.ne_of_lt (Nat.lt_succ_of_le ht))) (fun k' => .inl rfl) (fun k' j f e => ?_) ?_ ?_ (by simp)
  · replace e : s.wpc = _ := e
    rw [hi] at e; simp at e
  · intro k' x e
    simp only [Val.obj.injEq] at e
    obtain ⟨rfl, rfl⟩ := e
    simp [St.change]
  · intro k' e1 _ i' c m hm hG
    refine ⟨?_, fun e' => ?_⟩
    · rcases WInv.idle_alive hi hG with h1 | h1
      · left
        show upd s.pos k _ k' = _
        rw [upd_apply]; split
        · next e => rw [← hn, ← e]; exact h1
        · exact h1
      · exact .inr (.inr (.inr h1))
    · by_cases e : k' = k
      · left; exact ⟨v, by rw [e]⟩
      · right
        obtain ⟨y, hy⟩ := (h.here k i hn).1
        rcases hG.msgs _ hG.le (Nat.le_refl _) with ⟨x, hx⟩ | h2
        · rw [← e'] at hx
          rw [Mem.last, hx] at hy; simp only [Val.obj.injEq] at hy; exact absurd hy.1 e
        · exact Nat.lt_of_lt_of_le h2 (h.view (Nat.le_refl _))

omit [DecidableEq K] in
theorem WStep.ofClear {G : Geo K} {fc : Fences} {s : St K V n} (h : WInv G s) {X : Nat} (hi : s.wpc = .hole X) (hu : Unwanted G s X) :
    WStep G fc s { s.wput (.slot X) .empty with wpc := .idle } := by
  have hp := Put.store s.mem s.w (.slot X) .empty
  refine .ofSlot h hp (Nat.le_refl _) (fun _ _ => rfl) (fun k' => .inl rfl) (fun _ _ _ e => by simp at e) (by simp) ?_ ?_
  · intro k' e1 _ i' c m hm hG
    refine ⟨?_, fun e' => .inr (h.hole_lt hi hG fun e2 => h.hole X hi k' i' e2 e'.symm)⟩
    rcases WInv.hole_alive hi hG with h1 | h1 | h1
    · exact .inl h1
    · exact .inr (.inr (.inl h1))
    · exact .inr (.inr (.inr h1))
  · intro _ k' i' c m l hG hl e
    exact h.hole_lt hi hG fun e2 => hu k' i' e2 l hl e

omit [DecidableEq K] in
theorem WStep.ofOpen {G : Geo K} {fc : Fences} {s : St K V n} {X : Nat} (hi : s.wpc = .idle) : WStep G fc s { s with wpc := .hole X } :=
  .ofNone rfl (Nat.le_refl _) (fun _ _ => rfl) rfl (by simp) fun _ _ _ _ _ hG => WInv.idle_alive hi hG

omit [DecidableEq K] in
theorem WStep.ofClose {G : Geo K} {fc : Fences} {s : St K V n} {X : Nat} (hi : s.wpc = .hole X) (he : s.mem.last (.slot X) = .empty) :
    WStep G fc s { s with wpc := .idle } := by
  refine .ofNone rfl (Nat.le_refl _) (fun _ _ => rfl) rfl (by simp) fun k _ i c m hG => ?_
  rcases WInv.hole_alive hi hG with h1 | ⟨e, h1⟩ | h1
  · exact .inl h1
  · right
    rcases hG.msgs _ hG.le (Nat.le_refl _) with ⟨x, hx⟩ | h2
    · rw [← e] at hx
      rw [Mem.last, hx] at he; simp at he
    · exact h2
  · exact .inr h1

theorem WStep.ofTake {G : Geo K} {fc : Fences} {s : St K V n} {X : Nat} {k : K} (hi : s.wpc = .idle) :
    WStep G fc s { s.change k none none with wpc := .hole X } := by
  refine .ofNone rfl (Nat.le_succ _) (fun t ht => upd_ne _ _ (Nat.ne_of_lt (Nat.lt_succ_of_le ht))) rfl (by simp) fun k' e1 i c m hG => ?_
  have : k' ≠ k := by rintro rfl; exact e1 (by simp [St.change])
  refine (WInv.idle_alive hi hG).imp_left fun h1 => ?_
  show upd s.pos k _ k' = _
  rw [upd_ne _ _ this]; exact h1

omit [DecidableEq K] in
theorem WStep.ofBound {G : Geo K} {fc : Fences} {s : St K V n} (h : WInv G s) {x m : Nat} (hi : ∀ k j f, s.wpc ≠ .sig k j f) (h1 : Within G s x m) :
    WStep G fc s (s.wput (.bound x) (.num m)) := by
  have hp := Put.store s.mem s.w (.bound x) (.num m)
  refine ⟨hp.top_le, hp.old, Nat.le_refl _, fun _ _ => rfl, fun _ => .inl rfl, fun k j f e => absurd e (hi k j f), ?_, ?_, ?_, ?_, ?_⟩
  · intro x a k y a1 a2
    replace a2 : a ≤ (s.mem.store _ _ _).top _ := a2
    rw [hp.top_ne (by simp)] at a2; omega
  · intro k' b _ _ _ _ i' c m' hm hG
    refine ⟨hG.first, Nat.le_trans hG.le (hp.top_le _), fun a a1 a2 => ?_, ?_⟩
    · replace a2 : a ≤ (s.mem.store _ _ _).top _ := a2
      rw [hp.top_ne (by simp)] at a2
      show IsObj _ ((s.mem.store _ _ _).msg _ _).val ∨ _ < ((s.mem.store _ _ _).msg _ _).view _
      rw [hp.old _ _ a2]; exact hG.msgs a a1 a2
    · rcases hG.alive with h1 | ⟨f, h1⟩ | h1 | h1
      · exact .inl h1
      · exact absurd h1 (hi _ _ _)
      · right; right; left
        refine ⟨h1.1, ?_⟩
        show _ < (s.mem.store _ _ _).top _
        rw [hp.top_ne (by simp)]; exact h1.2
      · right; right; right
        show m' < ((s.mem.store s.w _ _).msg _ ((s.mem.store s.w _ _).top _)).view _
        rw [hp.msg_ne (by simp)]; exact h1
  · intro k i c m l a _ hG hl a1 a2
    replace a2 : a ≤ (s.mem.store _ _ _).top _ := a2
    rw [hp.top_ne (by simp)] at a2; omega
  · intro k' i' c m' a hm hG a1 a2
    replace a2 : a ≤ (s.mem.store _ _ _).top _ := a2
    rw [hp.top] at a2
    split at a2
    · next e =>
      have ea : a = s.mem.top (.bound x) + 1 := by rw [e] at a1; omega
      show _ < ((s.mem.store _ _ _).msg _ _).val.toNat ∨ _ < ((s.mem.store _ _ _).msg _ _).view _
      rw [e, ea, hp.new]
      show i' < m ∨ m' < upd s.w.rel (.bound x) (s.mem.top (.bound x) + 1) (.gen (G.gr k'))
      rw [upd_ne _ _ (by simp), h.base.rel]
      simp only [Loc.bound.injEq] at e
      rcases hG.alive with h2 | ⟨f, h2⟩ | h2 | h2
      · exact .inl (h1 k' e i' h2)
      · exact absurd h2 (hi _ _ _)
      · exact .inr h2.2
      · exact .inr (Nat.lt_of_lt_of_le h2 (h.view (Nat.le_refl _)))
    · omega
  · intro k a a1 a2
    replace a2 : a ≤ (s.mem.store _ _ _).top _ := a2
    rw [hp.top_ne (by simp)] at a2; omega

omit [DecidableEq K] in
theorem Base.opt {m : Mem Loc (Val K V)} {w : Th Loc} (h : Base m w) (b : Bool) : Base m (opt b Th.fenceStore w) := by
  cases b
  · exact h
  · exact h.fence

/-- The state after `sig`, with the fence. -/
def sigd (G : Geo K) (fc : Fences) (s : St K V n) (k : K) (j : Nat) (f : Bool) : St K V n :=
  { s with
    mem := s.mem.rmw (opt fc.fix Th.fenceStore s.w) (.gen (idx G k f)) (.num ((s.mem.last (.gen (idx G k f))).toNat + 1))
    w := ((opt fc.fix Th.fenceStore s.w).rmw s.mem (.gen (idx G k f))).fenceStore, wpc := .hole (G.path k j) }

omit [DecidableEq K] in
theorem WStep.ofSig {G : Geo K} {fc : Fences} {s : St K V n} (h : WInv G s) (h' : ∀ k j f, s.wpc = .sig k j f → WInv G (sigd G fc s k j f)) {k : K} {j : Nat} {f : Bool}
    (hi : s.wpc = .sig k j f) : WStep G fc s (sigd G fc s k j f) := by
  have hp := Put.rmw s.mem (opt fc.fix Th.fenceStore s.w) (.gen (idx G k f)) (.num ((s.mem.last (.gen (idx G k f))).toNat + 1))
  change Put s.mem (sigd G fc s k j f).mem _ _ _ at hp
  have hw' := h' k j f hi
  obtain ⟨a1, a3, a4, a5⟩ := h.sig k j f hi
  have hidx : Mv G fc k → idx G k f = G.gr k := by
    intro e; unfold idx; split
    · rfl
    · exact e.2.2
  refine ⟨hp.top_le, hp.old, Nat.le_refl _, fun _ _ => rfl, fun _ => .inl rfl, fun _ _ _ e => by simp [sigd] at e, ?_, ?_, ?_, ?_, ?_⟩
  · intro x a k y a1 a2
    rw [hp.top_ne (by simp)] at a2; omega
  · intro k' b hb hb' hk _ i' c m hm hG
    refine ⟨hG.first, Nat.le_trans hG.le (hp.top_le _), fun a a1 a2 => ?_, ?_⟩
    · rw [hp.top_ne (by simp)] at a2
      rw [hp.old _ _ a2]; exact hG.msgs a a1 a2
    · rcases hG.alive with h1 | ⟨f', h1⟩ | h1 | h1
      · exact .inl h1
      · right; right; left
        rw [hi] at h1
        simp only [WPC.sig.injEq] at h1
        obtain ⟨rfl, rfl, rfl⟩ := h1
        have hmv : Mv G fc k := by
          rcases hk.2 with h1 | h1
          · exact h1
          · have := hb' ⟨_, _, _, hi⟩
            omega
        refine ⟨rfl, ?_⟩
        rw [hp.top, if_pos (by rw [hidx hmv]), hidx hmv]; omega
      · rw [hi] at h1; simp at h1
      · right; right; right
        rw [hp.msg_ne (by simp)]; exact h1
  · intro k i c m l a _ hG hl a1 a2
    rw [hp.top_ne (by simp)] at a2; omega
  · intro k i c m a _ _ a1 a2
    rw [hp.top_ne (by simp)] at a2; omega
  · intro k' a e1 e2 q hq hk hk'
    rw [hp.top] at e2
    split at e2
    · next e =>
      simp only [Loc.gen.injEq] at e
      have ea : a = s.mem.top (.gen (G.gr k')) + 1 := by rw [← e] at e2; omega
      have emsg : ((sigd G fc s k j f).mem.msg (.gen (G.gr k')) a).view =
          upd (join (opt fc.fix Th.fenceStore s.w).rel (s.mem.msg (.gen (G.gr k')) (s.mem.top (.gen (G.gr k')))).view) (.gen (G.gr k')) (s.mem.top (.gen (G.gr k')) + 1) := by
        rw [ea]
        conv_lhs => rw [e]
        rw [hp.new, e]
      rw [emsg]
      by_cases ek : k' = k
      · subst ek
        have hmv : Mv G fc k' := by
          rcases hk.2 with h1 | h1
          · exact h1
          · have := hq.wb _ _ _ hi
            omega
        cases hpos : s.pos k' with
        | none => exact absurd hpos a4
        | some ip =>
          refine hw'.item hpos a fun y hy => ?_
          rw [hp.top_ne (hy _)]
          unfold kno
          rw [if_pos hmv]
          refine Nat.le_trans ?_ (le_join_right _ _ _)
          rw [upd_ne _ _ (hy _)]
          refine Nat.le_trans ?_ (le_join_left _ _ _)
          rw [hmv.1]
          show _ ≤ join s.w.rel s.w.wr _
          exact Nat.le_trans (h.base.wr _).ge (le_join_right _ _ _)
      · have hc := (hq.wf (.gen (G.gr k'))).1
        obtain ⟨i', c, b1, b2, b3, b4⟩ := hq.rk k' hk _ hc (Nat.le_refl _)
        have hpos : s.pos k' = some i' := by
          rcases b1.alive with h1 | ⟨f', h1⟩ | h1 | h1
          · exact h1
          · rw [hi] at h1; simp only [WPC.sig.injEq] at h1; exact absurd h1.1.symm ek
          · rw [hi] at h1; simp at h1
          · have := h.view (y := .slot (G.path k' i')) (g := G.gr k') (Nat.le_refl _)
            omega
        have hS : ∀ y, (∀ g, y ≠ .gen g) → kno G fc k' q.th.cur (s.mem.msg (.gen (G.gr k')) (s.mem.top (.gen (G.gr k')))).view y
            ≤ kno G fc k' q.th.cur (upd (join (opt fc.fix Th.fenceStore s.w).rel (s.mem.msg (.gen (G.gr k')) (s.mem.top (.gen (G.gr k')))).view) (.gen (G.gr k')) (s.mem.top (.gen (G.gr k')) + 1)) y := by
          intro y hy
          unfold kno
          split
          · refine join_le (le_join_left _ _ _) (Nat.le_trans ?_ (le_join_right _ _ _))
            rw [upd_ne _ _ (hy _)]
            exact le_join_right _ _ _
          · exact Nat.le_refl _
        refine ⟨i', c, ⟨b1.first, Nat.le_trans b1.le (hp.top_le _), fun a c1 c2 => .inl ?_, .inl hpos⟩, Nat.le_trans b2 (hS _ (by simp)), fun l hl a c1 c2 => .inl ?_, fun a c1 c2 => .inl ?_⟩
        · rw [hp.top_ne (by simp)] at c2
          rw [hp.old _ _ c2]
          rcases b1.msgs a c1 c2 with h1 | h1
          · exact h1
          · have := h.view (y := .slot (G.path k' i')) (g := G.gr k') c2
            omega
        · rw [hp.top_ne (by simp)] at c2
          rw [hp.old _ _ c2]
          rcases b3 l hl a (Nat.le_trans (hS _ (by simp)) c1) c2 with h1 | h1
          · exact h1
          · have := h.view (y := .slot (G.path k' l)) (g := G.gr k') c2
            omega
        · rw [hp.top_ne (by simp)] at c2
          rw [hp.old _ _ c2]
          rcases b4 a (Nat.le_trans (hS _ (by simp)) c1) c2 with h1 | h1
          · exact h1
          · have := h.view (y := .bound (G.hm k')) (g := G.gr k') c2
            omega
    · omega

/-! ## What the writer knows -/

theorem WInv.copy {G : Geo K} {s : St K V n} (h : WInv G s) {X j i : Nat} {k : K} {v : V} {f : Bool} (hi : s.wpc = .hole X) (hn : s.pos k = some j)
    (hX : G.path k i = X) (hF : Fits G s.mem k i) :
    WInv G { (s.wput (.slot X) (.obj k v)).change k (some v) (some i) with wpc := .sig k j f, mvd := upd s.mvd k (s.now + 1) } := by
  have hp := Put.store s.mem s.w (.slot X) (.obj k v)
  have hl := hp.last
  have hy := h.here
  have ho := h.own
  have hg := h.gone
  have hm := h.mvd
  have hh := h.hole
  have hb := h.base.store (l := .slot X) (v := .obj k v) (by simp)
  refine ⟨hb, ?_, ?_, ?_, ?_, ?_, ?_⟩ <;> simp only [St.change, St.wput, upd_apply, IsObj, Fits, Full, First] at * <;> clear hb hp
  · grind
  · grind
  · grind
  · grind
  · grind
  · grind

theorem WInv.fill {G : Geo K} {s : St K V n} (h : WInv G s) {X i : Nat} {k : K} {v : V} (hi : s.wpc = .hole X) (hn : s.pos k = none)
    (hX : G.path k i = X) (hF : Fits G s.mem k i) :
    WInv G { (s.wput (.slot X) (.obj k v)).change k (some v) (some i) with wpc := .idle } := by
  have hp := Put.store s.mem s.w (.slot X) (.obj k v)
  have hl := hp.last
  have hy := h.here
  have ho := h.own
  have hg := h.gone
  have hm := h.mvd
  have hh := h.hole
  have hb := h.base.store (l := .slot X) (v := .obj k v) (by simp)
  refine ⟨hb, ?_, ?_, ?_, ?_, ?_, ?_⟩ <;> simp only [St.change, St.wput, upd_apply, IsObj, Fits, Full, First] at * <;> clear hb hp
  · grind
  · grind
  · grind
  · grind
  · grind
  · grind

theorem WInv.repl {G : Geo K} {s : St K V n} (h : WInv G s) {i : Nat} {k : K} {v : V} (hi : s.wpc = .idle) (hn : s.pos k = some i) :
    WInv G ((s.wput (.slot (G.path k i)) (.obj k v)).change k (some v) (some i)) := by
  have hp := Put.store s.mem s.w (.slot (G.path k i)) (.obj k v)
  have hl := hp.last
  have hy := h.here
  have ho := h.own
  have hg := h.gone
  have hm := h.mvd
  have hb := h.base.store (l := .slot (G.path k i)) (v := .obj k v) (by simp)
  refine ⟨hb, ?_, ?_, ?_, ?_, ?_, ?_⟩ <;> simp only [St.change, St.wput, upd_apply, IsObj, Full, First] at * <;> clear hb hp
  · grind
  · grind
  · grind
  · grind
  · grind
  · grind

omit [DecidableEq K] in
theorem WInv.clear {G : Geo K} {s : St K V n} (h : WInv G s) {X : Nat} (hi : s.wpc = .hole X) (hu : Unwanted G s X) :
    WInv G { s.wput (.slot X) .empty with wpc := .idle } := by
  have hp := Put.store s.mem s.w (.slot X) .empty
  have hl := hp.last
  have hy := h.here
  have ho := h.own
  have hg := h.gone
  have hm := h.mvd
  have hh := h.hole
  have hb := h.base.store (l := .slot X) (v := .empty) (by simp)
  refine ⟨hb, ?_, ?_, ?_, ?_, ?_, ?_⟩ <;> simp only [St.wput, Unwanted, Option.mem_def, IsObj, Full, First] at * <;> clear hb hp
  · grind
  · grind
  · grind
  · grind
  · grind
  · grind

omit [DecidableEq K] in
theorem WInv.openE {G : Geo K} {s : St K V n} (h : WInv G s) {X : Nat} (hi : s.wpc = .idle) (he : s.mem.last (.slot X) = .empty) :
    WInv G { s with wpc := .hole X } := by
  have hy := h.here
  have ho := h.own
  have hg := h.gone
  have hm := h.mvd
  refine ⟨h.base, ?_, ?_, ?_, ?_, ?_, ?_⟩ <;> simp only [IsObj, Full, First] at *
  · grind
  · grind
  · grind
  · grind
  · grind
  · grind

omit [DecidableEq K] in
theorem WInv.close {G : Geo K} {s : St K V n} (h : WInv G s) {X : Nat} (hi : s.wpc = .hole X) (he : s.mem.last (.slot X) = .empty) :
    WInv G { s with wpc := .idle } := by
  have hy := h.here
  have ho := h.own
  have hg := h.gone
  have hm := h.mvd
  refine ⟨h.base, ?_, ?_, ?_, ?_, ?_, ?_⟩ <;> simp only [IsObj, Full, First] at *
  · grind
  · grind
  · grind
  · grind
  · grind
  · grind

theorem WInv.take {G : Geo K} {s : St K V n} (h : WInv G s) {j : Nat} {k : K} (hi : s.wpc = .idle) (hn : s.pos k = some j) :
    WInv G { s.change k none none with wpc := .hole (G.path k j) } := by
  have hy := h.here
  have ho := h.own
  have hg := h.gone
  have hm := h.mvd
  refine ⟨h.base, ?_, ?_, ?_, ?_, ?_, ?_⟩ <;> simp only [St.change, upd_apply, IsObj, Full, First] at *
  · grind
  · grind
  · grind
  · grind
  · grind
  · grind

omit [DecidableEq K] in
theorem WInv.bound {G : Geo K} {s : St K V n} (h : WInv G s) {x m : Nat} (h1 : Within G s x m) : WInv G (s.wput (.bound x) (.num m)) := by
  have hp := Put.store s.mem s.w (.bound x) (.num m)
  have hl := hp.last
  have hy := h.here
  have ho := h.own
  have hg := h.gone
  have hm := h.mvd
  have hh := h.hole
  have hs := h.sig
  have hb := h.base.store (l := .bound x) (v := .num m) (by simp)
  refine ⟨hb, ?_, ?_, ?_, ?_, ?_, ?_⟩ <;> simp only [St.wput, Within, Val.toNat, Option.mem_def, IsObj, Full, First] at * <;> clear hb hp
  · grind
  · grind
  · grind
  · grind
  · grind
  · grind

omit [DecidableEq K] in
theorem WInv.sigd {G : Geo K} {fc : Fences} {s : St K V n} (h : WInv G s) {k : K} {j : Nat} {f : Bool} (hi : s.wpc = .sig k j f) : WInv G (sigd G fc s k j f) := by
  have hp := Put.rmw s.mem (opt fc.fix Th.fenceStore s.w) (.gen (idx G k f)) (.num ((s.mem.last (.gen (idx G k f))).toNat + 1))
  have hl := hp.last
  have hy := h.here
  have ho := h.own
  have hg := h.gone
  have hm := h.mvd
  have hs := h.sig
  have hb := (h.base.opt fc.fix).sig (idx G k f)
  refine ⟨hb, ?_, ?_, ?_, ?_, ?_, ?_⟩ <;> simp only [RhsRead.sigd, IsObj, Full, First] at * <;> clear hb hp
  · grind
  · grind
  · grind
  · grind
  · grind
  · grind

/-! ## All reachable states -/

variable [Fintype K] [DecidableEq V]

omit [DecidableEq K] [Fintype K] [DecidableEq V] in
theorem Inv.init (G : Geo K) (fc : Fences) : Inv G fc (initSt : St K V n) := by
  refine ⟨⟨⟨Mem.Wf.init _, Th.Wf.init _, fun _ => rfl, fun _ => rfl, fun _ => rfl, ?_, fun _ _ _ _ => Nat.le_refl _⟩, ?_, ?_, ?_, ?_, ?_, ?_⟩, fun r => ⟨Th.Wf.init _, Nat.le_refl _, ?_, ?_, ?_, ?_⟩⟩
  · intro g i hi
    have : i = 0 := Nat.le_zero.1 hi
    subst this; rfl
  · intro k i h; simp [initSt] at h
  · intro k _; rfl
  · intro x k v h
    exact absurd h (by simp [initSt, Mem.last, Mem.init])
  · intro x h; simp [initSt] at h
  · intro k j f h; simp [initSt] at h
  · intro k; exact Nat.le_refl _
  · intro k j f h; simp [initSt] at h
  · intro x a k v _ _ h
    exact absurd h (by simp [initSt, Mem.init])
  · intro k h
    exact absurd rfl (h.1 0 (Nat.le_refl _) (Nat.le_refl _))
  · trivial

omit [DecidableEq K] [Fintype K] [DecidableEq V] in
theorem Inv.wstep {G : Geo K} {fc : Fences} {s s' : St K V n} (h : Inv G fc s) (hw : WInv G s') (hs : WStep G fc s s') (hr : s'.rd = s.rd) : Inv G fc s' :=
  ⟨hw, fun r => by rw [hr]; exact (h.r r).wstep hs⟩

omit [DecidableEq K] [Fintype K] [DecidableEq V] in
theorem Inv.rstep {G : Geo K} {fc : Fences} {s : St K V n} {r : Fin n} {q : Rd K V} (h : Inv G fc s) (hq : RInv G fc s q) :
    Inv G fc { s with rd := upd s.rd r q } := by
  refine ⟨⟨h.w.base, h.w.here, h.w.gone, h.w.own, h.w.hole, h.w.sig, h.w.mvd⟩, fun r' => ?_⟩
  show RInv G fc _ (upd s.rd r q r')
  have e : ∀ q', RInv G fc s q' → RInv G fc { s with rd := upd s.rd r q } q' := fun q' h =>
    ⟨h.wf, h.bn, h.wb, h.val, h.rk, h.pc⟩
  rw [upd_apply]; split
  · exact e _ hq
  · exact e _ (h.r r')

theorem Inv.step {G : Geo K} {fc : Fences} (h1 : fc.sig = true) (h3 : fc.rd2 = true) {s s' : St K V n} {a : Act K V n} (h : Inv G fc s)
    (hs : step G fc s a = some s') : Inv G fc s' := by
  cases a with
  | bound x m =>
    simp only [RhsRead.step] at hs
    split at hs
    · simp at hs
    · next hn =>
      split at hs
      · next hc => simp only [Option.some.injEq] at hs; subst hs; exact h.wstep (h.w.bound hc) (.ofBound h.w hn hc) rfl
      · simp at hs
  | openE x =>
    simp only [RhsRead.step] at hs
    split at hs
    · next hc => simp only [Option.some.injEq] at hs; subst hs; exact h.wstep (h.w.openE hc.1 hc.2) (.ofOpen hc.1) rfl
    · simp at hs
  | close =>
    simp only [RhsRead.step] at hs
    split at hs
    · next hp =>
      split at hs
      · next hc => simp only [Option.some.injEq] at hs; subst hs; exact h.wstep (h.w.close hp hc) (.ofClose hp hc) rfl
      · simp at hs
    · simp at hs
  | take k =>
    simp only [RhsRead.step] at hs
    split at hs
    · next hp =>
      split at hs
      · next hc => simp only [Option.some.injEq] at hs; subst hs; exact h.wstep (h.w.take hc hp) (.ofTake hc) rfl
      · simp at hs
    · simp at hs
  | copy k i v full =>
    simp only [RhsRead.step] at hs
    split at hs
    · next hq hp =>
      split at hs
      · next hc => simp only [Option.some.injEq] at hs; subst hs; exact h.wstep (h.w.copy hq hp hc.1 hc.2) (.ofCopy h.w hq hp) rfl
      · simp at hs
    · simp at hs
  | sig =>
    simp only [RhsRead.step, h1] at hs
    split at hs
    · next hp => simp only [Option.some.injEq] at hs; subst hs; exact h.wstep (h.w.sigd hp) (.ofSig h.w (fun _ _ _ e => h.w.sigd e) hp) rfl
    · simp at hs
  | fill k i v =>
    simp only [RhsRead.step] at hs
    split at hs
    · next hp =>
      split at hs
      · next hc => simp only [Option.some.injEq] at hs; subst hs; exact h.wstep (h.w.fill hp hc.2.1 hc.1 hc.2.2) (.ofFill h.w hp hc.2.1) rfl
      · simp at hs
    · simp at hs
  | clear =>
    simp only [RhsRead.step] at hs
    split at hs
    · next hp =>
      split at hs
      · next hc => simp only [Option.some.injEq] at hs; subst hs; exact h.wstep (h.w.clear hp hc) (.ofClear h.w hp hc) rfl
      · simp at hs
    · simp at hs
  | repl k v =>
    simp only [RhsRead.step] at hs
    split at hs
    · next hp =>
      split at hs
      · next hc => simp only [Option.some.injEq] at hs; subst hs; exact h.wstep (h.w.repl hc hp) (.ofRepl h.w hc hp) rfl
      · simp at hs
    · simp at hs
  | sync r =>
    simp only [RhsRead.step] at hs
    split at hs
    · next hc => simp only [Option.some.injEq] at hs; subst hs; exact h.rstep ((h.r _).sync h.w hc.1 hc.2)
    · simp at hs
  | call r k =>
    simp only [RhsRead.step] at hs
    split at hs
    · next hc => simp only [Option.some.injEq] at hs; subst hs; exact h.rstep ((h.r _).th rfl (h.r _).wf (fun _ => Nat.le_refl _) trivial)
    · simp at hs
  | gen r i =>
    simp only [RhsRead.step] at hs
    split at hs
    · next hp =>
      split at hs
      · next hc => simp only [Option.some.injEq] at hs; subst hs; exact h.rstep ((h.r _).gen h.w hc)
      · simp at hs
    · simp at hs
  | bnd r i =>
    simp only [RhsRead.step] at hs
    split at hs
    · next hp =>
      split at hs
      · next hc => simp only [Option.some.injEq] at hs; subst hs; exact h.rstep ((h.r _).bnd h.w hp hc)
      · simp at hs
    · simp at hs
  | probe r i =>
    simp only [RhsRead.step] at hs
    split at hs
    · next hp =>
      split at hs
      · next hc => simp only [Option.some.injEq] at hs; subst hs; exact h.rstep ((h.r _).last hp hc)
      · split at hs
        · next hc => simp only [Option.some.injEq] at hs; subst hs; exact h.rstep ((h.r _).probe h.w hp hc)
        · simp at hs
    · simp at hs
  | chk r i =>
    simp only [RhsRead.step, h3] at hs
    split at hs
    · next hp =>
      split at hs
      · next hc => simp only [Option.some.injEq] at hs; subst hs; exact h.rstep ((h.r _).chk h.w hp hc)
      · simp at hs
    · simp at hs
  | leave r =>
    simp only [RhsRead.step] at hs
    split at hs
    · next hp => simp only [Option.some.injEq] at hs; subst hs; exact h.rstep ((h.r _).th rfl (h.r _).wf (fun _ => Nat.le_refl _) trivial)
    · simp at hs

theorem inv {G : Geo K} {fc : Fences} (h1 : fc.sig = true) (h3 : fc.rd2 = true) {s : St K V n} (h : (sys G fc V n).Reach s) : Inv G fc s :=
  Sys.Reach.invariant (I := Inv G fc) (fun _ e => by cases e; exact Inv.init G fc) (fun _ _ _ hi hs => hi.step h1 h3 hs) h

/-! ## The property -/

/-- An object that a lookup returns was in the set since the last `sync` of the reader. -/
theorem get_some {G : Geo K} {s : St K V n} (h : (sys G real V n).Reach s) {r : Fin n} {k : K} {v : V} (hr : (s.rd r).pc = .ret k (some v)) :
    ∃ t, (s.rd r).b ≤ t ∧ t ≤ s.now ∧ s.hist t k = some v := by
  have := ((inv rfl rfl h).r r).pc
  rw [hr] at this
  exact this.2 v rfl

/-- If a lookup returns nothing, the key was not in the set at some time since the last `sync`, or it was moved.  Without "or it was moved" this is what a user relies on, and wrong
(`get_none_fails`, `get_none_bound_fails`, `get_none_index_fails`). -/
theorem get_none_partial {G : Geo K} {s : St K V n} (h : (sys G real V n).Reach s) {r : Fin n} {k : K} (hr : (s.rd r).pc = .ret k none) :
    (∃ t, (s.rd r).b ≤ t ∧ t ≤ s.now ∧ s.hist t k = none) ∨ (s.rd r).b < s.mvd k := by
  have := ((inv rfl rfl h).r r).pc
  rw [hr] at this
  refine Classical.byContradiction fun hn => this.1 rfl ⟨fun t h1 h2 h3 => hn (.inl ⟨t, h1, h2, h3⟩), .inr ?_⟩
  exact Nat.le_of_not_lt fun h1 => hn (.inr h1)

/-- With the two fences, also without that of line 1415, a lookup of a key for which reader and writer use the same counter returns what the set had for it at some time since the last `sync`. -/
theorem get_fixed {G : Geo K} {b : Bool} {s : St K V n} (h : (sys G { fixed with rd1 := b } V n).Reach s) {r : Fin n} {k : K} {res : Option V} (hk : G.gw k = G.gr k)
    (hr : (s.rd r).pc = .ret k res) : ∃ t, (s.rd r).b ≤ t ∧ t ≤ s.now ∧ s.hist t k = res := by
  have := ((inv rfl rfl h).r r).pc
  rw [hr] at this
  cases res with
  | some v => exact this.2 v rfl
  | none => exact Classical.byContradiction fun hn => this.1 rfl ⟨fun t h1 h2 h3 => hn ⟨t, h1, h2, h3⟩, .inl ⟨rfl, rfl, hk⟩⟩

/-- In a map of at least 1024 slots (the capacity is a power of two) this is so for all keys. -/
theorem get_large {ln cap : Nat} {hash : K → Nat} (hc : G ∣ cap) {b : Bool} {s : St K V n} (h : (sys (geo ln cap hash) { fixed with rd1 := b } V n).Reach s) {r : Fin n} {k : K} {res : Option V}
    (hr : (s.rd r).pc = .ret k res) : ∃ t, (s.rd r).b ≤ t ∧ t ≤ s.now ∧ s.hist t k = res :=
  get_fixed h (Nat.mod_mod_of_dvd _ hc) hr

/-- In a smaller map it is so only for keys without the hash bits in between. -/
theorem geo_agree {ln cap : Nat} {hash : K → Nat} {k : K} (hc : cap ∣ G) (h0 : 0 < cap) : (geo ln cap hash).gw k = (geo ln cap hash).gr k ↔ hash k % G < cap := by
  show hash k % cap % G = hash k % G ↔ _
  have h1 : hash k % cap % G = hash k % G % cap := by
    rw [Nat.mod_mod_of_dvd _ hc]
    exact Nat.mod_eq_of_lt (Nat.lt_of_lt_of_le (Nat.mod_lt _ h0) (Nat.le_of_dvd (by decide) hc))
  rw [h1]
  exact ⟨fun e => by rw [← e]; exact Nat.mod_lt _ h0, Nat.mod_eq_of_lt⟩

end Verif.Weak.RhsRead
