import Verif.Queue.Reader
import Verif.Weak.Lists
import Verif.Core.Tactic

/-!
# Lists with concurrent readers on relaxed memory: what a traversal sees (C87)

As in `Verif.Queue.Reader`, all cells seen in a section are ordered such that pointers lead forward and skip no element that stays.  Here this holds of all values of a
cell that a reader may still load; `lb` bounds them from below.
-/

namespace Verif.Weak.Lists

open Verif
open Fas (opt)
open _root_.Verif.Queue (Cell Path endC Before before_insert before_left before_right)

variable {N : Type} [DecidableEq N] {n : Nat}

/-! ## Order -/

/-- `vp c v`: a reader may find `v` in `c`; `alw w`: `w` stays in the list. -/
structure Ord (vp : Cell Unit N → Option N → Prop) (alw : N → Prop) (L : List (Cell Unit N)) : Prop where
  nd : L.Nodup
  hd : ∃ T, L = .head () :: T
  fwd : ∀ c ∈ L, ∀ z, vp c (some z) → Before L c (.next z)
  cov : ∀ c w v, Before L c (.next w) → alw w → vp c v → ∃ z, v = some z ∧ (z = w ∨ Before L (.next z) (.next w))

omit [DecidableEq N] in
theorem Ord.head_mem {vp : Cell Unit N → Option N → Prop} {alw : N → Prop} {L : List (Cell Unit N)} (o : Ord vp alw L) : .head () ∈ L := by
  obtain ⟨T, e⟩ := o.hd; rw [e]; simp

omit [DecidableEq N] in
theorem Ord.before_head {vp : Cell Unit N → Option N → Prop} {alw : N → Prop} {L : List (Cell Unit N)} (o : Ord vp alw L) {w : N} (h : .next w ∈ L) :
    Before L (.head ()) (.next w) := by
  obtain ⟨T, e⟩ := o.hd
  rw [e] at h ⊢
  exact ⟨[], T, rfl, by simpa using h⟩

omit [DecidableEq N] in
theorem Ord.mono {vp vp' : Cell Unit N → Option N → Prop} {alw alw' : N → Prop} {L : List (Cell Unit N)} (o : Ord vp alw L)
    (h1 : ∀ c v, c ∈ L → vp' c v → vp c v) (h2 : ∀ w, alw' w → alw w) : Ord vp' alw' L :=
  ⟨o.nd, o.hd, fun c hc z hz => o.fwd c hc z (h1 c _ hc hz), fun c w v hb hw hv => o.cov c w v hb (h2 w hw) (h1 c v hb.mem.1 hv)⟩

/-- `x` is inserted after `p`. -/
theorem Ord.ins {vp vp' : Cell Unit N → Option N → Prop} {alw alw' : N → Prop} {L : List (Cell Unit N)} (o : Ord vp alw L) {p : Cell Unit N} {x : N}
    {v0 : Option N} (hp : p ∈ L) (hx : .next x ∉ L) (hv : vp p v0) (ha : ∀ w, alw' w → alw w ∧ w ≠ x)
    (h1 : ∀ c v, c ∈ L → vp' c v → vp c v ∨ c = p ∧ v = some x) (h2 : ∀ v, vp' (.next x) v → v = v0) :
    ∃ L', Ord vp' alw' L' ∧ (∀ c, c ∈ L' ↔ c ∈ L ∨ c = .next x) ∧ ∀ y z, Before L y z → Before L' y z := by
  obtain ⟨C, D, rfl⟩ := List.append_of_mem hp
  have hxp : (.next x : Cell Unit N) ≠ p := by rintro rfl; exact hx (by simp)
  have e1 : C ++ p :: .next x :: D = (C ++ [p]) ++ .next x :: D := by simp
  have hnd : (C ++ p :: .next x :: D).Nodup := by
    rw [e1, List.nodup_middle, List.nodup_cons]
    exact ⟨by simpa using hx, by simpa using o.nd⟩
  have hmem : ∀ c, c ∈ C ++ p :: .next x :: D ↔ c ∈ C ++ p :: D ∨ c = .next x := by
    intro c; simp only [List.mem_append, List.mem_cons]; tauto
  have bef : ∀ y z, y ≠ .next x → z ≠ .next x → (Before (C ++ p :: .next x :: D) y z ↔ Before (C ++ p :: D) y z) :=
    fun y z hy hz => before_insert hnd hy hz
  have ne_of : ∀ {y : Cell Unit N}, y ∈ C ++ p :: D → y ≠ .next x := by rintro y hy rfl; exact hx hy
  have hpx : Before (C ++ p :: .next x :: D) p (.next x) := ⟨C, .next x :: D, rfl, by simp⟩
  have hfrom : ∀ c, Before (C ++ p :: .next x :: D) (.next x) c ↔ Before (C ++ p :: D) p c := by
    intro c
    rw [before_right o.nd]
    rw [e1] at hnd ⊢
    exact before_right hnd
  refine ⟨C ++ p :: .next x :: D, ⟨hnd, ?_, ?_, ?_⟩, hmem, fun y z hb => (bef y z (ne_of hb.mem.1) (ne_of hb.mem.2)).2 hb⟩
  · obtain ⟨T, e⟩ := o.hd
    cases C with
    | nil => simp only [List.nil_append, List.cons.injEq] at e; exact ⟨_, by rw [List.nil_append, e.1]⟩
    | cons a C => simp only [List.cons_append, List.cons.injEq] at e; exact ⟨_, by rw [List.cons_append, e.1]⟩
  · intro c hc z hz
    by_cases e' : c = .next x
    · subst e'
      obtain rfl := h2 _ hz
      exact (hfrom _).2 (o.fwd p hp z hv)
    · have hc' := ((hmem c).1 hc).resolve_right e'
      rcases h1 c _ hc' hz with h | ⟨rfl, h⟩
      · have := o.fwd c hc' z h
        exact (bef _ _ e' (ne_of this.mem.2)).2 this
      · cases h; exact hpx
  · intro c w v hb hw hv'
    obtain ⟨hw, hwx⟩ := ha w hw
    have ew' : (.next w : Cell Unit N) ≠ .next x := by simpa using hwx
    by_cases e' : c = .next x
    · subst e'
      obtain rfl := h2 _ hv'
      obtain ⟨z, hz1, hz2⟩ := o.cov p w _ ((hfrom _).1 hb) hw hv
      exact ⟨z, hz1, hz2.imp id fun hz2 => (bef _ _ (ne_of hz2.mem.1) ew').2 hz2⟩
    · have hc' := ((hmem c).1 hb.mem.1).resolve_right e'
      rcases h1 c _ hc' hv' with h | ⟨rfl, h⟩
      · obtain ⟨z, hz1, hz2⟩ := o.cov c w v ((bef _ _ e' ew').1 hb) hw h
        exact ⟨z, hz1, hz2.imp id fun hz2 => (bef _ _ (ne_of hz2.mem.1) ew').2 hz2⟩
      · exact ⟨x, h, .inr ((hfrom _).2 ((bef _ _ (Ne.symm hxp) ew').1 hb))⟩

omit [DecidableEq N] in
/-- `x` after `p` is removed. -/
theorem Ord.del {vp vp' : Cell Unit N → Option N → Prop} {alw alw' : N → Prop} {L : List (Cell Unit N)} (o : Ord vp alw L) {p : Cell Unit N} {x : N}
    {v0 : Option N} (hp : p ∈ L) (hv : vp p (some x)) (hv0 : vp (.next x) v0) (ha : ∀ w, alw' w → alw w ∧ w ≠ x)
    (h1 : ∀ c v, c ∈ L → vp' c v → vp c v ∨ c = p ∧ v = v0) : Ord vp' alw' L := by
  have hpx := o.fwd p hp x hv
  refine ⟨o.nd, o.hd, ?_, ?_⟩
  · intro c hc z hz
    rcases h1 c _ hc hz with h | ⟨rfl, rfl⟩
    · exact o.fwd c hc z h
    · exact hpx.trans o.nd (o.fwd _ hpx.mem.2 z hv0)
  · intro c w v hb hw hv'
    obtain ⟨hw, hwx⟩ := ha w hw
    rcases h1 c _ hb.mem.1 hv' with h | ⟨rfl, rfl⟩
    · exact o.cov c w v hb hw h
    · obtain ⟨z, hz1, hz2⟩ := o.cov c w _ hb hw hv
      cases hz1
      exact o.cov _ w _ (hz2.resolve_left (Ne.symm hwx)) hw hv0

/-! ## Invariant -/

/-- The values of `c` from `lb c` on. -/
def vp (m : Mem (Loc N) (Option N × Nat)) (lb : Cell Unit N → Nat) (c : Cell Unit N) (v : Option N) : Prop :=
  ∃ i, lb c ≤ i ∧ i ≤ m.top (.ptr c) ∧ (m.msg (.ptr c) i).val.1 = v

/-- `w` was in the list at all times since `b`. -/
def alw (s : St N n) (b : Nat) (w : N) : Prop := ∀ k, b ≤ k → k ≤ s.now → w ∈ s.hist k

/-- A reader that has a pointer to `z`, stored by someone who knew `V`, loads nothing too old from `z`. -/
def Kn (di : N → Nat) (cur : View (Loc N)) (lb : Cell Unit N → Nat) (V : View (Loc N)) (z : N) : Prop :=
  (lb (.next z) ≤ cur (.ptr (.next z)) ∨ lb (.next z) ≤ V (.ptr (.next z))) ∧ (di z ≤ cur (.dat z) ∨ di z ≤ V (.dat z))

omit [DecidableEq N] in
theorem Kn.mono {di : N → Nat} {cur cur' V V' : View (Loc N)} {lb : Cell Unit N → Nat} {z : N} (h : Kn di cur lb V z) (h1 : ∀ l, cur l ≤ cur' l)
    (h2 : ∀ l, V l ≤ V' l) : Kn di cur' lb V' z :=
  ⟨h.1.imp (fun h => Nat.le_trans h (h1 _)) fun h => Nat.le_trans h (h2 _), h.2.imp (fun h => Nat.le_trans h (h1 _)) fun h => Nat.le_trans h (h2 _)⟩

/-- A reader in a section. -/
structure RI (s : St N n) (q : Rd N) (L : List (Cell Unit N)) (lb : Cell Unit N → Nat) : Prop where
  ord : Ord (vp s.mem lb) (alw s q.b) L
  bn : q.b ≤ s.now
  ev : ∀ x, .next x ∈ L ↔ ∃ k, q.b ≤ k ∧ k ≤ s.now ∧ x ∈ s.hist k
  le : ∀ c ∈ L, lb c ≤ s.mem.top (.ptr c)
  hb : lb (.head ()) ≤ q.th.cur (.ptr (.head ()))
  kn : ∀ c ∈ L, ∀ i, lb c ≤ i → i ≤ s.mem.top (.ptr c) → ∀ z, (s.mem.msg (.ptr c) i).val.1 = some z →
    Kn s.di q.th.cur lb (s.mem.msg (.ptr c) i).view z
  kw : ∀ z, .next z ∈ L → Kn s.di q.th.cur lb s.w.rel z
  pk : ∀ x, q.pos = some (some x) → .next x ∈ L ∧ Kn s.di q.th.cur lb q.dv x
  vn : q.vis.Nodup
  vm : ∀ x ∈ q.vis, .next x ∈ L
  vo : ∀ x, q.pos = some (some x) → x ∈ q.vis ∧ (∀ y ∈ q.vis, y = x ∨ Before L (.next y) (.next x)) ∧
    ∀ w, alw s q.b w → w ∈ q.vis ∨ Before L (.next x) (.next w)
  ve : q.pos = some none → ∀ w, alw s q.b w → w ∈ q.vis

structure Inv (s : St N n) : Prop where
  path : Path (fun c => (s.mem.last (.ptr c)).1) (.head ()) (s.hist s.now)
  nodup : (s.hist s.now).Nodup
  wc : ∀ l, s.mem.top l ≤ s.w.cur l
  ww : ∀ l, s.mem.top l ≤ s.w.wr l
  dt : ∀ x, s.di x ≤ s.mem.top (.dat x)
  pb : ∀ c x, s.wpc = .pub c x → live (s.hist s.now) c ∧ x ∉ s.hist s.now ∧ ¬ s.used x ∧
    (s.mem.last (.ptr (.next x))).1 = (s.mem.last (.ptr c)).1 ∧
    ∀ l, l ≠ .ptr (.next x) → s.w.rel l ≤ (s.mem.msg (.ptr (.next x)) (s.mem.top (.ptr (.next x)))).view l
  rd : ∀ r, (s.rd r).on = true → ∃ L lb, RI s (s.rd r) L lb
  off : ∀ r, (s.rd r).on = false → (s.rd r).pos = none

/-! ## The list -/

theorem insAfter_eq {a x : N} {A B : List N} (h : a ∉ A) : insAfter a x (A ++ a :: B) = A ++ a :: x :: B := by
  induction A with
  | nil => simp [insAfter]
  | cons y A ih =>
    simp only [List.mem_cons, not_or] at h
    rw [List.cons_append, insAfter, if_neg (Ne.symm h.1), ih h.2]; rfl

/-- A cell of the list divides it. -/
theorem live_split {l : List N} {c : Cell Unit N} (h : live l c) (hn : l.Nodup) : ∃ A B, l = A ++ B ∧ c = endC (.head ()) A ∧
    ∀ x, insAt x l c = A ++ x :: B := by
  cases c with
  | head u => exact ⟨[], l, rfl, rfl, fun _ => rfl⟩
  | next a =>
    obtain ⟨A, B, rfl⟩ := List.append_of_mem h
    have ha : a ∉ A := fun h => (List.nodup_append.1 hn).2.2 a h a (by simp) rfl
    exact ⟨A ++ [a], B, by simp, by rw [Queue.endC_snoc], fun x => by simp only [insAt]; rw [insAfter_eq ha]; simp⟩

theorem live_mem {l : List N} {c : Cell Unit N} {vp : Cell Unit N → Option N → Prop} {P : N → Prop} {L : List (Cell Unit N)} (h : live l c) (o : Ord vp P L)
    (hl : ∀ x ∈ l, .next x ∈ L) : c ∈ L := by
  cases c with
  | head u => exact o.head_mem
  | next a => exact hl a h

theorem used_of {s : St N n} {r : Fin n} {x : N} (hr : (s.rd r).on = true) {L : List (Cell Unit N)} {lb : Cell Unit N → Nat} (h : RI s (s.rd r) L lb)
    (hx : .next x ∈ L) : s.used x := by
  obtain ⟨k, h1, h2, h3⟩ := (h.ev x).1 hx
  exact ⟨r, hr, k, h2, h1, h3⟩

/-! ## Steps -/

/-- Nothing happens that concerns reader `q`. -/
theorem RI.frame {s s' : St N n} {q : Rd N} {L : List (Cell Unit N)} {lb : Cell Unit N → Nat} (h : RI s q L lb)
    (hm : ∀ c ∈ L, s'.mem.top (.ptr c) = s.mem.top (.ptr c) ∧ ∀ i, i ≤ s.mem.top (.ptr c) → s'.mem.msg (.ptr c) i = s.mem.msg (.ptr c) i)
    (hw : ∀ l, s.w.rel l ≤ s'.w.rel l) (hn : s'.now = s.now) (hh : s'.hist = s.hist) (hd : s'.di = s.di) : RI s' q L lb := by
  have ha : ∀ w, alw s' q.b w ↔ alw s q.b w := fun w => by simp only [alw, hn, hh]
  obtain ⟨h1, h2, h3, h4, h5, h6, h7, h8, h9, h10, h11, h12⟩ := h
  refine ⟨h1.mono ?_ fun w => (ha w).1, hn ▸ h2, ?_, ?_, h5, ?_, ?_, ?_, h9, h10, ?_, ?_⟩
  · rintro c v hc ⟨i, k1, k2, k3⟩
    obtain ⟨e1, e2⟩ := hm c hc
    rw [e1] at k2
    rw [e2 i k2] at k3
    exact ⟨i, k1, k2, k3⟩
  · rw [hn, hh]; exact h3
  · intro c hc; rw [(hm c hc).1]; exact h4 c hc
  · intro c hc i k1 k2 z k3
    obtain ⟨e1, e2⟩ := hm c hc
    rw [e1] at k2
    rw [e2 i k2] at k3 ⊢
    rw [hd]
    exact h6 c hc i k1 k2 z k3
  · intro z hz; rw [hd]; exact (h7 z hz).mono (fun _ => Nat.le_refl _) hw
  · rw [hd]; exact h8
  · intro x hx
    obtain ⟨e1, e2, e3⟩ := h11 x hx
    exact ⟨e1, e2, fun w hw => e3 w ((ha w).1 hw)⟩
  · exact fun e w hw => h12 e w ((ha w).1 hw)

omit [DecidableEq N] in
/-- The reader knows more. -/
theorem RI.know {s : St N n} {q : Rd N} {t : Th (Loc N)} {L : List (Cell Unit N)} {lb : Cell Unit N → Nat} (h : RI s q L lb)
    (hc : ∀ l, q.th.cur l ≤ t.cur l) : RI s { q with th := t } L lb := by
  obtain ⟨h1, h2, h3, h4, h5, h6, h7, h8, h9, h10, h11, h12⟩ := h
  have hr : ∀ l, l ≤ l := fun l => Nat.le_refl l
  exact ⟨h1, h2, h3, h4, Nat.le_trans h5 (hc _), fun c e1 i e2 e3 z e4 => (h6 c e1 i e2 e3 z e4).mono hc fun _ => Nat.le_refl _,
    fun z hz => (h7 z hz).mono hc fun _ => Nat.le_refl _, fun x hx => ⟨(h8 x hx).1, (h8 x hx).2.mono hc fun _ => Nat.le_refl _⟩, h9, h10, h11, h12⟩

omit [DecidableEq N] in
theorem RI.alw_mem {s : St N n} {q : Rd N} {L : List (Cell Unit N)} {lb : Cell Unit N → Nat} (h : RI s q L lb) {w : N} (hw : alw s q.b w) :
    .next w ∈ L := (h.ev w).2 ⟨q.b, Nat.le_refl _, h.bn, hw _ (Nat.le_refl _) h.bn⟩

/-- The reader loads a pointer. -/
theorem RI.go {s : St N n} {q : Rd N} {L : List (Cell Unit N)} {lb : Cell Unit N → Nat} (h : RI s q L lb) {c : Cell Unit N} {i : Nat} {vs : List N}
    (hc : c ∈ L) (hl : lb c ≤ i) (hi : i ≤ s.mem.top (.ptr c)) (hn : vs.Nodup) (hm : ∀ x ∈ vs, .next x ∈ L)
    (hb : ∀ y ∈ vs, .next y = c ∨ Before L (.next y) c) (ha : ∀ w, alw s q.b w → w ∈ vs ∨ Before L c (.next w)) :
    RI s (q.go s.mem c i vs) L lb := by
  obtain ⟨h1, h2, h3, h4, h5, h6, h7, h8, h9, h10, h11, h12⟩ := h
  have hcur : ∀ l, q.th.cur l ≤ (q.th.load s.mem (.ptr c) i).cur l := Th.load_cur_le _ _ _ _
  have hk := h6 c hc i hl hi
  have hv : vp s.mem lb c (s.mem.msg (.ptr c) i).val.1 := ⟨i, hl, hi, rfl⟩
  simp only [Rd.go]
  generalize (s.mem.msg (.ptr c) i).val.1 = v at *
  have hxL : ∀ x, v = some x → Before L c (.next x) := fun x e => h1.fwd c hc x (e ▸ hv)
  refine ⟨h1, h2, h3, h4, Nat.le_trans h5 (hcur _), fun c e1 i e2 e3 z e4 => (h6 c e1 i e2 e3 z e4).mono hcur fun _ => Nat.le_refl _,
    fun z hz => (h7 z hz).mono hcur fun _ => Nat.le_refl _, ?_, ?_, ?_, ?_, ?_⟩
  · intro x hx
    simp only [Option.some.injEq] at hx
    exact ⟨(hxL x hx).mem.2, (hk x hx).mono hcur fun _ => Nat.le_refl _⟩
  · cases v with
    | none => simpa using hn
    | some x =>
      have hx := hxL x rfl
      simp only [Option.toList_some]
      refine List.nodup_append.2 ⟨hn, by simp, ?_⟩
      rintro a hya b hb' rfl
      simp only [List.mem_singleton] at hb'
      subst hb'
      rcases hb a hya with e | e
      · rw [← e] at hx; exact hx.irrefl h1.nd
      · exact (e.trans h1.nd hx).irrefl h1.nd
  · intro x hx
    simp only [List.mem_append, Option.mem_toList] at hx
    rcases hx with hx | hx
    · exact hm x hx
    · exact (hxL x hx).mem.2
  · intro x hx
    simp only [Option.some.injEq] at hx
    subst hx
    have hx := hxL x rfl
    refine ⟨by simp, fun y hy => ?_, fun w hw => ?_⟩
    · simp only [Option.toList_some, List.mem_append, List.mem_singleton] at hy
      rcases hy with hy | hy
      · right
        rcases hb y hy with e | e
        · rw [e]; exact hx
        · exact e.trans h1.nd hx
      · exact .inl hy
    · rcases ha w hw with e | e
      · exact .inl (by simp [e])
      · obtain ⟨z, k1, k2⟩ := h1.cov c w _ e hw hv
        cases k1
        rcases k2 with rfl | k2
        · exact .inl (by simp)
        · exact .inr k2
  · intro e w hw
    simp only [Option.some.injEq] at e
    subst e
    rcases ha w hw with e | e
    · simpa using e
    · obtain ⟨z, k1, k2⟩ := h1.cov c w _ e hw hv
      cases k1

/-- Ghost time advances. -/
theorem alw_succ {s s' : St N n} {b : Nat} {w : N} {l : List N} (hb : b ≤ s.now) (hn : s'.now = s.now + 1) (hh : s'.hist = upd s.hist (s.now + 1) l)
    (h : alw s' b w) : alw s b w ∧ w ∈ l := by
  constructor
  · intro k h1 h2
    have := h k h1 (by omega)
    rwa [hh, upd_ne _ _ (by omega)] at this
  · have := h (s.now + 1) (by omega) (by omega)
    rwa [hh, upd_same] at this

theorem ev_succ {s s' : St N n} {b : Nat} {x : N} {l : List N} (hb : b ≤ s.now) (hn : s'.now = s.now + 1) (hh : s'.hist = upd s.hist (s.now + 1) l) :
    (∃ k, b ≤ k ∧ k ≤ s'.now ∧ x ∈ s'.hist k) ↔ (∃ k, b ≤ k ∧ k ≤ s.now ∧ x ∈ s.hist k) ∨ x ∈ l := by
  rw [hn, hh]
  constructor
  · rintro ⟨k, h1, h2, h3⟩
    by_cases e : k = s.now + 1
    · subst e; rw [upd_same] at h3; exact .inr h3
    · rw [upd_ne _ _ e] at h3; exact .inl ⟨k, h1, by omega, h3⟩
  · rintro (⟨k, h1, h2, h3⟩ | h)
    · exact ⟨k, h1, by omega, by rwa [upd_ne _ _ (by omega)]⟩
    · exact ⟨s.now + 1, by omega, Nat.le_refl _, by rwa [upd_same]⟩

/-- The writer sets cell `c` of the list to `v`. -/
theorem put_facts {m m' : Mem (Loc N) (Option N × Nat)} {c : Cell Unit N} {v : Option N × Nat} {V : View (Loc N)} (hm : Put m m' (.ptr c) v V) :
    (m'.top (.ptr c) = m.top (.ptr c) + 1) ∧ (∀ d, d ≠ c → m'.top (.ptr d) = m.top (.ptr d)) ∧ (∀ x, m'.top (.dat x) = m.top (.dat x)) ∧
    (fun d => (m'.last (.ptr d)).1) = upd (fun d => (m.last (.ptr d)).1) c v.1 := by
  refine ⟨by rw [hm.top, if_pos rfl], fun d hd => hm.top_ne (by simpa using hd), fun x => hm.top_ne (by simp), ?_⟩
  funext d
  rw [hm.last, upd_apply]
  by_cases e : d = c <;> simp [e]

/-- What a reader may find after a store of `v` to `p`. -/
theorem vp_put {m m' : Mem (Loc N) (Option N × Nat)} {p : Cell Unit N} {v : Option N × Nat} {V : View (Loc N)} (hm : Put m m' (.ptr p) v V)
    {lb : Cell Unit N → Nat} {c : Cell Unit N} {u : Option N} (h : vp m' lb c u) : vp m lb c u ∨ c = p ∧ u = v.1 := by
  obtain ⟨i, h1, h2, h3⟩ := h
  by_cases e : i ≤ m.top (.ptr c)
  · rw [hm.old _ _ e] at h3; exact .inl ⟨i, h1, e, h3⟩
  · right
    rw [hm.top] at h2
    split at h2
    · next e' =>
      obtain rfl : c = p := by simpa using e'
      obtain rfl : i = m.top (.ptr c) + 1 := by omega
      rw [hm.new] at h3
      exact ⟨rfl, h3.symm⟩
    · omega

theorem RI.pub {s s' : St N n} {q : Rd N} {L : List (Cell Unit N)} {lb : Cell Unit N → Nat} (h : RI s q L lb) {p : Cell Unit N} {x : N} {V : View (Loc N)} {y : Nat}
    (hm : Put s.mem s'.mem (.ptr p) (some x, y) V) (hp : p ∈ L) (hx : .next x ∉ L) (hpx : p ≠ .next x)
    (hv : (s.mem.last (.ptr (.next x))).1 = (s.mem.last (.ptr p)).1)
    (hw' : ∀ l, l ≠ .ptr (.next x) → s.w.rel l ≤ (s.mem.msg (.ptr (.next x)) (s.mem.top (.ptr (.next x)))).view l)
    (hr : ∀ l, s.w.rel l ≤ s'.w.rel l) (hrx : s.mem.top (.ptr (.next x)) ≤ s'.w.rel (.ptr (.next x)) ∧ s.mem.top (.dat x) ≤ s'.w.rel (.dat x))
    (hV : ∀ l, l ≠ .ptr p → V l = s'.w.rel l) (hn : s'.now = s.now + 1) (hh : ∃ l, s'.hist = upd s.hist (s.now + 1) l ∧ ∀ z, z ∈ l ↔ z ∈ s.hist s.now ∨ z = x)
    (hd : s'.di = upd s.di x (s.mem.top (.dat x))) : ∃ L', RI s' q L' (upd lb (.next x) (s.mem.top (.ptr (.next x)))) := by
  obtain ⟨l, hh, hl⟩ := hh
  obtain ⟨t1, t2, t3, -⟩ := put_facts hm
  have hal : ∀ w, alw s' q.b w → alw s q.b w ∧ w ≠ x := fun w hw => by
    have := (alw_succ h.bn hn hh hw).1
    exact ⟨this, fun e => hx (by rw [← e]; exact h.alw_mem this)⟩
  have hlb : ∀ c ∈ L, upd lb (.next x) (s.mem.top (.ptr (.next x))) c = lb c := fun c hc => upd_ne _ _ (by rintro rfl; exact hx hc)
  have hdi : ∀ z, .next z ∈ L → s'.di z = s.di z := fun z hz => by rw [hd, upd_ne]; rintro rfl; exact hx hz
  have hKn : ∀ V z, .next z ∈ L → Kn s.di q.th.cur lb V z → Kn s'.di q.th.cur (upd lb (.next x) (s.mem.top (.ptr (.next x)))) V z := by
    intro V z hz hk
    unfold Kn
    rw [hlb _ hz, hdi z hz]
    exact hk
  have hcur : vp s.mem lb p (s.mem.last (.ptr p)).1 := ⟨_, h.le p hp, Nat.le_refl _, rfl⟩
  obtain ⟨L', o, hL, hB⟩ := h.ord.ins (vp' := vp s'.mem (upd lb (.next x) (s.mem.top (.ptr (.next x))))) (alw' := alw s' q.b) hp hx hcur hal
    (by
      intro c v hc hv
      refine vp_put hm ?_
      obtain ⟨i, h1, h2⟩ := hv
      rw [hlb c hc] at h1
      exact ⟨i, h1, h2⟩)
    (by
      rintro v ⟨i, h1, h2, h3⟩
      rw [upd_same] at h1
      rw [t2 _ (Ne.symm hpx)] at h2
      obtain rfl : i = s.mem.top (.ptr (.next x)) := by omega
      rw [hm.old _ _ (Nat.le_refl _)] at h3
      rw [← h3, ← hv]; rfl)
  have hzL : ∀ z, .next z ∈ L' → z ≠ x → .next z ∈ L := fun z hz e => ((hL _).1 hz).resolve_right (by simpa using e)
  have hKx : ∀ V, s.mem.top (.ptr (.next x)) ≤ V (.ptr (.next x)) → s.mem.top (.dat x) ≤ V (.dat x) →
      Kn s'.di q.th.cur (upd lb (.next x) (s.mem.top (.ptr (.next x)))) V x := by
    intro V h1 h2
    unfold Kn
    rw [upd_same, hd, upd_same]
    exact ⟨.inr h1, .inr h2⟩
  refine ⟨L', o, by have := h.bn; omega, ?_, ?_, ?_, ?_, ?_, ?_, h.vn, fun x hx => (hL _).2 (.inl (h.vm x hx)), ?_, ?_⟩
  · intro z
    rw [hL, ev_succ h.bn hn hh, h.ev, hl]
    simp only [Cell.next.injEq]
    constructor
    · rintro (e | e)
      · exact .inl e
      · exact .inr (.inr e)
    · rintro (e | e | e)
      · exact .inl e
      · exact .inl ⟨s.now, h.bn, Nat.le_refl _, e⟩
      · exact .inr e
  · intro c hc
    rcases (hL c).1 hc with hc | rfl
    · rw [hlb c hc]; exact Nat.le_trans (h.le c hc) (hm.top_le _)
    · rw [upd_same]; exact hm.top_le _
  · rw [upd_ne _ _ (by simp)]; exact h.hb
  · intro c hc i h1 h2 z h3
    rcases (hL c).1 hc with hc | rfl
    · rw [hlb c hc] at h1
      by_cases e : i ≤ s.mem.top (.ptr c)
      · rw [hm.old _ _ e] at h3 ⊢
        exact hKn _ _ (h.ord.fwd c hc z ⟨i, h1, e, h3⟩).mem.2 (h.kn c hc i h1 e z h3)
      · rw [hm.top] at h2
        split at h2
        · next e' =>
          obtain rfl : c = p := by simpa using e'
          obtain rfl : i = s.mem.top (.ptr c) + 1 := by omega
          rw [hm.new] at h3 ⊢
          cases h3
          exact hKx V (by rw [hV _ (by simpa using Ne.symm hpx)]; exact hrx.1) (by rw [hV _ (by simp)]; exact hrx.2)
        · omega
    · rw [upd_same] at h1
      rw [t2 _ (Ne.symm hpx)] at h2
      obtain rfl : i = s.mem.top (.ptr (.next x)) := by omega
      rw [hm.old _ _ (Nat.le_refl _)] at h3 ⊢
      have h3' : (s.mem.last (.ptr p)).1 = some z := by rw [← hv]; exact h3
      have hz := (h.ord.fwd p hp z (h3' ▸ hcur)).mem.2
      have hzx : z ≠ x := fun e => hx (e ▸ hz)
      refine hKn _ _ hz ?_
      have := h.kw z hz
      refine ⟨this.1.imp id fun e => Nat.le_trans e (hw' _ (by simpa using hzx)), this.2.imp id fun e => Nat.le_trans e (hw' _ (by simp))⟩
  · intro z hz
    by_cases e : z = x
    · subst e; exact hKx _ hrx.1 hrx.2
    · exact hKn _ _ (hzL z hz e) ((h.kw z (hzL z hz e)).mono (fun _ => Nat.le_refl _) hr)
  · intro z hz
    obtain ⟨e1, e2⟩ := h.pk z hz
    exact ⟨(hL _).2 (.inl e1), hKn _ _ e1 e2⟩
  · intro z hz
    obtain ⟨e1, e2, e3⟩ := h.vo z hz
    exact ⟨e1, fun y hy => (e2 y hy).imp id (hB _ _), fun w hw => (e3 w (hal w hw).1).imp id (hB _ _)⟩
  · exact fun e w hw => h.ve e w (hal w hw).1

theorem RI.del {s s' : St N n} {q : Rd N} {L : List (Cell Unit N)} {lb : Cell Unit N → Nat} (h : RI s q L lb) {p : Cell Unit N} {x : N} {V : View (Loc N)}
    (hm : Put s.mem s'.mem (.ptr p) (s.mem.last (.ptr (.next x))) V) (hp : p ∈ L) (hx : (s.mem.last (.ptr p)).1 = some x)
    (hr : ∀ l, s.w.rel l ≤ s'.w.rel l) (hV : V (.ptr p) = s.mem.top (.ptr p) + 1 ∧ ∀ l, l ≠ .ptr p → s.w.rel l ≤ V l) (hn : s'.now = s.now + 1)
    (hh : ∃ l, s'.hist = upd s.hist (s.now + 1) l ∧ x ∉ l ∧ ∀ z ∈ l, z ∈ s.hist s.now)
    (hd : s'.di = s.di) : RI s' q L lb := by
  obtain ⟨l, hh, hxl, hl⟩ := hh
  obtain ⟨t1, t2, t3, -⟩ := put_facts hm
  have hal : ∀ w, alw s' q.b w → alw s q.b w ∧ w ≠ x := fun w hw => by
    have := alw_succ h.bn hn hh hw
    exact ⟨this.1, fun e => hxl (e ▸ this.2)⟩
  have hcur : vp s.mem lb p (some x) := ⟨_, h.le p hp, Nat.le_refl _, hx⟩
  have hxL := (h.ord.fwd p hp x hcur).mem.2
  have hnx : vp s.mem lb (.next x) (s.mem.last (.ptr (.next x))).1 := ⟨_, h.le _ hxL, Nat.le_refl _, rfl⟩
  refine ⟨h.ord.del hp hcur hnx hal fun c v _ hv => vp_put hm hv, by have := h.bn; omega, ?_, fun c hc => Nat.le_trans (h.le c hc) (hm.top_le _), h.hb, ?_, ?_, ?_, h.vn, h.vm, ?_, ?_⟩
  · intro z
    rw [ev_succ h.bn hn hh, h.ev]
    exact ⟨.inl, fun e => e.elim id fun e => ⟨s.now, h.bn, Nat.le_refl _, hl z e⟩⟩
  · intro c hc i h1 h2 z h3
    rw [hd]
    by_cases e : i ≤ s.mem.top (.ptr c)
    · rw [hm.old _ _ e] at h3 ⊢
      exact h.kn c hc i h1 e z h3
    · rw [hm.top] at h2
      split at h2
      · next e' =>
        obtain rfl : c = p := by simpa using e'
        obtain rfl : i = s.mem.top (.ptr c) + 1 := by omega
        rw [hm.new] at h3 ⊢
        have hz := (h.ord.fwd _ hxL z (h3 ▸ hnx)).mem.2
        have hk := h.kw z hz
        refine ⟨?_, hk.2.imp id fun e => Nat.le_trans e (hV.2 _ (by simp))⟩
        by_cases ez : .next z = c
        · right
          have := h.le _ hz
          rw [ez] at this ⊢
          simp only [hV.1]; omega
        · exact hk.1.imp id fun e => Nat.le_trans e (hV.2 _ (by simpa using ez))
      · omega
  · rw [hd]; exact fun z hz => (h.kw z hz).mono (fun _ => Nat.le_refl _) hr
  · rw [hd]; exact h.pk
  · intro z hz
    obtain ⟨e1, e2, e3⟩ := h.vo z hz
    exact ⟨e1, e2, fun w hw => e3 w (hal w hw).1⟩
  · exact fun e w hw => h.ve e w (hal w hw).1

/-- A section begins. -/
theorem RI.begin {s : St N n} (hi : Inv s) {q : Rd N} (hq : q.pos = none ∧ q.vis = [] ∧ q.b = s.now) (hc : ∀ l, s.mem.top l ≤ q.th.cur l) :
    RI s q (.head () :: (s.hist s.now).map .next) fun c => s.mem.top (.ptr c) := by
  obtain ⟨q1, q2, q3⟩ := hq
  have o := Queue.ord_init (m := { ptr := fun c => (s.mem.last (.ptr c)).1, last := fun _ => .head (), prev := fun _ => .head () }) hi.path hi.nodup
  have hv : ∀ c v, vp s.mem (fun c => s.mem.top (.ptr c)) c v → v = (s.mem.last (.ptr c)).1 := by
    rintro c v ⟨i, h1, h2, h3⟩
    obtain rfl : i = s.mem.top (.ptr c) := Nat.le_antisymm h2 h1
    exact h3.symm
  have hk : ∀ V z, Kn s.di q.th.cur (fun c => s.mem.top (.ptr c)) V z := fun V z => ⟨.inl (hc _), .inl (Nat.le_trans (hi.dt z) (hc _))⟩
  refine ⟨⟨o.nodup, o.head, fun c hc' z hz => o.fwd c hc' z (hv c _ hz).symm, ?_⟩, by omega, ?_, fun _ _ => Nat.le_refl _, hc _, fun _ _ _ _ _ _ _ => hk _ _,
    fun _ _ => hk _ _, by rw [q1]; nofun, by rw [q2]; simp, by rw [q2]; nofun, by rw [q1]; nofun, by rw [q1]; nofun⟩
  · intro c w v hb hw hv'
    obtain ⟨z, h1, h2⟩ := o.cov c w hb (hw s.now (by omega) (Nat.le_refl _))
    exact ⟨z, (hv c v hv').trans h1, h2⟩
  · intro x
    simp only [List.mem_cons, reduceCtorEq, List.mem_map, Cell.next.injEq, exists_eq_right, false_or]
    constructor
    · exact fun h => ⟨s.now, by omega, Nat.le_refl _, h⟩
    · rintro ⟨k, h1, h2, h3⟩
      obtain rfl : k = s.now := by omega
      exact h3

/-! ## Every reachable state -/

omit [DecidableEq N] in
theorem inv_init : Inv (initSt : St N n) := by
  refine ⟨rfl, by simp [initSt], fun _ => Nat.le_refl _, fun _ => Nat.le_refl _, fun _ => Nat.le_refl _, nofun, nofun, fun _ _ => rfl⟩

/-- The reader steps. -/
theorem Inv.reader {s : St N n} (hi : Inv s) {r : Fin n} {q : Rd N} (h1 : q.on = true → ∃ L lb, RI s q L lb) (h2 : q.on = false → q.pos = none)
    (hu : q.on = true → ((s.rd r).on = true ∧ q.b = (s.rd r).b) ∨ q.b = s.now) : Inv { s with rd := upd s.rd r q } := by
  obtain ⟨a1, a2, a3, a4, a5, a6, a7, a8⟩ := hi
  refine ⟨a1, a2, a3, a4, a5, ?_, ?_, ?_⟩
  · intro c x hp
    obtain ⟨e1, e2, e3, e4⟩ := a6 c x hp
    refine ⟨e1, e2, ?_, e4⟩
    rintro ⟨u, k1, k, k2, k3, k4⟩
    simp only [upd_apply] at k1 k3
    split at k1
    · next e =>
      subst e
      rw [if_pos rfl] at k3
      rcases hu k1 with ⟨e5, e6⟩ | e5
      · exact e3 ⟨u, e5, k, k2, by rw [← e6]; exact k3, k4⟩
      · have : k = s.now := Nat.le_antisymm k2 (e5 ▸ k3)
        subst this
        exact e2 k4
    · next e => rw [if_neg e] at k3; exact e3 ⟨u, k1, k, k2, k3, k4⟩
  · intro u hu
    simp only [upd_apply] at hu ⊢
    split at hu
    · next e =>
      rw [if_pos e]
      obtain ⟨L, lb, h⟩ := h1 hu
      exact ⟨L, lb, h.frame (fun _ _ => ⟨rfl, fun _ _ => rfl⟩) (fun _ => Nat.le_refl _) rfl rfl rfl⟩
    · next e =>
      rw [if_neg e]
      obtain ⟨L, lb, h⟩ := a7 u hu
      exact ⟨L, lb, h.frame (fun _ _ => ⟨rfl, fun _ _ => rfl⟩) (fun _ => Nat.le_refl _) rfl rfl rfl⟩
  · intro u hu
    simp only [upd_apply] at hu ⊢
    split at hu
    · next e => rw [if_pos e]; exact h2 hu
    · next e => rw [if_neg e]; exact a8 u hu

theorem Inv.live_mem {s : St N n} {q : Rd N} {L : List (Cell Unit N)} {lb : Cell Unit N → Nat} (h : RI s q L lb) {c : Cell Unit N}
    (hc : live (s.hist s.now) c) : c ∈ L :=
  Lists.live_mem hc h.ord fun x hx => (h.ev x).2 ⟨s.now, h.bn, Nat.le_refl _, hx⟩

theorem store_mono (q : Th (Loc N)) (m m' : Mem (Loc N) (Option N × Nat)) {l : Loc N} {v : Option N × Nat} {V : View (Loc N)} (hm : Put m m' l v V) {y : Loc N} :
    (m.top y ≤ q.cur y → m'.top y ≤ (q.store m l).cur y) ∧ (m.top y ≤ q.wr y → m'.top y ≤ (q.store m l).wr y) := by
  rw [hm.top]
  simp only [Th.store, upd_apply]
  split
  · exact ⟨fun _ => Nat.le_refl _, fun _ => Nat.le_refl _⟩
  · exact ⟨id, id⟩

theorem Inv.fill {s s' : St N n} (hi : Inv s) {x : N} {v : Nat} (hs : step true true s (.fill x v) = some s') : Inv s' := by
  simp only [step] at hs
  split at hs <;> simp only [Option.some.injEq, reduceCtorEq] at hs
  next hp =>
  subst hs
  have hm := Put.store s.mem s.w (.dat x) (none, v)
  have ht : ∀ c, (s.mem.store s.w (.dat x) (none, v)).top (.ptr c) = s.mem.top (.ptr c) := fun c => hm.top_ne (by simp)
  have hl : ∀ c, (s.mem.store s.w (.dat x) (none, v)).last (.ptr c) = s.mem.last (.ptr c) := fun c => by rw [hm.last, if_neg (by simp)]
  obtain ⟨a1, a2, a3, a4, a5, a6, a7, a8⟩ := hi
  refine ⟨by simpa only [hl] using a1, a2, fun l => (store_mono s.w _ _ hm).1 (a3 l), fun l => (store_mono s.w _ _ hm).2 (a4 l),
    fun y => Nat.le_trans (a5 y) (hm.top_le _), fun c y h => (by rw [hp] at h; cases h), fun r hr => ?_, a8⟩
  obtain ⟨L, lb, h⟩ := a7 r hr
  exact ⟨L, lb, h.frame (fun c _ => ⟨ht c, fun i hi => hm.old _ _ hi⟩) (fun _ => Nat.le_refl _) rfl rfl rfl⟩

theorem Inv.ins {s s' : St N n} (hi : Inv s) {c : Cell Unit N} {x : N} (hs : step true true s (.ins c x) = some s') : Inv s' := by
  simp only [step] at hs
  split at hs <;> simp only [Option.some.injEq, reduceCtorEq] at hs
  next hp =>
  obtain ⟨hp, hc, hx, hu⟩ := hp
  subst hs
  have hm := Put.store s.mem s.w (.ptr (.next x)) (s.mem.last (.ptr c))
  obtain ⟨t1, t2, t3, t4⟩ := put_facts hm
  have hcx : c ≠ .next x := by rintro rfl; exact hx hc
  obtain ⟨a1, a2, a3, a4, a5, a6, a7, a8⟩ := hi
  refine ⟨?_, a2, fun l => (store_mono s.w _ _ hm).1 (a3 l), fun l => (store_mono s.w _ _ hm).2 (a4 l), fun y => Nat.le_trans (a5 y) (hm.top_le _), ?_, fun r hr => ?_, a8⟩
  · simp only [t4]
    exact (Queue.path_private hx).2 a1
  · intro d y h
    simp only [WPC.pub.injEq] at h
    obtain ⟨rfl, rfl⟩ := h
    refine ⟨hc, hx, hu, ?_, fun l hl => ?_⟩
    · rw [hm.last, if_pos rfl, hm.last, if_neg (by simpa using hcx)]
    · rw [hm.msg_at]
      simp only [upd_ne _ _ hl, Th.store]
      exact Nat.le_refl _
  · obtain ⟨L, lb, h⟩ := a7 r hr
    have hxL : .next x ∉ L := fun e => hu (used_of hr h e)
    exact ⟨L, lb, h.frame (fun d hd => ⟨t2 d (by rintro rfl; exact hxL hd), fun i hi => hm.old _ _ hi⟩) (fun _ => Nat.le_refl _) rfl rfl rfl⟩

theorem Inv.pub {s s' : St N n} (hi : Inv s) (hs : step true true s .pub = some s') : Inv s' := by
  cases hp : s.wpc <;> simp only [step, hp, reduceCtorEq, Option.some.injEq] at hs
  next c x =>
  subst hs
  obtain ⟨a1, a2, a3, a4, a5, a6, a7, a8⟩ := hi
  obtain ⟨hc, hx, hu, hv, hw⟩ := a6 c x hp
  have hcx : c ≠ .next x := by rintro rfl; exact hx hc
  generalize hq : opt true Th.fenceStore s.w = q
  have hq : q = s.w.fenceStore := by rw [← hq]; rfl
  have hqc : q.cur = s.w.cur ∧ q.wr = s.w.wr := by rw [hq]; exact ⟨rfl, rfl⟩
  have hm := Put.store s.mem q (.ptr c) (some x, 0)
  obtain ⟨t1, t2, t3, t4⟩ := put_facts hm
  obtain ⟨A, B, e1, e2, e3⟩ := live_split hc a2
  rw [e3 x]
  have hxA : x ∉ A ++ B := e1 ▸ hx
  have hn : (A ++ x :: B).Nodup := Queue.nodup_insert (e1 ▸ a2) hxA
  refine ⟨?_, ?_, fun l => (store_mono q _ _ hm).1 (hqc.1 ▸ a3 l), fun l => (store_mono q _ _ hm).2 (hqc.2 ▸ a4 l), ?_, nofun, fun r hr => ?_, a8⟩
  · simp only [upd_same, t4]
    rw [e2]
    refine Queue.path_insert (e1 ▸ a1) (e1 ▸ a2) hxA ?_
    rw [← e2]
    funext d
    rw [upd_apply]
    split
    · next e => subst e; exact hv
    · rfl
  · simp only [upd_same]; exact hn
  · intro y
    simp only [upd_apply, t3]
    split
    · next e => subst e; exact Nat.le_refl _
    · exact a5 y
  · obtain ⟨L, lb, h⟩ := a7 r hr
    have hxL : .next x ∉ L := fun e => hu (used_of hr h e)
    have hrel : ∀ l, s.w.rel l ≤ q.rel l := fun l => by rw [hq]; exact le_join_left _ _ _
    have hwr : ∀ l, s.mem.top l ≤ q.rel l := fun l => by rw [hq]; exact Nat.le_trans (a4 l) (le_join_right _ _ _)
    obtain ⟨L', h'⟩ := h.pub (s' := { s with mem := s.mem.store q (.ptr c) (some x, 0), w := q.store s.mem (.ptr c), wpc := .idle, now := s.now + 1, hist := upd s.hist (s.now + 1) (A ++ x :: B), di := upd s.di x (s.mem.top (.dat x)) })
      hm (Inv.live_mem h hc) hxL hcx hv hw hrel ⟨hwr _, hwr _⟩ (fun l hl => by simp only [upd_ne _ _ hl, Th.store]) rfl
      ⟨_, rfl, fun z => by rw [e1]; simp only [List.mem_append, List.mem_cons]; tauto⟩ rfl
    exact ⟨L', _, h'⟩

theorem Inv.del {s s' : St N n} (hi : Inv s) {c : Cell Unit N} (hs : step true true s (.del c) = some s') : Inv s' := by
  simp only [step] at hs
  split at hs
  case isFalse => cases hs
  next hp =>
  obtain ⟨hp, hc⟩ := hp
  split at hs <;> simp only [Option.some.injEq, reduceCtorEq] at hs
  next x hx =>
  subst hs
  obtain ⟨a1, a2, a3, a4, a5, a6, a7, a8⟩ := hi
  obtain ⟨A, B, e1, e2, -⟩ := live_split hc a2
  have hm := Put.store s.mem s.w (.ptr c) (s.mem.last (.ptr (.next x)))
  obtain ⟨t1, t2, t3, t4⟩ := put_facts hm
  -- `x` is the first of `B`
  obtain ⟨B', rfl⟩ : ∃ B', B = x :: B' := by
    have h := (Queue.path_append.1 (e1 ▸ a1)).2
    rw [← e2] at h
    cases B with
    | nil => rw [show (s.mem.last (.ptr c)).1 = none from h] at hx; cases hx
    | cons y B => have := h.1; simp only [hx, Option.some.injEq] at this; exact ⟨B, by rw [this]⟩
  have hn := e1 ▸ a2
  have hxA : x ∉ A := fun h => (List.nodup_append.1 hn).2.2 x h x (by simp) rfl
  have he : (s.hist s.now).erase x = A ++ B' := by rw [e1, List.erase_append_right _ hxA, List.erase_cons_head]
  have hn' : x ∉ A ++ B' ∧ (A ++ B').Nodup := by rw [List.nodup_middle, List.nodup_cons] at hn; exact hn
  rw [he]
  refine ⟨?_, ?_, fun l => (store_mono s.w _ _ hm).1 (a3 l), fun l => (store_mono s.w _ _ hm).2 (a4 l), fun y => by rw [t3]; exact a5 y,
    fun d y h => (by rw [hp] at h; cases h), fun r hr => ?_, a8⟩
  · simp only [upd_same, t4]
    rw [e2]
    exact Queue.path_remove (e1 ▸ a1) hn
  · simp only [upd_same]; exact hn'.2
  · obtain ⟨L, lb, h⟩ := a7 r hr
    exact ⟨L, lb, h.del hm (Inv.live_mem h hc) hx (fun _ => Nat.le_refl _) ⟨upd_same _ _ _, fun l hl => by rw [upd_ne _ _ hl]; exact Nat.le_refl _⟩ rfl
      ⟨_, rfl, hn'.1, fun z hz => by rw [e1]; simp only [List.mem_append, List.mem_cons] at hz ⊢; tauto⟩ rfl⟩

theorem Inv.step {s s' : St N n} (hi : Inv s) {a : Act N n} (hs : step true true s a = some s') : Inv s' := by
  cases a with
  | fill x v => exact hi.fill hs
  | ins c x => exact hi.ins hs
  | pub => exact hi.pub hs
  | del c => exact hi.del hs
  | begin r =>
    simp only [Lists.step] at hs
    split at hs <;> simp only [Option.some.injEq, reduceCtorEq] at hs
    subst hs
    exact hi.reader (fun _ => ⟨_, _, RI.begin hi ⟨rfl, rfl, rfl⟩ fun l => Nat.le_trans (hi.wc l) (le_join_right _ _ _)⟩) nofun fun _ => .inr rfl
  | leave r =>
    simp only [Lists.step] at hs
    split at hs <;> simp only [Option.some.injEq, reduceCtorEq] at hs
    subst hs
    exact hi.reader nofun (fun _ => rfl) nofun
  | learn r l i =>
    simp only [Lists.step] at hs
    split at hs <;> simp only [Option.some.injEq, reduceCtorEq] at hs
    subst hs
    refine hi.reader (fun h => ?_) (fun h => hi.off r h) fun h => .inl ⟨h, rfl⟩
    obtain ⟨L, lb, hr⟩ := hi.rd r h
    exact ⟨L, lb, hr.know fun l => le_join_left _ _ _⟩
  | first r i =>
    simp only [Lists.step] at hs
    split at hs <;> simp only [Option.some.injEq, reduceCtorEq] at hs
    next hp =>
    subst hs
    obtain ⟨h1, h2⟩ := hp
    obtain ⟨L, lb, hr⟩ := hi.rd r h1
    refine hi.reader (fun _ => ⟨L, lb, hr.go hr.ord.head_mem (Nat.le_trans hr.hb h2.1) h2.2 (by simp) nofun nofun fun w hw => ?_⟩) (fun h => ?_) fun _ => .inl ⟨h1, rfl⟩
    · exact .inr (hr.ord.before_head (hr.alw_mem hw))
    · rw [show ((s.rd r).go s.mem (.head ()) i []).on = (s.rd r).on from rfl, h1] at h; cases h
  | next r i =>
    simp only [Lists.step] at hs
    split at hs
    case h_2 => cases hs
    next x hx =>
    split at hs <;> simp only [Option.some.injEq, reduceCtorEq] at hs
    next hp =>
    subst hs
    have h1 : (s.rd r).on = true := by
      by_contra h
      rw [hi.off r (by simpa using h)] at hx; cases hx
    obtain ⟨L, lb, hr⟩ := hi.rd r h1
    obtain ⟨k1, k2⟩ := hr.pk x hx
    obtain ⟨k3, k4, k5⟩ := hr.vo x hx
    have hl : lb (.next x) ≤ i := k2.1.elim (fun h => Nat.le_trans h hp.1.1) fun h => Nat.le_trans h (hp.2 rfl)
    refine hi.reader (fun _ => ⟨L, lb, hr.go k1 hl hp.1.2 hr.vn hr.vm (fun y hy => (k4 y hy).imp (fun e => by rw [e]) id) k5⟩) (fun h => ?_) fun _ => .inl ⟨h1, rfl⟩
    rw [show ((s.rd r).go s.mem (.next x) i (s.rd r).vis).on = (s.rd r).on from rfl, h1] at h; cases h
  | look r i =>
    simp only [Lists.step] at hs
    split at hs
    case h_2 => cases hs
    next x hx =>
    split at hs <;> simp only [Option.some.injEq, reduceCtorEq] at hs
    subst hs
    refine hi.reader (fun h => ?_) (fun h => hi.off r h) fun h => .inl ⟨h, rfl⟩
    obtain ⟨L, lb, hr⟩ := hi.rd r h
    exact ⟨L, lb, hr.know (Th.load_cur_le _ _ _ _)⟩

theorem inv_reach {s : St N n} (h : (sys true true N n).Reach s) : Inv s :=
  Sys.Reach.invariant (I := Inv) (fun s h => by rw [show s = initSt from h]; exact inv_init) (fun _ _ _ hi hs => hi.step hs) h

/-! ## Theorems -/

/-- `hist` is the content: a thread that knows everything (the writer) finds the elements of `hist now` in their order, and an insertion puts the element
where it should be. -/
theorem content {s : St N n} (h : (sys true true N n).Reach s) : Path (fun c => (s.mem.last (.ptr c)).1) (.head ()) (s.hist s.now) ∧ (s.hist s.now).Nodup :=
  ⟨(inv_reach h).path, (inv_reach h).nodup⟩

/-- What a traversal visits was in the list at some time since the begin of the section. -/
theorem was_in {s : St N n} (h : (sys true true N n).Reach s) {r : Fin n} (hr : (s.rd r).on = true) {x : N} (hx : x ∈ (s.rd r).vis) :
    ∃ k, (s.rd r).b ≤ k ∧ k ≤ s.now ∧ x ∈ s.hist k := by
  obtain ⟨L, lb, hi⟩ := (inv_reach h).rd r hr
  exact (hi.ev x).1 (hi.vm x hx)

/-- No element is visited twice. -/
theorem no_dup {s : St N n} (h : (sys true true N n).Reach s) {r : Fin n} (hr : (s.rd r).on = true) : (s.rd r).vis.Nodup := by
  obtain ⟨L, lb, hi⟩ := (inv_reach h).rd r hr
  exact hi.vn

/-- A traversal that has ended has visited all elements that were in the list at all times since the begin of the section. -/
theorem complete {s : St N n} (h : (sys true true N n).Reach s) {r : Fin n} (hr : (s.rd r).on = true) (he : (s.rd r).pos = some none) {x : N}
    (hx : ∀ k, (s.rd r).b ≤ k → k ≤ s.now → x ∈ s.hist k) : x ∈ (s.rd r).vis := by
  obtain ⟨L, lb, hi⟩ := (inv_reach h).rd r hr
  exact hi.ve he x hx

/-- What a reader loads from an element is not older than what was stored there when the element was inserted. -/
theorem init_seen {s : St N n} (h : (sys true true N n).Reach s) {r : Fin n} {x : N} (hp : (s.rd r).pos = some (some x)) {i : Nat}
    (hm : (s.rd r).may true s.mem (.dat x) i) : s.di x ≤ i := by
  have hr : (s.rd r).on = true := by
    by_contra e
    rw [(inv_reach h).off r (by simpa using e)] at hp; cases hp
  obtain ⟨L, lb, hi⟩ := (inv_reach h).rd r hr
  exact (hi.pk x hp).2.2.elim (fun e => Nat.le_trans e hm.1.1) fun e => Nat.le_trans e (hm.2 rfl)

/-- If the element was not changed since, it is the newest value. -/
theorem data_exact {s : St N n} (h : (sys true true N n).Reach s) {r : Fin n} {x : N} (hp : (s.rd r).pos = some (some x)) {i : Nat}
    (hm : (s.rd r).may true s.mem (.dat x) i) (hx : s.mem.top (.dat x) = s.di x) : (s.mem.msg (.dat x) i).val = s.mem.last (.dat x) := by
  have := init_seen h hp hm
  obtain rfl : i = s.mem.top (.dat x) := Nat.le_antisymm hm.1.2 (hx ▸ this)
  rfl

/-! ## Executions -/

abbrev A := Act Nat 1

/-- What the reader has visited, where it is, the contents of the list since the begin of its section, and the data it may load next. -/
structure Out where
  vis : List Nat
  pos : Option (Option Nat)
  hist : List (List Nat)
  dat : List Nat
deriving DecidableEq

/-- That after the given steps. -/
def seen (fc dep : Bool) (as : List A) : Option Out :=
  ((sys fc dep Nat 1).run initSt as).map fun s =>
    let q := s.rd 0
    ⟨q.vis, q.pos, ((List.range (s.now + 1)).filter (q.b ≤ ·)).map s.hist,
      match q.pos with
      | some (some x) => ((List.range (s.mem.top (.dat x) + 1)).filter fun i => q.may dep s.mem (.dat x) i).map fun i => (s.mem.msg (.dat x) i).val.2
      | _ => []⟩

/-- The list contains 1 when the section begins, then 2 is inserted. -/
def two : List A := [.fill 1 5, .ins (.head ()) 1, .pub, .begin 0, .fill 2 6, .ins (.head ()) 2, .pub]

/-- Both are seen with their data; or the new element is not seen although it is in the list.  Once 2 was seen, 1 is seen too. -/
example : seen true true (two ++ [.first 0 2]) = some ⟨[2], some (some 2), [[1], [2, 1]], [6]⟩ ∧
    seen true true (two ++ [.first 0 2, .next 0 1]) = some ⟨[2, 1], some (some 1), [[1], [2, 1]], [5]⟩ ∧
    seen true true (two ++ [.first 0 2, .next 0 1, .next 0 1]) = some ⟨[2, 1], some none, [[1], [2, 1]], []⟩ ∧
    seen true true (two ++ [.first 0 2, .next 0 0]) = none ∧
    seen true true (two ++ [.first 0 1, .next 0 1]) = some ⟨[1], some none, [[1], [2, 1]], []⟩ := by decide +kernel

/-- A removed element may be seen; it is not inserted again while the section lasts. -/
example : seen true true (two ++ [.del (.next 2), .first 0 2, .next 0 1]) = some ⟨[2, 1], some (some 1), [[1], [2, 1], [2]], [5]⟩ ∧
    seen true true (two ++ [.del (.next 2), .ins (.head ()) 1]) = none ∧
    (seen true true (two ++ [.del (.next 2), .leave 0, .ins (.head ()) 1, .pub])).isSome = true := by decide +kernel

/-- An element inserted in the middle, at the end. -/
example : seen true true (two ++ [.ins (.next 2) 3, .pub, .ins (.next 1) 4, .pub, .first 0 2, .next 0 2, .next 0 1, .next 0 2, .next 0 1]) =
    some ⟨[2, 3, 1, 4], some none, [[1], [2, 1], [2, 3, 1], [2, 3, 1, 4]], []⟩ := by decide +kernel

/-- Without the fence, or on a machine that does not order loads through a pointer, 1 is missed although it was in the list all the time, and data are loaded
that were there before the insertion. -/
theorem no_fence : seen false true (two ++ [.first 0 2]) = some ⟨[2], some (some 2), [[1], [2, 1]], [0, 6]⟩ ∧
    seen false true (two ++ [.first 0 2, .next 0 0]) = some ⟨[2], some none, [[1], [2, 1]], []⟩ := by decide +kernel
theorem no_dep : seen true false (two ++ [.first 0 2]) = some ⟨[2], some (some 2), [[1], [2, 1]], [0, 6]⟩ ∧
    seen true false (two ++ [.first 0 2, .next 0 0]) = some ⟨[2], some none, [[1], [2, 1]], []⟩ := by decide +kernel

end Verif.Weak.Lists
