import Verif.Weak.Hp

/-!
# Hazard pointers on relaxed memory: no protected node is destroyed (C75)
-/

namespace Verif.Weak.Hp

open Verif
open Verif.Weak.Fas (opt)

/-- has announced `v` -/
def PC.ann {m : Nat} (p : PC m) (v : Nat) : Prop := (∃ c, p = .fen c v) ∨ (∃ c, p = .chk c v) ∨ p = .prot v

structure Inv {n m : Nat} (s : St n m) : Prop where
  /-- the hazard pointer is as announced -/
  hz : ∀ t v, (s.ts t).pc.ann v → (s.mem.msg (.hz t) (s.mem.top (.hz t))).val = some v
  own : ∀ t c v, (s.ts t).pc = .fen c v → s.mem.top (.hz t) ≤ (s.ts t).th.cur (.hz t)
  seen : ∀ t v, (∃ c, (s.ts t).pc = .chk c v) ∨ (s.ts t).pc = .prot v → s.mem.top (.hz t) ≤ s.sc (.hz t)
  ret : ∀ v w, s.ns v = .ret w → Unlinked s.mem (s.ts w).th.cur v
  retsc : ∀ v w, s.ns v = .ret w → (s.ts w).scan = true → Unlinked s.mem s.sc v
  freesc : ∀ v, s.ns v = .free → Unlinked s.mem s.sc v
  /-- one of the two full fences was first -/
  chkret : ∀ t c v w, (s.ts t).pc = .chk c v → s.ns v = .ret w → (s.ts w).scan = true →
    Unlinked s.mem (s.ts t).th.cur v ∨ (s.mem.top (.hz t) ≤ (s.ts w).th.cur (.hz t) ∧ (s.ts w).ev v t = false)
  chkfree : ∀ t c v, (s.ts t).pc = .chk c v → s.ns v = .free → Unlinked s.mem (s.ts t).th.cur v
  protret : ∀ t v w, (s.ts t).pc = .prot v → s.ns v = .ret w → (s.ts w).scan = true →
    s.mem.top (.hz t) ≤ (s.ts w).th.cur (.hz t) ∧ (s.ts w).ev v t = false
  prot : ∀ t v, (s.ts t).pc = .prot v → s.ns v ≠ .free

variable {n m : Nat}

theorem Unlinked.mono {mem : Mem (Loc n m) (Option Nat)} {k k' : View (Loc n m)} {v : Nat} (h : Unlinked mem k v)
    (hk : ∀ c, k (.cell c) ≤ k' (.cell c)) : Unlinked mem k' v :=
  fun c i h1 h2 => Nat.le_trans (h c i h1 h2) (hk c)

/-- A thread changes its view, its place and its scan; hazard pointers, cells and nodes stay. -/
theorem Inv.mk' {s : St n m} (hi : Inv s) {t : Fin n} {a : TS n m} {sc : View (Loc n m)}
    (hc : ∀ x, (s.ts t).th.cur x ≤ a.th.cur x) (hsc : ∀ x, s.sc x ≤ sc x)
    (hz : ∀ v, a.pc.ann v → (s.mem.msg (.hz t) (s.mem.top (.hz t))).val = some v)
    (own : ∀ c v, a.pc = .fen c v → s.mem.top (.hz t) ≤ a.th.cur (.hz t))
    (seen : ∀ v, (∃ c, a.pc = .chk c v) ∨ a.pc = .prot v → s.mem.top (.hz t) ≤ sc (.hz t))
    (retsc : a.scan = true → (s.ts t).scan = true ∨ ∀ c, a.th.cur (.cell c) ≤ sc (.cell c))
    (c1 : ∀ c v w, a.pc = .chk c v → s.ns v = .ret w → (if w = t then a else s.ts w).scan = true →
      Unlinked s.mem a.th.cur v ∨
        (s.mem.top (.hz t) ≤ (if w = t then a else s.ts w).th.cur (.hz t) ∧ (if w = t then a else s.ts w).ev v t = false))
    (c2 : ∀ u, u ≠ t → ∀ c v, (s.ts u).pc = .chk c v → s.ns v = .ret t → a.scan = true →
      Unlinked s.mem (s.ts u).th.cur v ∨ (s.mem.top (.hz u) ≤ a.th.cur (.hz u) ∧ a.ev v u = false))
    (cf : ∀ c v, a.pc = .chk c v → s.ns v = .free → Unlinked s.mem a.th.cur v)
    (p1 : ∀ v w, a.pc = .prot v → s.ns v = .ret w → (if w = t then a else s.ts w).scan = true →
      s.mem.top (.hz t) ≤ (if w = t then a else s.ts w).th.cur (.hz t) ∧ (if w = t then a else s.ts w).ev v t = false)
    (p2 : ∀ u, u ≠ t → ∀ v, (s.ts u).pc = .prot v → s.ns v = .ret t → a.scan = true →
      s.mem.top (.hz u) ≤ a.th.cur (.hz u) ∧ a.ev v u = false)
    (pf : ∀ v, a.pc = .prot v → s.ns v ≠ .free) :
    Inv { s with sc := sc, ts := upd s.ts t a } := by
  have e : ∀ u, u ≠ t → upd s.ts t a u = s.ts u := fun u hu => upd_ne _ _ hu
  have ew : ∀ w, upd s.ts t a w = if w = t then a else s.ts w := fun w => upd_apply _ _ _ _
  refine ⟨fun u v h => ?_, fun u c v h => ?_, fun u v h => ?_, fun v w h => ?_, fun v w h h' => ?_, fun v h => ?_,
    fun u c v w h1 h2 h3 => ?_, fun u c v h1 h2 => ?_, fun u v w h1 h2 h3 => ?_, fun u v h => ?_⟩
  · simp only at h ⊢
    by_cases hu : u = t
    · subst hu; rw [upd_same] at h; exact hz v h
    · rw [e u hu] at h; exact hi.hz u v h
  · simp only at h ⊢
    by_cases hu : u = t
    · subst hu; rw [upd_same] at h ⊢; exact own c v h
    · rw [e u hu] at h ⊢; exact hi.own u c v h
  · simp only at h ⊢
    by_cases hu : u = t
    · subst hu; rw [upd_same] at h; exact seen v h
    · rw [e u hu] at h; exact Nat.le_trans (hi.seen u v h) (hsc _)
  · simp only at h ⊢
    by_cases hu : w = t
    · subst hu; rw [upd_same]; exact (hi.ret v w h).mono fun _ => hc _
    · rw [e w hu]; exact hi.ret v w h
  · simp only at h h' ⊢
    by_cases hu : w = t
    · subst hu
      rw [upd_same] at h'
      rcases retsc h' with h' | h'
      · exact (hi.retsc v w h h').mono fun _ => hsc _
      · exact (hi.ret v w h).mono fun c => Nat.le_trans (hc _) (h' c)
    · rw [e w hu] at h'; exact (hi.retsc v w h h').mono fun _ => hsc _
  · exact (hi.freesc v h).mono fun _ => hsc _
  · simp only at h1 h2 h3 ⊢
    by_cases hu : u = t
    · subst hu
      rw [upd_same] at h1 ⊢
      rw [ew] at h3 ⊢
      exact c1 c v w h1 h2 h3
    · rw [e u hu] at h1 ⊢
      by_cases hw : w = t
      · subst hw; rw [upd_same] at h3 ⊢; exact c2 u hu c v h1 h2 h3
      · rw [e w hw] at h3 ⊢; exact hi.chkret u c v w h1 h2 h3
  · simp only at h1 h2 ⊢
    by_cases hu : u = t
    · subst hu; rw [upd_same] at h1 ⊢; exact cf c v h1 h2
    · rw [e u hu] at h1 ⊢; exact hi.chkfree u c v h1 h2
  · simp only at h1 h2 h3 ⊢
    by_cases hu : u = t
    · subst hu
      rw [upd_same] at h1
      rw [ew] at h3 ⊢
      exact p1 v w h1 h2 h3
    · rw [e u hu] at h1
      by_cases hw : w = t
      · subst hw; rw [upd_same] at h3 ⊢; exact p2 u hu v h1 h2 h3
      · rw [e w hw] at h3 ⊢; exact hi.protret u v w h1 h2 h3
  · simp only at h ⊢
    by_cases hu : u = t
    · subst hu; rw [upd_same] at h; exact pf v h
    · rw [e u hu] at h; exact hi.prot u v h

/-- A thread learns something. -/
theorem Inv.learn {s : St n m} (hi : Inv s) {t : Fin n} {q : Th (Loc n m)} (hc : ∀ x, (s.ts t).th.cur x ≤ q.cur x) :
    Inv { s with ts := upd s.ts t { s.ts t with th := q } } := by
  have ew : ∀ w, (if w = t then ({ s.ts t with th := q } : TS n m) else s.ts w).scan = (s.ts w).scan ∧
      (∀ x, (s.ts w).th.cur x ≤ (if w = t then ({ s.ts t with th := q } : TS n m) else s.ts w).th.cur x) ∧
      (if w = t then ({ s.ts t with th := q } : TS n m) else s.ts w).ev = (s.ts w).ev := by
    intro w
    split
    · next h => subst h; exact ⟨rfl, hc, rfl⟩
    · exact ⟨rfl, fun _ => Nat.le_refl _, rfl⟩
  refine hi.mk' (sc := s.sc) hc (fun _ => Nat.le_refl _) (hi.hz t) (fun c v h => Nat.le_trans (hi.own t c v h) (hc _))
    (hi.seen t) (fun h => .inl h) (fun c v w h1 h2 h3 => ?_) (fun u _ c v h1 h2 h3 => ?_)
    (fun c v h1 h2 => (hi.chkfree t c v h1 h2).mono fun _ => hc _) (fun v w h1 h2 h3 => ?_) (fun u _ v h1 h2 h3 => ?_) (hi.prot t)
  · obtain ⟨e1, e2, e3⟩ := ew w
    rw [e1] at h3
    rw [e3]
    exact (hi.chkret t c v w h1 h2 h3).imp (fun h => h.mono fun _ => hc _) fun h => ⟨Nat.le_trans h.1 (e2 _), h.2⟩
  · exact (hi.chkret u c v t h1 h2 h3).imp id fun h => ⟨Nat.le_trans h.1 (hc _), h.2⟩
  · obtain ⟨e1, e2, e3⟩ := ew w
    rw [e1] at h3
    rw [e3]
    have h := hi.protret t v w h1 h2 h3
    exact ⟨Nat.le_trans h.1 (e2 _), h.2⟩
  · have h := hi.protret u v t h1 h2 h3
    exact ⟨Nat.le_trans h.1 (hc _), h.2⟩

/-- A thread goes where it has announced nothing. -/
theorem Inv.loose {s : St n m} (hi : Inv s) {t : Fin n} {p : PC m} (hp : p = .idle ∨ ∃ c v, p = .got c v) :
    Inv { s with ts := upd s.ts t { s.ts t with pc := p } } := by
  have hn : (∀ v, ¬ p.ann v) ∧ (∀ c v, p ≠ .fen c v) ∧ (∀ c v, p ≠ .chk c v) ∧ ∀ v, p ≠ .prot v := by
    rcases hp with rfl | ⟨c, v, rfl⟩ <;> simp [PC.ann]
  refine hi.mk' (sc := s.sc) (fun _ => Nat.le_refl _) (fun _ => Nat.le_refl _) (fun v h => absurd h (hn.1 v))
    (fun c v h => absurd h (hn.2.1 c v)) (fun v h => ?_) (fun h => .inl h) (fun c v w h1 h2 h3 => absurd h1 (hn.2.2.1 c v))
    (fun u _ c v h1 h2 h3 => hi.chkret u c v t h1 h2 h3) (fun c v h1 h2 => absurd h1 (hn.2.2.1 c v))
    (fun v w h1 h2 h3 => absurd h1 (hn.2.2.2 v)) (fun u _ v h1 h2 h3 => hi.protret u v t h1 h2 h3)
    (fun v h => absurd h (hn.2.2.2 v))
  rcases h with ⟨c, h⟩ | h
  · exact absurd h (hn.2.2.1 c v)
  · exact absurd h (hn.2.2.2 v)

theorem upd_upd {α β : Type} [DecidableEq α] (f : α → β) (t : α) (a b : β) : upd (upd f t a) t b = upd f t b := by
  funext u
  simp only [upd_apply]
  split <;> rfl

/-- Announcing, or withdrawing, a hazard pointer. -/
theorem inv_hz {s : St n m} (hi : Inv s) {t : Fin n} {x : Option Nat} {p : PC m}
    (hp : p = .idle ∨ ∃ c v, p = .fen c v ∧ x = some v) :
    Inv { s with
      mem := s.mem.store (s.ts t).th (.hz t) x
      ts := upd s.ts t { s.ts t with th := (s.ts t).th.store s.mem (.hz t), pc := p } } := by
  have hn : (∀ c v, p ≠ .chk c v) ∧ ∀ v, p ≠ .prot v := by
    rcases hp with rfl | ⟨c, v, rfl, _⟩ <;> simp
  obtain ⟨a, ha⟩ : ∃ a : TS n m, a = { s.ts t with th := (s.ts t).th.store s.mem (.hz t), pc := p } := ⟨_, rfl⟩
  rw [← ha]
  have hap : a.pc = p := by rw [ha]
  have hac : ∀ y, y ≠ .hz t → a.th.cur y = (s.ts t).th.cur y := fun y hy => by
    rw [ha]; simp only [Th.store]; rw [upd_ne _ _ hy]
  have e : ∀ u, u ≠ t → upd s.ts t a u = s.ts u := fun u hu => upd_ne _ _ hu
  have ew : ∀ w, (upd s.ts t a w).scan = (s.ts w).scan ∧ (upd s.ts t a w).ev = (s.ts w).ev ∧
      (∀ y, y ≠ .hz t → (upd s.ts t a w).th.cur y = (s.ts w).th.cur y) := by
    intro w
    by_cases hw : w = t
    · subst hw; rw [upd_same]; exact ⟨by rw [ha], by rw [ha], hac⟩
    · rw [e w hw]; exact ⟨rfl, rfl, fun _ _ => rfl⟩
  have hU : ∀ k v, Unlinked s.mem k v → Unlinked (s.mem.store (s.ts t).th (.hz t) x) k v := fun k v h c i h1 h2 => by
    rw [Mem.store_top, if_neg (by simp)] at h1
    rw [Mem.store_ne _ (by simp)] at h2
    exact h c i h1 h2
  have htop : ∀ u, u ≠ t → (s.mem.store (s.ts t).th (.hz t) x).top (.hz u) = s.mem.top (.hz u) := fun u hu => by
    rw [Mem.store_top, if_neg (by simp [hu])]
  refine ⟨fun u v h => ?_, fun u c v h => ?_, fun u v h => ?_, fun v w h => ?_, fun v w h h' => ?_, fun v h => ?_,
    fun u c v w h1 h2 h3 => ?_, fun u c v h1 h2 => ?_, fun u v w h1 h2 h3 => ?_, fun u v h => ?_⟩
  · simp only at h ⊢
    by_cases hu : u = t
    · subst hu
      rw [upd_same, hap] at h
      rw [Mem.store_top, if_pos rfl, Mem.store_at _ _ rfl]
      simp only
      rcases hp with rfl | ⟨c, v', rfl, hx⟩
      · simp [PC.ann] at h
      · have : v = v' := by rcases h with ⟨c', h⟩ | ⟨c', h⟩ | h <;> cases h; rfl
        rw [hx, this]
    · rw [e u hu] at h
      rw [htop u hu, Mem.store_ne _ (by simp [hu])]
      exact hi.hz u v h
  · simp only at h ⊢
    by_cases hu : u = t
    · subst hu
      rw [upd_same, ha, Mem.store_top, if_pos rfl]
      simp only [Th.store]
      rw [upd_same]
      exact Nat.le_refl _
    · rw [e u hu] at h ⊢; rw [htop u hu]; exact hi.own u c v h
  · simp only at h ⊢
    by_cases hu : u = t
    · subst hu
      rw [upd_same, hap] at h
      rcases h with ⟨c, h⟩ | h
      · exact absurd h (hn.1 c v)
      · exact absurd h (hn.2 v)
    · rw [e u hu] at h; rw [htop u hu]; exact hi.seen u v h
  · simp only at h ⊢
    exact hU _ _ ((hi.ret v w h).mono fun c => Nat.le_of_eq ((ew w).2.2 _ (by simp)).symm)
  · simp only at h h' ⊢
    rw [(ew w).1] at h'
    exact hU _ _ (hi.retsc v w h h')
  · exact hU _ _ (hi.freesc v h)
  · simp only at h1 h2 h3 ⊢
    by_cases hu : u = t
    · subst hu; rw [upd_same, hap] at h1; exact absurd h1 (hn.1 c v)
    · rw [e u hu] at h1 ⊢
      rw [(ew w).1] at h3
      rw [htop u hu, (ew w).2.1, (ew w).2.2 _ (by simp [hu])]
      exact (hi.chkret u c v w h1 h2 h3).imp (hU _ _) id
  · simp only at h1 h2 ⊢
    by_cases hu : u = t
    · subst hu; rw [upd_same, hap] at h1; exact absurd h1 (hn.1 c v)
    · rw [e u hu] at h1 ⊢; exact hU _ _ (hi.chkfree u c v h1 h2)
  · simp only at h1 h2 h3 ⊢
    by_cases hu : u = t
    · subst hu; rw [upd_same, hap] at h1; exact absurd h1 (hn.2 v)
    · rw [e u hu] at h1
      rw [(ew w).1] at h3
      rw [htop u hu, (ew w).2.1, (ew w).2.2 _ (by simp [hu])]
      exact hi.protret u v w h1 h2 h3
  · simp only at h ⊢
    by_cases hu : u = t
    · subst hu; rw [upd_same, hap] at h; exact absurd h (hn.2 v)
    · rw [e u hu] at h; exact hi.prot u v h

/-- Storing to a cell. -/
theorem inv_swap {s : St n m} (hi : Inv s) {t : Fin n} {c : Fin m} {x : Option Nat} (hx : usable s.ns x = true)
    (hwf : ∀ y, (s.ts t).th.cur y ≤ s.mem.top y) :
    Inv { s with
      mem := s.mem.rmw (s.ts t).th (.cell c) x
      ts := upd s.ts t { s.ts t with th := (s.ts t).th.rmw s.mem (.cell c) } } := by
  have h1 : Inv { s with ts := upd s.ts t { s.ts t with th := (s.ts t).th.rmw s.mem (.cell c) } } := by
    refine hi.learn fun y => ?_
    simp only [Th.rmw, Th.store, upd_apply]
    split
    · next h => subst h; have := hwf (.cell c); omega
    · exact Th.load_cur_le _ _ _ _ _
  obtain ⟨s1, hs1⟩ : ∃ s1 : St n m, s1 = { s with ts := upd s.ts t { s.ts t with th := (s.ts t).th.rmw s.mem (.cell c) } } := ⟨_, rfl⟩
  have hU : ∀ k v, s.ns v ≠ .alive → Unlinked s.mem k v → Unlinked (s.mem.rmw (s.ts t).th (.cell c) x) k v := by
    intro k v hv h c' i h1 h2
    by_cases hc : c' = c
    · subst hc
      rw [Mem.rmw_top, if_pos rfl] at h1
      by_cases hi : i ≤ s.mem.top (.cell c')
      · rw [Mem.rmw_old hi] at h2; exact h c' i (by omega) h2
      · rw [Mem.rmw_at _ _ (by omega)] at h2
        simp only at h2
        subst h2
        simp only [usable, decide_eq_true_eq] at hx
        exact absurd hx hv
    · rw [Mem.rmw_top, if_neg (by simp [hc])] at h1
      rw [Mem.rmw_ne _ (by simp [hc])] at h2
      exact h c' i h1 h2
  have htop : ∀ u, (s.mem.rmw (s.ts t).th (.cell c) x).top (.hz u) = s.mem.top (.hz u) := fun u => by
    rw [Mem.rmw_top, if_neg (by simp)]
  have hmsg : ∀ u i, (s.mem.rmw (s.ts t).th (.cell c) x).msg (.hz u) i = s.mem.msg (.hz u) i := fun u i =>
    Mem.rmw_ne _ (by simp)
  have hret : ∀ {v w}, s.ns v = .ret w → s.ns v ≠ .alive := fun h => by rw [h]; simp
  have hfree : ∀ {v}, s.ns v = .free → s.ns v ≠ .alive := fun h => by rw [h]; simp
  refine ⟨fun u v h => ?_, fun u c v h => ?_, fun u v h => ?_, fun v w h => ?_, fun v w h h' => ?_, fun v h => ?_,
    fun u c v w h1' h2 h3 => ?_, fun u c v h1' h2 => ?_, fun u v w h1' h2 h3 => ?_, fun u v h => h1.prot u v h⟩
  · simp only [htop, hmsg]; exact h1.hz u v h
  · simp only [htop]; exact h1.own u c v h
  · simp only [htop]; exact h1.seen u v h
  · exact hU _ _ (hret h) (h1.ret v w h)
  · exact hU _ _ (hret h) (h1.retsc v w h h')
  · exact hU _ _ (hfree h) (h1.freesc v h)
  · simp only [htop]; exact (h1.chkret u c v w h1' h2 h3).imp (hU _ _ (hret h2)) id
  · exact hU _ _ (hfree h2) (h1.chkfree u c v h1' h2)
  · simp only [htop]; exact h1.protret u v w h1' h2 h3

theorem inv_step {s s' : St n m} {a : Act n m} (hi : Inv s) (hwf : ∀ t y, (s.ts t).th.cur y ≤ s.mem.top y)
    (hs : step fenced s a = some s') : Inv s' := by
  have two : ∀ (t : Fin n) (q : Th (Loc n m)) (p : PC m), (∀ x, (s.ts t).th.cur x ≤ q.cur x) →
      (p = .idle ∨ ∃ c v, p = .got c v) → Inv { s with ts := upd s.ts t { s.ts t with th := q, pc := p } } := by
    intro t q p h1 h2
    have := (hi.learn (t := t) h1).loose (t := t) h2
    simp only [upd_same, upd_upd] at this
    exact this
  cases a with
  | load t c i =>
    simp only [step] at hs
    split at hs
    · cases hs
      refine two t _ _ (Th.load_cur_le _ _ _ _) ?_
      split
      · exact .inr ⟨_, _, rfl⟩
      · exact .inl rfl
    · cases hs
  | set t =>
    simp only [step] at hs
    split at hs
    · next c v hp => cases hs; exact inv_hz hi (.inr ⟨c, v, rfl, rfl⟩)
    · cases hs
  | fence t =>
    simp only [step] at hs
    split at hs
    · next c v hp =>
      simp only [fenced, if_true] at hs
      cases hs
      have hcc : ∀ x, (s.ts t).th.cur x ≤ ((s.ts t).th.fence s.sc).cur x := fun x =>
        Nat.le_trans (le_join_left _ _ _) (le_join_left _ _ _)
      have hsc : ∀ x, s.sc x ≤ ((s.ts t).th.fence s.sc).cur x := fun x => le_join_right _ _ _
      refine hi.mk' hcc (fun x => le_join_right _ _ _) (fun v' h => ?_) (fun c v h => by cases h) (fun v' h => ?_)
        (fun h => .inl h) (fun c' v' w h1 h2 h3 => ?_) (fun u _ c v h1 h2 h3 => ?_) (fun c' v' h1 h2 => ?_)
        (fun v w h1 => by cases h1) (fun u _ v h1 h2 h3 => ?_) (fun v h => by cases h)
      · have : v' = v := by rcases h with ⟨c', h⟩ | ⟨c', h⟩ | h <;> cases h; rfl
        subst this
        exact hi.hz t v' (.inl ⟨c, hp⟩)
      · exact Nat.le_trans (hi.own t c v hp) (Nat.le_trans (le_join_left _ _ _) (le_join_left _ _ _))
      · cases h1
        refine .inl ((hi.retsc v w h2 ?_).mono fun _ => hsc _)
        split at h3
        · next e => subst e; exact h3
        · exact h3
      · exact (hi.chkret u c v t h1 h2 h3).imp id fun h => ⟨Nat.le_trans h.1 (hcc _), h.2⟩
      · cases h1
        exact (hi.freesc v h2).mono fun _ => hsc _
      · have h := hi.protret u v t h1 h2 h3
        exact ⟨Nat.le_trans h.1 (hcc _), h.2⟩
    · cases hs
  | check t i =>
    simp only [step] at hs
    split at hs
    · next c v hp =>
      split at hs
      · next hm =>
        cases hs
        cases hv : (s.mem.msg (.cell c) i).val with
        | none => exact two t _ _ (Th.load_cur_le _ _ _ _) (.inl rfl)
        | some v' =>
          simp only
          by_cases hvv : v' = v
          · subst hvv
            rw [if_pos rfl]
            have hcc : ∀ x, (s.ts t).th.cur x ≤ ((s.ts t).th.load s.mem (.cell c) i).cur x := Th.load_cur_le _ _ _ _
            have hno : ¬ Unlinked s.mem (s.ts t).th.cur v' := fun h => by
              have := h c i (by have := hm.2; omega) hv
              have := hm.1
              omega
            refine hi.mk' (sc := s.sc) hcc (fun _ => Nat.le_refl _) (fun v'' h => ?_) (fun c v h => by cases h)
              (fun v'' h => hi.seen t v' (.inl ⟨c, hp⟩)) (fun h => .inl h) (fun c v w h1 => by cases h1)
              (fun u _ c v h1 h2 h3 => ?_) (fun c v h1 => by cases h1) (fun v w h1 h2 h3 => ?_) (fun u _ v h1 h2 h3 => ?_)
              (fun v h => ?_)
            · have : v'' = v' := by rcases h with ⟨c', h⟩ | ⟨c', h⟩ | h <;> cases h; rfl
              subst this
              exact hi.hz t v'' (.inr (.inl ⟨c, hp⟩))
            · exact (hi.chkret u c v t h1 h2 h3).imp id fun h => ⟨Nat.le_trans h.1 (hcc _), h.2⟩
            · cases h1
              split at h3
              · next e =>
                subst e
                have h := (hi.chkret w c v' w hp h2 h3).resolve_left hno
                rw [if_pos rfl]
                exact ⟨Nat.le_trans h.1 (hcc _), h.2⟩
              · next e =>
                rw [if_neg e]
                exact (hi.chkret t c v' w hp h2 h3).resolve_left hno
            · have h := hi.protret u v t h1 h2 h3
              exact ⟨Nat.le_trans h.1 (hcc _), h.2⟩
            · cases h
              exact fun h => hno (hi.chkfree t c v' hp h)
          · rw [if_neg hvv]
            exact two t _ _ (Th.load_cur_le _ _ _ _) (.inr ⟨_, _, rfl⟩)
      · cases hs
    · cases hs
  | clear t =>
    simp only [step] at hs
    cases hs
    exact inv_hz hi (.inl rfl)
  | alloc v =>
    simp only [step] at hs
    split at hs
    · next hf =>
      cases hs
      have e : ∀ v' x, upd s.ns v .alive v' = x → x ≠ .alive → s.ns v' = x := fun v' x h hx => by
        rw [upd_apply] at h
        split at h
        · exact absurd h.symm hx
        · exact h
      exact ⟨hi.hz, hi.own, hi.seen, fun v w h => hi.ret v w (e _ _ h (by simp)), fun v w h => hi.retsc v w (e _ _ h (by simp)),
        fun v h => hi.freesc v (e _ _ h (by simp)), fun t c v w h1 h2 => hi.chkret t c v w h1 (e _ _ h2 (by simp)),
        fun t c v h1 h2 => hi.chkfree t c v h1 (e _ _ h2 (by simp)),
        fun t v w h1 h2 => hi.protret t v w h1 (e _ _ h2 (by simp)), fun t v h h' => hi.prot t v h (e _ _ h' (by simp))⟩
    · cases hs
  | swap t c x =>
    simp only [step] at hs
    split at hs
    · next hx => cases hs; exact inv_swap hi hx (hwf t)
    · cases hs
  | look t c i =>
    simp only [step] at hs
    split at hs
    · cases hs; exact hi.learn (Th.load_cur_le _ _ _ _)
    · cases hs
  | retire t v =>
    simp only [step] at hs
    split at hs
    · next hc =>
      cases hs
      obtain ⟨ha, hsn, hun⟩ := hc
      have e : ∀ v' w, upd s.ns v (.ret t) v' = .ret w → (v' = v ∧ w = t) ∨ s.ns v' = .ret w := fun v' w h => by
        rw [upd_apply] at h
        split at h
        · next e => injection h with h; exact .inl ⟨e, h.symm⟩
        · exact .inr h
      have ef : ∀ v', upd s.ns v (.ret t) v' = .free → s.ns v' = .free := fun v' h => by
        rw [upd_apply] at h
        split at h
        · cases h
        · exact h
      have ecl : ∀ {w : Fin n}, w = t → (s.ts w).scan = true → False := fun h h' => by
        subst h; rw [hsn] at h'; cases h'
      refine ⟨hi.hz, hi.own, hi.seen, fun v' w h => ?_, fun v' w h h' => ?_, fun v h => hi.freesc v (ef _ h),
        fun u c v' w h1 h2 h3 => ?_, fun u c v' h1 h2 => hi.chkfree u c v' h1 (ef _ h2), fun u v' w h1 h2 h3 => ?_,
        fun u v' h h' => hi.prot u v' h (ef _ h')⟩
      · rcases e _ _ h with ⟨rfl, rfl⟩ | h
        · exact hun
        · exact hi.ret v' w h
      · rcases e _ _ h with ⟨_, hw⟩ | h
        · exact (ecl hw h').elim
        · exact hi.retsc v' w h h'
      · rcases e _ _ h2 with ⟨_, hw⟩ | h
        · exact (ecl hw h3).elim
        · exact hi.chkret u c v' w h1 h h3
      · rcases e _ _ h2 with ⟨_, hw⟩ | h
        · exact (ecl hw h3).elim
        · exact hi.protret u v' w h1 h h3
    · cases hs
  | scan t =>
    simp only [step] at hs
    split at hs
    · next hsn =>
      simp only [fenced, if_true] at hs
      cases hs
      have hcc : ∀ x, (s.ts t).th.cur x ≤ ((s.ts t).th.fence s.sc).cur x := fun x =>
        Nat.le_trans (le_join_left _ _ _) (le_join_left _ _ _)
      have hsc : ∀ x, s.sc x ≤ ((s.ts t).th.fence s.sc).cur x := fun x => le_join_right _ _ _
      refine hi.mk' hcc (fun x => le_join_right _ _ _) (hi.hz t) (fun c v h => Nat.le_trans (hi.own t c v h) (hcc _))
        (fun v h => Nat.le_trans (hi.seen t v h) (le_join_right _ _ _)) (fun _ => .inr fun c => Nat.le_refl _)
        (fun c v w h1 h2 h3 => ?_) (fun u _ c v h1 h2 h3 => ?_)
        (fun c v h1 h2 => (hi.chkfree t c v h1 h2).mono fun _ => hcc _) (fun v w h1 h2 h3 => ?_) (fun u _ v h1 h2 h3 => ?_)
        (hi.prot t)
      · split at h3
        · next e =>
          rw [if_pos e]
          exact .inr ⟨Nat.le_trans (hi.seen t v (.inl ⟨c, h1⟩)) (hsc _), rfl⟩
        · next e =>
          rw [if_neg e]
          exact (hi.chkret t c v w h1 h2 h3).imp (fun h => h.mono fun _ => hcc _) id
      · exact .inr ⟨Nat.le_trans (hi.seen u v (.inl ⟨c, h1⟩)) (hsc _), rfl⟩
      · split at h3
        · next e =>
          rw [if_pos e]
          exact ⟨Nat.le_trans (hi.seen t v (.inr h1)) (hsc _), rfl⟩
        · next e =>
          rw [if_neg e]
          exact hi.protret t v w h1 h2 h3
      · exact ⟨Nat.le_trans (hi.seen u v (.inr h1)) (hsc _), rfl⟩
    · cases hs
  | hazard t u i =>
    simp only [step] at hs
    split at hs
    · next hc =>
      cases hs
      obtain ⟨hsn, hm1, hm2⟩ := hc
      have hcc : ∀ x, (s.ts t).th.cur x ≤ ((s.ts t).th.load s.mem (.hz u) i).cur x := Th.load_cur_le _ _ _ _
      obtain ⟨ev, hev⟩ : ∃ ev : Nat → Fin n → Bool, ev = fun v w => if w = u then
          (if (s.mem.msg (.hz u) i).val = some v then (s.ts t).ev v w else true) else (s.ts t).ev v w := ⟨_, rfl⟩
      rw [← hev]
      -- what has been announced and seen is found
      have key : ∀ r v, (s.ts r).pc.ann v → s.mem.top (.hz r) ≤ (s.ts t).th.cur (.hz r) ∧ (s.ts t).ev v r = false →
          s.mem.top (.hz r) ≤ ((s.ts t).th.load s.mem (.hz u) i).cur (.hz r) ∧ ev v r = false := by
        intro r v ha h
        refine ⟨Nat.le_trans h.1 (hcc _), ?_⟩
        rw [hev]
        simp only
        split
        · next e =>
          subst e
          have : i = s.mem.top (.hz r) := Nat.le_antisymm hm2 (Nat.le_trans h.1 hm1)
          rw [this, if_pos (hi.hz r v ha)]
          exact h.2
        · exact h.2
      refine hi.mk' (sc := s.sc) hcc (fun _ => Nat.le_refl _) (hi.hz t) (fun c v h => Nat.le_trans (hi.own t c v h) (hcc _))
        (hi.seen t) (fun h => .inl h) (fun c v w h1 h2 h3 => ?_) (fun r _ c v h1 h2 h3 => ?_)
        (fun c v h1 h2 => (hi.chkfree t c v h1 h2).mono fun _ => hcc _) (fun v w h1 h2 h3 => ?_) (fun r _ v h1 h2 h3 => ?_)
        (hi.prot t)
      · split at h3
        · next e =>
          subst e
          rw [if_pos rfl]
          exact (hi.chkret w c v w h1 h2 hsn).imp (fun h => h.mono fun _ => hcc _) (key w v (.inr (.inl ⟨c, h1⟩)))
        · next e =>
          rw [if_neg e]
          exact (hi.chkret t c v w h1 h2 h3).imp (fun h => h.mono fun _ => hcc _) id
      · exact (hi.chkret r c v t h1 h2 hsn).imp id (key r v (.inr (.inl ⟨c, h1⟩)))
      · split at h3
        · next e =>
          subst e
          rw [if_pos rfl]
          exact key w v (.inr (.inr h1)) (hi.protret w v w h1 h2 hsn)
        · next e =>
          rw [if_neg e]
          exact hi.protret t v w h1 h2 h3
      · exact key r v (.inr (.inr h1)) (hi.protret r v t h1 h2 hsn)
    · cases hs
  | destroy t v =>
    simp only [step] at hs
    split at hs
    · next hc =>
      cases hs
      obtain ⟨hsn, hr, hev⟩ := hc
      have e : ∀ v' w, upd s.ns v .free v' = .ret w → s.ns v' = .ret w := fun v' w h => by
        rw [upd_apply] at h
        split at h
        · cases h
        · exact h
      have ef : ∀ v', upd s.ns v .free v' = .free → v' = v ∨ s.ns v' = .free := fun v' h => by
        rw [upd_apply] at h
        split at h
        · next e => exact .inl e
        · exact .inr h
      refine ⟨hi.hz, hi.own, hi.seen, fun v' w h => hi.ret v' w (e _ _ h), fun v' w h => hi.retsc v' w (e _ _ h), fun v' h => ?_,
        fun u c v' w h1 h2 h3 => hi.chkret u c v' w h1 (e _ _ h2) h3, fun u c v' h1 h2 => ?_,
        fun u v' w h1 h2 h3 => hi.protret u v' w h1 (e _ _ h2) h3, fun u v' h h' => ?_⟩
      · rcases ef _ h with rfl | h
        · exact hi.retsc v' t hr hsn
        · exact hi.freesc v' h
      · rcases ef _ h2 with rfl | h
        · refine (hi.chkret u c v' t h1 hr hsn).resolve_right fun h => ?_
          have := h.2
          rw [hev u] at this
          cases this
        · exact hi.chkfree u c v' h1 h
      · rcases ef _ h' with rfl | h''
        · have := (hi.protret u v' t h hr hsn).2
          rw [hev u] at this
          cases this
        · exact hi.prot u v' h h''
    · cases hs
  | leave t =>
    simp only [step] at hs
    split at hs
    · cases hs
      refine hi.mk' (sc := s.sc) (fun _ => Nat.le_refl _) (fun _ => Nat.le_refl _) (hi.hz t) (hi.own t) (hi.seen t)
        (fun h => by cases h) (fun c v w h1 h2 h3 => ?_) (fun u _ c v h1 h2 h3 => by cases h3) (hi.chkfree t)
        (fun v w h1 h2 h3 => ?_) (fun u _ v h1 h2 h3 => by cases h3) (hi.prot t)
      · split at h3
        · cases h3
        · next e => rw [if_neg e]; exact hi.chkret t c v w h1 h2 h3
      · split at h3
        · cases h3
        · next e => rw [if_neg e]; exact hi.protret t v w h1 h2 h3
    · cases hs

/-! ## Views do not point beyond the newest value -/

def Wf (s : St n m) : Prop := s.mem.Wf ∧ (∀ t, (s.ts t).th.Wf s.mem) ∧ ∀ y, s.sc y ≤ s.mem.top y

theorem wf_step {s s' : St n m} {a : Act n m} (h : Wf s) (hs : step fenced s a = some s') : Wf s' := by
  obtain ⟨hm, ht, hsc⟩ := h
  have one : ∀ (m' : Mem (Loc n m) (Option Nat)) (t : Fin n) (a : TS n m), (∀ y, s.mem.top y ≤ m'.top y) → a.th.Wf m' →
      (∀ u, (upd s.ts t a u).th.Wf m') := by
    intro m' t q h1 h2 u
    by_cases hu : u = t
    · subst hu; rw [upd_same]; exact h2
    · rw [upd_ne _ _ hu]; exact (ht u).mono h1
  have hle : ∀ y, s.mem.top y ≤ s.mem.top y := fun _ => Nat.le_refl _
  have hfs : ∀ t y, (s.ts t).th.fenceSc s.sc y ≤ s.mem.top y := fun t y =>
    join_le (join_le (ht t y).1 (ht t y).2.1) (hsc y)
  cases a <;> simp only [step, fenced, if_true] at hs
  case load t c i =>
    split at hs <;> cases hs
    next hc => exact ⟨hm, one _ _ _ hle ((ht t).load hm hc.2.2), hsc⟩
  case set t =>
    split at hs <;> cases hs
    exact ⟨hm.store (ht t) _ _, one _ _ _ (Mem.store_top_le _ _ _ _) ((ht t).store _ _),
      fun y => Nat.le_trans (hsc y) (Mem.store_top_le _ _ _ _ _)⟩
  case fence t =>
    split at hs <;> cases hs
    exact ⟨hm, one _ _ _ hle ((ht t).fence hsc), hfs t⟩
  case check t i =>
    split at hs
    · split at hs <;> cases hs
      next hc => exact ⟨hm, one _ _ _ hle ((ht t).load hm hc.2), hsc⟩
    · cases hs
  case clear t =>
    cases hs
    exact ⟨hm.store (ht t) _ _, one _ _ _ (Mem.store_top_le _ _ _ _) ((ht t).store _ _),
      fun y => Nat.le_trans (hsc y) (Mem.store_top_le _ _ _ _ _)⟩
  case alloc v => split at hs <;> cases hs; exact ⟨hm, ht, hsc⟩
  case swap t c v =>
    split at hs <;> cases hs
    exact ⟨hm.rmw (ht t) _ _, one _ _ _ (Mem.rmw_top_le _ _ _ _) ((ht t).rmw hm _ _),
      fun y => Nat.le_trans (hsc y) (Mem.rmw_top_le _ _ _ _ _)⟩
  case look t c i =>
    split at hs <;> cases hs
    next hc => exact ⟨hm, one _ _ _ hle ((ht t).load hm hc.2), hsc⟩
  case retire t v => split at hs <;> cases hs; exact ⟨hm, ht, hsc⟩
  case scan t =>
    split at hs <;> cases hs
    exact ⟨hm, one _ _ _ hle ((ht t).fence hsc), hfs t⟩
  case hazard t u i =>
    split at hs <;> cases hs
    next hc => exact ⟨hm, one _ _ _ hle ((ht t).load hm hc.2.2), hsc⟩
  case destroy t v => split at hs <;> cases hs; exact ⟨hm, ht, hsc⟩
  case leave t =>
    split at hs <;> cases hs
    exact ⟨hm, one _ _ _ hle (ht t), hsc⟩

theorem wf_reach {s : St n m} (h : (sys fenced n m).Reach s) : Wf s := by
  refine h.invariant (I := Wf) ?_ (fun _ _ _ hi hs => wf_step hi hs)
  rintro s rfl
  exact ⟨Mem.Wf.init _, fun _ => Th.Wf.init _, fun _ => Nat.le_refl _⟩

theorem inv_reach {s : St n m} (h : (sys fenced n m).Reach s) : Inv s := by
  induction h with
  | init h0 =>
    cases h0
    have hn : ∀ v, ¬ PC.ann (PC.idle : PC m) v := by simp [PC.ann]
    refine ⟨fun t v h => absurd h (hn v), fun t c v h => (by cases h), fun t v h => ?_, fun v w h => (by cases h),
      fun v w h => (by cases h), fun v _ c i _ h => (by cases h), fun t c v w h => (by cases h), fun t c v h => (by cases h),
      fun t v w h => (by cases h), fun t v h => (by cases h)⟩
    rcases h with ⟨c, h⟩ | h <;> cases h
  | step hr hs ih => exact inv_step ih (fun t y => ((wf_reach hr).2.1 t y).1) hs

/-! ## Properties -/

/-- C75: a node that a thread protects is not destroyed.  Partial: only if the callers of `ck_hp_free`, `ck_hp_reclaim` and
`ck_hp_purge` execute a full fence before; not true of the code alone, see `protected_destroyed`. -/
theorem protected_partial {s : St n m} (h : (sys fenced n m).Reach s) {t : Fin n} {v : Nat} (hp : (s.ts t).pc = .prot v) :
    s.ns v ≠ .free := (inv_reach h).prot t v hp

/-- C75: no step destroys a node that a thread protects, whoever has retired it (partial: as `protected_partial`). -/
theorem destroy_unprotected_partial {s s' : St n m} (h : (sys fenced n m).Reach s) {t u : Fin n} {v : Nat}
    (hs : (sys fenced n m).step s (.destroy t v) = some s') : (s.ts u).pc ≠ .prot v := by
  intro hp
  have h' := protected_partial (h.step hs) (t := u) (v := v)
  simp only [sys, step] at hs
  split at hs
  · cases hs
    simp only [upd_same] at h'
    exact h' hp rfl
  · cases hs

/-- C75: a thread that finds the pointer in the cell again protects a node that is not destroyed (partial: as
`protected_partial`). -/
theorem check_alive_partial {s s' : St n m} (h : (sys fenced n m).Reach s) {t : Fin n} {i v : Nat}
    (hs : (sys fenced n m).step s (.check t i) = some s') (hp : (s'.ts t).pc = .prot v) : s'.ns v ≠ .free :=
  protected_partial (h.step hs) hp

/-! ## Without the fences -/

/-- A run after which thread 0 protects node 7, which thread 1 has destroyed. -/
def lost (fc : Fences) (as : List (Act 2 1)) : Bool :=
  match (sys fc 2 1).run (initSt 2 1) as with
  | some s => decide ((s.ts 0).pc = .prot 7 ∧ s.ns 7 = .free)
  | none => false

/-- C75, the code as it is: thread 0 protects the node, then thread 1 unlinks it, loads the old value of the hazard pointer and
destroys the node. -/
theorem protected_destroyed : lost real
    [.alloc 7, .swap 1 0 (some 7), .load 0 0 1, .set 0, .fence 0, .check 0 1, .swap 1 0 none, .retire 1 7, .scan 1,
      .hazard 1 0 0, .hazard 1 1 0, .destroy 1 7] = true := by decide +kernel

theorem no_fence_set : lost { fenced with rd := false }
    [.alloc 7, .swap 1 0 (some 7), .load 0 0 1, .set 0, .fence 0, .check 0 1, .swap 1 0 none, .retire 1 7, .scan 1,
      .hazard 1 0 0, .hazard 1 1 0, .destroy 1 7] = true := by decide +kernel

/-- With all fences: the hazard pointer is found, the node survives the first scan; it is destroyed after it was released, and its
memory used again. -/
def sample : List (Act 2 1) :=
  [.alloc 7, .swap 1 0 (some 7), .load 0 0 1, .set 0, .fence 0, .check 0 1, .swap 1 0 none, .retire 1 7, .scan 1,
    .hazard 1 0 1, .hazard 1 1 0, .leave 1, .clear 0, .scan 1, .hazard 1 0 2, .hazard 1 1 0, .destroy 1 7, .leave 1,
    .alloc 7, .swap 1 0 (some 7), .load 0 0 3, .set 0, .fence 0, .check 0 3]

theorem sample_run : ((sys fenced 2 1).run (initSt 2 1) sample).map (fun s => (s.ns 7, (s.ts 0).pc)) =
    some (.alive, .prot 7) := by decide +kernel

example : ∃ s : St 2 1, (sys fenced 2 1).Reach s ∧ (s.ts 0).pc = .prot 7 := by
  cases hr : (sys fenced 2 1).run (initSt 2 1) sample with
  | none => have h := sample_run; rw [hr] at h; cases h
  | some s =>
    have h := sample_run
    rw [hr] at h
    simp only [Option.map_some, Option.some.injEq, Prod.mk.injEq] at h
    exact ⟨s, Sys.Reach.of_run (.init rfl) hr, h.2⟩

end Verif.Weak.Hp
