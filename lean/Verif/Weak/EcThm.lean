import Verif.Weak.Ec

/-!
# Event count on relaxed memory: what waiters see, and that they are woken (C98)
-/

namespace Verif.Weak.Ec

open Verif
open Fas (opt)

variable {n : Nat}

structure QInv (m : Mem Loc Nat) (log : Nat → View Loc) (q : Q) : Prop where
  wf : q.th.Wf m
  seen : q.seen ≤ q.th.cur .cnt
  base : q.base ≤ q.seen
  log : ∀ j x, j ≤ q.seen → log j (.usr x) ≤ q.th.cur (.usr x)

structure Inv (H : Nat) (s : St n) : Prop where
  mwf : s.mem.Wf
  cum : ∀ i a x, i ≤ a → a ≤ s.mem.top .cnt → s.log i (.usr x) ≤ (s.mem.msg .cnt a).view (.usr x)
  q : ∀ t, QInv s.mem s.log (s.q t)
  sleep : ∀ t v, (s.q t).pc = .asleep v → s.mem.last .cnt = v + H ∨ ∃ u, (s.q u).pc = .clear ∨ (s.q u).pc = .wake

/-- A change of one thread. -/
theorem Inv.setQ {H : Nat} {s : St n} (h : Inv H s) {t : Fin n} {q : Q} (hq : QInv s.mem s.log q) (hc : (s.q t).pc ≠ .clear) (hw : (s.q t).pc ≠ .wake)
    (hs : ∀ v, q.pc = .asleep v → s.mem.last .cnt = v + H) : Inv H (s.setQ t q) := by
  refine ⟨h.mwf, h.cum, fun u => ?_, fun u v hu => ?_⟩
  · show QInv s.mem s.log (upd s.q t q u)
    rw [upd_apply]; split
    · exact hq
    · exact h.q u
  · replace hu : (upd s.q t q u).pc = .asleep v := hu
    rw [upd_apply] at hu
    split at hu
    · exact .inl (hs v hu)
    · refine (h.sleep u v hu).imp_right ?_
      rintro ⟨w, hw'⟩
      refine ⟨w, ?_⟩
      have : w ≠ t := by rintro rfl; rcases hw' with h1 | h1 <;> contradiction
      show (upd s.q t q w).pc = _ ∨ (upd s.q t q w).pc = _
      rw [upd_ne _ _ this]; exact hw'

theorem QInv.mono {m : Mem Loc Nat} {log : Nat → View Loc} {q q' : Q} (h : QInv m log q) (h1 : ∀ l, q.th.cur l ≤ q'.th.cur l) (h2 : q'.th.Wf m)
    (h3 : q'.seen = q.seen) (h4 : q'.base = q.base ∨ q'.base = q.seen) : QInv m log q' := by
  have := h.base
  refine ⟨h2, by rw [h3]; exact Nat.le_trans h.seen (h1 _), ?_, fun j x hj => Nat.le_trans (h.log j x (by omega)) (h1 _)⟩
  rcases h4 with h4 | h4 <;> omega

theorem load_cnt {q : Th Loc} {m : Mem Loc Nat} {i : Nat} (hm : q.may m .cnt i) : (q.load m .cnt i).cur .cnt = i := by
  have := hm.1
  simp only [Th.load, join_apply, upd_same]; omega

theorem QInv.load {H : Nat} {s : St n} (hi : Inv H s) {q : Q} (h : QInv s.mem s.log q) {i : Nat} (hm : q.th.may s.mem .cnt i) (pc : PC) :
    QInv s.mem s.log (q.load s.mem i pc) :=
  h.mono (Th.load_cur_le _ _ _ _) (h.wf.load hi.mwf hm.2) rfl (.inl rfl)

/-- The call returns. -/
theorem QInv.ret {H : Nat} {s : St n} (hi : Inv H s) {q : Q} (h : QInv s.mem s.log q) {i : Nat} (hm : q.th.may s.mem .cnt i) (pc : PC) :
    QInv s.mem s.log (q.ret s.mem i true pc) := by
  have e : (q.ret s.mem i true pc).th = (q.th.load s.mem .cnt i).fenceLoad := rfl
  refine ⟨(h.wf.load hi.mwf hm.2).fenceLoad, ?_, Nat.le_trans h.base (Nat.le_trans h.seen hm.1), fun j x hj => ?_⟩
  · rw [e]
    refine Nat.le_trans ?_ (le_join_left _ _ _)
    rw [load_cnt hm]; exact Nat.le_refl _
  · refine Nat.le_trans (hi.cum j i x hj hm.2) ?_
    rw [e]
    exact Nat.le_trans (Th.load_view_le _ _ _ _ _) (le_join_right _ _ _)

/-- The value is the one waited for. -/
theorem QInv.again {H : Nat} {s : St n} (hi : Inv H s) {q : Q} (h : QInv s.mem s.log q) {i : Nat} (hm : q.th.may s.mem .cnt i) (pc : PC) {b : Nat}
    (hb : b = q.base ∨ b = q.seen) : QInv s.mem s.log { q with th := (q.th.load s.mem .cnt i).fenceAcq, pc := pc, base := b } :=
  h.mono (fun l => Nat.le_trans (Th.load_cur_le _ _ _ _ _) (le_join_left _ _ _)) (h.wf.load hi.mwf hm.2).fenceAcq rfl hb

/-- A store or an atomic operation, seen by other threads. -/
theorem QInv.put {m m' : Mem Loc Nat} {log : Nat → View Loc} {q : Q} (h : QInv m log q) (ht : ∀ y, m.top y ≤ m'.top y) (w : View Loc) :
    QInv m' log q ∧ QInv m' (upd log (m.top .cnt + 1) w) q := by
  have h1 := h.wf.mono ht
  refine ⟨⟨h1, h.seen, h.base, h.log⟩, h1, h.seen, h.base, fun j x hj => ?_⟩
  have := (h.wf .cnt).1
  have := h.seen
  rw [upd_ne _ _ (by omega)]
  exact h.log j x hj

theorem Inv.rmw {H : Nat} {s : St n} (h : Inv H s) {t : Fin n} {th : Th Loc} {v : Nat} {pc : PC} {w : View Loc} (hth : th.Wf s.mem)
    (hcur : th.cur = (s.q t).th.cur) (hw : ∀ x, w (.usr x) ≤ th.rel (.usr x)) (hpc : ∀ v, pc ≠ .asleep v)
    (hs : v = s.mem.last .cnt ∨ (∀ u v', (s.q u).pc = .asleep v' → s.mem.last .cnt ≠ v' + H) ∨ pc = .clear ∨ pc = .wake)
    (hc : (s.q t).pc = .clear ∨ (s.q t).pc = .wake → pc = .clear ∨ pc = .wake) : Inv H (s.rmw t th v pc w) := by
  have hp := Put.rmw s.mem th .cnt v
  have hput := fun u => ((h.q u).put (m' := s.mem.rmw th .cnt v) hp.top_le w).2
  refine ⟨h.mwf.rmw hth _ _, fun i a x h1 h2 => ?_, fun u => ?_, fun u v' hu => ?_⟩
  · replace h2 : a ≤ (s.mem.rmw th .cnt v).top .cnt := h2
    show (upd s.log (s.mem.top .cnt + 1) w i) (.usr x) ≤ ((s.mem.rmw th .cnt v).msg .cnt a).view (.usr x)
    rw [hp.top, if_pos rfl] at h2
    by_cases ha : a = s.mem.top .cnt + 1
    · rw [ha, hp.new]
      show _ ≤ (upd (join th.rel (s.mem.msg .cnt (s.mem.top .cnt)).view) .cnt (s.mem.top .cnt + 1)) (.usr x)
      rw [upd_ne _ _ (show Loc.usr x ≠ .cnt by simp), upd_apply]
      split
      · exact Nat.le_trans (hw x) (le_join_left _ _ _)
      · exact Nat.le_trans (h.cum i _ x (by omega) (Nat.le_refl _)) (le_join_right _ _ _)
    · rw [hp.old _ _ (by omega), upd_ne _ _ (by omega)]
      exact h.cum i a x h1 (by omega)
  · show QInv (s.mem.rmw th .cnt v) (upd s.log (s.mem.top .cnt + 1) w) (upd s.q t _ u)
    rw [upd_apply]
    split
    · next e =>
      refine (hput t).mono (fun l => ?_) (hth.rmw h.mwf _ _) rfl (.inl rfl)
      show (s.q t).th.cur l ≤ (th.rmw s.mem .cnt).cur l
      rw [← hcur]
      by_cases el : l = .cnt
      · subst el
        refine Nat.le_trans (hth .cnt).1 ?_
        simp only [Th.rmw, Th.store, upd_same]; omega
      · exact Th.rmw_cur_le _ s.mem .cnt el
    · exact hput u
  · replace hu : (upd s.q t { s.q t with th := th.rmw s.mem .cnt, pc := pc } u).pc = .asleep v' := hu
    have hpcs : ∀ z, z ≠ t → (upd s.q t { s.q t with th := th.rmw s.mem .cnt, pc := pc } z).pc = (s.q z).pc := fun z hz => by rw [upd_ne _ _ hz]
    have hut : u ≠ t := by
      rintro rfl
      rw [upd_same] at hu
      exact hpc v' hu
    rw [hpcs u hut] at hu
    show (s.mem.rmw th .cnt v).last .cnt = _ ∨ ∃ z, (upd s.q t { s.q t with th := th.rmw s.mem .cnt, pc := pc } z).pc = _ ∨ (upd s.q t _ z).pc = _
    rw [hp.last, if_pos rfl]
    have hmine : pc = .clear ∨ pc = .wake → ∃ z, (upd s.q t { s.q t with th := th.rmw s.mem .cnt, pc := pc } z).pc = .clear
        ∨ (upd s.q t { s.q t with th := th.rmw s.mem .cnt, pc := pc } z).pc = .wake := fun e => ⟨t, by rw [upd_same]; exact e⟩
    have hother : (∃ z, (s.q z).pc = .clear ∨ (s.q z).pc = .wake) → ∃ z, (upd s.q t { s.q t with th := th.rmw s.mem .cnt, pc := pc } z).pc = .clear
        ∨ (upd s.q t { s.q t with th := th.rmw s.mem .cnt, pc := pc } z).pc = .wake := by
      rintro ⟨z, hz⟩
      by_cases e : z = t
      · subst e; exact hmine (hc hz)
      · exact ⟨z, by rw [hpcs z e]; exact hz⟩
    rcases h.sleep u v' hu with h1 | h1
    · rcases hs with h2 | h2 | h2
      · left; omega
      · exact absurd h1 (h2 u v' hu)
      · exact .inr (hmine h2)
    · exact .inr (hother h1)

theorem init_inv (H v : Nat) : Inv H (initSt n v) := by
  refine ⟨Mem.Wf.init _, fun i a x _ _ => Nat.zero_le _, fun t => ⟨Th.Wf.init _, Nat.le_refl _, Nat.le_refl _, fun _ _ _ => Nat.zero_le _⟩, fun t v h => ?_⟩
  simp [initSt] at h

/-- The value waited for. -/
def PC.arg : PC → Option Nat
  | .easy v | .cas v | .spin v | .slow v | .asleep v | .aft v | .chk v | .done v => some v
  | _ => none

def Lt (H : Nat) (s : St n) : Prop := ∀ t v, (s.q t).pc.arg = some v → v < H

theorem Lt.upd {H : Nat} {s : St n} (h : Lt H s) {t : Fin n} {q : Q} (hq : q.pc.arg = none ∨ q.pc.arg = (s.q t).pc.arg) (u : Fin n) (v : Nat)
    (e : (upd s.q t q u).pc.arg = some v) : v < H := by
  rw [upd_apply] at e
  split at e
  · rcases hq with hq | hq <;> rw [hq] at e
    · cases e
    · exact h t v e
  · exact h u v e

theorem step_lt {H : Nat} {fc : Fences} {s s' : St n} {a : Act n} (h : Lt H s) (hs : step H fc s a = some s') : Lt H s' := by
  cases a with
  | wake t =>
    simp only [step] at hs
    split at hs
    · cases hs
      intro u v e
      simp only at e
      split at e
      · cases e
      · split at e
        · next w hw => exact h u v (by rw [hw]; exact e)
        · exact h u v e
    · cases hs
  | wait t w i =>
    simp only [step] at hs
    split at hs
    · next hc =>
      split at hs <;> cases hs <;> intro u v e
      all_goals
        simp only [St.setQ, upd_apply] at e
        split at e
        · cases e; exact hc.2.2
        · exact h u v e
    · cases hs
  | _ =>
    simp only [step] at hs
    repeat' split at hs
    all_goals first
      | (cases hs; done)
      | (cases hs
         refine h.upd ?_
         simp_all [PC.arg, Q.ret, Q.load]
         done)
      | (cases hs
         refine h.upd ?_
         simp only [Q.ret, Q.load]
         split <;> simp_all [PC.arg])

theorem step_inv {H : Nat} {s s' : St n} {a : Act n} (h : Inv H s) (hlt : Lt H s) (hs : step H real s a = some s') : Inv H s' := by
  cases a with
  | read t x i =>
    simp only [step] at hs
    split at hs
    · next hc =>
      cases hs
      exact h.setQ ((h.q t).mono (Th.load_cur_le _ _ _ _) ((h.q t).wf.load h.mwf hc.2.2) rfl (.inl rfl)) (by simp [hc.1]) (by simp [hc.1]) (by simp [hc.1])
    · cases hs
  | write t x v =>
    simp only [step] at hs
    split at hs
    · next hc =>
      cases hs
      have hp := Put.store s.mem (s.q t).th (.usr x) v
      refine ⟨h.mwf.store (h.q t).wf _ _, fun i a y h1 h2 => ?_, fun u => ?_, fun u v' hu => ?_⟩
      · replace h2 : a ≤ (s.mem.store _ _ _).top .cnt := h2
        show _ ≤ ((s.mem.store _ _ _).msg .cnt a).view _
        rw [hp.top_ne (by simp)] at h2
        rw [hp.old _ _ h2]
        exact h.cum i a y h1 h2
      · show QInv (s.mem.store _ _ _) s.log (upd s.q t _ u)
        have hput := fun u => ((h.q u).put (m' := s.mem.store (s.q t).th (.usr x) v) hp.top_le (fun _ => 0)).1
        rw [upd_apply]; split
        · refine (hput t).mono (fun l => ?_) ((h.q t).wf.store _ _) rfl (.inl rfl)
          simp only [Th.store, upd_apply]
          split
          · next e => rw [e]; have := ((h.q t).wf (.usr x)).1; omega
          · exact Nat.le_refl _
        · exact hput u
      · have hpcs : ∀ z, (upd s.q t { s.q t with th := (s.q t).th.store s.mem (.usr x) } z).pc = (s.q z).pc := by
          intro z; rw [upd_apply]; split
          · next e => rw [e]
          · rfl
        have e : (s.mem.store (s.q t).th (.usr x) v).last .cnt = s.mem.last .cnt := by rw [hp.last, if_neg (by simp)]
        simp only [hpcs, e] at hu ⊢
        exact h.sleep u v' hu
    · cases hs
  | value t i =>
    simp only [step] at hs
    split at hs
    · next hc =>
      cases hs
      exact h.setQ ((h.q t).ret h hc.2 _) (by simp [hc.1]) (by simp [hc.1]) (by simp [Q.ret])
    · cases hs
  | add t d =>
    simp only [step] at hs
    split at hs
    · next hc =>
      simp only [opt, real, if_true, Option.some.injEq] at hs
      subst hs
      refine h.rmw (h.q t).wf.fenceStore rfl (fun x => le_join_right _ _ _) (fun v => by split <;> simp) ?_ (by simp [hc])
      by_cases hf : H ≤ s.mem.last .cnt
      · right; right; left; simp [hf]
      · right; left
        intro u v' _ e
        omega
    · cases hs
  | clear t =>
    simp only [step] at hs
    split at hs
    · cases hs
      exact h.rmw (h.q t).wf rfl (fun x => Nat.zero_le _) (fun v => by simp) (.inr (.inr (.inr rfl))) (fun _ => .inr rfl)
    · cases hs
  | wake t =>
    simp only [step] at hs
    split at hs
    · next hc =>
      cases hs
      refine ⟨h.mwf, h.cum, fun u => ?_, fun u v hu => ?_⟩
      · simp only
        split
        · exact (h.q u).mono (fun _ => Nat.le_refl _) (h.q u).wf rfl (.inl rfl)
        · split
          · exact (h.q u).mono (fun _ => Nat.le_refl _) (h.q u).wf rfl (.inl rfl)
          · exact h.q u
      · simp only at hu
        split at hu
        · simp at hu
        · split at hu
          · simp at hu
          · next hne => exact absurd hu (hne v)
    · cases hs
  | wait t v i =>
    simp only [step] at hs
    split at hs
    · next hc =>
      have hq : QInv s.mem s.log { s.q t with base := (s.q t).seen } := (h.q t).mono (fun _ => Nat.le_refl _) (h.q t).wf rfl (.inr rfl)
      split at hs
      · cases hs
        exact h.setQ (hq.ret h hc.2.1 _) (by simp [hc.1]) (by simp [hc.1]) (by simp [Q.ret])
      · cases hs
        exact h.setQ (hq.again h hc.2.1 _ (.inl rfl)) (by simp [hc.1]) (by simp [hc.1]) (by simp)
    · cases hs
  | stall t i =>
    simp only [step] at hs
    split at hs
    · next v hpc =>
      split at hs
      · next hm => cases hs; exact h.setQ ((h.q t).load h hm _) (by simp [hpc]) (by simp [hpc]) (by simp [Q.load])
      · cases hs
    · next v hpc =>
      split at hs
      · next hm => cases hs; exact h.setQ ((h.q t).load h hm _) (by simp [hpc]) (by simp [hpc]) (by simp [Q.load])
      · cases hs
    · cases hs
  | easy t i =>
    simp only [step] at hs
    split at hs
    · next v hpc =>
      split at hs
      · next hm =>
        split at hs
        · cases hs; exact h.setQ ((h.q t).load h hm _) (by simp [hpc]) (by simp [hpc]) (by simp [Q.load])
        · split at hs
          · cases hs; exact h.setQ ((h.q t).ret h hm _) (by simp [hpc]) (by simp [hpc]) (by simp [Q.ret])
          · cases hs; exact h.setQ ((h.q t).load h hm _) (by simp [hpc]) (by simp [hpc]) (by simp [Q.load])
      · cases hs
    · cases hs
  | casOk t =>
    simp only [step] at hs
    split at hs
    · next v hpc =>
      split at hs
      · next hl =>
        cases hs
        have hv := hlt t v (by rw [hpc]; rfl)
        exact h.rmw (h.q t).wf rfl (fun x => Nat.zero_le _) (fun v => by simp) (.inr (.inl fun u v' _ h2 => by omega)) (by simp [hpc])
      · cases hs
    · cases hs
  | casFail t i =>
    simp only [step] at hs
    split at hs
    · next v hpc =>
      split at hs
      · next hm =>
        split at hs
        · cases hs; exact h.setQ ((h.q t).load h hm.1 _) (by simp [hpc]) (by simp [hpc]) (by simp [Q.load])
        · cases hs; exact h.setQ ((h.q t).ret h hm.1 _) (by simp [hpc]) (by simp [hpc]) (by simp [Q.ret])
      · cases hs
    · cases hs
  | spin t i =>
    simp only [step] at hs
    split at hs
    · next v hpc =>
      split at hs
      · next hm =>
        split at hs
        · cases hs; exact h.setQ ((h.q t).ret h hm _) (by simp [hpc]) (by simp [hpc]) (by simp [Q.ret])
        · cases hs; exact h.setQ ((h.q t).load h hm _) (by simp [hpc]) (by simp [hpc]) (by simp [Q.load])
      · cases hs
    · cases hs
  | futex t =>
    simp only [step] at hs
    split at hs
    · next v hpc =>
      cases hs
      refine h.setQ ((h.q t).mono (fun _ => Nat.le_refl _) (h.q t).wf rfl (.inl rfl)) (by simp [hpc]) (by simp [hpc]) (fun v' e => ?_)
      simp only at e
      split at e
      · next hl => simp only [PC.asleep.injEq] at e; rw [← e]; exact hl
      · simp at e
    · cases hs
  | out t =>
    simp only [step] at hs
    split at hs
    · next v hpc =>
      cases hs
      exact h.setQ ((h.q t).mono (fun _ => Nat.le_refl _) (h.q t).wf rfl (.inl rfl)) (by simp [hpc]) (by simp [hpc]) (by simp)
    · cases hs
  | aft t i =>
    simp only [step] at hs
    split at hs
    · next v hpc =>
      split at hs
      · next hm =>
        cases hs
        refine h.setQ ((h.q t).load h hm _) (by simp [hpc]) (by simp [hpc]) (fun v' e => ?_)
        simp only [Q.load] at e
        split at e <;> simp at e
      · cases hs
    · cases hs
  | chk t i =>
    simp only [step] at hs
    split at hs
    · next v hpc =>
      split at hs
      · next hm =>
        split at hs
        · cases hs; exact h.setQ ((h.q t).ret h hm _) (by simp [hpc]) (by simp [hpc]) (by simp [Q.ret])
        · cases hs; exact h.setQ ((h.q t).again h hm _ (.inl rfl)) (by simp [hpc]) (by simp [hpc]) (by simp)
      · cases hs
    · cases hs
  | leave t =>
    simp only [step] at hs
    split at hs
    · next v hpc =>
      cases hs
      exact h.setQ ((h.q t).mono (fun _ => Nat.le_refl _) (h.q t).wf rfl (.inl rfl)) (by simp [hpc]) (by simp [hpc]) (by simp)
    · cases hs

theorem inv {H v : Nat} {s : St n} (h : (sys H real n v).Reach s) : Inv H s ∧ Lt H s :=
  Sys.Reach.invariant (I := fun s => Inv H s ∧ Lt H s) (fun s hs => by rw [show s = initSt n v from hs]; exact ⟨init_inv H v, fun t v e => by simp [initSt, PC.arg] at e⟩)
    (fun _ _ _ hi hs => ⟨step_inv hi.1 hi.2 hs, step_lt hi.2 hs⟩) h

/-! ## C98 -/

/-- A store by the client is in its thread's own stores: its number is one more than that of the last one. -/
theorem write_own {H v : Nat} {s s' : St n} {t : Fin n} {x w : Nat} (h : (sys H real n v).step s (.write t x w) = some s') :
    (s'.q t).th.wr (.usr x) = s.mem.top (.usr x) + 1 ∧ s'.mem.msg (.usr x) (s.mem.top (.usr x) + 1) = ⟨w, (s'.mem.msg (.usr x) (s.mem.top (.usr x) + 1)).view⟩ := by
  simp only [sys, step] at h
  split at h
  · cases h
    simp [Th.store, Mem.store]
  · cases h

/-- The log of an increment is what its thread has stored before. -/
theorem add_log {H v : Nat} {s s' : St n} {t : Fin n} {d : Nat} (h : (sys H real n v).step s (.add t d) = some s') :
    s'.mem.top .cnt = s.mem.top .cnt + 1 ∧ s'.log (s'.mem.top .cnt) = (s.q t).th.wr ∧ s'.mem.last .cnt = (s.mem.last .cnt + d) % (2 * H) := by
  simp only [sys, step] at h
  split at h
  · cases h
    simp [St.rmw, Mem.rmw, Mem.store, Mem.last]
  · cases h

/-- No step changes the log of an increment. -/
theorem log_fixed {H : Nat} {fc : Fences} {s s' : St n} {a : Act n} (hs : step H fc s a = some s') {i : Nat} (hi : i ≤ s.mem.top .cnt) : s'.log i = s.log i := by
  cases a with
  | _ =>
    simp only [step] at hs
    repeat' split at hs
    all_goals first
      | (cases hs; done)
      | (cases hs; rfl)
      | (cases hs; exact upd_ne _ _ (by omega))

/-- After a call of `ck_ec_value` or `ck_ec_wait` which has loaded the value of the counter stored by an increment or a later one, the client sees all that was stored before this increment: a load of
`usr x` cannot return an older value than that. -/
theorem reads_new {H v : Nat} {s s' : St n} (h : (sys H real n v).Reach s) {t : Fin n} {x i : Nat} (hs : (sys H real n v).step s (.read t x i) = some s') {j : Nat} (hj : j ≤ (s.q t).seen) :
    s.log j (.usr x) ≤ i := by
  simp only [sys, step] at hs
  split at hs
  · next hc => exact Nat.le_trans (((inv h).1.q t).log j x hj) hc.2.1
  · cases hs

/-- What the client has once seen of the counter it never goes back behind, and it is a value the counter has had. -/
theorem seen_mono {H v : Nat} {s s' : St n} (h : (sys H real n v).Reach s) {a : Act n} (hs : (sys H real n v).step s a = some s') (t : Fin n) :
    (s.q t).seen ≤ (s'.q t).seen ∧ (s'.q t).seen ≤ s'.mem.top .cnt := by
  have h' := (inv (h.step hs)).1.q t
  refine ⟨?_, Nat.le_trans h'.seen (h'.wf .cnt).1⟩
  have hi := (inv h).1
  have key : ∀ (u : Fin n) (q : Q), (s.q u).seen ≤ q.seen → (s.q t).seen ≤ (upd s.q u q t).seen := by
    intro u q hq
    rw [upd_apply]; split
    · next e => rw [e]; exact hq
    · exact Nat.le_refl _
  have hm : ∀ (u : Fin n) (i : Nat), (s.q u).th.may s.mem .cnt i → (s.q u).seen ≤ i := fun u i hm => Nat.le_trans (hi.q u).seen hm.1
  cases a with
  | wake u =>
    simp only [sys, step] at hs
    split at hs
    · cases hs
      simp only
      split
      · exact Nat.le_refl _
      · split <;> exact Nat.le_refl _
    · cases hs
  | _ =>
    simp only [sys, step] at hs
    repeat' split at hs
    all_goals first
      | (cases hs; done)
      | (cases hs; exact key _ _ (Nat.le_refl _))
      | (rename_i hc _; cases hs; exact key _ _ (hm _ _ hc.2.1))
      | (rename_i hc; cases hs; exact key _ _ (hm _ _ hc.2))
      | (rename_i hc _ _; cases hs; exact key _ _ (hm _ _ hc))
      | (rename_i hc _; cases hs; exact key _ _ (hm _ _ hc))
      | (rename_i hc _; cases hs; exact key _ _ (hm _ _ hc.1))

/-- No lost wake-up: when a thread sleeps the counter has the value it waits for and the flag, or a producer is about to wake it. -/
theorem no_lost {H v : Nat} {s : St n} (h : (sys H real n v).Reach s) {t : Fin n} {w : Nat} (hp : (s.q t).pc = .asleep w) :
    s.mem.last .cnt = w + H ∨ ∃ u, (s.q u).pc = .clear ∨ (s.q u).pc = .wake := (inv h).1.sleep t w hp

/-- `ck_ec_wait` returns 0 only after a load of a word other than the one it waits with, and not an older one than the client has seen before the call. -/
theorem wait_zero {H v : Nat} {s : St n} (h : (sys H real n v).Reach s) {t : Fin n} {w : Nat} (hp : (s.q t).pc = .done w) :
    (s.mem.msg .cnt (s.q t).seen).val ≠ w + H ∧ (s.q t).base ≤ (s.q t).seen ∧ (s.q t).seen ≤ s.mem.top .cnt := by
  refine ⟨?_, ((inv h).1.q t).base, Nat.le_trans ((inv h).1.q t).seen (((inv h).1.q t).wf .cnt).1⟩
  have hb : Inv H s ∧ Lt H s ∧ ∀ t v, (s.q t).pc = .done v → (s.mem.msg .cnt (s.q t).seen).val ≠ v + H := by
    refine Sys.Reach.invariant (I := fun s => Inv H s ∧ Lt H s ∧ ∀ t v, (s.q t).pc = .done v → (s.mem.msg .cnt (s.q t).seen).val ≠ v + H) (fun s hs => ?_)
      (fun s a s' hi hs => ⟨step_inv hi.1 hi.2.1 hs, step_lt hi.2.1 hs, fun u w hu => ?_⟩) h
    · rw [show s = initSt n v from hs]
      exact ⟨init_inv H v, fun t v e => by simp [initSt, PC.arg] at e, fun t v e => by simp [initSt] at e⟩
    · obtain ⟨h1, h2, h3⟩ := hi
      have hold : ∀ {m' : Mem Loc Nat} {l : Loc} {x : Nat} {w' : View Loc}, Put s.mem m' l x w' → ∀ u, (m'.msg .cnt (s.q u).seen).val = (s.mem.msg .cnt (s.q u).seen).val :=
        fun hp u => by rw [hp.old _ _ (Nat.le_trans (h1.q u).seen ((h1.q u).wf .cnt).1)]
      have hmod : ∀ {x w : Nat}, w < H → x % H ≠ w → x ≠ w + H := by
        rintro x w hw hx rfl
        rw [Nat.add_mod_right, Nat.mod_eq_of_lt hw] at hx
        exact hx rfl
      have set : ∀ (t : Fin n) (q : Q), (∀ w, q.pc = .done w → (s.mem.msg .cnt q.seen).val ≠ w + H) → (upd s.q t q u).pc = .done w →
          (s.mem.msg .cnt (upd s.q t q u).seen).val ≠ w + H := by
        intro t q hq
        rw [upd_apply]; split
        · exact hq w
        · exact h3 u w
      have put : ∀ {m' : Mem Loc Nat} {l : Loc} {x : Nat} {w' : View Loc}, Put s.mem m' l x w' → ∀ (t : Fin n) (q : Q), (∀ w, q.pc ≠ .done w) →
          (upd s.q t q u).pc = .done w → (m'.msg .cnt (upd s.q t q u).seen).val ≠ w + H := by
        intro m' l x w' hp t q hq
        rw [upd_apply]; split
        · exact fun e => absurd e (hq w)
        · rw [hold hp u]; exact h3 u w
      cases a with
      | wake t =>
        simp only [sys, step] at hs
        split at hs
        · cases hs
          simp only at hu ⊢
          by_cases hne : u = t
          · rw [if_pos hne] at hu; cases hu
          · rw [if_neg hne] at hu ⊢
            cases e : (s.q u).pc <;> rw [e] at hu <;> simp only [e] at hu ⊢ <;> first | (cases hu; done) | exact h3 u w (e.trans hu)
        · cases hs
      | write t x v =>
        simp only [sys, step] at hs
        split at hs
        · next hc => cases hs; exact put (Put.store _ _ _ _) t _ (by simp [hc]) hu
        · cases hs
      | add t d =>
        simp only [sys, step] at hs
        split at hs
        · cases hs; exact put (Put.rmw _ _ _ _) t _ (by simp only; intro w; split <;> simp) hu
        · cases hs
      | clear t =>
        simp only [sys, step] at hs
        split at hs
        · cases hs; exact put (Put.rmw _ _ _ _) t _ (by simp) hu
        · cases hs
      | casOk t =>
        simp only [sys, step] at hs
        split at hs
        · split at hs
          · cases hs; exact put (Put.rmw _ _ _ _) t _ (by simp) hu
          · cases hs
        · cases hs
      | wait t x i =>
        simp only [sys, step] at hs
        split at hs
        · next hc =>
          split at hs
          · next hne =>
            cases hs
            refine set t _ (fun w e => ?_) hu
            cases e
            exact hmod hc.2.2 hne
          · cases hs; exact set t _ (by simp) hu
        · cases hs
      | chk t i =>
        simp only [sys, step] at hs
        split at hs
        · next hpc =>
          split at hs
          · split at hs
            · next hne =>
              cases hs
              refine set t _ (fun w e => ?_) hu
              cases e
              exact hmod (h2 t _ (by rw [hpc]; rfl)) hne
            · cases hs; exact set t _ (by simp) hu
          · cases hs
        · cases hs
      | _ =>
        simp only [sys, step] at hs
        repeat' split at hs
        all_goals first
          | (cases hs; done)
          | (cases hs; exact set _ _ (by simp_all [Q.load, Q.ret]) hu)
          | (cases hs
             refine set _ _ ?_ hu
             simp only [Q.load]
             intro w; split <;> simp)
  exact hb.2.2 t w hp

end Verif.Weak.Ec
