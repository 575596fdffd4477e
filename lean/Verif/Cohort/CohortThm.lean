import Verif.Cohort.Cohort

/-!
# `ck_cohort`: mutual exclusion (C17), release of the global lock (C18)

C18 is violated by the code when trylock is used (`trylock_leak`); without trylock it holds.
-/

set_option linter.unusedSimpArgs false
set_option linter.unusedVariables false

namespace Verif.Cohort

open Verif Verif.Spec

variable {m n : Nat}

/-- Holds the local lock. -/
@[grind] def PC.hl : PC → Bool
  | .lDec | .lSt | .lGL | .lAcq | .tDec true | .tSt | .tGTL | .tLU | .tAcq | .crit | .uChk | .uLocal
  | .uGU | .uSt | .uAcq | .uLU => true
  | _ => false
/-- Its cohort holds the global lock. -/
@[grind] def PC.hg : PC → Bool
  | .lAcq | .tAcq | .crit | .uChk | .uLocal | .uGU => true
  | _ => false
@[grind] def PC.sf : PC → Bool
  | .lGL | .tGTL | .tLU | .uAcq => true
  | _ => false
@[grind] def PC.wt : PC → Bool
  | .lLL | .lDec | .tLTL | .tDec _ => true
  | _ => false
@[grind] def PC.tr : PC → Bool
  | .tInc | .tLTL | .tDec _ | .tSt | .tGTL | .tLU | .tAcq => true
  | _ => false

theorem PC.sf_hl {p : PC} (h : p.sf = true) : p.hl = true := by cases p <;> first | rfl | cases h
theorem PC.hg_hl {p : PC} (h : p.hg = true) : p.hl = true := by cases p <;> first | rfl | cases h

def waitP (c : Fin m) (x : Th m) : Bool := x.pc.wt && decide (x.c = c)

structure Inv (s : St m n) : Prop where
  l1 : ∀ t, (s.th t).pc.hl = true → s.loc (s.th t).c = some t
  l2 : ∀ c t, s.loc c = some t → (s.th t).c = c ∧ (s.th t).pc.hl = true
  g1 : ∀ t, (s.th t).pc.hg = true → s.glob = some (s.th t).c
  g2 : ∀ c, s.st c = true → (∀ t, s.loc c = some t → (s.th t).pc ≠ .uSt) → s.glob = some c
  g3 : ∀ t, (s.th t).pc.sf = true → s.st (s.th t).c = false
  g4 : ∀ c, s.glob = some c → s.st c = true ∨ ∃ t, s.loc c = some t ∧ (s.th t).pc.hg = true
  g5 : ∀ t, (s.th t).pc = .uSt → s.glob ≠ some (s.th t).c
  w : ∀ c, s.wait c = BitVec.ofNat 32 (cnt (waitP c) s.th)

theorem w_upd {s : St m n} (hi : Inv s) (t : Fin n) (p : PC) (w : Fin m → BitVec 32)
    (h : (p.wt = (s.th t).pc.wt ∧ w = s.wait) ∨
      (p.wt = true ∧ (s.th t).pc.wt = false ∧ w = upd s.wait (s.th t).c (s.wait (s.th t).c + 1)) ∨
      (p.wt = false ∧ (s.th t).pc.wt = true ∧ w = upd s.wait (s.th t).c (s.wait (s.th t).c - 1)))
    (hn : n < 2 ^ 32) (c : Fin m) :
    w c = BitVec.ofNat 32 (cnt (waitP c) (upd s.th t { pc := p, c := (s.th t).c })) := by
  have hc := cnt_update (waitP c) s.th t { pc := p, c := (s.th t).c }
  have hw := hi.w c
  have hle := cnt_le (waitP c) s.th
  rcases h with ⟨h1, rfl⟩ | ⟨h1, h2, rfl⟩ | ⟨h1, h2, rfl⟩
  · rw [hw]; congr 1
    simp only [waitP] at hc ⊢; rw [h1] at hc; omega
  · by_cases e : (s.th t).c = c
    · subst e
      rw [upd_same, hw]
      simp only [waitP, h1, h2] at hc
      simp at hc
      rw [hc, BitVec.ofNat_add]; rfl
    · rw [upd_ne _ _ (Ne.symm e), hw]
      simp only [waitP, h1, h2, decide_eq_false e] at hc
      congr 1; simpa using hc.symm
  · by_cases e : (s.th t).c = c
    · subst e
      rw [upd_same, hw]
      simp only [waitP, h1, h2] at hc
      simp at hc
      have := cnt_le (waitP (s.th t).c) (upd s.th t { pc := p, c := (s.th t).c })
      rw [← hc]
      apply BitVec.eq_of_toNat_eq
      simp [BitVec.toNat_sub]; omega
    · rw [upd_ne _ _ (Ne.symm e), hw]
      simp only [waitP, h1, h2, decide_eq_false e] at hc
      congr 1; simpa using hc.symm

theorem w_call {s : St m n} (hi : Inv s) (t : Fin n) (p : PC) (d : Fin m) (hp : p.wt = false)
    (h : (s.th t).pc.wt = false) (c : Fin m) :
    s.wait c = BitVec.ofNat 32 (cnt (waitP c) (upd s.th t { pc := p, c := d })) := by
  have hc := cnt_update (waitP c) s.th t { pc := p, c := d }
  rw [hi.w c]; congr 1
  simp only [waitP, hp, h] at hc ⊢; simpa using hc.symm

set_option maxHeartbeats 1000000 in
theorem inv_step {lim : Fin m → BitVec 32} {tr : Bool} (hn : n < 2 ^ 32) {s s' : St m n}
    {a : Act m n} (hi : Inv s) (hs : step lim tr s a = some s') : Inv s' := by
  have hw := fun t p w h => w_upd hi t p w h hn
  have hwc := w_call hi
  obtain ⟨l1, l2, g1, g2, g3, g4, g5, _⟩ := hi
  have x1 : ∀ t, (s.th t).pc.sf = true → (s.th t).pc.hl = true := fun t => PC.sf_hl
  have x2 : ∀ t, (s.th t).pc.hg = true → (s.th t).pc.hl = true := fun t => PC.hg_hl
  cases a <;> simp only [step, St.go] at hs
  case lock t d =>
    step_split hs; next hp =>
    constructor <;> simp only
    case w => exact hwc t _ d rfl (by rw [hp]; rfl)
    case l1 => fin l1 l2 hp
    case l2 => fin l1 l2 hp
    case g1 => fin g1 l1 l2 hp
    case g2 => fin g2 l1 l2 hp
    case g3 => fin g3 l1 l2 hp
    case g4 => fin g4 l1 l2 hp
    case g5 => fin g5 hp
  case trylock t d =>
    step_split hs; next hp =>
    replace hp := hp.2
    constructor <;> simp only
    case w => exact hwc t _ d rfl (by rw [hp]; rfl)
    case l1 => fin l1 l2 hp
    case l2 => fin l1 l2 hp
    case g1 => fin g1 l1 l2 hp
    case g2 => fin g2 l1 l2 hp
    case g3 => fin g3 l1 l2 hp
    case g4 => fin g4 l1 l2 hp
    case g5 => fin g5 hp
  case unlock t =>
    step_split hs; next hp =>
    constructor <;> simp only
    case w => exact hw t _ _ (.inl ⟨by rw [hp]; rfl, rfl⟩)
    case l1 => fin l1 l2 hp
    case l2 => fin l1 l2 hp
    case g1 => fin g1 l1 l2 hp
    case g2 => fin g2 l1 l2 hp
    case g3 => fin g3 l1 l2 hp
    case g4 => fin g4 l1 l2 hp
    case g5 => fin g5 hp
  case run t ok =>
    cases hp : (s.th t).pc
    case tDec b =>
      cases b <;> simp only [hp] at hs <;> step_split hs
      all_goals
        constructor <;> simp only
        case w => exact hw t _ _ (.inr (.inr ⟨rfl, by rw [hp]; rfl, rfl⟩))
        case l1 => fin l1 l2 hp
        case l2 => fin l1 l2 hp
        case g1 => fin g1 l1 l2 hp
        case g2 => fin g2 l1 l2 hp
        case g3 => fin g3 l1 l2 hp
        case g4 => fin g4 l1 l2 hp
        case g5 => fin g5 hp
    all_goals simp only [hp] at hs
    all_goals try (simp only [reduceCtorEq] at hs; done)
    case lInc | tInc =>
      step_split hs
      constructor <;> simp only
      case w => exact hw t _ _ (.inr (.inl ⟨rfl, by rw [hp]; rfl, rfl⟩))
      case l1 => fin l1 l2 hp
      case l2 => fin l1 l2 hp
      case g1 => fin g1 l1 l2 hp
      case g2 => fin g2 l1 l2 hp
      case g3 => fin g3 l1 l2 hp
      case g4 => fin g4 l1 l2 hp
      case g5 => fin g5 hp
    case lDec =>
      step_split hs
      constructor <;> simp only
      case w => exact hw t _ _ (.inr (.inr ⟨rfl, by rw [hp]; rfl, rfl⟩))
      case l1 => fin l1 l2 hp
      case l2 => fin l1 l2 hp
      case g1 => fin g1 l1 l2 hp
      case g2 => fin g2 l1 l2 hp
      case g3 => fin g3 l1 l2 hp
      case g4 => fin g4 l1 l2 hp
      case g5 => fin g5 hp
    all_goals
      step_split hs
      all_goals
        constructor <;> simp only
        case w => exact hw t _ _ (.inl ⟨by rw [hp]; rfl, rfl⟩)
        case l1 => fin l1 l2 hp
        case l2 => fin l1 l2 hp
        case g1 => fin g1 g2 g3 l1 l2 hp x1 x2
        case g2 => fin g1 g2 g3 l1 l2 hp
        case g3 => fin g3 l1 l2 hp x1 x2
        case g4 => fin g1 g4 g5 l1 l2 hp x1 x2
        case g5 => fin g1 g5 l1 l2 hp x1 x2

theorem inv_of_reach {lim : Fin m → BitVec 32} {tr : Bool} (hn : n < 2 ^ 32) {s : St m n}
    (h : (sys lim tr).Reach s) : Inv s := by
  refine h.invariant (I := Inv) ?_ (fun _ _ _ => inv_step hn)
  rintro s ⟨c0, rfl⟩
  constructor <;> simp [initSt, PC.hl, PC.hg, PC.sf]
  intro c
  rw [cnt_zero_of]
  intro t; rfl

/-! ## Without trylock a local hand-off always has a taker -/

/-- Some thread waits for the local lock of `c` inside lock. -/
def HasW (th : Fin n → Th m) (c : Fin m) : Prop := ∃ w, (th w).pc = .lLL ∧ (th w).c = c

theorem HasW.upd {th : Fin n → Th m} {c : Fin m} (h : HasW th c) (t : Fin n) (x : Th m)
    (ht : (th t).pc = .lLL → (th t).c ≠ c) : HasW (upd th t x) c := by
  obtain ⟨w, h1, h2⟩ := h
  have : w ≠ t := fun e => ht (e ▸ h1) (e ▸ h2)
  exact ⟨w, by rw [upd_ne _ _ this]; exact ⟨h1, h2⟩⟩

structure Inv2 (s : St m n) : Prop where
  nt : ∀ t, (s.th t).pc.tr = false
  lw1 : ∀ t, (s.th t).pc = .uLocal ∨ ((s.th t).pc = .uLU ∧ s.st (s.th t).c = true) →
    HasW s.th (s.th t).c
  lw2 : ∀ c, s.st c = true → s.loc c = none → HasW s.th c

set_option maxHeartbeats 1000000 in
theorem inv2_step {lim : Fin m → BitVec 32} (hn : n < 2 ^ 32) {s s' : St m n}
    {a : Act m n} (hi : Inv s) (hj : Inv2 s) (hs : step lim false s a = some s') : Inv2 s' := by
  have hwait : ∀ t, 0 < s.wait (s.th t).c → (s.th t).pc = .uChk →
      HasW s.th (s.th t).c := by
    intro t h0 ht
    rw [hi.w] at h0
    have h1 : 0 < cnt (waitP (s.th t).c) s.th := by
      rw [BitVec.lt_def] at h0
      have := cnt_le (waitP (s.th t).c) s.th
      simp at h0; omega
    obtain ⟨w, hw⟩ := exists_of_cnt_pos h1
    simp only [waitP, Bool.and_eq_true, decide_eq_true_eq] at hw
    refine ⟨w, ?_, hw.2⟩
    have h2 := hj.nt w
    have h3 := hi.l1 w
    have h4 := hi.l1 t (by rw [ht]; rfl)
    rw [hw.2, h4] at h3
    obtain ⟨hw1, -⟩ := hw
    cases hp : (s.th w).pc <;> rw [hp] at hw1 h2 h3 <;> simp only [PC.wt, PC.tr, reduceCtorEq] at hw1 h2 ⊢
    have := h3 rfl
    simp only [Option.some.injEq] at this
    subst this
    rw [ht] at hp; cases hp
  obtain ⟨l1, l2, g1, g2, g3, g4, g5, _⟩ := hi
  have x1 : ∀ t, (s.th t).pc.sf = true → (s.th t).pc.hl = true := fun t => PC.sf_hl
  have x2 : ∀ t, (s.th t).pc.hg = true → (s.th t).pc.hl = true := fun t => PC.hg_hl
  obtain ⟨nt, lw1, lw2⟩ := hj
  have hk : ∀ t x c, ((s.th t).pc = .lLL → (s.th t).c ≠ c) → HasW s.th c → HasW (upd s.th t x) c :=
    fun t x c h1 h2 => h2.upd t x h1
  cases a <;> simp only [step, St.go] at hs
  case lock t d =>
    step_split hs; next hp =>
    constructor <;> simp only
    case nt => fin nt hp
    case lw1 => fin lw1 hp hk
    case lw2 => fin lw2 hp hk
  case trylock t d => simp at hs
  case unlock t =>
    step_split hs; next hp =>
    constructor <;> simp only
    case nt => fin nt hp
    case lw1 => fin lw1 hp hk
    case lw2 => fin lw2 hp hk
  case run t ok =>
    have hnt := nt t
    cases hp : (s.th t).pc
    case tDec b => rw [hp] at hnt; cases hnt
    all_goals simp only [hp] at hs
    all_goals try (simp only [reduceCtorEq] at hs; done)
    all_goals try (rw [hp] at hnt; cases hnt; done)
    all_goals
      step_split hs
      all_goals
        constructor <;> simp only
        case nt => fin nt hp
        case lw1 => fin lw1 hwait hp g3 l1 l2 hk x1 x2
        case lw2 => fin lw1 lw2 hp l1 l2 hk

theorem inv2_of_reach {lim : Fin m → BitVec 32} (hn : n < 2 ^ 32) {s : St m n}
    (h : (sys lim false).Reach s) : Inv2 s := by
  have : Inv s ∧ Inv2 s := by
    refine h.invariant (I := fun s => Inv s ∧ Inv2 s) ?_
      (fun _ _ _ hi hs => ⟨inv_step hn hi.1 hs, inv2_step hn hi.1 hi.2 hs⟩)
    rintro s ⟨c0, rfl⟩
    refine ⟨inv_of_reach (lim := lim) (tr := false) hn (.init ⟨c0, rfl⟩), ?_⟩
    constructor <;> simp [initSt, PC.tr]
  exact this.2

/-! ## Properties -/

/-- C17: at most one thread over all cohorts is inside; with or without trylock. -/
theorem mutual_exclusion {lim : Fin m → BitVec 32} {tr : Bool} (hn : n < 2 ^ 32) {s : St m n}
    (h : (sys lim tr).Reach s) : MutEx s.inside := by
  have hi := inv_of_reach hn h
  intro t u ht hu
  have h1 := hi.g1 t (by rw [ht]; rfl)
  have h2 := hi.g1 u (by rw [hu]; rfl)
  have h3 := hi.l1 t (by rw [ht]; rfl)
  have h4 := hi.l1 u (by rw [hu]; rfl)
  rw [h1, Option.some.injEq] at h2
  rw [h2, h4, Option.some.injEq] at h3
  exact h3.symm

/-- C17: while a thread is inside, its local lock and the global lock are held (so CK_COHORT_LOCKED
is true for every cohort). -/
theorem inside_locked {lim : Fin m → BitVec 32} {tr : Bool} (hn : n < 2 ^ 32) {s : St m n}
    (h : (sys lim tr).Reach s) {t : Fin n} (ht : s.inside t) :
    s.glob = some (s.th t).c ∧ s.loc (s.th t).c = some t :=
  have hi := inv_of_reach hn h
  ⟨hi.g1 t (by rw [ht]; rfl), hi.l1 t (by rw [ht]; rfl)⟩

/-- C18: when every thread is outside, both locks are free and no hand-off is pending (no trylock). -/
theorem released_partial {lim : Fin m → BitVec 32} (hn : n < 2 ^ 32) {s : St m n}
    (h : (sys lim false).Reach s) (hq : ∀ t, (s.th t).pc = .idle) :
    s.glob = none ∧ (∀ c, s.loc c = none ∧ s.st c = false ∧ s.wait c = 0) := by
  have hi := inv_of_reach hn h
  have hj := inv2_of_reach hn h
  have hl : ∀ c, s.loc c = none := by
    intro c
    cases e : s.loc c
    · rfl
    · next t => have := (hi.l2 c t e).2; rw [hq t] at this; cases this
  have hst : ∀ c, s.st c = false := by
    intro c
    cases e : s.st c
    · rfl
    · obtain ⟨w, hw, -⟩ := hj.lw2 c e (hl c); rw [hq w] at hw; cases hw
  refine ⟨?_, fun c => ⟨hl c, hst c, ?_⟩⟩
  · cases e : s.glob
    · rfl
    · next c =>
      rcases hi.g4 c e with h1 | ⟨t, h1, -⟩
      · rw [hst c] at h1; cases h1
      · rw [hl c] at h1; cases h1
  · rw [hi.w c, cnt_zero_of]; rfl
    intro t; simp [waitP, hq t, PC.wt]

/-- C18, also with other threads active: if the global lock is held on behalf of cohort `c`, some
thread of `c` is on its way to use or release it (no trylock). -/
theorem global_used_partial {lim : Fin m → BitVec 32} (hn : n < 2 ^ 32) {s : St m n}
    (h : (sys lim false).Reach s) {c : Fin m} (hc : s.glob = some c) :
    ∃ t, (s.th t).c = c ∧ (s.th t).pc ≠ .idle := by
  have hi := inv_of_reach hn h
  have hj := inv2_of_reach hn h
  rcases hi.g4 c hc with h1 | ⟨t, h1, h2⟩
  · cases e : s.loc c
    · obtain ⟨w, hw, hw2⟩ := hj.lw2 c h1 e
      exact ⟨w, hw2, by rw [hw]; simp⟩
    · next t =>
      have := hi.l2 c t e
      exact ⟨t, this.1, fun e => by rw [e] at this; cases this.2⟩
  · exact ⟨t, (hi.l2 c t h1).1, fun e => by rw [e] at h2; cases h2⟩

/-- C18 is violated with trylock: thread 1's failing trylock makes the unlock of thread 0 pass the
lock on locally; nobody takes it and the global lock stays held although every thread is outside;
thread 1 of the other cohort can then never get past the global lock. -/
theorem trylock_leak : ∃ s : St 2 2, (sys (fun _ => 10) true).Reach s ∧
    (∀ t, (s.th t).pc = .idle) ∧ s.glob = some 0 := by
  have hr : ((sys (fun _ => 10) true).run (initSt 2 2 (fun _ => 0)) ([.lock 0 0, .run 0 true,
      .run 0 true, .run 0 true, .run 0 true, .run 0 true, .run 0 true, .trylock 1 0, .run 1 true,
      .unlock 0, .run 0 true, .run 1 true, .run 1 true, .run 0 true, .run 0 true])).map
      (fun s : St 2 2 => ((s.th 0).pc, (s.th 1).pc, s.glob)) = some (.idle, .idle, some 0) := by decide
  rw [Option.map_eq_some_iff] at hr
  obtain ⟨s, hs, he⟩ := hr
  simp only [Prod.mk.injEq] at he
  refine ⟨s, Sys.Reach.of_run (.init ⟨fun _ => 0, rfl⟩) hs, ?_, he.2.2⟩
  intro t
  rcases (by omega : t = 0 ∨ t = 1) with rfl | rfl
  · exact he.1
  · exact he.2.1

/-- A local hand-off (thread 0 to 1 in cohort 0 with the global lock kept) followed by a global
release and an acquisition by cohort 1. -/
example : ((sys (fun _ => 10) false).run (initSt 2 3 (fun _ => 0))
    ([.lock 0 0] ++ List.replicate 6 (.run 0 true) ++ [.lock 1 0, .run 1 true, .unlock 0] ++
     List.replicate 3 (.run 0 true) ++ List.replicate 4 (.run 1 true))).map
    (fun s : St 2 3 => ((s.th 0).pc, (s.th 1).pc, s.glob, s.st 0)) =
    some (.idle, .crit, some 0, true) := by decide

end Verif.Cohort
