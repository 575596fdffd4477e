import Verif.Progress.Lf
import Verif.Ht.HsRead

/-!
# `ck_hs_get` never waits for the writer (C107)

The model of C48 (`Ht/HsRead.lean`), from any state without readers.  The counters of `P` belong to the get in progress of a reader: its
loads, the largest probe bound it has loaded, and the stores of the writer to a generation meanwhile.
-/

set_option linter.unusedSectionVars false

namespace Verif.Hs.Lf

open Verif Verif.Hs

variable {K V T : Type} [DecidableEq K] [DecidableEq V] [DecidableEq T]

structure P (K V T : Type) where
  st : St K V T
  /-- loads of the get in progress -/
  k : T → Nat
  /-- the largest probe bound that it has loaded -/
  m : T → Nat
  /-- generation stores of the writer since the call -/
  g : T → Nat

/-- The writer's next store is one to a generation. -/
def isSig (l : List (Stmt V)) : Bool := match l with
  | .sig _ :: _ => true
  | _ => false

/-- The probe bound that was loaded. -/
def lim : RPC K V → Nat
  | .scan _ _ _ b _ => b
  | _ => 0

def count (p : P K V T) (s' : St K V T) : Act K V T → P K V T
  | .call t _ => { st := s', k := upd p.k t 0, m := upd p.m t 0, g := upd p.g t 0 }
  | .next t => { p with st := s', k := upd p.k t (p.k t + 1), m := upd p.m t (Nat.max (p.m t) (lim (s'.rd t))) }
  | .exec => { p with st := s', g := fun t => if isSig p.st.pend then p.g t + 1 else p.g t }
  | _ => { p with st := s' }

/-- Readers and writer with the counters; the set and the operation in progress of the writer are arbitrary at first. -/
def sysP (cfg : Cfg K V) : Sys (P K V T) (Act K V T) :=
  { init := fun p => ∀ t, p.st.rd t = .idle
    step := fun p a => (step cfg p.st a).map fun s' => count p s' a }


/-- Generation stores that the attempt has missed. -/
def missed (cfg : Cfg K V) (maps : Nat → Map V) (q : K) (a g : Nat) : Nat := (maps a).gen (decide (cfg.hash q % 2 = 1)) - g

/-- An attempt with `n` loads so far, before (`o = none`) or after it has loaded the generation. -/
def At (cfg : Cfg K V) (p : P K V T) (t : T) (q : K) (a : Nat) (g n : Nat) : Prop :=
  a ≤ p.st.cur ∧ g ≤ (p.st.maps a).gen (decide (cfg.hash q % 2 = 1)) ∧ missed cfg p.st.maps q a g ≤ p.g t ∧
    p.k t ≤ (p.g t - missed cfg p.st.maps q a g) * (p.m t + 6) + n

def RI (cfg : Cfg K V) (p : P K V T) (t : T) : Prop :=
  match p.st.rd t with
  | .idle => True
  | .start _ => p.k t ≤ p.g t * (p.m t + 6)
  | .gotM _ a => a ≤ p.st.cur ∧ p.k t ≤ p.g t * (p.m t + 6) + 1
  | .gotG q a g => At cfg p t q a g 2
  | .gotB q a g => At cfg p t q a g 3
  | .scan q a g b i => At cfg p t q a g (4 + i) ∧ i ≤ b ∧ b ≤ p.m t
  | .fin q a g _ => At cfg p t q a g (p.m t + 5)
  | .done _ _ => p.k t ≤ (p.g t + 1) * (p.m t + 6)

/-- What a store of the writer does to the maps that a reader may hold. -/
theorem mexec_gen (maps : Nat → Map V) (cur : Nat) (st : Stmt V) (a : Nat) (ha : a ≤ cur) (b : Bool) :
    a ≤ (mexec maps cur st).2 ∧ (((mexec maps cur st).1 a).gen b = (maps a).gen b ∨
      (isSig [st] = true ∧ ((mexec maps cur st).1 a).gen b = (maps a).gen b + 1)) := by
  cases st with
  | publish u c => exact ⟨Nat.le_succ_of_le ha, .inl (by simp only [mexec]; rw [upd_ne _ _ (by omega)])⟩
  | sig p =>
    refine ⟨ha, ?_⟩
    simp only [mexec, exec]
    by_cases e : a = cur
    · subst e
      rw [upd_same]
      by_cases eb : b = p
      · subst eb; exact .inr ⟨rfl, upd_same _ _ _⟩
      · exact .inl (upd_ne _ _ eb)
    · exact .inl (by rw [upd_ne _ _ e])
  | _ =>
    refine ⟨ha, .inl ?_⟩
    simp only [mexec, exec]
    by_cases e : a = cur
    · subst e; rw [upd_same]
    · rw [upd_ne _ _ e]

theorem At.exec {cfg : Cfg K V} {p p' : P K V T} {t : T} {q : K} {a g n : Nat} (h : At cfg p t q a g n) {st : Stmt V}
    (hc : p'.st.cur = (mexec p.st.maps p.st.cur st).2) (hm : p'.st.maps = (mexec p.st.maps p.st.cur st).1)
    (hk : p'.k t = p.k t) (hm' : p'.m t = p.m t) (hg : p'.g t = if isSig [st] then p.g t + 1 else p.g t) :
    At cfg p' t q a g n := by
  obtain ⟨h1, h2, h3, h4⟩ := h
  obtain ⟨e1, e2⟩ := mexec_gen p.st.maps p.st.cur st a h1 (decide (cfg.hash q % 2 = 1))
  simp only [At, missed, hc, hm, hk, hm', hg] at *
  rcases e2 with e2 | ⟨e3, e2⟩
  · rw [e2]
    split
    · refine ⟨e1, h2, by omega, Nat.le_trans h4 ?_⟩
      exact Nat.add_le_add_right (Nat.mul_le_mul_right _ (by omega)) _
    · exact ⟨e1, h2, h3, h4⟩
  · rw [e2, if_pos e3]
    refine ⟨e1, by omega, by omega, Nat.le_trans h4 ?_⟩
    exact Nat.add_le_add_right (Nat.mul_le_mul_right _ (by omega)) _

theorem isSig_cons (st : Stmt V) (l : List (Stmt V)) : isSig (st :: l) = isSig [st] := by
  cases st <;> rfl

theorem ri_reach {cfg : Cfg K V} {p : P K V T} (h : (sysP cfg).Reach p) : ∀ t, RI cfg p t := by
  refine h.invariant (I := fun p => ∀ t, RI cfg p t) ?_ ?_
  · intro p h0 t
    simp only [RI, h0 t]
  · intro p a p' hi hs t
    obtain ⟨s', hst, rfl⟩ := Option.map_eq_some_iff.1 hs
    clear hs
    have hs : step cfg p.st a = some s' := hst
    clear hst
    have hit := hi t
    cases a with
    | begin op al =>
      simp only [step] at hs
      (repeat' split at hs) <;> cases hs
      exact hit
    | fin =>
      simp only [step] at hs
      (repeat' split at hs) <;> cases hs
      exact hit
    | exec =>
      simp only [step] at hs
      split at hs
      · cases hs
      · next st l hp =>
        cases hs
        have hg : (if isSig p.st.pend then p.g t + 1 else p.g t) = if isSig [st] then p.g t + 1 else p.g t := by
          rw [hp, isSig_cons]
        have hmul : p.g t ≤ (if isSig [st] then p.g t + 1 else p.g t) := by split <;> omega
        simp only [RI, count] at hit ⊢
        cases hr : p.st.rd t with
        | idle => trivial
        | start q =>
          rw [hr] at hit
          simp only [hg]
          exact Nat.le_trans hit (Nat.mul_le_mul_right _ hmul)
        | gotM q a =>
          rw [hr] at hit
          simp only [hg]
          exact ⟨(mexec_gen p.st.maps p.st.cur st a hit.1 true).1, Nat.le_trans hit.2 (Nat.add_le_add_right (Nat.mul_le_mul_right _ hmul) _)⟩
        | gotG q a g => rw [hr] at hit; exact At.exec hit rfl rfl rfl rfl hg
        | gotB q a g => rw [hr] at hit; exact At.exec hit rfl rfl rfl rfl hg
        | scan q a g b i => rw [hr] at hit; exact ⟨At.exec hit.1 rfl rfl rfl rfl hg, hit.2⟩
        | fin q a g o => rw [hr] at hit; exact At.exec hit rfl rfl rfl rfl hg
        | done q o =>
          rw [hr] at hit
          simp only [hg]
          exact Nat.le_trans hit (Nat.mul_le_mul_right _ (by omega))
    | call u q =>
      simp only [step] at hs
      split at hs
      · cases hs
        simp only [RI, count, At]
        by_cases e : t = u
        · subst e; simp only [upd_same]; omega
        · simp only [upd_ne _ _ e]; exact hit
      · cases hs
    | ret u =>
      simp only [step] at hs
      split at hs
      · cases hs
        simp only [RI, count]
        by_cases e : t = u
        · subst e; simp only [upd_same]
        · simp only [upd_ne _ _ e]; exact hit
      · cases hs
    | next u =>
      simp only [step] at hs
      obtain ⟨pc, hpc, rfl⟩ := Option.map_eq_some_iff.1 hs
      by_cases e : t = u
      · subst e
        simp only [RI, count, At, upd_same] at hit ⊢
        cases hr : p.st.rd t with
        | idle => rw [hr] at hpc; cases hpc
        | done q o => rw [hr] at hpc; cases hpc
        | start q =>
          rw [hr] at hpc hit; cases hpc
          simp only [lim, Nat.max_zero]
          exact ⟨Nat.le_refl _, by omega⟩
        | gotM q a =>
          rw [hr] at hpc hit; cases hpc
          simp only [lim, Nat.max_zero, missed, Nat.sub_self, Nat.sub_zero]
          exact ⟨hit.1, Nat.le_refl _, Nat.zero_le _, by omega⟩
        | gotG q a g =>
          rw [hr] at hpc hit
          obtain ⟨h1, h2, h3, h4⟩ := hit
          have key : ∀ b, p.k t + 1 ≤ (p.g t - missed cfg p.st.maps q a g) * (Nat.max (p.m t) b + 6) + (4 + 0) := fun b => by
            have := Nat.mul_le_mul_left (p.g t - missed cfg p.st.maps q a g)
              (show p.m t + 6 ≤ Nat.max (p.m t) b + 6 from Nat.add_le_add_right (Nat.le_max_left _ _) _)
            omega
          simp only [rstep] at hpc
          split at hpc
          · cases hpc
            exact ⟨⟨h1, h2, h3, key _⟩, Nat.zero_le _, Nat.le_max_right _ _⟩
          · split at hpc <;> cases hpc
            · simp only [lim, Nat.max_zero]
              exact ⟨h1, h2, h3, by omega⟩
            · exact ⟨⟨h1, h2, h3, key _⟩, Nat.zero_le _, Nat.le_max_right _ _⟩
        | gotB q a g =>
          rw [hr] at hpc hit; cases hpc
          obtain ⟨h1, h2, h3, h4⟩ := hit
          refine ⟨⟨h1, h2, h3, ?_⟩, Nat.zero_le _, Nat.le_max_right _ _⟩
          have := Nat.mul_le_mul_left (p.g t - missed cfg p.st.maps q a g)
            (show p.m t + 6 ≤ Nat.max (p.m t) (p.st.maps a).maxi + 6 from Nat.add_le_add_right (Nat.le_max_left _ _) _)
          simp only [lim]
          omega
        | scan q a g b i =>
          rw [hr] at hpc hit
          obtain ⟨⟨h1, h2, h3, h4⟩, h5, h6⟩ := hit
          simp only [rstep] at hpc
          split at hpc
          · cases hpc
            simp only [lim, Nat.max_zero]
            exact ⟨h1, h2, h3, by omega⟩
          · next hne =>
            have hmx : Nat.max (p.m t) b = p.m t := Nat.max_eq_left h6
            split at hpc
            · cases hpc
              simp only [lim, Nat.max_zero]
              exact ⟨h1, h2, h3, by omega⟩
            · cases hpc
              simp only [lim, hmx]
              exact ⟨⟨h1, h2, h3, by omega⟩, by omega, h6⟩
            · split at hpc <;> cases hpc
              · simp only [lim, Nat.max_zero]
                exact ⟨h1, h2, h3, by omega⟩
              · simp only [lim, hmx]
                exact ⟨⟨h1, h2, h3, by omega⟩, by omega, h6⟩
        | fin q a g o =>
          rw [hr] at hpc hit
          obtain ⟨h1, h2, h3, h4⟩ := hit
          simp only [rstep] at hpc
          split at hpc <;> cases hpc
          · simp only [lim, Nat.max_zero]
            have := Nat.mul_le_mul_right (p.m t + 6) (Nat.sub_le (p.g t) (missed cfg p.st.maps q a g))
            rw [Nat.add_mul]
            omega
          · next hne =>
            simp only [lim, Nat.max_zero]
            have hm : 1 ≤ missed cfg p.st.maps q a g := by unfold missed; omega
            have := Nat.mul_le_mul_right (p.m t + 6) (show p.g t - missed cfg p.st.maps q a g + 1 ≤ p.g t by omega)
            rw [Nat.add_mul] at this
            omega
      · simp only [RI, count, At, upd_ne _ _ e]
        exact hit

/-- The number of loads of a get, finished or not, is bounded by the largest probe bound that it has loaded and the number of generation
stores that the writer has made during it: a get repeats only because the writer has moved an object meanwhile. -/
theorem get_bound {cfg : Cfg K V} {p : P K V T} (h : (sysP cfg).Reach p) {t : T} (ht : p.st.rd t ≠ .idle) :
    p.k t ≤ (p.g t + 1) * (p.m t + 6) := by
  have hi := ri_reach h t
  unfold RI at hi
  have key : ∀ {q : K} {a g n : Nat}, n ≤ p.m t + 6 → At cfg p t q a g n → p.k t ≤ (p.g t + 1) * (p.m t + 6) := by
    intro q a g n hn ⟨h1, h2, h3, h4⟩
    have := Nat.mul_le_mul_right (p.m t + 6) (Nat.sub_le (p.g t) (missed cfg p.st.maps q a g))
    rw [Nat.add_mul]
    omega
  cases hr : p.st.rd t with
  | idle => exact absurd hr ht
  | start q => rw [hr] at hi; simp only at hi; rw [Nat.add_mul]; omega
  | gotM q a => rw [hr] at hi; simp only at hi; rw [Nat.add_mul]; omega
  | gotG q a g => rw [hr] at hi; exact key (by omega) hi
  | gotB q a g => rw [hr] at hi; exact key (by omega) hi
  | scan q a g b i => rw [hr] at hi; exact key (by omega) hi.1
  | fin q a g o => rw [hr] at hi; exact key (by omega) hi
  | done q o => rw [hr] at hi; exact hi

/-- A reader in a get that has not returned can always make its next load: it never waits. -/
theorem get_enabled {cfg : Cfg K V} (s : St K V T) (t : T) (h1 : s.rd t ≠ .idle) (h2 : ∀ q o, s.rd t ≠ .done q o) :
    ∃ s', step cfg s (.next t) = some s' := by
  simp only [step]
  cases hr : s.rd t with
  | idle => exact absurd hr h1
  | done q o => exact absurd hr (h2 q o)
  | gotG q a g => simp only [rstep]; (repeat' split) <;> exact ⟨_, rfl⟩
  | scan q a g b i => simp only [rstep]; (repeat' split) <;> exact ⟨_, rfl⟩
  | fin q a g o => simp only [rstep]; (repeat' split) <;> exact ⟨_, rfl⟩
  | _ => exact ⟨_, rfl⟩

/-! ## The writer stopped -/

/-- The most a reader can load as its probe bound. -/
def most (cfg : Cfg K V) (m : Map V) (q : K) : Nat :=
  Nat.max m.maxi (match m.bnd with | none => 0 | some b => b (cfg.hash q &&& m.mask))

def stale (cfg : Cfg K V) (s : St K V T) (q : K) (a g : Nat) : Nat :=
  if (s.maps a).gen (decide (cfg.hash q % 2 = 1)) = g then 0 else most cfg (s.maps s.cur) q + 6

/-- Loads left if nobody else runs. -/
def left (cfg : Cfg K V) (s : St K V T) (t : T) : Nat :=
  match s.rd t with
  | .idle | .done _ _ => 0
  | .start q => most cfg (s.maps s.cur) q + 6
  | .gotM q a => most cfg (s.maps a) q + 5
  | .gotG q a g => most cfg (s.maps a) q + 4 + stale cfg s q a g
  | .gotB q a g => most cfg (s.maps a) q + 3 + stale cfg s q a g
  | .scan q a g b i => b - i + 2 + stale cfg s q a g
  | .fin q a g _ => 1 + stale cfg s q a g

/-- In a get, and not past the bound. -/
def InGet : RPC K V → Prop
  | .idle => False
  | .scan _ _ _ b i => i ≤ b
  | _ => True

theorem next_left {cfg : Cfg K V} {s s' : St K V T} {t : T} (hi : InGet (s.rd t)) (h : step cfg s (.next t) = some s') :
    InGet (s'.rd t) ∧ left cfg s' t + 1 ≤ left cfg s t := by
  simp only [step] at h
  obtain ⟨pc, hpc, rfl⟩ := Option.map_eq_some_iff.1 h
  simp only [left, upd_same, stale]
  cases hr : s.rd t with
  | idle => rw [hr] at hi; exact hi.elim
  | done q o => rw [hr] at hpc; cases hpc
  | start q => rw [hr] at hpc; cases hpc; exact ⟨trivial, by simp⟩
  | gotM q a => rw [hr] at hpc; cases hpc; exact ⟨trivial, by simp⟩
  | gotG q a g =>
    rw [hr] at hpc
    simp only [rstep] at hpc
    split at hpc
    · cases hpc
      refine ⟨Nat.zero_le _, ?_⟩
      have : (s.maps a).maxi ≤ most cfg (s.maps a) q := Nat.le_max_left _ _
      simp only; omega
    · next b hb =>
      split at hpc <;> cases hpc
      · exact ⟨trivial, by simp only; omega⟩
      · refine ⟨Nat.zero_le _, ?_⟩
        have : b (cfg.hash q &&& (s.maps a).mask) ≤ most cfg (s.maps a) q := by
          unfold most; rw [hb]; exact Nat.le_max_right _ _
        simp only; omega
  | gotB q a g =>
    rw [hr] at hpc; cases hpc
    refine ⟨Nat.zero_le _, ?_⟩
    have : (s.maps a).maxi ≤ most cfg (s.maps a) q := Nat.le_max_left _ _
    simp only; omega
  | scan q a g b i =>
    rw [hr] at hpc hi
    have hi : i ≤ b := hi
    simp only [rstep] at hpc
    split at hpc
    · cases hpc; exact ⟨trivial, by simp only; omega⟩
    · split at hpc
      · cases hpc; exact ⟨trivial, by simp only; omega⟩
      · cases hpc; exact ⟨show i + 1 ≤ b by omega, by simp only; omega⟩
      · split at hpc <;> cases hpc
        · exact ⟨trivial, by simp only; omega⟩
        · exact ⟨show i + 1 ≤ b by omega, by simp only; omega⟩
  | fin q a g o =>
    rw [hr] at hpc
    simp only [rstep] at hpc
    split at hpc <;> cases hpc
    · exact ⟨trivial, by simp only; omega⟩
    · next hne => exact ⟨trivial, by simp only [if_neg hne]; omega⟩

/-- If the writer stops for ever, anywhere in an operation, a get in progress returns: within `2 (N + 6)` loads if `N` bounds the probe
bounds of the maps. -/
theorem get_alone {cfg : Cfg K V} {p : P K V T} (h : (sysP cfg).Reach p) {t : T} (ht : p.st.rd t ≠ .idle) {N : Nat}
    (hN : ∀ a q, most cfg (p.st.maps a) q ≤ N) (hb : p.m t ≤ N) :
    ∃ j s', j ≤ 2 * (N + 6) ∧ Verif.Lf.alone (fun s => step cfg s (.next t)) j p.st = some s' ∧ ∃ q o, s'.rd t = .done q o := by
  have hi := ri_reach h t
  refine Verif.Lf.alone_ends (fun s => step cfg s (.next t)) (fun s => left cfg s t) (fun s => InGet (s.rd t))
    (fun s => ∃ q o, s.rd t = .done q o) (fun s s' hi hs => (next_left hi hs).1) ?_ (2 * (N + 6)) p.st ?_ ?_
  · intro s hi hd
    obtain ⟨s', hs⟩ := get_enabled (cfg := cfg) s t (fun e => by rw [e] at hi; exact hi) (fun q o e => hd ⟨q, o, e⟩)
    exact ⟨s', hs, by have := (next_left hi hs).2; omega⟩
  · unfold RI at hi
    cases hr : p.st.rd t with
    | idle => exact absurd hr ht
    | scan q a g b i => rw [hr] at hi; exact hi.2.1
    | _ => trivial
  · have hst : ∀ q a g, stale cfg p.st q a g ≤ N + 6 := fun q a g => by
      unfold stale; split
      · omega
      · have := hN p.st.cur q; omega
    unfold RI at hi
    show left cfg p.st t ≤ _
    unfold left
    cases hr : p.st.rd t with
    | idle => simp
    | done q o => simp
    | start q => have := hN p.st.cur q; simp only; omega
    | gotM q a => have := hN a q; simp only; omega
    | gotG q a g => have := hN a q; have := hst q a g; simp only; omega
    | gotB q a g => have := hN a q; have := hst q a g; simp only; omega
    | scan q a g b i => have := hst q a g; rw [hr] at hi; have := hi.2.2; simp only; omega
    | fin q a g o => have := hst q a g; simp only; omega

end Verif.Hs.Lf
