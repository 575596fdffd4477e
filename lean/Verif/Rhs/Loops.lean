import Verif.Rhs.Inv

/-!
# Robin-hood hash set: bounds, probes and the `wanted` counters
-/

set_option linter.unusedSectionVars false

namespace Verif.Rhs

open Verif Classical

variable {K V : Type} [DecidableEq K] [DecidableEq V]

/-! ## Bounds -/

/-- `m'` differs from `m` in the bounds, which do not get smaller. -/
structure Raise (cfg : Cfg K V) (m m' : Map V) : Prop where
  cap : m'.cap = m.cap
  limit : m'.limit = m.limit
  n : m'.n = m.n
  maxEnt : m'.maxEnt = m.maxEnt
  ent : m'.ent = m.ent
  prb : m'.prb = m.prb
  wnt : m'.wnt = m.wnt
  rh : m'.rh = m.rh
  bd : ∀ h, boundGet cfg m h ≤ boundGet cfg m' h
  pm : m.pmax ≤ m'.pmax
  lims : Lims cfg m'

theorem Lims.get_le {cfg : Cfg K V} {m : Map V} (hl : Lims cfg m) (h : Nat) : boundGet cfg m h ≤ m.limit := by
  unfold boundGet
  split
  · exact hl.pm
  · split
    · exact hl.pm
    · exact hl.bl _

theorem boundSet_spec {cfg : Cfg K V} {m : Map V} (hl : Lims cfg m) (h n : Nat) (hn : n ≤ m.limit) :
    Raise cfg m (boundSet cfg m h n) ∧ n ≤ boundGet cfg (boundSet cfg m h n) h ∧ n ≤ (boundSet cfg m h n).pmax := by
  have hpm := hl.pm
  have aux : ∀ m1 : Map V, m1 = (if n > m.pmax then { m with pmax := n } else m) →
      Raise cfg m m1 ∧ n ≤ m1.pmax ∧ m1.bnd = m.bnd := by
    rintro m1 rfl
    split
    · refine ⟨⟨rfl, rfl, rfl, rfl, rfl, rfl, rfl, rfl, ?_, ?_, ⟨hn, hl.bl, hl.bw⟩⟩, Nat.le_refl _, rfl⟩
      · intro h'
        unfold boundGet
        simp only
        split
        · omega
        · split <;> omega
      · simp only; omega
    · exact ⟨⟨rfl, rfl, rfl, rfl, rfl, rfl, rfl, rfl, fun _ => Nat.le_refl _, Nat.le_refl _, hl⟩, by omega, rfl⟩
  unfold boundSet
  obtain ⟨h1, h2, h3⟩ := aux _ rfl
  generalize hm1 : (if n > m.pmax then { m with pmax := n } else m) = m1 at *
  simp only
  split
  · next hrm =>
    refine ⟨h1, ?_, h2⟩
    unfold boundGet; rw [if_pos hrm]; exact h2
  · next hrm =>
    split
    · next hlt =>
      refine ⟨⟨h1.cap, h1.limit, h1.n, h1.maxEnt, h1.ent, h1.prb, h1.wnt, h1.rh, ?_, h1.pm, ⟨?_, ?_, ?_⟩⟩, ?_, h2⟩
      · intro h'
        refine Nat.le_trans (h1.bd h') ?_
        unfold boundGet
        rw [if_neg hrm, if_neg hrm]
        simp only
        by_cases he : h' % m1.cap = h % m1.cap
        · rw [he, upd_same]
          have := h1.lims.bw (h % m1.cap)
          by_cases hnw : n > cfg.wmax
          · rw [if_pos hnw, if_pos rfl]
            split <;> omega
          · rw [if_neg hnw]
            split <;> split <;> omega
        · rw [upd_ne _ _ he]
      · exact h1.lims.pm
      · intro o
        simp only [upd_apply]
        have h4 := h1.limit
        split
        · split <;> omega
        · exact h1.lims.bl o
      · intro o
        simp only [upd_apply]
        split
        · split <;> omega
        · exact h1.lims.bw o
      · unfold boundGet
        rw [if_neg hrm]
        simp only [upd_same]
        by_cases hnw : n > cfg.wmax
        · rw [if_pos hnw, if_pos rfl]; exact h2
        · rw [if_neg hnw]
          split <;> omega
    · next hge =>
      refine ⟨h1, ?_, h2⟩
      unfold boundGet
      rw [if_neg hrm]
      split
      · exact h2
      · omega

/-! ## `wanted` -/

section wanted

variable {L C h : Nat}

theorem addLoop_true (g : Geo L C) (old : Option Nat) {k : Nat} (hk : k < C) :
    ∀ (fuel j : Nat) (m : Map V), m.cap = C → j ≤ k → k - j < fuel →
      (∀ i, j ≤ i → i < k → m.wnt (sq L C h i) < 65535) →
      ∃ w', addLoop L (sq L C h k) old fuel (sq L C h j) (j + 1) true m = .ok { m with wnt := w' } ∧
        ∀ o, w' o + thru L C h (j + 1) o = m.wnt o + thru L C h (k + 1) o := by
  intro fuel
  induction fuel with
  | zero => intro j m _ _ hf; omega
  | succ fuel ih =>
    intro j m hc hj hf hw
    unfold addLoop
    by_cases he : j = k
    · subst he
      rw [if_pos rfl]
      exact ⟨m.wnt, rfl, fun o => rfl⟩
    · rw [if_neg (fun hs => he (g.sq_inj (by omega) hk hs))]
      simp only [Bool.true_or, if_true]
      unfold incW
      rw [if_pos (hw j (Nat.le_refl _) (by omega)), (by rw [hc]; rfl : next L m.cap (sq L C h j) (j + 1) = sq L C h (j + 1))]
      obtain ⟨w', h1, h2⟩ := ih (j + 1) { m with wnt := upd m.wnt (sq L C h j) (m.wnt (sq L C h j) + 1) } hc (by omega)
        (by omega) (by
          intro i hi hik
          simp only
          rw [upd_ne _ _ (fun hs => by have := g.sq_inj (by omega) (by omega) hs; omega)]
          exact hw i (by omega) hik)
      refine ⟨w', h1, fun o => ?_⟩
      have h3 := h2 o
      rw [thru_succ g _ _ _ (by omega)] at h3
      simp only [upd_apply] at h3
      by_cases ho : o = sq L C h j
      · subst ho
        rw [if_pos rfl, if_pos rfl] at h3
        omega
      · rw [if_neg ho, if_neg (fun hs => ho hs.symm)] at h3
        omega

theorem addLoop_false (g : Geo L C) {k a : Nat} (hk : k < C) (ha : a < k) :
    ∀ (fuel j : Nat) (m : Map V), m.cap = C → j ≤ a → k - j < fuel →
      (∀ i, i < k → m.wnt (sq L C h i) < 65535) →
      ∃ w', addLoop L (sq L C h k) (some (sq L C h a)) fuel (sq L C h j) (j + 1) false m = .ok { m with wnt := w' } ∧
        ∀ o, w' o + thru L C h (a + 1) o = m.wnt o + thru L C h (k + 1) o := by
  intro fuel
  induction fuel with
  | zero => intro j m _ _ hf; omega
  | succ fuel ih =>
    intro j m hc hj hf hw
    by_cases he : j = a
    · subst he
      obtain ⟨w', h1, h2⟩ := addLoop_true g (some (sq L C h j)) hk (fuel + 1) j m hc (by omega) hf (fun i _ hi => hw i hi)
      refine ⟨w', ?_, h2⟩
      rw [← h1]
      unfold addLoop
      simp
    · unfold addLoop
      rw [if_neg (fun hs => by have := g.sq_inj (by omega) hk hs; omega)]
      have hd : decide (some (sq L C h j) = some (sq L C h a)) = false := by
        rw [decide_eq_false_iff_not]
        intro hs
        exact he (g.sq_inj (by omega) (by omega) (Option.some.inj hs))
      rw [hd]
      simp only [Bool.or_self, Bool.false_eq_true, if_false]
      rw [(by rw [hc]; rfl : next L m.cap (sq L C h j) (j + 1) = sq L C h (j + 1))]
      exact ih (j + 1) m hc (by omega) (by omega) hw

theorem remLoop_false (g : Geo L C) (lim : Option Nat) : ∀ (k : Nat) (m : Map V), m.cap = C →
    remLoop L lim k (sq L C h k) false m = (m, h % C) := by
  intro k
  induction k with
  | zero => intro m _; rfl
  | succ k ih =>
    intro m hc
    have hpv : prev L m.cap (sq L C h (k + 1)) (k + 1) = sq L C h k := by rw [hc, g.prev_sq]
    unfold remLoop
    simp only [hpv, Bool.false_and, Bool.false_eq_true, if_false]
    exact ih m hc

theorem decW_eq (m : Map V) (o : Nat) (h1 : 1 ≤ m.wnt o) (h2 : m.wnt o < 65535) :
    decW m o = { m with wnt := upd m.wnt o (m.wnt o - 1) } := by
  have h3 : (m.wnt o + 65535) % 65536 = m.wnt o - 1 := by omega
  unfold decW
  rw [if_pos (by omega), h3]

theorem remLoop_some (g : Geo L C) (lim : Option Nat) (a : Nat) (ha : ∀ i, i < C → (some (sq L C h i) = lim ↔ i + 1 = a)) :
    ∀ (k : Nat) (m : Map V), k < C → m.cap = C → a ≤ k →
      (∀ i, a ≤ i → i < k → 1 ≤ m.wnt (sq L C h i) ∧ m.wnt (sq L C h i) < 65535) →
      ∃ w', remLoop L lim k (sq L C h k) true m = ({ m with wnt := w' }, h % C) ∧
        ∀ o, w' o + thru L C h (k + 1) o = m.wnt o + thru L C h (a + 1) o := by
  intro k
  induction k with
  | zero =>
    intro m _ _ hak _
    have : a = 0 := by omega
    subst this
    exact ⟨m.wnt, rfl, fun _ => rfl⟩
  | succ k ih =>
    intro m hk hc hak hw
    have hpv : prev L m.cap (sq L C h (k + 1)) (k + 1) = sq L C h k := by rw [hc, g.prev_sq]
    unfold remLoop
    simp only [hpv]
    by_cases he : k + 1 = a
    · rw [(by simpa using (ha k (by omega)).2 he : decide (some (sq L C h k) = lim) = true)]
      simp only [Bool.not_true, Bool.and_false, Bool.false_eq_true, if_false]
      rw [remLoop_false g lim k m hc]
      refine ⟨m.wnt, rfl, fun o => ?_⟩
      rw [he]
    · have hd : decide (some (sq L C h k) = lim) = false := by
        rw [decide_eq_false_iff_not]
        intro hs
        exact he ((ha k (by omega)).1 hs)
      rw [hd]
      simp only [Bool.not_false, Bool.and_self, if_true]
      obtain ⟨hw1, hw2⟩ := hw k (by omega) (by omega)
      rw [decW_eq m _ hw1 hw2]
      obtain ⟨w', h1, h2⟩ := ih { m with wnt := upd m.wnt (sq L C h k) (m.wnt (sq L C h k) - 1) } (by omega) hc (by omega)
        (by
          intro i hi hik
          simp only
          rw [upd_ne _ _ (fun hs => by have := g.sq_inj (by omega) (by omega) hs; omega)]
          exact hw i hi (by omega))
      refine ⟨w', h1, fun o => ?_⟩
      have h3 := h2 o
      rw [thru_succ g _ _ _ (by omega)]
      simp only [upd_apply] at h3
      by_cases ho : o = sq L C h k
      · subst ho
        rw [if_pos rfl] at h3
        rw [if_pos rfl]
        omega
      · rw [if_neg ho] at h3
        rw [if_neg (fun hs => ho hs.symm)]
        omega

end wanted

/-- `ck_rhs_add_wanted` of a new object. -/
theorem addWanted_new {cfg : Cfg K V} {m : Map V} (g : Geo cfg.ln m.cap) (h k : Nat) (hk : k < m.cap)
    (hw : ∀ o, o < m.cap → m.wnt o < 65535) :
    ∃ w', addWanted cfg m (sq cfg.ln m.cap h k) none h = .ok { m with wnt := w' } ∧
      ∀ o, w' o = m.wnt o + thru cfg.ln m.cap h (k + 1) o := by
  obtain ⟨w', h1, h2⟩ := addLoop_true (h := h) g none hk (m.cap + 1) 0 m rfl (by omega) (by omega)
    (fun i _ _ => hw _ (g.sq_lt h i))
  refine ⟨w', h1, fun o => ?_⟩
  have := h2 o
  rw [thru_one] at this
  exact this

/-- `ck_rhs_add_wanted` of an object that has been moved from probe number `a + 1` to `k + 1`. -/
theorem addWanted_move {cfg : Cfg K V} {m : Map V} (g : Geo cfg.ln m.cap) (h : Nat) {a k : Nat} (hk : k < m.cap)
    (ha : a < k) (hw : ∀ o, o < m.cap → m.wnt o < 65535) :
    ∃ w', addWanted cfg m (sq cfg.ln m.cap h k) (some (sq cfg.ln m.cap h a)) h = .ok { m with wnt := w' } ∧
      ∀ o, w' o + thru cfg.ln m.cap h (a + 1) o = m.wnt o + thru cfg.ln m.cap h (k + 1) o :=
  addLoop_false (h := h) g hk ha (m.cap + 1) 0 m rfl (by omega) (by omega) (fun i _ => hw _ (g.sq_lt h i))

/-- `ck_rhs_remove_wanted` of an object at probe number `k + 1` that is taken out. -/
theorem remWanted_take {cfg : Cfg K V} {m : Map V} (g : Geo cfg.ln m.cap) {h k o : Nat} (hk : k < m.cap)
    (ho : sq cfg.ln m.cap h k = o) (hp : m.prb o = k + 1)
    (hw : ∀ i, i < k → 1 ≤ m.wnt (sq cfg.ln m.cap h i) ∧ m.wnt (sq cfg.ln m.cap h i) < 65535) :
    ∃ w', remWanted cfg m o none = ({ m with wnt := w' }, h % m.cap) ∧
      ∀ o, w' o + thru cfg.ln m.cap h (k + 1) o = m.wnt o := by
  obtain ⟨w', h1, h2⟩ := remLoop_some (h := h) g none 0 (by simp) k m hk rfl (by omega) (fun i _ hi => hw i hi)
  refine ⟨w', ?_, fun o => ?_⟩
  · unfold remWanted
    rw [hp, Nat.add_sub_cancel, ← ho]
    exact h1
  · have := h2 o
    rw [thru_one] at this
    exact this

/-- `ck_rhs_remove_wanted` of an object that is moved from probe number `k + 1` to `i`. -/
theorem remWanted_move {cfg : Cfg K V} {m : Map V} (g : Geo cfg.ln m.cap) {h k i o slot : Nat} (hk : k < m.cap)
    (ho : sq cfg.ln m.cap h k = o) (hp : m.prb o = k + 1) (hi : i < k) (hs : sq cfg.ln m.cap h i = slot)
    (hw : ∀ j, i < j → j < k → 1 ≤ m.wnt (sq cfg.ln m.cap h j) ∧ m.wnt (sq cfg.ln m.cap h j) < 65535) :
    ∃ w', remWanted cfg m o (some slot) = ({ m with wnt := w' }, h % m.cap) ∧
      ∀ o, w' o + thru cfg.ln m.cap h (k + 1) o = m.wnt o + thru cfg.ln m.cap h (i + 2) o := by
  obtain ⟨w', h1, h2⟩ := remLoop_some (h := h) g (some slot) (i + 1) (by
    intro j hj
    rw [← hs]
    constructor
    · intro h3
      rw [g.sq_inj hj (by omega) (Option.some.inj h3)]
    · intro h3
      have : j = i := by omega
      rw [this]) k m hk rfl (by omega) (fun j hj hjk => hw j (by omega) hjk)
  refine ⟨w', ?_, h2⟩
  unfold remWanted
  rw [hp, Nat.add_sub_cancel, ← ho]
  exact h1

/-! ## Probes -/

/-- What a probe finds. -/
def PS (cfg : Cfg K V) (m : Map V) (h : Nat) (hit : V → Bool) (beh : Beh) (p0 lim0 opl : Nat) (r : PR V) : Prop :=
  ∃ e, p0 ≤ e ∧ (∀ j, j < e → ∃ v, m.ent (sq cfg.ln m.cap h j) = some v ∧ (beh ≠ .robin → hit v = false)) ∧ e ≤ opl ∧
    (match r.pr with
      | none => r.n = e + 1
      | some f => ∃ j, p0 ≤ j ∧ j ≤ e ∧ j < opl ∧ f = sq cfg.ln m.cap h j ∧ r.n = j + 1 ∧ m.rh f = false ∧ m.prb f < j + 1 ∧
          m.ent f ≠ none ∧ beh ≠ .noRh) ∧
    ((r.obj = none ∧ r.slot = none ∧ ((e = lim0 ∧ r.pr ≠ none) ∨ e = opl)) ∨
      (e < opl ∧ r.slot = some (sq cfg.ln m.cap h e) ∧
        ((m.ent (sq cfg.ln m.cap h e) = none ∧ r.obj = none) ∨
          (r.obj = none ∧ r.pr = some (sq cfg.ln m.cap h e) ∧ (beh = .rh ∨ beh = .robin)) ∨
          ∃ v, m.ent (sq cfg.ln m.cap h e) = some v ∧ hit v = true ∧ r.obj = some v ∧ beh ≠ .robin)))

/-- `pr` so far. -/
def PrOk (cfg : Cfg K V) (m : Map V) (h : Nat) (beh : Beh) (p0 opl p : Nat) (pr : Option (Nat × Nat)) : Prop :=
  match pr with
  | none => True
  | some x => ∃ j, p0 ≤ j ∧ j < p ∧ j < opl ∧ x.1 = sq cfg.ln m.cap h j ∧ x.2 = j + 1 ∧ m.rh x.1 = false ∧ m.prb x.1 < j + 1 ∧
      m.ent x.1 ≠ none ∧ beh ≠ .noRh

theorem leave_pr {cfg : Cfg K V} {m : Map V} {h : Nat} {beh : Beh} {p0 opl p q : Nat} {pr : Option (Nat × Nat)}
    (hp : PrOk cfg m h beh p0 opl q pr) (hq : q ≤ p + 1) (o lim : Nat) (e : Option V) :
    match (leave o (p + 1) lim pr e).pr with
      | none => (leave o (p + 1) lim pr e).n = p + 1
      | some f => ∃ j, p0 ≤ j ∧ j ≤ p ∧ j < opl ∧ f = sq cfg.ln m.cap h j ∧ (leave o (p + 1) lim pr e).n = j + 1 ∧ m.rh f = false ∧
          m.prb f < j + 1 ∧ m.ent f ≠ none ∧ beh ≠ .noRh := by
  cases pr with
  | none => rfl
  | some x =>
    obtain ⟨j, h0, h1, h2, h3, h4, h5⟩ := hp
    exact ⟨j, h0, by omega, h2, h3, h4, h5⟩

theorem probeLoop_spec (cfg : Cfg K V) (m : Map V) (h : Nat) (hit : V → Bool) (beh : Beh) (p0 lim0 opl : Nat) :
    ∀ (fuel p lim : Nat) (pr : Option (Nat × Nat)), p0 ≤ p → p ≤ lim → lim ≤ opl → (lim = lim0 ∨ lim = opl) → opl - p < fuel →
      (∀ j, j < p → ∃ v, m.ent (sq cfg.ln m.cap h j) = some v ∧ (beh ≠ .robin → hit v = false)) →
      PrOk cfg m h beh p0 opl p pr →
      ∃ r, probeLoop cfg m hit beh opl fuel (sq cfg.ln m.cap h p) p lim pr = .ok r ∧ PS cfg m h hit beh p0 lim0 opl r := by
  intro fuel
  induction fuel with
  | zero => intro p lim pr _ _ _ _ hf; omega
  | succ fuel ih =>
    intro p lim pr hp0 hp hl hl0 hf hv hpr
    unfold probeLoop
    by_cases hx : p = lim ∧ (lim = opl ∨ pr.isSome)
    · rw [if_pos hx]
      refine ⟨_, rfl, p, hp0, hv, by omega, leave_pr hpr (by omega) _ _ _, .inl ⟨?_, ?_, ?_⟩⟩
      · simp [leave, hx.1]
      · simp [leave, hx.1]
      · obtain ⟨h1, h2⟩ := hx
        rcases hl0 with h3 | h3
        · rcases h2 with h2 | h2
          · right; omega
          · left
            refine ⟨by omega, ?_⟩
            cases pr with
            | none => cases h2
            | some x => simp [leave]
        · right; omega
    · rw [if_neg hx]
      have hlt : ∃ lim', (if p = lim then opl else lim) = lim' ∧ p < lim' ∧ lim' ≤ opl ∧ (lim' = lim0 ∨ lim' = opl) := by
        refine ⟨_, rfl, ?_, ?_, ?_⟩
        · split
          · next he =>
            rcases Nat.lt_or_ge p opl with h1 | h1
            · exact h1
            · exact absurd ⟨he, .inl (by omega)⟩ hx
          · omega
        · split <;> omega
        · split
          · exact .inr rfl
          · exact hl0
      obtain ⟨lim', he, h1, h2, h3⟩ := hlt
      simp only [he]
      have hns : ∀ pr (e : Option V), (leave (sq cfg.ln m.cap h p) (p + 1) lim' pr e).slot = some (sq cfg.ln m.cap h p) ∧
          (leave (sq cfg.ln m.cap h p) (p + 1) lim' pr e).obj = e := by
        intro pr e
        simp only [leave]
        rw [if_neg (by omega), if_neg (by omega)]
        exact ⟨rfl, rfl⟩
      cases hent : m.ent (sq cfg.ln m.cap h p) with
      | none =>
        refine ⟨_, rfl, p, hp0, hv, by omega, leave_pr hpr (by omega) _ _ _, .inr ⟨by omega, (hns _ _).1, .inl ⟨hent, (hns _ _).2⟩⟩⟩
      | some v =>
        simp only
        cases hrc : rich m beh pr (sq cfg.ln m.cap h p) (p + 1) with
        | true =>
          simp only [if_true, true_and]
          unfold rich at hrc
          simp only [Bool.and_eq_true, decide_eq_true_eq, Bool.not_eq_true'] at hrc
          have hpr' : PrOk cfg m h beh p0 opl (p + 1) (some (sq cfg.ln m.cap h p, p + 1)) :=
            ⟨p, hp0, by omega, by omega, rfl, rfl, hrc.1.2, hrc.2, by rw [hent]; simp, hrc.1.1.1⟩
          by_cases hb : beh = .rh ∨ beh = .robin
          · rw [if_pos hb]
            exact ⟨_, rfl, p, hp0, hv, by omega, leave_pr hpr' (by omega) _ _ _,
              .inr ⟨by omega, (hns _ _).1, .inr (.inl ⟨(hns _ _).2, rfl, hb⟩)⟩⟩
          · rw [if_neg hb]
            by_cases hh : beh ≠ .robin ∧ hit v = true
            · rw [if_pos hh]
              exact ⟨_, rfl, p, hp0, hv, by omega, leave_pr hpr' (by omega) _ _ _,
                .inr ⟨by omega, (hns _ _).1, .inr (.inr ⟨v, hent, hh.2, (hns _ _).2, hh.1⟩)⟩⟩
            · rw [if_neg hh]
              refine ih (p + 1) lim' _ (by omega) (by omega) h2 h3 (by omega) ?_ hpr'
              intro j hj
              rcases Nat.lt_or_ge j p with h4 | h4
              · exact hv j h4
              · have : j = p := by omega
                subst this
                refine ⟨v, hent, fun hb => ?_⟩
                cases hhv : hit v with
                | false => rfl
                | true => exact absurd ⟨hb, hhv⟩ hh
        | false =>
          simp only [Bool.false_eq_true, if_false, false_and]
          have hpr' : PrOk cfg m h beh p0 opl (p + 1) pr := by
            cases pr with
            | none => trivial
            | some x =>
              obtain ⟨j, h0, h1, h2, h3, h4, h5⟩ := hpr
              exact ⟨j, h0, by omega, h2, h3, h4, h5⟩
          by_cases hh : beh ≠ .robin ∧ hit v = true
          · rw [if_pos hh]
            exact ⟨_, rfl, p, hp0, hv, by omega, leave_pr hpr (by omega) _ _ _,
              .inr ⟨by omega, (hns _ _).1, .inr (.inr ⟨v, hent, hh.2, (hns _ _).2, hh.1⟩)⟩⟩
          · rw [if_neg hh]
            refine ih (p + 1) lim' _ (by omega) (by omega) h2 h3 (by omega) ?_ hpr'
            intro j hj
            rcases Nat.lt_or_ge j p with h4 | h4
            · exact hv j h4
            · have : j = p := by omega
              subst this
              refine ⟨v, hent, fun hb => ?_⟩
              cases hhv : hit v with
              | false => rfl
              | true => exact absurd ⟨hb, hhv⟩ hh

end Verif.Rhs
