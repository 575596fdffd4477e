import Verif.Rhs.Loops

/-!
# Robin-hood hash set: displacement
-/

set_option linter.unusedSectionVars false

namespace Verif.Rhs

open Verif Classical

variable {K V : Type} [DecidableEq K] [DecidableEq V]

/-- Invariant of a map, up to the hole. -/
structure Good (cfg : Cfg K V) (m : Map V) (hole : Option Nat) : Prop where
  core : Core cfg m.cap m.limit m.ent m.prb m.wnt hole
  bnd : Bnd cfg m m.prb hole
  lims : Lims cfg m

theorem Core.congr_tp {cfg : Cfg K V} {C lim : Nat} {ent : Nat → Option V} {tp tp' wnt : Nat → Nat} {hole : Option Nat}
    (h : Core cfg C lim ent tp wnt hole) (ht : ∀ o, some o ≠ hole → tp' o = tp o) : Core cfg C lim ent tp' wnt hole := by
  refine ⟨h.geo, fun o v ho hh he => ?_, fun o ho hh he => ?_, fun o ho => ?_⟩
  · rw [ht o hh]; exact h.pos o v ho hh he
  · rw [ht o hh]; exact h.emp o ho hh he
  · rw [h.wnt o ho]
    congr 1
    funext x
    unfold D
    by_cases hx : some x = hole
    · rw [if_pos hx, if_pos hx]
    · rw [if_neg hx, if_neg hx, ht x hx]

theorem addWanted_mod (cfg : Cfg K V) (m : Map V) (stop : Nat) (old : Option Nat) (h : Nat) :
    addWanted cfg m stop old (h % m.cap) = addWanted cfg m stop old h := by
  unfold addWanted; rw [Nat.mod_mod]

theorem boundGet_mod (cfg : Cfg K V) (m : Map V) (h : Nat) : boundGet cfg m (h % m.cap) = boundGet cfg m h := by
  unfold boundGet; rw [Nat.mod_mod]

/-- The displaced objects, last first: `cur` is to hold the object of the head. -/
def Chn (cfg : Cfg K V) (m0 m : Map V) : List (Nat × Nat) → Nat → Prop
  | [], _ => True
  | (p, old) :: ch, cur => old = m0.prb cur ∧ (∃ v k, m0.ent p = some v ∧ p < m0.cap ∧ cur < m0.cap ∧ m.prb cur = k + 1 ∧
      sq cfg.ln m0.cap (cfg.hv v) k = cur ∧ m0.prb p ≤ k ∧
      (∀ j, j < k → m0.ent (sq cfg.ln m0.cap (cfg.hv v) j) ≠ none) ∧ k < m0.limit ∧
      k + 1 ≤ boundGet cfg m (cfg.hv v) ∧ k + 1 ≤ m.pmax) ∧ Chn cfg m0 m ch p

/-- First displaced slot. -/
def lastOf : List (Nat × Nat) → Nat → Nat
  | [], cur => cur
  | (p, _) :: ch, _ => lastOf ch p

/-- Displaced slots but the first. -/
def mids : List (Nat × Nat) → Nat → List Nat
  | [], _ => []
  | (p, _) :: ch, cur => cur :: mids ch p

theorem mids_sub : ∀ (ch : List (Nat × Nat)) (cur : Nat), ∀ o ∈ mids ch cur, o ∈ cur :: ch.map Prod.fst := by
  intro ch
  induction ch with
  | nil => intro cur o ho; simp [mids] at ho
  | cons x ch ih =>
    intro cur o ho
    obtain ⟨p, old⟩ := x
    simp only [mids, List.mem_cons] at ho
    rcases ho with ho | ho
    · subst ho; simp
    · have := ih p o ho
      simp only [List.map_cons, List.mem_cons] at this ⊢
      tauto

theorem last_mem : ∀ (ch : List (Nat × Nat)) (cur : Nat), lastOf ch cur ∈ cur :: ch.map Prod.fst := by
  intro ch
  induction ch with
  | nil => intro cur; simp [lastOf]
  | cons x ch ih =>
    intro cur
    obtain ⟨p, old⟩ := x
    exact List.mem_cons_of_mem _ (ih p)

theorem Chn.mono {cfg : Cfg K V} {m0 m m' : Map V} (hb : ∀ h, boundGet cfg m h ≤ boundGet cfg m' h) (hp : m.pmax ≤ m'.pmax) :
    ∀ {ch : List (Nat × Nat)} {cur : Nat}, (∀ o ∈ mids ch cur, m'.prb o = m.prb o) → Chn cfg m0 m ch cur → Chn cfg m0 m' ch cur := by
  intro ch
  induction ch with
  | nil => intro cur _ _; trivial
  | cons x ch ih =>
    intro cur hr h
    obtain ⟨p, old⟩ := x
    obtain ⟨h1, ⟨v, k, a1, a2, a3, a4, a5, a6, a7, a8, a9, a10⟩, h3⟩ := h
    refine ⟨h1, ⟨v, k, a1, a2, a3, ?_, a5, a6, a7, a8, Nat.le_trans a9 (hb _), Nat.le_trans a10 hp⟩,
      ih (fun o ho => hr o (List.mem_cons_of_mem _ ho)) h3⟩
    rw [hr cur (by simp [mids])]
    exact a4

/-- What is common to all stages. -/
structure Same (cfg : Cfg K V) (m0 m : Map V) : Prop where
  cap : m.cap = m0.cap
  limit : m.limit = m0.limit
  n : m.n = m0.n
  maxEnt : m.maxEnt = m0.maxEnt
  bd : ∀ h, boundGet cfg m0 h ≤ boundGet cfg m h
  pm : m0.pmax ≤ m.pmax
  lims : Lims cfg m

theorem Same.refl {cfg : Cfg K V} {m : Map V} (h : Lims cfg m) : Same cfg m m :=
  ⟨rfl, rfl, rfl, rfl, fun _ => Nat.le_refl _, Nat.le_refl _, h⟩

theorem Same.trans {cfg : Cfg K V} {m m1 m2 : Map V} (h : Same cfg m m1) (h' : Same cfg m1 m2) : Same cfg m m2 :=
  ⟨h'.cap.trans h.cap, h'.limit.trans h.limit, h'.n.trans h.n, h'.maxEnt.trans h.maxEnt,
    fun x => Nat.le_trans (h.bd x) (h'.bd x), Nat.le_trans h.pm h'.pm, h'.lims⟩

theorem Raise.same {cfg : Cfg K V} {m m' : Map V} (h : Raise cfg m m') : Same cfg m m' :=
  ⟨h.cap, h.limit, h.n, h.maxEnt, h.bd, h.pm, h.lims⟩

theorem boundGet_eq {cfg : Cfg K V} {m m' : Map V} (hc : m'.cap = m.cap) (hp : m'.pmax = m.pmax) (hb : m'.bnd = m.bnd)
    (h : Nat) : boundGet cfg m' h = boundGet cfg m h := by
  unfold boundGet; rw [hc, hp, hb]

theorem Chn.congr {cfg : Cfg K V} {m0 m m' : Map V} {ch : List (Nat × Nat)} {cur : Nat} (h : Chn cfg m0 m ch cur)
    (hc : m'.cap = m.cap) (hp : m'.pmax = m.pmax) (hb : m'.bnd = m.bnd) (hr : ∀ o ∈ mids ch cur, m'.prb o = m.prb o) :
    Chn cfg m0 m' ch cur :=
  h.mono (fun x => Nat.le_of_eq (boundGet_eq hc hp hb x).symm) (Nat.le_of_eq hp.symm) hr

/-- Same bounds. -/
theorem Same.of_eq {cfg : Cfg K V} {m m' : Map V} (hl : Lims cfg m) (h1 : m'.cap = m.cap) (h2 : m'.limit = m.limit)
    (h3 : m'.n = m.n) (h4 : m'.maxEnt = m.maxEnt) (h5 : m'.pmax = m.pmax) (h6 : m'.bnd = m.bnd) : Same cfg m m' :=
  ⟨h1, h2, h3, h4, fun x => by rw [boundGet_eq h1 h5 h6], by rw [h5],
    ⟨by rw [h5, h2]; exact hl.pm, by rw [h6, h2]; exact hl.bl, by rw [h6]; exact hl.bw⟩⟩

/-- Displacement is done, `f` is free for a new object. -/
structure Moved (cfg : Cfg K V) (m0 m : Map V) (f : Nat) : Prop where
  same : Same cfg m0 m
  good : Good cfg m (some f)
  bagm : bagOf m.cap m.ent = bagOf m0.cap m0.ent + objs (m0.ent f)
  entf : m.ent f = m0.ent f
  ne : ∀ o, m0.ent o ≠ none → m.ent o ≠ none
  keep : ∀ o, m0.rh o = true → m0.ent o ≠ none → m.ent o = m0.ent o ∧ m.prb o = m0.prb o
  lt : ∀ h k, (∀ j, j < k → m0.ent (sq cfg.ln m0.cap h j) ≠ none) → k < m0.cap

/-- Invariant of the way back. -/
structure Unw (cfg : Cfg K V) (m0 m : Map V) (tp : Nat → Nat) (cur : Nat) (ch : List (Nat × Nat)) : Prop where
  same : Same cfg m0 m
  core : Core cfg m.cap m.limit m.ent tp m.wnt (some cur)
  bnd : Bnd cfg m tp (some cur)
  chn : Chn cfg m0 m ch cur
  nod : (cur :: ch.map Prod.fst).Nodup
  ents : ∀ o ∈ cur :: ch.map Prod.fst, m.ent o = m0.ent o
  tps : ∀ o ∈ ch.map Prod.fst, tp o = m0.prb o
  prb : ∀ o, o ∉ cur :: ch.map Prod.fst → m.prb o = tp o
  ne : ∀ o, m0.ent o ≠ none → m.ent o ≠ none
  bagm : bagOf m.cap m.ent = bagOf m0.cap m0.ent + objs (m0.ent cur)
  keep : ∀ o, m0.rh o = true → m0.ent o ≠ none → m.ent o = m0.ent o ∧ m.prb o = m0.prb o
  cl : ∀ o ∈ cur :: ch.map Prod.fst, m0.rh o = false
  lt : ∀ h k, (∀ j, j < k → m0.ent (sq cfg.ln m0.cap h j) ≠ none) → k < m0.cap

theorem card_objs (x : Option V) : (objs x).card ≤ 1 := by cases x <;> simp [objs]

theorem unwind_spec {cfg : Cfg K V} {m0 : Map V} (hcard : (bag m0).card < 65534) :
    ∀ (ch : List (Nat × Nat)) (cur : Nat) (m : Map V) (tp : Nat → Nat), Unw cfg m0 m tp cur ch →
      ∃ m', unwind cfg ch cur m = .ok m' ∧ Moved cfg m0 m' (lastOf ch cur) := by
  intro ch
  induction ch with
  | nil =>
    intro cur m tp u
    refine ⟨m, rfl, u.same, ⟨u.core.congr_tp ?_, ⟨?_⟩, u.same.lims⟩, u.bagm, u.ents _ (by simp [lastOf]), u.ne, u.keep, u.lt⟩
    · intro o ho
      exact u.prb o (by simpa [lastOf] using ho)
    · intro o v ho hh he
      rw [u.prb o (by simpa [lastOf] using hh)]
      exact u.bnd.bd o v ho hh he
  | cons x ch ih =>
    intro cur m tp u
    obtain ⟨p, old⟩ := x
    obtain ⟨c1, ⟨v, k, a1, a2, a3, a4, a5, a6, a7, a8, a9, a10⟩, c3⟩ := u.chn
    have hnod := u.nod
    simp only [List.map_cons, List.nodup_cons, List.mem_cons, not_or] at hnod
    obtain ⟨⟨hcp, hcch⟩, hpch, hnd⟩ := hnod
    have hpe : m.ent p = some v := by rw [u.ents p (by simp), a1]
    have htp : tp p = m0.prb p := u.tps p (by simp)
    have hcap := u.same.cap
    have hkC : k < m.cap := by rw [hcap]; exact u.lt _ k a7
    obtain ⟨a, b1, b2, b3, b4, b5⟩ := u.core.pos p v (by omega) (by simpa using fun h => hcp h.symm) hpe
    have hw : ∀ o, o < m.cap → m.wnt o < 65535 := by
      intro o ho
      have h1 := u.core.wnt_le ho
      have h2 := card_objs (m0.ent cur)
      rw [u.bagm, Multiset.card_add] at h1
      have : (bagOf m0.cap m0.ent).card < 65534 := hcard
      omega
    have hsq : sq cfg.ln m.cap (cfg.hv v) k = cur := by rw [hcap]; exact a5
    obtain ⟨w', d1, d2⟩ := addWanted_move (m := { m with ent := upd m.ent cur (m.ent p) }) u.core.geo (cfg.hv v)
      (a := a) (k := k) hkC (by omega) hw
    unfold unwind
    have hfirst : first cfg.ln m.cap cur (m.prb cur) = cfg.hv v % m.cap := by
      rw [a4, ← hsq]; exact u.core.geo.first_sq _ _
    simp only [bind, Except.bind, hfirst]
    have hmod := addWanted_mod cfg { m with ent := upd m.ent cur (m.ent p) } cur (some p) (cfg.hv v)
    simp only at hmod
    rw [hmod]
    simp only at d1
    rw [b4, hsq] at d1
    rw [d1]
    simp only
    have hcore := u.core.fill (p := p) (c := cur) (k := k) (v := v) (wnt' := w') (by omega) (by omega) (fun h => hcp h.symm) hpe
      hkC (by rw [u.same.limit]; exact a8) hsq (fun j hj => u.ne _ (by rw [hcap]; exact a7 j hj)) (by
        intro o ho
        rw [b1]
        exact d2 o)
    rw [hpe]
    refine ih p _ (upd tp cur (k + 1)) ⟨?_, hcore, ⟨?_⟩, ?_, ?_, ?_, ?_, ?_, ?_, ?_, ?_, ?_, u.lt⟩
    · exact u.same.trans (Same.of_eq u.same.lims rfl rfl rfl rfl rfl rfl)
    · intro o w ho hh he
      simp only at ho he
      rw [boundGet_eq (cfg := cfg) (m := m) (by rfl) (by rfl) (by rfl)]
      simp only [upd_apply] at he ⊢
      by_cases h1 : o = cur
      · rw [if_pos h1] at he ⊢
        cases he
        exact ⟨a9, a10⟩
      · rw [if_neg h1] at he ⊢
        exact u.bnd.bd o w ho (by simpa using h1) he
    · exact c3.congr (by rfl) (by rfl) (by rfl) (by intro _ _; rfl)
    · simp only [List.nodup_cons]; exact ⟨hpch, hnd⟩
    · intro o ho
      simp only
      rw [upd_ne _ _ (fun h => by subst h; rcases List.mem_cons.1 ho with h | h; exact hcp h; exact hcch h)]
      exact u.ents o (by simp only [List.map_cons, List.mem_cons] at ho ⊢; tauto)
    · intro o ho
      rw [upd_ne _ _ (fun h => by subst h; exact hcch ho)]
      exact u.tps o (by simp only [List.map_cons, List.mem_cons]; tauto)
    · intro o ho
      simp only [upd_apply]
      by_cases h1 : o = cur
      · rw [if_pos h1, h1, a4]
      · rw [if_neg h1]
        exact u.prb o (by simp only [List.map_cons, List.mem_cons] at ho ⊢; tauto)
    · intro o ho
      simp only [upd_apply]
      split
      · simp
      · exact u.ne o ho
    · have h1 := bag_upd m.cap m.ent cur (some v) (by omega)
      rw [u.bagm, u.ents cur (by simp), add_right_comm] at h1
      simp only
      rw [a1]
      exact add_right_cancel h1
    · intro o ho hne
      have h1 := u.cl cur (by simp)
      simp only
      rw [upd_ne _ _ (fun h => by rw [h, h1] at ho; cases ho)]
      exact u.keep o ho hne
    · intro o ho
      exact u.cl o (by simp only [List.map_cons, List.mem_cons] at ho ⊢; tauto)

/-- Invariant of the way down. -/
structure Desc (cfg : Cfg K V) (m0 m : Map V) (cur n : Nat) (ch : List (Nat × Nat)) : Prop where
  same : Same cfg m0 m
  ent : m.ent = m0.ent
  wnt : m.wnt = m0.wnt
  chn : Chn cfg m0 m ch cur
  nod : (cur :: ch.map Prod.fst).Nodup
  rh : ∀ o ∈ ch.map Prod.fst, m.rh o = true
  rh0 : ∀ o, m0.rh o = true → m.rh o = true
  cl : ∀ o ∈ cur :: ch.map Prod.fst, m0.rh o = false
  prb : ∀ o, o ∉ mids ch cur → m.prb o = m0.prb o
  hn : n = m0.prb cur
  lt : cur < m0.cap
  ne : m0.ent cur ≠ none

/-- The displacement is given up. -/
structure Undone (cfg : Cfg K V) (m0 m : Map V) : Prop where
  same : Same cfg m0 m
  ent : m.ent = m0.ent
  wnt : m.wnt = m0.wnt
  prb : m.prb = m0.prb

theorem restore_spec {cfg : Cfg K V} {m0 : Map V} :
    ∀ (ch : List (Nat × Nat)) (cur : Nat) (m : Map V), Same cfg m0 m → m.ent = m0.ent → m.wnt = m0.wnt →
      Chn cfg m0 m ch cur → (cur :: ch.map Prod.fst).Nodup → (∀ o, o ∉ mids ch cur → m.prb o = m0.prb o) →
      Undone cfg m0 (restore ch cur m) := by
  intro ch
  induction ch with
  | nil =>
    intro cur m hs he hw _ _ hp
    exact ⟨hs.trans (Same.of_eq hs.lims rfl rfl rfl rfl rfl rfl), he, hw, funext fun o => hp o (by simp [mids])⟩
  | cons x ch ih =>
    intro cur m hs he hw hc hn hp
    obtain ⟨p, old⟩ := x
    have hn' := hn
    rw [List.map_cons, List.nodup_cons] at hn'
    refine ih p _ (hs.trans (Same.of_eq hs.lims rfl rfl rfl rfl rfl rfl)) he hw ?_ hn'.2 ?_
    · refine hc.2.2.congr (by rfl) (by rfl) (by rfl) ?_
      intro o ho
      simp only
      rw [upd_ne _ _ (fun h => by subst h; exact hn'.1 (mids_sub _ _ _ ho))]
    · intro o ho
      simp only [upd_apply]
      by_cases h1 : o = cur
      · rw [if_pos h1, hc.1, h1]
      · rw [if_neg h1]
        exact hp o (by simp only [mids, List.mem_cons]; tauto)

theorem robin_spec {cfg : Cfg K V} {m0 : Map V} (g : Good cfg m0 none) (hcard : (bag m0).card < 65534) :
    ∀ (fuel : Nat) (m : Map V) (cur n : Nat) (ch : List (Nat × Nat)), Desc cfg m0 m cur n ch →
      match robin cfg fuel m cur n ch with
      | .error e => e = .deep
      | .ok (.full m') => Undone cfg m0 m'
      | .ok (.done m') => Moved cfg m0 m' (lastOf ch cur) := by
  intro fuel
  induction fuel with
  | zero => intro m cur n ch _; rfl
  | succ fuel ih =>
    intro m cur n ch d
    have hcap := d.same.cap
    have hlim := d.same.limit
    obtain ⟨v, hv⟩ := Option.ne_none_iff_exists'.1 d.ne
    obtain ⟨k, b1, b2, b3, b4, b5⟩ := g.core.pos cur v d.lt (by simp) hv
    have hgeo := g.core.geo
    unfold robin
    simp only [bind, Except.bind]
    -- the probe
    have hpr : ∃ r, probeRobin cfg { m with rh := upd m.rh cur true } cur n = .ok r ∧
        PS cfg { m with rh := upd m.rh cur true } (cfg.hv v) (fun _ => false) .robin (k + 1) m.limit m.limit r := by
      unfold probeRobin
      have hnx : next cfg.ln m.cap cur n = sq cfg.ln m.cap (cfg.hv v) (k + 1) := by
        rw [d.hn, b1, hcap, ← b4]; rfl
      simp only
      rw [hnx, d.hn, b1]
      refine probeLoop_spec cfg { m with rh := upd m.rh cur true } (cfg.hv v) _ .robin (k + 1) m.limit m.limit _ _ _ _ (Nat.le_refl _)
        (by omega) (Nat.le_refl _) (.inl rfl) (by omega) ?_ trivial
      intro j hj
      simp only
      rw [d.ent, hcap]
      rcases Nat.lt_or_ge j k with h1 | h1
      · obtain ⟨w, hw⟩ := Option.ne_none_iff_exists'.1 (b5 j h1)
        exact ⟨w, hw, fun h => absurd rfl h⟩
      · have : j = k := by omega
        subst this
        exact ⟨v, by rw [b4]; exact hv, fun h => absurd rfl h⟩
    obtain ⟨r, hr, e, pe, pocc, pel, ppr, pout⟩ := hpr
    rw [hr]
    simp only
    simp only [hcap, d.ent, hlim] at pocc pel ppr pout
    have hocc : ∀ j, j < e → m0.ent (sq cfg.ln m0.cap (cfg.hv v) j) ≠ none := by
      intro j hj
      obtain ⟨w, hw, -⟩ := pocc j hj
      rw [hw]; simp
    cases hrp : r.pr with
    | some f =>
      rw [hrp] at ppr
      obtain ⟨j, q0, q1, q2, q3, q4, q5, q6, q7, -⟩ := ppr
      simp only
      have hf : f < m0.cap := by rw [q3]; exact hgeo.sq_lt _ _
      have hfc : f ≠ cur := fun h => by
        simp only [h, upd_same] at q5; cases q5
      rw [upd_ne _ _ hfc] at q5
      have hfch : f ∉ cur :: ch.map Prod.fst := by
        intro h
        rcases List.mem_cons.1 h with h | h
        · exact hfc h
        · rw [d.rh f h] at q5; cases q5
      have hprbf : m.prb f = m0.prb f := d.prb f (fun h => hfch (mids_sub _ _ _ h))
      have hfirst : first cfg.ln m.cap f r.n = cfg.hv v % m.cap := by
        rw [q3, q4, hcap]; exact hgeo.first_sq _ _
      rw [hfirst]
      generalize hm2 : ({ m with rh := upd m.rh cur true, prb := upd m.prb f r.n } : Map V) = m2
      have hs2 : Same cfg m m2 := by subst hm2; exact Same.of_eq d.same.lims rfl rfl rfl rfl rfl rfl
      obtain ⟨s1, s2, s3⟩ := boundSet_spec (cfg := cfg) hs2.lims (cfg.hv v % m.cap) r.n (by rw [q4, hs2.limit]; omega)
      generalize boundSet cfg m2 (cfg.hv v % m.cap) r.n = m3 at s1 s2 s3
      have hs3 : Same cfg m m3 := hs2.trans s1.same
      have he3 : m3.ent = m0.ent := by rw [s1.ent, ← d.ent, ← hm2]
      have hw3 : m3.wnt = m0.wnt := by rw [s1.wnt, ← d.wnt, ← hm2]
      have hp3 : m3.prb = upd m.prb f r.n := by rw [s1.prb, ← hm2]
      have hr3 : m3.rh = upd m.rh cur true := by rw [s1.rh, ← hm2]
      have hb3 : r.n ≤ boundGet cfg m3 (cfg.hv v) := by
        rw [← boundGet_mod, hs3.cap]; exact s2
      have := ih m3 f (m.prb f) ((cur, m.prb f) :: ch) ⟨d.same.trans hs3, he3, hw3, ?_, ?_, ?_, ?_, ?_, ?_, hprbf, hf, q7⟩
      · exact this
      · refine ⟨hprbf, ⟨v, j, hv, d.lt, hf, ?_, q3.symm, by omega, fun i hi => hocc i (by omega), q2, ?_, ?_⟩, ?_⟩
        · rw [hp3, upd_same, q4]
        · rw [← q4]; exact hb3
        · rw [← q4]; exact s3
        · refine d.chn.mono hs3.bd hs3.pm (fun o ho => ?_)
          rw [hp3, upd_ne _ _ (fun h => by subst h; exact hfch (mids_sub _ _ _ ho))]
      · rw [List.map_cons, List.nodup_cons]; exact ⟨hfch, d.nod⟩
      · intro o ho
        rw [hr3, upd_apply]
        split
        · rfl
        · next h1 =>
          rw [List.map_cons, List.mem_cons] at ho
          exact d.rh o (by tauto)
      · intro o ho
        rw [hr3, upd_apply]
        split
        · rfl
        · exact d.rh0 o ho
      · intro o ho
        rw [List.map_cons, List.mem_cons] at ho
        rcases ho with ho | ho
        · subst ho
          cases hx : m0.rh o with
          | false => rfl
          | true => rw [d.rh0 o hx] at q5; cases q5
        · exact d.cl o ho
      · intro o ho
        simp only [mids, List.mem_cons, not_or] at ho
        rw [hp3, upd_ne _ _ ho.1]
        exact d.prb o ho.2
    | none =>
      rw [hrp] at ppr
      cases hrs : r.slot with
      | none =>
        simp only
        exact restore_spec ch cur _ (d.same.trans (Same.of_eq d.same.lims rfl rfl rfl rfl rfl rfl)) d.ent d.wnt
          (d.chn.congr (by rfl) (by rfl) (by rfl) (by intro _ _; rfl))
          d.nod d.prb
      | some s =>
        simp only
        rw [hrs, hrp] at pout
        simp only at ppr
        have hpo : e < m0.limit ∧ s = sq cfg.ln m0.cap (cfg.hv v) e ∧ m0.ent s = none := by
          rcases pout with h | ⟨h1, h2, h3⟩
          · cases h.2.1
          · have h4 := Option.some.inj h2
            rcases h3 with h3 | h3 | ⟨w, -, -, -, h3⟩
            · exact ⟨h1, h4, by rw [h4]; exact h3.1⟩
            · cases h3.2.1
            · exact absurd rfl h3
        obtain ⟨hel, hse, hsn⟩ := hpo
        have hsc : s < m0.cap := by rw [hse]; exact hgeo.sq_lt _ _
        have hlt : ∀ h k, (∀ j, j < k → m0.ent (sq cfg.ln m0.cap h j) ≠ none) → k < m0.cap :=
          fun h k hk => hgeo.lt_of_empty hk hsc hsn
        have heC : e < m0.cap := hlt _ _ hocc
        have hscur : cur ≠ s := fun h => by rw [h, hsn] at hv; cases hv
        have hschn : s ∉ cur :: ch.map Prod.fst := by
          have : ∀ (ch : List (Nat × Nat)) (cur : Nat), m0.ent cur ≠ none → Chn cfg m0 m ch cur →
              s ∉ cur :: ch.map Prod.fst := by
            intro ch
            induction ch with
            | nil =>
              intro cur h1 _ h2
              simp only [List.map_nil, List.mem_singleton] at h2
              subst h2; exact h1 hsn
            | cons x ch ih' =>
              intro cur h1 h2 h3
              obtain ⟨p, old⟩ := x
              obtain ⟨-, ⟨w, i, a1, -⟩, c3⟩ := h2
              rw [List.map_cons, List.mem_cons] at h3
              rcases h3 with h3 | h3
              · subst h3; exact h1 hsn
              · exact ih' p (by rw [a1]; simp) c3 h3
          exact this ch cur d.ne d.chn
        have hfirst : first cfg.ln m.cap s r.n = cfg.hv v % m.cap := by
          rw [hse, ppr, hcap]; exact hgeo.first_sq _ _
        rw [hfirst]
        generalize hm1 : ({ m with rh := upd m.rh cur true } : Map V) = m1
        have hs1 : Same cfg m m1 := by subst hm1; exact Same.of_eq d.same.lims rfl rfl rfl rfl rfl rfl
        obtain ⟨s1, s2, s3⟩ := boundSet_spec (cfg := cfg) hs1.lims (cfg.hv v % m.cap) r.n (by rw [ppr, hs1.limit]; omega)
        generalize boundSet cfg m1 (cfg.hv v % m.cap) r.n = m2 at s1 s2 s3
        have hs2 : Same cfg m m2 := hs1.trans s1.same
        have hs02 := d.same.trans hs2
        have he2 : m2.ent = m0.ent := by rw [s1.ent, ← d.ent, ← hm1]
        have hw2 : m2.wnt = m0.wnt := by rw [s1.wnt, ← d.wnt, ← hm1]
        have hp2 : m2.prb = m.prb := by rw [s1.prb, ← hm1]
        have hb2 : r.n ≤ boundGet cfg m2 (cfg.hv v) := by
          rw [← boundGet_mod, hs2.cap]; exact s2
        have hgeo2 : Geo cfg.ln m2.cap := by rw [hs02.cap]; exact hgeo
        obtain ⟨w', d1, d2⟩ := addWanted_move
          (m := { m2 with ent := upd m2.ent s (m2.ent cur), prb := upd m2.prb s r.n, rh := upd m2.rh cur false })
          hgeo2 (cfg.hv v) (a := k) (k := e) (by simp only [hs02.cap]; exact heC) (by omega) (by
            intro o ho
            simp only at ho ⊢
            rw [hs02.cap] at ho
            have h1 := g.core.wnt_le ho
            have : (bagOf m0.cap m0.ent).card < 65534 := hcard
            rw [hw2]; omega)
        have hmod := addWanted_mod cfg
          { m2 with ent := upd m2.ent s (m2.ent cur), prb := upd m2.prb s r.n, rh := upd m2.rh cur false } s (some cur) (cfg.hv v)
        simp only at hmod d1 d2
        rw [← hs2.cap, hmod]
        rw [hs02.cap, b4, ← hse] at d1
        rw [hs02.cap] at hmod ⊢
        rw [d1]
        simp only
        have hcore := (g.core.open_empty hsn).fill (p := cur) (c := s) (k := e) (v := v) (wnt' := w') d.lt hsc hscur hv heC hel
          hse.symm hocc (by
            intro o ho
            rw [b1]
            have := d2 o
            rw [hs02.cap, hw2] at this
            exact this)
        have hU : Unw cfg m0
            { m2 with ent := upd m2.ent s (m2.ent cur), prb := upd m2.prb s r.n, wnt := w', rh := upd m2.rh cur false }
            (upd m0.prb s (e + 1)) cur ch := by
          refine ⟨?_, ?_, ⟨?_⟩, ?_, d.nod, ?_, ?_, ?_, ?_, ?_, ?_, d.cl, hlt⟩
          · exact hs02.trans (Same.of_eq hs02.lims rfl rfl rfl rfl rfl rfl)
          · simp only
            rw [hs02.cap, hs02.limit, he2, hv]; exact hcore
          · intro o w ho hh hew
            simp only at ho hew ⊢
            rw [boundGet_eq (cfg := cfg) (m := m2) (by rfl) (by rfl) (by rfl)]
            rw [he2, hv] at hew
            simp only [upd_apply] at hew ⊢
            by_cases h1 : o = s
            · rw [if_pos h1] at hew ⊢
              cases hew
              rw [← ppr]; exact ⟨hb2, s3⟩
            · rw [if_neg h1] at hew ⊢
              have := g.bnd.bd o w (by rw [← hs02.cap]; exact ho) (by simp) hew
              exact ⟨Nat.le_trans this.1 (hs02.bd _), Nat.le_trans this.2 hs02.pm⟩
          · refine Chn.mono (m := m) (by exact hs2.bd) (by exact hs2.pm) ?_ d.chn
            intro o ho
            simp only
            rw [upd_ne _ _ (fun h => by subst h; exact hschn (mids_sub _ _ _ ho)), hp2]
          · intro o ho
            simp only
            rw [upd_ne _ _ (fun h => by subst h; exact hschn ho), he2]
          · intro o ho
            rw [upd_ne _ _ (fun h => by subst h; exact hschn (List.mem_cons_of_mem _ ho))]
          · intro o ho
            simp only [upd_apply]
            split
            · exact ppr
            · rw [hp2]; exact d.prb o (fun h => ho (mids_sub _ _ _ h))
          · intro o ho
            simp only [upd_apply]
            split
            · rw [he2, hv]; simp
            · rw [he2]; exact ho
          · have h1 := bag_upd m0.cap m0.ent s (some v) hsc
            rw [hsn] at h1
            simp only
            rw [hs02.cap, he2, hv]
            simpa [objs] using h1
          · intro o ho hne
            have h1 : o ≠ s := fun h => hne (by rw [h]; exact hsn)
            simp only
            rw [upd_ne _ _ h1, upd_ne _ _ h1, he2, hp2]
            refine ⟨rfl, d.prb o (fun h => ?_)⟩
            have := d.cl o (mids_sub _ _ _ h)
            rw [ho] at this; cases this
        obtain ⟨m', u1, u2⟩ := unwind_spec hcard ch cur _ _ hU
        simp only [hs02.cap] at u1
        rw [u1]
        exact u2

end Verif.Rhs
