import Verif.Rhs.Grow

/-!
# Robin-hood hash set: storing an object
-/

set_option linter.unusedSectionVars false

namespace Verif.Rhs

open Verif Classical

variable {K V : Type} [DecidableEq K] [DecidableEq V]

/-! ## The map a bag stands for -/

/-- The objects of `b` are those of `abs`. -/
structure Rep (cfg : Cfg K V) (b : Multiset V) (abs : K → Option V) : Prop where
  nod : (b.map cfg.key).Nodup
  mem : ∀ q v, abs q = some v ↔ v ∈ b ∧ cfg.key v = q

theorem Rep.absent {cfg : Cfg K V} {b : Multiset V} {abs : K → Option V} (h : Rep cfg b abs) {q : K} (hq : abs q = none) :
    ∀ v, v ∈ b → cfg.key v ≠ q := by
  intro v hv he
  have := (h.mem q v).2 ⟨hv, he⟩
  rw [hq] at this; cases this

theorem Rep.ins {cfg : Cfg K V} {b : Multiset V} {abs : K → Option V} {v : V} (h : Rep cfg b abs)
    (hq : abs (cfg.key v) = none) : Rep cfg (b + {v}) (upd abs (cfg.key v) (some v)) := by
  have hno := h.absent hq
  constructor
  · rw [Multiset.map_add, Multiset.map_singleton, add_comm, Multiset.singleton_add, Multiset.nodup_cons]
    refine ⟨fun hm => ?_, h.nod⟩
    obtain ⟨w, hw, hk⟩ := Multiset.mem_map.1 hm
    exact hno w hw hk
  · intro q w
    rw [upd_apply, Multiset.mem_add, Multiset.mem_singleton]
    by_cases hq' : q = cfg.key v
    · rw [if_pos hq']
      constructor
      · intro he; cases he; exact ⟨.inr rfl, hq'.symm⟩
      · rintro ⟨h1 | h1, h2⟩
        · exact absurd (h2.trans hq') (hno w h1)
        · rw [h1]
    · rw [if_neg hq', h.mem]
      constructor
      · rintro ⟨h1, h2⟩; exact ⟨.inl h1, h2⟩
      · rintro ⟨h1 | h1, h2⟩
        · exact ⟨h1, h2⟩
        · rw [h1] at h2; exact absurd h2.symm hq'

theorem Rep.del {cfg : Cfg K V} {b b' : Multiset V} {abs : K → Option V} {w : V} (h : Rep cfg b abs)
    (hb : b' + {w} = b) : Rep cfg b' (upd abs (cfg.key w) none) := by
  have hn := h.nod
  rw [← hb, Multiset.map_add, Multiset.map_singleton, add_comm, Multiset.singleton_add, Multiset.nodup_cons] at hn
  constructor
  · exact hn.2
  · intro q v
    rw [upd_apply]
    by_cases hq : q = cfg.key w
    · rw [if_pos hq]
      constructor
      · intro he; cases he
      · rintro ⟨h1, h2⟩
        exact absurd (Multiset.mem_map.2 ⟨v, h1, h2.trans hq⟩) hn.1
    · rw [if_neg hq, h.mem, ← hb, Multiset.mem_add, Multiset.mem_singleton]
      constructor
      · rintro ⟨h1 | h1, h2⟩
        · exact ⟨h1, h2⟩
        · rw [h1] at h2; exact absurd h2.symm hq
      · rintro ⟨h1, h2⟩; exact ⟨.inl h1, h2⟩

theorem Rep.repl {cfg : Cfg K V} {b b' : Multiset V} {abs : K → Option V} {o w : V} (h : Rep cfg b abs)
    (ho : o ∈ b) (hk : cfg.key o = cfg.key w) (hb : b' + {o} = b + {w}) : Rep cfg b' (upd abs (cfg.key w) (some w)) := by
  obtain ⟨c, hc⟩ := Multiset.exists_cons_of_mem ho
  have hb' : b' = c + {w} := by
    rw [hc, ← Multiset.singleton_add, add_comm {o} c, add_right_comm] at hb
    exact add_right_cancel hb
  have h1 := h.del (b' := c) (w := o) (by rw [hc, add_comm, Multiset.singleton_add])
  have h2 := h1.ins (v := w) (by rw [hk, upd_same])
  rw [hb']
  have : upd (upd abs (cfg.key o) none) (cfg.key w) (some w) = upd abs (cfg.key w) (some w) := by
    funext q
    simp only [upd_apply]
    split
    · rfl
    · next hq => rw [if_neg (by rw [hk]; exact hq)]
  rw [← this]
  exact h2

/-! ## Invariant of the set -/

/-- `B` slots are few enough for the counters. -/
structure Fits (cfg : Cfg K V) (B : Nat) : Prop where
  lt : B < 65534
  wm : cfg.rm = true ∨ limOf B < cfg.wmax

structure Wf (cfg : Cfg K V) (B : Nat) (m : Map V) (abs : K → Option V) : Prop where
  good : Good cfg m none
  cap : m.cap ≤ B
  lim : m.limit = limOf m.cap
  rep : Rep cfg (bag m) abs

theorem limOf_mono {a b : Nat} (h : a ≤ b) : limOf a ≤ limOf b := by
  unfold limOf
  have h1 : a >>> 5 ≤ b >>> 5 := by
    rw [Nat.shiftRight_eq_div_pow, Nat.shiftRight_eq_div_pow]; exact Nat.div_le_div_right h
  exact min_le_min (max_le_max h1 (le_refl _)) (le_refl _)

theorem card_le (m : Map V) : (bag m).card ≤ m.cap := by
  unfold bag
  rw [bag_card]
  have := sum_le_mul m.cap 1 (fun o => (objs (m.ent o)).card) (fun x _ => card_objs _)
  omega

theorem Wf.card {cfg : Cfg K V} {B : Nat} {m : Map V} {abs : K → Option V} (hw : Wf cfg B m abs) (hf : Fits cfg B) :
    (bag m).card < 65534 := by
  have h1 := card_le m
  have h2 := hw.cap
  have h3 := hf.lt
  omega

theorem Wf.wm {cfg : Cfg K V} {B : Nat} {m : Map V} {abs : K → Option V} (hw : Wf cfg B m abs) (hf : Fits cfg B) :
    cfg.rm = true ∨ m.limit < cfg.wmax := by
  rcases hf.wm with h | h
  · exact .inl h
  · right
    rw [hw.lim]
    exact Nat.lt_of_le_of_lt (limOf_mono hw.cap) h

theorem Wf.slot {cfg : Cfg K V} {B : Nat} {m : Map V} {abs : K → Option V} (hw : Wf cfg B m abs) {q : K} {v : V} :
    abs q = some v ↔ ∃ o, o < m.cap ∧ m.ent o = some v ∧ cfg.key v = q := by
  rw [hw.rep.mem]
  unfold bag
  rw [mem_bag]
  constructor
  · rintro ⟨⟨o, h1, h2⟩, h3⟩; exact ⟨o, h1, h2, h3⟩
  · rintro ⟨o, h1, h2, h3⟩; exact ⟨⟨o, h1, h2⟩, h3⟩

/-- Two slots do not hold the same key. -/
theorem slots_inj {cfg : Cfg K V} {C : Nat} {ent : Nat → Option V} (hn : ((bagOf C ent).map cfg.key).Nodup) {x y : Nat} {v w : V}
    (hx : x < C) (hy : y < C) (hv : ent x = some v) (hw : ent y = some w) (hk : cfg.key v = cfg.key w) : x = y := by
  by_contra hne
  have h1 := bag_upd C ent x none hx
  have h2 : w ∈ bagOf C (upd ent x none) := (mem_bag _ _ _).2 ⟨y, hy, by rw [upd_ne _ _ (fun h => hne h.symm)]; exact hw⟩
  rw [hv] at h1
  simp only [objs, add_zero] at h1
  rw [← h1, Multiset.map_add, Multiset.map_singleton, add_comm, Multiset.singleton_add, Multiset.nodup_cons] at hn
  exact hn.1 (Multiset.mem_map.2 ⟨w, h2, hk.symm⟩)

/-! ## Probes for a key -/

/-- Initial limit of a probe. -/
def lim0 (cfg : Cfg K V) (m : Map V) (q : K) (beh : Beh) (opl : Nat) : Nat :=
  if beh = .insert ∧ cfg.rm = false then boundGet cfg m (cfg.hash q) else opl

theorem probe_spec (cfg : Cfg K V) (m : Map V) (q : K) (beh : Beh) (opl : Nat)
    (hl : lim0 cfg m q beh opl ≤ opl) :
    ∃ r, probe cfg m q beh opl = .ok r ∧
      PS cfg m (cfg.hash q) (fun v => decide (cfg.key v = q)) beh 0 (lim0 cfg m q beh opl) opl r := by
  have h0 : cfg.hash q % m.cap = sq cfg.ln m.cap (cfg.hash q) 0 := rfl
  unfold probe
  rw [h0]
  exact probeLoop_spec cfg m (cfg.hash q) _ beh 0 (lim0 cfg m q beh opl) opl _ 0 _ none (Nat.le_refl _) (Nat.zero_le _) hl (.inl rfl)
    (by have := Nat.le_max_right (lim0 cfg m q beh opl) opl
        show opl - 0 < Nat.max (lim0 cfg m q beh opl) opl + 2
        have h2 : opl ≤ Nat.max (lim0 cfg m q beh opl) opl := this
        omega) (fun j hj => by omega) trivial

theorem PS.absent {cfg : Cfg K V} {B : Nat} {m : Map V} {abs : K → Option V} (hw : Wf cfg B m abs) {q : K} {beh : Beh} {l0 opl : Nat}
    {r : PR V} (hp : PS cfg m (cfg.hash q) (fun v => decide (cfg.key v = q)) beh 0 l0 opl r) (hq : abs q = none) : r.obj = none := by
  obtain ⟨e, -, -, -, -, h | ⟨-, -, h | h | ⟨v, h1, h2, h3, -⟩⟩⟩ := hp
  · exact h.1
  · exact h.2
  · exact h.1
  · have := hw.slot.2 ⟨_, hw.good.core.geo.sq_lt _ _, h1, by simpa using h2⟩
    rw [hq] at this; cases this

/-- The probe finds the object. -/
theorem PS.present {cfg : Cfg K V} {B : Nat} {m : Map V} {abs : K → Option V} (hw : Wf cfg B m abs) {q : K} {beh : Beh} {l0 opl : Nat}
    {r : PR V} {v : V} (hp : PS cfg m (cfg.hash q) (fun v => decide (cfg.key v = q)) beh 0 l0 opl r) (hq : abs q = some v)
    (hbr : beh ≠ .robin) (hbh : beh ≠ .rh) (hl0 : boundGet cfg m (cfg.hash q) ≤ l0) (hlo : l0 ≤ opl) :
    r.obj = some v ∧ ∃ s k, r.slot = some s ∧ s < m.cap ∧ m.ent s = some v ∧ m.prb s = k + 1 ∧
      (match r.pr with
        | none => r.n = k + 1
        | some f => f ≠ s ∧ ∃ j, j < k ∧ j < opl ∧ f = sq cfg.ln m.cap (cfg.hash q) j ∧ r.n = j + 1 ∧ m.rh f = false ∧ m.ent f ≠ none ∧
            ∀ i, i < j → m.ent (sq cfg.ln m.cap (cfg.hash q) i) ≠ none) := by
  obtain ⟨o, ho, hv, hk⟩ := hw.slot.1 hq
  obtain ⟨k, b1, b2, b3, b4, b5⟩ := hw.good.core.pos o v ho (by simp) hv
  have hhv : cfg.hv v = cfg.hash q := by unfold Cfg.hv; rw [hk]
  have hbd := (hw.good.bnd.bd o v ho (by simp) hv).1
  rw [hhv] at b4 b5 hbd
  have hgeo := hw.good.core.geo
  obtain ⟨e, -, pocc, pel, ppr, pout⟩ := hp
  have hek : e ≤ k := by
    by_contra hc
    obtain ⟨w, h1, h2⟩ := pocc k (by omega)
    rw [b4, hv] at h1
    cases h1
    have := h2 hbr
    simp [hk] at this
  rcases pout with ⟨-, -, h | h⟩ | ⟨hlt, hslot, h | h | ⟨w, h1, h2, h3, -⟩⟩
  · omega
  · omega
  · rcases Nat.eq_or_lt_of_le hek with h4 | h4
    · subst h4; rw [b4, hv] at h; cases h.1
    · exact absurd h.1 (b5 e h4)
  · rcases h.2.2 with h | h
    · exact absurd h hbh
    · exact absurd h hbr
  · have hkw : cfg.key w = q := by simpa using h2
    have heo := slots_inj hw.rep.nod (hgeo.sq_lt _ _) ho h1 hv (hkw.trans hk.symm)
    have hek' : e = k := hgeo.sq_inj (by omega) b2 (heo.trans b4.symm)
    subst hek'
    rw [heo] at h1
    rw [hv] at h1
    cases h1
    refine ⟨h3, o, e, by rw [hslot, heo], ho, hv, b1, ?_⟩
    cases hpr : r.pr with
    | none => rw [hpr] at ppr; exact ppr
    | some f =>
      rw [hpr] at ppr
      obtain ⟨j, -, q1, q2, q3, q4, q5, q6, q7, -⟩ := ppr
      have hjk : j ≠ e := by
        intro hje; rw [hje, heo] at q3; rw [q3, b1] at q6; omega
      refine ⟨fun hf => ?_, j, by omega, q2, q3, q4, q5, q7, fun i hi => ?_⟩
      · rw [hf, b1] at q6; omega
      · obtain ⟨w, h1, -⟩ := pocc i (by omega)
        rw [h1]; simp

/-! ## Storing -/

theorem Undone.good {cfg : Cfg K V} {m0 m : Map V} (h : Undone cfg m0 m) (g : Good cfg m0 none) : Good cfg m none := by
  refine ⟨?_, ⟨?_⟩, h.same.lims⟩
  · rw [h.same.cap, h.same.limit, h.ent, h.wnt, h.prb]; exact g.core
  · intro o v ho hh he
    rw [h.same.cap] at ho
    rw [h.ent] at he
    rw [h.prb]
    have := g.bnd.bd o v ho hh he
    exact ⟨Nat.le_trans this.1 (h.same.bd _), Nat.le_trans this.2 h.same.pm⟩

theorem Raise.undone {cfg : Cfg K V} {m0 m : Map V} (h : Raise cfg m0 m) : Undone cfg m0 m := ⟨h.same, h.ent, h.wnt, h.prb⟩

theorem Undone.trans {cfg : Cfg K V} {m0 m1 m2 : Map V} (h : Undone cfg m0 m1) (h' : Undone cfg m1 m2) : Undone cfg m0 m2 :=
  ⟨h.same.trans h'.same, h'.ent.trans h.ent, h'.wnt.trans h.wnt, h'.prb.trans h.prb⟩

theorem Undone.bag {cfg : Cfg K V} {m0 m : Map V} (h : Undone cfg m0 m) : bag m = bag m0 := by
  unfold Rhs.bag; rw [h.same.cap, h.ent]

theorem mark_undone {cfg : Cfg K V} (m : Map V) (b : Bool) (s : Option Nat) (h : Lims cfg m) : Undone cfg m (mark m b s) := by
  cases s with
  | none => exact ⟨Same.refl h, rfl, rfl, rfl⟩
  | some s => exact ⟨Same.of_eq h rfl rfl rfl rfl rfl rfl, rfl, rfl, rfl⟩

theorem mark_rh (m : Map V) (s : Option Nat) (o : Nat) : (mark m true s).rh o = if some o = s then true else m.rh o := by
  cases s with
  | none => simp [mark]
  | some s =>
    simp only [mark, upd_apply]
    by_cases h : o = s
    · rw [if_pos h, if_pos (by rw [h])]
    · rw [if_neg h, if_neg (by simpa using h)]

/-- `ck_rhs_put_robin_hood`. -/
theorem putRobin_spec {cfg : Cfg K V} {m : Map V} (g : Good cfg m none) (hcard : (bag m).card < 65534) {f : Nat}
    (hf : f < m.cap) (he : m.ent f ≠ none) (hrh : m.rh f = false) :
    match putRobin cfg m f with
    | .error e => e = .deep
    | .ok (.full m') => Undone cfg m m'
    | .ok (.done m') => Moved cfg m m' f := by
  unfold putRobin
  exact robin_spec g hcard 512 m f (m.prb f) [] ⟨Same.refl g.lims, rfl, rfl, trivial, by simp, by simp, fun _ h => h,
    by simpa using hrh, fun _ _ => rfl, rfl, hf, he⟩

/-- The object is put into the slot that was freed. -/
theorem put_moved {cfg : Cfg K V} {m0 m : Map V} {f j : Nat} {v : V} (hm : Moved cfg m0 m f) (hcard : (bag m0).card < 65534)
    (hf : f = sq cfg.ln m0.cap (cfg.hv v) j) (hj : j < m0.limit)
    (hocc : ∀ i, i < j → m0.ent (sq cfg.ln m0.cap (cfg.hv v) i) ≠ none)
    (hb : j + 1 ≤ boundGet cfg m0 (cfg.hv v)) (hpm : j + 1 ≤ m0.pmax) (m1 : Map V) (hm1 : m1.rh = m1.rh)
    (h1 : m1 = { m with rh := m1.rh, ent := upd m.ent f (some v), prb := upd m.prb f (j + 1) }) :
    ∃ w', addWanted cfg m1 f none (cfg.hv v) = .ok { m1 with wnt := w' } ∧ Same cfg m0 { m1 with wnt := w' } ∧
      Good cfg { m1 with wnt := w' } none ∧ bag { m1 with wnt := w' } = bag m0 + {v} := by
  have hcap := hm.same.cap
  have c1 : m1.cap = m.cap := by rw [h1]
  have e1 : m1.ent = upd m.ent f (some v) := by rw [h1]
  have p1 : m1.prb = upd m.prb f (j + 1) := by rw [h1]
  have w1 : m1.wnt = m.wnt := by rw [h1]
  have hgeo := hm.good.core.geo
  have hjC : j < m.cap := by rw [hcap]; exact hm.lt _ j hocc
  have hfm : sq cfg.ln m.cap (cfg.hv v) j = f := by rw [hcap]; exact hf.symm
  have hfC : f < m.cap := by rw [← hfm]; exact hgeo.sq_lt _ _
  have hbm : (bagOf m.cap m.ent).card < 65535 := by
    rw [hm.bagm, Multiset.card_add]
    have h2 := card_objs (m0.ent f)
    have h3 : (bagOf m0.cap m0.ent).card < 65534 := hcard
    omega
  have hwlt : ∀ o, o < m.cap → m.wnt o < 65535 := by
    intro o ho
    have := hm.good.core.wnt_le ho
    omega
  obtain ⟨w', a1, a2⟩ := addWanted_new (cfg := cfg) (m := m1) (by rw [c1]; exact hgeo) (cfg.hv v) j (by rw [c1]; exact hjC)
    (by rw [c1, w1]; exact hwlt)
  have hfm1 : sq cfg.ln m1.cap (cfg.hv v) j = f := by rw [c1]; exact hfm
  rw [hfm1] at a1
  rw [c1, w1] at a2
  refine ⟨w', a1, ?_, ⟨?_, ⟨?_⟩, ?_⟩, ?_⟩
  · refine hm.same.trans (Same.of_eq hm.same.lims ?_ ?_ ?_ ?_ ?_ ?_) <;> rw [h1]
  · have := hm.good.core.put (c := f) (k := j) (v := v) (wnt' := w') hfC hjC (by rw [hm.same.limit]; exact hj) hfm
      (fun i hi => hm.ne _ (by rw [hcap]; exact hocc i hi)) (fun o _ => a2 o)
    simp only
    rw [c1, e1, p1, show m1.limit = m.limit by rw [h1]]
    exact this
  · intro o u ho _ hu
    simp only at ho hu ⊢
    rw [c1] at ho
    rw [boundGet_eq (cfg := cfg) (m := m) (by rw [h1]) (by rw [h1]) (by rw [h1]), p1, show m1.pmax = m.pmax by rw [h1]]
    rw [e1, upd_apply] at hu
    rw [upd_apply]
    by_cases h2 : o = f
    · rw [if_pos h2] at hu ⊢
      cases hu
      exact ⟨Nat.le_trans hb (hm.same.bd _), Nat.le_trans hpm hm.same.pm⟩
    · rw [if_neg h2] at hu ⊢
      exact hm.good.bnd.bd o u ho (by simpa using h2) hu
  · exact ⟨by rw [h1]; exact hm.same.lims.pm, by rw [h1]; exact hm.same.lims.bl, by rw [h1]; exact hm.same.lims.bw⟩
  · have h2 := bag_upd m.cap m.ent f (some v) hfC
    rw [hm.entf, hm.bagm, add_right_comm] at h2
    unfold bag
    simp only
    rw [c1, e1]
    exact add_right_cancel h2

/-- What `place` leaves. -/
structure Stored (cfg : Cfg K V) (m m' : Map V) : Prop where
  good : Good cfg m' none
  cap : m'.cap = m.cap
  limit : m'.limit = m.limit
  n : m'.n = m.n
  maxEnt : m'.maxEnt = m.maxEnt

theorem Undone.stored {cfg : Cfg K V} {m0 m : Map V} (h : Undone cfg m0 m) (g : Good cfg m0 none) : Stored cfg m0 m :=
  ⟨h.good g, h.same.cap, h.same.limit, h.same.n, h.same.maxEnt⟩

/-- A new object. -/
theorem place_new {cfg : Cfg K V} {m : Map V} (g : Good cfg m none) (hcard : (bag m).card < 65534) {v : V} {beh : Beh} {l0 : Nat}
    {r : PR V} (mk : Bool) (hmk : mk = true → beh ≠ .rh ∧ beh ≠ .robin)
    (hp : PS cfg m (cfg.hv v) (fun w => decide (cfg.key w = cfg.key v)) beh 0 l0 m.limit r)
    (ho : r.obj = none) (hr : ¬(r.slot = none ∧ r.pr = none)) :
    match place cfg mk m r v with
    | .error e => e = .deep
    | .ok (.full m') => Undone cfg m m'
    | .ok (.done m') => Stored cfg m m' ∧ bag m' = bag m + {v} := by
  obtain ⟨e, -, pocc, pel, ppr, pout⟩ := hp
  have hgeo := g.core.geo
  have hocc : ∀ i, i < e → m.ent (sq cfg.ln m.cap (cfg.hv v) i) ≠ none := by
    intro i hi
    obtain ⟨w, hw, -⟩ := pocc i hi
    rw [hw]; simp
  unfold place
  simp only [bind, Except.bind]
  rw [show cfg.hash (cfg.key v) = cfg.hv v from rfl]
  cases hpr : r.pr with
  | some f =>
    rw [hpr] at ppr
    obtain ⟨j, -, q1, q2, q3, q4, q5, q6, q7, -⟩ := ppr
    simp only
    obtain ⟨s1, s2, s3⟩ := boundSet_spec g.lims (cfg.hv v) r.n (by rw [q4]; exact q2)
    generalize boundSet cfg m (cfg.hv v) r.n = m1 at *
    have hu1 := s1.undone
    have hsl : some f ≠ (if mk = true then r.slot else none) := by
      intro hc
      cases mk with
      | false => cases hc
      | true =>
        rw [if_pos rfl] at hc
        rw [← hc, ho] at pout
        rcases pout with h | ⟨-, h2, h3⟩
        · cases h.2.1
        · have h4 := Option.some.inj h2
          rcases h3 with h3 | h3 | ⟨w, -, -, h3, -⟩
          · rw [h4] at q7; exact q7 h3.1
          · rcases h3.2.2 with h | h
            · exact (hmk rfl).1 h
            · exact (hmk rfl).2 h
          · cases h3
    generalize (if mk = true then r.slot else none) = sl at *
    have hu2 := hu1.trans (mark_undone (cfg := cfg) m1 true sl s1.lims)
    have hrh : (mark m1 true sl).rh f = if some f = sl then true else m.rh f := by rw [mark_rh, s1.rh]
    have hcard2 : (bag (mark m1 true sl)).card < 65534 := by rw [hu2.bag]; exact hcard
    rw [if_neg hsl, q5] at hrh
    have hfC : f < m.cap := by rw [q3]; exact hgeo.sq_lt _ _
    have hrob := putRobin_spec (hu2.good g) hcard2 (f := f) (by rw [hu2.same.cap]; exact hfC) (by rw [hu2.ent]; exact q7) hrh
    cases hpR : putRobin cfg (mark m1 true sl) f with
    | error x => rw [hpR] at hrob; exact hrob
    | ok x =>
      rw [hpR] at hrob
      cases x with
      | full m2 =>
        simp only at hrob ⊢
        exact (hu2.trans hrob).trans (mark_undone (cfg := cfg) m2 false sl hrob.same.lims)
      | done m2 =>
        simp only at hrob ⊢
        have hc2 := hu2.same.cap
        have hbd : r.n ≤ boundGet cfg (mark m1 true sl) (cfg.hv v) := Nat.le_trans s2 ((mark_undone (cfg := cfg) m1 true sl s1.lims).same.bd _)
        have hpm : r.n ≤ (mark m1 true sl).pmax := Nat.le_trans s3 ((mark_undone (cfg := cfg) m1 true sl s1.lims).same.pm)
        rw [q4] at hbd hpm ⊢
        obtain ⟨w', a1, a2, a3, a4⟩ := put_moved (v := v) (j := j) hrob hcard2 (by rw [hc2]; exact q3) (by rw [hu2.same.limit]; exact q2)
          (fun i hi => by rw [hu2.ent, hc2]; exact hocc i (by omega)) hbd hpm
          { (mark m2 false sl) with ent := upd (mark m2 false sl).ent f (some v), prb := upd (mark m2 false sl).prb f (j + 1) } rfl
          (by cases sl <;> rfl)
        rw [a1]
        simp only [ho]
        have hs := hu2.same.trans a2
        exact ⟨⟨a3, hs.cap, hs.limit, hs.n, hs.maxEnt⟩, by rw [a4, hu2.bag]⟩
  | none =>
    rw [hpr] at ppr pout
    cases hsl : r.slot with
    | none => exact absurd ⟨hsl, hpr⟩ hr
    | some s =>
      rw [hsl, ho] at pout
      simp only [ho, Option.isSome_none, Bool.false_eq_true, if_false]
      have hpo : e < m.limit ∧ s = sq cfg.ln m.cap (cfg.hv v) e ∧ m.ent s = none := by
        rcases pout with h | ⟨h1, h2, h3⟩
        · cases h.2.1
        · have h4 := Option.some.inj h2
          rcases h3 with h3 | h3 | ⟨w, -, -, h3, -⟩
          · exact ⟨h1, h4, by rw [h4]; exact h3.1⟩
          · cases h3.2.1
          · cases h3
      obtain ⟨hel, hse, hsn⟩ := hpo
      have hsC : s < m.cap := by rw [hse]; exact hgeo.sq_lt _ _
      obtain ⟨s1, s2, s3⟩ := boundSet_spec g.lims (cfg.hv v) r.n (by rw [ppr]; exact hel)
      generalize boundSet cfg m (cfg.hv v) r.n = m1 at *
      have hu1 := s1.undone
      have hg1 := hu1.good g
      have hmv : Moved cfg m1 m1 s := ⟨Same.refl s1.lims, ⟨hg1.core.open_empty (by rw [s1.ent]; exact hsn),
        ⟨fun o v ho _ he => hg1.bnd.bd o v ho (by simp) he⟩, s1.lims⟩, by rw [s1.ent, hsn]; simp [objs], rfl, fun _ h => h,
        fun _ _ _ => ⟨rfl, rfl⟩, fun h k hk => hg1.core.geo.lt_of_empty hk (by rw [s1.cap]; exact hsC) (by rw [s1.ent]; exact hsn)⟩
      rw [ppr] at s2 s3 ⊢
      obtain ⟨w', a1, a2, a3, a4⟩ := put_moved (v := v) (j := e) hmv (by rw [hu1.bag]; exact hcard) (by rw [s1.cap]; exact hse)
        (by rw [s1.limit]; exact hel) (fun i hi => by rw [s1.ent, s1.cap]; exact hocc i hi) s2 s3
        { m1 with ent := upd m1.ent s (some v), prb := upd m1.prb s (e + 1) } rfl rfl
      rw [a1]
      have hs := hu1.same.trans a2
      exact ⟨⟨a3, hs.cap, hs.limit, hs.n, hs.maxEnt⟩, by rw [a4, hu1.bag]⟩

/-- The object is put into the slot that was freed and the old one with the same key is removed. -/
theorem repl_moved {cfg : Cfg K V} {m0 m : Map V} {f j s : Nat} {v o : V} (hm : Moved cfg m0 m f) (hcard : (bag m0).card < 65534)
    (hwm : cfg.rm = true ∨ m0.limit < cfg.wmax)
    (hf : f = sq cfg.ln m0.cap (cfg.hv v) j) (hj : j < m0.limit)
    (hocc : ∀ i, i < j → m0.ent (sq cfg.ln m0.cap (cfg.hv v) i) ≠ none)
    (hb : j + 1 ≤ boundGet cfg m0 (cfg.hv v)) (hpm : j + 1 ≤ m0.pmax)
    (hs : s < m0.cap) (hso : m0.ent s = some o) (hsr : m0.rh s = true) (hfs : f ≠ s) (m1 : Map V)
    (h1 : m1 = { m with rh := m1.rh, ent := upd m.ent f (some v), prb := upd m.prb f (j + 1) }) :
    ∃ m2 m3, addWanted cfg m1 f none (cfg.hv v) = .ok m2 ∧ delete cfg m2 s = .ok m3 ∧ Stored cfg m0 m3 ∧
      bag m3 + {o} = bag m0 + {v} := by
  obtain ⟨w', a1, a2, a3, a4⟩ := put_moved hm hcard hf hj hocc hb hpm m1 rfl h1
  have e1 : m1.ent = upd m.ent f (some v) := by rw [h1]
  have hse : ({ m1 with wnt := w' } : Map V).ent s = some o := by
    simp only
    rw [e1, upd_ne _ _ (fun h => hfs h.symm), (hm.keep s hsr (by rw [hso]; simp)).1, hso]
  obtain ⟨m3, b1, b2, b3, b4⟩ := delete_spec (slot := s) (w := o) a3 (by rw [a4, Multiset.card_add, Multiset.card_singleton]; omega)
    (by rw [a2.limit]; exact hwm) (by rw [a2.cap]; exact hs) hse
  exact ⟨_, m3, a1, b1, ⟨b3, b2.cap.trans a2.cap, b2.limit.trans a2.limit, b2.n.trans a2.n, b2.maxEnt.trans a2.maxEnt⟩, by rw [b4, a4]⟩

/-- The object takes the place of the one with the same key. -/
theorem repl_same {cfg : Cfg K V} {m : Map V} (g : Good cfg m none) {s : Nat} {v o : V} (hs : s < m.cap) (hso : m.ent s = some o)
    (hk : cfg.hv v = cfg.hv o) {x : Nat} (hx : m.prb s = x) :
    Stored cfg m { m with ent := upd m.ent s (some v), prb := upd m.prb s x } ∧
      bag { m with ent := upd m.ent s (some v), prb := upd m.prb s x } + {o} = bag m + {v} := by
  have hp : upd m.prb s x = m.prb := by rw [← hx]; exact upd_eq_self _ _
  rw [hp]
  refine ⟨⟨⟨g.core.repl hso hk, ⟨?_⟩, ⟨g.lims.pm, g.lims.bl, g.lims.bw⟩⟩, rfl, rfl, rfl, rfl⟩, ?_⟩
  · intro y u hy _ hu
    simp only at hy hu ⊢
    show m.prb y ≤ boundGet cfg m (cfg.hv u) ∧ m.prb y ≤ m.pmax
    rw [upd_apply] at hu
    by_cases h2 : y = s
    · rw [if_pos h2] at hu
      cases hu
      rw [h2, hk]
      exact g.bnd.bd s o hs (by simp) hso
    · rw [if_neg h2] at hu
      exact g.bnd.bd y u hy (by simp) hu
  · have := bag_upd m.cap m.ent s (some v) hs
    rw [hso] at this
    exact this

/-- An object with a key that is present. -/
theorem place_repl {cfg : Cfg K V} {B : Nat} {m : Map V} {abs : K → Option V} (hw : Wf cfg B m abs) (hfit : Fits cfg B) {q : K}
    {v o : V} (hk : cfg.key v = q) (hq : abs q = some o) {beh : Beh} {l0 : Nat}
    {r : PR V} (hbr : beh ≠ .robin) (hbh : beh ≠ .rh) (hl0 : boundGet cfg m (cfg.hash q) ≤ l0) (hlo : l0 ≤ m.limit)
    (hp : PS cfg m (cfg.hash q) (fun w => decide (cfg.key w = q)) beh 0 l0 m.limit r) :
    match place cfg true m r v with
    | .error e => e = .deep
    | .ok (.full m') => Undone cfg m m'
    | .ok (.done m') => Stored cfg m m' ∧ bag m' + {o} = bag m + {v} := by
  obtain ⟨ro, s, k, rs, hs, hso, hsk, hpr⟩ := hp.present hw hq hbr hbh hl0 hlo
  have hhv : cfg.hv v = cfg.hash q := by unfold Cfg.hv; rw [hk]
  have hho : cfg.hv v = cfg.hv o := by rw [hhv]; unfold Cfg.hv; rw [((hw.rep.mem q o).1 hq).2]
  have g := hw.good
  have hcard := hw.card hfit
  have hgeo := g.core.geo
  unfold place
  simp only [bind, Except.bind, if_true]
  rw [show cfg.hash (cfg.key v) = cfg.hv v from rfl, rs, ro]
  rw [← hhv] at hpr
  cases hf : r.pr with
  | some f =>
    rw [hf] at hpr
    obtain ⟨hfs, j, -, q2, q3, q4, q5, q7, hocc⟩ := hpr
    simp only
    obtain ⟨s1, s2, s3⟩ := boundSet_spec g.lims (cfg.hv v) r.n (by rw [q4]; exact q2)
    generalize boundSet cfg m (cfg.hv v) r.n = m1 at *
    have hmu := mark_undone (cfg := cfg) m1 true (some s) s1.lims
    have hu2 := s1.undone.trans hmu
    have hrh : ∀ x, (mark m1 true (some s)).rh x = if x = s then true else m.rh x := by
      intro x; rw [mark_rh, s1.rh]; simp
    have hcard2 : (bag (mark m1 true (some s))).card < 65534 := by rw [hu2.bag]; exact hcard
    have hc2 := hu2.same.cap
    have hrob := putRobin_spec (hu2.good g) hcard2 (f := f) (by rw [hc2, q3]; exact hgeo.sq_lt _ _) (by rw [hu2.ent]; exact q7)
      (by rw [hrh, if_neg hfs, q5])
    cases hpR : putRobin cfg (mark m1 true (some s)) f with
    | error x => rw [hpR] at hrob; exact hrob
    | ok x =>
      rw [hpR] at hrob
      cases x with
      | full m2 =>
        simp only at hrob ⊢
        exact (hu2.trans hrob).trans (mark_undone (cfg := cfg) m2 false (some s) hrob.same.lims)
      | done m2 =>
        simp only at hrob ⊢
        have hbd : r.n ≤ boundGet cfg (mark m1 true (some s)) (cfg.hv v) := Nat.le_trans s2 (hmu.same.bd _)
        have hpm : r.n ≤ (mark m1 true (some s)).pmax := Nat.le_trans s3 hmu.same.pm
        rw [q4] at hbd hpm ⊢
        obtain ⟨m3, m4, a1, a2, a3, a4⟩ := repl_moved (v := v) (o := o) (j := j) (s := s) hrob hcard2 (by rw [hu2.same.limit]; exact hw.wm hfit)
          (by rw [hc2]; exact q3) (by rw [hu2.same.limit]; exact q2)
          (fun i hi => by rw [hu2.ent, hc2]; exact hocc i hi) hbd hpm (by rw [hc2]; exact hs) (by rw [hu2.ent]; exact hso)
          (by rw [hrh, if_pos rfl]) hfs
          { (mark m2 false (some s)) with ent := upd (mark m2 false (some s)).ent f (some v), prb := upd (mark m2 false (some s)).prb f (j + 1) }
          rfl
        rw [a1]
        simp only
        rw [a2]
        simp only [Except.map]
        have hs' := hu2.same
        exact ⟨⟨a3.good, a3.cap.trans hs'.cap, a3.limit.trans hs'.limit, a3.n.trans hs'.n, a3.maxEnt.trans hs'.maxEnt⟩,
          by rw [a4, hu2.bag]⟩
  | none =>
    rw [hf] at hpr
    simp only [Option.isSome_some, if_true]
    obtain ⟨k', b1, b2, b3, b4, b5⟩ := g.core.pos s o hs (by simp) hso
    obtain ⟨s1, s2, s3⟩ := boundSet_spec g.lims (cfg.hv v) r.n (by rw [hpr]; omega)
    generalize boundSet cfg m (cfg.hv v) r.n = m1 at *
    have hu := s1.undone
    obtain ⟨a1, a2⟩ := repl_same (cfg := cfg) (v := v) (o := o) (s := s) (x := r.n) (hu.good g) (by rw [s1.cap]; exact hs) (by rw [s1.ent]; exact hso) hho
      (by rw [s1.prb, hsk, hpr])
    exact ⟨⟨a1.good, a1.cap.trans s1.cap, a1.limit.trans s1.limit, a1.n.trans s1.n, a1.maxEnt.trans s1.maxEnt⟩, by rw [a2, hu.bag]⟩

/-! ## Operations that store -/

/-- The invariant with the number of deletions that `n_entries` has missed. -/
structure St (cfg : Cfg K V) (B : Nat) (m : Map V) (abs : K → Option V) (d : Nat) : Prop where
  wf : Wf cfg B m abs
  n : m.n = (bag m).card + d

theorem Good.n {cfg : Cfg K V} {m : Map V} (g : Good cfg m none) (x : Nat) : Good cfg { m with n := x } none :=
  ⟨g.core, ⟨g.bnd.bd⟩, ⟨g.lims.pm, g.lims.bl, g.lims.bw⟩⟩

theorem Undone.st {cfg : Cfg K V} {B : Nat} {m m' : Map V} {abs : K → Option V} {d : Nat} (h : Undone cfg m m') (hs : St cfg B m abs d) :
    St cfg B m' abs d :=
  ⟨⟨h.good hs.wf.good, by rw [h.same.cap]; exact hs.wf.cap, by rw [h.same.cap, h.same.limit]; exact hs.wf.lim,
    by rw [h.bag]; exact hs.wf.rep⟩, by rw [h.same.n, h.bag]; exact hs.n⟩

theorem Stored.wf {cfg : Cfg K V} {B : Nat} {m m' : Map V} {abs abs' : K → Option V} (h : Stored cfg m m') (hw : Wf cfg B m abs)
    (hr : Rep cfg (bag m') abs') : Wf cfg B m' abs' :=
  ⟨h.good, by rw [h.cap]; exact hw.cap, by rw [h.cap, h.limit]; exact hw.lim, hr⟩

theorem Grown.st {cfg : Cfg K V} {B lf : Nat} {m u : Map V} {abs : K → Option V} (h : Grown cfg lf m u) (hw : Wf cfg B m abs)
    (hc : u.cap ≤ B) : St cfg B u abs 0 :=
  ⟨⟨h.good, hc, h.lim, by rw [h.bagm]; exact hw.rep⟩, by rw [h.n, h.bagm]; rfl⟩

/-- No allocation of more than `B` slots succeeds. -/
def Small (B : Nat) (al : Alloc) : Prop := ∀ a, a ∈ al → ∀ n, a n = true → n ≤ B

theorem Small.suffix {B : Nat} {al al' pre : Alloc} (h : Small B al) (he : al = pre ++ al') : Small B al' := by
  intro a ha
  exact h a (by rw [he]; exact List.mem_append_right _ ha)

theorem grow_st {cfg : Cfg K V} {B : Nat} {m : Map V} {abs : K → Option V} (hfit : Fits cfg B) (hw : Wf cfg B m abs)
    (lf c : Nat) {al : Alloc} (hal : Small B al) :
    ∃ r al', grow cfg lf m c al = .ok (r, al') ∧ Small B al' ∧
      ∀ u, r = some u → St cfg B u abs 0 ∧ al'.length < al.length ∧ u.maxEnt = u.cap * lf / 100 := by
  obtain ⟨r, al', h1, ⟨pre, h2⟩, h3⟩ := grow_spec (cfg := cfg) (lf := lf) (hw.card hfit) al c
  refine ⟨r, al', h1, hal.suffix h2, fun u hu => ?_⟩
  obtain ⟨h4, h5, a, ha, h6⟩ := h3 u hu
  exact ⟨h4.st hw (hal a ha _ h6), h5, h4.max⟩

theorem postinsert_spec {cfg : Cfg K V} {B : Nat} {m : Map V} {abs : K → Option V} (hfit : Fits cfg B) (hw : Wf cfg B m abs) {d : Nat}
    (hn : m.n + 1 = (bag m).card + d) (lf : Nat) {al : Alloc} (hal : Small B al) :
    ∃ m', postinsert cfg lf m al = .ok m' ∧ ∃ d', d' ≤ d ∧ St cfg B m' abs d' := by
  have hw' : Wf cfg B { m with n := m.n + 1 } abs := ⟨hw.good.n _, hw.cap, hw.lim, hw.rep⟩
  unfold postinsert
  simp only [bind, Except.bind]
  by_cases h : m.n + 1 > m.maxEnt
  · rw [if_pos h]
    obtain ⟨r, al', h1, h2, h3⟩ := grow_st hfit hw' lf (m.cap * 2 % 2 ^ 64) hal
    rw [h1]
    cases r with
    | none => exact ⟨_, rfl, d, Nat.le_refl _, hw', hn⟩
    | some u => exact ⟨_, rfl, 0, Nat.zero_le _, (h3 u rfl).1⟩
  · rw [if_neg h]
    exact ⟨_, rfl, d, Nat.le_refl _, hw', hn⟩

theorem upd_none_self {abs : K → Option V} {q : K} {x : Option V} (h : abs q = x) : upd abs q x = abs := by
  rw [← h]; exact upd_eq_self _ _

/-- What an operation that is to store leaves; `fo` tells from the object that is there what it does. -/
def Outcome (cfg : Cfg K V) (B : Nat) (abs : K → Option V) (d : Nat) (q : K) (fo : Sum (Res V) (Option V × Res V)) :
    Except Err (Map V × Res V) → Prop
  | .error e => e = .deep
  | .ok (m', res') => (res' = .denied ∧ ∃ d', d' ≤ d ∧ St cfg B m' abs d') ∨
    match fo with
    | .inl res => res' = res ∧ ∃ d', d' ≤ d ∧ St cfg B m' abs d'
    | .inr (x, res) => res' = res ∧ ∃ d', d' ≤ (if x = none then d + 1 else d) ∧ St cfg B m' (upd abs q x) d'

theorem Outcome.mono {cfg : Cfg K V} {B : Nat} {abs : K → Option V} {d d1 : Nat} {q : K} {fo : Sum (Res V) (Option V × Res V)}
    {x : Except Err (Map V × Res V)} (h : Outcome cfg B abs d1 q fo x) (hd : d1 ≤ d) : Outcome cfg B abs d q fo x := by
  cases x with
  | error e => exact h
  | ok p =>
    obtain ⟨m', res'⟩ := p
    rcases h with ⟨t1, d', t2, t3⟩ | t
    · exact .inl ⟨t1, d', by omega, t3⟩
    · right
      cases fo with
      | inl res =>
        obtain ⟨t1, d', t2, t3⟩ := t
        exact ⟨t1, d', by omega, t3⟩
      | inr p =>
        obtain ⟨x, res⟩ := p
        obtain ⟨t1, d', t2, t3⟩ := t
        refine ⟨t1, d', ?_, t3⟩
        split at t2
        · next hx => rw [if_pos hx]; omega
        · next hx => rw [if_neg hx]; omega

theorem withRoom_spec {cfg : Cfg K V} {B : Nat} (hfit : Fits cfg B) {abs : K → Option V} (lf : Nat) (q : K) (beh : Beh) (mk : Bool)
    (f : Option V → Sum (Res V) (Option V × Res V)) (hb : beh = .insert ∨ beh = .rh ∧ mk = false ∧ abs q = none)
    (hkey : ∀ v res, f (abs q) = .inr (some v, res) → cfg.key v = q)
    (hmk : mk = false → ∀ o, abs q = some o → ∃ res, f (some o) = .inl res)
    (hno : ∀ res, f none ≠ .inr (none, res)) :
    ∀ fuel (m : Map V) al d, St cfg B m abs d → Small B al → al.length < fuel →
      Outcome cfg B abs d q (f (abs q)) (withRoom cfg lf q beh mk f fuel m al) := by
  intro fuel
  induction fuel with
  | zero => intro m al d _ _ h; omega
  | succ fuel ih =>
    intro m al d hst hal hlen
    have hw := hst.wf
    have hbl := hw.good.lims.get_le (cfg.hash q)
    have hl0 : lim0 cfg m q beh m.limit ≤ m.limit := by unfold lim0; split <;> omega
    have hl1 : boundGet cfg m (cfg.hash q) ≤ lim0 cfg m q beh m.limit := by unfold lim0; split <;> omega
    have hbr : beh ≠ .robin := by rcases hb with h | h <;> [rw [h]; rw [h.1]] <;> simp
    obtain ⟨r, hr, hps⟩ := probe_spec cfg m q beh m.limit hl0
    unfold withRoom
    simp only [bind, Except.bind]
    rw [hr]
    simp only
    -- `goto restart`, or failure
    have restart : ∀ m1, St cfg B m1 abs d →
        (∃ al', grow cfg lf m1 (m1.cap * 2 % 2 ^ 64) al = .ok (none, al')) ∨
        ∃ u al', grow cfg lf m1 (m1.cap * 2 % 2 ^ 64) al = .ok (some u, al') ∧
          Outcome cfg B abs d q (f (abs q)) (withRoom cfg lf q beh mk f fuel u al') := by
      intro m1 h1
      obtain ⟨r', al', g1, g2, g3⟩ := grow_st hfit h1.wf lf (m1.cap * 2 % 2 ^ 64) hal
      cases r' with
      | none => exact .inl ⟨_, g1⟩
      | some u =>
        obtain ⟨g4, g5, -⟩ := g3 u rfl
        refine .inr ⟨u, al', g1, ?_⟩
        exact (ih u al' 0 g4 g2 (by omega)).mono (Nat.zero_le _)
    by_cases hfull : r.slot = none ∧ r.pr = none
    · rw [if_pos hfull]
      rcases restart m hst with ⟨al', h1⟩ | ⟨u, al', h1, h2⟩
      · rw [h1]; exact .inl ⟨rfl, d, Nat.le_refl _, hst⟩
      · rw [h1]; exact h2
    · rw [if_neg hfull]
      -- what the probe has found
      have hobj : r.obj = abs q := by
        cases ha : abs q with
        | none => exact hps.absent hw ha
        | some o =>
          rcases hb with h | h
          · exact (hps.present hw ha hbr (by rw [h]; simp) hl1 hl0).1
          · rw [ha] at h; cases h.2.2
      rw [hobj]
      cases hfq : f (abs q) with
      | inl res => exact .inr ⟨rfl, d, Nat.le_refl _, hst⟩
      | inr p =>
        obtain ⟨x, res⟩ := p
        cases x with
        | none =>
          cases ha : abs q with
          | none => rw [ha] at hfq; exact absurd hfq (hno res)
          | some o =>
            rcases hb with h | h
            swap
            · rw [ha] at h; cases h.2.2
            obtain ⟨ro, s, k, rs, hs, hso, -⟩ := hps.present hw ha hbr (by rw [h]; simp) hl1 hl0
            obtain ⟨m', d1, d2, d3, d4⟩ := delete_spec hw.good (by have := hw.card hfit; omega) (hw.wm hfit) hs hso
            simp only [rs]
            rw [d1]
            simp only [Except.map]
            refine .inr ⟨rfl, d + 1, Nat.le_refl _, ⟨d3, by rw [d2.cap]; exact hw.cap, by rw [d2.cap, d2.limit]; exact hw.lim, ?_⟩, ?_⟩
            · have := hw.rep.del d4
              rw [((hw.rep.mem q o).1 ha).2] at this
              exact this
            · rw [d2.n, hst.n, ← d4, Multiset.card_add, Multiset.card_singleton]; omega
        | some v =>
          have hk := hkey v res hfq
          have hhv : cfg.hv v = cfg.hash q := by unfold Cfg.hv; rw [hk]
          simp only
          have hres : match place cfg mk m r v with
              | .error e => e = .deep
              | .ok (.full m') => Undone cfg m m'
              | .ok (.done m') => Stored cfg m m' ∧ Rep cfg (bag m') (upd abs q (some v)) ∧
                  (bag m').card = (bag m).card + (if abs q = none then 1 else 0) := by
            cases ha : abs q with
            | none =>
              have := place_new (v := v) (beh := beh) (l0 := lim0 cfg m q beh m.limit) (r := r) hw.good (hw.card hfit) mk
                (fun h => by
                  rcases hb with h' | h'
                  · rw [h']; simp
                  · rw [h] at h'; cases h'.2.1) (by rw [hhv, hk]; exact hps) (by rw [hobj, ha]) hfull
              cases hpl : place cfg mk m r v with
              | error e => rw [hpl] at this; exact this
              | ok x =>
                rw [hpl] at this
                cases x with
                | full m' => exact this
                | done m' =>
                  simp only [if_true] at this ⊢
                  refine ⟨this.1, ?_, by rw [this.2, Multiset.card_add, Multiset.card_singleton]⟩
                  rw [this.2]
                  have h2 := hw.rep.ins (v := v) (by rw [hk]; exact ha)
                  rw [hk] at h2
                  exact h2
            | some o =>
              rcases hb with h | h
              swap
              · rw [ha] at h; cases h.2.2
              have hmt : mk = true := by
                by_contra hc
                obtain ⟨res', h'⟩ := hmk (by simpa using hc) o ha
                rw [ha, h'] at hfq; cases hfq
              subst hmt
              have := place_repl (v := v) (o := o) (r := r) hw hfit hk ha hbr (by rw [h]; simp) hl1 hl0 hps
              cases hpl : place cfg true m r v with
              | error e => rw [hpl] at this; exact this
              | ok x =>
                rw [hpl] at this
                cases x with
                | full m' => exact this
                | done m' =>
                  simp only at this ⊢
                  have hm := (hw.rep.mem q o).1 ha
                  refine ⟨this.1, ?_, ?_⟩
                  · have h2 := hw.rep.repl hm.1 (hm.2.trans hk.symm) this.2
                    rw [hk] at h2
                    exact h2
                  · have h2 := congrArg Multiset.card this.2
                    rw [Multiset.card_add, Multiset.card_add, Multiset.card_singleton, Multiset.card_singleton] at h2
                    rw [if_neg (by simp)]
                    omega
          cases hpl : place cfg mk m r v with
          | error e => rw [hpl] at hres; exact hres
          | ok x =>
            rw [hpl] at hres
            cases x with
            | full m' =>
              rw [← hfq]
              simp only
              rcases restart m' (Undone.st hres hst) with ⟨al', h1⟩ | ⟨u, al', h1, h2⟩
              · rw [h1]; exact .inl ⟨rfl, d, Nat.le_refl _, Undone.st hres hst⟩
              · rw [h1]; exact h2
            | done m' =>
              obtain ⟨r1, r2, r3⟩ := hres
              have hw' := r1.wf hw r2
              simp only
              cases ha : abs q with
              | some o =>
                rw [ha] at r3
                rw [if_neg (by simp)] at r3
                simp only [Option.isSome_some, if_true]
                exact .inr ⟨rfl, d, by simp, hw', by rw [r1.n, r3]; exact hst.n⟩
              | none =>
                rw [if_pos ha] at r3
                simp only [Option.isSome_none, Bool.false_eq_true, if_false]
                obtain ⟨m2, p1, d', p2, p3⟩ := postinsert_spec (d := d) hfit hw' (by rw [r1.n, r3, hst.n]; omega) lf hal
                rw [p1]
                exact .inr ⟨rfl, d', by simpa using p2, p3⟩

end Verif.Rhs
