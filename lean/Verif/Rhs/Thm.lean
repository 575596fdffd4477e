import Verif.Rhs.Ops

/-!
# Robin-hood hash set: the sequential specification (C50, C67)
-/

set_option linter.unusedSectionVars false

namespace Verif.Rhs

open Verif Classical

variable {K V : Type} [DecidableEq K] [DecidableEq V]

/-! ## Specification: a map from keys to objects -/

/-- What the user must observe. -/
def Contract (cfg : Cfg K V) (abs : K → Option V) : Op K V → Prop
  | .putUnique v => abs (cfg.key v) = none
  | .apply q fn => ∀ w, fn (abs q) = some w → cfg.key w = q
  | _ => True

/-- Result and effect of an operation on the map `abs`.  `denied` is a failure for lack of memory. -/
def Spec (cfg : Cfg K V) (abs : K → Option V) : Op K V → Res V → (K → Option V) → Prop
  | .put v, .bool true, abs' => abs (cfg.key v) = none ∧ abs' = upd abs (cfg.key v) (some v)
  | .put v, .bool false, abs' => abs (cfg.key v) ≠ none ∧ abs' = abs
  | .putUnique v, .bool true, abs' => abs' = upd abs (cfg.key v) (some v)
  | .set v, .prev true o, abs' => o = abs (cfg.key v) ∧ abs' = upd abs (cfg.key v) (some v)
  | .fas v, .prev true (some o), abs' => abs (cfg.key v) = some o ∧ abs' = upd abs (cfg.key v) (some v)
  | .fas v, .prev false none, abs' => abs (cfg.key v) = none ∧ abs' = abs
  | .remove q, .obj o, abs' => o = abs q ∧ abs' = upd abs q none
  | .apply q fn, .bool true, abs' => abs' = upd abs q (fn (abs q))
  | .grow _, .bool true, abs' => abs' = abs
  | .rebuild, .bool true, abs' => abs' = abs
  | .gc, .bool true, abs' => abs' = abs
  | .reset, .bool true, abs' => abs' = fun _ => none
  | .resetSize _, .bool true, abs' => abs' = fun _ => none
  | .loadFactor lf, .bool b, abs' => b = decide (0 < lf ∧ lf ≤ 100) ∧ abs' = abs
  | .gc, .denied, _ => False
  | .remove _, .denied, _ => False
  | _, .denied, abs' => abs' = abs
  | _, _, _ => False

/-- `n` is the number of keys of `abs`. -/
def Size (abs : K → Option V) (n : Nat) : Prop :=
  ∃ l : List K, l.Nodup ∧ (∀ q, q ∈ l ↔ abs q ≠ none) ∧ l.length = n

/-- The operation deletes an object through `ck_rhs_apply`. -/
def Drops (abs : K → Option V) : Op K V → Prop
  | .apply q fn => abs q ≠ none ∧ fn (abs q) = none
  | _ => False

/-! ## The operations -/

theorem fas_spec {cfg : Cfg K V} {B : Nat} {m : Map V} {abs : K → Option V} {d : Nat} (hfit : Fits cfg B) (hst : St cfg B m abs d)
    (lf : Nat) (v : V) {al : Alloc} (hal : Small B al) :
    match fas cfg lf m v al with
    | .error e => e = .deep ∨ e = .stale
    | .ok (m', res) => ∃ abs', Spec cfg abs (.fas v) res abs' ∧ St cfg B m' abs' d := by
  have hw := hst.wf
  have g := hw.good
  have hgeo := g.core.geo
  obtain ⟨r, hr, hps⟩ := probe_spec cfg m (cfg.key v) .probe (boundGet cfg m (cfg.hash (cfg.key v))) (by unfold lim0; simp)
  have hl : lim0 cfg m (cfg.key v) .probe (boundGet cfg m (cfg.hash (cfg.key v))) = boundGet cfg m (cfg.hash (cfg.key v)) := by
    unfold lim0; simp
  rw [hl] at hps
  unfold fas
  simp only [bind, Except.bind]
  rw [hr]
  simp only
  cases ha : abs (cfg.key v) with
  | none =>
    rw [hps.absent hw ha]
    exact ⟨abs, ⟨ha, rfl⟩, hst⟩
  | some o =>
    obtain ⟨ro, s, k, rs, hs, hso, hsk, hpr⟩ := hps.present hw ha (by simp) (by simp) (Nat.le_refl _) (Nat.le_refl _)
    have hm := (hw.rep.mem _ o).1 ha
    have hrep : ∀ m', Stored cfg m m' → bag m' + {o} = bag m + {v} →
        ∃ abs', Spec cfg abs (.fas v) (.prev true (some o)) abs' ∧ St cfg B m' abs' d := by
      intro m' h1 h2
      refine ⟨_, ⟨ha, rfl⟩, h1.wf hw (hw.rep.repl hm.1 hm.2 h2), ?_⟩
      have := congrArg Multiset.card h2
      rw [Multiset.card_add, Multiset.card_add, Multiset.card_singleton, Multiset.card_singleton] at this
      rw [h1.n, hst.n]; omega
    rw [rs, ro]
    rw [show cfg.hash (cfg.key v) = cfg.hv v from rfl] at hpr ⊢
    cases hf : r.pr with
    | none =>
      rw [hf] at hpr
      obtain ⟨a1, a2⟩ := repl_same (cfg := cfg) (v := v) (o := o) (s := s) (x := r.n) g hs hso
        (by unfold Cfg.hv; rw [hm.2]) (by rw [hsk, hpr])
      exact hrep _ a1 a2
    | some f =>
      rw [hf] at hpr
      obtain ⟨hfs, j, hjk, q2, q3, q4, q5, q7, hocc⟩ := hpr
      simp only
      have hu : Undone cfg m { m with rh := upd m.rh s true } := mark_undone (cfg := cfg) m true (some s) g.lims
      have hrob := putRobin_spec (f := f) (hu.good g) (hw.card hfit) (by rw [q3]; exact hgeo.sq_lt _ _) q7
        (by show upd m.rh s true f = false; rw [upd_ne _ _ hfs, q5])
      have hjp : j + 1 ≤ m.pmax := by
        have := (g.bnd.bd s o hs (by simp) hso).2
        omega
      have hjl : j < m.limit := Nat.lt_of_lt_of_le q2 (g.lims.get_le _)
      cases hpR : putRobin cfg { m with rh := upd m.rh s true } f with
      | error x => rw [hpR] at hrob; exact .inl hrob
      | ok x =>
        rw [hpR] at hrob
        cases x with
        | full m2 =>
          simp only at hrob ⊢
          have h3 := (hu.trans hrob).st hst
          obtain ⟨r', al', g1, -, -⟩ := grow_st hfit h3.wf lf (m2.cap * 2 % 2 ^ 64) hal
          rw [g1]
          cases r' with
          | none => exact ⟨abs, rfl, (mark_undone (cfg := cfg) m2 false (some s) hrob.same.lims).st h3⟩
          | some u => exact .inr rfl
        | done m2 =>
          simp only at hrob ⊢
          rw [q4]
          obtain ⟨m3, m4, a1, a2, a3, a4⟩ := repl_moved (v := v) (o := o) (j := j) (s := s) hrob (hw.card hfit) (hw.wm hfit)
            q3 hjl hocc q2 hjp hs hso (upd_same _ _ _) hfs
            { m2 with rh := upd m2.rh s false, ent := upd m2.ent f (some v), prb := upd m2.prb f (j + 1) } rfl
          rw [a1]
          simp only
          rw [a2]
          exact hrep _ ⟨a3.good, a3.cap, a3.limit, a3.n, a3.maxEnt⟩ a4

theorem remove_spec {cfg : Cfg K V} {B : Nat} {m : Map V} {abs : K → Option V} {d : Nat} (hfit : Fits cfg B) (hst : St cfg B m abs d)
    (q : K) : ∃ m', remove cfg m q = .ok (m', .obj (abs q)) ∧ St cfg B m' (upd abs q none) d := by
  have hw := hst.wf
  obtain ⟨r, hr, hps⟩ := probe_spec cfg m q .noRh (boundGet cfg m (cfg.hash q)) (by unfold lim0; simp)
  have hl : lim0 cfg m q .noRh (boundGet cfg m (cfg.hash q)) = boundGet cfg m (cfg.hash q) := by
    unfold lim0; simp
  rw [hl] at hps
  unfold remove
  simp only [bind, Except.bind]
  rw [hr]
  simp only
  cases ha : abs q with
  | none =>
    rw [hps.absent hw ha]
    refine ⟨m, rfl, ?_⟩
    rw [upd_none_self ha]
    exact hst
  | some o =>
    obtain ⟨ro, s, k, rs, hs, hso, -⟩ := hps.present hw ha (by simp) (by simp) (Nat.le_refl _) (Nat.le_refl _)
    obtain ⟨m', d1, d2, d3, d4⟩ := delete_spec (m := { m with n := m.n - 1 }) (slot := s) (w := o) (hw.good.n _)
      (by have := hw.card hfit; exact Nat.lt_succ_of_lt this) (hw.wm hfit) hs hso
    rw [ro, rs]
    simp only
    rw [d1]
    have d4 : bag m' + {o} = bag m := d4
    refine ⟨m', rfl, ⟨d3, by rw [d2.cap]; exact hw.cap, by rw [d2.cap, d2.limit]; exact hw.lim, ?_⟩, ?_⟩
    · have := hw.rep.del d4
      rw [((hw.rep.mem q o).1 ha).2] at this
      exact this
    · have h1 := hst.n
      rw [← d4, Multiset.card_add, Multiset.card_singleton] at h1
      rw [d2.n]
      show m.n - 1 = _
      omega

theorem foldl_max (f : Nat → Nat) : ∀ (l : List Nat) (a : Nat), (∀ x, x ∈ l → f x ≤ l.foldl (fun a i => Nat.max a (f i)) a) ∧
    a ≤ l.foldl (fun a i => Nat.max a (f i)) a ∧ ∀ b, a ≤ b → (∀ x, x ∈ l → f x ≤ b) → l.foldl (fun a i => Nat.max a (f i)) a ≤ b := by
  intro l
  induction l with
  | nil => intro a; simp
  | cons y l ih =>
    intro a
    obtain ⟨h1, h2, h3⟩ := ih (Nat.max a (f y))
    have h4 := Nat.le_max_left a (f y)
    have h5 := Nat.le_max_right a (f y)
    simp only [List.foldl_cons]
    refine ⟨?_, Nat.le_trans h4 h2, ?_⟩
    · intro x hx
      rcases List.mem_cons.1 hx with h | h
      · rw [h]; exact Nat.le_trans h5 h2
      · exact h1 x h
    · intro b hb hx
      exact h3 b (Nat.max_le.2 ⟨hb, hx y (by simp)⟩) (fun x h => hx x (by simp [h]))

theorem gc_spec {cfg : Cfg K V} {B : Nat} {m : Map V} {abs : K → Option V} {d : Nat} (hst : St cfg B m abs d) :
    St cfg B (gc m) abs d := by
  have hw := hst.wf
  have g := hw.good
  obtain ⟨h1, -, h3⟩ := foldl_max m.prb (List.range m.cap) 0
  have hle : ∀ o, o < m.cap → m.prb o ≤ (gc m).pmax := fun o ho => h1 o (List.mem_range.2 ho)
  refine ⟨⟨⟨g.core, ⟨?_⟩, ⟨?_, g.lims.bl, g.lims.bw⟩⟩, hw.cap, hw.lim, hw.rep⟩, hst.n⟩
  · intro o v ho hh he
    have hb := (g.bnd.bd o v ho hh he).1
    refine ⟨?_, hle o ho⟩
    show m.prb o ≤ if cfg.rm = true then (gc m).pmax else if m.bnd (cfg.hv v % m.cap) = cfg.wmax then (gc m).pmax
      else m.bnd (cfg.hv v % m.cap)
    unfold boundGet at hb
    have h2 := hle o ho
    split
    · exact h2
    · next hr =>
      rw [if_neg hr] at hb
      split
      · exact h2
      · next hb' => rw [if_neg hb'] at hb; exact hb
  · refine h3 m.limit (Nat.zero_le _) (fun o ho => ?_)
    have ho := List.mem_range.1 ho
    cases he : m.ent o with
    | none => rw [g.core.emp o ho (by simp) he]; exact Nat.zero_le _
    | some v =>
      obtain ⟨k, b1, b2, b3, -⟩ := g.core.pos o v ho (by simp) he
      omega

theorem lfLoop_spec {cfg : Cfg K V} {B : Nat} {abs : K → Option V} (hfit : Fits cfg B) (lf : Nat) :
    ∀ fuel (m : Map V) al d, St cfg B m abs d → Small B al → al.length < fuel →
      ∃ s' res d', lfLoop cfg lf fuel m al = .ok (s', res) ∧ (res = .denied ∨ res = .bool true) ∧ d' ≤ d ∧ St cfg B s'.m abs d' := by
  intro fuel
  induction fuel with
  | zero => intro m al d _ _ h; omega
  | succ fuel ih =>
    intro m al d hst hal hlen
    unfold lfLoop
    simp only [bind, Except.bind]
    by_cases h : m.n > m.maxEnt
    · rw [if_pos h]
      obtain ⟨r', al', g1, g2, g3⟩ := grow_st hfit hst.wf lf (m.cap * 2 % 2 ^ 64) hal
      rw [g1]
      cases r' with
      | none => exact ⟨_, _, d, rfl, .inl rfl, Nat.le_refl _, hst⟩
      | some u =>
        obtain ⟨g4, g5, -⟩ := g3 u rfl
        obtain ⟨s', res, d', h1, h2, h3, h4⟩ := ih u al' 0 g4 g2 (by omega)
        exact ⟨s', res, d', h1, h2, by omega, h4⟩
    · rw [if_neg h]
      exact ⟨_, _, d, rfl, .inr rfl, Nat.le_refl _, hst⟩

theorem create_st (cfg : Cfg K V) {B : Nat} (lf c : Nat) (hc : capOf c ≤ B) : St cfg B (create lf c : Map V) (fun _ => none) 0 := by
  refine ⟨⟨good_create cfg lf c, hc, rfl, ?_, ?_⟩, ?_⟩
  · rw [bag_create]; simp
  · intro q v; rw [bag_create]; simp
  · rw [bag_create]; rfl

/-- What a step leaves. -/
def Does (cfg : Cfg K V) (B : Nat) (abs : K → Option V) (d : Nat) (op : Op K V) : Except Err (Hs V × Res V) → Prop
  | .error e => e = .deep ∨ e = .stale ∧ ∃ v, op = .fas v
  | .ok (s', res) => ∃ abs' d', Spec cfg abs op res abs' ∧ St cfg B s'.m abs' d' ∧ d' ≤ d + (if Drops abs op then 1 else 0)

theorem Outcome.does {cfg : Cfg K V} {B : Nat} {abs : K → Option V} {d : Nat} {q : K} {fo : Sum (Res V) (Option V × Res V)} {op : Op K V}
    {x : Except Err (Map V × Res V)} (h : Outcome cfg B abs d q fo x) (lf : Nat) (hden : Spec cfg abs op .denied abs)
    (hl : ∀ res, fo = .inl res → Spec cfg abs op res abs)
    (hr : ∀ y res, fo = .inr (y, res) → Spec cfg abs op res (upd abs q y) ∧ (y = none → Drops abs op)) :
    Does cfg B abs d op (x.map fun p => (⟨p.1, lf⟩, p.2)) := by
  cases x with
  | error e => exact .inl h
  | ok p =>
    obtain ⟨m', res'⟩ := p
    rcases h with ⟨t1, d', t2, t3⟩ | t
    · exact ⟨abs, d', by rw [t1]; exact hden, t3, by omega⟩
    · cases fo with
      | inl res =>
        obtain ⟨t1, d', t2, t3⟩ := t
        exact ⟨abs, d', by rw [t1]; exact hl _ rfl, t3, by omega⟩
      | inr p =>
        obtain ⟨y, res⟩ := p
        obtain ⟨t1, d', t2, t3⟩ := t
        obtain ⟨h1, h2⟩ := hr y res rfl
        refine ⟨upd abs q y, d', by rw [t1]; exact h1, t3, ?_⟩
        by_cases hy : y = none
        · rw [if_pos hy] at t2; rw [if_pos (h2 hy)]; exact t2
        · rw [if_neg hy] at t2; omega

theorem growOp_spec {cfg : Cfg K V} {B : Nat} {s : Hs V} {abs : K → Option V} {d : Nat} (hfit : Fits cfg B) (hst : St cfg B s.m abs d)
    (c : Nat) {al : Alloc} (hal : Small B al) :
    ∃ s' res d', growOp cfg s c al = .ok (s', res) ∧ (res = .denied ∨ res = .bool true) ∧ d' ≤ d ∧ St cfg B s'.m abs d' := by
  unfold growOp
  simp only [bind, Except.bind]
  obtain ⟨r', al', g1, g2, g3⟩ := grow_st hfit hst.wf s.lf c hal
  rw [g1]
  cases r' with
  | none => exact ⟨_, _, d, rfl, .inl rfl, Nat.le_refl _, hst⟩
  | some u => exact ⟨_, _, 0, rfl, .inr rfl, Nat.zero_le _, (g3 u rfl).1⟩

theorem resetOp_spec {cfg : Cfg K V} {B : Nat} {s : Hs V} {abs : K → Option V} {d : Nat} (hst : St cfg B s.m abs d)
    (c : Nat) {al : Alloc} (hal : Small B al) :
    ((resetOp s c al).2 = .denied ∧ St cfg B (resetOp s c al).1.m abs d) ∨
      (resetOp s c al).2 = .bool true ∧ St cfg B (resetOp s c al).1.m (fun _ => none) 0 := by
  unfold resetOp
  cases al with
  | nil => exact .inl ⟨rfl, hst⟩
  | cons a al =>
    simp only
    by_cases h : a (capOf c) = true
    · rw [if_pos h]
      exact .inr ⟨rfl, create_st cfg s.lf c (hal a (by simp) _ h)⟩
    · rw [if_neg h]
      exact .inl ⟨rfl, hst⟩

theorem step_spec {cfg : Cfg K V} {B : Nat} {s : Hs V} {abs : K → Option V} {d : Nat} (hfit : Fits cfg B) (hst : St cfg B s.m abs d)
    {al : Alloc} (hal : Small B al) (op : Op K V) (hc : Contract cfg abs op) : Does cfg B abs d op (step cfg s al op) := by
  cases op with
  | put v =>
    refine (withRoom_spec hfit s.lf (cfg.key v) .insert false (putF v) (.inl rfl) ?_ ?_ ?_ _ _ _ _ hst hal (Nat.lt_succ_self _)).does
      s.lf rfl ?_ ?_
    · intro w res h
      cases ha : abs (cfg.key v) with
      | some o => rw [ha] at h; cases h
      | none => rw [ha] at h; cases h; rfl
    · intro _ o _; exact ⟨_, rfl⟩
    · intro res h; cases h
    · intro res h
      cases ha : abs (cfg.key v) with
      | none => rw [ha] at h; cases h
      | some o => rw [ha] at h; cases h; exact ⟨by rw [ha]; simp, rfl⟩
    · intro y res h
      cases ha : abs (cfg.key v) with
      | some o => rw [ha] at h; cases h
      | none => rw [ha] at h; cases h; exact ⟨⟨ha, rfl⟩, fun h => by cases h⟩
  | putUnique v =>
    have ha : abs (cfg.key v) = none := hc
    refine (withRoom_spec hfit s.lf (cfg.key v) .rh false (putF v) (.inr ⟨rfl, rfl, ha⟩) ?_ ?_ ?_ _ _ _ _ hst hal
      (Nat.lt_succ_self _)).does s.lf rfl ?_ ?_
    · intro w res h; rw [ha] at h; cases h; rfl
    · intro _ o _; exact ⟨_, rfl⟩
    · intro res h; cases h
    · intro res h; rw [ha] at h; cases h
    · intro y res h; rw [ha] at h; cases h; exact ⟨rfl, fun h => by cases h⟩
  | set v =>
    refine (withRoom_spec hfit s.lf (cfg.key v) .insert true (setF v) (.inl rfl) ?_ ?_ ?_ _ _ _ _ hst hal (Nat.lt_succ_self _)).does
      s.lf rfl ?_ ?_
    · intro w res h; cases h; rfl
    · intro h; cases h
    · intro res h; cases h
    · intro res h; cases h
    · intro y res h; cases h; exact ⟨⟨rfl, rfl⟩, fun h => by cases h⟩
  | fas v =>
    have h := fas_spec hfit hst s.lf v hal
    show Does cfg B abs d (.fas v) ((fas cfg s.lf s.m v al).map fun p => (⟨p.1, s.lf⟩, p.2))
    cases hf : fas cfg s.lf s.m v al with
    | error e =>
      rw [hf] at h
      rcases h with h | h
      · exact .inl h
      · exact .inr ⟨h, v, rfl⟩
    | ok p =>
      rw [hf] at h
      obtain ⟨abs', h1, h2⟩ := h
      exact ⟨abs', d, h1, h2, Nat.le_add_right _ _⟩
  | remove q =>
    obtain ⟨m', h1, h2⟩ := remove_spec hfit hst q
    show Does cfg B abs d (.remove q) ((remove cfg s.m q).map fun p => (⟨p.1, s.lf⟩, p.2))
    rw [h1]
    exact ⟨_, d, ⟨rfl, rfl⟩, h2, Nat.le_add_right _ _⟩
  | apply q fn =>
    have hc : ∀ w, fn (abs q) = some w → cfg.key w = q := hc
    refine (withRoom_spec hfit s.lf q .insert true (applyF fn) (.inl rfl) ?_ ?_ ?_ _ _ _ _ hst hal (Nat.lt_succ_self _)).does
      s.lf rfl ?_ ?_
    · intro w res h
      unfold applyF at h
      split at h
      · cases h
      · cases h
      · next u o hu =>
        split at h
        · cases h
        · cases h; exact hc w hu
    · intro h; cases h
    · intro res h
      unfold applyF at h
      split at h
      · cases h
      · next h1 => cases h1
      · split at h <;> cases h
    · intro res h
      unfold applyF at h
      split at h
      · next h1 h2 => cases h; show abs = upd abs q (fn (abs q)); rw [h1, upd_none_self h2]
      · cases h
      · next u o hu =>
        split at h
        · next h1 => cases h; show abs = upd abs q (fn (abs q)); rw [hu, h1, upd_eq_self]
        · cases h
    · intro y res h
      unfold applyF at h
      split at h
      · cases h
      · next o h1 h2 => cases h; exact ⟨by show _ = upd abs q (fn (abs q)); rw [h1], fun _ => ⟨by rw [h2]; simp, h1⟩⟩
      · next u o hu =>
        split at h
        · cases h
        · cases h; exact ⟨by show _ = upd abs q (fn (abs q)); rw [hu], fun h => by cases h⟩
  | grow c =>
    obtain ⟨s', res, d', h1, h2, h3, h4⟩ := growOp_spec hfit hst c hal
    show Does cfg B abs d (.grow c) (growOp cfg s c al)
    rw [h1]
    exact ⟨abs, d', by rcases h2 with h | h <;> rw [h] <;> rfl, h4, by omega⟩
  | rebuild =>
    obtain ⟨s', res, d', h1, h2, h3, h4⟩ := growOp_spec hfit hst s.m.cap hal
    show Does cfg B abs d .rebuild (growOp cfg s s.m.cap al)
    rw [h1]
    exact ⟨abs, d', by rcases h2 with h | h <;> rw [h] <;> rfl, h4, by omega⟩
  | gc => exact ⟨abs, d, rfl, gc_spec hst, Nat.le_add_right _ _⟩
  | reset =>
    show Does cfg B abs d .reset (.ok (resetOp s s.m.cap al))
    have h := resetOp_spec hst s.m.cap hal
    generalize resetOp s s.m.cap al = p at h
    obtain ⟨s', res⟩ := p
    rcases h with ⟨h1, h2⟩ | ⟨h1, h2⟩
    · have h1 : res = .denied := h1
      exact ⟨abs, d, by rw [h1]; rfl, h2, Nat.le_add_right _ _⟩
    · have h1 : res = .bool true := h1
      exact ⟨_, 0, by rw [h1]; rfl, h2, Nat.zero_le _⟩
  | resetSize c =>
    show Does cfg B abs d (.resetSize c) (.ok (resetOp s c al))
    have h := resetOp_spec hst c hal
    generalize resetOp s c al = p at h
    obtain ⟨s', res⟩ := p
    rcases h with ⟨h1, h2⟩ | ⟨h1, h2⟩
    · have h1 : res = .denied := h1
      exact ⟨abs, d, by rw [h1]; rfl, h2, Nat.le_add_right _ _⟩
    · have h1 : res = .bool true := h1
      exact ⟨_, 0, by rw [h1]; rfl, h2, Nat.zero_le _⟩
  | loadFactor lf =>
    show Does cfg B abs d (.loadFactor lf) (loadFactor cfg s lf al)
    unfold loadFactor
    by_cases h : lf = 0 ∨ lf > 100
    · rw [if_pos h]
      exact ⟨abs, d, ⟨by symm; simp; omega, rfl⟩, hst, Nat.le_add_right _ _⟩
    · rw [if_neg h]
      have hst' : St cfg B { s.m with maxEnt := s.m.cap * lf / 100 } abs d :=
        ⟨⟨⟨hst.wf.good.core, ⟨hst.wf.good.bnd.bd⟩, ⟨hst.wf.good.lims.pm, hst.wf.good.lims.bl, hst.wf.good.lims.bw⟩⟩,
          hst.wf.cap, hst.wf.lim, hst.wf.rep⟩, hst.n⟩
      obtain ⟨s', res, d', h1, h2, h3, h4⟩ := lfLoop_spec hfit lf _ _ al d hst' hal (Nat.lt_succ_self _)
      rw [h1]
      refine ⟨abs, d', ?_, h4, by omega⟩
      rcases h2 with h2 | h2 <;> rw [h2]
      · rfl
      · exact ⟨by symm; simp; omega, rfl⟩

/-! ## Histories -/

/-- A history of operations with their results, on the model; no allocation of more than `B` slots succeeds. -/
inductive Hist (cfg : Cfg K V) (B : Nat) : Hs V → List (Op K V × Res V) → Hs V → Prop
  | nil (s) : Hist cfg B s [] s
  | cons {s op al res ops s1 s'} : Small B al → step cfg s al op = .ok (s1, res) → Hist cfg B s1 ops s' →
      Hist cfg B s ((op, res) :: ops) s'

/-- The same history on the map, with the number of objects that were deleted through `ck_rhs_apply`. -/
inductive SpecHist (cfg : Cfg K V) : (K → Option V) → List (Op K V × Res V) → (K → Option V) → Nat → Prop
  | nil (a) : SpecHist cfg a [] a 0
  | cons {a op res b ops c k} : Contract cfg a op → Spec cfg a op res b → SpecHist cfg b ops c k →
      SpecHist cfg a ((op, res) :: ops) c (k + if Drops a op then 1 else 0)

/-- The user keeps the contracts: whenever the operations so far led to `a`, the next one is allowed. -/
def Keeps (cfg : Cfg K V) (a : K → Option V) (ops : List (Op K V × Res V)) : Prop :=
  ∀ p op res s b k, ops = p ++ (op, res) :: s → SpecHist cfg a p b k → Contract cfg b op

theorem hist_spec {cfg : Cfg K V} {B : Nat} (hfit : Fits cfg B) {s s' : Hs V} {abs : K → Option V} {d : Nat} {ops : List (Op K V × Res V)}
    (hw : St cfg B s.m abs d) (hh : Hist cfg B s ops s') (hk : Keeps cfg abs ops) :
    ∃ abs' d' k, SpecHist cfg abs ops abs' k ∧ St cfg B s'.m abs' d' ∧ d' ≤ d + k := by
  induction hh generalizing abs d with
  | nil m => exact ⟨abs, d, 0, .nil _, hw, by omega⟩
  | @cons s op al res ops s1 s' ha hp hh ih =>
    have hc : Contract cfg abs op := hk [] op res ops abs 0 rfl (.nil _)
    have h := step_spec hfit hw ha op hc
    rw [hp] at h
    obtain ⟨b, d1, h1, h2, h3⟩ := h
    obtain ⟨c, d', k, h4, h5, h6⟩ := ih h2 (by
      intro p op' res' s d k h5 h6
      exact hk ((op, res) :: p) op' res' s d _ (by rw [h5]; rfl) (.cons hc h1 h6))
    exact ⟨c, d', _, .cons hc h1 h4, h5, by omega⟩

theorem Wf.get {cfg : Cfg K V} {B : Nat} {m : Map V} {abs : K → Option V} (hw : Wf cfg B m abs) (q : K) :
    get cfg m q = .ok (abs q) := by
  obtain ⟨r, hr, hps⟩ := probe_spec cfg m q .noRh (boundGet cfg m (cfg.hash q)) (by unfold lim0; simp)
  have hl : lim0 cfg m q .noRh (boundGet cfg m (cfg.hash q)) = boundGet cfg m (cfg.hash q) := by
    unfold lim0; simp
  rw [hl] at hps
  unfold Rhs.get
  rw [hr]
  simp only [Except.map]
  cases ha : abs q with
  | none => rw [hps.absent hw ha]
  | some o => rw [(hps.present hw ha (by simp) (by simp) (Nat.le_refl _) (Nat.le_refl _)).1]

/-- The objects in the table, each once. -/
theorem Wf.objs {cfg : Cfg K V} {B : Nat} {m : Map V} {abs : K → Option V} (hw : Wf cfg B m abs) :
    (((List.range m.cap).filterMap m.ent).map cfg.key).Nodup ∧
    (∀ v, v ∈ (List.range m.cap).filterMap m.ent ↔ abs (cfg.key v) = some v) := by
  constructor
  · have := hw.rep.nod
    unfold bag at this
    rw [bag_list] at this
    simpa using this
  · intro v
    rw [hw.rep.mem]
    unfold bag
    rw [bag_list]
    simp

theorem Wf.size {cfg : Cfg K V} {B : Nat} {m : Map V} {abs : K → Option V} (hw : Wf cfg B m abs) : Size abs (bag m).card := by
  obtain ⟨h1, h2⟩ := hw.objs
  refine ⟨_, h1, ?_, by rw [List.length_map]; unfold bag; rw [bag_list]; rfl⟩
  intro q
  rw [List.mem_map]
  constructor
  · rintro ⟨v, hv, rfl⟩
    rw [(h2 v).1 hv]; simp
  · intro hq
    cases ha : abs q with
    | none => exact absurd ha hq
    | some v =>
      have := ((hw.rep.mem q v).1 ha).2
      exact ⟨v, (h2 v).2 (by rw [this]; exact ha), this⟩

theorem next_spec (m : Map V) : ∀ (fuel o : Nat), m.cap < fuel + o →
    (nextObj m fuel o = none ∧ ((List.range m.cap).drop o).filterMap m.ent = []) ∨
    ∃ v o', nextObj m fuel o = some (v, o') ∧ o < o' ∧
      ((List.range m.cap).drop o).filterMap m.ent = v :: ((List.range m.cap).drop o').filterMap m.ent := by
  intro fuel
  induction fuel with
  | zero =>
    intro o h
    left
    refine ⟨rfl, ?_⟩
    rw [List.drop_eq_nil_of_le (by simp; omega)]; rfl
  | succ fuel ih =>
    intro o h
    unfold nextObj
    by_cases ho : o ≥ m.cap
    · left
      rw [if_pos ho, List.drop_eq_nil_of_le (by simpa using ho)]
      exact ⟨rfl, rfl⟩
    · rw [if_neg ho]
      have hd : (List.range m.cap).drop o = o :: (List.range m.cap).drop (o + 1) := by
        rw [List.drop_eq_getElem_cons (by simp; omega)]
        simp
      rw [hd, List.filterMap_cons]
      cases he : m.ent o with
      | some v => right; exact ⟨v, o + 1, rfl, by omega, rfl⟩
      | none =>
        rcases ih (o + 1) (by omega) with ⟨h1, h2⟩ | ⟨v, o', h1, h2, h3⟩
        · exact .inl ⟨h1, h2⟩
        · exact .inr ⟨v, o', h1, by omega, h3⟩

theorem iterate_eq (m : Map V) : ∀ (fuel o : Nat), m.cap < fuel + o →
    iterate m fuel o = ((List.range m.cap).drop o).filterMap m.ent := by
  intro fuel
  induction fuel with
  | zero =>
    intro o h
    rw [List.drop_eq_nil_of_le (by simp; omega)]; rfl
  | succ fuel ih =>
    intro o h
    unfold iterate
    rcases next_spec m (m.cap + 1) o (by omega) with ⟨h1, h2⟩ | ⟨v, o', h1, h2, h3⟩
    · rw [h1, h2]
    · rw [h1, h3]
      simp only
      rw [ih o' (by omega)]

/-- C67.  From `ck_rhs_init` with a memory limit `B` that the counters can bear, after any history in which the user keeps
the contracts and every operation returned: the results are those of a map `abs` keyed by the comparison, `ck_rhs_get`
returns exactly what the map holds, and `ck_rhs_next` yields every stored object once.  The full statement has no `Fits`
and no error outcome; `Wit.lean` shows that it is false. -/
theorem refines_map_partial (cfg : Cfg K V) (B c : Nat) (hfit : Fits cfg B) (hc : capOf c ≤ B) (ops : List (Op K V × Res V))
    (s : Hs V) (hh : Hist cfg B (init c) ops s) (hk : Keeps cfg (fun _ => none) ops) :
    ∃ abs k, SpecHist cfg (fun _ => none) ops abs k ∧ (∀ q, get cfg s.m q = .ok (abs q)) ∧
      ((iterate s.m (s.m.cap + 1) 0).map cfg.key).Nodup ∧ ∀ v, v ∈ iterate s.m (s.m.cap + 1) 0 ↔ abs (cfg.key v) = some v := by
  obtain ⟨abs, d, k, h1, h2, -⟩ := hist_spec hfit (s := init c) (create_st cfg 50 c hc) hh hk
  refine ⟨abs, k, h1, h2.wf.get, ?_⟩
  rw [iterate_eq s.m _ 0 (by omega), List.drop_zero]
  exact h2.wf.objs

/-- C50.  `ck_rhs_count` is at least the number of stored objects, and exceeds it by no more than the number of objects
that `ck_rhs_apply` has deleted.  The full statement is `ck_rhs_count = n`; `Wit.lean` shows that it is false. -/
theorem count_partial (cfg : Cfg K V) (B c : Nat) (hfit : Fits cfg B) (hc : capOf c ≤ B) (ops : List (Op K V × Res V))
    (s : Hs V) (hh : Hist cfg B (init c) ops s) (hk : Keeps cfg (fun _ => none) ops) :
    ∃ abs k n, SpecHist cfg (fun _ => none) ops abs k ∧ Size abs n ∧ n ≤ count s ∧ count s ≤ n + k := by
  obtain ⟨abs, d, k, h1, h2, h3⟩ := hist_spec hfit (s := init c) (create_st cfg 50 c hc) hh hk
  refine ⟨abs, k, _, h1, h2.wf.size, ?_, ?_⟩
  · unfold count; rw [h2.n]; omega
  · unfold count; rw [h2.n]; omega

theorem SpecHist.no_apply {cfg : Cfg K V} {a b : K → Option V} {ops : List (Op K V × Res V)} {k : Nat} (h : SpecHist cfg a ops b k)
    (hn : ∀ q fn res, (Op.apply q fn, res) ∉ ops) : k = 0 := by
  induction h with
  | nil => rfl
  | @cons a op res b ops c k _ _ _ ih =>
    have h1 := ih (fun q fn res h => hn q fn res (List.mem_cons_of_mem _ h))
    rw [h1, if_neg]
    intro hd
    cases op <;> first | exact hd | exact hn _ _ _ (List.mem_cons_self ..)

/-- C50.  Without `ck_rhs_apply`, `ck_rhs_count` is the number of stored objects. -/
theorem count_no_apply_partial (cfg : Cfg K V) (B c : Nat) (hfit : Fits cfg B) (hc : capOf c ≤ B) (ops : List (Op K V × Res V))
    (s : Hs V) (hh : Hist cfg B (init c) ops s) (hk : Keeps cfg (fun _ => none) ops)
    (hn : ∀ q fn res, (Op.apply q fn, res) ∉ ops) :
    ∃ abs k, SpecHist cfg (fun _ => none) ops abs k ∧ Size abs (count s) := by
  obtain ⟨abs, k, n, h1, h2, h3, h4⟩ := count_partial cfg B c hfit hc ops s hh hk
  have := h1.no_apply hn
  have h5 : n = count s := by omega
  exact ⟨abs, k, h1, h5 ▸ h2⟩

/-- C67.  After any such history, an operation within its contract returns, or runs into one of two errors: more than 512
displacements in a row, or a `ck_rhs_fas` that restarts on the map that it has replaced. -/
theorem step_returns_partial (cfg : Cfg K V) (B c : Nat) (hfit : Fits cfg B) (hc : capOf c ≤ B) (ops : List (Op K V × Res V))
    (s : Hs V) (hh : Hist cfg B (init c) ops s) (hk : Keeps cfg (fun _ => none) ops) (al : Alloc) (hal : Small B al) (op : Op K V)
    (hop : ∀ abs k, SpecHist cfg (fun _ => none) ops abs k → Contract cfg abs op) :
    (∃ s' res, step cfg s al op = .ok (s', res)) ∨ step cfg s al op = .error .deep ∨
      step cfg s al op = .error .stale ∧ ∃ v, op = .fas v := by
  obtain ⟨abs, d, k, h1, h2, -⟩ := hist_spec hfit (s := init c) (create_st cfg 50 c hc) hh hk
  have h := step_spec hfit h2 hal op (hop abs k h1)
  cases hs : step cfg s al op with
  | ok p => exact .inl ⟨p.1, p.2, rfl⟩
  | error e =>
    rw [hs] at h
    rcases h with h | h
    · exact .inr (.inl (by rw [h]))
    · exact .inr (.inr ⟨by rw [h.1], h.2⟩)

end Verif.Rhs
