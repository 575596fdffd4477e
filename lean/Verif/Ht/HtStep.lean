import Verif.Ht.HtThm

/-!
# Hash table: what every single store of the writer keeps (C68)
-/

set_option linter.unusedSectionVars false

namespace Verif.Ht

open Verif

variable {K V : Type} [DecidableEq K] [DecidableEq V]

/-- Probe number `k` is made by a reader that loads the bound now. -/
def Vis (cfg : Cfg K V) (m : Map K V) (h k : Nat) : Prop :=
  k < m.len cfg ∧ k ≤ m.maxi ∧ ∀ b, m.bnd = some b → b (h &&& m.mask) = cfg.wmax ∨ k ≤ b (h &&& m.mask)

/-- Ghost state of the writer. -/
structure Gh (K V : Type) where
  /-- the contents -/
  abs : K → Option V
  /-- a slot whose key was already moved elsewhere -/
  dup : Option Nat
  /-- `deletions` was advanced since -/
  sg : Bool
  /-- a tombstone to be used again, `deletions` was advanced -/
  re : Option Nat
  /-- a slot whose key is not within the bounds yet -/
  hid : Option Nat
  /-- `ck_ht_gc` was never called -/
  calm : Bool

/-- Slot `x` is examined when looking for `q`. -/
def SeenAt (cfg : Cfg K V) (m : Map K V) (q : K) (x : Nat) : Prop :=
  ∃ k, Vis cfg m (cfg.hash q) k ∧ slotAt cfg m (cfg.hash q) k = x

instance (cfg : Cfg K V) (m : Map K V) (h k : Nat) : Decidable (Vis cfg m h k) :=
  decidable_of_iff (k < m.len cfg ∧ k ≤ m.maxi ∧ m.bnd.all fun b => decide (b (h &&& m.mask) = cfg.wmax ∨ k ≤ b (h &&& m.mask)))
    (by
      unfold Vis
      cases m.bnd with
      | none => simp
      | some b => simp)

instance (cfg : Cfg K V) (m : Map K V) (q : K) (x : Nat) : Decidable (SeenAt cfg m q x) :=
  decidable_of_iff (∃ k, k < m.len cfg ∧ Vis cfg m (cfg.hash q) k ∧ slotAt cfg m (cfg.hash q) k = x)
    ⟨fun ⟨k, _, h⟩ => ⟨k, h⟩, fun ⟨k, h⟩ => ⟨k, h.1.1, h⟩⟩

/-- A hidden key becomes part of the contents when it is within the bounds. -/
def reveal (cfg : Cfg K V) (m : Map K V) (g : Gh K V) : Gh K V :=
  match g.hid with
  | none => g
  | some x => match (m.ent x).key with
    | .key q => if SeenAt cfg m q x then { g with abs := upd g.abs q (some (m.ent x).val), hid := none } else g
    | _ => g

/-- Effect of a store on the ghost state. -/
def gexec (cfg : Cfg K V) (m : Map K V) (g : Gh K V) : Stmt K V → Gh K V
  | .setMax n => reveal cfg (exec m (.setMax n)) g
  | .setBnd o n => reveal cfg (exec m (.setBnd o n)) g
  | .dels x => { g with sg := true, re := x }
  | .val x v => match (m.ent x).key with
    | .key q => { g with abs := upd g.abs q (some v) }
    | _ => g
  | .key x q d =>
    if (m.ent x).key = .key q then g
    else match d with
      | none => reveal cfg (exec m (.key x q d)) { g with re := none, hid := some x }
      | some s => { g with dup := some s, sg := false, re := none }
  | .tomb x =>
    if g.dup = some x then { g with dup := none }
    else match (m.ent x).key with
      | .key q => { g with abs := upd g.abs q none }
      | _ => g
  | .cnt _ => g
  | .publish _ c => if c then { g with abs := fun _ => none, re := none } else { g with re := none }

def gexecs (cfg : Cfg K V) : Map K V → Gh K V → List (Stmt K V) → Gh K V
  | _, g, [] => g
  | m, g, s :: l => gexecs cfg (exec m s) (gexec cfg m g s) l

/-- The contents can be found. -/
def Posd (cfg : Cfg K V) (m : Map K V) (g : Gh K V) : Prop :=
  ∀ q v, g.abs q = some v → ∃ k, Vis cfg m (cfg.hash q) k ∧ some (slotAt cfg m (cfg.hash q) k) ≠ g.dup ∧
    (m.ent (slotAt cfg m (cfg.hash q) k)).key = .key q ∧ (m.ent (slotAt cfg m (cfg.hash q) k)).val = v ∧
    NE cfg m (cfg.hash q) k

/-- The bounds are below the maximum. -/
def Calm (cfg : Cfg K V) (m : Map K V) : Prop := ∀ b, m.bnd = some b → ∀ o, b o ≤ m.maxi ∧ b o ≤ cfg.wmax

/-- The current map at any instant. -/
structure G (cfg : Cfg K V) (m : Map K V) (g : Gh K V) : Prop where
  pos : Posd cfg m g
  here : ∀ x q, (m.ent x).key = .key q → some x ≠ g.hid → g.abs q = some (m.ent x).val
  uniq : ∀ x y q, (m.ent x).key = .key q → (m.ent y).key = .key q → some x ≠ g.dup → some y ≠ g.dup → x = y
  hid : ∀ x, g.hid = some x → g.dup = none ∧ g.calm = true ∧ ∃ q, (m.ent x).key = .key q ∧ g.abs q = none ∧
    ¬ SeenAt cfg m q x ∧ ∃ k, k < m.len cfg ∧ slotAt cfg m (cfg.hash q) k = x ∧ NE cfg m (cfg.hash q) k
  re : ∀ x, g.re = some x → (m.ent x).key = .tomb
  cm : g.calm = true → Calm cfg m

/-- Ghost state between operations. -/
def g0 (abs : K → Option V) (sg calm : Bool) : Gh K V := ⟨abs, none, sg, none, none, calm⟩

/-- Slot `x` may be given a key. -/
def Free (m : Map K V) (g : Gh K V) (x : Nat) : Prop :=
  (m.ent x).key = .empty ∨ ((m.ent x).key = .tomb ∧ g.re = some x)

/-- What is needed for a store. -/
def Eff (cfg : Cfg K V) (m : Map K V) (g : Gh K V) : Stmt K V → Prop
  | .setMax n => Posd cfg (exec m (.setMax n)) g ∧ (g.calm = true → m.maxi ≤ n)
  | .setBnd o n => Posd cfg (exec m (.setBnd o n)) g ∧
      (g.calm = true → n ≤ m.maxi ∧ n ≤ cfg.wmax ∧ ∀ b, m.bnd = some b → b o ≤ n)
  | .dels x => ∀ y, x = some y → (m.ent y).key = .tomb
  | .val x _ => g.dup = none ∧ g.hid = none ∧ (Free m g x ∨ ∃ q, (m.ent x).key = .key q)
  | .key x q d =>
    (m.ent x).key = .key q ∨
      (g.dup = none ∧ g.hid = none ∧ Free m g x ∧
        ((d = none ∧ g.abs q = none ∧ ∃ k, k < m.len cfg ∧ slotAt cfg m (cfg.hash q) k = x ∧
            NE cfg m (cfg.hash q) k ∧ (Vis cfg m (cfg.hash q) k ∨ g.calm = true)) ∨
          ∃ s, d = some s ∧ (m.ent s).key = .key q ∧ (m.ent s).val = (m.ent x).val ∧
            ∃ k, Vis cfg m (cfg.hash q) k ∧ slotAt cfg m (cfg.hash q) k = x ∧ NE cfg m (cfg.hash q) k))
  | .tomb x => (∃ q, (m.ent x).key = .key q) ∧ ((g.dup = none ∧ g.hid = none) ∨ (g.dup = some x ∧ g.sg = true))
  | .cnt _ => True
  | .publish u c => g.dup = none ∧ g.hid = none ∧ G cfg u (g0 (if c then fun _ => none else g.abs) g.sg g.calm)

def Effs (cfg : Cfg K V) : Map K V → Gh K V → List (Stmt K V) → Prop
  | _, _, [] => True
  | m, g, s :: l => Eff cfg m g s ∧ Effs cfg (exec m s) (gexec cfg m g s) l

theorem Vis.le {cfg : Cfg K V} {m : Map K V} {h j k : Nat} (hb : Vis cfg m h k) (hj : j ≤ k) : Vis cfg m h j :=
  ⟨by have := hb.1; omega, by have := hb.2.1; omega, fun b hbb => by rcases hb.2.2 b hbb with h | h <;> [left; right] <;> omega⟩

theorem InB.vis {cfg : Cfg K V} {m : Map K V} {h k : Nat} (hb : InB cfg m h k) : Vis cfg m h k :=
  ⟨hb.1, by have := hb.2.1; omega, fun b hbb => by rcases hb.2.2 b hbb with h | h <;> [left; right] <;> omega⟩

theorem Wf.g {cfg : Cfg K V} {m : Map K V} {abs : K → Option V} {sg calm : Bool} (hw : Wf cfg m abs)
    (hc : calm = true → Calm cfg m) : G cfg m (g0 abs sg calm) := by
  refine ⟨?_, fun x q h _ => hw.here x q h, fun x y q h1 h2 _ _ => hw.uniq x y q h1 h2, fun x h => by simp [g0] at h,
    fun x h => by simp [g0] at h, hc⟩
  intro q v h
  obtain ⟨k, h1, h2, h3, h4⟩ := hw.pos q v h
  exact ⟨k, h1.vis, by simp [g0], h3, h4, h2⟩

/-! ## Revealing -/

theorem reveal_none {cfg : Cfg K V} {m : Map K V} {g : Gh K V} (h : g.hid = none) : reveal cfg m g = g := by
  simp only [reveal, h]

theorem reveal_seen {cfg : Cfg K V} {m : Map K V} {g : Gh K V} {x : Nat} {q : K} (h : g.hid = some x)
    (hk : (m.ent x).key = .key q) (hs : SeenAt cfg m q x) :
    reveal cfg m g = { g with abs := upd g.abs q (some (m.ent x).val), hid := none } := by
  simp only [reveal, h, hk, if_pos hs]

theorem reveal_not {cfg : Cfg K V} {m : Map K V} {g : Gh K V} {x : Nat} {q : K} (h : g.hid = some x)
    (hk : (m.ent x).key = .key q) (hs : ¬ SeenAt cfg m q x) : reveal cfg m g = g := by
  simp only [reveal, h, hk, if_neg hs]

/-- Everything but that the hidden key is out of sight. -/
structure G' (cfg : Cfg K V) (m : Map K V) (g : Gh K V) : Prop where
  pos : Posd cfg m g
  here : ∀ x q, (m.ent x).key = .key q → some x ≠ g.hid → g.abs q = some (m.ent x).val
  uniq : ∀ x y q, (m.ent x).key = .key q → (m.ent y).key = .key q → some x ≠ g.dup → some y ≠ g.dup → x = y
  hid : ∀ x, g.hid = some x → g.dup = none ∧ ∃ q, (m.ent x).key = .key q ∧ g.abs q = none ∧
    ∃ k, k < m.len cfg ∧ slotAt cfg m (cfg.hash q) k = x ∧ NE cfg m (cfg.hash q) k ∧
      (Vis cfg m (cfg.hash q) k ∨ g.calm = true)
  re : ∀ x, g.re = some x → (m.ent x).key = .tomb
  cm : g.calm = true → Calm cfg m

theorem G'.reveal {cfg : Cfg K V} {m : Map K V} {g : Gh K V} (hg : G' cfg m g) : G cfg m (reveal cfg m g) := by
  cases hh : g.hid with
  | none =>
    rw [reveal_none hh]
    exact ⟨hg.pos, hg.here, hg.uniq, fun x h => (by rw [hh] at h; cases h), hg.re, hg.cm⟩
  | some x =>
    obtain ⟨hd, q, hk, ha, k, h1, h2, h3, h4⟩ := hg.hid x hh
    by_cases hs : SeenAt cfg m q x
    · rw [reveal_seen hh hk hs]
      have hu : ∀ y, (m.ent y).key = .key q → y = x := fun y hy =>
        hg.uniq y x q hy hk (by simp [hd]) (by simp [hd])
      refine ⟨?_, ?_, hg.uniq, fun y h => by simp at h, hg.re, hg.cm⟩
      · intro p v hp
        simp only [upd_apply] at hp
        split at hp
        · next hpq =>
          subst hpq
          cases hp
          obtain ⟨j, hj, hjx⟩ := hs
          by_cases hjk : j ≤ k
          · refine ⟨j, hj, by simp [hd], by rw [hjx]; exact hk, by rw [hjx], fun i hi => h3 i (by omega)⟩
          · refine ⟨k, hj.le (by omega), by simp [hd], by rw [h2]; exact hk, by rw [h2], h3⟩
        · exact hg.pos p v hp
      · intro y p hy _
        simp only [upd_apply]
        by_cases hpq : p = q
        · subst hpq
          rw [hu y hy, if_pos rfl]
        · rw [if_neg hpq]
          refine hg.here y p hy ?_
          intro he
          rw [hh] at he
          cases he
          rw [hk] at hy; cases hy; exact hpq rfl
    · rw [reveal_not hh hk hs]
      refine ⟨hg.pos, hg.here, hg.uniq, ?_, hg.re, hg.cm⟩
      intro y hy
      rw [hh] at hy
      cases hy
      refine ⟨hd, ?_, q, hk, ha, hs, k, h1, h2, h3⟩
      rcases h4 with h4 | h4
      · exact absurd ⟨k, h4, h2⟩ hs
      · exact h4

theorem NE.upd {cfg : Cfg K V} {m m' : Map K V} {x : Nat} {e : Ent K V} (he : m'.ent = upd m.ent x e)
    (hs : slotAt cfg m' = slotAt cfg m) (hn : e.key = .empty → (m.ent x).key = .empty) {h k : Nat} (hk : NE cfg m h k) :
    NE cfg m' h k := by
  intro j hj
  rw [hs, he, upd_apply]
  have := hk j hj
  split
  · next hx => intro hc; rw [hx] at this; exact this (hn hc)
  · exact this

/-- The bounds do not go down. -/
theorem G.bounds {cfg : Cfg K V} {m m' : Map K V} {g : Gh K V} (hg : G cfg m g) (he : m'.ent = m.ent)
    (hl : m'.limit = m.limit) (hs : slotAt cfg m' = slotAt cfg m) (hp : Posd cfg m' g)
    (hc : g.calm = true → Calm cfg m') : G' cfg m' g := by
  refine ⟨hp, fun x q => by rw [he]; exact hg.here x q, fun x y q => by rw [he]; exact hg.uniq x y q, ?_,
    fun x => by rw [he]; exact hg.re x, hc⟩
  intro x hx
  obtain ⟨h1, h2, q, h3, h4, h5, k, h6, h7, h8⟩ := hg.hid x hx
  refine ⟨h1, q, by rw [he]; exact h3, h4, k, ?_, by rw [hs]; exact h7, ?_, .inr h2⟩
  · unfold Map.len at h6 ⊢; rw [hl]; exact h6
  · intro j hj; rw [hs, he]; exact h8 j hj

/-! ## Every store keeps the invariant -/

theorem G.exec {cfg : Cfg K V} {m : Map K V} {g : Gh K V} {s : Stmt K V} (hg : G cfg m g) (he : Eff cfg m g s) :
    G cfg (exec m s) (gexec cfg m g s) := by
  cases s with
  | setMax n =>
    refine (hg.bounds (m' := Ht.exec m (.setMax n)) rfl rfl rfl he.1 ?_).reveal
    intro hc b hb o
    have h1 := hg.cm hc b hb o
    have h2 := he.2 hc
    exact ⟨Nat.le_trans h1.1 h2, h1.2⟩
  | setBnd o n =>
    refine (hg.bounds (m' := Ht.exec m (.setBnd o n)) rfl rfl rfl he.1 ?_).reveal
    intro hc b hb o'
    simp only [Ht.exec, Option.map_eq_some_iff] at hb
    obtain ⟨b', hb', rfl⟩ := hb
    have h1 := hg.cm hc b' hb' o'
    have h2 := he.2 hc
    show upd b' o n o' ≤ m.maxi ∧ upd b' o n o' ≤ _
    rw [upd_apply]
    split
    · exact ⟨h2.1, h2.2.1⟩
    · exact h1
  | cnt n => exact ⟨hg.pos, hg.here, hg.uniq, hg.hid, hg.re, hg.cm⟩
  | dels x => exact ⟨hg.pos, hg.here, hg.uniq, hg.hid, he, hg.cm⟩
  | publish u c =>
    obtain ⟨h1, h2, h3⟩ := he
    have : gexec cfg m g (.publish u c) = g0 (if c then fun _ => none else g.abs) g.sg g.calm := by
      cases g
      cases c <;> simp only [gexec, g0] at * <;> simp [h1, h2]
    rw [this]
    exact h3
  | val x v =>
    obtain ⟨hd, hh, hx⟩ := he
    have hek : ∀ y, ((Ht.exec m (.val x v)).ent y).key = (m.ent y).key := by
      intro y
      show (upd m.ent x _ y).key = _
      rw [upd_apply]; split
      · next h => rw [h]
      · rfl
    have hev : ∀ y, y ≠ x → ((Ht.exec m (.val x v)).ent y).val = (m.ent y).val := by
      intro y hy
      show (upd m.ent x _ y).val = _
      rw [upd_ne _ _ hy]
    have hne : ∀ h k, NE cfg m h k → NE cfg (Ht.exec m (.val x v)) h k :=
      fun h k hn => NE.upd (m := m) (m' := Ht.exec m (.val x v)) (x := x) (e := ⟨(m.ent x).key, v⟩) rfl rfl (fun h => h) hn
    cases hk : (m.ent x).key with
    | key p =>
      have hgx : gexec cfg m g (.val x v) = { g with abs := upd g.abs p (some v) } := by simp only [gexec, hk]
      rw [hgx]
      have hu : ∀ y, (m.ent y).key = .key p → y = x := fun y hy =>
        hg.uniq y x p hy hk (by simp [hd]) (by simp [hd])
      refine ⟨?_, ?_, fun y z q => by rw [hek, hek]; exact hg.uniq y z q, fun y h => (by rw [show g.hid = none from hh] at h; cases h),
        fun y => by rw [hek]; exact hg.re y, hg.cm⟩
      · intro q w hq
        simp only [upd_apply] at hq
        split at hq
        · next hqp =>
          subst hqp
          cases hq
          obtain ⟨k, h1, h2, h3, h4, h5⟩ := hg.pos q _ (hg.here x q hk (by simp [hh]))
          refine ⟨k, h1, h2, by rw [hek]; exact h3, ?_, hne _ _ h5⟩
          show (upd m.ent x _ (slotAt cfg m _ k)).val = _
          rw [hu _ h3, upd_same]
        · next hqp =>
          obtain ⟨k, h1, h2, h3, h4, h5⟩ := hg.pos q w hq
          refine ⟨k, h1, h2, by rw [hek]; exact h3, ?_, hne _ _ h5⟩
          rw [hev]
          · exact h4
          · intro hc
            rw [show slotAt cfg (Ht.exec m (.val x v)) = slotAt cfg m from rfl] at hc
            rw [hc, hk] at h3; cases h3; exact hqp rfl
      · intro y q hy hyh
        rw [hek] at hy
        simp only [upd_apply]
        by_cases hqp : q = p
        · subst hqp
          rw [if_pos rfl, hu y hy]
          show _ = some (upd m.ent x _ x).val
          rw [upd_same]
        · rw [if_neg hqp, hev y (by intro hc; rw [hc, hk] at hy; cases hy; exact hqp rfl)]
          exact hg.here y q hy hyh
    | _ =>
      have hgx : gexec cfg m g (.val x v) = g := by simp only [gexec, hk]
      rw [hgx]
      have hyx : ∀ y q, (m.ent y).key = .key q → y ≠ x := by
        intro y q hy hc; rw [hc, hk] at hy; cases hy
      refine ⟨?_, ?_, fun y z q => by rw [hek, hek]; exact hg.uniq y z q, fun y h => (by rw [hh] at h; cases h),
        fun y => by rw [hek]; exact hg.re y, hg.cm⟩
      · intro q w hq
        obtain ⟨k, h1, h2, h3, h4, h5⟩ := hg.pos q w hq
        refine ⟨k, h1, h2, by rw [hek]; exact h3, ?_, hne _ _ h5⟩
        rw [hev]
        · exact h4
        · exact hyx _ _ h3
      · intro y q hy hyh
        rw [hek] at hy
        rw [hev y (hyx y q hy)]
        exact hg.here y q hy hyh
  | key x q d =>
    rcases he with he | ⟨hd, hh, hf, hcase⟩
    · have hgx : gexec cfg m g (.key x q d) = g := by simp only [gexec, if_pos he]
      have hex : Ht.exec m (.key x q d) = m := by
        simp only [Ht.exec, ← he]
        rw [upd_eq_self]
      rw [hgx, hex]
      exact hg
    · have hnk : ∀ p, (m.ent x).key ≠ .key p := by
        rcases hf with h | h <;> intro p hc
        · rw [h] at hc; cases hc
        · rw [h.1] at hc; cases hc
      have hent : ∀ y p, ((Ht.exec m (.key x q d)).ent y).key = .key p → (y = x ∧ p = q) ∨ (y ≠ x ∧ (m.ent y).key = .key p) := by
        intro y p hy
        change (upd m.ent x ⟨.key q, (m.ent x).val⟩ y).key = _ at hy
        rw [upd_apply] at hy
        split at hy
        · next h => cases hy; exact .inl ⟨h, rfl⟩
        · next h => exact .inr ⟨h, hy⟩
      have hval : ∀ y, ((Ht.exec m (.key x q d)).ent y).val = (m.ent y).val := by
        intro y
        show (upd m.ent x _ y).val = _
        rw [upd_apply]; split
        · next h => rw [h]
        · rfl
      have hoth : ∀ y, y ≠ x → (Ht.exec m (.key x q d)).ent y = m.ent y := by
        intro y hy
        show upd m.ent x _ y = _
        rw [upd_ne _ _ hy]
      have hself : ((Ht.exec m (.key x q d)).ent x).key = .key q := by
        show (upd m.ent x _ x).key = _
        rw [upd_same]
      have hne : ∀ h k, NE cfg m h k → NE cfg (Ht.exec m (.key x q d)) h k :=
        fun h k hn => NE.upd (m := m) (m' := Ht.exec m (.key x q d)) (x := x) (e := ⟨.key q, (m.ent x).val⟩) rfl rfl
          (fun h => by cases h) hn
      have hre : ∀ y, (none : Option Nat) = some y → ((Ht.exec m (.key x q d)).ent y).key = .tomb := by
        intro y h; cases h
      rcases hcase with ⟨rfl, ha, k, h1, h2, h3, h4⟩ | ⟨s, rfl, hs1, hs2, k, h1, h2, h3⟩
      · have hgx : gexec cfg m g (.key x q none) =
            reveal cfg (Ht.exec m (.key x q none)) { g with re := none, hid := some x } := by
          simp only [gexec, if_neg (hnk q)]
        rw [hgx]
        refine G'.reveal ⟨?_, ?_, ?_, ?_, hre, hg.cm⟩
        · intro p v hp
          obtain ⟨j, j1, j2, j3, j4, j5⟩ := hg.pos p v hp
          have hjx : slotAt cfg m (cfg.hash p) j ≠ x := by
            intro hc; rw [hc] at j3; exact hnk _ j3
          refine ⟨j, j1, j2, ?_, ?_, hne _ _ j5⟩
          · show ((Ht.exec m (.key x q none)).ent (slotAt cfg m (cfg.hash p) j)).key = _
            rw [hoth _ hjx]; exact j3
          · show ((Ht.exec m (.key x q none)).ent (slotAt cfg m (cfg.hash p) j)).val = _
            rw [hoth _ hjx]; exact j4
        · intro y p hy hyx
          rcases hent y p hy with ⟨h, -⟩ | ⟨h, hy'⟩
          · rw [h] at hyx; exact absurd rfl hyx
          · rw [hval]; exact hg.here y p hy' (by simp [hh])
        · intro y z p hy hz _ _
          rcases hent y p hy with ⟨e1, e2⟩ | ⟨e1, hy'⟩ <;> rcases hent z p hz with ⟨e3, e4⟩ | ⟨e3, hz'⟩
          · rw [e1, e3]
          · rw [e2] at hz'
            have := hg.here z q hz' (by simp [hh])
            rw [ha] at this; cases this
          · rw [e4] at hy'
            have := hg.here y q hy' (by simp [hh])
            rw [ha] at this; cases this
          · exact hg.uniq y z p hy' hz' (by simp [hd]) (by simp [hd])
        · intro y hy
          cases hy
          exact ⟨hd, q, hself, ha, k, h1, h2, hne _ _ h3, h4⟩
      · have hgx : gexec cfg m g (.key x q (some s)) = { g with dup := some s, sg := false, re := none } := by
          simp only [gexec, if_neg (hnk q)]
        rw [hgx]
        have hsx : s ≠ x := fun h => hnk q (by rw [← h]; exact hs1)
        have has := hg.here s q hs1 (by simp [hh])
        refine ⟨?_, ?_, ?_, fun y h => (by rw [show g.hid = none from hh] at h; cases h), hre, hg.cm⟩
        · intro p v hp
          by_cases hpq : p = q
          · subst hpq
            refine ⟨k, h1, ?_, ?_, ?_, hne _ _ h3⟩
            · show some (slotAt cfg m (cfg.hash p) k) ≠ some s
              rw [h2]; intro hc; cases hc; exact hsx rfl
            · show ((Ht.exec m (.key x p (some s))).ent (slotAt cfg m (cfg.hash p) k)).key = _
              rw [h2]; exact hself
            · show ((Ht.exec m (.key x p (some s))).ent (slotAt cfg m (cfg.hash p) k)).val = _
              rw [h2, hval, ← hs2]
              change g.abs p = some v at hp
              rw [has] at hp; cases hp; rfl
          · obtain ⟨j, j1, j2, j3, j4, j5⟩ := hg.pos p v hp
            have hjx : slotAt cfg m (cfg.hash p) j ≠ x := by
              intro hc; rw [hc] at j3; exact hnk _ j3
            refine ⟨j, j1, ?_, ?_, ?_, hne _ _ j5⟩
            · show some (slotAt cfg m (cfg.hash p) j) ≠ some s
              intro hc; cases hc
              rw [hs1] at j3; cases j3; exact hpq rfl
            · show ((Ht.exec m (.key x q (some s))).ent (slotAt cfg m (cfg.hash p) j)).key = _
              rw [hoth _ hjx]; exact j3
            · show ((Ht.exec m (.key x q (some s))).ent (slotAt cfg m (cfg.hash p) j)).val = _
              rw [hoth _ hjx]; exact j4
        · intro y p hy hyh
          rcases hent y p hy with ⟨h, h'⟩ | ⟨h, hy'⟩
          · rw [hval, h', h, ← hs2]; exact has
          · rw [hval]; exact hg.here y p hy' hyh
        · intro y z p hy hz hyd hzd
          have hq : ∀ w, (m.ent w).key = .key q → w = s := fun w hw =>
            hg.uniq w s q hw hs1 (by simp [hd]) (by simp [hd])
          rcases hent y p hy with ⟨e1, e2⟩ | ⟨e1, hy'⟩ <;> rcases hent z p hz with ⟨e3, e4⟩ | ⟨e3, hz'⟩
          · rw [e1, e3]
          · rw [e2] at hz'
            exact absurd (congrArg some (hq z hz')) hzd
          · rw [e4] at hy'
            exact absurd (congrArg some (hq y hy')) hyd
          · exact hg.uniq y z p hy' hz' (by simp [hd]) (by simp [hd])
  | tomb x =>
    obtain ⟨⟨q, hx⟩, hd⟩ := he
    have hent : ∀ y p, ((Ht.exec m (.tomb x)).ent y).key = .key p → y ≠ x ∧ (m.ent y).key = .key p := by
      intro y p hy
      change (upd m.ent x ⟨.tomb, (m.ent x).val⟩ y).key = _ at hy
      rw [upd_apply] at hy
      split at hy
      · cases hy
      · next h => exact ⟨h, hy⟩
    have hoth : ∀ y, y ≠ x → (Ht.exec m (.tomb x)).ent y = m.ent y := by
      intro y hy
      show upd m.ent x _ y = _
      rw [upd_ne _ _ hy]
    have hne : ∀ h k, NE cfg m h k → NE cfg (Ht.exec m (.tomb x)) h k :=
      fun h k hn => NE.upd (m := m) (m' := Ht.exec m (.tomb x)) (x := x) (e := ⟨.tomb, (m.ent x).val⟩) rfl rfl
        (fun h => by cases h) hn
    have hre : ∀ y, g.re = some y → ((Ht.exec m (.tomb x)).ent y).key = .tomb := by
      intro y hy
      have := hg.re y hy
      show (upd m.ent x _ y).key = _
      rw [upd_apply]; split
      · rfl
      · exact this
    rcases hd with ⟨hd, hh⟩ | ⟨hd, -⟩
    · have hgx : gexec cfg m g (.tomb x) = { g with abs := upd g.abs q none } := by
        simp only [gexec, hd, hx]; simp
      rw [hgx]
      have hu : ∀ y, (m.ent y).key = .key q → y = x := fun y hy =>
        hg.uniq y x q hy hx (by simp [hd]) (by simp [hd])
      refine ⟨?_, ?_, fun y z p hy hz => hg.uniq y z p (hent y p hy).2 (hent z p hz).2, fun y h => (by rw [show g.hid = none from hh] at h; cases h),
        hre, hg.cm⟩
      · intro p v hp
        simp only [upd_apply] at hp
        split at hp
        · cases hp
        · next hpq =>
          obtain ⟨j, j1, j2, j3, j4, j5⟩ := hg.pos p v hp
          have hjx : slotAt cfg m (cfg.hash p) j ≠ x := by
            intro hc; rw [hc, hx] at j3; cases j3; exact hpq rfl
          refine ⟨j, j1, j2, ?_, ?_, hne _ _ j5⟩
          · show ((Ht.exec m (.tomb x)).ent (slotAt cfg m (cfg.hash p) j)).key = _
            rw [hoth _ hjx]; exact j3
          · show ((Ht.exec m (.tomb x)).ent (slotAt cfg m (cfg.hash p) j)).val = _
            rw [hoth _ hjx]; exact j4
      · intro y p hy _
        obtain ⟨h1, h2⟩ := hent y p hy
        simp only [upd_apply]
        rw [if_neg, hoth y h1]
        · exact hg.here y p h2 (by simp [hh])
        · intro hpq; rw [hpq] at h2; exact h1 (hu y h2)
    · have hgx : gexec cfg m g (.tomb x) = { g with dup := none } := by
        simp only [gexec, hd]; simp
      rw [hgx]
      have hyd : ∀ y, y ≠ x → some y ≠ g.dup := by
        intro y hy hc; rw [hd] at hc; cases hc; exact hy rfl
      refine ⟨?_, ?_, ?_, ?_, hre, hg.cm⟩
      · intro p v hp
        obtain ⟨j, j1, j2, j3, j4, j5⟩ := hg.pos p v hp
        have hjx : slotAt cfg m (cfg.hash p) j ≠ x := by
          intro hc; rw [hc] at j2; exact j2 hd.symm
        refine ⟨j, j1, by simp, ?_, ?_, hne _ _ j5⟩
        · show ((Ht.exec m (.tomb x)).ent (slotAt cfg m (cfg.hash p) j)).key = _
          rw [hoth _ hjx]; exact j3
        · show ((Ht.exec m (.tomb x)).ent (slotAt cfg m (cfg.hash p) j)).val = _
          rw [hoth _ hjx]; exact j4
      · intro y p hy hyh
        obtain ⟨h1, h2⟩ := hent y p hy
        rw [hoth y h1]
        exact hg.here y p h2 hyh
      · intro y z p hy hz _ _
        obtain ⟨h1, h2⟩ := hent y p hy
        obtain ⟨h3, h4⟩ := hent z p hz
        exact hg.uniq y z p h2 h4 (hyd y h1) (hyd z h3)
      · intro y hy
        rw [(hg.hid y hy).1] at hd; cases hd

end Verif.Ht
