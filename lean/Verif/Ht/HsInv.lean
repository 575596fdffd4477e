import Verif.Ht.Hs

/-!
# Hash set: invariant of the writer

`abs q` is the object stored for key `q`.  `dup` is the slot that holds a second object of the same key while an
entry moves, `sg` says that the generation was advanced since.
-/

set_option linter.unusedSectionVars false

namespace Verif.Hs

open Verif

variable {K V : Type} [DecidableEq K] [DecidableEq V]

/-- Ghost state of the writer. -/
structure Gh (K V : Type) where
  abs : K → Option V
  dup : Option Nat
  sg : Bool

/-- What a store does to the ghost state.  Storing an object makes it the object of its key, deleting an entry
that is not a left-over of a move removes the key. -/
def gexec (cfg : Cfg K V) (m : Map V) (g : Gh K V) : Stmt V → Gh K V
  | .store _ v _ d => { abs := upd g.abs (cfg.key v) (some v), dup := d, sg := false }
  | .sig _ => { g with sg := true }
  | .del x => if g.dup = some x then { g with dup := none, sg := false }
      else match m.ent x with
        | .full v _ => { abs := upd g.abs (cfg.key v) none, dup := none, sg := false }
        | _ => g
  | .publish _ c => if c then { g with abs := fun _ => none } else g
  | _ => g

def gexecs (cfg : Cfg K V) : Map V → Gh K V → List (Stmt V) → Gh K V
  | _, g, [] => g
  | m, g, s :: l => gexecs cfg (exec m s) (gexec cfg m g s) l

/-- Probe `k` for `h` is within what a reader may load as its bound. -/
def InB (cfg : Cfg K V) (m : Map V) (h k : Nat) : Prop :=
  k < m.maxi ∧ ∀ b, m.bnd = some b → b (h &&& m.mask) = cfg.wmax ∨ k < b (h &&& m.mask)

/-- No empty slot before probe `k`. -/
def NE (m : Map V) (h k : Nat) : Prop := ∀ j, j < k → m.ent (slotAt m h j) ≠ .empty

/-- Slot `x` holds an object with key `q`. -/
def IsKey (cfg : Cfg K V) (m : Map V) (q : K) (x : Nat) : Prop := ∃ v tg, m.ent x = .full v tg ∧ cfg.key v = q

/-- Probe `k` finds `v`, which is the object of `q`. -/
def Pos (cfg : Cfg K V) (m : Map V) (dup : Option Nat) (q : K) (k : Nat) (v : V) : Prop :=
  InB cfg m (cfg.hash q) k ∧ some (slotAt m (cfg.hash q) k) ≠ dup ∧
    m.ent (slotAt m (cfg.hash q) k) = .full v (cfg.tag (cfg.hash q)) ∧ NE m (cfg.hash q) k

/-- The map at any instant. -/
structure G (cfg : Cfg K V) (m : Map V) (g : Gh K V) : Prop where
  geo : ∃ p, 3 ≤ p ∧ p ≤ 31 ∧ m.cap = 2 ^ p ∧ m.mask = 2 ^ p - 1
  tag : ∀ x v tg, m.ent x = .full v tg → tg = cfg.tag (cfg.hash (cfg.key v)) ∧ x < m.cap
  ak : ∀ q v, g.abs q = some v → cfg.key v = q
  pos : ∀ q v, g.abs q = some v → ∃ k, Pos cfg m g.dup q k v
  here : ∀ x v tg, m.ent x = .full v tg → some x ≠ g.dup → g.abs (cfg.key v) = some v
  uniq : ∀ x y v w tg tg', m.ent x = .full v tg → m.ent y = .full w tg' → cfg.key v = cfg.key w →
    some x ≠ g.dup → some y ≠ g.dup → x = y
  dup : ∀ y, g.dup = some y → ∃ v tg, m.ent y = .full v tg ∧ g.abs (cfg.key v) ≠ none ∧
    ∀ k, slotAt m (cfg.hash (cfg.key v)) k = y →
      ∃ j, j < k ∧ some (slotAt m (cfg.hash (cfg.key v)) j) ≠ g.dup ∧
        IsKey cfg m (cfg.key v) (slotAt m (cfg.hash (cfg.key v)) j)
  wb : ∀ b off, m.bnd = some b → b off ≤ cfg.wmax

def isFull : Slot V → Bool
  | .full _ _ => true
  | _ => false

/-- Number of objects in the table. -/
def card (m : Map V) : Nat := (List.range m.cap).countP fun x => isFull (m.ent x)

/-- The map between operations. -/
structure Wf (cfg : Cfg K V) (m : Map V) (abs : K → Option V) : Prop where
  g : G cfg m ⟨abs, none, false⟩
  bm : ∀ b off, m.bnd = some b → off < m.cap → b off ≤ m.maxi
  ml : m.maxi ≤ m.limit
  cn : m.n = card m

/-! ## What a store must satisfy -/

/-- Condition under which a store keeps the invariant and readers are not misled. -/
def Eff (cfg : Cfg K V) (m : Map V) (g : Gh K V) : Stmt V → Prop
  | .setMax n => ∀ q v, g.abs q = some v → ∃ k, Pos cfg (exec m (.setMax n)) g.dup q k v
  | .setBnd off n => n ≤ cfg.wmax ∧
      ∀ q v, g.abs q = some v → ∃ k, Pos cfg (exec m (.setBnd off n)) g.dup q k v
  | .store x v tg d => g.dup = none ∧ tg = cfg.tag (cfg.hash (cfg.key v)) ∧
      (∃ k, slotAt m (cfg.hash (cfg.key v)) k = x ∧ InB cfg m (cfg.hash (cfg.key v)) k ∧
        NE m (cfg.hash (cfg.key v)) k) ∧
      (∀ w tg, m.ent x = .full w tg → cfg.key w = cfg.key v ∧ d = none) ∧
      (d = none → ∀ y, IsKey cfg m (cfg.key v) y → y = x) ∧
      (∀ y, d = some y → IsKey cfg m (cfg.key v) y ∧
        ∀ k, slotAt m (cfg.hash (cfg.key v)) k = y → ∃ j, j < k ∧ slotAt m (cfg.hash (cfg.key v)) j = x)
  | .sig p => ∀ y v tg, g.dup = some y → m.ent y = .full v tg → p = decide (cfg.hash (cfg.key v) % 2 = 1)
  | .del x => (∃ v tg, m.ent x = .full v tg) ∧ (g.dup = none ∨ g.dup = some x ∧ g.sg = true)
  | .cnt _ => True
  | .publish u c => g.dup = none ∧ G cfg u ⟨if c then fun _ => none else g.abs, none, false⟩

def Effs (cfg : Cfg K V) : Map V → Gh K V → List (Stmt V) → Prop
  | _, _, [] => True
  | m, g, s :: l => Eff cfg m g s ∧ Effs cfg (exec m s) (gexec cfg m g s) l

theorem gexecs_append (cfg : Cfg K V) (m : Map V) (g : Gh K V) (l l' : List (Stmt V)) :
    gexecs cfg m g (l ++ l') = gexecs cfg (execs m l) (gexecs cfg m g l) l' := by
  induction l generalizing m g with
  | nil => rfl
  | cons s l ih => simp only [List.cons_append, gexecs, ih]; rfl

theorem Effs_append (cfg : Cfg K V) (m : Map V) (g : Gh K V) (l l' : List (Stmt V)) :
    Effs cfg m g (l ++ l') ↔ Effs cfg m g l ∧ Effs cfg (execs m l) (gexecs cfg m g l) l' := by
  induction l generalizing m g with
  | nil => simp only [List.nil_append, Effs, true_and]; rfl
  | cons s l ih => simp only [List.cons_append, Effs, ih, and_assoc]; rfl

theorem execs_append (m : Map V) (l l' : List (Stmt V)) : execs m (l ++ l') = execs (execs m l) l' := by
  simp only [execs, List.foldl_append]

theorem InB.lt_bound {cfg : Cfg K V} {m : Map V} {h k : Nat} (hb : InB cfg m h k) : k < bound cfg m h := by
  obtain ⟨h1, h2⟩ := hb
  unfold bound
  cases hm : m.bnd with
  | none => exact h1
  | some b =>
    simp only
    split
    · exact h1
    · rcases h2 b hm with h | h
      · contradiction
      · exact h

/-! ## Slots -/

theorem slotIdx_lt {p step h k : Nat} (hp : 3 ≤ p) : slotIdx (2 ^ p - 1) step h k < 2 ^ p := by
  have ho : ∀ i, offs (2 ^ p - 1) step h i < 2 ^ p := by
    intro i
    have h1 : 0 < 2 ^ p := Nat.two_pow_pos p
    cases i with
    | zero => unfold offs; have := Nat.and_le_right (n := h) (m := 2 ^ p - 1); omega
    | succ i =>
      unfold offs probeNext
      simp only
      have := Nat.and_le_right (n := ((offs (2 ^ p - 1) step h i + ((8 * (i + 1)) >>> 3) +
        ((((((h >>> step) >>> i) / 8 * 8) <<< 1) ||| (((h >>> step) >>> i) &&& 7)) ||| 8)) % 2 ^ 64))
        (m := 2 ^ p - 1)
      omega
  unfold slotIdx
  simp only
  have h2 := ho (k / 8)
  obtain ⟨c, hc⟩ : ∃ c, 2 ^ p = 8 * c := ⟨2 ^ (p - 3), by
    rw [show (8 : Nat) = 2 ^ 3 from rfl, ← Nat.pow_add]; congr 1; omega⟩
  omega

theorem G.slot_lt {cfg : Cfg K V} {m : Map V} {g : Gh K V} (hg : G cfg m g) (h k : Nat) :
    slotAt m h k < m.cap := by
  obtain ⟨p, hp, -, hc, hm⟩ := hg.geo
  unfold slotAt
  rw [hm, hc]
  exact slotIdx_lt hp

theorem G.off_lt {cfg : Cfg K V} {m : Map V} {g : Gh K V} (hg : G cfg m g) (h : Nat) :
    h &&& m.mask < m.cap := by
  obtain ⟨p, hp, -, hc, hm⟩ := hg.geo
  rw [hm, hc]
  have h1 : 0 < 2 ^ p := Nat.two_pow_pos p
  have := Nat.and_le_right (n := h) (m := 2 ^ p - 1)
  omega

theorem capOf_pow (c : Nat) : ∃ p, 3 ≤ p ∧ p ≤ 31 ∧ capOf c = 2 ^ p := by
  unfold capOf
  by_cases h : 1 ≤ (BitVec.ofNat 32 c).toNat ∧ (BitVec.ofNat 32 c).toNat ≤ 2 ^ 31
  · obtain ⟨k, hk⟩ := (Internal.power2_least _ h.1 h.2).1
    rw [hk]
    by_cases h3 : 3 ≤ k
    · have hlt := (Internal.power2 (BitVec.ofNat 32 c)).isLt
      rw [hk] at hlt
      refine ⟨k, h3, by have := (Nat.pow_lt_pow_iff_right (a := 2) (by omega)).1 hlt; omega, ?_⟩
      have : 2 ^ 3 ≤ 2 ^ k := Nat.pow_le_pow_right (by omega) h3
      exact Nat.max_eq_left (by omega)
    · refine ⟨3, by omega, by omega, ?_⟩
      have : 2 ^ k ≤ 2 ^ 3 := Nat.pow_le_pow_right (by omega) (by omega)
      exact Nat.max_eq_right (by omega)
  · rw [Internal.power2_overflow _ (by omega)]
    exact ⟨3, by omega, by omega, rfl⟩

theorem create_wf (cfg : Cfg K V) (c : Nat) : Wf cfg (create cfg c) (fun _ => none) := by
  obtain ⟨p, hp, hp', hc⟩ := capOf_pow c
  refine ⟨⟨⟨p, hp, hp', hc, by simp [create, hc]⟩, ?_, ?_, ?_, ?_, ?_, ?_, ?_⟩, ?_, ?_, ?_⟩
  · intro x v tg h; simp [create] at h
  · intro q v h; simp at h
  · intro q v h; simp at h
  · intro x v tg h; simp [create] at h
  · intro x y v w tg tg' h; simp [create] at h
  · intro y h; simp at h
  · intro b off h
    simp only [create] at h
    split at h <;> simp at h
    subst h; exact Nat.zero_le _
  · intro b off h _
    simp only [create] at h
    split at h <;> simp at h
    subst h; exact Nat.zero_le _
  · simp [create]
  · simp only [create, card, isFull]
    simp

/-! ## Every store keeps the invariant -/

theorem G.exec {cfg : Cfg K V} {m : Map V} {g : Gh K V} {s : Stmt V} (hg : G cfg m g) (he : Eff cfg m g s) :
    G cfg (exec m s) (gexec cfg m g s) := by
  cases s with
  | setMax n => exact ⟨hg.geo, hg.tag, hg.ak, he, hg.here, hg.uniq, hg.dup, hg.wb⟩
  | setBnd off n =>
    refine ⟨hg.geo, hg.tag, hg.ak, he.2, hg.here, hg.uniq, hg.dup, ?_⟩
    intro b o hb
    simp only [Hs.exec, Option.map_eq_some_iff] at hb
    obtain ⟨b', hb', rfl⟩ := hb
    rw [upd_apply]
    split
    · exact he.1
    · exact hg.wb _ _ hb'
  | cnt n => exact ⟨hg.geo, hg.tag, hg.ak, hg.pos, hg.here, hg.uniq, hg.dup, hg.wb⟩
  | sig p => exact ⟨hg.geo, hg.tag, hg.ak, hg.pos, hg.here, hg.uniq, hg.dup, hg.wb⟩
  | publish u c =>
    obtain ⟨h1, h2⟩ := he
    have hk : gexec cfg m g (.publish u c) = ⟨if c then fun _ => none else g.abs, none, g.sg⟩ := by
      cases c <;> simp [gexec, ← h1]
    rw [hk]
    exact ⟨h2.geo, h2.tag, h2.ak, h2.pos, h2.here, h2.uniq, h2.dup, h2.wb⟩
  | del x =>
    obtain ⟨⟨v, tg, hx⟩, hd⟩ := he
    have htag : ∀ y w tg', (Hs.exec m (.del x)).ent y = .full w tg' → m.ent y = .full w tg' ∧ y ≠ x := by
      intro y w tg' h
      simp only [Hs.exec, upd_apply] at h
      split at h
      · cases h
      · next hne => exact ⟨h, hne⟩
    have hkeep : ∀ y w tg', m.ent y = .full w tg' → y ≠ x → (Hs.exec m (.del x)).ent y = .full w tg' := by
      intro y w tg' h hne
      simp only [Hs.exec, upd_ne _ _ hne, h]
    have hne : ∀ h k, NE m h k → NE (Hs.exec m (.del x)) h k := by
      intro h k hn j hj
      have := hn j hj
      show upd m.ent x .tomb (slotAt m h j) ≠ .empty
      rw [upd_apply]
      split
      · simp
      · exact this
    rcases hd with hd | ⟨hd, -⟩
    · have hgx : gexec cfg m g (.del x) = ⟨upd g.abs (cfg.key v) none, none, false⟩ := by
        simp only [gexec, hd, hx]; simp
      rw [hgx]
      have hu : ∀ y w tg', m.ent y = .full w tg' → cfg.key w = cfg.key v → y = x := fun y w tg' hy hk =>
        hg.uniq y x w v tg' tg hy hx hk (by simp [hd]) (by simp [hd])
      have hq' : ∀ q w, upd g.abs (cfg.key v) none q = some w → g.abs q = some w ∧ q ≠ cfg.key v := by
        intro q w hq
        rw [upd_apply] at hq
        split at hq
        · cases hq
        · next hne => exact ⟨hq, hne⟩
      refine ⟨hg.geo, fun y w tg' h => hg.tag y w tg' (htag y w tg' h).1, fun q w hq => hg.ak q w (hq' q w hq).1,
        ?_, ?_, ?_, fun y h => by simp at h, hg.wb⟩
      · intro q w hq
        obtain ⟨hq, hqv⟩ := hq' q w hq
        obtain ⟨k, hb, -, hf, hn⟩ := hg.pos q w hq
        refine ⟨k, hb, by simp, hkeep _ _ _ hf ?_, hne _ _ hn⟩
        intro hsx
        change slotAt m (cfg.hash q) k = x at hsx
        rw [hsx, hx] at hf
        have := hg.ak q w hq
        injection hf with h1 h2
        exact hqv (by rw [← this, h1])
      · intro y w tg' h _
        obtain ⟨h1, h2⟩ := htag y w tg' h
        show upd g.abs (cfg.key v) none (cfg.key w) = _
        rw [upd_ne]
        · exact hg.here y w tg' h1 (by simp [hd])
        · exact fun hk => h2 (hu y w tg' h1 hk)
      · intro y z w u t t' hy hz hk _ _
        exact hg.uniq y z w u t t' (htag _ _ _ hy).1 (htag _ _ _ hz).1 hk (by simp [hd]) (by simp [hd])
    · have hgx : gexec cfg m g (.del x) = ⟨g.abs, none, false⟩ := by simp only [gexec, hd]; simp
      rw [hgx]
      have hnd : ∀ y, y ≠ x → some y ≠ g.dup := by
        intro y hy h; rw [hd] at h; exact hy (Option.some.inj h)
      refine ⟨hg.geo, fun y w tg' h => hg.tag y w tg' (htag y w tg' h).1, hg.ak, ?_, ?_, ?_, fun y h => by simp at h,
        hg.wb⟩
      · intro q w hq
        obtain ⟨k, hb, hs, hf, hn⟩ := hg.pos q w hq
        exact ⟨k, hb, by simp, hkeep _ _ _ hf (fun h => hs (by rw [hd]; exact congrArg some h)), hne _ _ hn⟩
      · intro y w tg' h _
        obtain ⟨h1, h2⟩ := htag y w tg' h
        exact hg.here y w tg' h1 (hnd y h2)
      · intro y z w u t t' hy hz hk _ _
        obtain ⟨h1, h2⟩ := htag _ _ _ hy
        obtain ⟨h3, h4⟩ := htag _ _ _ hz
        exact hg.uniq y z w u t t' h1 h3 hk (hnd y h2) (hnd z h4)
  | store x v tg d =>
    obtain ⟨hd, ht, ⟨k, hk, hb, hn⟩, hc, hd0, hd1⟩ := he
    have hgx : gexec cfg m g (.store x v tg d) = ⟨upd g.abs (cfg.key v) (some v), d, false⟩ := rfl
    rw [hgx]
    have hxd : some x ≠ d := by
      intro h
      obtain ⟨⟨w, t, h1, -⟩, -⟩ := hd1 x h.symm
      rw [(hc w t h1).2] at h; cases h
    have hent : ∀ y w t, (Hs.exec m (.store x v tg d)).ent y = .full w t → (y = x ∧ w = v ∧ t = tg) ∨
        (y ≠ x ∧ m.ent y = .full w t) := by
      intro y w t h
      simp only [Hs.exec, upd_apply] at h
      split at h
      · next hy => injection h with h1 h2; exact .inl ⟨hy, h1.symm, h2.symm⟩
      · next hy => exact .inr ⟨hy, h⟩
    have hother : ∀ y w t, m.ent y = .full w t → cfg.key w = cfg.key v → y ≠ x → some y = d := by
      intro y w t h1 h2 h3
      cases hdd : d with
      | none => exact absurd (hd0 hdd y ⟨w, t, h1, h2⟩) h3
      | some z =>
        obtain ⟨⟨w', t', h4, h5⟩, -⟩ := hd1 z hdd
        rw [hg.uniq y z w w' t t' h1 h4 (h2.trans h5.symm) (by simp [hd]) (by simp [hd])]
    have hne : ∀ h k, NE m h k → NE (Hs.exec m (.store x v tg d)) h k := by
      intro h k hn j hj
      have := hn j hj
      show upd m.ent x (.full v tg) (slotAt m h j) ≠ .empty
      rw [upd_apply]
      split
      · simp
      · exact this
    refine ⟨hg.geo, ?_, ?_, ?_, ?_, ?_, ?_, hg.wb⟩
    · intro y w t h
      rcases hent y w t h with ⟨h1, h2, h3⟩ | ⟨-, h2⟩
      · subst h1 h2 h3; exact ⟨ht, hk ▸ hg.slot_lt _ k⟩
      · exact hg.tag y w t h2
    · intro q w hq
      change upd g.abs (cfg.key v) (some v) q = some w at hq
      rw [upd_apply] at hq
      split at hq
      · next h => cases hq; exact h.symm
      · exact hg.ak q w hq
    · intro q w hq
      change upd g.abs (cfg.key v) (some v) q = some w at hq
      rw [upd_apply] at hq
      split at hq
      · next h =>
        cases hq
        subst h
        refine ⟨k, hb, ?_, ?_, hne _ _ hn⟩
        · show some (slotAt m _ k) ≠ d
          rw [hk]; exact hxd
        · show upd m.ent x (.full v tg) (slotAt m _ k) = _
          rw [hk, upd_same, ht]
      · next h =>
        obtain ⟨k', hb', -, hf', hn'⟩ := hg.pos q w hq
        have hwq := hg.ak q w hq
        refine ⟨k', hb', ?_, ?_, hne _ _ hn'⟩
        · show some (slotAt m _ k') ≠ d
          intro he
          obtain ⟨⟨w', t', h4, h5⟩, -⟩ := hd1 _ he.symm
          rw [h4] at hf'
          injection hf' with h6 h7
          exact h (by rw [← hwq, ← h6, h5])
        · show upd m.ent x (.full v tg) (slotAt m _ k') = _
          rw [upd_ne, hf']
          intro he
          rw [he] at hf'
          exact h (by rw [← hwq, (hc _ _ hf').1])
    · intro y w t h hyd
      rcases hent y w t h with ⟨h1, h2, h3⟩ | ⟨h1, h2⟩
      · subst h2; exact upd_same _ _ _
      · show upd g.abs (cfg.key v) (some v) (cfg.key w) = _
        rw [upd_ne]
        · exact hg.here y w t h2 (by simp [hd])
        · intro hk; exact hyd (hother y w t h2 hk h1)
    · intro y z w u t t' hy hz hkk hyd hzd
      rcases hent y w t hy with ⟨h1, h2, h3⟩ | ⟨h1, h2⟩ <;> rcases hent z u t' hz with ⟨h4, h5, h6⟩ | ⟨h4, h5⟩
      · rw [h1, h4]
      · subst h2; exact absurd (hother z u t' h5 hkk.symm h4) hzd
      · subst h5; exact absurd (hother y w t h2 hkk h1) hyd
      · exact hg.uniq y z w u t t' h2 h5 hkk (by simp [hd]) (by simp [hd])
    · intro y hy
      obtain ⟨⟨w, t, h1, h2⟩, h3⟩ := hd1 y hy
      have hyx : y ≠ x := fun h => hxd (by rw [← h]; exact hy.symm)
      refine ⟨w, t, ?_, ?_, ?_⟩
      · show upd m.ent x (.full v tg) y = _
        rw [upd_ne _ _ hyx, h1]
      · rw [h2]; simp
      · intro k' hk'
        rw [h2] at hk' ⊢
        obtain ⟨j, hj, hjx⟩ := h3 k' hk'
        refine ⟨j, hj, ?_, v, tg, ?_, rfl⟩
        · show some (slotAt m _ j) ≠ d
          rw [hjx]; exact hxd
        · show upd m.ent x (.full v tg) (slotAt m _ j) = _
          rw [hjx, upd_same]

end Verif.Hs
