import Verif.Ht.Ht

/-!
# Hash table: the invariant between operations, and what keeps it
-/

set_option linter.unusedSectionVars false

namespace Verif.Ht

open Verif

variable {K V : Type} [DecidableEq K] [DecidableEq V]

/-- Probe number `k` is within the probe limit and the bounds for hash `h`. -/
def InB (cfg : Cfg K V) (m : Map K V) (h k : Nat) : Prop :=
  k < m.len cfg ∧ k + 1 ≤ m.maxi ∧ ∀ b, m.bnd = some b → b (h &&& m.mask) = cfg.wmax ∨ k + 1 ≤ b (h &&& m.mask)

/-- No empty slot before probe `k`. -/
def NE (cfg : Cfg K V) (m : Map K V) (h k : Nat) : Prop :=
  ∀ j, j < k → (m.ent (slotAt cfg m h j)).key ≠ .empty

/-- Key `q` with value `v` is found by probe `k`. -/
def Pos (cfg : Cfg K V) (m : Map K V) (q : K) (k : Nat) (v : V) : Prop :=
  InB cfg m (cfg.hash q) k ∧ NE cfg m (cfg.hash q) k ∧ (m.ent (slotAt cfg m (cfg.hash q) k)).key = .key q ∧
    (m.ent (slotAt cfg m (cfg.hash q) k)).val = v

def isKey : Key K → Bool
  | .key _ => true
  | _ => false

/-- Number of keys in the table. -/
def card (m : Map K V) : Nat := (List.range m.cap).countP fun x => isKey (m.ent x).key

/-- The map between operations. -/
structure Wf (cfg : Cfg K V) (m : Map K V) (abs : K → Option V) : Prop where
  geo : ∃ p, cfg.sh ≤ p ∧ p ≤ 31 ∧ m.cap = 2 ^ p ∧ m.mask = 2 ^ p - 1
  lt : ∀ x q, (m.ent x).key = .key q → x < m.cap
  pos : ∀ q v, abs q = some v → ∃ k, Pos cfg m q k v
  here : ∀ x q, (m.ent x).key = .key q → abs q = some (m.ent x).val
  uniq : ∀ x y q, (m.ent x).key = .key q → (m.ent y).key = .key q → x = y
  cn : m.n = card m

/-- No tombstones. -/
def NoT (m : Map K V) : Prop := ∀ x, (m.ent x).key ≠ .tomb

theorem sh_le (cfg : Cfg K V) : cfg.sh ≤ 2 := by unfold Cfg.sh; split <;> omega

theorem bl_pos (cfg : Cfg K V) : 0 < cfg.bl := Nat.two_pow_pos _

theorem Wf.slot_lt {cfg : Cfg K V} {m : Map K V} {abs : K → Option V} (hw : Wf cfg m abs) (h k : Nat) :
    slotAt cfg m h k < m.cap := by
  obtain ⟨p, hp, -, hc, hm⟩ := hw.geo
  have h1 : 0 < 2 ^ p := Nat.two_pow_pos p
  have ho : ∀ i, offs cfg m.mask m.step h i < 2 ^ p := by
    intro i
    cases i with
    | zero => unfold offs; rw [hm]; have := Nat.and_le_right (n := h) (m := 2 ^ p - 1); omega
    | succ i =>
      unfold offs probeNext
      simp only
      rw [hm]
      refine Nat.lt_of_le_of_lt (Nat.and_le_right (m := 2 ^ p - 1)) (by omega)
  unfold slotAt
  simp only
  rw [hc]
  generalize hoo : offs cfg m.mask m.step h (k / cfg.bl) = o
  have h2 : o < 2 ^ p := hoo ▸ ho _
  obtain ⟨c, hc⟩ : ∃ c, 2 ^ p = cfg.bl * c := ⟨2 ^ (p - cfg.sh), by
    unfold Cfg.bl; rw [← Nat.pow_add]; congr 1; omega⟩
  have hb := bl_pos cfg
  have h3 := Nat.mod_lt (k % cfg.bl + o) hb
  have h4 : o / cfg.bl < c := Nat.div_lt_of_lt_mul (hc ▸ h2)
  have h5 : (o / cfg.bl + 1) * cfg.bl ≤ c * cfg.bl := Nat.mul_le_mul_right _ h4
  rw [Nat.add_mul, Nat.one_mul] at h5
  rw [hc, Nat.mul_comm cfg.bl c]
  omega

theorem capOf_pow (cfg : Cfg K V) (c : Nat) : ∃ p, cfg.sh ≤ p ∧ p ≤ 31 ∧ capOf cfg c = 2 ^ p := by
  have hs := sh_le cfg
  unfold capOf
  by_cases h : 1 ≤ (BitVec.ofNat 32 c).toNat ∧ (BitVec.ofNat 32 c).toNat ≤ 2 ^ 31
  · obtain ⟨k, hk⟩ := (Internal.power2_least _ h.1 h.2).1
    rw [hk]
    by_cases h3 : cfg.sh ≤ k
    · have hlt := (Internal.power2 (BitVec.ofNat 32 c)).isLt
      rw [hk] at hlt
      refine ⟨k, h3, by have := (Nat.pow_lt_pow_iff_right (a := 2) (by omega)).1 hlt; omega, ?_⟩
      exact Nat.max_eq_left (Nat.pow_le_pow_right (by omega) h3)
    · refine ⟨cfg.sh, by omega, by omega, ?_⟩
      exact Nat.max_eq_right (Nat.pow_le_pow_right (by omega) (by omega))
  · rw [Internal.power2_overflow _ (by omega)]
    refine ⟨cfg.sh, by omega, by omega, ?_⟩
    exact Nat.max_eq_right (Nat.zero_le _)

theorem create_wf (cfg : Cfg K V) (c : Nat) : Wf cfg (create cfg c) (fun _ => none) := by
  obtain ⟨p, hp, hp', hc⟩ := capOf_pow cfg c
  refine ⟨⟨p, hp, hp', hc, by simp [create, hc]⟩, ?_, ?_, ?_, ?_, ?_⟩
  · intro x q h; simp [create] at h
  · intro q v h; simp at h
  · intro x q h; simp [create] at h
  · intro x y q h; simp [create] at h
  · simp [create, card, isKey]

theorem create_not (cfg : Cfg K V) (c : Nat) : NoT (create cfg c) := by intro x; simp [create]

/-- `m'` has the geometry of `m`, and its bounds are not lower. -/
structure Same (cfg : Cfg K V) (m m' : Map K V) : Prop where
  cap : m'.cap = m.cap
  mask : m'.mask = m.mask
  step : m'.step = m.step
  limit : m'.limit = m.limit
  inb : ∀ h k, InB cfg m h k → InB cfg m' h k

theorem Same.slot {cfg : Cfg K V} {m m' : Map K V} (hm : m'.mask = m.mask) (hs : m'.step = m.step) :
    slotAt cfg m' = slotAt cfg m := by
  funext a k; unfold slotAt; rw [hm, hs]

theorem countP_upd (e : Nat → Ent K V) (x : Nat) (s : Ent K V) : ∀ l : List Nat, l.Nodup → x ∈ l →
    (l.countP fun y => isKey (upd e x s y).key) + (if isKey (e x).key then 1 else 0) =
      (l.countP fun y => isKey (e y).key) + (if isKey s.key then 1 else 0) := by
  intro l
  induction l with
  | nil => intro _ h; cases h
  | cons a l ih =>
    intro hn hx
    rw [List.nodup_cons] at hn
    rw [List.countP_cons, List.countP_cons]
    by_cases ha : a = x
    · subst ha
      have : (l.countP fun y => isKey (upd e a s y).key) = l.countP fun y => isKey (e y).key := by
        apply List.countP_congr
        intro y hy
        rw [upd_ne]
        intro h; subst h; exact hn.1 hy
      rw [this, upd_same]
      omega
    · rw [upd_ne _ _ ha]
      have := ih hn.2 (by cases hx with | head => exact absurd rfl ha | tail _ h => exact h)
      omega

theorem card_upd (m m' : Map K V) (x : Nat) (s : Ent K V) (hx : x < m.cap) (hc : m'.cap = m.cap)
    (he : m'.ent = upd m.ent x s) :
    card m' + (if isKey (m.ent x).key then 1 else 0) = card m + (if isKey s.key then 1 else 0) := by
  unfold card
  rw [hc, he]
  exact countP_upd m.ent x s _ List.nodup_range (List.mem_range.2 hx)

/-- Only bounds differ. -/
theorem Wf.same {cfg : Cfg K V} {m m' : Map K V} {abs : K → Option V} (hw : Wf cfg m abs) (hc : m'.cap = m.cap)
    (hm : m'.mask = m.mask) (he : m'.ent = m.ent) (hn : m'.n = m.n)
    (hp : ∀ q v, abs q = some v → ∃ k, Pos cfg m' q k v) : Wf cfg m' abs := by
  refine ⟨?_, ?_, hp, ?_, ?_, ?_⟩
  · rw [hc, hm]; exact hw.geo
  · rw [he, hc]; exact hw.lt
  · rw [he]; exact hw.here
  · rw [he]; exact hw.uniq
  · unfold card; rw [hn, hc, he]; exact hw.cn

theorem Same.pos {cfg : Cfg K V} {m m' : Map K V} (h : Same cfg m m') (he : m'.ent = m.ent) {q : K} {k : Nat} {v : V}
    (hp : Pos cfg m q k v) : Pos cfg m' q k v := by
  obtain ⟨h1, h2, h3, h4⟩ := hp
  unfold Pos NE
  rw [Same.slot h.mask h.step, he]
  exact ⟨h.inb _ _ h1, h2, h3, h4⟩

/-- Key `q` is stored with value `v`, in a slot that holds it already or in a free one. -/
theorem Wf.put {cfg : Cfg K V} {m m' : Map K V} {abs : K → Option V} {q : K} {v : V} {k x : Nat}
    (hw : Wf cfg m abs) (hs : Same cfg m m') (hk : slotAt cfg m (cfg.hash q) k = x)
    (he : m'.ent = upd m.ent x ⟨.key q, v⟩) (hb : InB cfg m' (cfg.hash q) k) (hne : NE cfg m (cfg.hash q) k)
    (ho : ((m.ent x).key = .key q ∧ m'.n = m.n) ∨ (isKey (m.ent x).key = false ∧ abs q = none ∧ m'.n = m.n + 1)) :
    Wf cfg m' (upd abs q (some v)) := by
  have hx : x < m.cap := hk ▸ hw.slot_lt _ _
  have hsl := Same.slot (cfg := cfg) hs.mask hs.step
  have hq : ∀ y, (m.ent y).key = .key q → y = x := by
    intro y hy
    rcases ho with ⟨h1, -⟩ | ⟨-, h1, -⟩
    · exact hw.uniq y x q hy h1
    · have := hw.here y q hy; rw [h1] at this; cases this
  have hxp : ∀ p, (m.ent x).key = .key p → p = q := by
    intro p hp
    rcases ho with ⟨h1, -⟩ | ⟨h1, -, -⟩
    · rw [hp] at h1; cases h1; rfl
    · rw [hp] at h1; cases h1
  have hnem : ∀ h k, NE cfg m h k → NE cfg m' h k := by
    intro h k hn j hj
    rw [hsl, he, upd_apply]
    split
    · simp
    · exact hn j hj
  refine ⟨?_, ?_, ?_, ?_, ?_, ?_⟩
  · rw [hs.cap, hs.mask]; exact hw.geo
  · intro y p hy
    rw [he, upd_apply] at hy
    rw [hs.cap]
    split at hy
    · next h => rw [h]; exact hx
    · exact hw.lt y p hy
  · intro p w hp
    rw [upd_apply] at hp
    split at hp
    · next h =>
      subst h; cases hp
      refine ⟨k, hb, hnem _ _ hne, ?_, ?_⟩ <;> rw [hsl, he, hk, upd_same]
    · next h =>
      obtain ⟨j, h1, h2, h3, h4⟩ := hw.pos p w hp
      have : slotAt cfg m (cfg.hash p) j ≠ x := fun hh => h (hxp p (hh ▸ h3))
      refine ⟨j, hs.inb _ _ h1, hnem _ _ h2, ?_, ?_⟩
      · rw [hsl, he, upd_ne _ _ this]; exact h3
      · rw [hsl, he, upd_ne _ _ this]; exact h4
  · intro y p hy
    rw [he, upd_apply] at hy
    split at hy
    · next h => cases hy; rw [he, h, upd_same, upd_same]
    · next h =>
      rw [he, upd_ne _ _ h]
      have hpq : p ≠ q := fun hh => h (hq y (hh ▸ hy))
      rw [upd_ne _ _ hpq]; exact hw.here y p hy
  · intro y z p hy hz
    rw [he, upd_apply] at hy hz
    split at hy
    · next h =>
      cases hy
      split at hz
      · next h' => rw [h, h']
      · rw [h, hq z hz]
    · next h =>
      split at hz
      · next h' => cases hz; rw [hq y hy, h']
      · exact hw.uniq y z p hy hz
  · have h1 := card_upd m m' x ⟨.key q, v⟩ hx hs.cap he
    have h2 := hw.cn
    rcases ho with ⟨h3, h4⟩ | ⟨h3, -, h4⟩
    · rw [h3] at h1; simp only [isKey, if_true] at h1; omega
    · rw [h3] at h1; simp only [isKey, if_true, Bool.false_eq_true, if_false] at h1; omega

/-- Key `q` is removed. -/
theorem Wf.del {cfg : Cfg K V} {m m' : Map K V} {abs : K → Option V} {q : K} {w : V} {x : Nat}
    (hw : Wf cfg m abs) (hs : Same cfg m m') (hk : (m.ent x).key = .key q)
    (he : m'.ent = upd m.ent x ⟨.tomb, w⟩) (hn : m'.n = m.n - 1) : Wf cfg m' (upd abs q none) := by
  have hx : x < m.cap := hw.lt x q hk
  have hsl := Same.slot (cfg := cfg) hs.mask hs.step
  have hnem : ∀ h k, NE cfg m h k → NE cfg m' h k := by
    intro h k hn j hj
    rw [hsl, he, upd_apply]
    split
    · simp
    · exact hn j hj
  refine ⟨?_, ?_, ?_, ?_, ?_, ?_⟩
  · rw [hs.cap, hs.mask]; exact hw.geo
  · intro y p hy
    rw [he, upd_apply] at hy
    rw [hs.cap]
    split at hy
    · cases hy
    · exact hw.lt y p hy
  · intro p w hp
    rw [upd_apply] at hp
    split at hp
    · cases hp
    · next h =>
      obtain ⟨j, h1, h2, h3, h4⟩ := hw.pos p w hp
      have : slotAt cfg m (cfg.hash p) j ≠ x := fun hh => by
        rw [hh, hk] at h3; cases h3; exact h rfl
      refine ⟨j, hs.inb _ _ h1, hnem _ _ h2, ?_, ?_⟩
      · rw [hsl, he, upd_ne _ _ this]; exact h3
      · rw [hsl, he, upd_ne _ _ this]; exact h4
  · intro y p hy
    rw [he, upd_apply] at hy
    split at hy
    · cases hy
    · next h =>
      rw [he, upd_ne _ _ h]
      have hpq : p ≠ q := fun hh => h (hw.uniq y x q (hh ▸ hy) hk)
      rw [upd_ne _ _ hpq]; exact hw.here y p hy
  · intro y z p hy hz
    rw [he, upd_apply] at hy hz
    split at hy
    · cases hy
    · split at hz
      · cases hz
      · exact hw.uniq y z p hy hz
  · have h1 := card_upd m m' x ⟨.tomb, w⟩ hx hs.cap he
    have h2 := hw.cn
    rw [hk] at h1; simp only [isKey, if_true, Bool.false_eq_true, if_false] at h1; omega

/-! ## Probes -/

theorem InB.le {cfg : Cfg K V} {m : Map K V} {h j k : Nat} (hb : InB cfg m h k) (hj : j ≤ k) : InB cfg m h j := by
  obtain ⟨h1, h2, h3⟩ := hb
  refine ⟨by omega, by omega, fun b hbb => ?_⟩
  rcases h3 b hbb with h | h
  · exact .inl h
  · right; omega

theorem InB.bound {cfg : Cfg K V} {m : Map K V} {h k : Nat} (hb : InB cfg m h k) :
    k < Nat.min (m.len cfg) (bound cfg m h + 1) := by
  obtain ⟨h1, h2, h3⟩ := hb
  have : k < Ht.bound cfg m h + 1 := by
    unfold Ht.bound
    cases hm : m.bnd with
    | none => simp only; omega
    | some b =>
      simp only
      split
      · omega
      · rcases h3 b hm with h | h
        · contradiction
        · omega
  exact Nat.lt_min.2 ⟨h1, this⟩

/-- Where the search for `q` among the first `L` probes ends. -/
inductive Found (cfg : Cfg K V) (m : Map K V) (q : K) (L : Nat) : Option V → Option Nat → Prop
  | here (c : Nat) (v : V) : Pos cfg m q c v → c < L → Found cfg m q L (some v) (some c)
  | empty (c : Nat) : (m.ent (at_ cfg m q c)).key = .empty → NE cfg m (cfg.hash q) c → c < L →
      Found cfg m q L none (some c)
  | full : NE cfg m (cfg.hash q) L → Found cfg m q L none none

theorem Wf.found {cfg : Cfg K V} {m : Map K V} {abs : K → Option V} (hw : Wf cfg m abs) (q : K) (L : Nat)
    (hL : ∀ k, InB cfg m (cfg.hash q) k → k < L) :
    Found cfg m q L (abs q) ((List.range L).find? fun k => stop q (m.ent (slotAt cfg m (cfg.hash q) k)).key) := by
  have hst : ∀ e : Key K, (!stop q e) = true → e ≠ .empty := by
    intro e h he; rw [he] at h; cases h
  cases hf : (List.range L).find? fun k => stop q (m.ent (slotAt cfg m (cfg.hash q) k)).key with
  | none =>
    rw [List.find?_range_eq_none] at hf
    cases ha : abs q with
    | none => exact .full fun j hj => hst _ (hf j hj)
    | some v =>
      obtain ⟨k, h1, h2, h3, h4⟩ := hw.pos q v ha
      have := hf k (hL k h1)
      rw [h3] at this
      simp [stop] at this
  | some c =>
    rw [List.find?_range_eq_some] at hf
    obtain ⟨h1, h2, h3⟩ := hf
    rw [List.mem_range] at h2
    have hne : NE cfg m (cfg.hash q) c := fun j hj => hst _ (h3 j hj)
    cases hk : (m.ent (slotAt cfg m (cfg.hash q) c)).key with
    | tomb => rw [hk] at h1; cases h1
    | empty =>
      cases ha : abs q with
      | none => exact .empty c hk hne h2
      | some v =>
        exfalso
        obtain ⟨k, h4, h5, h6, h7⟩ := hw.pos q v ha
        by_cases hck : c < k
        · exact h5 c hck hk
        · by_cases hkc : k < c
          · have := h3 k hkc; rw [h6] at this; simp [stop] at this
          · have : c = k := by omega
            subst this; rw [h6] at hk; cases hk
    | key p =>
      rw [hk] at h1
      simp only [stop, decide_eq_true_eq] at h1
      subst h1
      have ha := hw.here _ _ hk
      rw [ha]
      refine .here c _ ⟨?_, hne, hk, rfl⟩ h2
      obtain ⟨k, h4, h5, h6, h7⟩ := hw.pos p _ ha
      by_cases hck : c ≤ k
      · exact h4.le hck
      · have := h3 k (by omega); rw [h6] at this; simp [stop] at this

/-- The cursor and the first tombstone before it. -/
structure PWS (cfg : Cfg K V) (m : Map K V) (q : K) (L : Nat) (o : Option V) (r : PW) : Prop where
  cur : Found cfg m q L o r.cur
  pr : ∀ j, r.pr = some j → j < L ∧ NE cfg m (cfg.hash q) j ∧ (m.ent (at_ cfg m q j)).key = .tomb ∧
    ∀ c, r.cur = some c → j < c
  npr : r.pr = none → ∀ j, j < r.cur.getD L → (m.ent (at_ cfg m q j)).key ≠ .tomb

theorem Wf.probeWr {cfg : Cfg K V} {m : Map K V} {abs : K → Option V} (hw : Wf cfg m abs) (q : K) (lim : Option Nat)
    (hlim : lim = none ∨ lim = some (bound cfg m (cfg.hash q))) :
    ∃ L, L ≤ m.len cfg ∧ PWS cfg m q L (abs q) (probeWr cfg m q lim) := by
  have key : ∀ L, (∀ k, InB cfg m (cfg.hash q) k → k < L) → ∀ r : PW,
      r.cur = ((List.range L).find? fun k => stop q (m.ent (slotAt cfg m (cfg.hash q) k)).key) →
      r.pr = ((List.range (r.cur.getD L)).find? fun k => decide ((m.ent (slotAt cfg m (cfg.hash q) k)).key = .tomb)) →
      PWS cfg m q L (abs q) r := by
    intro L hL r hr hp
    have hf := hw.found q L hL
    rw [← hr] at hf
    refine ⟨hf, ?_, ?_⟩
    · intro j hj
      rw [hj, eq_comm, List.find?_range_eq_some] at hp
      obtain ⟨h1, h2, -⟩ := hp
      rw [List.mem_range] at h2
      simp only [decide_eq_true_eq] at h1
      revert h2
      revert hf
      generalize abs q = o
      generalize r.cur = cur
      intro hf
      cases hf with
      | here c v h3 h4 =>
        intro h2
        simp only [Option.getD] at h2
        refine ⟨by omega, fun i hi => h3.2.1 i (by omega), h1, ?_⟩
        intro c' hc; cases hc; exact h2
      | empty c h3 h4 h5 =>
        intro h2
        simp only [Option.getD] at h2
        refine ⟨by omega, fun i hi => h4 i (by omega), h1, ?_⟩
        intro c' hc; cases hc; exact h2
      | full h3 =>
        intro h2
        simp only [Option.getD] at h2
        refine ⟨by omega, fun i hi => h3 i (by omega), h1, ?_⟩
        intro c' hc; cases hc
    · intro hn j hj
      rw [hn, eq_comm, List.find?_range_eq_none] at hp
      have := hp j hj
      simpa [at_] using this
  rcases hlim with rfl | rfl
  · exact ⟨m.len cfg, Nat.le_refl _, key _ (fun k hk => hk.1) _ rfl rfl⟩
  · exact ⟨_, Nat.min_le_left _ _, key _ (fun k hk => hk.bound) _ rfl rfl⟩

theorem Wf.get {cfg : Cfg K V} {m : Map K V} {abs : K → Option V} (hw : Wf cfg m abs) (q : K) :
    get cfg m q = abs q := by
  have h := hw.found q _ fun k hk => hk.bound
  unfold Ht.get probeRd
  revert h
  generalize ((List.range (Nat.min (m.len cfg) (bound cfg m (cfg.hash q) + 1))).find? fun k =>
    stop q (m.ent (slotAt cfg m (cfg.hash q) k)).key) = o
  intro h
  cases hq : abs q with
  | none =>
    rw [hq] at h
    cases h with
    | empty c h1 h2 h3 => simp only [Option.bind_some, valOf, h1]
    | full h1 => rfl
  | some v =>
    rw [hq] at h
    cases h with
    | here c v h1 h2 =>
      have h3 := h1.2.2.1
      have h4 := h1.2.2.2
      simp only [Option.bind_some, valOf, at_, h3, h4]

/-! ## Raising the bounds -/

theorem execs_append (m : Map K V) (l l' : List (Stmt K V)) : execs m (l ++ l') = execs (execs m l) l' := by
  simp only [execs, List.foldl_append]

theorem boundSet_spec (cfg : Cfg K V) (m : Map K V) (h n : Nat) :
    Same cfg m (execs m (boundSet cfg m h n)) ∧ (execs m (boundSet cfg m h n)).ent = m.ent ∧
    (execs m (boundSet cfg m h n)).n = m.n ∧ (execs m (boundSet cfg m h n)).dels = m.dels ∧
    ∀ k, k + 1 ≤ n → k < m.len cfg → InB cfg (execs m (boundSet cfg m h n)) h k := by
  have h1 : ∃ m1, m1 = execs m (if n > m.maxi then [.setMax n] else []) ∧
      m1 = { m with maxi := Nat.max m.maxi n } := by
    refine ⟨_, rfl, ?_⟩
    split
    · next h => simp only [execs, List.foldl, exec]; congr 1; exact (Nat.max_eq_right (by omega)).symm
    · next h => simp only [execs, List.foldl]; cases m; simp only; congr 1; exact (Nat.max_eq_left (by simpa using h)).symm
  obtain ⟨m1, e1, e2⟩ := h1
  have hmax : m.maxi ≤ Nat.max m.maxi n := Nat.le_max_left _ _
  have hmax' : n ≤ Nat.max m.maxi n := Nat.le_max_right _ _
  unfold boundSet
  rw [execs_append, ← e1, e2]
  cases hb : m.bnd with
  | none =>
    show Same cfg m { m with maxi := Nat.max m.maxi n, bnd := none } ∧ _
    refine ⟨⟨rfl, rfl, rfl, rfl, ?_⟩, rfl, rfl, rfl, ?_⟩
    · rintro h k ⟨h1, h2, h3⟩
      exact ⟨h1, Nat.le_trans h2 hmax, by simp⟩
    · intro k hk hl
      exact ⟨hl, Nat.le_trans hk hmax', fun b hb => by cases hb⟩
  | some b =>
    simp only
    split
    · next hlt =>
      show Same cfg m { m with maxi := Nat.max m.maxi n, bnd := some (upd b (h &&& m.mask) (sat cfg n)) } ∧ _
      refine ⟨⟨rfl, rfl, rfl, rfl, ?_⟩, rfl, rfl, rfl, ?_⟩
      · rintro h' k ⟨h1, h2, h3⟩
        refine ⟨h1, Nat.le_trans h2 hmax, ?_⟩
        intro b' hb'
        cases hb'
        have h3 := h3 b hb
        simp only [upd_apply]
        split
        · next he =>
          rw [he] at h3
          unfold sat
          split
          · exact .inl rfl
          · right; rcases h3 with h3 | h3 <;> omega
        · exact h3
      · intro k hk hl
        refine ⟨hl, Nat.le_trans hk hmax', ?_⟩
        intro b' hb'
        cases hb'
        show upd b (h &&& m.mask) (sat cfg n) (h &&& m.mask) = _ ∨ _ ≤ upd b (h &&& m.mask) (sat cfg n) (h &&& m.mask)
        rw [upd_same]
        unfold sat
        split
        · exact .inl rfl
        · right; omega
    · next hge =>
      show Same cfg m { m with maxi := Nat.max m.maxi n, bnd := some b } ∧ _
      refine ⟨⟨rfl, rfl, rfl, rfl, ?_⟩, rfl, rfl, rfl, ?_⟩
      · rintro h' k ⟨h1, h2, h3⟩
        refine ⟨h1, Nat.le_trans h2 hmax, ?_⟩
        intro b' hb'
        cases hb'
        exact h3 b hb
      · intro k hk hl
        refine ⟨hl, Nat.le_trans hk hmax', ?_⟩
        intro b' hb'
        cases hb'
        right
        show k + 1 ≤ b (h &&& m.mask)
        omega

end Verif.Ht
