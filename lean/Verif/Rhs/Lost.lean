import Verif.Rhs.Wit

/-!
# Robin-hood hash set: an object is lost in a table of 8192 slots (C67)

`CK_RHS_WORD_MAX` is 255 and `probe_limit` is 256: 256 objects with the same hash make the probe bound of that hash
saturate.  When the object with probe number 254 is removed, the backward shift lowers the bound to 254 (lines
1039-1065: the loop that looks for further objects compares with the first offset for a probe number that is one too
small) and moves the last object to probe number 255, which is stored as no bound (line 1039).
-/

set_option linter.unusedSectionVars false

namespace Verif.Rhs

open Verif

/-- Probe sequence. -/
def S (k : Nat) : Nat := sq 4 8192 0 k

theorem geoS : Geo 4 8192 := ⟨by omega, 11, by norm_num⟩

theorem S_lt (k : Nat) : S k < 8192 := geoS.sq_lt 0 k

theorem S_inj {k k' : Nat} (hk : k < 8192) (hk' : k' < 8192) (h : S k = S k') : k = k' := geoS.sq_inj hk hk' h

theorem S_ne {k k' : Nat} (hk : k < 8192) (hk' : k' < 8192) (h : k ≠ k') : S k ≠ S k' := fun he => h (S_inj hk hk' he)

theorem thru_S (p k : Nat) (hk : k < 8192) (hp : p ≤ 8192) : thru 4 8192 0 p (S k) = if k + 1 < p then 1 else 0 := by
  unfold thru
  by_cases h : k + 1 < p
  · rw [if_pos h, if_pos ⟨k, h, rfl⟩]
  · rw [if_neg h, if_neg]
    rintro ⟨j, hj, he⟩
    have := S_inj (by omega) hk he
    omega

/-- Along the probe sequence, `n` slots hold the objects `f 0`, `f 1`, …, with their probe numbers. -/
structure Row (m : Map Nat) (n : Nat) (f : Nat → Nat) : Prop where
  cap : m.cap = 8192
  ent : ∀ k, k < 8192 → m.ent (S k) = if k < n then some (f k) else none
  prb : ∀ k, k < 8192 → m.prb (S k) = if k < n then k + 1 else 0

theorem Row.probe {m : Map Nat} {n : Nat} {f : Nat → Nat} (hr : Row m n f) {q : Nat} {beh : Beh} {l0 opl : Nat} {r : PR Nat}
    (hp : PS cfgId m 0 (fun v => decide (v = q)) beh 0 l0 opl r) (ho : opl ≤ 256) (hb : beh ≠ .rh ∧ beh ≠ .robin) :
    r.pr = none ∧
      ((∃ e, e < opl ∧ e < n ∧ f e = q ∧ r.obj = some q ∧ r.slot = some (S e) ∧ r.n = e + 1) ∨
        (r.obj = none ∧ (∀ j, j < n → j < opl → f j ≠ q) ∧ (n < opl → r.slot = some (S n) ∧ r.n = n + 1))) := by
  obtain ⟨e, -, pocc, pel, ppr, pout⟩ := hp
  rw [hr.cap] at pocc ppr pout
  have hS : ∀ j, sq cfgId.ln 8192 0 j = S j := fun _ => rfl
  simp only [hS] at pocc ppr pout
  have hocc : ∀ j, j < e → j < n ∧ f j ≠ q := by
    intro j hj
    obtain ⟨v, h1, h2⟩ := pocc j hj
    rw [hr.ent j (by omega)] at h1
    split at h1
    · next h3 =>
      have h4 := h2 hb.2
      cases h1
      exact ⟨h3, by simpa using h4⟩
    · cases h1
  have hpr : r.pr = none := by
    cases hq : r.pr with
    | none => rfl
    | some x =>
      rw [hq] at ppr
      obtain ⟨j, -, h1, h2, h3, -, -, h4, h5, -⟩ := ppr
      rw [h3, hr.ent j (by omega)] at h5
      rw [h3, hr.prb j (by omega)] at h4
      split at h4
      · omega
      · next h6 => rw [if_neg h6] at h5; exact absurd rfl h5
  rw [hpr] at ppr pout
  refine ⟨hpr, ?_⟩
  rcases pout with ⟨h1, h2, h3 | h3⟩ | ⟨h1, h2, h3 | h3 | ⟨v, h3, h4, h5, -⟩⟩
  · exact absurd rfl h3.2
  · right
    refine ⟨h1, fun j _ hj => (hocc j (by omega)).2, fun hn => ?_⟩
    have := (hocc n (by omega)).1
    omega
  · right
    have h4 := h3.1
    rw [hr.ent e (by omega)] at h4
    split at h4
    · cases h4
    next h5 =>
    refine ⟨h3.2, fun j hj _ => (hocc j (by omega)).2, fun hn => ?_⟩
    have : e = n := by
      by_contra hne
      have := (hocc n (by omega)).1
      omega
    rw [← this]
    exact ⟨h2, ppr⟩
  · cases h3.2.1
  · left
    rw [hr.ent e (by omega)] at h3
    split at h3
    · next h6 =>
      cases h3
      have h7 : f e = q := by simpa using h4
      exact ⟨e, h1, h6, h7, by rw [h5, h7], h2, ppr⟩
    · cases h3

/-- The table after `i` insertions. -/
structure Fill (m : Map Nat) (i : Nat) : Prop where
  row : Row m i (fun k => k)
  limit : m.limit = 256
  pmax : m.pmax = i
  n : m.n = i
  maxEnt : m.maxEnt = 4096
  wnt : ∀ k, k < 8192 → m.wnt (S k) = i - 1 - k
  bnd : m.bnd 0 = min i 255

theorem fill_zero : Fill (create 50 8192) 0 := by
  have hc : capOf 8192 = 8192 := by decide +kernel
  refine ⟨⟨hc, fun k _ => rfl, fun k _ => rfl⟩, ?_, rfl, rfl, ?_, fun k _ => ?_, rfl⟩
  · show Nat.min (Nat.max (capOf 8192 >>> 5) 64) (2 ^ 32 - 1) = 256
    rw [hc]; decide
  · show capOf 8192 * 50 / 100 = 4096
    rw [hc]
  · show 0 = _
    omega

theorem Fill.bound {m : Map Nat} {i : Nat} (h : Fill m i) (hi : i ≤ 256) : boundGet cfgId m 0 = i := by
  unfold boundGet
  rw [if_neg (by simp [cfgId]), Nat.zero_mod, h.bnd, h.pmax]
  show (if min i 255 = 255 then i else min i 255) = i
  split <;> omega

theorem upd_S {α : Type} (f : Nat → α) {k j : Nat} (v : α) (hk : k < 8192) (hj : j < 8192) :
    upd f (S j) v (S k) = if k = j then v else f (S k) := by
  rw [upd_apply]
  by_cases h : k = j
  · rw [if_pos (by rw [h]), if_pos h]
  · rw [if_neg (S_ne hk hj h), if_neg h]

theorem fill_step {m : Map Nat} {i : Nat} (h : Fill m i) (hi : i < 256) :
    ∃ m', step cfgId ⟨m, 50⟩ [] (.put i) = .ok (⟨m', 50⟩, .bool true) ∧ Fill m' (i + 1) := by
  have hb := h.bound (by omega)
  have hl0 : lim0 cfgId m i .insert m.limit = i := by
    show (if _ then boundGet cfgId m 0 else _) = i
    rw [if_pos ⟨rfl, rfl⟩, hb]
  obtain ⟨r, hr, hps⟩ := probe_spec cfgId m i .insert m.limit (by rw [hl0, h.limit]; omega)
  obtain ⟨r1, h1 | ⟨r2, -, h1⟩⟩ := h.row.probe (q := i) hps (by rw [h.limit]) (by simp)
  · obtain ⟨e, -, h2, h3, -⟩ := h1
    omega
  obtain ⟨r3, r4⟩ := h1 (by rw [h.limit]; omega)
  have hcap := h.row.cap
  -- the bounds
  have hbs : boundSet cfgId m 0 (i + 1) = { m with pmax := i + 1, bnd := upd m.bnd 0 (min (i + 1) 255) } := by
    unfold boundSet
    simp only
    rw [if_pos (show i + 1 > m.pmax by rw [h.pmax]; omega), if_neg (show ¬ cfgId.rm = true by simp [cfgId])]
    have hlt : m.bnd (0 % m.cap) < i + 1 := by rw [Nat.zero_mod, h.bnd]; omega
    refine (if_pos hlt).trans ?_
    simp only [Nat.zero_mod]
    have : (if i + 1 > cfgId.wmax then cfgId.wmax else i + 1) = min (i + 1) 255 := by
      show (if i + 1 > 255 then 255 else i + 1) = _
      split <;> omega
    rw [this]
  -- the counters
  obtain ⟨w', a1, a2⟩ := addWanted_new (cfg := cfgId)
    (m := { m with pmax := i + 1, bnd := upd m.bnd 0 (min (i + 1) 255), ent := upd m.ent (S i) (some i), prb := upd m.prb (S i) (i + 1) })
    (by show Geo 4 m.cap; rw [hcap]; exact geoS) 0 i (by show i < m.cap; rw [hcap]; omega) (by
      intro o ho
      have ho : o < 8192 := by have ho : o < m.cap := ho; omega
      obtain ⟨k, hk, rfl⟩ := geoS.sq_surj 0 o ho
      show m.wnt (S k) < _
      rw [h.wnt k hk]; omega)
  have hsq : sq cfgId.ln m.cap 0 i = S i := by rw [hcap]; rfl
  have a1 : addWanted cfgId { m with pmax := i + 1, bnd := upd m.bnd 0 (min (i + 1) 255), ent := upd m.ent (S i) (some i), prb := upd m.prb (S i) (i + 1) }
      (S i) none 0 = .ok { m with pmax := i + 1, bnd := upd m.bnd 0 (min (i + 1) 255), ent := upd m.ent (S i) (some i), prb := upd m.prb (S i) (i + 1), wnt := w' } := by
    have := a1
    simp only at this
    rw [hsq] at this
    exact this
  have a2 : ∀ o, w' o = m.wnt o + thru 4 8192 0 (i + 1) o := by
    intro o
    have := a2 o
    simp only at this
    rw [hcap] at this
    exact this
  refine ⟨{ m with pmax := i + 1, bnd := upd m.bnd 0 (min (i + 1) 255), ent := upd m.ent (S i) (some i), prb := upd m.prb (S i) (i + 1), wnt := w', n := m.n + 1 }, ?_, ?_⟩
  · show (withRoom cfgId 50 i .insert false (putF i) 1 m []).map _ = _
    have hwr : withRoom cfgId 50 i .insert false (putF i) 1 m [] = .ok ({ m with pmax := i + 1, bnd := upd m.bnd 0 (min (i + 1) 255), ent := upd m.ent (S i) (some i), prb := upd m.prb (S i) (i + 1), wnt := w', n := m.n + 1 }, .bool true) := by
      unfold withRoom
      simp only [bind, Except.bind]
      rw [hr]
      simp only
      rw [if_neg (by rw [r3]; simp), r2]
      simp only [putF]
      have hpl : place cfgId false m r i = .ok (.done { m with pmax := i + 1, bnd := upd m.bnd 0 (min (i + 1) 255), ent := upd m.ent (S i) (some i), prb := upd m.prb (S i) (i + 1), wnt := w' }) := by
        unfold place
        simp only [bind, Except.bind]
        rw [r1, r3, r4, r2]
        simp only [Option.isSome_none, Bool.false_eq_true, if_false]
        rw [show cfgId.hash (cfgId.key i) = 0 from rfl, hbs]
        simp only
        rw [a1]
        rfl
      rw [hpl]
      simp only [Option.isSome_none, Bool.false_eq_true, if_false]
      unfold postinsert
      simp only [bind, Except.bind]
      rw [if_neg (by rw [h.n, h.maxEnt]; omega)]
      rfl
    rw [hwr]
    rfl
  · refine ⟨⟨hcap, fun k hk => ?_, fun k hk => ?_⟩, h.limit, rfl, ?_, h.maxEnt, fun k hk => ?_, ?_⟩
    · show upd m.ent (S i) (some i) (S k) = _
      rw [upd_S _ _ hk (by omega), h.row.ent k hk]
      by_cases h2 : k = i
      · rw [if_pos h2, if_pos (by omega), h2]
      · rw [if_neg h2]
        by_cases h3 : k < i
        · rw [if_pos h3, if_pos (by omega)]
        · rw [if_neg h3, if_neg (by omega)]
    · show upd m.prb (S i) (i + 1) (S k) = _
      rw [upd_S _ _ hk (by omega), h.row.prb k hk]
      by_cases h2 : k = i
      · rw [if_pos h2, if_pos (by omega), h2]
      · rw [if_neg h2]
        by_cases h3 : k < i
        · rw [if_pos h3, if_pos (by omega)]
        · rw [if_neg h3, if_neg (by omega)]
    · show m.n + 1 = _
      rw [h.n]
    · show w' (S k) = _
      rw [a2, h.wnt k hk, thru_S _ _ hk (by omega)]
      split
      · omega
      · omega
    · exact upd_same m.bnd 0 _

theorem Hist.snoc {K V : Type} [DecidableEq K] [DecidableEq V] {cfg : Cfg K V} {B : Nat} {s s1 s2 : Hs V} {ops : List (Op K V × Res V)}
    {al : Alloc} {op : Op K V} {res : Res V} (h : Hist cfg B s ops s1) (ha : Small B al) (hs : step cfg s1 al op = .ok (s2, res)) :
    Hist cfg B s (ops ++ [(op, res)]) s2 := by
  induction h with
  | nil s => exact .cons ha hs (.nil _)
  | cons a b _ ih => exact .cons a b (ih hs)

/-- The history that fills the table. -/
def fillOps (i : Nat) : List (Op Nat Nat × Res Nat) := (List.range i).map fun j => (.put j, .bool true)

theorem fill_hist : ∀ i, i ≤ 256 → ∃ m, Fill m i ∧ Hist cfgId 8192 (init 8192) (fillOps i) ⟨m, 50⟩ := by
  intro i
  induction i with
  | zero => intro _; exact ⟨_, fill_zero, .nil _⟩
  | succ i ih =>
    intro hi
    obtain ⟨m, h1, h2⟩ := ih (by omega)
    obtain ⟨m', h3, h4⟩ := fill_step h1 (by omega)
    refine ⟨m', h4, ?_⟩
    unfold fillOps
    rw [List.range_succ, List.map_append]
    exact h2.snoc (fun a ha => by cases ha) h3

/-! ## The removal -/

theorem findSucc_in {V : Type} (L : Nat) (m : Map V) (slot : Nat) : ∀ (r i i' o p : Nat), findSucc L m slot r i = some (i', o, p) →
    findIn L m (m.pmax - i') (next L m.cap slot i') i' = some (o, p) := by
  intro r
  induction r with
  | zero => intro i i' o p h; cases h
  | succ r ih =>
    intro i i' o p h
    unfold findSucc at h
    cases he : findIn L m (m.pmax - i) (next L m.cap slot i) i with
    | none => rw [he] at h; exact ih _ _ _ _ h
    | some x =>
      obtain ⟨o1, p1⟩ := x
      rw [he] at h
      cases h
      exact he

theorem findSucc_row {m : Map Nat} (hcap : m.cap = 8192) (hpm : m.pmax = 256)
    (hprb : ∀ k, k < 8192 → m.prb (S k) = if k < 256 then k + 1 else 0) {t : Nat} (ht : t < 255) :
    findSucc 4 m (S t) 255 1 = some (t + 1, S (t + 1), t + 1) := by
  have hsp := findSucc_spec (L := 4) m (by rw [hcap]; exact geoS) (slot := S t) (by rw [hcap]; exact S_lt t) 255 0
  rw [Nat.zero_add] at hsp
  cases hf : findSucc 4 m (S t) 255 1 with
  | none =>
    rw [hf] at hsp
    simp only at hsp
    rw [hcap, hpm] at hsp
    have := hsp 0 t (t + 1) (by omega) (by omega) rfl (by omega) (by omega)
    exact absurd ((hprb (t + 1) (by omega)).trans (by rw [if_pos (by omega)])) this
  | some x =>
    obtain ⟨i', o, p⟩ := x
    have hin := findSucc_in _ _ _ _ _ _ _ _ hf
    rw [hf] at hsp
    simp only at hsp
    rw [hcap, hpm] at hsp
    obtain ⟨h1, h2, h3, h4, h, h5, h6⟩ := hsp
    obtain ⟨k, hk, hko⟩ := geoS.sq_surj 0 o (by rw [h6]; exact geoS.sq_lt _ _)
    have hko : S k = o := hko
    rw [← hko, hprb k hk] at h4
    have hkp : k = p := by
      split at h4 <;> omega
    have hh : h % 8192 = 0 % 8192 := geoS.sq_home (k := p) (by rw [← h6, ← hko, hkp]; rfl)
    rw [sq_congr hh] at h5
    have hi := S_inj (k := i' - 1) (k' := t) (by omega) (by omega) h5
    have hi : i' = t + 1 := by omega
    subst hi
    rw [hcap, hpm] at hin
    have hnx : next 4 8192 (S t) (t + 1) = S (t + 1) := rfl
    rw [hnx, show 256 - (t + 1) = (254 - t) + 1 by omega] at hin
    unfold findIn at hin
    rw [if_pos (by rw [hprb (t + 1) (by omega), if_pos (by omega)])] at hin
    cases hin
    rfl

/-- One round of the backward shift. -/
theorem shift_round {m : Map Nat} (hcap : m.cap = 8192) (hpm : m.pmax = 256)
    (hprb : ∀ k, k < 8192 → m.prb (S k) = if k < 256 then k + 1 else 0) {t : Nat} (ht : t < 255) (hw : 0 < m.wnt (S t))
    (hw2 : m.wnt (S t) < 65535) (fuel h : Nat) (m' : Map Nat)
    (e : Nat → Option Nat) (hent : e = upd m.ent (S t) (m.ent (S (t + 1)))) (hsh : shrink cfgId { m with ent := e } 0 (t + 1) (S (t + 1)) (t + 1) = m') (hwn : m'.wnt = m.wnt) :
    shift cfgId (fuel + 1) m (S t) h = shift cfgId fuel { m' with wnt := upd m.wnt (S t) (m.wnt (S t) - 1) } (S (t + 1)) 0 := by
  have hup : upd m.prb (S t) (t + 1) = m.prb := by
    have := hprb t (by omega)
    rw [if_pos (by omega)] at this
    rw [← this]; exact upd_eq_self _ _
  have hrw : remWanted cfgId m (S (t + 1)) (some (S t)) = (m, 0) := by
    obtain ⟨w', r1, r2⟩ := remWanted_move (cfg := cfgId) (m := m) (h := 0) (k := t + 1) (i := t) (o := S (t + 1)) (slot := S t)
      (by rw [hcap]; exact geoS) (by rw [hcap]; omega) (by rw [hcap]; rfl) (by rw [hprb _ (by omega), if_pos (by omega)]) (by omega)
      (by rw [hcap]; rfl) (by intro j h1 h2; omega)
    have : w' = m.wnt := by
      funext o
      have := r2 o
      rw [show t + 1 + 1 = t + 2 from rfl] at this
      omega
    rw [r1, this, Nat.zero_mod]
  rw [shift, if_pos hw]
  have hfs : findSucc cfgId.ln m (S t) (m.pmax - 1) 1 = some (t + 1, S (t + 1), t + 1) := by
    rw [hpm]; exact findSucc_row hcap hpm hprb ht
  rw [hfs]
  simp only
  rw [hup]
  have hrw' : remWanted cfgId { m with prb := m.prb } (S (t + 1)) (some (S t)) = (m, 0) := hrw
  rw [hrw']
  simp only
  rw [← hent, hsh, hwn, if_pos hw2]

theorem first_255 : first 4 8192 (S 255) 255 ≠ 0 := by decide +kernel

theorem remove_253 {m : Map Nat} (h : Fill m 256) : ∃ m', step cfgId ⟨m, 50⟩ [] (.remove 253) = .ok (⟨m', 50⟩, .obj (some 253)) ∧
    Row m' 255 (fun k => if k < 253 then k else k + 1) ∧ m'.bnd 0 = 254 ∧ m'.n = 255 := by
  have hcap := h.row.cap
  have hb := h.bound (by omega)
  have hrow := h.row.prb
  -- the probe
  have hl0 : lim0 cfgId m 253 .noRh (boundGet cfgId m (cfgId.hash 253)) = 256 := by
    show (if _ then _ else boundGet cfgId m 0) = 256
    rw [if_neg (by simp), hb]
  obtain ⟨r, hr, hps⟩ := probe_spec cfgId m 253 .noRh (boundGet cfgId m (cfgId.hash 253)) (by rw [hl0]; exact hb.ge)
  obtain ⟨r1, h1 | ⟨-, h1, -⟩⟩ := h.row.probe (q := 253) hps (by exact hb.le) (by simp)
  swap
  · exact absurd rfl (h1 253 (by omega) (by show 253 < boundGet cfgId m 0; rw [hb]; omega))
  obtain ⟨e, -, -, h3, h4, h5, -⟩ := h1
  subst h3
  -- the counters
  obtain ⟨w', t1, t2⟩ := remWanted_take (cfg := cfgId) (m := { m with n := m.n - 1 }) (h := 0) (k := 253) (o := S 253)
    (by show Geo 4 m.cap; rw [hcap]; exact geoS) (by show 253 < m.cap; rw [hcap]; omega) (by show sq 4 m.cap 0 253 = _; rw [hcap]; rfl)
    (by show m.prb (S 253) = _; rw [hrow _ (by omega)]; rfl)
    (by
      intro i hi
      show 1 ≤ m.wnt (sq 4 m.cap 0 i) ∧ m.wnt (sq 4 m.cap 0 i) < 65535
      rw [hcap]
      have := h.wnt i (by omega)
      unfold S at this
      rw [this]; omega)
  have hw : ∀ k, k < 8192 → w' (S k) = 255 - k - if k < 253 then 1 else 0 := by
    intro k hk
    have h1 := t2 (S k)
    simp only at h1
    rw [hcap] at h1
    have h2 := thru_S 254 k hk (by omega)
    rw [show cfgId.ln = 4 from rfl, h2, h.wnt k hk] at h1
    split at h1
    · rw [if_pos (by omega)]; omega
    · rw [if_neg (by omega)]; omega
  have S0 : S 0 = 0 := rfl
  -- the two rounds
  have hd : ∃ m', delete cfgId { m with n := m.n - 1 } (S 253) = .ok m' ∧ Row m' 255 (fun k => if k < 253 then k else k + 1) ∧
      m'.bnd 0 = 254 ∧ m'.n = 255 := by
    obtain ⟨e1, ee1⟩ : ∃ w : Nat → Option Nat, w = upd m.ent (S 253) (m.ent (S 254)) := ⟨_, rfl⟩
    obtain ⟨e2, ee2⟩ : ∃ w : Nat → Option Nat, w = upd e1 (S 254) (e1 (S 255)) := ⟨_, rfl⟩
    obtain ⟨b1, eb1⟩ : ∃ w : Nat → Nat, w = upd m.bnd 0 254 := ⟨_, rfl⟩
    obtain ⟨w1, ew1⟩ : ∃ w : Nat → Nat, w = upd w' (S 253) (w' (S 253) - 1) := ⟨_, rfl⟩
    obtain ⟨w2, ew2⟩ : ∃ w : Nat → Nat, w = upd w1 (S 254) (w1 (S 254) - 1) := ⟨_, rfl⟩
    have hsh1 : shrink cfgId { m with n := m.n - 1, wnt := w', ent := e1 } 0 254 (S 254) 254 =
        { m with n := m.n - 1, wnt := w', ent := e1, bnd := b1 } := by
      rw [eb1]
      unfold shrink
      have c1 : (254 : Nat) < cfgId.wmax := by decide
      have c2 : ¬ w' 0 = 1 := by rw [← S0, hw 0 (by omega)]; simp
      have c3 : m.bnd 0 = cfgId.wmax := by rw [h.bnd]; rfl
      rw [if_pos c1]
      refine (if_neg c2).trans ?_
      refine (if_pos (.inl c3)).trans ?_
      have c4 : (if m.bnd 0 = cfgId.wmax then m.pmax else m.bnd 0 - 1) = 256 := by rw [if_pos c3, h.pmax]
      simp only
      rw [c4]
      refine if_pos ⟨by omega, ?_⟩
      rw [hcap]
      have hn : next 4 8192 (S 254) (254 + 1) = S 255 := rfl
      rw [show cfgId.ln = 4 from rfl, hn]
      show scan 4 8192 0 1 (S 255) 255 = true
      unfold scan
      rw [if_neg first_255.symm]
      rfl
    have hsh2 : shrink cfgId { m with n := m.n - 1, wnt := w1, ent := e2, bnd := b1 } 0 255 (S 255) 255 =
        { m with n := m.n - 1, wnt := w1, ent := e2, bnd := b1 } := by
      unfold shrink
      exact if_neg (by decide)
    have hw253 : w' (S 253) = 2 := by rw [hw 253 (by omega)]; rfl
    have hw254 : w1 (S 254) = 1 := by
      rw [ew1, upd_S _ _ (by omega) (by omega), if_neg (by omega), hw 254 (by omega)]; rfl
    have hw255 : w2 (S 255) = 0 := by
      rw [ew2, upd_S _ _ (by omega) (by omega), if_neg (by omega), ew1, upd_S _ _ (by omega) (by omega), if_neg (by omega), hw 255 (by omega)]; rfl
    have hshift : shift cfgId (m.cap * (m.limit + 1) + 1) { m with n := m.n - 1, wnt := w' } (S 253) 0 =
        .ok ({ m with n := m.n - 1, wnt := w2, ent := e2, bnd := b1 }, S 255, 0) := by
      have hfuel : m.cap * (m.limit + 1) + 1 = (2105342 + 1 + 1) + 1 := by rw [hcap, h.limit]
      rw [hfuel]
      rw [shift_round (m := { m with n := m.n - 1, wnt := w' }) (t := 253) hcap h.pmax hrow (by omega) (by show 0 < w' (S 253); rw [hw253]; decide)
        (by show w' (S 253) < 65535; rw [hw253]; decide) _ 0 _ _ ee1 hsh1 rfl]
      simp only
      rw [← ew1]
      rw [shift_round (m := { m with n := m.n - 1, wnt := w1, ent := e1, bnd := b1 }) (t := 254) hcap h.pmax hrow (by omega)
        (by show 0 < w1 (S 254); rw [hw254]; decide) (by show w1 (S 254) < 65535; rw [hw254]; decide) _ 0 _ _ ee2 hsh2 rfl]
      simp only
      rw [← ew2]
      rw [shift]
      exact if_neg (by show ¬ w2 (S 255) > 0; rw [hw255]; decide)
    have hclear : clear cfgId { m with n := m.n - 1, wnt := w2, ent := e2, bnd := b1 } (S 255) 0 =
        { m with n := m.n - 1, wnt := w2, ent := upd e2 (S 255) none, bnd := b1, prb := upd m.prb (S 255) 0 } := by
      unfold clear
      have hp : m.prb (S 255) = 256 := by rw [hrow _ (by omega)]; rfl
      have : ¬(1 ≤ m.prb (S 255) ∧ m.prb (S 255) - 1 < cfgId.wmax) := by rw [hp]; decide
      simp only
      rw [if_neg this]
    refine ⟨{ m with n := m.n - 1, wnt := w2, ent := upd e2 (S 255) none, bnd := b1, prb := upd m.prb (S 255) 0 }, ?_, ?_, ?_, ?_⟩
    · unfold delete
      simp only [bind, Except.bind]
      rw [t1]
      simp only [Nat.zero_mod]
      rw [hshift]
      simp only
      rw [hclear]
    · refine ⟨hcap, fun k hk => ?_, fun k hk => ?_⟩
      · show upd e2 (S 255) none (S k) = _
        have he : ∀ j, j < 8192 → m.ent (S j) = if j < 256 then some j else none := h.row.ent
        have q1 : e1 (S 255) = some 255 := by
          rw [ee1, upd_S _ _ (by omega) (by omega), if_neg (by omega), he 255 (by omega)]; rfl
        rw [upd_S _ _ hk (by omega)]
        by_cases k5 : k = 255
        · rw [if_pos k5, if_neg (by omega)]
        rw [if_neg k5]
        rw [ee2, upd_S _ _ hk (by omega)]
        by_cases k4 : k = 254
        · rw [if_pos k4, q1, k4]; rfl
        rw [if_neg k4]
        rw [ee1, upd_S _ _ hk (by omega)]
        by_cases k3 : k = 253
        · rw [if_pos k3, he 254 (by omega), k3]; rfl
        rw [if_neg k3, he k hk]
        by_cases k2 : k < 253
        · rw [if_pos (by omega), if_pos (by omega), if_pos k2]
        · rw [if_neg (by omega), if_neg (by omega)]
      · show upd m.prb (S 255) 0 (S k) = _
        rw [upd_S _ _ hk (by omega), hrow k hk]
        by_cases k5 : k = 255
        · rw [if_pos k5, if_neg (by omega)]
        rw [if_neg k5]
        by_cases k2 : k < 255
        · rw [if_pos (by omega), if_pos (by omega)]
        · rw [if_neg (by omega), if_neg (by omega)]
    · show b1 0 = 254
      rw [eb1, upd_same]
    · show m.n - 1 = 255
      rw [h.n]
  obtain ⟨m', d1, d2, d3, d4⟩ := hd
  refine ⟨m', ?_, d2, d3, d4⟩
  show (remove cfgId m 253).map _ = _
  have : remove cfgId m 253 = .ok (m', .obj (some 253)) := by
    unfold remove
    simp only [bind, Except.bind]
    rw [hr]
    simp only
    rw [h4, h5]
    simp only
    rw [d1]
    rfl
  rw [this]
  rfl

/-- C67 fails in a table of 8192 slots in the default mode: after `ck_rhs_put` of 256 objects with the same hash (all
succeed) and `ck_rhs_remove` of the object 253, `ck_rhs_get` does not find object 255, which has not been removed and
which `ck_rhs_next` still yields. -/
theorem lost_object : ∃ s, Hist cfgId 8192 (init 8192) (fillOps 256 ++ [(.remove 253, .obj (some 253))]) s ∧
    Keeps cfgId (fun _ => none) (fillOps 256 ++ [(.remove 253, .obj (some 253))]) ∧
    get cfgId s.m 255 = .ok none ∧ 255 ∈ iterate s.m (s.m.cap + 1) 0 ∧ count s = 255 := by
  obtain ⟨m, h1, h2⟩ := fill_hist 256 (Nat.le_refl _)
  obtain ⟨m', h3, h4, h5, h6⟩ := remove_253 h1
  refine ⟨⟨m', 50⟩, h2.snoc (fun a ha => by cases ha) h3, keeps_free rfl ?_, ?_, ?_, h6⟩
  · intro op hop
    simp only [fillOps, List.map_append, List.map_map, List.mem_append, List.mem_map, List.mem_range, List.map_cons, List.map_nil,
      List.mem_singleton, Function.comp_apply] at hop
    rcases hop with ⟨j, -, rfl⟩ | rfl
    · intro cfg a; trivial
    · intro cfg a; trivial
  · have hb : boundGet cfgId m' 0 = 254 := by
      unfold boundGet
      rw [if_neg (by simp [cfgId]), Nat.zero_mod, h5]
      rfl
    have hl0 : lim0 cfgId m' 255 .noRh (boundGet cfgId m' (cfgId.hash 255)) = 254 := by
      show (if _ then _ else boundGet cfgId m' 0) = 254
      rw [if_neg (by simp), hb]
    obtain ⟨r, hr, hps⟩ := probe_spec cfgId m' 255 .noRh (boundGet cfgId m' (cfgId.hash 255)) (by rw [hl0]; exact hb.ge)
    obtain ⟨-, g1 | ⟨g1, -⟩⟩ := h4.probe (q := 255) hps (by show boundGet cfgId m' 0 ≤ 256; omega) (by simp)
    · obtain ⟨e, e1, e2, e3, -⟩ := g1
      have e1 : e < boundGet cfgId m' 0 := e1
      split at e3 <;> omega
    · show (probe cfgId m' 255 .noRh _).map _ = _
      rw [hr]
      show Except.ok r.obj = _
      rw [g1]
  · rw [iterate_eq m' _ 0 (Nat.lt_succ_self _), List.drop_zero, List.mem_filterMap]
    refine ⟨S 254, List.mem_range.2 (by rw [h4.cap]; exact S_lt _), ?_⟩
    rw [h4.ent 254 (by omega)]
    rfl

end Verif.Rhs
