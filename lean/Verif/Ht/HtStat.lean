import Verif.Ht.HtWit

/-!
# `ck_ht_stat` (C115)

`n_entries` is exact; every key in the table is found within `probe_maximum` probes.  `doc/ck_ht_stat` calls `probe_maximum` the longest
read-side probe sequence; a search that fails may be longer by one (`miss_longer`), but never by more (`reads_le`).
-/

set_option linter.unusedSectionVars false

namespace Verif.Ht

open Verif

variable {K V : Type} [DecidableEq K] [DecidableEq V]

/-- `struct ck_ht_stat`, `include/ck_ht.h`, lines 112-115. -/
structure Stat where
  probe_maximum : Nat
  n_entries : Nat
deriving DecidableEq

/-- `ck_ht_stat`, `src/ck_ht.c`, lines 94-103. -/
def stat (m : Map K V) : Stat := { n_entries := m.n, probe_maximum := m.maxi }

/-- Number of entries that `ck_ht_map_probe_rd` compares with the key, `src/ck_ht.c`, lines 514-566. -/
def reads (cfg : Cfg K V) (m : Map K V) (q : K) : Nat :=
  match probeRd cfg m q with
  | some k => k + 1
  | none => Nat.min (m.len cfg) (bound cfg m (cfg.hash q) + 1)

/-- C115: after every sequence of operations (with the contract of C49 for put) `ck_ht_stat` reports the number of keys, and a search
for a key in the table compares at most `probe_maximum` entries.
Missing: the same bound for searches that fail, for which it is false (`miss_longer`). -/
theorem stat_partial (cfg : Cfg K V) (c : Nat) (ops : List (Op K V × Res V)) (m : Map K V)
    (hh : Hist cfg (create cfg c) ops m) (hk : Keeps ⟨fun _ => none, true⟩ ops) :
    ∃ a, SpecHist ⟨fun _ => none, true⟩ ops a ∧ Size a.map (stat m).n_entries ∧
      ∀ q, a.map q ≠ none → reads cfg m q ≤ (stat m).probe_maximum := by
  obtain ⟨a, h1, h2⟩ := hist_spec ⟨create_wf cfg c, fun _ => create_not cfg c⟩ hh hk
  refine ⟨a, h1, h2.1.count, ?_⟩
  intro q hq
  have h := h2.1.found q _ fun k hk => hk.bound
  unfold reads probeRd
  revert h
  generalize ((List.range (Nat.min (m.len cfg) (bound cfg m (cfg.hash q) + 1))).find? fun k =>
    stop q (m.ent (slotAt cfg m (cfg.hash q) k)).key) = o
  intro h
  cases hv : a.map q with
  | none => exact absurd hv hq
  | some v =>
    rw [hv] at h
    cases h with
    | here c v h1 h2 => exact h1.1.2.1

/-! ## No per-bucket bound is above `probe_maximum` -/

def BLe (m : Map K V) : Prop := ∀ b, m.bnd = some b → ∀ i, i < m.cap → b i ≤ m.maxi

def plain : Stmt K V → Bool
  | .setMax _ | .setBnd _ _ | .publish _ _ => false
  | _ => true

theorem execs_app (m : Map K V) (l l' : List (Stmt K V)) : execs m (l ++ l') = execs (execs m l) l' := List.foldl_append

theorem plain_keeps : ∀ (l : List (Stmt K V)) (m : Map K V), (∀ x ∈ l, plain x = true) →
    (execs m l).bnd = m.bnd ∧ (execs m l).maxi = m.maxi ∧ (execs m l).cap = m.cap
  | [], _, _ => ⟨rfl, rfl, rfl⟩
  | x :: l, m, h => by
    have h1 := plain_keeps l (exec m x) (fun y hy => h y (List.mem_cons_of_mem _ hy))
    have h2 := h x List.mem_cons_self
    show (execs (exec m x) l).bnd = _ ∧ (execs (exec m x) l).maxi = _ ∧ (execs (exec m x) l).cap = _
    rw [h1.1, h1.2.1, h1.2.2]
    cases x <;> simp [plain] at h2 <;> exact ⟨rfl, rfl, rfl⟩

theorem BLe.plain {m : Map K V} (h : BLe m) {l : List (Stmt K V)} (hl : ∀ x ∈ l, plain x = true) : BLe (execs m l) := by
  obtain ⟨h1, h2, h3⟩ := plain_keeps l m hl
  intro b hb i hi
  rw [h1] at hb; rw [h3] at hi; rw [h2]
  exact h b hb i hi

theorem BLe.bound {m : Map K V} (h : BLe m) (cfg : Cfg K V) (hh n : Nat) : BLe (execs m (boundSet cfg m hh n)) := by
  have hm : BLe (execs m (if n > m.maxi then [.setMax n] else [])) ∧
      n ≤ (execs m (if n > m.maxi then [.setMax n] else [])).maxi ∧
      (execs m (if n > m.maxi then [.setMax n] else [])).bnd = m.bnd := by
    split
    · refine ⟨fun b hb i hi => ?_, Nat.le_refl _, rfl⟩
      have : b i ≤ m.maxi := h b hb i hi
      show b i ≤ n
      omega
    · exact ⟨h, by show n ≤ m.maxi; omega, rfl⟩
  unfold boundSet
  rw [execs_app]
  generalize execs m (if n > m.maxi then [.setMax n] else []) = m1 at hm
  obtain ⟨hm1, hm2, hm3⟩ := hm
  cases hb : m.bnd with
  | none => exact hm1
  | some b =>
    simp only
    split
    · intro b' hb' i hi
      simp only [execs, List.foldl, exec, hm3, hb, Option.map_some, Option.some.injEq] at hb'
      subst hb'
      show upd b _ _ i ≤ m1.maxi
      rw [upd_apply]
      split
      · have := (sat_le cfg n).2.1; omega
      · exact hm1 b (hm3.trans hb) i hi
    · exact hm1

theorem ble_create (cfg : Cfg K V) (c : Nat) : BLe (create cfg c) := by
  intro b hb i _
  simp only [create] at hb
  split at hb
  · cases hb; exact Nat.zero_le _
  · cases hb

theorem ble_reinsert {cfg : Cfg K V} {u u' : Map K V} {e : Ent K V} (h : reinsert cfg u e = some u') (hu : BLe u) : BLe u' := by
  unfold reinsert at h
  split at h
  · simp only at h
    split at h
    · cases h
    · cases h
      apply BLe.bound
      exact hu
  · cases h; exact hu

theorem ble_rehash {cfg : Cfg K V} {m : Map K V} : ∀ (ks : List Nat) (u u' : Map K V), rehash cfg m ks u = some u' → BLe u → BLe u'
  | [], _, _, h, hu => by cases h; exact hu
  | k :: ks, u, u', h, hu => by
    simp only [rehash, Option.bind_eq_some_iff] at h
    obtain ⟨u1, h1, h2⟩ := h
    exact ble_rehash ks u1 u' h2 (ble_reinsert h1 hu)

theorem ble_grow {cfg : Cfg K V} {m u : Map K V} : ∀ (al : List Bool) (c : Nat) (al' : List Bool),
    grow cfg m c al = some (some u, al') → BLe u := by
  intro al
  induction al with
  | nil => intro c al' h; unfold grow at h; split at h <;> cases h
  | cons a al ih =>
    intro c al' h
    unfold grow at h
    split at h
    · cases h
    · split at h
      · cases h
      · split at h
        · next u' hu => cases h; exact ble_rehash _ _ _ hu (ble_create cfg c)
        · exact ih _ _ h

theorem ble_postinsert {cfg : Cfg K V} {m : Map K V} {al : List Bool} {l : List (Stmt K V)} (h : postinsert cfg m al = some l)
    (hm : BLe m) : BLe (execs m l) := by
  unfold postinsert at h
  split at h
  · split at h
    · cases h
    · cases h; exact hm
    · next hg => cases h; exact ble_grow _ _ _ hg
  · cases h; exact hm

theorem ble_withRoom {cfg : Cfg K V} {q : K} {f : Map K V → PW → List Bool → Option (List (Stmt K V) × Res V)}
    (hf : ∀ m r al l res, f m r al = some (l, res) → BLe m → BLe (execs m l)) :
    ∀ fuel m al l res, withRoom cfg q f fuel m al = some (l, res) → BLe m → BLe (execs m l) := by
  intro fuel
  induction fuel with
  | zero => intro m al l res h; cases h
  | succ fuel ih =>
    intro m al l res h hm
    unfold withRoom at h
    simp only at h
    split at h
    · split at h
      · cases h
      · cases h; exact hm
      · next u al' hg =>
        rw [Option.map_eq_some_iff] at h
        obtain ⟨⟨l', res'⟩, h1, h2⟩ := h
        cases h2
        exact ih u al' l' res' h1 (ble_grow _ _ _ hg)
    · exact hf _ _ _ _ _ h hm

theorem plain_setStores (cfg : Cfg K V) (q : K) (v : V) (m : Map K V) (r : PW) : ∀ x ∈ setStores cfg q v m r, plain x = true := by
  intro x hx
  unfold setStores at hx
  split at hx <;> (try simp only at hx) <;> (try split at hx) <;> (try split at hx) <;> (try simp at hx) <;>
    grind [plain]

theorem ble_setTail {cfg : Cfg K V} {q : K} {v : V} (m : Map K V) (r : PW) (al : List Bool) (l : List (Stmt K V)) (res : Res V)
    (h : setTail cfg q v m r al = some (l, res)) (hm : BLe m) : BLe (execs m l) := by
  unfold setTail at h
  simp only [Option.map_eq_some_iff] at h
  obtain ⟨l', h1, h2⟩ := h
  cases h2
  rw [execs_app]
  refine ble_postinsert h1 ?_
  rw [execs_app]
  exact (hm.plain (plain_setStores cfg q v m r)).bound cfg _ _

theorem ble_putStores {cfg : Cfg K V} {q : K} {v : V} {m : Map K V} {r : PW} {x : Nat} (hm : BLe m) :
    BLe (execs m (putStores cfg q v m r x)) := by
  unfold putStores
  rw [execs_app, execs_app]
  refine BLe.plain ?_ (by intro y hy; simp at hy; grind [plain])
  split
  · exact (BLe.bound (m := { m with dels := m.dels + 1 }) hm cfg (cfg.hash q) (probesOf r))
  · exact hm.bound cfg _ _

theorem ble_putTail {cfg : Cfg K V} {q : K} {v : V} (m : Map K V) (r : PW) (al : List Bool) (l : List (Stmt K V)) (res : Res V)
    (h : putTail cfg q v m r al = some (l, res)) (hm : BLe m) : BLe (execs m l) := by
  have key : ∀ x, (postinsert cfg (execs m (putStores cfg q v m r x)) al).map
      (fun l' => (putStores cfg q v m r x ++ l', Res.bool true)) = some (l, res) → BLe (execs m l) := by
    intro x h
    rw [Option.map_eq_some_iff] at h
    obtain ⟨l', h1, h2⟩ := h
    cases h2
    rw [execs_app]
    exact ble_postinsert h1 (ble_putStores hm)
  unfold putTail at h
  simp only at h
  split at h
  · exact key _ h
  · split at h
    · cases h; exact hm
    · exact key _ h
  · cases h

theorem plain_move (cfg : Cfg K V) (m : Map K V) (q : K) (r : PW) : ∀ x ∈ moveStores cfg m q r, plain x = true := by
  intro x hx
  unfold moveStores at hx
  split at hx <;> simp at hx
  grind [plain]

/-- The loop of `ck_ht_gc`: `m0` is the map at the start. -/
structure GL (m0 : Map K V) (full : Bool) (g : Gc K V) : Prop where
  m : g.m = execs m0 g.out
  bnd : g.m.bnd = m0.bnd
  cap : g.m.cap = m0.cap
  maxi : g.m.maxi = m0.maxi
  le : ∀ i, g.bnds i ≤ g.maxi
  nf : full = false → g.maxi = m0.maxi

theorem gl_body {cfg : Cfg K V} {m0 : Map K V} {full : Bool} {g : Gc K V} (h : GL m0 full g) (x : Nat) :
    GL m0 full (gcBody cfg full g x) := by
  unfold gcBody
  split
  · exact h
  · split
    · next q hq =>
      simp only
      obtain ⟨p1, p2, p3⟩ := plain_keeps _ g.m
        (plain_move cfg g.m q (probeWr cfg g.m q (some (bound cfg g.m (cfg.hash q)))))
      have hm := h.m
      split
      · next hf =>
        refine ⟨by rw [execs_app, ← hm], p1.trans h.bnd, p3.trans h.cap, p2.trans h.maxi, ?_, fun e => by simp [hf] at e⟩
        intro i
        refine bumpB_le _ _ _ _ _ ?_ ?_
        · have := h.le i; simp only; split <;> omega
        · have := (sat_le cfg (probesOf (probeWr cfg g.m q (some (bound cfg g.m (cfg.hash q)))))).2.1
          simp only; split <;> omega
      · exact ⟨by rw [execs_app, ← hm], p1.trans h.bnd, p3.trans h.cap, p2.trans h.maxi, h.le, h.nf⟩
    · exact h

theorem gl_loop {cfg : Cfg K V} {m0 : Map K V} {full : Bool} : ∀ (xs : List Nat) (g : Gc K V), GL m0 full g →
    GL m0 full (xs.foldl (gcBody cfg full) g)
  | [], _, h => h
  | x :: xs, _, h => gl_loop xs _ (gl_body h x)

theorem ble_gc {cfg : Cfg K V} {m : Map K V} {cycles seed : Nat} {al : List Bool} {l : List (Stmt K V)} {res : Res V}
    (h : gc cfg m cycles seed al = some (l, res)) (hm : BLe m) : BLe (execs m l) := by
  unfold gc at h
  split at h
  · cases h
    show BLe (execs { m with maxi := 0 } _)
    split
    · rw [setBnds (fun _ => 0)]
      intro b hb i hi
      simp only [Option.map_eq_some_iff] at hb
      obtain ⟨b', -, rfl⟩ := hb
      simp [List.mem_range.2 hi]
    · next hn =>
      intro b hb
      exact absurd (by rw [show m.bnd = some b from hb]; rfl) hn
  · simp only at h
    generalize hg : ((List.range m.cap).map fun i => (i + seed) &&& m.mask).foldl (gcBody cfg (decide (cycles = 0)))
      ⟨[], m, cycles, false, if (decide (cycles = 0)) = true then 0 else m.maxi, fun _ => 0⟩ = g at h
    have hl : GL m (decide (cycles = 0)) g := by
      rw [← hg]
      apply gl_loop
      exact ⟨rfl, rfl, rfl, rfl, fun i => Nat.zero_le _, fun e => by simp at e; simp [e]⟩
    have done : BLe (execs m (g.out ++ (if g.maxi ≠ g.m.maxi then [.setMax g.maxi] else []) ++
        (if (decide (cycles = 0)) = true ∧ m.bnd.isSome = true then (List.range m.cap).map fun i => .setBnd i (g.bnds i) else []))) := by
      rw [execs_app, execs_app, ← hl.m]
      have e : execs g.m (if g.maxi ≠ g.m.maxi then [.setMax g.maxi] else []) = { g.m with maxi := g.maxi } := by
        split
        · rfl
        · next e => simp only [ne_eq, not_not] at e; rw [e]; rfl
      rw [e]
      split
      · rw [setBnds]
        intro b hb i hi
        simp only [Option.map_eq_some_iff] at hb
        obtain ⟨b', -, rfl⟩ := hb
        have hi : i < m.cap := by rw [← hl.cap]; exact hi
        simp only [List.mem_range.2 hi, if_true]
        exact hl.le i
      · next hn =>
        intro b hb i hi
        have hb' : m.bnd = some b := by rw [← hl.bnd]; exact hb
        have hf : decide (cycles = 0) = false := by
          cases hd : decide (cycles = 0) with
          | false => rfl
          | true => exact absurd ⟨hd, by rw [hb']; rfl⟩ hn
        show b i ≤ g.maxi
        rw [hl.nf hf]
        exact hm b hb' i (by rw [← hl.cap]; exact hi)
    split at h
    · split at h
      · cases h
      · cases h; exact hm
      · cases h; exact done
    · cases h; exact done

theorem ble_prog {cfg : Cfg K V} {m : Map K V} {op : Op K V} {al : List Bool} {l : List (Stmt K V)} {res : Res V}
    (h : prog cfg m al op = some (l, res)) (hm : BLe m) : BLe (execs m l) := by
  have hr : ∀ c, resetOp cfg c al = some (l, res) → BLe (execs m l) := by
    intro c h
    unfold resetOp at h
    split at h
    · cases h
    · cases h; exact hm
    · cases h; exact ble_create cfg c
  cases op <;> simp only [prog] at h
  case put q v => exact ble_withRoom ble_putTail _ _ _ _ _ h hm
  case set q v => exact ble_withRoom ble_setTail _ _ _ _ _ h hm
  case remove q =>
    unfold remove at h
    split at h
    · cases h; exact hm
    · split at h <;> cases h
      · exact hm
      · exact hm
  case grow c =>
    unfold growOp at h
    split at h
    · cases h
    · cases h; exact hm
    · next hg => cases h; exact ble_grow _ _ _ hg
  case gc c sd => exact ble_gc h hm
  case reset => exact hr _ h
  case resetSize c => exact hr _ h

theorem ble_hist {cfg : Cfg K V} {m m' : Map K V} {ops : List (Op K V × Res V)} (hh : Hist cfg m ops m') (hm : BLe m) : BLe m' := by
  induction hh with
  | nil m => exact hm
  | cons hp hh ih => exact ih (ble_prog hp hm)

/-- C115: no search, whether it finds the key or not, compares more than `probe_maximum + 1` entries. -/
theorem reads_le (cfg : Cfg K V) (c : Nat) (ops : List (Op K V × Res V)) (m : Map K V)
    (hh : Hist cfg (create cfg c) ops m) (hk : Keeps ⟨fun _ => none, true⟩ ops) (q : K) :
    reads cfg m q ≤ (stat m).probe_maximum + 1 := by
  obtain ⟨a, -, h2⟩ := hist_spec ⟨create_wf cfg c, fun _ => create_not cfg c⟩ hh hk
  have hb : bound cfg m (cfg.hash q) ≤ m.maxi := by
    unfold bound
    split
    · exact Nat.le_refl _
    · next b e =>
      split
      · exact Nat.le_refl _
      · exact ble_hist hh (ble_create cfg c) b e _ (h2.1.off_lt _)
  have hl : Nat.min (m.len cfg) (bound cfg m (cfg.hash q) + 1) ≤ m.maxi + 1 :=
    Nat.le_trans (Nat.min_le_right _ _) (by omega)
  unfold reads
  split
  · next k hk' =>
    have := List.mem_range.1 (List.mem_of_find?_eq_some hk')
    exact Nat.le_trans this hl
  · exact hl

/-- Three colliding keys: the last is found by the third probe, and `probe_maximum` is 3. -/
theorem stat_case : ∃ m, Hist wc (create wc 8) [(.put 1 10, .bool true), (.put 2 20, .bool true), (.set 3 30, .val none)] m ∧
    stat m = { probe_maximum := 3, n_entries := 3 } ∧ reads wc m 3 = 3 := by
  have h : (runOps wc (create wc 8) [(.put 1 10, []), (.put 2 20, []), (.set 3 30, [])]).any (fun p =>
      decide (p.2 = [.bool true, .bool true, .val none]) && decide (stat p.1 = { probe_maximum := 3, n_entries := 3 }) &&
      decide (reads wc p.1 3 = 3)) = true := by decide +kernel
  rw [Option.any_eq_true] at h
  obtain ⟨⟨m, rs⟩, h1, h2⟩ := h
  simp only [Bool.and_eq_true, decide_eq_true_eq] at h2
  obtain ⟨⟨h2, h3⟩, h4⟩ := h2
  subst h2
  exact ⟨m, hist_of h1, h3, h4⟩

/-- A search for a key that is not in the table makes more than `probe_maximum` probes. -/
theorem miss_longer : ∃ m, Hist wc (create wc 8) [(.put 1 10, .bool true), (.put 2 20, .bool true), (.set 3 30, .val none)] m ∧
    get wc m 4 = none ∧ (stat m).probe_maximum < reads wc m 4 := by
  have h : (runOps wc (create wc 8) [(.put 1 10, []), (.put 2 20, []), (.set 3 30, [])]).any (fun p =>
      decide (p.2 = [.bool true, .bool true, .val none]) && decide (get wc p.1 4 = none) &&
      decide ((stat p.1).probe_maximum < reads wc p.1 4)) = true := by decide +kernel
  rw [Option.any_eq_true] at h
  obtain ⟨⟨m, rs⟩, h1, h2⟩ := h
  simp only [Bool.and_eq_true, decide_eq_true_eq] at h2
  obtain ⟨⟨h2, h3⟩, h4⟩ := h2
  subst h2
  exact ⟨m, hist_of h1, h3, h4⟩

end Verif.Ht
