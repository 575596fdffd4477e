import Verif.Ht.HtInv

/-!
# Hash table: the sequential specification (C49)
-/

set_option linter.unusedSectionVars false

namespace Verif.Ht

open Verif

variable {K V : Type} [DecidableEq K] [DecidableEq V]

/-! ## Specification: a map from keys to values -/

/-- The map, and whether nothing was removed since the table was created, grown or reset on request. -/
structure Abs (K V : Type) where
  map : K → Option V
  fresh : Bool

/-- What the user must observe; `ck_ht_put_spmc` does not promise this (see `put_duplicates`). -/
def Contract (a : Abs K V) : Op K V → Prop
  | .put q _ => a.map q = none ∨ a.fresh = true
  | _ => True

instance (a : Abs K V) (op : Op K V) : Decidable (Contract a op) := by
  cases op <;> unfold Contract <;> infer_instance

/-- Result and effect of an operation. -/
def Spec (a : Abs K V) : Op K V → Res V → Abs K V → Prop
  | .put q v, .bool true, b => a.map q = none ∧ b = ⟨upd a.map q (some v), a.fresh⟩
  | .put q _, .bool false, b => a.map q ≠ none ∧ b = a
  | .put q _, .denied, b => a.map q = none ∧ b = a
  | .set q v, .val o, b => o = a.map q ∧ b = ⟨upd a.map q (some v), a.fresh⟩
  | .set q _, .denied, b => a.map q = none ∧ b = a
  | .remove q, .val o, b => o = a.map q ∧ b = ⟨upd a.map q none, a.fresh && o.isNone⟩
  | .grow _, .bool true, b => b = ⟨a.map, true⟩
  | .grow _, .denied, b => b = a
  | .gc _ _, .bool true, b => b = a
  | .gc _ _, .denied, b => b = a
  | .reset, .bool true, b => b = ⟨fun _ => none, true⟩
  | .reset, .denied, b => b = a
  | .resetSize _, .bool true, b => b = ⟨fun _ => none, true⟩
  | .resetSize _, .denied, b => b = a
  | _, _, _ => False

/-- `n` is the number of keys of `abs`. -/
def Size (abs : K → Option V) (n : Nat) : Prop :=
  ∃ l : List K, l.Nodup ∧ (∀ q, q ∈ l ↔ abs q ≠ none) ∧ l.length = n

/-- The model implements `a`. -/
def Rep (cfg : Cfg K V) (m : Map K V) (a : Abs K V) : Prop := Wf cfg m a.map ∧ (a.fresh = true → NoT m)

/-! ## `ck_ht_grow_spmc` -/

theorem Wf.mem_iff {cfg : Cfg K V} {m : Map K V} {abs : K → Option V} (hw : Wf cfg m abs) (q : K) (v : V) :
    abs q = some v ↔ ∃ x, x < m.cap ∧ (m.ent x).key = .key q ∧ (m.ent x).val = v := by
  constructor
  · intro h
    obtain ⟨k, -, -, h1, h2⟩ := hw.pos q v h
    exact ⟨_, hw.lt _ _ h1, h1, h2⟩
  · rintro ⟨x, -, h1, h2⟩
    rw [hw.here x q h1, h2]

theorem reinsert_spec {cfg : Cfg K V} {u u' : Map K V} {abs : K → Option V} {q : K} {e : Ent K V}
    (hw : Wf cfg u abs) (hn : NoT u) (ha : abs q = none) (he : e.key = .key q) (h : reinsert cfg u e = some u') :
    Wf cfg u' (upd abs q (some e.val)) ∧ NoT u' := by
  unfold reinsert at h
  rw [he] at h
  simp only at h
  split at h
  · cases h
  · next k hk =>
    rw [List.find?_range_eq_some] at hk
    obtain ⟨h1, h2, h3⟩ := hk
    rw [List.mem_range] at h2
    simp only [decide_eq_true_eq, Bool.not_eq_true', decide_eq_false_iff_not] at h1 h3
    cases h
    obtain ⟨b1, b2, b3, -, b4⟩ := boundSet_spec cfg { u with ent := upd u.ent (slotAt cfg u (cfg.hash q) k) e, n := u.n + 1 } (cfg.hash q) (k + 1)
    have hs : Same cfg u { u with ent := upd u.ent (slotAt cfg u (cfg.hash q) k) e, n := u.n + 1 } :=
      ⟨rfl, rfl, rfl, rfl, fun _ _ h => h⟩
    have hee : e = ⟨.key q, e.val⟩ := by cases e; simp only at he; rw [he]
    refine ⟨hw.put ⟨b1.cap, b1.mask, b1.step, b1.limit, fun _ _ h => b1.inb _ _ (hs.inb _ _ h)⟩ rfl
      (by rw [b2, ← hee]) (b4 k (Nat.le_refl _) h2) (fun j hj => h3 j hj) (.inr ⟨by rw [h1]; rfl, ha, b3⟩), ?_⟩
    intro x
    rw [b2]
    simp only [upd_apply]
    split
    · rw [he]; simp
    · exact hn x

theorem rehash_spec {cfg : Cfg K V} {m : Map K V} {abs : K → Option V} (hm : Wf cfg m abs) :
    ∀ (ks : List Nat) (u u' : Map K V) (a : K → Option V), ks.Nodup → Wf cfg u a → NoT u →
      (∀ x, x ∈ ks → ∀ q, (m.ent x).key = .key q → a q = none) → rehash cfg m ks u = some u' →
      ∃ a', Wf cfg u' a' ∧ NoT u' ∧
        ∀ q v, a' q = some v ↔ a q = some v ∨ ∃ x, x ∈ ks ∧ (m.ent x).key = .key q ∧ (m.ent x).val = v := by
  intro ks
  induction ks with
  | nil =>
    intro u u' a _ hw hn _ h
    cases h
    exact ⟨a, hw, hn, by simp⟩
  | cons k ks ih =>
    intro u u' a hnd hw hn ha h
    rw [List.nodup_cons] at hnd
    simp only [rehash, Option.bind_eq_some_iff] at h
    obtain ⟨u1, h1, h2⟩ := h
    cases hk : (m.ent k).key with
    | key q =>
      obtain ⟨h3, h4⟩ := reinsert_spec hw hn (ha k (by simp) q hk) hk h1
      obtain ⟨a', h5, h6, h7⟩ := ih u1 u' _ hnd.2 h3 h4 (by
        intro x hx p hp
        have : p ≠ q := by
          intro hpq
          have := hm.uniq x k q (hpq ▸ hp) hk
          exact hnd.1 (this ▸ hx)
        rw [upd_ne _ _ this]
        exact ha x (List.mem_cons_of_mem _ hx) p hp) h2
      refine ⟨a', h5, h6, ?_⟩
      intro p v
      rw [h7, upd_apply]
      constructor
      · rintro (h8 | ⟨x, hx, h8⟩)
        · split at h8
          · next hp => cases h8; exact .inr ⟨k, by simp, hp ▸ hk, rfl⟩
          · exact .inl h8
        · exact .inr ⟨x, List.mem_cons_of_mem _ hx, h8⟩
      · rintro (h8 | ⟨x, hx, h8, h9⟩)
        · left
          rw [if_neg]
          · exact h8
          · intro hp; rw [hp, ha k (by simp) q hk] at h8; cases h8
        · cases hx with
          | head => left; rw [hk] at h8; cases h8; rw [if_pos rfl, h9]
          | tail _ hx => exact .inr ⟨x, hx, h8, h9⟩
    | empty =>
      unfold reinsert at h1; rw [hk] at h1; cases h1
      obtain ⟨a', h5, h6, h7⟩ := ih _ u' _ hnd.2 hw hn (fun x hx => ha x (List.mem_cons_of_mem _ hx)) h2
      refine ⟨a', h5, h6, fun p v => ?_⟩
      rw [h7]
      simp [hk]
    | tomb =>
      unfold reinsert at h1; rw [hk] at h1; cases h1
      obtain ⟨a', h5, h6, h7⟩ := ih _ u' _ hnd.2 hw hn (fun x hx => ha x (List.mem_cons_of_mem _ hx)) h2
      refine ⟨a', h5, h6, fun p v => ?_⟩
      rw [h7]
      simp [hk]

theorem rehash_create {cfg : Cfg K V} {m u : Map K V} {abs : K → Option V} {c : Nat} (hm : Wf cfg m abs)
    (h : rehash cfg m (List.range m.cap) (create cfg c) = some u) : Wf cfg u abs ∧ NoT u := by
  obtain ⟨abs', h1, hn, h2⟩ := rehash_spec hm _ _ _ _ List.nodup_range (create_wf cfg c) (create_not cfg c) (by simp) h
  have : abs' = abs := by
    funext q
    have h3 : ∀ v, abs' q = some v ↔ abs q = some v := by
      intro v
      rw [h2, hm.mem_iff]
      simp
    cases ha : abs q with
    | some v => exact (h3 v).2 ha
    | none =>
      cases hb : abs' q with
      | none => rfl
      | some v => rw [(h3 v).1 hb] at ha; cases ha
  rw [← this]; exact ⟨h1, hn⟩

theorem grow_spec {cfg : Cfg K V} {m u : Map K V} {abs : K → Option V} (hm : Wf cfg m abs) :
    ∀ (al : List Bool) (c : Nat) (al' : List Bool), grow cfg m c al = some (some u, al') →
      Wf cfg u abs ∧ NoT u ∧ al'.length < al.length ∧ ∀ b, b ∈ al' → b ∈ al := by
  intro al
  induction al with
  | nil =>
    intro c al' h
    unfold grow at h
    split at h <;> cases h
  | cons a al ih =>
    intro c al' h
    unfold grow at h
    split at h
    · cases h
    · split at h
      · cases h
      · split at h
        · next u' hu =>
          cases h
          obtain ⟨h1, h2⟩ := rehash_create hm hu
          exact ⟨h1, h2, by simp, fun b hb => List.mem_cons_of_mem _ hb⟩
        · obtain ⟨h1, h2, h3, h4⟩ := ih _ _ h
          exact ⟨h1, h2, by simp; omega, fun b hb => List.mem_cons_of_mem _ (h4 b hb)⟩

theorem postinsert_spec {cfg : Cfg K V} {m : Map K V} {a : Abs K V} {al : List Bool} {l : List (Stmt K V)}
    (hp : postinsert cfg m al = some l) (hw : Rep cfg m a) : Rep cfg (execs m l) a := by
  unfold postinsert at hp
  split at hp
  · split at hp
    · cases hp
    · cases hp; exact hw
    · next u _ hg =>
      cases hp
      obtain ⟨h1, h2, -⟩ := grow_spec hw.1 _ _ _ hg
      exact ⟨h1, fun _ => h2⟩
  · cases hp; exact hw

theorem withRoom_spec {cfg : Cfg K V} {q : K}
    {f : Map K V → PW → List Bool → Option (List (Stmt K V) × Res V)} {a : Abs K V} {P : Res V → Abs K V → Prop}
    (hd : a.map q = none → P .denied a)
    (hf : ∀ m r al l res, Rep cfg m a → r = probeWr cfg m q none → (r.cur ≠ none ∨ r.pr ≠ none) →
      f m r al = some (l, res) → ∃ b, P res b ∧ Rep cfg (execs m l) b) :
    ∀ (fuel : Nat) (m : Map K V) (al : List Bool) (l : List (Stmt K V)) (res : Res V), Rep cfg m a →
      withRoom cfg q f fuel m al = some (l, res) → ∃ b, P res b ∧ Rep cfg (execs m l) b := by
  intro fuel
  induction fuel with
  | zero => intro m al l res _ h; cases h
  | succ fuel ih =>
    intro m al l res hw h
    simp only [withRoom] at h
    split at h
    · next hn =>
      split at h
      · cases h
      · cases h
        refine ⟨a, hd ?_, hw⟩
        obtain ⟨L, -, hp⟩ := hw.1.probeWr q none (.inl rfl)
        have h1 := hp.cur
        rw [hn.1] at h1
        revert h1
        generalize a.map q = o
        intro h1
        cases h1; rfl
      · next u al' hg =>
        simp only [Option.map_eq_some_iff] at h
        obtain ⟨⟨l', res'⟩, h1, h2⟩ := h
        cases h2
        obtain ⟨h3, h4, -⟩ := grow_spec hw.1 _ _ _ hg
        exact ih u al' l' _ ⟨h3, fun _ => h4⟩ h1
    · next hn =>
      refine hf m _ al l res hw rfl ?_ h
      rw [Decidable.not_and_iff_or_not] at hn
      exact hn

/-- Moving key `q` from slot `s` to the tombstone `f`. -/
theorem Wf.move {cfg : Cfg K V} {m m' : Map K V} {abs : K → Option V} {q : K} {v : V} {j s f : Nat}
    (hw : Wf cfg m abs) (hs : Same cfg m m') (hk : slotAt cfg m (cfg.hash q) j = f) (hsk : (m.ent s).key = .key q)
    (hf : (m.ent f).key = .tomb) (he : m'.ent = upd (upd m.ent f ⟨.key q, v⟩) s ⟨.tomb, (m.ent s).val⟩)
    (hb : InB cfg m' (cfg.hash q) j) (hne : NE cfg m (cfg.hash q) j) (hn : m'.n = m.n) :
    Wf cfg m' (upd abs q (some v)) := by
  have hfs : f ≠ s := fun h => by rw [h, hsk] at hf; cases hf
  have h1 := hw.del (m' := { m with ent := upd m.ent s ⟨.tomb, (m.ent s).val⟩, n := m.n - 1 })
    ⟨rfl, rfl, rfl, rfl, fun _ _ h => h⟩ hsk rfl rfl
  have hpos : 0 < m.n := by
    rw [hw.cn]
    unfold card
    rw [List.countP_pos_iff]
    exact ⟨s, List.mem_range.2 (hw.lt _ _ hsk), by rw [hsk]; rfl⟩
  have h2 := h1.put (m' := m') (q := q) (v := v) (k := j) (x := f)
    ⟨hs.cap, hs.mask, hs.step, hs.limit, fun _ _ h => hs.inb _ _ h⟩ hk
    (by
      rw [he]
      funext y
      simp only [upd_apply]
      by_cases h1 : y = s
      · rw [if_pos h1, if_neg (fun h : y = f => hfs (h.symm.trans h1)), if_pos h1]
      · rw [if_neg h1, if_neg h1]) hb
    (by
      intro i hi
      show (upd m.ent s ⟨.tomb, (m.ent s).val⟩ (slotAt cfg m (cfg.hash q) i)).key ≠ .empty
      rw [upd_apply]
      split
      · simp
      · exact hne i hi)
    (.inr ⟨by
      show isKey (upd m.ent s ⟨.tomb, (m.ent s).val⟩ f).key = false
      rw [upd_ne _ _ hfs, hf]; rfl, upd_same _ _ _, by rw [hn]; show m.n = m.n - 1 + 1; omega⟩)
  have h3 : upd (upd abs q none) q (some v) = upd abs q (some v) := by
    funext p; simp only [upd_apply]; split <;> rfl
  rw [h3] at h2
  exact h2

theorem getD_none {L : Nat} : (none : Option Nat).getD L = L := rfl

/-! ## `ck_ht_set_spmc` -/

theorem execs_ins (m : Map K V) (x : Nat) (q : K) (v : V) (c : Nat) :
    execs m [.val x v, .key x q none, .cnt c] = { m with ent := upd m.ent x ⟨.key q, v⟩, n := c } := by
  simp only [execs, List.foldl, exec, upd_same]
  congr 1
  funext y; simp only [upd_apply]; split <;> rfl

theorem execs_rep (m : Map K V) (x : Nat) (q : K) (v : V) :
    execs m [.val x v, .key x q none] = { m with ent := upd m.ent x ⟨.key q, v⟩ } := by
  simp only [execs, List.foldl, exec, upd_same]
  congr 1
  funext y; simp only [upd_apply]; split <;> rfl

theorem execs_mov (m : Map K V) (f s : Nat) (q : K) (v : V) (h : f ≠ s) :
    execs m [.val f v, .key f q (some s), .dels none, .tomb s] =
      { m with ent := upd (upd m.ent f ⟨.key q, v⟩) s ⟨.tomb, (m.ent s).val⟩, dels := m.dels + 1 } := by
  simp only [execs, List.foldl, exec, upd_same, upd_ne _ _ (Ne.symm h)]
  congr 1
  funext y; simp only [upd_apply]; split
  · rfl
  · split <;> rfl

theorem setStores_spec {cfg : Cfg K V} {m : Map K V} {a : Abs K V} {q : K} {v : V} {r : PW}
    (hw : Rep cfg m a) (hr : r = probeWr cfg m q none) (hrr : r.cur ≠ none ∨ r.pr ≠ none) :
    Rep cfg (execs m (setStores cfg q v m r ++ boundSet cfg (execs m (setStores cfg q v m r)) (cfg.hash q) (probesOf r)))
      ⟨upd a.map q (some v), a.fresh⟩ ∧ (r.cur.bind fun c => valOf (m.ent (at_ cfg m q c))) = a.map q := by
  obtain ⟨L, hL, hp⟩ := hw.1.probeWr q none (.inl rfl)
  rw [← hr] at hp
  clear hr
  have hcur := hp.cur
  -- the map after the stores, and after the bounds
  have fin : ∀ (l : List (Stmt K V)) (m1 : Map K V) (n : Nat), execs m l = m1 → Same cfg m m1 →
      (∀ m', Same cfg m m' → m'.ent = m1.ent → m'.n = m1.n →
        (∀ k, k + 1 ≤ n → k < m.len cfg → InB cfg m' (cfg.hash q) k) → Wf cfg m' (upd a.map q (some v))) →
      (a.fresh = true → NoT m1) →
      Rep cfg (execs m (l ++ boundSet cfg (execs m l) (cfg.hash q) n)) ⟨upd a.map q (some v), a.fresh⟩ := by
    intro l m1 n h1 h2 h3 h4
    obtain ⟨b1, b2, b3, -, b4⟩ := boundSet_spec cfg m1 (cfg.hash q) n
    rw [execs_append, h1]
    refine ⟨h3 _ ⟨b1.cap.trans h2.cap, b1.mask.trans h2.mask, b1.step.trans h2.step, b1.limit.trans h2.limit,
      fun _ _ h => b1.inb _ _ (h2.inb _ _ h)⟩ b2 b3 (fun k hk hk' => b4 k hk (by
        unfold Map.len at hk' ⊢; rw [h2.limit]; exact hk')), fun hf x => ?_⟩
    rw [b2]; exact h4 hf x
  have notomb : a.fresh = true → ∀ x, (m.ent x).key ≠ .tomb := hw.2
  have nt : ∀ x e, (a.fresh = true → ∀ y, (m.ent y).key ≠ .tomb) → e ≠ Key.tomb → a.fresh = true →
      ∀ (n d : Nat) (w : V), NoT { m with ent := upd m.ent x ⟨e, w⟩, n := n, dels := d } := by
    intro x e h1 h2 h3 n d w y
    simp only [upd_apply]
    split
    · exact h2
    · exact h1 h3 y
  have same : ∀ (e : Nat → Ent K V) (n d : Nat), Same cfg m { m with ent := e, n := n, dels := d } :=
    fun e n d => ⟨rfl, rfl, rfl, rfl, fun _ _ h => h⟩
  -- insertion at the tombstone
  have insT : ∀ j, r.pr = some j → a.map q = none →
      Rep cfg (execs m ([.dels (some (at_ cfg m q j)), .val (at_ cfg m q j) v, .key (at_ cfg m q j) q none, .cnt (m.n + 1)] ++
        boundSet cfg (execs m [.dels (some (at_ cfg m q j)), .val (at_ cfg m q j) v, .key (at_ cfg m q j) q none, .cnt (m.n + 1)])
          (cfg.hash q) (j + 1))) ⟨upd a.map q (some v), a.fresh⟩ := by
    intro j hj ha
    obtain ⟨h1, h2, h3, -⟩ := hp.pr j hj
    refine fin _ { m with ent := upd m.ent (at_ cfg m q j) ⟨.key q, v⟩, n := m.n + 1, dels := m.dels + 1 } _ ?_
      (same _ _ _) ?_ ?_
    · show execs { m with dels := m.dels + 1 } _ = _
      rw [execs_ins]
    · intro m' g1 g2 g3 g4
      exact hw.1.put g1 rfl g2 (g4 j (Nat.le_refl _) (by omega)) h2 (.inr ⟨by rw [show slotAt cfg m (cfg.hash q) j = at_ cfg m q j from rfl, h3]; rfl, ha, g3⟩)
    · intro hf; exact absurd h3 (notomb hf _)
  cases hpr : r.pr with
  | some j =>
    have hpo : probesOf r = j + 1 := by simp only [probesOf, hpr]
    obtain ⟨h1, h2, h3, h4⟩ := hp.pr j hpr
    rw [hpo]
    unfold setStores
    rw [hpr]
    revert hcur h4
    generalize hcc : r.cur = cur
    generalize ha : a.map q = o
    intro hcur h4
    cases hcur with
    | here c w hc hcl =>
      have hsk : (m.ent (at_ cfg m q c)).key = .key q := hc.2.2.1
      have hfs : at_ cfg m q j ≠ at_ cfg m q c := fun h => by rw [h, hsk] at h3; cases h3
      simp only
      rw [if_pos ⟨by rw [hsk]; simp, Ne.symm hfs⟩]
      refine ⟨?_, ?_⟩
      · obtain ⟨d, hd⟩ : ∃ d, execs m ((if (m.ent (at_ cfg m q j)).val = cfg.tv then [.dels (some (at_ cfg m q j))] else []) ++
            [.val (at_ cfg m q j) v, .key (at_ cfg m q j) q (some (at_ cfg m q c)), .dels none, .tomb (at_ cfg m q c)]) =
            { m with ent := upd (upd m.ent (at_ cfg m q j) ⟨.key q, v⟩) (at_ cfg m q c) ⟨.tomb, (m.ent (at_ cfg m q c)).val⟩,
                     dels := d } := by
          split
          · refine ⟨m.dels + 1 + 1, ?_⟩
            show execs { m with dels := m.dels + 1 }
              [.val (at_ cfg m q j) v, .key (at_ cfg m q j) q (some (at_ cfg m q c)), .dels none, .tomb (at_ cfg m q c)] = _
            rw [execs_mov _ _ _ _ _ hfs]
          · refine ⟨m.dels + 1, ?_⟩
            rw [List.nil_append, execs_mov _ _ _ _ _ hfs]
        refine fin _ _ _ hd (same _ _ _) ?_ ?_
        · intro m' g1 g2 g3 g4
          exact hw.1.move g1 rfl hsk h3 g2 (g4 j (Nat.le_refl _) (by omega)) h2 g3
        · intro hf; exact absurd h3 (notomb hf _)
      · simp only [Option.bind_some, valOf, hsk]
        exact congrArg some hc.2.2.2
    | empty c hc hcn hcl =>
      simp only
      rw [if_neg (fun h => h.1 hc)]
      refine ⟨insT j hpr ha, ?_⟩
      simp only [Option.bind_some, valOf, hc]
    | full hcn => exact ⟨insT j hpr ha, rfl⟩
  | none =>
    unfold setStores
    simp only [probesOf]
    rw [hpr]
    revert hcur
    rw [hpr] at hrr
    generalize hcc : r.cur = cur at hrr
    generalize ha : a.map q = o
    intro hcur
    cases hcur with
    | here c w hc hcl =>
      have hsk : (m.ent (at_ cfg m q c)).key = .key q := hc.2.2.1
      simp only
      rw [if_pos (by rw [hsk]; simp)]
      refine ⟨fin _ { m with ent := upd m.ent (at_ cfg m q c) ⟨.key q, v⟩ } _ (execs_rep _ _ _ _) (same _ _ _) ?_ ?_, ?_⟩
      · intro m' g1 g2 g3 g4
        exact hw.1.put g1 rfl g2 (g4 c (Nat.le_refl _) (by omega)) hc.2.1 (.inl ⟨hsk, g3⟩)
      · intro hf; exact nt _ _ notomb (by simp) hf m.n m.dels v
      · simp only [Option.bind_some, valOf, hsk]
        exact congrArg some hc.2.2.2
    | empty c hc hcn hcl =>
      simp only
      rw [if_neg (fun h => h hc)]
      refine ⟨fin _ { m with ent := upd m.ent (at_ cfg m q c) ⟨.key q, v⟩, n := m.n + 1 } _ (execs_ins _ _ _ _ _) (same _ _ _) ?_ ?_, ?_⟩
      · intro m' g1 g2 g3 g4
        exact hw.1.put g1 rfl g2 (g4 c (Nat.le_refl _) (by omega)) hcn (.inr ⟨by rw [show slotAt cfg m (cfg.hash q) c = at_ cfg m q c from rfl, hc]; rfl, ha, g3⟩)
      · intro hf; exact nt _ _ notomb (by simp) hf _ m.dels v
      · simp only [Option.bind_some, valOf, hc]
    | full hcn => simp at hrr

theorem set_spec {cfg : Cfg K V} {m : Map K V} {a : Abs K V} {q : K} {v : V} {al : List Bool} {l : List (Stmt K V)}
    {res : Res V} {fuel : Nat} (hw : Rep cfg m a) (h : withRoom cfg q (setTail cfg q v) fuel m al = some (l, res)) :
    ∃ b, Spec a (.set q v) res b ∧ Rep cfg (execs m l) b := by
  refine withRoom_spec (P := Spec a (.set q v)) (fun h => ⟨h, rfl⟩) ?_ fuel m al l res hw h
  intro m r al l res hw hr hrr h
  unfold setTail at h
  simp only [Option.map_eq_some_iff] at h
  obtain ⟨l', h1, h2⟩ := h
  cases h2
  obtain ⟨h3, h4⟩ := setStores_spec (v := v) hw hr hrr
  refine ⟨⟨upd a.map q (some v), a.fresh⟩, ⟨h4, rfl⟩, ?_⟩
  rw [execs_append]
  exact postinsert_spec h1 h3

/-! ## `ck_ht_put_spmc` -/

theorem putStores_spec {cfg : Cfg K V} {m : Map K V} {a : Abs K V} {q : K} {v : V} {r : PW} {k : Nat}
    (hw : Rep cfg m a) (ha : a.map q = none) (hk : probesOf r = k + 1) (hl : k < m.len cfg)
    (hne : NE cfg m (cfg.hash q) k) (he : isKey (m.ent (at_ cfg m q k)).key = false) :
    Rep cfg (execs m (putStores cfg q v m r (at_ cfg m q k))) ⟨upd a.map q (some v), a.fresh⟩ := by
  unfold putStores
  rw [execs_append, execs_append, hk]
  obtain ⟨d, hd⟩ : ∃ d, execs m (if r.pr.isSome then [.dels (some (at_ cfg m q k))] else []) = { m with dels := d } := by
    split
    · exact ⟨m.dels + 1, rfl⟩
    · exact ⟨m.dels, rfl⟩
  rw [hd, show boundSet cfg m (cfg.hash q) (k + 1) = boundSet cfg { m with dels := d } (cfg.hash q) (k + 1) from rfl]
  obtain ⟨b1, b2, b3, -, b4⟩ := boundSet_spec cfg { m with dels := d } (cfg.hash q) (k + 1)
  rw [execs_ins]
  refine ⟨?_, ?_⟩
  · refine hw.1.put (q := q) (v := v) (k := k) ⟨b1.cap, b1.mask, b1.step, b1.limit, fun _ _ h => b1.inb _ _ h⟩ rfl
      (by rw [b2]; rfl) (b4 k (Nat.le_refl _) hl) hne (.inr ⟨he, ha, rfl⟩)
  · intro hf x
    simp only [b2, upd_apply]
    split
    · simp
    · exact hw.2 hf x

theorem put_spec {cfg : Cfg K V} {m : Map K V} {a : Abs K V} {q : K} {v : V} {al : List Bool} {l : List (Stmt K V)}
    {res : Res V} {fuel : Nat} (hw : Rep cfg m a) (hc : Contract a (.put q v))
    (h : withRoom cfg q (putTail cfg q v) fuel m al = some (l, res)) :
    ∃ b, Spec a (.put q v) res b ∧ Rep cfg (execs m l) b := by
  refine withRoom_spec (P := Spec a (.put q v)) (fun h => ⟨h, rfl⟩) ?_ fuel m al l res hw h
  intro m r al l res hw hr hrr h
  obtain ⟨L, hL, hp⟩ := hw.1.probeWr q none (.inl rfl)
  rw [← hr] at hp
  clear hr
  have hcur := hp.cur
  have done : ∀ k l', a.map q = none → probesOf r = k + 1 → k < m.len cfg → NE cfg m (cfg.hash q) k →
      isKey (m.ent (at_ cfg m q k)).key = false →
      postinsert cfg (execs m (putStores cfg q v m r (at_ cfg m q k))) al = some l' →
      ∃ b, Spec a (.put q v) (.bool true) b ∧ Rep cfg (execs m (putStores cfg q v m r (at_ cfg m q k) ++ l')) b := by
    intro k l' h1 h2 h3 h4 h5 h6
    refine ⟨⟨upd a.map q (some v), a.fresh⟩, ⟨h1, rfl⟩, ?_⟩
    rw [execs_append]
    exact postinsert_spec h6 (putStores_spec hw h1 h2 h3 h4 h5)
  unfold putTail at h
  simp only at h
  cases hpr : r.pr with
  | some j =>
    rw [hpr] at h
    obtain ⟨h1, h2, h3, h4⟩ := hp.pr j hpr
    simp only [Option.map_eq_some_iff] at h
    obtain ⟨l', h5, h6⟩ := h
    cases h6
    have ha : a.map q = none := by
      rcases hc with hc | hc
      · exact hc
      · exact absurd h3 (hw.2 hc _)
    exact done j l' ha (by simp only [probesOf, hpr]) (by omega) h2 (by rw [h3]; rfl) h5
  | none =>
    rw [hpr] at h hrr
    cases hcc : r.cur with
    | none => rw [hcc] at hrr; simp at hrr
    | some c =>
      rw [hcc] at h hcur
      simp only at h
      generalize ha : a.map q = o at hcur
      split at h
      · next hne =>
        cases h
        cases hcur with
        | here c w hc hcl =>
          refine ⟨a, ⟨by rw [ha]; simp, rfl⟩, hw⟩
        | empty c hc hcn hcl => exact absurd hc hne
      · next hne =>
        simp only [ne_eq, Decidable.not_not] at hne
        simp only [Option.map_eq_some_iff] at h
        obtain ⟨l', h5, h6⟩ := h
        cases h6
        cases hcur with
        | here c w hc hcl => rw [show (m.ent (at_ cfg m q c)).key = _ from hc.2.2.1] at hne; cases hne
        | empty c hc hcn hcl =>
          exact done c l' ha (by simp only [probesOf, hpr, hcc]) (by omega) hcn (by rw [hc]; rfl) h5

/-! ## `ck_ht_remove_spmc` -/

theorem remove_spec {cfg : Cfg K V} {m : Map K V} {a : Abs K V} {q : K} (hw : Rep cfg m a) :
    ∃ b, Spec a (.remove q) (remove cfg m q).2 b ∧ Rep cfg (execs m (remove cfg m q).1) b := by
  have h := hw.1.found q _ fun k hk => hk.bound
  unfold remove probeRd
  revert h
  generalize ((List.range (Nat.min (m.len cfg) (bound cfg m (cfg.hash q) + 1))).find? fun k =>
    stop q (m.ent (slotAt cfg m (cfg.hash q) k)).key) = cur
  generalize ha : a.map q = o
  intro h
  have hnone : a.map q = none → Spec a (.remove q) (.val none) a := by
    intro h
    refine ⟨h.symm, ?_⟩
    cases a with
    | mk map fresh =>
      simp only at h
      simp only [Option.isNone_none, Bool.and_true, Abs.mk.injEq, and_true]
      funext p; rw [upd_apply]; split
      · next hp => rw [hp, h]
      · rfl
  cases h with
  | here c v hc hcl =>
    have hsk : (m.ent (at_ cfg m q c)).key = .key q := hc.2.2.1
    have hv : (m.ent (at_ cfg m q c)).val = v := hc.2.2.2
    simp only [valOf, hsk, hv]
    refine ⟨_, ⟨ha.symm, rfl⟩, hw.1.del ⟨rfl, rfl, rfl, rfl, fun _ _ h => h⟩ hsk rfl rfl, ?_⟩
    intro hf; simp at hf
  | empty c hc hcn hcl =>
    simp only [valOf, hc]
    exact ⟨a, hnone ha, hw⟩
  | full hcn => exact ⟨a, hnone ha, hw⟩

/-! ## `ck_ht_gc` -/

/-- Key `q` is within the bounds collected so far. -/
def Rec (cfg : Cfg K V) (g : Gc K V) (q : K) (v : V) : Prop :=
  ∃ k, k < g.m.len cfg ∧ NE cfg g.m (cfg.hash q) k ∧ (g.m.ent (at_ cfg g.m q k)).key = .key q ∧
    (g.m.ent (at_ cfg g.m q k)).val = v ∧ k + 1 ≤ g.maxi ∧ sat cfg (k + 1) ≤ g.bnds (cfg.hash q &&& g.m.mask)

/-- The loop of `ck_ht_gc`, with the slots still to visit. -/
structure GcI (cfg : Cfg K V) (full : Bool) (m0 : Map K V) (a : Abs K V) (rest : List Nat) (g : Gc K V) : Prop where
  em : g.m = execs m0 g.out
  rep : Rep cfg g.m a
  geo : g.m.cap = m0.cap ∧ g.m.mask = m0.mask ∧ g.m.maxi = m0.maxi ∧ g.m.bnd = m0.bnd
  fl : full = true → g.stop = false ∧ (∀ o, g.bnds o ≤ cfg.wmax) ∧
    ∀ q v, a.map q = some v → Rec cfg g q v ∨ ∃ x, x ∈ rest ∧ (g.m.ent x).key = .key q
  nf : full = false → g.maxi = m0.maxi

theorem sat_le (cfg : Cfg K V) (n : Nat) : sat cfg n ≤ cfg.wmax ∧ sat cfg n ≤ n ∧ (sat cfg n = n ∨ sat cfg n = cfg.wmax) := by
  unfold sat; split <;> omega

theorem bumpB_ge (b : Nat → Nat) (off n o : Nat) : b o ≤ bumpB b off n o := by
  unfold bumpB
  split
  · rw [upd_apply]
    split
    · next h => subst h; omega
    · omega
  · omega

theorem bumpB_self (b : Nat → Nat) (off n : Nat) : n ≤ bumpB b off n off := by
  unfold bumpB
  split
  · rw [upd_same]
  · omega

theorem bumpB_le (b : Nat → Nat) (off n o c : Nat) (h1 : b o ≤ c) (h2 : n ≤ c) : bumpB b off n o ≤ c := by
  unfold bumpB
  split
  · rw [upd_apply]; split <;> omega
  · exact h1

theorem gcBody_spec {cfg : Cfg K V} {full : Bool} {m0 : Map K V} {a : Abs K V} {x : Nat} {rest : List Nat} {g : Gc K V}
    (hi : GcI cfg full m0 a (x :: rest) g) : GcI cfg full m0 a rest (gcBody cfg full g x) := by
  unfold gcBody
  by_cases hst : g.stop = true
  · rw [if_pos hst]
    refine ⟨hi.em, hi.rep, hi.geo, fun hf => ?_, hi.nf⟩
    have := (hi.fl hf).1
    rw [this] at hst; cases hst
  · rw [if_neg hst]
    have skip : (∀ q, (g.m.ent x).key ≠ .key q) → GcI cfg full m0 a rest g := by
      intro hx
      refine ⟨hi.em, hi.rep, hi.geo, fun hf => ?_, hi.nf⟩
      obtain ⟨h1, h2, h3⟩ := hi.fl hf
      refine ⟨h1, h2, fun q v hq => ?_⟩
      rcases h3 q v hq with h4 | ⟨y, hy, h4⟩
      · exact .inl h4
      · cases hy with
        | head => exact absurd h4 (hx q)
        | tail _ hy => exact .inr ⟨y, hy, h4⟩
    cases hx : (g.m.ent x).key with
    | empty => exact skip (by rw [hx]; simp)
    | tomb => exact skip (by rw [hx]; simp)
    | key q =>
      simp only
      obtain ⟨L, hL, hp⟩ := hi.rep.1.probeWr q _ (.inr rfl)
      generalize probeWr cfg g.m q (some (bound cfg g.m (cfg.hash q))) = r at hp
      have ha := hi.rep.1.here x q hx
      have hcur := hp.cur
      rw [ha] at hcur
      generalize hcc : r.cur = cur at hcur
      generalize hvv : (g.m.ent x).val = v at hcur
      cases hcur with
      | here c v hc hcl =>
      have hsk : (g.m.ent (at_ cfg g.m q c)).key = .key q := hc.2.2.1
      -- the map after the move, and where `q` is
      have key : ∃ k, probesOf r = k + 1 ∧ k < g.m.len cfg ∧
          Rep cfg (execs g.m (moveStores cfg g.m q r)) a ∧ Same cfg g.m (execs g.m (moveStores cfg g.m q r)) ∧
          (execs g.m (moveStores cfg g.m q r)).maxi = g.m.maxi ∧ (execs g.m (moveStores cfg g.m q r)).bnd = g.m.bnd ∧
          NE cfg g.m (cfg.hash q) k ∧
          ((execs g.m (moveStores cfg g.m q r)).ent (at_ cfg g.m q k)).key = .key q ∧
          ((execs g.m (moveStores cfg g.m q r)).ent (at_ cfg g.m q k)).val = (g.m.ent x).val ∧
          (∀ y, (g.m.ent y).key ≠ .empty → ((execs g.m (moveStores cfg g.m q r)).ent y).key ≠ .empty) ∧
          (∀ y p, p ≠ q → (g.m.ent y).key = .key p → (execs g.m (moveStores cfg g.m q r)).ent y = g.m.ent y) := by
        cases hpr : r.pr with
        | none =>
          have hm : moveStores cfg g.m q r = [] := by simp only [moveStores, hpr]
          rw [hm]
          refine ⟨c, by simp only [probesOf, hpr, hcc], by omega, hi.rep, ⟨rfl, rfl, rfl, rfl, fun _ _ h => h⟩, rfl, rfl,
            hc.2.1, hsk, ?_, fun _ h => h, fun _ _ _ _ => rfl⟩
          rw [hvv]; exact hc.2.2.2
        | some j =>
          obtain ⟨h1, h2, h3, h4⟩ := hp.pr j hpr
          have hfs : at_ cfg g.m q j ≠ at_ cfg g.m q c := fun h => by rw [h, hsk] at h3; cases h3
          have hm : execs g.m (moveStores cfg g.m q r) = { g.m with
              ent := upd (upd g.m.ent (at_ cfg g.m q j) ⟨.key q, (g.m.ent (at_ cfg g.m q c)).val⟩) (at_ cfg g.m q c)
                ⟨.tomb, (g.m.ent (at_ cfg g.m q c)).val⟩, dels := g.m.dels + 1 + 1 } := by
            simp only [moveStores, hpr, hcc]
            show execs { g.m with dels := g.m.dels + 1 } _ = _
            rw [execs_mov _ _ _ _ _ hfs]
          rw [hm]
          have hval : (g.m.ent (at_ cfg g.m q c)).val = (g.m.ent x).val := by
            rw [hi.rep.1.uniq _ x q hsk hx]
          have hj : j < c := h4 c hcc
          have hs : Same cfg g.m { g.m with
              ent := upd (upd g.m.ent (at_ cfg g.m q j) ⟨.key q, (g.m.ent (at_ cfg g.m q c)).val⟩) (at_ cfg g.m q c)
                ⟨.tomb, (g.m.ent (at_ cfg g.m q c)).val⟩, dels := g.m.dels + 1 + 1 } :=
            ⟨rfl, rfl, rfl, rfl, fun _ _ h => h⟩
          refine ⟨j, by simp only [probesOf, hpr], by omega, ⟨?_, ?_⟩, hs, rfl, rfl, h2, ?_, ?_, ?_, ?_⟩
          · have h5 := hi.rep.1.move hs rfl hsk h3 rfl (hc.1.le (by omega)) h2 rfl
            rw [hval, ← ha, upd_eq_self] at h5
            rw [hval]
            exact h5
          · intro hf; exact absurd h3 (hi.rep.2 hf _)
          · simp only; rw [upd_ne _ _ hfs, upd_same]
          · simp only; rw [upd_ne _ _ hfs, upd_same]; exact hval
          · intro y hy
            simp only [upd_apply]
            split
            · simp
            · split
              · simp
              · exact hy
          · intro y p hpq hy
            simp only [upd_apply]
            rw [if_neg (fun h => by rw [h, hsk] at hy; cases hy; exact hpq rfl),
              if_neg (fun h => by rw [h, h3] at hy; cases hy)]
      obtain ⟨k, k1, k2, k3, k4, k5, k6, k7, k8, k9, k10, k11⟩ := key
      generalize hm' : execs g.m (moveStores cfg g.m q r) = m' at *
      have hem : m' = execs m0 (g.out ++ moveStores cfg g.m q r) := by
        rw [execs_append, ← hi.em, hm']
      have hgeo : m'.cap = m0.cap ∧ m'.mask = m0.mask ∧ m'.maxi = m0.maxi ∧ m'.bnd = m0.bnd :=
        ⟨k4.cap.trans hi.geo.1, k4.mask.trans hi.geo.2.1, k5.trans hi.geo.2.2.1, k6.trans hi.geo.2.2.2⟩
      cases full with
      | false =>
        simp only [Bool.false_eq_true, if_false]
        exact ⟨hem, k3, hgeo, fun h => (by cases h), hi.nf⟩
      | true =>
        simp only [if_true]
        obtain ⟨f1, f2, f3⟩ := hi.fl rfl
        have hsl : ∀ p, at_ cfg m' p = at_ cfg g.m p := by
          intro p; funext i; unfold at_; rw [Same.slot k4.mask k4.step]
        have hlen : m'.len cfg = g.m.len cfg := by unfold Map.len; rw [k4.limit]
        have hne : ∀ h i, NE cfg g.m h i → NE cfg m' h i := by
          intro h i hn j hj
          have := hn j hj
          rw [Same.slot k4.mask k4.step]
          exact k10 _ this
        have hmx : ∀ n, n ≤ g.maxi → n ≤ if probesOf r > g.maxi then probesOf r else g.maxi := by
          intro n hn; split <;> omega
        have hmx' : probesOf r ≤ if probesOf r > g.maxi then probesOf r else g.maxi := by split <;> omega
        refine ⟨hem, k3, hgeo, fun _ => ⟨f1, ?_, ?_⟩, fun h => by cases h⟩
        · intro o
          exact bumpB_le _ _ _ _ _ (f2 o) (sat_le cfg _).1
        · intro p w hpw
          by_cases hpq : p = q
          · subst hpq
            left
            rw [ha] at hpw
            cases hpw
            refine ⟨k, by rw [hlen]; exact k2, hne _ _ k7, by rw [hsl]; exact k8, by rw [hsl, k9, hvv], ?_, ?_⟩
            · show k + 1 ≤ if probesOf r > g.maxi then probesOf r else g.maxi
              omega
            · rw [← k1]; exact bumpB_self _ _ _
          · rcases f3 p w hpw with ⟨i, i1, i2, i3, i4, i5, i6⟩ | ⟨y, hy, hyp⟩
            · left
              have := k11 _ p hpq i3
              refine ⟨i, by rw [hlen]; exact i1, hne _ _ i2, by rw [hsl, this]; exact i3, by rw [hsl, this]; exact i4,
                hmx _ i5, ?_⟩
              show sat cfg (i + 1) ≤ bumpB g.bnds (cfg.hash q &&& m'.mask) (sat cfg (probesOf r)) (cfg.hash p &&& m'.mask)
              have hb := bumpB_ge g.bnds (cfg.hash q &&& m'.mask) (sat cfg (probesOf r)) (cfg.hash p &&& m'.mask)
              rw [k4.mask] at hb ⊢
              omega
            · right
              cases hy with
              | head => rw [hx] at hyp; cases hyp; exact absurd rfl hpq
              | tail _ hy => exact ⟨y, hy, by rw [show m'.ent y = _ from k11 y p hpq hyp]; exact hyp⟩

theorem gcLoop_spec {cfg : Cfg K V} {full : Bool} {m0 : Map K V} {a : Abs K V} : ∀ (xs : List Nat) (g : Gc K V),
    GcI cfg full m0 a xs g → GcI cfg full m0 a [] (xs.foldl (gcBody cfg full) g) := by
  intro xs
  induction xs with
  | nil => intro g hi; exact hi
  | cons x xs ih => intro g hi; exact ih _ (gcBody_spec hi)

theorem visits {cfg : Cfg K V} {m : Map K V} {abs : K → Option V} (hg : Wf cfg m abs) (seed x : Nat) (hx : x < m.cap) :
    x ∈ (List.range m.cap).map fun i => (i + seed) &&& m.mask := by
  obtain ⟨p, hp, -, hc, hm⟩ := hg.geo
  have h1 : 0 < 2 ^ p := Nat.two_pow_pos p
  rw [List.mem_map]
  rw [hm]
  simp only [Nat.and_two_pow_sub_one_eq_mod]
  rw [hc] at hx ⊢
  refine ⟨(x + (2 ^ p - seed % 2 ^ p)) % 2 ^ p, List.mem_range.2 (Nat.mod_lt _ h1), ?_⟩
  have hlt := Nat.mod_lt seed h1
  rw [Nat.add_mod, Nat.mod_mod, ← Nat.add_mod]
  have : x + (2 ^ p - seed % 2 ^ p) + seed = x + 2 ^ p * (1 + seed / 2 ^ p) := by
    have := Nat.div_add_mod seed (2 ^ p)
    rw [Nat.mul_add, Nat.mul_one]
    omega
  rw [this, Nat.add_mul_mod_self_left, Nat.mod_eq_of_lt hx]

theorem setBnds (f : Nat → Nat) : ∀ (l : List Nat) (m : Map K V),
    execs m (l.map fun i => .setBnd i (f i)) =
      { m with bnd := m.bnd.map fun b o => if o ∈ l then f o else b o } := by
  intro l
  induction l with
  | nil =>
    intro m
    cases m with
    | mk cap mask step limit maxi bnd ent dels n => cases bnd <;> simp [execs]
  | cons x l ih =>
    intro m
    rw [List.map_cons]
    show execs (exec m (.setBnd x (f x))) _ = _
    rw [ih]
    cases m with
    | mk cap mask step limit maxi bnd ent dels n =>
      simp only [exec, Map.mk.injEq, true_and, and_true]
      cases bnd with
      | none => rfl
      | some b =>
        simp only [Option.map_some, Option.some.injEq]
        funext o
        simp only [List.mem_cons, upd_apply]
        by_cases h2 : o = x
        · simp [h2]
        · simp [h2]

theorem Wf.off_lt {cfg : Cfg K V} {m : Map K V} {abs : K → Option V} (hg : Wf cfg m abs) (h : Nat) :
    h &&& m.mask < m.cap := by
  obtain ⟨p, hp, -, hc, hm⟩ := hg.geo
  rw [hm, hc]
  have h1 : 0 < 2 ^ p := Nat.two_pow_pos p
  have := Nat.and_le_right (n := h) (m := 2 ^ p - 1)
  omega

theorem gc_spec {cfg : Cfg K V} {m : Map K V} {a : Abs K V} {cycles seed : Nat} {al : List Bool} {l : List (Stmt K V)}
    {res : Res V} (hw : Rep cfg m a) (h : gc cfg m cycles seed al = some (l, res)) :
    ∃ b, Spec a (.gc cycles seed) res b ∧ Rep cfg (execs m l) b := by
  unfold gc at h
  split at h
  · next hn =>
    cases h
    refine ⟨a, rfl, ?_⟩
    have hnone : ∀ q v, a.map q ≠ some v := by
      intro q v hq
      obtain ⟨k, -, -, hk, -⟩ := hw.1.pos q v hq
      have := hw.1.cn
      rw [hn, eq_comm] at this
      unfold card at this
      rw [List.countP_eq_zero] at this
      have := this _ (List.mem_range.2 (hw.1.lt _ _ hk))
      rw [hk] at this; exact this rfl
    have he : ∀ (l : List (Stmt K V)), (∀ s, s ∈ l → ∃ i n, s = .setBnd i n) → ∀ m : Map K V,
        (execs m l).ent = m.ent ∧ (execs m l).cap = m.cap ∧ (execs m l).mask = m.mask ∧ (execs m l).n = m.n := by
      intro l
      induction l with
      | nil => intro _ m; exact ⟨rfl, rfl, rfl, rfl⟩
      | cons s l ih =>
        intro hl m
        obtain ⟨i, n, rfl⟩ := hl s (by simp)
        exact ih (fun s hs => hl s (List.mem_cons_of_mem _ hs)) (exec m (.setBnd i n))
    have := he (if m.bnd.isSome then (List.range m.cap).map fun i => .setBnd i 0 else []) (by
      intro s hs
      split at hs
      · rw [List.mem_map] at hs
        obtain ⟨i, -, rfl⟩ := hs
        exact ⟨_, _, rfl⟩
      · cases hs) (exec m (.setMax 0))
    obtain ⟨e1, e2, e3, e4⟩ := this
    refine ⟨hw.1.same e2 e3 e1 e4 (fun q v hq => absurd hq (hnone q v)), fun hf x => ?_⟩
    show ((execs (exec m (.setMax 0)) _).ent x).key ≠ _
    rw [e1]; exact hw.2 hf x
  · simp only at h
    have hi0 : GcI cfg (decide (cycles = 0)) m a ((List.range m.cap).map fun i => (i + seed) &&& m.mask)
        ⟨[], m, cycles, false, if decide (cycles = 0) = true then 0 else m.maxi, fun _ => 0⟩ := by
      refine ⟨rfl, hw, ⟨rfl, rfl, rfl, rfl⟩, fun hf => ⟨rfl, fun _ => Nat.zero_le _, ?_⟩, fun hf => ?_⟩
      · intro q v hq
        obtain ⟨k, -, -, hk, -⟩ := hw.1.pos q v hq
        exact .inr ⟨_, visits hw.1 seed _ (hw.1.lt _ _ hk), hk⟩
      · simp [hf]
    have hi := gcLoop_spec _ _ hi0
    generalize List.foldl (gcBody cfg (decide (cycles = 0)))
        ⟨[], m, cycles, false, if decide (cycles = 0) = true then 0 else m.maxi, fun _ => 0⟩
        ((List.range m.cap).map fun i => (i + seed) &&& m.mask) = g at hi h
    obtain ⟨g1, g2, g3, g4⟩ := hi.geo
    have done : Rep cfg (execs m (g.out ++ (if g.maxi ≠ g.m.maxi then [.setMax g.maxi] else []) ++
        (if (decide (cycles = 0)) = true ∧ m.bnd.isSome then (List.range m.cap).map fun i => .setBnd i (g.bnds i) else []))) a := by
      rw [execs_append, execs_append, ← hi.em]
      have e1 : execs g.m (if g.maxi ≠ g.m.maxi then [.setMax g.maxi] else []) = { g.m with maxi := g.maxi } := by
        split
        · rfl
        · next h =>
          simp only [ne_eq, Decidable.not_not] at h
          rw [h]; rfl
      rw [e1]
      by_cases hf : cycles = 0
      · have hft : decide (cycles = 0) = true := by simp [hf]
        obtain ⟨f1, f2, f3⟩ := hi.fl hft
        have hsame : ∀ m' : Map K V, m'.cap = g.m.cap → m'.mask = g.m.mask → m'.step = g.m.step →
            m'.limit = g.m.limit → m'.ent = g.m.ent → m'.n = g.m.n → m'.maxi = g.maxi →
            (∀ b, m'.bnd = some b → ∀ h, b (h &&& g.m.mask) = g.bnds (h &&& g.m.mask)) → Rep cfg m' a := by
          intro m' p1 p2 p3 p4 p5 p6 p7 p8
          refine ⟨hi.rep.1.same p1 p2 p5 p6 ?_, fun hf x => ?_⟩
          · intro q v hq
            rcases f3 q v hq with ⟨k, k1, k2, k3, k4, k5, k6⟩ | ⟨x, hx, -⟩
            · have hsl : slotAt cfg m' = slotAt cfg g.m := Same.slot p2 p3
              refine ⟨k, ⟨?_, by omega, ?_⟩, ?_, ?_, ?_⟩
              · unfold Map.len at k1 ⊢; rw [p4]; exact k1
              · intro b hb
                rw [p2, p8 b hb]
                have h1 := f2 (cfg.hash q &&& g.m.mask)
                rcases (sat_le cfg (k + 1)).2.2 with h2 | h2
                · right; omega
                · left; omega
              · intro j hj; rw [hsl, p5]; exact k2 j hj
              · rw [hsl, p5]; exact k3
              · rw [hsl, p5]; exact k4
            · cases hx
          · rw [p5]; exact hi.rep.2 hf x
        by_cases hb : m.bnd.isSome = true
        · rw [if_pos ⟨hft, hb⟩, setBnds]
          refine hsame _ rfl rfl rfl rfl rfl rfl rfl ?_
          intro b hbb h
          simp only [Option.map_eq_some_iff] at hbb
          obtain ⟨b', -, rfl⟩ := hbb
          simp only
          rw [if_pos]
          rw [List.mem_range, ← g1]
          exact hi.rep.1.off_lt h
        · rw [if_neg (fun h => hb h.2)]
          refine hsame _ rfl rfl rfl rfl rfl rfl rfl ?_
          intro b hbb
          simp only [execs, List.foldl] at hbb
          rw [g4] at hbb
          rw [hbb] at hb; exact absurd rfl hb
      · rw [if_neg (fun h => hf (by simpa using h.1))]
        have := hi.nf (by simp [hf])
        show Rep cfg { g.m with maxi := g.maxi } a
        rw [this, ← g3]
        exact hi.rep
    split at h
    · split at h
      · cases h
      · cases h; exact ⟨a, rfl, hw⟩
      · cases h; exact ⟨a, rfl, done⟩
    · cases h; exact ⟨a, rfl, done⟩

theorem prog_spec {cfg : Cfg K V} {m : Map K V} {a : Abs K V} {op : Op K V} {al : List Bool}
    {l : List (Stmt K V)} {res : Res V} (hw : Rep cfg m a) (hc : Contract a op) (h : prog cfg m al op = some (l, res)) :
    ∃ b, Spec a op res b ∧ Rep cfg (execs m l) b := by
  have hreset : ∀ c, resetOp cfg c al = some (l, res) →
      (res = .denied ∧ Rep cfg (execs m l) a) ∨ (res = .bool true ∧ Rep cfg (execs m l) ⟨fun _ => none, true⟩) := by
    intro c h
    unfold resetOp at h
    split at h
    · cases h
    · cases h; exact .inl ⟨rfl, hw⟩
    · cases h; exact .inr ⟨rfl, create_wf cfg c, fun _ => create_not cfg c⟩
  cases op with
  | put q v => exact put_spec hw hc h
  | set q v => exact set_spec hw h
  | remove q =>
    simp only [prog, Option.some.injEq] at h
    have := remove_spec (q := q) hw
    rw [h] at this
    exact this
  | grow c =>
    simp only [prog, growOp] at h
    split at h
    · cases h
    · cases h; exact ⟨a, rfl, hw⟩
    · next u _ hg =>
      cases h
      obtain ⟨h1, h2, -⟩ := grow_spec hw.1 _ _ _ hg
      exact ⟨⟨a.map, true⟩, rfl, h1, fun _ => h2⟩
  | gc cycles seed => exact gc_spec hw h
  | reset =>
    rcases hreset _ h with ⟨rfl, h1⟩ | ⟨rfl, h1⟩
    · exact ⟨a, rfl, h1⟩
    · exact ⟨_, rfl, h1⟩
  | resetSize c =>
    rcases hreset _ h with ⟨rfl, h1⟩ | ⟨rfl, h1⟩
    · exact ⟨a, rfl, h1⟩
    · exact ⟨_, rfl, h1⟩

/-! ## C49: histories -/

/-- The history on the specification. -/
inductive SpecHist : Abs K V → List (Op K V × Res V) → Abs K V → Prop
  | nil (a) : SpecHist a [] a
  | cons {a op res b ops c} : Contract a op → Spec a op res b → SpecHist b ops c → SpecHist a ((op, res) :: ops) c

/-- The user keeps the contracts: whenever the operations so far led to `a`, the next one is allowed. -/
def Keeps (a : Abs K V) (ops : List (Op K V × Res V)) : Prop :=
  ∀ p op res s b, ops = p ++ (op, res) :: s → SpecHist a p b → Contract b op

theorem hist_spec {cfg : Cfg K V} {m m' : Map K V} {a : Abs K V} {ops : List (Op K V × Res V)}
    (hw : Rep cfg m a) (hh : Hist cfg m ops m') (hk : Keeps a ops) :
    ∃ b, SpecHist a ops b ∧ Rep cfg m' b := by
  induction hh generalizing a with
  | nil m => exact ⟨a, .nil _, hw⟩
  | @cons m m' op al l res ops hp hh ih =>
    have hc : Contract a op := hk [] op res ops a rfl (.nil _)
    obtain ⟨b, h1, h2⟩ := prog_spec hw hc hp
    obtain ⟨c, h3, h4⟩ := ih h2 (by
      intro p op' res' s d h5 h6
      exact hk ((op, res) :: p) op' res' s d (by rw [h5]; rfl) (.cons hc h1 h6))
    exact ⟨c, .cons hc h1 h3, h4⟩

/-- Key and value in a slot. -/
def pairOf (e : Ent K V) : Option (K × V) :=
  match e.key with
  | .key q => some (q, e.val)
  | _ => none

theorem card_eq (m : Map K V) : card m = ((List.range m.cap).filterMap fun x => pairOf (m.ent x)).length := by
  unfold card
  induction List.range m.cap with
  | nil => rfl
  | cons a l ih =>
    rw [List.countP_cons, List.filterMap_cons, ih]
    cases h : (m.ent a).key <;> simp [isKey, pairOf, h]

/-- The entries of the table, each once. -/
theorem Wf.objs {cfg : Cfg K V} {m : Map K V} {abs : K → Option V} (hw : Wf cfg m abs) :
    (((List.range m.cap).filterMap fun x => pairOf (m.ent x)).map Prod.fst).Nodup ∧
    (∀ q v, (q, v) ∈ ((List.range m.cap).filterMap fun x => pairOf (m.ent x)) ↔ abs q = some v) := by
  constructor
  · rw [List.map_filterMap]
    have : ∀ l : List Nat, l.Nodup → (l.filterMap fun x => (pairOf (m.ent x)).map Prod.fst).Nodup := by
      intro l hl
      induction l with
      | nil => simp
      | cons a l ih =>
        rw [List.nodup_cons] at hl
        rw [List.filterMap_cons]
        cases ha : (m.ent a).key with
        | empty => simpa [pairOf, ha] using ih hl.2
        | tomb => simpa [pairOf, ha] using ih hl.2
        | key q =>
          have hp : pairOf (m.ent a) = some (q, (m.ent a).val) := by simp only [pairOf, ha]
          rw [hp]
          simp only [Option.map_some]
          rw [List.nodup_cons]
          refine ⟨?_, ih hl.2⟩
          rw [List.mem_filterMap]
          rintro ⟨b, hb, hk⟩
          cases hbe : (m.ent b).key with
          | empty => simp [pairOf, hbe] at hk
          | tomb => simp [pairOf, hbe] at hk
          | key p =>
            have hk : p = q := by simpa [pairOf, hbe] using hk
            have := hw.uniq b a q (hk ▸ hbe) ha
            subst this
            exact hl.1 hb
    exact this _ List.nodup_range
  · intro q v
    rw [List.mem_filterMap, hw.mem_iff]
    constructor
    · rintro ⟨x, hx, ho⟩
      cases he : (m.ent x).key with
      | empty => simp [pairOf, he] at ho
      | tomb => simp [pairOf, he] at ho
      | key p =>
        simp only [pairOf, he, Option.some.injEq, Prod.mk.injEq] at ho
        exact ⟨x, List.mem_range.1 hx, by rw [he, ho.1], ho.2⟩
    · rintro ⟨x, hx, he, hv⟩
      exact ⟨x, List.mem_range.2 hx, by simp only [pairOf, he, hv]⟩

theorem Wf.count {cfg : Cfg K V} {m : Map K V} {abs : K → Option V} (hw : Wf cfg m abs) : Size abs m.n := by
  obtain ⟨h1, h2⟩ := hw.objs
  refine ⟨_, h1, ?_, by rw [hw.cn, card_eq, List.length_map]⟩
  intro q
  rw [List.mem_map]
  constructor
  · rintro ⟨⟨p, v⟩, hv, rfl⟩
    rw [(h2 p v).1 hv]; simp
  · intro hq
    cases ha : abs q with
    | none => exact absurd ha hq
    | some v => exact ⟨(q, v), (h2 q v).2 ha, rfl⟩

theorem next_spec (m : Map K V) : ∀ (fuel o : Nat), m.cap < fuel + o →
    (next m fuel o = none ∧ ((List.range m.cap).drop o).filterMap (fun x => pairOf (m.ent x)) = []) ∨
    ∃ v o', next m fuel o = some (v, o') ∧ o < o' ∧
      ((List.range m.cap).drop o).filterMap (fun x => pairOf (m.ent x)) =
        v :: ((List.range m.cap).drop o').filterMap (fun x => pairOf (m.ent x)) := by
  intro fuel
  induction fuel with
  | zero =>
    intro o h
    left
    refine ⟨rfl, ?_⟩
    rw [List.drop_eq_nil_of_le (by simp; omega)]; rfl
  | succ fuel ih =>
    intro o h
    unfold next
    by_cases ho : o ≥ m.cap
    · left
      rw [if_pos ho, List.drop_eq_nil_of_le (by simpa using ho)]
      exact ⟨rfl, rfl⟩
    · rw [if_neg ho]
      have hd : (List.range m.cap).drop o = o :: (List.range m.cap).drop (o + 1) := by
        rw [List.drop_eq_getElem_cons (by simp; omega)]
        simp
      rw [hd, List.filterMap_cons]
      cases he : (m.ent o).key with
      | key q => right; exact ⟨(q, (m.ent o).val), o + 1, rfl, by omega, by simp only [pairOf, he]⟩
      | empty =>
        simp only [pairOf, he]
        rcases ih (o + 1) (by omega) with ⟨h1, h2⟩ | ⟨v, o', h1, h2, h3⟩
        · exact .inl ⟨h1, h2⟩
        · exact .inr ⟨v, o', h1, by omega, h3⟩
      | tomb =>
        simp only [pairOf, he]
        rcases ih (o + 1) (by omega) with ⟨h1, h2⟩ | ⟨v, o', h1, h2, h3⟩
        · exact .inl ⟨h1, h2⟩
        · exact .inr ⟨v, o', h1, by omega, h3⟩

theorem iterate_eq (m : Map K V) : ∀ (fuel o : Nat), m.cap < fuel + o →
    iterate m fuel o = ((List.range m.cap).drop o).filterMap (fun x => pairOf (m.ent x)) := by
  intro fuel
  induction fuel with
  | zero =>
    intro o h
    rw [List.drop_eq_nil_of_le (by simp; omega)]; rfl
  | succ fuel ih =>
    intro o h
    unfold iterate
    rcases next_spec m (m.cap + 1) o (by omega) with ⟨h1, h2⟩ | ⟨v, o', h1, h2, h3⟩
    · rw [h1, h2]
    · rw [h1, h3]
      simp only
      rw [ih o' (by omega)]

/-- C49, partial.  From `ck_ht_init`, after any history in which `put` is called for absent keys only, or at a time when
nothing was removed since the table was created, grown or reset: the results are those of a map, `ck_ht_get_spmc`
returns exactly what the map holds, `ck_ht_count` is its size, and `ck_ht_next` yields every key once.
Missing: `put` of a present key after a removal, for which the statement is false (`put_duplicates`). -/
theorem refines_map_partial (cfg : Cfg K V) (c : Nat) (ops : List (Op K V × Res V)) (m : Map K V)
    (hh : Hist cfg (create cfg c) ops m) (hk : Keeps ⟨fun _ => none, true⟩ ops) :
    ∃ a, SpecHist ⟨fun _ => none, true⟩ ops a ∧ (∀ q, get cfg m q = a.map q) ∧ Size a.map m.n ∧
      ((iterate m (m.cap + 1) 0).map Prod.fst).Nodup ∧
      ∀ q v, (q, v) ∈ iterate m (m.cap + 1) 0 ↔ a.map q = some v := by
  obtain ⟨a, h1, h2⟩ := hist_spec ⟨create_wf cfg c, fun _ => create_not cfg c⟩ hh hk
  refine ⟨a, h1, h2.1.get, h2.1.count, ?_⟩
  rw [iterate_eq m _ 0 (by omega), List.drop_zero]
  exact h2.1.objs

/-! ## When an operation is refused -/

theorem grow_none {cfg : Cfg K V} {m : Map K V} (hpos : 0 < m.cap) (hcap : m.cap ≤ 2 ^ 31) :
    ∀ (al : List Bool) (j : Nat) (al' : List Bool), 1 ≤ j → m.cap * 2 ^ j < 2 ^ 64 →
      grow cfg m (m.cap * 2 ^ j) al = some (none, al') → false ∈ al ∨ 33 ≤ al.length + j := by
  intro al
  have hle : ∀ j, 1 ≤ j → m.cap < m.cap * 2 ^ j := fun j hj =>
    by
    have h1 : 2 ^ 1 ≤ 2 ^ j := Nat.pow_le_pow_right (by omega) hj
    have h2 := Nat.mul_le_mul_left m.cap h1
    omega
  induction al with
  | nil =>
    intro j al' h1 hj h
    unfold grow at h
    rw [if_neg (by have := hle j h1; omega)] at h
    cases h
  | cons a al ih =>
    intro j al' hj1 hj h
    unfold grow at h
    rw [if_neg (by have := hle j hj1; omega)] at h
    split at h
    · next ha => left; rw [ha]; simp
    · split at h
      · cases h
      · rw [Nat.mul_assoc, ← Nat.pow_succ] at h
        by_cases hlt : m.cap * 2 ^ (j + 1) < 2 ^ 64
        · rw [Nat.mod_eq_of_lt hlt] at h
          rcases ih (j + 1) al' (by omega) hlt h with h1 | h1
          · left; exact List.mem_cons_of_mem _ h1
          · right; simp; omega
        · right
          have h1 : 2 ^ 64 ≤ 2 ^ 31 * 2 ^ (j + 1) := Nat.le_trans (by omega) (Nat.mul_le_mul_right _ hcap)
          rw [← Nat.pow_add] at h1
          have := (Nat.pow_le_pow_iff_right (a := 2) (by omega)).1 h1
          simp; omega

theorem withRoom_denied {cfg : Cfg K V} {q : K}
    {f : Map K V → PW → List Bool → Option (List (Stmt K V) × Res V)} {abs : K → Option V}
    (hf : ∀ m r al l, f m r al ≠ some (l, .denied)) :
    ∀ (fuel : Nat) (m : Map K V) (al : List Bool) (l : List (Stmt K V)), Wf cfg m abs →
      withRoom cfg q f fuel m al = some (l, .denied) → false ∈ al ∨ 32 ≤ al.length := by
  intro fuel
  induction fuel with
  | zero => intro m al l _ h; cases h
  | succ fuel ih =>
    intro m al l hw h
    have hcap : 0 < m.cap ∧ m.cap ≤ 2 ^ 31 := by
      obtain ⟨p, -, hp, hc, -⟩ := hw.geo
      rw [hc]; exact ⟨Nat.two_pow_pos p, Nat.pow_le_pow_right (by omega) hp⟩
    simp only [withRoom] at h
    split at h
    · have hm : m.cap * 2 % 2 ^ 64 = m.cap * 2 ^ 1 := by rw [Nat.pow_one]; apply Nat.mod_eq_of_lt; omega
      split at h
      · cases h
      · next hg =>
        cases h
        rw [hm] at hg
        rcases grow_none hcap.1 hcap.2 al 1 _ (by omega) (by omega) hg with h1 | h1
        · exact .inl h1
        · right; omega
      · next u al' hg =>
        simp only [Option.map_eq_some_iff] at h
        obtain ⟨⟨l', res'⟩, h1, h2⟩ := h
        cases h2
        obtain ⟨hu, -, hlen, hmem⟩ := grow_spec hw _ _ _ hg
        rcases ih u al' l' hu h1 with h3 | h3
        · exact .inl (hmem _ h3)
        · right; omega
    · exact absurd h (hf _ _ _ _)

/-- An insertion is refused for want of room only if an allocation failed or the operation made at least 32 allocations
(the capacity was doubled until it no longer fits in 64 bits). -/
theorem refused_only_by_allocation {cfg : Cfg K V} {m : Map K V} {abs : K → Option V} {op : Op K V} {al : List Bool}
    {l : List (Stmt K V)} (hw : Wf cfg m abs) (hop : match op with | .put _ _ | .set _ _ => True | _ => False)
    (h : prog cfg m al op = some (l, .denied)) : false ∈ al ∨ 32 ≤ al.length := by
  cases op with
  | put q v =>
    refine withRoom_denied ?_ _ _ _ _ hw h
    intro m r al l h
    unfold putTail at h
    simp only at h
    split at h
    · simp at h
    · split at h <;> simp at h
    · cases h
  | set q v =>
    refine withRoom_denied ?_ _ _ _ _ hw h
    intro m r al l h
    simp [setTail] at h
  | _ => cases hop

/-- Every operation ends, whatever the map, at the latest when an allocation fails. -/
theorem prog_ends (cfg : Cfg K V) (m : Map K V) (op : Op K V) : (prog cfg m [false] op).isSome = true := by
  have hgrow : ∀ (m : Map K V) c, (grow cfg m c [false]).isSome = true ∧ ∀ u al, grow cfg m c [false] ≠ some (some u, al) := by
    intro m c
    unfold grow
    split <;> simp
  have hpost : ∀ m : Map K V, (postinsert cfg m [false]).isSome = true := by
    intro m
    unfold postinsert
    split
    · have := (hgrow m (m.cap * 2 % 2 ^ 64)).1
      split
      · next h => rw [h] at this; cases this
      · rfl
      · rfl
    · rfl
  have hroom : ∀ q f fuel, (∀ m r, (r.cur ≠ none ∨ r.pr ≠ none) → (f m r [false]).isSome = true) →
      (withRoom cfg q f (fuel + 1) m [false]).isSome = true := by
    intro q f fuel hf
    simp only [withRoom]
    split
    · have := hgrow m (m.cap * 2 % 2 ^ 64)
      split
      · next h => rw [h] at this; cases this.1
      · rfl
      · next h => exact absurd h (this.2 _ _)
    · next hn => exact hf _ _ (Decidable.not_and_iff_or_not.1 hn)
  cases op with
  | put q v =>
    refine hroom _ _ _ fun m r hr => ?_
    unfold putTail
    simp only
    split
    · rw [Option.isSome_map]; exact hpost _
    · split
      · rfl
      · rw [Option.isSome_map]; exact hpost _
    · next h1 h2 => rw [h1, h2] at hr; simp at hr
  | set q v =>
    refine hroom _ _ _ fun m r hr => ?_
    unfold setTail
    rw [Option.isSome_map]; exact hpost _
  | remove q => rfl
  | grow c =>
    have := hgrow m c
    simp only [prog, growOp]
    split
    · next h => rw [h] at this; cases this.1
    · rfl
    · rfl
  | gc cycles seed =>
    simp only [prog, gc]
    split
    · rfl
    · split <;> rfl
  | reset => rfl
  | resetSize c => rfl

end Verif.Ht
