import Verif.Ht.HsOps

/-!
# Hash set: the sequential specification (C47)
-/

set_option linter.unusedSectionVars false

namespace Verif.Hs

open Verif

variable {K V : Type} [DecidableEq K] [DecidableEq V]

/-! ## Specification: a map from keys to objects -/

/-- What the user must observe. -/
def Contract (cfg : Cfg K V) (abs : K → Option V) : Op K V → Prop
  | .putUnique v => abs (cfg.key v) = none
  | .apply q fn => (fn (abs q)).all (fun w => decide (cfg.key w = q)) = true
  | _ => True

instance (cfg : Cfg K V) (abs : K → Option V) (op : Op K V) : Decidable (Contract cfg abs op) := by
  cases op <;> unfold Contract <;> infer_instance

/-- Result and effect of an operation on the map `abs`. -/
def Spec (cfg : Cfg K V) (abs : K → Option V) : Op K V → Res V → (K → Option V) → Prop
  | .put v, .bool true, abs' => abs (cfg.key v) = none ∧ abs' = upd abs (cfg.key v) (some v)
  | .put v, .bool false, abs' => abs (cfg.key v) ≠ none ∧ abs' = abs
  | .put v, .denied, abs' => abs (cfg.key v) = none ∧ abs' = abs
  | .putUnique v, .bool true, abs' => abs' = upd abs (cfg.key v) (some v)
  | .putUnique _, .denied, abs' => abs' = abs
  | .set v, .prev true o, abs' => o = abs (cfg.key v) ∧ abs' = upd abs (cfg.key v) (some v)
  | .set v, .denied, abs' => abs (cfg.key v) = none ∧ abs' = abs
  | .fas v, .prev true (some o), abs' => abs (cfg.key v) = some o ∧ abs' = upd abs (cfg.key v) (some v)
  | .fas v, .prev false none, abs' => abs (cfg.key v) = none ∧ abs' = abs
  | .remove q, .obj o, abs' => o = abs q ∧ abs' = upd abs q none
  | .apply q fn, .bool true, abs' => abs' = upd abs q (fn (abs q))
  | .apply q _, .denied, abs' => abs q = none ∧ abs' = abs
  | .grow _, .bool true, abs' => abs' = abs
  | .grow _, .denied, abs' => abs' = abs
  | .rebuild, .bool true, abs' => abs' = abs
  | .rebuild, .denied, abs' => abs' = abs
  | .gc _ _, .bool true, abs' => abs' = abs
  | .gc _ _, .denied, abs' => abs' = abs
  | .reset, .bool true, abs' => abs' = fun _ => none
  | .reset, .denied, abs' => abs' = abs
  | .resetSize _, .bool true, abs' => abs' = fun _ => none
  | .resetSize _, .denied, abs' => abs' = abs
  | _, _, _ => False

/-- `n` is the number of keys of `abs`. -/
def Size (abs : K → Option V) (n : Nat) : Prop :=
  ∃ l : List K, l.Nodup ∧ (∀ q, q ∈ l ↔ abs q ≠ none) ∧ l.length = n

/-! ## `ck_hs_grow` -/

theorem Wf.mem_iff {cfg : Cfg K V} {m : Map V} {abs : K → Option V} (hw : Wf cfg m abs) (q : K) (v : V) :
    abs q = some v ↔ ∃ x tg, x < m.cap ∧ m.ent x = .full v tg ∧ cfg.key v = q := by
  constructor
  · intro h
    obtain ⟨k, -, -, hf, -⟩ := hw.g.pos q v h
    exact ⟨_, _, (hw.g.tag _ _ _ hf).2, hf, hw.g.ak q v h⟩
  · rintro ⟨x, tg, -, hf, hk⟩
    have := hw.g.here x v tg hf (by simp)
    rw [← hk]; exact this

theorem boundSet_congr (cfg : Cfg K V) (u : Map V) (e : Nat → Slot V) (c h n : Nat) :
    execs { u with ent := e, n := c } (boundSet cfg { u with ent := e, n := c } h n) =
      { execs u (boundSet cfg u h n) with ent := e, n := c } := by
  obtain ⟨cap, mask, step, limit, maxi, bnd, ent, gen, n'⟩ := u
  unfold boundSet
  cases bnd with
  | none =>
    simp only [List.append_nil]
    split <;> rfl
  | some b =>
    simp only
    split <;> split <;> rfl

theorem reinsert_spec {cfg : Cfg K V} {u u' : Map V} {abs : K → Option V} {v : V}
    (hw : Wf cfg u abs) (ha : abs (cfg.key v) = none)
    (hr : reinsert cfg u (.full v (cfg.tag (cfg.hash (cfg.key v)))) = some u') :
    Wf cfg u' (upd abs (cfg.key v) (some v)) := by
  unfold reinsert at hr
  simp only at hr
  split at hr
  · cases hr
  · next k hk =>
    cases hr
    have h1 := List.find?_some hk
    have h2 := List.mem_range.1 (List.mem_of_find?_eq_some hk)
    rw [List.find?_range_eq_some] at hk
    simp only [decide_eq_true_eq] at h1
    obtain ⟨hok, hr, hb⟩ := boundSet_spec hw (cfg.hash (cfg.key v)) (k + 1) h2
    rw [boundSet_congr]
    have hsl := hr.slot
    have hne : NE (execs u (boundSet cfg u (cfg.hash (cfg.key v)) (k + 1))) (cfg.hash (cfg.key v)) k := by
      intro j hj
      rw [hsl, hr.ent]
      have := hk.2.2 j hj
      simpa using this
    have := (insert_spec hok.wf ha (hb k (by omega)) hne (by rw [hsl, hr.ent, h1]; rfl)).wf
    have heq : execs (execs u (boundSet cfg u (cfg.hash (cfg.key v)) (k + 1)))
        [.store (slotAt (execs u (boundSet cfg u (cfg.hash (cfg.key v)) (k + 1))) (cfg.hash (cfg.key v)) k) v
          (cfg.tag (cfg.hash (cfg.key v))) none, .cnt ((execs u (boundSet cfg u (cfg.hash (cfg.key v)) (k + 1))).n + 1)] =
        { execs u (boundSet cfg u (cfg.hash (cfg.key v)) (k + 1)) with
          ent := upd u.ent (slotAt u (cfg.hash (cfg.key v)) k) (.full v (cfg.tag (cfg.hash (cfg.key v)))), n := u.n + 1 } := by
      rw [hsl, hr.n]
      show ({ execs u _ with ent := upd (execs u _).ent _ _, n := _ } : Map V) = _
      rw [hr.ent]
    rw [heq] at this
    exact this

theorem rehash_spec {cfg : Cfg K V} {m : Map V} {abs : K → Option V} (hm : Wf cfg m abs) :
    ∀ (ks : List Nat) (u u' : Map V) (absu : K → Option V), ks.Nodup → Wf cfg u absu →
      (∀ x, x ∈ ks → ∀ v tg, m.ent x = .full v tg → absu (cfg.key v) = none) →
      rehash cfg m ks u = some u' →
      ∃ abs', Wf cfg u' abs' ∧ ∀ q v, abs' q = some v ↔
        absu q = some v ∨ ∃ x tg, x ∈ ks ∧ m.ent x = .full v tg ∧ cfg.key v = q := by
  intro ks
  induction ks with
  | nil =>
    intro u u' absu _ hw _ h
    cases h
    exact ⟨absu, hw, by simp⟩
  | cons k ks ih =>
    intro u u' absu hnd hw hfree h
    rw [List.nodup_cons] at hnd
    simp only [rehash, Option.bind_eq_some_iff] at h
    obtain ⟨u1, h1, h2⟩ := h
    cases hk : m.ent k with
    | empty =>
      rw [hk] at h1
      cases h1
      obtain ⟨abs', h3, h4⟩ := ih u u' absu hnd.2 hw (fun x hx => hfree x (List.mem_cons_of_mem _ hx)) h2
      refine ⟨abs', h3, fun q v => (h4 q v).trans ⟨?_, ?_⟩⟩
      · rintro (h | ⟨x, tg, hx, h⟩)
        · exact .inl h
        · exact .inr ⟨x, tg, List.mem_cons_of_mem _ hx, h⟩
      · rintro (h | ⟨x, tg, hx, h5, h6⟩)
        · exact .inl h
        · rcases List.mem_cons.1 hx with rfl | hx
          · rw [hk] at h5; cases h5
          · exact .inr ⟨x, tg, hx, h5, h6⟩
    | tomb =>
      rw [hk] at h1
      cases h1
      obtain ⟨abs', h3, h4⟩ := ih u u' absu hnd.2 hw (fun x hx => hfree x (List.mem_cons_of_mem _ hx)) h2
      refine ⟨abs', h3, fun q v => (h4 q v).trans ⟨?_, ?_⟩⟩
      · rintro (h | ⟨x, tg, hx, h⟩)
        · exact .inl h
        · exact .inr ⟨x, tg, List.mem_cons_of_mem _ hx, h⟩
      · rintro (h | ⟨x, tg, hx, h5, h6⟩)
        · exact .inl h
        · rcases List.mem_cons.1 hx with rfl | hx
          · rw [hk] at h5; cases h5
          · exact .inr ⟨x, tg, hx, h5, h6⟩
    | full w t =>
      have ht := (hm.g.tag k w t hk).1
      have hfr := hfree k (by simp) w t hk
      rw [hk, ht] at h1
      have hw1 := reinsert_spec hw hfr h1
      have hfree' : ∀ x, x ∈ ks → ∀ v tg, m.ent x = .full v tg → upd absu (cfg.key w) (some w) (cfg.key v) = none := by
        intro x hx v tg hf
        rw [upd_ne]
        · exact hfree x (List.mem_cons_of_mem _ hx) v tg hf
        · intro hkk
          have := hm.g.uniq x k v w tg t hf hk hkk (by simp) (by simp)
          subst this
          exact hnd.1 hx
      obtain ⟨abs', h3, h4⟩ := ih u1 u' _ hnd.2 hw1 hfree' h2
      · refine ⟨abs', h3, fun q v => (h4 q v).trans ⟨?_, ?_⟩⟩
        · rintro (h | ⟨x, tg, hx, h⟩)
          · rw [upd_apply] at h
            split at h
            · next hq => cases h; exact .inr ⟨k, t, by simp, hk, hq.symm⟩
            · exact .inl h
          · exact .inr ⟨x, tg, List.mem_cons_of_mem _ hx, h⟩
        · rintro (h | ⟨x, tg, hx, h5, h6⟩)
          · left
            rw [upd_ne _ _ (fun hq => by rw [hq, hfr] at h; cases h)]
            exact h
          · rcases List.mem_cons.1 hx with rfl | hx
            · rw [hk] at h5; cases h5
              left; rw [h6, upd_same]
            · exact .inr ⟨x, tg, hx, h5, h6⟩

theorem rehash_create {cfg : Cfg K V} {m u : Map V} {abs : K → Option V} {c : Nat} (hm : Wf cfg m abs)
    (h : rehash cfg m (List.range m.cap) (create cfg c) = some u) : Wf cfg u abs := by
  obtain ⟨abs', h1, h2⟩ := rehash_spec hm _ _ _ _ List.nodup_range (create_wf cfg c) (by simp) h
  have : abs' = abs := by
    funext q
    have h3 : ∀ v, abs' q = some v ↔ abs q = some v := by
      intro v
      rw [h2, hm.mem_iff]
      simp
    cases ha : abs q with
    | some v => exact (h3 v).2 ha
    | none =>
      cases hb : abs' q with
      | none => rfl
      | some v => rw [(h3 v).1 hb] at ha; cases ha
  rw [← this]; exact h1

theorem grow_spec {cfg : Cfg K V} {m u : Map V} {abs : K → Option V} (hm : Wf cfg m abs) :
    ∀ (al : List Bool) (c : Nat) (al' : List Bool), grow cfg m c al = some (some u, al') →
      Wf cfg u abs ∧ al'.length < al.length ∧ ∀ b, b ∈ al' → b ∈ al := by
  intro al
  induction al with
  | nil =>
    intro c al' h
    unfold grow at h
    split at h <;> cases h
  | cons a al ih =>
    intro c al' h
    unfold grow at h
    split at h
    · cases h
    · split at h
      · cases h
      · split at h
        · next u' hu =>
          cases h
          exact ⟨rehash_create hm hu, by simp, fun b hb => List.mem_cons_of_mem _ hb⟩
        · obtain ⟨h1, h2, h3⟩ := ih _ _ h
          exact ⟨h1, by simp; omega, fun b hb => List.mem_cons_of_mem _ (h3 b hb)⟩

/-! ## Storing an object -/

theorem postinsert_spec {cfg : Cfg K V} {m : Map V} {abs : K → Option V} {al : List Bool} {l : List (Stmt V)}
    (hp : postinsert cfg m al = some l) (hw : Wf cfg (execs m [.cnt (m.n + 1)]) abs) :
    ∃ l', l = .cnt (m.n + 1) :: l' ∧ OpOk cfg (execs m [.cnt (m.n + 1)]) abs l' abs := by
  unfold postinsert at hp
  simp only at hp
  split at hp
  · split at hp
    · cases hp
    · cases hp; exact ⟨[], rfl, OpOk.nil hw⟩
    · next u _ hg =>
      cases hp
      exact ⟨[.publish u false], rfl, OpOk.publish (grow_spec hw _ _ _ hg).1⟩
  · cases hp; exact ⟨[], rfl, OpOk.nil hw⟩

/-- `key v` is stored, wherever it was. -/
theorem setAt_spec {cfg : Cfg K V} {m : Map V} {abs : K → Option V} {v : V} {beh : Beh} {r : PR V} {e lim0 : Nat}
    {al : List Bool} {l : List (Stmt V)} (hw : Wf cfg m abs) (hp : PS cfg m (cfg.key v) beh lim0 m.limit r e)
    (hroom : ¬ (r.cur = none ∧ r.pr = none)) (ho : r.obj = abs (cfg.key v)) (hl : setAt cfg m r v al = some l) :
    OpOk cfg m abs l (upd abs (cfg.key v) (some v)) := by
  obtain ⟨hne, hnk, hob, hpr⟩ := hp
  generalize hh : cfg.hash (cfg.key v) = h at *
  have hneq : ∀ j, j ≤ e → NE m h j := fun j hj i hi => hne i (by omega)
  unfold setAt at hl
  cases hro : r.obj with
  | none =>
    rw [hro] at hob ho
    rw [hro] at hl
    simp only [Option.isSome_none, Bool.false_eq_true, if_false] at hl
    -- the free slot
    obtain ⟨k, hkn, hkl, hkne, hkf, hst⟩ : ∃ k, r.n = k + 1 ∧ k < m.limit ∧ NE m h k ∧
        isFull (m.ent (slotAt m h k)) = false ∧
        storeAt cfg m r v = boundSet cfg m h (k + 1) ++ [.store (slotAt m h k) v (cfg.tag h) none] := by
      rcases hpr with ⟨hp1, hp2⟩ | ⟨j, hj1, -, hj2, hj3, hj4, hj5⟩
      · rcases hob with ⟨h1, -⟩ | ⟨h1, h2, h3⟩
        · exact absurd ⟨h1, hp1⟩ hroom
        · refine ⟨e, hp2, h2, hne, ?_, ?_⟩
          · rcases h3 with h3 | ⟨-, h3, -⟩ <;> rw [h3] <;> rfl
          · simp only [storeAt, hp1, h1, hp2, hh]
      · refine ⟨j, hj4, hj2, hneq j hj1, by rw [hj5]; rfl, ?_⟩
        cases hc : r.cur <;> simp [storeAt, hj3, hc, hj4, hro, hh]
    obtain ⟨hok, hr, hb⟩ := boundSet_spec hw h (k + 1) (by omega)
    simp only [Option.map_eq_some_iff] at hl
    obtain ⟨l', hpi, rfl⟩ := hl
    have hins := insert_spec (v := v) (k := k) hok.wf ho.symm (by rw [hh]; exact hb k (by omega))
      (by intro i hi; rw [hr.slot, hr.ent, hh]; exact hkne i hi) (by rw [hr.slot, hr.ent, hh]; exact hkf)
    rw [hh, hr.slot] at hins
    have hn1 : (execs m (storeAt cfg m r v)).n = (execs m (boundSet cfg m h (k + 1))).n := by
      rw [hst, execs_append]; rfl
    obtain ⟨l'', rfl, hok2⟩ := postinsert_spec (abs := upd abs (cfg.key v) (some v)) hpi (by
      rw [hn1, hst, execs_append, ← execs_append]
      exact hins.wf)
    have : storeAt cfg m r v ++ .cnt ((execs m (storeAt cfg m r v)).n + 1) :: l'' =
        boundSet cfg m h (k + 1) ++ ([.store (slotAt m h k) v (cfg.tag h) none,
          .cnt ((execs m (boundSet cfg m h (k + 1))).n + 1)] ++ l'') := by
      rw [hn1, hst]; simp
    rw [this]
    refine hok.append (hins.append ?_)
    rw [hn1, hst, execs_append, ← execs_append] at hok2
    exact hok2
  | some o =>
    rw [hro] at hob
    obtain ⟨hc, hk, hel, tg, hf⟩ := hob
    simp only [hro, Option.isSome_some, if_true] at hl
    cases hl
    rcases hpr with ⟨hp1, hp2⟩ | ⟨j, hj1, hjo, hj2, hj3, hj4, hj5⟩
    · have hst : storeAt cfg m r v = boundSet cfg m h (e + 1) ++ [.store (slotAt m h e) v (cfg.tag h) none] := by
        simp only [storeAt, hp1, hc, hp2, hh]
      obtain ⟨hok, hr, hb⟩ := boundSet_spec hw h (e + 1) (by omega)
      have hins := replace_spec (v := v) (w := o) (k := e) (tg := tg) hok.wf hk (by rw [hh]; exact hb e (by omega))
        (by intro i hi; rw [hr.slot, hr.ent, hh]; exact hne i hi) (by rw [hr.slot, hr.ent, hh]; exact hf)
      rw [hh, hr.slot] at hins
      rw [hst]
      exact hok.append hins
    · have hje : j < e := by
        rcases Nat.lt_or_ge j e with h | h
        · exact h
        · have : j = e := by omega
          rw [hjo this] at hro; cases hro
      have hst : storeAt cfg m r v = boundSet cfg m h (j + 1) ++ [.store (slotAt m h j) v (cfg.tag h)
          (some (slotAt m h e)), .sig (h % 2 = 1), .del (slotAt m h e)] := by
        simp only [storeAt, hj3, hc, hj4, hh, hro]; simp
      obtain ⟨hok, hr, hb⟩ := boundSet_spec hw h (j + 1) (by omega)
      have hins := move_spec (v := v) (w := o) (j := j) (e := e) (tg := tg) hok.wf hk (by rw [hh]; exact hb j (by omega))
        (by intro i hi; rw [hr.slot, hr.ent, hh]; exact hne i (by omega)) hje (by rw [hr.slot, hr.ent, hh]; exact hf)
        (by
          rintro i hi ⟨w', t', h1, h2⟩
          rw [hr.slot, hr.ent, hh] at h1
          exact hnk i hi ⟨w', t', h1, h2⟩)
        (by rw [hr.slot, hr.ent, hh]; exact hj5)
      rw [hh, hr.slot] at hins
      rw [hst]
      exact hok.append hins

/-- The probe with restarts: `f` is called with a map that has room. -/
theorem withRoom_spec {cfg : Cfg K V} {q : K} {beh : Beh}
    {f : Map V → PR V → List Bool → Option (List (Stmt V) × Res V)} {abs : K → Option V}
    {P : Res V → (K → Option V) → Prop} (hbeh : beh ≠ .probe) (hden : abs q = none → P .denied abs)
    (ht : beh = .tombstone → abs q = none)
    (hf : ∀ m r e al l res, Wf cfg m abs → ¬ (r.cur = none ∧ r.pr = none) → r.obj = abs q →
      PS cfg m q beh (if beh = .tombstone then m.limit else bound cfg m (cfg.hash q)) m.limit r e →
      f m r al = some (l, res) → ∃ abs', OpOk cfg m abs l abs' ∧ P res abs') :
    ∀ fuel m al l res, Wf cfg m abs → withRoom cfg q beh f fuel m al = some (l, res) →
      ∃ abs', OpOk cfg m abs l abs' ∧ P res abs' := by
  intro fuel
  induction fuel with
  | zero => intro m al l res _ h; cases h
  | succ fuel ih =>
    intro m al l res hw h
    have hcall : Call cfg m q beh m.limit := by
      unfold Call
      cases beh <;> simp at hbeh ⊢
    obtain ⟨r, e, hr, hps⟩ := probe_spec hw hcall
    have hobj := hps.obj hw ht
    simp only [withRoom, hr] at h
    split at h
    · next hn =>
      split at h
      · cases h
      · cases h
        refine ⟨abs, OpOk.nil hw, hden ?_⟩
        cases ho : r.obj with
        | none => rw [← hobj, ho]
        | some o =>
          have := hps.2.2.1
          rw [ho] at this
          rw [this.1] at hn; cases hn.1
      · next u al' hg =>
        simp only [Option.map_eq_some_iff] at h
        obtain ⟨⟨l', res'⟩, h1, h2⟩ := h
        cases h2
        have hu := (grow_spec hw _ _ _ hg).1
        obtain ⟨abs', h3, h4⟩ := ih u al' l' res' hu h1
        exact ⟨abs', (OpOk.publish (m := m) hu).append h3, h4⟩
    · next hn => exact hf m r e al l res hw hn hobj hps h

/-! ## Garbage collection -/

/-- `maximum` and `bounds` cover the object of key `q`. -/
def Rec (cfg : Cfg K V) (g : Gc V) (v : V) (x : Nat) : Prop :=
  ∃ k, slotAt g.m (cfg.hash (cfg.key v)) k = x ∧ NE g.m (cfg.hash (cfg.key v)) k ∧
    InB cfg g.m (cfg.hash (cfg.key v)) k ∧ k + 1 ≤ g.maxi ∧
    (cfg.wmax ≤ g.bnds (cfg.hash (cfg.key v) &&& g.m.mask) ∨ k < g.bnds (cfg.hash (cfg.key v) &&& g.m.mask))

structure GcI (cfg : Cfg K V) (full : Bool) (m0 : Map V) (abs : K → Option V) (rest : List Nat) (g : Gc V) : Prop where
  ok : OpOk cfg m0 abs g.out abs
  em : g.m = execs m0 g.out
  geo : g.m.mask = m0.mask ∧ g.m.step = m0.step ∧ g.m.cap = m0.cap ∧ g.m.limit = m0.limit ∧ g.m.maxi = m0.maxi ∧
    g.m.bnd = m0.bnd ∧ g.m.n = m0.n
  fl : full = true → g.stop = false ∧ g.maxi ≤ m0.maxi ∧ (∀ off, g.bnds off ≤ g.maxi ∧ g.bnds off ≤ cfg.wmax) ∧
    ∀ x v tg, g.m.ent x = .full v tg → x ∈ rest ∨ Rec cfg g v x
  pt : full = false → g.maxi = m0.maxi

theorem sat_le (cfg : Cfg K V) (n : Nat) : sat cfg n ≤ cfg.wmax ∧ sat cfg n ≤ n ∧ (sat cfg n = n ∨ sat cfg n = cfg.wmax) := by
  unfold sat; split <;> omega

theorem bumpB_ge (b : Nat → Nat) (off n o : Nat) : b o ≤ bumpB b off n o := by
  unfold bumpB
  split
  · rw [upd_apply]
    split
    · next h => rw [h]; omega
    · exact Nat.le_refl _
  · exact Nat.le_refl _

theorem bumpB_self (b : Nat → Nat) (off n : Nat) : n ≤ bumpB b off n off := by
  unfold bumpB
  split
  · rw [upd_same]
  · omega

theorem bumpB_le (b : Nat → Nat) (off n o c : Nat) (h1 : b o ≤ c) (h2 : n ≤ c) : bumpB b off n o ≤ c := by
  unfold bumpB
  split
  · rw [upd_apply]; split <;> omega
  · exact h1

theorem gcBody_spec {cfg : Cfg K V} {full : Bool} {m0 : Map V} {abs : K → Option V} {x : Nat} {rest : List Nat}
    {g g' : Gc V} (hi : GcI cfg full m0 abs (x :: rest) g) (h : gcBody cfg full g x = some g') :
    GcI cfg full m0 abs rest g' := by
  have hw : Wf cfg g.m abs := hi.em ▸ hi.ok.wf
  unfold gcBody at h
  split at h
  · next hs =>
    cases h
    exact ⟨hi.ok, hi.em, hi.geo, fun hf => absurd (hi.fl hf).1 (by rw [hs]; simp), hi.pt⟩
  · split at h
    · next v tg hx =>
      simp only at h
      obtain ⟨r, e, hr, hps⟩ := probe_spec (beh := .probe) (opl := bound cfg g.m (cfg.hash (cfg.key v))) (q := cfg.key v) hw
        (.inl ⟨rfl, rfl⟩)
      have hobj := hps.obj hw (by simp)
      rw [hr] at h
      simp only at h
      have hav : abs (cfg.key v) = some v := hw.g.here x v tg hx (by simp)
      rw [hav] at hobj
      obtain ⟨hne, hnk, hob, hpr⟩ := hps
      rw [hobj] at hob
      obtain ⟨hc, -, hel, tg', hf⟩ := hob
      have hxe : slotAt g.m (cfg.hash (cfg.key v)) e = x :=
        hw.g.uniq _ _ _ _ _ _ hf hx rfl (by simp) (by simp)
      -- a probe within the bound
      have hinb : ∀ k, k ≤ e → InB cfg g.m (cfg.hash (cfg.key v)) k := by
        intro k hk
        have := hw.bound_le (cfg.hash (cfg.key v))
        refine ⟨by omega, fun b hb => ?_⟩
        have hel' : k < bound cfg g.m (cfg.hash (cfg.key v)) := by omega
        simp only [bound, hb] at hel'
        split at hel'
        · left; assumption
        · right; exact hel'
      -- the effect of the move
      obtain ⟨k, hkn, hke, hok1, hent, hgeo⟩ : ∃ k, r.n = k + 1 ∧ k ≤ e ∧ OpOk cfg g.m abs (moveTo cfg r v) abs ∧
          (∀ y w t, (execs g.m (moveTo cfg r v)).ent y = .full w t → (y = slotAt g.m (cfg.hash (cfg.key v)) k ∧ w = v) ∨
            (y ≠ x ∧ g.m.ent y = .full w t)) ∧
          ((∀ y, g.m.ent y ≠ .empty → (execs g.m (moveTo cfg r v)).ent y ≠ .empty) ∧
          (execs g.m (moveTo cfg r v)).mask = g.m.mask ∧ (execs g.m (moveTo cfg r v)).step = g.m.step ∧
          (execs g.m (moveTo cfg r v)).cap = g.m.cap ∧ (execs g.m (moveTo cfg r v)).limit = g.m.limit ∧
          (execs g.m (moveTo cfg r v)).maxi = g.m.maxi ∧ (execs g.m (moveTo cfg r v)).bnd = g.m.bnd ∧
          (execs g.m (moveTo cfg r v)).n = g.m.n) := by
        rcases hpr with ⟨hp1, hp2⟩ | ⟨j, hj1, hjo, hj2, hj3, hj4, hj5⟩
        · refine ⟨e, hp2, Nat.le_refl _, ?_, ?_, ?_⟩
          · simp only [moveTo, hp1]; exact OpOk.nil hw
          · intro y w t hy
            simp only [moveTo, hp1] at hy
            change g.m.ent y = _ at hy
            by_cases hyx : y = x
            · left
              rw [hyx, hx] at hy; cases hy
              exact ⟨hyx.trans hxe.symm, rfl⟩
            · exact .inr ⟨hyx, hy⟩
          · simp only [moveTo, hp1]
            exact ⟨fun y h => h, rfl, rfl, rfl, rfl, rfl, rfl, rfl⟩
        · have hje : j < e := by
            rcases Nat.lt_or_ge j e with h | h
            · exact h
            · have : j = e := by omega
              rw [hjo this] at hobj; cases hobj
          have hmv : moveTo cfg r v = [.store (slotAt g.m (cfg.hash (cfg.key v)) j) v (cfg.tag (cfg.hash (cfg.key v)))
              (some (slotAt g.m (cfg.hash (cfg.key v)) e)), .sig (cfg.hash (cfg.key v) % 2 = 1),
              .del (slotAt g.m (cfg.hash (cfg.key v)) e)] := by
            simp only [moveTo, hj3, hc]
          refine ⟨j, hj4, by omega, ?_, ?_, ?_⟩
          · rw [hmv]
            have := move_spec (v := v) (w := v) hw rfl (hinb j (by omega)) (fun i hi => hne i (by omega)) hje hf hnk hj5
            rwa [show upd abs (cfg.key v) (some v) = abs by rw [← hav, upd_eq_self]] at this
          · rw [hmv, hxe]
            intro y w t hy
            change upd (upd g.m.ent (slotAt g.m (cfg.hash (cfg.key v)) j) (.full v (cfg.tag (cfg.hash (cfg.key v))))) x
              .tomb y = _ at hy
            rw [upd_apply] at hy
            split at hy
            · cases hy
            · next hyx =>
              rw [upd_apply] at hy
              split at hy
              · next hyj => cases hy; exact .inl ⟨hyj, rfl⟩
              · exact .inr ⟨hyx, hy⟩
          · rw [hmv]
            refine ⟨?_, rfl, rfl, rfl, rfl, rfl, rfl, rfl⟩
            intro y hy
            change upd (upd g.m.ent _ _) _ .tomb y ≠ _
            rw [upd_apply]
            split
            · simp
            · rw [upd_apply]
              split
              · simp
              · exact hy
      obtain ⟨hnem, hg1, hg2, hg3, hg4, hg5, hg6, hg7⟩ := hgeo
      obtain ⟨hi1, hi2, hi3, hi4, hi5, hi6, hi7⟩ := hi.geo
      have hok : OpOk cfg m0 abs (g.out ++ moveTo cfg r v) abs := hi.ok.append (hi.em ▸ hok1)
      have hem : execs g.m (moveTo cfg r v) = execs m0 (g.out ++ moveTo cfg r v) := by rw [execs_append, ← hi.em]
      have hgeo' := show _ ∧ _ ∧ _ ∧ _ ∧ _ ∧ _ ∧ _ from
        ⟨hg1.trans hi1, hg2.trans hi2, hg3.trans hi3, hg4.trans hi4, hg5.trans hi5, hg6.trans hi6, hg7.trans hi7⟩
      cases hfull : full with
      | false =>
        subst hfull
        simp only [Bool.false_eq_true, if_false] at h
        cases h
        exact ⟨hok, hem, hgeo', (fun h => by cases h), hi.pt⟩
      | true =>
        subst hfull
        simp only [if_true] at h
        cases h
        obtain ⟨hst, hmx, hbn, hrec⟩ := hi.fl rfl
        have hkm : k + 1 ≤ m0.maxi := by
          have := (hinb k hke).1
          omega
        refine ⟨hok, hem, hgeo', fun _ => ⟨hst, ?_, ?_, ?_⟩, (fun h => by cases h)⟩
        · show (if r.n > g.maxi then r.n else g.maxi) ≤ m0.maxi
          split <;> omega
        · intro off
          have h1 := hbn off
          have h2 := sat_le cfg r.n
          show bumpB _ _ _ off ≤ (if _ then _ else _) ∧ bumpB _ _ _ off ≤ _
          refine ⟨bumpB_le _ _ _ _ _ ?_ ?_, bumpB_le _ _ _ _ _ h1.2 h2.1⟩ <;> split <;> omega
        · -- what is recorded
          have hslot : slotAt (execs g.m (moveTo cfg r v)) = slotAt g.m := by
            funext a b; unfold slotAt; rw [hg1, hg2]
          have hinb' : ∀ a b, InB cfg g.m a b → InB cfg (execs g.m (moveTo cfg r v)) a b := by
            intro a b hab
            refine ⟨by rw [hg5]; exact hab.1, fun f hf => ?_⟩
            rw [hg6] at hf
            rw [hg1]; exact hab.2 f hf
          have hne' : ∀ a b, NE g.m a b → NE (execs g.m (moveTo cfg r v)) a b := by
            intro a b hab j hj
            rw [hslot]; exact hnem _ (hab j hj)
          intro y w t hy
          rcases hent y w t hy with ⟨h1, h2⟩ | ⟨h1, h2⟩
          · right
            subst h2
            refine ⟨k, ?_, hne' _ _ (fun i hi => hne i (by omega)), hinb' _ _ (hinb k hke), ?_, ?_⟩
            · show slotAt (execs g.m (moveTo cfg r w)) _ k = y
              rw [hslot, h1]
            · show k + 1 ≤ (if r.n > g.maxi then r.n else g.maxi)
              split <;> omega
            · show cfg.wmax ≤ bumpB g.bnds _ (sat cfg r.n) (_ &&& (execs g.m (moveTo cfg r w)).mask) ∨
                k < bumpB g.bnds _ (sat cfg r.n) (_ &&& (execs g.m (moveTo cfg r w)).mask)
              have h3 := bumpB_self g.bnds (cfg.hash (cfg.key w) &&& (execs g.m (moveTo cfg r w)).mask) (sat cfg r.n)
              have h4 := sat_le cfg r.n
              omega
          · rcases hrec y w t h2 with h3 | ⟨k', h4, h5, h6, h7, h8⟩
            · rcases List.mem_cons.1 h3 with h3 | h3
              · exact absurd h3 h1
              · exact .inl h3
            · right
              refine ⟨k', ?_, hne' _ _ h5, hinb' _ _ h6, ?_, ?_⟩
              · show slotAt (execs g.m (moveTo cfg r v)) _ k' = y
                rw [hslot, h4]
              · show k' + 1 ≤ (if r.n > g.maxi then r.n else g.maxi)
                split <;> omega
              · show cfg.wmax ≤ bumpB g.bnds _ (sat cfg r.n) (_ &&& (execs g.m (moveTo cfg r v)).mask) ∨
                  k' < bumpB g.bnds _ (sat cfg r.n) (_ &&& (execs g.m (moveTo cfg r v)).mask)
                have := bumpB_ge g.bnds (cfg.hash (cfg.key v) &&& (execs g.m (moveTo cfg r v)).mask) (sat cfg r.n)
                  (cfg.hash (cfg.key w) &&& (execs g.m (moveTo cfg r v)).mask)
                rw [hg1] at this ⊢
                omega
    · next hx =>
      cases h
      refine ⟨hi.ok, hi.em, hi.geo, fun hf => ?_, hi.pt⟩
      obtain ⟨h1, h2, h3, h4⟩ := hi.fl hf
      refine ⟨h1, h2, h3, fun y v tg hy => ?_⟩
      rcases h4 y v tg hy with h5 | h5
      · rcases List.mem_cons.1 h5 with h6 | h6
        · subst h6; exact absurd hy (hx v tg)
        · exact .inl h6
      · exact .inr h5

theorem gcLoop_spec {cfg : Cfg K V} {full : Bool} {m0 : Map V} {abs : K → Option V} :
    ∀ (xs : List Nat) (g g' : Gc V), GcI cfg full m0 abs xs g → gcLoop cfg full xs g = some g' →
      GcI cfg full m0 abs [] g' := by
  intro xs
  induction xs with
  | nil => intro g g' hi h; cases h; exact hi
  | cons x xs ih =>
    intro g g' hi h
    simp only [gcLoop, Option.bind_eq_some_iff] at h
    obtain ⟨g1, h1, h2⟩ := h
    exact ih g1 g' (gcBody_spec hi h1) h2

/-- Every slot is visited: `(i + seed) & mask` for `i` below the capacity. -/
theorem visits {cfg : Cfg K V} {m : Map V} {g : Gh K V} (hg : G cfg m g) (seed x : Nat) (hx : x < m.cap) :
    x ∈ (List.range m.cap).map fun i => (i + seed) &&& m.mask := by
  obtain ⟨p, -, -, hc, hm⟩ := hg.geo
  rw [List.mem_map]
  have hp : 0 < 2 ^ p := Nat.two_pow_pos p
  refine ⟨(x + (2 ^ p - seed % 2 ^ p)) % 2 ^ p, ?_, ?_⟩
  · rw [List.mem_range, hc]; exact Nat.mod_lt _ hp
  · rw [hm, Nat.and_two_pow_sub_one_eq_mod, Nat.mod_add_mod]
    rw [hc] at hx
    have h1 : seed % 2 ^ p < 2 ^ p := Nat.mod_lt _ hp
    have h2 : x + (2 ^ p - seed % 2 ^ p) + seed = x + 2 ^ p * (1 + seed / 2 ^ p) := by
      have := Nat.div_add_mod seed (2 ^ p)
      rw [Nat.mul_add, Nat.mul_one]; omega
    rw [h2, Nat.add_mul_mod_self_left, Nat.mod_eq_of_lt hx]

/-- Storing new bounds one after the other. -/
theorem setBnds_spec {cfg : Cfg K V} {abs : K → Option V} {f : Nat → Nat} (hf : ∀ off, f off ≤ cfg.wmax) :
    ∀ (is : List Nat) (m : Map V) (b : Nat → Nat), m.bnd = some b →
      (∀ q v, abs q = some v → ∃ k, Pos cfg m none q k v ∧
        (f (cfg.hash q &&& m.mask) = cfg.wmax ∨ k < f (cfg.hash q &&& m.mask))) →
      Effs cfg m ⟨abs, none, false⟩ (is.map fun i => .setBnd i (f i)) ∧
      gexecs cfg m ⟨abs, none, false⟩ (is.map fun i => .setBnd i (f i)) = ⟨abs, none, false⟩ ∧
      Near cfg (· = abs) m ⟨abs, none, false⟩ (is.map fun i => .setBnd i (f i)) ∧
      execs m (is.map fun i => .setBnd i (f i)) =
        { m with bnd := some (fun off => if off ∈ is then f off else b off) } := by
  intro is
  induction is with
  | nil =>
    intro m b hb _
    refine ⟨trivial, rfl, rfl, ?_⟩
    simp only [List.map_nil, execs, List.foldl_nil, List.not_mem_nil, if_false]
    rw [← hb]
  | cons i is ih =>
    intro m b hb hp
    have hb' : (exec m (.setBnd i (f i))).bnd = some (upd b i (f i)) := by simp [exec, hb]
    have hp' : ∀ q v, abs q = some v → ∃ k, Pos cfg (exec m (.setBnd i (f i))) none q k v ∧
        (f (cfg.hash q &&& m.mask) = cfg.wmax ∨ k < f (cfg.hash q &&& m.mask)) := by
      intro q v hq
      obtain ⟨k, ⟨h1, h2, h3, h4⟩, h5⟩ := hp q v hq
      refine ⟨k, ⟨⟨h1.1, fun b'' hb'' => ?_⟩, h2, h3, h4⟩, h5⟩
      rw [hb'] at hb''
      cases hb''
      show upd b i (f i) (cfg.hash q &&& m.mask) = _ ∨ _ < upd b i (f i) (cfg.hash q &&& m.mask)
      rw [upd_apply]
      split
      · next h => rw [← h]; exact h5
      · exact h1.2 b hb
    obtain ⟨h1, h2, h4, h3⟩ := ih _ _ hb' hp'
    refine ⟨⟨⟨hf i, fun q v hq => ?_⟩, h1⟩, h2, ⟨rfl, h4⟩, ?_⟩
    · obtain ⟨k, hk, -⟩ := hp' q v hq
      exact ⟨k, hk⟩
    · show execs (exec m (.setBnd i (f i))) _ = _
      rw [h3]
      simp only [exec]
      congr 2
      funext off
      by_cases h : off = i
      · subst h; simp [upd]
      · simp [upd, h]

theorem gc_spec {cfg : Cfg K V} {m : Map V} {abs : K → Option V} {cycles seed : Nat} {al : List Bool}
    {l : List (Stmt V)} {res : Res V} (hw : Wf cfg m abs) (h : gc cfg m cycles seed al = some (l, res)) :
    OpOk cfg m abs l abs ∧ (res = .bool true ∨ res = .denied) := by
  unfold gc at h
  split at h
  · next hn =>
    cases h
    refine ⟨?_, .inl rfl⟩
    have hemp : ∀ x v tg, m.ent x ≠ .full v tg := by
      intro x v tg hx
      have h1 := hw.cn
      rw [hn] at h1
      have h2 := (hw.g.tag x v tg hx).2
      unfold card at h1
      have := List.countP_eq_zero.1 h1.symm x (List.mem_range.2 h2)
      rw [hx] at this; exact this rfl
    have habs : ∀ q v, abs q ≠ some v := by
      intro q v hq
      obtain ⟨k, -, -, hf, -⟩ := hw.g.pos q v hq
      exact hemp _ _ _ hf
    have he : Eff cfg m ⟨abs, none, false⟩ (.setMax 0) := fun q v hq => absurd hq (habs q v)
    have hg := hw.g.exec he
    cases hb : m.bnd with
    | none =>
      simp only [Option.isSome_none, Bool.false_eq_true, if_false]
      refine ⟨⟨he, trivial⟩, rfl, .inl ⟨rfl, rfl⟩, hg, ?_, Nat.zero_le _, hw.cn⟩
      intro b off hb'
      change m.bnd = _ at hb'
      rw [hb] at hb'; cases hb'
    | some b =>
      simp only [Option.isSome_some, if_true]
      obtain ⟨h1, h2, h4, h3⟩ := setBnds_spec (cfg := cfg) (abs := abs) (f := fun _ => 0) (fun _ => Nat.zero_le _)
        (List.range m.cap) (exec m (.setMax 0)) b hb (fun q v hq => absurd hq (habs q v))
      have heq : execs m (.setMax 0 :: (List.range m.cap).map fun i => .setBnd i 0) =
          execs (exec m (.setMax 0)) ((List.range m.cap).map fun i => .setBnd i 0) := rfl
      refine ⟨⟨he, h1⟩, h2, .inl ⟨rfl, h4.once⟩, ?_, ?_, ?_, ?_⟩
      · rw [heq, h3]
        refine ⟨hg.geo, hg.tag, hg.ak, fun q v hq => absurd hq (habs q v), hg.here, hg.uniq, hg.dup, ?_⟩
        intro b' off hb'
        cases hb'
        simp only
        split
        · exact Nat.zero_le _
        · exact hw.g.wb b off hb
      · rw [heq, h3]
        intro b' off hb' ho
        cases hb'
        simp only [List.mem_range]
        rw [if_pos (show off < m.cap from ho)]
        exact Nat.zero_le _
      · rw [heq, h3]; exact Nat.zero_le _
      · rw [heq, h3]; exact hw.cn
  · next hn =>
    simp only at h
    have key : ∀ (l : List (Stmt V)) (res : Res V), (match gcLoop cfg (decide (cycles = 0))
          ((List.range m.cap).map fun i => (i + seed) &&& m.mask)
          ⟨[], m, cycles, false, if (decide (cycles = 0)) = true then 0 else m.maxi, fun _ => 0⟩ with
        | none => none
        | some g => some (g.out ++ (if g.maxi ≠ g.m.maxi then [.setMax g.maxi] else []) ++
          (if (decide (cycles = 0)) = true ∧ m.bnd.isSome = true then
            (List.range m.cap).map fun i => .setBnd i (g.bnds i) else []), Res.bool true)) = some (l, res) →
        OpOk cfg m abs l abs ∧ (res = .bool true ∨ res = .denied) := by
      intro l res h
      have hi0 : GcI cfg (decide (cycles = 0)) m abs ((List.range m.cap).map fun i => (i + seed) &&& m.mask)
          ⟨[], m, cycles, false, if (decide (cycles = 0)) = true then 0 else m.maxi, fun _ => 0⟩ := by
        refine ⟨OpOk.nil hw, rfl, ⟨rfl, rfl, rfl, rfl, rfl, rfl, rfl⟩, fun hf => ⟨rfl, ?_, ?_, ?_⟩, fun hf => ?_⟩
        · simp [hf]
        · simp
        · intro x v tg hx
          exact .inl (visits hw.g seed x (hw.g.tag x v tg hx).2)
        · simp [hf]
      split at h
      · cases h
      · next g hg =>
        cases h
        refine ⟨?_, .inl rfl⟩
        have hi := gcLoop_spec _ _ _ hi0 hg
        have hwg : Wf cfg g.m abs := hi.em ▸ hi.ok.wf
        obtain ⟨g1, g2, g3, g4, g5, g6, g7⟩ := hi.geo
        rw [List.append_assoc]
        refine hi.ok.append ?_
        rw [← hi.em]
        by_cases hcy : cycles = 0
        · obtain ⟨-, hmx, hbn, hrec⟩ := hi.fl (by simp [hcy])
          have hpos : ∀ q v, abs q = some v → ∃ k, Pos cfg g.m none q k v ∧ k < g.maxi ∧
              (g.bnds (cfg.hash q &&& g.m.mask) = cfg.wmax ∨ k < g.bnds (cfg.hash q &&& g.m.mask)) := by
            intro q v hq
            obtain ⟨k, h1, h2, h3, h4⟩ := hwg.g.pos q v hq
            have hkv := hwg.g.ak q v hq
            rcases hrec _ v _ h3 with h5 | ⟨k', h5, h6, h7, h8, h9⟩
            · cases h5
            · rw [hkv] at h5 h6 h7 h9
              refine ⟨k', ⟨h7, by simp, by rw [h5, h3], h6⟩, h8, ?_⟩
              have := (hbn (cfg.hash q &&& g.m.mask)).2
              omega
          -- the maximum
          obtain ⟨m1, l1, hl1, hm1, he1, hg1, hn1, hent1⟩ : ∃ m1 l1, (if g.maxi ≠ g.m.maxi then [Stmt.setMax g.maxi] else []) = l1 ∧
              execs g.m l1 = m1 ∧ Effs cfg g.m ⟨abs, none, false⟩ l1 ∧
              gexecs cfg g.m ⟨abs, none, false⟩ l1 = ⟨abs, none, false⟩ ∧
              Near cfg (· = abs) g.m ⟨abs, none, false⟩ l1 ∧ m1 = { g.m with maxi := g.maxi } := by
            by_cases hc : g.maxi ≠ g.m.maxi
            · rw [if_pos hc]
              refine ⟨_, _, rfl, rfl, ⟨fun q v hq => ?_, trivial⟩, rfl, ⟨rfl, rfl⟩, rfl⟩
              obtain ⟨k, ⟨h1, h2, h3, h4⟩, h5, -⟩ := hpos q v hq
              exact ⟨k, ⟨h5, h1.2⟩, h2, h3, h4⟩
            · rw [if_neg hc]
              refine ⟨_, _, rfl, rfl, trivial, rfl, rfl, ?_⟩
              have : g.maxi = g.m.maxi := by omega
              rw [this]; rfl
          rw [hl1]
          have hpos1 : ∀ q v, abs q = some v → ∃ k, Pos cfg m1 none q k v ∧
              (g.bnds (cfg.hash q &&& m1.mask) = cfg.wmax ∨ k < g.bnds (cfg.hash q &&& m1.mask)) := by
            intro q v hq
            obtain ⟨k, ⟨h1, h2, h3, h4⟩, h5, h6⟩ := hpos q v hq
            subst hent1
            exact ⟨k, ⟨⟨h5, h1.2⟩, h2, h3, h4⟩, h6⟩
          cases hb : m.bnd with
          | none =>
            simp only [Option.isSome_none, Bool.false_eq_true, and_false, if_false, List.append_nil]
            have hG : G cfg m1 ⟨abs, none, false⟩ := by
              subst hent1
              exact ⟨hwg.g.geo, hwg.g.tag, hwg.g.ak, fun q v hq => by
                obtain ⟨k, hk, -⟩ := hpos1 q v hq; exact ⟨k, hk⟩, hwg.g.here, hwg.g.uniq, hwg.g.dup, hwg.g.wb⟩
            refine ⟨he1, hg1, hn1.once, ?_, ?_, ?_, ?_⟩
            · rw [hm1]; exact hG
            · rw [hm1, hent1]
              intro b off hb'
              change g.m.bnd = _ at hb'
              rw [g6, hb] at hb'; cases hb'
            · rw [hm1, hent1]
              have := hw.ml
              show g.maxi ≤ g.m.limit
              omega
            · rw [hm1, hent1]; exact hwg.cn
          | some b =>
            simp only [Option.isSome_some, and_true, decide_eq_true_eq, hcy, if_true]
            have hb1 : m1.bnd = some b := by rw [hent1]; show g.m.bnd = _; rw [g6, hb]
            obtain ⟨h1, h2, h4, h3⟩ := setBnds_spec (f := g.bnds) (fun off => (hbn off).2) (List.range m.cap) m1 b hb1 hpos1
            refine ⟨(Effs_append ..).2 ⟨he1, by rw [hm1, hg1]; exact h1⟩, by rw [gexecs_append, hm1, hg1, h2],
              (hn1.append (by rw [hm1, hg1]; exact h4)).once, ?_, ?_, ?_, ?_⟩
            · rw [execs_append, hm1, h3]
              have hinb : ∀ q k, (g.bnds (cfg.hash q &&& m1.mask) = cfg.wmax ∨ k < g.bnds (cfg.hash q &&& m1.mask)) →
                  InB cfg m1 (cfg.hash q) k → InB cfg { m1 with bnd := some (fun off =>
                    if off ∈ List.range m.cap then g.bnds off else b off) } (cfg.hash q) k := by
                intro q k h5 h6
                refine ⟨h6.1, fun b' hb' => ?_⟩
                cases hb'
                simp only
                split
                · exact h5
                · exact h6.2 b hb1
              have hpos2 : ∀ q v, abs q = some v → ∃ k, Pos cfg { m1 with bnd := some (fun off =>
                    if off ∈ List.range m.cap then g.bnds off else b off) } none q k v := by
                intro q v hq
                obtain ⟨k, ⟨h5, h6, h7, h8⟩, h9⟩ := hpos1 q v hq
                exact ⟨k, hinb q k h9 h5, h6, h7, h8⟩
              subst hent1
              refine ⟨hwg.g.geo, hwg.g.tag, hwg.g.ak, hpos2, hwg.g.here, hwg.g.uniq, hwg.g.dup, ?_⟩
              intro b' off hb'
              cases hb'
              simp only
              split
              · exact (hbn off).2
              · exact hw.g.wb b off hb
            · rw [execs_append, hm1, h3]
              intro b' off hb' ho
              cases hb'
              have ho' : off < m.cap := by rw [hent1] at ho; rw [← g3]; exact ho
              simp only [List.mem_range]
              rw [if_pos ho', hent1]
              exact (hbn off).1
            · rw [execs_append, hm1, h3, hent1]
              have := hw.ml
              show g.maxi ≤ g.m.limit
              omega
            · rw [execs_append, hm1, h3, hent1]
              exact hwg.cn
        · have hpt := hi.pt (by simp [hcy])
          simp only [hcy, decide_false, Bool.false_eq_true, false_and, if_false, List.append_nil]
          rw [if_neg (by omega)]
          exact OpOk.nil hwg
    split at h
    · split at h
      · cases h
      · cases h; exact ⟨OpOk.nil hw, .inr rfl⟩
      · exact key l res h
    · exact key l res h

/-! ## Operations -/

/-- Every operation keeps the invariant and does what the map does. -/
theorem prog_spec {cfg : Cfg K V} {m : Map V} {abs : K → Option V} {op : Op K V} {al : List Bool}
    {l : List (Stmt V)} {res : Res V} (hw : Wf cfg m abs) (hc : Contract cfg abs op)
    (h : prog cfg m al op = some (l, res)) :
    ∃ abs', OpOk cfg m abs l abs' ∧ Spec cfg abs op res abs' := by
  cases op with
  | put v =>
    refine withRoom_spec (P := Spec cfg abs (.put v)) (by simp) (fun h => ⟨h, rfl⟩) (by simp) ?_ _ _ _ _ _ hw h
    intro m r e al l res hw hr ho hps hf
    unfold putTail at hf
    split at hf
    · next hs =>
      cases hf
      refine ⟨abs, OpOk.nil hw, ?_, rfl⟩
      rw [← ho]; intro h; rw [h] at hs; cases hs
    · next hs =>
      simp only [Option.map_eq_some_iff, Prod.mk.injEq] at hf
      obtain ⟨l', h1, rfl, rfl⟩ := hf
      refine ⟨_, setAt_spec hw hps hr ho h1, ?_, rfl⟩
      rw [← ho]
      cases hro : r.obj with
      | none => rfl
      | some o => rw [hro] at hs; simp at hs
  | putUnique v =>
    refine withRoom_spec (P := Spec cfg abs (.putUnique v)) (by simp) (fun h => rfl) (fun _ => hc) ?_ _ _ _ _ _ hw h
    intro m r e al l res hw hr ho hps hf
    have hn : r.obj = none := ho.trans hc
    unfold putTail at hf
    rw [hn] at hf
    simp only [Option.isSome_none, Bool.false_eq_true, if_false, Option.map_eq_some_iff, Prod.mk.injEq] at hf
    obtain ⟨l', h1, rfl, rfl⟩ := hf
    exact ⟨_, setAt_spec hw hps hr ho h1, rfl⟩
  | set v =>
    refine withRoom_spec (P := Spec cfg abs (.set v)) (by simp) (fun h => ⟨h, rfl⟩) (by simp) ?_ _ _ _ _ _ hw h
    intro m r e al l res hw hr ho hps hf
    simp only [setTail, Option.map_eq_some_iff, Prod.mk.injEq] at hf
    obtain ⟨l', h1, rfl, rfl⟩ := hf
    exact ⟨_, setAt_spec hw hps hr ho h1, ho, rfl⟩
  | apply q fn =>
    refine withRoom_spec (P := Spec cfg abs (.apply q fn)) (by simp) (fun h => ⟨h, rfl⟩) (by simp) ?_ _ _ _ _ _ hw h
    intro m r e al l res hw hr ho hps hf
    unfold applyTail at hf
    cases hfn : fn r.obj with
    | none =>
      rw [hfn] at hf
      simp only at hf
      have hfn' : fn (abs q) = none := by rw [← ho]; exact hfn
      cases hro : r.obj with
      | none =>
        rw [hro] at hf ho
        simp only at hf
        cases hf
        refine ⟨abs, OpOk.nil hw, ?_⟩
        show abs = upd abs q (fn (abs q))
        rw [hfn', ho, upd_eq_self]
      | some o =>
        have hps' := hps.2.2.1
        rw [hro] at hps'
        obtain ⟨h1, h2, h3, tg, h4⟩ := hps'
        rw [hro, h1] at hf
        simp only at hf
        cases hf
        refine ⟨_, del_spec hw h4, ?_⟩
        show _ = upd abs q (fn (abs q))
        rw [hfn', h2]
    | some w =>
      rw [hfn] at hf
      simp only at hf
      have hfn' : fn (abs q) = some w := by rw [← ho]; exact hfn
      have hkw : cfg.key w = q := by simpa [Contract, hfn'] using hc
      split at hf
      · next heq =>
        cases hf
        refine ⟨abs, OpOk.nil hw, ?_⟩
        show abs = upd abs q (fn (abs q))
        rw [hfn', heq, ho, upd_eq_self]
      · simp only [Option.map_eq_some_iff, Prod.mk.injEq] at hf
        obtain ⟨l', h1, rfl, rfl⟩ := hf
        subst hkw
        refine ⟨_, setAt_spec hw hps hr ho h1, ?_⟩
        show _ = upd abs _ (fn (abs _))
        rw [hfn']
  | fas v =>
    simp only [prog, fas] at h
    obtain ⟨r, e, hr, hps⟩ := probe_spec (beh := .probe) (opl := bound cfg m (cfg.hash (cfg.key v))) (q := cfg.key v) hw
      (.inl ⟨rfl, rfl⟩)
    have hobj := hps.obj hw (by simp)
    have hel0 := hw.bound_le (cfg.hash (cfg.key v))
    rw [hr] at h
    simp only at h
    obtain ⟨hne, hnk, hob, hpr⟩ := hps
    cases hro : r.obj with
    | none =>
      rw [hro] at h
      cases h
      exact ⟨abs, OpOk.nil hw, by rw [← hobj, hro], rfl⟩
    | some o =>
      rw [hro] at h hob
      obtain ⟨hcu, hk, hel, tg, hf⟩ := hob
      have hinb : ∀ k, k ≤ e → InB cfg m (cfg.hash (cfg.key v)) k := by
        intro k hk
        refine ⟨by omega, fun b hb => ?_⟩
        have hel' : k < bound cfg m (cfg.hash (cfg.key v)) := by omega
        simp only [bound, hb] at hel'
        split at hel'
        · left; assumption
        · right; exact hel'
      rcases hpr with ⟨hp1, hp2⟩ | ⟨j, hj1, hjo, hj2, hj3, hj4, hj5⟩
      · rw [hp1, hcu] at h
        simp only at h
        cases h
        refine ⟨_, replace_spec hw hk (hinb e (Nat.le_refl _)) hne hf, ?_, rfl⟩
        rw [← hobj, hro]
      · have hje : j < e := by
          rcases Nat.lt_or_ge j e with h | h
          · exact h
          · have : j = e := by omega
            rw [hjo this] at hro; cases hro
        have hmv : moveTo cfg r v = [.store (slotAt m (cfg.hash (cfg.key v)) j) v (cfg.tag (cfg.hash (cfg.key v)))
            (some (slotAt m (cfg.hash (cfg.key v)) e)), .sig (cfg.hash (cfg.key v) % 2 = 1),
            .del (slotAt m (cfg.hash (cfg.key v)) e)] := by
          simp only [moveTo, hj3, hcu]
        rw [hj3] at h
        simp only [hmv] at h
        cases h
        refine ⟨_, move_spec hw hk (hinb j hj1) (fun i hi => hne i (by omega)) hje hf hnk hj5, ?_, rfl⟩
        rw [← hobj, hro]
  | remove q =>
    simp only [prog, remove] at h
    obtain ⟨r, e, hr, hps⟩ := probe_spec (beh := .probe) (opl := bound cfg m (cfg.hash q)) (q := q) hw
      (.inl ⟨rfl, rfl⟩)
    have hobj := hps.obj hw (by simp)
    rw [hr] at h
    simp only at h
    obtain ⟨hne, hnk, hob, hpr⟩ := hps
    cases hro : r.obj with
    | none =>
      rw [hro] at h hobj
      cases h
      refine ⟨abs, OpOk.nil hw, hobj, ?_⟩
      rw [hobj, upd_eq_self]
    | some o =>
      rw [hro] at h hob hobj
      obtain ⟨hcu, hk, hel, tg, hf⟩ := hob
      rw [hcu] at h
      cases h
      exact ⟨_, del_spec hw hf, hobj, by rw [hk]⟩
  | grow c =>
    simp only [prog, growOp] at h
    split at h
    · cases h
    · cases h; exact ⟨abs, OpOk.nil hw, rfl⟩
    · next u _ hg => cases h; exact ⟨abs, OpOk.publish (grow_spec hw _ _ _ hg).1, rfl⟩
  | rebuild =>
    simp only [prog, growOp] at h
    split at h
    · cases h
    · cases h; exact ⟨abs, OpOk.nil hw, rfl⟩
    · next u _ hg => cases h; exact ⟨abs, OpOk.publish (grow_spec hw _ _ _ hg).1, rfl⟩
  | gc cycles seed =>
    obtain ⟨h1, h2⟩ := gc_spec hw h
    refine ⟨abs, h1, ?_⟩
    rcases h2 with rfl | rfl <;> rfl
  | reset =>
    simp only [prog] at h
    rcases al with _ | ⟨a, al⟩
    · cases h
    · cases a <;> cases h
      · exact ⟨abs, OpOk.nil hw, rfl⟩
      · exact ⟨_, OpOk.clear (create_wf cfg _), rfl⟩
  | resetSize c =>
    simp only [prog] at h
    rcases al with _ | ⟨a, al⟩
    · cases h
    · cases a <;> cases h
      · exact ⟨abs, OpOk.nil hw, rfl⟩
      · exact ⟨_, OpOk.clear (create_wf cfg _), rfl⟩

/-! ## C47: histories -/

/-- A history of operations with their allocations and results, on the model. -/
inductive Hist (cfg : Cfg K V) : Map V → List (Op K V × Res V) → Map V → Prop
  | nil (m) : Hist cfg m [] m
  | cons {m op al l res ops m'} : prog cfg m al op = some (l, res) → Hist cfg (execs m l) ops m' →
      Hist cfg m ((op, res) :: ops) m'

/-- The same history on the map, `none` if a contract is violated on the way. -/
inductive SpecHist (cfg : Cfg K V) : (K → Option V) → List (Op K V × Res V) → (K → Option V) → Prop
  | nil (a) : SpecHist cfg a [] a
  | cons {a op res b ops c} : Contract cfg a op → Spec cfg a op res b → SpecHist cfg b ops c →
      SpecHist cfg a ((op, res) :: ops) c

/-- The user keeps the contracts: whenever the operations so far led to `a`, the next one is allowed. -/
def Keeps (cfg : Cfg K V) (a : K → Option V) (ops : List (Op K V × Res V)) : Prop :=
  ∀ p op res s b, ops = p ++ (op, res) :: s → SpecHist cfg a p b → Contract cfg b op

theorem hist_spec {cfg : Cfg K V} {m m' : Map V} {abs : K → Option V} {ops : List (Op K V × Res V)}
    (hw : Wf cfg m abs) (hh : Hist cfg m ops m') (hk : Keeps cfg abs ops) :
    ∃ abs', SpecHist cfg abs ops abs' ∧ Wf cfg m' abs' := by
  induction hh generalizing abs with
  | nil m => exact ⟨abs, .nil _, hw⟩
  | @cons m op al l res ops m' hp hh ih =>
    have hc : Contract cfg abs op := hk [] op res ops abs rfl (.nil _)
    obtain ⟨b, h1, h2⟩ := prog_spec hw hc hp
    obtain ⟨c, h3, h4⟩ := ih h1.wf (by
      intro p op' res' s d h5 h6
      exact hk ((op, res) :: p) op' res' s d (by rw [h5]; rfl) (.cons hc h2 h6))
    exact ⟨c, .cons hc h2 h3, h4⟩

theorem Wf.get {cfg : Cfg K V} {m : Map V} {abs : K → Option V} (hw : Wf cfg m abs) (q : K) :
    get cfg m q = some (abs q) := by
  obtain ⟨r, e, hr, hps⟩ := probe_spec (beh := .probe) (opl := bound cfg m (cfg.hash q)) (q := q) hw
    (.inl ⟨rfl, rfl⟩)
  unfold Hs.get
  rw [hr, Option.map_some, hps.obj hw (by simp)]

/-- Object in a slot. -/
def objOf : Slot V → Option V
  | .full v _ => some v
  | _ => none

theorem card_eq (m : Map V) : card m = ((List.range m.cap).filterMap fun x => objOf (m.ent x)).length := by
  unfold card
  induction List.range m.cap with
  | nil => rfl
  | cons a l ih =>
    rw [List.countP_cons, List.filterMap_cons, ih]
    cases m.ent a <;> simp [isFull, objOf]

/-- The objects in the table, each once. -/
theorem Wf.objs {cfg : Cfg K V} {m : Map V} {abs : K → Option V} (hw : Wf cfg m abs) :
    (((List.range m.cap).filterMap fun x => objOf (m.ent x)).map cfg.key).Nodup ∧
    (∀ v, v ∈ ((List.range m.cap).filterMap fun x => objOf (m.ent x)) ↔ abs (cfg.key v) = some v) := by
  constructor
  · rw [List.map_filterMap]
    have : ∀ l : List Nat, l.Nodup → (l.filterMap fun x => (objOf (m.ent x)).map cfg.key).Nodup := by
      intro l hl
      induction l with
      | nil => simp
      | cons a l ih =>
        rw [List.nodup_cons] at hl
        rw [List.filterMap_cons]
        cases ha : m.ent a with
        | empty => simpa [objOf] using ih hl.2
        | tomb => simpa [objOf] using ih hl.2
        | full v tg =>
          rw [show objOf (.full v tg) = some v from rfl]
          simp only [Option.map_some]
          rw [List.nodup_cons]
          refine ⟨?_, by simpa using ih hl.2⟩
          rw [List.mem_filterMap]
          rintro ⟨b, hb, hk⟩
          cases hbe : m.ent b with
          | empty => rw [hbe] at hk; cases hk
          | tomb => rw [hbe] at hk; cases hk
          | full w t =>
            rw [hbe] at hk
            have hk : cfg.key w = cfg.key v := Option.some.inj hk
            have := hw.g.uniq b a w v t tg hbe ha hk (by simp) (by simp)
            subst this
            exact hl.1 hb
    exact this _ List.nodup_range
  · intro v
    rw [List.mem_filterMap, hw.mem_iff]
    constructor
    · rintro ⟨x, hx, ho⟩
      cases he : m.ent x with
      | empty => rw [he] at ho; cases ho
      | tomb => rw [he] at ho; cases ho
      | full w t =>
        rw [he] at ho; cases ho
        exact ⟨x, t, List.mem_range.1 hx, he, rfl⟩
    · rintro ⟨x, tg, hx, he, -⟩
      exact ⟨x, List.mem_range.2 hx, by rw [he]; rfl⟩

theorem Wf.count {cfg : Cfg K V} {m : Map V} {abs : K → Option V} (hw : Wf cfg m abs) : Size abs m.n := by
  obtain ⟨h1, h2⟩ := hw.objs
  refine ⟨_, h1, ?_, by rw [hw.cn, card_eq, List.length_map]⟩
  intro q
  rw [List.mem_map]
  constructor
  · rintro ⟨v, hv, rfl⟩
    rw [(h2 v).1 hv]; simp
  · intro hq
    cases ha : abs q with
    | none => exact absurd ha hq
    | some v =>
      have := hw.g.ak q v ha
      exact ⟨v, (h2 v).2 (by rw [this]; exact ha), this⟩

theorem next_spec (m : Map V) : ∀ (fuel o : Nat), m.cap < fuel + o →
    (next m fuel o = none ∧ ((List.range m.cap).drop o).filterMap (fun x => objOf (m.ent x)) = []) ∨
    ∃ v o', next m fuel o = some (v, o') ∧ o < o' ∧
      ((List.range m.cap).drop o).filterMap (fun x => objOf (m.ent x)) =
        v :: ((List.range m.cap).drop o').filterMap (fun x => objOf (m.ent x)) := by
  intro fuel
  induction fuel with
  | zero =>
    intro o h
    left
    refine ⟨rfl, ?_⟩
    rw [List.drop_eq_nil_of_le (by simp; omega)]; rfl
  | succ fuel ih =>
    intro o h
    unfold next
    by_cases ho : o ≥ m.cap
    · left
      rw [if_pos ho, List.drop_eq_nil_of_le (by simpa using ho)]
      exact ⟨rfl, rfl⟩
    · rw [if_neg ho]
      have hd : (List.range m.cap).drop o = o :: (List.range m.cap).drop (o + 1) := by
        rw [List.drop_eq_getElem_cons (by simp; omega)]
        simp
      rw [hd, List.filterMap_cons]
      cases he : m.ent o with
      | full v tg => right; exact ⟨v, o + 1, rfl, by omega, rfl⟩
      | empty =>
        simp only [objOf]
        rcases ih (o + 1) (by omega) with ⟨h1, h2⟩ | ⟨v, o', h1, h2, h3⟩
        · exact .inl ⟨h1, h2⟩
        · exact .inr ⟨v, o', h1, by omega, h3⟩
      | tomb =>
        simp only [objOf]
        rcases ih (o + 1) (by omega) with ⟨h1, h2⟩ | ⟨v, o', h1, h2, h3⟩
        · exact .inl ⟨h1, h2⟩
        · exact .inr ⟨v, o', h1, by omega, h3⟩

theorem iterate_eq (m : Map V) : ∀ (fuel o : Nat), m.cap < fuel + o →
    iterate m fuel o = ((List.range m.cap).drop o).filterMap (fun x => objOf (m.ent x)) := by
  intro fuel
  induction fuel with
  | zero =>
    intro o h
    rw [List.drop_eq_nil_of_le (by simp; omega)]; rfl
  | succ fuel ih =>
    intro o h
    unfold iterate
    rcases next_spec m (m.cap + 1) o (by omega) with ⟨h1, h2⟩ | ⟨v, o', h1, h2, h3⟩
    · rw [h1, h2]
    · rw [h1, h3]
      simp only
      rw [ih o' (by omega)]

/-- C47.  From `ck_hs_init`, after any history in which the user keeps the contracts: the results are those of a map
`abs` keyed by the comparison, `ck_hs_get` returns exactly what the map holds, `ck_hs_count` is its size, and
`ck_hs_next` yields every stored object once. -/
theorem refines_map (cfg : Cfg K V) (c : Nat) (ops : List (Op K V × Res V)) (m : Map V)
    (hh : Hist cfg (create cfg c) ops m) (hk : Keeps cfg (fun _ => none) ops) :
    ∃ abs, SpecHist cfg (fun _ => none) ops abs ∧ (∀ q, get cfg m q = some (abs q)) ∧ Size abs m.n ∧
      ((iterate m (m.cap + 1) 0).map cfg.key).Nodup ∧ ∀ v, v ∈ iterate m (m.cap + 1) 0 ↔ abs (cfg.key v) = some v := by
  obtain ⟨abs, h1, h2⟩ := hist_spec (create_wf cfg c) hh hk
  refine ⟨abs, h1, h2.get, h2.count, ?_⟩
  rw [iterate_eq m _ 0 (by omega), List.drop_zero]
  exact h2.objs

/-! ## When an operation is refused -/

theorem grow_none {cfg : Cfg K V} {m : Map V} (hcap : m.cap ≤ 2 ^ 31) :
    ∀ (al : List Bool) (j : Nat) (al' : List Bool), m.cap * 2 ^ j < 2 ^ 64 →
      grow cfg m (m.cap * 2 ^ j) al = some (none, al') → false ∈ al ∨ 33 ≤ al.length + j := by
  intro al
  have hle : ∀ j, m.cap ≤ m.cap * 2 ^ j := fun j => Nat.le_mul_of_pos_right _ (Nat.two_pow_pos j)
  induction al with
  | nil =>
    intro j al' hj h
    unfold grow at h
    rw [if_neg (by have := hle j; omega)] at h
    cases h
  | cons a al ih =>
    intro j al' hj h
    unfold grow at h
    rw [if_neg (by have := hle j; omega)] at h
    split at h
    · next ha => left; rw [ha]; simp
    · split at h
      · cases h
      · rw [Nat.mul_assoc, ← Nat.pow_succ] at h
        by_cases hlt : m.cap * 2 ^ (j + 1) < 2 ^ 64
        · rw [Nat.mod_eq_of_lt hlt] at h
          rcases ih (j + 1) al' hlt h with h1 | h1
          · left; exact List.mem_cons_of_mem _ h1
          · right; simp; omega
        · right
          have h1 : 2 ^ 64 ≤ 2 ^ 31 * 2 ^ (j + 1) := Nat.le_trans (by omega) (Nat.mul_le_mul_right _ hcap)
          rw [← Nat.pow_add] at h1
          have := (Nat.pow_le_pow_iff_right (a := 2) (by omega)).1 h1
          simp; omega

theorem withRoom_denied {cfg : Cfg K V} {q : K} {beh : Beh}
    {f : Map V → PR V → List Bool → Option (List (Stmt V) × Res V)} {abs : K → Option V}
    (hf : ∀ m r al l, f m r al ≠ some (l, .denied)) :
    ∀ fuel m al l, Wf cfg m abs → withRoom cfg q beh f fuel m al = some (l, .denied) →
      false ∈ al ∨ 32 ≤ al.length := by
  intro fuel
  induction fuel with
  | zero => intro m al l _ h; cases h
  | succ fuel ih =>
    intro m al l hw h
    have hcap : m.cap ≤ 2 ^ 31 := by
      obtain ⟨p, -, hp, hc, -⟩ := hw.g.geo
      rw [hc]; exact Nat.pow_le_pow_right (by omega) hp
    simp only [withRoom] at h
    split at h
    · cases h
    · split at h
      · have hm : m.cap * 2 % 2 ^ 64 = m.cap * 2 ^ 1 := by rw [Nat.pow_one]; apply Nat.mod_eq_of_lt; omega
        split at h
        · cases h
        · next hg =>
          cases h
          rw [hm] at hg
          rcases grow_none hcap al 1 _ (by omega) hg with h1 | h1
          · exact .inl h1
          · right; omega
        · next u al' hg =>
          simp only [Option.map_eq_some_iff] at h
          obtain ⟨⟨l', res'⟩, h1, h2⟩ := h
          cases h2
          obtain ⟨hu, hlen, hmem⟩ := grow_spec hw _ _ _ hg
          rcases ih u al' l' hu h1 with h3 | h3
          · exact .inl (hmem _ h3)
          · right; omega
      · exact absurd h (hf _ _ _ _)

/-- An insertion is refused for want of room only if an allocation failed or the operation made at least 32
allocations (the capacity was doubled until it no longer fits in 64 bits). -/
theorem refused_only_by_allocation {cfg : Cfg K V} {m : Map V} {abs : K → Option V} {op : Op K V} {al : List Bool}
    {l : List (Stmt V)} (hw : Wf cfg m abs)
    (hop : match op with | .put _ | .putUnique _ | .set _ | .apply _ _ => True | _ => False)
    (h : prog cfg m al op = some (l, .denied)) : false ∈ al ∨ 32 ≤ al.length := by
  cases op with
  | put v =>
    refine withRoom_denied ?_ _ _ _ _ hw h
    intro m r al l h
    unfold putTail at h
    split at h
    · simp at h
    · simp at h
  | putUnique v =>
    refine withRoom_denied ?_ _ _ _ _ hw h
    intro m r al l h
    unfold putTail at h
    split at h
    · simp at h
    · simp at h
  | set v =>
    refine withRoom_denied ?_ _ _ _ _ hw h
    intro m r al l h
    simp [setTail] at h
  | apply q fn =>
    refine withRoom_denied ?_ _ _ _ _ hw h
    intro m r al l h
    unfold applyTail at h
    split at h
    · split at h <;> simp at h
    · split at h <;> simp at h
  | _ => cases hop

/-- Deviation: `ck_internal_power_2` takes 32 bits, so a table of `2 ^ 31` slots does not grow; the new map has 8
slots. -/
theorem capOf_large (c : Nat) (h : c % 2 ^ 32 = 0 ∨ 2 ^ 31 < c % 2 ^ 32) : capOf c = 8 := by
  unfold capOf
  rw [Internal.power2_overflow _ (by rw [BitVec.toNat_ofNat]; omega)]
  rfl

/-- Below that the capacity is the least power of two (at least 8) that was asked for. -/
theorem capOf_ge (c : Nat) (h : c ≤ 2 ^ 31) : c ≤ capOf c := by
  unfold capOf
  by_cases h0 : c = 0
  · omega
  · have h1 : (BitVec.ofNat 32 c).toNat = c := by rw [BitVec.toNat_ofNat, Nat.mod_eq_of_lt (by omega)]
    have := (Internal.power2_least (BitVec.ofNat 32 c) (by omega) (by omega)).2.1
    rw [h1] at this
    exact Nat.le_trans this (Nat.le_max_left _ _)

/-- Every operation ends, whatever the map, at the latest when an allocation fails. -/
theorem prog_ends {cfg : Cfg K V} {m : Map V} {abs : K → Option V} (op : Op K V) (hw : Wf cfg m abs) :
    (prog cfg m [false] op).isSome = true := by
  have hgrow : ∀ (m : Map V) c, (grow cfg m c [false]).isSome = true ∧ ∀ u al, grow cfg m c [false] ≠ some (some u, al) := by
    intro m c
    unfold grow
    split <;> simp
  have hpost : ∀ m : Map V, (postinsert cfg m [false]).isSome = true := by
    intro m
    unfold postinsert
    simp only
    split
    · have := (hgrow (exec m (.cnt (m.n + 1))) ((exec m (.cnt (m.n + 1))).cap * 2 % 2 ^ 64)).1
      split
      · next h => rw [h] at this; cases this
      · rfl
      · rfl
    · rfl
  have hset : ∀ (m : Map V) r v, (setAt cfg m r v [false]).isSome = true := by
    intro m r v
    unfold setAt
    simp only
    split
    · rfl
    · rw [Option.isSome_map]; exact hpost _
  have hroom : ∀ q beh f fuel, beh ≠ .probe → (∀ m r, (f m r [false]).isSome = true) →
      (withRoom cfg q beh f (fuel + 1) m [false]).isSome = true := by
    intro q beh f fuel hb hf
    have hcall : Call cfg m q beh m.limit := by
      unfold Call
      cases beh <;> simp at hb ⊢
    obtain ⟨r, e, hr, -⟩ := probe_spec hw hcall
    simp only [withRoom, hr]
    split
    · have := hgrow m (m.cap * 2 % 2 ^ 64)
      split
      · next h => rw [h] at this; cases this.1
      · rfl
      · next h => exact absurd h (this.2 _ _)
    · exact hf _ _
  have hput : ∀ v m r, (putTail cfg v m r [false]).isSome = true := by
    intro v m r
    unfold putTail
    split
    · rfl
    · rw [Option.isSome_map]; exact hset _ _ _
  have hprobe : ∀ (m : Map V) q, Wf cfg m abs →
      ∃ r e, probe cfg m q .probe (bound cfg m (cfg.hash q)) = some r ∧
        PS cfg m q .probe (bound cfg m (cfg.hash q)) (bound cfg m (cfg.hash q)) r e := by
    intro m q hw
    obtain ⟨r, e, h1, h2⟩ := probe_spec (beh := .probe) (opl := bound cfg m (cfg.hash q)) (q := q) hw (.inl ⟨rfl, rfl⟩)
    exact ⟨r, e, h1, h2⟩
  have hgc : ∀ full (xs : List Nat) (m0 : Map V) g, GcI cfg full m0 abs xs g → (gcLoop cfg full xs g).isSome = true := by
    intro full xs
    induction xs with
    | nil => intro m0 g _; rfl
    | cons x xs ih =>
      intro m0 g hi
      have hwg : Wf cfg g.m abs := hi.em ▸ hi.ok.wf
      have hs : (gcBody cfg full g x).isSome = true := by
        unfold gcBody
        split
        · rfl
        · split
          · next v tg _ =>
            obtain ⟨r, e, h1, -⟩ := hprobe g.m (cfg.key v) hwg
            simp only [h1]
            split <;> rfl
          · rfl
      cases hb : gcBody cfg full g x with
      | none => rw [hb] at hs; cases hs
      | some g' =>
        simp only [gcLoop, hb, Option.bind_some]
        exact ih m0 g' (gcBody_spec hi hb)
  cases op with
  | put v => exact hroom _ _ _ _ (by simp) (hput v)
  | putUnique v => exact hroom _ _ _ _ (by simp) (hput v)
  | set v => exact hroom _ _ _ _ (by simp) (fun m r => by rw [setTail, Option.isSome_map]; exact hset _ _ _)
  | apply q fn =>
    refine hroom _ _ _ _ (by simp) (fun m r => ?_)
    unfold applyTail
    split
    · split <;> rfl
    · split
      · rfl
      · rw [Option.isSome_map]; exact hset _ _ _
  | fas v =>
    obtain ⟨r, e, h1, h2⟩ := hprobe m (cfg.key v) hw
    simp only [prog, fas, h1]
    cases ho : r.obj with
    | none => rfl
    | some o =>
      have := h2.2.2.1
      rw [ho] at this
      rw [this.1]
      cases r.pr <;> rfl
  | remove q =>
    obtain ⟨r, e, h1, -⟩ := hprobe m q hw
    simp only [prog, remove, h1]
    split <;> rfl
  | grow c =>
    have := hgrow m c
    simp only [prog, growOp]
    split
    · next h => rw [h] at this; cases this.1
    · rfl
    · rfl
  | rebuild =>
    have := hgrow m m.cap
    simp only [prog, growOp]
    split
    · next h => rw [h] at this; cases this.1
    · rfl
    · rfl
  | gc cycles seed =>
    simp only [prog, gc]
    split
    · rfl
    · split
      · rfl
      · next hc =>
        have hi0 : GcI cfg (decide (cycles = 0)) m abs ((List.range m.cap).map fun i => (i + seed) &&& m.mask)
            ⟨[], m, cycles, false, if (decide (cycles = 0)) = true then 0 else m.maxi, fun _ => 0⟩ := by
          refine ⟨OpOk.nil hw, rfl, ⟨rfl, rfl, rfl, rfl, rfl, rfl, rfl⟩, fun hf => ⟨rfl, ?_, ?_, ?_⟩, fun hf => ?_⟩
          · simp [hf]
          · simp
          · intro x v tg hx
            exact .inl (visits hw.g seed x (hw.g.tag x v tg hx).2)
          · simp [hf]
        have := hgc _ _ _ _ hi0
        split
        · next h => rw [h] at this; cases this
        · rfl
  | reset => rfl
  | resetSize c => rfl

end Verif.Hs
