import Verif.Ht.HsRead

/-!
# Hash set: statistics (C102)

`ck_hs_stat` reports `n_entries`, `tombstones` and `probe_maximum`.  The writer and the readers are those of
`Verif.Ht.HsRead`, together with the member `tombstones` of the current map (simplified: it does not wrap).
-/

set_option linter.unusedSectionVars false

namespace Verif.Hs.Stat

open Verif Verif.Hs

variable {K V T : Type} [DecidableEq K] [DecidableEq V] [DecidableEq T]

structure SS (K V T : Type) where
  base : St K V T
  /-- `hs->map->tombstones` -/
  tombs : Nat
  /-- ghost: what it was when the map was allocated -/
  junk : Nat
  /-- ghost: insertions of a new key into a tombstone since the map was allocated -/
  reused : Nat

/-- `map->tombstones` after a store: one more if `ck_hs_remove` (lines 916-918) or `ck_hs_apply` (lines 720-722) deletes
an entry; unchanged if the store deletes the left-over of a move (`ck_hs_gc` line 611, `ck_hs_fas` 667, `ck_hs_apply` 743,
`ck_hs_set` 798).  `ck_hs_map_create` (lines 198-252) does not assign it: in a new map it is what the memory from the
allocator contains, `j`. -/
def tombsAfter (g : Gh K V) (j t : Nat) : Stmt V → Nat
  | .del x => if g.dup = some x then t else t + 1
  | .publish _ _ => j
  | _ => t

def junkAfter (j i : Nat) : Stmt V → Nat
  | .publish _ _ => j
  | _ => i

def reusedAfter (m : Map V) (r : Nat) : Stmt V → Nat
  | .store x _ _ none => if m.ent x = .tomb then r + 1 else r
  | .publish _ _ => 0
  | _ => r

/-- A step of the writer or of a reader; `j`: what the allocator's memory contains. -/
def step (cfg : Cfg K V) (c : Nat) (s : SS K V T) (a : Act K V T × Nat) : Option (SS K V T) :=
  match (Hs.sys cfg c).step s.base a.1 with
  | none => none
  | some b => match a.1, s.base.pend with
    | .exec, st :: _ => some
        { base := b, tombs := tombsAfter s.base.gh a.2 s.tombs st, junk := junkAfter a.2 s.junk st
          reused := reusedAfter (s.base.maps s.base.cur) s.reused st }
    | _, _ => some { s with base := b }

def sys (cfg : Cfg K V) (c : Nat) : Sys (SS K V T) (Act K V T × Nat) :=
  { init := fun s => (Hs.sys cfg c).init s.base ∧ s.tombs = s.junk ∧ s.reused = 0, step := step cfg c }

/-- `struct ck_hs_stat`, `include/ck_hs.h`, lines 94-98. -/
structure Rep where
  tombstones : Nat
  n_entries : Nat
  probe_maximum : Nat
deriving DecidableEq

/-- `ck_hs_stat`, `src/ck_hs.c`, lines 164-173. -/
def stat (s : SS K V T) : Rep :=
  { n_entries := (s.base.maps s.base.cur).n, tombstones := s.tombs, probe_maximum := (s.base.maps s.base.cur).maxi }

/-! ## Specification -/

/-- Number of tombstones in the table. -/
def dead (m : Map V) : Nat := (List.range m.cap).countP fun x => decide (m.ent x = .tomb)

/-! ## New maps have no tombstones -/

/-- Every map that `l` publishes is without tombstones. -/
def Pub (l : List (Stmt V)) : Prop := ∀ u c, .publish u c ∈ l → ∀ x, u.ent x ≠ .tomb

theorem Pub.append {l l' : List (Stmt V)} (h : Pub l) (h' : Pub l') : Pub (l ++ l') := by
  intro u c hm
  rcases List.mem_append.mp hm with h1 | h1
  · exact h u c h1
  · exact h' u c h1

theorem ent_boundSet (cfg : Cfg K V) (m : Map V) (h n : Nat) : (execs m (boundSet cfg m h n)).ent = m.ent := by
  unfold boundSet
  cases m.bnd with
  | none => simp only [List.append_nil]; split <;> rfl
  | some b => simp only; split <;> split <;> rfl

theorem pub_boundSet (cfg : Cfg K V) (m : Map V) (h n : Nat) : Pub (boundSet cfg m h n) := by
  unfold boundSet
  apply Pub.append
  · intro u c hm; split at hm <;> simp at hm
  · intro u c hm; split at hm
    · simp at hm
    · split at hm <;> simp at hm

theorem reinsert_noTomb {cfg : Cfg K V} {u u' : Map V} {s : Slot V} (h : reinsert cfg u s = some u')
    (hu : ∀ x, u.ent x ≠ .tomb) : ∀ x, u'.ent x ≠ .tomb := by
  unfold reinsert at h
  split at h
  · simp only at h
    split at h
    · cases h
    · cases h
      intro x
      rw [ent_boundSet]
      show upd u.ent _ _ x ≠ _
      rw [upd_apply]
      split
      · simp
      · exact hu x
  · cases h; exact hu

theorem rehash_noTomb {cfg : Cfg K V} {m : Map V} : ∀ (ks : List Nat) (u u' : Map V),
    rehash cfg m ks u = some u' → (∀ x, u.ent x ≠ .tomb) → ∀ x, u'.ent x ≠ .tomb
  | [], _, _, h, hu => by cases h; exact hu
  | k :: ks, u, u', h, hu => by
    simp only [rehash, Option.bind_eq_some_iff] at h
    obtain ⟨u1, h1, h2⟩ := h
    exact rehash_noTomb ks u1 u' h2 (reinsert_noTomb h1 hu)

theorem grow_noTomb {cfg : Cfg K V} {m u : Map V} : ∀ (al : List Bool) (c : Nat) (al' : List Bool),
    grow cfg m c al = some (some u, al') → ∀ x, u.ent x ≠ .tomb := by
  intro al
  induction al with
  | nil => intro c al' h; unfold grow at h; split at h <;> cases h
  | cons a al ih =>
    intro c al' h
    unfold grow at h
    split at h
    · cases h
    · split at h
      · cases h
      · split at h
        · next u' hu =>
          cases h
          exact rehash_noTomb _ _ _ hu (fun x => by simp [create])
        · exact ih _ _ h

theorem pub_postinsert {cfg : Cfg K V} {m : Map V} {al : List Bool} {l : List (Stmt V)}
    (h : postinsert cfg m al = some l) : Pub l := by
  unfold postinsert at h
  simp only at h
  intro u c hm
  split at h
  · split at h
    · cases h
    · cases h; simp at hm
    · next hg =>
      cases h
      simp at hm
      rw [hm.1]
      exact grow_noTomb _ _ _ hg
  · cases h; simp at hm

theorem pub_setAt {cfg : Cfg K V} {m : Map V} {r : PR V} {w : V} {al : List Bool} {l : List (Stmt V)}
    (hl : setAt cfg m r w al = some l) : Pub l := by
  have hst : Pub (storeAt cfg m r w) := by
    unfold storeAt
    apply (pub_boundSet cfg m _ _).append
    intro u c hm
    split at hm
    · split at hm <;> simp at hm
    · simp at hm
    · simp at hm
    · simp at hm
  unfold setAt at hl
  simp only at hl
  split at hl
  · cases hl; exact hst
  · rw [Option.map_eq_some_iff] at hl
    obtain ⟨l', h1, h2⟩ := hl
    subst h2
    exact hst.append (pub_postinsert h1)

theorem pub_withRoom {cfg : Cfg K V} {q : K} {beh : Beh}
    {f : Map V → PR V → List Bool → Option (List (Stmt V) × Res V)}
    (hf : ∀ m r al l res, f m r al = some (l, res) → Pub l) :
    ∀ fuel m al l res, withRoom cfg q beh f fuel m al = some (l, res) → Pub l := by
  intro fuel
  induction fuel with
  | zero => intro m al l res h; cases h
  | succ fuel ih =>
    intro m al l res h
    unfold withRoom at h
    split at h
    · cases h
    · split at h
      · split at h
        · cases h
        · cases h; intro u c hm; simp at hm
        · next u al' hg =>
          rw [Option.map_eq_some_iff] at h
          obtain ⟨⟨l', res'⟩, h1, h2⟩ := h
          cases h2
          have := ih _ _ _ _ h1
          intro u' c hm
          rcases List.mem_cons.mp hm with h3 | h3
          · cases h3; exact grow_noTomb _ _ _ hg
          · exact this u' c h3
      · exact hf _ _ _ _ _ h

theorem pub_moveTo (cfg : Cfg K V) (r : PR V) (v : V) : Pub (moveTo cfg r v) := by
  unfold moveTo
  intro u c hm
  simp only at hm
  split at hm <;> simp at hm

theorem pub_gcBody {cfg : Cfg K V} {full : Bool} {g g' : Gc V} {x : Nat} (h : gcBody cfg full g x = some g')
    (hg : Pub g.out) : Pub g'.out := by
  unfold gcBody at h
  split at h
  · cases h; exact hg
  · split at h
    · simp only at h
      split at h
      · cases h
      · split at h <;> cases h <;> exact hg.append (pub_moveTo cfg _ _)
    · cases h; exact hg

theorem pub_gcLoop {cfg : Cfg K V} {full : Bool} : ∀ (xs : List Nat) (g g' : Gc V), gcLoop cfg full xs g = some g' →
    Pub g.out → Pub g'.out
  | [], _, _, h, hg => by cases h; exact hg
  | x :: xs, g, g', h, hg => by
    simp only [gcLoop, Option.bind_eq_some_iff] at h
    obtain ⟨g1, h1, h2⟩ := h
    exact pub_gcLoop xs g1 g' h2 (pub_gcBody h1 hg)

theorem pub_bnds (l : List Nat) (f : Nat → Nat) : Pub (V := V) (l.map fun i => .setBnd i (f i)) := by
  intro u c hm
  rw [List.mem_map] at hm
  obtain ⟨_, -, h⟩ := hm
  cases h

theorem pub_nil : Pub (V := V) [] := fun _ _ hm => by cases hm

theorem pub_gc {cfg : Cfg K V} {m : Map V} {cycles seed : Nat} {al : List Bool} {l : List (Stmt V)} {res : Res V}
    (h : gc cfg m cycles seed al = some (l, res)) : Pub l := by
  unfold gc at h
  simp only at h
  split at h
  · cases h
    intro u c hm
    rcases List.mem_cons.mp hm with h1 | h1
    · cases h1
    · split at h1
      · exact pub_bnds _ _ u c h1
      · cases h1
  · have hgo : ∀ {g : Gc V}, gcLoop cfg (decide (cycles = 0)) ((List.range m.cap).map fun i => (i + seed) &&& m.mask)
        ⟨[], m, cycles, false, if decide (cycles = 0) then 0 else m.maxi, fun _ => 0⟩ = some g →
        Pub (g.out ++ (if g.maxi ≠ g.m.maxi then [.setMax g.maxi] else []) ++
          (if decide (cycles = 0) ∧ m.bnd.isSome then (List.range m.cap).map fun i => .setBnd i (g.bnds i) else [])) := by
      intro g hg
      refine ((pub_gcLoop _ _ _ hg pub_nil).append ?_).append ?_
      · split
        · intro u c hm; simp at hm
        · exact pub_nil
      · split
        · exact pub_bnds _ _
        · exact pub_nil
    split at h
    · split at h
      · cases h
      · cases h; exact pub_nil
      · split at h
        · cases h
        · next g hg => cases h; exact hgo hg
    · split at h
      · cases h
      · next g hg => cases h; exact hgo hg

theorem pub_prog {cfg : Cfg K V} {m : Map V} {al : List Bool} {op : Op K V} {l : List (Stmt V)} {res : Res V}
    (h : prog cfg m al op = some (l, res)) : Pub l := by
  have hput : ∀ w m r al l res, putTail cfg w m r al = some (l, res) → Pub l := by
    intro w m r al l res h
    unfold putTail at h
    split at h
    · cases h; exact pub_nil
    · rw [Option.map_eq_some_iff] at h
      obtain ⟨l', h1, h2⟩ := h
      cases h2
      exact pub_setAt h1
  have hgrow : ∀ c, growOp cfg m c al = some (l, res) → Pub l := by
    intro c h
    unfold growOp at h
    intro u d hm
    split at h
    · cases h
    · cases h; cases hm
    · next hg =>
      cases h
      simp at hm
      rw [hm.1]
      exact grow_noTomb _ _ _ hg
  have hreset : ∀ c, resetOp cfg c al = some (l, res) → Pub l := by
    intro c h
    unfold resetOp at h
    intro u d hm
    split at h
    · cases h
    · cases h; cases hm
    · cases h
      simp at hm
      rw [hm.1]
      intro x; simp [create]
  cases op with
  | put w => exact pub_withRoom (hput w) _ _ _ _ _ h
  | putUnique w => exact pub_withRoom (hput w) _ _ _ _ _ h
  | set w =>
    refine pub_withRoom ?_ _ _ _ _ _ h
    intro m r al l res h
    unfold setTail at h
    rw [Option.map_eq_some_iff] at h
    obtain ⟨l', h1, h2⟩ := h
    cases h2
    exact pub_setAt h1
  | fas w =>
    simp only [prog, fas] at h
    split at h
    · cases h
    · split at h
      · cases h; exact pub_nil
      · split at h
        · cases h; exact pub_moveTo cfg _ _
        · cases h; intro u c hm; simp at hm
        · cases h
  | remove q =>
    simp only [prog, remove] at h
    split at h
    · cases h
    · split at h <;> cases h <;> intro u c hm <;> simp at hm
  | apply q fn =>
    refine pub_withRoom ?_ _ _ _ _ _ h
    intro m r al l res h
    unfold applyTail at h
    split at h
    · split at h <;> cases h <;> intro u c hm <;> simp at hm
    · split at h
      · cases h; exact pub_nil
      · rw [Option.map_eq_some_iff] at h
        obtain ⟨l', h1, h2⟩ := h
        cases h2
        exact pub_setAt h1
  | grow c => exact hgrow c h
  | rebuild => exact hgrow _ h
  | gc a b => exact pub_gc h
  | reset => exact hreset _ h
  | resetSize c => exact hreset _ h

/-! ## Invariant -/

theorem dead_zero {m : Map V} (h : ∀ x, m.ent x ≠ .tomb) : dead m = 0 := by
  unfold dead
  rw [List.countP_eq_zero]
  intro x _
  simp [h x]

theorem dead_upd (m : Map V) (x : Nat) (s : Slot V) (hx : x < m.cap) :
    dead { m with ent := upd m.ent x s } + (if m.ent x = .tomb then 1 else 0) = dead m + (if s = .tomb then 1 else 0) := by
  unfold dead
  have : ∀ l : List Nat, l.Nodup → x ∈ l →
      l.countP (fun y => decide (upd m.ent x s y = .tomb)) + (if m.ent x = .tomb then 1 else 0) =
        l.countP (fun y => decide (m.ent y = .tomb)) + (if s = .tomb then 1 else 0) := by
    intro l
    induction l with
    | nil => intro _ hx; cases hx
    | cons a l ih =>
      intro hl hx
      rw [List.nodup_cons] at hl
      rw [List.countP_cons, List.countP_cons]
      by_cases h : a = x
      · subst h
        have : l.countP (fun y => decide (upd m.ent a s y = .tomb)) = l.countP (fun y => decide (m.ent y = .tomb)) := by
          apply List.countP_congr
          intro y hy
          rw [upd_ne]
          intro h; subst h; exact hl.1 hy
        rw [this, upd_same]
        simp only [decide_eq_true_eq]
        omega
      · have := ih hl.2 (by simpa [Ne.symm h] using hx)
        rw [upd_ne _ _ h]
        omega
  exact this _ List.nodup_range (List.mem_range.2 hx)

/-- A tombstone that a move has used up and not yet given back. -/
def onWay (g : Gh K V) : Nat := if g.dup = none then 0 else 1

structure Inv (cfg : Cfg K V) (c : Nat) (s : SS K V T) : Prop where
  base : (Hs.sys cfg c).Reach s.base
  pub : Pub s.base.pend
  bal : s.tombs = s.junk + dead (s.base.maps s.base.cur) + onWay s.base.gh + s.reused

/-- The balance after a store. -/
theorem bal_exec {cfg : Cfg K V} {m : Map V} {g : Gh K V} {st : Stmt V} {t i r : Nat} (j : Nat) (hg : G cfg m g)
    (he : Eff cfg m g st) (hp : ∀ u c, st = .publish u c → ∀ x, u.ent x ≠ .tomb) (hb : t = i + dead m + onWay g + r) :
    tombsAfter g j t st = junkAfter j i st + dead (exec m st) + onWay (gexec cfg m g st) + reusedAfter m r st := by
  cases st with
  | setMax n => exact hb
  | setBnd o n => exact hb
  | cnt n => exact hb
  | sig p => exact hb
  | store x v tg d =>
    obtain ⟨h1, -, ⟨k, hk, -⟩, h4, -, h6⟩ := he
    have hx : x < m.cap := by rw [← hk]; exact hg.slot_lt _ _
    have hd := dead_upd m x (.full v tg) hx
    simp only [reduceCtorEq, if_false, Nat.add_zero] at hd
    have hw0 : onWay g = 0 := by unfold onWay; rw [if_pos h1]
    change t = i + dead { m with ent := upd m.ent x (.full v tg) } + onWay ({ abs := _, dup := d, sg := false } : Gh K V) + _
    cases d with
    | none =>
      have : onWay ({ abs := upd g.abs (cfg.key v) (some v), dup := none, sg := false } : Gh K V) = 0 := rfl
      rw [this]
      show _ = i + _ + 0 + if m.ent x = .tomb then r + 1 else r
      split
      · next h => rw [if_pos h] at hd; omega
      · next h => rw [if_neg h] at hd; omega
    | some y =>
      have : onWay ({ abs := upd g.abs (cfg.key v) (some v), dup := some y, sg := false } : Gh K V) = 1 := rfl
      rw [this]
      show _ = i + _ + 1 + r
      have ht : m.ent x = .tomb := by
        obtain ⟨⟨u, tu, hu, hku⟩, hj⟩ := h6 y rfl
        have ha := hg.here y u tu hu (by rw [h1]; simp)
        obtain ⟨k', -, -, hf, hne⟩ := hg.pos _ _ ha
        have hy := hg.uniq _ _ _ _ _ _ hf hu rfl (by rw [h1]; simp) (by rw [h1]; simp)
        rw [hku] at hy hne
        obtain ⟨j, hjk, hjx⟩ := hj k' hy
        cases hm : m.ent x with
        | empty => exact absurd (hjx ▸ hm) (hne j hjk)
        | tomb => rfl
        | full w tw =>
          have := (h4 w tw hm).2
          cases this
      rw [if_pos ht] at hd
      omega
  | del x =>
    obtain ⟨⟨v, tg, hf⟩, h2⟩ := he
    have hx := (hg.tag x v tg hf).2
    have hd := dead_upd m x .tomb hx
    rw [if_neg (by rw [hf]; simp), if_pos rfl] at hd
    show (if g.dup = some x then t else t + 1) = i + dead { m with ent := upd m.ent x .tomb } + _ + r
    have hw : onWay (gexec cfg m g (.del x)) = 0 := by
      unfold onWay
      simp only [gexec, hf]
      split <;> rw [if_pos rfl]
    rw [hw]
    rcases h2 with h2 | ⟨h2, -⟩
    · rw [if_neg (by rw [h2]; simp)]
      have : onWay g = 0 := by unfold onWay; rw [if_pos h2]
      omega
    · rw [if_pos h2]
      have : onWay g = 1 := by unfold onWay; rw [if_neg (by rw [h2]; simp)]
      omega
  | publish u c =>
    obtain ⟨h1, -⟩ := he
    show j = j + dead u + onWay (gexec cfg m g (.publish u c)) + 0
    have hw : onWay (gexec cfg m g (.publish u c)) = 0 := by
      unfold onWay
      simp only [gexec]
      split <;> simp [h1]
    rw [dead_zero (hp u c rfl), hw]; rfl

theorem inv_reach {cfg : Cfg K V} {c : Nat} {s : SS K V T} (h : (sys (T := T) cfg c).Reach s) : Inv cfg c s := by
  refine h.invariant (I := Inv cfg c) ?_ ?_
  · rintro s ⟨h1, h2, h3⟩
    refine ⟨.init h1, ?_, ?_⟩
    · obtain ⟨-, -, -, e4, -, -⟩ := h1; rw [e4]; exact pub_nil
    · obtain ⟨e1, e2, e3, -, -, -⟩ := h1
      rw [h2, h3, e2, e1, e3, dead_zero (fun x => by simp [create])]
      rfl
  · rintro s ⟨a, j⟩ s' hi hs
    change step cfg c s (a, j) = some s' at hs
    unfold step at hs
    split at hs
    · cases hs
    · next b hb =>
      have hr := hi.base.step hb
      have hI := Hs.inv_reach hi.base
      cases a with
      | exec =>
        simp only at hb hs
        simp only [Hs.sys, Hs.step] at hb
        split at hb
        · cases hb
        · next st l hpd =>
          cases hb
          rw [hpd] at hs
          simp only at hs
          cases hs
          have heff := hI.eff
          rw [hpd] at heff
          refine ⟨hr, ?_, ?_⟩
          · intro u d hm
            exact hi.pub u d (by rw [hpd]; exact List.mem_cons_of_mem _ hm)
          · have hcm : (after cfg s.base st l).maps (after cfg s.base st l).cur = exec (s.base.maps s.base.cur) st := by
              cases st <;> exact upd_same _ _ _
            have := bal_exec (cfg := cfg) j hI.g heff.1
              (fun u d e => hi.pub u d (by rw [hpd, e]; exact List.mem_cons_self)) hi.bal
            show _ = _ + dead ((after cfg s.base st l).maps (after cfg s.base st l).cur) + _ + _
            rw [hcm]
            exact this
      | begin op al =>
        cases hs
        simp only [Hs.sys] at hb
        split at hb
        · simp only [Hs.step] at hb
          split at hb
          · split at hb
            · next l res hp => cases hb; exact ⟨hr, pub_prog hp, hi.bal⟩
            · cases hb
          · cases hb
        · cases hb
      | fin =>
        cases hs
        simp only [Hs.sys, Hs.step] at hb
        split at hb
        · cases hb; exact ⟨hr, hi.pub, hi.bal⟩
        · cases hb
      | call t q =>
        cases hs
        simp only [Hs.sys, Hs.step] at hb
        split at hb
        · cases hb; exact ⟨hr, hi.pub, hi.bal⟩
        · cases hb
      | ret t =>
        cases hs
        simp only [Hs.sys, Hs.step] at hb
        split at hb
        · cases hb; exact ⟨hr, hi.pub, hi.bal⟩
        · cases hb
      | next t =>
        cases hs
        simp only [Hs.sys, Hs.step] at hb
        rw [Option.map_eq_some_iff] at hb
        obtain ⟨pc, -, h2⟩ := hb
        cases h2
        exact ⟨hr, hi.pub, hi.bal⟩

/-! ## Theorems -/

/-- Between operations. -/
theorem idle {cfg : Cfg K V} {c : Nat} {s : SS K V T} (h : (sys (T := T) cfg c).Reach s) (hop : s.base.op = none) :
    Wf cfg (s.base.maps s.base.cur) s.base.gh.abs ∧ s.base.gh.dup = none := by
  have hI := Hs.inv_reach (inv_reach h).base
  have hpd : s.base.pend = [] := by
    have := hI.wr
    unfold WI at this
    rwa [hop] at this
  have := hI.fin
  rw [hpd] at this
  exact ⟨this.1, this.2.1⟩

/-- `n_entries` is the number of keys. -/
theorem entries {cfg : Cfg K V} {c : Nat} {s : SS K V T} (h : (sys (T := T) cfg c).Reach s) (hop : s.base.op = none) :
    Size s.base.gh.abs (stat s).n_entries := (idle h hop).1.count

/-- No lookup loads more than `probe_maximum` slots, and every key that is there is found within them; also while the
writer works. -/
theorem probes {cfg : Cfg K V} {c : Nat} {s : SS K V T} (h : (sys (T := T) cfg c).Reach s) :
    (s.base.op = none → ∀ q, bound cfg (s.base.maps s.base.cur) (cfg.hash q) ≤ (stat s).probe_maximum) ∧
    ∀ q v, s.base.gh.abs q = some v → ∃ k tg, k < (stat s).probe_maximum ∧
      (s.base.maps s.base.cur).ent (slotAt (s.base.maps s.base.cur) (cfg.hash q) k) = .full v tg := by
  refine ⟨fun hop q => (idle h hop).1.bound_le _, ?_⟩
  intro q v hq
  obtain ⟨k, h1, -, h3, -⟩ := (Hs.inv_reach (inv_reach h).base).g.pos q v hq
  exact ⟨k, _, h1.1, h3⟩

/-- Full statement: `tombstones` is the number of tombstones.  Missing: it counts from what the memory of the map
contained when it was allocated (`garbage`), and a tombstone that an insertion reuses is not subtracted (`not_reset`).  It
is exact if that memory was zero and no insertion reused a tombstone since. -/
theorem tombstones_partial {cfg : Cfg K V} {c : Nat} {s : SS K V T} (h : (sys (T := T) cfg c).Reach s)
    (hop : s.base.op = none) (hj : s.junk = 0) (hr : s.reused = 0) :
    (stat s).tombstones = dead (s.base.maps s.base.cur) := by
  have h1 := (inv_reach h).bal
  have h2 : onWay s.base.gh = 0 := by unfold onWay; rw [if_pos (idle h hop).2]
  show s.tombs = _
  omega

/-- By how much it is too large. -/
theorem tombstones_excess {cfg : Cfg K V} {c : Nat} {s : SS K V T} (h : (sys (T := T) cfg c).Reach s)
    (hop : s.base.op = none) : (stat s).tombstones = dead (s.base.maps s.base.cur) + (s.junk + s.reused) := by
  have h1 := (inv_reach h).bal
  have h2 : onWay s.base.gh = 0 := by unfold onWay; rw [if_pos (idle h hop).2]
  show s.tombs = _
  omega

/-! ## Executions -/

/-- Keys `Nat`, objects pairs of a key and a payload, every key hashes to 1, per-bucket bounds. -/
def sc : Cfg Nat (Nat × Nat) :=
  { key := Prod.fst, hash := fun _ => 1, tag := fun h => h >>> 25, del := true, wmax := 255 }

/-- An empty set of capacity 8 in memory that contained `j`. -/
def s0 (j : Nat) : SS Nat (Nat × Nat) (Fin 1) :=
  { base := { maps := fun _ => create sc 8, cur := 0, gh := ⟨fun _ => none, none, false⟩, pend := [], op := none
              lin := False, rd := fun _ => .idle, absent := fun _ => False, had := fun _ _ => False }
    tombs := j, junk := j, reused := 0 }

theorem s0_init (j : Nat) : (sys (T := Fin 1) sc 8).init (s0 j) := ⟨⟨rfl, rfl, rfl, rfl, rfl, fun _ => rfl⟩, rfl, rfl⟩

/-- An operation with `k` stores; memory from the allocator contains `j`. -/
def op (o : Op Nat (Nat × Nat)) (k : Nat) (al : List Bool := []) (j : Nat := 0) :
    List (Act Nat (Nat × Nat) (Fin 1) × Nat) :=
  (.begin o al, j) :: List.replicate k (.exec, j) ++ [(.fin, j)]

theorem run_case {j : Nat} {l : List (Act Nat (Nat × Nat) (Fin 1) × Nat)} {p : SS Nat (Nat × Nat) (Fin 1) → Bool}
    (hr : ((sys (T := Fin 1) sc 8).run (s0 j) l).any p = true) :
    ∃ s, (sys (T := Fin 1) sc 8).Reach s ∧ p s = true := by
  rw [Option.any_eq_true] at hr
  obtain ⟨s, h1, h2⟩ := hr
  exact ⟨s, .of_run (.init (s0_init j)) h1, h2⟩

/-- A new set reports whatever the memory from the allocator contained. -/
theorem garbage (j : Nat) : ∃ s, (sys (T := Fin 1) sc 8).Reach s ∧ s.base.op = none ∧ (stat s).tombstones = j ∧
    dead (s.base.maps s.base.cur) = 0 :=
  ⟨s0 j, .init (s0_init j), rfl, rfl, dead_zero fun x => by simp [s0, create]⟩

/-- Even in zeroed memory: a key removed and inserted again leaves no tombstone, but one is reported. -/
theorem not_reset : ∃ s, (sys (T := Fin 1) sc 8).Reach s ∧ s.base.op = none ∧ s.junk = 0 ∧ (stat s).tombstones = 1 ∧
    dead (s.base.maps s.base.cur) = 0 := by
  obtain ⟨s, h1, h2⟩ := run_case (j := 0) (l := op (.put (0, 10)) 4 ++ op (.remove 0) 2 ++ op (.put (0, 10)) 2)
    (p := fun s => s.base.op.isNone && decide (s.junk = 0 ∧ (stat s).tombstones = 1 ∧ dead (s.base.maps s.base.cur) = 0))
    (by decide +kernel)
  simp only [Bool.and_eq_true, decide_eq_true_eq, Option.isNone_iff_eq_none] at h2
  exact ⟨s, h1, h2.1, h2.2⟩

/-- A growth in memory that is not zero brings the garbage back. -/
theorem garbage_again : ∃ s, (sys (T := Fin 1) sc 8).Reach s ∧ s.base.op = none ∧ (stat s).tombstones = 77 ∧
    dead (s.base.maps s.base.cur) = 0 := by
  obtain ⟨s, h1, h2⟩ := run_case (j := 0) (l := op (.put (0, 10)) 4 ++ op (.grow 64) 1 [true] 77)
    (p := fun s => s.base.op.isNone && decide ((stat s).tombstones = 77 ∧ dead (s.base.maps s.base.cur) = 0))
    (by decide +kernel)
  simp only [Bool.and_eq_true, decide_eq_true_eq, Option.isNone_iff_eq_none] at h2
  exact ⟨s, h1, h2.1, h2.2⟩

/-- Two keys, one removed, the other one moved by `ck_hs_gc`: one tombstone, and one reported. -/
theorem exact_case : ∃ s, (sys (T := Fin 1) sc 8).Reach s ∧ s.base.op = none ∧ s.junk = 0 ∧ s.reused = 0 ∧
    stat s = { tombstones := 1, n_entries := 1, probe_maximum := 2 } ∧ dead (s.base.maps s.base.cur) = 1 := by
  obtain ⟨s, h1, h2⟩ := run_case (j := 0) (l := op (.put (0, 10)) 4 ++ op (.put (1, 11)) 4 ++ op (.remove 0) 2 ++
      op (.gc 1 0) 3)
    (p := fun s => s.base.op.isNone && decide (s.junk = 0 ∧ s.reused = 0 ∧
      stat s = { tombstones := 1, n_entries := 1, probe_maximum := 2 } ∧ dead (s.base.maps s.base.cur) = 1))
    (by decide +kernel)
  simp only [Bool.and_eq_true, decide_eq_true_eq, Option.isNone_iff_eq_none] at h2
  exact ⟨s, h1, h2.1, h2.2⟩

end Verif.Hs.Stat
