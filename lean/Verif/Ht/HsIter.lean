import Verif.Ht.HsRead

/-!
# Hash set: iteration concurrent with the writer (C101)

`ck_hs_next_spmc` walks over the slots of the map it loaded first, one load at a time, while the writer executes its
operations store by store and readers run `ck_hs_get` (`Verif.Ht.HsRead`).

Simplified: interleaving semantics (`DESIGN.md`); maps that were replaced are not freed while the iterator holds them.
-/

set_option linter.unusedSectionVars false

namespace Verif.Hs.Iter

open Verif Verif.Hs

variable {K V T : Type} [DecidableEq K] [DecidableEq V] [DecidableEq T]

/-- `struct ck_hs_iterator` (`include/ck_hs.h`, lines 100-104) and what its owner has got so far. -/
structure It (K V : Type) where
  /-- `map`; `none`: NULL -/
  map : Option Nat
  /-- `offset` -/
  off : Nat
  /-- the objects returned, in this order -/
  out : List V
  /-- it returned false -/
  fin : Bool
  /-- ghost: the contents of the set since the writer's operation in progress at the start began -/
  pre : List (K → Option V)
  /-- ghost: the contents of the set at every instant since the start -/
  log : List (K → Option V)
  /-- ghost: the operations of the writer that were in progress at some instant since the start -/
  ops : List (Op K V)

structure IS (K V T : Type) where
  base : St K V T
  /-- ghost: the contents since the writer's last operation began -/
  wlog : List (K → Option V)
  it : Option (It K V)

inductive Act (K V T : Type)
  /-- a step of the writer or of a reader -/
  | base (a : Hs.Act K V T)
  /-- `ck_hs_iterator_init` -/
  | init
  /-- one load of `ck_hs_next_spmc` -/
  | next

/-- One load of `ck_hs_next_spmc`, `src/ck_hs.c`, lines 152-162, and of `_ck_hs_next`, lines 108-132: of the map, or of
the slot at `offset`. -/
def load (b : St K V T) (i : It K V) : It K V :=
  match i.map with
  | none => { i with map := some b.cur }
  | some a =>
    if i.off ≥ (b.maps a).cap then { i with fin := true }
    else match (b.maps a).ent i.off with
      | .full v _ => { i with out := i.out ++ [v], off := i.off + 1 }
      | _ => { i with off := i.off + 1 }

/-- Ghost: the contents after an action of the writer. -/
def note (x : K → Option V) (l : List (K → Option V)) : Hs.Act K V T → List (K → Option V)
  | .exec => x :: l
  | _ => l

/-- Ghost: the operation that begins. -/
def noteOp (l : List (Op K V)) : Hs.Act K V T → List (Op K V)
  | .begin op _ => op :: l
  | _ => l

/-- Ghost: the contents since the writer's last operation began. -/
def noteW (x : K → Option V) (l : List (K → Option V)) : Hs.Act K V T → List (K → Option V)
  | .begin _ _ => [x]
  | .exec => x :: l
  | _ => l

/-- `ck_hs_iterator_init`, lines 135-143. -/
def start (b : St K V T) (wlog : List (K → Option V)) : It K V :=
  { map := none, off := 0, out := [], fin := false, pre := wlog, log := [b.gh.abs], ops := (b.op.map Prod.fst).toList }

def step (cfg : Cfg K V) (c : Nat) (s : IS K V T) : Act K V T → Option (IS K V T)
  | .base a => match (Hs.sys cfg c).step s.base a with
    | none => none
    | some b => some
        { base := b, wlog := noteW b.gh.abs s.wlog a
          it := s.it.map fun i => { i with log := note b.gh.abs i.log a, ops := noteOp i.ops a } }
  | .init => some { s with it := some (start s.base s.wlog) }
  | .next => match s.it with
    | none => none
    | some i => some { s with it := some (load s.base i) }

/-- A writer, readers and an iteration, after `ck_hs_init` with `c` entries. -/
def sys (cfg : Cfg K V) (c : Nat) : Sys (IS K V T) (Act K V T) :=
  { init := fun s => (Hs.sys cfg c).init s.base ∧ s.wlog = [s.base.gh.abs] ∧ s.it = none, step := step cfg c }

/-! ## Specification -/

/-- `v` was in the set at one of these instants. -/
def Some (cfg : Cfg K V) (l : List (K → Option V)) (v : V) : Prop := ∃ x ∈ l, x (cfg.key v) = some v

/-- `v` was in the set at all these instants. -/
def All (cfg : Cfg K V) (l : List (K → Option V)) (v : V) : Prop := ∀ x ∈ l, x (cfg.key v) = some v

/-- The operation is not one that may move `v` to another slot of the same map: `ck_hs_gc`, or `ck_hs_set`, `ck_hs_fas`
with the object that is there already. -/
def quiet (v : V) : Op K V → Bool
  | .gc _ _ => false
  | .set w => decide (w ≠ v)
  | .fas w => decide (w ≠ v)
  | _ => true

/-! ## Operations that do not move `v` -/

/-- No store of `l` moves `v`. -/
def NoMv (v : V) (l : List (Stmt V)) : Prop := ∀ x tg y, .store x v tg (some y) ∉ l

theorem NoMv.append {v : V} {l l' : List (Stmt V)} (h : NoMv v l) (h' : NoMv v l') : NoMv v (l ++ l') := by
  intro x tg y hm
  rcases List.mem_append.mp hm with h1 | h1
  · exact h x tg y h1
  · exact h' x tg y h1

theorem noMv_boundSet (cfg : Cfg K V) (m : Map V) (h n : Nat) (v : V) : NoMv v (boundSet cfg m h n) := by
  unfold boundSet
  apply NoMv.append
  · intro x tg y hm; split at hm <;> simp at hm
  · intro x tg y hm; split at hm
    · simp at hm
    · split at hm <;> simp at hm

theorem noMv_postinsert {cfg : Cfg K V} {m : Map V} {al : List Bool} {l : List (Stmt V)}
    (h : postinsert cfg m al = some l) (v : V) : NoMv v l := by
  unfold postinsert at h
  simp only at h
  intro x tg y
  split at h
  · split at h <;> cases h <;> simp
  · cases h; simp

theorem noMv_storeAt {cfg : Cfg K V} {m : Map V} {r : PR V} {w v : V} (h : r.obj = none ∨ w ≠ v) :
    NoMv v (storeAt cfg m r w) := by
  unfold storeAt
  apply NoMv.append (noMv_boundSet cfg m _ _ v)
  intro x tg y hm
  split at hm
  · split at hm
    · next ho =>
      rcases h with h | h
      · rw [h] at ho; cases ho
      · simp at hm; exact h hm.2.1.symm
    · simp at hm
  · simp at hm
  · simp at hm
  · simp at hm

theorem noMv_setAt {cfg : Cfg K V} {m : Map V} {r : PR V} {w v : V} {al : List Bool} {l : List (Stmt V)}
    (h : r.obj = none ∨ w ≠ v) (hl : setAt cfg m r w al = some l) : NoMv v l := by
  unfold setAt at hl
  simp only at hl
  split at hl
  · cases hl; exact noMv_storeAt h
  · rw [Option.map_eq_some_iff] at hl
    obtain ⟨l', h1, h2⟩ := hl
    subst h2
    exact (noMv_storeAt h).append (noMv_postinsert h1 v)

theorem noMv_withRoom {cfg : Cfg K V} {q : K} {beh : Beh}
    {f : Map V → PR V → List Bool → Option (List (Stmt V) × Res V)} {v : V}
    (hf : ∀ m r al l res, f m r al = some (l, res) → NoMv v l) :
    ∀ fuel m al l res, withRoom cfg q beh f fuel m al = some (l, res) → NoMv v l := by
  intro fuel
  induction fuel with
  | zero => intro m al l res h; cases h
  | succ fuel ih =>
    intro m al l res h
    unfold withRoom at h
    split at h
    · cases h
    · split at h
      · split at h
        · cases h
        · cases h; intro x tg y hm; simp at hm
        · rw [Option.map_eq_some_iff] at h
          obtain ⟨⟨l', res'⟩, h1, h2⟩ := h
          cases h2
          have := ih _ _ _ _ h1
          intro x tg y hm
          rcases List.mem_cons.mp hm with h3 | h3
          · cases h3
          · exact this x tg y h3
      · exact hf _ _ _ _ _ h

theorem noMv_prog {cfg : Cfg K V} {m : Map V} {al : List Bool} {op : Op K V} {l : List (Stmt V)} {res : Res V} {v : V}
    (h : prog cfg m al op = some (l, res)) (hq : quiet v op = true) (ha : ∀ q fn, op ≠ .apply q fn) : NoMv v l := by
  have hput : ∀ w m r al l res, putTail cfg w m r al = some (l, res) → NoMv v l := by
    intro w m r al l res h
    unfold putTail at h
    split at h
    · cases h; intro x tg y hm; cases hm
    · next ho =>
      rw [Option.map_eq_some_iff] at h
      obtain ⟨l', h1, h2⟩ := h
      cases h2
      refine noMv_setAt (.inl ?_) h1
      cases hr : r.obj with
      | none => rfl
      | some o => rw [hr] at ho; exact absurd rfl ho
  have hgrow : ∀ c, growOp cfg m c al = some (l, res) → NoMv v l := by
    intro c h
    unfold growOp at h
    intro x tg y hm
    split at h <;> cases h <;> simp at hm
  have hreset : ∀ c, resetOp cfg c al = some (l, res) → NoMv v l := by
    intro c h
    unfold resetOp at h
    intro x tg y hm
    split at h <;> cases h <;> simp at hm
  cases op with
  | put w => exact noMv_withRoom (hput w) _ _ _ _ _ h
  | putUnique w => exact noMv_withRoom (hput w) _ _ _ _ _ h
  | set w =>
    refine noMv_withRoom ?_ _ _ _ _ _ h
    intro m r al l res h
    unfold setTail at h
    rw [Option.map_eq_some_iff] at h
    obtain ⟨l', h1, h2⟩ := h
    cases h2
    exact noMv_setAt (.inr (of_decide_eq_true hq)) h1
  | fas w =>
    have hne : w ≠ v := of_decide_eq_true hq
    simp only [prog, fas] at h
    intro x tg y hm
    split at h
    · cases h
    · split at h
      · cases h; cases hm
      · split at h
        · cases h
          unfold moveTo at hm
          split at hm
          · simp at hm; exact hne hm.2.1.symm
          · cases hm
        · cases h; simp at hm
        · cases h
  | remove q =>
    simp only [prog, remove] at h
    intro x tg y hm
    split at h
    · cases h
    · split at h <;> cases h <;> simp at hm
  | apply q fn => exact absurd rfl (ha q fn)
  | grow c => exact hgrow c h
  | rebuild => exact hgrow _ h
  | gc a b => cases hq
  | reset => exact hreset _ h
  | resetSize c => exact hreset _ h

/-- If a store of `l` moves `v` then `v` is not in the set at that time. -/
def MvOk (cfg : Cfg K V) (v : V) : Map V → Gh K V → List (Stmt V) → Prop
  | _, _, [] => True
  | m, g, st :: l => (∀ x tg y, st = .store x v tg (some y) → g.abs (cfg.key v) ≠ some v) ∧
      MvOk cfg v (exec m st) (gexec cfg m g st) l

theorem NoMv.ok {cfg : Cfg K V} {v : V} : ∀ {l : List (Stmt V)} {m : Map V} {g : Gh K V}, NoMv v l → MvOk cfg v m g l
  | [], _, _, _ => trivial
  | _ :: _, _, _, h => ⟨fun x tg y e => absurd (e ▸ List.mem_cons_self) (h x tg y),
      NoMv.ok fun x tg y hm => h x tg y (List.mem_cons_of_mem _ hm)⟩

theorem MvOk.append {cfg : Cfg K V} {v : V} : ∀ {l l' : List (Stmt V)} {m : Map V} {g : Gh K V}, MvOk cfg v m g l →
    MvOk cfg v (execs m l) (gexecs cfg m g l) l' → MvOk cfg v m g (l ++ l')
  | [], _, _, _, _, h' => h'
  | _ :: _, _, _, _, h, h' => ⟨h.1, MvOk.append h.2 h'⟩

theorem gexecs_boundSet (cfg : Cfg K V) (m : Map V) (g : Gh K V) (h n : Nat) :
    gexecs cfg m g (boundSet cfg m h n) = g := by
  unfold boundSet
  rw [gexecs_append]
  have h1 : gexecs cfg m g (if n > m.maxi then [.setMax n] else []) = g := by split <;> rfl
  rw [h1]
  cases m.bnd with
  | none => rfl
  | some b => simp only; split <;> split <;> rfl

theorem mvOk_setAt {cfg : Cfg K V} {m : Map V} {g : Gh K V} {r : PR V} {w v : V} {al : List Bool} {l : List (Stmt V)}
    (h : w = v → g.abs (cfg.key v) ≠ some v) (hl : setAt cfg m r w al = some l) : MvOk cfg v m g l := by
  by_cases hn : r.obj = none ∨ w ≠ v
  · exact (noMv_setAt hn hl).ok
  · have hw : w = v := Decidable.not_not.mp fun e => hn (.inr e)
    have hab := h hw
    unfold setAt at hl
    simp only at hl
    split at hl
    · cases hl
      unfold storeAt
      refine (noMv_boundSet cfg m _ _ v).ok.append ?_
      rw [gexecs_boundSet]
      split
      · split
        · refine ⟨fun _ _ _ _ => hab, ?_⟩
          refine NoMv.ok ?_
          intro x tg y hm; simp at hm
        · next ho _ ho' => contradiction
      · exact NoMv.ok fun x tg y hm => by simp at hm
      · exact NoMv.ok fun x tg y hm => by simp at hm
      · trivial
    · next ho =>
      exfalso
      apply hn
      left
      cases hr : r.obj with
      | none => rfl
      | some o => rw [hr] at ho; exact absurd rfl ho

theorem mvOk_apply {cfg : Cfg K V} {q : K} {fn : Option V → Option V} {abs : K → Option V} {v : V}
    (hc : Contract cfg abs (.apply q fn)) :
    ∀ fuel m al l res, Wf cfg m abs → withRoom cfg q .insert (applyTail cfg fn) fuel m al = some (l, res) →
      MvOk cfg v m ⟨abs, none, false⟩ l := by
  intro fuel
  induction fuel with
  | zero => intro m al l res _ h; cases h
  | succ fuel ih =>
    intro m al l res hw h
    have hcall : Call cfg m q .insert m.limit := by unfold Call; simp
    obtain ⟨r, e, hr, hps⟩ := probe_spec hw hcall
    have hobj := hps.obj hw (by simp)
    simp only [withRoom, hr] at h
    split at h
    · split at h
      · cases h
      · cases h; trivial
      · next u al' hg =>
        simp only [Option.map_eq_some_iff] at h
        obtain ⟨⟨l', res'⟩, h1, h2⟩ := h
        cases h2
        refine ⟨(fun x tg y e => by cases e), ?_⟩
        exact ih u al' l' res' (grow_spec hw _ _ _ hg).1 h1
    · unfold applyTail at h
      split at h
      · split at h <;> cases h <;> exact NoMv.ok fun x tg y hm => by simp at hm
      · next w hfn =>
        split at h
        · cases h; trivial
        · next hne =>
          rw [Option.map_eq_some_iff] at h
          obtain ⟨l', h1, h2⟩ := h
          cases h2
          refine mvOk_setAt ?_ h1
          rintro rfl
          have hk : cfg.key w = q := by
            have hc' : (fn (abs q)).all (fun w => decide (cfg.key w = q)) = true := hc
            rw [← hobj, hfn] at hc'
            exact of_decide_eq_true hc'
          show abs (cfg.key w) ≠ some w
          rw [hk, ← hobj]
          exact Ne.symm hne

theorem mvOk_prog {cfg : Cfg K V} {m : Map V} {al : List Bool} {op : Op K V} {l : List (Stmt V)} {res : Res V} {v : V}
    {abs : K → Option V} (hw : Wf cfg m abs) (hc : Contract cfg abs op) (h : prog cfg m al op = some (l, res))
    (hq : quiet v op = true) : MvOk cfg v m ⟨abs, none, false⟩ l := by
  by_cases ha : ∃ q fn, op = .apply q fn
  · obtain ⟨q, fn, rfl⟩ := ha
    exact mvOk_apply hc _ _ _ _ _ hw h
  · exact (noMv_prog h hq fun q fn e => ha ⟨q, fn, e⟩).ok

/-! ## Invariant -/

/-- The writer. -/
structure WInv (cfg : Cfg K V) (b : St K V T) (wlog : List (K → Option V)) : Prop where
  /-- every object in the table was in the set since the operation began -/
  wl : ∀ x v tg, (b.maps b.cur).ent x = .full v tg → Some cfg wlog v
  pd : ∀ o r, b.op = some (o, r) → ∀ v, quiet v o = true → MvOk cfg v (b.maps b.cur) b.gh b.pend
  /-- the left-over of a move is not the object of its key -/
  du : ∀ o r, b.op = some (o, r) → ∀ v, quiet v o = true → ∀ y tg, b.gh.dup = some y →
    (b.maps b.cur).ent y = .full v tg → b.gh.abs (cfg.key v) ≠ some v

/-- `v` is in one slot of `m`, and was returned iff that slot has been passed. -/
def At (m : Map V) (i : It K V) (v : V) : Prop :=
  ∃ x tg, m.ent x = .full v tg ∧ x < m.cap ∧ (∀ y tg', m.ent y = .full v tg' → y = x) ∧
    i.out.count v = if x < i.off then 1 else 0

structure IInv (cfg : Cfg K V) (b : St K V T) (i : It K V) : Prop where
  now : b.gh.abs ∈ i.log
  ops : ∀ o r, b.op = some (o, r) → o ∈ i.ops
  cur : ∀ x v tg, (b.maps b.cur).ent x = .full v tg → Some cfg (i.log ++ i.pre) v
  le : ∀ a, i.map = some a → a ≤ b.cur
  old : ∀ a x v tg, i.map = some a → (b.maps a).ent x = .full v tg → Some cfg (i.log ++ i.pre) v
  out : ∀ v ∈ i.out, Some cfg (i.log ++ i.pre) v
  strt : i.map = none → i.off = 0 ∧ i.out = [] ∧ i.fin = false
  at' : ∀ a v, i.map = some a → All cfg i.log v → (∀ o ∈ i.ops, quiet v o = true) → At (b.maps a) i v
  fin : i.fin = true → ∃ a, i.map = some a ∧ (b.maps a).cap ≤ i.off

theorem Some.mono {cfg : Cfg K V} {l l' : List (K → Option V)} {v : V} (h : Some cfg l v) (hs : ∀ x ∈ l, x ∈ l') :
    Some cfg l' v := by
  obtain ⟨x, h1, h2⟩ := h
  exact ⟨x, hs x h1, h2⟩

/-- What is in the table after a store. -/
theorem ent_after {cfg : Cfg K V} {m : Map V} {g : Gh K V} {st : Stmt V} (he : Eff cfg m g st) {x : Nat} {v : V}
    {tg : Nat} (h : (exec m st).ent x = .full v tg) :
    m.ent x = .full v tg ∨ (gexec cfg m g st).abs (cfg.key v) = some v := by
  cases st with
  | setMax n => exact .inl h
  | setBnd o n => exact .inl h
  | cnt n => exact .inl h
  | sig p => exact .inl h
  | store y w t d =>
    change upd m.ent y (.full w t) x = _ at h
    rw [upd_apply] at h
    split at h
    · cases h; right; exact upd_same _ _ _
    · exact .inl h
  | del y =>
    change upd m.ent y .tomb x = _ at h
    rw [upd_apply] at h
    split at h
    · cases h
    · exact .inl h
  | publish u c =>
    right
    obtain ⟨h1, h2⟩ := he
    have := h2.here x v tg h (by simp)
    simp only [gexec]
    split
    · next hc => rw [if_pos hc] at this; exact this
    · next hc => rw [if_neg hc] at this; exact this

/-- A left-over of a move after a store. -/
theorem dup_after {cfg : Cfg K V} {m : Map V} {g : Gh K V} {st : Stmt V} (hG : G cfg m g) (he : Eff cfg m g st)
    {y : Nat} {v : V} {tg : Nat} (hn : ∀ x t z, st = .store x v t (some z) → g.abs (cfg.key v) ≠ some v)
    (hd : ∀ y tg, g.dup = some y → m.ent y = .full v tg → g.abs (cfg.key v) ≠ some v)
    (h1 : (gexec cfg m g st).dup = some y) (h2 : (exec m st).ent y = .full v tg) :
    (gexec cfg m g st).abs (cfg.key v) ≠ some v := by
  cases st with
  | setMax n => exact hd y tg h1 h2
  | setBnd o n => exact hd y tg h1 h2
  | cnt n => exact hd y tg h1 h2
  | sig p => exact hd y tg h1 h2
  | store x w t d =>
    change d = some y at h1
    subst h1
    obtain ⟨h0, -, -, h4, -, h6⟩ := he
    obtain ⟨⟨u, tu, hu, hku⟩, -⟩ := h6 y rfl
    have hxy : y ≠ x := by
      rintro rfl
      have := (h4 u tu hu).2
      cases this
    change upd m.ent x (.full w t) y = _ at h2
    rw [upd_ne _ _ hxy, hu] at h2
    injection h2 with h2 _
    subst h2
    change upd g.abs (cfg.key w) (some w) (cfg.key u) ≠ some u
    rw [hku, upd_same]
    intro h
    injection h with h
    subst h
    exact hn x t y rfl (hG.here y w tu hu (by rw [h0]; simp))
  | del x =>
    obtain ⟨⟨w, t, hw⟩, h3⟩ := he
    exfalso
    simp only [gexec, hw] at h1
    split at h1 <;> cases h1
  | publish u c =>
    exfalso
    obtain ⟨h3, -⟩ := he
    simp only [gexec] at h1
    split at h1 <;> rw [h3] at h1 <;> cases h1

/-- An object that stays and is not moved keeps its only slot. -/
theorem at_exec {cfg : Cfg K V} {m : Map V} {g : Gh K V} {st : Stmt V} {i : It K V} {v : V} (he : Eff cfg m g st)
    (hp : ∀ u c, st ≠ .publish u c) (hn : ∀ x t z, st = .store x v t (some z) → g.abs (cfg.key v) ≠ some v)
    (hd : ∀ y tg, g.dup = some y → m.ent y = .full v tg → g.abs (cfg.key v) ≠ some v)
    (hg : g.abs (cfg.key v) = some v) (hg' : (gexec cfg m g st).abs (cfg.key v) = some v)
    (h : At m i v) : At (exec m st) i v := by
  obtain ⟨x, tg, h1, h2, h3, h4⟩ := h
  cases st with
  | setMax n => exact ⟨x, tg, h1, h2, h3, h4⟩
  | setBnd o n => exact ⟨x, tg, h1, h2, h3, h4⟩
  | cnt n => exact ⟨x, tg, h1, h2, h3, h4⟩
  | sig p => exact ⟨x, tg, h1, h2, h3, h4⟩
  | publish u c => exact absurd rfl (hp u c)
  | store y w t d =>
    obtain ⟨-, e2, -, e4, e5, -⟩ := he
    change upd g.abs (cfg.key w) (some w) (cfg.key v) = some v at hg'
    by_cases hyx : y = x
    · subst hyx
      have hk := (e4 v tg h1).1
      rw [hk, upd_same] at hg'
      injection hg' with hg'
      subst hg'
      refine ⟨y, t, upd_same _ _ _, h2, ?_, h4⟩
      intro z tz hz
      change upd m.ent y (.full w t) z = _ at hz
      rw [upd_apply] at hz
      split at hz
      · assumption
      · exact h3 z tz hz
    · have hwv : w ≠ v := by
        rintro rfl
        cases d with
        | none => exact hyx (e5 rfl x ⟨w, tg, h1, rfl⟩).symm
        | some z => exact hn y t z rfl hg
      refine ⟨x, tg, ?_, h2, ?_, h4⟩
      · show upd m.ent y (.full w t) x = _
        rw [upd_ne _ _ (Ne.symm hyx), h1]
      · intro z tz hz
        change upd m.ent y (.full w t) z = _ at hz
        rw [upd_apply] at hz
        split at hz
        · cases hz; exact absurd rfl hwv
        · exact h3 z tz hz
  | del y =>
    have hyx : y ≠ x := by
      rintro rfl
      simp only [gexec, h1] at hg'
      split at hg'
      · next hdu => exact hd y tg hdu h1 hg
      · change upd g.abs (cfg.key v) none (cfg.key v) = _ at hg'
        rw [upd_same] at hg'; cases hg'
    refine ⟨x, tg, ?_, h2, ?_, h4⟩
    · show upd m.ent y .tomb x = _
      rw [upd_ne _ _ (Ne.symm hyx), h1]
    · intro z tz hz
      change upd m.ent y .tomb z = _ at hz
      rw [upd_apply] at hz
      split at hz
      · cases hz
      · exact h3 z tz hz

/-- The state. -/
structure Inv (cfg : Cfg K V) (c : Nat) (s : IS K V T) : Prop where
  base : (Hs.sys cfg c).Reach s.base
  w : WInv cfg s.base s.wlog
  i : ∀ i, s.it = some i → IInv cfg s.base i

/-- Steps that do not touch the table. -/
theorem keep {cfg : Cfg K V} {c : Nat} {b b' : St K V T} {a : Hs.Act K V T} (h : (Hs.sys cfg c).step b a = some b')
    (he : a ≠ .exec) : b'.maps = b.maps ∧ b'.cur = b.cur ∧ b'.gh = b.gh ∧
      (b'.op = none ∨ (∃ op al l res, a = .begin op al ∧ Contract cfg b.gh.abs op ∧ prog cfg (b.maps b.cur) al op = some (l, res) ∧
        b'.op = some (op, res) ∧ b'.pend = l ∧ b.op = none) ∨
        (b'.op = b.op ∧ b'.pend = b.pend ∧ ∀ op al, a ≠ .begin op al)) := by
  cases a with
  | exec => exact absurd rfl he
  | begin op al =>
    simp only [Hs.sys] at h
    split at h
    · next hc =>
      simp only [Hs.step] at h
      split at h
      · next hop =>
        split at h
        · next l res hp => cases h; exact ⟨rfl, rfl, rfl, .inr (.inl ⟨op, al, l, res, rfl, hc, hp, rfl, rfl, hop⟩)⟩
        · cases h
      · cases h
    · cases h
  | fin =>
    simp only [Hs.sys, Hs.step] at h
    split at h
    · cases h; exact ⟨rfl, rfl, rfl, .inl rfl⟩
    · cases h
  | call t q =>
    simp only [Hs.sys, Hs.step] at h
    split at h
    · cases h; exact ⟨rfl, rfl, rfl, .inr (.inr ⟨rfl, rfl, fun _ _ h => by cases h⟩)⟩
    · cases h
  | ret t =>
    simp only [Hs.sys, Hs.step] at h
    split at h
    · cases h; exact ⟨rfl, rfl, rfl, .inr (.inr ⟨rfl, rfl, fun _ _ h => by cases h⟩)⟩
    · cases h
  | next t =>
    simp only [Hs.sys, Hs.step] at h
    rw [Option.map_eq_some_iff] at h
    obtain ⟨pc, -, h2⟩ := h
    cases h2
    exact ⟨rfl, rfl, rfl, .inr (.inr ⟨rfl, rfl, fun _ _ h => by cases h⟩)⟩

/-- Between operations no entry is on its way. -/
theorem idle_dup {cfg : Cfg K V} {b : St K V T} (hi : Hs.Inv cfg b) (h : b.op = none) : b.gh.dup = none := by
  have hpd : b.pend = [] := by
    have := hi.wr
    unfold WI at this
    rwa [h] at this
  have := hi.fin.2.1
  rwa [hpd] at this

theorem inv_init {cfg : Cfg K V} {c : Nat} {s : IS K V T} (h : (sys cfg c).init s) : Inv cfg c s := by
  obtain ⟨h1, h2, h3⟩ := h
  have hr : (Hs.sys cfg c).Reach s.base := .init h1
  have hi := inv_reach hr
  obtain ⟨e1, e2, e3, e4, e5, -⟩ := h1
  refine ⟨hr, ⟨?_, ?_, ?_⟩, ?_⟩
  · intro x v tg hx
    rw [e2, e1] at hx
    cases hx
  · intro o r ho; rw [e5] at ho; cases ho
  · intro o r ho; rw [e5] at ho; cases ho
  · intro i hi; rw [h3] at hi; cases hi

theorem inv_exec {cfg : Cfg K V} {c : Nat} {s : IS K V T} {b : St K V T} (hi : Inv cfg c s)
    (h : (Hs.sys cfg c).step s.base .exec = some b) :
    Inv cfg c
      { base := b, wlog := b.gh.abs :: s.wlog, it := s.it.map fun i => { i with log := b.gh.abs :: i.log } } := by
  have hr := hi.base.step h
  have hb := inv_reach hi.base
  simp only [Hs.sys, Hs.step] at h
  split at h
  · cases h
  · next st l hpd =>
    cases h
    change Inv cfg c { base := after cfg s.base st l, wlog := _, it := _ }
    change (Hs.sys cfg c).Reach (after cfg s.base st l) at hr
    have heff := hb.eff
    rw [hpd] at heff
    obtain ⟨he, -⟩ := heff
    have hcm : (after cfg s.base st l).maps (after cfg s.base st l).cur = exec (s.base.maps s.base.cur) st := by
      cases st <;> exact upd_same _ _ _
    have hgh : (after cfg s.base st l).gh = gexec cfg (s.base.maps s.base.cur) s.base.gh st := rfl
    have hop : (after cfg s.base st l).op = s.base.op := rfl
    refine ⟨hr, ⟨?_, ?_, ?_⟩, ?_⟩
    · intro x v tg hx
      rw [hcm] at hx
      rcases ent_after he hx with h1 | h1
      · exact (hi.w.wl x v tg h1).mono fun _ h => List.mem_cons_of_mem _ h
      · exact ⟨_, List.mem_cons_self, h1⟩
    · intro o r ho v hq
      have := hi.w.pd o r ho v hq
      rw [hpd] at this
      rw [hcm]
      exact this.2
    · intro o r ho v hq y tg hd hf
      rw [hcm] at hf
      have hp := hi.w.pd o r ho v hq
      rw [hpd] at hp
      exact dup_after hb.g he hp.1 (fun y tg => hi.w.du o r ho v hq y tg) hd hf
    · intro j hj
      cases hit : s.it with
      | none => rw [hit] at hj; cases hj
      | some i =>
        rw [hit] at hj
        cases hj
        have hI := hi.i i hit
        have hmono : ∀ {v}, Some cfg (i.log ++ i.pre) v →
            Some cfg ((after cfg s.base st l).gh.abs :: i.log ++ i.pre) v := fun h =>
          h.mono fun _ h => List.mem_cons_of_mem _ h
        have hcur : ∀ x v tg, (exec (s.base.maps s.base.cur) st).ent x = .full v tg →
            Some cfg ((after cfg s.base st l).gh.abs :: i.log ++ i.pre) v := by
          intro x v tg hx
          rcases ent_after he hx with h1 | h1
          · exact hmono (hI.cur x v tg h1)
          · exact ⟨_, List.mem_cons_self, h1⟩
        have hsame : ∀ a, a ≤ s.base.cur → (after cfg s.base st l).maps a = s.base.maps a ∨
            (a = s.base.cur ∧ (∀ u c, st ≠ .publish u c) ∧
              (after cfg s.base st l).maps a = exec (s.base.maps s.base.cur) st) := by
          intro a ha
          rcases Nat.lt_or_ge a s.base.cur with h1 | h1
          · exact .inl (after_old h1).1
          · have : a = s.base.cur := Nat.le_antisymm ha h1
            subst this
            by_cases hp : ∃ u c, st = .publish u c
            · obtain ⟨u, c, rfl⟩ := hp
              left; exact upd_ne _ _ (by omega)
            · right
              have hp' : ∀ u c, st ≠ .publish u c := fun u c h => hp ⟨u, c, h⟩
              exact ⟨rfl, hp', by rw [(after_store hp').1, upd_same]⟩
        refine ⟨List.mem_cons_self, hI.ops, ?_, ?_, ?_, ?_, hI.strt, ?_, ?_⟩
        · intro x v tg hx
          rw [hcm] at hx
          exact hcur x v tg hx
        · intro a ha; exact Nat.le_trans (hI.le a ha) cur_after
        · intro a x v tg ha hx
          rcases hsame a (hI.le a ha) with h1 | ⟨-, -, h1⟩
          · rw [h1] at hx; exact hmono (hI.old a x v tg ha hx)
          · rw [h1] at hx; exact hcur x v tg hx
        · intro v hv; exact hmono (hI.out v hv)
        · intro a v ha hall hq
          have hat : At (s.base.maps a) i v := hI.at' a v ha (fun x hx => hall x (List.mem_cons_of_mem _ hx)) hq
          rcases hsame a (hI.le a ha) with h1 | ⟨h0, hp, h1⟩
          · show At ((after cfg s.base st l).maps a) _ v
            rw [h1]; exact hat
          · show At ((after cfg s.base st l).maps a) _ v
            rw [h1]
            rw [h0] at hat
            cases hop' : s.base.op with
            | none =>
              have hw := hb.wr
              unfold WI at hw
              rw [hop', hpd] at hw
              cases hw
            | some p =>
              obtain ⟨o, r⟩ := p
              have hqo := hq o (hI.ops o r hop')
              have hp2 := hi.w.pd o r hop' v hqo
              rw [hpd] at hp2
              exact at_exec he hp hp2.1 (fun y tg => hi.w.du o r hop' v hqo y tg)
                (hall _ (List.mem_cons_of_mem _ hI.now)) (hall _ List.mem_cons_self) hat
        · intro hf
          obtain ⟨a, h1, h2⟩ := hI.fin hf
          refine ⟨a, h1, ?_⟩
          rcases hsame a (hI.le a h1) with h3 | ⟨h0, hp, h3⟩
          · show ((after cfg s.base st l).maps a).cap ≤ _
            rw [h3]; exact h2
          · show ((after cfg s.base st l).maps a).cap ≤ _
            rw [h3]
            rw [h0] at h2
            cases st with
            | publish u c => exact absurd rfl (hp u c)
            | _ => exact h2

theorem inv_keep {cfg : Cfg K V} {c : Nat} {s : IS K V T} {b : St K V T} {a : Hs.Act K V T} (hi : Inv cfg c s)
    (h : (Hs.sys cfg c).step s.base a = some b) (hne : a ≠ .exec) :
    Inv cfg c
      { base := b, wlog := noteW b.gh.abs s.wlog a
        it := s.it.map fun i => { i with log := note b.gh.abs i.log a, ops := noteOp i.ops a } } := by
  have hr := hi.base.step h
  have hb := inv_reach hi.base
  obtain ⟨hm, hc, hg, hop⟩ := keep h hne
  have hlog : ∀ l : List (K → Option V), note b.gh.abs l a = l := by
    intro l; cases a <;> first | rfl | exact absurd rfl hne
  have hdup : (∃ op al, a = .begin op al) → s.base.gh.dup = none := by
    rintro ⟨op, al, rfl⟩
    simp only [Hs.sys] at h
    split at h
    · simp only [Hs.step] at h
      split at h
      · next h0 => exact idle_dup hb h0
      · cases h
    · cases h
  refine ⟨hr, ⟨?_, ?_, ?_⟩, ?_⟩
  · intro x v tg hx
    change (b.maps b.cur).ent x = _ at hx
    rw [hm, hc] at hx
    by_cases hbg : ∃ op al, a = .begin op al
    · have hd := hdup hbg
      obtain ⟨op, al, rfl⟩ := hbg
      refine ⟨_, List.mem_singleton.mpr rfl, ?_⟩
      rw [hg]
      exact hb.g.here x v tg hx (by rw [hd]; simp)
    · have : noteW b.gh.abs s.wlog a = s.wlog := by
        cases a <;> first | rfl | exact absurd rfl hne | exact absurd ⟨_, _, rfl⟩ hbg
      show Some cfg (noteW b.gh.abs s.wlog a) v
      rw [this]
      exact hi.w.wl x v tg hx
  · intro o r ho v hq
    change b.op = _ at ho
    rcases hop with h1 | ⟨op, al, l, res, h1, hct, h2, h3, h4, h5⟩ | ⟨h1, h2, h3⟩
    · rw [h1] at ho; cases ho
    · rw [h3] at ho
      cases ho
      show MvOk cfg v (b.maps b.cur) b.gh b.pend
      have hfin := hb.fin
      have hpd : s.base.pend = [] := by
        have := hb.wr
        unfold WI at this
        rwa [h5] at this
      rw [hpd] at hfin
      obtain ⟨hw, hd, hsg⟩ := hfin
      change Wf cfg (s.base.maps s.base.cur) s.base.gh.abs at hw
      change s.base.gh.dup = none at hd
      change s.base.gh.sg = false at hsg
      have hgh : s.base.gh = ⟨s.base.gh.abs, none, false⟩ := by rw [← hd, ← hsg]
      rw [h4, hm, hc, hg, hgh]
      exact mvOk_prog hw hct h2 hq
    · show MvOk cfg v (b.maps b.cur) b.gh b.pend
      rw [h2, hm, hc, hg]
      exact hi.w.pd o r (h1 ▸ ho) v hq
  · intro o r ho v hq y tg hd hf
    change b.op = _ at ho
    change b.gh.dup = _ at hd
    change (b.maps b.cur).ent y = _ at hf
    show b.gh.abs _ ≠ _
    rw [hg] at hd ⊢
    rw [hm, hc] at hf
    rcases hop with h1 | ⟨op, al, l, res, h1, hct, h2, h3, h4, h5⟩ | ⟨h1, h2, h3⟩
    · rw [h1] at ho; cases ho
    · rw [idle_dup hb h5] at hd; cases hd
    · exact hi.w.du o r (h1 ▸ ho) v hq y tg hd hf
  · intro j hj
    cases hit : s.it with
    | none => rw [hit] at hj; cases hj
    | some i =>
      rw [hit] at hj
      cases hj
      have hI := hi.i i hit
      have hops : ∀ o, o ∈ i.ops → o ∈ noteOp i.ops a := by
        intro o ho
        cases a with
        | begin op al => exact List.mem_cons_of_mem _ ho
        | _ => exact ho
      simp only [hlog]
      refine ⟨by rw [hg]; exact hI.now, ?_, ?_, ?_, ?_, hI.out, hI.strt, ?_, ?_⟩
      · intro o r ho
        change b.op = _ at ho
        rcases hop with h1 | ⟨op, al, l, res, h1, hct, h2, h3, h4, h5⟩ | ⟨h1, h2, h3⟩
        · rw [h1] at ho; cases ho
        · rw [h3] at ho
          cases ho
          subst h1
          exact List.mem_cons_self
        · exact hops o (hI.ops o r (h1 ▸ ho))
      · intro x v tg hx
        change (b.maps b.cur).ent x = _ at hx
        rw [hm, hc] at hx
        exact hI.cur x v tg hx
      · intro a ha; show a ≤ b.cur; rw [hc]; exact hI.le a ha
      · intro a x v tg ha hx
        change (b.maps a).ent x = _ at hx
        rw [hm] at hx
        exact hI.old a x v tg ha hx
      · intro a v ha hall hq
        show At (b.maps a) _ v
        rw [hm]
        exact hI.at' a v ha hall (fun o ho => hq o (hops o ho))
      · intro hf
        obtain ⟨a, h1, h2⟩ := hI.fin hf
        exact ⟨a, h1, by show (b.maps a).cap ≤ _; rw [hm]; exact h2⟩

theorem inv_start {cfg : Cfg K V} {c : Nat} {s : IS K V T} (hi : Inv cfg c s) :
    IInv cfg s.base (start s.base s.wlog) := by
  refine ⟨List.mem_singleton.mpr rfl, ?_, ?_, ?_, ?_, ?_, fun _ => ⟨rfl, rfl, rfl⟩, ?_, ?_⟩
  · intro o r ho; simp [start, ho]
  · intro x v tg hx
    exact (hi.w.wl x v tg hx).mono fun _ h => List.mem_append.mpr (.inr h)
  · intro a ha; cases ha
  · intro a x v tg ha; cases ha
  · intro v hv; cases hv
  · intro a v ha; cases ha
  · intro hf; cases hf

theorem inv_load {cfg : Cfg K V} {c : Nat} {s : IS K V T} {i : It K V} (hi : Inv cfg c s) (hit : s.it = some i) :
    IInv cfg s.base (load s.base i) := by
  have hI := hi.i i hit
  have hb := inv_reach hi.base
  unfold load
  cases hm : i.map with
  | none =>
    obtain ⟨h0, h1, h2⟩ := hI.strt hm
    simp only
    refine ⟨hI.now, hI.ops, hI.cur, ?_, ?_, hI.out, ?_, ?_, ?_⟩
    · intro a ha; cases ha; exact Nat.le_refl _
    · intro a x v tg ha hx; cases ha; exact hI.cur x v tg hx
    · intro h; cases h
    · intro a v ha hall hq
      cases ha
      obtain ⟨k, hk⟩ := hb.g.pos _ v (hall _ hI.now)
      obtain ⟨-, hnd, hf, -⟩ := hk
      refine ⟨_, _, hf, (hb.g.tag _ _ _ hf).2, ?_, ?_⟩
      · intro y tg' hy
        refine hb.g.uniq _ _ _ _ _ _ hy hf rfl ?_ hnd
        intro hd
        cases hop : s.base.op with
        | none => rw [idle_dup hb hop] at hd; cases hd
        | some p =>
          obtain ⟨o, r⟩ := p
          exact hi.w.du o r hop v (hq o (hI.ops o r hop)) y tg' hd.symm hy (hall _ hI.now)
      · show i.out.count v = if _ < i.off then 1 else 0
        rw [h0, h1]; rfl
    · intro hf
      change i.fin = true at hf
      rw [h2] at hf
      cases hf
  | some a =>
    simp only
    split
    · next hge => exact ⟨hI.now, hI.ops, hI.cur, fun b hb => hI.le b (hm.trans hb), fun b x v tg hb => hI.old b x v tg (hm.trans hb),
        hI.out, (fun h => by cases h), fun b v hb => hI.at' b v (hm.trans hb), fun _ => ⟨a, rfl, hge⟩⟩
    · next hlt =>
      have hlt' : i.off < (s.base.maps a).cap := Nat.lt_of_not_le hlt
      split
      · next w tg hf =>
        refine ⟨hI.now, hI.ops, hI.cur, fun b hb => hI.le b (hm.trans hb),
          fun b x v tg hb => hI.old b x v tg (hm.trans hb), ?_, (fun h => by cases h), ?_, ?_⟩
        · intro v hv
          rcases List.mem_append.mp hv with h1 | h1
          · exact hI.out v h1
          · rw [List.mem_singleton.mp h1]; exact hI.old a _ w tg hm hf
        · intro b v hb' hall hq
          have hba : b = a := by cases hb'; rfl
          subst hba
          obtain ⟨x, tx, h1, h2, h3, h4⟩ := hI.at' b v hm hall hq
          refine ⟨x, tx, h1, h2, h3, ?_⟩
          show (i.out ++ [w]).count v = if x < i.off + 1 then 1 else 0
          rw [List.count_append, h4]
          by_cases hwv : w = v
          · subst hwv
            have hx := h3 _ _ hf
            rw [← hx]
            simp
          · have hx : x ≠ i.off := by
              rintro rfl
              rw [h1] at hf
              cases hf
              exact hwv rfl
            have : List.count v [w] = 0 := by simp [hwv]
            rw [this]
            by_cases hlt2 : x < i.off
            · rw [if_pos hlt2, if_pos (by omega)]
            · rw [if_neg hlt2, if_neg (by omega)]
        · intro hfin
          obtain ⟨b, h1, h2⟩ := hI.fin hfin
          exact ⟨b, hm.symm.trans h1, Nat.le_succ_of_le h2⟩
      · next hnf =>
        refine ⟨hI.now, hI.ops, hI.cur, fun b hb => hI.le b (hm.trans hb),
          fun b x v tg hb => hI.old b x v tg (hm.trans hb), hI.out, (fun h => by cases h), ?_, ?_⟩
        · intro b v hb' hall hq
          have hba : b = a := by cases hb'; rfl
          subst hba
          obtain ⟨x, tx, h1, h2, h3, h4⟩ := hI.at' b v hm hall hq
          refine ⟨x, tx, h1, h2, h3, ?_⟩
          have hx : x ≠ i.off := by
            rintro rfl
            exact hnf v tx h1
          show i.out.count v = if x < i.off + 1 then 1 else 0
          rw [h4]
          by_cases hlt2 : x < i.off
          · rw [if_pos hlt2, if_pos (by omega)]
          · rw [if_neg hlt2, if_neg (by omega)]
        · intro hfin
          obtain ⟨b, h1, h2⟩ := hI.fin hfin
          exact ⟨b, hm.symm.trans h1, Nat.le_succ_of_le h2⟩

theorem inv_reach' {cfg : Cfg K V} {c : Nat} {s : IS K V T} (h : (sys (T := T) cfg c).Reach s) : Inv cfg c s := by
  refine h.invariant (I := Inv cfg c) (fun _ => inv_init) ?_
  intro s a s' hi hs
  cases a with
  | base a =>
    change step cfg c s (.base a) = some s' at hs
    unfold step at hs
    simp only at hs
    split at hs
    · cases hs
    · next b hb =>
      cases hs
      by_cases he : a = .exec
      · subst he; exact inv_exec hi hb
      · exact inv_keep hi hb he
  | init =>
    simp only [sys, step] at hs
    cases hs
    refine ⟨hi.base, hi.w, ?_⟩
    intro i h
    cases h
    exact inv_start (s := s) hi
  | next =>
    simp only [sys, step] at hs
    split at hs
    · cases hs
    · next i hit =>
      cases hs
      refine ⟨hi.base, hi.w, ?_⟩
      intro j h
      cases h
      exact inv_load (s := s) hi hit

/-! ## Theorems -/

/-- Every object that the iteration returns was in the set at some instant since the iteration, or the operation of the
writer that was in progress then, began. -/
theorem iter_sound {cfg : Cfg K V} {c : Nat} {s : IS K V T} {i : It K V} (h : (sys (T := T) cfg c).Reach s)
    (hi : s.it = some i) {v : V} (hv : v ∈ i.out) : Some cfg (i.log ++ i.pre) v :=
  ((inv_reach' h).i i hi).out v hv

/-- Full statement: when the iteration ends it has returned every object that was in the set all the time, exactly once.
Missing: it does not if the writer moved the object within the map (`missed`, `twice`); so no `ck_hs_gc`,
and neither `ck_hs_set` nor `ck_hs_fas` with this same object, may overlap the iteration.  Any other operation may,
including a growth of the table. -/
theorem iter_complete_partial {cfg : Cfg K V} {c : Nat} {s : IS K V T} {i : It K V} (h : (sys (T := T) cfg c).Reach s)
    (hi : s.it = some i) (hf : i.fin = true) {v : V} (hall : All cfg i.log v)
    (hq : ∀ o ∈ i.ops, quiet v o = true) : i.out.count v = 1 := by
  have hI := (inv_reach' h).i i hi
  obtain ⟨a, h1, h2⟩ := hI.fin hf
  obtain ⟨x, tg, -, h4, -, h6⟩ := hI.at' a v h1 hall hq
  rw [h6, if_pos (by omega)]

/-- At any time such an object was returned at most once. -/
theorem iter_once_partial {cfg : Cfg K V} {c : Nat} {s : IS K V T} {i : It K V} (h : (sys (T := T) cfg c).Reach s)
    (hi : s.it = some i) {v : V} (hall : All cfg i.log v)
    (hq : ∀ o ∈ i.ops, quiet v o = true) : i.out.count v ≤ 1 := by
  have hI := (inv_reach' h).i i hi
  cases hm : i.map with
  | none => rw [(hI.strt hm).2.1]; exact Nat.zero_le _
  | some a =>
    obtain ⟨x, tg, -, -, -, h6⟩ := hI.at' a v hm hall hq
    rw [h6]; split <;> omega

/-- The iteration ends after one load of the map, one of every slot and one more step. -/
theorem iter_ends (b : St K V T) (i : It K V) (a : Nat) (hm : i.map = some a) :
    (load b i).map = some a ∧ ((load b i).fin = true ∨ (load b i).off = i.off + 1 ∧ i.off < (b.maps a).cap) := by
  unfold load
  simp only [hm]
  split
  · exact ⟨rfl, .inl rfl⟩
  · split <;> exact ⟨rfl, .inr ⟨rfl, by omega⟩⟩

end Verif.Hs.Iter
