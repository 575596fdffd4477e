import Verif.Ht.HsThm
import Verif.Core.Hind

/-!
# Hash set: readers concurrent with the writer (C48)

The writer executes its operations store by store, any number of readers run `ck_hs_get` load by load.  The whole is
linearizable: it behaves like a map whose operations take effect at one instant between call and return.

Simplified: interleaving semantics (`DESIGN.md`); generation counters do not wrap (less than 2^32 signals during one
probe); maps that were replaced are not freed while a reader holds them (the contract of `ck_malloc`'s deferred free).
-/

set_option linter.unusedSectionVars false

namespace Verif.Hs

open Verif

variable {K V T : Type} [DecidableEq K] [DecidableEq V] [DecidableEq T]

/-- Program counter of `ck_hs_get`, lines 875-900; `a` is the map it has loaded. -/
inductive RPC (K V : Type)
  | idle
  /-- line 887: about to load `hs->map` -/
  | start (q : K)
  /-- line 889: about to load the generation -/
  | gotM (q : K) (a : Nat)
  /-- line 890: about to load the bound -/
  | gotG (q : K) (a g : Nat)
  /-- line 323: the bound of the bucket is saturated, about to load the maximum -/
  | gotB (q : K) (a g : Nat)
  /-- line 478: about to load the slot of probe `i`; `b` is the limit -/
  | scan (q : K) (a g b i : Nat)
  /-- line 896: about to load the generation again -/
  | fin (q : K) (a g : Nat) (o : Option V)
  /-- returned -/
  | done (q : K) (o : Option V)

structure St (K V T : Type) where
  /-- all maps ever published; `cur` is `hs->map` -/
  maps : Nat → Map V
  cur : Nat
  /-- ghost state of the writer -/
  gh : Gh K V
  /-- stores left of the operation in progress -/
  pend : List (Stmt V)
  /-- the operation in progress and its result -/
  op : Option (Op K V × Res V)
  /-- ghost: it has changed the contents -/
  lin : Prop
  rd : T → RPC K V
  /-- ghost: the key was absent at some instant since the call -/
  absent : T → Prop
  /-- ghost: the key had this object at some instant since the call -/
  had : T → V → Prop

inductive Act (K V T : Type)
  | begin (op : Op K V) (al : List Bool)
  /-- one store of the writer -/
  | exec
  /-- the writer returns -/
  | fin
  | call (t : T) (q : K)
  /-- one load of a reader -/
  | next (t : T)
  /-- a reader returns -/
  | ret (t : T)

/-- One load of a reader. -/
def rstep (cfg : Cfg K V) (maps : Nat → Map V) (cur : Nat) : RPC K V → Option (RPC K V)
  | .idle => none
  | .start q => some (.gotM q cur)
  | .gotM q a => some (.gotG q a ((maps a).gen (decide (cfg.hash q % 2 = 1))))
  | .gotG q a g => match (maps a).bnd with
    | none => some (.scan q a g (maps a).maxi 0)
    | some b =>
      if b (cfg.hash q &&& (maps a).mask) = cfg.wmax then some (.gotB q a g)
      else some (.scan q a g (b (cfg.hash q &&& (maps a).mask)) 0)
  | .gotB q a g => some (.scan q a g (maps a).maxi 0)
  | .scan q a g b i =>
    if i = b then some (.fin q a g none)
    else match (maps a).ent (slotAt (maps a) (cfg.hash q) i) with
      | .empty => some (.fin q a g none)
      | .tomb => some (.scan q a g b (i + 1))
      | .full v tg => if hit cfg q v tg then some (.fin q a g (some v)) else some (.scan q a g b (i + 1))
  | .fin q a g o =>
    if (maps a).gen (decide (cfg.hash q % 2 = 1)) = g then some (.done q o) else some (.start q)
  | .done _ _ => none

/-- Key of a call in progress. -/
def RPC.key? : RPC K V → Option K
  | .idle => none
  | .start q => some q
  | .gotM q _ => some q
  | .gotG q _ _ => some q
  | .gotB q _ _ => some q
  | .scan q _ _ _ _ => some q
  | .fin q _ _ _ => some q
  | .done _ _ => none

/-- The key of a call does not change. -/
theorem key_rstep {cfg : Cfg K V} {maps : Nat → Map V} {cur : Nat} {p p' : RPC K V}
    (h : rstep cfg maps cur p = some p') (q : K) (hq : p'.key? = some q) : p.key? = some q := by
  cases p <;> simp only [rstep] at h <;> (repeat' split at h) <;> first | (cases h; done) | (cases h; exact hq) | (cases h; cases hq)

/-- A store to the current map, or the publication of a new one. -/
def mexec (maps : Nat → Map V) (cur : Nat) : Stmt V → (Nat → Map V) × Nat
  | .publish u _ => (upd maps (cur + 1) u, cur + 1)
  | s => (upd maps cur (exec (maps cur) s), cur)

def step (cfg : Cfg K V) (s : St K V T) : Act K V T → Option (St K V T)
  | .begin op al => match s.op with
    | none => match prog cfg (s.maps s.cur) al op with
      | some (l, res) => some { s with pend := l, op := some (op, res), lin := False }
      | none => none
    | some _ => none
  | .fin => match s.op, s.pend with
    | some _, [] => some { s with op := none }
    | _, _ => none
  | .exec => match s.pend with
    | [] => none
    | st :: l =>
      let gh := gexec cfg (s.maps s.cur) s.gh st
      some { s with
        maps := (mexec s.maps s.cur st).1, cur := (mexec s.maps s.cur st).2, gh := gh, pend := l
        lin := s.lin ∨ gh.abs ≠ s.gh.abs
        absent := fun t => s.absent t ∨ ∃ q, (s.rd t).key? = some q ∧ gh.abs q = none
        had := fun t v => s.had t v ∨ ∃ q, (s.rd t).key? = some q ∧ gh.abs q = some v }
  | .call t q => match s.rd t with
    | .idle => some { s with
        rd := upd s.rd t (.start q)
        absent := upd s.absent t (s.gh.abs q = none)
        had := upd s.had t (fun v => s.gh.abs q = some v) }
    | _ => none
  | .ret t => match s.rd t with
    | .done _ _ => some { s with rd := upd s.rd t .idle }
    | _ => none
  | .next t => (rstep cfg s.maps s.cur (s.rd t)).map fun pc => { s with rd := upd s.rd t pc }

/-- Readers and a writer, after `ck_hs_init` with `c` entries; the writer keeps the contracts. -/
def sys (cfg : Cfg K V) (c : Nat) : Sys (St K V T) (Act K V T) :=
  { init := fun s => s.maps 0 = create cfg c ∧ s.cur = 0 ∧ s.gh = ⟨fun _ => none, none, false⟩ ∧ s.pend = [] ∧
      s.op = none ∧ ∀ t, s.rd t = .idle
    step := fun s a => match a with
      | .begin op al => if Contract cfg s.gh.abs op then step cfg s (.begin op al) else none
      | a => step cfg s a }

/-! ## Specification -/

/-- The map: `ck_hs_get` returns the object of the key, the operations of the writer follow `Spec`. -/
def obj (cfg : Cfg K V) : Lin.Obj (Op K V ⊕ K) (Res V ⊕ Option V) (K → Option V) where
  init x := x = fun _ => none
  app
    | x, .inl op, .inl res, x' => Spec cfg x op res x'
    | x, .inr q, .inr o, x' => o = x q ∧ x' = x
    | _, _, _, _ => False

/-- Calls and returns; the writer is thread `none`. -/
def obs (s : St K V T) : Act K V T → Option (Lin.Ev (Option T) (Op K V ⊕ K) (Res V ⊕ Option V))
  | .begin op _ => some (.call none (.inl op))
  | .exec => none
  | .fin => s.op.map fun p => .ret none (.inl p.2)
  | .call t q => some (.call (some t) (.inr q))
  | .next _ => none
  | .ret t => match s.rd t with
    | .done _ o => some (.ret (some t) (.inr o))
    | _ => none

/-! ## Invariant -/

/-- What reader may still find of its key from probe `i` on, below `b`, in map `a`. -/
def Find (cfg : Cfg K V) (s : St K V T) (a : Nat) (q : K) (i b : Nat) : Prop :=
  ∃ k, i ≤ k ∧ k < b ∧ IsKey cfg (s.maps a) q (slotAt (s.maps a) (cfg.hash q) k) ∧
    (a = s.cur → s.gh.sg = true → some (slotAt (s.maps a) (cfg.hash q) k) ≠ s.gh.dup) ∧
    ∀ j, i ≤ j → j < k → (s.maps a).ent (slotAt (s.maps a) (cfg.hash q) j) ≠ .empty

/-- The same before the bound is loaded. -/
def Find0 (cfg : Cfg K V) (s : St K V T) (a : Nat) (q : K) : Prop :=
  ∃ k, InB cfg (s.maps a) (cfg.hash q) k ∧ IsKey cfg (s.maps a) q (slotAt (s.maps a) (cfg.hash q) k) ∧
    (a = s.cur → s.gh.sg = true → some (slotAt (s.maps a) (cfg.hash q) k) ≠ s.gh.dup) ∧
    NE (s.maps a) (cfg.hash q) k

/-- An object of the key that the reader can find from probe `i` on was stored at some instant. -/
def Sound (cfg : Cfg K V) (s : St K V T) (t : T) (a : Nat) (q : K) (i : Nat) : Prop :=
  ∀ k v tg, i ≤ k → (s.maps a).ent (slotAt (s.maps a) (cfg.hash q) k) = .full v tg → cfg.key v = q →
    s.had t v ∨ ∃ j, i ≤ j ∧ j < k ∧ IsKey cfg (s.maps a) q (slotAt (s.maps a) (cfg.hash q) j)

/-- The generation has advanced since it was loaded. -/
def Chg (cfg : Cfg K V) (s : St K V T) (a : Nat) (q : K) (g : Nat) : Prop :=
  g < (s.maps a).gen (decide (cfg.hash q % 2 = 1))

def GenLe (cfg : Cfg K V) (s : St K V T) (a : Nat) (q : K) (g : Nat) : Prop :=
  g ≤ (s.maps a).gen (decide (cfg.hash q % 2 = 1))

/-- Every reader. -/
def RI (cfg : Cfg K V) (s : St K V T) (t : T) : Prop :=
  match s.rd t with
  | .idle => True
  | .start _ => True
  | .gotM q a => a ≤ s.cur ∧ (s.absent t ∨ Find0 cfg s a q) ∧ Sound cfg s t a q 0
  | .gotG q a g => a ≤ s.cur ∧ GenLe cfg s a q g ∧ (s.absent t ∨ Find0 cfg s a q) ∧ Sound cfg s t a q 0
  | .gotB q a g => a ≤ s.cur ∧ GenLe cfg s a q g ∧ (s.absent t ∨ Find0 cfg s a q) ∧ Sound cfg s t a q 0
  | .scan q a g b i => a ≤ s.cur ∧ GenLe cfg s a q g ∧ (s.absent t ∨ Chg cfg s a q g ∨ Find cfg s a q i b) ∧
      Sound cfg s t a q i
  | .fin q a g none => a ≤ s.cur ∧ GenLe cfg s a q g ∧ (s.absent t ∨ Chg cfg s a q g)
  | .fin _ _ _ (some v) => s.had t v
  | .done _ none => s.absent t
  | .done _ (some v) => s.had t v

/-- The operation in progress. -/
def WI (cfg : Cfg K V) (s : St K V T) : Prop :=
  match s.op with
  | none => s.pend = []
  | some (op, res) => ∃ a b, Spec cfg a op res b ∧
      ((¬ s.lin ∧ s.gh.abs = a ∧ Once cfg a b (s.maps s.cur) s.gh s.pend) ∨
        (s.lin ∧ Near cfg (· = b) (s.maps s.cur) s.gh s.pend))

structure Inv (cfg : Cfg K V) (s : St K V T) : Prop where
  wr : WI cfg s
  g : G cfg (s.maps s.cur) s.gh
  eff : Effs cfg (s.maps s.cur) s.gh s.pend
  fin : Wf cfg (execs (s.maps s.cur) s.pend) (gexecs cfg (s.maps s.cur) s.gh s.pend).abs ∧
    (gexecs cfg (s.maps s.cur) s.gh s.pend).dup = none ∧ (gexecs cfg (s.maps s.cur) s.gh s.pend).sg = false
  /-- the ghosts include the present -/
  now : ∀ t q, (s.rd t).key? = some q → (s.gh.abs q = none → s.absent t) ∧ ∀ v, s.gh.abs q = some v → s.had t v
  tag : ∀ a x v tg, a ≤ s.cur → (s.maps a).ent x = .full v tg → tg = cfg.tag (cfg.hash (cfg.key v))
  rd : ∀ t, RI cfg s t

/-- In the current map a key that is present can be found. -/
theorem find0_cur {cfg : Cfg K V} {s : St K V T} (hg : G cfg (s.maps s.cur) s.gh) {q : K} {v : V}
    (h : s.gh.abs q = some v) : Find0 cfg s s.cur q := by
  obtain ⟨k, h1, h2, h3, h4⟩ := hg.pos q v h
  exact ⟨k, h1, ⟨v, _, h3, hg.ak q v h⟩, fun _ _ => h2, h4⟩

theorem sound_cur {cfg : Cfg K V} {s : St K V T} (hg : G cfg (s.maps s.cur) s.gh) {q : K} {t : T}
    (hn : ∀ v, s.gh.abs q = some v → s.had t v) : Sound cfg s t s.cur q 0 := by
  intro k v tg _ hf hk
  by_cases hd : some (slotAt (s.maps s.cur) (cfg.hash q) k) = s.gh.dup
  · right
    obtain ⟨w, tg', h1, -, h3⟩ := hg.dup _ hd.symm
    rw [hf] at h1; cases h1
    rw [hk] at h3
    obtain ⟨j, h4, -, h5⟩ := h3 k rfl
    exact ⟨j, Nat.zero_le _, h4, h5⟩
  · left
    have := hg.here _ _ _ hf hd
    rw [hk] at this
    exact hn v this

/-- A store does not turn a slot empty, and only deletes an object as said. -/
theorem ent_exec {cfg : Cfg K V} {m : Map V} {g : Gh K V} {st : Stmt V} (he : Eff cfg m g st)
    (hp : ∀ u c, st ≠ .publish u c) (x : Nat) :
    (m.ent x ≠ .empty → (exec m st).ent x ≠ .empty) ∧ slotAt (exec m st) = slotAt m ∧
    (∀ p, m.gen p ≤ (exec m st).gen p) ∧ (exec m st).mask = m.mask ∧
    (∀ q, IsKey cfg m q x → IsKey cfg (exec m st) q x ∨ st = .del x) := by
  cases st with
  | setMax n => exact ⟨id, rfl, fun _ => Nat.le_refl _, rfl, fun q h => .inl h⟩
  | setBnd o n => exact ⟨id, rfl, fun _ => Nat.le_refl _, rfl, fun q h => .inl h⟩
  | cnt n => exact ⟨id, rfl, fun _ => Nat.le_refl _, rfl, fun q h => .inl h⟩
  | publish u c => exact absurd rfl (hp u c)
  | sig p =>
    refine ⟨id, rfl, fun p' => ?_, rfl, fun q h => .inl h⟩
    show _ ≤ upd m.gen p (m.gen p + 1) p'
    rw [upd_apply]; split
    · next h => rw [h]; omega
    · exact Nat.le_refl _
  | store y v tg d =>
    obtain ⟨h1, h2, h3, h4, -⟩ := he
    refine ⟨fun h => ?_, rfl, fun _ => Nat.le_refl _, rfl, fun q h => ?_⟩
    · show upd m.ent y (.full v tg) x ≠ _
      rw [upd_apply]; split
      · simp
      · exact h
    · left
      obtain ⟨w, t, hw, hk⟩ := h
      by_cases hxy : x = y
      · refine ⟨v, tg, ?_, ?_⟩
        · show upd m.ent y (.full v tg) x = _
          rw [hxy, upd_same]
        · rw [hxy] at hw
          rw [← hk, (h4 w t hw).1]
      · refine ⟨w, t, ?_, hk⟩
        show upd m.ent y (.full v tg) x = _
        rw [upd_ne _ _ hxy, hw]
  | del y =>
    refine ⟨fun h => ?_, rfl, fun _ => Nat.le_refl _, rfl, fun q h => ?_⟩
    · show upd m.ent y .tomb x ≠ _
      rw [upd_apply]; split
      · simp
      · exact h
    · by_cases hxy : x = y
      · right; rw [hxy]
      · left
        obtain ⟨w, t, hw, hk⟩ := h
        refine ⟨w, t, ?_, hk⟩
        show upd m.ent y .tomb x = _
        rw [upd_ne _ _ hxy, hw]

/-- The state after a store. -/
def after (cfg : Cfg K V) (s : St K V T) (st : Stmt V) (l : List (Stmt V)) : St K V T :=
  { s with
    maps := (mexec s.maps s.cur st).1, cur := (mexec s.maps s.cur st).2
    gh := gexec cfg (s.maps s.cur) s.gh st, pend := l
    lin := s.lin ∨ (gexec cfg (s.maps s.cur) s.gh st).abs ≠ s.gh.abs
    absent := fun t => s.absent t ∨ ∃ q, (s.rd t).key? = some q ∧ (gexec cfg (s.maps s.cur) s.gh st).abs q = none
    had := fun t v => s.had t v ∨ ∃ q, (s.rd t).key? = some q ∧ (gexec cfg (s.maps s.cur) s.gh st).abs q = some v }

theorem after_publish {cfg : Cfg K V} {s : St K V T} {u : Map V} {c : Bool} {l : List (Stmt V)} :
    (after cfg s (.publish u c) l).maps = upd s.maps (s.cur + 1) u ∧ (after cfg s (.publish u c) l).cur = s.cur + 1 :=
  ⟨rfl, rfl⟩

theorem after_store {cfg : Cfg K V} {s : St K V T} {st : Stmt V} {l : List (Stmt V)} (hp : ∀ u c, st ≠ .publish u c) :
    (after cfg s st l).maps = upd s.maps s.cur (exec (s.maps s.cur) st) ∧ (after cfg s st l).cur = s.cur := by
  cases st with
  | publish u c => exact absurd rfl (hp u c)
  | _ => exact ⟨rfl, rfl⟩

/-- A map that is not current does not change. -/
theorem after_old {cfg : Cfg K V} {s : St K V T} {st : Stmt V} {l : List (Stmt V)} {a : Nat} (ha : a < s.cur) :
    (after cfg s st l).maps a = s.maps a ∧ a < (after cfg s st l).cur := by
  cases st with
  | publish u c => exact ⟨upd_ne _ _ (by omega), Nat.lt_succ_of_lt ha⟩
  | _ => exact ⟨upd_ne _ _ (by omega), ha⟩

theorem find0_after {cfg : Cfg K V} {s : St K V T} {st : Stmt V} {l : List (Stmt V)} {a : Nat} {q : K} {t : T}
    (hg : G cfg (s.maps s.cur) s.gh) (hg' : G cfg ((after cfg s st l).maps (after cfg s st l).cur) (after cfg s st l).gh)
    (hd : ∀ u c, st = .publish u c → s.gh.dup = none)
    (hn : ∀ q, (s.rd t).key? = some q → (s.gh.abs q = none → s.absent t)) (hq : (s.rd t).key? = some q)
    (ha : a ≤ s.cur) (h : s.absent t ∨ Find0 cfg s a q) :
    (after cfg s st l).absent t ∨ Find0 cfg (after cfg s st l) a q := by
  rcases Nat.lt_or_ge a s.cur with hlt | hge
  · obtain ⟨h1, h2⟩ := after_old (cfg := cfg) (st := st) (l := l) hlt
    rcases h with h | ⟨k, h3, h4, h5, h6⟩
    · exact .inl (.inl h)
    · right
      unfold Find0
      rw [h1]
      exact ⟨k, h3, h4, fun hc => by omega, h6⟩
  · have hac : a = s.cur := by omega
    subst hac
    by_cases hp : ∃ u c, st = .publish u c
    · obtain ⟨u, c, rfl⟩ := hp
      cases hab : s.gh.abs q with
      | none => exact .inl (.inl (hn q hq hab))
      | some v =>
        right
        obtain ⟨k, h3, h4, h5, h6⟩ := find0_cur hg hab
        have hm : (after cfg s (.publish u c) l).maps s.cur = s.maps s.cur := upd_ne _ _ (by omega)
        unfold Find0
        rw [hm]
        exact ⟨k, h3, h4, fun hc => absurd hc (by show s.cur ≠ s.cur + 1; omega), h6⟩
    · have hp' : ∀ u c, st ≠ .publish u c := fun u c h => hp ⟨u, c, h⟩
      cases hab : (after cfg s st l).gh.abs q with
      | none => exact .inl (.inr ⟨q, hq, hab⟩)
      | some v =>
        right
        have := find0_cur hg' hab
        rwa [(after_store (cfg := cfg) (l := l) hp').2] at this

theorem sound_after {cfg : Cfg K V} {s : St K V T} {st : Stmt V} {l : List (Stmt V)} {a i : Nat} {q : K} {t : T}
    (hg : G cfg (s.maps s.cur) s.gh) (he : Eff cfg (s.maps s.cur) s.gh st) (hq : (s.rd t).key? = some q)
    (hn : ∀ v, s.gh.abs q = some v → s.had t v) (ha : a ≤ s.cur) (h : Sound cfg s t a q i) :
    Sound cfg (after cfg s st l) t a q i := by
  have hold : ∀ m, (after cfg s st l).maps a = m → m = s.maps a → Sound cfg (after cfg s st l) t a q i := by
    intro m h1 h2 k v tg hk hf hv
    rw [h1, h2] at hf ⊢
    rcases h k v tg hk hf hv with h3 | h3
    · exact .inl (.inl h3)
    · exact .inr h3
  rcases Nat.lt_or_ge a s.cur with hlt | hge
  · exact hold _ (after_old hlt).1 rfl
  · have hac : a = s.cur := by omega
    subst hac
    by_cases hp : ∃ u c, st = .publish u c
    · obtain ⟨u, c, rfl⟩ := hp
      exact hold _ (upd_ne _ _ (by omega)) rfl
    · have hp' : ∀ u c, st ≠ .publish u c := fun u c h => hp ⟨u, c, h⟩
      have hm : (after cfg s st l).maps s.cur = exec (s.maps s.cur) st := by
        rw [(after_store hp').1, upd_same]
      intro k v tg hk hf hv
      rw [hm] at hf ⊢
      have hsl := (ent_exec he hp' 0).2.1
      rw [hsl] at hf ⊢
      generalize hx : slotAt (s.maps s.cur) (cfg.hash q) k = x at *
      -- a slot that was there before
      have hbefore : (s.maps s.cur).ent x = .full v tg → (∀ y, st ≠ .del y) →
          (after cfg s st l).had t v ∨ ∃ j, i ≤ j ∧ j < k ∧
            IsKey cfg (exec (s.maps s.cur) st) q (slotAt (s.maps s.cur) (cfg.hash q) j) := by
        intro hb hnd
        rcases h k v tg hk (by rw [hx]; exact hb) hv with h3 | ⟨j, h3, h4, h5⟩
        · exact .inl (.inl h3)
        · right
          rcases (ent_exec he hp' _).2.2.2.2 q h5 with h6 | h6
          · exact ⟨j, h3, h4, h6⟩
          · exact absurd h6 (hnd _)
      cases hst : st with
      | publish u c => exact absurd hst (hp' u c)
      | setMax n => rw [← hst]; exact hbefore (by rw [hst] at hf; exact hf) (by simp [hst])
      | setBnd o n => rw [← hst]; exact hbefore (by rw [hst] at hf; exact hf) (by simp [hst])
      | cnt n => rw [← hst]; exact hbefore (by rw [hst] at hf; exact hf) (by simp [hst])
      | sig p => rw [← hst]; exact hbefore (by rw [hst] at hf; exact hf) (by simp [hst])
      | store y w tg' d =>
        rw [← hst]
        by_cases hxy : x = y
        · left; right
          rw [hst] at hf
          change upd _ y (Slot.full w tg') x = _ at hf
          rw [hxy, upd_same] at hf
          cases hf
          refine ⟨q, hq, ?_⟩
          rw [hst]
          show upd s.gh.abs (cfg.key v) (some v) q = _
          rw [hv, upd_same]
        · refine hbefore ?_ (by simp [hst])
          rw [hst] at hf
          change upd _ y (Slot.full w tg') x = _ at hf
          rwa [upd_ne _ _ hxy] at hf
      | del y =>
        rw [← hst]
        rw [hst] at hf he
        change upd _ y Slot.tomb x = _ at hf
        rw [upd_apply] at hf
        split at hf
        · cases hf
        · next hxy =>
          obtain ⟨⟨w, tg', hy⟩, hd | ⟨hd, -⟩⟩ := he
          · by_cases hwq : cfg.key w = q
            · exact absurd (hg.uniq x y v w tg tg' hf hy (hv.trans hwq.symm) (by simp [hd]) (by simp [hd])) hxy
            · rcases h k v tg hk (by rw [hx]; exact hf) hv with h3 | ⟨j, h3, h4, h5⟩
              · exact .inl (.inl h3)
              · right
                refine ⟨j, h3, h4, ?_⟩
                obtain ⟨w', t', h6, h7⟩ := h5
                refine ⟨w', t', ?_, h7⟩
                rw [hst]
                show upd _ y Slot.tomb _ = _
                rw [upd_ne, h6]
                intro hc
                rw [hc, hy] at h6
                cases h6
                exact hwq h7
          · left; left
            apply hn
            have := hg.here x v tg hf (by rw [hd]; simpa using hxy)
            rwa [hv] at this

theorem gen_after {cfg : Cfg K V} {s : St K V T} {st : Stmt V} {l : List (Stmt V)} {a : Nat} (p : Bool)
    (he : Eff cfg (s.maps s.cur) s.gh st) (ha : a ≤ s.cur) :
    (s.maps a).gen p ≤ ((after cfg s st l).maps a).gen p := by
  rcases Nat.lt_or_ge a s.cur with hlt | hge
  · rw [(after_old hlt).1]
  · have hac : a = s.cur := by omega
    subst hac
    by_cases hp : ∃ u c, st = .publish u c
    · obtain ⟨u, c, rfl⟩ := hp
      have hm : (after cfg s (.publish u c) l).maps s.cur = s.maps s.cur := upd_ne _ _ (by omega)
      rw [hm]
    · have hp' : ∀ u c, st ≠ .publish u c := fun u c h => hp ⟨u, c, h⟩
      have hm : (after cfg s st l).maps s.cur = exec (s.maps s.cur) st := by
        rw [(after_store hp').1, upd_same]
      rw [hm]
      exact (ent_exec he hp' 0).2.2.1 p

theorem cur_after {cfg : Cfg K V} {s : St K V T} {st : Stmt V} {l : List (Stmt V)} :
    s.cur ≤ (after cfg s st l).cur := by
  cases st <;> first | exact Nat.le_succ _ | exact Nat.le_refl _

theorem find_after {cfg : Cfg K V} {s : St K V T} {st : Stmt V} {l : List (Stmt V)} {a i b g : Nat} {q : K} {t : T}
    (he : Eff cfg (s.maps s.cur) s.gh st) (hq : (s.rd t).key? = some q)
    (ha : a ≤ s.cur) (hgl : GenLe cfg s a q g) (h : s.absent t ∨ Chg cfg s a q g ∨ Find cfg s a q i b) :
    (after cfg s st l).absent t ∨ Chg cfg (after cfg s st l) a q g ∨ Find cfg (after cfg s st l) a q i b := by
  rcases h with h | h | h
  · exact .inl (.inl h)
  · exact .inr (.inl (Nat.lt_of_lt_of_le h (gen_after _ he ha)))
  · obtain ⟨k, h1, h2, h3, h4, h5⟩ := h
    rcases Nat.lt_or_ge a s.cur with hlt | hge
    · obtain ⟨h6, h7⟩ := after_old (cfg := cfg) (st := st) (l := l) hlt
      right; right
      unfold Find
      rw [h6]
      exact ⟨k, h1, h2, h3, fun hc => by omega, h5⟩
    · have hac : a = s.cur := by omega
      subst hac
      by_cases hp : ∃ u c, st = .publish u c
      · obtain ⟨u, c, rfl⟩ := hp
        have hm : (after cfg s (.publish u c) l).maps s.cur = s.maps s.cur := upd_ne _ _ (by omega)
        right; right
        unfold Find
        rw [hm]
        exact ⟨k, h1, h2, h3, fun hc => absurd hc (by show s.cur ≠ s.cur + 1; omega), h5⟩
      · have hp' : ∀ u c, st ≠ .publish u c := fun u c h => hp ⟨u, c, h⟩
        obtain ⟨hm', hcur⟩ := after_store (cfg := cfg) (s := s) (l := l) hp'
        have hm : (after cfg s st l).maps s.cur = exec (s.maps s.cur) st := by rw [hm', upd_same]
        have hsl := (ent_exec he hp' 0).2.1
        have hgh : (after cfg s st l).gh = gexec cfg (s.maps s.cur) s.gh st := rfl
        have hdef : (after cfg s st l).absent t ∨ Chg cfg (after cfg s st l) s.cur q g ∨
            (IsKey cfg (exec (s.maps s.cur) st) q (slotAt (s.maps s.cur) (cfg.hash q) k) ∧
              ((gexec cfg (s.maps s.cur) s.gh st).sg = true →
                some (slotAt (s.maps s.cur) (cfg.hash q) k) ≠ (gexec cfg (s.maps s.cur) s.gh st).dup)) := by
          have h4' := h4 rfl
          cases hst : st with
          | publish u c => exact absurd hst (hp' u c)
          | setMax n => exact .inr (.inr ⟨h3, h4'⟩)
          | setBnd o n => exact .inr (.inr ⟨h3, h4'⟩)
          | cnt n => exact .inr (.inr ⟨h3, h4'⟩)
          | store y w tg d =>
            right; right
            rw [hst] at he
            rcases (ent_exec he (by simp) (slotAt (s.maps s.cur) (cfg.hash q) k)).2.2.2.2 q h3 with h6 | h6
            · exact ⟨h6, fun hc => by cases hc⟩
            · cases h6
          | sig p =>
            rw [hst] at he
            by_cases hpar : p = decide (cfg.hash q % 2 = 1)
            · right; left
              unfold Chg
              rw [← hst, hm, hst]
              show g < upd (s.maps s.cur).gen p _ _
              rw [hpar, upd_same]
              unfold GenLe at hgl
              omega
            · right; right
              refine ⟨h3, fun _ hc => hpar ?_⟩
              obtain ⟨w, tg, h6, h7⟩ := h3
              rw [← h7]
              exact he _ w tg hc.symm h6
          | del y =>
            rw [hst] at he
            obtain ⟨⟨w, tg', hy⟩, hd | ⟨hd, hsg⟩⟩ := he
            · by_cases hwq : cfg.key w = q
              · left; right
                refine ⟨q, hq, ?_⟩
                simp only [gexec, hd, hy]
                simp [hwq]
              · right; right
                constructor
                · obtain ⟨w', t', h6, h7⟩ := h3
                  refine ⟨w', t', ?_, h7⟩
                  show upd _ y Slot.tomb _ = _
                  rw [upd_ne, h6]
                  intro hc
                  rw [hc, hy] at h6
                  cases h6
                  exact hwq h7
                · simp only [gexec, hd, hy]; simp
            · right; right
              constructor
              · obtain ⟨w', t', h6, h7⟩ := h3
                refine ⟨w', t', ?_, h7⟩
                show upd _ y Slot.tomb _ = _
                rw [upd_ne, h6]
                intro hc
                exact h4' hsg (by rw [hd, hc])
              · simp only [gexec, hd]; simp
        rcases hdef with h6 | h6 | ⟨h6, h7⟩
        · exact .inl h6
        · exact .inr (.inl h6)
        · right; right
          unfold Find
          rw [hm, hsl, hgh]
          exact ⟨k, h1, h2, h6, fun _ => h7, fun j hj hjk => (ent_exec he hp' _).1 (h5 j hj hjk)⟩

theorem inv_exec {cfg : Cfg K V} {s : St K V T} {st : Stmt V} {l : List (Stmt V)} (hi : Inv cfg s)
    (hpd : s.pend = st :: l) : Inv cfg (after cfg s st l) := by
  have heff := hi.eff
  rw [hpd] at heff
  obtain ⟨he, heffs⟩ := heff
  have hfin := hi.fin
  rw [hpd] at hfin
  have hg' : G cfg (exec (s.maps s.cur) st) (gexec cfg (s.maps s.cur) s.gh st) := hi.g.exec he
  have hcm : (after cfg s st l).maps (after cfg s st l).cur = exec (s.maps s.cur) st := by
    cases st <;> exact upd_same _ _ _
  have hgh : (after cfg s st l).gh = gexec cfg (s.maps s.cur) s.gh st := rfl
  refine ⟨?_, by rw [hcm]; exact hg', by rw [hcm]; exact heffs, by rw [hcm]; exact hfin, ?_, ?_, ?_⟩
  · have hwr := hi.wr
    unfold WI at hwr ⊢
    rw [hcm, hgh]
    change match s.op with
      | none => l = []
      | some (op, res) => ∃ a b, Spec cfg a op res b ∧
        ((¬ (s.lin ∨ (gexec cfg (s.maps s.cur) s.gh st).abs ≠ s.gh.abs) ∧ (gexec cfg (s.maps s.cur) s.gh st).abs = a ∧
          Once cfg a b (exec (s.maps s.cur) st) (gexec cfg (s.maps s.cur) s.gh st) l) ∨
        ((s.lin ∨ (gexec cfg (s.maps s.cur) s.gh st).abs ≠ s.gh.abs) ∧
          Near cfg (· = b) (exec (s.maps s.cur) st) (gexec cfg (s.maps s.cur) s.gh st) l))
    cases hop : s.op with
    | none => rw [hop, hpd] at hwr; cases hwr
    | some p =>
      obtain ⟨op, res⟩ := p
      rw [hop, hpd] at hwr
      obtain ⟨a, b, h1, ⟨h2, h3, h4⟩ | ⟨h2, h3⟩⟩ := hwr
      · refine ⟨a, b, h1, ?_⟩
        by_cases hc : (gexec cfg (s.maps s.cur) s.gh st).abs = s.gh.abs
        · left
          refine ⟨by simp [h2, hc], hc.trans h3, ?_⟩
          rcases h4 with h4 | h4
          · exact h4.2
          · exact h4.2.once
        · right
          refine ⟨.inr hc, ?_⟩
          rcases h4 with h4 | h4
          · have h5 := h4.2
            cases l with
            | nil => exact h5
            | cons st' l =>
              rcases h5 with h5 | h5
              · exact absurd (h5.1.trans h3.symm) hc
              · exact h5
          · exact h4.2
      · exact ⟨a, b, h1, .inr ⟨.inl h2, h3.2⟩⟩
  · intro t q hq
    exact ⟨fun h => .inr ⟨q, hq, h⟩, fun v h => .inr ⟨q, hq, h⟩⟩
  · intro a x v tg ha hf
    by_cases hac : a = (after cfg s st l).cur
    · rw [hac, hcm] at hf
      exact (hg'.tag x v tg hf).1
    · have : a ≤ s.cur := by
        have h1 : (after cfg s st l).cur ≤ s.cur + 1 := by
          cases st <;> first | exact Nat.le_refl _ | exact Nat.le_succ _
        omega
      have hm : (after cfg s st l).maps a = s.maps a := by
        cases st with
        | publish u c => exact upd_ne _ _ (by omega)
        | _ => exact upd_ne _ _ hac
      rw [hm] at hf
      exact hi.tag a x v tg this hf
  · intro t
    have hr := hi.rd t
    have hnow := hi.now t
    have hrd : (after cfg s st l).rd t = s.rd t := rfl
    have hcur := cur_after (cfg := cfg) (s := s) (st := st) (l := l)
    have hdup : ∀ u c, st = .publish u c → s.gh.dup = none := by
      intro u c h; subst h; exact he.1
    have hg2 : G cfg ((after cfg s st l).maps (after cfg s st l).cur) (after cfg s st l).gh := by rw [hcm]; exact hg'
    unfold RI at hr ⊢
    rw [hrd]
    cases hpc : s.rd t with
    | idle => trivial
    | start q => trivial
    | gotM q a =>
      rw [hpc] at hr
      obtain ⟨h1, h2, h3⟩ := hr
      have hq : (s.rd t).key? = some q := by rw [hpc]; rfl
      exact ⟨by omega, find0_after hi.g hg2 hdup (fun q h => (hnow q h).1) hq h1 h2,
        sound_after hi.g he hq (hnow q hq).2 h1 h3⟩
    | gotG q a g =>
      rw [hpc] at hr
      obtain ⟨h1, h4, h2, h3⟩ := hr
      have hq : (s.rd t).key? = some q := by rw [hpc]; rfl
      exact ⟨by omega, Nat.le_trans h4 (gen_after _ he h1), find0_after hi.g hg2 hdup (fun q h => (hnow q h).1) hq h1 h2,
        sound_after hi.g he hq (hnow q hq).2 h1 h3⟩
    | gotB q a g =>
      rw [hpc] at hr
      obtain ⟨h1, h4, h2, h3⟩ := hr
      have hq : (s.rd t).key? = some q := by rw [hpc]; rfl
      exact ⟨by omega, Nat.le_trans h4 (gen_after _ he h1), find0_after hi.g hg2 hdup (fun q h => (hnow q h).1) hq h1 h2,
        sound_after hi.g he hq (hnow q hq).2 h1 h3⟩
    | scan q a g b i =>
      rw [hpc] at hr
      obtain ⟨h1, h4, h2, h3⟩ := hr
      have hq : (s.rd t).key? = some q := by rw [hpc]; rfl
      exact ⟨by omega, Nat.le_trans h4 (gen_after _ he h1), find_after he hq h1 h4 h2,
        sound_after hi.g he hq (hnow q hq).2 h1 h3⟩
    | fin q a g o =>
      rw [hpc] at hr
      cases o with
      | none =>
        obtain ⟨h1, h4, h2⟩ := hr
        refine ⟨by omega, Nat.le_trans h4 (gen_after _ he h1), ?_⟩
        rcases h2 with h2 | h2
        · exact .inl (.inl h2)
        · exact .inr (Nat.lt_of_lt_of_le h2 (gen_after _ he h1))
      | some v => exact .inl hr
    | done q o =>
      rw [hpc] at hr
      cases o with
      | none => exact .inl hr
      | some v => exact .inl hr

/-- One load of a reader. -/
theorem ri_next {cfg : Cfg K V} {s : St K V T} {t : T} {pc : RPC K V} (hi : Inv cfg s)
    (h : rstep cfg s.maps s.cur (s.rd t) = some pc) : RI cfg { s with rd := upd s.rd t pc } t := by
  have hr := hi.rd t
  have hnow := hi.now t
  have hpc' : ({ s with rd := upd s.rd t pc } : St K V T).rd t = pc := upd_same _ _ _
  unfold RI at hr ⊢
  rw [hpc']
  cases hpc : s.rd t with
  | idle => rw [hpc] at h; cases h
  | done q o => rw [hpc] at h; cases h
  | start q =>
    rw [hpc] at h
    cases h
    have hq : (s.rd t).key? = some q := by rw [hpc]; rfl
    refine ⟨Nat.le_refl _, ?_, sound_cur hi.g (hnow q hq).2⟩
    cases hab : s.gh.abs q with
    | none => exact .inl ((hnow q hq).1 hab)
    | some v => exact .inr (find0_cur hi.g hab)
  | gotM q a =>
    rw [hpc] at h hr
    cases h
    exact ⟨hr.1, Nat.le_refl _, hr.2.1, hr.2.2⟩
  | gotG q a g =>
    rw [hpc] at h hr
    obtain ⟨h1, h2, h3, h4⟩ := hr
    simp only [rstep] at h
    split at h
    · next hb =>
      cases h
      refine ⟨h1, h2, ?_, h4⟩
      rcases h3 with h3 | ⟨k, h5, h6, h7, h8⟩
      · exact .inl h3
      · exact .inr (.inr ⟨k, Nat.zero_le _, h5.1, h6, h7, fun j _ hj => h8 j hj⟩)
    · next b hb =>
      split at h
      · cases h; exact ⟨h1, h2, h3, h4⟩
      · next hw =>
        cases h
        refine ⟨h1, h2, ?_, h4⟩
        rcases h3 with h3 | ⟨k, h5, h6, h7, h8⟩
        · exact .inl h3
        · refine .inr (.inr ⟨k, Nat.zero_le _, ?_, h6, h7, fun j _ hj => h8 j hj⟩)
          rcases h5.2 b hb with h9 | h9
          · exact absurd h9 hw
          · exact h9
  | gotB q a g =>
    rw [hpc] at h hr
    obtain ⟨h1, h2, h3, h4⟩ := hr
    cases h
    refine ⟨h1, h2, ?_, h4⟩
    rcases h3 with h3 | ⟨k, h5, h6, h7, h8⟩
    · exact .inl h3
    · exact .inr (.inr ⟨k, Nat.zero_le _, h5.1, h6, h7, fun j _ hj => h8 j hj⟩)
  | scan q a g b i =>
    rw [hpc] at h hr
    obtain ⟨h1, h2, h3, h4⟩ := hr
    simp only [rstep] at h
    -- no object of the key in this slot
    have hskip : ¬ IsKey cfg (s.maps a) q (slotAt (s.maps a) (cfg.hash q) i) → i ≠ b →
        (s.maps a).ent (slotAt (s.maps a) (cfg.hash q) i) ≠ .empty →
        (s.absent t ∨ Chg cfg s a q g ∨ Find cfg s a q (i + 1) b) ∧ Sound cfg s t a q (i + 1) := by
      intro hnk hib hne
      constructor
      · rcases h3 with h3 | h3 | ⟨k, h5, h6, h7, h8, h9⟩
        · exact .inl h3
        · exact .inr (.inl h3)
        · right; right
          refine ⟨k, ?_, h6, h7, h8, fun j hj => h9 j (by omega)⟩
          rcases Nat.lt_or_ge i k with h10 | h10
          · exact h10
          · have : k = i := by omega
            subst this; exact absurd h7 hnk
      · intro k v tg hk hf hv
        rcases h4 k v tg (by omega) hf hv with h5 | ⟨j, h5, h6, h7⟩
        · exact .inl h5
        · refine .inr ⟨j, ?_, h6, h7⟩
          rcases Nat.lt_or_ge i j with h10 | h10
          · exact h10
          · have : j = i := by omega
            subst this; exact absurd h7 hnk
    split at h
    · next hib =>
      cases h
      refine ⟨h1, h2, ?_⟩
      rcases h3 with h3 | h3 | ⟨k, h5, h6, -⟩
      · exact .inl h3
      · exact .inr h3
      · omega
    · next hib =>
      split at h
      · next hen =>
        cases h
        refine ⟨h1, h2, ?_⟩
        rcases h3 with h3 | h3 | ⟨k, h5, h6, h7, -, h9⟩
        · exact .inl h3
        · exact .inr h3
        · exfalso
          rcases Nat.lt_or_ge i k with h10 | h10
          · exact h9 i (Nat.le_refl _) h10 hen
          · have : k = i := by omega
            subst this
            obtain ⟨w, tg, h11, -⟩ := h7
            rw [hen] at h11; cases h11
      · next hen =>
        cases h
        obtain ⟨h5, h6⟩ := hskip (by rintro ⟨w, tg, h11, -⟩; rw [hen] at h11; cases h11) hib (by rw [hen]; simp)
        exact ⟨h1, h2, h5, h6⟩
      · next v tg hen =>
        split at h
        · next hh =>
          cases h
          simp only [hit, Bool.and_eq_true, decide_eq_true_eq] at hh
          rcases h4 i v tg (Nat.le_refl _) hen hh.2 with h5 | ⟨j, h5, h6, -⟩
          · exact h5
          · omega
        · next hh =>
          cases h
          obtain ⟨h5, h6⟩ := hskip (by
            rintro ⟨w, t', h11, h12⟩
            rw [hen] at h11; cases h11
            apply hh
            have := hi.tag a _ _ _ h1 hen
            simp only [hit, Bool.and_eq_true, decide_eq_true_eq]
            exact ⟨by rw [this, h12], h12⟩) hib (by rw [hen]; simp)
          exact ⟨h1, h2, h5, h6⟩
  | fin q a g o =>
    rw [hpc] at h hr
    simp only [rstep] at h
    split at h
    · next hg =>
      cases h
      cases o with
      | none =>
        rcases hr.2.2 with h3 | h3
        · exact h3
        · unfold Chg at h3; omega
      | some v => exact hr
    · cases h; trivial

theorem inv_reach {cfg : Cfg K V} {c : Nat} {s : St K V T} (hr : (sys (T := T) cfg c).Reach s) : Inv cfg s := by
  refine hr.invariant (I := Inv cfg) ?_ ?_
  · rintro s ⟨h1, hz, h2, h3, h5, h4⟩
    have hw := create_wf cfg c
    rw [← hz] at h1
    refine ⟨by unfold WI; rw [h5]; exact h3, by rw [h1, h2]; exact hw.g, by rw [h3]; trivial, ?_, ?_, ?_, ?_⟩
    · rw [h3]
      show Wf cfg (s.maps s.cur) s.gh.abs ∧ s.gh.dup = none ∧ s.gh.sg = false
      rw [h1, h2]; exact ⟨hw, rfl, rfl⟩
    · intro t q hq; rw [h4] at hq; cases hq
    · intro a x v tg ha hf
      rw [show a = s.cur by omega, h1] at hf
      exact (hw.g.tag x v tg hf).1
    · intro t; unfold RI; rw [h4]; trivial
  · intro s a s' hi h
    cases a with
    | begin op al =>
      simp only [sys] at h
      split at h
      · next hc =>
        simp only [step] at h
        split at h
        · next hop =>
          have hpd : s.pend = [] := by
            have := hi.wr
            unfold WI at this
            rwa [hop] at this
          split at h
          · next l res hp =>
            cases h
            have hfin := hi.fin
            rw [hpd] at hfin
            obtain ⟨hw, hd, hsg⟩ := hfin
            change Wf cfg (s.maps s.cur) s.gh.abs at hw
            change s.gh.dup = none at hd
            change s.gh.sg = false at hsg
            obtain ⟨abs', hok, hsp⟩ := prog_spec hw hc hp
            have hgh : s.gh = ⟨s.gh.abs, none, false⟩ := by rw [← hd, ← hsg]
            refine ⟨?_, hi.g, ?_, ?_, hi.now, hi.tag, hi.rd⟩
            · refine ⟨s.gh.abs, abs', hsp, .inl ⟨id, rfl, ?_⟩⟩
              show Once cfg _ _ (s.maps s.cur) s.gh l
              have := hok.one
              rwa [← hgh] at this
            · show Effs cfg (s.maps s.cur) s.gh l
              rw [hgh]; exact hok.eff
            · show Wf cfg (execs (s.maps s.cur) l) (gexecs cfg (s.maps s.cur) s.gh l).abs ∧ _
              rw [show gexecs cfg (s.maps s.cur) s.gh l = ⟨abs', none, false⟩ by rw [hgh]; exact hok.gh]
              exact ⟨hok.wf, rfl, rfl⟩
          · cases h
        · cases h
      · cases h
    | exec =>
      simp only [sys, step] at h
      split at h
      · cases h
      · next st l hpd =>
        cases h
        exact inv_exec hi hpd
    | fin =>
      simp only [sys, step] at h
      split at h
      · next hpd =>
        cases h
        exact ⟨hpd, hi.g, hi.eff, hi.fin, hi.now, hi.tag, hi.rd⟩
      · cases h
    | call t q =>
      simp only [sys, step] at h
      split at h
      · cases h
        refine ⟨hi.wr, hi.g, hi.eff, hi.fin, ?_, hi.tag, ?_⟩
        · intro u q' hq
          by_cases hu : u = t
          · subst hu
            simp only [upd_same] at hq ⊢
            cases hq
            exact ⟨id, fun v h => h⟩
          · simp only [upd_ne _ _ hu] at hq ⊢
            exact hi.now u q' hq
        · intro u
          by_cases hu : u = t
          · subst hu
            unfold RI
            simp only [upd_same]
          · have := hi.rd u
            unfold RI Sound at this ⊢
            simp only [upd_ne _ _ hu]
            exact this
      · cases h
    | ret t =>
      simp only [sys, step] at h
      split at h
      · cases h
        refine ⟨hi.wr, hi.g, hi.eff, hi.fin, ?_, hi.tag, ?_⟩
        · intro u q' hq
          by_cases hu : u = t
          · subst hu
            simp only [upd_same] at hq
            cases hq
          · simp only [upd_ne _ _ hu] at hq ⊢
            exact hi.now u q' hq
        · intro u
          by_cases hu : u = t
          · subst hu
            unfold RI
            simp only [upd_same]
          · have := hi.rd u
            unfold RI at this ⊢
            simp only [upd_ne _ _ hu]
            exact this
      · cases h
    | next t =>
      simp only [sys, step, Option.map_eq_some_iff] at h
      obtain ⟨pc, hpc, rfl⟩ := h
      refine ⟨hi.wr, hi.g, hi.eff, hi.fin, ?_, hi.tag, ?_⟩
      · intro u q hq
        by_cases hu : u = t
        · subst hu
          simp only [upd_same] at hq
          exact hi.now u q (key_rstep hpc q hq)
        · simp only [upd_ne _ _ hu] at hq
          exact hi.now u q hq
      · intro u
        by_cases hu : u = t
        · subst hu; exact ri_next hi hpc
        · have := hi.rd u
          unfold RI at this ⊢
          simp only [upd_ne _ _ hu]
          exact this

/-! ## Linearizability -/

/-- Key of a call that has not returned. -/
def RPC.call? : RPC K V → Option K
  | .done q _ => some q
  | p => p.key?

theorem call_rstep {cfg : Cfg K V} {maps : Nat → Map V} {cur : Nat} {p p' : RPC K V}
    (h : rstep cfg maps cur p = some p') : p'.call? = p.call? := by
  cases p <;> simp only [rstep] at h <;> (repeat' split at h) <;> first | (cases h; done) | (cases h; rfl)

open Classical in
/-- Where a thread stands. -/
noncomputable def view (s : St K V T) : Option T → Lin.HS (Op K V ⊕ K) (Res V ⊕ Option V)
  | none => match s.op with
    | none => .idle
    | some (op, res) => if s.lin then .done (.inl res) else .pend (.inl op)
  | some t => match (s.rd t).call? with
    | none => .idle
    | some q => .read (.inr q)

/-- Results a reader may return. -/
def seen (s : St K V T) : Option T → Res V ⊕ Option V → Prop
  | some t, .inr none => s.absent t
  | some t, .inr (some v) => s.had t v
  | _, _ => False

/-- The result of a read. -/
def rdv (x : K → Option V) : Op K V ⊕ K → Res V ⊕ Option V → Prop
  | .inr q, .inr o => o = x q
  | _, _ => False

theorem view_upd (s : St K V T) (rd : T → RPC K V) (t : T) (pc : RPC K V) (h : rd = upd s.rd t pc) :
    view { s with rd := rd } = upd (view s) (some t) (match pc.call? with | none => .idle | some q => .read (.inr q)) := by
  subst h
  funext u
  cases u with
  | none => rfl
  | some u =>
    by_cases hu : u = t
    · subst hu; rw [upd_same]; simp only [view, upd_same]
    · rw [upd_ne _ _ (by simpa using hu)]; simp only [view, upd_ne _ _ hu]

theorem call_of_key {p : RPC K V} {q : K} (h : p.key? = some q) : p.call? = some q := by
  cases p <;> first | exact h | cases h

theorem seen_after {cfg : Cfg K V} {s : St K V T} {st : Stmt V} {l : List (Stmt V)} (u : Option T) (r : Res V ⊕ Option V)
    (h : seen (after cfg s st l) u r) :
    seen s u r ∨ ∃ o, view s u = .read o ∧ rdv (after cfg s st l).gh.abs o r := by
  cases u with
  | none => cases h
  | some t =>
    rcases r with r | (_ | v)
    · cases h
    · rcases h with h | ⟨q, hq, h⟩
      · exact .inl h
      · exact .inr ⟨.inr q, by simp [view, call_of_key hq], h.symm⟩
    · rcases h with h | ⟨q, hq, h⟩
      · exact .inl h
      · exact .inr ⟨.inr q, by simp [view, call_of_key hq], h.symm⟩

open Classical in
theorem view_writer (s : St K V T) (o : Op K V ⊕ K) : view s none ≠ .read o := by
  simp only [view]
  split
  · simp
  · next op res =>
    by_cases h : s.lin
    · simp [h]
    · simp [h]

theorem view_after {cfg : Cfg K V} {s : St K V T} {st : Stmt V} {l : List (Stmt V)} :
    view (after cfg s st l) = upd (view s) none (view (after cfg s st l) none) := by
  funext u
  cases u with
  | none => rw [upd_same]
  | some t => rw [upd_ne _ _ (by simp)]; rfl

/-- Any number of readers and one writer: every call takes effect at one instant between call and return, as an
operation on a map. -/
theorem linearizable (cfg : Cfg K V) (c : Nat) : Lin.Linearizable (sys (T := T) cfg c) obs (obj cfg) := by
  refine Lin.linearizable_of_hindsight (val := rdv) ?_ (fun s => s.gh.abs) view seen ?_ ?_
  · intro x o r h
    cases o <;> cases r <;> simp only [rdv] at h
    exact ⟨h, rfl⟩
  · rintro s ⟨h1, hz, h2, h3, h5, h4⟩
    refine ⟨by rw [h2]; rfl, fun t => ?_⟩
    cases t <;> simp [view, h5, h4, RPC.call?, RPC.key?]
  · intro s a s' hr h
    have hi := inv_reach hr
    cases a with
    | begin op al =>
      simp only [sys] at h
      split at h
      · simp only [step] at h
        split at h
        · next hop =>
          split at h
          · next l res hp =>
            cases h
            refine .move none _ (.pend (.inl op)) (by simp [view, hop]) (by simp) ?_ ?_ (by simp [view, hop]) ?_
            · funext u
              cases u with
              | none => simp [view]
              | some u => rw [upd_ne _ _ (by simp)]; rfl
            · intro th _ hth
              exact Lin.AStar.call' (by simpa [view, hop, Lin.HS.ts] using hth) rfl
            · intro u r h; exact .inl h
          · cases h
        · cases h
      · cases h
    | exec =>
      simp only [sys, step] at h
      split at h
      · cases h
      · next st l hpd =>
        cases h
        have hwr := hi.wr
        unfold WI at hwr
        obtain ⟨p, hop⟩ : ∃ p, s.op = some p := by
          cases hop : s.op with
          | none => rw [hop, hpd] at hwr; cases hwr
          | some p => exact ⟨p, rfl⟩
        · obtain ⟨op, res⟩ := p
          have hnr := view_writer s
          have hnr' := view_writer (after cfg s st l)
          change Lin.HStep (obj cfg) rdv s.gh.abs (after cfg s st l).gh.abs (view s) (view (after cfg s st l)) (seen s)
            (seen (after cfg s st l)) none
          rw [hop, hpd] at hwr
          by_cases hc : (gexec cfg (s.maps s.cur) s.gh st).abs = s.gh.abs
          · -- nothing changes
            refine .move none none (view (after cfg s st l) none) (fun o h => absurd h (hnr o))
              (fun o h => absurd h (hnr' o)) view_after ?_ (fun ⟨o, h⟩ => absurd h (hnr o)) seen_after
            intro th _ hth
            refine Lin.AStar.skip ?_
            have : view (after cfg s st l) none = view s none := by
              simp only [view, after, hop]
              by_cases hl : s.lin
              · simp [hl]
              · simp [hl, hc]
            rw [this, ← hth, upd_eq_self]
            congr 1
          · obtain ⟨a, b, h1, ⟨h2, h3, h4⟩ | ⟨h2, h3⟩⟩ := hwr
            · have hb : (gexec cfg (s.maps s.cur) s.gh st).abs = b := by
                rcases h4 with h4 | h4
                · have h5 := h4.2
                  cases l with
                  | nil => exact h5
                  | cons st' l =>
                    rcases h5 with h5 | h5
                    · exact absurd (h5.1.trans h3.symm) hc
                    · exact h5.1
                · have h5 := h4.2
                  cases l with
                  | nil => exact h5
                  | cons st' l => exact h5.1
              refine .move none none (view (after cfg s st l) none) (fun o h => absurd h (hnr o))
                (fun o h => absurd h (hnr' o)) view_after ?_ (fun ⟨o, h⟩ => absurd h (hnr o)) seen_after
              intro th _ hth
              have e1 : view (after cfg s st l) none = .done (.inl res) := by
                simp only [view, after, hop, hc, ne_eq, not_false_eq_true, or_true, if_true]
              have e2 : view s none = .pend (.inl op) := by
                simp only [view, hop, h2, if_false]
              refine Lin.AStar.lin' (t := none) (o := .inl op) (r := Sum.inl res) (x' := (gexec cfg (s.maps s.cur) s.gh st).abs)
                (by rw [e2] at hth; exact hth) ?_ (by rw [e1]; rfl)
              show Spec cfg s.gh.abs op res _
              rw [h3, hb]; exact h1
            · exfalso
              apply hc
              have h5 := h3.2
              have h6 := h3.1
              simp only at h6
              rw [h6]
              cases l with
              | nil => exact h5
              | cons st' l => exact h5.1
    | fin =>
      simp only [sys, step] at h
      split at h
      · next p hop hpd =>
        cases h
        obtain ⟨op, res⟩ := p
        have hwr := hi.wr
        unfold WI at hwr
        rw [hop, hpd] at hwr
        obtain ⟨a, b, h1, h2⟩ := hwr
        refine .move none _ .idle (fun o h => absurd h (view_writer s o)) (by simp) ?_ ?_ ?_ (fun u r h => .inl h)
        · funext u
          cases u with
          | none => rfl
          | some u => rw [upd_ne _ _ (by simp)]; rfl
        · intro th _ hth
          simp only [obs, hop, Option.map_some, Option.toList_some]
          rcases h2 with ⟨h2, h3, h4⟩ | ⟨h2, h3⟩
          · have e2 : view s none = .pend (.inl op) := by simp only [view, hop, h2, if_false]
            rw [e2] at hth
            have hl : Lin.AStar (obj cfg) { x := s.gh.abs, th := th } []
                { x := s.gh.abs, th := upd th none (.done (.inl res)) } :=
              Lin.AStar.lin' (t := none) (o := .inl op) (r := Sum.inl res) (x' := s.gh.abs) hth (by
                show Spec cfg s.gh.abs op res s.gh.abs
                have h5 : s.gh.abs = b := h4
                rw [h5] at h3 ⊢
                rw [← h3] at h1
                exact h1) rfl
            refine hl.trans (Lin.AStar.ret' (t := none) (r := Sum.inl res) (by simp) ?_)
            congr 1
            funext u
            simp only [upd]
            split <;> rfl
          · have e2 : view s none = .done (.inl res) := by simp only [view, hop, h2, if_true]
            rw [e2] at hth
            exact Lin.AStar.ret' (t := none) (r := Sum.inl res) hth rfl
        · rintro ⟨o, h⟩; exact absurd h (view_writer s o)
      · cases h
    | call t q =>
      simp only [sys, step] at h
      split at h
      · next hpc =>
        cases h
        refine .call (some t) (Sum.inr q) (by simp [view, hpc, RPC.call?, RPC.key?]) ?_ rfl ?_ ?_
        · exact view_upd s _ t (.start q) rfl
        · intro u r hu h
          cases u with
          | none => cases h
          | some u =>
            have hu' : u ≠ t := by simpa using hu
            rcases r with r | (_ | v)
            · cases h
            · simpa [seen, upd_ne _ _ hu'] using h
            · simpa [seen, upd_ne _ _ hu'] using h
        · intro r h
          rcases r with r | (_ | v)
          · cases h
          · simp [seen] at h; exact h.symm
          · simp [seen] at h; exact h.symm
      · cases h
    | ret t =>
      simp only [sys, step] at h
      split at h
      · next q o hpc =>
        cases h
        have hrd := hi.rd t
        unfold RI at hrd
        rw [hpc] at hrd
        have he : obs s (.ret t) = some (.ret (some t) (.inr o)) := by simp only [obs, hpc]
        rw [he]
        refine .ret (some t) (Sum.inr q) (Sum.inr o) (by simp [view, hpc, RPC.call?]) ?_ ?_ rfl (fun u r _ h => h)
        · cases o <;> exact hrd
        · exact view_upd s _ t .idle rfl
      · cases h
    | next t =>
      simp only [sys, step, Option.map_eq_some_iff] at h
      obtain ⟨pc, hpc, rfl⟩ := h
      have hv : view { s with rd := upd s.rd t pc } = view s := by
        rw [view_upd s _ t pc rfl, call_rstep hpc]
        exact upd_eq_self (view s) (some t)
      have hnone : rstep cfg s.maps s.cur (s.rd t) ≠ none := by rw [hpc]; simp
      have hrd : ∃ q, view s (some t) = .read (.inr q) := by
        cases hp : s.rd t with
        | idle => rw [hp] at hnone; exact absurd rfl hnone
        | _ => exact ⟨_, by simp only [view, hp, RPC.call?, RPC.key?]; rfl⟩
      obtain ⟨q, hq⟩ := hrd
      refine .move (some t) none (.read (.inr q)) (fun o h => by rw [← h, hq]) (fun o h => by rw [hq, h]) ?_ ?_
        (fun _ => ⟨rfl, rfl⟩) (fun u r h => .inl h)
      · rw [hv, ← hq, upd_eq_self]
      · intro th h; exact absurd hq (h _)

end Verif.Hs
