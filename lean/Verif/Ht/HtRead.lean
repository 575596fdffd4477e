import Verif.Ht.HtOps
import Verif.Core.Hind

/-!
# Hash table: readers concurrent with the writer (C68)

The writer executes its operations store by store, any number of readers run `ck_ht_get_spmc` load by load.  The whole is
linearizable, as long as the writer keeps the contract `CContract` (see `torn_get` and `late_bound` in `HtRdWit.lean` for
what happens otherwise): it behaves like a map whose operations take effect at one instant between call and return.

Simplified: interleaving semantics (`DESIGN.md`); `deletions` does not wrap; maps that were replaced are not freed while a
reader holds them (the contract of `ck_malloc`'s deferred free); the value of a slot is loaded only if its key is the one
sought (line 535 loads it always, the value is not used otherwise).
-/

set_option linter.unusedSectionVars false

namespace Verif.Ht

open Verif

variable {K V T : Type} [DecidableEq K] [DecidableEq V] [DecidableEq T]

/-- Program counter of `ck_ht_get_spmc`, lines 775-816, and `ck_ht_map_probe_rd`, lines 493-598; `a` is the map it has
loaded, `d` the number of deletions. -/
inductive RPC (K V : Type)
  | idle
  /-- line 784: about to load `table->map` -/
  | start (q : K)
  /-- line 790: about to load `map->deletions` -/
  | gotM (q : K) (a : Nat)
  /-- line 216: about to load the bound -/
  | gotD (q : K) (a d : Nat)
  /-- line 221: the bound of the bucket is saturated, about to load the maximum -/
  | gotB (q : K) (a d : Nat)
  /-- line 533: about to load the key of probe `i`; `b` is the limit -/
  | scan (q : K) (a d b i : Nat)
  /-- line 535: about to load the value of slot `x` -/
  | gotK (q : K) (a d x : Nat)
  /-- line 800: about to load `map->deletions` again -/
  | fin (q : K) (a d : Nat) (o : Option V)
  /-- returned -/
  | done (q : K) (o : Option V)
deriving DecidableEq

/-- Readers and writer. -/
structure PSt (K V T : Type) where
  /-- all maps ever published; `cur` is `table->map` -/
  maps : Nat → Map K V
  cur : Nat
  /-- stores left of the operation in progress -/
  pend : List (Stmt K V)
  /-- the operation in progress and its result -/
  op : Option (Op K V × Res V)
  rd : T → RPC K V

inductive Act (K V T : Type)
  | begin (op : Op K V) (al : List Bool)
  /-- one store of the writer -/
  | exec
  /-- the writer returns -/
  | fin
  | call (t : T) (q : K)
  /-- one load of a reader -/
  | next (t : T)
  /-- a reader returns -/
  | ret (t : T)

/-- One load of a reader. -/
def rstep (cfg : Cfg K V) (maps : Nat → Map K V) (cur : Nat) : RPC K V → Option (RPC K V)
  | .idle => none
  | .start q => some (.gotM q cur)
  | .gotM q a => some (.gotD q a (maps a).dels)
  | .gotD q a d => match (maps a).bnd with
    | none => some (.scan q a d (maps a).maxi 0)
    | some b =>
      if b (cfg.hash q &&& (maps a).mask) = cfg.wmax then some (.gotB q a d)
      else some (.scan q a d (b (cfg.hash q &&& (maps a).mask)) 0)
  | .gotB q a d => some (.scan q a d (maps a).maxi 0)
  | .scan q a d b i =>
    if i > b ∨ i ≥ (maps a).len cfg then some (.fin q a d none)
    else match ((maps a).ent (slotAt cfg (maps a) (cfg.hash q) i)).key with
      | .tomb => some (.scan q a d b (i + 1))
      | .empty => some (.fin q a d none)
      | .key p => if p = q then some (.gotK q a d (slotAt cfg (maps a) (cfg.hash q) i)) else some (.scan q a d b (i + 1))
  | .gotK q a d x => some (.fin q a d (some ((maps a).ent x).val))
  | .fin q a d o => if (maps a).dels = d then some (.done q o) else some (.start q)
  | .done _ _ => none

/-- Key of a call in progress. -/
def RPC.key? : RPC K V → Option K
  | .idle => none
  | .start q => some q
  | .gotM q _ => some q
  | .gotD q _ _ => some q
  | .gotB q _ _ => some q
  | .scan q _ _ _ _ => some q
  | .gotK q _ _ _ => some q
  | .fin q _ _ _ => some q
  | .done _ _ => none

/-- The key of a call does not change. -/
theorem key_rstep {cfg : Cfg K V} {maps : Nat → Map K V} {cur : Nat} {p p' : RPC K V}
    (h : rstep cfg maps cur p = some p') (q : K) (hq : p'.key? = some q) : p.key? = some q := by
  cases p <;> simp only [rstep] at h <;> (repeat' split at h) <;> first | (cases h; done) | (cases h; exact hq) | (cases h; cases hq)

/-- A store to the current map, or the publication of a new one. -/
def mexec (maps : Nat → Map K V) (cur : Nat) : Stmt K V → (Nat → Map K V) × Nat
  | .publish u _ => (upd maps (cur + 1) u, cur + 1)
  | s => (upd maps cur (exec (maps cur) s), cur)

/-- One step of the writer or of a reader. -/
def pstep (cfg : Cfg K V) (s : PSt K V T) : Act K V T → Option (PSt K V T)
  | .begin op al => match s.op with
    | none => match prog cfg (s.maps s.cur) al op with
      | some (l, res) => some { s with pend := l, op := some (op, res) }
      | none => none
    | some _ => none
  | .fin => match s.op, s.pend with
    | some _, [] => some { s with op := none }
    | _, _ => none
  | .exec => match s.pend with
    | [] => none
    | st :: l => some { s with maps := (mexec s.maps s.cur st).1, cur := (mexec s.maps s.cur st).2, pend := l }
  | .call t q => match s.rd t with
    | .idle => some { s with rd := upd s.rd t (.start q) }
    | _ => none
  | .ret t => match s.rd t with
    | .done _ _ => some { s with rd := upd s.rd t .idle }
    | _ => none
  | .next t => (rstep cfg s.maps s.cur (s.rd t)).map fun pc => { s with rd := upd s.rd t pc }

/-- After `ck_ht_init` with `c` entries. -/
def pinit (cfg : Cfg K V) (c : Nat) : PSt K V T :=
  { maps := fun _ => create cfg c, cur := 0, pend := [], op := none, rd := fun _ => .idle }

/-- The same with ghost state, which no step depends on. -/
structure St (K V T : Type) extends PSt K V T where
  /-- ghost: of the writer -/
  gh : Gh K V
  /-- ghost: nothing was removed since the table was created, grown or reset on request -/
  fr : Bool
  /-- ghost: the operation in progress has changed the contents -/
  lin : Prop
  /-- ghost: the key was absent at some instant since the call -/
  absent : T → Prop
  /-- ghost: the key had this value at some instant since the call -/
  had : T → V → Prop

/-- Whether nothing was removed, after the operation. -/
def freshNext (f : Bool) : Op K V → Res V → Bool
  | .remove _, .val o => f && o.isNone
  | .grow _, .bool true => true
  | .reset, .bool true => true
  | .resetSize _, .bool true => true
  | _, _ => f

theorem Spec.fresh {a b : Abs K V} {op : Op K V} {res : Res V} (h : Spec a op res b) :
    b = ⟨b.map, freshNext a.fresh op res⟩ := by
  cases op <;> rcases res with (_ | _) | _ | _ <;> simp only [Spec] at h <;> simp only [freshNext] <;>
    first | exact h.elim | (rw [h.2]; done) | (rw [h]; done)

/-- Ghost part of a step. -/
def ghost (cfg : Cfg K V) (s : St K V T) (p : PSt K V T) : Act K V T → St K V T
  | .begin op _ =>
    { s with
      toPSt := p, gh := { s.gh with calm := calmed s.gh.calm op }, lin := False
      fr := match p.op with
        | some (op, res) => freshNext s.fr op res
        | none => s.fr }
  | .exec => match s.pend with
    | [] => { s with toPSt := p }
    | st :: _ =>
      let gh := gexec cfg (s.maps s.cur) s.gh st
      { s with
        toPSt := p, gh := gh
        lin := s.lin ∨ gh.abs ≠ s.gh.abs
        absent := fun t => s.absent t ∨ ∃ q, (s.rd t).key? = some q ∧ gh.abs q = none
        had := fun t v => s.had t v ∨ ∃ q, (s.rd t).key? = some q ∧ gh.abs q = some v }
  | .call t q =>
    { s with
      toPSt := p
      absent := upd s.absent t (s.gh.abs q = none)
      had := upd s.had t (fun v => s.gh.abs q = some v) }
  | _ => { s with toPSt := p }

/-- Readers and a writer, after `ck_ht_init` with `c` entries; the writer keeps the contract. -/
def sys (cfg : Cfg K V) (c : Nat) : Sys (St K V T) (Act K V T) :=
  { init := fun s => s.toPSt = pinit cfg c ∧ s.gh = g0 (fun _ => none) false true ∧ s.fr = true
    step := fun s a => match a with
      | .begin op al =>
        if CContract ⟨s.gh.abs, s.fr⟩ s.gh.calm op then
          (pstep cfg s.toPSt (.begin op al)).map fun p => ghost cfg s p (.begin op al)
        else none
      | a => (pstep cfg s.toPSt a).map fun p => ghost cfg s p a }

/-! ## Specification -/

/-- Result and effect of an operation of the writer on the contents. -/
def MSpec (x : K → Option V) (op : Op K V) (res : Res V) (x' : K → Option V) : Prop :=
  ∃ f f', Spec ⟨x, f⟩ op res ⟨x', f'⟩

/-- The map: `ck_ht_get_spmc` returns the value of the key, the operations of the writer follow `Spec`. -/
def obj : Lin.Obj (Op K V ⊕ K) (Res V ⊕ Option V) (K → Option V) where
  init x := x = fun _ => none
  app
    | x, .inl op, .inl res, x' => MSpec x op res x'
    | x, .inr q, .inr o, x' => o = x q ∧ x' = x
    | _, _, _, _ => False

/-- Calls and returns; the writer is thread `none`. -/
def pobs (s : PSt K V T) : Act K V T → Option (Lin.Ev (Option T) (Op K V ⊕ K) (Res V ⊕ Option V))
  | .begin op _ => some (.call none (.inl op))
  | .exec => none
  | .fin => s.op.map fun p => .ret none (.inl p.2)
  | .call t q => some (.call (some t) (.inr q))
  | .next _ => none
  | .ret t => match s.rd t with
    | .done _ o => some (.ret (some t) (.inr o))
    | _ => none

def obs (s : St K V T) (a : Act K V T) : Option (Lin.Ev (Option T) (Op K V ⊕ K) (Res V ⊕ Option V)) := pobs s.toPSt a

/-! ## Invariant -/

/-- What a reader may still find of its key from probe `i` on, up to `b`, in map `a`. -/
def Find (cfg : Cfg K V) (s : St K V T) (a : Nat) (q : K) (i b : Nat) : Prop :=
  ∃ k, i ≤ k ∧ k ≤ b ∧ k < (s.maps a).len cfg ∧ ((s.maps a).ent (slotAt cfg (s.maps a) (cfg.hash q) k)).key = .key q ∧
    (a = s.cur → s.gh.sg = true → some (slotAt cfg (s.maps a) (cfg.hash q) k) ≠ s.gh.dup) ∧
    ∀ j, i ≤ j → j < k → ((s.maps a).ent (slotAt cfg (s.maps a) (cfg.hash q) j)).key ≠ .empty

/-- The same before the bound is loaded. -/
def Find0 (cfg : Cfg K V) (s : St K V T) (a : Nat) (q : K) : Prop :=
  ∃ k, Vis cfg (s.maps a) (cfg.hash q) k ∧ ((s.maps a).ent (slotAt cfg (s.maps a) (cfg.hash q) k)).key = .key q ∧
    (a = s.cur → s.gh.sg = true → some (slotAt cfg (s.maps a) (cfg.hash q) k) ≠ s.gh.dup) ∧
    NE cfg (s.maps a) (cfg.hash q) k

/-- The values of the key in a map that was replaced. -/
def Old (s : St K V T) (t : T) (a : Nat) (q : K) : Prop :=
  a < s.cur → ∀ x, ((s.maps a).ent x).key = .key q → s.had t ((s.maps a).ent x).val

/-- The bound that was loaded is not above the present one. -/
def Lim (cfg : Cfg K V) (s : St K V T) (a : Nat) (q : K) (b : Nat) : Prop :=
  a = s.cur → s.gh.calm = true → b ≤ bound cfg (s.maps a) (cfg.hash q)

/-- The bound of the bucket is saturated. -/
def Full (cfg : Cfg K V) (s : St K V T) (a : Nat) (q : K) : Prop :=
  a = s.cur → s.gh.calm = true → ∀ b, (s.maps a).bnd = some b → b (cfg.hash q &&& (s.maps a).mask) = cfg.wmax

/-- The slot still belongs to the key. -/
def Mine (s : St K V T) (t : T) (a : Nat) (q : K) (x : Nat) : Prop :=
  s.had t ((s.maps a).ent x).val ∧ (a = s.cur → ((s.maps a).ent x).key ≠ .empty ∧ s.gh.re ≠ some x ∧
    ∀ p, ((s.maps a).ent x).key = .key p → p = q)

/-- Every reader; `d < dels`: it will start again. -/
def RI (cfg : Cfg K V) (s : St K V T) (t : T) : Prop :=
  match s.rd t with
  | .idle => True
  | .start _ => True
  | .gotM q a => a ≤ s.cur ∧ (s.absent t ∨ Find0 cfg s a q) ∧ Old s t a q
  | .gotD q a d => a ≤ s.cur ∧ d ≤ (s.maps a).dels ∧ (s.absent t ∨ Find0 cfg s a q) ∧ Old s t a q
  | .gotB q a d => a ≤ s.cur ∧ d ≤ (s.maps a).dels ∧ (s.absent t ∨ Find0 cfg s a q) ∧ Old s t a q ∧ Full cfg s a q
  | .scan q a d b i => a ≤ s.cur ∧ d ≤ (s.maps a).dels ∧ (s.absent t ∨ d < (s.maps a).dels ∨ Find cfg s a q i b) ∧
      Old s t a q ∧ Lim cfg s a q b
  | .gotK q a d x => a ≤ s.cur ∧ d ≤ (s.maps a).dels ∧ (d < (s.maps a).dels ∨ Mine s t a q x)
  | .fin _ a d none => a ≤ s.cur ∧ d ≤ (s.maps a).dels ∧ (s.absent t ∨ d < (s.maps a).dels)
  | .fin _ a d (some v) => a ≤ s.cur ∧ d ≤ (s.maps a).dels ∧ (s.had t v ∨ d < (s.maps a).dels)
  | .done _ none => s.absent t
  | .done _ (some v) => s.had t v

/-- The operation in progress. -/
def WI (cfg : Cfg K V) (s : St K V T) : Prop :=
  match s.op with
  | none => s.pend = []
  | some (op, res) => ∃ a b, MSpec a op res b ∧
      ((¬ s.lin ∧ s.gh.abs = a ∧ Once cfg a b (s.maps s.cur) s.gh s.pend) ∨
        (s.lin ∧ Near cfg (· = b) (s.maps s.cur) s.gh s.pend))

structure Inv (cfg : Cfg K V) (s : St K V T) : Prop where
  wr : WI cfg s
  g : G cfg (s.maps s.cur) s.gh
  eff : Effs cfg (s.maps s.cur) s.gh s.pend
  fin : ∃ b sg c, gexecs cfg (s.maps s.cur) s.gh s.pend = g0 b sg c ∧ Rep cfg (execs (s.maps s.cur) s.pend) ⟨b, s.fr⟩
  /-- the ghosts include the present -/
  now : ∀ t q, (s.rd t).key? = some q → (s.gh.abs q = none → s.absent t) ∧ ∀ v, s.gh.abs q = some v → s.had t v
  rd : ∀ t, RI cfg s t

/-- In the current map a key that is present can be found. -/
theorem find0_cur {cfg : Cfg K V} {s : St K V T} (hg : G cfg (s.maps s.cur) s.gh) {q : K} {v : V}
    (h : s.gh.abs q = some v) : Find0 cfg s s.cur q := by
  obtain ⟨k, h1, h2, h3, -, h4⟩ := hg.pos q v h
  exact ⟨k, h1, h3, fun _ _ => h2, h4⟩

/-- What a store does not do. -/
theorem ent_exec {cfg : Cfg K V} {m : Map K V} {g : Gh K V} {st : Stmt K V} (he : Eff cfg m g st)
    (hp : ∀ u c, st ≠ .publish u c) (x : Nat) :
    ((m.ent x).key ≠ .empty → ((exec m st).ent x).key ≠ .empty) ∧ slotAt cfg (exec m st) = slotAt cfg m ∧
    m.dels ≤ (exec m st).dels ∧ (exec m st).mask = m.mask ∧ (exec m st).len cfg = m.len cfg ∧
    (∀ q, (m.ent x).key = .key q → ((exec m st).ent x).key = .key q ∨ st = .tomb x) := by
  cases st with
  | setMax n => exact ⟨id, rfl, Nat.le_refl _, rfl, rfl, fun q h => .inl h⟩
  | setBnd o n => exact ⟨id, rfl, Nat.le_refl _, rfl, rfl, fun q h => .inl h⟩
  | cnt n => exact ⟨id, rfl, Nat.le_refl _, rfl, rfl, fun q h => .inl h⟩
  | publish u c => exact absurd rfl (hp u c)
  | dels y => exact ⟨id, rfl, Nat.le_succ _, rfl, rfl, fun q h => .inl h⟩
  | val y v =>
    have hk : ((exec m (.val y v)).ent x).key = (m.ent x).key := by
      show (upd m.ent y _ x).key = _
      rw [upd_apply]; split
      · next h => rw [h]
      · rfl
    exact ⟨fun h => by rw [hk]; exact h, rfl, Nat.le_refl _, rfl, rfl, fun q h => .inl (by rw [hk]; exact h)⟩
  | key y p d =>
    refine ⟨fun h => ?_, rfl, Nat.le_refl _, rfl, rfl, fun q h => .inl ?_⟩
    · show (upd m.ent y _ x).key ≠ _
      rw [upd_apply]; split
      · simp
      · exact h
    · show (upd m.ent y _ x).key = _
      rw [upd_apply]; split
      · next hxy =>
        rw [hxy] at h
        rcases he with he | he
        · rw [← h, he]
        · exact absurd h (he.2.2.1.nk q)
      · exact h
  | tomb y =>
    refine ⟨fun h => ?_, rfl, Nat.le_refl _, rfl, rfl, fun q h => ?_⟩
    · show (upd m.ent y _ x).key ≠ _
      rw [upd_apply]; split
      · simp
      · exact h
    · by_cases hxy : x = y
      · right; rw [hxy]
      · left
        show (upd m.ent y _ x).key = _
        rw [upd_ne _ _ hxy, h]

/-- The state after a store. -/
def after (cfg : Cfg K V) (s : St K V T) (st : Stmt K V) (l : List (Stmt K V)) : St K V T :=
  { s with
    maps := (mexec s.maps s.cur st).1, cur := (mexec s.maps s.cur st).2
    gh := gexec cfg (s.maps s.cur) s.gh st, pend := l
    lin := s.lin ∨ (gexec cfg (s.maps s.cur) s.gh st).abs ≠ s.gh.abs
    absent := fun t => s.absent t ∨ ∃ q, (s.rd t).key? = some q ∧ (gexec cfg (s.maps s.cur) s.gh st).abs q = none
    had := fun t v => s.had t v ∨ ∃ q, (s.rd t).key? = some q ∧ (gexec cfg (s.maps s.cur) s.gh st).abs q = some v }

theorem after_store {cfg : Cfg K V} {s : St K V T} {st : Stmt K V} {l : List (Stmt K V)} (hp : ∀ u c, st ≠ .publish u c) :
    (after cfg s st l).maps = upd s.maps s.cur (exec (s.maps s.cur) st) ∧ (after cfg s st l).cur = s.cur := by
  cases st with
  | publish u c => exact absurd rfl (hp u c)
  | _ => exact ⟨rfl, rfl⟩

/-- A map that is not current does not change. -/
theorem after_old {cfg : Cfg K V} {s : St K V T} {st : Stmt K V} {l : List (Stmt K V)} {a : Nat} (ha : a < s.cur) :
    (after cfg s st l).maps a = s.maps a ∧ a < (after cfg s st l).cur := by
  cases st with
  | publish u c => exact ⟨upd_ne _ _ (by omega), Nat.lt_succ_of_lt ha⟩
  | _ => exact ⟨upd_ne _ _ (by omega), ha⟩

/-- The map of a reader after a store: it is old, it was replaced, or the store was made to it. -/
theorem after_cases {cfg : Cfg K V} {s : St K V T} {st : Stmt K V} {l : List (Stmt K V)} {a : Nat} (ha : a ≤ s.cur)
    {P : Prop} (h1 : a < s.cur → (after cfg s st l).maps a = s.maps a → a < (after cfg s st l).cur → P)
    (h2 : ∀ u c, a = s.cur → st = .publish u c → (after cfg s st l).maps a = s.maps a → a < (after cfg s st l).cur → P)
    (h3 : a = s.cur → (∀ u c, st ≠ .publish u c) → (after cfg s st l).maps a = exec (s.maps a) st →
      (after cfg s st l).cur = a → P) : P := by
  rcases Nat.lt_or_ge a s.cur with hlt | hge
  · exact h1 hlt (after_old hlt).1 (after_old hlt).2
  · have hac : a = s.cur := by omega
    by_cases hp : ∃ u c, st = .publish u c
    · obtain ⟨u, c, hst⟩ := hp
      refine h2 u c hac hst ?_ ?_ <;> rw [hst, hac]
      · exact upd_ne _ _ (by omega)
      · exact Nat.lt_succ_self _
    · have hp' : ∀ u c, st ≠ .publish u c := fun u c h => hp ⟨u, c, h⟩
      refine h3 hac hp' ?_ ?_
      · rw [(after_store hp').1, hac, upd_same]
      · rw [(after_store hp').2, hac]

theorem find0_after {cfg : Cfg K V} {s : St K V T} {st : Stmt K V} {l : List (Stmt K V)} {a : Nat} {q : K} {t : T}
    (hg : G cfg (s.maps s.cur) s.gh) (hg' : G cfg ((after cfg s st l).maps (after cfg s st l).cur) (after cfg s st l).gh)
    (hn : ∀ q, (s.rd t).key? = some q → (s.gh.abs q = none → s.absent t)) (hq : (s.rd t).key? = some q)
    (ha : a ≤ s.cur) (h : s.absent t ∨ Find0 cfg s a q) :
    (after cfg s st l).absent t ∨ Find0 cfg (after cfg s st l) a q := by
  refine after_cases (cfg := cfg) (st := st) (l := l) ha ?_ ?_ ?_
  · intro hlt h1 h2
    rcases h with h | ⟨k, h3, h4, h5, h6⟩
    · exact .inl (.inl h)
    · right
      unfold Find0
      rw [h1]
      exact ⟨k, h3, h4, fun hc => by omega, h6⟩
  · intro u c hac hst h1 h2
    cases hab : s.gh.abs q with
    | none => exact .inl (.inl (hn q hq hab))
    | some v =>
      right
      obtain ⟨k, h3, h4, h5, h6⟩ := find0_cur hg hab
      unfold Find0
      rw [h1, hac]
      exact ⟨k, h3, h4, fun hc => by omega, h6⟩
  · intro hac hp h1 h2
    cases hab : (after cfg s st l).gh.abs q with
    | none => exact .inl (.inr ⟨q, hq, hab⟩)
    | some v =>
      right
      have := find0_cur hg' hab
      rwa [h2] at this

theorem old_after {cfg : Cfg K V} {s : St K V T} {st : Stmt K V} {l : List (Stmt K V)} {a : Nat} {q : K} {t : T}
    (hg : G cfg (s.maps s.cur) s.gh) (he : Eff cfg (s.maps s.cur) s.gh st)
    (hn : ∀ v, s.gh.abs q = some v → s.had t v) (ha : a ≤ s.cur) (h : Old s t a q) :
    Old (after cfg s st l) t a q := by
  refine after_cases (cfg := cfg) (st := st) (l := l) ha ?_ ?_ ?_
  · intro hlt h1 h2 _ x hx
    rw [h1] at hx ⊢
    exact .inl (h hlt x hx)
  · intro u c hac hst h1 h2 _ x hx
    rw [h1, hac] at hx
    rw [h1, hac]
    subst hst
    exact .inl (hn _ (hg.here x q hx (by rw [he.2.1]; simp)))
  · intro hac hp h1 h2 hlt
    omega

theorem dels_after {cfg : Cfg K V} {s : St K V T} {st : Stmt K V} {l : List (Stmt K V)} {a : Nat}
    (he : Eff cfg (s.maps s.cur) s.gh st) (ha : a ≤ s.cur) :
    (s.maps a).dels ≤ ((after cfg s st l).maps a).dels := by
  refine after_cases (cfg := cfg) (st := st) (l := l) ha ?_ ?_ ?_
  · intro _ h _; rw [h]
  · intro _ _ _ _ h _; rw [h]
  · intro hac hp h _
    rw [h, hac]
    exact (ent_exec he hp 0).2.2.1

theorem cur_after {cfg : Cfg K V} {s : St K V T} {st : Stmt K V} {l : List (Stmt K V)} :
    s.cur ≤ (after cfg s st l).cur := by
  cases st <;> first | exact Nat.le_succ _ | exact Nat.le_refl _

theorem reveal_eqs (cfg : Cfg K V) (m : Map K V) (g : Gh K V) : (reveal cfg m g).calm = g.calm ∧
    (reveal cfg m g).dup = g.dup ∧ (reveal cfg m g).sg = g.sg ∧ (reveal cfg m g).re = g.re := by
  unfold reveal
  split
  · exact ⟨rfl, rfl, rfl, rfl⟩
  · split
    · split <;> exact ⟨rfl, rfl, rfl, rfl⟩
    · exact ⟨rfl, rfl, rfl, rfl⟩

theorem gexec_calm (cfg : Cfg K V) (m : Map K V) (g : Gh K V) (st : Stmt K V) : (gexec cfg m g st).calm = g.calm := by
  cases st with
  | setMax n => exact (reveal_eqs _ _ _).1
  | setBnd o n => exact (reveal_eqs _ _ _).1
  | cnt n => rfl
  | publish u c => simp only [gexec]; split <;> rfl
  | dels y => rfl
  | val y v => simp only [gexec]; split <;> rfl
  | key y p d =>
    simp only [gexec]
    split
    · rfl
    · split
      · exact (reveal_eqs _ _ _).1
      · rfl
  | tomb y =>
    simp only [gexec]
    split
    · rfl
    · split <;> rfl

/-- The bounds do not go down unless `ck_ht_gc` is called. -/
theorem bound_exec {cfg : Cfg K V} {m : Map K V} {g : Gh K V} {st : Stmt K V} (he : Eff cfg m g st) (hg : G cfg m g)
    (hc : g.calm = true) (hp : ∀ u c, st ≠ .publish u c) (h : Nat) :
    bound cfg m h ≤ bound cfg (exec m st) h ∧
    ((∀ b, m.bnd = some b → b (h &&& m.mask) = cfg.wmax) →
      ∀ b, (exec m st).bnd = some b → b (h &&& (exec m st).mask) = cfg.wmax) := by
  cases st with
  | cnt n => exact ⟨Nat.le_refl _, id⟩
  | publish u c => exact absurd rfl (hp u c)
  | dels y => exact ⟨Nat.le_refl _, id⟩
  | val y v => exact ⟨Nat.le_refl _, id⟩
  | key y p d => exact ⟨Nat.le_refl _, id⟩
  | tomb y => exact ⟨Nat.le_refl _, id⟩
  | setMax n =>
    have := he.2 hc
    refine ⟨?_, id⟩
    simp only [bound, exec]
    cases m.bnd with
    | none => exact this
    | some b =>
      by_cases hw : b (h &&& m.mask) = cfg.wmax
      · simp only [hw, if_true]; exact this
      · simp only [hw, if_false]; exact Nat.le_refl _
  | setBnd o n =>
    obtain ⟨h1, h2, h3⟩ := he.2 hc
    constructor
    · simp only [bound, exec]
      cases hb : m.bnd with
      | none => simp
      | some b =>
        simp only [Option.map_some]
        have h4 := hg.cm hc b hb (h &&& m.mask)
        have h6 : b (h &&& m.mask) ≤ upd b o n (h &&& m.mask) ∧ upd b o n (h &&& m.mask) ≤ cfg.wmax := by
          rw [upd_apply]
          split
          · next ho =>
            have h5 := h3 b hb
            rw [ho]
            exact ⟨h5, h2⟩
          · exact ⟨Nat.le_refl _, h4.2⟩
        obtain ⟨z, hz⟩ : ∃ z, z = upd b o n (h &&& m.mask) := ⟨_, rfl⟩
        rw [← hz] at h6
        by_cases hw : b (h &&& m.mask) = cfg.wmax
        · have h7 : z = cfg.wmax := by omega
          simp only [hw, ← hz, h7, if_true]; exact Nat.le_refl _
        · by_cases h7 : z = cfg.wmax
          · simp only [hw, ← hz, h7, if_true, if_false]; exact h4.1
          · simp only [hw, ← hz, h7, if_false]; exact h6.1
    · intro hf b' hb'
      simp only [exec, Option.map_eq_some_iff] at hb'
      obtain ⟨b, hb, rfl⟩ := hb'
      show upd b o n (h &&& m.mask) = _
      rw [upd_apply]
      split
      · next ho =>
        have h4 := hf b hb
        have h5 := h3 b hb
        rw [ho] at h4
        omega
      · exact hf b hb

theorem lim_after {cfg : Cfg K V} {s : St K V T} {st : Stmt K V} {l : List (Stmt K V)} {a : Nat} {q : K} {b : Nat}
    (hg : G cfg (s.maps s.cur) s.gh) (he : Eff cfg (s.maps s.cur) s.gh st) (ha : a ≤ s.cur) (h : Lim cfg s a q b) :
    Lim cfg (after cfg s st l) a q b := by
  refine after_cases (cfg := cfg) (st := st) (l := l) ha ?_ ?_ ?_
  · intro _ _ h2 hc; omega
  · intro _ _ _ _ _ h2 hc; omega
  · intro hac hp h1 h2 _ hcalm
    have hcalm' : s.gh.calm = true := by rw [← gexec_calm cfg (s.maps s.cur) s.gh st]; exact hcalm
    rw [h1]
    refine Nat.le_trans (h hac hcalm') ?_
    rw [hac]
    exact (bound_exec he hg hcalm' hp _).1

theorem full_after {cfg : Cfg K V} {s : St K V T} {st : Stmt K V} {l : List (Stmt K V)} {a : Nat} {q : K}
    (hg : G cfg (s.maps s.cur) s.gh) (he : Eff cfg (s.maps s.cur) s.gh st) (ha : a ≤ s.cur) (h : Full cfg s a q) :
    Full cfg (after cfg s st l) a q := by
  refine after_cases (cfg := cfg) (st := st) (l := l) ha ?_ ?_ ?_
  · intro _ _ h2 hc; omega
  · intro _ _ _ _ _ h2 hc; omega
  · intro hac hp h1 h2 _ hcalm
    have hcalm' : s.gh.calm = true := by rw [← gexec_calm cfg (s.maps s.cur) s.gh st]; exact hcalm
    have := h hac hcalm'
    rw [hac] at this
    rw [h1, hac]
    exact (bound_exec he hg hcalm' hp _).2 this

theorem find_after {cfg : Cfg K V} {s : St K V T} {st : Stmt K V} {l : List (Stmt K V)} {a d b i : Nat} {q : K} {t : T}
    (he : Eff cfg (s.maps s.cur) s.gh st) (hq : (s.rd t).key? = some q) (ha : a ≤ s.cur) (hd : d ≤ (s.maps a).dels)
    (h : s.absent t ∨ d < (s.maps a).dels ∨ Find cfg s a q i b) :
    (after cfg s st l).absent t ∨ d < ((after cfg s st l).maps a).dels ∨ Find cfg (after cfg s st l) a q i b := by
  rcases h with h | h | h
  · exact .inl (.inl h)
  · exact .inr (.inl (Nat.lt_of_lt_of_le h (dels_after he ha)))
  obtain ⟨k, h1, h2, h3, h4, h5, h6⟩ := h
  refine after_cases (cfg := cfg) (st := st) (l := l) ha ?_ ?_ ?_
  · intro _ h7 h8
    right; right
    unfold Find
    rw [h7]
    exact ⟨k, h1, h2, h3, h4, fun hc => by omega, h6⟩
  · intro _ _ _ _ h7 h8
    right; right
    unfold Find
    rw [h7]
    exact ⟨k, h1, h2, h3, h4, fun hc => by omega, h6⟩
  · intro hac hp h7 h8
    subst hac
    obtain ⟨-, hsl, -, -, hlen, -⟩ := ent_exec he hp 0
    have hgh : (after cfg s st l).gh = gexec cfg (s.maps s.cur) s.gh st := rfl
    have h5' := h5 rfl
    have hdef : (after cfg s st l).absent t ∨ d < (exec (s.maps s.cur) st).dels ∨
        (((exec (s.maps s.cur) st).ent (slotAt cfg (s.maps s.cur) (cfg.hash q) k)).key = .key q ∧
          ((gexec cfg (s.maps s.cur) s.gh st).sg = true →
            some (slotAt cfg (s.maps s.cur) (cfg.hash q) k) ≠ (gexec cfg (s.maps s.cur) s.gh st).dup)) := by
      clear h6 hgh h8 h7
      generalize slotAt cfg (s.maps s.cur) (cfg.hash q) k = x at *
      have hkey := (ent_exec he hp x).2.2.2.2.2 q h4
      cases hst : st with
      | publish u c => exact absurd hst (hp u c)
      | setMax n =>
        refine .inr (.inr ⟨h4, ?_⟩)
        simp only [gexec]
        rw [(reveal_eqs _ _ _).2.1, (reveal_eqs _ _ _).2.2.1]; exact h5'
      | setBnd o n =>
        refine .inr (.inr ⟨h4, ?_⟩)
        simp only [gexec]
        rw [(reveal_eqs _ _ _).2.1, (reveal_eqs _ _ _).2.2.1]; exact h5'
      | cnt n => exact .inr (.inr ⟨h4, h5'⟩)
      | dels y => exact .inr (.inl (by show d < (s.maps s.cur).dels + 1; omega))
      | val y v =>
        rw [hst] at hkey
        rcases hkey with hkey | hkey
        · refine .inr (.inr ⟨hkey, ?_⟩)
          simp only [gexec]
          split <;> exact h5'
        · cases hkey
      | key y p e =>
        rw [hst] at hkey
        rcases hkey with hkey | hkey
        · refine .inr (.inr ⟨hkey, ?_⟩)
          simp only [gexec]
          split
          · exact h5'
          · split
            · rw [(reveal_eqs _ _ _).2.1, (reveal_eqs _ _ _).2.2.1]; exact h5'
            · intro hc; cases hc
        · cases hkey
      | tomb y =>
        rw [hst] at he hkey
        rcases hkey with hkey | hkey
        · refine .inr (.inr ⟨hkey, ?_⟩)
          simp only [gexec]
          split
          · simp
          · split <;> exact h5'
        · cases hkey
          obtain ⟨-, hd2 | ⟨hd2, hsg⟩⟩ := he
          · left; right
            refine ⟨q, hq, ?_⟩
            simp only [gexec, hd2.1, h4]
            simp
          · exact absurd hd2.symm (h5' hsg)
    rcases hdef with h9 | h9 | ⟨h9, h10⟩
    · exact .inl h9
    · right; left; rw [h7]; exact h9
    · right; right
      unfold Find
      rw [h7, hsl, hgh, hlen]
      exact ⟨k, h1, h2, h3, h9, fun _ => h10, fun j hj hjk => (ent_exec he hp _).1 (h6 j hj hjk)⟩

theorem mine_after {cfg : Cfg K V} {s : St K V T} {st : Stmt K V} {l : List (Stmt K V)} {a d x : Nat} {q : K} {t : T}
    (he : Eff cfg (s.maps s.cur) s.gh st) (hq : (s.rd t).key? = some q) (ha : a ≤ s.cur) (hd : d ≤ (s.maps a).dels)
    (h : d < (s.maps a).dels ∨ Mine s t a q x) :
    d < ((after cfg s st l).maps a).dels ∨ Mine (after cfg s st l) t a q x := by
  rcases h with h | ⟨h1, h2⟩
  · exact .inl (Nat.lt_of_lt_of_le h (dels_after he ha))
  refine after_cases (cfg := cfg) (st := st) (l := l) ha ?_ ?_ ?_
  · intro _ h7 h8
    right
    unfold Mine
    rw [h7]
    exact ⟨.inl h1, fun hc => by omega⟩
  · intro _ _ _ _ h7 h8
    right
    unfold Mine
    rw [h7]
    exact ⟨.inl h1, fun hc => by omega⟩
  · intro hac hp h7 h8
    subst hac
    obtain ⟨h3, h4, h5⟩ := h2 rfl
    have hfree : ¬ Free (s.maps s.cur) s.gh x := by
      rintro (h | h)
      · exact h3 h
      · exact h4 h.2
    have hne := (ent_exec he hp x).1 h3
    unfold Mine
    rw [h7]
    have keep : ((exec (s.maps s.cur) st).ent x).val = ((s.maps s.cur).ent x).val →
        (gexec cfg (s.maps s.cur) s.gh st).re ≠ some x →
        (∀ p, ((exec (s.maps s.cur) st).ent x).key = .key p → p = q) →
        d < (exec (s.maps s.cur) st).dels ∨ (after cfg s st l).had t ((exec (s.maps s.cur) st).ent x).val ∧
          (s.cur = (after cfg s st l).cur → ((exec (s.maps s.cur) st).ent x).key ≠ .empty ∧
            (after cfg s st l).gh.re ≠ some x ∧ ∀ p, ((exec (s.maps s.cur) st).ent x).key = .key p → p = q) := by
      intro e1 e2 e3
      right
      rw [e1]
      exact ⟨.inl h1, fun _ => ⟨hne, e2, e3⟩⟩
    cases hst : st with
    | publish u c => exact absurd hst (hp u c)
    | setMax n =>
      rw [hst] at keep
      exact keep rfl (by simp only [gexec]; rw [(reveal_eqs _ _ _).2.2.2]; exact h4) h5
    | setBnd o n =>
      rw [hst] at keep
      exact keep rfl (by simp only [gexec]; rw [(reveal_eqs _ _ _).2.2.2]; exact h4) h5
    | cnt n => rw [hst] at keep; exact keep rfl h4 h5
    | dels y => exact .inl (by show d < (s.maps s.cur).dels + 1; omega)
    | val y v =>
      rw [hst] at keep he hne
      have hre : (gexec cfg (s.maps s.cur) s.gh (.val y v)).re ≠ some x := by
        simp only [gexec]
        split <;> exact h4
      have hk : ((exec (s.maps s.cur) (.val y v)).ent x).key = ((s.maps s.cur).ent x).key := by
        show (upd (s.maps s.cur).ent y _ x).key = _
        rw [upd_apply]; split
        · next h => rw [h]
        · rfl
      by_cases hxy : x = y
      · subst hxy
        obtain ⟨-, -, hf | ⟨p, hk2⟩⟩ := he
        · exact absurd hf hfree
        · have hpq := h5 p hk2
          subst hpq
          right
          refine ⟨.inr ⟨p, hq, ?_⟩, fun _ => ⟨hne, hre, fun p' h => h5 p' (by rw [← hk]; exact h)⟩⟩
          have : ((exec (s.maps s.cur) (.val x v)).ent x).val = v := by
            show (upd (s.maps s.cur).ent x _ x).val = _
            rw [upd_same]
          rw [this]
          simp only [gexec, hk2]
          rw [upd_same]
      · refine keep ?_ hre (fun p' h => h5 p' (by rw [← hk]; exact h))
        show (upd (s.maps s.cur).ent y _ x).val = _
        rw [upd_ne _ _ hxy]
    | key y p e =>
      rw [hst] at keep he hne
      have hre : (gexec cfg (s.maps s.cur) s.gh (.key y p e)).re ≠ some x := by
        simp only [gexec]
        split
        · exact h4
        · split
          · rw [(reveal_eqs _ _ _).2.2.2]; simp
          · simp
      by_cases hxy : x = y
      · subst hxy
        rcases he with he | he
        · refine keep ?_ hre ?_
          · show (upd (s.maps s.cur).ent x _ x).val = _
            rw [upd_same]
          · intro p' hp'
            have : ((exec (s.maps s.cur) (.key x p e)).ent x).key = .key p := by
              show (upd (s.maps s.cur).ent x _ x).key = _
              rw [upd_same]
            rw [this] at hp'
            cases hp'
            exact h5 p he
        · exact absurd he.2.2.1 hfree
      · have : (exec (s.maps s.cur) (.key y p e)).ent x = (s.maps s.cur).ent x := upd_ne _ _ hxy
        exact keep (by rw [this]) hre (by rw [this]; exact h5)
    | tomb y =>
      rw [hst] at keep he hne
      have hre : (gexec cfg (s.maps s.cur) s.gh (.tomb y)).re ≠ some x := by
        simp only [gexec]
        split
        · exact h4
        · split <;> exact h4
      by_cases hxy : x = y
      · subst hxy
        have : (exec (s.maps s.cur) (.tomb x)).ent x = ⟨.tomb, ((s.maps s.cur).ent x).val⟩ := upd_same _ _ _
        exact keep (by rw [this]) hre (by rw [this]; intro p h; cases h)
      · have : (exec (s.maps s.cur) (.tomb y)).ent x = (s.maps s.cur).ent x := upd_ne _ _ hxy
        exact keep (by rw [this]) hre (by rw [this]; exact h5)

theorem inv_exec {cfg : Cfg K V} {s : St K V T} {st : Stmt K V} {l : List (Stmt K V)} (hi : Inv cfg s)
    (hpd : s.pend = st :: l) : Inv cfg (after cfg s st l) := by
  have heff := hi.eff
  rw [hpd] at heff
  obtain ⟨he, heffs⟩ := heff
  have hfin := hi.fin
  rw [hpd] at hfin
  have hg' : G cfg (exec (s.maps s.cur) st) (gexec cfg (s.maps s.cur) s.gh st) := hi.g.exec he
  have hcm : (after cfg s st l).maps (after cfg s st l).cur = exec (s.maps s.cur) st := by
    cases st <;> exact upd_same _ _ _
  have hgh : (after cfg s st l).gh = gexec cfg (s.maps s.cur) s.gh st := rfl
  refine ⟨?_, by rw [hcm]; exact hg', by rw [hcm]; exact heffs, by rw [hcm]; exact hfin, ?_, ?_⟩
  · have hwr := hi.wr
    unfold WI at hwr ⊢
    rw [hcm, hgh]
    change match s.op with
      | none => l = []
      | some (op, res) => ∃ a b, MSpec a op res b ∧
        ((¬ (s.lin ∨ (gexec cfg (s.maps s.cur) s.gh st).abs ≠ s.gh.abs) ∧ (gexec cfg (s.maps s.cur) s.gh st).abs = a ∧
          Once cfg a b (exec (s.maps s.cur) st) (gexec cfg (s.maps s.cur) s.gh st) l) ∨
        ((s.lin ∨ (gexec cfg (s.maps s.cur) s.gh st).abs ≠ s.gh.abs) ∧
          Near cfg (· = b) (exec (s.maps s.cur) st) (gexec cfg (s.maps s.cur) s.gh st) l))
    cases hop : s.op with
    | none => rw [hop, hpd] at hwr; cases hwr
    | some p =>
      obtain ⟨op, res⟩ := p
      rw [hop, hpd] at hwr
      obtain ⟨a, b, h1, ⟨h2, h3, h4⟩ | ⟨h2, h3⟩⟩ := hwr
      · refine ⟨a, b, h1, ?_⟩
        by_cases hc : (gexec cfg (s.maps s.cur) s.gh st).abs = s.gh.abs
        · left
          refine ⟨by simp [h2, hc], hc.trans h3, ?_⟩
          rcases h4 with h4 | h4
          · exact h4.2
          · exact h4.2.once
        · right
          refine ⟨.inr hc, ?_⟩
          rcases h4 with h4 | h4
          · have h5 := h4.2
            cases l with
            | nil => exact h5
            | cons st' l =>
              rcases h5 with h5 | h5
              · exact absurd (h5.1.trans h3.symm) hc
              · exact h5
          · exact h4.2
      · exact ⟨a, b, h1, .inr ⟨.inl h2, h3.2⟩⟩
  · intro t q hq
    exact ⟨fun h => .inr ⟨q, hq, h⟩, fun v h => .inr ⟨q, hq, h⟩⟩
  · intro t
    have hr := hi.rd t
    have hnow := hi.now t
    have hrd : (after cfg s st l).rd t = s.rd t := rfl
    have hcur := cur_after (cfg := cfg) (s := s) (st := st) (l := l)
    have hg2 : G cfg ((after cfg s st l).maps (after cfg s st l).cur) (after cfg s st l).gh := by rw [hcm]; exact hg'
    unfold RI at hr ⊢
    rw [hrd]
    cases hpc : s.rd t with
    | idle => trivial
    | start q => trivial
    | gotM q a =>
      rw [hpc] at hr
      obtain ⟨h1, h2, h3⟩ := hr
      have hq : (s.rd t).key? = some q := by rw [hpc]; rfl
      exact ⟨by omega, find0_after hi.g hg2 (fun q h => (hnow q h).1) hq h1 h2, old_after hi.g he (hnow q hq).2 h1 h3⟩
    | gotD q a d =>
      rw [hpc] at hr
      obtain ⟨h1, h4, h2, h3⟩ := hr
      have hq : (s.rd t).key? = some q := by rw [hpc]; rfl
      exact ⟨by omega, Nat.le_trans h4 (dels_after he h1), find0_after hi.g hg2 (fun q h => (hnow q h).1) hq h1 h2,
        old_after hi.g he (hnow q hq).2 h1 h3⟩
    | gotB q a d =>
      rw [hpc] at hr
      obtain ⟨h1, h4, h2, h3, h5⟩ := hr
      have hq : (s.rd t).key? = some q := by rw [hpc]; rfl
      exact ⟨by omega, Nat.le_trans h4 (dels_after he h1), find0_after hi.g hg2 (fun q h => (hnow q h).1) hq h1 h2,
        old_after hi.g he (hnow q hq).2 h1 h3, full_after hi.g he h1 h5⟩
    | scan q a d b i =>
      rw [hpc] at hr
      obtain ⟨h1, h4, h2, h3, h5⟩ := hr
      have hq : (s.rd t).key? = some q := by rw [hpc]; rfl
      exact ⟨by omega, Nat.le_trans h4 (dels_after he h1), find_after he hq h1 h4 h2,
        old_after hi.g he (hnow q hq).2 h1 h3, lim_after hi.g he h1 h5⟩
    | gotK q a d x =>
      rw [hpc] at hr
      obtain ⟨h1, h4, h2⟩ := hr
      have hq : (s.rd t).key? = some q := by rw [hpc]; rfl
      exact ⟨by omega, Nat.le_trans h4 (dels_after he h1), mine_after he hq h1 h4 h2⟩
    | fin q a d o =>
      rw [hpc] at hr
      cases o with
      | none =>
        obtain ⟨h1, h4, h2⟩ := hr
        refine ⟨by omega, Nat.le_trans h4 (dels_after he h1), ?_⟩
        rcases h2 with h2 | h2
        · exact .inl (.inl h2)
        · exact .inr (Nat.lt_of_lt_of_le h2 (dels_after he h1))
      | some v =>
        obtain ⟨h1, h4, h2⟩ := hr
        refine ⟨by omega, Nat.le_trans h4 (dels_after he h1), ?_⟩
        rcases h2 with h2 | h2
        · exact .inl (.inl h2)
        · exact .inr (Nat.lt_of_lt_of_le h2 (dels_after he h1))
    | done q o =>
      rw [hpc] at hr
      cases o with
      | none => exact .inl hr
      | some v => exact .inl hr

/-- A key that is not within the bounds yet is not seen. -/
theorem not_hid {cfg : Cfg K V} {m : Map K V} {g : Gh K V} {q : K} {i x : Nat} (hg : G cfg m g)
    (hk : (m.ent x).key = .key q) (hx : slotAt cfg m (cfg.hash q) i = x) (hl : i < m.len cfg)
    (hb : g.calm = true → i ≤ bound cfg m (cfg.hash q)) : some x ≠ g.hid := by
  intro hh
  obtain ⟨-, hcalm, p, h1, -, h2, -⟩ := hg.hid x hh.symm
  rw [hk] at h1; cases h1
  apply h2
  refine ⟨i, ⟨hl, ?_, ?_⟩, hx⟩
  · have h3 := hb hcalm
    unfold bound at h3
    cases hbn : m.bnd with
    | none => rw [hbn] at h3; exact h3
    | some b =>
      rw [hbn] at h3
      have h4 := hg.cm hcalm b hbn (cfg.hash q &&& m.mask)
      simp only at h3
      split at h3 <;> omega
  · intro b hbn
    have h3 := hb hcalm
    unfold bound at h3
    rw [hbn] at h3
    simp only at h3
    split at h3
    · next h => exact .inl h
    · exact .inr h3

/-- One load of a reader. -/
theorem ri_next {cfg : Cfg K V} {s s' : St K V T} {t : T} {pc : RPC K V} (hi : Inv cfg s)
    (h : rstep cfg s.maps s.cur (s.rd t) = some pc) (hs' : s' = { s with rd := upd s.rd t pc }) : RI cfg s' t := by
  have hr := hi.rd t
  have hnow := hi.now t
  have hpc' : s'.rd t = pc := by rw [hs']; exact upd_same _ _ _
  have hm : s'.maps = s.maps := by rw [hs']
  have hcu : s'.cur = s.cur := by rw [hs']
  have hgg : s'.gh = s.gh := by rw [hs']
  have hab : s'.absent = s.absent := by rw [hs']
  have hha : s'.had = s.had := by rw [hs']
  have hf : Find cfg s' = Find cfg s := by unfold Find; rw [hm, hcu, hgg]
  have hf0 : Find0 cfg s' = Find0 cfg s := by unfold Find0; rw [hm, hcu, hgg]
  have hold : Old s' = Old s := by unfold Old; rw [hm, hcu, hha]
  have hlim : Lim cfg s' = Lim cfg s := by unfold Lim; rw [hm, hcu, hgg]
  have hfull : Full cfg s' = Full cfg s := by unfold Full; rw [hm, hcu, hgg]
  have hmine : Mine s' = Mine s := by unfold Mine; rw [hm, hcu, hgg, hha]
  unfold RI at hr ⊢
  rw [hpc', hm, hcu, hab, hha, hf, hf0, hold, hlim, hfull, hmine]
  clear hpc' hm hcu hgg hab hha hf hf0 hold hlim hfull hmine hs'
  cases hpc : s.rd t with
  | idle => rw [hpc] at h; cases h
  | done q o => rw [hpc] at h; cases h
  | start q =>
    rw [hpc] at h
    cases h
    have hq : (s.rd t).key? = some q := by rw [hpc]; rfl
    refine ⟨Nat.le_refl _, ?_, fun h => absurd h (Nat.lt_irrefl _)⟩
    cases hab : s.gh.abs q with
    | none => exact .inl ((hnow q hq).1 hab)
    | some v => exact .inr (find0_cur hi.g hab)
  | gotM q a =>
    rw [hpc] at h hr
    cases h
    exact ⟨hr.1, Nat.le_refl _, hr.2.1, hr.2.2⟩
  | gotD q a d =>
    rw [hpc] at h hr
    obtain ⟨h1, h2, h3, h4⟩ := hr
    simp only [rstep] at h
    split at h
    · next hb =>
      cases h
      refine ⟨h1, h2, ?_, h4, ?_⟩
      · rcases h3 with h3 | ⟨k, h5, h6, h7, h8⟩
        · exact .inl h3
        · exact .inr (.inr ⟨k, Nat.zero_le _, h5.2.1, h5.1, h6, h7, fun j _ hj => h8 j hj⟩)
      · intro _ _; unfold bound; rw [hb]
    · next b hb =>
      split at h
      · next hw =>
        cases h
        refine ⟨h1, h2, h3, h4, ?_⟩
        intro _ _ b' hb'
        rw [hb] at hb'; cases hb'; exact hw
      · next hw =>
        cases h
        refine ⟨h1, h2, ?_, h4, ?_⟩
        · rcases h3 with h3 | ⟨k, h5, h6, h7, h8⟩
          · exact .inl h3
          · refine .inr (.inr ⟨k, Nat.zero_le _, ?_, h5.1, h6, h7, fun j _ hj => h8 j hj⟩)
            rcases h5.2.2 b hb with h9 | h9
            · exact absurd h9 hw
            · exact h9
        · intro _ _
          unfold bound
          rw [hb]
          simp only
          rw [if_neg hw]
  | gotB q a d =>
    rw [hpc] at h hr
    obtain ⟨h1, h2, h3, h4, h5⟩ := hr
    cases h
    refine ⟨h1, h2, ?_, h4, ?_⟩
    · rcases h3 with h3 | ⟨k, h5, h6, h7, h8⟩
      · exact .inl h3
      · exact .inr (.inr ⟨k, Nat.zero_le _, h5.2.1, h5.1, h6, h7, fun j _ hj => h8 j hj⟩)
    · intro hac hcalm
      have h6 := h5 hac hcalm
      unfold bound
      split
      · exact Nat.le_refl _
      · next b hb => rw [if_pos (h6 b hb)]
  | scan q a d b i =>
    rw [hpc] at h hr
    obtain ⟨h1, h2, h3, h4, h5⟩ := hr
    have hq : (s.rd t).key? = some q := by rw [hpc]; rfl
    simp only [rstep] at h
    -- the key is not in this slot
    have hskip : ((s.maps a).ent (slotAt cfg (s.maps a) (cfg.hash q) i)).key ≠ .key q →
        s.absent t ∨ d < (s.maps a).dels ∨ Find cfg s a q (i + 1) b := by
      intro hnk
      rcases h3 with h3 | h3 | ⟨k, h5, h6, h7, h8, h9, h10⟩
      · exact .inl h3
      · exact .inr (.inl h3)
      · right; right
        refine ⟨k, ?_, h6, h7, h8, h9, fun j hj => h10 j (by omega)⟩
        rcases Nat.lt_or_ge i k with h11 | h11
        · exact h11
        · have : k = i := by omega
          subst this; exact absurd h8 hnk
    split at h
    · next hib =>
      cases h
      refine ⟨h1, h2, ?_⟩
      rcases h3 with h3 | h3 | ⟨k, h5, h6, h7, -⟩
      · exact .inl h3
      · exact .inr h3
      · omega
    · next hib =>
      simp only [not_or, Nat.not_lt, Nat.not_le, gt_iff_lt, ge_iff_le] at hib
      split at h
      · next hen =>
        cases h
        exact ⟨h1, h2, hskip (by rw [hen]; simp), h4, h5⟩
      · next hen =>
        cases h
        refine ⟨h1, h2, ?_⟩
        rcases h3 with h3 | h3 | ⟨k, h5, h6, h7, h8, -, h9⟩
        · exact .inl h3
        · exact .inr h3
        · exfalso
          rcases Nat.lt_or_ge i k with h10 | h10
          · exact h9 i (Nat.le_refl _) h10 hen
          · have : k = i := by omega
            subst this
            rw [hen] at h8; cases h8
      · next p hen =>
        split at h
        · next hpq =>
          cases h
          subst hpq
          refine ⟨h1, h2, .inr ⟨?_, ?_⟩⟩
          · rcases Nat.lt_or_ge a s.cur with hlt | hge
            · exact h4 hlt _ hen
            · have hac : a = s.cur := by omega
              subst hac
              refine (hnow p hq).2 _ (hi.g.here _ p hen ?_)
              exact not_hid hi.g hen rfl hib.2 (fun hcalm => Nat.le_trans hib.1 (h5 rfl hcalm))
          · intro hac
            refine ⟨by rw [hen]; simp, ?_, fun p' h => by rw [hen] at h; cases h; rfl⟩
            intro hre
            have := hi.g.re _ hre
            rw [← hac, hen] at this; cases this
        · next hpq =>
          cases h
          exact ⟨h1, h2, hskip (by rw [hen]; simpa using hpq), h4, h5⟩
  | gotK q a d x =>
    rw [hpc] at h hr
    cases h
    refine ⟨hr.1, hr.2.1, ?_⟩
    rcases hr.2.2 with h3 | h3
    · exact .inr h3
    · exact .inl h3.1
  | fin q a d o =>
    rw [hpc] at h hr
    simp only [rstep] at h
    split at h
    · next hg =>
      cases h
      cases o with
      | none =>
        rcases hr.2.2 with h3 | h3
        · exact h3
        · omega
      | some v =>
        rcases hr.2.2 with h3 | h3
        · exact h3
        · omega
    · cases h; trivial

/-- Nothing but the ghost of the writer changes. -/
theorem ri_same {cfg : Cfg K V} {s s' : St K V T} {u : T} (hm : s'.maps = s.maps) (hc : s'.cur = s.cur)
    (hr : s'.rd u = s.rd u) (ha : s'.absent u = s.absent u) (hh : s'.had u = s.had u) (hd : s'.gh.dup = s.gh.dup)
    (hs : s'.gh.sg = s.gh.sg) (hre : s'.gh.re = s.gh.re) (hcm : s'.gh.calm = true → s.gh.calm = true)
    (h : RI cfg s u) : RI cfg s' u := by
  have hf : Find cfg s' = Find cfg s := by unfold Find; rw [hm, hc, hd, hs]
  have hf0 : Find0 cfg s' = Find0 cfg s := by unfold Find0; rw [hm, hc, hd, hs]
  have hold : Old s' u = Old s u := by unfold Old; rw [hm, hc, hh]
  have hlim : ∀ a q b, Lim cfg s a q b → Lim cfg s' a q b := by
    intro a q b h; unfold Lim at h ⊢; rw [hm, hc]; exact fun h1 h2 => h h1 (hcm h2)
  have hfull : ∀ a q, Full cfg s a q → Full cfg s' a q := by
    intro a q h; unfold Full at h ⊢; rw [hm, hc]; exact fun h1 h2 => h h1 (hcm h2)
  have hmine : Mine s' u = Mine s u := by unfold Mine; rw [hm, hc, hre, hh]
  unfold RI at h ⊢
  rw [hr, hm, hc, hf, hf0, hold, hmine, ha, hh]
  cases hpc : s.rd u with
  | gotB q a d => rw [hpc] at h; exact ⟨h.1, h.2.1, h.2.2.1, h.2.2.2.1, hfull a q h.2.2.2.2⟩
  | scan q a d b i => rw [hpc] at h; exact ⟨h.1, h.2.1, h.2.2.1, h.2.2.2.1, hlim a q b h.2.2.2.2⟩
  | fin q a d o => rw [hpc] at h; cases o <;> exact h
  | done q o => rw [hpc] at h; cases o <;> exact h
  | _ => rw [hpc] at h; exact h

theorem step_exec {cfg : Cfg K V} {s : St K V T} {s' : St K V T}
    (h : ((pstep cfg s.toPSt .exec).map fun p => ghost cfg s p .exec) = some s') :
    ∃ st l, s.pend = st :: l ∧ s' = after cfg s st l := by
  simp only [pstep, Option.map_eq_some_iff] at h
  obtain ⟨p, hp, h⟩ := h
  cases hpd : s.pend with
  | nil => rw [hpd] at hp; cases hp
  | cons st l =>
    rw [hpd] at hp
    cases hp
    refine ⟨st, l, rfl, ?_⟩
    rw [← h]
    simp only [ghost, hpd, after]

theorem inv_reach {cfg : Cfg K V} {c : Nat} {s : St K V T} (hr : (sys (T := T) cfg c).Reach s) : Inv cfg s := by
  refine hr.invariant (I := Inv cfg) ?_ ?_
  · rintro s ⟨h1, h2, h3⟩
    have hw := create_wf cfg c
    have hc := create_calm cfg c
    have hmap : s.maps s.cur = create cfg c := by rw [h1]; rfl
    have hpd : s.pend = [] := by rw [h1]; rfl
    have hop : s.op = none := by rw [h1]; rfl
    have hrd : ∀ t, s.rd t = .idle := by intro t; rw [h1]; rfl
    refine ⟨by unfold WI; rw [hop]; exact hpd, by rw [hmap, h2]; exact hw.g fun _ => hc, by rw [hpd]; trivial, ?_, ?_, ?_⟩
    · rw [hpd, hmap, h2, h3]
      exact ⟨fun _ => none, false, true, rfl, hw, fun _ x => by simp [execs, create]⟩
    · intro t q hq; rw [hrd] at hq; cases hq
    · intro t; unfold RI; rw [hrd]; trivial
  · intro s a s' hi h
    cases a with
    | begin op al =>
      simp only [sys] at h
      split at h
      · next hc =>
        simp only [pstep, Option.map_eq_some_iff] at h
        obtain ⟨p, hp, h⟩ := h
        split at hp
        · next hop =>
          have hpd : s.pend = [] := by
            have := hi.wr
            unfold WI at this
            rwa [hop] at this
          split at hp
          · next l res hpr =>
            cases hp
            subst h
            have hfin := hi.fin
            rw [hpd] at hfin
            obtain ⟨b0, sg, cm, hgx, hw⟩ := hfin
            change s.gh = g0 b0 sg cm at hgx
            change Rep cfg (s.maps s.cur) ⟨b0, s.fr⟩ at hw
            have hb0 : s.gh.abs = b0 := by rw [hgx]; rfl
            rw [← hb0] at hw
            obtain ⟨b, hsp, hrep, hrun⟩ := prog_run hw hi.g.cm hc hpr
            obtain ⟨sg', hrun⟩ := hrun sg
            have hgh : ({ s.gh with calm := calmed s.gh.calm op } : Gh K V) = g0 s.gh.abs sg (calmed s.gh.calm op) := by
              rw [hgx]; rfl
            have hfr := hsp.fresh
            have hcl : calmed s.gh.calm op = true → s.gh.calm = true := by cases op <;> first | exact id | (intro h; cases h)
            refine ⟨?_, ?_, ?_, ?_, hi.now, ?_⟩
            · refine ⟨s.gh.abs, b.map, ⟨s.fr, b.fresh, hsp⟩, .inl ⟨id, rfl, ?_⟩⟩
              show Once cfg _ _ (s.maps s.cur) { s.gh with calm := calmed s.gh.calm op } l
              rw [hgh]; exact hrun.one
            · show G cfg (s.maps s.cur) { s.gh with calm := calmed s.gh.calm op }
              refine ⟨hi.g.pos, hi.g.here, hi.g.uniq, ?_, hi.g.re, fun h => hi.g.cm (hcl h)⟩
              intro x hx
              exfalso
              change s.gh.hid = some x at hx
              rw [hgx] at hx; cases hx
            · show Effs cfg (s.maps s.cur) { s.gh with calm := calmed s.gh.calm op } l
              rw [hgh]; exact hrun.eff
            · show ∃ b sg c, gexecs cfg (s.maps s.cur) { s.gh with calm := calmed s.gh.calm op } l = g0 b sg c ∧
                Rep cfg (execs (s.maps s.cur) l) ⟨b, freshNext s.fr op res⟩
              rw [hgh]
              refine ⟨b.map, sg', _, hrun.gh, ?_⟩
              have h5 : (⟨b.map, freshNext s.fr op res⟩ : Abs K V) = b := hfr.symm
              rw [h5]; exact hrep
            · intro u
              exact ri_same (s := s) rfl rfl rfl rfl rfl rfl rfl rfl hcl (hi.rd u)
          · cases hp
        · cases hp
      · cases h
    | exec =>
      obtain ⟨st, l, hpd, rfl⟩ := step_exec h
      exact inv_exec hi hpd
    | fin =>
      simp only [sys, pstep, Option.map_eq_some_iff] at h
      obtain ⟨p, hp, h⟩ := h
      split at hp
      · next hpd =>
        cases hp
        subst h
        exact ⟨hpd, hi.g, hi.eff, hi.fin, hi.now, fun u => ri_same (s := s) rfl rfl rfl rfl rfl rfl rfl rfl id (hi.rd u)⟩
      · cases hp
    | call t q =>
      simp only [sys, pstep, Option.map_eq_some_iff] at h
      obtain ⟨p, hp, h⟩ := h
      split at hp
      · cases hp
        subst h
        refine ⟨hi.wr, hi.g, hi.eff, hi.fin, ?_, ?_⟩
        · intro u q' hq
          by_cases hu : u = t
          · subst hu
            simp only [ghost, upd_same] at hq ⊢
            cases hq
            exact ⟨id, fun v h => h⟩
          · simp only [ghost, upd_ne _ _ hu] at hq ⊢
            exact hi.now u q' hq
        · intro u
          by_cases hu : u = t
          · subst hu
            unfold RI
            simp only [ghost, upd_same]
          · exact ri_same (s := s) rfl rfl (upd_ne _ _ hu) (upd_ne _ _ hu) (upd_ne _ _ hu) rfl rfl rfl id (hi.rd u)
      · cases hp
    | ret t =>
      simp only [sys, pstep, Option.map_eq_some_iff] at h
      obtain ⟨p, hp, h⟩ := h
      split at hp
      · cases hp
        subst h
        refine ⟨hi.wr, hi.g, hi.eff, hi.fin, ?_, ?_⟩
        · intro u q' hq
          by_cases hu : u = t
          · subst hu
            simp only [ghost, upd_same] at hq
            cases hq
          · simp only [ghost, upd_ne _ _ hu] at hq ⊢
            exact hi.now u q' hq
        · intro u
          by_cases hu : u = t
          · subst hu
            unfold RI
            simp only [ghost, upd_same]
          · exact ri_same (s := s) rfl rfl (upd_ne _ _ hu) rfl rfl rfl rfl rfl id (hi.rd u)
      · cases hp
    | next t =>
      simp only [sys, pstep, Option.map_map, Option.map_eq_some_iff] at h
      obtain ⟨pc, hpc, rfl⟩ := h
      refine ⟨hi.wr, hi.g, hi.eff, hi.fin, ?_, ?_⟩
      · intro u q hq
        by_cases hu : u = t
        · subst hu
          simp only [Function.comp, ghost, upd_same] at hq
          exact hi.now u q (key_rstep hpc q hq)
        · simp only [Function.comp, ghost, upd_ne _ _ hu] at hq
          exact hi.now u q hq
      · intro u
        by_cases hu : u = t
        · subst hu; exact ri_next hi hpc rfl
        · exact ri_same (s := s) rfl rfl (upd_ne _ _ hu) rfl rfl rfl rfl rfl id (hi.rd u)

/-! ## Linearizability -/

/-- Key of a call that has not returned. -/
def RPC.call? : RPC K V → Option K
  | .done q _ => some q
  | p => p.key?

theorem call_rstep {cfg : Cfg K V} {maps : Nat → Map K V} {cur : Nat} {p p' : RPC K V}
    (h : rstep cfg maps cur p = some p') : p'.call? = p.call? := by
  cases p <;> simp only [rstep] at h <;> (repeat' split at h) <;> first | (cases h; done) | (cases h; rfl)

open Classical in
/-- Where a thread stands. -/
noncomputable def view (s : St K V T) : Option T → Lin.HS (Op K V ⊕ K) (Res V ⊕ Option V)
  | none => match s.op with
    | none => .idle
    | some (op, res) => if s.lin then .done (.inl res) else .pend (.inl op)
  | some t => match (s.rd t).call? with
    | none => .idle
    | some q => .read (.inr q)

/-- Results a reader may return. -/
def seen (s : St K V T) : Option T → Res V ⊕ Option V → Prop
  | some t, .inr none => s.absent t
  | some t, .inr (some v) => s.had t v
  | _, _ => False

/-- The result of a read. -/
def rdv (x : K → Option V) : Op K V ⊕ K → Res V ⊕ Option V → Prop
  | .inr q, .inr o => o = x q
  | _, _ => False

theorem view_upd (s s' : St K V T) (t : T) (pc : RPC K V) (h : s'.rd = upd s.rd t pc) (h1 : s'.op = s.op)
    (h2 : s'.lin = s.lin) :
    view s' = upd (view s) (some t) (match pc.call? with | none => .idle | some q => .read (.inr q)) := by
  funext u
  cases u with
  | none =>
    rw [upd_ne _ _ (by simp)]
    unfold view
    rw [h1]
    cases s.op with
    | none => rfl
    | some p => by_cases hl : s.lin <;> simp [h2, hl]
  | some u =>
    by_cases hu : u = t
    · subst hu; rw [upd_same]; simp only [view, h, upd_same]
    · rw [upd_ne _ _ (by simpa using hu)]; simp only [view, h, upd_ne _ _ hu]

theorem call_of_key {p : RPC K V} {q : K} (h : p.key? = some q) : p.call? = some q := by
  cases p <;> first | exact h | cases h

theorem seen_after {cfg : Cfg K V} {s : St K V T} {st : Stmt K V} {l : List (Stmt K V)} (u : Option T) (r : Res V ⊕ Option V)
    (h : seen (after cfg s st l) u r) :
    seen s u r ∨ ∃ o, view s u = .read o ∧ rdv (after cfg s st l).gh.abs o r := by
  cases u with
  | none => cases h
  | some t =>
    rcases r with r | (_ | v)
    · cases h
    · rcases h with h | ⟨q, hq, h⟩
      · exact .inl h
      · exact .inr ⟨.inr q, by simp [view, call_of_key hq], h.symm⟩
    · rcases h with h | ⟨q, hq, h⟩
      · exact .inl h
      · exact .inr ⟨.inr q, by simp [view, call_of_key hq], h.symm⟩

open Classical in
theorem view_writer (s : St K V T) (o : Op K V ⊕ K) : view s none ≠ .read o := by
  simp only [view]
  split
  · simp
  · next op res =>
    by_cases h : s.lin
    · simp [h]
    · simp [h]

theorem view_after {cfg : Cfg K V} {s : St K V T} {st : Stmt K V} {l : List (Stmt K V)} :
    view (after cfg s st l) = upd (view s) none (view (after cfg s st l) none) := by
  funext u
  cases u with
  | none => rw [upd_same]
  | some t => rw [upd_ne _ _ (by simp)]; rfl

/-- Any number of readers and one writer: every call takes effect at one instant between call and return, as an
operation on a map. -/
theorem linearizable_partial (cfg : Cfg K V) (c : Nat) : Lin.Linearizable (sys (T := T) cfg c) obs (obj) := by
  refine Lin.linearizable_of_hindsight (val := rdv) ?_ (fun s => s.gh.abs) view seen ?_ ?_
  · intro x o r h
    cases o <;> cases r <;> simp only [rdv] at h
    exact ⟨h, rfl⟩
  · rintro s ⟨h1, h2, h3⟩
    have h5 : s.op = none := by rw [h1]; rfl
    have h4 : ∀ t, s.rd t = .idle := by intro t; rw [h1]; rfl
    refine ⟨by rw [h2]; rfl, fun t => ?_⟩
    cases t <;> simp [view, h5, h4, RPC.call?, RPC.key?]
  · intro s a s' hr h
    have hi := inv_reach hr
    cases a with
    | begin op al =>
      simp only [sys] at h
      split at h
      · simp only [pstep, Option.map_eq_some_iff] at h
        obtain ⟨p, hp, h⟩ := h
        split at hp
        · next hop =>
          split at hp
          · next l res hpr =>
            cases hp
            subst h
            refine .move none _ (.pend (.inl op)) (by simp [view, hop]) (by simp) ?_ ?_ (by simp [view, hop]) ?_
            · funext u
              cases u with
              | none => simp [view, ghost]
              | some u => rw [upd_ne _ _ (by simp)]; rfl
            · intro th _ hth
              exact Lin.AStar.call' (by simpa [view, hop, Lin.HS.ts] using hth) rfl
            · intro u r h; exact .inl h
          · cases hp
        · cases hp
      · cases h
    | exec =>
      obtain ⟨st, l, hpd, rfl⟩ := step_exec h
      · have hwr := hi.wr
        unfold WI at hwr
        obtain ⟨p, hop⟩ : ∃ p, s.op = some p := by
          cases hop : s.op with
          | none => rw [hop, hpd] at hwr; cases hwr
          | some p => exact ⟨p, rfl⟩
        · obtain ⟨op, res⟩ := p
          have hnr := view_writer s
          have hnr' := view_writer (after cfg s st l)
          change Lin.HStep (obj) rdv s.gh.abs (after cfg s st l).gh.abs (view s) (view (after cfg s st l)) (seen s)
            (seen (after cfg s st l)) none
          rw [hop, hpd] at hwr
          by_cases hc : (gexec cfg (s.maps s.cur) s.gh st).abs = s.gh.abs
          · -- nothing changes
            refine .move none none (view (after cfg s st l) none) (fun o h => absurd h (hnr o))
              (fun o h => absurd h (hnr' o)) view_after ?_ (fun ⟨o, h⟩ => absurd h (hnr o)) seen_after
            intro th _ hth
            refine Lin.AStar.skip ?_
            have : view (after cfg s st l) none = view s none := by
              simp only [view, after, hop]
              by_cases hl : s.lin
              · simp [hl]
              · simp [hl, hc]
            rw [this, ← hth, upd_eq_self]
            congr 1
          · obtain ⟨a, b, h1, ⟨h2, h3, h4⟩ | ⟨h2, h3⟩⟩ := hwr
            · have hb : (gexec cfg (s.maps s.cur) s.gh st).abs = b := by
                rcases h4 with h4 | h4
                · have h5 := h4.2
                  cases l with
                  | nil => exact h5
                  | cons st' l =>
                    rcases h5 with h5 | h5
                    · exact absurd (h5.1.trans h3.symm) hc
                    · exact h5.1
                · have h5 := h4.2
                  cases l with
                  | nil => exact h5
                  | cons st' l => exact h5.1
              refine .move none none (view (after cfg s st l) none) (fun o h => absurd h (hnr o))
                (fun o h => absurd h (hnr' o)) view_after ?_ (fun ⟨o, h⟩ => absurd h (hnr o)) seen_after
              intro th _ hth
              have e1 : view (after cfg s st l) none = .done (.inl res) := by
                simp only [view, after, hop, hc, ne_eq, not_false_eq_true, or_true, if_true]
              have e2 : view s none = .pend (.inl op) := by
                simp only [view, hop, h2, if_false]
              refine Lin.AStar.lin' (t := none) (o := .inl op) (r := Sum.inl res) (x' := (gexec cfg (s.maps s.cur) s.gh st).abs)
                (by rw [e2] at hth; exact hth) ?_ (by rw [e1]; rfl)
              show MSpec s.gh.abs op res _
              rw [h3, hb]; exact h1
            · exfalso
              apply hc
              have h5 := h3.2
              have h6 := h3.1
              simp only at h6
              rw [h6]
              cases l with
              | nil => exact h5
              | cons st' l => exact h5.1
    | fin =>
      simp only [sys, pstep, Option.map_eq_some_iff] at h
      obtain ⟨p, hp, h⟩ := h
      split at hp
      · next p hop hpd =>
        cases hp
        subst h
        obtain ⟨op, res⟩ := p
        have hwr := hi.wr
        unfold WI at hwr
        rw [hop, hpd] at hwr
        obtain ⟨a, b, h1, h2⟩ := hwr
        refine .move none _ .idle (fun o h => absurd h (view_writer s o)) (by simp) ?_ ?_ ?_ (fun u r h => .inl h)
        · funext u
          cases u with
          | none => rfl
          | some u => rw [upd_ne _ _ (by simp)]; rfl
        · intro th _ hth
          simp only [obs, pobs, hop, Option.map_some, Option.toList_some]
          rcases h2 with ⟨h2, h3, h4⟩ | ⟨h2, h3⟩
          · have e2 : view s none = .pend (.inl op) := by simp only [view, hop, h2, if_false]
            rw [e2] at hth
            have hl : Lin.AStar (obj) { x := s.gh.abs, th := th } []
                { x := s.gh.abs, th := upd th none (.done (.inl res)) } :=
              Lin.AStar.lin' (t := none) (o := .inl op) (r := Sum.inl res) (x' := s.gh.abs) hth (by
                show MSpec s.gh.abs op res s.gh.abs
                have h5 : s.gh.abs = b := h4
                rw [h5] at h3 ⊢
                rw [← h3] at h1
                exact h1) rfl
            refine hl.trans (Lin.AStar.ret' (t := none) (r := Sum.inl res) (by simp) ?_)
            congr 1
            funext u
            simp only [upd]
            split <;> rfl
          · have e2 : view s none = .done (.inl res) := by simp only [view, hop, h2, if_true]
            rw [e2] at hth
            exact Lin.AStar.ret' (t := none) (r := Sum.inl res) hth rfl
        · rintro ⟨o, h⟩; exact absurd h (view_writer s o)
      · cases hp
    | call t q =>
      simp only [sys, pstep, Option.map_eq_some_iff] at h
      obtain ⟨p, hp, h⟩ := h
      split at hp
      · next hpc =>
        cases hp
        subst h
        refine .call (some t) (Sum.inr q) (by simp [view, hpc, RPC.call?, RPC.key?]) ?_ rfl ?_ ?_
        · exact view_upd s _ t (.start q) rfl rfl rfl
        · intro u r hu h
          cases u with
          | none => cases h
          | some u =>
            have hu' : u ≠ t := by simpa using hu
            rcases r with r | (_ | v)
            · cases h
            · simpa [seen, ghost, upd_ne _ _ hu'] using h
            · simpa [seen, ghost, upd_ne _ _ hu'] using h
        · intro r h
          rcases r with r | (_ | v)
          · cases h
          · simp [seen, ghost] at h; exact h.symm
          · simp [seen, ghost] at h; exact h.symm
      · cases hp
    | ret t =>
      simp only [sys, pstep, Option.map_eq_some_iff] at h
      obtain ⟨p, hp, h⟩ := h
      split at hp
      · next q o hpc =>
        cases hp
        subst h
        have hrd := hi.rd t
        unfold RI at hrd
        rw [hpc] at hrd
        have he : obs s (.ret t) = some (.ret (some t) (.inr o)) := by simp only [obs, pobs, hpc]
        rw [he]
        refine .ret (some t) (Sum.inr q) (Sum.inr o) (by simp [view, hpc, RPC.call?]) ?_ ?_ rfl (fun u r _ h => h)
        · cases o <;> exact hrd
        · exact view_upd s _ t .idle rfl rfl rfl
      · cases hp
    | next t =>
      simp only [sys, pstep, Option.map_map, Option.map_eq_some_iff] at h
      obtain ⟨pc, hpc, rfl⟩ := h
      have hv : view (ghost cfg s { s.toPSt with rd := upd s.rd t pc } (.next t)) = view s := by
        rw [view_upd s (ghost cfg s { s.toPSt with rd := upd s.rd t pc } (.next t)) t pc rfl rfl rfl, call_rstep hpc]
        exact upd_eq_self (view s) (some t)
      have hnone : rstep cfg s.maps s.cur (s.rd t) ≠ none := by rw [hpc]; simp
      have hrd : ∃ q, view s (some t) = .read (.inr q) := by
        cases hp : s.rd t with
        | idle => rw [hp] at hnone; exact absurd rfl hnone
        | _ => exact ⟨_, by simp only [view, hp, RPC.call?, RPC.key?]; rfl⟩
      obtain ⟨q, hq⟩ := hrd
      refine .move (some t) none (.read (.inr q)) (fun o h => by rw [← h, hq]) (fun o h => by rw [hq, h]) ?_ ?_
        (fun _ => ⟨rfl, rfl⟩) (fun u r h => .inl h)
      · refine hv.trans ?_
        rw [← hq, upd_eq_self]
      · intro th h; exact absurd hq (h _)

end Verif.Ht
