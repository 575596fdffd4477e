import Verif.Misc.Elide
import Verif.Core.Count
import Verif.Core.Spec
import Verif.Core.Tactic

/-!
# Lock elision: sections are serializable (C89)
-/

namespace Verif.Misc.Elide

open Verif Verif.Spec

variable {n : Nat} {g : Cfg}

/-! ## Specification -/

/-- The loads and stores of `l` on data `d`, one after the other: the data then, or nothing if a load returns something else. -/
def run (d : Nat → Nat) : List Op → Option (Nat → Nat)
  | [] => some d
  | .rd x v :: l => if d x = v then run d l else none
  | .wr x v :: l => run (upd d x v) l

/-- The data in memory. -/
def St.data (s : St n) : Nat → Nat := fun x => s.mem (.dat x)

/-- The data as a transaction sees them. -/
def St.view (s : St n) (y : Tx) : Nat → Nat := fun x => y.get s.mem (.dat x)

/-- In a section, with the lock. -/
def St.locked (s : St n) (w : Bool) (t : Fin n) : Prop := s.pc t = .inn w ∨ s.pc t = .ul w

/-- In a section, in a transaction. -/
def St.elided (s : St n) (w : Bool) (t : Fin n) : Prop := s.pc t = .einn w ∨ s.pc t = .eend w

/-- Trylock needs transactions; if read sections are elided, the unlock predicate tells whether the caller is in a transaction. -/
def Cfg.Good (g : Cfg) : Prop := (g.tl = true → g.tm = true) ∧ (g.er = true → g.fx = true)

/-! ## Lists of loads and stores -/

def Op.x : Op → Nat
  | .rd x _ => x
  | .wr x _ => x

@[simp] theorem Op.x_rd (x v : Nat) : (Op.rd x v).x = x := rfl
@[simp] theorem Op.x_wr (x v : Nat) : (Op.wr x v).x = x := rfl

theorem or_rs {a b c : Prop} : (a ∨ b) ∨ c ↔ (c ∨ a) ∨ b := by tauto
theorem or_ws {a b c : Prop} : (a ∨ b) ∨ c ↔ a ∨ c ∨ b := by tauto

theorem ex_snoc (a : List Op) (q : Op) (z : Nat) : (∃ p ∈ a ++ [q], p.x = z) ↔ (∃ p ∈ a, p.x = z) ∨ q.x = z := by
  simp only [List.mem_append, List.mem_singleton, or_and_right, exists_or, exists_eq_left]

theorem run_append (d : Nat → Nat) (a b : List Op) : run d (a ++ b) = (run d a).bind fun e => run e b := by
  induction a generalizing d with
  | nil => rfl
  | cons o a ih => cases o <;> simp only [List.cons_append, run] <;> [split <;> [exact ih d; rfl]; exact ih _]

theorem run_frame {d e o : Nat → Nat} {a : List Op} (h : run d a = some o) (he : ∀ p ∈ a, e p.x = d p.x) :
    ∃ o', run e a = some o' ∧ ∀ y, o' y = if ∃ p ∈ a, p.x = y then o y else e y := by
  induction a generalizing d e with
  | nil => exact ⟨e, rfl, by simp⟩
  | cons p a ih =>
    cases p with
    | rd x v =>
      simp only [run] at h ⊢
      split at h
      · next hx =>
        obtain ⟨o', h1, h2⟩ := ih h fun q hq => he q (by simp [hq])
        have hxe := he (.rd x v) (by simp)
        simp only [Op.x_rd, Op.x_wr] at hxe
        refine ⟨o', by rw [if_pos (by rw [hxe]; exact hx)]; exact h1, fun y => ?_⟩
        rw [h2]
        by_cases hy : ∃ p ∈ a, p.x = y
        · rw [if_pos hy, if_pos (by obtain ⟨p, hp, e⟩ := hy; exact ⟨p, by simp [hp], e⟩)]
        · rw [if_neg hy]
          split
          · next hz =>
            obtain ⟨p, hp, e'⟩ := hz
            rcases List.mem_cons.1 hp with rfl | hp
            · simp only [Op.x_rd, Op.x_wr] at e'
              subst e'
              obtain ⟨o2, h3, h4⟩ := ih (e := d) h fun q _ => rfl
              rw [h] at h3
              cases h3
              have := h4 x
              rw [if_neg hy] at this
              rw [this, hxe]
            · exact absurd ⟨p, hp, e'⟩ hy
          · rfl
      · cases h
    | wr x v =>
      simp only [run] at h ⊢
      obtain ⟨o', h1, h2⟩ := ih (e := upd e x v) h fun q hq => by
        by_cases hx : q.x = x
        · rw [hx, upd_same, upd_same]
        · rw [upd_ne _ _ hx, upd_ne _ _ hx]; exact he q (by simp [hq])
      refine ⟨o', h1, fun y => ?_⟩
      rw [h2]
      by_cases hy : ∃ p ∈ a, p.x = y
      · rw [if_pos hy, if_pos (by obtain ⟨p, hp, e⟩ := hy; exact ⟨p, by simp [hp], e⟩)]
      · rw [if_neg hy]
        by_cases hx : y = x
        · subst hx
          rw [if_pos ⟨.wr y v, by simp, rfl⟩, upd_same]
          obtain ⟨o2, h3, h4⟩ := ih (e := upd d y v) h fun q _ => rfl
          rw [h] at h3
          cases h3
          have := h4 y
          rw [if_neg hy, upd_same] at this
          exact this.symm
        · rw [upd_ne _ _ hx, if_neg]
          rintro ⟨p, hp, e'⟩
          rcases List.mem_cons.1 hp with rfl | hp
          · exact hx e'.symm
          · exact hy ⟨p, hp, e'⟩

/-! ## Invariant -/

/-- has set `writer` -/
@[simp, grind] def PC.own : PC → Bool
  | .wWait | .inn true | .ul true => true
  | _ => false
/-- in a write section, with the lock -/
@[simp, grind] def PC.wcs : PC → Bool
  | .inn true | .ul true => true
  | _ => false
/-- is counted in `n_readers` -/
@[simp, grind] def PC.cnt : PC → Bool
  | .rChk | .rDec | .inn false | .ul false => true
  | _ => false
/-- in a read section, with the lock -/
@[simp, grind] def PC.rcs : PC → Bool
  | .inn false | .ul false => true
  | _ => false
/-- in a transaction -/
@[simp, grind] def PC.el : PC → Bool
  | .chk1 _ | .chk2 _ _ | .einn _ | .eend _ | .eul _ | .leak => true
  | _ => false
/-- in a transaction before the section -/
@[simp, grind] def PC.chk : PC → Bool
  | .chk1 _ | .chk2 _ _ => true
  | _ => false
/-- in a section in a transaction -/
@[simp, grind] def PC.ecs : PC → Bool
  | .einn _ | .eend _ => true
  | _ => false
/-- read section -/
@[simp, grind] def PC.ecsR : PC → Bool
  | .einn false | .eend false => true
  | _ => false
/-- write section in a transaction -/
@[simp, grind] def PC.ecsW : PC → Bool
  | .einn true | .eend true => true
  | _ => false
/-- a reader -/
@[simp, grind] def PC.rdr : PC → Bool
  | .beg m | .chk1 m | .chk2 m _ | .abt m => !m.w
  | .rLoad | .rInc | .rChk | .rDec | .inn false | .ul false | .einn false | .eend false => true
  | _ => false
/-- a reader about to be in a transaction -/
@[simp, grind] def PC.elR : PC → Bool
  | .beg m | .chk1 m | .chk2 m _ | .abt m => !m.w
  | .einn false | .eend false => true
  | _ => false
/-- must not happen -/
@[simp, grind] def PC.bad : PC → Bool
  | .fault | .eul _ | .leak => true
  | _ => false

theorem PC.wcs_rcs {p : PC} (h : p.wcs = true) : p.rcs = false := by
  rcases p with _ | _ | _ | _ | _ | _ | _ | _ | _ | _ | _ | (_ | _) | _ | (_ | _) | _ | _ | _ | _ <;> simp_all

structure Inv (g : Cfg) (s : St n) : Prop where
  uo : ∀ t u, (s.pc t).own = true → (s.pc u).own = true → t = u
  ow : ∀ t, (s.pc t).own = true → s.mem .wr = 1
  rc : s.mem .nr = cnt PC.cnt s.pc
  rw : ∀ t u, (s.pc t).wcs = true → (s.pc u).rcs = false
  nb : ∀ t, (s.pc t).bad = false
  te : ∀ t, (s.tx t).isSome = (s.pc t).el
  tk : ∀ t y, s.tx t = some y → .wr ∉ y.ws ∧ .nr ∉ y.ws
  c0 : ∀ t y, s.tx t = some y → (s.pc t).chk = true → s.ops t = [] ∧ y.ws = [] ∧ ∀ x, .dat x ∉ y.rs
  c1 : ∀ t y m k, s.tx t = some y → s.pc t = .chk2 m k → m.w = true → g.spin = false → .nr ∈ y.rs ∧ s.mem .nr = k
  e1 : ∀ t y, s.tx t = some y → (s.pc t).ecs = true → .wr ∈ y.rs ∧ s.mem .wr = 0
  e2 : ∀ t y, s.tx t = some y → (s.pc t).ecsW = true → g.spin = false → .nr ∈ y.rs ∧ s.mem .nr = 0
  ew : ∀ t y, s.tx t = some y → (s.pc t).ecsR = true → y.ws = []
  sp : g.spin = true → ∀ t, (s.pc t).rdr = false
  sm : g.spin = true → ∀ t y, s.tx t = some y → y.m.w = true
  nf : g.fx = false → ∀ t, (s.pc t).elR = false
  nm : g.fx = false → ∀ t y, s.tx t = some y → y.m.w = true
  hp : run (fun _ => 0) s.hist.flatten = some s.base
  hb : (∀ t, (s.pc t).wcs = false) → s.data = s.base
  hw : ∀ t, (s.pc t).wcs = true → run s.base (s.ops t) = some s.data
  hr : ∀ t, (s.pc t).rcs = true → run s.data (s.ops t) = some s.data
  ht : ∀ t y, s.tx t = some y → (s.pc t).ecs = true → run s.data (s.ops t) = some (s.view y)
  tc : ∀ t y, s.tx t = some y → (s.pc t).ecs = true → ∀ x, (∃ p ∈ s.ops t, p.x = x) ↔ .dat x ∈ y.rs ∨ .dat x ∈ y.ws

/-! ## Steps -/

theorem kill_cases (s : St n) (t : Fin n) (l : List Loc) (u : Fin n) :
    ((s.kill t l).tx u = s.tx u ∧ (s.kill t l).pc u = s.pc u ∧ (s.kill t l).ops u = s.ops u ∧ (u = t ∨ ∀ y, s.tx u = some y → y.hit l = false)) ∨
    (u ≠ t ∧ ∃ y, s.tx u = some y ∧ (s.kill t l).tx u = none ∧ (s.kill t l).pc u = .abt y.m ∧ (s.kill t l).ops u = []) := by
  by_cases hu : u = t
  · left; simp [St.kill, hu]
  · cases hx : s.tx u with
    | none => left; simp [St.kill, hu, hx]
    | some y =>
      cases hh : y.hit l with
      | false =>
        have : Option.filter (fun x : Tx => x.hit l) (some y) = none := by simp [Option.filter, hh]
        left; simp [St.kill, hu, hx, this, hh]
      | true =>
        have : Option.filter (fun x : Tx => x.hit l) (some y) = some y := by simp [Option.filter, hh]
        right; simp [St.kill, hu, hx, this]

theorem kill_mem (s : St n) (t : Fin n) (l : List Loc) : (s.kill t l).mem = s.mem := rfl
theorem kill_hist (s : St n) (t : Fin n) (l : List Loc) : (s.kill t l).hist = s.hist := rfl
theorem kill_base (s : St n) (t : Fin n) (l : List Loc) : (s.kill t l).base = s.base := rfl
theorem kill_data (s : St n) (t : Fin n) (l : List Loc) : (s.kill t l).data = s.data := rfl
theorem kill_view (s : St n) (t : Fin n) (l : List Loc) (y : Tx) : (s.kill t l).view y = s.view y := rfl

theorem Inv.kill {s : St n} (h : Inv g s) (t : Fin n) (l : List Loc) : Inv g (s.kill t l) := by
  have hk := kill_cases s t l
  have hu : ∀ u y, (s.kill t l).tx u = some y → s.tx u = some y ∧ (s.kill t l).pc u = s.pc u ∧ (s.kill t l).ops u = s.ops u := by
    intro u y hy
    rcases hk u with ⟨a, b, c, -⟩ | ⟨-, z, -, b, -⟩
    · exact ⟨a ▸ hy, b, c⟩
    · rw [b] at hy; cases hy
  have hq : ∀ (P : PC → Bool), (∀ m, P (.abt m) = false) → ∀ u, P ((s.kill t l).pc u) = true → P (s.pc u) = true ∧ (s.kill t l).ops u = s.ops u := by
    intro P hP u hp
    rcases hk u with ⟨-, b, c, -⟩ | ⟨-, z, -, -, b, -⟩
    · exact ⟨b ▸ hp, c⟩
    · rw [b, hP] at hp; cases hp
  have hq' : ∀ (P : PC → Bool), (∀ m, P (.abt m) = false) → (∀ p, p.el = true → P p = false) → ∀ u, P ((s.kill t l).pc u) = P (s.pc u) := by
    intro P hP hE u
    rcases hk u with ⟨-, b, c, -⟩ | ⟨-, z, a, -, b, -⟩
    · rw [b]
    · rw [b, hP, hE]; rw [← h.te, a]; rfl
  obtain ⟨uo, ow, rc, rw, nb, te, tk, c0, c1, e1, e2, ew, sp, sm, nf, nm, hp, hb, hw, hr, ht, tc⟩ := h
  have q1 := hq PC.own (fun _ => rfl)
  have q2 := hq PC.wcs (fun _ => rfl)
  have q3 := hq PC.rcs (fun _ => rfl)
  constructor <;> try simp only [kill_mem, kill_hist, kill_base, kill_data, kill_view]
  case uo => exact fun a b ha hb => uo a b (q1 a ha).1 (q1 b hb).1
  case ow => exact fun a ha => ow a (q1 a ha).1
  case rc =>
    rw [rc]
    unfold Verif.cnt
    exact Finset.sum_congr rfl fun u _ => by rw [hq' PC.cnt (fun _ => rfl) (by intro p; cases p <;> simp)]
  case rw =>
    intro a b ha
    have := rw a b (q2 a ha).1
    cases hc : ((s.kill t l).pc b).rcs with
    | false => rfl
    | true => rw [(q3 b hc).1] at this; cases this
  case nb =>
    intro a
    cases hc : ((s.kill t l).pc a).bad with
    | false => rfl
    | true => have := (hq PC.bad (fun _ => rfl) a hc).1; rw [nb] at this; cases this
  case te => intro a; rcases hk a with ⟨b, c, -⟩ | ⟨-, z, -, b, c, -⟩ <;> rw [b, c] <;> [exact te a; rfl]
  case tk => fin hu tk
  case c0 => fin hu c0
  case c1 => fin hu c1
  case e1 => fin hu e1
  case e2 => fin hu e2
  case ew => fin hu ew
  case sp => intro hs a; rcases hk a with ⟨b, c, -⟩ | ⟨-, z, b, -, c, -⟩ <;> rw [c] <;> [exact sp hs a; simp [sm hs a z b]]
  case sm => fin hu sm
  case nf => intro hs a; rcases hk a with ⟨b, c, -⟩ | ⟨-, z, b, -, c, -⟩ <;> rw [c] <;> [exact nf hs a; simp [nm hs a z b]]
  case nm => fin hu nm
  case hp => exact hp
  case hb => intro hc; exact hb fun a => by rw [← hq' PC.wcs (fun _ => rfl) (by intro p; cases p <;> simp)]; exact hc a
  case hw => intro a ha; rw [(q2 a ha).2]; exact hw a (q2 a ha).1
  case hr => intro a ha; rw [(q3 a ha).2]; exact hr a (q3 a ha).1
  case ht => fin hu ht
  case tc => fin hu tc

theorem kill_nohit (s : St n) (t : Fin n) (l : List Loc) (u : Fin n) (y : Tx) (hu : u ≠ t) (hy : (s.kill t l).tx u = some y) : y.hit l = false := by
  rcases kill_cases s t l u with ⟨a, b, c, d⟩ | ⟨-, z, -, b, -⟩
  · exact (d.resolve_left hu) y (a ▸ hy)
  · rw [b] at hy; cases hy

/-- What holds of a transaction. -/
structure TxOk (g : Cfg) (s : St n) (y : Tx) (p : PC) (o : List Op) : Prop where
  tk : .wr ∉ y.ws ∧ .nr ∉ y.ws
  c0 : p.chk = true → o = [] ∧ y.ws = [] ∧ ∀ x, .dat x ∉ y.rs
  c1 : ∀ m k, p = .chk2 m k → m.w = true → g.spin = false → .nr ∈ y.rs ∧ s.mem .nr = k
  e1 : p.ecs = true → .wr ∈ y.rs ∧ s.mem .wr = 0
  e2 : p.ecsW = true → g.spin = false → .nr ∈ y.rs ∧ s.mem .nr = 0
  ew : p.ecsR = true → y.ws = []
  sm : g.spin = true → y.m.w = true
  nm : g.fx = false → y.m.w = true
  ht : p.ecs = true → run s.data o = some (s.view y)
  tc : p.ecs = true → ∀ x, (∃ p ∈ o, p.x = x) ↔ .dat x ∈ y.rs ∨ .dat x ∈ y.ws

theorem Inv.ok {s : St n} (h : Inv g s) {t : Fin n} {y : Tx} (hy : s.tx t = some y) : TxOk g s y (s.pc t) (s.ops t) :=
  ⟨h.tk t y hy, h.c0 t y hy, fun m k => h.c1 t y m k hy, h.e1 t y hy, h.e2 t y hy, h.ew t y hy, fun e => h.sm e t y hy, fun e => h.nm e t y hy, h.ht t y hy, h.tc t y hy⟩

/-- A step of `t` that does not change the data. -/
theorem Inv.loc {s : St n} (h : Inv g s) (t : Fin n) (p : PC) (z : Option Tx) (o : List Op) (mem : Loc → Nat)
    (hm : ∀ x, mem (.dat x) = s.mem (.dat x))
    (hk : ∀ u y, u ≠ t → s.tx u = some y → (.wr ∈ y.rs → mem .wr = s.mem .wr) ∧ (.nr ∈ y.rs → mem .nr = s.mem .nr))
    (ho : p.own = true → mem .wr = 1 ∧ ∀ u, u ≠ t → (s.pc u).own = false)
    (ho' : ∀ u, u ≠ t → (s.pc u).own = true → mem .wr = 1)
    (hc : mem .nr = cnt PC.cnt (upd s.pc t p))
    (hw1 : p.wcs = true → (∀ u, u ≠ t → (s.pc u).rcs = false) ∧ run s.base o = some s.data)
    (hw2 : (s.pc t).wcs = true → p.wcs = false → s.data = s.base)
    (hr1 : p.rcs = true → (∀ u, u ≠ t → (s.pc u).wcs = false) ∧ run s.data o = some s.data)
    (hbad : p.bad = false) (hte : z.isSome = p.el) (hsp : g.spin = true → p.rdr = false) (hnf : g.fx = false → p.elR = false)
    (hz : ∀ y, z = some y → TxOk g { s with mem := mem } y p o) :
    Inv g { s with mem := mem, pc := upd s.pc t p, tx := upd s.tx t z, ops := upd s.ops t o } := by
  have hd : (fun x => mem (.dat x)) = s.data := funext hm
  have hd' : ∀ (pc : Fin n → PC) tx ops, ({ s with mem := mem, pc := pc, tx := tx, ops := ops } : St n).data = s.data := fun _ _ _ => hd
  have hv : ∀ (pc : Fin n → PC) tx ops y, ({ s with mem := mem, pc := pc, tx := tx, ops := ops } : St n).view y = s.view y :=
    fun _ _ _ y => by funext x; simp only [St.view, Tx.get, hm]
  have hz' : ∀ u y, upd s.tx t z u = some y → TxOk g { s with mem := mem } y (upd s.pc t p u) (upd s.ops t o u) := by
    intro u y hy
    by_cases hu : u = t
    · subst hu; rw [upd_same] at hy; rw [upd_same, upd_same]; exact hz y hy
    · rw [upd_ne _ _ hu] at hy; rw [upd_ne _ _ hu, upd_ne _ _ hu]
      have k := h.ok hy
      have q := hk u y hu hy
      obtain ⟨tk, c0, c1, e1, e2, ew, sm, nm, ht, tc⟩ := k
      refine ⟨tk, c0, ?_, ?_, ?_, ew, sm, nm, ?_, tc⟩
      · intro m k a b c; have := c1 m k a b c; exact ⟨this.1, by show mem .nr = k; rw [q.2 this.1]; exact this.2⟩
      · intro a; have := e1 a; exact ⟨this.1, by show mem .wr = 0; rw [q.1 this.1]; exact this.2⟩
      · intro a b; have := e2 a b; exact ⟨this.1, by show mem .nr = 0; rw [q.2 this.1]; exact this.2⟩
      · intro a
        have h1 : ({ s with mem := mem } : St n).data = s.data := hd
        have h2 : ({ s with mem := mem } : St n).view y = s.view y := by funext x; simp only [St.view, Tx.get, hm]
        rw [h1, h2]; exact ht a
  obtain ⟨uo, ow, rc, rw, nb, te, tk, c0, c1, e1, e2, ew, sp, sm, nf, nm, hp, hb, hw, hr, ht, tc⟩ := h
  constructor <;> try simp only [hd', hv]
  case uo => keep ho uo; intro a b; simp only [upd_apply]; split <;> split <;> grind
  case ow => keep ho ho'; intro a; simp only [upd_apply]; split <;> grind
  case rc => exact hc
  case rw => keep rw hw1 hr1; intro a b; simp only [upd_apply]; split <;> split <;> intro q <;> [exact PC.wcs_rcs q; grind; (cases hc : p.rcs <;> grind); grind]
  case nb => keep nb hbad; intro a; simp only [upd_apply]; split <;> grind
  case te => keep te hte; intro a; simp only [upd_apply]; split <;> grind
  case tk => exact fun a y hy => (hz' a y hy).tk
  case c0 => exact fun a y hy => (hz' a y hy).c0
  case c1 => exact fun a y m k hy => (hz' a y hy).c1 m k
  case e1 => exact fun a y hy => (hz' a y hy).e1
  case e2 => exact fun a y hy => (hz' a y hy).e2
  case ew => exact fun a y hy => (hz' a y hy).ew
  case sp => keep sp hsp; intro e a; simp only [upd_apply]; split <;> grind
  case sm => exact fun e a y hy => (hz' a y hy).sm e
  case nf => keep nf hnf; intro e a; simp only [upd_apply]; split <;> grind
  case nm => exact fun e a y hy => (hz' a y hy).nm e
  case hp => exact hp
  case hb =>
    intro q
    cases hq : (s.pc t).wcs with
    | true => exact hw2 hq (by have := q t; rwa [upd_same] at this)
    | false => 
      refine hb fun u => ?_
      by_cases hu : u = t
      · rw [hu]; exact hq
      · have := q u; rwa [upd_ne _ _ hu] at this
  case hw => keep hw hw1; intro a; simp only [upd_apply]; split <;> grind
  case hr => keep hr hr1; intro a; simp only [upd_apply]; split <;> grind
  case ht =>
    intro a y hy q
    have := (hz' a y hy).ht q
    have h1 : ({ s with mem := mem } : St n).data = s.data := hd
    have h2 : ({ s with mem := mem } : St n).view y = s.view y := by funext x; simp only [St.view, Tx.get, hm]
    rwa [h1, h2] at this
  case tc => exact fun a y hy => (hz' a y hy).tc

/-- A step of `t` that does not change memory. -/
theorem Inv.loc0 {s : St n} (h : Inv g s) (t : Fin n) (p : PC) (z : Option Tx) (o : List Op)
    (ho : p.own = (s.pc t).own) (hc : p.cnt = (s.pc t).cnt)
    (hw1 : p.wcs = true → (∀ u, u ≠ t → (s.pc u).rcs = false) ∧ run s.base o = some s.data)
    (hw2 : (s.pc t).wcs = true → p.wcs = true)
    (hr1 : p.rcs = true → (∀ u, u ≠ t → (s.pc u).wcs = false) ∧ run s.data o = some s.data)
    (hbad : p.bad = false) (hte : z.isSome = p.el) (hsp : g.spin = true → p.rdr = false) (hnf : g.fx = false → p.elR = false)
    (hz : ∀ y, z = some y → TxOk g s y p o) :
    Inv g { s with pc := upd s.pc t p, tx := upd s.tx t z, ops := upd s.ops t o } :=
  h.loc t p z o s.mem (fun _ => rfl) (fun _ _ _ _ => ⟨fun _ => rfl, fun _ => rfl⟩)
    (fun q => ⟨h.ow t (ho ▸ q), fun u hu => by
      cases e : (s.pc u).own with
      | false => rfl
      | true => exact absurd (h.uo u t e (ho ▸ q)) hu⟩)
    (fun u _ q => h.ow u q)
    (by rw [cnt_upd, hc, h.rc, Nat.add_sub_cancel])
    hw1 (fun a b => by rw [hw2 a] at b; cases b) hr1 hbad hte hsp hnf hz

/-- The same, outside of the sections, with neither transaction nor bookkeeping. -/
theorem Inv.go {s : St n} (h : Inv g s) (t : Fin n) (p : PC) (hel : (s.pc t).el = false)
    (ho : p.own = (s.pc t).own) (hc : p.cnt = (s.pc t).cnt) (hw : p.wcs = (s.pc t).wcs) (hr : p.rcs = (s.pc t).rcs)
    (hbad : p.bad = false) (hte : p.el = false) (hsp : g.spin = true → p.rdr = false) (hnf : g.fx = false → p.elR = false) :
    Inv g (s.go t p) := by
  have hz : s.tx t = none := by have := h.te t; rw [hel] at this; simpa using this
  have := h.loc0 t p (s.tx t) (s.ops t) ho hc
    (fun q => ⟨fun u _ => h.rw t u (hw ▸ q), h.hw t (hw ▸ q)⟩) (fun q => hw.trans q)
    (fun q => ⟨fun u _ => (by
      cases e : (s.pc u).wcs with
      | false => rfl
      | true => have := h.rw u t e; rw [← hr, q] at this; cases this), h.hr t (hr ▸ q)⟩)
    hbad (by rw [hz, hte]; rfl) hsp hnf (fun y e => by rw [hz] at e; cases e)
  rw [upd_eq_self, upd_eq_self] at this
  exact this

theorem Inv.tx_none {s : St n} (h : Inv g s) {t : Fin n} (hel : (s.pc t).el = false) : s.tx t = none := by
  have := h.te t; rw [hel] at this; simpa using this

theorem Inv.no_own {s : St n} (h : Inv g s) (e : s.mem .wr = 0) (t : Fin n) : (s.pc t).own = false := by
  cases q : (s.pc t).own with
  | false => rfl
  | true => have := h.ow t q; omega

theorem PC.wcs_own {p : PC} (h : p.own = false) : p.wcs = false := by
  rcases p with _ | _ | _ | _ | _ | _ | _ | _ | _ | _ | _ | (_ | _) | _ | (_ | _) | _ | _ | _ | _ <;> simp_all

theorem PC.rcs_cnt {p : PC} (h : p.cnt = false) : p.rcs = false := by
  rcases p with _ | _ | _ | _ | _ | _ | _ | _ | _ | _ | _ | (_ | _) | _ | (_ | _) | _ | _ | _ | _ <;> simp_all

theorem Inv.no_rcs {s : St n} (h : Inv g s) (e : s.mem .nr = 0) (t : Fin n) : (s.pc t).rcs = false :=
  PC.rcs_cnt (cnt_eq_zero (h.rc ▸ e) t)

/-- A store of the lock word by `t`, not in a transaction. -/
theorem Inv.putw {s : St n} (h : Inv g s) (t : Fin n) (p : PC) (o : List Op) (l : Loc) (v : Nat) (hel : (s.pc t).el = false) (hl : ∀ x, l ≠ .dat x)
    (ho : p.own = true → upd s.mem l v .wr = 1 ∧ ∀ u, u ≠ t → (s.pc u).own = false)
    (ho' : ∀ u, u ≠ t → (s.pc u).own = true → upd s.mem l v .wr = 1)
    (hc : upd s.mem l v .nr = cnt PC.cnt (upd s.pc t p))
    (hw1 : p.wcs = true → (∀ u, u ≠ t → (s.pc u).rcs = false) ∧ run s.base o = some s.data)
    (hw2 : (s.pc t).wcs = true → p.wcs = false → s.data = s.base)
    (hr1 : p.rcs = true → (∀ u, u ≠ t → (s.pc u).wcs = false) ∧ run s.data o = some s.data)
    (hbad : p.bad = false) (hte : p.el = false) (hsp : g.spin = true → p.rdr = false) (hnf : g.fx = false → p.elR = false) :
    Inv g { s.put t l v with pc := upd (s.put t l v).pc t p, ops := upd (s.put t l v).ops t o } := by
  have hk := h.kill t [l]
  have hq' : ∀ (P : PC → Bool), (∀ m, P (.abt m) = false) → (∀ p, p.el = true → P p = false) → ∀ u, P ((s.kill t [l]).pc u) = P (s.pc u) := by
    intro P hP hE u
    rcases kill_cases s t [l] u with ⟨-, b, c, -⟩ | ⟨-, z, a, -, b, -⟩
    · rw [b]
    · rw [b, hP, hE]; rw [← h.te, a]; rfl
  have q1 := hq' PC.own (fun _ => rfl) (by intro p; cases p <;> simp)
  have q2 := hq' PC.wcs (fun _ => rfl) (by intro p; cases p <;> simp)
  have q3 := hq' PC.rcs (fun _ => rfl) (by intro p; cases p <;> simp)
  have q4 := hq' PC.cnt (fun _ => rfl) (by intro p; cases p <;> simp)
  have hx : (s.kill t [l]).tx t = none := by
    rcases kill_cases s t [l] t with ⟨a, -⟩ | ⟨a, -⟩
    · rw [a]; exact h.tx_none hel
    · exact absurd rfl a
  have := hk.loc t p none o (upd s.mem l v)
    (fun x => upd_ne _ _ (fun e => hl x e.symm))
    (fun u y hu hy => by
      have := kill_nohit s t [l] u y hu hy
      simp only [Tx.hit, List.any_cons, List.any_nil, Bool.or_false, decide_eq_false_iff_not, not_or] at this
      exact ⟨fun e => upd_ne _ _ (fun e' => this.1 (e' ▸ e)), fun e => upd_ne _ _ (fun e' => this.1 (e' ▸ e))⟩)
    (fun q => ⟨(ho q).1, fun u hu => by rw [q1]; exact (ho q).2 u hu⟩)
    (fun u hu q => ho' u hu (by rwa [q1] at q))
    (by
      rw [hc]
      unfold Verif.cnt
      refine Finset.sum_congr rfl fun u _ => ?_
      by_cases hu : u = t
      · rw [hu, upd_same, upd_same]
      · rw [upd_ne _ _ hu, upd_ne _ _ hu, q4])
    (fun q => ⟨fun u hu => by rw [q3]; exact (hw1 q).1 u hu, (hw1 q).2⟩)
    (fun q => hw2 (by rwa [q2] at q))
    (fun q => ⟨fun u hu => by rw [q2]; exact (hr1 q).1 u hu, (hr1 q).2⟩)
    hbad (by rw [hte]; rfl) hsp hnf (fun y e => by cases e)
  rw [← hx, upd_eq_self] at this
  exact this

theorem Inv.init : Inv g (initSt n) := by
  constructor <;> simp [initSt, run, St.data, Verif.cnt]
  exact funext fun _ => rfl

theorem lockPC_own (w : Bool) : (lockPC w).own = false := by cases w <;> rfl
theorem lockPC_cnt (w : Bool) : (lockPC w).cnt = false := by cases w <;> rfl
theorem lockPC_wcs (w : Bool) : (lockPC w).wcs = false := by cases w <;> rfl
theorem lockPC_rcs (w : Bool) : (lockPC w).rcs = false := by cases w <;> rfl
theorem lockPC_bad (w : Bool) : (lockPC w).bad = false := by cases w <;> rfl
theorem lockPC_el (w : Bool) : (lockPC w).el = false := by cases w <;> rfl
theorem lockPC_rdr (w : Bool) : (lockPC w).rdr = !w := by cases w <;> rfl
theorem lockPC_elR (w : Bool) : (lockPC w).elR = false := by cases w <;> rfl

theorem Inv.lockPC {s : St n} (h : Inv g s) (t : Fin n) (w : Bool) (hel : (s.pc t).el = false)
    (ho : (s.pc t).own = false) (hc : (s.pc t).cnt = false) (hw : (s.pc t).wcs = false) (hr : (s.pc t).rcs = false) (hsp : g.spin = true → w = true) :
    Inv g (s.go t (lockPC w)) :=
  h.go t _ hel (by rw [ho, lockPC_own]) (by rw [hc, lockPC_cnt]) (by rw [hw, lockPC_wcs]) (by rw [hr, lockPC_rcs]) (lockPC_bad w) (lockPC_el w)
    (fun e => by rw [lockPC_rdr, hsp e]; rfl) (fun _ => lockPC_elR w)

theorem Inv.step_call (hg : g.Good) {s s' : St n} (h : Inv g s) {t : Fin n} {m : Mode} {d : Bool} (hs : step g s (.call t m d) = some s') : Inv g s' := by
  obtain ⟨hg1, hg2⟩ := hg
  unfold step at hs
  simp only at hs
  split at hs
  case isFalse => cases hs
  rename_i hq
  obtain ⟨hi, htl, hsp⟩ := hq
  split at hs
  · split at hs
    · cases hs; exact h.lockPC t _ (by rw [hi]; rfl) (by rw [hi]; rfl) (by rw [hi]; rfl) (by rw [hi]; rfl) (by rw [hi]; rfl) hsp
    · split at hs
      · cases hs
      · next hn =>
        cases hs
        refine h.go t _ (by rw [hi]; rfl) (by rw [hi]; rfl) (by rw [hi]; rfl) (by rw [hi]; rfl) (by rw [hi]; rfl) rfl rfl ?_ ?_
        · intro e; simp [hsp e]
        · intro e
          cases hw : m.w with
          | true => simp [hw]
          | false =>
            cases he : g.er with
            | false => exact absurd ⟨hw, he⟩ hn
            | true => rw [hg2 he] at e; cases e
  · next htm =>
    split at hs
    · next hx => exact absurd (hg1 (htl hx)) htm
    · cases hs; exact h.lockPC t _ (by rw [hi]; rfl) (by rw [hi]; rfl) (by rw [hi]; rfl) (by rw [hi]; rfl) (by rw [hi]; rfl) hsp

theorem Inv.step_begin {s s' : St n} (h : Inv g s) {t : Fin n} {ok : Bool} (hs : step g s (.begin t ok) = some s') : Inv g s' := by
  unfold step at hs
  simp only at hs
  split at hs
  case h_2 => cases hs
  rename_i m hi
  have h1 := fun e => h.sp e t
  have h2 := fun e => h.nf e t
  rw [hi] at h1 h2
  simp only [PC.rdr, PC.elR, Bool.not_eq_false'] at h1 h2
  split at hs
  · cases hs
    split
    · next hc =>
      exact h.loc0 t (.chk1 m) _ _ (by rw [hi]; rfl) (by rw [hi]; rfl) (by simp) (by simp [hi]) (by simp) rfl rfl (by simpa using h1) (by simpa using h2)
        (by rintro y ⟨⟩; constructor <;> simp_all)
    · next hc =>
      exact h.loc0 t (.chk2 m 0) _ _ (by rw [hi]; rfl) (by rw [hi]; rfl) (by simp) (by simp [hi]) (by simp) rfl rfl (by simpa using h1) (by simpa using h2)
        (by rintro y ⟨⟩; constructor <;> simp_all)
  · cases hs
    exact h.go t _ (by rw [hi]; rfl) (by rw [hi]; rfl) (by rw [hi]; rfl) (by rw [hi]; rfl) (by rw [hi]; rfl) rfl rfl (by simpa using h1) (by simpa using h2)

theorem Inv.step_check1 {s s' : St n} (h : Inv g s) {t : Fin n} (hs : step g s (.check1 t) = some s') : Inv g s' := by
  unfold step at hs
  simp only at hs
  split at hs
  case h_2 => cases hs
  rename_i m y hi hy
  have h1 := fun e => h.sp e t
  have h2 := fun e => h.nf e t
  have k := h.ok hy
  rw [hi] at h1 h2 k
  simp only [PC.rdr, PC.elR, Bool.not_eq_false'] at h1 h2
  cases hs
  have := h.loc0 t (.chk2 m (y.get s.mem .nr)) (some { y with rs := .nr :: y.rs }) (s.ops t) (by rw [hi]; rfl) (by rw [hi]; rfl) (by simp) (by simp [hi]) (by simp) rfl rfl (by simpa using h1) (by simpa using h2)
        (by
          obtain ⟨tk, c0, c1, e1, e2, ew, sm, nm, ht, tc⟩ := k
          rintro _ ⟨⟩; constructor <;> simp_all [Tx.get])
  rw [upd_eq_self] at this
  exact this

theorem Inv.step_check2 {s s' : St n} (h : Inv g s) {t : Fin n} (hs : step g s (.check2 t) = some s') : Inv g s' := by
  unfold step at hs
  simp only at hs
  split at hs
  case h_2 => cases hs
  rename_i m j y hi hy
  have h1 := fun e => h.sp e t
  have h2 := fun e => h.nf e t
  have k := h.ok hy
  rw [hi] at h1 h2 k
  simp only [PC.rdr, PC.elR, Bool.not_eq_false'] at h1 h2
  split at hs
  · next hc =>
    cases hs
    obtain ⟨tk, c0, c1, e1, e2, ew, sm, nm, ht, tc⟩ := k
    obtain ⟨c01, c02, c03⟩ := c0 rfl
    have := h.loc0 t (.einn m.w) (some { y with rs := .wr :: y.rs }) (s.ops t) (by rw [hi]; rfl) (by rw [hi]; rfl) (by simp) (by simp [hi]) (by simp) rfl rfl
        (by intro e; simp [h1 e]) (by intro e; simp [h2 e])
        (by
          rintro _ ⟨⟩
          constructor
          · exact tk
          · simp
          · simp
          · simp_all [Tx.get]
          · cases hm : m.w with
            | false => simp
            | true => intro _ e; have := c1 m j rfl hm e; exact ⟨by simp [this.1], by rw [this.2]; exact hc.1⟩
          · intro _; exact c02
          · exact sm
          · exact nm
          · intro _; rw [c01]; simp only [run, Option.some.injEq]; funext x; simp [St.view, Tx.get, St.data, c02]
          · intro _ x; simp [c01, c02, c03])
    rw [upd_eq_self] at this
    exact this
  · cases hs
    exact h.loc0 t (.abt m) none [] (by rw [hi]; rfl) (by rw [hi]; rfl) (by simp) (by simp [hi]) (by simp) rfl rfl (by simpa using h1) (by simpa using h2) (by simp)

theorem Inv.step_abt {s s' : St n} (h : Inv g s) {t : Fin n} (hs : step g s (.again t) = some s' ∨ step g s (.fall t) = some s') : Inv g s' := by
  unfold step at hs
  simp only at hs
  have : ∃ m, s.pc t = .abt m := by
    rcases hs with hs | hs <;> split at hs <;> first | exact ⟨_, ‹_›⟩ | cases hs
  obtain ⟨m, hi⟩ := this
  have h1 := fun e => h.sp e t
  have h2 := fun e => h.nf e t
  rw [hi] at h1 h2 hs
  simp only [PC.rdr, PC.elR, Bool.not_eq_false'] at h1 h2
  simp only [Option.some.injEq] at hs
  rcases hs with rfl | rfl <;> split
  · exact h.go t _ (by rw [hi]; rfl) (by rw [hi]; rfl) (by rw [hi]; rfl) (by rw [hi]; rfl) (by rw [hi]; rfl) rfl rfl (by simp) (by simp)
  · exact h.go t _ (by rw [hi]; rfl) (by rw [hi]; rfl) (by rw [hi]; rfl) (by rw [hi]; rfl) (by rw [hi]; rfl) rfl rfl (by simpa using h1) (by simpa using h2)
  · exact h.go t _ (by rw [hi]; rfl) (by rw [hi]; rfl) (by rw [hi]; rfl) (by rw [hi]; rfl) (by rw [hi]; rfl) rfl rfl (by simp) (by simp)
  · exact h.lockPC t _ (by rw [hi]; rfl) (by rw [hi]; rfl) (by rw [hi]; rfl) (by rw [hi]; rfl) (by rw [hi]; rfl) h1

theorem Inv.step_abort {s s' : St n} (h : Inv g s) {t : Fin n} (hs : step g s (.abort t) = some s') : Inv g s' := by
  unfold step at hs
  simp only at hs
  split at hs
  case h_2 => cases hs
  rename_i y hy
  have k := h.ok hy
  have hel : (s.pc t).el = true := by rw [← h.te, hy]; rfl
  cases hs
  have a1 : (s.pc t).own = false := by revert hel; cases s.pc t <;> simp
  have a2 : (s.pc t).cnt = false := by revert hel; cases s.pc t <;> simp
  have a3 : (s.pc t).wcs = false := PC.wcs_own a1
  exact h.loc0 t (.abt y.m) none [] (by rw [a1]; rfl) (by rw [a2]; rfl) (by simp) (fun e => by rw [a3] at e; cases e) (by simp) rfl rfl (fun e => by simp [k.sm e]) (fun e => by simp [k.nm e]) (by simp)

theorem put_pc (s : St n) (t : Fin n) (l : Loc) (v : Nat) : (s.put t l v).pc t = s.pc t := by
  rcases kill_cases s t [l] t with ⟨-, a, -⟩ | ⟨a, -⟩
  · exact a
  · exact absurd rfl a

theorem PC.rcs_rdr {p : PC} (h : p.rdr = false) : p.rcs = false := by
  rcases p with _ | _ | _ | _ | _ | _ | _ | _ | _ | _ | _ | (_ | _) | _ | (_ | _) | _ | _ | _ | _ <;> simp_all

/-- `putw` with the bookkeeping unchanged. -/
theorem Inv.putg {s : St n} (h : Inv g s) (t : Fin n) (p : PC) (l : Loc) (v : Nat) (hel : (s.pc t).el = false) (hl : ∀ x, l ≠ .dat x)
    (ho : p.own = true → upd s.mem l v .wr = 1 ∧ ∀ u, u ≠ t → (s.pc u).own = false)
    (ho' : ∀ u, u ≠ t → (s.pc u).own = true → upd s.mem l v .wr = 1)
    (hc : upd s.mem l v .nr = cnt PC.cnt (upd s.pc t p))
    (hw1 : p.wcs = false) (hw2 : (s.pc t).wcs = false) (hr1 : p.rcs = false)
    (hbad : p.bad = false) (hte : p.el = false) (hsp : g.spin = true → p.rdr = false) (hnf : g.fx = false → p.elR = false) :
    Inv g ((s.put t l v).go t p) := by
  have := h.putw t p ((s.put t l v).ops t) l v hel hl ho ho' hc (fun e => by rw [hw1] at e; cases e) (fun e => by rw [hw2] at e; cases e) (fun e => by rw [hr1] at e; cases e) hbad hte hsp hnf
  rw [upd_eq_self] at this
  exact this

theorem Inv.step_lock {s s' : St n} (h : Inv g s) {t : Fin n} (hs : step g s (.lock t) = some s') : Inv g s' := by
  unfold step at hs
  simp only at hs
  split at hs
  · next hi =>
    split at hs
    · next hm =>
      have no := h.no_own hm
      split at hs
      · next hg =>
        cases hs
        refine h.putw t _ _ .wr 1 (by rw [hi]; rfl) (by simp) (fun _ => ⟨upd_same _ _ _, fun u _ => no u⟩) (fun u _ e => by rw [no u] at e; cases e) ?_ ?_ ?_ ?_ rfl rfl ?_ ?_
        · rw [upd_ne _ _ (by simp), cnt_upd, hi, h.rc]; simp
        · intro _
          refine ⟨fun u _ => PC.rcs_rdr (h.sp hg u), ?_⟩
          rw [h.hb fun u => PC.wcs_own (no u)]; rfl
        · simp [hi]
        · simp
        · simp
        · simp
      · cases hs
        refine h.putg t _ .wr 1 (by rw [hi]; rfl) (by simp) (fun _ => ⟨upd_same _ _ _, fun u _ => no u⟩) (fun u _ e => by rw [no u] at e; cases e) ?_ rfl (by rw [hi]; rfl) rfl rfl rfl (by simp) (by simp)
        rw [upd_ne _ _ (by simp), cnt_upd, hi, h.rc]; simp
    · cases hs
      have := h.putg t .wFas .wr 1 (by rw [hi]; rfl) (by simp) (by simp) (fun u _ e => upd_same _ _ _)
        (by rw [upd_ne _ _ (by simp), cnt_upd, hi, h.rc]; simp) rfl (by rw [hi]; rfl) rfl rfl rfl (by simp) (by simp)
      have e : (s.put t .wr 1).go t .wFas = s.put t .wr 1 := by
        have : upd (s.put t .wr 1).pc t .wFas = (s.put t .wr 1).pc := by
          conv_lhs => rw [← hi, ← put_pc s t .wr 1]
          exact upd_eq_self _ _
        simp only [St.go, this]
      rwa [e] at this
  · next hi =>
    split at hs
    · next hm =>
      cases hs
      have hx := h.tx_none (t := t) (by rw [hi]; rfl)
      have := h.loc0 t (.inn true) none [] (by rw [hi]; rfl) (by rw [hi]; rfl)
        (fun _ => ⟨fun u _ => h.no_rcs hm u, by
          rw [h.hb fun u => ?_]; rfl
          by_cases hu : u = t
          · rw [hu, hi]; rfl
          · refine PC.wcs_own ?_
            cases e : (s.pc u).own with
            | false => rfl
            | true => exact absurd (h.uo u t e (by rw [hi]; rfl)) hu⟩) (by simp) (by simp) rfl rfl (by simp) (by simp) (by simp)
      rw [← hx, upd_eq_self] at this
      exact this
    · cases hs; exact h
  · next hi =>
    have h1 := fun e => h.sp e t
    rw [hi] at h1
    split at hs
    · cases hs
      exact h.go t _ (by rw [hi]; rfl) (by rw [hi]; rfl) (by rw [hi]; rfl) (by rw [hi]; rfl) (by rw [hi]; rfl) rfl rfl h1 (by simp)
    · cases hs; exact h
  · next hi =>
    have h1 := fun e => h.sp e t
    rw [hi] at h1
    cases hs
    refine h.putg t _ .nr _ (by rw [hi]; rfl) (by simp) (by simp) (fun u _ e => by rw [upd_ne _ _ (by simp)]; exact h.ow u e) ?_ rfl (by rw [hi]; rfl) rfl rfl rfl h1 (by simp)
    rw [upd_same, cnt_upd, hi, h.rc]; simp
  · next hi =>
    have h1 := fun e => h.sp e t
    rw [hi] at h1
    split at hs
    · next hm =>
      cases hs
      have hx := h.tx_none (t := t) (by rw [hi]; rfl)
      have := h.loc0 t (.inn false) none [] (by rw [hi]; rfl) (by rw [hi]; rfl) (by simp) (by simp [hi])
        (fun _ => ⟨fun u _ => PC.wcs_own (h.no_own hm u), rfl⟩) rfl rfl h1 (by simp) (by simp)
      rw [← hx, upd_eq_self] at this
      exact this
    · cases hs
      exact h.go t _ (by rw [hi]; rfl) (by rw [hi]; rfl) (by rw [hi]; rfl) (by rw [hi]; rfl) (by rw [hi]; rfl) rfl rfl h1 (by simp)
  · next hi =>
    have h1 := fun e => h.sp e t
    rw [hi] at h1
    cases hs
    refine h.putg t _ .nr _ (by rw [hi]; rfl) (by simp) (by simp) (fun u _ e => by rw [upd_ne _ _ (by simp)]; exact h.ow u e) ?_ rfl (by rw [hi]; rfl) rfl rfl rfl h1 (by simp)
    rw [upd_same, cnt_upd, hi, h.rc]; simp
  · cases hs

theorem run_snoc_rd {d e : Nat → Nat} {a : List Op} (h : run d a = some e) (x : Nat) : run d (a ++ [.rd x (e x)]) = some e := by
  rw [run_append, h]; simp [run]

theorem run_snoc_wr {d e : Nat → Nat} {a : List Op} (h : run d a = some e) (x v : Nat) : run d (a ++ [.wr x v]) = some (upd e x v) := by
  rw [run_append, h]; simp [run]

theorem Inv.step_read {s s' : St n} (h : Inv g s) {t : Fin n} {x : Nat} (hs : step g s (.read t x) = some s') : Inv g s' := by
  unfold step at hs
  simp only at hs
  split at hs
  · next w hi =>
    have hx := h.tx_none (t := t) (by rw [hi]; rfl)
    have h1 := fun e => h.sp e t
    rw [hi] at h1
    cases hs
    have := h.loc0 t (.inn w) none (s.ops t ++ [.rd x (s.mem (.dat x))]) (by rw [hi]) (by rw [hi])
      (fun e => ⟨fun u _ => h.rw t u (by rw [hi]; exact e), run_snoc_rd (h.hw t (by rw [hi]; exact e)) x⟩)
      (by simp [hi])
      (fun e => ⟨fun u _ => (by
        cases q : (s.pc u).wcs with
        | false => rfl
        | true => have := h.rw u t q; rw [hi, e] at this; cases this), run_snoc_rd (h.hr t (by rw [hi]; exact e)) x⟩)
      rfl rfl h1 (by simp) (by simp)
    rw [← hx, ← hi, upd_eq_self, upd_eq_self] at this
    exact this
  · next w hi =>
    split at hs
    · next y hy =>
      have k := h.ok hy
      have h1 := fun e => h.sp e t
      have h2 := fun e => h.nf e t
      rw [hi] at h1 h2 k
      cases hs
      have := h.loc0 t (.einn w) (some { y with rs := .dat x :: y.rs }) (s.ops t ++ [.rd x (y.get s.mem (.dat x))]) (by rw [hi]) (by rw [hi]) (by simp) (by simp [hi]) (by simp) rfl rfl h1 h2
        (by
          obtain ⟨tk, c0, c1, e1, e2, ew, sm, nm, ht, tc⟩ := k
          rintro _ ⟨⟩
          refine ⟨tk, by simp, by simp, fun e => ?_, fun e e' => ?_, ew, sm, nm, fun e => ?_, fun e z => ?_⟩
          · exact ⟨by simp [(e1 e).1], (e1 e).2⟩
          · exact ⟨by simp [(e2 e e').1], (e2 e e').2⟩
          · exact run_snoc_rd (ht e) x
          · rw [ex_snoc, tc e z]
            simp only [List.mem_cons, Op.x_rd, Loc.dat.injEq, eq_comm (a := x)]
            exact or_rs)
      rw [← hi, upd_eq_self] at this
      exact this
    · cases hs
  · cases hs

theorem Inv.step_write {s s' : St n} (h : Inv g s) {t : Fin n} {x v : Nat} (hs : step g s (.write t x v) = some s') : Inv g s' := by
  unfold step at hs
  simp only at hs
  split at hs
  · next hi =>
    cases hs
    have k := h.kill t [.dat x]
    have hpc : (s.kill t [.dat x]).pc t = .inn true := (put_pc s t (.dat x) v).trans hi
    have hops : (s.kill t [.dat x]).ops t = s.ops t := by
      rcases kill_cases s t [.dat x] t with ⟨-, -, a, -⟩ | ⟨a, -⟩
      · exact a
      · exact absurd rfl a
    have hsh : s.put t (.dat x) v = { s.kill t [.dat x] with mem := upd (s.kill t [.dat x]).mem (.dat x) v } := rfl
    rw [hsh, ← hops]
    generalize s.kill t [.dat x] = r at k hpc
    have hm1 : upd r.mem (.dat x) v .wr = r.mem .wr := upd_ne _ _ (by simp)
    have hm2 : upd r.mem (.dat x) v .nr = r.mem .nr := upd_ne _ _ (by simp)
    have hw1 : r.mem .wr = 1 := k.ow t (by rw [hpc]; rfl)
    have hne : ∀ u y, r.tx u = some y → (r.pc u).ecs = true → False := by
      intro u y hy e
      have := (k.e1 u y hy e).2
      omega
    obtain ⟨uo, ow, rc, rw, nb, te, tk, c0, c1, e1, e2, ew, sp, sm, nf, nm, hp, hb, hw, hr, ht, tc⟩ := k
    constructor <;> try simp only [hm1, hm2]
    case hb => intro q; have := q t; rw [hpc] at this; cases this
    case hw =>
      intro u hu
      obtain rfl : u = t := uo u t (by
        cases q : (r.pc u).own with
        | true => rfl
        | false => rw [PC.wcs_own q] at hu; cases hu) (by rw [hpc]; rfl)
      rw [upd_same, run_snoc_wr (hw u hu)]
      congr 1
      funext z
      simp only [St.data, upd_apply, Loc.dat.injEq]
    case hr => intro u hu; rw [rw t u (by rw [hpc]; rfl)] at hu; cases hu
    case ht => intro u y hy e; exact (hne u y hy e).elim
    case tc => intro u y hy e; exact (hne u y hy e).elim
    case c0 =>
      intro u y hy e
      by_cases hu : u = t
      · subst hu; rw [hpc] at e; cases e
      · rw [upd_ne _ _ hu]; exact c0 u y hy e
    all_goals assumption
  · next hi =>
    split at hs
    · next y hy =>
      have k := h.ok hy
      have h1 := fun e => h.sp e t
      have h2 := fun e => h.nf e t
      rw [hi] at h1 h2 k
      cases hs
      have := h.loc0 t (.einn true) (some { y with ws := .dat x :: y.ws, vw := upd y.vw (.dat x) v }) (s.ops t ++ [.wr x v]) (by rw [hi]) (by rw [hi]) (by simp) (by simp [hi]) (by simp) rfl rfl h1 h2
        (by
          obtain ⟨tk, c0, c1, e1, e2, ew, sm, nm, ht, tc⟩ := k
          rintro _ ⟨⟩
          refine ⟨by simp [tk.1, tk.2], by simp, by simp, e1, e2, by simp, sm, nm, fun e => ?_, fun e z => ?_⟩
          · rw [run_snoc_wr (ht e) x v]
            congr 1
            funext z
            simp only [St.view, Tx.get, upd_apply, List.mem_cons, Loc.dat.injEq]
            by_cases hz : z = x <;> simp [hz]
          · rw [ex_snoc, tc e z]
            simp only [List.mem_cons, Op.x_wr, Loc.dat.injEq, eq_comm (a := x)]
            exact or_ws)
      rw [← hi, upd_eq_self] at this
      exact this
    · cases hs
  · cases hs

theorem Inv.step_unlock {s s' : St n} (h : Inv g s) {t : Fin n} (hs : step g s (.unlock t) = some s') : Inv g s' := by
  unfold step at hs
  simp only at hs
  split at hs
  · next w hi =>
    have h1 := fun e => h.sp e t
    rw [hi] at h1
    have hgo : Inv g (s.go t (.ul w)) := by
      refine h.go t _ (by rw [hi]; rfl) (by rw [hi]; cases w <;> rfl) (by rw [hi]; cases w <;> rfl) (by rw [hi]; cases w <;> rfl) (by rw [hi]; cases w <;> rfl) rfl rfl ?_ (by simp)
      intro e; have := h1 e; revert this; cases w <;> simp
    split at hs
    · cases hs; exact hgo
    · split at hs
      · cases hs
        rw [if_pos]
        · exact hgo
        · cases w with
          | true => have := h.ow t (by rw [hi]; rfl); simp [this]
          | false => have := cnt_pos (P := PC.cnt) (f := s.pc) t (by rw [hi]; rfl); have := h.rc; simp; omega
      · cases hs; exact hgo
  · next w hi =>
    split at hs
    · next y hy =>
      have k := h.ok hy
      have h1 := fun e => h.sp e t
      have h2 := fun e => h.nf e t
      rw [hi] at h1 h2 k
      have h1' : g.spin = true → (PC.eend w).rdr = false := by intro e; have := h1 e; revert this; cases w <;> simp
      have h2' : g.fx = false → (PC.eend w).elR = false := by intro e; have := h2 e; revert this; cases w <;> simp
      obtain ⟨tk, c0, c1, e1, e2, ew, sm, nm, ht, tc⟩ := k
      have e2' : (PC.eend w).ecsW = true → g.spin = false → .nr ∈ y.rs ∧ s.mem .nr = 0 := by intro e; exact e2 (by revert e; cases w <;> simp)
      have ew' : (PC.eend w).ecsR = true → y.ws = [] := by intro e; exact ew (by revert e; cases w <;> simp)
      have hx : ∀ rs, (∀ l, l ∈ y.rs → l ∈ rs) → (∀ x, Loc.dat x ∈ rs ↔ .dat x ∈ y.rs) →
          Inv g { s with tx := upd s.tx t (some { y with rs := rs }), pc := upd s.pc t (.eend w) } := by
        intro rs hrs hrs'
        have := h.loc0 t (.eend w) (some { y with rs := rs }) (s.ops t) (by rw [hi]; rfl) (by rw [hi]; rfl) (by simp) (by simp [hi]) (by simp) rfl rfl h1' h2'
          (by
            rintro _ ⟨⟩
            refine ⟨tk, by simp, by simp, fun e => ?_, fun e e' => ?_, ew', sm, nm, fun e => ht rfl, fun e z => ?_⟩
            · exact ⟨hrs _ (e1 rfl).1, (e1 rfl).2⟩
            · exact ⟨hrs _ (e2' e e').1, (e2' e e').2⟩
            · rw [tc rfl z, hrs'])
        rw [upd_eq_self] at this
        exact this
      split at hs
      · next hc =>
        have hw : w = true := by
          rcases hc with e | e
          · exact e
          · have := h2 e; revert this; cases w <;> simp
        subst hw
        cases hs
        simp only [↓reduceIte]
        rw [if_neg]
        · exact hx (.wr :: y.rs) (fun l hl => by simp [hl]) (fun x => by simp)
        · simp [Tx.get, tk.1, (e1 rfl).2]
      · cases hs
        have := hx y.rs (fun _ e => e) (fun _ => Iff.rfl)
        have e : upd s.tx t (some y) = s.tx := by rw [← hy, upd_eq_self]
        simp only [e] at this
        exact this
    · cases hs
  · cases hs

theorem Inv.step_fin {s s' : St n} (h : Inv g s) {t : Fin n} (hs : step g s (.fin t) = some s') : Inv g s' := by
  unfold step at hs
  simp only at hs
  split at hs
  · next w hi =>
    cases hs
    have hel : (s.pc t).el = false := by rw [hi]; rfl
    have hx := h.tx_none hel
    have hw : ∀ u, u ≠ t → (s.pc u).wcs = false := by
      intro u hu
      cases e : (s.pc u).wcs with
      | false => rfl
      | true =>
        cases w with
        | true =>
          exact absurd (h.uo u t (by
            cases q : (s.pc u).own with
            | true => rfl
            | false => rw [PC.wcs_own q] at e; cases e) (by rw [hi]; rfl)) hu
        | false => have := h.rw u t e; rw [hi] at this; cases this
    have hrun : run s.base (s.ops t) = some s.data := by
      cases w with
      | true => exact h.hw t (by rw [hi]; rfl)
      | false =>
        have := h.hb fun u => by
          by_cases hu : u = t
          · rw [hu, hi]; rfl
          · exact hw u hu
        rw [← this]; exact h.hr t (by rw [hi]; rfl)
    have hA : Inv g { s with hist := s.hist ++ [s.ops t], base := s.data, ops := upd s.ops t [] } := by
      obtain ⟨uo, ow, rc, rw, nb, te, tk, c0, c1, e1, e2, ew, sp, sm, nf, nm, hp, hb, hw', hr, ht, tc⟩ := h
      have hn : ∀ u y, s.tx u = some y → u ≠ t := by rintro u y hy rfl; rw [hx] at hy; cases hy
      constructor
      case hp => simp only [List.flatten_append, List.flatten_singleton]; rw [run_append, hp]; exact hrun
      case hb => intro _; rfl
      case hw =>
        intro u hu
        by_cases e : u = t
        · subst e; simp only [upd_same]; rfl
        · rw [hw u e] at hu; cases hu
      case hr =>
        intro u hu
        by_cases e : u = t
        · subst e; simp only [upd_same]; rfl
        · simp only [upd_ne _ _ e]; exact hr u hu
      case c0 => intro u y hy; simp only [upd_ne _ _ (hn u y hy)]; exact c0 u y hy
      case ht => intro u y hy; simp only [upd_ne _ _ (hn u y hy)]; exact ht u y hy
      case tc => intro u y hy; simp only [upd_ne _ _ (hn u y hy)]; exact tc u y hy
      all_goals assumption
    have hS : ∀ l v, ({ ({ s with hist := s.hist ++ [s.ops t], base := s.data, ops := upd s.ops t [] } : St n).put t l v with
          pc := upd (({ s with hist := s.hist ++ [s.ops t], base := s.data, ops := upd s.ops t [] } : St n).put t l v).pc t .idle,
          ops := upd (({ s with hist := s.hist ++ [s.ops t], base := s.data, ops := upd s.ops t [] } : St n).put t l v).ops t [] } : St n)
        = { s.put t l v with pc := upd (s.put t l v).pc t .idle, hist := s.hist ++ [s.ops t], base := fun x => s.mem (.dat x), ops := upd (s.put t l v).ops t [] } := by
      intro l v
      have : ∀ u, upd (({ s with hist := s.hist ++ [s.ops t], base := s.data, ops := upd s.ops t [] } : St n).put t l v).ops t [] u = upd (s.put t l v).ops t [] u := by
        intro u
        simp only [upd_apply, St.put, St.kill]
        split <;> rfl
      simp only [funext this]
      rfl
    cases w with
    | true =>
      simp only [↓reduceIte]
      rw [← hS]
      refine hA.putw t .idle [] .wr 0 hel (by simp) (by simp) ?_ ?_ (by simp) (fun _ _ => rfl) (by simp) rfl rfl (by simp) (by simp)
      · intro u hu e; exact absurd (h.uo u t e (by rw [hi]; rfl)) hu
      · show upd s.mem .wr 0 .nr = _
        rw [upd_ne _ _ (by simp), cnt_upd]; show _ = Verif.cnt PC.cnt s.pc + _ - (s.pc t).cnt.toNat; rw [hi, h.rc]; simp
    | false =>
      simp only [Bool.false_eq_true, ↓reduceIte]
      rw [← hS]
      refine hA.putw t .idle [] .nr _ hel (by simp) (by simp) ?_ ?_ (by simp) (fun _ _ => rfl) (by simp) rfl rfl (by simp) (by simp)
      · intro u hu e; simp only [ne_eq, reduceCtorEq, not_false_eq_true, upd_ne]; exact h.ow u e
      · rw [upd_same, cnt_upd]; show _ = Verif.cnt PC.cnt s.pc + _ - (s.pc t).cnt.toNat; rw [hi, h.rc]; simp
  · next w hi =>
    split at hs
    · next y hy =>
      cases hs
      have k := h.kill t y.ws
      have hc := kill_cases s t y.ws t
      have hpc : (s.kill t y.ws).pc t = .eend w := by
        rcases hc with ⟨-, a, -⟩ | ⟨a, -⟩
        · exact a.trans hi
        · exact absurd rfl a
      have hty : (s.kill t y.ws).tx t = some y := by
        rcases hc with ⟨a, -⟩ | ⟨a, -⟩
        · exact a.trans hy
        · exact absurd rfl a
      have hops : (s.kill t y.ws).ops t = s.ops t := by
        rcases hc with ⟨-, -, a, -⟩ | ⟨a, -⟩
        · exact a
        · exact absurd rfl a
      have hnh := kill_nohit s t y.ws
      rw [← kill_mem s t y.ws, ← hops, ← kill_hist s t y.ws]
      generalize s.kill t y.ws = r at k hpc hty hnh
      have q := k.ok hty
      rw [hpc] at q
      obtain ⟨tkt, -, -, e1t, e2t, ewt, smt, nmt, htt, tct⟩ := q
      have hm1 : y.get r.mem .wr = r.mem .wr := by simp [Tx.get, tkt.1]
      have hm2 : y.get r.mem .nr = r.mem .nr := by simp [Tx.get, tkt.2]
      have no := k.no_own (e1t rfl).2
      have nw : ∀ u, (r.pc u).wcs = false := fun u => PC.wcs_own (no u)
      have hbase := k.hb nw
      have hd : (fun x => y.get r.mem (.dat x)) = r.view y := rfl
      have hrd : ∀ u, (r.pc u).rcs = true → r.view y = r.data := by
        intro u hu
        cases w with
        | false => funext x; simp [St.view, St.data, Tx.get, ewt rfl]
        | true =>
          cases hsp : g.spin with
          | true => rw [PC.rcs_rdr (k.sp hsp u)] at hu; cases hu
          | false => rw [k.no_rcs (e2t rfl hsp).2 u] at hu; cases hu
      have hfr : ∀ u z, u ≠ t → r.tx u = some z → ∀ x, (.dat x ∈ z.rs ∨ .dat x ∈ z.ws) → y.get r.mem (.dat x) = r.mem (.dat x) := by
        intro u z hu hz x hx
        have := hnh u z hu hz
        simp only [Tx.hit, List.any_eq_false, decide_eq_true_eq] at this
        simp only [Tx.get]
        rw [if_neg]
        intro e
        exact this _ e hx
      have hne : ∀ u z, upd r.tx t none u = some z → u ≠ t ∧ r.tx u = some z := by
        intro u z hz
        by_cases hu : u = t
        · rw [hu, upd_same] at hz; cases hz
        · rw [upd_ne _ _ hu] at hz; exact ⟨hu, hz⟩
      have hcl : ∀ (P : PC → Bool), P .idle = false → ∀ u, P (upd r.pc t .idle u) = true → u ≠ t ∧ P (r.pc u) = true := by
        intro P hP u hp
        by_cases hu : u = t
        · rw [hu, upd_same, hP] at hp; cases hp
        · rw [upd_ne _ _ hu] at hp; exact ⟨hu, hp⟩
      obtain ⟨uo, ow, rc, rw, nb, te, tk, c0, c1, e1, e2, ew, sp, sm, nf, nm, hp, hb, hw, hr, ht, tc⟩ := k
      constructor <;> simp only [hm1, hm2]
      case uo => intro a b ha; have := (hcl _ rfl a ha).2; rw [no a] at this; cases this
      case ow => intro a ha; have := (hcl _ rfl a ha).2; rw [no a] at this; cases this
      case rc => rw [rc, cnt_upd, hpc]; simp
      case rw => intro a b ha; have := (hcl _ rfl a ha).2; rw [nw a] at this; cases this
      case nb => intro a; simp only [upd_apply]; split <;> [rfl; exact nb a]
      case te => intro a; simp only [upd_apply]; split <;> [rfl; exact te a]
      case tk => intro a z hz; exact tk a z (hne a z hz).2
      case c0 => intro a z hz; have := hne a z hz; rw [upd_ne _ _ this.1, upd_ne _ _ this.1]; exact c0 a z this.2
      case c1 => intro a z m k hz; have := hne a z hz; rw [upd_ne _ _ this.1]; exact c1 a z m k this.2
      case e1 => intro a z hz; have := hne a z hz; rw [upd_ne _ _ this.1]; exact e1 a z this.2
      case e2 => intro a z hz; have := hne a z hz; rw [upd_ne _ _ this.1]; exact e2 a z this.2
      case ew => intro a z hz; have := hne a z hz; rw [upd_ne _ _ this.1]; exact ew a z this.2
      case sp => intro e a; simp only [upd_apply]; split <;> [rfl; exact sp e a]
      case sm => intro e a z hz; exact sm e a z (hne a z hz).2
      case nf => intro e a; simp only [upd_apply]; split <;> [rfl; exact nf e a]
      case nm => intro e a z hz; exact nm e a z (hne a z hz).2
      case hp =>
        simp only [List.flatten_append, List.flatten_singleton]
        rw [run_append, hp]
        show run r.base (r.ops t) = _
        rw [← hbase, htt rfl]; rfl
      case hb => intro _; rfl
      case hw => intro a ha; have := (hcl _ rfl a ha).2; rw [nw a] at this; cases this
      case hr =>
        intro a ha
        have := hcl _ rfl a ha
        rw [upd_ne _ _ this.1]
        have e : r.view y = r.data := hrd a this.2
        show run (r.view y) _ = some (r.view y)
        rw [e]; exact hr a this.2
      case ht =>
        intro a z hz
        have := hne a z hz
        rw [upd_ne _ _ this.1, upd_ne _ _ this.1]
        intro e
        have hf := hfr a z this.1 this.2
        have ht1 := ht a z this.2 e
        have tc1 := tc a z this.2 e
        obtain ⟨o', h1, h2⟩ := run_frame (e := r.view y) ht1 fun p hp => hf p.x ((tc1 p.x).1 ⟨p, hp, rfl⟩)
        show run (r.view y) _ = _
        rw [h1]
        congr 1
        funext x
        rw [h2]
        split
        · next hx =>
          have := hf x ((tc1 x).1 hx)
          show z.get r.mem (.dat x) = z.get (y.get r.mem) (.dat x)
          unfold Tx.get at this ⊢
          by_cases hq : Loc.dat x ∈ z.ws
          · rw [if_pos hq, if_pos hq]
          · rw [if_neg hq, if_neg hq]; exact this.symm
        · next hx =>
          have hx' := fun q => hx ((tc1 x).2 q)
          show y.get r.mem (.dat x) = z.get (y.get r.mem) (.dat x)
          exact (if_neg (fun q => hx' (.inr q))).symm
      case tc =>
        intro a z hz
        have := hne a z hz
        rw [upd_ne _ _ this.1, upd_ne _ _ this.1]
        exact tc a z this.2
    · cases hs
  · next w hi => have := h.nb t; rw [hi] at this; cases this
  · cases hs

theorem reach_inv (hg : g.Good) {s : St n} (hs : (sys g n).Reach s) : Inv g s := by
  refine Sys.Reach.invariant (I := Inv g) (fun s e => ?_) (fun s a s' hi hstep => ?_) hs
  · subst e; exact Inv.init
  · cases a with
    | call t m d => exact hi.step_call hg hstep
    | begin t ok => exact hi.step_begin hstep
    | check1 t => exact hi.step_check1 hstep
    | check2 t => exact hi.step_check2 hstep
    | again t => exact hi.step_abt (.inl hstep)
    | fall t => exact hi.step_abt (.inr hstep)
    | lock t => exact hi.step_lock hstep
    | read t x => exact hi.step_read hstep
    | write t x v => exact hi.step_write hstep
    | unlock t => exact hi.step_unlock hstep
    | fin t => exact hi.step_fin hstep
    | abort t => exact hi.step_abort hstep

/-! ## Theorems -/

/-- The sections that have ended, one after the other in the order of their ends, give every load the value it has returned; the data are then what they are now, up to the stores of a
write section that has the lock, and what that section has loaded and stored so far continues the order. -/
theorem serial_partial (hg : g.Good) {s : St n} (hs : (sys g n).Reach s) :
    ∃ d, run (fun _ => 0) s.hist.flatten = some d ∧ ((∀ t, ¬ s.locked true t) → s.data = d) ∧ ∀ t, s.locked true t → run d (s.ops t) = some s.data := by
  have h := reach_inv hg hs
  refine ⟨s.base, h.hp, fun q => h.hb fun t => ?_, fun t q => h.hw t ?_⟩
  · have := q t
    cases e : (s.pc t).wcs with
    | false => rfl
    | true =>
      exfalso; apply this
      unfold St.locked
      revert e
      rcases s.pc t with _ | _ | _ | _ | _ | _ | _ | _ | _ | _ | _ | (_ | _) | _ | (_ | _) | _ | _ | _ | _ <;> simp
  · rcases q with q | q <;> rw [q] <;> rfl

/-- A section in a transaction, also one that will be aborted, has loaded what it would have loaded if it had run alone, just now. -/
theorem opaque_partial (hg : g.Good) {s : St n} (hs : (sys g n).Reach s) {w : Bool} {t : Fin n} (ht : s.elided w t) :
    ∃ y, s.tx t = some y ∧ run s.data (s.ops t) = some (s.view y) ∧ (w = false → s.view y = s.data) := by
  have h := reach_inv hg hs
  have hel : (s.pc t).el = true ∧ (s.pc t).ecs = true := by rcases ht with q | q <;> rw [q] <;> exact ⟨rfl, rfl⟩
  have := h.te t
  rw [hel.1] at this
  obtain ⟨y, hy⟩ := Option.isSome_iff_exists.1 this
  refine ⟨y, hy, h.ht t y hy hel.2, ?_⟩
  rintro rfl
  have := h.ew t y hy (by rcases ht with q | q <;> rw [q] <;> rfl)
  funext x
  simp [St.view, St.data, Tx.get, this]

/-- The same for a read section that has the lock. -/
theorem read_partial (hg : g.Good) {s : St n} (hs : (sys g n).Reach s) {t : Fin n} (ht : s.locked false t) : run s.data (s.ops t) = some s.data :=
  (reach_inv hg hs).hr t (by rcases ht with q | q <;> rw [q] <;> rfl)

/-- Sections that have the lock: readers and writers exclude each other.  While a section is in a transaction, no write section has the lock, and no section at all if it is a write section. -/
theorem exclusion_partial (hg : g.Good) {s : St n} (hs : (sys g n).Reach s) :
    RwEx (s.locked false) (s.locked true) ∧ ∀ t w, s.elided w t → (∀ u, ¬ s.locked true u) ∧ (w = true → ∀ u, ¬ s.locked false u) := by
  have h := reach_inv hg hs
  have lw : ∀ u, s.locked true u → (s.pc u).wcs = true ∧ (s.pc u).own = true := by intro u q; rcases q with q | q <;> rw [q] <;> exact ⟨rfl, rfl⟩
  have lr : ∀ u, s.locked false u → (s.pc u).rcs = true := by intro u q; rcases q with q | q <;> rw [q] <;> rfl
  refine ⟨⟨fun t u ht hu => h.uo t u (lw t ht).2 (lw u hu).2, fun t u ht hu => ?_⟩, fun t w ht => ?_⟩
  · have := h.rw t u (lw t ht).1; rw [lr u hu] at this; cases this
  · obtain ⟨y, hy, -⟩ := opaque_partial hg hs ht
    refine ⟨fun u hu => ?_, ?_⟩
    · have := (h.e1 t y hy (by rcases ht with q | q <;> rw [q] <;> rfl)).2
      have := h.ow u (lw u hu).2
      omega
    · rintro rfl u hu
      have hu := lr u hu
      cases hsp : g.spin with
      | true => rw [PC.rcs_rdr (h.sp hsp u)] at hu; cases hu
      | false => rw [h.no_rcs (h.e2 t y hy (by rcases ht with q | q <;> rw [q] <;> rfl) hsp).2 u] at hu; cases hu

/-- Whoever has the lock releases it, whoever is in a transaction ends it: `ck_pr_rtm_end` is never executed outside of a transaction, the unlock function never inside of one, and nobody returns from unlock in a transaction. -/
theorem unlock_partial (hg : g.Good) {s : St n} (hs : (sys g n).Reach s) (t : Fin n) : s.pc t ≠ .fault ∧ (∀ w, s.pc t ≠ .eul w) ∧ s.pc t ≠ .leak := by
  have := (reach_inv hg hs).nb t
  refine ⟨fun e => ?_, fun w e => ?_, fun e => ?_⟩ <;> rw [e] at this <;> cases this

/-! ## Examples -/

structure Out where
  pc : List PC
  hist : List (List Op)
  mem : List Nat
deriving DecidableEq

def out (s : St 3) : Out := ⟨[s.pc 0, s.pc 1, s.pc 2], s.hist, [s.mem .wr, s.mem .nr, s.mem (.dat 0)]⟩

/-- The code on a machine with transactions: elided write sections (also with trylock) on a rwlock. -/
def Cfg.code : Cfg := { spin := false, tm := true, tl := true, er := false, fx := false }

/-- `Cfg.code` meets the hypothesis. -/
theorem code_good : Cfg.code.Good := ⟨fun _ => rfl, fun e => by cases e⟩

/-- A write section in a transaction. -/
def elide (t : Fin 3) : List (Act 3) := [.call t ⟨true, false⟩ false, .begin t true, .check1 t, .check2 t]
/-- A write section with the lock. -/
def direct (t : Fin 3) : List (Act 3) := [.call t ⟨true, false⟩ true, .lock t, .lock t]

/-- Threads 0 and 2 are in transactions and both have incremented; thread 0 commits, which aborts thread 2; thread 1 increments with the lock; thread 2 tries again and meets the lock. -/
theorem serial_example : ∃ s : St 3, (sys .code 3).Reach s ∧
    out s = ⟨[.idle, .inn true, .chk2 ⟨true, false⟩ 0], [[.rd 0 0, .wr 0 1]], [1, 0, 2]⟩ ∧ s.ops 1 = [.rd 0 1, .wr 0 2] := by
  have h : ((sys .code 3).run (initSt 3) (elide 0 ++ elide 2 ++
      [.read 0 0, .read 2 0, .write 0 0 1, .write 2 0 1, .unlock 0, .fin 0, .again 2] ++ direct 1 ++
      [.read 1 0, .begin 2 true, .check1 2, .write 1 0 2])).map (fun s => (out s, s.ops 1)) =
      some (⟨[.idle, .inn true, .chk2 ⟨true, false⟩ 0], [[.rd 0 0, .wr 0 1]], [1, 0, 2]⟩, [.rd 0 1, .wr 0 2]) := by decide +kernel
  obtain ⟨s, hs, e⟩ := Option.map_eq_some_iff.1 h
  exact ⟨s, .of_run (.init rfl) hs, (Prod.mk.inj e).1, (Prod.mk.inj e).2⟩

/-- Two sections in transactions at once, on different data: both commit. -/
theorem parallel_example : ∃ s : St 3, (sys .code 3).Reach s ∧ out s = ⟨[.idle, .idle, .idle], [[.wr 0 7], [.rd 1 0]], [0, 0, 7]⟩ := by
  have h : ((sys .code 3).run (initSt 3) (elide 0 ++ elide 1 ++ [.write 0 0 7, .read 1 1, .unlock 0, .fin 0, .unlock 1, .fin 1])).map out =
      some ⟨[.idle, .idle, .idle], [[.wr 0 7], [.rd 1 0]], [0, 0, 7]⟩ := by decide +kernel
  obtain ⟨s, hs, e⟩ := Option.map_eq_some_iff.1 h
  exact ⟨s, .of_run (.init rfl) hs, e⟩

/-! ## What is not so -/

/-- Without transactions, `CK_ELIDE_TRYLOCK` returns the value of the lock predicate and does not acquire anything: it returns true because thread 0 has the lock, and then two threads are in their sections. -/
theorem trylock_fails : ∃ s : St 3, (sys { spin := true, tm := false, tl := true, er := false, fx := false } 3).Reach s ∧ s.pc 0 = .inn true ∧ s.pc 1 = .inn true := by
  have h : ((sys { spin := true, tm := false, tl := true, er := false, fx := false } 3).run (initSt 3)
      [.call 0 ⟨true, false⟩ false, .lock 0, .call 1 ⟨true, true⟩ false]).map out = some ⟨[.inn true, .inn true, .idle], [], [1, 0, 0]⟩ := by decide +kernel
  obtain ⟨s, hs, e⟩ := Option.map_eq_some_iff.1 h
  simp only [out, Out.mk.injEq, List.cons.injEq] at e
  exact ⟨s, .of_run (.init rfl) hs, e.1.1, e.1.2.1⟩

/-- On a free lock it returns false. -/
theorem trylock_free : ∃ s : St 3, (sys { spin := true, tm := false, tl := true, er := false, fx := false } 3).Reach s ∧ s.mem .wr = 0 ∧
    ∀ t d s', step { spin := true, tm := false, tl := true, er := false, fx := false } s (.call t ⟨true, true⟩ d) = some s' → s' = s := by
  refine ⟨initSt 3, .init rfl, rfl, ?_⟩
  intro t d s' h
  simp [step, initSt] at h
  rw [← h]; rfl

/-- Elided read sections of a rwlock: the unlock predicate `ck_rwlock_locked_reader` is true because of another reader, which has the lock; thread 0, in a transaction, decrements `n_readers` instead of ending the transaction, and
returns in it. -/
theorem read_leak : ∃ s : St 3, (sys { spin := false, tm := true, tl := false, er := true, fx := false } 3).Reach s ∧ s.pc 0 = .leak ∧ s.pc 1 = .inn false ∧
    ∃ y, s.tx 0 = some y ∧ y.get s.mem .nr = 0 := by
  have h : ((sys { spin := false, tm := true, tl := false, er := true, fx := false } 3).run (initSt 3)
      [.call 1 ⟨false, false⟩ true, .lock 1, .lock 1, .lock 1, .call 0 ⟨false, false⟩ false, .begin 0 true, .check2 0, .read 0 0, .unlock 0, .fin 0]).map
      (fun s => (out s, (s.tx 0).map (·.get s.mem .nr))) = some (⟨[.leak, .inn false, .idle], [], [0, 1, 0]⟩, some 0) := by decide +kernel
  obtain ⟨s, hs, e⟩ := Option.map_eq_some_iff.1 h
  simp only [out, Prod.mk.injEq, Out.mk.injEq, List.cons.injEq] at e
  obtain ⟨y, hy, e'⟩ := Option.map_eq_some_iff.1 e.2
  exact ⟨s, .of_run (.init rfl) hs, e.1.1.1, e.1.1.2.1, y, hy, e'⟩

end Verif.Misc.Elide
