import Mathlib.Data.Fintype.Defs
import Mathlib.Data.Fintype.Basic
import Verif.Weak.Put

/-!
# Readers of a hash set on relaxed memory (C95), `src/ck_hs.c`

One writer, any number of readers, one map.  `path k l` is the slot that probe `l` of key `k` looks at (`ck_hs_map_probe_next` and `ck_hs_map_probe`, lines 278-292 and 423-530),
`gi k` the index of its generation counter (`h & CK_HS_G_MASK`), `hm k` the index of its probe bound (`h & mask`); all of them may collide between keys.

The stores of the writer that readers can see, of all operations (`ck_hs_gc`, lines 555-642; `ck_hs_fas` 644-674; `ck_hs_apply` 688-757; `ck_hs_set` 759-812; `ck_hs_put_internal` 815-857;
`ck_hs_remove` 902-920):

* `bound`: a probe bound is raised (`ck_hs_map_bound_set`, lines 294-312) or lowered (end of `ck_hs_gc`, lines 629-638);
* `put`: a key that is not in the set is stored in an empty slot or over a tombstone, within the bound, no slot before is empty;
* `repl`: the entry of a key is replaced in its slot;
* `move`, `sig`, `tomb`: the entry of a key is stored over a tombstone earlier in its path, the generation is incremented (`ck_hs_map_signal`, lines 97-106), the old slot becomes a tombstone;
* `del`: the slot of a key becomes a tombstone.

The writer is the only one that stores, so it finds the newest values.  Where it stores is a superset of what its probes choose.  Readers run `ck_hs_get`, lines 875-900, load by load; loads return any value the memory model allows.

Simplified: the bound is one location (in the code a saturated bound leads to `probe_maximum`), the map does not grow, the generation does not wrap, hash bits packed into the pointers are left out.

A reader that is not in a call may `sync` with the writer between two of its operations: it then knows all stores so far (a lock, a join, a message; in the client).

Bookkeeping that no program step reads: `hist t`, content of the set after `t` changes; `now`, number of changes; `b`, `now` at the last `sync` of a reader; `pos`, where a key is; `mvd k`, `now` after the last move of `k`.
-/

namespace Verif.Weak.HsRead

open Verif
open Fas (opt)

inductive Loc
  | gen (g : Nat)
  | bound (h : Nat)
  | slot (x : Nat)
deriving DecidableEq

/-- `CK_HS_EMPTY`, `CK_HS_TOMBSTONE`, an object with its key, a number. -/
inductive Val (K V : Type)
  | empty
  | tomb
  | obj (k : K) (v : V)
  | num (n : Nat)
deriving DecidableEq

def Val.toNat {K V : Type} : Val K V → Nat
  | .num n => n
  | _ => 0

/-- `fix`: a store fence before the generation is incremented, which the code does not have; `sig`: line 104; `rd1`: line 891; `rd2`: line 895. -/
structure Fences where
  fix : Bool
  sig : Bool
  rd1 : Bool
  rd2 : Bool
deriving DecidableEq

def real : Fences := { fix := false, sig := true, rd1 := true, rd2 := true }

/-- Where keys are looked for. -/
structure Geo (K : Type) where
  path : K → Nat → Nat
  gi : K → Nat
  hm : K → Nat

inductive WPC (K : Type)
  | idle
  /-- `k` is stored twice, the old slot is number `j` of its path -/
  | sig (k : K) (j : Nat)
  | tomb (k : K) (j : Nat)
deriving DecidableEq

inductive RPC (K V : Type)
  | idle
  /-- about to load the generation, line 889 -/
  | start (k : K)
  /-- about to load the bound, line 890 -/
  | bnd (k : K) (g : Nat)
  /-- about to load slot number `l` -/
  | probe (k : K) (g n l : Nat)
  /-- about to load the generation again, line 896 -/
  | chk (k : K) (g : Nat) (res : Option V)
  /-- returned -/
  | ret (k : K) (res : Option V)
deriving DecidableEq

structure Rd (K V : Type) where
  th : Th Loc
  pc : RPC K V
  b : Nat

structure St (K V : Type) (n : Nat) where
  mem : Mem Loc (Val K V)
  w : Th Loc
  wpc : WPC K
  rd : Fin n → Rd K V
  now : Nat
  hist : Nat → K → Option V
  pos : K → Option Nat
  mvd : K → Nat

inductive Act (K V : Type) (n : Nat)
  | bound (h m : Nat)
  | put (k : K) (i : Nat) (v : V)
  | repl (k : K) (v : V)
  | move (k : K) (i : Nat) (v : V)
  | sig
  | tomb
  | del (k : K)
  | sync (r : Fin n)
  | call (r : Fin n) (k : K)
  | gen (r : Fin n) (i : Nat)
  | bnd (r : Fin n) (i : Nat)
  | probe (r : Fin n) (i : Nat)
  | chk (r : Fin n) (i : Nat)
  | leave (r : Fin n)

variable {K V : Type} [DecidableEq K] [Fintype K] [DecidableEq V] {n : Nat}

/-- `ck_hs_map_create`, lines 198-253. -/
def initSt : St K V n :=
  { mem := Mem.init fun l => match l with
      | .slot _ => .empty
      | _ => .num 0
    w := Th.init, wpc := .idle, rd := fun _ => { th := Th.init, pc := .idle, b := 0 }
    now := 0, hist := fun _ _ => none, pos := fun _ => none, mvd := fun _ => 0 }

/-- The slot is not one of those before on the path. -/
def First (G : Geo K) (k : K) (i : Nat) : Prop := ∀ l, l < i → G.path k l ≠ G.path k i

/-- None of the slots before is empty. -/
def Full (G : Geo K) (m : Mem Loc (Val K V)) (k : K) (i : Nat) : Prop := ∀ l, l < i → m.last (.slot (G.path k l)) ≠ .empty

instance (G : Geo K) (k : K) (i : Nat) : Decidable (First G k i) := by unfold First; infer_instance

instance (G : Geo K) (m : Mem Loc (Val K V)) (k : K) (i : Nat) : Decidable (Full G m k i) := by unfold Full; infer_instance

/-- A store of the writer. -/
def St.wput (s : St K V n) (w : Th Loc) (l : Loc) (v : Val K V) : St K V n :=
  { s with mem := s.mem.store w l v, w := w.store s.mem l }

/-- The content of the set changes. -/
def St.change (s : St K V n) (k : K) (v : Option V) (p : Option Nat) : St K V n :=
  { s with now := s.now + 1, hist := upd s.hist (s.now + 1) (upd (s.hist s.now) k v), pos := upd s.pos k p }

/-- All keys of a bound are within. -/
def Within (G : Geo K) (s : St K V n) (h m : Nat) : Prop := ∀ k, G.hm k = h → ∀ i ∈ s.pos k, i < m

instance (G : Geo K) (s : St K V n) (h m : Nat) : Decidable (Within G s h m) := by unfold Within; infer_instance

/-- `fc` tells which fences exist. -/
def step (G : Geo K) (fc : Fences) (s : St K V n) : Act K V n → Option (St K V n)
  | .bound h m => if s.wpc = .idle ∧ Within G s h m then some (s.wput s.w (.bound h) (.num m)) else none
  | .put k i v =>
    if s.wpc = .idle ∧ s.pos k = none ∧ First G k i ∧ Full G s.mem k i ∧ i < (s.mem.last (.bound (G.hm k))).toNat
        ∧ (s.mem.last (.slot (G.path k i)) = .empty ∨ s.mem.last (.slot (G.path k i)) = .tomb) then
      some ((s.wput s.w (.slot (G.path k i)) (.obj k v)).change k (some v) (some i))
    else none
  | .repl k v =>
    match s.pos k with
    | some i => if s.wpc = .idle then some ((s.wput s.w (.slot (G.path k i)) (.obj k v)).change k (some v) (some i)) else none
    | none => none
  | .move k i v =>
    match s.pos k with
    | some j =>
      if s.wpc = .idle ∧ i < j ∧ First G k i ∧ s.mem.last (.slot (G.path k i)) = .tomb then
        some { (s.wput s.w (.slot (G.path k i)) (.obj k v)).change k (some v) (some i) with wpc := .sig k j, mvd := upd s.mvd k (s.now + 1) }
      else none
    | none => none
  | .sig =>
    match s.wpc with
    | .sig k j =>
      let w := opt fc.fix Th.fenceStore s.w
      let s' := s.wput w (.gen (G.gi k)) (.num ((s.mem.last (.gen (G.gi k))).toNat + 1))
      some { s' with w := opt fc.sig Th.fenceStore s'.w, wpc := .tomb k j }
    | _ => none
  | .tomb =>
    match s.wpc with
    | .tomb k j => some { s.wput s.w (.slot (G.path k j)) .tomb with wpc := .idle }
    | _ => none
  | .del k =>
    match s.pos k with
    | some i => if s.wpc = .idle then some ((s.wput s.w (.slot (G.path k i)) .tomb).change k none none) else none
    | none => none
  | .sync r =>
    let q := s.rd r
    if q.pc = .idle ∧ s.wpc = .idle then
      some { s with rd := upd s.rd r { q with th := { q.th with cur := join q.th.cur s.w.cur }, b := s.now } }
    else none
  | .call r k =>
    let q := s.rd r
    if q.pc = .idle then some { s with rd := upd s.rd r { q with pc := .start k } } else none
  | .gen r i =>
    let q := s.rd r
    match q.pc with
    | .start k =>
      if q.th.may s.mem (.gen (G.gi k)) i then
        some { s with rd := upd s.rd r { q with th := q.th.load s.mem (.gen (G.gi k)) i, pc := .bnd k (s.mem.msg (.gen (G.gi k)) i).val.toNat } }
      else none
    | _ => none
  | .bnd r i =>
    let q := s.rd r
    match q.pc with
    | .bnd k g =>
      if q.th.may s.mem (.bound (G.hm k)) i then
        some { s with
          rd := upd s.rd r { q with
            th := opt fc.rd1 Th.fenceLoad (q.th.load s.mem (.bound (G.hm k)) i), pc := .probe k g (s.mem.msg (.bound (G.hm k)) i).val.toNat 0 } }
      else none
    | _ => none
  -- one iteration of the loop in `ck_hs_map_probe`, the end of the loop when the bound is reached
  | .probe r i =>
    let q := s.rd r
    match q.pc with
    | .probe k g m l =>
      if m ≤ l then some { s with rd := upd s.rd r { q with pc := .chk k g none } }
      else if q.th.may s.mem (.slot (G.path k l)) i then
        some { s with
          rd := upd s.rd r { q with
            th := q.th.load s.mem (.slot (G.path k l)) i
            pc := match (s.mem.msg (.slot (G.path k l)) i).val with
              | .empty => .chk k g none
              | .obj k' v => if k' = k then .chk k g (some v) else .probe k g m (l + 1)
              | _ => .probe k g m (l + 1) } }
      else none
    | _ => none
  | .chk r i =>
    let q := s.rd r
    match q.pc with
    | .chk k g res =>
      let th := opt fc.rd2 Th.fenceLoad q.th
      if th.may s.mem (.gen (G.gi k)) i then
        some { s with
          rd := upd s.rd r { q with
            th := th.load s.mem (.gen (G.gi k)) i
            pc := if (s.mem.msg (.gen (G.gi k)) i).val.toNat = g then .ret k res else .start k } }
      else none
    | _ => none
  | .leave r =>
    let q := s.rd r
    match q.pc with
    | .ret _ _ => some { s with rd := upd s.rd r { q with pc := .idle } }
    | _ => none

def sys (G : Geo K) (fc : Fences) (V : Type) [DecidableEq V] (n : Nat) : Sys (St K V n) (Act K V n) := { init := (· = initSt), step := step G fc }

end Verif.Weak.HsRead
