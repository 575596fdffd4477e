import Mathlib.Data.Fintype.Defs
import Mathlib.Data.Fintype.Basic
import Verif.Rhs.Geo
import Verif.Weak.Put

/-!
# Readers of a robin-hood hash set on relaxed memory (C96), `src/ck_rhs.c`

One writer, any number of readers, one map.  `path k l` is the slot that probe `l` of key `k` looks at (`ck_rhs_map_probe_next`, lines 424-436), `hm k` the index of its probe bound (`h & mask`).
The generation counter of a key has two indices: `gr k`, that of the reader (`h & CK_RHS_G_MASK`, line 1412), and `gw k`, that of the writer when it displaces an entry, whose hash is not at hand
(lines 976, 989, 1037: the offset of the first probe, `& CK_RHS_G_MASK`); `geo` gives the indices of the code.  All indices may collide between keys.

The stores of the writer that readers can see, of all operations:

* `bound`: a probe bound is raised (`ck_rhs_map_bound_set`, lines 452-475) or lowered (lines 1042, 1062, 1073);
* `openE`, `close`, `take`: no store; a slot becomes the hole: it is empty (lines 971-975), or its entry is removed (`ck_rhs_do_backward_shift_delete`, line 1006);
* `copy`, `sig`: the entry of a key is stored into the hole (lines 975, 984-985, 1035-1036), or a new object for a key that is in the set (lines 1287, 1210, 1114); then the generation is incremented
  (`ck_pr_inc_uint`; with the index of the reader in lines 1298, 1221, 1115: `full`) and `ck_pr_fence_atomic_store`; the old slot becomes the hole;
* `fill`: a key that is not in the set is stored into the hole (lines 1364, 1369; 1210, 1230, 1287, 1308 when there is none);
* `clear`: the hole becomes empty, when no key is behind it on its path (line 1071, `wanted`);
* `repl`: the object of a key is replaced in its slot (lines 1121, 1230, 1308).

The writer is the only one that stores, so it finds the newest values.  Where it stores is a superset of what the code chooses; that the code keeps to these conditions is what the sequential proofs about
`Verif.Rhs` (C50, C67) establish: `Core` and `Bnd` hold between any two of these stores.  Readers run `ck_rhs_get`, lines 1397-1425, load by load.

Simplified: the bound is one location (in the code a saturated bound leads to `probe_maximum`), the map does not grow, the generation does not wrap, hash bits packed into the pointers are left out.

`sync` and the bookkeeping (`hist`, `now`, `b`, `pos`, `mvd`) are as in `Verif.Weak.HsRead`.
-/

namespace Verif.Weak.RhsRead

open Verif
open Fas (opt)

inductive Loc
  | gen (g : Nat)
  | bound (h : Nat)
  | slot (x : Nat)
deriving DecidableEq

/-- `CK_RHS_EMPTY`, an object with its key, a number. -/
inductive Val (K V : Type)
  | empty
  | obj (k : K) (v : V)
  | num (n : Nat)
deriving DecidableEq

def Val.toNat {K V : Type} : Val K V → Nat
  | .num n => n
  | _ => 0

/-- `fix`: a store fence before the generation is incremented; `rd0`: a load fence between the loads of the generation and of the bound; the code has neither.
`sig`: lines 977, 990, 1038, 1116, 1222, 1299; `rd1`: line 1415; `rd2`: line 1420. -/
structure Fences where
  fix : Bool
  sig : Bool
  rd0 : Bool
  rd1 : Bool
  rd2 : Bool
deriving DecidableEq

def real : Fences := { fix := false, sig := true, rd0 := false, rd1 := true, rd2 := true }

/-- With the two fences that the code lacks; loads and stores in order, as on x86 and SPARC (TSO), amount to more than this. -/
def fixed : Fences := { real with fix := true, rd0 := true }

/-- Where keys are looked for. -/
structure Geo (K : Type) where
  path : K → Nat → Nat
  gr : K → Nat
  gw : K → Nat
  hm : K → Nat

/-- `CK_RHS_G`, line 55. -/
def G : Nat := 1024

/-- The indices of the code; `sq` is the probe sequence. -/
def geo {K : Type} (ln cap : Nat) (hash : K → Nat) : Geo K :=
  { path := fun k l => Rhs.sq ln cap (hash k) l, gr := fun k => hash k % G, gw := fun k => hash k % cap % G, hm := fun k => hash k % cap }

inductive WPC (K : Type)
  | idle
  | hole (x : Nat)
  /-- `k` is stored twice, the old slot is number `j` of its path -/
  | sig (k : K) (j : Nat) (full : Bool)
deriving DecidableEq

inductive RPC (K V : Type)
  | idle
  /-- about to load the generation, line 1413 -/
  | start (k : K)
  /-- about to load the bound, line 1414 -/
  | bnd (k : K) (g : Nat)
  /-- about to load slot number `l` -/
  | probe (k : K) (g n l : Nat)
  /-- about to load the generation again, line 1421 -/
  | chk (k : K) (g : Nat) (res : Option V)
  /-- returned -/
  | ret (k : K) (res : Option V)
deriving DecidableEq

structure Rd (K V : Type) where
  th : Th Loc
  pc : RPC K V
  b : Nat

structure St (K V : Type) (n : Nat) where
  mem : Mem Loc (Val K V)
  w : Th Loc
  wpc : WPC K
  rd : Fin n → Rd K V
  now : Nat
  hist : Nat → K → Option V
  pos : K → Option Nat
  mvd : K → Nat

inductive Act (K V : Type) (n : Nat)
  | bound (h m : Nat)
  | openE (x : Nat)
  | close
  | take (k : K)
  | copy (k : K) (i : Nat) (v : V) (full : Bool)
  | sig
  | fill (k : K) (i : Nat) (v : V)
  | clear
  | repl (k : K) (v : V)
  | sync (r : Fin n)
  | call (r : Fin n) (k : K)
  | gen (r : Fin n) (i : Nat)
  | bnd (r : Fin n) (i : Nat)
  | probe (r : Fin n) (i : Nat)
  | chk (r : Fin n) (i : Nat)
  | leave (r : Fin n)

variable {K V : Type} [DecidableEq K] [Fintype K] [DecidableEq V] {n : Nat}

/-- `ck_rhs_map_create`, lines 336-398. -/
def initSt : St K V n :=
  { mem := Mem.init fun l => match l with
      | .slot _ => .empty
      | _ => .num 0
    w := Th.init, wpc := .idle, rd := fun _ => { th := Th.init, pc := .idle, b := 0 }
    now := 0, hist := fun _ _ => none, pos := fun _ => none, mvd := fun _ => 0 }

/-- The slot is not one of those before on the path. -/
def First (G : Geo K) (k : K) (i : Nat) : Prop := ∀ l, l < i → G.path k l ≠ G.path k i

/-- None of the slots before is empty. -/
def Full (G : Geo K) (m : Mem Loc (Val K V)) (k : K) (i : Nat) : Prop := ∀ l, l < i → m.last (.slot (G.path k l)) ≠ .empty

instance (G : Geo K) (k : K) (i : Nat) : Decidable (First G k i) := by unfold First; infer_instance

instance (G : Geo K) (m : Mem Loc (Val K V)) (k : K) (i : Nat) : Decidable (Full G m k i) := by unfold Full; infer_instance

/-- Slot number `i` can take `k`. -/
def Fits (G : Geo K) (m : Mem Loc (Val K V)) (k : K) (i : Nat) : Prop := First G k i ∧ Full G m k i ∧ i < (m.last (.bound (G.hm k))).toNat

instance (G : Geo K) (m : Mem Loc (Val K V)) (k : K) (i : Nat) : Decidable (Fits G m k i) := by unfold Fits; infer_instance

/-- A store of the writer. -/
def St.wput (s : St K V n) (l : Loc) (v : Val K V) : St K V n :=
  { s with mem := s.mem.store s.w l v, w := s.w.store s.mem l }

/-- The content of the set changes. -/
def St.change (s : St K V n) (k : K) (v : Option V) (p : Option Nat) : St K V n :=
  { s with now := s.now + 1, hist := upd s.hist (s.now + 1) (upd (s.hist s.now) k v), pos := upd s.pos k p }

/-- All keys of a bound are within. -/
def Within (G : Geo K) (s : St K V n) (h m : Nat) : Prop := ∀ k, G.hm k = h → ∀ i ∈ s.pos k, i < m

instance (G : Geo K) (s : St K V n) (h m : Nat) : Decidable (Within G s h m) := by unfold Within; infer_instance

/-- No key is behind slot `x`. -/
def Unwanted (G : Geo K) (s : St K V n) (x : Nat) : Prop := ∀ k, ∀ i ∈ s.pos k, ∀ l, l < i → G.path k l ≠ x

instance (G : Geo K) (s : St K V n) (x : Nat) : Decidable (Unwanted G s x) := by unfold Unwanted; infer_instance

/-- The counter that the writer increments. -/
def idx (G : Geo K) (k : K) (full : Bool) : Nat := if full then G.gr k else G.gw k

/-- `fc` tells which fences exist. -/
def step (G : Geo K) (fc : Fences) (s : St K V n) : Act K V n → Option (St K V n)
  | .bound h m =>
    match s.wpc with
    | .sig _ _ _ => none
    | _ => if Within G s h m then some (s.wput (.bound h) (.num m)) else none
  | .openE x => if s.wpc = .idle ∧ s.mem.last (.slot x) = .empty then some { s with wpc := .hole x } else none
  | .close =>
    match s.wpc with
    | .hole x => if s.mem.last (.slot x) = .empty then some { s with wpc := .idle } else none
    | _ => none
  | .take k =>
    match s.pos k with
    | some j => if s.wpc = .idle then some { s.change k none none with wpc := .hole (G.path k j) } else none
    | none => none
  | .copy k i v full =>
    match s.wpc, s.pos k with
    | .hole x, some j =>
      if G.path k i = x ∧ Fits G s.mem k i then
        some { (s.wput (.slot x) (.obj k v)).change k (some v) (some i) with wpc := .sig k j full, mvd := upd s.mvd k (s.now + 1) }
      else none
    | _, _ => none
  | .sig =>
    match s.wpc with
    | .sig k j full =>
      let l := Loc.gen (idx G k full)
      let w := opt fc.fix Th.fenceStore s.w
      some { s with
        mem := s.mem.rmw w l (.num ((s.mem.last l).toNat + 1)), w := opt fc.sig Th.fenceStore (w.rmw s.mem l), wpc := .hole (G.path k j) }
    | _ => none
  | .fill k i v =>
    match s.wpc with
    | .hole x =>
      if G.path k i = x ∧ s.pos k = none ∧ Fits G s.mem k i then some { (s.wput (.slot x) (.obj k v)).change k (some v) (some i) with wpc := .idle } else none
    | _ => none
  | .clear =>
    match s.wpc with
    | .hole x => if Unwanted G s x then some { s.wput (.slot x) .empty with wpc := .idle } else none
    | _ => none
  | .repl k v =>
    match s.pos k with
    | some i => if s.wpc = .idle then some ((s.wput (.slot (G.path k i)) (.obj k v)).change k (some v) (some i)) else none
    | none => none
  | .sync r =>
    let q := s.rd r
    if q.pc = .idle ∧ s.wpc = .idle then
      some { s with rd := upd s.rd r { q with th := { q.th with cur := join q.th.cur s.w.cur }, b := s.now } }
    else none
  | .call r k =>
    let q := s.rd r
    if q.pc = .idle then some { s with rd := upd s.rd r { q with pc := .start k } } else none
  | .gen r i =>
    let q := s.rd r
    match q.pc with
    | .start k =>
      if q.th.may s.mem (.gen (G.gr k)) i then
        some { s with
          rd := upd s.rd r { q with
            th := opt fc.rd0 Th.fenceLoad (q.th.load s.mem (.gen (G.gr k)) i), pc := .bnd k (s.mem.msg (.gen (G.gr k)) i).val.toNat } }
      else none
    | _ => none
  | .bnd r i =>
    let q := s.rd r
    match q.pc with
    | .bnd k g =>
      if q.th.may s.mem (.bound (G.hm k)) i then
        some { s with
          rd := upd s.rd r { q with
            th := opt fc.rd1 Th.fenceLoad (q.th.load s.mem (.bound (G.hm k)) i), pc := .probe k g (s.mem.msg (.bound (G.hm k)) i).val.toNat 0 } }
      else none
    | _ => none
  -- one iteration of the loop in `ck_rhs_map_probe`, the end of the loop when the bound is reached
  | .probe r i =>
    let q := s.rd r
    match q.pc with
    | .probe k g m l =>
      if m ≤ l then some { s with rd := upd s.rd r { q with pc := .chk k g none } }
      else if q.th.may s.mem (.slot (G.path k l)) i then
        some { s with
          rd := upd s.rd r { q with
            th := q.th.load s.mem (.slot (G.path k l)) i
            pc := match (s.mem.msg (.slot (G.path k l)) i).val with
              | .empty => .chk k g none
              | .obj k' v => if k' = k then .chk k g (some v) else .probe k g m (l + 1)
              | _ => .probe k g m (l + 1) } }
      else none
    | _ => none
  | .chk r i =>
    let q := s.rd r
    match q.pc with
    | .chk k g res =>
      let th := opt fc.rd2 Th.fenceLoad q.th
      if th.may s.mem (.gen (G.gr k)) i then
        some { s with
          rd := upd s.rd r { q with
            th := th.load s.mem (.gen (G.gr k)) i
            pc := if (s.mem.msg (.gen (G.gr k)) i).val.toNat = g then .ret k res else .start k } }
      else none
    | _ => none
  | .leave r =>
    let q := s.rd r
    match q.pc with
    | .ret _ _ => some { s with rd := upd s.rd r { q with pc := .idle } }
    | _ => none

def sys (G : Geo K) (fc : Fences) (V : Type) [DecidableEq V] (n : Nat) : Sys (St K V n) (Act K V n) := { init := (· = initSt), step := step G fc }

end Verif.Weak.RhsRead
