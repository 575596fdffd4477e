import Verif.Core.Sys
import Verif.Misc.Internal

/-!
# Hash set (C47, C48): model of `src/ck_hs.c`

The set holds objects of a type `V`.  The comparison callback and the hash callback of the user are described by
`key : V → K` (two objects compare equal iff their keys are equal; without a callback `key` is the identity) and
`hash : K → Nat`; the API takes the hash as an argument, the contract is that it is the hash of the key.

An operation of the (single) writer is a list of stores (`Stmt`), which `prog` computes from the map at the start of
the operation: the writer is the only one to write, so what it reads is what it wrote.  `exec` is the effect of one
store.  The sequential semantics runs all stores; in `HsRead.lean` readers run between the stores.

Simplifications.  Allocation is a list of booleans, one for every call of the allocator.  A map under construction is
not visible to anyone, so `ck_hs_grow` is a pure function and one store that publishes the map.  Replaced maps are
kept (the user defers `free`).  `map->tombstones` (statistics only, never initialised by `ck_hs_map_create`) is left
out.  Generation counters are natural numbers: fewer than `2 ^ 32` moves within one probe of a reader.
-/

namespace Verif.Hs

open Verif

/-- What the user supplies, and the build configuration. -/
structure Cfg (K V : Type) where
  /-- identity of an object under the comparison callback -/
  key : V → K
  /-- hash callback -/
  hash : K → Nat
  /-- pointer packing, lines 440-443 and 539-541: `h >> 25` in the upper bits; constant when not packing -/
  tag : Nat → Nat
  /-- `CK_HS_MODE_DELETE`: per-bucket probe bounds -/
  del : Bool
  /-- `CK_HS_WORD_MAX`, line 60 -/
  wmax : Nat

/-- An entry: `CK_HS_EMPTY`, `CK_HS_TOMBSTONE`, or an object with the packed bits (lines 38-56). -/
inductive Slot (V : Type)
  | empty
  | tomb
  | full (v : V) (tg : Nat)
deriving DecidableEq

/-- `struct ck_hs_map`, lines 83-95. -/
structure Map (V : Type) where
  cap : Nat
  mask : Nat
  step : Nat
  limit : Nat
  maxi : Nat
  bnd : Option (Nat → Nat)
  ent : Nat → Slot V
  gen : Bool → Nat
  n : Nat

variable {K V : Type} [DecidableEq K] [DecidableEq V]

/-- `ck_cc_ffsl` of a power of two. -/
def ffs (n : Nat) : Nat := n.log2 + 1

/-- Capacity chosen by `ck_hs_map_create`, lines 204-206; the argument of `ck_internal_power_2` is 32 bits wide. -/
def capOf (c : Nat) : Nat := Nat.max (Internal.power2 (BitVec.ofNat 32 c)).toNat 8

/-- `ck_hs_map_create`, lines 198-252. -/
def create (cfg : Cfg K V) (c : Nat) : Map V :=
  let n := capOf c
  { cap := n, mask := n - 1, step := ffs n, limit := Nat.min (Nat.max (n >>> 5) 64) (2 ^ 32 - 1), maxi := 0
    bnd := if cfg.del then some (fun _ => 0) else none, ent := fun _ => .empty, gen := fun _ => 0, n := 0 }

/-- `ck_hs_map_probe_next`, lines 278-292. -/
def probeNext (mask step offset h level probes : Nat) : Nat :=
  let r := (h >>> step) >>> level
  let stride := ((r / 8 * 8) <<< 1) ||| (r &&& 7)
  ((offset + (probes >>> 3) + (stride ||| 8)) % 2 ^ 64) &&& mask

/-- Offset of the `i`-th bucket visited for hash `h`: lines 453, 515 (and 355, 386). -/
def offs (mask step h : Nat) : Nat → Nat
  | 0 => h &&& mask
  | i + 1 => probeNext mask step (offs mask step h i) h i (8 * (i + 1))

/-- Slot examined by the `k`-th probe (from 0) for hash `h`: lines 462-465 (and 359-362).  A bucket is a cache line
of 8 entries. -/
def slotIdx (mask step h k : Nat) : Nat :=
  let o := offs mask step h (k / 8)
  o / 8 * 8 + (k % 8 + o) % 8

/-- `slotIdx` in map `m`. -/
def slotAt (m : Map V) (h k : Nat) : Nat := slotIdx m.mask m.step h k

/-- `ck_hs_map_bound_get`, lines 315-330. -/
def bound (cfg : Cfg K V) (m : Map V) (h : Nat) : Nat :=
  match m.bnd with
  | none => m.maxi
  | some b => if b (h &&& m.mask) = cfg.wmax then m.maxi else b (h &&& m.mask)

/-- `k == compare || hs->compare(k, key)` after the comparison of the packed bits, lines 494-509. -/
def hit (cfg : Cfg K V) (q : K) (v : V) (tg : Nat) : Bool :=
  decide (tg = cfg.tag (cfg.hash q)) && decide (cfg.key v = q)

/-- `enum ck_hs_probe_behavior`, lines 77-81. -/
inductive Beh
  | probe
  | tombstone
  | insert
deriving DecidableEq

/-- What `ck_hs_map_probe` returns: `*object`, the cursor, `*priority`, `*n_probes`. -/
structure PR (V : Type) where
  obj : Option V
  cur : Option Nat
  pr : Option Nat
  n : Nat

/-- The end of `ck_hs_map_probe`, lines 518-530, after probe number `probes`; `e` is what is in `k`. -/
def leave (x probes lim : Nat) (pr : Option (Nat × Nat)) (e : Option V) : PR V :=
  { obj := if probes > lim then none else e
    cur := if probes > lim then none else some x
    pr := pr.map (·.1)
    n := match pr with | some p => p.2 | none => probes }

/-- The loop of `ck_hs_map_probe`, lines 461-516; `pr`: first tombstone and its `n_probes`.  `none`: the loop has not
ended within `fuel` probes. -/
def probeLoop (cfg : Cfg K V) (m : Map V) (q : K) (beh : Beh) (opl : Nat) :
    Nat → Nat → Nat → Option (Nat × Nat) → Option (PR V)
  | 0, _, _, _ => none
  | fuel + 1, k, lim, pr =>
    let x := slotAt m (cfg.hash q) k
    if k = lim ∧ (lim = opl ∨ pr.isSome) then some (leave x (k + 1) lim pr none)
    else
      let lim' := if k = lim then opl else lim
      match m.ent x with
      | .empty => some (leave x (k + 1) lim' pr none)
      | .tomb => match pr with
        | some p => probeLoop cfg m q beh opl fuel (k + 1) lim' (some p)
        | none =>
          if beh = .tombstone then some (leave x (k + 1) lim' (some (x, k + 1)) none)
          else probeLoop cfg m q beh opl fuel (k + 1) lim' (some (x, k + 1))
      | .full v tg =>
        if hit cfg q v tg then some (leave x (k + 1) lim' pr (some v))
        else probeLoop cfg m q beh opl fuel (k + 1) lim' pr

/-- `ck_hs_map_probe`, lines 423-531. -/
def probe (cfg : Cfg K V) (m : Map V) (q : K) (beh : Beh) (opl : Nat) : Option (PR V) :=
  let lim := if beh = .insert then bound cfg m (cfg.hash q) else opl
  probeLoop cfg m q beh opl (Nat.max lim opl + 1) 0 lim none

/-- Stores of the writer.  `d` in `store` and the flag of `publish` are ghosts: the other slot that holds the same
key, and whether the set is emptied. -/
inductive Stmt (V : Type)
  | setMax (n : Nat)
  | setBnd (off n : Nat)
  | store (x : Nat) (v : V) (tg : Nat) (d : Option Nat)
  | sig (p : Bool)
  | del (x : Nat)
  | cnt (n : Nat)
  | publish (m : Map V) (clear : Bool)

/-- Effect of a store on the current map. -/
def exec (m : Map V) : Stmt V → Map V
  | .setMax n => { m with maxi := n }
  | .setBnd off n => { m with bnd := m.bnd.map fun b => upd b off n }
  | .store x v tg _ => { m with ent := upd m.ent x (.full v tg) }
  | .sig p => { m with gen := upd m.gen p (m.gen p + 1) }
  | .del x => { m with ent := upd m.ent x .tomb }
  | .cnt n => { m with n := n }
  | .publish m' _ => m'

def execs (m : Map V) (l : List (Stmt V)) : Map V := l.foldl exec m

/-- `ck_hs_map_bound_set`, lines 294-313. -/
def boundSet (cfg : Cfg K V) (m : Map V) (h n : Nat) : List (Stmt V) :=
  (if n > m.maxi then [.setMax n] else []) ++
    match m.bnd with
    | none => []
    | some b => if b (h &&& m.mask) < n then [.setBnd (h &&& m.mask) (if n > cfg.wmax then cfg.wmax else n)] else []

/-- Insertion of entry `k` into the new map, `ck_hs_grow`, lines 354-388: the first empty slot within the probe
limit. -/
def reinsert (cfg : Cfg K V) (u : Map V) : Slot V → Option (Map V)
  | .full v tg =>
    let h := cfg.hash (cfg.key v)
    match (List.range u.limit).find? (fun k => decide (u.ent (slotAt u h k) = .empty)) with
    | none => none
    | some k =>
      let u := { u with ent := upd u.ent (slotAt u h k) (.full v tg), n := u.n + 1 }
      some (execs u (boundSet cfg u h (k + 1)))
  | _ => some u

/-- The loop of `ck_hs_grow` over the entries of the old map, lines 346-397. -/
def rehash (cfg : Cfg K V) (m : Map V) : List Nat → Map V → Option (Map V)
  | [], u => some u
  | k :: ks, u => (reinsert cfg u (m.ent k)).bind (rehash cfg m ks)

/-- `ck_hs_grow`, lines 332-403: the new map, or `none` if it returns false; and what is left of the allocations. -/
def grow (cfg : Cfg K V) (m : Map V) (c : Nat) : List Bool → Option (Option (Map V) × List Bool)
  | [] => if m.cap > c then some (none, []) else none
  | a :: al =>
    if m.cap > c then some (none, a :: al)
    else if a = false then some (none, al)
    else match rehash cfg m (List.range m.cap) (create cfg c) with
      | some u => some (some u, al)
      | none => grow cfg m (c * 2 % 2 ^ 64) al

/-- Result of an operation of the writer.  `denied`: the C function returns false because `ck_hs_grow` returned false
or an allocation failed. -/
inductive Res (V : Type)
  | bool (b : Bool)
  | obj (o : Option V)
  | prev (b : Bool) (o : Option V)
  | denied
deriving DecidableEq

/-- `ck_hs_map_postinsert`, lines 405-414. -/
def postinsert (cfg : Cfg K V) (m : Map V) (al : List Bool) : Option (List (Stmt V)) :=
  let m' := exec m (.cnt (m.n + 1))
  if (m'.n * 2) > m'.cap then
    match grow cfg m' (m'.cap * 2 % 2 ^ 64) al with
    | none => none
    | some (none, _) => some [.cnt (m.n + 1)]
    | some (some u, _) => some [.cnt (m.n + 1), .publish u false]
  else some [.cnt (m.n + 1)]

/-- Storing the object, `ck_hs_set`, lines 782-807 (also `ck_hs_apply`, 730-750, and `ck_hs_put_internal`, 839-850,
where the object is absent). -/
def storeAt (cfg : Cfg K V) (m : Map V) (r : PR V) (v : V) : List (Stmt V) :=
  let h := cfg.hash (cfg.key v)
  boundSet cfg m h r.n ++
    match r.pr, r.cur with
    | some f, some s =>
      if r.obj.isSome then [.store f v (cfg.tag h) (some s), .sig (h % 2 = 1), .del s]
      else [.store f v (cfg.tag h) none]
    | some f, none => [.store f v (cfg.tag h) none]
    | none, some s => [.store s v (cfg.tag h) none]
    | none, none => []

/-- As `storeAt`, and `postinsert` if the object was absent. -/
def setAt (cfg : Cfg K V) (m : Map V) (r : PR V) (v : V) (al : List Bool) : Option (List (Stmt V)) :=
  let l := storeAt cfg m r v
  if r.obj.isSome then some l else (postinsert cfg (execs m l) al).map (l ++ ·)

/-- The probe with `goto restart` after `ck_hs_grow`, lines 773-780 (also 700-707 and 825-836); `f` is the rest of the
function. -/
def withRoom (cfg : Cfg K V) (q : K) (beh : Beh)
    (f : Map V → PR V → List Bool → Option (List (Stmt V) × Res V)) :
    Nat → Map V → List Bool → Option (List (Stmt V) × Res V)
  | 0, _, _ => none
  | fuel + 1, m, al =>
    match probe cfg m q beh m.limit with
    | none => none
    | some r =>
      if r.cur = none ∧ r.pr = none then
        match grow cfg m (m.cap * 2 % 2 ^ 64) al with
        | none => none
        | some (none, _) => some ([], .denied)
        | some (some u, al') =>
          (withRoom cfg q beh f fuel u al').map fun p => (.publish u false :: p.1, p.2)
      else f m r al

/-- `ck_hs_put_internal` after the probe, lines 837-854. -/
def putTail (cfg : Cfg K V) (v : V) (m : Map V) (r : PR V) (al : List Bool) : Option (List (Stmt V) × Res V) :=
  if r.obj.isSome then some ([], .bool false)
  else (setAt cfg m r v al).map fun l => (l, .bool true)

/-- `ck_hs_set` after the probe, lines 782-812. -/
def setTail (cfg : Cfg K V) (v : V) (m : Map V) (r : PR V) (al : List Bool) : Option (List (Stmt V) × Res V) :=
  (setAt cfg m r v al).map fun l => (l, .prev true r.obj)

/-- `ck_hs_apply` after the probe, lines 709-756. -/
def applyTail (cfg : Cfg K V) (fn : Option V → Option V) (m : Map V) (r : PR V) (al : List Bool) :
    Option (List (Stmt V) × Res V) :=
  match fn r.obj with
  | none => match r.obj, r.cur with
    | some _, some s => some ([.del s, .cnt (m.n - 1)], .bool true)
    | _, _ => some ([], .bool true)
  | some w => if some w = r.obj then some ([], .bool true)
      else (setAt cfg m r w al).map fun l => (l, .bool true)

/-- Moving an entry to the earlier slot `f`, `ck_hs_gc`, lines 601-607 (also `ck_hs_fas`, lines 664-667). -/
def moveTo (cfg : Cfg K V) (r : PR V) (v : V) : List (Stmt V) :=
  let h := cfg.hash (cfg.key v)
  match r.pr, r.cur with
  | some f, some s => [.store f v (cfg.tag h) (some s), .sig (h % 2 = 1), .del s]
  | _, _ => []

/-- `ck_hs_fas`, lines 644-674. -/
def fas (cfg : Cfg K V) (m : Map V) (v : V) : Option (List (Stmt V) × Res V) :=
  let h := cfg.hash (cfg.key v)
  match probe cfg m (cfg.key v) .probe (bound cfg m h) with
  | none => none
  | some r => match r.obj with
    | none => some ([], .prev false none)
    | some o => match r.pr, r.cur with
      | some _, _ => some (moveTo cfg r v, .prev true (some o))
      | none, some s => some ([.store s v (cfg.tag h) none], .prev true (some o))
      | none, none => none

/-- `ck_hs_remove`, lines 902-920. -/
def remove (cfg : Cfg K V) (m : Map V) (q : K) : Option (List (Stmt V) × Res V) :=
  match probe cfg m q .probe (bound cfg m (cfg.hash q)) with
  | none => none
  | some r => match r.obj, r.cur with
    | some o, some s => some ([.del s, .cnt (m.n - 1)], .obj (some o))
    | _, _ => some ([], .obj none)

/-- State of the loop of `ck_hs_gc`: the stores so far, the map after them, `cycles`, `maximum` and `bounds`. -/
structure Gc (V : Type) where
  out : List (Stmt V)
  m : Map V
  cycles : Nat
  stop : Bool
  maxi : Nat
  bnds : Nat → Nat

/-- `n_probes` as stored in a bound, lines 614-615 (also 305-306). -/
def sat (cfg : Cfg K V) (n : Nat) : Nat := if n > cfg.wmax then cfg.wmax else n

/-- `if (n_probes > bounds[offset]) bounds[offset] = n_probes`, lines 617-618. -/
def bumpB (b : Nat → Nat) (off n : Nat) : Nat → Nat := if n > b off then upd b off n else b

/-- The body of the loop of `ck_hs_gc`, lines 582-623, for the entry at `x`; `full`: `cycles == 0` at the start. -/
def gcBody (cfg : Cfg K V) (full : Bool) (g : Gc V) (x : Nat) : Option (Gc V) :=
  if g.stop then some g else
  match g.m.ent x with
  | .full v _ =>
    let h := cfg.hash (cfg.key v)
    match probe cfg g.m (cfg.key v) .probe (bound cfg g.m h) with
    | none => none
    | some r =>
      let l := moveTo cfg r v
      let g := { g with out := g.out ++ l, m := execs g.m l }
      let off := h &&& g.m.mask
      if full then
        some { g with maxi := if r.n > g.maxi then r.n else g.maxi, bnds := bumpB g.bnds off (sat cfg r.n) }
      else some { g with cycles := g.cycles - 1, stop := decide (g.cycles - 1 = 0) }
  | _ => some g

def gcLoop (cfg : Cfg K V) (full : Bool) : List Nat → Gc V → Option (Gc V)
  | [], g => some g
  | x :: xs, g => (gcBody cfg full g x).bind (gcLoop cfg full xs)

/-- `ck_hs_gc`, lines 555-642. -/
def gc (cfg : Cfg K V) (m : Map V) (cycles seed : Nat) (al : List Bool) : Option (List (Stmt V) × Res V) :=
  if m.n = 0 then
    some (.setMax 0 :: (if m.bnd.isSome then (List.range m.cap).map fun i => .setBnd i 0 else []), .bool true)
  else
    let go (_ : Unit) :=
      let full := decide (cycles = 0)
      match gcLoop cfg full ((List.range m.cap).map fun i => (i + seed) &&& m.mask)
          ⟨[], m, cycles, false, if full then 0 else m.maxi, fun _ => 0⟩ with
      | none => none
      | some g => some (g.out ++ (if g.maxi ≠ g.m.maxi then [.setMax g.maxi] else []) ++
          (if full ∧ m.bnd.isSome then (List.range m.cap).map fun i => .setBnd i (g.bnds i) else []), Res.bool true)
    if cycles = 0 ∧ m.bnd.isSome then
      match al with
      | [] => none
      | false :: _ => some ([], .denied)
      | true :: _ => go ()
    else go ()

/-- Operations of the writer. -/
inductive Op (K V : Type)
  | put (v : V)
  | putUnique (v : V)
  | set (v : V)
  | fas (v : V)
  | remove (q : K)
  | apply (q : K) (fn : Option V → Option V)
  | grow (c : Nat)
  | rebuild
  | gc (cycles seed : Nat)
  | reset
  | resetSize (c : Nat)

/-- `ck_hs_grow`, 332-403, as an operation of its own (also `ck_hs_rebuild`, 416-421). -/
def growOp (cfg : Cfg K V) (m : Map V) (c : Nat) (al : List Bool) : Option (List (Stmt V) × Res V) :=
  match grow cfg m c al with
  | none => none
  | some (none, _) => some ([], .denied)
  | some (some u, _) => some ([.publish u false], .bool true)

/-- `ck_hs_reset_size`, lines 254-267 (also `ck_hs_reset`, 269-276). -/
def resetOp (cfg : Cfg K V) (c : Nat) : List Bool → Option (List (Stmt V) × Res V)
  | [] => none
  | false :: _ => some ([], .denied)
  | true :: _ => some ([.publish (create cfg c) true], .bool true)

/-- The stores and the result of an operation started with map `m`; `al`: results of the calls of the allocator;
`none`: not finished with these allocations. -/
def prog (cfg : Cfg K V) (m : Map V) (al : List Bool) : Op K V → Option (List (Stmt V) × Res V)
  | .put v => withRoom cfg (cfg.key v) .insert (putTail cfg v) (al.length + 1) m al
  | .putUnique v => withRoom cfg (cfg.key v) .tombstone (putTail cfg v) (al.length + 1) m al
  | .set v => withRoom cfg (cfg.key v) .insert (setTail cfg v) (al.length + 1) m al
  | .fas v => fas cfg m v
  | .remove q => remove cfg m q
  | .apply q fn => withRoom cfg q .insert (applyTail cfg fn) (al.length + 1) m al
  | .grow c => growOp cfg m c al
  | .rebuild => growOp cfg m m.cap al
  | .gc cycles seed => gc cfg m cycles seed al
  | .reset => resetOp cfg m.cap al
  | .resetSize c => resetOp cfg c al

/-- `ck_hs_get`, lines 875-900, when nobody writes. -/
def get (cfg : Cfg K V) (m : Map V) (q : K) : Option (Option V) :=
  (probe cfg m q .probe (bound cfg m (cfg.hash q))).map (·.obj)

/-- `ck_hs_next`, lines 108-150: from `offset`, the object and the next offset. -/
def next (m : Map V) : Nat → Nat → Option (V × Nat)
  | 0, _ => none
  | fuel + 1, offset =>
    if offset ≥ m.cap then none
    else match m.ent offset with
      | .full v _ => some (v, offset + 1)
      | _ => next m fuel (offset + 1)

/-- `ck_hs_next` until it returns false. -/
def iterate (m : Map V) : Nat → Nat → List V
  | 0, _ => []
  | fuel + 1, offset => match next m (m.cap + 1) offset with
    | none => []
    | some (v, o) => v :: iterate m fuel o

end Verif.Hs
