import Verif.Core.Sys
import Verif.Misc.Internal

/-!
# Hash table (C49, C65): model of `src/ck_ht.c` in direct mode

Keys are the machine words other than `CK_HT_KEY_EMPTY` and `CK_HT_KEY_TOMBSTONE`, here a type `K`; values a type `V`;
`hash : K → Nat` is the hash callback (the API takes the hash as an argument, the contract is that it is the hash of
the key).

An operation of the (single) writer is a list of stores (`Stmt`), at the granularity of the C code (value and key of an
entry are stored separately), which `prog` computes from the map at the start of the operation: the writer is the only
one to write, so what it reads is what it wrote.  `exec` is the effect of one store.

Simplifications.  Byte string mode (`key_length`, the packed hash bits) is in `Bytes.lean`; the `retry` of
`ck_ht_map_probe_rd`, which only that mode reaches, is left out.  `entry->hash` is the hash of the key, so reading it and computing
it again (pointer packing) are the same.  Allocation is a list of booleans, one for every call of the allocator.  A map
under construction is not visible to anyone, so `ck_ht_grow_spmc` is a pure function and one store that publishes the
map.  Replaced maps are kept (the user defers `free`).  `map->deletions` is a natural number: fewer than `2 ^ 64`
increments.
-/

namespace Verif.Ht

open Verif

/-- What the user supplies, and the build configuration. -/
structure Cfg (K V : Type) where
  /-- hash callback -/
  hash : K → Nat
  /-- `CK_HT_WORKLOAD_DELETE`: per-bucket probe bounds -/
  del : Bool
  /-- `CK_HT_WORD_MAX`, lines 60-70 -/
  wmax : Nat
  /-- `CK_HT_PP`: pointer packing -/
  pp : Bool
  /-- what `memset` leaves in a value -/
  zero : V
  /-- the value whose bits are those of `CK_HT_KEY_TOMBSTONE` (line 880) -/
  tv : V
  /-- result of shifting a 64-bit hash by 64 or more, undefined in C (line 243) -/
  wild : Nat → Nat → Nat

/-- `entry->key`: `CK_HT_KEY_EMPTY`, `CK_HT_KEY_TOMBSTONE` or a key (`include/ck_ht.h`, lines 87-93). -/
inductive Key (K : Type)
  | empty
  | tomb
  | key (q : K)
deriving DecidableEq

/-- `struct ck_ht_entry`, `include/ck_ht.h`, lines 70-81. -/
structure Ent (K V : Type) where
  key : Key K
  val : V

/-- `struct ck_ht_map`, lines 79-93. -/
structure Map (K V : Type) where
  cap : Nat
  mask : Nat
  step : Nat
  limit : Nat
  maxi : Nat
  bnd : Option (Nat → Nat)
  ent : Nat → Ent K V
  dels : Nat
  n : Nat

variable {K V : Type} [DecidableEq K] [DecidableEq V]

/-- `CK_HT_BUCKET_SHIFT`, lines 46-50. -/
def Cfg.sh (cfg : Cfg K V) : Nat := if cfg.pp then 2 else 1

/-- `CK_HT_BUCKET_LENGTH`, line 52. -/
def Cfg.bl (cfg : Cfg K V) : Nat := 2 ^ cfg.sh

/-- Capacity chosen by `ck_ht_map_create`, lines 145-147; the argument of `ck_internal_power_2` is 32 bits wide. -/
def capOf (cfg : Cfg K V) (c : Nat) : Nat := Nat.max (Internal.power2 (BitVec.ofNat 32 c)).toNat cfg.bl

/-- `ck_ht_map_create`, lines 137-187. -/
def create (cfg : Cfg K V) (c : Nat) : Map K V :=
  let n := capOf cfg c
  { cap := n, mask := n - 1, step := n.log2 + 1, limit := Nat.max (n >>> (cfg.sh + 2)) 64, maxi := 0
    bnd := if cfg.del then some (fun _ => 0) else none, ent := fun _ => ⟨.empty, cfg.zero⟩, dels := 0, n := 0 }

/-- `ck_ht_map_probe_next`, lines 235-248.  `~CK_HT_BUCKET_MASK` is an `unsigned int`, so it also clears the upper half
of `r`. -/
def probeNext (cfg : Cfg K V) (mask step offset h probes : Nat) : Nat :=
  let level := probes >>> cfg.sh
  let r := if level < 64 then (h >>> step) >>> level else cfg.wild (h >>> step) level
  let stride := ((r &&& (2 ^ 32 - cfg.bl)) <<< 1) ||| (r &&& (cfg.bl - 1))
  ((offset + level + (stride ||| cfg.bl)) % 2 ^ 64) &&& mask

/-- Offset of the `i`-th bucket visited for hash `h`: lines 299, 358 (also 515, 588 and 701, 724). -/
def offs (cfg : Cfg K V) (mask step h : Nat) : Nat → Nat
  | 0 => h &&& mask
  | i + 1 => probeNext cfg mask step (offs cfg mask step h i) h (cfg.bl * (i + 1))

/-- Slot examined by the `k`-th probe (from 0) for hash `h`: lines 306-315 (also 522-532 and 705-709).  A bucket is a
cache line. -/
def slotAt (cfg : Cfg K V) (m : Map K V) (h k : Nat) : Nat :=
  let o := offs cfg m.mask m.step h (k / cfg.bl)
  o / cfg.bl * cfg.bl + (k % cfg.bl + o) % cfg.bl

/-- Number of probes within `probe_limit` buckets. -/
def Map.len (cfg : Cfg K V) (m : Map K V) : Nat := m.limit * cfg.bl

/-- `ck_ht_map_bound_get`, lines 210-225. -/
def bound (cfg : Cfg K V) (m : Map K V) (h : Nat) : Nat :=
  match m.bnd with
  | none => m.maxi
  | some b => if b (h &&& m.mask) = cfg.wmax then m.maxi else b (h &&& m.mask)

/-- `goto leave` in the probes: the slot is empty or holds the key, lines 331-335 (also 554-558); a tombstone and any
other key is passed over. -/
def stop (q : K) : Key K → Bool
  | .empty => true
  | .tomb => false
  | .key p => decide (p = q)

/-- What `ck_ht_map_probe_wr` returns, as numbers of probes (from 0): the cursor and `*available`.  `*probe_limit` is
the number of the cursor plus 1; `*probe_wr` is that of `*available` plus 1 (of the cursor plus 1 if there is none and
`probe_limit` is `NULL`). -/
structure PW where
  cur : Option Nat
  pr : Option Nat

/-- `ck_ht_map_probe_wr`, lines 276-380.  `lim`: `none` if the caller passes `probe_limit` (lines 292-296), otherwise
the bound; `probes++ > limit` admits `limit + 1` probes.  The cursor is the first slot that ends the probe; the first
tombstone before it is remembered. -/
def probeWr (cfg : Cfg K V) (m : Map K V) (q : K) (lim : Option Nat) : PW :=
  let len := match lim with | none => m.len cfg | some b => Nat.min (m.len cfg) (b + 1)
  let cur := (List.range len).find? fun k => stop q (m.ent (slotAt cfg m (cfg.hash q) k)).key
  { cur := cur
    pr := (List.range (cur.getD len)).find? fun k => decide ((m.ent (slotAt cfg m (cfg.hash q) k)).key = .tomb) }

/-- `ck_ht_map_probe_rd`, lines 493-598, when nobody writes: the number of the probe at which it leaves. -/
def probeRd (cfg : Cfg K V) (m : Map K V) (q : K) : Option Nat :=
  (List.range (Nat.min (m.len cfg) (bound cfg m (cfg.hash q) + 1))).find? fun k =>
    stop q (m.ent (slotAt cfg m (cfg.hash q) k)).key

/-- Stores of the writer.  Ghosts: the slot of `dels` is the tombstone about to be used again, the second slot of `key`
holds the key as well, the flag of `publish` tells whether the table is emptied. -/
inductive Stmt (K V : Type)
  | setMax (n : Nat)
  | setBnd (off n : Nat)
  | dels (x : Option Nat)
  | val (x : Nat) (v : V)
  | key (x : Nat) (q : K) (d : Option Nat)
  | tomb (x : Nat)
  | cnt (n : Nat)
  | publish (m : Map K V) (clear : Bool)

/-- Effect of a store on the current map. -/
def exec (m : Map K V) : Stmt K V → Map K V
  | .setMax n => { m with maxi := n }
  | .setBnd off n => { m with bnd := m.bnd.map fun b => upd b off n }
  | .dels _ => { m with dels := m.dels + 1 }
  | .val x v => { m with ent := upd m.ent x ⟨(m.ent x).key, v⟩ }
  | .key x q _ => { m with ent := upd m.ent x ⟨.key q, (m.ent x).val⟩ }
  | .tomb x => { m with ent := upd m.ent x ⟨.tomb, (m.ent x).val⟩ }
  | .cnt n => { m with n := n }
  | .publish m' _ => m'

def execs (m : Map K V) (l : List (Stmt K V)) : Map K V := l.foldl exec m

/-- `n_probes` as stored in a bound, lines 199-200 (also 466-467). -/
def sat (cfg : Cfg K V) (n : Nat) : Nat := if n ≥ cfg.wmax then cfg.wmax else n

/-- `ck_ht_map_bound_set`, lines 189-208. -/
def boundSet (cfg : Cfg K V) (m : Map K V) (h n : Nat) : List (Stmt K V) :=
  (if n > m.maxi then [.setMax n] else []) ++
    match m.bnd with
    | none => []
    | some b => if b (h &&& m.mask) < n then [.setBnd (h &&& m.mask) (sat cfg n)] else []

/-- Insertion of an entry into the new map, `ck_ht_grow_spmc`, lines 701-726: the first empty slot within the probe
limit. -/
def reinsert (cfg : Cfg K V) (u : Map K V) (e : Ent K V) : Option (Map K V) :=
  match e.key with
  | .key q =>
    let h := cfg.hash q
    match (List.range (u.len cfg)).find? fun k => decide ((u.ent (slotAt cfg u h k)).key = .empty) with
    | none => none
    | some k =>
      let u := { u with ent := upd u.ent (slotAt cfg u h k) e, n := u.n + 1 }
      some (execs u (boundSet cfg u h (k + 1)))
  | _ => some u

/-- The loop of `ck_ht_grow_spmc` over the entries of the old map, lines 674-735. -/
def rehash (cfg : Cfg K V) (m : Map K V) : List Nat → Map K V → Option (Map K V)
  | [], u => some u
  | k :: ks, u => (reinsert cfg u (m.ent k)).bind (rehash cfg m ks)

/-- `ck_ht_grow_spmc`, lines 655-741: the new map, or `none` if it returns false; and what is left of the
allocations. -/
def grow (cfg : Cfg K V) (m : Map K V) (c : Nat) : List Bool → Option (Option (Map K V) × List Bool)
  | [] => if m.cap ≥ c then some (none, []) else none
  | a :: al =>
    if m.cap ≥ c then some (none, a :: al)
    else if a = false then some (none, al)
    else match rehash cfg m (List.range m.cap) (create cfg c) with
      | some u => some (some u, al)
      | none => grow cfg m (c * 2 % 2 ^ 64) al

/-- Result of an operation of the writer.  `val`: `set` and `remove` hand out the previous value.  `denied`: the C
function returns false because `ck_ht_grow_spmc` returned false or an allocation failed. -/
inductive Res (V : Type)
  | bool (b : Bool)
  | val (o : Option V)
  | denied
deriving DecidableEq

/-- The load factor, lines 939-940 (also 1021-1022). -/
def postinsert (cfg : Cfg K V) (m : Map K V) (al : List Bool) : Option (List (Stmt K V)) :=
  if m.n * 2 > m.cap then
    match grow cfg m (m.cap * 2 % 2 ^ 64) al with
    | none => none
    | some (none, _) => some []
    | some (some u, _) => some [.publish u false]
  else some []

/-- The probe and `ck_ht_grow_spmc` until there is room, lines 828-855 (also 965-986); `f` is the rest of the
function. -/
def withRoom (cfg : Cfg K V) (q : K) (f : Map K V → PW → List Bool → Option (List (Stmt K V) × Res V)) :
    Nat → Map K V → List Bool → Option (List (Stmt K V) × Res V)
  | 0, _, _ => none
  | fuel + 1, m, al =>
    let r := probeWr cfg m q none
    if r.cur = none ∧ r.pr = none then
      match grow cfg m (m.cap * 2 % 2 ^ 64) al with
      | none => none
      | some (none, _) => some ([], .denied)
      | some (some u, al') => (withRoom cfg q f fuel u al').map fun p => (.publish u false :: p.1, p.2)
    else f m r al

/-- Slot of the `k`-th probe for key `q`. -/
def at_ (cfg : Cfg K V) (m : Map K V) (q : K) (k : Nat) : Nat := slotAt cfg m (cfg.hash q) k

/-- What a key slot holds. -/
def valOf (e : Ent K V) : Option V :=
  match e.key with
  | .key _ => some e.val
  | _ => none

/-- The stores of `ck_ht_set_spmc` into the table, lines 857-934: the first branch moves the entry from the cursor `c` to
the tombstone `f`, the second inserts or replaces. -/
def setStores (cfg : Cfg K V) (q : K) (v : V) (m : Map K V) (r : PW) : List (Stmt K V) :=
  match r.pr, r.cur with
  | some j, some c =>
    let f := at_ cfg m q j
    let s := at_ cfg m q c
    if (m.ent s).key ≠ .empty ∧ s ≠ f then
      (if (m.ent f).val = cfg.tv then [.dels (some f)] else []) ++ [.val f v, .key f q (some s), .dels none, .tomb s]
    else [.dels (some f), .val f v, .key f q none, .cnt (m.n + 1)]
  | some j, none => [.dels (some (at_ cfg m q j)), .val (at_ cfg m q j) v, .key (at_ cfg m q j) q none, .cnt (m.n + 1)]
  | none, some c =>
    let s := at_ cfg m q c
    .val s v :: .key s q none :: if (m.ent s).key ≠ .empty then [] else [.cnt (m.n + 1)]
  | none, none => []

/-- Number of probes that `ck_ht_set_spmc` and `ck_ht_put_spmc` pass to `ck_ht_map_bound_set`: lines 843, 872, 911
(also 996). -/
def probesOf (r : PW) : Nat :=
  match r.pr, r.cur with
  | some j, _ => j + 1
  | none, some c => c + 1
  | none, none => 0

/-- `ck_ht_set_spmc` after the probe, lines 857-952; the snapshot is what the cursor held (line 376). -/
def setTail (cfg : Cfg K V) (q : K) (v : V) (m : Map K V) (r : PW) (al : List Bool) :
    Option (List (Stmt K V) × Res V) :=
  let l := setStores cfg q v m r
  let l := l ++ boundSet cfg (execs m l) (cfg.hash q) (probesOf r)
  (postinsert cfg (execs m l) al).map fun l' =>
    (l ++ l', .val (r.cur.bind fun c => valOf (m.ent (at_ cfg m q c))))

/-- The stores of `ck_ht_put_spmc`, lines 988-1018, into slot `x`. -/
def putStores (cfg : Cfg K V) (q : K) (v : V) (m : Map K V) (r : PW) (x : Nat) : List (Stmt K V) :=
  (if r.pr.isSome then [.dels (some x)] else []) ++ boundSet cfg m (cfg.hash q) (probesOf r) ++
    [.val x v, .key x q none, .cnt (m.n + 1)]

/-- `ck_ht_put_spmc` after the probe, lines 988-1024.  A tombstone is used whatever the cursor holds. -/
def putTail (cfg : Cfg K V) (q : K) (v : V) (m : Map K V) (r : PW) (al : List Bool) :
    Option (List (Stmt K V) × Res V) :=
  let go (x : Nat) :=
    let l := putStores cfg q v m r x
    (postinsert cfg (execs m l) al).map fun l' => (l ++ l', Res.bool true)
  match r.pr, r.cur with
  | some j, _ => go (at_ cfg m q j)
  | none, some c => if (m.ent (at_ cfg m q c)).key ≠ .empty then some ([], .bool false) else go (at_ cfg m q c)
  | none, none => none

/-- `ck_ht_remove_spmc`, lines 743-773. -/
def remove (cfg : Cfg K V) (m : Map K V) (q : K) : List (Stmt K V) × Res V :=
  match probeRd cfg m q with
  | none => ([], .val none)
  | some k =>
    match valOf (m.ent (at_ cfg m q k)) with
    | none => ([], .val none)
    | some v => ([.tomb (at_ cfg m q k), .cnt (m.n - 1)], .val (some v))

/-- State of the loop of `ck_ht_gc`: the stores so far, the map after them, `cycles`, `maximum` and `bounds`. -/
structure Gc (K V : Type) where
  out : List (Stmt K V)
  m : Map K V
  cycles : Nat
  stop : Bool
  maxi : Nat
  bnds : Nat → Nat

/-- `if (probes_wr > bounds[offset]) bounds[offset] = probes_wr`, lines 469-470. -/
def bumpB (b : Nat → Nat) (off n : Nat) : Nat → Nat := if n > b off then upd b off n else b

/-- Moving an entry to the earlier slot, `ck_ht_gc`, lines 446-460. -/
def moveStores (cfg : Cfg K V) (m : Map K V) (q : K) (r : PW) : List (Stmt K V) :=
  match r.pr, r.cur with
  | some j, some c =>
    let f := at_ cfg m q j
    let s := at_ cfg m q c
    [.dels (some f), .val f (m.ent s).val, .key f q (some s), .dels none, .tomb s]
  | _, _ => []

/-- The body of the loop of `ck_ht_gc`, lines 414-474, for the entry at `x`; `full`: `cycles == 0` at the start. -/
def gcBody (cfg : Cfg K V) (full : Bool) (g : Gc K V) (x : Nat) : Gc K V :=
  if g.stop then g else
  match (g.m.ent x).key with
  | .key q =>
    let h := cfg.hash q
    let r := probeWr cfg g.m q (some (bound cfg g.m h))
    let l := moveStores cfg g.m q r
    let g := { g with out := g.out ++ l, m := execs g.m l }
    if full then
      { g with
        maxi := if probesOf r > g.maxi then probesOf r else g.maxi
        bnds := bumpB g.bnds (h &&& g.m.mask) (sat cfg (probesOf r)) }
    else { g with cycles := g.cycles - 1, stop := decide (g.cycles - 1 = 0) }
  | _ => g

/-- `ck_ht_gc`, lines 382-491. -/
def gc (cfg : Cfg K V) (m : Map K V) (cycles seed : Nat) (al : List Bool) : Option (List (Stmt K V) × Res V) :=
  if m.n = 0 then
    some (.setMax 0 :: (if m.bnd.isSome then (List.range m.cap).map fun i => .setBnd i 0 else []), .bool true)
  else
    let full := decide (cycles = 0)
    let g := ((List.range m.cap).map fun i => (i + seed) &&& m.mask).foldl (gcBody cfg full)
        ⟨[], m, cycles, false, if full then 0 else m.maxi, fun _ => 0⟩
    let l := g.out ++ (if g.maxi ≠ g.m.maxi then [.setMax g.maxi] else []) ++
      (if full ∧ m.bnd.isSome then (List.range m.cap).map fun i => .setBnd i (g.bnds i) else [])
    if cycles = 0 ∧ m.bnd.isSome then
      match al with
      | [] => none
      | false :: _ => some ([], .denied)
      | true :: _ => some (l, .bool true)
    else some (l, .bool true)

/-- Operations of the writer. -/
inductive Op (K V : Type)
  | put (q : K) (v : V)
  | set (q : K) (v : V)
  | remove (q : K)
  | grow (c : Nat)
  | gc (cycles seed : Nat)
  | reset
  | resetSize (c : Nat)
deriving DecidableEq

/-- `ck_ht_grow_spmc`, 655-741, as an operation of its own. -/
def growOp (cfg : Cfg K V) (m : Map K V) (c : Nat) (al : List Bool) : Option (List (Stmt K V) × Res V) :=
  match grow cfg m c al with
  | none => none
  | some (none, _) => some ([], .denied)
  | some (some u, _) => some ([.publish u false], .bool true)

/-- `ck_ht_reset_size_spmc`, lines 632-645 (also `ck_ht_reset_spmc`, 647-653). -/
def resetOp (cfg : Cfg K V) (c : Nat) : List Bool → Option (List (Stmt K V) × Res V)
  | [] => none
  | false :: _ => some ([], .denied)
  | true :: _ => some ([.publish (create cfg c) true], .bool true)

/-- The stores and the result of an operation started with map `m`; `al`: results of the calls of the allocator;
`none`: not finished with these allocations. -/
def prog (cfg : Cfg K V) (m : Map K V) (al : List Bool) : Op K V → Option (List (Stmt K V) × Res V)
  | .put q v => withRoom cfg q (putTail cfg q v) (al.length + 1) m al
  | .set q v => withRoom cfg q (setTail cfg q v) (al.length + 1) m al
  | .remove q => some (remove cfg m q)
  | .grow c => growOp cfg m c al
  | .gc cycles seed => gc cfg m cycles seed al
  | .reset => resetOp cfg m.cap al
  | .resetSize c => resetOp cfg c al

/-- `ck_ht_get_spmc`, lines 775-816, when nobody writes. -/
def get (cfg : Cfg K V) (m : Map K V) (q : K) : Option V :=
  (probeRd cfg m q).bind fun k => valOf (m.ent (at_ cfg m q k))

/-- `ck_ht_next`, lines 608-630: from `offset`, the entry and the next offset. -/
def next (m : Map K V) : Nat → Nat → Option ((K × V) × Nat)
  | 0, _ => none
  | fuel + 1, offset =>
    if offset ≥ m.cap then none
    else match (m.ent offset).key with
      | .key q => some ((q, (m.ent offset).val), offset + 1)
      | _ => next m fuel (offset + 1)

/-- `ck_ht_next` until it returns false. -/
def iterate (m : Map K V) : Nat → Nat → List (K × V)
  | 0, _ => []
  | fuel + 1, offset => match next m (m.cap + 1) offset with
    | none => []
    | some (e, o) => e :: iterate m fuel o

/-- A sequence of operations with their results, from map to map; every operation gets the allocations it needs. -/
inductive Hist (cfg : Cfg K V) : Map K V → List (Op K V × Res V) → Map K V → Prop
  | nil (m) : Hist cfg m [] m
  | cons {m m' : Map K V} {op al l res ops} : prog cfg m al op = some (l, res) → Hist cfg (execs m l) ops m' →
      Hist cfg m ((op, res) :: ops) m'

end Verif.Ht
