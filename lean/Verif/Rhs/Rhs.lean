import Verif.Core.Sys
import Verif.Misc.Internal

/-!
# Robin-hood hash set (C50, C67): model of `src/ck_rhs.c`

As for `ck_hs`, the set holds objects of a type `V`; the comparison and hash callbacks of the user are `key : V → K`
(two objects compare equal iff their keys are equal) and `hash : K → Nat`, and the hash passed to the API is the hash of
the key.

Sequential: the model is the single writer (and a reader that runs while nobody writes), so `map->generation` and the
fences have no effect and are left out.  Pointer packing is left out: the packed bits are a function of the key, so
comparing them first does not change the result of a comparison.  `x & map->mask` is `x % cap` and
`x & map->offset_mask` is `x % ln`: `cap` and `ln` (entries per cache line of 64 bytes) are powers of two.  Unsigned
subtractions below such a mask are subtractions modulo `cap` or `ln` (`subMod`).  `unsigned short wanted` and
`uint8_t probe_bound` are kept within their types.

Functions return `Except Err`: `loop` is a loop of the C code that has not ended (within a number of rounds that is
sufficient whenever it ends at all, see the definitions), `deep` is the branch of `ck_rhs_put_robin_hood` taken after
512 displacements, `stale` is a store of `ck_rhs_fas` through a map that has been replaced.
-/

namespace Verif.Rhs

open Verif

/-- What the user supplies, and the build configuration. -/
structure Cfg (K V : Type) where
  /-- identity of an object under the comparison callback -/
  key : V → K
  /-- hash callback -/
  hash : K → Nat
  /-- `CK_RHS_MODE_READ_MOSTLY` -/
  rm : Bool
  /-- `CK_RHS_WORD_MAX`, line 60 -/
  wmax : Nat

/-- `struct ck_rhs_map` and its array of `struct ck_rhs_entry_desc`, lines 87-132; a field of the descriptors is a
function of the slot. -/
structure Map (V : Type) where
  cap : Nat
  limit : Nat
  pmax : Nat
  n : Nat
  maxEnt : Nat
  ent : Nat → Option V
  prb : Nat → Nat
  wnt : Nat → Nat
  bnd : Nat → Nat
  rh : Nat → Bool

inductive Err
  | loop
  | deep
  | stale
deriving DecidableEq

variable {K V : Type} [DecidableEq K] [DecidableEq V]

/-- `map->offset_mask + 1`, lines 383 and 390: entries (or descriptors) per cache line. -/
def Cfg.ln (cfg : Cfg K V) : Nat := if cfg.rm then 8 else 4

/-- Capacity chosen by `ck_rhs_map_create`, lines 342-344; the argument of `ck_internal_power_2` is 32 bits wide. -/
def capOf (c : Nat) : Nat := Nat.max (Internal.power2 (BitVec.ofNat 32 c)).toNat 8

/-- `ck_rhs_map_create`, lines 336-398. -/
def create (lf c : Nat) : Map V :=
  let n := capOf c
  { cap := n, limit := Nat.min (Nat.max (n >>> 5) 64) (2 ^ 32 - 1), pmax := 0, n := 0, maxEnt := n * lf / 100
    ent := fun _ => none, prb := fun _ => 0, wnt := fun _ => 0, bnd := fun _ => 0, rh := fun _ => false }

/-- `(o - p) & (n - 1)` on unsigned words. -/
def subMod (n o p : Nat) : Nat := (o + (n - p % n)) % n

/-- `ck_rhs_map_probe_next`, lines 424-436. -/
def next (ln cap o p : Nat) : Nat :=
  if p % ln ≠ 0 then o / ln * ln + (o + 1) % ln else (o + p) % cap

/-- `ck_rhs_map_probe_prev`, lines 438-449. -/
def prev (ln cap o p : Nat) : Nat :=
  if p % ln ≠ 0 then o / ln * ln + subMod ln o 1 else subMod cap o p

/-- The loop and the return value of `ck_rhs_get_first_offset`, lines 890-901; `p` goes down in every round. -/
def firstLoop (ln cap : Nat) : Nat → Nat → Nat → Nat
  | 0, o, p => o / ln * ln + subMod ln o (p - 1)
  | fuel + 1, o, p =>
    if p > ln then
      let o := subMod cap o ((p - 1) / ln * ln)
      firstLoop ln cap fuel (o / ln * ln + subMod ln o (ln - 1)) (p - ln)
    else o / ln * ln + subMod ln o (p - 1)

/-- `ck_rhs_get_first_offset`, lines 890-901. -/
def first (ln cap o p : Nat) : Nat := firstLoop ln cap p o p

/-- `ck_rhs_map_bound_set`, lines 452-475. -/
def boundSet (cfg : Cfg K V) (m : Map V) (h n : Nat) : Map V :=
  let m := if n > m.pmax then { m with pmax := n } else m
  if cfg.rm then m
  else if m.bnd (h % m.cap) < n then { m with bnd := upd m.bnd (h % m.cap) (if n > cfg.wmax then cfg.wmax else n) }
  else m

/-- `ck_rhs_map_bound_get`, lines 477-491. -/
def boundGet (cfg : Cfg K V) (m : Map V) (h : Nat) : Nat :=
  if cfg.rm then m.pmax
  else if m.bnd (h % m.cap) = cfg.wmax then m.pmax else m.bnd (h % m.cap)

/-! ## Probing -/

/-- `enum ck_rhs_probe_behavior`, lines 79-86. -/
inductive Beh
  | probe
  | rh
  | insert
  | robin
  | noRh
deriving DecidableEq

/-- What the probe returns: `*object`, the offset (`none`: -1), `*priority` (`none`: -1), `*n_probes`. -/
structure PR (V : Type) where
  obj : Option V
  slot : Option Nat
  pr : Option Nat
  n : Nat

/-- The end of the probe, lines 791-802 (677-688), after probe number `p`; `e` is what is in `k`. -/
def leave (o p lim : Nat) (pr : Option (Nat × Nat)) (e : Option V) : PR V :=
  { obj := if p > lim then none else e
    slot := if p > lim then none else some o
    pr := pr.map (·.1)
    n := match pr with | some x => x.2 | none => p }

/-- `behavior != NO_RH && pr == -1 && in_rh == false && probes < probes`, lines 750-754 (636-640). -/
def rich (m : Map V) (beh : Beh) (pr : Option (Nat × Nat)) (o p : Nat) : Bool :=
  decide (beh ≠ .noRh) && pr.isNone && !m.rh o && decide (m.prb o < p)

/-- The loop of `ck_rhs_map_probe`, lines 735-790 (`ck_rhs_map_probe_rm`, 620-676); `hit` is the comparison with the
key, `pr` is the first slot whose occupant may be displaced, with its `n_probes`.  It runs at most
`max lim opl + 1` rounds. -/
def probeLoop (cfg : Cfg K V) (m : Map V) (hit : V → Bool) (beh : Beh) (opl : Nat) :
    Nat → Nat → Nat → Nat → Option (Nat × Nat) → Except Err (PR V)
  | 0, _, _, _, _ => .error .loop
  | fuel + 1, o, p, lim, pr =>
    if p = lim ∧ (lim = opl ∨ pr.isSome) then .ok (leave o (p + 1) lim pr none)
    else
      let lim := if p = lim then opl else lim
      match m.ent o with
      | none => .ok (leave o (p + 1) lim pr none)
      | some v =>
        let rc := rich m beh pr o (p + 1)
        let pr := if rc then some (o, p + 1) else pr
        if rc ∧ (beh = .rh ∨ beh = .robin) then .ok (leave o (p + 1) lim pr none)
        else if beh ≠ .robin ∧ hit v then .ok (leave o (p + 1) lim pr (some v))
        else probeLoop cfg m hit beh opl fuel (next cfg.ln m.cap o (p + 1)) (p + 1) lim pr

/-- `ck_rhs_map_probe`, lines 691-803 (`ck_rhs_map_probe_rm`, 579-689), with a behavior other than
`CK_RHS_PROBE_ROBIN_HOOD`, for the key `q`. -/
def probe (cfg : Cfg K V) (m : Map V) (q : K) (beh : Beh) (opl : Nat) : Except Err (PR V) :=
  let lim := if beh = .insert ∧ cfg.rm = false then boundGet cfg m (cfg.hash q) else opl
  probeLoop cfg m (fun v => decide (cfg.key v = q)) beh opl (Nat.max lim opl + 2) (cfg.hash q % m.cap) 0 lim none

/-- The same with `CK_RHS_PROBE_ROBIN_HOOD`, lines 725-730 (612-617): go on from slot `o`, which is probe number
`n`. -/
def probeRobin (cfg : Cfg K V) (m : Map V) (o n : Nat) : Except Err (PR V) :=
  probeLoop cfg m (fun _ => false) .robin m.limit (m.limit + 2) (next cfg.ln m.cap o n) n m.limit none

/-! ## The counters of `wanted` -/

/-- Lines 860-861. -/
def incW (m : Map V) (o : Nat) : Map V :=
  if m.wnt o < 65535 then { m with wnt := upd m.wnt o (m.wnt o + 1) } else m

/-- Lines 883-884. -/
def decW (m : Map V) (o : Nat) : Map V :=
  if m.wnt o ≠ 65535 then { m with wnt := upd m.wnt o ((m.wnt o + 65535) % 65536) } else m

/-- The loop of `ck_rhs_add_wanted`, lines 855-865. -/
def addLoop (ln stop : Nat) (old : Option Nat) : Nat → Nat → Nat → Bool → Map V → Except Err (Map V)
  | 0, _, _, _, _ => .error .loop
  | fuel + 1, o, p, found, m =>
    if o = stop then .ok m
    else
      let found := found || decide (some o = old)
      addLoop ln stop old fuel (next ln m.cap o p) (p + 1) found (if found then incW m o else m)

/-- `ck_rhs_add_wanted`, lines 841-866.  The first `cap` probes visit all slots. -/
def addWanted (cfg : Cfg K V) (m : Map V) (stop : Nat) (old : Option Nat) (h : Nat) : Except Err (Map V) :=
  addLoop cfg.ln stop old (m.cap + 1) (h % m.cap) 1 old.isNone m

/-- The loop of `ck_rhs_remove_wanted`, lines 876-886; `p` is `probes - 1`. -/
def remLoop (ln : Nat) (lim : Option Nat) : Nat → Nat → Bool → Map V → Map V × Nat
  | 0, o, _, m => (m, o)
  | p + 1, o, rem, m =>
    let o := prev ln m.cap o (p + 1)
    let rem := rem && !decide (some o = lim)
    remLoop ln lim p o rem (if rem then decW m o else m)

/-- `ck_rhs_remove_wanted`, lines 868-888. -/
def remWanted (cfg : Cfg K V) (m : Map V) (o : Nat) (lim : Option Nat) : Map V × Nat :=
  remLoop cfg.ln lim (m.prb o - 1) o true m

/-! ## Displacement -/

/-- What `ck_rhs_put_robin_hood` comes to: 0, or the slots are exhausted (1 or -1, depending on `ck_rhs_grow`); the
map of the second case is the one of lines 941-949, which is replaced if `ck_rhs_grow` succeeds. -/
inductive Rh (V : Type)
  | done (m : Map V)
  | full (m : Map V)

/-- The loop of lines 982-994; `cur` is `orig_slot`, and `desc` is its descriptor. -/
def unwind (cfg : Cfg K V) : List (Nat × Nat) → Nat → Map V → Except Err (Map V)
  | [], _, m => .ok m
  | (p, _) :: ch, cur, m => do
    let m := { m with ent := upd m.ent cur (m.ent p) }
    let m ← addWanted cfg m cur (some p) (first cfg.ln m.cap cur (m.prb cur))
    unwind cfg ch p { m with rh := upd m.rh cur false }

/-- Lines 941-949: the fields are put back. -/
def restore : List (Nat × Nat) → Nat → Map V → Map V
  | [], cur, m => { m with rh := upd m.rh cur false }
  | (p, old) :: ch, cur, m => restore ch p { m with prb := upd m.prb cur old, rh := upd m.rh cur false }

/-- `ck_rhs_put_robin_hood`, lines 905-996, from the label `restart`.  `cur` is `first`; `ch` holds `prevs` and
`prev_probes`, last element first. -/
def robin (cfg : Cfg K V) : Nat → Map V → Nat → Nat → List (Nat × Nat) → Except Err (Rh V)
  | 0, _, _, _, _ => .error .deep
  | fuel + 1, m, cur, n, ch => do
    let m := { m with rh := upd m.rh cur true }
    let r ← probeRobin cfg m cur n
    match r.pr, r.slot with
    | none, none => .ok (.full (restore ch cur m))
    | some f, _ =>
      let old := m.prb f
      let m := { m with prb := upd m.prb f r.n }
      let m := boundSet cfg m (first cfg.ln m.cap f r.n) r.n
      robin cfg fuel m f old ((cur, old) :: ch)
    | none, some s =>
      let h := first cfg.ln m.cap s r.n
      let m := boundSet cfg m h r.n
      let m := { m with ent := upd m.ent s (m.ent cur), prb := upd m.prb s r.n, rh := upd m.rh cur false }
      let m ← addWanted cfg m s (some cur) h
      (unwind cfg ch cur m).map .done

/-- `ck_rhs_put_robin_hood`, lines 905-996.  `CK_RHS_MAX_RH` is 512; the probe after as many displacements has another
behavior (lines 936-937), which is not modelled. -/
def putRobin (cfg : Cfg K V) (m : Map V) (f : Nat) : Except Err (Rh V) := robin cfg 512 m f (m.prb f) []

/-! ## Deletion -/

/-- The inner loop of lines 1017-1024; the first argument is `probe_maximum - probe`. -/
def findIn (ln : Nat) (m : Map V) : Nat → Nat → Nat → Option (Nat × Nat)
  | 0, _, _ => none
  | r + 1, o, p => if m.prb o = p + 1 then some (o, p) else findIn ln m r (next ln m.cap o (p + 1)) (p + 1)

/-- The outer loop of lines 1014-1028; the first argument is `probe_maximum - wanted_probes`.  Returns
`wanted_probes`, `offset`, `probe`. -/
def findSucc (ln : Nat) (m : Map V) (slot : Nat) : Nat → Nat → Option (Nat × Nat × Nat)
  | 0, _ => none
  | r + 1, i => match findIn ln m (m.pmax - i) (next ln m.cap slot i) i with
    | some (o, p) => some (i, o, p)
    | none => findSucc ln m slot r (i + 1)

/-- The loop of lines 1055-1060, and whether `probe == max_probes` after it; the first argument is
`max_probes - probe`. -/
def scan (ln cap h : Nat) : Nat → Nat → Nat → Bool
  | 0, _, _ => true
  | r + 1, o, p => if h = first ln cap o p then false else scan ln cap h r (next ln cap o (p + 1)) (p + 1)

/-- Lines 1039-1065. -/
def shrink (cfg : Cfg K V) (m : Map V) (h i o p : Nat) : Map V :=
  if i < cfg.wmax then
    if m.wnt h = 1 then { m with bnd := upd m.bnd h i }
    else if m.bnd h = cfg.wmax ∨ m.bnd h = m.prb o then
      let mx := if m.bnd h = cfg.wmax then m.pmax else m.bnd h - 1
      if p + 1 ≤ mx ∧ scan cfg.ln m.cap h (mx - (p + 1)) (next cfg.ln m.cap o (p + 1)) (p + 1) = true then
        { m with bnd := upd m.bnd h i }
      else m
    else m
  else m

/-- The loop of `ck_rhs_do_backward_shift_delete`, lines 1007-1070.  Every round moves an entry to a smaller probe
number. -/
def shift (cfg : Cfg K V) : Nat → Map V → Nat → Nat → Except Err (Map V × Nat × Nat)
  | 0, _, _, _ => .error .loop
  | fuel + 1, m, slot, h =>
    if m.wnt slot > 0 then
      match findSucc cfg.ln m slot (m.pmax - 1) 1 with
      | none => .ok ({ m with wnt := upd m.wnt slot 0 }, slot, h)
      | some (i, o, p) =>
        let m := { m with prb := upd m.prb slot i }
        let (m, h) := remWanted cfg m o (some slot)
        let m := { m with ent := upd m.ent slot (m.ent o) }
        let m := shrink cfg m h i o p
        let m := if m.wnt slot < 65535 then { m with wnt := upd m.wnt slot (m.wnt slot - 1) } else m
        shift cfg fuel m o h
    else .ok (m, slot, h)

/-- Lines 1071-1075. -/
def clear (cfg : Cfg K V) (m : Map V) (slot h : Nat) : Map V :=
  let m := { m with ent := upd m.ent slot none }
  let m := if 1 ≤ m.prb slot ∧ m.prb slot - 1 < cfg.wmax then { m with bnd := upd m.bnd h (m.prb slot - 1) } else m
  { m with prb := upd m.prb slot 0 }

/-- `ck_rhs_do_backward_shift_delete`, lines 998-1076. -/
def delete (cfg : Cfg K V) (m : Map V) (slot : Nat) : Except Err (Map V) := do
  let (m, h) := remWanted cfg m slot none
  let (m, slot, h) ← shift cfg (m.cap * (m.limit + 1) + 1) m slot h
  .ok (clear cfg m slot h)

/-! ## Growth -/

/-- The loop of lines 526-562 for the object `v`, `p` probes done.  `none`: the probe limit is hit.  A round that does
not displace an entry raises the sum of the probe numbers, which is at most `(cap + 1) * limit`; after a round that
does follows one that does not. -/
def reinsert (cfg : Cfg K V) : Nat → Map V → V → Nat → Nat → Except Err (Option (Map V))
  | 0, _, _, _, _ => .error .loop
  | fuel + 1, u, v, o, p =>
    if p = u.limit then .ok none
    else match u.ent o with
      | none =>
        let u := { u with ent := upd u.ent o (some v), n := u.n + 1, prb := upd u.prb o (p + 1) }
        .ok (some (boundSet cfg u (cfg.hash (cfg.key v)) (p + 1)))
      | some w =>
        if u.prb o < p + 1 then
          let u := boundSet cfg { u with ent := upd u.ent o (some v) } (cfg.hash (cfg.key v)) (p + 1)
          reinsert cfg fuel { u with prb := upd u.prb o (p + 1) } w o (u.prb o - 1)
        else
          reinsert cfg fuel { u with wnt := upd u.wnt o ((u.wnt o + 1) % 65536) } v
            (next cfg.ln u.cap o (p + 1)) (p + 1)

/-- The loop of `ck_rhs_grow` over the slots of the old map, lines 510-564. -/
def rehash (cfg : Cfg K V) (m : Map V) : List Nat → Map V → Except Err (Option (Map V))
  | [], u => .ok (some u)
  | k :: ks, u => match m.ent k with
    | none => rehash cfg m ks u
    | some v => do
      match ← reinsert cfg (2 * (u.cap + 1) * (u.limit + 2)) u v (cfg.hash (cfg.key v) % u.cap) 0 with
      | none => .ok none
      | some u => rehash cfg m ks u

/-- The allocator: for each call, whether it succeeds, as a function of the number of slots asked for; calls beyond the
list fail. -/
abbrev Alloc := List (Nat → Bool)

/-- `ck_rhs_grow`, lines 493-570: the new map, or `none` if it returns false, and the rest of the allocator. -/
def grow (cfg : Cfg K V) (lf : Nat) (m : Map V) (c : Nat) : Alloc → Except Err (Option (Map V) × Alloc)
  | [] => .ok (none, [])
  | a :: al =>
    if m.cap > c then .ok (none, a :: al)
    else if a (capOf c) = false then .ok (none, al)
    else do
      match ← rehash cfg m (List.range m.cap) (create lf c) with
      | some u => .ok (some u, al)
      | none => grow cfg lf m (c * 2 % 2 ^ 64) al

/-! ## Operations -/

/-- `struct ck_rhs`: the current map and the load factor. -/
structure Hs (V : Type) where
  m : Map V
  lf : Nat

/-- Result of an operation of the writer.  `denied`: the C function returns false because `ck_rhs_grow` returned false
or an allocation failed. -/
inductive Res (V : Type)
  | bool (b : Bool)
  | obj (o : Option V)
  | prev (b : Bool) (o : Option V)
  | denied
deriving DecidableEq

/-- `desc->in_rh = b` if there is a slot, lines 1273-1280. -/
def mark (m : Map V) (b : Bool) : Option Nat → Map V
  | none => m
  | some s => { m with rh := upd m.rh s b }

/-- Storing `v` after the probe `r`, `ck_rhs_set`, lines 1268-1312 (`ck_rhs_apply`, 1187-1234,
`ck_rhs_put_internal`, 1353-1372, where the object is absent and `in_rh` of the slot is left alone: `mk`). -/
def place (cfg : Cfg K V) (mk : Bool) (m : Map V) (r : PR V) (v : V) : Except Err (Rh V) := do
  let h := cfg.hash (cfg.key v)
  let m := boundSet cfg m h r.n
  let sl := if mk then r.slot else none
  match r.pr, r.slot with
  | some f, s => do
    match ← putRobin cfg (mark m true sl) f with
    | .full m => .ok (.full (mark m false sl))
    | .done m =>
      let m := mark m false sl
      let m := { m with ent := upd m.ent f (some v), prb := upd m.prb f r.n }
      let m ← addWanted cfg m f none h
      match r.obj, s with
      | some _, some s => (delete cfg m s).map .done
      | _, _ => .ok (.done m)
  | none, some s =>
    let m := { m with ent := upd m.ent s (some v), prb := upd m.prb s r.n }
    if r.obj.isSome then .ok (.done m) else (addWanted cfg m s none h).map .done
  | none, none => .ok (.full m)

/-- `map->n_entries++` and what follows, lines 1314-1318 (1236-1240, 1374-1376); the result of `ck_rhs_grow` is
ignored. -/
def postinsert (cfg : Cfg K V) (lf : Nat) (m : Map V) (al : Alloc) : Except Err (Map V) := do
  let m := { m with n := m.n + 1 }
  if m.n > m.maxEnt then
    match ← grow cfg lf m (m.cap * 2 % 2 ^ 64) al with
    | (some u, _) => .ok u
    | (none, _) => .ok m
  else .ok m

/-- The probe with `goto restart` after `ck_rhs_grow`, `ck_rhs_set`, lines 1258-1320 (`ck_rhs_apply`, 1154-1241,
`ck_rhs_put_internal`, 1336-1377).  `f` tells from the object found what to store: `inl` is a result without a change
of the map, `inr none` a deletion.  A round that ends in `goto restart` has made an allocation. -/
def withRoom (cfg : Cfg K V) (lf : Nat) (q : K) (beh : Beh) (mk : Bool)
    (f : Option V → Sum (Res V) (Option V × Res V)) :
    Nat → Map V → Alloc → Except Err (Map V × Res V)
  | 0, _, _ => .error .loop
  | fuel + 1, m, al => do
    let r ← probe cfg m q beh m.limit
    if r.slot = none ∧ r.pr = none then
      match ← grow cfg lf m (m.cap * 2 % 2 ^ 64) al with
      | (none, _) => .ok (m, .denied)
      | (some u, al) => withRoom cfg lf q beh mk f fuel u al
    else match f r.obj with
      | .inl res => .ok (m, res)
      | .inr (none, res) => match r.slot with
        | some s => (delete cfg m s).map fun m => (m, res)
        | none => .ok (m, res)
      | .inr (some v, res) => do
        match ← place cfg mk m r v with
        | .full m =>
          match ← grow cfg lf m (m.cap * 2 % 2 ^ 64) al with
          | (none, _) => .ok (m, .denied)
          | (some u, al) => withRoom cfg lf q beh mk f fuel u al
        | .done m =>
          if r.obj.isSome then .ok (m, res) else (postinsert cfg lf m al).map fun m => (m, res)

/-- `ck_rhs_put_internal`, lines 1349-1351 and 1377. -/
def putF (v : V) : Option V → Sum (Res V) (Option V × Res V)
  | some _ => .inl (.bool false)
  | none => .inr (some v, .bool true)

/-- `ck_rhs_set`, lines 1320-1321. -/
def setF (v : V) (o : Option V) : Sum (Res V) (Option V × Res V) := .inr (some v, .prev true o)

/-- `ck_rhs_apply`, lines 1164-1184; the function is called once, with the object found first. -/
def applyF (fn : Option V → Option V) (o : Option V) : Sum (Res V) (Option V × Res V) :=
  match fn o, o with
  | none, none => .inl (.bool true)
  | none, some _ => .inr (none, .bool true)
  | some w, o => if some w = o then .inl (.bool true) else .inr (some w, .bool true)

/-- `ck_rhs_fas`, lines 1078-1126.  After a `goto restart` the local variable `map` still is the old map. -/
def fas (cfg : Cfg K V) (lf : Nat) (m : Map V) (v : V) (al : Alloc) : Except Err (Map V × Res V) := do
  let h := cfg.hash (cfg.key v)
  let r ← probe cfg m (cfg.key v) .probe (boundGet cfg m h)
  match r.obj, r.pr, r.slot with
  | some o, some f, some s => do
    match ← putRobin cfg { m with rh := upd m.rh s true } f with
    | .full m =>
      match ← grow cfg lf m (m.cap * 2 % 2 ^ 64) al with
      | (none, _) => .ok ({ m with rh := upd m.rh s false }, .denied)
      | (some _, _) => .error .stale
    | .done m =>
      let m := { m with rh := upd m.rh s false, ent := upd m.ent f (some v), prb := upd m.prb f r.n }
      let m ← addWanted cfg m f none h
      let m ← delete cfg m s
      .ok (m, .prev true (some o))
  | some o, none, some s =>
    .ok ({ m with ent := upd m.ent s (some v), prb := upd m.prb s r.n }, .prev true (some o))
  | _, _, _ => .ok (m, .prev false none)

/-- `ck_rhs_remove`, lines 1427-1445. -/
def remove (cfg : Cfg K V) (m : Map V) (q : K) : Except Err (Map V × Res V) := do
  let r ← probe cfg m q .noRh (boundGet cfg m (cfg.hash q))
  match r.obj, r.slot with
  | some o, some s => (delete cfg { m with n := m.n - 1 } s).map fun m => (m, .obj (some o))
  | _, _ => .ok (m, .obj none)

/-- `ck_rhs_gc`, lines 826-839. -/
def gc (m : Map V) : Map V := { m with pmax := (List.range m.cap).foldl (fun a i => Nat.max a (m.prb i)) 0 }

/-- Operations of the writer. -/
inductive Op (K V : Type)
  | put (v : V)
  | putUnique (v : V)
  | set (v : V)
  | fas (v : V)
  | remove (q : K)
  | apply (q : K) (fn : Option V → Option V)
  | grow (c : Nat)
  | rebuild
  | gc
  | reset
  | resetSize (c : Nat)
  | loadFactor (lf : Nat)

/-- `ck_rhs_grow` as an operation of its own (also `ck_rhs_rebuild`, 572-577). -/
def growOp (cfg : Cfg K V) (s : Hs V) (c : Nat) (al : Alloc) : Except Err (Hs V × Res V) := do
  match ← grow cfg s.lf s.m c al with
  | (none, _) => .ok (s, .denied)
  | (some u, _) => .ok ({ s with m := u }, .bool true)

/-- `ck_rhs_reset_size`, lines 400-413 (also `ck_rhs_reset`, 415-422). -/
def resetOp (s : Hs V) (c : Nat) : Alloc → Hs V × Res V
  | [] => (s, .denied)
  | a :: _ => if a (capOf c) = true then ({ s with m := create s.lf c }, .bool true) else (s, .denied)

/-- The loop of `ck_rhs_set_load_factor`, lines 261-265. -/
def lfLoop (cfg : Cfg K V) (lf : Nat) : Nat → Map V → Alloc → Except Err (Hs V × Res V)
  | 0, _, _ => .error .loop
  | fuel + 1, m, al =>
    if m.n > m.maxEnt then do
      match ← grow cfg lf m (m.cap * 2 % 2 ^ 64) al with
      | (none, _) => .ok (⟨m, lf⟩, .denied)
      | (some u, al) => lfLoop cfg lf fuel u al
    else .ok (⟨m, lf⟩, .bool true)

/-- `ck_rhs_set_load_factor`, lines 251-267. -/
def loadFactor (cfg : Cfg K V) (s : Hs V) (lf : Nat) (al : Alloc) : Except Err (Hs V × Res V) :=
  if lf = 0 ∨ lf > 100 then .ok (s, .bool false)
  else lfLoop cfg lf (al.length + 1) { s.m with maxEnt := s.m.cap * lf / 100 } al

/-- The map and the result of an operation; `al`: the allocator. -/
def step (cfg : Cfg K V) (s : Hs V) (al : Alloc) : Op K V → Except Err (Hs V × Res V)
  | .put v => (withRoom cfg s.lf (cfg.key v) .insert false (putF v) (al.length + 1) s.m al).map fun p => (⟨p.1, s.lf⟩, p.2)
  | .putUnique v => (withRoom cfg s.lf (cfg.key v) .rh false (putF v) (al.length + 1) s.m al).map fun p => (⟨p.1, s.lf⟩, p.2)
  | .set v => (withRoom cfg s.lf (cfg.key v) .insert true (setF v) (al.length + 1) s.m al).map fun p => (⟨p.1, s.lf⟩, p.2)
  | .fas v => (fas cfg s.lf s.m v al).map fun p => (⟨p.1, s.lf⟩, p.2)
  | .remove q => (remove cfg s.m q).map fun p => (⟨p.1, s.lf⟩, p.2)
  | .apply q fn => (withRoom cfg s.lf q .insert true (applyF fn) (al.length + 1) s.m al).map fun p => (⟨p.1, s.lf⟩, p.2)
  | .grow c => growOp cfg s c al
  | .rebuild => growOp cfg s s.m.cap al
  | .gc => .ok ({ s with m := gc s.m }, .bool true)
  | .reset => .ok (resetOp s s.m.cap al)
  | .resetSize c => .ok (resetOp s c al)
  | .loadFactor lf => loadFactor cfg s lf al

/-- `ck_rhs_init`, lines 1468 ff. (`CK_RHS_DEFAULT_LOAD_FACTOR` is 50). -/
def init (c : Nat) : Hs V := ⟨create 50 c, 50⟩

/-- `ck_rhs_get`, lines 1398-1425, when nobody writes. -/
def get (cfg : Cfg K V) (m : Map V) (q : K) : Except Err (Option V) :=
  (probe cfg m q .noRh (boundGet cfg m (cfg.hash q))).map (·.obj)

/-- `ck_rhs_count`, lines 313-318. -/
def count (s : Hs V) : Nat := s.m.n

/-- `ck_rhs_next`, lines 278-301: from `offset`, the object and the next offset. -/
def nextObj (m : Map V) : Nat → Nat → Option (V × Nat)
  | 0, _ => none
  | fuel + 1, offset =>
    if offset ≥ m.cap then none
    else match m.ent offset with
      | some v => some (v, offset + 1)
      | none => nextObj m fuel (offset + 1)

/-- `ck_rhs_next` until it returns false. -/
def iterate (m : Map V) : Nat → Nat → List V
  | 0, _ => []
  | fuel + 1, offset => match nextObj m (m.cap + 1) offset with
    | none => []
    | some (v, o) => v :: iterate m fuel o

end Verif.Rhs
