import Verif.Core.Sys

/-!
# `ck_bitmap` (model), `include/ck_bitmap.h`, with the bit counting fall-backs of `include/ck_cc.h`

`unsigned int` has 32 bits (`CK_BITMAP_BLOCK = 32`).  A word index outside the buffer is an error:
every function that touches the buffer returns `none` if it would leave it.
-/

namespace Verif.Bitmap

/-- `struct ck_bitmap`, lines 117-121: `n_bits` and the buffer. -/
structure Bm where
  n : Nat
  map : Nat → BitVec 32

/-- `CK_BITMAP_BLOCKS`, line 52 (evaluated in `size_t`). -/
def blocks (n : Nat) : Nat := (n + 32 - 1) / 32

/-- Load of word `i`. -/
def ld (b : Bm) (i : Nat) : Option (BitVec 32) := if i < blocks b.n then some (b.map i) else none

/-- Read-modify-write of word `i`. -/
def rmw (b : Bm) (i : Nat) (f : BitVec 32 → BitVec 32) : Option Bm :=
  if i < blocks b.n then some { b with map := Verif.upd b.map i (f (b.map i)) } else none

/-- `CK_BITMAP_BIT`, line 50. -/
def bitOf (i : Nat) : BitVec 32 := 1#32 <<< (i % 32)

/-- `ck_bitmap_set`, lines 172-178. -/
def set (b : Bm) (i : Nat) : Option Bm := rmw b (i / 32) (· ||| bitOf i)

/-- `ck_bitmap_bts`, lines 186-192. -/
def bts (b : Bm) (i : Nat) : Option (Bool × Bm) := do
  let w ← ld b (i / 32)
  let b' ← rmw b (i / 32) (· ||| bitOf i)
  return (w.getLsbD (i % 32), b')

/-- `ck_bitmap_reset`, lines 197-203. -/
def reset (b : Bm) (i : Nat) : Option Bm := rmw b (i / 32) (· &&& ~~~ bitOf i)

/-- `ck_bitmap_test`, lines 209-216. -/
def test (b : Bm) (i : Nat) : Option Bool := do
  let w ← ld b (i / 32)
  return w &&& bitOf i != 0#32

/-- `for (n = i; n < i + c; n++) f(dst->map[n], src->map[n])`. -/
def zipLoop (f : BitVec 32 → BitVec 32 → BitVec 32) (src : Bm) : Nat → Nat → Bm → Option Bm
  | 0, _, d => some d
  | c + 1, i, d => do
    let w ← ld src i
    let d' ← rmw d i (f · w)
    zipLoop f src c (i + 1) d'

/-- `for (; n < i + c; n++) ck_pr_store_uint(&dst->map[n], 0)`. -/
def zeroLoop : Nat → Nat → Bm → Option Bm
  | 0, _, d => some d
  | c + 1, i, d => do
    let d' ← rmw d i (fun _ => 0#32)
    zeroLoop c (i + 1) d'

/-- `ck_bitmap_union`, lines 222-238. -/
def union (d s : Bm) : Option Bm :=
  zipLoop (· ||| ·) s (blocks (if s.n < d.n then s.n else d.n)) 0 d

/-- `ck_bitmap_intersection`, lines 245-266. -/
def inter (d s : Bm) : Option Bm := do
  let k := blocks (if s.n < d.n then s.n else d.n)
  let d' ← zipLoop (· &&& ·) s k 0 d
  zeroLoop (blocks d.n - k) k d'

/-- `ck_bitmap_intersection_negate`, lines 273-290. -/
def interNeg (d s : Bm) : Option Bm :=
  zipLoop (fun x y => x &&& ~~~ y) s (blocks (if s.n < d.n then s.n else d.n)) 0 d

/-- `ck_bitmap_clear`, lines 296-306 (`ck_bitmap_base / sizeof(unsigned int)`, lines 130-135). -/
def clear (b : Bm) : Option Bm := zeroLoop (blocks b.n * 4 / 4) 0 b

/-- `(1U << slop) - 1`. -/
def mask (slop : Nat) : BitVec 32 := (1#32 <<< slop) - 1#32

def trunc (limit n : Nat) : Nat := if limit > n then n else limit

/-- Loops of `empty`/`full`: all words of `[i, i + c)` equal `v`. -/
def allLoop (v : BitVec 32) (b : Bm) : Nat → Nat → Option Bool
  | 0, _ => some true
  | c + 1, i => do
    let w ← ld b i
    if w ≠ v then return false else allLoop v b c (i + 1)

/-- `ck_bitmap_empty`, lines 313-339. -/
def empty (b : Bm) (limit : Nat) : Option Bool := do
  let l := trunc limit b.n
  if !(← allLoop 0#32 b (l / 32) 0) then return false
  if l % 32 > 0 then
    let w ← ld b (l / 32)
    return w &&& mask (l % 32) == 0#32
  return true

/-- `ck_bitmap_full`, lines 345-369. -/
def isFull (b : Bm) (limit : Nat) : Option Bool := do
  let l := trunc limit b.n
  if !(← allLoop (BitVec.allOnes 32) b (l / 32) 0) then return false
  if l % 32 > 0 then
    let w ← ld b (l / 32)
    return ~~~ w &&& mask (l % 32) == 0#32
  return true

/-- `ck_cc_popcount`, `include/ck_cc.h:154-166`; the first argument bounds the iterations. -/
def popLoop : Nat → BitVec 32 → BitVec 32 → BitVec 32
  | 0, _, acc => acc
  | f + 1, x, acc => if x = 0#32 then acc else popLoop f (x >>> 1) (acc + (x &&& 1#32))

def popcount (x : BitVec 32) : BitVec 32 := popLoop 33 x 0#32

/-- `ck_cc_ctz`, `include/ck_cc.h:139-151`. -/
def ctzLoop : Nat → BitVec 32 → Nat → Nat
  | 0, _, i => i
  | f + 1, x, i => if x &&& 1#32 = 0#32 then ctzLoop f (x >>> 1) (i + 1) else i

def ctz (x : BitVec 32) : Nat := if x = 0#32 then 0 else ctzLoop 33 x 0

/-- The loops of `count` and `count_intersect`. -/
def countLoop (g : Nat → Option (BitVec 32)) : Nat → Nat → BitVec 32 → Option (BitVec 32)
  | 0, _, acc => some acc
  | c + 1, i, acc => do
    let w ← g i
    countLoop g c (i + 1) (acc + popcount w)

def countWith (g : Nat → Option (BitVec 32)) (l : Nat) : Option (BitVec 32) := do
  let acc ← countLoop g (l / 32) 0 0#32
  if l % 32 > 0 then
    let w ← g (l / 32)
    return acc + popcount (w &&& mask (l % 32))
  return acc

/-- `ck_bitmap_count`, lines 376-396. -/
def count (b : Bm) (limit : Nat) : Option (BitVec 32) := countWith (ld b) (trunc limit b.n)

/-- `ck_bitmap_count_intersect`, lines 403-434. -/
def countInter (x y : Bm) (limit : Nat) : Option (BitVec 32) :=
  countWith (fun i => do return (← ld x i) &&& (← ld y i)) (trunc (trunc limit x.n) y.n)

/-- `ck_bitmap_init`, lines 441-461; `old` is the previous content of the buffer. -/
def init (old : Nat → BitVec 32) (n : Nat) (set : Bool) : Option Bm :=
  let b : Bm := { n := n, map := fun i => if i < blocks n then (if set then BitVec.allOnes 32 else 0#32) else old i }
  if set ∧ n % 32 ≠ 0 then rmw b ((n - 1) / 32) (· &&& mask (n % 32)) else some b

/-- `struct ck_bitmap_iterator`, lines 123-128. -/
structure It where
  cache : BitVec 32
  block : Nat
  limit : Nat

/-- `ck_bitmap_iterator_init`, lines 466-479. -/
def itInit (b : Bm) : Option It :=
  if blocks b.n > 0 then do return { cache := ← ld b 0, block := 0, limit := blocks b.n }
  else some { cache := 0#32, block := 0, limit := blocks b.n }

/-- The loop of lines 496-500; `c` words are left.  The result is the stopping block and its content. -/
def scan (b : Bm) : Nat → Nat → Option (Option (BitVec 32) × Nat)
  | 0, i => some (none, i)
  | c + 1, i => do
    let w ← ld b i
    if w ≠ 0#32 then return (some w, i) else scan b c (i + 1)

/-- Lines 507-512. -/
def emit (it : It) (cache : BitVec 32) (block : Nat) : Option Nat × It :=
  (some (32 * block + ctz cache), { it with cache := cache &&& (cache - 1#32), block := block })

/-- `ck_bitmap_next`, lines 484-513; `some bit` is the result `true`. -/
def next (b : Bm) (it : It) : Option (Option Nat × It) :=
  if it.cache = 0#32 then
    if it.block ≥ it.limit then some (none, it)
    else do
      match ← scan b (it.limit - (it.block + 1)) (it.block + 1) with
      | (some w, i) => return emit it w i
      | (none, i) => return (none, { it with cache := 0#32, block := i })
  else some (emit it it.cache it.block)

end Verif.Bitmap
