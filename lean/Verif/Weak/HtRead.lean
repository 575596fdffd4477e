import Verif.Weak.Put

/-!
# Readers of a hash table on relaxed memory (C99), `src/ck_ht.c`

One writer, any number of readers, one map, keys compared by their word (direct mode).  An entry is two words, so a reader may load the key of one entry and the value of another; the counter
`deletions` is there to notice.

The stores of the writer that readers can see (`ck_ht_gc`, lines 382-490; `ck_ht_remove_spmc` 743-773; `ck_ht_set_spmc` 818-953; `ck_ht_put_spmc` 955-1025):

* `incr`: a tombstone is going to be reused: `deletions` is incremented, a store fence;
* `value`, `key`: the value is stored, a store fence, the key is stored;
* `fresh`: the same for an empty slot, without the counter;
* `bare`: the same as `incr` and `value` for a key that is moved by `ck_ht_set_spmc`, without the counter: line 881 looks for the tombstone in the wrong word (found for C68);
* `incr2`, `tomb`: the old slot of a key that was moved becomes a tombstone, `deletions` is incremented before;
* `repl`, `rekey`: value and key of an entry are stored over the old value and the same key;
* `del`: the slot of a key becomes a tombstone, a store fence.

Which slots are used is left open: any empty slot, any tombstone; a reader looks at any slots (a superset of what probes do).  Readers run `ck_ht_get_spmc`, lines 775-816, and
`ck_ht_map_probe_rd`, lines 493-598, load by load; loads return any value the memory model allows.  Simplified: the map does not grow, `deletions` does not wrap, values of
entries with another key are not loaded.

A reader that is not in a call may `sync` with the writer between two of its operations: it then knows all stores so far (in the client).

Bookkeeping that no program step reads: `hist t`, content after `t` changes; `now`, number of changes; `b`, `now` at the last `sync` of a reader; `pos`, where a key is; `reu`, `now` after the
last reuse of a tombstone; `a` in `vload`.
-/

namespace Verif.Weak.HtRead

open Verif
open Fas (opt)

inductive Loc
  | del
  | key (x : Nat)
  | val (x : Nat)
deriving DecidableEq

inductive Val (K V : Type)
  | empty
  | tomb
  | key (k : K)
  | usr (v : V)
  | num (n : Nat)
deriving DecidableEq

def Val.toNat {K V : Type} : Val K V → Nat
  | .num n => n
  | _ => 0

/-- `wdel`: lines 452, 462, 883, 896, 913, 989; `wval`: lines 458, 887, 928, 1014; `wtmb`: lines 464, 770, 899; `rkey`: line 538.  Not in the code: `set`: line 881 compares the key; `rd1`: a load fence after
line 791; `rd2`: a load fence before line 801. -/
structure Fences where
  wdel : Bool
  wval : Bool
  wtmb : Bool
  rkey : Bool
  set : Bool
  rd1 : Bool
  rd2 : Bool
deriving DecidableEq

def real : Fences := { wdel := true, wval := true, wtmb := true, rkey := true, set := false, rd1 := false, rd2 := false }

/-- The code with three repairs. -/
def fixed : Fences := { real with set := true, rd1 := true, rd2 := true }

inductive WPC (K V : Type)
  | idle
  /-- about to store the value, then the key, to slot `x` -/
  | val (k : K) (x : Nat) (v : V)
  | key (k : K) (x : Nat) (v : V)
  /-- `k` is stored twice, `y` is the old slot -/
  | incr (k : K) (y : Nat)
  | tomb (k : K) (y : Nat)
  | rekey (k : K) (x : Nat)

inductive RPC (K V : Type)
  | idle
  /-- about to load `deletions`, line 791 -/
  | start (k : K)
  /-- about to load a key, line 537 -/
  | probe (k : K) (d : Nat)
  /-- has loaded message `a` of the key of slot `x`, about to load the value, line 541 -/
  | vload (k : K) (d x a : Nat)
  /-- about to load `deletions` again, line 801 -/
  | chk (k : K) (d : Nat) (res : Option V)
  /-- returned -/
  | ret (k : K) (res : Option V)
deriving DecidableEq

structure Rd (K V : Type) where
  th : Th Loc
  pc : RPC K V
  b : Nat

structure St (K V : Type) (n : Nat) where
  mem : Mem Loc (Val K V)
  w : Th Loc
  wpc : WPC K V
  rd : Fin n → Rd K V
  now : Nat
  hist : Nat → K → Option V
  pos : K → Option Nat
  reu : Nat

inductive Act (K V : Type) (n : Nat)
  | incr (k : K) (x : Nat) (v : V)
  | value
  | fresh (k : K) (x : Nat) (v : V)
  | bare (k : K) (x : Nat) (v : V)
  | key
  | incr2
  | tomb
  | repl (k : K) (v : V)
  | rekey
  | del (k : K)
  | sync (r : Fin n)
  | call (r : Fin n) (k : K)
  | dels (r : Fin n) (i : Nat)
  | probe (r : Fin n) (x i : Nat)
  | vload (r : Fin n) (i : Nat)
  | miss (r : Fin n)
  | chk (r : Fin n) (i : Nat)
  | leave (r : Fin n)

variable {K V : Type} [DecidableEq K] {n : Nat}

instance (p : WPC K V) : Decidable (p = .idle) := by cases p <;> first | exact isTrue rfl | exact isFalse (by simp)

instance (p : RPC K V) : Decidable (p = .idle) := by cases p <;> first | exact isTrue rfl | exact isFalse (by simp)

def isEmpty : Val K V → Bool
  | .empty => true
  | _ => false

def isTomb : Val K V → Bool
  | .tomb => true
  | _ => false

/-- `ck_ht_map_create`, lines 137-225. -/
def initSt : St K V n :=
  { mem := Mem.init fun l => match l with
      | .del => .num 0
      | _ => .empty
    w := Th.init, wpc := .idle, rd := fun _ => { th := Th.init, pc := .idle, b := 0 }
    now := 0, hist := fun _ _ => none, pos := fun _ => none, reu := 0 }

/-- A store of the writer, and a store fence. -/
def St.wput (s : St K V n) (l : Loc) (v : Val K V) (f : Bool) : St K V n :=
  { s with mem := s.mem.store s.w l v, w := opt f Th.fenceStore (s.w.store s.mem l) }

/-- The content changes. -/
def St.change (s : St K V n) (k : K) (v : Option V) (p : Option Nat) : St K V n :=
  { s with now := s.now + 1, hist := upd s.hist (s.now + 1) (upd (s.hist s.now) k v), pos := upd s.pos k p }

def St.setRd (s : St K V n) (r : Fin n) (q : Rd K V) : St K V n := { s with rd := upd s.rd r q }

/-- `deletions` is incremented. -/
def St.incr (s : St K V n) (f : Bool) : St K V n := s.wput .del (.num ((s.mem.last .del).toNat + 1)) f

/-- `fc` tells which fences and repairs exist. -/
def step (fc : Fences) (s : St K V n) : Act K V n → Option (St K V n)
  -- lines 451-452, 881-884, 911-914, 986-989
  | .incr k x v => if s.wpc = .idle ∧ isTomb (s.mem.last (.key x)) then some { s.incr fc.wdel with wpc := .val k x v } else none
  -- lines 457, 886, 927, 1013
  | .value =>
    match s.wpc with
    | .val k x v => some { s.wput (.val x) (.usr v) fc.wval with wpc := .key k x v, reu := s.now + 1 }
    | _ => none
  -- the same lines, slot empty
  | .fresh k x v =>
    if s.wpc = .idle ∧ s.pos k = none ∧ isEmpty (s.mem.last (.key x)) then some { s.wput (.val x) (.usr v) fc.wval with wpc := .key k x v } else none
  -- lines 881-887
  | .bare k x v =>
    if s.wpc = .idle ∧ fc.set = false ∧ s.pos k ≠ none ∧ isTomb (s.mem.last (.key x)) then
      some { s.wput (.val x) (.usr v) fc.wval with wpc := .key k x v, reu := s.now + 1 }
    else none
  -- lines 459-460, 888-889, 929, 1015
  | .key =>
    match s.wpc with
    | .key k x v =>
      match s.pos k with
      | none => some { (s.wput (.key x) (.key k) false).change k (some v) (some x) with wpc := .idle }
      | some y => some { (s.wput (.key x) (.key k) true).change k (some v) (some x) with wpc := .incr k y }
    | _ => none
  -- lines 461-462, 895-896
  | .incr2 =>
    match s.wpc with
    | .incr k y => some { s.incr fc.wdel with wpc := .tomb k y }
    | _ => none
  -- lines 463-464, 898-899
  | .tomb =>
    match s.wpc with
    | .tomb _ y => some { s.wput (.key y) .tomb fc.wtmb with wpc := .idle }
    | _ => none
  -- lines 927-928
  | .repl k v =>
    match s.pos k with
    | some x => if s.wpc = .idle then some { (s.wput (.val x) (.usr v) fc.wval).change k (some v) (some x) with wpc := .rekey k x } else none
    | none => none
  -- line 929
  | .rekey =>
    match s.wpc with
    | .rekey k x => some { s.wput (.key x) (.key k) false with wpc := .idle }
    | _ => none
  -- lines 769-770
  | .del k =>
    match s.pos k with
    | some x => if s.wpc = .idle then some ((s.wput (.key x) .tomb fc.wtmb).change k none none) else none
    | none => none
  | .sync r =>
    let q := s.rd r
    if q.pc = .idle ∧ s.wpc = .idle then some (s.setRd r { q with th := { q.th with cur := join q.th.cur s.w.cur }, b := s.now }) else none
  | .call r k =>
    let q := s.rd r
    if q.pc = .idle then some (s.setRd r { q with pc := .start k }) else none
  -- line 791
  | .dels r i =>
    let q := s.rd r
    match q.pc with
    | .start k =>
      if q.th.may s.mem .del i then
        some (s.setRd r { q with th := opt fc.rd1 Th.fenceLoad (q.th.load s.mem .del i), pc := .probe k (s.mem.msg .del i).val.toNat })
      else none
    | _ => none
  -- lines 537-538, 549-556
  | .probe r x i =>
    let q := s.rd r
    match q.pc with
    | .probe k d =>
      if q.th.may s.mem (.key x) i then
        let th := opt fc.rkey Th.fenceLoad (q.th.load s.mem (.key x) i)
        match (s.mem.msg (.key x) i).val with
        | .key k' => some (s.setRd r { q with th := th, pc := if k' = k then .vload k d x i else .probe k d })
        | .tomb => some (s.setRd r { q with th := th })
        | _ => some (s.setRd r { q with th := th, pc := .chk k d none })
      else none
    | _ => none
  -- line 541
  | .vload r i =>
    let q := s.rd r
    match q.pc with
    | .vload k d x _ =>
      if q.th.may s.mem (.val x) i then
        match (s.mem.msg (.val x) i).val with
        | .usr v => some (s.setRd r { q with th := q.th.load s.mem (.val x) i, pc := .chk k d (some v) })
        | _ => none
      else none
    | _ => none
  -- lines 526-527, 594
  | .miss r =>
    let q := s.rd r
    match q.pc with
    | .probe k d => some (s.setRd r { q with pc := .chk k d none })
    | _ => none
  -- lines 801-815
  | .chk r i =>
    let q := s.rd r
    match q.pc with
    | .chk k d res =>
      let th := opt fc.rd2 Th.fenceLoad q.th
      if th.may s.mem .del i then
        some (s.setRd r { q with th := th.load s.mem .del i, pc := if (s.mem.msg .del i).val.toNat = d then .ret k res else .start k })
      else none
    | _ => none
  | .leave r =>
    let q := s.rd r
    match q.pc with
    | .ret _ _ => some (s.setRd r { q with pc := .idle })
    | _ => none

def sys (fc : Fences) (K V : Type) [DecidableEq K] (n : Nat) : Sys (St K V n) (Act K V n) := { init := (· = initSt), step := step fc }

end Verif.Weak.HtRead
