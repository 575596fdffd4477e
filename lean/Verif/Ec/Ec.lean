import Verif.Core.Lin

/-!
# Event counts, `include/ck_ec.h` and `src/ck_ec.c`

`ck_ec32` and `ck_ec64` differ in where the flag bit lives; the code is otherwise the same macro text.  `Fmt`
collects the word operations, `F32` and `F64` are the two formats, `step` is the code over a format.

* Every access to `counter` is one step.  In multi-producer mode an update is one atomic `faa` (or
  `lock incl`).  In single-producer mode (`sp = some p0`, x86 only) the update is one non-atomic
  read-modify-write instruction: it is modelled as a load and a later store, between which other threads may
  step, which over-approximates the store buffer forwarding the header describes (lines 166-186).
* `ops->wait32/wait64` is a futex: the comparison of the counter with the expected word and falling asleep are
  one step.  A sleeper may return at any time (time-out, signal, spurious).  `ops->wake32/wake64` wakes all.
* Spin counts, the clock and the predicate are arbitrary: `wait_easy` may stop or go on after every load equal
  to the expected word, each test of the deadline may succeed, the predicate may return anything.
  The deadline arithmetic is in `Misc/TimeUtil.lean` and `Ec/Backoff.lean`.
* `old_value` passed to wait is a value of the counter type, at most INT32_MAX or INT64_MAX (header, line 113).

Ghost state: `since t`, the sum of the increments since `t` last compared the whole word (or since the call).
-/

namespace Verif.Ec

open Verif Verif.Lin

/-- The word operations of one width. -/
structure Fmt (n : Nat) where
  /-- `ck_ec_value` of a word -/
  value : BitVec n → BitVec n
  /-- the word `unflagged_word` of a value -/
  unfl : BitVec n → BitVec n
  /-- the word `flagged_word` of a value -/
  fl : BitVec n → BitVec n
  /-- `ck_ec_has_waiters` of a word, and the test of the epilogue of add -/
  flagged : BitVec n → Bool
  /-- the `ck_pr_and` of `ck_ec_wake` -/
  clear : BitVec n → BitVec n
  /-- what add adds to the word -/
  amt : BitVec n → BitVec n
  /-- whether inc calls `ck_ec_wake`, from the word before it -/
  incWakes : BitVec n → Bool
  /-- the comparison made by the futex call: first the counter, then the expected word -/
  futEq : BitVec n → BitVec n → Bool
  /-- `ck_ec_wait_slow_once` compares the whole word first -/
  pre : Bool
  /-- the initial word for a value -/
  init : BitVec n → BitVec n

/-- The x86 flags after `incl` on `old`, and the condition `le` (`ZF = 1` or `SF ≠ OF`). -/
def zf (old : BitVec 32) : Bool := old + 1 == 0
def sf (old : BitVec 32) : Bool := (old + 1).msb
/-- Signed overflow: the only increment that overflows is that of INT32_MAX. -/
def ovf (old : BitVec 32) : Bool := old == 0x7fffffff
def le (old : BitVec 32) : Bool := zf old || (sf old != ovf old)

/-- 32 bits: init 602-606, value 608-614, has_waiters 616-619, inc 624-684 (x86: the condition `le` of
`incl`), add_epilogue 686-700, add_mp 702-711; `ck_ec32_wake` src 34-41, words of wait 392-393,
`ck_ec32_wait_slow_once` src 272-285. -/
def F32 : Fmt 32 where
  value w := w &&& ~~~(1#32 <<< 31)
  unfl v := v
  fl v := v ||| (1#32 <<< 31)
  flagged w := (w &&& (1#32 <<< 31)) != 0
  clear w := w &&& ((1#32 <<< 31) - 1)
  amt d := d
  incWakes := le
  futEq a b := a == b
  pre := false
  init v := v &&& ~~~(1#32 <<< 31)

/-- 64 bits: init 807-811, value 813-819, has_waiters 821-824, inc 828-834, epilogue 836-848, add_mp 850-858;
`ck_ec64_wake` src 54-60 (`~1` is an `int`, converted to `uint64_t`), words of wait 413-414,
`ck_ec64_wait_slow_once` src 287-307 (the futex call compares the low 32 bits). -/
def F64 : Fmt 64 where
  value w := w >>> 1
  unfl v := v <<< 1
  fl v := (v <<< 1) ||| 1#64
  flagged w := (w &&& 1#64) != 0
  clear w := w &&& ~~~1#64
  amt d := 2 * d
  incWakes w := (w &&& 1#64) != 0
  futEq a b := a.setWidth 32 == b.setWidth 32
  pre := true
  init v := v <<< 1

/-- The two kinds of update. -/
inductive Kind (n : Nat)
  | add (d : BitVec n)
  | inc
  deriving DecidableEq

def Kind.delta {n : Nat} : Kind n → BitVec n
  | .add d => d
  | .inc => 1

inductive Op (n : Nat)
  | add (d : BitVec n)
  | inc
  | value
  | wait (v : BitVec n)

inductive Res (n : Nat)
  | val (v : BitVec n)
  | unit
  | int (r : Int)
  deriving DecidableEq

inductive PC (n : Nat)
  | idle
  | value
  -- the update; in single-producer mode `st` is the store of the result computed from `old`
  | upd (k : Kind n)
  | st (k : Kind n) (old : BitVec n)
  -- `ck_ec_add_sp` with delta 0
  | add0
  -- `ck_ec_wake`: clear the flag, then wake
  | clr (r : Res n)
  | wake (r : Res n)
  -- `ck_ec_wait`, waiting for a value other than `v`
  | w1 (v : BitVec n)
  | w2 (v : BitVec n)
  | wd (v : BitVec n)
  | easy1 (v : BitVec n)
  | cas (v : BitVec n)
  | easy2 (v : BitVec n)
  | bo (v : BitVec n)
  | pre (v : BitVec n)
  | fut (v : BitVec n)
  | slp (v : BitVec n)
  | chk (v : BitVec n)
  | fin (v : BitVec n)
  | ret (r : Res n)
  deriving DecidableEq

structure St (n : Nat) (T : Type) where
  c : BitVec n
  th : T → PC n
  since : T → Nat

inductive Act (n : Nat) (T : Type)
  | call (t : T) (o : Op n)
  /-- the next step; `again` continues a spin loop -/
  | run (t : T) (again : Bool)
  /-- time-out of the deadline tests, return −1 -/
  | timeout (t : T)
  /-- the predicate returns `r ≠ 0` -/
  | pred (t : T) (r : Int)
  /-- the futex call of a sleeper returns on its own -/
  | up (t : T)
  | ret (t : T)

variable {n : Nat} {T : Type} [DecidableEq T]

/-- The value a thread inside wait waits on. -/
def oldOf : PC n → Option (BitVec n)
  | .w1 v | .w2 v | .wd v | .easy1 v | .cas v | .easy2 v | .bo v | .pre v | .fut v | .slp v | .chk v | .fin v =>
    some v
  | _ => none

def isClr : PC n → Bool
  | .clr _ => true
  | _ => false

/-- After its update, before its wake call is complete. -/
def pending : PC n → Bool
  | .clr _ | .wake _ => true
  | _ => false

/-- At the instruction that writes an updated counter word. -/
def updating (sp : Option T) : PC n → Bool
  | .upd _ => sp.isNone
  | .st _ _ => true
  | _ => false

def asleep : PC n → Bool
  | .slp _ => true
  | _ => false

/-- What the futex wake does to a thread. -/
def awaken : PC n → PC n
  | .slp v => .chk v
  | pc => pc

def St.goto (s : St n T) (t : T) (pc : PC n) : St n T := { s with th := upd s.th t pc }

/-- Whether the update of `old` calls `ck_ec_wake`, lines 636-681, 694-697, 843-845. -/
def wakes (F : Fmt n) (k : Kind n) (old : BitVec n) : Bool := match k with
  | .add _ => F.flagged old
  | .inc => F.incWakes old

/-- The result of the update, `ck_ec32_inc` returns nothing. -/
def resOf (F : Fmt n) (k : Kind n) (old : BitVec n) : Res n := match k with
  | .add _ => .val (F.value old)
  | .inc => .unit

/-- Write the updated counter word computed from `old` and go on. -/
def St.commit (F : Fmt n) (s : St n T) (p : T) (k : Kind n) (old : BitVec n) : St n T :=
  { c := old + F.amt k.delta,
    th := Verif.upd s.th p (if wakes F k old then .clr (resOf F k old) else .ret (resOf F k old)),
    since := fun t => s.since t + k.delta.toNat }

/-- One step of thread `t`. -/
def run (F : Fmt n) (sp : Option T) (s : St n T) (t : T) (again : Bool) : Option (St n T) := match s.th t with
  | .idle | .ret _ | .slp _ => none
  | .value => some (s.goto t (.ret (.val (F.value s.c))))
  -- `ck_ec_add_mp`, `ck_ec32_inc`: one atomic step; `ck_ec_add_sp` 714-734, 860-882: load and store
  | .upd k =>
    if sp.isSome then some (s.goto t (.st k s.c))
    else some (s.commit F t k s.c)
  | .st k old => some (s.commit F t k old)
  | .add0 => some (s.goto t (.ret (.val (F.value s.c))))
  | .clr r => some { s.goto t (.wake r) with c := F.clear s.c }
  | .wake r => some { s with th := upd (fun q => awaken (s.th q)) t (.ret r) }
  -- `ck_ec_wait`, header 773-775
  | .w1 v => some (s.goto t (if F.value s.c ≠ v then .ret (.int 0) else .w2 v))
  -- `ck_ec_wait_pred_slow`, src 395-397
  | .w2 v => some (s.goto t (if F.value s.c ≠ v then .ret (.int 0) else .wd v))
  -- the deadline is not in the infinite past, src 332-334
  | .wd v => some (s.goto t (.easy1 v))
  -- `wait_easy(unflagged)` 201-219, then the tests of `upgrade` 242-250
  | .easy1 v =>
    if s.c = F.unfl v then some (s.goto t (if again then .easy1 v else .cas v))
    else some (s.goto t (if s.c = F.fl v then .easy2 v else .ret (.int 0)))
  -- the compare-and-swap of `upgrade`, 252-258
  | .cas v =>
    if s.c = F.unfl v then some { s.goto t (.easy2 v) with c := F.fl v }
    else some (s.goto t (if s.c ≠ F.fl v then .ret (.int 0) else .easy2 v))
  -- `wait_easy(flagged)`, 358-362
  | .easy2 v =>
    if s.c = F.fl v then some (s.goto t (if again then .easy2 v else .bo v))
    else some (s.goto t (.ret (.int 0)))
  -- one round of `exponential_backoff`, 155-191
  | .bo v => some (s.goto t (if F.pre then .pre v else .fut v))
  | .pre v =>
    if s.c ≠ F.fl v then some (s.goto t (.fin v))
    else some { s.goto t (.fut v) with since := upd s.since t 0 }
  | .fut v => some (s.goto t (if F.futEq s.c (F.fl v) then .slp v else .chk v))
  | .chk v => some (s.goto t (if s.c ≠ F.fl v then .fin v else .bo v))
  -- src 373-376
  | .fin v => some (s.goto t (if F.value s.c ≠ v then .ret (.int 0) else .easy1 v))

def step (F : Fmt n) (sp : Option T) (s : St n T) : Act n T → Option (St n T)
  | .call t o => match s.th t with
    | .idle => match o with
      | .add d =>
        if sp.isSome ∧ sp ≠ some t then none
        -- `ck_ec_add_sp` with delta 0, lines 726-728, 873-875
        else if sp.isSome ∧ d = 0 then some (s.goto t .add0)
        else some (s.goto t (.upd (.add d)))
      | .inc => if sp.isSome ∧ sp ≠ some t then none else some (s.goto t (.upd .inc))
      | .value => some (s.goto t .value)
      | .wait v =>
        if v.msb then none
        else some { s.goto t (.w1 v) with since := upd s.since t 0 }
    | _ => none
  | .run t again => run F sp s t again
  -- src 332-334 and 155-158
  | .timeout t => match s.th t with
    | .wd _ | .bo _ => some (s.goto t (.ret (.int (-1))))
    | _ => none
  -- src 178-183
  | .pred t r => match s.th t with
    | .bo _ => if r ≠ 0 then some (s.goto t (.ret (.int r))) else none
    | _ => none
  | .up t => match s.th t with
    | .slp v => some (s.goto t (.chk v))
    | _ => none
  | .ret t => match s.th t with
    | .ret _ => some (s.goto t .idle)
    | _ => none

def sys (F : Fmt n) (sp : Option T) (v0 : BitVec n) : Sys (St n T) (Act n T) :=
  { init := fun s => s.c = F.init v0 ∧ ∀ t, s.th t = .idle, step := step F sp }

/-! ## Specification -/

/-- C56: wait returns 0 only if the value differed from `v` at some instant of the call. -/
def WaitZero (F : Fmt n) (sp : Option T) (v0 : BitVec n) : Prop :=
  ∀ (s s' : St n T) (t : T) (v : BitVec n) (as : List (Act n T)), (sys F sp v0).Reach s →
    (sys F sp v0).run s (.call t (.wait v) :: as) = some s' → .ret t ∉ as → s'.th t = .ret (.int 0) →
    ∃ l s'', l <+: as ∧ (sys F sp v0).run s (.call t (.wait v) :: l) = some s'' ∧ F.value s''.c ≠ v

/-- A counter over the integers modulo `2 ^ (n - 1)`. -/
def addMod (v d : BitVec n) : BitVec n := BitVec.ofNat n ((v.toNat + d.toNat) % 2 ^ (n - 1))

/-- The sequential counter: add returns the previous value; what wait returns is constrained by
`wait_zero_partial`, here it only leaves the counter alone. -/
def obj (v0 : BitVec n) : Obj (Op n) (Res n) (BitVec n) where
  init x := x = BitVec.ofNat n (v0.toNat % 2 ^ (n - 1))
  app x o r x' := match o with
    | .add d => r = .val x ∧ x' = addMod x d
    | .inc => r = .unit ∧ x' = addMod x 1
    | .value => r = .val x ∧ x' = x
    | .wait _ => x' = x

def obs (s : St n T) : Act n T → Option (Ev T (Op n) (Res n))
  | .call t o => some (.call t o)
  | .ret t => match s.th t with
    | .ret r => some (.ret t r)
    | _ => none
  | _ => none

end Verif.Ec
