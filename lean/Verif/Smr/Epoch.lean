import Verif.Core.Sys

/-!
# Epoch reclamation (model), `src/ck_epoch.c`, `include/ck_epoch.h`

Threads `T`, records `R`, sections `S` and deferrals `X` are arbitrary types.  Every load or store of
memory another thread may access is one step; `local.bucket` belongs to the record's owner and is changed
together with the step it belongs to.

Epoch values are natural numbers, every test the code makes on them is made on the residues modulo `2 ^ 32`
(`M`): the model value `n` stands for the `unsigned int` `n % M`.  The one place where this needs an
assumption is the `cas` of 505 and 612: a `cas` that succeeds because the counter went round completely since
the thread loaded it is out of contract (the comment at 439-441), there the model has no step.

A thread runs `ck_epoch_synchronize`, `ck_epoch_barrier` or `ck_epoch_poll` in `main` and the short
operations `ck_epoch_begin`, `ck_epoch_end`, `ck_epoch_call`, `ck_epoch_unregister` in `sub`; the short ones
may also be executed by a callback, so while `main` is dispatching.

Simplifications: a deferral is named by an `X` that is used once (a `ck_epoch_entry` used again after its
callback ran is a new `X`); the pending stacks are lists, pushed and popped in one step (the stack itself is
property C26 and its neighbours); `next` of a registered record never changes, so walking the records is walking the list
found at the head; `ck_epoch_register` is one step, its last store publishes the record; `ck_epoch_recycle`
is the one `fas` that takes a free record; a callback handed to `deferred` (374) counts as run; the counters
`n_free`, `n_pending`, `n_peak`, `n_dispatch` and the overflow of `active` are dropped.

Ghost state: `own`, `use`, `opn` (the sections whose `ck_epoch_begin` returned and whose `ck_epoch_end` did
not yet store `active`), `sr`, `nul`, `se`, `base`, `lab`, `busy`, `wait`, `sw`.
-/

namespace Verif.Ep

open Verif

/-- `UINT_MAX + 1`. -/
abbrev M : Nat := 4294967296

/-- What the clients may do. -/
structure Cfg where
  /-- A record may have `NULL` sections and section objects open at the same time. -/
  mix : Bool
  /-- A callback may defer on the record that is being dispatched. -/
  re : Bool
  /-- `ck_epoch_call_strict` by threads that do not own the record. -/
  strict : Bool
  /-- `ck_epoch_poll` only inside a section of the record, no `ck_epoch_barrier`. -/
  sect : Bool

/-- What follows a scan (`ck_epoch_scan` is called at 453 and 591). -/
inductive Kont (R : Type)
  /-- `epoch` and `i` of `ck_epoch_synchronize_wait`; the record if the caller is `ck_epoch_barrier`. -/
  | sync (e i : Nat) (bar : Option R)
  | poll (r : R)
  deriving DecidableEq

/-- Where in the scan. -/
inductive Ph
  /-- About to load the head of the records (329). -/
  | hd
  /-- About to load `state` (341), or at the end of the list (356). -/
  | st
  /-- About to load `active` (347). -/
  | ac
  /-- About to load `epoch` (350). -/
  | ep
  /-- `ck_epoch_scan` returned a record to `ck_epoch_synchronize_wait` which is about to load the global
  epoch (463). -/
  | gl
  deriving DecidableEq

/-- What follows a dispatch. -/
inductive DK
  /-- 589, the scan of 591 is next. -/
  | first (g : Nat)
  /-- 614. -/
  | last
  /-- Bucket `b` is next in the loop 404-405 or 598-599. -/
  | recl (b : Nat)
  deriving DecidableEq

inductive Main (R X : Type)
  | idle
  | scan (k : Kont R) (d : Nat) (todo : List R) (af : Bool) (ph : Ph)
  /-- About to dispatch `epoch - 2` (589). -/
  | p1 (r : R) (g : Nat)
  /-- About to dispatch `epoch - 1` (614). -/
  | p3 (r : R) (g : Nat)
  /-- About to dispatch bucket `b` in the loop 404-405 or 598-599. -/
  | recl (r : R) (b : Nat)
  /-- In the loop 368-379 with the entries `l` to go. -/
  | disp (r : R) (l : List X) (k : DK)
  deriving DecidableEq

inductive Sub (R S X : Type)
  | none
  /-- `ck_epoch_begin` stored `active` (143), about to load the global epoch (157). -/
  | b1 (r : R) (s : S) (n : Bool)
  /-- About to store `record->epoch` (158). -/
  | b2 (r : R) (s : S) (n : Bool) (g : Nat)
  /-- About to enter `_ck_epoch_addref` (164). -/
  | a0 (r : R) (s : S)
  /-- About to enter `_ck_epoch_delref` (181). -/
  | e1 (r : R) (s : S)
  /-- `ck_epoch_call` loaded the global epoch `e` (201, 219). -/
  | c1 (r : R) (x : X) (e : Nat)
  /-- `ck_epoch_unregister` about to store `state` (315). -/
  | un (r : R)
  deriving DecidableEq

structure St (T R S X : Type) where
  /-- `global->epoch`. -/
  G : Nat
  /-- `global->records`, newest first. -/
  recs : List R
  /-- `record->state == CK_EPOCH_STATE_FREE`. -/
  free : R → Bool
  /-- `record->active`. -/
  act : R → Nat
  /-- `record->epoch`. -/
  ep : R → Nat
  /-- `record->local.bucket[i].count`. -/
  bc : R → Nat → Nat
  /-- `record->local.bucket[i].epoch`. -/
  be : R → Nat → Nat
  /-- `record->pending[i]`. -/
  pend : R → Nat → List X
  /-- `section->bucket`. -/
  bk : S → Nat
  main : T → Main R X
  sub : T → Sub R S X
  /-- The thread a registered record belongs to. -/
  own : R → Option T
  /-- Section names in use. -/
  use : S → Bool
  /-- The open sections. -/
  opn : List S
  /-- The record of a section. -/
  sr : S → R
  /-- The section was begun with `section == NULL`. -/
  nul : S → Bool
  /-- The global epoch when `ck_epoch_begin` was done. -/
  se : S → Nat
  /-- The global epoch when the record's epoch was stored, or the bucket epoch it was raised to. -/
  base : R → Nat
  /-- The epoch `ck_epoch_call` loaded. -/
  lab : X → Nat
  busy : X → Bool
  /-- Of the sections open when the deferral was made, those still open. -/
  wait : X → List S
  /-- Of the sections open when `ck_epoch_synchronize` was called, those still open. -/
  sw : T → List S

inductive Act (T R S X : Type)
  | register (t : T) (r : R)
  | recycle (t : T) (r : R)
  | unreg (t : T) (r : R)
  | begin (t : T) (r : R) (s : S) (n : Bool)
  | end_ (t : T) (s : S)
  | call (t : T) (r : R) (x : X)
  | sync (t : T) (bar : Option R)
  | poll (t : T) (r : R)
  | sub (t : T)
  | main (t : T)

variable {T R S X : Type} [DecidableEq T] [DecidableEq R] [DecidableEq S] [DecidableEq X]

/-- `(int)(a - b) < 0` (174). -/
def intLt (a b : Nat) : Bool := decide (M / 2 ≤ (a % M + (M - b % M)) % M)

/-- `(goal > epoch) & (delta >= goal)` with `goal = epoch + CK_EPOCH_GRACE` (444, 474). -/
def goalMet (e d : Nat) : Bool := decide (e % M < (e + 3) % M) && decide ((e + 3) % M ≤ d % M)

/-- Store into `bucket`/`pending` cell `i` of `r`. -/
def upd2 {β : Type} (f : R → Nat → β) (r : R) (i : Nat) (v : β) : R → Nat → β := upd f r (upd (f r) i v)

def gm (s : St T R S X) (t : T) (m : Main R X) : St T R S X := { s with main := upd s.main t m }

def gs (s : St T R S X) (t : T) (q : Sub R S X) : St T R S X := { s with sub := upd s.sub t q }

/-- The short operations are called by the client or by a callback. -/
def canSub : Main R X → Bool
  | .idle => true
  | .disp _ _ _ => true
  | _ => false

/-- The record whose deferrals are being dispatched. -/
def dispRec : Main R X → Option R
  | .disp r _ _ => some r
  | _ => none

/-- `leave` (523): `ck_epoch_synchronize` returns, `ck_epoch_barrier` goes on to `ck_epoch_reclaim` (541). -/
def leave (s : St T R S X) (t : T) : Option R → St T R S X
  | none => gm s t .idle
  | some r => gm s t (.recl r 0)

/-- `ck_epoch_begin` is done: the section is open. -/
def opened (s : St T R S X) (x : S) : St T R S X := { s with opn := x :: s.opn, se := upd s.se x s.G }

/-- Next step of `ck_epoch_begin`, `ck_epoch_end`, `ck_epoch_call`, `ck_epoch_unregister` by `t`. -/
def subStep (s : St T R S X) (t : T) : Option (St T R S X) :=
  match s.sub t with
  | .none => none
  -- ck_epoch.h:157
  | .b1 r x n => some (gs s t (.b2 r x n s.G))
  -- 158-164
  | .b2 r x n g =>
    let s1 : St T R S X := { s with ep := upd s.ep r g, base := upd s.base r s.G }
    if n then some (opened (gs s1 t .none) x) else some (gs s1 t (.a0 r x))
  -- src/ck_epoch.c:193-225
  | .a0 r x =>
    let i := s.G % 2
    some (opened (gs { s with bc := upd2 s.bc r i (s.bc r i + 1),
                              be := if s.bc r i = 0 then upd2 s.be r i s.G else s.be,
                              bk := upd s.bk x i } t .none) x)
  -- src/ck_epoch.c:155-182
  | .e1 r x =>
    let i := s.bk x
    let o := (i + 1) % 2
    let s1 : St T R S X := { s with bc := upd2 s.bc r i (s.bc r i - 1), use := upd s.use x false }
    if 0 < s.bc r i - 1 then some (gs s1 t .none)
    else if 0 < s.bc r o ∧ intLt (s.be r i) (s.be r o) = true then
      some (gs { s1 with ep := upd s.ep r (s.be r o), base := upd s.base r (s.be r o) } t .none)
    else some (gs s1 t .none)
  -- ck_epoch.h:202-207, 220-227
  | .c1 r x e => some (gs { s with pend := upd2 s.pend r (e % 4) (x :: s.pend r (e % 4)) } t .none)
  -- src/ck_epoch.c:315
  | .un r => some (gs { s with free := upd s.free r true, own := upd s.own r none } t .none)

/-- The `cas` of 505 and 612: the new state and whether it succeeded; no step if it succeeds although the
counter went round since `d` was loaded. -/
def cas (s : St T R S X) (d : Nat) : Option (St T R S X × Bool) :=
  if s.G % M = d % M then (if s.G = d then some ({ s with G := d + 1 }, true) else none) else some (s, false)

/-- Next step of `ck_epoch_synchronize_wait`, `ck_epoch_barrier`, `ck_epoch_poll_deferred` by `t`. -/
def mainStep (s : St T R S X) (t : T) : Option (St T R S X) :=
  match s.main t with
  | .idle => none
  -- 328-330
  | .scan k d _ _ .hd => some (gm s t (.scan k d s.recs false .st))
  -- 341-345
  | .scan k d (c :: rest) af .st =>
    if s.free c then some (gm s t (.scan k d rest af .st)) else some (gm s t (.scan k d (c :: rest) af .ac))
  -- 347-348, 350, 353
  | .scan k d (c :: rest) af .ac =>
    if s.act c = 0 then some (gm s t (.scan k d rest af .st))
    else some (gm s t (.scan k d (c :: rest) true .ep))
  -- 350-353; 592-593
  | .scan k d (c :: rest) af .ep =>
    if s.ep c % M = d % M then some (gm s t (.scan k d rest af .st))
    else match k with
      | .poll _ => some (gm s t .idle)
      | .sync _ _ _ => some (gm s t (.scan k d (c :: rest) af .gl))
  -- 463-484; 332-334
  | .scan (.sync e i bar) d (c :: rest) _ .gl =>
    if s.G % M = d % M then some (gm s t (.scan (.sync e i bar) d (c :: rest) true .st))
    else if goalMet e s.G then some (leave s t bar)
    else some (gm s t (.scan (.sync e i bar) s.G [] false .hd))
  -- 491-515, 446
  | .scan (.sync e i bar) d [] af .st =>
    if af then
      match cas s d with
      | none => none
      | some (s1, r) =>
        if i + 1 < 2 then
          some (gm s1 t (.scan (.sync e (i + 1) bar) (if r then d + 1 else s.G) [] false .hd))
        else some (leave s1 t bar)
    else some (leave s t bar)
  -- 596-612
  | .scan (.poll r) d [] af .st =>
    if af then
      match cas s d with
      | none => none
      | some (s1, _) => some (gm s1 t (.p3 r d))
    else some (gm { s with ep := upd s.ep r d } t (.recl r 0))
  | .scan _ _ _ _ _ => none
  -- 589, 367: (epoch - 2) & 3
  | .p1 r g =>
    some (gm { s with pend := upd2 s.pend r ((g + 2) % 4) [] } t (.disp r (s.pend r ((g + 2) % 4)) (.first g)))
  -- 614: (epoch - 1) & 3
  | .p3 r g =>
    some (gm { s with pend := upd2 s.pend r ((g + 3) % 4) [] } t (.disp r (s.pend r ((g + 3) % 4)) .last))
  -- 405, 599
  | .recl r b => some (gm { s with pend := upd2 s.pend r b [] } t (.disp r (s.pend r b) (.recl (b + 1))))
  -- 376
  | .disp r (_ :: l) k => some (gm s t (.disp r l k))
  | .disp r [] (.first g) => some (gm s t (.scan (.poll r) g [] false .hd))
  | .disp _ [] .last => some (gm s t .idle)
  | .disp r [] (.recl b) => if b < 4 then some (gm s t (.recl r b)) else some (gm s t .idle)

/-- `ck_epoch_end` up to the store of `active` (178): the section `x` is over. -/
def endStep (s : St T R S X) (t : T) (x : S) : St T R S X :=
  gs { s with act := upd s.act (s.sr x) (s.act (s.sr x) - 1),
              opn := s.opn.erase x,
              wait := fun d => (s.wait d).filter (· ≠ x),
              sw := fun u => (s.sw u).filter (· ≠ x),
              use := if s.nul x then upd s.use x false else s.use }
    t (if s.nul x then .none else .e1 (s.sr x) x)

def step (c : Cfg) (s : St T R S X) : Act T R S X → Option (St T R S X)
  -- src/ck_epoch.c:273-295
  | .register t r =>
    if r ∉ s.recs then
      some { s with recs := r :: s.recs, own := upd s.own r (some t), free := upd s.free r false,
                    act := upd s.act r 0, ep := upd s.ep r 0, bc := upd s.bc r (fun _ => 0),
                    be := upd s.be r (fun _ => 0), pend := upd s.pend r (fun _ => []) }
    else none
  -- 239-271
  | .recycle t r =>
    if r ∈ s.recs ∧ s.free r = true then
      some { s with own := upd s.own r (some t), free := upd s.free r false }
    else none
  -- 297-313
  | .unreg t r =>
    if s.own r = some t ∧ s.sub t = .none ∧ s.main t = .idle ∧ ∀ x ∈ s.opn, s.sr x ≠ r then
      some (gs { s with act := upd s.act r 0, ep := upd s.ep r 0, bc := upd s.bc r (fun _ => 0),
                        be := upd s.be r (fun _ => 0), pend := upd s.pend r (fun _ => []) } t (.un r))
    else none
  -- ck_epoch.h:126-161
  | .begin t r x n =>
    if s.own r = some t ∧ s.sub t = .none ∧ canSub (s.main t) = true ∧ s.use x = false ∧
        (c.mix = true ∨ ∀ y ∈ s.opn, s.sr y = r → s.nul y = n) then
      let s1 : St T R S X := { s with use := upd s.use x true, sr := upd s.sr x r, nul := upd s.nul x n,
                                      act := upd s.act r (s.act r + 1) }
      if s.act r = 0 then some (gs s1 t (.b1 r x n))
      else if n then some (opened s1 x)
      else some (gs s1 t (.a0 r x))
    else none
  -- 174-184
  | .end_ t x =>
    if x ∈ s.opn ∧ s.own (s.sr x) = some t ∧ s.sub t = .none ∧ canSub (s.main t) = true ∧
        (c.sect = true → s.main t = .idle) then
      some (endStep s t x)
    else none
  -- 196-201, 214-219
  | .call t r x =>
    if s.busy x = false ∧ ((c.strict = true ∧ r ∈ s.recs) ∨ s.own r = some t) ∧ s.sub t = .none ∧
        canSub (s.main t) = true ∧ (c.re = true ∨ dispRec (s.main t) ≠ some r) then
      some (gs { s with busy := upd s.busy x true, lab := upd s.lab x s.G, wait := upd s.wait x s.opn }
        t (.c1 r x s.G))
    else none
  -- src/ck_epoch.c:424-446, 529-541
  | .sync t bar =>
    if s.sub t = .none ∧ s.main t = .idle ∧ (∀ r, bar = some r → s.own r = some t) ∧
        (c.sect = true → bar = none) then
      some (gm { s with sw := upd s.sw t s.opn } t (.scan (.sync s.G 0 bar) s.G [] false .hd))
    else none
  -- 565-574
  | .poll t r =>
    if s.sub t = .none ∧ s.main t = .idle ∧ s.own r = some t ∧
        (c.sect = true → ∃ x ∈ s.opn, s.sr x = r) then
      some (gm s t (.p1 r s.G))
    else none
  | .sub t => subStep s t
  | .main t => if s.sub t = .none then mainStep s t else none

/-- After `ck_epoch_init` (228-237) with a counter of any value, no record registered. -/
def Init (s : St T R S X) : Prop :=
  s.recs = [] ∧ (∀ r, s.act r = 0) ∧ (∀ r, s.own r = none) ∧
  (∀ r b, s.pend r b = []) ∧ (∀ t, s.main t = .idle) ∧ (∀ t, s.sub t = .none) ∧
  (∀ x, s.use x = false) ∧ s.opn = [] ∧ (∀ x, s.busy x = false) ∧ (∀ t, s.sw t = [])

def sys (T R S X : Type) [DecidableEq T] [DecidableEq R] [DecidableEq S] [DecidableEq X] (c : Cfg) :
    Sys (St T R S X) (Act T R S X) := ⟨Init, step c⟩

end Verif.Ep
