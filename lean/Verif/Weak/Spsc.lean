import Verif.Weak.Put

/-!
# `ck_fifo_spsc` on relaxed memory (C88), `include/ck_fifo.h` lines 102-186

One producer and one consumer.  `tail`, `head_snapshot` and `garbage` are used by the producer only.  `head` is stored by the consumer, which loads its own
stores (variable `head`), the producer loads it in `ck_fifo_spsc_recycle`.  Loads return any value the memory model allows.  A load through a pointer is ordered after the load of that pointer
(`dep`): what was known to the store of the pointer bounds it.  The consumer has no other fence for that ("If entry is visible, guarantee store to value is visible", line 153).

An entry may be given to `ck_fifo_spsc_enqueue` if it was never used or if `ck_fifo_spsc_recycle` has returned it since (`free`).  The values are pointers to objects; the producer stores to an object (`fill`)
before it enqueues it, the consumer loads from the object it has dequeued (`look`).  The consumer may learn more about the memory at any time (`learn`).

The fence in line 155, between the store of the result and that of `head`, keeps the loads of the consumer before the store of `head`; the memory model does not reorder these.

Bookkeeping that no program step reads: `put`, `got`, the values enqueued and dequeued; `ent k`, entry of the `k`-th enqueue (`ent 0` is the stub); `ix k`, index of the `NULL` stored to its `next`; `ev k`, what the producer knew after it;
`dx k`, which data the object had; `ns`, `ng`, how many entries there were before `head_snapshot` and `garbage`.
-/

namespace Verif.Weak.Spsc

open Verif
open Fas (opt)

inductive Loc (N V : Type)
  | hd
  | next (x : N)
  | val (x : N)
  | dat (o : V)
deriving DecidableEq

/-- What is stored: a pointer to an entry, a value, data. -/
structure W (N V : Type) where
  p : Option N := none
  o : Option V := none
  d : Nat := 0

inductive PPC (N V : Type)
  | idle
  /-- `value` is stored -/
  | nul (x : N) (v : Option V)
  /-- `next` is stored -/
  | pub (x : N) (v : Option V)
  /-- `garbage` can be taken -/
  | take
  /-- in `ck_fifo_spsc_isempty`, `head` is loaded -/
  | emp (x : Option N)
deriving DecidableEq

inductive CPC (N V : Type)
  | idle
  /-- `entry` is loaded, with the view of the pointer -/
  | val (e : N) (w : View (Loc N V))
  /-- `entry->value` is loaded -/
  | done (e : N) (w : View (Loc N V)) (v : Option V) (u : View (Loc N V))

structure St (N V : Type) where
  mem : Mem (Loc N V) (W N V)
  p : Th (Loc N V)
  ppc : PPC N V
  tail : N
  snap : Option N
  garb : Option N
  c : Th (Loc N V)
  cpc : CPC N V
  head : N
  /-- view of the pointer in `head` -/
  hv : View (Loc N V)
  /-- the value dequeued last, with its view -/
  obj : Option V
  ov : View (Loc N V)
  free : N → Bool
  put : List (Option V)
  got : List (Option V)
  ent : Nat → N
  ix : Nat → Nat
  ev : Nat → View (Loc N V)
  dx : Nat → Nat
  ns : Nat
  ng : Nat

inductive Act (N V : Type)
  | fill (o : V) (d : Nat)
  | enq (x : N) (v : Option V)
  | nul
  | pub
  | snap (i : Nat)
  | skip
  | take (i : Nat)
  | emp (i : Nat)
  | emp2 (i : Nat)
  | deq (i : Nat)
  | val (i : Nat)
  | done
  | look (i : Nat)
  | learn (l : Loc N V) (i : Nat)

variable {N V : Type} [DecidableEq N] [DecidableEq V]

/-- `ck_fifo_spsc_init`, lines 102-112. -/
def initSt (stub : N) : St N V :=
  { mem := Mem.init fun l => match l with | .hd => { p := some stub } | _ => {}
    p := Th.init, ppc := .idle, tail := stub, snap := some stub, garb := some stub
    c := Th.init, cpc := .idle, head := stub, hv := fun _ => 0, obj := none, ov := fun _ => 0
    free := fun x => x ≠ stub, put := [], got := [], ent := fun _ => stub, ix := fun _ => 0, ev := fun _ _ => 0, dx := fun _ => 0, ns := 0, ng := 0 }

/-- Whether a load by the consumer through a pointer that came with view `w` may return value `i`. -/
def St.may (dep : Bool) (s : St N V) (w : View (Loc N V)) (l : Loc N V) (i : Nat) : Prop := s.c.may s.mem l i ∧ (dep = true → w l ≤ i)

instance (dep : Bool) (s : St N V) (w : View (Loc N V)) (l : Loc N V) (i : Nat) : Decidable (s.may dep w l i) := by unfold St.may; infer_instance

/-- Index of the newest data of an object. -/
def dtop (m : Mem (Loc N V) (W N V)) : Option V → Nat
  | some o => m.top (.dat o)
  | none => 0

/-- `fc`: the fence of `ck_fifo_spsc_enqueue` is there. -/
def step (fc dep : Bool) (s : St N V) : Act N V → Option (St N V)
  -- the client
  | .fill o d =>
    if s.ppc = .idle then some { s with mem := s.mem.store s.p (.dat o) { d := d }, p := s.p.store s.mem (.dat o) } else none
  -- `ck_fifo_spsc_enqueue`, lines 123-137: `entry->value = value`
  | .enq x v =>
    if s.ppc = .idle ∧ s.free x = true then
      some { s with mem := s.mem.store s.p (.val x) { o := v }, p := s.p.store s.mem (.val x), ppc := .nul x v, free := upd s.free x false }
    else none
  -- `entry->next = NULL`
  | .nul => match s.ppc with
    | .nul x v => some { s with mem := s.mem.store s.p (.next x) {}, p := s.p.store s.mem (.next x), ppc := .pub x v }
    | _ => none
  -- `ck_pr_fence_store`, `ck_pr_store_ptr(&fifo->tail->next, entry)`, `fifo->tail = entry`
  | .pub => match s.ppc with
    | .pub x v =>
      let p := opt fc Th.fenceStore s.p
      let p' := p.store s.mem (.next s.tail)
      let k := s.put.length + 1
      some { s with
        mem := s.mem.store p (.next s.tail) { p := some x }, p := p', ppc := .idle, tail := x
        put := s.put ++ [v], ent := upd s.ent k x, ix := upd s.ix k (s.mem.top (.next x)), ev := upd s.ev k p'.cur
        dx := upd s.dx k (dtop s.mem v) }
    | _ => none
  -- `ck_fifo_spsc_recycle`, lines 164-178: `head_snapshot == garbage`, load of `head`
  | .snap i =>
    if s.ppc = .idle ∧ s.snap = s.garb ∧ s.p.may s.mem .hd i then
      let v := (s.mem.msg .hd i).val.p
      some { s with p := s.p.load s.mem .hd i, snap := v, ns := i, ppc := if v = s.garb then .idle else .take }
    else none
  | .skip => if s.ppc = .idle ∧ s.snap ≠ s.garb then some { s with ppc := .take } else none
  -- `fifo->garbage = garbage->next`, lines 175-177
  | .take i =>
    if s.ppc = .take then
      match s.garb with
      | some g =>
        if s.p.may s.mem (.next g) i then
          some { s with p := s.p.load s.mem (.next g) i, garb := (s.mem.msg (.next g) i).val.p, free := upd s.free g true, ng := s.ng + 1, ppc := .idle }
        else none
      | none => none
    else none
  -- `ck_fifo_spsc_isempty`, lines 180-185, called by the producer
  | .emp i =>
    if s.ppc = .idle ∧ s.p.may s.mem .hd i then some { s with p := s.p.load s.mem .hd i, ppc := .emp (s.mem.msg .hd i).val.p } else none
  | .emp2 i => match s.ppc with
    | .emp (some x) => if s.p.may s.mem (.next x) i then some { s with p := s.p.load s.mem (.next x) i, ppc := .idle } else none
    | _ => none
  -- `ck_fifo_spsc_dequeue`, lines 139-158 (and `ck_fifo_spsc_isempty` called by the consumer): load of `head->next`
  | .deq i => match s.cpc with
    | .idle =>
      if s.may dep s.hv (.next s.head) i then
        some { s with
          c := s.c.load s.mem (.next s.head) i
          cpc := match (s.mem.msg (.next s.head) i).val.p with
            | some e => .val e (s.mem.msg (.next s.head) i).view
            | none => .idle }
      else none
    | _ => none
  -- load of `entry->value`
  | .val i => match s.cpc with
    | .val e w =>
      if s.may dep w (.val e) i then
        some { s with c := s.c.load s.mem (.val e) i, cpc := .done e w (s.mem.msg (.val e) i).val.o (join w (s.mem.msg (.val e) i).view) }
      else none
    | _ => none
  -- `ck_pr_fence_store`, `ck_pr_store_ptr(&fifo->head, entry)`
  | .done => match s.cpc with
    | .done e w v u =>
      let c := s.c.fenceStore
      some { s with
        mem := s.mem.store c .hd { p := some e }, c := c.store s.mem .hd, cpc := .idle, head := e, hv := w, obj := v, ov := u, got := s.got ++ [v] }
    | _ => none
  -- the client
  | .look i => match s.obj with
    | some o => if s.may dep s.ov (.dat o) i then some { s with c := s.c.load s.mem (.dat o) i } else none
    | none => none
  | .learn l i => if i ≤ s.mem.top l then some { s with c := { s.c with cur := join s.c.cur (upd (fun _ => 0) l i) } } else none

def sys (fc dep : Bool) (stub : N) : Sys (St N V) (Act N V) := { init := (· = initSt stub), step := step fc dep }

end Verif.Weak.Spsc
