import Verif.Core.Lin
import Verif.Core.Tactic

/-!
# `ck_ring` (model), `include/ck_ring.h`

One ring of `2 ^ k` slots (`k ≤ 31`), 32-bit counters that wrap, any number of threads.  Entries are
copied chunk by chunk (`L` chunks of type `B`), so a copy can be torn by a concurrent writer.

* `cfg.sp = some q`: thread `q` is the only producer and uses `_ck_ring_enqueue_sp` (lines 173-202; the
  same accesses as `reserve_sp`/`commit_sp`, 139-171); `cfg.sp = none`: every thread may use
  `_ck_ring_enqueue_mp` (311-395; the same accesses as `reserve_mp`/`commit_mp`, 252-309).
* `cfg.sc = some q`: thread `q` is the only consumer and uses `_ck_ring_dequeue_sc` (219-250);
  `cfg.sc = none`: every thread may use `_ck_ring_dequeue_mc` (437-474) and `_ck_ring_trydequeue_mc`
  (412-435).

Ghost state: `C`, `PT`, `PH` are the counters without wrap (`PH` also counts the slot a single producer
is filling), `item j` the `j`-th entry ever committed, `gp`/`gc` the unwrapped snapshots of a thread,
`occ` the number of slots filled or reserved at the instant the thread last loaded `c_head` while
enqueueing.
-/

namespace Verif.Ring

open Verif Verif.Lin

/-- An entry of `ts` bytes, as `L` chunks. -/
abbrev Val (L : Nat) (B : Type) := Fin L → B

structure Cfg (n : Nat) where
  k : Nat
  sp : Option (Fin n)
  sc : Option (Fin n)

/-- `mask`, line 124. -/
def Cfg.mask {n : Nat} (c : Cfg n) : BitVec 32 := BitVec.ofNat 32 (2 ^ c.k) - 1#32

/-- Index of the slot used for counter value `p` (`ts * (p & mask)`). -/
def Cfg.slot {n : Nat} (c : Cfg n) (p : BitVec 32) : Nat := (p &&& c.mask).toNat

inductive Op (L : Nat) (B : Type)
  | enq (v : Val L B)
  /-- the argument is the previous content of the target -/
  | deq (d : Val L B)
  | tryDeq (d : Val L B)

inductive Res (L : Nat) (B : Type)
  /-- success flag and `*size` -/
  | enq (ok : Bool) (size : BitVec 32)
  | deq (v : Option (Val L B))

inductive PC (L : Nat) (B : Type)
  | idle
  | spLoad (v : Val L B)
  | mpLoad (v : Val L B)
  | mpC (v : Val L B) (p : BitVec 32)
  | mpCas (v : Val L B) (p c : BitVec 32)
  | mpRe (v : Val L B) (p c : BitVec 32)
  | wr (v : Val L B) (p sz : BitVec 32) (j : Nat)
  | wait (v : Val L B) (p sz : BitVec 32)
  | commit (v : Val L B) (p sz : BitVec 32)
  | scLoad (d : Val L B)
  | mcLoad (try_ : Bool) (d : Val L B)
  | mcP (try_ : Bool) (d : Val L B) (c : BitVec 32)
  /-- `m = none`: `dequeue_sc`; `some b`: `dequeue_mc` or `trydequeue_mc` -/
  | cp (m : Option Bool) (d : Val L B) (c : BitVec 32) (j : Nat)
  | scStore (d : Val L B) (c : BitVec 32)
  | mcCas (try_ : Bool) (d : Val L B) (c : BitVec 32)
  | ret (r : Res L B)

structure St (L n : Nat) (B : Type) where
  c_head : BitVec 32
  p_tail : BitVec 32
  p_head : BitVec 32
  buf : Nat → Val L B
  th : Fin n → PC L B
  C : Nat
  PT : Nat
  PH : Nat
  item : Nat → Val L B
  gp : Fin n → Nat
  gc : Fin n → Nat
  occ : Fin n → Nat

inductive Act (L n : Nat) (B : Type)
  | call (t : Fin n) (o : Op L B)
  | run (t : Fin n)
  | ret (t : Fin n)

variable {L n : Nat} {B : Type}

/-- Chunk `j` of `d` replaced by that of `v`. -/
def putChunk (d v : Val L B) (j : Nat) : Val L B := fun i => if i.val = j then v i else d i

/-- One step of a thread inside an operation. -/
def run (cfg : Cfg n) (s : St L n B) (t : Fin n) : Option (St L n B) :=
  match s.th t with
  -- `_ck_ring_enqueue_sp`: 183-190
  | .spLoad v =>
    let sz := (s.p_tail - s.c_head) &&& cfg.mask
    if (s.p_tail + 1#32) &&& cfg.mask = s.c_head &&& cfg.mask then
      some { s with th := upd s.th t (.ret (.enq false sz)), occ := upd s.occ t (s.PH - s.C) }
    else
      some { s with th := upd s.th t (.wr v s.p_tail sz 0), occ := upd s.occ t (s.PH - s.C),
                    gp := upd s.gp t s.PT, PH := s.PH + 1 }
  -- `_ck_ring_enqueue_mp`: 321
  | .mpLoad v => some { s with th := upd s.th t (.mpC v s.p_head), gp := upd s.gp t s.PH }
  -- 328-336
  | .mpC v p => some { s with
      th := upd s.th t (if p - s.c_head < cfg.mask then .mpCas v p s.c_head else .mpRe v p s.c_head)
      gc := upd s.gc t s.C, occ := upd s.occ t (s.PH - s.C) }
  -- 337-340
  | .mpCas v p c =>
    if s.p_head = p then
      some { s with p_head := p + 1#32, PH := s.PH + 1,
                    th := upd s.th t (.wr v p ((p - c) &&& cfg.mask) 0) }
    else some { s with th := upd s.th t (.mpC v s.p_head), gp := upd s.gp t s.PH }
  -- 350-369
  | .mpRe v p c =>
    if s.p_head = p then
      some { s with th := upd s.th t (.ret (.enq false ((p - c) &&& cfg.mask))) }
    else some { s with th := upd s.th t (.mpC v s.p_head), gp := upd s.gp t s.PH }
  -- the `memcpy` of 192-193 and 373-374
  | .wr v p sz j =>
    if j < L then
      some { s with buf := upd s.buf (cfg.slot p) (putChunk (s.buf (cfg.slot p)) v j),
                    th := upd s.th t (.wr v p sz (j + 1)) }
    else match cfg.sp with
      | some _ => some { s with th := upd s.th t (.commit v p sz) }
      | none => some { s with th := upd s.th t (.wait v p sz) }
  -- 380-381
  | .wait v p sz => if s.p_tail = p then some { s with th := upd s.th t (.commit v p sz) } else some s
  -- 200 and 388
  | .commit v p sz =>
    some { s with p_tail := p + 1#32, PT := s.PT + 1, item := upd s.item s.PT v,
                  th := upd s.th t (.ret (.enq true sz)) }
  -- `_ck_ring_dequeue_sc`: 228-232
  | .scLoad d =>
    if s.c_head = s.p_tail then some { s with th := upd s.th t (.ret (.deq none)) }
    else some { s with th := upd s.th t (.cp none d s.c_head 0), gc := upd s.gc t s.C }
  -- 420 and 446
  | .mcLoad b d => some { s with th := upd s.th t (.mcP b d s.c_head), gc := upd s.gc t s.C }
  -- 422-425 and 456-459
  | .mcP b d c =>
    if c = s.p_tail then some { s with th := upd s.th t (.ret (.deq none)) }
    else some { s with th := upd s.th t (.cp (some b) d c 0) }
  -- the `memcpy` of 240-241, 430-431, 463-464
  | .cp m d c j =>
    if j < L then
      some { s with th := upd s.th t (.cp m (putChunk d (s.buf (cfg.slot c)) j) c (j + 1)) }
    else match m with
      | none => some { s with th := upd s.th t (.scStore d c) }
      | some b => some { s with th := upd s.th t (.mcCas b d c) }
  -- 248
  | .scStore d c =>
    some { s with c_head := c + 1#32, C := s.C + 1, th := upd s.th t (.ret (.deq (some d))) }
  -- 434 and 468-471
  | .mcCas b d c =>
    if s.c_head = c then
      some { s with c_head := c + 1#32, C := s.C + 1, th := upd s.th t (.ret (.deq (some d))) }
    else if b then some { s with th := upd s.th t (.ret (.deq none)) }
    else some { s with th := upd s.th t (.mcP b d s.c_head), gc := upd s.gc t s.C }
  | .idle => none
  | .ret _ => none

def step (cfg : Cfg n) (s : St L n B) : Act L n B → Option (St L n B)
  | .call t o => match s.th t with
    | .idle => match o with
      | .enq v => match cfg.sp with
        | some q => if t = q then some { s with th := upd s.th t (.spLoad v) } else none
        | none => some { s with th := upd s.th t (.mpLoad v) }
      | .deq d => match cfg.sc with
        | some q => if t = q then some { s with th := upd s.th t (.scLoad d) } else none
        | none => some { s with th := upd s.th t (.mcLoad false d) }
      | .tryDeq d => match cfg.sc with
        | some _ => none
        | none => some { s with th := upd s.th t (.mcLoad true d) }
    | _ => none
  | .run t => run cfg s t
  | .ret t => match s.th t with
    | .ret _ => some { s with th := upd s.th t .idle }
    | _ => none

/-- `ck_ring_init`, lines 119-129: the machine words; the buffer is arbitrary. -/
def initial (buf : Nat → Val L B) (b : Val L B) : St L n B :=
  { c_head := 0#32, p_tail := 0#32, p_head := 0#32, buf := buf, th := fun _ => .idle,
    C := 0, PT := 0, PH := 0, item := fun _ => b, gp := fun _ => 0, gc := fun _ => 0,
    occ := fun _ => 0 }

/-- `ck_ring_size`, lines 56-64, evaluated in one state. -/
def size (cfg : Cfg n) (s : St L n B) : BitVec 32 := (s.p_tail - s.c_head) &&& cfg.mask

/-- `ck_ring_valid`, lines 97-117. -/
def valid (cfg : Cfg n) (s : St L n B) : Bool :=
  let sz := BitVec.ofNat 32 (2 ^ cfg.k)
  if sz &&& (sz - 1#32) ≠ 0#32 then false
  else if s.c_head > s.p_head then false
  else if s.p_head - s.c_head ≥ sz then false
  else true

/-- `ck_ring_repair`, lines 78-89. -/
def repair (s : St L n B) : Bool × St L n B :=
  if s.p_tail ≠ s.p_head then (true, { s with p_tail := s.p_head }) else (false, s)

/-- The visible calls (without the previous content of a dequeue target). -/
inductive OOp (L : Nat) (B : Type)
  | enq (v : Val L B)
  | deq
  | tryDeq

def Op.o : Op L B → OOp L B
  | .enq v => .enq v
  | .deq _ => .deq
  | .tryDeq _ => .tryDeq

/-- The visible results (of an enqueue only the success flag). -/
inductive ORes (L : Nat) (B : Type)
  | enq (ok : Bool)
  | deq (v : Option (Val L B))

def Res.o : Res L B → ORes L B
  | .enq ok _ => .enq ok
  | .deq v => .deq v

def obs (s : St L n B) : Act L n B → Option (Ev (Fin n) (OOp L B) (ORes L B))
  | .call t o => some (.call t o.o)
  | .run _ => none
  | .ret t => match s.th t with
    | .ret r => some (.ret t r.o)
    | _ => none

/-- A multi-consumer snapshot of `c_head` is held. -/
def cSnap : PC L B → Bool
  | .mcP .. | .cp (some _) .. | .mcCas .. => true
  | _ => false

/-- A multi-producer snapshot of `p_head` is held. -/
def pSnap : PC L B → Bool
  | .mpC .. | .mpCas .. | .mpRe .. => true
  | _ => false

/-- The counters have not run `2 ^ 32` ahead of a snapshot held by a thread inside one attempt of a
multi-producer or multi-consumer operation.  (Nothing is assumed about single-producer and
single-consumer operations.) -/
def Fresh (s : St L n B) : Prop :=
  ∀ t, (cSnap (s.th t) = true → s.PT < s.gc t + 4294967296) ∧
    (pSnap (s.th t) = true → s.PH < s.gp t + 4294967296)

instance (s : St L n B) : Decidable (Fresh s) := by unfold Fresh; infer_instance

end Verif.Ring
