import Verif.Core.Weak

/-!
# `ck_sequence` on relaxed memory (C69), `include/ck_sequence.h`

Location `none` is the sequence word (values modulo `2 ^ w`, 32 in the C code), `some j` the words of the data.  One writer at
a time (the caller holds a mutex, which also hands on what the previous writer knew: the writer is one thread here), any
number of readers.  Loads of readers return any value the memory model allows.  `fc` tells which of the four fences exist;
all of them do in the code.  Bookkeeping that no program step reads: `ver` counts the stores to the sequence word, `snap k`
is the data after `k` write sections.
-/

namespace Verif.Weak.Sequence

open Verif

/-- The fences of lines 72, 84, 105 and 120. -/
structure Fences where
  readBegin : Bool
  readRetry : Bool
  writeBegin : Bool
  writeEnd : Bool

def real : Fences := { readBegin := true, readRetry := true, writeBegin := true, writeEnd := true }

inductive PC
  | idle
  /-- the loop of line 54 -/
  | begin
  /-- inside the read section; `v` is the version read, `b` its place in the order of stores (bookkeeping) -/
  | sect (v b : Nat)
  /-- line 85: about to load -/
  | check (v b : Nat)
  /-- `ck_sequence_read_retry` returned false -/
  | accepted (b : Nat)
deriving DecidableEq

structure St (n : Nat) where
  mem : Mem (Option Nat) Nat
  /-- the writer -/
  w : Th (Option Nat)
  writing : Bool
  /-- the data as the writer knows them -/
  data : Nat → Nat
  ver : Nat
  snap : Nat → Nat → Nat
  pc : Fin n → PC
  rd : Fin n → Th (Option Nat)
  /-- what was loaded in the section: word and value -/
  log : Fin n → List (Nat × Nat)

inductive Act (n : Nat)
  | wbegin
  | store (j v : Nat)
  | wend
  | rbegin (r : Fin n)
  /-- load number `i` of the sequence word, line 55 -/
  | load (r : Fin n) (i : Nat)
  | read (r : Fin n) (j i : Nat)
  | fence (r : Fin n)
  /-- load number `i` of the sequence word, line 85 -/
  | retry (r : Fin n) (i : Nat)
  | leave (r : Fin n)

/-- A fence that may be missing. -/
def opt {L : Type} (b : Bool) (f : Th L → Th L) (t : Th L) : Th L := if b then f t else t

variable {n : Nat}

/-- Lines 41-47. -/
def initSt (n : Nat) (d : Nat → Nat) : St n :=
  { mem := Mem.init fun x => match x with
      | none => 0
      | some j => d j
    w := Th.init, writing := false, data := d, ver := 0, snap := fun _ => d
    pc := fun _ => .idle, rd := fun _ => Th.init, log := fun _ => [] }

def step (w : Nat) (fc : Fences) (s : St n) : Act n → Option (St n)
  -- lines 96-107
  | .wbegin =>
    if s.writing then none
    else some { s with
      mem := s.mem.store s.w none ((s.ver + 1) % 2 ^ w)
      w := opt fc.writeBegin Th.fenceStore (s.w.store s.mem none), writing := true, ver := s.ver + 1 }
  | .store j v =>
    if s.writing then
      some { s with mem := s.mem.store s.w (some j) v, w := s.w.store s.mem (some j), data := upd s.data j v }
    else none
  -- lines 112-123
  | .wend =>
    if s.writing then
      some { s with
        mem := s.mem.store (opt fc.writeEnd Th.fenceStore s.w) none ((s.ver + 1) % 2 ^ w)
        w := (opt fc.writeEnd Th.fenceStore s.w).store s.mem none, writing := false, ver := s.ver + 1
        snap := upd s.snap ((s.ver + 1) / 2) s.data }
    else none
  | .rbegin r =>
    if s.pc r = .idle then some { s with pc := upd s.pc r .begin, log := upd s.log r [] } else none
  -- lines 54-72
  | .load r i =>
    if s.pc r = .begin ∧ (s.rd r).may s.mem none i then
      if (s.mem.msg none i).val % 2 = 0 then
        some { s with
          pc := upd s.pc r (.sect (s.mem.msg none i).val i)
          rd := upd s.rd r (opt fc.readBegin Th.fenceLoad ((s.rd r).load s.mem none i)) }
      else some { s with rd := upd s.rd r ((s.rd r).load s.mem none i) }
    else none
  -- the read section of the caller
  | .read r j i => match s.pc r with
    | .sect _ _ =>
      if (s.rd r).may s.mem (some j) i then
        some { s with
          log := upd s.log r ((j, (s.mem.msg (some j) i).val) :: s.log r)
          rd := upd s.rd r ((s.rd r).load s.mem (some j) i) }
      else none
    | _ => none
  -- line 84
  | .fence r => match s.pc r with
    | .sect v b => some { s with pc := upd s.pc r (.check v b), rd := upd s.rd r (opt fc.readRetry Th.fenceLoad (s.rd r)) }
    | _ => none
  -- line 85; a section that must be repeated is entered again as in `CK_SEQUENCE_READ` (88-91)
  | .retry r i => match s.pc r with
    | .check v b =>
      if (s.rd r).may s.mem none i then
        if (s.mem.msg none i).val ≠ v then
          some { s with
            pc := upd s.pc r .begin, log := upd s.log r [], rd := upd s.rd r ((s.rd r).load s.mem none i) }
        else some { s with pc := upd s.pc r (.accepted b), rd := upd s.rd r ((s.rd r).load s.mem none i) }
      else none
    | _ => none
  | .leave r => match s.pc r with
    | .accepted _ => some { s with pc := upd s.pc r .idle }
    | _ => none

def sys (w : Nat) (fc : Fences) (n : Nat) : Sys (St n) (Act n) :=
  { init := fun s => ∃ d, s = initSt n d, step := step w fc }

end Verif.Weak.Sequence
