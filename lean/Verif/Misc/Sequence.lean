import Verif.Core.Tactic

/-!
# `ck_sequence` (model), `include/ck_sequence.h`

`seq` is the sequence word, of width `w` (32 in the C code).  The data protected by the sequence lock
are words `mem i`.  One writer at a time (the caller holds a mutex, lines 99, 115) stores words in any order
between write_begin and write_end; any number of readers load words in any order between read_begin
and read_retry.  Bookkeeping that no program step reads: `ver` counts the stores to `seq` without wrap, `beg r` is `ver` when reader `r` left read_begin.
-/

namespace Verif.Sequence

open Verif

variable {w n : Nat} {V : Type}

inductive PC (w : Nat)
  | idle
  | begin                     -- the load of line 55
  | sect (v : BitVec w)       -- inside the read section, `version = v`
  | accepted                  -- read_retry returned false
  deriving DecidableEq

structure St (w n : Nat) (V : Type) where
  seq : BitVec w
  mem : Nat → V
  writing : Bool
  pc : Fin n → PC w
  /-- what the reader has loaded in the current section: (word, value) -/
  log : Fin n → List (Nat × V)
  ver : Nat
  beg : Fin n → Nat

inductive Act (n : Nat) (V : Type)
  | wbegin
  | store (i : Nat) (v : V)
  | wend
  | rbegin (r : Fin n)
  | load (r : Fin n)
  | read (r : Fin n) (i : Nat)
  | retry (r : Fin n)
  | leave (r : Fin n)

/-- lines 41-47 (and the initial data `m0`). -/
def initSt (w n : Nat) (m0 : Nat → V) : St w n V :=
  { seq := 0, mem := m0, writing := false, pc := fun _ => .idle, log := fun _ => [], ver := 0,
    beg := fun _ => 0 }

def step (s : St w n V) : Act n V → Option (St w n V)
  -- lines 100-110
  | .wbegin =>
    if s.writing then none
    else some { s with seq := s.seq + 1, writing := true, ver := s.ver + 1 }
  | .store i v => if s.writing then some { s with mem := upd s.mem i v } else none
  -- lines 116-127
  | .wend =>
    if s.writing then
      some { s with seq := s.seq + 1, writing := false, ver := s.ver + 1 }
    else none
  | .rbegin r =>
    if s.pc r = .idle then some { s with pc := upd s.pc r .begin, log := upd s.log r [] } else none
  -- lines 54-71
  | .load r =>
    if s.pc r = .begin then
      if s.seq &&& 1 = 0 then
        some { s with pc := upd s.pc r (.sect s.seq), beg := upd s.beg r s.ver }
      else some s
    else none
  -- the caller's read section
  | .read r i => match s.pc r with
    | .sect _ => some { s with log := upd s.log r ((i, s.mem i) :: s.log r) }
    | _ => none
  -- lines 76-86; a section that must be retried is re-entered as in CK_SEQUENCE_READ (88-91)
  | .retry r => match s.pc r with
    | .sect v =>
      if s.seq ≠ v then some { s with pc := upd s.pc r .begin, log := upd s.log r [] }
      else some { s with pc := upd s.pc r .accepted }
    | _ => none
  | .leave r => if s.pc r = .accepted then some { s with pc := upd s.pc r .idle } else none

def sys (w n : Nat) (V : Type) : Sys (St w n V) (Act n V) :=
  { init := fun s => ∃ m0, s = initSt w n m0, step := step }

end Verif.Sequence
