import Verif.Core.Sys

/-!
# Memory fences (C93), `include/ck_pr.h` lines 79-166 and `include/gcc/*/ck_pr.h`

Which instruction a call of `ck_pr_fence_*` becomes, for every architecture and every memory model the library can be configured for, and which accesses the processor then keeps in order.

A program of one thread is a list of accesses and fences.  An access is performed in one or two parts: a load reads (`r`), a store writes (`w`), an atomic read-modify-write does both.  An execution performs the parts in any
order that respects what the hardware orders by itself (`Hw`) and what the instructions between two accesses order.  What an instruction orders is taken from the manuals of the architectures (trusted).  Accesses to
different locations only; what the processor orders because of dependencies or equal addresses is left out (it could only help).

Spec (`asked`): the pairs of accesses the manual pages `doc/ck_pr_fence_*` name.  As `include/ck_pr.h` lines 101-102 says, an atomic operation counts as its store; for `ck_pr_fence_lock` (no text in the manual page) the
accesses are those of acquire semantics, where the lock was taken by a load or the read of an atomic operation, for `ck_pr_fence_unlock` those of release semantics.
-/

namespace Verif.Misc.Fence

inductive Part | r | w
deriving DecidableEq

inductive Kind | load | store | rmw
deriving DecidableEq

/-- The parts of an access. -/
def Kind.has : Kind → Part → Bool
  | .load, .r => true
  | .store, .w => true
  | .rmw, _ => true
  | _, _ => false

/-- The functions `ck_pr_fence_*`, `include/ck_pr.h` lines 109-123 -/
inductive Fn | atomic | atomicLoad | atomicStore | storeAtomic | loadAtomic | loadStore | storeLoad | load | store | memory | acquire | release | acqrel | lock | unlock
deriving DecidableEq

/-- `CK_MD_TSO`, `CK_MD_PSO`, `CK_MD_RMO`, chosen by `configure` -/
inductive MM | tso | pso | rmo
deriving DecidableEq

/-- Whether `ck_pr_fence_*` emits `ck_pr_fence_strict_*` (otherwise it is a compiler barrier), `include/ck_pr.h` lines 104-163. -/
def emit : MM → Fn → Bool
  | .rmo, _ => true
  | .pso, .atomicLoad | .pso, .loadAtomic | .pso, .load => false
  | .pso, _ => true
  | .tso, .storeLoad | .tso, .memory => true
  | .tso, _ => false

/-- The headers in `include/gcc`.  `arm7`: `arm/ck_pr.h` on ARMv7, lines 57-66; `arm6`: the same on other versions, lines 67-76.  `ppc` with `CK_MD_PPC32_LWSYNC`, `ppcS` without.  `x86` with SSE, `x86S` without.
`builtin`: `include/gcc/ck_pr.h`. -/
inductive Arch | x8664 | x86 | x86S | sparcv9 | ppc64 | ppc | ppcS | s390x | arm6 | arm7 | aarch64 | riscv64 | builtin
deriving DecidableEq

inductive Instr
  | nop | lfence | sfence | mfence | lockAdd
  | membar (ll ls sl ss : Bool) | memIssue
  | sync | lwsync
  | dmb | dmbSt | dmbLd
  | fence (pr pw sr sw : Bool)
  /-- `__sync_synchronize` -/
  | full
deriving DecidableEq

/-- The architectures' definition of the instructions: the parts before the instruction that are performed before which parts after it. -/
def Instr.orders : Instr → Part → Part → Bool
  | .nop, _, _ => false
  | .lfence, .r, _ => true
  | .lfence, _, _ => false
  | .sfence, .w, .w => true
  | .sfence, _, _ => false
  | .mfence, _, _ | .lockAdd, _, _ => true
  | .membar ll _ _ _, .r, .r => ll
  | .membar _ ls _ _, .r, .w => ls
  | .membar _ _ sl _, .w, .r => sl
  | .membar _ _ _ ss, .w, .w => ss
  | .memIssue, _, _ => true
  | .sync, _, _ => true
  | .lwsync, .w, .r => false
  | .lwsync, _, _ => true
  | .dmb, _, _ => true
  | .dmbSt, .w, .w => true
  | .dmbSt, _, _ => false
  | .dmbLd, .r, _ => true
  | .dmbLd, _, _ => false
  | .fence pr pw sr sw, p, q => (match p with | .r => pr | .w => pw) && (match q with | .r => sr | .w => sw)
  | .full, _, _ => true

/-- `gcc/x86_64/ck_pr.h` lines 79-113, `gcc/x86/ck_pr.h` lines 85-104 -/
def x86 : Fn → Instr
  | .atomic | .atomicStore | .atomicLoad | .storeAtomic | .loadAtomic => .nop
  | .load => .lfence
  | .store => .sfence
  | _ => .mfence

/-- `gcc/x86/ck_pr.h` lines 81-83, 90-104 -/
def x86S : Fn → Instr
  | .atomic | .atomicStore | .atomicLoad | .storeAtomic | .loadAtomic => .nop
  | _ => .lockAdd

/-- `gcc/sparcv9/ck_pr.h` lines 70-84 -/
def sparcv9 : Fn → Instr
  | .atomic | .atomicStore | .storeAtomic | .store => .membar false false false true
  | .atomicLoad | .storeLoad => .membar false false true false
  | .loadAtomic | .loadStore => .membar false true false false
  | .load => .membar true false false false
  | .memory => .memIssue
  | .acquire => .membar true true false false
  | .release => .membar false true false true
  | .acqrel => .membar true true false true
  | .lock => .membar true true true true
  | .unlock => .membar false true false true

/-- `gcc/ppc64/ck_pr.h` lines 73-87, `gcc/ppc/ck_pr.h` lines 76-90 -/
def ppc (lw : Instr) : Fn → Instr
  | .atomicLoad | .storeLoad | .memory => .sync
  | _ => lw

/-- `gcc/arm/ck_pr.h` lines 85-99 -/
def arm (st : Instr) : Fn → Instr
  | .atomic | .atomicStore | .atomicLoad | .storeAtomic | .store => st
  | _ => .dmb

/-- `gcc/aarch64/ck_pr.h` lines 68-82 -/
def aarch64 : Fn → Instr
  | .atomic | .atomicStore | .storeAtomic | .store => .dmbSt
  | .load => .dmbLd
  | _ => .dmb

/-- `gcc/riscv64/ck_pr.h` lines 86-100 -/
def riscv64 : Fn → Instr
  | .atomicStore => .fence true true false true
  | .atomicLoad => .fence true true true false
  | .storeAtomic => .fence false true true true
  | .loadAtomic => .fence true false true true
  | .store => .fence false true false true
  | .storeLoad => .fence false true true false
  | .load => .fence true false true false
  | .loadStore => .fence true false false true
  | .acquire => .fence true false true true
  | .release => .fence true true false true
  | .atomic | .memory | .acqrel | .lock | .unlock => .fence true true true true

/-- `ck_pr_fence_strict_*`; `gcc/s390x/ck_pr.h` lines 61-86, `gcc/ck_pr.h` lines 125-149. -/
def strict : Arch → Fn → Instr
  | .x8664, f | .x86, f => x86 f
  | .x86S, f => x86S f
  | .sparcv9, f => sparcv9 f
  | .ppc64, f | .ppc, f => ppc .lwsync f
  | .ppcS, f => ppc .sync f
  | .arm6, f => arm .dmb f
  | .arm7, f => arm .dmbSt f
  | .aarch64, f => aarch64 f
  | .riscv64, f => riscv64 f
  | .s390x, _ | .builtin, _ => .full

/-- The instruction a call of `ck_pr_fence_*` becomes. -/
def instr (a : Arch) (md : MM) (f : Fn) : Instr := if emit md f then strict a f else .nop

/-- What the hardware orders without fences.  TSO: all but a store before a load; atomic operations are serializing.  PSO: all but what follows a plain store. -/
def hw : MM → Kind → Kind → Bool
  | .tso, .store, .load => false
  | .tso, _, _ => true
  | .pso, .store, _ => false
  | .pso, _, _ => true
  | .rmo, _, _ => false

/-- Hardware model `h` and configured model `md` that can occur together: processors of the x86 family are TSO, those of sparcv9 have a mode for each; the others are taken to have no order, and are configured so
(`configure` lines 418-572). -/
def config : Arch → MM → MM → Bool
  | .x8664, h, _ | .x86, h, _ | .x86S, h, _ => h = .tso
  | .sparcv9, .tso, _ => true
  | .sparcv9, .pso, md => md ≠ .tso
  | .sparcv9, .rmo, md => md = .rmo
  | _, h, md => h = .rmo && md = .rmo

inductive Op
  | acc (k : Kind) (l : Nat)
  | fn (f : Fn)
deriving DecidableEq

/-- The orders in which the processor may perform the parts of the accesses of a thread: `pos i p` is the time of part `p` of the access at position `i` of the program. -/
structure Exec (a : Arch) (h md : MM) (prog : List Op) (pos : Nat → Part → Nat) : Prop where
  hw : ∀ i j k l k' l', i < j → prog[i]? = some (.acc k l) → prog[j]? = some (.acc k' l') → hw h k k' = true → ∀ p q, k.has p = true → k'.has q = true → pos i p < pos j q
  fence : ∀ i m j k l f k' l', i < m → m < j → prog[i]? = some (.acc k l) → prog[m]? = some (.fn f) → prog[j]? = some (.acc k' l') →
    ∀ p q, k.has p = true → k'.has q = true → (instr a md f).orders p q = true → pos i p < pos j q

/-! ## Specification -/

/-- An access of kind `k` is meant by the word in the name of a function: an atomic operation is a store, `doc/ck_pr_fence_store`, `include/ck_pr.h` lines 101-102. -/
def isL : Kind → Bool
  | .load => true
  | _ => false
def isS : Kind → Bool
  | .store | .rmw => true
  | _ => false
def isA : Kind → Bool
  | .rmw => true
  | _ => false

/-- The pairs of accesses each manual page names; `doc/ck_pr_fence_atomic` etc. -/
def asked : Fn → Kind → Kind → Bool
  | .atomic, k, k' => isA k && isA k'
  | .atomicLoad, k, k' => isA k && isL k'
  | .atomicStore, k, k' => isA k && isS k'
  | .storeAtomic, k, k' => isS k && isA k'
  | .loadAtomic, k, k' => isL k && isA k'
  | .loadStore, k, k' => isL k && isS k'
  | .storeLoad, k, k' => isS k && isL k'
  | .load, k, k' => isL k && isL k'
  | .store, k, k' => isS k && isS k'
  | .memory, _, _ => true
  | .acquire, k, _ => isL k
  | .release, _, k' => isS k'
  | .acqrel, k, k' => isL k || isS k'
  | .lock, k, _ => isL k || isA k
  | .unlock, _, k' => isS k'

/-- The part of an access that counts: of an atomic operation the store, but where it took a lock the read. -/
def first : Fn → Kind → Part
  | .lock, _ => .r
  | _, .load => .r
  | _, _ => .w
def second : Kind → Part
  | .load => .r
  | _ => .w

/-- `f` orders what its manual page says. -/
def Right (a : Arch) (h md : MM) (f : Fn) : Prop :=
  ∀ prog pos, Exec a h md prog pos → ∀ i m j k l k' l', i < m → m < j → prog[i]? = some (.acc k l) → prog[m]? = some (.fn f) → prog[j]? = some (.acc k' l') →
    asked f k k' = true → pos i (first f k) < pos j (second k')

/-- A statement about all members of a list that has all values. -/
def decAll {α : Type} (l : List α) (h : ∀ x, x ∈ l) (p : α → Prop) [DecidablePred p] : Decidable (∀ x, p x) :=
  decidable_of_iff (∀ x ∈ l, p x) ⟨fun g x => g x (h x), fun g x _ => g x⟩

instance (p : Kind → Prop) [DecidablePred p] : Decidable (∀ x, p x) := decAll [.load, .store, .rmw] (by intro x; cases x <;> decide) p
instance (p : MM → Prop) [DecidablePred p] : Decidable (∀ x, p x) := decAll [.tso, .pso, .rmo] (by intro x; cases x <;> decide) p
instance (p : Fn → Prop) [DecidablePred p] : Decidable (∀ x, p x) :=
  decAll [.atomic, .atomicLoad, .atomicStore, .storeAtomic, .loadAtomic, .loadStore, .storeLoad, .load, .store, .memory, .acquire, .release, .acqrel, .lock, .unlock] (by intro x; cases x <;> decide) p
instance (p : Arch → Prop) [DecidablePred p] : Decidable (∀ x, p x) :=
  decAll [.x8664, .x86, .x86S, .sparcv9, .ppc64, .ppc, .ppcS, .s390x, .arm6, .arm7, .aarch64, .riscv64, .builtin] (by intro x; cases x <;> decide) p

/-- All cases of the tables. -/
theorem table : ∀ a h md f k k', config a h md = true → ¬ (a = .arm7 ∧ f = .atomicLoad) → asked f k k' = true →
    (hw h k k' = true ∨ (instr a md f).orders (first f k) (second k') = true) ∧ k.has (first f k) = true ∧ k'.has (second k') = true := by decide +kernel

/-- C93, with the one exception: every fence on every architecture. -/
theorem right_partial {a : Arch} {h md : MM} (hc : config a h md = true) {f : Fn} (hf : ¬ (a = .arm7 ∧ f = .atomicLoad)) : Right a h md f := by
  intro prog pos he i m j k l k' l' h1 h2 h3 h4 h5 h6
  obtain ⟨hk | hk, hp, hq⟩ := table a h md f k k' hc hf h6
  · exact he.hw i j k l k' l' (by omega) h3 h5 hk _ _ hp hq
  · exact he.fence i m j k l f k' l' h1 h2 h3 h4 h5 _ _ hp hq hk

/-- The accesses in program order are an execution of any program. -/
theorem in_order (a : Arch) (h md : MM) (prog : List Op) : Exec a h md prog fun i p => 2 * i + if p = .r then 0 else 1 := by
  constructor
  · intro i j _ _ _ _ hij _ _ _ p q _ _
    split <;> split <;> omega
  · intro i m j _ _ _ _ _ h1 h2 _ _ _ p q _ _ _
    split <;> split <;> omega

/-- An atomic operation on one word, a fence, a load of another. -/
def handshake (f : Fn) (x y : Nat) : List Op := [.acc .rmw x, .fn f, .acc .load y]

/-- An order of the parts of `handshake`: the load is first. -/
def early : Nat → Part → Nat
  | 0, .r => 1
  | 0, .w => 2
  | _, _ => 0

/-- An order of the parts of `handshake`: the load comes after the read and before the store of the atomic operation. -/
def between : Nat → Part → Nat
  | 0, .r => 0
  | 0, .w => 2
  | _, _ => 1

theorem exec_handshake {a : Arch} {h md : MM} {f : Fn} {x y : Nat} {pos : Nat → Part → Nat} (h1 : hw h .rmw .load = true → pos 0 .r < pos 2 .r ∧ pos 0 .w < pos 2 .r)
    (h2 : ∀ p, (instr a md f).orders p .r = true → pos 0 p < pos 2 .r) : Exec a h md (handshake f x y) pos := by
  have idx : ∀ {i k l}, (handshake f x y)[i]? = some (Op.acc k l) → i = 0 ∧ k = .rmw ∨ i = 2 ∧ k = .load := fun {i k l} h => by
    rcases i with _ | _ | _ | i <;> simp_all [handshake]
  have idf : ∀ {i g}, (handshake f x y)[i]? = some (Op.fn g) → i = 1 ∧ g = f := fun {i g} h => by
    rcases i with _ | _ | _ | i <;> simp_all [handshake]
  constructor
  · intro i j k l k' l' hij e1 e2 hh p q hp hq
    rcases idx e1 with ⟨rfl, rfl⟩ | ⟨rfl, rfl⟩ <;> rcases idx e2 with ⟨rfl, rfl⟩ | ⟨rfl, rfl⟩ <;> try omega
    cases q
    · cases p
      · exact (h1 hh).1
      · exact (h1 hh).2
    · cases hq
  · intro i m j k l g k' l' him hmj e1 e2 e3 p q hp hq ho
    rcases idx e1 with ⟨rfl, rfl⟩ | ⟨rfl, rfl⟩ <;> rcases idx e3 with ⟨rfl, rfl⟩ | ⟨rfl, rfl⟩ <;> try omega
    obtain ⟨rfl, rfl⟩ := idf e2
    cases q
    · exact h2 p ho
    · cases hq

/-- C93 fails for `ck_pr_fence_atomic_load` on ARMv7: it is `dmb st`, which does not order loads. -/
theorem arm_fails : config .arm7 .rmo .rmo = true ∧ ¬ Right .arm7 .rmo .rmo .atomicLoad := by
  refine ⟨rfl, fun h => ?_⟩
  have := h (handshake .atomicLoad 0 1) early (exec_handshake nofun fun p hp => by cases p <;> cases hp) 0 1 2 .rmw 0 .load 1 (by omega) (by omega) rfl rfl rfl rfl
  exact absurd this (by decide)

/-- Two threads; each announces itself with an atomic operation, passes `ck_pr_fence_atomic_load` and looks at the word of the other (`ck_rwlock`, `ck_brlock`, `ck_bytelock`, `ck_rwcohort`, `ck_epoch`). -/
structure Both (a : Arch) (h md : MM) (pos : Bool → Nat → Part → Nat) : Prop where
  one : Exec a h md (handshake .atomicLoad 0 1) (pos false)
  two : Exec a h md (handshake .atomicLoad 1 0) (pos true)

/-- C93: at least one of them sees the other. -/
theorem handshake_partial {a : Arch} {h md : MM} (hc : config a h md = true) (ha : a ≠ .arm7) {pos : Bool → Nat → Part → Nat} (hb : Both a h md pos) :
    pos true 0 .w < pos false 2 .r ∨ pos false 0 .w < pos true 2 .r := by
  have hr : Right a h md .atomicLoad := right_partial hc fun h => ha h.1
  have h1 := hr _ _ hb.one 0 1 2 .rmw 0 .load 1 (by omega) (by omega) rfl rfl rfl rfl
  have h2 := hr _ _ hb.two 0 1 2 .rmw 1 .load 0 (by omega) (by omega) rfl rfl rfl rfl
  simp only [first, second] at h1 h2
  omega

/-- On ARMv7 it can be that neither does. -/
theorem handshake_fails : ∃ pos, Both .arm7 .rmo .rmo pos ∧ ¬ (pos true 0 .w < pos false 2 .r ∨ pos false 0 .w < pos true 2 .r) :=
  ⟨fun _ => early, ⟨exec_handshake nofun (fun p hp => by cases p <;> cases hp), exec_handshake nofun (fun p hp => by cases p <;> cases hp)⟩, by decide⟩

/-- The order of the reads of atomic operations is more than what is asked: on ARMv7 and AArch64 `ck_pr_fence_atomic` leaves it open, the read of the second may come before the first. -/
theorem atomic_reads : ∃ pos, Exec .aarch64 .rmo .rmo [.acc .rmw 0, .fn .atomic, .acc .rmw 1] pos ∧ pos 2 .r < pos 0 .r ∧ pos 0 .w < pos 2 .w := by
  refine ⟨fun i p => if i = 0 then (if p = .r then 1 else 2) else (if p = .r then 0 else 3), ⟨?_, ?_⟩, by decide, by decide⟩
  · intro i j k l k' l' _ _ _ h; cases h
  · intro i m j k l f k' l' h1 h2 e1 e2 e3 p q hp hq ho
    rcases i with _ | _ | _ | i <;> rcases j with _ | _ | _ | j <;> rcases m with _ | _ | _ | m <;> simp at e1 e2 e3 <;> try omega
    obtain ⟨rfl, rfl⟩ := e1
    obtain ⟨rfl, rfl⟩ := e3
    subst e2
    cases p <;> cases q <;> first | decide | cases ho

/-- `ck_pr_fence_lock` on ppc does not wait for the store of the atomic operation that took the lock: a load of the section may come before it, after the read. -/
theorem lock_store : Exec .ppc64 .rmo .rmo (handshake .lock 0 1) between :=
  exec_handshake nofun fun p hp => by cases p <;> first | decide | cases hp

/-- On TSO without a fence a load can overtake a store, `ck_pr_fence_store_load` is needed and is emitted. -/
example : emit .tso .storeLoad = true ∧ hw .tso .store .load = false ∧ Right .x8664 .tso .tso .storeLoad := ⟨rfl, rfl, right_partial rfl (by decide)⟩

end Verif.Misc.Fence
