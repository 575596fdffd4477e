import Verif.Core.Spec
import Verif.Core.Tactic

/-!
# Hierarchical CLH lock (model), `include/spinlock/hclh.h`

`N` nodes, `T` threads and `K` clusters are arbitrary types.  Every thread owns one node at a
time; unlock replaces it by the predecessor's node (line 144).  `cq t` is the `local_queue`
argument of the call thread `t` is executing.  With `mig = false` a thread always passes the queue
of its own cluster `cl t`; with `mig = true` it may pass any queue.

Each shared access is one step.  Fences and `ck_pr_stall` are no-ops.

The fields from `pp` on are ghost: no step reads them to decide anything.  A master (a thread that
splices its local queue into the global one, lines 110-113) moves a prefix of `L`, the threads of
its cluster not spliced yet, to the end of `Q`, the threads spliced and not released.
-/

namespace Verif.Spin.Hclh

inductive Act (T K : Type)
  | lock (t : T) (k : K)
  | run (t : T)
  | unlock (t : T)
  deriving DecidableEq

inductive PC (N : Type)
  | idle
  | w0                  -- line 82
  | w1                  -- line 83
  | w2                  -- line 84, load of `*local_queue`
  | w3 (l : N)          -- line 84, load of `->cluster_id`
  | w4 (v : Int)        -- line 84, store
  | w5                  -- line 86, load of `*local_queue`
  | w6 (l : N)          -- line 86, store
  | fas                 -- line 92
  | s0 (p : N)          -- line 93
  | r0 (p : N)          -- line 97
  | r1 (p : N)          -- line 98
  | r2 (p : N)          -- line 99
  | r3 (p : N)          -- line 100
  | e1 (p : N)          -- line 104
  | e2 (p : N)          -- line 105
  | m0                  -- line 110
  | m1 (l : N)          -- line 111
  | m2 (l g : N)        -- line 113
  | m3 (g : N)          -- line 116
  | cs
  | u1 (p : N)          -- line 139, `previous` loaded at line 135
  deriving DecidableEq

structure Cfg (T K : Type) where
  cl : T → K
  /-- the `cluster_id` given to `ck_spinlock_hclh_init` for each local queue -/
  id : K → Int
  mig : Bool

structure St (N T K : Type) where
  gq : N
  lq : K → N
  wait : N → Bool
  splice : N → Bool
  cid : N → Int
  prev : N → Option N
  node : T → N
  cq : T → K
  pc : T → PC N
  /-- local predecessor -/
  pp : T → N
  /-- global predecessor of a master -/
  gp : T → N
  mst : T → Bool
  /-- the node is the last one of a spliced batch -/
  tl : N → Bool
  Q : List T
  L : K → List T
  /-- the node in front of the first unreleased thread of a cluster -/
  B : K → N
  /-- the node released last -/
  X : N
  home : N → Option K
  /-- order of arrival in the local queue, of entering, and of releasing, per cluster -/
  arr : K → List T
  ent : K → List T
  out : K → List T

variable {N T K : Type} [DecidableEq N] [DecidableEq T] [DecidableEq K]

/-- Lines 46-59: one unowned node for the global queue, one for each local queue; every thread has
a node of its own, with arbitrary contents. -/
def isInit (c : Cfg T K) (s : St N T K) : Prop :=
  s.wait s.gq = false ∧
  (∀ k, s.prev (s.lq k) = none ∧ s.wait (s.lq k) = false ∧ s.splice (s.lq k) = false ∧
    s.cid (s.lq k) = c.id k) ∧
  (∀ k j, s.lq k = s.lq j → k = j) ∧ (∀ k, s.lq k ≠ s.gq) ∧
  (∀ t k, s.node t ≠ s.lq k) ∧ (∀ t, s.node t ≠ s.gq) ∧ (∀ t u, s.node t = s.node u → t = u) ∧
  (∀ t, s.pc t = .idle) ∧
  -- ghost
  (∀ k, s.tl (s.lq k) = true) ∧ s.Q = [] ∧ (∀ k, s.L k = []) ∧ (∀ k, s.B k = s.lq k) ∧
  s.X = s.gq ∧ (∀ m k, s.home m = some k ↔ m = s.lq k) ∧
  (∀ k, s.arr k = [] ∧ s.ent k = [] ∧ s.out k = [])

/-- Split a list behind the first element satisfying `f`. -/
def cut (f : T → Bool) : List T → List T × List T
  | [] => ([], [])
  | t :: l => if f t then ([t], l) else (t :: (cut f l).1, (cut f l).2)

def enter (s : St N T K) (t : T) : St N T K :=
  { s with pc := upd s.pc t .cs, ent := upd s.ent (s.cq t) (s.ent (s.cq t) ++ [t]) }

def step (c : Cfg T K) (s : St N T K) : Act T K → Option (St N T K)
  | .lock t k =>
    if s.pc t = .idle ∧ (c.mig = true ∨ k = c.cl t) then
      some { s with pc := upd s.pc t .w0, cq := upd s.cq t k }
    else none
  | .unlock t =>
    if s.pc t = .cs then
      -- line 135; a NULL would be returned to the caller as their node
      match s.prev (s.node t) with
      | some p => some { s with pc := upd s.pc t (.u1 p) }
      | none => none
    else none
  | .run t => match s.pc t with
    | .w0 => some { s with wait := upd s.wait (s.node t) true, pc := upd s.pc t .w1 }
    | .w1 => some { s with splice := upd s.splice (s.node t) false, pc := upd s.pc t .w2 }
    | .w2 => some { s with pc := upd s.pc t (.w3 (s.lq (s.cq t))) }
    | .w3 l => some { s with pc := upd s.pc t (.w4 (s.cid l)) }
    | .w4 v => some { s with cid := upd s.cid (s.node t) v, pc := upd s.pc t .w5,
                             home := upd s.home (s.node t) (some (s.cq t)) }
    | .w5 => some { s with pc := upd s.pc t (.w6 (s.lq (s.cq t))) }
    | .w6 l => some { s with prev := upd s.prev (s.node t) (some l), pc := upd s.pc t .fas }
    | .fas => some { s with
        lq := upd s.lq (s.cq t) (s.node t), pc := upd s.pc t (.s0 (s.lq (s.cq t)))
        pp := upd s.pp t (s.lq (s.cq t)), tl := upd s.tl (s.node t) false
        L := upd s.L (s.cq t) (s.L (s.cq t) ++ [t])
        arr := upd s.arr (s.cq t) (s.arr (s.cq t) ++ [t]) }
    | .s0 p => some { s with prev := upd s.prev (s.node t) (some p), pc := upd s.pc t (.r0 p) }
    | .r0 p =>
      if s.prev p = none then some { s with pc := upd s.pc t .m0 }
      else some { s with pc := upd s.pc t (.r1 p) }
    | .r1 p =>
      if s.wait p = true then some { s with pc := upd s.pc t (.r2 p) }
      else some { s with pc := upd s.pc t (.e1 p) }
    | .r2 p =>
      if s.cid p = s.cid (s.node t) then some { s with pc := upd s.pc t (.r3 p) }
      else some { s with pc := upd s.pc t (.e1 p) }
    | .r3 p =>
      if s.splice p = false then some { s with pc := upd s.pc t (.r1 p) }
      else some { s with pc := upd s.pc t (.e1 p) }
    | .e1 p =>
      if s.cid p = s.cid (s.node t) then some { s with pc := upd s.pc t (.e2 p) }
      else some { s with pc := upd s.pc t .m0 }
    | .e2 p =>
      if s.splice p = false then some (enter s t)
      else some { s with pc := upd s.pc t .m0 }
    | .m0 => some { s with pc := upd s.pc t (.m1 (s.lq (s.cq t))) }
    | .m1 l => some { s with
        gq := l, pc := upd s.pc t (.m2 l s.gq)
        Q := s.Q ++ (cut (fun u => s.node u = l) (s.L (s.cq t))).1
        L := upd s.L (s.cq t) (cut (fun u => s.node u = l) (s.L (s.cq t))).2
        gp := upd s.gp t s.gq, tl := upd s.tl l true
        mst := fun u => if u = t then true else
          if u ∈ (cut (fun u => s.node u = l) (s.L (s.cq t))).1 then false else s.mst u }
    | .m2 l g => some { s with splice := upd s.splice l true, pc := upd s.pc t (.m3 g) }
    | .m3 g => if s.wait g = true then some s else some (enter s t)
    -- lines 139, 144
    | .u1 p => some { s with
        wait := upd s.wait (s.node t) false, node := upd s.node t p, pc := upd s.pc t .idle
        Q := s.Q.tail, B := upd s.B (s.cq t) (s.node t), X := s.node t
        out := upd s.out (s.cq t) (s.out (s.cq t) ++ [t]) }
    | .idle => none
    | .cs => none

def sys (N : Type) [DecidableEq N] (c : Cfg T K) : Sys (St N T K) (Act T K) :=
  { init := isInit c, step := step c }

/-- Between the return of lock and the releasing store of unlock. -/
def St.holds (s : St N T K) (t : T) : Prop := s.pc t = .cs ∨ ∃ p, s.pc t = .u1 p

/-- The thread swapped itself into its local queue and did not enter yet. -/
def PC.waiting : PC N → Bool
  | .s0 _ | .r0 _ | .r1 _ | .r2 _ | .r3 _ | .e1 _ | .e2 _ | .m0 | .m1 _ | .m2 _ _ | .m3 _ => true
  | _ => false

def St.waits (s : St N T K) (t : T) : Prop := (s.pc t).waiting = true

end Verif.Spin.Hclh
