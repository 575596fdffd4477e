import Verif.Core.Lin
import Verif.Core.Tactic

/-!
# Atomic operations made of load-linked and store-conditional

On ARMv7, AArch64 (without LSE), ppc, ppc64 and (for cas, neg, not) RISC-V every `ck_pr` operation
that reads and writes is a loop in assembly:

```
1: ldxr   old, [target]        lr / ldrex / lwarx
   (cas: cmp old, compare; b.ne 2f)
   new := f old
   stxr   failed, new, [target]   sc / strex / stwcx.
   cbnz   failed, 1b
2:
```

`f : W → Option W` is the computation between the two accesses; `none` is the exit of a
compare-and-swap whose comparison fails.

* /repo/include/gcc/aarch64/ck_pr_llsc.h lines 100-142 (cas), 163-177 (fas), 194-208 (unary),
  235-250 (binary), 283-340 (faa); ck_pr.h lines 191-207 (neg)
* /repo/include/gcc/arm/ck_pr.h lines 339-382, 395-412, 426-443, 467-485, 511-550
* /repo/include/gcc/ppc/ck_pr.h lines 149-187, 197-211, 220-234, 254-269, 291-326;
  ppc64/ck_pr.h lines 238-275, 283-297, 310-324, 345-360, 383-418
* /repo/include/gcc/riscv64/ck_pr.h lines 179-220 (cas), 412-424 (neg), 439-451 (not)

The hardware: each thread has a monitor (reservation).  A load-linked sets the monitor of its
thread; any store to the word (conditional or plain) clears all monitors; a monitor may also be
lost at any time (interrupt, eviction).  A store-conditional stores iff the monitor is set.

Simplified: one word, sequentially consistent; the ordering of the accesses around an operation is
the subject of `Misc/Fence.lean` and of the modules under `Weak/`.
-/

namespace Verif.LlSc

open Verif Verif.Lin

variable {W : Type}

/-- What a thread may do with the word: an atomic operation, `ck_pr_store`, `ck_pr_load`. -/
inductive Op (W : Type)
  | rmw (f : W → Option W)
  | put (v : W)
  | get

/-- Where a thread stands: before the load-linked, after it (with the value), before a plain
access, after its last access. -/
inductive Pc (W : Type)
  | idle
  | top (f : W → Option W)
  | got (f : W → Option W) (v : W)
  | put (v : W)
  | get
  | fin (r : Option W)

structure State (W : Type) where
  mem : W
  mon : Nat → Bool := fun _ => false
  pc : Nat → Pc W := fun _ => .idle

inductive Act (W : Type)
  | call (t : Nat) (o : Op W)
  | go (t : Nat)
  /-- the monitor is lost -/
  | lose (t : Nat)
  | ret (t : Nat)

/-- Code from the call on. -/
def start : Op W → Pc W
  | .rmw f => .top f
  | .put v => .put v
  | .get => .get

def step (s : State W) : Act W → Option (State W)
  | .call t o => match s.pc t with
    | .idle => some { s with pc := upd s.pc t (start o) }
    | _ => none
  | .go t => match s.pc t with
    -- ldxr
    | .top f => some { s with mon := upd s.mon t true, pc := upd s.pc t (.got f s.mem) }
    | .got f v => match f v with
      -- b.ne 2f
      | none => some { s with pc := upd s.pc t (.fin (some v)) }
      -- stxr; cbnz 1b
      | some n =>
        if s.mon t then
          some { mem := n, mon := fun _ => false, pc := upd s.pc t (.fin (some v)) }
        else some { s with pc := upd s.pc t (.top f) }
    | .put v => some { mem := v, mon := fun _ => false, pc := upd s.pc t (.fin none) }
    | .get => some { s with pc := upd s.pc t (.fin (some s.mem)) }
    | _ => none
  | .lose t => some { s with mon := upd s.mon t false }
  | .ret t => match s.pc t with
    | .fin _ => some { s with pc := upd s.pc t .idle }
    | _ => none

def sys (w : W) : Sys (State W) (Act W) where
  init s := s = { mem := w }
  step := step

/-- Calls and returns. -/
def obs (s : State W) : Act W → Option (Ev Nat (Op W) (Option W))
  | .call t o => some (.call t o)
  | .ret t => match s.pc t with
    | .fin r => some (.ret t r)
    | _ => none
  | _ => none

/-- The specification: an operation reads the word, replaces it by the new value if there is one,
and returns what it read. -/
def obj (w : W) : Obj (Op W) (Option W) W where
  init x := x = w
  app x o r x' := match o with
    | .rmw f => r = some x ∧ x' = (f x).getD x
    | .put v => r = none ∧ x' = v
    | .get => r = some x ∧ x' = x

/-- A monitor that is still set guarantees that the word still has the value read. -/
theorem mon_inv {w : W} {s : State W} (h : (sys w).Reach s) :
    ∀ t f v, s.pc t = .got f v → s.mon t = true → s.mem = v := by
  refine Sys.Reach.invariant (I := fun s => ∀ t f v, s.pc t = .got f v → s.mon t = true →
    s.mem = v) ?_ ?_ h
  · rintro s rfl t f v h; cases h
  · rintro s a s' hi hs t f v
    cases a with
    | call u o =>
      simp only [sys, step] at hs
      split at hs <;> cases hs
      simp only [upd_apply]
      by_cases h : t = u
      · subst h; cases o <;> simp [start]
      · simpa [h] using hi t f v
    | lose u =>
      simp only [sys, step, Option.some.injEq] at hs; subst hs
      simp only [upd_apply]
      by_cases h : t = u
      · simp [h]
      · simpa [h] using hi t f v
    | ret u =>
      simp only [sys, step] at hs
      split at hs <;> cases hs
      simp only [upd_apply]
      by_cases h : t = u
      · simp [h]
      · simpa [h] using hi t f v
    | go u =>
      simp only [sys, step] at hs
      split at hs
      · cases hs
        simp only [upd_apply]
        by_cases h : t = u
        · subst h; simp only [↓reduceIte, Pc.got.injEq]; rintro ⟨_, h⟩ _; exact h
        · simpa [h] using hi t f v
      · split at hs
        · cases hs
          simp only [upd_apply]
          by_cases h : t = u
          · simp [h]
          · simpa [h] using hi t f v
        · split at hs
          · cases hs; simp
          · cases hs
            simp only [upd_apply]
            by_cases h : t = u
            · simp [h]
            · simpa [h] using hi t f v
      · cases hs; simp
      · cases hs
        simp only [upd_apply]
        by_cases h : t = u
        · simp [h]
        · simpa [h] using hi t f v
      · cases hs

/-- Where the specification sees a thread: a compare-and-swap that read a different value took
effect with its last load-linked. -/
def absT : Pc W → TS (Op W) (Option W)
  | .idle => .idle
  | .top f => .pend (.rmw f)
  | .got f v => match f v with
    | none => .done (some v)
    | some _ => .pend (.rmw f)
  | .put v => .pend (.put v)
  | .get => .pend .get
  | .fin r => .done r

def abs (s : State W) : Abs Nat (Op W) (Option W) W := { x := s.mem, th := fun t => absT (s.pc t) }

theorem absT_upd (p : Nat → Pc W) (t : Nat) (q : Pc W) :
    (fun u => absT (upd p t q u)) = upd (fun u => absT (p u)) t (absT q) := by
  funext u; simp only [upd_apply]; split <;> rfl

/-- **Every operation takes effect in one indivisible step between its call and its return**, for
every computation `f`, any number of threads, any interleaving and any loss of monitors; plain
loads and stores of other threads included. -/
theorem atomic (w : W) : Linearizable (sys w) obs (obj w) := by
  refine linearizable_of_sim (fun s α => α = abs s) ?_ ?_
  · rintro s rfl; exact ⟨w, rfl, rfl⟩
  · rintro s a s' α hr rfl hs
    refine ⟨abs s', ?_, rfl⟩
    have hm := mon_inv hr
    cases a with
    | call u o =>
      simp only [sys, step] at hs
      split at hs <;> cases hs
      next hp =>
      refine AStar.call' (by simp [abs, hp, absT]) ?_
      simp only [abs, absT_upd]
      cases o <;> rfl
    | lose u =>
      simp only [sys, step, Option.some.injEq] at hs; subst hs
      exact .nil _
    | ret u =>
      simp only [sys, step] at hs
      split at hs <;> cases hs
      next r hp =>
      simp only [obs, hp]
      refine AStar.ret' (by simp [abs, hp, absT]) ?_
      simp only [abs, absT_upd]; rfl
    | go u =>
      simp only [sys, step] at hs
      have same : ∀ {q : Pc W} (s2 : State W), absT q = absT (s.pc u) → s2.mem = s.mem →
          s2.pc = upd s.pc u q → AStar (obj w) (abs s) (obs s (.go u)).toList (abs s2) := by
        intro q s2 h1 h2 h3
        have : abs s2 = abs s := by
          simp only [abs, h2, h3, absT_upd, h1]
          congr 1
          exact upd_eq_self _ _
        rw [this]; exact .nil _
      have lin : ∀ {o : Op W} {r : Option W} (s2 : State W), absT (s.pc u) = .pend o →
          (obj w).app s.mem o r s2.mem → s2.pc = upd s.pc u (.fin r) ∨
            (∃ f v, s2.pc = upd s.pc u (.got f v) ∧ absT (.got f v) = .done r) →
          AStar (obj w) (abs s) (obs s (.go u)).toList (abs s2) := by
        intro o r s2 h1 h2 h3
        have hb : abs s2 = { x := s2.mem, th := upd (abs s).th u (.done r) } := by
          rcases h3 with h3 | ⟨f, v, h3, h4⟩
          · simp only [abs, h3, absT_upd]; rfl
          · simp only [abs, h3, absT_upd, h4]
        rw [hb]
        exact AStar.one (.lin (a := abs s) (t := u) h1 h2)
      split at hs
      · next f hp =>
        cases hs
        cases hf : f s.mem with
        | none =>
          refine lin (o := .rmw f) (r := some s.mem) _ (by simp [hp, absT]) ?_
            (.inr ⟨f, s.mem, rfl, by simp [absT, hf]⟩)
          simp [obj, hf]
        | some n => exact same (q := .got f s.mem) _ (by simp [hp, absT, hf]) rfl rfl
      · next f v hp =>
        split at hs
        · next hf =>
          cases hs
          exact same (q := .fin (some v)) _ (by simp [hp, absT, hf]) rfl rfl
        · next n hf =>
          split at hs
          · next hmon =>
            cases hs
            have hv := hm u f v hp hmon
            refine lin (o := .rmw f) (r := some v) _ (by simp [hp, absT, hf]) ?_ (.inl rfl)
            simp [obj, hv, hf]
          · cases hs
            exact same (q := .top f) _ (by simp [hp, absT, hf]) rfl rfl
      · next v hp =>
        cases hs
        exact lin (o := .put v) (r := none) _ (by simp [hp, absT]) (by simp [obj]) (.inl rfl)
      · next hp =>
        cases hs
        exact lin (o := .get) (r := some s.mem) _ (by simp [hp, absT]) (by simp [obj]) (.inl rfl)
      · cases hs

/-- A thread that nobody disturbs between its load-linked and its store-conditional is done after
these two. -/
theorem solo {s : State W} {t : Nat} {f : W → Option W} (h : s.pc t = .top f) :
    ∃ s1 s2, step s (.go t) = some s1 ∧ step s1 (.go t) = some s2 ∧
      s2.pc t = .fin (some s.mem) ∧ s2.mem = (f s.mem).getD s.mem := by
  have h1 : step s (.go t) =
      some { s with mon := upd s.mon t true, pc := upd s.pc t (.got f s.mem) } := by
    simp only [step, h]
  cases hf : f s.mem with
  | none =>
    refine ⟨_, ⟨s.mem, upd s.mon t true, upd (upd s.pc t (.got f s.mem)) t (.fin (some s.mem))⟩, h1, by simp only [step, upd_same, hf], ?_, rfl⟩
    simp [upd_same]
  | some n =>
    refine ⟨_, ⟨n, fun _ => false, upd (upd s.pc t (.got f s.mem)) t (.fin (some s.mem))⟩, h1, by simp only [step, upd_same, hf, ↓reduceIte], ?_, rfl⟩
    simp [upd_same]

/-- Non-vacuity: two increments race, the first store-conditional of thread 0 fails, both
increments arrive. -/
example : ((runT (sys 5) obs { mem := 5 }
    [.call 0 (.rmw fun x => some (x + 1)), .call 1 (.rmw fun x => some (x + 1)), .go 0, .go 1,
     .go 1, .go 0, .go 0, .go 0]).map fun p => (p.1.mem, match p.1.pc 0, p.1.pc 1 with
      | .fin a, .fin b => (a, b) | _, _ => (none, none))) = some (7, some 6, some 5) := by
  decide +kernel

end Verif.LlSc
