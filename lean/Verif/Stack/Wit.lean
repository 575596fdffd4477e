import Verif.Stack.Thm

/-! # `ck_stack`: concrete executions, and the ABA problem of `ck_stack_batch_pop_mpmc` -/

namespace Verif.Stack

open Verif Verif.Lin

/-- Two entries, `0` on top of `1`. -/
def two : St Nat 2 :=
  { head := some 0, gen := 0#64, next := fun x => if x = 0 then some 1 else none, th := fun _ => .idle,
    stk := [0, 1], ver := 0, G := 0 }

theorem two_start : Start [0, 1] two where
  idle _ := rfl
  seg := by simp [two]
  nodup := by decide
  stk := rfl
  gen := rfl

/-- UPMC: a pop is overtaken by a push, retries, and gets the new entry; a batch pop takes the rest. -/
example : (runT (sys .upmc two) obs two
    [.call 0 .pop, .run 0, .run 0, .call 1 (.push 7), .run 1, .run 1, .run 1, .ret 1, .run 0, .run 0, .run 0,
     .ret 0, .call 1 .batch, .run 1, .run 1, .run 1, .run 1, .ret 1]).map Prod.snd =
    some [.call 0 .pop, .call 1 (.push 7), .ret 1 .unit, .ret 0 (.entry (some 7)), .call 1 .batch,
      .ret 1 (.list [0, 1])] := by rfl

/-- MPMC: thread 0 has read `generation`, `head = 0` and `next = 1`; thread 1 pops 0 and 1 and pushes 0
again; thread 0's compare-and-swap fails on the generation and it correctly gets 0, then nothing. -/
example : (runT (sysF .mpmc two) obs two
    [.call 0 .pop, .run 0, .run 0, .run 0,
     .call 1 .pop, .run 1, .run 1, .run 1, .run 1, .ret 1, .call 1 .pop, .run 1, .run 1, .run 1, .run 1, .ret 1,
     .call 1 (.push 0), .run 1, .run 1, .run 1, .ret 1,
     .run 0, .run 0, .run 0, .ret 0, .call 0 .pop, .run 0, .run 0, .ret 0]).map Prod.snd =
    some [.call 0 .pop, .call 1 .pop, .ret 1 (.entry (some 0)), .call 1 .pop, .ret 1 (.entry (some 1)),
      .call 1 (.push 0), .ret 1 .unit, .ret 0 (.entry (some 0)), .call 0 .pop, .ret 0 (.entry none)] := by rfl

/-- Batch pop mixed with MPMC pops under the discipline: the overtaken pop of thread 0 finds the stack
empty. -/
example : (runT (sysF .mpmcSafe two) obs two
    [.call 0 .pop, .run 0, .run 0, .run 0, .call 1 .batch, .run 1, .run 1, .run 1, .run 1, .ret 1,
     .run 0, .ret 0]).map Prod.snd =
    some [.call 0 .pop, .call 1 .batch, .ret 1 (.list [0, 1]), .ret 0 (.entry none)] := by rfl

/-! ## No history hands out an entry more often than it was put in -/

variable {N : Type} [DecidableEq N]

def given (b : N) : Res N → Nat
  | .entry (some y) => if y = b then 1 else 0
  | .list l => l.count b
  | _ => 0

def asked (b : N) : Op N → Nat
  | .push y | .tryPush y => if y = b then 1 else 0
  | _ => 0

def weight (b : N) : TS (Op N) (Res N) → Nat
  | .idle => 0
  | .pend o => asked b o
  | .done r => given b r

/-- How often `b` was handed out in a history. -/
def outs (b : N) : List (Ev (Fin 2) (Op N) (Res N)) → Nat
  | [] => 0
  | .ret _ r :: l => given b r + outs b l
  | .call _ _ :: l => outs b l

/-- How often a push of `b` was called. -/
def pushes (b : N) : List (Ev (Fin 2) (Op N) (Res N)) → Nat
  | [] => 0
  | .call _ o :: l => asked b o + pushes b l
  | .ret _ _ :: l => pushes b l

theorem outs_append (b : N) (l m : List (Ev (Fin 2) (Op N) (Res N))) :
    outs b (l ++ m) = outs b l + outs b m := by
  induction l with
  | nil => simp [outs]
  | cons e l ih => cases e <;> simp only [List.cons_append, outs, ih] <;> omega

theorem pushes_append (b : N) (l m : List (Ev (Fin 2) (Op N) (Res N))) :
    pushes b (l ++ m) = pushes b l + pushes b m := by
  induction l with
  | nil => simp [pushes]
  | cons e l ih => cases e <;> simp only [List.cons_append, pushes, ih] <;> omega

theorem app_conserves {X0 x x' : List N} {o : Op N} {r : Res N} (b : N) (h : (lifo X0).app x o r x') :
    x'.count b + given b r ≤ x.count b + asked b o := by
  cases o <;> cases r <;> simp only [lifo] at h
  case push.unit y => subst h; simp only [given, asked, List.count_cons]; split <;> simp_all
  case tryPush.flag y f =>
    cases f <;> simp only at h
    · subst h; simp [given]
    · subst h; simp only [given, asked, List.count_cons]; split <;> simp_all
  case pop.entry y =>
    cases y <;> simp only at h
    · obtain ⟨-, rfl⟩ := h; simp [given]
    · subst h; simp only [given, asked, List.count_cons]; split <;> simp_all
  case tryPop.entry y =>
    cases y <;> simp only at h
    · subst h; simp [given]
    · subst h; simp only [given, asked, List.count_cons]; split <;> simp_all
  case batch.list l => obtain ⟨rfl, rfl⟩ := h; simp [given]

def total (b : N) (a : Abs (Fin 2) (Op N) (Res N) (List N)) : Nat :=
  a.x.count b + weight b (a.th 0) + weight b (a.th 1)

theorem astep_conserves {X0 : List N} {a c : Abs (Fin 2) (Op N) (Res N) (List N)}
    {e : Option (Ev (Fin 2) (Op N) (Res N))} (b : N) (h : AStep (lifo X0) a e c) :
    outs b e.toList + total b c ≤ total b a + pushes b e.toList := by
  cases h with
  | @call t o h =>
    match t with
    | 0 => simp only [outs, pushes, total, upd_apply, h, weight, Option.toList]; simp; omega
    | 1 => simp only [outs, pushes, total, upd_apply, h, weight, Option.toList]; simp; done
  | @lin t o r x' h ha =>
    have := app_conserves b ha
    match t with
    | 0 => simp [outs, pushes, total, upd_apply, h, weight]; omega
    | 1 => simp [outs, pushes, total, upd_apply, h, weight]; omega
  | @ret t r h =>
    match t with
    | 0 => simp [outs, pushes, total, upd_apply, h, weight]; omega
    | 1 => simp [outs, pushes, total, upd_apply, h, weight]; omega

theorem history_conserves {X0 : List N} {l : List (Ev (Fin 2) (Op N) (Res N))} (b : N)
    (h : History (lifo X0) l) : outs b l ≤ X0.count b + pushes b l := by
  obtain ⟨x, a, hx, hs⟩ := h
  have hx : x = X0 := hx
  subst hx
  have : outs b l + total b a ≤ total b { x := x, th := fun _ => .idle } + pushes b l := by
    generalize hg : ({ x := x, th := fun _ => .idle } : Abs (Fin 2) (Op N) (Res N) (List N)) = a0 at hs
    clear hg
    induction hs with
    | nil => simp [outs, pushes]
    | snoc _ h ih =>
      have := astep_conserves b h
      rw [outs_append, pushes_append]; omega
  simp only [total, weight] at this
  omega

/-- **C34 is violated.**  `ck_stack_batch_pop_mpmc` does not change the generation.  Thread 0 starts a pop
and reads `head = 0`, `next = 1`; thread 1 takes both entries with a batch pop and pushes 0 again; thread
0's compare-and-swap succeeds and puts the batch-popped entry 1 back into the stack, where it is popped a
second time.  The history is not linearizable. -/
theorem batch_pop_mpmc_aba : ¬ Linearizable (sysF .mpmcBatch two) obs (lifo [0, 1]) := by
  intro h
  obtain ⟨s', hr⟩ : ∃ s', runT (sysF .mpmcBatch two) obs two
      [.call 0 .pop, .run 0, .run 0, .run 0,
       .call 1 .batch, .run 1, .run 1, .run 1, .run 1, .ret 1,
       .call 1 (.push 0), .run 1, .run 1, .run 1, .ret 1,
       .run 0, .ret 0, .call 0 .pop, .run 0, .run 0, .run 0, .run 0, .ret 0] =
      some (s', [.call 0 .pop, .call 1 .batch, .ret 1 (.list [0, 1]), .call 1 (.push 0), .ret 1 .unit,
        .ret 0 (.entry (some 0)), .call 0 .pop, .ret 0 (.entry (some 1))]) := ⟨_, rfl⟩
  have := history_conserves 1 (h _ _ (Tr.of_run (.init rfl) hr))
  simp [outs, pushes, given, asked] at this

/-- The same interleaving shows that the unique-producer discipline is needed for the UPMC pops: `free`
refuses the push. -/
example : (runT (sys .upmc two) obs two
    [.call 0 .pop, .run 0, .run 0, .call 1 .batch, .run 1, .run 1, .run 1, .run 1, .ret 1,
     .call 1 (.push 0)]).isNone = true := by rfl

/-- **C32**, at the level of executions. -/
theorem upmc_fail_overtaken {X0 : List N} {n : Nat} {s0 s : St N n} (h0 : Start X0 s0)
    (h : (sys .upmc s0).Reach s) {t : Fin n} (hf : fails s (s.th t)) : seen (s.th t) < s.ver :=
  fail_overtaken (inv_upmc h0 h) hf

/-- **C33**, at the level of executions. -/
theorem mpmc_fail_overtaken {X0 : List N} {n : Nat} {s0 s : St N n} (h0 : Start X0 s0)
    (h : (sysF .mpmc s0).Reach s) {t : Fin n} (hf : fails s (s.th t)) : seen (s.th t) < s.ver :=
  fail_overtaken (inv_mpmc (by decide) h0 h) hf

/-- The pointers always represent the abstract content. -/
theorem upmc_content {X0 : List N} {n : Nat} {s0 s : St N n} (h0 : Start X0 s0)
    (h : (sys .upmc s0).Reach s) : Seg s.next s.head s.stk none ∧ s.stk.Nodup :=
  ⟨(inv_upmc h0 h).seg, (inv_upmc h0 h).nodup⟩

theorem mpmc_content {X0 : List N} {n : Nat} {s0 s : St N n} (h0 : Start X0 s0)
    (h : (sysF .mpmc s0).Reach s) : Seg s.next s.head s.stk none ∧ s.stk.Nodup :=
  ⟨(inv_mpmc (by decide) h0 h).seg, (inv_mpmc (by decide) h0 h).nodup⟩

end Verif.Stack
