/-!
# Transition systems

The framework every concurrent model uses.  A system has a set of initial states and a
computable, deterministic, partial `step`: the action names the moving thread together with
whatever the client or the scheduler chooses.  `Reach` quantifies over every finite schedule.
-/

namespace Verif

/-- Point update of a function (a store to one cell, or a change of one thread's state). -/
def upd {α β : Type _} [DecidableEq α] (f : α → β) (a : α) (b : β) : α → β :=
  fun x => if x = a then b else f x

@[grind =] theorem upd_apply {α β : Type _} [DecidableEq α] (f : α → β) (a : α) (b : β) (x : α) :
    upd f a b x = if x = a then b else f x := rfl

@[simp] theorem upd_same {α β : Type _} [DecidableEq α] (f : α → β) (a : α) (b : β) :
    upd f a b a = b := by simp [upd]

theorem upd_ne {α β : Type _} [DecidableEq α] (f : α → β) {a x : α} (b : β) (h : x ≠ a) :
    upd f a b x = f x := by simp [upd, h]

@[simp] theorem upd_eq_self {α β : Type _} [DecidableEq α] (f : α → β) (a : α) :
    upd f a (f a) = f := by
  funext x; simp only [upd]; split <;> simp_all

structure Sys (S : Type _) (A : Type _) where
  init : S → Prop
  step : S → A → Option S

namespace Sys

variable {S : Type _} {A : Type _}

/-- States reachable by some finite schedule. -/
inductive Reach (M : Sys S A) : S → Prop
  | init {s : S} : M.init s → Reach M s
  | step {s s' : S} {a : A} : Reach M s → M.step s a = some s' → Reach M s'

/-- Run a literal schedule; `none` as soon as an action is not enabled. -/
def run (M : Sys S A) : S → List A → Option S
  | s, [] => some s
  | s, a :: as => match M.step s a with
    | none => none
    | some s' => run M s' as

theorem Reach.of_run {M : Sys S A} {s s' : S} {as : List A}
    (h : Reach M s) (hr : M.run s as = some s') : Reach M s' := by
  induction as generalizing s with
  | nil => simp only [run, Option.some.injEq] at hr; exact hr ▸ h
  | cons a as ih =>
    simp only [run] at hr
    split at hr
    · cases hr
    · next s1 h1 => exact ih (.step h h1) hr

/-- Induction over executions. -/
theorem Reach.invariant {M : Sys S A} {I : S → Prop}
    (h0 : ∀ s, M.init s → I s)
    (hs : ∀ s a s', I s → M.step s a = some s' → I s')
    {s : S} (h : Reach M s) : I s := by
  induction h with
  | init h => exact h0 _ h
  | step _ h ih => exact hs _ _ _ ih h

/-- Finite executions, as a relation between the first and the last state, carrying the
schedule. -/
inductive Exec (M : Sys S A) : S → List A → S → Prop
  | nil (s : S) : Exec M s [] s
  | cons {s s1 s' : S} {a : A} {as : List A} :
      M.step s a = some s1 → Exec M s1 as s' → Exec M s (a :: as) s'

theorem Exec.reach {M : Sys S A} {s s' : S} {as : List A} (h : Exec M s as s')
    (hr : Reach M s) : Reach M s' := by
  induction h with
  | nil => exact hr
  | cons h1 _ ih => exact ih (.step hr h1)

end Sys
end Verif
