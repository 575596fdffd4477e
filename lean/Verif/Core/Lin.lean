import Verif.Core.Sys

/-!
# Linearizability

A sequential object is a relation `app x op r x'` (applying `op` in state `x` may return `r` and
leave `x'`).  The *canonical automaton* of the object lets every thread call, apply its operation
in one indivisible step somewhere between the call and the return, and return the result of that
step.  Its traces of calls and returns are exactly the linearizable histories of the object
(complete or with pending calls), so a model is linearizable iff each of its traces is a trace of
the canonical automaton.
-/

namespace Verif.Lin

open Verif

/-- Calls and returns. -/
inductive Ev (T Op Res : Type _)
  | call (t : T) (o : Op)
  | ret (t : T) (r : Res)

/-- A sequential object. -/
structure Obj (Op Res X : Type _) where
  init : X → Prop
  app : X → Op → Res → X → Prop

/-- Where a thread stands with its operation. -/
inductive TS (Op Res : Type _)
  | idle
  | pend (o : Op)
  | done (r : Res)

/-- A state of the canonical automaton. -/
structure Abs (T Op Res X : Type _) where
  x : X
  th : T → TS Op Res

variable {T Op Res X S A : Type _} [DecidableEq T]

inductive AStep (O : Obj Op Res X) : Abs T Op Res X → Option (Ev T Op Res) → Abs T Op Res X → Prop
  | call {a : Abs T Op Res X} {t : T} (o : Op) : a.th t = .idle →
      AStep O a (some (.call t o)) { a with th := upd a.th t (.pend o) }
  | lin {a : Abs T Op Res X} {t : T} {o : Op} {r : Res} {x' : X} : a.th t = .pend o →
      O.app a.x o r x' → AStep O a none { x := x', th := upd a.th t (.done r) }
  | ret {a : Abs T Op Res X} {t : T} {r : Res} : a.th t = .done r →
      AStep O a (some (.ret t r)) { a with th := upd a.th t .idle }

/-- Finitely many steps with the given trace. -/
inductive AStar (O : Obj Op Res X) : Abs T Op Res X → List (Ev T Op Res) → Abs T Op Res X → Prop
  | nil (a : Abs T Op Res X) : AStar O a [] a
  | snoc {a b c : Abs T Op Res X} {l : List (Ev T Op Res)} {e : Option (Ev T Op Res)} :
      AStar O a l b → AStep O b e c → AStar O a (l ++ e.toList) c

theorem AStar.trans {O : Obj Op Res X} {a b c : Abs T Op Res X} {l m : List (Ev T Op Res)}
    (h : AStar O a l b) (h' : AStar O b m c) : AStar O a (l ++ m) c := by
  induction h' with
  | nil => simpa using h
  | snoc _ hs ih => rw [← List.append_assoc]; exact .snoc ih hs

theorem AStar.one {O : Obj Op Res X} {a b : Abs T Op Res X} {e : Option (Ev T Op Res)}
    (h : AStep O a e b) : AStar O a e.toList b := by
  simpa using AStar.snoc (.nil a) h

/-- `l` is a history of the object: a trace of its canonical automaton. -/
def History (O : Obj Op Res X) (l : List (Ev T Op Res)) : Prop :=
  ∃ x a, O.init x ∧ AStar O { x := x, th := fun _ => .idle } l a

/-- The executions of a model, with the calls and returns they show. -/
inductive Tr (M : Sys S A) (obs : S → A → Option (Ev T Op Res)) : S → List (Ev T Op Res) → Prop
  | init {s : S} : M.init s → Tr M obs s []
  | step {s s' : S} {a : A} {l : List (Ev T Op Res)} : Tr M obs s l → M.step s a = some s' →
      Tr M obs s' (l ++ (obs s a).toList)

/-- Linearizability: every trace of calls and returns of the model is a history of the object. -/
def Linearizable (M : Sys S A) (obs : S → A → Option (Ev T Op Res)) (O : Obj Op Res X) : Prop :=
  ∀ s l, Tr M obs s l → History O l

theorem Tr.reach {M : Sys S A} {obs : S → A → Option (Ev T Op Res)} {s : S}
    {l : List (Ev T Op Res)} (h : Tr M obs s l) : M.Reach s := by
  induction h with
  | init h => exact .init h
  | step _ h ih => exact .step ih h

/-- Run a list of actions and collect the calls and returns. -/
def runT (M : Sys S A) (obs : S → A → Option (Ev T Op Res)) : S → List A → Option (S × List (Ev T Op Res))
  | s, [] => some (s, [])
  | s, a :: as => match M.step s a with
    | none => none
    | some s' => (runT M obs s' as).map fun p => (p.1, (obs s a).toList ++ p.2)

omit [DecidableEq T] in
theorem Tr.of_run {M : Sys S A} {obs : S → A → Option (Ev T Op Res)} {s s' : S} {as : List A}
    {l l' : List (Ev T Op Res)} (h : Tr M obs s l) (hr : runT M obs s as = some (s', l')) :
    Tr M obs s' (l ++ l') := by
  induction as generalizing s l l' with
  | nil => simp only [runT, Option.some.injEq, Prod.mk.injEq] at hr; obtain ⟨rfl, rfl⟩ := hr; simpa using h
  | cons a as ih =>
    simp only [runT] at hr
    split at hr
    · cases hr
    · next s1 hs =>
      rw [Option.map_eq_some_iff] at hr
      obtain ⟨⟨s2, l2⟩, h2, h3⟩ := hr
      simp only [Prod.mk.injEq] at h3
      obtain ⟨rfl, rfl⟩ := h3
      rw [← List.append_assoc]
      exact ih (.step h hs) h2

/-- Forward simulation. -/
theorem linearizable_of_sim {M : Sys S A} {obs : S → A → Option (Ev T Op Res)} {O : Obj Op Res X}
    (R : S → Abs T Op Res X → Prop)
    (h0 : ∀ s, M.init s → ∃ x, O.init x ∧ R s { x := x, th := fun _ => .idle })
    (hs : ∀ s a s' α, M.Reach s → R s α → M.step s a = some s' →
      ∃ α', AStar O α (obs s a).toList α' ∧ R s' α') :
    Linearizable M obs O := by
  intro s l h
  suffices H : ∃ x a, O.init x ∧ AStar O { x := x, th := fun _ => .idle } l a ∧ R s a by
    obtain ⟨x, a, h1, h2, _⟩ := H; exact ⟨x, a, h1, h2⟩
  induction h with
  | init h =>
    obtain ⟨x, h1, h2⟩ := h0 _ h
    exact ⟨x, _, h1, .nil _, h2⟩
  | step htr hst ih =>
    obtain ⟨x, a, h1, h2, h3⟩ := ih
    obtain ⟨α', h4, h5⟩ := hs _ _ _ _ htr.reach h3 hst
    exact ⟨x, α', h1, h2.trans h4, h5⟩

/-- Simulation through an abstraction function `f` on states and `g` on threads: each step of the
model is a call, the linearization point, a return, or invisible, for one thread.  `e` lists the
visible event together with the linearization points before or after it. -/
theorem AStar.call' {O : Obj Op Res X} {a b : Abs T Op Res X} {t : T} {o : Op} (h : a.th t = .idle)
    (hb : b = { a with th := upd a.th t (.pend o) }) :
    AStar O a (some (Ev.call t o) : Option (Ev T Op Res)).toList b := by
  subst hb; exact .one (.call o h)

theorem AStar.ret' {O : Obj Op Res X} {a b : Abs T Op Res X} {t : T} {r : Res} (h : a.th t = .done r)
    (hb : b = { a with th := upd a.th t .idle }) :
    AStar O a (some (Ev.ret t r) : Option (Ev T Op Res)).toList b := by
  subst hb; exact .one (.ret h)

theorem AStar.lin' {O : Obj Op Res X} {a b : Abs T Op Res X} {t : T} {o : Op} {r : Res} {x' : X}
    (h : a.th t = .pend o) (ha : O.app a.x o r x')
    (hb : b = { x := x', th := upd a.th t (.done r) }) :
    AStar O a (none : Option (Ev T Op Res)).toList b := by
  subst hb; exact .one (.lin h ha)

theorem AStar.skip {O : Obj Op Res X} {a b : Abs T Op Res X} (hb : b = a) :
    AStar O a (none : Option (Ev T Op Res)).toList b := by
  subst hb; exact .nil _

/-- Relabelling one thread. -/
theorem upd_comp {α β γ : Type _} [DecidableEq α] (g : β → γ) (f : α → β) (a : α) (b : β) :
    (fun t => g (upd f a b t)) = upd (fun t => g (f t)) a (g b) := by
  funext x; simp only [upd]; split <;> rfl

/-- A change of `f` at `a` that the labelling does not show. -/
theorem upd_comp_same {α β γ : Type _} [DecidableEq α] (g : β → γ) (f : α → β) (a : α) (b : β)
    (h : g b = g (f a)) : (fun t => g (upd f a b t)) = fun t => g (f t) := by
  funext x; simp only [upd]; split
  · next hx => subst hx; exact h
  · rfl

end Verif.Lin
