import Verif.Core.Sys
import Mathlib.Tactic.ClearExcept
import Lean.Elab.Tactic.Basic
import Lean.Meta.Tactic.Clear

/-!
# Tactics for taking apart `step s a = some s'` and for closing invariant goals
-/

namespace Verif

/-- Split all `if`/`match` in `h : (...) = some s'`, drop impossible branches and substitute `s'`. -/
syntax "step_split" ident : tactic

macro_rules
  | `(tactic| step_split $h) => `(tactic|
      ((repeat' (split at $h:ident)) <;>
        first
        | (simp only [reduceCtorEq] at $h:ident; done)
        | (simp only [Option.some.injEq] at $h:ident; subst $h:ident)
        | skip))

open Lean Elab Tactic Meta in
/-- `keep h1 h2 …` clears every named proposition of the context except the listed ones.
Hypotheses with inaccessible names (those produced by `split`) stay. -/
elab "keep" hs:(ppSpace colGt ident)* : tactic => do
  let g ← getMainGoal
  g.withContext do
    let mut keepSet : Array FVarId := #[]
    for h in hs do
      keepSet := keepSet.push (← getFVarId h)
    let mut toClear : Array FVarId := #[]
    for d in ← getLCtx do
      if d.isImplementationDetail then continue
      if d.userName.hasMacroScopes then continue
      if keepSet.contains d.fvarId then continue
      if ← isProp d.type then toClear := toClear.push d.fvarId
    let mut g := g
    for f in toClear.reverse do
      g ← g.tryClear f
    replaceMainGoal [g]

/-- `fin h1 h2 …` closes the goal with `grind`, using of the named hypotheses only those listed. -/
syntax "fin" (ppSpace colGt ident)* : tactic

macro_rules
  | `(tactic| fin $hs*) => `(tactic| (keep $hs*; grind -ext))

end Verif
