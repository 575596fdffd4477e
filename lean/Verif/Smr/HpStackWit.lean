import Verif.Smr.HpStackThm
import Verif.Smr.HpWit

/-!
# The hazard pointer stack: a concrete execution
-/

namespace Verif.HpStack

open Verif Verif.Lin

def s0 : St (Fin 2) 2 where
  h := Hp.s0
  head := none
  next _ := none
  th _ := .idle
  stk := []
  ver := 0
  v0 _ := 0

theorem s0_start : Start s0 := ⟨Hp.s0_start, rfl, rfl, fun _ => rfl, fun _ => Nat.le_refl _⟩

def ticks (k : Nat) : List (Act (Fin 2) 2) := List.replicate k (.hp (.tick 1))

/-- Both threads register and thread 1 pushes 1, then 0. -/
def setup : List (Act (Fin 2) 2) :=
  [.hp (.register 0), .hp (.register 1), .call 1 (.push 1), .run 1, .run 1, .run 1, .ret 1,
   .call 1 (.push 0), .run 1, .run 1, .run 1, .ret 1]

/-- Thread 0 stops in a pop before its compare-and-swap, having read `next` of entry 0.  Thread 1 pops 0 and
1 and frees both: its slot names 1, thread 0's names 0, and nothing is destroyed. -/
def race : List (Act (Fin 2) 2) :=
  [.call 0 .pop, .run 0, .run 0, .run 0, .run 0,
   .call 1 .pop, .run 1, .run 1, .run 1, .run 1, .run 1, .ret 1, .hp (.retire 1 0),
   .call 1 .pop, .run 1, .run 1, .run 1, .run 1, .run 1, .ret 1, .hp (.free 1 1)] ++ ticks 11

/-- Thread 1 clears its slot and purges: entry 1 is destroyed and pushed again.  Thread 0's
compare-and-swap then fails, it protects entry 1 and pops it. -/
def after : List (Act (Fin 2) 2) :=
  [.hp (.set 1 0 none), .hp (.reclaim 1)] ++ ticks 10 ++
  [.call 1 (.push 1), .run 1, .run 1, .run 1, .ret 1,
   .run 0, .run 0, .run 0, .run 0, .run 0, .ret 0]

/-- Entry 0, which thread 0 still names, cannot be pushed after the race (`derefs_live`, and no ABA). -/
theorem race_case : ((sys 1 4 1).run s0 (setup ++ race)).any (fun s =>
    s.h.rc 1 == .idle && s.h.pend 1 == [1, 0] && s.h.ndes 0 == 0 && s.h.ndes 1 == 0 && s.head == none &&
    (step 1 4 1 s (.call 1 (.push 0))).isNone) = true := by decide +kernel

/-- The history of the whole execution. -/
theorem history_case : (runT (sys 1 4 1) obs s0 (setup ++ race ++ after)).any (fun p =>
    p.1.h.ndes 0 == 0 && p.1.h.ndes 1 == 1 && p.1.h.pend 1 == [0] && p.2.length == 12) = true := by decide +kernel

theorem result_case : ((runT (sys 1 4 1) obs s0 (setup ++ race ++ after)).map fun p => p.2.drop 4) =
    some [.call 0 .pop, .call 1 .pop, .ret 1 (.entry (some 0)), .call 1 .pop, .ret 1 (.entry (some 1)),
      .call 1 (.push 1), .ret 1 .unit, .ret 0 (.entry (some 1))] := by rfl

end Verif.HpStack
