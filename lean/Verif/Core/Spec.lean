/-!
# Specifications shared by several models

They speak only about which threads are *inside*, i.e. between the return of the acquiring
call and the call of the matching release.
-/

namespace Verif.Spec

/-- Mutual exclusion: at most one thread is inside. -/
def MutEx {T : Type _} (inside : T → Prop) : Prop :=
  ∀ t u, inside t → inside u → t = u

/-- Reader-writer exclusion: a writer is alone. -/
def RwEx {T : Type _} (reading writing : T → Prop) : Prop :=
  (∀ t u, writing t → writing u → t = u) ∧ (∀ t u, writing t → ¬ reading u)

/-- `served` happened in arrival order: it is a prefix of the arrivals. -/
def Fcfs {T : Type _} (arrivals served : List T) : Prop := served <+: arrivals

/-- Barrier: `entered t` / `returned t` count the calls made and completed by participant `t`.  Nobody
has returned from its k-th call unless everybody has made theirs. -/
def PhaseSep {T : Type _} (entered returned : T → Nat) : Prop :=
  ∀ t u, returned t ≤ entered u

end Verif.Spec
