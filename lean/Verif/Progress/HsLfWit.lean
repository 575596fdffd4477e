import Verif.Progress.HsLf
import Verif.Progress.HtLf
import Verif.Ht.HsWit
import Verif.Ht.HtRdWit

/-! # Hash set and hash table readers: concrete executions (C107) -/

namespace Verif.Hs.Lf

open Verif Verif.Hs

/-- The get of key 1 misses the object that `ck_hs_set` moves, finds the generation changed and starts again. -/
theorem get_case : (((sysP wc).run ⟨w0, fun _ => 0, fun _ => 0, fun _ => 0⟩ (wsched ++ List.replicate 6 (.next 0))).map fun p =>
    (match p.st.rd 0 with | .done _ o => o | _ => none, p.k 0, p.m 0, p.g 0)) = some (some (1, 13), 12, 2, 1) := by decide +kernel

theorem get_case_reach : ∃ p, (sysP (T := Fin 2) wc).Reach p ∧ p.st.rd 0 ≠ .idle ∧ p.k 0 = 12 ∧ p.m 0 = 2 ∧ p.g 0 = 1 := by
  obtain ⟨p, hp, h⟩ := Option.map_eq_some_iff.1 get_case
  injection h with h0 h
  injection h with h1 h
  injection h with h2 h3
  refine ⟨p, .of_run (s := ⟨w0, fun _ => 0, fun _ => 0, fun _ => 0⟩) (.init fun _ => rfl) hp, ?_, h1, h2, h3⟩
  intro e
  rw [e] at h0
  cases h0

end Verif.Hs.Lf

namespace Verif.Ht.Lf

open Verif Verif.Ht

/-- The get of key 2 has loaded the slot of key 1 when key 1 is removed and key 2 moves into its slot. -/
def acts : List (Act Nat Nat Nat) :=
  wop (.put 1 10) [] 5 ++ wop (.put 2 20) [] 5 ++ [.call 0 2] ++ loads 0 4 ++ wop (.remove 1) [] 2 ++ wop (.set 2 22) [] 4 ++ loads 0 9

theorem get_case : (((sysP wc).run ⟨pinit wc 8, fun _ => 0, fun _ => 0, fun _ => 0⟩ acts).map fun p =>
    (match p.st.rd 0 with | .done _ o => o | _ => none, p.k 0, p.m 0, p.g 0)) = some (some 22, 13, 2, 1) := by decide +kernel

theorem get_case_reach : ∃ p, (sysP (T := Nat) wc).Reach p ∧ p.st.rd 0 ≠ .idle ∧ p.k 0 = 13 ∧ p.m 0 = 2 ∧ p.g 0 = 1 := by
  obtain ⟨p, hp, h⟩ := Option.map_eq_some_iff.1 get_case
  injection h with h0 h
  injection h with h1 h
  injection h with h2 h3
  refine ⟨p, .of_run (s := ⟨pinit wc 8, fun _ => 0, fun _ => 0, fun _ => 0⟩) (.init fun _ => rfl) hp, ?_, h1, h2, h3⟩
  intro e
  rw [e] at h0
  cases h0

end Verif.Ht.Lf
