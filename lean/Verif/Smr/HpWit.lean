import Verif.Smr.HpThm

/-!
# Hazard pointers: concrete cases
-/

namespace Verif.Hp

open Verif

/-- Nothing registered. -/
def s0 : St (Fin 2) (Fin 2) where
  subs := []
  used _ := false
  pts _ _ := none
  pend _ := []
  np _ := 0
  rc _ := .idle
  pg _ := false
  life _ := .fresh
  prot _ _ := false
  nret _ := 0
  ndes _ := 0

theorem s0_start : Start s0 := ⟨rfl, fun _ => rfl, fun _ => rfl, fun _ => rfl, fun _ => rfl, fun _ => rfl,
  fun _ _ => rfl, fun _ => rfl, fun _ => rfl, fun _ => rfl⟩

/-- Two slots per record, room for a single pointer in the cache.  Record 1 publishes object 1 in slot 0 and
object 0 in slot 1. -/
def setup : List (Act (Fin 2) (Fin 2)) :=
  [.register 0, .register 1, .link 0, .link 1, .set 1 0 (some 1), .set 1 1 (some 0)]

/-- Object 0 is unlinked, retired by record 0 and record 0 reclaims: the cache overflows, the slow path
finds object 0 in slot 1. -/
def kept : List (Act (Fin 2) (Fin 2)) :=
  [.unlink 0, .free 0 0] ++ List.replicate 9 (.tick 0)

/-- Record 1 clears its slots and record 0 reclaims again. -/
def freed : List (Act (Fin 2) (Fin 2)) :=
  [.set 1 1 none, .reclaim 0] ++ List.replicate 15 (.tick 0)

/-- `no_destroy_while_published` at work across a whole reclaim with an overflowing cache. -/
theorem published_case : ∃ s s1 s2, (sys 2 1 1).Reach s ∧ s.pts 1 1 = some 0 ∧
    (sys 2 1 1).step s (.validate 1 1) = some s1 ∧ (sys 2 1 1).Exec s1 kept s2 ∧
    (∀ a ∈ kept, ¬ a.drops 1 1) ∧ s2.rc 0 = .idle ∧ s2.pend 0 = [(0 : Fin 2)] ∧ s2.ndes 0 = 0 := by
  have hex : ∀ (as : List (Act (Fin 2) (Fin 2))) s s', (sys 2 1 1).run s as = some s' → (sys 2 1 1).Exec s as s' := by
    intro as
    induction as with
    | nil => intro s s' h; simp only [Sys.run, Option.some.injEq] at h; exact h ▸ .nil s
    | cons a as ih =>
      intro s s' h
      simp only [Sys.run] at h
      split at h
      · cases h
      · next h1 => exact .cons h1 (ih _ _ h)
  have h : ((sys 2 1 1).run s0 setup).any (fun s => s.pts 1 1 == some 0 &&
      ((sys 2 1 1).step s (.validate 1 1)).any (fun s1 => ((sys 2 1 1).run s1 kept).any (fun s2 =>
        s2.rc 0 == .idle && s2.pend 0 == [(0 : Fin 2)] && s2.ndes 0 == 0))) = true := by decide +kernel
  obtain ⟨s, hs, h⟩ := (Option.any_eq_true _ _).1 h
  simp only [Bool.and_eq_true, beq_iff_eq] at h
  obtain ⟨h1, h⟩ := h
  obtain ⟨s1, hs1, h⟩ := (Option.any_eq_true _ _).1 h
  obtain ⟨s2, hs2, h⟩ := (Option.any_eq_true _ _).1 h
  simp only [Bool.and_eq_true, beq_iff_eq] at h
  refine ⟨s, s1, s2, Sys.Reach.of_run (.init s0_start) hs, h1, hs1, hex _ _ _ hs2, ?_, h.1.1, h.1.2, h.2⟩
  intro a ha
  simp only [kept, List.cons_append, List.nil_append, List.mem_cons, List.mem_replicate] at ha
  rcases ha with rfl | rfl | ⟨_, rfl⟩ <;> exact id

/-- `reclaim_destroys` at work: once the slot is cleared the next reclaim destroys the object. -/
theorem destroys_case : ∃ s : St (Fin 2) (Fin 2), (sys 2 1 1).Reach s ∧ s.rc 0 = .idle ∧ s.pend 0 = [] ∧ s.ndes 0 = 1 ∧
    s.pts 1 0 = some (1 : Fin 2) := by
  have h : ((sys 2 1 1).run s0 (setup ++ .validate 1 1 :: (kept ++ freed))).any (fun s =>
      s.rc 0 == .idle && s.pend 0 == [] && s.ndes 0 == 1 && s.pts 1 0 == some 1) = true := by decide +kernel
  obtain ⟨s, hs, h⟩ := (Option.any_eq_true _ _).1 h
  simp only [Bool.and_eq_true, beq_iff_eq] at h
  exact ⟨s, Sys.Reach.of_run (.init s0_start) hs, h.1.1.1, h.1.1.2, h.1.2, h.2⟩

/-- Publishing without validating protects nothing: record 1 publishes object 0 after record 0 has read its
slots, and object 0 is destroyed while published. -/
theorem unvalidated_destroyed : ∃ s : St (Fin 2) (Fin 2), (sys 2 1 1).Reach s ∧ s.pts 1 1 = some (0 : Fin 2) ∧ s.ndes 0 = 1 := by
  have h : ((sys 2 1 1).run s0 ([.register 0, .register 1, .link 0, .unlink 0, .free 0 0] ++
      List.replicate 6 (.tick 0) ++ [.set 1 1 (some 0)] ++ List.replicate 5 (.tick 0))).any (fun s =>
      s.pts 1 1 == some 0 && s.ndes 0 == 1) = true := by decide +kernel
  obtain ⟨s, hs, h⟩ := (Option.any_eq_true _ _).1 h
  simp only [Bool.and_eq_true, beq_iff_eq] at h
  exact ⟨s, Sys.Reach.of_run (.init s0_start) hs, h.1, h.2⟩

end Verif.Hp
