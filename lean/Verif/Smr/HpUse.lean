import Verif.Smr.HpThm

/-!
# Hazard pointers as used by a data structure

What single steps of the hazard pointer system do to the life of an object and to the slots.
-/

set_option linter.unusedSectionVars false

namespace Verif.Hp

open Verif

variable {R P : Type} [DecidableEq R] [DecidableEq P] {D C thr : Nat}

/-- Life of an object across a step that neither links nor unlinks it. -/
theorem step_life {s s' : St R P} {a : Act R P} (hI : Inv D s) (h : step D C thr s a = some s') (p : P)
    (h1 : a ≠ .link p) (h2 : a ≠ .unlink p) :
    (s'.life p = .linked ↔ s.life p = .linked) ∧ (s.life p = .fresh → s'.life p = .fresh) := by
  have hdes : ∀ r mk c pos x, (s.pend r)[pos]? = some x →
      ((destroy s r mk c pos x).life p = .linked ↔ s.life p = .linked) ∧
      (s.life p = .fresh → (destroy s r mk c pos x).life p = .fresh) := by
    intro r mk c pos x hx
    show (upd s.life x .fresh p = .linked ↔ _) ∧ (_ → upd s.life x .fresh p = .fresh)
    by_cases hp : p = x
    · subst hp
      have := hI.ret r p (List.mem_of_getElem? hx)
      rw [upd_same, this]; simp
    · rw [upd_ne _ _ hp]; exact ⟨Iff.rfl, id⟩
  have hret : ∀ r x, s.life x = .unlinked → ((retire s r x).life p = .linked ↔ s.life p = .linked) ∧
      (s.life p = .fresh → (retire s r x).life p = .fresh) := by
    intro r x hx
    show (upd s.life x .retired p = .linked ↔ _) ∧ (_ → upd s.life x .retired p = .fresh)
    by_cases hp : p = x
    · subst hp
      rw [upd_same, hx]; simp
    · rw [upd_ne _ _ hp]; exact ⟨Iff.rfl, id⟩
  cases a with
  | tick r =>
    change tick D C s r = some s' at h
    unfold tick at h
    step_split h <;> first | exact ⟨Iff.rfl, id⟩ | (next hx _ _ => exact hdes _ _ _ _ _ hx) | (next hx => exact hdes _ _ _ _ _ hx)
  | link x =>
    simp only [step] at h
    split at h
    · cases h
      have hp : p ≠ x := fun he => h1 (he ▸ rfl)
      show (upd s.life x _ p = .linked ↔ _) ∧ (_ → upd s.life x _ p = .fresh)
      rw [upd_ne _ _ hp]; exact ⟨Iff.rfl, id⟩
    · cases h
  | unlink x =>
    simp only [step] at h
    split at h
    · cases h
      have hp : p ≠ x := fun he => h2 (he ▸ rfl)
      show (upd s.life x _ p = .linked ↔ _) ∧ (_ → upd s.life x _ p = .fresh)
      rw [upd_ne _ _ hp]; exact ⟨Iff.rfl, id⟩
    · cases h
  | retire r x =>
    simp only [step] at h
    split at h
    · next hx => cases h; exact hret r x hx.2.2
    · cases h
  | free r x =>
    simp only [step] at h
    split at h
    · next hx => split at h <;> (cases h; exact hret r x hx.2.2)
    · cases h
  | _ =>
    simp only [step] at h
    step_split h <;> exact ⟨Iff.rfl, id⟩

theorem step_used {s s' : St R P} {a : Act R P} (h : step D C thr s a = some s') {r : R}
    (hd : a ≠ .unregister r) (hu : s.used r = true) : s'.used r = true := by
  cases a with
  | tick q => rw [(tick_prot h).2.2.2.1]; exact hu
  | register q =>
    simp only [step] at h
    split at h
    · cases h
    · cases h
      show upd s.used q true r = true
      rw [upd_apply]; split
      · rfl
      · exact hu
  | recycle q =>
    simp only [step] at h
    split at h
    · cases h
      show upd s.used q true r = true
      rw [upd_apply]; split
      · rfl
      · exact hu
    · cases h
  | unregister q =>
    simp only [step] at h
    split at h
    · cases h
      show upd s.used q false r = true
      rw [upd_ne _ _ (fun he : r = q => hd (by rw [he]))]; exact hu
    · cases h
  | _ =>
    simp only [step, retire] at h
    step_split h <;> exact hu

/-- Only calls that overwrite a slot change it. -/
theorem step_pts {s s' : St R P} {a : Act R P} (h : step D C thr s a = some s') {r : R} {i : Nat}
    (hd : ¬ a.drops r i) : s'.pts r i = s.pts r i := by
  cases a with
  | tick q => rw [(tick_prot h).2.1]
  | register q =>
    simp only [step] at h
    split at h
    · cases h
    · cases h
      show upd s.pts q _ r i = _
      rw [upd_ne _ _ (fun he => hd he.symm)]
  | set q j x =>
    simp only [step] at h
    split at h
    · cases h
      exact setPt_ne _ _ (fun he => hd ⟨he.1.symm, he.2.symm⟩)
    · cases h
  | copy q j k =>
    simp only [step] at h
    split at h
    · cases h
      exact setPt_ne _ _ (fun he => hd ⟨he.1.symm, he.2.symm⟩)
    · cases h
  | _ =>
    simp only [step, retire] at h
    step_split h <;> rfl

theorem step_set {s : St R P} {r : R} {i : Nat} (x : Option P) (hu : s.used r = true) (hi : i < D) :
    step D C thr s (.set r i x) = some { s with pts := setPt s.pts r i x, prot := setPr s.prot r i false } :=
  if_pos ⟨hu, hi⟩

theorem step_validate {s : St R P} (hI : Inv D s) {r : R} {i : Nat} {x : P} (hu : s.used r = true) (hi : i < D)
    (hp : s.pts r i = some x) (hl : s.life x = .linked) :
    step D C thr s (.validate r i) = some { s with prot := setPr s.prot r i true } := by
  simp only [step, hp]
  exact if_pos ⟨hu, hI.used r hu, hi, hl⟩

end Verif.Hp
