import Verif.Misc.SequenceThm

/-!
# Progress of `ck_sequence` (C110)

The model of C22.  No step of the writer depends on the readers; a reader repeats its section at most once for every write section that
began during the read; read_begin waits exactly while a write section is open, however long.
-/

namespace Verif.Sequence

open Verif

variable {w n : Nat} {V : Type}

/-- The sections that reader `r` has to repeat. -/
def retries (r : Fin n) : St w n V → List (Act n V) → Nat
  | _, [] => 0
  | s, a :: as => match step s a with
    | some s' => (if (match s.pc r with | .sect _ => true | _ => false) = true ∧ s'.pc r = .begin then 1 else 0) + retries r s' as
    | none => 0

/-- The write sections that begin. -/
def sections : St w n V → List (Act n V) → Nat
  | _, [] => 0
  | s, a :: as => match step s a with
    | some s' => (if s.writing = false ∧ s'.writing = true then 1 else 0) + sections s' as
    | none => 0

/-- The section of `r` in progress will be repeated. -/
def late (s : St w n V) (r : Fin n) : Nat := match s.pc r with
  | .sect _ => if s.ver = s.beg r then 0 else 1
  | _ => 0

theorem late_step (hw : 0 < w) {s s' : St w n V} {a : Act n V} (hi : Inv s) (hs : step s a = some s') (r : Fin n) :
    (if (match s.pc r with | .sect _ => true | _ => false) = true ∧ s'.pc r = .begin then 1 else 0) + late s' r ≤
      (if s.writing = false ∧ s'.writing = true then 1 else 0) + late s r := by
  have hpar := hi.par
  have hrd := hi.rd r
  cases a <;> simp only [step] at hs
  case wbegin =>
    split at hs
    · cases hs
    · next h =>
      cases hs
      have : s.writing = false := by simpa using h
      simp only [this, late]
      cases s.pc r <;> simp
      split <;> split <;> omega
  case store i v =>
    split at hs
    · cases hs; simp only [late]; cases s.pc r <;> simp
    · cases hs
  case wend =>
    split at hs
    · next h =>
      cases hs
      rw [h] at hpar
      simp only [late]
      cases hp : s.pc r <;> simp
      obtain ⟨-, -, h3, -⟩ := hrd _ hp
      simp at hpar
      rw [if_neg (by omega : ¬ s.ver = s.beg r)]
      split <;> omega
    · cases hs
  case rbegin q =>
    split at hs
    · next h =>
      cases hs
      by_cases e : r = q
      · subst e; simp [late, h]
      · simp [late, upd_ne _ _ e]
        cases s.pc r <;> simp
    · cases hs
  case load q =>
    split at hs
    · next h =>
      split at hs
      · cases hs
        by_cases e : r = q
        · subst e; simp [late, h]
        · simp [late, upd_ne _ _ e]
          cases s.pc r <;> simp
      · cases hs; cases hp : s.pc r <;> simp
    · cases hs
  case read q i =>
    split at hs
    · cases hs; simp only [late]; cases hp : s.pc r <;> simp
    · cases hs
  case retry q =>
    split at hs
    · next v h =>
      split at hs
      · next hne =>
        cases hs
        by_cases e : r = q
        · subst e
          obtain ⟨h1, -, -, -⟩ := hrd _ h
          have : s.ver ≠ s.beg r := fun h2 => hne (by rw [hi.seq, h1, h2])
          simp [late, h, this]
        · simp [late, upd_ne _ _ e]
          cases s.pc r <;> simp
      · cases hs
        by_cases e : r = q
        · subst e; simp [late]
        · simp [late, upd_ne _ _ e]
          cases s.pc r <;> simp
    · cases hs
  case leave q =>
    split at hs
    · next h =>
      cases hs
      by_cases e : r = q
      · subst e; simp [late, h]
      · simp [late, upd_ne _ _ e]
        cases s.pc r <;> simp
    · cases hs

theorem retries_le (hw : 0 < w) (r : Fin n) (as : List (Act n V)) : ∀ s : St w n V, Inv s →
    retries r s as ≤ sections s as + late s r := by
  induction as with
  | nil => intro s _; exact Nat.zero_le _
  | cons a as ih =>
    intro s hi
    simp only [retries, sections]
    cases hs : step s a with
    | none => exact Nat.zero_le _
    | some s' =>
      have h1 := ih s' (inv_step hw hi hs)
      have h2 := late_step hw hi hs r
      simp only
      omega

/-- C110: in any execution a reader repeats its section at most once for every write section that begins, not counting a section it was in
at the start. -/
theorem retries_bounded (hw : 0 < w) {s : St w n V} (h : (sys w n V).Reach s) (r : Fin n) (hr : ∀ v, s.pc r ≠ .sect v)
    (as : List (Act n V)) : retries r s as ≤ sections s as := by
  have h1 := retries_le hw r as s (inv_of_reach hw h)
  have : late s r = 0 := by
    unfold late
    cases hp : s.pc r with
    | sect v => exact absurd hp (hr v)
    | _ => rfl
  omega

/-- C110: whatever the readers do, the writer can make its next step. -/
theorem writer_wait_free (s : St w n V) : (s.writing = false → ∃ s', step s .wbegin = some s' ∧ s'.writing = true) ∧
    (s.writing = true → (∀ i v, ∃ s', step s (.store i v) = some s') ∧ ∃ s', step s .wend = some s' ∧ s'.writing = false) :=
  ⟨fun h => ⟨_, by simp only [step, h]; rfl, rfl⟩, fun h => ⟨fun i v => ⟨_, by simp only [step, h]; rfl⟩, ⟨_, by simp only [step, h]; rfl, rfl⟩⟩⟩

/-- C110: without an open write section a reader in read_begin or in an undisturbed section gets through without being disturbed. -/
theorem reader_alone (hw : 0 < w) {s : St w n V} (h : (sys w n V).Reach s) {r : Fin n} (hp : s.pc r = .begin) (hn : s.writing = false)
    (is : List Nat) : ∃ s', (sys w n V).run s ([.load r] ++ is.map (.read r) ++ [.retry r]) = some s' ∧ s'.pc r = .accepted ∧
      s'.log r = (is.map fun i => (i, s.mem i)).reverse := by
  have hi := inv_of_reach hw h
  have he : s.seq &&& 1 = 0 := by rw [hi.seq, even_iff hw, hi.par, hn]; rfl
  have key : ∀ (is : List Nat) (s : St w n V), s.pc r = .sect s.seq →
      ∃ s', (sys w n V).run s (is.map (.read r) ++ [.retry r]) = some s' ∧ s'.pc r = .accepted ∧
        s'.log r = (is.map fun i => (i, s.mem i)).reverse ++ s.log r := by
    intro is
    induction is with
    | nil => intro s h1; exact ⟨{ s with pc := upd s.pc r .accepted }, by simp [Sys.run, sys, step, h1], by simp, by simp⟩
    | cons i is ih =>
      intro s h1
      obtain ⟨s', h2, h3, h4⟩ := ih { s with log := upd s.log r ((i, s.mem i) :: s.log r) } h1
      refine ⟨s', ?_, h3, ?_⟩
      · simpa [Sys.run, sys, step, h1] using h2
      · rw [h4]; simp
  obtain ⟨s', h1, h2, h3⟩ := key is { s with pc := upd s.pc r (.sect s.seq), beg := upd s.beg r s.ver } (by simp)
  refine ⟨s', ?_, h2, ?_⟩
  · have hl : (sys w n V).step s (.load r) = some { s with pc := upd s.pc r (.sect s.seq), beg := upd s.beg r s.ver } := by
      simp only [sys, step]; rw [if_pos hp, if_pos he]
    rw [List.append_assoc, List.singleton_append, Sys.run, hl]
    exact h1
  · rw [h3]
    show _ ++ s.log r = _
    rw [hi.bg r hp]; simp

/-- C110: read_begin waits while a write section is open: however often it loads, nothing changes. -/
theorem begin_waits (hw : 0 < w) {s : St w n V} (h : (sys w n V).Reach s) {r : Fin n} (hp : s.pc r = .begin) (hn : s.writing = true) :
    step s (.load r) = some s := by
  have hi := inv_of_reach hw h
  have he : ¬ s.seq &&& 1 = 0 := by
    rw [hi.seq, even_iff hw, hi.par, hn]; simp
  simp only [step]; rw [if_pos hp, if_neg he]

/-- A reader that is disturbed by two write sections repeats twice and then reads both words of the second. -/
theorem retry_case : (let as : List (Act 1 Nat) := [.rbegin 0, .load 0, .read 0 0, .wbegin, .store 0 1, .store 1 1, .wend, .read 0 1, .retry 0,
      .load 0, .wbegin, .store 0 2, .store 1 2, .retry 0, .load 0, .wend, .load 0, .read 0 0, .read 0 1, .retry 0]
    (((sys 32 1 Nat).run (initSt 32 1 fun _ => 0) as).map fun s => (s.pc 0, s.log 0), retries 0 (initSt 32 1 fun _ => 0) as,
      sections (initSt 32 1 fun _ => 0) as)) = (some (.accepted, [(1, 2), (0, 2)]), 2, 2) := by decide +kernel

/-- A writer stopped inside its section, with a reader in read_begin. -/
theorem wait_case : ∃ s : St 32 1 Nat, (sys 32 1 Nat).Reach s ∧ s.pc 0 = .begin ∧ s.writing = true := by
  have hr : ((sys 32 1 Nat).run (initSt 32 1 (fun _ => 0)) [.wbegin, .store 0 1, .rbegin 0, .load 0]).map
      (fun s => (s.pc 0, s.writing)) = some (.begin, true) := by decide +kernel
  obtain ⟨s, hs, h⟩ := Option.map_eq_some_iff.1 hr
  simp only [Prod.mk.injEq] at h
  exact ⟨s, .of_run (s := initSt 32 1 fun _ => 0) (.init ⟨_, rfl⟩) hs, h.1, h.2⟩

end Verif.Sequence
