import Verif.Ec.Wait

/-! # Event counts: executions -/

namespace Verif.Ec

open Verif Verif.Lin

/-- An event count of value 0, three idle threads: 0 and 2 wait, 1 produces. -/
def s0 (n : Nat) : St n (Fin 3) := { c := 0, th := fun _ => .idle, since := fun _ => 0 }

theorem s0_init32 (sp : Option (Fin 3)) : (sys F32 sp 0).init (s0 32) := ⟨by decide +kernel, fun _ => rfl⟩
theorem s0_init64 (sp : Option (Fin 3)) : (sys F64 sp 0).init (s0 64) := ⟨by decide +kernel, fun _ => rfl⟩

theorem wit {n : Nat} {F : Fmt n} {sp : Option (Fin 3)} {s : St n (Fin 3)} {P : St n (Fin 3) → Bool}
    {as : List (Act n (Fin 3))} (h0 : (sys F sp 0).Reach s)
    (h : ((sys F sp 0).run s as).any P = true) : ∃ s', (sys F sp 0).Reach s' ∧ P s' = true := by
  cases hr : (sys F sp 0).run s as with
  | none => rw [hr] at h; cases h
  | some s' => rw [hr] at h; exact ⟨s', .of_run h0 hr, h⟩

theorem reach_getD {n : Nat} {F : Fmt n} {sp : Option (Fin 3)} {s : St n (Fin 3)} {as : List (Act n (Fin 3))}
    (h0 : (sys F sp 0).Reach s) : (sys F sp 0).Reach (((sys F sp 0).run s as).getD s) := by
  cases hr : (sys F sp 0).run s as with
  | none => exact h0
  | some s' => exact .of_run h0 hr

/-- `k` steps of a thread. -/
def go {n : Nat} (t : Fin 3) (k : Nat) : List (Act n (Fin 3)) := List.replicate k (.run t false)

/-! ## A lost wake-up is prevented by a pending producer -/

/-- Waiter 0 sleeps on 0, the producer has incremented and is about to wake: the hypotheses of
`no_lost_wakeup32`. -/
theorem no_lost_wakeup32_case : ∃ s, (sys F32 none 0).Reach s ∧ s.th (0 : Fin 3) = .slp 0 ∧ F32.value s.c = 1 ∧
    s.th 1 = .clr .unit := by
  obtain ⟨s, h1, h2⟩ := wit (F := F32) (sp := none) (s := s0 32)
    (as := .call 0 (.wait 0) :: go 0 8 ++ .call 1 .inc :: go 1 1)
    (P := fun s => s.th 0 = .slp 0 && F32.value s.c == 1 && s.th 1 = .clr .unit) (.init (s0_init32 none))
    (by decide +kernel)
  refine ⟨s, h1, ?_⟩
  simpa [and_assoc] using h2

theorem no_lost_wakeup64_case : ∃ s, (sys F64 none 0).Reach s ∧ s.th (0 : Fin 3) = .slp 0 ∧ F64.value s.c = 1 ∧
    s.since 0 = 1 ∧ s.th 1 = .clr .unit := by
  obtain ⟨s, h1, h2⟩ := wit (F := F64) (sp := none) (s := s0 64)
    (as := .call 0 (.wait 0) :: go 0 9 ++ .call 1 .inc :: go 1 1)
    (P := fun s => s.th 0 = .slp 0 && F64.value s.c == 1 && s.since 0 == 1 && s.th 1 = .clr .unit)
    (.init (s0_init64 none)) (by decide +kernel)
  refine ⟨s, h1, ?_⟩
  simpa [and_assoc] using h2

/-! ## The 64-bit futex wait loses a wake-up after `2 ^ 31` increments -/

/-- Waiter 0 is about to call futex; an add of `2 ^ 31` (allowed: less than INT64_MAX) and its wake complete;
waiter 2 flags the new value; the futex call of 0 compares the low halves, which agree, and 0 sleeps although
the value is not the one it waits on and no producer is active. -/
theorem lost_wakeup64 : ∃ s, (sys F64 none 0).Reach s ∧ s.th (0 : Fin 3) = .slp 0 ∧ F64.value s.c ≠ 0 ∧
    (∀ p, pending (s.th p) = false) ∧ s.since 0 = 2 ^ 31 := by
  obtain ⟨s, h1, h2⟩ := wit (F := F64) (sp := none) (s := s0 64)
    (as := .call 0 (.wait 0) :: go 0 8 ++ .call 1 (.add (2 ^ 31)) :: go 1 3 ++
      .call 2 (.wait (2 ^ 31)) :: go 2 5 ++ go 0 1)
    (P := fun s => s.th 0 = .slp 0 && F64.value s.c != 0 && (decide (∀ p, pending (s.th p) = false)) &&
      s.since 0 == 2 ^ 31)
    (.init (s0_init64 none)) (by decide +kernel)
  refine ⟨s, h1, ?_⟩
  simpa [and_assoc] using h2

/-! ## Single-producer mode loses wake-ups -/

/-- The flag set between the load and the store of the producer's update is overwritten: 0 sleeps on 0, the value
is 1, no producer is active, and the flag is not set, so no later update wakes it. -/
theorem sp_lost_wakeup : ∃ s, (sys F32 (some 1) 0).Reach s ∧ s.th (0 : Fin 3) = .slp 0 ∧ F32.value s.c = 1 ∧
    (∀ p, pending (s.th p) = false) ∧ F32.flagged s.c = false := by
  obtain ⟨s, h1, h2⟩ := wit (F := F32) (sp := some 1) (s := s0 32)
    (as := .call 1 .inc :: go 1 1 ++ .call 0 (.wait 0) :: go 0 8 ++ go 1 1)
    (P := fun s => s.th 0 = .slp 0 && F32.value s.c == 1 && (decide (∀ p, pending (s.th p) = false)) &&
      F32.flagged s.c == false)
    (.init (s0_init32 _)) (by decide +kernel)
  refine ⟨s, h1, ?_⟩
  simpa [and_assoc] using h2

/-! ## Wait returns 0 although the value never changed -/

theorem waitZero_false {n : Nat} {F : Fmt n} {s : St n (Fin 3)} {v : BitVec n} {as : List (Act n (Fin 3))}
    (h0 : (sys F none 0).Reach s) (hn : (as.all fun a => match a with | .ret _ => false | _ => true) = true)
    (h : ((sys F none 0).run s (.call 2 (.wait v) :: as)).any (fun s => s.th 2 = .ret (.int 0)) = true)
    (hv : ((List.range (as.length + 1)).all fun k =>
      ((sys F none 0).run s (.call 2 (.wait v) :: as.take k)).all fun s => F.value s.c == v) = true) :
    ¬ WaitZero (T := Fin 3) F none 0 := by
  intro hw
  cases hr : (sys F none 0).run s (.call 2 (.wait v) :: as) with
  | none => rw [hr] at h; cases h
  | some s' =>
    rw [hr] at h
    obtain ⟨l, s'', h1, h2, h3⟩ := hw s s' 2 v as h0 hr
      (by intro hm; have := List.all_eq_true.1 hn _ hm; cases this) (by simpa using h)
    have h4 := List.all_eq_true.1 hv l.length (by
      rw [List.mem_range]; have := h1.length_le; omega)
    rw [← List.prefix_iff_eq_take.1 h1, h2] at h4
    exact h3 (by simpa using h4)

/-- Waiter 0 flagged the word, the producer incremented (value 1) and stands before clearing the flag. -/
def preSpurious (n : Nat) (k : Nat) : List (Act n (Fin 3)) :=
  .call 0 (.wait 0) :: go 0 k ++ .call 1 .inc :: go 1 1

/-- **C56 fails**: waiter 2 calls wait for the current value 1 and finds the word flagged; the producer clears
the flag; 2 sees another word and returns 0.  The value was 1 during the whole call. -/
theorem wait_zero_wrong32 : ¬ WaitZero (T := Fin 3) F32 none 0 := by
  refine waitZero_false (s := ((sys F32 none 0).run (s0 32) (preSpurious 32 6)).getD (s0 32)) (v := 1)
    (as := go 2 4 ++ go 1 1 ++ go 2 1) ?_ (by decide +kernel) (by decide +kernel) (by decide +kernel)
  exact reach_getD (.init (s0_init32 none))

theorem wait_zero_wrong64 : ¬ WaitZero (T := Fin 3) F64 none 0 := by
  refine waitZero_false (s := ((sys F64 none 0).run (s0 64) (preSpurious 64 6)).getD (s0 64)) (v := 1)
    (as := go 2 4 ++ go 1 1 ++ go 2 1) ?_ (by decide +kernel) (by decide +kernel) (by decide +kernel)
  exact reach_getD (.init (s0_init64 none))

/-- The hypotheses of `wait_zero_partial` met by a genuine wake-up: 0 sleeps, the producer increments and wakes it. -/
theorem wait_zero_case : ((sys F32 (none : Option (Fin 3)) 0).run (s0 32)
    (.call 0 (.wait 0) :: (go 0 8 ++ .call 1 .inc :: go 1 3 ++ go 0 2))).any
      (fun s => s.th 0 = .ret (.int 0) && F32.value s.c == 1) = true := by
  decide +kernel

/-- `update_pends` and `pending_wakes` have met hypotheses in `no_lost_wakeup32_case`; an add over a flagged word
returns the value before it. -/
theorem add_case : ((sys F64 (none : Option (Fin 3)) 0).run (s0 64)
    (.call 0 (.wait 0) :: (go 0 9 ++ .call 1 (.add 5) :: go 1 3 ++ [.ret 1, .call 1 (.add 7)] ++ go 1 1))).any
      (fun s => s.th 1 = .ret (.val 5) && F64.value s.c == 12 && s.th 0 = .chk 0) = true := by
  decide +kernel

end Verif.Ec
