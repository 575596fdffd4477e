import Verif.Cohort.CohortThm

/-!
# The local pass limit of `ck_cohort` (C114)

`stay c` counts the acquisitions of the cohort lock by threads of cohort `c` for as long as `c` keeps the global lock.  It looks only at
the global lock and at who is inside, not at `acquire_count`.
-/

set_option linter.unusedSimpArgs false
set_option linter.unusedVariables false

namespace Verif.Cohort

open Verif

variable {m n : Nat}

/-- A thread of cohort `c` acquires the cohort lock between `s` and `s'`. -/
def enters (c : Fin m) (s s' : St m n) : Bool :=
  decide (∃ t, (s'.th t).pc = .crit ∧ (s.th t).pc ≠ .crit ∧ (s'.th t).c = c)

/-- The acquisitions by threads of `c` in the schedule `as`, up to the moment `c` does not hold the global lock. -/
def stay (lim : Fin m → BitVec 32) (tr : Bool) (c : Fin m) : St m n → List (Act m n) → Nat
  | _, [] => 0
  | s, a :: as => match step lim tr s a with
    | some s' => if s.glob = some c then (enters c s s').toNat + stay lim tr c s' as else 0
    | none => 0

/-- The local lock is held and the release state was written by the previous holder. -/
@[grind] def PC.fresh : PC → Bool
  | .lDec | .lSt | .tDec true | .tSt | .uLU => true
  | _ => false
@[grind] def PC.zero : PC → Bool
  | .lGL | .tGTL | .tLU => true
  | _ => false
@[grind] def PC.taking : PC → Bool
  | .lAcq | .tAcq => true
  | _ => false

/-- `acquire_count` and `release_state` agree. -/
@[grind] def Ok (lim : Fin m → BitVec 32) (s : St m n) (c : Fin m) : Prop :=
  (s.st c = true → (s.acq c).toNat < (lim c).toNat) ∧ (s.st c = false → (s.acq c).toNat = 0)

structure Pass (lim : Fin m → BitVec 32) (s : St m n) : Prop where
  free : ∀ c, s.loc c = none → Ok lim s c
  fresh : ∀ t, (s.th t).pc.fresh = true → Ok lim s (s.th t).c
  zero : ∀ t, (s.th t).pc.zero = true → (s.acq (s.th t).c).toNat = 0
  taking : ∀ t, (s.th t).pc.taking = true → (s.acq (s.th t).c).toNat < max 1 (lim (s.th t).c).toNat
  loc : ∀ t, (s.th t).pc = .uLocal → (s.acq (s.th t).c).toNat < (lim (s.th t).c).toNat

theorem succ_toNat {x : BitVec 32} {k : BitVec 32} (h : x.toNat < max 1 k.toNat) : (x + 1).toNat = x.toNat + 1 := by
  have := k.isLt
  rw [BitVec.toNat_add]
  simp; omega

theorem fresh_hl {p : PC} (h : p.fresh = true) : p.hl = true := by cases p <;> simp_all [PC.fresh, PC.hl]; rename_i b; cases b <;> simp_all
theorem zero_hl {p : PC} (h : p.zero = true) : p.hl = true := by cases p <;> simp_all [PC.zero, PC.hl]
theorem taking_hl {p : PC} (h : p.taking = true) : p.hl = true := by cases p <;> simp_all [PC.taking, PC.hl]

set_option maxHeartbeats 1000000 in
theorem pass_step {lim : Fin m → BitVec 32} {tr : Bool} {s s' : St m n} {a : Act m n} (hi : Inv s) (hj : Pass lim s)
    (hs : step lim tr s a = some s') : Pass lim s' := by
  obtain ⟨j1, j2, j3, j4, j5⟩ := hj
  have l1 := hi.l1
  have l2 := hi.l2
  have g3 := hi.g3
  have x1 : ∀ t, (s.th t).pc.fresh = true → (s.th t).pc.hl = true := fun t => fresh_hl
  have x2 : ∀ t, (s.th t).pc.zero = true → (s.th t).pc.hl = true := fun t => zero_hl
  have x3 : ∀ t, (s.th t).pc.taking = true → (s.th t).pc.hl = true := fun t => taking_hl
  cases a <;> simp only [step, St.go] at hs
  case lock t d => step_split hs; constructor <;> simp only [Ok] at * <;> grind [upd]
  case trylock t d => step_split hs; constructor <;> simp only [Ok] at * <;> grind [upd]
  case unlock t => step_split hs; constructor <;> simp only [Ok] at * <;> grind [upd]
  case run t ok =>
    cases hp : (s.th t).pc
    case tDec b => cases b <;> simp only [hp] at hs <;> step_split hs <;> constructor <;> simp only [Ok] at * <;> grind [upd]
    all_goals simp only [hp] at hs
    all_goals try (simp only [reduceCtorEq] at hs; done)
    all_goals step_split hs
    all_goals constructor <;> simp only [Ok, BitVec.lt_def] at * <;> grind [upd]

theorem pass_of_reach {lim : Fin m → BitVec 32} {tr : Bool} (hn : n < 2 ^ 32) {s : St m n}
    (h : (sys lim tr).Reach s) : Inv s ∧ Pass lim s := by
  refine h.invariant (I := fun s => Inv s ∧ Pass lim s) ?_ (fun _ _ _ hi hs => ⟨inv_step hn hi.1 hs, pass_step hi.1 hi.2 hs⟩)
  intro s h
  refine ⟨inv_of_reach (lim := lim) (tr := tr) hn (.init h), ?_⟩
  obtain ⟨c0, rfl⟩ := h
  constructor <;> simp [initSt, Ok, PC.fresh, PC.zero, PC.taking]

set_option maxHeartbeats 1000000 in
theorem count_step {lim : Fin m → BitVec 32} {tr : Bool} {s s' : St m n} {a : Act m n} (hi : Inv s) (hj : Pass lim s)
    (hs : step lim tr s a = some s') (c : Fin m) (hg : s.glob = some c) :
    (enters c s s' = false ∧ s'.acq c = s.acq c) ∨
      ((s.acq c).toNat < max 1 (lim c).toNat ∧ (s'.acq c).toNat = (s.acq c).toNat + 1) := by
  have j4 := hj.taking
  have l1 := hi.l1
  have l2 := hi.l2
  have g3 := hi.g3
  have g4 := hi.g4 c hg
  simp only [enters, decide_eq_false_iff_not, not_exists]
  cases a <;> simp only [step, St.go] at hs
  case lock t d => step_split hs; left; simp only; grind [upd]
  case trylock t d => step_split hs; left; simp only; grind [upd]
  case unlock t => step_split hs; left; simp only; grind [upd]
  case run t ok =>
    have hk := @succ_toNat (s.acq (s.th t).c) (lim (s.th t).c)
    cases hp : (s.th t).pc
    case tDec b => cases b <;> simp only [hp] at hs <;> step_split hs <;> left <;> simp only <;> grind [upd]
    all_goals simp only [hp] at hs
    all_goals try (simp only [reduceCtorEq] at hs; done)
    case lAcq | tAcq =>
      step_split hs
      by_cases e : (s.th t).c = c
      · right
        subst e
        have := j4 t (by rw [hp]; rfl)
        simp only [upd_same]
        exact ⟨this, hk this⟩
      · left
        simp only
        grind [upd]
    all_goals step_split hs
    all_goals left <;> simp only <;> grind [upd]

theorem stay_le {lim : Fin m → BitVec 32} {tr : Bool} (hn : n < 2 ^ 32) (c : Fin m) (as : List (Act m n)) :
    ∀ s : St m n, Inv s → Pass lim s → stay lim tr c s as ≤ max 1 (lim c).toNat - (s.acq c).toNat := by
  induction as with
  | nil => intro s hi hj; simp [stay]
  | cons a as ih =>
    intro s hi hj
    rw [stay]
    cases hs : step lim tr s a with
    | none => simp
    | some s' =>
      simp only
      split
      · next hg =>
        have h1 := ih s' (inv_step hn hi hs) (pass_step hi hj hs)
        rcases count_step hi hj hs c hg with ⟨h2, h3⟩ | ⟨h2, h3⟩
        · rw [h2, ← h3]; simpa using h1
        · have : (enters c s s').toNat ≤ 1 := by cases enters c s s' <;> simp
          omega
      · omega

/-- C114: for as long as a cohort keeps the global lock its threads acquire the cohort lock at most `local_pass_limit` times in all (once
if the limit is 0), lock and trylock together, no matter how many of them wait and how long the schedule is. -/
theorem stay_bounded {lim : Fin m → BitVec 32} {tr : Bool} (hn : n < 2 ^ 32) {s : St m n} (h : (sys lim tr).Reach s)
    (c : Fin m) (as : List (Act m n)) : stay lim tr c s as ≤ max 1 (lim c).toNat :=
  (stay_le hn c as s (pass_of_reach hn h).1 (pass_of_reach hn h).2).trans (Nat.sub_le _ _)

/-- Whoever is inside belongs to the cohort that has the global lock, so `stay` misses no acquisition of the cohort lock. -/
theorem inside_glob {lim : Fin m → BitVec 32} {tr : Bool} (hn : n < 2 ^ 32) {s s' : St m n} {a : Act m n} (h : (sys lim tr).Reach s)
    (hs : step lim tr s a = some s') (c : Fin m) (he : enters c s s' = true) : s.glob = some c ∧ s'.glob = some c := by
  have hi := inv_of_reach hn h
  have hi' := inv_step hn hi hs
  simp only [enters, decide_eq_true_eq] at he
  obtain ⟨u, h1, h2, h3⟩ := he
  have hg' : s'.glob = some c := by rw [← h3]; exact hi'.g1 u (by rw [h1]; rfl)
  refine ⟨?_, hg'⟩
  have g1 := hi.g1
  cases a <;> simp only [step, St.go] at hs
  case lock t d => step_split hs; grind [upd]
  case trylock t d => step_split hs; grind [upd]
  case unlock t => step_split hs; grind [upd]
  case run t ok =>
    cases hp : (s.th t).pc
    case tDec b => cases b <;> simp only [hp] at hs <;> step_split hs <;> grind [upd]
    all_goals simp only [hp] at hs
    all_goals try (simp only [reduceCtorEq] at hs; done)
    all_goals step_split hs
    all_goals grind [upd]

/-! ## Concrete case: limit 2, three threads of one cohort; the second acquisition is passed on locally, the third waits. -/

def passLim : Fin 2 → BitVec 32 := fun _ => 2

def passStart : List (Act 2 3) := [.lock 0 0, .run 0 true, .run 0 true, .run 0 true, .run 0 true, .run 0 true]

def passSched : List (Act 2 3) :=
  [.run 0 true, .lock 1 0, .run 1 true, .lock 2 0, .run 2 true, .unlock 0, .run 0 true, .run 0 true, .run 0 true,
   .run 1 true, .run 1 true, .run 1 true, .run 1 true, .unlock 1, .run 1 true, .run 1 true, .run 1 true, .run 1 true, .run 1 true,
   .run 2 true, .run 2 true, .run 2 true, .run 2 true, .run 2 true]

theorem pass_case :
    (((sys passLim false).run (initSt 2 3 fun _ => 0) passStart).map fun s =>
      (decide (s.glob = some 0), stay passLim false 0 s passSched)) = some (true, 2) := by decide +kernel

/-- The third thread enters at the end of the schedule, after the cohort took the global lock again. -/
theorem pass_case_end :
    (((sys passLim false).run (initSt 2 3 fun _ => 0) (passStart ++ passSched)).map fun s =>
      (decide ((s.th 2).pc = .crit), s.acq 0)) = some (true, 1) := by decide +kernel

end Verif.Cohort
