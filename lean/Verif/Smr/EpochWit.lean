import Verif.Smr.EpochThm

/-!
# Epoch reclamation: executions

Three threads, each with its own record; thread 0 is the reader.  First executions that meet the hypotheses of
the theorems (with a counter about to wrap), then the ways the grace period can be broken.
-/

namespace Verif.Ep

open Verif

def s0 (g : Nat) : St (Fin 3) (Fin 3) (Fin 4) (Fin 2) where
  G := g
  recs := []
  free _ := false
  act _ := 0
  ep _ := 0
  bc _ _ := 0
  be _ _ := 0
  pend _ _ := []
  bk _ := 0
  main _ := .idle
  sub _ := .none
  own _ := none
  use _ := false
  opn := []
  sr _ := 0
  nul _ := false
  se _ := 0
  base _ := 0
  lab _ := 0
  busy _ := false
  wait _ := []
  sw _ := []
abbrev A := Act (Fin 3) (Fin 3) (Fin 4) (Fin 2)
def mains (t : Fin 3) (k : Nat) : List A := List.replicate k (.main t)
def opens (t : Fin 3) (z : Fin 4) (n : Bool) : List A := [.begin t t z n] ++ List.replicate (if n then 2 else 3) (.sub t)
def nest (t : Fin 3) (z : Fin 4) : List A := [.begin t t z false, .sub t]
def closes (t : Fin 3) (z : Fin 4) : List A := [.end_ t z, .sub t]
def regs : List A := [.register 0 0, .register 1 1, .register 2 2]
def calls (t r : Fin 3) (x : Fin 2) : List A := [.call t r x, .sub t]
/-- Thread 2 advances the epoch from inside its own section. -/
def tick (t : Fin 3) (z : Fin 4) : List A := opens t z false ++ [.poll t t] ++ mains t 13 ++ closes t z

abbrev W := St (Fin 3) (Fin 3) (Fin 4) (Fin 2)
abbrev sys3 (c : Cfg) := sys (Fin 3) (Fin 3) (Fin 4) (Fin 2) c

theorem s0_init (g : Nat) : Init (s0 g) := by
  refine ⟨rfl, ?_, ?_, ?_, ?_, ?_, ?_, rfl, ?_, ?_⟩ <;> intros <;> rfl

/-- `Runs`, computably. -/
def runs (s : W) (t : Fin 3) (x : Fin 2) : Bool :=
  match s.main t with
  | .disp _ (y :: _) _ => y == x
  | _ => false

theorem runs_iff {s : W} {t : Fin 3} {x : Fin 2} (h : runs s t x = true) : Runs s t x := by
  unfold runs at h
  split at h
  · next r y l k hm => exact ⟨r, l, k, by rw [hm, eq_of_beq h]⟩
  · cases h

def noEnd (z : Fin 4) (as : List A) : Bool := as.all fun a => match a with | .end_ _ y => y != z | _ => true

theorem noEnd_iff {z : Fin 4} {as : List A} (h : noEnd z as = true) : ∀ t, .end_ t z ∉ as := by
  intro t ht
  have := List.all_eq_true.1 h _ ht
  simp at this

theorem exec_of_run {c : Cfg} {s s' : W} {as : List A} (h : (sys3 c).run s as = some s') : (sys3 c).Exec s as s' := by
  induction as generalizing s with
  | nil => simp only [Sys.run, Option.some.injEq] at h; subst h; exact .nil _
  | cons a as ih =>
    simp only [Sys.run] at h
    split at h
    · cases h
    · next s1 h1 => exact .cons h1 (ih h)

/-- Section `z` is open, deferral `x` is made, and `x` runs although `z` did not end. -/
def Broken (c : Cfg) : Prop := ∃ (s s1 s2 : W) (t r u : Fin 3) (x : Fin 2) (z : Fin 4) (as : List A),
  (sys3 c).Reach s ∧ step c s (.call t r x) = some s1 ∧ z ∈ s.opn ∧ (sys3 c).Exec s1 as s2 ∧
  (∀ t, .end_ t z ∉ as) ∧ Runs s2 u x

theorem broken_of (c : Cfg) (g : Nat) (pre post : List A) (t r u : Fin 3) (x : Fin 2) (z : Fin 4)
    (h : (((sys3 c).run (s0 g) pre).any fun s => decide (z ∈ s.opn) && ((step c s (.call t r x)).any fun s1 =>
      ((sys3 c).run s1 post).any fun s2 => noEnd z post && runs s2 u x)) = true) : Broken c := by
  rw [Option.any_eq_true] at h
  obtain ⟨s, h1, h⟩ := h
  rw [Bool.and_eq_true, Option.any_eq_true] at h
  obtain ⟨h2, s1, h3, h⟩ := h
  rw [Option.any_eq_true] at h
  obtain ⟨s2, h4, h⟩ := h
  rw [Bool.and_eq_true] at h
  exact ⟨s, s1, s2, t, r, u, x, z, post, (Sys.Reach.init (s0_init g)).of_run h1, h3, of_decide_eq_true h2,
    exec_of_run h4, noEnd_iff h.1, runs_iff h.2⟩

def cg : Cfg := ⟨false, false, false, false⟩

/-- The reader is open, thread 1 defers, polls (the counter wraps) and polls again in vain; after the end of the
section the next poll runs the function. -/
theorem grace_case : (((sys3 cg).run (s0 4294967295) (regs ++ opens 0 0 false)).any fun s =>
    s.opn == [0] && ((step cg s (.call 1 1 0)).any fun s1 =>
    ((sys3 cg).run s1 ([.sub 1, .poll 1 1] ++ mains 1 13 ++ [.poll 1 1] ++ mains 1 10)).any fun s2 =>
      s2.G == 4294967296 && s2.main 1 == .idle && s2.pend 1 3 == [0] &&
      ((sys3 cg).run s2 (closes 0 0 ++ [.poll 1 1] ++ mains 1 17)).any fun s3 => runs s3 1 0)) = true := by
  decide +kernel

/-- `ck_epoch_call_strict` by thread 2 on the record of thread 1, which polls inside sections. -/
theorem strict_case : (((sys3 ⟨false, true, true, true⟩).run (s0 4294967295) (regs ++ opens 0 0 false)).any fun s =>
    s.opn == [0] && ((step ⟨false, true, true, true⟩ s (.call 2 1 0)).any fun s1 =>
    ((sys3 ⟨false, true, true, true⟩).run s1 ([.sub 2] ++ opens 1 1 false ++ [.poll 1 1] ++ mains 1 14)).any fun s2 =>
      s2.G == 4294967296 && s2.main 1 == .idle && s2.pend 1 3 == [0] &&
      ((sys3 ⟨false, true, true, true⟩).run s2 (closes 0 0 ++ closes 1 1 ++ opens 1 1 false ++ [.poll 1 1] ++
        mains 1 12)).any fun s3 => runs s3 1 0)) = true := by
  decide +kernel

/-- `ck_epoch_synchronize` with the reader open at the call: it advances the epoch once and waits, and returns
after the end of the section. -/
theorem sync_case : (((sys3 cg).run (s0 4294967295) (regs ++ opens 0 0 false)).any fun s =>
    s.opn == [0] && ((step cg s (.sync 1 none)).any fun s1 =>
    ((sys3 cg).run s1 (mains 1 18)).any fun s2 =>
      s2.G == 4294967296 && s2.main 1 == .scan (.sync 4294967295 1 none) 4294967296 [0] true .st &&
      ((sys3 cg).run s2 (closes 0 0 ++ mains 1 3)).any fun s3 => s3.main 1 == .idle)) = true := by
  decide +kernel

/-- Overlapping sections of one record: an inner section entered at the next epoch ends first (the record keeps
the epoch of the outer one), or last (the record takes the epoch of the inner one). -/
theorem nest_case : (((sys3 cg).run (s0 0) (regs ++ opens 0 0 false ++ [.poll 2 2] ++ mains 2 13 ++ nest 0 1)).any fun s =>
    s.opn == [1, 0] && s.ep 0 == 0 && s.se 1 == 1 &&
    (((sys3 cg).run s (closes 0 1)).any fun s1 => s1.opn == [0] && s1.ep 0 == 0) &&
    (((sys3 cg).run s (closes 0 0)).any fun s1 => s1.opn == [1] && s1.ep 0 == 1)) = true := by
  decide +kernel

/-- **C42 is violated by `ck_epoch_poll`.**  The owner of the record loads the epoch `1`; the epoch advances
twice; a reader begins; another thread defers at epoch `3`, that is into the list `(1 - 2) & 3` which the owner
dispatches next. -/
theorem strict_poll : Broken ⟨false, false, true, false⟩ :=
  broken_of _ 1 (regs ++ [.poll 1 1] ++ tick 2 2 ++ tick 2 2 ++ opens 0 0 false) ([.sub 2] ++ mains 1 1) 2 1 1 0 0
    (by decide +kernel)

/-- **C42 is violated by `ck_epoch_barrier`**: a deferral made after the wait and before the lists are
dispatched. -/
theorem strict_barrier : Broken ⟨false, false, true, false⟩ :=
  broken_of _ 1 (regs ++ [.sync 1 (some 1)] ++ mains 1 8 ++ opens 0 0 false) ([.sub 2] ++ mains 1 3) 2 1 1 0 0
    (by decide +kernel)

/-- **C40 is violated by callbacks that defer**: `ck_epoch_barrier` waited, dispatches list `0` whose callback
defers on the same record; list `1` is dispatched next. -/
theorem callback_defers : Broken ⟨false, true, false, false⟩ :=
  broken_of _ 0 (regs ++ calls 1 1 1 ++ tick 2 2 ++ [.sync 1 (some 1)] ++ mains 1 9 ++ opens 0 0 false)
    ([.sub 1] ++ mains 1 3) 1 1 1 0 0 (by decide +kernel)

def cm : Cfg := ⟨true, false, false, false⟩

/-- The outer section of the record is a `NULL` section, entered at epoch 0; sections with objects follow it and
the end of one of them raises the epoch of the record to 1, then to 2. -/
theorem mix_epoch : (((sys3 cm).run (s0 0) (regs ++ opens 0 0 true ++ nest 0 1 ++ [.poll 2 2] ++ mains 2 13 ++
    nest 0 2 ++ closes 0 1)).any fun s => s.opn == [2, 0] && s.se 0 == 0 && s.ep 0 == 1) = true := by
  decide +kernel

/-- **C41 is violated by mixing `NULL` sections and section objects on a record**: `ck_epoch_synchronize` called
with the `NULL` section open returns with it open. -/
theorem mix_sync : ∃ (s s1 s2 : W) (as : List A), (sys3 cm).Reach s ∧ step cm s (.sync 2 none) = some s1 ∧ 0 ∈ s.opn ∧
    (sys3 cm).Exec s1 as s2 ∧ (∀ t, .end_ t 0 ∉ as) ∧ s2.main 2 = .idle ∧ 0 ∈ s2.opn := by
  have h : (((sys3 cm).run (s0 0) (regs ++ opens 0 0 true ++ nest 0 1 ++ [.poll 2 2] ++ mains 2 13 ++
    nest 0 2 ++ closes 0 1)).any fun s => decide (0 ∈ s.opn) && ((step cm s (.sync 2 none)).any fun s1 =>
      ((sys3 cm).run s1 (mains 2 9 ++ nest 0 3 ++ closes 0 2 ++ mains 2 9)).any fun s2 =>
        noEnd 0 (mains 2 9 ++ nest 0 3 ++ closes 0 2 ++ mains 2 9) && (decide (s2.main 2 = .idle) && decide (0 ∈ s2.opn))))
      = true := by decide +kernel
  rw [Option.any_eq_true] at h
  obtain ⟨s, h1, h⟩ := h
  rw [Bool.and_eq_true, Option.any_eq_true] at h
  obtain ⟨h2, s1, h3, h⟩ := h
  rw [Option.any_eq_true] at h
  obtain ⟨s2, h4, h⟩ := h
  rw [Bool.and_eq_true, Bool.and_eq_true] at h
  exact ⟨s, s1, s2, _, (Sys.Reach.init (s0_init 0)).of_run h1, h3, of_decide_eq_true h2,
    exec_of_run h4, noEnd_iff h.1, of_decide_eq_true h.2.1, of_decide_eq_true h.2.2⟩

/-- `ck_epoch_unregister` drops what is pending on the record. -/
theorem unregister_drops : (((sys3 cg).run (s0 0) (regs ++ calls 1 1 0)).any fun s => s.pend 1 0 == [0] &&
    ((step cg s (.unreg 1 1)).any fun s1 => s1.pend 1 0 == [] && s1.busy 0)) = true := by decide +kernel

end Verif.Ep
