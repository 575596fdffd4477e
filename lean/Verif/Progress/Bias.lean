import Verif.Progress.Lf
import Verif.Rw.RwlockThm
import Verif.Rw.SwlockThm
import Verif.Rw.BrlockThm

/-!
# Write-biased locks (C108)

The models of C09, C14 and C15.  Once a writer has set its flag no reader acquires the lock (`no_reader_enters`).  For `ck_rwlock` and
`ck_swlock` the writer's wait is bounded: `moves` counts the steps that threads in its way make while it waits, and it enters as soon as
nobody is in its way.  A reader is in the way while it holds the lock, and while it is between its test of the flag and taking its
increment back.
-/

namespace Verif.Rw.Rwlock

open Verif Verif.Lf

variable {n : Nat}

def Act.thread : Act n → Fin n
  | .wlock t | .wtrylock t | .wunlock t | .downgrade t | .rlock t | .rtrylock t | .runlock t | .run t => t

/-- The most steps for which a reader stays in the way of a writer that has set the flag; 0: not in the way. -/
def rank : PC → Nat
  | .rInc _ => 3
  | .rCheck _ => 2
  | .rDec _ => 1
  | .reading => 1
  | _ => 0

/-- The steps of threads in the way while writer `w` waits (line 122). -/
def moves (w : Fin n) : St n → List (Act n) → Nat
  | _, [] => 0
  | s, a :: as =>
    if s.pc w = .wReaders false then
      (if 0 < rank (s.pc a.thread) then 1 else 0) + (match step s a with | some s' => moves w s' as | none => 0)
    else 0

theorem Inv.flag {s : St n} (hi : Inv s) {w : Fin n} (hw : (s.pc w).w = true) : s.writer ≠ 0 := by
  have := cnt_pos (P := PC.w) (f := s.pc) w hw
  rw [Ne, zero_iff, hi.w]; omega

/-- While a writer waits for the readers to leave, no reader acquires the lock. -/
theorem no_reader_enters (hn : n < 2 ^ 32) {s s' : St n} (h : (sys n).Reach s) {w : Fin n} {b : Bool} (hw : s.pc w = .wReaders b)
    {a : Act n} (hs : step s a = some s') (t : Fin n) : s'.reads t → s.reads t := by
  have hi := inv_of_reach hn h
  have hf := hi.flag (w := w) (by rw [hw]; rfl)
  have hu : ∀ u, (s.pc u).w = true → u = w := fun u hu => cnt_eq_one_unique (P := PC.w) (f := s.pc) hi.w1 hu (by rw [hw]; rfl)
  unfold St.reads
  rcases a with u | u | u | u | u | u | u | u <;> simp only [step] at hs <;> step_split hs <;> grind

/-- A step while `w` waits: the thread that makes it is nearer to being out of the way, or was not in it. -/
theorem rank_step (hn : n < 2 ^ 32) {s s' : St n} (hi : Inv s) {w : Fin n} (hw : s.pc w = .wReaders false) {a : Act n}
    (hs : step s a = some s') : (∀ u, u ≠ a.thread → s'.pc u = s.pc u) ∧
      rank (s'.pc a.thread) + (if 0 < rank (s.pc a.thread) then 1 else 0) ≤ rank (s.pc a.thread) := by
  have hf := hi.flag (w := w) (by rw [hw]; rfl)
  have hu : ∀ u, (s.pc u).w = true → u = w := fun u hu => cnt_eq_one_unique (P := PC.w) (f := s.pc) hi.w1 hu (by rw [hw]; rfl)
  rcases a with u | u | u | u | u | u | u | u <;> simp only [step] at hs <;> step_split hs <;>
    refine ⟨fun v hv => ?_, ?_⟩ <;> simp only [Act.thread] at * <;> grind [rank]

/-- A writer that has set its flag waits for at most `3 n` steps of readers. -/
theorem wait_bounded (hn : n < 2 ^ 32) {s : St n} (h : (sys n).Reach s) (w : Fin n) (as : List (Act n)) : moves w s as ≤ 3 * n := by
  have key : ∀ (as : List (Act n)) (s : St n), Inv s → moves w s as ≤ ∑ u, rank (s.pc u) := by
    intro as
    induction as with
    | nil => intro s _; exact Nat.zero_le _
    | cons a as ih =>
      intro s hi
      rw [moves]
      split
      · next hw =>
        cases hs : step s a with
        | some s' =>
          obtain ⟨h1, h2⟩ := rank_step hn hi hw hs
          have := ih s' (inv_step hn hi hs)
          have h3 := sum_eq (fun u => rank (s.pc u)) (fun u => rank (s'.pc u)) a.thread (fun u hu => by simp only [h1 u hu])
          simp only at h3 ⊢
          omega
        | none =>
          have : rank (s.pc a.thread) ≤ ∑ u, rank (s.pc u) :=
            Finset.single_le_sum (f := fun u => rank (s.pc u)) (fun _ _ => Nat.zero_le _) (Finset.mem_univ _)
          simp only
          split <;> omega
      · exact Nat.zero_le _
  refine Nat.le_trans (key as s (inv_of_reach hn h)) ?_
  refine Nat.le_trans (Finset.sum_le_card_nsmul _ _ 3 fun t _ => ?_) (by simp [Nat.mul_comm])
  unfold rank; split <;> omega

/-- It keeps waiting, with the flag set, until it has the lock: the flag is not withdrawn and `write_lock` does not give up. -/
theorem wait_keeps {s s' : St n} {w : Fin n} (hw : s.pc w = .wReaders false) {a : Act n} (hs : step s a = some s') :
    s'.pc w = .wReaders false ∨ s'.writes w := by
  unfold St.writes
  rcases a with u | u | u | u | u | u | u | u <;> simp only [step] at hs <;> step_split hs <;> grind

/-- It enters with its next step once nobody is in the way. -/
theorem wait_ends (hn : n < 2 ^ 32) {s : St n} (h : (sys n).Reach s) {w : Fin n} {b : Bool} (hw : s.pc w = .wReaders b)
    (hr : ∀ u, rank (s.pc u) = 0) : ∃ s', step s (.run w) = some s' ∧ s'.writes w := by
  have hi := inv_of_reach hn h
  have hz : cnt PC.r s.pc = 0 := cnt_zero_of fun u => by
    have := hr u
    have hu : (s.pc u).w = true → u = w := fun hu => cnt_eq_one_unique (P := PC.w) (f := s.pc) hi.w1 hu (by rw [hw]; rfl)
    cases hp : s.pc u with
    | dgStore =>
      have := hu (by rw [hp]; rfl)
      rw [this, hw] at hp; cases hp
    | rCheck _ => rw [hp] at this; simp [rank] at this
    | rDec _ => rw [hp] at this; simp [rank] at this
    | reading => rw [hp] at this; simp [rank] at this
    | _ => rfl
  have e : s.readers = 0 := zero_iff.2 (hi.r.trans hz)
  exact ⟨{ s with pc := upd s.pc w .writing }, by simp [step, hw, e], by simp [St.writes]⟩

end Verif.Rw.Rwlock

namespace Verif.Rw.Swlock

open Verif Verif.Lf

variable {n : Nat}

/-- The reader that makes a step. -/
def Act.reader : Act n → Option (Fin n)
  | .rlock t | .rtrylock t | .runlock t | .run t => some t
  | _ => none

/-- The most steps for which a reader stays in the way of a writer that has set the bit; 0: not in the way. -/
def rank : PC → Nat
  | .rFaa _ => 2
  | .rDec _ => 1
  | .reading => 1
  | _ => 0

/-- The writer has set the bit and waits (lines 113, 128, 132). -/
def waits : WPC → Bool
  | .lkWait | .ltCas | .ltWait => true
  | _ => false

def inWay (s : St n) (a : Act n) : Nat := match a.reader with
  | none => 0
  | some t => if 0 < rank (s.pc t) then 1 else 0

/-- The steps of readers in the way while the writer waits. -/
def moves : St n → List (Act n) → Nat
  | _, [] => 0
  | s, a :: as =>
    if waits s.wpc then inWay s a + (match step s a with | some s' => moves s' as | none => 0) else 0

theorem Inv.flag (hn : n + 1 < 2 ^ 30) {s : St n} (hi : Inv s) (hw : waits s.wpc = true) :
    s.value &&& WB ≠ 0 ∧ s.value &&& WM ≠ 0 ∧ s.value &&& WM = WB := by
  have h1 := hi.and_WB hn
  have h2 := hi.and_WM0 hn
  have h3 := hi.and_WM1 hn
  cases hp : s.wpc <;> rw [hp] at hw h1 h2 h3 <;> first | (cases hw; done) | simp_all [WPC.wb, WPC.lb]

/-- While the writer waits for the readers to leave, no reader acquires the lock. -/
theorem no_reader_enters (hn : n + 1 < 2 ^ 30) {s s' : St n} (h : (sys n).Reach s) (hw : waits s.wpc = true)
    {a : Act n} (hs : step s a = some s') (t : Fin n) : s'.reads t → s.reads t := by
  have hi := inv_of_reach hn h
  obtain ⟨f1, f2, f3⟩ := hi.flag hn hw
  have ha : ∀ b, again b ≠ .reading := fun b => by cases b <;> simp
  unfold St.reads
  cases a <;> simp only [step] at hs <;> step_split hs <;> first | exact id | grind -ext

theorem rank_step (hn : n + 1 < 2 ^ 30) {s s' : St n} (hi : Inv s) (hw : waits s.wpc = true) {a : Act n}
    (hs : step s a = some s') : (∀ u, a.reader ≠ some u → s'.pc u = s.pc u) ∧
      ∀ t, a.reader = some t → rank (s'.pc t) + (if 0 < rank (s.pc t) then 1 else 0) ≤ rank (s.pc t) := by
  obtain ⟨f1, f2, f3⟩ := hi.flag hn hw
  have ha : ∀ b, rank (again b) = 0 := fun b => by cases b <;> rfl
  cases a <;> simp only [step] at hs <;> step_split hs <;>
    refine ⟨fun v hv => ?_, fun v hv => ?_⟩ <;> simp only [Act.reader] at * <;> grind [rank]

/-- A writer that has set its bit waits for at most `2 n` steps of readers. -/
theorem wait_bounded (hn : n + 1 < 2 ^ 30) {s : St n} (h : (sys n).Reach s) (as : List (Act n)) : moves s as ≤ 2 * n := by
  have key : ∀ (as : List (Act n)) (s : St n), Inv s → moves s as ≤ ∑ u, rank (s.pc u) := by
    intro as
    induction as with
    | nil => intro s _; exact Nat.zero_le _
    | cons a as ih =>
      intro s hi
      have hle : inWay s a ≤ ∑ u, rank (s.pc u) := by
        unfold inWay
        split
        · omega
        · next t _ =>
          have : rank (s.pc t) ≤ ∑ u, rank (s.pc u) :=
            Finset.single_le_sum (f := fun u => rank (s.pc u)) (fun _ _ => Nat.zero_le _) (Finset.mem_univ _)
          split <;> omega
      rw [moves]
      split
      · next hw =>
        split
        · next s' hs =>
          obtain ⟨h1, h2⟩ := rank_step hn hi hw hs
          have := ih s' (inv_step hn hi hs)
          cases hr : a.reader with
          | none =>
            have e : s'.pc = s.pc := funext fun u => h1 u (by rw [hr]; simp)
            rw [e] at this
            simp only [inWay, hr]
            omega
          | some t =>
            have h3 := sum_eq (fun u => rank (s.pc u)) (fun u => rank (s'.pc u)) t (fun u hu => by
              simp only [h1 u (by rw [hr]; simpa using Ne.symm hu)])
            have h4 := h2 t hr
            simp only [inWay, hr]
            omega
        · omega
      · exact Nat.zero_le _
  refine Nat.le_trans (key as s (inv_of_reach hn h)) ?_
  refine Nat.le_trans (Finset.sum_le_card_nsmul _ _ 2 fun t _ => ?_) (by simp [Nat.mul_comm])
  unfold rank; split <;> omega

/-- It keeps waiting, with the bit set, until it has the lock. -/
theorem wait_keeps {s s' : St n} (hw : waits s.wpc = true) {a : Act n} (hs : step s a = some s') : waits s'.wpc = true ∨ s'.writes := by
  unfold St.writes
  cases a <;> simp only [step] at hs <;> step_split hs <;> first | exact .inl hw | grind [waits]

/-- It enters within two steps once nobody is in the way. -/
theorem wait_ends (hn : n + 1 < 2 ^ 30) {s : St n} (h : (sys n).Reach s) (hw : waits s.wpc = true)
    (hr : ∀ u, rank (s.pc u) = 0) : ∃ k s', k ≤ 2 ∧ alone (fun s => step s .wrun) k s = some s' ∧ s'.writes := by
  have hi := inv_of_reach hn h
  have hz : cnt PC.inc s.pc = 0 := cnt_zero_of fun u => by
    have := hr u
    cases hp : s.pc u <;> rw [hp] at this <;> simp_all [rank, PC.inc]
  have hl : cnt id s.leak = 0 := cnt_zero_of fun u => by
    refine hi.lk ?_ u
    cases hp : s.wpc <;> rw [hp] at hw <;> simp_all [waits, WPC.lb]
  have hv : s.value = WB := by
    rw [hi.val, hz, hl, WB_eq]
    cases hp : s.wpc <;> rw [hp] at hw <;> simp_all [waits, WPC.wb, WPC.lb, WPC.rd]
  have hrm : WB &&& RM = 0 := by decide
  cases hp : s.wpc <;> rw [hp] at hw <;> try (cases hw; done)
  · exact ⟨1, { s with wpc := .writing }, by omega, by simp [alone, step, hp, hv, hrm], .inl rfl⟩
  · exact ⟨1, { s with value := WM, wpc := .latched }, by omega, by simp [alone, step, hp, hv], .inr rfl⟩
  · exact ⟨2, { s with value := WM, wpc := .latched }, by omega, by simp [alone, step, hp, hv], .inr rfl⟩

end Verif.Rw.Swlock

namespace Verif.Rw.Brlock

open Verif

variable {n : Nat}

/-- From the moment a writer (or a registration) has set the flag until it clears it, no reader acquires the lock: only readers that hold it
already nest. -/
theorem no_reader_enters {s s' : St n} (h : (sys n).Reach s) {w : Fin n} (hw : (s.pc w).own = true)
    {a : Act n} (hs : step s a = some s') (t : Fin n) : s'.reads t → s.reads t := by
  have hi := inv_of_reach h
  have hf := hi.writer_true hw
  have hnr := hi.nr
  have hq : ∀ u, s.pc u = .idle → s.nreaders u = s.depth u := fun u hu => by have := hnr u; rw [hu] at this; simpa [PC.tent] using this
  unfold St.reads
  cases a with
  | run u =>
    simp only [step] at hs
    cases hp : s.pc u with
    | link => rw [hp] at hs; cases hs; exact id
    | unlink => rw [hp] at hs; cases hs; exact id
    | rBack b => rw [hp] at hs; cases b <;> cases hs <;> exact id
    | rCheck b => rw [hp] at hs; simp only [hf, if_true] at hs; cases hs; exact id
    | _ => rw [hp] at hs; simp only [hf, if_true] at hs; (repeat' split at hs) <;> cases hs <;> exact id
  | giveup u => simp only [step] at hs; (repeat' split at hs) <;> cases hs <;> exact id
  | rlock u =>
    simp only [step] at hs
    (repeat' split at hs) <;> cases hs <;> first | exact id | skip
    next h1 h2 => intro h; have := hq u h1.1; by_cases e : t = u <;> grind
  | rtrylock u =>
    simp only [step] at hs
    (repeat' split at hs) <;> cases hs <;> first | exact id | skip
    next h1 h2 => intro h; have := hq u h1.1; by_cases e : t = u <;> grind
  | runlock u =>
    simp only [step] at hs
    (repeat' split at hs) <;> cases hs
    next h1 => intro h; by_cases e : t = u <;> grind
  | _ => simp only [step] at hs; (repeat' split at hs) <;> cases hs <;> exact id

end Verif.Rw.Brlock
