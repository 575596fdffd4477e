import Verif.Rw.Rwlock

/-! # C09: `ck_rwlock` -/

namespace Verif.Rw.Rwlock

open Spec

variable {n : Nat}

/-- Threads that own the writer word. -/
@[grind] def PC.w : PC → Bool
  | .wReaders _ | .wBack | .writing | .dgStore => true
  | _ => false

/-- Threads counted in the reader word. -/
@[grind] def PC.r : PC → Bool
  | .rCheck _ | .rDec _ | .reading | .dgStore => true
  | _ => false

structure Inv (s : St n) : Prop where
  w : s.writer.toNat = cnt PC.w s.pc
  w1 : cnt PC.w s.pc ≤ 1
  r : s.readers.toNat = cnt PC.r s.pc
  ex : ∀ t u, s.pc t = .writing → s.pc u ≠ .reading
  dg : ∀ t u, s.pc t = .writing → s.pc u ≠ .dgStore

theorem zero_iff {v : BitVec 32} : v = 0 ↔ v.toNat = 0 := by
  constructor
  · rintro rfl; rfl
  · intro h; apply BitVec.eq_of_toNat_eq; simpa using h

theorem inv_step (hn : n < 2 ^ 32) {s s' : St n} {a : Act n} (hi : Inv s)
    (hs : step s a = some s') : Inv s' := by
  obtain ⟨h1, h2, h3, h4, h5⟩ := hi
  have hw := fun t v => cnt_update PC.w s.pc t v
  have hr := fun t v => cnt_update PC.r s.pc t v
  have hw0 := fun h t => cnt_eq_zero (P := PC.w) (f := s.pc) h t
  have hr0 := fun h t => cnt_eq_zero (P := PC.r) (f := s.pc) h t
  have hwu := fun t u => cnt_eq_one_unique (P := PC.w) (f := s.pc) h2 (t := t) (u := u)
  have hwp := fun t => cnt_pos (P := PC.w) (f := s.pc) t
  have hrp := fun t => cnt_pos (P := PC.r) (f := s.pc) t
  have hrl := fun t => cnt_lt_of (P := PC.r) (f := s.pc) (t := t)
  have e0 : (0 : BitVec 32).toNat = 0 := rfl
  have e1 : (1 : BitVec 32).toNat = 1 := rfl
  have ez := @zero_iff s.writer
  have ez2 := @zero_iff s.readers
  have ep : s.readers.toNat + 1 < 2 ^ 32 → (s.readers + 1).toNat = s.readers.toNat + 1 := by
    intro h; simp only [BitVec.toNat_add, e1]; omega
  have em : 1 ≤ s.readers.toNat → (s.readers - 1).toNat = s.readers.toNat - 1 := by
    intro h; have := s.readers.isLt; simp only [BitVec.toNat_sub, e1]; omega
  rcases a with t | t | t | t | t | t | t | t <;> simp only [step] at hs <;> step_split hs <;>
    constructor <;> grind

theorem inv_of_reach (hn : n < 2 ^ 32) {s : St n} (h : (sys n).Reach s) : Inv s := by
  refine h.invariant (I := Inv) ?_ (fun _ _ _ => inv_step hn)
  rintro s rfl
  have hw : cnt PC.w (initSt n).pc = 0 := cnt_zero_of fun _ => rfl
  have hr : cnt PC.r (initSt n).pc = 0 := cnt_zero_of fun _ => rfl
  constructor
  · rw [hw]; rfl
  · omega
  · rw [hr]; rfl
  · intro t u h; cases h
  · intro t u h; cases h

/-! ## Properties -/

/-- C09: a writer is alone (for fewer than 2^32 threads).  As a downgrading thread counts as a
reader from its first access on, no other writer can enter between write and read ownership. -/
theorem rw_exclusion (hn : n < 2 ^ 32) {s : St n} (h : (sys n).Reach s) :
    RwEx s.reads s.writes := by
  have hi := inv_of_reach hn h
  refine ⟨fun t u ht hu => ?_, fun t u ht hu => ?_⟩
  · exact cnt_eq_one_unique (P := PC.w) (f := s.pc) hi.w1 (by rw [ht]; rfl) (by rw [hu]; rfl)
  · rcases hu with hu | hu
    · exact hi.ex t u ht hu
    · exact hi.dg t u ht hu

/-- C09: a downgrade ends with read ownership. -/
theorem downgrade_keeps {s s1 s2 : St n} {t : Fin n}
    (h1 : (sys n).step s (.downgrade t) = some s1) (h2 : (sys n).step s1 (.run t) = some s2) :
    s.writes t ∧ s1.reads t ∧ s2.reads t := by
  simp only [sys, step] at h1
  step_split h1
  next hp =>
  simp only [sys, step, upd_same, Option.some.injEq] at h2
  subst h2
  exact ⟨hp, .inr (by simp), .inl (by simp)⟩

/-- C09: nothing is leaked: when no operation runs and nobody holds the lock it is as initialised;
in general a lock without readers or writers in any phase has both words zero. -/
theorem quiescent (hn : n < 2 ^ 32) {s : St n} (h : (sys n).Reach s)
    (hq : ∀ t, s.pc t = .idle) : s = initSt n := by
  have hi := inv_of_reach hn h
  have hw : cnt PC.w s.pc = 0 := cnt_zero_of fun t => by rw [hq]; rfl
  have hr : cnt PC.r s.pc = 0 := cnt_zero_of fun t => by rw [hq]; rfl
  have e1 := zero_iff.2 (hi.w.trans hw)
  have e2 := zero_iff.2 (hi.r.trans hr)
  have e3 : s.pc = fun _ => .idle := funext hq
  cases s
  simp_all [initSt]

/-- C09: the predicates answer true while the lock is held. -/
theorem locked_of_held (hn : n < 2 ^ 32) {s : St n} (h : (sys n).Reach s) (t : Fin n) :
    (s.writes t → lockedWriter s = true ∧ locked s = true) ∧
    (s.reads t → lockedReader s = true ∧ locked s = true) := by
  have hi := inv_of_reach hn h
  have hor : ∀ a b : BitVec 32, a ||| b = 0 → a = 0 ∧ b = 0 := by
    intro a b h
    have e : ∀ i, (a ||| b).getLsbD i = false := by rw [h]; simp
    simp only [BitVec.getLsbD_or, Bool.or_eq_false_iff] at e
    exact ⟨BitVec.eq_of_getLsbD_eq (by intro i _; simp [(e i).1]),
      BitVec.eq_of_getLsbD_eq (by intro i _; simp [(e i).2])⟩
  refine ⟨fun ht => ?_, fun ht => ?_⟩
  · have h1 : 1 ≤ cnt PC.w s.pc := cnt_pos t (by rw [ht]; rfl)
    have : s.writer ≠ 0 := by rw [Ne, zero_iff, hi.w]; omega
    simp only [lockedWriter, locked, decide_eq_true_eq]
    exact ⟨this, fun e => this (hor _ _ e).2⟩
  · have h1 : 1 ≤ cnt PC.r s.pc := cnt_pos t (by rcases ht with h | h <;> rw [h] <;> rfl)
    have : s.readers ≠ 0 := by rw [Ne, zero_iff, hi.r]; omega
    simp only [lockedReader, locked, decide_eq_true_eq]
    exact ⟨this, fun e => this (hor _ _ e).1⟩

/-- C09: a writer waiting for the lock enters with two steps when no other thread is in the way. -/
theorem write_progress (hn : n < 2 ^ 32) {s : St n} (h : (sys n).Reach s) {t : Fin n} {b : Bool}
    (ht : s.pc t = .wFas b) (ho : ∀ u, u ≠ t → s.pc u = .idle) :
    ∃ s', (sys n).run s [.run t, .run t] = some s' ∧ s'.writes t := by
  have hi := inv_of_reach hn h
  have hw : cnt PC.w s.pc = 0 := cnt_zero_of fun u => by
    by_cases e : u = t
    · rw [e, ht]; rfl
    · rw [ho u e]; rfl
  have hr : cnt PC.r s.pc = 0 := cnt_zero_of fun u => by
    by_cases e : u = t
    · rw [e, ht]; rfl
    · rw [ho u e]; rfl
  have e1 := zero_iff.2 (hi.w.trans hw)
  have e2 := zero_iff.2 (hi.r.trans hr)
  exact ⟨_, by simp [Sys.run, sys, step, ht, e1, e2]; rfl, by simp [St.writes]⟩

/-- C09: readers do not exclude each other: with no writer in any phase a reader enters with three
steps. -/
theorem read_progress (hn : n < 2 ^ 32) {s : St n} (h : (sys n).Reach s) {t : Fin n} {b : Bool}
    (ht : s.pc t = .rLoad b) (ho : ∀ u, (s.pc u).w = false) :
    ∃ s', (sys n).run s [.run t, .run t, .run t] = some s' ∧ s'.reads t := by
  have hi := inv_of_reach hn h
  have hw : cnt PC.w s.pc = 0 := cnt_zero_of ho
  have e1 := zero_iff.2 (hi.w.trans hw)
  exact ⟨_, by simp [Sys.run, sys, step, ht, e1]; rfl, by simp [St.reads]⟩

/-- Thread 0 reads, reader 1 is sent back by writer 2, which waits for thread 0, enters, then downgrades and thread 0 joins. -/
example : ((sys 3).run (initSt 3)
    [.rlock 0, .run 0, .run 0, .run 0, .rlock 1, .run 1, .run 1, .wlock 2, .run 2, .run 1, .run 1,
     .run 2, .runlock 0, .run 2, .rtrylock 0, .run 0, .downgrade 2, .run 2, .rlock 0, .run 0,
     .run 0, .run 0]).map
    (fun s => (s.pc 0, s.pc 1, s.pc 2, s.readers)) = some (.reading, .rLoad false, .reading, 2) := by
  decide

end Verif.Rw.Rwlock
