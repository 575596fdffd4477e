import Verif.Rw.RwRecursive

/-! # C10: `ck_rwlock_recursive` -/

namespace Verif.Rw.RwRecursive

open Spec

variable {n : Nat} {tid : Fin n → BitVec 32}

/-- Threads that own the writer word while their depth is 0. -/
@[grind] def PC.w : PC → Bool
  | .wReaders _ | .wBack | .uStore => true
  | _ => false

/-- Threads counted in the reader word. -/
@[grind] def PC.r : PC → Bool
  | .rCheck _ | .rDec _ | .reading => true
  | _ => false

/-- Read side or `wCas`. -/
@[grind] def PC.rs : PC → Bool
  | .rLoad _ | .rInc _ | .rCheck _ | .rDec _ | .reading | .wCas _ | .wReaders _ | .wBack => true
  | _ => false

/-- Acquiring for writing. -/
@[grind] def PC.wl : PC → Bool
  | .wLoad _ | .wInc | .wCas _ | .wReaders _ => true
  | _ => false

structure Inv (tid : Fin n → BitVec 32) (s : St n) : Prop where
  /-- whoever is a (would-be) owner has its id in the word -/
  ow : ∀ t, (s.pc t).w = true ∨ s.pc t = .wInc ∨ 0 < s.depth t → s.writer = tid t
  no : ∀ t, s.writer = tid t → (s.pc t).w = true ∨ s.pc t = .wInc ∨ 0 < s.depth t
  some : s.writer = 0 ∨ ∃ t, s.writer = tid t
  wc : ∀ t, s.writer = tid t → s.wc.toNat = s.depth t
  wc0 : s.writer = 0 → s.wc.toNat = 0
  r : s.readers.toNat = cnt PC.r s.pc
  rs : ∀ t, (s.pc t).rs = true ∨ s.pc t = .uStore → s.depth t = 0
  ud : ∀ t, s.pc t = .uDec → 0 < s.depth t
  dl : ∀ t, s.depth t < 2 ^ 32
  dl2 : ∀ t, (s.pc t).wl = true → s.depth t + 1 < 2 ^ 32
  ex : ∀ t u, 0 < s.depth t ∨ s.pc t = .wInc → s.pc u ≠ .reading

theorem zero_iff {v : BitVec 32} : v = 0 ↔ v.toNat = 0 := by
  constructor
  · rintro rfl; rfl
  · intro h; apply BitVec.eq_of_toNat_eq; simpa using h

set_option maxHeartbeats 1000000 in
theorem inv_step (hn : n < 2 ^ 32) (h0 : ∀ t, tid t ≠ 0) (hinj : ∀ t u, tid t = tid u → t = u)
    {s s' : St n} {a : Act n} (hi : Inv tid s)
    (hs : step tid s a = Option.some s') : Inv tid s' := by
  obtain ⟨h1, h2, h3, h4, h5, h6, h7, h8, h9, h10, h11⟩ := hi
  have hr := fun t v => cnt_update PC.r s.pc t v
  have hr0 := fun h t => cnt_eq_zero (P := PC.r) (f := s.pc) h t
  have hrp := fun t => cnt_pos (P := PC.r) (f := s.pc) t
  have hrl := fun t => cnt_lt_of (P := PC.r) (f := s.pc) (t := t)
  have e0 : (0 : BitVec 32).toNat = 0 := rfl
  have e1 : (1 : BitVec 32).toNat = 1 := rfl
  have ez := @zero_iff s.readers
  have ez2 := @zero_iff (s.wc - 1)
  have hadd : ∀ v : BitVec 32, v.toNat + 1 < 2 ^ 32 → (v + 1).toNat = v.toNat + 1 := by
    intro v h; simp only [BitVec.toNat_add, e1]; omega
  have hsub : ∀ v : BitVec 32, 1 ≤ v.toNat → (v - 1).toNat = v.toNat - 1 := by
    intro v h; have := v.isLt; simp only [BitVec.toNat_sub, e1]; omega
  have ep := hadd s.readers
  have em := hsub s.readers
  have cp := hadd s.wc
  have cm := hsub s.wc
  clear hadd hsub
  rcases a with t | t | t | t | t | t | t <;> simp only [step] at hs <;> step_split hs <;>
    refine ⟨by fin h1 h2 h0 hinj h4 h5 h7 h8, by fin h1 h2 h0 hinj h4 h5 h7 h8 ez2 cm, by fin h3 h0, by fin h4 h5 h7 h1 h2 hinj h10 h8 cp cm h9 h0, by fin h5 h4 h0 h7 h1 ez2 cm h8, by fin h6 hr hrp hrl ep em hn,
      by fin h7 h8 h4 h1 h2 ez2 cm, by fin h8, by fin h9 h10 , by fin h10, by fin h11 h7 ez h6 hr0 h1 h2 h0⟩

theorem inv_of_reach (hn : n < 2 ^ 32) (h0 : ∀ t, tid t ≠ 0)
    (hinj : ∀ t u, tid t = tid u → t = u) {s : St n} (h : (sys n tid).Reach s) : Inv tid s := by
  refine h.invariant (I := Inv tid) ?_ (fun _ _ _ => inv_step hn h0 hinj)
  rintro s rfl
  have hr : cnt PC.r (initSt n).pc = 0 := cnt_zero_of fun _ => rfl
  constructor
  case r => rw [hr]; rfl
  all_goals simp [initSt, PC.w, PC.rs, PC.wl]
  intro t h; exact absurd h.symm (h0 t)

/-! ## Properties -/

/-- C10: a thread with more write locks than unlocks excludes all other writers and all readers
(fewer than 2^32 threads, distinct non-zero ids). -/
theorem rw_exclusion (hn : n < 2 ^ 32) (h0 : ∀ t, tid t ≠ 0)
    (hinj : ∀ t u, tid t = tid u → t = u) {s : St n} (h : (sys n tid).Reach s) :
    RwEx s.reads s.writes := by
  have hi := inv_of_reach hn h0 hinj h
  refine ⟨fun t u ht hu => ?_, fun t u ht hu => ?_⟩
  · exact hinj t u ((hi.ow t (.inr (.inr ht))).symm.trans (hi.ow u (.inr (.inr hu))))
  · exact hi.ex t u (.inl ht) hu

/-- C10: between operations the lock word names `t` exactly if `t` has performed more successful
write locks than unlocks: no unlock releases early, the last one does release. -/
theorem balanced (hn : n < 2 ^ 32) (h0 : ∀ t, tid t ≠ 0)
    (hinj : ∀ t u, tid t = tid u → t = u) {s : St n} (h : (sys n tid).Reach s) {t : Fin n}
    (ht : s.pc t = .idle) : s.writer = tid t ↔ 0 < s.depth t := by
  have hi := inv_of_reach hn h0 hinj h
  refine ⟨fun hw => ?_, fun hd => hi.ow t (.inr (.inr hd))⟩
  rcases hi.no t hw with h1 | h1 | h1
  · rw [ht] at h1; cases h1
  · rw [ht] at h1; cases h1
  · exact h1

/-- C10: a nested acquisition by the owner succeeds with two steps, whatever the others do. -/
theorem reenter (hn : n < 2 ^ 32) (h0 : ∀ t, tid t ≠ 0)
    (hinj : ∀ t u, tid t = tid u → t = u) {s : St n} (h : (sys n tid).Reach s) {t : Fin n} {b : Bool}
    (ht : s.pc t = .wLoad b) (hd : 0 < s.depth t) :
    ∃ s', (sys n tid).run s [.run t, .run t] = some s' ∧ s'.pc t = .idle ∧
      s'.depth t = s.depth t + 1 := by
  have hi := inv_of_reach hn h0 hinj h
  have hw := hi.ow t (.inr (.inr hd))
  exact ⟨_, by simp [Sys.run, sys, step, ht, hw]; rfl, by simp, by simp⟩

/-- C10: the depth counter of the code never wraps: it is the owner's depth. -/
theorem wc_eq_depth (hn : n < 2 ^ 32) (h0 : ∀ t, tid t ≠ 0)
    (hinj : ∀ t u, tid t = tid u → t = u) {s : St n} (h : (sys n tid).Reach s) {t : Fin n}
    (ht : s.writes t) : s.wc.toNat = s.depth t := by
  have hi := inv_of_reach hn h0 hinj h
  exact hi.wc t (hi.ow t (.inr (.inr ht)))

/-- C10: when nobody is inside or running the lock is as initialised. -/
theorem quiescent (hn : n < 2 ^ 32) (h0 : ∀ t, tid t ≠ 0)
    (hinj : ∀ t u, tid t = tid u → t = u) {s : St n} (h : (sys n tid).Reach s)
    (hq : ∀ t, s.pc t = .idle ∧ s.depth t = 0) : s = initSt n := by
  have hi := inv_of_reach hn h0 hinj h
  have hr : cnt PC.r s.pc = 0 := cnt_zero_of fun t => by rw [(hq t).1]; rfl
  have e2 := zero_iff.2 (hi.r.trans hr)
  have e1 : s.writer = 0 := by
    rcases hi.some with h | ⟨t, h⟩
    · exact h
    · have := (balanced hn h0 hinj ‹_› (hq t).1).1 h
      have := (hq t).2
      omega
  have e4 := zero_iff.2 (hi.wc0 e1)
  have e3 : s.pc = fun _ => .idle := funext fun t => (hq t).1
  have e5 : s.depth = fun _ => 0 := funext fun t => (hq t).2
  cases s
  simp_all [initSt]

/-- Thread 0 (id 1) locks twice and unlocks once; thread 1 (id 2) fails to lock; thread 0 unlocks and
thread 1 gets in. -/
example : ((sys 2 fun t => BitVec.ofNat 32 (t.val + 1)).run (initSt 2)
    [.wlock 0, .run 0, .run 0, .run 0, .run 0, .wtrylock 0, .run 0, .run 0, .wunlock 0, .run 0,
     .wtrylock 1, .run 1, .run 1, .wunlock 0, .run 0, .run 0, .wlock 1, .run 1, .run 1, .run 1,
     .run 1]).map
    (fun s => (s.pc 0, s.pc 1, s.depth 0, s.depth 1, s.wc)) = some (.idle, .idle, 0, 1, 1) := by
  decide

end Verif.Rw.RwRecursive
