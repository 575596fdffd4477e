import Verif.Core.Drain
import Verif.Rw.RwlockThm

/-!
# `ck_rwlock`: no deadlock (C77)
-/

namespace Verif.Rw.Rwlock

open Verif

variable {n : Nat}

/-- Steps of calls in progress, and releases. -/
def Act.own : Act n → Prop
  | .run _ | .wunlock _ | .runlock _ => True
  | _ => False

def PC.ra : PC → Nat
  | .idle => 0
  | .reading | .wBack => 1
  | .writing | .dgStore => 2
  | _ => 4

def PC.rb : PC → Nat
  | .wFas _ => 1
  | _ => 0

/-- Steps of readers; `w`: the writer word is set. -/
def PC.rc (w : Bool) : PC → Nat
  | .rInc _ => if w then 4 else 2
  | .rCheck _ => if w then 3 else 1
  | .rDec _ => if w then 2 else 4
  | .rLoad _ => if w then 1 else 3
  | _ => 0

theorem adv {s : St n} {t : Fin n} {p : PC} (a : Act n) (ha : Act.own a)
    (hs : (step s a).map (fun s' => s'.pc) = some (upd s.pc t p))
    (h : p.ra < (s.pc t).ra ∨ p.ra ≤ (s.pc t).ra ∧ p.rb < (s.pc t).rb) :
    ∃ x s', Act.own x ∧ (sys n).step s x = some s' ∧ tot PC.ra s'.pc ≤ tot PC.ra s.pc ∧
      (tot PC.ra s'.pc < tot PC.ra s.pc ∨ tot PC.rb s'.pc ≤ tot PC.rb s.pc ∧ (tot PC.rb s'.pc < tot PC.rb s.pc ∨
        tot (PC.rc (s'.writer != 0)) s'.pc < tot (PC.rc (s.writer != 0)) s.pc)) := by
  rw [Option.map_eq_some_iff] at hs
  obtain ⟨s', hs, he⟩ := hs
  refine ⟨a, s', ha, hs, ?_⟩
  rw [he]
  rcases h with h | ⟨h1, h2⟩
  · exact ⟨tot_le (Nat.le_of_lt h), .inl (tot_lt h)⟩
  · exact ⟨tot_le h1, .inr ⟨tot_le (Nat.le_of_lt h2), .inl (tot_lt h2)⟩⟩

theorem advC {s : St n} {t : Fin n} {p : PC} (a : Act n) (ha : Act.own a)
    (hs : (step s a).map (fun s' => (s'.pc, s'.writer)) = some (upd s.pc t p, s.writer))
    (h : p.ra ≤ (s.pc t).ra ∧ p.rb ≤ (s.pc t).rb ∧ p.rc (s.writer != 0) < (s.pc t).rc (s.writer != 0)) :
    ∃ x s', Act.own x ∧ (sys n).step s x = some s' ∧ tot PC.ra s'.pc ≤ tot PC.ra s.pc ∧
      (tot PC.ra s'.pc < tot PC.ra s.pc ∨ tot PC.rb s'.pc ≤ tot PC.rb s.pc ∧ (tot PC.rb s'.pc < tot PC.rb s.pc ∨
        tot (PC.rc (s'.writer != 0)) s'.pc < tot (PC.rc (s.writer != 0)) s.pc)) := by
  rw [Option.map_eq_some_iff] at hs
  obtain ⟨s', hs, he⟩ := hs
  simp only [Prod.mk.injEq] at he
  refine ⟨a, s', ha, hs, ?_⟩
  rw [he.1, he.2]
  exact ⟨tot_le h.1, .inr ⟨tot_le h.2.1, .inr (tot_lt h.2.2)⟩⟩

/-- C77: in every reachable state all calls in progress can be completed and all locks be released, whatever trylocks and
downgrades happened. -/
theorem no_deadlock (hn : n < 2 ^ 32) {s : St n} (h : (sys n).Reach s) :
    (sys n).Drains Act.own (fun s => ∀ t, s.pc t = .idle) s := by
  refine Sys.drains3 (J := fun _ => True) (fun s => tot PC.ra s.pc) (fun s => tot PC.rb s.pc)
    (fun s => tot (PC.rc (s.writer != 0)) s.pc) (fun _ _ _ _ _ _ _ => trivial) (fun s h _ => ?_) h trivial
  have hi := inv_of_reach hn h
  by_cases hid : ∀ t, s.pc t = .idle
  · exact .inl hid
  refine .inr ?_
  by_cases h1 : ∃ t, s.pc t = .reading
  · obtain ⟨t, ht⟩ := h1
    exact adv (.runlock t) (t := t) (p := .idle) trivial (by simp [step, ht]) (by rw [ht]; decide)
  by_cases h2 : ∃ t, s.pc t = .writing
  · obtain ⟨t, ht⟩ := h2
    exact adv (.wunlock t) (t := t) (p := .idle) trivial (by simp [step, ht]) (by rw [ht]; decide)
  by_cases h3 : ∃ t, s.pc t = .wBack
  · obtain ⟨t, ht⟩ := h3
    exact adv (.run t) (t := t) (p := .idle) trivial (by simp [step, ht]) (by rw [ht]; decide)
  by_cases h4 : ∃ t, s.pc t = .dgStore
  · obtain ⟨t, ht⟩ := h4
    exact adv (.run t) (t := t) (p := .reading) trivial (by simp [step, ht]) (by rw [ht]; decide)
  by_cases h5 : ∃ t b, s.pc t = .wReaders b
  · obtain ⟨t, b, ht⟩ := h5
    have hw : s.writer ≠ 0 := by
      have := cnt_pos (P := PC.w) (f := s.pc) t (by rw [ht]; rfl)
      rw [Ne, zero_iff, hi.w]; omega
    have hw' : ¬ s.writer = 0#32 := hw
    by_cases h0 : s.readers = 0
    · exact adv (.run t) (t := t) (p := .writing) trivial (by simp [step, ht, h0]) (by rw [ht]; left; show 2 < 4; omega)
    · have : ∃ u, (s.pc u).r = true := by
        by_contra hc
        refine h0 (zero_iff.2 ?_)
        rw [hi.r]
        exact cnt_zero_of fun u => by simpa using fun e => hc ⟨u, e⟩
      obtain ⟨u, hu⟩ := this
      cases hp : s.pc u with
      | rCheck b =>
        exact advC (.run u) (t := u) (p := .rDec b) trivial (by simp [step, hp, hw'])
          (by rw [hp]; simp [PC.ra, PC.rb, PC.rc, hw'])
      | rDec b =>
        cases b with
        | true => exact adv (.run u) (t := u) (p := .idle) trivial (by simp [step, hp]) (by rw [hp]; left; show 0 < 4; omega)
        | false =>
          exact advC (.run u) (t := u) (p := .rLoad false) trivial (by simp [step, hp])
            (by rw [hp]; simp [PC.ra, PC.rb, PC.rc, hw'])
      | reading => exact absurd ⟨u, hp⟩ h1
      | dgStore => exact absurd ⟨u, hp⟩ h4
      | _ => rw [hp] at hu; cases hu
  have hw : s.writer = 0 := zero_iff.2 (by
    rw [hi.w]
    refine cnt_zero_of fun u => ?_
    cases hp : s.pc u with
    | wReaders b => exact absurd ⟨u, b, hp⟩ h5
    | writing => exact absurd ⟨u, hp⟩ h2
    | wBack => exact absurd ⟨u, hp⟩ h3
    | dgStore => exact absurd ⟨u, hp⟩ h4
    | _ => rfl)
  obtain ⟨t, ht⟩ := not_forall.1 hid
  cases hp : s.pc t with
  | idle => exact absurd hp ht
  | reading => exact absurd ⟨t, hp⟩ h1
  | writing => exact absurd ⟨t, hp⟩ h2
  | wBack => exact absurd ⟨t, hp⟩ h3
  | dgStore => exact absurd ⟨t, hp⟩ h4
  | wReaders b => exact absurd ⟨t, b, hp⟩ h5
  | wFas b =>
    exact adv (.run t) (t := t) (p := .wReaders b) trivial (by simp [step, hp, hw]) (by rw [hp]; simp [PC.ra, PC.rb])
  | rLoad b =>
    exact advC (.run t) (t := t) (p := .rInc b) trivial (by simp [step, hp, hw]) (by rw [hp]; simp [PC.ra, PC.rb, PC.rc, hw])
  | rInc b =>
    exact advC (.run t) (t := t) (p := .rCheck b) trivial (by simp [step, hp]) (by rw [hp]; simp [PC.ra, PC.rb, PC.rc, hw])
  | rCheck b =>
    exact adv (.run t) (t := t) (p := .reading) trivial (by simp [step, hp, hw]) (by rw [hp]; left; show 1 < 4; omega)
  | rDec b =>
    cases b with
    | true => exact adv (.run t) (t := t) (p := .idle) trivial (by simp [step, hp]) (by rw [hp]; left; show 0 < 4; omega)
    | false =>
      exact advC (.run t) (t := t) (p := .rLoad false) trivial (by simp [step, hp])
        (by rw [hp]; simp [PC.ra, PC.rb, PC.rc, hw])

/-- A writer waits for reader 0, reader 1 has incremented and will find the writer, writer 2 waits for the word. -/
example : ((sys 4).run (initSt 4) [.rlock 0, .run 0, .run 0, .run 0, .rlock 1, .run 1, .wlock 3, .run 3, .run 1, .wlock 2,
      .run 2]).map (fun s => (s.pc 0, s.pc 1, s.pc 2, s.pc 3)) =
    some (.reading, .rCheck false, .wFas false, .wReaders false) := by decide

end Verif.Rw.Rwlock
