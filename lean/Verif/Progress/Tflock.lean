import Verif.Core.Drain
import Verif.Rw.TflockThm

/-!
# `ck_tflock_ticket`: no deadlock (C77)
-/

namespace Verif.Rw.Tflock

open Verif

variable {n : Nat}

/-- Steps of calls in progress, and releases. -/
def Act.own : Act n → Prop
  | .run _ | .wunlock _ | .runlock _ => True
  | _ => False

/-- Steps left without those of the CAS loops. -/
def PC.ra : PC → Nat
  | .idle => 0
  | .cas .ru _ | .cas .wu _ => 1
  | .load .ru | .load .wu => 2
  | .writing | .reading => 3
  | .wSpin _ | .rSpin _ => 4
  | .cas .wl _ | .cas .rl _ => 5
  | .load .wl | .load .rl => 6

/-- The snapshot is outdated. -/
def PC.stale (rq co : BitVec 32) : PC → Nat
  | .cas .wl x | .cas .rl x => if rq = x then 0 else 1
  | .cas .wu x | .cas .ru x => if co = x then 0 else 1
  | _ => 0

abbrev Adv (s : St n) : Prop :=
  ∃ x s', Act.own x ∧ (sys n).step s x = some s' ∧ tot PC.ra s'.pc ≤ tot PC.ra s.pc ∧
    (tot PC.ra s'.pc < tot PC.ra s.pc ∨ tot (PC.stale s'.request s'.completion) s'.pc ≤ tot (PC.stale s.request s.completion) s.pc ∧
      (tot (PC.stale s'.request s'.completion) s'.pc < tot (PC.stale s.request s.completion) s.pc ∨ 0 < 0))

theorem adv {s : St n} {t : Fin n} {p : PC} (a : Act n) (ha : Act.own a)
    (hs : (step s a).map (fun s' => s'.pc) = some (upd s.pc t p)) (h : p.ra < (s.pc t).ra) : Adv s := by
  rw [Option.map_eq_some_iff] at hs
  obtain ⟨s', hs, he⟩ := hs
  refine ⟨a, s', ha, hs, ?_⟩
  rw [he]
  exact ⟨tot_le (Nat.le_of_lt h), .inl (tot_lt h)⟩

theorem advS {s : St n} {t : Fin n} {p : PC} (a : Act n) (ha : Act.own a)
    (hs : (step s a).map (fun s' => (s'.pc, s'.request, s'.completion)) = some (upd s.pc t p, s.request, s.completion))
    (h : p.ra ≤ (s.pc t).ra) (h2 : p.stale s.request s.completion < (s.pc t).stale s.request s.completion) : Adv s := by
  rw [Option.map_eq_some_iff] at hs
  obtain ⟨s', hs, he⟩ := hs
  simp only [Prod.mk.injEq] at he
  refine ⟨a, s', ha, hs, ?_⟩
  rw [he.1, he.2.1, he.2.2]
  exact ⟨tot_le h, .inr ⟨tot_le (Nat.le_of_lt h2), .inl (tot_lt h2)⟩⟩

/-- Waiting. -/
def PC.spins : PC → Bool
  | .wSpin _ | .rSpin _ => true
  | _ => false

theorem runs {s : St n} {t : Fin n} (h0 : s.pc t ≠ .idle) (h1 : (s.pc t).spins = false) : Adv s := by
  cases hp : s.pc t with
  | idle => exact absurd hp h0
  | wSpin x => rw [hp] at h1; cases h1
  | rSpin x => rw [hp] at h1; cases h1
  | writing => exact adv (.wunlock t) (t := t) (p := .load .wu) trivial (by simp [step, hp]) (by rw [hp]; decide)
  | reading => exact adv (.runlock t) (t := t) (p := .load .ru) trivial (by simp [step, hp]) (by rw [hp]; decide)
  | load o =>
    cases o with
    | wl => exact adv (.run t) (t := t) (p := .cas .wl s.request) trivial (by simp [step, hp]) (by rw [hp]; simp [PC.ra])
    | rl => exact adv (.run t) (t := t) (p := .cas .rl s.request) trivial (by simp [step, hp]) (by rw [hp]; simp [PC.ra])
    | wu => exact adv (.run t) (t := t) (p := .cas .wu s.completion) trivial (by simp [step, hp]) (by rw [hp]; simp [PC.ra])
    | ru => exact adv (.run t) (t := t) (p := .cas .ru s.completion) trivial (by simp [step, hp]) (by rw [hp]; simp [PC.ra])
  | cas o x =>
    cases o with
    | wl =>
      by_cases he : s.request = x
      · exact adv (.run t) (t := t) (p := .wSpin x) trivial (by simp [step, hp, he]) (by rw [hp]; simp [PC.ra])
      · exact advS (.run t) (t := t) (p := .cas .wl s.request) trivial (by simp [step, hp, he]) (by rw [hp]; simp [PC.ra])
          (by rw [hp]; simp [PC.stale, he])
    | rl =>
      by_cases he : s.request = x
      · exact adv (.run t) (t := t) (p := .rSpin (x &&& 0xffff#32)) trivial (by simp [step, hp, he]) (by rw [hp]; simp [PC.ra])
      · exact advS (.run t) (t := t) (p := .cas .rl s.request) trivial (by simp [step, hp, he]) (by rw [hp]; simp [PC.ra])
          (by rw [hp]; simp [PC.stale, he])
    | wu =>
      by_cases he : s.completion = x
      · exact adv (.run t) (t := t) (p := .idle) trivial (by simp [step, hp, he]) (by rw [hp]; simp [PC.ra])
      · exact advS (.run t) (t := t) (p := .cas .wu s.completion) trivial (by simp [step, hp, he]) (by rw [hp]; simp [PC.ra])
          (by rw [hp]; simp [PC.stale, he])
    | ru =>
      by_cases he : s.completion = x
      · exact adv (.run t) (t := t) (p := .idle) trivial (by simp [step, hp, he]) (by rw [hp]; simp [PC.ra])
      · exact advS (.run t) (t := t) (p := .cas .ru s.completion) trivial (by simp [step, hp, he]) (by rw [hp]; simp [PC.ra])
          (by rw [hp]; simp [PC.stale, he])

/-- C77: in every reachable state all calls in progress can be completed and all locks be released. -/
theorem no_deadlock (hn : n < 2 ^ 15) {s : St n} (h : (sys n).Reach s) :
    (sys n).Drains Act.own (fun s => ∀ t, s.pc t = .idle) s := by
  refine Sys.drains3 (J := fun _ => True) (fun s => tot PC.ra s.pc) (fun s => tot (PC.stale s.request s.completion) s.pc) (fun _ => 0)
    (fun _ _ _ _ _ _ _ => trivial) (fun s h _ => ?_) h trivial
  by_cases hid : ∀ t, s.pc t = .idle
  · exact .inl hid
  refine .inr ?_
  by_cases h1 : ∃ t, s.pc t ≠ .idle ∧ (s.pc t).spins = false
  · obtain ⟨t, h2, h3⟩ := h1
    exact runs h2 h3
  have hall : ∀ t, s.pc t = .idle ∨ (s.pc t).spins = true := fun t => by
    by_cases e : s.pc t = .idle
    · exact .inl e
    · right; simpa using fun e2 => h1 ⟨t, e, e2⟩
  -- the oldest request
  obtain ⟨t, ht, hmin⟩ : ∃ t, s.pc t ≠ .idle ∧ ∀ u, s.pc u ≠ .idle → s.ix t ≤ s.ix u := by
    obtain ⟨t0, ht0⟩ := not_forall.1 hid
    have := (Finset.univ.filter (fun t => s.pc t ≠ .idle)).exists_min_image s.ix ⟨t0, by simpa using ht0⟩
    obtain ⟨t, h1, h2⟩ := this
    exact ⟨t, by simpa using h1, fun u hu => h2 u (by simpa using hu)⟩
  have hreq : ∀ u, s.wreq u ∨ s.rreq u → s.pc u ≠ .idle := by
    rintro u (h | h) e <;> simp [St.wreq, St.rreq, St.writes, St.reads, e] at h
  cases hp : s.pc t with
  | wSpin p =>
    obtain ⟨s', hs, hw⟩ := writer_progress hn h hp (fun u hu => hmin u (hreq u hu))
    simp only [sys, step, hp] at hs
    split at hs
    · next he =>
      exact adv (.run t) (t := t) (p := .writing) trivial (by simp only [step, hp]; rw [if_pos he]; rfl) (by rw [hp]; simp [PC.ra])
    · cases hs
      simp [St.writes, hp] at hw
  | rSpin p =>
    obtain ⟨s', hs, hw⟩ := reader_progress hn h hp (fun u hu => hmin u (hreq u (.inl hu)))
    simp only [sys, step, hp] at hs
    split at hs
    · next he =>
      exact adv (.run t) (t := t) (p := .reading) trivial (by simp only [step, hp]; rw [if_pos he]; rfl) (by rw [hp]; simp [PC.ra])
    · cases hs
      simp [St.reads, hp] at hw
  | idle => exact absurd hp ht
  | _ => rcases hall t with e | e <;> rw [hp] at e <;> cases e

/-- Reader 0 inside, writer 1 waits, reader 2 waits behind the writer, thread 3 in the CAS loop with an outdated word. -/
example : ((sys 4).run (initSt 4)
    [.wlock 3, .run 3, .rlock 0, .run 0, .run 0, .run 0, .wlock 1, .run 1, .run 1, .run 1, .rlock 2, .run 2, .run 2]).map
    (fun s => (s.pc 0, s.pc 1, s.pc 2, s.pc 3)) =
    some (.reading, .wSpin 0x10000, .rSpin 1, .cas .wl 0) := by decide

end Verif.Rw.Tflock
