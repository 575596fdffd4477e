import Verif.Core.Drain
import Verif.Spin.SimpleThm
import Verif.Spin.TicketThm
import Verif.Spin.AndersonThm
import Verif.Spin.ClhThm
import Verif.Spin.McsThm

/-!
# Spinlocks: no deadlock (C78)

In every reachable state there is a schedule of steps of calls in progress and of releases (`Act.own`) after which all threads
are outside: no wake-up is lost, and the lock word never stays taken without an owner.
-/

namespace Verif.Spin

open Verif

variable {n : Nat}

/-- Steps of calls in progress, and releases. -/
def Act.own : Act n → Prop
  | .run _ | .unlock _ => True
  | _ => False

/-- Steps left. -/
def PC.rank : PC → Nat
  | .idle => 0
  | .inside => 1
  | .rmw => 2
  | .spin => 3

/-- C78 (FAS). -/
theorem Fas.no_deadlock {s : St n} (h : (Fas.sys n).Reach s) :
    (Fas.sys n).Drains Act.own (fun s => ∀ t, s.pc t = .idle) s := by
  refine Sys.drains (fun s => tot PC.rank s.pc) (fun s h => ?_) h
  by_cases hid : ∀ t, s.pc t = .idle
  · exact .inl hid
  refine .inr ?_
  by_cases hin : ∃ t, s.pc t = .inside
  · obtain ⟨t, ht⟩ := hin
    refine ⟨.unlock t, _, trivial, (by simp only [sys, step]; rw [if_pos ht]), ?_⟩
    exact tot_lt (by rw [ht]; decide)
  have hv : s.value = 0 := by
    have := locked_iff h
    simp only [locked, St.holds] at this
    grind
  obtain ⟨t, ht⟩ := not_forall.1 hid
  cases hp : s.pc t with
  | idle => exact absurd hp ht
  | inside => exact absurd ⟨t, hp⟩ hin
  | rmw =>
    refine ⟨.run t, _, trivial, (by simp only [sys, step, hp]; rfl), ?_⟩
    exact tot_lt (by rw [hp, hv]; decide)
  | spin =>
    refine ⟨.run t, _, trivial, (by simp only [sys, step, hp]; rfl), ?_⟩
    exact tot_lt (by rw [hp, hv]; decide)

/-- C78 (CAS). -/
theorem Cas.no_deadlock {s : St n} (h : (Cas.sys n).Reach s) :
    (Cas.sys n).Drains Act.own (fun s => ∀ t, s.pc t = .idle) s := by
  refine Sys.drains (fun s => tot PC.rank s.pc) (fun s h => ?_) h
  by_cases hid : ∀ t, s.pc t = .idle
  · exact .inl hid
  refine .inr ?_
  by_cases hin : ∃ t, s.pc t = .inside
  · obtain ⟨t, ht⟩ := hin
    refine ⟨.unlock t, _, trivial, (by simp only [sys, step]; rw [if_pos ht]), ?_⟩
    exact tot_lt (by rw [ht]; decide)
  have hv : s.value = 0 := by
    have := locked_iff h
    simp only [locked, St.holds] at this
    grind
  obtain ⟨t, ht⟩ := not_forall.1 hid
  cases hp : s.pc t with
  | idle => exact absurd hp ht
  | inside => exact absurd ⟨t, hp⟩ hin
  | rmw =>
    refine ⟨.run t, _, trivial, (by simp only [sys, step, hp]; rw [if_pos hv]), ?_⟩
    exact tot_lt (by rw [hp]; decide)
  | spin =>
    refine ⟨.run t, _, trivial, (by simp only [sys, step, hp]; rfl), ?_⟩
    exact tot_lt (by rw [hp, hv]; decide)

/-- C78 (DEC). -/
theorem Dec.no_deadlock (hn : n < 2 ^ 32) {s : St n} (h : (Dec.sys n).Reach s) :
    (Dec.sys n).Drains Act.own (fun s => ∀ t, s.pc t = .idle) s := by
  refine Sys.drains (fun s => tot PC.rank s.pc) (fun s h => ?_) h
  by_cases hid : ∀ t, s.pc t = .idle
  · exact .inl hid
  refine .inr ?_
  by_cases hin : ∃ t, s.pc t = .inside
  · obtain ⟨t, ht⟩ := hin
    refine ⟨.unlock t, _, trivial, (by simp only [sys, step]; rw [if_pos ht]), ?_⟩
    exact tot_lt (by rw [ht]; decide)
  have hv : s.value = 1 := by
    have := locked_iff hn h
    simp only [locked, St.holds] at this
    grind
  obtain ⟨t, ht⟩ := not_forall.1 hid
  cases hp : s.pc t with
  | idle => exact absurd hp ht
  | inside => exact absurd ⟨t, hp⟩ hin
  | rmw =>
    refine ⟨.run t, _, trivial, (by simp only [sys, step, hp]; rfl), ?_⟩
    exact tot_lt (by rw [hp, hv]; decide)
  | spin =>
    refine ⟨.run t, _, trivial, (by simp only [sys, step, hp]; rfl), ?_⟩
    exact tot_lt (by rw [hp, hv]; decide)

/-- The owner inside, one thread about to decrement, one waiting, the word at 0 after a failed trylock. -/
example : ((Dec.sys 4).run (Dec.initSt 4)
    [.lock 0, .lock 1, .lock 2, .run 1, .run 0, .trylock 3]).map (fun s => (s.pc 0, s.pc 1, s.pc 2, s.pc 3, s.value)) =
    some (.spin, .inside, .rmw, .idle, 0) := by decide

namespace Ticket

/-- Steps of calls in progress, and releases. -/
def Act.own : Act n → Prop
  | .run _ | .unlock _ | .unlockInc _ => True
  | _ => False

/-- Steps left. -/
def PC.rank {w : Nat} {σ : Type} : PC w σ → Nat
  | .idle => 0
  | .unlocking _ => 1
  | .inside => 2
  | .wait _ => 3
  | .tryCas _ => 3

/-- C78 (ticket). -/
theorem no_deadlock {w : Nat} (hn : n ≤ 2 ^ w) {s : St w n} (h : (sys w n).Reach s) :
    (sys w n).Drains Act.own (fun s => ∀ t, s.pc t = .idle) s := by
  refine Sys.drains (fun s => tot PC.rank s.pc) (fun s h => ?_) h
  have hi := inv_of_reach hn h
  by_cases hid : ∀ t, s.pc t = .idle
  · exact .inl hid
  refine .inr ?_
  by_cases hh : ∃ t, s.holds t
  · obtain ⟨t, ht | ⟨u, ht⟩⟩ := hh
    · refine ⟨.unlock t, _, trivial, (by simp only [sys, step]; rw [if_pos ht]), ?_⟩
      exact tot_lt (by rw [ht]; show 1 < 2; omega)
    · refine ⟨.run t, _, trivial, (by simp only [sys, step, ht]; rfl), ?_⟩
      exact tot_lt (by rw [ht]; show 0 < 1; omega)
  have hfree : ∀ u, ¬ s.holds u := fun u hu => hh ⟨u, hu⟩
  obtain ⟨t, ht⟩ := not_forall.1 hid
  cases hp : s.pc t with
  | idle => exact absurd hp ht
  | inside => exact absurd ⟨t, .inl hp⟩ hh
  | unlocking u => exact absurd ⟨t, .inr ⟨u, hp⟩⟩ hh
  | tryCas x =>
    obtain ⟨a, b⟩ := x
    by_cases hc : s.next = a ∧ s.position = b
    · refine ⟨.run t, _, trivial, (by simp only [sys, step, hp]; rw [if_pos hc]), ?_⟩
      exact tot_lt (by rw [hp]; show 2 < 3; omega)
    · refine ⟨.run t, _, trivial, (by simp only [sys, step, hp]; rw [if_neg hc]), ?_⟩
      exact tot_lt (by rw [hp]; show 0 < 3; omega)
  | wait r =>
    have hlt : s.released < s.arrivals.length := by
      have := cnt_pos (P := PC.active) (f := s.pc) t (by rw [hp]; rfl)
      rw [hi.len]; omega
    have ha : s.arrivals[s.released]? = some s.arrivals[s.released] := List.getElem?_eq_getElem hlt
    generalize s.arrivals[s.released] = u at ha
    have hc := hi.cov _ _ (Nat.le_refl _) ha
    cases hq : s.pc u with
    | wait r' =>
      have hr' := hi.wait u r' hq
      rw [hc.2, ← hi.pos_eq] at hr'
      refine ⟨.run u, _, trivial, (by simp only [sys, step, hq]; rw [if_pos hr'.symm]), ?_⟩
      exact tot_lt (by rw [hq]; show 2 < 3; omega)
    | inside => exact absurd ⟨u, .inl hq⟩ hh
    | unlocking x => exact absurd ⟨u, .inr ⟨x, hq⟩⟩ hh
    | _ => rw [hq] at hc; cases hc.1

/-- Owner in unlock, two waiting, one in trylock with an outdated snapshot. -/
example : ((sys 16 4).run (initSt 16 4)
    [.trylock 3, .lock 0, .run 0, .lock 1, .lock 2, .unlock 0]).map (fun s => (s.pc 0, s.pc 1, s.pc 2, s.pc 3)) =
    some (.unlocking 0, .wait 1, .wait 2, .tryCas (0, 0)) := by decide

end Ticket

namespace Anderson

/-- Steps of calls in progress, and releases. -/
def Act.own : Act n → Prop
  | .run _ | .unlock _ => True
  | _ => False

/-- Steps left without those of the CAS loop. -/
def PC.rank : PC → Nat
  | .idle => 0
  | .inside _ => 1
  | .close _ => 2
  | .wait _ => 3
  | .casLoop _ => 4

/-- The snapshot is outdated. -/
def PC.stale (x : BitVec 32) : PC → Nat
  | .casLoop p => if x = p then 0 else 1
  | _ => 0

/-- C78 (Anderson). -/
theorem no_deadlock {c : Nat} (h0 : 0 < c) (hc : c < 2 ^ 32) (hn : n ≤ c) {s : St n} (h : (sys c n).Reach s) :
    (sys c n).Drains Act.own (fun s => ∀ t, s.pc t = .idle) s := by
  refine Sys.drains3 (J := fun _ => True) (fun s => tot PC.rank s.pc) (fun s => tot (PC.stale s.next) s.pc) (fun _ => 0)
    (fun _ _ _ _ _ _ _ => trivial) (fun s h _ => ?_) h trivial
  have hi := inv_of_reach h0 hc hn h
  by_cases hid : ∀ t, s.pc t = .idle
  · exact .inl hid
  refine .inr ?_
  have key : ∀ {a : ℕ} {b : Prop}, a < tot PC.rank s.pc → a ≤ tot PC.rank s.pc ∧ (a < tot PC.rank s.pc ∨ b) :=
    fun h => ⟨Nat.le_of_lt h, .inl h⟩
  by_cases hin : ∃ t i, s.pc t = .inside i
  · obtain ⟨t, i, ht⟩ := hin
    refine ⟨.unlock t, _, trivial, (by simp only [sys, step, ht]; rfl), key ?_⟩
    exact tot_lt (by rw [ht]; show 0 < 1; omega)
  by_cases hcl : ∃ t i, s.pc t = .close i
  · obtain ⟨t, i, ht⟩ := hcl
    refine ⟨.run t, _, trivial, (by simp only [sys, step, ht]; rfl), key ?_⟩
    exact tot_lt (by rw [ht]; show 1 < 2; omega)
  obtain ⟨t, ht⟩ := not_forall.1 hid
  cases hp : s.pc t with
  | idle => exact absurd hp ht
  | inside i => exact absurd ⟨t, i, hp⟩ hin
  | close i => exact absurd ⟨t, i, hp⟩ hcl
  | casLoop p =>
    by_cases he : s.next = p
    · refine ⟨.run t, _, trivial, (by simp only [sys, step, hp]; rw [if_pos he]), key ?_⟩
      exact tot_lt (by rw [hp]; show 3 < 4; omega)
    · refine ⟨.run t, _, trivial, (by simp only [sys, step, hp]; rw [if_neg he]), ?_⟩
      refine ⟨tot_le (by rw [hp]; exact Nat.le_refl _), .inr ⟨tot_le ?_, .inl (tot_lt ?_)⟩⟩ <;> rw [hp] <;>
        simp [PC.stale, he]
  | wait i =>
    have hno : ∀ u, (s.pc u).held = false := fun u => by
      cases hq : s.pc u with
      | close i => exact absurd ⟨u, i, hq⟩ hcl
      | inside i => exact absurd ⟨u, i, hq⟩ hin
      | _ => rfl
    have hfree : ∀ u, ¬ s.holds u := by
      rintro u (⟨i, hu⟩ | ⟨i, hu⟩)
      · exact hcl ⟨u, i, hu⟩
      · exact hin ⟨u, i, hu⟩
    obtain ⟨u, s', -, ⟨j, hj⟩, hs, hh⟩ := progress h0 hc hn h hfree ⟨i, hp⟩
    simp only [sys, step, hj] at hs
    split at hs
    · cases hs; exact absurd hh (hfree u)
    · next he =>
      cases hs
      refine ⟨.run u, _, trivial, (by simp only [sys, step, hj]; rw [if_neg he]), key ?_⟩
      exact tot_lt (by rw [hj]; show 2 < 3; omega)

/-- Five slots: owner about to close its slot, one waiting, one in the CAS loop with an outdated position. -/
example : ((sys 5 3).run (initSt 3)
    [.lock 0, .lock 1, .lock 2, .run 0, .run 0, .run 1, .run 1]).map (fun s => (s.pc 0, s.pc 1, s.pc 2, s.next)) =
    some (.close 0, .wait 1, .casLoop 0, 2) := by decide

end Anderson

namespace Clh

variable {N : Type} [DecidableEq N]

/-- Steps of calls in progress, and releases. -/
def Act.own : Act n → Prop
  | .run _ | .unlock _ => True
  | _ => False

/-- Steps left. -/
def PC.rank : PC N → Nat
  | .idle => 0
  | .release _ => 1
  | .inside => 2
  | .spin _ => 3
  | .setPrev _ => 4
  | .swap => 5
  | .setWait => 6

/-- C78 (CLH). -/
theorem no_deadlock {s : St N n} (h : (sys N n).Reach s) :
    (sys N n).Drains Act.own (fun s => ∀ t, s.pc t = .idle) s := by
  refine Sys.drains (fun s => tot PC.rank s.pc) (fun s h => ?_) h
  have hi := inv_of_reach h
  by_cases hid : ∀ t, s.pc t = .idle
  · exact .inl hid
  refine .inr ?_
  by_cases hh : ∃ t, s.holds t
  · obtain ⟨t, ht | ⟨p, ht⟩⟩ := hh
    · refine ⟨.unlock t, _, trivial, (by simp only [sys, step]; rw [if_pos ht, hi.ins t ht]), ?_⟩
      exact tot_lt (by rw [ht]; show 1 < 2; omega)
    · refine ⟨.run t, _, trivial, (by simp only [sys, step, ht]; rfl), ?_⟩
      exact tot_lt (by rw [ht]; show 0 < 1; omega)
  have hno : ∀ u, (s.pc u).held = false := fun u => by
    cases hq : s.pc u with
    | inside => exact absurd ⟨u, .inl hq⟩ hh
    | release p => exact absurd ⟨u, .inr ⟨p, hq⟩⟩ hh
    | _ => rfl
  have hspin : ∀ t, (s.pc t).act = true → ∃ a s', Act.own a ∧ (sys N n).step s a = some s' ∧
      tot PC.rank s'.pc < tot PC.rank s.pc := by
    intro t ht
    obtain ⟨u, -, h2, h3⟩ := hi.q.next_in_line hno (v := t) ht
    have hw := hi.wait_rel
    cases hq : s.pc u with
    | setPrev p =>
      refine ⟨.run u, _, trivial, (by simp only [sys, step, hq]; rfl), ?_⟩
      exact tot_lt (by rw [hq]; show 3 < 4; omega)
    | spin p =>
      rw [← h3, ← (hi.spin u p hq).1] at hw
      refine ⟨.run u, _, trivial, (by simp only [sys, step, hq]; rw [if_neg (by simp [hw])]), ?_⟩
      exact tot_lt (by rw [hq]; show 2 < 3; omega)
    | inside => exact absurd ⟨u, .inl hq⟩ hh
    | release p => exact absurd ⟨u, .inr ⟨p, hq⟩⟩ hh
    | _ => rw [hq] at h2; cases h2
  obtain ⟨t, ht⟩ := not_forall.1 hid
  cases hp : s.pc t with
  | idle => exact absurd hp ht
  | setWait =>
    refine ⟨.run t, _, trivial, (by simp only [sys, step, hp]; rfl), ?_⟩
    exact tot_lt (by rw [hp]; show 5 < 6; omega)
  | swap =>
    refine ⟨.run t, _, trivial, (by simp only [sys, step, hp]; rfl), ?_⟩
    exact tot_lt (by rw [hp]; show 4 < 5; omega)
  | _ => exact hspin t (by rw [hp]; rfl)

/-- Owner in unlock, one thread between the exchange and its own `previous`, one before the exchange. -/
example : ((sys Nat 3).run
    { tail := 0, wait := fun _ => false, prev := fun _ => none, node := fun t => t.val + 1,
      pc := fun _ => .idle, q := Q.empty 3, nd := fun _ => 0 }
    [.lock 0, .run 0, .run 0, .run 0, .run 0, .lock 1, .run 1, .run 1, .lock 2, .run 2, .unlock 0]).map
    (fun s => (s.pc 0, s.pc 1, s.pc 2)) = some (.release 0, .setPrev 1, .swap) := by decide

end Clh

namespace Mcs

variable {N : Type} [DecidableEq N]

/-- Steps of calls in progress, and releases. -/
def Act.own : Act N n → Prop
  | .run _ | .unlock _ => True
  | _ => False

/-- Steps left. -/
def PC.rank : PC N → Nat
  | .idle => 0
  | .uGrant _ => 1
  | .uWait => 2
  | .uCas => 3
  | .uTail => 4
  | .uNext => 5
  | .inside => 6
  | .spin => 7
  | .link _ => 8
  | .swap => 9
  | .tryCas => 9
  | .setNext _ => 10
  | .setLocked _ => 11

/-- C78 (MCS). -/
theorem no_deadlock {s : St N n} (h : (sys N n).Reach s) :
    (sys N n).Drains Act.own (fun s => ∀ t, s.pc t = .idle) s := by
  refine Sys.drains (fun s => tot PC.rank s.pc) (fun s h => ?_) h
  have hi := inv_of_reach h
  by_cases hid : ∀ t, s.pc t = .idle
  · exact .inl hid
  refine .inr ?_
  have adv : ∀ (a : Act N n) (t : Fin n) (p : PC N), Act.own a →
      ((sys N n).step s a).map (fun s' => s'.pc) = some (upd s.pc t p) → p.rank < (s.pc t).rank →
      ∃ a s', Act.own a ∧ (sys N n).step s a = some s' ∧ tot PC.rank s'.pc < tot PC.rank s.pc := by
    intro a t p ha hs hr
    rw [Option.map_eq_some_iff] at hs
    obtain ⟨s', hs, he⟩ := hs
    exact ⟨a, s', ha, hs, by rw [he]; exact tot_lt hr⟩
  by_cases hh : ∃ t, (s.pc t).held = true
  · obtain ⟨t, ht⟩ := hh
    cases hp : s.pc t with
    | inside => exact adv (.unlock t) t .uNext trivial (by simp [sys, step, hp]) (by rw [hp]; show 5 < 6; omega)
    | uNext =>
      cases hx : s.next (s.node t) with
      | none => exact adv (.run t) t .uTail trivial (by simp [sys, step, hp, hx]) (by rw [hp]; show 4 < 5; omega)
      | some x => exact adv (.run t) t (.uGrant x) trivial (by simp [sys, step, hp, hx]) (by rw [hp]; show 1 < 5; omega)
    | uTail =>
      refine adv (.run t) t (if s.queue = some (s.node t) then .uCas else .uWait) trivial (by simp [sys, step, hp]) ?_
      rw [hp]
      split
      · show 3 < 4; omega
      · show 2 < 4; omega
    | uCas =>
      by_cases hx : s.queue = some (s.node t)
      · exact adv (.run t) t .idle trivial (by simp [sys, step, hp, hx]) (by rw [hp]; show 0 < 3; omega)
      · exact adv (.run t) t .uWait trivial (by simp [sys, step, hp, hx]) (by rw [hp]; show 2 < 3; omega)
    | uWait =>
      cases hx : s.next (s.node t) with
      | some x => exact adv (.run t) t (.uGrant x) trivial (by simp [sys, step, hp, hx]) (by rw [hp]; show 1 < 2; omega)
      | none =>
        obtain ⟨u, hu, -⟩ := unlock_wait h hp hx
        exact adv (.run u) u .spin trivial (by simp [sys, step, hu]) (by rw [hu]; show 7 < 8; omega)
    | uGrant x => exact adv (.run t) t .idle trivial (by simp [sys, step, hp]) (by rw [hp]; show 0 < 1; omega)
    | _ => rw [hp] at ht; cases ht
  have hfree : ∀ u, ¬ s.holds u := fun u hu => hh ⟨u, hu⟩
  have hwait : ∀ t, s.waits t → ∃ a s', Act.own a ∧ (sys N n).step s a = some s' ∧
      tot PC.rank s'.pc < tot PC.rank s.pc := by
    intro t ht
    obtain ⟨u, s', -, hw, hs, hhu⟩ := handoff h hfree ht
    rcases hw with hp | ⟨p, hp⟩
    · simp only [sys, step, hp] at hs
      split at hs
      · cases hs; exact absurd hhu (hfree u)
      · next he =>
        exact adv (.run u) u .inside trivial (by simp [sys, step, hp, he]) (by rw [hp]; show 6 < 7; omega)
    · exact adv (.run u) u .spin trivial (by simp [sys, step, hp]) (by rw [hp]; show 7 < 8; omega)
  obtain ⟨t, ht⟩ := not_forall.1 hid
  cases hp : s.pc t with
  | idle => exact absurd hp ht
  | setLocked b => exact adv (.run t) t (.setNext b) trivial (by simp [sys, step, hp]) (by rw [hp]; show 10 < 11; omega)
  | setNext b =>
    refine adv (.run t) t (if b then .tryCas else .swap) trivial (by simp [sys, step, hp]) ?_
    rw [hp]
    cases b
    · show 9 < 10; omega
    · show 9 < 10; omega
  | tryCas =>
    by_cases hx : s.queue = none
    · exact adv (.run t) t .inside trivial (by simp [sys, step, hp, hx]) (by rw [hp]; show 6 < 9; omega)
    · exact adv (.run t) t .idle trivial (by simp [sys, step, hp, hx]) (by rw [hp]; show 0 < 9; omega)
  | swap =>
    cases hx : s.queue with
    | none => exact adv (.run t) t .inside trivial (by simp [sys, step, hp, hx]) (by rw [hp]; show 6 < 9; omega)
    | some x => exact adv (.run t) t (.link x) trivial (by simp [sys, step, hp, hx]) (by rw [hp]; show 8 < 9; omega)
  | link p => exact hwait t (.inr ⟨p, hp⟩)
  | spin => exact hwait t (.inl hp)
  | _ => exact absurd ⟨t, by rw [hp]; rfl⟩ hh

/-- The owner waits in unlock for its successor, which has not linked itself yet; a third thread is behind it. -/
example : ((sys Nat 3).run
    { queue := none, locked := fun _ => false, next := fun _ => none, node := fun _ => 0,
      pc := fun _ => .idle, q := Q.empty 3, nd := fun _ => 0 }
    [.lock 0 7, .run 0, .run 0, .run 0, .lock 1 8, .run 1, .run 1, .run 1, .lock 2 9, .run 2, .run 2, .run 2, .run 2,
     .unlock 0, .run 0, .run 0]).map
    (fun s => (s.pc 0, s.pc 1, s.pc 2)) = some (.uWait, .link 7, .spin) := by decide

end Mcs

end Verif.Spin
