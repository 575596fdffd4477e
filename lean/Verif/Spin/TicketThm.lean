import Verif.Spin.TicketInv

/-!
# C02, C03: ticket spinlock

`w` is the width of the counters: 32 for the portable variant, 16 or 32 for the packed one.
The only bound is on the number of threads; the number of acquisitions is unbounded, so every
wrap-around position is covered.
-/

namespace Verif.Spin.Ticket

open Spec

theorem holds_held {w n : Nat} {s : St w n} {t : Fin n} : s.holds t ↔ (s.pc t).held = true := by
  unfold St.holds
  cases s.pc t <;> simp [PC.held]

theorem active_iff {w n : Nat} {s : St w n} {t : Fin n} :
    (s.pc t).active = true ↔ s.holds t ∨ s.waits t := by
  unfold St.holds St.waits
  cases s.pc t <;> simp [PC.active]

/-- C02: at most one thread holds the lock, in every reachable state, across all wraps. -/
theorem mutual_exclusion {w n : Nat} (hn : n ≤ 2 ^ w) {s : St w n} (h : (sys w n).Reach s) :
    MutEx s.holds := fun _ _ ht hu =>
  held_unique (inv_of_reach hn h) (holds_held.1 ht) (holds_held.1 hu)

/-- C03: threads enter in the order in which they took their tickets. -/
theorem fcfs {w n : Nat} (hn : n ≤ 2 ^ w) {s : St w n} (h : (sys w n).Reach s) :
    Fcfs s.arrivals s.served := (inv_of_reach hn h).pre

/-- C03: a thread that took its ticket and waits is ahead, in the arrival order, of nobody who
entered already: everything before it has been served or is still in the lock; nothing after it
has been served. -/
theorem no_overtaking {w n : Nat} (hn : n ≤ 2 ^ w) {s : St w n} (h : (sys w n).Reach s)
    {t : Fin n} (ht : s.waits t) :
    s.served.length ≤ s.ticket t ∧ s.arrivals[s.ticket t]? = some t := by
  have hi := inv_of_reach hn h
  have ha := active_iff.2 (Or.inr ht)
  have h6 := hi.act t ha
  refine ⟨?_, h6.2⟩
  rw [hi.slen]
  by_cases h0 : cnt PC.held s.pc = 0
  · omega
  · obtain ⟨u, hu⟩ := exists_of_cnt_pos (Nat.pos_of_ne_zero h0)
    have h1 : cnt PC.held s.pc ≤ 1 := by
      by_contra hc
      -- two distinct holders
      have hlen := cnt_update PC.held s.pc u .idle
      rw [hu, show (PC.idle : PC w (BitVec w × BitVec w)).held = false from rfl] at hlen
      simp at hlen
      have : 0 < cnt PC.held (upd s.pc u .idle) := by omega
      obtain ⟨v, hv⟩ := exists_of_cnt_pos this
      have hne : v ≠ u := by rintro rfl; simp [PC.held] at hv
      rw [upd_ne _ _ hne] at hv
      exact hne (held_unique hi hv hu)
    have hua : (s.pc u).active = true := active_iff.2 (Or.inl (holds_held.2 hu))
    have hne : s.ticket t ≠ s.released := by
      intro he
      have e1 := (hi.act u hua).2
      rw [hi.held u hu, ← he, h6.2] at e1
      simp only [Option.some.injEq] at e1
      subst e1
      obtain ⟨r, hr⟩ := ht
      simp [hr, PC.held] at hu
    omega

/-- C03: `locked` (both counters read in one state) tells whether somebody holds or waits. -/
theorem locked_iff {w n : Nat} (hn : n < 2 ^ w) {s : St w n} (h : (sys w n).Reach s) :
    locked s = true ↔ ∃ t, s.holds t ∨ s.waits t := by
  have hi := inv_of_reach (by omega) h
  have hc := cnt_le PC.active s.pc
  simp only [locked, ne_eq, decide_not, Bool.not_eq_eq_eq_not, Bool.not_true,
    decide_eq_false_iff_not, ← active_iff]
  rw [hi.pos_eq, hi.next_eq]
  constructor
  · intro hne
    apply exists_of_cnt_pos
    by_contra h0
    apply hne
    rw [hi.len]; congr 1; omega
  · rintro ⟨t, ht⟩ he
    have := cnt_pos (P := PC.active) (f := s.pc) t ht
    have := ofNat_inj_of_window (n := n + 1) (by have := hi.len; omega)
      (by have := hi.len; omega) (by omega) he
    have := hi.len
    omega

/-- C03: a trylock succeeds only if nobody holds the lock and nobody waits for it. -/
theorem trylock_success {w n : Nat} (hn : n ≤ 2 ^ w) {s s' : St w n} (h : (sys w n).Reach s)
    {t : Fin n} (htry : ∃ x, s.pc t = .tryCas x) (hs : (sys w n).step s (.run t) = some s')
    (hsucc : s'.holds t) : ∀ u, ¬ s.holds u ∧ ¬ s.waits u := by
  have hi := inv_of_reach hn h
  obtain ⟨⟨sn, sp⟩, hp⟩ := htry
  simp only [sys, step, hp] at hs
  step_split hs
  · next hc =>
    intro u
    rw [← not_or, ← active_iff]
    intro hu
    have hclt : cnt PC.active s.pc < n := cnt_lt_of (t := t) (by simp [hp, PC.active])
    have e := hi.cas t sn sp hp
    have hpos := cnt_pos (P := PC.active) u hu
    have hlen := hi.len
    have : s.released = s.arrivals.length := by
      apply ofNat_inj_of_window (n := n) (w := w) (by omega) (by omega) hn
      rw [← hi.pos_eq, ← hi.next_eq, hc.1, hc.2, e]
    omega
  · simp [St.holds] at hsucc

/-- C03, progress: if nobody holds the lock but somebody waits, then the longest waiting thread
enters with its next step. -/
theorem progress {w n : Nat} (hn : n ≤ 2 ^ w) {s : St w n} (h : (sys w n).Reach s)
    (hfree : ∀ u, ¬ s.holds u) {v : Fin n} (hv : s.waits v) :
    ∃ t s', s.arrivals[s.served.length]? = some t ∧ s.waits t ∧
      (sys w n).step s (.run t) = some s' ∧ s'.holds t := by
  have hi := inv_of_reach hn h
  have h0 : cnt PC.held s.pc = 0 := cnt_zero_of (fun t => by
    have := hfree t; rw [holds_held] at this; simpa using this)
  have hsl : s.served.length = s.released := by rw [hi.slen, h0]; rfl
  have hpos := cnt_pos (P := PC.active) (f := s.pc) v (active_iff.2 (.inr hv))
  have hlt : s.released < s.arrivals.length := by rw [hi.len]; omega
  obtain ⟨t, ht⟩ : ∃ t, s.arrivals[s.released]? = some t :=
    ⟨_, List.getElem?_eq_getElem hlt⟩
  have hc := hi.cov _ _ (Nat.le_refl _) ht
  have hw : s.waits t := (active_iff.1 hc.1).resolve_left (hfree t)
  obtain ⟨r, hr⟩ := hw
  have hr' := hi.wait t r hr
  rw [hc.2, ← hi.pos_eq] at hr'
  exact ⟨t, { s with pc := upd s.pc t .inside, served := s.served ++ [t] }, by rw [hsl]; exact ht,
    ⟨r, hr⟩, by simp [sys, step, hr, hr'], by simp [St.holds]⟩

/-- Width 1 (two tickets values only), two threads, counters have wrapped: thread 1 waits behind
thread 0 in its third acquisition. -/
example : ((sys 1 2).run (initSt 1 2)
    [.lock 0, .run 0, .unlock 0, .run 0, .lock 1, .run 1, .unlock 1, .run 1,
     .lock 0, .lock 1, .run 1, .run 0]).map
    (fun s => (s.pc 0, s.pc 1, s.arrivals, s.served)) =
    some (.inside, .wait 1, [0, 1, 0, 1], [0, 1, 0]) := by decide

namespace Packed

/-- C02 (x86): mutual exclusion on the packed word. -/
theorem mutual_exclusion {w n : Nat} (hn : n ≤ 2 ^ w) {s : St w n} (h : (sys w n).Reach s) :
    MutEx s.holds := by
  have := Ticket.mutual_exclusion hn (reach_abs h)
  intro t u ht hu
  exact this t u (.inl (by simp [abs, show s.pc t = .inside from ht]))
    (.inl (by simp [abs, show s.pc u = .inside from hu]))

/-- C03 (x86): first come, first served. -/
theorem fcfs {w n : Nat} (hn : n ≤ 2 ^ w) {s : St w n} (h : (sys w n).Reach s) :
    Fcfs s.arrivals s.served := Ticket.fcfs hn (reach_abs h)

/-- C03 (x86): `locked` tells whether somebody holds or waits. -/
theorem locked_iff {w n : Nat} (hn : n < 2 ^ w) {s : St w n} (h : (sys w n).Reach s) :
    locked s = true ↔ ∃ t, s.holds t ∨ s.waits t := by
  have := Ticket.locked_iff hn (reach_abs h)
  have he : ∀ t, ((abs s).holds t ∨ (abs s).waits t) ↔ (s.holds t ∨ s.waits t) := by
    intro t
    have hnu : ∀ u, s.pc t ≠ .unlocking u := by
      intro u
      refine (h.invariant (I := fun s => ∀ t u, s.pc t ≠ .unlocking u) ?_ ?_) t u
      · rintro s rfl; simp [initSt]
      · intro s a s' hi hs
        rcases a with t | t | t | t | t <;> simp only [sys, step] at hs <;> step_split hs <;> grind
    simp only [Ticket.St.holds, Ticket.St.waits, St.holds, St.waits, abs]
    cases hp : s.pc t <;> simp_all [absPc]
  simp only [he] at this
  rw [← this]
  simp [locked, Ticket.locked, abs, @eq_comm _ (lo s.value)]

/-- C03 (x86): trylock succeeds only if nobody holds or waits. -/
theorem trylock_success {w n : Nat} (hn : n ≤ 2 ^ w) {s s' : St w n} (h : (sys w n).Reach s)
    {t : Fin n} (htry : ∃ x, s.pc t = .tryCas x) (hs : (sys w n).step s (.run t) = some s')
    (hsucc : s'.holds t) : ∀ u, ¬ s.holds u ∧ ¬ s.waits u := by
  obtain ⟨v, hv⟩ := htry
  have := Ticket.trylock_success hn (reach_abs h) (t := t) (s' := abs s') (s := abs s)
    ⟨(hi v, lo v), by simp [abs, hv]⟩ (step_sim (s := s) (a := .run t) hs)
    (.inl (by simp [abs, show s'.pc t = .inside from hsucc]))
  intro u
  have h1 := this u
  refine ⟨fun hu => h1.1 (.inl (by simp [abs, show s.pc u = .inside from hu])), ?_⟩
  rintro ⟨r, hr⟩
  exact h1.2 ⟨r, by simp [abs, hr]⟩

/-- 1-bit halves in a 2-bit word, wrapped. -/
example : ((sys 1 2).run (initSt 1 2)
    [.lock 0, .run 0, .unlockInc 0, .trylock 1, .run 1, .trylock 0, .unlockInc 1,
     .lock 0, .lock 1, .run 1, .run 0]).map
    (fun s => (s.pc 0, s.pc 1, s.arrivals, s.served, locked s)) =
    some (.inside, .wait 1, [0, 1, 0, 1], [0, 1, 0], false) := by decide

end Packed

end Verif.Spin.Ticket
