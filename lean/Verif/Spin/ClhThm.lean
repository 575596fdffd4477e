import Verif.Spin.Clh

/-! # C06: CLH queue lock -/

namespace Verif.Spin.Clh

open Spec

variable {N : Type} [DecidableEq N] {n : Nat}

def PC.act : PC N → Bool
  | .setPrev _ | .spin _ | .inside | .release _ => true
  | _ => false

def PC.held : PC N → Bool
  | .inside | .release _ => true
  | _ => false

structure Inv (s : St N n) : Prop where
  q : QInv s.q (fun t => (s.pc t).act) (fun t => (s.pc t).held)
  tail : s.tail = s.nd s.q.arr.length
  inj : ∀ j k, s.q.rel ≤ j → j ≤ s.q.arr.length → s.q.rel ≤ k → k ≤ s.q.arr.length →
    s.nd j = s.nd k → j = k
  wait_rel : s.wait (s.nd s.q.rel) = false
  wait_gt : ∀ k, s.q.rel < k → k ≤ s.q.arr.length → s.wait (s.nd k) = true
  node : ∀ t, (s.pc t).act = true → s.node t = s.nd (s.q.tk t + 1)
  own : ∀ t k, (s.pc t).act = false → s.q.rel ≤ k → k ≤ s.q.arr.length → s.node t ≠ s.nd k
  own2 : ∀ t u, (s.pc t).act = false → (s.pc u).act = false → s.node t = s.node u → t = u
  swp : ∀ t, s.pc t = .swap → s.wait (s.node t) = true
  setp : ∀ t p, s.pc t = .setPrev p → p = s.nd (s.q.tk t)
  spin : ∀ t p, s.pc t = .spin p → p = s.nd (s.q.tk t) ∧ s.prev (s.node t) = some p
  ins : ∀ t, s.pc t = .inside → s.prev (s.node t) = some (s.nd (s.q.tk t))
  rls : ∀ t p, s.pc t = .release p → p = s.nd (s.q.tk t)

theorem inv_init {s : St N n} (h : isInit s) : Inv s := by
  obtain ⟨h1, h2, h3, h4, h5, h6, h7⟩ := h
  have hq := QInv.empty n
  have e1 : (fun t => (s.pc t).act) = fun _ => false := by funext t; rw [h3]; rfl
  have e2 : (fun t => (s.pc t).held) = fun _ => false := by funext t; rw [h3]; rfl
  constructor
  · rw [h4, e1, e2]; exact hq
  all_goals simp only [h4, Q.empty, List.length_nil, h3]
  all_goals grind [PC.act]

theorem inv_step {s s' : St N n} {a : Act n} (hi : Inv s) (hs : step s a = some s') : Inv s' := by
  obtain ⟨hq, h1, h2, h3, h4, h5, h6, h7, h8, h9, h10, h11, h12⟩ := hi
  have hlen := hq.len
  have htl := fun t => hq.tk_lt (t := t)
  have hrl := fun t h => (hq.act_tk t h).1
  have hinj := fun t u => hq.tk_inj (t := t) (u := u)
  rcases a with t | t | t
  · simp only [step] at hs
    step_split hs
    next hp =>
    have ea := comp_upd_same PC.act s.pc t (.setWait : PC N) (by rw [hp]; rfl)
    have eh := comp_upd_same PC.held s.pc t (.setWait : PC N) (by rw [hp]; rfl)
    have ea' := fun u => congrFun ea u
    constructor
    · simp only [ea, eh]; exact hq
    all_goals clear hq ea eh
    all_goals grind
  · simp only [step] at hs
    split at hs
    · next hp =>
      simp only [Option.some.injEq] at hs; subst hs
      have ea := comp_upd_same PC.act s.pc t (.swap : PC N) (by rw [hp]; rfl)
      have eh := comp_upd_same PC.held s.pc t (.swap : PC N) (by rw [hp]; rfl)
      have ea' := fun u => congrFun ea u
      have hna : (s.pc t).act = false := by rw [hp]; rfl
      constructor
      · simp only [ea, eh]; exact hq
      all_goals clear hq ea eh
      all_goals grind
    · next hp =>
      simp only [Option.some.injEq] at hs; subst hs
      have ea := comp_upd PC.act s.pc t (.setPrev s.tail : PC N)
      have eh := comp_upd_same PC.held s.pc t (.setPrev s.tail : PC N) (by rw [hp]; rfl)
      have ea' := fun u => congrFun ea u
      have hna : (s.pc t).act = false := by rw [hp]; rfl
      constructor
      · simp only [ea, eh]; exact hq.arrive hna
      all_goals clear hq ea eh
      all_goals simp only [Q.arrive, List.length_append, List.length_singleton]
      all_goals grind [PC.act]
    · next p hp =>
      simp only [Option.some.injEq] at hs; subst hs
      have ea := comp_upd_same PC.act s.pc t (.spin p : PC N) (by rw [hp]; rfl)
      have eh := comp_upd_same PC.held s.pc t (.spin p : PC N) (by rw [hp]; rfl)
      have ea' := fun u => congrFun ea u
      have hact : (s.pc t).act = true := by rw [hp]; rfl
      constructor
      · simp only [ea, eh]; exact hq
      all_goals clear hq ea eh
      all_goals grind [PC.act]
    · next p hp =>
      split at hs <;> (simp only [Option.some.injEq] at hs; subst hs)
      · exact ⟨hq, h1, h2, h3, h4, h5, h6, h7, h8, h9, h10, h11, h12⟩
      · next hw =>
        have ea := comp_upd_same PC.act s.pc t (.inside : PC N) (by rw [hp]; rfl)
        have eh := comp_upd PC.held s.pc t (.inside : PC N)
        have ea' := fun u => congrFun ea u
        have hact : (s.pc t).act = true := by rw [hp]; rfl
        have htk : s.q.tk t = s.q.rel := by
          have hpp := (h10 t p hp).1
          have := hrl t hact
          have := htl t hact
          by_contra hne
          have := h4 (s.q.tk t) (by omega) (by omega)
          rw [← hpp] at this
          exact hw this
        constructor
        · simp only [ea, eh]
          exact hq.enter hact htk (by simp [hp, PC.held])
        all_goals clear hq ea eh
        all_goals simp only [Q.enter]
        all_goals grind [PC.act]
    · next p hp =>
      simp only [Option.some.injEq] at hs; subst hs
      have ea := comp_upd PC.act s.pc t (.idle : PC N)
      have eh := comp_upd PC.held s.pc t (.idle : PC N)
      have ea' := fun u => congrFun ea u
      have hh : (s.pc t).held = true := by rw [hp]; rfl
      have hact : (s.pc t).act = true := by rw [hp]; rfl
      have htk := hq.held_tk t hh
      have hnd := h5 t hact
      have hp' := h12 t p hp
      constructor
      · simp only [ea, eh]; exact hq.leave hh
      all_goals clear hq ea eh
      all_goals simp only [Q.leave]
      all_goals grind [PC.act]
    · cases hs
  · simp only [step] at hs
    split at hs <;> [skip; cases hs]
    next hp =>
    split at hs <;> [skip; cases hs]
    next p hpp =>
    simp only [Option.some.injEq] at hs; subst hs
    have ea := comp_upd_same PC.act s.pc t (.release p : PC N) (by rw [hp]; rfl)
    have eh := comp_upd_same PC.held s.pc t (.release p : PC N) (by rw [hp]; rfl)
    have ea' := fun u => congrFun ea u
    constructor
    · simp only [ea, eh]; exact hq
    all_goals clear hq ea eh
    all_goals grind

theorem inv_of_reach {s : St N n} (h : (sys N n).Reach s) : Inv s :=
  h.invariant (I := Inv) (fun _ h => inv_init h) (fun _ _ _ hi hs => inv_step hi hs)

theorem holds_iff {s : St N n} {t : Fin n} : s.holds t ↔ (s.pc t).held = true := by
  unfold St.holds
  cases s.pc t <;> simp [PC.held]

theorem active_iff {s : St N n} {t : Fin n} :
    (s.pc t).act = true ↔ s.holds t ∨ s.waits t := by
  unfold St.holds St.waits
  cases s.pc t <;> simp [PC.act]

/-! ## Property theorems -/

/-- C06: mutual exclusion. -/
theorem mutual_exclusion {s : St N n} (h : (sys N n).Reach s) : MutEx s.holds :=
  fun _ _ ht hu => (inv_of_reach h).q.held_unique (holds_iff.1 ht) (holds_iff.1 hu)

/-- C06: threads enter in the order in which they swapped themselves into the queue. -/
theorem fcfs {s : St N n} (h : (sys N n).Reach s) : Fcfs s.q.arr s.q.srv := (inv_of_reach h).q.pre

/-- C06, node recycling: the node a thread owns outside the lock (in particular the one handed back
by unlock) is no other thread's node, nobody spins on it or is about to, nobody is about to take it
over, and it is not the queue tail. -/
theorem recycled_node_private {s : St N n} (h : (sys N n).Reach s) {t : Fin n}
    (ht : s.pc t = .idle) :
    s.tail ≠ s.node t ∧ ∀ u, u ≠ t → s.node u ≠ s.node t ∧ s.pc u ≠ .spin (s.node t) ∧
      s.pc u ≠ .setPrev (s.node t) ∧ s.pc u ≠ .release (s.node t) ∧
      (s.pc u = .inside → s.prev (s.node u) ≠ some (s.node t)) := by
  have hi := inv_of_reach h
  have ha : (s.pc t).act = false := by rw [ht]; rfl
  have hle := hi.q.len
  refine ⟨by rw [hi.tail]; exact (hi.own t _ ha (by omega) (Nat.le_refl _)).symm, fun u hu => ?_⟩
  have key : (s.pc u).act = true → s.node t ≠ s.nd (s.q.tk u) ∧ s.node t ≠ s.nd (s.q.tk u + 1) := by
    intro h
    have h1 := hi.q.tk_lt h
    have h2 := (hi.q.act_tk u h).1
    exact ⟨hi.own t _ ha h2 (by omega), hi.own t _ ha (by omega) (by omega)⟩
  refine ⟨?_, ?_, ?_, ?_, ?_⟩
  · cases hu' : (s.pc u).act
    · exact fun e => hu (hi.own2 u t hu' ha e)
    · rw [hi.node u hu']; exact (key hu').2.symm
  · intro hp; exact (key (by rw [hp]; rfl)).1 (hi.spin u _ hp).1
  · intro hp; exact (key (by rw [hp]; rfl)).1 (hi.setp u _ hp)
  · intro hp; exact (key (by rw [hp]; rfl)).1 (hi.rls u _ hp)
  · intro hp e
    rw [hi.ins u hp] at e
    exact (key (by rw [hp]; rfl)).1 (Option.some.inj e).symm

/-- C06: unlock never meets a NULL predecessor (the model's unlock is always enabled inside). -/
theorem unlock_enabled {s : St N n} (h : (sys N n).Reach s) {t : Fin n} (ht : s.pc t = .inside) :
    ∃ s', (sys N n).step s (.unlock t) = some s' := by
  have := (inv_of_reach h).ins t ht
  exact ⟨_, by simp [sys, step, ht, this]; rfl⟩

/-- C06, progress: if nobody holds the lock and somebody waits, the longest waiting thread enters
within two of its own steps. -/
theorem progress {s : St N n} (h : (sys N n).Reach s) (hfree : ∀ u, ¬ s.holds u) {v : Fin n}
    (hv : s.waits v) :
    ∃ t s', s.q.arr[s.q.srv.length]? = some t ∧ s.waits t ∧
      ((sys N n).run s [.run t] = some s' ∨ (sys N n).run s [.run t, .run t] = some s') ∧
      s'.holds t := by
  have hi := inv_of_reach h
  have hno : ∀ u, (s.pc u).held = false := fun u => by
    have := hfree u; rw [holds_iff] at this; simpa using this
  obtain ⟨t, h1, h2, h3⟩ := hi.q.next_in_line hno (v := v) (active_iff.2 (.inr hv))
  have hwt : s.waits t := (active_iff.1 h2).resolve_left (hfree t)
  have hw := hi.wait_rel
  rw [← h3] at hw
  obtain ⟨p, hp | hp⟩ := hwt
  · have e := hi.setp t p hp
    rw [← e] at hw
    exact ⟨t, { s with prev := upd s.prev (s.node t) (some p),
                       pc := upd (upd s.pc t (.spin p)) t .inside, q := s.q.enter t },
      h1, ⟨p, .inl hp⟩, .inr (by simp [Sys.run, sys, step, hp, hw]), .inl (by simp)⟩
  · have e := (hi.spin t p hp).1
    rw [← e] at hw
    exact ⟨t, { s with pc := upd s.pc t .inside, q := s.q.enter t },
      h1, ⟨p, .inr hp⟩, .inl (by simp [Sys.run, sys, step, hp, hw]), .inl (by simp)⟩

/-- C06: `locked` (both loads in one state) tells whether somebody holds or waits. -/
theorem locked_iff {s : St N n} (h : (sys N n).Reach s) :
    locked s = true ↔ ∃ t, s.holds t ∨ s.waits t := by
  have hi := inv_of_reach h
  simp only [← active_iff, locked, hi.tail]
  constructor
  · intro hl
    by_contra hno
    have h0 : cnt id (fun t => (s.pc t).act) = 0 := cnt_zero_of fun t => by
      have := not_exists.1 hno t; simpa using this
    have hl' := hi.q.len
    rw [h0, Nat.add_zero] at hl'
    rw [hl', hi.wait_rel] at hl
    cases hl
  · rintro ⟨t, ht⟩
    have := (hi.q.act_tk t ht).1
    have := hi.q.tk_lt (t := t) ht
    exact hi.wait_gt _ (by omega) (Nat.le_refl _)

/-- Two threads, nodes 0 (unowned), 1, 2.  Thread 0 acquires and releases and now owns node 0;
thread 1 is inside with node 2; thread 0 waits again with node 0. -/
example : ((sys Nat 2).run
    { tail := 0, wait := fun _ => false, prev := fun _ => none, node := fun t => t.val + 1,
      pc := fun _ => .idle, q := Q.empty 2, nd := fun _ => 0 }
    [.lock 0, .run 0, .run 0, .lock 1, .run 1, .run 1, .run 0, .run 0, .run 1, .run 1,
     .unlock 0, .run 0, .run 1, .lock 0, .run 0, .run 0, .run 0, .run 0]).map
    (fun s => (s.pc 0, s.pc 1, s.node 0, s.q.arr, s.q.srv)) =
    some (.spin 2, .inside, 0, [0, 1, 0], [0, 1]) := by decide

end Verif.Spin.Clh
