import Verif.Progress.Lf
import Verif.Ring.Thm

/-!
# Progress of `ck_ring` (C106)

The model of C28 to C31 (`Ring/Ring.lean`), from any state without operations in progress; nothing is assumed about the size of the
ring or the wrap of its counters.

* `enqueue_sp_wait_free`, `dequeue_sc_wait_free`, `trydequeue_wait_free`: the operation is over after a fixed number of steps of its
  own, whatever the others do in between.
* `dequeue_lock_free`: the dequeues keep completing, even if producers are stopped half-way.
* `enqueue_mp_blocked`: not so `_ck_ring_enqueue_mp`.
-/

namespace Verif.Ring.Lf

open Verif Verif.Lf Verif.Ring

variable {L n : Nat} {B : Type} {cfg : Cfg n}

/-! ## Wait-free operations -/

/-- The number of steps of thread `t` in a schedule. -/
def steps (t : Fin n) : List (Act L n B) → Nat
  | [] => 0
  | .run u :: as => (if u = t then 1 else 0) + steps t as
  | _ :: as => steps t as

/-- The most steps an operation without a loop has left. -/
def rank : PC L B → Nat
  | .spLoad _ => L + 3
  | .wr _ _ _ j => L - j + 2
  | .commit .. => 1
  | .scLoad _ => L + 3
  | .mcLoad .. => L + 4
  | .mcP .. => L + 3
  | .cp _ _ _ j => L - j + 2
  | .scStore .. => 1
  | .mcCas .. => 1
  | _ => 0

/-- Other threads do not move `t`. -/
theorem step_other {s s' : St L n B} {a : Act L n B} {t : Fin n} (h : step cfg s a = some s')
    (h1 : a ≠ .run t) (h2 : a ≠ .ret t) (h3 : s.th t ≠ .idle) : s'.th t = s.th t := by
  cases a with
  | call u o =>
    have hu : u ≠ t := by
      rintro rfl
      simp only [step] at h
      cases h
    simp only [step] at h
    (repeat' split at h) <;> cases h <;> exact upd_ne _ _ (Ne.symm hu)
  | ret u =>
    have hu : t ≠ u := fun e => h2 (by rw [e])
    simp only [step] at h
    split at h
    · cases h; exact upd_ne _ _ hu
    · cases h
  | run u =>
    have hu : t ≠ u := fun e => h1 (by rw [e])
    simp only [step, run] at h
    (repeat' split at h) <;> cases h <;> first | exact upd_ne _ _ hu | rfl

/-- `t` has returned from an enqueue (`e = true`) or from a dequeue. -/
def returned (e : Bool) : PC L B → Bool
  | .ret (.enq ..) => e
  | .ret (.deq _) => !e
  | _ => false

/-- Where an operation that must not loop can be. -/
def Line (cfg : Cfg n) (e : Bool) : PC L B → Prop
  | .spLoad _ | .wr .. | .commit .. => e = true ∧ cfg.sp ≠ none
  | .scLoad _ | .cp none .. | .scStore .. => e = false
  | .mcLoad b _ | .mcP b .. | .cp (some b) .. | .mcCas b .. => e = false ∧ b = true
  | .ret r => returned e (PC.ret r : PC L B) = true
  | _ => False

theorem run_line {e : Bool} {s : St L n B} {t : Fin n} (h : Line cfg e (s.th t)) :
    returned e (s.th t) = true ∨
      ∃ s', run cfg s t = some s' ∧ Line cfg e (s'.th t) ∧ rank (s'.th t) + 1 ≤ rank (s.th t) := by
  unfold run
  cases hp : s.th t with
  | ret r => rw [hp] at h; exact .inl h
  | spLoad v =>
    rw [hp] at h
    right; simp only
    split
    · exact ⟨_, rfl, by simp [Line, returned, h.1], by simp [rank]⟩
    · exact ⟨_, rfl, by simpa [Line] using h, by simp [rank]⟩
  | wr v p sz j =>
    rw [hp] at h
    right; simp only
    split
    · exact ⟨_, rfl, by simpa [Line] using h, by simp [rank]; omega⟩
    · cases hq : cfg.sp with
      | none => exact absurd hq h.2
      | some q => exact ⟨_, rfl, by simpa [Line] using h, by simp [rank]⟩
  | commit v p sz =>
    rw [hp] at h
    exact .inr ⟨_, rfl, by simp [Line, returned, h.1], by simp [rank]⟩
  | scLoad d =>
    rw [hp] at h
    right; simp only
    split
    · exact ⟨_, rfl, by simp only [Line] at h; simp [Line, returned, h], by simp [rank]⟩
    · exact ⟨_, rfl, by simpa [Line] using h, by simp [rank]⟩
  | mcLoad b d =>
    rw [hp] at h
    exact .inr ⟨_, rfl, by simpa [Line] using h, by simp [rank]⟩
  | mcP b d c =>
    rw [hp] at h
    right; simp only
    split
    · exact ⟨_, rfl, by simp [Line, returned, h.1], by simp [rank]⟩
    · exact ⟨_, rfl, by simpa [Line] using h, by simp [rank]⟩
  | cp m d c j =>
    rw [hp] at h
    right; simp only
    split
    · exact ⟨_, rfl, by cases m <;> simpa [Line] using h, by simp [rank]; omega⟩
    · cases m with
      | none => exact ⟨_, rfl, by simpa [Line] using h, by simp [rank]⟩
      | some b => exact ⟨_, rfl, by simpa [Line] using h, by simp [rank]⟩
  | scStore d c =>
    rw [hp] at h
    exact .inr ⟨_, rfl, by simp only [Line] at h; simp [Line, returned, h], by simp [rank]⟩
  | mcCas b d c =>
    rw [hp] at h
    right; simp only
    obtain ⟨he, rfl⟩ := h
    split
    · exact ⟨_, rfl, by simp [Line, returned, he], by simp [rank]⟩
    · exact ⟨_, rfl, by simp [Line, returned, he], by simp [rank]⟩
  | _ => rw [hp] at h; exact h.elim

theorem line_steps {e : Bool} {s s' : St L n B} {s0 : St L n B} {t : Fin n} {as : List (Act L n B)}
    (h : (sys cfg s0).Exec s as s') (hl : Line cfg e (s.th t)) (hr : Act.ret t ∉ as) :
    Line cfg e (s'.th t) ∧ steps t as + rank (s'.th t) ≤ rank (s.th t) := by
  induction h with
  | nil => exact ⟨hl, by simp [steps]⟩
  | @cons s s1 s' a as h1 _ ih =>
    have h1 : step cfg s a = some s1 := h1
    by_cases ha : a = .run t
    · subst ha
      have h1 : run cfg s t = some s1 := h1
      rcases run_line hl with hd | ⟨s2, h2, h3, h4⟩
      · exfalso
        revert h1 hd
        unfold run
        cases s.th t <;> simp [returned]
      · rw [h1] at h2; cases h2
        obtain ⟨i1, i2⟩ := ih h3 (fun hm => hr (List.mem_cons_of_mem _ hm))
        refine ⟨i1, ?_⟩
        simp only [steps, if_true]
        omega
    · have hid : s.th t ≠ .idle := fun e => by rw [e] at hl; exact hl
      have e := step_other h1 ha (fun e => hr (by rw [e]; exact List.mem_cons_self)) hid
      rw [← e] at hl
      obtain ⟨i1, i2⟩ := ih hl (fun hm => hr (List.mem_cons_of_mem _ hm))
      rw [e] at i2
      refine ⟨i1, ?_⟩
      cases a with
      | run u => simp only [steps, if_neg (show u ≠ t from fun e => ha (by rw [e]))]; omega
      | call u o => exact i2
      | ret u => exact i2

/-- After a call by `t`: however long the others run, `t` has returned, or it has made fewer than `b` steps and can make the next. -/
def WaitFree (cfg : Cfg n) (e : Bool) (b : Nat) (t : Fin n) (s : St L n B) : Prop :=
  ∀ as s', (sys cfg s).Exec s as s' → Act.ret t ∉ as →
    steps t as ≤ b ∧ (returned e (s'.th t) = true ∨ (steps t as < b ∧ ∃ s'', step cfg s' (.run t) = some s''))

theorem line_wait_free {e : Bool} {b : Nat} {t : Fin n} {s : St L n B} (hl : Line cfg e (s.th t)) (hb : rank (s.th t) ≤ b) :
    WaitFree cfg e b t s := by
  intro as s' h hr
  obtain ⟨h1, h2⟩ := line_steps h hl hr
  refine ⟨by omega, ?_⟩
  rcases run_line h1 with hd | ⟨s2, h3, h4, h5⟩
  · exact .inl hd
  · exact .inr ⟨by omega, s2, h3⟩

/-- `ck_ring_enqueue_spsc` and `ck_ring_enqueue_spmc` are wait-free: at most `L + 3` steps for an entry of `L` chunks. -/
theorem enqueue_sp_wait_free {q t : Fin n} (hq : cfg.sp = some q) {v : Val L B} {s s1 : St L n B}
    (h : step cfg s (.call t (.enq v)) = some s1) : WaitFree cfg true (L + 3) t s1 := by
  simp only [step, hq] at h
  split at h
  · split at h
    · cases h
      refine line_wait_free ?_ ?_
      · show Line cfg true (upd s.th t _ t)
        rw [upd_same]; exact ⟨rfl, by rw [hq]; simp⟩
      · show rank (upd s.th t _ t) ≤ _
        rw [upd_same]; exact Nat.le_refl _
    · cases h
  · cases h

/-- `ck_ring_dequeue_spsc` and `ck_ring_dequeue_mpsc` are wait-free. -/
theorem dequeue_sc_wait_free {q t : Fin n} (hq : cfg.sc = some q) {d : Val L B} {s s1 : St L n B}
    (h : step cfg s (.call t (.deq d)) = some s1) : WaitFree cfg false (L + 3) t s1 := by
  simp only [step, hq] at h
  split at h
  · split at h
    · cases h
      refine line_wait_free ?_ ?_
      · show Line cfg false (upd s.th t _ t)
        rw [upd_same]; rfl
      · show rank (upd s.th t _ t) ≤ _
        rw [upd_same]; exact Nat.le_refl _
    · cases h
  · cases h

/-- `ck_ring_trydequeue_spmc` and `ck_ring_trydequeue_mpmc` are wait-free. -/
theorem trydequeue_wait_free {t : Fin n} {d : Val L B} {s s1 : St L n B}
    (h : step cfg s (.call t (.tryDeq d)) = some s1) : WaitFree cfg false (L + 4) t s1 := by
  simp only [step] at h
  split at h
  · split at h
    · cases h
    · cases h
      refine line_wait_free ?_ ?_
      · show Line cfg false (upd s.th t _ t)
        rw [upd_same]; exact ⟨rfl, rfl⟩
      · show rank (upd s.th t _ t) ≤ _
        rw [upd_same]; exact Nat.le_refl _
  · cases h

/-! ## The dequeues are lock-free -/

/-- Only the dequeues are counted. -/
def kind (s : St L n B) : Act L n B → Kind
  | .call _ (.enq _) => .other
  | .call _ _ => .call
  | .ret t => match s.th t with
    | .ret (.deq _) => .ret
    | _ => .other
  | .run t => match s.th t with
    | .scLoad _ | .mcLoad .. | .mcP .. | .cp .. | .scStore .. | .mcCas .. => .work
    | _ => .other

/-- Any ring without operations in progress, with the given single producer and consumer. -/
def sysQ (cfg : Cfg n) : Sys (St L n B) (Act L n B) :=
  { init := fun s => ∀ t, s.th t = .idle, step := step cfg }

/-- Steps left if nobody interferes, and the copy of `c_head`. -/
def base : PC L B → Nat × Option (BitVec 32)
  | .scLoad _ => (L + 3, none)
  | .mcLoad .. => (L + 4, none)
  | .mcP _ _ c => (L + 3, some c)
  | .cp none _ _ j => (L - j + 2, none)
  | .cp (some _) _ c j => (L - j + 2, some c)
  | .scStore .. => (1, none)
  | .mcCas _ _ c => (1, some c)
  | _ => (0, none)

/-- What an outdated copy costs. -/
def stale (L : Nat) (c : BitVec 32) : Option (BitVec 32) → Nat
  | none => 0
  | some c' => if c' = c then 0 else L + 3

theorem stale_le (c : BitVec 32) (o : Option (BitVec 32)) : stale L c o ≤ L + 3 := by
  unfold stale; split <;> (try split) <;> omega

def left (s : St L n B) (t : Fin n) : Nat := (base (s.th t)).1 + stale L s.c_head (base (s.th t)).2

def pend (pc : PC L B) : Nat := if (base pc).1 = 0 then 0 else 1

/-- In a dequeue. -/
def inOp : PC L B → Nat
  | .scLoad _ | .mcLoad .. | .mcP .. | .cp .. | .scStore .. | .mcCas .. | .ret (.deq _) => 1
  | _ => 0

/-- A step of an enqueue does not touch `c_head`; a step of a dequeue writes `c_head` and ends the dequeue, or brings it closer to its
end. -/
theorem run_cases {s s' : St L n B} {t : Fin n} (h : run cfg s t = some s') :
    ∃ pc, s'.th = upd s.th t pc ∧ inOp pc = inOp (s.th t) ∧
      ((kind s (.run t) = .other ∧ s'.c_head = s.c_head ∧ base pc = (0, none) ∧ base (s.th t) = (0, none)) ∨
       (kind s (.run t) = .work ∧ pend (s.th t) = 1 ∧ (base pc = (0, none) ∨ s'.c_head = s.c_head ∧ left s' t + 1 ≤ left s t))) := by
  unfold run at h
  cases hp : s.th t with
  | idle => rw [hp] at h; cases h
  | ret r => rw [hp] at h; cases h
  | spLoad v =>
    simp only [hp] at h
    split at h <;> cases h <;> exact ⟨_, rfl, rfl, .inl ⟨by simp [kind, hp], rfl, rfl, rfl⟩⟩
  | mpLoad v =>
    simp only [hp] at h; cases h
    exact ⟨_, rfl, rfl, .inl ⟨by simp [kind, hp], rfl, rfl, rfl⟩⟩
  | mpC v p =>
    simp only [hp] at h; cases h
    exact ⟨_, rfl, by split <;> rfl, .inl ⟨by simp [kind, hp], rfl, by split <;> rfl, rfl⟩⟩
  | mpCas v p c =>
    simp only [hp] at h
    split at h <;> cases h <;> exact ⟨_, rfl, rfl, .inl ⟨by simp [kind, hp], rfl, rfl, rfl⟩⟩
  | mpRe v p c =>
    simp only [hp] at h
    split at h <;> cases h <;> exact ⟨_, rfl, rfl, .inl ⟨by simp [kind, hp], rfl, rfl, rfl⟩⟩
  | wr v p sz j =>
    simp only [hp] at h
    split at h
    · cases h; exact ⟨_, rfl, rfl, .inl ⟨by simp [kind, hp], rfl, rfl, rfl⟩⟩
    · split at h <;> cases h <;> exact ⟨_, rfl, rfl, .inl ⟨by simp [kind, hp], rfl, rfl, rfl⟩⟩
  | wait v p sz =>
    simp only [hp] at h
    split at h <;> cases h
    · exact ⟨_, rfl, rfl, .inl ⟨by simp [kind, hp], rfl, rfl, rfl⟩⟩
    · exact ⟨.wait v p sz, by rw [← hp, upd_eq_self], rfl, .inl ⟨by simp [kind, hp], rfl, rfl, rfl⟩⟩
  | commit v p sz =>
    simp only [hp] at h; cases h
    exact ⟨_, rfl, rfl, .inl ⟨by simp [kind, hp], rfl, rfl, rfl⟩⟩
  | scLoad d =>
    simp only [hp] at h
    split at h <;> cases h
    · exact ⟨_, rfl, rfl, .inr ⟨by simp [kind, hp], by simp [pend, base], .inl rfl⟩⟩
    · exact ⟨_, rfl, rfl, .inr ⟨by simp [kind, hp], by simp [pend, base], .inr ⟨rfl, by simp [left, hp, base, stale]⟩⟩⟩
  | mcLoad b d =>
    simp only [hp] at h; cases h
    exact ⟨_, rfl, rfl, .inr ⟨by simp [kind, hp], by simp [pend, base], .inr ⟨rfl, by simp [left, hp, base, stale]⟩⟩⟩
  | mcP b d c =>
    simp only [hp] at h
    split at h <;> cases h
    · exact ⟨_, rfl, rfl, .inr ⟨by simp [kind, hp], by simp [pend, base], .inl rfl⟩⟩
    · exact ⟨_, rfl, rfl, .inr ⟨by simp [kind, hp], by simp [pend, base], .inr ⟨rfl, by simp [left, hp, base]; omega⟩⟩⟩
  | cp m d c j =>
    simp only [hp] at h
    split at h
    · cases h
      cases m <;>
        exact ⟨_, rfl, rfl, .inr ⟨by simp [kind, hp], by simp [pend, base], .inr ⟨rfl, by simp [left, hp, base]; omega⟩⟩⟩
    · cases m <;> cases h <;>
        exact ⟨_, rfl, rfl, .inr ⟨by simp [kind, hp], by simp [pend, base], .inr ⟨rfl, by simp [left, hp, base]; omega⟩⟩⟩
  | scStore d c =>
    simp only [hp] at h; cases h
    exact ⟨_, rfl, rfl, .inr ⟨by simp [kind, hp], by simp [pend, base], .inl rfl⟩⟩
  | mcCas b d c =>
    simp only [hp] at h
    split at h
    · cases h; exact ⟨_, rfl, rfl, .inr ⟨by simp [kind, hp], by simp [pend, base], .inl rfl⟩⟩
    · next hne =>
      split at h <;> cases h
      · exact ⟨_, rfl, rfl, .inr ⟨by simp [kind, hp], by simp [pend, base], .inl rfl⟩⟩
      · refine ⟨_, rfl, rfl, .inr ⟨by simp [kind, hp], by simp [pend, base], .inr ⟨rfl, ?_⟩⟩⟩
        simp [left, hp, base, stale, Ne.symm hne]; omega

/-- A call or a return. -/
theorem step_th {s s' : St L n B} {a : Act L n B} (h : step cfg s a = some s') (ha : ∀ t, a ≠ .run t) :
    ∃ t pc, s' = { s with th := upd s.th t pc } ∧ base (s.th t) = (0, none) ∧
      ((kind s a = .call ∧ inOp (s.th t) = 0 ∧ inOp pc = 1 ∧ (base pc).1 ≤ L + 4 ∧ (base pc).2 = none)
        ∨ (kind s a = .ret ∧ inOp (s.th t) = 1 ∧ inOp pc = 0 ∧ base pc = (0, none))
        ∨ (kind s a = .other ∧ inOp (s.th t) = 0 ∧ inOp pc = 0 ∧ base pc = (0, none))) := by
  cases a with
  | run t => exact absurd rfl (ha t)
  | call t o =>
    simp only [step] at h
    split at h
    · next hid =>
      have h0 : base (s.th t) = (0, none) := by rw [hid]; rfl
      have h1 : inOp (s.th t) = 0 := by rw [hid]; rfl
      cases o with
      | enq v =>
        simp only at h
        split at h
        · split at h
          · cases h; exact ⟨t, _, rfl, h0, .inr (.inr ⟨rfl, h1, rfl, rfl⟩)⟩
          · cases h
        · cases h; exact ⟨t, _, rfl, h0, .inr (.inr ⟨rfl, h1, rfl, rfl⟩)⟩
      | deq d =>
        simp only at h
        split at h
        · split at h
          · cases h; exact ⟨t, _, rfl, h0, .inl ⟨rfl, h1, rfl, by simp [base], rfl⟩⟩
          · cases h
        · cases h; exact ⟨t, _, rfl, h0, .inl ⟨rfl, h1, rfl, by simp [base], rfl⟩⟩
      | tryDeq d =>
        simp only at h
        split at h
        · cases h
        · cases h; exact ⟨t, _, rfl, h0, .inl ⟨rfl, h1, rfl, by simp [base], rfl⟩⟩
    · cases h
  | ret t =>
    simp only [step] at h
    split at h
    · next r hr =>
      cases h
      have h0 : base (s.th t) = (0, none) := by rw [hr]; rfl
      cases r with
      | enq ok sz => exact ⟨t, _, rfl, h0, .inr (.inr ⟨by simp [kind, hr], by rw [hr]; rfl, rfl, rfl⟩)⟩
      | deq v => exact ⟨t, _, rfl, h0, .inr (.inl ⟨by simp [kind, hr], by rw [hr]; rfl, rfl, rfl⟩)⟩
    · cases h

/-- The potential: steps left, and for every dequeue that may still write `c_head` the steps this would cost the others. -/
def share (s : St L n B) (t : Fin n) : Nat := left s t + (L + 3) * n * pend (s.th t)

def pot (s : St L n B) : Nat := ∑ t, share s t

theorem share_zero {s : St L n B} {t : Fin n} (h : base (s.th t) = (0, none)) : share s t = 0 := by
  simp [share, left, pend, h, stale]

def busy (s : St L n B) : Nat := ∑ t, inOp (s.th t)

theorem inOp_le (pc : PC L B) : inOp pc ≤ 1 := by
  unfold inOp; split <;> simp

theorem busy_le (s : St L n B) : busy s ≤ n := by
  unfold busy
  exact Nat.le_trans (Finset.sum_le_card_nsmul _ _ 1 fun t _ => inOp_le _) (by simp)

theorem busy_upd (s s' : St L n B) (t : Fin n) (pc : PC L B) (h : s'.th = upd s.th t pc) :
    busy s' + inOp (s.th t) = busy s + inOp pc := by
  have := sum_eq (fun u => inOp (s.th u)) (fun u => inOp (s'.th u)) t (fun u hu => by rw [h, upd_ne _ _ hu])
  simp only [h, upd_same] at this
  unfold busy
  rw [h]
  exact this

/-- The dequeues (`_sc`, `_mc` and `try`) are lock-free: whatever the scheduler does, and wherever producers and consumers are stopped,
the steps of all dequeues together are bounded by the number of dequeues that have returned and the number of threads. -/
theorem dequeue_lock_free (cfg : Cfg n) {c : Ct (St L n B)} (h : (counted (sysQ cfg) kind).Reach c) :
    c.work ≤ ((L + 3) * n + L + 4) * (c.rets + n) := by
  refine bound pot busy ((L + 3) * n + L + 4) n ?_ busy_le ?_ h
  · intro s h0
    have h0 : ∀ t, s.th t = .idle := h0
    constructor
    · exact Finset.sum_eq_zero fun t _ => share_zero (by rw [h0 t]; rfl)
    · exact Finset.sum_eq_zero fun t _ => by rw [h0 t]; rfl
  · intro s a s' _ hs
    have hs : step cfg s a = some s' := hs
    by_cases ha : ∃ t, a = .run t
    · obtain ⟨t, rfl⟩ := ha
      obtain ⟨pc, hth, hop, hc⟩ := run_cases (show run cfg s t = some s' from hs)
      have hb := busy_upd s s' t pc hth
      rw [hop] at hb
      have hth' : ∀ u, u ≠ t → s'.th u = s.th u := fun u hu => by rw [hth, upd_ne _ _ hu]
      have hpc : s'.th t = pc := by rw [hth, upd_same]
      have hsh : s'.c_head = s.c_head → pot s' + share s t = pot s + share s' t := fun hv =>
        sum_eq (share s) (share s') t fun u hu => by simp only [share, left, hth' u hu, hv]
      rcases hc with ⟨hk, hv, h1, h2⟩ | ⟨hk, hp, hc⟩
      · rw [hk]
        have h3 := hsh hv
        rw [share_zero h2, share_zero (hpc ▸ h1)] at h3
        exact ⟨by omega, by omega⟩
      · rw [hk]
        refine ⟨?_, by omega⟩
        rcases hc with h0 | ⟨hv, hl⟩
        · have := sum_step (share s) (share s') t (L + 3) (fun u hu => by
            simp only [share, left, hth' u hu]
            have := stale_le (L := L) s'.c_head (base (s.th u)).2
            omega)
          have hl : share s' t = 0 := share_zero (hpc ▸ h0)
          have hl' : 1 + (L + 3) * n ≤ share s t := by
            unfold share left; rw [hp]
            have : (base (s.th t)).1 ≠ 0 := by
              intro e; simp [pend, e] at hp
            omega
          show ∑ u, share s' u + 1 ≤ ∑ u, share s u
          omega
        · have h3 : (L + 3) * n * pend (s'.th t) ≤ (L + 3) * n * pend (s.th t) := by
            refine Nat.mul_le_mul_left _ ?_
            rw [hp]; unfold pend; split <;> omega
          have h4 := hsh hv
          unfold share at h4
          omega
    · obtain ⟨t, pc, e, h0, hc⟩ := step_th hs fun t e => ha ⟨t, e⟩
      have hth : s'.th = upd s.th t pc := by rw [e]
      have hv : s'.c_head = s.c_head := by rw [e]
      have hb := busy_upd s s' t pc hth
      have hth' : ∀ u, u ≠ t → s'.th u = s.th u := fun u hu => by rw [hth, upd_ne _ _ hu]
      have hpc : s'.th t = pc := by rw [hth, upd_same]
      have hsh : pot s' + share s t = pot s + share s' t :=
        sum_eq (share s) (share s') t fun u hu => by simp only [share, left, hth' u hu, hv]
      rw [share_zero h0] at hsh
      rcases hc with ⟨hk, h1, h2, h3, h4⟩ | ⟨hk, h1, h2, h3⟩ | ⟨hk, h1, h2, h3⟩
      · rw [hk]
        refine ⟨?_, by omega⟩
        have h5 : left s' t ≤ L + 4 := by simp only [left, hpc, h4, stale]; omega
        have h6 : (L + 3) * n * pend (s'.th t) ≤ (L + 3) * n := by
          unfold pend; split <;> simp
        have h7 : share s' t ≤ (L + 3) * n + L + 4 := by unfold share; omega
        omega
      · rw [hk]
        rw [share_zero (hpc ▸ h3)] at hsh
        exact ⟨by omega, by omega⟩
      · rw [hk]
        rw [share_zero (hpc ▸ h3)] at hsh
        exact ⟨by omega, by omega⟩

/-- From any state whatever, a dequeue that runs alone ends within `2 L + 6` steps. -/
theorem dequeue_alone_returns (cfg : Cfg n) (s : St L n B) (t : Fin n) (hd : inOp (s.th t) = 1) :
    ∃ j s', j ≤ 2 * L + 6 ∧ alone (fun s => run cfg s t) j s = some s' ∧ ∃ r, s'.th t = .ret (.deq r) := by
  refine alone_ends (fun s => run cfg s t) (fun s => left s t) (fun s => inOp (s.th t) = 1) (fun s => ∃ r, s.th t = .ret (.deq r))
    ?_ ?_ (2 * L + 6) s hd ?_
  · intro s s' hi hs
    obtain ⟨pc, hth, hop, -⟩ := run_cases (show run cfg s t = some s' from hs)
    show inOp (s'.th t) = 1
    rw [hth, upd_same, hop]; exact hi
  · intro s hi hnd
    have hen : ∃ s', run cfg s t = some s' := by
      unfold run
      cases hp : s.th t with
      | ret r =>
        rw [hp] at hi hnd
        cases r with
        | enq ok sz => cases hi
        | deq v => exact absurd ⟨v, rfl⟩ hnd
      | scLoad d => simp only; split <;> exact ⟨_, rfl⟩
      | mcLoad b d => exact ⟨_, rfl⟩
      | mcP b d c => simp only; split <;> exact ⟨_, rfl⟩
      | cp m d c j => simp only; split <;> (try split) <;> exact ⟨_, rfl⟩
      | scStore d c => exact ⟨_, rfl⟩
      | mcCas b d c => simp only; split <;> (try split) <;> exact ⟨_, rfl⟩
      | _ => rw [hp] at hi; cases hi
    obtain ⟨s', hs⟩ := hen
    refine ⟨s', hs, ?_⟩
    obtain ⟨pc, hth, hop, hc⟩ := run_cases (show run cfg s t = some s' from hs)
    have hpc : s'.th t = pc := by rw [hth, upd_same]
    rcases hc with ⟨-, -, -, h2⟩ | ⟨-, hp, hc⟩
    · exfalso
      have hs : run cfg s t = some s' := hs
      revert hs hi h2
      unfold run
      cases s.th t <;> simp [inOp, base]
      next m d c j => cases m <;> simp
    · rcases hc with h0 | ⟨-, h⟩
      · have : (base (s.th t)).1 ≠ 0 := by
          intro e; simp [pend, e] at hp
        simp only [left, hpc, h0, stale]
        omega
      · exact h
  · have := stale_le (L := L) s.c_head (base (s.th t)).2
    unfold left
    have h : (base (s.th t)).1 + stale L s.c_head (base (s.th t)).2 ≤ 2 * L + 6 := by
      cases hp : s.th t with
      | mcLoad b d => simp only [base, stale]; omega
      | cp m d c j => rw [hp] at this; cases m <;> simp only [base] at * <;> omega
      | _ => rw [hp] at this; simp only [base] at *; omega
    exact h

/-! ## The multi-producer enqueue blocks -/

/-- A reserved slot stays reserved, and at its place, until it is committed. -/
theorem own_keep {s s' : St L n B} {a : Act L n B} {t : Fin n} (h : step cfg s a = some s') (ho : own (s.th t) = true)
    (hc : a = .run t → ∀ v p sz, s.th t ≠ .commit v p sz) : own (s'.th t) = true ∧ s'.gp t = s.gp t := by
  cases a with
  | call u o =>
    have hu : t ≠ u := by
      rintro rfl
      simp only [step] at h
      split at h
      · next e => rw [e] at ho; cases ho
      · cases h
    simp only [step] at h
    (repeat' split at h) <;> cases h <;> exact ⟨by simp only [upd_ne _ _ hu]; exact ho, rfl⟩
  | ret u =>
    have hu : t ≠ u := by
      rintro rfl
      simp only [step] at h
      split at h
      · next e => rw [e] at ho; cases ho
      · cases h
    simp only [step] at h
    split at h
    · cases h; exact ⟨by simp only [upd_ne _ _ hu]; exact ho, rfl⟩
    · cases h
  | run u =>
    simp only [step, run] at h
    by_cases hu : t = u
    · subst hu
      cases hp : s.th t with
      | wr v p sz j =>
        simp only [hp] at h
        (repeat' split at h) <;> cases h <;> exact ⟨by simp only [upd_same]; rfl, rfl⟩
      | wait v p sz =>
        simp only [hp] at h
        split at h <;> cases h
        · exact ⟨by simp only [upd_same]; rfl, rfl⟩
        · exact ⟨by rw [hp]; rfl, rfl⟩
      | commit v p sz => exact absurd hp (hc rfl v p sz)
      | _ => rw [hp] at ho; cases ho
    · (repeat' split at h) <;> cases h <;>
        exact ⟨by first | (simp only [upd_ne _ _ hu]; exact ho) | exact ho, by first | rfl | (simp only [upd_ne _ _ hu])⟩

/-- A producer that stops after its reservation blocks every producer with a later reservation for ever: however long the others run,
their enqueues do not return. -/
theorem enqueue_mp_blocked (hk : cfg.k ≤ 31) {Q0 : List (Val L B)} {s0 s s' : St L n B} (h0 : Start cfg Q0 s0)
    (h : (sysF cfg s0).Reach s) {u t : Fin n} (hu : own (s.th u) = true) (ht : own (s.th t) = true) (hut : s.gp u < s.gp t)
    {as : List (Act L n B)} (he : (sysF cfg s0).Exec s as s') (hs : Act.run u ∉ as) :
    own (s'.th u) = true ∧ own (s'.th t) = true ∧ s'.PT ≤ s.gp u := by
  generalize hg : s.gp u = g at *
  induction he with
  | nil s =>
    refine ⟨hu, ht, ?_⟩
    obtain ⟨p, sz, -, h1, -⟩ := ((inv hk h0 h).loc u).toOwn hu
    omega
  | @cons s s1 s' a as h1 _ ih =>
    have h1' : step cfg s a = some s1 := by
      have h1 : (if Fresh s then step cfg s a else none) = some s1 := h1
      split at h1
      · exact h1
      · cases h1
    have hI := inv hk h0 h
    obtain ⟨k1, k2⟩ := own_keep h1' hu (fun e => absurd (e ▸ List.mem_cons_self) hs)
    obtain ⟨k3, k4⟩ := own_keep h1' ht (fun _ v p sz hp => by
      have hl := hI.loc t
      rw [hp] at hl
      obtain ⟨p', sz', -, h2, -⟩ := (hI.loc u).toOwn hu
      have := hl.2.1
      omega)
    exact ih (.step h h1) k1 k3 (fun hm => hs (List.mem_cons_of_mem _ hm)) (by rw [k2]; exact hg) (by rw [k4]; exact hut)

end Verif.Ring.Lf
