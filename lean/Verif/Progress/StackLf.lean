import Verif.Progress.Lf
import Verif.Stack.Stack

/-!
# `ck_stack` is lock-free (C104)

The model of C32 and C33 (`Stack/Stack.lean`), in every mode: also with batch pops and with entries that are reused at once, where
the stack is not linearizable (C34).  A thread that is stopped anywhere for ever is one that is not scheduled any more.

`base` is the number of steps that an operation needs if no other thread writes `head`; an attempt that began before the last write
(`stale`) costs two steps more.
-/

namespace Verif.Stack.Lf

open Verif Verif.Lf Verif.Stack

variable {N : Type} {n : Nat}

/-- Steps of a thread: following `next` through a list that was popped as a whole is up to the caller. -/
def kind (s : St N n) : Act N n → Kind
  | .call _ _ => .call
  | .ret _ => .ret
  | .run t => match s.th t with
    | .walk _ _ _ => .other
    | _ => .work

/-- The stack of `Stack/Stack.lean` with its quiescent starts. -/
def sys [DecidableEq N] (m : Mode) : Sys (St N n) (Act N n) :=
  { init := fun s => ∃ X0, Start X0 s, step := step m }

/-- Steps left if nobody interferes, and the count of writes of `head` at the beginning of the attempt. -/
def base : PC N → Nat × Option Nat
  | .psh _ _ => (3, none)
  | .pshW _ _ _ g => (2, some g)
  | .pshC _ _ _ g => (1, some g)
  | .pop _ => (3, none)
  | .popN _ _ g => (2, some g)
  | .popC _ _ _ g => (1, some g)
  | .bat => (1, none)
  | .mp _ => (4, none)
  | .mpH _ _ _ g => (3, some g)
  | .mpN _ _ _ g _ => (2, some g)
  | .mpC _ _ _ g _ _ => (1, some g)
  | .idle | .walk _ _ _ | .ret _ => (0, none)

def stale (v : Nat) : Option Nat → Nat
  | none => 0
  | some g => if g = v then 0 else 2

/-- Steps left for `t` if it runs alone from now on. -/
def left (s : St N n) (t : Fin n) : Nat := (base (s.th t)).1 + stale s.ver (base (s.th t)).2

/-- The operation may still write `head`. -/
def pend (pc : PC N) : Nat := if (base pc).1 = 0 then 0 else 1

/-- If nobody wrote `head` since the attempt began, the snapshot is valid. -/
def Loc (s : St N n) : PC N → Prop
  | .pshW _ _ e g | .pshC _ _ e g => g ≤ s.ver ∧ (g = s.ver → s.head = e)
  | .popN _ e g | .popC _ e _ g => g ≤ s.ver ∧ (g = s.ver → s.head = some e)
  | .mpH _ gn _ g => g ≤ s.ver ∧ (g = s.ver → s.gen = gn)
  | .mpN _ gn _ g e | .mpC _ gn _ g e _ => g ≤ s.ver ∧ (g = s.ver → s.head = some e ∧ s.gen = gn)
  | _ => True

theorem Loc.keep {s s' : St N n} {pc : PC N} (h : Loc s pc)
    (hk : s'.ver = s.ver + 1 ∨ (s'.ver = s.ver ∧ s'.head = s.head ∧ s'.gen = s.gen)) : Loc s' pc := by
  rcases hk with hv | ⟨hv, hh, hg⟩
  · cases pc <;> first
      | trivial
      | (obtain ⟨h1, -⟩ := h; refine ⟨by rw [hv]; omega, fun e => ?_⟩; rw [hv] at e; omega)
  · cases pc <;> first
      | trivial
      | (simp only [Loc, hv, hh, hg] at *; exact h)

variable [DecidableEq N]

/-- What a step of a running operation does: it writes `head` and ends, or it leaves `head` alone and has fewer steps left. -/
theorem run_cases {s s' : St N n} (hi : ∀ t, Loc s (s.th t)) {t : Fin n} (h : run s t = some s') :
    (∃ pc, s'.th = upd s.th t pc ∧ Loc s' pc ∧ pc ≠ .idle) ∧ s.th t ≠ .idle ∧
    ((s'.ver = s.ver + 1 ∧ pend (s.th t) = 1 ∧ pend (s'.th t) = 0) ∨
      (s'.ver = s.ver ∧ s'.head = s.head ∧ s'.gen = s.gen ∧
        ((base (s.th t)).1 ≠ 0 → left s' t + 1 ≤ left s t) ∧ ((base (s.th t)).1 = 0 → (base (s'.th t)).1 = 0))) := by
  have hl := hi t
  unfold run at h
  cases hp : s.th t with
  | idle => rw [hp] at h; cases h
  | ret r => rw [hp] at h; cases h
  | psh tr x =>
    simp only [hp] at h; cases h
    refine ⟨⟨_, rfl, ⟨Nat.le_refl _, fun _ => rfl⟩, by simp⟩, by simp, .inr ⟨rfl, rfl, rfl, fun _ => ?_, fun e => ?_⟩⟩
    · simp [left, hp, base, stale]
    · cases e
  | pshW tr x e g =>
    simp only [hp] at h hl; cases h
    refine ⟨⟨_, rfl, hl, by simp⟩, by simp, .inr ⟨rfl, rfl, rfl, fun _ => ?_, fun e => ?_⟩⟩
    · simp [left, hp, base]; omega
    · cases e
  | pshC tr x e g =>
    simp only [hp] at h hl
    split at h
    · cases h
      exact ⟨⟨_, rfl, by split <;> trivial, by split <;> simp⟩, by simp, .inl ⟨rfl, rfl, by simp [pend, base]⟩⟩
    · next hne =>
      have hg : g ≠ s.ver := fun e' => hne (hl.2 e')
      split at h
      · cases h
        refine ⟨⟨_, rfl, trivial, by simp⟩, by simp, .inr ⟨rfl, rfl, rfl, fun _ => ?_, fun e => ?_⟩⟩
        · simp [left, hp, base, stale]
        · cases e
      · cases h
        refine ⟨⟨_, rfl, ⟨Nat.le_refl _, fun _ => rfl⟩, by simp⟩, by simp, .inr ⟨rfl, rfl, rfl, fun _ => ?_, fun e => ?_⟩⟩
        · simp [left, hp, base, stale, hg]
        · cases e
  | pop tr =>
    simp only [hp] at h
    split at h <;> cases h
    · refine ⟨⟨_, rfl, trivial, by simp⟩, by simp, .inr ⟨rfl, rfl, rfl, fun _ => ?_, fun e => ?_⟩⟩
      · simp [left, hp, base, stale]
      · cases e
    · next e he =>
      refine ⟨⟨_, rfl, ⟨Nat.le_refl _, fun _ => he⟩, by simp⟩, by simp, .inr ⟨rfl, rfl, rfl, fun _ => ?_, fun e => ?_⟩⟩
      · simp [left, hp, base, stale]
      · cases e
  | popN tr e g =>
    simp only [hp] at h hl; cases h
    refine ⟨⟨_, rfl, hl, by simp⟩, by simp, .inr ⟨rfl, rfl, rfl, fun _ => ?_, fun e => ?_⟩⟩
    · simp [left, hp, base]; omega
    · cases e
  | popC tr e nx g =>
    simp only [hp] at h hl
    split at h
    · cases h
      exact ⟨⟨_, rfl, trivial, by simp⟩, by simp, .inl ⟨rfl, rfl, by simp [pend, base]⟩⟩
    · next hne =>
      have hg : g ≠ s.ver := fun e' => hne (hl.2 e')
      split at h
      · cases h
        refine ⟨⟨_, rfl, trivial, by simp⟩, by simp, .inr ⟨rfl, rfl, rfl, fun _ => ?_, fun e => ?_⟩⟩
        · simp [left, hp, base, stale]
        · cases e
      · split at h <;> cases h
        · refine ⟨⟨_, rfl, trivial, by simp⟩, by simp, .inr ⟨rfl, rfl, rfl, fun _ => ?_, fun e => ?_⟩⟩
          · simp [left, hp, base, stale]
          · cases e
        · next he =>
          refine ⟨⟨_, rfl, ⟨Nat.le_refl _, fun _ => he⟩, by simp⟩, by simp, .inr ⟨rfl, rfl, rfl, fun _ => ?_, fun e => ?_⟩⟩
          · simp [left, hp, base, stale, hg]
          · cases e
  | bat =>
    simp only [hp] at h; cases h
    exact ⟨⟨_, rfl, trivial, by simp⟩, by simp, .inl ⟨rfl, rfl, by simp [pend, base]⟩⟩
  | walk full acc cur =>
    simp only [hp] at h
    split at h <;> cases h
    · exact ⟨⟨_, rfl, trivial, by simp⟩, by simp, .inr ⟨rfl, rfl, rfl, fun e => absurd rfl e, fun _ => by simp [base]⟩⟩
    · exact ⟨⟨_, rfl, trivial, by simp⟩, by simp, .inr ⟨rfl, rfl, rfl, fun e => absurd rfl e, fun _ => by simp [base]⟩⟩
  | mp tr =>
    simp only [hp] at h; cases h
    refine ⟨⟨_, rfl, ⟨Nat.le_refl _, fun _ => rfl⟩, by simp⟩, by simp, .inr ⟨rfl, rfl, rfl, fun _ => ?_, fun e => ?_⟩⟩
    · simp [left, hp, base, stale]
    · cases e
  | mpH tr gn gg g =>
    simp only [hp] at h hl
    split at h <;> cases h
    · refine ⟨⟨_, rfl, trivial, by simp⟩, by simp, .inr ⟨rfl, rfl, rfl, fun _ => ?_, fun e => ?_⟩⟩
      · simp [left, hp, base, stale]; omega
      · cases e
    · next e he =>
      refine ⟨⟨_, rfl, ⟨hl.1, fun e => ⟨he, hl.2 e⟩⟩, by simp⟩, by simp, .inr ⟨rfl, rfl, rfl, fun _ => ?_, fun e => ?_⟩⟩
      · simp [left, hp, base]; omega
      · cases e
  | mpN tr gn gg g e =>
    simp only [hp] at h hl; cases h
    refine ⟨⟨_, rfl, hl, by simp⟩, by simp, .inr ⟨rfl, rfl, rfl, fun _ => ?_, fun e => ?_⟩⟩
    · simp [left, hp, base]; omega
    · cases e
  | mpC tr gn gg g e nx =>
    simp only [hp] at h hl
    split at h
    · cases h
      exact ⟨⟨_, rfl, trivial, by simp⟩, by simp, .inl ⟨rfl, rfl, by simp [pend, base]⟩⟩
    · next hne =>
      have hg : g ≠ s.ver := fun e' => hne (hl.2 e')
      split at h
      · cases h
        refine ⟨⟨_, rfl, trivial, by simp⟩, by simp, .inr ⟨rfl, rfl, rfl, fun _ => ?_, fun e => ?_⟩⟩
        · simp [left, hp, base, stale]
        · cases e
      · split at h <;> cases h
        · refine ⟨⟨_, rfl, trivial, by simp⟩, by simp, .inr ⟨rfl, rfl, rfl, fun _ => ?_, fun e => ?_⟩⟩
          · simp [left, hp, base, stale]
          · cases e
        · next he =>
          refine ⟨⟨_, rfl, ⟨Nat.le_refl _, fun _ => ⟨he, rfl⟩⟩, by simp⟩, by simp,
            .inr ⟨rfl, rfl, rfl, fun _ => ?_, fun e => ?_⟩⟩
          · simp [left, hp, base, stale, hg]
          · cases e

theorem run_loc {s s' : St N n} (hi : ∀ t, Loc s (s.th t)) {t : Fin n} (h : run s t = some s') :
    ∀ u, Loc s' (s'.th u) := by
  obtain ⟨⟨pc, hth, hl, -⟩, -, hc⟩ := run_cases hi h
  intro u
  rw [hth]
  by_cases hu : u = t
  · subst hu; rw [upd_same]; exact hl
  · rw [upd_ne _ _ hu]
    refine (hi u).keep ?_
    rcases hc with ⟨hv, -⟩ | ⟨h1, h2, h3, -⟩
    · exact .inl hv
    · exact .inr ⟨h1, h2, h3⟩

/-- A call or a return: only the program counter changes. -/
theorem step_th {m : Mode} {s s' : St N n} {a : Act N n} (h : step m s a = some s') (ha : ∀ t, a ≠ .run t) :
    ∃ t pc, s' = { s with th := upd s.th t pc } ∧
      ((kind s a = .call ∧ s.th t = .idle ∧ pc ≠ .idle ∧ (base pc).1 ≤ 4 ∧ (base pc).2 = none)
        ∨ (kind s a = .ret ∧ s.th t ≠ .idle ∧ pc = .idle)) := by
  cases a with
  | run t => exact absurd rfl (ha t)
  | call t o =>
    simp only [step] at h
    split at h
    · next hid =>
      split at h
      · split at h
        · cases h; exact ⟨t, _, rfl, .inl ⟨rfl, hid, by simp, by simp [base], rfl⟩⟩
        · cases h
      · split at h
        · cases h; exact ⟨t, _, rfl, .inl ⟨rfl, hid, by simp, by simp [base], rfl⟩⟩
        · cases h
      · cases h; exact ⟨t, _, rfl, .inl ⟨rfl, hid, by split <;> simp, by split <;> simp [base], by split <;> rfl⟩⟩
      · cases h; exact ⟨t, _, rfl, .inl ⟨rfl, hid, by split <;> simp, by split <;> simp [base], by split <;> rfl⟩⟩
      · split at h
        · cases h
        · cases h; exact ⟨t, _, rfl, .inl ⟨rfl, hid, by simp, by simp [base], rfl⟩⟩
    · cases h
  | ret t =>
    simp only [step] at h
    split at h
    · next hr => cases h; exact ⟨t, _, rfl, .inr ⟨rfl, by rw [hr]; simp, rfl⟩⟩
    · cases h

theorem loc_reach {m : Mode} {s : St N n} (h : (sys m).Reach s) : ∀ t, Loc s (s.th t) := by
  refine h.invariant (I := fun s => ∀ t, Loc s (s.th t)) ?_ ?_
  · rintro s ⟨X0, h0⟩ t
    rw [h0.idle t]; trivial
  · intro s a s' hi hs
    by_cases ha : ∃ t, a = .run t
    · obtain ⟨t, rfl⟩ := ha
      exact run_loc hi hs
    · obtain ⟨t, pc, e, hc⟩ := step_th hs fun t e => ha ⟨t, e⟩
      intro u
      subst e
      by_cases hu : u = t
      · subst hu
        simp only [upd_same]
        rcases hc with ⟨-, -, -, -, h⟩ | ⟨-, -, rfl⟩
        · cases pc <;> first | trivial | cases h
        · trivial
      · simp only [upd_ne _ _ hu]
        exact (hi u).keep (.inr ⟨rfl, rfl, rfl⟩)

/-- The potential: steps left, and for every operation that may still write `head` the steps this would cost the others. -/
def share (s : St N n) (t : Fin n) : Nat := left s t + 2 * n * pend (s.th t)

def pot (s : St N n) : Nat := ∑ t, share s t

omit [DecidableEq N] in
theorem share_zero {s : St N n} {t : Fin n} (h : (base (s.th t)).1 = 0) : share s t = 0 ∧ left s t = 0 := by
  have h4 : (base (s.th t)).2 = none := by
    revert h; cases s.th t <;> simp [base]
  simp [share, left, pend, h, h4, stale]

/-- The thread is in an operation. -/
def inOp : PC N → Nat
  | .idle => 0
  | _ => 1

/-- The number of threads in an operation. -/
def busy (s : St N n) : Nat := ∑ t, inOp (s.th t)

omit [DecidableEq N] in
theorem inOp_one {pc : PC N} (h : pc ≠ .idle) : inOp pc = 1 := by
  cases pc <;> first | rfl | exact absurd rfl h

omit [DecidableEq N] in
theorem busy_le (s : St N n) : busy s ≤ n := by
  unfold busy
  refine Nat.le_trans (Finset.sum_le_card_nsmul _ _ 1 fun t _ => ?_) (by simp)
  unfold inOp; split <;> simp

omit [DecidableEq N] in
theorem busy_upd (s s' : St N n) (t : Fin n) (pc : PC N) (h : s'.th = upd s.th t pc) :
    busy s' + inOp (s.th t) = busy s + inOp pc := by
  have := sum_eq (fun u => inOp (s.th u)) (fun u => inOp (s'.th u)) t (fun u hu => by rw [h, upd_ne _ _ hu])
  simp only [h, upd_same] at this
  unfold busy
  rw [h]
  exact this

/-- Lock freedom: whatever the scheduler does, and wherever threads are stopped, the steps of all operations together are bounded
by the number of operations that have returned and the number of threads. -/
theorem lock_free (m : Mode) {c : Ct (St N n)} (h : (counted (sys m) kind).Reach c) :
    c.work ≤ (2 * n + 4) * (c.rets + n) := by
  refine bound pot busy (2 * n + 4) n ?_ busy_le ?_ h
  · rintro s ⟨X0, h0⟩
    constructor
    · unfold pot
      refine Finset.sum_eq_zero fun t _ => ?_
      exact (share_zero (by rw [h0.idle t]; rfl)).1
    · unfold busy
      exact Finset.sum_eq_zero fun t _ => by simp [h0.idle t, inOp]
  · intro s a s' hr hs
    have hi := loc_reach hr
    by_cases ha : ∃ t, a = .run t
    · obtain ⟨t, rfl⟩ := ha
      obtain ⟨⟨pc, hth, -, hid'⟩, hid, hc⟩ := run_cases hi hs
      have hb := busy_upd s s' t pc hth
      rw [inOp_one hid, inOp_one hid'] at hb
      have hth' : ∀ u, u ≠ t → s'.th u = s.th u := fun u hu => by rw [hth, upd_ne _ _ hu]
      have hsh : s'.ver = s.ver → pot s' + share s t = pot s + share s' t := fun hv =>
        sum_eq (share s) (share s') t fun u hu => by simp only [share, left, hth' u hu, hv]
      cases hkd : kind s (.run t) with
      | work =>
        refine ⟨?_, by omega⟩
        have hne : (base (s.th t)).1 ≠ 0 := by
          cases hp : s.th t with
          | idle => exact absurd hp hid
          | ret r => have : run s t = some s' := hs; simp [run, hp] at this
          | walk a b c => simp [kind, hp] at hkd
          | _ => simp [base]
        rcases hc with ⟨hv, h1, h2⟩ | ⟨hv, -, -, h1, -⟩
        · have := sum_step (share s) (share s') t 2 (fun u hu => by
            simp only [share, left, hth' u hu]
            have : stale s'.ver (base (s.th u)).2 ≤ 2 := by unfold stale; split <;> (try split) <;> omega
            omega)
          have hl : share s' t = 0 := (share_zero (by
            unfold pend at h2; split at h2
            · assumption
            · cases h2)).1
          have hl' : 1 + 2 * n ≤ share s t := by unfold share left; rw [h1]; omega
          show ∑ u, share s' u + 1 ≤ ∑ u, share s u
          omega
        · have h2 := h1 hne
          have h3 : 2 * n * pend (s'.th t) ≤ 2 * n * pend (s.th t) := by
            refine Nat.mul_le_mul_left _ ?_
            unfold pend; rw [if_neg hne]; split <;> omega
          have h4 := hsh hv
          unfold share at h4
          omega
      | other =>
        refine ⟨?_, by omega⟩
        have h0 : (base (s.th t)).1 = 0 := by
          cases hp : s.th t <;> simp [kind, hp] at hkd <;> rfl
        rcases hc with ⟨-, h1, -⟩ | ⟨hv, -, -, -, h1⟩
        · simp [pend, h0] at h1
        · have h4 := hsh hv
          rw [(share_zero (h1 h0)).1] at h4
          omega
      | call => simp only [kind] at hkd; split at hkd <;> cases hkd
      | ret => simp only [kind] at hkd; split at hkd <;> cases hkd
    · obtain ⟨t, pc, e, hc⟩ := step_th hs fun t e => ha ⟨t, e⟩
      have hth : s'.th = upd s.th t pc := by rw [e]
      have hv : s'.ver = s.ver := by rw [e]
      have hb := busy_upd s s' t pc hth
      have hth' : ∀ u, u ≠ t → s'.th u = s.th u := fun u hu => by rw [hth, upd_ne _ _ hu]
      have hpc : s'.th t = pc := by rw [hth, upd_same]
      have hsh : pot s' + share s t = pot s + share s' t :=
        sum_eq (share s) (share s') t fun u hu => by simp only [share, left, hth' u hu, hv]
      rcases hc with ⟨hk, h1, h2, h3, h4⟩ | ⟨hk, h1, rfl⟩
      · rw [hk]
        rw [h1, inOp_one h2] at hb; simp only [inOp] at hb
        refine ⟨?_, by omega⟩
        have h5 : left s' t ≤ 4 := by simp only [left, hpc, h4, stale]; omega
        have h6 : 2 * n * pend (s'.th t) ≤ 2 * n := by
          unfold pend; split <;> simp
        have h7 : share s' t ≤ 2 * n + 4 := by unfold share; omega
        omega
      · rw [hk]
        rw [inOp_one h1] at hb; simp only [inOp] at hb
        refine ⟨?_, by omega⟩
        rw [(share_zero (s := s') (t := t) (by rw [hpc]; rfl)).1] at hsh
        omega

/-- An operation that is not the caller's walk through a batch. -/
def running (pc : PC N) : Prop := (base pc).1 ≠ 0

/-- Obstruction freedom: from any state that can be reached, with the other threads stopped wherever they are, a thread that runs
alone ends its operation within five steps. -/
theorem alone_returns (m : Mode) {s : St N n} (h : (sys m).Reach s) (t : Fin n) :
    ∃ j s', j ≤ 5 ∧ alone (fun s => run s t) j s = some s' ∧ ¬ running (s'.th t) := by
  refine alone_ends (fun s => run s t) (fun s => left s t) (fun s => ∀ u, Loc s (s.th u)) (fun s => ¬ running (s.th t))
    (fun s s' hi hs => run_loc hi hs) ?_ 5 s (loc_reach h) ?_
  · intro s hi hd
    have hd : (base (s.th t)).1 ≠ 0 := fun e => hd fun h => h e
    have hen : ∃ s', run s t = some s' := by
      unfold run
      revert hd
      cases s.th t <;> intro hd <;> simp only [base] at hd <;> first
        | exact absurd rfl hd
        | exact ⟨_, rfl⟩
        | (simp only; split <;> first
            | exact ⟨_, rfl⟩
            | (split <;> first | exact ⟨_, rfl⟩ | (split <;> exact ⟨_, rfl⟩)))
    obtain ⟨s', hs⟩ := hen
    refine ⟨s', hs, ?_⟩
    rcases (run_cases hi hs).2.2 with ⟨-, -, h2⟩ | ⟨-, -, -, h1, -⟩
    · have h3 : (base (s'.th t)).1 = 0 := by
        unfold pend at h2; split at h2
        · assumption
        · cases h2
      have h4 : (base (s'.th t)).2 = none := by
        revert h3; cases s'.th t <;> simp [base]
      simp only [left, h3, h4, stale]
      omega
    · exact h1 hd
  · have : stale s.ver (base (s.th t)).2 ≤ 2 := by unfold stale; split <;> (try split) <;> omega
    unfold left
    generalize hp : s.th t = pc at *
    cases pc <;> simp only [base, stale] at * <;> omega

end Verif.Stack.Lf
