import Verif.Core.Drain
import Verif.Rw.BrlockThm

/-!
# `ck_brlock`: no deadlock (C77)
-/

namespace Verif.Rw.Brlock

open Verif

variable {n : Nat}

/-- Steps of calls in progress, and releases. -/
def Act.own : Act n → Prop
  | .run _ | .giveup _ | .wunlock _ | .runlock _ => True
  | _ => False

/-- No call in progress, nothing held. -/
def St.done (s : St n) : Prop := ∀ t, s.pc t = .idle ∧ s.depth t = 0

/-- Client rule: a thread does not call write_lock, write_trylock, register or unregister while it holds the lock as a
reader. -/
def St.rule (s : St n) : Prop := ∀ t, s.pc t ≠ .idle → s.depth t = 0

def PC.ra : PC n → Nat
  | .idle => 0
  | _ => 2

def PC.rb : PC n → Nat
  | .wFas _ => 3
  | .wHead _ | .wWait _ _ | .wNext _ _ => 2
  | .writing | .link | .unlink => 1
  | _ => 0

def PC.rc (w : Bool) (l : List (Fin n)) : PC n → Nat
  | .wHead _ => 2 * l.length + 5
  | .wWait _ c => 2 * (l.length - l.idxOf c) + 3
  | .wNext _ c => 2 * (l.length - l.idxOf c) + 2
  | .rSet _ => if w then 3 else 2
  | .rCheck _ => if w then 2 else 1
  | .rBack _ => if w then 1 else 4
  | .rLoad _ => if w then 0 else 3
  | _ => 0

theorem rule_step {s s' : St n} {a : Act n} (h : s.rule) (ha : Act.own a) (hs : step s a = some s') : s'.rule := by
  intro t
  have ht := h t
  cases a <;> simp only [Act.own] at ha <;> simp only [step] at hs
  case wunlock u => step_split hs; simp only [upd_apply]; split <;> simp_all
  case runlock u => step_split hs; simp only [upd_apply]; split <;> simp_all
  case giveup u =>
    cases hp : s.pc u <;> simp only [hp] at hs
    case rLoad b => cases b <;> simp only at hs <;> step_split hs; simp only [upd_apply]; split <;> simp_all
    case wFas k => cases k <;> simp only at hs <;> step_split hs; simp only [upd_apply]; split <;> simp_all
    case wWait k c =>
      cases k <;> simp only at hs <;> step_split hs; simp only [upd_apply]; split
      · next e => subst e; intro _; exact ht (by rw [hp]; simp)
      · exact ht
    all_goals (first | (cases hs; done) | (step_split hs; simp only [upd_apply]; split <;> simp_all))
  case run u =>
    have hu := h u
    cases hp : s.pc u <;> simp only [hp] at hs
    case idle => cases hs
    case writing => cases hs
    all_goals have hd := hu (by rw [hp]; simp)
    case rBack b => cases b <;> simp only at hs <;> step_split hs <;> simp only [upd_apply] <;> split <;> simp_all
    all_goals step_split hs
    all_goals (try simp only [linkIn, unlinkOut])
    all_goals (try simp only [upd_apply])
    all_goals (try split)
    all_goals simp_all

theorem adv {s : St n} {t : Fin n} {p : PC n} (a : Act n) (ha : Act.own a)
    (hs : (step s a).map (fun s' => (s'.pc, s'.depth)) = some (upd s.pc t p, s.depth))
    (h : PC.ra p < PC.ra (s.pc t) ∨ PC.ra p ≤ PC.ra (s.pc t) ∧ PC.rb p < PC.rb (s.pc t)) :
    ∃ x s', Act.own x ∧ (sys n).step s x = some s' ∧
      tot PC.ra s'.pc + tot id s'.depth ≤ tot PC.ra s.pc + tot id s.depth ∧
      (tot PC.ra s'.pc + tot id s'.depth < tot PC.ra s.pc + tot id s.depth ∨
        tot PC.rb s'.pc ≤ tot PC.rb s.pc ∧ (tot PC.rb s'.pc < tot PC.rb s.pc ∨
          tot (PC.rc s'.writer s'.lst) s'.pc < tot (PC.rc s.writer s.lst) s.pc)) := by
  rw [Option.map_eq_some_iff] at hs
  obtain ⟨s', hs, he⟩ := hs
  simp only [Prod.mk.injEq] at he
  obtain ⟨hpc, hd⟩ := he
  refine ⟨a, s', ha, hs, ?_⟩
  rw [hpc, hd]
  rcases h with h | ⟨h1, h2⟩
  · have := tot_lt (f := s.pc) (t := t) h
    exact ⟨by omega, .inl (by omega)⟩
  · have := tot_le (f := s.pc) (t := t) h1
    exact ⟨by omega, .inr ⟨tot_le (by omega), .inl (tot_lt h2)⟩⟩

theorem advC {s : St n} {t : Fin n} {p : PC n} (a : Act n) (ha : Act.own a)
    (hs : (step s a).map (fun s' => (s'.pc, s'.depth, s'.writer, s'.lst)) = some (upd s.pc t p, s.depth, s.writer, s.lst))
    (h : PC.ra p ≤ PC.ra (s.pc t) ∧ PC.rb p ≤ PC.rb (s.pc t) ∧
      PC.rc s.writer s.lst p < PC.rc s.writer s.lst (s.pc t)) :
    ∃ x s', Act.own x ∧ (sys n).step s x = some s' ∧
      tot PC.ra s'.pc + tot id s'.depth ≤ tot PC.ra s.pc + tot id s.depth ∧
      (tot PC.ra s'.pc + tot id s'.depth < tot PC.ra s.pc + tot id s.depth ∨
        tot PC.rb s'.pc ≤ tot PC.rb s.pc ∧ (tot PC.rb s'.pc < tot PC.rb s.pc ∨
          tot (PC.rc s'.writer s'.lst) s'.pc < tot (PC.rc s.writer s.lst) s.pc)) := by
  rw [Option.map_eq_some_iff] at hs
  obtain ⟨s', hs, he⟩ := hs
  simp only [Prod.mk.injEq] at he
  obtain ⟨hpc, hd, hw, hl⟩ := he
  refine ⟨a, s', ha, hs, ?_⟩
  rw [hpc, hd, hw, hl]
  have := tot_le (f := s.pc) (t := t) h.1
  exact ⟨by omega, .inr ⟨tot_le h.2.1, .inr (tot_lt h.2.2)⟩⟩

/-- The next position of the scan. -/
theorem rc_scan {s : St n} {k : Kind} {pre post : List (Fin n)} {h : Option (Fin n)} (hn : s.lst.Nodup)
    (hl : s.lst = pre ++ post) (hs : Seg s.next h post none) :
    PC.rb (scan k h) < 2 ∨ PC.rb (scan k h) = 2 ∧
      PC.rc s.writer s.lst (scan k h) ≤ 2 * (s.lst.length - pre.length) + 3 := by
  cases post with
  | nil => simp at hs; subst hs; left; cases k <;> simp [scan, afterScan, PC.rb]
  | cons c post =>
    simp only [seg_cons] at hs
    rw [hs.1]
    right
    refine ⟨rfl, ?_⟩
    simp only [scan, PC.rc]
    have : s.lst.idxOf c = pre.length := by
      rw [hl] at hn ⊢
      have : c ∉ pre := by
        intro hc
        exact (List.nodup_append.1 hn).2.2 c hc c (by simp) rfl
      rw [List.idxOf_append_of_notMem this]; simp
    rw [this]

theorem advance (s : St n) (h : (sys n).Reach s) (hru : s.rule) :
    s.done ∨ ∃ x s', Act.own x ∧ (sys n).step s x = some s' ∧
      tot PC.ra s'.pc + tot id s'.depth ≤ tot PC.ra s.pc + tot id s.depth ∧
      (tot PC.ra s'.pc + tot id s'.depth < tot PC.ra s.pc + tot id s.depth ∨
        tot PC.rb s'.pc ≤ tot PC.rb s.pc ∧ (tot PC.rb s'.pc < tot PC.rb s.pc ∨
          tot (PC.rc s'.writer s'.lst) s'.pc < tot (PC.rc s.writer s.lst) s.pc)) := by
  have hi := inv_of_reach h
  by_cases hd : ∃ t, 0 < s.depth t
  · obtain ⟨t, ht⟩ := hd
    have hp : s.pc t = .idle := by
      by_contra hp
      have := hru t hp
      rw [this] at ht
      cases ht
    refine .inr ⟨.runlock t, _, trivial, (by simp only [sys, step]; rw [if_pos ⟨hp, ht⟩]), ?_⟩
    have := tot_lt (r := id) (f := s.depth) (t := t) (v := s.depth t - 1) (by show s.depth t - 1 < s.depth t; omega)
    dsimp only
    exact ⟨by omega, .inl (by omega)⟩
  have hd : ∀ t, s.depth t = 0 := fun t => Nat.eq_zero_of_not_pos fun h => hd ⟨t, h⟩
  by_cases hid : ∀ t, s.pc t = .idle
  · exact .inl fun t => ⟨hid t, hd t⟩
  refine .inr ?_
  by_cases how : ∃ t, (s.pc t).own = true
  · obtain ⟨t, ht⟩ := how
    have hw := hi.writer_true ht
    cases hp : s.pc t with
    | wHead k =>
      have h1 : (scan k s.readers).ra = 2 := by cases s.readers <;> cases k <;> rfl
      rcases rc_scan (k := k) (pre := []) hi.nd rfl hi.nx with h2 | ⟨h2, h3⟩
      · refine adv (.run t) (t := t) (p := scan k s.readers) trivial (by simp only [step, hp, Option.map_some]) ?_
        rw [hp, h1]; exact .inr ⟨Nat.le_refl _, h2⟩
      · refine advC (.run t) (t := t) (p := scan k s.readers) trivial (by simp only [step, hp, Option.map_some]) ?_
        rw [hp, h1, h2]
        refine ⟨Nat.le_refl _, Nat.le_refl _, ?_⟩
        simp only [List.length_nil] at h3
        simp only [PC.rc]; simp only [PC.rc] at h3; omega
    | wNext k c =>
      have h1 : (scan k (s.next c)).ra = 2 := by cases s.next c <;> cases k <;> rfl
      obtain ⟨pre, post, hl, -, -⟩ := hi.sc t c true (by rw [hp]; rfl)
      have hl' : s.lst = (pre ++ [c]) ++ post := by rw [hl]; simp
      have hx := hi.nx
      have h2 := rc_scan (k := k) (h := s.next c) hi.nd hl' (by
        rw [hl, seg_append] at hx
        obtain ⟨m, -, hx⟩ := hx
        rw [seg_cons] at hx
        exact hx.2)
      have hidx : s.lst.idxOf c = pre.length := by
        have hn := hi.nd
        rw [hl] at hn ⊢
        have : c ∉ pre := fun hc => (List.nodup_append.1 hn).2.2 c hc c (by simp) rfl
        rw [List.idxOf_append_of_notMem this]; simp
      have hlen : pre.length + 1 ≤ s.lst.length := by rw [hl]; simp
      rcases h2 with h2 | ⟨h2, h3⟩
      · refine adv (.run t) (t := t) (p := scan k (s.next c)) trivial (by simp only [step, hp, Option.map_some]) ?_
        rw [hp, h1]; exact .inr ⟨Nat.le_refl _, h2⟩
      · refine advC (.run t) (t := t) (p := scan k (s.next c)) trivial (by simp only [step, hp, Option.map_some]) ?_
        rw [hp, h1, h2]
        refine ⟨Nat.le_refl _, Nat.le_refl _, ?_⟩
        simp only [List.length_append, List.length_cons, List.length_nil] at h3
        simp only [PC.rc, hidx]; simp only [PC.rc] at h3; omega
    | wWait k c =>
      by_cases hc : s.nreaders c = 0
      · refine advC (.run t) (t := t) (p := .wNext k c) trivial (by simp only [step, hp]; rw [if_neg (by simp [hc])]; rfl) ?_
        rw [hp]; simp [PC.ra, PC.rb, PC.rc]
      · rw [hi.nr c, hd c] at hc
        cases hq : s.pc c with
        | rCheck b =>
          refine advC (.run c) (t := c) (p := .rBack b) trivial (by simp only [step, hq]; rw [if_pos hw]; rfl) ?_
          rw [hq]; simp [PC.ra, PC.rb, PC.rc, hw]
        | rBack b =>
          cases b
          · refine advC (.run c) (t := c) (p := .rLoad false) trivial (by simp only [step, hq, Option.map_some]) ?_
            rw [hq]; simp [PC.ra, PC.rb, PC.rc, hw]
          · refine advC (.run c) (t := c) (p := .rFail) trivial (by simp only [step, hq, Option.map_some]) ?_
            rw [hq]; simp [PC.ra, PC.rb, PC.rc, hw]
        | _ => rw [hq] at hc; simp [PC.tent] at hc
    | wBack =>
      refine adv (.run t) (t := t) (p := .idle) trivial (by simp only [step, hp, Option.map_some]) ?_
      rw [hp]; simp [PC.ra]
    | release =>
      refine adv (.run t) (t := t) (p := .idle) trivial (by simp only [step, hp, Option.map_some]) ?_
      rw [hp]; simp [PC.ra]
    | writing =>
      refine adv (.wunlock t) (t := t) (p := .idle) trivial (by simp only [step]; rw [if_pos hp]; rfl) ?_
      rw [hp]; simp [PC.ra]
    | link =>
      refine adv (.run t) (t := t) (p := .release) trivial (by simp only [step, hp, Option.map_some]; rfl) ?_
      rw [hp]; simp [PC.ra, PC.rb]
    | unlink =>
      refine adv (.run t) (t := t) (p := .release) trivial (by simp only [step, hp, Option.map_some]; rfl) ?_
      rw [hp]; simp [PC.ra, PC.rb]
    | _ => rw [hp] at ht; cases ht
  have hno : ∀ t, (s.pc t).own = false := fun t => by have := fun h => how ⟨t, h⟩; simpa using this
  have hw : s.writer = false := by
    have := hi.wr; rw [cnt_zero_of hno] at this
    cases hw : s.writer
    · rfl
    · rw [hw] at this; cases this
  obtain ⟨t, ht⟩ := not_forall.1 hid
  cases hp : s.pc t with
  | idle => exact absurd hp ht
  | wFas k =>
    refine adv (.run t) (t := t) (p := .wHead k) trivial (by simp only [step, hp]; rw [if_neg (by simp [hw])]; rfl) ?_
    rw [hp]; simp [PC.ra, PC.rb]
  | rLoad b =>
    refine advC (.run t) (t := t) (p := .rSet b) trivial (by simp only [step, hp]; rw [if_neg (by simp [hw])]; rfl) ?_
    rw [hp]; simp [PC.ra, PC.rb, PC.rc, hw]
  | rSet b =>
    refine advC (.run t) (t := t) (p := .rCheck b) trivial (by simp only [step, hp, Option.map_some]) ?_
    rw [hp]; simp [PC.ra, PC.rb, PC.rc, hw]
  | rCheck b =>
    refine ⟨.run t, _, trivial, (by simp only [sys, step, hp]; rw [if_neg (by simp [hw])]), ?_⟩
    have h1 := tot_update PC.ra s.pc t .idle
    have h2 := tot_update id s.depth t 1
    rw [hp] at h1; simp only [PC.ra, hd t, id] at h1 h2
    dsimp only
    exact ⟨by omega, .inl (by omega)⟩
  | rBack b =>
    cases b
    · refine advC (.run t) (t := t) (p := .rLoad false) trivial (by simp only [step, hp, Option.map_some]) ?_
      rw [hp]; simp [PC.ra, PC.rb, PC.rc, hw]
    · refine advC (.run t) (t := t) (p := .rFail) trivial (by simp only [step, hp, Option.map_some]) ?_
      rw [hp]; simp [PC.ra, PC.rb, PC.rc, hw]
  | rFail =>
    refine adv (.giveup t) (t := t) (p := .idle) trivial (by simp only [step, hp, Option.map_some]) ?_
    rw [hp]; simp [PC.ra]
  | _ => have := hno t; rw [hp] at this; cases this

/-- C77: as long as no thread waits for the writer side while it holds the lock as a reader, all calls in progress can be
completed and everything be released. -/
theorem no_deadlock {s : St n} (h : (sys n).Reach s) (hru : s.rule) : (sys n).Drains Act.own St.done s :=
  Sys.drains3 (M := sys n) (J := St.rule) (fun s => tot PC.ra s.pc + tot id s.depth) (fun s => tot PC.rb s.pc)
    (fun s => tot (PC.rc s.writer s.lst) s.pc) (fun _ _ _ _ hJ ha hs => rule_step hJ ha hs) advance h hru

/-- The client rule is needed: write_lock by a thread that holds the lock as a reader never returns. -/
theorem self_deadlock : ∃ s : St 1, (sys 1).Reach s ∧ 0 < s.depth 0 ∧ s.pc 0 = .wWait .lock 0 ∧
    ¬ (sys 1).Drains Act.own St.done s := by
  have hr : ((sys 1).run { readers := none, writer := false, nreaders := fun _ => 0, next := fun _ => none, prev := fun _ => none, pc := fun _ => .idle, lst := [], depth := fun _ => 0 }
      [.register 0, .run 0, .run 0, .run 0, .run 0, .rlock 0, .run 0, .run 0, .run 0, .wlock 0, .run 0, .run 0]).map
      (fun s => (s.pc 0, s.depth 0, s.nreaders 0)) = some (.wWait .lock 0, 1, 1) := by decide
  rw [Option.map_eq_some_iff] at hr
  obtain ⟨s, hs, he⟩ := hr
  simp only [Prod.mk.injEq] at he
  obtain ⟨h1, h2, h3⟩ := he
  refine ⟨s, (Sys.Reach.init (M := sys 1) ⟨rfl, rfl, fun _ => rfl, fun _ => rfl, rfl, fun _ => rfl⟩).of_run hs, by omega, h1, ?_⟩
  refine Sys.not_drains ?_ (fun h => by have := (h 0).1; rw [h1] at this; cases this)
  intro a ha
  have e : ∀ t : Fin 1, t = 0 := fun t => Subsingleton.elim _ _
  cases a with
  | run t => right; rw [e t]; simp only [sys, step, h1]; simp [h3]
  | giveup t => left; rw [e t]; simp only [sys, step, h1]
  | wunlock t => left; rw [e t]; simp [sys, step, h1]
  | runlock t => left; rw [e t]; simp [sys, step, h1]
  | _ => cases ha

/-- A state meeting `rule`: reader 0 holds the lock twice, writer 1 waits for it. -/
example : ((sys 2).run
    { readers := none, writer := false, nreaders := fun _ => 0, next := fun _ => none, prev := fun _ => none, pc := fun _ => .idle, lst := [],
      depth := fun _ => 0 }
    [.register 0, .run 0, .run 0, .run 0, .run 0, .register 1, .run 1, .run 1,
    .run 1, .run 1, .run 1, .run 1, .rlock 0, .run 0, .run 0, .run 0, .rlock 0, .wlock 1, .run 1,
    .run 1, .run 1, .run 1, .run 1]).map (fun s => (s.pc 0, s.pc 1, s.depth 0, s.depth 1)) =
    some (.idle, .wWait .lock 0, 2, 0) := by
  decide

end Verif.Rw.Brlock
