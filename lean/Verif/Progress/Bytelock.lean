import Verif.Core.Drain
import Verif.Rw.BytelockThm

/-!
# `ck_bytelock`: deadlock (C77)
-/

namespace Verif.Rw.Bytelock

open Verif

variable {n : Nat}

/-- Steps of calls in progress, and releases. -/
def Act.own : Act n → Prop
  | .run _ | .wunlock _ | .runlock _ => True
  | _ => False

/-- A thread waits for ownership while it holds the lock as a reader (upgrade). -/
def St.noUpgrade (s : St n) : Prop := ∀ t, s.pc t ≠ .wCas true

def PC.ra : PC → Nat
  | .idle => 0
  | .reading | .readingU => 1
  | _ => 2

def PC.rb : PC → Nat
  | .wCas _ => 1
  | _ => 0

def PC.rc (C : Nat) (w : Bool) : PC → Nat
  | .rOwn | .dgOwn => 10
  | .dgSet => 9
  | .dgRel => 8
  | .wClr _ => C + 3
  | .wScan i => C - i + 1
  | .wCnt => 1
  | .sSet | .uInc => if w then 3 else 2
  | .sChk | .uChk => if w then 2 else 1
  | .sClr | .uDec => if w then 1 else 4
  | .sWait | .uWait => if w then 0 else 3
  | _ => 0

theorem scan_rank (c : Cfg n) (w : Bool) (i : Nat) :
    (scan c i).ra = 2 ∧ (scan c i).rb = 0 ∧ (scan c i).rc c.C w ≤ c.C - i + 1 ∧ scan c i ≠ .wCas true := by
  unfold scan
  split
  · simp [PC.ra, PC.rb, PC.rc]
  · simp [PC.ra, PC.rb, PC.rc]

theorem noUpgrade_step {c : Cfg n} {s s' : St n} {a : Act n} (h : s.noUpgrade) (ha : Act.own a)
    (hs : step c s a = some s') : s'.noUpgrade := by
  intro t
  have ht := h t
  have hsc := fun i => (scan_rank c false i).2.2.2
  cases a <;> simp only [Act.own] at ha <;> simp only [step] at hs
  case wunlock u => step_split hs; simp only [upd_apply]; split <;> simp_all
  case runlock u =>
    cases hp : s.pc u <;> simp only [hp] at hs
    all_goals (first | (cases hs; done) | (step_split hs; simp only [upd_apply]; split <;> simp_all))
  case run u =>
    cases hp : s.pc u <;> simp only [hp] at hs
    all_goals (first | (cases hs; done) | (step_split hs <;> first | exact ht | (simp only [upd_apply]; split <;> simp_all)))

/-- A byte that is set belongs to a slotted thread. -/
theorem byte_owner {c : Cfg n} (hc : c.Wf) (hg : Guard c) (hn : n < 2 ^ 32) {s : St n} (h : (sys c).Reach s) (b : Nat)
    (hb : s.readers b = true) : ∃ t, c.slot t ≠ U ∧ c.slot t - 1 = b := by
  induction h generalizing b with
  | init h => cases h; cases hb
  | @step s s' a hr hs ih =>
    have hi := inv_of_reach hc hg hn hr
    have key : ∀ (r : Nat → Bool), s'.readers = r → (r = s.readers ∨ ∃ t, r = upd s.readers (c.slot t - 1) false ∨
        (c.slot t ≠ U ∧ r = upd s.readers (c.slot t - 1) true)) → ∃ t, c.slot t ≠ U ∧ c.slot t - 1 = b := by
      rintro r hr (rfl | ⟨t, rfl | ⟨h1, rfl⟩⟩) <;> rw [hr] at hb
      · exact ih b hb
      · rw [upd_apply] at hb; split at hb
        · cases hb
        · exact ih b hb
      · rw [upd_apply] at hb; split at hb
        · next e => exact ⟨t, h1, e.symm⟩
        · exact ih b hb
    refine key _ rfl ?_
    cases a <;> simp only [sys, step] at hs
    case runlock u =>
      cases hp : s.pc u <;> simp only [hp] at hs
      all_goals (first | (cases hs; done) | (step_split hs <;> first | exact .inl rfl | exact .inr ⟨u, .inl rfl⟩))
    case run u =>
      have h1 := hi.scd u
      cases hp : s.pc u <;> simp only [hp] at hs
      all_goals rw [hp] at h1
      all_goals (first | (cases hs; done) | (step_split hs <;> first | exact .inl rfl | exact .inr ⟨u, .inl rfl⟩ |
        exact .inr ⟨u, .inr ⟨h1 rfl, rfl⟩⟩))
    all_goals (step_split hs <;> exact .inl rfl)

/-- The scan stays inside the array. -/
theorem scan_lt {c : Cfg n} {s : St n} (h : (sys c).Reach s) (t : Fin n) (i : Nat) (hp : s.pc t = .wScan i) :
    i < c.C := by
  induction h generalizing t i with
  | init h => cases h; cases hp
  | @step s s' a hr hs ih =>
    have hsc : ∀ k, scan c k = .wScan i → i < c.C := by
      intro k e; unfold scan at e; split at e
      · cases e; assumption
      · cases e
    have key : ∀ u p, s'.pc = upd s.pc u p → (p = .wScan i → i < c.C) → i < c.C := by
      intro u p e h1
      rw [e, upd_apply] at hp
      split at hp
      · exact h1 hp
      · exact ih t i hp
    cases a <;> simp only [sys, step] at hs
    case runlock u =>
      cases hq : s.pc u <;> simp only [hq] at hs
      all_goals (first | (cases hs; done) | (step_split hs <;> first | exact ih t i hp | exact key u _ rfl (fun e => by cases e)))
    case run u =>
      cases hq : s.pc u <;> simp only [hq] at hs
      all_goals (first | (cases hs; done) | (step_split hs <;> first | exact ih t i hp | exact key u _ rfl (hsc _) |
        exact key u _ rfl (fun e => by cases e)))
    all_goals (step_split hs <;> first | exact ih t i hp | exact key _ _ rfl (fun e => by cases e))

abbrev less (c : Cfg n) (s s' : St n) : Prop :=
  tot PC.ra s'.pc ≤ tot PC.ra s.pc ∧ (tot PC.ra s'.pc < tot PC.ra s.pc ∨
    tot PC.rb s'.pc ≤ tot PC.rb s.pc ∧ (tot PC.rb s'.pc < tot PC.rb s.pc ∨
      tot (PC.rc c.C (s'.owner != 0)) s'.pc < tot (PC.rc c.C (s.owner != 0)) s.pc))

theorem adv {c : Cfg n} {s : St n} {t : Fin n} {p : PC} (a : Act n) (ha : Act.own a)
    (hs : (step c s a).map (fun s' => s'.pc) = some (upd s.pc t p))
    (h : PC.ra p < PC.ra (s.pc t) ∨ PC.ra p ≤ PC.ra (s.pc t) ∧ PC.rb p < PC.rb (s.pc t)) :
    ∃ x s', Act.own x ∧ (sys c).step s x = some s' ∧ less c s s' := by
  rw [Option.map_eq_some_iff] at hs
  obtain ⟨s', hs, hpc⟩ := hs
  refine ⟨a, s', ha, hs, ?_⟩
  simp only [less]
  rw [hpc]
  rcases h with h | ⟨h1, h2⟩
  · have := tot_lt (f := s.pc) (t := t) h
    exact ⟨by omega, .inl (by omega)⟩
  · exact ⟨tot_le h1, .inr ⟨tot_le (by omega), .inl (tot_lt h2)⟩⟩

theorem advC {c : Cfg n} {s : St n} {t : Fin n} {p : PC} (a : Act n) (ha : Act.own a)
    (hs : (step c s a).map (fun s' => (s'.pc, s'.owner)) = some (upd s.pc t p, s.owner))
    (h : PC.ra p ≤ PC.ra (s.pc t) ∧ PC.rb p ≤ PC.rb (s.pc t) ∧
      PC.rc c.C (s.owner != 0) p < PC.rc c.C (s.owner != 0) (s.pc t)) :
    ∃ x s', Act.own x ∧ (sys c).step s x = some s' ∧ less c s s' := by
  rw [Option.map_eq_some_iff] at hs
  obtain ⟨s', hs, he⟩ := hs
  simp only [Prod.mk.injEq] at he
  obtain ⟨hpc, hd⟩ := he
  refine ⟨a, s', ha, hs, ?_⟩
  simp only [less]
  rw [hpc, hd]
  exact ⟨tot_le h.1, .inr ⟨tot_le h.2.1, .inr (tot_lt h.2.2)⟩⟩

theorem advance {c : Cfg n} (hc : c.Wf) (hg : Guard c) (hn : n < 2 ^ 32) (s : St n) (h : (sys c).Reach s)
    (hu : s.noUpgrade) :
    (∀ t, s.pc t = .idle) ∨ ∃ x s', Act.own x ∧ (sys c).step s x = some s' ∧ less c s s' := by
  have hi := inv_of_reach hc hg hn h
  by_cases hid : ∀ t, s.pc t = .idle
  · exact .inl hid
  refine .inr ?_
  by_cases hrd : ∃ t, s.pc t = .reading ∨ s.pc t = .readingU
  · obtain ⟨t, hp | hp⟩ := hrd
    all_goals
      refine adv (.runlock t) (t := t) (p := .idle) trivial (by simp only [step, hp, Option.map_some]) ?_
      rw [hp]; simp [PC.ra]
  by_cases how : ∃ t, (s.pc t).own = true
  · obtain ⟨t, ht⟩ := how
    have ho := hi.owner_ne hc ht
    have how := hi.ow t ht
    -- a reader that must step back
    have hback : ∀ u, ((s.pc u).byte = true ∧ u ≠ t ∨ (s.pc u).inc = true) →
        ∃ x s', Act.own x ∧ (sys c).step s x = some s' ∧ less c s s' := by
      intro u hb
      cases hq : s.pc u with
      | sChk =>
        refine advC (.run u) (t := u) (p := .sClr) trivial (by simp only [step, hq]; rw [if_neg ho]; rfl) ?_
        rw [hq]; simp [PC.ra, PC.rb, PC.rc, ho]
      | sClr =>
        refine advC (.run u) (t := u) (p := .sWait) trivial (by simp only [step, hq]; rfl) ?_
        rw [hq]; simp [PC.ra, PC.rb, PC.rc, ho]
      | uChk =>
        refine advC (.run u) (t := u) (p := .uDec) trivial (by simp only [step, hq]; rw [if_neg ho]; rfl) ?_
        rw [hq]; simp [PC.ra, PC.rb, PC.rc, ho]
      | uDec =>
        refine advC (.run u) (t := u) (p := .uWait) trivial (by simp only [step, hq]; rfl) ?_
        rw [hq]; simp [PC.ra, PC.rb, PC.rc, ho]
      | reading => exact absurd ⟨u, .inl hq⟩ hrd
      | readingU => exact absurd ⟨u, .inr hq⟩ hrd
      | wCas b =>
        cases b
        · rw [hq] at hb; simp [PC.byte, PC.inc] at hb
        · exact absurd hq (hu u)
      | wClr b =>
        rcases hb with ⟨-, hne⟩ | hb
        · exact absurd (hi.uniq (by rw [hq]; rfl) ht) hne
        · rw [hq] at hb; cases hb
      | dgRel =>
        rcases hb with ⟨-, hne⟩ | hb
        · exact absurd (hi.uniq (by rw [hq]; rfl) ht) hne
        · rw [hq] at hb; cases hb
      | _ => rw [hq] at hb; simp [PC.byte, PC.inc] at hb
    cases hp : s.pc t with
    | wClr b =>
      have h1 := scan_rank c (s.owner != 0) 0
      refine advC (.run t) (t := t) (p := scan c 0) trivial (by simp only [step, hp]; split <;> rfl) ?_
      rw [hp, h1.1, h1.2.1]
      refine ⟨Nat.le_refl _, Nat.le_refl _, ?_⟩
      have := h1.2.2.1
      simp only [PC.rc] at this ⊢; omega
    | wScan i =>
      by_cases hz : chunkZero c s i = true
      · have h1 := scan_rank c (s.owner != 0) (i + 1)
        have hlt : i < c.C := scan_lt h t i hp
        refine advC (.run t) (t := t) (p := scan c (i + 1)) trivial (by simp only [step, hp]; rw [if_pos hz]; rfl) ?_
        rw [hp, h1.1, h1.2.1]
        refine ⟨Nat.le_refl _, Nat.le_refl _, ?_⟩
        have := h1.2.2.1
        simp only [PC.rc] at this ⊢; omega
      · simp only [chunkZero, List.all_eq_true, not_forall] at hz
        obtain ⟨j, -, hz⟩ := hz
        obtain ⟨u, h1, h2⟩ := byte_owner hc hg hn h (i * c.L + j) (by simpa using hz)
        have h3 := hi.byte u h1
        rw [h2] at h3
        refine hback u (.inl ⟨by rw [← h3]; simpa using hz, ?_⟩)
        rintro rfl
        rw [hp] at h3; rw [h3] at hz; simp [PC.byte] at hz
    | wCnt =>
      by_cases hz : s.nreaders = 0
      · refine advC (.run t) (t := t) (p := .writing) trivial (by simp only [step, hp]; rw [if_neg (by simp [hz])]; rfl) ?_
        rw [hp]; simp [PC.ra, PC.rb, PC.rc]
      · have : cnt PC.inc s.pc ≠ 0 := by
          intro e; apply hz; rw [hi.nr, e]; rfl
        have : ∃ u, (s.pc u).inc = true := by
          by_contra hcon
          exact this (cnt_zero_of fun u => by have := fun h => hcon ⟨u, h⟩; simpa using this)
        obtain ⟨u, h1⟩ := this
        exact hback u (.inr h1)
    | writing =>
      refine adv (.wunlock t) (t := t) (p := .idle) trivial (by simp only [step]; rw [if_pos hp]; rfl) ?_
      rw [hp]; simp [PC.ra]
    | dgOwn =>
      refine advC (.run t) (t := t) (p := .dgSet) trivial (by simp only [step, hp]; rw [if_pos how]; rfl) ?_
      rw [hp]; simp [PC.ra, PC.rb, PC.rc]
    | dgSet =>
      refine advC (.run t) (t := t) (p := .dgRel) trivial (by simp only [step, hp]; split <;> rfl) ?_
      rw [hp]; simp [PC.ra, PC.rb, PC.rc]
    | dgRel =>
      refine adv (.run t) (t := t) (p := .reading) trivial (by simp only [step, hp]; rfl) ?_
      rw [hp]; simp [PC.ra]
    | _ => rw [hp] at ht; cases ht
  have hno : ∀ t, (s.pc t).own = false := fun t => by have := fun h => how ⟨t, h⟩; simpa using this
  have ho : s.owner = 0 := by
    by_contra h0
    have := hi.own
    rw [if_neg h0, cnt_zero_of hno] at this
    cases this
  obtain ⟨t, ht⟩ := not_forall.1 hid
  cases hp : s.pc t with
  | idle => exact absurd hp ht
  | wCas b =>
    refine adv (.run t) (t := t) (p := .wClr b) trivial (by simp only [step, hp]; rw [if_pos ho]; rfl) ?_
    rw [hp]; simp [PC.ra, PC.rb]
  | rOwn =>
    have h0 : s.owner ≠ c.slot t := by
      rw [ho]; have := hc.slot t; have := hc.size; unfold U at *; omega
    by_cases hb : c.slot t > c.L * c.C
    · refine advC (.run t) (t := t) (p := .uInc) trivial (by simp only [step, hp]; rw [if_neg h0, if_pos hb]; rfl) ?_
      rw [hp]; simp [PC.ra, PC.rb, PC.rc, ho]
    · refine advC (.run t) (t := t) (p := .sSet) trivial (by simp only [step, hp]; rw [if_neg h0, if_neg hb]; rfl) ?_
      rw [hp]; simp [PC.ra, PC.rb, PC.rc, ho]
  | uInc =>
    refine advC (.run t) (t := t) (p := .uChk) trivial (by simp only [step, hp]; rfl) ?_
    rw [hp]; simp [PC.ra, PC.rb, PC.rc, ho]
  | uChk =>
    refine adv (.run t) (t := t) (p := .readingU) trivial (by simp only [step, hp]; rw [if_pos ho]; rfl) ?_
    rw [hp]; simp [PC.ra]
  | uDec =>
    refine advC (.run t) (t := t) (p := .uWait) trivial (by simp only [step, hp]; rfl) ?_
    rw [hp]; simp [PC.ra, PC.rb, PC.rc, ho]
  | uWait =>
    refine advC (.run t) (t := t) (p := .uInc) trivial (by simp only [step, hp]; rw [if_neg (by simp [ho])]; rfl) ?_
    rw [hp]; simp [PC.ra, PC.rb, PC.rc, ho]
  | sSet =>
    refine advC (.run t) (t := t) (p := .sChk) trivial (by simp only [step, hp]; rfl) ?_
    rw [hp]; simp [PC.ra, PC.rb, PC.rc, ho]
  | sChk =>
    refine adv (.run t) (t := t) (p := .reading) trivial (by simp only [step, hp]; rw [if_pos ho]; rfl) ?_
    rw [hp]; simp [PC.ra]
  | sClr =>
    refine advC (.run t) (t := t) (p := .sWait) trivial (by simp only [step, hp]; rfl) ?_
    rw [hp]; simp [PC.ra, PC.rb, PC.rc, ho]
  | sWait =>
    refine advC (.run t) (t := t) (p := .sSet) trivial (by simp only [step, hp]; rw [if_neg (by simp [ho])]; rfl) ?_
    rw [hp]; simp [PC.ra, PC.rb, PC.rc, ho]
  | reading => exact absurd ⟨t, .inl hp⟩ hrd
  | readingU => exact absurd ⟨t, .inr hp⟩ hrd
  | _ => have := hno t; rw [hp] at this; cases this

/-- C77 (under the guard of C16): as long as no thread waits in an upgrade, all calls in progress can be completed and the
lock be released. -/
theorem no_deadlock_partial {c : Cfg n} (hc : c.Wf) (hg : Guard c) (hn : n < 2 ^ 32) {s : St n} (h : (sys c).Reach s)
    (hu : s.noUpgrade) : (sys c).Drains Act.own (fun s => ∀ t, s.pc t = .idle) s :=
  Sys.drains3 (M := sys c) (J := St.noUpgrade) (fun s => tot PC.ra s.pc) (fun s => tot PC.rb s.pc)
    (fun s => tot (PC.rc c.C (s.owner != 0)) s.pc) (fun _ _ _ _ hJ ha hs => noUpgrade_step hJ ha hs)
    (advance hc hg hn) h hu

/-- Upgrades deadlock: thread 0 holds the lock as a reader and calls write_lock; thread 1, a plain writer, took ownership in
between and waits for thread 0's byte, thread 0 waits for ownership. -/
theorem upgrade_deadlock : Guard goodCfg ∧ ∃ s, (sys goodCfg).Reach s ∧ s.pc 0 = .wCas true ∧ s.pc 1 = .wScan 0 ∧
    s.pc 2 = .idle ∧ ¬ (sys goodCfg).Drains Act.own (fun s => ∀ t, s.pc t = .idle) s := by
  refine ⟨by unfold Guard; decide, ?_⟩
  have hr : ((sys goodCfg).run (initSt 3) ([.rlock 0, .run 0, .run 0, .run 0, .wlock 1, .run 1, .run 1, .wlock 0])).map
      (fun s => (s.pc 0, s.pc 1, s.pc 2, s.owner, s.readers 0)) = some (.wCas true, .wScan 0, .idle, 2, true) := by decide
  rw [Option.map_eq_some_iff] at hr
  obtain ⟨s, hs, he⟩ := hr
  simp only [Prod.mk.injEq] at he
  obtain ⟨h0, h1, h2, h3, h4⟩ := he
  refine ⟨s, (Sys.Reach.init (M := sys goodCfg) rfl).of_run hs, h0, h1, h2, ?_⟩
  refine Sys.not_drains ?_ (fun h => by have := h 0; rw [h0] at this; cases this)
  have hz : chunkZero goodCfg s 0 = false := by simp [chunkZero, goodCfg, List.range_succ, h4]
  intro a ha
  cases a with
  | run t =>
    rcases (by omega : t = 0 ∨ t = 1 ∨ t = 2) with rfl | rfl | rfl
    · right; simp [sys, step, h0, h3]
    · right; simp [sys, step, h1, hz]
    · left; simp [sys, step, h2]
  | wunlock t =>
    left
    rcases (by omega : t = 0 ∨ t = 1 ∨ t = 2) with rfl | rfl | rfl <;> simp [sys, step, h0, h1, h2]
  | runlock t =>
    left
    rcases (by omega : t = 0 ∨ t = 1 ∨ t = 2) with rfl | rfl | rfl <;> simp [sys, step, h0, h1, h2]
  | _ => cases ha

/-- A state without upgrades: slotted 0 reads, writer 1 scans, unslotted 2 waits. -/
example : ((sys goodCfg).run (initSt 3) [.rlock 0, .run 0, .run 0, .run 0, .wlock 1, .run 1, .run 1, .rlock 2, .run 2, .run 2,
      .run 2, .run 2]).map (fun s => (s.pc 0, s.pc 1, s.pc 2, s.owner)) =
    some (.reading, .wScan 0, .uWait, 2) := by decide

end Verif.Rw.Bytelock
