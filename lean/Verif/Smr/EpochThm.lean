import Verif.Smr.EpochCall
import Verif.Smr.EpochOnce

/-!
# Epoch reclamation: theorems

Statements are about executions of `sys` (`Smr/Epoch.lean`): a section `z` counts as active from the return of
`ck_epoch_begin` (`z ∈ s.opn`) to the action `.end_ _ z`, the deferral `x` is about to run when some thread is
at `entry->function(entry)` (`src/ck_epoch.c:376`) with it.
-/

set_option linter.unusedSectionVars false

namespace Verif.Ep

open Verif

variable {T R S X : Type} [DecidableEq T] [DecidableEq R] [DecidableEq S] [DecidableEq X] {c : Cfg}

/-- Thread `t` is about to call the function deferred with `x`. -/
def Runs (s : St T R S X) (t : T) (x : X) : Prop := ∃ r l k, s.main t = .disp r (x :: l) k

/-- Thread `t` is inside `ck_epoch_synchronize`, or in that part of `ck_epoch_barrier`. -/
def Syncing (s : St T R S X) (t : T) : Prop := ∃ e i bar d l af ph, s.main t = .scan (.sync e i bar) d l af ph

theorem wait_exec {s s' : St T R S X} {as : List (Act T R S X)} {x : X} {z : S} (he : (sys T R S X c).Exec s as s')
    (hx : s.busy x = true) (hz : z ∈ s.wait x) (has : ∀ t, .end_ t z ∉ as) : s'.busy x = true ∧ z ∈ s'.wait x := by
  induction he with
  | nil => exact ⟨hx, hz⟩
  | cons h1 _ ih =>
    have := wait_keep h1 hx hz (fun t e => has t (e ▸ List.mem_cons_self))
    exact ih this.1 this.2 (fun t ht => has t (List.mem_cons_of_mem _ ht))

/-- **C40** (partial): once `ck_epoch_call` deferred `x`, as long as a section that was active at the call has
not ended no thread runs `x`, nor has it popped it.  The full statement has no `Good c`: missing are records
with `NULL` sections and section objects open at once, callbacks that defer on the record being dispatched
(both are false, `EpochWit.lean`); `Good` also lets other threads defer if `ck_epoch_poll` is called inside
sections only. -/
theorem grace_partial (hg : Good c) {s s1 s2 : St T R S X} {t : T} {r : R} {x : X} {z : S} {as : List (Act T R S X)}
    (hr : (sys T R S X c).Reach s) (hc : step c s (.call t r x) = some s1) (hz : z ∈ s.opn)
    (he : (sys T R S X c).Exec s1 as s2) (has : ∀ t, .end_ t z ∉ as) :
    ∀ u, ¬ Runs s2 u x ∧ x ∉ dlist (s2.main u) := by
  have h1 : s1.busy x = true ∧ z ∈ s1.wait x := by
    simp only [step, gs] at hc
    split at hc <;> cases hc
    exact ⟨upd_same _ _ _, by dsimp only; rw [upd_same]; exact hz⟩
  have h2 := wait_exec he h1.1 h1.2 has
  have hI := inv_reach hg (he.reach (.step (a := .call t r x) hr hc))
  have key : ∀ u, x ∉ dlist (s2.main u) := by
    intro u hx
    cases hm : s2.main u <;> rw [hm] at hx <;> simp only [dlist, List.not_mem_nil] at hx
    have := (hI.2.2.2.ti u).disp _ _ _ hm x hx
    rw [this.2] at h2; cases h2.2
  refine fun u => ⟨?_, key u⟩
  rintro ⟨r', l, k, hm⟩
  refine key u ?_
  rw [hm]; exact List.mem_cons_self

/-- **C42** (partial): the same for `ck_epoch_call_strict` by any thread, if the record is only polled by its
owner inside a section of the record and there is no `ck_epoch_barrier`.  Without this restriction the
statement is false (`strict_poll`, `strict_barrier` in `EpochWit.lean`). -/
theorem grace_strict_partial {re : Bool} {s s1 s2 : St T R S X} {t : T} {r : R} {x : X} {z : S}
    {as : List (Act T R S X)} (hr : (sys T R S X ⟨false, re, true, true⟩).Reach s)
    (hc : step ⟨false, re, true, true⟩ s (.call t r x) = some s1) (hz : z ∈ s.opn)
    (he : (sys T R S X ⟨false, re, true, true⟩).Exec s1 as s2) (has : ∀ t, .end_ t z ∉ as) :
    ∀ u, ¬ Runs s2 u x := fun u => (grace_partial ⟨rfl, Or.inl rfl⟩ hr hc hz he has u).1

theorem syncing_step {s s' : St T R S X} {a : Act T R S X} {t : T} {z : S} (hI : Inv3 c s) (h : step c s a = some s')
    (hz : z ∈ s.sw t) (hs : Syncing s t) (ha : ∀ u, a ≠ .end_ u z) : z ∈ s'.sw t ∧ Syncing s' t := by
  obtain ⟨e, i, bar, d, l, af, ph, hm⟩ := hs
  have hns : ∀ b, a ≠ .sync t b := by
    rintro b rfl
    simp only [step] at h
    split at h
    · next hq => rw [hq.2.1] at hm; cases hm
    · cases h
  refine ⟨sw_keep h hz ha hns, ?_⟩
  rcases main_step h with h1 | ⟨u, b, rfl, h0, h1⟩ | ⟨u, r, rfl, h0, h1⟩ | ⟨u, m', rfl, F, hM⟩
  · exact ⟨e, i, bar, d, l, af, ph, by rw [h1]; exact hm⟩
  · have : t ≠ u := fun e => hns b (e ▸ rfl)
    exact ⟨e, i, bar, d, l, af, ph, by rw [h1, upd_ne _ _ this]; exact hm⟩
  · have : t ≠ u := by rintro rfl; rw [h0] at hm; cases hm
    exact ⟨e, i, bar, d, l, af, ph, by rw [h1, upd_ne _ _ this]; exact hm⟩
  · by_cases hu : t = u
    · subst hu
      by_contra hc
      have := sync_done hI.1 hI.2.1 hI.2.2.1 rfl (hI.2.2.2 t) hM hm (by
        intro e i bar d l af ph h
        refine hc ⟨e, i, bar, d, l, af, ph, ?_⟩
        rw [F.main, upd_same]; exact h)
      rw [this] at hz; cases hz
    · exact ⟨e, i, bar, d, l, af, ph, by rw [F.main, upd_ne _ _ hu]; exact hm⟩

/-- **C41** (partial): as long as a section that was active when `ck_epoch_synchronize` (or
`ck_epoch_barrier`) was called has not ended, the call does not get past its wait loop.  No restriction on
deferrals; the full statement has no `c.mix = false`, it is false for records with `NULL` sections and
section objects open at once (`mix_sync` in `EpochWit.lean`). -/
theorem synchronize_waits_partial (hg : c.mix = false) {s s1 s2 : St T R S X} {t : T} {bar : Option R} {z : S}
    {as : List (Act T R S X)} (hr : (sys T R S X c).Reach s) (hc : step c s (.sync t bar) = some s1) (hz : z ∈ s.opn)
    (he : (sys T R S X c).Exec s1 as s2) (has : ∀ t, .end_ t z ∉ as) : Syncing s2 t := by
  have h1 : z ∈ s1.sw t ∧ Syncing s1 t := by
    simp only [step, gm] at hc
    split at hc <;> cases hc
    exact ⟨by dsimp only; rw [upd_same]; exact hz, _, _, _, _, _, _, _, upd_same _ _ _⟩
  have hr1 : (sys T R S X c).Reach s1 := .step (a := .sync t bar) hr hc
  clear hc hr
  obtain ⟨h1, h2⟩ := h1
  induction he with
  | nil => exact h2
  | cons hs _ ih =>
    have h3 := syncing_step (inv3_reach hg hr1) hs h1 h2 (fun t e => has t (e ▸ List.mem_cons_self))
    exact ih (fun t ht => has t (List.mem_cons_of_mem _ ht)) (.step hr1 hs) h3.1 h3.2

/-- **C43**: from the moment section `z` is entered at global epoch `g` until it is ended, through any begins
and ends of other sections of the record and any epoch advances, the record reports an epoch of at most `g`,
at least `g - 3`, and the global epoch is at most one ahead of `g`. -/
theorem record_epoch_le (hg : c.mix = false) {s s1 s2 : St T R S X} {a : Act T R S X} {z : S}
    {as : List (Act T R S X)} (hr : (sys T R S X c).Reach s) (hc : step c s a = some s1) (hz : z ∉ s.opn) (hz1 : z ∈ s1.opn)
    (he : (sys T R S X c).Exec s1 as s2) (has : ∀ t, .end_ t z ∉ as) :
    s2.ep (s1.sr z) ≤ s.G ∧ s.G ≤ s2.ep (s1.sr z) + 3 ∧ s2.G ≤ s.G + 1 ∧ s.G ≤ s2.G ∧ s2.act (s1.sr z) ≠ 0 := by
  have h1 : s1.se z = s.G := by
    rcases opn_step (inv3_reach hg hr).1 hc with ⟨h1, h2, h3⟩ | ⟨x, h0, h1, h2, h3⟩ | ⟨t, x, rfl, h1, h2, h3, h4⟩
    · rw [h1] at hz1; exact absurd hz1 hz
    · rw [h1] at hz1
      rcases List.mem_cons.1 hz1 with rfl | hz1
      · rw [h2, upd_same]
      · exact absurd hz1 hz
    · rw [h1] at hz1; exact absurd (List.mem_of_mem_erase hz1) hz
  have hr1 : (sys T R S X c).Reach s1 := .step hr hc
  have h2 : z ∈ s2.opn ∧ s2.se z = s.G ∧ s2.sr z = s1.sr z := by
    rw [← h1]
    clear h1 hc
    induction he with
    | nil => exact ⟨hz1, rfl, rfl⟩
    | cons hs _ ih =>
      have h3 := opn_keep (inv3_reach hg hr1).1 hs hz1 (fun t e => has t (e ▸ List.mem_cons_self))
      rw [← h3.2.1, ← h3.2.2.1]
      exact ih h3.1 (fun t ht => has t (List.mem_cons_of_mem _ ht)) (.step hr1 hs)
  have hI := inv3_reach hg (he.reach hr1)
  have hh : Held s2 (s2.sr z) := Or.inl ⟨z, h2.1, rfl⟩
  have a1 := hI.2.2.1.held _ hh
  have a2 := hI.2.2.1.se z h2.1
  have a3 := held_act hI.1 hI.2.1 hh
  rw [h2.2.1] at a2
  rw [h2.2.2] at a1 a2 a3
  exact ⟨by omega, by omega, by omega, by omega, a3.2.2.2⟩

/-- The deferral `x` still exists: in a pending stack, popped and not yet run, or about to be pushed. -/
def Pending (s : St T R S X) (x : X) : Prop := ∃ p, At s x p

/-- **C65**: at the moment `x` runs there is no second copy of it, and after that it never runs again. -/
theorem runs_once {s s1 s2 : St T R S X} {t : T} {x : X} {as : List (Act T R S X)}
    (hr : (sys T R S X c).Reach s) (hx : Runs s t x) (hc : step c s (.main t) = some s1)
    (he : (sys T R S X c).Exec s1 as s2) : ∀ u, ¬ Runs s2 u x := by
  obtain ⟨r, l, k, hm⟩ := hx
  have hI := invU_reach hr
  have hat : At s x (.disp t) := by simp only [At]; rw [hm]; exact List.mem_cons_self
  have hb : s1.busy x = true ∧ ¬ Pending s1 x := by
    have hb0 := hI.2.busy x _ hat
    simp only [step] at hc
    split at hc
    case isFalse => cases hc
    simp only [mainStep, hm, gm] at hc
    cases hc
    refine ⟨hb0, ?_⟩
    rintro ⟨p, hp⟩
    cases p with
    | pend r b => have := hI.2.uniq x _ _ hat (show At s x (.pend r b) from hp); cases this
    | call u => have := hI.2.uniq x _ _ hat (show At s x (.call u) from hp); cases this
    | disp u =>
      simp only [At] at hp
      by_cases hu : u = t
      · subst hu
        rw [upd_same] at hp
        have := hI.2.ndd u
        rw [hm] at this
        exact (List.nodup_cons.1 this).1 hp
      · rw [upd_ne _ _ hu] at hp
        have := hI.2.uniq x _ _ hat (show At s x (.disp u) from hp)
        cases this; exact hu rfl
  have hend : ¬ Pending s2 x := by
    have hr1 : (sys T R S X c).Reach s1 := .step (a := .main t) hr hc
    clear hc hm hat hI
    obtain ⟨hb, hn⟩ := hb
    induction he with
    | nil => exact hn
    | @cons s s1 s' a as hs _ ih =>
      have hb' : s1.busy x = true := by
        rcases wait_step hs with ⟨-, h2⟩ | ⟨t, r, y, rfl, h0, h1, h2⟩ | ⟨t, y, rfl, h1, h2⟩
        · rw [h2]; exact hb
        · rw [h2, upd_apply]; split
          · rfl
          · exact hb
        · rw [h2]; exact hb
      refine ih (.step hr1 hs) hb' ?_
      rintro ⟨p, hp⟩
      rcases at_back hs hp with h | ⟨t, r, rfl⟩
      · exact hn h
      · simp only [sys, step] at hs
        split at hs
        · next hq => rw [hb] at hq; exact absurd hq.1 (by simp)
        · cases hs
  rintro u ⟨r', l', k', hm'⟩
  refine hend ⟨.disp u, ?_⟩
  simp only [At]; rw [hm']; exact List.mem_cons_self

/-- **C65**: a deferral stays until it is run, or until the record it is pending on is unregistered. -/
theorem not_lost {s s1 s2 : St T R S X} {t : T} {r : R} {x : X} {as : List (Act T R S X)}
    (hr : (sys T R S X c).Reach s) (hc : step c s (.call t r x) = some s1) (he : (sys T R S X c).Exec s1 as s2) :
    Pending s2 x ∨ (∃ as1 u as2 s3, as = as1 ++ .main u :: as2 ∧ (sys T R S X c).Exec s1 as1 s3 ∧ Runs s3 u x) ∨
      ∃ as1 u q b as2 s3, as = as1 ++ .unreg u q :: as2 ∧ (sys T R S X c).Exec s1 as1 s3 ∧ x ∈ s3.pend q b := by
  have h1 : Pending s1 x := by
    simp only [step, gs] at hc
    split at hc <;> cases hc
    exact ⟨.call t, r, s.G, upd_same _ _ _⟩
  have hr1 : (sys T R S X c).Reach s1 := .step (a := .call t r x) hr hc
  clear hc hr
  induction he with
  | nil => exact Or.inl h1
  | @cons s s1 s' a as hs he ih =>
    obtain ⟨p, hp⟩ := h1
    have hI := invU_reach hr1
    rcases at_fwd hI.1 hI.2 hs hp with h | ⟨u, q, l, k, rfl, hm⟩ | ⟨u, q, b, rfl, hx⟩
    · rcases ih h (.step hr1 hs) with h | ⟨as1, u, as2, s3, h1, h2, h3⟩ | ⟨as1, u, q, b, as2, s3, h1, h2, h3⟩
      · exact Or.inl h
      · exact Or.inr (Or.inl ⟨a :: as1, u, as2, s3, by rw [h1]; rfl, .cons hs h2, h3⟩)
      · exact Or.inr (Or.inr ⟨a :: as1, u, q, b, as2, s3, by rw [h1]; rfl, .cons hs h2, h3⟩)
    · exact Or.inr (Or.inl ⟨[], u, as, s, rfl, .nil s, q, l, k, hm⟩)
    · exact Or.inr (Or.inr ⟨[], u, q, b, as, s, rfl, .nil s, hx⟩)

end Verif.Ep
