import Verif.Progress.Bypass
import Verif.Rw.TflockThm

/-!
# Bounded overtaking in the task-fair lock (C112)

`passes` of C111 on the model of C13.  While a writer waits with its request made, the others acquire the lock at most `n - 1` times in
all, as readers or as writers; while a reader waits, writers acquire it at most `n - 1` times.  Only requests made before its own are
served before it.
-/

namespace Verif.Rw.Tflock

open Verif.Bypass

variable {n : Nat}

def Act.thread : Act n → Fin n
  | .wlock t | .wunlock t | .rlock t | .runlock t | .run t => t

/-- Has made its write request and waits (line 89). -/
def waitW (s : St n) (t : Fin n) : Bool := match s.pc t with | .wSpin _ => true | _ => false
/-- Has made its read request and waits (lines 117-118). -/
def waitR (s : St n) (t : Fin n) : Bool := match s.pc t with | .rSpin _ => true | _ => false
/-- Inside as a writer (`St.writes`). -/
def inW (s : St n) (t : Fin n) : Bool := (s.pc t).win
/-- Inside as a reader or writer (`St.reads`, `St.writes`). -/
def inRW (s : St n) (t : Fin n) : Bool := (s.pc t).rin || (s.pc t).win

theorem inW_iff {s : St n} {t : Fin n} : inW s t = true ↔ s.writes t := by rw [writes_iff, inW]
theorem inRW_iff {s : St n} {t : Fin n} : inRW s t = true ↔ s.reads t ∨ s.writes t := by
  rw [writes_iff, reads_iff, inRW, Bool.or_eq_true]
theorem waitW_iff {s : St n} {t : Fin n} : waitW s t = true ↔ s.wreq t ∧ ¬ s.writes t := by
  rw [writes_iff, wreq_iff, waitW]
  cases s.pc t with
  | load o => cases o <;> simp
  | cas o x => cases o <;> simp
  | _ => simp
theorem waitR_iff {s : St n} {t : Fin n} : waitR s t = true ↔ s.rreq t ∧ ¬ s.reads t := by
  rw [reads_iff, rreq_iff, waitR]
  cases s.pc t with
  | load o => cases o <;> simp
  | cas o x => cases o <;> simp
  | _ => simp

/-- A step changes only its thread's place and request; a thread that gets inside waited, and keeps its request. -/
theorem step_local {s s' : St n} {a : Act n} (hs : step s a = some s') :
    (∀ u, u ≠ a.thread → s'.pc u = s.pc u ∧ s'.ix u = s.ix u) ∧
    (inW s' a.thread = true → inW s a.thread = false → waitW s a.thread = true ∧ s'.ix a.thread = s.ix a.thread) ∧
    (inRW s' a.thread = true → inRW s a.thread = false →
      (waitW s a.thread = true ∨ waitR s a.thread = true) ∧ s'.ix a.thread = s.ix a.thread) ∧
    (waitW s' a.thread = true → (waitW s a.thread = true ∧ s'.ix a.thread = s.ix a.thread) ∨ s'.ix a.thread = s.rq + s.wq) ∧
    (waitR s' a.thread = true → (waitR s a.thread = true ∧ s'.ix a.thread = s.ix a.thread) ∨ s'.ix a.thread = s.rq + s.wq) := by
  rcases a with u | u | u | u | u
  case run =>
    cases hp : s.pc u with
    | load o => cases o <;> simp only [step, hp, Option.some.injEq] at hs <;> subst hs <;> simp [Act.thread, St.ix, inW, inRW, waitW, waitR, hp] <;> grind
    | cas o x =>
      cases o <;> simp only [step, hp] at hs <;> step_split hs <;> simp [Act.thread, St.ix, inW, inRW, waitW, waitR, hp] <;> grind
    | _ => simp only [step, hp] at hs <;> step_split hs <;> simp [Act.thread, St.ix, inW, inRW, waitW, waitR, hp] <;> grind
  all_goals
    simp only [step] at hs
    split at hs <;> simp only [Option.some.injEq, reduceCtorEq] at hs
    subst hs
    next hp => simp [Act.thread, St.ix, inW, inRW, waitW, waitR, hp] <;> grind

/-- The general bound: `pend` is the waiting threads that may get in the way, each passes once. -/
theorem passes_le (wait hold pend : St n → Fin n → Bool) (t : Fin n)
    (hstep : ∀ s a s', Inv s → step s a = some s' → wait s t = true → wait s' t = true →
      (acquires hold s s').toNat + cnt id (pend s') ≤ cnt id (pend s))
    (hn : n < 2 ^ 15) (hp : ∀ s, pend s t = false) (as : List (Act n)) (s : St n) (hi : Inv s) :
    passes step wait hold t s as ≤ n - 1 := by
  have key : ∀ (as : List (Act n)) (s : St n), Inv s → passes step wait hold t s as ≤ cnt id (pend s) := by
    intro as
    induction as with
    | nil => intro s _; exact Nat.zero_le _
    | cons a as ih =>
      intro s hi
      rw [passes]
      cases hs : step s a with
      | none => exact Nat.zero_le _
      | some s' =>
        simp only
        split
        · next hw =>
          have h1 := ih s' (inv_step hn hi hs)
          have h2 := hstep s a s' hi hs hw.1 hw.2
          omega
        · exact Nat.zero_le _
  have h1 := key as s hi
  have h2 := cnt_lt_of (P := id) (f := pend s) (t := t) (hp s)
  omega

/-- Requests made before that of `t` whose threads wait. -/
def aheadW (t : Fin n) (s : St n) (u : Fin n) : Bool := (waitW s u || waitR s u) && decide (s.ix u < s.ix t)
/-- Write requests made before that of `t` whose threads wait. -/
def aheadR (t : Fin n) (s : St n) (u : Fin n) : Bool := waitW s u && decide (s.ix u < s.ix t)

theorem Inv.ix_le {s : St n} (hi : Inv s) {t : Fin n} (h : s.wreq t ∨ s.rreq t) : s.ix t < s.rq + s.wq := by
  rw [wreq_iff, rreq_iff] at h
  unfold St.ix
  rcases h with h | h
  · have := hi.t.wlt t h; omega
  · have := hi.t.rlt t h; omega

theorem acq_thread {hold : St n → Fin n → Bool} {s s' : St n} {v : Fin n} (h : ∀ u, u ≠ v → hold s' u = hold s u) :
    acquires hold s s' = true → hold s' v = true ∧ hold s v = false := by
  unfold acquires
  simp only [decide_eq_true_eq]
  rintro ⟨u, h1, h2⟩
  by_cases e : u = v
  · exact e ▸ ⟨h1, h2⟩
  · rw [h u e, h2] at h1; cases h1

theorem drop_or_le {f g : Fin n → Bool} {v : Fin n} {b : Bool} (h : ∀ u, u ≠ v → g u = f u) (hb : b = true → f v = true ∧ g v = false)
    (hv : g v = true → f v = true) : b.toNat + cnt id g ≤ cnt id f := by
  cases b with
  | true =>
    have := cnt_drop h (hb rfl).1 (hb rfl).2
    simp only [Bool.toNat_true]; omega
  | false =>
    simp only [Bool.toNat_false, Nat.zero_add]
    unfold cnt
    refine Finset.sum_le_sum fun u _ => ?_
    by_cases e : u = v
    · subst e
      cases hg : g u
      · simp
      · simp [hv hg]
    · simp [h u e]

/-- C112: while a writer waits with its request made, the others acquire the lock at most `n - 1` times. -/
theorem writer_bypass_bounded (hn : n < 2 ^ 15) {s : St n} (h : (sys n).Reach s) (t : Fin n) (as : List (Act n)) :
    passes step waitW inRW t s as ≤ n - 1 := by
  refine passes_le waitW inRW (aheadW t) t ?_ hn (fun s => by simp [aheadW]) as s (inv_of_reach hn h)
  intro s a s' hi hs hw hw'
  obtain ⟨h1, -, h3, h4, h5⟩ := step_local hs
  have hi' := inv_step hn hi hs
  have hreq := (waitW_iff.1 hw).1
  have hreq' := (waitW_iff.1 hw').1
  have hlt := hi.ix_le (.inl hreq)
  have hix : s'.ix t = s.ix t := by
    by_cases e : t = a.thread
    · subst e
      rcases h4 hw' with h | h
      · exact h.2
      · exfalso
        have := hi.t.nr
        revert h hw hw'
        rcases a with u | u | u | u | u <;> simp only [Act.thread] at * <;> simp only [step] at hs <;> step_split hs <;> grind [waitW, St.ix]
    · exact (h1 t e).2
  refine drop_or_le (v := a.thread) (fun u hu => ?_) (fun hb => ?_) (fun hg => ?_)
  · have := h1 u hu
    simp only [aheadW, waitW, waitR, this.1, this.2, hix]
  · have hq := acq_thread (hold := inRW) (v := a.thread) (fun u hu => by simp only [inRW, (h1 u hu).1]) hb
    have h6 := h3 hq.1 hq.2
    have hne : a.thread ≠ t := by
      rintro e
      rw [e] at hq
      have := hq.1
      revert this hw'
      unfold inRW waitW
      cases s'.pc t <;> simp
    have hlt : s'.ix a.thread < s'.ix t := by
      rcases inRW_iff.1 hq.1 with hr | hr
      · exact (hi'.fair a.thread t).2 hr hreq'
      · exact (hi'.fair a.thread t).1 hr (.inl hreq') (Ne.symm hne)
    rw [h6.2, hix] at hlt
    refine ⟨?_, ?_⟩
    · simp only [aheadW, hlt, decide_true, Bool.and_true, Bool.or_eq_true]; exact h6.1
    · have := hq.1
      revert this
      unfold aheadW inRW waitW waitR
      cases s'.pc a.thread <;> simp
  · simp only [aheadW, Bool.and_eq_true, Bool.or_eq_true, decide_eq_true_eq] at hg ⊢
    obtain ⟨hg1, hg2⟩ := hg
    rw [hix] at hg2
    rcases hg1 with hg1 | hg1
    · rcases h4 hg1 with h | h
      · exact ⟨.inl h.1, by omega⟩
      · omega
    · rcases h5 hg1 with h | h
      · exact ⟨.inr h.1, by omega⟩
      · omega

/-- C112: while a reader waits with its request made, writers acquire the lock at most `n - 1` times. -/
theorem reader_bypass_bounded (hn : n < 2 ^ 15) {s : St n} (h : (sys n).Reach s) (t : Fin n) (as : List (Act n)) :
    passes step waitR inW t s as ≤ n - 1 := by
  refine passes_le waitR inW (aheadR t) t ?_ hn (fun s => by simp [aheadR]) as s (inv_of_reach hn h)
  intro s a s' hi hs hw hw'
  obtain ⟨h1, h3, -, h4, h5⟩ := step_local hs
  have hi' := inv_step hn hi hs
  have hreq := (waitR_iff.1 hw).1
  have hreq' := (waitR_iff.1 hw').1
  have hlt := hi.ix_le (.inr hreq)
  have hix : s'.ix t = s.ix t := by
    by_cases e : t = a.thread
    · subst e
      rcases h5 hw' with h | h
      · exact h.2
      · exfalso
        have := hi.t.nr
        revert h hw hw'
        rcases a with u | u | u | u | u <;> simp only [Act.thread] at * <;> simp only [step] at hs <;> step_split hs <;> grind [waitR, St.ix]
    · exact (h1 t e).2
  refine drop_or_le (v := a.thread) (fun u hu => ?_) (fun hb => ?_) (fun hg => ?_)
  · have := h1 u hu
    simp only [aheadR, waitW, this.1, this.2, hix]
  · have hq := acq_thread (hold := inW) (v := a.thread) (fun u hu => by simp only [inW, (h1 u hu).1]) hb
    have h6 := h3 hq.1 hq.2
    have hne : a.thread ≠ t := by
      rintro e
      rw [e] at hq
      have := hq.1
      revert this hw'
      unfold inW waitR
      cases s'.pc t <;> simp
    have hlt : s'.ix a.thread < s'.ix t := (hi'.fair a.thread t).1 (inW_iff.1 hq.1) (.inr hreq') (Ne.symm hne)
    rw [h6.2, hix] at hlt
    refine ⟨?_, ?_⟩
    · simp only [aheadR, hlt, decide_true, Bool.and_true]; exact h6.1
    · have := hq.1
      revert this
      unfold aheadR inW waitW
      cases s'.pc a.thread <;> simp
  · simp only [aheadR, Bool.and_eq_true, decide_eq_true_eq] at hg ⊢
    obtain ⟨hg1, hg2⟩ := hg
    rw [hix] at hg2
    rcases h4 hg1 with h | h
    · exact ⟨h.1, by omega⟩
    · omega

/-- Three threads: reader 0, writer 1 and writer 2 have made their requests in this order; 0 and 1 pass thread 2, and then it is its turn
although thread 0 has made another request. -/
def caseReq : List (Act 3) := [.rlock 0, .run 0, .run 0, .wlock 1, .run 1, .run 1, .wlock 2, .run 2, .run 2]

def caseRun : List (Act 3) :=
  [.run 2, .run 0, .run 1, .runlock 0, .run 0, .run 0, .run 2, .run 1, .rlock 0, .run 0, .run 0, .run 0, .run 2, .wunlock 1, .run 1, .run 1, .run 0,
   .run 2, .run 0]

theorem bypass_case : passes step waitW inRW 2 (((sys 3).run (initSt 3) caseReq).getD (initSt 3)) caseRun = 2 := by decide

theorem bypass_case_reach : (sys 3).Reach (((sys 3).run (initSt 3) caseReq).getD (initSt 3)) :=
  .of_run (s := initSt 3) (as := caseReq) (.init rfl) rfl

theorem bypass_case_end : ((sys 3).run (initSt 3) (caseReq ++ caseRun)).map (fun s => (s.pc 0, s.pc 1, s.pc 2)) =
    some (.rSpin 2, .idle, .writing) := by decide

end Verif.Rw.Tflock
