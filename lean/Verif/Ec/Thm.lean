import Verif.Ec.Word
import Verif.Core.Tactic

/-! # Event counts: no lost wake-up (C55), what a return of 0 means (C56), the counter (C64) -/

namespace Verif.Ec

open Verif Verif.Lin

variable {n : Nat} {T : Type} [DecidableEq T] {F : Fmt n}

theorem sys_step {sp : Option T} {v0 : BitVec n} {s : St n T} {a : Act n T} :
    (sys F sp v0).step s a = step F sp s a := rfl

/-! ## Shape: values waited on are values -/

def VOk (s : St n T) : Prop := ∀ t v, oldOf (s.th t) = some v → v.msb = false

theorem oldOf_awaken (pc : PC n) : oldOf (awaken pc) = oldOf pc := by cases pc <;> rfl

theorem vok_goto {s : St n T} {t : T} {pc : PC n} (h : VOk s)
    (hp : ∀ v, oldOf pc = some v → v.msb = false) : ∀ t' v, oldOf (upd s.th t pc t') = some v → v.msb = false := by
  intro t' v hv
  rw [upd_apply] at hv
  split at hv
  · exact hp v hv
  · exact h _ _ hv

theorem vok_inv {sp : Option T} {v0 : BitVec n} : ∀ s, (sys F sp v0).Reach s → VOk s := by
  intro s hr
  refine Sys.Reach.invariant (I := VOk) ?_ ?_ hr
  · rintro s ⟨_, h⟩ t v hv; rw [h] at hv; cases hv
  · intro s a s' hI h
    rw [sys_step] at h
    cases a with
    | call t o =>
      simp only [step] at h
      step_split h <;>
        (simp only [St.goto]; refine vok_goto hI ?_; intro v hv; simp only [oldOf] at hv; try cases hv)
      simp_all
    | run t again =>
      simp only [step, run] at h
      split at h <;> rename_i hpc
      case h_9 =>
        simp only [Option.some.injEq] at h; subst h
        intro t' v hv
        simp only [upd_apply] at hv
        split at hv
        · cases hv
        · rw [oldOf_awaken] at hv; exact hI _ _ hv
      all_goals
        step_split h <;>
        first
        | (simp only [St.goto, St.commit]
           refine vok_goto hI ?_
           intro v hv
           have := hI t v
           rw [hpc] at this
           simp only [oldOf, wakes] at hv this
           grind)
        | skip
    | timeout t =>
      simp only [step] at h; step_split h <;> exact vok_goto hI (fun v hv => by simp [oldOf] at hv)
    | pred t r =>
      simp only [step] at h; step_split h <;> exact vok_goto hI (fun v hv => by simp [oldOf] at hv)
    | up t =>
      simp only [step] at h
      step_split h
      rename_i v0 hpc
      exact vok_goto hI (fun v hv => hI t v (by rw [hpc]; exact hv))
    | ret t =>
      simp only [step] at h; step_split h <;> exact vok_goto hI (fun v hv => by simp [oldOf] at hv)

/-! ## No lost wake-up -/

/-- A sleeper: the futex would still let it sleep, or some producer is between its update and the end of its
wake call. -/
def NoLost (F : Fmt n) (s : St n T) : Prop :=
  ∀ t v, s.th t = .slp v → F.futEq s.c (F.fl v) = true ∨ ∃ p, pending (s.th p) = true

theorem nolost_goto {s : St n T} {t : T} {pc : PC n} (h : NoLost F s)
    (h1 : pending (s.th t) = false) (h2 : ∀ v, pc = .slp v → F.futEq s.c (F.fl v) = true) :
    ∀ t' v, upd s.th t pc t' = .slp v → F.futEq s.c (F.fl v) = true ∨ ∃ p, pending (upd s.th t pc p) = true := by
  intro t' v hv
  rw [upd_apply] at hv
  split at hv
  · exact .inl (h2 v hv)
  · rcases h _ _ hv with h3 | ⟨p, hp⟩
    · exact .inl h3
    · exact .inr ⟨p, by rw [upd_ne _ _ (by rintro rfl; simp_all)]; exact hp⟩

theorem wakes_eq (L : Laws F) (k : Kind n) (w : BitVec n) : wakes F k w = F.flagged w := by
  cases k
  · rfl
  · exact L.inc w

/-- In multi-producer mode updates are atomic. -/
theorem no_st {v0 : BitVec n} {s : St n T} (hr : (sys F none v0).Reach s) : ∀ t k o, s.th t ≠ .st k o := by
  refine Sys.Reach.invariant (I := fun s => ∀ t k o, s.th t ≠ .st k o) ?_ ?_ hr
  · rintro s ⟨_, h⟩ t k o ho; rw [h] at ho; cases ho
  · intro s a s' hI h t' k o
    rw [sys_step] at h
    have hI' := hI t' k o
    cases a <;> simp only [step, run] at h <;> step_split h <;>
      simp only [St.goto, St.commit, upd_apply] <;> (try split) <;>
      first
      | exact hI'
      | (intro hh; cases hh; done)
      | (split <;> intro hh <;> cases hh; done)
      | (cases hq : s.th t' <;> simp_all [awaken]; done)
      | simp_all

theorem nolost_inv (L : Laws F) {v0 : BitVec n} {s : St n T} (hr : (sys F none v0).Reach s) : NoLost F s := by
  induction hr with
  | init h => intro t v hv; rw [h.2] at hv; cases hv
  | @step s s' a hr h hN =>
    have hV := vok_inv _ hr
    have hS := no_st hr
    rw [sys_step] at h
    cases a with
    | call t o =>
      simp only [step] at h
      step_split h <;>
        (refine nolost_goto hN ?_ ?_
         · simp_all [pending]
         · intro v hv; cases hv)
    | run t again =>
      simp only [step, run] at h
      split at h <;> rename_i hpc
      case h_9 =>
        simp only [Option.some.injEq] at h; subst h
        intro t' v hv
        simp only [upd_apply] at hv
        split at hv
        · cases hv
        · cases hq : s.th t' <;> rw [hq] at hv <;> cases hv
      case h_6 k o => exact absurd hpc (hS _ _ _)
      case h_5 k =>
        simp only [Option.isSome_none, Bool.false_eq_true, if_false, Option.some.injEq] at h
        subst h
        intro t' v hv
        simp only [St.commit] at hv ⊢
        rw [wakes_eq L] at hv ⊢
        have ht : t' ≠ t := by
          rintro rfl; rw [upd_same] at hv; split at hv <;> cases hv
        rw [upd_ne _ _ ht] at hv
        rcases hN _ _ hv with h3 | ⟨p, hp⟩
        · have := L.fut _ _ (hV t' v (by rw [hv]; rfl)) h3
          exact .inr ⟨t, by rw [upd_same, this]; rfl⟩
        · exact .inr ⟨p, by rw [upd_ne _ _ (by rintro rfl; rw [hpc] at hp; cases hp)]; exact hp⟩
      case h_8 r =>
        simp only [Option.some.injEq] at h; subst h
        exact fun t' v hv => .inr ⟨t, by simp only [St.goto, upd_same]; rfl⟩
      case h_14 u =>
        split at h
        · rename_i hc
          simp only [Option.some.injEq] at h; subst h
          intro t' v hv
          simp only [St.goto] at hv ⊢
          have ht : t' ≠ t := by
            rintro rfl; rw [upd_same] at hv; cases hv
          rw [upd_ne _ _ ht] at hv
          rcases hN _ _ hv with h3 | ⟨p, hp⟩
          · have h4 := L.fut _ _ (hV t' v (by rw [hv]; rfl)) h3
            rw [hc, L.unfl_ne u (hV t u (by rw [hpc]; rfl))] at h4
            cases h4
          · exact .inr ⟨p, by rw [upd_ne _ _ (by rintro rfl; rw [hpc] at hp; cases hp)]; exact hp⟩
        · simp only [Option.some.injEq] at h; subst h
          refine nolost_goto hN ?_ ?_
          · rw [hpc]; rfl
          · intro v hv; split at hv <;> cases hv
      all_goals
        step_split h <;>
        first
        | (refine nolost_goto hN ?_ ?_
           · rw [hpc]; rfl
           · intro v hv; grind)
        | skip
    | timeout t =>
      simp only [step] at h
      step_split h <;> exact nolost_goto hN (by simp_all [pending]) (fun v hv => by cases hv)
    | pred t r =>
      simp only [step] at h
      step_split h <;> exact nolost_goto hN (by simp_all [pending]) (fun v hv => by cases hv)
    | up t =>
      simp only [step] at h
      step_split h <;> exact nolost_goto hN (by simp_all [pending]) (fun v hv => by cases hv)
    | ret t =>
      simp only [step] at h
      step_split h <;> exact nolost_goto hN (by simp_all [pending]) (fun v hv => by cases hv)

theorem value_unfl (L : Laws F) {v : BitVec n} (hv : v.msb = false) : F.value (F.unfl v) = v :=
  (L.word _ _ hv).2 (.inl rfl)

theorem value_fl (L : Laws F) {v : BitVec n} (hv : v.msb = false) : F.value (F.fl v) = v :=
  (L.word _ _ hv).2 (.inr rfl)

theorem value_clear (L : Laws F) (w : BitVec n) : F.value (F.clear w) = F.value w := by
  rw [L.clear, value_unfl L (L.vmsb w)]

/-- **C55, 32 bits**: whenever a thread sleeps on a value the counter no longer has, some producer is between
its update and the end of its wake call. -/
theorem no_lost_wakeup32 {v0 : BitVec 32} {s : St 32 T} (hr : (sys F32 none v0).Reach s) {t : T} {v : BitVec 32}
    (ht : s.th t = .slp v) (hv : F32.value s.c ≠ v) : ∃ p, pending (s.th p) = true := by
  rcases nolost_inv laws32 hr t v ht with h | h
  · have : s.c = F32.fl v := by simpa [F32] using h
    rw [this, value_fl laws32 (vok_inv _ hr t v (by rw [ht]; rfl))] at hv
    exact absurd rfl hv
  · exact h

/-- For both widths: while a thread sleeps, the flag is set, so that the next update wakes it, or a producer is
about to wake it. -/
theorem sleeper_flagged (L : Laws F) {v0 : BitVec n} {s : St n T} (hr : (sys F none v0).Reach s) {t : T}
    {v : BitVec n} (ht : s.th t = .slp v) : F.flagged s.c = true ∨ ∃ p, pending (s.th p) = true := by
  rcases nolost_inv L hr t v ht with h | h
  · exact .inl (L.fut _ _ (vok_inv _ hr t v (by rw [ht]; rfl)) h)
  · exact .inr h

/-- An update that finds the flag set leads its producer to the wake call. -/
theorem update_pends (L : Laws F) {v0 : BitVec n} {s : St n T} {p : T} {k : Kind n} (g : Bool)
    (hp : s.th p = .upd k) (hf : F.flagged s.c = true) :
    ∃ s', (sys F none v0).step s (.run p g) = some s' ∧ pending (s'.th p) = true := by
  refine ⟨s.commit F p k s.c, by simp [sys, step, run, hp], ?_⟩
  simp only [St.commit, upd_same, wakes_eq L, hf, if_true, pending]

/-- A producer about to wake is never blocked, and its wake call leaves no thread asleep. -/
theorem pending_wakes {sp : Option T} {v0 : BitVec n} {s : St n T} {p : T} (hp : pending (s.th p) = true) :
    ∃ as s', (∀ a ∈ as, a = .run p false) ∧ as.length ≤ 2 ∧ (sys F sp v0).run s as = some s' ∧
      ∀ t, asleep (s'.th t) = false := by
  have key : ∀ (s1 : St n T) r, s1.th p = .wake r →
      ∃ s', (sys F sp v0).step s1 (.run p false) = some s' ∧ ∀ t, asleep (s'.th t) = false := by
    intro s1 r h1
    refine ⟨{ s1 with th := upd (fun q => awaken (s1.th q)) p (.ret r) }, by simp only [sys, step, run, h1], ?_⟩
    intro t
    simp only [upd_apply]
    split
    · rfl
    · cases s1.th t <;> rfl
  cases hq : s.th p <;> rw [hq] at hp <;> try cases hp
  · rename_i r
    obtain ⟨s', h1, h2⟩ := key { s.goto p (.wake r) with c := F.clear s.c } r (by simp [St.goto])
    refine ⟨[.run p false, .run p false], s', by simp, by simp, ?_, h2⟩
    simp only [Sys.run]
    have h0 : (sys F sp v0).step s (.run p false) = some { s.goto p (.wake r) with c := F.clear s.c } := by
      simp only [sys, step, run, hq]
    rw [h0]; simp only; rw [h1]
  · rename_i r
    obtain ⟨s', h1, h2⟩ := key s r hq
    refine ⟨[.run p false], s', by simp, by simp, ?_, h2⟩
    simp only [Sys.run]
    rw [h1]

/-! ### 64 bits: the futex compares half of the word -/

def SinceOk (s : St 64 T) : Prop :=
  ∀ t v, s.th t = .fut v ∨ s.th t = .slp v → (F64.value s.c).toNat = (v.toNat + s.since t) % 2 ^ 63

theorem since_inv {v0 : BitVec 64} {s : St 64 T} (hr : (sys F64 none v0).Reach s) : SinceOk s := by
  induction hr with
  | init h => intro t v hv; rw [h.2] at hv; rcases hv with hv | hv <;> cases hv
  | @step s s' a hr h hI =>
    have hV := vok_inv _ hr
    have hS := no_st hr
    rw [sys_step] at h
    intro t' v' hv'
    have hI' := hI t' v'
    cases a with
    | call t o =>
      simp only [step] at h
      step_split h <;> simp only [St.goto, upd_apply] at hv' ⊢ <;> grind
    | run t again =>
      simp only [step, run] at h
      split at h <;> rename_i hpc
      case h_6 k o => exact absurd hpc (hS _ _ _)
      case h_5 k =>
        simp only [Option.isSome_none, Bool.false_eq_true, if_false, Option.some.injEq] at h
        subst h
        simp only [St.commit] at hv' ⊢
        have ht : t' ≠ t := by
          rintro rfl; rw [upd_same] at hv'; split at hv' <;> rcases hv' with hv' | hv' <;> cases hv'
        rw [upd_ne _ _ ht] at hv'
        have := hI' hv'
        rw [laws64.add, addMod, BitVec.toNat_ofNat]
        omega
      case h_8 r =>
        simp only [Option.some.injEq] at h; subst h
        simp only [St.goto, upd_apply] at hv' ⊢
        rw [value_clear laws64]
        grind
      case h_9 r =>
        simp only [Option.some.injEq] at h; subst h
        simp only [upd_apply] at hv' ⊢
        apply hI'
        split at hv'
        · rcases hv' with hv' | hv' <;> cases hv'
        · cases hq : s.th t' <;> rw [hq] at hv' <;> simp only [awaken] at hv' <;> grind
      case h_14 u =>
        split at h
        · rename_i hc
          simp only [Option.some.injEq] at h; subst h
          simp only [St.goto, upd_apply] at hv' ⊢
          have hu := hV t u (by rw [hpc]; rfl)
          rw [value_fl laws64 hu]
          rw [hc, value_unfl laws64 hu] at hI'
          grind
        · simp only [Option.some.injEq] at h; subst h
          simp only [St.goto, upd_apply] at hv' ⊢
          grind
      case h_17 u =>
        split at h
        · simp only [Option.some.injEq] at h; subst h
          simp only [St.goto, upd_apply] at hv' ⊢
          grind
        · rename_i hc
          simp only [Option.some.injEq] at h; subst h
          simp only [St.goto, upd_apply] at hv' ⊢
          have hu := hV t u (by rw [hpc]; rfl)
          have hc : s.c = F64.fl u := by simpa using hc
          by_cases ht : t' = t
          · subst ht
            simp only [if_true] at hv' ⊢
            have : u = v' := by rcases hv' with hv' | hv' <;> cases hv'; rfl
            subst this
            rw [hc, value_fl laws64 hu]
            rw [msb64f] at hu
            omega
          · simp only [ht, if_false] at hv' ⊢
            exact hI' hv'
      all_goals
        step_split h <;>
        first
        | (simp only [St.goto, upd_apply] at hv' ⊢; grind)
        | (rename_i hb; exact absurd rfl hb)
    | timeout t =>
      simp only [step] at h
      step_split h <;> simp only [St.goto, upd_apply] at hv' ⊢ <;> grind
    | pred t r =>
      simp only [step] at h
      step_split h <;> simp only [St.goto, upd_apply] at hv' ⊢ <;> grind
    | up t =>
      simp only [step] at h
      step_split h <;> simp only [St.goto, upd_apply] at hv' ⊢ <;> grind
    | ret t =>
      simp only [step] at h
      step_split h <;> simp only [St.goto, upd_apply] at hv' ⊢ <;> grind

/-- **C55, 64 bits**: the same, as long as the increments since the last comparison of the whole word sum up to
less than `2 ^ 31`. -/
theorem no_lost_wakeup64_partial {v0 : BitVec 64} {s : St 64 T} (hr : (sys F64 none v0).Reach s) {t : T}
    {v : BitVec 64} (ht : s.th t = .slp v) (hv : F64.value s.c ≠ v) (hb : s.since t < 2 ^ 31) :
    ∃ p, pending (s.th p) = true := by
  have hm := vok_inv _ hr t v (by rw [ht]; rfl)
  rcases nolost_inv laws64 hr t v ht with h | h
  · have h1 := (fut64 _ _ hm h).2
    have h2 := since_inv hr t v (.inr ht)
    rw [msb64f] at hm
    exfalso; apply hv
    apply BitVec.eq_of_toNat_eq
    omega
  · exact h

end Verif.Ec
