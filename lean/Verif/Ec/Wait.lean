import Verif.Ec.Thm
import Mathlib.Data.List.Induction

/-! # Event counts: what a return of 0 means (C56), the counter (C64) -/

namespace Verif.Ec

open Verif Verif.Lin

variable {n : Nat} {T : Type} [DecidableEq T] {F : Fmt n}

/-! ## The value only changes by updates -/

/-- In single-producer mode: only the producer is ever at an update, and the word it loaded still has the
value of the counter. -/
structure SpOk (F : Fmt n) (sp : Option T) (s : St n T) : Prop where
  one : ∀ t, (∃ k, s.th t = .upd k) ∨ (∃ k o, s.th t = .st k o) → sp.isSome → sp = some t
  mp : ∀ t k o, s.th t = .st k o → sp.isSome
  val : ∀ t k o, s.th t = .st k o → F.value o = F.value s.c

/-- A step that is not the write of an update leaves the value alone. -/
theorem value_step (L : Laws F) {sp : Option T} {s s' : St n T} {a : Act n T} (hV : VOk s)
    (h : step F sp s a = some s') :
    F.value s'.c = F.value s.c ∨
      ∃ t g k o, a = .run t g ∧ updating sp (s.th t) = true ∧ s' = s.commit F t k o ∧
        (s.th t = .upd k ∧ o = s.c ∨ s.th t = .st k o) := by
  cases a with
  | run t again =>
    simp only [step, run] at h
    split at h <;> rename_i hpc
    case h_5 k =>
      split at h <;> simp only [Option.some.injEq] at h <;> subst h
      · exact .inl rfl
      · rename_i hsp
        exact .inr ⟨t, again, k, s.c, rfl, by rw [hpc]; simpa [updating] using hsp, rfl, .inl ⟨hpc, rfl⟩⟩
    case h_6 k o =>
      simp only [Option.some.injEq] at h; subst h
      exact .inr ⟨t, again, k, o, rfl, by rw [hpc]; rfl, rfl, .inr hpc⟩
    case h_8 r => simp only [Option.some.injEq] at h; subst h; exact .inl (value_clear L _)
    case h_14 u =>
      split at h <;> simp only [Option.some.injEq] at h <;> subst h
      · rename_i hc
        have hu := hV t u (by rw [hpc]; rfl)
        left
        show F.value (F.fl u) = _
        rw [value_fl L hu, hc, value_unfl L hu]
      · exact .inl rfl
    all_goals step_split h <;> exact .inl rfl
  | _ => simp only [step] at h; step_split h <;> exact .inl rfl

theorem sp_inv (L : Laws F) {sp : Option T} {v0 : BitVec n} {s : St n T} (hr : (sys F sp v0).Reach s) :
    SpOk F sp s := by
  induction hr with
  | init h =>
    constructor
    · intro t ht; rw [h.2] at ht; rcases ht with ⟨_, h⟩ | ⟨_, _, h⟩ <;> cases h
    · intro t k o ht; rw [h.2] at ht; cases ht
    · intro t k o ht; rw [h.2] at ht; cases ht
  | @step s s' a hr h hI =>
    have hV := vok_inv _ hr
    rw [sys_step] at h
    have hone : ∀ t, (∃ k, s'.th t = .upd k) ∨ (∃ k o, s'.th t = .st k o) → sp.isSome → sp = some t := by
      intro t'
      have hI' := hI.one t'
      clear hI
      cases a <;> simp only [step, run] at h <;> step_split h <;>
        simp only [St.goto, St.commit, upd_apply] <;> (try split) <;>
        first
        | exact hI'
        | grind
        | (cases hq : s.th t' <;> simp_all [awaken]; done)
    have hmp : ∀ t k o, s'.th t = .st k o → sp.isSome := by
      intro t' k o
      have hI' := hI.mp t' k o
      clear hI
      cases a <;> simp only [step, run] at h <;> step_split h <;>
        simp only [St.goto, St.commit, upd_apply] <;> (try split) <;>
        first
        | exact hI'
        | grind
        | (cases hq : s.th t' <;> simp_all [awaken]; done)
    refine ⟨hone, hmp, ?_⟩
    intro t' k' o' ht'
    rcases value_step L hV h with hv | ⟨t, g, k, o, rfl, hu, rfl, ho⟩
    · rw [hv]
      -- the word was loaded now, or before
      by_cases h0 : s.th t' = .st k' o'
      · exact hI.val _ _ _ h0
      · have : o' = s.c := by
          clear hI hone hmp
          cases a <;> simp only [step, run] at h <;> step_split h <;>
            simp only [St.goto, St.commit, upd_apply] at ht' <;> (try split at ht') <;>
            first
            | exact absurd ht' h0
            | (cases ht'; rfl)
            | cases ht'
            | (split at ht' <;> cases ht'; done)
            | (cases hq : s.th t' <;> simp_all [awaken]; done)
        rw [this]
    · -- an update: the producer is alone
      exfalso
      simp only [St.commit, upd_apply] at ht'
      split at ht'
      · split at ht' <;> cases ht'
      · rename_i hne
        have h1 := hI.mp _ _ _ ht'
        have h2 := hI.one t' (.inr ⟨_, _, ht'⟩) h1
        have h3 : sp = some t := by
          refine hI.one t ?_ h1
          rcases ho with ⟨ho, _⟩ | ho
          · exact .inl ⟨_, ho⟩
          · exact .inr ⟨_, _, ho⟩
        rw [h2] at h3
        simp only [Option.some.injEq] at h3
        exact hne h3

/-- The word an update is computed from has the value of the counter. -/
theorem upd_value (L : Laws F) {sp : Option T} {v0 : BitVec n} {s : St n T} (hr : (sys F sp v0).Reach s)
    {t : T} {k : Kind n} {o : BitVec n} (ho : s.th t = .upd k ∧ o = s.c ∨ s.th t = .st k o) :
    F.value o = F.value s.c := by
  rcases ho with ⟨_, rfl⟩ | ho
  · rfl
  · exact (sp_inv L hr).val _ _ _ ho

/-! ## What a return of 0 means -/

/-- After the counter word was seen or made flagged. -/
def late : PC n → Bool
  | .easy2 _ | .bo _ | .pre _ | .fut _ | .slp _ | .chk _ => true
  | _ => false

/-- Thread `t` is inside the call of wait for `v`; `C`: the value differed at some instant; `M p`: `p` was
clearing the flag when the call began, or made an update that changed nothing. -/
structure ZInv (F : Fmt n) (v : BitVec n) (t : T) (C : Prop) (M : T → Prop) (s : St n T) : Prop where
  here : oldOf (s.th t) = some v ∨ ∃ r, s.th t = .ret r
  val : F.value s.c ≠ v → C
  clr : ∀ p, isClr (s.th p) = true → C ∨ M p
  late : late (s.th t) = true → (C ∨ ∃ p, M p) ∨ s.c = F.fl v
  zero : s.th t = .ret (.int 0) → C ∨ ∃ p, M p

/-- A step that does not touch the counter word. -/
theorem zinv_goto (L : Laws F) {v : BitVec n} {t : T} {C C' : Prop} {M M' : T → Prop} {s : St n T}
    (hm : v.msb = false) (hI : ZInv F v t C M s) (hC : C → C') (hM : ∀ p, M p → M' p) {q : T} {pc : PC n}
    {s' : St n T} (hc : s'.c = s.c) (hth : s'.th = upd s.th q pc) (hq : isClr pc = false)
    (h1 : q = t → oldOf pc = some v ∨ ∃ r, pc = .ret r)
    (h2 : q = t → Ec.late pc = true → Ec.late (s.th t) = true ∨ s.c = F.fl v)
    (h3 : q = t → pc = .ret (.int 0) → F.value s.c ≠ v ∨ Ec.late (s.th t) = true ∧ s.c ≠ F.fl v) :
    ZInv F v t C' M' s' := by
  obtain ⟨i1, i2, i3, i4, i5⟩ := hI
  constructor
  · rw [hth, upd_apply]; split
    · next h => exact h1 h.symm
    · exact i1
  · rw [hc]; exact fun h => hC (i2 h)
  · intro p; rw [hth, upd_apply]; split
    · rw [hq]; intro h; cases h
    · intro h; rcases i3 p h with h | h
      · exact .inl (hC h)
      · exact .inr (hM _ h)
  · rw [hth, upd_apply, hc]
    have up : (C ∨ ∃ p, M p) ∨ s.c = F.fl v → (C' ∨ ∃ p, M' p) ∨ s.c = F.fl v := by
      rintro ((h | ⟨p, h⟩) | h)
      · exact .inl (.inl (hC h))
      · exact .inl (.inr ⟨p, hM _ h⟩)
      · exact .inr h
    split
    · next h =>
      intro hl
      rcases h2 h.symm hl with h | h
      · exact up (i4 h)
      · exact .inr h
    · exact fun h => up (i4 h)
  · rw [hth, upd_apply]
    have up : C ∨ (∃ p, M p) → C' ∨ ∃ p, M' p := by
      rintro (h | ⟨p, h⟩)
      · exact .inl (hC h)
      · exact .inr ⟨p, hM _ h⟩
    split
    · next h =>
      intro hl
      rcases h3 h.symm hl with h | ⟨h, h'⟩
      · exact up (.inl (i2 h))
      · rcases i4 h with h | h
        · exact up h
        · exact absurd h h'
    · exact fun h => up (i5 h)

theorem zinv_commit {v : BitVec n} {t : T} {C C' : Prop} {M M' : T → Prop} {s : St n T}
    (hI : ZInv F v t C M s) (hC : C → C') (hM : ∀ p, M p → M' p) {q : T} {k : Kind n} {o : BitVec n}
    (hqt : q ≠ t) (hv : F.value (s.commit F q k o).c ≠ v → C')
    (hu : F.value (s.commit F q k o).c = F.value s.c → M' q) : ZInv F v t C' M' (s.commit F q k o) := by
  have key : C' ∨ M' q := by
    by_cases h1 : F.value (s.commit F q k o).c = F.value s.c
    · exact .inr (hu h1)
    · left
      by_cases h2 : F.value s.c = v
      · exact hv (fun h => h1 (h.trans h2.symm))
      · exact hC (hI.val h2)
  constructor
  · simp only [St.commit, upd_ne _ _ (Ne.symm hqt)]; exact hI.here
  · exact hv
  · intro p; simp only [St.commit, upd_apply]; split
    · next h => subst h; exact fun _ => key
    · intro h; exact (hI.clr p h).imp hC (hM p)
  · exact fun _ => .inl (key.imp id fun h => ⟨_, h⟩)
  · exact fun _ => key.imp id fun h => ⟨_, h⟩

theorem zinv_step (L : Laws F) {sp : Option T} {v : BitVec n} {t : T} {C C' : Prop} {M M' : T → Prop}
    {s s' : St n T} {a : Act n T} (hm : v.msb = false) (hV : VOk s) (hI : ZInv F v t C M s)
    (h : step F sp s a = some s') (ha : a ≠ .ret t) (hC : C → C') (hM : ∀ p, M p → M' p)
    (hv : F.value s'.c ≠ v → C')
    (hu : ∀ p g, a = .run p g → updating sp (s.th p) = true → F.value s'.c = F.value s.c → M' p) :
    ZInv F v t C' M' s' := by
  have up : C ∨ (∃ p, M p) → C' ∨ ∃ p, M' p := by
    rintro (h | ⟨p, h⟩)
    · exact .inl (hC h)
    · exact .inr ⟨p, hM _ h⟩
  have old : ∀ q w, oldOf (s.th q) = some w → q = t → w = v := by
    rintro q w h1 rfl
    rcases hI.here with h2 | ⟨r, h2⟩
    · rw [h1] at h2; cases h2; rfl
    · rw [h2] at h1; cases h1
  cases a with
  | call q o =>
    have hqt : s.th q = .idle → q ≠ t := by
      rintro h1 rfl
      rcases hI.here with h2 | ⟨r, h2⟩
      · rw [h1] at h2; cases h2
      · rw [h1] at h2; cases h2
    simp only [step] at h
    step_split h <;>
      (refine zinv_goto L hm hI hC hM (q := q) rfl rfl rfl ?_ ?_ ?_ <;> intro h' <;>
        exact absurd h' (hqt (by assumption)))
  | run q again =>
    simp only [step, run] at h
    split at h <;> rename_i hpc
    case h_1 | h_2 | h_3 => cases h
    case h_4 | h_7 =>
      have hqt : q ≠ t := by
        rintro rfl
        rcases hI.here with h2 | ⟨r, h2⟩ <;> rw [hpc] at h2 <;> cases h2
      step_split h
      exact zinv_goto L hm hI hC hM rfl rfl rfl (fun h => absurd h hqt) (fun h => absurd h hqt)
          (fun h => absurd h hqt)
    case h_5 k =>
      have hqt : q ≠ t := by
        rintro rfl
        rcases hI.here with h2 | ⟨r, h2⟩ <;> rw [hpc] at h2 <;> cases h2
      split at h <;> simp only [Option.some.injEq] at h <;> subst h
      · exact zinv_goto L hm hI hC hM rfl rfl rfl (fun h => absurd h hqt) (fun h => absurd h hqt)
          (fun h => absurd h hqt)
      · rename_i hsp
        exact zinv_commit hI hC hM hqt hv (hu q again rfl (by rw [hpc]; simpa [updating] using hsp))
    case h_6 k o =>
      have hqt : q ≠ t := by
        rintro rfl
        rcases hI.here with h2 | ⟨r, h2⟩ <;> rw [hpc] at h2 <;> cases h2
      simp only [Option.some.injEq] at h; subst h
      exact zinv_commit hI hC hM hqt hv (hu q again rfl (by rw [hpc]; rfl))
    case h_8 r =>
      have hqt : q ≠ t := by
        rintro rfl
        rcases hI.here with h2 | ⟨r, h2⟩ <;> rw [hpc] at h2 <;> cases h2
      simp only [Option.some.injEq] at h; subst h
      have hq := hI.clr q (by rw [hpc]; rfl)
      constructor
      · simp only [St.goto, upd_ne _ _ (Ne.symm hqt)]; exact hI.here
      · exact hv
      · intro p; simp only [St.goto, upd_apply]; split
        · intro h; cases h
        · intro h; exact (hI.clr p h).imp hC (hM p)
      · intro _
        exact .inl (up (hq.imp id fun h => ⟨_, h⟩))
      · simp only [St.goto, upd_ne _ _ (Ne.symm hqt)]; exact fun h => up (hI.zero h)
    case h_9 r =>
      have hqt : q ≠ t := by
        rintro rfl
        rcases hI.here with h2 | ⟨r, h2⟩ <;> rw [hpc] at h2 <;> cases h2
      simp only [Option.some.injEq] at h; subst h
      constructor
      · simp only [upd_ne _ _ (Ne.symm hqt)]
        rcases hI.here with h2 | ⟨r, h2⟩
        · left; rw [oldOf_awaken]; exact h2
        · right; exact ⟨r, by rw [h2]; rfl⟩
      · exact hv
      · intro p; simp only [upd_apply]; split
        · intro h; cases h
        · intro h; refine (hI.clr p ?_).imp hC (hM p)
          cases hp : s.th p <;> rw [hp] at h <;> first | exact h | cases h
      · simp only [upd_ne _ _ (Ne.symm hqt)]
        intro h
        refine (hI.late ?_).imp up id
        cases hp : s.th t <;> rw [hp] at h <;> first | exact h | rfl | cases h
      · simp only [upd_ne _ _ (Ne.symm hqt)]
        intro h
        refine up (hI.zero ?_)
        cases hp : s.th t <;> rw [hp] at h <;> first | exact h | cases h
    case h_14 u =>
      have hu' := hV q u (by rw [hpc]; rfl)
      split at h
      · rename_i hc
        simp only [Option.some.injEq] at h; subst h
        constructor
        · simp only [St.goto, upd_apply]; split
          · next h => left; rw [old q u (by rw [hpc]; rfl) h.symm]; rfl
          · exact hI.here
        · exact hv
        · intro p; simp only [St.goto, upd_apply]; split
          · intro h; cases h
          · intro h; exact (hI.clr p h).imp hC (hM p)
        · simp only [St.goto, upd_apply]; split
          · next h => intro _; right; rw [old q u (by rw [hpc]; rfl) h.symm]
          · intro h
            rcases hI.late h with h | h
            · exact .inl (up h)
            · exfalso
              have h1 := L.unfl_ne u hu'
              rw [← hc, h] at h1
              have h2 := (L.flag (F.fl v)).2 (by rw [value_fl L hm])
              rw [h1] at h2; cases h2
        · simp only [St.goto, upd_apply]; split
          · intro h; cases h
          · exact fun h => up (hI.zero h)
      · rename_i hc
        simp only [Option.some.injEq] at h; subst h
        refine zinv_goto L hm hI hC hM rfl rfl ?_ ?_ ?_ ?_
        · split <;> rfl
        · intro h; have := old q u (by rw [hpc]; rfl) h; subst this
          split
          · exact .inr ⟨_, rfl⟩
          · exact .inl rfl
        · intro h; have := old q u (by rw [hpc]; rfl) h; subst this
          split
          · intro h; cases h
          · rename_i h2; intro _; right; simpa using h2
        · intro h; have := old q u (by rw [hpc]; rfl) h; subst this
          split
          · rename_i h2; intro _; left; rw [ne_eq, L.word _ _ hm]; grind
          · intro h; cases h
    all_goals
      have hw := L.word s.c v hm
      have hfl := value_fl L hm
      step_split h <;>
      (refine zinv_goto L hm hI hC hM rfl rfl ?_ ?_ ?_ ?_ <;>
       (first
        | rfl
        | (split <;> rfl)
        | (intro hqt; have := old q _ (by rw [hpc]; rfl) hqt; subst this; subst hqt
           simp only [hpc, Ec.late, oldOf]
           grind)))
  | timeout q =>
    simp only [step] at h
    step_split h <;>
      exact zinv_goto L hm hI hC hM rfl rfl rfl (fun _ => .inr ⟨_, rfl⟩) (fun _ h => by cases h)
        (fun _ h => by cases h)
  | pred q r =>
    simp only [step] at h
    step_split h
    exact zinv_goto L hm hI hC hM rfl rfl rfl (fun _ => .inr ⟨_, rfl⟩) (fun _ h => by cases h)
        (fun _ h => by cases h; simp_all)
  | up q =>
    simp only [step] at h
    step_split h
    rename_i hpc
    exact zinv_goto L hm hI hC hM rfl rfl rfl
      (fun h => by have := old q _ (by rw [hpc]; rfl) h; subst this; exact .inl rfl)
      (fun h _ => by subst h; rw [hpc]; exact .inl rfl) (fun _ h => by cases h)
  | ret q =>
    have hqt : q ≠ t := fun h => ha (by rw [h])
    simp only [step] at h
    step_split h
    exact zinv_goto L hm hI hC hM rfl rfl rfl (fun h => absurd h hqt) (fun h => absurd h hqt)
      (fun h => absurd h hqt)

theorem run_snoc {S A : Type} (M : Sys S A) (s : S) (as : List A) (a : A) :
    M.run s (as ++ [a]) = (M.run s as).bind fun s1 => M.step s1 a := by
  induction as generalizing s with
  | nil => simp only [List.nil_append, Sys.run, Option.bind_some]; split <;> simp_all
  | cons b as ih =>
    simp only [List.cons_append, Sys.run]
    split
    · rfl
    · exact ih _

/-- The value differed from `v` at some instant of the call that runs over `as`. -/
def Differed (F : Fmt n) (sp : Option T) (v0 : BitVec n) (s : St n T) (t : T) (v : BitVec n)
    (as : List (Act n T)) : Prop :=
  ∃ l s'', l <+: as ∧ (sys F sp v0).run s (.call t (.wait v) :: l) = some s'' ∧ F.value s''.c ≠ v

/-- During the call, producer `p` made an update that left the value as it was (its delta is a multiple of
`2 ^ (n - 1)`). -/
def NullUpdate (F : Fmt n) (sp : Option T) (v0 : BitVec n) (s : St n T) (t : T) (v : BitVec n)
    (as : List (Act n T)) (p : T) : Prop :=
  ∃ l g s1 s2, l ++ [.run p g] <+: as ∧ (sys F sp v0).run s (.call t (.wait v) :: l) = some s1 ∧
    (sys F sp v0).step s1 (.run p g) = some s2 ∧ updating sp (s1.th p) = true ∧ F.value s2.c = F.value s1.c

/-- **C56, as far as it holds**: if wait for `v` returns 0, the value differed from `v` at some instant of the
call, or some producer stood between its update and the clearing of the flag when the call began, or some
producer made an update that changed nothing during the call.  The full property is `WaitZero`; it fails
(`wait_zero_wrong32`, `wait_zero_wrong64`). -/
theorem wait_zero_partial (L : Laws F) {sp : Option T} {v0 : BitVec n} {s s' : St n T} {t : T} {v : BitVec n}
    {as : List (Act n T)} (hr : (sys F sp v0).Reach s)
    (h : (sys F sp v0).run s (.call t (.wait v) :: as) = some s') (hn : .ret t ∉ as)
    (hz : s'.th t = .ret (.int 0)) :
    Differed F sp v0 s t v as ∨ (∃ p, isClr (s.th p) = true) ∨ ∃ p, NullUpdate F sp v0 s t v as p := by
  obtain ⟨s1, hs1⟩ : ∃ s1, (sys F sp v0).step s (.call t (.wait v)) = some s1 := by
    simp only [Sys.run] at h
    split at h
    · cases h
    · exact ⟨_, by assumption⟩
  have hm : v.msb = false := by
    simp only [sys_step, step] at hs1
    split at hs1
    · split at hs1
      · cases hs1
      · simp_all
    · cases hs1
  suffices H : ∀ as : List (Act n T), .ret t ∉ as → ∀ s', (sys F sp v0).run s (.call t (.wait v) :: as) = some s' →
      (sys F sp v0).Reach s' ∧ ZInv F v t (Differed F sp v0 s t v as)
        (fun p => isClr (s.th p) = true ∨ NullUpdate F sp v0 s t v as p) s' by
    have := (H as hn s' h).2.zero hz
    rcases this with h1 | ⟨p, h1 | h1⟩
    · exact .inl h1
    · exact .inr (.inl ⟨p, h1⟩)
    · exact .inr (.inr ⟨p, h1⟩)
  clear h hn hz s' as
  intro as
  induction as using List.reverseRecOn with
  | nil =>
    intro _ s' h
    have hr' := Sys.Reach.of_run hr h
    refine ⟨hr', ?_⟩
    have hdiff : F.value s'.c ≠ v → Differed F sp v0 s t v [] := fun hd => ⟨[], s', List.prefix_refl _, h, hd⟩
    have h0 : (sys F sp v0).step s (.call t (.wait v)) = some s' := by
      simp only [Sys.run] at h
      split at h
      · cases h
      · simp only [Option.some.injEq] at h; subst h; assumption
    simp only [sys_step, step] at h0
    split at h0
    · simp only [hm, Bool.false_eq_true, if_false, Option.some.injEq] at h0
      subst h0
      constructor
      · simp only [St.goto, upd_same]; exact .inl rfl
      · exact hdiff
      · intro p; simp only [St.goto, upd_apply]; split
        · intro h; cases h
        · exact fun h => .inr (.inl h)
      · simp only [St.goto, upd_same]; intro h; cases h
      · simp only [St.goto, upd_same]; intro h; cases h
    · cases h0
  | append_singleton as a ih =>
    intro hn s' h
    rw [← List.cons_append, run_snoc] at h
    obtain ⟨s1, h1, h2⟩ := Option.bind_eq_some_iff.1 h
    have hn1 : .ret t ∉ as := fun h => hn (List.mem_append_left _ h)
    have ha : a ≠ .ret t := fun h => hn (by simp [h])
    obtain ⟨hr1, hI⟩ := ih hn1 s1 h1
    refine ⟨.step hr1 h2, ?_⟩
    have hfull : (sys F sp v0).run s (.call t (.wait v) :: (as ++ [a])) = some s' := by
      rw [← List.cons_append, run_snoc]; exact h
    refine zinv_step L hm (vok_inv _ hr1) hI h2 ha ?_ ?_ ?_ ?_
    · rintro ⟨l, s2, h3, h4, h5⟩
      exact ⟨l, s2, h3.trans (List.prefix_append _ _), h4, h5⟩
    · rintro p (h3 | ⟨l, g, sa, sb, h3, h4⟩)
      · exact .inl h3
      · exact .inr ⟨l, g, sa, sb, h3.trans (List.prefix_append _ _), h4⟩
    · exact fun hd => ⟨_, s', List.prefix_refl _, hfull, hd⟩
    · rintro p g rfl hup hval
      exact .inr ⟨as, g, s1, s', List.prefix_refl _, h1, h2, hup, hval⟩

/-- With no producer clearing the flag at the call and no null updates, the property holds. -/
theorem wait_zero_guarded_partial (L : Laws F) {sp : Option T} {v0 : BitVec n} {s s' : St n T} {t : T} {v : BitVec n}
    {as : List (Act n T)} (hr : (sys F sp v0).Reach s)
    (h : (sys F sp v0).run s (.call t (.wait v) :: as) = some s') (hn : .ret t ∉ as)
    (hz : s'.th t = .ret (.int 0)) (h1 : ∀ p, isClr (s.th p) = false)
    (h2 : ∀ p, ¬ NullUpdate F sp v0 s t v as p) :
    ∃ l s'', l <+: as ∧ (sys F sp v0).run s (.call t (.wait v) :: l) = some s'' ∧ F.value s''.c ≠ v := by
  rcases wait_zero_partial L hr h hn hz with h3 | ⟨p, h3⟩ | ⟨p, h3⟩
  · exact h3
  · rw [h1] at h3; cases h3
  · exact absurd h3 (h2 p)

/-! ## The counter is a linearizable counter, in both modes -/

def Kind.op : Kind n → Op n
  | .add d => .add d
  | .inc => .inc

/-- Where a thread stands with its operation. -/
def view : PC n → TS (Op n) (Res n)
  | .idle => .idle
  | .value => .pend .value
  | .upd k => .pend k.op
  | .st k _ => .pend k.op
  | .add0 => .pend (.add 0)
  | .clr r => .done r
  | .wake r => .done r
  | .ret r => .done r
  | .w1 v | .w2 v | .wd v | .easy1 v | .cas v | .easy2 v | .bo v | .pre v | .fut v | .slp v | .chk v | .fin v =>
    .pend (.wait v)

theorem th_goto (s : St n T) (t : T) (pc : PC n) :
    (fun q => view (upd s.th t pc q)) = upd (fun q => view (s.th q)) t (view pc) := upd_comp _ _ _ _

theorem addMod_zero {v : BitVec n} (h : v.msb = false) : addMod v 0 = v := by
  apply BitVec.eq_of_toNat_eq
  rw [addMod, BitVec.toNat_ofNat]
  have hv := v.isLt
  rw [BitVec.msb_eq_decide] at h
  have h1 : v.toNat < 2 ^ (n - 1) := by simpa using h
  have h2 : (0 : BitVec n).toNat = 0 := by simp
  rw [h2, Nat.add_zero, Nat.mod_eq_of_lt h1, Nat.mod_eq_of_lt hv]

theorem view_awaken (pc : PC n) : view (awaken pc) = view pc := by cases pc <;> rfl

/-- **C64**: add, inc and value are linearizable as operations on one counter modulo `2 ^ (n - 1)`, with any number
of producers in multi-producer mode, and with one producer in single-producer mode; waiting never changes it. -/
theorem linearizable (L : Laws F) (sp : Option T) (v0 : BitVec n) : Linearizable (sys F sp v0) obs (obj v0) := by
  refine linearizable_of_sim (fun s α => α = { x := F.value s.c, th := fun t => view (s.th t) }) ?_ ?_
  · rintro s ⟨h1, h2⟩
    refine ⟨F.value s.c, by rw [h1]; exact L.init v0, ?_⟩
    congr; funext t; rw [h2]; rfl
  · rintro s a s' α hr rfl h
    refine ⟨_, ?_, rfl⟩
    have hV := vok_inv _ hr
    rw [sys_step] at h
    have quiet : ∀ t pc, F.value s'.c = F.value s.c → s'.th = upd s.th t pc → view pc = view (s.th t) →
        AStar (obj v0) { x := F.value s.c, th := fun t => view (s.th t) }
          (none : Option (Ev T (Op n) (Res n))).toList { x := F.value s'.c, th := fun t => view (s'.th t) } := by
      intro t pc h1 h2 h3
      refine AStar.skip ?_
      rw [h1, h2, th_goto, h3, upd_eq_self (fun q => view (s.th q)) t]
    have lin : ∀ t pc o r x, s'.th = upd s.th t pc → F.value s'.c = x → view (s.th t) = .pend o → view pc = .done r →
        (obj v0).app (F.value s.c) o r x →
        AStar (obj v0) { x := F.value s.c, th := fun t => view (s.th t) }
          (none : Option (Ev T (Op n) (Res n))).toList { x := F.value s'.c, th := fun t => view (s'.th t) } := by
      intro t pc o r x h1 h2 h3 h4 h5
      refine AStar.lin' (t := t) h3 h5 ?_
      rw [h2, h1, th_goto, h4]
    have commit : ∀ t k o, s' = s.commit F t k o → F.value o = F.value s.c → view (s.th t) = .pend k.op →
        AStar (obj v0) { x := F.value s.c, th := fun t => view (s.th t) }
          (none : Option (Ev T (Op n) (Res n))).toList { x := F.value s'.c, th := fun t => view (s'.th t) } := by
      rintro t k o rfl h1 h2
      refine lin t (if wakes F k o then .clr (resOf F k o) else .ret (resOf F k o)) k.op (resOf F k o) _ rfl rfl h2 ?_ ?_
      · split <;> rfl
      · show (obj v0).app _ _ _ (F.value (o + F.amt k.delta))
        rw [L.add, h1]
        cases k
        · exact ⟨by rw [← h1]; rfl, rfl⟩
        · exact ⟨rfl, rfl⟩
    have linW : ∀ t pc v r, s'.th = upd s.th t pc → F.value s'.c = F.value s.c → view (s.th t) = .pend (.wait v) →
        view pc = .done r → AStar (obj v0) { x := F.value s.c, th := fun t => view (s.th t) }
          (none : Option (Ev T (Op n) (Res n))).toList { x := F.value s'.c, th := fun t => view (s'.th t) } :=
      fun t pc v r h1 h2 h3 h4 => lin t pc (.wait v) r _ h1 h2 h3 h4 rfl
    have wait : ∀ t pc v, s'.th = upd s.th t pc → F.value s'.c = F.value s.c → view (s.th t) = .pend (.wait v) →
        (view pc = .pend (.wait v) ∨ ∃ r, view pc = .done r) →
        AStar (obj v0) { x := F.value s.c, th := fun t => view (s.th t) }
          (none : Option (Ev T (Op n) (Res n))).toList { x := F.value s'.c, th := fun t => view (s'.th t) } := by
      rintro t pc v h1 h2 h3 (h4 | ⟨r, h4⟩)
      · exact quiet t pc h2 h1 (h4.trans h3.symm)
      · exact linW t pc v r h1 h2 h3 h4
    cases a with
    | call t o =>
      simp only [obs]
      have hcall : ∀ pc, s'.th = upd s.th t pc → F.value s'.c = F.value s.c → s.th t = .idle → view pc = .pend o →
          AStar (obj v0) { x := F.value s.c, th := fun t => view (s.th t) }
          (some (Ev.call t o) : Option (Ev T (Op n) (Res n))).toList
          { x := F.value s'.c, th := fun t => view (s'.th t) } := by
        intro pc h1 h2 h3 h4
        refine AStar.call' (by simp only [h3]; rfl) ?_
        rw [h2, h1, th_goto, h4]
      simp only [step] at h
      split at h
      · rename_i hpc
        step_split h
        · rename_i h0
          exact hcall .add0 rfl rfl hpc (by rw [h0.2]; rfl)
        · exact hcall _ rfl rfl hpc rfl
        · exact hcall _ rfl rfl hpc rfl
        · exact hcall _ rfl rfl hpc rfl
        · exact hcall _ rfl rfl hpc rfl
      · cases h
    | run t again =>
      simp only [obs]
      simp only [step, run] at h
      split at h <;> rename_i hpc
      case h_1 | h_2 | h_3 => cases h
      case h_4 =>
        simp only [Option.some.injEq] at h; subst h
        exact lin t _ .value _ _ rfl rfl (by rw [hpc]; rfl) rfl ⟨rfl, rfl⟩
      case h_5 k =>
        split at h <;> simp only [Option.some.injEq] at h
        · subst h; exact quiet t _ rfl rfl (by rw [hpc]; rfl)
        · exact commit t k s.c h.symm rfl (by rw [hpc]; rfl)
      case h_6 k o =>
        simp only [Option.some.injEq] at h
        exact commit t k o h.symm (upd_value L hr (.inr hpc)) (by rw [hpc]; rfl)
      case h_7 =>
        simp only [Option.some.injEq] at h; subst h
        refine lin t _ (.add 0) _ _ rfl rfl (by rw [hpc]; rfl) rfl ⟨rfl, ?_⟩
        have := L.vmsb s.c
        exact (addMod_zero this).symm
      case h_8 r =>
        simp only [Option.some.injEq] at h; subst h
        exact quiet t _ (value_clear L _) rfl (by rw [hpc]; rfl)
      case h_9 r =>
        simp only [Option.some.injEq] at h; subst h
        refine AStar.skip ?_
        simp only
        congr
        funext q
        simp only [upd_apply]
        split
        · next hq => subst hq; rw [hpc]; rfl
        · exact view_awaken _
      case h_14 u =>
        split at h <;> simp only [Option.some.injEq] at h <;> subst h
        · rename_i hc
          have hu := hV t u (by rw [hpc]; rfl)
          exact wait t _ u rfl (by show F.value (F.fl u) = _; rw [value_fl L hu, hc, value_unfl L hu])
            (by rw [hpc]; rfl) (.inl rfl)
        · refine wait t _ u rfl rfl (by rw [hpc]; rfl) ?_
          split
          · exact .inr ⟨_, rfl⟩
          · exact .inl rfl
      all_goals
        (try split at h) <;> simp only [Option.some.injEq] at h <;> subst h <;>
        (refine wait t _ _ rfl rfl (by rw [hpc]; rfl) ?_
         (repeat' split) <;> first | exact .inl rfl | exact .inr ⟨_, rfl⟩)
    | timeout t =>
      simp only [step] at h
      step_split h <;> rename_i hpc <;>
        exact linW t _ _ _ rfl rfl (by rw [hpc]; rfl) rfl
    | pred t r =>
      simp only [step] at h
      step_split h
      rename_i hpc hr
      exact linW t _ _ _ rfl rfl (by rw [hpc]; rfl) rfl
    | up t =>
      simp only [step] at h
      step_split h
      rename_i hpc
      exact quiet t _ rfl rfl (by rw [hpc]; rfl)
    | ret t =>
      simp only [step] at h
      step_split h
      rename_i hpc
      simp only [obs, hpc]
      refine AStar.ret' (by simp only [hpc]; rfl) ?_
      simp only [St.goto]
      rw [th_goto]; rfl

theorem linearizable32 (sp : Option T) (v0 : BitVec 32) : Linearizable (sys F32 sp v0) obs (obj v0) :=
  linearizable laws32 sp v0

theorem linearizable64 (sp : Option T) (v0 : BitVec 64) : Linearizable (sys F64 sp v0) obs (obj v0) :=
  linearizable laws64 sp v0

end Verif.Ec
