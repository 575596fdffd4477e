import Verif.Smr.EpochSync

/-!
# Epoch reclamation: a deferral is in one place
-/

set_option linter.unusedSectionVars false
set_option linter.unusedSimpArgs false

namespace Verif.Ep

open Verif

variable {T R S X : Type} [DecidableEq T] [DecidableEq R] [DecidableEq S] [DecidableEq X] {c : Cfg}

/-- The deferrals a thread popped and did not run yet. -/
def dlist : Main R X → List X
  | .disp _ l _ => l
  | _ => []

inductive Pl (T R : Type)
  | pend (r : R) (b : Nat)
  | disp (t : T)
  | call (t : T)

/-- The deferral `x` is in a pending stack, popped by a thread that is yet to run it, or being pushed. -/
def At (s : St T R S X) (x : X) : Pl T R → Prop
  | .pend r b => x ∈ s.pend r b
  | .disp t => x ∈ dlist (s.main t)
  | .call t => ∃ r e, s.sub t = .c1 r x e

structure InvU (s : St T R S X) : Prop where
  busy : ∀ x p, At s x p → s.busy x = true
  uniq : ∀ x p q, At s x p → At s x q → p = q
  ndp : ∀ r b, (s.pend r b).Nodup
  ndd : ∀ t, (dlist (s.main t)).Nodup
  rp : ∀ r b x, x ∈ s.pend r b → r ∈ s.recs
  rc : ∀ t r x e, s.sub t = .c1 r x e → r ∈ s.recs

theorem invU_init {s : St T R S X} (h : Init s) : InvU s := by
  obtain ⟨h1, h2, h3, h4, h5, h6, h7, h8, h9, h10⟩ := h
  have : ∀ x p, ¬ At s x p := by intro x p hp; cases p <;> simp [At, h4, h5, h6, dlist] at hp
  exact ⟨fun x p h => absurd h (this x p), fun x p _ h => absurd h (this x p), by simp [h4], by simp [h5, dlist],
    by simp [h4], by simp [h6]⟩

/-- Steps that only drop deferrals or leave them where they are. -/
theorem InvU.sub {s s' : St T R S X} (hI : InvU s) (hat : ∀ x p, At s' x p → At s x p)
    (hp : ∀ r b, (s'.pend r b).Sublist (s.pend r b)) (hd : ∀ t, (dlist (s'.main t)).Sublist (dlist (s.main t)))
    (hb : ∀ x, s.busy x = true → s'.busy x = true) (hr : ∀ r ∈ s.recs, r ∈ s'.recs)
    (hs : ∀ t r x e, s'.sub t = .c1 r x e → s.sub t = .c1 r x e) : InvU s' :=
  ⟨fun x p h => hb x (hI.busy x p (hat x p h)), fun x p q h1 h2 => hI.uniq x p q (hat x p h1) (hat x q h2),
    fun r b => (hI.ndp r b).sublist (hp r b), fun t => (hI.ndd t).sublist (hd t),
    fun r b x hx => hr r (hI.rp r b x ((hp r b).subset hx)), fun t r x e h => hr r (hI.rc t r x e (hs t r x e h))⟩

theorem InvU.same {s s' : St T R S X} (hI : InvU s) (hp : s'.pend = s.pend) (hm : ∀ t, dlist (s'.main t) = dlist (s.main t))
    (hb : s'.busy = s.busy) (hr : ∀ r ∈ s.recs, r ∈ s'.recs)
    (hs : ∀ t r x e, s'.sub t = .c1 r x e → s.sub t = .c1 r x e) : InvU s' := by
  refine hI.sub ?_ (fun r b => by rw [hp]) (fun t => by rw [hm]) (fun x hx => by rw [hb]; exact hx) hr hs
  intro x p h
  cases p with
  | pend r b => simp only [At] at h ⊢; rw [hp] at h; exact h
  | disp t => simp only [At] at h ⊢; rw [hm] at h; exact h
  | call t => obtain ⟨r, e, h⟩ := h; exact ⟨r, e, hs t r x e h⟩

/-- What `main` does to the places. -/
theorem MStep.pop {s : St T R S X} {t : T} {m m' : Main R X} {g e p} (h : MStep s t m m' g e p) :
    (p = s.pend ∧ ((dlist m' = dlist m) ∨ ∃ x, dlist m = x :: dlist m')) ∨
    (∃ r b, dlist m = [] ∧ dlist m' = s.pend r b ∧ p = upd2 s.pend r b []) := by
  cases h
  case p1 => exact Or.inr ⟨_, _, rfl, rfl, rfl⟩
  case p3 => exact Or.inr ⟨_, _, rfl, rfl, rfl⟩
  case recl => exact Or.inr ⟨_, _, rfl, rfl, rfl⟩
  case run x l k => exact Or.inl ⟨rfl, Or.inr ⟨x, rfl⟩⟩
  case goal hb => refine Or.inl ⟨rfl, Or.inl ?_⟩; rw [hb]; split <;> rfl
  case tickEnd bar m _ _ hb => refine Or.inl ⟨rfl, Or.inl ?_⟩; rw [hb]; cases bar <;> rfl
  case noTickEnd bar m _ hb => refine Or.inl ⟨rfl, Or.inl ?_⟩; rw [hb]; cases bar <;> rfl
  case quiet bar m hb => refine Or.inl ⟨rfl, Or.inl ?_⟩; rw [hb]; cases bar <;> rfl
  all_goals exact Or.inl ⟨rfl, Or.inl rfl⟩

theorem invU_step {s s' : St T R S X} {a : Act T R S X} (hW : InvW c s) (hI : InvU s) (h : step c s a = some s') :
    InvU s' := by
  cases a with
  | main t =>
    simp only [step] at h
    split at h
    case isFalse => cases h
    obtain ⟨m', F, hM⟩ := main_cases h
    rcases hM.pop with ⟨h1, h2⟩ | ⟨r, b, h1, h2, h3⟩
    · have hsub : ∀ u, (dlist (s'.main u)).Sublist (dlist (s.main u)) := by
        intro u
        rw [F.main]
        by_cases hu : u = t
        · subst hu
          rw [upd_same]
          rcases h2 with h2 | ⟨x, h2⟩
          · rw [h2]
          · rw [h2]; exact List.sublist_cons_self _ _
        · rw [upd_ne _ _ hu]
      refine hI.sub ?_ (fun r b => by rw [h1]) hsub (fun x hx => by rw [F.busy]; exact hx) (by rw [F.recs]; exact fun _ h => h)
        (by rw [F.sub]; exact fun _ _ _ _ h => h)
      intro x p hp
      cases p with
      | pend r b => simp only [At] at hp ⊢; rw [h1] at hp; exact hp
      | disp u => exact (hsub u).subset hp
      | call u => simp only [At] at hp ⊢; rw [F.sub] at hp; exact hp
    · have hp' : ∀ r' b', (s'.pend r' b').Sublist (s.pend r' b') := by
        intro r' b'; rw [h3, upd2_apply]; split
        · exact List.nil_sublist _
        · exact List.Sublist.refl _
      have hback : ∀ x p, At s' x p → (At s x p ∧ p ≠ .pend r b ∧ p ≠ .disp t) ∨ (p = .disp t ∧ At s x (.pend r b)) := by
        intro x p hp
        cases p with
        | pend r' b' =>
          left
          simp only [At] at hp ⊢
          rw [h3, upd2_apply] at hp
          split at hp
          · cases hp
          · next hne => exact ⟨hp, by rintro ⟨⟩; exact hne ⟨rfl, rfl⟩, by simp⟩
        | disp u =>
          simp only [At] at hp ⊢
          rw [F.main] at hp
          by_cases hu : u = t
          · subst hu
            rw [upd_same, h2] at hp
            exact Or.inr ⟨rfl, hp⟩
          · rw [upd_ne _ _ hu] at hp
            exact Or.inl ⟨hp, by simp, by simp [hu]⟩
        | call u => left; simp only [At] at hp ⊢; rw [F.sub] at hp; exact ⟨hp, by simp, by simp⟩
      constructor
      · intro x p hp
        rw [F.busy]
        rcases hback x p hp with h | h
        · exact hI.busy x _ h.1
        · exact hI.busy x _ h.2
      · intro x p q hp hq
        rcases hback x p hp with h | h <;> rcases hback x q hq with h' | h'
        · exact hI.uniq x p q h.1 h'.1
        · exact absurd (hI.uniq x p _ h.1 h'.2) h.2.1
        · exact absurd (hI.uniq x q _ h'.1 h.2) h'.2.1
        · rw [h.1, h'.1]
      · exact fun r b => (hI.ndp r b).sublist (hp' r b)
      · intro u
        rw [F.main]
        by_cases hu : u = t
        · subst hu; rw [upd_same, h2]; exact hI.ndp r b
        · rw [upd_ne _ _ hu]; exact hI.ndd u
      · intro r' b' x hx; rw [F.recs]; exact hI.rp r' b' x ((hp' r' b').subset hx)
      · rw [F.sub, F.recs]; exact hI.rc
  | register t r =>
    simp only [step] at h
    split at h <;> cases h
    have hp' : ∀ r' b', (upd s.pend r (fun _ => []) r' b').Sublist (s.pend r' b') := by
      intro r' b'; rw [upd_apply]; split
      · exact List.nil_sublist _
      · exact List.Sublist.refl _
    refine hI.sub ?_ hp' (fun t => List.Sublist.refl _) (fun x hx => hx) (fun r h => List.mem_cons_of_mem _ h) (fun _ _ _ _ h => h)
    intro x p hp
    cases p with
    | pend r' b' => exact (hp' r' b').subset hp
    | disp u => exact hp
    | call u => exact hp
  | recycle t r =>
    simp only [step] at h
    split at h <;> cases h
    exact hI.same rfl (fun _ => rfl) rfl (fun _ h => h) (fun _ _ _ _ h => h)
  | unreg t r =>
    simp only [step, gs] at h
    split at h <;> cases h
    have hp' : ∀ r' b', (upd s.pend r (fun _ => []) r' b').Sublist (s.pend r' b') := by
      intro r' b'; rw [upd_apply]; split
      · exact List.nil_sublist _
      · exact List.Sublist.refl _
    have hs : ∀ u q x e, upd s.sub t (.un r) u = .c1 q x e → s.sub u = .c1 q x e := by intro u; keep; grind
    refine hI.sub ?_ hp' (fun t => List.Sublist.refl _) (fun x hx => hx) (fun r h => h) hs
    intro x p hp
    cases p with
    | pend r' b' => exact (hp' r' b').subset hp
    | disp u => exact hp
    | call u => obtain ⟨q, e, h⟩ := hp; exact ⟨q, e, hs u q x e h⟩
  | begin t r x n =>
    simp only [step, gs, opened] at h
    split at h
    case isFalse => cases h
    split at h
    · cases h; refine hI.same rfl (fun _ => rfl) rfl (fun _ h => h) ?_; dsimp only; intro u; keep; grind
    · split at h <;> cases h
      · exact hI.same rfl (fun _ => rfl) rfl (fun _ h => h) (fun _ _ _ _ h => h)
      · refine hI.same rfl (fun _ => rfl) rfl (fun _ h => h) ?_; dsimp only; intro u; keep; grind
  | end_ t x =>
    simp only [step, endStep, gs] at h
    split at h <;> cases h
    refine hI.same rfl (fun _ => rfl) rfl (fun _ h => h) ?_; dsimp only; intro u; keep; grind
  | sync t bar =>
    simp only [step, gm] at h
    split at h <;> cases h
    next hq =>
    refine hI.same rfl (fun u => ?_) rfl (fun _ h => h) (fun _ _ _ _ h => h)
    dsimp only
    by_cases hu : u = t
    · subst hu; rw [upd_same, hq.2.1]; rfl
    · rw [upd_ne _ _ hu]
  | poll t r =>
    simp only [step, gm] at h
    split at h <;> cases h
    next hq =>
    refine hI.same rfl (fun u => ?_) rfl (fun _ h => h) (fun _ _ _ _ h => h)
    dsimp only
    by_cases hu : u = t
    · subst hu; rw [upd_same, hq.2.1]; rfl
    · rw [upd_ne _ _ hu]
  | call t r x =>
    simp only [step, gs] at h
    split at h <;> cases h
    next hq =>
    obtain ⟨g1, g2, g3, g4, g5⟩ := hq
    have hnot : ∀ p, ¬ At s x p := fun p hp => by have := hI.busy x p hp; rw [g1] at this; cases this
    have hback : ∀ y p, At { s with busy := upd s.busy x true, lab := upd s.lab x s.G, sub := upd s.sub t (.c1 r x s.G), wait := upd s.wait x s.opn } y p → (At s y p ∧ y ≠ x) ∨ (y = x ∧ p = .call t) := by
      intro y p hp
      have hst : At s y p → (At s y p ∧ y ≠ x) := fun h => ⟨h, by rintro rfl; exact hnot p h⟩
      cases p with
      | pend r' b' => exact Or.inl (hst hp)
      | disp u => exact Or.inl (hst hp)
      | call u =>
        simp only [At] at hp
        obtain ⟨q, e, hp⟩ := hp
        by_cases hu : u = t
        · subst hu; rw [upd_same] at hp; cases hp; exact Or.inr ⟨rfl, rfl⟩
        · rw [upd_ne _ _ hu] at hp; exact Or.inl (hst ⟨q, e, hp⟩)
    constructor
    · intro y p hp
      dsimp only
      rcases hback y p hp with h | h
      · rw [upd_ne _ _ h.2]; exact hI.busy y p h.1
      · rw [h.1, upd_same]
    · intro y p q hp hq
      rcases hback y p hp with h | h <;> rcases hback y q hq with h' | h'
      · exact hI.uniq y p q h.1 h'.1
      · exact absurd h'.1 h.2
      · exact absurd h.1 h'.2
      · rw [h.2, h'.2]
    · exact hI.ndp
    · exact hI.ndd
    · exact hI.rp
    · dsimp only
      intro u q y e hu
      by_cases hut : u = t
      · subst hut
        rw [upd_same] at hu; cases hu
        rcases g2 with h | h
        · exact h.2
        · exact (hW.ownr r u h).1
      · rw [upd_ne _ _ hut] at hu; exact hI.rc u q y e hu
  | sub t =>
    simp only [step, subStep, gs, opened] at h
    split at h <;> rename_i hq
    case h_6 r x e =>
      cases h
      have hat : At s x (.call t) := ⟨r, e, hq⟩
      have hback : ∀ y p, At { s with pend := upd2 s.pend r (e % 4) (x :: s.pend r (e % 4)), sub := upd s.sub t .none } y p →
          (At s y p ∧ y ≠ x) ∨ (y = x ∧ p = .pend r (e % 4)) := by
        intro y p hp
        cases p with
        | pend r' b' =>
          simp only [At] at hp
          rw [upd2_apply] at hp
          have hne : ∀ r' b', x ∉ s.pend r' b' := fun r' b' hx => by
            have := hI.uniq x (.call t) (.pend r' b') hat hx; cases this
          split at hp
          · next hrb =>
            obtain ⟨rfl, rfl⟩ := hrb
            rcases List.mem_cons.1 hp with rfl | hp
            · exact Or.inr ⟨rfl, rfl⟩
            · next hp => exact Or.inl ⟨hp, fun e => hne _ _ (e ▸ hp)⟩
          · exact Or.inl ⟨hp, by rintro rfl; exact hne _ _ hp⟩
        | disp u =>
          refine Or.inl ⟨hp, ?_⟩
          rintro rfl
          have := hI.uniq y (.call t) (.disp u) hat hp; cases this
        | call u =>
          simp only [At] at hp
          obtain ⟨q, e', hp⟩ := hp
          have hut : u ≠ t := by rintro rfl; rw [upd_same] at hp; cases hp
          rw [upd_ne _ _ hut] at hp
          refine Or.inl ⟨⟨q, e', hp⟩, ?_⟩
          rintro rfl
          have := hI.uniq y (.call t) (.call u) hat ⟨q, e', hp⟩
          cases this; exact hut rfl
      constructor
      · intro y p hp
        rcases hback y p hp with h | h
        · exact hI.busy y p h.1
        · rw [h.1]; exact hI.busy x _ hat
      · intro y p q hp hq
        rcases hback y p hp with h | h <;> rcases hback y q hq with h' | h'
        · exact hI.uniq y p q h.1 h'.1
        · exact absurd h'.1 h.2
        · exact absurd h.1 h'.2
        · rw [h.2, h'.2]
      · intro r' b'
        dsimp only
        rw [upd2_apply]
        split
        · refine List.nodup_cons.2 ⟨fun hx => ?_, hI.ndp _ _⟩
          have := hI.uniq x (.call t) (.pend _ _) hat hx; cases this
        · exact hI.ndp _ _
      · exact hI.ndd
      · intro r' b' y hy
        rcases hback y (.pend r' b') hy with h | ⟨h, h'⟩
        · exact hI.rp r' b' y h.1
        · cases h'; exact hI.rc t _ _ _ hq
      · dsimp only
        intro u q y e' hu
        have hut : u ≠ t := by rintro rfl; rw [upd_same] at hu; cases hu
        rw [upd_ne _ _ hut] at hu; exact hI.rc u q y e' hu
    all_goals
      repeat' split at h
      all_goals first
        | (cases h; done)
        | (cases h; refine hI.same rfl (fun _ => rfl) rfl (fun _ h => h) ?_; dsimp only; intro u; keep; grind)

theorem invU_reach {s : St T R S X} (hr : (sys T R S X c).Reach s) : InvW c s ∧ InvU s :=
  Sys.Reach.invariant (I := fun s => InvW c s ∧ InvU s) (fun _ h => ⟨invW_init h, invU_init h⟩)
    (fun _ _ _ hi h => ⟨invW_step hi.1 h, invU_step hi.1 hi.2 h⟩) hr

/-- Where a deferral can come to in one step. -/
theorem at_back {s s' : St T R S X} {a : Act T R S X} (h : step c s a = some s') {x : X} {p : Pl T R}
    (hp : At s' x p) : (∃ q, At s x q) ∨ ∃ t r, a = .call t r x := by
  cases a with
  | main t =>
    simp only [step] at h
    split at h
    case isFalse => cases h
    obtain ⟨m', F, hM⟩ := main_cases h
    left
    cases p with
    | call u => simp only [At] at hp; rw [F.sub] at hp; exact ⟨.call u, hp⟩
    | pend r b =>
      simp only [At] at hp
      rcases hM.pop with ⟨h1, h2⟩ | ⟨r', b', h1, h2, h3⟩
      · rw [h1] at hp; exact ⟨.pend r b, hp⟩
      · rw [h3, upd2_apply] at hp
        split at hp
        · cases hp
        · exact ⟨.pend r b, hp⟩
    | disp u =>
      simp only [At] at hp
      rw [F.main] at hp
      by_cases hu : u = t
      · subst hu
        rw [upd_same] at hp
        rcases hM.pop with ⟨h1, h2 | ⟨y, h2⟩⟩ | ⟨r', b', h1, h2, h3⟩
        · rw [h2] at hp; exact ⟨.disp u, hp⟩
        · refine ⟨.disp u, ?_⟩; simp only [At]; rw [h2]; exact List.mem_cons_of_mem _ hp
        · rw [h2] at hp; exact ⟨.pend r' b', hp⟩
      · rw [upd_ne _ _ hu] at hp; exact ⟨.disp u, hp⟩
  | sync t bar =>
    simp only [step, gm] at h
    split at h <;> cases h
    left
    refine ⟨p, ?_⟩
    cases p with
    | pend => exact hp
    | call => exact hp
    | disp u =>
      simp only [At] at hp ⊢
      by_cases hu : u = t
      · subst hu; rw [upd_same] at hp; cases hp
      · rw [upd_ne _ _ hu] at hp; exact hp
  | poll t r =>
    simp only [step, gm] at h
    split at h <;> cases h
    left
    refine ⟨p, ?_⟩
    cases p with
    | pend => exact hp
    | call => exact hp
    | disp u =>
      simp only [At] at hp ⊢
      by_cases hu : u = t
      · subst hu; rw [upd_same] at hp; cases hp
      · rw [upd_ne _ _ hu] at hp; exact hp
  | register t r =>
    simp only [step] at h
    split at h <;> cases h
    left
    refine ⟨p, ?_⟩
    cases p with
    | pend r' b' =>
      simp only [At] at hp ⊢
      rw [upd_apply] at hp; split at hp
      · cases hp
      · exact hp
    | call => exact hp
    | disp u => exact hp
  | call t r y =>
    simp only [step, gs] at h
    split at h <;> cases h
    cases p with
    | pend r' b' => exact Or.inl ⟨.pend r' b', hp⟩
    | disp u => exact Or.inl ⟨.disp u, hp⟩
    | call u =>
      simp only [At] at hp
      obtain ⟨q, e, hp⟩ := hp
      by_cases hu : u = t
      · subst hu; rw [upd_same] at hp; cases hp; exact Or.inr ⟨u, r, rfl⟩
      · rw [upd_ne _ _ hu] at hp; exact Or.inl ⟨.call u, q, e, hp⟩
  | unreg t r =>
    simp only [step, gs] at h
    split at h <;> cases h
    left
    refine ⟨p, ?_⟩
    cases p with
    | pend r' b' =>
      simp only [At] at hp ⊢
      rw [upd_apply] at hp; split at hp
      · cases hp
      · exact hp
    | call u => simp only [At] at hp ⊢; obtain ⟨q, e, hp⟩ := hp; refine ⟨q, e, ?_⟩; keep hp; grind
    | disp u => exact hp
  | sub t =>
    simp only [step, subStep, gs, opened] at h
    left
    split at h <;> rename_i hq
    case h_6 r y e =>
      cases h
      cases p with
      | pend r' b' =>
        simp only [At] at hp
        rw [upd2_apply] at hp
        split at hp
        · next hrb =>
          obtain ⟨rfl, rfl⟩ := hrb
          rcases List.mem_cons.1 hp with rfl | hp
          · exact ⟨.call t, _, _, hq⟩
          · exact ⟨.pend _ _, hp⟩
        · exact ⟨.pend r' b', hp⟩
      | disp u => exact ⟨.disp u, hp⟩
      | call u =>
        simp only [At] at hp; obtain ⟨q, e', hp⟩ := hp; refine ⟨.call u, q, e', ?_⟩; keep hp; grind
    all_goals
      repeat' split at h
      all_goals first
        | (cases h; done)
        | (cases h
           refine ⟨p, ?_⟩
           cases p with
           | pend => exact hp
           | disp => exact hp
           | call u => simp only [At] at hp ⊢; obtain ⟨q, e', hp⟩ := hp; refine ⟨q, e', ?_⟩; keep hp; grind)
  | recycle | begin | end_ =>
    simp only [step, endStep, gs, opened] at h
    left
    repeat' split at h
    all_goals first
      | (cases h; done)
      | (cases h
         refine ⟨p, ?_⟩
         cases p with
         | pend => exact hp
         | disp => exact hp
         | call u => simp only [At] at hp ⊢; obtain ⟨q, e', hp⟩ := hp; refine ⟨q, e', ?_⟩; keep hp; grind)

/-- Where a deferral goes in one step. -/
theorem at_fwd {s s' : St T R S X} {a : Act T R S X} (hW : InvW c s) (hI : InvU s) (h : step c s a = some s') {x : X}
    {p : Pl T R} (hp : At s x p) :
    (∃ q, At s' x q) ∨ (∃ t r l k, a = .main t ∧ s.main t = .disp r (x :: l) k) ∨
      (∃ t r b, a = .unreg t r ∧ x ∈ s.pend r b) := by
  cases a with
  | main t =>
    have h0 := h
    simp only [step] at h
    split at h
    case isFalse => cases h
    obtain ⟨m', F, hM⟩ := main_cases h
    cases p with
    | call u => left; refine ⟨.call u, ?_⟩; simp only [At]; rw [F.sub]; exact hp
    | pend r b =>
      simp only [At] at hp
      left
      rcases hM.pop with ⟨h1, h2⟩ | ⟨r', b', h1, h2, h3⟩
      · refine ⟨.pend r b, ?_⟩; simp only [At]; rw [h1]; exact hp
      · by_cases hrb : r = r' ∧ b = b'
        · obtain ⟨rfl, rfl⟩ := hrb
          refine ⟨.disp t, ?_⟩; simp only [At]; rw [F.main, upd_same, h2]; exact hp
        · refine ⟨.pend r b, ?_⟩; simp only [At]; rw [h3, upd2_apply, if_neg hrb]; exact hp
    | disp u =>
      simp only [At] at hp
      by_cases hu : u = t
      · subst hu
        rcases hM.pop with ⟨h1, h2 | ⟨y, h2⟩⟩ | ⟨r', b', h1, h2, h3⟩
        · left; refine ⟨.disp u, ?_⟩; simp only [At]; rw [F.main, upd_same, h2]; exact hp
        · rw [h2] at hp
          rcases List.mem_cons.1 hp with rfl | hp
          · right; left
            cases hm : s.main u <;> rw [hm] at h2 <;> simp only [dlist] at h2 <;> try (cases h2; done)
            subst h2
            exact ⟨u, _, _, _, rfl, hm⟩
          · left; refine ⟨.disp u, ?_⟩; simp only [At]; rw [F.main, upd_same]; exact hp
        · rw [h1] at hp; cases hp
      · left; refine ⟨.disp u, ?_⟩; simp only [At]; rw [F.main, upd_ne _ _ hu]; exact hp
  | sync t bar =>
    simp only [step, gm] at h
    split at h <;> cases h
    next hq =>
    left
    refine ⟨p, ?_⟩
    cases p with
    | pend => exact hp
    | call => exact hp
    | disp u =>
      simp only [At] at hp ⊢
      by_cases hu : u = t
      · subst hu; rw [hq.2.1] at hp; cases hp
      · rw [upd_ne _ _ hu]; exact hp
  | poll t r =>
    simp only [step, gm] at h
    split at h <;> cases h
    next hq =>
    left
    refine ⟨p, ?_⟩
    cases p with
    | pend => exact hp
    | call => exact hp
    | disp u =>
      simp only [At] at hp ⊢
      by_cases hu : u = t
      · subst hu; rw [hq.2.1] at hp; cases hp
      · rw [upd_ne _ _ hu]; exact hp
  | register t r =>
    simp only [step] at h
    split at h <;> cases h
    next hr =>
    left
    refine ⟨p, ?_⟩
    cases p with
    | pend r' b' =>
      simp only [At] at hp ⊢
      have : r' ≠ r := fun e => hr (e ▸ hI.rp r' b' x hp)
      rw [upd_ne _ _ this]; exact hp
    | call => exact hp
    | disp u => exact hp
  | call t r y =>
    simp only [step, gs] at h
    split at h <;> cases h
    next hq =>
    left
    refine ⟨p, ?_⟩
    cases p with
    | pend => exact hp
    | disp => exact hp
    | call u =>
      simp only [At] at hp ⊢
      obtain ⟨q, e, hp⟩ := hp
      have : u ≠ t := by rintro rfl; rw [hq.2.2.1] at hp; cases hp
      rw [upd_ne _ _ this]; exact ⟨q, e, hp⟩
  | unreg t r =>
    simp only [step, gs] at h
    split at h <;> cases h
    next hq =>
    cases p with
    | pend r' b' =>
      simp only [At] at hp
      by_cases hr : r' = r
      · subst hr; exact Or.inr (Or.inr ⟨t, r', b', rfl, hp⟩)
      · left; refine ⟨.pend r' b', ?_⟩; simp only [At]; rw [upd_ne _ _ hr]; exact hp
    | call u =>
      simp only [At] at hp
      obtain ⟨q, e, hp⟩ := hp
      have : u ≠ t := by rintro rfl; rw [hq.2.1] at hp; cases hp
      left; refine ⟨.call u, q, e, ?_⟩; dsimp only; rw [upd_ne _ _ this]; exact hp
    | disp u => exact Or.inl ⟨.disp u, hp⟩
  | sub t =>
    simp only [step, subStep, gs, opened] at h
    left
    split at h <;> rename_i hq
    case h_6 r y e =>
      cases h
      cases p with
      | pend r' b' =>
        refine ⟨.pend r' b', ?_⟩
        simp only [At] at hp ⊢
        rw [upd2_apply]
        split
        · next hrb => obtain ⟨rfl, rfl⟩ := hrb; exact List.mem_cons_of_mem _ hp
        · exact hp
      | disp u => exact ⟨.disp u, hp⟩
      | call u =>
        simp only [At] at hp
        obtain ⟨q, e', hp⟩ := hp
        by_cases hu : u = t
        · subst hu
          rw [hq] at hp; cases hp
          refine ⟨.pend r (e % 4), ?_⟩
          simp only [At]; rw [upd2_apply, if_pos ⟨rfl, rfl⟩]; exact List.mem_cons_self
        · refine ⟨.call u, q, e', ?_⟩; dsimp only; rw [upd_ne _ _ hu]; exact hp
    all_goals
      repeat' split at h
      all_goals first
        | (cases h; done)
        | (cases h
           refine ⟨p, ?_⟩
           cases p with
           | pend => exact hp
           | disp => exact hp
           | call u => simp only [At] at hp ⊢; obtain ⟨q, e', hp⟩ := hp; refine ⟨q, e', ?_⟩; grind)
  | recycle t r =>
    simp only [step] at h
    split at h <;> cases h
    exact Or.inl ⟨p, by cases p <;> exact hp⟩
  | begin t r y n =>
    left
    have hc : ∀ u q e', s.sub u = .c1 q x e' → ∀ m, upd s.sub t m u = .c1 q x e' := by
      intro u q e' hu m
      simp only [step] at h
      split at h
      case isFalse => cases h
      next hq =>
      have : u ≠ t := by rintro rfl; rw [hq.2.1] at hu; cases hu
      rw [upd_ne _ _ this]; exact hu
    refine ⟨p, ?_⟩
    simp only [step, gs, opened] at h
    repeat' split at h
    all_goals first
      | (cases h; done)
      | (cases h
         cases p with
         | pend => exact hp
         | disp => exact hp
         | call u => obtain ⟨q', e', hu⟩ := hp; exact ⟨q', e', hc u q' e' hu _⟩)
      | (cases h
         cases p with
         | pend => exact hp
         | disp => exact hp
         | call u => exact hp)
  | end_ t y =>
    simp only [step, gs, endStep] at h
    left
    split at h
    case isFalse => cases h
    next hq =>
    obtain ⟨-, -, hq, -⟩ := hq
    cases h
    refine ⟨p, ?_⟩
    cases p with
    | pend => exact hp
    | disp => exact hp
    | call u =>
      obtain ⟨q, e', hu⟩ := hp
      have : u ≠ t := by rintro rfl; rw [hq] at hu; cases hu
      refine ⟨q, e', ?_⟩
      dsimp only
      rw [upd_ne _ _ this]; exact hu

end Verif.Ep
