import Verif.Smr.HpInv

/-!
# Hazard pointers: theorems
-/

set_option linter.unusedSectionVars false

namespace Verif.Hp

open Verif

variable {R P : Type} [DecidableEq R] [DecidableEq P] {D C thr : Nat}

/-! ## Specification -/

/-- The call overwrites slot `i` of `r` or gives the record up. -/
def Act.drops : Act R P → R → Nat → Prop
  | .set q j _, r, i => q = r ∧ j = i
  | .copy q _ j, r, i => q = r ∧ j = i
  | .register q, r, _ => q = r
  | .unregister q, r, _ => q = r
  | _, _, _ => False

/-- Executions all of whose states, the last one excepted, satisfy `Q`. -/
inductive While (M : Sys (St R P) (Act R P)) (Q : St R P → Prop) : St R P → St R P → Prop
  | nil (s : St R P) : While M Q s s
  | cons {s s1 s' : St R P} {a : Act R P} : Q s → M.step s a = some s1 → While M Q s1 s' → While M Q s s'

/-! ## Safety -/

theorem tick_prot {s s' : St R P} {r : R} (h : tick D C s r = some s') :
    s'.prot = s.prot ∧ s'.pts = s.pts ∧ s'.nret = s.nret ∧ s'.used = s.used ∧ s'.subs = s.subs := by
  unfold tick at h
  step_split h <;> exact ⟨rfl, rfl, rfl, rfl, rfl⟩

/-- The destructor leaves the object fresh. -/
theorem tick_ndes {s s' : St R P} {r : R} (h : tick D C s r = some s') (p : P) :
    s'.ndes p = s.ndes p ∨ (s'.ndes p = s.ndes p + 1 ∧ s'.life p = .fresh ∧ p ∈ s.pend r) := by
  have hd : ∀ mk c pos x, (s.pend r)[pos]? = some x → (destroy s r mk c pos x).ndes p = s.ndes p ∨
      ((destroy s r mk c pos x).ndes p = s.ndes p + 1 ∧ (destroy s r mk c pos x).life p = .fresh ∧ p ∈ s.pend r) := by
    intro mk c pos x hx
    by_cases hp : p = x
    · subst hp
      exact .inr ⟨upd_same _ _ _, upd_same _ _ _, List.mem_of_getElem? hx⟩
    · exact .inl (upd_ne _ _ hp)
  unfold tick at h
  step_split h <;> first | exact .inl rfl | (next hx _ _ => exact hd _ _ _ _ hx) | (next hx => exact hd _ _ _ _ hx)

theorem step_ndes {s s' : St R P} {a : Act R P} (h : step D C thr s a = some s') (p : P) :
    s'.ndes p = s.ndes p ∨ (s'.ndes p = s.ndes p + 1 ∧ s'.life p = .fresh) := by
  cases a with
  | tick r => exact (tick_ndes h p).imp id fun h => ⟨h.1, h.2.1⟩
  | _ =>
    simp only [step] at h
    step_split h <;> exact .inl rfl

theorem step_named {s s' : St R P} {a : Act R P} (h : step D C thr s a = some s') {r : R} {i : Nat}
    {p : P} (hd : ¬ a.drops r i) (hn : Named s r i p) : Named s' r i p := by
  cases a with
  | tick q =>
    obtain ⟨h1, h2, _⟩ := tick_prot h
    exact ⟨h1 ▸ hn.1, h2 ▸ hn.2⟩
  | register q =>
    simp only [step] at h
    split at h
    · cases h
    · cases h
      refine ⟨hn.1, ?_⟩
      show upd s.pts q _ r i = some p
      rw [upd_ne _ _ (fun he => hd he.symm)]; exact hn.2
  | unregister q =>
    simp only [step] at h
    split at h
    · cases h
      refine ⟨?_, hn.2⟩
      show upd s.prot q _ r i = true
      rw [upd_ne _ _ (fun he => hd he.symm)]; exact hn.1
    · cases h
  | set q j x =>
    simp only [step] at h
    split at h
    · cases h
      have he : ¬ (r = q ∧ i = j) := fun he => hd ⟨he.1.symm, he.2.symm⟩
      exact ⟨(setPr_ne _ _ he).trans hn.1, (setPt_ne _ _ he).trans hn.2⟩
    · cases h
  | copy q j k =>
    simp only [step] at h
    split at h
    · cases h
      have he : ¬ (r = q ∧ i = k) := fun he => hd ⟨he.1.symm, he.2.symm⟩
      exact ⟨(setPr_ne _ _ he).trans hn.1, (setPt_ne _ _ he).trans hn.2⟩
    · cases h
  | validate q j =>
    simp only [step] at h
    split at h
    · cases h
    · split at h
      · cases h
        refine ⟨?_, hn.2⟩
        show setPr s.prot q j true r i = true
        by_cases he : r = q ∧ i = j
        · rw [he.1, he.2, setPr_same]
        · rw [setPr_ne _ _ he]; exact hn.1
      · cases h
  | _ =>
    simp only [step] at h
    step_split h <;> exact hn

/-- A protected object is linked, unlinked or retired, never back in its owner's hands. -/
theorem protected_live {s : St R P} (hr : (sys D C thr).Reach s) {r : R} {i : Nat} {p : P}
    (h : s.prot r i = true) (hp : s.pts r i = some p) : s.life p ≠ .fresh := by
  obtain ⟨_, _, x, h1, h2⟩ := (Inv.reach hr).prot r i h
  rw [hp] at h1
  cases h1
  exact h2

/-- **C37, safety.**  A thread publishes `p` in slot `i` of its record and then finds it still linked.  As
long as it neither overwrites the slot nor gives up the record, the destructor is not called on `p`. -/
theorem no_destroy_while_published {s s1 s2 : St R P} {r : R} {i : Nat} {p : P} {as : List (Act R P)}
    (hr : (sys D C thr).Reach s) (hp : s.pts r i = some p)
    (hv : (sys D C thr).step s (.validate r i) = some s1) (hx : (sys D C thr).Exec s1 as s2)
    (hd : ∀ a ∈ as, ¬ a.drops r i) : s2.ndes p = s1.ndes p := by
  have hn1 : Named s1 r i p := by
    change step D C thr s (.validate r i) = some s1 at hv
    simp only [step, hp] at hv
    split at hv
    · cases hv
      exact ⟨setPr_same _ _ _ _, hp⟩
    · cases hv
  have hr1 : (sys D C thr).Reach s1 := .step hr hv
  clear hv hp hr s
  induction hx with
  | nil => rfl
  | cons h1 _ ih =>
    have hn := step_named h1 (hd _ List.mem_cons_self) hn1
    have hr := Sys.Reach.step hr1 h1
    rw [ih (fun b hb => hd b (List.mem_cons_of_mem _ hb)) hn hr]
    rcases step_ndes h1 p with h2 | h2
    · exact h2
    · exact absurd h2.2 (protected_live hr hn.1 hn.2)

/-- **C37, no double destruction.**  The destructor has been called on an object as often as it was
retired, or once less. -/
theorem destroyed_once {s : St R P} (hr : (sys D C thr).Reach s) (p : P) :
    s.ndes p ≤ s.nret p ∧ s.nret p ≤ s.ndes p + 1 := by
  have := (Inv.reach hr).cnt p
  split at this <;> omega

/-- What waits in a record's pending list was retired and not destroyed since. -/
theorem pending_retired {s : St R P} (hr : (sys D C thr).Reach s) {r : R} {p : P} (h : p ∈ s.pend r) :
    s.nret p = s.ndes p + 1 := by
  have hI := Inv.reach hr
  have := hI.cnt p
  rwa [hI.ret r p h, if_pos rfl] at this

/-! ## A reclaim destroys what is not named -/

/-- The object to be found: still ahead of the traversal and not in the cache, or already destroyed. -/
def Ahead (p : P) (n : Nat) (s : St R P) (r : R) : RC R P → Prop
  | .idle => s.ndes p > n
  | .start => p ∈ s.pend r ∨ s.ndes p > n
  | .cRec _ c | .cSlot _ _ _ c => (p ∈ s.pend r ∧ p ∉ c) ∨ s.ndes p > n
  | .scan _ c pos | .sRec _ _ c pos | .sSlot _ _ _ _ c pos => (p ∈ (s.pend r).drop pos ∧ p ∉ c) ∨ s.ndes p > n

theorem ndes_mono {s s' : St R P} {a : Act R P} (h : step D C thr s a = some s') (p : P) :
    s.ndes p ≤ s'.ndes p := by
  rcases step_ndes h p with h | h <;> omega

/-- Steps of others leave the pending list and the program counter of a running reclaim alone. -/
theorem other_keeps {s s' : St R P} {a : Act R P} (hI : Inv D s) (h : step D C thr s a = some s') {r : R}
    (hrc : s.rc r ≠ .idle) (ha : ∀ q, a = .tick q → q ≠ r) :
    s'.rc r = s.rc r ∧ s'.pend r = s.pend r ∧ s'.pg r = s.pg r := by
  have hu := hI.rcu r hrc
  have hsub := hI.used r hu
  cases a with
  | tick q =>
    have hq : r ≠ q := fun he => ha q rfl he.symm
    change tick D C s q = some s' at h
    unfold tick at h
    step_split h <;> exact ⟨upd_ne _ _ hq, by first | rfl | exact upd_ne _ _ hq, by first | rfl | exact upd_ne _ _ hq⟩
  | register q =>
    simp only [step] at h
    split at h
    · cases h
    · next hq => cases h; exact ⟨rfl, upd_ne _ _ (fun he => hq (he ▸ hsub)), rfl⟩
  | unregister q =>
    simp only [step] at h
    split at h
    · next hq => cases h; exact ⟨rfl, upd_ne _ _ (fun he => hrc (he ▸ hq.2)), rfl⟩
    · cases h
  | retire q x =>
    simp only [step] at h
    split at h
    · next hq => cases h; exact ⟨rfl, upd_ne _ _ (fun he => hrc (he ▸ hq.2.1)), rfl⟩
    · cases h
  | free q x =>
    simp only [step] at h
    split at h
    · next hq =>
      have hne : r ≠ q := fun he => hrc (he ▸ hq.2.1)
      split at h
      · cases h; exact ⟨upd_ne _ _ hne, upd_ne _ _ hne, rfl⟩
      · cases h; exact ⟨rfl, upd_ne _ _ hne, rfl⟩
    · cases h
  | reclaim q =>
    simp only [step] at h
    split at h
    · next hq => cases h; exact ⟨upd_ne _ _ (fun he => hrc (he ▸ hq.2)), rfl, rfl⟩
    · cases h
  | purge q =>
    simp only [step] at h
    split at h
    · next hq =>
      have hne : r ≠ q := fun he => hrc (he ▸ hq.2)
      split at h
      · cases h; exact ⟨upd_ne _ _ hne, rfl, upd_ne _ _ hne⟩
      · cases h; exact ⟨rfl, rfl, rfl⟩
    · cases h
  | _ =>
    simp only [step] at h
    step_split h <;> exact ⟨rfl, rfl, rfl⟩

theorem Ahead.mono {s s' : St R P} {r : R} {p : P} {n : Nat} {x : RC R P} (hp : s'.pend r = s.pend r)
    (hn : s.ndes p ≤ s'.ndes p) (h : Ahead p n s r x) : Ahead p n s' r x := by
  cases x <;> simp only [Ahead, hp] at h ⊢
  case idle => omega
  all_goals (rcases h with h | h; exact .inl h; exact .inr (by omega))

theorem Ahead.tick {s s' : St R P} (hI : Inv D s) {r : R} {p : P} {n : Nat} (h : tick D C s r = some s')
    (hn : n ≤ s.ndes p)
    (hno : ∀ q i, s.pts q i ≠ some p) (ha : Ahead p n s r (s.rc r)) : Ahead p n s' r (s'.rc r) := by
  have hgo : ∀ x, Ahead p n s r x → Ahead p n (goto s r x) r ((goto s r x).rc r) := fun x hx => by
    show Ahead p n (goto s r x) r (upd s.rc r x r)
    rw [upd_same]
    exact hx.mono rfl (Nat.le_refl _)
  have hdrop : ∀ {pos : Nat} {p : P}, (s.pend r)[pos]? = some p →
      (s.pend r).drop pos = p :: (s.pend r).drop (pos + 1) := fun {pos p} hp => by
    obtain ⟨h1, h2⟩ := List.getElem?_eq_some_iff.1 hp
    rw [List.drop_eq_getElem_cons h1, h2]
  have hdes : ∀ mk c pos x, (s.pend r)[pos]? = some x →
      ((p ∈ (s.pend r).drop pos ∧ p ∉ c) ∨ s.ndes p > n) →
      Ahead p n (destroy s r mk c pos x) r ((destroy s r mk c pos x).rc r) := by
    intro mk c pos x hx hA
    show Ahead p n (destroy s r mk c pos x) r (upd s.rc r _ r)
    rw [upd_same]
    by_cases hp : p = x
    · subst hp
      refine .inr ?_
      show upd s.ndes p _ p > n
      rw [upd_same]; omega
    · rcases hA with ⟨h1, h2⟩ | h1
      · refine .inl ⟨?_, h2⟩
        show p ∈ (upd s.pend r _ r).drop pos
        rw [upd_same]
        rw [hdrop hx] at h1
        rcases List.mem_cons.1 h1 with h1 | h1
        · exact absurd h1 hp
        · have hlt := (List.getElem?_eq_some_iff.1 hx).1
          rw [List.eraseIdx_eq_take_drop_succ, List.drop_append_of_le_length (by simp; omega)]
          exact List.mem_append_right _ h1
      · refine .inr ?_
        show upd s.ndes x _ p > n
        rw [upd_ne _ _ hp]; exact h1
  unfold Hp.tick at h
  split at h
  · cases h
  · next hrc =>
    cases h
    rw [hrc] at ha
    exact hgo _ (ha.imp (fun h => ⟨h, List.not_mem_nil⟩) id)
  · next hrc =>
    cases h
    rw [hrc] at ha
    exact hgo _ ha
  · next hrc =>
    rw [hrc] at ha
    split at h <;> (cases h; exact hgo _ ha)
  · next hrc =>
    rw [hrc] at ha
    split at h
    · cases h; exact hgo _ ha
    · split at h
      · cases h; exact hgo _ ha
      · split at h
        · cases h; exact hgo _ ha
        · next x hx =>
          cases h
          refine hgo _ (ha.imp (fun h => ⟨h.1, fun hc => ?_⟩) id)
          rcases List.mem_cons.1 hc with hc | hc
          · exact hno _ _ (hc ▸ hx)
          · exact h.2 hc
  · next mk c pos hrc =>
    rw [hrc] at ha
    split at h
    · next hnone =>
      have hnil : (s.pend r).drop pos = [] := List.drop_eq_nil_of_le (List.getElem?_eq_none_iff.1 hnone)
      have hgt : s.ndes p > n := by
        rcases ha with ha | ha
        · rw [hnil] at ha; cases ha.1
        · exact ha
      split at h
      · cases h; exact hgo _ (.inr hgt)
      · cases h
        show Ahead p n _ r (upd s.rc r .idle r)
        rw [upd_same]; exact hgt
    · next x hx =>
      have hnext : p ≠ x → (p ∈ (s.pend r).drop (pos + 1) ∧ p ∉ c) ∨ s.ndes p > n := fun hpx => by
        rcases ha with ha | ha
        · rw [hdrop hx] at ha
          rcases List.mem_cons.1 ha.1 with h1 | h1
          · exact absurd h1 hpx
          · exact .inl ⟨h1, ha.2⟩
        · exact .inr ha
      split at h
      · next hc =>
        cases h
        refine hgo _ ?_
        rcases ha with ha | ha
        · exact hnext (fun he => ha.2 (he ▸ hc))
        · exact .inr ha
      · split at h
        · cases h; exact hdes _ _ _ _ hx ha
        · cases h; exact hgo _ ha
  · next hrc =>
    rw [hrc] at ha
    split at h
    · cases h
    · next x hx => cases h; exact hdes _ _ _ _ hx ha
  · next hrc =>
    rw [hrc] at ha
    split at h <;> (cases h; exact hgo _ ha)
  · next mk q rem i c pos hrc =>
    rw [hrc] at ha
    split at h
    · cases h; exact hgo _ ha
    · split at h
      · next heq =>
        cases h
        refine hgo _ ?_
        have hlt : pos < (s.pend r).length := by
          have := hI.cov r
          rw [hrc] at this
          exact this.1
        rcases ha with ha | ha
        · have hx : (s.pend r)[pos]? = some (s.pend r)[pos] := List.getElem?_eq_getElem hlt
          rw [hdrop hx] at ha
          rcases List.mem_cons.1 ha.1 with h1 | h1
          · exact absurd (heq.trans (hx.trans (congrArg some h1.symm))) (hno q i)
          · exact .inl ⟨h1, ha.2⟩
        · exact .inr ha
      · cases h; exact hgo _ ha

theorem While.ahead {s s' : St R P} {r : R} {p : P} {n : Nat}
    (hw : While (sys D C thr) (fun s => s.rc r ≠ .idle ∧ ∀ q i, s.pts q i ≠ some p) s s')
    (hr : (sys D C thr).Reach s) (hn : n ≤ s.ndes p) (hA : Ahead p n s r (s.rc r)) :
    Ahead p n s' r (s'.rc r) := by
  induction hw with
  | nil => exact hA
  | cons hQ h1 _ ih =>
    rename_i a _
    have hm := ndes_mono h1 p
    refine ih (.step hr h1) (by omega) ?_
    have hI := Inv.reach hr
    by_cases ha : a = .tick r
    · subst ha
      exact hA.tick hI h1 hn hQ.2
    · obtain ⟨h2, h3, _⟩ := other_keeps hI h1 hQ.1 (fun q hq hqr => ha (hqr ▸ hq))
      rw [h2]
      exact hA.mono h3 hm

/-- **C37, completeness.**  If no slot of any record names a pending object at any moment of a reclaim by
its record, then the reclaim destroys it.  The same holds of `ck_hp_purge`. -/
theorem reclaim_destroys {s s' : St R P} {r : R} {p : P} (hr : (sys D C thr).Reach s)
    (hs : s.rc r = .start) (hp : p ∈ s.pend r)
    (hx : While (sys D C thr) (fun s => s.rc r ≠ .idle ∧ ∀ q i, s.pts q i ≠ some p) s s')
    (he : s'.rc r = .idle) : s'.ndes p > s.ndes p := by
  have := hx.ahead (n := s.ndes p) hr (Nat.le_refl _) (by rw [hs]; exact .inl hp)
  rw [he] at this
  exact this

/-- **C37.**  `ck_hp_purge` returns with an empty pending list. -/
theorem purge_empties {s s' : St R P} {r : R} (hr : (sys D C thr).Reach s)
    (h : (sys D C thr).step s (.tick r) = some s') (hp : s.pg r = true) (hi : s'.rc r = .idle) :
    s'.pend r = [] := by
  have hI := Inv.reach hr
  change tick D C s r = some s' at h
  have hno : ∀ x, x ≠ .idle → upd s.rc r x r ≠ .idle := fun x hx => by rw [upd_same]; exact hx
  unfold tick at h
  split at h
  · cases h
  · cases h; exact absurd hi (hno _ (by simp))
  · cases h; exact absurd hi (hno _ (by simp))
  · split at h <;> (cases h; exact absurd hi (hno _ (by simp)))
  · step_split h <;> exact absurd hi (hno _ (by simp))
  · split at h
    · split at h
      · cases h; exact absurd hi (hno _ (by simp))
      · next hn =>
        cases h
        have := hI.np r
        exact List.eq_nil_of_length_eq_zero (by
          show (s.pend r).length = 0
          have : ¬ s.np r > 0 := fun hc => hn ⟨hp, hc⟩
          omega)
    · step_split h <;> exact absurd hi (hno _ (by simp))
  · split at h
    · cases h
    · cases h; exact absurd hi (hno _ (by simp))
  · split at h <;> (cases h; exact absurd hi (hno _ (by simp)))
  · step_split h <;> exact absurd hi (hno _ (by simp))

/-! ## A reclaim is wait-free -/

/-- Bound on the number of steps a reclaim still takes, `l` the length of the pending list. -/
def left (D l : Nat) : RC R P → Nat
  | .idle | .start => 0
  | .cRec rem _ => (rem.length + 1) * (D + 2) + (l + 1) * ((rem.length + 1) * (D + 2) + 2)
  | .cSlot _ rem i _ => (rem.length + 1) * (D + 2) + (D + 1 - i) + (l + 1) * ((rem.length + 2) * (D + 2) + 2)
  | .scan mk _ pos => (l + 1 - pos) * ((mk.length + 1) * (D + 2) + 2)
  | .sRec mk rem _ pos => (l - pos) * ((mk.length + 1) * (D + 2) + 2) + (rem.length + 1) * (D + 2) + 1
  | .sSlot mk _ rem i _ pos => (l - pos) * ((mk.length + 1) * (D + 2) + 2) + (rem.length + 1) * (D + 2) + 2 + (D - i)


theorem left_succ (n K : Nat) : (n + 1) * K = n * K + K := Nat.succ_mul n K

/-- **C37, progress.**  A running reclaim can always take its next step, whatever the other threads do;
each step that does not finish it (or restart it inside `ck_hp_purge`) brings it closer to its end, and
the steps of others leave the distance alone. -/
theorem reclaim_progress {s : St R P} {r : R} (hr : (sys D C thr).Reach s) (h : s.rc r ≠ .idle) :
    (∃ s', (sys D C thr).step s (.tick r) = some s' ∧
      (s.rc r ≠ .start → s'.rc r = .idle ∨ (s'.rc r = .start ∧ s.pg r = true) ∨
        (s'.rc r ≠ .start ∧ left D (s'.pend r).length (s'.rc r) < left D (s.pend r).length (s.rc r)))) ∧
    ∀ a s', a ≠ .tick r → (sys D C thr).step s a = some s' →
      left D (s'.pend r).length (s'.rc r) = left D (s.pend r).length (s.rc r) := by
  have hI := Inv.reach hr
  constructor
  · have hcov := hI.cov r
    have hgo : ∀ x : RC R P, x ≠ .start → left D (s.pend r).length x < left D (s.pend r).length (s.rc r) →
        (s.rc r ≠ .start → (goto s r x).rc r = .idle ∨ ((goto s r x).rc r = .start ∧ s.pg r = true) ∨
        ((goto s r x).rc r ≠ .start ∧ left D ((goto s r x).pend r).length ((goto s r x).rc r) < left D (s.pend r).length (s.rc r))) := by
      intro x hs hx _
      have he : (goto s r x).rc r = x := upd_same _ _ _
      rw [he]
      exact .inr (.inr ⟨hs, hx⟩)
    have hdes : ∀ mk c pos p, pos < (s.pend r).length → (s.pend r)[pos]? = some p →
        left (R := R) (P := P) D ((s.pend r).length - 1) (.scan mk c pos) < left D (s.pend r).length (s.rc r) →
        (s.rc r ≠ .start → (destroy s r mk c pos p).rc r = .idle ∨ ((destroy s r mk c pos p).rc r = .start ∧ s.pg r = true) ∨
        ((destroy s r mk c pos p).rc r ≠ .start ∧
          left D ((destroy s r mk c pos p).pend r).length ((destroy s r mk c pos p).rc r) < left D (s.pend r).length (s.rc r))) := by
      intro mk c pos p hlt hp hx _
      have he : (destroy s r mk c pos p).rc r = .scan mk c pos := upd_same _ _ _
      have he' : (destroy s r mk c pos p).pend r = (s.pend r).eraseIdx pos := upd_same _ _ _
      rw [he, he', List.length_eraseIdx_of_lt hlt]
      exact .inr (.inr ⟨by simp, hx⟩)
    show ∃ s', tick D C s r = some s' ∧ _
    unfold tick
    generalize hrc : s.rc r = x at h hcov hgo hdes
    generalize hl : (s.pend r).length = l at *
    cases x with
    | idle => exact absurd rfl h
    | start => exact ⟨_, rfl, fun h => absurd rfl h⟩
    | cRec rem c => cases rem with
      | nil =>
        refine ⟨_, rfl, hgo _ (by simp) ?_⟩
        simp only [left, List.length_nil, Nat.zero_add, Nat.one_mul, Nat.sub_zero]; omega
      | cons q rem =>
        have hA := left_succ (rem.length + 1) (D + 2)
        by_cases hu : s.used q = true
        · refine ⟨_, if_pos hu, hgo _ (by simp) ?_⟩
          simp only [left, List.length_cons, Nat.sub_zero, hA]; omega
        · refine ⟨_, if_neg hu, hgo _ (by simp) ?_⟩
          have hB : (l + 1) * ((rem.length + 1) * (D + 2) + 2) ≤ (l + 1) * ((rem.length + 1) * (D + 2) + (D + 2) + 2) :=
            Nat.mul_le_mul_left _ (by omega)
          simp only [left, List.length_cons, hA]; omega
    | cSlot q rem i c =>
      have hA := left_succ (rem.length + 1) (D + 2)
      have hB : (l + 1) * ((rem.length + 1) * (D + 2) + 2) < (l + 1) * ((rem.length + 1) * (D + 2) + (D + 2) + 2) :=
        Nat.mul_lt_mul_of_pos_left (by omega) (by omega)
      have hC : 0 < (rem.length + 1) * (D + 2) := Nat.mul_pos (by omega) (by omega)
      by_cases hD : D ≤ i
      · refine ⟨_, if_pos hD, hgo _ (by simp) ?_⟩
        simp only [left, hA]; omega
      · simp only [if_neg hD]
        by_cases hc : C ≤ c.length
        · refine ⟨_, if_pos hc, hgo _ (by simp) ?_⟩
          simp only [left, List.length_cons, Nat.sub_zero, hA]; omega
        · simp only [if_neg hc]
          cases s.pts q i with
          | none =>
            refine ⟨_, rfl, hgo _ (by simp) ?_⟩
            simp only [left]; omega
          | some p =>
            refine ⟨_, rfl, hgo _ (by simp) ?_⟩
            simp only [left]; omega
    | scan mk c pos =>
      cases hp : (s.pend r)[pos]? with
      | none =>
        simp only [hp]
        by_cases hpg : s.pg r = true ∧ s.np r > 0
        · exact ⟨_, if_pos hpg, fun _ => .inr (.inl ⟨upd_same _ _ _, hpg.1⟩)⟩
        · exact ⟨_, if_neg hpg, fun _ => .inl (upd_same _ _ _)⟩
      | some p =>
        simp only [hp]
        have hlt : pos < l := hl ▸ (List.getElem?_eq_some_iff.1 hp).1
        obtain ⟨d, hd⟩ : ∃ d, l = pos + d + 1 := ⟨l - pos - 1, by omega⟩
        have e1 : l + 1 - pos = (d + 1) + 1 := by omega
        have e2 : l + 1 - (pos + 1) = d + 1 := by omega
        have e3 : l - pos = d + 1 := by omega
        have e4 : l - 1 + 1 - pos = d + 1 := by omega
        have hA := left_succ (d + 1) ((mk.length + 1) * (D + 2) + 2)
        by_cases hc : p ∈ c
        · refine ⟨_, if_pos hc, hgo _ (by simp) ?_⟩
          simp only [left, e1, e2, hA]; omega
        · simp only [if_neg hc]
          by_cases hm : mk = []
          · refine ⟨_, if_pos hm, hdes _ _ _ _ hlt hp ?_⟩
            simp only [left, e1, e4, hA]; omega
          · refine ⟨_, if_neg hm, hgo _ (by simp) ?_⟩
            simp only [left, e1, e3, hA]; omega
    | sRec mk rem c pos =>
      have hlt : pos < l := hl ▸ hcov.1
      have hp : (s.pend r)[pos]? = some ((s.pend r)[pos]'(hl ▸ hlt)) := List.getElem?_eq_getElem (hl ▸ hlt)
      cases rem with
      | nil =>
        simp only [hp]
        refine ⟨_, rfl, hdes _ _ _ _ hlt hp ?_⟩
        have e : l - 1 + 1 - pos = l - pos := by omega
        simp only [left, e]; omega
      | cons q rem =>
        have hA := left_succ (rem.length + 1) (D + 2)
        by_cases hu : s.used q = true
        · refine ⟨_, if_pos hu, hgo _ (by simp) ?_⟩
          simp only [left, List.length_cons, hA, Nat.sub_zero]; omega
        · refine ⟨_, if_neg hu, hgo _ (by simp) ?_⟩
          simp only [left, List.length_cons, hA]; omega
    | sSlot mk q rem i c pos =>
      have hlt : pos < l := hl ▸ hcov.1
      by_cases hD : D ≤ i
      · refine ⟨_, if_pos hD, hgo _ (by simp) ?_⟩
        have hC : 0 < (rem.length + 1) * (D + 2) := Nat.mul_pos (by omega) (by omega)
        simp only [left]; omega
      · simp only [if_neg hD]
        by_cases he : s.pts q i = (s.pend r)[pos]?
        · refine ⟨_, if_pos he, hgo _ (by simp) ?_⟩
          have e : l + 1 - (pos + 1) = l - pos := by omega
          simp only [left, e]; omega
        · refine ⟨_, if_neg he, hgo _ (by simp) ?_⟩
          simp only [left]; omega
  · intro a s' ha hs
    obtain ⟨h1, h2, _⟩ := other_keeps hI hs h (fun q hq hqr => ha (hqr ▸ hq))
    rw [h1, h2]

end Verif.Hp
