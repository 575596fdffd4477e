import Verif.Smr.Hp
import Verif.Core.Tactic
import Mathlib.Tactic.ByContra

/-!
# Hazard pointers: the invariant
-/

set_option linter.unusedSectionVars false

namespace Verif.Hp

open Verif

variable {R P : Type} [DecidableEq R] [DecidableEq P] {D C thr : Nat}

/-- Slot `i` of `r` protects `p`: it names `p` and was validated since it was written. -/
def Named (s : St R P) (r : R) (i : Nat) (p : P) : Prop := s.prot r i = true ∧ s.pts r i = some p

/-- What a running reclaim of `r` knows: a slot protecting one of the objects still to be decided is in
the cache or ahead of the traversal. -/
def Cov (D : Nat) (s : St R P) (r : R) : RC R P → Prop
  | .idle | .start => True
  | .cRec rem c => ∀ q i p, Named s q i p → p ∈ s.pend r → p ∈ c ∨ q ∈ rem
  | .cSlot q0 rem i0 c => ∀ q i p, Named s q i p → p ∈ s.pend r → p ∈ c ∨ q ∈ rem ∨ (q = q0 ∧ i0 ≤ i ∧ i < D)
  | .scan mk c pos => ∀ q i p, Named s q i p → p ∈ (s.pend r).drop pos → p ∈ c ∨ q ∈ mk
  | .sRec mk rem c pos => pos < (s.pend r).length ∧
      (∀ q i p, Named s q i p → p ∈ (s.pend r).drop (pos + 1) → p ∈ c ∨ q ∈ mk) ∧
      (∀ q i p, Named s q i p → (s.pend r)[pos]? = some p → q ∈ rem)
  | .sSlot mk q0 rem i0 c pos => pos < (s.pend r).length ∧
      (∀ q i p, Named s q i p → p ∈ (s.pend r).drop (pos + 1) → p ∈ c ∨ q ∈ mk) ∧
      (∀ q i p, Named s q i p → (s.pend r)[pos]? = some p → q ∈ rem ∨ (q = q0 ∧ i0 ≤ i ∧ i < D))

structure Inv (D : Nat) (s : St R P) : Prop where
  used : ∀ r, s.used r = true → r ∈ s.subs
  rcu : ∀ r, s.rc r ≠ .idle → s.used r = true
  prot : ∀ r i, s.prot r i = true → s.used r = true ∧ i < D ∧ ∃ p, s.pts r i = some p ∧ s.life p ≠ .fresh
  ret : ∀ r p, p ∈ s.pend r → s.life p = .retired
  nodup : ∀ r, (s.pend r).Nodup
  disj : ∀ r r' p, p ∈ s.pend r → p ∈ s.pend r' → r = r'
  np : ∀ r, s.np r = (s.pend r).length
  cov : ∀ r, Cov D s r (s.rc r)
  cnt : ∀ p, s.nret p = s.ndes p + (if s.life p = .retired then 1 else 0)

theorem Inv.lt {s : St R P} (hI : Inv D s) {r i p} (h : Named s r i p) : i < D := (hI.prot r i h.1).2.1

theorem Inv.memSubs {s : St R P} (hI : Inv D s) {r i p} (h : Named s r i p) : r ∈ s.subs :=
  hI.used r (hI.prot r i h.1).1

/-- A step that only removes protections of the pending objects, or moves them up. -/
theorem Cov.mono {s s' : St R P} {r : R} {x : RC R P} (hp : s'.pend r = s.pend r)
    (hlt : ∀ q i p, Named s' q i p → i < D)
    (hn : ∀ q j p, p ∈ s.pend r → Named s' q j p → ∃ i, i ≤ j ∧ Named s q i p)
    (h : Cov D s r x) : Cov D s' r x := by
  cases x with
  | idle => trivial
  | start => trivial
  | cRec rem c =>
    intro q j p h1 h2
    rw [hp] at h2
    obtain ⟨i, _, hi⟩ := hn q j p h2 h1
    exact h q i p hi h2
  | cSlot q0 rem i0 c =>
    intro q j p h1 h2
    rw [hp] at h2
    obtain ⟨i, hle, hi⟩ := hn q j p h2 h1
    rcases h q i p hi h2 with h3 | h3 | ⟨h3, h4, _⟩
    · exact .inl h3
    · exact .inr (.inl h3)
    · exact .inr (.inr ⟨h3, by omega, hlt _ _ _ h1⟩)
  | scan mk c pos =>
    intro q j p h1 h2
    rw [hp] at h2
    obtain ⟨i, _, hi⟩ := hn q j p (List.mem_of_mem_drop h2) h1
    exact h q i p hi h2
  | sRec mk rem c pos =>
    refine ⟨hp ▸ h.1, ?_, ?_⟩
    · intro q j p h1 h2
      rw [hp] at h2
      obtain ⟨i, _, hi⟩ := hn q j p (List.mem_of_mem_drop h2) h1
      exact h.2.1 q i p hi h2
    · intro q j p h1 h2
      rw [hp] at h2
      obtain ⟨i, _, hi⟩ := hn q j p (List.mem_of_getElem? h2) h1
      exact h.2.2 q i p hi h2
  | sSlot mk q0 rem i0 c pos =>
    refine ⟨hp ▸ h.1, ?_, ?_⟩
    · intro q j p h1 h2
      rw [hp] at h2
      obtain ⟨i, _, hi⟩ := hn q j p (List.mem_of_mem_drop h2) h1
      exact h.2.1 q i p hi h2
    · intro q j p h1 h2
      rw [hp] at h2
      obtain ⟨i, hle, hi⟩ := hn q j p (List.mem_of_getElem? h2) h1
      rcases h.2.2 q i p hi h2 with h3 | ⟨h3, h4, _⟩
      · exact .inl h3
      · exact .inr ⟨h3, by omega, hlt _ _ _ h1⟩

theorem Cov.same {s s' : St R P} {r : R} {x : RC R P} (hI : Inv D s) (hp : s'.pend r = s.pend r)
    (hn : ∀ q j p, p ∈ s.pend r → Named s' q j p → Named s q j p)
    (hl : ∀ q j p, Named s' q j p → j < D) (h : Cov D s r x) : Cov D s' r x :=
  h.mono hp hl fun q j p h1 h2 => ⟨j, Nat.le_refl j, hn q j p h1 h2⟩

theorem Inv.start {s : St R P} (h : Start s) : Inv D s where
  used r hr := by rw [h.used] at hr; cases hr
  rcu r hr := absurd (h.rc r) hr
  prot r i hp := by rw [h.prot] at hp; cases hp
  ret r p hp := by rw [h.pend] at hp; cases hp
  nodup r := by rw [h.pend]; exact List.nodup_nil
  disj r r' p hp := by rw [h.pend] at hp; cases hp
  np r := by rw [h.pend, h.np]; rfl
  cov r := by rw [h.rc]; trivial
  cnt p := by rw [h.nret, h.ndes, h.life]; rfl

/-- Moving only the program counter of `r`. -/
theorem Inv.goto {s : St R P} (hI : Inv D s) {r : R} {x : RC R P} (hu : x ≠ .idle → s.used r = true)
    (hc : Cov D s r x) : Inv D (goto s r x) where
  used := hI.used
  rcu q hq := by
    change upd s.rc r x q ≠ .idle at hq
    by_cases hqr : q = r
    · subst hqr; rw [upd_same] at hq; exact hu hq
    · rw [upd_ne _ _ hqr] at hq; exact hI.rcu q hq
  prot := hI.prot
  ret := hI.ret
  nodup := hI.nodup
  disj := hI.disj
  np := hI.np
  cnt := hI.cnt
  cov q := by
    show Cov D (Hp.goto s r x) q (upd s.rc r x q)
    have key : ∀ y, Cov D s q y → Cov D (Hp.goto s r x) q y := fun y hy =>
      hy.same hI rfl (fun _ _ _ _ h => h) (fun q j p h => hI.lt (p := p) (r := q) h)
    by_cases hqr : q = r
    · subst hqr; rw [upd_same]; exact key x hc
    · rw [upd_ne _ _ hqr]; exact key _ (hI.cov q)

theorem mem_drop_erase {α : Type} {l : List α} {pos : Nat} {x : α} (h : x ∈ (l.eraseIdx pos).drop pos) :
    x ∈ l.drop (pos + 1) := by
  rw [List.eraseIdx_eq_take_drop_succ] at h
  rcases Nat.lt_or_ge pos l.length with hl | hl
  · rw [List.drop_append_of_le_length (by simp; omega)] at h
    simpa [List.drop_eq_nil_of_le, Nat.min_eq_left (Nat.le_of_lt hl)] using h
  · rw [List.drop_append, List.drop_eq_nil_of_le (as := l) (i := pos + 1) (by omega)] at h
    simp at h

/-- Destroying entry `pos` of `r` when nobody protects it. -/
theorem Inv.destroy {s : St R P} (hI : Inv D s) {r : R} {mk : List R} {c : List P} {pos : Nat} {p : P}
    (hr : s.rc r ≠ .idle) (hp : (s.pend r)[pos]? = some p) (hno : ∀ q i, ¬ Named s q i p)
    (hrest : ∀ q i p, Named s q i p → p ∈ (s.pend r).drop (pos + 1) → p ∈ c ∨ q ∈ mk) :
    Inv D (destroy s r mk c pos p) := by
  have hmem : p ∈ s.pend r := List.mem_of_getElem? hp
  have hret := hI.ret r p hmem
  have hlt : pos < (s.pend r).length := (List.getElem?_eq_some_iff.1 hp).1
  have hpe : ∀ q x, x ∈ upd s.pend r ((s.pend r).eraseIdx pos) q → x ∈ s.pend q ∧ x ≠ p := by
    intro q x hx
    by_cases hqr : q = r
    · subst hqr
      rw [upd_same] at hx
      refine ⟨List.mem_of_mem_eraseIdx hx, ?_⟩
      rintro rfl
      have hnd := hI.nodup q
      obtain ⟨j, hj, hne, he⟩ := List.mem_eraseIdx_iff_getElem.1 hx
      exact hne ((List.getElem_inj hnd).1 (he.trans (List.getElem?_eq_some_iff.1 hp).2.symm))
    · rw [upd_ne _ _ hqr] at hx
      refine ⟨hx, ?_⟩
      rintro rfl
      exact hqr (hI.disj q r x hx hmem)
  constructor
  · exact hI.used
  · intro q hq
    by_cases hqr : q = r
    · subst hqr; exact hI.rcu q hr
    · refine hI.rcu q ?_
      change upd s.rc r _ q ≠ .idle at hq
      rwa [upd_ne _ _ hqr] at hq
  · intro q i hq
    obtain ⟨h1, h2, x, h3, h4⟩ := hI.prot q i hq
    refine ⟨h1, h2, x, h3, ?_⟩
    show upd s.life p .fresh x ≠ .fresh
    by_cases hx : x = p
    · subst hx; exact absurd ⟨hq, h3⟩ (hno q i)
    · rwa [upd_ne _ _ hx]
  · intro q x hx
    obtain ⟨h1, h2⟩ := hpe q x hx
    show upd s.life p .fresh x = .retired
    rw [upd_ne _ _ h2]
    exact hI.ret q x h1
  · intro q
    show (upd s.pend r _ q).Nodup
    by_cases hqr : q = r
    · subst hqr; rw [upd_same]; exact (hI.nodup q).sublist (List.eraseIdx_sublist _ _)
    · rw [upd_ne _ _ hqr]; exact hI.nodup q
  · intro q q' x hx hx'
    exact hI.disj q q' x (hpe q x hx).1 (hpe q' x hx').1
  · intro q
    show upd s.np r _ q = (upd s.pend r _ q).length
    by_cases hqr : q = r
    · subst hqr; rw [upd_same, upd_same, hI.np, List.length_eraseIdx_of_lt hlt]
    · rw [upd_ne _ _ hqr, upd_ne _ _ hqr]; exact hI.np q
  · intro q
    show Cov D (Hp.destroy s r mk c pos p) q (upd s.rc r (.scan mk c pos) q)
    by_cases hqr : q = r
    · subst hqr
      rw [upd_same]
      intro q' i x h1 h2
      refine hrest q' i x h1 ?_
      have h3 : x ∈ ((s.pend q).eraseIdx pos).drop pos := by
        have : (Hp.destroy s q mk c pos p).pend q = (s.pend q).eraseIdx pos := upd_same _ _ _
        rwa [this] at h2
      exact mem_drop_erase h3
    · rw [upd_ne _ _ hqr]
      exact (hI.cov q).same hI (upd_ne _ _ hqr) (fun _ _ _ _ h => h) (fun q j p h => hI.lt (p := p) (r := q) h)
  · intro x
    show s.nret x = upd s.ndes p _ x + (if upd s.life p .fresh x = .retired then 1 else 0)
    have hc := hI.cnt x
    by_cases hx : x = p
    · subst hx
      rw [upd_same, upd_same, if_neg (by simp)]
      rw [hret, if_pos rfl] at hc
      omega
    · rw [upd_ne _ _ hx, upd_ne _ _ hx]; exact hc

theorem Inv.tick {s s' : St R P} (hI : Inv D s) {r : R} (h : tick D C s r = some s') : Inv D s' := by
  have hcov := hI.cov r
  have hu : s.rc r ≠ .idle → s.used r = true := hI.rcu r
  have hdrop : ∀ {pos : Nat} {p : P}, (s.pend r)[pos]? = some p →
      (s.pend r).drop pos = p :: (s.pend r).drop (pos + 1) := fun {pos p} hp => by
    obtain ⟨h1, h2⟩ := List.getElem?_eq_some_iff.1 hp
    rw [List.drop_eq_getElem_cons h1, h2]
  unfold Hp.tick at h
  split at h
  · cases h
  · next hrc =>
    cases h
    refine hI.goto (fun _ => hu (by rw [hrc]; simp)) ?_
    intro q i p h1 _
    exact .inr (hI.memSubs h1)
  · next hrc =>
    cases h
    rw [hrc] at hcov
    refine hI.goto (fun _ => hu (by rw [hrc]; simp)) ?_
    intro q i p h1 h2
    exact hcov q i p h1 h2
  · next q rem c hrc =>
    rw [hrc] at hcov
    have hu := hu (by rw [hrc]; simp)
    split at h
    · cases h
      refine hI.goto (fun _ => hu) ?_
      intro q' i p h1 h2
      rcases hcov q' i p h1 h2 with h3 | h3
      · exact .inl h3
      · rcases List.mem_cons.1 h3 with h3 | h3
        · exact .inr (.inr ⟨h3, Nat.zero_le _, hI.lt h1⟩)
        · exact .inr (.inl h3)
    · next huq =>
      cases h
      refine hI.goto (fun _ => hu) ?_
      intro q' i p h1 h2
      rcases hcov q' i p h1 h2 with h3 | h3
      · exact .inl h3
      · rcases List.mem_cons.1 h3 with h3 | h3
        · subst h3; exact absurd (hI.prot q' i h1.1).1 huq
        · exact .inr h3
  · next q rem i c hrc =>
    rw [hrc] at hcov
    have hu := hu (by rw [hrc]; simp)
    split at h
    · next hD =>
      cases h
      refine hI.goto (fun _ => hu) ?_
      intro q' j p h1 h2
      rcases hcov q' j p h1 h2 with h3 | h3 | h3
      · exact .inl h3
      · exact .inr h3
      · omega
    · split at h
      · cases h
        refine hI.goto (fun _ => hu) ?_
        intro q' j p h1 h2
        rcases hcov q' j p h1 (List.mem_of_mem_drop h2) with h3 | h3 | h3
        · exact .inl h3
        · exact .inr (List.mem_cons_of_mem _ h3)
        · exact .inr (h3.1 ▸ List.mem_cons_self)
      · split at h
        · next hn =>
          cases h
          refine hI.goto (fun _ => hu) ?_
          intro q' j p h1 h2
          rcases hcov q' j p h1 h2 with h3 | h3 | ⟨h3, h4, h5⟩
          · exact .inl h3
          · exact .inr (.inl h3)
          · refine .inr (.inr ⟨h3, ?_, h5⟩)
            rcases Nat.eq_or_lt_of_le h4 with h6 | h6
            · subst h3 h6; rw [h1.2] at hn; cases hn
            · exact h6
        · next x hn =>
          cases h
          refine hI.goto (fun _ => hu) ?_
          intro q' j p h1 h2
          rcases hcov q' j p h1 h2 with h3 | h3 | ⟨h3, h4, h5⟩
          · exact .inl (List.mem_cons_of_mem _ h3)
          · exact .inr (.inl h3)
          · rcases Nat.eq_or_lt_of_le h4 with h6 | h6
            · subst h3 h6
              rw [h1.2] at hn
              cases hn
              exact .inl List.mem_cons_self
            · exact .inr (.inr ⟨h3, h6, h5⟩)
  · next mk c pos hrc =>
    rw [hrc] at hcov
    have hne : s.rc r ≠ .idle := by rw [hrc]; simp
    have hu := hu hne
    split at h
    · split at h
      · cases h
        exact hI.goto (fun _ => hu) trivial
      · cases h
        have := hI.goto (r := r) (x := .idle) (fun _ => hu) trivial
        exact ⟨this.used, this.rcu, this.prot, this.ret, this.nodup, this.disj, this.np, fun q =>
          (this.cov q).same this rfl (fun _ _ _ _ h => h) (fun q j p h => hI.lt (p := p) (r := q) h), this.cnt⟩
    · next p hp =>
      have hd := hdrop hp
      split at h
      · cases h
        refine hI.goto (fun _ => hu) ?_
        intro q i x h1 h2
        exact hcov q i x h1 (hd ▸ List.mem_cons_of_mem _ h2)
      · next hpc =>
        split at h
        · next hmk =>
          cases h
          refine hI.destroy hne hp (fun q i hn => ?_) (fun q i x h1 h2 => hcov q i x h1 (hd ▸ List.mem_cons_of_mem _ h2))
          rcases hcov q i p hn (hd ▸ List.mem_cons_self) with h3 | h3
          · exact hpc h3
          · rw [hmk] at h3; cases h3
        · cases h
          refine hI.goto (fun _ => hu) ⟨(List.getElem?_eq_some_iff.1 hp).1, ?_, ?_⟩
          · intro q i x h1 h2
            exact hcov q i x h1 (hd ▸ List.mem_cons_of_mem _ h2)
          · intro q i x h1 h2
            rw [hp] at h2
            cases h2
            rcases hcov q i p h1 (hd ▸ List.mem_cons_self) with h3 | h3
            · exact absurd h3 hpc
            · exact h3
  · next mk c pos hrc =>
    rw [hrc] at hcov
    split at h
    · cases h
    · next p hp =>
      cases h
      refine hI.destroy (by rw [hrc]; simp) hp (fun q i hn => ?_) hcov.2.1
      cases hcov.2.2 q i p hn hp
  · next mk q rem c pos hrc =>
    rw [hrc] at hcov
    have hu := hu (by rw [hrc]; simp)
    split at h
    · cases h
      refine hI.goto (fun _ => hu) ⟨hcov.1, hcov.2.1, ?_⟩
      intro q' i p h1 h2
      rcases List.mem_cons.1 (hcov.2.2 q' i p h1 h2) with h3 | h3
      · exact .inr ⟨h3, Nat.zero_le _, hI.lt h1⟩
      · exact .inl h3
    · next huq =>
      cases h
      refine hI.goto (fun _ => hu) ⟨hcov.1, hcov.2.1, ?_⟩
      intro q' i p h1 h2
      rcases List.mem_cons.1 (hcov.2.2 q' i p h1 h2) with h3 | h3
      · subst h3; exact absurd (hI.prot q' i h1.1).1 huq
      · exact h3
  · next mk q rem i c pos hrc =>
    rw [hrc] at hcov
    have hu := hu (by rw [hrc]; simp)
    split at h
    · next hD =>
      cases h
      refine hI.goto (fun _ => hu) ⟨hcov.1, hcov.2.1, ?_⟩
      intro q' j p h1 h2
      rcases hcov.2.2 q' j p h1 h2 with h3 | h3
      · exact h3
      · omega
    · split at h
      · cases h
        refine hI.goto (fun _ => hu) ?_
        exact hcov.2.1
      · next hne =>
        cases h
        refine hI.goto (fun _ => hu) ⟨hcov.1, hcov.2.1, ?_⟩
        intro q' j p h1 h2
        rcases hcov.2.2 q' j p h1 h2 with h3 | ⟨h3, h4, h5⟩
        · exact .inl h3
        · refine .inr ⟨h3, ?_, h5⟩
          rcases Nat.eq_or_lt_of_le h4 with h6 | h6
          · subst h3 h6; rw [h1.2, h2] at hne; exact absurd rfl hne
          · exact h6

/-- Retiring an object that nobody has retired. -/
theorem Inv.retire {s : St R P} (hI : Inv D s) {r : R} {p : P} (hr : s.rc r = .idle)
    (hl : s.life p = .unlinked) : Inv D (retire s r p) := by
  have hno : ∀ q, p ∉ s.pend q := fun q hq => by have := hI.ret q p hq; rw [hl] at this; cases this
  have hpe : ∀ q x, x ∈ upd s.pend r (p :: s.pend r) q → (x = p ∧ q = r) ∨ (x ∈ s.pend q ∧ x ≠ p) := by
    intro q x hx
    by_cases hqr : q = r
    · subst hqr
      rw [upd_same] at hx
      rcases List.mem_cons.1 hx with hx | hx
      · exact .inl ⟨hx, rfl⟩
      · exact .inr ⟨hx, fun h => hno q (h ▸ hx)⟩
    · rw [upd_ne _ _ hqr] at hx
      exact .inr ⟨hx, fun h => hno q (h ▸ hx)⟩
  constructor
  · exact hI.used
  · exact hI.rcu
  · intro q i hq
    obtain ⟨h1, h2, x, h3, h4⟩ := hI.prot q i hq
    refine ⟨h1, h2, x, h3, ?_⟩
    show upd s.life p .retired x ≠ .fresh
    rw [upd_apply]; split <;> simp_all
  · intro q x hx
    show upd s.life p .retired x = .retired
    rcases hpe q x hx with ⟨h1, _⟩ | ⟨h1, h2⟩
    · rw [h1, upd_same]
    · rw [upd_ne _ _ h2]; exact hI.ret q x h1
  · intro q
    show (upd s.pend r _ q).Nodup
    by_cases hqr : q = r
    · subst hqr; rw [upd_same]; exact List.nodup_cons.2 ⟨hno q, hI.nodup q⟩
    · rw [upd_ne _ _ hqr]; exact hI.nodup q
  · intro q q' x hx hx'
    rcases hpe q x hx with ⟨h1, h2⟩ | ⟨h1, h2⟩ <;> rcases hpe q' x hx' with ⟨h3, h4⟩ | ⟨h3, h4⟩
    · rw [h2, h4]
    · exact absurd h1 h4
    · exact absurd h3 h2
    · exact hI.disj q q' x h1 h3
  · intro q
    show upd s.np r _ q = (upd s.pend r _ q).length
    by_cases hqr : q = r
    · subst hqr; rw [upd_same, upd_same, hI.np]; rfl
    · rw [upd_ne _ _ hqr, upd_ne _ _ hqr]; exact hI.np q
  · intro q
    show Cov D (Hp.retire s r p) q (s.rc q)
    by_cases hqr : q = r
    · subst hqr; rw [hr]; trivial
    · exact (hI.cov q).same hI (upd_ne _ _ hqr) (fun _ _ _ _ h => h) (fun q j p h => hI.lt (p := p) (r := q) h)
  · intro x
    show upd s.nret p _ x = s.ndes x + (if upd s.life p .retired x = .retired then 1 else 0)
    have hc := hI.cnt x
    by_cases hx : x = p
    · subst hx
      rw [upd_same, upd_same, if_pos rfl]
      rw [hl, if_neg (by simp)] at hc
      omega
    · rw [upd_ne _ _ hx, upd_ne _ _ hx]; exact hc

/-- Changing the life of an object that is not retired, without making it fresh. -/
theorem Inv.setLife {s : St R P} (hI : Inv D s) {p : P} {l : Life} (h0 : s.life p ≠ .retired)
    (h1 : l ≠ .fresh) (h2 : l ≠ .retired) : Inv D { s with life := upd s.life p l } := by
  constructor
  · exact hI.used
  · exact hI.rcu
  · intro q i hq
    obtain ⟨h1', h2', x, h3, h4⟩ := hI.prot q i hq
    refine ⟨h1', h2', x, h3, ?_⟩
    show upd s.life p l x ≠ .fresh
    rw [upd_apply]; split <;> simp_all
  · intro q x hx
    have := hI.ret q x hx
    show upd s.life p l x = .retired
    rw [upd_ne _ _ (fun he : x = p => h0 (he ▸ this))]; exact this
  · exact hI.nodup
  · exact hI.disj
  · exact hI.np
  · exact fun q => (hI.cov q).same hI rfl (fun _ _ _ _ h => h) (fun q j p h => hI.lt (p := p) (r := q) h)
  · intro x
    have hc := hI.cnt x
    show s.nret x = s.ndes x + (if upd s.life p l x = .retired then 1 else 0)
    by_cases hx : x = p
    · subst hx
      rw [upd_same, if_neg h2]
      rw [if_neg h0] at hc
      exact hc
    · rw [upd_ne _ _ hx]; exact hc

/-- Changing slots: every protection afterwards is an old one, or of an object that is not retired, or the
copy of one in a lower slot. -/
theorem Inv.slots {s s' : St R P} (hI : Inv D s) (h1 : s'.subs = s.subs) (h2 : s'.used = s.used)
    (h3 : s'.rc = s.rc) (h4 : s'.pend = s.pend) (h5 : s'.np = s.np) (h6 : s'.life = s.life)
    (h7 : s'.nret = s.nret) (h8 : s'.ndes = s.ndes)
    (hp : ∀ r i, s'.prot r i = true → s.used r = true ∧ i < D ∧ ∃ p, s'.pts r i = some p ∧ s.life p ≠ .fresh)
    (hn : ∀ q j p, s.life p = .retired → Named s' q j p → ∃ i, i ≤ j ∧ Named s q i p) : Inv D s' := by
  constructor
  · rw [h1, h2]; exact hI.used
  · rw [h3, h2]; exact hI.rcu
  · rw [h2, h6]; exact hp
  · rw [h4, h6]; exact hI.ret
  · rw [h4]; exact hI.nodup
  · rw [h4]; exact hI.disj
  · rw [h4, h5]; exact hI.np
  · intro r
    rw [h3]
    exact (hI.cov r).mono (by rw [h4]) (fun q i p h => (hp q i h.1).2.1)
      (fun q j p hm hN => hn q j p (hI.ret r p hm) hN)
  · rw [h6, h7, h8]; exact hI.cnt

theorem setPt_same (f : R → Nat → Option P) (r : R) (i : Nat) (p : Option P) : setPt f r i p r i = p := by
  simp [setPt]

theorem setPt_ne (f : R → Nat → Option P) {r q : R} {i j : Nat} (p : Option P) (h : ¬ (q = r ∧ j = i)) :
    setPt f r i p q j = f q j := by
  simp only [setPt, upd_apply]
  split
  · next hq => subst hq; rw [upd_ne _ _ (fun hj => h ⟨rfl, hj⟩)]
  · rfl

theorem setPr_same (f : R → Nat → Bool) (r : R) (i : Nat) (b : Bool) : setPr f r i b r i = b := by
  simp [setPr]

theorem setPr_ne (f : R → Nat → Bool) {r q : R} {i j : Nat} (b : Bool) (h : ¬ (q = r ∧ j = i)) :
    setPr f r i b q j = f q j := by
  simp only [setPr, upd_apply]
  split
  · next hq => subst hq; rw [upd_ne _ _ (fun hj => h ⟨rfl, hj⟩)]
  · rfl

theorem Inv.step {s s' : St R P} (hI : Inv D s) {a : Act R P} (h : step D C thr s a = some s') : Inv D s' := by
  cases a with
  | tick r => exact hI.tick h
  | register r =>
    simp only [Hp.step] at h
    split at h
    · cases h
    · next hr =>
      cases h
      have hu : s.used r = false := by
        cases hu : s.used r with
        | false => rfl
        | true => exact absurd (hI.used r hu) hr
      have hpr : ∀ i, s.prot r i ≠ true := fun i hi => by
        have := (hI.prot r i hi).1; rw [hu] at this; cases this
      have hrc : s.rc r = .idle := by
        by_contra hc; have := hI.rcu r hc; rw [hu] at this; cases this
      have hne : ∀ q i, s.prot q i = true → q ≠ r := fun q i hq he => hpr i (he ▸ hq)
      constructor
      · intro q hq
        change upd s.used r true q = true at hq
        show q ∈ r :: s.subs
        by_cases hqr : q = r
        · exact hqr ▸ List.mem_cons_self
        · rw [upd_ne _ _ hqr] at hq; exact List.mem_cons_of_mem _ (hI.used q hq)
      · intro q hq
        show upd s.used r true q = true
        by_cases hqr : q = r
        · rw [hqr, upd_same]
        · rw [upd_ne _ _ hqr]; exact hI.rcu q hq
      · intro q i hq
        have hqr := hne q i hq
        obtain ⟨h1, h2, x, h3, h4⟩ := hI.prot q i hq
        refine ⟨?_, h2, x, ?_, h4⟩
        · show upd s.used r true q = true
          rw [upd_ne _ _ hqr]; exact h1
        · show upd s.pts r _ q i = some x
          rw [upd_ne _ _ hqr]; exact h3
      · intro q x hx
        change x ∈ upd s.pend r [] q at hx
        by_cases hqr : q = r
        · rw [hqr, upd_same] at hx; cases hx
        · rw [upd_ne _ _ hqr] at hx; exact hI.ret q x hx
      · intro q
        show (upd s.pend r [] q).Nodup
        by_cases hqr : q = r
        · rw [hqr, upd_same]; exact List.nodup_nil
        · rw [upd_ne _ _ hqr]; exact hI.nodup q
      · intro q q' x hx hx'
        change x ∈ upd s.pend r [] q at hx
        change x ∈ upd s.pend r [] q' at hx'
        by_cases hqr : q = r
        · rw [hqr, upd_same] at hx; cases hx
        · by_cases hqr' : q' = r
          · rw [hqr', upd_same] at hx'; cases hx'
          · rw [upd_ne _ _ hqr] at hx; rw [upd_ne _ _ hqr'] at hx'; exact hI.disj q q' x hx hx'
      · intro q
        show upd s.np r 0 q = (upd s.pend r [] q).length
        by_cases hqr : q = r
        · rw [hqr, upd_same, upd_same]; rfl
        · rw [upd_ne _ _ hqr, upd_ne _ _ hqr]; exact hI.np q
      · intro q
        show Cov D _ q (s.rc q)
        by_cases hqr : q = r
        · rw [hqr, hrc]; trivial
        · have hN : ∀ q' j p, Named { s with subs := r :: s.subs, used := upd s.used r true, pts := upd s.pts r (fun _ => none), pend := upd s.pend r [], np := upd s.np r 0 } q' j p → Named s q' j p := by
            intro q' j p hn
            refine ⟨hn.1, ?_⟩
            have := hn.2
            change upd s.pts r _ q' j = some p at this
            rwa [upd_ne _ _ (hne q' j hn.1)] at this
          exact (hI.cov q).same hI (upd_ne _ _ hqr) (fun q' j p _ hn => hN q' j p hn)
            (fun q' j p hn => hI.lt (hN q' j p hn))
      · exact hI.cnt
  | recycle r =>
    simp only [Hp.step] at h
    split at h
    · next hr =>
      cases h
      refine ⟨?_, ?_, ?_, hI.ret, hI.nodup, hI.disj, hI.np, ?_, hI.cnt⟩
      · intro q hq
        change upd s.used r true q = true at hq
        by_cases hqr : q = r
        · exact hqr ▸ hr.1
        · rw [upd_ne _ _ hqr] at hq; exact hI.used q hq
      · intro q hq
        show upd s.used r true q = true
        rw [upd_apply]; split
        · rfl
        · exact hI.rcu q hq
      · intro q i hq
        obtain ⟨h1, h2⟩ := hI.prot q i hq
        refine ⟨?_, h2⟩
        show upd s.used r true q = true
        rw [upd_apply]; split
        · rfl
        · exact h1
      · exact fun q => (hI.cov q).same hI rfl (fun _ _ _ _ h => h) (fun q j p h => hI.lt (p := p) (r := q) h)
    · cases h
  | unregister r =>
    simp only [Hp.step] at h
    split at h
    · next hr =>
      cases h
      have hpe : ∀ q x, x ∈ upd s.pend r [] q → x ∈ s.pend q := by
        intro q x hx
        by_cases hqr : q = r
        · rw [hqr, upd_same] at hx; cases hx
        · rwa [upd_ne _ _ hqr] at hx
      have hpr : ∀ q i, upd s.prot r (fun _ => false) q i = true → q ≠ r ∧ s.prot q i = true := by
        intro q i hq
        by_cases hqr : q = r
        · rw [hqr, upd_same] at hq; cases hq
        · rw [upd_ne _ _ hqr] at hq; exact ⟨hqr, hq⟩
      constructor
      · intro q hq
        change upd s.used r false q = true at hq
        by_cases hqr : q = r
        · rw [hqr, upd_same] at hq; cases hq
        · rw [upd_ne _ _ hqr] at hq; exact hI.used q hq
      · intro q hq
        show upd s.used r false q = true
        by_cases hqr : q = r
        · exact absurd hr.2 (hqr ▸ hq)
        · rw [upd_ne _ _ hqr]; exact hI.rcu q hq
      · intro q i hq
        obtain ⟨hqr, hq⟩ := hpr q i hq
        obtain ⟨h1, h2⟩ := hI.prot q i hq
        refine ⟨?_, h2⟩
        show upd s.used r false q = true
        rw [upd_ne _ _ hqr]; exact h1
      · exact fun q x hx => hI.ret q x (hpe q x hx)
      · intro q
        show (upd s.pend r [] q).Nodup
        by_cases hqr : q = r
        · rw [hqr, upd_same]; exact List.nodup_nil
        · rw [upd_ne _ _ hqr]; exact hI.nodup q
      · exact fun q q' x hx hx' => hI.disj q q' x (hpe q x hx) (hpe q' x hx')
      · intro q
        show upd s.np r 0 q = (upd s.pend r [] q).length
        by_cases hqr : q = r
        · rw [hqr, upd_same, upd_same]; rfl
        · rw [upd_ne _ _ hqr, upd_ne _ _ hqr]; exact hI.np q
      · intro q
        show Cov D _ q (s.rc q)
        by_cases hqr : q = r
        · rw [hqr, hr.2]; trivial
        · exact (hI.cov q).same hI (upd_ne _ _ hqr) (fun q' j p _ hn => ⟨(hpr q' j hn.1).2, hn.2⟩)
            (fun q' j p hn => hI.lt (p := p) (r := q') ⟨(hpr q' j hn.1).2, hn.2⟩)
      · exact hI.cnt
    · cases h
  | set r i p =>
    simp only [Hp.step] at h
    split at h
    · cases h
      have key : ∀ q j, setPr s.prot r i false q j = true → ¬ (q = r ∧ j = i) ∧ s.prot q j = true := by
        intro q j hq
        by_cases he : q = r ∧ j = i
        · rw [he.1, he.2, setPr_same] at hq; cases hq
        · rw [setPr_ne _ _ he] at hq; exact ⟨he, hq⟩
      refine hI.slots rfl rfl rfl rfl rfl rfl rfl rfl ?_ ?_
      · intro q j hq
        obtain ⟨he, hq⟩ := key q j hq
        obtain ⟨h1, h2, x, h3, h4⟩ := hI.prot q j hq
        exact ⟨h1, h2, x, (setPt_ne _ _ he).trans h3, h4⟩
      · intro q j x _ hn
        obtain ⟨he, hq⟩ := key q j hn.1
        exact ⟨j, Nat.le_refl j, hq, (setPt_ne _ _ he).symm.trans hn.2⟩
    · cases h
  | validate r i =>
    simp only [Hp.step] at h
    split at h
    · cases h
    · next p hp =>
      split at h
      · next hc =>
        cases h
        refine hI.slots rfl rfl rfl rfl rfl rfl rfl rfl ?_ ?_
        · intro q j hq
          by_cases he : q = r ∧ j = i
          · rw [he.1, he.2]; exact ⟨hc.1, hc.2.2.1, p, hp, by rw [hc.2.2.2]; simp⟩
          · change setPr s.prot r i true q j = true at hq
            rw [setPr_ne _ _ he] at hq; exact hI.prot q j hq
        · intro q j x hx hn
          by_cases he : q = r ∧ j = i
          · have := hn.2
            change s.pts q j = some x at this
            rw [he.1, he.2, hp] at this
            cases this
            rw [hc.2.2.2] at hx; cases hx
          · have := hn.1
            change setPr s.prot r i true q j = true at this
            rw [setPr_ne _ _ he] at this
            exact ⟨j, Nat.le_refl j, this, hn.2⟩
      · cases h
  | copy r i j =>
    simp only [Hp.step] at h
    split at h
    · next hc =>
      cases h
      refine hI.slots rfl rfl rfl rfl rfl rfl rfl rfl ?_ ?_
      · intro q k hq
        by_cases he : q = r ∧ k = j
        · obtain ⟨h1, h2, x, h3, h4⟩ := hI.prot r i hc.2.2.2
          rw [he.1, he.2]
          exact ⟨h1, hc.2.2.1, x, (setPt_same _ _ _ _).trans h3, h4⟩
        · change setPr s.prot r j true q k = true at hq
          rw [setPr_ne _ _ he] at hq
          obtain ⟨h1, h2, x, h3, h4⟩ := hI.prot q k hq
          exact ⟨h1, h2, x, (setPt_ne _ _ he).trans h3, h4⟩
      · intro q k x _ hn
        by_cases he : q = r ∧ k = j
        · have := hn.2
          change setPt s.pts r j _ q k = some x at this
          rw [he.1, he.2, setPt_same] at this
          exact ⟨i, by omega, he.1 ▸ hc.2.2.2, he.1 ▸ this⟩
        · have h1 := hn.1
          have h2 := hn.2
          change setPr s.prot r j true q k = true at h1
          change setPt s.pts r j _ q k = some x at h2
          rw [setPr_ne _ _ he] at h1
          rw [setPt_ne _ _ he] at h2
          exact ⟨k, Nat.le_refl k, h1, h2⟩
    · cases h
  | link p =>
    simp only [Hp.step] at h
    split at h
    · next hl => cases h; exact hI.setLife (by rw [hl]; simp) (by simp) (by simp)
    · cases h
  | unlink p =>
    simp only [Hp.step] at h
    split at h
    · next hl => cases h; exact hI.setLife (by rw [hl]; simp) (by simp) (by simp)
    · cases h
  | retire r p =>
    simp only [Hp.step] at h
    split at h
    · next hl => cases h; exact hI.retire hl.2.1 hl.2.2
    · cases h
  | free r p =>
    simp only [Hp.step] at h
    split at h
    · next hl =>
      split at h
      · cases h
        exact (hI.retire hl.2.1 hl.2.2).goto (fun _ => hl.1) trivial
      · cases h
        exact hI.retire hl.2.1 hl.2.2
    · cases h
  | reclaim r =>
    simp only [Hp.step] at h
    split at h
    · next hl => cases h; exact hI.goto (fun _ => hl.1) trivial
    · cases h
  | purge r =>
    simp only [Hp.step] at h
    split at h
    · next hl =>
      split at h
      · cases h
        have := hI.goto (r := r) (x := .start) (fun _ => hl.1) trivial
        exact ⟨this.used, this.rcu, this.prot, this.ret, this.nodup, this.disj, this.np, fun q =>
          (this.cov q).same this rfl (fun _ _ _ _ h => h) (fun q j p h => hI.lt (p := p) (r := q) h), this.cnt⟩
      · cases h; exact hI
    · cases h

theorem Inv.reach {s : St R P} (h : (sys D C thr).Reach s) : Inv D s :=
  Sys.Reach.invariant (I := Inv D) (fun _ h0 => Inv.start h0) (fun _ _ _ hI hs => hI.step hs) h

end Verif.Hp
