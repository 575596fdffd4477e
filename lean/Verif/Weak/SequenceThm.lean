import Verif.Weak.Sequence

/-!
# `ck_sequence` on relaxed memory: no torn snapshot is accepted (C69)
-/

namespace Verif.Weak.Sequence

open Verif

variable {n w : Nat}

/-- What holds of a reader. -/
def RI (w : Nat) (s : St n) (P : Nat → Nat → Nat) (r : Fin n) : PC → Prop
  | .idle => True
  | .begin => s.log r = []
  | .sect v b => v = b % 2 ^ w ∧ b % 2 = 0 ∧ b ≤ s.ver ∧ b ≤ (s.rd r).cur none ∧
    (∀ j, P (b / 2) j ≤ (s.rd r).cur (some j)) ∧
    ∀ p, p ∈ s.log r → p.2 = s.snap (b / 2) p.1 ∨ b < (s.rd r).acq none
  | .check v b => v = b % 2 ^ w ∧ b % 2 = 0 ∧ b ≤ s.ver ∧ b ≤ (s.rd r).cur none ∧
    ∀ p, p ∈ s.log r → p.2 = s.snap (b / 2) p.1 ∨ b < (s.rd r).cur none
  | .accepted _ => True

/-- `P k j`: the value of word `j` after `k` write sections. -/
structure Inv (w : Nat) (s : St n) (P : Nat → Nat → Nat) : Prop where
  top : s.mem.top none = s.ver
  par : s.ver % 2 = s.writing.toNat
  val : ∀ k, k ≤ s.ver → (s.mem.msg none k).val = k % 2 ^ w
  seqv : ∀ k j, k ≤ s.ver → P (k / 2) j ≤ (s.mem.msg none k).view (some j)
  ptop : ∀ k j, k ≤ s.ver / 2 → P k j ≤ s.mem.top (some j)
  snap : ∀ k j, k ≤ s.ver / 2 → s.snap k j = (s.mem.msg (some j) (P k j)).val
  data : ∀ j, s.data j = (s.mem.msg (some j) (s.mem.top (some j))).val
  new : ∀ k j i, k ≤ s.ver / 2 → P k j < i → i ≤ s.mem.top (some j) → 2 * k < (s.mem.msg (some j) i).view none
  wrel : s.writing = true → s.ver ≤ s.w.rel none
  wwr : ∀ j, s.mem.top (some j) ≤ s.w.wr (some j)
  wp : ∀ j, P (s.ver / 2) j ≤ s.w.rel (some j)
  rd : ∀ r, RI w s P r (s.pc r)

theorem inv_step (hw : 0 < w) {s s' : St n} {a : Act n} {P : Nat → Nat → Nat} (hi : Inv w s P)
    (hs : step w real s a = some s') : ∃ P', Inv w s' P' := by
  cases a with
  | wbegin =>
    simp only [step] at hs
    split at hs
    · cases hs
    next hb =>
    simp only [Bool.not_eq_true] at hb
    have hpar := hi.par
    rw [hb] at hpar
    simp only [Bool.toNat_false] at hpar
    have hv : (s.ver + 1) / 2 = s.ver / 2 := by omega
    cases hs
    refine ⟨P, ?_, ?_, ?_, ?_, ?_, ?_, ?_, ?_, ?_, ?_, ?_, ?_⟩
    · simp only [Mem.store_top, if_true, hi.top]
    · simp only [Bool.toNat_true]; omega
    · intro k hk
      simp only at hk
      by_cases h : k ≤ s.ver
      · simp only
        rw [Mem.store_old (by rw [hi.top]; exact h)]
        exact hi.val k h
      · obtain rfl : k = s.ver + 1 := by omega
        simp only [Mem.store_at _ _ (show s.ver + 1 = s.mem.top none + 1 by rw [hi.top])]
    · intro k j hk
      simp only at hk
      by_cases h : k ≤ s.ver
      · simp only
        rw [Mem.store_old (by rw [hi.top]; exact h)]
        exact hi.seqv k j h
      · obtain rfl : k = s.ver + 1 := by omega
        simp only [Mem.store_at _ _ (show s.ver + 1 = s.mem.top none + 1 by rw [hi.top])]
        rw [upd_ne _ _ (by simp), hv]
        exact hi.wp j
    · intro k j hk
      simp only [hv] at hk
      exact hi.ptop k j hk
    · intro k j hk
      simp only [hv] at hk
      simp only
      rw [Mem.store_ne _ (by simp)]
      exact hi.snap k j hk
    · intro j
      simp only
      rw [Mem.store_ne _ (by simp)]
      exact hi.data j
    · intro k j i hk h1 h2
      simp only [hv] at hk
      simp only
      rw [Mem.store_ne _ (by simp)]
      exact hi.new k j i hk h1 h2
    · intro _
      simp only [opt, real, if_true, Th.fenceStore, Th.store]
      refine Nat.le_trans ?_ (le_join_right _ _ _)
      simp [hi.top]
    · intro j
      simp only [opt, real, if_true, Th.fenceStore, Th.store]
      rw [upd_ne _ _ (by simp)]
      exact hi.wwr j
    · intro j
      simp only [hv]
      exact Nat.le_trans (hi.wp j) (le_join_left _ _ _)
    · intro r
      have := hi.rd r
      simp only
      cases hp : s.pc r <;> rw [hp] at this
      · trivial
      · exact this
      · exact ⟨this.1, this.2.1, Nat.le_succ_of_le this.2.2.1, this.2.2.2⟩
      · exact ⟨this.1, this.2.1, Nat.le_succ_of_le this.2.2.1, this.2.2.2⟩
      · trivial
  | store j v =>
    simp only [step] at hs
    split at hs
    · next hb =>
      have hpar := hi.par
      rw [hb] at hpar
      simp only [Bool.toNat_true] at hpar
      cases hs
      refine ⟨P, ?_, ?_, ?_, ?_, ?_, ?_, ?_, ?_, ?_, ?_, ?_, ?_⟩
      · exact hi.top
      · simp only [hb, Bool.toNat_true]; omega
      · intro k hk
        simp only
        rw [Mem.store_ne _ (by simp)]
        exact hi.val k hk
      · intro k j' hk
        simp only
        rw [Mem.store_ne _ (by simp)]
        exact hi.seqv k j' hk
      · intro k j' hk
        have := hi.ptop k j' hk
        simp only [Mem.store_top]
        split
        · next e => cases e; omega
        · exact this
      · intro k j' hk
        simp only
        rw [Mem.store_old (hi.ptop k j' hk)]
        exact hi.snap k j' hk
      · intro j'
        simp only [Mem.store_top]
        by_cases e : j' = j
        · subst e
          simp only [if_true, upd_same, Mem.store_new]
        · rw [if_neg (by simpa using e), Mem.store_ne _ (by simpa using e), upd_ne _ _ e]
          exact hi.data j'
      · intro k j' i hk h1 h2
        simp only [Mem.store_top] at h2
        simp only
        by_cases h : i ≤ s.mem.top (some j')
        · rw [Mem.store_old h]
          exact hi.new k j' i hk h1 h
        · split at h2
          · next e =>
            obtain rfl : j' = j := by simpa using e
            obtain rfl : i = s.mem.top (some j') + 1 := by omega
            rw [Mem.store_new]
            simp only
            rw [upd_ne _ _ (by simp)]
            have := hi.wrel hb
            simp only at hk
            omega
          · omega
      · exact hi.wrel
      · intro j'
        have := hi.wwr j'
        simp only [Mem.store_top, Th.store]
        by_cases e : j' = j
        · subst e; simp only [if_true, upd_same]; omega
        · rw [if_neg (by simpa using e), upd_ne _ _ (by simpa using e)]
          exact this
      · exact hi.wp
      · exact hi.rd
    · cases hs
  | wend =>
    simp only [step] at hs
    split at hs
    · next hb =>
      have hpar := hi.par
      rw [hb] at hpar
      simp only [Bool.toNat_true] at hpar
      have hv : (s.ver + 1) / 2 = s.ver / 2 + 1 := by omega
      cases hs
      simp only [opt, real, if_true]
      have hP : ∀ k j, k ≤ s.ver / 2 → upd P (s.ver / 2 + 1) (fun j => s.mem.top (some j)) k j = P k j := by
        intro k j hk
        rw [upd_ne _ _ (by omega)]
      refine ⟨upd P (s.ver / 2 + 1) (fun j => s.mem.top (some j)), ?_, ?_, ?_, ?_, ?_, ?_, ?_, ?_, ?_, ?_, ?_, ?_⟩
      · simp only [Mem.store_top, if_true, hi.top]
      · simp only [Bool.toNat_false]; omega
      · intro k hk
        simp only at hk
        by_cases h : k ≤ s.ver
        · simp only
          rw [Mem.store_old (by rw [hi.top]; exact h)]
          exact hi.val k h
        · obtain rfl : k = s.ver + 1 := by omega
          simp only [Mem.store_at _ _ (show s.ver + 1 = s.mem.top none + 1 by rw [hi.top])]
      · intro k j hk
        simp only at hk
        by_cases h : k ≤ s.ver
        · simp only
          rw [Mem.store_old (by rw [hi.top]; exact h), hP _ _ (by omega)]
          exact hi.seqv k j h
        · obtain rfl : k = s.ver + 1 := by omega
          simp only [Mem.store_at _ _ (show s.ver + 1 = s.mem.top none + 1 by rw [hi.top])]
          rw [hv, upd_same, upd_ne _ _ (by simp)]
          exact Nat.le_trans (hi.wwr j) (le_join_right _ _ _)
      · intro k j hk
        simp only [hv] at hk
        simp only [Mem.store_top]
        rw [if_neg (by simp)]
        by_cases h : k ≤ s.ver / 2
        · rw [hP _ _ h]; exact hi.ptop k j h
        · obtain rfl : k = s.ver / 2 + 1 := by omega
          simp
      · intro k j hk
        simp only [hv] at hk
        simp only [hv]
        rw [Mem.store_ne _ (by simp)]
        by_cases h : k ≤ s.ver / 2
        · rw [hP _ _ h, upd_ne _ _ (by omega)]; exact hi.snap k j h
        · obtain rfl : k = s.ver / 2 + 1 := by omega
          rw [upd_same, upd_same]
          exact hi.data j
      · intro j
        simp only
        rw [Mem.store_ne _ (by simp)]
        exact hi.data j
      · intro k j i hk h1 h2
        simp only [hv] at hk
        simp only [Mem.store_top] at h2
        rw [if_neg (by simp)] at h2
        simp only
        rw [Mem.store_ne _ (by simp)]
        by_cases h : k ≤ s.ver / 2
        · rw [hP _ _ h] at h1; exact hi.new k j i h h1 h2
        · obtain rfl : k = s.ver / 2 + 1 := by omega
          rw [upd_same] at h1
          omega
      · intro h; cases h
      · intro j
        simp only [Th.store, Th.fenceStore]
        rw [upd_ne _ _ (by simp)]
        exact hi.wwr j
      · intro j
        simp only [hv, upd_same, Th.store, Th.fenceStore]
        exact Nat.le_trans (hi.wwr j) (le_join_right _ _ _)
      · intro r
        have := hi.rd r
        simp only [hv]
        cases hp : s.pc r <;> rw [hp] at this
        · trivial
        · exact this
        · obtain ⟨h1, h2, h3, h4, h5, h6⟩ := this
          refine ⟨h1, h2, Nat.le_succ_of_le h3, h4, fun j => ?_, fun p hm => ?_⟩
          · rw [hP _ _ (by omega)]; exact h5 j
          · simp only
            rw [upd_ne _ _ (by omega)]
            exact h6 p hm
        · obtain ⟨h1, h2, h3, h4, h6⟩ := this
          refine ⟨h1, h2, Nat.le_succ_of_le h3, h4, fun p hm => ?_⟩
          simp only
          rw [upd_ne _ _ (by omega)]
          exact h6 p hm
        · trivial
    · cases hs
  | rbegin r =>
    simp only [step] at hs
    split at hs
    · cases hs
      refine ⟨P, hi.top, hi.par, hi.val, hi.seqv, hi.ptop, hi.snap, hi.data, hi.new, hi.wrel, hi.wwr, hi.wp, fun u => ?_⟩
      simp only
      by_cases hu : u = r
      · subst hu; rw [upd_same]; simp only [RI, upd_same]
      · rw [upd_ne _ _ hu]
        have := hi.rd u
        cases hp : s.pc u <;> rw [hp] at this <;> simpa only [RI, upd_ne _ _ hu] using this
    · cases hs
  | load r i =>
    simp only [step] at hs
    split at hs
    · next hc =>
      obtain ⟨hp, hm1, hm2⟩ := hc
      rw [hi.top] at hm2
      have hlog := hi.rd r
      rw [hp] at hlog
      split at hs
      · next he =>
        cases hs
        refine ⟨P, hi.top, hi.par, hi.val, hi.seqv, hi.ptop, hi.snap, hi.data, hi.new, hi.wrel, hi.wwr, hi.wp, fun u => ?_⟩
        simp only
        by_cases hu : u = r
        · subst hu
          rw [upd_same]
          have hval := hi.val i hm2
          refine ⟨hval, ?_, hm2, ?_, fun j => ?_, fun p hmem => ?_⟩
          · rw [hval] at he
            have : 2 ∣ 2 ^ w := by
              cases w with
              | zero => omega
              | succ k => exact ⟨2 ^ k, by rw [Nat.pow_succ, Nat.mul_comm]⟩
            rwa [Nat.mod_mod_of_dvd _ this] at he
          · simp only [upd_same, opt, real, if_true]
            exact Nat.le_trans (Th.load_at _ _ _ _) (le_join_left _ _ _)
          · simp only [upd_same, opt, real, if_true]
            exact Nat.le_trans (Nat.le_trans (hi.seqv i j hm2) (Th.load_view_le _ _ _ _ _)) (le_join_right _ _ _)
          · rw [show s.log u = [] from hlog] at hmem
            cases hmem
        · rw [upd_ne _ _ hu]
          have := hi.rd u
          cases hp : s.pc u <;> rw [hp] at this <;> simpa only [RI, upd_ne _ _ hu] using this
      · cases hs
        refine ⟨P, hi.top, hi.par, hi.val, hi.seqv, hi.ptop, hi.snap, hi.data, hi.new, hi.wrel, hi.wwr, hi.wp, fun u => ?_⟩
        simp only
        by_cases hu : u = r
        · subst hu
          rw [hp]
          exact hlog
        · have := hi.rd u
          cases hp : s.pc u <;> rw [hp] at this <;> simpa only [RI, upd_ne _ _ hu] using this
    · cases hs
  | read r j i =>
    simp only [step] at hs
    cases hp : s.pc r <;> simp only [hp] at hs <;> try (cases hs; done)
    next v b =>
    split at hs
    · next hm =>
      obtain ⟨hm1, hm2⟩ := hm
      cases hs
      refine ⟨P, hi.top, hi.par, hi.val, hi.seqv, hi.ptop, hi.snap, hi.data, hi.new, hi.wrel, hi.wwr, hi.wp, fun u => ?_⟩
      simp only
      by_cases hu : u = r
      · subst hu
        have := hi.rd u
        rw [hp] at this ⊢
        obtain ⟨h1, h2, h3, h4, h5, h6⟩ := this
        refine ⟨h1, h2, h3, ?_, fun j' => ?_, fun p hmem => ?_⟩
        · simp only [upd_same]; exact Nat.le_trans h4 (Th.load_cur_le _ _ _ _ _)
        · simp only [upd_same]; exact Nat.le_trans (h5 j') (Th.load_cur_le _ _ _ _ _)
        · simp only [upd_same] at hmem ⊢
          rcases List.mem_cons.1 hmem with rfl | hmem
          · simp only
            by_cases he : i = P (b / 2) j
            · left
              rw [he]
              exact (hi.snap (b / 2) j (by omega)).symm
            · right
              have := hi.new (b / 2) j i (by omega) (by have := h5 j; omega) hm2
              have := Th.load_view_le (s.rd u) s.mem (some j) i none
              omega
          · rcases h6 p hmem with h | h
            · exact .inl h
            · exact .inr (Nat.lt_of_lt_of_le h (Th.load_acq_le _ _ _ _ _))
      · have := hi.rd u
        cases hp : s.pc u <;> rw [hp] at this <;> simpa only [RI, upd_ne _ _ hu] using this
    · cases hs
  | fence r =>
    simp only [step] at hs
    cases hp : s.pc r <;> simp only [hp] at hs <;> try (cases hs; done)
    next v b =>
    cases hs
    refine ⟨P, hi.top, hi.par, hi.val, hi.seqv, hi.ptop, hi.snap, hi.data, hi.new, hi.wrel, hi.wwr, hi.wp, fun u => ?_⟩
    simp only
    by_cases hu : u = r
    · subst hu
      have := hi.rd u
      rw [hp] at this
      rw [upd_same]
      obtain ⟨h1, h2, h3, h4, h5, h6⟩ := this
      refine ⟨h1, h2, h3, ?_, fun p hmem => ?_⟩
      · simp only [upd_same, opt, real, if_true]
        exact Nat.le_trans h4 (le_join_left _ _ _)
      · simp only [upd_same, opt, real, if_true]
        rcases h6 p hmem with h | h
        · exact .inl h
        · exact .inr (Nat.lt_of_lt_of_le h (le_join_right _ _ _))
    · rw [upd_ne _ _ hu]
      have := hi.rd u
      cases hp : s.pc u <;> rw [hp] at this <;> simpa only [RI, upd_ne _ _ hu] using this
  | retry r i =>
    simp only [step] at hs
    cases hp : s.pc r <;> simp only [hp] at hs <;> try (cases hs; done)
    next v b =>
    split at hs
    · split at hs
      · cases hs
        refine ⟨P, hi.top, hi.par, hi.val, hi.seqv, hi.ptop, hi.snap, hi.data, hi.new, hi.wrel, hi.wwr, hi.wp, fun u => ?_⟩
        simp only
        by_cases hu : u = r
        · subst hu; rw [upd_same]; simp only [RI, upd_same]
        · rw [upd_ne _ _ hu]
          have := hi.rd u
          cases hp : s.pc u <;> rw [hp] at this <;> simpa only [RI, upd_ne _ _ hu] using this
      · cases hs
        refine ⟨P, hi.top, hi.par, hi.val, hi.seqv, hi.ptop, hi.snap, hi.data, hi.new, hi.wrel, hi.wwr, hi.wp, fun u => ?_⟩
        simp only
        by_cases hu : u = r
        · subst hu; rw [upd_same]; trivial
        · rw [upd_ne _ _ hu]
          have := hi.rd u
          cases hp : s.pc u <;> rw [hp] at this <;> simpa only [RI, upd_ne _ _ hu] using this
    · cases hs
  | leave r =>
    simp only [step] at hs
    cases hp : s.pc r <;> simp only [hp] at hs <;> try (cases hs; done)
    cases hs
    refine ⟨P, hi.top, hi.par, hi.val, hi.seqv, hi.ptop, hi.snap, hi.data, hi.new, hi.wrel, hi.wwr, hi.wp, fun u => ?_⟩
    simp only
    by_cases hu : u = r
    · subst hu; rw [upd_same]; trivial
    · rw [upd_ne _ _ hu]
      have := hi.rd u
      cases hp : s.pc u <;> rw [hp] at this <;> simpa only [RI, upd_ne _ _ hu] using this

theorem inv_reach (hw : 0 < w) {s : St n} (h : (sys w real n).Reach s) : ∃ P, Inv w s P := by
  refine h.invariant (I := fun s => ∃ P, Inv w s P) ?_ (fun _ _ _ ⟨P, hi⟩ hs => inv_step hw hi hs)
  rintro s ⟨d, rfl⟩
  refine ⟨fun _ _ => 0, rfl, rfl, ?_, ?_, ?_, ?_, ?_, ?_, ?_, ?_, ?_, ?_⟩
  · intro k hk
    obtain rfl : k = 0 := Nat.le_zero.1 hk
    simp [initSt, Mem.init]
  · intro k j _; exact Nat.zero_le _
  · intro k j _; exact Nat.zero_le _
  · intro k j _; rfl
  · intro j; rfl
  · intro k j i _ h1 h2
    simp only [initSt, Mem.init] at h2
    omega
  · intro h; cases h
  · intro j; exact Nat.zero_le _
  · intro j; exact Nat.zero_le _
  · intro r; trivial

/-! ## Properties -/

/-- C69: if `ck_sequence_read_retry` returns false, and fewer than `2 ^ w` stores to the sequence word happened since the
version was read, everything loaded in the section is the data as some one write section left them, and no older than what
the reader had seen before. -/
theorem accepted_consistent (hw : 0 < w) {s s' : St n} (h : (sys w real n).Reach s) {r : Fin n} {i b : Nat}
    (hs : (sys w real n).step s (.retry r i) = some s') (ha : s'.pc r = .accepted b) (hwrap : s.ver - b < 2 ^ w) :
    b % 2 = 0 ∧ ∀ p, p ∈ s'.log r → p.2 = s'.snap (b / 2) p.1 := by
  obtain ⟨P, hi⟩ := inv_reach hw h
  simp only [sys, step] at hs
  cases hp : s.pc r <;> simp only [hp] at hs <;> try (cases hs; done)
  next v b' =>
  have hr := hi.rd r
  rw [hp] at hr
  obtain ⟨h1, h2, h3, h4, h5⟩ := hr
  split at hs
  · next hm =>
    obtain ⟨hm1, hm2⟩ := hm
    rw [hi.top] at hm2
    split at hs
    · cases hs; simp at ha
    · next hv =>
      cases hs
      simp only [upd_same, PC.accepted.injEq] at ha
      subst ha
      simp only [ne_eq, Decidable.not_not] at hv
      rw [hi.val i hm2, h1] at hv
      have hib : i = b' := by
        have e1 := Nat.div_add_mod i (2 ^ w)
        have e2 := Nat.div_add_mod b' (2 ^ w)
        have hle := Nat.div_le_div_right (c := 2 ^ w) (Nat.le_trans h4 hm1)
        have h3 : i / 2 ^ w = b' / 2 ^ w := by
          refine Decidable.byContradiction fun hne => ?_
          have := Nat.mul_le_mul_left (2 ^ w) (show b' / 2 ^ w + 1 ≤ i / 2 ^ w by omega)
          rw [Nat.mul_add] at this
          omega
        rw [h3] at e1
        omega
      refine ⟨h2, fun p hmem => ?_⟩
      rcases h5 p hmem with h | h
      · exact h
      · omega
  · cases hs

/-- What `snap` stands for: the data at the end of the write section. -/
theorem snap_wend {fc : Fences} {s s' : St n} (hs : (sys w fc n).step s .wend = some s') :
    s'.snap (s'.ver / 2) = s.data ∧ s'.data = s.data := by
  simp only [sys, step] at hs
  split at hs
  · cases hs; simp
  · cases hs

/-- A reader never goes back: the version it reads is not older than what it knew. -/
theorem begin_not_older {fc : Fences} {s s' : St n} {r : Fin n} {i v b : Nat}
    (hs : (sys w fc n).step s (.load r i) = some s') (ha : s'.pc r = .sect v b) : (s.rd r).cur none ≤ b := by
  simp only [sys, step] at hs
  split at hs
  · next hc =>
    split at hs
    · cases hs
      simp only [upd_same, PC.sect.injEq] at ha
      rw [← ha.2]
      exact hc.2.1
    · cases hs
      rw [hc.1] at ha
      cases ha
  · cases hs

/-! ## Each of the four fences is needed -/

/-- A run that accepts a torn pair: the two words are always stored together with equal values. -/
def torn (w : Nat) (fc : Fences) (as : List (Act 1)) : Bool :=
  ((sys w fc 1).run (initSt 1 fun _ => 0) as).any fun s =>
    decide (s.pc 0 = .accepted 0 ∨ s.pc 0 = .accepted 2) && decide (s.log 0 = [(1, 1), (0, 0)] ∨ s.log 0 = [(1, 0), (0, 1)])

theorem no_fence_write_begin : torn 32 { real with writeBegin := false }
    [.rbegin 0, .load 0 0, .wbegin, .store 0 1, .store 1 1, .read 0 0 0, .read 0 1 1, .fence 0, .retry 0 0] = true := by
  decide +kernel

theorem no_fence_read_retry : torn 32 { real with readRetry := false }
    [.rbegin 0, .load 0 0, .wbegin, .store 0 1, .store 1 1, .read 0 0 0, .read 0 1 1, .fence 0, .retry 0 0] = true := by
  decide +kernel

theorem no_fence_read_begin : torn 32 { real with readBegin := false }
    [.wbegin, .store 0 1, .store 1 1, .wend, .rbegin 0, .load 0 2, .read 0 0 1, .read 0 1 0, .fence 0, .retry 0 2] = true := by
  decide +kernel

theorem no_fence_write_end : torn 32 { real with writeEnd := false }
    [.wbegin, .store 0 1, .store 1 1, .wend, .rbegin 0, .load 0 2, .read 0 0 1, .read 0 1 0, .fence 0, .retry 0 2] = true := by
  decide +kernel

/-- A reader that loads stale values and is overlapped by a writer repeats its section, then accepts. -/
example : ((sys 32 real 1).run (initSt 1 fun _ => 0)
    [.rbegin 0, .load 0 0, .wbegin, .store 0 1, .store 1 1, .read 0 0 0, .read 0 1 1, .fence 0, .retry 0 1, .wend,
      .load 0 2, .read 0 1 1, .read 0 0 1, .fence 0, .retry 0 2]).map (fun s => (s.pc 0, s.log 0)) =
    some (.accepted 2, [(0, 1), (1, 1)]) := by decide +kernel

end Verif.Weak.Sequence
