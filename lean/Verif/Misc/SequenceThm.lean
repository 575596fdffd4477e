import Verif.Misc.Sequence

/-!
# `ck_sequence`: no torn snapshot is accepted (C22)
-/

set_option linter.unusedVariables false

namespace Verif.Sequence

open Verif

variable {w n : Nat} {V : Type}

theorem two_dvd (hw : 0 < w) : 2 ∣ 2 ^ w := by
  cases w with
  | zero => omega
  | succ j => exact ⟨2 ^ j, by rw [Nat.pow_succ, Nat.mul_comm]⟩

theorem even_iff (hw : 0 < w) (k : Nat) : BitVec.ofNat w k &&& 1 = 0 ↔ k % 2 = 0 := by
  have h1 : (1 : BitVec w).toNat = 1 := by
    have : 1 < 2 ^ w := Nat.one_lt_two_pow (by omega)
    simp [Nat.mod_eq_of_lt this]
  constructor
  · intro h
    have := congrArg BitVec.toNat h
    rw [BitVec.toNat_and, h1, Nat.and_one_is_mod] at this
    simp at this
    have h2 : k % 2 ^ w % 2 = k % 2 := Nat.mod_mod_of_dvd k (two_dvd hw)
    omega
  · intro h
    apply BitVec.eq_of_toNat_eq
    rw [BitVec.toNat_and, h1, Nat.and_one_is_mod]
    have h2 : k % 2 ^ w % 2 = k % 2 := Nat.mod_mod_of_dvd k (two_dvd hw)
    simp; omega

structure Inv (s : St w n V) : Prop where
  seq : s.seq = BitVec.ofNat w s.ver
  par : s.ver % 2 = s.writing.toNat
  bg : ∀ r, s.pc r = .begin → s.log r = []
  rd : ∀ r v, s.pc r = .sect v → v = BitVec.ofNat w (s.beg r) ∧ s.beg r ≤ s.ver ∧ s.beg r % 2 = 0 ∧
    (s.beg r = s.ver → ∀ p ∈ s.log r, s.mem p.1 = p.2)

theorem inv_step (hw : 0 < w) {s s' : St w n V} {a : Act n V} (hi : Inv s)
    (hs : step s a = some s') : Inv s' := by
  obtain ⟨h1, h2, h3, h4⟩ := hi
  have hpar : ∀ k, BitVec.ofNat w k &&& 1 = 0 ↔ k % 2 = 0 := even_iff hw
  cases a <;> simp only [step] at hs
  case wbegin =>
    step_split hs; next hb =>
    simp only [Bool.not_eq_true] at hb
    rw [hb] at h2; simp at h2
    refine ⟨by simp [h1, BitVec.ofNat_add], by simp; omega, h3, ?_⟩
    intro r v hr
    obtain ⟨a1, a2, a3, a4⟩ := h4 r v hr
    exact ⟨a1, by simp; omega, a3, fun h => by simp at h; omega⟩
  case store i v =>
    step_split hs; next hb =>
    rw [hb] at h2; simp at h2
    refine ⟨h1, by simp [hb]; omega, h3, ?_⟩
    intro r v hr
    obtain ⟨a1, a2, a3, a4⟩ := h4 r v hr
    exact ⟨a1, a2, a3, fun h => by simp only at h; omega⟩
  case wend =>
    step_split hs; next hb =>
    rw [hb] at h2; simp at h2
    refine ⟨by simp [h1, BitVec.ofNat_add], by simp; omega, h3, ?_⟩
    intro r v hr
    obtain ⟨a1, a2, a3, a4⟩ := h4 r v hr
    exact ⟨a1, by simp; omega, a3, fun h => by simp at h; omega⟩
  case rbegin r =>
    step_split hs
    refine ⟨h1, h2, ?_, ?_⟩
    · intro r'; simp only [upd_apply]; split
      · intro _; rfl
      · exact h3 r'
    · intro r' v hr
      simp only [upd_apply] at hr ⊢
      split at hr
      · cases hr
      · next e => simp only [if_neg e]; exact h4 r' v hr
  case load r =>
    step_split hs
    · next hp he =>
      refine ⟨h1, h2, ?_, ?_⟩
      · intro r'; simp only [upd_apply]; split
        · intro h; cases h
        · exact h3 r'
      intro r' v hr
      simp only [upd_apply] at hr ⊢
      split at hr
      · next e =>
        cases hr
        rw [h1, hpar] at he
        simp only [e, if_true]
        refine ⟨h1, Nat.le_refl _, he, fun _ p hm => ?_⟩
        rw [h3 r hp] at hm; cases hm
      · next e => simp only [if_neg e]; exact h4 r' v hr
    · exact ⟨h1, h2, h3, h4⟩
  case read r i =>
    cases hp : s.pc r <;> simp only [hp] at hs <;> cases hs
    next v =>
    refine ⟨h1, h2, ?_, ?_⟩
    · intro r' hr'; simp only [upd_apply]; split
      · next e => subst e; simp only [hp] at hr'; cases hr'
      · exact h3 r' hr'
    intro r' v' hr
    obtain ⟨a1, a2, a3, a4⟩ := h4 r' v' hr
    refine ⟨a1, a2, a3, fun hb p hm => ?_⟩
    simp only [upd_apply] at hm
    split at hm
    · next e =>
      subst e
      rcases List.mem_cons.1 hm with rfl | hm
      · rfl
      · exact a4 hb p hm
    · exact a4 hb p hm
  case retry r =>
    cases hp : s.pc r <;> simp only [hp] at hs
    case sect v =>
      step_split hs
      · refine ⟨h1, h2, ?_, ?_⟩
        · intro r'; simp only [upd_apply]; split
          · intro _; rfl
          · exact h3 r'
        intro r' v hr
        simp only [upd_apply] at hr ⊢
        split at hr
        · cases hr
        · next e => simp only [if_neg e]; exact h4 r' v hr
      · refine ⟨h1, h2, ?_, ?_⟩
        · intro r'; simp only [upd_apply]; split
          · intro h; cases h
          · exact h3 r'
        intro r' v hr
        simp only [upd_apply] at hr ⊢
        split at hr
        · cases hr
        · next e => exact h4 r' v hr
    all_goals cases hs
  case leave r =>
    step_split hs
    refine ⟨h1, h2, ?_, ?_⟩
    · intro r'; simp only [upd_apply]; split
      · intro h; cases h
      · exact h3 r'
    intro r' v hr
    simp only [upd_apply] at hr ⊢
    split at hr
    · cases hr
    · next e => exact h4 r' v hr

theorem inv_of_reach (hw : 0 < w) {s : St w n V} (h : (sys w n V).Reach s) : Inv s := by
  refine h.invariant (I := Inv) ?_ (fun _ _ _ => inv_step hw)
  rintro s ⟨m0, rfl⟩
  constructor <;> simp [initSt]

/-! ## Properties -/

/-- The claim of C22, about a state in which reader `r` calls read_retry: everything `r` has loaded in
this section is the current memory, and no write section is in progress. -/
def Consistent (s : St w n V) (r : Fin n) : Prop :=
  s.writing = false ∧ ∀ p ∈ s.log r, s.mem p.1 = p.2

/-- C22: if read_retry returns false and fewer than `2^(w-1)` complete write sections (`2^w` stores to
the sequence word) happened since read_begin, the section saw one consistent state. -/
theorem accepted_consistent (hw : 0 < w) {s s' : St w n V} (h : (sys w n V).Reach s) {r : Fin n}
    (hs : (sys w n V).step s (.retry r) = some s') (ha : s'.pc r = .accepted)
    (hwrap : s.ver - s.beg r < 2 ^ w) : Consistent s r := by
  have hi := inv_of_reach hw h
  simp only [sys, step] at hs
  cases hp : s.pc r <;> simp only [hp] at hs
  case sect v =>
    obtain ⟨a1, a2, a3, a4⟩ := hi.rd r v hp
    split at hs
    · cases hs; simp at ha
    · next he =>
      simp only [ne_eq, Decidable.not_not] at he
      rw [hi.seq, a1] at he
      have h1 := congrArg BitVec.toNat he
      simp only [BitVec.toNat_ofNat] at h1
      have h2 : s.beg r = s.ver := by
        have := Nat.div_add_mod s.ver (2 ^ w)
        have := Nat.div_add_mod (s.beg r) (2 ^ w)
        have h3 : s.ver / 2 ^ w = s.beg r / 2 ^ w := by
          have hle := Nat.div_le_div_right (c := 2 ^ w) a2
          refine Decidable.byContradiction fun hne => ?_
          have : s.beg r / 2 ^ w + 1 ≤ s.ver / 2 ^ w := by omega
          have := Nat.mul_le_mul_left (2 ^ w) this
          rw [Nat.mul_add] at this
          omega
        have h5 : 2 ^ w * (s.ver / 2 ^ w) = 2 ^ w * (s.beg r / 2 ^ w) := by rw [h3]
        omega
      have h3 := hi.par
      refine ⟨?_, a4 h2⟩
      cases hb : s.writing
      · rfl
      · rw [hb] at h3; simp at h3; omega
  all_goals cases hs

/-- C22: a section with no write section overlapping it is accepted. -/
theorem undisturbed_accepted (hw : 0 < w) {s : St w n V} (h : (sys w n V).Reach s) {r : Fin n}
    {v : BitVec w} (hp : s.pc r = .sect v) (hv : s.ver = s.beg r) :
    ∃ s', (sys w n V).step s (.retry r) = some s' ∧ s'.pc r = .accepted := by
  have hi := inv_of_reach hw h
  obtain ⟨a1, -⟩ := hi.rd r v hp
  refine ⟨{ s with pc := upd s.pc r .accepted }, ?_, by simp⟩
  simp only [sys, step, hp]
  rw [if_neg (by rw [hi.seq, a1, hv]; simp)]

/-- C22: read_begin leaves its loop exactly when no write section is in progress. -/
theorem begin_iff (hw : 0 < w) {s s' : St w n V} (h : (sys w n V).Reach s) {r : Fin n}
    (hs : (sys w n V).step s (.load r) = some s') :
    (∃ v, s'.pc r = .sect v) ↔ s.writing = false := by
  have hi := inv_of_reach hw h
  have hpar := even_iff hw s.ver
  rw [← hi.seq] at hpar
  have h2 := hi.par
  simp only [sys, step] at hs
  split at hs
  · next hp =>
    split at hs
    · next he =>
      cases hs
      rw [hpar] at he
      simp; cases hb : s.writing
      · rfl
      · rw [hb] at h2; simp at h2; omega
    · next he =>
      cases hs
      rw [hpar] at he
      simp only [hp]
      constructor
      · rintro ⟨v, hv⟩; cases hv
      · intro hb; rw [hb] at h2; simp at h2; omega
  · cases hs

/-- `ver` counts the stores to the sequence word: two per write section. -/
theorem ver_parity (hw : 0 < w) {s : St w n V} (h : (sys w n V).Reach s) :
    s.ver % 2 = s.writing.toNat := (inv_of_reach hw h).par

/-- The wrap hypothesis is needed: with a 2-bit sequence word, two write sections inside a read section
bring the word back and a torn pair (old word 0, new word 1) is accepted. -/
theorem wrap_torn : ∃ (s s' : St 2 1 Nat), (sys 2 1 Nat).Reach s ∧
    (sys 2 1 Nat).step s (.retry 0) = some s' ∧ s'.pc 0 = .accepted ∧ ¬ Consistent s 0 := by
  have hr : ((sys 2 1 Nat).run (initSt 2 1 (fun _ => 0)) [.rbegin 0, .load 0, .read 0 0,
      .wbegin, .store 0 1, .store 1 1, .wend, .wbegin, .wend, .read 0 1]).map
      (fun s => (s.pc 0, s.seq, s.log 0, s.mem 0)) = some (.sect 0, 0, [(1, 1), (0, 0)], 1) := by decide
  rw [Option.map_eq_some_iff] at hr
  obtain ⟨s, hs, he⟩ := hr
  simp only [Prod.mk.injEq] at he
  obtain ⟨e1, e2, e3, e4⟩ := he
  refine ⟨s, { s with pc := upd s.pc 0 .accepted }, Sys.Reach.of_run (.init ⟨_, rfl⟩) hs, ?_, by simp, ?_⟩
  · simp only [sys, step, e1]; rw [if_neg (by simp [e2])]
  · intro hc
    have := hc.2 (0, 0) (by rw [e3]; simp)
    simp only at this; omega

/-- A reader overlapped by a writer retries and then accepts, near the wrap position of a 3-bit word. -/
example : ((sys 3 1 Nat).run (initSt 3 1 (fun _ => 0)) [.wbegin, .wend, .wbegin, .wend, .wbegin, .wend,
    .rbegin 0, .load 0, .read 0 0, .wbegin, .store 0 1, .store 1 1, .wend, .read 0 1, .retry 0,
    .load 0, .read 0 0, .read 0 1, .retry 0]).map
    (fun s => (s.pc 0, s.seq, s.log 0)) = some (.accepted, 0, [(1, 1), (0, 1)]) := by decide

end Verif.Sequence
