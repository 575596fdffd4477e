import Verif.Ring.Thm
import Mathlib.Order.Interval.Finset.Nat

/-! # `ck_ring`: reservations, sizes, recovery -/

namespace Verif.Ring

open Verif Verif.Lin

variable {L n : Nat} {B : Type} {cfg : Cfg n} {Q0 : List (Val L B)}

/-! ## Every reserved slot has a thread filling it -/

def Full (s : St L n B) : Prop := ∀ j, s.PT ≤ j → j < s.PH → ∃ t, own (s.th t) = true ∧ s.gp t = j

theorem Full.keep {s s' : St L n B} (h : Full s) {t : Fin n} {pc : PC L B} (hth : s'.th = upd s.th t pc)
    (ho : own (s.th t) = true → own pc = true ∧ s'.gp t = s.gp t)
    (hgp : ∀ u, u ≠ t → s'.gp u = s.gp u) (hPT : s'.PT = s.PT) (hPH : s'.PH = s.PH) : Full s' := by
  intro j h1 h2
  obtain ⟨u, hu, hg⟩ := h j (by omega) (by omega)
  by_cases e : u = t
  · subst e
    exact ⟨u, by rw [hth, upd_same]; exact (ho hu).1, by rw [(ho hu).2, hg]⟩
  · exact ⟨u, by rw [hth, upd_ne _ _ e]; exact hu, by rw [hgp u e, hg]⟩

theorem Full.reserve {s s' : St L n B} (h : Full s) {t : Fin n} {pc : PC L B} (hth : s'.th = upd s.th t pc)
    (ho : own (s.th t) = false) (ho' : own pc = true) (hg : s'.gp t = s.PH)
    (hgp : ∀ u, u ≠ t → s'.gp u = s.gp u) (hPT : s'.PT = s.PT) (hPH : s'.PH = s.PH + 1) : Full s' := by
  intro j h1 h2
  by_cases hj : j = s.PH
  · exact ⟨t, by rw [hth, upd_same]; exact ho', by rw [hg, hj]⟩
  · obtain ⟨u, hu, hg⟩ := h j (by omega) (by omega)
    have e : u ≠ t := fun e => by subst e; rw [ho] at hu; cases hu
    exact ⟨u, by rw [hth, upd_ne _ _ e]; exact hu, by rw [hgp u e, hg]⟩

theorem Full.commit {s s' : St L n B} (h : Full s) {t : Fin n} {pc : PC L B} (hth : s'.th = upd s.th t pc)
    (hg : s.gp t = s.PT) (hgp : s'.gp = s.gp) (hPT : s'.PT = s.PT + 1) (hPH : s'.PH = s.PH) : Full s' := by
  intro j h1 h2
  obtain ⟨u, hu, hg'⟩ := h j (by omega) (by omega)
  have e : u ≠ t := fun e => by subst e; omega
  exact ⟨u, by rw [hth, upd_ne _ _ e]; exact hu, by rw [hgp, hg']⟩

theorem Full.step (hk : cfg.k ≤ 31) {s s' : St L n B} (hI : Inv cfg s) (hf : Fresh s) (h : Full s)
    {a : Act L n B} (hs : Ring.step cfg s a = some s') : Full s' := by
  cases a with
  | call t o =>
    simp only [Ring.step] at hs
    split at hs
    · next hp =>
      have key : ∀ pc : PC L B, s' = { s with th := upd s.th t pc } → Full s' := by
        rintro pc rfl
        exact h.keep rfl (by rw [hp]; intro h; cases h) (fun _ _ => rfl) rfl rfl
      cases o <;> simp only at hs <;> split at hs
      · split at hs
        · cases hs; exact key _ rfl
        · cases hs
      · cases hs; exact key _ rfl
      · split at hs
        · cases hs; exact key _ rfl
        · cases hs
      · cases hs; exact key _ rfl
      · cases hs
      · cases hs; exact key _ rfl
    · cases hs
  | ret t =>
    simp only [Ring.step] at hs
    split at hs
    · next r hp => cases hs; exact h.keep rfl (by rw [hp]; intro h; cases h) (fun _ _ => rfl) rfl rfl
    · cases hs
  | run t =>
    have hl := hI.loc t
    simp only [Ring.step, Ring.run] at hs
    cases hp : s.th t with
    | idle => rw [hp] at hs; cases hs
    | ret r => rw [hp] at hs; cases hs
    | spLoad v =>
      simp only [hp] at hs hl
      split at hs
      · cases hs; exact h.keep rfl (by rw [hp]; intro h; cases h) (fun _ _ => rfl) rfl rfl
      · cases hs
        exact h.reserve rfl (by rw [hp]; rfl) rfl (by simp only [upd_same]; rw [hI.spq t hl (by rw [hp]; rfl)])
          (fun u hu => upd_ne _ _ hu) rfl rfl
    | mpLoad v =>
      simp only [hp] at hs; cases hs
      exact h.keep rfl (by rw [hp]; intro h; cases h) (fun u hu => upd_ne _ _ hu) rfl rfl
    | mpC v p =>
      simp only [hp] at hs; cases hs
      exact h.keep rfl (by rw [hp]; intro h; cases h) (fun u hu => rfl) rfl rfl
    | mpCas v p c =>
      simp only [hp] at hs hl
      have hsn := (hf t).2 (by rw [hp]; rfl)
      split at hs
      · next hw =>
        cases hs
        refine h.reserve rfl (by rw [hp]; rfl) rfl ?_ (fun u hu => rfl) rfl rfl
        rw [hI.wh hl.1, hl.2.1] at hw
        exact ofNat_inj hw.symm hl.2.2.1 hsn
      · cases hs
        exact h.keep rfl (by rw [hp]; intro h; cases h) (fun u hu => upd_ne _ _ hu) rfl rfl
    | mpRe v p c =>
      simp only [hp] at hs
      split at hs
      · cases hs; exact h.keep rfl (by rw [hp]; intro h; cases h) (fun u hu => rfl) rfl rfl
      · cases hs
        exact h.keep rfl (by rw [hp]; intro h; cases h) (fun u hu => upd_ne _ _ hu) rfl rfl
    | wr v p sz j =>
      simp only [hp] at hs
      split at hs
      · cases hs; exact h.keep rfl (fun _ => ⟨rfl, rfl⟩) (fun u hu => rfl) rfl rfl
      · split at hs
        · cases hs; exact h.keep rfl (fun _ => ⟨rfl, rfl⟩) (fun u hu => rfl) rfl rfl
        · cases hs; exact h.keep rfl (fun _ => ⟨rfl, rfl⟩) (fun u hu => rfl) rfl rfl
    | wait v p sz =>
      simp only [hp] at hs
      split at hs
      · cases hs; exact h.keep rfl (fun _ => ⟨rfl, rfl⟩) (fun u hu => rfl) rfl rfl
      · cases hs; exact h
    | commit v p sz =>
      simp only [hp] at hs hl; cases hs
      exact h.commit rfl hl.2.1 rfl rfl rfl
    | scLoad d =>
      simp only [hp] at hs
      split at hs
      · cases hs; exact h.keep rfl (by rw [hp]; intro h; cases h) (fun u hu => rfl) rfl rfl
      · cases hs; exact h.keep rfl (by rw [hp]; intro h; cases h) (fun u hu => rfl) rfl rfl
    | mcLoad b d =>
      simp only [hp] at hs; cases hs
      exact h.keep rfl (by rw [hp]; intro h; cases h) (fun u hu => rfl) rfl rfl
    | mcP b d c =>
      simp only [hp] at hs
      split at hs
      · cases hs; exact h.keep rfl (by rw [hp]; intro h; cases h) (fun u hu => rfl) rfl rfl
      · cases hs; exact h.keep rfl (by rw [hp]; intro h; cases h) (fun u hu => rfl) rfl rfl
    | cp m d c j =>
      simp only [hp] at hs
      split at hs
      · cases hs; exact h.keep rfl (by rw [hp]; intro h; cases h) (fun u hu => rfl) rfl rfl
      · split at hs
        · cases hs; exact h.keep rfl (by rw [hp]; intro h; cases h) (fun u hu => rfl) rfl rfl
        · cases hs; exact h.keep rfl (by rw [hp]; intro h; cases h) (fun u hu => rfl) rfl rfl
    | scStore d c =>
      simp only [hp] at hs; cases hs
      exact h.keep rfl (by rw [hp]; intro h; cases h) (fun u hu => rfl) rfl rfl
    | mcCas b d c =>
      simp only [hp] at hs
      split at hs
      · cases hs; exact h.keep rfl (by rw [hp]; intro h; cases h) (fun u hu => rfl) rfl rfl
      · split at hs
        · cases hs; exact h.keep rfl (by rw [hp]; intro h; cases h) (fun u hu => rfl) rfl rfl
        · cases hs; exact h.keep rfl (by rw [hp]; intro h; cases h) (fun u hu => rfl) rfl rfl

theorem full (hk : cfg.k ≤ 31) {s0 s : St L n B} (h0 : Start cfg Q0 s0) (h : (sysF cfg s0).Reach s) :
    Full s := by
  induction h with
  | init h => rw [h]; intro j h1 h2; rw [h0.eq] at h2; omega
  | @step s s' a hr hs ih =>
    simp only [sysF] at hs
    split at hs
    · next hf => exact Full.step hk (inv hk h0 hr) hf ih hs
    · cases hs

/-- The threads that hold a reserved, not yet committed slot. -/
def writers (s : St L n B) : Finset (Fin n) := Finset.univ.filter fun t => own (s.th t) = true

theorem writers_card {s : St L n B} (hI : Inv cfg s) (hF : Full s) : (writers s).card = s.PH - s.PT := by
  rw [← Nat.card_Ico s.PT s.PH]
  refine Finset.card_bij (fun t _ => s.gp t) ?_ ?_ ?_
  · intro t ht
    obtain ⟨p, sz, hO⟩ := (hI.loc t).toOwn (by simpa [writers] using ht)
    exact Finset.mem_Ico.2 ⟨hO.2.1, hO.2.2.1⟩
  · intro t ht u hu he
    exact hI.uniq t u (by simpa [writers] using ht) (by simpa [writers] using hu) he
  · intro j hj
    rw [Finset.mem_Ico] at hj
    obtain ⟨t, h1, h2⟩ := hF j hj.1 hj.2
    exact ⟨t, by simpa [writers] using h1, h2⟩

/-- `occ` changes only when its thread loads `c_head` during an enqueue, and then records the number of
entries in the queue plus the number of slots held by other enqueues. -/
theorem occ_recorded (hk : cfg.k ≤ 31) {s0 s s' : St L n B} (h0 : Start cfg Q0 s0)
    (h : (sysF cfg s0).Reach s) {a : Act L n B} (hs : (sysF cfg s0).step s a = some s') {t : Fin n}
    (ho : s'.occ t ≠ s.occ t) :
    a = .run t ∧ (∃ v, view (s.th t) = .pend (.enq v)) ∧
      s'.occ t = (contents s).length + (writers s).card := by
  have hI := inv hk h0 h
  have hw := writers_card hI (full hk h0 h)
  have hsum : s.PH - s.C = (contents s).length + (writers s).card := by
    rw [hw, contents_length]; have := hI.ct; have := hI.tp; omega
  simp only [sysF] at hs
  split at hs
  · cases a with
    | call u o =>
      simp only [Ring.step] at hs
      split at hs
      · cases o <;> simp only at hs <;> split at hs <;>
          first
            | (cases hs; exact absurd rfl ho)
            | (split at hs <;> cases hs; exact absurd rfl ho)
            | cases hs
      · cases hs
    | ret u =>
      simp only [Ring.step] at hs
      split at hs <;> cases hs
      exact absurd rfl ho
    | run u =>
      simp only [Ring.step, Ring.run] at hs
      cases hp : s.th u <;> simp only [hp] at hs
      case spLoad v =>
        have : u = t := by
          by_contra hne
          split at hs <;> cases hs <;> exact ho (upd_ne _ _ (Ne.symm hne))
        subst this
        refine ⟨rfl, ⟨v, by rw [hp]; rfl⟩, ?_⟩
        rw [← hsum]
        split at hs <;> cases hs <;> simp
      case mpC v p =>
        have : u = t := by
          by_contra hne
          cases hs; exact ho (upd_ne _ _ (Ne.symm hne))
        subst this
        refine ⟨rfl, ⟨v, by rw [hp]; rfl⟩, ?_⟩
        rw [← hsum]
        cases hs; simp
      all_goals
        first
          | cases hs; exact absurd rfl ho
          | (split at hs <;> cases hs <;> exact absurd rfl ho)
          | (split at hs <;> [skip; split at hs] <;> cases hs <;> exact absurd rfl ho)
          | cases hs
  · cases hs

/-- **C30.**  An enqueue that reports full did so because at the instant it last looked at `c_head`, the
entries in the queue and the slots held by other enqueues filled the ring; one that succeeds returns in
`*size` the number of filled or reserved slots at that instant. -/
theorem mp_fail_full (hk : cfg.k ≤ 31) {s0 s : St L n B} (h0 : Start cfg Q0 s0)
    (h : (sysF cfg s0).Reach s) {t : Fin n} {ok : Bool} {sz : BitVec 32}
    (hp : s.th t = .ret (.enq ok sz)) :
    sz.toNat = s.occ t ∧ (ok = false → s.occ t = 2 ^ cfg.k - 1) ∧ (ok = true → s.occ t < 2 ^ cfg.k - 1) := by
  have := (inv hk h0 h).loc t
  rw [hp] at this
  exact this

/-- A `trydequeue` whose compare-and-swap fails was overtaken: since it read `c_head` another consumer has
taken an entry. -/
theorem try_fail_overtaken (hk : cfg.k ≤ 31) {s0 s : St L n B} (h0 : Start cfg Q0 s0)
    (h : (sysF cfg s0).Reach s) {t : Fin n} {b : Bool} {d : Val L B} {c : BitVec 32}
    (hp : s.th t = .mcCas b d c) (hc : s.c_head ≠ c) : s.gc t < s.C := by
  have hI := inv hk h0 h
  have := hI.loc t
  rw [hp] at this
  obtain ⟨-, l2, l3, -⟩ := this
  rcases Nat.lt_or_ge (s.gc t) s.C with h | h
  · exact h
  · exact absurd (by rw [hI.wc, l2, show s.gc t = s.C by omega]) hc

/-- A producer waiting for its turn to commit waits for another producer that is itself not waiting. -/
theorem commit_not_stuck (hk : cfg.k ≤ 31) {s0 s : St L n B} (h0 : Start cfg Q0 s0)
    (h : (sysF cfg s0).Reach s) {t : Fin n} {v : Val L B} {p sz : BitVec 32} (hp : s.th t = .wait v p sz)
    (hw : s.p_tail ≠ p) :
    ∃ u, u ≠ t ∧ own (s.th u) = true ∧ s.gp u = s.PT ∧
      ∀ v' p' sz', s.th u = .wait v' p' sz' → s.p_tail = p' := by
  have hI := inv hk h0 h
  have hl := hI.loc t
  rw [hp] at hl
  obtain ⟨⟨o1, o2, o3, -⟩, -, -⟩ := hl
  obtain ⟨u, h1, h2⟩ := full hk h0 h s.PT (Nat.le_refl _) (by omega)
  refine ⟨u, ?_, h1, h2, ?_⟩
  · rintro rfl
    exact hw (by rw [hI.wt, o1, h2])
  · intro v' p' sz' hp'
    have hl := hI.loc u
    rw [hp'] at hl
    rw [hI.wt, hl.1.1, h2]

/-- `ck_ring_size` (evaluated in one state) is the number of entries in the queue. -/
theorem size_eq (hk : cfg.k ≤ 31) {s0 s : St L n B} (h0 : Start cfg Q0 s0)
    (h : (sysF cfg s0).Reach s) : (size cfg s).toNat = (contents s).length := by
  have hI := inv hk h0 h
  have := hI.tp; have := hI.cap
  rw [size, hI.wt, hI.wc, sub_mask cfg hk hI.ct (by omega), contents_length]

/-! ## Crash recovery -/

/-- All threads stop wherever they are; `ck_ring_repair` runs.  The words and the buffer are those left
by `repair`; the ghost history is extended by whatever the reserved slots hold. -/
def recover (cfg : Cfg n) (s : St L n B) : St L n B :=
  { (repair s).2 with th := fun _ => .idle, PT := s.PH
                      item := fun j => if j < s.PT then s.item j else s.buf (j % 2 ^ cfg.k) }

/-- **C31.**  After a crash of all threads at any point of any execution of a multi-producer ring,
`ck_ring_repair` leaves a quiescent ring whose content is everything committed and not consumed, in
order, followed by one (possibly garbage) entry per outstanding reservation; so all theorems about
executions from a quiescent ring (`linearizable`) apply to what follows.  It reports whether there was
an outstanding reservation. -/
theorem repair_recovers (hk : cfg.k ≤ 31) (hm : cfg.sp = none) {s0 s : St L n B} (h0 : Start cfg Q0 s0)
    (h : (sysF cfg s0).Reach s) :
    (∃ extra, extra.length = (writers s).card ∧ Start cfg (contents s ++ extra) (recover cfg s)) ∧
      ((repair s).1 = true ↔ writers s ≠ ∅) := by
  have hI := inv hk h0 h
  have hw := writers_card hI (full hk h0 h)
  have h1 := hI.ct; have h2 := hI.tp; have h3 := hI.cap
  have hpl := pow_le hk
  have hph : (repair s).2.p_tail = s.p_head := by
    unfold repair; split
    · rfl
    · next h => simpa using h
  have hc : (repair s).2.c_head = s.c_head := by unfold repair; split <;> rfl
  have hhd : (repair s).2.p_head = s.p_head := by unfold repair; split <;> rfl
  have hC : (repair s).2.C = s.C := by unfold repair; split <;> rfl
  have hPH : (repair s).2.PH = s.PH := by unfold repair; split <;> rfl
  have hbuf : (repair s).2.buf = s.buf := by unfold repair; split <;> rfl
  constructor
  · refine ⟨(List.range (s.PH - s.PT)).map fun i => s.buf ((s.PT + i) % 2 ^ cfg.k), by simp [hw], ?_⟩
    constructor
    · intro t; rfl
    · simp only [recover, hc, hC]; exact hI.wc
    · simp only [recover, hph]; exact hI.wh hm
    · intro _; simp only [recover, hhd, hPH]; exact hI.wh hm
    · simp only [recover, hPH]
    · simp only [recover, hC]; omega
    · simp only [recover, hC]; exact h3
    · intro j hj1 hj2
      simp only [recover, hC] at hj1 hj2
      simp only [recover, hbuf]
      split
      · next hj => exact hI.slots j hj1 hj
      · rfl
    · simp only [contents, recover, hC]
      rw [show s.PH - s.C = (s.PT - s.C) + (s.PH - s.PT) by omega, List.range_add, List.map_append,
        List.map_map]
      congr 1
      · apply List.map_congr_left
        intro i hi
        rw [List.mem_range] at hi
        rw [if_pos (by omega)]
      · apply List.map_congr_left
        intro i _
        simp only [Function.comp]
        rw [if_neg (by omega), show s.C + (s.PT - s.C + i) = s.PT + i by omega]
  · have : (repair s).1 = true ↔ s.p_tail ≠ s.p_head := by
      unfold repair; split <;> simp_all
    rw [this, hI.wt, hI.wh hm, ← Finset.nonempty_iff_ne_empty, ← Finset.card_pos, hw]
    constructor
    · intro hne
      by_contra hc
      exact hne (by rw [show s.PT = s.PH by omega])
    · intro hlt he
      have := ofNat_inj he h2 (by omega)
      omega

/-- **C31.**  `ck_ring_valid` accepts every state of a multi-producer ring whose counters have not
wrapped. -/
theorem valid_accepts (hk : cfg.k ≤ 31) (hm : cfg.sp = none) {s0 s : St L n B} (h0 : Start cfg Q0 s0)
    (h : (sysF cfg s0).Reach s) (hw : s.PH < 2 ^ 32) : valid cfg s = true := by
  have hI := inv hk h0 h
  have h1 := hI.ct; have h2 := hI.tp; have h3 := hI.cap
  have hpl := pow_le hk
  have h2k : 1 ≤ 2 ^ cfg.k := Nat.one_le_two_pow
  have hsz : (BitVec.ofNat 32 (2 ^ cfg.k)).toNat = 2 ^ cfg.k := by
    rw [BitVec.toNat_ofNat]; exact Nat.mod_eq_of_lt (by omega)
  have a1 : BitVec.ofNat 32 (2 ^ cfg.k) &&& (BitVec.ofNat 32 (2 ^ cfg.k) - 1#32) = 0#32 := by
    apply BitVec.eq_of_toNat_eq
    have := and_mask cfg hk (BitVec.ofNat 32 (2 ^ cfg.k))
    rw [hsz] at this
    simpa [Cfg.mask] using this
  have a2 : ¬ s.c_head > s.p_head := by
    rw [hI.wc, hI.wh hm]
    simp only [gt_iff_lt, BitVec.lt_def, BitVec.toNat_ofNat]; omega
  have a3 : ¬ s.p_head - s.c_head ≥ BitVec.ofNat 32 (2 ^ cfg.k) := by
    rw [hI.wc, hI.wh hm]
    simp only [ge_iff_le, BitVec.le_def, hsz, sub_ofNat (show s.C ≤ s.PH by omega) (by omega)]; omega
  simp only [valid]
  rw [if_neg (by simpa using a1), if_neg a2, if_neg a3]

end Verif.Ring
