import Verif.Spin.Anderson
import Verif.Core.Bits

/-!
# C04, C05: Anderson's array lock
-/

namespace Verif.Spin.Anderson

open Spec

/-! ## Index arithmetic -/

theorem and_c_toNat {c : Nat} (h0 : 0 < c) (hc : c < 2 ^ 32) :
    (BitVec.ofNat 32 c &&& (BitVec.ofNat 32 c - 1)).toNat = (c &&& (c - 1)) := by
  have h1 : (BitVec.ofNat 32 c - 1).toNat = c - 1 := by
    simp only [BitVec.toNat_sub, BitVec.toNat_ofNat]; simp; omega
  rw [BitVec.toNat_and, h1, BitVec.toNat_ofNat, Nat.mod_eq_of_lt hc]

theorem mask_toNat {c : Nat} (h0 : 0 < c) (hc : c < 2 ^ 32) : (mask c).toNat = c - 1 := by
  simp only [mask, BitVec.toNat_sub, BitVec.toNat_ofNat]; simp; omega

theorem pow2_of_wrap {c : Nat} (h0 : 0 < c) (hc : c < 2 ^ 32) (hw : wrap c = 0) :
    ∃ k, c = 2 ^ k := by
  apply pow2_of_and_sub_one h0
  rw [← and_c_toNat h0 hc]
  simp only [wrap] at hw
  split at hw
  · have h1 := congrArg BitVec.toNat hw
    have h2 : 4294967295 % c < c := Nat.mod_lt _ h0
    simp only [BitVec.toNat_add, BitVec.toNat_ofNat] at h1
    simp at h1
    omega
  · next h => simp only [ne_eq, Decidable.not_not] at h; rw [h]; rfl

theorem wrap_of_pow2 {c : Nat} (hc : c < 2 ^ 32) (h : ∃ k, c = 2 ^ k) : wrap c = 0 := by
  obtain ⟨k, rfl⟩ := h
  simp only [wrap]
  rw [if_neg]
  simp only [ne_eq, Decidable.not_not]
  apply BitVec.eq_of_toNat_eq
  rw [and_c_toNat (Nat.two_pow_pos k) hc, and_sub_one_of_pow2]; rfl

theorem dvd_of_pow2 {k : Nat} (hc : 2 ^ k < 2 ^ 32) : 2 ^ k ∣ 2 ^ 32 :=
  Nat.pow_dvd_pow 2 (by
    have := (Nat.pow_lt_pow_iff_right (a := 2) (by omega)).1 hc
    omega)

theorem and_mask {c : Nat} (h0 : 0 < c) (hc : c < 2 ^ 32) (hw : wrap c = 0) (x : BitVec 32) :
    (x &&& mask c).toNat = x.toNat % c := by
  obtain ⟨k, hk⟩ := pow2_of_wrap h0 hc hw
  rw [BitVec.toNat_and, mask_toNat h0 hc, hk, Nat.and_two_pow_sub_one_eq_mod]

theorem succ_mod_pow2 {c : Nat} (h0 : 0 < c) (hc : c < 2 ^ 32) (hw : wrap c = 0) (x : BitVec 32) :
    (x + 1).toNat % c = (x.toNat + 1) % c := by
  obtain ⟨k, hk⟩ := pow2_of_wrap h0 hc hw
  subst hk
  rw [BitVec.toNat_add]
  exact Nat.mod_mod_of_dvd _ (dvd_of_pow2 hc)

theorem bump_mod {c : Nat} (h0 : 0 < c) (hc : c < 2 ^ 32) (hw : wrap c ≠ 0) (p : BitVec 32) :
    (bump c p).toNat % c = (p.toNat + 1) % c := by
  have hlt : 4294967295 % c < c := Nat.mod_lt _ h0
  unfold bump
  split
  · next h =>
    subst h
    unfold wrap at hw ⊢
    split
    · have e : (BitVec.ofNat 32 ((2 ^ 32 - 1) % c) + 1).toNat = (2 ^ 32 - 1) % c + 1 := by
        simp only [BitVec.toNat_add, BitVec.toNat_ofNat]
        simp
        omega
      rw [e, Nat.mod_add_mod]
      rfl
    · next h => rw [if_neg h] at hw; exact absurd rfl hw
  · next h =>
    have : p.toNat ≠ 2 ^ 32 - 1 := by
      intro e; apply h; apply BitVec.eq_of_toNat_eq; rw [e]; rfl
    have := p.isLt
    have e : (p + 1).toNat = p.toNat + 1 := by
      simp only [BitVec.toNat_add]; simp; omega
    rw [e]

theorem unlock_index {c i : Nat} (h0 : 0 < c) (hc : c < 2 ^ 32) (hi : i < c) :
    (if wrap c = 0 then (BitVec.ofNat 32 i + 1 &&& mask c).toNat
      else ((BitVec.ofNat 32 i + 1).toNat) % c) = (i + 1) % c := by
  have e : (BitVec.ofNat 32 i + 1).toNat = i + 1 := by
    simp only [BitVec.toNat_add, BitVec.toNat_ofNat]; simp; omega
  split
  · next hw => rw [and_mask h0 hc hw, e]
  · rw [e]

theorem mod_window {c a b : Nat} (hab : a ≤ b) (hb : b < a + c) (h : a % c = b % c) : a = b := by
  have h2 : (b - a) % c = 0 := Nat.sub_mod_eq_zero_of_mod_eq h.symm
  rw [Nat.mod_eq_of_lt (by omega)] at h2
  omega

/-! ## The invariant -/

def PC.act : PC → Bool
  | .wait _ => true
  | .close _ => true
  | .inside _ => true
  | _ => false

def PC.held : PC → Bool
  | .close _ => true
  | .inside _ => true
  | _ => false

def PC.ins : PC → Bool
  | .inside _ => true
  | _ => false

theorem PC.held_of_ins {p : PC} (h : p.ins = true) : p.held = true := by cases p <;> cases h; rfl
theorem PC.act_of_held {p : PC} (h : p.held = true) : p.act = true := by
  cases p <;> cases h <;> rfl

structure Inv {n : Nat} (c : Nat) (s : St n) : Prop where
  q : QInv s.q (fun t => (s.pc t).act) (fun t => (s.pc t).held)
  next : s.next.toNat % c = s.q.arr.length % c
  wait : ∀ t i, s.pc t = .wait i → i = s.q.tk t % c
  close : ∀ t i, s.pc t = .close i → i = s.q.tk t % c
  ins : ∀ t i, s.pc t = .inside i → i = s.q.tk t % c
  slot : ∀ i, i < c → (s.slot i = false ↔ (i = s.q.rel % c ∧ ∀ t, (s.pc t).ins = false))

theorem ins_upd {n : Nat} {f : Fin n → PC} {t : Fin n} {v : PC} (h : v.ins = (f t).ins) :
    (∀ u, (upd f t v u).ins = false) ↔ (∀ u, (f u).ins = false) := by
  have := comp_upd_same PC.ins f t v h
  exact forall_congr' fun u => by rw [show (upd f t v u).ins = (f u).ins from congrFun this u]

theorem inv_init {c n : Nat} (_h0 : 0 < c) : Inv c (initSt n) := by
  refine ⟨QInv.empty n, ?_, ?_, ?_, ?_, ?_⟩ <;> simp [initSt, Q.empty, PC.ins]

theorem inv_step {c n : Nat} (h0 : 0 < c) (hc : c < 2 ^ 32) (hn : n ≤ c) {s s' : St n} {a : Act n}
    (hi : Inv c s) (hs : step c s a = some s') : Inv c s' := by
  obtain ⟨hq, hnx, hw, hcl, hin, hsl⟩ := hi
  rcases a with t | t | t
  · -- lock
    simp only [step] at hs
    split at hs <;> [skip; cases hs]
    next hp =>
    split at hs <;> (simp only [Option.some.injEq] at hs; subst hs)
    · refine ⟨?_, hnx, ?_, ?_, ?_, ?_⟩
      · simp only
        rw [comp_upd_same _ _ _ _ (by rw [hp]; rfl), comp_upd_same _ _ _ _ (by rw [hp]; rfl)]
        exact hq
      · grind
      · grind
      · grind
      · simp only [ins_upd (show (PC.casLoop s.next).ins = (s.pc t).ins by rw [hp]; rfl)]; exact hsl
    · next hwr =>
      simp only [ne_eq, Decidable.not_not] at hwr
      refine ⟨?_, ?_, ?_, ?_, ?_, ?_⟩
      · simp only
        rw [comp_upd, comp_upd_same _ _ _ _ (by rw [hp]; rfl)]
        exact hq.arrive (by simp [hp, PC.act])
      · simp only [Q.arrive, List.length_append, List.length_singleton]
        rw [succ_mod_pow2 h0 hc hwr, Nat.add_mod, hnx, ← Nat.add_mod]
      · intro u i hu
        by_cases he : u = t
        · subst he
          simp only [upd_same, PC.wait.injEq] at hu
          simp only [Q.arrive, upd_same]
          rw [← hu, and_mask h0 hc hwr, hnx]
        · simp only [upd_ne _ _ he] at hu
          simp only [Q.arrive, upd_ne _ _ he]
          exact hw u i hu
      · simp only [Q.arrive]; grind
      · simp only [Q.arrive]; grind
      · simp only [Q.arrive, ins_upd (show (PC.wait _).ins = (s.pc t).ins by rw [hp]; rfl)]
        exact hsl
  · -- run
    simp only [step] at hs
    split at hs
    · next p hp =>
      split at hs <;> (simp only [Option.some.injEq] at hs; subst hs)
      · next he =>
        have hwr : wrap c ≠ 0 ∨ wrap c = 0 := by tauto
        have hb : (bump c p).toNat % c = (p.toNat + 1) % c := by
          rcases hwr with h | h
          · exact bump_mod h0 hc h p
          · -- not reachable, but true as well
            have := succ_mod_pow2 h0 hc h p
            unfold bump
            split
            · next e =>
              rw [h]
              obtain ⟨k, hk⟩ := pow2_of_wrap h0 hc h
              subst hk e
              have := Nat.mod_eq_zero_of_dvd (dvd_of_pow2 hc)
              rw [show (BitVec.ofNat 32 (2 ^ 32 - 1)).toNat + 1 = 2 ^ 32 from rfl, this]
              simp
            · exact this
        refine ⟨?_, ?_, ?_, ?_, ?_, ?_⟩
        · simp only
          rw [comp_upd, comp_upd_same _ _ _ _ (by rw [hp]; rfl)]
          exact hq.arrive (by simp [hp, PC.act])
        · simp only [Q.arrive, List.length_append, List.length_singleton]
          rw [hb, ← he, Nat.add_mod, hnx, ← Nat.add_mod]
        · intro u i hu
          by_cases heq : u = t
          · subst heq
            simp only [upd_same, PC.wait.injEq] at hu
            simp only [Q.arrive, upd_same]
            rw [← hu, ← he, hnx]
          · simp only [upd_ne _ _ heq] at hu
            simp only [Q.arrive, upd_ne _ _ heq]
            exact hw u i hu
        · simp only [Q.arrive]; grind
        · simp only [Q.arrive]; grind
        · simp only [Q.arrive, ins_upd (show (PC.wait _).ins = (s.pc t).ins by rw [hp]; rfl)]
          exact hsl
      · refine ⟨?_, hnx, ?_, ?_, ?_, ?_⟩
        · simp only
          rw [comp_upd_same _ _ _ _ (by rw [hp]; rfl), comp_upd_same _ _ _ _ (by rw [hp]; rfl)]
          exact hq
        · grind
        · grind
        · grind
        · simp only [ins_upd (show (PC.casLoop s.next).ins = (s.pc t).ins by rw [hp]; rfl)]; exact hsl
    · next i hp =>
      split at hs <;> (simp only [Option.some.injEq] at hs; subst hs)
      · exact ⟨hq, hnx, hw, hcl, hin, hsl⟩
      · next hopen =>
        have ha : (s.pc t).act = true := by simp [hp, PC.act]
        have hi := hw t i hp
        have hlt : i < c := by rw [hi]; exact Nat.mod_lt _ h0
        have hrel := ((hsl i hlt).1 (by simpa using hopen)).1
        have htk : s.q.tk t = s.q.rel := by
          have h1 := (hq.act_tk t ha).1
          have h2 := hq.tk_lt (t := t) ha
          have h3 := hq.window
          exact (mod_window (c := c) h1 (by omega) (by rw [← hrel, ← hi])).symm
        refine ⟨?_, hnx, ?_, ?_, ?_, ?_⟩
        · simp only
          rw [comp_upd_same PC.act _ _ _ (by rw [hp]; rfl), comp_upd]
          exact hq.enter ha htk (by simp [hp, PC.held])
        · simp only [Q.enter]; grind
        · simp only [Q.enter]; grind
        · simp only [Q.enter]; grind
        · simp only [Q.enter, ins_upd (show (PC.close _).ins = (s.pc t).ins by rw [hp]; rfl)]
          exact hsl
    · next i hp =>
      simp only [Option.some.injEq] at hs; subst hs
      refine ⟨?_, hnx, ?_, ?_, ?_, ?_⟩
      · simp only
        rw [comp_upd_same _ _ _ _ (by rw [hp]; rfl), comp_upd_same _ _ _ _ (by rw [hp]; rfl)]
        exact hq
      · grind
      · grind
      · grind
      · intro j hj
        have h1 : i = s.q.rel % c := by
          rw [hcl t i hp, hq.held_tk t (by simp [hp, PC.held])]
        have h2 : ¬ ∀ u, (upd s.pc t (.inside i) u).ins = false := by
          intro h; have := h t; simp [PC.ins] at this
        have h3 := hsl j hj
        simp only [h2, and_false, iff_false]
        grind
    · cases hs
  · -- unlock
    simp only [step] at hs
    split at hs <;> [skip; cases hs]
    next i hp =>
    simp only [Option.some.injEq] at hs; subst hs
    have hh : (s.pc t).held = true := by simp [hp, PC.held]
    have hti := hin t i hp
    have htk := hq.held_tk t hh
    have hlt : i < c := by rw [hti]; exact Nat.mod_lt _ h0
    have hrel : (i + 1) % c = (s.q.rel + 1) % c := by
      rw [hti, htk, Nat.mod_add_mod]
    refine ⟨?_, hnx, ?_, ?_, ?_, ?_⟩
    · simp only
      rw [comp_upd, comp_upd]
      exact hq.leave hh
    · simp only [Q.leave]; grind
    · simp only [Q.leave]; grind
    · simp only [Q.leave]; grind
    · intro j hj
      have h2 : ∀ u, (upd s.pc t .idle u).ins = false := by
        intro u
        by_cases he : u = t
        · simp [he, PC.ins]
        · rw [upd_ne _ _ he]
          by_contra hc
          have hu : (s.pc u).held = true := by
            exact PC.held_of_ins (by simpa using hc)
          exact he (hq.held_unique hu hh)
      have h3 : s.slot j ≠ false := by
        intro h
        have := ((hsl j hj).1 h).2 t
        simp [hp, PC.ins] at this
      simp only [h2, implies_true, and_true, Q.leave]
      rw [unlock_index h0 hc hlt, hrel]
      grind

theorem inv_of_reach {c n : Nat} (h0 : 0 < c) (hc : c < 2 ^ 32) (hn : n ≤ c) {s : St n}
    (h : (sys c n).Reach s) : Inv c s :=
  h.invariant (I := Inv c) (by rintro s rfl; exact inv_init h0)
    (fun _ _ _ hi hs => inv_step h0 hc hn hi hs)

theorem holds_iff {n : Nat} {s : St n} {t : Fin n} : s.holds t ↔ (s.pc t).held = true := by
  unfold St.holds
  cases s.pc t <;> simp [PC.held]

theorem active_iff {n : Nat} {s : St n} {t : Fin n} :
    (s.pc t).act = true ↔ s.holds t ∨ s.waits t := by
  unfold St.holds St.waits
  cases s.pc t <;> simp [PC.act]

/-! ## Property theorems -/

/-- C04: mutual exclusion for every slot count (power of two or not), at most as many threads
as slots, any number of acquisitions. -/
theorem mutual_exclusion {c n : Nat} (h0 : 0 < c) (hc : c < 2 ^ 32) (hn : n ≤ c) {s : St n}
    (h : (sys c n).Reach s) : MutEx s.holds := fun _ _ ht hu =>
  (inv_of_reach h0 hc hn h).q.held_unique (holds_iff.1 ht) (holds_iff.1 hu)

/-- C04: threads enter in the order in which they obtained their positions. -/
theorem fcfs {c n : Nat} (h0 : 0 < c) (hc : c < 2 ^ 32) (hn : n ≤ c) {s : St n}
    (h : (sys c n).Reach s) : Fcfs s.q.arr s.q.srv := (inv_of_reach h0 hc hn h).q.pre

/-- C04, progress: if nobody holds the lock and somebody waits, the longest waiting thread sees
its slot open. -/
theorem progress {c n : Nat} (h0 : 0 < c) (hc : c < 2 ^ 32) (hn : n ≤ c) {s : St n}
    (h : (sys c n).Reach s) (hfree : ∀ u, ¬ s.holds u) {v : Fin n} (hv : s.waits v) :
    ∃ t s', s.q.arr[s.q.srv.length]? = some t ∧ s.waits t ∧
      (sys c n).step s (.run t) = some s' ∧ s'.holds t := by
  obtain ⟨hq, hnx, hw, hcl, hin, hsl⟩ := inv_of_reach h0 hc hn h
  have hno : ∀ u, (s.pc u).held = false := fun u => by
    have := hfree u; rw [holds_iff] at this; simpa using this
  obtain ⟨t, h1, h2, h3⟩ := hq.next_in_line hno (v := v) (active_iff.2 (.inr hv))
  have hwt : s.waits t := (active_iff.1 h2).resolve_left (hfree t)
  obtain ⟨i, hp⟩ := hwt
  have hi := hw t i hp
  have hopen : s.slot i = false := by
    refine (hsl i (by rw [hi]; exact Nat.mod_lt _ h0)).2 ⟨by rw [hi, h3], fun u => ?_⟩
    by_contra hc
    have := PC.held_of_ins (by simpa using hc)
    rw [hno u] at this; cases this
  refine ⟨t, { s with pc := upd s.pc t (.close i), q := s.q.enter t }, h1, ⟨i, hp⟩, ?_, ?_⟩
  · simp [sys, step, hp, hopen]
  · left; exact ⟨i, by simp⟩

/-- C05 restricted to power-of-two slot counts: with no operation in flight (every thread is
outside or inside), `locked` is true exactly if some thread owns the lock.

Full statement (false, see `locked_wrong`): the same for every slot count. -/
theorem locked_iff_partial {c n : Nat} (h0 : 0 < c) (hc : c < 2 ^ 32) (hn : n ≤ c)
    (hpow : ∃ k, c = 2 ^ k) {s : St n} (h : (sys c n).Reach s)
    (hquiet : ∀ t, s.pc t = .idle ∨ ∃ i, s.pc t = .inside i) :
    locked c s = true ↔ ∃ t, s.holds t := by
  have hwr := wrap_of_pow2 hc hpow
  obtain ⟨hq, hnx, hw, hcl, hin, hsl⟩ := inv_of_reach h0 hc hn h
  have hlen := hq.len
  simp only [locked]
  rw [and_mask h0 hc hwr, hnx]
  have hs := hsl (s.q.arr.length % c) (Nat.mod_lt _ h0)
  have hai : ∀ t, (s.pc t).act = (s.pc t).held := by
    intro t; rcases hquiet t with h | ⟨i, h⟩ <;> simp [h, PC.act, PC.held]
  constructor
  · intro hl
    by_contra hno
    have hno' : ∀ u, (s.pc u).act = false := fun u => by
      have := not_exists.1 hno u; rw [holds_iff, ← hai] at this; simpa using this
    have h1 : cnt id (fun t => (s.pc t).act) = 0 := cnt_zero_of hno'
    have : s.slot (s.q.arr.length % c) = false := by
      refine hs.2 ⟨by rw [hlen, h1]; rfl, fun u => ?_⟩
      by_contra hc
      have := PC.act_of_held (PC.held_of_ins (by simpa using hc))
      rw [hno' u] at this; cases this
    simp [this] at hl
  · rintro ⟨t, ht⟩
    by_contra hf
    have hf' : s.slot (s.q.arr.length % c) = false := by simpa using hf
    have := (hs.1 hf').2 t
    rw [holds_iff] at ht
    rcases hquiet t with h | ⟨i, h⟩
    · rw [h] at ht; cases ht
    · rw [h] at this; cases this

/-- C05 is violated for non-power-of-two slot counts: with 3 slots, after one lock/unlock by a
single thread the lock is free and quiet, but `locked` reports true. -/
theorem locked_wrong : ∃ s, (sys 3 1).Reach s ∧ (∀ t, s.pc t = .idle) ∧ locked 3 s = true := by
  refine ⟨_, Sys.Reach.of_run (M := sys 3 1) (as := [.lock 0, .run 0, .run 0, .run 0, .unlock 0])
    (.init rfl) rfl, ?_, ?_⟩
  · decide
  · decide

/-- Three slots, three threads, arrival order 2, 0, 1; 2 has left, 0 is inside. -/
example : ((sys 3 3).run (initSt 3)
    [.lock 2, .lock 0, .run 2, .run 2, .run 0, .run 0, .lock 1, .run 1, .run 1, .run 2, .run 0,
     .unlock 2, .run 0, .run 0, .run 1]).map
    (fun s => (s.pc 0, s.pc 1, s.pc 2, s.q.arr, s.q.srv)) =
    some (.inside 1, .wait 2, .idle, [2, 0, 1], [2, 0]) := by decide

/-- The wrap: with 3 slots the counter goes from UINT_MAX (slot 0) to 1 (slot 1). -/
example : wrap 3 = 1 ∧ bump 3 (BitVec.ofNat 32 (2 ^ 32 - 1)) = 1 ∧ (2 ^ 32 - 1) % 3 = 0 := by
  decide

end Verif.Spin.Anderson
