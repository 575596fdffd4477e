import Verif.Weak.Barrier

/-!
# Centralized barrier on relaxed memory: separation of phases, visibility of stores (C74)
-/

namespace Verif.Weak.Barrier

open Verif
open Verif.Weak.Fas (opt last_rmw last_store)

/-- The thread that arrived last, until it leaves. -/
def PC.lastp : PC → Bool
  | .rst | .pub0 | .pub1 => true
  | _ => false

def PC.pubp : PC → Bool
  | .pub0 | .pub1 => true
  | _ => false

theorem PC.last_of_pub {p : PC} (h : p.pubp = true) : p.lastp = true := by cases p <;> first | rfl | cases h

/-- The sense of round `i`. -/
def par (i : Nat) : Nat := if i % 2 = 0 then 0 else 2 ^ 32 - 1

theorem inv32_par (i : Nat) : inv32 (par i) = par (i + 1) := by
  rcases Nat.mod_two_eq_zero_or_one i with h | h
  · have : (i + 1) % 2 = 1 := by omega
    simp [inv32, par, h, this]
  · have : (i + 1) % 2 = 0 := by omega
    simp [inv32, par, h, this]

theorem par_inj {i j : Nat} (h : par i = par j) (h1 : j ≤ i + 1) (h2 : i ≤ j) : i = j := by
  rcases Nat.mod_two_eq_zero_or_one i with hi | hi <;> rcases Nat.mod_two_eq_zero_or_one j with hj | hj
  · omega
  · simp [par, hi, hj] at h
  · simp [par, hi, hj] at h
  · omega

/-! ## Control -/

structure C {n : Nat} (s : St n) : Prop where
  le : ∀ t, s.mem.top .sense ≤ (s.ts t).rd ∧ (s.ts t).rd ≤ s.mem.top .sense + 1
  sns : ∀ t, (s.ts t).sense = par (s.ts t).rd
  idl : ∀ t, (s.ts t).pc = .idle → (s.ts t).rd = s.mem.top .sense ∧ (s.ts t).rd ≤ (s.ts t).th.cur .sense
  bsy : ∀ t, (s.ts t).rd ≤ (s.ts t).th.cur .sense + 1
  msg : ∀ i, i ≤ s.mem.top .sense → (s.mem.msg .sense i).val = par i
  act : ∀ t, (s.ts t).pc.lastp = true → (∀ u, (s.ts u).rd = s.mem.top .sense + 1) ∧ ∀ u, (s.ts u).pc.lastp = true → u = t
  cnt : (∀ t, (s.ts t).pc.pubp = false) →
    s.mem.last .value = cnt (fun a : TS => decide (a.rd = s.mem.top .sense + 1)) s.ts
  zero : ∀ t, (s.ts t).pc.pubp = true → s.mem.last .value = 0

variable {n : Nat}

/-- A step that changes neither `sense`, `value` nor the round. -/
theorem C.keep {s : St n} (hi : C s) {t : Fin n} {a : TS} {m : Mem Loc Nat} {sc : View Loc} (hrd : a.rd = (s.ts t).rd)
    (hsn : a.sense = (s.ts t).sense) (hl : a.pc.lastp = (s.ts t).pc.lastp) (hp : a.pc.pubp = (s.ts t).pc.pubp)
    (hc : (s.ts t).th.cur .sense ≤ a.th.cur .sense)
    (hid : a.pc = .idle → (s.ts t).rd = s.mem.top .sense ∧ (s.ts t).rd ≤ a.th.cur .sense)
    (hm1 : m.top .sense = s.mem.top .sense) (hm2 : m.msg .sense = s.mem.msg .sense) (hm3 : m.last .value = s.mem.last .value) :
    C { s with mem := m, sc := sc, ts := upd s.ts t a } := by
  have e : ∀ u, u ≠ t → upd s.ts t a u = s.ts u := fun u hu => upd_ne _ _ hu
  have erd : ∀ u, (upd s.ts t a u).rd = (s.ts u).rd := fun u => by
    by_cases hu : u = t
    · subst hu; rw [upd_same, hrd]
    · rw [e u hu]
  have el : ∀ u, (upd s.ts t a u).pc.lastp = (s.ts u).pc.lastp := fun u => by
    by_cases hu : u = t
    · subst hu; rw [upd_same, hl]
    · rw [e u hu]
  have ep : ∀ u, (upd s.ts t a u).pc.pubp = (s.ts u).pc.pubp := fun u => by
    by_cases hu : u = t
    · subst hu; rw [upd_same, hp]
    · rw [e u hu]
  refine ⟨fun u => ?_, fun u => ?_, fun u h => ?_, fun u => ?_, fun i h => ?_, fun u h => ?_, fun h => ?_, fun u h => ?_⟩
  · simp only [erd, hm1]; exact hi.le u
  · simp only [erd]
    by_cases hu : u = t
    · subst hu; rw [upd_same, hsn]; exact hi.sns u
    · rw [e u hu]; exact hi.sns u
  · simp only [erd, hm1]
    simp only at h
    by_cases hu : u = t
    · subst hu; rw [upd_same] at h ⊢; exact hid h
    · rw [e u hu] at h ⊢; exact hi.idl u h
  · simp only [erd]
    by_cases hu : u = t
    · subst hu; rw [upd_same]; have := hi.bsy u; omega
    · rw [e u hu]; exact hi.bsy u
  · simp only [hm1, hm2] at h ⊢; exact hi.msg i h
  · simp only [el, erd, hm1] at h ⊢; exact hi.act u h
  · simp only [ep, hm1, hm3] at h ⊢
    rw [hi.cnt h]
    have := cnt_update (fun b : TS => decide (b.rd = s.mem.top .sense + 1)) s.ts t a
    simp only [hrd] at this
    omega
  · simp only [ep, hm3] at h ⊢; exact hi.zero u h

theorem control_step {fc : Fences} (hn : n < 2 ^ 32) {s s' : St n} {a : Act n} (hi : C s) (hs : step fc s a = some s') :
    C s' := by
  have hopt : ∀ (b : Bool) (f : Th Loc → Th Loc) (q : Th Loc), (∀ q, q.cur .sense ≤ (f q).cur .sense) →
      q.cur .sense ≤ (opt b f q).cur .sense := by
    intro b f q hf
    cases b
    · exact Nat.le_refl _
    · exact hf q
  cases a with
  | arrive t =>
    simp only [step] at hs
    split at hs
    · next hp =>
      cases hs
      have hidl := hi.idl t hp
      have hnl : ∀ u, (s.ts u).pc.lastp = false := by
        intro u
        cases h : (s.ts u).pc.lastp with
        | false => rfl
        | true => have := (hi.act u h).1 t; omega
      have hnp : ∀ u, (s.ts u).pc.pubp = false := by
        intro u
        cases h : (s.ts u).pc.pubp with
        | false => rfl
        | true => have := hnl u; rw [PC.last_of_pub h] at this; cases this
      have hcnt := hi.cnt hnp
      have htf : decide ((s.ts t).rd = s.mem.top .sense + 1) = false := by simp; omega
      have hlt := cnt_lt_of (P := fun a : TS => decide (a.rd = s.mem.top .sense + 1)) (f := s.ts) (t := t) htf
      obtain ⟨p, hpp⟩ : ∃ p, p = (if s.mem.last .value = n - 1 then PC.rst else PC.fen) := ⟨_, rfl⟩
      rw [← hpp]
      have hpl : p ≠ .idle ∧ p.pubp = false ∧ (p.lastp = true → s.mem.last .value = n - 1) := by
        rw [hpp]
        split
        · exact ⟨by simp, rfl, fun _ => by assumption⟩
        · exact ⟨by simp, rfl, fun h => by cases h⟩
      obtain ⟨a, ha⟩ : ∃ a : TS, a =
          { pc := p, th := (opt fc.user Th.fenceRel (s.ts t).th).rmw s.mem .value
            sense := inv32 (s.ts t).sense, rd := (s.ts t).rd + 1 } := ⟨_, rfl⟩
      rw [← ha]
      have hcur : (s.ts t).th.cur .sense ≤ a.th.cur .sense := by
        rw [ha]
        simp only [Th.rmw, Th.store]
        rw [upd_ne _ _ (by simp)]
        refine Nat.le_trans (hopt fc.user Th.fenceRel _ fun q => Nat.le_refl _) (Th.load_cur_le _ _ _ _ _)
      have e : ∀ u, u ≠ t → upd s.ts t a u = s.ts u := fun u hu => upd_ne _ _ hu
      have hu1 := cnt_update (fun a : TS => decide (a.rd = s.mem.top .sense + 1)) s.ts t a
      have har : a.rd = s.mem.top .sense + 1 := by rw [ha]; simp only; omega
      simp only [htf, har, decide_true, Bool.toNat_true, Bool.toNat_false] at hu1
      have htop : ∀ q v, (s.mem.rmw q .value v).top .sense = s.mem.top .sense := fun q v => by
        rw [Mem.rmw_top, if_neg (by simp)]
      refine ⟨fun u => ?_, fun u => ?_, fun u h => ?_, fun u => ?_, fun i h => ?_, fun u h => ?_, fun h => ?_, fun u h => ?_⟩
      · simp only [htop]
        by_cases hu : u = t
        · subst hu; rw [upd_same]; omega
        · rw [e u hu]; exact hi.le u
      · simp only
        by_cases hu : u = t
        · subst hu; rw [upd_same, ha]; simp only; rw [hi.sns u, inv32_par]
        · rw [e u hu]; exact hi.sns u
      · simp only [htop] at h ⊢
        by_cases hu : u = t
        · subst hu; rw [upd_same, ha] at h; exact absurd h hpl.1
        · rw [e u hu] at h ⊢; exact hi.idl u h
      · simp only
        by_cases hu : u = t
        · subst hu; rw [upd_same]; omega
        · rw [e u hu]; exact hi.bsy u
      · simp only [htop] at h ⊢
        rw [Mem.rmw_ne _ (by simp)]
        exact hi.msg i h
      · simp only [htop] at h ⊢
        have hut : u = t := by
          refine Decidable.byContradiction fun hu => ?_
          rw [e u hu, hnl u] at h
          cases h
        subst hut
        rw [upd_same, ha] at h
        have hlast := hpl.2.2 h
        constructor
        · intro v
          refine Decidable.byContradiction fun hv => ?_
          have := cnt_lt_of (P := fun a : TS => decide (a.rd = s.mem.top .sense + 1)) (f := upd s.ts u a) (t := v)
            (by simp only [decide_eq_false_iff_not]; exact hv)
          omega
        · intro v hv
          refine Decidable.byContradiction fun hvu => ?_
          rw [e v hvu, hnl v] at hv
          cases hv
      · simp only [htop, last_rmw]
        rw [Nat.mod_eq_of_lt (by omega)]
        omega
      · simp only at h
        by_cases hu : u = t
        · subst hu; rw [upd_same, ha, hpl.2.1] at h; cases h
        · rw [e u hu, hnp u] at h; cases h
    · cases hs
  | rst t =>
    simp only [step] at hs
    split at hs
    · next hp =>
      cases hs
      obtain ⟨h1, h2⟩ := hi.act t (by rw [hp]; rfl)
      obtain ⟨a, ha⟩ : ∃ a : TS, a = { s.ts t with pc := .pub0, th := (s.ts t).th.store s.mem .value } := ⟨_, rfl⟩
      rw [← ha]
      have e : ∀ u, u ≠ t → upd s.ts t a u = s.ts u := fun u hu => upd_ne _ _ hu
      have htop : ∀ q v, (s.mem.store q .value v).top .sense = s.mem.top .sense := fun q v => by
        rw [Mem.store_top, if_neg (by simp)]
      have hcur : a.th.cur .sense = (s.ts t).th.cur .sense := by
        rw [ha]; simp only [Th.store]; rw [upd_ne _ _ (by simp)]
      have hrd : a.rd = (s.ts t).rd := by rw [ha]
      have erd : ∀ u, (upd s.ts t a u).rd = (s.ts u).rd := fun u => by
        by_cases hu : u = t
        · subst hu; rw [upd_same, hrd]
        · rw [e u hu]
      refine ⟨fun u => ?_, fun u => ?_, fun u h => ?_, fun u => ?_, fun i h => ?_, fun u h => ?_, fun h => ?_, fun u h => ?_⟩
      · simp only [htop, erd]; exact hi.le u
      · simp only [erd]
        by_cases hu : u = t
        · subst hu; rw [upd_same, ha]; exact hi.sns u
        · rw [e u hu]; exact hi.sns u
      · simp only [htop, erd] at h ⊢
        by_cases hu : u = t
        · subst hu; rw [upd_same, ha] at h; cases h
        · rw [e u hu] at h ⊢; exact hi.idl u h
      · simp only [erd]
        by_cases hu : u = t
        · subst hu; rw [upd_same, hcur]; exact hi.bsy u
        · rw [e u hu]; exact hi.bsy u
      · simp only [htop] at h ⊢
        rw [Mem.store_ne _ (by simp)]
        exact hi.msg i h
      · simp only [htop, erd] at h ⊢
        have hut : u = t := by
          refine Decidable.byContradiction fun hu => ?_
          rw [e u hu] at h
          exact hu (h2 u h)
        subst hut
        refine ⟨h1, fun v hv => ?_⟩
        refine Decidable.byContradiction fun hvu => ?_
        rw [e v hvu] at hv
        exact hvu (h2 v hv)
      · have := h t
        simp only [upd_same, ha] at this
        cases this
      · exact last_store _ _ _ _
    · cases hs
  | pub0 t =>
    simp only [step] at hs
    split at hs
    · next hp =>
      split at hs
      · cases hs
        exact hi.keep rfl rfl (by rw [hp]; rfl) (by rw [hp]; rfl)
          (Nat.le_trans (le_join_left _ _ _) (le_join_left _ _ _)) (fun h => by cases h) rfl rfl rfl
      · cases hs
        exact hi.keep (sc := s.sc) (m := s.mem) rfl rfl (by rw [hp]; rfl) (by rw [hp]; rfl) (Nat.le_refl _) (fun h => by cases h)
          rfl rfl rfl
    · cases hs
  | fen t =>
    simp only [step] at hs
    split at hs
    · next hp =>
      split at hs
      · cases hs
        exact hi.keep rfl rfl (by rw [hp]; rfl) (by rw [hp]; rfl)
          (Nat.le_trans (le_join_left _ _ _) (le_join_left _ _ _)) (fun h => by cases h) rfl rfl rfl
      · cases hs
        exact hi.keep (sc := s.sc) (m := s.mem) rfl rfl (by rw [hp]; rfl) (by rw [hp]; rfl) (Nat.le_refl _) (fun h => by cases h)
          rfl rfl rfl
    · cases hs
  | pub1 t =>
    simp only [step] at hs
    split at hs
    · next hp =>
      cases hs
      obtain ⟨h1, h2⟩ := hi.act t (by rw [hp]; rfl)
      have hz := hi.zero t (by rw [hp]; rfl)
      have hnl : ∀ u, u ≠ t → (s.ts u).pc.lastp = false := fun u hu => by
        cases h : (s.ts u).pc.lastp with
        | false => rfl
        | true => exact absurd (h2 u h) hu
      obtain ⟨a, ha⟩ : ∃ a : TS, a = { s.ts t with pc := .idle, th := (s.ts t).th.store s.mem .sense } := ⟨_, rfl⟩
      rw [← ha]
      have e : ∀ u, u ≠ t → upd s.ts t a u = s.ts u := fun u hu => upd_ne _ _ hu
      have htop : ∀ q v, (s.mem.store q .sense v).top .sense = s.mem.top .sense + 1 := fun q v => by
        rw [Mem.store_top, if_pos rfl]
      have hcur : a.th.cur .sense = s.mem.top .sense + 1 := by
        rw [ha]; simp only [Th.store]; rw [upd_same]
      have hrd : a.rd = (s.ts t).rd := by rw [ha]
      have erd : ∀ u, (upd s.ts t a u).rd = (s.ts u).rd := fun u => by
        by_cases hu : u = t
        · subst hu; rw [upd_same, hrd]
        · rw [e u hu]
      have hnl' : ∀ u, (upd s.ts t a u).pc.lastp = false := fun u => by
        by_cases hu : u = t
        · subst hu; rw [upd_same, ha]; rfl
        · rw [e u hu]; exact hnl u hu
      refine ⟨fun u => ?_, fun u => ?_, fun u h => ?_, fun u => ?_, fun i h => ?_, fun u h => ?_, fun h => ?_, fun u h => ?_⟩
      · simp only [htop, erd]; have := h1 u; omega
      · simp only [erd]
        by_cases hu : u = t
        · subst hu; rw [upd_same, ha]; exact hi.sns u
        · rw [e u hu]; exact hi.sns u
      · simp only [htop, erd] at h ⊢
        refine ⟨h1 u, ?_⟩
        by_cases hu : u = t
        · subst hu; rw [upd_same, hcur]; exact Nat.le_of_eq (h1 u)
        · rw [e u hu] at h
          have := (hi.idl u h).1
          have := h1 u
          omega
      · simp only [erd]
        by_cases hu : u = t
        · subst hu; rw [upd_same, hcur]; have := h1 u; omega
        · rw [e u hu]; exact hi.bsy u
      · simp only [htop] at h ⊢
        by_cases hj : i ≤ s.mem.top .sense
        · rw [Mem.store_old hj]; exact hi.msg i hj
        · have : i = s.mem.top .sense + 1 := by omega
          subst this
          rw [Mem.store_at _ _ rfl]
          simp only
          rw [hi.sns t, h1 t]
      · simp only [hnl' u] at h; cases h
      · have hl : (s.mem.store (s.ts t).th .sense (s.ts t).sense).last .value = s.mem.last .value := by
          simp only [Mem.last, Mem.store_top]
          rw [if_neg (by simp), Mem.store_ne _ (by simp)]
        simp only [htop, hl, hz]
        refine (cnt_zero_of fun u => ?_).symm
        simp only [decide_eq_false_iff_not]
        rw [erd, h1 u]
        omega
      · simp only at h
        rw [← Bool.not_eq_false] at h
        exact absurd (by
          have := hnl' u
          cases hq : (upd s.ts t a u).pc.pubp with
          | false => rfl
          | true => rw [PC.last_of_pub hq] at this; cases this) h
    · cases hs
  | look t i =>
    simp only [step] at hs
    split at hs
    · next hc =>
      obtain ⟨hp, hm1, hm2⟩ := hc
      have hle := hi.le t
      have hb := hi.bsy t
      split at hs
      · next hv =>
        cases hs
        have hir : i = (s.ts t).rd := by
          refine par_inj ?_ (by omega) (by omega)
          rw [← hi.msg i hm2, hv, hi.sns t]
        have hcur : i ≤ (opt fc.acq Th.fenceAcq ((s.ts t).th.load s.mem .sense i)).cur .sense :=
          Nat.le_trans (Th.load_at _ _ _ _) (hopt _ _ _ fun q => le_join_left _ _ _)
        exact hi.keep (sc := s.sc) (m := s.mem) rfl rfl (by rw [hp]; rfl) (by rw [hp]; rfl) (Nat.le_trans hm1 hcur)
          (fun _ => ⟨by omega, by simp only; omega⟩) rfl rfl rfl
      · cases hs
        exact hi.keep (sc := s.sc) (m := s.mem) rfl rfl rfl rfl (Th.load_cur_le _ _ _ _ _)
          (fun h => by simp only [hp] at h; cases h) rfl rfl rfl
    · cases hs
  | read t x i =>
    simp only [step] at hs
    split at hs
    · next hc =>
      cases hs
      have hid := hi.idl t hc.1
      have hl := Th.load_cur_le (s.ts t).th s.mem (.usr x) i .sense
      exact hi.keep (sc := s.sc) (m := s.mem) rfl rfl rfl rfl hl (fun _ => ⟨hid.1, Nat.le_trans hid.2 hl⟩) rfl rfl rfl
    · cases hs
  | write t x v =>
    simp only [step] at hs
    split at hs
    · next hc =>
      cases hs
      have hid := hi.idl t hc
      have hl : ((s.ts t).th.store s.mem (.usr x)).cur .sense = (s.ts t).th.cur .sense := by
        simp only [Th.store]; rw [upd_ne _ _ (by simp)]
      refine hi.keep (sc := s.sc) rfl rfl rfl rfl (Nat.le_of_eq hl.symm) (fun _ => ⟨hid.1, Nat.le_trans hid.2 (Nat.le_of_eq hl.symm)⟩)
        ?_ ?_ ?_
      · rw [Mem.store_top, if_neg (by simp)]
      · funext i; rw [Mem.store_ne _ (by simp)]
      · simp only [Mem.last, Mem.store_top]
        rw [if_neg (by simp), Mem.store_ne _ (by simp)]
    · cases hs

theorem control_reach {fc : Fences} (hn : n < 2 ^ 32) {s : St n} (h : (sys fc n).Reach s) : C s := by
  refine h.invariant (I := C) ?_ (fun _ _ _ hi hs => control_step hn hi hs)
  rintro s rfl
  refine ⟨fun _ => ⟨Nat.le_refl _, by simp [initSt]⟩, fun _ => rfl, fun _ _ => ⟨rfl, Nat.le_refl _⟩, fun _ => Nat.zero_le _,
    fun i h => ?_, fun t h => (by cases h), fun _ => (cnt_zero_of fun _ => rfl).symm, fun t h => (by cases h)⟩
  have : i = 0 := Nat.le_zero.1 h
  subst this
  rfl

/-! ## Data, if the caller has a fence before the call -/

structure D {n : Nat} (s : St n) : Prop where
  msgv : ∀ i, i ≤ s.mem.top .sense → ∀ t k x, k ≤ i → s.snap t k x ≤ (s.mem.msg .sense i).view (.usr x)
  know : ∀ u t k x, k < (s.ts u).rd ∨ ((s.ts u).pc = .idle ∧ k ≤ (s.ts u).rd) → s.snap t k x ≤ (s.ts u).th.cur (.usr x)
  val : (∀ t, (s.ts t).pc.pubp = false) → ∀ t x, (s.ts t).rd = s.mem.top .sense + 1 →
    s.snap t (s.mem.top .sense + 1) x ≤ (s.mem.msg .value (s.mem.top .value)).view (.usr x)
  rst : ∀ t, (s.ts t).pc = .rst ∨ (s.ts t).pc = .pub0 → ∀ u x,
    s.snap u (s.mem.top .sense + 1) x ≤ join (s.ts t).th.cur (s.ts t).th.acq (.usr x)
  pub : ∀ t, (s.ts t).pc = .pub1 → ∀ u k x, k ≤ s.mem.top .sense + 1 →
    s.snap u k x ≤ (s.ts t).th.rel (.usr x) ∧ s.snap u k x ≤ (s.ts t).th.cur (.usr x)

theorem D.keep {s : St n} (hi : D s) {t : Fin n} {a : TS} {m : Mem Loc Nat} {sc : View Loc} (hrd : a.rd = (s.ts t).rd)
    (hp : a.pc.pubp = (s.ts t).pc.pubp)
    (hc : ∀ y k x, s.snap y k x ≤ (s.ts t).th.cur (.usr x) → s.snap y k x ≤ a.th.cur (.usr x))
    (hid : a.pc = .idle → ∀ y k x, k ≤ (s.ts t).rd → s.snap y k x ≤ a.th.cur (.usr x))
    (hr : a.pc = .rst ∨ a.pc = .pub0 → ∀ u x, s.snap u (s.mem.top .sense + 1) x ≤ join a.th.cur a.th.acq (.usr x))
    (hpb : a.pc = .pub1 → ∀ u k x, k ≤ s.mem.top .sense + 1 →
      s.snap u k x ≤ a.th.rel (.usr x) ∧ s.snap u k x ≤ a.th.cur (.usr x))
    (hm1 : m.top .sense = s.mem.top .sense) (hm2 : m.msg .sense = s.mem.msg .sense)
    (hm3 : m.top .value = s.mem.top .value) (hm4 : m.msg .value = s.mem.msg .value) :
    D { s with mem := m, sc := sc, ts := upd s.ts t a } := by
  have e : ∀ u, u ≠ t → upd s.ts t a u = s.ts u := fun u hu => upd_ne _ _ hu
  have erd : ∀ u, (upd s.ts t a u).rd = (s.ts u).rd := fun u => by
    by_cases hu : u = t
    · subst hu; rw [upd_same, hrd]
    · rw [e u hu]
  have ep : ∀ u, (upd s.ts t a u).pc.pubp = (s.ts u).pc.pubp := fun u => by
    by_cases hu : u = t
    · subst hu; rw [upd_same, hp]
    · rw [e u hu]
  refine ⟨fun i h => ?_, fun u y k x h => ?_, fun h => ?_, fun u h => ?_, fun u h => ?_⟩
  · simp only [hm1, hm2] at h ⊢; exact hi.msgv i h
  · simp only [erd] at h ⊢
    by_cases hu : u = t
    · subst hu
      rw [upd_same] at h ⊢
      rcases h with h | h
      · exact hc _ _ _ (hi.know u y k x (.inl h))
      · exact hid h.1 y k x h.2
    · rw [e u hu] at h ⊢; exact hi.know u y k x h
  · simp only [ep, hm1, erd, hm3, hm4] at h ⊢
    exact hi.val h
  · simp only [hm1] at h ⊢
    by_cases hu : u = t
    · subst hu; rw [upd_same] at h ⊢; exact hr h
    · rw [e u hu] at h ⊢; exact hi.rst u h
  · simp only [hm1] at h ⊢
    by_cases hu : u = t
    · subst hu; rw [upd_same] at h ⊢; exact hpb h
    · rw [e u hu] at h ⊢; exact hi.pub u h

theorem data_step {s s' : St n} {a : Act n} (hc : C s) (hi : D s) (hwf : ∀ t x, (s.ts t).th.cur (.usr x) ≤ s.mem.top (.usr x))
    (hs : step fenced s a = some s') : D s' := by
  cases a with
  | arrive t =>
    simp only [step] at hs
    split at hs
    · next hp =>
      cases hs
      have hidl := hc.idl t hp
      have hnl : ∀ u, (s.ts u).pc.lastp = false := by
        intro u
        cases h : (s.ts u).pc.lastp with
        | false => rfl
        | true => have := (hc.act u h).1 t; omega
      have hnp : ∀ u, (s.ts u).pc.pubp = false := by
        intro u
        cases h : (s.ts u).pc.pubp with
        | false => rfl
        | true => have := hnl u; rw [PC.last_of_pub h] at this; cases this
      simp only [opt, fenced, if_true]
      obtain ⟨p, hpp⟩ : ∃ p, p = (if s.mem.last .value = n - 1 then PC.rst else PC.fen) := ⟨_, rfl⟩
      rw [← hpp]
      have hpl : p ≠ .idle ∧ p ≠ .pub0 ∧ p ≠ .pub1 ∧ p.pubp = false ∧ (p = .rst → s.mem.last .value = n - 1) := by
        rw [hpp]
        split
        · exact ⟨by simp, by simp, by simp, rfl, fun _ => by assumption⟩
        · exact ⟨by simp, by simp, by simp, rfl, fun h => by cases h⟩
      obtain ⟨a, ha⟩ : ∃ a : TS, a =
          { pc := p, th := ((s.ts t).th.fenceRel).rmw s.mem .value
            sense := inv32 (s.ts t).sense, rd := (s.ts t).rd + 1 } := ⟨_, rfl⟩
      rw [← ha]
      obtain ⟨sn, hsn⟩ : ∃ sn, sn = upd s.snap t (upd (s.snap t) ((s.ts t).rd + 1) fun x => (s.ts t).th.cur (.usr x)) := ⟨_, rfl⟩
      rw [← hsn]
      have hcur : ∀ x, (s.ts t).th.cur (.usr x) ≤ a.th.cur (.usr x) := fun x => by
        rw [ha]
        simp only [Th.rmw, Th.store]
        rw [upd_ne _ _ (by simp)]
        exact Th.load_cur_le (s.ts t).th.fenceRel s.mem _ _ _
      have hold : ∀ y k x, k ≤ s.mem.top .sense → sn y k x = s.snap y k x := fun y k x hk => by
        rw [hsn]
        by_cases hy : y = t
        · subst hy; rw [upd_same, upd_ne _ _ (by omega)]
        · rw [upd_ne _ _ hy]
      have hoth : ∀ y k x, y ≠ t → sn y k x = s.snap y k x := fun y k x hy => by rw [hsn, upd_ne _ _ hy]
      have hnew : ∀ x, sn t (s.mem.top .sense + 1) x = (s.ts t).th.cur (.usr x) := fun x => by
        rw [hsn, upd_same, ← hidl.1, upd_same]
      have e : ∀ u, u ≠ t → upd s.ts t a u = s.ts u := fun u hu => upd_ne _ _ hu
      have htop : ∀ q v, (s.mem.rmw q .value v).top .sense = s.mem.top .sense := fun q v => by
        rw [Mem.rmw_top, if_neg (by simp)]
      have hval : ∀ u x, (upd s.ts t a u).rd = s.mem.top .sense + 1 →
          sn u (s.mem.top .sense + 1) x ≤ ((s.mem.rmw (s.ts t).th.fenceRel .value ((s.mem.last .value + 1) % 2 ^ 32)).msg .value
            (s.mem.top .value + 1)).view (.usr x) := by
        intro u x h
        rw [Mem.rmw_at _ _ rfl]
        simp only
        rw [upd_ne _ _ (by simp)]
        by_cases hu : u = t
        · subst hu
          rw [hnew]
          exact Nat.le_trans (le_join_right _ _ _) (le_join_left _ _ _)
        · rw [e u hu] at h
          rw [hoth _ _ _ hu]
          exact Nat.le_trans (hi.val hnp u x h) (le_join_right _ _ _)
      have har : a.rd = s.mem.top .sense + 1 := by rw [ha]; simp only; omega
      refine ⟨fun i h y k x hk => ?_, fun u y k x h => ?_, fun h u x hr => ?_, fun u h y x => ?_, fun u h => ?_⟩
      · simp only [htop] at h ⊢
        rw [Mem.rmw_ne _ (by simp), hold _ _ _ (by omega)]
        exact hi.msgv i h y k x hk
      · simp only at h ⊢
        by_cases hu : u = t
        · subst hu
          rw [upd_same] at h ⊢
          have hk : k ≤ s.mem.top .sense := by
            rcases h with h | h
            · omega
            · rw [ha] at h; exact absurd h.1 hpl.1
          rw [hold _ _ _ hk]
          exact Nat.le_trans (hi.know u y k x (.inr ⟨hp, by omega⟩)) (hcur x)
        · rw [e u hu] at h ⊢
          have hle := hc.le u
          by_cases hk : k ≤ s.mem.top .sense
          · rw [hold _ _ _ hk]; exact hi.know u y k x h
          · exfalso
            rcases h with h | h
            · omega
            · have := (hc.idl u h.1).1
              omega
      · simp only [htop] at hr ⊢
        rw [Mem.rmw_top, if_pos rfl]
        exact hval u x hr
      · simp only [htop] at h ⊢
        have hut : u = t := by
          refine Decidable.byContradiction fun hu => ?_
          rw [e u hu] at h
          have := hnl u
          rcases h with h | h <;> rw [h] at this <;> cases this
        subst hut
        rw [upd_same] at h ⊢
        have hpr : p = .rst := by
          rcases h with h | h
          · rw [ha] at h; exact h
          · rw [ha] at h; exact absurd h hpl.2.1
        have hall : (upd s.ts u a y).rd = s.mem.top .sense + 1 := by
          refine Decidable.byContradiction fun hv => ?_
          have h1 := cnt_lt_of (P := fun a : TS => decide (a.rd = s.mem.top .sense + 1)) (f := upd s.ts u a) (t := y)
            (by simp only [decide_eq_false_iff_not]; exact hv)
          have h2 := cnt_update (fun a : TS => decide (a.rd = s.mem.top .sense + 1)) s.ts u a
          have h3 : decide ((s.ts u).rd = s.mem.top .sense + 1) = false := by simp; omega
          simp only [h3, har, decide_true, Bool.toNat_true, Bool.toNat_false] at h2
          have h4 := hc.cnt hnp
          have h5 := hpl.2.2.2.2 hpr
          omega
        by_cases hy : y = u
        · subst hy
          rw [hnew]
          exact Nat.le_trans (hcur x) (le_join_left _ _ _)
        · rw [hoth _ _ _ hy]
          rw [e y hy] at hall
          rw [ha]
          exact Nat.le_trans (Nat.le_trans (hi.val hnp y x hall) (Th.load_view_le _ _ _ _ _)) (le_join_right _ _ _)
      · simp only at h
        exfalso
        by_cases hu : u = t
        · subst hu; rw [upd_same, ha] at h; exact hpl.2.2.1 h
        · rw [e u hu] at h; have := hnl u; rw [h] at this; cases this
    · cases hs
  | rst t =>
    simp only [step] at hs
    split at hs
    · next hp =>
      cases hs
      obtain ⟨h1, h2⟩ := hc.act t (by rw [hp]; rfl)
      obtain ⟨a, ha⟩ : ∃ a : TS, a = { s.ts t with pc := .pub0, th := (s.ts t).th.store s.mem .value } := ⟨_, rfl⟩
      rw [← ha]
      have e : ∀ u, u ≠ t → upd s.ts t a u = s.ts u := fun u hu => upd_ne _ _ hu
      have htop : ∀ q v, (s.mem.store q .value v).top .sense = s.mem.top .sense := fun q v => by
        rw [Mem.store_top, if_neg (by simp)]
      have hcur : ∀ x, a.th.cur (.usr x) = (s.ts t).th.cur (.usr x) := fun x => by
        rw [ha]; simp only [Th.store]; rw [upd_ne _ _ (by simp)]
      have hacq : a.th.acq = (s.ts t).th.acq := by rw [ha]; rfl
      have hrd : a.rd = (s.ts t).rd := by rw [ha]
      refine ⟨fun i h y k x hk => ?_, fun u y k x h => ?_, fun h => ?_, fun u h y x => ?_, fun u h => ?_⟩
      · simp only [htop] at h ⊢
        rw [Mem.store_ne _ (by simp)]
        exact hi.msgv i h y k x hk
      · simp only at h ⊢
        by_cases hu : u = t
        · subst hu
          rw [upd_same] at h ⊢
          rw [hcur]
          refine hi.know u y k x ?_
          rcases h with h | h
          · exact .inl (by omega)
          · rw [ha] at h; cases h.1
        · rw [e u hu] at h ⊢; exact hi.know u y k x h
      · have := h t
        simp only [upd_same, ha] at this
        cases this
      · simp only [htop] at h ⊢
        by_cases hu : u = t
        · subst hu
          rw [upd_same, join_apply, hcur, hacq]
          exact hi.rst u (.inl hp) y x
        · rw [e u hu] at h ⊢; exact hi.rst u h y x
      · simp only [htop] at h ⊢
        by_cases hu : u = t
        · subst hu; rw [upd_same, ha] at h; cases h
        · rw [e u hu] at h ⊢; exact hi.pub u h
    · cases hs
  | pub0 t =>
    simp only [step] at hs
    split at hs
    · next hp =>
      simp only [fenced, real, if_true] at hs
      cases hs
      have hrd := (hc.act t (by rw [hp]; rfl)).1 t
      have hall : ∀ u k x, k ≤ s.mem.top .sense + 1 → s.snap u k x ≤ join (join (s.ts t).th.cur (s.ts t).th.acq) s.sc (.usr x) := by
        intro u k x hk
        by_cases hk' : k ≤ s.mem.top .sense
        · exact Nat.le_trans (Nat.le_trans (hi.know t u k x (.inl (by omega))) (le_join_left _ _ _)) (le_join_left _ _ _)
        · have : k = s.mem.top .sense + 1 := by omega
          subst this
          exact Nat.le_trans (hi.rst t (.inr hp) u x) (le_join_left _ _ _)
      refine hi.keep (m := s.mem) rfl (by rw [hp]; rfl)
        (fun y k x h => Nat.le_trans h (Nat.le_trans (le_join_left _ _ _) (le_join_left _ _ _))) (fun h => by cases h)
        (fun h => by rcases h with h | h <;> cases h) (fun _ u k x hk => ⟨hall u k x hk, hall u k x hk⟩) rfl rfl rfl rfl
    · cases hs
  | fen t =>
    simp only [step] at hs
    split at hs
    · next hp =>
      simp only [fenced, real, if_true] at hs
      cases hs
      refine hi.keep (m := s.mem) rfl (by rw [hp]; rfl)
        (fun y k x h => Nat.le_trans h (Nat.le_trans (le_join_left _ _ _) (le_join_left _ _ _))) (fun h => by cases h)
        (fun h => by rcases h with h | h <;> cases h) (fun h => by cases h) rfl rfl rfl rfl
    · cases hs
  | pub1 t =>
    simp only [step] at hs
    split at hs
    · next hp =>
      cases hs
      obtain ⟨h1, h2⟩ := hc.act t (by rw [hp]; rfl)
      have hpub := hi.pub t hp
      obtain ⟨a, ha⟩ : ∃ a : TS, a = { s.ts t with pc := .idle, th := (s.ts t).th.store s.mem .sense } := ⟨_, rfl⟩
      rw [← ha]
      have e : ∀ u, u ≠ t → upd s.ts t a u = s.ts u := fun u hu => upd_ne _ _ hu
      have htop : ∀ q v, (s.mem.store q .sense v).top .sense = s.mem.top .sense + 1 := fun q v => by
        rw [Mem.store_top, if_pos rfl]
      have hcur : ∀ x, a.th.cur (.usr x) = (s.ts t).th.cur (.usr x) := fun x => by
        rw [ha]; simp only [Th.store]; rw [upd_ne _ _ (by simp)]
      have hrd : a.rd = (s.ts t).rd := by rw [ha]
      have hnl : ∀ u, (upd s.ts t a u).pc.lastp = false := fun u => by
        by_cases hu : u = t
        · subst hu; rw [upd_same, ha]; rfl
        · rw [e u hu]
          cases h : (s.ts u).pc.lastp with
          | false => rfl
          | true => exact absurd (h2 u h) hu
      refine ⟨fun i h y k x hk => ?_, fun u y k x h => ?_, fun _ u x h => ?_, fun u h => ?_, fun u h => ?_⟩
      · simp only [htop] at h ⊢
        by_cases hj : i ≤ s.mem.top .sense
        · rw [Mem.store_old hj]; exact hi.msgv i hj y k x hk
        · rw [Mem.store_at _ _ (by omega)]
          simp only
          rw [upd_ne _ _ (by simp)]
          exact (hpub y k x (by omega)).1
      · simp only at h ⊢
        by_cases hu : u = t
        · subst hu
          rw [upd_same] at h ⊢
          rw [hcur]
          have := h1 u
          exact (hpub y k x (by rcases h with h | h <;> omega)).2
        · rw [e u hu] at h ⊢; exact hi.know u y k x h
      · simp only [htop] at h
        exfalso
        by_cases hu : u = t
        · subst hu; rw [upd_same, hrd, h1 u] at h; omega
        · rw [e u hu, h1 u] at h; omega
      · simp only at h
        have := hnl u
        rcases h with h | h <;> rw [h] at this <;> cases this
      · simp only at h
        have := hnl u
        rw [h] at this; cases this
    · cases hs
  | look t i =>
    simp only [step] at hs
    split at hs
    · next hcc =>
      obtain ⟨hp, hm1, hm2⟩ := hcc
      have hle := hc.le t
      have hb := hc.bsy t
      have hup : ∀ x, (s.ts t).th.cur x ≤ ((s.ts t).th.load s.mem .sense i).cur x := Th.load_cur_le _ _ _ _
      split at hs
      · next hv =>
        simp only [opt, fenced, real, if_true] at hs
        cases hs
        have hir : i = (s.ts t).rd := by
          refine par_inj ?_ (by omega) (by omega)
          rw [← hc.msg i hm2, hv, hc.sns t]
        refine hi.keep (sc := s.sc) (m := s.mem) rfl (by rw [hp]; rfl)
          (fun y k x h => Nat.le_trans h (Nat.le_trans (hup _) (le_join_left _ _ _)))
          (fun _ y k x hk => ?_) (fun h => by rcases h with h | h <;> cases h) (fun h => by cases h) rfl rfl rfl rfl
        exact Nat.le_trans (Nat.le_trans (hi.msgv i hm2 y k x (by omega)) (Th.load_view_le _ _ _ _ _)) (le_join_right _ _ _)
      · cases hs
        exact hi.keep (sc := s.sc) (m := s.mem) rfl rfl (fun y k x h => Nat.le_trans h (hup _))
          (fun h => by simp only [hp] at h; cases h) (fun h => by simp only [hp] at h; rcases h with h | h <;> cases h)
          (fun h => by simp only [hp] at h; cases h) rfl rfl rfl rfl
    · cases hs
  | read t x i =>
    simp only [step] at hs
    split at hs
    · next hcc =>
      cases hs
      have hp := hcc.1
      have hup : ∀ y, (s.ts t).th.cur y ≤ ((s.ts t).th.load s.mem (.usr x) i).cur y := Th.load_cur_le _ _ _ _
      exact hi.keep (sc := s.sc) (m := s.mem) rfl rfl (fun y k x h => Nat.le_trans h (hup _))
        (fun _ y k z hk => Nat.le_trans (hi.know t y k z (.inr ⟨hp, hk⟩)) (hup _))
        (fun h => by simp only [hp] at h; rcases h with h | h <;> cases h) (fun h => by simp only [hp] at h; cases h) rfl rfl rfl rfl
    · cases hs
  | write t x v =>
    simp only [step] at hs
    split at hs
    · next hp =>
      cases hs
      have hup : ∀ y, (s.ts t).th.cur (.usr y) ≤ ((s.ts t).th.store s.mem (.usr x)).cur (.usr y) := fun y => by
        simp only [Th.store, upd_apply]
        split
        · next h => cases h; have := hwf t x; omega
        · exact Nat.le_refl _
      refine hi.keep (sc := s.sc) rfl rfl (fun y k x h => Nat.le_trans h (hup _))
        (fun _ y k z hk => Nat.le_trans (hi.know t y k z (.inr ⟨hp, hk⟩)) (hup _))
        (fun h => by simp only [hp] at h; rcases h with h | h <;> cases h) (fun h => by simp only [hp] at h; cases h) ?_ ?_ ?_ ?_
      · rw [Mem.store_top, if_neg (by simp)]
      · funext i; rw [Mem.store_ne _ (by simp)]
      · rw [Mem.store_top, if_neg (by simp)]
      · funext i; rw [Mem.store_ne _ (by simp)]
    · cases hs

/-! ## Views do not point beyond the newest value -/

def Wf (s : St n) : Prop := s.mem.Wf ∧ (∀ t, (s.ts t).th.Wf s.mem) ∧ ∀ y, s.sc y ≤ s.mem.top y

theorem wf_step {s s' : St n} {a : Act n} (h : Wf s) (hs : step fenced s a = some s') : Wf s' := by
  obtain ⟨hm, ht, hsc⟩ := h
  have one : ∀ (m' : Mem Loc Nat) (t : Fin n) (a : TS), (∀ y, s.mem.top y ≤ m'.top y) → a.th.Wf m' →
      (∀ u, (upd s.ts t a u).th.Wf m') := by
    intro m' t q h1 h2 u
    by_cases hu : u = t
    · subst hu; rw [upd_same]; exact h2
    · rw [upd_ne _ _ hu]; exact (ht u).mono h1
  have hle : ∀ y, s.mem.top y ≤ s.mem.top y := fun _ => Nat.le_refl _
  have hfs : ∀ t y, (s.ts t).th.fenceSc s.sc y ≤ s.mem.top y := fun t y =>
    join_le (join_le (ht t y).1 (ht t y).2.1) (hsc y)
  cases a <;> simp only [step, opt, fenced, real, if_true] at hs
  case arrive t =>
    split at hs <;> cases hs
    exact ⟨hm.rmw (ht t).fenceRel _ _, one _ _ _ (Mem.rmw_top_le _ _ _ _) ((ht t).fenceRel.rmw hm _ _),
      fun y => Nat.le_trans (hsc y) (Mem.rmw_top_le _ _ _ _ _)⟩
  case rst t =>
    split at hs <;> cases hs
    exact ⟨hm.store (ht t) _ _, one _ _ _ (Mem.store_top_le _ _ _ _) ((ht t).store _ _),
      fun y => Nat.le_trans (hsc y) (Mem.store_top_le _ _ _ _ _)⟩
  case pub0 t =>
    split at hs <;> cases hs
    exact ⟨hm, one _ _ _ hle ((ht t).fence hsc), hfs t⟩
  case pub1 t =>
    split at hs <;> cases hs
    exact ⟨hm.store (ht t) _ _, one _ _ _ (Mem.store_top_le _ _ _ _) ((ht t).store _ _),
      fun y => Nat.le_trans (hsc y) (Mem.store_top_le _ _ _ _ _)⟩
  case fen t =>
    split at hs <;> cases hs
    exact ⟨hm, one _ _ _ hle ((ht t).fence hsc), hfs t⟩
  case look t i =>
    split at hs
    · next hc =>
      split at hs <;> cases hs
      · exact ⟨hm, one _ _ _ hle ((ht t).load hm hc.2.2).fenceAcq, hsc⟩
      · exact ⟨hm, one _ _ _ hle ((ht t).load hm hc.2.2), hsc⟩
    · cases hs
  case read t x i =>
    split at hs <;> cases hs
    next hc => exact ⟨hm, one _ _ _ hle ((ht t).load hm hc.2.2), hsc⟩
  case write t x v =>
    split at hs <;> cases hs
    exact ⟨hm.store (ht t) _ _, one _ _ _ (Mem.store_top_le _ _ _ _) ((ht t).store _ _),
      fun y => Nat.le_trans (hsc y) (Mem.store_top_le _ _ _ _ _)⟩

theorem wf_reach {s : St n} (h : (sys fenced n).Reach s) : Wf s := by
  refine h.invariant (I := Wf) ?_ (fun _ _ _ hi hs => wf_step hi hs)
  rintro s rfl
  exact ⟨Mem.Wf.init _, fun _ => Th.Wf.init _, fun _ => Nat.le_refl _⟩

theorem data_reach (hn : n < 2 ^ 32) {s : St n} (h : (sys fenced n).Reach s) : D s := by
  induction h with
  | init h0 =>
    cases h0
    refine ⟨fun _ _ _ _ _ _ => Nat.zero_le _, fun _ _ _ _ _ => Nat.zero_le _, fun _ _ _ _ => Nat.zero_le _,
      fun _ _ _ _ => Nat.zero_le _, fun _ _ _ _ _ _ => ⟨Nat.zero_le _, Nat.zero_le _⟩⟩
  | step hr hs ih =>
    exact data_step (control_reach hn hr) ih (fun t x => ((wf_reach hr).2.1 t _).1) hs

/-! ## Properties -/

/-- C74: when a thread has left the barrier as often as it has called it, every other thread has called it at least as often.  This
needs no fence. -/
theorem separation (fc : Fences) (hn : n < 2 ^ 32) {s : St n} (h : (sys fc n).Reach s) {u : Fin n} (hu : (s.ts u).pc = .idle)
    (t : Fin n) : (s.ts u).rd ≤ (s.ts t).rd := by
  have hc := control_reach hn h
  have := hc.idl u hu
  have := hc.le t
  omega

/-- C74: what a thread loads after its `k`-th call is not older than what any thread had stored or seen at its own `k`-th
call.  Partial: only if the callers execute a release fence before the call; not true of the code alone, see `stale_after`. -/
theorem visible_partial (hn : n < 2 ^ 32) {s s' : St n} (h : (sys fenced n).Reach s) {u : Fin n} {x i : Nat}
    (hs : (sys fenced n).step s (.read u x i) = some s') (t : Fin n) {k : Nat} (hk : k ≤ (s.ts u).rd) : s.snap t k x ≤ i := by
  have hd := data_reach hn h
  simp only [sys, step] at hs
  split at hs
  · next hc => exact Nat.le_trans (hd.know u t k x (.inr ⟨hc.1, hk⟩)) hc.2.1
  · cases hs

/-- C74: if the newest value of `x` was stored by a thread before its call, it is loaded after the barrier (partial: as
`visible_partial`). -/
theorem reads_last_partial (hn : n < 2 ^ 32) {s s' : St n} (h : (sys fenced n).Reach s) {u t : Fin n} {x i : Nat}
    (hs : (sys fenced n).step s (.read u x i) = some s') (ht : s.mem.top (.usr x) ≤ s.snap t (s.ts u).rd x) :
    (s.mem.msg (.usr x) i).val = s.mem.last (.usr x) := by
  have h1 := visible_partial hn h hs t (Nat.le_refl _)
  simp only [sys, step] at hs
  split at hs
  · next hc =>
    have : i = s.mem.top (.usr x) := by have := hc.2.2; omega
    rw [Mem.last, this]
  · cases hs

/-! ## Without the fences -/

/-- Thread 1 stores 5 and enters the barrier; both threads leave it. -/
def phase (last : Fin 2) (i : Nat) : List (Act 2) :=
  if last = 0 then [.write 1 0 5, .arrive 1, .arrive 0, .rst 0, .pub0 0, .pub1 0, .fen 1, .look 1 i]
  else [.write 1 0 5, .arrive 0, .fen 0, .arrive 1, .rst 1, .pub0 1, .pub1 1, .look 0 i]

/-- After the barrier, thread 0 may still load the initial value. -/
def stale (fc : Fences) (as : List (Act 2)) : Bool :=
  match (sys fc 2).run (initSt 2) as with
  | some s => decide ((s.ts 0).pc = .idle ∧ (s.ts 1).pc = .idle ∧ (s.ts 0).rd = 1 ∧ s.mem.last (.usr 0) = 5 ∧
      s.snap 1 1 0 = s.mem.top (.usr 0) ∧ (s.ts 0).th.may s.mem (.usr 0) 0)
  | none => false

/-- C74, the code as it is: a value stored before the barrier need not be visible after it. -/
theorem stale_after : stale real (phase 0 1) = true := by decide +kernel

theorem no_fence_memory : stale { fenced with mem := false } (phase 0 1) = true := by decide +kernel

theorem no_fence_acquire : stale { fenced with acq := false } (phase 1 1) = true := by decide +kernel

/-- A run with all fences to which `reads_last_partial` applies. -/
example : ∃ s : St 2, (sys fenced 2).Reach s ∧ (s.ts 0).pc = .idle ∧ (s.ts 0).rd = 1 ∧ s.mem.top (.usr 0) = s.snap 1 1 0 ∧
    s.mem.last (.usr 0) = 5 ∧ ∃ s', (sys fenced 2).step s (.read 0 0 1) = some s' := by
  have hrun : ((sys fenced 2).run (initSt 2) (phase 0 1)).map (fun s => decide ((s.ts 0).pc = .idle ∧ (s.ts 0).rd = 1 ∧
      s.mem.top (.usr 0) = s.snap 1 1 0 ∧ s.mem.last (.usr 0) = 5 ∧ ((sys fenced 2).step s (.read 0 0 1)).isSome)) =
      some true := by decide +kernel
  cases hr : (sys fenced 2).run (initSt 2) (phase 0 1) with
  | none => rw [hr] at hrun; cases hrun
  | some s =>
    rw [hr] at hrun
    simp only [Option.map_some, Option.some.injEq, decide_eq_true_eq] at hrun
    obtain ⟨h1, h2, h3, h4, h5⟩ := hrun
    exact ⟨s, Sys.Reach.of_run (.init rfl) hr, h1, h2, h3, h4, Option.isSome_iff_exists.1 h5⟩

end Verif.Weak.Barrier
