import Verif.Rw.Bytelock

/-!
# `ck_bytelock`: exclusion, upgrade, downgrade (C16)

For unslotted threads the property is violated by the code when unslotted threads both read and
write: `unslotted_broken`.  Under the guard that excludes this it holds: `rw_exclusion_partial`.
-/

set_option linter.unusedSimpArgs false
set_option linter.unusedVariables false

namespace Verif.Rw.Bytelock

open Verif Verif.Spec

variable {n : Nat}

/-- The guard: not both an unslotted writer and an unslotted reader. -/
def Guard (c : Cfg n) : Prop :=
  ∀ t u, c.slot t = U → c.slot u = U → c.mayW t = true → c.mayR u = true → False

@[grind] def PC.own : PC → Bool
  | .wClr _ | .wScan _ | .wCnt | .writing | .dgOwn | .dgSet | .dgRel => true
  | _ => false
@[grind] def PC.byte : PC → Bool
  | .wCas true | .wClr true | .sChk | .sClr | .dgRel | .reading => true
  | _ => false
@[grind] def PC.inc : PC → Bool
  | .uChk | .uDec | .readingU => true
  | _ => false
/-- A slotted reader that is inside. -/
@[grind] def PC.rin : PC → Bool
  | .reading | .wCas true => true
  | _ => false
@[grind] def PC.ucode : PC → Bool
  | .uInc | .uChk | .uDec | .uWait | .readingU => true
  | _ => false
@[grind] def PC.scode : PC → Bool
  | .sSet | .sChk | .sClr | .sWait | .reading | .wCas true | .wClr true | .dgSet | .dgRel => true
  | _ => false
@[grind] def PC.wr : PC → Bool
  | .wCas _ | .wClr _ | .wScan _ | .wCnt | .writing | .dgOwn | .dgSet | .dgRel => true
  | _ => false
@[grind] def PC.rr : PC → Bool
  | .rOwn | .dgOwn => true
  | _ => false
/-- All slotted readers are known to be outside. -/
@[grind] def PC.ex1 : PC → Bool
  | .wCnt | .writing | .dgOwn | .dgSet | .dgRel => true
  | _ => false
/-- All unslotted readers are known to be outside. -/
@[grind] def PC.ex2 : PC → Bool
  | .writing | .dgOwn | .dgSet | .dgRel => true
  | _ => false

theorem PC.rin_scode {p : PC} (h : p.rin = true) : p.scode = true := by grind [cases PC]
theorem PC.rin_byte {p : PC} (h : p.rin = true) : p.byte = true := by grind [cases PC]

structure Inv (c : Cfg n) (s : St n) : Prop where
  own : cnt PC.own s.pc = if s.owner = 0 then 0 else 1
  ow : ∀ t, (s.pc t).own = true → s.owner = c.slot t
  byte : ∀ t, c.slot t ≠ U → s.readers (c.slot t - 1) = (s.pc t).byte
  nr : s.nreaders = BitVec.ofNat 32 (cnt PC.inc s.pc)
  uc : ∀ t, (s.pc t).ucode = true → c.slot t = U
  scd : ∀ t, (s.pc t).scode = true → c.slot t ≠ U
  wr : ∀ t, (s.pc t).wr = true → c.mayW t = true ∨ c.slot t ≠ U
  rr : ∀ t, (s.pc t).rr = true → c.mayR t = true
  sc : ∀ t u i, s.pc t = .wScan i → (s.pc u).rin = true → i * c.L < c.slot u
  ex1 : ∀ t u, (s.pc t).ex1 = true → (s.pc u).rin = false
  ex2 : ∀ t u, (s.pc t).ex2 = true → s.pc u ≠ .readingU
  ub : s.ub = false

theorem Inv.owner_ne {c : Cfg n} (hc : c.Wf) {s : St n} (hi : Inv c s) {t : Fin n}
    (h : (s.pc t).own = true) : s.owner ≠ 0 := by
  rw [hi.ow t h]; have := hc.slot t; have := hc.size; unfold U at *; omega

theorem Inv.uniq {c : Cfg n} {s : St n} (hi : Inv c s) {t u : Fin n}
    (h : (s.pc t).own = true) (h' : (s.pc u).own = true) : t = u := by
  refine cnt_eq_one_unique (P := PC.own) (f := s.pc) ?_ h h'
  rw [hi.own]; split <;> omega

theorem Inv.owner_zero {c : Cfg n} {s : St n} (hi : Inv c s) (h : s.owner = 0) (u : Fin n) :
    (s.pc u).own = false := by
  have := hi.own; rw [if_pos h] at this; exact cnt_eq_zero this u

/-- A step of `t` on the lock words and its own byte. -/
theorem Inv.set {c : Cfg n} (hc : c.Wf) {s : St n} (hi : Inv c s) (t : Fin n) (p : PC) (o : Nat)
    (v : BitVec 32) (b : Bool)
    (ho : (p.own = (s.pc t).own ∧ o = s.owner) ∨ (p.own = true ∧ s.owner = 0 ∧ o = c.slot t) ∨
      (p.own = false ∧ (s.pc t).own = true ∧ o = 0))
    (hb : c.slot t ≠ U → b = p.byte)
    (hv : v = BitVec.ofNat 32 (cnt PC.inc s.pc + p.inc.toNat - (s.pc t).inc.toNat))
    (huc : p.ucode = true → c.slot t = U) (hscd : p.scode = true → c.slot t ≠ U)
    (hwr : p.wr = true → c.mayW t = true ∨ c.slot t ≠ U) (hrr : p.rr = true → c.mayR t = true)
    (hrin : p.rin = true → (s.pc t).rin = true ∨ o = 0)
    (hru : p = .readingU → s.pc t = .readingU ∨ o = 0)
    (hsc : ∀ i u, p = .wScan i → u ≠ t → (s.pc u).rin = true → i * c.L < c.slot u)
    (he1 : p.ex1 = true → ∀ u, u ≠ t → (s.pc u).rin = false)
    (he2 : p.ex2 = true → ∀ u, u ≠ t → s.pc u ≠ .readingU) :
    Inv c { s with owner := o, nreaders := v, pc := upd s.pc t p,
                   readers := if c.slot t ≠ U then upd s.readers (c.slot t - 1) b else s.readers } := by
  have hne := fun u => hi.owner_ne hc (t := u)
  have hun := fun u w => hi.uniq (t := u) (u := w)
  have hcnt := cnt_update PC.own s.pc t p
  have hcnt2 := cnt_upd PC.inc s.pc t p
  have hst := hc.slot t
  have hsz := hc.size
  have hou : ∀ u, u ≠ t → (s.pc u).own = true → p.own = false ∧ o = s.owner := by
    intro u hu h
    have h1 := hne u h
    rcases ho with h2 | h2 | h2
    · refine ⟨?_, h2.2⟩
      cases hp : p.own
      · rfl
      · exact absurd (hun u t h (by rw [← h2.1]; exact hp)) hu
    · exact absurd h2.2.1 h1
    · exact absurd (hun u t h h2.2.1) hu
  obtain ⟨h1, h2, h3, h4, h5, h6, h7, h8, h9, h10, h11, h12⟩ := hi
  have hx : ∀ u, u ≠ t → (s.pc u).own = true → (p.rin = true → (s.pc t).rin = true) ∧ (p = .readingU → s.pc t = .readingU) := by
    intro u hu h
    have ⟨e1, e2⟩ := hou u hu h
    have h1 := hne u h
    rw [← e2] at h1
    exact ⟨fun h => (hrin h).resolve_right h1, fun h => (hru h).resolve_right h1⟩
  constructor <;> simp only
  case own =>
    rcases ho with ⟨e1, e2⟩ | ⟨e1, e2, e3⟩ | ⟨e1, e2, e3⟩
    · rw [e1] at hcnt; rw [e2, ← h1]; omega
    · rw [if_pos e2] at h1
      have e4 := cnt_eq_zero h1 t
      rw [e1, e4, h1] at hcnt
      rw [if_neg (by rw [e3]; unfold U at *; omega)]
      simpa using hcnt
    · rw [if_neg (hne t e2)] at h1
      rw [e1, e2, h1] at hcnt
      rw [if_pos e3]; simpa using hcnt
  case ow =>
    intro u; simp only [upd_apply]; split
    · intro hp; subst u
      rcases ho with ⟨e1, e2⟩ | ⟨e1, e2, e3⟩ | ⟨e1, e2, e3⟩
      · rw [e2]; exact h2 t (by rw [← e1]; exact hp)
      · exact e3
      · rw [e1] at hp; cases hp
    · next hu => intro hp; rw [(hou u hu hp).2]; exact h2 u hp
  case byte =>
    intro u hu
    by_cases hne' : u = t
    · subst u; rw [if_pos hu]; simp [hb hu]
    · rw [upd_ne _ _ hne']
      have := h3 u hu
      split
      · next ht =>
        rw [upd_ne, this]
        have hsu := hc.slot u
        intro e
        have : c.slot u = c.slot t := by unfold U at *; omega
        exact hne' (hc.inj u t this hu)
      · exact this
  case nr => rw [hv, hcnt2]
  case uc => fin h5 huc
  case scd => fin h6 hscd
  case wr => fin h7 hwr
  case rr => fin h8 hrr
  case sc =>
    intro u w i; simp only [upd_apply]; intro hu hw
    split at hu
    · split at hw
      · subst hu; simp [PC.rin] at hw
      · next h => exact hsc i w hu h hw
    · next hut =>
      split at hw
      · subst w
        have := (hx u hut (by rw [hu]; rfl)).1 hw
        exact h9 u t i hu this
      · exact h9 u w i hu hw
  case ex1 =>
    intro u w; simp only [upd_apply]; intro hu
    split at hu
    · split
      · generalize p = q at hu; cases q <;> simp [PC.ex1] at hu <;> rfl
      · next h => exact he1 hu w h
    · next hut =>
      have hown : (s.pc u).own = true := by
        generalize s.pc u = q at hu; cases q <;> simp [PC.ex1] at hu <;> rfl
      split
      · have := (hx u hut hown).1
        have h0 := h10 u t hu
        cases hp : p.rin
        · rfl
        · rw [this hp] at h0; cases h0
      · exact h10 u w hu
  case ex2 =>
    intro u w; simp only [upd_apply]; intro hu
    split at hu
    · split
      · intro e; subst e; simp [PC.ex2] at hu
      · next h => exact he2 hu w h
    · next hut =>
      have hown : (s.pc u).own = true := by
        generalize s.pc u = q at hu; cases q <;> simp [PC.ex2] at hu <;> rfl
      split
      · intro e; exact h11 u t hu ((hx u hut hown).2 e)
      · exact h11 u w hu
  case ub => exact h12

/-- A step that leaves the bytes alone. -/
theorem Inv.move {c : Cfg n} (hc : c.Wf) {s : St n} (hi : Inv c s) (t : Fin n) (p : PC) (o : Nat)
    (v : BitVec 32)
    (ho : (p.own = (s.pc t).own ∧ o = s.owner) ∨ (p.own = true ∧ s.owner = 0 ∧ o = c.slot t) ∨
      (p.own = false ∧ (s.pc t).own = true ∧ o = 0))
    (hb : c.slot t ≠ U → p.byte = (s.pc t).byte)
    (hv : v = BitVec.ofNat 32 (cnt PC.inc s.pc + p.inc.toNat - (s.pc t).inc.toNat))
    (huc : p.ucode = true → c.slot t = U) (hscd : p.scode = true → c.slot t ≠ U)
    (hwr : p.wr = true → c.mayW t = true ∨ c.slot t ≠ U) (hrr : p.rr = true → c.mayR t = true)
    (hrin : p.rin = true → (s.pc t).rin = true ∨ o = 0)
    (hru : p = .readingU → s.pc t = .readingU ∨ o = 0)
    (hsc : ∀ i u, p = .wScan i → u ≠ t → (s.pc u).rin = true → i * c.L < c.slot u)
    (he1 : p.ex1 = true → ∀ u, u ≠ t → (s.pc u).rin = false)
    (he2 : p.ex2 = true → ∀ u, u ≠ t → s.pc u ≠ .readingU) :
    Inv c { s with owner := o, nreaders := v, pc := upd s.pc t p } := by
  have h := hi.set hc t p o v (s.readers (c.slot t - 1)) ho
    (fun h => by rw [hb h]; exact hi.byte t h) hv huc hscd hwr hrr hrin hru hsc he1 he2
  simpa using h

theorem scan_cases (c : Cfg n) (i : Nat) :
    (i < c.C ∧ scan c i = .wScan i) ∨ (c.C ≤ i ∧ scan c i = .wCnt) := by
  unfold scan; split
  · exact .inl ⟨by assumption, rfl⟩
  · exact .inr ⟨by omega, rfl⟩

theorem inv_step {c : Cfg n} (hc : c.Wf) (hg : Guard c) (hn : n < 2 ^ 32) {s s' : St n} {a : Act n}
    (hi : Inv c s) (hs : step c s a = some s') : Inv c s' := by
  have hnr := hi.nr
  cases a <;> simp only [step] at hs
  case wlock t =>
    step_split hs
    · next hm hp =>
      exact hi.move hc t _ s.owner s.nreaders (.inl ⟨by rw [hp]; rfl, rfl⟩) (by rw [hp]; simp [PC.byte]) (by rw [hnr, hp]; rfl)
        (by simp [PC.ucode]) (by simp [PC.scode]) (fun _ => .inl hm) (by simp [PC.rr]) (by simp [PC.rin]) (by simp) (by simp) (by simp [PC.ex1]) (by simp [PC.ex2])
    · next hm _ hp =>
      have := hi.scd t (by rw [hp]; rfl)
      exact hi.move hc t _ s.owner s.nreaders (.inl ⟨by rw [hp]; rfl, rfl⟩) (by rw [hp]; simp [PC.byte]) (by rw [hnr, hp]; rfl)
        (by simp [PC.ucode]) (fun _ => this) (fun _ => .inl hm) (by simp [PC.rr]) (by simp [hp, PC.rin]) (by simp) (by simp) (by simp [PC.ex1]) (by simp [PC.ex2])
  case wunlock t =>
    step_split hs; next hp =>
    exact hi.move hc t _ 0 s.nreaders (.inr (.inr ⟨rfl, by rw [hp]; rfl, rfl⟩)) (by rw [hp]; simp [PC.byte]) (by rw [hnr, hp]; rfl)
        (by simp [PC.ucode]) (by simp [PC.scode]) (by simp [PC.wr]) (by simp [PC.rr]) (by simp [PC.rin]) (by simp) (by simp) (by simp [PC.ex1]) (by simp [PC.ex2])
  case rlock t =>
    step_split hs
    · next hm hp =>
      exact hi.move hc t _ s.owner s.nreaders (.inl ⟨by rw [hp]; rfl, rfl⟩) (by rw [hp]; simp [PC.byte]) (by rw [hnr, hp]; rfl)
        (by simp [PC.ucode]) (by simp [PC.scode]) (by simp [PC.wr]) (fun _ => hm) (by simp [PC.rin]) (by simp) (by simp) (by simp [PC.ex1]) (by simp [PC.ex2])
    · next hm _ hp =>
      have hw := hi.wr t (by rw [hp]; rfl)
      have h1 := fun u => hi.ex1 t u (by rw [hp]; rfl)
      have h2 := fun u => hi.ex2 t u (by rw [hp]; rfl)
      exact hi.move hc t _ s.owner s.nreaders (.inl ⟨by rw [hp]; rfl, rfl⟩) (by rw [hp]; simp [PC.byte]) (by rw [hnr, hp]; rfl)
        (by simp [PC.ucode]) (by simp [PC.scode]) (fun _ => hw) (fun _ => hm) (by simp [PC.rin]) (by simp) (by simp) (fun _ u _ => h1 u) (fun _ u _ => h2 u)
  case runlock t =>
    cases hp : s.pc t <;> simp only [hp] at hs
    case readingU =>
      step_split hs
      have hu := hi.uc t (by rw [hp]; rfl)
      have := cnt_pos (P := PC.inc) (f := s.pc) t (by rw [hp]; rfl)
      exact hi.move hc t _ s.owner (s.nreaders - 1) (.inl ⟨by rw [hp]; rfl, rfl⟩) (by rw [hp]; simp [PC.byte]) (by
          rw [hnr, hp]; apply BitVec.eq_of_toNat_eq
          have := cnt_le PC.inc s.pc
          simp [PC.inc, BitVec.toNat_sub]; omega)
        (by simp [PC.ucode]) (by simp [PC.scode]) (by simp [PC.wr]) (by simp [PC.rr]) (by simp [PC.rin]) (by simp) (by simp) (by simp [PC.ex1]) (by simp [PC.ex2])
    case reading =>
      step_split hs
      have hu := hi.scd t (by rw [hp]; rfl)
      have h := hi.set hc t .idle s.owner s.nreaders false (.inl ⟨by rw [hp]; rfl, rfl⟩) (by simp [PC.byte]) (by rw [hnr, hp]; rfl)
        (by simp [PC.ucode]) (by simp [PC.scode]) (by simp [PC.wr]) (by simp [PC.rr]) (by simp [PC.rin]) (by simp) (by simp) (by simp [PC.ex1]) (by simp [PC.ex2])
      rw [if_pos hu] at h; exact h
    all_goals cases hs
  case run t =>
    have hsl := hc.slot t
    have hsz := hc.size
    cases hp : s.pc t <;> simp only [hp] at hs
    case wCas up =>
      have hw := hi.wr t (by rw [hp]; rfl)
      have hsd := hi.scd t
      rw [hp] at hsd
      step_split hs
      · next h0 =>
        exact hi.move hc t _ _ s.nreaders (.inr (.inl ⟨rfl, h0, rfl⟩)) (by rw [hp]; cases up <;> simp [PC.byte]) (by rw [hnr, hp]; cases up <;> rfl)
          (by simp [PC.ucode]) (by cases up <;> simp [PC.scode]; exact hsd rfl) (fun _ => hw) (by simp [PC.rr]) (by simp [PC.rin]) (by simp) (by simp) (by simp [PC.ex1]) (by simp [PC.ex2])
      · exact hi
    case wClr up =>
      have hw := hi.wr t (by rw [hp]; rfl)
      have hsc0 : ∀ u, (s.pc u).rin = true → 0 < c.slot u := by
        intro u hu
        have := hi.scd u (PC.rin_scode hu)
        have := hc.slot u
        omega
      have hC : c.C ≤ 0 → ∀ u, (s.pc u).rin = false := by
        intro h u
        cases hr : (s.pc u).rin
        · rfl
        · have h1 := hi.scd u (PC.rin_scode hr)
          have h2 := hc.slot u
          have : c.L * c.C = 0 := by rw [Nat.le_zero.1 h]; simp
          omega
      step_split hs
      · next h1 =>
        have hu : c.slot t ≠ U := by omega
        have h := hi.set hc t (scan c 0) s.owner s.nreaders false (.inl ⟨by rw [hp]; rcases scan_cases c 0 with ⟨_, e⟩ | ⟨_, e⟩ <;> rw [e] <;> rfl, rfl⟩)
          (by rcases scan_cases c 0 with ⟨_, e⟩ | ⟨_, e⟩ <;> rw [e] <;> simp [PC.byte])
          (by rw [hnr, hp]; rcases scan_cases c 0 with ⟨_, e⟩ | ⟨_, e⟩ <;> rw [e] <;> rfl)
          (by rcases scan_cases c 0 with ⟨_, e⟩ | ⟨_, e⟩ <;> rw [e] <;> simp [PC.ucode])
          (by rcases scan_cases c 0 with ⟨_, e⟩ | ⟨_, e⟩ <;> rw [e] <;> simp [PC.scode])
          (fun _ => hw)
          (by rcases scan_cases c 0 with ⟨_, e⟩ | ⟨_, e⟩ <;> rw [e] <;> simp [PC.rr])
          (by rcases scan_cases c 0 with ⟨_, e⟩ | ⟨_, e⟩ <;> rw [e] <;> simp [PC.rin])
          (by rcases scan_cases c 0 with ⟨_, e⟩ | ⟨_, e⟩ <;> rw [e] <;> simp)
          (by
            intro i u hi' _ hr
            rcases scan_cases c 0 with ⟨_, e⟩ | ⟨_, e⟩ <;> rw [e] at hi' <;> cases hi'
            simpa using hsc0 u hr)
          (by
            rcases scan_cases c 0 with ⟨_, e⟩ | ⟨h0, e⟩ <;> rw [e]
            · simp [PC.ex1]
            · intro _ u _; exact hC h0 u)
          (by rcases scan_cases c 0 with ⟨_, e⟩ | ⟨_, e⟩ <;> rw [e] <;> simp [PC.ex2])
        rw [if_pos hu] at h; exact h
      · next h1 =>
        have hu : c.slot t = U := by omega
        exact hi.move hc t (scan c 0) s.owner s.nreaders (.inl ⟨by rw [hp]; rcases scan_cases c 0 with ⟨_, e⟩ | ⟨_, e⟩ <;> rw [e] <;> rfl, rfl⟩)
          (fun h => absurd hu h)
          (by rw [hnr, hp]; rcases scan_cases c 0 with ⟨_, e⟩ | ⟨_, e⟩ <;> rw [e] <;> rfl)
          (by rcases scan_cases c 0 with ⟨_, e⟩ | ⟨_, e⟩ <;> rw [e] <;> simp [PC.ucode])
          (by rcases scan_cases c 0 with ⟨_, e⟩ | ⟨_, e⟩ <;> rw [e] <;> simp [PC.scode])
          (fun _ => hw)
          (by rcases scan_cases c 0 with ⟨_, e⟩ | ⟨_, e⟩ <;> rw [e] <;> simp [PC.rr])
          (by rcases scan_cases c 0 with ⟨_, e⟩ | ⟨_, e⟩ <;> rw [e] <;> simp [PC.rin])
          (by rcases scan_cases c 0 with ⟨_, e⟩ | ⟨_, e⟩ <;> rw [e] <;> simp)
          (by
            intro i u hi' _ hr
            rcases scan_cases c 0 with ⟨_, e⟩ | ⟨_, e⟩ <;> rw [e] at hi' <;> cases hi'
            simpa using hsc0 u hr)
          (by
            rcases scan_cases c 0 with ⟨_, e⟩ | ⟨h0, e⟩ <;> rw [e]
            · simp [PC.ex1]
            · intro _ u _; exact hC h0 u)
          (by rcases scan_cases c 0 with ⟨_, e⟩ | ⟨_, e⟩ <;> rw [e] <;> simp [PC.ex2])
    case wScan i =>
      have hw := hi.wr t (by rw [hp]; rfl)
      step_split hs
      · next hz =>
        have hz' : ∀ j, j < c.L → s.readers (i * c.L + j) = false := by
          simpa [chunkZero] using hz
        have hscn : ∀ u, (s.pc u).rin = true → (i + 1) * c.L < c.slot u := by
          intro u hr
          have h1 := hi.sc t u i hp hr
          have h2 := hi.scd u (PC.rin_scode hr)
          have h3 := hi.byte u h2
          have h4 : (s.pc u).byte = true := PC.rin_byte hr
          rw [h4] at h3
          by_contra h5
          have : (i + 1) * c.L = i * c.L + c.L := by rw [Nat.add_mul]; omega
          have := hz' (c.slot u - 1 - i * c.L) (by omega)
          rw [show i * c.L + (c.slot u - 1 - i * c.L) = c.slot u - 1 by omega, h3] at this
          cases this
        have hC : c.C ≤ i + 1 → ∀ u, (s.pc u).rin = false := by
          intro h u
          cases hr : (s.pc u).rin
          · rfl
          · have h0 := hscn u hr
            have h1 := hi.scd u (PC.rin_scode hr)
            have h2 := hc.slot u
            have : c.L * c.C ≤ c.L * (i + 1) := Nat.mul_le_mul_left _ h
            rw [Nat.mul_comm c.L (i + 1)] at this
            omega
        exact hi.move hc t (scan c (i + 1)) s.owner s.nreaders (.inl ⟨by rw [hp]; rcases scan_cases c (i + 1) with ⟨_, e⟩ | ⟨_, e⟩ <;> rw [e] <;> rfl, rfl⟩)
          (by rw [hp]; rcases scan_cases c (i + 1) with ⟨_, e⟩ | ⟨_, e⟩ <;> rw [e] <;> simp [PC.byte])
          (by rw [hnr, hp]; rcases scan_cases c (i + 1) with ⟨_, e⟩ | ⟨_, e⟩ <;> rw [e] <;> rfl)
          (by rcases scan_cases c (i + 1) with ⟨_, e⟩ | ⟨_, e⟩ <;> rw [e] <;> simp [PC.ucode])
          (by rcases scan_cases c (i + 1) with ⟨_, e⟩ | ⟨_, e⟩ <;> rw [e] <;> simp [PC.scode])
          (fun _ => hw)
          (by rcases scan_cases c (i + 1) with ⟨_, e⟩ | ⟨_, e⟩ <;> rw [e] <;> simp [PC.rr])
          (by rcases scan_cases c (i + 1) with ⟨_, e⟩ | ⟨_, e⟩ <;> rw [e] <;> simp [PC.rin])
          (by rcases scan_cases c (i + 1) with ⟨_, e⟩ | ⟨_, e⟩ <;> rw [e] <;> simp)
          (by
            intro k u hi' _ hr
            rcases scan_cases c (i + 1) with ⟨_, e⟩ | ⟨_, e⟩ <;> rw [e] at hi' <;> cases hi'
            exact hscn u hr)
          (by
            rcases scan_cases c (i + 1) with ⟨_, e⟩ | ⟨h0, e⟩ <;> rw [e]
            · simp [PC.ex1]
            · intro _ u _; exact hC h0 u)
          (by rcases scan_cases c (i + 1) with ⟨_, e⟩ | ⟨_, e⟩ <;> rw [e] <;> simp [PC.ex2])
      · exact hi
    case wCnt =>
      have hw := hi.wr t (by rw [hp]; rfl)
      have h1 := fun u => hi.ex1 t u (by rw [hp]; rfl)
      step_split hs
      · exact hi
      · next h0 =>
        have hz : cnt PC.inc s.pc = 0 := by
          have h0 : s.nreaders = 0 := by simpa using h0
          rw [hnr] at h0
          have := congrArg BitVec.toNat h0
          have hle := cnt_le PC.inc s.pc
          simp at this; omega
        exact hi.move hc t _ s.owner s.nreaders (.inl ⟨by rw [hp]; rfl, rfl⟩) (by rw [hp]; simp [PC.byte]) (by rw [hnr, hp]; rfl)
          (by simp [PC.ucode]) (by simp [PC.scode]) (fun _ => hw) (by simp [PC.rr]) (by simp [PC.rin]) (by simp) (by simp) (fun _ u _ => h1 u)
          (fun _ u _ e => by have := cnt_eq_zero hz u; rw [e] at this; cases this)
    case rOwn =>
      have hr := hi.rr t (by rw [hp]; rfl)
      step_split hs
      · next h0 =>
        -- somebody owns the lock under my slot value
        exfalso
        have : 0 < cnt PC.own s.pc := by
          rw [hi.own, if_neg (by rw [h0]; unfold U at *; omega)]; omega
        obtain ⟨u, hu⟩ := exists_of_cnt_pos this
        have hou := hi.ow u hu
        by_cases ht : c.slot t = U
        · have h1 := hi.wr u (by generalize s.pc u = q at hu; cases q <;> simp [PC.own] at hu <;> rfl)
          rcases h1 with h1 | h1
          · exact hg u t (by rw [← hou, h0, ht]) ht h1 hr
          · exact h1 (by rw [← hou, h0, ht])
        · have := hc.inj t u (by rw [← hou, h0]) ht
          subst this
          rw [hp] at hu; cases hu
      · next h0 h1 =>
        exact hi.move hc t _ s.owner s.nreaders (.inl ⟨by rw [hp]; rfl, rfl⟩) (by rw [hp]; simp [PC.byte]) (by rw [hnr, hp]; rfl)
          (fun _ => by omega) (by simp [PC.scode]) (by simp [PC.wr]) (by simp [PC.rr]) (by simp [PC.rin]) (by simp) (by simp) (by simp [PC.ex1]) (by simp [PC.ex2])
      · next h0 h1 =>
        exact hi.move hc t _ s.owner s.nreaders (.inl ⟨by rw [hp]; rfl, rfl⟩) (by rw [hp]; simp [PC.byte]) (by rw [hnr, hp]; rfl)
          (by simp [PC.ucode]) (fun _ => by omega) (by simp [PC.wr]) (by simp [PC.rr]) (by simp [PC.rin]) (by simp) (by simp) (by simp [PC.ex1]) (by simp [PC.ex2])
    case dgOwn =>
      have hr := hi.rr t (by rw [hp]; rfl)
      have hw := hi.wr t (by rw [hp]; rfl)
      have how := hi.ow t (by rw [hp]; rfl)
      have h1 := fun u => hi.ex1 t u (by rw [hp]; rfl)
      have h2 := fun u => hi.ex2 t u (by rw [hp]; rfl)
      have hsU : c.slot t ≠ U := by
        intro h; rcases hw with hw | hw
        · exact hg t t h h hw hr
        · exact hw h
      step_split hs
      · exact hi.move hc t _ s.owner s.nreaders (.inl ⟨by rw [hp]; rfl, rfl⟩) (by rw [hp]; simp [PC.byte]) (by rw [hnr, hp]; rfl)
          (by simp [PC.ucode]) (fun _ => hsU) (fun _ => hw) (by simp [PC.rr]) (by simp [PC.rin]) (by simp) (by simp) (fun _ u _ => h1 u) (fun _ u _ => h2 u)
      · contradiction
    case dgSet =>
      have hw := hi.wr t (by rw [hp]; rfl)
      have hsU := hi.scd t (by rw [hp]; rfl)
      have h1 := fun u => hi.ex1 t u (by rw [hp]; rfl)
      have h2 := fun u => hi.ex2 t u (by rw [hp]; rfl)
      step_split hs
      · have h := hi.set hc t .dgRel s.owner s.nreaders true (.inl ⟨by rw [hp]; rfl, rfl⟩) (by simp [PC.byte]) (by rw [hnr, hp]; rfl)
          (by simp [PC.ucode]) (fun _ => hsU) (fun _ => hw) (by simp [PC.rr]) (by simp [PC.rin]) (by simp) (by simp) (fun _ u _ => h1 u) (fun _ u _ => h2 u)
        rw [if_pos hsU] at h; exact h
      · omega
    case dgRel =>
      have hw := hi.wr t (by rw [hp]; rfl)
      have hsU := hi.scd t (by rw [hp]; rfl)
      step_split hs
      exact hi.move hc t _ 0 s.nreaders (.inr (.inr ⟨rfl, by rw [hp]; rfl, rfl⟩)) (by rw [hp]; simp [PC.byte]) (by rw [hnr, hp]; rfl)
        (by simp [PC.ucode]) (fun _ => hsU) (by simp [PC.wr]) (by simp [PC.rr]) (fun _ => .inr rfl) (by simp) (by simp) (by simp [PC.ex1]) (by simp [PC.ex2])
    case uInc =>
      have hu := hi.uc t (by rw [hp]; rfl)
      step_split hs
      exact hi.move hc t _ s.owner (s.nreaders + 1) (.inl ⟨by rw [hp]; rfl, rfl⟩) (fun h => absurd hu h) (by
          rw [hnr, hp]; simp [PC.inc, BitVec.ofNat_add])
        (fun _ => hu) (by simp [PC.scode]) (by simp [PC.wr]) (by simp [PC.rr]) (by simp [PC.rin]) (by simp) (by simp) (by simp [PC.ex1]) (by simp [PC.ex2])
    case uChk =>
      have hu := hi.uc t (by rw [hp]; rfl)
      step_split hs
      · next h0 =>
        exact hi.move hc t _ s.owner s.nreaders (.inl ⟨by rw [hp]; rfl, rfl⟩) (fun h => absurd hu h) (by rw [hnr, hp]; simp [PC.inc])
          (fun _ => hu) (by simp [PC.scode]) (by simp [PC.wr]) (by simp [PC.rr]) (by simp [PC.rin]) (fun _ => .inr h0) (by simp) (by simp [PC.ex1]) (by simp [PC.ex2])
      · exact hi.move hc t _ s.owner s.nreaders (.inl ⟨by rw [hp]; rfl, rfl⟩) (fun h => absurd hu h) (by rw [hnr, hp]; simp [PC.inc])
          (fun _ => hu) (by simp [PC.scode]) (by simp [PC.wr]) (by simp [PC.rr]) (by simp [PC.rin]) (by simp) (by simp) (by simp [PC.ex1]) (by simp [PC.ex2])
    case uDec =>
      have hu := hi.uc t (by rw [hp]; rfl)
      step_split hs
      have := cnt_pos (P := PC.inc) (f := s.pc) t (by rw [hp]; rfl)
      exact hi.move hc t _ s.owner (s.nreaders - 1) (.inl ⟨by rw [hp]; rfl, rfl⟩) (fun h => absurd hu h) (by
          rw [hnr, hp]; apply BitVec.eq_of_toNat_eq
          have := cnt_le PC.inc s.pc
          simp [PC.inc, BitVec.toNat_sub]; omega)
        (fun _ => hu) (by simp [PC.scode]) (by simp [PC.wr]) (by simp [PC.rr]) (by simp [PC.rin]) (by simp) (by simp) (by simp [PC.ex1]) (by simp [PC.ex2])
    case uWait =>
      have hu := hi.uc t (by rw [hp]; rfl)
      step_split hs
      · exact hi
      · exact hi.move hc t _ s.owner s.nreaders (.inl ⟨by rw [hp]; rfl, rfl⟩) (fun h => absurd hu h) (by rw [hnr, hp]; simp [PC.inc])
          (fun _ => hu) (by simp [PC.scode]) (by simp [PC.wr]) (by simp [PC.rr]) (by simp [PC.rin]) (by simp) (by simp) (by simp [PC.ex1]) (by simp [PC.ex2])
    case sSet =>
      have hu := hi.scd t (by rw [hp]; rfl)
      step_split hs
      have h := hi.set hc t .sChk s.owner s.nreaders true (.inl ⟨by rw [hp]; rfl, rfl⟩) (by simp [PC.byte]) (by rw [hnr, hp]; rfl)
        (by simp [PC.ucode]) (fun _ => hu) (by simp [PC.wr]) (by simp [PC.rr]) (by simp [PC.rin]) (by simp) (by simp) (by simp [PC.ex1]) (by simp [PC.ex2])
      rw [if_pos hu] at h; exact h
    case sChk =>
      have hu := hi.scd t (by rw [hp]; rfl)
      step_split hs
      · next h0 =>
        exact hi.move hc t _ s.owner s.nreaders (.inl ⟨by rw [hp]; rfl, rfl⟩) (by rw [hp]; simp [PC.byte]) (by rw [hnr, hp]; rfl)
          (by simp [PC.ucode]) (fun _ => hu) (by simp [PC.wr]) (by simp [PC.rr]) (fun _ => .inr h0) (by simp) (by simp) (by simp [PC.ex1]) (by simp [PC.ex2])
      · exact hi.move hc t _ s.owner s.nreaders (.inl ⟨by rw [hp]; rfl, rfl⟩) (by rw [hp]; simp [PC.byte]) (by rw [hnr, hp]; rfl)
          (by simp [PC.ucode]) (fun _ => hu) (by simp [PC.wr]) (by simp [PC.rr]) (by simp [PC.rin]) (by simp) (by simp) (by simp [PC.ex1]) (by simp [PC.ex2])
    case sClr =>
      have hu := hi.scd t (by rw [hp]; rfl)
      step_split hs
      have h := hi.set hc t .sWait s.owner s.nreaders false (.inl ⟨by rw [hp]; rfl, rfl⟩) (by simp [PC.byte]) (by rw [hnr, hp]; rfl)
        (by simp [PC.ucode]) (fun _ => hu) (by simp [PC.wr]) (by simp [PC.rr]) (by simp [PC.rin]) (by simp) (by simp) (by simp [PC.ex1]) (by simp [PC.ex2])
      rw [if_pos hu] at h; exact h
    case sWait =>
      have hu := hi.scd t (by rw [hp]; rfl)
      step_split hs
      · exact hi
      · exact hi.move hc t _ s.owner s.nreaders (.inl ⟨by rw [hp]; rfl, rfl⟩) (by rw [hp]; simp [PC.byte]) (by rw [hnr, hp]; rfl)
          (by simp [PC.ucode]) (fun _ => hu) (by simp [PC.wr]) (by simp [PC.rr]) (by simp [PC.rin]) (by simp) (by simp) (by simp [PC.ex1]) (by simp [PC.ex2])
    all_goals cases hs

theorem inv_of_reach {c : Cfg n} (hc : c.Wf) (hg : Guard c) (hn : n < 2 ^ 32) {s : St n}
    (h : (sys c).Reach s) : Inv c s := by
  refine h.invariant (I := Inv c) ?_ (fun _ _ _ => inv_step hc hg hn)
  rintro s rfl
  have e1 : cnt PC.own (fun _ : Fin n => PC.idle) = 0 := cnt_zero_of (fun _ => rfl)
  have e2 : cnt PC.inc (fun _ : Fin n => PC.idle) = 0 := cnt_zero_of (fun _ => rfl)
  constructor <;> simp [initSt, e1, e2, PC.own, PC.byte, PC.ucode, PC.scode, PC.wr, PC.rr, PC.rin, PC.ex1, PC.ex2]

/-! ## Properties -/

/-- C16 (full claim restricted by `Guard`): a writer excludes all readers and other writers; a reader
that is upgrading and a writer that is downgrading count as readers until their transition. -/
theorem rw_exclusion_partial {c : Cfg n} (hc : c.Wf) (hg : Guard c) (hn : n < 2 ^ 32) {s : St n}
    (h : (sys c).Reach s) : RwEx s.reads s.writes := by
  have hi := inv_of_reach hc hg hn h
  have how : ∀ t, s.writes t → (s.pc t).own = true ∧ (s.pc t).ex1 = true ∧ (s.pc t).ex2 = true := by
    rintro t (e | e) <;> rw [e] <;> exact ⟨rfl, rfl, rfl⟩
  refine ⟨fun t u ht hu => hi.uniq (how t ht).1 (how u hu).1, fun t u ht hu => ?_⟩
  rcases hu with e | e | e | e | e
  · have := hi.ex1 t u (how t ht).2.1; rw [e] at this; cases this
  · exact hi.ex2 t u (how t ht).2.2 e
  · have := hi.ex1 t u (how t ht).2.1; rw [e] at this; cases this
  · have := hi.uniq (how t ht).1 (by rw [e]; rfl : (s.pc u).own = true)
    subst this; rcases ht with e' | e' <;> rw [e] at e' <;> cases e'
  · have := hi.uniq (how t ht).1 (by rw [e]; rfl : (s.pc u).own = true)
    subst this; rcases ht with e' | e' <;> rw [e] at e' <;> cases e'

/-- C16: upgrade without intervening writer.  While `t` is anywhere in a write_lock that started from
read ownership up to and including the critical section, nobody else is inside as a writer. -/
theorem upgrade_partial {c : Cfg n} (hc : c.Wf) (hg : Guard c) (hn : n < 2 ^ 32) {s : St n}
    (h : (sys c).Reach s) {t u : Fin n}
    (ht : s.pc t = .wCas true ∨ (s.pc t).own = true) (hne : u ≠ t) : ¬ s.writes u := by
  have hi := inv_of_reach hc hg hn h
  intro hu
  have how : (s.pc u).own = true ∧ (s.pc u).ex1 = true := by
    rcases hu with e | e <;> rw [e] <;> exact ⟨rfl, rfl⟩
  rcases ht with e | e
  · have := hi.ex1 u t how.2; rw [e] at this; cases this
  · exact hne (hi.uniq how.1 e)

/-- C16: downgrade keeps read ownership without a gap: every step of a downgrading read_lock leads from
"writes" or "reads" to "reads", never through an unowned state. -/
theorem downgrade_partial {c : Cfg n} (hc : c.Wf) (hg : Guard c) (hn : n < 2 ^ 32) {s s' : St n}
    (h : (sys c).Reach s) {t : Fin n} (ht : s.pc t = .dgOwn ∨ s.pc t = .dgSet ∨ s.pc t = .dgRel)
    (hs : (sys c).step s (.run t) = some s') : s'.reads t := by
  have hi := inv_of_reach hc hg hn h
  simp only [sys, step] at hs
  rcases ht with e | e | e
  · have how := hi.ow t (by rw [e]; rfl)
    simp only [e] at hs
    rw [if_pos how] at hs
    cases hs; simp [St.reads]
  · simp only [e] at hs
    step_split hs <;> simp [St.reads]
  · simp only [e] at hs
    cases hs; simp [St.reads]

/-- C16: no out-of-bounds access. -/
theorem no_ub_partial {c : Cfg n} (hc : c.Wf) (hg : Guard c) (hn : n < 2 ^ 32) {s : St n}
    (h : (sys c).Reach s) : s.ub = false := (inv_of_reach hc hg hn h).ub

/-- C16: nothing left behind when nobody is inside or in a call: owner and counter are 0, and every
slot in use is clear. -/
theorem quiescent_partial {c : Cfg n} (hc : c.Wf) (hg : Guard c) (hn : n < 2 ^ 32) {s : St n}
    (h : (sys c).Reach s) (hq : ∀ t, s.pc t = .idle) :
    s.owner = 0 ∧ s.nreaders = 0 ∧ ∀ t, c.slot t ≠ U → s.readers (c.slot t - 1) = false := by
  have hi := inv_of_reach hc hg hn h
  refine ⟨?_, ?_, fun t ht => by rw [hi.byte t ht, hq t]; rfl⟩
  · by_contra h0
    have := hi.own
    rw [if_neg h0, cnt_zero_of (P := PC.own) (f := s.pc) (fun t => by rw [hq t]; rfl)] at this
    cases this
  · rw [hi.nr, cnt_zero_of (P := PC.inc) (f := s.pc) (fun t => by rw [hq t]; rfl)]; rfl

/-- Two unslotted threads, both reading and writing. -/
def badCfg : Cfg 2 := { L := 8, C := 7, slot := fun _ => U, mayW := fun _ => true, mayR := fun _ => true }

/-- C16 is violated by the code: while unslotted thread 0 writes, unslotted thread 1's read_lock takes
itself for the owner, stores to `readers[UINT_MAX - 1]` (undefined behaviour), clears `owner` and
enters. -/
theorem unslotted_broken : badCfg.Wf ∧ ∃ s, (sys badCfg).Reach s ∧ s.writes 0 ∧ s.reads 1 ∧
    s.owner = 0 ∧ s.ub = true := by
  refine ⟨⟨by decide, by decide, fun _ => .inr rfl, fun t u h1 h2 => absurd rfl h2⟩, ?_⟩
  have hr : ((sys badCfg).run (initSt 2) ([.wlock 0] ++ List.replicate 10 (.run 0) ++
      [.rlock 1, .run 1, .run 1, .run 1])).map (fun s => (s.pc 0, s.pc 1, s.owner, s.ub)) =
      some (.writing, .reading, 0, true) := by decide
  rw [Option.map_eq_some_iff] at hr
  obtain ⟨s, hs, he⟩ := hr
  simp only [Prod.mk.injEq] at he
  exact ⟨s, (Sys.Reach.init rfl).of_run hs, .inl he.1, .inl he.2.1, he.2.2.1, he.2.2.2⟩

/-- A configuration meeting the hypotheses: 56 slots, two slotted threads and an unslotted reader. -/
def goodCfg : Cfg 3 :=
  { L := 8, C := 7, slot := fun t => if t = 2 then U else t.val + 1, mayW := fun t => t ≠ 2,
    mayR := fun _ => true }

example : goodCfg.Wf ∧ Guard goodCfg := by
  refine ⟨⟨by decide, by decide, by decide, by decide⟩, by unfold Guard; decide⟩

/-- Slotted 0 reads and upgrades while unslotted 2 reads; it waits, then writes, then downgrades. -/
example : ((sys goodCfg).run (initSt 3) ([.rlock 0, .run 0, .run 0, .run 0, .rlock 2, .run 2, .run 2,
    .run 2, .wlock 0] ++ List.replicate 10 (.run 0) ++ [.runlock 2, .run 0, .rlock 0, .run 0, .run 0,
    .run 0])).map (fun s => (s.pc 0, s.pc 2, s.owner, s.readers 0)) =
    some (.reading, .idle, 0, true) := by decide

end Verif.Rw.Bytelock
