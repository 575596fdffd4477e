import Verif.Smr.EpochCnt

/-!
# Epoch reclamation: an open section keeps the global epoch from moving on
-/

set_option linter.unusedSectionVars false
set_option linter.unusedSimpArgs false

namespace Verif.Ep

open Verif

variable {T R S X : Type} [DecidableEq T] [DecidableEq R] [DecidableEq S] [DecidableEq X] {c : Cfg}

def dkDelta : DK → Option Nat
  | .first d => some d
  | _ => none

/-- The epoch a thread in `main` loaded. -/
def delta : Main R X → Option Nat
  | .scan _ d _ _ _ | .p1 _ d | .p3 _ d => some d
  | .disp _ _ k => dkDelta k
  | _ => none

/-- A scan for epoch `d` is past the record `r`. -/
def Passed (d : Nat) (r : R) : Main R X → Prop
  | .scan _ d' todo _ ph => d' = d ∧ ph ≠ .hd ∧ r ∉ todo
  | .p3 _ g => g = d
  | _ => False

/-- The epoch of `r` was stored for the sections that are open or about to be. -/
def Held (s : St T R S X) (r : R) : Prop := (∃ x ∈ s.opn, s.sr x = r) ∨ ∃ t x, s.sub t = .a0 r x

structure InvE (s : St T R S X) : Prop where
  held : ∀ r, Held s r → s.ep r ≤ s.base r ∧ s.base r ≤ s.ep r + 2 ∧ s.base r ≤ s.G ∧ s.G ≤ s.base r + 1
  se : ∀ x ∈ s.opn, s.base (s.sr x) ≤ s.se x ∧ s.se x ≤ s.G
  pass : ∀ r, Held s r → ∀ t d, Passed d r (s.main t) → d ≤ s.base r
  b2 : ∀ t r x n g, s.sub t = .b2 r x n g → g ≤ s.G ∧ s.G ≤ g + 2 ∧ (s.G = g + 2 → s.ep r % M = (g + 1) % M)
  b2p : ∀ t r x n g, s.sub t = .b2 r x n g → ∀ u d, Passed d r (s.main u) →
    d ≤ g ∨ (d = g + 1 ∧ s.ep r % M = (g + 1) % M)
  dl : ∀ t d, delta (s.main t) = some d → d ≤ s.G
  bkt : ∀ x ∈ s.opn, s.nul x = false → s.se x = s.be (s.sr x) (s.bk x) ∧ s.se x % 2 = s.bk x
  e1 : ∀ t r x, s.sub t = .e1 r x → s.be r (s.bk x) ≤ s.G ∧ ∀ y ∈ s.opn, s.sr y = r → s.base r ≤ s.be r (s.bk x)
  af : ∀ t k d l ph, s.main t = .scan k d l false ph → ph ≠ .ep ∧ ph ≠ .gl
  self : ∀ t r d l ph, s.main t = .scan (.poll r) d l false ph → ph = .hd ∨ r ∈ l ∨ ∀ x ∈ s.opn, s.sr x ≠ r

theorem Passed.delta {d : Nat} {r : R} {m : Main R X} (h : Passed d r m) : delta m = some d := by
  cases m <;> simp_all [Passed, Ep.delta, dkDelta]

theorem invE_init {s : St T R S X} (h : Init s) : InvE s := by
  obtain ⟨h1, h2, h3, h4, h5, h6, h7, h8, h9, h10⟩ := h
  constructor <;> simp [h1, h2, h3, h4, h5, h6, h7, h8, Held, Passed, delta]

theorem held_act {s : St T R S X} (hW : InvW c s) (hA : InvA c s) {r : R} (h : Held s r) :
    (∃ t, s.own r = some t) ∧ r ∈ s.recs ∧ s.free r = false ∧ s.act r ≠ 0 := by
  have ho : ∃ t, s.own r = some t := by
    rcases h with ⟨x, hx, rfl⟩ | ⟨t, x, hq⟩
    · exact Option.ne_none_iff_exists'.1 (hW.oown x hx)
    · exact ⟨t, hW.sown t r (by rw [hq]; rfl)⟩
  obtain ⟨t, ht⟩ := ho
  refine ⟨⟨t, ht⟩, (hW.ownr r t ht).1, (hW.ownr r t ht).2, ?_⟩
  have ha := hA.act r t ht
  rcases h with ⟨x, hx, hr⟩ | ⟨u, x, hq⟩
  · intro h0
    have : nO s.opn s.sr r = 0 := by omega
    exact nO_zero.1 this x hx hr
  · have := hW.sown u r (by rw [hq]; rfl)
    rw [ht] at this
    cases this
    rw [ha, hq]
    simp [beg]

theorem b2_act {s : St T R S X} (hW : InvW c s) (hA : InvA c s) {t : T} {r : R} {x : S} {n : Bool} {g : Nat}
    (h : s.sub t = .b2 r x n g) : r ∈ s.recs ∧ s.free r = false ∧ s.act r ≠ 0 := by
  have ht := hW.sown t r (by rw [h]; rfl)
  refine ⟨(hW.ownr r t ht).1, (hW.ownr r t ht).2, ?_⟩
  rw [hA.act r t ht, h]
  simp [beg]

/-- A scan gets past a record only if the record is not in use, or its epoch is the one looked for. -/
theorem MStep.passed {s : St T R S X} {t : T} {m m' : Main R X} {g e p} (h : MStep s t m m' g e p) {d : Nat}
    {r : R} (hp : Passed d r m') :
    Ep.delta m = some d ∧
      (Passed d r m ∨ r ∉ s.recs ∨ s.free r = true ∨ s.act r = 0 ∨ s.ep r % M = d % M) := by
  cases h
  case hd k d' todo af => simp_all [Passed, Ep.delta, dkDelta]
  case free k d' a l af hf =>
    obtain ⟨rfl, -, h3⟩ := hp
    refine ⟨rfl, ?_⟩
    by_cases hr : r = a
    · subst hr; exact Or.inr (Or.inr (Or.inl hf))
    · exact Or.inl ⟨rfl, by simp, by simp [hr, h3]⟩
  case used => simp_all [Passed, Ep.delta, dkDelta]
  case inactive k d' a l af hf =>
    obtain ⟨rfl, -, h3⟩ := hp
    refine ⟨rfl, ?_⟩
    by_cases hr : r = a
    · subst hr; exact Or.inr (Or.inr (Or.inr (Or.inl hf)))
    · exact Or.inl ⟨rfl, by simp, by simp [hr, h3]⟩
  case same k d' a l af hf =>
    obtain ⟨rfl, -, h3⟩ := hp
    refine ⟨rfl, ?_⟩
    by_cases hr : r = a
    · subst hr; exact Or.inr (Or.inr (Or.inr (Or.inr hf)))
    · exact Or.inl ⟨rfl, by simp, by simp [hr, h3]⟩
  case goal bar _ _ _ _ _ hm => subst hm; cases bar <;> simp_all [Passed]
  case tickEnd bar _ _ _ hm => subst hm; cases bar <;> simp_all [Passed]
  case noTickEnd bar _ _ hm => subst hm; cases bar <;> simp_all [Passed]
  case quiet bar _ hm => subst hm; cases bar <;> simp_all [Passed]
  all_goals simp_all [Passed, Ep.delta, dkDelta]

theorem MStep.glob {s : St T R S X} {t : T} {m m' : Main R X} {g e p} (h : MStep s t m m' g e p) :
    g = s.G ∨ (g = s.G + 1 ∧ ∀ r, Passed s.G r m) := by
  cases h
  case tick h1 h2 => exact Or.inr ⟨by rw [h2], fun r => ⟨h2.symm, by simp, by simp⟩⟩
  case tickEnd h1 h2 _ => exact Or.inr ⟨by rw [h2], fun r => ⟨h2.symm, by simp, by simp⟩⟩
  case pollTick h2 => exact Or.inr ⟨by rw [h2], fun r => ⟨h2.symm, by simp, by simp⟩⟩
  all_goals exact Or.inl rfl

theorem MStep.dlt {s : St T R S X} {t : T} {m m' : Main R X} {g e p} (h : MStep s t m m' g e p) {d : Nat}
    (hd : Ep.delta m' = some d) : Ep.delta m = some d ∨ d ≤ g := by
  cases h
  case goal bar _ _ _ _ _ hm => subst hm; cases bar <;> simp_all [Ep.delta, dkDelta]
  case tickEnd bar _ _ _ hm => subst hm; cases bar <;> simp_all [Ep.delta, dkDelta]
  case noTickEnd bar _ _ hm => subst hm; cases bar <;> simp_all [Ep.delta, dkDelta]
  case quiet bar _ hm => subst hm; cases bar <;> simp_all [Ep.delta, dkDelta]
  all_goals simp_all [Ep.delta, dkDelta]

theorem MStep.eps {s : St T R S X} {t : T} {m m' : Main R X} {g e p} (h : MStep s t m m' g e p) :
    e = s.ep ∨ ∃ r d, e = upd s.ep r d ∧ m = .scan (.poll r) d [] false .st := by
  cases h
  case pollQuiet r d => exact Or.inr ⟨r, d, rfl, rfl⟩
  all_goals exact Or.inl rfl

theorem MStep.aff {s : St T R S X} {t : T} {m m' : Main R X} {g e p} (h : MStep s t m m' g e p)
    (ih : ∀ k d l ph, m = .scan k d l false ph → ph ≠ .ep ∧ ph ≠ .gl) :
    ∀ k d l ph, m' = .scan k d l false ph → ph ≠ .ep ∧ ph ≠ .gl := by
  cases h
  case goal bar _ _ _ _ _ hm => subst hm; cases bar <;> simp
  case tickEnd bar _ _ _ hm => subst hm; cases bar <;> simp
  case noTickEnd bar _ _ hm => subst hm; cases bar <;> simp
  case quiet bar _ hm => subst hm; cases bar <;> simp
  case differ =>
    intro k d l ph h
    simp only [Main.scan.injEq] at h
    obtain ⟨rfl, rfl, rfl, rfl, rfl⟩ := h
    exact absurd rfl (ih _ _ _ _ rfl).1
  all_goals (simp; try grind)

theorem MStep.slf {s : St T R S X} {t : T} {m m' : Main R X} {g e p} (h : MStep s t m m' g e p) {r : R}
    (hr : mainRec m = some r → r ∈ s.recs ∧ s.free r = false)
    (ha : s.act r = 0 → ∀ x ∈ s.opn, s.sr x ≠ r)
    (ia : ∀ k d l ph, m = .scan k d l false ph → ph ≠ .ep ∧ ph ≠ .gl)
    (ih : ∀ d l ph, m = .scan (.poll r) d l false ph → ph = .hd ∨ r ∈ l ∨ ∀ x ∈ s.opn, s.sr x ≠ r) :
    ∀ d l ph, m' = .scan (.poll r) d l false ph → ph = .hd ∨ r ∈ l ∨ ∀ x ∈ s.opn, s.sr x ≠ r := by
  intro d l ph hm'
  cases h
  case goal bar _ _ _ _ _ hm => subst hm; cases bar <;> simp at hm'
  case tickEnd bar _ _ _ hm => subst hm; cases bar <;> simp at hm'
  case noTickEnd bar _ _ hm => subst hm; cases bar <;> simp at hm'
  case quiet bar _ hm => subst hm; cases bar <;> simp at hm'
  case hd => 
    simp only [Main.scan.injEq] at hm'
    obtain ⟨rfl, rfl, rfl, -, rfl⟩ := hm'
    exact Or.inr (Or.inl (hr rfl).1)
  case free a l' af hf =>
    simp only [Main.scan.injEq] at hm'
    obtain ⟨rfl, rfl, rfl, rfl, rfl⟩ := hm'
    have h1 := ih _ _ _ rfl
    have h2 := (hr rfl).2
    keep h1 h2 hf; grind
  case used => 
    simp only [Main.scan.injEq] at hm'
    obtain ⟨rfl, rfl, rfl, rfl, rfl⟩ := hm'
    have h1 := ih _ _ _ rfl
    keep h1; grind
  case inactive a l' af hf =>
    simp only [Main.scan.injEq] at hm'
    obtain ⟨rfl, rfl, rfl, rfl, rfl⟩ := hm'
    have h1 := ih _ _ _ rfl
    keep h1 ha hf; grind
  case same a l' af hf =>
    simp only [Main.scan.injEq] at hm'
    obtain ⟨rfl, rfl, rfl, rfl, rfl⟩ := hm'
    exact absurd rfl (ia _ _ _ _ rfl).1
  all_goals simp at hm'
  case dFirst => exact Or.inl hm'.2.2.2.symm

theorem Held.sub {s s' : St T R S X} {r : R} (h : Held s' r) (ho : s'.opn = s.opn) (hr : s'.sr = s.sr)
    (hs : ∀ t r x, s'.sub t = .a0 r x → s.sub t = .a0 r x) : Held s r := by
  rcases h with ⟨x, hx, rfl⟩ | ⟨t, x, hq⟩
  · exact Or.inl ⟨x, ho ▸ hx, by rw [hr]⟩
  · exact Or.inr ⟨t, x, hs t r x hq⟩

theorem invE_main {s s' : St T R S X} {t : T} (hW : InvW c s) (hA : InvA c s) (hI : InvE s)
    (h : step c s (.main t) = some s') : InvE s' := by
  simp only [step] at h
  split at h
  case isFalse => cases h
  next hn =>
  obtain ⟨m', F, hM⟩ := main_cases h
  have hG := hM.glob
  have hE : ∀ r, Held s r ∨ (∃ u x n g, s.sub u = .b2 r x n g) → s'.ep r = s.ep r := by
    intro r hr
    rcases hM.eps with he | ⟨q, d, he, hm⟩
    · rw [he]
    · rw [he]
      refine upd_ne _ _ ?_
      rintro rfl
      have ho := hW.mown t r (by rw [hm]; rfl)
      have hs : ∀ u, subRec (s.sub u) = some r → u = t := fun u hu => by
        have := hW.sown u r hu; rw [ho] at this; simpa using this.symm
      rcases hr with (⟨x, hx, hxr⟩ | ⟨u, x, hu⟩) | ⟨u, x, n, g, hu⟩
      · rcases hI.self t r d [] .st hm with h1 | h1 | h1
        · cases h1
        · cases h1
        · exact h1 x hx hxr
      · have := hs u (by rw [hu]; rfl); subst this; rw [hn] at hu; cases hu
      · have := hs u (by rw [hu]; rfl); subst this; rw [hn] at hu; cases hu
  have hH : ∀ r, Held s' r → Held s r := fun r hr => hr.sub F.opn F.sr (fun u q x hu => by rwa [F.sub] at hu)
  have hgg : s.G ≤ s'.G := by rcases hG with h | h <;> omega
  have hb := hI.held
  have hp := hI.pass
  constructor
  · intro r hr
    have h1 := hb r (hH r hr)
    rw [F.base, hE r (Or.inl (hH r hr))]
    rcases hG with h | ⟨h, h2⟩
    · rw [h]; exact h1
    · have := hp r (hH r hr) t s.G (h2 r)
      omega
  · rw [F.opn, F.base, F.sr, F.se]
    intro x hx
    have := hI.se x hx
    omega
  · intro r hr u d hd
    rw [F.base]
    have hr' := hH r hr
    rw [F.main] at hd
    by_cases hu : u = t
    · subst hu
      rw [upd_same] at hd
      obtain ⟨h1, h2⟩ := hM.passed hd
      have ha := held_act hW hA hr'
      rcases h2 with h2 | h2 | h2 | h2 | h2
      · exact hp r hr' u d h2
      · exact absurd ha.2.1 h2
      · rw [ha.2.2.1] at h2; cases h2
      · exact absurd h2 ha.2.2.2
      · have h3 := hb r hr'
        have h4 := hI.dl u d h1
        simp only [M] at h2
        omega
    · rw [upd_ne _ _ hu] at hd
      exact hp r hr' u d hd
  · rw [F.sub]
    intro u r x n g hu
    have h1 := hI.b2 u r x n g hu
    rw [hE r (Or.inr ⟨u, x, n, g, hu⟩)]
    rcases hG with h | ⟨h, h2⟩
    · rw [h]; exact h1
    · have h3 := hI.b2p u r x n g hu t s.G (h2 r)
      refine ⟨by omega, by omega, fun h4 => ?_⟩
      rcases h3 with h3 | h3
      · omega
      · exact h3.2
  · rw [F.sub]
    intro u r x n g hu v d hd
    rw [hE r (Or.inr ⟨u, x, n, g, hu⟩)]
    rw [F.main] at hd
    by_cases hv : v = t
    · subst hv
      rw [upd_same] at hd
      obtain ⟨h1, h2⟩ := hM.passed hd
      have ha := b2_act hW hA hu
      rcases h2 with h2 | h2 | h2 | h2 | h2
      · exact hI.b2p u r x n g hu v d h2
      · exact absurd ha.1 h2
      · rw [ha.2.1] at h2; cases h2
      · exact absurd h2 ha.2.2
      · have h3 := hI.b2 u r x n g hu
        have h4 := hI.dl v d h1
        simp only [M] at h2 h3 ⊢
        by_cases h5 : d ≤ g
        · exact Or.inl h5
        · right
          have h6 : d = g + 1 := by
            by_contra h7
            have h8 : d = g + 2 := by omega
            have h9 := h3.2.2 (by omega)
            omega
          exact ⟨h6, by rw [h2, h6]⟩
    · rw [upd_ne _ _ hv] at hd
      exact hI.b2p u r x n g hu v d hd
  · intro u d hd
    rw [F.main] at hd
    by_cases hu : u = t
    · subst hu
      rw [upd_same] at hd
      rcases hM.dlt hd with h1 | h1
      · have := hI.dl u d h1; omega
      · exact h1
    · rw [upd_ne _ _ hu] at hd
      have := hI.dl u d hd; omega
  · rw [F.opn, F.nul, F.se, F.be, F.sr, F.bk]; exact hI.bkt
  · rw [F.sub, F.be, F.bk, F.opn, F.sr, F.base]
    intro u r x hu
    have := hI.e1 u r x hu
    exact ⟨by omega, this.2⟩
  · intro u k d l ph hm
    rw [F.main] at hm
    by_cases hu : u = t
    · subst hu
      rw [upd_same] at hm
      exact hM.aff (hI.af u) k d l ph hm
    · rw [upd_ne _ _ hu] at hm
      exact hI.af u k d l ph hm
  · intro u r d l ph hm
    rw [F.main] at hm
    rw [F.opn, F.sr]
    by_cases hu : u = t
    · subst hu
      rw [upd_same] at hm
      refine hM.slf (fun hr => hW.ownr r u (hW.mown u r hr)) ?_ (hI.af u) (hI.self u r) d l ph hm
      intro h0 x hx hxr
      exact (held_act hW hA (Or.inl ⟨x, hx, hxr⟩)).2.2.2 h0
    · rw [upd_ne _ _ hu] at hm
      exact hI.self u r d l ph hm

theorem invE_sub {s s' : St T R S X} {t : T} (hm : c.mix = false) (hW : InvW c s) (hA : InvA c s) (hI : InvE s)
    (h : step c s (.sub t) = some s') : InvE s' := by
  obtain ⟨held, se, pass, b2, b2p, dl, bkt, e1, af, self⟩ := hI
  simp only [step, subStep, gs, opened] at h
  split at h <;> rename_i hq
  case h_1 => cases h
  case h_2 r x n =>
    simp only [Option.some.injEq] at h
    subst h
    have hH : ∀ q, Held { s with sub := upd s.sub t (.b2 r x n s.G) } q → Held s q := fun q h =>
      h.sub rfl rfl (fun u q x hu => by dsimp only at hu; keep hu; grind)
    constructor <;> dsimp only
    · exact fun q hq' => held q (hH q hq')
    · exact se
    · exact fun q hq' => pass q (hH q hq')
    · keep b2; grind
    · have := fun u d (hp : Passed d r (s.main u)) => dl u d hp.delta
      keep b2p this; grind
    · exact dl
    · exact bkt
    · keep e1; grind
    · exact af
    · exact self
  case h_3 r x n g =>
    have k1 := hW.sown t _ (by rw [hq]; rfl)
    have k2 := hW.skey t _ _ (by rw [hq]; rfl)
    have k4 := hA.kb2 _ _ _ _ _ hq
    have k5 := b2 _ _ _ _ _ hq
    have k6 := hW.scan t (by rw [hq]; simp)
    have k7 := fun u d (hp : Passed d r (s.main u)) => dl u d hp.delta
    have k8 : ∀ u, subRec (s.sub u) = some r → u = t := fun u hu => by
      have := hW.sown u r hu; rw [k1] at this; simpa using this.symm
    have k9 : ∀ u d l af ph, s.main u ≠ .scan (.poll r) d l af ph := fun u d l af ph hu => by
      have := hW.mown u r (by rw [hu]; rfl)
      rw [k1] at this; cases this; rw [hu] at k6; simp [canSub] at k6
    have b2' : ∀ u q y m g', upd s.sub t .none u = .b2 q y m g' ∨ upd s.sub t (.a0 r x) u = .b2 q y m g' →
        q ≠ r ∧ s.sub u = .b2 q y m g' := by
      intro u q y m g' hu
      have hu' : u ≠ t ∧ s.sub u = .b2 q y m g' := by keep hu; grind
      refine ⟨?_, hu'.2⟩
      rintro rfl
      exact hu'.1 (k8 u (by rw [hu'.2]; rfl))
    have e1' : ∀ u q y, upd s.sub t .none u = .e1 q y ∨ upd s.sub t (.a0 r x) u = .e1 q y →
        q ≠ r ∧ s.sub u = .e1 q y := by
      intro u q y hu
      have hu' : u ≠ t ∧ s.sub u = .e1 q y := by keep hu; grind
      refine ⟨?_, hu'.2⟩
      rintro rfl
      exact hu'.1 (k8 u (by rw [hu'.2]; rfl))
    split at h <;> simp only [Option.some.injEq] at h <;> subst h
    · have hH : ∀ q, q ≠ r → Held { s with ep := upd s.ep r g, base := upd s.base r s.G, sub := upd s.sub t .none, opn := x :: s.opn, se := upd s.se x s.G } q → Held s q := by
        rintro q hqr (⟨y, hy, hyq⟩ | ⟨u, y, hu⟩)
        · dsimp only at hy hyq
          left
          refine ⟨y, ?_, hyq⟩
          rcases List.mem_cons.1 hy with rfl | hy
          · exact absurd (hyq.symm.trans k2.2.2) hqr
          · exact hy
        · right; refine ⟨u, y, ?_⟩; dsimp only at hu; keep hu; grind
      have hx : ∀ y ∈ s.opn, y ≠ x := fun y hy e => k2.2.1 (e ▸ hy)
      constructor <;> dsimp only
      · intro q hq'
        by_cases hqr : q = r
        · subst hqr; simp only [upd_same]; omega
        · rw [upd_ne _ _ hqr, upd_ne _ _ hqr]; exact held q (hH q hqr hq')
      · keep se k2 k4 hx; grind
      · intro q hq'
        by_cases hqr : q = r
        · subst hqr; simp only [upd_same]; exact k7
        · rw [upd_ne _ _ hqr]; exact pass q (hH q hqr hq')
      · intro u q y m g' hu
        obtain ⟨h1, h2⟩ := b2' u q y m g' (Or.inl hu)
        rw [upd_ne _ _ h1]; exact b2 u q y m g' h2
      · intro u q y m g' hu
        obtain ⟨h1, h2⟩ := b2' u q y m g' (Or.inl hu)
        rw [upd_ne _ _ h1]; exact b2p u q y m g' h2
      · exact dl
      · keep bkt hx k4; grind
      · intro u q y hu
        obtain ⟨h1, h2⟩ := e1' u q y (Or.inl hu)
        rw [upd_ne _ _ h1]
        have := e1 u q y h2
        refine ⟨this.1, fun z hz => ?_⟩
        rcases List.mem_cons.1 hz with rfl | hz
        · intro e; exact absurd (e.symm.trans k2.2.2) h1
        · exact this.2 z hz
      · exact af
      · intro u q d l ph hu
        rcases self u q d l ph hu with h1 | h1 | h1
        · exact Or.inl h1
        · exact Or.inr (Or.inl h1)
        · refine Or.inr (Or.inr fun y hy => ?_)
          rcases List.mem_cons.1 hy with rfl | hy
          · rw [k2.2.2]; rintro rfl; exact k9 u d l _ ph hu
          · exact h1 y hy
    · have hH : ∀ q, q ≠ r → Held { s with ep := upd s.ep r g, base := upd s.base r s.G, sub := upd s.sub t (.a0 r x) } q → Held s q := by
        rintro q hqr (⟨y, hy, hyq⟩ | ⟨u, y, hu⟩)
        · exact Or.inl ⟨y, hy, hyq⟩
        · right; refine ⟨u, y, ?_⟩; dsimp only at hu; keep hu hqr; grind
      constructor <;> dsimp only
      · intro q hq'
        by_cases hqr : q = r
        · subst hqr; simp only [upd_same]; omega
        · rw [upd_ne _ _ hqr, upd_ne _ _ hqr]; exact held q (hH q hqr hq')
      · keep se k4; grind
      · intro q hq'
        by_cases hqr : q = r
        · subst hqr; simp only [upd_same]; exact k7
        · rw [upd_ne _ _ hqr]; exact pass q (hH q hqr hq')
      · intro u q y m g' hu
        obtain ⟨h1, h2⟩ := b2' u q y m g' (Or.inr hu)
        rw [upd_ne _ _ h1]; exact b2 u q y m g' h2
      · intro u q y m g' hu
        obtain ⟨h1, h2⟩ := b2' u q y m g' (Or.inr hu)
        rw [upd_ne _ _ h1]; exact b2p u q y m g' h2
      · exact dl
      · exact bkt
      · intro u q y hu
        obtain ⟨h1, h2⟩ := e1' u q y (Or.inr hu)
        rw [upd_ne _ _ h1]
        exact e1 u q y h2
      · exact af
      · exact self
  case h_4 r x =>
    have k1 := hW.sown t _ (by rw [hq]; rfl)
    have k2 := hW.skey t _ _ (by rw [hq]; rfl)
    have k3 := key_inj hW.sown hW.skey k1 k2.2.2
    have k4 := hA.ka0 _ _ _ hq
    have k5 := held r (Or.inr ⟨t, x, hq⟩)
    have k6 := hW.scan t (by rw [hq]; simp)
    have k7 := hA.bc r t k1 (s.G % 2) (Nat.mod_lt _ (by decide))
    rw [hq] at k7
    simp only [lv, Nat.add_zero] at k7
    have k8 : ∀ u, subRec (s.sub u) = some r → u = t := fun u hu => by
      have := hW.sown u r hu; rw [k1] at this; simpa using this.symm
    have k9 : ∀ u d l af ph, s.main u ≠ .scan (.poll r) d l af ph := fun u d l af ph hu => by
      have := hW.mown u r (by rw [hu]; rfl)
      rw [k1] at this; cases this; rw [hu] at k6; simp [canSub] at k6
    have hx : ∀ y ∈ s.opn, y ≠ x := fun y hy e => k2.2.1 (e ▸ hy)
    -- the bucket epoch, old or new, is the global epoch
    have hbe : s.bc r (s.G % 2) ≠ 0 → s.be r (s.G % 2) = s.G := by
      intro h0
      have : ¬ ∀ y ∈ s.opn, s.sr y = r → s.nul y = false → s.bk y ≠ s.G % 2 := by
        rw [← nB_zero, ← k7]; exact h0
      obtain ⟨y, hy, hyr, hyn, hyb⟩ : ∃ y ∈ s.opn, s.sr y = r ∧ s.nul y = false ∧ s.bk y = s.G % 2 := by
        by_contra hc
        exact this fun y hy h1 h2 h3 => hc ⟨y, hy, h1, h2, h3⟩
      have h1 := bkt y hy hyn
      have h2 := se y hy
      rw [hyr] at h1 h2
      rw [hyb] at h1
      omega
    have hold : s.bc r (s.G % 2) = 0 → ∀ y ∈ s.opn, s.sr y = r → s.nul y = false → s.bk y ≠ s.G % 2 := by
      intro h0; apply nB_zero.1; rw [← k7]; exact h0
    simp only [Option.some.injEq] at h
    subst h
    have hH : ∀ q, Held { s with bc := upd2 s.bc r (s.G % 2) (s.bc r (s.G % 2) + 1), be := if s.bc r (s.G % 2) = 0 then upd2 s.be r (s.G % 2) s.G else s.be, bk := upd s.bk x (s.G % 2), sub := upd s.sub t .none, opn := x :: s.opn, se := upd s.se x s.G } q → Held s q := by
      rintro q (⟨y, hy, hyq⟩ | ⟨u, y, hu⟩)
      · dsimp only at hy hyq
        rcases List.mem_cons.1 hy with rfl | hy
        · exact Or.inr ⟨t, y, by rw [hq, ← hyq, k2.2.2]⟩
        · exact Or.inl ⟨y, hy, hyq⟩
      · right; refine ⟨u, y, ?_⟩; dsimp only at hu; keep hu; grind
    constructor <;> dsimp only
    · exact fun q hq' => held q (hH q hq')
    · keep se k2 k5 hx; grind
    · exact fun q hq' => pass q (hH q hq')
    · keep b2; grind
    · keep b2p; grind
    · exact dl
    · intro y hy hyn
      rcases List.mem_cons.1 hy with rfl | hy
      · rw [k2.2.2]
        simp only [upd_same, and_true]
        split
        · simp only [upd2_apply, and_self, if_true]
        · next h0 => exact (hbe h0).symm
      · have h1 := bkt y hy hyn
        rw [upd_ne _ _ (hx y hy), upd_ne _ _ (hx y hy)]
        refine ⟨?_, h1.2⟩
        split
        · next h0 =>
          rw [upd2_apply, if_neg]
          · exact h1.1
          · rintro ⟨h2, h3⟩; exact hold h0 y hy h2 hyn h3
        · exact h1.1
    · intro u q y hu
      have hu' : u ≠ t ∧ s.sub u = .e1 q y := by keep hu; grind
      have hqr : q ≠ r := by rintro rfl; exact hu'.1 (k8 u (by rw [hu'.2]; rfl))
      have hyx : y ≠ x := k3 u q y hu'.1 (by rw [hu'.2]; rfl)
      have h1 := e1 u q y hu'.2
      rw [upd_ne _ _ hyx]
      have h2 : (if s.bc r (s.G % 2) = 0 then upd2 s.be r (s.G % 2) s.G else s.be) q (s.bk y) = s.be q (s.bk y) := by
        split
        · rw [upd2_apply, if_neg (fun e => hqr e.1)]
        · rfl
      rw [h2]
      refine ⟨h1.1, fun z hz => ?_⟩
      rcases List.mem_cons.1 hz with rfl | hz
      · intro e; exact absurd (e.symm.trans k2.2.2) hqr
      · exact h1.2 z hz
    · exact af
    · intro u q d l ph hu
      rcases self u q d l ph hu with h1 | h1 | h1
      · exact Or.inl h1
      · exact Or.inr (Or.inl h1)
      · refine Or.inr (Or.inr fun y hy => ?_)
        rcases List.mem_cons.1 hy with rfl | hy
        · rw [k2.2.2]; rintro rfl; exact k9 u d l _ ph hu
        · exact h1 y hy
  case h_5 r x =>
    have k1 := hW.sown t _ (by rw [hq]; rfl)
    have k2 := hW.skey t _ _ (by rw [hq]; rfl)
    have k4 := hA.ke1 _ _ _ hq
    have k5 := e1 _ _ _ hq
    have k8 : ∀ u, subRec (s.sub u) = some r → u = t := fun u hu => by
      have := hW.sown u r hu; rw [k1] at this; simpa using this.symm
    have k10 : ∀ y ∈ s.opn, s.sr y = r → s.nul y = false := fun y hy hyr =>
      (hA.kinds hm t r x (by rw [hq]; rfl) y hy hyr).trans k4.1
    have b2' : ∀ u q y m g', upd s.sub t .none u = .b2 q y m g' → q ≠ r ∧ s.sub u = .b2 q y m g' := by
      intro u q y m g' hu
      have hu' : u ≠ t ∧ s.sub u = .b2 q y m g' := by keep hu; grind
      refine ⟨?_, hu'.2⟩
      rintro rfl
      exact hu'.1 (k8 u (by rw [hu'.2]; rfl))
    have e1' : ∀ u q y, upd s.sub t .none u = .e1 q y → q ≠ r ∧ s.sub u = .e1 q y := by
      intro u q y hu
      have hu' : u ≠ t ∧ s.sub u = .e1 q y := by keep hu; grind
      refine ⟨?_, hu'.2⟩
      rintro rfl
      exact hu'.1 (k8 u (by rw [hu'.2]; rfl))
    have hH : ∀ (s1 : St T R S X) q, Held s1 q → s1.opn = s.opn → s1.sr = s.sr → s1.sub = upd s.sub t .none →
        Held s q := fun s1 q h h1 h2 h3 =>
      h.sub h1 h2 (fun u q x hu => by rw [h3] at hu; keep hu; grind)
    have same : ∀ bc' use', InvE { s with bc := bc', use := use', sub := upd s.sub t .none } := by
      intro bc' use'
      constructor <;> dsimp only
      · exact fun q hq' => held q (hH _ q hq' rfl rfl rfl)
      · exact se
      · exact fun q hq' => pass q (hH _ q hq' rfl rfl rfl)
      · exact fun u q y m g' hu => b2 u q y m g' (b2' u q y m g' hu).2
      · exact fun u q y m g' hu => b2p u q y m g' (b2' u q y m g' hu).2
      · exact dl
      · exact bkt
      · exact fun u q y hu => e1 u q y (e1' u q y hu).2
      · exact af
      · exact self
    split at h
    · simp only [Option.some.injEq] at h; subst h; exact same _ _
    · split at h
      case isFalse => simp only [Option.some.injEq] at h; subst h; exact same _ _
      next h0 h1 =>
      simp only [Option.some.injEq] at h
      subst h
      have k6 := hA.bc r t k1 (s.bk x) k4.2
      rw [hq] at k6
      simp only [lv, and_self, if_true] at k6
      have z1 : nB s.opn s.sr s.nul s.bk r (s.bk x) = 0 := by omega
      have z1 := nB_zero.1 z1
      have k7 := hA.bc r t k1 ((s.bk x + 1) % 2) (Nat.mod_lt _ (by decide))
      rw [hq] at k7
      have hne : s.bk x ≠ (s.bk x + 1) % 2 := by omega
      simp only [lv, hne, and_false, if_false, Nat.add_zero] at k7
      have : ¬ ∀ y ∈ s.opn, s.sr y = r → s.nul y = false → s.bk y ≠ (s.bk x + 1) % 2 := by
        rw [← nB_zero, ← k7]; omega
      obtain ⟨y, hy, hyr, hyn, hyb⟩ : ∃ y ∈ s.opn, s.sr y = r ∧ s.nul y = false ∧ s.bk y = (s.bk x + 1) % 2 := by
        by_contra hc
        exact this fun y hy h1 h2 h3 => hc ⟨y, hy, h1, h2, h3⟩
      have all : ∀ z ∈ s.opn, s.sr z = r → s.se z = s.be r ((s.bk x + 1) % 2) := by
        intro z hz hzr
        have hzn := k10 z hz hzr
        have h2 := z1 z hz hzr hzn
        have h3 := hA.bk z hz hzn
        have h4 := bkt z hz hzn
        have : s.bk z = (s.bk x + 1) % 2 := by omega
        rw [← this, h4.1, hzr]
      have hse := se y hy
      rw [all y hy hyr, hyr] at hse
      have hhr := held r (Or.inl ⟨y, hy, hyr⟩)
      have hpr := pass r (Or.inl ⟨y, hy, hyr⟩)
      constructor <;> dsimp only
      · intro q hq'
        have hq' := hH _ q hq' rfl rfl rfl
        by_cases hqr : q = r
        · subst hqr; simp only [upd_same]; omega
        · rw [upd_ne _ _ hqr, upd_ne _ _ hqr]; exact held q hq'
      · intro z hz
        by_cases hzr : s.sr z = r
        · rw [hzr, upd_same, all z hz hzr]; omega
        · rw [upd_ne _ _ hzr]; exact se z hz
      · intro q hq'
        have hq' := hH _ q hq' rfl rfl rfl
        by_cases hqr : q = r
        · subst hqr; rw [upd_same]; exact fun u d hd => Nat.le_trans (hpr u d hd) hse.1
        · rw [upd_ne _ _ hqr]; exact pass q hq'
      · intro u q y m g' hu
        obtain ⟨h1, h2⟩ := b2' u q y m g' hu
        rw [upd_ne _ _ h1]; exact b2 u q y m g' h2
      · intro u q y m g' hu
        obtain ⟨h1, h2⟩ := b2' u q y m g' hu
        rw [upd_ne _ _ h1]; exact b2p u q y m g' h2
      · exact dl
      · exact bkt
      · intro u q y hu
        obtain ⟨h1, h2⟩ := e1' u q y hu
        rw [upd_ne _ _ h1]; exact e1 u q y h2
      · exact af
      · exact self
  case h_6 r x e =>
    simp only [Option.some.injEq] at h
    subst h
    have hH : ∀ p q, Held { s with pend := p, sub := upd s.sub t .none } q → Held s q := fun p q h =>
      h.sub rfl rfl (fun u q x hu => by dsimp only at hu; keep hu; grind)
    constructor <;> dsimp only
    · exact fun q hq' => held q (hH _ q hq')
    · exact se
    · exact fun q hq' => pass q (hH _ q hq')
    · keep b2; grind
    · keep b2p; grind
    · exact dl
    · exact bkt
    · keep e1; grind
    · exact af
    · exact self
  case h_7 r =>
    simp only [Option.some.injEq] at h
    subst h
    have hH : ∀ f o q, Held { s with free := f, own := o, sub := upd s.sub t .none } q → Held s q := fun f o q h =>
      h.sub rfl rfl (fun u q x hu => by dsimp only at hu; keep hu; grind)
    constructor <;> dsimp only
    · exact fun q hq' => held q (hH _ _ q hq')
    · exact se
    · exact fun q hq' => pass q (hH _ _ q hq')
    · keep b2; grind
    · keep b2p; grind
    · exact dl
    · exact bkt
    · keep e1; grind
    · exact af
    · exact self

theorem invE_step {s s' : St T R S X} {a : Act T R S X} (hm : c.mix = false) (hW : InvW c s) (hA : InvA c s)
    (hI : InvE s) (h : step c s a = some s') : InvE s' := by
  cases a with
  | main t => exact invE_main hW hA hI h
  | sub t => exact invE_sub hm hW hA hI h
  | end_ t x =>
    obtain ⟨held, se, pass, b2, b2p, dl, bkt, e1, af, self⟩ := hI
    simp only [step, endStep, gs] at h
    split at h
    case isFalse => cases h
    rename_i hg
    simp only [Option.some.injEq] at h
    subst h
    obtain ⟨g1, g2, g3, g4, g5⟩ := hg
    have hme : ∀ y, y ∈ s.opn.erase x ↔ y ≠ x ∧ y ∈ s.opn := fun y => hW.nodup.mem_erase_iff
    have hmem : ∀ y, y ∈ s.opn.erase x → y ∈ s.opn := fun y hy => ((hme y).1 hy).2
    have k1 := se x g1
    have k2 := bkt x g1
    have hH : ∀ q (s1 : St T R S X), Held s1 q → s1.opn = s.opn.erase x → s1.sr = s.sr →
        s1.sub = upd s.sub t (if s.nul x then .none else .e1 (s.sr x) x) → Held s q := by
      rintro q s1 (⟨y, hy, hyq⟩ | ⟨u, y, hu⟩) h1 h2 h3
      · rw [h1] at hy; rw [h2] at hyq; exact Or.inl ⟨y, hmem y hy, hyq⟩
      · right; refine ⟨u, y, ?_⟩; rw [h3] at hu; keep hu; grind
    constructor <;> dsimp only
    · exact fun q hq => held q (hH q _ hq rfl rfl rfl)
    · exact fun y hy => se y (hmem y hy)
    · exact fun q hq => pass q (hH q _ hq rfl rfl rfl)
    · keep b2; grind
    · keep b2p; grind
    · exact dl
    · exact fun y hy => bkt y (hmem y hy)
    · intro u q y hu
      by_cases hut : u = t
      · subst hut
        rw [upd_same] at hu
        split at hu
        · cases hu
        · next hn =>
          cases hu
          have h1 := k2 (eq_false_of_ne_true hn)
          rw [← h1.1]
          exact ⟨k1.2, fun z hz hzr => k1.1⟩
      · rw [upd_ne _ _ hut] at hu
        have := e1 u q y hu
        exact ⟨this.1, fun z hz => this.2 z (hmem z hz)⟩
    · exact af
    · intro u q d l ph hu
      rcases self u q d l ph hu with h1 | h1 | h1
      · exact Or.inl h1
      · exact Or.inr (Or.inl h1)
      · exact Or.inr (Or.inr fun y hy => h1 y (hmem y hy))
  | begin t r x n =>
    obtain ⟨held, se, pass, b2, b2p, dl, bkt, e1, af, self⟩ := hI
    simp only [step, gs, opened] at h
    split at h
    case isFalse => cases h
    rename_i hg
    obtain ⟨g1, g2, g3, g4, g5⟩ := hg
    have hx : ∀ y ∈ s.opn, y ≠ x := fun y hy e => by rw [e] at hy; rw [hW.ouse x hy] at g4; simp at g4
    have k3 : ∀ y ∈ s.opn, upd s.sr x r y = s.sr y := fun y hy => upd_ne _ _ (hx y hy)
    have k4 : ∀ y ∈ s.opn, upd s.nul x n y = s.nul y := fun y hy => upd_ne _ _ (hx y hy)
    have e3 := hA.act r t g1
    rw [g2] at e3
    simp only [beg, Nat.add_zero] at e3
    have k9 : ∀ u d l af ph, s.main u ≠ .scan (.poll r) d l af ph := fun u d l af ph hu => by
      have := hW.mown u r (by rw [hu]; rfl)
      rw [g1] at this; cases this; rw [hu] at g3; simp [canSub] at g3
    have e4 : s.act r ≠ 0 → Held s r := by
      intro h0
      have : ¬ ∀ y ∈ s.opn, s.sr y ≠ r := by rw [← nO_zero, ← e3]; exact h0
      left
      by_contra hc
      exact this fun y hy hyr => hc ⟨y, hy, hyr⟩
    split at h
    · simp only [Option.some.injEq] at h
      subst h
      have hH : ∀ q (s1 : St T R S X), Held s1 q → s1.opn = s.opn → s1.sr = upd s.sr x r →
          s1.sub = upd s.sub t (.b1 r x n) → Held s q := by
        rintro q s1 (⟨y, hy, hyq⟩ | ⟨u, y, hu⟩) h1 h2 h3
        · rw [h1] at hy; rw [h2, k3 y hy] at hyq; exact Or.inl ⟨y, hy, hyq⟩
        · right; refine ⟨u, y, ?_⟩; rw [h3] at hu; keep hu; grind
      constructor <;> dsimp only
      · exact fun q hq => held q (hH q _ hq rfl rfl rfl)
      · keep se k3; grind
      · exact fun q hq => pass q (hH q _ hq rfl rfl rfl)
      · keep b2; grind
      · keep b2p; grind
      · exact dl
      · keep bkt k3 k4; grind
      · intro u q y hu
        have hu' : s.sub u = .e1 q y := by keep hu; grind
        have := e1 u q y hu'
        exact ⟨this.1, fun z hz => by rw [k3 z hz]; exact this.2 z hz⟩
      · exact af
      · intro u q d l ph hu
        rcases self u q d l ph hu with h1 | h1 | h1
        · exact Or.inl h1
        · exact Or.inr (Or.inl h1)
        · exact Or.inr (Or.inr fun y hy => by rw [k3 y hy]; exact h1 y hy)
    · next h0 =>
      have hhr := e4 h0
      have hb := held r hhr
      split at h <;> simp only [Option.some.injEq] at h <;> subst h
      · next hn =>
        subst hn
        have hH : ∀ q (s1 : St T R S X), Held s1 q → s1.opn = x :: s.opn → s1.sr = upd s.sr x r →
            s1.sub = s.sub → Held s q := by
          rintro q s1 (⟨y, hy, hyq⟩ | ⟨u, y, hu⟩) h1 h2 h3
          · rw [h1] at hy
            rcases List.mem_cons.1 hy with rfl | hy
            · rw [h2, upd_same] at hyq; rw [← hyq]; exact hhr
            · rw [h2, k3 y hy] at hyq; exact Or.inl ⟨y, hy, hyq⟩
          · right; exact ⟨u, y, by rwa [h3] at hu⟩
        have k8 : ∀ u, subRec (s.sub u) ≠ some r := fun u hu => by
          have := hW.sown u r hu; rw [g1] at this; cases this; rw [g2] at hu; cases hu
        constructor <;> dsimp only
        · exact fun q hq => held q (hH q _ hq rfl rfl rfl)
        · intro y hy
          rcases List.mem_cons.1 hy with rfl | hy
          · simp only [upd_same]; omega
          · rw [k3 y hy, upd_ne _ _ (hx y hy)]; exact se y hy
        · exact fun q hq => pass q (hH q _ hq rfl rfl rfl)
        · exact b2
        · exact b2p
        · exact dl
        · intro y hy hyn
          rcases List.mem_cons.1 hy with rfl | hy
          · rw [upd_same] at hyn; cases hyn
          · rw [k4 y hy] at hyn
            rw [k3 y hy, upd_ne _ _ (hx y hy)]; exact bkt y hy hyn
        · intro u q y hu
          have := e1 u q y hu
          refine ⟨this.1, fun z hz => ?_⟩
          rcases List.mem_cons.1 hz with rfl | hz
          · rw [upd_same]; rintro rfl; exact absurd (by rw [hu]; rfl) (k8 u)
          · rw [k3 z hz]; exact this.2 z hz
        · exact af
        · intro u q d l ph hu
          rcases self u q d l ph hu with h1 | h1 | h1
          · exact Or.inl h1
          · exact Or.inr (Or.inl h1)
          · refine Or.inr (Or.inr fun y hy => ?_)
            rcases List.mem_cons.1 hy with rfl | hy
            · rw [upd_same]; rintro rfl; exact k9 u d l _ ph hu
            · rw [k3 y hy]; exact h1 y hy
      · have hH : ∀ q (s1 : St T R S X), Held s1 q → s1.opn = s.opn → s1.sr = upd s.sr x r →
            s1.sub = upd s.sub t (.a0 r x) → Held s q := by
          rintro q s1 (⟨y, hy, hyq⟩ | ⟨u, y, hu⟩) h1 h2 h3
          · rw [h1] at hy; rw [h2, k3 y hy] at hyq; exact Or.inl ⟨y, hy, hyq⟩
          · rw [h3] at hu
            by_cases hut : u = t
            · subst hut; rw [upd_same] at hu; cases hu; exact hhr
            · rw [upd_ne _ _ hut] at hu; exact Or.inr ⟨u, y, hu⟩
        constructor <;> dsimp only
        · exact fun q hq => held q (hH q _ hq rfl rfl rfl)
        · keep se k3; grind
        · exact fun q hq => pass q (hH q _ hq rfl rfl rfl)
        · keep b2; grind
        · keep b2p; grind
        · exact dl
        · keep bkt k3 k4; grind
        · intro u q y hu
          have hu' : s.sub u = .e1 q y := by keep hu; grind
          have := e1 u q y hu'
          exact ⟨this.1, fun z hz => by rw [k3 z hz]; exact this.2 z hz⟩
        · exact af
        · intro u q d l ph hu
          rcases self u q d l ph hu with h1 | h1 | h1
          · exact Or.inl h1
          · exact Or.inr (Or.inl h1)
          · exact Or.inr (Or.inr fun y hy => by rw [k3 y hy]; exact h1 y hy)
  | register t r =>
    obtain ⟨held, se, pass, b2, b2p, dl, bkt, e1, af, self⟩ := hI
    simp only [step] at h
    step_split h
    rename_i hr
    have k1 : s.own r = none := by
      cases ho : s.own r with
      | none => rfl
      | some u => exact absurd (hW.ownr r u ho).1 hr
    have hH : ∀ q (s1 : St T R S X), Held s1 q → s1.opn = s.opn → s1.sr = s.sr → s1.sub = s.sub → Held s q :=
      fun q s1 hq h1 h2 h3 => hq.sub h1 h2 (fun u q y hu => by rwa [h3] at hu)
    have hHr : ∀ q, Held s q → q ≠ r := fun q hq e => hr (e ▸ (held_act hW hA hq).2.1)
    have ho : ∀ y ∈ s.opn, s.sr y ≠ r := fun y hy e => hW.oown y hy (e ▸ k1)
    have hs : ∀ u q, subRec (s.sub u) = some q → q ≠ r := fun u q hu e => by
      have := hW.sown u q hu; rw [e, k1] at this; cases this
    constructor <;> dsimp only
    · intro q hq
      have hq := hH q _ hq rfl rfl rfl
      rw [upd_ne _ _ (hHr q hq)]; exact held q hq
    · exact se
    · exact fun q hq => pass q (hH q _ hq rfl rfl rfl)
    · intro u q y m g hu
      rw [upd_ne _ _ (hs u q (by rw [hu]; rfl))]; exact b2 u q y m g hu
    · intro u q y m g hu
      rw [upd_ne _ _ (hs u q (by rw [hu]; rfl))]; exact b2p u q y m g hu
    · exact dl
    · intro y hy
      rw [upd_ne _ _ (ho y hy)]; exact bkt y hy
    · intro u q y hu
      rw [upd_ne _ _ (hs u q (by rw [hu]; rfl))]; exact e1 u q y hu
    · exact af
    · exact self
  | recycle t r =>
    obtain ⟨held, se, pass, b2, b2p, dl, bkt, e1, af, self⟩ := hI
    simp only [step] at h
    step_split h
    exact ⟨fun q hq => held q (hq.sub rfl rfl (fun _ _ _ h => h)), se,
      fun q hq => pass q (hq.sub rfl rfl (fun _ _ _ h => h)), b2, b2p, dl, bkt, e1, af, self⟩
  | unreg t r =>
    obtain ⟨held, se, pass, b2, b2p, dl, bkt, e1, af, self⟩ := hI
    simp only [step, gs] at h
    step_split h
    rename_i hg
    obtain ⟨g1, g2, g3, g4⟩ := hg
    have hH : ∀ q (s1 : St T R S X), Held s1 q → s1.opn = s.opn → s1.sr = s.sr →
        s1.sub = upd s.sub t (.un r) → Held s q :=
      fun q s1 hq h1 h2 h3 => hq.sub h1 h2 (fun u q y hu => by rw [h3] at hu; keep hu; grind)
    have hs : ∀ u q, subRec (s.sub u) = some q → q ≠ r := fun u q hu e => by
      have := hW.sown u q hu; rw [e, g1] at this; cases this; rw [g2] at hu; cases hu
    have hHr : ∀ q, Held s q → q ≠ r := by
      rintro q (⟨y, hy, hyq⟩ | ⟨u, y, hu⟩) e
      · exact g4 y hy (hyq.trans e)
      · exact hs u q (by rw [hu]; rfl) e
    constructor <;> dsimp only
    · intro q hq
      have hq := hH q _ hq rfl rfl rfl
      rw [upd_ne _ _ (hHr q hq)]; exact held q hq
    · exact se
    · exact fun q hq => pass q (hH q _ hq rfl rfl rfl)
    · intro u q y m g hu
      have hu : s.sub u = .b2 q y m g := by keep hu; grind
      rw [upd_ne _ _ (hs u q (by rw [hu]; rfl))]; exact b2 u q y m g hu
    · intro u q y m g hu
      have hu : s.sub u = .b2 q y m g := by keep hu; grind
      rw [upd_ne _ _ (hs u q (by rw [hu]; rfl))]; exact b2p u q y m g hu
    · exact dl
    · intro y hy
      rw [upd_ne _ _ (g4 y hy)]; exact bkt y hy
    · intro u q y hu
      have hu : s.sub u = .e1 q y := by keep hu; grind
      rw [upd_ne _ _ (hs u q (by rw [hu]; rfl))]; exact e1 u q y hu
    · exact af
    · exact self
  | call t r x =>
    obtain ⟨held, se, pass, b2, b2p, dl, bkt, e1, af, self⟩ := hI
    simp only [step, gs] at h
    step_split h
    have hH : ∀ q (s1 : St T R S X), Held s1 q → s1.opn = s.opn → s1.sr = s.sr →
        s1.sub = upd s.sub t (.c1 r x s.G) → Held s q :=
      fun q s1 hq h1 h2 h3 => hq.sub h1 h2 (fun u q y hu => by rw [h3] at hu; keep hu; grind)
    constructor <;> dsimp only
    · exact fun q hq => held q (hH q _ hq rfl rfl rfl)
    · exact se
    · exact fun q hq => pass q (hH q _ hq rfl rfl rfl)
    · keep b2; grind
    · keep b2p; grind
    · exact dl
    · exact bkt
    · keep e1; grind
    · exact af
    · exact self
  | sync t bar =>
    obtain ⟨held, se, pass, b2, b2p, dl, bkt, e1, af, self⟩ := hI
    simp only [step, gm] at h
    step_split h
    constructor <;> dsimp only
    · exact fun q hq => held q (hq.sub rfl rfl (fun _ _ _ h => h))
    · exact se
    · have := fun q (hq : Held s q) => pass q hq
      intro q hq u d hd
      refine pass q (hq.sub rfl rfl (fun _ _ _ h => h)) u d ?_
      keep hd; grind [Passed]
    · exact b2
    · keep b2p; grind [Passed]
    · keep dl; grind [delta]
    · exact bkt
    · exact e1
    · keep af; grind
    · keep self; grind
  | poll t r =>
    obtain ⟨held, se, pass, b2, b2p, dl, bkt, e1, af, self⟩ := hI
    simp only [step, gm] at h
    step_split h
    constructor <;> dsimp only
    · exact fun q hq => held q (hq.sub rfl rfl (fun _ _ _ h => h))
    · exact se
    · intro q hq u d hd
      refine pass q (hq.sub rfl rfl (fun _ _ _ h => h)) u d ?_
      keep hd; grind [Passed]
    · exact b2
    · keep b2p; grind [Passed]
    · keep dl; grind [delta]
    · exact bkt
    · exact e1
    · keep af; grind
    · keep self; grind

end Verif.Ep
