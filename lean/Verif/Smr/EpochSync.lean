import Verif.Smr.EpochBnd

/-!
# Epoch reclamation: `ck_epoch_synchronize`
-/

set_option linter.unusedSectionVars false
set_option linter.unusedSimpArgs false

namespace Verif.Ep

open Verif

variable {T R S X : Type} [DecidableEq T] [DecidableEq R] [DecidableEq S] [DecidableEq X] {c : Cfg}

/-- What a thread in `ck_epoch_synchronize` knows of the sections it has to wait for. -/
structure SI (s : St T R S X) (t : T) (m : Main R X) : Prop where
  sy1 : ∀ e i bar d l af ph, m = .scan (.sync e i bar) d l af ph → e ≤ d ∧ (0 < i → e < d)
  sy2 : ∀ e i bar d l af ph, m = .scan (.sync e i bar) d l af ph → ∀ z ∈ s.sw t, z ∈ s.opn ∧ s.se z ≤ e
  sy3 : ∀ e i bar d l ph, m = .scan (.sync e i bar) d l false ph → ∀ z ∈ s.sw t, ph = .hd ∨ s.sr z ∈ l

theorem goalMet_le {e d : Nat} (hed : e ≤ d) (h : goalMet e d = true) : e + 3 ≤ d := by
  simp only [goalMet, Bool.and_eq_true, decide_eq_true_eq, M] at h
  omega

/-- What is known when `ck_epoch_synchronize` leaves: none of the sections it found is open. -/
theorem sync_done {s : St T R S X} {t : T} {g e p} {m m' : Main R X} (hW : InvW c s) (hA : InvA c s) (hI : InvE s)
    (hm : s.main t = m) (hT : SI s t m)
    (hM : MStep s t m m' g e p) {e0 i bar d l af ph} (h1 : m = .scan (.sync e0 i bar) d l af ph)
    (h2 : ∀ e i bar d l af ph, m' ≠ .scan (.sync e i bar) d l af ph) : s.sw t = [] := by
  refine List.eq_nil_iff_forall_not_mem.2 fun z hz => ?_
  have a1 := hT.sy1 _ _ _ _ _ _ _ h1
  have a2 := hT.sy2 _ _ _ _ _ _ _ h1 z hz
  have hh : Held s (s.sr z) := Or.inl ⟨z, a2.1, rfl⟩
  have b1 := hI.held _ hh
  have b2 := hI.se z a2.1
  have b3 := hI.dl t d (by rw [hm, h1]; rfl)
  have b4 : ph ≠ .hd → l = [] → d ≤ s.base (s.sr z) := fun hph hl =>
    hI.pass _ hh t d (by rw [hm, h1, hl]; exact ⟨rfl, hph, by simp⟩)
  cases hM <;> (try (exact absurd rfl (h2 _ _ _ _ _ _ _))) <;> cases h1
  case goal hg hbar => have := goalMet_le (by omega) hg; omega
  case tickEnd hi hg hbar => have := b4 (by simp) rfl; have := a1.2 (by omega); omega
  case noTickEnd hi hbar => have := b4 (by simp) rfl; have := a1.2 (by omega); omega
  case quiet hbar => rcases hT.sy3 _ _ _ _ _ _ rfl z hz with h | h <;> cases h
  all_goals exact absurd rfl (h2 _ _ _ _ _ _ _)

theorem SI.mono {s s' : St T R S X} {t : T} {m : Main R X} (h : SI s t m)
    (hsw : ∀ z ∈ s'.sw t, z ∈ s.sw t)
    (ho : ∀ z ∈ s.opn, (z ∈ s'.opn ∧ s'.se z = s.se z ∧ s'.sr z = s.sr z) ∨ z ∉ s'.sw t) : SI s' t m := by
  constructor
  · exact h.sy1
  · intro e i bar d l af ph hm z hz
    have h1 := h.sy2 e i bar d l af ph hm z (hsw z hz)
    rcases ho z h1.1 with h2 | h2
    · rw [h2.2.1]; exact ⟨h2.1, h1.2⟩
    · exact absurd hz h2
  · intro e i bar d l ph hm z hz
    have h1 := h.sy2 e i bar d l false ph hm z (hsw z hz)
    rcases ho z h1.1 with h2 | h2
    · rw [h2.2.2]; exact h.sy3 e i bar d l ph hm z (hsw z hz)
    · exact absurd hz h2

theorem SI.of {s : St T R S X} {t : T} {m : Main R X} (h : ∀ e i bar d l af ph, m ≠ .scan (.sync e i bar) d l af ph) :
    SI s t m :=
  ⟨fun e i bar d l af ph h1 => absurd h1 (h e i bar d l af ph), fun e i bar d l af ph h1 => absurd h1 (h e i bar d l af ph),
    fun e i bar d l ph h1 => absurd h1 (h e i bar d l false ph)⟩

theorem si_main {s : St T R S X} {t : T} {m m' : Main R X} {g e p} (hW : InvW c s) (hA : InvA c s) (hE : InvE s)
    (hI : SI s t m) (hm : s.main t = m) (hM : MStep s t m m' g e p) : SI s t m' := by
  obtain ⟨sy1, sy2, sy3⟩ := hI
  have haf := hE.af t
  have hdl := hE.dl t
  have hopn : ∀ z ∈ s.opn, s.sr z ∈ s.recs ∧ s.free (s.sr z) = false ∧ s.act (s.sr z) ≠ 0 := by
    intro z hz
    have hh : Held s (s.sr z) := Or.inl ⟨z, hz, rfl⟩
    have := held_act hW hA hh
    exact ⟨this.2.1, this.2.2.1, this.2.2.2⟩
  have hleave : ∀ bar : Option R, SI s t (match bar with | none => .idle | some r => .recl r 0) := by
    intro bar; cases bar <;> exact SI.of (by simp)
  rw [hm] at *
  cases hM
  case goal h1 h2 => rw [h2]; exact hleave _
  case tickEnd h1 h2 h3 => rw [h3]; exact hleave _
  case noTickEnd h1 h3 => rw [h3]; exact hleave _
  case quiet h3 => rw [h3]; exact hleave _
  case p1 | p3 | recl | run | dFirst | dLast | dEnd | giveUp | dNext | pollTick | pollNoTick | pollQuiet =>
    exact SI.of (by simp)
  case tick e i bar d h1 h2 =>
    have a1 := sy1 _ _ _ _ _ _ _ rfl
    constructor
    · rintro e' i' bar' d' l af ph hm; cases hm; omega
    · rintro e' i' bar' d' l af ph hm; cases hm; exact sy2 _ _ _ _ _ _ _ rfl
    · rintro e' i' bar' d' l ph hm; cases hm; exact fun z hz => Or.inl rfl
  case noTick e i bar d h1 h2 =>
    have a1 := sy1 _ _ _ _ _ _ _ rfl
    have a3 := hdl d rfl
    constructor
    · rintro e' i' bar' d' l af ph hm; cases hm; simp only [M] at h2; omega
    · rintro e' i' bar' d' l af ph hm; cases hm; exact sy2 _ _ _ _ _ _ _ rfl
    · rintro e' i' bar' d' l ph hm; cases hm; exact fun z hz => Or.inl rfl
  case restart e i bar d a l af =>
    have a1 := sy1 _ _ _ _ _ _ _ rfl
    have a3 := hdl d rfl
    constructor
    · rintro e' i' bar' d' l af ph hm; cases hm; omega
    · rintro e' i' bar' d' l af ph hm; cases hm; exact sy2 _ _ _ _ _ _ _ rfl
    · rintro e' i' bar' d' l ph hm; cases hm; exact fun z hz => Or.inl rfl
  case differ e i bar d a l af =>
    constructor
    · rintro e' i' bar' d' l af ph hm; cases hm; exact sy1 _ _ _ _ _ _ _ rfl
    · rintro e' i' bar' d' l af ph hm; cases hm; exact sy2 _ _ _ _ _ _ _ rfl
    · rintro e' i' bar' d' l ph hm; cases hm; exact absurd rfl (haf _ _ _ _ rfl).1
  case again e i bar d a l af =>
    constructor
    · rintro e' i' bar' d' l af ph hm; cases hm; exact sy1 _ _ _ _ _ _ _ rfl
    · rintro e' i' bar' d' l af ph hm; cases hm; exact sy2 _ _ _ _ _ _ _ rfl
    · rintro e' i' bar' d' l ph hm; cases hm
  case hd k d todo af =>
    constructor
    · rintro e i bar d l af ph hm; cases hm; exact sy1 _ _ _ _ _ _ _ rfl
    · rintro e i bar d l af ph hm; cases hm; exact sy2 _ _ _ _ _ _ _ rfl
    · rintro e i bar d l ph hm z hz
      cases hm
      exact Or.inr (hopn z (sy2 _ _ _ _ _ _ _ rfl z hz).1).1
  case free k d a l af hf =>
    have hne : ∀ z ∈ s.opn, s.sr z ≠ a := fun z hz e => by
      have := (hopn z hz).2.1; rw [e, hf] at this; cases this
    constructor
    · rintro e i bar d l af ph hm; cases hm; exact sy1 _ _ _ _ _ _ _ rfl
    · rintro e i bar d l af ph hm; cases hm; exact sy2 _ _ _ _ _ _ _ rfl
    · rintro e i bar d l ph hm z hz
      cases hm
      have h1 := sy3 _ _ _ _ _ _ rfl z hz
      have h2 := hne z (sy2 _ _ _ _ _ _ _ rfl z hz).1
      keep h1 h2; grind
  case inactive k d a l af hf =>
    have hne : ∀ z ∈ s.opn, s.sr z ≠ a := fun z hz e => by
      have := (hopn z hz).2.2; rw [e] at this; exact this hf
    constructor
    · rintro e i bar d l af ph hm; cases hm; exact sy1 _ _ _ _ _ _ _ rfl
    · rintro e i bar d l af ph hm; cases hm; exact sy2 _ _ _ _ _ _ _ rfl
    · rintro e i bar d l ph hm z hz
      cases hm
      have h1 := sy3 _ _ _ _ _ _ rfl z hz
      have h2 := hne z (sy2 _ _ _ _ _ _ _ rfl z hz).1
      keep h1 h2; grind
  case used k d a l af hf =>
    constructor
    · rintro e i bar d l af ph hm; cases hm; exact sy1 _ _ _ _ _ _ _ rfl
    · rintro e i bar d l af ph hm; cases hm; exact sy2 _ _ _ _ _ _ _ rfl
    · rintro e i bar d l ph hm z hz
      cases hm
      have h1 := sy3 _ _ _ _ _ _ rfl z hz
      keep h1; grind
  case active k d a l af hf =>
    constructor
    · rintro e i bar d l af ph hm; cases hm; exact sy1 _ _ _ _ _ _ _ rfl
    · rintro e i bar d l af ph hm; cases hm; exact sy2 _ _ _ _ _ _ _ rfl
    · rintro e i bar d l ph hm; cases hm
  case same k d a l af hf =>
    constructor
    · rintro e i bar d l af ph hm; cases hm; exact sy1 _ _ _ _ _ _ _ rfl
    · rintro e i bar d l af ph hm; cases hm; exact sy2 _ _ _ _ _ _ _ rfl
    · rintro e i bar d l ph hm; cases hm; exact absurd rfl (haf _ _ _ _ rfl).1

theorem sw_step {s s' : St T R S X} {a : Act T R S X} (h : step c s a = some s') :
    s'.sw = s.sw ∨ (∃ t bar, a = .sync t bar ∧ s'.sw = upd s.sw t s.opn) ∨
      (∃ t x, a = .end_ t x ∧ s'.sw = fun u => (s.sw u).filter (· ≠ x)) := by
  cases a with
  | main t =>
    simp only [step] at h
    split at h
    · obtain ⟨m', F, -⟩ := main_cases h; exact Or.inl F.sw
    · cases h
  | sync t bar =>
    simp only [step, gm] at h
    split at h <;> cases h
    exact Or.inr (Or.inl ⟨t, bar, rfl, rfl⟩)
  | end_ t x =>
    simp only [step, gs, endStep] at h
    split at h <;> cases h
    exact Or.inr (Or.inr ⟨t, x, rfl, rfl⟩)
  | register | recycle | unreg | begin | call | poll | sub =>
    left
    simp only [step, subStep, gs, gm, opened] at h
    repeat' split at h
    all_goals first | (cases h; done) | (cases h; rfl)

theorem wait_step {s s' : St T R S X} {a : Act T R S X} (h : step c s a = some s') :
    (s'.wait = s.wait ∧ s'.busy = s.busy) ∨
    (∃ t r x, a = .call t r x ∧ s.busy x = false ∧ s'.wait = upd s.wait x s.opn ∧ s'.busy = upd s.busy x true) ∨
      (∃ t x, a = .end_ t x ∧ (s'.wait = fun d => (s.wait d).filter (· ≠ x)) ∧ s'.busy = s.busy) := by
  cases a with
  | main t =>
    simp only [step] at h
    split at h
    · obtain ⟨m', F, -⟩ := main_cases h; exact Or.inl ⟨F.wait, F.busy⟩
    · cases h
  | call t r x =>
    simp only [step, gs] at h
    split at h <;> cases h
    next hq => exact Or.inr (Or.inl ⟨t, r, x, rfl, hq.1, rfl, rfl⟩)
  | end_ t x =>
    simp only [step, gs, endStep] at h
    split at h <;> cases h
    exact Or.inr (Or.inr ⟨t, x, rfl, rfl, rfl⟩)
  | register | recycle | unreg | begin | sync | poll | sub =>
    left
    simp only [step, subStep, gs, gm, opened] at h
    repeat' split at h
    all_goals first | (cases h; done) | (cases h; exact ⟨rfl, rfl⟩)

theorem opn_step {s s' : St T R S X} {a : Act T R S X} (hW : InvW c s) (h : step c s a = some s') :
    (s'.opn = s.opn ∧ s'.se = s.se ∧ ∀ z ∈ s.opn, s'.sr z = s.sr z ∧ s'.nul z = s.nul z) ∨
    (∃ x, x ∉ s.opn ∧ s'.opn = x :: s.opn ∧ s'.se = upd s.se x s.G ∧
      ∀ z ∈ s.opn, s'.sr z = s.sr z ∧ s'.nul z = s.nul z) ∨
    (∃ t x, a = .end_ t x ∧ s'.opn = s.opn.erase x ∧ s'.se = s.se ∧ s'.sr = s.sr ∧ s'.nul = s.nul) := by
  cases a with
  | main t =>
    simp only [step] at h
    split at h
    · obtain ⟨m', F, -⟩ := main_cases h; exact Or.inl ⟨F.opn, F.se, fun z _ => ⟨by rw [F.sr], by rw [F.nul]⟩⟩
    · cases h
  | begin t r x n =>
    simp only [step, gs, opened] at h
    split at h
    case isFalse => cases h
    rename_i hg
    obtain ⟨g1, g2, g3, g4, g5⟩ := hg
    have hx : ∀ y ∈ s.opn, y ≠ x := fun y hy e => by rw [e] at hy; rw [hW.ouse x hy] at g4; simp at g4
    split at h
    · cases h; exact Or.inl ⟨rfl, rfl, fun z hz => ⟨upd_ne _ _ (hx z hz), upd_ne _ _ (hx z hz)⟩⟩
    · split at h <;> cases h
      · exact Or.inr (Or.inl ⟨x, fun hh => hx x hh rfl, rfl, rfl, fun z hz => ⟨upd_ne _ _ (hx z hz), upd_ne _ _ (hx z hz)⟩⟩)
      · exact Or.inl ⟨rfl, rfl, fun z hz => ⟨upd_ne _ _ (hx z hz), upd_ne _ _ (hx z hz)⟩⟩
  | sub t =>
    simp only [step, subStep, gs, opened] at h
    split at h <;> rename_i hq
    case h_3 r x n g =>
      have k2 := hW.skey t _ _ (by rw [hq]; rfl)
      split at h <;> cases h
      · exact Or.inr (Or.inl ⟨x, k2.2.1, rfl, rfl, fun z hz => ⟨rfl, rfl⟩⟩)
      · exact Or.inl ⟨rfl, rfl, fun z hz => ⟨rfl, rfl⟩⟩
    case h_4 r x =>
      have k2 := hW.skey t _ _ (by rw [hq]; rfl)
      cases h
      exact Or.inr (Or.inl ⟨x, k2.2.1, rfl, rfl, fun z hz => ⟨rfl, rfl⟩⟩)
    case h_5 =>
      split at h
      · cases h; exact Or.inl ⟨rfl, rfl, fun z hz => ⟨rfl, rfl⟩⟩
      · split at h <;> cases h <;> exact Or.inl ⟨rfl, rfl, fun z hz => ⟨rfl, rfl⟩⟩
    all_goals first | (cases h; done) | (cases h; exact Or.inl ⟨rfl, rfl, fun z hz => ⟨rfl, rfl⟩⟩)
  | end_ t x =>
    simp only [step, gs, endStep] at h
    split at h <;> cases h
    exact Or.inr (Or.inr ⟨t, x, rfl, rfl, rfl, rfl, rfl⟩)
  | register | recycle | unreg | call | sync | poll =>
    left
    simp only [step, gs, gm] at h
    repeat' split at h
    all_goals first | (cases h; done) | (cases h; exact ⟨rfl, rfl, fun z hz => ⟨rfl, rfl⟩⟩)

/-- An open section is left open, of the same record and with the same epoch, by everything but its end. -/
theorem opn_keep {s s' : St T R S X} {a : Act T R S X} (hW : InvW c s) (h : step c s a = some s') {z : S}
    (hz : z ∈ s.opn) (ha : ∀ t, a ≠ .end_ t z) : z ∈ s'.opn ∧ s'.se z = s.se z ∧ s'.sr z = s.sr z ∧ s'.nul z = s.nul z := by
  rcases opn_step hW h with ⟨h1, h2, h3⟩ | ⟨x, h0, h1, h2, h3⟩ | ⟨t, x, rfl, h1, h2, h3, h4⟩
  · rw [h1, h2]; exact ⟨hz, rfl, h3 z hz⟩
  · have : z ≠ x := fun e => h0 (e ▸ hz)
    rw [h1, h2, upd_ne _ _ this]; exact ⟨List.mem_cons_of_mem _ hz, rfl, h3 z hz⟩
  · have : z ≠ x := fun e => ha t (e ▸ rfl)
    rw [h1, h2, h3, h4]; exact ⟨hW.nodup.mem_erase_iff.2 ⟨this, hz⟩, rfl, rfl, rfl⟩

theorem sw_keep {s s' : St T R S X} {a : Act T R S X} (h : step c s a = some s') {z : S} {u : T}
    (hz : z ∈ s.sw u) (ha : ∀ t, a ≠ .end_ t z) (hb : ∀ bar, a ≠ .sync u bar) : z ∈ s'.sw u := by
  rcases sw_step h with h1 | ⟨t, bar, rfl, h1⟩ | ⟨t, x, rfl, h1⟩
  · rw [h1]; exact hz
  · have : u ≠ t := fun e => hb bar (e ▸ rfl)
    rw [h1, upd_ne _ _ this]; exact hz
  · have : z ≠ x := fun e => ha t (e ▸ rfl)
    rw [h1]; simp [hz, this]

theorem wait_keep {s s' : St T R S X} {a : Act T R S X} (h : step c s a = some s') {z : S} {x : X}
    (hx : s.busy x = true) (hz : z ∈ s.wait x) (ha : ∀ t, a ≠ .end_ t z) : s'.busy x = true ∧ z ∈ s'.wait x := by
  rcases wait_step h with ⟨h1, h2⟩ | ⟨t, r, y, rfl, h0, h1, h2⟩ | ⟨t, y, rfl, h1, h2⟩
  · rw [h1, h2]; exact ⟨hx, hz⟩
  · have : x ≠ y := by rintro rfl; rw [hx] at h0; cases h0
    rw [h1, h2, upd_ne _ _ this, upd_ne _ _ this]; exact ⟨hx, hz⟩
  · have : z ≠ y := fun e => ha t (e ▸ rfl)
    rw [h1, h2]; simp [hx, hz, this]

def InvY (s : St T R S X) : Prop := ∀ t, SI s t (s.main t)

theorem invY_init {s : St T R S X} (h : Init s) : InvY s := by
  obtain ⟨h1, h2, h3, h4, h5, h6, h7, h8, h9, h10⟩ := h
  intro t; rw [h5]; exact SI.of (by simp)

theorem main_step {s s' : St T R S X} {a : Act T R S X} (h : step c s a = some s') :
    s'.main = s.main ∨ (∃ t bar, a = .sync t bar ∧ s.main t = .idle ∧ s'.main = upd s.main t (.scan (.sync s.G 0 bar) s.G [] false .hd)) ∨
      (∃ t r, a = .poll t r ∧ s.main t = .idle ∧ s'.main = upd s.main t (.p1 r s.G)) ∨
      (∃ t m', a = .main t ∧ Frame s s' t m' ∧ MStep s t (s.main t) m' s'.G s'.ep s'.pend) := by
  cases a with
  | main t =>
    simp only [step] at h
    split at h
    · obtain ⟨m', F, hM⟩ := main_cases h; exact Or.inr (Or.inr (Or.inr ⟨t, m', rfl, F, hM⟩))
    · cases h
  | sync t bar =>
    simp only [step, gm] at h
    split at h <;> cases h
    next hq => exact Or.inr (Or.inl ⟨t, bar, rfl, hq.2.1, rfl⟩)
  | poll t r =>
    simp only [step, gm] at h
    split at h <;> cases h
    next hq => exact Or.inr (Or.inr (Or.inl ⟨t, r, rfl, hq.2.1, rfl⟩))
  | register | recycle | unreg | begin | call | end_ | sub =>
    left
    simp only [step, subStep, gs, endStep, opened] at h
    repeat' split at h
    all_goals first | (cases h; done) | (cases h; rfl)

theorem invY_step {s s' : St T R S X} {a : Act T R S X} (hW : InvW c s) (hA : InvA c s) (hE : InvE s)
    (hI : InvY s) (h : step c s a = some s') : InvY s' := by
  have hmono : ∀ u m, (∀ bar, a ≠ .sync u bar) → SI s u m → SI s' u m := by
    intro u m hne hT
    refine hT.mono ?_ ?_
    · rcases sw_step h with h1 | ⟨t, bar, rfl, h1⟩ | ⟨t, x, rfl, h1⟩
      · rw [h1]; exact fun z hz => hz
      · have : u ≠ t := fun e => hne bar (e ▸ rfl)
        rw [h1, upd_ne _ _ this]; exact fun z hz => hz
      · rw [h1]; exact fun z hz => (List.mem_filter.1 hz).1
    · intro z hz
      by_cases he : ∃ t, a = .end_ t z
      · obtain ⟨t, rfl⟩ := he
        right
        rcases sw_step h with h1 | ⟨t, bar, h0, h1⟩ | ⟨t, x, h0, h1⟩
        · simp only [step, endStep, gs] at h
          split at h <;> cases h
          dsimp only at h1 ⊢
          simp
        · cases h0
        · cases h0; rw [h1]; simp
      · left
        have := opn_keep hW h hz (fun t e => he ⟨t, e⟩)
        exact ⟨this.1, this.2.1, this.2.2.1⟩
  intro u
  rcases main_step h with h1 | ⟨t, bar, rfl, h0, h1⟩ | ⟨t, r, rfl, h0, h1⟩ | ⟨t, m', rfl, F, hM⟩
  · rw [h1]
    refine hmono u _ ?_ (hI u)
    rintro bar rfl
    simp only [step, gm] at h
    split at h
    case isFalse => cases h
    next hq =>
      cases h
      have := congrFun h1 u
      simp only [upd_same] at this
      rw [hq.2.1] at this; cases this
  · rw [h1]
    by_cases hu : u = t
    · subst hu
      rw [upd_same]
      have hs : s'.sw u = s.opn ∧ s'.opn = s.opn ∧ s'.se = s.se := by
        simp only [step, gm] at h
        split at h <;> cases h
        exact ⟨upd_same _ _ _, rfl, rfl⟩
      constructor
      · rintro e' i' bar' d' l af ph hm; cases hm; exact ⟨Nat.le_refl _, fun h => absurd h (by simp)⟩
      · rintro e' i' bar' d' l af ph hm; cases hm; rw [hs.1, hs.2.1, hs.2.2]; exact fun z hz => ⟨hz, (hE.se z hz).2⟩
      · rintro e' i' bar' d' l ph hm; cases hm; exact fun z hz => Or.inl rfl
    · rw [upd_ne _ _ hu]
      refine hmono u _ ?_ (hI u)
      intro b e; cases e; exact hu rfl
  · rw [h1]
    refine hmono u _ (by simp) ?_
    by_cases hu : u = t
    · subst hu; rw [upd_same]; exact SI.of (by simp)
    · rw [upd_ne _ _ hu]; exact hI u
  · rw [F.main]
    refine hmono u _ (by simp) ?_
    by_cases hu : u = t
    · subst hu; rw [upd_same]; exact si_main hW hA hE (hI u) rfl hM
    · rw [upd_ne _ _ hu]; exact hI u

/-- The part of the invariant that only needs records not to be mixed. -/
def Inv3 (c : Cfg) (s : St T R S X) : Prop := InvW c s ∧ InvA c s ∧ InvE s ∧ InvY s

theorem inv3_reach {s : St T R S X} (hg : c.mix = false) (hr : (sys T R S X c).Reach s) : Inv3 c s :=
  Sys.Reach.invariant (I := Inv3 c) (fun _ h => ⟨invW_init h, invA_init h, invE_init h, invY_init h⟩)
    (fun _ _ _ hi h => ⟨invW_step hi.1 h, invA_step hi.1 hi.2.1 h, invE_step hg hi.1 hi.2.1 hi.2.2.1 h,
      invY_step hi.1 hi.2.1 hi.2.2.1 hi.2.2.2 h⟩) hr

end Verif.Ep
