import Verif.Smr.Epoch
import Verif.Core.Tactic
import Mathlib.Tactic.ByContra
import Mathlib.Data.List.Nodup

/-!
# Epoch reclamation: the invariant
-/

set_option linter.unusedSectionVars false
set_option linter.unusedSimpArgs false

namespace Verif.Ep

open Verif

variable {T R S X : Type} [DecidableEq T] [DecidableEq R] [DecidableEq S] [DecidableEq X] {c : Cfg}

theorem upd2_apply {β : Type} (f : R → Nat → β) (r : R) (i : Nat) (v : β) (q : R) (j : Nat) :
    upd2 f r i v q j = if q = r ∧ j = i then v else f q j := by
  unfold upd2 upd
  by_cases h : q = r
  · subst h; by_cases h2 : j = i <;> simp [h2]
  · simp [h]

theorem upd_const {β : Type} (f : R → Nat → β) (r : R) (v : β) (q : R) (j : Nat) :
    upd f r (fun _ => v) q j = if q = r then v else f q j := by
  unfold upd
  split <;> rfl

/-- The record a short operation of its owner is working on. -/
def subRec : Sub R S X → Option R
  | .b1 r _ _ | .b2 r _ _ _ | .a0 r _ | .e1 r _ | .un r => some r
  | _ => none

/-- The section a short operation is working on. -/
def subKey : Sub R S X → Option (R × S)
  | .b1 r x _ | .b2 r x _ _ | .a0 r x | .e1 r x => some (r, x)
  | _ => none

def kRec : Kont R → Option R
  | .sync _ _ bar => bar
  | .poll r => some r

/-- The record polled, or reclaimed by `ck_epoch_barrier`. -/
def mainRec : Main R X → Option R
  | .scan k _ _ _ _ => kRec k
  | .p1 r _ | .p3 r _ | .recl r _ | .disp r _ _ => some r
  | .idle => none

/-- Ownership. -/
structure InvW (c : Cfg) (s : St T R S X) : Prop where
  ownr : ∀ r t, s.own r = some t → r ∈ s.recs ∧ s.free r = false
  oown : ∀ x ∈ s.opn, s.own (s.sr x) ≠ none
  ouse : ∀ x ∈ s.opn, s.use x = true
  nodup : s.opn.Nodup
  sown : ∀ t r, subRec (s.sub t) = some r → s.own r = some t
  skey : ∀ t r x, subKey (s.sub t) = some (r, x) → s.use x = true ∧ x ∉ s.opn ∧ s.sr x = r
  mown : ∀ t r, mainRec (s.main t) = some r → s.own r = some t
  scan : ∀ t, s.sub t ≠ .none → canSub (s.main t) = true
  un : ∀ t r, s.sub t = .un r → s.main t = .idle ∧ ∀ x ∈ s.opn, s.sr x ≠ r
  sect : c.sect = true → ∀ t r x, s.sub t = .e1 r x → s.main t = .idle

/-- What a step of `main` leaves alone. -/
structure Frame (s s' : St T R S X) (t : T) (m' : Main R X) : Prop where
  recs : s'.recs = s.recs
  free : s'.free = s.free
  act : s'.act = s.act
  bc : s'.bc = s.bc
  be : s'.be = s.be
  bk : s'.bk = s.bk
  sub : s'.sub = s.sub
  own : s'.own = s.own
  use : s'.use = s.use
  opn : s'.opn = s.opn
  sr : s'.sr = s.sr
  nul : s'.nul = s.nul
  se : s'.se = s.se
  base : s'.base = s.base
  lab : s'.lab = s.lab
  busy : s'.busy = s.busy
  wait : s'.wait = s.wait
  sw : s'.sw = s.sw
  main : s'.main = upd s.main t m'

theorem cas_eq {s s1 : St T R S X} {d : Nat} {b : Bool} (h : cas s d = some (s1, b)) :
    (b = true ∧ s.G = d ∧ s1 = { s with G := d + 1 }) ∨ (b = false ∧ s.G % M ≠ d % M ∧ s1 = s) := by
  unfold cas at h
  split at h
  · split at h
    · simp only [Option.some.injEq, Prod.mk.injEq] at h; exact Or.inl ⟨h.2.symm, by assumption, h.1.symm⟩
    · simp at h
  · simp only [Option.some.injEq, Prod.mk.injEq] at h; exact Or.inr ⟨h.2.symm, by assumption, h.1.symm⟩

/-- The cases of a step of `main`. -/
inductive MStep (s : St T R S X) (t : T) : Main R X → Main R X → Nat → (R → Nat) → (R → Nat → List X) → Prop
  | hd {k d todo af} : MStep s t (.scan k d todo af .hd) (.scan k d s.recs false .st) s.G s.ep s.pend
  | free {k d a l af} : s.free a = true →
      MStep s t (.scan k d (a :: l) af .st) (.scan k d l af .st) s.G s.ep s.pend
  | used {k d a l af} : s.free a = false →
      MStep s t (.scan k d (a :: l) af .st) (.scan k d (a :: l) af .ac) s.G s.ep s.pend
  | inactive {k d a l af} : s.act a = 0 →
      MStep s t (.scan k d (a :: l) af .ac) (.scan k d l af .st) s.G s.ep s.pend
  | active {k d a l af} : s.act a ≠ 0 →
      MStep s t (.scan k d (a :: l) af .ac) (.scan k d (a :: l) true .ep) s.G s.ep s.pend
  | same {k d a l af} : s.ep a % M = d % M →
      MStep s t (.scan k d (a :: l) af .ep) (.scan k d l af .st) s.G s.ep s.pend
  | giveUp {r d a l af} : MStep s t (.scan (.poll r) d (a :: l) af .ep) .idle s.G s.ep s.pend
  | differ {e i bar d a l af} :
      MStep s t (.scan (.sync e i bar) d (a :: l) af .ep) (.scan (.sync e i bar) d (a :: l) af .gl) s.G s.ep s.pend
  | again {e i bar d a l af} :
      MStep s t (.scan (.sync e i bar) d (a :: l) af .gl) (.scan (.sync e i bar) d (a :: l) true .st) s.G s.ep s.pend
  | goal {e i bar d a l af m} : goalMet e s.G = true → m = (match bar with | none => .idle | some r => .recl r 0) →
      MStep s t (.scan (.sync e i bar) d (a :: l) af .gl) m s.G s.ep s.pend
  | restart {e i bar d a l af} :
      MStep s t (.scan (.sync e i bar) d (a :: l) af .gl) (.scan (.sync e i bar) s.G [] false .hd) s.G s.ep s.pend
  | tick {e i bar d} : i + 1 < 2 → s.G = d →
      MStep s t (.scan (.sync e i bar) d [] true .st) (.scan (.sync e (i + 1) bar) (d + 1) [] false .hd) (d + 1) s.ep s.pend
  | noTick {e i bar d} : i + 1 < 2 → s.G % M ≠ d % M →
      MStep s t (.scan (.sync e i bar) d [] true .st) (.scan (.sync e (i + 1) bar) s.G [] false .hd) s.G s.ep s.pend
  | tickEnd {e i bar d m} : ¬ i + 1 < 2 → s.G = d → m = (match bar with | none => .idle | some r => .recl r 0) →
      MStep s t (.scan (.sync e i bar) d [] true .st) m (d + 1) s.ep s.pend
  | noTickEnd {e i bar d m} : ¬ i + 1 < 2 → m = (match bar with | none => .idle | some r => .recl r 0) →
      MStep s t (.scan (.sync e i bar) d [] true .st) m s.G s.ep s.pend
  | quiet {e i bar d m} : m = (match bar with | none => .idle | some r => .recl r 0) →
      MStep s t (.scan (.sync e i bar) d [] false .st) m s.G s.ep s.pend
  | pollTick {r d} : s.G = d → MStep s t (.scan (.poll r) d [] true .st) (.p3 r d) (d + 1) s.ep s.pend
  | pollNoTick {r d} : MStep s t (.scan (.poll r) d [] true .st) (.p3 r d) s.G s.ep s.pend
  | pollQuiet {r d} : MStep s t (.scan (.poll r) d [] false .st) (.recl r 0) s.G (upd s.ep r d) s.pend
  | p1 {r g} : MStep s t (.p1 r g) (.disp r (s.pend r ((g + 2) % 4)) (.first g)) s.G s.ep (upd2 s.pend r ((g + 2) % 4) [])
  | p3 {r g} : MStep s t (.p3 r g) (.disp r (s.pend r ((g + 3) % 4)) .last) s.G s.ep (upd2 s.pend r ((g + 3) % 4) [])
  | recl {r b} : MStep s t (.recl r b) (.disp r (s.pend r b) (.recl (b + 1))) s.G s.ep (upd2 s.pend r b [])
  | run {r x l k} : MStep s t (.disp r (x :: l) k) (.disp r l k) s.G s.ep s.pend
  | dFirst {r g} : MStep s t (.disp r [] (.first g)) (.scan (.poll r) g [] false .hd) s.G s.ep s.pend
  | dLast {r} : MStep s t (.disp r [] .last) .idle s.G s.ep s.pend
  | dNext {r b} : MStep s t (.disp r [] (.recl b)) (.recl r b) s.G s.ep s.pend
  | dEnd {r b} : MStep s t (.disp r [] (.recl b)) .idle s.G s.ep s.pend

theorem leave_eq (s : St T R S X) (t : T) (bar : Option R) :
    leave s t bar = gm s t (match bar with | none => .idle | some r => .recl r 0) := by cases bar <;> rfl

theorem main_cases {s s' : St T R S X} {t : T} (h : mainStep s t = some s') :
    ∃ m', Frame s s' t m' ∧ MStep s t (s.main t) m' s'.G s'.ep s'.pend := by
  unfold mainStep at h
  split at h <;> rename_i hm <;> rw [hm]
  case h_1 => cases h
  case h_2 => cases h; exact ⟨_, by constructor <;> rfl, .hd⟩
  case h_3 => 
    split at h <;> cases h
    · exact ⟨_, by constructor <;> rfl, .free (by assumption)⟩
    · exact ⟨_, by constructor <;> rfl, .used (eq_false_of_ne_true (by assumption))⟩
  case h_4 => 
    split at h <;> cases h
    · exact ⟨_, by constructor <;> rfl, .inactive (by assumption)⟩
    · exact ⟨_, by constructor <;> rfl, .active (by assumption)⟩
  case h_5 => 
    split at h
    · cases h; exact ⟨_, by constructor <;> rfl, .same (by assumption)⟩
    · split at h <;> cases h
      · exact ⟨_, by constructor <;> rfl, .giveUp⟩
      · exact ⟨_, by constructor <;> rfl, .differ⟩
  case h_6 => 
    split at h
    · cases h; exact ⟨_, by constructor <;> rfl, .again⟩
    · split at h
      · rw [leave_eq] at h; cases h; exact ⟨_, by constructor <;> rfl, .goal (by assumption) rfl⟩
      · cases h; exact ⟨_, by constructor <;> rfl, .restart⟩
  case h_7 => 
    split at h
    · next haf =>
      subst haf
      split at h
      · cases h
      · next s1 b hc =>
        rcases cas_eq hc with ⟨rfl, h1, rfl⟩ | ⟨rfl, h1, rfl⟩
        · split at h
          · cases h; exact ⟨_, by constructor <;> rfl, .tick (by assumption) h1⟩
          · rw [leave_eq] at h; cases h; exact ⟨_, by constructor <;> rfl, .tickEnd (by assumption) h1 rfl⟩
        · split at h
          · cases h; exact ⟨_, by constructor <;> rfl, .noTick (by assumption) h1⟩
          · rw [leave_eq] at h; cases h; exact ⟨_, by constructor <;> rfl, .noTickEnd (by assumption) rfl⟩
    · next haf =>
      simp only [Bool.not_eq_true] at haf; subst haf
      rw [leave_eq] at h; cases h; exact ⟨_, by constructor <;> rfl, .quiet rfl⟩
  case h_8 => 
    split at h
    · next haf =>
      subst haf
      split at h
      · cases h
      · next s1 b hc =>
        cases h
        rcases cas_eq hc with ⟨rfl, h1, rfl⟩ | ⟨rfl, h1, rfl⟩
        · exact ⟨_, by constructor <;> rfl, .pollTick h1⟩
        · exact ⟨_, by constructor <;> rfl, .pollNoTick⟩
    · next haf =>
      simp only [Bool.not_eq_true] at haf; subst haf
      cases h; exact ⟨_, by constructor <;> rfl, .pollQuiet⟩
  case h_9 => cases h
  case h_10 => cases h; exact ⟨_, by constructor <;> rfl, .p1⟩
  case h_11 => cases h; exact ⟨_, by constructor <;> rfl, .p3⟩
  case h_12 => cases h; exact ⟨_, by constructor <;> rfl, .recl⟩
  case h_13 => cases h; exact ⟨_, by constructor <;> rfl, .run⟩
  case h_14 => cases h; exact ⟨_, by constructor <;> rfl, .dFirst⟩
  case h_15 => cases h; exact ⟨_, by constructor <;> rfl, .dLast⟩
  case h_16 => 
    split at h <;> cases h
    · exact ⟨_, by constructor <;> rfl, .dNext⟩
    · exact ⟨_, by constructor <;> rfl, .dEnd⟩

theorem MStep.mrec {s : St T R S X} {t : T} {m m' : Main R X} {g e p} (h : MStep s t m m' g e p) {r : R}
    (hr : mainRec m' = some r) : mainRec m = some r := by
  cases h <;> first
    | exact hr
    | (simp [mainRec] at hr; done)
    | (simp only [mainRec, kRec]; subst_vars; split at hr <;> simp_all [mainRec]; done)

theorem subKey_rec {q : Sub R S X} {r : R} {x : S} (h : subKey q = some (r, x)) : subRec q = some r := by
  cases q <;> simp_all [subKey, subRec]

theorem key_inj {s : St T R S X} (sown : ∀ t r, subRec (s.sub t) = some r → s.own r = some t)
    (skey : ∀ t r x, subKey (s.sub t) = some (r, x) → s.use x = true ∧ x ∉ s.opn ∧ s.sr x = r)
    {t : T} {r : R} {x : S} (k1 : s.own r = some t) (k2 : s.sr x = r) :
    ∀ u q y, u ≠ t → subKey (s.sub u) = some (q, y) → y ≠ x := by
  intro u q y hu hk e
  subst e
  have h1 := sown u q (subKey_rec hk)
  have h2 := (skey u q y hk).2.2
  rw [k2] at h2; subst h2; rw [k1] at h1
  exact hu (by simpa using h1.symm)

theorem invW_init {s : St T R S X} (h : Init s) : InvW c s := by
  obtain ⟨h1, h2, h3, h4, h5, h6, h7, h8, h9, h10⟩ := h
  constructor <;> simp [h1, h2, h3, h4, h5, h6, h7, h8, subRec, subKey, mainRec]

theorem invW_step {s s' : St T R S X} {a : Act T R S X} (hI : InvW c s) (h : step c s a = some s') :
    InvW c s' := by
  obtain ⟨ownr, oown, ouse, nodup, sown, skey, mown, scan, un, sect⟩ := hI
  cases a with
  | main t =>
    simp only [step] at h
    split at h
    · next hn =>
      obtain ⟨m', F, hM⟩ := main_cases h
      obtain ⟨f1, f2, -, -, -, -, f3, f4, f5, f6, f7, -, -, -, -, -, -, -, f8⟩ := F
      have hr := fun r => hM.mrec (r := r)
      constructor
      · rw [f1, f2, f4]; exact ownr
      · rw [f4, f6, f7]; exact oown
      · rw [f5, f6]; exact ouse
      · rw [f6]; exact nodup
      · rw [f3, f4]; exact sown
      · rw [f3, f5, f6, f7]; exact skey
      · rw [f8, f4]; keep mown hr; grind
      · rw [f8, f3]; keep scan hn; grind
      · rw [f8, f3, f6, f7]; keep un hn; grind
      · rw [f8, f3]; keep sect hn; grind
    · cases h
  | sub t =>
    simp only [step, subStep, gs, opened, upd2] at h
    split at h <;> rename_i hq
    case h_1 => cases h
    case h_6 =>
      step_split h
      constructor <;> dsimp only
      · exact ownr
      · exact oown
      · exact ouse
      · exact nodup
      · keep sown hq; grind [subRec]
      · keep skey hq; grind [subKey]
      · exact mown
      · keep scan hq; grind
      · keep un hq; grind
      · keep sect hq; grind
    case h_7 =>
      have k1 := sown t _ (by rw [hq]; rfl)
      have k2 := un t _ hq
      step_split h
      constructor <;> dsimp only
      · keep ownr; grind
      · keep oown k2; grind
      · exact ouse
      · exact nodup
      · keep sown hq k1; grind [subRec]
      · keep skey hq; grind [subKey]
      · keep mown k1 k2; grind [mainRec]
      · keep scan hq; grind
      · keep un hq; grind
      · keep sect hq; grind
    all_goals
      have k1 := sown t _ (by rw [hq]; rfl)
      have k2 := skey t _ _ (by rw [hq]; rfl)
      have k3 := key_inj sown skey k1 k2.2.2
      step_split h
    all_goals constructor <;> dsimp only
    all_goals first
      | exact ownr
      | exact oown
      | exact ouse
      | exact nodup
      | exact mown
      | exact List.nodup_cons.2 ⟨k2.2.1, nodup⟩
      | (keep oown k1 k2; grind)
      | (keep ouse k2; grind)
      | (keep sown hq k1; grind [subRec])
      | (keep skey hq k2 k3; grind [subKey])
      | (keep scan hq; grind)
      | (keep un hq; grind)
      | (keep un hq sown k1 k2; grind [subRec])
      | (keep sect hq; grind)
      | skip
  | end_ t x =>
    simp only [step, endStep, gs] at h
    split at h
    case isFalse => cases h
    rename_i hg
    simp only [Option.some.injEq] at h
    subst h
    have hme : ∀ y, y ∈ s.opn.erase x ↔ y ≠ x ∧ y ∈ s.opn := fun y => nodup.mem_erase_iff
    have hnd := nodup.erase x
    constructor <;> dsimp only
    · exact ownr
    · keep oown hg hme; grind
    · keep ouse hg hme; grind
    · exact hnd
    · keep sown hg; grind [subRec]
    · keep skey ouse hg hme; grind [subKey]
    · exact mown
    · keep scan hg; grind
    · keep un hg hme; grind
    · keep sect hg; grind
  | begin t r x n =>
    simp only [step, gs, opened] at h
    split at h
    case isFalse => cases h
    rename_i hg
    have k1 : x ∉ s.opn := fun hx => by rw [ouse x hx] at hg; simp at hg
    have k2 : ∀ u q y, subKey (s.sub u) = some (q, y) → y ≠ x := fun u q y hy e => by
      have := (skey u q y hy).1; subst e; rw [this] at hg; simp at hg
    step_split h
    all_goals constructor <;> dsimp only
    all_goals first
      | exact ownr
      | exact mown
      | exact nodup
      | exact List.nodup_cons.2 ⟨k1, nodup⟩
      | (keep oown hg k1; grind)
      | (keep ouse hg k1; grind)
      | (keep sown hg; grind [subRec])
      | (keep skey hg k1 k2; grind [subKey])
      | (keep scan hg; grind)
      | (keep un sown hg k1; grind [subRec])
      | (keep sect hg; grind)
  | register t r =>
    simp only [step] at h
    step_split h
    have k1 : s.own r = none := by
      cases ho : s.own r with
      | none => rfl
      | some u => exact absurd (ownr r u ho).1 (by assumption)
    constructor <;> dsimp only
    · keep ownr; grind
    · keep oown; grind
    · exact ouse
    · exact nodup
    · keep sown k1; grind
    · exact skey
    · keep mown k1; grind
    · exact scan
    · exact un
    · exact sect
  | recycle t r =>
    simp only [step] at h
    step_split h
    have k1 : s.own r = none := by
      cases ho : s.own r with
      | none => rfl
      | some u => have := (ownr r u ho).2; grind
    constructor <;> dsimp only
    · keep ownr; grind
    · keep oown; grind
    · exact ouse
    · exact nodup
    · keep sown k1; grind
    · exact skey
    · keep mown k1; grind
    · exact scan
    · exact un
    · exact sect
  | unreg t r =>
    simp only [step, gs] at h
    step_split h
    rename_i hg
    constructor <;> dsimp only
    · exact ownr
    · exact oown
    · exact ouse
    · exact nodup
    · keep sown hg; grind [subRec]
    · keep skey hg; grind [subKey]
    · exact mown
    · keep scan hg; grind [canSub]
    · keep un hg; grind
    · keep sect hg; grind
  | call t r x =>
    simp only [step, gs] at h
    step_split h
    rename_i hg
    constructor <;> dsimp only
    · exact ownr
    · exact oown
    · exact ouse
    · exact nodup
    · keep sown hg; grind [subRec]
    · keep skey hg; grind [subKey]
    · exact mown
    · keep scan hg; grind [canSub]
    · keep un hg; grind
    · keep sect hg; grind
  | sync t bar =>
    simp only [step, gm] at h
    step_split h
    rename_i hg
    constructor <;> dsimp only
    · exact ownr
    · exact oown
    · exact ouse
    · exact nodup
    · exact sown
    · exact skey
    · keep mown hg; grind [mainRec, kRec]
    · keep scan hg; grind
    · keep un hg; grind
    · keep sect hg; grind
  | poll t r =>
    simp only [step, gm] at h
    step_split h
    rename_i hg
    constructor <;> dsimp only
    · exact ownr
    · exact oown
    · exact ouse
    · exact nodup
    · exact sown
    · exact skey
    · keep mown hg; grind [mainRec, kRec]
    · keep scan hg; grind
    · keep un hg; grind
    · keep sect hg; grind

end Verif.Ep
