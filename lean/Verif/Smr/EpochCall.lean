import Verif.Smr.EpochSync

/-!
# Epoch reclamation: deferrals and synchronize
-/

set_option linter.unusedSectionVars false
set_option linter.unusedSimpArgs false

namespace Verif.Ep

open Verif

variable {T R S X : Type} [DecidableEq T] [DecidableEq R] [DecidableEq S] [DecidableEq X] {c : Cfg}

/-- The uses for which the grace period is proved: records are not mixed, and either only the owner defers
on a record and not from a callback of that record, or records are polled inside their own sections only. -/
def Good (c : Cfg) : Prop := c.mix = false ∧ (c.sect = true ∨ (c.re = false ∧ c.strict = false))

def dkPoll (r : R) : DK → Option (R × Nat)
  | .first g => some (r, g)
  | _ => none

def kPoll (d : Nat) : Kont R → Option (R × Nat)
  | .poll r => some (r, d)
  | _ => none

/-- The record and the loaded epoch of a thread in `ck_epoch_poll`. -/
def pollView : Main R X → Option (R × Nat)
  | .p1 r g | .p3 r g => some (r, g)
  | .scan k d _ _ _ => kPoll d k
  | .disp r _ k => dkPoll r k
  | _ => none

def dkRecl (r : R) : DK → Option R
  | .recl _ => some r
  | _ => none

/-- The record all of whose deferrals are being dispatched. -/
def reclView : Main R X → Option R
  | .recl r _ => some r
  | .disp r _ k => dkRecl r k
  | _ => none

structure TI (c : Cfg) (s : St T R S X) (t : T) (m : Main R X) : Prop where
  disp : ∀ r l k, m = .disp r l k → ∀ x ∈ l, s.busy x = true ∧ s.wait x = []
  poll2 : c.sect = false → ∀ r g, pollView m = some (r, g) → ∀ b, ∀ x ∈ s.pend r b, s.lab x ≤ g
  poll3 : c.sect = true → ∀ r g, pollView m = some (r, g) → ∃ z ∈ s.opn, s.sr z = r ∧ s.base r ≤ g
  quiet : c.sect = false → ∀ r d l ph, m = .scan (.poll r) d l false ph → ∀ b, ∀ x ∈ s.pend r b,
    ∀ z ∈ s.wait x, ph = .hd ∨ s.sr z ∈ l
  sy1 : ∀ e i bar d l af ph, m = .scan (.sync e i bar) d l af ph → e ≤ d ∧ (0 < i → e < d)
  sy2 : ∀ e i bar d l af ph, m = .scan (.sync e i bar) d l af ph → ∀ z ∈ s.sw t, z ∈ s.opn ∧ s.se z ≤ e
  sy3 : ∀ e i bar d l ph, m = .scan (.sync e i bar) d l false ph → ∀ z ∈ s.sw t, ph = .hd ∨ s.sr z ∈ l
  sy4 : ∀ e i r d l af ph, m = .scan (.sync e i (some r)) d l af ph → c.sect = false ∧
    ∀ b, ∀ x ∈ s.pend r b, ∀ z ∈ s.wait x, z ∈ s.sw t
  rc : ∀ r, reclView m = some r → c.sect = false ∧ ∀ b, ∀ x ∈ s.pend r b, s.wait x = []

structure InvC (c : Cfg) (s : St T R S X) : Prop where
  pend : ∀ r b, ∀ x ∈ s.pend r b, s.busy x = true ∧ s.lab x % 4 = b ∧ s.lab x ≤ s.G
  c1 : ∀ t r x e, s.sub t = .c1 r x e → s.busy x = true ∧ s.lab x = e ∧ e ≤ s.G ∧
    (c.sect = false → s.own r = some t ∧ mainRec (s.main t) ≠ some r)
  wait : ∀ x, s.busy x = true → ∀ z ∈ s.wait x, z ∈ s.opn ∧ s.se z ≤ s.lab x
  ti : ∀ t, TI c s t (s.main t)

theorem TI.si {s : St T R S X} {t : T} {m : Main R X} (h : TI c s t m) : SI s t m := ⟨h.sy1, h.sy2, h.sy3⟩

theorem pollView_rec {m : Main R X} {r : R} {g : Nat} (h : pollView m = some (r, g)) : mainRec m = some r := by
  cases m with
  | idle => cases h
  | recl => cases h
  | p1 => cases h; rfl
  | p3 => cases h; rfl
  | scan k d l af ph => cases k <;> cases h; rfl
  | disp r l k => cases k <;> cases h; rfl

theorem reclView_rec {m : Main R X} {r : R} (h : reclView m = some r) : mainRec m = some r := by
  cases m with
  | idle => cases h
  | recl => cases h; rfl
  | p1 => cases h
  | p3 => cases h
  | scan => cases h
  | disp r l k => cases k <;> cases h; rfl

theorem TI.mono {s s' : St T R S X} {t : T} {m : Main R X} (h : TI c s t m)
    (hpb : ∀ r b, ∀ x ∈ s.pend r b, s.busy x = true)
    (hwo : ∀ x, s.busy x = true → ∀ z ∈ s.wait x, z ∈ s.opn)
    (hb : ∀ x, s.busy x = true → s'.busy x = true ∧ s'.lab x = s.lab x ∧ ∀ z ∈ s'.wait x, z ∈ s.wait x)
    (hp : ∀ r, mainRec m = some r → c.sect = false → ∀ b, ∀ x ∈ s'.pend r b, x ∈ s.pend r b)
    (hsw : ∀ z ∈ s'.sw t, z ∈ s.sw t)
    (ho : ∀ z ∈ s.opn, (z ∈ s'.opn ∧ s'.se z = s.se z ∧ s'.sr z = s.sr z ∧ (z ∈ s.sw t → z ∈ s'.sw t)) ∨
      (z ∉ s'.sw t ∧ ∀ x, s.busy x = true → z ∉ s'.wait x))
    (hs : c.sect = true → ∀ r, mainRec m = some r → ∀ g, (∃ z ∈ s.opn, s.sr z = r ∧ s.base r ≤ g) →
      ∃ z ∈ s'.opn, s'.sr z = r ∧ s'.base r ≤ g) : TI c s' t m := by
  have pr := fun r g => pollView_rec (m := m) (r := r) (g := g)
  have rr := fun r => reclView_rec (m := m) (r := r)
  constructor
  · intro r l k hm x hx
    have h1 := h.disp r l k hm x hx
    refine ⟨(hb x h1.1).1, List.eq_nil_iff_forall_not_mem.2 fun z hz => ?_⟩
    have := (hb x h1.1).2.2 z hz
    rw [h1.2] at this; cases this
  · intro hc r g hr b x hx
    have hx' := hp r (pr r g hr) hc b x hx
    rw [(hb x (hpb r b x hx')).2.1]
    exact h.poll2 hc r g hr b x hx'
  · intro hc r g hr
    exact hs hc r (pr r g hr) g (h.poll3 hc r g hr)
  · intro hc r d l ph hm b x hx z hz
    have hx' := hp r (by rw [hm]; rfl) hc b x hx
    have hxb := hpb r b x hx'
    have hz' := (hb x hxb).2.2 z hz
    rcases ho z (hwo x hxb z hz') with h1 | h1
    · rw [h1.2.2.1]; exact h.quiet hc r d l ph hm b x hx' z hz'
    · exact absurd hz (h1.2 x hxb)
  · exact h.sy1
  · intro e i bar d l af ph hm z hz
    have h1 := h.sy2 e i bar d l af ph hm z (hsw z hz)
    rcases ho z h1.1 with h2 | h2
    · rw [h2.2.1]; exact ⟨h2.1, h1.2⟩
    · exact absurd hz h2.1
  · intro e i bar d l ph hm z hz
    have h1 := h.sy2 e i bar d l false ph hm z (hsw z hz)
    rcases ho z h1.1 with h2 | h2
    · rw [h2.2.2.1]; exact h.sy3 e i bar d l ph hm z (hsw z hz)
    · exact absurd hz h2.1
  · intro e i r d l af ph hm
    have h0 := h.sy4 e i r d l af ph hm
    refine ⟨h0.1, fun b x hx z hz => ?_⟩
    have hx' := hp r (by rw [hm]; rfl) h0.1 b x hx
    have hxb := hpb r b x hx'
    have hz' := (hb x hxb).2.2 z hz
    have h1 := h0.2 b x hx' z hz'
    rcases ho z (hwo x hxb z hz') with h2 | h2
    · exact h2.2.2.2 h1
    · exact absurd hz (h2.2 x hxb)
  · intro r hr
    have h0 := h.rc r hr
    refine ⟨h0.1, fun b x hx => List.eq_nil_iff_forall_not_mem.2 fun z hz => ?_⟩
    have hx' := hp r (rr r hr) h0.1 b x hx
    have := (hb x (hpb r b x hx')).2.2 z hz
    rw [h0.2 b x hx'] at this; cases this

theorem MStep.pnd {s : St T R S X} {t : T} {m m' : Main R X} {g e p} (h : MStep s t m m' g e p) (r : R) (b : Nat) :
    ∀ x ∈ p r b, x ∈ s.pend r b := by
  intro x hx
  cases h
  case p1 | p3 | recl =>
    rw [upd2_apply] at hx
    split at hx
    · cases hx
    · exact hx
  all_goals exact hx

local macro "junk" : tactic => `(tactic| (intros; first
  | contradiction
  | cases ‹Main.scan (Kont.sync _ _ _) _ _ _ _ = Main.scan (Kont.poll _) _ _ _ _›
  | cases ‹Main.scan (Kont.poll _) _ _ _ _ = Main.scan (Kont.sync _ _ _) _ _ _ _›))

theorem ti_main {s : St T R S X} {t : T} {m m' : Main R X} {g e p} (hW : InvW c s) (hA : InvA c s) (hE : InvE s)
    (hI : InvC c s) (hm : s.main t = m) (hM : MStep s t m m' g e p) : TI c s t m' := by
  obtain ⟨pend, c1, wait, ti⟩ := hI
  have hT := ti t
  obtain ⟨disp, poll2, poll3, quiet, sy1, sy2, sy3, sy4, rc⟩ := hT
  have hself := hE.self t
  have haf := hE.af t
  have hdl := hE.dl t
  have hdone := fun {e0 i bar d l af ph} (h1 : s.main t = .scan (.sync e0 i bar) d l af ph) h2 =>
    sync_done hW hA hE rfl (ti t).si (hm ▸ hM) h1 h2
  have hpass := fun (z : S) (hz : z ∈ s.opn) d (hd : Passed d (s.sr z) (s.main t)) =>
    hE.pass (s.sr z) (Or.inl ⟨z, hz, rfl⟩) t d hd
  have hopn : ∀ z ∈ s.opn, s.sr z ∈ s.recs ∧ s.free (s.sr z) = false ∧ s.act (s.sr z) ≠ 0 ∧
      s.base (s.sr z) ≤ s.se z ∧ s.G ≤ s.base (s.sr z) + 1 := by
    intro z hz
    have hh : Held s (s.sr z) := Or.inl ⟨z, hz, rfl⟩
    have := held_act hW hA hh
    exact ⟨this.2.1, this.2.2.1, this.2.2.2, (hE.se z hz).1, (hE.held _ hh).2.2.2⟩
  -- a deferral that may be dispatched: its label
  have hlab : ∀ r g, pollView (s.main t) = some (r, g) → ∀ b, ∀ x ∈ s.pend r b, s.lab x ≤ g + 1 := by
    intro r g hr b x hx
    cases hc : c.sect
    · have := poll2 hc r g hr b x hx; omega
    · obtain ⟨z, hz, hzr, hzg⟩ := poll3 hc r g hr
      have h1 := (hopn z hz).2.2.2.2
      have h2 := (pend r b x hx).2.2
      rw [hzr] at h1
      omega
  have hout : ∀ r b, ∀ x ∈ s.pend r b, ∀ z ∈ s.wait x, z ∈ s.opn ∧ s.se z ≤ s.lab x :=
    fun r b x hx => wait x (pend r b x hx).1
  -- leaving `ck_epoch_synchronize`
  have hleave : ∀ e0 i bar d l af ph, s.main t = .scan (.sync e0 i bar) d l af ph →
      m' = (match bar with | none => .idle | some r => .recl r 0) → TI c s t m' := by
    intro e0 i bar d l af ph h1 h2
    cases bar with
    | none =>
      subst h2
      constructor <;> simp [pollView, reclView]
    | some r =>
      subst h2
      have hd := hdone h1 (by simp)
      have h4 := sy4 _ _ _ _ _ _ _ h1
      constructor
      case rc => 
        rintro _ hr
        cases hr
        refine ⟨h4.1, fun b x hx => List.eq_nil_iff_forall_not_mem.2 fun z hz => ?_⟩
        have := h4.2 b x hx z hz
        rw [hd] at this; cases this
      all_goals simp [pollView]
  clear hdone
  rw [hm] at *
  cases hM
  case goal h1 h2 => exact hleave _ _ _ _ _ _ _ rfl h2
  case tickEnd h1 h2 h3 => exact hleave _ _ _ _ _ _ _ rfl h3
  case noTickEnd h1 h3 => exact hleave _ _ _ _ _ _ _ rfl h3
  case quiet h3 => exact hleave _ _ _ _ _ _ _ rfl h3
  case p1 r g =>
    constructor <;> (try dsimp only [pollView, dkPoll, kPoll, reclView, dkRecl]) <;> try (junk)
    · rintro r' l k hm x hx
      cases hm
      have h1 := pend r _ x hx
      refine ⟨h1.1, List.eq_nil_iff_forall_not_mem.2 fun z hz => ?_⟩
      have h2 := hlab r g rfl _ x hx
      have h3 := hout r _ x hx z hz
      have h4 := hopn z h3.1
      have h5 := hdl g rfl
      omega
    · intro hc r' g' hr; cases hr; exact poll2 hc r g rfl
    · intro hc r' g' hr; cases hr; exact poll3 hc r g rfl
  case p3 r g =>
    constructor <;> (try dsimp only [pollView, dkPoll, kPoll, reclView, dkRecl]) <;> try (junk)
    · rintro r' l k hm x hx
      cases hm
      have h1 := pend r _ x hx
      refine ⟨h1.1, List.eq_nil_iff_forall_not_mem.2 fun z hz => ?_⟩
      have h2 := hlab r g rfl _ x hx
      have h3 := hout r _ x hx z hz
      have h4 := hopn z h3.1
      have h5 := hpass z h3.1 g rfl
      omega
  case recl r b =>
    have h0 := rc r rfl
    constructor <;> (try dsimp only [pollView, dkPoll, kPoll, reclView, dkRecl]) <;> try (junk)
    · rintro r' l k hm x hx
      cases hm
      exact ⟨(pend r _ x hx).1, h0.2 b x hx⟩
    · rintro r' hr; cases hr; exact h0
  case run r x l k =>
    constructor
    · rintro r' l' k' hm y hy; cases hm; exact disp _ _ _ rfl y (List.mem_cons_of_mem _ hy)
    · exact poll2
    · exact poll3
    · junk
    · junk
    · junk
    · junk
    · junk
    · exact rc
  case dFirst r g =>
    constructor
    · junk
    · exact poll2
    · exact poll3
    · intro hc r' d l ph hm; cases hm; intros; exact Or.inl rfl
    · junk
    · junk
    · junk
    · junk
    · intro r hr; cases hr
  case dLast => constructor <;> simp [pollView, reclView]
  case dEnd => constructor <;> simp [pollView, reclView]
  case giveUp => constructor <;> simp [pollView, reclView]
  case dNext r b =>
    have h0 := rc r rfl
    constructor <;> (try dsimp only [pollView, dkPoll, kPoll, reclView, dkRecl]) <;> try (junk)
    · intro r' hr; cases hr; exact h0
  case pollTick r d h1 =>
    have h2 := fun hc => poll2 hc r d rfl
    have h3 := fun hc => poll3 hc r d rfl
    constructor <;> (try dsimp only [pollView, dkPoll, kPoll, reclView, dkRecl]) <;> try (junk)
    · intro hc r' g' hr; cases hr; exact h2 hc
    · intro hc r' g' hr; cases hr; exact h3 hc
  case pollNoTick r d =>
    have h2 := fun hc => poll2 hc r d rfl
    have h3 := fun hc => poll3 hc r d rfl
    constructor <;> (try dsimp only [pollView, dkPoll, kPoll, reclView, dkRecl]) <;> try (junk)
    · intro hc r' g' hr; cases hr; exact h2 hc
    · intro hc r' g' hr; cases hr; exact h3 hc
  case pollQuiet r d =>
    constructor <;> (try dsimp only [pollView, dkPoll, kPoll, reclView, dkRecl]) <;> try (junk)
    · rintro r' hr
      cases hr
      cases hc : c.sect
      · refine ⟨rfl, fun b x hx => List.eq_nil_iff_forall_not_mem.2 fun z hz => ?_⟩
        rcases quiet hc r d [] .st rfl b x hx z hz with h | h <;> cases h
      · obtain ⟨z, hz, hzr, -⟩ := poll3 hc r d rfl
        rcases hself r d [] .st rfl with h | h | h
        · cases h
        · cases h
        · exact absurd hzr (h z hz)
  case tick e i bar d h1 h2 =>
    have a1 := sy1 _ _ _ _ _ _ _ rfl
    have a2 := sy2 _ _ _ _ _ _ _ rfl
    have a4 := fun r (h : bar = some r) => sy4 e i r d [] true .st (by rw [h])
    constructor <;> (try dsimp only [pollView, dkPoll, kPoll, reclView, dkRecl]) <;> try (junk)
    · rintro e' i' bar' d' l af ph hm; cases hm; omega
    · rintro e' i' bar' d' l af ph hm; cases hm; exact a2
    · rintro e' i' bar' d' l ph hm; cases hm; exact fun z hz => Or.inl rfl
    · rintro e' i' r' d' l af ph hm; cases hm; exact a4 _ rfl
  case noTick e i bar d h1 h2 =>
    have a1 := sy1 _ _ _ _ _ _ _ rfl
    have a2 := sy2 _ _ _ _ _ _ _ rfl
    have a3 := hdl d rfl
    have a4 := fun r (h : bar = some r) => sy4 e i r d [] true .st (by rw [h])
    constructor <;> (try dsimp only [pollView, dkPoll, kPoll, reclView, dkRecl]) <;> try (junk)
    · rintro e' i' bar' d' l af ph hm; cases hm; simp only [M] at h2; omega
    · rintro e' i' bar' d' l af ph hm; cases hm; exact a2
    · rintro e' i' bar' d' l ph hm; cases hm; exact fun z hz => Or.inl rfl
    · rintro e' i' r' d' l af ph hm; cases hm; exact a4 _ rfl
  case restart e i bar d a l af =>
    have a1 := sy1 _ _ _ _ _ _ _ rfl
    have a2 := sy2 _ _ _ _ _ _ _ rfl
    have a3 := hdl d rfl
    have a4 := fun r (h : bar = some r) => sy4 e i r d (a :: l) af .gl (by rw [h])
    constructor <;> (try dsimp only [pollView, dkPoll, kPoll, reclView, dkRecl]) <;> try (junk)
    · rintro e' i' bar' d' l af ph hm; cases hm; omega
    · rintro e' i' bar' d' l af ph hm; cases hm; exact a2
    · rintro e' i' bar' d' l ph hm; cases hm; exact fun z hz => Or.inl rfl
    · rintro e' i' r' d' l af ph hm; cases hm; exact a4 _ rfl
  case differ e i bar d a l af =>
    have a1 := sy1 _ _ _ _ _ _ _ rfl
    have a2 := sy2 _ _ _ _ _ _ _ rfl
    have a4 := fun r (h : bar = some r) => sy4 e i r d (a :: l) af .ep (by rw [h])
    constructor <;> (try dsimp only [pollView, dkPoll, kPoll, reclView, dkRecl]) <;> try (junk)
    · rintro e' i' bar' d' l af ph hm; cases hm; exact a1
    · rintro e' i' bar' d' l af ph hm; cases hm; exact a2
    · rintro e' i' bar' d' l ph hm; cases hm; exact absurd rfl (haf _ _ _ _ rfl).1
    · rintro e' i' r' d' l af ph hm; cases hm; exact a4 _ rfl
  case again e i bar d a l af =>
    have a1 := sy1 _ _ _ _ _ _ _ rfl
    have a2 := sy2 _ _ _ _ _ _ _ rfl
    have a4 := fun r (h : bar = some r) => sy4 e i r d (a :: l) af .gl (by rw [h])
    constructor <;> (try dsimp only [pollView, dkPoll, kPoll, reclView, dkRecl]) <;> try (junk)
    · rintro e' i' bar' d' l af ph hm; cases hm; exact a1
    · rintro e' i' bar' d' l af ph hm; cases hm; exact a2
    · rintro e' i' bar' d' l ph hm; cases hm
    · rintro e' i' r' d' l af ph hm; cases hm; exact a4 _ rfl
  case hd k d todo af =>
    constructor
    · junk
    · exact poll2
    · exact poll3
    · rintro hc r d l ph hm b x hx z hz
      cases hm
      exact Or.inr (hopn z (hout r b x hx z hz).1).1
    · rintro e i bar d l af ph hm; cases hm; exact sy1 _ _ _ _ _ _ _ rfl
    · rintro e i bar d l af ph hm; cases hm; exact sy2 _ _ _ _ _ _ _ rfl
    · rintro e i bar d l ph hm z hz
      cases hm
      exact Or.inr (hopn z (sy2 _ _ _ _ _ _ _ rfl z hz).1).1
    · rintro e i bar d l af ph hm; cases hm; exact sy4 _ _ _ _ _ _ _ rfl
    · intro r hr; cases hr
  case free k d a l af hf =>
    have hne : ∀ z ∈ s.opn, s.sr z ≠ a := fun z hz e => by
      have := (hopn z hz).2.1; rw [e, hf] at this; cases this
    constructor
    · junk
    · exact poll2
    · exact poll3
    · rintro hc r d l ph hm b x hx z hz
      cases hm
      have h1 := quiet hc _ _ _ _ rfl b x hx z hz
      have h2 := hne z (hout r b x hx z hz).1
      keep h1 h2; grind
    · rintro e i bar d l af ph hm; cases hm; exact sy1 _ _ _ _ _ _ _ rfl
    · rintro e i bar d l af ph hm; cases hm; exact sy2 _ _ _ _ _ _ _ rfl
    · rintro e i bar d l ph hm z hz
      cases hm
      have h1 := sy3 _ _ _ _ _ _ rfl z hz
      have h2 := hne z (sy2 _ _ _ _ _ _ _ rfl z hz).1
      keep h1 h2; grind
    · rintro e i bar d l af ph hm; cases hm; exact sy4 _ _ _ _ _ _ _ rfl
    · intro r hr; cases hr
  case inactive k d a l af hf =>
    have hne : ∀ z ∈ s.opn, s.sr z ≠ a := fun z hz e => by
      have := (hopn z hz).2.2.1; rw [e] at this; exact this hf
    constructor
    · junk
    · exact poll2
    · exact poll3
    · rintro hc r d l ph hm b x hx z hz
      cases hm
      have h1 := quiet hc _ _ _ _ rfl b x hx z hz
      have h2 := hne z (hout r b x hx z hz).1
      keep h1 h2; grind
    · rintro e i bar d l af ph hm; cases hm; exact sy1 _ _ _ _ _ _ _ rfl
    · rintro e i bar d l af ph hm; cases hm; exact sy2 _ _ _ _ _ _ _ rfl
    · rintro e i bar d l ph hm z hz
      cases hm
      have h1 := sy3 _ _ _ _ _ _ rfl z hz
      have h2 := hne z (sy2 _ _ _ _ _ _ _ rfl z hz).1
      keep h1 h2; grind
    · rintro e i bar d l af ph hm; cases hm; exact sy4 _ _ _ _ _ _ _ rfl
    · intro r hr; cases hr
  case used k d a l af hf =>
    constructor
    · junk
    · exact poll2
    · exact poll3
    · rintro hc r d l ph hm b x hx z hz
      cases hm
      have h1 := quiet hc _ _ _ _ rfl b x hx z hz
      keep h1; grind
    · rintro e i bar d l af ph hm; cases hm; exact sy1 _ _ _ _ _ _ _ rfl
    · rintro e i bar d l af ph hm; cases hm; exact sy2 _ _ _ _ _ _ _ rfl
    · rintro e i bar d l ph hm z hz
      cases hm
      have h1 := sy3 _ _ _ _ _ _ rfl z hz
      keep h1; grind
    · rintro e i bar d l af ph hm; cases hm; exact sy4 _ _ _ _ _ _ _ rfl
    · intro r hr; cases hr
  case active k d a l af hf =>
    constructor
    · junk
    · exact poll2
    · exact poll3
    · rintro hc r d l ph hm; cases hm
    · rintro e i bar d l af ph hm; cases hm; exact sy1 _ _ _ _ _ _ _ rfl
    · rintro e i bar d l af ph hm; cases hm; exact sy2 _ _ _ _ _ _ _ rfl
    · rintro e i bar d l ph hm; cases hm
    · rintro e i bar d l af ph hm; cases hm; exact sy4 _ _ _ _ _ _ _ rfl
    · intro r hr; cases hr
  case same k d a l af hf =>
    constructor
    · junk
    · exact poll2
    · exact poll3
    · rintro hc r d l ph hm; cases hm; exact absurd rfl (haf _ _ _ _ rfl).1
    · rintro e i bar d l af ph hm; cases hm; exact sy1 _ _ _ _ _ _ _ rfl
    · rintro e i bar d l af ph hm; cases hm; exact sy2 _ _ _ _ _ _ _ rfl
    · rintro e i bar d l ph hm; cases hm; exact absurd rfl (haf _ _ _ _ rfl).1
    · rintro e i bar d l af ph hm; cases hm; exact sy4 _ _ _ _ _ _ _ rfl
    · intro r hr; cases hr

theorem invC_main {s s' : St T R S X} {t : T} (hW : InvW c s) (hA : InvA c s) (hE : InvE s)
    (hI : InvC c s) (h : step c s (.main t) = some s') : InvC c s' := by
  simp only [step] at h
  split at h
  case isFalse => cases h
  next hn =>
  obtain ⟨m', F, hM⟩ := main_cases h
  obtain ⟨pend, c1, wait, ti⟩ := hI
  have hG : s.G ≤ s'.G := by rcases hM.glob with h | h <;> omega
  have hP := hM.pnd
  have hmono : ∀ u m, TI c s u m → TI c s' u m := by
    intro u m hT
    refine hT.mono (fun r b x hx => (pend r b x hx).1) (fun x hx z hz => (wait x hx z hz).1) ?_ ?_ ?_ ?_ ?_
    · intro x hx; rw [F.busy, F.lab, F.wait]; exact ⟨hx, rfl, fun z hz => hz⟩
    · intro r _ _ b x hx; exact hP r b x hx
    · rw [F.sw]; exact fun z hz => hz
    · intro z hz; left; rw [F.opn, F.se, F.sr, F.sw]; exact ⟨hz, rfl, rfl, fun h => h⟩
    · intro _ r _ g hx; rw [F.opn, F.sr, F.base]; exact hx
  have key : TI c s t m' := ti_main hW hA hE ⟨pend, c1, wait, ti⟩ rfl hM
  constructor
  · intro r b x hx
    have := pend r b x (hP r b x hx)
    rw [F.busy, F.lab]
    exact ⟨this.1, this.2.1, by omega⟩
  · intro u r x e hu
    rw [F.sub] at hu
    rw [F.busy, F.lab, F.own, F.main]
    have := c1 u r x e hu
    have hut : u ≠ t := by rintro rfl; rw [hn] at hu; cases hu
    rw [upd_ne _ _ hut]
    exact ⟨this.1, this.2.1, by omega, this.2.2.2⟩
  · rw [F.busy, F.wait, F.opn, F.se, F.lab]; exact wait
  · intro u
    rw [F.main]
    by_cases hu : u = t
    · subst hu; rw [upd_same]; exact hmono u m' key
    · rw [upd_ne _ _ hu]; exact hmono u _ (ti u)

theorem InvC.next {s s' : St T R S X} (hI : InvC c s) (hm : s'.main = s.main) (hG : s'.G = s.G)
    (hb : ∀ x, s.busy x = true → s'.busy x = true ∧ s'.lab x = s.lab x ∧ ∀ z ∈ s'.wait x, z ∈ s.wait x)
    (hpd : ∀ r b, ∀ x ∈ s'.pend r b, x ∈ s.pend r b ∨ (s'.busy x = true ∧ s'.lab x % 4 = b ∧ s'.lab x ≤ s.G))
    (hp : ∀ t r, mainRec (s.main t) = some r → c.sect = false → ∀ b, ∀ x ∈ s'.pend r b, x ∈ s.pend r b)
    (hc1 : ∀ t r x e, s'.sub t = .c1 r x e → s.sub t = .c1 r x e ∨ (s'.busy x = true ∧ s'.lab x = e ∧ e ≤ s.G ∧
      (c.sect = false → s'.own r = some t ∧ mainRec (s.main t) ≠ some r)))
    (hown : ∀ t r x e, s'.sub t = .c1 r x e → s.own r = some t → s'.own r = some t)
    (hw : ∀ x, s'.busy x = true → s.busy x = true ∨ ∀ z ∈ s'.wait x, z ∈ s'.opn ∧ s'.se z ≤ s'.lab x)
    (hsw : ∀ t, ∀ z ∈ s'.sw t, z ∈ s.sw t)
    (ho : ∀ z ∈ s.opn, (z ∈ s'.opn ∧ s'.se z = s.se z ∧ s'.sr z = s.sr z ∧ ∀ t, z ∈ s.sw t → z ∈ s'.sw t) ∨
      ((∀ t, z ∉ s'.sw t) ∧ ∀ x, s.busy x = true → z ∉ s'.wait x))
    (hs : c.sect = true → ∀ t r, mainRec (s.main t) = some r → ∀ g, (∃ z ∈ s.opn, s.sr z = r ∧ s.base r ≤ g) →
      ∃ z ∈ s'.opn, s'.sr z = r ∧ s'.base r ≤ g) : InvC c s' := by
  obtain ⟨pend, c1, wait, ti⟩ := hI
  constructor
  · intro r b x hx
    rcases hpd r b x hx with h | h
    · have h1 := pend r b x h
      have h2 := hb x h1.1
      rw [h2.2.1, hG]; exact ⟨h2.1, h1.2⟩
    · rw [hG]; exact h
  · intro t r x e hu
    rcases hc1 t r x e hu with h | h
    · have h1 := c1 t r x e h
      have h2 := hb x h1.1
      rw [h2.2.1, hG, hm]
      exact ⟨h2.1, h1.2.1, h1.2.2.1, fun hc => ⟨hown t r x e hu (h1.2.2.2 hc).1, (h1.2.2.2 hc).2⟩⟩
    · rw [hG, hm]; exact h
  · intro x hx z hz
    rcases hw x hx with h | h
    · have h2 := hb x h
      have h3 := wait x h z (h2.2.2 z hz)
      rcases ho z h3.1 with h4 | h4
      · rw [h4.2.1, h2.2.1]; exact ⟨h4.1, h3.2⟩
      · exact absurd hz (h4.2 x h)
    · exact h z hz
  · intro t
    rw [hm]
    refine (ti t).mono (fun r b x hx => (pend r b x hx).1) (fun x hx z hz => (wait x hx z hz).1) hb (hp t) (hsw t) ?_
      (fun hc => hs hc t)
    intro z hz
    rcases ho z hz with h | h
    · exact Or.inl ⟨h.1, h.2.1, h.2.2.1, h.2.2.2 t⟩
    · exact Or.inr ⟨h.1 t, h.2⟩

theorem invC_init {s : St T R S X} (h : Init s) : InvC c s := by
  obtain ⟨h1, h2, h3, h4, h5, h6, h7, h8, h9, h10⟩ := h
  constructor
  · simp [h4]
  · simp [h6]
  · simp [h9]
  · intro t; rw [h5]; constructor <;> simp [pollView, reclView]

theorem invC_sub {s s' : St T R S X} {t : T} (hW : InvW c s) (hA : InvA c s)
    (hI : InvC c s) (h : step c s (.sub t) = some s') : InvC c s' := by
  have hc1 := hI.c1
  simp only [step, subStep, gs, opened] at h
  split at h <;> rename_i hq
  case h_1 => cases h
  case h_2 r x n =>
    simp only [Option.some.injEq] at h
    subst h
    refine hI.next rfl rfl ?_ ?_ ?_ ?_ ?_ ?_ ?_ ?_ ?_ <;> dsimp only
    · exact fun x hx => ⟨hx, rfl, fun z hz => hz⟩
    · exact fun r b x hx => Or.inl hx
    · exact fun t r _ _ b x hx => hx
    · intro u; keep; grind
    · exact fun _ _ _ _ _ h => h
    · exact fun x hx => Or.inl hx
    · exact fun t z hz => hz
    · exact fun z hz => Or.inl ⟨hz, rfl, rfl, fun t h => h⟩
    · exact fun _ t r _ g h => h
  case h_3 r x n g =>
    have k2 := hW.skey t _ _ (by rw [hq]; rfl)
    have k4 := hA.kb2 _ _ _ _ _ hq
    have hx : ∀ y ∈ s.opn, y ≠ x := fun y hy e => k2.2.1 (e ▸ hy)
    split at h <;> simp only [Option.some.injEq] at h <;> subst h
    · refine hI.next rfl rfl ?_ ?_ ?_ ?_ ?_ ?_ ?_ ?_ ?_ <;> dsimp only
      · exact fun x hx => ⟨hx, rfl, fun z hz => hz⟩
      · exact fun r b x hx => Or.inl hx
      · exact fun t r _ _ b x hx => hx
      · intro u; keep; grind
      · exact fun _ _ _ _ _ h => h
      · exact fun x hx => Or.inl hx
      · exact fun t z hz => hz
      · exact fun z hz => Or.inl ⟨List.mem_cons_of_mem _ hz, upd_ne _ _ (hx z hz), rfl, fun t h => h⟩
      · rintro _ t r' _ g ⟨z, hz, hzr, hzb⟩
        have : r' ≠ r := fun e => k4.2 z hz (hzr.trans e)
        exact ⟨z, List.mem_cons_of_mem _ hz, hzr, by rw [upd_ne _ _ this]; exact hzb⟩
    · refine hI.next rfl rfl ?_ ?_ ?_ ?_ ?_ ?_ ?_ ?_ ?_ <;> dsimp only
      · exact fun x hx => ⟨hx, rfl, fun z hz => hz⟩
      · exact fun r b x hx => Or.inl hx
      · exact fun t r _ _ b x hx => hx
      · intro u; keep; grind
      · exact fun _ _ _ _ _ h => h
      · exact fun x hx => Or.inl hx
      · exact fun t z hz => hz
      · exact fun z hz => Or.inl ⟨hz, rfl, rfl, fun t h => h⟩
      · rintro _ t r' _ g ⟨z, hz, hzr, hzb⟩
        have : r' ≠ r := fun e => k4.2 z hz (hzr.trans e)
        exact ⟨z, hz, hzr, by rw [upd_ne _ _ this]; exact hzb⟩
  case h_4 r x =>
    have k2 := hW.skey t _ _ (by rw [hq]; rfl)
    have hx : ∀ y ∈ s.opn, y ≠ x := fun y hy e => k2.2.1 (e ▸ hy)
    simp only [Option.some.injEq] at h
    subst h
    refine hI.next rfl rfl ?_ ?_ ?_ ?_ ?_ ?_ ?_ ?_ ?_ <;> dsimp only
    · exact fun x hx => ⟨hx, rfl, fun z hz => hz⟩
    · exact fun r b x hx => Or.inl hx
    · exact fun t r _ _ b x hx => hx
    · intro u; keep; grind
    · exact fun _ _ _ _ _ h => h
    · exact fun x hx => Or.inl hx
    · exact fun t z hz => hz
    · exact fun z hz => Or.inl ⟨List.mem_cons_of_mem _ hz, upd_ne _ _ (hx z hz), rfl, fun t h => h⟩
    · rintro _ t r' _ g ⟨z, hz, hzr, hzb⟩
      exact ⟨z, List.mem_cons_of_mem _ hz, hzr, hzb⟩
  case h_5 r x =>
    have k1 := hW.sown t _ (by rw [hq]; rfl)
    have k3 := fun hc => hW.sect hc t r x hq
    split at h
    · simp only [Option.some.injEq] at h
      subst h
      refine hI.next rfl rfl ?_ ?_ ?_ ?_ ?_ ?_ ?_ ?_ ?_ <;> dsimp only
      · exact fun x hx => ⟨hx, rfl, fun z hz => hz⟩
      · exact fun r b x hx => Or.inl hx
      · exact fun t r _ _ b x hx => hx
      · intro u; keep; grind
      · exact fun _ _ _ _ _ h => h
      · exact fun x hx => Or.inl hx
      · exact fun t z hz => hz
      · exact fun z hz => Or.inl ⟨hz, rfl, rfl, fun t h => h⟩
      · exact fun _ t r _ g h => h
    · split at h <;> simp only [Option.some.injEq] at h <;> subst h
      · refine hI.next rfl rfl ?_ ?_ ?_ ?_ ?_ ?_ ?_ ?_ ?_ <;> dsimp only
        · exact fun x hx => ⟨hx, rfl, fun z hz => hz⟩
        · exact fun r b x hx => Or.inl hx
        · exact fun t r _ _ b x hx => hx
        · intro u; keep; grind
        · exact fun _ _ _ _ _ h => h
        · exact fun x hx => Or.inl hx
        · exact fun t z hz => hz
        · exact fun z hz => Or.inl ⟨hz, rfl, rfl, fun t h => h⟩
        · rintro hc u r' hu g ⟨z, hz, hzr, hzb⟩
          have : r' ≠ r := by
            rintro rfl
            have h1 := hW.mown u r' hu
            rw [k1] at h1; cases h1
            rw [k3 hc] at hu; cases hu
          exact ⟨z, hz, hzr, by rw [upd_ne _ _ this]; exact hzb⟩
      · refine hI.next rfl rfl ?_ ?_ ?_ ?_ ?_ ?_ ?_ ?_ ?_ <;> dsimp only
        · exact fun x hx => ⟨hx, rfl, fun z hz => hz⟩
        · exact fun r b x hx => Or.inl hx
        · exact fun t r _ _ b x hx => hx
        · intro u; keep; grind
        · exact fun _ _ _ _ _ h => h
        · exact fun x hx => Or.inl hx
        · exact fun t z hz => hz
        · exact fun z hz => Or.inl ⟨hz, rfl, rfl, fun t h => h⟩
        · exact fun _ t r _ g h => h
  case h_6 r x e =>
    have k5 := hc1 t r x e hq
    simp only [Option.some.injEq] at h
    subst h
    refine hI.next rfl rfl ?_ ?_ ?_ ?_ ?_ ?_ ?_ ?_ ?_ <;> dsimp only
    · exact fun x hx => ⟨hx, rfl, fun z hz => hz⟩
    · intro r' b y hy
      rw [upd2_apply] at hy
      split at hy
      · next hrb =>
        rcases List.mem_cons.1 hy with rfl | hy
        · right; refine ⟨k5.1, ?_, ?_⟩
          · rw [k5.2.1]; exact hrb.2.symm
          · rw [k5.2.1]; exact k5.2.2.1
        · left; rw [hrb.1, hrb.2]; exact hy
      · exact Or.inl hy
    · intro u r' hu hc b y hy
      have hne : r' ≠ r := by
        rintro rfl
        have h1 := hW.mown u r' hu
        rw [(k5.2.2.2 hc).1] at h1; cases h1
        exact (k5.2.2.2 hc).2 hu
      rw [upd2_apply, if_neg (fun h => hne h.1)] at hy
      exact hy
    · intro u; keep; grind
    · exact fun _ _ _ _ _ h => h
    · exact fun x hx => Or.inl hx
    · exact fun t z hz => hz
    · exact fun z hz => Or.inl ⟨hz, rfl, rfl, fun t h => h⟩
    · exact fun _ t r _ g h => h
  case h_7 r =>
    have k1 := hW.sown t _ (by rw [hq]; rfl)
    simp only [Option.some.injEq] at h
    subst h
    refine hI.next rfl rfl ?_ ?_ ?_ ?_ ?_ ?_ ?_ ?_ ?_ <;> dsimp only
    · exact fun x hx => ⟨hx, rfl, fun z hz => hz⟩
    · exact fun r b x hx => Or.inl hx
    · exact fun t r _ _ b x hx => hx
    · intro u; keep; grind
    · intro u r' x e hu ho
      have : r' ≠ r := by
        rintro rfl
        rw [k1] at ho; cases ho
        rw [upd_same] at hu; cases hu
      rw [upd_ne _ _ this]; exact ho
    · exact fun x hx => Or.inl hx
    · exact fun t z hz => hz
    · exact fun z hz => Or.inl ⟨hz, rfl, rfl, fun t h => h⟩
    · exact fun _ t r _ g h => h

theorem invC_step {s s' : St T R S X} {a : Act T R S X} (hg : Good c) (hW : InvW c s) (hA : InvA c s) (hE : InvE s)
    (hI : InvC c s) (h : step c s a = some s') : InvC c s' := by
  have hc1 := hI.c1
  cases a with
  | main t => exact invC_main hW hA hE hI h
  | sub t => exact invC_sub hW hA hI h
  | register t r =>
    simp only [step] at h
    split at h <;> cases h
    next hr =>
    refine hI.next rfl rfl ?_ ?_ ?_ ?_ ?_ ?_ ?_ ?_ ?_ <;> dsimp only
    · exact fun x hx => ⟨hx, rfl, fun z hz => hz⟩
    · intro q b x hx; rw [upd_apply] at hx; split at hx
      · cases hx
      · exact Or.inl hx
    · intro u q _ _ b x hx; rw [upd_apply] at hx; split at hx
      · cases hx
      · exact hx
    · exact fun u q x e hu => Or.inl hu
    · intro u q x e hu ho
      have : q ≠ r := fun e => hr (e ▸ (hW.ownr q u ho).1)
      rw [upd_ne _ _ this]; exact ho
    · exact fun x hx => Or.inl hx
    · exact fun t z hz => hz
    · exact fun z hz => Or.inl ⟨hz, rfl, rfl, fun t h => h⟩
    · exact fun _ t r _ g h => h
  | recycle t r =>
    simp only [step] at h
    split at h <;> cases h
    next hr =>
    refine hI.next rfl rfl ?_ ?_ ?_ ?_ ?_ ?_ ?_ ?_ ?_ <;> dsimp only
    · exact fun x hx => ⟨hx, rfl, fun z hz => hz⟩
    · exact fun r b x hx => Or.inl hx
    · exact fun t r _ _ b x hx => hx
    · exact fun u q x e hu => Or.inl hu
    · intro u q x e hu ho
      have : q ≠ r := by
        rintro rfl
        have := (hW.ownr q u ho).2
        rw [hr.2] at this; cases this
      rw [upd_ne _ _ this]; exact ho
    · exact fun x hx => Or.inl hx
    · exact fun t z hz => hz
    · exact fun z hz => Or.inl ⟨hz, rfl, rfl, fun t h => h⟩
    · exact fun _ t r _ g h => h
  | unreg t r =>
    simp only [step, gs] at h
    split at h <;> cases h
    next hr =>
    refine hI.next rfl rfl ?_ ?_ ?_ ?_ ?_ ?_ ?_ ?_ ?_ <;> dsimp only
    · exact fun x hx => ⟨hx, rfl, fun z hz => hz⟩
    · intro q b x hx; rw [upd_apply] at hx; split at hx
      · cases hx
      · exact Or.inl hx
    · intro u q _ _ b x hx; rw [upd_apply] at hx; split at hx
      · cases hx
      · exact hx
    · intro u; keep; grind
    · exact fun _ _ _ _ _ h => h
    · exact fun x hx => Or.inl hx
    · exact fun t z hz => hz
    · exact fun z hz => Or.inl ⟨hz, rfl, rfl, fun t h => h⟩
    · exact fun _ t r _ g h => h
  | begin t r x n =>
    simp only [step, gs, opened] at h
    split at h
    case isFalse => cases h
    rename_i hg
    obtain ⟨g1, g2, g3, g4, g5⟩ := hg
    have hx : ∀ y ∈ s.opn, y ≠ x := fun y hy e => by rw [e] at hy; rw [hW.ouse x hy] at g4; simp at g4
    split at h
    · cases h
      refine hI.next rfl rfl ?_ ?_ ?_ ?_ ?_ ?_ ?_ ?_ ?_ <;> dsimp only
      · exact fun x hx => ⟨hx, rfl, fun z hz => hz⟩
      · exact fun r b x hx => Or.inl hx
      · exact fun t r _ _ b x hx => hx
      · intro u; keep; grind
      · exact fun _ _ _ _ _ h => h
      · exact fun x hx => Or.inl hx
      · exact fun t z hz => hz
      · exact fun z hz => Or.inl ⟨hz, rfl, upd_ne _ _ (hx z hz), fun t h => h⟩
      · rintro _ t r' _ g ⟨z, hz, hzr, hzb⟩
        exact ⟨z, hz, by rw [upd_ne _ _ (hx z hz)]; exact hzr, hzb⟩
    · split at h <;> cases h
      · refine hI.next rfl rfl ?_ ?_ ?_ ?_ ?_ ?_ ?_ ?_ ?_ <;> dsimp only
        · exact fun x hx => ⟨hx, rfl, fun z hz => hz⟩
        · exact fun r b x hx => Or.inl hx
        · exact fun t r _ _ b x hx => hx
        · exact fun u q x e hu => Or.inl hu
        · exact fun _ _ _ _ _ h => h
        · exact fun x hx => Or.inl hx
        · exact fun t z hz => hz
        · exact fun z hz => Or.inl ⟨List.mem_cons_of_mem _ hz, upd_ne _ _ (hx z hz), upd_ne _ _ (hx z hz), fun t h => h⟩
        · rintro _ t r' _ g ⟨z, hz, hzr, hzb⟩
          exact ⟨z, List.mem_cons_of_mem _ hz, by rw [upd_ne _ _ (hx z hz)]; exact hzr, hzb⟩
      · refine hI.next rfl rfl ?_ ?_ ?_ ?_ ?_ ?_ ?_ ?_ ?_ <;> dsimp only
        · exact fun x hx => ⟨hx, rfl, fun z hz => hz⟩
        · exact fun r b x hx => Or.inl hx
        · exact fun t r _ _ b x hx => hx
        · intro u; keep; grind
        · exact fun _ _ _ _ _ h => h
        · exact fun x hx => Or.inl hx
        · exact fun t z hz => hz
        · exact fun z hz => Or.inl ⟨hz, rfl, upd_ne _ _ (hx z hz), fun t h => h⟩
        · rintro _ t r' _ g ⟨z, hz, hzr, hzb⟩
          exact ⟨z, hz, by rw [upd_ne _ _ (hx z hz)]; exact hzr, hzb⟩
  | end_ t x =>
    simp only [step, endStep, gs] at h
    split at h <;> cases h
    next hg =>
    obtain ⟨g1, g2, g3, g4, g5⟩ := hg
    have hme : ∀ y, y ∈ s.opn.erase x ↔ y ≠ x ∧ y ∈ s.opn := fun y => hW.nodup.mem_erase_iff
    refine hI.next rfl rfl ?_ ?_ ?_ ?_ ?_ ?_ ?_ ?_ ?_ <;> dsimp only
    · exact fun x hx => ⟨hx, rfl, fun z hz => (List.mem_filter.1 hz).1⟩
    · exact fun r b x hx => Or.inl hx
    · exact fun t r _ _ b x hx => hx
    · intro u; keep; grind
    · exact fun _ _ _ _ _ h => h
    · exact fun x hx => Or.inl hx
    · exact fun t z hz => (List.mem_filter.1 hz).1
    · intro z hz
      by_cases hzx : z = x
      · right
        subst hzx
        exact ⟨fun t h => by simp [List.mem_filter] at h, fun y _ h => by simp [List.mem_filter] at h⟩
      · exact Or.inl ⟨(hme z).2 ⟨hzx, hz⟩, rfl, rfl, fun t h => by simp [List.mem_filter, h, hzx]⟩
    · rintro hc u r' hu g ⟨z, hz, hzr, hzb⟩
      refine ⟨z, (hme z).2 ⟨?_, hz⟩, hzr, hzb⟩
      rintro rfl
      have h1 := hW.mown u r' hu
      rw [← hzr, g2] at h1; cases h1
      rw [g5 hc] at hu; cases hu
  | call t r x =>
    simp only [step, gs] at h
    split at h <;> cases h
    next hq =>
    obtain ⟨g1, g2, g3, g4, g5⟩ := hq
    have hx : ∀ y, s.busy y = true → y ≠ x := fun y hy e => by rw [e, g1] at hy; cases hy
    refine hI.next rfl rfl ?_ ?_ ?_ ?_ ?_ ?_ ?_ ?_ ?_ <;> dsimp only
    · intro y hy
      rw [upd_ne _ _ (hx y hy), upd_ne _ _ (hx y hy), upd_ne _ _ (hx y hy)]
      exact ⟨hy, rfl, fun z hz => hz⟩
    · exact fun r b x hx => Or.inl hx
    · exact fun t r _ _ b x hx => hx
    · intro u q y e hu
      by_cases hut : u = t
      · subst hut
        rw [upd_same] at hu
        cases hu
        right
        rw [upd_same, upd_same]
        refine ⟨rfl, rfl, Nat.le_refl _, fun hc => ?_⟩
        rcases hg.2 with h | h
        · rw [h] at hc; cases hc
        · rcases g2 with h2 | h2
          · rw [h.2] at h2; cases h2.1
          · refine ⟨h2, ?_⟩
            rcases g5 with h5 | h5
            · rw [h.1] at h5; cases h5
            · cases hmn : s.main u <;> rw [hmn] at g4 h5 <;> simp_all [canSub, mainRec, dispRec]
      · rw [upd_ne _ _ hut] at hu; exact Or.inl hu
    · exact fun _ _ _ _ _ h => h
    · intro y hy
      by_cases hyx : y = x
      · subst hyx
        right
        rw [upd_same, upd_same]
        exact fun z hz => ⟨hz, (hE.se z hz).2⟩
      · rw [upd_ne _ _ hyx] at hy; exact Or.inl hy
    · exact fun t z hz => hz
    · exact fun z hz => Or.inl ⟨hz, rfl, rfl, fun t h => h⟩
    · exact fun _ t r _ g h => h
  | sync t bar =>
    simp only [step, gm] at h
    split at h <;> cases h
    next hq =>
    obtain ⟨g1, g2, g3, g4⟩ := hq
    obtain ⟨pend, c1, wait, ti⟩ := hI
    constructor <;> dsimp only
    · exact pend
    · intro u q y e hu
      have := c1 u q y e hu
      have hut : u ≠ t := by rintro rfl; rw [g1] at hu; cases hu
      rw [upd_ne _ _ hut]; exact this
    · exact wait
    · intro u
      by_cases hu : u = t
      · subst hu
        rw [upd_same]
        constructor <;> (try dsimp only [pollView, dkPoll, kPoll, reclView, dkRecl]) <;> try (junk)
        · rintro e' i' bar' d' l af ph hm; cases hm; exact ⟨Nat.le_refl _, fun h => absurd h (by simp)⟩
        · rintro e' i' bar' d' l af ph hm; cases hm; rw [upd_same]; exact fun z hz => ⟨hz, (hE.se z hz).2⟩
        · rintro e' i' bar' d' l ph hm; cases hm; exact fun z hz => Or.inl rfl
        · rintro e' i' r' d' l af ph hm
          cases hm
          rw [upd_same]
          refine ⟨?_, fun b x hx z hz => (wait x (pend r' b x hx).1 z hz).1⟩
          cases hc : c.sect
          · rfl
          · cases g4 hc
      · rw [upd_ne _ _ hu]
        refine (ti u).mono (fun r b x hx => (pend r b x hx).1) (fun x hx z hz => (wait x hx z hz).1) ?_ ?_ ?_ ?_ ?_ <;> dsimp only
        · exact fun x hx => ⟨hx, rfl, fun z hz => hz⟩
        · exact fun r _ _ b x hx => hx
        · rw [upd_ne _ _ hu]; exact fun z hz => hz
        · rw [upd_ne _ _ hu]; exact fun z hz => Or.inl ⟨hz, rfl, rfl, fun h => h⟩
        · exact fun _ r _ g h => h
  | poll t r =>
    simp only [step, gm] at h
    split at h <;> cases h
    next hq =>
    obtain ⟨g1, g2, g3, g4⟩ := hq
    obtain ⟨pend, c1, wait, ti⟩ := hI
    constructor <;> dsimp only
    · exact pend
    · intro u q y e hu
      have := c1 u q y e hu
      have hut : u ≠ t := by rintro rfl; rw [g1] at hu; cases hu
      rw [upd_ne _ _ hut]; exact this
    · exact wait
    · intro u
      by_cases hu : u = t
      · subst hu
        rw [upd_same]
        constructor <;> (try dsimp only [pollView, dkPoll, kPoll, reclView, dkRecl]) <;> try (junk)
        · intro hc r' g' hr b x hx; cases hr; exact (pend _ b x hx).2.2
        · intro hc r' g' hr
          cases hr
          obtain ⟨z, hz, hzr⟩ := g4 hc
          exact ⟨z, hz, hzr, (hE.held _ (Or.inl ⟨z, hz, hzr⟩)).2.2.1⟩
      · rw [upd_ne _ _ hu]
        refine (ti u).mono (fun r b x hx => (pend r b x hx).1) (fun x hx z hz => (wait x hx z hz).1) ?_ ?_ ?_ ?_ ?_ <;> dsimp only
        · exact fun x hx => ⟨hx, rfl, fun z hz => hz⟩
        · exact fun r _ _ b x hx => hx
        · exact fun z hz => hz
        · exact fun z hz => Or.inl ⟨hz, rfl, rfl, fun h => h⟩
        · exact fun _ r _ g h => h

/-- All of it. -/
def Inv (c : Cfg) (s : St T R S X) : Prop := InvW c s ∧ InvA c s ∧ InvE s ∧ InvC c s

theorem inv_reach {s : St T R S X} (hg : Good c) (hr : (sys T R S X c).Reach s) : Inv c s :=
  Sys.Reach.invariant (I := Inv c) (fun _ h => ⟨invW_init h, invA_init h, invE_init h, invC_init h⟩)
    (fun _ _ _ hi h => ⟨invW_step hi.1 h, invA_step hi.1 hi.2.1 h, invE_step hg.1 hi.1 hi.2.1 hi.2.2.1 h,
      invC_step hg hi.1 hi.2.1 hi.2.2.1 hi.2.2.2 h⟩) hr

end Verif.Ep
