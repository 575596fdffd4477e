import Verif.Barrier.Combining
import Mathlib.Data.Fintype.EquivFin
import Mathlib.Data.Fintype.Lattice
import Mathlib.Data.Fintype.Sum
import Mathlib.Data.Finset.Card
import Mathlib.Data.Fin.VecNotation
import Mathlib.Data.Fintype.BigOperators

/-!
# `ck_barrier_combining`: tree shape, phase separation, no lost wake-up (C24)

The members of a group are its threads and its child groups.  A group counts the members that arrived
in the current phase; the member completing the count arrives at the parent.
-/

set_option linter.unusedVariables false
set_option linter.unusedSectionVars false

namespace Verif.Barrier.Combining

open Verif Verif.Spec

variable {n G : Nat}

/-- Threads and child groups of `g`. -/
def Mem (cfg : Cfg n G) (g : Fin G) : Fin n ⊕ Fin G → Prop
  | .inl t => cfg.grp t = g
  | .inr c => cfg.parent c = some g

instance (cfg : Cfg n G) (g : Fin G) (m : Fin n ⊕ Fin G) : Decidable (Mem cfg g m) := by
  cases m <;> simp only [Mem] <;> infer_instance

theorem Mem.uniq {cfg : Cfg n G} {g g' : Fin G} {m : Fin n ⊕ Fin G} (h : Mem cfg g m) (h' : Mem cfg g' m) :
    g = g' := by
  cases m <;> simp only [Mem] at h h'
  · exact h.symm.trans h'
  · rw [h] at h'; simpa using h'

/-- Number of threads and child groups. -/
def arity (cfg : Cfg n G) (g : Fin G) : Nat := (Finset.univ.filter (Mem cfg g)).card

/-- A tree whose `k` counts threads and child groups. -/
structure WF (cfg : Cfg n G) : Prop where
  lt : ∀ c p, cfg.parent c = some p → (p : Nat) < c
  root : ∀ c, cfg.parent c = none → (c : Nat) = 0
  k : ∀ g, cfg.k g = arity cfg g
  ne : ∀ g, ∃ m, Mem cfg g m

def arrived (x : Th G) : Bool := match x.pc, x.st with
  | .idle, _ => false | .up _, [] => false | _, _ => true

/-- Arrivals of a thread at its own group. -/
def A (x : Th G) : Nat := x.r + (arrived x).toNat

/-- Arrivals of a member at its group. -/
def V (th : Fin n → Th G) (us : Fin G → Nat) : Fin n ⊕ Fin G → Nat
  | .inl t => A (th t)
  | .inr c => us c

def odd (c : Nat) : Bool := decide (c % 2 = 1)

theorem odd_succ (c : Nat) : odd (c + 1) = !odd c := by
  unfold odd; rcases Nat.mod_two_eq_zero_or_one c with h | h <;> simp [h] <;> omega

/-- The pending calls lead from the thread's group to the current one. -/
def Chain (cfg : Cfg n G) (g0 : Fin G) : List (Fin G) → Fin G → Prop
  | [], h => h = g0
  | c :: st, h => cfg.parent c = some h ∧ Chain cfg g0 st c

theorem Chain.lt {cfg : Cfg n G} (wf : WF cfg) {g0 : Fin G} {st : List (Fin G)} {h : Fin G}
    (hc : Chain cfg g0 st h) : ∀ c ∈ st, (h : Nat) < c := by
  induction st generalizing h with
  | nil => simp
  | cons d st ih =>
    intro c hm
    have h1 := wf.lt d h hc.1
    rcases List.mem_cons.1 hm with rfl | hm
    · exact h1
    · have := ih hc.2 c hm; omega

def cur : PC G → Option (Fin G)
  | .idle => none | .up h => some h | .wait h => some h | .rel0 h => some h | .relS h => some h

def Holds (x : Th G) (c : Fin G) : Prop := c ∈ x.st ∨ x.pc = .rel0 c ∨ x.pc = .relS c

/-- `c` is complete, but its arrival at the parent is yet to come. -/
def pending (x : Th G) (c : Fin G) : Prop := (∃ h, x.pc = .up h) ∧ x.st.head? = some c

open Classical in
structure TI (cfg : Cfg n G) (N U : Fin G → Nat) (own : Fin G → Option (Fin n)) (t : Fin n) (x : Th G) : Prop where
  er : x.e = x.r + if x.pc = .idle then 0 else 1
  sns : x.sense = !odd x.r
  idle : x.pc = .idle → x.st = []
  chain : ∀ h, cur x.pc = some h → Chain cfg (cfg.grp t) x.st h
  owns : ∀ c, own c = some t ↔ Holds x c
  ownN : ∀ c, own c = some t → N c = x.r
  Uc : ∀ c p, own c = some t → cfg.parent c = some p → U c = x.r + if pending x c then 0 else 1
  rel : ∀ h p, x.pc = .rel0 h ∨ x.pc = .relS h → cfg.parent h = some p → x.r + 1 ≤ N p
  rN : x.r ≤ N (cfg.grp t)
  NA : N (cfg.grp t) ≤ A x
  AN : A x ≤ N (cfg.grp t) + 1

theorem TI.mono {cfg : Cfg n G} {N U N' U' : Fin G → Nat} {own own' : Fin G → Option (Fin n)} {u : Fin n} {x : Th G}
    (h : TI cfg N U own u x) (h1 : ∀ c, N c ≤ N' c) (h2 : ∀ c, own' c = some u ↔ own c = some u)
    (h3 : ∀ c, own c = some u → N' c = N c ∧ U' c = U c) (h4 : N' (cfg.grp u) ≤ A x) :
    TI cfg N' U' own' u x where
  er := h.er
  sns := h.sns
  idle := h.idle
  chain := h.chain
  owns c := (h2 c).trans (h.owns c)
  ownN c hc := by
    have := (h2 c).1 hc
    rw [(h3 c this).1]; exact h.ownN c this
  Uc c p hc hp := by
    have := (h2 c).1 hc
    rw [(h3 c this).2]; exact h.Uc c p this hp
  rel g p hg hp := Nat.le_trans (h.rel g p hg hp) (h1 p)
  rN := Nat.le_trans h.rN (h1 _)
  NA := h4
  AN := Nat.le_trans h.AN (Nat.add_le_add_right (h1 _) 1)

def relOwned (s : St n G) (g : Fin G) : Prop := ∃ t, s.own g = some t ∧ (s.th t).pc = .relS g

def full (cfg : Cfg n G) (N : Fin G → Nat) (v : Fin n ⊕ Fin G → Nat) (g : Fin G) : Finset (Fin n ⊕ Fin G) :=
  Finset.univ.filter fun m => Mem cfg g m ∧ v m = N g + 1

structure Inv (cfg : Cfg n G) (s : St n G) : Prop where
  ti : ∀ t, TI cfg s.nf s.us s.own t (s.th t)
  gs : ∀ g, s.sense g = odd (s.nf g)
  gU : ∀ c g, cfg.parent c = some g → s.nf g ≤ s.us c ∧ s.us c ≤ s.nf g + 1 ∧ s.nf c ≤ s.nf g
  gfree : ∀ c p, s.own c = none → cfg.parent c = some p → s.us c = s.nf c
  gfull : ∀ g t, s.own g = some t → ∀ m, Mem cfg g m → V s.th s.us m = s.nf g + 1
  gnot : ∀ g, s.own g = none → ∃ m, Mem cfg g m ∧ V s.th s.us m = s.nf g
  gcnt : ∀ g, ¬ relOwned s g → s.count g = (full cfg s.nf (V s.th s.us) g).card
  gcnt0 : ∀ g, relOwned s g → s.count g = 0

/-- Members of a group are at its phase or one ahead. -/
theorem Inv.mem_range {cfg : Cfg n G} {s : St n G} (hi : Inv cfg s) {g : Fin G} {m : Fin n ⊕ Fin G}
    (hm : Mem cfg g m) : s.nf g ≤ V s.th s.us m ∧ V s.th s.us m ≤ s.nf g + 1 := by
  cases m with
  | inl t =>
    simp only [Mem] at hm
    subst hm
    exact ⟨(hi.ti t).NA, (hi.ti t).AN⟩
  | inr c => exact ⟨(hi.gU c g hm).1, (hi.gU c g hm).2.1⟩

/-- A step that changes no arrival. -/
theorem Inv.quiet {cfg : Cfg n G} {s : St n G} (hi : Inv cfg s) (t : Fin n) (x : Th G)
    (hx : TI cfg s.nf s.us s.own t x) (hA : A x = A (s.th t))
    (h1 : ∀ h, x.pc ≠ .relS h) (h2 : ∀ h, (s.th t).pc ≠ .relS h) :
    Inv cfg { s with th := upd s.th t x } := by
  have hV : ∀ m, V (upd s.th t x) s.us m = V s.th s.us m := by
    rintro (u | c)
    · simp only [V]
      by_cases hu : u = t
      · subst hu; rw [upd_same]; exact hA
      · rw [upd_ne _ _ hu]
    · rfl
  have hV' : V (upd s.th t x) s.us = V s.th s.us := funext hV
  have hro : ∀ g, relOwned { s with th := upd s.th t x } g ↔ relOwned s g := by
    intro g
    constructor
    · rintro ⟨u, e1, e2⟩
      refine ⟨u, e1, ?_⟩
      by_cases hu : u = t
      · subst hu; simp only [upd_same] at e2; exact absurd e2 (h1 g)
      · simpa only [upd_ne _ _ hu] using e2
    · rintro ⟨u, e1, e2⟩
      refine ⟨u, e1, ?_⟩
      by_cases hu : u = t
      · subst hu; exact absurd e2 (h2 g)
      · simpa only [upd_ne _ _ hu] using e2
  constructor <;> simp only [hV']
  · intro u
    by_cases hu : u = t
    · subst hu; rw [upd_same]; exact hx
    · rw [upd_ne _ _ hu]; exact hi.ti u
  · exact hi.gs
  · exact hi.gU
  · exact hi.gfree
  · exact hi.gfull
  · exact hi.gnot
  · intro g hg; exact hi.gcnt g (fun h => hg ((hro g).2 h))
  · intro g hg; exact hi.gcnt0 g ((hro g).1 hg)

theorem leave_A (x : Th G) (h : ∃ g, x.pc = .wait g ∨ x.pc = .relS g) : A (leave x) = A x := by
  obtain ⟨g, h | h⟩ := h <;> cases hs : x.st <;> simp [leave, A, arrived, h, hs]

theorem leave_pc (x : Th G) (h : Fin G) : (leave x).pc ≠ .relS h := by
  unfold leave; cases x.st <;> simp

/-- The thread after the current group has been released. -/
theorem leave_TI {cfg : Cfg n G} (wf : WF cfg) {N U N' : Fin G → Nat} {own own' : Fin G → Option (Fin n)} {t : Fin n}
    {x : Th G} {h : Fin G} (hx : TI cfg N U own t x) (hp : x.pc = .wait h ∨ x.pc = .relS h)
    (hr : x.r + 1 ≤ N' h) (h1 : ∀ c, N c ≤ N' c) (h3 : ∀ c, c ≠ h → N' c = N c)
    (ho : ∀ c, own' c = some t ↔ c ∈ x.st) (h4 : N' (cfg.grp t) ≤ A x) :
    TI cfg N' U own' t (leave x) := by
  have hcur : cur x.pc = some h := by rcases hp with e | e <;> rw [e] <;> rfl
  have hch := hx.chain h hcur
  have hlt := hch.lt wf
  have hne : x.pc ≠ .idle := by rcases hp with e | e <;> rw [e] <;> simp
  have her := hx.er
  rw [if_neg hne] at her
  have hA := leave_A x ⟨h, hp⟩
  have hupn : ¬ ∃ h, x.pc = .up h := by rintro ⟨_, e'⟩; rcases hp with e | e <;> rw [e] at e' <;> cases e'
  have hold : ∀ c, own' c = some t → own c = some t ∧ c ≠ h := by
    intro c hc
    have hm := (ho c).1 hc
    refine ⟨(hx.owns c).2 (.inl hm), ?_⟩
    rintro rfl; have := hlt _ hm; omega
  have hAN : A x ≤ N' (cfg.grp t) + 1 := Nat.le_trans hx.AN (Nat.add_le_add_right (h1 _) 1)
  cases hs : x.st with
  | nil =>
    rw [hs] at hch ho
    simp only [Chain] at hch
    constructor
    · simp [leave, hs, her]
    · simp only [leave, hs]; rw [odd_succ, hx.sns]
    · intro _; simp [leave, hs]
    · intro g hg; simp [leave, hs, cur] at hg
    · intro c; rw [ho]; simp [leave, hs, Holds]
    · intro c hc; rw [ho] at hc; cases hc
    · intro c p hc; rw [ho] at hc; cases hc
    · intro g p hg; simp [leave, hs] at hg
    · simp only [leave, hs]; rw [← hch]; exact hr
    · rw [hA]; exact h4
    · rw [hA]; exact hAN
  | cons c st =>
    rw [hs] at hch ho
    constructor
    · simp [leave, hs, her]
    · simp only [leave, hs]; exact hx.sns
    · intro hh; simp [leave, hs] at hh
    · intro g hg; simp [leave, hs, cur] at hg; subst hg; simp only [leave, hs]; exact hch.2
    · intro d; rw [ho]; simp only [leave, hs, Holds, List.mem_cons]
      constructor
      · rintro (rfl | h) <;> simp_all
      · rintro (h | h | h) <;> simp_all
    · intro d hd
      obtain ⟨e1, e2⟩ := hold d hd
      rw [h3 d e2, hx.ownN d e1]; simp [leave, hs]
    · intro d p hd hpd
      obtain ⟨e1, e2⟩ := hold d hd
      have := hx.Uc d p e1 hpd
      rw [if_neg (fun hh => hupn hh.1)] at this
      rw [this, if_neg (by simp [pending, leave, hs])]; simp [leave, hs]
    · intro g p hg hgp
      simp [leave, hs] at hg; subst hg
      rw [hch.1] at hgp; cases hgp
      simpa [leave, hs] using hr
    · have := Nat.le_trans hx.rN (h1 _)
      simpa [leave, hs] using this
    · rw [hA]; exact h4
    · rw [hA]; exact hAN

theorem inv_wait {cfg : Cfg n G} (wf : WF cfg) {s : St n G} (hi : Inv cfg s) (t : Fin n) {h : Fin G}
    (hp : (s.th t).pc = .wait h) (hf : (s.th t).sense = s.sense h) :
    Inv cfg { s with th := upd s.th t (leave (s.th t)) } := by
  have hx := hi.ti t
  have hch := hx.chain h (by rw [hp]; rfl)
  have hupn : ¬ ∃ h, (s.th t).pc = .up h := by rw [hp]; simp
  have hN : (s.th t).r ≤ s.nf h ∧ s.nf h ≤ (s.th t).r + 1 := by
    cases hs : (s.th t).st with
    | nil =>
      rw [hs] at hch; simp only [Chain] at hch; rw [hch]
      have h1 := hx.rN; have h2 := hx.NA
      rw [show A (s.th t) = (s.th t).r + 1 by simp [A, arrived, hp, hs]] at h2
      exact ⟨h1, h2⟩
    | cons c st =>
      rw [hs] at hch
      have ho := (hx.owns c).2 (.inl (by rw [hs]; simp))
      have h1 := hx.ownN c ho
      have h2 := hx.Uc c h ho hch.1
      rw [if_neg (fun hh => hupn hh.1)] at h2
      have h3 := hi.gU c h hch.1
      omega
  have hN1 : s.nf h = (s.th t).r + 1 := by
    by_contra hc
    have e : s.nf h = (s.th t).r := by omega
    rw [hi.gs, e, hx.sns] at hf
    cases ho : odd (s.th t).r <;> rw [ho] at hf <;> cases hf
  refine hi.quiet t _ ?_ (leave_A _ ⟨h, .inl hp⟩) (leave_pc _) (by rw [hp]; simp)
  refine leave_TI wf hx (.inl hp) (by omega) (fun _ => Nat.le_refl _) (fun _ _ => rfl) ?_ hx.NA
  intro c; rw [hx.owns]; simp [Holds, hp]

theorem inv_rel0 {cfg : Cfg n G} (wf : WF cfg) {s : St n G} (hi : Inv cfg s) (t : Fin n) {h : Fin G}
    (hp : (s.th t).pc = .rel0 h) :
    Inv cfg { s with count := upd s.count h 0, th := upd s.th t { s.th t with pc := .relS h } } := by
  have hx := hi.ti t
  have hA : A { s.th t with pc := .relS h } = A (s.th t) := by simp [A, arrived, hp]
  have hV' : V (upd s.th t { s.th t with pc := .relS h }) s.us = V s.th s.us := by
    funext m
    cases m with
    | inl u =>
      simp only [V]
      by_cases hu : u = t
      · subst hu; rw [upd_same]; exact hA
      · rw [upd_ne _ _ hu]
    | inr c => rfl
  have hown : s.own h = some t := (hx.owns h).2 (.inr (.inl hp))
  have hro : ∀ g, g ≠ h → (relOwned { s with count := upd s.count h 0, th := upd s.th t { s.th t with pc := .relS h } } g ↔
      relOwned s g) := by
    intro g hg
    constructor
    · rintro ⟨u, e1, e2⟩
      refine ⟨u, e1, ?_⟩
      by_cases hu : u = t
      · subst hu; simp only [upd_same] at e2; cases e2; exact absurd rfl hg
      · simpa only [upd_ne _ _ hu] using e2
    · rintro ⟨u, e1, e2⟩
      refine ⟨u, e1, ?_⟩
      by_cases hu : u = t
      · subst hu; rw [hp] at e2; cases e2
      · simpa only [upd_ne _ _ hu] using e2
  have hro' : relOwned { s with count := upd s.count h 0, th := upd s.th t { s.th t with pc := .relS h } } h :=
    ⟨t, hown, by simp⟩
  constructor <;> simp only [hV']
  · intro u
    by_cases hu : u = t
    · subst hu; rw [upd_same]
      have her := hx.er
      rw [hp] at her
      refine ⟨by simpa using her, hx.sns, by simp, ?_, ?_, hx.ownN, ?_, ?_, hx.rN, by rw [hA]; exact hx.NA,
        by rw [hA]; exact hx.AN⟩
      · intro g hg; exact hx.chain g (by rw [hp]; exact hg)
      · intro c; rw [hx.owns]; simp [Holds, hp]
      · intro c p hc hcp
        rw [hx.Uc c p hc hcp]
        simp [pending, hp]
      · intro g p hg hgp
        refine hx.rel g p ?_ hgp
        simp only [reduceCtorEq, false_or, PC.relS.injEq] at hg
        subst hg; exact .inl hp
    · rw [upd_ne _ _ hu]; exact hi.ti u
  · exact hi.gs
  · exact hi.gU
  · exact hi.gfree
  · exact hi.gfull
  · exact hi.gnot
  · intro g hg
    by_cases e : g = h
    · subst e; exact absurd hro' hg
    · rw [upd_ne _ _ e]; exact hi.gcnt g (fun hh => hg ((hro g e).2 hh))
  · intro g hg
    by_cases e : g = h
    · subst e; rw [upd_same]
    · rw [upd_ne _ _ e]; exact hi.gcnt0 g ((hro g e).1 hg)

theorem inv_relS {cfg : Cfg n G} (wf : WF cfg) {s : St n G} (hi : Inv cfg s) (t : Fin n) {h : Fin G}
    (hp : (s.th t).pc = .relS h) :
    Inv cfg { s with sense := upd s.sense h (!s.sense h), nf := upd s.nf h (s.nf h + 1)
                     own := upd s.own h none, th := upd s.th t (leave (s.th t)) } := by
  have hx := hi.ti t
  have hA : A (leave (s.th t)) = A (s.th t) := leave_A _ ⟨h, .inr hp⟩
  have hV' : V (upd s.th t (leave (s.th t))) s.us = V s.th s.us := by
    funext m
    cases m with
    | inl u =>
      simp only [V]
      by_cases hu : u = t
      · subst hu; rw [upd_same]; exact hA
      · rw [upd_ne _ _ hu]
    | inr c => rfl
  have hown : s.own h = some t := (hx.owns h).2 (.inr (.inr hp))
  have hNr := hx.ownN h hown
  have hfull := hi.gfull h t hown
  have hch := hx.chain h (by rw [hp]; rfl)
  have hlt := hch.lt wf
  have hmono : ∀ c, s.nf c ≤ upd s.nf h (s.nf h + 1) c := by
    intro c
    by_cases e : c = h
    · subst e; rw [upd_same]; omega
    · rw [upd_ne _ _ e]
  have hNA : ∀ u, upd s.nf h (s.nf h + 1) (cfg.grp u) ≤ A (s.th u) := by
    intro u
    by_cases e : cfg.grp u = h
    · rw [e, upd_same]
      have := hfull (.inl u) e
      simp only [V] at this; omega
    · rw [upd_ne _ _ e]; exact (hi.ti u).NA
  have hupn : ¬ ∃ h, (s.th t).pc = .up h := by rw [hp]; simp
  have hro : ∀ g, g ≠ h → (relOwned { s with sense := upd s.sense h (!s.sense h), nf := upd s.nf h (s.nf h + 1)
                                             own := upd s.own h none, th := upd s.th t (leave (s.th t)) } g ↔
      relOwned s g) := by
    intro g hg
    unfold relOwned
    simp only [upd_ne _ _ hg]
    constructor
    · rintro ⟨u, e1, e2⟩
      refine ⟨u, e1, ?_⟩
      by_cases hu : u = t
      · subst hu; rw [upd_same] at e2; exact absurd e2 (leave_pc _ _)
      · rwa [upd_ne _ _ hu] at e2
    · rintro ⟨u, e1, e2⟩
      refine ⟨u, e1, ?_⟩
      by_cases hu : u = t
      · subst hu; rw [hp] at e2; cases e2; exact absurd rfl hg
      · rwa [upd_ne _ _ hu]
  have hro' : ¬ relOwned { s with sense := upd s.sense h (!s.sense h), nf := upd s.nf h (s.nf h + 1)
                                  own := upd s.own h none, th := upd s.th t (leave (s.th t)) } h := by
    rintro ⟨u, e1, e2⟩
    simp only [upd_same] at e1; cases e1
  constructor <;> simp only [hV']
  · intro u
    by_cases hu : u = t
    · subst hu; rw [upd_same]
      refine leave_TI wf hx (.inr hp) (by rw [upd_same]; omega) hmono (fun c hc => upd_ne _ _ hc) ?_ (hNA u)
      intro c
      by_cases e : c = h
      · subst e; rw [upd_same]; constructor
        · intro h; cases h
        · intro hm; have := hlt _ hm; omega
      · rw [upd_ne _ _ e, hx.owns]
        simp only [Holds, hp, reduceCtorEq, false_or, PC.relS.injEq]
        constructor
        · rintro (h | h)
          · exact h
          · exact absurd h.symm e
        · exact .inl
    · rw [upd_ne _ _ hu]
      refine (hi.ti u).mono hmono ?_ ?_ (hNA u)
      · intro c
        by_cases e : c = h
        · subst e; rw [upd_same, hown]; simp only [reduceCtorEq, Option.some.injEq, false_iff]; exact Ne.symm hu
        · rw [upd_ne _ _ e]
      · intro c hc
        have e : c ≠ h := by rintro rfl; rw [hown] at hc; cases hc; exact hu rfl
        exact ⟨upd_ne _ _ e, rfl⟩
  · intro g
    by_cases e : g = h
    · subst e; rw [upd_same, upd_same, odd_succ, hi.gs]
    · rw [upd_ne _ _ e, upd_ne _ _ e]; exact hi.gs g
  · intro c g hcg
    have hb := hi.gU c g hcg
    have hcne : c ≠ g := by rintro rfl; have := wf.lt _ _ hcg; omega
    by_cases e : g = h
    · subst e
      rw [upd_same, upd_ne _ _ hcne]
      have := hfull (.inr c) hcg
      simp only [V] at this
      omega
    · rw [upd_ne _ _ e]
      by_cases e' : c = h
      · subst e'
        rw [upd_same]
        have := hx.rel c g (.inr hp) hcg
        omega
      · rw [upd_ne _ _ e']; exact hb
  · intro c p hc hcp
    by_cases e : c = h
    · subst e; rw [upd_same]
      have := hx.Uc c p hown hcp
      rw [if_neg (fun hh => hupn hh.1)] at this
      omega
    · rw [upd_ne _ _ e] at hc ⊢; exact hi.gfree c p hc hcp
  · intro g u hg
    have e : g ≠ h := by rintro rfl; rw [upd_same] at hg; cases hg
    rw [upd_ne _ _ e] at hg ⊢; exact hi.gfull g u hg
  · intro g hg
    by_cases e : g = h
    · subst e
      rw [upd_same]
      obtain ⟨m, hm⟩ := wf.ne g
      exact ⟨m, hm, hfull m hm⟩
    · rw [upd_ne _ _ e] at hg ⊢; exact hi.gnot g hg
  · intro g hg
    by_cases e : g = h
    · subst e
      rw [hi.gcnt0 g ⟨t, hown, hp⟩]
      symm
      rw [Finset.card_eq_zero]
      unfold full
      rw [Finset.filter_eq_empty_iff]
      rintro m - ⟨hm, hv⟩
      rw [upd_same, hfull m hm] at hv
      omega
    · rw [hi.gcnt g (fun hh => hg ((hro g e).2 hh))]
      unfold full; rw [upd_ne _ _ e]
  · intro g hg
    by_cases e : g = h
    · subst e; exact absurd hg hro'
    · exact hi.gcnt0 g ((hro g e).1 hg)

/-- The member of `h` on behalf of which a thread at `h` arrives. -/
def me (t : Fin n) : List (Fin G) → Fin n ⊕ Fin G
  | [] => .inl t
  | c :: _ => .inr c

theorem inv_up {cfg : Cfg n G} (wf : WF cfg) {s s' : St n G} (hi : Inv cfg s) (t : Fin n) {h : Fin G}
    (hp : (s.th t).pc = .up h) (hs : step cfg s (.run t) = some s') : Inv cfg s' := by
  have hx := hi.ti t
  have hch := hx.chain h (by rw [hp]; rfl)
  have hlt := hch.lt wf
  have her := hx.er
  rw [hp] at her
  -- the arriving member
  have hmem : Mem cfg h (me t (s.th t).st) := by
    cases hst : (s.th t).st with
    | nil => rw [hst] at hch; exact hch.symm
    | cons c st => rw [hst] at hch; exact hch.1
  have hv : V s.th s.us (me t (s.th t).st) = (s.th t).r ∧ s.nf h = (s.th t).r := by
    cases hst : (s.th t).st with
    | nil =>
      rw [hst] at hch; simp only [Chain] at hch; subst hch
      have hA : A (s.th t) = (s.th t).r := by simp [A, arrived, hp, hst]
      have h1 := hx.rN; have h2 := hx.NA
      exact ⟨hA, by omega⟩
    | cons c st =>
      rw [hst] at hch
      have ho := (hx.owns c).2 (.inl (by rw [hst]; simp))
      have h1 := hx.ownN c ho
      have h2 := hx.Uc c h ho hch.1
      rw [if_pos ⟨⟨h, hp⟩, by rw [hst]; rfl⟩] at h2
      have h3 := hi.gU c h hch.1
      exact ⟨by simp only [me, V]; omega, by omega⟩
  obtain ⟨hv, hN⟩ := hv
  have hfree : s.own h = none := by
    cases ho : s.own h with
    | none => rfl
    | some u => have := hi.gfull h u ho _ hmem; omega
  have hnro : ¬ relOwned s h := by rintro ⟨u, e, _⟩; rw [hfree] at e; cases e
  have hcnt := hi.gcnt h hnro
  have hnst : h ∉ (s.th t).st := fun hm => by have := hlt _ hm; omega
  -- arrivals afterwards
  have hVgen : ∀ x : Th G, x.st = (s.th t).st ∨ x.st = h :: (s.th t).st → x.r = (s.th t).r → arrived x = true →
      ∀ m, V (upd s.th t x) (bump s.us (s.th t).st) m =
        if m = me t (s.th t).st then (s.th t).r + 1 else V s.th s.us m := by
    intro x _ hr ha m
    cases hst : (s.th t).st with
    | nil =>
      simp only [me, bump]
      cases m with
      | inl u =>
        simp only [V, Sum.inl.injEq]
        by_cases hu : u = t
        · subst hu; rw [upd_same, if_pos rfl]; simp [A, ha, hr]
        · rw [upd_ne _ _ hu, if_neg hu]
      | inr c => simp [V]
    | cons d st =>
      simp only [me, bump]
      cases m with
      | inl u =>
        simp only [V, reduceCtorEq, if_false]
        by_cases hu : u = t
        · subst hu; rw [upd_same]
          have e1 : arrived (s.th u) = true := by simp [arrived, hp, hst]
          simp [A, ha, hr, e1]
        · rw [upd_ne _ _ hu]
      | inr c =>
        simp only [V, Sum.inr.injEq]
        by_cases hc : c = d
        · subst hc; rw [upd_same, if_pos rfl]
          rw [hst] at hv; simp only [me, V] at hv; omega
        · rw [upd_ne _ _ hc, if_neg hc]
  -- facts about the new arrival counters
  have hUother : ∀ c, (s.own c = some t → (s.th t).st.head? ≠ some c) → bump s.us (s.th t).st c = s.us c := by
    intro c hc
    cases hst : (s.th t).st with
    | nil => rfl
    | cons d st =>
      simp only [bump]
      rw [upd_ne]
      rintro rfl
      exact hc ((hx.owns c).2 (.inl (by rw [hst]; simp))) (by rw [hst]; rfl)
  have hUhead : ∀ c, (s.th t).st.head? = some c → bump s.us (s.th t).st c = (s.th t).r + 1 := by
    intro c hc
    cases hst : (s.th t).st with
    | nil => rw [hst] at hc; cases hc
    | cons d st =>
      rw [hst] at hc hv; simp at hc; subst hc
      simp only [bump]; rw [upd_same]
      simp only [me, V] at hv; omega
  have hheadown : ∀ c, (s.th t).st.head? = some c → s.own c = some t ∧ cfg.parent c = some h := by
    intro c hc
    cases hst : (s.th t).st with
    | nil => rw [hst] at hc; cases hc
    | cons d st =>
      rw [hst] at hc hch; simp at hc; subst hc
      exact ⟨(hx.owns d).2 (.inl (by rw [hst]; simp)), hch.1⟩
  have hUh : bump s.us (s.th t).st h = s.us h := hUother h (by rw [hfree]; simp)
  -- common part
  have main : ∀ (x : Th G) (own' : Fin G → Option (Fin n)),
      (x.st = (s.th t).st ∨ x.st = h :: (s.th t).st) → x.r = (s.th t).r → arrived x = true →
      (∀ g, x.pc ≠ .relS g) →
      (∀ c, c ≠ h → own' c = s.own c) →
      (own' h = none ∨ own' h = some t) →
      (own' h = none → s.count h + 1 ≠ cfg.k h) →
      (own' h = some t → s.count h + 1 = cfg.k h) →
      TI cfg s.nf (bump s.us (s.th t).st) own' t x →
      Inv cfg { s with count := upd s.count h (s.count h + 1), us := bump s.us (s.th t).st, own := own',
                       th := upd s.th t x } := by
    intro x own' hst hr ha hnr ho1 ho2 hk1 hk2 hTI
    have hV := hVgen x hst hr ha
    have hset : full cfg s.nf (V (upd s.th t x) (bump s.us (s.th t).st)) h =
        insert (me t (s.th t).st) (full cfg s.nf (V s.th s.us) h) := by
      ext m
      simp only [full, Finset.mem_filter, Finset.mem_univ, true_and, Finset.mem_insert, hV]
      constructor
      · rintro ⟨h1, h2⟩
        by_cases e : m = me t (s.th t).st
        · exact .inl e
        · rw [if_neg e] at h2; exact .inr ⟨h1, h2⟩
      · rintro (e | ⟨h1, h2⟩)
        · subst e; rw [if_pos rfl]; exact ⟨hmem, by omega⟩
        · refine ⟨h1, ?_⟩
          split
          · omega
          · exact h2
    have hnotin : me t (s.th t).st ∉ full cfg s.nf (V s.th s.us) h := by
      simp only [full, Finset.mem_filter, Finset.mem_univ, true_and, not_and]; omega
    have hcard : (full cfg s.nf (V (upd s.th t x) (bump s.us (s.th t).st)) h).card = s.count h + 1 := by
      rw [hset, Finset.card_insert_of_notMem hnotin, hcnt]
    have hsub : full cfg s.nf (V (upd s.th t x) (bump s.us (s.th t).st)) h ⊆ Finset.univ.filter (Mem cfg h) := by
      intro m hm
      simp only [full, Finset.mem_filter, Finset.mem_univ, true_and] at hm ⊢
      exact hm.1
    have hoth : ∀ g m, g ≠ h → Mem cfg g m → V (upd s.th t x) (bump s.us (s.th t).st) m = V s.th s.us m := by
      intro g m hg hm
      rw [hV, if_neg]
      rintro rfl
      exact hg (hm.uniq hmem)
    have hro : ∀ g, relOwned { s with count := upd s.count h (s.count h + 1), us := bump s.us (s.th t).st, own := own',
                                      th := upd s.th t x } g ↔ relOwned s g := by
      intro g
      constructor
      · rintro ⟨u, e1, e2⟩
        by_cases hu : u = t
        · subst hu; simp only [upd_same] at e2; exact absurd e2 (hnr g)
        · simp only [upd_ne _ _ hu] at e2
          have : g ≠ h := by
            rintro rfl
            rcases ho2 with e | e <;> simp only [e] at e1 <;> cases e1
            exact hu rfl
          simp only [ho1 g this] at e1
          exact ⟨u, e1, e2⟩
      · rintro ⟨u, e1, e2⟩
        have : g ≠ h := by rintro rfl; rw [hfree] at e1; cases e1
        refine ⟨u, by simp only [ho1 g this]; exact e1, ?_⟩
        by_cases hu : u = t
        · subst hu; rw [hp] at e2; cases e2
        · simp only [upd_ne _ _ hu]; exact e2
    constructor <;> simp only
    · intro u
      by_cases hu : u = t
      · subst hu; rw [upd_same]; exact hTI
      · rw [upd_ne _ _ hu]
        refine (hi.ti u).mono (fun _ => Nat.le_refl _) ?_ ?_ (hi.ti u).NA
        · intro c
          by_cases e : c = h
          · subst e
            rw [hfree]
            rcases ho2 with e | e <;> rw [e] <;> simp [Ne.symm hu]
          · rw [ho1 c e]
        · intro c hc
          exact ⟨rfl, hUother c (by rw [hc]; simp [hu])⟩
    · exact hi.gs
    · intro c g hcg
      have hb := hi.gU c g hcg
      by_cases e : (s.th t).st.head? = some c
      · rw [hUhead c e]
        have hg : g = h := by have := (hheadown c e).2; rw [hcg] at this; simpa using this
        subst hg
        omega
      · rw [hUother c (fun _ => e)]; exact hb
    · intro c p hc hcp
      have hc' : s.own c = none := by
        by_cases e : c = h
        · subst e; exact hfree
        · rw [← ho1 c e]; exact hc
      rw [hUother c (by rw [hc']; simp)]; exact hi.gfree c p hc' hcp
    · intro g u hg m hm
      by_cases e : g = h
      · subst e
        have hkk := hk2 (by rcases ho2 with e | e <;> rw [e] at hg ⊢; cases hg)
        have heq := Finset.eq_of_subset_of_card_le hsub (by
          rw [hcard, hkk]; exact Nat.le_of_eq (wf.k g).symm)
        have : m ∈ Finset.univ.filter (Mem cfg g) := by simp [hm]
        rw [← heq] at this
        simp only [full, Finset.mem_filter, Finset.mem_univ, true_and] at this
        exact this.2
      · rw [hoth g m e hm]
        rw [ho1 g e] at hg
        exact hi.gfull g u hg m hm
    · intro g hg
      by_cases e : g = h
      · subst e
        have hkk := hk1 hg
        by_contra hno
        apply hkk
        rw [wf.k, ← hcard]
        unfold arity
        congr 1
        apply Finset.Subset.antisymm hsub
        intro m hm
        simp only [full, Finset.mem_filter, Finset.mem_univ, true_and] at hm ⊢
        refine ⟨hm, ?_⟩
        have hrg := hi.mem_range hm
        by_contra hne
        refine hno ⟨m, hm, ?_⟩
        rw [hV] at hne ⊢
        split
        · next e => rw [if_pos e] at hne; omega
        · next e => rw [if_neg e] at hne; omega
      · rw [ho1 g e] at hg
        obtain ⟨m, hm, hvm⟩ := hi.gnot g hg
        exact ⟨m, hm, by rw [hoth g m e hm]; exact hvm⟩
    · intro g hg
      by_cases e : g = h
      · subst e; rw [upd_same, hcard]
      · rw [upd_ne _ _ e, hi.gcnt g (fun hh => hg ((hro g).2 hh))]
        congr 1
        ext m
        simp only [full, Finset.mem_filter, Finset.mem_univ, true_and]
        constructor
        · rintro ⟨h1, h2⟩; exact ⟨h1, by rw [hoth g m e h1]; exact h2⟩
        · rintro ⟨h1, h2⟩; exact ⟨h1, by rw [← hoth g m e h1]; exact h2⟩
    · intro g hg
      have := (hro g).1 hg
      have e : g ≠ h := by rintro rfl; exact hnro this
      rw [upd_ne _ _ e]; exact hi.gcnt0 g this
  -- common fields of the new thread state
  have hA1 : ∀ x : Th G, x.r = (s.th t).r → arrived x = true → s.nf (cfg.grp t) ≤ A x ∧ A x ≤ s.nf (cfg.grp t) + 1 := by
    intro x hr ha
    have h1 := hx.NA; have h2 := hx.AN; have h3 := hx.rN
    have : A x = (s.th t).r + 1 := by simp [A, hr, ha]
    have h4 : A (s.th t) ≤ (s.th t).r + 1 := by unfold A; cases arrived (s.th t) <;> simp
    omega
  have hUt : ∀ c p, s.own c = some t → cfg.parent c = some p → bump s.us (s.th t).st c = (s.th t).r + 1 := by
    intro c p hc hcp
    by_cases e : (s.th t).st.head? = some c
    · exact hUhead c e
    · rw [hUother c (fun _ => e), hx.Uc c p hc hcp, if_neg (fun hh => e hh.2)]
  have hownst : ∀ c, s.own c = some t ↔ c ∈ (s.th t).st := by
    intro c; rw [hx.owns]; simp [Holds, hp]
  simp only [step, hp] at hs
  split at hs
  · next hk =>
    cases hs
    have hownh : ∀ c, upd s.own h (some t) c = some t ↔ c = h ∨ c ∈ (s.th t).st := by
      intro c
      by_cases e : c = h
      · subst e; simp
      · rw [upd_ne _ _ e, hownst]; simp [e]
    have hN' : ∀ c, upd s.own h (some t) c = some t → s.nf c = (s.th t).r := by
      intro c hc
      rcases (hownh c).1 hc with rfl | hm
      · exact hN
      · exact hx.ownN c ((hownst c).2 hm)
    cases hpar : cfg.parent h with
    | some p =>
      simp only
      refine main { s.th t with pc := .up p, st := h :: (s.th t).st } _ (.inr rfl) rfl rfl (by simp)
        (fun c hc => upd_ne _ _ hc) (.inr (upd_same _ _ _)) (fun hh => by rw [upd_same] at hh; cases hh)
        (fun _ => hk) ?_
      refine ⟨by simpa using her, hx.sns, by simp, ?_, ?_, hN', ?_, by simp, hx.rN,
        (hA1 { s.th t with pc := .up p, st := h :: (s.th t).st } rfl rfl).1,
        (hA1 { s.th t with pc := .up p, st := h :: (s.th t).st } rfl rfl).2⟩
      · intro g hg; simp only [cur, Option.some.injEq] at hg; subst hg
        exact ⟨hpar, hch⟩
      · intro c; rw [hownh]; simp [Holds]
      · intro c p' hc hcp
        rcases (hownh c).1 hc with rfl | hm
        · rw [if_pos ⟨⟨p, rfl⟩, rfl⟩, hUh, hi.gfree c p' hfree hcp]; simpa using hN
        · have e : c ≠ h := by rintro rfl; exact hnst hm
          rw [if_neg, hUt c p' ((hownst c).2 hm) hcp]
          rintro ⟨-, hh⟩; simp at hh; exact e hh.symm
    | none =>
      simp only
      refine main { s.th t with pc := .rel0 h } _ (.inl rfl) rfl rfl (by simp)
        (fun c hc => upd_ne _ _ hc) (.inr (upd_same _ _ _)) (fun hh => by rw [upd_same] at hh; cases hh)
        (fun _ => hk) ?_
      refine ⟨by simpa using her, hx.sns, by simp, ?_, ?_, hN', ?_, ?_, hx.rN,
        (hA1 { s.th t with pc := .rel0 h } rfl rfl).1, (hA1 { s.th t with pc := .rel0 h } rfl rfl).2⟩
      · intro g hg; simp only [cur, Option.some.injEq] at hg; subst hg
        exact hch
      · intro c; rw [hownh]; simp [Holds]
        constructor
        · rintro (e | e)
          · exact .inr e.symm
          · exact .inl e
        · rintro (e | e)
          · exact .inr e
          · exact .inl e.symm
      · intro c p' hc hcp
        rcases (hownh c).1 hc with rfl | hm
        · rw [hpar] at hcp; cases hcp
        · rw [if_neg (by simp [pending]), hUt c p' ((hownst c).2 hm) hcp]
      · intro g p hg hgp
        simp at hg; subst hg
        rw [hpar] at hgp; cases hgp
  · next hk =>
    cases hs
    refine main { s.th t with pc := .wait h } s.own (.inl rfl) rfl rfl (by simp) (fun _ _ => rfl) (.inl hfree)
      (fun _ => hk) (fun hh => by rw [hfree] at hh; cases hh) ?_
    refine ⟨by simpa using her, hx.sns, by simp, ?_, ?_, hx.ownN, ?_, by simp, hx.rN,
      (hA1 { s.th t with pc := .wait h } rfl rfl).1, (hA1 { s.th t with pc := .wait h } rfl rfl).2⟩
    · intro g hg; simp only [cur, Option.some.injEq] at hg; subst hg
      exact hch
    · intro c; rw [hownst]; simp [Holds]
    · intro c p' hc hcp
      rw [if_neg (by simp [pending]), hUt c p' hc hcp]

theorem inv_step {cfg : Cfg n G} (wf : WF cfg) {s s' : St n G} {a : Act n} (hi : Inv cfg s)
    (hs : step cfg s a = some s') : Inv cfg s' := by
  cases a with
  | call t =>
    simp only [step] at hs
    split at hs
    case isFalse => cases hs
    rename_i hp
    cases hs
    have hx := hi.ti t
    have hst := hx.idle hp
    have her := hx.er
    rw [if_pos hp] at her
    refine hi.quiet t _ ?_ ?_ (by simp) (by rw [hp]; simp)
    · have hA : A { s.th t with pc := .up (cfg.grp t), e := (s.th t).e + 1 } = A (s.th t) := by
        simp [A, arrived, hp, hst]
      have hno : ∀ c, s.own c ≠ some t := by
        intro c hc
        have := (hx.owns c).1 hc
        simp [Holds, hp, hst] at this
      refine ⟨by simp [her], hx.sns, by simp, ?_, ?_, hx.ownN, ?_, by simp, hx.rN, by rw [hA]; exact hx.NA,
        by rw [hA]; exact hx.AN⟩
      · intro g hg; simp only [cur, Option.some.injEq] at hg; subst hg
        simp [hst, Chain]
      · intro c
        simp only [Holds, hst, reduceCtorEq, or_false, List.not_mem_nil, iff_false]
        exact hno c
      · intro c p hc; exact absurd hc (hno c)
    · simp [A, arrived, hp, hst]
  | run t =>
    cases hp : (s.th t).pc
    case idle => simp [step, hp] at hs
    case up h => exact inv_up wf hi t hp hs
    case wait h =>
      simp only [step, hp] at hs
      split at hs
      · cases hs; exact hi
      · next hf => cases hs; exact inv_wait wf hi t hp (by simpa using hf)
    case rel0 h => simp only [step, hp] at hs; cases hs; exact inv_rel0 wf hi t hp
    case relS h => simp only [step, hp] at hs; cases hs; exact inv_relS wf hi t hp

theorem inv_of_reach {cfg : Cfg n G} (wf : WF cfg) {s : St n G} (h : (sys cfg).Reach s) : Inv cfg s := by
  refine h.invariant (I := Inv cfg) ?_ (fun _ _ _ hi hs => inv_step wf hi hs)
  rintro s rfl
  constructor
  · intro t; constructor <;> simp [initSt, odd, cur, Holds, A, arrived]
  · intro g; simp [initSt, odd]
  · intro c g _; simp [initSt]
  · intro c p _ _; simp [initSt]
  · intro g t h; simp [initSt] at h
  · intro g _
    obtain ⟨m, hm⟩ := wf.ne g
    refine ⟨m, hm, ?_⟩
    cases m <;> simp [V, A, arrived, initSt]
  · intro g _
    symm
    simp only [initSt]
    rw [Finset.card_eq_zero]
    unfold full
    rw [Finset.filter_eq_empty_iff]
    rintro m - ⟨hm, hv⟩
    cases m <;> simp [V, A, arrived] at hv
  · rintro g ⟨t, h, _⟩; simp [initSt] at h

/-! ## Properties of the barrier on a well-formed tree -/

theorem Inv.N_le_root {cfg : Cfg n G} (wf : WF cfg) {s : St n G} (hi : Inv cfg s) (h0 : 0 < G) :
    ∀ g (hg : g < G), s.nf ⟨g, hg⟩ ≤ s.nf ⟨0, h0⟩ := by
  intro g
  induction g using Nat.strongRecOn with
  | _ g ih =>
    intro hg
    cases hp : cfg.parent ⟨g, hg⟩ with
    | none =>
      have h : g = 0 := wf.root _ hp
      subst h
      exact Nat.le_refl _
    | some p =>
      have h1 := (hi.gU _ _ hp).2.2
      have h2 : (p : Nat) < g := wf.lt _ _ hp
      exact Nat.le_trans h1 (ih p h2 p.isLt)

theorem Inv.root_le_V {cfg : Cfg n G} (wf : WF cfg) {s : St n G} (hi : Inv cfg s) (h0 : 0 < G) :
    ∀ g (hg : g < G) m, Mem cfg ⟨g, hg⟩ m → s.nf ⟨0, h0⟩ ≤ V s.th s.us m := by
  intro g
  induction g using Nat.strongRecOn with
  | _ g ih =>
    intro hg m hm
    cases hp : cfg.parent ⟨g, hg⟩ with
    | none =>
      have h : g = 0 := wf.root _ hp
      subst h
      exact (hi.mem_range hm).1
    | some p =>
      have h2 : (p : Nat) < g := wf.lt _ _ hp
      have h1 := ih p h2 p.isLt (.inr ⟨g, hg⟩) hp
      simp only [V] at h1
      refine Nat.le_trans h1 ?_
      cases ho : s.own ⟨g, hg⟩ with
      | none => rw [hi.gfree _ p ho hp]; exact (hi.mem_range hm).1
      | some t =>
        rw [hi.gfull _ t ho m hm]
        have h3 := (hi.ti t).ownN _ ho
        have h4 := (hi.ti t).Uc _ p ho hp
        rw [h4, h3]; split <;> omega

theorem phase_sep_wf {cfg : Cfg n G} (wf : WF cfg) {s : St n G} (h : (sys cfg).Reach s) :
    PhaseSep (fun t => (s.th t).e) (fun t => (s.th t).r) := by
  intro t u
  have hi := inv_of_reach wf h
  have h0 : 0 < G := Nat.zero_lt_of_lt (cfg.grp t).isLt
  simp only
  have h1 := hi.N_le_root wf h0 (cfg.grp t) (cfg.grp t).isLt
  have h2 := hi.root_le_V wf h0 (cfg.grp u) (cfg.grp u).isLt (.inl u) rfl
  refine Nat.le_trans (hi.ti t).rN (Nat.le_trans h1 (Nat.le_trans h2 ?_))
  simp only [V]
  rw [(hi.ti u).er]
  cases hp : (s.th u).pc <;> cases hs : (s.th u).st <;> simp [A, arrived, hp, hs]

theorem no_deadlock_wf {cfg : Cfg n G} (wf : WF cfg) (hn : 0 < n) {s : St n G} (h : (sys cfg).Reach s)
    (hq : ∀ t, (s.th t).pc ≠ .idle) :
    ∃ t s', (sys cfg).step s (.run t) = some s' ∧ (s'.th t).pc ≠ (s.th t).pc := by
  have hi := inv_of_reach wf h
  by_contra hno
  have hstuck : ∀ t s', (sys cfg).step s (.run t) = some s' → (s'.th t).pc = (s.th t).pc := by
    intro t s' h1; by_contra h2; exact hno ⟨t, s', h1, h2⟩
  have hkind : ∀ t, ∃ g, (s.th t).pc = .wait g ∧ s.nf g = (s.th t).r := by
    intro t
    have hst := hstuck t
    have hx := hi.ti t
    simp only [sys, step] at hst
    cases hp : (s.th t).pc <;> simp only [hp] at hst
    case idle => exact absurd hp (hq t)
    case up g =>
      exfalso
      have hch := hx.chain g (by rw [hp]; rfl)
      split at hst
      · have := hst _ rfl
        simp only [upd_same] at this
        cases hpar : cfg.parent g <;> simp only [hpar] at this
        · cases this
        · cases this; have := wf.lt _ _ hpar; omega
      · have := hst _ rfl; simp at this
    case wait g =>
      refine ⟨g, rfl, ?_⟩
      have hch := hx.chain g (by rw [hp]; rfl)
      have hupn : ¬ ∃ h, (s.th t).pc = .up h := by rw [hp]; simp
      have hN : (s.th t).r ≤ s.nf g ∧ s.nf g ≤ (s.th t).r + 1 := by
        cases hs : (s.th t).st with
        | nil =>
          rw [hs] at hch; simp only [Chain] at hch; rw [hch]
          have h1 := hx.rN; have h2 := hx.NA
          rw [show A (s.th t) = (s.th t).r + 1 by simp [A, arrived, hp, hs]] at h2
          exact ⟨h1, h2⟩
        | cons c st =>
          rw [hs] at hch
          have ho := (hx.owns c).2 (.inl (by rw [hs]; simp))
          have h1 := hx.ownN c ho
          have h2 := hx.Uc c g ho hch.1
          rw [if_neg (fun hh => hupn hh.1)] at h2
          have h3 := hi.gU c g hch.1
          omega
      by_contra hc
      have e : s.nf g = (s.th t).r + 1 := by omega
      rw [if_neg (by rw [hi.gs, e, odd_succ, hx.sns]; simp)] at hst
      have := hst _ rfl
      simp only [upd_same] at this
      unfold leave at this
      cases hs : (s.th t).st <;> simp [hs] at this
    case rel0 g => have := hst _ rfl; simp at this
    case relS g => have := hst _ rfl; simp only [upd_same] at this; exact absurd this (leave_pc _ _)
  have : Nonempty (Fin n) := ⟨⟨0, hn⟩⟩
  obtain ⟨m, hmin⟩ := Finite.exists_min (fun t => (s.th t).r)
  have harr : ∀ t, A (s.th t) = (s.th t).r + 1 := by
    intro t
    obtain ⟨g, hg, _⟩ := hkind t
    simp [A, arrived, hg]
  -- every group of the least phase is complete
  have hcomp : ∀ g : Fin G, s.nf g = (s.th m).r → s.own g ≠ none := by
    suffices H : ∀ d (g : Fin G), G - g ≤ d → s.nf g = (s.th m).r → s.own g ≠ none from
      fun g => H G g (by omega)
    intro d
    induction d with
    | zero => intro g hd; have := g.isLt; omega
    | succ d ih =>
      intro g hd hg ho
      obtain ⟨x, hx, hvx⟩ := hi.gnot g ho
      cases x with
      | inl u =>
        simp only [V] at hvx
        have := harr u; have h1 := hmin u
        omega
      | inr c =>
        simp only [V] at hvx
        have hlt := wf.lt c g hx
        cases hoc : s.own c with
        | none =>
          have := hi.gfree c g hoc hx
          exact ih c (by omega) (by omega) hoc
        | some u =>
          obtain ⟨g', hg', _⟩ := hkind u
          have h1 := (hi.ti u).Uc c g hoc hx
          rw [if_neg (by simp [pending, hg'])] at h1
          have h2 := hmin u
          omega
  -- but the thread that completed it waits nearer to the root
  have hdesc : ∀ d (t : Fin n) (g : Fin G), (g : Nat) ≤ d → (s.th t).pc = .wait g → (s.th t).r ≠ (s.th m).r := by
    intro d
    induction d using Nat.strongRecOn with
    | _ d ih =>
      intro t g hd hp hr
      obtain ⟨g', hg', hN⟩ := hkind t
      rw [hp] at hg'; cases hg'
      cases ho : s.own g with
      | none => exact hcomp g (by omega) ho
      | some u =>
        obtain ⟨g', hg', hN'⟩ := hkind u
        have hh := ((hi.ti u).owns g).1 ho
        have hin : g ∈ (s.th u).st := by simpa [Holds, hg'] using hh
        have hlt := ((hi.ti u).chain g' (by rw [hg']; rfl)).lt wf g hin
        have hru := (hi.ti u).ownN g ho
        exact ih g' (by omega) u g' (Nat.le_refl _) hg' (by omega)
  obtain ⟨g, hg, _⟩ := hkind m
  exact hdesc G m g (by omega) hg rfl

/-! ## The tree built by `ck_barrier_combining_group_init` -/

/-- Groups `0 … m` form a complete binary tree and `k` counts threads and children. -/
structure Shape (sz : Nat → Nat) (m : Nat) (h : Nat → Node) : Prop where
  left : ∀ i, i ≤ m → (h i).left = if 2 * i + 1 ≤ m then some (2 * i + 1) else none
  right : ∀ i, i ≤ m → (h i).right = if 2 * i + 2 ≤ m then some (2 * i + 2) else none
  parent : ∀ i, i ≤ m → (h i).parent = if i = 0 then none else some ((i - 1) / 2)
  k : ∀ i, i ≤ m → (h i).k = (if i = 0 then 0 else sz i) +
    (if 2 * i + 1 ≤ m then 1 else 0) + (if 2 * i + 2 ≤ m then 1 else 0)

theorem insertLeft_eq (h : Nat → Node) {p m : Nat} (hne : p ≠ m) (j : Nat) :
    insertLeft h p m j = if j = p then { h p with left := some m, k := (h p).k + 1 }
      else if j = m then { h m with parent := some p } else h j := by
  unfold insertLeft
  by_cases e1 : j = p
  · subst e1; simp only [upd_same, upd_ne _ _ hne, if_true]
  · by_cases e2 : j = m
    · subst e2; simp only [upd_same, upd_ne _ _ e1, if_neg e1, if_true]
    · simp only [upd_ne _ _ e1, upd_ne _ _ e2, if_neg e1, if_neg e2]

theorem insertRight_eq (h : Nat → Node) {p m : Nat} (hne : p ≠ m) (j : Nat) :
    insertRight h p m j = if j = p then { h p with right := some m, k := (h p).k + 1 }
      else if j = m then { h m with parent := some p } else h j := by
  unfold insertRight
  by_cases e1 : j = p
  · subst e1; simp only [upd_same, upd_ne _ _ hne, if_true]
  · by_cases e2 : j = m
    · subst e2; simp only [upd_same, upd_ne _ _ e1, if_neg e1, if_true]
    · simp only [upd_ne _ _ e1, upd_ne _ _ e2, if_neg e1, if_neg e2]

/-- The new node. -/
def fresh (k : Nat) : Node := { k := k, parent := none, left := none, right := none }

theorem shape_left {sz : Nat → Nat} {m i : Nat} {h : Nat → Node} (hs : Shape sz m h) (hi : 2 * i = m) :
    Shape sz (m + 1) (insertLeft (upd h (m + 1) (fresh (sz (m + 1)))) i (m + 1)) := by
  have hne : i ≠ m + 1 := by omega
  have him : i ≤ m := by omega
  have h1 := hs.left i him; have h2 := hs.right i him; have h3 := hs.parent i him; have h4 := hs.k i him
  rw [if_neg (by omega)] at h1 h2
  have h0 : m + 1 ≠ 0 := by omega
  constructor
  all_goals
    intro j hj
    rw [insertLeft_eq _ hne]
    by_cases e1 : j = i
    · subst e1
      simp only [if_true, upd_ne _ _ hne, h1, h2, h3, h4]
      first | done | grind
    · rw [if_neg e1]
      by_cases e2 : j = m + 1
      · subst e2
        simp only [if_true, upd_same, fresh, if_neg h0]
        first | done | grind
      · have hjm : j ≤ m := by omega
        have g1 := hs.left j hjm; have g2 := hs.right j hjm; have g3 := hs.parent j hjm; have g4 := hs.k j hjm
        rw [if_neg e2, upd_ne _ _ e2]
        simp only [g1, g2, g3, g4]
        first | done | grind

theorem shape_right {sz : Nat → Nat} {m i : Nat} {h : Nat → Node} (hs : Shape sz m h) (hi : 2 * i + 1 = m) :
    Shape sz (m + 1) (insertRight (upd h (m + 1) (fresh (sz (m + 1)))) i (m + 1)) := by
  have hne : i ≠ m + 1 := by omega
  have him : i ≤ m := by omega
  have h1 := hs.left i him; have h2 := hs.right i him; have h3 := hs.parent i him; have h4 := hs.k i him
  rw [if_pos (by omega)] at h1
  rw [if_neg (by omega)] at h2
  have h0 : m + 1 ≠ 0 := by omega
  constructor
  all_goals
    intro j hj
    rw [insertRight_eq _ hne]
    by_cases e1 : j = i
    · subst e1
      simp only [if_true, upd_ne _ _ hne, h1, h2, h3, h4]
      first | done | grind
    · rw [if_neg e1]
      by_cases e2 : j = m + 1
      · subst e2
        simp only [if_true, upd_same, fresh, if_neg h0]
        first | done | grind
      · have hjm : j ≤ m := by omega
        have g1 := hs.left j hjm; have g2 := hs.right j hjm; have g3 := hs.parent j hjm; have g4 := hs.k j hjm
        rw [if_neg e2, upd_ne _ _ e2]
        simp only [g1, g2, g3, g4]
        first | done | grind

theorem place_shape {sz : Nat → Nat} {m : Nat} {h : Nat → Node} (hs : Shape sz m h) :
    ∀ d i fuel, i + d = m / 2 → fuel ≥ d + 1 →
      ∃ h', place (upd h (m + 1) (fresh (sz (m + 1)))) (m + 1) fuel
        (List.range' i (i + 1)) = some h' ∧ Shape sz (m + 1) h' := by
  intro d
  induction d with
  | zero =>
    intro i fuel hi hf
    obtain ⟨f, rfl⟩ : ∃ f, fuel = f + 1 := ⟨fuel - 1, by omega⟩
    have him : i ≤ m := by omega
    have hne : i ≠ m + 1 := by omega
    rw [List.range'_succ]
    simp only [place, upd_ne _ _ hne, hs.left i him, hs.right i him]
    by_cases hl : 2 * i + 1 ≤ m
    · rw [if_pos hl, if_neg (by omega)]
      exact ⟨_, rfl, shape_right hs (by omega)⟩
    · rw [if_neg hl]
      exact ⟨_, rfl, shape_left hs (by omega)⟩
  | succ d ih =>
    intro i fuel hi hf
    obtain ⟨f, rfl⟩ : ∃ f, fuel = f + 1 := ⟨fuel - 1, by omega⟩
    have him : i ≤ m := by omega
    have hne : i ≠ m + 1 := by omega
    obtain ⟨h', e1, e2⟩ := ih (i + 1) f (by omega) (by omega)
    refine ⟨h', ?_, e2⟩
    rw [← e1, List.range'_succ]
    simp only [place, upd_ne _ _ hne, hs.left i him, hs.right i him]
    rw [if_pos (by omega), if_pos (by omega)]
    simp only
    congr 1
    rw [List.range'_concat (s := i + 1) (n := i + 1), List.range'_concat (s := i + 1) (n := i)]
    simp
    omega

/-- C24: whatever the groups, initialization terminates with a complete binary tree in which `k` is the
number of threads plus the number of child groups. -/
theorem build_shape (sz : Nat → Nat) (m : Nat) : ∃ h, build sz m = some h ∧ Shape sz m h := by
  induction m with
  | zero =>
    refine ⟨_, rfl, ?_⟩
    constructor <;> intro i hi <;> simp [initRoot] <;> omega
  | succ m ih =>
    obtain ⟨h, e, hs⟩ := ih
    obtain ⟨h', e1, e2⟩ := place_shape hs (m / 2) 0 (m + 2) (by omega) (by omega)
    refine ⟨h', ?_, e2⟩
    simp only [build, e, Option.bind_some, groupInit]
    exact e1

/-- `cfg` is what initialization builds from groups `1 … m` of sizes `sz`. -/
def Built (sz : Nat → Nat) (m : Nat) (cfg : Cfg n (m + 1)) : Prop :=
  ∃ h, build sz m = some h ∧ (∀ g : Fin (m + 1), cfg.k g = (h g).k) ∧
    (∀ g : Fin (m + 1), (cfg.parent g).map (·.val) = (h g).parent)

/-- How the barrier has to be used: nobody passes the group given to `ck_barrier_combining_init`, every
other group is passed by as many threads as were announced, at least one. -/
structure Use (sz : Nat → Nat) {m : Nat} (cfg : Cfg n (m + 1)) : Prop where
  nz : ∀ t, cfg.grp t ≠ 0
  num : ∀ g : Fin (m + 1), g ≠ 0 → sz g = (Finset.univ.filter fun t => cfg.grp t = g).card
  pos : ∀ g : Fin (m + 1), g ≠ 0 → 0 < sz g

theorem sum_val_eq (m a : Nat) : (∑ c : Fin (m + 1), if (c : Nat) = a then 1 else 0) = if a ≤ m then 1 else 0 := by
  by_cases h : a ≤ m
  · rw [if_pos h, Finset.sum_eq_single ⟨a, by omega⟩]
    · simp
    · intro b _ hb; rw [if_neg]; rintro rfl; exact hb rfl
    · simp
  · rw [if_neg h]
    apply Finset.sum_eq_zero
    intro c _; rw [if_neg]; have := c.isLt; omega

theorem wf_of_built {sz : Nat → Nat} {m : Nat} {cfg : Cfg n (m + 1)} (hb : Built sz m cfg) (hu : Use sz cfg)
    (hn : 0 < n) : WF cfg := by
  obtain ⟨h, e, hk, hpar⟩ := hb
  obtain ⟨h', e', hs⟩ := build_shape sz m
  rw [e] at e'; cases e'
  have hp : ∀ c g : Fin (m + 1), cfg.parent c = some g ↔ ((c : Nat) = 2 * g + 1 ∨ (c : Nat) = 2 * g + 2) := by
    intro c g
    have h1 := hpar c
    rw [hs.parent c (by omega)] at h1
    constructor
    · intro h2
      rw [h2] at h1
      simp only [Option.map_some] at h1
      split at h1
      · cases h1
      · simp only [Option.some.injEq] at h1; omega
    · intro h2
      rw [if_neg (by omega)] at h1
      cases h3 : cfg.parent c with
      | none => rw [h3] at h1; cases h1
      | some d =>
        rw [h3] at h1
        simp only [Option.map_some, Option.some.injEq] at h1
        congr 1
        exact Fin.ext (by omega)
  have hm : 1 ≤ m := by
    by_contra hc
    have h0 := hu.nz ⟨0, hn⟩
    apply h0
    apply Fin.ext
    have := (cfg.grp ⟨0, hn⟩).isLt
    simp only [Fin.val_zero]; omega
  constructor
  · intro c p hcp
    have := (hp c p).1 hcp; omega
  · intro c hc
    have h1 := hpar c
    rw [hc, hs.parent c (by omega)] at h1
    by_contra hne
    rw [if_neg hne] at h1; cases h1
  · intro g
    rw [hk, hs.k g (by omega)]
    unfold arity
    rw [Finset.card_filter, Fintype.sum_sum_type]
    have hT : (∑ t : Fin n, if Mem cfg g (.inl t) then 1 else 0) = if (g : Nat) = 0 then 0 else sz g := by
      simp only [Mem]
      rw [← Finset.card_filter]
      by_cases h0 : (g : Nat) = 0
      · rw [if_pos h0, Finset.card_eq_zero, Finset.filter_eq_empty_iff]
        rintro t - ht
        exact hu.nz t (ht.trans (Fin.ext h0))
      · rw [if_neg h0, hu.num g (fun hh => h0 (by rw [hh]; rfl))]
    have hC : (∑ c : Fin (m + 1), if Mem cfg g (.inr c) then 1 else 0) =
        (if 2 * (g : Nat) + 1 ≤ m then 1 else 0) + (if 2 * (g : Nat) + 2 ≤ m then 1 else 0) := by
      rw [← sum_val_eq, ← sum_val_eq, ← Finset.sum_add_distrib]
      apply Finset.sum_congr rfl
      intro c _
      simp only [Mem, hp]
      by_cases e1 : (c : Nat) = 2 * g + 1
      · simp [e1]
      · by_cases e2 : (c : Nat) = 2 * g + 2 <;> simp [e1, e2]
    rw [hT, hC]; omega
  · intro g
    by_cases h0 : g = 0
    · subst h0
      exact ⟨.inr ⟨1, by omega⟩, (hp _ _).2 (by simp)⟩
    · have h1 := hu.pos g h0
      rw [hu.num g h0, Finset.card_pos] at h1
      obtain ⟨t, ht⟩ := h1
      exact ⟨.inl t, by simpa [Mem] using ht⟩

/-! ## Properties -/

/-- Initialization succeeds for all groups. -/
theorem exists_built (sz : Nat → Nat) (m : Nat) (grp : Fin n → Fin (m + 1)) :
    ∃ cfg : Cfg n (m + 1), Built sz m cfg ∧ cfg.grp = grp := by
  obtain ⟨h, e, hs⟩ := build_shape sz m
  refine ⟨{ k := fun g => (h g).k, grp := grp
            parent := fun g => if (g : Nat) = 0 then none else some ⟨(g - 1) / 2, by have := g.isLt; omega⟩ },
    ⟨h, e, fun _ => rfl, ?_⟩, rfl⟩
  intro g
  rw [hs.parent g (by omega)]
  simp only
  split <;> rfl

/-- C24: nobody has returned from its k-th call before everybody has made theirs. -/
theorem phase_separation {sz : Nat → Nat} {m : Nat} {cfg : Cfg n (m + 1)} (hb : Built sz m cfg) (hu : Use sz cfg)
    {s : St n (m + 1)} (h : (sys cfg).Reach s) :
    PhaseSep (fun t => (s.th t).e) (fun t => (s.th t).r) := by
  intro t u
  exact phase_sep_wf (wf_of_built hb hu (Nat.zero_lt_of_lt t.isLt)) h t u

/-- C24: nobody stays blocked.  If everybody is inside a call, some thread can take a step that is not a
spin. -/
theorem no_deadlock {sz : Nat → Nat} {m : Nat} {cfg : Cfg n (m + 1)} (hb : Built sz m cfg) (hu : Use sz cfg)
    (hn : 0 < n) {s : St n (m + 1)} (h : (sys cfg).Reach s) (hq : ∀ t, (s.th t).pc ≠ .idle) :
    ∃ t s', (sys cfg).step s (.run t) = some s' ∧ (s'.th t).pc ≠ (s.th t).pc :=
  no_deadlock_wf (wf_of_built hb hu hn) hn h hq

/-- Five threads in three groups (the third hangs below the first). -/
def exCfg : Cfg 5 4 :=
  { parent := ![none, some 0, some 0, some 1], k := ![2, 3, 1, 2], grp := ![1, 1, 2, 3, 3] }

def exSz : Nat → Nat := fun g => if g = 1 then 2 else if g = 2 then 1 else 2

example : Use exSz exCfg := by
  constructor
  · decide
  · decide
  · decide

example : Built exSz 3 exCfg := by
  obtain ⟨h, e, hs⟩ := build_shape exSz 3
  refine ⟨h, e, ?_, ?_⟩
  · intro g
    rw [hs.k g (by omega)]
    revert g; decide
  · intro g
    rw [hs.parent g (by omega)]
    revert g; decide

/-- The last thread of the third group climbs to the root and comes back; thread 2 is still waiting. -/
example : ((sys exCfg).run (initSt 5 4) ([.call 0, .call 1, .call 2, .call 3, .call 4] ++
    [.run 0, .run 1, .run 2, .run 2, .run 3, .run 4, .run 4, .run 4] ++ List.replicate 6 (.run 4) ++ [.call 4])).map
    (fun s => ((s.th 4).r, (s.th 4).pc, (s.th 2).pc, (s.th 3).pc, s.sense 3, s.count 3)) =
    some (1, .up 3, .wait 0, .wait 3, true, 0) := by decide

end Verif.Barrier.Combining
