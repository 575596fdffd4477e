import Verif.Tso.Epoch

/-!
# Epoch reclamation on total store order: no node in use is destroyed (C79)
-/

namespace Verif.Tso.Ep

open Verif

variable {n m : Nat}

/-- has loaded the epoch -/
def PC.has : PC → Prop
  | .stg | .sec => True
  | _ => False

/-- in the middle of a scan -/
def UPC.armed : UPC n → Prop
  | .scan | .eph _ | .blk _ => True
  | _ => False

/-- No pointer to `w` is in memory or about to be stored. -/
def Clean (s : St n m) (w : Nat) : Prop := ∀ c : Fin m, s.mem (.cell c) ≠ w + 1 ∧ ∀ u, (Loc.cell c, w + 1) ∉ s.buf u

/-- A bound of what `record->epoch` is. -/
def Lo (s : St n m) (u : Fin n) (k : Nat) : Prop := ((s.pc u).has → k ≤ s.v u) ∧ (¬ (s.pc u).has → k ≤ s.mem .glob)

/-- A call by `t`. -/
structure UpOk (s : St n m) (t : Fin n) (a : Up n) : Prop where
  dg : a.d ≤ s.mem .glob
  ev : ∀ u, a.ok u = true → (s.pc u).has → a.d ≤ s.v u
  cl : a.sync = true → a.pc ≠ .idle → ∀ w, s.ns w = .ret t → Clean s w
  ev2 : a.sync = true → a.pc ≠ .idle → ∀ u, a.ok u = true → a.af = false → ∀ w, s.ns w = .ret t → s.hold u w = false
  xs : a.sync = true → a.pc.armed → ∀ u w, s.ns w = .ret t → s.hold u w = true →
    s.v u ≤ a.e ∧ s.v u ≤ a.d ∧ (1 ≤ a.i → s.v u < a.d)
  xo : a.pc = .out ∨ a.pc = .done → a.sync = true ∧ ∀ u w, s.ns w = .ret t → s.hold u w = false
  af : ∀ u, a.pc = .eph u → a.af = true
  bl : ∀ u, a.pc = .blk u → a.sync = true ∧ a.af = true
  ld : a.pc = .load → a.i = 0
  pf : a.pc = .pfen → a.sync = false

structure Inv (s : St n m) : Prop where
  own : ∀ t p, p ∈ s.buf t → p.1 ≠ .glob ∧ (∀ u, p.1 = .act u → u = t) ∧ (∀ u, p.1 = .ep u → u = t)
  act1 : ∀ u, s.pc u ≠ .idle → s.mem (.act u) = 1 ∧ ∀ k, (Loc.act u, k) ∉ s.buf u
  epm : ∀ u, Lo s u (s.mem (.ep u))
  epb : ∀ u k, (Loc.ep u, k) ∈ s.buf u → Lo s u k
  vg : ∀ u, (s.pc u).has → s.v u ≤ s.mem .glob
  /-- the epoch is moved at most once while a section is open -/
  k1 : ∀ u, (s.pc u).has → s.mem .glob ≤ s.v u + 1
  hp : ∀ u w, s.hold u w = true → s.pc u = .sec
  fr : ∀ w, s.ns w = .free → Clean s w
  held : ∀ u w, s.hold u w = true → s.ns w ≠ .free
  unl : ∀ t w, s.ns w = .ret t → Unlinked s t w
  up : ∀ t, UpOk s t (s.up t)
  ui : ∀ t, s.pc t = .ldg ∨ s.pc t = .stg → (s.up t).pc = .idle

theorem UpOk.mono {s s' : St n m} {t : Fin n} {a : Up n} (h : UpOk s t a) (hg : s.mem .glob ≤ s'.mem .glob)
    (hv : ∀ u, (s'.pc u).has → ((s.pc u).has ∧ s'.v u = s.v u) ∨ s.mem .glob ≤ s'.v u)
    (hn : ∀ w, a.pc ≠ .idle → s'.ns w = .ret t → s.ns w = .ret t)
    (hc : ∀ w, a.pc ≠ .idle → a.sync = true → s'.ns w = .ret t → Clean s w → Clean s' w)
    (hh : a.pc ≠ .idle → a.sync = true → (∀ w, s.ns w = .ret t → Clean s w) → ∀ u w, s'.ns w = .ret t → s'.hold u w = true →
      s.hold u w = true ∧ s'.v u = s.v u) : UpOk s' t a where
  dg := Nat.le_trans h.dg hg
  ev u h1 h2 := by
    rcases hv u h2 with ⟨h3, h4⟩ | h3
    · rw [h4]; exact h.ev u h1 h3
    · exact Nat.le_trans h.dg h3
  cl h1 h2 w h3 := hc w h2 h1 h3 (h.cl h1 h2 w (hn w h2 h3))
  ev2 h1 h2 u h3 h4 w h5 := by
    rw [Bool.eq_false_iff]
    intro h6
    have := h.ev2 h1 h2 u h3 h4 w (hn w h2 h5)
    rw [(hh h2 h1 (h.cl h1 h2) u w h5 h6).1] at this
    cases this
  xs h1 h2 u w h5 h6 := by
    have h3 : a.pc ≠ .idle := by rintro h7; rw [h7] at h2; exact h2
    have h7 := hh h3 h1 (h.cl h1 h3) u w h5 h6
    rw [h7.2]
    exact h.xs h1 h2 u w (hn w h3 h5) h7.1
  xo h1 := by
    have h3 : a.pc ≠ .idle := by rcases h1 with h1 | h1 <;> rw [h1] <;> nofun
    refine ⟨(h.xo h1).1, fun u w h5 => ?_⟩
    rw [Bool.eq_false_iff]
    intro h6
    have := (h.xo h1).2 u w (hn w h3 h5)
    rw [(hh h3 (h.xo h1).1 (h.cl (h.xo h1).1 h3) u w h5 h6).1] at this
    cases this
  af := h.af
  bl := h.bl
  ld := h.ld
  pf := h.pf

theorem Inv.setUp {s : St n m} (hi : Inv s) {t : Fin n} {a : Up n} (ha : UpOk s t a)
    (hui : s.pc t = .idle ∨ s.pc t = .sec ∨ a.pc = .idle) : Inv (Ep.setUp s t a) where
  own := hi.own
  act1 := hi.act1
  epm := hi.epm
  epb := hi.epb
  vg := hi.vg
  k1 := hi.k1
  hp := hi.hp
  fr := hi.fr
  held := hi.held
  unl := hi.unl
  up u := by
    by_cases hu : u = t
    · subst hu
      simp only [Ep.setUp, upd_same]
      exact { ha with }
    · simp only [Ep.setUp, upd_ne _ _ hu]
      exact { hi.up u with }
  ui u h := by
    by_cases hu : u = t
    · subst hu
      simp only [Ep.setUp, upd_same] at *
      rcases hui with h1 | h1 | h1 <;> simp_all
    · simp only [Ep.setUp, upd_ne _ _ hu] at *
      exact hi.ui u h

/-- What is seen of the epoch. -/
theorem Inv.get_glob {s : St n m} (hi : Inv s) (t : Fin n) : s.get t .glob = s.mem .glob := by
  rcases view_or s.mem (s.buf t) .glob with h | h
  · exact h
  · exact absurd rfl (hi.own t _ h).1

theorem Inv.get_ep {s : St n m} (hi : Inv s) (t u : Fin n) : Lo s u (s.get t (.ep u)) := by
  rcases view_or s.mem (s.buf t) (.ep u) with h | h
  · rw [St.get, h]; exact hi.epm u
  · have := (hi.own t _ h).2.2 u rfl
    subst this
    exact hi.epb _ _ h

theorem Inv.get_act {s : St n m} (hi : Inv s) (t u : Fin n) (h0 : s.get t (.act u) = 0) : s.pc u = .idle := by
  refine Decidable.byContradiction fun hc => ?_
  have h1 := hi.act1 u hc
  rcases view_or s.mem (s.buf t) (.act u) with h | h
  · rw [St.get, h, h1.1] at h0; cases h0
  · have := (hi.own t _ h).2.1 u rfl
    subst this
    exact h1.2 _ h

theorem Clean.get {s : St n m} {w : Nat} (h : Clean s w) (t : Fin n) (c : Fin m) : s.get t (.cell c) ≠ w + 1 := by
  intro h0
  rcases view_or s.mem (s.buf t) (.cell c) with h1 | h1
  · exact (h c).1 (h1.symm.trans h0)
  · exact (h c).2 t (by rw [← h0]; exact h1)

theorem Unlinked.clean {s : St n m} {t : Fin n} {w : Nat} (h : Unlinked s t w) (hb : s.buf t = []) : Clean s w := by
  intro c
  have := h c
  simp only [St.get, hb, view_nil] at this
  refine ⟨this.1, fun u => ?_⟩
  by_cases hu : u = t
  · rw [hu, hb]; exact List.not_mem_nil
  · exact this.2 u hu

/-- A buffered store reaches memory. -/
theorem Inv.flush {s : St n m} (hi : Inv s) {t : Fin n} {p : Loc n m × Nat} {b : List (Loc n m × Nat)} (hb : s.buf t = p :: b) :
    Inv { s with mem := upd s.mem p.1 p.2, buf := upd s.buf t b } := by
  have hpm : p ∈ s.buf t := by rw [hb]; exact List.mem_cons_self ..
  have ho := hi.own t p hpm
  have hsub : ∀ u q, q ∈ upd s.buf t b u → q ∈ s.buf u := by
    intro u q h
    by_cases hu : u = t
    · subst hu; rw [upd_same] at h; rw [hb]; exact List.mem_cons_of_mem _ h
    · rwa [upd_ne _ _ hu] at h
  have hg : upd s.mem p.1 p.2 .glob = s.mem .glob := upd_ne _ _ (Ne.symm ho.1)
  have hcl : ∀ w, Clean s w → Clean { s with mem := upd s.mem p.1 p.2, buf := upd s.buf t b } w := by
    intro w h c
    refine ⟨?_, fun u hu => (h c).2 u (hsub u _ hu)⟩
    by_cases hc : Loc.cell c = p.1
    · simp only [hc, upd_same]
      intro h0
      apply (h c).2 t
      rw [hc, ← h0]
      exact hpm
    · simp only [upd_ne _ _ hc]
      exact (h c).1
  refine
    { own := fun u q h => hi.own u q (hsub u q h)
      act1 := fun u h => ?_
      epm := fun u => ?_
      epb := fun u k h => ?_
      vg := fun u h => ?_
      k1 := fun u h => ?_
      hp := hi.hp
      fr := fun w h => hcl w (hi.fr w h)
      held := hi.held
      unl := fun u w h => ?_
      up := fun u => (hi.up u).mono (Nat.le_of_eq hg.symm) (fun _ h => .inl ⟨h, rfl⟩) (fun _ _ h => h) (fun w _ _ _ => hcl w)
        (fun _ _ _ _ _ _ h => ⟨h, rfl⟩)
      ui := hi.ui }
  · have h1 := hi.act1 u h
    refine ⟨?_, fun k hk => h1.2 k (hsub u _ hk)⟩
    by_cases hu : Loc.act u = p.1
    · have := ho.2.1 u hu.symm
      subst this
      exact absurd hpm (by rw [show p = (Loc.act u, p.2) from by rw [hu]]; exact h1.2 _)
    · simp only [upd_ne _ _ hu]; exact h1.1
  · simp only [Lo, hg]
    by_cases hu : Loc.ep u = p.1
    · have := ho.2.2 u hu.symm
      subst this
      rw [hu, upd_same]
      exact hi.epb u p.2 (by rw [hu]; exact hpm)
    · rw [upd_ne _ _ hu]; exact hi.epm u
  · simp only [Lo, hg]; exact hi.epb u k (hsub u _ h)
  · simp only [hg]; exact hi.vg u h
  · simp only [hg]; exact hi.k1 u h
  · intro c
    have h1 := hi.unl u w h c
    refine ⟨?_, fun x hx h2 => h1.2 x hx (hsub x _ h2)⟩
    by_cases hu : u = t
    · subst hu
      simp only [St.get, upd_same]
      rw [← view_cons, ← hb]
      exact h1.1
    · simp only [St.get, upd_ne _ _ hu]
      rcases view_upd_or s.mem (s.buf u) p.1 (.cell c) p.2 with h3 | ⟨hc, h3⟩
      · rw [h3]; exact h1.1
      · rw [h3]
        intro h4
        apply h1.2 t (Ne.symm hu)
        rw [hc, ← h4]; exact hpm

/-- Who is in no section, or before the load, starts or goes on. -/
theorem Inv.enter {s : St n m} (hi : Inv s) {t : Fin n} (hpc : s.pc t = .idle) (hup : (s.up t).pc = .idle) (hb : s.buf t = []) :
    Inv (Ep.setPc { s with mem := upd s.mem (.act t) 1 } t .ldg) := by
  have hhas : ∀ u, (upd s.pc t .ldg u).has ↔ (s.pc u).has := by
    intro u
    by_cases hu : u = t
    · subst hu; simp [hpc, PC.has]
    · rw [upd_ne _ _ hu]
  have hcl : ∀ w, Clean s w → Clean (Ep.setPc { s with mem := upd s.mem (.act t) 1 } t .ldg) w := by
    intro w h c
    exact ⟨by simp only [Ep.setPc, upd_apply, reduceCtorEq, if_false]; exact (h c).1, (h c).2⟩
  refine
    { own := hi.own
      act1 := fun u h => ?_
      epm := fun u => by
        simp only [Lo, Ep.setPc, hhas, upd_apply _ _ _ (Loc.glob), upd_apply _ _ _ (Loc.ep u), reduceCtorEq, if_false]; exact hi.epm u
      epb := fun u k h => by
        simp only [Lo, Ep.setPc, hhas, upd_apply _ _ _ (Loc.glob), reduceCtorEq, if_false]; exact hi.epb u k h
      vg := fun u h => by
        simp only [Ep.setPc, hhas, upd_apply _ _ _ (Loc.glob), reduceCtorEq, if_false] at *; exact hi.vg u h
      k1 := fun u h => by
        simp only [Ep.setPc, hhas, upd_apply _ _ _ (Loc.glob), reduceCtorEq, if_false] at *; exact hi.k1 u h
      hp := fun u w h => ?_
      fr := fun w h => hcl w (hi.fr w h)
      held := hi.held
      unl := fun u w h c => ?_
      up := fun u => (hi.up u).mono (by simp [Ep.setPc, upd_apply]) (fun x h => .inl ⟨(hhas x).1 h, rfl⟩) (fun _ _ h => h) (fun w _ _ _ => hcl w)
        (fun _ _ _ _ _ _ h => ⟨h, rfl⟩)
      ui := fun u h => ?_ }
  · by_cases hu : u = t
    · subst hu
      simp only [Ep.setPc, upd_same, hb]
      exact ⟨trivial, fun k => List.not_mem_nil⟩
    · simp only [Ep.setPc, upd_ne _ _ hu, upd_apply, Loc.act.injEq, hu, if_false] at *
      exact hi.act1 u h
  · have h1 := hi.hp u w h
    by_cases hu : u = t
    · subst hu; rw [hpc] at h1; cases h1
    · simpa only [Ep.setPc, upd_ne _ _ hu] using h1
  · have h1 := hi.unl u w h c
    refine ⟨?_, h1.2⟩
    simp only [St.get, Ep.setPc]
    rcases view_upd_or s.mem (s.buf u) (.act t) (.cell c) 1 with h3 | ⟨h3, _⟩
    · rw [h3]; exact h1.1
    · cases h3
  · by_cases hu : u = t
    · subst hu; exact hup
    · simp only [Ep.setPc, upd_ne _ _ hu] at h
      exact hi.ui u h

theorem Inv.loadg {s : St n m} (hi : Inv s) {t : Fin n} (hpc : s.pc t = .ldg) :
    Inv { Ep.setPc s t .stg with v := upd s.v t (s.get t .glob) } := by
  rw [hi.get_glob]
  have hnh : ∀ w, s.hold t w = false := fun w => by
    rw [Bool.eq_false_iff]
    intro h
    have := hi.hp t w h
    rw [hpc] at this; cases this
  have hne : ∀ {u w}, s.hold u w = true → u ≠ t := by
    rintro u w h rfl; rw [hnh] at h; cases h
  have hlo : ∀ u k, Lo s u k → Lo { Ep.setPc s t .stg with v := upd s.v t (s.mem .glob) } u k := by
    intro u k h
    by_cases hu : u = t
    · subst hu
      simp only [Lo, Ep.setPc, upd_same]
      have := h.2 (by rw [hpc]; exact id)
      exact ⟨fun _ => this, fun _ => this⟩
    · simpa only [Lo, Ep.setPc, upd_ne _ _ hu] using h
  refine
    { own := hi.own
      act1 := fun u h => hi.act1 u ?_
      epm := fun u => hlo u _ (hi.epm u)
      epb := fun u k h => hlo u _ (hi.epb u k h)
      vg := fun u h => ?_
      k1 := fun u h => ?_
      hp := fun u w h => ?_
      fr := hi.fr
      held := hi.held
      unl := hi.unl
      up := fun u => (hi.up u).mono (Nat.le_refl _) (fun x h => ?_) (fun _ _ h => h) (fun w _ _ _ h => h)
        (fun _ _ _ x w _ h => ⟨h, upd_ne _ _ (hne h)⟩)
      ui := fun u h => ?_ }
  · by_cases hu : u = t
    · subst hu; rw [hpc]; nofun
    · simpa only [Ep.setPc, upd_ne _ _ hu] using h
  · by_cases hu : u = t
    · subst hu; simp [Ep.setPc]
    · simp only [Ep.setPc, upd_ne _ _ hu] at *; exact hi.vg u h
  · by_cases hu : u = t
    · subst hu; simp [Ep.setPc]
    · simp only [Ep.setPc, upd_ne _ _ hu] at *; exact hi.k1 u h
  · have := hi.hp u w h
    simpa only [Ep.setPc, upd_ne _ _ (hne h)] using this
  · by_cases hu : x = t
    · subst hu; right; simp [Ep.setPc]
    · left; simpa only [Ep.setPc, upd_ne _ _ hu, and_true] using h
  · by_cases hu : u = t
    · subst hu; exact hi.ui u (.inl hpc)
    · simp only [Ep.setPc, upd_ne _ _ hu] at h
      exact hi.ui u h

theorem mem_stor {s : St n m} {t u : Fin n} {x : Loc n m} {k : Nat} {q : Loc n m × Nat} (h : q ∈ (stor s t x k).buf u) :
    q ∈ s.buf u ∨ (u = t ∧ q = (x, k)) := by
  by_cases hu : u = t
  · subst hu
    simp only [stor, upd_same, List.mem_append, List.mem_singleton] at h
    exact h.imp id fun h => ⟨rfl, h⟩
  · simp only [stor, upd_ne _ _ hu] at h
    exact .inl h

theorem mem_stor_of {s : St n m} {t u : Fin n} {x : Loc n m} {k : Nat} {q : Loc n m × Nat} (h : q ∈ s.buf u) :
    q ∈ (stor s t x k).buf u := by
  by_cases hu : u = t
  · subst hu
    simp only [stor, upd_same, List.mem_append, List.mem_singleton]
    exact .inl h
  · simpa only [stor, upd_ne _ _ hu] using h

theorem get_stor (s : St n m) (t u : Fin n) (x y : Loc n m) (k : Nat) :
    (stor s t x k).get u y = if u = t ∧ y = x then k else s.get u y := by
  by_cases hu : u = t
  · subst hu
    simp only [St.get, stor, upd_same, view_append, true_and, upd_apply]
  · simp only [St.get, stor, upd_ne _ _ hu, hu, false_and, if_false]

theorem Inv.storeg {s : St n m} (hi : Inv s) {t : Fin n} (hpc : s.pc t = .stg) :
    Inv (Ep.setPc (stor s t (.ep t) (s.v t)) t .sec) := by
  have hhas : ∀ u, (upd s.pc t .sec u).has ↔ (s.pc u).has := by
    intro u
    by_cases hu : u = t
    · subst hu; simp [hpc, PC.has]
    · rw [upd_ne _ _ hu]
  have hcl : ∀ w, Clean s w → Clean (Ep.setPc (stor s t (.ep t) (s.v t)) t .sec) w := by
    intro w h c
    refine ⟨(h c).1, fun u hu => ?_⟩
    rcases mem_stor hu with h1 | ⟨_, h1⟩
    · exact (h c).2 u h1
    · cases h1
  refine
    { own := fun u q h => ?_
      act1 := fun u h => ?_
      epm := fun u => by simp only [Lo, Ep.setPc, stor, hhas]; exact hi.epm u
      epb := fun u k h => ?_
      vg := fun u h => hi.vg u ((hhas u).1 h)
      k1 := fun u h => hi.k1 u ((hhas u).1 h)
      hp := fun u w h => ?_
      fr := fun w h => hcl w (hi.fr w h)
      held := hi.held
      unl := fun u w h c => ?_
      up := fun u => (hi.up u).mono (Nat.le_refl _) (fun x h => .inl ⟨(hhas x).1 h, rfl⟩) (fun _ _ h => h) (fun w _ _ _ => hcl w)
        (fun _ _ _ _ _ _ h => ⟨h, rfl⟩)
      ui := fun u h => ?_ }
  · rcases mem_stor h with h1 | ⟨rfl, rfl⟩
    · exact hi.own u q h1
    · refine ⟨nofun, nofun, fun x hx => ?_⟩
      simp only [Loc.ep.injEq] at hx
      exact hx.symm
  · have h1 := hi.act1 u (by
      by_cases hu : u = t
      · subst hu; rw [hpc]; nofun
      · simpa only [Ep.setPc, stor, upd_ne _ _ hu] using h)
    refine ⟨h1.1, fun k hk => ?_⟩
    rcases mem_stor hk with h2 | ⟨_, h2⟩
    · exact h1.2 k h2
    · cases h2
  · simp only [Lo, Ep.setPc, stor, hhas]
    rcases mem_stor h with h2 | ⟨h2, h3⟩
    · exact hi.epb u k h2
    · subst h2
      simp only [Prod.mk.injEq, true_and] at h3
      subst h3
      exact ⟨fun _ => Nat.le_refl _, fun h => absurd (by rw [hpc]; trivial) h⟩
  · have h1 := hi.hp u w h
    by_cases hu : u = t
    · subst hu; simp only [Ep.setPc, upd_same]
    · simpa only [Ep.setPc, stor, upd_ne _ _ hu] using h1
  · have h1 := hi.unl u w h c
    refine ⟨?_, fun x hx h2 => ?_⟩
    · show (stor s t (.ep t) (s.v t)).get u (.cell c) ≠ _
      simp only [get_stor, reduceCtorEq, and_false, if_false]; exact h1.1
    · rcases mem_stor h2 with h3 | ⟨_, h3⟩
      · exact h1.2 x hx h3
      · cases h3
  · by_cases hu : u = t
    · subst hu; exact hi.ui u (.inr hpc)
    · simp only [Ep.setPc, upd_ne _ _ hu] at h
      exact hi.ui u h

theorem Inv.exit {s : St n m} (hi : Inv s) {t : Fin n} (hpc : s.pc t = .sec) :
    Inv { Ep.setPc (stor s t (.act t) 0) t .idle with hold := upd s.hold t fun _ => false } := by
  have hhas : ∀ u, (upd s.pc t .idle u).has → u ≠ t ∧ (s.pc u).has := by
    intro u
    by_cases hu : u = t
    · subst hu; rw [upd_same]; exact fun h => h.elim
    · rw [upd_ne _ _ hu]; exact fun h => ⟨hu, h⟩
  have hcl : ∀ w, Clean s w → Clean { Ep.setPc (stor s t (.act t) 0) t .idle with hold := upd s.hold t fun _ => false } w := by
    intro w h c
    refine ⟨(h c).1, fun u hu => ?_⟩
    rcases mem_stor hu with h1 | ⟨_, h1⟩
    · exact (h c).2 u h1
    · cases h1
  have hlo : ∀ u k, Lo s u k → Lo { Ep.setPc (stor s t (.act t) 0) t .idle with hold := upd s.hold t fun _ => false } u k := by
    intro u k h
    by_cases hu : u = t
    · subst hu
      have h1 : (s.pc u).has := by rw [hpc]; trivial
      simp only [Lo, Ep.setPc, stor, upd_same]
      exact ⟨fun h => h.elim, fun _ => Nat.le_trans (h.1 h1) (hi.vg u h1)⟩
    · simpa only [Lo, Ep.setPc, stor, upd_ne _ _ hu] using h
  have hho : ∀ u w, upd s.hold t (fun _ => false) u w = true → u ≠ t ∧ s.hold u w = true := by
    intro u w h
    by_cases hu : u = t
    · subst hu; rw [upd_same] at h; cases h
    · rw [upd_ne _ _ hu] at h; exact ⟨hu, h⟩
  refine
    { own := fun u q h => ?_
      act1 := fun u h => ?_
      epm := fun u => hlo u _ (hi.epm u)
      epb := fun u k h => hlo u _ ?_
      vg := fun u h => hi.vg u (hhas u h).2
      k1 := fun u h => hi.k1 u (hhas u h).2
      hp := fun u w h => ?_
      fr := fun w h => hcl w (hi.fr w h)
      held := fun u w h => hi.held u w (hho u w h).2
      unl := fun u w h c => ?_
      up := fun u => (hi.up u).mono (Nat.le_refl _) (fun x h => .inl ⟨(hhas x h).2, rfl⟩) (fun _ _ h => h) (fun w _ _ _ => hcl w)
        (fun _ _ _ x w _ h => ⟨(hho x w h).2, rfl⟩)
      ui := fun u h => ?_ }
  · rcases mem_stor h with h1 | ⟨rfl, rfl⟩
    · exact hi.own u q h1
    · refine ⟨nofun, fun x hx => ?_, nofun⟩
      simp only [Loc.act.injEq] at hx
      exact hx.symm
  · by_cases hu : u = t
    · subst hu; simp [Ep.setPc] at h
    · simp only [Ep.setPc, upd_ne _ _ hu] at h
      have h1 := hi.act1 u h
      refine ⟨h1.1, fun k hk => ?_⟩
      rcases mem_stor hk with h2 | ⟨h2, _⟩
      · exact h1.2 k h2
      · exact hu h2
  · rcases mem_stor h with h2 | ⟨_, h3⟩
    · exact hi.epb u k h2
    · cases h3
  · have h1 := hho u w h
    simpa only [Ep.setPc, stor, upd_ne _ _ h1.1] using hi.hp u w h1.2
  · have h1 := hi.unl u w h c
    refine ⟨?_, fun x hx h2 => ?_⟩
    · show (stor s t (.act t) 0).get u (.cell c) ≠ _
      simp only [get_stor, reduceCtorEq, and_false, if_false]; exact h1.1
    · rcases mem_stor h2 with h3 | ⟨_, h3⟩
      · exact h1.2 x hx h3
      · cases h3
  · by_cases hu : u = t
    · subst hu; simp [Ep.setPc] at h
    · simp only [Ep.setPc, upd_ne _ _ hu] at h
      exact hi.ui u h

theorem enc_ne {ns : Nat → NS n} {x : Option Nat} {w : Nat} (hx : usable ns x = true) (hw : ns w ≠ .alive) : enc x ≠ w + 1 := by
  cases x with
  | none => simp [enc]
  | some y =>
    simp only [usable, decide_eq_true_eq] at hx
    simp only [enc, ne_eq, Nat.add_right_cancel_iff]
    rintro rfl
    exact hw hx

theorem Inv.put {s : St n m} (hi : Inv s) {t : Fin n} {c : Fin m} {x : Option Nat} (hx : usable s.ns x = true) :
    Inv (stor s t (.cell c) (enc x)) := by
  have hcl : ∀ w, s.ns w ≠ .alive → Clean s w → Clean (stor s t (.cell c) (enc x)) w := by
    intro w hw h c'
    refine ⟨(h c').1, fun u hu => ?_⟩
    rcases mem_stor hu with h1 | ⟨_, h1⟩
    · exact (h c').2 u h1
    · simp only [Prod.mk.injEq] at h1
      exact enc_ne hx hw h1.2.symm
  refine
    { own := fun u q h => ?_
      act1 := fun u h => ?_
      epm := hi.epm
      epb := fun u k h => hi.epb u k ?_
      vg := hi.vg
      k1 := hi.k1
      hp := hi.hp
      fr := fun w h => hcl w (by rw [show s.ns w = .free from h]; nofun) (hi.fr w h)
      held := hi.held
      unl := fun u w h c' => ?_
      up := fun u => (hi.up u).mono (Nat.le_refl _) (fun x h => .inl ⟨h, rfl⟩) (fun _ _ h => h)
        (fun w _ _ h => hcl w (by rw [show s.ns w = .ret u from h]; nofun)) (fun _ _ _ x w _ h => ⟨h, rfl⟩)
      ui := hi.ui }
  · rcases mem_stor h with h1 | ⟨rfl, rfl⟩
    · exact hi.own u q h1
    · exact ⟨nofun, nofun, nofun⟩
  · have h1 := hi.act1 u h
    refine ⟨h1.1, fun k hk => ?_⟩
    rcases mem_stor hk with h2 | ⟨_, h2⟩
    · exact h1.2 k h2
    · cases h2
  · rcases mem_stor h with h2 | ⟨_, h3⟩
    · exact h2
    · cases h3
  · have h1 := hi.unl u w h c'
    have h0 : s.ns w ≠ .alive := by rw [show s.ns w = .ret u from h]; nofun
    refine ⟨?_, fun x hx' h2 => ?_⟩
    · rw [get_stor]
      split
      · exact enc_ne hx h0
      · exact h1.1
    · rcases mem_stor h2 with h3 | ⟨_, h3⟩
      · exact h1.2 x hx' h3
      · simp only [Prod.mk.injEq] at h3
        exact enc_ne hx h0 h3.2.symm

theorem Inv.read {s : St n m} (hi : Inv s) {t : Fin n} {c : Fin m} (hpc : s.pc t = .sec) :
    Inv { s with hold := upd s.hold t fun w => if s.get t (.cell c) = w + 1 then true else s.hold t w } := by
  have hho : ∀ u w, upd s.hold t (fun w => if s.get t (.cell c) = w + 1 then true else s.hold t w) u w = true →
      s.hold u w = true ∨ (u = t ∧ s.get t (.cell c) = w + 1) := by
    intro u w h
    by_cases hu : u = t
    · subst hu
      rw [upd_same] at h
      split at h
      · next h1 => exact .inr ⟨rfl, h1⟩
      · exact .inl h
    · rw [upd_ne _ _ hu] at h; exact .inl h
  exact
    { own := hi.own, act1 := hi.act1, epm := hi.epm, epb := hi.epb, vg := hi.vg, k1 := hi.k1
      hp := fun u w h => by
        rcases hho u w h with h1 | ⟨rfl, _⟩
        · exact hi.hp u w h1
        · exact hpc
      fr := hi.fr
      held := fun u w h h0 => by
        rcases hho u w h with h1 | ⟨_, h1⟩
        · exact hi.held u w h1 h0
        · exact (hi.fr w h0).get t c h1
      unl := hi.unl
      up := fun u => (hi.up u).mono (Nat.le_refl _) (fun _ h => .inl ⟨h, rfl⟩) (fun _ _ h => h) (fun _ _ _ _ h => h)
        (fun _ _ hc x w hw h => by
          refine ⟨?_, rfl⟩
          rcases hho x w h with h1 | ⟨_, h1⟩
          · exact h1
          · exact absurd h1 ((hc w hw).get t c))
      ui := hi.ui }

theorem Inv.alloc {s : St n m} (hi : Inv s) (w : Nat) : Inv { s with ns := upd s.ns w .alive } := by
  have hns : ∀ x a, a ≠ .alive → upd s.ns w .alive x = a → s.ns x = a := by
    intro x a ha h
    rw [upd_apply] at h
    split at h
    · exact absurd h.symm ha
    · exact h
  exact
    { own := hi.own, act1 := hi.act1, epm := hi.epm, epb := hi.epb, vg := hi.vg, k1 := hi.k1, hp := hi.hp
      fr := fun x h => hi.fr x (hns x _ (by nofun) h)
      held := fun u x h h0 => hi.held u x h (hns x _ (by nofun) h0)
      unl := fun u x h => hi.unl u x (hns x _ (by nofun) h)
      up := fun u => (hi.up u).mono (Nat.le_refl _) (fun _ h => .inl ⟨h, rfl⟩) (fun x _ h => hns x _ (by nofun) h)
        (fun _ _ _ _ h => h) (fun _ _ _ _ _ _ h => ⟨h, rfl⟩)
      ui := hi.ui }

theorem Inv.retire {s : St n m} (hi : Inv s) {t : Fin n} {w : Nat} (hup : (s.up t).pc = .idle)
    (hu : Unlinked s t w) : Inv { s with ns := upd s.ns w (.ret t) } := by
  have hns : ∀ x a, a ≠ .ret t → upd s.ns w (.ret t) x = a → s.ns x = a := by
    intro x a ha h
    rw [upd_apply] at h
    split at h
    · exact absurd h.symm ha
    · exact h
  have hnu : ∀ u x, (s.up u).pc ≠ .idle → upd s.ns w (.ret t) x = .ret u → s.ns x = .ret u := by
    intro u x hi' h
    refine hns x _ ?_ h
    intro h'
    injection h' with h'
    subst h'
    exact hi' hup
  exact
    { own := hi.own, act1 := hi.act1, epm := hi.epm, epb := hi.epb, vg := hi.vg, k1 := hi.k1, hp := hi.hp
      fr := fun x h => hi.fr x (hns x _ (by nofun) h)
      held := fun u x h h0 => hi.held u x h (hns x _ (by nofun) h0)
      unl := fun u x h => by
        by_cases hx : x = w
        · subst hx
          simp only [upd_same, NS.ret.injEq] at h
          subst h
          exact hu
        · simp only [upd_ne _ _ hx] at h
          exact hi.unl u x h
      up := fun u => (hi.up u).mono (Nat.le_refl _) (fun _ h => .inl ⟨h, rfl⟩) (fun x h1 h => hnu u x h1 h)
        (fun _ _ _ _ h => h) (fun _ _ _ _ _ _ h => ⟨h, rfl⟩)
      ui := hi.ui }

theorem Inv.destroy {s : St n m} (hi : Inv s) {t : Fin n} {w : Nat} (hup : (s.up t).pc = .done) (hw : s.ns w = .ret t) :
    Inv { s with ns := upd s.ns w .free } := by
  have hns : ∀ x a, a ≠ .free → upd s.ns w .free x = a → s.ns x = a := by
    intro x a ha h
    rw [upd_apply] at h
    split at h
    · exact absurd h.symm ha
    · exact h
  have hd := (hi.up t).xo (.inr hup)
  exact
    { own := hi.own, act1 := hi.act1, epm := hi.epm, epb := hi.epb, vg := hi.vg, k1 := hi.k1, hp := hi.hp
      fr := fun x h => by
        by_cases hx : x = w
        · subst hx
          exact (hi.up t).cl hd.1 (by rw [hup]; nofun) x hw
        · simp only [upd_ne _ _ hx] at h
          exact hi.fr x h
      held := fun u x h h0 => by
        by_cases hx : x = w
        · subst hx
          have := hd.2 u x hw
          rw [show s.hold u x = true from h] at this
          cases this
        · simp only [upd_ne _ _ hx] at h0
          exact hi.held u x h h0
      unl := fun u x h => hi.unl u x (hns x _ (by nofun) h)
      up := fun u => (hi.up u).mono (Nat.le_refl _) (fun _ h => .inl ⟨h, rfl⟩) (fun x h1 h => hns x _ (by nofun) h)
        (fun _ _ _ _ h => h) (fun _ _ _ _ _ _ h => ⟨h, rfl⟩)
      ui := hi.ui }

/-- The epoch is moved. -/
theorem Inv.bump {s : St n m} (hi : Inv s) {d : Nat} (hg : s.mem .glob = d) (hv : ∀ u, (s.pc u).has → d ≤ s.v u) :
    Inv { s with mem := upd s.mem .glob (d + 1) } := by
  have hlo : ∀ u k, Lo s u k → Lo { s with mem := upd s.mem .glob (d + 1) } u k := by
    intro u k h
    simp only [Lo, upd_same]
    exact ⟨h.1, fun h1 => by have := h.2 h1; omega⟩
  exact
    { own := hi.own
      act1 := hi.act1
      epm := fun u => hlo u _ (hi.epm u)
      epb := fun u k h => hlo u _ (hi.epb u k h)
      vg := fun u h => by have := hi.vg u h; simp only [upd_same]; omega
      k1 := fun u h => by have := hv u h; simp only [upd_same]; omega
      hp := hi.hp
      fr := hi.fr
      held := hi.held
      unl := fun u w h c => by
        have h1 := hi.unl u w h c
        refine ⟨?_, h1.2⟩
        simp only [St.get]
        rcases view_upd_or s.mem (s.buf u) .glob (.cell c) (d + 1) with h3 | ⟨h3, _⟩
        · rw [h3]; exact h1.1
        · cases h3
      up := fun u => (hi.up u).mono (by simp only [upd_same]; omega) (fun _ h => .inl ⟨h, rfl⟩) (fun _ _ h => h) (fun _ _ _ _ h => h)
        (fun _ _ _ _ _ _ h => ⟨h, rfl⟩)
      ui := hi.ui }

theorem inv_step {s s' : St n m} {a : Act n m} (hi : Inv s) (hs : step real s a = some s') : Inv s' := by
  have hpc : ∀ t, (s.up t).pc ≠ .idle → s.pc t = .idle ∨ s.pc t = .sec := by
    intro t h
    have := hi.ui t
    cases h1 : s.pc t <;> simp_all
  cases a with
  | flush t =>
    simp only [step] at hs
    split at hs
    · cases hs
    · next p b hb => cases hs; exact hi.flush hb
  | alloc w =>
    simp only [step] at hs
    split at hs
    · cases hs; exact hi.alloc w
    · cases hs
  | put t c x =>
    simp only [step] at hs
    split at hs
    · next h => cases hs; exact hi.put h
    · cases hs
  | begin t =>
    simp only [step, real, if_true] at hs
    split at hs
    · next h =>
      split at hs
      · next hb => cases hs; exact hi.enter h.1 h.2 hb
      · cases hs
    · cases hs
  | loadg t =>
    simp only [step] at hs
    split at hs
    · next h => cases hs; exact hi.loadg h
    · cases hs
  | storeg t =>
    simp only [step] at hs
    split at hs
    · next h => cases hs; exact hi.storeg h
    · cases hs
  | read t c =>
    simp only [step] at hs
    split at hs
    · next h => cases hs; exact hi.read h.1
    · cases hs
  | end_ t =>
    simp only [step] at hs
    split at hs
    · next h => cases hs; exact hi.exit h.1
    · cases hs
  | retire t w =>
    simp only [step] at hs
    split at hs
    · next h => cases hs; exact hi.retire h.2.1 h.2.2
    · cases hs
  | sync t =>
    simp only [step, real, forall_const] at hs
    split at hs
    · next h =>
      cases hs
      refine hi.setUp ?_ (.inl h.1)
      refine
        { dg := Nat.zero_le _, ev := fun _ h => (by cases h), cl := fun _ _ w hw => (hi.unl t w hw).clean h.2.2
          ev2 := fun _ _ _ h => (by cases h), xs := fun _ h => h.elim, xo := fun h => (by rcases h with h | h <;> cases h)
          af := nofun, bl := nofun, ld := fun _ => rfl, pf := nofun }
    · cases hs
  | lde t =>
    simp only [step, hi.get_glob] at hs
    split at hs
    · next h =>
      cases hs
      have hne : (s.up t).pc ≠ .idle := by rw [h]; nofun
      refine hi.setUp ?_ ((hpc t hne).imp id .inl)
      refine
        { dg := Nat.le_refl _, ev := fun _ h => (by cases h), cl := fun h1 _ => (hi.up t).cl h1 hne
          ev2 := fun _ _ _ h => (by cases h), xs := fun h1 _ u w hw hh => ?_, xo := fun h => (by rcases h with h | h <;> cases h)
          af := nofun, bl := nofun, ld := nofun, pf := nofun }
      have h1 := hi.vg u (by rw [hi.hp u w hh]; trivial)
      have h2 := (hi.up t).ld h
      refine ⟨h1, h1, fun h3 => ?_⟩
      simp only at h3
      omega
    · cases hs
  | poll t =>
    simp only [step, hi.get_glob] at hs
    split at hs
    · next h =>
      cases hs
      refine hi.setUp ?_ (h.1.imp id .inl)
      exact
        { dg := Nat.le_refl _, ev := fun _ h => (by cases h), cl := fun h => (by cases h)
          ev2 := fun h => (by cases h), xs := fun h => (by cases h), xo := fun h => (by rcases h with h | h <;> cases h)
          af := nofun, bl := nofun, ld := nofun, pf := fun _ => rfl }
    · cases hs
  | pfence t =>
    simp only [step] at hs
    split at hs
    · next h =>
      cases hs
      have hne : (s.up t).pc ≠ .idle := by rw [h.1]; nofun
      refine hi.setUp ?_ ((hpc t hne).imp id .inl)
      have ho := hi.up t
      have hns : ¬ (s.up t).sync = true := by rw [ho.pf h.1]; nofun
      exact
        { dg := ho.dg, ev := fun _ h => (by cases h), cl := fun h => absurd h hns
          ev2 := fun h => absurd h hns, xs := fun h => absurd h hns, xo := fun h => (by rcases h with h | h <;> cases h)
          af := nofun, bl := nofun, ld := nofun, pf := nofun }
    · cases hs
  | active t u =>
    simp only [step] at hs
    split at hs
    · next h =>
      cases hs
      have hne : (s.up t).pc ≠ .idle := by rw [h.1]; nofun
      have ho := hi.up t
      refine hi.setUp ?_ ((hpc t hne).imp id .inl)
      split
      · next h0 =>
        have h1 := hi.get_act t u h0
        have h2 : ∀ w, s.hold u w = false := fun w => by
          rw [Bool.eq_false_iff]
          intro h3
          have := hi.hp u w h3
          rw [h1] at this; cases this
        refine { ho with ev := fun x hx hp => ?_, ev2 := fun h3 h4 x hx h5 w hw => ?_ }
        · by_cases hxu : x = u
          · subst hxu; rw [h1] at hp; exact hp.elim
          · simp only [upd_ne _ _ hxu] at hx
            exact ho.ev x hx hp
        · by_cases hxu : x = u
          · subst hxu; exact h2 w
          · simp only [upd_ne _ _ hxu] at hx
            exact ho.ev2 h3 h4 x hx h5 w hw
      · exact { dg := ho.dg, ev := ho.ev, cl := fun h1 _ => ho.cl h1 hne, ev2 := fun _ _ _ _ h => (by cases h)
                xs := fun h1 _ => ho.xs h1 (by rw [h.1]; trivial), xo := fun h => (by rcases h with h | h <;> cases h)
                af := fun _ _ => rfl, bl := nofun, ld := nofun, pf := nofun }
    · cases hs
  | epoch t =>
    simp only [step] at hs
    split at hs
    · next u hu =>
      cases hs
      have hne : (s.up t).pc ≠ .idle := by rw [hu]; nofun
      have harm : (s.up t).pc.armed := by rw [hu]; trivial
      have ho := hi.up t
      have haf := ho.af u hu
      refine hi.setUp ?_ ((hpc t hne).imp id .inl)
      split
      · next h0 =>
        refine { dg := ho.dg, ev := fun x hx hp => ?_, cl := fun h1 _ => ho.cl h1 hne, ev2 := fun _ _ _ _ h => ?_
                 xs := fun h1 _ => ho.xs h1 harm, xo := fun h => (by rcases h with h | h <;> cases h)
                 af := nofun, bl := nofun, ld := nofun, pf := nofun }
        · by_cases hxu : x = u
          · subst hxu
            have := (hi.get_ep t x).1 hp
            rw [h0] at this; exact this
          · simp only [upd_ne _ _ hxu] at hx
            exact ho.ev x hx hp
        · simp only [haf] at h; cases h
      · split
        · next hsy =>
          exact { dg := ho.dg, ev := ho.ev, cl := fun h1 _ => ho.cl h1 hne, ev2 := fun h1 _ => ho.ev2 h1 hne
                  xs := fun h1 _ => ho.xs h1 harm, xo := fun h => (by rcases h with h | h <;> cases h)
                  af := nofun, bl := fun _ _ => ⟨hsy, haf⟩, ld := nofun, pf := nofun }
        · next hsy =>
          exact { dg := ho.dg, ev := ho.ev, cl := fun h1 _ => ho.cl h1 hne, ev2 := fun h1 _ => ho.ev2 h1 hne
                  xs := fun h1 h2 => h2.elim, xo := fun h => (by rcases h with h | h <;> cases h)
                  af := nofun, bl := nofun, ld := nofun, pf := nofun }
    · cases hs
  | reload t =>
    simp only [step, hi.get_glob] at hs
    split at hs
    · next u hu =>
      cases hs
      have hne : (s.up t).pc ≠ .idle := by rw [hu]; nofun
      have harm : (s.up t).pc.armed := by rw [hu]; trivial
      have ho := hi.up t
      have hsy := (ho.bl u hu).1
      refine hi.setUp ?_ ((hpc t hne).imp id .inl)
      split
      · exact { dg := ho.dg, ev := ho.ev, cl := fun h1 _ => ho.cl h1 hne, ev2 := fun _ _ _ _ h => (by cases h)
                xs := fun h1 _ => ho.xs h1 harm, xo := fun h => (by rcases h with h | h <;> cases h)
                af := nofun, bl := nofun, ld := nofun, pf := nofun }
      · split
        · next hgoal =>
          refine { dg := Nat.le_refl _, ev := fun _ h => (by cases h), cl := fun h1 _ => ho.cl h1 hne, ev2 := fun _ _ _ h => (by cases h)
                   xs := fun _ h => h.elim, xo := fun _ => ⟨hsy, fun x w hw => ?_⟩, af := nofun, bl := nofun, ld := nofun, pf := nofun }
          rw [Bool.eq_false_iff]
          intro hh
          have h1 := ho.xs hsy harm x w hw hh
          have h2 := hi.k1 x (by rw [hi.hp x w hh]; trivial)
          omega
        · refine { dg := Nat.le_refl _, ev := fun _ h => (by cases h), cl := fun h1 _ => ho.cl h1 hne, ev2 := fun _ _ _ h => (by cases h)
                   xs := fun h1 _ x w hw hh => ?_, xo := fun h => (by rcases h with h | h <;> cases h), af := nofun, bl := nofun, ld := nofun, pf := nofun }
          have h2 := ho.xs h1 harm x w hw hh
          have h3 := ho.dg
          exact ⟨h2.1, by simp only; omega, fun h4 => by have := h2.2.2 h4; simp only at *; omega⟩
    · cases hs
  | tick t =>
    simp only [step] at hs
    split at hs
    · next h =>
      have hne : (s.up t).pc ≠ .idle := by rw [h.1]; nofun
      have harm : (s.up t).pc.armed := by rw [h.1]; trivial
      have ho := hi.up t
      split at hs
      · next haf =>
        cases hs
        refine hi.setUp ?_ ((hpc t hne).imp id .inl)
        refine { dg := ho.dg, ev := ho.ev, cl := fun h1 _ => ho.cl h1 hne, ev2 := fun h1 _ => ho.ev2 h1 hne
                 xs := fun h1 h2 => ?_, xo := fun h1 => ?_, af := fun x hx => ?_, bl := fun x hx => ?_, ld := fun hx => ?_, pf := fun hx => ?_ }
        · simp only at h1 h2
          rw [h1] at h2; exact h2.elim
        · cases hsy : (s.up t).sync
          · simp [hsy] at h1
          · exact ⟨rfl, fun x w hw => ho.ev2 hsy hne x (h.2 x) haf w hw⟩
        all_goals simp only at hx; split at hx <;> cases hx
      · split at hs
        · simp only [Option.some.injEq] at hs
          subst hs
          split
          · next hg =>
            have hb := hi.bump hg (fun x hx => ho.ev x (h.2 x) hx)
            refine hb.setUp ?_ ((hpc t hne).imp id .inl)
            have hbo := hb.up t
            refine { dg := Nat.le_refl _, ev := fun _ h => (by cases h), cl := fun h1 _ => hbo.cl h1 hne
                     ev2 := fun _ _ _ h => (by cases h), xs := fun h1 h2 x w hw hh => ?_, xo := fun h1 => ?_
                     af := fun x hx => ?_, bl := fun x hx => ?_, ld := fun hx => ?_, pf := fun hx => ?_ }
            · have h3 := ho.xs h1 harm x w hw hh
              simp only [upd_same]
              exact ⟨h3.1, by omega, fun _ => by omega⟩
            · cases hsy : (s.up t).sync
              · simp [hsy] at h1
              · refine ⟨rfl, fun x w hw => ?_⟩
                simp only [hsy, if_true] at h1
                split at h1
                · simp at h1
                · next hi2 =>
                  rw [Bool.eq_false_iff]
                  intro hh
                  have h3 := ho.xs hsy harm x w hw hh
                  have h4 := ho.ev x (h.2 x) (by rw [hi.hp x w hh]; trivial)
                  have := h3.2.2 (by omega)
                  omega
            all_goals
              simp only at hx; split at hx
              · split at hx <;> cases hx
              · cases hx
          · next hg =>
            refine hi.setUp ?_ ((hpc t hne).imp id .inl)
            refine { dg := Nat.le_refl _, ev := fun _ h => (by cases h), cl := fun h1 _ => ho.cl h1 hne
                     ev2 := fun _ _ _ h => (by cases h), xs := fun h1 h2 x w hw hh => ?_, xo := fun h1 => ?_
                     af := fun x hx => ?_, bl := fun x hx => ?_, ld := fun hx => ?_, pf := fun hx => ?_ }
            · have h3 := ho.xs h1 harm x w hw hh
              have h4 := ho.dg
              exact ⟨h3.1, by simp only; omega, fun _ => by simp only; omega⟩
            · cases hsy : (s.up t).sync
              · simp [hsy] at h1
              · refine ⟨rfl, fun x w hw => ?_⟩
                simp only [hsy, if_true] at h1
                split at h1
                · simp at h1
                · next hi2 =>
                  rw [Bool.eq_false_iff]
                  intro hh
                  have h3 := ho.xs hsy harm x w hw hh
                  have h4 := ho.ev x (h.2 x) (by rw [hi.hp x w hh]; trivial)
                  have := h3.2.2 (by omega)
                  omega
            all_goals
              simp only at hx; split at hx
              · split at hx <;> cases hx
              · cases hx
        · cases hs
    · cases hs
  | leave t =>
    simp only [step] at hs
    split at hs
    · next h =>
      cases hs
      have hne : (s.up t).pc ≠ .idle := by rw [h.1]; nofun
      have ho := hi.up t
      refine hi.setUp ?_ ((hpc t hne).imp id .inl)
      exact { dg := ho.dg, ev := ho.ev, cl := fun h1 _ => ho.cl h1 hne, ev2 := fun h1 _ => ho.ev2 h1 hne
              xs := fun h1 h2 => h2.elim, xo := fun _ => ho.xo (.inl h.1), af := nofun, bl := nofun, ld := nofun, pf := nofun }
    · cases hs
  | destroy t w =>
    simp only [step] at hs
    split at hs
    · next h => cases hs; exact hi.destroy h.1 h.2
    · cases hs
  | ret t =>
    simp only [step] at hs
    split at hs
    · next h =>
      cases hs
      have hne : (s.up t).pc ≠ .idle := by rw [h]; nofun
      have ho := hi.up t
      refine hi.setUp ?_ ((hpc t hne).imp id .inl)
      exact { dg := ho.dg, ev := ho.ev, cl := fun h1 _ => ho.cl h1 hne, ev2 := fun h1 _ => ho.ev2 h1 hne
              xs := fun h1 h2 => h2.elim, xo := fun h => (by rcases h with h | h <;> cases h), af := nofun, bl := nofun, ld := nofun, pf := nofun }
    · cases hs

theorem inv_init : Inv (initSt n m) where
  own _ _ h := nomatch h
  act1 _ h := absurd rfl h
  epm _ := ⟨fun h => h.elim, fun _ => by simp [initSt]⟩
  epb _ _ h := nomatch h
  vg _ h := h.elim
  k1 _ h := h.elim
  hp _ _ h := nomatch h
  fr _ _ _ := ⟨by simp [initSt], fun _ h => nomatch h⟩
  held _ _ h := nomatch h
  unl _ _ h := nomatch h
  up _ :=
    { dg := Nat.zero_le _, ev := fun _ h => (by cases h), cl := fun h => (by cases h)
      ev2 := fun h => (by cases h), xs := fun h => (by cases h), xo := fun h => (by rcases h with h | h <;> cases h)
      af := nofun, bl := nofun, ld := nofun, pf := nofun }
  ui _ h := by rcases h with h | h <;> cases h

theorem inv_reach {s : St n m} (h : (sys real n m).Reach s) : Inv s := by
  induction h with
  | init h0 => cases h0; exact inv_init
  | step _ hs ih => exact inv_step ih hs

/-! ## Properties -/

/-- C79: a node to which a thread in a protected section has found a pointer is not destroyed. -/
theorem held {s : St n m} (h : (sys real n m).Reach s) {t : Fin n} {w : Nat} (hw : s.hold t w = true) : s.ns w ≠ .free :=
  (inv_reach h).held t w hw

/-- C79: what is destroyed after `ck_epoch_synchronize` is in use in no section, and no thread will load a pointer to it. -/
theorem destroy_unheld {s s' : St n m} (h : (sys real n m).Reach s) {t u : Fin n} {w : Nat}
    (hs : (sys real n m).step s (.destroy t w) = some s') :
    s.hold u w = false ∧ ∀ c, s.mem (.cell c) ≠ w + 1 ∧ s.get u (.cell c) ≠ w + 1 := by
  have hc := inv_reach (h.step hs)
  simp only [sys, step] at hs
  split at hs
  · next h1 =>
    cases hs
    have h2 := hc.fr w (by simp only [upd_same])
    exact ⟨((inv_reach h).up t).xo (.inr h1.1) |>.2 u w h1.2, fun c => ⟨(h2 c).1, h2.get u c⟩⟩
  · cases hs

/-- C79: the epoch is moved at most once past the one a section has loaded, as long as the section is open. -/
theorem epoch_lag {s : St n m} (h : (sys real n m).Reach s) {t : Fin n} (hp : s.pc t = .sec) :
    s.v t ≤ s.mem .glob ∧ s.mem .glob ≤ s.v t + 1 :=
  ⟨(inv_reach h).vg t (by rw [hp]; trivial), (inv_reach h).k1 t (by rw [hp]; trivial)⟩

/-! ## Without the atomic operation, or the fence -/

/-- A run after which thread 0 is in a section and has a pointer to node 7, which was destroyed. -/
def lost (fc : Cfg) (as : List (Act 2 1)) : Bool :=
  match (sys fc 2 1).run (initSt 2 1) as with
  | some s => decide (s.pc 0 = .sec ∧ s.hold 0 7 = true ∧ s.ns 7 = .free)
  | none => false

/-- If `ck_epoch_begin` stored `active` plainly: it is still in the buffer when the writer looks. -/
theorem no_fas : lost { real with fas := false }
    [.alloc 7, .put 1 0 (some 7), .flush 1, .begin 0, .loadg 0, .storeg 0, .read 0 0,
      .put 1 0 none, .flush 1, .retire 1 7, .sync 1, .lde 1, .active 1 0, .active 1 1, .tick 1, .leave 1, .destroy 1 7] = true := by
  decide +kernel

/-- Without the first fence of `ck_epoch_synchronize` (line 432): the pointer is still in memory when a section begins after the
writer has looked. -/
theorem no_fence_sync : lost { real with s1 := false }
    [.alloc 7, .put 1 0 (some 7), .flush 1, .put 1 0 none, .retire 1 7, .sync 1, .lde 1, .active 1 0, .active 1 1, .tick 1,
      .begin 0, .loadg 0, .storeg 0, .read 0 0, .flush 1, .leave 1, .destroy 1 7] = true := by
  decide +kernel

/-- The writer waits until the section is over, and destroys the node; its memory is used again. -/
def sample : List (Act 2 1) :=
  [.alloc 7, .put 1 0 (some 7), .flush 1, .begin 0, .loadg 0, .storeg 0, .read 0 0,
    .put 1 0 none, .retire 1 7, .flush 1, .sync 1, .lde 1, .active 1 0, .epoch 1, .reload 1, .flush 0, .active 1 0, .epoch 1, .active 1 1,
    .tick 1, .active 1 0, .epoch 1, .reload 1, .end_ 0, .flush 0, .active 1 0, .active 1 1, .tick 1, .leave 1, .destroy 1 7, .ret 1,
    .alloc 7, .put 1 0 (some 7), .flush 1, .begin 0, .loadg 0, .storeg 0, .read 0 0]

theorem sample_run : ((sys real 2 1).run (initSt 2 1) sample).map (fun s => (s.ns 7, s.pc 0, s.hold 0 7, s.mem .glob)) =
    some (.alive, .sec, true, 3) := by decide +kernel

example : ∃ s : St 2 1, (sys real 2 1).Reach s ∧ s.pc 0 = .sec ∧ s.hold 0 7 = true := by
  cases hr : (sys real 2 1).run (initSt 2 1) sample with
  | none => have h := sample_run; rw [hr] at h; cases h
  | some s =>
    have h := sample_run
    rw [hr] at h
    simp only [Option.map_some, Option.some.injEq, Prod.mk.injEq] at h
    exact ⟨s, Sys.Reach.of_run (.init rfl) hr, h.2.1, h.2.2.1⟩

/-- The hypotheses of `destroy_unheld` hold right before node 7 is destroyed. -/
example : ∃ s : St 2 1, (sys real 2 1).Reach s ∧ ((sys real 2 1).step s (.destroy 1 7)).isSome = true := by
  have h : ((sys real 2 1).run (initSt 2 1) (sample.take 29)).map (fun s => ((sys real 2 1).step s (.destroy 1 7)).isSome) =
      some true := by decide +kernel
  cases hr : (sys real 2 1).run (initSt 2 1) (sample.take 29) with
  | none => rw [hr] at h; cases h
  | some s =>
    rw [hr] at h
    exact ⟨s, Sys.Reach.of_run (.init rfl) hr, Option.some.inj h⟩

end Verif.Tso.Ep
