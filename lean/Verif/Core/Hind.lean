import Verif.Core.Lin

/-!
# Linearizability of reads by hindsight

Some operations may turn out to be reads: the result of a read is known to be right for *some* instant during the call,
which only turns out later.  The forward simulation is replaced by one for every choice of which reads have taken effect with which of
the results seen so far.
-/

namespace Verif.Lin

open Verif

/-- Where a thread stands; `read`: inside a read. -/
inductive HS (Op Res : Type _)
  | idle
  | pend (o : Op)
  | done (r : Res)
  | read (o : Op)

def HS.ts {Op Res : Type _} : HS Op Res → Option Res → TS Op Res
  | .idle, _ => .idle
  | .pend o, _ => .pend o
  | .done r, _ => .done r
  | .read o, none => .pend o
  | .read _, some r => .done r

variable {T Op Res X S A : Type _} [DecidableEq T]

/-- The abstract state for a choice `c` of reads that have taken effect. -/
def conc (x : X) (v : T → HS Op Res) (c : T → Option Res) : Abs T Op Res X :=
  { x := x, th := fun t => (v t).ts (c t) }

/-- What a step of the model may be. -/
inductive HStep (O : Obj Op Res X) (val : X → Op → Res → Prop) (x x' : X) (v v' : T → HS Op Res)
    (seen seen' : T → Res → Prop) : Option (Ev T Op Res) → Prop
  /-- a read is called -/
  | call (t : T) (o : Op) : v t = .idle → v' = upd v t (.read o) → x' = x →
      (∀ u r, u ≠ t → seen' u r → seen u r) → (∀ r, seen' t r → val x o r) →
      HStep O val x x' v v' seen seen' (some (.call t o))
  /-- a read returns -/
  | ret (t : T) (o : Op) (r : Res) : v t = .read o → seen t r → v' = upd v t .idle → x' = x →
      (∀ u r, u ≠ t → seen' u r → seen u r) → HStep O val x x' v v' seen seen' (some (.ret t r))
  /-- a read is decided: one of the results seen will be returned -/
  | settle (t : T) (o : Op) (r : Res) : v t = .read o → seen t r → v' = upd v t (.done r) → x' = x →
      (∀ u r, u ≠ t → seen' u r → seen u r) → HStep O val x x' v v' seen seen' none
  /-- what could have been a read takes effect after all -/
  | act (t : T) (o : Op) (r : Res) : v t = .read o → O.app x o r x' → v' = upd v t (.done r) →
      (∀ u r, u ≠ t → seen' u r → seen u r ∨ ∃ o, v u = .read o ∧ val x' o r) →
      HStep O val x x' v v' seen seen' none
  /-- another thread steps, or nothing visible happens; the readers see the new state -/
  | move (w : T) (e : Option (Ev T Op Res)) (p : HS Op Res) : (∀ o, v w = .read o → p = .read o) →
      (∀ o, p = .read o → v w = .read o) → v' = upd v w p →
      (∀ th : T → TS Op Res, (∀ o, v w ≠ .read o) → th w = (v w).ts none →
        AStar O { x := x, th := th } e.toList { x := x', th := upd th w (p.ts none) }) →
      ((∃ o, v w = .read o) → e = none ∧ x' = x) →
      (∀ u r, seen' u r → seen u r ∨ ∃ o, v u = .read o ∧ val x' o r) →
      HStep O val x x' v v' seen seen' e

/-- Some reads take effect. -/
theorem lin_reads {O : Obj Op Res X} {val : X → Op → Res → Prop} (hval : ∀ x o r, val x o r → O.app x o r x) {x : X}
    {v : T → HS Op Res} (c c0 : T → Option Res)
    (hc : ∀ t r, c t = some r → c0 t = some r ∨ c0 t = none ∧ ∃ o, v t = .read o ∧ val x o r) (l : List T) :
    AStar O (conc x v c0) [] (conc x v (fun t => if t ∈ l then (c t).or (c0 t) else c0 t)) := by
  induction l with
  | nil => simpa using AStar.nil _
  | cons t l ih =>
    by_cases hm : t ∈ l
    · have : (fun u => if u ∈ t :: l then (c u).or (c0 u) else c0 u) = fun u => if u ∈ l then (c u).or (c0 u) else c0 u := by
        funext u
        by_cases hu : u = t
        · subst hu; simp [hm]
        · simp [hu]
      rw [this]; exact ih
    · cases hct : c t with
      | none =>
        have : (fun u => if u ∈ t :: l then (c u).or (c0 u) else c0 u) = fun u => if u ∈ l then (c u).or (c0 u) else c0 u := by
          funext u
          by_cases hu : u = t
          · subst hu; simp [hm, hct]
          · simp [hu]
        rw [this]; exact ih
      | some r =>
        rcases hc t r hct with h0 | ⟨h0, o, hv, hr⟩
        · have : (fun u => if u ∈ t :: l then (c u).or (c0 u) else c0 u) = fun u => if u ∈ l then (c u).or (c0 u) else c0 u := by
            funext u
            by_cases hu : u = t
            · subst hu; simp [hm, hct, h0]
            · simp [hu]
          rw [this]; exact ih
        · have hs := AStep.lin (O := O) (a := conc x v (fun u => if u ∈ l then (c u).or (c0 u) else c0 u)) (t := t) (o := o)
            (r := r) (x' := x) (by simp [conc, hm, h0, hv, HS.ts]) (hval x o r hr)
          have he : ({ x := x, th := upd (conc x v (fun u => if u ∈ l then (c u).or (c0 u) else c0 u)).th t (.done r) } :
              Abs T Op Res X) = conc x v (fun u => if u ∈ t :: l then (c u).or (c0 u) else c0 u) := by
            simp only [conc, Abs.mk.injEq, true_and]
            funext u
            simp only [upd]
            by_cases hu : u = t
            · subst hu; simp [hct, hv, HS.ts]
            · simp [hu]
          rw [he] at hs
          simpa using ih.trans (.one hs)

open Classical in
/-- Simulation for all choices. -/
theorem linearizable_of_hindsight {M : Sys S A} {obs : S → A → Option (Ev T Op Res)} {O : Obj Op Res X}
    {val : X → Op → Res → Prop} (hval : ∀ x o r, val x o r → O.app x o r x)
    (x : S → X) (v : S → T → HS Op Res) (seen : S → T → Res → Prop)
    (h0 : ∀ s, M.init s → O.init (x s) ∧ ∀ t, v s t = .idle)
    (hs : ∀ s a s', M.Reach s → M.step s a = some s' →
      HStep O val (x s) (x s') (v s) (v s') (seen s) (seen s') (obs s a)) :
    Linearizable M obs O := by
  intro s l h
  suffices H : ∀ c : T → Option Res, (∃ ts : List T, ∀ t, c t ≠ none → t ∈ ts) →
      (∀ t r, c t = some r → (∃ o, v s t = .read o) ∧ seen s t r) →
      ∃ x0, O.init x0 ∧ AStar O { x := x0, th := fun _ => .idle } l (conc (x s) (v s) c) by
    obtain ⟨x0, h1, h2⟩ := H (fun _ => none) ⟨[], by simp⟩ (by simp)
    exact ⟨x0, _, h1, h2⟩
  induction h with
  | init h =>
    intro c _ hc
    obtain ⟨h1, h2⟩ := h0 _ h
    refine ⟨_, h1, ?_⟩
    simp only [conc, h2, HS.ts]
    exact .nil _
  | @step s s' a l htr hst ih =>
    have hS := hs _ _ _ htr.reach hst
    intro c hfin hc
    obtain ⟨ts, hts⟩ := hfin
    generalize obs s a = e at hS ⊢
    cases hS with
    | call t o h1 h2 h3 h4 h5 =>
      obtain ⟨x0, h6, h7⟩ := ih (upd c t none) ⟨ts, fun u hu => hts u (by
          intro hn; apply hu; rw [upd_apply]; split
          · rfl
          · exact hn)⟩ (by
        intro u r hu
        by_cases hut : u = t
        · subst hut; simp at hu
        · rw [upd_ne _ _ hut] at hu
          obtain ⟨⟨o', h8⟩, h9⟩ := hc u r hu
          rw [h2, upd_ne _ _ hut] at h8
          exact ⟨⟨o', h8⟩, h4 u r hut h9⟩)
      refine ⟨x0, h6, h7.trans ?_⟩
      rw [h2, h3]
      have hcall := AStep.call (O := O) (a := conc (x s) (v s) (upd c t none)) (t := t) o
        (by simp [conc, h1, HS.ts])
      have he : ({ conc (x s) (v s) (upd c t none) with
            th := upd (conc (x s) (v s) (upd c t none)).th t (.pend o) } : Abs T Op Res X) =
          conc (x s) (upd (v s) t (.read o)) (upd c t none) := by
        simp only [conc, Abs.mk.injEq, true_and]
        funext u
        simp only [upd]
        split <;> rfl
      rw [he] at hcall
      have := (AStar.one hcall).trans (lin_reads hval (x := x s) (v := upd (v s) t (.read o)) c (upd c t none) (by
        intro u r hu
        by_cases hut : u = t
        · subst hut
          exact .inr ⟨by simp, o, by simp, h5 r (hc u r hu).2⟩
        · exact .inl (by rw [upd_ne _ _ hut]; exact hu)) ts)
      have hc' : (fun u => if u ∈ ts then (c u).or (upd c t none u) else upd c t none u) = c := by
        funext u
        by_cases hu : c u = none
        · simp only [hu, Option.none_or, upd]; split <;> split <;> simp_all
        · have := hts u hu
          simp only [this, if_true]
          cases hcu : c u with
          | none => exact absurd hcu hu
          | some r => rfl
      rw [hc'] at this
      simpa using this
    | ret t o r h1 h2 h3 h4 h5 =>
      have hct : c t = none := by
        cases hct : c t with
        | none => rfl
        | some r' =>
          obtain ⟨⟨o', h8⟩, -⟩ := hc t r' hct
          rw [h3, upd_same] at h8; cases h8
      obtain ⟨x0, h6, h7⟩ := ih (upd c t (some r)) ⟨t :: ts, fun u hu => by
          by_cases hut : u = t
          · simp [hut]
          · rw [upd_ne _ _ hut] at hu; exact List.mem_cons_of_mem _ (hts u hu)⟩ (by
        intro u r' hu
        by_cases hut : u = t
        · subst hut
          rw [upd_same] at hu; cases hu
          exact ⟨⟨o, h1⟩, h2⟩
        · rw [upd_ne _ _ hut] at hu
          obtain ⟨⟨o', h8⟩, h9⟩ := hc u r' hu
          rw [h3, upd_ne _ _ hut] at h8
          exact ⟨⟨o', h8⟩, h5 u r' hut h9⟩)
      refine ⟨x0, h6, h7.trans ?_⟩
      refine AStar.ret' (by simp [conc, h1, HS.ts]) ?_
      rw [h3, h4]
      simp only [conc, Abs.mk.injEq, true_and]
      funext u
      simp only [upd]
      by_cases hut : u = t
      · simp [hut, HS.ts]
      · simp [hut]
    | settle t o r h1 h2 h3 h4 h5 =>
      obtain ⟨x0, h6, h7⟩ := ih (upd c t (some r)) ⟨t :: ts, fun u hu => by
          by_cases hut : u = t
          · simp [hut]
          · rw [upd_ne _ _ hut] at hu; exact List.mem_cons_of_mem _ (hts u hu)⟩ (by
        intro u r' hu
        by_cases hut : u = t
        · subst hut
          rw [upd_same] at hu; cases hu
          exact ⟨⟨o, h1⟩, h2⟩
        · rw [upd_ne _ _ hut] at hu
          obtain ⟨⟨o', h8⟩, h9⟩ := hc u r' hu
          rw [h3, upd_ne _ _ hut] at h8
          exact ⟨⟨o', h8⟩, h5 u r' hut h9⟩)
      refine ⟨x0, h6, h7.trans ?_⟩
      have he : conc (x s') (v s') c = conc (x s) (v s) (upd c t (some r)) := by
        rw [h3, h4]
        simp only [conc, Abs.mk.injEq, true_and]
        funext u
        simp only [upd]
        by_cases hut : u = t
        · subst hut; simp [h1, HS.ts]
        · simp [hut]
      rw [he]; exact .nil _
    | act t o r h1 h2 h3 h6 =>
      have hct : c t = none := by
        cases hct : c t with
        | none => rfl
        | some r' =>
          obtain ⟨⟨o', h8⟩, -⟩ := hc t r' hct
          rw [h3, upd_same] at h8; cases h8
      have hrd : ∀ u, u ≠ t → ∀ o, v s' u = .read o ↔ v s u = .read o := by
        intro u hut o
        rw [h3, upd_ne _ _ hut]
      let c0 : T → Option Res := fun u => match c u with
        | some r => if seen s u r then some r else none
        | none => none
      have hc0 : ∀ u r, c0 u = some r → c u = some r ∧ seen s u r := by
        intro u r hu
        simp only [c0] at hu
        split at hu
        · next r' hr =>
          split at hu
          · next hse => cases hu; exact ⟨hr, hse⟩
          · cases hu
        · cases hu
      have hne : ∀ u r, c u = some r → u ≠ t := by
        rintro u r hu rfl; rw [hct] at hu; cases hu
      obtain ⟨x0, h7, h8⟩ := ih c0 ⟨ts, fun u hu => hts u (by
          intro hn; apply hu; simp only [c0, hn])⟩ (by
        intro u r hu
        obtain ⟨h9, h10⟩ := hc0 u r hu
        obtain ⟨⟨o, h11⟩, -⟩ := hc u r h9
        exact ⟨⟨o, (hrd u (hne u r h9) o).1 h11⟩, h10⟩)
      have hc0t : c0 t = none := by simp only [c0, hct]
      have hmv : AStar O (conc (x s) (v s) c0) [] (conc (x s') (v s') c0) := by
        refine .lin' (t := t) (o := o) (r := r) (x' := x s') (by simp [conc, h1, hc0t, HS.ts]) h2 ?_
        simp only [conc, Abs.mk.injEq, true_and]
        funext u
        rw [h3]
        simp only [upd]
        split
        · rfl
        · rfl
      have hlin := lin_reads (O := O) hval (x := x s') (v := v s') c c0 (by
        intro u r hu
        by_cases hse : seen s u r
        · left; simp only [c0, hu, hse, if_true]
        · right
          obtain ⟨⟨o, h9⟩, h10⟩ := hc u r hu
          refine ⟨by simp only [c0, hu, hse, if_false], ?_⟩
          rcases h6 u r (hne u r hu) h10 with h11 | ⟨o', h11, h12⟩
          · exact absurd h11 hse
          · exact ⟨o', (hrd u (hne u r hu) o').2 h11, h12⟩) ts
      have hc' : (fun u => if u ∈ ts then (c u).or (c0 u) else c0 u) = c := by
        funext u
        by_cases hu : c u = none
        · simp only [hu, Option.none_or, c0]; split <;> rfl
        · have := hts u hu
          simp only [this, if_true]
          cases hcu : c u with
          | none => exact absurd hcu hu
          | some r => rfl
      rw [hc'] at hlin
      refine ⟨x0, h7, ?_⟩
      simpa using (h8.trans hmv).trans hlin
    | move w e p h1 h2 h3 h4 h5 h6 =>
      have hrd : ∀ u o, v s' u = .read o ↔ v s u = .read o := by
        intro u o
        rw [h3]
        by_cases huw : u = w
        · subst huw; rw [upd_same]
          exact ⟨h2 o, h1 o⟩
        · rw [upd_ne _ _ huw]
      -- the choices that were possible before
      let c0 : T → Option Res := fun u => match c u with
        | some r => if seen s u r then some r else none
        | none => none
      have hc0 : ∀ u r, c0 u = some r → c u = some r ∧ seen s u r := by
        intro u r hu
        simp only [c0] at hu
        split at hu
        · next r' hr =>
          split at hu
          · next hse => cases hu; exact ⟨hr, hse⟩
          · cases hu
        · cases hu
      obtain ⟨x0, h7, h8⟩ := ih c0 ⟨ts, fun u hu => hts u (by
          intro hn; apply hu; simp only [c0, hn])⟩ (by
        intro u r hu
        obtain ⟨h9, h10⟩ := hc0 u r hu
        obtain ⟨⟨o, h11⟩, -⟩ := hc u r h9
        exact ⟨⟨o, (hrd u o).1 h11⟩, h10⟩)
      have hmv : AStar O (conc (x s) (v s) c0) e.toList (conc (x s') (v s') c0) := by
        by_cases hw : ∃ o, v s w = .read o
        · obtain ⟨h9, h10⟩ := h5 hw
          obtain ⟨o, ho⟩ := hw
          have : v s' = v s := by
            rw [h3, h1 o ho, ← ho, upd_eq_self]
          rw [h9, h10, this]; exact .nil _
        · have hnr : ∀ o, v s w ≠ .read o := fun o ho => hw ⟨o, ho⟩
          have hts' : ∀ c, (v s w).ts c = (v s w).ts none := by
            intro c
            cases hv : v s w with
            | read o => exact absurd hv (hnr o)
            | _ => rfl
          have hts2 : ∀ c, p.ts c = p.ts none := by
            intro c
            cases hv : p with
            | read o => exact absurd (h2 o hv) (hnr o)
            | _ => rfl
          have := h4 (conc (x s) (v s) c0).th hnr (hts' _)
          have he : (conc (x s') (v s') c0) = { x := x s', th := upd (conc (x s) (v s) c0).th w (p.ts none) } := by
            simp only [conc, Abs.mk.injEq, true_and]
            funext u
            rw [h3]
            simp only [upd]
            split
            · exact hts2 _
            · rfl
          rw [he]; exact this
      have hlin := lin_reads (O := O) hval (x := x s') (v := v s') c c0 (by
        intro u r hu
        by_cases hse : seen s u r
        · left; simp only [c0, hu, hse, if_true]
        · right
          obtain ⟨⟨o, h9⟩, h10⟩ := hc u r hu
          refine ⟨by simp only [c0, hu, hse, if_false], ?_⟩
          rcases h6 u r h10 with h11 | ⟨o', h11, h12⟩
          · exact absurd h11 hse
          · exact ⟨o', (hrd u o').2 h11, h12⟩) ts
      have hc' : (fun u => if u ∈ ts then (c u).or (c0 u) else c0 u) = c := by
        funext u
        by_cases hu : c u = none
        · simp only [hu, Option.none_or, c0]; split <;> rfl
        · have := hts u hu
          simp only [this, if_true]
          cases hcu : c u with
          | none => exact absurd hcu hu
          | some r => rfl
      rw [hc'] at hlin
      refine ⟨x0, h7, ?_⟩
      simpa using (h8.trans hmv).trans hlin

end Verif.Lin
