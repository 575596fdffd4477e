import Verif.Stack.Stack

/-!
# `ck_stack`: variants without concurrent consumers

`push_mpnc` (272-284), `push_spnc` (290-297), `pop_npsc` (302-314), `batch_pop_npsc` (319-328) of
`include/ck_stack.h`.
-/

namespace Verif.Stack.Nc

open Verif Verif.Lin

variable {N : Type} [DecidableEq N] {n : Nat}

/-! ## Any number of producers, no consumer -/

inductive PC (N : Type)
  | idle
  | clr (x : N)
  | fas (x : N)
  | lnk (x : N) (e : Option N)
  | ret

structure St (N : Type) (n : Nat) where
  head : Option N
  next : N → Option N
  th : Fin n → PC N
  /-- ghost: the content -/
  stk : List N

inductive Act (N : Type) (n : Nat)
  | push (t : Fin n) (x : N)
  | run (t : Fin n)
  | ret (t : Fin n)

def holds : PC N → N → Prop
  | .clr y, x | .fas y, x | .lnk y _, x => y = x
  | _, _ => False

instance (pc : PC N) (x : N) : Decidable (holds pc x) := by
  cases pc <;> simp only [holds] <;> infer_instance

def step (s : St N n) : Act N n → Option (St N n)
  | .push t x => match s.th t with
    | .idle => if x ∉ s.stk ∧ ∀ u, ¬ holds (s.th u) x then some { s with th := upd s.th t (.clr x) } else none
    | _ => none
  | .run t => match s.th t with
    -- 277
    | .clr x => some { s with next := upd s.next x none, th := upd s.th t (.fas x) }
    -- 279
    | .fas x => some { s with head := some x, stk := x :: s.stk, th := upd s.th t (.lnk x s.head) }
    -- 280
    | .lnk x e => some { s with next := upd s.next x e, th := upd s.th t .ret }
    | _ => none
  | .ret t => match s.th t with
    | .ret => some { s with th := upd s.th t .idle }
    | _ => none

def sys (s0 : St N n) : Sys (St N n) (Act N n) := { init := fun s => s = s0, step := step }

structure Start (X0 : List N) (s : St N n) : Prop where
  idle : ∀ t, s.th t = .idle
  seg : Seg s.next s.head X0 none
  nodup : X0.Nodup
  stk : s.stk = X0

/-- A new entry that some thread has put at the head but not linked yet. -/
def unlinked (s : St N n) (x : N) (e : Option N) : Prop := ∃ t, s.th t = .lnk x e

/-- Following the pointers, where an unlinked entry is followed by the value its thread is about to
store, one meets exactly the content. -/
def VSeg (s : St N n) : Option N → List N → Prop
  | h, [] => h = none
  | h, x :: l => h = some x ∧ ∃ e, (unlinked s x e ∨ (s.next x = e ∧ ∀ e', ¬ unlinked s x e')) ∧ VSeg s e l

structure Inv (s : St N n) : Prop where
  vseg : VSeg s s.head s.stk
  nodup : s.stk.Nodup
  out : ∀ t x, (s.th t = .clr x ∨ s.th t = .fas x) → x ∉ s.stk
  inn : ∀ t x e, s.th t = .lnk x e → x ∈ s.stk
  uniq : ∀ t u x, holds (s.th t) x → holds (s.th u) x → t = u

theorem VSeg.congr {s s' : St N n} {h : Option N} {l : List N} (hl : VSeg s h l)
    (hn : ∀ x ∈ l, s'.next x = s.next x) (hu : ∀ x ∈ l, ∀ e, unlinked s' x e ↔ unlinked s x e) :
    VSeg s' h l := by
  induction l generalizing h with
  | nil => exact hl
  | cons x l ih =>
    obtain ⟨h1, e, h2, h3⟩ := hl
    refine ⟨h1, e, ?_, ih h3 (fun y hy => hn y (by simp [hy])) (fun y hy => hu y (by simp [hy]))⟩
    rcases h2 with h2 | ⟨h2, h4⟩
    · exact Or.inl ((hu x (by simp) e).2 h2)
    · exact Or.inr ⟨by rw [hn x (by simp)]; exact h2, fun e' he => h4 e' ((hu x (by simp) e').1 he)⟩

theorem unlinked_upd {s : St N n} {t : Fin n} {pc : PC N} (nx : N → Option N) (hd : Option N) (st : List N)
    (h1 : ∀ x e, s.th t ≠ .lnk x e) (h2 : ∀ x e, pc ≠ .lnk x e) (x : N) (e : Option N) :
    unlinked { s with th := upd s.th t pc, next := nx, head := hd, stk := st } x e ↔ unlinked s x e := by
  constructor
  · rintro ⟨u, hu⟩
    simp only [upd_apply] at hu
    split at hu
    · exact absurd hu (h2 x e)
    · exact ⟨u, hu⟩
  · rintro ⟨u, hu⟩
    refine ⟨u, ?_⟩
    have : u ≠ t := by rintro rfl; exact h1 x e hu
    simp only [upd_ne _ _ this]; exact hu

theorem Inv.step {s s' : St N n} (h : Inv s) {a : Act N n} (hs : Nc.step s a = some s') : Inv s' := by
  cases a with
  | push t x =>
    simp only [Nc.step] at hs
    split at hs
    · next hp =>
      split at hs
      · next hg =>
        cases hs
        have hul := unlinked_upd (s := s) (t := t) (pc := .clr x) s.next s.head s.stk
          (by rw [hp]; intro _ _ h; cases h) (by intro _ _ h; cases h)
        refine ⟨h.vseg.congr (fun _ _ => rfl) (fun y _ e => hul y e), h.nodup, ?_, ?_, ?_⟩
        · intro u y hu
          simp only [upd_apply] at hu
          split at hu
          · rcases hu with hu | hu <;> cases hu; exact hg.1
          · exact h.out u y hu
        · intro u y e hu
          simp only [upd_apply] at hu
          split at hu
          · cases hu
          · exact h.inn u y e hu
        · intro u v y hu hv
          simp only [upd_apply] at hu hv
          split at hu <;> split at hv
          · next a b => rw [a, b]
          · cases hu; exact absurd hv (hg.2 v)
          · cases hv; exact absurd hu (hg.2 u)
          · exact h.uniq u v y hu hv
      · cases hs
    · cases hs
  | ret t =>
    simp only [Nc.step] at hs
    split at hs
    · next hp =>
      cases hs
      have hul := unlinked_upd (s := s) (t := t) (pc := .idle) s.next s.head s.stk
        (by rw [hp]; intro _ _ h; cases h) (by intro _ _ h; cases h)
      refine ⟨h.vseg.congr (fun _ _ => rfl) (fun y _ e => hul y e), h.nodup, ?_, ?_, ?_⟩
      · intro u y hu
        simp only [upd_apply] at hu
        split at hu
        · rcases hu with hu | hu <;> cases hu
        · exact h.out u y hu
      · intro u y e hu
        simp only [upd_apply] at hu
        split at hu
        · cases hu
        · exact h.inn u y e hu
      · intro u v y hu hv
        simp only [upd_apply] at hu hv
        split at hu
        · exact hu.elim
        · split at hv
          · exact hv.elim
          · exact h.uniq u v y hu hv
    · cases hs
  | run t =>
    simp only [Nc.step] at hs
    have huniq : ∀ pc : PC N, (∀ y, holds pc y → holds (s.th t) y) → ∀ u v y,
        holds (upd s.th t pc u) y → holds (upd s.th t pc v) y → u = v := by
      intro pc hpc u v y hu hv
      refine h.uniq u v y ?_ ?_
      · by_cases e : u = t
        · subst e; rw [upd_same] at hu; exact hpc y hu
        · rw [upd_ne _ _ e] at hu; exact hu
      · by_cases e : v = t
        · subst e; rw [upd_same] at hv; exact hpc y hv
        · rw [upd_ne _ _ e] at hv; exact hv
    split at hs
    · next x hp =>
      cases hs
      have hx : x ∉ s.stk := h.out t x (Or.inl hp)
      have hul := unlinked_upd (s := s) (t := t) (pc := .fas x) (upd s.next x none) s.head s.stk
        (by rw [hp]; intro _ _ h; cases h) (by intro _ _ h; cases h)
      refine ⟨h.vseg.congr (fun y hy => upd_ne _ _ (by rintro rfl; exact hx hy)) (fun y _ e => hul y e),
        h.nodup, ?_, ?_, huniq _ (fun y hy => by rw [hp]; exact hy)⟩
      · intro u y hu
        simp only [upd_apply] at hu
        split at hu
        · rcases hu with hu | hu <;> cases hu; exact hx
        · exact h.out u y hu
      · intro u y e hu
        simp only [upd_apply] at hu
        split at hu
        · cases hu
        · exact h.inn u y e hu
    · next x hp =>
      cases hs
      have hx : x ∉ s.stk := h.out t x (Or.inr hp)
      refine ⟨⟨rfl, s.head, Or.inl ⟨t, upd_same _ _ _⟩, ?_⟩, List.nodup_cons.2 ⟨hx, h.nodup⟩, ?_, ?_,
        huniq _ (fun y hy => by rw [hp]; exact hy)⟩
      · refine h.vseg.congr (fun _ _ => rfl) (fun y hy e => ?_)
        constructor
        · rintro ⟨u, hu⟩
          simp only [upd_apply] at hu
          split at hu
          · cases hu; exact absurd hy hx
          · exact ⟨u, hu⟩
        · rintro ⟨u, hu⟩
          refine ⟨u, ?_⟩
          have : u ≠ t := by rintro rfl; rw [hp] at hu; cases hu
          simp only [upd_ne _ _ this]; exact hu
      · intro u y hu hy
        simp only [upd_apply] at hu
        split at hu
        · rcases hu with hu | hu <;> cases hu
        · next hne =>
          rcases List.mem_cons.1 hy with rfl | hy
          · exact hne (h.uniq u t y (by rcases hu with hu | hu <;> rw [hu] <;> rfl) (by rw [hp]; rfl))
          · exact h.out u y hu hy
      · intro u y e hu
        simp only [upd_apply] at hu
        split at hu
        · cases hu; simp
        · exact List.mem_cons_of_mem _ (h.inn u y e hu)
    · next x e hp =>
      cases hs
      have hxs : x ∈ s.stk := h.inn t x e hp
      refine ⟨?_, h.nodup, ?_, ?_, huniq _ (fun y hy => hy.elim)⟩
      · have key : ∀ hd l, VSeg s hd l →
            VSeg { s with next := upd s.next x e, th := upd s.th t .ret } hd l := by
          intro hd l
          induction l generalizing hd with
          | nil => exact id
          | cons y l ih =>
            rintro ⟨h1, e1, h2, h3⟩
            refine ⟨h1, e1, ?_, ih _ h3⟩
            by_cases hyx : y = x
            · subst hyx
              have he : e1 = e := by
                rcases h2 with ⟨u, hu⟩ | ⟨-, hn⟩
                · have : u = t := h.uniq u t y (by rw [hu]; rfl) (by rw [hp]; rfl)
                  subst this; rw [hp] at hu; cases hu; rfl
                · exact absurd ⟨t, hp⟩ (hn e)
              refine Or.inr ⟨by rw [he]; exact upd_same _ _ _, ?_⟩
              rintro e' ⟨u, hu⟩
              simp only [upd_apply] at hu
              split at hu
              · cases hu
              · next hne => exact hne (h.uniq u t y (by rw [hu]; rfl) (by rw [hp]; rfl))
            · have hul : ∀ e', unlinked { s with next := upd s.next x e, th := upd s.th t .ret } y e' ↔
                  unlinked s y e' := by
                intro e'
                constructor
                · rintro ⟨u, hu⟩
                  simp only [upd_apply] at hu
                  split at hu
                  · cases hu
                  · exact ⟨u, hu⟩
                · rintro ⟨u, hu⟩
                  refine ⟨u, ?_⟩
                  have : u ≠ t := by rintro rfl; rw [hp] at hu; cases hu; exact hyx rfl
                  simp only [upd_ne _ _ this]; exact hu
              rcases h2 with h2 | ⟨h2, h4⟩
              · exact Or.inl ((hul e1).2 h2)
              · exact Or.inr ⟨by rw [← h2]; exact upd_ne _ _ hyx, fun e' he => h4 e' ((hul e').1 he)⟩
        exact key _ _ h.vseg
      · intro u y hu
        simp only [upd_apply] at hu
        split at hu
        · rcases hu with hu | hu <;> cases hu
        · exact h.out u y hu
      · intro u y e' hu
        simp only [upd_apply] at hu
        split at hu
        · cases hu
        · exact h.inn u y e' hu
    · cases hs

theorem Start.inv {X0 : List N} {s : St N n} (h : Start X0 s) : Inv s where
  vseg := by
    rw [h.stk]
    have : ∀ hd l, Seg s.next hd l none → VSeg s hd l := by
      intro hd l
      induction l generalizing hd with
      | nil => exact id
      | cons x l ih =>
        rintro ⟨h1, h2⟩
        exact ⟨h1, _, Or.inr ⟨rfl, by rintro e ⟨u, hu⟩; rw [h.idle u] at hu; cases hu⟩, ih _ h2⟩
    exact this _ _ h.seg
  nodup := by rw [h.stk]; exact h.nodup
  out t x hx := by rw [h.idle t] at hx; rcases hx with hx | hx <;> cases hx
  inn t x e hx := by rw [h.idle t] at hx; cases hx
  uniq t u x hx := by rw [h.idle t] at hx; exact hx.elim

theorem inv {X0 : List N} {s0 s : St N n} (h0 : Start X0 s0) (h : (sys s0).Reach s) : Inv s := by
  induction h with
  | init h => rw [h]; exact h0.inv
  | step _ hs ih => exact ih.step hs

/-- **C32** (`push_mpnc`).  Once no push is between its swap and its link, the stack is intact: following
the pointers gives the content. -/
theorem mpnc_quiescent {X0 : List N} {s0 s : St N n} (h0 : Start X0 s0) (h : (sys s0).Reach s)
    (hq : ∀ t x e, s.th t ≠ .lnk x e) : Seg s.next s.head s.stk none ∧ s.stk.Nodup := by
  have hi := inv h0 h
  refine ⟨?_, hi.nodup⟩
  have : ∀ hd l, VSeg s hd l → Seg s.next hd l none := by
    intro hd l
    induction l generalizing hd with
    | nil => exact id
    | cons x l ih =>
      rintro ⟨h1, e, h2, h3⟩
      rcases h2 with ⟨u, hu⟩ | ⟨h2, -⟩
      · exact absurd hu (hq u x e)
      · exact ⟨h1, by rw [h2]; exact ih _ h3⟩
  exact this _ _ hi.vseg

/-- The content: exactly the initial entries and, above them, the entries pushed, latest first.  (Every
push adds its entry once, at its swap.) -/
theorem mpnc_content_step {s s' : St N n} {a : Act N n} (hs : step s a = some s') :
    s'.stk = s.stk ∨ ∃ t x, a = .run t ∧ s.th t = .fas x ∧ s'.stk = x :: s.stk ∧
      s'.th t = .lnk x s.head := by
  cases a <;> simp only [step] at hs
  · split at hs
    · split at hs <;> cases hs; exact Or.inl rfl
    · cases hs
  · next t =>
    split at hs
    · cases hs; exact Or.inl rfl
    · next x hp => cases hs; exact Or.inr ⟨t, x, rfl, hp, rfl, upd_same _ _ _⟩
    · cases hs; exact Or.inl rfl
    · cases hs
  · split at hs <;> cases hs; exact Or.inl rfl

def obs (s : St N n) : Act N n → Option (Ev (Fin n) (Op N) (Res N))
  | .push t x => some (.call t (.push x))
  | .run _ => none
  | .ret t => match s.th t with
    | .ret => some (.ret t .unit)
    | _ => none

def view : PC N → TS (Op N) (Res N)
  | .idle => .idle
  | .clr x | .fas x => .pend (.push x)
  | .lnk _ _ | .ret => .done .unit

/-- **C32** (`push_mpnc`).  The pushes are linearizable. -/
theorem mpnc_linearizable {X0 : List N} {s0 : St N n} (h0 : Start X0 s0) :
    Linearizable (sys s0) obs (lifo X0) := by
  refine linearizable_of_sim (fun s α => α = { x := s.stk, th := fun t => view (s.th t) }) ?_ ?_
  · intro s hs
    refine ⟨X0, rfl, ?_⟩
    have hs : s = s0 := hs
    subst hs
    simp only [h0.stk, h0.idle]; rfl
  · rintro s a s' α - rfl hs
    refine ⟨_, ?_, rfl⟩
    cases a <;> simp only [sys, step] at hs
    · next t x =>
      split at hs
      · next hp =>
        split at hs <;> cases hs
        exact .call' (by simp [hp, view]) (by simp only [upd_comp]; rfl)
      · cases hs
    · next t =>
      split at hs
      · next x hp =>
        cases hs
        exact .skip (by simp only; rw [upd_comp_same]; simp [hp, view])
      · next x hp =>
        cases hs
        exact .lin' (o := .push x) (t := t) (r := .unit) (by simp [hp, view]) rfl
          (by simp only [upd_comp]; rfl)
      · next x e hp =>
        cases hs
        exact .skip (by simp only; rw [upd_comp_same]; simp [hp, view])
      · cases hs
    · next t =>
      split at hs
      · next hp =>
        cases hs
        simp only [obs, hp]
        exact .ret' (by simp [hp, view]) (by simp only [upd_comp]; rfl)
      · cases hs

def emp : St Nat 2 := { head := none, next := fun _ => none, th := fun _ => .idle, stk := [] }

theorem emp_start : Start [] emp := ⟨fun _ => rfl, rfl, List.nodup_nil, rfl⟩

/-- Two overlapping pushes: in between the chain is cut (`next` of 5 is still NULL), at the end it is
complete. -/
example : (((sys emp).run emp [.push 0 5, .push 1 6, .run 0, .run 1, .run 0, .run 1, .run 1]).map
    (fun s => (s.head, s.next 6, s.next 5, s.stk)) = some (some 6, some 5, none, [6, 5])) ∧
  (((sys emp).run emp [.push 0 3, .run 0, .run 0, .run 0, .ret 0, .push 0 5, .push 1 6, .run 0, .run 1,
      .run 0, .run 1, .run 1, .run 0]).map
    (fun s => (s.head, s.next 6, s.next 5, s.next 3, s.stk)) =
      some (some 6, some 5, some 3, none, [6, 5, 3])) := ⟨rfl, rfl⟩

/-! ## One producer or one consumer, nothing concurrent -/

structure H (N : Type) where
  head : Option N
  next : N → Option N

/-- `ck_stack_push_spnc`, lines 290-297. -/
def pushSpnc (h : H N) (x : N) : H N := { head := some x, next := upd h.next x h.head }

/-- `ck_stack_pop_npsc`, lines 302-314. -/
def popNpsc (h : H N) : Option N × H N := match h.head with
  | none => (none, h)
  | some x => (some x, { h with head := h.next x })

/-- `ck_stack_batch_pop_npsc`, lines 319-328. -/
def batchNpsc (h : H N) : Option N × H N := (h.head, { h with head := none })

/-- `h` represents the stack `X`. -/
def Rep (h : H N) (X : List N) : Prop := Seg h.next h.head X none ∧ X.Nodup

theorem pushSpnc_rep {h : H N} {X : List N} {x : N} (hr : Rep h X) (hx : x ∉ X) :
    Rep (pushSpnc h x) (x :: X) :=
  ⟨⟨rfl, by simp only [pushSpnc, upd_same]; exact (seg_upd hx).2 hr.1⟩, List.nodup_cons.2 ⟨hx, hr.2⟩⟩

omit [DecidableEq N] in
theorem popNpsc_rep {h : H N} {X : List N} (hr : Rep h X) :
    (popNpsc h).1 = X.head? ∧ Rep (popNpsc h).2 X.tail := by
  obtain ⟨h1, h2⟩ := hr
  cases X with
  | nil =>
    have h1 : h.head = none := h1
    simp only [popNpsc, h1]; exact ⟨rfl, by simp [Rep, h1]⟩
  | cons x l =>
    obtain ⟨h1, h3⟩ := h1
    simp only [popNpsc, h1]; exact ⟨rfl, h3, (List.nodup_cons.1 h2).2⟩

omit [DecidableEq N] in
/-- The whole content is handed out, linked from the returned entry, and the stack is empty. -/
theorem batchNpsc_rep {h : H N} {X : List N} (hr : Rep h X) :
    Seg (batchNpsc h).2.next (batchNpsc h).1 X none ∧ Rep (batchNpsc h).2 [] :=
  ⟨hr.1, rfl, List.nodup_nil⟩

end Verif.Stack.Nc
