import Verif.Queue.Thm

/-!
# Traversal concurrent with a writer (C54)

One writer executes list macros statement by statement; any number of readers run `CK_*_FOREACH`, one pointer
load per step.  The only obligation of the writer (what safe memory reclamation provides): an element is inserted
only if it is not in the list and was not in the list at any time since the start of a running traversal.
-/

namespace Verif.Queue

open Verif

variable {H N : Type} [DecidableEq H] [DecidableEq N]

/-- `x` is in the list `h`. -/
def InList (h : H) (m : Mem H N) (x : N) : Prop := ∃ l, Path m.ptr (.head h) l ∧ x ∈ l

/-- The macros of one kind of list. -/
structure Flavor (H N : Type) where
  Op : Type
  /-- The statements. -/
  prog : Op → Mem H N → Option (List (Stmt H N))
  /-- The element inserted. -/
  elem : Op → Option N
  /-- When the operation may be used. -/
  pre : Op → Mem H N → Prop
  /-- Well-formed list with content. -/
  rep : Mem H N → List N → Prop

/-- A reader. -/
structure Rd (N : Type) where
  /-- `none`: not traversing; otherwise the value of `var` -/
  pos : Option (Option N)
  /-- visited so far -/
  vis : List N
  /-- ghost: was in the list at some time since the start of the traversal -/
  ever : N → Prop
  /-- ghost: was in the list at all times since the start of the traversal -/
  always : N → Prop

structure St (H N : Type) (n : Nat) where
  mem : Mem H N
  /-- the statements the writer has yet to execute -/
  pend : List (Stmt H N)
  rd : Fin n → Rd N

inductive Act (F : Flavor H N) (n : Nat)
  | begin (o : F.Op)
  | exec
  | start (r : Fin n)
  | next (r : Fin n)

variable {n : Nat}

/-- The discipline of the writer. -/
def Ok (h : H) (F : Flavor H N) (s : St H N n) (o : F.Op) : Prop :=
  F.pre o s.mem ∧
  ∀ x, F.elem o = some x → ¬ InList h s.mem x ∧ ∀ r, (s.rd r).pos ≠ none → ¬ (s.rd r).ever x

/-- The ghosts of a reader after a store. -/
def Rd.see (h : H) (m : Mem H N) (r : Rd N) : Rd N :=
  { r with ever := fun x => r.ever x ∨ InList h m x, always := fun x => r.always x ∧ InList h m x }

open Classical in
noncomputable def step (h : H) (F : Flavor H N) (s : St H N n) : Act F n → Option (St H N n)
  | .begin o => match s.pend with
    | [] => if Ok h F s o then (F.prog o s.mem).map fun fs => { s with pend := fs } else none
    | _ => none
  | .exec => match s.pend with
    | [] => none
    | f :: fs => (f s.mem).map fun m => { mem := m, pend := fs, rd := fun r => (s.rd r).see h m }
  | .start r =>
    let v := s.mem.ptr (.head h)
    some { s with rd := upd s.rd r { pos := some v, vis := v.toList, ever := InList h s.mem,
                                     always := InList h s.mem } }
  | .next r => match (s.rd r).pos with
    | some (some x) =>
      let v := s.mem.ptr (.next x)
      some { s with rd := upd s.rd r { s.rd r with pos := some v, vis := (s.rd r).vis ++ v.toList } }
    | _ => none

/-- Start from any well-formed list. -/
noncomputable def sys (h : H) (F : Flavor H N) (n : Nat) : Sys (St H N n) (Act F n) :=
  { init := fun s => s.pend = [] ∧ (∃ l, F.rep s.mem l) ∧ ∀ r, (s.rd r).pos = none
    step := step h F }

/-! ## The effect of a statement on what readers see -/

/-- `e` is the element being inserted. -/
inductive Eff (h : H) (e : Option N) (m : Mem H N) (l : List N) (m' : Mem H N) : List N → Prop
  | nop : m'.ptr = m.ptr → Eff h e m l m' l
  | priv {x : N} {v : Option N} : e = some x → x ∉ l → m'.ptr = upd m.ptr (.next x) v → Eff h e m l m' l
  | ins {x : N} {a b : List N} : e = some x → l = a ++ b → x ∉ l →
      m.ptr (.next x) = m.ptr (endC (.head h) a) → m'.ptr = upd m.ptr (endC (.head h) a) (some x) →
      Eff h e m l m' (a ++ x :: b)
  | del {x : N} {a b : List N} : e = none → l = a ++ x :: b →
      m'.ptr = upd m.ptr (endC (.head h) a) (m.ptr (.next x)) → Eff h e m l m' (a ++ b)

/-- The statements `fs` run without error and change the content from `l` to `l'`. -/
def Effs (h : H) (e : Option N) : List (Stmt H N) → Mem H N → List N → List N → Prop
  | [], _, l, l' => l = l'
  | f :: fs, m, l, l' => ∃ m1 l1, f m = some m1 ∧ Eff h e m l m1 l1 ∧ Effs h e fs m1 l1 l'

/-- Every operation of the flavor, started on a well-formed list, keeps the protocol and leaves a well-formed
list. -/
structure Sound (h : H) (F : Flavor H N) : Prop where
  path : ∀ m l, F.rep m l → Path m.ptr (.head h) l ∧ l.Nodup
  op : ∀ o m l fs, F.rep m l → F.pre o m → (∀ x, F.elem o = some x → x ∉ l) → F.prog o m = some fs →
    ∃ l', Effs h (F.elem o) fs m l l' ∧ ∀ m', exec fs m = some m' → F.rep m' l'

/-! ## Order -/

/-- `y` comes before `z` in `L`. -/
def Before {α : Type} (L : List α) (y z : α) : Prop := ∃ A B, L = A ++ y :: B ∧ z ∈ B

theorem before_right {α : Type} {A B : List α} {x z : α} (hn : (A ++ x :: B).Nodup) :
    Before (A ++ x :: B) x z ↔ z ∈ B := by
  constructor
  · rintro ⟨A', B', e, hz⟩
    rcases List.append_eq_append_iff.1 e with ⟨c, h1, h2⟩ | ⟨c, h1, h2⟩
    · cases c with
      | nil => simp only [List.nil_append, List.cons.injEq] at h2; rw [h2.2]; exact hz
      | cons w c =>
        simp only [List.cons_append, List.cons.injEq] at h2
        rw [h2.2]; simp [hz]
    · cases c with
      | nil => simp only [List.nil_append, List.cons.injEq] at h2; rw [← h2.2]; exact hz
      | cons w c =>
        simp only [List.cons_append, List.cons.injEq] at h2
        exfalso
        rw [h1, ← h2.1] at hn
        simp [List.nodup_append] at hn
  · intro hz; exact ⟨A, B, rfl, hz⟩

theorem before_left {α : Type} {A B : List α} {x y : α} (hn : (A ++ x :: B).Nodup) :
    Before (A ++ x :: B) y x ↔ y ∈ A := by
  constructor
  · rintro ⟨A', B', e, hz⟩
    obtain ⟨B1, B2, rfl⟩ := List.append_of_mem hz
    have e2 : A ++ x :: B = (A' ++ y :: B1) ++ x :: B2 := by rw [e]; simp
    have hn2 := hn
    rw [e2] at hn2
    rcases List.append_eq_append_iff.1 e2 with ⟨c, h1, h2⟩ | ⟨c, h1, h2⟩
    · cases c with
      | nil => rw [List.append_nil] at h1; rw [← h1]; simp
      | cons w c =>
        exfalso
        simp only [List.cons_append, List.cons.injEq] at h2
        rw [h1, ← h2.1] at hn2
        simp [List.nodup_append] at hn2
    · rw [h1]; simp
  · intro hy
    obtain ⟨A1, A2, rfl⟩ := List.append_of_mem hy
    exact ⟨A1, A2 ++ x :: B, by simp, by simp⟩

theorem Before.mem {α : Type} {L : List α} {y z : α} (h : Before L y z) : y ∈ L ∧ z ∈ L := by
  obtain ⟨A, B, rfl, hz⟩ := h
  exact ⟨by simp, by simp [hz]⟩

theorem Before.irrefl {α : Type} {L : List α} {y : α} (hn : L.Nodup) : ¬ Before L y y := by
  rintro ⟨A, B, rfl, hz⟩
  simp [List.nodup_append, hz] at hn

theorem Before.trans {α : Type} {L : List α} {x y z : α} (hn : L.Nodup) (h1 : Before L x y)
    (h2 : Before L y z) : Before L x z := by
  obtain ⟨A, B, rfl⟩ := List.append_of_mem h1.mem.2
  rw [before_left hn] at h1
  rw [before_right hn] at h2
  obtain ⟨A1, A2, rfl⟩ := List.append_of_mem h1
  exact ⟨A1, A2 ++ y :: B, by simp, by simp [h2]⟩

/-- Insertion of `w` right after `p`. -/
theorem before_insert {α : Type} {C D : List α} {p w y z : α} (hn : (C ++ p :: w :: D).Nodup) (hy : y ≠ w)
    (hz : z ≠ w) : Before (C ++ p :: w :: D) y z ↔ Before (C ++ p :: D) y z := by
  constructor
  · intro h
    obtain ⟨A, B, e, hzB⟩ := h
    have hyL : y ∈ C ++ p :: D := by
      have : y ∈ C ++ p :: w :: D := by rw [e]; simp
      simp only [List.mem_append, List.mem_cons] at this ⊢
      tauto
    obtain ⟨A', B', e'⟩ := List.append_of_mem hyL
    have hn' : (C ++ p :: D).Nodup := hn.sublist (by simp)
    -- compare with the sublist without `w`
    rcases List.append_eq_append_iff.1 e' with ⟨c, h1, h2⟩ | ⟨c, h1, h2⟩
    · -- `y` is in `p :: D`
      cases c with
      | nil =>
        simp only [List.nil_append, List.cons.injEq] at h2
        obtain ⟨rfl, rfl⟩ := h2
        refine ⟨C, D, rfl, ?_⟩
        have : z ∈ w :: D := (before_right hn).1 ⟨A, B, e, hzB⟩
        simp only [List.mem_cons] at this; tauto
      | cons u c =>
        simp only [List.cons_append, List.cons.injEq] at h2
        obtain ⟨rfl, rfl⟩ := h2
        have e3 : C ++ p :: w :: (c ++ y :: B') = (C ++ p :: w :: c) ++ y :: B' := by simp
        rw [e3] at hn e
        exact ⟨C ++ p :: c, B', by simp, (before_right hn).1 ⟨A, B, e, hzB⟩⟩
    · cases c with
      | nil =>
        simp only [List.nil_append, List.cons.injEq] at h2
        obtain ⟨rfl, rfl⟩ := h2
        refine ⟨C, B', rfl, ?_⟩
        have : z ∈ w :: B' := (before_right hn).1 ⟨A, B, e, hzB⟩
        simp only [List.mem_cons] at this; tauto
      | cons u c =>
        simp only [List.cons_append, List.cons.injEq] at h2
        obtain ⟨rfl, rfl⟩ := h2
        rw [h1] at hn e ⊢
        have e3 : A' ++ y :: c ++ p :: w :: D = A' ++ y :: (c ++ p :: w :: D) := by simp
        rw [e3] at hn e
        refine ⟨A', c ++ p :: D, by simp, ?_⟩
        have := (before_right hn).1 ⟨A, B, e, hzB⟩
        simp only [List.mem_append, List.mem_cons] at this ⊢
        tauto
  · rintro ⟨A, B, e, hzB⟩
    rcases List.append_eq_append_iff.1 e with ⟨c, h1, h2⟩ | ⟨c, h1, h2⟩
    · cases c with
      | nil =>
        simp only [List.nil_append, List.cons.injEq] at h2
        obtain ⟨rfl, rfl⟩ := h2
        exact ⟨C, w :: D, rfl, by simp [hzB]⟩
      | cons u c =>
        simp only [List.cons_append, List.cons.injEq] at h2
        obtain ⟨rfl, rfl⟩ := h2
        exact ⟨C ++ p :: w :: c, B, by simp, hzB⟩
    · cases c with
      | nil =>
        simp only [List.nil_append, List.cons.injEq] at h2
        obtain ⟨rfl, rfl⟩ := h2
        exact ⟨C, w :: B, by rw [List.append_nil] at h1, by simp [hzB]⟩
      | cons u c =>
        simp only [List.cons_append, List.cons.injEq] at h2
        obtain ⟨rfl, rfl⟩ := h2
        rw [h1]
        refine ⟨A, c ++ p :: w :: D, by simp, ?_⟩
        simp only [List.mem_append, List.mem_cons] at hzB ⊢
        tauto


/-- `L` orders all cells whose elements were in the list; pointers lead forward and do not skip elements of `l`. -/
structure Ord (h : H) (m : Mem H N) (l : List N) (L : List (Cell H N)) : Prop where
  nodup : L.Nodup
  head : ∃ T, L = .head h :: T
  sub : ∀ x ∈ l, .next x ∈ L
  fwd : ∀ c ∈ L, ∀ z, m.ptr c = some z → Before L c (.next z)
  cov : ∀ c w, Before L c (.next w) → w ∈ l → ∃ z, m.ptr c = some z ∧ (z = w ∨ Before L (.next z) (.next w))

omit [DecidableEq H] [DecidableEq N] in
theorem ord_init {h : H} {m : Mem H N} {l : List N} (hp : Path m.ptr (.head h) l) (hn : l.Nodup) :
    Ord h m l (.head h :: l.map .next) := by
  have hnd : (.head h :: l.map .next : List (Cell H N)).Nodup := by
    rw [List.nodup_cons]
    exact ⟨by simp, hn.map (by intro a b e; cases e; rfl)⟩
  -- for every cell of the list, the rest of the path
  have key : ∀ (c : Cell H N) (k : List N), Path m.ptr c k → ∀ A B, c :: k.map .next = A ++ B → B ≠ [] →
      ∃ c' k', B = c' :: k'.map .next ∧ Path m.ptr c' k' := by
    intro c k hk A
    induction A generalizing c k with
    | nil => intro B e _; exact ⟨c, k, by simpa using e.symm, hk⟩
    | cons a A ih =>
      intro B e hB
      simp only [List.cons_append, List.cons.injEq] at e
      cases k with
      | nil => simp only [List.map_nil] at e; have := e.2; simp at this; exact absurd this.2 hB
      | cons y k => exact ih (.next y) k hk.2 B (by simpa using e.2) hB
  refine ⟨hnd, ⟨_, rfl⟩, ?_, ?_, ?_⟩
  · intro x hx; simp [hx]
  · intro c hc z hz
    obtain ⟨A, B, e⟩ := List.append_of_mem hc
    obtain ⟨c', k', e1, hk⟩ := key _ _ hp A (c :: B) e (by simp)
    simp only [List.cons.injEq] at e1
    obtain ⟨rfl, rfl⟩ := e1
    refine ⟨A, _, e, ?_⟩
    cases k' with
    | nil => have hk : m.ptr c = none := hk; rw [hk] at hz; cases hz
    | cons y k => rw [hk.1] at hz; cases hz; simp
  · rintro c w ⟨A, B, e, hw⟩ -
    obtain ⟨c', k', e1, hk⟩ := key _ _ hp A (c :: B) e (by simp)
    simp only [List.cons.injEq] at e1
    obtain ⟨rfl, rfl⟩ := e1
    cases k' with
    | nil => simp at hw
    | cons y k =>
      refine ⟨y, hk.1, ?_⟩
      simp only [List.map_cons, List.mem_cons, Cell.next.injEq] at hw
      rcases hw with rfl | hw
      · exact Or.inl rfl
      · exact Or.inr ⟨A ++ [c], k.map .next, by rw [e]; simp, hw⟩

omit [DecidableEq H] [DecidableEq N] in
theorem Ord.head_mem {h : H} {m : Mem H N} {l : List N} {L : List (Cell H N)} (o : Ord h m l L) : .head h ∈ L := by
  obtain ⟨T, e⟩ := o.head; rw [e]; simp

omit [DecidableEq H] [DecidableEq N] in
theorem Ord.head_first {h : H} {m : Mem H N} {l : List N} {L : List (Cell H N)} (o : Ord h m l L) {c : Cell H N} :
    ¬ Before L c (.head h) := by
  rintro ⟨A, B, e, hB⟩
  obtain ⟨T, e1⟩ := o.head
  have hn := o.nodup
  rw [e1, List.nodup_cons] at hn
  apply hn.1
  rw [e1] at e
  cases A with
  | nil => simp only [List.nil_append, List.cons.injEq] at e; rw [e.2]; exact hB
  | cons a A => simp only [List.cons_append, List.cons.injEq] at e; rw [e.2]; simp [hB]

omit [DecidableEq H] [DecidableEq N] in
theorem Ord.endC_mem {h : H} {m : Mem H N} {l : List N} {L : List (Cell H N)} (o : Ord h m l L) {a b : List N}
    (hl : l = a ++ b) : endC (.head h) a ∈ L := by
  rcases endC_cases (.head h) a with ⟨-, e⟩ | ⟨a', y, ha, e⟩ <;> rw [e]
  · exact o.head_mem
  · exact o.sub y (by rw [hl, ha]; simp)

/-- One statement of the writer. -/
theorem Ord.eff {h : H} {m m' : Mem H N} {l l' : List N} {L : List (Cell H N)} {e : Option N} (o : Ord h m l L)
    (hp : Path m.ptr (.head h) l) (hn : l.Nodup) (hf : ∀ x, e = some x → x ∉ l → .next x ∉ L)
    (he : Eff h e m l m' l') :
    ∃ L', Ord h m' l' L' ∧ (∀ x, .next x ∈ L' ↔ (.next x ∈ L ∨ x ∈ l')) ∧
      ∀ y z, Before L y z → Before L' y z := by
  cases he with
  | nop h1 =>
    refine ⟨L, ⟨o.nodup, o.head, o.sub, ?_, ?_⟩, fun x => ⟨Or.inl, fun hx => hx.elim id (o.sub x)⟩,
      fun _ _ h => h⟩
    · rw [h1]; exact o.fwd
    · rw [h1]; exact o.cov
  | @priv x v h1 h2 h3 =>
    have hx := hf x h1 h2
    refine ⟨L, ⟨o.nodup, o.head, o.sub, ?_, ?_⟩, fun x => ⟨Or.inl, fun hx => hx.elim id (o.sub x)⟩,
      fun _ _ h => h⟩
    · intro c hc z hz
      rw [h3, upd_ne _ _ (by rintro rfl; exact hx hc)] at hz
      exact o.fwd c hc z hz
    · intro c w hb hw
      rw [h3, upd_ne _ _ (by rintro rfl; exact hx hb.mem.1)]
      exact o.cov c w hb hw
  | @ins x a b h1 h2 h3 h4 h5 =>
    have hx := hf x h1 h3
    obtain ⟨C, D, hL⟩ := List.append_of_mem (o.endC_mem h2)
    generalize hp' : endC (.head h) a = p at *
    subst hL
    have hxp : (.next x : Cell H N) ≠ p := by rintro rfl; exact hx (by simp)
    have hnd : (C ++ p :: .next x :: D).Nodup := by
      have e1 : C ++ p :: .next x :: D = (C ++ [p]) ++ .next x :: D := by simp
      rw [e1, List.nodup_middle, List.nodup_cons]
      exact ⟨by simpa using hx, by simpa using o.nodup⟩
    have hmem : ∀ c, c ∈ C ++ p :: .next x :: D ↔ c ∈ C ++ p :: D ∨ c = .next x := by
      intro c; simp only [List.mem_append, List.mem_cons]; tauto
    have bef : ∀ y z, y ≠ .next x → z ≠ .next x →
        (Before (C ++ p :: .next x :: D) y z ↔ Before (C ++ p :: D) y z) :=
      fun y z hy hz => before_insert hnd hy hz
    have ne_of : ∀ {y : Cell H N}, y ∈ C ++ p :: D → y ≠ .next x := by rintro y hy rfl; exact hx hy
    have hpx : Before (C ++ p :: .next x :: D) p (.next x) := ⟨C, .next x :: D, rfl, by simp⟩
    have hto : ∀ c, Before (C ++ p :: .next x :: D) c (.next x) → c = p ∨ Before (C ++ p :: D) c p := by
      intro c hc
      have e1 : C ++ p :: .next x :: D = (C ++ [p]) ++ .next x :: D := by simp
      rw [e1] at hc hnd
      have := (before_left hnd).1 hc
      simp only [List.mem_append, List.mem_singleton] at this
      rcases this with hc | hc
      · exact Or.inr ((before_left o.nodup).2 hc)
      · exact Or.inl hc
    have hfrom : ∀ c, Before (C ++ p :: .next x :: D) (.next x) c ↔ Before (C ++ p :: D) p c := by
      intro c
      have e1 : C ++ p :: .next x :: D = (C ++ [p]) ++ .next x :: D := by simp
      rw [before_right o.nodup]
      rw [e1] at hnd ⊢
      exact before_right hnd
    have hpv : m'.ptr p = some x := by rw [h5, upd_same]
    have hxv : m'.ptr (.next x) = m.ptr p := by rw [h5, upd_ne _ _ hxp, h4]
    have hov : ∀ c, c ≠ p → m'.ptr c = m.ptr c := fun c hc => by rw [h5, upd_ne _ _ hc]
    refine ⟨C ++ p :: .next x :: D, ⟨hnd, ?_, ?_, ?_, ?_⟩, ?_, fun y z hb => ?_⟩
    · obtain ⟨T, e⟩ := o.head
      cases C with
      | nil => simp only [List.nil_append, List.cons.injEq] at e; exact ⟨_, by rw [List.nil_append, e.1]⟩
      | cons a C => simp only [List.cons_append, List.cons.injEq] at e; exact ⟨_, by rw [List.cons_append, e.1]⟩
    · intro y hy
      rw [hmem]
      simp only [List.mem_append, List.mem_cons] at hy
      by_cases e : y = x
      · exact Or.inr (by rw [e])
      · exact Or.inl (o.sub y (by rw [h2]; simp only [List.mem_append]; tauto))
    · intro c hc z hz
      by_cases e : c = p
      · subst e; rw [hpv] at hz; cases hz; exact hpx
      · by_cases e' : c = .next x
        · subst e'
          rw [hxv] at hz
          exact (hfrom _).2 (o.fwd p (by simp) z hz)
        · rw [hov c e] at hz
          have := o.fwd c (((hmem c).1 hc).resolve_right e') z hz
          exact (bef _ _ e' (ne_of this.mem.2)).2 this
    · intro c w hb hw
      by_cases e : c = p
      · subst e
        refine ⟨x, hpv, ?_⟩
        by_cases ew : x = w
        · exact Or.inl ew
        · right
          have ew' : (.next w : Cell H N) ≠ .next x := by simpa using Ne.symm ew
          exact (hfrom _).2 ((bef _ _ (Ne.symm hxp) ew').1 hb)
      · by_cases ew : w = x
        · subst ew
          -- `c` comes before `p`
          have hcp := (hto c hb).resolve_left e
          rcases endC_cases (.head h) a with ⟨-, e2⟩ | ⟨a', y, ha, e2⟩
          · -- `p` is the head: nothing leads to it
            exfalso
            rw [hp'] at e2
            exact o.head_first (by rw [← e2]; exact hcp)
          · rw [hp'] at e2
            subst e2
            obtain ⟨z, hz1, hz2⟩ := o.cov c y hcp (by rw [h2, ha]; simp)
            refine ⟨z, by rw [hov c e]; exact hz1, Or.inr ?_⟩
            rcases hz2 with rfl | hz2
            · exact hpx
            · exact Before.trans hnd ((bef _ _ (ne_of hz2.mem.1) (ne_of hz2.mem.2)).2 hz2) hpx
        · have ew' : (.next w : Cell H N) ≠ .next x := by simpa using ew
          have hwl : w ∈ l := by
            rw [h2]; simp only [List.mem_append, List.mem_cons] at hw ⊢; tauto
          by_cases e' : c = .next x
          · subst e'
            obtain ⟨z, hz1, hz2⟩ := o.cov p w ((hfrom _).1 hb) hwl
            refine ⟨z, by rw [hxv]; exact hz1, hz2.imp id fun hz2 => ?_⟩
            exact (bef _ _ (ne_of hz2.mem.1) ew').2 hz2
          · obtain ⟨z, hz1, hz2⟩ := o.cov c w ((bef _ _ e' ew').1 hb) hwl
            refine ⟨z, by rw [hov c e]; exact hz1, hz2.imp id fun hz2 => ?_⟩
            exact (bef _ _ (ne_of hz2.mem.1) ew').2 hz2
    · intro y
      rw [hmem]
      simp only [List.mem_append, List.mem_cons, Cell.next.injEq]
      constructor
      · rintro (hy | rfl)
        · exact Or.inl hy
        · exact Or.inr (Or.inr (Or.inl rfl))
      · rintro (hy | hy | rfl | hy)
        · exact Or.inl hy
        · left; have := o.sub y (by rw [h2]; simp [hy]); simpa using this
        · exact Or.inr rfl
        · left; have := o.sub y (by rw [h2]; simp [hy]); simpa using this
    · exact (bef y z (ne_of hb.mem.1) (ne_of hb.mem.2)).2 hb
  | @del x a b h1 h2 h3 =>
    subst h2
    have hpp : m.ptr (endC (.head h) a) = some x := ptr_end hp
    have hpm := o.endC_mem rfl
    generalize hp' : endC (.head h) a = p at *
    have hx : x ∉ a ++ b := by
      rw [List.nodup_middle, List.nodup_cons] at hn; exact hn.1
    have hsub : ∀ y, y ∈ a ++ b → y ∈ a ++ x :: b := by
      intro y; simp only [List.mem_append, List.mem_cons]; tauto
    have hpv : m'.ptr p = m.ptr (.next x) := by rw [h3, upd_same]
    have hov : ∀ c, c ≠ p → m'.ptr c = m.ptr c := fun c hc => by rw [h3, upd_ne _ _ hc]
    have hpx := o.fwd p hpm x hpp
    refine ⟨L, ⟨o.nodup, o.head, fun y hy => o.sub y (hsub y hy), ?_, ?_⟩,
      fun y => ⟨Or.inl, fun hy => hy.elim id fun hy => o.sub y (hsub y hy)⟩, fun _ _ h => h⟩
    · intro c hc z hz
      by_cases e : c = p
      · subst e
        rw [hpv] at hz
        exact Before.trans o.nodup hpx (o.fwd _ hpx.mem.2 z hz)
      · rw [hov c e] at hz; exact o.fwd c hc z hz
    · intro c w hb hw
      by_cases e : c = p
      · subst e
        obtain ⟨z, hz1, hz2⟩ := o.cov c w hb (hsub w hw)
        rw [hpp] at hz1
        cases hz1
        rw [hpv]
        exact o.cov _ w (hz2.resolve_left (by rintro rfl; exact hx hw)) (hsub w hw)
      · rw [hov c e]; exact o.cov c w hb (hsub w hw)

theorem Eff.path {h : H} {m m' : Mem H N} {l l' : List N} {e : Option N} (hp : Path m.ptr (.head h) l)
    (hn : l.Nodup) (he : Eff h e m l m' l') : Path m'.ptr (.head h) l' ∧ l'.Nodup := by
  cases he with
  | nop h1 => rw [h1]; exact ⟨hp, hn⟩
  | @priv x v h1 h2 h3 => rw [h3]; exact ⟨(path_private h2).2 hp, hn⟩
  | @ins x a b h1 h2 h3 h4 h5 =>
    subst h2
    refine ⟨?_, nodup_insert hn h3⟩
    rw [h5]
    exact path_insert hp hn h3 (by rw [← h4]; exact (upd_eq_self _ _).symm)
  | @del x a b h1 h2 h3 =>
    subst h2
    rw [h3]
    refine ⟨path_remove hp hn, ?_⟩
    rw [List.nodup_middle, List.nodup_cons] at hn; exact hn.2

omit [DecidableEq H] [DecidableEq N] in
theorem inList_iff {h : H} {m : Mem H N} {l : List N} (hp : Path m.ptr (.head h) l) (x : N) :
    InList h m x ↔ x ∈ l := by
  constructor
  · rintro ⟨l', hp', hx⟩; rwa [path_unique hp hp']
  · intro hx; exact ⟨l, hp, hx⟩

/-- What holds of a traversal in progress. -/
def RI (h : H) (m : Mem H N) (l : List N) (r : Rd N) : Prop :=
  ∀ v, r.pos = some v → ∃ L, Ord h m l L ∧ (∀ x, r.ever x ↔ .next x ∈ L) ∧ r.vis.Nodup ∧
    (∀ x ∈ r.vis, .next x ∈ L) ∧ (∀ w, r.always w → w ∈ l) ∧
    (∀ x, v = some x → x ∈ r.vis ∧ (∀ y ∈ r.vis, y = x ∨ Before L (.next y) (.next x)) ∧
      ∀ w, r.always w → w ∈ r.vis ∨ Before L (.next x) (.next w)) ∧
    (v = none → ∀ w, r.always w → w ∈ r.vis)

structure Inv (h : H) (F : Flavor H N) (s : St H N n) (e : Option N) (l lf : List N) : Prop where
  path : Path s.mem.ptr (.head h) l
  nodup : l.Nodup
  effs : Effs h e s.pend s.mem l lf
  fin : ∀ m', exec s.pend s.mem = some m' → F.rep m' lf
  fresh : ∀ x, e = some x → x ∉ l → ∀ r, (s.rd r).pos ≠ none → ¬ (s.rd r).ever x
  rd : ∀ r, RI h s.mem l (s.rd r)

theorem RI.eff {h : H} {m m' : Mem H N} {l l' : List N} {e : Option N} {r : Rd N} (hr : RI h m l r)
    (hp : Path m.ptr (.head h) l) (hn : l.Nodup) (hf : ∀ x, e = some x → x ∉ l → r.pos ≠ none → ¬ r.ever x)
    (he : Eff h e m l m' l') : RI h m' l' (r.see h m') := by
  intro v hv
  obtain ⟨L, o, h1, h2, h3, h4, h5, h6⟩ := hr v hv
  have hv' : r.pos ≠ none := by
    have hv : r.pos = some v := hv
    rw [hv]; simp
  obtain ⟨L', o', hm, hb⟩ := o.eff hp hn (fun x e1 e2 e3 => hf x e1 e2 hv' ((h1 x).2 e3)) he
  have hp' := (he.path hp hn).1
  refine ⟨L', o', ?_, h2, ?_, ?_, ?_, ?_⟩
  · intro x
    simp only [Rd.see]
    rw [hm, h1, inList_iff hp']
  · intro x hx; exact (hm x).2 (Or.inl (h3 x hx))
  · intro w hw; exact (inList_iff hp' w).1 hw.2
  · intro x hx
    obtain ⟨k1, k2, k3⟩ := h5 x hx
    refine ⟨k1, fun y hy => (k2 y hy).imp id (hb _ _), fun w hw => (k3 w hw.1).imp id (hb _ _)⟩
  · intro e1 w hw; exact h6 e1 w hw.1

omit [DecidableEq H] [DecidableEq N] in
theorem RI.start {h : H} {m : Mem H N} {l : List N} (hp : Path m.ptr (.head h) l) (hn : l.Nodup) :
    RI h m l { pos := some (m.ptr (.head h)), vis := (m.ptr (.head h)).toList, ever := InList h m,
               always := InList h m } := by
  intro v hv
  simp only [Option.some.injEq] at hv
  subst hv
  have o := ord_init hp hn
  refine ⟨_, o, ?_, ?_, ?_, ?_, ?_, ?_⟩
  · intro x
    simp only [inList_iff hp, List.mem_cons, List.mem_map, Cell.next.injEq, exists_eq_right, reduceCtorEq,
      false_or]
  · cases m.ptr (.head h) <;> simp
  · intro x hx
    simp only [Option.mem_toList] at hx
    exact (o.fwd _ o.head_mem x hx).mem.2
  · intro w hw; exact (inList_iff hp w).1 hw
  · intro x hx
    refine ⟨by simp [hx], ?_, ?_⟩
    · intro y hy; simp only [hx, Option.toList_some, List.mem_singleton] at hy; exact Or.inl hy
    · intro w hw
      have hw' := (inList_iff hp w).1 hw
      have hb : Before (.head h :: l.map .next) (.head h) (.next w : Cell H N) :=
        ⟨[], l.map .next, rfl, by simp [hw']⟩
      obtain ⟨z, hz1, hz2⟩ := o.cov _ w hb hw'
      rw [hx] at hz1
      cases hz1
      rcases hz2 with rfl | hz2
      · left; simp [hx]
      · exact Or.inr hz2
  · intro e w hw
    have hw' := (inList_iff hp w).1 hw
    have hb : Before (.head h :: l.map .next) (.head h) (.next w : Cell H N) :=
      ⟨[], l.map .next, rfl, by simp [hw']⟩
    obtain ⟨z, hz1, -⟩ := o.cov _ w hb hw'
    rw [e] at hz1; cases hz1

omit [DecidableEq H] [DecidableEq N] in
theorem RI.next {h : H} {m : Mem H N} {l : List N} {r : Rd N} {x : N} (hr : RI h m l r)
    (hx : r.pos = some (some x)) :
    RI h m l { r with pos := some (m.ptr (.next x)), vis := r.vis ++ (m.ptr (.next x)).toList } := by
  intro v hv
  simp only [Option.some.injEq] at hv
  subst hv
  obtain ⟨L, o, h1, h2, h3, h4, h5, -⟩ := hr _ hx
  obtain ⟨k1, k2, k3⟩ := h5 x rfl
  have hxL := h3 x k1
  have hafter : ∀ z, m.ptr (.next x) = some z → ∀ y ∈ r.vis, Before L (.next y) (.next z) := by
    intro z hz y hy
    have := o.fwd _ hxL z hz
    rcases k2 y hy with rfl | k
    · exact this
    · exact Before.trans o.nodup k this
  have hnew : ∀ z, m.ptr (.next x) = some z → z ∉ r.vis :=
    fun z hz hm => Before.irrefl o.nodup (hafter z hz z hm)
  refine ⟨L, o, h1, ?_, ?_, h4, ?_, ?_⟩
  · show (r.vis ++ (m.ptr (.next x)).toList).Nodup
    cases hz : m.ptr (.next x) with
    | none => simpa using h2
    | some z =>
      rw [List.nodup_append]
      refine ⟨h2, by simp, ?_⟩
      intro a ha b hb e
      simp only [Option.toList_some, List.mem_singleton] at hb
      exact hnew z hz (by rw [← hb, ← e]; exact ha)
  · intro y hy
    simp only [List.mem_append, Option.mem_toList] at hy
    rcases hy with hy | hy
    · exact h3 y hy
    · exact (o.fwd _ hxL y hy).mem.2
  · intro z hz
    refine ⟨by simp [hz], ?_, ?_⟩
    · intro y hy
      simp only [List.mem_append, Option.mem_toList] at hy
      rcases hy with hy | hy
      · exact Or.inr (hafter z hz y hy)
      · rw [hz] at hy; cases hy; exact Or.inl rfl
    · intro w hw
      rcases k3 w hw with k | k
      · left; simp [k]
      · obtain ⟨z', hz1, hz2⟩ := o.cov _ w k (h4 w hw)
        rw [hz] at hz1
        cases hz1
        rcases hz2 with rfl | hz2
        · left; simp [hz]
        · exact Or.inr hz2
  · intro e w hw
    rcases k3 w hw with k | k
    · simp [k]
    · obtain ⟨z', hz1, -⟩ := o.cov _ w k (h4 w hw)
      rw [e] at hz1; cases hz1

theorem inv_step {h : H} {F : Flavor H N} (hF : Sound h F) {s s' : St H N n} {a : Act F n} {e : Option N}
    {l lf : List N} (hi : Inv h F s e l lf) (hst : step h F s a = some s') : ∃ e l lf, Inv h F s' e l lf := by
  cases a with
  | begin o =>
    simp only [step] at hst
    split at hst
    case h_2 => cases hst
    next hpend =>
      split at hst
      case isFalse => cases hst
      next hok =>
        simp only [Option.map_eq_some_iff] at hst
        obtain ⟨fs, hfs, rfl⟩ := hst
        have hrep : F.rep s.mem l := by
          have := hi.effs
          rw [hpend] at this
          have e1 : l = lf := this
          rw [e1]
          exact hi.fin _ (by rw [hpend]; rfl)
        have hfr : ∀ x, F.elem o = some x → x ∉ l :=
          fun x hx hm => (hok.2 x hx).1 ((inList_iff hi.path x).2 hm)
        obtain ⟨l', he, hfin⟩ := hF.op o s.mem l fs hrep hok.1 hfr hfs
        exact ⟨F.elem o, l, l', hi.path, hi.nodup, he, hfin, fun x hx _ => (hok.2 x hx).2, hi.rd⟩
  | exec =>
    simp only [step] at hst
    split at hst
    case h_1 => cases hst
    next f fs hpend =>
      simp only [Option.map_eq_some_iff] at hst
      obtain ⟨m, hm, rfl⟩ := hst
      have he := hi.effs
      rw [hpend] at he
      obtain ⟨m1, l1, hm1, e1, e2⟩ := he
      rw [hm] at hm1
      cases hm1
      obtain ⟨hp', hn'⟩ := e1.path hi.path hi.nodup
      refine ⟨e, l1, lf, hp', hn', e2, ?_, ?_, ?_⟩
      · intro m' hm'
        refine hi.fin m' ?_
        rw [hpend]
        simp only [exec, hm, Option.bind_some]
        exact hm'
      · intro x hx hxl r hr
        have hxl0 : x ∉ l := by
          intro hxl0
          cases e1 with
          | nop => exact hxl hxl0
          | priv => exact hxl hxl0
          | @ins x' a b h1 h2 h3 =>
            apply hxl; rw [h2] at hxl0; simp only [List.mem_append, List.mem_cons] at hxl0 ⊢; tauto
          | del h1 => rw [h1] at hx; cases hx
        rintro (hev | hin)
        · exact hi.fresh x hx hxl0 r hr hev
        · exact hxl ((inList_iff hp' x).1 hin)
      · intro r
        exact (hi.rd r).eff hi.path hi.nodup (fun x h1 h2 h3 => hi.fresh x h1 h2 r h3) e1
  | start r =>
    simp only [step, Option.some.injEq] at hst
    subst hst
    refine ⟨e, l, lf, hi.path, hi.nodup, hi.effs, hi.fin, ?_, ?_⟩
    · intro x hx hxl r' hr'
      simp only [upd_apply] at hr' ⊢
      split
      · intro hin; exact hxl ((inList_iff hi.path x).1 hin)
      · next hne => rw [if_neg hne] at hr'; exact hi.fresh x hx hxl r' hr'
    · intro r'
      simp only [upd_apply]
      split
      · exact RI.start hi.path hi.nodup
      · exact hi.rd r'
  | next r =>
    simp only [step] at hst
    split at hst
    case h_2 => cases hst
    next x hpos =>
      simp only [Option.some.injEq] at hst
      subst hst
      refine ⟨e, l, lf, hi.path, hi.nodup, hi.effs, hi.fin, ?_, ?_⟩
      · intro y hy hyl r' hr'
        simp only [upd_apply]
        split
        · next hrr => subst hrr; exact hi.fresh y hy hyl r' (by rw [hpos]; simp)
        · next hne =>
          simp only [upd_apply, if_neg hne] at hr'
          exact hi.fresh y hy hyl r' hr'
      · intro r'
        simp only [upd_apply]
        split
        · next hrr => subst hrr; exact (hi.rd r').next hpos
        · exact hi.rd r'

theorem inv_reach {h : H} {F : Flavor H N} (hF : Sound h F) {s : St H N n} (hs : (sys h F n).Reach s) :
    ∃ e l lf, Inv h F s e l lf := by
  refine hs.invariant (I := fun s => ∃ e l lf, Inv h F s e l lf) ?_ ?_
  · rintro s ⟨h1, ⟨l, h2⟩, h3⟩
    refine ⟨none, l, l, (hF.path _ _ h2).1, (hF.path _ _ h2).2, ?_, ?_, by simp, ?_⟩
    · rw [h1]; rfl
    · intro m' hm'; rw [h1] at hm'; cases hm'; exact h2
    · intro r v hv; rw [h3 r] at hv; cases hv
  · rintro s a s' ⟨e, l, lf, hi⟩ hst
    exact inv_step hF hi hst

/-- A traversal visits only elements that were in the list at some time during it, none of them twice, and when it
ends, all elements that were in the list all the time have been visited. -/
def TraversalOk (s : St H N n) : Prop :=
  ∀ r, (s.rd r).pos ≠ none → (∀ x ∈ (s.rd r).vis, (s.rd r).ever x) ∧ (s.rd r).vis.Nodup ∧
    ((s.rd r).pos = some none → ∀ x, (s.rd r).always x → x ∈ (s.rd r).vis)

/-- Every step of the writer is executed without dereferencing null; between operations the list is well-formed,
and it can be read at any time: from the head, following pointers, one arrives at the end. -/
def WriterOk (h : H) (F : Flavor H N) (s : St H N n) : Prop :=
  (∀ f fs, s.pend = f :: fs → ∃ m, f s.mem = some m) ∧ (s.pend = [] → ∃ l, F.rep s.mem l) ∧
  ∃ l, Path s.mem.ptr (.head h) l ∧ l.Nodup

theorem traversal {h : H} {F : Flavor H N} (hF : Sound h F) {s : St H N n} (hs : (sys h F n).Reach s) :
    TraversalOk s ∧ WriterOk h F s := by
  obtain ⟨e, l, lf, hi⟩ := inv_reach hF hs
  refine ⟨?_, ?_, ?_, l, hi.path, hi.nodup⟩
  · intro r hr
    obtain ⟨v, hv⟩ := Option.ne_none_iff_exists'.1 hr
    obtain ⟨L, -, h1, h2, h3, -, -, h6⟩ := hi.rd r v hv
    refine ⟨fun x hx => (h1 x).2 (h3 x hx), h2, fun e1 => h6 ?_⟩
    rw [hv] at e1; simpa using e1
  · intro f fs hp
    have := hi.effs
    rw [hp] at this
    obtain ⟨m1, -, hm, -⟩ := this
    exact ⟨m1, hm⟩
  · intro hp
    exact ⟨lf, hi.fin _ (by rw [hp]; rfl)⟩

end Verif.Queue
