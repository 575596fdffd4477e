import Verif.Array.Thm

/-!
# Readers of `ck_array` concurrent with the writer (C51)

The writer runs operations statement by statement.  A reader calls `ck_array_buffer` (one load per step) and then
reads the values one by one, or runs `CK_ARRAY_FOREACH`.
-/

namespace Verif.Array

open Verif

variable {V : Type} [DecidableEq V] {n : Nat}

/-- Program counter of a reader. -/
inductive Pc (V : Type)
  | idle
  /-- `ck_array_buffer`, 75-83: `a` loaded -/
  | gotA (a : Nat)
  /-- length loaded, `acc` read so far -/
  | rd (a len : Nat) (acc : List V)
  /-- `CK_ARRAY_FOREACH`, 92-98: about to load `(a)->active` for the comparison -/
  | feA (acc : List V)
  | feN (a : Nat) (acc : List V)
  /-- about to load `(a)->active` for the value -/
  | feB (acc : List V)
  | feV (a : Nat) (acc : List V)
  /-- the whole array was read -/
  | done (fe : Bool) (acc : List V)

structure Rd (V : Type) where
  pc : Pc V
  /-- ghost: what `pub` was at some time since the start -/
  seen : List V → Prop
  /-- ghost: `active` was changed since the start -/
  chg : Bool

structure St (V : Type) (n : Nat) where
  m : Mem V
  pend : List (Stmt V)
  /-- ghost: the operation is a commit, of this -/
  com : Option (List V)
  rd : Fin n → Rd V

inductive Act (V : Type) (n : Nat)
  | begin (o : Op V) (alloc : Alloc V)
  | exec
  | start (r : Fin n) (fe : Bool)
  | next (r : Fin n)

/-- A step of a reader; `none`: outside the buffer. -/
def rstep (m : Mem V) : Pc V → Option (Pc V)
  | .idle => none
  | .gotA a => some (if (m.heap a).ncomm = 0 then .done false [] else .rd a (m.heap a).ncomm [])
  | .rd a l acc =>
    if acc.length < (m.heap a).len then
      let acc' := acc ++ [(m.heap a).val acc.length]
      some (if acc'.length = l then .done false acc' else .rd a l acc')
    else none
  | .feA acc => some (.feN m.active acc)
  | .feN a acc => some (if acc.length < (m.heap a).ncomm then .feB acc else .done true acc)
  | .feB acc => some (.feV m.active acc)
  | .feV a acc =>
    if acc.length < (m.heap a).len then some (.feA (acc ++ [(m.heap a).val acc.length])) else none
  | .done _ _ => none

/-- What a store does to the ghosts. -/
def Rd.see (m m' : Mem V) (r : Rd V) : Rd V :=
  { r with seen := fun l => r.seen l ∨ l = pub m', chg := r.chg || decide (m'.active ≠ m.active) }

def step (s : St V n) : Act V n → Option (St V n)
  | .begin o alloc => match s.pend with
    | [] => if Ok o s.m then
        some { s with pend := prog o alloc s.m, com := match o with | .commit => some (view s.m) | _ => none }
      else none
    | _ => none
  | .exec => match s.pend with
    | [] => none
    | f :: fs => (f s.m).map fun m => { s with m := m, pend := fs, rd := fun r => (s.rd r).see s.m m }
  | .start r fe =>
    some { s with rd := upd s.rd r { pc := if fe then .feA [] else .gotA s.m.active, seen := fun l => l = pub s.m,
                                     chg := false } }
  | .next r => (rstep s.m (s.rd r).pc).map fun pc => { s with rd := upd s.rd r { s.rd r with pc := pc } }

def sys (V : Type) [DecidableEq V] (n : Nat) : Sys (St V n) (Act V n) :=
  { init := fun s => (∃ l alloc, init l alloc = some s.m) ∧ s.pend = [] ∧ s.com = none ∧ ∀ r, (s.rd r).pc = .idle
    step := step }

/-! ## Invariant -/

/-- A buffer a reader holds: active or given up. -/
def Held (m : Mem V) (a : Nat) : Prop := a = m.active ∨ m.freed a = true

/-- Committed part of a buffer. -/
def pubOf (b : Buf V) : List V := (List.range b.ncomm).map b.val

/-- The values `acc` are the first of what the buffer holds. -/
def Pre (b : Buf V) (acc : List V) : Prop := acc = (List.range acc.length).map b.val

def RI (m : Mem V) (r : Rd V) : Prop :=
  match r.pc with
  | .idle => True
  | .gotA a => r.seen (pub m) ∧ Held m a ∧ r.seen (pubOf (m.heap a)) ∧ (m.heap a).ncomm ≤ (m.heap a).len
  | .rd a l acc => r.seen (pub m) ∧ Held m a ∧ (m.heap a).ncomm ≤ (m.heap a).len ∧ l ≤ (m.heap a).ncomm ∧
      acc.length < l ∧ r.seen ((List.range l).map (m.heap a).val) ∧ Pre (m.heap a) acc
  | .feA acc | .feB acc => r.chg = false → r.seen (pub m) ∧ acc.length ≤ (m.heap m.active).ncomm ∧
      Pre (m.heap m.active) acc ∧ (r.pc = .feB acc → acc.length < (m.heap m.active).ncomm)
  | .feN a acc => r.chg = false → r.seen (pub m) ∧ a = m.active ∧ acc.length ≤ (m.heap m.active).ncomm ∧
      Pre (m.heap m.active) acc
  | .feV a acc => r.chg = false → r.seen (pub m) ∧ a = m.active ∧ acc.length < (m.heap m.active).ncomm ∧
      Pre (m.heap m.active) acc
  | .done fe acc => (fe = true → r.chg = false) → r.seen acc

omit [DecidableEq V] in
theorem Pre.congr {b b' : Buf V} {acc : List V} (h : Pre b acc) (hv : ∀ i, i < acc.length → b'.val i = b.val i) :
    Pre b' acc := by
  unfold Pre at h ⊢
  rw [h]
  simp only [List.length_map, List.length_range]
  apply List.map_congr_left
  intro j hj
  exact (hv j (List.mem_range.1 hj)).symm

omit [DecidableEq V] in
theorem Pre.snoc {b : Buf V} {acc : List V} (h : Pre b acc) : Pre b (acc ++ [b.val acc.length]) := by
  unfold Pre at h ⊢
  rw [List.length_append, List.length_singleton, List.range_succ, List.map_append, ← h]; rfl

omit [DecidableEq V] in
theorem pre_nil (b : Buf V) : Pre b [] := rfl

/-- A held buffer through a statement of the writer. -/
theorem held_eff {m m' : Mem V} (he : Eff m m') {a : Nat} (h : Held m a) :
    Held m' a ∧ (m.heap a).ncomm ≤ (m'.heap a).ncomm ∧ (m'.heap a).len = (m.heap a).len ∧
    (∀ i, i < (m.heap a).ncomm → (m'.heap a).val i = (m.heap a).val i) ∧
    (pubOf (m'.heap a) = pubOf (m.heap a) ∨ pubOf (m'.heap a) = pub m') ∧
    ((m.heap a).ncomm ≤ (m.heap a).len → (m'.heap a).ncomm ≤ (m'.heap a).len) := by
  have hf : ∀ b, m.freed b = true → Held m' b ∧ (m.heap b).ncomm ≤ (m'.heap b).ncomm ∧
      (m'.heap b).len = (m.heap b).len ∧ (∀ i, i < (m.heap b).ncomm → (m'.heap b).val i = (m.heap b).val i) ∧
      (pubOf (m'.heap b) = pubOf (m.heap b) ∨ pubOf (m'.heap b) = pub m') ∧
      ((m.heap b).ncomm ≤ (m.heap b).len → (m'.heap b).ncomm ≤ (m'.heap b).len) := by
    intro b hb
    obtain ⟨h1, h2⟩ := he.freed b hb
    rw [h1]
    exact ⟨Or.inr h2, Nat.le_refl _, rfl, fun _ _ => rfl, Or.inl rfl, id⟩
  rcases h with rfl | h
  · rcases he.act with ⟨h1, h2, h3, h4⟩ | ⟨h1, h2, h3⟩
    · refine ⟨Or.inl h1.symm, h3, h2, h4, Or.inr ?_, fun _ => ?_⟩
      · unfold pub; rw [h1]; rfl
      · have := he.comm; rwa [h1] at this
    · rw [h3]
      exact ⟨Or.inr h2, Nat.le_refl _, rfl, fun _ _ => rfl, Or.inl rfl, id⟩
  · exact hf a h

theorem RI.eff {m m' : Mem V} (he : Eff m m') {r : Rd V} (h : RI m r) : RI m' (r.see m m') := by
  -- for `FOREACH`: as long as `active` is the same
  have hsame : ((r.see m m').chg = false) → r.chg = false ∧ m'.active = m.active := by
    intro h
    simp only [Rd.see, Bool.or_eq_false_iff, decide_eq_false_iff_not, Decidable.not_not] at h
    exact h
  have hact : m'.active = m.active → (m.heap m.active).ncomm ≤ (m'.heap m.active).ncomm ∧
      ∀ i, i < (m.heap m.active).ncomm → (m'.heap m.active).val i = (m.heap m.active).val i := by
    intro e
    rcases he.act with ⟨-, -, h3, h4⟩ | ⟨h1, -⟩
    · exact ⟨h3, h4⟩
    · exact absurd e h1
  unfold RI at h ⊢
  have hpc : (r.see m m').pc = r.pc := rfl
  rw [hpc]
  cases hp : r.pc with
  | idle => trivial
  | gotA a =>
    rw [hp] at h
    obtain ⟨h0, h1, h2, h3⟩ := h
    obtain ⟨k1, -, -, -, k5, k6⟩ := held_eff he h1
    refine ⟨Or.inr rfl, k1, ?_, k6 h3⟩
    rcases k5 with k5 | k5
    · left; rw [k5]; exact h2
    · right; exact k5
  | rd a l acc =>
    rw [hp] at h
    obtain ⟨h0, h1, h2, h3, h4, h5, h6⟩ := h
    obtain ⟨k1, k2, k3, k4, -, k6⟩ := held_eff he h1
    refine ⟨Or.inr rfl, k1, k6 h2, by omega, h4, Or.inl ?_, h6.congr fun i hi => k4 i (by omega)⟩
    have : (List.range l).map (m'.heap a).val = (List.range l).map (m.heap a).val := by
      apply List.map_congr_left
      intro j hj
      exact k4 j (by rw [List.mem_range] at hj; omega)
    rw [this]; exact h5
  | feA acc =>
    rw [hp] at h
    intro hc
    obtain ⟨c1, c2⟩ := hsame hc
    obtain ⟨h1, h2, h3, -⟩ := h c1
    obtain ⟨k1, k2⟩ := hact c2
    rw [c2]
    exact ⟨Or.inr rfl, by omega, h3.congr fun i hi => k2 i (by omega), by simp⟩
  | feB acc =>
    rw [hp] at h
    intro hc
    obtain ⟨c1, c2⟩ := hsame hc
    obtain ⟨h1, h2, h3, h4⟩ := h c1
    have h4 := h4 rfl
    obtain ⟨k1, k2⟩ := hact c2
    rw [c2]
    exact ⟨Or.inr rfl, by omega, h3.congr fun i hi => k2 i (by omega), fun _ => by omega⟩
  | feN a acc =>
    rw [hp] at h
    intro hc
    obtain ⟨c1, c2⟩ := hsame hc
    obtain ⟨h1, h2, h3, h4⟩ := h c1
    obtain ⟨k1, k2⟩ := hact c2
    rw [c2]
    exact ⟨Or.inr rfl, h2, by omega, h4.congr fun i hi => k2 i (by omega)⟩
  | feV a acc =>
    rw [hp] at h
    intro hc
    obtain ⟨c1, c2⟩ := hsame hc
    obtain ⟨h1, h2, h3, h4⟩ := h c1
    obtain ⟨k1, k2⟩ := hact c2
    rw [c2]
    exact ⟨Or.inr rfl, h2, by omega, h4.congr fun i hi => k2 i (by omega)⟩
  | done fe acc =>
    rw [hp] at h
    intro hc
    exact Or.inl (h fun hfe => (hsame (hc hfe)).1)

omit [DecidableEq V] in
theorem RI.next {m : Mem V} (hc : (m.heap m.active).ncomm ≤ (m.heap m.active).len) {r : Rd V} (h : RI m r)
    {pc : Pc V} (hs : rstep m r.pc = some pc) : RI m { r with pc := pc } := by
  unfold RI at h
  cases hp : r.pc with
  | idle => rw [hp] at hs; cases hs
  | gotA a =>
    rw [hp] at hs h
    obtain ⟨h0, h1, h2, h3⟩ := h
    simp only [rstep, Option.some.injEq] at hs
    subst hs
    split
    · next e =>
      intro _
      unfold pubOf at h2; rw [e] at h2; exact h2
    · next e => exact ⟨h0, h1, h3, Nat.le_refl _, by simp; omega, h2, pre_nil _⟩
  | rd a l acc =>
    rw [hp] at hs h
    obtain ⟨h0, h1, h2, h3, h4, h5, h6⟩ := h
    simp only [rstep] at hs
    rw [if_pos (by omega)] at hs
    simp only [Option.some.injEq] at hs
    subst hs
    split
    · next e =>
      intro _
      have := h6.snoc
      unfold Pre at this
      rw [e] at this
      show r.seen _
      rw [this]; exact h5
    · next e =>
      refine ⟨h0, h1, h2, h3, ?_, h5, h6.snoc⟩
      simp only [List.length_append, List.length_singleton] at e ⊢; omega
  | feA acc =>
    rw [hp] at hs h
    simp only [rstep, Option.some.injEq] at hs
    subst hs
    intro hc
    obtain ⟨h1, h2, h3, -⟩ := h hc
    exact ⟨h1, rfl, h2, h3⟩
  | feN a acc =>
    rw [hp] at hs h
    simp only [rstep, Option.some.injEq] at hs
    subst hs
    split
    · next e =>
      intro hc
      obtain ⟨h1, rfl, h3, h4⟩ := h hc
      exact ⟨h1, h3, h4, fun _ => e⟩
    · next e =>
      intro hc
      obtain ⟨h1, rfl, h3, h4⟩ := h (hc rfl)
      have e2 : acc.length = (m.heap m.active).ncomm := by omega
      have : acc = pub m := by unfold Pre at h4; rw [e2] at h4; exact h4
      show r.seen acc
      rw [this]; exact h1
  | feB acc =>
    rw [hp] at hs h
    simp only [rstep, Option.some.injEq] at hs
    subst hs
    intro hc
    obtain ⟨h1, h2, h3, h4⟩ := h hc
    exact ⟨h1, rfl, h4 rfl, h3⟩
  | feV a acc =>
    rw [hp] at hs h
    simp only [rstep] at hs
    split at hs
    · simp only [Option.some.injEq] at hs
      subst hs
      intro hc
      obtain ⟨h1, rfl, h3, h4⟩ := h hc
      exact ⟨h1, by simp; omega, h4.snoc, by simp⟩
    · cases hs
  | done fe acc => rw [hp] at hs; cases hs

structure Inv (s : St V n) : Prop where
  effs : Effs s.com s.pend s.m
  fin : ∃ m', exec s.pend s.m = some m' ∧ Wf m'
  comm : (s.m.heap s.m.active).ncomm ≤ (s.m.heap s.m.active).len
  rd : ∀ r, RI s.m (s.rd r)

theorem inv_step {s s' : St V n} {a : Act V n} (hi : Inv s) (hs : step s a = some s') : Inv s' := by
  cases a with
  | begin o alloc =>
    simp only [step] at hs
    split at hs
    · next hp =>
      split at hs
      · next hok =>
        cases hs
        obtain ⟨m', he, hw⟩ := hi.fin
        rw [hp] at he
        cases he
        obtain ⟨h1, m', h2, h3, -⟩ := op_good (alloc := alloc) hw hok
        exact ⟨h1, ⟨m', h2, h3⟩, hi.comm, hi.rd⟩
      · cases hs
    · cases hs
  | exec =>
    simp only [step] at hs
    split at hs
    · cases hs
    · next f fs hp =>
      simp only [Option.map_eq_some_iff] at hs
      obtain ⟨m, hm, rfl⟩ := hs
      have he := hi.effs
      rw [hp] at he
      obtain ⟨m1, e1, e2, -, e4⟩ := he
      rw [hm] at e1
      cases e1
      obtain ⟨m', he, hw⟩ := hi.fin
      rw [hp] at he
      simp only [Verif.Array.exec, hm, Option.bind_some] at he
      exact ⟨e4, ⟨m', he, hw⟩, e2.comm, fun r => (hi.rd r).eff e2⟩
  | start r fe =>
    simp only [step, Option.some.injEq] at hs
    subst hs
    refine ⟨hi.effs, hi.fin, hi.comm, fun r' => ?_⟩
    simp only [upd_apply]
    split
    · cases fe with
      | false => exact ⟨rfl, Or.inl rfl, rfl, hi.comm⟩
      | true => intro _; exact ⟨rfl, Nat.zero_le _, pre_nil _, by simp⟩
    · exact hi.rd r'
  | next r =>
    simp only [step, Option.map_eq_some_iff] at hs
    obtain ⟨pc, hpc, rfl⟩ := hs
    refine ⟨hi.effs, hi.fin, hi.comm, fun r' => ?_⟩
    simp only [upd_apply]
    split
    · next e => subst e; exact (hi.rd r').next hi.comm hpc
    · exact hi.rd r'

theorem inv_reach {s : St V n} (hs : (sys V n).Reach s) : Inv s := by
  refine hs.invariant (I := Inv) ?_ (fun s a s' hi h => inv_step hi h)
  rintro s ⟨⟨l, alloc, h1⟩, h2, h3, h4⟩
  obtain ⟨hw, -, -⟩ := init_wf h1
  refine ⟨by rw [h2]; trivial, ⟨s.m, by rw [h2]; rfl, hw⟩, hw.comm, fun r => ?_⟩
  unfold RI; rw [h4 r]; trivial

/-! ## C51 -/

/-- The committed contents change only by a store of a commit, to what the writer's view was when it called
`ck_array_commit`.  Missing (here and below): executions with a removal excluded by `Ok`, for which it is false
(`remove_pending_visible`), or with `2^31` values. -/
theorem visible_changes_partial {s s' : St V n} (hs : (sys V n).Reach s) {a : Act V n} (h : step s a = some s') :
    pub s'.m = pub s.m ∨ (a = .exec ∧ s.com = some (pub s'.m)) := by
  have hi := inv_reach hs
  cases a with
  | begin o alloc =>
    simp only [step] at h
    split at h
    · split at h
      · cases h; exact Or.inl rfl
      · cases h
    · cases h
  | exec =>
    simp only [step] at h
    split at h
    · cases h
    · next f fs hp =>
      simp only [Option.map_eq_some_iff] at h
      obtain ⟨m, hm, rfl⟩ := h
      have he := hi.effs
      rw [hp] at he
      obtain ⟨m1, e1, -, e3, -⟩ := he
      rw [hm] at e1
      cases e1
      exact e3.imp id fun e => ⟨rfl, e⟩
  | start r fe => simp only [step, Option.some.injEq] at h; subst h; exact Or.inl rfl
  | next r =>
    simp only [step, Option.map_eq_some_iff] at h
    obtain ⟨pc, -, rfl⟩ := h
    exact Or.inl rfl

/-- What `ck_array_buffer` gives a reader is exactly one committed version that was current during the call, however
the writer goes on while the values are read; no access is outside the buffer.  Missing: as above. -/
theorem buffer_snapshot_partial {s : St V n} (hs : (sys V n).Reach s) (r : Fin n) :
    (∀ acc, (s.rd r).pc = .done false acc → (s.rd r).seen acc) ∧
    (∀ a, (s.rd r).pc = .gotA a → rstep s.m (s.rd r).pc ≠ none) ∧
    (∀ a l acc, (s.rd r).pc = .rd a l acc → rstep s.m (s.rd r).pc ≠ none) := by
  have hi := (inv_reach hs).rd r
  unfold RI at hi
  refine ⟨?_, ?_, ?_⟩
  · intro acc h; rw [h] at hi; exact hi (by simp)
  · intro a h; rw [h]; simp [rstep]
  · intro a l acc h
    rw [h] at hi ⊢
    obtain ⟨-, -, h2, h3, h4, -⟩ := hi
    simp only [rstep]
    rw [if_pos (by omega)]; simp

/-- `CK_ARRAY_FOREACH` visits exactly one committed version if the active buffer is not replaced meanwhile.  The full
claim, without this hypothesis, is false (`foreach_mixes`, `foreach_overrun`). -/
theorem foreach_partial {s : St V n} (hs : (sys V n).Reach s) (r : Fin n) (hc : (s.rd r).chg = false) :
    (∀ acc, (s.rd r).pc = .done true acc → (s.rd r).seen acc) ∧
    (∀ a acc, (s.rd r).pc = .feV a acc → rstep s.m (s.rd r).pc ≠ none) := by
  have hi := (inv_reach hs).rd r
  have hcm := (inv_reach hs).comm
  unfold RI at hi
  refine ⟨?_, ?_⟩
  · intro acc h; rw [h] at hi; exact hi (fun _ => hc)
  · intro a acc h
    rw [h] at hi ⊢
    obtain ⟨-, rfl, h3, -⟩ := hi hc
    simp only [rstep]
    rw [if_pos (by omega)]; simp

/-- Between operations the writer's view is well-formed, so that `op_good` applies: each operation has the effect of
`Spec`.  Missing: as above. -/
theorem writer_spec_partial {s : St V n} (hs : (sys V n).Reach s) (hp : s.pend = []) {o : Op V} {alloc : Alloc V}
    (hok : Ok o s.m) : ∃ m', exec (prog o alloc s.m) s.m = some m' ∧
      Spec o alloc.isSome (view s.m) (pub s.m) (view m') (pub m') := by
  obtain ⟨m', he, hw⟩ := (inv_reach hs).fin
  rw [hp] at he
  cases he
  obtain ⟨-, m', h1, -, h2⟩ := op_good (alloc := alloc) hw hok
  exact ⟨m', h1, h2⟩

/-! ## `CK_ARRAY_FOREACH` while the active buffer is replaced -/

def s0 : St Nat 1 :=
  { m := { heap := fun _ => { ncomm := 0, len := 4, val := fun _ => 0 }, fresh := 1, active := 0, n := 0,
           trans := none, freed := fun _ => false }
    pend := [], com := none, rd := fun _ => { pc := .idle, seen := fun _ => False, chg := false } }

theorem s0_init : (sys Nat 1).init s0 := ⟨⟨4, some fun _ => 0, rfl⟩, rfl, rfl, fun _ => rfl⟩

/-- The committed versions are `[1, 2]` and then `[2]`; the loop visits just 1. -/
theorem foreach_mixes : ∃ s : St Nat 1, (sys Nat 1).Reach s ∧ (s.rd 0).pc = .done true [1] ∧ ¬ (s.rd 0).seen [1] := by
  have hr : ∃ s, (sys Nat 1).run s0
      [.begin (.put 1) none, .exec, .begin (.put 2) none, .exec, .begin .commit none, .exec,
       .start 0 true, .next 0, .next 0, .next 0, .next 0,
       .begin (.remove 1) (some fun _ => 0), .exec, .begin .commit none, .exec, .exec, .exec,
       .next 0, .next 0] = some s ∧ (s.rd 0).pc = .done true [1] ∧
      ((s.rd 0).seen = fun l => ((((l = [1, 2] ∨ l = [1, 2]) ∨ l = [1, 2]) ∨ l = [2]) ∨ l = [2])) :=
    ⟨_, rfl, rfl, rfl⟩
  obtain ⟨s, h1, h2, h3⟩ := hr
  refine ⟨s, .of_run (.init s0_init) h1, h2, ?_⟩
  rw [h3]; decide

/-- The index was compared with the length of one buffer and is used in another, shorter one. -/
theorem foreach_overrun : ∃ s : St Nat 1, (sys Nat 1).Reach s ∧ (s.rd 0).pc = .feV 2 [1, 2] ∧
    (s.m.heap 2).len = 1 ∧ rstep s.m (s.rd 0).pc = none := by
  have hr : ∃ s, (sys Nat 1).run s0
      [.begin (.put 1) none, .exec, .begin (.put 2) none, .exec, .begin (.put 3) none, .exec,
       .begin .commit none, .exec,
       .start 0 true, .next 0, .next 0, .next 0, .next 0, .next 0, .next 0, .next 0, .next 0, .next 0, .next 0,
       .begin (.remove 1) (some fun _ => 0), .exec, .begin (.remove 2) none, .exec,
       .begin .commit none, .exec, .exec, .exec,
       .begin (.remove 3) (some fun _ => 0), .exec, .begin .commit none, .exec, .exec, .exec,
       .next 0] = some s ∧ (s.rd 0).pc = .feV 2 [1, 2] ∧ (s.m.heap 2).len = 1 ∧ rstep s.m (s.rd 0).pc = none :=
    ⟨_, rfl, rfl, rfl, rfl⟩
  obtain ⟨s, h1, h2⟩ := hr
  exact ⟨s, .of_run (.init s0_init) h1, h2⟩

/-- A reader of `ck_array_buffer` while the writer replaces the array: it gets the version `[1, 2]`. -/
example : ∃ s : St Nat 1, (sys Nat 1).Reach s ∧ (s.rd 0).pc = .done false [1, 2] ∧ pub s.m = [2] := by
  have hr : ∃ s, (sys Nat 1).run s0
      [.begin (.put 1) none, .exec, .begin (.put 2) none, .exec, .begin .commit none, .exec,
       .start 0 false, .next 0, .next 0,
       .begin (.remove 1) (some fun _ => 0), .exec, .begin .commit none, .exec, .exec, .exec,
       .next 0] = some s ∧ (s.rd 0).pc = .done false [1, 2] ∧ pub s.m = [2] :=
    ⟨_, rfl, rfl, rfl⟩
  obtain ⟨s, h1, h2⟩ := hr
  exact ⟨s, .of_run (.init s0_init) h1, h2⟩

end Verif.Array
