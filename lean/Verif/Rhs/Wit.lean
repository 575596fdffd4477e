import Verif.Rhs.Thm

/-!
# Robin-hood hash set: where the full statements of C50 and C67 fail
-/

set_option linter.unusedSectionVars false

namespace Verif.Rhs

open Verif

variable {K V : Type} [DecidableEq K] [DecidableEq V]

/-- Runs operations with their allocators, and yields the history. -/
def runs (cfg : Cfg K V) : Hs V → List (Op K V × Alloc) → Except Err (List (Op K V × Res V) × Hs V)
  | s, [] => .ok ([], s)
  | s, (op, al) :: l => do
    let (s1, res) ← step cfg s al op
    let (h, s') ← runs cfg s1 l
    .ok ((op, res) :: h, s')

theorem runs_hist {cfg : Cfg K V} {B : Nat} : ∀ (l : List (Op K V × Alloc)) (s s' : Hs V) (h : List (Op K V × Res V)),
    (∀ x, x ∈ l → Small B x.2) → runs cfg s l = .ok (h, s') → Hist cfg B s h s' ∧ h.map Prod.fst = l.map Prod.fst := by
  intro l
  induction l with
  | nil => intro s s' h _ hr; cases hr; exact ⟨.nil _, rfl⟩
  | cons x l ih =>
    intro s s' h hB hr
    obtain ⟨op, al⟩ := x
    unfold runs at hr
    simp only [bind, Except.bind] at hr
    cases hs : step cfg s al op with
    | error e => rw [hs] at hr; cases hr
    | ok p =>
      obtain ⟨s1, res⟩ := p
      rw [hs] at hr
      simp only at hr
      cases hr1 : runs cfg s1 l with
      | error e => rw [hr1] at hr; cases hr
      | ok p =>
        obtain ⟨h1, s2⟩ := p
        rw [hr1] at hr
        cases hr
        obtain ⟨i1, i2⟩ := ih s1 _ h1 (fun x hx => hB x (List.mem_cons_of_mem _ hx)) hr1
        exact ⟨.cons (hB _ (List.mem_cons_self ..)) hs i1, by rw [List.map_cons, List.map_cons, i2]⟩

/-- The value satisfies `p`. -/
def yields {α : Type} (x : Except Err α) (p : α → Bool) : Bool :=
  match x with
  | .ok a => p a
  | .error _ => false

theorem yields_ok {α : Type} {x : Except Err α} {p : α → Bool} (h : yields x p = true) : ∃ a, x = .ok a ∧ p a = true := by
  cases x with
  | ok a => exact ⟨a, rfl, h⟩
  | error e => cases h

/-- The error is `e`. -/
def fails {α : Type} (x : Except Err α) (e : Err) : Bool :=
  match x with
  | .ok _ => false
  | .error e' => decide (e' = e)

theorem fails_error {α : Type} {x : Except Err α} {e : Err} (h : fails x e = true) : x = .error e := by
  cases x with
  | ok a => cases h
  | error e' => rw [of_decide_eq_true h]

/-- Operations that are always within the contract. -/
def Free (op : Op K V) : Prop := ∀ (cfg : Cfg K V) a, Contract cfg a op

theorem keeps_free {cfg : Cfg K V} {a : K → Option V} {h : List (Op K V × Res V)} {l : List (Op K V)} (he : h.map Prod.fst = l)
    (hf : ∀ op, op ∈ l → Free op) : Keeps cfg a h := by
  intro p op res s b k heq _
  refine hf op ?_ cfg b
  rw [← he, heq]
  simp

/-! ## C50: a deletion through `ck_rhs_apply` is not counted -/

/-- Objects are their own keys, all with the same hash. -/
def cfgId : Cfg Nat Nat := ⟨fun v => v, fun _ => 0, false, 255⟩

theorem cfgId_fits : Fits cfgId 4096 := ⟨by omega, .inr (by decide)⟩

def dropOps : List (Op Nat Nat × Alloc) := [(.put 1, []), (.apply 1 fun _ => none, [])]

/-- `ck_rhs_apply` does not touch `n_entries` when it deletes: the set is empty and `ck_rhs_count` is 1. -/
theorem count_wrong : ∃ ops s, Hist cfgId 4096 (init 8) ops s ∧ Keeps cfgId (fun _ => none) ops ∧
    ops.map Prod.snd = [.bool true, .bool true] ∧ get cfgId s.m 1 = .ok none ∧ iterate s.m (s.m.cap + 1) 0 = [] ∧ count s = 1 := by
  have h : (match runs cfgId (init 8) dropOps with
      | .ok (h, s) => decide (h.map Prod.snd = [.bool true, .bool true] ∧ yields (get cfgId s.m 1) (· = none) = true ∧
          iterate s.m (s.m.cap + 1) 0 = [] ∧ count s = 1)
      | .error _ => false) = true := by decide +kernel
  cases hr : runs cfgId (init 8) dropOps with
  | error e => rw [hr] at h; cases h
  | ok p =>
    obtain ⟨ops, s⟩ := p
    rw [hr] at h
    obtain ⟨h1, h2, h3, h4⟩ := of_decide_eq_true h
    obtain ⟨i1, i2⟩ := runs_hist (B := 4096) _ _ _ _ (by
      intro x hx a ha
      simp only [dropOps, List.mem_cons, List.not_mem_nil, or_false] at hx
      rcases hx with rfl | rfl <;> cases ha) hr
    refine ⟨ops, s, i1, keeps_free i2 ?_, h1, ?_, h3, h4⟩
    · intro op hop
      simp only [dropOps, List.map_cons, List.map_nil, List.mem_cons, List.not_mem_nil, or_false] at hop
      rcases hop with rfl | rfl
      · intro cfg a; trivial
      · intro cfg a w hw; cases hw
    · obtain ⟨o, ho, h5⟩ := yields_ok h2
      rw [ho, of_decide_eq_true h5]

/-! ## C67: `ck_rhs_fas` goes on with the map that it has replaced -/

/-- Twelve keys, two objects for each. -/
def cfgT : Cfg Nat Nat := ⟨fun v => v % 12, fun q => [4, 6, 3, 5, 4, 3, 0, 4, 0, 3, 2, 1].getD q 0, false, 255⟩

theorem cfgT_fits : Fits cfgT 4096 := ⟨by omega, .inr (by decide)⟩

def fullOps : List (Op Nat Nat × Alloc) :=
  [(.loadFactor 100, []), (.put 9, []), (.put 11, []), (.put 20, []), (.put 10, []), (.put 12, []), (.put 18, []), (.put 19, []), (.put 4, [])]

/-- Eight objects fill the table; `ck_rhs_fas` is to replace object 20 by object 8, displaces, finds no room, enlarges the
table (16 slots) and restarts on the old map. -/
theorem fas_stale : ∃ ops s, Hist cfgT 4096 (init 8) ops s ∧ Keeps cfgT (fun _ => none) ops ∧ get cfgT s.m 8 = .ok (some 20) ∧
    Small 4096 [fun n => decide (n ≤ 16)] ∧ step cfgT s [fun n => decide (n ≤ 16)] (.fas 8) = .error .stale := by
  have h : (match runs cfgT (init 8) fullOps with
      | .ok (_, s) => decide (yields (get cfgT s.m 8) (· = some 20) = true ∧
          fails (step cfgT s [fun n => decide (n ≤ 16)] (.fas 8)) .stale = true)
      | .error _ => false) = true := by decide +kernel
  cases hr : runs cfgT (init 8) fullOps with
  | error e => rw [hr] at h; cases h
  | ok p =>
    obtain ⟨ops, s⟩ := p
    rw [hr] at h
    obtain ⟨h1, h2⟩ := of_decide_eq_true h
    obtain ⟨i1, i2⟩ := runs_hist (B := 4096) _ _ _ _ (by
      intro x hx a ha
      simp only [fullOps, List.mem_cons, List.not_mem_nil, or_false] at hx
      rcases hx with rfl | rfl | rfl | rfl | rfl | rfl | rfl | rfl | rfl <;> cases ha) hr
    refine ⟨ops, s, i1, keeps_free i2 ?_, ?_, ?_, ?_⟩
    · intro op hop
      simp only [fullOps, List.map_cons, List.map_nil, List.mem_cons, List.not_mem_nil, or_false] at hop
      rcases hop with rfl | rfl | rfl | rfl | rfl | rfl | rfl | rfl | rfl <;> (intro cfg a; trivial)
    · obtain ⟨o, ho, h5⟩ := yields_ok h1
      rw [ho, of_decide_eq_true h5]
    · intro a ha n hn
      rw [List.mem_singleton] at ha
      subst ha
      simp at hn; omega
    · exact fails_error h2

end Verif.Rhs
