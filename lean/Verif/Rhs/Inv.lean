import Verif.Rhs.Geo
import Mathlib.Algebra.BigOperators.Group.Finset.Basic
import Mathlib.Algebra.BigOperators.Group.Multiset.Basic
import Mathlib.Algebra.Order.BigOperators.Group.Finset
import Mathlib.Data.Multiset.AddSub

/-!
# Robin-hood hash set: invariant

`Core`: every object is in its probe sequence at its probe number, all earlier slots of the sequence are occupied, and
`wanted` of a slot is the number of objects whose sequence runs through it.  One slot, the hole, may be left out:
displacement and deletion move objects one at a time.
-/

set_option linter.unusedSectionVars false

namespace Verif.Rhs

open Verif Classical

variable {K V : Type} [DecidableEq K] [DecidableEq V]

/-- Hash of an object. -/
def Cfg.hv (cfg : Cfg K V) (v : V) : Nat := cfg.hash (cfg.key v)

/-- 1 if the first `p - 1` probes for `h` include slot `o`. -/
noncomputable def thru (L C h p o : Nat) : Nat := if ∃ k, k + 1 < p ∧ sq L C h k = o then 1 else 0

/-- Contribution of a slot: first component the hash, second the probe number of its object. -/
noncomputable def con (L C : Nat) (d : Option (Nat × Nat)) (o : Nat) : Nat :=
  match d with
  | none => 0
  | some x => thru L C x.1 x.2 o

/-- Number of objects whose probe sequence runs through `o`. -/
noncomputable def W (L C : Nat) (D : Nat → Option (Nat × Nat)) (o : Nat) : Nat := ∑ x ∈ Finset.range C, con L C (D x) o

/-- Hash and probe number of the object in a slot other than the hole. -/
noncomputable def D (cfg : Cfg K V) (ent : Nat → Option V) (tp : Nat → Nat) (hole : Option Nat) (o : Nat) :
    Option (Nat × Nat) :=
  if some o = hole then none else (ent o).map fun v => (cfg.hv v, tp o)

structure Core (cfg : Cfg K V) (C lim : Nat) (ent : Nat → Option V) (tp wnt : Nat → Nat) (hole : Option Nat) : Prop where
  geo : Geo cfg.ln C
  pos : ∀ o v, o < C → some o ≠ hole → ent o = some v →
    ∃ k, tp o = k + 1 ∧ k < C ∧ k < lim ∧ sq cfg.ln C (cfg.hv v) k = o ∧ ∀ j, j < k → ent (sq cfg.ln C (cfg.hv v) j) ≠ none
  emp : ∀ o, o < C → some o ≠ hole → ent o = none → tp o = 0
  wnt : ∀ o, o < C → wnt o = W cfg.ln C (D cfg ent tp hole) o

/-- The probe bounds admit the probe numbers. -/
structure Bnd (cfg : Cfg K V) (m : Map V) (tp : Nat → Nat) (hole : Option Nat) : Prop where
  bd : ∀ o v, o < m.cap → some o ≠ hole → m.ent o = some v → tp o ≤ boundGet cfg m (cfg.hv v) ∧ tp o ≤ m.pmax

/-- Limits of the bounds. -/
structure Lims (cfg : Cfg K V) (m : Map V) : Prop where
  pm : m.pmax ≤ m.limit
  bl : ∀ o, m.bnd o ≤ m.limit
  bw : ∀ o, m.bnd o ≤ cfg.wmax

/-! ## Sums -/

section sums

theorem sum_upd {M A : Type} [AddCommMonoid M] (C : Nat) (f : A → M) (e : Nat → A) (o : Nat) (x : A) (ho : o < C) :
    ∑ i ∈ Finset.range C, f (upd e o x i) + f (e o) = ∑ i ∈ Finset.range C, f (e i) + f x := by
  have hm : o ∈ Finset.range C := Finset.mem_range.2 ho
  rw [← Finset.sum_erase_add _ _ hm, ← Finset.sum_erase_add (Finset.range C) (fun i => f (e i)) hm]
  have : ∑ i ∈ (Finset.range C).erase o, f (upd e o x i) = ∑ i ∈ (Finset.range C).erase o, f (e i) := by
    apply Finset.sum_congr rfl
    intro i hi
    rw [upd_ne e x (Finset.ne_of_mem_erase hi)]
  rw [this, upd_same]
  rw [add_assoc, add_assoc, add_comm (f x)]

theorem W_upd (L C : Nat) (E : Nat → Option (Nat × Nat)) (x : Nat) (d : Option (Nat × Nat)) (o : Nat) (hx : x < C) :
    W L C (upd E x d) o + con L C (E x) o = W L C E o + con L C d o :=
  sum_upd C (fun d => con L C d o) E x d hx

theorem W_ge (L C : Nat) (E : Nat → Option (Nat × Nat)) (x o : Nat) (hx : x < C) : con L C (E x) o ≤ W L C E o :=
  Finset.single_le_sum (f := fun x => con L C (E x) o) (fun _ _ => Nat.zero_le _) (Finset.mem_range.2 hx)

theorem W_ge2 (L C : Nat) (E : Nat → Option (Nat × Nat)) (x y o : Nat) (hx : x < C) (hy : y < C) (hne : x ≠ y) :
    con L C (E x) o + con L C (E y) o ≤ W L C E o := by
  have h1 := W_upd L C E x none o hx
  have h2 := W_ge L C (upd E x none) y o hy
  rw [upd_ne E none (Ne.symm hne)] at h2
  have h3 : con L C none o = 0 := rfl
  omega

theorem W_pos {L C : Nat} {E : Nat → Option (Nat × Nat)} {o : Nat} (h : 0 < W L C E o) :
    ∃ x, x < C ∧ 0 < con L C (E x) o := by
  unfold W at h
  obtain ⟨x, hx, h1⟩ := Finset.exists_ne_zero_of_sum_ne_zero (Nat.pos_iff_ne_zero.1 h)
  exact ⟨x, Finset.mem_range.1 hx, Nat.pos_of_ne_zero h1⟩

theorem thru_le (L C h p o : Nat) : thru L C h p o ≤ 1 := by unfold thru; split <;> omega

theorem thru_pos {L C h p o : Nat} (x : 0 < thru L C h p o) : ∃ k, k + 1 < p ∧ sq L C h k = o := by
  unfold thru at x; split at x
  · assumption
  · omega

theorem thru_eq_one {L C h p o k : Nat} (h1 : k + 1 < p) (h2 : sq L C h k = o) : thru L C h p o = 1 := by
  unfold thru; rw [if_pos ⟨k, h1, h2⟩]

theorem thru_one (L C h o : Nat) : thru L C h 1 o = 0 := by
  unfold thru; rw [if_neg]; rintro ⟨k, hk, -⟩; omega

/-- One probe more. -/
theorem thru_succ {L C : Nat} (g : Geo L C) (h k o : Nat) (hk : k < C) :
    thru L C h (k + 2) o = thru L C h (k + 1) o + if sq L C h k = o then 1 else 0 := by
  unfold thru
  by_cases h1 : sq L C h k = o
  · rw [if_pos ⟨k, by omega, h1⟩, if_pos h1, if_neg]
    rintro ⟨j, hj, hjo⟩
    have := g.sq_inj (show j < C by omega) hk (hjo.trans h1.symm)
    omega
  · rw [if_neg h1, Nat.add_zero]
    congr 1
    apply propext
    constructor
    · rintro ⟨j, hj, hjo⟩
      refine ⟨j, ?_, hjo⟩
      rcases Nat.lt_or_ge (j + 1) (k + 1) with h2 | h2
      · exact h2
      · have : j = k := by omega
        subst this; exact absurd hjo h1
    · rintro ⟨j, hj, hjo⟩; exact ⟨j, by omega, hjo⟩

theorem thru_mono {L C h p p' : Nat} (o : Nat) (hp : p ≤ p') : thru L C h p o ≤ thru L C h p' o := by
  unfold thru
  by_cases h1 : ∃ k, k + 1 < p ∧ sq L C h k = o
  · rw [if_pos h1]
    obtain ⟨k, h2, h3⟩ := h1
    rw [if_pos ⟨k, by omega, h3⟩]
  · rw [if_neg h1]; omega

theorem thru_congr {L C h h' : Nat} (he : h % C = h' % C) (p o : Nat) : thru L C h p o = thru L C h' p o := by
  unfold thru
  simp only [sq_congr he]

end sums

/-! ## The objects of a map -/

/-- Objects in a slot. -/
def objs : Option V → Multiset V
  | none => 0
  | some v => {v}

/-- Objects of a map. -/
noncomputable def bagOf (C : Nat) (ent : Nat → Option V) : Multiset V := ∑ o ∈ Finset.range C, objs (ent o)

noncomputable def bag (m : Map V) : Multiset V := bagOf m.cap m.ent

theorem bag_upd (C : Nat) (ent : Nat → Option V) (o : Nat) (x : Option V) (ho : o < C) :
    bagOf C (upd ent o x) + objs (ent o) = bagOf C ent + objs x := sum_upd C objs ent o x ho

theorem mem_bag (C : Nat) (ent : Nat → Option V) (v : V) : v ∈ bagOf C ent ↔ ∃ o, o < C ∧ ent o = some v := by
  unfold bagOf
  rw [Multiset.mem_sum]
  constructor
  · rintro ⟨o, ho, hv⟩
    refine ⟨o, Finset.mem_range.1 ho, ?_⟩
    cases he : ent o with
    | none => rw [he] at hv; simp [objs] at hv
    | some w => rw [he] at hv; simp [objs] at hv; rw [hv]
  · rintro ⟨o, ho, he⟩
    exact ⟨o, Finset.mem_range.2 ho, by rw [he]; simp [objs]⟩

theorem bag_card (C : Nat) (ent : Nat → Option V) :
    (bagOf C ent).card = ∑ o ∈ Finset.range C, (objs (ent o)).card := by
  unfold bagOf; rw [Multiset.card_sum]

theorem con_D_le (cfg : Cfg K V) (C : Nat) (ent : Nat → Option V) (tp : Nat → Nat) (hole : Option Nat) (x o : Nat) :
    con cfg.ln C (D cfg ent tp hole x) o ≤ (objs (ent x)).card := by
  unfold D
  split
  · exact Nat.zero_le _
  · cases ent x with
    | none => exact Nat.zero_le _
    | some v => simp only [Option.map_some, con, objs, Multiset.card_singleton]; exact thru_le _ _ _ _ _

theorem W_le (cfg : Cfg K V) (C : Nat) (ent : Nat → Option V) (tp : Nat → Nat) (hole : Option Nat) (o : Nat) :
    W cfg.ln C (D cfg ent tp hole) o ≤ (bagOf C ent).card := by
  rw [bag_card]
  exact Finset.sum_le_sum fun x _ => con_D_le cfg C ent tp hole x o

theorem Core.wnt_le {cfg : Cfg K V} {C lim : Nat} {ent : Nat → Option V} {tp wnt : Nat → Nat} {hole : Option Nat}
    (h : Core cfg C lim ent tp wnt hole) {o : Nat} (ho : o < C) : wnt o ≤ (bagOf C ent).card := by
  rw [h.wnt o ho]; exact W_le cfg C ent tp hole o

/-! ## Moves -/

section moves

variable {cfg : Cfg K V} {C lim : Nat} {ent : Nat → Option V} {tp wnt : Nat → Nat} {hole : Option Nat}

theorem D_hole (cfg : Cfg K V) (ent : Nat → Option V) (tp : Nat → Nat) (o : Nat) : D cfg ent tp (some o) o = none := by
  unfold D; rw [if_pos rfl]

theorem D_of {v : V} {o : Nat} (h1 : some o ≠ hole) (h2 : ent o = some v) :
    D cfg ent tp hole o = some (cfg.hv v, tp o) := by
  unfold D; rw [if_neg h1, h2]; rfl

theorem D_none {o : Nat} (h2 : ent o = none) : D cfg ent tp hole o = none := by
  unfold D; rw [h2]; simp

/-- An occupied slot runs through none of the empty slots. -/
theorem Core.con_empty (h : Core cfg C lim ent tp wnt hole) {x o : Nat} (hx : x < C) (ho : ent o = none) :
    con cfg.ln C (D cfg ent tp hole x) o = 0 := by
  by_cases hh : some x = hole
  · unfold D; rw [if_pos hh]; rfl
  · cases he : ent x with
    | none => rw [D_none he]; rfl
    | some v =>
      rw [D_of hh he]
      obtain ⟨k, hk, -, -, -, hne⟩ := h.pos x v hx hh he
      show thru _ _ _ _ _ = 0
      unfold thru
      rw [if_neg]
      rintro ⟨j, hj, hjo⟩
      exact hne j (by simp only [hk] at hj; omega) (by rw [hjo]; exact ho)

/-- An empty slot may serve as the hole. -/
theorem Core.open_empty (h : Core cfg C lim ent tp wnt none) {s : Nat} (hs : ent s = none) :
    Core cfg C lim ent tp wnt (some s) := by
  have hD : D cfg ent tp (some s) = D cfg ent tp none := by
    funext o
    by_cases ho : o = s
    · subst ho; rw [D_none hs, D_none hs]
    · unfold D; rw [if_neg (by simpa using ho), if_neg (by simp)]
  exact ⟨h.geo, fun o v ho _ => h.pos o v ho (by simp), fun o ho _ => h.emp o ho (by simp),
    fun o ho => by rw [hD]; exact h.wnt o ho⟩

/-- The object at `p` moves into the hole `c`; `p` becomes the hole. -/
theorem Core.fill {c p k : Nat} {v : V} {wnt' : Nat → Nat} (h : Core cfg C lim ent tp wnt (some c))
    (hp : p < C) (hc : c < C) (hpc : p ≠ c) (hv : ent p = some v) (hk : k < C) (hkl : k < lim)
    (hs : sq cfg.ln C (cfg.hv v) k = c) (hne : ∀ j, j < k → ent (sq cfg.ln C (cfg.hv v) j) ≠ none)
    (hw : ∀ o, o < C → wnt' o + thru cfg.ln C (cfg.hv v) (tp p) o = wnt o + thru cfg.ln C (cfg.hv v) (k + 1) o) :
    Core cfg C lim (upd ent c (some v)) (upd tp c (k + 1)) wnt' (some p) := by
  have hmono : ∀ o, ent o ≠ none → upd ent c (some v) o ≠ none := by
    intro o ho
    by_cases h1 : o = c
    · subst h1; rw [upd_same]; simp
    · rw [upd_ne _ _ h1]; exact ho
  refine ⟨h.geo, ?_, ?_, ?_⟩
  · intro o w ho hop he
    by_cases h1 : o = c
    · subst h1
      rw [upd_same] at he ⊢
      cases he
      exact ⟨k, rfl, hk, hkl, hs, fun j hj => hmono _ (hne j hj)⟩
    · rw [upd_ne _ _ h1] at he ⊢
      obtain ⟨k', a1, a2, a3, a4, a5⟩ := h.pos o w ho (by simpa using h1) he
      exact ⟨k', a1, a2, a3, a4, fun j hj => hmono _ (a5 j hj)⟩
  · intro o ho hop he
    by_cases h1 : o = c
    · subst h1; rw [upd_same] at he; cases he
    · rw [upd_ne _ _ h1] at he ⊢
      exact h.emp o ho (by simpa using h1) he
  · intro o ho
    have hD : D cfg (upd ent c (some v)) (upd tp c (k + 1)) (some p) =
        upd (upd (D cfg ent tp (some c)) c (some (cfg.hv v, k + 1))) p none := by
      funext x
      by_cases h1 : x = p
      · subst h1; rw [upd_same, D_hole]
      · rw [upd_ne _ _ h1]
        by_cases h2 : x = c
        · subst h2; rw [upd_same, D_of (by simpa using h1) (upd_same _ _ _), upd_same]
        · rw [upd_ne _ _ h2]
          unfold D
          rw [if_neg (by simpa using h1), if_neg (by simpa using h2), upd_ne _ _ h2, upd_ne _ _ h2]
    have e1 := W_upd cfg.ln C (upd (D cfg ent tp (some c)) c (some (cfg.hv v, k + 1))) p none o hp
    have e2 := W_upd cfg.ln C (D cfg ent tp (some c)) c (some (cfg.hv v, k + 1)) o hc
    rw [upd_ne _ _ hpc, D_of (by simpa using hpc) hv] at e1
    rw [D_hole] at e2
    have e3 := h.wnt o ho
    have e4 := hw o ho
    rw [hD]
    simp only [con] at e1 e2
    omega

/-- A new object moves into the hole. -/
theorem Core.put {c k : Nat} {v : V} {wnt' : Nat → Nat} (h : Core cfg C lim ent tp wnt (some c))
    (hc : c < C) (hk : k < C) (hkl : k < lim)
    (hs : sq cfg.ln C (cfg.hv v) k = c) (hne : ∀ j, j < k → ent (sq cfg.ln C (cfg.hv v) j) ≠ none)
    (hw : ∀ o, o < C → wnt' o = wnt o + thru cfg.ln C (cfg.hv v) (k + 1) o) :
    Core cfg C lim (upd ent c (some v)) (upd tp c (k + 1)) wnt' none := by
  have hmono : ∀ o, ent o ≠ none → upd ent c (some v) o ≠ none := by
    intro o ho
    by_cases h1 : o = c
    · subst h1; rw [upd_same]; simp
    · rw [upd_ne _ _ h1]; exact ho
  refine ⟨h.geo, ?_, ?_, ?_⟩
  · intro o w ho hop he
    by_cases h1 : o = c
    · subst h1
      rw [upd_same] at he ⊢
      cases he
      exact ⟨k, rfl, hk, hkl, hs, fun j hj => hmono _ (hne j hj)⟩
    · rw [upd_ne _ _ h1] at he ⊢
      obtain ⟨k', a1, a2, a3, a4, a5⟩ := h.pos o w ho (by simpa using h1) he
      exact ⟨k', a1, a2, a3, a4, fun j hj => hmono _ (a5 j hj)⟩
  · intro o ho hop he
    by_cases h1 : o = c
    · subst h1; rw [upd_same] at he; cases he
    · rw [upd_ne _ _ h1] at he ⊢
      exact h.emp o ho (by simpa using h1) he
  · intro o ho
    have hD : D cfg (upd ent c (some v)) (upd tp c (k + 1)) none =
        upd (D cfg ent tp (some c)) c (some (cfg.hv v, k + 1)) := by
      funext x
      by_cases h2 : x = c
      · subst h2; rw [upd_same, D_of (by simp) (upd_same _ _ _), upd_same]
      · rw [upd_ne _ _ h2]
        unfold D
        rw [if_neg (by simp), if_neg (by simpa using h2), upd_ne _ _ h2, upd_ne _ _ h2]
    have e2 := W_upd cfg.ln C (D cfg ent tp (some c)) c (some (cfg.hv v, k + 1)) o hc
    rw [D_hole] at e2
    have e3 := h.wnt o ho
    have e4 := hw o ho
    rw [hD]
    simp only [con] at e2
    omega

/-- The object at `s` is taken out; `s` becomes the hole. -/
theorem Core.take {cfg : Cfg K V} {C lim : Nat} {ent : Nat → Option V} {tp wnt : Nat → Nat} (h : Core cfg C lim ent tp wnt none) {s : Nat} {v : V} {wnt' : Nat → Nat}
    (hs : s < C) (hv : ent s = some v)
    (hw : ∀ o, o < C → wnt' o + thru cfg.ln C (cfg.hv v) (tp s) o = wnt o) :
    Core cfg C lim ent tp wnt' (some s) := by
  refine ⟨h.geo, fun o v ho _ => h.pos o v ho (by simp), fun o ho _ => h.emp o ho (by simp), ?_⟩
  intro o ho
  have hD : D cfg ent tp (some s) = upd (D cfg ent tp none) s none := by
    funext x
    by_cases h2 : x = s
    · subst h2; rw [upd_same, D_hole]
    · rw [upd_ne _ _ h2]
      unfold D
      rw [if_neg (by simpa using h2), if_neg (by simp)]
  have e2 := W_upd cfg.ln C (D cfg ent tp none) s none o hs
  rw [D_of (by simp) hv] at e2
  have e3 := h.wnt o ho
  have e4 := hw o ho
  rw [hD]
  simp only [con] at e2
  omega

/-- The hole is emptied when no object runs through it. -/
theorem Core.clear {s : Nat} (h : Core cfg C lim ent tp wnt (some s)) (hs : s < C) (hz : wnt s = 0) :
    Core cfg C lim (upd ent s none) (upd tp s 0) wnt none := by
  have hD : D cfg (upd ent s none) (upd tp s 0) none = D cfg ent tp (some s) := by
    funext x
    by_cases h2 : x = s
    · subst h2; rw [D_none (upd_same _ _ _), D_hole]
    · unfold D
      rw [if_neg (by simp), if_neg (by simpa using h2), upd_ne _ _ h2, upd_ne _ _ h2]
  refine ⟨h.geo, ?_, ?_, ?_⟩
  · intro o v ho _ he
    by_cases h1 : o = s
    · subst h1; rw [upd_same] at he; cases he
    · rw [upd_ne _ _ h1] at he ⊢
      obtain ⟨k', a1, a2, a3, a4, a5⟩ := h.pos o v ho (by simpa using h1) he
      refine ⟨k', a1, a2, a3, a4, fun j hj => ?_⟩
      by_cases h2 : sq cfg.ln C (cfg.hv v) j = s
      · have h3 := W_ge cfg.ln C (D cfg ent tp (some s)) o s ho
        rw [← h.wnt s hs, hz, D_of (by simpa using h1) he] at h3
        have h4 : thru cfg.ln C (cfg.hv v) (tp o) s = 1 := thru_eq_one (k := j) (by omega) h2
        simp only [con] at h3
        omega
      · rw [upd_ne _ _ h2]; exact a5 j hj
  · intro o ho _ he
    by_cases h1 : o = s
    · subst h1; rw [upd_same]
    · rw [upd_ne _ _ h1] at he ⊢
      exact h.emp o ho (by simpa using h1) he
  · intro o ho
    rw [hD]; exact h.wnt o ho

/-- An object is replaced by one with the same hash. -/
theorem Core.repl (h : Core cfg C lim ent tp wnt none) {s : Nat} {v w : V} (hv : ent s = some v)
    (hh : cfg.hv w = cfg.hv v) : Core cfg C lim (upd ent s (some w)) tp wnt none := by
  have hD : D cfg (upd ent s (some w)) tp none = D cfg ent tp none := by
    funext x
    by_cases h2 : x = s
    · subst h2; rw [D_of (by simp) (upd_same _ _ _), D_of (by simp) hv, hh]
    · unfold D; rw [upd_ne _ _ h2]
  have hmono : ∀ o, ent o ≠ none → upd ent s (some w) o ≠ none := by
    intro o ho
    by_cases h1 : o = s
    · subst h1; rw [upd_same]; simp
    · rw [upd_ne _ _ h1]; exact ho
  refine ⟨h.geo, ?_, ?_, fun o ho => by rw [hD]; exact h.wnt o ho⟩
  · intro o x ho _ he
    by_cases h1 : o = s
    · subst h1
      rw [upd_same] at he
      cases he
      obtain ⟨k', a1, a2, a3, a4, a5⟩ := h.pos o v ho (by simp) hv
      rw [hh]
      exact ⟨k', a1, a2, a3, a4, fun j hj => hmono _ (a5 j hj)⟩
    · rw [upd_ne _ _ h1] at he
      obtain ⟨k', a1, a2, a3, a4, a5⟩ := h.pos o x ho (by simp) he
      exact ⟨k', a1, a2, a3, a4, fun j hj => hmono _ (a5 j hj)⟩
  · intro o ho _ he
    by_cases h1 : o = s
    · subst h1; rw [upd_same] at he; cases he
    · rw [upd_ne _ _ h1] at he
      exact h.emp o ho (by simp) he

/-- If all slots of the first `k` probes are occupied and some slot is empty then `k < C`. -/
theorem Geo.lt_of_empty {L : Nat} (g : Geo L C) {h k o : Nat} (hne : ∀ j, j < k → ent (sq L C h j) ≠ none)
    (ho : o < C) (he : ent o = none) : k < C := by
  obtain ⟨j, hj, hjo⟩ := g.sq_surj h o ho
  rcases Nat.lt_or_ge j k with h1 | h1
  · exact absurd (by rw [hjo]; exact he) (hne j h1)
  · omega

end moves

end Verif.Rhs
