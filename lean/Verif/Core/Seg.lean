import Verif.Core.Sys
import Mathlib.Data.List.Nodup

/-!
# Linked list segments

`Seg next h l e`: starting from the pointer `h` and following `next` one meets exactly the nodes
`l`, and the last one's `next` (or `h` when `l` is empty) is `e`.
`PSeg prev p l`: the `prev` pointers of the nodes `l`, the first one's being `p`.
-/

namespace Verif

variable {N : Type _}

def Seg (next : N → Option N) : Option N → List N → Option N → Prop
  | h, [], e => h = e
  | h, x :: l, e => h = some x ∧ Seg next (next x) l e

def PSeg (prev : N → Option N) : Option N → List N → Prop
  | _, [] => True
  | p, x :: l => prev x = p ∧ PSeg prev (some x) l

/-- The last element of `l`, or `p` if there is none. -/
def lastOr (p : Option N) : List N → Option N
  | [] => p
  | x :: l => lastOr (some x) l

@[simp] theorem seg_nil {next : N → Option N} {h e : Option N} : Seg next h [] e ↔ h = e := .rfl
@[simp] theorem seg_cons {next : N → Option N} {h e : Option N} {x : N} {l : List N} :
    Seg next h (x :: l) e ↔ h = some x ∧ Seg next (next x) l e := .rfl
@[simp] theorem pseg_nil {prev : N → Option N} {p : Option N} : PSeg prev p [] ↔ True := .rfl
@[simp] theorem pseg_cons {prev : N → Option N} {p : Option N} {x : N} {l : List N} :
    PSeg prev p (x :: l) ↔ prev x = p ∧ PSeg prev (some x) l := .rfl
@[simp] theorem lastOr_nil {p : Option N} : lastOr p [] = p := rfl
@[simp] theorem lastOr_cons {p : Option N} {x : N} {l : List N} :
    lastOr p (x :: l) = lastOr (some x) l := rfl

theorem lastOr_append {p : Option N} {a b : List N} : lastOr p (a ++ b) = lastOr (lastOr p a) b := by
  induction a generalizing p with
  | nil => rfl
  | cons x a ih => simpa using ih

theorem seg_append {next : N → Option N} {h e : Option N} {a b : List N} :
    Seg next h (a ++ b) e ↔ ∃ m, Seg next h a m ∧ Seg next m b e := by
  induction a generalizing h with
  | nil => simp
  | cons x a ih => simp [ih, and_assoc]

theorem seg_snoc {next : N → Option N} {h e : Option N} {a : List N} {x : N} :
    Seg next h (a ++ [x]) e ↔ Seg next h a (some x) ∧ next x = e := by
  rw [seg_append]
  constructor
  · rintro ⟨m, h1, h2, h3⟩; exact ⟨h2 ▸ h1, h3⟩
  · rintro ⟨h1, h2⟩; exact ⟨_, h1, rfl, h2⟩

theorem pseg_append {prev : N → Option N} {p : Option N} {a b : List N} :
    PSeg prev p (a ++ b) ↔ PSeg prev p a ∧ PSeg prev (lastOr p a) b := by
  induction a generalizing p with
  | nil => simp
  | cons x a ih => simp [ih, and_assoc]

theorem seg_congr {next next' : N → Option N} {h e : Option N} {l : List N}
    (hc : ∀ x ∈ l, next' x = next x) : Seg next' h l e ↔ Seg next h l e := by
  induction l generalizing h with
  | nil => simp
  | cons x l ih =>
    simp only [seg_cons]
    rw [hc x (by simp), ih (fun y hy => hc y (by simp [hy]))]

theorem pseg_congr {prev prev' : N → Option N} {p : Option N} {l : List N}
    (hc : ∀ x ∈ l, prev' x = prev x) : PSeg prev' p l ↔ PSeg prev p l := by
  induction l generalizing p with
  | nil => simp
  | cons x l ih =>
    simp only [pseg_cons]
    rw [hc x (by simp), ih (fun y hy => hc y (by simp [hy]))]

theorem seg_upd [DecidableEq N] {next : N → Option N} {h e v : Option N} {l : List N} {x : N}
    (hx : x ∉ l) : Seg (upd next x v) h l e ↔ Seg next h l e :=
  seg_congr fun y hy => upd_ne _ _ (by rintro rfl; exact hx hy)

theorem pseg_upd [DecidableEq N] {prev : N → Option N} {p v : Option N} {l : List N} {x : N}
    (hx : x ∉ l) : PSeg (upd prev x v) p l ↔ PSeg prev p l :=
  pseg_congr fun y hy => upd_ne _ _ (by rintro rfl; exact hx hy)

/-- The list is determined by the pointers. -/
theorem seg_unique {next : N → Option N} {h : Option N} {l l' : List N}
    (h1 : Seg next h l none) (h2 : Seg next h l' none) : l = l' := by
  induction l generalizing h l' with
  | nil => cases l' with
    | nil => rfl
    | cons y l' => simp at h1; subst h1; simp at h2
  | cons x l ih => cases l' with
    | nil => simp at h2; subst h2; simp at h1
    | cons y l' =>
      simp only [seg_cons] at h1 h2
      obtain ⟨rfl, h1⟩ := h1
      obtain ⟨h3, h2⟩ := h2
      cases h3
      rw [ih h1 h2]

theorem seg_head {next : N → Option N} {h : Option N} {l : List N} (h1 : Seg next h l none) :
    h = l.head? := by
  cases l with
  | nil => simpa using h1
  | cons x l => simpa using h1.1

end Verif
