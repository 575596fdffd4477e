import Verif.Core.Sys

/-!
# Total store order

The memory model of x86 and SPARC TSO (`CK_MD_TSO` of `include/ck_pr.h`, lines 144-166): each thread
has a buffer of stores that are not yet in memory, oldest first.  A load returns the newest buffered value of its own thread, else
what is in memory; stores leave the buffers in order, at any time; read-modify-write operations and full fences wait until
the buffer of the thread is empty.
-/

namespace Verif.Tso

variable {L V : Type} [DecidableEq L]

/-- What a thread with store buffer `b` sees. -/
def view (mem : L → V) (b : List (L × V)) : L → V := b.foldl (fun m p => upd m p.1 p.2) mem

@[simp] theorem view_nil (mem : L → V) : view mem [] = mem := rfl

theorem view_cons (mem : L → V) (p : L × V) (b : List (L × V)) : view mem (p :: b) = view (upd mem p.1 p.2) b := rfl

theorem view_append (mem : L → V) (b : List (L × V)) (x : L) (v : V) : view mem (b ++ [(x, v)]) = upd (view mem b) x v := by
  simp [view, List.foldl_append]

/-- What is seen is in memory or in the buffer. -/
theorem view_or (mem : L → V) (b : List (L × V)) (x : L) : view mem b x = mem x ∨ (x, view mem b x) ∈ b := by
  induction b generalizing mem with
  | nil => exact .inl rfl
  | cons p b ih =>
    rw [view_cons]
    rcases ih (upd mem p.1 p.2) with h | h
    · by_cases hx : x = p.1
      · right
        rw [h, hx, upd_same]
        exact List.mem_cons_self ..
      · left
        rw [h, upd_ne _ _ hx]
    · exact .inr (List.mem_cons_of_mem _ h)

/-- Another store to memory, not seen by who has buffered one to the same location. -/
theorem view_upd_or (mem : L → V) (b : List (L × V)) (x y : L) (v : V) :
    view (upd mem x v) b y = view mem b y ∨ (y = x ∧ view (upd mem x v) b y = v) := by
  induction b generalizing mem x v with
  | nil =>
    simp only [view_nil, upd_apply]
    split
    · next h => exact .inr ⟨h, rfl⟩
    · exact .inl rfl
  | cons p b ih =>
    rw [view_cons, view_cons]
    by_cases hx : p.1 = x
    · left
      congr 1
      funext z
      simp only [upd_apply, hx]
      split <;> rfl
    · have : upd (upd mem x v) p.1 p.2 = upd (upd mem p.1 p.2) x v := by
        funext z
        simp only [upd_apply]
        split
        · next h => subst h; rw [if_neg hx]
        · rfl
      rw [this]
      exact ih _ _ _

end Verif.Tso
