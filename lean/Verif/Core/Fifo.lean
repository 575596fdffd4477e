import Verif.Core.Count

/-!
# Ghost bookkeeping for first-come-first-served locks

`Q` records who arrived, who entered and how many left; a lock model updates it with
`arrive`/`enter`/`leave` and never reads it.  `QInv q act held` ties it to the sets of threads
that are in the queue (`act`) and inside (`held`).
-/

namespace Verif

structure Q (n : Nat) where
  /-- threads in order of arrival -/
  arr : List (Fin n)
  /-- threads in order of entering -/
  srv : List (Fin n)
  /-- number of threads that left -/
  rel : Nat
  /-- index of a thread's last arrival -/
  tk : Fin n → Nat

namespace Q

def empty (n : Nat) : Q n := { arr := [], srv := [], rel := 0, tk := fun _ => 0 }

def arrive {n : Nat} (q : Q n) (t : Fin n) : Q n :=
  { q with arr := q.arr ++ [t], tk := upd q.tk t q.arr.length }

def enter {n : Nat} (q : Q n) (t : Fin n) : Q n := { q with srv := q.srv ++ [t] }

def leave {n : Nat} (q : Q n) : Q n := { q with rel := q.rel + 1 }

end Q

theorem getElem?_lt {α : Type _} {l : List α} {i : Nat} {a : α} (h : l[i]? = some a) :
    i < l.length := by
  by_contra hc
  rw [List.getElem?_eq_none (by omega)] at h
  cases h

theorem getElem?_append_some {α : Type _} {l : List α} {i : Nat} {a : α} (b : List α)
    (h : l[i]? = some a) : (l ++ b)[i]? = some a := by
  have := getElem?_lt h
  rw [List.getElem?_append_left this]; exact h

theorem prefix_snoc {α : Type _} {l m : List α} {a : α} (h : l <+: m)
    (hi : m[l.length]? = some a) : l ++ [a] <+: m := by
  obtain ⟨r, rfl⟩ := h
  cases r with
  | nil => simp at hi
  | cons b r =>
    simp at hi
    subst hi
    exact ⟨r, by simp⟩

theorem comp_upd {α β γ : Type _} [DecidableEq α] (P : β → γ) (f : α → β) (t : α) (v : β) :
    (fun u => P (upd f t v u)) = upd (fun u => P (f u)) t (P v) := by
  funext u; simp only [upd]; split <;> rfl

theorem comp_upd_same {α β γ : Type _} [DecidableEq α] (P : β → γ) (f : α → β) (t : α) (v : β)
    (h : P v = P (f t)) : (fun u => P (upd f t v u)) = (fun u => P (f u)) := by
  funext u; simp only [upd]; split <;> simp_all

structure QInv {n : Nat} (q : Q n) (act held : Fin n → Bool) : Prop where
  len : q.arr.length = q.rel + cnt id act
  slen : q.srv.length = q.rel + cnt id held
  pre : q.srv <+: q.arr
  act_tk : ∀ t, act t = true → q.rel ≤ q.tk t ∧ q.arr[q.tk t]? = some t
  held_tk : ∀ t, held t = true → q.tk t = q.rel
  held_act : ∀ t, held t = true → act t = true
  cov : ∀ i t, q.rel ≤ i → q.arr[i]? = some t → act t = true ∧ q.tk t = i

namespace QInv

variable {n : Nat} {q : Q n} {act held : Fin n → Bool}

theorem empty (n : Nat) : QInv (Q.empty n) (fun _ => false) (fun _ => false) := by
  constructor <;> simp [Q.empty, cnt]

theorem tk_lt (h : QInv q act held) {t : Fin n} (ht : act t = true) : q.tk t < q.arr.length :=
  getElem?_lt (h.act_tk t ht).2

theorem tk_inj (h : QInv q act held) {t u : Fin n} (ht : act t = true) (hu : act u = true)
    (he : q.tk t = q.tk u) : t = u := by
  have h1 := (h.act_tk t ht).2
  have h2 := (h.act_tk u hu).2
  rw [he, h2] at h1
  simpa using h1.symm

theorem held_unique (h : QInv q act held) {t u : Fin n} (ht : held t = true)
    (hu : held u = true) : t = u :=
  h.tk_inj (h.held_act t ht) (h.held_act u hu) (by rw [h.held_tk t ht, h.held_tk u hu])

/-- The thread whose turn it is, if it is not inside, is alone: nobody is inside. -/
theorem none_held (h : QInv q act held) {t : Fin n} (ht : act t = true) (htk : q.tk t = q.rel)
    (hth : held t = false) (u : Fin n) : held u = false := by
  by_contra hc
  simp only [Bool.not_eq_false] at hc
  have := h.tk_inj ht (h.held_act u hc) (by rw [htk, h.held_tk u hc])
  subst this
  simp [hth] at hc

/-- Fewer threads are queued than there are threads. -/
theorem window (h : QInv q act held) : q.arr.length ≤ q.rel + n := by
  have := h.len
  have := cnt_le id act
  omega

theorem arrive (h : QInv q act held) {t : Fin n} (ht : act t = false) :
    QInv (q.arrive t) (upd act t true) held := by
  have hc := cnt_update id act t true
  simp [ht] at hc
  have hne : ∀ u, act u = true → u ≠ t := by rintro u hu rfl; simp [ht] at hu
  refine ⟨?_, h.slen, h.pre.trans (List.prefix_append _ _), ?_, ?_, ?_, ?_⟩
  · have := h.len
    simp only [Q.arrive, List.length_append, List.length_singleton]; omega
  · intro u hu
    by_cases he : u = t
    · subst he
      have := h.len
      simp [Q.arrive]; omega
    · simp only [upd_ne _ _ he] at hu
      have := h.act_tk u hu
      simp only [Q.arrive, upd_ne _ _ he]
      exact ⟨this.1, getElem?_append_some _ this.2⟩
  · intro u hu
    have he := hne u (h.held_act u hu)
    simp only [Q.arrive, upd_ne _ _ he]
    exact h.held_tk u hu
  · intro u hu
    have he := hne u (h.held_act u hu)
    simp only [upd_ne _ _ he]
    exact h.held_act u hu
  · intro i u hi hu
    simp only [Q.arrive] at hi hu ⊢
    by_cases hl : i < q.arr.length
    · rw [List.getElem?_append_left hl] at hu
      have := h.cov i u hi hu
      have he := hne u this.1
      simp only [upd_ne _ _ he]
      exact this
    · have : i = q.arr.length := by
        have := getElem?_lt hu
        simp at this; omega
      subst this
      simp at hu
      subst hu
      simp

theorem enter (h : QInv q act held) {t : Fin n} (ht : act t = true) (htk : q.tk t = q.rel)
    (hth : held t = false) : QInv (q.enter t) act (upd held t true) := by
  have hc := cnt_update id held t true
  simp [hth] at hc
  have h0 : cnt id held = 0 := cnt_zero_of (h.none_held ht htk hth)
  have hsl := h.slen
  refine ⟨h.len, ?_, ?_, h.act_tk, ?_, ?_, h.cov⟩
  · simp only [Q.enter, List.length_append, List.length_singleton]; omega
  · refine prefix_snoc h.pre ?_
    rw [hsl, h0, Nat.add_zero, ← htk]
    exact (h.act_tk t ht).2
  · intro u hu
    by_cases he : u = t
    · subst he; exact htk
    · rw [upd_ne _ _ he] at hu; exact h.held_tk u hu
  · intro u hu
    by_cases he : u = t
    · subst he; exact ht
    · rw [upd_ne _ _ he] at hu; exact h.held_act u hu

theorem leave (h : QInv q act held) {t : Fin n} (ht : held t = true) :
    QInv q.leave (upd act t false) (upd held t false) := by
  have ha := h.held_act t ht
  have hc := cnt_update id held t false
  have hd := cnt_update id act t false
  simp [ht, ha] at hc hd
  have htk := h.held_tk t ht
  refine ⟨?_, ?_, h.pre, ?_, ?_, ?_, ?_⟩
  · have := h.len; simp only [Q.leave]; omega
  · have := h.slen; simp only [Q.leave]; omega
  · intro u hu
    have he : u ≠ t := by rintro rfl; simp at hu
    rw [upd_ne _ _ he] at hu
    have h1 := h.act_tk u hu
    refine ⟨?_, h1.2⟩
    have : q.tk u ≠ q.tk t := fun e => he (h.tk_inj hu ha e)
    simp only [Q.leave]
    omega
  · intro u hu
    have he : u ≠ t := by rintro rfl; simp at hu
    rw [upd_ne _ _ he] at hu
    exact absurd (h.held_unique hu ht) he
  · intro u hu
    have he : u ≠ t := by rintro rfl; simp at hu
    rw [upd_ne _ _ he] at hu
    exact absurd (h.held_unique hu ht) he
  · intro i u hi hu
    simp only [Q.leave] at hi hu ⊢
    have h1 := h.cov i u (by omega) hu
    have he : u ≠ t := by rintro rfl; omega
    rw [upd_ne _ _ he]
    exact h1

/-- No served thread overtook a queued one: a queued thread that is not inside comes, in the order
of arrival, after everybody who entered. -/
theorem no_overtaking (h : QInv q act held) {t : Fin n} (ht : act t = true)
    (hth : held t = false) : q.srv.length ≤ q.tk t ∧ q.arr[q.tk t]? = some t := by
  have h6 := h.act_tk t ht
  refine ⟨?_, h6.2⟩
  have hsl := h.slen
  by_cases h0 : cnt id held = 0
  · omega
  · obtain ⟨u, hu⟩ := exists_of_cnt_pos (Nat.pos_of_ne_zero h0)
    have hlen := cnt_update id held u false
    simp at hu
    simp [hu] at hlen
    have h1 : cnt id (upd held u false) = 0 := by
      apply cnt_zero_of
      intro v
      by_cases he : v = u
      · simp [he]
      · simp only [upd_ne _ _ he, id]
        by_contra hc
        simp only [Bool.not_eq_false] at hc
        exact he (h.held_unique hc hu)
    have hne : q.tk t ≠ q.rel := by
      intro he
      have := h.tk_inj ht (h.held_act u hu) (by rw [he, h.held_tk u hu])
      subst this
      simp [hth] at hu
    omega

/-- If somebody is queued and nobody is inside, the next in line exists. -/
theorem next_in_line (h : QInv q act held) (hno : ∀ u, held u = false) {v : Fin n}
    (hv : act v = true) :
    ∃ t, q.arr[q.srv.length]? = some t ∧ act t = true ∧ q.tk t = q.rel := by
  have hsl : q.srv.length = q.rel := by rw [h.slen, cnt_zero_of (P := id) hno]; rfl
  have hlt : q.rel < q.arr.length := by
    have := h.act_tk v hv
    have := getElem?_lt this.2
    omega
  rw [hsl]
  exact ⟨_, List.getElem?_eq_getElem hlt, h.cov _ _ (Nat.le_refl _) (List.getElem?_eq_getElem hlt)⟩

end QInv
end Verif
