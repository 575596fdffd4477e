import Verif.Array.Array

/-!
# Sequential behaviour of `ck_array` (C51, C52)
-/

namespace Verif.Array

open Verif

variable {V : Type}

/-! ## Lists -/

theorem map_upd_ge {f : Nat → V} {i k : Nat} {a : V} (h : k ≤ i) :
    (List.range k).map (upd f i a) = (List.range k).map f := by
  apply List.map_congr_left
  intro j hj
  rw [upd_ne _ _ (by rw [List.mem_range] at hj; omega)]

theorem map_append {f : Nat → V} {n : Nat} {v : V} :
    (List.range (n + 1)).map (upd f n v) = (List.range n).map f ++ [v] := by
  rw [List.range_succ, List.map_append, map_upd_ge (Nat.le_refl n)]
  simp [upd_same]

theorem fill_perm {f : Nat → V} {a : V} {i k : Nat} (h : i < k) :
    (f i :: (List.range k).map (upd f i a)).Perm ((List.range k).map f ++ [a]) := by
  induction k with
  | zero => omega
  | succ k ih =>
    rw [List.range_succ, List.map_append, List.map_append]
    by_cases e : i = k
    · subst e
      rw [map_upd_ge (Nat.le_refl i)]
      simp only [List.map_cons, List.map_nil, upd_same]
      rw [← List.cons_append]
      exact ((List.perm_append_comm (l₁ := [f i])).append_right [a])
    · have := ih (by omega)
      simp only [List.map_cons, List.map_nil]
      rw [upd_ne _ _ (Ne.symm e), ← List.cons_append]
      refine (this.append_right _).trans ?_
      rw [List.append_assoc, List.append_assoc]
      exact (List.perm_append_comm (l₁ := [a])).append_left _

/-- Filling the hole with the last value removes one occurrence. -/
theorem erase_perm [DecidableEq V] {f : Nat → V} {i n : Nat} (h : i < n) :
    ((List.range (n - 1)).map (upd f i (f (n - 1)))).Perm (((List.range n).map f).erase (f i)) := by
  have hm : f i ∈ (List.range n).map f := List.mem_map.2 ⟨i, List.mem_range.2 h, rfl⟩
  refine List.Perm.cons_inv (a := f i) (List.Perm.trans ?_ (List.perm_cons_erase hm))
  obtain ⟨k, rfl⟩ : ∃ k, n = k + 1 := ⟨n - 1, by omega⟩
  simp only [Nat.add_sub_cancel]
  rw [List.range_succ, List.map_append]
  simp only [List.map_cons, List.map_nil]
  by_cases e : i = k
  · subst e
    rw [map_upd_ge (Nat.le_refl i)]
    exact List.perm_append_comm (l₁ := [f i])
  · exact fill_perm (by omega)

theorem find_some [DecidableEq V] {b : Buf V} {n i : Nat} {v : V} (h : find b n v = some i) :
    i < n ∧ b.val i = v := by
  have h1 := List.find?_some h
  have h2 := List.mem_of_find?_eq_some h
  exact ⟨List.mem_range.1 h2, by simpa using h1⟩

theorem find_none [DecidableEq V] {b : Buf V} {n : Nat} {v : V} (h : find b n v = none) :
    v ∉ (List.range n).map b.val := by
  intro hm
  obtain ⟨i, hi, e⟩ := List.mem_map.1 hm
  have := (List.find?_eq_none.1 h) i hi
  simp [e] at this

theorem mem_of_find [DecidableEq V] {b : Buf V} {n i : Nat} {v : V} (h : find b n v = some i) :
    v ∈ (List.range n).map b.val :=
  List.mem_map.2 ⟨i, List.mem_range.2 (find_some h).1, (find_some h).2⟩

/-! ## Well-formed states -/

structure Wf (m : Mem V) : Prop where
  act : m.active < m.fresh
  unfreed : m.freed m.active = false
  freed : ∀ b, m.freed b = true → b < m.fresh
  pos : 0 < (m.heap (target m)).len
  cap : m.n ≤ (m.heap (target m)).len
  comm : (m.heap m.active).ncomm ≤ (m.heap m.active).len
  plain : m.trans = none → (m.heap m.active).ncomm ≤ m.n
  tran : ∀ t, m.trans = some t → t < m.fresh ∧ t ≠ m.active ∧ m.freed t = false

theorem init_wf {length : Nat} {alloc : Alloc V} {m : Mem V} (h : init length alloc = some m) :
    Wf m ∧ view m = [] ∧ pub m = [] := by
  unfold init at h
  split at h
  · cases h
  · next hl =>
    cases alloc with
    | none => cases h
    | some junk =>
      cases h
      exact ⟨⟨by simp, rfl, by simp, by simp [target]; omega, by simp, by simp, by simp, by simp⟩, rfl, rfl⟩

/-! ## What a statement may do to what readers hold -/

/-- Buffers given up are left alone; the active buffer's committed values are left alone, or it is given up
unchanged. -/
structure Eff (m m' : Mem V) : Prop where
  freed : ∀ b, m.freed b = true → m'.heap b = m.heap b ∧ m'.freed b = true
  act : (m'.active = m.active ∧ (m'.heap m.active).len = (m.heap m.active).len ∧
      (m.heap m.active).ncomm ≤ (m'.heap m.active).ncomm ∧
      ∀ i, i < (m.heap m.active).ncomm → (m'.heap m.active).val i = (m.heap m.active).val i) ∨
    (m'.active ≠ m.active ∧ m'.freed m.active = true ∧ m'.heap m.active = m.heap m.active)
  live : m'.freed m'.active = false
  comm : (m'.heap m'.active).ncomm ≤ (m'.heap m'.active).len

/-- The statements run, respect the readers, and change what readers see at most to `c`. -/
def Effs (c : Option (List V)) : List (Stmt V) → Mem V → Prop
  | [], _ => True
  | f :: fs, m => ∃ m1, f m = some m1 ∧ Eff m m1 ∧ (pub m1 = pub m ∨ c = some (pub m1)) ∧ Effs c fs m1

theorem Wf.target_lt {m : Mem V} (hw : Wf m) : target m < m.fresh := by
  unfold target
  cases ht : m.trans with
  | none => exact hw.act
  | some t => exact (hw.tran t ht).1

theorem Wf.target_unfreed {m : Mem V} (hw : Wf m) : m.freed (target m) = false := by
  unfold target
  cases ht : m.trans with
  | none => exact hw.unfreed
  | some t => exact (hw.tran t ht).2.2

theorem Wf.fresh_unfreed {m : Mem V} (hw : Wf m) : m.freed m.fresh = false := by
  cases h : m.freed m.fresh with
  | false => rfl
  | true => have := hw.freed _ h; omega

/-- One statement that keeps `active`, `freed`, and does not touch buffers given up nor the committed part. -/
theorem Eff.of_same {m m' : Mem V} (hw : Wf m) (ha : m'.active = m.active) (hf : m'.freed = m.freed)
    (hh : ∀ b, m.freed b = true → m'.heap b = m.heap b)
    (hl : (m'.heap m.active).len = (m.heap m.active).len)
    (hc : (m'.heap m.active).ncomm = (m.heap m.active).ncomm)
    (hv : ∀ i, i < (m.heap m.active).ncomm → (m'.heap m.active).val i = (m.heap m.active).val i) :
    Eff m m' ∧ pub m' = pub m := by
  refine ⟨⟨fun b hb => ⟨hh b hb, by rw [hf]; exact hb⟩, Or.inl ⟨ha, hl, by omega, hv⟩, ?_, ?_⟩, ?_⟩
  · rw [ha, hf]; exact hw.unfreed
  · rw [ha, hl, hc]; exact hw.comm
  · unfold pub
    rw [ha, hc]
    apply List.map_congr_left
    intro j hj
    exact hv j (List.mem_range.1 hj)

variable [DecidableEq V]

/-- Allocation worked. -/
def Alloc.ok (a : Alloc V) : Bool := a.isSome

/-- What we show of an operation. -/
def Good (o : Op V) (ok : Bool) (fs : List (Stmt V)) (m : Mem V) : Prop :=
  Effs (match o with | .commit => some (view m) | _ => none) fs m ∧
  ∃ m', exec fs m = some m' ∧ Wf m' ∧ Spec o ok (view m) (pub m) (view m') (pub m')

theorem append_wf {m : Mem V} (hw : Wf m) (hn : m.n < (m.heap (target m)).len) (v : V) :
    ∃ m', append (target m) v m = some m' ∧ Wf m' ∧ Eff m m' ∧ pub m' = pub m ∧ view m' = view m ++ [v] ∧
      m'.trans = m.trans := by
  refine ⟨{ m with heap := upd m.heap (target m) { m.heap (target m) with val := upd (m.heap (target m)).val m.n v },
                   n := m.n + 1 }, by rw [append, if_pos hn], ?_⟩
  have hE := Eff.of_same (m' := { m with
      heap := upd m.heap (target m) { m.heap (target m) with val := upd (m.heap (target m)).val m.n v },
      n := m.n + 1 }) hw rfl rfl
    (fun b hb => upd_ne _ _ (by rintro rfl; rw [hw.target_unfreed] at hb; cases hb))
    (by by_cases e : m.active = target m
        · simp only [e, upd_same]
        · simp only [upd_ne _ _ e])
    (by by_cases e : m.active = target m
        · simp only [e, upd_same]
        · simp only [upd_ne _ _ e])
    (by
      intro i hi
      by_cases e : m.active = target m
      · simp only [e, upd_same]
        have ht : m.trans = none := by
          cases ht : m.trans with
          | none => rfl
          | some t =>
            have := (hw.tran t ht).2.1
            simp only [target, ht, Option.getD_some] at e
            exact absurd e.symm this
        have := hw.plain ht
        rw [e] at hi this
        rw [upd_ne _ _ (by omega)]
      · simp only [upd_ne _ _ e])
  refine ⟨?_, hE.1, hE.2, ?_, rfl⟩
  · refine ⟨hw.act, hw.unfreed, hw.freed, ?_, ?_, hE.1.comm, ?_, hw.tran⟩
    · show 0 < (upd m.heap (target m) _ (target m)).len
      rw [upd_same]; exact hw.pos
    · show m.n + 1 ≤ (upd m.heap (target m) _ (target m)).len
      rw [upd_same]; exact hn
    · intro ht
      have h1 := hw.plain ht
      show (upd m.heap (target m) _ m.active).ncomm ≤ m.n + 1
      by_cases e : m.active = target m
      · simp only [e, upd_same] at h1 ⊢; omega
      · simp only [upd_ne _ _ e]; omega
  · show (List.range (m.n + 1)).map (upd m.heap (target m) _ (target m)).val = _
    rw [upd_same]
    exact map_append

/-- The state after `grow`. -/
def grown (m : Mem V) (junk : Nat → V) : Mem V :=
  { m with
    heap := upd m.heap m.fresh
      { ncomm := (m.heap (target m)).ncomm, len := (m.heap (target m)).len * 2 % 2 ^ 32,
        val := fun i => if i < m.n then (m.heap (target m)).val i else junk i }
    fresh := m.fresh + 1 }

omit [DecidableEq V] in
theorem grown_heap {m : Mem V} {junk : Nat → V} {b : Nat} (h : b < m.fresh) : (grown m junk).heap b = m.heap b := by
  simp only [grown]; rw [upd_ne _ _ (by omega)]

omit [DecidableEq V] in
theorem grown_new (m : Mem V) (junk : Nat → V) : (grown m junk).heap m.fresh =
    { ncomm := (m.heap (target m)).ncomm, len := (m.heap (target m)).len * 2 % 2 ^ 32,
      val := fun i => if i < m.n then (m.heap (target m)).val i else junk i } := upd_same _ _ _

omit [DecidableEq V] in
theorem grown_eff {m : Mem V} (hw : Wf m) (junk : Nat → V) : Eff m (grown m junk) ∧ pub (grown m junk) = pub m := by
  have ha := grown_heap (junk := junk) hw.act
  exact Eff.of_same hw rfl rfl (fun b hb => grown_heap (hw.freed b hb)) (by rw [ha]) (by rw [ha])
    (fun _ _ => by rw [ha])

omit [DecidableEq V] in
/-- The new buffer put in place of the active one. -/
theorem regrow {m : Mem V} (hw : Wf m) (ht : m.trans = none) (hn : m.n = (m.heap m.active).len)
    (hok : (m.heap m.active).len < 2 ^ 31) (junk : Nat → V) :
    ∃ m2, setActive m.fresh (grown m junk) = some m2 ∧ Wf m2 ∧ Eff (grown m junk) m2 ∧ pub m2 = pub m ∧
      view m2 = view m ∧ target m2 = m.fresh ∧ m2.n < (m2.heap (target m2)).len ∧ m2.trans = none := by
  have hta : target m = m.active := by simp [target, ht]
  have hnew := grown_new m junk
  rw [hta] at hnew
  have hpos := hw.pos
  have hpl := hw.plain ht
  rw [hta] at hpos
  have hlen : (m.heap m.active).len * 2 % 2 ^ 32 = (m.heap m.active).len * 2 := Nat.mod_eq_of_lt (by omega)
  have hact := hw.act
  refine ⟨{ grown m junk with active := m.fresh, freed := upd m.freed m.active true }, rfl, ?_, ?_, ?_, ?_, ?_, ?_, ht⟩
  · refine ⟨by simp [grown], ?_, ?_, ?_, ?_, ?_, ?_, ?_⟩
    · show upd m.freed m.active true m.fresh = false
      rw [upd_ne _ _ (by omega)]; exact hw.fresh_unfreed
    · intro b hb
      show b < m.fresh + 1
      simp only [upd_apply] at hb
      split at hb
      · omega
      · have := hw.freed b hb; omega
    · simp only [target, grown, ht, Option.getD_none] at hnew ⊢
      rw [hnew]; simp only [hlen]; omega
    · simp only [target, grown, ht, Option.getD_none] at hnew ⊢
      rw [hnew]; simp only [hlen]; omega
    · show ((grown m junk).heap m.fresh).ncomm ≤ ((grown m junk).heap m.fresh).len
      rw [hnew]; simp only [hlen]; omega
    · intro _
      show ((grown m junk).heap m.fresh).ncomm ≤ m.n
      rw [hnew]; exact hpl
    · intro t h; rw [show m.trans = some t from h] at ht; cases ht
  · refine ⟨?_, Or.inr ⟨?_, ?_, rfl⟩, ?_, ?_⟩
    · intro b hb
      refine ⟨rfl, ?_⟩
      show upd m.freed m.active true b = true
      rw [upd_apply]; split
      · rfl
      · exact hb
    · show m.fresh ≠ m.active; omega
    · exact upd_same _ _ _
    · show upd m.freed m.active true m.fresh = false
      rw [upd_ne _ _ (by omega)]; exact hw.fresh_unfreed
    · show ((grown m junk).heap m.fresh).ncomm ≤ ((grown m junk).heap m.fresh).len
      rw [hnew]; simp only [hlen]; omega
  · show (List.range ((grown m junk).heap m.fresh).ncomm).map ((grown m junk).heap m.fresh).val = pub m
    rw [hnew]
    apply List.map_congr_left
    intro j hj
    simp only [List.mem_range] at hj
    exact if_pos (by omega)
  · have : target ({ grown m junk with active := m.fresh, freed := upd m.freed m.active true } : Mem V) = m.fresh := by
      simp [target, grown, ht]
    unfold view
    rw [this, hta]
    show (List.range m.n).map ((grown m junk).heap m.fresh).val = _
    rw [hnew]
    apply List.map_congr_left
    intro j hj
    exact if_pos (List.mem_range.1 hj)
  · simp [target, grown, ht]
  · have : target ({ grown m junk with active := m.fresh, freed := upd m.freed m.active true } : Mem V) = m.fresh := by
      simp [target, grown, ht]
    rw [this]
    show m.n < ((grown m junk).heap m.fresh).len
    rw [hnew]; simp only [hlen]; omega

omit [DecidableEq V] in
/-- The new buffer put in place of the transaction. -/
theorem regrowT {m : Mem V} (hw : Wf m) {t : Nat} (ht : m.trans = some t) (hn : m.n = (m.heap t).len)
    (hok : (m.heap t).len < 2 ^ 31) (junk : Nat → V) :
    ∃ m2, setTrans m.fresh (grown m junk) = some m2 ∧ Wf m2 ∧ Eff (grown m junk) m2 ∧ pub m2 = pub m ∧
      view m2 = view m ∧ target m2 = m.fresh ∧ m2.n < (m2.heap (target m2)).len ∧ m2.trans ≠ none := by
  have hta : target m = t := by simp [target, ht]
  have hnew := grown_new m junk
  rw [hta] at hnew
  have hpos := hw.pos
  rw [hta] at hpos
  have hlen : (m.heap t).len * 2 % 2 ^ 32 = (m.heap t).len * 2 := Nat.mod_eq_of_lt (by omega)
  have hact := hw.act
  have hga := grown_heap (junk := junk) hact
  have ht2 : target ({ grown m junk with trans := some m.fresh } : Mem V) = m.fresh := by simp [target]
  refine ⟨{ grown m junk with trans := some m.fresh }, rfl, ?_, ?_, ?_, ?_, ht2, ?_, by simp⟩
  · refine ⟨by simp [grown]; omega, hw.unfreed, ?_, ?_, ?_, ?_, ?_, ?_⟩
    · intro b hb
      have := hw.freed b hb
      show b < m.fresh + 1; omega
    · rw [ht2]; show 0 < ((grown m junk).heap m.fresh).len
      rw [hnew]; simp only [hlen]; omega
    · rw [ht2]; show m.n ≤ ((grown m junk).heap m.fresh).len
      rw [hnew]; simp only [hlen]; omega
    · show ((grown m junk).heap m.active).ncomm ≤ ((grown m junk).heap m.active).len
      rw [hga]; exact hw.comm
    · intro h; cases h
    · intro t' h
      cases h
      exact ⟨by simp [grown], by show m.fresh ≠ m.active; omega, hw.fresh_unfreed⟩
  · refine ⟨fun b hb => ⟨rfl, hb⟩, Or.inl ⟨rfl, rfl, Nat.le_refl _, fun _ _ => rfl⟩, hw.unfreed, ?_⟩
    show ((grown m junk).heap m.active).ncomm ≤ ((grown m junk).heap m.active).len
    rw [hga]; exact hw.comm
  · show pub (grown m junk) = pub m
    exact (grown_eff hw junk).2
  · unfold view
    rw [ht2, hta]
    show (List.range m.n).map ((grown m junk).heap m.fresh).val = _
    rw [hnew]
    apply List.map_congr_left
    intro j hj
    exact if_pos (List.mem_range.1 hj)
  · rw [ht2]
    show m.n < ((grown m junk).heap m.fresh).len
    rw [hnew]; simp only [hlen]; omega

omit [DecidableEq V] in
theorem ne_append {w : List V} {v : V} : ¬ w = w ++ [v] := by
  intro h; have := congrArg List.length h; simp at this

/-- `ck_array_put` on any well-formed array. -/
theorem put_good {m : Mem V} (hw : Wf m) {v : V} {alloc : Alloc V} (hok : (m.heap (target m)).len < 2 ^ 31) :
    Effs none (put v alloc m).1 m ∧
    ∃ m', exec (put v alloc m).1 m = some m' ∧ Wf m' ∧ pub m' = pub m ∧
      (view m' = view m ++ [v] ∨ alloc = none ∧ m' = m) ∧
      ((put v alloc m).2 = true ↔ m.trans = none ∧ view m' = view m ++ [v]) := by
  cases ht : m.trans with
  | none =>
    have hta : target m = m.active := by simp [target, ht]
    rw [hta] at hok
    by_cases hn : m.n = (m.heap m.active).len
    · cases alloc with
      | none =>
        simp only [put, ht, if_pos hn]
        exact ⟨trivial, m, rfl, hw, rfl, Or.inr ⟨trivial, rfl⟩, by simp [ne_append]⟩
      | some junk =>
        simp only [put, ht, if_pos hn]
        obtain ⟨m2, k1, k2, k3, k4, k5, k6, k7, -⟩ := regrow hw ht hn hok junk
        obtain ⟨m3, l1, l2, l3, l4, l5, -⟩ := append_wf k2 k7 v
        have h0 : grow m.active junk m = some (grown m junk) := by rw [← hta]; rfl
        rw [k6] at l1
        have hE := grown_eff hw junk
        refine ⟨⟨_, h0, hE.1, Or.inl hE.2, m2, k1, k3, Or.inl (by rw [k4, hE.2]), m3, l1, l3, Or.inl l4, trivial⟩, m3,
          by simp only [exec, h0, k1, l1, Option.bind_some], l2, by rw [l4, k4], Or.inl (by rw [l5, k5]), ?_⟩
        rw [l5, k5]; simp
    · have hlt : m.n < (m.heap (target m)).len := by rw [hta]; have := hw.cap; rw [hta] at this; omega
      obtain ⟨m', l1, l2, l3, l4, l5, -⟩ := append_wf hw hlt v
      rw [hta] at l1
      simp only [put, ht, if_neg hn]
      exact ⟨⟨m', l1, l3, Or.inl l4, trivial⟩, m', by simp only [exec, l1, Option.bind_some], l2, l4, Or.inl l5,
        by simp [l5]⟩
  | some t =>
    have hta : target m = t := by simp [target, ht]
    rw [hta] at hok
    by_cases hn : m.n = (m.heap t).len
    · cases alloc with
      | none =>
        simp only [put, ht, if_pos hn]
        exact ⟨trivial, m, rfl, hw, rfl, Or.inr ⟨trivial, rfl⟩, by simp⟩
      | some junk =>
        simp only [put, ht, if_pos hn]
        obtain ⟨m2, k1, k2, k3, k4, k5, k6, k7, -⟩ := regrowT hw ht hn hok junk
        obtain ⟨m3, l1, l2, l3, l4, l5, -⟩ := append_wf k2 k7 v
        have h0 : grow t junk m = some (grown m junk) := by rw [← hta]; rfl
        rw [k6] at l1
        have hE := grown_eff hw junk
        refine ⟨⟨_, h0, hE.1, Or.inl hE.2, m2, k1, k3, Or.inl (by rw [k4, hE.2]), m3, l1, l3, Or.inl l4, trivial⟩, m3,
          by simp only [exec, h0, k1, l1, Option.bind_some], l2, by rw [l4, k4], Or.inl (by rw [l5, k5]), ?_⟩
        simp
    · have hlt : m.n < (m.heap (target m)).len := by rw [hta]; have := hw.cap; rw [hta] at this; omega
      obtain ⟨m', l1, l2, l3, l4, l5, -⟩ := append_wf hw hlt v
      rw [hta] at l1
      simp only [put, ht, if_neg hn]
      exact ⟨⟨m', l1, l3, Or.inl l4, trivial⟩, m', by simp only [exec, l1, Option.bind_some], l2, l4, Or.inl l5,
        by simp⟩

theorem fill_wf {m : Mem V} (hw : Wf m) {i : Nat} (hi : i < m.n)
    (hc : m.trans = none → (m.heap m.active).ncomm ≤ i) :
    ∃ m', fill (target m) i m = some m' ∧ Wf m' ∧ Eff m m' ∧ pub m' = pub m ∧
      (view m').Perm ((view m).erase ((m.heap (target m)).val i)) := by
  have hcap := hw.cap
  have hE := Eff.of_same (m' := { m with
      heap := upd m.heap (target m) { m.heap (target m) with
        val := upd (m.heap (target m)).val i ((m.heap (target m)).val (m.n - 1)) },
      n := m.n - 1 }) hw rfl rfl
    (fun b hb => upd_ne _ _ (by rintro rfl; rw [hw.target_unfreed] at hb; cases hb))
    (by by_cases e : m.active = target m
        · simp only [e, upd_same]
        · simp only [upd_ne _ _ e])
    (by by_cases e : m.active = target m
        · simp only [e, upd_same]
        · simp only [upd_ne _ _ e])
    (by
      intro j hj
      by_cases e : m.active = target m
      · simp only [e, upd_same]
        have ht : m.trans = none := by
          cases ht : m.trans with
          | none => rfl
          | some t =>
            have := (hw.tran t ht).2.1
            simp only [target, ht, Option.getD_some] at e
            exact absurd e.symm this
        have := hc ht
        rw [e] at hj this
        rw [upd_ne _ _ (by omega)]
      · simp only [upd_ne _ _ e])
  refine ⟨_, by rw [fill, if_pos ⟨by omega, by omega⟩], ?_, hE.1, hE.2, ?_⟩
  · refine ⟨hw.act, hw.unfreed, hw.freed, ?_, ?_, hE.1.comm, ?_, hw.tran⟩
    · show 0 < (upd m.heap (target m) _ (target m)).len
      rw [upd_same]; exact hw.pos
    · show m.n - 1 ≤ (upd m.heap (target m) _ (target m)).len
      rw [upd_same]; exact Nat.le_trans (Nat.sub_le _ _) hw.cap
    · intro ht
      have h1 := hc ht
      show (upd m.heap (target m) _ m.active).ncomm ≤ m.n - 1
      by_cases e : m.active = target m
      · simp only [e, upd_same] at h1 ⊢; omega
      · simp only [upd_ne _ _ e]; omega
  · show ((List.range (m.n - 1)).map (upd m.heap (target m) _ (target m)).val).Perm _
    rw [upd_same]
    exact erase_perm hi

omit [DecidableEq V] in
/-- The transactional copy. -/
theorem copy_wf [DecidableEq V] {m : Mem V} (hw : Wf m) {i : Nat} (hi : i < m.n) (ht : m.trans = none)
    (junk : Nat → V) :
    ∃ m', copy i junk m = some m' ∧ Wf m' ∧ Eff m m' ∧ pub m' = pub m ∧
      (view m').Perm ((view m).erase ((m.heap m.active).val i)) := by
  have hta : target m = m.active := by simp [target, ht]
  have hcap := hw.cap
  rw [hta] at hcap
  have hact := hw.act
  have hE := Eff.of_same (m' := { m with
      heap := upd m.heap m.fresh { ncomm := m.n, len := m.n, val := upd (fun j => if j < m.n then
          (m.heap m.active).val j else junk j) i ((m.heap m.active).val (m.n - 1)) }
      fresh := m.fresh + 1
      n := m.n - 1
      trans := some m.fresh }) hw rfl rfl
    (fun b hb => upd_ne _ _ (by have := hw.freed b hb; omega))
    (by simp only; rw [upd_ne _ _ (by omega)]) (by simp only; rw [upd_ne _ _ (by omega)])
    (by intro j hj; simp only; rw [upd_ne _ _ (by omega)])
  refine ⟨_, by rw [copy]; exact if_pos ⟨hcap, hi⟩, ?_, hE.1, hE.2, ?_⟩
  · refine ⟨by show m.active < m.fresh + 1; omega, hw.unfreed, ?_, ?_, ?_, hE.1.comm, ?_, ?_⟩
    · intro b hb; have := hw.freed b hb; show b < m.fresh + 1; omega
    · show 0 < (upd m.heap m.fresh _ m.fresh).len
      rw [upd_same]; show 0 < m.n; omega
    · show m.n - 1 ≤ (upd m.heap m.fresh _ m.fresh).len
      rw [upd_same]; show m.n - 1 ≤ m.n; omega
    · intro h; cases h
    · intro t h
      cases h
      exact ⟨by show m.fresh < m.fresh + 1; omega, by show m.fresh ≠ m.active; omega, hw.fresh_unfreed⟩
  · show ((List.range (m.n - 1)).map (upd m.heap m.fresh _ m.fresh).val).Perm _
    rw [upd_same]
    have e : view m = (List.range m.n).map (m.heap m.active).val := by rw [view, hta]
    have e2 : view m = (List.range m.n).map (fun j => if j < m.n then (m.heap m.active).val j else junk j) := by
      rw [e]
      apply List.map_congr_left
      intro j hj
      exact (if_pos (List.mem_range.1 hj)).symm
    rw [e2]
    have := erase_perm (f := fun j => if j < m.n then (m.heap m.active).val j else junk j) hi
    simp only [if_pos hi, if_pos (show m.n - 1 < m.n by omega)] at this
    exact this

theorem remove_good {m : Mem V} (hw : Wf m) {v : V} {alloc : Alloc V} (hok : Ok (.remove v) m) :
    Effs none (remove v alloc m).1 m ∧
    ∃ m', exec (remove v alloc m).1 m = some m' ∧ Wf m' ∧ pub m' = pub m ∧
      ((remove v alloc m).2 = true → v ∈ view m ∧ (view m').Perm ((view m).erase v)) ∧
      ((remove v alloc m).2 = false → m' = m ∧ (v ∈ view m → alloc = none)) := by
  cases ht : m.trans with
  | some t =>
    have hta : target m = t := by simp [target, ht]
    cases hf : find (m.heap t) m.n v with
    | none =>
      simp only [remove, ht, hf]
      refine ⟨trivial, m, rfl, hw, rfl, by simp, fun _ => ⟨rfl, fun h => ?_⟩⟩
      rw [view, hta] at h
      exact absurd h (find_none hf)
    | some i =>
      simp only [remove, ht, hf]
      obtain ⟨hi, hv⟩ := find_some hf
      obtain ⟨m', l1, l2, l3, l4, l5⟩ := fill_wf hw hi (fun h => by rw [ht] at h; cases h)
      rw [hta] at l1 l5
      rw [hv] at l5
      refine ⟨⟨m', l1, l3, Or.inl l4, trivial⟩, m', by simp only [exec, l1, Option.bind_some], l2, l4,
        fun _ => ⟨?_, l5⟩, by simp⟩
      rw [view, hta]; exact mem_of_find hf
  | none =>
    have hta : target m = m.active := by simp [target, ht]
    cases hf : find (m.heap m.active) m.n v with
    | none =>
      simp only [remove, ht, hf]
      refine ⟨trivial, m, rfl, hw, rfl, by simp, fun _ => ⟨rfl, fun h => ?_⟩⟩
      rw [view, hta] at h
      exact absurd h (find_none hf)
    | some i =>
      obtain ⟨hi, hv⟩ := find_some hf
      have hmem : v ∈ view m := by rw [view, hta]; exact mem_of_find hf
      by_cases hc : (m.heap m.active).ncomm ≠ m.n
      · simp only [remove, ht, hf, if_pos hc]
        obtain ⟨m', l1, l2, l3, l4, l5⟩ := fill_wf hw hi
          (fun h => (hok h).resolve_left (fun e => hc e.symm) i hf)
        rw [hta] at l1 l5
        rw [hv] at l5
        exact ⟨⟨m', l1, l3, Or.inl l4, trivial⟩, m', by simp only [exec, l1, Option.bind_some], l2, l4,
          fun _ => ⟨hmem, l5⟩, by simp⟩
      · cases alloc with
        | none =>
          simp only [remove, ht, hf, if_neg hc]
          exact ⟨trivial, m, rfl, hw, rfl, by simp, fun _ => ⟨rfl, fun _ => trivial⟩⟩
        | some junk =>
          simp only [remove, ht, hf, if_neg hc]
          obtain ⟨m', l1, l2, l3, l4, l5⟩ := copy_wf hw hi ht junk
          rw [hv] at l5
          exact ⟨⟨m', l1, l3, Or.inl l4, trivial⟩, m', by simp only [exec, l1, Option.bind_some], l2, l4,
            fun _ => ⟨hmem, l5⟩, by simp⟩

omit [DecidableEq V] in
theorem commit_good {m : Mem V} (hw : Wf m) :
    Effs (some (view m)) (commit m) m ∧
    ∃ m', exec (commit m) m = some m' ∧ Wf m' ∧ view m' = view m ∧ pub m' = view m ∧ m'.trans = none := by
  cases ht : m.trans with
  | none =>
    have hta : target m = m.active := by simp [target, ht]
    have hcap := hw.cap
    rw [hta] at hcap
    have hpl := hw.plain ht
    have hpos := hw.pos
    rw [hta] at hpos
    simp only [commit, ht]
    let m' : Mem V := { m with heap := upd m.heap m.active { m.heap m.active with ncomm := m.n } }
    have hta' : target m' = m.active := by simp [target, m', ht]
    have hh : m'.heap m.active = { m.heap m.active with ncomm := m.n } := upd_same _ _ _
    have hpub : pub m' = view m := by
      rw [view, hta]
      show (List.range (m'.heap m.active).ncomm).map (m'.heap m.active).val = _
      rw [hh]
    have hE : Eff m m' := by
      refine ⟨fun b hb => ⟨upd_ne _ _ (by rintro rfl; rw [hw.unfreed] at hb; cases hb), hb⟩,
        Or.inl ⟨rfl, by rw [hh], by rw [hh]; exact hpl, by rw [hh]; exact fun _ _ => rfl⟩, hw.unfreed, ?_⟩
      show (m'.heap m.active).ncomm ≤ (m'.heap m.active).len
      rw [hh]; exact hcap
    refine ⟨⟨m', rfl, hE, Or.inr (by rw [hpub]), trivial⟩, m', rfl, ?_, ?_, hpub, ht⟩
    · refine ⟨hw.act, hw.unfreed, hw.freed, ?_, ?_, hE.comm, ?_, hw.tran⟩
      · rw [hta', hh]; exact hpos
      · rw [hta', hh]; exact hcap
      · intro _; show (m'.heap m.active).ncomm ≤ m.n; rw [hh]; exact Nat.le_refl _
    · rw [view, view, hta', hta, hh]
  | some t =>
    have hta : target m = t := by simp [target, ht]
    have hcap := hw.cap
    rw [hta] at hcap
    have hpos := hw.pos
    rw [hta] at hpos
    obtain ⟨t1, t2, t3⟩ := hw.tran t ht
    simp only [commit, ht]
    let m1 : Mem V := { m with heap := upd m.heap t { m.heap t with ncomm := m.n } }
    let m2 : Mem V := { m1 with active := t, freed := upd m1.freed m.active true }
    let m3 : Mem V := { m2 with trans := none }
    have hh : m1.heap t = { m.heap t with ncomm := m.n } := upd_same _ _ _
    have ha : m1.heap m.active = m.heap m.active := upd_ne _ _ (Ne.symm t2)
    have hE1 := Eff.of_same (m' := m1) hw rfl rfl
      (fun b hb => upd_ne _ _ (by rintro rfl; rw [t3] at hb; cases hb)) (by rw [ha]) (by rw [ha])
      (fun _ _ => by rw [ha])
    have hfr : m2.freed t = false := by
      show upd m.freed m.active true t = false
      rw [upd_ne _ _ t2]; exact t3
    have hcm : (m1.heap t).ncomm ≤ (m1.heap t).len := by rw [hh]; exact hcap
    have hE2 : Eff m1 m2 := by
      refine ⟨fun b hb => ⟨rfl, ?_⟩, Or.inr ⟨t2, upd_same _ _ _, rfl⟩, hfr, hcm⟩
      show upd m.freed m.active true b = true
      rw [upd_apply]; split
      · rfl
      · exact hb
    have hE3 : Eff m2 m3 := ⟨fun b hb => ⟨rfl, hb⟩, Or.inl ⟨rfl, rfl, Nat.le_refl _, fun _ _ => rfl⟩, hfr, hcm⟩
    have hpub : pub m2 = view m := by
      rw [view, hta]
      show (List.range (m1.heap t).ncomm).map (m1.heap t).val = _
      rw [hh]
    refine ⟨⟨m1, rfl, hE1.1, Or.inl hE1.2, m2, rfl, hE2, Or.inr (by rw [hpub]), m3, rfl, hE3, Or.inl rfl, trivial⟩, m3,
      rfl, ?_, ?_, hpub, rfl⟩
    · refine ⟨t1, hfr, ?_, ?_, ?_, hcm, ?_, by intro _ h; cases h⟩
      · intro b hb
        have hb : upd m.freed m.active true b = true := hb
        rw [upd_apply] at hb
        split at hb
        · next e => rw [e]; exact hw.act
        · exact hw.freed b hb
      · show 0 < (m1.heap t).len
        rw [hh]; exact hpos
      · show m.n ≤ (m1.heap t).len
        rw [hh]; exact hcap
      · intro _; show (m1.heap t).ncomm ≤ m.n
        rw [hh]; exact Nat.le_refl _
    · rw [view, view, hta]
      show (List.range m.n).map (m1.heap t).val = _
      rw [hh]

/-- Every operation, statement by statement and as a whole. -/
theorem op_good {m : Mem V} (hw : Wf m) {o : Op V} {alloc : Alloc V} (hok : Ok o m) :
    Effs (match o with | .commit => some (view m) | _ => none) (prog o alloc m) m ∧
    ∃ m', exec (prog o alloc m) m = some m' ∧ Wf m' ∧ Spec o alloc.isSome (view m) (pub m) (view m') (pub m') := by
  cases o with
  | put v =>
    obtain ⟨h1, m', h2, h3, h4, h5, -⟩ := put_good (v := v) (alloc := alloc) hw hok
    refine ⟨h1, m', h2, h3, h4, ?_⟩
    rcases h5 with h5 | ⟨h5, h6⟩
    · left; rw [h5]; exact List.perm_append_comm (l₂ := [v])
    · right; exact ⟨by rw [h5]; rfl, by rw [h6]⟩
  | putUnique v =>
    simp only [prog, putUnique]
    cases hf : find (m.heap (target m)) m.n v with
    | some i =>
      refine ⟨trivial, m, rfl, hw, rfl, ?_⟩
      rw [if_pos (show v ∈ view m from mem_of_find hf)]
    | none =>
      obtain ⟨h1, m', h2, h3, h4, h5, -⟩ := put_good (v := v) (alloc := alloc) hw hok
      refine ⟨h1, m', h2, h3, h4, ?_⟩
      rw [if_neg (show v ∉ view m from find_none hf)]
      rcases h5 with h5 | ⟨h5, h6⟩
      · left; rw [h5]; exact List.perm_append_comm (l₂ := [v])
      · right; exact ⟨by rw [h5]; rfl, by rw [h6]⟩
  | remove v =>
    obtain ⟨h1, m', h2, h3, h4, h5, h6⟩ := remove_good (v := v) (alloc := alloc) hw hok
    refine ⟨h1, m', h2, h3, h4, ?_⟩
    cases hr : (remove v alloc m).2 with
    | true => rw [if_pos (h5 hr).1]; exact Or.inl (h5 hr).2
    | false =>
      obtain ⟨rfl, h8⟩ := h6 hr
      by_cases hv : v ∈ view m'
      · rw [if_pos hv]; exact Or.inr ⟨by rw [h8 hv]; rfl, rfl⟩
      · rw [if_neg hv]
  | commit =>
    obtain ⟨h1, m', h2, h3, h4, h5, -⟩ := commit_good hw
    exact ⟨h1, m', h2, h3, h4, h5⟩

/-! ## C52: return values -/

/-- The full claim about `ck_array_put`: true iff the value was added. -/
def PutReports (v : V) (alloc : Alloc V) (m : Mem V) : Prop :=
  ∀ m', exec (put v alloc m).1 m = some m' → ((put v alloc m).2 = true ↔ (view m').Perm (v :: view m))

/-- The full claim about `ck_array_put_unique`: 1 iff the value was there, 0 iff it was added, -1 iff neither. -/
def UniqueReports (v : V) (alloc : Alloc V) (m : Mem V) : Prop :=
  ∀ m', exec (putUnique v alloc m).1 m = some m' →
    ((putUnique v alloc m).2 = 1 ↔ v ∈ view m) ∧
    ((putUnique v alloc m).2 = 0 ↔ v ∉ view m ∧ (view m').Perm (v :: view m)) ∧
    ((putUnique v alloc m).2 = -1 ↔ v ∉ view m ∧ view m' = view m)

omit [DecidableEq V] in
theorem not_perm_cons {w : List V} {v : V} : ¬ w.Perm (v :: w) := by
  intro h; have := h.length_eq; simp at this

/-- Missing: states with a pending transaction (`put_trans_wrong`). -/
theorem put_reports_partial {m : Mem V} (hw : Wf m) {v : V} {alloc : Alloc V}
    (hok : (m.heap (target m)).len < 2 ^ 31) (ht : m.trans = none) : PutReports v alloc m := by
  intro m' he
  obtain ⟨-, m'', h2, -, -, h5, h6⟩ := put_good (v := v) (alloc := alloc) hw hok
  rw [he] at h2
  cases h2
  rw [h6]
  constructor
  · rintro ⟨-, e⟩; rw [e]; exact List.perm_append_comm (l₂ := [v])
  · intro hp
    refine ⟨ht, h5.resolve_right ?_⟩
    rintro ⟨-, rfl⟩
    exact not_perm_cons hp

/-- Missing: states with a pending transaction (`put_trans_wrong`). -/
theorem unique_reports_partial {m : Mem V} (hw : Wf m) {v : V} {alloc : Alloc V}
    (hok : (m.heap (target m)).len < 2 ^ 31) (ht : m.trans = none) : UniqueReports v alloc m := by
  intro m' he
  simp only [putUnique] at he ⊢
  cases hf : find (m.heap (target m)) m.n v with
  | some i =>
    rw [hf] at he
    cases he
    have : v ∈ view m := mem_of_find hf
    simp [this]
  | none =>
    rw [hf] at he
    have hv : v ∉ view m := find_none hf
    have hp := put_reports_partial hw hok ht m' he
    obtain ⟨-, m'', h2, -, -, h5, -⟩ := put_good (v := v) (alloc := alloc) hw hok
    rw [he] at h2
    cases h2
    cases hr : (put v alloc m).2 with
    | true =>
      have hq := hp.1 hr
      simp only [hv, if_true]
      refine ⟨by decide, ⟨fun _ => ⟨not_false, hq⟩, fun _ => trivial⟩, ⟨fun h => absurd h (by decide), ?_⟩⟩
      rintro ⟨-, e2⟩; rw [e2] at hq; exact absurd hq not_perm_cons
    | false =>
      rw [hr] at hp
      simp only [hv, Bool.false_eq_true, if_false]
      refine ⟨by decide, ⟨fun h => absurd h (by decide), fun h => absurd (hp.2 h.2) (by decide)⟩,
        ⟨fun _ => ⟨not_false, ?_⟩, fun _ => trivial⟩⟩
      rcases h5 with h5 | ⟨-, rfl⟩
      · exact absurd (hp.2 (by rw [h5]; exact List.perm_append_comm (l₂ := [v]))) (by decide)
      · rfl

/-- With a transaction pending, `ck_array_put` never reports success although it adds the value, and
`ck_array_put_unique` reports failure. -/
theorem put_trans_wrong {m : Mem V} (hw : Wf m) {v : V} {t : Nat} {junk : Nat → V}
    (hok : (m.heap (target m)).len < 2 ^ 31) (ht : m.trans = some t) (hv : v ∉ view m) :
    ∃ m', exec (put v (some junk) m).1 m = some m' ∧ (put v (some junk) m).2 = false ∧
      (putUnique v (some junk) m).2 = -1 ∧ (view m').Perm (v :: view m) := by
  obtain ⟨-, m', h2, -, -, h5, h6⟩ := put_good (v := v) (alloc := some junk) hw hok
  have hr : (put v (some junk) m).2 = false := by
    cases hr : (put v (some junk) m).2 with
    | false => rfl
    | true => have := (h6.1 hr).1; rw [ht] at this; cases this
  refine ⟨m', h2, hr, ?_, ?_⟩
  · simp only [putUnique]
    cases hf : find (m.heap (target m)) m.n v with
    | some i => exact absurd (mem_of_find hf) hv
    | none => simp [hr]
  · rcases h5 with h5 | ⟨h5, -⟩
    · rw [h5]; exact List.perm_append_comm (l₂ := [v])
    · cases h5

/-- Removal reports success iff the value was there and one occurrence is gone, unless memory ran out. -/
theorem remove_reports {m : Mem V} (hw : Wf m) {v : V} {alloc : Alloc V} (hok : Ok (.remove v) m) :
    ∃ m', exec (remove v alloc m).1 m = some m' ∧
      ((remove v alloc m).2 = true → v ∈ view m ∧ (view m').Perm ((view m).erase v)) ∧
      ((remove v alloc m).2 = false → m' = m ∧ (v ∈ view m → alloc = none)) := by
  obtain ⟨-, m', h1, -, -, h2, h3⟩ := remove_good (alloc := alloc) hw hok
  exact ⟨m', h1, h2, h3⟩

/-! ## Concrete cases -/

/-- Two values committed, a third pending. -/
def ex1 : Mem Nat :=
  { heap := fun _ => { ncomm := 2, len := 4, val := fun i => i + 10 }, fresh := 1, active := 0, n := 3,
    trans := none, freed := fun _ => false }

/-- Two values committed, one of them removed in a transaction. -/
def ex2 : Mem Nat :=
  { heap := fun b => if b = 0 then { ncomm := 2, len := 2, val := fun i => i + 10 }
      else { ncomm := 2, len := 2, val := fun _ => 11 }
    fresh := 2, active := 0, n := 1, trans := some 1, freed := fun _ => false }

theorem ex1_wf : Wf ex1 := ⟨by decide, rfl, by simp [ex1], by decide, by decide, by decide, by decide, by simp [ex1]⟩
theorem ex2_wf : Wf ex2 := ⟨by decide, rfl, by simp [ex2], by decide, by decide, by decide, by simp [ex2],
  by simp [ex2]⟩

example : view ex1 = [10, 11, 12] ∧ pub ex1 = [10, 11] ∧ Ok (.put 7) ex1 ∧ Ok (.remove 12) ex1 := by
  refine ⟨rfl, rfl, ?_, ?_⟩
  · show (4 : Nat) < 2 ^ 31; decide
  · intro _; right; intro i hi; have : i = 2 := by simpa [find, ex1, List.range, List.range.loop] using hi.symm
    subst this; decide
example : view ex2 = [11] ∧ pub ex2 = [10, 11] ∧ Ok (.remove 11) ex2 ∧ 5 ∉ view ex2 :=
  by
  refine ⟨rfl, rfl, ?_, by decide⟩
  intro h; simp [ex2] at h

/-- C51 is violated by `ck_array_remove` while additions are pending: it overwrites a committed value in place, and
readers see the removal and the addition, neither of them committed. -/
theorem remove_pending_visible : ∃ m', exec (remove 10 none ex1).1 ex1 = some m' ∧ pub ex1 = [10, 11] ∧
    pub m' = [12, 11] :=
  ⟨_, rfl, rfl, rfl⟩

omit [DecidableEq V] in
/-- A buffer of `2^31` entries is not doubled: the next store is outside the memory. -/
theorem put_overflow {junk : Nat → V} {m : Mem V} (ht : m.trans = none) (hn : m.n = 2 ^ 31)
    (hl : (m.heap m.active).len = 2 ^ 31) {v : V} : exec (put v (some junk) m).1 m = none := by
  simp [put, ht, hn, hl, exec, grow, setActive, append, upd_same]

end Verif.Array
