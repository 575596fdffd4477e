import Verif.Bitmap.Thm

/-! # The bitmap iterator (C45) and sequences of bitmap operations (C44) -/

namespace Verif.Bitmap

/-- Positions an iterator still has to report. -/
def Rem (b : Bm) (it : It) (i : Nat) : Prop :=
  (i / 32 = it.block ∧ it.cache.getLsbD (i % 32) = true) ∨
    (it.block < i / 32 ∧ i / 32 < it.limit ∧ bit b i = true)

theorem scan_eq (b : Bm) (c : Nat) : ∀ i, i + c ≤ blocks b.n →
    (∃ j, scan b c i = some (some (b.map j), j) ∧ i ≤ j ∧ j < i + c ∧ b.map j ≠ 0#32 ∧
      ∀ k, i ≤ k → k < j → b.map k = 0#32) ∨
    (scan b c i = some (none, i + c) ∧ ∀ k, i ≤ k → k < i + c → b.map k = 0#32) := by
  induction c with
  | zero => intro i _; right; exact ⟨rfl, fun k h1 h2 => by omega⟩
  | succ c ih =>
    intro i h
    unfold scan
    rw [ld_eq (by omega : i < blocks b.n)]
    simp only [Option.bind_eq_bind, Option.bind_some]
    by_cases hz : b.map i = 0#32
    · rw [if_neg (by simpa using hz)]
      rcases ih (i + 1) (by omega) with ⟨j, he, h1, h2, h3, h4⟩ | ⟨he, h1⟩
      · left
        refine ⟨j, he, by omega, by omega, h3, fun k hk1 hk2 => ?_⟩
        by_cases hk : k = i
        · rw [hk]; exact hz
        · exact h4 k (by omega) hk2
      · right
        refine ⟨by rw [he, show i + 1 + c = i + (c + 1) by omega], fun k hk1 hk2 => ?_⟩
        by_cases hk : k = i
        · rw [hk]; exact hz
        · exact h1 k (by omega) (by omega)
    · left
      rw [if_pos hz]
      exact ⟨i, rfl, by omega, by omega, hz, fun k h1 h2 => by omega⟩

theorem emit_spec {b : Bm} {it : It} {w : BitVec 32} {j : Nat} (hw : w ≠ 0#32)
    (hr : ∀ i, Rem b it i ↔ Rem b { it with cache := w, block := j } i) :
    ∃ i, emit it w j = (some i, (emit it w j).2) ∧ Rem b it i ∧ (∀ k, Rem b it k → i ≤ k) ∧
      ∀ k, Rem b (emit it w j).2 k ↔ Rem b it k ∧ k ≠ i := by
  obtain ⟨h32, hm, hl⟩ := ctz_lowest hw
  have hd : (32 * j + ctz w) / 32 = j := by omega
  have hmod : (32 * j + ctz w) % 32 = ctz w := by omega
  refine ⟨32 * j + ctz w, rfl, ?_, fun k hk => ?_, fun k => ?_⟩
  · rw [hr]; left; rw [hd, hmod]; exact ⟨rfl, hm⟩
  · rw [hr] at hk
    rcases hk with ⟨h1, h2⟩ | ⟨h1, _⟩
    · simp only at h1 h2
      have : ctz w ≤ k % 32 := by
        by_contra hc
        rw [hl _ (by omega)] at h2; simp at h2
      omega
    · simp only at h1; omega
  · rw [hr]
    simp only [emit, Rem]
    rw [clear_low hm hl, Bool.and_eq_true, decide_eq_true_iff]
    constructor
    · rintro (⟨h1, h2, h3⟩ | ⟨h1, h2⟩)
      · exact ⟨Or.inl ⟨h1, h2⟩, fun e => h3 (by rw [e, hmod])⟩
      · exact ⟨Or.inr ⟨h1, h2⟩, fun e => by rw [e, hd] at h1; omega⟩
    · rintro ⟨⟨h1, h2⟩ | ⟨h1, h2⟩, h3⟩
      · refine Or.inl ⟨h1, h2, fun e => h3 ?_⟩
        omega
      · exact Or.inr ⟨h1, h2⟩

/-- One call of `ck_bitmap_next`: it returns the least remaining position and removes it, or `false`
if none remains; it never leaves the buffer. -/
theorem next_spec {b : Bm} {it : It} (hlim : it.limit = blocks b.n) :
    ∃ r it', next b it = some (r, it') ∧ it'.limit = it.limit ∧
      match r with
      | some i => Rem b it i ∧ (∀ k, Rem b it k → i ≤ k) ∧ ∀ k, Rem b it' k ↔ Rem b it k ∧ k ≠ i
      | none => (∀ k, ¬ Rem b it k) ∧ ∀ k, ¬ Rem b it' k := by
  unfold next
  by_cases hc : it.cache = 0#32
  · rw [if_pos hc]
    by_cases hl : it.block ≥ it.limit
    · rw [if_pos hl]
      have hn : ∀ k, ¬ Rem b it k := by
        rintro k (⟨_, h⟩ | ⟨h1, h2, _⟩)
        · rw [hc] at h; simp at h
        · omega
      exact ⟨none, it, rfl, rfl, hn, hn⟩
    · rw [if_neg hl]
      rcases scan_eq b (it.limit - (it.block + 1)) (it.block + 1) (by omega) with
        ⟨j, he, h1, h2, h3, h4⟩ | ⟨he, h1⟩
      · rw [he]
        obtain ⟨i, e1, e2, e3, e4⟩ := emit_spec (b := b) (it := it) (j := j) h3 (fun i => by
          simp only [Rem]
          constructor
          · rintro (⟨_, h⟩ | ⟨g1, g2, g3⟩)
            · rw [hc] at h; simp at h
            · by_cases hj : i / 32 = j
              · left; refine ⟨hj, ?_⟩; simp only [bit] at g3; rw [hj] at g3; exact g3
              · right
                refine ⟨?_, g2, g3⟩
                by_contra hcon
                have := h4 (i / 32) (by omega) (by omega)
                simp [bit, this] at g3
          · rintro (⟨g1, g2⟩ | ⟨g1, g2, g3⟩)
            · right; refine ⟨by omega, by omega, ?_⟩; simp only [bit]; rw [g1]; exact g2
            · right; exact ⟨by omega, g2, g3⟩)
        refine ⟨some i, (emit it (b.map j) j).2, ?_, rfl, e2, e3, e4⟩
        simp only [Option.bind_eq_bind, Option.bind_some]
        rw [e1]; rfl
      · rw [he]
        refine ⟨none, _, rfl, rfl, ?_, ?_⟩
        · rintro k (⟨_, h⟩ | ⟨g1, g2, g3⟩)
          · rw [hc] at h; simp at h
          · have := h1 (k / 32) (by omega) (by omega)
            simp [bit, this] at g3
        · rintro k (⟨_, h⟩ | ⟨g1, g2, g3⟩)
          · simp at h
          · simp only at g1 g2; omega
  · rw [if_neg hc]
    obtain ⟨i, e1, e2, e3, e4⟩ := emit_spec (b := b) (it := it) (j := it.block) hc (fun i => Iff.rfl)
    exact ⟨some i, (emit it it.cache it.block).2, by rw [← e1], rfl, e2, e3, e4⟩

/-- `ck_bitmap_iterator_init` makes exactly the set bits of the buffer remain. -/
theorem itInit_spec (b : Bm) : ∃ it, itInit b = some it ∧ it.limit = blocks b.n ∧
    ∀ i, Rem b it i ↔ i < 32 * blocks b.n ∧ bit b i = true := by
  unfold itInit
  split
  · rename_i h
    rw [ld_eq h]
    refine ⟨_, rfl, rfl, fun i => ?_⟩
    simp only [Rem]
    constructor
    · rintro (⟨h1, h2⟩ | ⟨h1, h2, h3⟩)
      · refine ⟨by omega, ?_⟩; simp only [bit]; rw [h1]; exact h2
      · exact ⟨by omega, h3⟩
    · rintro ⟨h1, h2⟩
      by_cases hz : i / 32 = 0
      · left; refine ⟨hz, ?_⟩; simp only [bit] at h2; rw [hz] at h2; exact h2
      · right; exact ⟨by omega, by omega, h2⟩
  · rename_i h
    refine ⟨_, rfl, rfl, fun i => ?_⟩
    simp only [Rem]
    constructor
    · rintro (⟨h1, h2⟩ | ⟨h1, h2, h3⟩)
      · simp at h2
      · omega
    · rintro ⟨h1, h2⟩; omega

/-- The loop `while (ck_bitmap_next(b, &it, &bit)) …`, as a relation between the iterator and the list
of reported bits; it ends with the call returning `false`. -/
inductive Yields (b : Bm) : It → List Nat → Prop
  | stop {it it'} : next b it = some (none, it') → Yields b it []
  | more {it it' i l} : next b it = some (some i, it') → Yields b it' l → Yields b it (i :: l)

theorem yields_sort {b : Bm} (S : Finset Nat) : ∀ it, it.limit = blocks b.n →
    (∀ i, Rem b it i ↔ i ∈ S) →
    ∃ l, Yields b it l ∧ l.Pairwise (· < ·) ∧ ∀ i, i ∈ l ↔ i ∈ S := by
  induction S using Finset.strongInduction with
  | H S ih =>
    intro it hlim hS
    obtain ⟨r, it', he, hl', hm⟩ := next_spec hlim
    cases r with
    | none =>
      refine ⟨[], .stop he, List.Pairwise.nil, fun i => ?_⟩
      have := hm.1 i
      rw [hS] at this
      simp [this]
    | some i =>
      obtain ⟨h1, h2, h3⟩ := hm
      have hi : i ∈ S := (hS i).1 h1
      obtain ⟨l, hy, hp, hl⟩ := ih (S.erase i) (Finset.erase_ssubset hi) it' (by rw [hl']; exact hlim)
        (fun k => by rw [h3, hS, Finset.mem_erase]; exact and_comm)
      refine ⟨i :: l, .more he hy, ?_, fun k => ?_⟩
      · rw [List.pairwise_cons]
        refine ⟨fun k hk => ?_, hp⟩
        have hk' := (hl k).1 hk
        have := h2 k ((hS k).2 (Finset.mem_of_mem_erase hk'))
        have := Finset.ne_of_mem_erase hk'
        omega
      · rw [List.mem_cons, hl, Finset.mem_erase]
        constructor
        · rintro (rfl | h)
          · exact hi
          · exact h.2
        · intro h
          by_cases hk : k = i
          · exact Or.inl hk
          · exact Or.inr ⟨hk, h⟩

theorem Yields.det {b : Bm} {it : It} {l l' : List Nat} (h : Yields b it l) (h' : Yields b it l') :
    l = l' := by
  induction h generalizing l' with
  | stop e => cases h' with
    | stop e' => rfl
    | more e' _ => rw [e] at e'; simp at e'
  | more e _ ih => cases h' with
    | stop e' => rw [e] at e'; simp at e'
    | more e' h' =>
      rw [e] at e'
      simp only [Option.some.injEq, Prod.mk.injEq] at e'
      obtain ⟨rfl, rfl⟩ := e'
      rw [ih h']

/-- **C45.**  For a bitmap holding the set `S`, the iterator reports every element of `S` exactly once,
in increasing order, and then `false`; there is no other outcome. -/
theorem iterator_enumerates {b : Bm} {S : Finset Nat} (h : Rep b S) :
    ∃ it l, itInit b = some it ∧ Yields b it l ∧ l.Pairwise (· < ·) ∧ (∀ i, i ∈ l ↔ i ∈ S) ∧
      ∀ l', Yields b it l' → l' = l := by
  obtain ⟨it, he, hlim, hr⟩ := itInit_spec b
  obtain ⟨l, hy, hp, hl⟩ := yields_sort S it hlim (fun i => by
    rw [hr]
    constructor
    · rintro ⟨h1, h2⟩; rw [h.2 i h1] at h2; exact of_decide_eq_true h2
    · intro hi
      have hlt := h.lt hi
      have := blocks_ge b.n
      exact ⟨by omega, by rw [h.bit hlt]; exact decide_eq_true hi⟩)
  exact ⟨it, l, he, hy, hp, hl, fun l' h' => (Yields.det hy h').symm⟩

/-- For any content of the buffer whatsoever, the iterator reports the set bits of all its words, in
increasing order. -/
theorem iterator_any (b : Bm) : ∃ it l, itInit b = some it ∧ Yields b it l ∧ l.Pairwise (· < ·) ∧
    (∀ i, i ∈ l ↔ i < 32 * blocks b.n ∧ bit b i = true) ∧ ∀ l', Yields b it l' → l' = l := by
  obtain ⟨it, he, hlim, hr⟩ := itInit_spec b
  obtain ⟨l, hy, hp, hl⟩ := yields_sort ((Finset.range (32 * blocks b.n)).filter (bit b ·)) it hlim
    (fun i => by rw [hr, Finset.mem_filter, Finset.mem_range])
  refine ⟨it, l, he, hy, hp, fun i => ?_, fun l' h' => (Yields.det hy h').symm⟩
  rw [hl, Finset.mem_filter, Finset.mem_range]

/-- Reports after the end stay `false`. -/
theorem iterator_stays_done {b : Bm} {it it' : It} (hlim : it.limit = blocks b.n)
    (h : next b it = some (none, it')) : ∃ it'', next b it' = some (none, it'') := by
  obtain ⟨r, i1, he, hl, hm⟩ := next_spec hlim
  rw [h] at he
  simp only [Option.some.injEq, Prod.mk.injEq] at he
  obtain ⟨rfl, rfl⟩ := he
  obtain ⟨r2, i2, he2, _, hm2⟩ := next_spec (hl.trans hlim)
  cases r2 with
  | none => exact ⟨i2, he2⟩
  | some k => exact absurd hm2.1 (hm.2 k)

/-- Without the representation invariant the iterator reports all set bits of the buffer: after the
union of `union_spills` a 4-bit bitmap yields position 7. -/
theorem iterator_beyond_length : ∃ d it l, union spillDst spillSrc = some d ∧ d.n = 4 ∧
    itInit d = some it ∧ Yields d it l ∧ 7 ∈ l := by
  obtain ⟨d, he, hn, h7, _⟩ := union_spills
  obtain ⟨it, hi, hlim, hr⟩ := itInit_spec d
  obtain ⟨l, hy, _, hl⟩ := yields_sort ((Finset.range (32 * blocks d.n)).filter (bit d ·)) it hlim
    (fun i => by rw [hr, Finset.mem_filter, Finset.mem_range])
  refine ⟨d, it, l, he, hn, hi, hy, (hl 7).2 ?_⟩
  rw [Finset.mem_filter, Finset.mem_range]
  exact ⟨by rw [hn]; decide, h7⟩

/-! ## Sequences of operations -/

/-- A user's calls on a family of bitmaps indexed by numbers. -/
inductive Cmd
  | init (b n : Nat) (v : Bool)
  | set (b i : Nat) | bts (b i : Nat) | reset (b i : Nat) | test (b i : Nat)
  | union (d s : Nat) | inter (d s : Nat) | interNeg (d s : Nat)
  | clear (b : Nat)
  | empty (b l : Nat) | full (b l : Nat) | count (b l : Nat) | countInter (x y l : Nat)

/-- Results of the calls. -/
inductive Out
  | unit | bool (v : Bool) | num (v : Nat)

/-- The calls, on the model. -/
def run1 (st : Nat → Bm) : Cmd → Option ((Nat → Bm) × Out)
  | .init b n v => do let x ← init (st b).map n v; return (Verif.upd st b x, .unit)
  | .set b i => do let x ← set (st b) i; return (Verif.upd st b x, .unit)
  | .bts b i => do let (r, x) ← bts (st b) i; return (Verif.upd st b x, .bool r)
  | .reset b i => do let x ← reset (st b) i; return (Verif.upd st b x, .unit)
  | .test b i => do let r ← test (st b) i; return (st, .bool r)
  | .union d s => do let x ← union (st d) (st s); return (Verif.upd st d x, .unit)
  | .inter d s => do let x ← inter (st d) (st s); return (Verif.upd st d x, .unit)
  | .interNeg d s => do let x ← interNeg (st d) (st s); return (Verif.upd st d x, .unit)
  | .clear b => do let x ← clear (st b); return (Verif.upd st b x, .unit)
  | .empty b l => do let r ← empty (st b) l; return (st, .bool r)
  | .full b l => do let r ← isFull (st b) l; return (st, .bool r)
  | .count b l => do let r ← count (st b) l; return (st, .num r.toNat)
  | .countInter x y l => do let r ← countInter (st x) (st y) l; return (st, .num r.toNat)

/-- The same calls on (length, set) pairs, where the call is allowed.  `n ≤ 2^32 - 1` is the range of
`unsigned int`; `union` demands that the source has no element at or beyond the destination's length
inside the destination's last word. -/
def spec1 (st : Nat → Nat × Finset Nat) : Cmd → Option ((Nat → Nat × Finset Nat) × Out)
  | .init b n v => if n ≤ 4294967295 then
      some (Verif.upd st b (n, if v then Finset.range n else ∅), .unit) else none
  | .set b i => if i < (st b).1 then some (Verif.upd st b ((st b).1, insert i (st b).2), .unit) else none
  | .bts b i => if i < (st b).1 then
      some (Verif.upd st b ((st b).1, insert i (st b).2), .bool (decide (i ∈ (st b).2))) else none
  | .reset b i => if i < (st b).1 then some (Verif.upd st b ((st b).1, (st b).2.erase i), .unit) else none
  | .test b i => if i < (st b).1 then some (st, .bool (decide (i ∈ (st b).2))) else none
  | .union d s => if ∀ i ∈ (st s).2, i < 32 * (((st d).1 + 31) / 32) → i < (st d).1 then
      some (Verif.upd st d ((st d).1, (st d).2 ∪ (st s).2.filter (· < (st d).1)), .unit) else none
  | .inter d s => some (Verif.upd st d ((st d).1, (st d).2 ∩ (st s).2), .unit)
  | .interNeg d s => some (Verif.upd st d ((st d).1, (st d).2 \ (st s).2), .unit)
  | .clear b => some (Verif.upd st b ((st b).1, ∅), .unit)
  | .empty b l => some (st, .bool (decide (∀ i ∈ (st b).2, ¬ i < l)))
  | .full b l => some (st, .bool (decide (∀ i, i < l → i < (st b).1 → i ∈ (st b).2)))
  | .count b l => some (st, .num ((st b).2.filter (· < l)).card)
  | .countInter x y l => some (st, .num (((st x).2 ∩ (st y).2).filter (· < l)).card)

def runAll (st : Nat → Bm) : List Cmd → Option ((Nat → Bm) × List Out)
  | [] => some (st, [])
  | c :: cs => do
    let (st', o) ← run1 st c
    let (st'', os) ← runAll st' cs
    return (st'', o :: os)

def specAll (st : Nat → Nat × Finset Nat) : List Cmd → Option ((Nat → Nat × Finset Nat) × List Out)
  | [] => some (st, [])
  | c :: cs => do
    let (st', o) ← spec1 st c
    let (st'', os) ← specAll st' cs
    return (st'', o :: os)

def Sim (st : Nat → Bm) (sp : Nat → Nat × Finset Nat) : Prop :=
  ∀ b, (st b).n = (sp b).1 ∧ (st b).n ≤ 4294967295 ∧ Rep (st b) (sp b).2

theorem Sim.upd {st : Nat → Bm} {sp : Nat → Nat × Finset Nat} (h : Sim st sp) {b : Nat} {x : Bm}
    {n : Nat} {S : Finset Nat} (hn : x.n = n) (hb : n ≤ 4294967295) (hr : Rep x S) :
    Sim (Verif.upd st b x) (Verif.upd sp b (n, S)) := by
  intro k
  by_cases hk : k = b
  · subst hk; simp only [Verif.upd_same]; exact ⟨hn, by omega, hr⟩
  · rw [Verif.upd_ne _ _ hk, Verif.upd_ne _ _ hk]; exact h k

theorem sim1 {st : Nat → Bm} {sp sp' : Nat → Nat × Finset Nat} {c : Cmd} {o : Out} (h : Sim st sp)
    (hc : spec1 sp c = some (sp', o)) : ∃ st', run1 st c = some (st', o) ∧ Sim st' sp' := by
  cases c with
  | init b n v =>
    simp only [spec1] at hc
    split at hc
    · rename_i hn
      cases hc
      obtain ⟨x, he, h1, h2⟩ := init_rep (st b).map n v
      exact ⟨_, by simp only [run1, he]; rfl, h.upd h1 hn h2⟩
    · cases hc
  | set b i =>
    obtain ⟨h1, h2, h3⟩ := h b
    simp only [spec1] at hc
    split at hc
    · rename_i hi
      cases hc
      obtain ⟨x, he, g1, g2⟩ := set_rep h3 (show i < (st b).n by omega)
      exact ⟨_, by simp only [run1, he]; rfl, h.upd (g1.trans h1) (by omega) g2⟩
    · cases hc
  | bts b i =>
    obtain ⟨h1, h2, h3⟩ := h b
    simp only [spec1] at hc
    split at hc
    · rename_i hi
      cases hc
      obtain ⟨x, he, g1, g2⟩ := bts_rep h3 (show i < (st b).n by omega)
      exact ⟨_, by simp only [run1, he]; rfl, h.upd (g1.trans h1) (by omega) g2⟩
    · cases hc
  | reset b i =>
    obtain ⟨h1, h2, h3⟩ := h b
    simp only [spec1] at hc
    split at hc
    · rename_i hi
      cases hc
      obtain ⟨x, he, g1, g2⟩ := reset_rep h3 (show i < (st b).n by omega)
      exact ⟨_, by simp only [run1, he]; rfl, h.upd (g1.trans h1) (by omega) g2⟩
    · cases hc
  | test b i =>
    obtain ⟨h1, h2, h3⟩ := h b
    simp only [spec1] at hc
    split at hc
    · rename_i hi
      cases hc
      exact ⟨_, by simp only [run1, test_rep h3 (show i < (st b).n by omega)]; rfl, h⟩
    · cases hc
  | union d s =>
    obtain ⟨h1, h2, h3⟩ := h d
    obtain ⟨g1, g2, g3⟩ := h s
    simp only [spec1] at hc
    split at hc
    · rename_i hi
      cases hc
      obtain ⟨x, he, e1, e2⟩ := union_rep_partial h3 g3
      rw [h1] at e2
      exact ⟨_, by simp only [run1, he]; rfl, h.upd (e1.trans h1) (by omega) (e2.2 hi)⟩
    · cases hc
  | inter d s =>
    obtain ⟨h1, h2, h3⟩ := h d
    cases hc
    obtain ⟨x, he, g1, g2⟩ := inter_rep h3 (h s).2.2
    exact ⟨_, by simp only [run1, he]; rfl, h.upd (g1.trans h1) (by omega) g2⟩
  | interNeg d s =>
    obtain ⟨h1, h2, h3⟩ := h d
    cases hc
    obtain ⟨x, he, g1, g2⟩ := interNeg_rep h3 (h s).2.2
    exact ⟨_, by simp only [run1, he]; rfl, h.upd (g1.trans h1) (by omega) g2⟩
  | clear b =>
    obtain ⟨h1, h2, h3⟩ := h b
    cases hc
    obtain ⟨x, he, g1, g2⟩ := clear_rep (st b)
    exact ⟨_, by simp only [run1, he]; rfl, h.upd (g1.trans h1) (by omega) g2⟩
  | empty b l =>
    obtain ⟨h1, h2, h3⟩ := h b
    cases hc
    exact ⟨_, by simp only [run1, empty_rep h3]; rfl, h⟩
  | full b l =>
    obtain ⟨h1, h2, h3⟩ := h b
    cases hc
    exact ⟨_, by simp only [run1, isFull_rep h3, h1]; rfl, h⟩
  | count b l =>
    obtain ⟨h1, h2, h3⟩ := h b
    cases hc
    obtain ⟨r, he, hv⟩ := count_rep h3 h2 l
    exact ⟨_, by simp only [run1, he, ← hv]; rfl, h⟩
  | countInter x y l =>
    obtain ⟨h1, h2, h3⟩ := h x
    cases hc
    obtain ⟨r, he, hv⟩ := countInter_rep h3 (h y).2.2 h2 l
    exact ⟨_, by simp only [run1, he, ← hv]; rfl, h⟩

/-- **C44.**  Any sequence of calls on any family of bitmaps has the results it has on finite sets.
Missing from the full statement: `union` calls that would spill beyond the destination's length
(excluded by `spec1`; `union_spills` shows they misbehave). -/
theorem sequence_refines_partial {st : Nat → Bm} {sp sp' : Nat → Nat × Finset Nat} {cs : List Cmd}
    {os : List Out} (h : Sim st sp) (hc : specAll sp cs = some (sp', os)) :
    ∃ st', runAll st cs = some (st', os) ∧ Sim st' sp' := by
  induction cs generalizing st sp os with
  | nil => cases hc; exact ⟨st, rfl, h⟩
  | cons c cs ih =>
    simp only [specAll, Option.bind_eq_bind] at hc
    rw [Option.bind_eq_some_iff] at hc
    obtain ⟨⟨sp1, o⟩, h1, hc⟩ := hc
    simp only at hc
    rw [Option.bind_eq_some_iff] at hc
    obtain ⟨⟨sp2, os'⟩, h2, hc⟩ := hc
    cases hc
    obtain ⟨st1, e1, s1⟩ := sim1 h h1
    obtain ⟨st2, e2, s2⟩ := ih s1 h2
    exact ⟨st2, by simp only [runAll, e1, e2, Option.bind_eq_bind, Option.bind_some]; rfl, s2⟩

/-- The hypotheses are met: empty bitmaps of length 0, then a 40-bit and a 70-bit bitmap are
initialised, changed, united and counted; the result is that of the sets. -/
theorem sequence_example : ∃ st' sp', Sim (fun _ => { n := 0, map := fun _ => 0#32 }) (fun _ => (0, ∅)) ∧
    specAll (fun _ => (0, ∅)) [.init 0 40 true, .init 1 70 false, .set 1 69, .reset 0 33, .union 1 0,
      .count 1 100, .bts 1 33] = some (sp', [.unit, .unit, .unit, .unit, .unit, .num 40, .bool false]) ∧
    runAll (fun _ => { n := 0, map := fun _ => 0#32 }) [.init 0 40 true, .init 1 70 false, .set 1 69,
      .reset 0 33, .union 1 0, .count 1 100, .bts 1 33] =
      some (st', [.unit, .unit, .unit, .unit, .unit, .num 40, .bool false]) := by
  have hs : Sim (fun _ => { n := 0, map := fun _ => 0#32 }) (fun _ => (0, ∅)) := by
    intro b; refine ⟨rfl, by simp, by simp, fun i hi => ?_⟩
    simp [blocks] at hi
  have hc : ∃ sp', specAll (fun _ => (0, ∅)) [.init 0 40 true, .init 1 70 false, .set 1 69,
      .reset 0 33, .union 1 0, .count 1 100, .bts 1 33] =
      some (sp', [.unit, .unit, .unit, .unit, .unit, .num 40, .bool false]) := ⟨_, by rfl⟩
  obtain ⟨sp', hc⟩ := hc
  obtain ⟨st', e, _⟩ := sequence_refines_partial hs hc
  exact ⟨st', sp', hs, hc, e⟩

end Verif.Bitmap
