import Verif.Ht.HtThm

/-! # Hash table: executions -/

namespace Verif.Ht

open Verif

/-- Every key hashes to 1, pointer packing (buckets of 4 entries), per-bucket bounds. -/
def wc : Cfg Nat Nat :=
  { hash := fun _ => 1, del := true, wmax := 255, pp := true, zero := 0, tv := 2 ^ 64 - 1, wild := fun _ _ => 0 }

def runOps (cfg : Cfg Nat Nat) : Map Nat Nat → List (Op Nat Nat × List Bool) → Option (Map Nat Nat × List (Res Nat))
  | m, [] => some (m, [])
  | m, (op, al) :: ops => match prog cfg m al op with
    | none => none
    | some (l, res) => (runOps cfg (execs m l) ops).map fun p => (p.1, res :: p.2)

theorem runOps_hist {cfg : Cfg Nat Nat} : ∀ {ops : List (Op Nat Nat × List Bool)} {m m' : Map Nat Nat} {rs},
    runOps cfg m ops = some (m', rs) → ∃ h, Hist cfg m h m' ∧ h.map Prod.fst = ops.map Prod.fst ∧ h.map Prod.snd = rs
  | [], m, m', rs, h => by cases h; exact ⟨[], .nil _, rfl, rfl⟩
  | (op, al) :: ops, m, m', rs, h => by
    simp only [runOps] at h
    split at h
    · cases h
    · next l res hp =>
      rw [Option.map_eq_some_iff] at h
      obtain ⟨⟨m1, rs1⟩, h1, h2⟩ := h
      cases h2
      obtain ⟨h, h3, h4, h5⟩ := runOps_hist h1
      exact ⟨(op, res) :: h, .cons hp h3, by simp [h4], by simp [h5]⟩

theorem hist_of {cfg : Cfg Nat Nat} {ops : List (Op Nat Nat × List Bool)} {m m' : Map Nat Nat} {rs : List (Res Nat)}
    (h : runOps cfg m ops = some (m', rs)) : Hist cfg m ((ops.map Prod.fst).zip rs) m' := by
  obtain ⟨h, h5, h6, h7⟩ := runOps_hist h
  have : h = (h.map Prod.fst).zip (h.map Prod.snd) := by
    rw [List.zip_map']; simp
  rw [h6, h7] at this
  rw [← this]
  exact h5

/-- Colliding keys, a refused duplicate, a tombstone that is reused by a move and one reused by an insertion, a refused
growth, a collection. -/
theorem refines_map_case : ∃ m, Hist wc (create wc 8)
    [(.put 1 10, .bool true), (.put 2 20, .bool true), (.put 2 21, .bool false), (.remove 1, .val (some 10)),
      (.set 2 22, .val (some 20)), (.put 3 30, .bool true), (.set 4 40, .val none), (.grow 64, .denied),
      (.grow 64, .bool true), (.put 4 41, .bool false), (.remove 2, .val (some 22)), (.gc 0 3, .bool true)] m ∧
    get wc m 4 = some 40 ∧ get wc m 2 = none ∧ m.n = 2 := by
  have h : (runOps wc (create wc 8) [(.put 1 10, []), (.put 2 20, []), (.put 2 21, []), (.remove 1, []), (.set 2 22, []),
      (.put 3 30, []), (.set 4 40, []), (.grow 64, [false]), (.grow 64, [true]), (.put 4 41, []), (.remove 2, []),
      (.gc 0 3, [true])]).any (fun p => decide (p.2 = [.bool true, .bool true, .bool false, .val (some 10),
        .val (some 20), .bool true, .val none, .denied, .bool true, .bool false, .val (some 22), .bool true]) &&
        decide (get wc p.1 4 = some 40) && decide (get wc p.1 2 = none) && decide (p.1.n = 2)) = true := by
    decide +kernel
  rw [Option.any_eq_true] at h
  obtain ⟨⟨m, rs⟩, h1, h2⟩ := h
  simp only [Bool.and_eq_true, decide_eq_true_eq] at h2
  obtain ⟨⟨⟨h2, h3⟩, h4⟩, h5⟩ := h2
  subst h2
  exact ⟨m, hist_of h1, h3, h4, h5⟩

/-- The contracts are kept in that history: `put` of a present key comes before any removal or after the growth. -/
theorem refines_map_keeps : ∃ a b c : Abs Nat Nat,
    SpecHist ⟨fun _ => none, true⟩ [(.put 1 10, .bool true), (.put 2 20, .bool true), (.put 2 21, .bool false),
      (.remove 1, .val (some 10))] a ∧ SpecHist a [(.set 2 22, .val (some 20)), (.put 3 30, .bool true)] b ∧
    SpecHist b [(.grow 64, .bool true), (.put 3 31, .bool false)] c := by
  refine ⟨⟨upd (upd (upd (fun _ => none) 1 (some 10)) 2 (some 20)) 1 none, false⟩,
    ⟨upd (upd (upd (upd (upd (fun _ => none) 1 (some 10)) 2 (some 20)) 1 none) 2 (some 22)) 3 (some 30), false⟩,
    ⟨upd (upd (upd (upd (upd (fun _ => none) 1 (some 10)) 2 (some 20)) 1 none) 2 (some 22)) 3 (some 30), true⟩, ?_, ?_, ?_⟩
  · refine .cons (b := ⟨upd (fun _ => none) 1 (some 10), true⟩) (.inl rfl) ⟨rfl, rfl⟩ ?_
    refine .cons (b := ⟨upd (upd (fun _ => none) 1 (some 10)) 2 (some 20), true⟩) (.inl rfl) ⟨rfl, rfl⟩ ?_
    refine .cons (.inr rfl) ⟨by decide, rfl⟩ ?_
    exact .cons trivial ⟨rfl, rfl⟩ (.nil _)
  · refine .cons (b := ⟨upd (upd (upd (upd (fun _ => none) 1 (some 10)) 2 (some 20)) 1 none) 2 (some 22), false⟩)
      trivial ⟨rfl, rfl⟩ ?_
    exact .cons (.inl rfl) ⟨rfl, rfl⟩ (.nil _)
  · refine .cons (b := ⟨upd (upd (upd (upd (upd (fun _ => none) 1 (some 10)) 2 (some 20)) 1 none) 2 (some 22)) 3 (some 30), true⟩)
      trivial rfl ?_
    exact .cons (.inr rfl) ⟨by decide, rfl⟩ (.nil _)

/-- Deviation.  `ck_ht_put_spmc` reuses a tombstone without looking at what the probe found behind it: `put` of a key
that is present returns true, the key is in the table twice, `ck_ht_count` counts it twice, and removing the key
uncovers the old value. -/
theorem put_duplicates : ∃ m m', Hist wc (create wc 8)
      [(.put 1 10, .bool true), (.put 2 20, .bool true), (.remove 1, .val (some 10)), (.put 2 21, .bool true)] m ∧
    iterate m (m.cap + 1) 0 = [(2, 21), (2, 20)] ∧ m.n = 2 ∧ get wc m 2 = some 21 ∧
    Hist wc m [(.remove 2, .val (some 21))] m' ∧ get wc m' 2 = some 20 := by
  have h : (runOps wc (create wc 8) [(.put 1 10, []), (.put 2 20, []), (.remove 1, []), (.put 2 21, [])]).any
      (fun p => decide (p.2 = [.bool true, .bool true, .val (some 10), .bool true]) &&
        decide (iterate p.1 (p.1.cap + 1) 0 = [(2, 21), (2, 20)]) && decide (p.1.n = 2) &&
        decide (get wc p.1 2 = some 21) &&
        (runOps wc p.1 [(.remove 2, [])]).any fun p' => decide (p'.2 = [.val (some 21)]) &&
          decide (get wc p'.1 2 = some 20)) = true := by
    decide +kernel
  rw [Option.any_eq_true] at h
  obtain ⟨⟨m, rs⟩, h1, h2⟩ := h
  simp only [Bool.and_eq_true, decide_eq_true_eq] at h2
  obtain ⟨⟨⟨⟨h2, h3⟩, h4⟩, h5⟩, h6⟩ := h2
  rw [Option.any_eq_true] at h6
  obtain ⟨⟨m', rs'⟩, h7, h8⟩ := h6
  simp only [Bool.and_eq_true, decide_eq_true_eq] at h8
  obtain ⟨h8, h9⟩ := h8
  subst h2 h8
  exact ⟨m, m', hist_of h1, h3, h4, h5, hist_of h7, h9⟩

end Verif.Ht
