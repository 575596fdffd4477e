import Verif.Ht.HsRead

/-! # Hash set: executions -/

namespace Verif.Hs

open Verif

/-- Keys `Nat`, objects pairs of a key and a payload, every key hashes to 1, per-bucket bounds. -/
def wc : Cfg Nat (Nat × Nat) := { key := Prod.fst, hash := fun _ => 1, tag := fun h => h >>> 25, del := true, wmax := 255 }

def runOps (cfg : Cfg Nat (Nat × Nat)) : Map (Nat × Nat) → List (Op Nat (Nat × Nat) × List Bool) →
    Option (Map (Nat × Nat) × List (Res (Nat × Nat)))
  | m, [] => some (m, [])
  | m, (op, al) :: ops => match prog cfg m al op with
    | none => none
    | some (l, res) => (runOps cfg (execs m l) ops).map fun p => (p.1, res :: p.2)

theorem runOps_hist {cfg : Cfg Nat (Nat × Nat)} : ∀ {ops : List (Op Nat (Nat × Nat) × List Bool)}
    {m m' : Map (Nat × Nat)} {rs}, runOps cfg m ops = some (m', rs) →
    ∃ h, Hist cfg m h m' ∧ h.map Prod.fst = ops.map Prod.fst ∧ h.map Prod.snd = rs
  | [], m, m', rs, h => by cases h; exact ⟨[], .nil _, rfl, rfl⟩
  | (op, al) :: ops, m, m', rs, h => by
    simp only [runOps] at h
    split at h
    · cases h
    · next l res hp =>
      rw [Option.map_eq_some_iff] at h
      obtain ⟨⟨m1, rs1⟩, h1, h2⟩ := h
      cases h2
      obtain ⟨h, h3, h4, h5⟩ := runOps_hist h1
      exact ⟨(op, res) :: h, .cons hp h3, by simp [h4], by simp [h5]⟩

/-- Colliding keys, a tombstone that is reused by a move, a refused growth, a collection. -/
theorem refines_map_case : ∃ m, Hist wc (create wc 8)
    [(.put (0, 10), .bool true), (.put (1, 11), .bool true), (.put (1, 12), .bool false), (.remove 0, .obj (some (0, 10))),
      (.set (1, 13), .prev true (some (1, 11))), (.fas (2, 20), .prev false none), (.put (2, 21), .bool true),
      (.grow 64, .denied), (.grow 64, .bool true), (.gc 0 3, .bool true)] m ∧ get wc m 1 = some (some (1, 13)) ∧ m.n = 2 := by
  have h : (runOps wc (create wc 8) [(.put (0, 10), []), (.put (1, 11), []), (.put (1, 12), []), (.remove 0, []),
      (.set (1, 13), []), (.fas (2, 20), []), (.put (2, 21), []), (.grow 64, [false]), (.grow 64, [true]),
      (.gc 0 3, [true])]).any (fun p => decide (p.2 = [.bool true, .bool true, .bool false, .obj (some (0, 10)),
        .prev true (some (1, 11)), .prev false none, .bool true, .denied, .bool true, .bool true]) &&
        decide (get wc p.1 1 = some (some (1, 13))) && decide (p.1.n = 2)) = true := by decide +kernel
  rw [Option.any_eq_true] at h
  obtain ⟨⟨m, rs⟩, h1, h2⟩ := h
  simp only [Bool.and_eq_true, decide_eq_true_eq] at h2
  obtain ⟨⟨h2, h3⟩, h4⟩ := h2
  obtain ⟨h, h5, h6, h7⟩ := runOps_hist h1
  refine ⟨m, ?_, h3, h4⟩
  rw [h2] at h7
  have : h = (h.map Prod.fst).zip (h.map Prod.snd) := by
    rw [List.zip_map']; simp
  rw [h6, h7] at this
  rw [this] at h5
  exact h5

/-- An empty set of capacity 8, two readers. -/
def w0 : St Nat (Nat × Nat) (Fin 2) :=
  { maps := fun _ => create wc 8, cur := 0, gh := ⟨fun _ => none, none, false⟩, pend := [], op := none, lin := False
    rd := fun _ => .idle, absent := fun _ => False, had := fun _ _ => False }

theorem w0_init : (sys (T := Fin 2) wc 8).init w0 := ⟨rfl, rfl, rfl, rfl, rfl, fun _ => rfl⟩

def opRun (op : Op Nat (Nat × Nat)) (k : Nat) : List (Act Nat (Nat × Nat) (Fin 2)) :=
  .begin op [] :: List.replicate k .exec ++ [.fin]

/-- Key 1 moves towards the front behind the back of a reader; the reader finds nothing, notices, and starts again. -/
def wsched : List (Act Nat (Nat × Nat) (Fin 2)) :=
  opRun (.put (0, 10)) 4 ++ opRun (.put (1, 11)) 4 ++ opRun (.remove 0) 2 ++
    [.call 0 1, .next 0, .next 0, .next 0, .next 0] ++ opRun (.set (1, 13)) 3 ++ [.next 0, .next 0]

/-- The probe of the reader ended without a result, and the generation had changed. -/
theorem retry_case : ∃ s, (sys (T := Fin 2) wc 8).Reach s ∧ s.rd 0 = .fin 1 0 0 none ∧ (s.maps 0).gen true = 1 := by
  have h : ((sys (T := Fin 2) wc 8).run w0 wsched).any
      (fun s => (match s.rd 0 with | .fin 1 0 0 none => true | _ => false) && decide ((s.maps 0).gen true = 1)) = true := by
    decide +kernel
  rw [Option.any_eq_true] at h
  obtain ⟨s, h1, h2⟩ := h
  refine ⟨s, .of_run (.init w0_init) h1, ?_⟩
  simp only [Bool.and_eq_true, decide_eq_true_eq] at h2
  refine ⟨?_, h2.2⟩
  have := h2.1
  split at this
  · assumption
  · cases this

/-- It starts again and returns the new object: a trace of `linearizable`. -/
theorem linearizable_case : ∃ s l, Lin.Tr (sys (T := Fin 2) wc 8) obs s l ∧
    Lin.Ev.ret (some 0) (.inr (some (1, 13))) ∈ l := by
  have h : (Lin.runT (sys (T := Fin 2) wc 8) obs w0 (wsched ++ List.replicate 6 (.next 0) ++ [.ret 0])).any
      (fun p => p.2.any fun e => match e with | .ret (some 0) (.inr (some (1, 13))) => true | _ => false) = true := by
    decide +kernel
  rw [Option.any_eq_true] at h
  obtain ⟨⟨s, l⟩, h1, h2⟩ := h
  refine ⟨s, l, by simpa using Lin.Tr.of_run (.init w0_init) h1, ?_⟩
  rw [List.any_eq_true] at h2
  obtain ⟨e, h3, h4⟩ := h2
  split at h4
  · exact h3
  · cases h4

end Verif.Hs
