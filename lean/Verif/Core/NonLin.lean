import Verif.Core.Lin

/-!
# Showing that a given history is not linearizable

`base f ts l` lists all states the canonical automaton can be in just after the last event of `l`; it is
complete (`history_base`), so an empty list refutes `History`.
-/

namespace Verif.Lin

open Verif

variable {T Op Res X : Type _} [DecidableEq T] [DecidableEq Res]

/-- The states one operation application later. -/
def lins (f : X → Op → List (Res × X)) (ts : List T) (a : Abs T Op Res X) : List (Abs T Op Res X) :=
  ts.flatMap fun t => match a.th t with
    | .pend o => (f a.x o).map fun p => { x := p.2, th := upd a.th t (.done p.1) }
    | _ => []

/-- Up to `k` applications later. -/
def close (f : X → Op → List (Res × X)) (ts : List T) : Nat → Abs T Op Res X → List (Abs T Op Res X)
  | 0, a => [a]
  | k + 1, a => a :: (lins f ts a).flatMap (close f ts k)

def event (e : Ev T Op Res) (a : Abs T Op Res X) : Option (Abs T Op Res X) := match e with
  | .call t o => match a.th t with
    | .idle => some { a with th := upd a.th t (.pend o) }
    | _ => none
  | .ret t r => match a.th t with
    | .done r' => if r' = r then some { a with th := upd a.th t .idle } else none
    | _ => none

def base (f : X → Op → List (Res × X)) (ts : List T) (x0 : X) (l : List (Ev T Op Res)) :
    List (Abs T Op Res X) :=
  l.foldl (fun as e => (as.flatMap (close f ts ts.length)).filterMap (event e))
    [{ x := x0, th := fun _ => .idle }]

/-- `j` applications. -/
inductive LinN (O : Obj Op Res X) : Nat → Abs T Op Res X → Abs T Op Res X → Prop
  | zero (a : Abs T Op Res X) : LinN O 0 a a
  | succ {j : Nat} {a b c : Abs T Op Res X} : AStep O a none b → LinN O j b c → LinN O (j + 1) a c

omit [DecidableEq Res] in
theorem LinN.snoc {O : Obj Op Res X} {j : Nat} {a b c : Abs T Op Res X} (h : LinN O j a b)
    (hs : AStep O b none c) : LinN O (j + 1) a c := by
  induction h with
  | zero a => exact .succ hs (.zero _)
  | succ h1 _ ih => exact .succ h1 (ih hs)

def pending : TS Op Res → Bool
  | .pend _ => true
  | _ => false

omit [DecidableEq Res] in
theorem count_upd {th : T → TS Op Res} {t : T} {o : Op} {r : Res} (h : th t = .pend o) (ts : List T)
    (ht : t ∈ ts) : ts.countP (fun u => pending (upd th t (.done r) u)) + 1 ≤ ts.countP fun u => pending (th u) := by
  induction ts with
  | nil => cases ht
  | cons u us ih =>
    have hle : ∀ vs : List T, vs.countP (fun u => pending (upd th t (.done r) u)) ≤ vs.countP fun u => pending (th u) := by
      intro vs
      refine List.countP_mono_left fun v _ hv => ?_
      by_cases e : v = t
      · subst e; rw [upd_same] at hv; cases hv
      · rw [upd_ne _ _ e] at hv; exact hv
    rw [List.countP_cons, List.countP_cons]
    by_cases e : u = t
    · subst e
      have := hle us
      have h1 : pending (upd th u (.done r) u) = false := by rw [upd_same]; rfl
      have h2 : pending (th u) = true := by rw [h]; rfl
      rw [h1, h2]; simp; omega
    · have h1 : t ∈ us := by
        rcases List.mem_cons.1 ht with h | h
        · exact absurd h.symm e
        · exact h
      have := ih h1
      rw [upd_ne _ _ e]; omega

omit [DecidableEq Res] in
theorem mem_close {O : Obj Op Res X} {f : X → Op → List (Res × X)} {ts : List T} (hts : ∀ t, t ∈ ts)
    (hf : ∀ x o r x', O.app x o r x' → (r, x') ∈ f x o) {j : Nat} {a b : Abs T Op Res X}
    (h : LinN O j a b) : j + ts.countP (fun u => pending (b.th u)) ≤ ts.countP (fun u => pending (a.th u)) ∧
      ∀ k, j ≤ k → b ∈ close f ts k a := by
  induction h with
  | zero a => exact ⟨by omega, fun k _ => by cases k <;> simp [close]⟩
  | @succ j a b c h1 _ ih =>
    cases h1 with
    | @lin t o r x' ht ha =>
      have h2 := count_upd (r := r) ht ts (hts t)
      refine ⟨by have := ih.1; simp only at this; omega, fun k hk => ?_⟩
      cases k with
      | zero => omega
      | succ k =>
        refine List.mem_cons_of_mem _ (List.mem_flatMap.2 ⟨_, ?_, ih.2 k (by omega)⟩)
        refine List.mem_flatMap.2 ⟨t, hts t, ?_⟩
        rw [ht]
        exact List.mem_map.2 ⟨(r, x'), hf _ _ _ _ ha, rfl⟩

omit [DecidableEq T] in
theorem base_snoc [DecidableEq T] (f : X → Op → List (Res × X)) (ts : List T) (x0 : X) (l : List (Ev T Op Res))
    (e : Ev T Op Res) : base f ts x0 (l ++ [e]) =
      ((base f ts x0 l).flatMap (close f ts ts.length)).filterMap (event e) := by
  simp [base, List.foldl_append]

theorem astar_base {O : Obj Op Res X} {f : X → Op → List (Res × X)} {ts : List T} (hts : ∀ t, t ∈ ts)
    (hf : ∀ x o r x', O.app x o r x' → (r, x') ∈ f x o) {x0 : X} {l : List (Ev T Op Res)}
    {c : Abs T Op Res X} (h : AStar O { x := x0, th := fun _ => .idle } l c) :
    ∃ m ∈ base f ts x0 l, ∃ j, LinN O j m c := by
  generalize ha : ({ x := x0, th := fun _ => .idle } : Abs T Op Res X) = a at h
  induction h with
  | nil => subst ha; exact ⟨_, by simp [base], 0, .zero _⟩
  | @snoc b c l e _ hs ih =>
    obtain ⟨m, hm, j, hj⟩ := ih
    cases e with
    | none => exact ⟨m, by simpa using hm, j + 1, hj.snoc hs⟩
    | some e =>
      refine ⟨c, ?_, 0, .zero _⟩
      have hb : b ∈ close f ts ts.length m := by
        have h1 := mem_close hts hf hj
        refine h1.2 _ ?_
        have : ts.countP (fun u => pending (m.th u)) ≤ ts.length := List.countP_le_length
        omega
      rw [Option.toList_some, base_snoc]
      refine List.mem_filterMap.2 ⟨b, List.mem_flatMap.2 ⟨m, hm, hb⟩, ?_⟩
      cases hs with
      | call o h => simp only [event, h]
      | ret h => simp only [event, h, if_true]

/-- Complete: a history leaves a possible state. -/
theorem history_base {O : Obj Op Res X} {f : X → Op → List (Res × X)} {ts : List T} (hts : ∀ t, t ∈ ts)
    {x0 : X} (h0 : ∀ x, O.init x → x = x0)
    (hf : ∀ x o r x', O.app x o r x' → (r, x') ∈ f x o) {l : List (Ev T Op Res)} (h : History O l) :
    base f ts x0 l ≠ [] := by
  obtain ⟨x, a, hx, ha⟩ := h
  rw [h0 x hx] at ha
  obtain ⟨m, hm, -⟩ := astar_base hts hf ha
  exact List.ne_nil_of_mem hm

end Verif.Lin
