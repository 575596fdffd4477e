import Verif.Ht.HtRead
import Verif.Ht.HtWit

/-! # Hash table: readers and a writer that does not keep the contract (C68) -/

set_option linter.unusedSectionVars false

namespace Verif.Ht

open Verif

/-- Readers and a writer without contract. -/
def psys (cfg : Cfg Nat Nat) (c : Nat) : Sys (PSt Nat Nat Nat) (Act Nat Nat Nat) :=
  { init := fun s => s = pinit cfg c
    step := pstep cfg }

abbrev Evt := Lin.Ev (Option Nat) (Op Nat Nat ⊕ Nat) (Res Nat ⊕ Option Nat)

/-- Equality of events. -/
def Evt.beq : Evt → Evt → Bool
  | .call t o, .call t' o' => decide (t = t') && decide (o = o')
  | .ret t r, .ret t' r' => decide (t = t') && decide (r = r')
  | _, _ => false

theorem Evt.eq_of_beq {e e' : Evt} (h : Evt.beq e e' = true) : e = e' := by
  cases e <;> cases e' <;> simp [Evt.beq] at h <;> rw [h.1, h.2]

def beqs : List Evt → List Evt → Bool
  | [], [] => true
  | e :: l, e' :: l' => Evt.beq e e' && beqs l l'
  | _, _ => false

theorem eq_of_beqs : ∀ {l l' : List Evt}, beqs l l' = true → l = l'
  | [], [], _ => rfl
  | e :: l, e' :: l', h => by
    simp only [beqs, Bool.and_eq_true] at h
    rw [Evt.eq_of_beq h.1, eq_of_beqs h.2]
  | [], _ :: _, h => by cases h
  | _ :: _, [], h => by cases h

theorem tr_of {cfg : Cfg Nat Nat} {c : Nat} {as : List (Act Nat Nat Nat)} {l : List Evt}
    (h : (Lin.runT (psys cfg c) pobs (pinit cfg c) as).any (fun p => beqs p.2 l) = true) :
    ∃ s, Lin.Tr (psys cfg c) pobs s l := by
  rw [Option.any_eq_true] at h
  obtain ⟨⟨s, l'⟩, h1, h2⟩ := h
  have := eq_of_beqs h2
  simp only at this
  subst this
  exact ⟨s, by simpa using Lin.Tr.of_run (.init (M := psys cfg c) (obs := pobs) rfl) h1⟩

/-- A whole operation of the writer that makes `n` stores. -/
def wop (op : Op Nat Nat) (al : List Bool) (n : Nat) : List (Act Nat Nat Nat) :=
  .begin op al :: (List.replicate n .exec ++ [.fin])

def loads (t n : Nat) : List (Act Nat Nat Nat) := List.replicate n (.next t)

/-! ## A value of another key -/

/-- The reader looks for key 1 and finds its slot; the writer removes key 1 and replaces the value of key 2, which moves
to that slot: the new value is stored there before `deletions` is advanced, since line 880 compares the value of the slot,
not its key, with the tombstone. -/
def tornActs : List (Act Nat Nat Nat) :=
  wop (.put 1 10) [] 5 ++ wop (.put 2 20) [] 5 ++ [.call 0 1] ++ loads 0 4 ++ wop (.remove 1) [] 2 ++
    [.begin (.set 2 22) [], .exec] ++ loads 0 2 ++ [.ret 0]

def tornHist : List Evt :=
  [.call none (.inl (.put 1 10)), .ret none (.inl (.bool true)), .call none (.inl (.put 2 20)), .ret none (.inl (.bool true)),
    .call (some 0) (.inr 1), .call none (.inl (.remove 1)), .ret none (.inl (.val (some 10))),
    .call none (.inl (.set 2 22)), .ret (some 0) (.inr (some 22))]

theorem torn_trace : ∃ s, Lin.Tr (psys wc 8) pobs s tornHist :=
  tr_of (as := tornActs) (by decide +kernel)

/-- A history in which value 22 is only ever stored under key 2. -/
def OkT : Evt → Prop
  | .call _ (.inl (.put q v)) => q = 1 → v ≠ 22
  | .call _ (.inl (.set q v)) => q = 1 → v ≠ 22
  | .call _ (.inr q) => q = 1
  | _ => True

/-- What holds in such a history. -/
structure JT (a : Lin.Abs (Option Nat) (Op Nat Nat ⊕ Nat) (Res Nat ⊕ Option Nat) (Nat → Option Nat)) : Prop where
  x : a.x 1 ≠ some 22
  th : ∀ t, match a.th t with
    | .idle => True
    | .pend o => OkT (.call t o)
    | .done r => r ≠ .inr (some 22)

theorem mspec_get {x x' : Nat → Option Nat} {op : Op Nat Nat} {res : Res Nat} (h : MSpec x op res x') (q : Nat) :
    x' q = x q ∨ x' q = none ∨ ∃ v, (op = .put q v ∨ op = .set q v) ∧ x' q = some v := by
  obtain ⟨f, f', h⟩ := h
  have key : ∀ p v, x' = upd x p (some v) → x' q = x q ∨ (p = q ∧ x' q = some v) := by
    intro p v h
    rw [h, upd_apply]
    split
    · next h => exact .inr ⟨h.symm, rfl⟩
    · exact .inl rfl
  cases op with
  | put p v =>
    rcases res with (_ | _) | _ | _ <;> simp only [Spec, Abs.mk.injEq] at h
    · left; rw [h.2.1]
    · rcases key p v h.2.1 with h1 | ⟨rfl, h1⟩
      · exact .inl h1
      · exact .inr (.inr ⟨v, .inl rfl, h1⟩)
    · left; rw [h.2.1]
  | set p v =>
    rcases res with (_ | _) | _ | _ <;> simp only [Spec, Abs.mk.injEq] at h
    · rcases key p v h.2.1 with h1 | ⟨rfl, h1⟩
      · exact .inl h1
      · exact .inr (.inr ⟨v, .inr rfl, h1⟩)
    · left; rw [h.2.1]
  | remove p =>
    rcases res with (_ | _) | _ | _ <;> simp only [Spec, Abs.mk.injEq] at h
    rw [h.2.1, upd_apply]
    split
    · exact .inr (.inl rfl)
    · exact .inl rfl
  | grow c => rcases res with (_ | _) | _ | _ <;> simp only [Spec, Abs.mk.injEq] at h <;> (left; rw [h.1])
  | gc c s => rcases res with (_ | _) | _ | _ <;> simp only [Spec, Abs.mk.injEq] at h <;> (left; rw [h.1])
  | reset =>
    rcases res with (_ | _) | _ | _ <;> simp only [Spec, Abs.mk.injEq] at h
    · right; left; rw [h.1]
    · left; rw [h.1]
  | resetSize c =>
    rcases res with (_ | _) | _ | _ <;> simp only [Spec, Abs.mk.injEq] at h
    · right; left; rw [h.1]
    · left; rw [h.1]

theorem torn_not_history {l : List Evt} (hl : ∀ e, e ∈ l → OkT e) {t : Option Nat}
    (hr : .ret t (.inr (some 22)) ∈ l) : ¬ Lin.History obj l := by
  rintro ⟨x, a, hx, h⟩
  suffices H : JT a ∧ .ret t (.inr (some 22)) ∉ l from H.2 hr
  clear hr
  induction h with
  | nil => exact ⟨⟨by rw [show x = _ from hx]; simp, fun t => trivial⟩, by simp⟩
  | snoc h hs ih =>
    obtain ⟨hj, hn⟩ := ih (fun e he => hl e (List.mem_append_left _ he))
    cases hs with
    | @call t' o hi =>
      have ho := hl (.call t' o) (List.mem_append_right _ (by simp))
      refine ⟨⟨hj.x, fun u => ?_⟩, by simp [hn]⟩
      simp only
      by_cases hu : u = t'
      · subst hu; rw [upd_same]; exact ho
      · rw [upd_ne _ _ hu]; exact hj.th u
    | @lin t' o r x' hp happ =>
      have ho := hj.th t'
      rw [hp] at ho
      refine ⟨⟨?_, fun u => ?_⟩, by simp [hn]⟩
      · simp only
        rcases o with op | q <;> rcases r with res | o <;> simp only [obj] at happ
        · rcases mspec_get happ 1 with h1 | h1 | ⟨v, h1, h2⟩
          · rw [h1]; exact hj.x
          · rw [h1]; simp
          · rw [h2]
            rcases h1 with rfl | rfl <;> simpa [OkT] using ho
        · rw [happ.2]; exact hj.x
      · simp only
        by_cases hu : u = t'
        · subst hu
          rw [upd_same]
          rcases o with op | q <;> rcases r with res | o <;> simp only [obj] at happ
          · simp
          · have hq : q = 1 := ho
            rw [happ.1, hq]
            simpa using hj.x
        · rw [upd_ne _ _ hu]; exact hj.th u
    | @ret t' r hd =>
      have ho := hj.th t'
      rw [hd] at ho
      refine ⟨⟨hj.x, fun u => ?_⟩, ?_⟩
      · simp only
        by_cases hu : u = t'
        · subst hu; rw [upd_same]; trivial
        · rw [upd_ne _ _ hu]; exact hj.th u
      · simp only [Option.toList_some, List.mem_append, List.mem_singleton, not_or]
        refine ⟨hn, ?_⟩
        intro hc
        cases hc
        exact ho rfl

/-- `ck_ht_get_spmc` may return a key with a value that was stored with another key only. -/
theorem torn_get : ¬ Lin.Linearizable (psys wc 8) pobs obj := by
  intro h
  obtain ⟨s, hs⟩ := torn_trace
  refine torn_not_history (t := some 0) ?_ ?_ (h s _ hs)
  · intro e he
    simp only [tornHist, List.mem_cons, List.not_mem_nil, or_false] at he
    rcases he with rfl | rfl | rfl | rfl | rfl | rfl | rfl | rfl | rfl <;> simp [OkT]
  · simp [tornHist]

/-! ## An entry that is seen and then not -/

/-- Keys hash to themselves. -/
def wi : Cfg Nat Nat :=
  { hash := fun q => q % 8, del := true, wmax := 255, pp := true, zero := 0, tv := 2 ^ 64 - 1, wild := fun _ _ => 0 }

/-- Three keys of bucket 0 raise its bound to 3, the slots of two of them are used again by keys of buckets 1 and 2.
Reader 0 loads the bound, the writer lowers it to 1 in `ck_ht_gc` and inserts key 32 at probe 3: `ck_ht_set_spmc` stores
the entry before it raises the bound.  Reader 0 finds it, reader 1, called later, does not. -/
def lateActs : List (Act Nat Nat Nat) :=
  wop (.put 8 1) [] 5 ++ wop (.put 16 2) [] 5 ++ wop (.put 24 3) [] 5 ++ wop (.remove 16) [] 2 ++ wop (.remove 24) [] 2 ++
  wop (.put 1 4) [] 5 ++ wop (.put 2 5) [] 5 ++
  [.call 0 32] ++ loads 0 3 ++ wop (.gc 0 0) [true] 9 ++ [.begin (.set 32 7) [], .exec, .exec] ++ loads 0 6 ++ [.ret 0] ++
  [.call 1 32] ++ loads 1 7 ++ [.ret 1]

def lateHist1 : List Evt :=
  [.call none (.inl (.put 8 1)), .ret none (.inl (.bool true)), .call none (.inl (.put 16 2)), .ret none (.inl (.bool true)),
    .call none (.inl (.put 24 3)), .ret none (.inl (.bool true)), .call none (.inl (.remove 16)),
    .ret none (.inl (.val (some 2))), .call none (.inl (.remove 24)), .ret none (.inl (.val (some 3))),
    .call none (.inl (.put 1 4)), .ret none (.inl (.bool true)), .call none (.inl (.put 2 5)), .ret none (.inl (.bool true)),
    .call (some 0) (.inr 32), .call none (.inl (.gc 0 0)), .ret none (.inl (.bool true)), .call none (.inl (.set 32 7)),
    .ret (some 0) (.inr (some 7))]

def lateHist2 : List Evt := [.call (some 1) (.inr 32), .ret (some 1) (.inr none)]

theorem late_trace : ∃ s, Lin.Tr (psys wi 8) pobs s (lateHist1 ++ lateHist2) :=
  tr_of (as := lateActs) (by decide +kernel)

theorem AStar.split {O : Lin.Obj (Op Nat Nat ⊕ Nat) (Res Nat ⊕ Option Nat) (Nat → Option Nat)}
    {a b : Lin.Abs (Option Nat) (Op Nat Nat ⊕ Nat) (Res Nat ⊕ Option Nat) (Nat → Option Nat)} {l : List Evt}
    (h : Lin.AStar O a l b) : ∀ l1 l2, l = l1 ++ l2 → ∃ m, Lin.AStar O a l1 m ∧ Lin.AStar O m l2 b := by
  induction h with
  | nil =>
    intro l1 l2 hl
    obtain ⟨rfl, rfl⟩ := List.append_eq_nil_iff.1 hl.symm
    exact ⟨_, .nil _, .nil _⟩
  | @snoc b c l e h hs ih =>
    intro l1 l2 hl
    cases e with
    | none =>
      obtain ⟨m, h1, h2⟩ := ih l1 l2 (by simpa using hl)
      exact ⟨m, h1, by simpa using Lin.AStar.snoc h2 hs⟩
    | some ev =>
      rcases List.eq_nil_or_concat l2 with rfl | ⟨l2', e', rfl⟩
      · rw [List.append_nil] at hl
        exact ⟨c, hl ▸ Lin.AStar.snoc h hs, .nil _⟩
      · simp only [Option.toList_some, List.concat_eq_append] at hl
        rw [← List.append_assoc] at hl
        obtain ⟨h1, h2⟩ := List.append_inj' hl rfl
        cases h2
        obtain ⟨m, h3, h4⟩ := ih l1 l2' h1
        exact ⟨m, h3, by simpa using Lin.AStar.snoc h4 hs⟩

/-- A history in which key 32 is never removed. -/
def OkL : Evt → Prop
  | .call _ (.inl (.remove q)) => q ≠ 32
  | .call _ (.inl .reset) => False
  | .call _ (.inl (.resetSize _)) => False
  | .call _ (.inr q) => q = 32
  | _ => True

theorem mspec_keep {x x' : Nat → Option Nat} {op : Op Nat Nat} {res : Res Nat} (h : MSpec x op res x') {t : Option Nat}
    (ho : OkL (.call t (.inl op))) (hx : x 32 ≠ none) : x' 32 ≠ none := by
  rcases mspec_get h 32 with h1 | h1 | ⟨v, _, h1⟩
  · rw [h1]; exact hx
  · obtain ⟨f, f', h⟩ := h
    cases op with
    | put p v =>
      rcases res with (_ | _) | _ | _ <;> simp only [Spec, Abs.mk.injEq] at h
      · rw [h.2.1]; exact hx
      · rw [h.2.1, upd_apply]
        split
        · simp
        · exact hx
      · rw [h.2.1]; exact hx
    | set p v =>
      rcases res with (_ | _) | _ | _ <;> simp only [Spec, Abs.mk.injEq] at h
      · rw [h.2.1, upd_apply]
        split
        · simp
        · exact hx
      · rw [h.2.1]; exact hx
    | remove p =>
      rcases res with (_ | _) | _ | _ <;> simp only [Spec, Abs.mk.injEq] at h
      rw [h.2.1, upd_ne _ _ (Ne.symm ho)]
      exact hx
    | grow c => rcases res with (_ | _) | _ | _ <;> simp only [Spec, Abs.mk.injEq] at h <;> (rw [h.1]; exact hx)
    | gc c s => rcases res with (_ | _) | _ | _ <;> simp only [Spec, Abs.mk.injEq] at h <;> (rw [h.1]; exact hx)
    | reset => exact ho.elim
    | resetSize c => exact ho.elim
  · rw [h1]; simp

/-- What holds in such a history; `b`: key 32 was found. -/
structure JL (b : Prop) (a : Lin.Abs (Option Nat) (Op Nat Nat ⊕ Nat) (Res Nat ⊕ Option Nat) (Nat → Option Nat)) :
    Prop where
  x : b → a.x 32 ≠ none
  th : ∀ t, match a.th t with
    | .idle => True
    | .pend o => OkL (.call t o)
    | .done r => (∀ v, r = .inr (some v) → a.x 32 ≠ none) ∧ (b → r = .inr none → t ≠ some 1)

theorem JL.mono {b : Prop} {a : Lin.Abs (Option Nat) (Op Nat Nat ⊕ Nat) (Res Nat ⊕ Option Nat) (Nat → Option Nat)}
    {l : List Evt} {a' : Lin.Abs (Option Nat) (Op Nat Nat ⊕ Nat) (Res Nat ⊕ Option Nat) (Nat → Option Nat)}
    (h : Lin.AStar obj a l a') (hl : ∀ e, e ∈ l → OkL e) (hj : JL b a) :
    JL b a' ∧ (∀ t v, .ret t (.inr (some v)) ∈ l → a'.x 32 ≠ none) ∧ (b → .ret (some 1) (.inr none) ∉ l) ∧
      (a.th (some 1) = .idle → (∀ o, .call (some 1) o ∉ l) → a'.th (some 1) = .idle) := by
  induction h with
  | nil => exact ⟨hj, by simp, by simp, fun h _ => h⟩
  | snoc h hs ih =>
    obtain ⟨hj, hn, hm, hi⟩ := ih (fun e he => hl e (List.mem_append_left _ he))
    cases hs with
    | @call t' o hid =>
      have ho := hl (.call t' o) (List.mem_append_right _ (by simp))
      refine ⟨⟨hj.x, fun u => ?_⟩, by simpa using hn, by simpa using hm, fun h1 h2 => ?_⟩
      · simp only
        by_cases hu : u = t'
        · subst hu; rw [upd_same]; exact ho
        · rw [upd_ne _ _ hu]; exact hj.th u
      · have : some 1 ≠ t' := by
          rintro rfl
          exact h2 o (by simp)
        simp only [upd_ne _ _ this]
        exact hi h1 (fun o ho => h2 o (List.mem_append_left _ ho))
    | @lin t' o r x' hp happ =>
      have ho := hj.th t'
      rw [hp] at ho
      have hk : ∀ {P : Prop}, (P → _) → P → x' 32 ≠ none := fun {P} (f : P → _) hP => by
        rcases o with op | q <;> rcases r with res | o <;> simp only [obj] at happ
        · exact mspec_keep happ ho (f hP)
        · rw [happ.2]; exact f hP
      refine ⟨⟨fun hb => hk hj.x hb, fun u => ?_⟩, ?_, by simpa using hm, fun h1 h2 => ?_⟩
      · simp only
        by_cases hu : u = t'
        · subst hu
          rw [upd_same]
          rcases o with op | q <;> rcases r with res | o <;> simp only [obj] at happ
          · simp
          · have hq : q = 32 := ho
            simp only [Sum.inr.injEq]
            rw [happ.2, happ.1, hq]
            exact ⟨fun v hv => by rw [hv]; simp, fun hb hc => (hj.x hb hc).elim⟩
        · rw [upd_ne _ _ hu]
          have := hj.th u
          split <;> rename_i heq <;> rw [heq] at this
          · trivial
          · exact this
          · exact ⟨fun v hv => hk (this.1 v) hv, this.2⟩
      · intro t v hv
        exact hk (hn t v) (by simpa using hv)
      · have h3 := hi h1 (fun o ho => h2 o (List.mem_append_left _ ho))
        have : some 1 ≠ t' := by
          rintro rfl
          rw [h3] at hp; cases hp
        simp only [upd_ne _ _ this]
        exact h3
    | @ret t' r hd =>
      have ho := hj.th t'
      rw [hd] at ho
      refine ⟨⟨hj.x, fun u => ?_⟩, ?_, ?_, fun h1 h2 => ?_⟩
      · simp only
        by_cases hu : u = t'
        · subst hu; rw [upd_same]; trivial
        · rw [upd_ne _ _ hu]; exact hj.th u
      · intro t v hv
        simp only [Option.toList_some, List.mem_append, List.mem_singleton] at hv
        rcases hv with hv | hv
        · exact hn t v hv
        · cases hv; exact ho.1 v rfl
      · intro hb hv
        simp only [Option.toList_some, List.mem_append, List.mem_singleton] at hv
        rcases hv with hv | hv
        · exact hm hb hv
        · cases hv; exact ho.2 hb rfl rfl
      · have h3 := hi h1 (fun o ho => h2 o (List.mem_append_left _ ho))
        simp only
        by_cases hu : some 1 = t'
        · rw [← hu, upd_same]
        · rw [upd_ne _ _ hu]; exact h3

/-- A key that `ck_ht_get_spmc` found, and that is not removed, may be missed by a later call. -/
theorem late_bound : ¬ Lin.Linearizable (psys wi 8) pobs obj := by
  intro h
  obtain ⟨s, hs⟩ := late_trace
  obtain ⟨x, a, hx, ha⟩ := h s _ hs
  obtain ⟨m, h1, h2⟩ := AStar.split ha _ _ rfl
  have j0 : JL False { x := x, th := fun _ => .idle } := ⟨False.elim, fun t => trivial⟩
  obtain ⟨j1, k1, -, i1⟩ := JL.mono h1 (by
    intro e he
    simp only [lateHist1, List.mem_cons, List.not_mem_nil, or_false] at he
    rcases he with rfl | rfl | rfl | rfl | rfl | rfl | rfl | rfl | rfl | rfl | rfl | rfl | rfl | rfl | rfl | rfl | rfl |
      rfl | rfl <;> simp [OkL]) j0
  have hid := i1 rfl (by intro o; simp [lateHist1])
  have hx := k1 (some 0) 7 (by simp [lateHist1])
  have j2 : JL True m := ⟨fun _ => hx, fun t => by
    have := j1.th t
    split <;> rename_i heq <;> rw [heq] at this
    · trivial
    · exact this
    · refine ⟨this.1, fun _ _ ht => ?_⟩
      rw [ht, hid] at heq; cases heq⟩
  exact (JL.mono h2 (by
    intro e he
    simp only [lateHist2, List.mem_cons, List.not_mem_nil, or_false] at he
    rcases he with rfl | rfl <;> simp [OkL]) j2).2.2.1 trivial (by simp [lateHist2])

/-! ## A case of `linearizable_partial` -/

/-- The initial state. -/
def rinit : St Nat Nat Nat :=
  { toPSt := pinit wc 8, gh := g0 (fun _ => none) false true, fr := true, lin := False, absent := fun _ => False
    had := fun _ _ => False }

/-- A reader overlaps a removal and an insertion that keep the contract: it sees `deletions` advance and starts again. -/
def goodActs : List (Act Nat Nat Nat) :=
  wop (.put 1 10) [] 5 ++ wop (.put 2 20) [] 5 ++ [.call 0 1] ++ loads 0 4 ++ wop (.remove 1) [] 2 ++
    [.begin (.put 3 30) [], .exec] ++ loads 0 9 ++ [.ret 0]

def goodHist : List Evt :=
  [.call none (.inl (.put 1 10)), .ret none (.inl (.bool true)), .call none (.inl (.put 2 20)), .ret none (.inl (.bool true)),
    .call (some 0) (.inr 1), .call none (.inl (.remove 1)), .ret none (.inl (.val (some 10))),
    .call none (.inl (.put 3 30)), .ret (some 0) (.inr none)]

theorem partial_hyp : ∃ s, Lin.Tr (sys (T := Nat) wc 8) obs s goodHist := by
  have h : (Lin.runT (sys wc 8) obs rinit goodActs).any (fun p => beqs p.2 goodHist) = true := by decide +kernel
  rw [Option.any_eq_true] at h
  obtain ⟨⟨s, l'⟩, h1, h2⟩ := h
  have := eq_of_beqs h2
  simp only at this
  subst this
  exact ⟨s, by simpa using Lin.Tr.of_run (.init (M := sys wc 8) (obs := obs) (s := rinit) ⟨rfl, rfl, rfl⟩) h1⟩

end Verif.Ht
