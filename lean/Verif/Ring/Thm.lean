import Verif.Ring.Inv

/-! # `ck_ring`: linearizability to a bounded FIFO queue -/

namespace Verif.Ring

open Verif Verif.Lin

variable {L n : Nat} {B : Type}

/-! ## Specification -/

/-- A FIFO queue of capacity `cap` with content `Q0` at the start.  `mp`: an enqueue may fail although
the queue is not full (see `mp_fail_full` for when it does). A failed `trydequeue` says nothing about the
queue (see `try_fail_overtaken`). -/
def fifo (cap : Nat) (mp : Bool) (Q0 : List (Val L B)) : Obj (OOp L B) (ORes L B) (List (Val L B)) where
  init x := x = Q0
  app x o r x' := match o, r with
    | .enq v, .enq true => x.length < cap ∧ x' = x ++ [v]
    | .enq _, .enq false => (mp = true ∨ x.length = cap) ∧ x' = x
    | .deq, .deq (some v) => x = v :: x'
    | .deq, .deq none => x = [] ∧ x' = x
    | .tryDeq, .deq (some v) => x = v :: x'
    | .tryDeq, .deq none => x' = x
    | _, _ => False

/-- The committed, not yet consumed entries, oldest first. -/
def contents (s : St L n B) : List (Val L B) := (List.range (s.PT - s.C)).map fun i => s.item (s.C + i)

/-- A quiescent ring with content `Q0`: the counters may have any values (all wraps included). -/
structure Start (cfg : Cfg n) (Q0 : List (Val L B)) (s : St L n B) : Prop where
  idle : ∀ t, s.th t = .idle
  wc : s.c_head = BitVec.ofNat 32 s.C
  wt : s.p_tail = BitVec.ofNat 32 s.PT
  wh : cfg.sp = none → s.p_head = BitVec.ofNat 32 s.PH
  eq : s.PH = s.PT
  ct : s.C ≤ s.PT
  cap : s.PT < s.C + 2 ^ cfg.k
  slots : ∀ j, s.C ≤ j → j < s.PT → s.buf (j % 2 ^ cfg.k) = s.item j
  cont : contents s = Q0

theorem Start.initial (cfg : Cfg n) (buf : Nat → Val L B) (b : Val L B) :
    Start cfg [] (initial (n := n) buf b) where
  idle _ := rfl
  wc := rfl
  wt := rfl
  wh _ := rfl
  eq := rfl
  ct := Nat.le_refl _
  cap := by simp [Ring.initial]
  slots j h1 h2 := absurd h2 (Nat.not_lt_zero _)
  cont := rfl

theorem Start.inv {cfg : Cfg n} {Q0 : List (Val L B)} {s : St L n B} (h : Start cfg Q0 s) : Inv cfg s where
  wc := h.wc
  wt := h.wt
  wh := h.wh
  ct := h.ct
  tp := by rw [h.eq]
  cap := by rw [h.eq]; exact h.cap
  slots := h.slots
  spq _ _ _ := h.eq
  spo q _ ho := by rw [h.idle q] at ho; cases ho
  uniq t _ ho := by rw [h.idle t] at ho; cases ho
  loc t := by rw [h.idle t]; trivial

/-- All executions from `s0`. -/
def sys (cfg : Cfg n) (s0 : St L n B) : Sys (St L n B) (Act L n B) :=
  { init := fun s => s = s0, step := step cfg }

/-- The executions from `s0` in which no snapshot gets `2 ^ 32` behind. -/
def sysF (cfg : Cfg n) (s0 : St L n B) : Sys (St L n B) (Act L n B) :=
  { init := fun s => s = s0, step := fun s a => if Fresh s then step cfg s a else none }

theorem inv {cfg : Cfg n} (hk : cfg.k ≤ 31) {Q0 : List (Val L B)} {s0 s : St L n B}
    (h0 : Start cfg Q0 s0) (h : (sysF cfg s0).Reach s) : Inv cfg s := by
  induction h with
  | init h => rw [h]; exact h0.inv
  | @step s s' a _ hs ih =>
    simp only [sysF] at hs
    split at hs
    · next hf => exact ih.step hk hf hs
    · cases hs

/-- With one producer and one consumer nothing is to be assumed about snapshots. -/
theorem fresh_of_single {cfg : Cfg n} {s : St L n B} (h : Inv cfg s) {q r : Fin n}
    (hq : cfg.sp = some q) (hr : cfg.sc = some r) : Fresh s := by
  intro t
  have hl := h.loc t
  constructor
  · intro hc
    cases hp : s.th t <;> rw [hp] at hc hl <;> first | cases hc; done | skip
    · rw [hl.1] at hr; cases hr
    · next m _ _ _ =>
      cases m
      · cases hc
      · have := hl.1; simp only at this; rw [this] at hr; cases hr
    · rw [hl.1] at hr; cases hr
  · intro hc
    cases hp : s.th t <;> rw [hp] at hc hl <;> first | cases hc; done | (rw [hl.1] at hq; cases hq)

theorem inv_spsc {cfg : Cfg n} (hk : cfg.k ≤ 31) {Q0 : List (Val L B)} {s0 s : St L n B} {q r : Fin n}
    (hq : cfg.sp = some q) (hr : cfg.sc = some r)
    (h0 : Start cfg Q0 s0) (h : (sys cfg s0).Reach s) : Inv cfg s := by
  induction h with
  | init h => rw [h]; exact h0.inv
  | @step s s' a _ hs ih => exact ih.step hk (fresh_of_single ih hq hr) hs

/-! ## Simulation -/

theorem contents_length (s : St L n B) : (contents s).length = s.PT - s.C := by simp [contents]

theorem contents_take {s : St L n B} (h : s.C < s.PT) {d : Val L B} (hd : d = s.item s.C) (c : BitVec 32)
    (th : Fin n → PC L B) :
    contents s = d :: contents { s with c_head := c, C := s.C + 1, th := th } := by
  subst hd
  obtain ⟨m, hm⟩ : ∃ m, s.PT - s.C = m + 1 := ⟨s.PT - s.C - 1, by omega⟩
  simp only [contents, hm, show s.PT - (s.C + 1) = m by omega, List.range_succ_eq_map, List.map_cons,
    List.map_map]
  congr 1
  apply List.map_congr_left
  intro i _
  simp only [Function.comp]
  congr 1; omega

theorem contents_commit {s : St L n B} (h : s.C ≤ s.PT) (v : Val L B) (c : BitVec 32)
    (th : Fin n → PC L B) :
    contents { s with p_tail := c, PT := s.PT + 1, item := upd s.item s.PT v, th := th } =
      contents s ++ [v] := by
  simp only [contents, show s.PT + 1 - s.C = (s.PT - s.C) + 1 by omega, List.range_succ, List.map_append,
    List.map_cons, List.map_nil]
  congr 1
  · apply List.map_congr_left
    intro i hi
    rw [List.mem_range] at hi
    exact upd_ne _ _ (by omega)
  · rw [show s.C + (s.PT - s.C) = s.PT by omega, upd_same]

/-- Where a thread stands. -/
def view : PC L B → TS (OOp L B) (ORes L B)
  | .idle => .idle
  | .spLoad v | .mpLoad v | .mpC v _ | .mpCas v _ _ | .mpRe v _ _ | .wr v _ _ _ | .wait v _ _
  | .commit v _ _ => .pend (.enq v)
  | .scLoad _ | .cp none _ _ _ | .scStore _ _ => .pend .deq
  | .mcLoad b _ | .mcP b _ _ | .cp (some b) _ _ _ | .mcCas b _ _ => .pend (if b then .tryDeq else .deq)
  | .ret r => .done r.o

/-- The state of the queue and the threads. -/
def abs (s : St L n B) : Abs (Fin n) (OOp L B) (ORes L B) (List (Val L B)) :=
  { x := contents s, th := fun t => view (s.th t) }

variable {cfg : Cfg n} {Q0 : List (Val L B)}

theorem abs_skip {s s' : St L n B} {O : Obj (OOp L B) (ORes L B) (List (Val L B))} {t : Fin n} {pc : PC L B}
    (h1 : contents s' = contents s) (h2 : s'.th = upd s.th t pc) (h3 : view pc = view (s.th t)) :
    AStar O (abs s) (none : Option (Ev (Fin n) (OOp L B) (ORes L B))).toList (abs s') := by
  refine .skip ?_
  simp only [abs, h1, h2]
  rw [upd_comp_same]
  exact h3

theorem abs_lin {s s' : St L n B} {O : Obj (OOp L B) (ORes L B) (List (Val L B))} {t : Fin n} {r : Res L B}
    {o : OOp L B} (h1 : view (s.th t) = .pend o) (h2 : s'.th = upd s.th t (.ret r))
    (h3 : O.app (contents s) o r.o (contents s')) :
    AStar O (abs s) (none : Option (Ev (Fin n) (OOp L B) (ORes L B))).toList (abs s') := by
  refine .lin' (o := o) (t := t) (r := r.o) (x' := contents s') h1 h3 ?_
  simp only [abs, h2, upd_comp]; rfl

theorem sim_run (hk : cfg.k ≤ 31) {s s' : St L n B} (h : Inv cfg s) (hf : Fresh s) {t : Fin n}
    (hs : Ring.run cfg s t = some s') :
    AStar (fifo (2 ^ cfg.k - 1) cfg.sp.isNone Q0) (abs s)
      (none : Option (Ev (Fin n) (OOp L B) (ORes L B))).toList (abs s') := by
  have hl := h.loc t
  have hft := hf t
  have h2k : 1 ≤ 2 ^ cfg.k := Nat.one_le_two_pow
  have hct := h.ct; have htp := h.tp; have hcap := h.cap
  have hlen := contents_length s
  unfold Ring.run at hs
  cases hp : s.th t with
  | idle => rw [hp] at hs; cases hs
  | ret r => rw [hp] at hs; cases hs
  | spLoad v =>
    simp only [hp] at hs hl
    have hq : cfg.sp = some t := hl
    have hPH := h.spq t hq (by rw [hp]; rfl)
    have hft' := full_test cfg hk (a := s.PT) (b := s.C) hct (by omega)
    rw [← h.wt, ← h.wc] at hft'
    split at hs
    · next hfull =>
      have hfull := hft'.1 hfull
      cases hs
      refine abs_lin (t := t) (r := .enq false _) (o := .enq v) (by rw [hp]; rfl) rfl ?_
      exact ⟨Or.inr (by omega), rfl⟩
    · cases hs; exact abs_skip (t := t) (pc := .wr v _ _ _) rfl rfl (by rw [hp]; rfl)
  | mpLoad v => simp only [hp] at hs; cases hs; exact abs_skip (t := t) (pc := .mpC v _) rfl rfl (by rw [hp]; rfl)
  | mpC v p =>
    simp only [hp] at hs; cases hs
    refine abs_skip (t := t)
      (pc := if p - s.c_head < cfg.mask then .mpCas v p s.c_head else .mpRe v p s.c_head) rfl rfl ?_
    rw [hp]; split <;> rfl
  | mpCas v p c =>
    simp only [hp] at hs
    split at hs
    · cases hs; exact abs_skip (t := t) (pc := .wr v _ _ _) rfl rfl (by rw [hp]; rfl)
    · cases hs; exact abs_skip (t := t) (pc := .mpC v _) rfl rfl (by rw [hp]; rfl)
  | mpRe v p c =>
    simp only [hp] at hs hl
    split at hs
    · cases hs
      refine abs_lin (t := t) (r := .enq false _) (o := .enq v) (by rw [hp]; rfl) rfl ?_
      exact ⟨Or.inl (by rw [hl.1]; rfl), rfl⟩
    · cases hs; exact abs_skip (t := t) (pc := .mpC v _) rfl rfl (by rw [hp]; rfl)
  | wr v p sz j =>
    simp only [hp] at hs
    split at hs
    · cases hs; exact abs_skip (t := t) (pc := .wr v _ _ _) rfl rfl (by rw [hp]; rfl)
    · split at hs
      · cases hs; exact abs_skip (t := t) (pc := .commit v _ _) rfl rfl (by rw [hp]; rfl)
      · cases hs; exact abs_skip (t := t) (pc := .wait v _ _) rfl rfl (by rw [hp]; rfl)
  | wait v p sz =>
    simp only [hp] at hs
    split at hs
    · cases hs; exact abs_skip (t := t) (pc := .commit v _ _) rfl rfl (by rw [hp]; rfl)
    · cases hs; exact .skip rfl
  | commit v p sz =>
    simp only [hp] at hs hl
    cases hs
    refine abs_lin (t := t) (r := .enq true _) (o := .enq v) (by rw [hp]; rfl) rfl ?_
    obtain ⟨⟨-, h1, h2, -⟩, h3, -⟩ := hl
    exact ⟨by omega, contents_commit hct v _ _⟩
  | scLoad d =>
    simp only [hp] at hs hl
    split at hs
    · next he =>
      cases hs
      refine abs_lin (t := t) (r := .deq none) (o := .deq) (by rw [hp]; rfl) rfl ?_
      have hpl := pow_le hk
      have : s.C = s.PT := ofNat_inj (by rw [← h.wc, ← h.wt, he]) hct (by omega)
      exact ⟨List.eq_nil_of_length_eq_zero (by omega), rfl⟩
    · cases hs; exact abs_skip (t := t) (pc := .cp none _ _ _) rfl rfl (by rw [hp]; rfl)
  | mcLoad b d => simp only [hp] at hs; cases hs; exact abs_skip (t := t) (pc := .mcP b _ _) rfl rfl (by rw [hp]; rfl)
  | mcP b d c =>
    simp only [hp] at hs hl
    split at hs
    · next he =>
      cases hs
      have hsn := hft.1 (by rw [hp]; rfl)
      obtain ⟨l1, l2, l3⟩ := hl
      have : s.gc t = s.PT := ofNat_inj (by rw [← l2, ← h.wt, he]) (by omega) (by omega)
      have hnil : contents s = [] := List.eq_nil_of_length_eq_zero (by omega)
      cases b
      · exact abs_lin (t := t) (r := .deq none) (o := .deq) (by rw [hp]; rfl) rfl ⟨hnil, rfl⟩
      · exact abs_lin (t := t) (r := .deq none) (o := .tryDeq) (by rw [hp]; rfl) rfl rfl
    · cases hs; exact abs_skip (t := t) (pc := .cp (some b) _ _ _) rfl rfl (by rw [hp]; rfl)
  | cp m d c j =>
    simp only [hp] at hs
    split at hs
    · cases hs
      refine abs_skip (t := t) (pc := .cp m _ _ _) rfl rfl ?_
      rw [hp]; cases m <;> rfl
    · split at hs
      · cases hs; exact abs_skip (t := t) (pc := .scStore _ _) rfl rfl (by rw [hp]; rfl)
      · cases hs; exact abs_skip (t := t) (pc := .mcCas _ _ _) rfl rfl (by rw [hp]; rfl)
  | scStore d c =>
    simp only [hp] at hs hl
    obtain ⟨l1, l2, l3, l4, l5⟩ := hl
    cases hs
    refine abs_lin (t := t) (r := .deq (some d)) (o := .deq) (by rw [hp]; rfl) rfl ?_
    exact contents_take (by omega) (by rw [l5, l2]) _ _
  | mcCas b d c =>
    simp only [hp] at hs hl
    have hsn := hft.1 (by rw [hp]; rfl)
    obtain ⟨l1, l2, l3, l4, l5⟩ := hl
    split at hs
    · next hw =>
      have hgc : s.gc t = s.C := by
        rw [h.wc, l2] at hw
        exact ofNat_inj hw.symm l3 (by omega)
      have ht := fun th c => contents_take (s := s) (d := d) (by omega) (by rw [l5 hgc, hgc]) c th
      cases hs
      cases b
      · exact abs_lin (t := t) (r := .deq (some d)) (o := .deq) (by rw [hp]; rfl) rfl (ht _ _)
      · exact abs_lin (t := t) (r := .deq (some d)) (o := .tryDeq) (by rw [hp]; rfl) rfl (ht _ _)
    · split at hs
      · next hb =>
        cases hs; subst hb
        exact abs_lin (t := t) (r := .deq none) (o := .tryDeq) (by rw [hp]; rfl) rfl rfl
      · cases hs; exact abs_skip (t := t) (pc := .mcP b _ _) rfl rfl (by rw [hp]; rfl)

theorem sim_step (hk : cfg.k ≤ 31) {s s' : St L n B} (h : Inv cfg s) (hf : Fresh s) {a : Act L n B}
    (hs : step cfg s a = some s') :
    AStar (fifo (2 ^ cfg.k - 1) cfg.sp.isNone Q0) (abs s) (obs s a).toList (abs s') := by
  cases a with
  | run t => exact sim_run hk h hf hs
  | ret t =>
    simp only [step] at hs
    split at hs
    · next r hp =>
      cases hs
      simp only [obs, hp]
      exact .ret' (by simp [abs, hp, view]) (by simp only [abs, upd_comp]; rfl)
    · cases hs
  | call t o =>
    simp only [step] at hs
    split at hs
    · next hp =>
      have key : ∀ pc : PC L B, view pc = .pend o.o → s' = { s with th := upd s.th t pc } →
          AStar (fifo (2 ^ cfg.k - 1) cfg.sp.isNone Q0) (abs s) (obs s (.call t o)).toList (abs s') := by
        intro pc hv he
        subst he
        exact .call' (by simp [abs, hp, view]) (by simp only [abs, upd_comp, hv]; rfl)
      cases o with
      | enq v =>
        simp only at hs
        split at hs
        · split at hs
          · cases hs; exact key _ rfl rfl
          · cases hs
        · cases hs; exact key _ rfl rfl
      | deq d =>
        simp only at hs
        split at hs
        · split at hs
          · cases hs; exact key _ rfl rfl
          · cases hs
        · cases hs; exact key _ rfl rfl
      | tryDeq d =>
        simp only at hs
        split at hs
        · cases hs
        · cases hs; exact key _ rfl rfl
    · cases hs

theorem abs_start {s : St L n B} (h : Start cfg Q0 s) : abs s = { x := Q0, th := fun _ => .idle } := by
  simp only [abs, h.cont, h.idle]; rfl

/-- **C28.**  One producer and one consumer: every history, of any length, is that of a FIFO queue of
capacity `2 ^ k - 1`. -/
theorem spsc_linearizable (hk : cfg.k ≤ 31) {q r : Fin n} (hq : cfg.sp = some q) (hr : cfg.sc = some r)
    {s0 : St L n B} (h0 : Start cfg Q0 s0) :
    Linearizable (sys cfg s0) obs (fifo (2 ^ cfg.k - 1) false Q0) := by
  refine linearizable_of_sim (fun s α => α = abs s) ?_ ?_
  · intro s hs
    refine ⟨Q0, rfl, ?_⟩
    rw [hs, abs_start h0]
  · rintro s a s' α hre rfl hs
    have hi := inv_spsc hk hq hr h0 hre
    have := sim_step (Q0 := Q0) hk hi (fresh_of_single hi hq hr) hs
    rw [hq] at this
    exact ⟨_, this, rfl⟩

/-- **C29, C30.**  Any number of consumers, and one or any number of producers. -/
theorem linearizable (hk : cfg.k ≤ 31) {s0 : St L n B} (h0 : Start cfg Q0 s0) :
    Linearizable (sysF cfg s0) obs (fifo (2 ^ cfg.k - 1) cfg.sp.isNone Q0) := by
  refine linearizable_of_sim (fun s α => α = abs s) ?_ ?_
  · intro s hs
    refine ⟨Q0, rfl, ?_⟩
    rw [hs, abs_start h0]
  · rintro s a s' α hre rfl hs
    have hi := inv hk h0 hre
    simp only [sysF] at hs
    split at hs
    · next hf => exact ⟨_, sim_step hk hi hf hs, rfl⟩
    · cases hs

end Verif.Ring
