import Verif.Progress.Lf
import Verif.Smr.HpFifoLin

/-!
# `ck_hp_fifo` is lock-free (C105)

The model of C39 (`Smr/HpFifo.lean`), with `trydequeue` under the condition of C39.  `base` is the number of steps that an operation
needs if no other thread changes the queue and `tail` is at the last entry; an attempt with an old copy of `head`, `tail` or a `next`
(`stale`) costs eight steps more; moving a lagging `tail` is paid by the enqueue that left it behind.
-/

namespace Verif.HpFifo.Lf

open Verif Verif.Lf Verif.HpFifo

variable {N V : Type} {n : Nat}

def kind (_ : St N V n) : Act N V n → Kind
  | .call _ _ => .call
  | .ret _ => .ret
  | .run _ => .work
  | .hp _ => .other

/-- Steps left if nobody interferes. -/
def base : PC N V → Nat
  | .eV _ _ _ => 9
  | .eP _ _ _ => 8
  | .eT _ _ _ => 7
  | .eS _ _ _ _ => 6
  | .eC _ _ _ _ => 5
  | .eN _ _ _ _ => 4
  | .eK _ _ _ _ => 3
  | .eFwd _ _ _ _ _ => 2
  | .eCas _ _ _ _ => 2
  | .eSw _ _ _ => 1
  | .dH => 9
  | .dS _ => 8
  | .dC _ => 7
  | .dT _ => 6
  | .dN _ _ => 5
  | .d1 _ _ _ => 4
  | .dK _ _ _ => 3
  | .dX0 => 2
  | .dX1 => 1
  | .dFwd _ _ => 2
  | .dCas _ _ => 2
  | .dVal _ _ _ => 1
  | .qH => 9
  | .qT _ => 8
  | .qS _ _ => 7
  | .qC _ _ => 6
  | .qN _ _ => 5
  | .q1 _ _ _ => 4
  | .qK _ _ _ => 3
  | .qFwd _ _ => 1
  | .qCas _ _ => 2
  | .idle | .ret _ | .null => 0

/-- The operation has yet to take effect. -/
def pend : PC N V → Nat
  | .idle | .ret _ | .null | .eSw _ _ _ | .dVal _ _ _ | .dX0 | .dX1 => 0
  | _ => 1

theorem pend_le (pc : PC N V) : pend pc ≤ 1 := by unfold pend; split <;> omega

variable [DecidableEq N]

/-- The cost of an old copy. -/
def stale (s : St N V n) : PC N V → Nat
  | .eS _ _ _ tp | .eC _ _ _ tp | .eN _ _ _ tp | .eFwd _ _ _ tp _ => if s.tail = tp then 0 else 8
  | .eK _ _ tp np => if s.tail = tp ∧ (np = none → s.next tp = none) then 0 else 8
  | .eCas _ _ _ tp => if s.next tp = none then 0 else 8
  | .dS h | .dC h | .dT h | .dCas h _ => if s.head = h then 0 else 8
  | .dN h tp | .d1 h tp _ | .dK h tp _ => if s.head = h ∧ s.tail = tp then 0 else 8
  | .dFwd h _ => if s.tail = h then 0 else 8
  | _ => 0

theorem stale_le (s : St N V n) (pc : PC N V) : stale s pc ≤ 8 := by
  unfold stale; split <;> (try split) <;> omega

theorem stale_mono {s s' : St N V n} (hh : s'.head = s.head) (ht : s'.tail = s.tail)
    (hn : ∀ x, s.next x = none → s'.next x = none) (pc : PC N V) : stale s' pc ≤ stale s pc := by
  cases pc <;> simp only [stale, hh, ht] <;> first
    | exact Nat.le_refl _
    | (split
       · omega
       · next hc => rw [if_neg fun h => hc (hn _ h)])
    | (split
       · omega
       · next hc => rw [if_neg fun h => hc ⟨h.1, fun e => hn _ (h.2 e)⟩])

/-- Steps left for `t` if it runs alone from now on and `tail` is at the last entry. -/
def left (s : St N V n) (t : Fin n) : Nat := base (s.th t) + stale s (s.th t)

/-- The number of entries after `tail`. -/
def lag (s : St N V n) : Nat := s.chain.length - 1 - s.chain.idxOf s.tail

/-- `tp` has left the queue, or `tail` is at `tp` or after it. -/
def After (s : St N V n) (tp : N) : Prop := tp ∈ s.chain → s.chain.idxOf tp ≤ s.chain.idxOf s.tail

/-- An enqueue has loaded `tail`. -/
def Loc3 (s : St N V n) : PC N V → Prop
  | .eN _ _ _ tp | .eK _ _ tp _ | .eCas _ _ _ tp => After s tp
  | _ => True

/-- What a step of an operation does: it has fewer steps left; or it moves a lagging `tail`; or it changes the queue. -/
structure Cases (s s' : St N V n) (t : Fin n) (pc : PC N V) : Prop where
  th : s'.th = upd s.th t pc
  idle' : pc ≠ .idle
  idle : s.th t ≠ .idle
  aft : ∀ tp, s.h.life tp ≠ .fresh → After s tp → After s' tp
  loc : Loc3 s' pc
  how : ((∀ pc, stale s' pc ≤ stale s pc) ∧ lag s' = lag s ∧ left s' t + 1 ≤ left s t ∧ pend pc ≤ pend (s.th t)) ∨
    (lag s' + 1 = lag s ∧ left s' t ≤ left s t + 7 ∧ pend pc ≤ pend (s.th t) ∧ (pend (s.th t) = 0 → left s' t + 1 ≤ left s t)) ∨
    (lag s' ≤ lag s + 1 ∧ pend (s.th t) = 1 ∧ pend pc = 0 ∧ left s' t + 1 ≤ left s t ∧ (lag s = 0 ∨ lag s' = lag s))

theorem quiet {s s' : St N V n} {t : Fin n} {pc : PC N V} (hth : s'.th = upd s.th t pc) (h1 : pc ≠ .idle) (h2 : s.th t ≠ .idle)
    (hh : s'.head = s.head) (ht : s'.tail = s.tail) (hq : s'.q = s.q) (hn : ∀ x, s.next x = none → s'.next x = none)
    (hloc : Loc3 s pc) (hl : base pc + stale s' pc + 1 ≤ base (s.th t) + stale s (s.th t)) (hp : pend pc ≤ pend (s.th t)) :
    Cases s s' t pc := by
  have hc : s'.chain = s.chain := by unfold St.chain; rw [hh, hq]
  have ha : ∀ tp, After s tp → After s' tp := fun tp h => by unfold After; rw [hc, ht]; exact h
  refine ⟨hth, h1, h2, fun tp _ => ha tp, ?_, .inl ⟨stale_mono hh ht hn, by unfold lag; rw [hc, ht], ?_, hp⟩⟩
  · revert hloc; cases pc <;> intro hloc <;> first | trivial | exact ha _ hloc
  · unfold left; rw [hth, upd_same]; exact hl

variable {strict : Prop} {D C thr : Nat}

/-- `tail` moves to its successor. -/
theorem swing_idx {s : St N V n} (h : Inv strict D C thr s) {y : N} (hn : s.next s.tail = some y) :
    s.chain.idxOf y = s.chain.idxOf s.tail + 1 ∧ s.chain.idxOf s.tail + 1 < s.chain.length := by
  obtain ⟨a, b, hab⟩ := List.append_of_mem h.tail
  have hseg := h.seg
  have hnd := h.nodup
  rw [hab, seg_append] at hseg
  obtain ⟨m, -, h2, h3⟩ := hseg
  rw [hn] at h3
  cases b with
  | nil => cases h3
  | cons z b =>
    obtain ⟨h4, -⟩ := h3
    cases h4
    rw [hab] at hnd ⊢
    rw [List.nodup_append] at hnd
    obtain ⟨-, h5, h6⟩ := hnd
    have h7 : s.tail ∉ a := fun hm => h6 _ hm _ (by simp) rfl
    have h8 : y ∉ a := fun hm => h6 _ hm _ (by simp) rfl
    have h9 : s.tail ≠ y := fun e => by rw [e] at h5; simp at h5
    rw [List.idxOf_append_of_notMem h7, List.idxOf_append_of_notMem h8, List.idxOf_cons_self, List.idxOf_cons_ne _ h9,
      List.idxOf_cons_self]
    simp

theorem swing {s s' : St N V n} (h : Inv strict D C thr s) {t : Fin n} {pc : PC N V} {y : N} (hn : s.next s.tail = some y)
    (hth : s'.th = upd s.th t pc) (h1 : pc ≠ .idle) (h2 : s.th t ≠ .idle) (hh : s'.head = s.head) (ht : s'.tail = y)
    (hq : s'.q = s.q) (hloc : ∀ s : St N V n, Loc3 s pc) (hs : ∀ s : St N V n, stale s pc = 0)
    (hl : base pc ≤ base (s.th t) + 7) (hp : pend pc ≤ pend (s.th t))
    (hl' : pend (s.th t) = 0 → base pc + 1 ≤ base (s.th t)) : Cases s s' t pc := by
  have hc : s'.chain = s.chain := by unfold St.chain; rw [hh, hq]
  obtain ⟨h3, h4⟩ := swing_idx h hn
  refine ⟨hth, h1, h2, fun tp _ ha hm => ?_, hloc _, .inr (.inl ⟨?_, ?_, hp, fun e => ?_⟩)⟩
  · rw [hc] at hm ⊢; rw [ht, h3]; exact Nat.le_succ_of_le (ha hm)
  · unfold lag; rw [hc, ht, h3]; omega
  · unfold left; rw [hth, upd_same, hs]; omega
  · have := hl' e
    unfold left; rw [hth, upd_same, hs]; omega

/-- `head` moves to its successor. -/
theorem advance {s s' : St N V n} (h : Inv strict D C thr s) {t : Fin n} {y : N} {v : V} (hps : s.tail ≠ s.head)
    (hn : s.next s.head = some y) (hth : s'.th = upd s.th t (.dVal s.head y v)) (h2 : s.th t ≠ .idle) (hh : s'.head = y)
    (ht : s'.tail = s.tail) (hq : s'.q = s.q.tail) (hl : 2 ≤ base (s.th t)) (hp : pend (s.th t) = 1) :
    Cases s s' t (.dVal s.head y v) := by
  have hc : s.chain = s.head :: s'.chain := by
    have := h.next_head
    rw [hn] at this
    unfold St.chain
    rw [hh, hq]
    cases hq' : s.q with
    | nil => rw [hq'] at this; cases this
    | cons p q => rw [hq'] at this; simp at this; simp [this]
  have hnd := h.nodup
  rw [hc] at hnd
  have hlag : lag s' = lag s := by
    unfold lag
    rw [hc, ht, List.idxOf_cons_ne _ (Ne.symm hps), List.length_cons]
    omega
  refine ⟨hth, by simp, h2, fun tp _ ha hm => ?_, trivial, .inr (.inr ⟨by omega, hp, rfl, ?_, .inr hlag⟩)⟩
  · have h3 : s.head ≠ tp := fun e => (List.nodup_cons.1 hnd).1 (e ▸ hm)
    have := ha (by rw [hc]; exact List.mem_cons_of_mem _ hm)
    rw [hc, List.idxOf_cons_ne _ h3, List.idxOf_cons_ne _ (Ne.symm hps)] at this
    rw [ht]; omega
  · unfold left; rw [hth, upd_same]; show 1 + 0 + 1 ≤ _; omega

theorem again_facts {tr : Bool} {x : N} {v : V} : again tr x v ≠ .idle ∧ pend (again tr x v) ≤ 1 ∧ base (again tr x v) ≤ 7 ∧
    (∀ s : St N V n, Loc3 s (again tr x v)) ∧ ∀ s : St N V n, stale s (again tr x v) = 0 := by
  cases tr <;> simp [again, pend, base, Loc3, stale]

theorem run_cases {s s' : St N V n} (hi : Inv strict D C thr s) (hi3 : ∀ t, Loc3 s (s.th t)) {t : Fin n}
    (h : run D C thr s t = some s') : ∃ pc, Cases s s' t pc := by
  have hl := hi.loc t
  have hl3 := hi3 t
  have again_idle : ∀ {tr x v}, again tr x v ≠ (.idle : PC N V) := again_facts (n := n).1
  unfold run at h
  cases hp : s.th t with
  | idle => rw [hp] at h; cases h
  | ret r => rw [hp] at h; cases h
  | null => rw [hp] at h; cases h
  | eV tr x v =>
    simp only [hp] at h; cases h
    exact ⟨_, quiet rfl (by simp) (by simp [hp]) rfl rfl rfl (fun _ h => h) trivial (by simp [hp, base, stale]) (by simp [hp, pend])⟩
  | eP tr x v =>
    simp only [hp] at h; cases h
    refine ⟨_, quiet rfl (by simp) (by simp [hp]) rfl rfl rfl (fun y h => ?_) trivial (by simp [hp, base, stale]) (by simp [hp, pend])⟩
    show upd s.next x none y = none
    rw [upd_apply]; split
    · rfl
    · exact h
  | eT tr x v =>
    simp only [hp] at h; cases h
    exact ⟨_, quiet rfl (by simp) (by simp [hp]) rfl rfl rfl (fun _ h => h) trivial (by simp [hp, base, stale]) (by simp [hp, pend])⟩
  | eS tr x v tp =>
    simp only [hp] at h
    obtain ⟨h', -, rfl⟩ := via_eq h
    exact ⟨_, quiet rfl (by simp) (by simp [hp]) rfl rfl rfl (fun _ h => h) trivial (by simp [hp, base, stale]; omega) (by simp [hp, pend])⟩
  | eC tr x v tp =>
    simp only [hp] at h
    split at h
    · next hc =>
      obtain ⟨h', -, rfl⟩ := via_eq h
      exact ⟨_, quiet rfl (by simp) (by simp [hp]) rfl rfl rfl (fun _ h => h) (fun _ => by rw [hc]) (by simp [hp, base, stale]; omega)
        (by simp [hp, pend])⟩
    · next hc =>
      cases h
      have hf := again_facts (n := n) (tr := tr) (x := x) (v := v)
      refine ⟨_, quiet rfl hf.1 (by simp [hp]) rfl rfl rfl (fun _ h => h) (hf.2.2.2.1 _) ?_ (by rw [hp]; exact hf.2.1)⟩
      have h9 : base (s.th t) + stale s (s.th t) = 5 + 8 := by rw [hp]; simp only [base, stale, if_neg hc]
      rw [h9, hf.2.2.2.2]; have := hf.2.2.1; omega
  | eN tr x v tp =>
    simp only [hp] at h hl3
    split at h
    · split at h <;> cases h
      · next hn =>
        exact ⟨_, quiet rfl (by simp) (by simp [hp]) rfl rfl rfl (fun _ h => h) hl3 (by simp [hp, base, stale, hn]; omega) (by simp [hp, pend])⟩
      · exact ⟨_, quiet rfl (by simp) (by simp [hp]) rfl rfl rfl (fun _ h => h) trivial (by simp [hp, base, stale]; omega) (by simp [hp, pend])⟩
    · cases h
      exact ⟨_, quiet rfl (by simp) (by simp [hp]) rfl rfl rfl (fun _ h => h) hl3 (by simp [hp, base, stale]; omega) (by simp [hp, pend])⟩
  | eK x v tp np =>
    simp only [hp] at h hl3
    split at h
    · next hc =>
      split at h <;> cases h
      · refine ⟨_, quiet rfl (by simp) (by simp [hp]) rfl rfl rfl (fun _ h => h) hl3 ?_ (by simp [hp, pend])⟩
        rw [hp]; simp only [base, stale, hc, true_and, true_implies]
        omega
      · exact ⟨_, quiet rfl (by simp) (by simp [hp]) rfl rfl rfl (fun _ h => h) trivial (by simp [hp, base, stale, hc]) (by simp [hp, pend])⟩
    · next hc =>
      cases h
      exact ⟨_, quiet rfl (by simp) (by simp [hp]) rfl rfl rfl (fun _ h => h) trivial (by simp [hp, base, stale, hc]) (by simp [hp, pend])⟩
  | eFwd tr x v tp y =>
    simp only [hp] at h hl
    have hf := again_facts (n := n) (tr := tr) (x := x) (v := v)
    split at h
    · next hc =>
      cases h
      have hn : s.next s.tail = some y := by rw [hc]; exact hl.2.2
      exact ⟨_, swing hi hn rfl hf.1 (by simp [hp]) rfl rfl rfl hf.2.2.2.1 hf.2.2.2.2
        (by have := hf.2.2.1; omega) (by rw [hp]; exact hf.2.1) (fun e => by rw [hp] at e; cases e)⟩
    · next hc =>
      cases h
      refine ⟨_, quiet rfl hf.1 (by simp [hp]) rfl rfl rfl (fun _ h => h) (hf.2.2.2.1 _) ?_ (by rw [hp]; exact hf.2.1)⟩
      have h9 : base (s.th t) + stale s (s.th t) = 2 + 8 := by rw [hp]; simp only [base, stale, if_neg hc]
      rw [h9, hf.2.2.2.2]; have := hf.2.2.1; omega
  | eCas tr x v tp =>
    simp only [hp] at h hl hl3
    have hf := again_facts (n := n) (tr := tr) (x := x) (v := v)
    split at h
    · next hc =>
      obtain ⟨h', -, rfl⟩ := via_eq h
      have hlv := Hp.protected_live hi.hpr hl.2.1 hl.2.2
      have hm : tp ∈ s.chain := (hi.gone tp hlv).resolve_right fun h => h hc
      obtain ⟨a, ha⟩ := hi.last hm hc
      have hnd := hi.nodup
      rw [ha, List.nodup_append] at hnd
      have hta : tp ∉ a := fun h => hnd.2.2 _ h _ (by simp) rfl
      have hi1 : s.chain.idxOf tp = a.length := by rw [ha, List.idxOf_append_of_notMem hta]; simp
      have hle : s.chain.length = a.length + 1 := by rw [ha]; simp
      have h3 := hl3 hm
      have hlag : lag s = 0 := by unfold lag; omega
      have hx : s.h.life x = .fresh := hi.prep t x (by rw [hp]; rfl)
      refine ⟨_, rfl, by simp, by simp [hp], fun z hz hA hm' => ?_, trivial, .inr (.inr ⟨?_, by rw [hp]; rfl, rfl, ?_, .inl hlag⟩)⟩
      · have hc' : ∀ q : List (N × V), s.head :: (q ++ [(x, v)]).map Prod.fst = (s.head :: q.map Prod.fst) ++ [x] := by simp
        have hzx : z ≠ x := fun e => hz (e ▸ hx)
        simp only [St.chain, hc'] at hm' ⊢
        have hm1 : z ∈ s.chain := by
          rcases List.mem_append.1 hm' with h | h
          · exact h
          · simp at h; exact absurd h hzx
        have := hA hm1
        have e1 := List.idxOf_append_of_mem (l₂ := [x]) hm1
        have e2 := List.idxOf_append_of_mem (l₂ := [x]) hi.tail
        unfold St.chain at e1 e2 this
        rw [e1, e2]; exact this
      · have hc' : s.head :: (s.q ++ [(x, v)]).map Prod.fst = s.chain ++ [x] := by simp [St.chain]
        simp only [lag]
        rw [St.chain]
        simp only [hc', List.idxOf_append_of_mem hi.tail]
        simp
        omega
      · simp [left, hp, base, stale, hc]
    · next hc =>
      cases h
      refine ⟨_, quiet rfl hf.1 (by simp [hp]) rfl rfl rfl (fun _ h => h) (hf.2.2.2.1 _) ?_ (by rw [hp]; exact hf.2.1)⟩
      have h9 : base (s.th t) + stale s (s.th t) = 2 + 8 := by rw [hp]; simp only [base, stale, if_neg hc]
      rw [h9, hf.2.2.2.2]; have := hf.2.2.1; omega
  | eSw tr x tp =>
    simp only [hp] at h hl
    split at h
    · next hc =>
      cases h
      have hn : s.next s.tail = some x := by rw [hc]; exact hl.2
      exact ⟨_, swing hi hn rfl (by simp) (by simp [hp]) rfl rfl rfl (fun _ => trivial) (fun _ => rfl)
        (by simp [base]) (by simp [pend]) (fun e => by simp [hp, base])⟩
    · cases h
      exact ⟨_, quiet rfl (by simp) (by simp [hp]) rfl rfl rfl (fun _ h => h) trivial (by simp [hp, base, stale]) (by simp [hp, pend])⟩
  | dH =>
    simp only [hp] at h; cases h
    exact ⟨_, quiet rfl (by simp) (by simp [hp]) rfl rfl rfl (fun _ h => h) trivial (by simp [hp, base, stale]) (by simp [hp, pend])⟩
  | dS a =>
    simp only [hp] at h
    obtain ⟨h', -, rfl⟩ := via_eq h
    exact ⟨_, quiet rfl (by simp) (by simp [hp]) rfl rfl rfl (fun _ h => h) trivial (by simp [hp, base, stale]; omega) (by simp [hp, pend])⟩
  | dC a =>
    simp only [hp] at h
    split at h
    · obtain ⟨h', -, rfl⟩ := via_eq h
      exact ⟨_, quiet rfl (by simp) (by simp [hp]) rfl rfl rfl (fun _ h => h) trivial (by simp [hp, base, stale]; omega) (by simp [hp, pend])⟩
    · next hc =>
      cases h
      exact ⟨_, quiet rfl (by simp) (by simp [hp]) rfl rfl rfl (fun _ h => h) trivial (by simp [hp, base, stale, hc]) (by simp [hp, pend])⟩
  | dT a =>
    simp only [hp] at h; cases h
    exact ⟨_, quiet rfl (by simp) (by simp [hp]) rfl rfl rfl (fun _ h => h) trivial (by simp [hp, base, stale]; omega) (by simp [hp, pend])⟩
  | dN a tp =>
    simp only [hp] at h; cases h
    exact ⟨_, quiet rfl (by simp) (by simp [hp]) rfl rfl rfl (fun _ h => h) trivial (by simp [hp, base, stale]; omega) (by simp [hp, pend])⟩
  | d1 a tp np =>
    simp only [hp] at h
    obtain ⟨h', -, rfl⟩ := via_eq h
    exact ⟨_, quiet rfl (by simp) (by simp [hp]) rfl rfl rfl (fun _ h => h) trivial (by simp [hp, base, stale]; omega) (by simp [hp, pend])⟩
  | dK a tp np =>
    simp only [hp] at h
    split at h
    · next hc =>
      split at h
      · cases h
        exact ⟨_, quiet rfl (by simp) (by simp [hp]) rfl rfl rfl (fun _ h => h) trivial (by simp [hp, base, stale]) (by simp [hp, pend])⟩
      · obtain ⟨h', -, rfl⟩ := via_eq h
        by_cases e : a = tp
        · subst e
          simp only [if_true]
          exact ⟨_, quiet rfl (by simp) (by simp [hp]) rfl rfl rfl (fun _ h => h) trivial (by simp [hp, base, stale, hc]; omega)
            (by simp [hp, pend])⟩
        · simp only [if_neg e]
          exact ⟨_, quiet rfl (by simp) (by simp [hp]) rfl rfl rfl (fun _ h => h) trivial (by simp [hp, base, stale, hc]) (by simp [hp, pend])⟩
    · next hc =>
      cases h
      exact ⟨_, quiet rfl (by simp) (by simp [hp]) rfl rfl rfl (fun _ h => h) trivial (by simp [hp, base, stale, hc]) (by simp [hp, pend])⟩
  | dX0 =>
    simp only [hp] at h
    obtain ⟨h', -, rfl⟩ := via_eq h
    exact ⟨_, quiet rfl (by simp) (by simp [hp]) rfl rfl rfl (fun _ h => h) trivial (by simp [hp, base, stale]) (by simp [hp, pend])⟩
  | dX1 =>
    simp only [hp] at h
    obtain ⟨h', -, rfl⟩ := via_eq h
    exact ⟨_, quiet rfl (by simp) (by simp [hp]) rfl rfl rfl (fun _ h => h) trivial (by simp [hp, base, stale]) (by simp [hp, pend])⟩
  | dFwd a y =>
    simp only [hp] at h hl
    split at h
    · next hc =>
      cases h
      have hn : s.next s.tail = some y := by rw [hc]; exact hl.2
      exact ⟨_, swing hi hn rfl (by simp) (by simp [hp]) rfl rfl rfl (fun _ => trivial) (fun _ => rfl)
        (by simp [hp, base]) (by simp [hp, pend]) (fun e => by rw [hp] at e; cases e)⟩
    · next hc =>
      cases h
      exact ⟨_, quiet rfl (by simp) (by simp [hp]) rfl rfl rfl (fun _ h => h) trivial (by simp [hp, base, stale, hc]) (by simp [hp, pend])⟩
  | dCas a y =>
    simp only [hp] at h hl
    obtain ⟨-, -, h3, h4, -⟩ := hl
    split at h
    · next hc =>
      obtain ⟨h', -, rfl⟩ := via_eq h
      subst hc
      exact ⟨_, advance hi (h3 rfl) h4 rfl (by simp [hp]) rfl rfl rfl (by simp [hp, base]) (by rw [hp]; rfl)⟩
    · next hc =>
      cases h
      exact ⟨_, quiet rfl (by simp) (by simp [hp]) rfl rfl rfl (fun _ h => h) trivial (by simp [hp, base, stale, hc]) (by simp [hp, pend])⟩
  | dVal a y v =>
    simp only [hp] at h; cases h
    exact ⟨_, quiet rfl (by simp) (by simp [hp]) rfl rfl rfl (fun _ h => h) trivial (by simp [hp, base, stale]) (by simp [hp, pend])⟩
  | qH =>
    simp only [hp] at h; cases h
    exact ⟨_, quiet rfl (by simp) (by simp [hp]) rfl rfl rfl (fun _ h => h) trivial (by simp [hp, base, stale]) (by simp [hp, pend])⟩
  | qT a =>
    simp only [hp] at h; cases h
    exact ⟨_, quiet rfl (by simp) (by simp [hp]) rfl rfl rfl (fun _ h => h) trivial (by simp [hp, base, stale]) (by simp [hp, pend])⟩
  | qS a tp =>
    simp only [hp] at h
    obtain ⟨h', -, rfl⟩ := via_eq h
    exact ⟨_, quiet rfl (by simp) (by simp [hp]) rfl rfl rfl (fun _ h => h) trivial (by simp [hp, base, stale]) (by simp [hp, pend])⟩
  | qC a tp =>
    simp only [hp] at h
    split at h
    · obtain ⟨h', -, rfl⟩ := via_eq h
      exact ⟨_, quiet rfl (by simp) (by simp [hp]) rfl rfl rfl (fun _ h => h) trivial (by simp [hp, base, stale]) (by simp [hp, pend])⟩
    · cases h
      exact ⟨_, quiet rfl (by simp) (by simp [hp]) rfl rfl rfl (fun _ h => h) trivial (by simp [hp, base, stale]) (by simp [hp, pend])⟩
  | qN a tp =>
    simp only [hp] at h; cases h
    exact ⟨_, quiet rfl (by simp) (by simp [hp]) rfl rfl rfl (fun _ h => h) trivial (by simp [hp, base, stale]) (by simp [hp, pend])⟩
  | q1 a tp np =>
    simp only [hp] at h
    obtain ⟨h', -, rfl⟩ := via_eq h
    exact ⟨_, quiet rfl (by simp) (by simp [hp]) rfl rfl rfl (fun _ h => h) trivial (by simp [hp, base, stale]) (by simp [hp, pend])⟩
  | qK a tp np =>
    simp only [hp] at h
    split at h
    · split at h
      · cases h
        by_cases e : a = tp
        · simp only [if_pos e]
          exact ⟨_, quiet rfl (by simp) (by simp [hp]) rfl rfl rfl (fun _ h => h) trivial (by simp [hp, base, stale]) (by simp [hp, pend])⟩
        · simp only [if_neg e]
          exact ⟨_, quiet rfl (by simp) (by simp [hp]) rfl rfl rfl (fun _ h => h) trivial (by simp [hp, base, stale]) (by simp [hp, pend])⟩
      · obtain ⟨h', -, rfl⟩ := via_eq h
        by_cases e : a = tp
        · simp only [if_pos e]
          exact ⟨_, quiet rfl (by simp) (by simp [hp]) rfl rfl rfl (fun _ h => h) trivial (by simp [hp, base, stale]) (by simp [hp, pend])⟩
        · simp only [if_neg e]
          exact ⟨_, quiet rfl (by simp) (by simp [hp]) rfl rfl rfl (fun _ h => h) trivial (by simp [hp, base, stale]) (by simp [hp, pend])⟩
    · cases h
      exact ⟨_, quiet rfl (by simp) (by simp [hp]) rfl rfl rfl (fun _ h => h) trivial (by simp [hp, base, stale]) (by simp [hp, pend])⟩
  | qFwd tp y =>
    simp only [hp] at h hl
    split at h
    · next hc =>
      cases h
      have hn : s.next s.tail = some y := by rw [hc]; exact hl.2
      exact ⟨_, swing hi hn rfl (by simp) (by simp [hp]) rfl rfl rfl (fun _ => trivial) (fun _ => rfl)
        (by simp [hp, base]) (by simp [hp, pend]) (fun e => by rw [hp] at e; cases e)⟩
    · cases h
      exact ⟨_, quiet rfl (by simp) (by simp [hp]) rfl rfl rfl (fun _ h => h) trivial (by simp [hp, base, stale]) (by simp [hp, pend])⟩
  | qCas a np =>
    simp only [hp] at h hl
    obtain ⟨h1, h2, h3, y, rfl, h4, h5⟩ := hl
    split at h
    · next hc =>
      simp only at h
      obtain ⟨h', -, rfl⟩ := via_eq h
      subst hc
      exact ⟨_, advance hi (h3 rfl) h4 rfl (by simp [hp]) rfl rfl rfl (by simp [hp, base]) (by rw [hp]; rfl)⟩
    · cases h
      exact ⟨_, quiet rfl (by simp) (by simp [hp]) rfl rfl rfl (fun _ h => h) trivial (by simp [hp, base, stale]) (by simp [hp, pend])⟩

variable {tq : Prop} [Decidable tq] [Decidable strict]

/-- A call, a return or a call of the client. -/
theorem step_th {s s' : St N V n} {a : Act N V n} (h : step tq strict D C thr s a = some s') (ha : ∀ t, a ≠ .run t) :
    (s'.head = s.head ∧ s'.tail = s.tail ∧ s'.q = s.q ∧ s'.next = s.next) ∧
    ((kind s a = .other ∧ s'.th = s.th) ∨ ∃ t pc, s'.th = upd s.th t pc ∧
      ((kind s a = .call ∧ s.th t = .idle ∧ pc ≠ .idle ∧ base pc ≤ 9 ∧ (∀ s : St N V n, stale s pc = 0) ∧ ∀ s : St N V n, Loc3 s pc)
        ∨ (kind s a = .ret ∧ s.th t ≠ .idle ∧ pc = .idle))) := by
  cases a with
  | run t => exact absurd rfl (ha t)
  | hp b =>
    simp only [step] at h
    split at h
    · obtain ⟨h', -, rfl⟩ := via_eq h
      exact ⟨⟨rfl, rfl, rfl, rfl⟩, .inl ⟨rfl, rfl⟩⟩
    · cases h
  | call t o =>
    simp only [step] at h
    split at h
    · next hid =>
      split at h
      · split at h
        · split at h
          · cases h
            exact ⟨⟨rfl, rfl, rfl, rfl⟩, .inr ⟨t, _, rfl, .inl ⟨rfl, hid, by simp, by simp [base], fun _ => rfl, fun _ => trivial⟩⟩⟩
          · cases h
        · split at h
          · cases h
            exact ⟨⟨rfl, rfl, rfl, rfl⟩, .inr ⟨t, _, rfl, .inl ⟨rfl, hid, by simp, by simp [base], fun _ => rfl, fun _ => trivial⟩⟩⟩
          · cases h
        · cases h
          exact ⟨⟨rfl, rfl, rfl, rfl⟩, .inr ⟨t, _, rfl, .inl ⟨rfl, hid, by simp, by simp [base], fun _ => rfl, fun _ => trivial⟩⟩⟩
        · split at h
          · cases h
            exact ⟨⟨rfl, rfl, rfl, rfl⟩, .inr ⟨t, _, rfl, .inl ⟨rfl, hid, by simp, by simp [base], fun _ => rfl, fun _ => trivial⟩⟩⟩
          · cases h
      · cases h
    · cases h
  | ret t =>
    simp only [step] at h
    split at h
    · next hr =>
      cases h
      exact ⟨⟨rfl, rfl, rfl, rfl⟩, .inr ⟨t, _, rfl, .inr ⟨rfl, by rw [hr]; simp, rfl⟩⟩⟩
    · cases h

variable {stub : N}

/-- The snapshots of `tail` are not ahead of it, and `tail` is at most one entry behind. -/
theorem inv3 (hm : tq → strict) {s : St N V n} (h : (sys tq strict D C thr stub).Reach s) :
    (∀ t, Loc3 s (s.th t)) ∧ lag s ≤ 1 := by
  induction h with
  | init h =>
    refine ⟨fun t => by rw [h.idle t]; trivial, ?_⟩
    simp [lag, St.chain, h.q]
  | @step s s' a hr hs ih =>
    have hi := Inv.reach hm hr
    by_cases ha : ∃ t, a = .run t
    · obtain ⟨t, rfl⟩ := ha
      obtain ⟨pc, hc⟩ := run_cases hi ih.1 hs
      constructor
      · intro u
        rw [hc.th]
        by_cases hu : u = t
        · subst hu; rw [upd_same]; exact hc.loc
        · rw [upd_ne _ _ hu]
          have h1 := ih.1 u
          have h2 := hi.loc u
          revert h1 h2
          cases s.th u <;> intro h1 h2 <;> first
            | trivial
            | exact hc.aft _ (Hp.protected_live hi.hpr h2.2.1 h2.2.2) h1
            | exact hc.aft _ (Hp.protected_live hi.hpr h2.2.1.1 h2.2.1.2) h1
      · rcases hc.how with ⟨-, h1, -⟩ | ⟨h1, -⟩ | ⟨h1, -, -, -, h2⟩
        · omega
        · omega
        · omega
    · obtain ⟨⟨h1, h2, h3, -⟩, h4⟩ := step_th hs fun t e => ha ⟨t, e⟩
      have hc : s'.chain = s.chain := by unfold St.chain; rw [h1, h3]
      have hk : ∀ pc, Loc3 s pc → Loc3 s' pc := fun pc hl => by
        revert hl; cases pc <;> intro hl <;> first
          | trivial
          | (intro hm; rw [hc] at hm ⊢; rw [h2]; exact hl hm)
      refine ⟨fun u => ?_, by unfold lag; rw [hc, h2]; exact ih.2⟩
      rcases h4 with ⟨-, h4⟩ | ⟨t, pc, h4, h5⟩
      · rw [h4]; exact hk _ (ih.1 u)
      · rw [h4]
        by_cases hu : u = t
        · subst hu; rw [upd_same]
          rcases h5 with ⟨-, -, -, -, -, h⟩ | ⟨-, -, rfl⟩
          · exact h _
          · trivial
        · rw [upd_ne _ _ hu]; exact hk _ (ih.1 u)

/-- Steps left, and for every operation that has yet to take effect the steps this, and moving `tail` afterwards, would cost the others. -/
def share (s : St N V n) (t : Fin n) : Nat := left s t + 16 * n * pend (s.th t)

def pot (s : St N V n) : Nat := ∑ t, share s t + 8 * n * lag s

omit [DecidableEq N] in
/-- The thread is in an operation. -/
def inOp : PC N V → Nat
  | .idle => 0
  | _ => 1

omit [DecidableEq N] in
/-- The number of threads in an operation. -/
def busy (s : St N V n) : Nat := ∑ t, inOp (s.th t)

omit [DecidableEq N] in
theorem inOp_one {pc : PC N V} (h : pc ≠ .idle) : inOp pc = 1 := by
  cases pc <;> first | rfl | exact absurd rfl h

omit [DecidableEq N] in
theorem busy_le (s : St N V n) : busy s ≤ n := by
  unfold busy
  refine Nat.le_trans (Finset.sum_le_card_nsmul _ _ 1 fun t _ => ?_) (by simp)
  unfold inOp; split <;> simp

omit [DecidableEq N] in
theorem busy_upd (s s' : St N V n) (t : Fin n) (pc : PC N V) (h : s'.th = upd s.th t pc) :
    busy s' + inOp (s.th t) = busy s + inOp pc := by
  have := sum_eq (fun u => inOp (s.th u)) (fun u => inOp (s'.th u)) t (fun u hu => by rw [h, upd_ne _ _ hu])
  simp only [h, upd_same] at this
  unfold busy
  rw [h]
  exact this

theorem share_idle {s : St N V n} {t : Fin n} (h : s.th t = .idle) : share s t = 0 := by
  simp [share, left, h, base, stale, pend]

/-- Lock freedom: whatever the scheduler and the client of the hazard pointers do, and wherever threads are stopped, the steps of all
operations together are bounded by the number of operations that have returned and the number of threads. -/
theorem lock_free (hm : tq → strict) {c : Ct (St N V n)} (h : (counted (sys tq strict D C thr stub) kind).Reach c) :
    c.work ≤ (16 * n + 9) * (c.rets + n) := by
  refine bound pot busy (16 * n + 9) n ?_ busy_le ?_ h
  · intro s h0
    constructor
    · have h1 : ∑ t, share s t = 0 := Finset.sum_eq_zero fun t _ => share_idle (h0.idle t)
      have h2 : lag s = 0 := by simp [lag, St.chain, h0.q]
      rw [pot, h1, h2]; simp
    · exact Finset.sum_eq_zero fun t _ => by simp [h0.idle t, inOp]
  · intro s a s' hr hs
    by_cases ha : ∃ t, a = .run t
    · obtain ⟨t, rfl⟩ := ha
      obtain ⟨pc, hc⟩ := run_cases (Inv.reach hm hr) (inv3 hm hr).1 hs
      have hb := busy_upd s s' t pc hc.th
      rw [inOp_one hc.idle, inOp_one hc.idle'] at hb
      have hpc : s'.th t = pc := by rw [hc.th, upd_same]
      have hth' : ∀ u, u ≠ t → s'.th u = s.th u := fun u hu => by rw [hc.th, upd_ne _ _ hu]
      have hst : ∀ u, u ≠ t → share s' u ≤ share s u + 8 := fun u hu => by
        simp only [share, left, hth' u hu]
        have := stale_le s' (s.th u)
        omega
      refine ⟨?_, by omega⟩
      unfold pot
      rcases hc.how with ⟨hv, hg, h1, h2⟩ | ⟨hg, h1, h2, -⟩ | ⟨hg, h1, h2, h3, -⟩
      · have h4 := sum_step (share s) (share s') t 0 fun u hu => by
          simp only [share, left, hth' u hu]
          have := hv (s.th u)
          omega
        have h5 : 16 * n * pend pc ≤ 16 * n * pend (s.th t) := Nat.mul_le_mul_left _ h2
        have h6 : share s' t + 1 ≤ share s t := by unfold share; rw [hpc]; omega
        rw [hg]
        omega
      · have h4 := sum_step (share s) (share s') t 8 hst
        have h5 : 16 * n * pend pc ≤ 16 * n * pend (s.th t) := Nat.mul_le_mul_left _ h2
        have h6 : share s' t ≤ share s t + 7 := by unfold share; rw [hpc]; omega
        rw [← hg, Nat.mul_add]
        omega
      · have h4 := sum_step (share s) (share s') t 8 hst
        have h6 : share s' t + 1 + 16 * n ≤ share s t := by unfold share; rw [hpc, h1, h2]; omega
        have h7 : 8 * n * lag s' ≤ 8 * n * (lag s + 1) := Nat.mul_le_mul_left _ hg
        rw [Nat.mul_add] at h7
        omega
    · obtain ⟨⟨h1, h2, h3, h4⟩, h5⟩ := step_th hs fun t e => ha ⟨t, e⟩
      have hc : s'.chain = s.chain := by unfold St.chain; rw [h1, h3]
      have hg : lag s' = lag s := by unfold lag; rw [hc, h2]
      have hst : ∀ pc, stale s' pc = stale s pc := fun pc => by cases pc <;> simp only [stale, h1, h2, h4]
      rcases h5 with ⟨hk, h5⟩ | ⟨t, pc, hth, h5⟩
      · rw [hk]
        refine ⟨?_, by unfold busy; rw [h5]⟩
        unfold pot share left
        rw [h5, hg]; simp only [hst]; exact Nat.le_refl _
      · have hb := busy_upd s s' t pc hth
        have hth' : ∀ u, u ≠ t → s'.th u = s.th u := fun u hu => by rw [hth, upd_ne _ _ hu]
        have hpc : s'.th t = pc := by rw [hth, upd_same]
        have hsh := sum_eq (share s) (share s') t fun u hu => by simp only [share, left, hth' u hu, hst]
        rcases h5 with ⟨hk, h6, h7, h8, h9, -⟩ | ⟨hk, h6, rfl⟩
        · rw [hk]
          rw [h6, inOp_one h7] at hb; simp only [inOp] at hb
          refine ⟨?_, by omega⟩
          have h10 : left s' t ≤ 9 := by simp only [left, hpc, h9]; exact h8
          have h11 : 16 * n * pend (s'.th t) ≤ 16 * n * 1 := Nat.mul_le_mul_left _ (pend_le _)
          have h12 : share s' t ≤ 16 * n + 9 := by unfold share; omega
          unfold pot
          rw [hg]
          omega
        · rw [hk]
          rw [inOp_one h6] at hb; simp only [inOp] at hb
          refine ⟨?_, by omega⟩
          rw [share_idle (s := s') hpc] at hsh
          unfold pot
          rw [hg]
          omega

omit [DecidableEq N] in
/-- The operation has not ended. -/
def running (pc : PC N V) : Prop := base pc ≠ 0

/-- Obstruction freedom: from any state that can be reached, with the other threads stopped wherever they are, a thread that runs
alone ends its operation within 24 steps. -/
theorem alone_returns (hm : tq → strict) {s : St N V n} (h : (sys tq strict D C thr stub).Reach s) (t : Fin n) :
    ∃ j s', j ≤ 24 ∧ alone (fun s => run D C thr s t) j s = some s' ∧ ¬ running (s'.th t) := by
  refine alone_ends (fun s => run D C thr s t) (fun s => left s t + 8 * (lag s * pend (s.th t)))
    (fun s => (sys tq strict D C thr stub).Reach s)
    (fun s => ¬ running (s.th t)) (fun s s' hi hs => .step (a := .run t) hi hs) ?_ 24 s h ?_
  · intro s hr hd
    have hd : base (s.th t) ≠ 0 := fun e => hd fun h => h e
    obtain ⟨s', hs⟩ := Option.isSome_iff_exists.1
      (never_stuck_partial hm hr (r := t) (fun e => hd (by rw [e]; rfl)) (fun x e => hd (by rw [e]; rfl)))
    refine ⟨s', hs, ?_⟩
    obtain ⟨pc, hc⟩ := run_cases (Inv.reach hm hr) (inv3 hm hr).1 hs
    have hpc : s'.th t = pc := by rw [hc.th, upd_same]
    have hp1 := pend_le (s.th t)
    rw [hpc]
    rcases hc.how with ⟨-, hg, h1, h2⟩ | ⟨hg, h1, h2, h3⟩ | ⟨hg, h1, h2, h3, -⟩
    · have := Nat.mul_le_mul_left (lag s) h2
      rw [hg]
      omega
    · have h4 := Nat.mul_le_mul_left (lag s') h2
      rw [← hg, Nat.add_mul, Nat.one_mul]
      rcases Nat.eq_zero_or_pos (pend (s.th t)) with e | e
      · have := h3 e; omega
      · omega
    · rw [h2, Nat.mul_zero]
      omega
  · have h1 := (inv3 hm h).2
    have h2 := pend_le (s.th t)
    have h3 : lag s * pend (s.th t) ≤ 1 := by
      calc lag s * pend (s.th t) ≤ 1 * 1 := Nat.mul_le_mul h1 h2
        _ = 1 := rfl
    have h5 : left s t ≤ 16 := by
      unfold left
      have := stale_le s (s.th t)
      revert this
      generalize s.th t = pc
      cases pc <;> simp only [base, stale] <;> omega
    omega

end Verif.HpFifo.Lf
