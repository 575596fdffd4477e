import Verif.Spin.Mcs

/-! # C07: MCS queue lock -/

namespace Verif.Spin.Mcs

open Spec

variable {N : Type} [DecidableEq N] {n : Nat}

def PC.act : PC N → Bool
  | .link _ | .spin => true
  | .inside | .uNext | .uTail | .uCas | .uWait | .uGrant _ => true
  | _ => false

/-- Uses a node but is not in the queue yet. -/
def PC.prep : PC N → Bool
  | .setLocked _ | .setNext _ | .tryCas | .swap => true
  | _ => false

structure Inv (s : St N n) : Prop where
  q : QInv s.q (fun t => (s.pc t).act) (fun t => (s.pc t).held)
  tail : s.queue = if s.q.rel = s.q.arr.length then none else some (s.nd (s.q.arr.length - 1))
  inj : ∀ j k, s.q.rel ≤ j → j < s.q.arr.length → s.q.rel ≤ k → k < s.q.arr.length →
    s.nd j = s.nd k → j = k
  node : ∀ t, (s.pc t).act = true → s.node t = s.nd (s.q.tk t)
  own : ∀ t k, (s.pc t).prep = true → s.q.rel ≤ k → k < s.q.arr.length → s.node t ≠ s.nd k
  own2 : ∀ t u, (s.pc t).prep = true → (s.pc u).prep = true → s.node t = s.node u → t = u
  /-- a linking thread is not first, and its predecessor's `next` is still empty -/
  lnk : ∀ t p, s.pc t = .link p → s.q.rel < s.q.tk t ∧ p = s.nd (s.q.tk t - 1) ∧
    s.next p = none
  /-- a linked successor is recorded in its predecessor -/
  spn : ∀ t, s.pc t = .spin → s.q.rel < s.q.tk t →
    s.next (s.nd (s.q.tk t - 1)) = some (s.nd (s.q.tk t))
  nxt : ∀ k x, s.q.rel ≤ k → k + 1 < s.q.arr.length → s.next (s.nd k) = some x →
    x = s.nd (k + 1)
  nxt_last : ∀ k, s.q.rel ≤ k → k + 1 = s.q.arr.length → s.next (s.nd k) = none
  wait_gt : ∀ k, s.q.rel < k → k < s.q.arr.length → s.locked (s.nd k) = true
  wait_rel : ∀ t, s.pc t = .spin → s.q.tk t = s.q.rel → s.locked (s.nd s.q.rel) = false
  fresh : ∀ t, s.pc t = .swap ∨ s.pc t = .tryCas → s.next (s.node t) = none
  freshl : ∀ t, (s.pc t = .swap ∨ s.pc t = .tryCas ∨ ∃ b, s.pc t = .setNext b) →
    s.locked (s.node t) = true
  grant : ∀ t x, s.pc t = .uGrant x → s.q.rel + 1 < s.q.arr.length ∧ x = s.nd (s.q.rel + 1) ∧
    s.next (s.nd s.q.rel) = some x
  uw : ∀ t, s.pc t = .uWait → s.q.rel + 1 < s.q.arr.length

theorem inv_init {s : St N n} (h : isInit s) : Inv s := by
  obtain ⟨h1, h3, h4⟩ := h
  have hq := QInv.empty n
  have e1 : (fun t => (s.pc t).act) = fun _ => false := by funext t; rw [h3]; rfl
  have e2 : (fun t => (s.pc t).held) = fun _ => false := by funext t; rw [h3]; rfl
  constructor
  · rw [h4, e1, e2]; exact hq
  all_goals simp only [h4, Q.empty, List.length_nil, h3]
  all_goals grind [PC.act, PC.prep]

theorem Inv.ctx {s : St N n} (hi : Inv s) :
    s.q.rel ≤ s.q.arr.length ∧ (∀ t, (s.pc t).act = true → s.q.tk t < s.q.arr.length) ∧
    (∀ t, (s.pc t).act = true → s.q.rel ≤ s.q.tk t) ∧
    (∀ t u, (s.pc t).act = true → (s.pc u).act = true → s.q.tk t = s.q.tk u → t = u) ∧
    (∀ t, (s.pc t).held = true → s.q.tk t = s.q.rel) := by
  have hq := hi.q
  refine ⟨by have := hq.len; omega, fun t => hq.tk_lt (t := t), fun t h => (hq.act_tk t h).1,
    fun t u => hq.tk_inj (t := t) (u := u), hq.held_tk⟩

theorem Inv.unused {s : St N n} (hi : Inv s) {x : N} (hx : unused s x) :
    (∀ k, s.q.rel ≤ k → k < s.q.arr.length → x ≠ s.nd k) ∧
      (∀ u, (s.pc u).prep = true → x ≠ s.node u) := by
  constructor
  · intro k hk1 hk2 e
    obtain ⟨hu, hk⟩ := hi.q.cov k _ hk1 (List.getElem?_eq_getElem hk2)
    refine hx _ (fun e => by rw [e] at hu; cases hu) ?_
    rw [hi.node _ hu, hk, e]
  · intro u hu e
    exact hx u (fun e => by rw [e] at hu; cases hu) e.symm

theorem inv_lock {s s' : St N n} {t : Fin n} {x : N} (hi : Inv s)
    (hs : step s (.lock t x) = some s') : Inv s' := by
  obtain ⟨hq, h1, h2, h3, h4, h5, h6, h7, h8, h9, h10, h11, h12, h13, h14, h15⟩ := hi
  have hi : Inv s := ⟨hq, h1, h2, h3, h4, h5, h6, h7, h8, h9, h10, h11, h12, h13, h14, h15⟩
  obtain ⟨hlen, htl, hrl, hinj, hheld⟩ := hi.ctx
  have has : ∀ u, s.pc u = .spin → (s.pc u).act = true := by intro u h; rw [h]; rfl
  have haa : ∀ u p, s.pc u = .link p → (s.pc u).act = true := by intro u p h; rw [h]; rfl
  have hag : ∀ u p, s.pc u = .uGrant p → (s.pc u).held = true := by intro u p h; rw [h]; rfl
  have haw : ∀ u, s.pc u = .uWait → (s.pc u).held = true := by intro u h; rw [h]; rfl
  simp only [step] at hs
  step_split hs
  next hp =>
  obtain ⟨hp, hx⟩ := hp
  obtain ⟨hx1, hx2⟩ := hi.unused hx
  have hna : (s.pc t).act = false := by rw [hp]; rfl
  have ea := comp_upd_same PC.act s.pc t (.setLocked false : PC N) (by rw [hp]; rfl)
  have eh := comp_upd_same PC.held s.pc t (.setLocked false : PC N) (by rw [hp]; rfl)
  have ea' := fun u => congrFun ea u
  constructor
  · simp only [ea, eh]
    exact hq
  · clear * - h1 hp
    grind [PC.prep, PC.act]
  · clear * - h2 hp
    grind [PC.prep, PC.act]
  · clear * - h3 ea' hp hna
    grind [PC.prep, PC.act]
  · clear * - h4 hp hx1
    grind [PC.prep, PC.act]
  · clear * - h5 hp hx2
    grind [PC.prep, PC.act]
  · clear * - h6 hp
    grind [PC.prep, PC.act]
  · clear * - h7 hp
    grind [PC.prep, PC.act]
  · clear * - h8 hp
    grind [PC.prep, PC.act]
  · clear * - h9 hp
    grind [PC.prep, PC.act]
  · clear * - h10 hp
    grind [PC.prep, PC.act]
  · clear * - h11 hp
    grind [PC.prep, PC.act]
  · clear * - h12 hp
    grind [PC.prep, PC.act]
  · clear * - h13 hp
    grind [PC.prep, PC.act]
  · clear * - h14 hp
    grind [PC.prep, PC.act]
  · clear * - h15 hp
    grind [PC.prep, PC.act]

theorem inv_trylock {s s' : St N n} {t : Fin n} {x : N} (hi : Inv s)
    (hs : step s (.trylock t x) = some s') : Inv s' := by
  obtain ⟨hq, h1, h2, h3, h4, h5, h6, h7, h8, h9, h10, h11, h12, h13, h14, h15⟩ := hi
  have hi : Inv s := ⟨hq, h1, h2, h3, h4, h5, h6, h7, h8, h9, h10, h11, h12, h13, h14, h15⟩
  obtain ⟨hlen, htl, hrl, hinj, hheld⟩ := hi.ctx
  have has : ∀ u, s.pc u = .spin → (s.pc u).act = true := by intro u h; rw [h]; rfl
  have haa : ∀ u p, s.pc u = .link p → (s.pc u).act = true := by intro u p h; rw [h]; rfl
  have hag : ∀ u p, s.pc u = .uGrant p → (s.pc u).held = true := by intro u p h; rw [h]; rfl
  have haw : ∀ u, s.pc u = .uWait → (s.pc u).held = true := by intro u h; rw [h]; rfl
  simp only [step] at hs
  step_split hs
  next hp =>
  obtain ⟨hp, hx⟩ := hp
  obtain ⟨hx1, hx2⟩ := hi.unused hx
  have hna : (s.pc t).act = false := by rw [hp]; rfl
  have ea := comp_upd_same PC.act s.pc t (.setLocked true : PC N) (by rw [hp]; rfl)
  have eh := comp_upd_same PC.held s.pc t (.setLocked true : PC N) (by rw [hp]; rfl)
  have ea' := fun u => congrFun ea u
  constructor
  · simp only [ea, eh]
    exact hq
  · clear * - h1 hp
    grind [PC.prep, PC.act]
  · clear * - h2 hp
    grind [PC.prep, PC.act]
  · clear * - h3 ea' hp hna
    grind [PC.prep, PC.act]
  · clear * - h4 hp hx1
    grind [PC.prep, PC.act]
  · clear * - h5 hp hx2
    grind [PC.prep, PC.act]
  · clear * - h6 hp
    grind [PC.prep, PC.act]
  · clear * - h7 hp
    grind [PC.prep, PC.act]
  · clear * - h8 hp
    grind [PC.prep, PC.act]
  · clear * - h9 hp
    grind [PC.prep, PC.act]
  · clear * - h10 hp
    grind [PC.prep, PC.act]
  · clear * - h11 hp
    grind [PC.prep, PC.act]
  · clear * - h12 hp
    grind [PC.prep, PC.act]
  · clear * - h13 hp
    grind [PC.prep, PC.act]
  · clear * - h14 hp
    grind [PC.prep, PC.act]
  · clear * - h15 hp
    grind [PC.prep, PC.act]

theorem inv_unlock {s s' : St N n} {t : Fin n} (hi : Inv s)
    (hs : step s (.unlock t) = some s') : Inv s' := by
  obtain ⟨hq, h1, h2, h3, h4, h5, h6, h7, h8, h9, h10, h11, h12, h13, h14, h15⟩ := hi
  have hi : Inv s := ⟨hq, h1, h2, h3, h4, h5, h6, h7, h8, h9, h10, h11, h12, h13, h14, h15⟩
  obtain ⟨hlen, htl, hrl, hinj, hheld⟩ := hi.ctx
  have has : ∀ u, s.pc u = .spin → (s.pc u).act = true := by intro u h; rw [h]; rfl
  have haa : ∀ u p, s.pc u = .link p → (s.pc u).act = true := by intro u p h; rw [h]; rfl
  have hag : ∀ u p, s.pc u = .uGrant p → (s.pc u).held = true := by intro u p h; rw [h]; rfl
  have haw : ∀ u, s.pc u = .uWait → (s.pc u).held = true := by intro u h; rw [h]; rfl
  simp only [step] at hs
  step_split hs
  next hp =>
  have ea := comp_upd_same PC.act s.pc t (.uNext : PC N) (by rw [hp]; rfl)
  have eh := comp_upd_same PC.held s.pc t (.uNext : PC N) (by rw [hp]; rfl)
  have ea' := fun u => congrFun ea u
  constructor
  · simp only [ea, eh]
    exact hq
  · clear * - h1 hp
    grind [PC.prep, PC.act]
  · clear * - h2 hp
    grind [PC.prep, PC.act]
  · clear * - h3 ea' hp
    grind [PC.prep, PC.act]
  · clear * - h4 hp
    grind [PC.prep, PC.act]
  · clear * - h5 hp
    grind [PC.prep, PC.act]
  · clear * - h6 hp
    grind [PC.prep, PC.act]
  · clear * - h7 hp
    grind [PC.prep, PC.act]
  · clear * - h8 hp
    grind [PC.prep, PC.act]
  · clear * - h9 hp
    grind [PC.prep, PC.act]
  · clear * - h10 hp
    grind [PC.prep, PC.act]
  · clear * - h11 hp
    grind [PC.prep, PC.act]
  · clear * - h12 hp
    grind [PC.prep, PC.act]
  · clear * - h13 hp
    grind [PC.prep, PC.act]
  · clear * - h14 hp
    grind [PC.prep, PC.act]
  · clear * - h15 hp
    grind [PC.prep, PC.act]

theorem inv_setLocked {s s' : St N n} {t : Fin n} {b : Bool} (hi : Inv s) (hp : s.pc t = .setLocked b)
    (hs : step s (.run t) = some s') : Inv s' := by
  obtain ⟨hq, h1, h2, h3, h4, h5, h6, h7, h8, h9, h10, h11, h12, h13, h14, h15⟩ := hi
  have hi : Inv s := ⟨hq, h1, h2, h3, h4, h5, h6, h7, h8, h9, h10, h11, h12, h13, h14, h15⟩
  obtain ⟨hlen, htl, hrl, hinj, hheld⟩ := hi.ctx
  have has : ∀ u, s.pc u = .spin → (s.pc u).act = true := by intro u h; rw [h]; rfl
  have haa : ∀ u p, s.pc u = .link p → (s.pc u).act = true := by intro u p h; rw [h]; rfl
  have hag : ∀ u p, s.pc u = .uGrant p → (s.pc u).held = true := by intro u p h; rw [h]; rfl
  have haw : ∀ u, s.pc u = .uWait → (s.pc u).held = true := by intro u h; rw [h]; rfl
  simp only [step, hp] at hs
  have hpr : (s.pc t).prep = true := by rw [hp]; rfl
  step_split hs
  have ea := comp_upd_same PC.act s.pc t (.setNext b : PC N) (by rw [hp]; rfl)
  have eh := comp_upd_same PC.held s.pc t (.setNext b : PC N) (by rw [hp]; rfl)
  have ea' := fun u => congrFun ea u
  constructor
  · simp only [ea, eh]
    exact hq
  · clear * - h1 hp
    grind [PC.prep, PC.act]
  · clear * - h2 hp
    grind [PC.prep, PC.act]
  · clear * - h3 ea' hp
    grind [PC.prep, PC.act]
  · clear * - h4 hp
    grind [PC.prep, PC.act]
  · clear * - h5 hp
    grind [PC.prep, PC.act]
  · clear * - h6 hp
    grind [PC.prep, PC.act]
  · clear * - h7 hp
    grind [PC.prep, PC.act]
  · clear * - h8 hp
    grind [PC.prep, PC.act]
  · clear * - h9 hp
    grind [PC.prep, PC.act]
  · clear * - h10 hp
    grind [PC.prep, PC.act]
  · clear * - h11 hp h4 hpr htl has
    grind [PC.prep, PC.act]
  · clear * - h12 hp
    grind [PC.prep, PC.act]
  · clear * - h13 hp h5 hpr
    grind [PC.prep, PC.act]
  · clear * - h14 hp
    grind [PC.prep, PC.act]
  · clear * - h15 hp
    grind [PC.prep, PC.act]

theorem inv_setNext {s s' : St N n} {t : Fin n} {b : Bool} (hi : Inv s) (hp : s.pc t = .setNext b)
    (hs : step s (.run t) = some s') : Inv s' := by
  obtain ⟨hq, h1, h2, h3, h4, h5, h6, h7, h8, h9, h10, h11, h12, h13, h14, h15⟩ := hi
  have hi : Inv s := ⟨hq, h1, h2, h3, h4, h5, h6, h7, h8, h9, h10, h11, h12, h13, h14, h15⟩
  obtain ⟨hlen, htl, hrl, hinj, hheld⟩ := hi.ctx
  have has : ∀ u, s.pc u = .spin → (s.pc u).act = true := by intro u h; rw [h]; rfl
  have haa : ∀ u p, s.pc u = .link p → (s.pc u).act = true := by intro u p h; rw [h]; rfl
  have hag : ∀ u p, s.pc u = .uGrant p → (s.pc u).held = true := by intro u p h; rw [h]; rfl
  have haw : ∀ u, s.pc u = .uWait → (s.pc u).held = true := by intro u h; rw [h]; rfl
  simp only [step, hp] at hs
  have hpr : (s.pc t).prep = true := by rw [hp]; rfl
  cases b
  · simp only [Bool.false_eq_true, if_false, Option.some.injEq] at hs
    subst hs
    have ea := comp_upd_same PC.act s.pc t (.swap : PC N) (by rw [hp]; rfl)
    have eh := comp_upd_same PC.held s.pc t (.swap : PC N) (by rw [hp]; rfl)
    have ea' := fun u => congrFun ea u
    constructor
    · simp only [ea, eh]
      exact hq
    · clear * - h1 hp
      grind [PC.prep, PC.act]
    · clear * - h2 hp
      grind [PC.prep, PC.act]
    · clear * - h3 ea' hp
      grind [PC.prep, PC.act]
    · clear * - h4 hp
      grind [PC.prep, PC.act]
    · clear * - h5 hp
      grind [PC.prep, PC.act]
    · clear * - h6 hp
      grind [PC.prep, PC.act]
    · clear * - h7 hp h4 hpr htl hrl has
      grind [PC.prep, PC.act]
    · clear * - h8 hp h4 hpr
      grind [PC.prep, PC.act]
    · clear * - h9 hp
      grind [PC.prep, PC.act]
    · clear * - h10 hp
      grind [PC.prep, PC.act]
    · clear * - h11 hp
      grind [PC.prep, PC.act]
    · clear * - h12 hp h5 hpr
      grind [PC.prep, PC.act]
    · clear * - h13 hp h5 hpr
      grind [PC.prep, PC.act]
    · clear * - h14 hp h4 hpr hlen
      grind [PC.prep, PC.act]
    · clear * - h15 hp
      grind [PC.prep, PC.act]
  · simp only [if_true, Option.some.injEq] at hs
    subst hs
    have ea := comp_upd_same PC.act s.pc t (.tryCas : PC N) (by rw [hp]; rfl)
    have eh := comp_upd_same PC.held s.pc t (.tryCas : PC N) (by rw [hp]; rfl)
    have ea' := fun u => congrFun ea u
    constructor
    · simp only [ea, eh]
      exact hq
    · clear * - h1 hp
      grind [PC.prep, PC.act]
    · clear * - h2 hp
      grind [PC.prep, PC.act]
    · clear * - h3 ea' hp
      grind [PC.prep, PC.act]
    · clear * - h4 hp
      grind [PC.prep, PC.act]
    · clear * - h5 hp
      grind [PC.prep, PC.act]
    · clear * - h6 hp
      grind [PC.prep, PC.act]
    · clear * - h7 hp h4 hpr htl hrl has
      grind [PC.prep, PC.act]
    · clear * - h8 hp h4 hpr
      grind [PC.prep, PC.act]
    · clear * - h9 hp
      grind [PC.prep, PC.act]
    · clear * - h10 hp
      grind [PC.prep, PC.act]
    · clear * - h11 hp
      grind [PC.prep, PC.act]
    · clear * - h12 hp h5 hpr
      grind [PC.prep, PC.act]
    · clear * - h13 hp h5 hpr
      grind [PC.prep, PC.act]
    · clear * - h14 hp h4 hpr hlen
      grind [PC.prep, PC.act]
    · clear * - h15 hp
      grind [PC.prep, PC.act]

theorem inv_tryCas {s s' : St N n} {t : Fin n} (hi : Inv s) (hp : s.pc t = .tryCas)
    (hs : step s (.run t) = some s') : Inv s' := by
  obtain ⟨hq, h1, h2, h3, h4, h5, h6, h7, h8, h9, h10, h11, h12, h13, h14, h15⟩ := hi
  have hi : Inv s := ⟨hq, h1, h2, h3, h4, h5, h6, h7, h8, h9, h10, h11, h12, h13, h14, h15⟩
  obtain ⟨hlen, htl, hrl, hinj, hheld⟩ := hi.ctx
  have has : ∀ u, s.pc u = .spin → (s.pc u).act = true := by intro u h; rw [h]; rfl
  have haa : ∀ u p, s.pc u = .link p → (s.pc u).act = true := by intro u p h; rw [h]; rfl
  have hag : ∀ u p, s.pc u = .uGrant p → (s.pc u).held = true := by intro u p h; rw [h]; rfl
  have haw : ∀ u, s.pc u = .uWait → (s.pc u).held = true := by intro u h; rw [h]; rfl
  simp only [step, hp] at hs
  have hpr : (s.pc t).prep = true := by rw [hp]; rfl
  have hna : (s.pc t).act = false := by rw [hp]; rfl
  step_split hs
  · next hnone =>
    have hre : s.q.rel = s.q.arr.length := by grind
    have hq1 := hq.arrive hna
    have ea := comp_upd PC.act s.pc t (.inside : PC N)
    have eh := comp_upd PC.held s.pc t (.inside : PC N)
    have ea' := fun u => congrFun ea u
    constructor
    · simp only [ea, eh]
      refine hq1.enter (t := t) (by simp) ?_ (by rw [hp]; rfl)
      simp [Q.arrive, hre]
    · clear * - h1 hp hre
      simp only [Q.arrive, Q.enter, List.length_append, List.length_singleton]
      grind [PC.prep, PC.act]
    · clear * - h2 hp hre
      simp only [Q.arrive, Q.enter, List.length_append, List.length_singleton]
      grind [PC.prep, PC.act]
    · clear * - h3 ea' hp htl hrl has haa hre hna
      simp only [Q.arrive, Q.enter, List.length_append, List.length_singleton]
      grind [PC.prep, PC.act]
    · clear * - h4 hp h5 hpr hre
      simp only [Q.arrive, Q.enter, List.length_append, List.length_singleton]
      grind [PC.prep, PC.act]
    · clear * - h5 hp
      simp only [Q.arrive, Q.enter, List.length_append, List.length_singleton]
      grind [PC.prep, PC.act]
    · clear * - h6 hp htl hrl has haa hre hna
      simp only [Q.arrive, Q.enter, List.length_append, List.length_singleton]
      grind [PC.prep, PC.act]
    · clear * - h7 hp htl hrl has haa hre hna
      simp only [Q.arrive, Q.enter, List.length_append, List.length_singleton]
      grind [PC.prep, PC.act]
    · clear * - h8 hp hre
      simp only [Q.arrive, Q.enter, List.length_append, List.length_singleton]
      grind [PC.prep, PC.act]
    · clear * - h9 hp hre h12
      simp only [Q.arrive, Q.enter, List.length_append, List.length_singleton]
      grind [PC.prep, PC.act]
    · clear * - h10 hp hre
      simp only [Q.arrive, Q.enter, List.length_append, List.length_singleton]
      grind [PC.prep, PC.act]
    · clear * - h11 hp htl hrl has haa hre hna
      simp only [Q.arrive, Q.enter, List.length_append, List.length_singleton]
      grind [PC.prep, PC.act]
    · clear * - h12 hp
      simp only [Q.arrive, Q.enter, List.length_append, List.length_singleton]
      grind [PC.prep, PC.act]
    · clear * - h13 hp
      simp only [Q.arrive, Q.enter, List.length_append, List.length_singleton]
      grind [PC.prep, PC.act]
    · clear * - h14 hp hre hlen
      simp only [Q.arrive, Q.enter, List.length_append, List.length_singleton]
      grind [PC.prep, PC.act]
    · clear * - h15 hp hre hlen
      simp only [Q.arrive, Q.enter, List.length_append, List.length_singleton]
      grind [PC.prep, PC.act]
  · next hsome =>
    have ea := comp_upd_same PC.act s.pc t (.idle : PC N) (by rw [hp]; rfl)
    have eh := comp_upd_same PC.held s.pc t (.idle : PC N) (by rw [hp]; rfl)
    have ea' := fun u => congrFun ea u
    constructor
    · simp only [ea, eh]
      exact hq
    · clear * - h1 hp
      grind [PC.prep, PC.act]
    · clear * - h2 hp
      grind [PC.prep, PC.act]
    · clear * - h3 ea' hp
      grind [PC.prep, PC.act]
    · clear * - h4 hp
      grind [PC.prep, PC.act]
    · clear * - h5 hp
      grind [PC.prep, PC.act]
    · clear * - h6 hp
      grind [PC.prep, PC.act]
    · clear * - h7 hp
      grind [PC.prep, PC.act]
    · clear * - h8 hp
      grind [PC.prep, PC.act]
    · clear * - h9 hp
      grind [PC.prep, PC.act]
    · clear * - h10 hp
      grind [PC.prep, PC.act]
    · clear * - h11 hp
      grind [PC.prep, PC.act]
    · clear * - h12 hp
      grind [PC.prep, PC.act]
    · clear * - h13 hp
      grind [PC.prep, PC.act]
    · clear * - h14 hp
      grind [PC.prep, PC.act]
    · clear * - h15 hp
      grind [PC.prep, PC.act]

theorem inv_swap {s s' : St N n} {t : Fin n} (hi : Inv s) (hp : s.pc t = .swap)
    (hs : step s (.run t) = some s') : Inv s' := by
  obtain ⟨hq, h1, h2, h3, h4, h5, h6, h7, h8, h9, h10, h11, h12, h13, h14, h15⟩ := hi
  have hi : Inv s := ⟨hq, h1, h2, h3, h4, h5, h6, h7, h8, h9, h10, h11, h12, h13, h14, h15⟩
  obtain ⟨hlen, htl, hrl, hinj, hheld⟩ := hi.ctx
  have has : ∀ u, s.pc u = .spin → (s.pc u).act = true := by intro u h; rw [h]; rfl
  have haa : ∀ u p, s.pc u = .link p → (s.pc u).act = true := by intro u p h; rw [h]; rfl
  have hag : ∀ u p, s.pc u = .uGrant p → (s.pc u).held = true := by intro u p h; rw [h]; rfl
  have haw : ∀ u, s.pc u = .uWait → (s.pc u).held = true := by intro u h; rw [h]; rfl
  simp only [step, hp] at hs
  have hpr : (s.pc t).prep = true := by rw [hp]; rfl
  have hna : (s.pc t).act = false := by rw [hp]; rfl
  step_split hs
  · next hnone =>
    have hre : s.q.rel = s.q.arr.length := by grind
    have hq1 := hq.arrive hna
    have ea := comp_upd PC.act s.pc t (.inside : PC N)
    have eh := comp_upd PC.held s.pc t (.inside : PC N)
    have ea' := fun u => congrFun ea u
    constructor
    · simp only [ea, eh]
      refine hq1.enter (t := t) (by simp) ?_ (by rw [hp]; rfl)
      simp [Q.arrive, hre]
    · clear * - h1 hp hre
      simp only [Q.arrive, Q.enter, List.length_append, List.length_singleton]
      grind [PC.prep, PC.act]
    · clear * - h2 hp hre
      simp only [Q.arrive, Q.enter, List.length_append, List.length_singleton]
      grind [PC.prep, PC.act]
    · clear * - h3 ea' hp htl hrl has haa hre hna
      simp only [Q.arrive, Q.enter, List.length_append, List.length_singleton]
      grind [PC.prep, PC.act]
    · clear * - h4 hp h5 hpr hre
      simp only [Q.arrive, Q.enter, List.length_append, List.length_singleton]
      grind [PC.prep, PC.act]
    · clear * - h5 hp
      simp only [Q.arrive, Q.enter, List.length_append, List.length_singleton]
      grind [PC.prep, PC.act]
    · clear * - h6 hp htl hrl has haa hre hna
      simp only [Q.arrive, Q.enter, List.length_append, List.length_singleton]
      grind [PC.prep, PC.act]
    · clear * - h7 hp htl hrl has haa hre hna
      simp only [Q.arrive, Q.enter, List.length_append, List.length_singleton]
      grind [PC.prep, PC.act]
    · clear * - h8 hp hre
      simp only [Q.arrive, Q.enter, List.length_append, List.length_singleton]
      grind [PC.prep, PC.act]
    · clear * - h9 hp hre h12
      simp only [Q.arrive, Q.enter, List.length_append, List.length_singleton]
      grind [PC.prep, PC.act]
    · clear * - h10 hp hre
      simp only [Q.arrive, Q.enter, List.length_append, List.length_singleton]
      grind [PC.prep, PC.act]
    · clear * - h11 hp htl hrl has haa hre hna
      simp only [Q.arrive, Q.enter, List.length_append, List.length_singleton]
      grind [PC.prep, PC.act]
    · clear * - h12 hp
      simp only [Q.arrive, Q.enter, List.length_append, List.length_singleton]
      grind [PC.prep, PC.act]
    · clear * - h13 hp
      simp only [Q.arrive, Q.enter, List.length_append, List.length_singleton]
      grind [PC.prep, PC.act]
    · clear * - h14 hp hre hlen
      simp only [Q.arrive, Q.enter, List.length_append, List.length_singleton]
      grind [PC.prep, PC.act]
    · clear * - h15 hp hre hlen
      simp only [Q.arrive, Q.enter, List.length_append, List.length_singleton]
      grind [PC.prep, PC.act]
  · next p hsome =>
    have hre : s.q.rel ≠ s.q.arr.length ∧ p = s.nd (s.q.arr.length - 1) := by grind
    have ea := comp_upd PC.act s.pc t (.link p : PC N)
    have eh := comp_upd_same PC.held s.pc t (.link p : PC N) (by rw [hp]; rfl)
    have ea' := fun u => congrFun ea u
    constructor
    · simp only [ea, eh]
      exact hq.arrive hna
    · clear * - h1 hp hre hlen
      simp only [Q.arrive, List.length_append, List.length_singleton]
      grind [PC.prep, PC.act]
    · clear * - h2 hp h4 hpr hre
      simp only [Q.arrive, List.length_append, List.length_singleton]
      grind [PC.prep, PC.act]
    · clear * - h3 ea' hp htl hna
      simp only [Q.arrive, List.length_append, List.length_singleton]
      grind [PC.prep, PC.act]
    · clear * - h4 hp h5 hpr
      simp only [Q.arrive, List.length_append, List.length_singleton]
      grind [PC.prep, PC.act]
    · clear * - h5 hp
      simp only [Q.arrive, List.length_append, List.length_singleton]
      grind [PC.prep, PC.act]
    · clear * - h6 hp h9 htl hrl haa hna hre hlen
      simp only [Q.arrive, List.length_append, List.length_singleton]
      grind [PC.prep, PC.act]
    · clear * - h7 hp htl has hna hlen hrl
      simp only [Q.arrive, List.length_append, List.length_singleton]
      grind [PC.prep, PC.act]
    · clear * - h8 hp h9
      simp only [Q.arrive, List.length_append, List.length_singleton]
      grind [PC.prep, PC.act]
    · clear * - h9 hp h12
      simp only [Q.arrive, List.length_append, List.length_singleton]
      grind [PC.prep, PC.act]
    · clear * - h10 hp h13
      simp only [Q.arrive, List.length_append, List.length_singleton]
      grind [PC.prep, PC.act]
    · clear * - h11 hp has htl hna hlen hre
      simp only [Q.arrive, List.length_append, List.length_singleton]
      grind [PC.prep, PC.act]
    · clear * - h12 hp
      simp only [Q.arrive, List.length_append, List.length_singleton]
      grind [PC.prep, PC.act]
    · clear * - h13 hp
      simp only [Q.arrive, List.length_append, List.length_singleton]
      grind [PC.prep, PC.act]
    · clear * - h14 hp
      simp only [Q.arrive, List.length_append, List.length_singleton]
      grind [PC.prep, PC.act]
    · clear * - h15 hp
      simp only [Q.arrive, List.length_append, List.length_singleton]
      grind [PC.prep, PC.act]

theorem inv_link {s s' : St N n} {t : Fin n} {p : N} (hi : Inv s) (hp : s.pc t = .link p)
    (hs : step s (.run t) = some s') : Inv s' := by
  obtain ⟨hq, h1, h2, h3, h4, h5, h6, h7, h8, h9, h10, h11, h12, h13, h14, h15⟩ := hi
  have hi : Inv s := ⟨hq, h1, h2, h3, h4, h5, h6, h7, h8, h9, h10, h11, h12, h13, h14, h15⟩
  obtain ⟨hlen, htl, hrl, hinj, hheld⟩ := hi.ctx
  have has : ∀ u, s.pc u = .spin → (s.pc u).act = true := by intro u h; rw [h]; rfl
  have haa : ∀ u p, s.pc u = .link p → (s.pc u).act = true := by intro u p h; rw [h]; rfl
  have hag : ∀ u p, s.pc u = .uGrant p → (s.pc u).held = true := by intro u p h; rw [h]; rfl
  have haw : ∀ u, s.pc u = .uWait → (s.pc u).held = true := by intro u h; rw [h]; rfl
  simp only [step, hp] at hs
  step_split hs
  have hact : (s.pc t).act = true := by rw [hp]; rfl
  have hl := h6 t p hp
  have ht := htl t hact
  have hn := h3 t hact
  have ea := comp_upd_same PC.act s.pc t (.spin : PC N) (by rw [hp]; rfl)
  have eh := comp_upd_same PC.held s.pc t (.spin : PC N) (by rw [hp]; rfl)
  have ea' := fun u => congrFun ea u
  constructor
  · simp only [ea, eh]
    exact hq
  · clear * - h1 hp
    grind [PC.prep, PC.act]
  · clear * - h2 hp
    grind [PC.prep, PC.act]
  · clear * - h3 ea' hp
    grind [PC.prep, PC.act]
  · clear * - h4 hp
    grind [PC.prep, PC.act]
  · clear * - h5 hp
    grind [PC.prep, PC.act]
  · clear * - h6 hp hl ht h2 htl hrl haa hinj hact
    grind [PC.prep, PC.act]
  · clear * - h7 hp hl ht h2 htl hrl has hn hinj
    grind [PC.prep, PC.act]
  · clear * - h8 hp hl ht h2 hn
    grind [PC.prep, PC.act]
  · clear * - h9 hp hl ht h2
    grind [PC.prep, PC.act]
  · clear * - h10 hp
    grind [PC.prep, PC.act]
  · clear * - h11 hp hl
    grind [PC.prep, PC.act]
  · clear * - h12 hp hl h4 ht
    grind [PC.prep, PC.act]
  · clear * - h13 hp
    grind [PC.prep, PC.act]
  · clear * - h14 hp hl h2 ht hn
    grind [PC.prep, PC.act]
  · clear * - h15 hp
    grind [PC.prep, PC.act]

theorem inv_spin {s s' : St N n} {t : Fin n} (hi : Inv s) (hp : s.pc t = .spin)
    (hs : step s (.run t) = some s') : Inv s' := by
  obtain ⟨hq, h1, h2, h3, h4, h5, h6, h7, h8, h9, h10, h11, h12, h13, h14, h15⟩ := hi
  have hi : Inv s := ⟨hq, h1, h2, h3, h4, h5, h6, h7, h8, h9, h10, h11, h12, h13, h14, h15⟩
  obtain ⟨hlen, htl, hrl, hinj, hheld⟩ := hi.ctx
  have has : ∀ u, s.pc u = .spin → (s.pc u).act = true := by intro u h; rw [h]; rfl
  have haa : ∀ u p, s.pc u = .link p → (s.pc u).act = true := by intro u p h; rw [h]; rfl
  have hag : ∀ u p, s.pc u = .uGrant p → (s.pc u).held = true := by intro u p h; rw [h]; rfl
  have haw : ∀ u, s.pc u = .uWait → (s.pc u).held = true := by intro u h; rw [h]; rfl
  simp only [step, hp] at hs
  step_split hs
  · exact hi
  · next hw =>
    have hact : (s.pc t).act = true := by rw [hp]; rfl
    have htk : s.q.tk t = s.q.rel := by
      have := hrl t hact
      have := htl t hact
      by_contra hne
      have := h10 (s.q.tk t) (by omega) (by omega)
      rw [← h3 t hact] at this
      exact hw this
    have ea := comp_upd_same PC.act s.pc t (.inside : PC N) (by rw [hp]; rfl)
    have eh := comp_upd PC.held s.pc t (.inside : PC N)
    have ea' := fun u => congrFun ea u
    constructor
    · simp only [ea, eh]
      exact hq.enter hact htk (by rw [hp]; rfl)
    · clear * - h1 hp
      simp only [Q.enter]
      grind [PC.prep, PC.act]
    · clear * - h2 hp
      simp only [Q.enter]
      grind [PC.prep, PC.act]
    · clear * - h3 ea' hp
      simp only [Q.enter]
      grind [PC.prep, PC.act]
    · clear * - h4 hp
      simp only [Q.enter]
      grind [PC.prep, PC.act]
    · clear * - h5 hp
      simp only [Q.enter]
      grind [PC.prep, PC.act]
    · clear * - h6 hp
      simp only [Q.enter]
      grind [PC.prep, PC.act]
    · clear * - h7 hp
      simp only [Q.enter]
      grind [PC.prep, PC.act]
    · clear * - h8 hp
      simp only [Q.enter]
      grind [PC.prep, PC.act]
    · clear * - h9 hp
      simp only [Q.enter]
      grind [PC.prep, PC.act]
    · clear * - h10 hp
      simp only [Q.enter]
      grind [PC.prep, PC.act]
    · clear * - h11 hp
      simp only [Q.enter]
      grind [PC.prep, PC.act]
    · clear * - h12 hp
      simp only [Q.enter]
      grind [PC.prep, PC.act]
    · clear * - h13 hp
      simp only [Q.enter]
      grind [PC.prep, PC.act]
    · clear * - h14 hp
      simp only [Q.enter]
      grind [PC.prep, PC.act]
    · clear * - h15 hp
      simp only [Q.enter]
      grind [PC.prep, PC.act]

theorem inv_uNext {s s' : St N n} {t : Fin n} (hi : Inv s) (hp : s.pc t = .uNext)
    (hs : step s (.run t) = some s') : Inv s' := by
  obtain ⟨hq, h1, h2, h3, h4, h5, h6, h7, h8, h9, h10, h11, h12, h13, h14, h15⟩ := hi
  have hi : Inv s := ⟨hq, h1, h2, h3, h4, h5, h6, h7, h8, h9, h10, h11, h12, h13, h14, h15⟩
  obtain ⟨hlen, htl, hrl, hinj, hheld⟩ := hi.ctx
  have has : ∀ u, s.pc u = .spin → (s.pc u).act = true := by intro u h; rw [h]; rfl
  have haa : ∀ u p, s.pc u = .link p → (s.pc u).act = true := by intro u p h; rw [h]; rfl
  have hag : ∀ u p, s.pc u = .uGrant p → (s.pc u).held = true := by intro u p h; rw [h]; rfl
  have haw : ∀ u, s.pc u = .uWait → (s.pc u).held = true := by intro u h; rw [h]; rfl
  simp only [step, hp] at hs
  have hh : (s.pc t).held = true := by rw [hp]; rfl
  have hact : (s.pc t).act = true := by rw [hp]; rfl
  have htk := hheld t hh
  have ht := htl t hact
  have hn := h3 t hact
  step_split hs
  · next hx =>
    have ea := comp_upd_same PC.act s.pc t (.uTail : PC N) (by rw [hp]; rfl)
    have eh := comp_upd_same PC.held s.pc t (.uTail : PC N) (by rw [hp]; rfl)
    have ea' := fun u => congrFun ea u
    constructor
    · simp only [ea, eh]
      exact hq
    · clear * - h1 hp
      grind [PC.prep, PC.act]
    · clear * - h2 hp
      grind [PC.prep, PC.act]
    · clear * - h3 ea' hp
      grind [PC.prep, PC.act]
    · clear * - h4 hp
      grind [PC.prep, PC.act]
    · clear * - h5 hp
      grind [PC.prep, PC.act]
    · clear * - h6 hp
      grind [PC.prep, PC.act]
    · clear * - h7 hp
      grind [PC.prep, PC.act]
    · clear * - h8 hp
      grind [PC.prep, PC.act]
    · clear * - h9 hp
      grind [PC.prep, PC.act]
    · clear * - h10 hp
      grind [PC.prep, PC.act]
    · clear * - h11 hp
      grind [PC.prep, PC.act]
    · clear * - h12 hp
      grind [PC.prep, PC.act]
    · clear * - h13 hp
      grind [PC.prep, PC.act]
    · clear * - h14 hp
      grind [PC.prep, PC.act]
    · clear * - h15 hp
      grind [PC.prep, PC.act]
  · next x hx =>
    have ea := comp_upd_same PC.act s.pc t (.uGrant x : PC N) (by rw [hp]; rfl)
    have eh := comp_upd_same PC.held s.pc t (.uGrant x : PC N) (by rw [hp]; rfl)
    have ea' := fun u => congrFun ea u
    constructor
    · simp only [ea, eh]
      exact hq
    · clear * - h1 hp
      grind [PC.prep, PC.act]
    · clear * - h2 hp
      grind [PC.prep, PC.act]
    · clear * - h3 ea' hp
      grind [PC.prep, PC.act]
    · clear * - h4 hp
      grind [PC.prep, PC.act]
    · clear * - h5 hp
      grind [PC.prep, PC.act]
    · clear * - h6 hp
      grind [PC.prep, PC.act]
    · clear * - h7 hp
      grind [PC.prep, PC.act]
    · clear * - h8 hp
      grind [PC.prep, PC.act]
    · clear * - h9 hp
      grind [PC.prep, PC.act]
    · clear * - h10 hp
      grind [PC.prep, PC.act]
    · clear * - h11 hp
      grind [PC.prep, PC.act]
    · clear * - h12 hp
      grind [PC.prep, PC.act]
    · clear * - h13 hp
      grind [PC.prep, PC.act]
    · clear * - h14 hp h8 h9 hn htk ht hx
      grind [PC.prep, PC.act]
    · clear * - h15 hp
      grind [PC.prep, PC.act]

theorem inv_uTail {s s' : St N n} {t : Fin n} (hi : Inv s) (hp : s.pc t = .uTail)
    (hs : step s (.run t) = some s') : Inv s' := by
  obtain ⟨hq, h1, h2, h3, h4, h5, h6, h7, h8, h9, h10, h11, h12, h13, h14, h15⟩ := hi
  have hi : Inv s := ⟨hq, h1, h2, h3, h4, h5, h6, h7, h8, h9, h10, h11, h12, h13, h14, h15⟩
  obtain ⟨hlen, htl, hrl, hinj, hheld⟩ := hi.ctx
  have has : ∀ u, s.pc u = .spin → (s.pc u).act = true := by intro u h; rw [h]; rfl
  have haa : ∀ u p, s.pc u = .link p → (s.pc u).act = true := by intro u p h; rw [h]; rfl
  have hag : ∀ u p, s.pc u = .uGrant p → (s.pc u).held = true := by intro u p h; rw [h]; rfl
  have haw : ∀ u, s.pc u = .uWait → (s.pc u).held = true := by intro u h; rw [h]; rfl
  simp only [step, hp] at hs
  have hh : (s.pc t).held = true := by rw [hp]; rfl
  have hact : (s.pc t).act = true := by rw [hp]; rfl
  have htk := hheld t hh
  have ht := htl t hact
  have hn := h3 t hact
  split at hs <;> (simp only [Option.some.injEq] at hs; subst hs)
  · next hc =>
    have ea := comp_upd_same PC.act s.pc t (.uCas : PC N) (by rw [hp]; rfl)
    have eh := comp_upd_same PC.held s.pc t (.uCas : PC N) (by rw [hp]; rfl)
    have ea' := fun u => congrFun ea u
    constructor
    · simp only [ea, eh]
      exact hq
    · clear * - h1 hp
      grind [PC.prep, PC.act]
    · clear * - h2 hp
      grind [PC.prep, PC.act]
    · clear * - h3 ea' hp
      grind [PC.prep, PC.act]
    · clear * - h4 hp
      grind [PC.prep, PC.act]
    · clear * - h5 hp
      grind [PC.prep, PC.act]
    · clear * - h6 hp
      grind [PC.prep, PC.act]
    · clear * - h7 hp
      grind [PC.prep, PC.act]
    · clear * - h8 hp
      grind [PC.prep, PC.act]
    · clear * - h9 hp
      grind [PC.prep, PC.act]
    · clear * - h10 hp
      grind [PC.prep, PC.act]
    · clear * - h11 hp
      grind [PC.prep, PC.act]
    · clear * - h12 hp
      grind [PC.prep, PC.act]
    · clear * - h13 hp
      grind [PC.prep, PC.act]
    · clear * - h14 hp
      grind [PC.prep, PC.act]
    · clear * - h15 hp
      grind [PC.prep, PC.act]
  · next hc =>
    have ea := comp_upd_same PC.act s.pc t (.uWait : PC N) (by rw [hp]; rfl)
    have eh := comp_upd_same PC.held s.pc t (.uWait : PC N) (by rw [hp]; rfl)
    have ea' := fun u => congrFun ea u
    constructor
    · simp only [ea, eh]
      exact hq
    · clear * - h1 hp
      grind [PC.prep, PC.act]
    · clear * - h2 hp
      grind [PC.prep, PC.act]
    · clear * - h3 ea' hp
      grind [PC.prep, PC.act]
    · clear * - h4 hp
      grind [PC.prep, PC.act]
    · clear * - h5 hp
      grind [PC.prep, PC.act]
    · clear * - h6 hp
      grind [PC.prep, PC.act]
    · clear * - h7 hp
      grind [PC.prep, PC.act]
    · clear * - h8 hp
      grind [PC.prep, PC.act]
    · clear * - h9 hp
      grind [PC.prep, PC.act]
    · clear * - h10 hp
      grind [PC.prep, PC.act]
    · clear * - h11 hp
      grind [PC.prep, PC.act]
    · clear * - h12 hp
      grind [PC.prep, PC.act]
    · clear * - h13 hp
      grind [PC.prep, PC.act]
    · clear * - h14 hp
      grind [PC.prep, PC.act]
    · clear * - h15 hp h1 hn htk ht hc
      grind [PC.prep, PC.act]

theorem inv_uCas {s s' : St N n} {t : Fin n} (hi : Inv s) (hp : s.pc t = .uCas)
    (hs : step s (.run t) = some s') : Inv s' := by
  obtain ⟨hq, h1, h2, h3, h4, h5, h6, h7, h8, h9, h10, h11, h12, h13, h14, h15⟩ := hi
  have hi : Inv s := ⟨hq, h1, h2, h3, h4, h5, h6, h7, h8, h9, h10, h11, h12, h13, h14, h15⟩
  obtain ⟨hlen, htl, hrl, hinj, hheld⟩ := hi.ctx
  have has : ∀ u, s.pc u = .spin → (s.pc u).act = true := by intro u h; rw [h]; rfl
  have haa : ∀ u p, s.pc u = .link p → (s.pc u).act = true := by intro u p h; rw [h]; rfl
  have hag : ∀ u p, s.pc u = .uGrant p → (s.pc u).held = true := by intro u p h; rw [h]; rfl
  have haw : ∀ u, s.pc u = .uWait → (s.pc u).held = true := by intro u h; rw [h]; rfl
  simp only [step, hp] at hs
  have hh : (s.pc t).held = true := by rw [hp]; rfl
  have hact : (s.pc t).act = true := by rw [hp]; rfl
  have htk := hheld t hh
  have ht := htl t hact
  have hn := h3 t hact
  step_split hs
  · next hc =>
    have hone : s.q.arr.length = s.q.rel + 1 := by grind
    have huni : ∀ u, (s.pc u).held = true → u = t :=
      fun u h => hq.held_unique h hh
    have ea := comp_upd PC.act s.pc t (.idle : PC N)
    have eh := comp_upd PC.held s.pc t (.idle : PC N)
    have ea' := fun u => congrFun ea u
    constructor
    · simp only [ea, eh]
      exact hq.leave hh
    · clear * - h1 hp hone
      simp only [Q.leave]
      grind [PC.prep, PC.act]
    · clear * - h2 hp
      simp only [Q.leave]
      grind [PC.prep, PC.act]
    · clear * - h3 ea' hp
      simp only [Q.leave]
      grind [PC.prep, PC.act]
    · clear * - h4 hp
      simp only [Q.leave]
      grind [PC.prep, PC.act]
    · clear * - h5 hp
      simp only [Q.leave]
      grind [PC.prep, PC.act]
    · clear * - h6 hp hone htl haa
      simp only [Q.leave]
      grind [PC.prep, PC.act]
    · clear * - h7 hp hone htl has hinj hact htk
      simp only [Q.leave]
      grind [PC.prep, PC.act]
    · clear * - h8 hp
      simp only [Q.leave]
      grind [PC.prep, PC.act]
    · clear * - h9 hp
      simp only [Q.leave]
      grind [PC.prep, PC.act]
    · clear * - h10 hp
      simp only [Q.leave]
      grind [PC.prep, PC.act]
    · clear * - h11 hp hone has htl
      simp only [Q.leave]
      grind [PC.prep, PC.act]
    · clear * - h12 hp
      simp only [Q.leave]
      grind [PC.prep, PC.act]
    · clear * - h13 hp
      simp only [Q.leave]
      grind [PC.prep, PC.act]
    · clear * - h14 hp huni hag
      simp only [Q.leave]
      grind [PC.prep, PC.act]
    · clear * - h15 hp huni haw
      simp only [Q.leave]
      grind [PC.prep, PC.act]
  · next hc =>
    have ea := comp_upd_same PC.act s.pc t (.uWait : PC N) (by rw [hp]; rfl)
    have eh := comp_upd_same PC.held s.pc t (.uWait : PC N) (by rw [hp]; rfl)
    have ea' := fun u => congrFun ea u
    constructor
    · simp only [ea, eh]
      exact hq
    · clear * - h1 hp
      grind [PC.prep, PC.act]
    · clear * - h2 hp
      grind [PC.prep, PC.act]
    · clear * - h3 ea' hp
      grind [PC.prep, PC.act]
    · clear * - h4 hp
      grind [PC.prep, PC.act]
    · clear * - h5 hp
      grind [PC.prep, PC.act]
    · clear * - h6 hp
      grind [PC.prep, PC.act]
    · clear * - h7 hp
      grind [PC.prep, PC.act]
    · clear * - h8 hp
      grind [PC.prep, PC.act]
    · clear * - h9 hp
      grind [PC.prep, PC.act]
    · clear * - h10 hp
      grind [PC.prep, PC.act]
    · clear * - h11 hp
      grind [PC.prep, PC.act]
    · clear * - h12 hp
      grind [PC.prep, PC.act]
    · clear * - h13 hp
      grind [PC.prep, PC.act]
    · clear * - h14 hp
      grind [PC.prep, PC.act]
    · clear * - h15 hp h1 hn htk ht hc
      grind [PC.prep, PC.act]

theorem inv_uWait {s s' : St N n} {t : Fin n} (hi : Inv s) (hp : s.pc t = .uWait)
    (hs : step s (.run t) = some s') : Inv s' := by
  obtain ⟨hq, h1, h2, h3, h4, h5, h6, h7, h8, h9, h10, h11, h12, h13, h14, h15⟩ := hi
  have hi : Inv s := ⟨hq, h1, h2, h3, h4, h5, h6, h7, h8, h9, h10, h11, h12, h13, h14, h15⟩
  obtain ⟨hlen, htl, hrl, hinj, hheld⟩ := hi.ctx
  have has : ∀ u, s.pc u = .spin → (s.pc u).act = true := by intro u h; rw [h]; rfl
  have haa : ∀ u p, s.pc u = .link p → (s.pc u).act = true := by intro u p h; rw [h]; rfl
  have hag : ∀ u p, s.pc u = .uGrant p → (s.pc u).held = true := by intro u p h; rw [h]; rfl
  have haw : ∀ u, s.pc u = .uWait → (s.pc u).held = true := by intro u h; rw [h]; rfl
  simp only [step, hp] at hs
  have hh : (s.pc t).held = true := by rw [hp]; rfl
  have hact : (s.pc t).act = true := by rw [hp]; rfl
  have htk := hheld t hh
  have ht := htl t hact
  have hn := h3 t hact
  step_split hs
  · exact hi
  · next x hx =>
    have ea := comp_upd_same PC.act s.pc t (.uGrant x : PC N) (by rw [hp]; rfl)
    have eh := comp_upd_same PC.held s.pc t (.uGrant x : PC N) (by rw [hp]; rfl)
    have ea' := fun u => congrFun ea u
    constructor
    · simp only [ea, eh]
      exact hq
    · clear * - h1 hp
      grind [PC.prep, PC.act]
    · clear * - h2 hp
      grind [PC.prep, PC.act]
    · clear * - h3 ea' hp
      grind [PC.prep, PC.act]
    · clear * - h4 hp
      grind [PC.prep, PC.act]
    · clear * - h5 hp
      grind [PC.prep, PC.act]
    · clear * - h6 hp
      grind [PC.prep, PC.act]
    · clear * - h7 hp
      grind [PC.prep, PC.act]
    · clear * - h8 hp
      grind [PC.prep, PC.act]
    · clear * - h9 hp
      grind [PC.prep, PC.act]
    · clear * - h10 hp
      grind [PC.prep, PC.act]
    · clear * - h11 hp
      grind [PC.prep, PC.act]
    · clear * - h12 hp
      grind [PC.prep, PC.act]
    · clear * - h13 hp
      grind [PC.prep, PC.act]
    · clear * - h14 hp h8 h9 hn htk ht hx
      grind [PC.prep, PC.act]
    · clear * - h15 hp
      grind [PC.prep, PC.act]

theorem inv_uGrant {s s' : St N n} {t : Fin n} {x : N} (hi : Inv s) (hp : s.pc t = .uGrant x)
    (hs : step s (.run t) = some s') : Inv s' := by
  obtain ⟨hq, h1, h2, h3, h4, h5, h6, h7, h8, h9, h10, h11, h12, h13, h14, h15⟩ := hi
  have hi : Inv s := ⟨hq, h1, h2, h3, h4, h5, h6, h7, h8, h9, h10, h11, h12, h13, h14, h15⟩
  obtain ⟨hlen, htl, hrl, hinj, hheld⟩ := hi.ctx
  have has : ∀ u, s.pc u = .spin → (s.pc u).act = true := by intro u h; rw [h]; rfl
  have haa : ∀ u p, s.pc u = .link p → (s.pc u).act = true := by intro u p h; rw [h]; rfl
  have hag : ∀ u p, s.pc u = .uGrant p → (s.pc u).held = true := by intro u p h; rw [h]; rfl
  have haw : ∀ u, s.pc u = .uWait → (s.pc u).held = true := by intro u h; rw [h]; rfl
  simp only [step, hp] at hs
  have hh : (s.pc t).held = true := by rw [hp]; rfl
  have hact : (s.pc t).act = true := by rw [hp]; rfl
  have htk := hheld t hh
  have ht := htl t hact
  have hn := h3 t hact
  step_split hs
  have hg := h14 t x hp
  have huni : ∀ u, (s.pc u).held = true → u = t :=
    fun u h => hq.held_unique h hh
  have ea := comp_upd PC.act s.pc t (.idle : PC N)
  have eh := comp_upd PC.held s.pc t (.idle : PC N)
  have ea' := fun u => congrFun ea u
  constructor
  · simp only [ea, eh]
    exact hq.leave hh
  · clear * - h1 hp hg
    simp only [Q.leave]
    grind [PC.prep, PC.act]
  · clear * - h2 hp
    simp only [Q.leave]
    grind [PC.prep, PC.act]
  · clear * - h3 ea' hp
    simp only [Q.leave]
    grind [PC.prep, PC.act]
  · clear * - h4 hp
    simp only [Q.leave]
    grind [PC.prep, PC.act]
  · clear * - h5 hp
    simp only [Q.leave]
    grind [PC.prep, PC.act]
  · clear * - h6 hp hg htl haa hrl
    simp only [Q.leave]
    grind [PC.prep, PC.act]
  · clear * - h7 hp htl has hrl
    simp only [Q.leave]
    grind [PC.prep, PC.act]
  · clear * - h8 hp
    simp only [Q.leave]
    grind [PC.prep, PC.act]
  · clear * - h9 hp
    simp only [Q.leave]
    grind [PC.prep, PC.act]
  · clear * - h10 hp h2 hg
    simp only [Q.leave]
    grind [PC.prep, PC.act]
  · clear * - h11 hp h2 hg has htl
    simp only [Q.leave]
    grind [PC.prep, PC.act]
  · clear * - h12 hp
    simp only [Q.leave]
    grind [PC.prep, PC.act]
  · clear * - h13 hp h4 hg
    simp only [Q.leave]
    grind [PC.prep, PC.act]
  · clear * - h14 hp huni hag
    simp only [Q.leave]
    grind [PC.prep, PC.act]
  · clear * - h15 hp huni haw
    simp only [Q.leave]
    grind [PC.prep, PC.act]

theorem inv_step {s s' : St N n} {a : Act N n} (hi : Inv s) (hs : step s a = some s') : Inv s' := by
  rcases a with ⟨t, x⟩ | ⟨t, x⟩ | t | t
  · exact inv_lock hi hs
  · exact inv_trylock hi hs
  · exact inv_unlock hi hs
  · cases hp : s.pc t
    case setLocked => exact inv_setLocked hi hp hs
    case setNext => exact inv_setNext hi hp hs
    case tryCas => exact inv_tryCas hi hp hs
    case swap => exact inv_swap hi hp hs
    case link => exact inv_link hi hp hs
    case spin => exact inv_spin hi hp hs
    case uNext => exact inv_uNext hi hp hs
    case uTail => exact inv_uTail hi hp hs
    case uCas => exact inv_uCas hi hp hs
    case uWait => exact inv_uWait hi hp hs
    case uGrant => exact inv_uGrant hi hp hs
    all_goals (simp only [step, hp] at hs; cases hs)

theorem inv_of_reach {s : St N n} (h : (sys N n).Reach s) : Inv s :=
  h.invariant (I := Inv) (fun _ => inv_init) (fun _ _ _ => inv_step)

theorem active_iff {s : St N n} {t : Fin n} : (s.pc t).act = true ↔ s.holds t ∨ s.waits t := by
  simp only [St.holds, St.waits]
  cases s.pc t <;> simp [PC.act, PC.held]

/-! ## Properties -/

/-- C07: at most one thread holds the lock. -/
theorem mutual_exclusion {s : St N n} (h : (sys N n).Reach s) : MutEx s.holds :=
  fun _ _ ht hu => (inv_of_reach h).q.held_unique ht hu

/-- C07: threads enter in the order in which they swapped themselves into the queue. -/
theorem fcfs {s : St N n} (h : (sys N n).Reach s) : Fcfs s.q.arr s.q.srv := (inv_of_reach h).q.pre

/-- C07, no lost hand-off: whenever nobody holds the lock (in particular when an unlock has just
returned) and somebody waits, the longest waiting thread has been granted the lock: its next step
enters. -/
theorem handoff {s : St N n} (h : (sys N n).Reach s) (hfree : ∀ u, ¬ s.holds u) {v : Fin n}
    (hv : s.waits v) :
    ∃ t s', s.q.arr[s.q.srv.length]? = some t ∧ s.waits t ∧
      (sys N n).step s (.run t) = some s' ∧ s'.holds t := by
  have hi := inv_of_reach h
  have hno : ∀ u, (s.pc u).held = false := fun u => by simpa [St.holds] using hfree u
  obtain ⟨t, h1, h2, h3⟩ := hi.q.next_in_line hno (v := v) (active_iff.2 (.inr hv))
  have hwt : s.waits t := (active_iff.1 h2).resolve_left (hfree t)
  refine ⟨t, { s with pc := upd s.pc t .inside, q := s.q.enter t }, h1, hwt, ?_, by
    simp [St.holds, PC.held]⟩
  rcases hwt with hp | ⟨p, hp⟩
  · have hw := hi.wait_rel t hp h3
    rw [← h3, ← hi.node t h2] at hw
    simp [sys, step, hp, hw]
  · have := (hi.lnk t p hp).1; omega

/-- C07: the busy-wait in unlock waits only for a thread that is about to link itself. -/
theorem unlock_wait {s : St N n} (h : (sys N n).Reach s) {t : Fin n} (ht : s.pc t = .uWait)
    (hn : s.next (s.node t) = none) :
    ∃ u, s.pc u = .link (s.node t) ∧ s.q.arr[s.q.srv.length]? = some u := by
  have hi := inv_of_reach h
  have hh : (s.pc t).held = true := by rw [ht]; rfl
  have ha := hi.q.held_act t hh
  have htk := hi.q.held_tk t hh
  have hlt := hi.uw t ht
  have hsl : s.q.srv.length = s.q.rel + 1 := by
    have h1 := hi.q.slen
    have h2 := cnt_one_of (P := id) (f := fun t => (s.pc t).held) (t := t) hh
      (fun u hu => hi.q.held_unique hu hh)
    omega
  obtain ⟨hu, hk⟩ := hi.q.cov (s.q.rel + 1) _ (by omega) (List.getElem?_eq_getElem hlt)
  refine ⟨s.q.arr[s.q.rel + 1], ?_, by rw [hsl]; exact List.getElem?_eq_getElem hlt⟩
  generalize s.q.arr[s.q.rel + 1] = u at hu hk ⊢
  have hnt : s.node t = s.nd s.q.rel := by rw [hi.node t ha, htk]
  rcases active_iff.1 hu with h1 | h1 | ⟨p, h1⟩
  · have := hi.q.held_tk u h1; omega
  · have := hi.spn u h1 (by omega)
    rw [hk, Nat.add_sub_cancel, ← hnt, hn] at this
    cases this
  · have := (hi.lnk u p h1).2.1
    rw [hk, Nat.add_sub_cancel, ← hnt] at this
    rw [h1, this]

/-- C07: trylock succeeds only if nobody holds or waits for the lock, and then it enters. -/
theorem trylock_success {s s' : St N n} (h : (sys N n).Reach s) {t : Fin n}
    (ht : s.pc t = .tryCas) (hs : (sys N n).step s (.run t) = some s') :
    (s'.holds t ∧ ∀ u, ¬ s.holds u ∧ ¬ s.waits u) ∨ (s'.pc t = .idle ∧ ∃ u, s.holds u ∨ s.waits u) := by
  have hi := inv_of_reach h
  have hq := hi.tail
  have hl := hi.q.len
  simp only [sys, step, ht] at hs
  step_split hs
  · next hc =>
    left
    refine ⟨by simp [St.holds, PC.held], fun u => not_or.1 fun hu => ?_⟩
    rw [← active_iff] at hu
    have := hi.q.tk_lt (t := u) hu
    have := (hi.q.act_tk u hu).1
    have : s.q.rel ≠ s.q.arr.length := by omega
    simp [hc, this] at hq
  · next hc =>
    right
    refine ⟨by simp, ?_⟩
    by_contra hno
    have h0 : cnt id (fun t => (s.pc t).act) = 0 := cnt_zero_of fun t => by
      have := not_exists.1 hno t; rw [← active_iff] at this; simpa using this
    rw [h0, Nat.add_zero] at hl
    rw [if_pos hl.symm] at hq
    exact hc hq

/-- C07: `locked` tells whether somebody holds or waits. -/
theorem locked_iff {s : St N n} (h : (sys N n).Reach s) :
    isLocked s = true ↔ ∃ t, s.holds t ∨ s.waits t := by
  have hi := inv_of_reach h
  have hl := hi.q.len
  simp only [← active_iff, isLocked, hi.tail, decide_eq_true_eq]
  constructor
  · intro hne
    by_contra hno
    have h0 : cnt id (fun t => (s.pc t).act) = 0 := cnt_zero_of fun t => by
      have := not_exists.1 hno t; simpa using this
    rw [h0, Nat.add_zero] at hl
    rw [if_pos hl.symm] at hne
    exact hne rfl
  · rintro ⟨t, ht⟩
    have := hi.q.tk_lt (t := t) ht
    have := (hi.q.act_tk t ht).1
    rw [if_neg (by omega)]; simp

/-- C07, node reuse: a node no running operation uses (in particular one whose unlock returned) is
referred to by nothing: not by the queue, not as a predecessor, not as a pending successor, not by
the `next` field of a queued node. -/
theorem unused_unreferenced {s : St N n} (h : (sys N n).Reach s) {x : N} (hx : unused s x) :
    s.queue ≠ some x ∧ ∀ u, s.pc u ≠ .link x ∧ s.pc u ≠ .uGrant x ∧
      (s.holds u ∨ s.waits u → s.next (s.node u) ≠ some x) := by
  have hi := inv_of_reach h
  obtain ⟨h1, h2⟩ := hi.unused hx
  obtain ⟨hlen, htl, hrl, hinj, hheld⟩ := hi.ctx
  refine ⟨?_, fun u => ⟨?_, ?_, ?_⟩⟩
  · rw [hi.tail]
    split
    · simp
    · intro e; exact h1 _ (by omega) (by omega) (Option.some.inj e).symm
  · intro hp
    have hl := hi.lnk u x hp
    have := htl u (by rw [hp]; rfl)
    exact h1 _ (by omega) (by omega) hl.2.1
  · intro hp
    have hg := hi.grant u x hp
    exact h1 _ (by omega) hg.1 hg.2.1
  · intro hu e
    rw [← active_iff] at hu
    have h3 := htl u hu
    have h4 := hrl u hu
    rw [hi.node u hu] at e
    by_cases hk : s.q.tk u + 1 < s.q.arr.length
    · exact h1 _ (by omega) hk (hi.nxt _ _ h4 hk e)
    · rw [hi.nxt_last _ h4 (by omega)] at e; cases e

/-- Thread 0 inside, thread 1 swapped but did not link, thread 0 waits in unlock; then thread 1
links, is granted the lock and thread 0 reuses its node and waits. -/
example : ((sys Nat 2).run
    { queue := none, locked := fun _ => false, next := fun _ => none, node := fun _ => 0,
      pc := fun _ => .idle, q := Q.empty 2, nd := fun _ => 0 }
    [.lock 0 7, .run 0, .run 0, .run 0, .lock 1 8, .run 1, .run 1, .unlock 0, .run 0, .run 0, .run 1,
     .run 0, .run 0, .run 1, .run 0, .run 0, .run 1, .lock 0 7, .run 0, .run 0, .run 0, .run 0]).map
    (fun s => (s.pc 0, s.pc 1, s.q.arr, s.q.srv)) =
    some (.spin, .inside, [0, 1, 0], [0, 1]) := by decide

end Verif.Spin.Mcs
