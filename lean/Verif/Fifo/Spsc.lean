import Verif.Core.Lin
import Verif.Core.Seg

/-!
# `ck_fifo_spsc`, `include/ck_fifo.h` lines 36-200

One producer (`enqueue`, `recycle`, `isempty`) and one consumer (`dequeue`, `isempty`); with the locks
`m_head`, `m_tail` (lines 57-98) the roles may be played by several threads in turn.  Every access to
`head`, to `next` and to `value` is one step; `tail`, `head_snapshot` and `garbage` are used by the producer
only.  Entries are of an arbitrary type, `next` and `val` are the heap.  An entry may be enqueued if the fifo
does not own it: it is not in the queue, not the dummy, and not a consumed entry that was not recycled.

Ghost state: `spare`, the consumed entries not recycled yet, oldest first; `q`, the queue.
-/

namespace Verif.Fifo.Spsc

open Verif Verif.Lin

inductive Role
  | prod | cons
  deriving DecidableEq

inductive Op (N V : Type)
  | enq (x : N) (v : V)
  | deq
  | recycle
  | isempty

inductive Res (N V : Type)
  | unit
  | val (v : Option V)
  | node (x : Option N)
  | flag (b : Bool)

inductive PC (N V : Type)
  | idle
  | enqV (x : N) (v : V)
  | enqN (x : N) (v : V)
  | enqL (x : N) (v : V)
  | enqT (x : N)
  | recS
  | recH
  | recG
  | emp
  | empN (h : N)
  | deq
  | deqV (e : N)
  | deqH (e : N) (v : V)
  | ret (r : Res N V)

structure St (N V : Type) where
  head : N
  tail : N
  snap : N
  garbage : N
  next : N → Option N
  val : N → V
  th : Role → PC N V
  spare : List N
  q : List (N × V)

inductive Act (N V : Type)
  | call (t : Role) (o : Op N V)
  | run (t : Role)
  | ret (t : Role)

variable {N V : Type} [DecidableEq N]

/-- The entries the fifo owns, from the oldest consumed one to the last of the queue. -/
def St.chain (s : St N V) : List N := s.spare ++ s.head :: s.q.map Prod.fst

def run (s : St N V) (t : Role) : Option (St N V) := match s.th t with
  -- `ck_fifo_spsc_enqueue`, 123-137
  | .enqV x v => some { s with val := upd s.val x v, th := upd s.th t (.enqN x v) }
  | .enqN x v => some { s with next := upd s.next x none, th := upd s.th t (.enqL x v) }
  | .enqL x v => some { s with next := upd s.next s.tail (some x), q := s.q ++ [(x, v)],
                               th := upd s.th t (.enqT x) }
  | .enqT x => some { s with tail := x, th := upd s.th t (.ret .unit) }
  -- `ck_fifo_spsc_recycle`, 164-178
  | .recS => some { s with th := upd s.th t (if s.snap = s.garbage then .recH else .recG) }
  | .recH => some { s with snap := s.head,
                           th := upd s.th t (if s.head = s.garbage then .ret (.node none) else .recG) }
  | .recG => match s.next s.garbage with
    -- a null `garbage` pointer: never reached, `recycle_not_null`
    | none => none
    | some g => some { s with garbage := g, spare := s.spare.tail,
                              th := upd s.th t (.ret (.node (some s.garbage))) }
  -- `ck_fifo_spsc_isempty`, 180-185
  | .emp => some { s with th := upd s.th t (.empN s.head) }
  | .empN h => some { s with th := upd s.th t (.ret (.flag ((s.next h).isNone))) }
  -- `ck_fifo_spsc_dequeue`, 139-158
  | .deq => match s.next s.head with
    | none => some { s with th := upd s.th t (.ret (.val none)) }
    | some e => some { s with th := upd s.th t (.deqV e) }
  | .deqV e => some { s with th := upd s.th t (.deqH e (s.val e)) }
  | .deqH e v => some { s with head := e, spare := s.spare ++ [s.head], q := s.q.tail,
                               th := upd s.th t (.ret (.val (some v))) }
  | .idle => none
  | .ret _ => none

def step (s : St N V) : Act N V → Option (St N V)
  | .call t o => match s.th t with
    | .idle => match t, o with
      | .prod, .enq x v => if x ∉ s.chain then some { s with th := upd s.th t (.enqV x v) } else none
      | .prod, .recycle => some { s with th := upd s.th t .recS }
      | .cons, .deq => some { s with th := upd s.th t .deq }
      | _, .isempty => some { s with th := upd s.th t .emp }
      | _, _ => none
    | _ => none
  | .run t => run s t
  | .ret t => match s.th t with
    | .ret _ => some { s with th := upd s.th t .idle }
    | _ => none

def obs (s : St N V) : Act N V → Option (Ev Role (Op N V) (Res N V))
  | .call t o => some (.call t o)
  | .run _ => none
  | .ret t => match s.th t with
    | .ret r => some (.ret t r)
    | _ => none

def sys (s0 : St N V) : Sys (St N V) (Act N V) := { init := fun s => s = s0, step := step }

/-- A quiescent fifo: consumed entries `sp`, dummy `d`, content `q`. -/
structure Start (sp : List N) (d : N) (q : List (N × V)) (s : St N V) : Prop where
  idle : ∀ t, s.th t = .idle
  spare : s.spare = sp
  hq : s.q = q
  head : s.head = d
  seg : Seg s.next (some s.garbage) (sp ++ d :: q.map Prod.fst) none
  nodup : (sp ++ d :: q.map Prod.fst).Nodup
  tail : (sp ++ d :: q.map Prod.fst).getLast? = some s.tail
  snap : s.snap ∈ sp ++ [d]
  vals : ∀ p ∈ q, s.val p.1 = p.2

omit [DecidableEq N] in
/-- `ck_fifo_spsc_init`, lines 102-111. -/
theorem Start.initial (stub : N) (val : N → V) (next : N → Option N) (h : next stub = none) :
    Start [] stub [] ({ head := stub, tail := stub, snap := stub, garbage := stub, next := next,
                        val := val, th := fun _ => .idle, spare := [], q := [] } : St N V) where
  idle _ := rfl
  spare := rfl
  hq := rfl
  head := rfl
  seg := ⟨rfl, h⟩
  nodup := by simp
  tail := rfl
  snap := by simp
  vals _ hp := by cases hp

/-! ## Specification -/

/-- A FIFO queue that owns its entries: consumed entries are handed back in order of consumption, one
consumption late (the last consumed one is the dummy). -/
structure X (N V : Type) where
  spare : List N
  dummy : N
  q : List (N × V)

def fifo (x0 : X N V) : Obj (Op N V) (Res N V) (X N V) where
  init x := x = x0
  app x o r x' := match o, r with
    | .enq n v, .unit => x' = { x with q := x.q ++ [(n, v)] }
    | .deq, .val none => x.q = [] ∧ x' = x
    | .deq, .val (some v) => ∃ n q, x.q = (n, v) :: q ∧
        x' = { spare := x.spare ++ [x.dummy], dummy := n, q := q }
    | .recycle, .node none => x.spare = [] ∧ x' = x
    | .recycle, .node (some n) => ∃ sp, x.spare = n :: sp ∧ x' = { x with spare := sp }
    | .isempty, .flag b => (b = true ↔ x.q = []) ∧ x' = x
    | _, _ => False

/-! ## Invariant -/

/-- Which role runs which function. -/
def allowed : Role → PC N V → Prop
  | .prod, .enqV _ _ | .prod, .enqN _ _ | .prod, .enqL _ _ | .prod, .enqT _
  | .prod, .recS | .prod, .recH | .prod, .recG | .cons, .deq | .cons, .deqV _ | .cons, .deqH _ _
  | _, .idle | _, .emp | _, .empN _ | _, .ret _ => True
  | _, _ => False

def Loc (s : St N V) (t : Role) : PC N V → Prop
  | .enqV x _ => x ∉ s.chain
  | .enqN x v => x ∉ s.chain ∧ s.val x = v
  | .enqL x v => x ∉ s.chain ∧ s.val x = v ∧ s.next x = none
  | .enqT x => s.chain.getLast? = some x
  | .recG => s.snap ≠ s.garbage
  | .empN h => h ∈ s.spare ++ [s.head] ∧ (t = .cons → h = s.head)
  | .deqV e => ∃ v q, s.q = (e, v) :: q
  | .deqH e v => ∃ q, s.q = (e, v) :: q
  | _ => True

structure Inv (s : St N V) : Prop where
  seg : Seg s.next (some s.garbage) s.chain none
  nodup : s.chain.Nodup
  snap : s.snap ∈ s.spare ++ [s.head]
  vals : ∀ p ∈ s.q, s.val p.1 = p.2
  tail : (∀ x, s.th .prod ≠ .enqT x) → s.chain.getLast? = some s.tail
  ok : ∀ t, allowed t (s.th t)
  loc : ∀ t, Loc s t (s.th t)

omit [DecidableEq N] in
theorem chain_ne (s : St N V) : s.chain ≠ [] := by simp [St.chain]

omit [DecidableEq N] in
theorem Inv.garbage {s : St N V} (h : Inv s) : ∃ l, s.chain = s.garbage :: l := by
  have := h.seg
  cases hc : s.chain with
  | nil => exact absurd hc (chain_ne s)
  | cons y l => rw [hc] at this; obtain ⟨h1, -⟩ := this; cases h1; exact ⟨l, rfl⟩

omit [DecidableEq N] in
/-- The successor of the dummy is the first entry of the queue. -/
theorem Inv.next_head {s : St N V} (h : Inv s) : s.next s.head = (s.q.map Prod.fst).head? := by
  have := h.seg
  rw [St.chain, seg_append] at this
  obtain ⟨m, -, h2, h3⟩ := this
  cases hq : s.q.map Prod.fst with
  | nil => rw [hq] at h3; exact h3
  | cons y l => rw [hq] at h3; exact h3.1

omit [DecidableEq N] in
/-- With nothing consumed, `garbage` is the dummy. -/
theorem Inv.garbage_head {s : St N V} (h : Inv s) : s.garbage = s.head ↔ s.spare = [] := by
  obtain ⟨l, hl⟩ := h.garbage
  constructor
  · intro e
    have hn := h.nodup
    cases hs : s.spare with
    | nil => rfl
    | cons y sp =>
      simp only [St.chain, hs, List.cons_append, List.cons.injEq] at hl hn
      rw [List.nodup_cons] at hn
      exact absurd (by rw [hl.1, e]; simp) hn.1
  · intro e
    simp only [St.chain, e, List.nil_append, List.cons.injEq] at hl
    exact hl.1.symm

omit [DecidableEq N] in
theorem Inv.spare_of_snap {s : St N V} (h : Inv s) (hs : s.snap ≠ s.garbage) : s.spare ≠ [] := by
  intro e
  have h1 := h.snap
  have h2 := h.garbage_head.2 e
  rw [e] at h1
  simp only [List.nil_append, List.mem_singleton] at h1
  exact hs (h1.trans h2.symm)

/-- A step that changes only the place of `t`. -/
theorem Inv.quiet {s : St N V} (h : Inv s) (t : Role) (pc : PC N V) (h1 : ∀ x, pc ≠ .enqT x)
    (h2 : ∀ x, s.th t ≠ .enqT x) (ho : allowed t pc) (hl : Loc s t pc) :
    Inv { s with th := upd s.th t pc } where
  seg := h.seg
  nodup := h.nodup
  snap := h.snap
  vals := h.vals
  tail hq := h.tail fun x hx => by
    by_cases e : t = .prod
    · subst e; exact h2 x hx
    · exact hq x (by simp only []; rw [upd_ne _ _ (fun h => e h.symm)]; exact hx)
  ok u := by
    simp only [upd_apply]; split
    · next e => subst e; exact ho
    · exact h.ok u
  loc u := by
    have : ∀ r (pc' : PC N V), Loc s r pc' → Loc { s with th := upd s.th t pc } r pc' := by
      intro r pc' h; cases pc' <;> exact h
    simp only [upd_apply]; split
    · next e => subst e; exact this _ _ hl
    · exact this _ _ (h.loc u)

theorem Inv.run {s s' : St N V} (h : Inv s) {t : Role} (hs : Spsc.run s t = some s') : Inv s' := by
  have hl := h.loc t
  have hok := h.ok t
  unfold Spsc.run at hs
  cases hp : s.th t with
  | idle => rw [hp] at hs; cases hs
  | ret r => rw [hp] at hs; cases hs
  | enqV x v =>
    simp only [hp] at hs hl hok
    cases hs
    cases t <;> first | exact hok.elim | skip
    have hc : x ∉ s.chain := hl
    have hne : ∀ p ∈ s.q, p.1 ≠ x := by
      rintro p hpq rfl
      exact hc (by simp only [St.chain, List.mem_append, List.mem_cons, List.mem_map]; exact Or.inr (Or.inr ⟨p, hpq, rfl⟩))
    refine ⟨h.seg, h.nodup, h.snap, ?_, ?_, ?_, ?_⟩
    · intro p hpq
      show upd s.val x v p.1 = p.2
      rw [upd_ne _ _ (hne p hpq)]; exact h.vals p hpq
    · intro _; exact h.tail (by rw [hp]; intro x h; cases h)
    · intro u; cases u
      · trivial
      · exact h.ok .cons
    · intro u; cases u
      · exact ⟨hc, upd_same _ _ _⟩
      · have := h.loc .cons
        simp only [upd_ne _ _ (show Role.cons ≠ .prod by decide)]
        cases hq : s.th .cons <;> rw [hq] at this <;> first | exact this | skip
        all_goals exact absurd (h.ok .cons) (by rw [hq]; exact id)
  | enqN x v =>
    simp only [hp] at hs hl hok
    cases hs
    cases t <;> first | exact hok.elim | skip
    obtain ⟨hc, hv⟩ := hl
    refine ⟨(seg_upd hc).2 h.seg, h.nodup, h.snap, h.vals, ?_, ?_, ?_⟩
    · intro _; exact h.tail (by rw [hp]; intro x h; cases h)
    · intro u; cases u
      · trivial
      · exact h.ok .cons
    · intro u; cases u
      · exact ⟨hc, hv, upd_same _ _ _⟩
      · have := h.loc .cons
        simp only [upd_ne _ _ (show Role.cons ≠ .prod by decide)]
        cases hq : s.th .cons <;> rw [hq] at this <;> first | exact this | skip
        all_goals exact absurd (h.ok .cons) (by rw [hq]; exact id)
  | enqL x v =>
    simp only [hp] at hs hl hok
    cases hs
    cases t <;> first | exact hok.elim | skip
    obtain ⟨hc, hv, hx⟩ := hl
    have htl := h.tail (by rw [hp]; intro x h; cases h)
    have hch : s.spare ++ s.head :: (s.q ++ [(x, v)]).map Prod.fst = s.chain ++ [x] := by simp [St.chain]
    constructor
    · rw [St.chain]; simp only []; rw [hch]
      obtain ⟨l0, hl0⟩ := List.getLast?_eq_some_iff.1 htl
      have hnd := h.nodup
      have hseg := h.seg
      rw [hl0] at hnd hseg hc ⊢
      have htn : s.tail ∉ l0 := by
        rw [List.nodup_append] at hnd
        intro hm; exact hnd.2.2 _ hm _ (by simp) rfl
      rw [List.append_assoc, seg_append]
      rw [seg_append] at hseg
      obtain ⟨m, h1, h2⟩ := hseg
      refine ⟨m, (seg_upd htn).2 h1, ?_⟩
      have hxt : x ≠ s.tail := by rintro rfl; exact hc (by simp)
      simp only [List.cons_append, List.nil_append]
      refine ⟨h2.1, ?_⟩
      simp only [upd_same]
      exact ⟨rfl, by rw [upd_ne _ _ hxt]; exact hx⟩
    · rw [St.chain]; simp only []; rw [hch]
      rw [List.nodup_append]
      exact ⟨h.nodup, by simp, by simp only [List.mem_singleton]; rintro a ha b rfl rfl; exact hc ha⟩
    · exact h.snap
    · intro p hpq
      rcases List.mem_append.1 hpq with hpq | hpq
      · exact h.vals p hpq
      · rw [List.mem_singleton] at hpq; subst hpq; exact hv
    · intro hq; exact absurd (by simp only [upd_same]) (hq x)
    · intro u; cases u
      · trivial
      · exact h.ok .cons
    · intro u; cases u
      · show Loc _ _ (.enqT x)
        simp only [Loc]
        rw [St.chain]; simp only []; rw [hch]; simp
      · have := h.loc .cons
        simp only [upd_ne _ _ (show Role.cons ≠ .prod by decide)]
        cases hq : s.th .cons <;> rw [hq] at this
        case deqV e => obtain ⟨w, q, hq'⟩ := this; exact ⟨w, q ++ [(x, v)], by simp [hq']⟩
        case deqH e w => obtain ⟨q, hq'⟩ := this; exact ⟨q ++ [(x, v)], by simp [hq']⟩
        all_goals first | exact this | exact absurd (h.ok .cons) (by rw [hq]; exact id)
  | enqT x =>
    simp only [hp] at hs hl hok
    cases hs
    cases t <;> first | exact hok.elim | skip
    refine ⟨h.seg, h.nodup, h.snap, h.vals, fun _ => hl, ?_, ?_⟩
    · intro u; cases u
      · trivial
      · exact h.ok .cons
    · intro u; cases u
      · trivial
      · have := h.loc .cons
        simp only [upd_ne _ _ (show Role.cons ≠ .prod by decide)]
        cases hq : s.th .cons <;> rw [hq] at this <;> first | exact this | skip
        all_goals exact absurd (h.ok .cons) (by rw [hq]; exact id)
  | recS =>
    simp only [hp] at hs hok
    cases hs
    refine h.quiet t _ ?_ (by rw [hp]; intro x h; cases h) ?_ ?_
    · intro x; split <;> intro h <;> cases h
    · split <;> cases t <;> first | trivial | exact hok
    · split
      · trivial
      · next hne => exact hne
  | recH =>
    simp only [hp] at hs hok
    cases hs
    cases t <;> first | exact hok.elim | skip
    refine ⟨h.seg, h.nodup, by simp, h.vals, ?_, ?_, ?_⟩
    · intro _; exact h.tail (by rw [hp]; intro x h; cases h)
    · intro u; cases u
      · simp only [upd_same]; split <;> trivial
      · exact h.ok .cons
    · intro u; cases u
      · simp only [upd_same]; split
        · trivial
        · next hne => exact hne
      · have := h.loc .cons
        simp only [upd_ne _ _ (show Role.cons ≠ .prod by decide)]
        cases hq : s.th .cons <;> rw [hq] at this <;> first | exact this | skip
        all_goals exact absurd (h.ok .cons) (by rw [hq]; exact id)
  | recG =>
    simp only [hp] at hs hl hok
    split at hs
    · cases hs
    · next g hg =>
      cases hs
      cases t <;> first | exact hok.elim | skip
      have hsp := h.spare_of_snap hl
      obtain ⟨y, sp, hsp⟩ := List.exists_cons_of_ne_nil hsp
      have hch : s.chain = y :: (sp ++ s.head :: s.q.map Prod.fst) := by simp [St.chain, hsp]
      have hseg := h.seg
      have hnd := h.nodup
      rw [hch] at hseg hnd
      obtain ⟨h1, h2⟩ := hseg
      cases h1
      rw [hg] at h2
      constructor
      · rw [St.chain]; simp only [hsp, List.tail_cons]; exact h2
      · rw [St.chain]; simp only [hsp, List.tail_cons]; exact (List.nodup_cons.1 hnd).2
      · have := h.snap
        simp only [hsp, List.cons_append, List.mem_cons, List.tail_cons] at this ⊢
        rcases this with h | h
        · exact absurd h hl
        · exact h
      · exact h.vals
      · intro _
        have := h.tail (by rw [hp]; intro x h; cases h)
        rw [hch] at this
        rw [St.chain]; simp only [hsp, List.tail_cons]
        rw [List.getLast?_cons] at this
        rw [List.getLast?_eq_some_getLast (by simp)] at this ⊢
        simpa using this
      · intro u; cases u
        · trivial
        · exact h.ok .cons
      · intro u; cases u
        · trivial
        · have := h.loc .cons
          simp only [upd_ne _ _ (show Role.cons ≠ .prod by decide)]
          cases hq : s.th .cons <;> rw [hq] at this
          case empN x => have := this.2 rfl; subst this; exact ⟨by simp, fun _ => rfl⟩
          all_goals first | exact this | exact absurd (h.ok .cons) (by rw [hq]; exact id)
  | emp =>
    simp only [hp] at hs
    cases hs
    exact h.quiet t _ (by intro x h; cases h) (by rw [hp]; intro x h; cases h) (by cases t <;> trivial)
      ⟨by simp, fun _ => rfl⟩
  | empN x =>
    simp only [hp] at hs
    cases hs
    exact h.quiet t _ (by intro x h; cases h) (by rw [hp]; intro x h; cases h) (by cases t <;> trivial) trivial
  | deq =>
    simp only [hp] at hs hok
    split at hs
    · cases hs
      exact h.quiet t _ (by intro x h; cases h) (by rw [hp]; intro x h; cases h) (by cases t <;> trivial)
        trivial
    · next e he =>
      cases hs
      refine h.quiet t _ (by intro x h; cases h) (by rw [hp]; intro x h; cases h)
        (by cases t <;> first | trivial | exact hok.elim) ?_
      rw [h.next_head] at he
      cases hq : s.q with
      | nil => rw [hq] at he; cases he
      | cons p q => rw [hq] at he; cases he; exact ⟨p.2, q, hq⟩
  | deqV e =>
    simp only [hp] at hs hl hok
    cases hs
    refine h.quiet t _ (by intro x h; cases h) (by rw [hp]; intro x h; cases h)
      (by cases t <;> first | trivial | exact hok.elim) ?_
    obtain ⟨v, q, hq⟩ := hl
    have := h.vals (e, v) (by simp [hq])
    exact ⟨q, by rw [hq]; simp only at this; rw [this]⟩
  | deqH e v =>
    simp only [hp] at hs hl hok
    cases hs
    cases t <;> first | exact hok.elim | skip
    obtain ⟨q, hq⟩ := hl
    have hch : s.spare ++ [s.head] ++ e :: s.q.tail.map Prod.fst = s.chain := by simp [St.chain, hq]
    constructor
    · rw [St.chain]; simp only []; rw [hch]; exact h.seg
    · rw [St.chain]; simp only []; rw [hch]; exact h.nodup
    · have := h.snap
      simp only [List.mem_append, List.mem_singleton] at this ⊢
      exact Or.inl this
    · intro p hpq; exact h.vals p (List.mem_of_mem_tail hpq)
    · intro hn
      rw [St.chain]; simp only []; rw [hch]; exact h.tail hn
    · intro u; cases u
      · exact h.ok .prod
      · trivial
    · intro u; cases u
      · have := h.loc .prod
        have hok' := h.ok .prod
        simp only [upd_ne _ _ (show Role.prod ≠ .cons by decide)]
        cases hq' : s.th .prod <;> rw [hq'] at this hok'
        case enqV x v => show _ ∉ _; rw [St.chain]; simp only []; rw [hch]; exact this
        case enqN x v => refine ⟨?_, this.2⟩; rw [St.chain]; simp only []; rw [hch]; exact this.1
        case enqL x v => refine ⟨?_, this.2⟩; rw [St.chain]; simp only []; rw [hch]; exact this.1
        case enqT x => show List.getLast? _ = _; rw [St.chain]; simp only []; rw [hch]; exact this
        case empN x =>
          refine ⟨?_, fun h => by cases h⟩
          have := this.1
          simp only [List.mem_append, List.mem_singleton] at this ⊢
          exact Or.inl this
        all_goals first | exact this | exact hok'.elim
      · trivial

theorem Inv.step {s s' : St N V} (h : Inv s) {a : Act N V} (hs : Spsc.step s a = some s') : Inv s' := by
  cases a with
  | run t => exact h.run hs
  | ret t =>
    simp only [Spsc.step] at hs
    split at hs
    · next r hp =>
      cases hs
      exact h.quiet t _ (by intro x h; cases h) (by rw [hp]; intro x h; cases h) (by cases t <;> trivial) trivial
    · cases hs
  | call t o =>
    simp only [Spsc.step] at hs
    split at hs
    · next hp =>
      have key : ∀ pc : PC N V, (∀ x, pc ≠ .enqT x) → allowed t pc → Loc s t pc →
          Inv { s with th := upd s.th t pc } :=
        fun pc h1 h2 h3 => h.quiet t pc h1 (by rw [hp]; intro x h; cases h) h2 h3
      split at hs
      · split at hs
        · next hx => cases hs; exact key _ (by intro x h; cases h) trivial hx
        · cases hs
      · cases hs; exact key _ (by intro x h; cases h) trivial trivial
      · cases hs; exact key _ (by intro x h; cases h) trivial trivial
      · cases hs; exact key _ (by intro x h; cases h) (by cases t <;> trivial) trivial
      · cases hs
    · cases hs

omit [DecidableEq N] in
theorem Start.inv {sp : List N} {d : N} {q : List (N × V)} {s : St N V} (h : Start sp d q s) : Inv s := by
  have hch : s.chain = sp ++ d :: q.map Prod.fst := by simp [St.chain, h.spare, h.head, h.hq]
  refine ⟨?_, ?_, ?_, ?_, ?_, ?_, ?_⟩
  · rw [hch]; exact h.seg
  · rw [hch]; exact h.nodup
  · rw [h.spare, h.head]; exact h.snap
  · rw [h.hq]; exact h.vals
  · intro _; rw [hch]; exact h.tail
  · intro t; rw [h.idle t]; cases t <;> trivial
  · intro t; rw [h.idle t]; trivial

variable {sp : List N} {d : N} {q0 : List (N × V)} {s0 : St N V}

theorem inv (h0 : Start sp d q0 s0) {s : St N V} (h : (sys s0).Reach s) : Inv s := by
  induction h with
  | init h => rw [h]; exact h0.inv
  | step _ hs ih => exact ih.step hs

/-! ## Simulation -/

/-- The producer's `isempty` is decided when it loads `head`, the consumer's when it loads `next`. -/
def view (s : St N V) (t : Role) : PC N V → TS (Op N V) (Res N V)
  | .idle => .idle
  | .enqV x v | .enqN x v | .enqL x v => .pend (.enq x v)
  | .enqT _ => .done .unit
  | .recS | .recH | .recG => .pend .recycle
  | .emp => .pend .isempty
  | .empN h => if t = .prod then .done (.flag ((s.next h).isNone)) else .pend .isempty
  | .deq | .deqV _ | .deqH _ _ => .pend .deq
  | .ret r => .done r

def abs (s : St N V) : Abs Role (Op N V) (Res N V) (X N V) :=
  { x := { spare := s.spare, dummy := s.head, q := s.q }, th := fun t => view s t (s.th t) }

omit [DecidableEq N] in
/-- The other role's view does not change. -/
theorem view_th {s s' : St N V} (t : Role) {pc : PC N V} (h : s'.th = upd s.th t pc)
    (hn : s'.next = s.next ∨ t = .prod) :
    (fun u => view s' u (s'.th u)) = upd (fun u => view s u (s.th u)) t (view s' t pc) := by
  funext u
  rw [h]
  by_cases e : u = t
  · subst e; simp only [upd_same]
  · rw [upd_ne _ _ e, upd_ne _ _ e]
    have : ∀ pc : PC N V, view s' u pc = view s u pc := by
      intro pc
      rcases hn with hn | rfl
      · cases pc <;> simp only [view]; rw [hn]
      · cases u
        · exact absurd rfl e
        · cases pc <;> rfl
    exact this _

variable {x0 : X N V}

omit [DecidableEq N] in
theorem abs_skip {s s' : St N V} (t : Role) {pc : PC N V} (hx : (abs s').x = (abs s).x)
    (h : s'.th = upd s.th t pc) (hn : s'.next = s.next ∨ t = .prod) (hv : view s' t pc = view s t (s.th t)) :
    AStar (fifo x0) (abs s) (none : Option (Ev Role (Op N V) (Res N V))).toList (abs s') := by
  refine .skip ?_
  have : (abs s').th = (abs s).th := by
    show (fun u => view s' u (s'.th u)) = _
    rw [view_th t h hn, hv]
    exact upd_eq_self (fun u => view s u (s.th u)) t
  cases h1 : abs s'; cases h2 : abs s
  rw [h1, h2] at hx this; simp only at hx this; rw [hx, this]

omit [DecidableEq N] in
theorem abs_lin {s s' : St N V} (t : Role) {pc : PC N V} {o : Op N V} {r : Res N V}
    (h1 : view s t (s.th t) = .pend o) (h : s'.th = upd s.th t pc) (hn : s'.next = s.next ∨ t = .prod)
    (hv : view s' t pc = .done r) (ha : (fifo x0).app (abs s).x o r (abs s').x) :
    AStar (fifo x0) (abs s) (none : Option (Ev Role (Op N V) (Res N V))).toList (abs s') := by
  refine .lin' (t := t) (o := o) (r := r) (x' := (abs s').x) h1 ha ?_
  have : (abs s').th = upd (abs s).th t (.done r) := by
    show (fun u => view s' u (s'.th u)) = _
    rw [view_th t h hn, hv]; rfl
  rw [← this]

theorem sim_run {s s' : St N V} (h : Inv s) {t : Role} (hs : Spsc.run s t = some s') :
    AStar (fifo x0) (abs s) (none : Option (Ev Role (Op N V) (Res N V))).toList (abs s') := by
  have hl := h.loc t
  have hok := h.ok t
  have hem : (s.next s.head).isNone = true ↔ s.q = [] := by
    rw [h.next_head]; cases s.q <;> simp
  unfold Spsc.run at hs
  cases hp : s.th t with
  | idle => rw [hp] at hs; cases hs
  | ret r => rw [hp] at hs; cases hs
  | enqV x v => simp only [hp] at hs; cases hs; exact abs_skip t rfl rfl (Or.inl rfl) (by rw [hp]; rfl)
  | enqN x v =>
    simp only [hp] at hs hok; cases hs
    cases t <;> first | exact hok.elim | skip
    exact abs_skip .prod rfl rfl (Or.inr rfl) (by rw [hp]; rfl)
  | enqL x v =>
    simp only [hp] at hs hok; cases hs
    cases t <;> first | exact hok.elim | skip
    exact abs_lin .prod (o := .enq x v) (by rw [hp]; rfl) rfl (Or.inr rfl) rfl rfl
  | enqT x => simp only [hp] at hs; cases hs; exact abs_skip t rfl rfl (Or.inl rfl) (by rw [hp]; rfl)
  | recS =>
    simp only [hp] at hs; cases hs
    exact abs_skip t rfl rfl (Or.inl rfl) (by rw [hp]; split <;> rfl)
  | recH =>
    simp only [hp] at hs; cases hs
    by_cases e : s.head = s.garbage
    · exact abs_lin t (o := .recycle) (r := .node none) (by rw [hp]; rfl) rfl (Or.inl rfl)
        (by rw [if_pos e]; rfl) ⟨h.garbage_head.1 e.symm, rfl⟩
    · exact abs_skip t rfl rfl (Or.inl rfl) (by rw [hp, if_neg e]; rfl)
  | recG =>
    simp only [hp] at hs hl
    split at hs
    · cases hs
    · next g hg =>
      cases hs
      refine abs_lin t (o := .recycle) (r := .node (some s.garbage)) (by rw [hp]; rfl) rfl (Or.inl rfl) rfl ?_
      obtain ⟨y, sp, hsp⟩ := List.exists_cons_of_ne_nil (h.spare_of_snap hl)
      obtain ⟨l, hgl⟩ := h.garbage
      simp only [St.chain, hsp, List.cons_append, List.cons.injEq] at hgl
      exact ⟨sp, by rw [← hgl.1]; exact hsp, by simp [abs, hsp]⟩
  | emp =>
    simp only [hp] at hs; cases hs
    cases t
    · exact abs_lin .prod (o := .isempty) (by rw [hp]; rfl) rfl (Or.inl rfl) rfl ⟨hem, rfl⟩
    · exact abs_skip .cons rfl rfl (Or.inl rfl) (by rw [hp]; rfl)
  | empN x =>
    simp only [hp] at hs hl; cases hs
    cases t
    · exact abs_skip .prod rfl rfl (Or.inl rfl) (by rw [hp]; rfl)
    · have := hl.2 rfl
      subst this
      exact abs_lin .cons (o := .isempty) (by rw [hp]; rfl) rfl (Or.inl rfl) rfl ⟨hem, rfl⟩
  | deq =>
    simp only [hp] at hs
    split at hs
    · next he =>
      cases hs
      exact abs_lin t (o := .deq) (by rw [hp]; rfl) rfl (Or.inl rfl) rfl ⟨hem.1 (by rw [he]; rfl), rfl⟩
    · cases hs; exact abs_skip t rfl rfl (Or.inl rfl) (by rw [hp]; rfl)
  | deqV e => simp only [hp] at hs; cases hs; exact abs_skip t rfl rfl (Or.inl rfl) (by rw [hp]; rfl)
  | deqH e v =>
    simp only [hp] at hs hl; cases hs
    obtain ⟨q, hq⟩ := hl
    exact abs_lin t (o := .deq) (by rw [hp]; rfl) rfl (Or.inl rfl) rfl ⟨e, q, hq, by simp [abs, hq]⟩

theorem sim_step {s s' : St N V} (h : Inv s) {a : Act N V} (hs : step s a = some s') :
    AStar (fifo x0) (abs s) (obs s a).toList (abs s') := by
  cases a with
  | run t => exact sim_run h hs
  | ret t =>
    simp only [step] at hs
    split at hs
    · next r hp =>
      cases hs
      simp only [obs, hp]
      refine .ret' (t := t) (r := r) (by show view s t (s.th t) = _; rw [hp]; rfl) ?_
      have := view_th (s := s) (s' := { s with th := upd s.th t .idle }) t rfl (Or.inl rfl)
      simp only [abs, this]; rfl
    · cases hs
  | call t o =>
    simp only [step] at hs
    split at hs
    · next hp =>
      have key : ∀ pc : PC N V, view { s with th := upd s.th t pc } t pc = .pend o →
          s' = { s with th := upd s.th t pc } → AStar (fifo x0) (abs s) (obs s (.call t o)).toList (abs s') := by
        intro pc hv he
        subst he
        refine .call' (t := t) (o := o) (by show view s t (s.th t) = _; rw [hp]; rfl) ?_
        have := view_th (s := s) (s' := { s with th := upd s.th t pc }) t rfl (Or.inl rfl)
        simp only [abs, this, hv]
      split at hs
      · split at hs
        · cases hs; exact key _ rfl rfl
        · cases hs
      · cases hs; exact key _ rfl rfl
      · cases hs; exact key _ rfl rfl
      · cases hs; exact key _ rfl rfl
      · cases hs
    · cases hs

/-- **C35.**  One producer and one consumer: the fifo is linearizable to a FIFO queue; a dequeue (and
`isempty`) reports empty exactly when it is; `recycle` hands out the consumed entries, oldest first, never
one of the queue or the dummy, and fails only when there is none. -/
theorem linearizable (h0 : Start sp d q0 s0) :
    Linearizable (sys s0) obs (fifo { spare := sp, dummy := d, q := q0 }) := by
  refine linearizable_of_sim (fun s α => α = abs s) ?_ ?_
  · intro s hs
    have hs : s = s0 := hs
    subst hs
    refine ⟨_, rfl, ?_⟩
    simp only [abs, h0.spare, h0.head, h0.hq]
    congr 1
    funext t; rw [h0.idle t]; rfl
  · rintro s a s' α hre rfl hs
    exact ⟨_, sim_step (inv h0 hre) hs, rfl⟩

/-- **C35.**  The entry `recycle` is about to return is not one the fifo still uses: after the step it is
outside the chain of consumed entries, dummy and queue, so it may be enqueued again or freed. -/
theorem recycled_unused (h0 : Start sp d q0 s0) {s s' : St N V} (h : (sys s0).Reach s)
    (hp : s.th .prod = .recG) (hs : step s (.run .prod) = some s') :
    ∃ x, s'.th .prod = .ret (.node (some x)) ∧ x ∉ s'.chain ∧ x ≠ s'.head := by
  have hi := inv h0 h
  have hl := hi.loc .prod
  simp only [step, run, hp] at hs hl
  split at hs
  · cases hs
  · cases hs
    refine ⟨s.garbage, by simp only [upd_same], ?_⟩
    obtain ⟨y, sp, hsp⟩ := List.exists_cons_of_ne_nil (hi.spare_of_snap hl)
    obtain ⟨l, hgl⟩ := hi.garbage
    have hnd := hi.nodup
    simp only [St.chain, hsp, List.cons_append, List.cons.injEq] at hgl hnd ⊢
    rw [List.nodup_cons, hgl.1] at hnd
    exact ⟨hnd.1, fun e => hnd.1 (by rw [e]; simp)⟩

/-- `recycle` never follows a null pointer. -/
theorem recycle_not_null (h0 : Start sp d q0 s0) {s : St N V} (h : (sys s0).Reach s)
    (hp : s.th .prod = .recG) : s.next s.garbage ≠ none := by
  have hi := inv h0 h
  have hl := hi.loc .prod
  rw [hp] at hl
  obtain ⟨y, sp, hsp⟩ := List.exists_cons_of_ne_nil (hi.spare_of_snap hl)
  have hseg := hi.seg
  simp only [St.chain, hsp, List.cons_append] at hseg
  obtain ⟨h1, h2⟩ := hseg
  cases h1
  intro e
  rw [e] at h2
  cases sp <;> exact absurd h2.1 (by simp)

/-- The entry the consumer reads from is in the queue, so it is not recycled under its feet. -/
theorem consumer_owned (h0 : Start sp d q0 s0) {s : St N V} (h : (sys s0).Reach s) {e : N}
    (hp : s.th .cons = .deqV e ∨ ∃ v, s.th .cons = .deqH e v) : e ∈ s.q.map Prod.fst := by
  have hl := (inv h0 h).loc .cons
  rcases hp with hp | ⟨v, hp⟩ <;> rw [hp] at hl
  · obtain ⟨v, q, hq⟩ := hl; simp [hq]
  · obtain ⟨q, hq⟩ := hl; simp [hq]

/-! ## A concrete execution -/

def st0 : St Nat Nat :=
  { head := 0, tail := 0, snap := 0, garbage := 0, next := fun _ => none, val := fun _ => 0,
    th := fun _ => .idle, spare := [], q := [] }

theorem st0_start : Start [] 0 [] st0 := Start.initial 0 _ _ rfl

/-- Enqueue two values, dequeue one, recycle the first dummy and use it for a third value while the
consumer dequeues the second one. -/
example : (runT (sys st0) obs st0
    [.call .prod (.enq 1 11), .run .prod, .run .prod, .run .prod, .run .prod, .ret .prod,
     .call .prod (.enq 2 22), .run .prod, .run .prod, .call .cons .deq, .run .cons, .run .prod, .run .prod,
     .ret .prod, .run .cons, .run .cons, .ret .cons,
     .call .prod .recycle, .run .prod, .run .prod, .call .cons .deq, .run .cons, .run .prod, .ret .prod,
     .call .prod (.enq 0 33), .run .prod, .run .prod, .run .cons, .run .prod, .run .prod, .run .cons, .ret .cons,
     .ret .prod, .call .prod .isempty, .run .prod, .run .prod, .ret .prod]).map Prod.snd =
    some [.call .prod (.enq 1 11), .ret .prod .unit, .call .prod (.enq 2 22), .call .cons .deq,
      .ret .prod .unit, .ret .cons (.val (some 11)), .call .prod .recycle, .call .cons .deq,
      .ret .prod (.node (some 0)), .call .prod (.enq 0 33), .ret .cons (.val (some 22)), .ret .prod .unit,
      .call .prod .isempty, .ret .prod (.flag false)] := by rfl

end Verif.Fifo.Spsc
