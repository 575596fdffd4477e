import Verif.Spin.Hclh
import Mathlib.Data.List.Nodup

/-! # Hierarchical CLH lock: the queue invariant -/

namespace Verif.Spin.Hclh

variable {N T K : Type} [DecidableEq N] [DecidableEq T] [DecidableEq K]

/-! ## Chains -/

/-- The first thread's predecessor is `b`, every other one's is the node of the thread before. -/
def PP (pp nd : T → N) : N → List T → Prop
  | _, [] => True
  | b, t :: l => pp t = b ∧ PP pp nd (nd t) l

def lastN (nd : T → N) : N → List T → N
  | b, [] => b
  | _, t :: l => lastN nd (nd t) l

def QCh (mst : T → Bool) (gp pp nd : T → N) : N → List T → Prop
  | _, [] => True
  | x, t :: l => ((if mst t then gp t else pp t) = x) ∧ QCh mst gp pp nd (nd t) l

theorem lastN_append {nd : T → N} {b : N} {l m : List T} :
    lastN nd b (l ++ m) = lastN nd (lastN nd b l) m := by
  induction l generalizing b with
  | nil => rfl
  | cons t l ih => exact ih

theorem lastN_snoc {nd : T → N} {b : N} {l : List T} {t : T} :
    lastN nd b (l ++ [t]) = nd t := by rw [lastN_append]; rfl

theorem lastN_mem {nd : T → N} {b : N} {l : List T} :
    (l = [] ∧ lastN nd b l = b) ∨ ∃ t ∈ l, lastN nd b l = nd t := by
  induction l generalizing b with
  | nil => exact .inl ⟨rfl, rfl⟩
  | cons t l ih =>
    right
    rcases ih (b := nd t) with ⟨rfl, h⟩ | ⟨u, hu, h⟩
    · exact ⟨t, by simp, h⟩
    · exact ⟨u, by simp [hu], h⟩

theorem lastN_congr {nd nd' : T → N} {b : N} {l : List T} (h : ∀ t ∈ l, nd' t = nd t) :
    lastN nd' b l = lastN nd b l := by
  induction l generalizing b with
  | nil => rfl
  | cons t l ih =>
    simp only [lastN, h t (by simp)]
    exact ih fun u hu => h u (by simp [hu])

theorem pp_append {pp nd : T → N} {b : N} {l m : List T} :
    PP pp nd b (l ++ m) ↔ PP pp nd b l ∧ PP pp nd (lastN nd b l) m := by
  induction l generalizing b with
  | nil => simp [PP, lastN]
  | cons t l ih => simp [PP, lastN, ih, and_assoc]

theorem pp_congr {pp pp' nd nd' : T → N} {b : N} {l : List T}
    (h : ∀ t ∈ l, pp' t = pp t ∧ nd' t = nd t) (hp : PP pp nd b l) : PP pp' nd' b l := by
  induction l generalizing b with
  | nil => trivial
  | cons t l ih =>
    obtain ⟨h1, h2⟩ := h t (by simp)
    refine ⟨by rw [h1, hp.1], ?_⟩
    rw [h2]
    exact ih (fun u hu => h u (by simp [hu])) hp.2

theorem pp_mem {pp nd : T → N} {b : N} {l : List T} {t : T} (hp : PP pp nd b l) (ht : t ∈ l) :
    ((∃ l', l = t :: l') ∧ pp t = b) ∨ ∃ u ∈ l, pp t = nd u := by
  induction l generalizing b with
  | nil => cases ht
  | cons u l ih =>
    rcases List.mem_cons.1 ht with rfl | ht
    · exact .inl ⟨⟨l, rfl⟩, hp.1⟩
    · right
      rcases ih hp.2 ht with ⟨-, h⟩ | ⟨v, hv, h⟩
      · exact ⟨u, by simp, h⟩
      · exact ⟨v, by simp [hv], h⟩

theorem qch_append {mst : T → Bool} {gp pp nd : T → N} {x : N} {l m : List T} :
    QCh mst gp pp nd x (l ++ m) ↔ QCh mst gp pp nd x l ∧ QCh mst gp pp nd (lastN nd x l) m := by
  induction l generalizing x with
  | nil => simp [QCh, lastN]
  | cons t l ih => simp [QCh, lastN, ih, and_assoc]

theorem qch_congr {mst mst' : T → Bool} {gp gp' pp pp' nd nd' : T → N} {x : N} {l : List T}
    (h : ∀ t ∈ l, mst' t = mst t ∧ gp' t = gp t ∧ pp' t = pp t ∧ nd' t = nd t)
    (hp : QCh mst gp pp nd x l) : QCh mst' gp' pp' nd' x l := by
  induction l generalizing x with
  | nil => trivial
  | cons t l ih =>
    obtain ⟨h1, h2, h3, h4⟩ := h t (by simp)
    refine ⟨by rw [h1, h2, h3]; exact hp.1, ?_⟩
    rw [h4]
    exact ih (fun u hu => h u (by simp [hu])) hp.2

/-- Non-masters behind their local predecessors form a chain. -/
theorem qch_of_pp {mst : T → Bool} {gp pp nd : T → N} {x : N} {l : List T}
    (h : ∀ t ∈ l, mst t = false) (hp : PP pp nd x l) : QCh mst gp pp nd x l := by
  induction l generalizing x with
  | nil => trivial
  | cons t l ih =>
    refine ⟨by rw [h t (by simp)]; exact hp.1, ih (fun u hu => h u (by simp [hu])) hp.2⟩

theorem qch_mem {mst : T → Bool} {gp pp nd : T → N} {x : N} {l : List T} {t : T}
    (hp : QCh mst gp pp nd x l) (ht : t ∈ l) :
    ((∃ l', l = t :: l') ∧ (if mst t then gp t else pp t) = x) ∨
      ∃ u ∈ l, (if mst t then gp t else pp t) = nd u := by
  induction l generalizing x with
  | nil => cases ht
  | cons u l ih =>
    rcases List.mem_cons.1 ht with rfl | ht
    · exact .inl ⟨⟨l, rfl⟩, hp.1⟩
    · right
      rcases ih hp.2 ht with ⟨-, h⟩ | ⟨v, hv, h⟩
      · exact ⟨u, by simp, h⟩
      · exact ⟨v, by simp [hv], h⟩

theorem cut_spec {f : T → Bool} {l : List T} (h : ∃ t ∈ l, f t = true) :
    ∃ a t b, l = a ++ t :: b ∧ f t = true ∧ (∀ u ∈ a, f u = false) ∧
      cut f l = (a ++ [t], b) := by
  induction l with
  | nil => obtain ⟨t, ht, -⟩ := h; cases ht
  | cons x l ih =>
    by_cases hx : f x = true
    · exact ⟨[], x, l, rfl, hx, by simp, by simp [cut, hx]⟩
    · have : ∃ t ∈ l, f t = true := by
        obtain ⟨t, ht, h2⟩ := h
        rcases List.mem_cons.1 ht with rfl | ht
        · exact absurd h2 hx
        · exact ⟨t, ht, h2⟩
      obtain ⟨a, t, b, h1, h2, h3, h4⟩ := ih this
      refine ⟨x :: a, t, b, by rw [h1]; rfl, h2, ?_, by simp [cut, hx, h4]⟩
      intro u hu
      rcases List.mem_cons.1 hu with rfl | hu
      · simpa using hx
      · exact h3 u hu

/-! ## The invariant -/

/-- Past the swap into the local queue, up to the release. -/
def PC.jn : PC N → Bool
  | .s0 _ | .r0 _ | .r1 _ | .r2 _ | .r3 _ | .e1 _ | .e2 _ | .m0 | .m1 _ | .m2 _ _ | .m3 _
  | .cs | .u1 _ => true
  | _ => false

def PC.held : PC N → Bool
  | .cs | .u1 _ => true
  | _ => false

/-- The local predecessor while it is still looked at. -/
def PC.pr : PC N → Option N
  | .s0 p | .r0 p | .r1 p | .r2 p | .r3 p | .e1 p | .e2 p => some p
  | _ => none

/-- Past the test of line 97. -/
def PC.rd : PC N → Bool
  | .r1 _ | .r2 _ | .r3 _ | .e1 _ | .e2 _ => true
  | _ => false

def PC.ex : PC N → Bool
  | .e1 _ | .e2 _ => true
  | _ => false

def PC.pre1 : PC N → Bool
  | .w1 | .w2 | .w3 _ | .w4 _ | .w5 | .w6 _ | .fas => true
  | _ => false

def PC.pre2 : PC N → Bool
  | .w2 | .w3 _ | .w4 _ | .w5 | .w6 _ | .fas => true
  | _ => false

def PC.pre5 : PC N → Bool
  | .w5 | .w6 _ | .fas => true
  | _ => false

/-- The unreleased threads of a cluster, in local order. -/
def St.C (s : St N T K) (k : K) : List T := s.Q.filter (fun t => s.cq t = k) ++ s.L k

structure Core (s : St N T K) : Prop where
  inj : ∀ t u, s.node t = s.node u → t = u
  injB : ∀ k j, s.B k = s.B j → k = j
  nB : ∀ t k, s.node t ≠ s.B k
  nX : ∀ t, s.node t ≠ s.X
  ndQ : s.Q.Nodup
  ndL : ∀ k, (s.L k).Nodup
  jQ : ∀ t, t ∈ s.Q → (s.pc t).jn = true
  jL : ∀ t k, t ∈ s.L k → (s.pc t).jn = true ∧ s.cq t = k
  dis : ∀ t k, t ∈ s.Q → t ∉ s.L k
  jm : ∀ t, (s.pc t).jn = true → t ∈ s.Q ∨ t ∈ s.L (s.cq t)
  ch : ∀ k, PP s.pp s.node (s.B k) (s.C k)
  lqe : ∀ k, s.lq k = lastN s.node (s.B k) (s.C k)
  qch : QCh s.mst s.gp s.pp s.node s.X s.Q
  gqe : s.gq = lastN s.node s.X s.Q
  mstt : ∀ t, t ∈ s.Q → s.mst t = s.tl (s.pp t)
  ltl : ∀ t k, t ∈ s.L k → s.tl (s.node t) = false
  lastl : ∀ k, s.tl (lastN s.node (s.B k) (s.Q.filter (fun t => s.cq t = k))) = true
  sp1 : ∀ t, (s.pc t).jn = true → s.splice (s.node t) = true → s.tl (s.node t) = true
  bs1 : ∀ k, s.splice (s.B k) = true → s.tl (s.B k) = true
  bs2 : ∀ k, s.tl (s.B k) = true → s.splice (s.B k) = true ∨ s.prev (s.B k) = none
  bp : ∀ k, s.prev (s.B k) = none → s.tl (s.B k) = true
  bw : ∀ k, s.wait (s.B k) = false
  wX : s.wait s.X = false
  wt : ∀ t, (s.pc t).jn = true → s.wait (s.node t) = true
  pv : ∀ t, (s.pc t).jn = true → s.prev (s.node t) ≠ none

/-- Steps that change neither the queues nor the fields of a node in them. -/
theorem Core.same {s s' : St N T K} (h : Core s)
    (e1 : s'.gq = s.gq) (e2 : s'.lq = s.lq) (e3 : s'.node = s.node)
    (e4 : ∀ t, (s.pc t).jn = true → s'.cq t = s.cq t)
    (e5 : s'.pp = s.pp) (e6 : s'.gp = s.gp) (e7 : s'.mst = s.mst) (e8 : s'.tl = s.tl)
    (e9 : s'.Q = s.Q) (e10 : s'.L = s.L) (e11 : s'.B = s.B) (e12 : s'.X = s.X)
    (ej : ∀ t, (s'.pc t).jn = (s.pc t).jn)
    (ef : ∀ m, (∀ u, (s.pc u).jn = false → s.node u ≠ m) →
      s'.wait m = s.wait m ∧ s'.splice m = s.splice m ∧ (s'.prev m = none ↔ s.prev m = none)) :
    Core s' := by
  obtain ⟨g1, g2, g3, g4, g5, g6, g7, g8, g9, g10, g11, g12, g13, g14, g15, g16, g17, g18, g19,
    g20, g21, g22, g23, g24, g25⟩ := h
  have hf : ∀ k, s'.Q.filter (fun t => s'.cq t = k) = s.Q.filter (fun t => s.cq t = k) := by
    intro k
    rw [e9]
    apply List.filter_congr
    intro t ht
    rw [e4 t (g7 t ht)]
  have hC : ∀ k, s'.C k = s.C k := by
    intro k
    unfold St.C
    rw [hf, e10]
  have fB := fun k => ef (s.B k) (fun u _ => g3 u k)
  have fX := ef s.X (fun u _ => g4 u)
  have fN := fun t (ht : (s.pc t).jn = true) => ef (s.node t) (fun u hu e => by
    have := g1 _ _ e; subst this; rw [ht] at hu; cases hu)
  constructor
  · rw [e3]; exact g1
  · rw [e11]; exact g2
  · rw [e3, e11]; exact g3
  · rw [e3, e12]; exact g4
  · rw [e9]; exact g5
  · rw [e10]; exact g6
  · intro t; rw [e9, ej]; exact g7 t
  · intro t k; rw [e10, ej]; intro ht
    have := g8 t k ht
    rw [e4 t this.1]; exact this
  · intro t k; rw [e9, e10]; exact g9 t k
  · intro t; rw [e9, ej, e10]; intro ht; rw [e4 t ht]; exact g10 t ht
  · intro k; rw [hC, e5, e3, e11]; exact g11 k
  · intro k; rw [hC, e2, e3, e11]; exact g12 k
  · rw [e7, e6, e5, e3, e12, e9]; exact g13
  · rw [e1, e3, e12, e9]; exact g14
  · rw [e9, e7, e8, e5]; exact g15
  · rw [e10, e8, e3]; exact g16
  · intro k; rw [hf, e8, e3, e11]; exact g17 k
  · intro t ht; rw [ej] at ht; rw [e3, e8, (fN t ht).2.1]; exact g18 t ht
  · intro k; rw [e11, e8, (fB k).2.1]; exact g19 k
  · intro k; rw [e11, e8, (fB k).2.1, (fB k).2.2]; exact g20 k
  · intro k; rw [e11, e8, (fB k).2.2]; exact g21 k
  · intro k; rw [e11, (fB k).1]; exact g22 k
  · rw [e12, fX.1]; exact g23
  · intro t ht; rw [ej] at ht; rw [e3, (fN t ht).1]; exact g24 t ht
  · intro t ht; rw [ej] at ht; rw [e3, Ne, (fN t ht).2.2]; exact g25 t ht

theorem Core.memC {s : St N T K} (h : Core s) {t : T} {k : K} (ht : t ∈ s.C k) :
    (s.pc t).jn = true ∧ s.cq t = k := by
  rcases List.mem_append.1 ht with ht | ht
  · obtain ⟨h1, h2⟩ := List.mem_filter.1 ht
    exact ⟨h.jQ t h1, by simpa using h2⟩
  · exact h.jL t k ht

theorem Core.inC {s : St N T K} (h : Core s) {t : T} (ht : (s.pc t).jn = true) :
    t ∈ s.C (s.cq t) := by
  unfold St.C
  rcases h.jm t ht with h | h
  · exact List.mem_append.2 (.inl (List.mem_filter.2 ⟨h, by simp⟩))
  · exact List.mem_append.2 (.inr h)

/-- A thread is first in its cluster, or its predecessor is a thread before it. -/
theorem Core.pred {s : St N T K} (h : Core s) {t : T} (ht : (s.pc t).jn = true) :
    ((∃ l', s.C (s.cq t) = t :: l') ∧ s.pp t = s.B (s.cq t)) ∨
      ∃ u, (s.pc u).jn = true ∧ s.cq u = s.cq t ∧ s.pp t = s.node u := by
  rcases pp_mem (h.ch (s.cq t)) (h.inC ht) with h1 | ⟨u, hu, h2⟩
  · exact .inl h1
  · have := h.memC hu
    exact .inr ⟨u, this.1, this.2, h2⟩

theorem Core.pp_ne {s : St N T K} (h : Core s) {t u : T} (ht : (s.pc t).jn = true)
    (hu : (s.pc u).jn = false) : s.pp t ≠ s.node u := by
  rcases h.pred ht with ⟨-, h1⟩ | ⟨v, h1, -, h2⟩
  · rw [h1]; exact (h.nB u _).symm
  · rw [h2]; intro e
    have := h.inj _ _ e
    subst this
    rw [h1] at hu; cases hu

/-- The predecessor of a spliced thread is spliced or gone. -/
theorem Core.predQ {s : St N T K} (h : Core s) {t : T} (ht : t ∈ s.Q) :
    s.pp t = s.B (s.cq t) ∨ ∃ u, u ∈ s.Q ∧ s.pp t = s.node u := by
  have hc := (pp_append.1 (h.ch (s.cq t))).1
  rcases pp_mem hc (List.mem_filter.2 ⟨ht, by simp⟩) with ⟨-, h1⟩ | ⟨u, hu, h2⟩
  · exact .inl h1
  · exact .inr ⟨u, (List.mem_filter.1 hu).1, h2⟩

/-- Only the first unspliced thread of a cluster has a batch tail in front of it. -/
theorem Core.headL {s : St N T K} (h : Core s) {t : T} {k : K} (ht : t ∈ s.L k)
    (htl : s.tl (s.pp t) = true) : ∃ l, s.L k = t :: l := by
  have hc := (pp_append.1 (h.ch k)).2
  rcases pp_mem hc ht with ⟨h1, -⟩ | ⟨u, hu, h2⟩
  · exact h1
  · rw [h2, h.ltl u k hu] at htl; cases htl

theorem Core.predL {s : St N T K} (h : Core s) {t : T} {k : K} {l : List T}
    (hl : s.L k = t :: l) : s.tl (s.pp t) = true := by
  have hc := (pp_append.1 (h.ch k)).2
  rw [hl] at hc
  rw [hc.1]
  exact h.lastl k

/-- If the predecessor does not wait, the thread is the first one of its cluster. -/
theorem Core.first {s : St N T K} (h : Core s) {t : T} (ht : (s.pc t).jn = true)
    (hw : s.wait (s.pp t) = false) :
    (∃ l', s.C (s.cq t) = t :: l') ∧ s.pp t = s.B (s.cq t) := by
  rcases h.pred ht with h1 | ⟨u, h1, -, h2⟩
  · exact h1
  · rw [h2, h.wt u h1] at hw; cases hw

theorem Core.first_prev {s : St N T K} (h : Core s) {t : T} (ht : (s.pc t).jn = true)
    (hw : s.prev (s.pp t) = none) :
    (∃ l', s.C (s.cq t) = t :: l') ∧ s.pp t = s.B (s.cq t) := by
  rcases h.pred ht with h1 | ⟨u, h1, -, h2⟩
  · exact h1
  · rw [h2] at hw; exact absurd hw (h.pv u h1)

theorem Core.pp_inj {s : St N T K} (h : Core s) {t : T} (ht : (s.pc t).jn = true)
    (hw : s.splice (s.pp t) = true) : s.tl (s.pp t) = true := by
  rcases h.pred ht with ⟨-, h1⟩ | ⟨v, h1, -, h2⟩
  · rw [h1] at hw ⊢; exact h.bs1 _ hw
  · rw [h2] at hw ⊢; exact h.sp1 _ h1 hw

/-! ## Joining -/

theorem core_fas {c : Cfg T K} {s s' : St N T K} {t : T} (h : Core s) (hp : s.pc t = .fas)
    (hw : s.wait (s.node t) = true) (hsp : s.splice (s.node t) = false)
    (hpv : s.prev (s.node t) ≠ none) (hs : step c s (.run t) = some s') : Core s' := by
  simp only [step, hp, Option.some.injEq] at hs
  subst hs
  have hj : (s.pc t).jn = false := by rw [hp]; rfl
  have htQ : t ∉ s.Q := fun hm => by have := h.jQ t hm; rw [hj] at this; cases this
  have htL : ∀ k, t ∉ s.L k := fun k hm => by
    have := (h.jL t k hm).1; rw [hj] at this; cases this
  have hjn : ∀ u, (upd s.pc t (PC.s0 (s.lq (s.cq t))) u).jn = if u = t then true else (s.pc u).jn := by
    intro u; simp only [upd]; split <;> rfl
  have htC : ∀ k, t ∉ s.C k := fun k hm => by
    have := (h.memC hm).1; rw [hj] at this; cases this
  have hC : ∀ k, St.C { s with
        lq := upd s.lq (s.cq t) (s.node t), pc := upd s.pc t (.s0 (s.lq (s.cq t)))
        pp := upd s.pp t (s.lq (s.cq t)), tl := upd s.tl (s.node t) false
        L := upd s.L (s.cq t) (s.L (s.cq t) ++ [t])
        arr := upd s.arr (s.cq t) (s.arr (s.cq t) ++ [t]) } k
      = if k = s.cq t then s.C k ++ [t] else s.C k := by
    intro k
    simp only [St.C, upd]
    split
    · next e => subst e; simp
    · rfl
  have hpne : ∀ u k, u ∈ s.C k → (upd s.pp t (s.lq (s.cq t))) u = s.pp u ∧ s.node u = s.node u := by
    intro u k hu
    have : u ≠ t := fun e => htC k (e ▸ hu)
    exact ⟨by simp [upd, this], rfl⟩
  obtain ⟨g1, g2, g3, g4, g5, g6, g7, g8, g9, g10, g11, g12, g13, g14, g15, g16, g17, g18, g19,
    g20, g21, g22, g23, g24, g25⟩ := id h
  constructor
  · exact g1
  · exact g2
  · exact g3
  · exact g4
  · exact g5
  · intro k
    dsimp only
    simp only [upd]
    split
    · next e =>
      rw [List.nodup_append]
      refine ⟨g6 _, by simp, ?_⟩
      rintro a ha b hb rfl
      simp at hb
      exact htL _ (hb ▸ ha)
    · exact g6 k
  · intro u hu; dsimp only; rw [hjn]; split
    · rfl
    · exact g7 u hu
  · intro u k hu
    dsimp only at hu ⊢
    rw [hjn]
    simp only [upd] at hu
    split at hu
    · next e =>
      rw [List.mem_append] at hu
      rcases hu with hu | hu
      · have := g8 u _ hu
        rw [this.1, e]; simp [this.2]
      · simp at hu; subst hu; simp [e]
    · have := g8 u _ hu
      rw [this.1]; simp [this.2]
  · intro u k hu
    dsimp only at hu ⊢
    simp only [upd]
    split
    · rw [List.mem_append]
      rintro (h1 | h1)
      · exact g9 u _ hu h1
      · simp at h1; subst h1; exact htQ hu
    · exact g9 u k hu
  · intro u hu
    dsimp only at hu ⊢
    rw [hjn] at hu
    simp only [upd]
    split at hu
    · next e => subst e; right; simp
    · rcases g10 u hu with h1 | h1
      · exact .inl h1
      · right; split
        · next e => rw [e] at h1; exact List.mem_append.2 (.inl h1)
        · exact h1
  · intro k
    rw [hC]
    dsimp only
    split
    · next e =>
      rw [pp_append]
      refine ⟨pp_congr (fun u hu => hpne u k hu) (g11 k), ?_⟩
      refine ⟨?_, trivial⟩
      rw [upd_same, ← e, g12 k]
    · exact pp_congr (fun u hu => hpne u k hu) (g11 k)
  · intro k
    rw [hC]
    dsimp only
    simp only [upd]
    split
    · rw [lastN_snoc]
    · exact g12 k
  · refine qch_congr (fun u hu => ?_) g13
    have : u ≠ t := fun e => htQ (e ▸ hu)
    exact ⟨rfl, rfl, by simp [upd, this], rfl⟩
  · exact g14
  · intro u hu
    dsimp only at hu ⊢
    have : u ≠ t := fun e => htQ (e ▸ hu)
    rw [upd_ne _ _ this, upd_ne _ _ (h.pp_ne (g7 u hu) hj)]
    exact g15 u hu
  · intro u k hu
    dsimp only at hu ⊢
    simp only [upd] at hu ⊢
    split
    · rfl
    · next hne =>
      split at hu
      · rw [List.mem_append] at hu
        rcases hu with hu | hu
        · exact g16 u _ hu
        · simp at hu; subst hu; exact absurd rfl hne
      · exact g16 u _ hu
  · intro k
    dsimp only
    have hne : lastN s.node (s.B k) (s.Q.filter (fun t => s.cq t = k)) ≠ s.node t := by
      rcases lastN_mem (nd := s.node) (b := s.B k) (l := s.Q.filter (fun t => s.cq t = k)) with
        ⟨-, e⟩ | ⟨u, hu, e⟩
      · rw [e]; exact (g3 t k).symm
      · rw [e]; intro e2
        have := g1 _ _ e2
        subst this
        exact htQ (List.mem_filter.1 hu).1
    rw [upd_ne _ _ hne]
    exact g17 k
  · intro u hu
    dsimp only at hu ⊢
    rw [hjn] at hu
    split at hu
    · next e => subst e; rw [hsp]; intro h; cases h
    · next e =>
      have : s.node u ≠ s.node t := fun e2 => e (g1 _ _ e2)
      rw [upd_ne _ _ this]
      exact g18 u hu
  · intro k
    dsimp only
    rw [upd_ne _ _ (g3 t k).symm]; exact g19 k
  · intro k
    dsimp only
    rw [upd_ne _ _ (g3 t k).symm]; exact g20 k
  · intro k
    dsimp only
    rw [upd_ne _ _ (g3 t k).symm]; exact g21 k
  · exact g22
  · exact g23
  · intro u hu
    dsimp only at hu ⊢
    rw [hjn] at hu
    split at hu
    · next e => subst e; exact hw
    · exact g24 u hu
  · intro u hu
    dsimp only at hu ⊢
    rw [hjn] at hu
    split at hu
    · next e => subst e; exact hpv
    · exact g25 u hu

/-! ## Splicing -/

theorem core_m1 {c : Cfg T K} {s s' : St N T K} {t : T} {l : N} (h : Core s) (hp : s.pc t = .m1 l)
    (htL : t ∈ s.L (s.cq t)) (htl : s.tl (s.pp t) = true)
    (hl : ∃ u ∈ s.L (s.cq t), s.node u = l) (hs : step c s (.run t) = some s') :
    Core s' ∧ ∃ a u b, s.L (s.cq t) = (t :: a) ++ b ∧ u ∈ t :: a ∧ s.node u = l ∧
      s'.Q = s.Q ++ t :: a ∧ s'.L = upd s.L (s.cq t) b ∧
      s'.mst = (fun u => if u = t then true else if u ∈ t :: a then false else s.mst u) := by
  simp only [step, hp, Option.some.injEq] at hs
  obtain ⟨r, hr⟩ := h.headL htL htl
  obtain ⟨a, v, b, h1, h2, h3, h4⟩ := cut_spec (f := fun u => s.node u = l)
    (l := s.L (s.cq t)) (by simpa using hl)
  have h2 : s.node v = l := by simpa using h2
  have h3 : ∀ u ∈ a, s.node u ≠ l := fun u hu => by simpa using h3 u hu
  rw [h4] at hs
  dsimp only at hs
  -- the batch starts with `t`
  obtain ⟨a', ha'⟩ : ∃ a', a ++ [v] = t :: a' := by
    cases a with
    | nil => rw [hr] at h1; simp at h1; exact ⟨[], by simp [h1.1]⟩
    | cons x a => rw [hr] at h1; simp at h1; exact ⟨a ++ [v], by simp [h1.1]⟩
  have h1' : s.L (s.cq t) = (t :: a') ++ b := by rw [← ha', h1]; simp
  have hv : v ∈ t :: a' := by rw [← ha']; simp
  rw [ha'] at hs
  obtain ⟨g1, g2, g3, g4, g5, g6, g7, g8, g9, g10, g11, g12, g13, g14, g15, g16, g17, g18, g19,
    g20, g21, g22, g23, g24, g25⟩ := id h
  have hbL : ∀ u, u ∈ t :: a' → u ∈ s.L (s.cq t) := fun u hu => by
    rw [h1']; exact List.mem_append.2 (.inl hu)
  have hpL : ∀ u, u ∈ b → u ∈ s.L (s.cq t) := fun u hu => by
    rw [h1']; exact List.mem_append.2 (.inr hu)
  have hvL := hbL v hv
  have hnd := g6 (s.cq t)
  rw [h1', List.nodup_append] at hnd
  obtain ⟨hnd1, hnd2, hnd3⟩ := hnd
  have hne1 : ∀ u, u ∈ b → s.node u ≠ l := fun u hu e => by
    have := g1 u v (by rw [e, h2])
    subst this
    exact hnd3 _ hv _ hu rfl
  have hjn : ∀ u, (upd s.pc t (PC.m2 l s.gq) u).jn = (s.pc u).jn := by
    intro u; simp only [upd]; split
    · next e => subst e; rw [hp]; rfl
    · rfl
  have hcq : ∀ u, u ∈ t :: a' → s.cq u = s.cq t := fun u hu => (g8 u _ (hbL u hu)).2
  have hfil : ∀ k, (s.Q ++ t :: a').filter (fun u => s.cq u = k)
      = if k = s.cq t then s.Q.filter (fun u => s.cq u = k) ++ t :: a'
        else s.Q.filter (fun u => s.cq u = k) := by
    intro k
    rw [List.filter_append]
    split
    · next e =>
      subst e
      congr 1
      rw [List.filter_eq_self]
      intro u hu; simpa using hcq u hu
    · next e =>
      have : (t :: a').filter (fun u => s.cq u = k) = [] := by
        rw [List.filter_eq_nil_iff]
        intro u hu
        rw [hcq u hu]; simpa using Ne.symm e
      rw [this, List.append_nil]
  have hC : ∀ k, s'.C k = s.C k := by
    intro k
    rw [← hs]
    simp only [St.C]
    rw [hfil]
    simp only [upd]
    split
    · next e => subst e; rw [h1']; simp
    · rfl
  -- nobody spliced earlier, and no base, has `l`
  have hBl : ∀ k, s.B k ≠ l := fun k e => g3 v k (by rw [h2, e])
  have hQl : ∀ u, u ∈ s.Q → s.pp u ≠ l := by
    intro u hu e
    rcases h.predQ hu with e1 | ⟨w, hw, e1⟩
    · exact hBl _ (e1.symm.trans e)
    · have := g1 w v (by rw [← e1, e, h2])
      subst this
      exact g9 w _ hw hvL
  have htQ : ∀ u, u ∈ t :: a' → u ∉ s.Q := fun u hu hq => g9 u _ hq (hbL u hu)
  have hlast : lastN s.node (s.B (s.cq t)) (s.Q.filter (fun u => s.cq u = s.cq t) ++ t :: a') = l := by
    rw [← ha', ← List.append_assoc, lastN_snoc, h2]
  have hlast2 : lastN s.node s.X (s.Q ++ t :: a') = l := by
    rw [← ha', ← List.append_assoc, lastN_snoc, h2]
  -- the predecessors inside the batch
  have hch := g11 (s.cq t)
  unfold St.C at hch
  rw [h1', ← List.append_assoc, pp_append, pp_append] at hch
  obtain ⟨⟨hc1, hc2⟩, -⟩ := hch
  have hc2' := hc2
  have hta : t ∉ a' := (List.nodup_cons.1 hnd1).1
  have hpa : ∀ u, u ∈ a' → s.pp u ≠ l ∧ s.tl (s.pp u) = false := by
    -- the predecessor is a batch member other than the last one
    have key : ∀ (x : N) (p : List T) (w u : T), PP s.pp s.node x (p ++ [w]) → u ∈ p ++ [w] →
        (p ++ [w]).Nodup →
        (∃ q, p ++ [w] = u :: q) ∨ ∃ y ∈ p, s.pp u = s.node y := by
      intro x p
      induction p generalizing x with
      | nil =>
        intro w u hpp hu _
        simp at hu; subst hu
        exact .inl ⟨[], rfl⟩
      | cons y p ih =>
        intro w u hpp hu hnd
        rcases List.mem_cons.1 hu with rfl | hu
        · exact .inl ⟨_, rfl⟩
        · right
          rcases ih _ w u hpp.2 hu (List.nodup_cons.1 hnd).2 with ⟨q, hq⟩ | ⟨z, hz, e⟩
          · have h5 : PP s.pp s.node (s.node y) (p ++ [w]) := hpp.2
            rw [hq] at h5
            have this := h5
            exact ⟨y, by simp, this.1⟩
          · exact ⟨z, by simp [hz], e⟩
    intro u hu
    rw [← ha'] at hc2
    rcases key _ _ _ u hc2 (by rw [ha']; simp [hu]) (by rw [ha']; exact hnd1) with ⟨q, hq⟩ | ⟨y, hy, e⟩
    · rw [ha'] at hq
      simp at hq
      exact absurd (hq.1 ▸ hu) hta
    · have hyL : y ∈ s.L (s.cq t) := by rw [h1]; simp [hy]
      rw [e]
      exact ⟨h3 y hy, g16 y _ hyL⟩
  have hmst : s'.mst = (fun u => if u = t then true else if u ∈ t :: a' then false else s.mst u) := by
    rw [← hs]
  refine ⟨?_, a', v, b, h1', hv, h2, by rw [← hs], by rw [← hs], hmst⟩
  have hQ' : s'.Q = s.Q ++ t :: a' := by rw [← hs]
  have hL' : s'.L = upd s.L (s.cq t) b := by rw [← hs]
  constructor
  · rw [← hs]; exact g1
  · rw [← hs]; exact g2
  · rw [← hs]; exact g3
  · rw [← hs]; exact g4
  · rw [hQ', List.nodup_append]
    refine ⟨g5, hnd1, ?_⟩
    rintro x hx y hy rfl
    exact htQ _ hy hx
  · intro k; rw [hL']; simp only [upd]; split
    · exact hnd2
    · exact g6 k
  · intro u hu
    rw [hQ', List.mem_append] at hu
    rw [← hs]; dsimp only; rw [hjn]
    rcases hu with hu | hu
    · exact g7 u hu
    · exact (g8 u _ (hbL u hu)).1
  · intro u k hu
    rw [hL'] at hu
    rw [← hs]; dsimp only; rw [hjn]
    simp only [upd] at hu
    split at hu
    · next e => rw [e]; exact g8 u _ (hpL u hu)
    · exact g8 u k hu
  · intro u k hu
    rw [hQ', List.mem_append] at hu
    rw [hL']
    simp only [upd]
    split
    · next e =>
      rcases hu with hu | hu
      · exact fun hb => g9 u _ hu (hpL u hb)
      · exact fun hb => hnd3 _ hu _ hb rfl
    · next e =>
      rcases hu with hu | hu
      · exact g9 u k hu
      · intro hk
        exact e ((g8 u k hk).2.symm.trans (hcq u hu))
  · intro u hu
    have hcu : s'.cq u = s.cq u := by rw [← hs]
    have hpu : (s'.pc u).jn = (s.pc u).jn := by rw [← hs]; exact hjn u
    rw [hpu] at hu
    rw [hcu, hQ', hL', List.mem_append]
    simp only [upd]
    rcases g10 u hu with h1 | h1
    · exact .inl (.inl h1)
    · split
      · next e =>
        rw [e, h1', List.mem_append] at h1
        rcases h1 with h1 | h1
        · exact .inl (.inr h1)
        · exact .inr h1
      · exact .inr h1
  · intro k; rw [hC, ← hs]; exact g11 k
  · intro k; rw [hC, ← hs]; exact g12 k
  · rw [hmst, hQ', qch_append]
    have e1 : s'.gp = upd s.gp t s.gq := by rw [← hs]
    have e2 : s'.pp = s.pp := by rw [← hs]
    have e3 : s'.node = s.node := by rw [← hs]
    have e4 : s'.X = s.X := by rw [← hs]
    rw [e1, e2, e3, e4]
    refine ⟨qch_congr (fun u hu => ?_) g13, ?_⟩
    · have hu1 : u ≠ t := fun e => htQ t (by simp) (e ▸ hu)
      have hu2 : u ∉ t :: a' := fun e => htQ u e hu
      exact ⟨by simp only [hu1, hu2, if_false], by simp [upd, hu1], rfl, rfl⟩
    · refine ⟨by simp [g14], ?_⟩
      refine qch_of_pp (fun u hu => ?_) hc2'.2
      have hu1 : u ≠ t := fun e => hta (e ▸ hu)
      simp [hu1, hu]
  · rw [hQ', ← hs]; exact hlast2.symm
  · intro u hu
    rw [hQ', List.mem_append] at hu
    have e2 : s'.pp = s.pp := by rw [← hs]
    have e3 : s'.tl = upd s.tl l true := by rw [← hs]
    rw [hmst, e2, e3]
    rcases hu with hu | hu
    · have hu1 : u ≠ t := fun e => htQ t (by simp) (e ▸ hu)
      have hu2 : u ∉ t :: a' := fun e => htQ u e hu
      rw [upd_ne _ _ (hQl u hu)]
      simp only [hu1, hu2, if_false]
      exact g15 u hu
    · rcases List.mem_cons.1 hu with rfl | hu
      · simp only [if_true]
        simp only [upd]; split
        · rfl
        · exact htl.symm
      · have hu1 : u ≠ t := fun e => hta (e ▸ hu)
        rw [upd_ne _ _ (hpa u hu).1, (hpa u hu).2]
        simp [hu1, hu]
  · intro u k hu
    rw [hL'] at hu
    rw [← hs]; dsimp only
    simp only [upd] at hu
    split at hu
    · rw [upd_ne _ _ (hne1 u hu)]; exact g16 u _ (hpL u hu)
    · next e =>
      have : s.node u ≠ l := fun e2 => by
        have := g1 u v (by rw [e2, h2])
        subst this
        exact e ((g8 u k hu).2.symm.trans (g8 u _ hvL).2)
      rw [upd_ne _ _ this]; exact g16 u k hu
  · intro k
    rw [hQ', ← hs]; dsimp only
    rw [hfil]
    split
    · next e => subst e; rw [hlast, upd_same]
    · simp only [upd]; split
      · rfl
      · exact g17 k
  · intro u hu
    rw [← hs] at hu ⊢; dsimp only at hu ⊢
    rw [hjn] at hu
    intro h5
    simp only [upd]; split
    · rfl
    · exact g18 u hu h5
  · intro k
    rw [← hs]; dsimp only
    rw [upd_ne _ _ (hBl k)]; exact g19 k
  · intro k
    rw [← hs]; dsimp only
    rw [upd_ne _ _ (hBl k)]; exact g20 k
  · intro k
    rw [← hs]; dsimp only
    rw [upd_ne _ _ (hBl k)]; exact g21 k
  · rw [← hs]; exact g22
  · rw [← hs]; exact g23
  · intro u hu
    rw [← hs] at hu ⊢; dsimp only at hu ⊢
    rw [hjn] at hu; exact g24 u hu
  · intro u hu
    rw [← hs] at hu ⊢; dsimp only at hu ⊢
    rw [hjn] at hu; exact g25 u hu

theorem core_m2 {c : Cfg T K} {s s' : St N T K} {t : T} {l g : N} (h : Core s)
    (hp : s.pc t = .m2 l g) (hl : s.tl l = true) (hs : step c s (.run t) = some s') : Core s' := by
  simp only [step, hp, Option.some.injEq] at hs
  subst hs
  have hjn : ∀ u, (upd s.pc t (PC.m3 g) u).jn = (s.pc u).jn := by
    intro u; simp only [upd]; split
    · next e => subst e; rw [hp]; rfl
    · rfl
  obtain ⟨g1, g2, g3, g4, g5, g6, g7, g8, g9, g10, g11, g12, g13, g14, g15, g16, g17, g18, g19,
    g20, g21, g22, g23, g24, g25⟩ := id h
  constructor
  · exact g1
  · exact g2
  · exact g3
  · exact g4
  · exact g5
  · exact g6
  · intro u; dsimp only; rw [hjn]; exact g7 u
  · intro u k; dsimp only; rw [hjn]; exact g8 u k
  · exact g9
  · intro u; dsimp only; rw [hjn]; exact g10 u
  · exact g11
  · exact g12
  · exact g13
  · exact g14
  · exact g15
  · exact g16
  · exact g17
  · intro u; dsimp only; rw [hjn]; intro hu h5
    simp only [upd] at h5
    split at h5
    · next e => rw [e]; exact hl
    · exact g18 u hu h5
  · intro k; dsimp only; intro h5
    simp only [upd] at h5
    split at h5
    · next e => rw [e]; exact hl
    · exact g19 k h5
  · intro k; dsimp only; intro h5
    simp only [upd]
    split
    · exact .inl rfl
    · exact g20 k h5
  · exact g21
  · exact g22
  · exact g23
  · intro u; dsimp only; rw [hjn]; exact g24 u
  · intro u; dsimp only; rw [hjn]; exact g25 u

/-! ## Releasing -/

theorem core_u1 {c : Cfg T K} {s s' : St N T K} {t : T} {p : N} (h : Core s)
    (hp : s.pc t = .u1 p) (hpp : p = s.pp t) (hq : ∃ l, s.Q = t :: l)
    (hsp : s.tl (s.node t) = true → s.splice (s.node t) = true)
    (hs : step c s (.run t) = some s') : Core s' ∧ p = s.B (s.cq t) := by
  simp only [step, hp, Option.some.injEq] at hs
  obtain ⟨l, hq⟩ := hq
  obtain ⟨g1, g2, g3, g4, g5, g6, g7, g8, g9, g10, g11, g12, g13, g14, g15, g16, g17, g18, g19,
    g20, g21, g22, g23, g24, g25⟩ := id h
  have hjt : (s.pc t).jn = true := by rw [hp]; rfl
  have hB : p = s.B (s.cq t) := by
    have := g11 (s.cq t)
    unfold St.C at this
    rw [hq, List.filter_cons_of_pos (by simp)] at this
    rw [hpp]; exact this.1
  refine ⟨?_, hB⟩
  subst hs
  have hjn : ∀ u, (upd s.pc t (PC.idle) u).jn = if u = t then false else (s.pc u).jn := by
    intro u; simp only [upd]; split <;> rfl
  have hnd := List.nodup_cons.1 (hq ▸ g5)
  have htL : ∀ k, t ∉ s.L k := fun k => g9 t k (by rw [hq]; simp)
  have hlt : ∀ u, u ∈ l → u ≠ t := fun u hu e => hnd.1 (e ▸ hu)
  have hlQ : ∀ u, u ∈ l → u ∈ s.Q := fun u hu => by rw [hq]; simp [hu]
  have htail : s.Q.tail = l := by rw [hq]; rfl
  have hC1 : s.C (s.cq t) = t :: (l.filter (fun u => s.cq u = s.cq t) ++ s.L (s.cq t)) := by
    unfold St.C; rw [hq, List.filter_cons_of_pos (by simp)]; rfl
  have hC2 : ∀ k, k ≠ s.cq t → s.C k = l.filter (fun u => s.cq u = k) ++ s.L k := by
    intro k hk
    unfold St.C; rw [hq, List.filter_cons_of_neg (by simpa using Ne.symm hk)]
  have hnn : ∀ k u, u ∈ l.filter (fun u => s.cq u = k) ++ s.L k → u ≠ t := by
    intro k u hu
    rcases List.mem_append.1 hu with hu | hu
    · exact hlt u (List.mem_filter.1 hu).1
    · exact fun e => htL k (e ▸ hu)
  have hcg : ∀ k u, u ∈ l.filter (fun u => s.cq u = k) ++ s.L k →
      s.pp u = s.pp u ∧ upd s.node t p u = s.node u := fun k u hu =>
    ⟨rfl, upd_ne _ _ (hnn k u hu)⟩
  constructor
  · intro u v; dsimp only; simp only [upd]
    split <;> split
    · next e1 e2 => intro _; rw [e1, e2]
    · intro e; rw [hB] at e; exact absurd e.symm (g3 _ _)
    · intro e; rw [hB] at e; exact absurd e (g3 _ _)
    · exact g1 u v
  · intro k j; dsimp only; simp only [upd]
    split <;> split
    · next e1 e2 => intro _; rw [e1, e2]
    · intro e; exact absurd e (g3 _ _)
    · intro e; exact absurd e.symm (g3 _ _)
    · exact g2 k j
  · intro u k; dsimp only; simp only [upd]
    split <;> split
    · rw [hB]; exact (g3 _ _).symm
    · next e => rw [hB]; exact fun e2 => e (g2 _ _ e2).symm
    · next e _ => exact fun e2 => e (g1 _ _ e2)
    · exact g3 u k
  · intro u; dsimp only; simp only [upd]
    split
    · rw [hB]; exact (g3 _ _).symm
    · next e => exact fun e2 => e (g1 _ _ e2)
  · dsimp only; rw [htail]; exact hnd.2
  · exact g6
  · intro u; dsimp only; rw [htail, hjn]; intro hu; rw [if_neg (hlt u hu)]; exact g7 u (hlQ u hu)
  · intro u k; dsimp only; rw [hjn]; intro hu
    have hne : u ≠ t := fun e => htL k (e ▸ hu)
    rw [if_neg hne]; exact g8 u k hu
  · intro u k; dsimp only; rw [htail]; intro hu; exact g9 u k (hlQ u hu)
  · intro u; dsimp only; rw [htail, hjn]; intro hu
    split at hu
    · cases hu
    · next hne =>
      rcases g10 u hu with h1 | h1
      · rw [hq] at h1
        rcases List.mem_cons.1 h1 with h1 | h1
        · exact absurd h1 hne
        · exact .inl h1
      · exact .inr h1
  · intro k
    have : PP s.pp s.node (upd s.B (s.cq t) (s.node t) k)
        (l.filter (fun u => s.cq u = k) ++ s.L k) := by
      simp only [upd]
      split
      · next e => subst e; have := g11 (s.cq t); rw [hC1] at this; exact this.2
      · next e => rw [← hC2 k e]; exact g11 k
    show PP s.pp (upd s.node t p) (upd s.B (s.cq t) (s.node t) k) (s.Q.tail.filter _ ++ s.L k)
    rw [htail]
    exact pp_congr (hcg k) this
  · intro k
    show s.lq k = lastN (upd s.node t p) (upd s.B (s.cq t) (s.node t) k) (s.Q.tail.filter _ ++ s.L k)
    rw [htail, lastN_congr (fun u hu => (hcg k u hu).2), g12 k]
    simp only [upd]
    split
    · next e => subst e; rw [hC1]; rfl
    · next e => rw [← hC2 k e]
  · show QCh s.mst s.gp s.pp (upd s.node t p) (s.node t) s.Q.tail
    rw [htail]
    rw [hq] at g13
    exact qch_congr (fun u hu => ⟨rfl, rfl, rfl, upd_ne _ _ (hlt u hu)⟩) g13.2
  · show s.gq = lastN (upd s.node t p) (s.node t) s.Q.tail
    rw [htail, lastN_congr (fun u hu => upd_ne _ _ (hlt u hu)), g14, hq]; rfl
  · intro u; dsimp only; rw [htail]; intro hu; exact g15 u (hlQ u hu)
  · intro u k; dsimp only; intro hu
    have hne : u ≠ t := fun e => htL k (e ▸ hu)
    rw [upd_ne _ _ hne]; exact g16 u k hu
  · intro k
    dsimp only
    rw [htail, lastN_congr (fun u hu => upd_ne _ _ (hlt u (List.mem_filter.1 hu).1))]
    have := g17 k
    rw [hq] at this
    simp only [upd]
    split
    · next e => subst e; rw [List.filter_cons_of_pos (by simp)] at this; exact this
    · next e => rw [List.filter_cons_of_neg (by simpa using Ne.symm e)] at this; exact this
  · intro u; dsimp only; rw [hjn]; intro hu
    split at hu
    · cases hu
    · next hne => rw [upd_ne _ _ hne]; exact g18 u hu
  · intro k; dsimp only; simp only [upd]; split
    · exact g18 t hjt
    · exact g19 k
  · intro k; dsimp only; simp only [upd]; split
    · exact fun h => .inl (hsp h)
    · exact g20 k
  · intro k; dsimp only; simp only [upd]; split
    · exact fun h => absurd h (g25 t hjt)
    · exact g21 k
  · intro k; dsimp only; simp only [upd]; split
    · simp
    · next e => rw [if_neg (g3 t k).symm]; exact g22 k
  · simp
  · intro u; dsimp only; rw [hjn]; intro hu
    split at hu
    · cases hu
    · next hne =>
      rw [upd_ne _ _ hne, upd_ne _ _ (fun e => hne (g1 _ _ e))]; exact g24 u hu
  · intro u; dsimp only; rw [hjn]; intro hu
    split at hu
    · cases hu
    · next hne => rw [upd_ne _ _ hne]; exact g25 u hu

end Verif.Spin.Hclh
