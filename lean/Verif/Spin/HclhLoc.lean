import Verif.Spin.HclhInv

/-! # Hierarchical CLH lock: what each thread knows -/

namespace Verif.Spin.Hclh

variable {N T K : Type} [DecidableEq N] [DecidableEq T] [DecidableEq K]

attribute [local grind =] PC.jn PC.held PC.pr PC.rd PC.ex PC.pre1 PC.pre2 PC.pre5

@[local grind →] theorem ex_jn {q : PC N} (h : q.ex = true) : q.jn = true := by
  cases q <;> first | rfl | cases h

@[local grind →] theorem rd_jn {q : PC N} (h : q.rd = true) : q.jn = true := by
  cases q <;> first | rfl | cases h

structure Loc (c : Cfg T K) (s : St N T K) : Prop where
  lk : ∀ t, s.pc t ≠ .idle → s.cq t = c.cl t
  wp : ∀ t, (s.pc t).pre1 = true → s.wait (s.node t) = true
  sp : ∀ t, (s.pc t).pre2 = true → s.splice (s.node t) = false
  pf : ∀ t, s.pc t = .fas → s.prev (s.node t) ≠ none
  jp : ∀ t p, (s.pc t).pr = some p → p = s.pp t
  pvp : ∀ t, (s.pc t).jn = true → (∀ p, s.pc t ≠ .s0 p) → s.prev (s.node t) = some (s.pp t)
  up : ∀ t p, s.pc t = .u1 p → p = s.pp t
  mid : ∀ t p, (s.pc t).pr = some p → t ∈ s.Q → s.mst t = false
  mm0 : ∀ t, s.pc t = .m0 → t ∈ s.L (s.cq t) ∧ s.tl (s.pp t) = true
  mm1 : ∀ t l, s.pc t = .m1 l → t ∈ s.L (s.cq t) ∧ s.tl (s.pp t) = true ∧
    ∃ u, u ∈ s.L (s.cq t) ∧ s.node u = l
  m2a : ∀ t l g, s.pc t = .m2 l g → t ∈ s.Q ∧ s.mst t = true ∧ s.gp t = g
  m3a : ∀ t g, s.pc t = .m3 g → t ∈ s.Q ∧ s.mst t = true ∧ s.gp t = g
  hd : ∀ t, (s.pc t).held = true → ∃ l, s.Q = t :: l
  rdn : ∀ t, (s.pc t).rd = true → s.prev (s.pp t) ≠ none
  exi : ∀ t, (s.pc t).ex = true →
    (s.tl (s.pp t) = true ∧ s.splice (s.pp t) = true ∧ t ∈ s.L (s.cq t)) ∨
    (s.tl (s.pp t) = false ∧ s.splice (s.pp t) = false ∧ ∃ l, s.Q = t :: l)
  sp2 : ∀ t, (s.pc t).jn = true → s.tl (s.node t) = true →
    s.splice (s.node t) = true ∨ ∃ M g, s.pc M = .m2 (s.node t) g
  m2i : ∀ M l g, s.pc M = .m2 l g → s.tl l = true ∧
    ∃ a b u, s.Q = a ++ M :: b ∧ u ∈ M :: b ∧ s.node u = l

structure Hm (c : Cfg T K) (s : St N T K) : Prop where
  hB : ∀ k, s.home (s.B k) = some k
  hN : ∀ t, s.home (s.node t) = none ∨ s.home (s.node t) = some (c.cl t)
  hJ : ∀ t, (s.pc t).jn = true ∨ (s.pc t).pre5 = true → s.home (s.node t) = some (c.cl t)
  hc : ∀ n k, s.home n = some k → s.cid n = c.id k
  h3 : ∀ t l, s.pc t = .w3 l → s.home l = some (c.cl t)
  h4 : ∀ t v, s.pc t = .w4 v → v = c.id (c.cl t)

structure Lg (s : St N T K) : Prop where
  arr : ∀ k, s.arr k = s.out k ++ s.C k
  ent1 : ∀ t, (s.pc t).held = true → s.ent (s.cq t) = s.out (s.cq t) ++ [t]
  ent0 : ∀ k, (∀ t, (s.pc t).held = true → s.cq t ≠ k) → s.ent k = s.out k

structure Inv (c : Cfg T K) (s : St N T K) : Prop where
  core : Core s
  loc : Loc c s
  hm : Hm c s
  lg : Lg s

theorem Loc.cqJ {c : Cfg T K} {s : St N T K} (h : Loc c s) {t : T} (ht : (s.pc t).jn = true) :
    s.cq t = c.cl t := h.lk t (fun e => by rw [e] at ht; cases ht)

theorem Inv.home_pp {c : Cfg T K} {s : St N T K} (h : Inv c s) {t : T} (ht : (s.pc t).jn = true) :
    s.home (s.pp t) = some (c.cl t) := by
  have e := h.loc.cqJ ht
  rcases h.core.pred ht with ⟨-, h1⟩ | ⟨u, h1, h2, h3⟩
  · rw [h1, h.hm.hB, e]
  · rw [h3, h.hm.hJ u (.inl h1), ← h.loc.cqJ h1, h2, e]

theorem Inv.home_lq {c : Cfg T K} {s : St N T K} (h : Inv c s) (k : K) :
    s.home (s.lq k) = some k := by
  rw [h.core.lqe]
  rcases lastN_mem (nd := s.node) (b := s.B k) (l := s.C k) with ⟨-, e⟩ | ⟨u, hu, e⟩
  · rw [e, h.hm.hB]
  · have := h.core.memC hu
    rw [e, h.hm.hJ u (.inl this.1), ← h.loc.cqJ this.1, this.2]

theorem Inv.cid_eq {c : Cfg T K} {s : St N T K} (h : Inv c s) {t : T} (ht : (s.pc t).jn = true) :
    s.cid (s.pp t) = s.cid (s.node t) := by
  rw [h.hm.hc _ _ (h.home_pp ht), h.hm.hc _ _ (h.hm.hJ t (.inl ht))]

/-- What the loads of lines 97-105 find. -/
theorem Inv.see_prev {c : Cfg T K} {s : St N T K} (h : Inv c s) {t : T} {p : N}
    (hp : (s.pc t).pr = some p) (hj : (s.pc t).jn = true) (hn : s.prev (s.pp t) = none) :
    t ∈ s.L (s.cq t) ∧ s.tl (s.pp t) = true := by
  obtain ⟨-, hB⟩ := h.core.first_prev hj hn
  have htl : s.tl (s.pp t) = true := by rw [hB] at hn ⊢; exact h.core.bp _ hn
  refine ⟨?_, htl⟩
  rcases h.core.jm t hj with h1 | h1
  · have e1 := h.loc.mid t p hp h1
    rw [h.core.mstt t h1, htl] at e1; cases e1
  · exact h1

theorem Inv.see_splice {c : Cfg T K} {s : St N T K} (h : Inv c s) {t : T} {p : N}
    (hp : (s.pc t).pr = some p) (hj : (s.pc t).jn = true) (hn : s.splice (s.pp t) = true) :
    s.tl (s.pp t) = true ∧ s.splice (s.pp t) = true ∧ t ∈ s.L (s.cq t) := by
  have htl := h.core.pp_inj hj hn
  refine ⟨htl, hn, ?_⟩
  rcases h.core.jm t hj with h1 | h1
  · have e1 := h.loc.mid t p hp h1
    rw [h.core.mstt t h1, htl] at e1; cases e1
  · exact h1

theorem Inv.see_wait {c : Cfg T K} {s : St N T K} (h : Inv c s) {t : T} {p : N}
    (hp : (s.pc t).pr = some p) (hj : (s.pc t).jn = true) (hr : s.prev (s.pp t) ≠ none)
    (hn : s.wait (s.pp t) = false) :
    (s.tl (s.pp t) = true ∧ s.splice (s.pp t) = true ∧ t ∈ s.L (s.cq t)) ∨
    (s.tl (s.pp t) = false ∧ s.splice (s.pp t) = false ∧ ∃ l, s.Q = t :: l) := by
  obtain ⟨⟨l', hl'⟩, hB⟩ := h.core.first hj hn
  rcases h.core.jm t hj with h1 | h1
  · right
    have e1 := h.loc.mid t p hp h1
    have e2 := e1
    rw [h.core.mstt t h1] at e2
    refine ⟨e2, ?_, ?_⟩
    · by_contra hc
      simp only [Bool.not_eq_false] at hc
      rw [h.core.pp_inj hj hc] at e2; cases e2
    · rcases qch_mem h.core.qch h1 with ⟨h3, -⟩ | ⟨u, hu, h4⟩
      · exact h3
      · rw [e1] at h4
        simp only [Bool.false_eq_true, if_false] at h4
        rw [h4, h.core.wt u (h.core.jQ u hu)] at hn; cases hn
  · left
    have hf : s.Q.filter (fun u => s.cq u = s.cq t) = [] := by
      cases hf : s.Q.filter (fun u => s.cq u = s.cq t) with
      | nil => rfl
      | cons x r =>
        unfold St.C at hl'
        rw [hf] at hl'
        simp at hl'
        have hx : x ∈ s.Q.filter (fun u => s.cq u = s.cq t) := by rw [hf]; simp
        have := h.core.dis x (s.cq t) (List.mem_filter.1 hx).1
        rw [hl'.1] at this
        exact absurd h1 this
    have htl : s.tl (s.pp t) = true := by
      have := h.core.lastl (s.cq t)
      rw [hf] at this
      rw [hB]; exact this
    refine ⟨htl, ?_, h1⟩
    rw [hB] at htl hr ⊢
    exact (h.core.bs2 _ htl).resolve_right hr

theorem jn_same {pc : T → PC N} {t : T} {q : PC N} (h : q.jn = (pc t).jn) (u : T) :
    (upd pc t q u).jn = (pc u).jn := by
  simp only [upd]; split
  · next e => subst e; exact h
  · rfl

theorem held_same {pc : T → PC N} {t : T} {q : PC N} (h : q.held = (pc t).held) (u : T) :
    (upd pc t q u).held = (pc u).held := by
  simp only [upd]; split
  · next e => subst e; exact h
  · rfl

theorem Lg.same {s s' : St N T K} (h : Lg s) (e1 : s'.arr = s.arr) (e2 : s'.ent = s.ent)
    (e3 : s'.out = s.out) (e4 : ∀ k, s'.C k = s.C k)
    (e5 : ∀ t, (s.pc t).held = true → s'.cq t = s.cq t)
    (e6 : ∀ t, (s'.pc t).held = (s.pc t).held) : Lg s' := by
  constructor
  · intro k; rw [e1, e3, e4]; exact h.arr k
  · intro t ht; rw [e6] at ht; rw [e2, e3, e5 t ht]; exact h.ent1 t ht
  · intro k hk; rw [e2, e3]
    exact h.ent0 k fun t ht => by have := hk t (by rw [e6]; exact ht); rwa [e5 t ht] at this

/-! ## Steps that only move the program counter, or write the thread's own node -/

set_option hygiene false in
local macro "locs" : tactic => `(tactic| (
  obtain ⟨h1, h2, h3, h4, h5, h6, h7, h8, h9, h10, h11, h12, h13, h14, h15, h16, h17⟩ := h.loc
  constructor <;> dsimp only
  · keep hp h1 f1 f2 f3; grind
  · keep hp h2 f1 f2 f3; grind
  · keep hp h3 f1 f2 f3; grind
  · keep hp h4 f1 f2 f3; grind
  · keep hp h5 f1 f2 f3; grind
  · keep hp h6 h5 f1 f2 f3; grind
  · keep hp h7 h6 f1 f2 f3; grind
  · keep hp h8 f1 f2 f3; grind
  · keep hp h9 f1 f2 f3; grind
  · keep hp h10 h9 f1 f2 f3; grind
  · keep hp h11 f1 f2 f3; grind
  · keep hp h12 h11 f1 f2 f3; grind
  · keep hp h13 f1 f2 f3; grind
  · keep hp h14 f1 f2 f3; grind
  · keep hp h15 f1 f2 f3; grind
  · intro u hu htu
    have hu' : (s.pc u).jn = true := by keep hp hu f3; grind
    rcases h16 u hu' htu with y | ⟨M, g, y⟩
    · left; keep hp hu' y f1 f2 f3; grind
    · right
      refine ⟨M, g, ?_⟩
      rw [upd_ne]; exact y
      rintro rfl; keep hp y; grind
  · keep hp h17 f1 f2 f3; grind))

set_option hygiene false in
local macro "hms" : tactic => `(tactic| (
  obtain ⟨h1, h2, h3, h4, h5, h6⟩ := h.hm
  constructor <;> dsimp only
  · keep hp h1 f1 f2 f3; grind
  · keep hp h2 f1 f2 f3; grind
  · keep hp h3 f1 f2 f3; grind
  · keep hp h4 f1 f2 f3; grind
  · keep hp h5 f1 f2 f3; grind
  · keep hp h6 f1 f2 f3; grind))

theorem inv_lock {c : Cfg T K} (hc : c.mig = false) {s s' : St N T K} {t : T} {k : K}
    (h : Inv c s) (hs : step c s (.lock t k) = some s') : Inv c s' := by
  simp only [step] at hs
  split at hs <;> [skip; cases hs]
  next hp =>
  simp only [hc, Bool.false_eq_true, false_or] at hp
  simp only [Option.some.injEq] at hs
  subst hs
  obtain ⟨hp, rfl⟩ := hp
  have hj : (s.pc t).jn = false := by rw [hp]; rfl
  have hcq : ∀ u, (s.pc u).jn = true → upd s.cq t (c.cl t) u = s.cq u := by
    intro u hu
    refine upd_ne _ _ ?_
    rintro rfl; rw [hj] at hu; cases hu
  have hjn := jn_same (pc := s.pc) (t := t) (q := (.w0 : PC N)) (by rw [hp]; rfl)
  have hheld := held_same (pc := s.pc) (t := t) (q := (.w0 : PC N)) (by rw [hp]; rfl)
  have hC : ∀ k, St.C { s with pc := upd s.pc t .w0, cq := upd s.cq t (c.cl t) } k = s.C k := by
    intro k
    simp only [St.C]
    congr 1
    apply List.filter_congr
    intro u hu
    simp only [hcq u (h.core.jQ u hu)]
  have f1 := True.intro
  have f2 := True.intro
  have f3 := True.intro
  constructor
  · exact h.core.same rfl rfl rfl hcq rfl rfl rfl rfl rfl rfl rfl rfl hjn (fun _ _ => ⟨rfl, rfl, .rfl⟩)
  · locs
  · hms
  · exact h.lg.same rfl rfl rfl hC (fun u hu => hcq u (by
      cases hpc : s.pc u <;> rw [hpc] at hu <;> first | rfl | cases hu)) hheld

set_option hygiene false in
/-- A step that leaves the queues alone: `q` is the new program counter. -/
local macro "plain" q:term : tactic => `(tactic| (
  have hjn := jn_same (pc := s.pc) (t := t) (q := $q) (by rw [hp]; rfl)
  have hheld := held_same (pc := s.pc) (t := t) (q := $q) (by rw [hp]; rfl)
  constructor
  · refine h.core.same rfl rfl rfl (fun _ _ => rfl) rfl rfl rfl rfl rfl rfl rfl rfl hjn ?_
    intro m hm
    dsimp only
    first
    | exact ⟨rfl, rfl, .rfl⟩
    | (have := hm t (by rw [hp]; rfl)
       simp only [upd, Ne.symm this, if_false, and_self, iff_self])
  · locs
  · hms
  · exact h.lg.same rfl rfl rfl (fun _ => rfl) (fun _ _ => rfl) hheld))

theorem inv_unlock {c : Cfg T K} {s s' : St N T K} {t : T}
    (h : Inv c s) (hs : step c s (.unlock t) = some s') : Inv c s' := by
  simp only [step] at hs
  split at hs <;> [skip; cases hs]
  next hp =>
  have f1 := h.loc.pvp t (by rw [hp]; rfl) (by rw [hp]; intro p e; cases e)
  rw [f1] at hs
  simp only [Option.some.injEq] at hs
  subst hs
  have f2 := True.intro
  have f3 := True.intro
  plain (.u1 (s.pp t))

theorem inv_w {c : Cfg T K} {s s' : St N T K} {t : T} (h : Inv c s)
    (hw : (s.pc t).jn = false) (hf : s.pc t ≠ .fas)
    (hs : step c s (.run t) = some s') : Inv c s' := by
  have f1 : ∀ u, (s.pc u).jn = true → s.pp u ≠ s.node t := fun u hu => h.core.pp_ne hu hw
  have f2 := h.core.inj
  simp only [step] at hs
  split at hs
  case h_1 hp =>
    simp only [Option.some.injEq] at hs; subst hs
    have f3 := True.intro
    plain (.w1)
  case h_2 hp =>
    simp only [Option.some.injEq] at hs; subst hs
    have f3 := True.intro
    plain (.w2)
  case h_3 hp =>
    simp only [Option.some.injEq] at hs; subst hs
    have f3 := And.intro (h.home_lq (s.cq t)) (h.loc.lk t (by rw [hp]; intro e; cases e))
    plain (.w3 (s.lq (s.cq t)))
  case h_4 l hp =>
    simp only [Option.some.injEq] at hs; subst hs
    have f3 := h.hm.hc _ _ (h.hm.h3 t l hp)
    plain (.w4 (s.cid l))
  case h_5 v hp =>
    simp only [Option.some.injEq] at hs; subst hs
    have f3 := And.intro (h.core.nB t) (And.intro (h.hm.h4 t v hp) (And.intro (h.hm.hN t) (h.loc.lk t (by rw [hp]; intro e; cases e))))
    plain (.w5)
  case h_6 hp =>
    simp only [Option.some.injEq] at hs; subst hs
    have f3 := True.intro
    plain (.w6 (s.lq (s.cq t)))
  case h_7 l hp =>
    simp only [Option.some.injEq] at hs; subst hs
    have f3 := True.intro
    plain (.fas)
  all_goals first | (exact absurd ‹s.pc t = PC.fas› hf) | (exfalso; rw [‹s.pc t = _›] at hw; cases hw; done) | cases hs

theorem inv_s0 {c : Cfg T K} {s s' : St N T K} {t : T} {p : N} (h : Inv c s)
    (hp : s.pc t = .s0 p)
    (hs : step c s (.run t) = some s') : Inv c s' := by
  simp only [step, hp, Option.some.injEq] at hs; subst hs
  have hjt : (s.pc t).jn = true := by rw [hp]; rfl
  have f1 := h.loc.jp t p (by rw [hp]; rfl)
  have f2 := h.core.inj
  have f3 := True.intro
  have hjn := jn_same (pc := s.pc) (t := t) (q := .r0 p) (by rw [hp]; rfl)
  have hheld := held_same (pc := s.pc) (t := t) (q := .r0 p) (by rw [hp]; rfl)
  constructor
  · refine h.core.same rfl rfl rfl (fun _ _ => rfl) rfl rfl rfl rfl rfl rfl rfl rfl hjn ?_
    intro m hm
    refine ⟨rfl, rfl, ?_⟩
    dsimp only
    simp only [upd]
    split
    · next e => subst e; simp [h.core.pv t hjt]
    · rfl
  · locs
  · hms
  · exact h.lg.same rfl rfl rfl (fun _ => rfl) (fun _ _ => rfl) hheld

theorem inv_r {c : Cfg T K} {s s' : St N T K} {t : T} {p : N} (h : Inv c s)
    (hr : (s.pc t).pr = some p) (hn0 : s.pc t ≠ .s0 p) (hn2 : s.pc t ≠ .e2 p)
    (hs : step c s (.run t) = some s') : Inv c s' := by
  have hpp := h.loc.jp t p hr
  have hjt : (s.pc t).jn = true := by
    cases hpc : s.pc t <;> rw [hpc] at hr <;> first | rfl | cases hr
  have hpr := h.see_prev hr hjt
  have hsw := h.see_wait hr hjt
  have hss := h.see_splice hr hjt
  have hcid := h.cid_eq hjt
  have hrd := h.loc.rdn t
  subst hpp
  simp only [step] at hs
  split at hs
  case h_10 q hp =>
    rw [hp] at hr; cases hr
    split at hs
    · next he =>
      simp only [Option.some.injEq] at hs; subst hs
      have f1 := hpr he; have f2 := True.intro; have f3 := True.intro
      plain (.m0)
    · next he =>
      simp only [Option.some.injEq] at hs; subst hs
      have f1 := he; have f2 := True.intro; have f3 := True.intro
      plain (.r1 (s.pp t))
  case h_11 q hp =>
    rw [hp] at hr; cases hr
    rw [hp] at hrd
    split at hs
    · next he =>
      simp only [Option.some.injEq] at hs; subst hs
      have f1 := True.intro; have f2 := True.intro; have f3 := True.intro
      plain (.r2 (s.pp t))
    · next he =>
      simp only [Option.some.injEq] at hs; subst hs
      have f1 := hsw (hrd rfl) (by simpa using he); have f2 := True.intro; have f3 := True.intro
      plain (.e1 (s.pp t))
  case h_12 q hp =>
    rw [hp] at hr; cases hr
    split at hs
    · next he =>
      simp only [Option.some.injEq] at hs; subst hs
      have f1 := True.intro; have f2 := True.intro; have f3 := True.intro
      plain (.r3 (s.pp t))
    · next he => exact absurd hcid he
  case h_13 q hp =>
    rw [hp] at hr; cases hr
    split at hs
    · next he =>
      simp only [Option.some.injEq] at hs; subst hs
      have f1 := True.intro; have f2 := True.intro; have f3 := True.intro
      plain (.r1 (s.pp t))
    · next he =>
      simp only [Option.some.injEq] at hs; subst hs
      have f1 := hss (by simpa using he); have f2 := True.intro; have f3 := True.intro
      plain (.e1 (s.pp t))
  case h_14 q hp =>
    rw [hp] at hr; cases hr
    split at hs
    · next he =>
      simp only [Option.some.injEq] at hs; subst hs
      have f1 := True.intro; have f2 := True.intro; have f3 := True.intro
      plain (.e2 (s.pp t))
    · next he => exact absurd hcid he
  all_goals first
    | (exfalso; rw [‹s.pc t = _›] at hr; cases hr; done)
    | (exfalso; have hq := ‹s.pc t = _›; rw [hq] at hr; cases hr; first | exact hn0 hq | exact hn2 hq)

/-- Entering the critical section as the head of the global queue. -/
theorem inv_enter {c : Cfg T K} {s : St N T K} {t : T} (h : Inv c s)
    (hj : (s.pc t).jn = true) (hh : (s.pc t).held = false) (hm2 : ∀ l g, s.pc t ≠ .m2 l g)
    (hs0 : ∀ p, s.pc t ≠ .s0 p)
    (hq : ∃ l, s.Q = t :: l) : Inv c (enter s t) := by
  have hno : ∀ u, (s.pc u).held = true → False := by
    intro u hu
    obtain ⟨l, hl⟩ := hq
    obtain ⟨l', hl'⟩ := h.loc.hd u hu
    rw [hl] at hl'
    simp at hl'
    rw [← hl'.1, hh] at hu; cases hu
  have hjn := jn_same (pc := s.pc) (t := t) (q := .cs) (by rw [hj]; rfl)
  constructor
  · exact h.core.same rfl rfl rfl (fun _ _ => rfl) rfl rfl rfl rfl rfl rfl rfl rfl hjn
      (fun _ _ => ⟨rfl, rfl, .rfl⟩)
  · have hp := hm2
    have f1 := hq
    have f2 := h.loc.pvp t hj hs0
    have f3 := hj
    show Loc c { s with pc := upd s.pc t .cs, ent := _ }
    locs
  · have hp := hj
    have f1 := True.intro; have f2 := True.intro; have f3 := True.intro
    show Hm c { s with pc := upd s.pc t .cs, ent := _ }
    hms
  · have h0 := h.lg.ent0 (s.cq t) (fun u hu => (hno u hu).elim)
    constructor
    · exact h.lg.arr
    · intro u hu
      have hut : u = t := by
        by_contra hne
        rw [show (enter s t).pc u = s.pc u from upd_ne _ _ hne] at hu
        exact hno u hu
      subst hut
      show upd s.ent (s.cq u) (s.ent (s.cq u) ++ [u]) (s.cq u) = s.out (s.cq u) ++ [u]
      rw [upd_same, h0]
    · intro k hk
      have : k ≠ s.cq t := fun e => hk t (by simp [enter, PC.held]) e.symm
      show upd s.ent (s.cq t) (s.ent (s.cq t) ++ [t]) k = s.out k
      rw [upd_ne _ _ this]
      exact h.lg.ent0 k (fun u hu => (hno u hu).elim)

theorem inv_e2 {c : Cfg T K} {s s' : St N T K} {t : T} {p : N} (h : Inv c s)
    (hp : s.pc t = .e2 p)
    (hs : step c s (.run t) = some s') : Inv c s' := by
  have hpp := h.loc.jp t p (by rw [hp]; rfl)
  have hex := h.loc.exi t (by rw [hp]; rfl)
  subst hpp
  simp only [step, hp] at hs
  split at hs <;> (simp only [Option.some.injEq] at hs; subst hs)
  · next he =>
    refine inv_enter h (by rw [hp]; rfl) (by rw [hp]; rfl) (by rw [hp]; intro l g e; cases e)
      (by rw [hp]; intro l e; cases e) ?_
    rcases hex with ⟨-, h1, -⟩ | ⟨-, -, h1⟩
    · rw [he] at h1; cases h1
    · exact h1
  · next he =>
    have f1 : s.tl (s.pp t) = true ∧ s.splice (s.pp t) = true ∧ t ∈ s.L (s.cq t) := by
      rcases hex with h1 | ⟨-, h1, -⟩
      · exact h1
      · exact absurd h1 he
    have f2 := True.intro; have f3 := True.intro
    plain (.m0)

theorem inv_m0 {c : Cfg T K} {s s' : St N T K} {t : T} (h : Inv c s)
    (hp : s.pc t = .m0)
    (hs : step c s (.run t) = some s') : Inv c s' := by
  simp only [step, hp, Option.some.injEq] at hs; subst hs
  have f1 : ∃ u, u ∈ s.L (s.cq t) ∧ s.node u = s.lq (s.cq t) := by
    have h1 := (h.loc.mm0 t hp).1
    rw [h.core.lqe (s.cq t), St.C, lastN_append]
    rcases lastN_mem (nd := s.node)
      (b := lastN s.node (s.B (s.cq t)) (s.Q.filter (fun u => s.cq u = s.cq t)))
      (l := s.L (s.cq t)) with ⟨e, -⟩ | ⟨u, hu, e⟩
    · rw [e] at h1; cases h1
    · exact ⟨u, hu, e.symm⟩
  have f2 := True.intro; have f3 := True.intro
  plain (.m1 (s.lq (s.cq t)))

theorem inv_m3 {c : Cfg T K} {s s' : St N T K} {t : T} {g : N} (h : Inv c s)
    (hp : s.pc t = .m3 g)
    (hs : step c s (.run t) = some s') : Inv c s' := by
  simp only [step, hp] at hs
  split at hs <;> (simp only [Option.some.injEq] at hs; subst hs)
  · exact h
  · next he =>
    refine inv_enter h (by rw [hp]; rfl) (by rw [hp]; rfl) (by rw [hp]; intro l g e; cases e)
      (by rw [hp]; intro l e; cases e) ?_
    obtain ⟨h1, h2, h3⟩ := h.loc.m3a t g hp
    rcases qch_mem h.core.qch h1 with ⟨h4, -⟩ | ⟨u, hu, h4⟩
    · exact h4
    · rw [h2] at h4
      simp only [if_true] at h4
      rw [h3] at h4
      rw [h4, h.core.wt u (h.core.jQ u hu)] at he
      exact absurd rfl he

/-! ## The queue steps -/

theorem inv_fas {c : Cfg T K} {s s' : St N T K} {t : T} (h : Inv c s)
    (hp : s.pc t = .fas)
    (hs : step c s (.run t) = some s') : Inv c s' := by
  have hcore := core_fas h.core hp (h.loc.wp t (by rw [hp]; rfl)) (h.loc.sp t (by rw [hp]; rfl))
    (h.loc.pf t hp) hs
  have hj : (s.pc t).jn = false := by rw [hp]; rfl
  have htQ : t ∉ s.Q := fun hm => by have := h.core.jQ t hm; rw [hj] at this; cases this
  have hspl := h.loc.sp t (by rw [hp]; rfl)
  simp only [step, hp, Option.some.injEq] at hs; subst hs
  have hheld := held_same (pc := s.pc) (t := t) (q := .s0 (s.lq (s.cq t))) (by rw [hp]; rfl)
  have hne : ∀ u, (s.pc u).jn = true → s.pp u ≠ s.node t := fun u hu => h.core.pp_ne hu hj
  have f1 := And.intro hne htQ
  have f2 := h.core.inj
  have f3 := hspl
  refine ⟨hcore, ?_, ?_, ?_⟩
  · obtain ⟨h1, h2, h3, h4, h5, h6, h7, h8, h9, h10, h11, h12, h13, h14, h15, h16, h17⟩ := h.loc
    constructor <;> dsimp only
    · keep hp h1; grind
    · keep hp h2; grind
    · keep hp h3; grind
    · keep hp h4; grind
    · keep hp h5; grind
    · keep hp h6; grind
    · keep hp h7; grind
    · keep hp h8 f1; grind
    · keep hp h9 f1; grind
    · keep hp h10 f1; grind
    · keep hp h11; grind
    · keep hp h12; grind
    · keep hp h13; grind
    · keep hp h14; grind
    · keep hp h15 f1; grind
    · intro u hu htu
      have hut : u ≠ t := by
        rintro rfl; simp at htu
      rw [upd_ne _ _ hut] at hu
      rw [upd_ne _ _ (fun e => hut (f2 _ _ e))] at htu
      rcases h16 u hu htu with y | ⟨M, g, y⟩
      · exact .inl y
      · refine .inr ⟨M, g, ?_⟩
        rw [upd_ne]; exact y
        rintro rfl; rw [hp] at y; cases y
    · intro M l g hM
      have hMt : M ≠ t := by rintro rfl; simp at hM
      rw [upd_ne _ _ hMt] at hM
      obtain ⟨g1, a, b, u, g2, g3, g4⟩ := h17 M l g hM
      refine ⟨?_, a, b, u, g2, g3, g4⟩
      rw [upd_ne]; exact g1
      intro e
      have := f2 u t (by rw [g4, e])
      subst this
      exact htQ (by rw [g2]; exact List.mem_append.2 (.inr g3))
  · hms
  · constructor
    · intro k
      dsimp only
      have := h.lg.arr k
      simp only [St.C] at this ⊢
      simp only [upd]
      split
      · next e => subst e; rw [this]; simp
      · exact this
    · intro u hu; dsimp only at hu ⊢; rw [hheld] at hu; exact h.lg.ent1 u hu
    · intro k hk; dsimp only at hk ⊢
      exact h.lg.ent0 k fun u hu => hk u (by rw [hheld]; exact hu)

theorem inv_m1 {c : Cfg T K} {s s' : St N T K} {t : T} {l : N} (h : Inv c s)
    (hp : s.pc t = .m1 l)
    (hs : step c s (.run t) = some s') : Inv c s' := by
  obtain ⟨htL, htl, hex⟩ := h.loc.mm1 t l hp
  obtain ⟨hcore, a, v, b, hL, hv, hvl, hQ', hL', hmst⟩ := core_m1 h.core hp htL htl hex hs
  have htQ : ∀ u, u ∈ t :: a → u ∉ s.Q := fun u hu hq => h.core.dis u (s.cq t) hq (by
    rw [hL]; exact List.mem_append.2 (.inl hu))
  have hvQ := htQ v hv
  have hpQ : ∀ u, u ∈ s.Q → s.pp u ≠ l := by
    intro u hu e
    rcases h.core.predQ hu with e1 | ⟨w, hw, e1⟩
    · exact h.core.nB v _ (by rw [hvl, ← e, e1])
    · have := h.core.inj w v (by rw [← e1, e, hvl])
      subst this
      exact hvQ hw
  -- the others of the batch have not left the loop
  have hmem : ∀ u, u ∈ s.L (s.cq t) → s.tl (s.pp u) = true → u = t := by
    intro u hu hut
    obtain ⟨r, hr⟩ := h.core.headL hu hut
    rw [hL] at hr; simp at hr; exact hr.1.symm
  have hcqL := fun u k hu => (h.core.jL u k hu).2
  have hcqB : ∀ u, u ∈ t :: a → s.cq u = s.cq t := fun u hu =>
    hcqL u (s.cq t) (by rw [hL]; exact List.mem_append.2 (.inl hu))
  have e1 : s'.pc = upd s.pc t (.m2 l s.gq) := by
    simp only [step, hp, Option.some.injEq] at hs; rw [← hs]
  have e2 : s'.tl = upd s.tl l true := by
    simp only [step, hp, Option.some.injEq] at hs; rw [← hs]
  have e3 : s'.gp = upd s.gp t s.gq := by
    simp only [step, hp, Option.some.injEq] at hs; rw [← hs]
  have e4 : s'.wait = s.wait ∧ s'.splice = s.splice ∧ s'.prev = s.prev ∧ s'.cid = s.cid ∧
      s'.node = s.node ∧ s'.pp = s.pp ∧ s'.cq = s.cq ∧ s'.home = s.home ∧ s'.B = s.B := by
    simp only [step, hp, Option.some.injEq] at hs; rw [← hs]; simp
  have e5 : s'.arr = s.arr ∧ s'.ent = s.ent ∧ s'.out = s.out := by
    simp only [step, hp, Option.some.injEq] at hs; rw [← hs]; simp
  obtain ⟨x1, x2, x3, x4, x5, x6, x7, x8, x9⟩ := e4
  have hheld := held_same (pc := s.pc) (t := t) (q := .m2 l s.gq) (by rw [hp]; rfl)
  refine ⟨hcore, ?_, ?_, ?_⟩
  · obtain ⟨h1, h2, h3, h4, h5, h6, h7, h8, h9, h10, h11, h12, h13, h14, h15, h16, h17⟩ := h.loc
    have hjQ := h.core.jQ
    have hdis := h.core.dis
    have hinj := h.core.inj
    -- an unspliced thread of another cluster stays where it is
    have hother : ∀ u, u ∈ s.L (s.cq u) → s.tl (s.pp u) = true → u ≠ t →
        s'.L (s.cq u) = s.L (s.cq u) := by
      intro u hu hut hne
      rw [hL', upd_ne]
      intro e
      rw [e] at hu
      exact hne (hmem u hu hut)
    constructor <;> rw [e1]
    · rw [x7]; keep hp h1; grind
    · rw [x1, x5]; keep hp h2; grind
    · rw [x2, x5]; keep hp h3; grind
    · rw [x3, x5]; keep hp h4; grind
    · rw [x6]; keep hp h5; grind
    · rw [x3, x5, x6]; keep hp h6; grind
    · rw [x6]; keep hp h7; grind
    · rw [hmst, hQ']; keep hp h8; grind
    · rw [e2, x6, x7]; intro u hu
      have hut : u ≠ t := by rintro rfl; simp at hu
      rw [upd_ne _ _ hut] at hu
      have := h9 u hu
      rw [hother u this.1 this.2 hut]
      refine ⟨this.1, ?_⟩
      simp only [upd]; split
      · rfl
      · exact this.2
    · rw [e2, x6, x7, x5]; intro u l' hu
      have hut : u ≠ t := by rintro rfl; simp at hu
      rw [upd_ne _ _ hut] at hu
      have := h10 u l' hu
      rw [hother u this.1 this.2.1 hut]
      refine ⟨this.1, ?_, this.2.2⟩
      simp only [upd]; split
      · rfl
      · exact this.2.1
    · rw [hmst, hQ', e3]; keep hp h11 htQ; grind
    · rw [hmst, hQ', e3]; keep hp h12 htQ; grind
    · rw [hQ']; intro u hu
      rw [hheld] at hu
      obtain ⟨r, hr⟩ := h13 u hu
      exact ⟨r ++ t :: a, by rw [hr]; rfl⟩
    · rw [x3, x6]; keep hp h14; grind
    · rw [e2, x2, x6, x7]
      intro u hu
      have hut : u ≠ t := by rintro rfl; simp [PC.ex] at hu
      rw [upd_ne _ _ hut] at hu
      rcases h15 u hu with ⟨y1, y2, y3⟩ | ⟨y1, y2, r, y3⟩
      · left
        rw [hother u y3 y1 hut]
        refine ⟨?_, y2, y3⟩
        simp only [upd]; split
        · rfl
        · exact y1
      · right
        refine ⟨?_, y2, r ++ t :: a, by rw [hQ', y3]; rfl⟩
        rw [upd_ne _ _ (hpQ u (by rw [y3]; simp))]; exact y1
    · rw [e2, x2, x5]
      intro u hu htu
      rw [jn_same (pc := s.pc) (t := t) (q := .m2 l s.gq) (by rw [hp]; rfl)] at hu
      by_cases hul : s.node u = l
      · rw [hul]; exact .inr ⟨t, s.gq, by simp⟩
      · rw [upd_ne _ _ hul] at htu
        rcases h16 u hu htu with y | ⟨M, g, y⟩
        · exact .inl y
        · refine .inr ⟨M, g, ?_⟩
          rw [upd_ne]; exact y
          rintro rfl; rw [hp] at y; cases y
    · rw [e2, hQ', x5]
      intro M l' g hM
      by_cases hMt : M = t
      · subst hMt
        simp at hM
        obtain ⟨rfl, rfl⟩ := hM
        exact ⟨by simp, s.Q, a, v, rfl, hv, hvl⟩
      · rw [upd_ne _ _ hMt] at hM
        obtain ⟨y1, a', b', u, y2, y3, y4⟩ := h17 M l' g hM
        refine ⟨?_, a', b' ++ t :: a, u, by rw [y2]; simp, ?_, y4⟩
        · simp only [upd]; split
          · rfl
          · exact y1
        · rw [← List.cons_append]; exact List.mem_append.2 (.inl y3)
  · obtain ⟨h1, h2, h3, h4, h5, h6⟩ := h.hm
    constructor
    · rw [x8, x9]; exact h1
    · rw [x8, x5]; exact h2
    · rw [e1, x8, x5]; keep hp h3; grind
    · rw [x8, x4]; exact h4
    · rw [e1, x8]; keep hp h5; grind
    · rw [e1]; keep hp h6; grind
  · refine h.lg.same e5.1 e5.2.1 e5.2.2 ?_ (fun u _ => by rw [x7]) (fun u => by rw [e1]; exact hheld u)
    intro k
    unfold St.C
    rw [hQ', hL', x7, List.filter_append]
    by_cases hk : k = s.cq t
    · subst hk
      rw [upd_same, hL, List.append_assoc]
      congr 2
      rw [List.filter_eq_self]
      intro u hu; simpa using hcqB u hu
    · rw [upd_ne _ _ hk]
      congr 1
      have : (t :: a).filter (fun u => s.cq u = k) = [] := by
        rw [List.filter_eq_nil_iff]
        intro u hu
        rw [hcqB u hu]; simpa using Ne.symm hk
      rw [this, List.append_nil]

theorem inv_m2 {c : Cfg T K} {s s' : St N T K} {t : T} {l g : N} (h : Inv c s)
    (hp : s.pc t = .m2 l g)
    (hs : step c s (.run t) = some s') : Inv c s' := by
  obtain ⟨htl, a, b, v, hQ, hv, hvl⟩ := h.loc.m2i t l g hp
  have hcore := core_m2 h.core hp htl hs
  simp only [step, hp, Option.some.injEq] at hs; subst hs
  have hheld := held_same (pc := s.pc) (t := t) (q := .m3 g) (by rw [hp]; rfl)
  have hvQ : v ∈ s.Q := by rw [hQ]; exact List.mem_append.2 (.inr hv)
  have f1 : (s.pc v).jn = true := h.core.jQ v hvQ
  have f2 := h.core.inj
  have f3 := And.intro hvl htl
  refine ⟨hcore, ?_, ?_, ?_⟩
  · obtain ⟨h1, h2, h3, h4, h5, h6, h7, h8, h9, h10, h11, h12, h13, h14, h15, h16, h17⟩ := h.loc
    constructor <;> dsimp only
    · keep hp h1; grind
    · keep hp h2; grind
    · intro u hu
      have hut : u ≠ t := by rintro rfl; simp [PC.pre2] at hu
      rw [upd_ne _ _ hut] at hu
      rw [upd_ne]; exact h3 u hu
      intro e
      have := f2 u v (by rw [e, hvl])
      subst this
      cases hpc : s.pc u <;> rw [hpc] at hu f1 <;> first | cases hu; done | cases f1
    · keep hp h4; grind
    · keep hp h5; grind
    · keep hp h6; grind
    · keep hp h7; grind
    · keep hp h8; grind
    · keep hp h9; grind
    · keep hp h10; grind
    · keep hp h11; grind
    · keep hp h12 h11; grind
    · keep hp h13; grind
    · keep hp h14; grind
    · keep hp h15 f3; grind
    · intro u hu htu
      rw [jn_same (pc := s.pc) (t := t) (q := .m3 g) (by rw [hp]; rfl)] at hu
      by_cases hul : s.node u = l
      · left; rw [hul, upd_same]
      · rw [upd_ne _ _ hul]
        rcases h16 u hu htu with y | ⟨M, g, y⟩
        · exact .inl y
        · refine .inr ⟨M, g, ?_⟩
          rw [upd_ne]; exact y
          rintro rfl; rw [hp] at y; cases y; exact hul rfl
    · keep hp h17; grind
  · hms
  · exact h.lg.same rfl rfl rfl (fun _ => rfl) (fun _ _ => rfl) hheld

theorem inv_u1 {c : Cfg T K} {s s' : St N T K} {t : T} {p : N} (h : Inv c s)
    (hp : s.pc t = .u1 p)
    (hs : step c s (.run t) = some s') : Inv c s' := by
  have hq := h.loc.hd t (by rw [hp]; rfl)
  have hjt : (s.pc t).jn = true := by rw [hp]; rfl
  -- a master that has not set `splice` yet is in front of its batch
  have hm2 : ∀ M g, s.pc M ≠ .m2 (s.node t) g := by
    intro M g hM
    obtain ⟨l, hl⟩ := hq
    obtain ⟨-, a, b, u, h1, h2, h3⟩ := h.loc.m2i M _ g hM
    have hut := h.core.inj u t h3
    subst hut
    have hnd := h.core.ndQ
    have hMu : M ≠ u := by rintro rfl; rw [hp] at hM; cases hM
    have hub : u ∈ b := (List.mem_cons.1 h2).resolve_left (Ne.symm hMu)
    cases a with
    | nil => rw [hl] at h1; simp at h1; exact hMu h1.1.symm
    | cons x a =>
      rw [hl] at h1
      simp at h1
      rw [hl, h1.2, List.nodup_cons] at hnd
      exact hnd.1 (by simp [hub])
  have hsp : s.tl (s.node t) = true → s.splice (s.node t) = true := fun hh =>
    (h.loc.sp2 t hjt hh).resolve_right (fun ⟨M, g, e⟩ => hm2 M g e)
  obtain ⟨hcore, hB⟩ := core_u1 h.core hp (h.loc.up t p hp) hq hsp hs
  simp only [step, hp, Option.some.injEq] at hs; subst hs
  obtain ⟨r, hr⟩ := hq
  have htail : s.Q.tail = r := by rw [hr]; rfl
  have hnr : t ∉ r := (List.nodup_cons.1 (hr ▸ h.core.ndQ)).1
  have hmr : ∀ u, u ∈ s.Q ↔ u = t ∨ u ∈ r := fun u => by rw [hr]; simp
  have hnL := fun k => h.core.dis t k (by rw [hr]; simp)
  have hone : ∀ u l, s.Q = u :: l → u = t := fun u l e => by rw [hr] at e; simp at e; exact e.1.symm
  have hheld1 : ∀ u, (s.pc u).held = true → u = t := fun u hu => by
    obtain ⟨l, hl⟩ := h.loc.hd u hu; exact hone u l hl
  have hinj := h.core.inj
  have hnB := h.core.nB
  have hcl := h.loc.cqJ hjt
  refine ⟨hcore, ?_, ?_, ?_⟩
  · obtain ⟨h1, h2, h3, h4, h5, h6, h7, h8, h9, h10, h11, h12, h13, h14, h15, h16, h17⟩ := h.loc
    constructor <;> dsimp only
    · keep hp h1; grind
    · keep hp h2 hinj; grind
    · keep hp h3; grind
    · keep hp h4; grind
    · keep hp h5; grind
    · keep hp h6; grind
    · keep hp h7; grind
    · rw [htail]; keep hp h8 hmr; grind
    · keep hp h9; grind
    · intro u l hu
      have hut : u ≠ t := by rintro rfl; simp at hu
      rw [upd_ne _ _ hut] at hu
      obtain ⟨y1, y2, v, y3, y4⟩ := h10 u l hu
      refine ⟨y1, y2, v, y3, ?_⟩
      rw [upd_ne]; exact y4
      rintro rfl; exact hnL _ y3
    · rw [htail]; keep hp h11 hmr; grind
    · rw [htail]; keep hp h12 hmr; grind
    · intro u hu
      have hut : u ≠ t := by rintro rfl; simp [PC.held] at hu
      rw [upd_ne _ _ hut] at hu
      exact absurd (hheld1 u hu) hut
    · keep hp h14; grind
    · intro u hu
      have hut : u ≠ t := by rintro rfl; simp [PC.ex] at hu
      rw [upd_ne _ _ hut] at hu
      rcases h15 u hu with y | ⟨-, -, l, y⟩
      · exact .inl y
      · exact absurd (hone u l y) hut
    · intro u hu htu
      have hut : u ≠ t := by rintro rfl; simp [PC.jn] at hu
      rw [upd_ne _ _ hut] at hu
      rw [upd_ne _ _ hut] at htu ⊢
      rcases h16 u hu htu with y | ⟨M, g, y⟩
      · exact .inl y
      · refine .inr ⟨M, g, ?_⟩
        rw [upd_ne]; exact y
        rintro rfl; rw [hp] at y; cases y
    · intro M l g hM
      have hut : M ≠ t := by rintro rfl; simp at hM
      rw [upd_ne _ _ hut] at hM
      obtain ⟨y1, a, b, u, y2, y3, y4⟩ := h17 M l g hM
      refine ⟨y1, ?_⟩
      cases a with
      | nil => exact absurd (hone M b y2) hut
      | cons x a =>
        refine ⟨a, b, u, by rw [y2]; rfl, y3, ?_⟩
        rw [upd_ne]; exact y4
        rintro rfl
        exact hm2 M g (by rw [hM, y4])
  · obtain ⟨h1, h2, h3, h4, h5, h6⟩ := h.hm
    have f1 := h3 t (.inl hjt)
    have f2 := h1 (s.cq t)
    rw [← hB] at f2
    constructor <;> dsimp only
    · keep hcl h1 f1; grind
    · keep hcl h2 f2; grind
    · keep hp h3; grind
    · exact h4
    · keep hp h5; grind
    · keep hp h6; grind
  · have y1 := h.lg.ent1 t (by rw [hp]; rfl)
    constructor
    · intro k
      have := h.lg.arr k
      unfold St.C at this
      show s.arr k = upd s.out (s.cq t) (s.out (s.cq t) ++ [t]) k ++ (s.Q.tail.filter _ ++ s.L k)
      rw [htail, this, hr]
      simp only [upd]
      split
      · next e => subst e; rw [List.filter_cons_of_pos (by simp)]; simp
      · next e => rw [List.filter_cons_of_neg (by simpa using Ne.symm e)]
    · intro u hu
      dsimp only at hu
      have hut : u ≠ t := by rintro rfl; simp [PC.held] at hu
      rw [upd_ne _ _ hut] at hu
      exact absurd (hheld1 u hu) hut
    · intro k hk
      dsimp only
      simp only [upd]
      split
      · next e => rw [e]; exact y1
      · next e =>
        refine h.lg.ent0 k (fun u hu => ?_)
        rw [hheld1 u hu]; exact Ne.symm e

theorem inv_step {c : Cfg T K} (hc : c.mig = false) {s s' : St N T K} {a : Act T K}
    (h : Inv c s) (hs : step c s a = some s') : Inv c s' := by
  cases a with
  | lock t k => exact inv_lock hc h hs
  | unlock t => exact inv_unlock h hs
  | run t =>
    cases hp : s.pc t with
    | idle => exact inv_w h (by rw [hp]; rfl) (by rw [hp]; intro e; cases e) hs
    | w0 => exact inv_w h (by rw [hp]; rfl) (by rw [hp]; intro e; cases e) hs
    | w1 => exact inv_w h (by rw [hp]; rfl) (by rw [hp]; intro e; cases e) hs
    | w2 => exact inv_w h (by rw [hp]; rfl) (by rw [hp]; intro e; cases e) hs
    | w3 l => exact inv_w h (by rw [hp]; rfl) (by rw [hp]; intro e; cases e) hs
    | w4 v => exact inv_w h (by rw [hp]; rfl) (by rw [hp]; intro e; cases e) hs
    | w5 => exact inv_w h (by rw [hp]; rfl) (by rw [hp]; intro e; cases e) hs
    | w6 l => exact inv_w h (by rw [hp]; rfl) (by rw [hp]; intro e; cases e) hs
    | fas => exact inv_fas h hp hs
    | s0 p => exact inv_s0 h hp hs
    | r0 p =>
      exact inv_r (p := p) h (by rw [hp]; rfl) (by rw [hp]; intro e; cases e)
        (by rw [hp]; intro e; cases e) hs
    | r1 p =>
      exact inv_r (p := p) h (by rw [hp]; rfl) (by rw [hp]; intro e; cases e)
        (by rw [hp]; intro e; cases e) hs
    | r2 p =>
      exact inv_r (p := p) h (by rw [hp]; rfl) (by rw [hp]; intro e; cases e)
        (by rw [hp]; intro e; cases e) hs
    | r3 p =>
      exact inv_r (p := p) h (by rw [hp]; rfl) (by rw [hp]; intro e; cases e)
        (by rw [hp]; intro e; cases e) hs
    | e1 p =>
      exact inv_r (p := p) h (by rw [hp]; rfl) (by rw [hp]; intro e; cases e)
        (by rw [hp]; intro e; cases e) hs
    | e2 p => exact inv_e2 h hp hs
    | m0 => exact inv_m0 h hp hs
    | m1 l => exact inv_m1 h hp hs
    | m2 l g => exact inv_m2 h hp hs
    | m3 g => exact inv_m3 h hp hs
    | cs => simp [step, hp] at hs
    | u1 p => exact inv_u1 h hp hs

theorem inv_init {c : Cfg T K} {s : St N T K} (h : isInit c s) : Inv c s := by
  obtain ⟨a1, a2, a3, a4, a5, a6, a7, a8, b1, b2, b3, b4, b5, b6, b8⟩ := h
  have hj : ∀ t, (s.pc t).jn = false := fun t => by rw [a8]; rfl
  have hC : ∀ k, s.C k = [] := fun k => by unfold St.C; rw [b2, b3]; rfl
  refine ⟨?_, ?_, ?_, ?_⟩
  · constructor
    · exact a7
    · intro k j; rw [b4, b4]; exact a3 k j
    · intro t k; rw [b4]; exact a5 t k
    · intro t; rw [b5]; exact a6 t
    · rw [b2]; exact List.nodup_nil
    · intro k; rw [b3]; exact List.nodup_nil
    · intro t ht; rw [b2] at ht; cases ht
    · intro t k ht; rw [b3] at ht; cases ht
    · intro t k ht; rw [b2] at ht; cases ht
    · intro t ht; rw [hj] at ht; cases ht
    · intro k; rw [hC]; trivial
    · intro k; rw [hC, b4]; rfl
    · rw [b2]; trivial
    · rw [b2, b5]; rfl
    · intro t ht; rw [b2] at ht; cases ht
    · intro t k ht; rw [b3] at ht; cases ht
    · intro k; rw [b2, b4]; exact b1 k
    · intro t ht; rw [hj] at ht; cases ht
    · intro k; rw [b4, b1]; exact fun _ => rfl
    · intro k _; right; rw [b4]; exact (a2 k).1
    · intro k _; rw [b4]; exact b1 k
    · intro k; rw [b4]; exact (a2 k).2.1
    · rw [b5]; exact a1
    · intro t ht; rw [hj] at ht; cases ht
    · intro t ht; rw [hj] at ht; cases ht
  · constructor
    all_goals (intro t; rw [a8]; intros; first | contradiction | grind)
  · constructor
    · intro k; rw [b4, b6]
    · intro t
      left
      cases hh : s.home (s.node t) with
      | none => rfl
      | some k => exact absurd ((b6 _ _).1 hh) (a5 t k)
    · intro t; rw [a8]; rintro (h | h) <;> cases h
    · intro m k hm; rw [(b6 m k).1 hm]; exact (a2 k).2.2.2
    · intro t l; rw [a8]; intro h; cases h
    · intro t l; rw [a8]; intro h; cases h
  · constructor
    · intro k; rw [hC, (b8 k).1, (b8 k).2.2]; rfl
    · intro t; rw [a8]; intro h; cases h
    · intro k _; rw [(b8 k).2.1, (b8 k).2.2]

end Verif.Spin.Hclh
