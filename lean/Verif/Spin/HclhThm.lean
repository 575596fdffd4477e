import Verif.Spin.HclhLoc

/-! # C08, C66: hierarchical CLH lock -/

namespace Verif.Spin.Hclh

open Spec

variable {N T K : Type} [DecidableEq N] [DecidableEq T] [DecidableEq K]

theorem inv_of_reach {c : Cfg T K} (hc : c.mig = false) {s : St N T K} (h : (sys N c).Reach s) :
    Inv c s :=
  h.invariant (I := Inv c) (fun _ h => inv_init h) (fun _ _ _ hi hs => inv_step hc hi hs)

theorem holds_iff {s : St N T K} {t : T} : s.holds t ↔ (s.pc t).held = true := by
  unfold St.holds
  cases s.pc t <;> simp [PC.held]

theorem jn_iff {s : St N T K} {t : T} : (s.pc t).jn = true ↔ s.holds t ∨ s.waits t := by
  rw [holds_iff]
  unfold St.waits
  cases s.pc t <;> simp [PC.jn, PC.held, PC.waiting]

/-! ## A thread next in line gets in -/

def rank : PC N → Nat
  | .s0 _ => 12 | .r0 _ => 11 | .r2 _ => 10 | .r3 _ => 9 | .r1 _ => 8 | .e1 _ => 7 | .e2 _ => 6
  | .m0 => 5 | .m1 _ => 4 | .m2 _ _ => 3 | .m3 _ => 2
  | _ => 0

/-- Nobody is inside, and `t` is the head of the global queue, or of its local queue while the
global queue is empty. -/
structure Good (s : St N T K) (t : T) : Prop where
  jn : (s.pc t).jn = true
  free : ∀ u, (s.pc u).held = false
  hd : (∃ l, s.Q = t :: l) ∨ (s.Q = [] ∧ ∃ l, s.L (s.cq t) = t :: l)

theorem Good.wait {c : Cfg T K} {s : St N T K} {t : T} (h : Inv c s) (hg : Good s t) {p : N}
    (hp : (s.pc t).pr = some p) : s.wait (s.pp t) = false := by
  rcases hg.hd with ⟨l, hl⟩ | ⟨hq, l, hl⟩
  · have e1 := h.loc.mid t p hp (by rw [hl]; simp)
    have := h.core.qch
    rw [hl] at this
    have := this.1
    rw [e1] at this
    simp only [Bool.false_eq_true, if_false] at this
    rw [this]; exact h.core.wX
  · have := h.core.ch (s.cq t)
    unfold St.C at this
    rw [hq, hl] at this
    rw [this.1]; exact h.core.bw _

theorem Good.step {c : Cfg T K} {s : St N T K} {t : T} (h : Inv c s) (hg : Good s t) :
    ∃ s', step c s (.run t) = some s' ∧
      ((s'.pc t).held = true ∨ (Good s' t ∧ rank (s'.pc t) < rank (s.pc t))) := by
  have hw := fun p => hg.wait h (p := p)
  have hcid := h.cid_eq hg.jn
  have hh := hg.free t
  have hj := hg.jn
  have keepG : ∀ s' : St N T K, s'.Q = s.Q → s'.L = s.L → s'.cq = s.cq →
      (s'.pc t).jn = true → (s'.pc t).held = false → (∀ u, u ≠ t → s'.pc u = s.pc u) →
      Good s' t := by
    intro s' e1 e2 e3 e4 e5 e6
    refine ⟨e4, fun u => ?_, by rw [e1, e2, e3]; exact hg.hd⟩
    by_cases hu : u = t
    · rw [hu]; exact e5
    · rw [e6 u hu]; exact hg.free u
  cases hp : s.pc t with
  | idle => rw [hp] at hj; cases hj
  | w0 => rw [hp] at hj; cases hj
  | w1 => rw [hp] at hj; cases hj
  | w2 => rw [hp] at hj; cases hj
  | w3 l => rw [hp] at hj; cases hj
  | w4 v => rw [hp] at hj; cases hj
  | w5 => rw [hp] at hj; cases hj
  | w6 l => rw [hp] at hj; cases hj
  | fas => rw [hp] at hj; cases hj
  | cs => rw [hp] at hh; cases hh
  | u1 p => rw [hp] at hh; cases hh
  | s0 p =>
    refine ⟨{ s with prev := upd s.prev (s.node t) (some p), pc := upd s.pc t (.r0 p) },
      by simp only [Hclh.step, hp], .inr ⟨?_, by simp [rank]⟩⟩
    exact keepG _ rfl rfl rfl (by simp [PC.jn]) (by simp [PC.held]) (fun u hu => upd_ne _ _ hu)
  | r0 p =>
    by_cases he : s.prev p = none
    · refine ⟨{ s with pc := upd s.pc t .m0 },
        by simp only [Hclh.step, hp, he, if_true], .inr ⟨?_, by simp [rank]⟩⟩
      exact keepG _ rfl rfl rfl (by simp [PC.jn]) (by simp [PC.held]) (fun u hu => upd_ne _ _ hu)
    · refine ⟨{ s with pc := upd s.pc t (.r1 p) },
        by simp only [Hclh.step, hp, he, if_false], .inr ⟨?_, by simp [rank]⟩⟩
      exact keepG _ rfl rfl rfl (by simp [PC.jn]) (by simp [PC.held]) (fun u hu => upd_ne _ _ hu)
  | r1 p =>
    have hpp := h.loc.jp t p (by rw [hp]; rfl)
    have hw := hw p (by rw [hp]; rfl)
    rw [← hpp] at hw
    refine ⟨{ s with pc := upd s.pc t (.e1 p) },
      by simp [Hclh.step, hp, hw], .inr ⟨?_, by simp [rank]⟩⟩
    exact keepG _ rfl rfl rfl (by simp [PC.jn]) (by simp [PC.held]) (fun u hu => upd_ne _ _ hu)
  | r2 p =>
    have hpp := h.loc.jp t p (by rw [hp]; rfl)
    rw [← hpp] at hcid
    refine ⟨{ s with pc := upd s.pc t (.r3 p) },
      by simp only [Hclh.step, hp, hcid, if_true], .inr ⟨?_, by simp [rank]⟩⟩
    exact keepG _ rfl rfl rfl (by simp [PC.jn]) (by simp [PC.held]) (fun u hu => upd_ne _ _ hu)
  | r3 p =>
    by_cases he : s.splice p = false
    · refine ⟨{ s with pc := upd s.pc t (.r1 p) },
        by simp only [Hclh.step, hp, he, if_true], .inr ⟨?_, by simp [rank]⟩⟩
      exact keepG _ rfl rfl rfl (by simp [PC.jn]) (by simp [PC.held]) (fun u hu => upd_ne _ _ hu)
    · refine ⟨{ s with pc := upd s.pc t (.e1 p) },
        by simp only [Hclh.step, hp, he]; rfl, .inr ⟨?_, by simp [rank]⟩⟩
      exact keepG _ rfl rfl rfl (by simp [PC.jn]) (by simp [PC.held]) (fun u hu => upd_ne _ _ hu)
  | e1 p =>
    have hpp := h.loc.jp t p (by rw [hp]; rfl)
    rw [← hpp] at hcid
    refine ⟨{ s with pc := upd s.pc t (.e2 p) },
      by simp only [Hclh.step, hp, hcid, if_true], .inr ⟨?_, by simp [rank]⟩⟩
    exact keepG _ rfl rfl rfl (by simp [PC.jn]) (by simp [PC.held]) (fun u hu => upd_ne _ _ hu)
  | e2 p =>
    by_cases he : s.splice p = false
    · refine ⟨enter s t, by simp only [Hclh.step, hp, he, if_true], .inl ?_⟩
      simp [enter, PC.held]
    · refine ⟨{ s with pc := upd s.pc t .m0 },
        by simp only [Hclh.step, hp, he]; rfl, .inr ⟨?_, by simp [rank]⟩⟩
      exact keepG _ rfl rfl rfl (by simp [PC.jn]) (by simp [PC.held]) (fun u hu => upd_ne _ _ hu)
  | m0 =>
    refine ⟨{ s with pc := upd s.pc t (.m1 (s.lq (s.cq t))) },
      by simp only [Hclh.step, hp], .inr ⟨?_, by simp [rank]⟩⟩
    exact keepG _ rfl rfl rfl (by simp [PC.jn]) (by simp [PC.held]) (fun u hu => upd_ne _ _ hu)
  | m1 l =>
    obtain ⟨htL, htl, hex⟩ := h.loc.mm1 t l hp
    have hq : s.Q = [] := by
      rcases hg.hd with ⟨r, hr⟩ | ⟨hq, -⟩
      · exact absurd htL (h.core.dis t _ (by rw [hr]; simp))
      · exact hq
    cases hst : Hclh.step c s (.run t) with
    | none => simp [Hclh.step, hp] at hst
    | some s' =>
      obtain ⟨hcore, a, v, b, h1, h2, h3, h4, h5, h6⟩ := core_m1 h.core hp htL htl hex hst
      have e1 : s'.pc = upd s.pc t (.m2 l s.gq) := by
        simp only [Hclh.step, hp, Option.some.injEq] at hst; rw [← hst]
      refine ⟨s', rfl, .inr ⟨⟨by rw [e1]; simp [PC.jn], fun u => ?_, .inl ⟨a, by rw [h4, hq]; rfl⟩⟩,
        by rw [e1]; simp [rank]⟩⟩
      rw [e1]
      simp only [upd]
      split
      · rfl
      · exact hg.free u
  | m2 l g =>
    refine ⟨{ s with splice := upd s.splice l true, pc := upd s.pc t (.m3 g) },
      by simp only [Hclh.step, hp], .inr ⟨?_, by simp [rank]⟩⟩
    exact keepG _ rfl rfl rfl (by simp [PC.jn]) (by simp [PC.held]) (fun u hu => upd_ne _ _ hu)
  | m3 g =>
    obtain ⟨h1, h2, h3⟩ := h.loc.m3a t g hp
    have : s.wait g = false := by
      rcases hg.hd with ⟨l, hl⟩ | ⟨hq, -⟩
      · have := h.core.qch
        rw [hl] at this
        have := this.1
        rw [h2, h3] at this
        simp only [if_true] at this
        rw [this]; exact h.core.wX
      · rw [hq] at h1; cases h1
    exact ⟨enter s t, by simp [Hclh.step, hp, this], .inl (by simp [enter, PC.held])⟩

theorem Good.run {c : Cfg T K} (hc : c.mig = false) {t : T} (m : Nat) {s : St N T K} (h : Inv c s)
    (hg : Good s t) (hm : rank (s.pc t) ≤ m) :
    ∃ j s', j ≤ m + 1 ∧ (sys N c).run s (List.replicate j (.run t)) = some s' ∧ s'.holds t := by
  induction m generalizing s with
  | zero =>
    obtain ⟨s', h1, h2 | ⟨h2, h3⟩⟩ := hg.step h
    · exact ⟨1, s', by omega, by simp [Sys.run, sys, h1], holds_iff.2 h2⟩
    · omega
  | succ m ih =>
    obtain ⟨s', h1, h2 | ⟨h2, h3⟩⟩ := hg.step h
    · exact ⟨1, s', by omega, by simp [Sys.run, sys, h1], holds_iff.2 h2⟩
    · obtain ⟨j, s2, g1, g2, g3⟩ := ih (inv_step hc h h1) h2 (by omega)
      exact ⟨j + 1, s2, by omega, by
        rw [List.replicate_succ]; simp only [Sys.run]
        rw [show (sys N c).step s (.run t) = some s' from h1]; exact g2, g3⟩

/-! ## Property theorems -/

/-- C08: at most one thread holds the lock, whatever cluster each thread belongs to, however many
threads and clusters there are, and with nodes recycled as unlock hands them back. -/
theorem mutual_exclusion {c : Cfg T K} (hc : c.mig = false) {s : St N T K}
    (h : (sys N c).Reach s) : MutEx s.holds := by
  intro t u ht hu
  have hi := inv_of_reach hc h
  obtain ⟨l, hl⟩ := hi.loc.hd t (holds_iff.1 ht)
  obtain ⟨l', hl'⟩ := hi.loc.hd u (holds_iff.1 hu)
  rw [hl] at hl'
  simp at hl'
  exact hl'.1

/-- C08, node recycling: the node a thread owns between unlock and its next lock is no other
thread's node, is neither queue's tail, and nobody reads, spins on or is about to take it over. -/
theorem recycled_node_private {c : Cfg T K} (hc : c.mig = false) {s : St N T K}
    (h : (sys N c).Reach s) {t : T} (ht : s.pc t = .idle) :
    s.gq ≠ s.node t ∧ (∀ k, s.lq k ≠ s.node t) ∧ ∀ u, u ≠ t → s.node u ≠ s.node t ∧
      (s.pc u).pr ≠ some (s.node t) ∧ s.pc u ≠ .m3 (s.node t) ∧ s.pc u ≠ .u1 (s.node t) ∧
      s.pc u ≠ .m1 (s.node t) ∧ (∀ g, s.pc u ≠ .m2 (s.node t) g) ∧
      (s.pc u = .cs → s.prev (s.node u) ≠ some (s.node t)) := by
  have hi := inv_of_reach hc h
  have hj : (s.pc t).jn = false := by rw [ht]; rfl
  have hnj : ∀ v, (s.pc v).jn = true → s.node v ≠ s.node t := by
    intro v hv e
    have := hi.core.inj _ _ e
    subst this
    rw [hv] at hj; cases hj
  refine ⟨?_, ?_, fun u hu => ⟨fun e => hu (hi.core.inj _ _ e), ?_, ?_, ?_, ?_, ?_, ?_⟩⟩
  · rw [hi.core.gqe]
    rcases lastN_mem (nd := s.node) (b := s.X) (l := s.Q) with ⟨-, e⟩ | ⟨u, hu, e⟩
    · rw [e]; exact (hi.core.nX t).symm
    · rw [e]; exact hnj u (hi.core.jQ u hu)
  · intro k
    rw [hi.core.lqe]
    rcases lastN_mem (nd := s.node) (b := s.B k) (l := s.C k) with ⟨-, e⟩ | ⟨u, hu, e⟩
    · rw [e]; exact (hi.core.nB t k).symm
    · rw [e]; exact hnj u (hi.core.memC hu).1
  · intro e
    have hju : (s.pc u).jn = true := by
      cases hpc : s.pc u <;> rw [hpc] at e <;> first | rfl | cases e
    exact hi.core.pp_ne hju hj (hi.loc.jp u _ e).symm
  · intro e
    obtain ⟨h1, h2, h3⟩ := hi.loc.m3a u _ e
    rcases qch_mem hi.core.qch h1 with ⟨-, h4⟩ | ⟨v, hv, h4⟩
    · rw [h2, h3] at h4; exact hi.core.nX t h4
    · rw [h2, h3] at h4; exact hnj v (hi.core.jQ v hv) h4.symm
  · intro e
    exact hi.core.pp_ne (by rw [e]; rfl) hj (hi.loc.up u _ e).symm
  · intro e
    obtain ⟨-, -, v, hv, h4⟩ := hi.loc.mm1 u _ e
    exact hnj v (hi.core.jL v _ hv).1 h4
  · intro g e
    obtain ⟨-, a, b, v, h1, h2, h3⟩ := hi.loc.m2i u _ g e
    exact hnj v (hi.core.jQ v (by rw [h1]; exact List.mem_append.2 (.inr h2))) h3
  · intro e
    rw [hi.loc.pvp u (by rw [e]; rfl) (by rw [e]; intro p e; cases e)]
    intro e2
    exact hi.core.pp_ne (by rw [e]; rfl) hj (Option.some.inj e2)

/-- C66: within a cluster threads enter in the order in which they swapped themselves into the
local queue. -/
theorem cluster_fcfs {c : Cfg T K} (hc : c.mig = false) {s : St N T K}
    (h : (sys N c).Reach s) (k : K) : Fcfs (s.arr k) (s.ent k) := by
  have hi := inv_of_reach hc h
  by_cases hk : ∃ t, (s.pc t).held = true ∧ s.cq t = k
  · obtain ⟨t, ht, rfl⟩ := hk
    obtain ⟨l, hl⟩ := hi.loc.hd t ht
    unfold Fcfs
    rw [hi.lg.arr, hi.lg.ent1 t ht, St.C, hl, List.filter_cons_of_pos (by simp)]
    exact ⟨l.filter (fun u => s.cq u = s.cq t) ++ s.L (s.cq t), by simp⟩
  · unfold Fcfs
    rw [hi.lg.arr, hi.lg.ent0 k (fun t ht e => hk ⟨t, ht, e⟩)]
    exact List.prefix_append _ _

/-- C66: unlock never meets a NULL predecessor. -/
theorem unlock_enabled {c : Cfg T K} (hc : c.mig = false) {s : St N T K}
    (h : (sys N c).Reach s) {t : T} (ht : s.pc t = .cs) :
    ∃ s', (sys N c).step s (.unlock t) = some s' := by
  have := (inv_of_reach hc h).loc.pvp t (by rw [ht]; rfl) (by rw [ht]; intro p e; cases e)
  exact ⟨_, by simp [sys, step, ht, this]; rfl⟩

/-- C66, progress: if nobody holds the lock and somebody waits, then some waiting thread gets in
within thirteen steps of its own. -/
theorem progress {c : Cfg T K} (hc : c.mig = false) {s : St N T K}
    (h : (sys N c).Reach s) (hfree : ∀ u, ¬ s.holds u) {v : T} (hv : s.waits v) :
    ∃ t j s', s.waits t ∧ j ≤ 13 ∧
      (sys N c).run s (List.replicate j (.run t)) = some s' ∧ s'.holds t := by
  have hi := inv_of_reach hc h
  have hno : ∀ u, (s.pc u).held = false := fun u => by
    have := hfree u; rw [holds_iff] at this; simpa using this
  have hle : ∀ q : PC N, rank q ≤ 12 := by intro q; cases q <;> simp [rank]
  have fin : ∀ t, Good s t → ∃ t j s', s.waits t ∧ j ≤ 13 ∧
      (sys N c).run s (List.replicate j (.run t)) = some s' ∧ s'.holds t := by
    intro t hg
    obtain ⟨j, s', h1, h2, h3⟩ := hg.run hc 12 hi (hle _)
    exact ⟨t, j, s', (jn_iff.1 hg.jn).resolve_left (hfree t), h1, h2, h3⟩
  cases hq : s.Q with
  | cons t l => exact fin t ⟨hi.core.jQ t (by rw [hq]; simp), hno, .inl ⟨l, hq⟩⟩
  | nil =>
    have hjv := jn_iff.2 (.inr hv)
    rcases hi.core.jm v hjv with h1 | h1
    · rw [hq] at h1; cases h1
    · cases hL : s.L (s.cq v) with
      | nil => rw [hL] at h1; cases h1
      | cons t l =>
        have := hi.core.jL t (s.cq v) (by rw [hL]; simp)
        exact fin t ⟨this.1, hno, .inr ⟨hq, l, by rw [this.2]; exact hL⟩⟩

/-! ## Concrete runs -/

/-- Nodes: 0 the global dummy, 1 and 2 the dummies of clusters 0 and 1, `t + 3` thread `t`'s. -/
def start : St Nat (Fin 3) (Fin 2) :=
  { gq := 0, lq := fun k => k.val + 1
    wait := fun _ => false, splice := fun _ => false, cid := fun m => (m : Int) - 1
    prev := fun _ => none, node := fun t => t.val + 3
    cq := fun _ => 0, pc := fun _ => .idle, pp := fun _ => 0, gp := fun _ => 0
    mst := fun _ => false, tl := fun _ => true, Q := [], L := fun _ => []
    B := fun k => k.val + 1, X := 0
    home := fun m => if m = 1 then some 0 else if m = 2 then some 1 else none
    arr := fun _ => [], ent := fun _ => [], out := fun _ => [] }

/-- Threads 0 and 1 in cluster 0, thread 2 in cluster 1. -/
def cfg (mig : Bool) : Cfg (Fin 3) (Fin 2) :=
  { cl := fun t => if t = 2 then 1 else 0, id := fun k => k.val, mig := mig }

theorem start_init (mig : Bool) : isInit (cfg mig) start := by
  refine ⟨rfl, fun k => ⟨rfl, rfl, rfl, ?_⟩, ?_, ?_, ?_, ?_, ?_, fun _ => rfl, fun _ => rfl, rfl,
    fun _ => rfl, fun _ => rfl, rfl, ?_, fun _ => ⟨rfl, rfl, rfl⟩⟩
  · simp [start, cfg]
  · intro k j h; simp [start] at h; omega
  · intro k; simp [start]
  · intro t k; simp [start]; omega
  · intro t; simp [start]
  · intro t u h; simp [start] at h; omega
  · intro m k
    simp only [start]
    rcases k with ⟨_ | _ | k, hk⟩
    · by_cases h1 : m = 1
      · simp [h1]
      · by_cases h2 : m = 2 <;> simp [h1, h2]
    · by_cases h1 : m = 1
      · simp [h1]
      · by_cases h2 : m = 2 <;> simp [h1, h2]
    · omega

def runs (t : Fin 3) (j : Nat) : List (Act (Fin 3) (Fin 2)) := List.replicate j (.run t)

/-- Thread 0 splices itself and thread 1, which joined the local queue meanwhile, as one batch;
thread 2 of the other cluster queues up behind them; thread 0 leaves and thread 1 enters without
splicing. -/
theorem batch_case :
    ∃ s, (sys Nat (cfg false)).Reach s ∧ s.holds 1 ∧ s.waits 2 ∧ s.pc 0 = .idle ∧
      s.node 0 = 1 ∧ s.Q = [1, 2] ∧ s.ent 0 = [0, 1] := by
  have h : (((sys Nat (cfg false)).run start
      ([.lock 0 0] ++ runs 0 8 ++ [.lock 1 0] ++ runs 1 8 ++ runs 0 6 ++ [.lock 2 1] ++ runs 2 13 ++
       [.unlock 0] ++ runs 0 1 ++ runs 1 5)).map
      (fun s => decide (s.pc 1 = .cs ∧ (s.pc 2).waiting = true ∧ s.pc 0 = .idle ∧ s.node 0 = 1 ∧
        s.Q = [1, 2] ∧ s.ent 0 = [0, 1]))) = some true := by decide
  cases hr : (sys Nat (cfg false)).run start
      ([.lock 0 0] ++ runs 0 8 ++ [.lock 1 0] ++ runs 1 8 ++ runs 0 6 ++ [.lock 2 1] ++ runs 2 13 ++
       [.unlock 0] ++ runs 0 1 ++ runs 1 5) with
  | none => rw [hr] at h; cases h
  | some s =>
    rw [hr] at h
    simp only [Option.map_some, Option.some.injEq, decide_eq_true_eq] at h
    exact ⟨s, Sys.Reach.of_run (.init (start_init false)) hr, .inl h.1, h.2.1, h.2.2⟩

/-- The assignment of threads to clusters has to be fixed.  Thread 2 loads the tail of cluster 0's
queue (node 1) in order to read its `cluster_id` (line 84); thread 0 acquires and releases, gets
node 1 back and starts an acquisition in cluster 1 with it; thread 2 now reads the id of cluster 1
into its own node.  It joins cluster 0's queue behind thread 1, takes the difference of the ids
(line 99) for the end of a batch, splices and enters ahead of thread 1; thread 1 then waits behind
thread 2, thread 2 releases and is handed thread 1's node, and acquires again with it while thread
1 is inside. -/
theorem migration_breaks_exclusion :
    ∃ s, (sys Nat (cfg true)).Reach s ∧ s.holds 1 ∧ s.holds 2 := by
  have h : (((sys Nat (cfg true)).run start
      ([.lock 2 0] ++ runs 2 3 ++ [.lock 0 0] ++ runs 0 14 ++ [.unlock 0] ++ runs 0 1 ++ [.lock 0 1] ++
       runs 0 5 ++ [.lock 1 0] ++ runs 1 8 ++ runs 2 14 ++ runs 1 9 ++ [.unlock 2] ++ runs 2 1 ++
       runs 1 1 ++ [.lock 2 0] ++ runs 2 17)).map
      (fun s => decide (s.pc 1 = .cs ∧ s.pc 2 = .cs))) = some true := by decide
  cases hr : (sys Nat (cfg true)).run start
      ([.lock 2 0] ++ runs 2 3 ++ [.lock 0 0] ++ runs 0 14 ++ [.unlock 0] ++ runs 0 1 ++ [.lock 0 1] ++
       runs 0 5 ++ [.lock 1 0] ++ runs 1 8 ++ runs 2 14 ++ runs 1 9 ++ [.unlock 2] ++ runs 2 1 ++
       runs 1 1 ++ [.lock 2 0] ++ runs 2 17) with
  | none => rw [hr] at h; cases h
  | some s =>
    rw [hr] at h
    simp only [Option.map_some, Option.some.injEq, decide_eq_true_eq] at h
    exact ⟨s, Sys.Reach.of_run (.init (start_init true)) hr, .inl h.1, .inl h.2⟩

end Verif.Spin.Hclh
