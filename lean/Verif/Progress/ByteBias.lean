import Verif.Progress.Lf
import Verif.Progress.Bytelock

/-!
# `ck_bytelock` is write-biased (C113)

The model of C16, under its guard.  From the moment a writer has stored its slot in `owner` until it is inside, no reader acquires the
lock; the threads that do not spin make at most `6 n` steps while it waits; and it enters within `C + 2` steps of its own once no
reader is in its way.
-/

namespace Verif.Rw.Bytelock

open Verif Verif.Lf

variable {n : Nat}

def Act.thread : Act n → Fin n
  | .wlock t | .wunlock t | .rlock t | .runlock t | .run t => t

/-- The writer owns the lock and waits for the readers (lines 91-110). -/
def PC.waits : PC → Bool
  | .wClr _ | .wScan _ | .wCnt => true
  | _ => false

/-- The most steps of a thread before it spins (on `owner`, lines 88, 147, 174), while a writer waits; 0: it spins. -/
def rank : PC → Nat
  | .reading | .readingU => 6
  | .idle => 5
  | .rOwn => 4
  | .sSet | .uInc => 3
  | .sChk | .uChk => 2
  | .sClr | .uDec => 1
  | _ => 0

/-- The steps of threads that do not spin while writer `w` waits. -/
def moves (c : Cfg n) (w : Fin n) : St n → List (Act n) → Nat
  | _, [] => 0
  | s, a :: as =>
    if (s.pc w).waits then
      (if 0 < rank (s.pc a.thread) then 1 else 0) + (match step c s a with | some s' => moves c w s' as | none => 0)
    else 0

theorem PC.waits_own {p : PC} (h : p.waits = true) : p.own = true := by cases p <;> first | rfl | cases h

/-- What holds of the other threads while `w` waits. -/
theorem Inv.others {c : Cfg n} (hc : c.Wf) (hg : Guard c) {s : St n} (hi : Inv c s) {w : Fin n} (hw : (s.pc w).waits = true) :
    s.owner ≠ 0 ∧ (∀ u, (s.pc u).own = true → u = w) ∧ ∀ u, s.pc u = .rOwn → s.owner ≠ c.slot u := by
  have ho := PC.waits_own hw
  refine ⟨hi.owner_ne hc ho, fun u hu => hi.uniq hu ho, fun u hu e => ?_⟩
  rw [hi.ow w ho] at e
  by_cases hU : c.slot w = U
  · have h1 : c.mayW w = true := by
      rcases hi.wr w (by cases hp : s.pc w <;> rw [hp] at hw <;> first | rfl | cases hw) with h | h
      · exact h
      · exact absurd hU h
    exact hg w u hU (e ▸ hU) h1 (hi.rr u (by rw [hu]; rfl))
  · have := hc.inj w u e hU
    subst this
    rw [hu] at hw; cases hw

theorem scan_ne (c : Cfg n) (i : Nat) : scan c i ≠ .reading ∧ scan c i ≠ .readingU ∧ scan c i ≠ .wCas true ∧ scan c i ≠ .dgSet ∧ scan c i ≠ .dgRel ∧
    (scan c i).waits = true ∧ rank (scan c i) = 0 := by
  rcases scan_cases c i with h | h <;> rw [h.2] <;> simp [PC.waits, rank]

/-- While a writer waits for the readers to leave, no reader acquires the lock. -/
theorem no_reader_enters_partial {c : Cfg n} (hc : c.Wf) (hg : Guard c) (hn : n < 2 ^ 32) {s s' : St n} (h : (sys c).Reach s) {w : Fin n}
    (hw : (s.pc w).waits = true) {a : Act n} (hs : step c s a = some s') (t : Fin n) : s'.reads t → s.reads t := by
  obtain ⟨h1, h2, h3⟩ := (inv_of_reach hc hg hn h).others hc hg hw
  have hsc := scan_ne c
  unfold St.reads
  cases a with
  | run u =>
    have h2 := h2 u
    have h3 := h3 u
    cases hp : s.pc u <;> simp only [step, hp] at hs <;> step_split hs <;> grind [PC.waits]
  | runlock u => cases hp : s.pc u <;> simp only [step, hp] at hs <;> step_split hs <;> grind
  | _ => simp only [step] at hs; step_split hs <;> grind

/-- The writer keeps waiting, as the owner, until it is inside. -/
theorem wait_keeps {c : Cfg n} {s s' : St n} {w : Fin n} (hw : (s.pc w).waits = true) {a : Act n} (hs : step c s a = some s') :
    (s'.pc w).waits = true ∨ s'.writes w := by
  have hsc := scan_ne c
  unfold St.writes
  cases a with
  | run u => cases hp : s.pc u <;> simp only [step, hp] at hs <;> step_split hs <;> grind [PC.waits]
  | runlock u => cases hp : s.pc u <;> simp only [step, hp] at hs <;> step_split hs <;> grind [PC.waits]
  | _ => simp only [step] at hs; step_split hs <;> grind [PC.waits]

theorem rank_step {c : Cfg n} (hc : c.Wf) (hg : Guard c) {s s' : St n} (hi : Inv c s) {w : Fin n} (hw : (s.pc w).waits = true)
    {a : Act n} (hs : step c s a = some s') : (∀ u, u ≠ a.thread → s'.pc u = s.pc u) ∧
      rank (s'.pc a.thread) + (if 0 < rank (s.pc a.thread) then 1 else 0) ≤ rank (s.pc a.thread) := by
  obtain ⟨h1, h2, h3⟩ := hi.others hc hg hw
  have hsc := scan_ne c
  have hww : ∀ u, s.pc u = .writing → False := fun u hu => by
    have := h2 u (by rw [hu]; rfl)
    rw [← this, hu] at hw; cases hw
  cases a with
  | run u =>
    have h2 := h2 u
    have h3 := h3 u
    cases hp : s.pc u <;> simp only [step, hp] at hs <;> step_split hs <;>
      refine ⟨fun v hv => ?_, ?_⟩ <;> simp only [Act.thread] at * <;> grind [PC.waits, rank]
  | runlock u =>
    cases hp : s.pc u <;> simp only [step, hp] at hs <;> step_split hs <;>
      refine ⟨fun v hv => ?_, ?_⟩ <;> simp only [Act.thread] at * <;> grind [rank]
  | _ =>
    simp only [step] at hs
    step_split hs <;> refine ⟨fun v hv => ?_, ?_⟩ <;> simp only [Act.thread] at * <;> grind [rank]

/-- While a writer waits, the threads that do not spin make at most `6 n` steps. -/
theorem wait_bounded_partial {c : Cfg n} (hc : c.Wf) (hg : Guard c) (hn : n < 2 ^ 32) {s : St n} (h : (sys c).Reach s) (w : Fin n)
    (as : List (Act n)) : moves c w s as ≤ 6 * n := by
  have key : ∀ (as : List (Act n)) (s : St n), Inv c s → moves c w s as ≤ ∑ u, rank (s.pc u) := by
    intro as
    induction as with
    | nil => intro s _; exact Nat.zero_le _
    | cons a as ih =>
      intro s hi
      rw [moves]
      split
      · next hw =>
        cases hs : step c s a with
        | some s' =>
          obtain ⟨h1, h2⟩ := rank_step hc hg hi hw hs
          have := ih s' (inv_step hc hg hn hi hs)
          have h3 := sum_eq (fun u => rank (s.pc u)) (fun u => rank (s'.pc u)) a.thread (fun u hu => by simp only [h1 u hu])
          simp only at h3 ⊢
          omega
        | none =>
          have : rank (s.pc a.thread) ≤ ∑ u, rank (s.pc u) :=
            Finset.single_le_sum (f := fun u => rank (s.pc u)) (fun _ _ => Nat.zero_le _) (Finset.mem_univ _)
          simp only
          split <;> omega
      · exact Nat.zero_le _
  refine Nat.le_trans (key as s (inv_of_reach hc hg hn h)) ?_
  refine Nat.le_trans (Finset.sum_le_card_nsmul _ _ 6 fun t _ => ?_) (by simp [Nat.mul_comm])
  unfold rank; split <;> omega

/-- Not inside as a reader, no byte set, not counted. -/
def PC.away : PC → Bool
  | .idle | .rOwn | .sSet | .uInc | .sWait | .uWait | .wCas false => true
  | _ => false

theorem PC.away_byte {p : PC} (h : p.away = true) : p.byte = false ∧ p.inc = false := by
  cases p with
  | wCas up => cases up <;> first | exact ⟨rfl, rfl⟩ | cases h
  | _ => first | exact ⟨rfl, rfl⟩ | cases h

theorem clear_of {c : Cfg n} (hc : c.Wf) (hg : Guard c) (hn : n < 2 ^ 32) {s : St n} (h : (sys c).Reach s) {w : Fin n}
    (hw : (s.pc w).byte = false) (hr : ∀ u, u ≠ w → (s.pc u).away = true) (b : Nat) : s.readers b = false := by
  have hi := inv_of_reach hc hg hn h
  by_contra hb
  simp only [Bool.not_eq_false] at hb
  obtain ⟨t, h1, h2⟩ := byte_owner hc hg hn h b hb
  have h3 := hi.byte t h1
  rw [h2, hb] at h3
  by_cases e : t = w
  · rw [e, hw] at h3; cases h3
  · rw [(PC.away_byte (hr t e)).1] at h3; cases h3

theorem ends_scan {c : Cfg n} (hc : c.Wf) (hg : Guard c) (hn : n < 2 ^ 32) (w : Fin n) : ∀ (d i : Nat) (s : St n), (sys c).Reach s → c.C - i = d →
    s.pc w = scan c i → (∀ u, u ≠ w → (s.pc u).away = true) → ∃ s', alone (fun s => step c s (.run w)) (d + 1) s = some s' ∧ s'.writes w := by
  intro d
  induction d with
  | zero =>
    intro i s h hd hp hr
    have hp : s.pc w = .wCnt := by rw [hp]; unfold scan; rw [if_neg (by omega)]
    have hi := inv_of_reach hc hg hn h
    have h0 : s.nreaders = 0 := by
      rw [hi.nr, cnt_zero_of]
      · rfl
      · intro u
        by_cases e : u = w
        · rw [e, hp]; rfl
        · exact (PC.away_byte (hr u e)).2
    exact ⟨{ s with pc := upd s.pc w .writing }, by simp [alone, step, hp, h0], .inl (by simp)⟩
  | succ d ih =>
    intro i s h hd hp hr
    have hp : s.pc w = .wScan i := by rw [hp]; unfold scan; rw [if_pos (by omega)]
    have hz : chunkZero c s i = true := by
      simp only [chunkZero, List.all_eq_true]
      intro j _
      rw [clear_of hc hg hn h (w := w) (by rw [hp]; rfl) hr]
      rfl
    have hs : step c s (.run w) = some { s with pc := upd s.pc w (scan c (i + 1)) } := by simp only [step, hp]; rw [if_pos hz]
    obtain ⟨s', h1, h2⟩ := ih (i + 1) _ (Sys.Reach.step (M := sys c) (a := .run w) h hs) (by omega) (by simp) (fun u hu => by simp only [upd_ne _ _ hu]; exact hr u hu)
    exact ⟨s', by rw [alone]; simp only [hs]; exact h1, h2⟩

/-- Once nobody else is inside, has a byte set or is counted, the writer is inside within `C + 2` of its own steps. -/
theorem wait_ends_partial {c : Cfg n} (hc : c.Wf) (hg : Guard c) (hn : n < 2 ^ 32) {s : St n} (h : (sys c).Reach s) {w : Fin n}
    (hw : (s.pc w).waits = true) (hr : ∀ u, u ≠ w → (s.pc u).away = true) :
    ∃ k s', k ≤ c.C + 2 ∧ alone (fun s => step c s (.run w)) k s = some s' ∧ s'.writes w := by
  cases hp : s.pc w with
  | wClr b =>
    obtain ⟨s1, hs, hp1, hr1⟩ : ∃ s1, step c s (.run w) = some s1 ∧ s1.pc w = scan c 0 ∧ ∀ u, u ≠ w → s1.pc u = s.pc u := by
      simp only [step, hp]
      split
      · exact ⟨_, rfl, by simp, fun u hu => by simp only [upd_ne _ _ hu]⟩
      · exact ⟨_, rfl, by simp, fun u hu => by simp only [upd_ne _ _ hu]⟩
    obtain ⟨s', h1, h2⟩ := ends_scan hc hg hn w c.C 0 s1 (Sys.Reach.step (M := sys c) (a := .run w) h hs) (by omega) hp1 (fun u hu => by rw [hr1 u hu]; exact hr u hu)
    exact ⟨c.C + 1 + 1, s', by omega, by rw [alone]; simp only [hs]; exact h1, h2⟩
  | wScan i =>
    have hlt := scan_lt h w i hp
    obtain ⟨s', h1, h2⟩ := ends_scan hc hg hn w (c.C - i) i s h rfl (by rw [hp, scan, if_pos hlt]) hr
    exact ⟨_, s', by omega, h1, h2⟩
  | wCnt =>
    obtain ⟨s', h1, h2⟩ := ends_scan hc hg hn w 0 c.C s h (by omega) (by rw [hp, scan, if_neg (by omega)]) hr
    exact ⟨_, s', by omega, h1, h2⟩
  | _ => rw [hp] at hw; cases hw

/-- Without the guard the bias is lost: an unslotted reader enters while an unslotted writer, which came first, waits. -/
theorem bias_broken : badCfg.Wf ∧ ∃ s s', (sys badCfg).Reach s ∧ (s.pc 0).waits = true ∧ s.pc 1 = .idle ∧
    (sys badCfg).run s [.rlock 1, .run 1, .run 1, .run 1] = some s' ∧ (s'.pc 0).waits = true ∧ s'.pc 1 = .reading := by
  refine ⟨unslotted_broken.1, ?_⟩
  have hr : ((sys badCfg).run (initSt 2) [.wlock 0, .run 0]).map (fun s => ((s.pc 0).waits, s.pc 1,
      ((sys badCfg).run s [.rlock 1, .run 1, .run 1, .run 1]).map (fun s' => ((s'.pc 0).waits, s'.pc 1)))) =
      some (true, .idle, some (true, .reading)) := by decide
  rw [Option.map_eq_some_iff] at hr
  obtain ⟨s, h1, h2⟩ := hr
  simp only [Prod.mk.injEq, Option.map_eq_some_iff] at h2
  obtain ⟨h2, h3, s', h4, h5, h6⟩ := h2
  exact ⟨s, s', .of_run (.init rfl) h1, h2, h3, h4, h5, h6⟩

/-- A configuration: two chunks of two bytes, three slotted threads. -/
def biasCfg : Cfg 3 := { L := 2, C := 2, slot := fun t => t.val + 1, mayW := fun _ => true, mayR := fun _ => true }

theorem biasCfg_wf : biasCfg.Wf ∧ Guard biasCfg := by
  refine ⟨⟨by decide, by decide, by decide, by decide⟩, fun t u h _ _ _ => ?_⟩
  revert h; revert t; decide

/-- Reader 0 is inside when writer 1 takes `owner`; reader 2 comes, backs off and spins; 0 leaves and the writer enters. -/
def biasRun : List (Act 3) := [.rlock 0, .run 0, .run 0, .run 0, .wlock 1, .run 1]

def biasMore : List (Act 3) :=
  [.run 1, .rlock 2, .run 2, .run 2, .run 1, .run 2, .run 2, .run 2, .runlock 0, .run 2, .run 1, .run 1, .run 1]

theorem bias_case : ((sys biasCfg).run (initSt 3) biasRun).map (fun s => (s.pc 0, (s.pc 1).waits, s.pc 2, moves biasCfg 1 s biasMore)) =
    some (.reading, true, .idle, 6) := by decide

theorem bias_case_end : ((sys biasCfg).run (initSt 3) (biasRun ++ biasMore)).map (fun s => (s.pc 0, s.pc 1, s.pc 2)) =
    some (.idle, .writing, .sWait) := by decide

end Verif.Rw.Bytelock
