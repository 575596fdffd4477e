import Verif.Core.Lin
import Verif.Core.Tactic

/-!
# Two-word compare-and-swap with `ldxp`/`stxp`

/repo/include/gcc/aarch64/ck_pr_llsc.h lines 35-90 (`ck_pr_cas_64_2`, `ck_pr_cas_64_2_value` and the
pointer versions), used on AArch64 when LSE is not enabled.

`ldxp` loads two 64-bit words and sets the monitor, but the two words are two single-copy atomic
accesses (ARMv8.0): only a following successful `stxp` shows that they belong together.  The
functions run `stxp` only when both words compare equal.  On a mismatch `ck_pr_cas_64_2_value`
returns the two words as they were loaded.

Model: the two halves of `ldxp` are two steps (the lower word first; the architecture allows both
orders), the monitor is set by the first; every store to either word by anybody clears all
monitors; monitors may be lost.  Other threads may use `ck_pr_cas_64_2[_value]` too, and store to
either word (`ck_pr_store_64`).
-/

namespace Verif.LlSc.Pair

open Verif Verif.Lin

variable {W : Type} [DecidableEq W]

inductive Op (W : Type)
  | cas (c n : W × W)
  | putLo (v : W)
  | putHi (v : W)

inductive Pc (W : Type)
  | idle
  | top (c n : W × W)
  /-- lower word loaded -/
  | half (c n : W × W) (a : W)
  /-- both words loaded -/
  | got (c n : W × W) (v : W × W)
  | putLo (v : W)
  | putHi (v : W)
  /-- result, and the words returned in `value` -/
  | fin (r : Bool) (v : W × W)
  deriving DecidableEq

structure State (W : Type) where
  mem : W × W
  mon : Nat → Bool := fun _ => false
  pc : Nat → Pc W := fun _ => .idle
  /-- ghost: the contents of the memory during the current call of each thread -/
  seen : Nat → List (W × W) := fun _ => []

inductive Act (W : Type)
  | call (t : Nat) (o : Op W)
  | go (t : Nat)
  | lose (t : Nat)
  | ret (t : Nat)

def start : Op W → Pc W
  | .cas c n => .top c n
  | .putLo v => .putLo v
  | .putHi v => .putHi v

/-- A store: all monitors are cleared, everybody's history grows. -/
def write (s : State W) (m : W × W) (t : Nat) (p : Pc W) : State W :=
  { mem := m, mon := fun _ => false, pc := upd s.pc t p, seen := fun u => m :: s.seen u }

def step (s : State W) : Act W → Option (State W)
  | .call t o => match s.pc t with
    | .idle => some { s with pc := upd s.pc t (start o), seen := upd s.seen t [s.mem] }
    | _ => none
  | .go t => match s.pc t with
    | .top c n => some { s with mon := upd s.mon t true, pc := upd s.pc t (.half c n s.mem.1) }
    | .half c n a => some { s with pc := upd s.pc t (.got c n (a, s.mem.2)) }
    | .got c n v =>
      -- eor, eor, orr, cbnz 2f
      if v = c then
        -- stxp; cbnz 1b
        if s.mon t then some (write s n t (.fin true v))
        else some { s with pc := upd s.pc t (.top c n) }
      else some { s with pc := upd s.pc t (.fin false v) }
    | .putLo v => some (write s (v, s.mem.2) t (.fin true s.mem))
    | .putHi v => some (write s (s.mem.1, v) t (.fin true s.mem))
    | _ => none
  | .lose t => some { s with mon := upd s.mon t false }
  | .ret t => match s.pc t with
    | .fin _ _ => some { s with pc := upd s.pc t .idle }
    | _ => none

def sys (w : W × W) : Sys (State W) (Act W) where
  init s := s = { mem := w }
  step := step

/-- Calls and returns; the returned words are left out. -/
def obs (s : State W) : Act W → Option (Ev Nat (Op W) Bool)
  | .call t o => some (.call t o)
  | .ret t => match s.pc t with
    | .fin r _ => some (.ret t r)
    | _ => none
  | _ => none

/-- Specification of the result: a two-word register with compare-and-swap. -/
def obj (w : W × W) : Obj (Op W) Bool (W × W) where
  init x := x = w
  app x o r x' := match o with
    | .cas c n => if x = c then r = true ∧ x' = n else r = false ∧ x' = x
    | .putLo v => r = true ∧ x' = (v, x.2)
    | .putHi v => r = true ∧ x' = (x.1, v)

structure Inv (s : State W) : Prop where
  /-- a monitor that is still set vouches for what was loaded -/
  half : ∀ t c n a, s.pc t = .half c n a → s.mon t = true → s.mem.1 = a
  got : ∀ t c n v, s.pc t = .got c n v → s.mon t = true → s.mem = v
  now : ∀ t, s.pc t ≠ .idle → s.mem ∈ s.seen t
  /-- each loaded word was in memory during the call -/
  lo : ∀ t c n a, s.pc t = .half c n a → ∃ m ∈ s.seen t, m.1 = a
  loG : ∀ t c n v, s.pc t = .got c n v → (∃ m ∈ s.seen t, m.1 = v.1) ∧ ∃ m ∈ s.seen t, m.2 = v.2
  fin : ∀ t r v, s.pc t = .fin r v → (∃ m ∈ s.seen t, m.1 = v.1) ∧ ∃ m ∈ s.seen t, m.2 = v.2

omit [DecidableEq W] in
theorem Inv.init (w : W × W) : Inv ({ mem := w } : State W) := by
  constructor <;> intros <;> simp_all

/-- Steps of one thread that leave the memory alone and set no monitor of another thread. -/
theorem Inv.loc {s : State W} (hi : Inv s) (t : Nat) (p : Pc W) (mo : Nat → Bool)
    (hp0 : s.pc t ≠ .idle)
    (hmo : ∀ u, u ≠ t → mo u = true → s.mon u = true)
    (hhalf : ∀ c n a, p = .half c n a → (mo t = true → s.mem.1 = a) ∧ ∃ m ∈ s.seen t, m.1 = a)
    (hgot : ∀ c n v, p = .got c n v → (mo t = true → s.mem = v) ∧
      (∃ m ∈ s.seen t, m.1 = v.1) ∧ ∃ m ∈ s.seen t, m.2 = v.2)
    (hfin : ∀ r v, p = .fin r v → (∃ m ∈ s.seen t, m.1 = v.1) ∧ ∃ m ∈ s.seen t, m.2 = v.2) :
    Inv { s with mon := mo, pc := upd s.pc t p } := by
  constructor <;> intro u
  · intro c n a h hm
    simp only [upd_apply] at h
    split at h
    · next he => subst he; exact (hhalf c n a h).1 hm
    · next he => exact hi.half u c n a h (hmo u he hm)
  · intro c n a h hm
    simp only [upd_apply] at h
    split at h
    · next he => subst he; exact (hgot c n a h).1 hm
    · next he => exact hi.got u c n a h (hmo u he hm)
  · intro h
    simp only [upd_apply] at h
    split at h
    · next he => subst he; exact hi.now u hp0
    · exact hi.now u h
  · intro c n a h
    simp only [upd_apply] at h
    split at h
    · next he => subst he; exact (hhalf c n a h).2
    · exact hi.lo u c n a h
  · intro c n a h
    simp only [upd_apply] at h
    split at h
    · next he => subst he; exact (hgot c n a h).2
    · exact hi.loG u c n a h
  · intro c n h
    simp only [upd_apply] at h
    split at h
    · next he => subst he; exact hfin c n h
    · exact hi.fin u c n h

omit [DecidableEq W] in
theorem Inv.write {s : State W} (hi : Inv s) (t : Nat) (m : W × W) (r : Bool) (v : W × W)
    (hv : (∃ m ∈ s.seen t, m.1 = v.1) ∧ ∃ m ∈ s.seen t, m.2 = v.2) :
    Inv (write s m t (.fin r v)) := by
  have mono : ∀ {u} {P : W × W → Prop}, (∃ x ∈ s.seen u, P x) → ∃ x ∈ m :: s.seen u, P x :=
    fun ⟨x, h1, h2⟩ => ⟨x, .tail _ h1, h2⟩
  constructor <;> intro u
  · intro c n a _ hm; simp [Pair.write] at hm
  · intro c n a _ hm; simp [Pair.write] at hm
  · intro _; exact .head _
  · intro c n a h
    simp only [Pair.write, upd_apply] at h
    split at h
    · cases h
    · exact mono (hi.lo u c n a h)
  · intro c n a h
    simp only [Pair.write, upd_apply] at h
    split at h
    · cases h
    · exact ⟨mono (hi.loG u c n a h).1, mono (hi.loG u c n a h).2⟩
  · intro c n h
    simp only [Pair.write, upd_apply] at h
    split at h
    · next he => subst he; cases h; exact ⟨mono hv.1, mono hv.2⟩
    · exact ⟨mono (hi.fin u c n h).1, mono (hi.fin u c n h).2⟩

theorem inv {w : W × W} {s : State W} (h : (sys w).Reach s) : Inv s := by
  refine Sys.Reach.invariant (I := Inv) (fun s h => by cases h; exact Inv.init w) ?_ h
  intro s a s' hi hs
  cases a with
  | call t o =>
    simp only [sys, step] at hs
    split at hs <;> cases hs
    next hp =>
    have hst : ∀ u, upd s.pc t (start o) u = if u = t then start o else s.pc u :=
      fun u => upd_apply _ _ _ _
    constructor <;> intro u
    · intro c n a h hm
      simp only [hst] at h
      split at h
      · cases o <;> cases h
      · exact hi.half u c n a h hm
    · intro c n a h hm
      simp only [hst] at h
      split at h
      · cases o <;> cases h
      · exact hi.got u c n a h hm
    · intro h
      simp only [hst] at h
      simp only [upd_apply]
      split at h
      · next he => simp [he]
      · next he => simpa [he] using hi.now u h
    · intro c n a h
      simp only [hst] at h
      simp only [upd_apply]
      split at h
      · cases o <;> cases h
      · next he => simpa [he] using hi.lo u c n a h
    · intro c n a h
      simp only [hst] at h
      simp only [upd_apply]
      split at h
      · cases o <;> cases h
      · next he => simpa [he] using hi.loG u c n a h
    · intro c n h
      simp only [hst] at h
      simp only [upd_apply]
      split at h
      · cases o <;> cases h
      · next he => simpa [he] using hi.fin u c n h
  | lose t =>
    simp only [sys, step, Option.some.injEq] at hs; subst hs
    refine ⟨fun u c n a h hm => hi.half u c n a h ?_, fun u c n a h hm => hi.got u c n a h ?_,
      hi.now, hi.lo, hi.loG, hi.fin⟩ <;>
    · simp only [upd_apply] at hm
      split at hm
      · cases hm
      · exact hm
  | ret t =>
    simp only [sys, step] at hs
    split at hs <;> cases hs
    next r v hp =>
    exact hi.loc t .idle s.mon (by simp [hp]) (fun _ _ h => h) (by simp) (by simp) (by simp)
  | go t =>
    simp only [sys, step] at hs
    split at hs
    · next c n hp =>
      cases hs
      have hn := hi.now t (by simp [hp])
      refine hi.loc t _ _ (by simp [hp]) ?_ ?_ (by simp) (by simp)
      · intro u hu h; rwa [upd_ne _ _ hu] at h
      · intro c' n' a h; cases h; exact ⟨fun _ => rfl, s.mem, hn, rfl⟩
    · next c n a hp =>
      cases hs
      have hn := hi.now t (by simp [hp])
      refine hi.loc t _ _ (by simp [hp]) (fun _ _ h => h) (by simp) ?_ (by simp)
      intro c' n' v h; cases h
      exact ⟨fun hm => Prod.ext (hi.half t c n a hp hm) rfl, hi.lo t c n a hp, s.mem, hn, rfl⟩
    · next c n v hp =>
      have hg := hi.loG t c n v hp
      split at hs
      · split at hs
        · cases hs; exact hi.write t n true v hg
        · cases hs
          exact hi.loc t _ _ (by simp [hp]) (fun _ _ h => h) (by simp) (by simp) (by simp)
      · cases hs
        refine hi.loc t _ _ (by simp [hp]) (fun _ _ h => h) (by simp) (by simp) ?_
        intro r' v' h; cases h; exact hg
    · next v hp =>
      cases hs
      have hn := hi.now t (by simp [hp])
      exact hi.write t _ true _ ⟨⟨_, hn, rfl⟩, _, hn, rfl⟩
    · next v hp =>
      cases hs
      have hn := hi.now t (by simp [hp])
      exact hi.write t _ true _ ⟨⟨_, hn, rfl⟩, _, hn, rfl⟩
    · cases hs

/-- Where the specification sees a thread: a mismatch takes effect when the mismatching word is
loaded. -/
def absT : Pc W → TS (Op W) Bool
  | .idle => .idle
  | .top c n => .pend (.cas c n)
  | .half c n a => if a = c.1 then .pend (.cas c n) else .done false
  | .got c n v => if v = c then .pend (.cas c n) else .done false
  | .putLo v => .pend (.putLo v)
  | .putHi v => .pend (.putHi v)
  | .fin r _ => .done r

def abs (s : State W) : Abs Nat (Op W) Bool (W × W) := { x := s.mem, th := fun t => absT (s.pc t) }

theorem absT_upd (p : Nat → Pc W) (t : Nat) (q : Pc W) :
    (fun u => absT (upd p t q u)) = upd (fun u => absT (p u)) t (absT q) := by
  funext u; simp only [upd_apply]; split <;> rfl

/-- **The result of the two-word compare-and-swap, and its effect, are those of an indivisible
operation**, although the loads are not. -/
theorem atomic (w : W × W) : Linearizable (sys w) obs (obj w) := by
  refine linearizable_of_sim (fun s α => α = abs s) ?_ ?_
  · rintro s rfl; exact ⟨w, rfl, rfl⟩
  · rintro s a s' α hr rfl hs
    refine ⟨abs s', ?_, rfl⟩
    have hi := inv hr
    cases a with
    | call u o =>
      simp only [sys, step] at hs
      split at hs <;> cases hs
      next hp =>
      refine AStar.call' (by simp [abs, hp, absT]) ?_
      simp only [abs, absT_upd]
      cases o <;> rfl
    | lose u =>
      simp only [sys, step, Option.some.injEq] at hs; subst hs
      exact .nil _
    | ret u =>
      simp only [sys, step] at hs
      split at hs <;> cases hs
      next r v hp =>
      simp only [obs, hp]
      refine AStar.ret' (by simp [abs, hp, absT]) ?_
      simp only [abs, absT_upd]; rfl
    | go u =>
      simp only [sys, step] at hs
      have same : ∀ {q : Pc W} (s2 : State W), absT q = absT (s.pc u) → s2.mem = s.mem →
          s2.pc = upd s.pc u q → AStar (obj w) (abs s) (obs s (.go u)).toList (abs s2) := by
        intro q s2 h1 h2 h3
        have : abs s2 = abs s := by
          simp only [abs, h2, h3, absT_upd, h1]
          congr 1
          exact upd_eq_self _ _
        rw [this]; exact .nil _
      have lin : ∀ {o : Op W} {r : Bool} {q : Pc W} (s2 : State W), absT (s.pc u) = .pend o →
          (obj w).app s.mem o r s2.mem → s2.pc = upd s.pc u q → absT q = .done r →
          AStar (obj w) (abs s) (obs s (.go u)).toList (abs s2) := by
        intro o r q s2 h1 h2 h3 h4
        have hb : abs s2 = { x := s2.mem, th := upd (abs s).th u (.done r) } := by
          simp only [abs, h3, absT_upd, h4]
        rw [hb]
        exact AStar.one (.lin (a := abs s) (t := u) h1 h2)
      split at hs
      · next c n hp =>
        cases hs
        by_cases hc : s.mem.1 = c.1
        · exact same (q := .half c n s.mem.1) _ (by simp [hp, absT, hc]) rfl rfl
        · refine lin (o := .cas c n) (r := false) (q := .half c n s.mem.1) _ (by simp [hp, absT])
            ?_ rfl (by simp [absT, hc])
          have : s.mem ≠ c := fun h => hc (by rw [h])
          simp [obj, this]
      · next c n a hp =>
        cases hs
        by_cases ha : a = c.1
        · by_cases hc : s.mem.2 = c.2
          · have : (a, s.mem.2) = c := Prod.ext ha hc
            exact same (q := .got c n (a, s.mem.2)) _
              (by simp only [hp, absT]; rw [if_pos this, if_pos ha]) rfl rfl
          · have h1 : (a, s.mem.2) ≠ c := fun h => hc (by rw [← h])
            refine lin (o := .cas c n) (r := false) (q := .got c n (a, s.mem.2)) _
              (by simp [hp, absT, ha]) ?_ rfl (by simp only [absT]; rw [if_neg h1])
            have : s.mem ≠ c := fun h => hc (by rw [h])
            simp [obj, this]
        · have h1 : (a, s.mem.2) ≠ c := fun h => ha (by rw [← h])
          exact same (q := .got c n (a, s.mem.2)) _
            (by simp only [hp, absT]; rw [if_neg h1, if_neg ha]) rfl rfl
      · next c n v hp =>
        split at hs
        · next hv =>
          split at hs
          · next hm =>
            cases hs
            have := hi.got u c n v hp hm
            refine lin (o := .cas c n) (r := true) (q := .fin true v) _ (by simp [hp, absT, hv]) ?_
              rfl rfl
            simp [obj, this, hv, write]
          · cases hs
            exact same (q := .top c n) _ (by simp [hp, absT, hv]) rfl rfl
        · next hv =>
          cases hs
          exact same (q := .fin false v) _ (by simp [hp, absT, hv]) rfl rfl
      · next v hp =>
        cases hs
        exact lin (o := .putLo v) (r := true) (q := .fin true s.mem) _ (by simp [hp, absT])
          (by simp [obj, write]) rfl rfl
      · next v hp =>
        cases hs
        exact lin (o := .putHi v) (r := true) (q := .fin true s.mem) _ (by simp [hp, absT])
          (by simp [obj, write]) rfl rfl
      · cases hs

/-- **The words returned in `value`**: on success they are the contents the operation found (the
compared ones); on failure each of the two was in memory at some time during the call.

Missing for the full statement (that they were in memory *together* at some time during the call,
`v ∈ s.seen t`): it is false, see `value_fails`. -/
theorem value_partial {w : W × W} {s : State W} (h : (sys w).Reach s) {t : Nat} {r : Bool}
    {v : W × W} (hp : s.pc t = .fin r v) :
    (∃ m ∈ s.seen t, m.1 = v.1) ∧ ∃ m ∈ s.seen t, m.2 = v.2 :=
  (inv h).fin t r v hp

/-- On success the returned words are the contents found. -/
theorem value_success {w : W × W} {s s' : State W} (h : (sys w).Reach s) {t : Nat} {c n v : W × W}
    (hp : s.pc t = .got c n v) (hs : step s (.go t) = some s')
    (hf : s'.pc t = .fin true v) : v = c ∧ s.mem = c ∧ s'.mem = n := by
  simp only [step, hp] at hs
  split at hs
  · next hv =>
    split at hs
    · next hm =>
      cases hs
      exact ⟨hv, by rw [(inv h).got t c n v hp hm, hv], rfl⟩
    · cases hs; simp [upd_same] at hf
  · cases hs; simp [upd_same] at hf

/-- The counterexample: while thread 0 is between the two loads of `ldxp`, thread 1 changes the
memory from (1,0) to (2,1).  Thread 0 returns the pair (1,1), which was never there. -/
def tornRun : List (Act Nat) :=
  [.call 0 (.cas (1, 7) (0, 0)), .go 0,
   .call 1 (.cas (1, 0) (2, 1)), .go 1, .go 1, .go 1, .ret 1,
   .go 0, .go 0]

def final : Option (State Nat) := (sys (1, 0)).run { mem := (1, 0) } tornRun

theorem torn_run : ∃ s, final = some s ∧ s.pc 0 = .fin false (1, 1) ∧ s.seen 0 = [(2, 1), (1, 0)] := by
  have h : (final.map fun s => (s.pc 0, s.seen 0)) =
      some (.fin false (1, 1), [(2, 1), (1, 0)]) := by decide +kernel
  rw [Option.map_eq_some_iff] at h
  obtain ⟨s, h1, h2⟩ := h
  simp only [Prod.mk.injEq] at h2
  exact ⟨s, h1, h2.1, h2.2⟩

/-- `ck_pr_cas_64_2_value` may return a pair of words that was never in memory during the call. -/
theorem value_fails : ∃ s, (sys ((1, 0) : Nat × Nat)).Reach s ∧ ∃ v, s.pc 0 = .fin false v ∧
    v ∉ s.seen 0 := by
  obtain ⟨s, h1, h2, h3⟩ := torn_run
  exact ⟨s, .of_run (.init rfl) h1, (1, 1), h2, by rw [h3]; decide⟩

end Verif.LlSc.Pair
