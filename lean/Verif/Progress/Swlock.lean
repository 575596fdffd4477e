import Verif.Core.Drain
import Verif.Rw.SwlockThm

/-!
# `ck_swlock`: no deadlock (C77)
-/

namespace Verif.Rw.Swlock

open Verif

variable {n : Nat}

/-- Steps of calls in progress, and releases. -/
def Act.own : Act n → Prop
  | .run _ | .runlock _ | .wrun | .wunlock | .wunlatch | .wrunlock => True
  | _ => False

/-- No call in progress, nothing held. -/
def St.done (s : St n) : Prop := s.wpc = .idle ∧ ∀ t, s.pc t = .idle

def WPC.ra : WPC → Nat
  | .idle => 0
  | .reading => 1
  | .dgAnd | .writing | .latched => 2
  | _ => 4

def WPC.rb : WPC → Nat
  | .lkOr | .ltOr => 1
  | _ => 0

def WPC.rc : WPC → Nat
  | .ltWait => 1
  | _ => 0

def PC.ra : PC → Nat
  | .idle => 0
  | .reading => 1
  | _ => 4

/-- Steps of readers; `w`: the writer bit is set. -/
def PC.rc (w : Bool) : PC → Nat
  | .rFaa _ => if w then 4 else 2
  | .rDec _ => if w then 3 else 4
  | .rLoad _ => if w then 2 else 3
  | _ => 0

/-- The step obligation. -/
abbrev Adv (s : St n) : Prop :=
  ∃ x s', Act.own x ∧ (sys n).step s x = some s' ∧ s'.wpc.ra + tot PC.ra s'.pc ≤ s.wpc.ra + tot PC.ra s.pc ∧
    (s'.wpc.ra + tot PC.ra s'.pc < s.wpc.ra + tot PC.ra s.pc ∨ s'.wpc.rb ≤ s.wpc.rb ∧ (s'.wpc.rb < s.wpc.rb ∨
      s'.wpc.rc + tot (PC.rc s'.wpc.wb) s'.pc < s.wpc.rc + tot (PC.rc s.wpc.wb) s.pc))

/-- A step of the writer that changes its state only. -/
theorem advW {s : St n} {p : WPC} (a : Act n) (ha : Act.own a)
    (hs : (step s a).map (fun s' => (s'.wpc, s'.pc)) = some (p, s.pc))
    (h : p.ra < s.wpc.ra ∨ p.ra ≤ s.wpc.ra ∧ (p.rb < s.wpc.rb ∨ p.rb ≤ s.wpc.rb ∧ p.wb = s.wpc.wb ∧ p.rc < s.wpc.rc)) :
    Adv s := by
  rw [Option.map_eq_some_iff] at hs
  obtain ⟨s', hs, he⟩ := hs
  simp only [Prod.mk.injEq] at he
  refine ⟨a, s', ha, hs, ?_⟩
  rw [he.1, he.2]
  rcases h with h | ⟨h1, h | ⟨h2, h3, h4⟩⟩
  · exact ⟨by omega, .inl (by omega)⟩
  · exact ⟨by omega, .inr ⟨by omega, .inl h⟩⟩
  · rw [h3]; exact ⟨by omega, .inr ⟨h2, .inr (by omega)⟩⟩

/-- A step of a reader. -/
theorem advR {s : St n} {t : Fin n} {p : PC} (a : Act n) (ha : Act.own a)
    (hs : (step s a).map (fun s' => (s'.wpc, s'.pc)) = some (s.wpc, upd s.pc t p))
    (h : p.ra < (s.pc t).ra ∨ p.ra ≤ (s.pc t).ra ∧ p.rc s.wpc.wb < (s.pc t).rc s.wpc.wb) : Adv s := by
  rw [Option.map_eq_some_iff] at hs
  obtain ⟨s', hs, he⟩ := hs
  simp only [Prod.mk.injEq] at he
  refine ⟨a, s', ha, hs, ?_⟩
  rw [he.1, he.2]
  rcases h with h | ⟨h1, h⟩
  · have := tot_lt (f := s.pc) (t := t) h
    exact ⟨by omega, .inl (by omega)⟩
  · have h2 := tot_le (f := s.pc) (t := t) h1
    have h3 := tot_lt (f := s.pc) (t := t) (r := PC.rc s.wpc.wb) h
    exact ⟨by omega, .inr ⟨Nat.le_refl _, .inr (by omega)⟩⟩

/-- C77: in every reachable state all calls in progress can be completed and all locks be released, whatever trylocks,
latches and downgrades happened. -/
theorem no_deadlock (hn : n + 1 < 2 ^ 30) {s : St n} (h : (sys n).Reach s) : (sys n).Drains Act.own St.done s := by
  refine Sys.drains3 (J := fun _ => True) (fun s => s.wpc.ra + tot PC.ra s.pc) (fun s => s.wpc.rb)
    (fun s => s.wpc.rc + tot (PC.rc s.wpc.wb) s.pc) (fun _ _ _ _ _ _ _ => trivial) (fun s h _ => ?_) h trivial
  show s.done ∨ Adv s
  have hi := inv_of_reach hn h
  by_cases h1 : ∃ t, s.pc t = .reading
  · obtain ⟨t, ht⟩ := h1
    exact .inr (advR (s := s) (.runlock t) (t := t) (p := .idle) trivial (by simp [step, ht]) (by rw [ht]; left; decide))
  have hdec : ∀ t b, s.pc t = .rDec b → Adv s := by
    intro t b ht
    refine advR (s := s) (.run t) (t := t) (p := again b) trivial (by simp [step, ht]) ?_
    rw [ht]
    cases b <;> cases s.wpc.wb <;> simp [again, PC.ra, PC.rc]
  by_cases h2 : ∃ t b, s.pc t = .rDec b
  · obtain ⟨t, b, ht⟩ := h2
    exact .inr (hdec t b ht)
  have hq : ∀ t b, s.pc t ≠ .reading ∧ s.pc t ≠ .rDec b := fun t b => ⟨fun e => h1 ⟨t, e⟩, fun e => h2 ⟨t, b, e⟩⟩
  have e1 : cnt PC.inc s.pc = 0 := cnt_zero_of fun t => by
    have := hq t
    cases hp : s.pc t <;> simp_all [PC.inc]
  have hwb : s.wpc.wb = true → s.wpc.lb = false → s.wpc.rd = false → s.value = WB := by
    intro h3 h4 h5
    have e2 := cnt_zero_of (P := id) (f := s.leak) (hi.lk h4)
    exact ((hi.value_eq hn (w := true) (l := false) (c := 0) (by omega)).2 ⟨h3, h4, by rw [e1, e2, h5]; rfl⟩).trans WB_eq.symm
  cases hw : s.wpc with
  | lkOr => exact .inr (advW (s := s) .wrun (p := .lkWait) trivial (by simp [step, hw]) (by rw [hw]; decide))
  | ltOr => exact .inr (advW (s := s) .wrun (p := .ltCas) trivial (by simp [step, hw]) (by rw [hw]; decide))
  | lkWait =>
    have hv := hwb (by rw [hw]; rfl) (by rw [hw]; rfl) (by rw [hw]; rfl)
    exact .inr (advW (s := s) .wrun (p := .writing) trivial (by simp [step, hw, hv, show WB &&& RM = 0#32 from by decide]) (by rw [hw]; decide))
  | ltCas =>
    have hv := hwb (by rw [hw]; rfl) (by rw [hw]; rfl) (by rw [hw]; rfl)
    exact .inr (advW (s := s) .wrun (p := .latched) trivial (by simp [step, hw, hv]) (by rw [hw]; decide))
  | ltWait =>
    have hv := hwb (by rw [hw]; rfl) (by rw [hw]; rfl) (by rw [hw]; rfl)
    exact .inr (advW (s := s) .wrun (p := .ltCas) trivial (by simp [step, hw, hv]) (by rw [hw]; decide))
  | writing => exact .inr (advW (s := s) .wunlock (p := .idle) trivial (by simp [step, hw]) (by rw [hw]; decide))
  | latched => exact .inr (advW (s := s) .wunlatch (p := .idle) trivial (by simp [step, hw]) (by rw [hw]; decide))
  | dgAnd => exact .inr (advW (s := s) .wrun (p := .reading) trivial (by simp [step, hw]) (by rw [hw]; decide))
  | reading => exact .inr (advW (s := s) .wrunlock (p := .idle) trivial (by simp [step, hw]) (by rw [hw]; decide))
  | idle =>
    by_cases hid : ∀ t, s.pc t = .idle
    · exact .inl ⟨hw, hid⟩
    refine .inr ?_
    have hb : s.wpc.wb = false := by rw [hw]; rfl
    obtain ⟨t, ht⟩ := not_forall.1 hid
    cases hp : s.pc t with
    | idle => exact absurd hp ht
    | reading => exact absurd ⟨t, hp⟩ h1
    | rDec b => exact absurd ⟨t, b, hp⟩ h2
    | rLoad b =>
      have h0 := (hi.and_WB hn).2 hb
      refine advR (s := s) (.run t) (t := t) (p := .rFaa b) trivial (by simp only [step, hp]; rw [if_neg (by simpa using h0)]; rfl) ?_
      rw [hp, hb]; simp [PC.ra, PC.rc]
    | rFaa b =>
      have h0 := (hi.and_WM0 hn).2 ⟨hb, by rw [hw]; rfl⟩
      refine advR (s := s) (.run t) (t := t) (p := .reading) trivial (by simp only [step, hp]; rw [if_pos h0]; rfl) ?_
      rw [hp, hb]; simp [PC.ra]

/-- The writer waits to latch, reader 0 is inside, reader 1 takes its increment back, reader 2 passed its check. -/
example : ((sys 3).run (initSt 3) [.rlock 0, .run 0, .run 0, .rlock 1, .run 1, .rlock 2, .run 2, .wlatch, .wrun, .run 1, .wrun]).map
    (fun s => (s.wpc, s.pc 0, s.pc 1, s.pc 2)) =
    some (.ltWait, .reading, .rDec false, .rFaa false) := by decide

end Verif.Rw.Swlock
