import Verif.Weak.Tflock

/-!
# Task-fair lock on relaxed memory: exclusion, fairness, and what the holders load (C81)

The invariant of `Verif.Rw.Tflock` holds of the newest values.  A stale value of `completion` could be mistaken for the awaited one after the
counters have wrapped.  The full fence after each request excludes this: every thread passes it between two completions of its own, so a
thread that has passed it misses at most one earlier completion of each thread.
-/

namespace Verif.Weak.Tflock

open Verif
open Verif.Rw.Tflock (PC goalR goalW word f goalR_word goalW_word low_word word_inj f_inj f_le)
open Fas (opt)

variable {n : Nat}

/-- The newest values. -/
def abs (s : St n) : Rw.Tflock.St n :=
  { request := s.mem.last .request, completion := s.mem.last .completion, pc := s.pc, rq := s.rq, wq := s.wq, rc := s.rc, wc := s.wc, r := s.r
    w := s.w }

/-- The view has all stores to the data. -/
def All (m : Mem Loc Word) (v : View Loc) : Prop := ∀ x, m.top (.usr x) ≤ v (.usr x)

theorem All.mono {m : Mem Loc Word} {v w : View Loc} (h : All m v) (hw : ∀ y, v y ≤ w y) : All m w := fun x => Nat.le_trans (h x) (hw _)

theorem All.put {m m' : Mem Loc Word} {v : View Loc} {l : Loc} {a : Word} {w : View Loc} (hm : Put m m' l a w) (hl : ∀ x, .usr x ≠ l)
    (h : All m v) : All m' v := fun x => by rw [hm.top_ne (hl x)]; exact h x

/-! ## Views -/

structure V (m : Mem Loc Word) (sc : View Loc) (th : Fin n → Th Loc) (pc : Fin n → PC) (fen : Fin n → Bool) (rc wc : Nat) (r w : Fin n → Nat)
    (hr : Nat → Nat) : Prop where
  tp : m.top .completion = rc + wc
  ht : hr (m.top .completion) = rc
  h0 : hr 0 = 0
  mono : ∀ i j, i ≤ j → j ≤ m.top .completion → hr i ≤ hr j ∧ i + hr j ≤ j + hr i
  val : ∀ i, i ≤ m.top .completion → (m.msg .completion i).val = word (hr i) (i - hr i)
  own : ∀ j, sc .completion < j → j ≤ m.top .completion → ∃ u, (th u).wr .completion = j
  wcur : ∀ u, (th u).wr .completion ≤ (th u).cur .completion
  past : ∀ u, fen u = false → (pc u).rd = true ∨ (pc u).wr = true → (th u).wr .completion ≤ sc .completion
  dw : ∀ u, fen u = false → (pc u).rd = true ∨ (pc u).wr = true →
    ∀ i, (th u).cur .completion ≤ i → i ≤ m.top .completion → w u + hr i ≤ i + 2 * n
  dr : ∀ u, fen u = false → (pc u).wr = true → ∀ i, (th u).cur .completion ≤ i → i ≤ m.top .completion → r u ≤ hr i + 2 * n
  vw : (∀ u, (pc u).win = false) → ∀ i, i ≤ m.top .completion → i = wc + hr i → All m (m.msg .completion i).view
  cs : ∀ u, pc u = .reading ∨ pc u = .writing → All m (th u).cur
  rl : ∀ u, pc u = .load .wu ∨ (∃ x, pc u = .cas .wu x) → All m (th u).rel
  fe : ∀ u, fen u = true → (∃ x, pc u = .wSpin x) ∨ ∃ x, pc u = .rSpin x

structure Good (s : St n) : Prop where
  sc : Rw.Tflock.Inv (abs s)
  v : V s.mem s.sc s.th s.pc s.fen s.rc s.wc s.r s.w s.hr

section
variable {m m' : Mem Loc Word} {sc : View Loc} {th : Fin n → Th Loc} {pc : Fin n → PC} {fen : Fin n → Bool} {rc wc : Nat} {r w : Fin n → Nat}
  {hr : Nat → Nat}

theorem V.le (h : V m sc th pc fen rc wc r w hr) {i : Nat} (hi : i ≤ m.top .completion) : hr i ≤ rc ∧ i ≤ wc + hr i ∧ hr i ≤ i := by
  have h2 := h.mono 0 i (Nat.zero_le _) hi
  rw [h.h0] at h2
  have h1 := h.mono i _ hi (Nat.le_refl _)
  rw [h.ht, h.tp] at h1
  omega

/-- A step of `t` that does not store; `q` may be after the store of a request. -/
theorem V.go (h : V m sc th pc fen rc wc r w hr) {t : Fin n} {q : Th Loc} {p : PC} {b : Bool} {r' w' : Fin n → Nat}
    (hc : (th t).cur .completion ≤ q.cur .completion) (hw : q.wr .completion = (th t).wr .completion)
    (hr' : ∀ u, u ≠ t → r' u = r u ∧ w' u = w u)
    (hk : b = false → p.rd = true ∨ p.wr = true → fen t = false ∧ r' t = r t ∧ w' t = w t ∧ p.rd = (pc t).rd ∧ p.wr = (pc t).wr)
    (hwin : (pc t).win = true → p.win = true) (hcs : p = .reading ∨ p = .writing → All m q.cur)
    (hrl : p = .load .wu ∨ (∃ x, p = .cas .wu x) → All m q.rel) (hfe : b = true → (∃ x, p = .wSpin x) ∨ ∃ x, p = .rSpin x) :
    V m sc (upd th t q) (upd pc t p) (upd fen t b) rc wc r' w' hr := by
  refine { tp := h.tp, ht := h.ht, h0 := h.h0, mono := h.mono, val := h.val, own := fun j h1 h2 => ?_, wcur := fun u => ?_, past := fun u h1 h2 => ?_
           dw := fun u h1 h2 i h3 h4 => ?_, dr := fun u h1 h2 i h3 h4 => ?_, vw := fun hu => ?_, cs := fun u hu => ?_, rl := fun u hu => ?_
           fe := fun u hu => ?_ }
  · obtain ⟨u, hu⟩ := h.own j h1 h2
    refine ⟨u, ?_⟩
    by_cases e : u = t
    · subst e; rw [upd_same, hw, hu]
    · rw [upd_ne _ _ e, hu]
  · by_cases e : u = t
    · subst e; rw [upd_same, hw]; exact Nat.le_trans (h.wcur u) hc
    · rw [upd_ne _ _ e]; exact h.wcur u
  · by_cases e : u = t
    · subst e
      rw [upd_same] at *
      obtain ⟨k1, k2, k3, k4, k5⟩ := hk h1 h2
      rw [hw]; exact h.past u k1 (by rw [← k4, ← k5]; exact h2)
    · rw [upd_ne _ _ e] at *; exact h.past u h1 h2
  · by_cases e : u = t
    · subst e
      rw [upd_same] at *
      obtain ⟨k1, k2, k3, k4, k5⟩ := hk h1 h2
      rw [k3]; exact h.dw u k1 (by rw [← k4, ← k5]; exact h2) i (Nat.le_trans hc h3) h4
    · rw [upd_ne _ _ e] at *; rw [(hr' u e).2]; exact h.dw u h1 h2 i h3 h4
  · by_cases e : u = t
    · subst e
      rw [upd_same] at *
      obtain ⟨k1, k2, k3, k4, k5⟩ := hk h1 (.inr h2)
      rw [k2]; exact h.dr u k1 (by rw [← k5]; exact h2) i (Nat.le_trans hc h3) h4
    · rw [upd_ne _ _ e] at *; rw [(hr' u e).1]; exact h.dr u h1 h2 i h3 h4
  · refine h.vw fun u => ?_
    have := hu u
    by_cases e : u = t
    · subst e; rw [upd_same] at this
      cases e' : (pc u).win
      · rfl
      · rw [hwin e'] at this; exact this
    · rw [upd_ne _ _ e] at this; exact this
  · by_cases e : u = t
    · subst e; rw [upd_same] at *; exact hcs hu
    · rw [upd_ne _ _ e] at *; exact h.cs u hu
  · by_cases e : u = t
    · subst e; rw [upd_same] at *; exact hrl hu
    · rw [upd_ne _ _ e] at *; exact h.rl u hu
  · by_cases e : u = t
    · subst e; rw [upd_same] at *; exact hfe hu
    · rw [upd_ne _ _ e] at *; exact h.fe u hu

/-- A store to `request`. -/
theorem V.request (h : V m sc th pc fen rc wc r w hr) {a : Word} {v : View Loc} (hm : Put m m' .request a v) :
    V m' sc th pc fen rc wc r w hr := by
  have hc : m'.top .completion = m.top .completion := hm.top_ne (by simp)
  have hl : ∀ x, Loc.usr x ≠ .request := by simp
  have ho : ∀ i, i ≤ m.top .completion → m'.msg .completion i = m.msg .completion i := fun i hi => hm.old _ _ hi
  exact
    { tp := by rw [hc]; exact h.tp, ht := by rw [hc]; exact h.ht, h0 := h.h0, mono := by rw [hc]; exact h.mono
      val := fun i hi => by rw [hc] at hi; rw [ho i hi]; exact h.val i hi
      own := by rw [hc]; exact h.own, wcur := h.wcur, past := h.past, dw := by rw [hc]; exact h.dw, dr := by rw [hc]; exact h.dr
      vw := fun hu i hi he => by rw [hc] at hi; rw [ho i hi]; exact (h.vw hu i hi he).put hm hl
      cs := fun u hu => (h.cs u hu).put hm hl, rl := fun u hu => (h.rl u hu).put hm hl, fe := h.fe }

/-- At most one completion of each thread is not known to the fences. -/
theorem V.few (h : V m sc th pc fen rc wc r w hr) : m.top .completion ≤ sc .completion + n := by
  have hs : Finset.Ioc (sc .completion) (m.top .completion) ⊆ Finset.univ.image fun u => (th u).wr .completion := fun j hj => by
    rw [Finset.mem_Ioc] at hj
    obtain ⟨u, hu⟩ := h.own j hj.1 hj.2
    exact Finset.mem_image.2 ⟨u, Finset.mem_univ u, hu⟩
  have h1 := Finset.card_le_card hs
  have h2 := Finset.card_image_le (s := (Finset.univ : Finset (Fin n))) (f := fun u => (th u).wr .completion)
  rw [Nat.card_Ioc] at h1
  rw [Finset.card_univ, Fintype.card_fin] at h2
  omega

/-- The full fence. -/
theorem V.fence (h : V m sc th pc fen rc wc r w hr) {t : Fin n} (hf : fen t = true)
    (hwb : (pc t).rd = true ∨ (pc t).wr = true → w t ≤ wc + n) (hrb : (pc t).wr = true → r t ≤ rc + n) :
    V m ((th t).fenceSc sc) (upd th t ((th t).fence sc)) pc (upd fen t false) rc wc r w hr := by
  have hge : ∀ y, sc y ≤ (th t).fenceSc sc y := fun y => le_join_right _ _ _
  have hcu : ∀ y, (th t).cur y ≤ (th t).fenceSc sc y := fun y => Nat.le_trans (le_join_left _ _ _) (le_join_left _ _ _)
  have hfew := h.few
  have hsp := h.fe t hf
  refine { tp := h.tp, ht := h.ht, h0 := h.h0, mono := h.mono, val := h.val, own := fun j h1 h2 => ?_, wcur := fun u => ?_, past := fun u h1 h2 => ?_
           dw := fun u h1 h2 i h3 h4 => ?_, dr := fun u h1 h2 i h3 h4 => ?_, vw := h.vw, cs := fun u hu => ?_, rl := fun u hu => ?_
           fe := fun u hu => ?_ }
  · obtain ⟨u, hu⟩ := h.own j (Nat.lt_of_le_of_lt (hge _) h1) h2
    refine ⟨u, ?_⟩
    by_cases e : u = t
    · subst e; rw [upd_same]; exact hu
    · rw [upd_ne _ _ e, hu]
  · by_cases e : u = t
    · subst e; rw [upd_same]; exact Nat.le_trans (h.wcur u) (hcu _)
    · rw [upd_ne _ _ e]; exact h.wcur u
  · by_cases e : u = t
    · subst e; rw [upd_same]; exact Nat.le_trans (h.wcur u) (hcu _)
    · rw [upd_ne _ _ e] at *; exact Nat.le_trans (h.past u h1 h2) (hge _)
  · by_cases e : u = t
    · subst e
      rw [upd_same] at h3
      have h5 : sc .completion ≤ i := Nat.le_trans (hge _) h3
      have h6 := hwb h2
      have h7 := h.mono i _ h4 (Nat.le_refl _)
      have h8 := h.tp
      have h9 := h.ht
      omega
    · rw [upd_ne _ _ e] at *; exact h.dw u h1 h2 i h3 h4
  · by_cases e : u = t
    · subst e
      rw [upd_same] at h3
      have h5 : sc .completion ≤ i := Nat.le_trans (hge _) h3
      have h6 := hrb h2
      have h7 := h.mono i _ h4 (Nat.le_refl _)
      have h8 := h.tp
      have h9 := h.ht
      omega
    · rw [upd_ne _ _ e] at *; exact h.dr u h1 h2 i h3 h4
  · by_cases e : u = t
    · subst e; rcases hsp with ⟨x, hx⟩ | ⟨x, hx⟩ <;> rw [hx] at hu <;> rcases hu with hu | hu <;> cases hu
    · rw [upd_ne _ _ e] at *; exact h.cs u hu
  · by_cases e : u = t
    · subst e; rcases hsp with ⟨x, hx⟩ | ⟨x, hx⟩ <;> rw [hx] at hu <;> rcases hu with hu | ⟨y, hu⟩ <;> cases hu
    · rw [upd_ne _ _ e] at *; exact h.rl u hu
  · by_cases e : u = t
    · subst e; rw [upd_same] at hu; cases hu
    · rw [upd_ne _ _ e] at *; exact h.fe u hu

/-- A completion by `t`. -/
theorem V.complete (h : V m sc th pc fen rc wc r w hr) {t : Fin n} {a : Word} {rc' wc' : Nat} (hin : (pc t).rin = true ∨ (pc t).win = true)
    (hcnt : rc' = rc ∧ wc' = wc + 1 ∨ rc' = rc + 1 ∧ wc' = wc) (ha : a = word rc' wc')
    (hwb : ∀ u, u ≠ t → (pc u).rd = true ∨ (pc u).wr = true → w u ≤ wc' + n) (hrb : ∀ u, u ≠ t → (pc u).wr = true → r u ≤ rc' + n)
    (hall : rc' = rc → All m (th t).rel) (hex : (pc t).win = true → rc' = rc) :
    V (m.rmw (th t) .completion a) sc (upd th t ((th t).rmw m .completion)) (upd pc t .idle) fen rc' wc' r w
      (upd hr (m.top .completion + 1) rc') := by
  have hm := Put.rmw m (th t) .completion a
  have hl : ∀ x, Loc.usr x ≠ .completion := by simp
  have htop : (m.rmw (th t) .completion a).top .completion = m.top .completion + 1 := by rw [hm.top, if_pos rfl]
  have hT := h.tp
  have hH := h.ht
  have hold : ∀ i, i ≤ m.top .completion → upd hr (m.top .completion + 1) rc' i = hr i := fun i hi => upd_ne _ _ (by omega)
  have hft : fen t = false := by
    cases e : fen t
    · rfl
    · rcases h.fe t e with ⟨x, hx⟩ | ⟨x, hx⟩ <;> rw [hx] at hin <;> rcases hin with hin | hin <;> cases hin
  have hact : (pc t).rd = true ∨ (pc t).wr = true := by
    rcases hp : pc t with _ | o | ⟨o, x⟩ | x | x | _ | _ <;> rw [hp] at hin <;> try (cases o) <;> simp at hin ⊢
    all_goals simp at hin ⊢
  refine { tp := ?_, ht := ?_, h0 := by rw [hold 0 (Nat.zero_le _), h.h0], mono := fun i j h1 h2 => ?_, val := fun i hi => ?_, own := fun j h1 h2 => ?_, wcur := fun u => ?_
           past := fun u h1 h2 => ?_, dw := fun u h1 h2 i h3 h4 => ?_, dr := fun u h1 h2 i h3 h4 => ?_, vw := fun hu i hi he => ?_
           cs := fun u hu => ?_, rl := fun u hu => ?_, fe := fun u hu => ?_ }
  · rw [htop]; omega
  · rw [htop, upd_same]
  · rw [htop] at h2
    by_cases e : j ≤ m.top .completion
    · rw [hold j e, hold i (by omega)]; exact h.mono i j h1 e
    · obtain rfl : j = m.top .completion + 1 := by omega
      rw [upd_same]
      by_cases e' : i ≤ m.top .completion
      · rw [hold i e']; have := h.mono i _ e' (Nat.le_refl _); omega
      · obtain rfl : i = m.top .completion + 1 := by omega
        rw [upd_same]; omega
  · rw [htop] at hi
    by_cases e : i ≤ m.top .completion
    · rw [hold i e, hm.old _ _ e]; exact h.val i e
    · obtain rfl : i = m.top .completion + 1 := by omega
      rw [upd_same, hm.new, ha]
      simp only
      congr 1; omega
  · rw [htop] at h2
    by_cases e : j ≤ m.top .completion
    · obtain ⟨u, hu⟩ := h.own j h1 e
      have hne : u ≠ t := by
        rintro rfl
        have := h.past u hft hact
        omega
      exact ⟨u, by rw [upd_ne _ _ hne]; exact hu⟩
    · exact ⟨t, by rw [upd_same]; simp only [Th.rmw, Th.store, upd_same]; omega⟩
  · by_cases e : u = t
    · subst e; rw [upd_same]; simp [Th.rmw, Th.store]
    · rw [upd_ne _ _ e]; exact h.wcur u
  · by_cases e : u = t
    · subst e; rw [upd_same] at h2; rcases h2 with h2 | h2 <;> cases h2
    · rw [upd_ne _ _ e] at *; exact h.past u h1 h2
  · by_cases e : u = t
    · subst e; rw [upd_same] at h2; rcases h2 with h2 | h2 <;> cases h2
    · rw [upd_ne _ _ e] at *
      rw [htop] at h4
      by_cases e' : i ≤ m.top .completion
      · rw [hold i e']; exact h.dw u h1 h2 i h3 e'
      · obtain rfl : i = m.top .completion + 1 := by omega
        rw [upd_same]; have := hwb u e h2; omega
  · by_cases e : u = t
    · subst e; rw [upd_same] at h2; cases h2
    · rw [upd_ne _ _ e] at *
      rw [htop] at h4
      by_cases e' : i ≤ m.top .completion
      · rw [hold i e']; exact h.dr u h1 h2 i h3 e'
      · obtain rfl : i = m.top .completion + 1 := by omega
        rw [upd_same]; have := hrb u e h2; omega
  · rw [htop] at hi
    refine All.put hm hl ?_
    by_cases e : i ≤ m.top .completion
    · rw [hold i e] at he
      have := h.le e
      rcases hcnt with hc | hc
      · omega
      · rw [hm.old _ _ e]
        refine h.vw (fun u => ?_) i e (by omega)
        have := hu u
        by_cases e : u = t
        · subst e
          cases e' : (pc u).win
          · rfl
          · have := hex e'; omega
        · rw [upd_ne _ _ e] at this; exact this
    · obtain rfl : i = m.top .completion + 1 := by omega
      rw [hm.new]
      intro x
      simp only [upd_ne _ _ (hl x)]
      rcases hcnt with hc | hc
      · exact Nat.le_trans (hall hc.1 x) (le_join_left _ _ _)
      · refine Nat.le_trans (h.vw (fun u => ?_) _ (Nat.le_refl _) (by omega) x) (le_join_right _ _ _)
        have := hu u
        by_cases e : u = t
        · subst e
          cases e' : (pc u).win
          · rfl
          · have := hex e'; omega
        · rw [upd_ne _ _ e] at this; exact this
  · by_cases e : u = t
    · subst e; rw [upd_same] at hu; rcases hu with hu | hu <;> cases hu
    · rw [upd_ne _ _ e] at *; exact (h.cs u hu).put hm hl
  · by_cases e : u = t
    · subst e; rw [upd_same] at hu; rcases hu with hu | ⟨x, hu⟩ <;> cases hu
    · rw [upd_ne _ _ e] at *; exact (h.rl u hu).put hm hl
  · by_cases e : u = t
    · subst e; rw [hft] at hu; cases hu
    · rw [upd_ne _ _ e]; exact h.fe u hu

end

/-! ## Steps -/

theorem wb {s : Rw.Tflock.St n} (hi : Rw.Tflock.Inv s) {u : Fin n} (hu : (s.pc u).rd = true ∨ (s.pc u).wr = true) : s.wc ≤ s.w u ∧ s.w u ≤ s.wc + n := by
  have b2 := hi.t.b2 u hu
  have l2 := cnt_le id (fun v => (s.pc v).wr && decide (s.r v + s.w v < s.r u + s.w u))
  rw [Rw.Tflock.bef] at b2
  omega

theorem rb {s : Rw.Tflock.St n} (hi : Rw.Tflock.Inv s) {u : Fin n} (hu : (s.pc u).wr = true) : s.rc ≤ s.r u ∧ s.r u ≤ s.rc + n := by
  have b2 := hi.t.b1 u hu
  have l2 := cnt_le id (fun v => (s.pc v).rd && decide (s.r v + s.w v < s.r u + s.w u))
  rw [Rw.Tflock.bef] at b2
  omega

theorem nf {s : St n} (hg : Good s) {t : Fin n} (h1 : ∀ x, s.pc t ≠ .wSpin x) (h2 : ∀ x, s.pc t ≠ .rSpin x) : s.fen t = false := by
  cases e : s.fen t
  · rfl
  · rcases hg.v.fe t e with ⟨x, hx⟩ | ⟨x, hx⟩
    · exact absurd hx (h1 x)
    · exact absurd hx (h2 x)

/-- A step of `t` that neither stores nor changes which requests are open or inside, nor the fence. -/
theorem Good.quiet {s : St n} (hg : Good s) {t : Fin n} {q : Th Loc} {p : PC} (hc : ∀ y, (s.th t).cur y ≤ q.cur y) (hw : q.wr = (s.th t).wr)
    (h1 : p.rd = (s.pc t).rd) (h2 : p.wr = (s.pc t).wr) (h3 : p.rin = (s.pc t).rin) (h4 : p.win = (s.pc t).win)
    (h5 : ∀ x, p ≠ .wSpin x) (h6 : ∀ x, p ≠ .rSpin x) (h7 : s.fen t = false) (hcs : p = .reading ∨ p = .writing → All s.mem q.cur)
    (hrl : p = .load .wu ∨ (∃ x, p = .cas .wu x) → All s.mem q.rel) :
    Good { s with th := upd s.th t q, pc := upd s.pc t p } := by
  refine ⟨Rw.Tflock.Inv.silent hg.sc (t := t) h1 h2 h3 h4 h5 h6, ?_⟩
  have := hg.v.go (t := t) (q := q) (p := p) (b := s.fen t) (r' := s.r) (w' := s.w) (hc _) (by rw [hw]) (fun _ _ => ⟨rfl, rfl⟩)
    (fun hb _ => ⟨hb, rfl, rfl, h1, h2⟩) (fun e => by rw [h4, e]) hcs hrl (fun e => by rw [h7] at e; cases e)
  rwa [upd_eq_self] at this

theorem Good.load {s : St n} (hg : Good s) {t : Fin n} {o : Rw.Tflock.Op} {i : Nat} {x : Word} (hp : s.pc t = .load o ∨ ∃ y, s.pc t = .cas o y) :
    Good { s with th := upd s.th t ((s.th t).load s.mem (target o) i), pc := upd s.pc t (.cas o x) } := by
  have e : ∀ g : PC → Bool, (∀ y, g (.cas o y) = g (.load o)) → g (.cas o x) = g (s.pc t) := fun g hg => by
    rcases hp with hp | ⟨y, hp⟩ <;> rw [hp, hg]
    rw [hg]
  refine hg.quiet (Th.load_cur_le _ _ _ _) rfl (e _ ?_) (e _ ?_) (e _ ?_) (e _ ?_) nofun nofun (nf hg ?_ ?_) (by rintro (h | h) <;> cases h) ?_
  · intro y; cases o <;> rfl
  · intro y; cases o <;> rfl
  · intro y; cases o <;> rfl
  · intro y; cases o <;> rfl
  · intro y; rcases hp with hp | ⟨y, hp⟩ <;> rw [hp] <;> simp
  · intro y; rcases hp with hp | ⟨y, hp⟩ <;> rw [hp] <;> simp
  · rintro (h | ⟨y, h⟩)
    · cases h
    · obtain rfl : o = .wu := by injection h
      exact hg.v.rl t (by rcases hp with hp | ⟨y, hp⟩; exacts [.inl hp, .inr ⟨y, hp⟩])

theorem good_cas {s s' : St n} (hn : 2 * n < 2 ^ 15) (hg : Good s) {t : Fin n} {i : Nat} {o : Rw.Tflock.Op} {x : Word} (hp : s.pc t = .cas o x)
    (hs : step real s (.run t i) = some s') : Good s' := by
  have hn' : n < 2 ^ 15 := by omega
  have hf : s.fen t = false := nf hg (by simp [hp]) (by simp [hp])
  cases o <;> simp only [step, hp] at hs <;> split at hs <;> simp only [Option.some.injEq, reduceCtorEq] at hs <;> subst hs <;> rename_i hx
  case wl =>
    have hm := Put.rmw s.mem (s.th t) .request (goalW x)
    refine ⟨Rw.Tflock.inv_step hn' (a := .run t) hg.sc ?_, ?_⟩
    · simp only [Rw.Tflock.step, abs, hp, hx, if_true, hm.last, reduceCtorEq, if_false]
    · exact (hg.v.request hm).go (Th.rmw_cur_le _ _ _ (by simp)) (by simp [Th.rmw, Th.store, Th.load, upd_ne])
        (fun u hu => ⟨upd_ne _ _ hu, upd_ne _ _ hu⟩) nofun (by simp [hp]) (by simp) (by simp) (by simp)
  case rl =>
    have hm := Put.rmw s.mem (s.th t) .request (goalR x)
    refine ⟨Rw.Tflock.inv_step hn' (a := .run t) hg.sc ?_, ?_⟩
    · simp only [Rw.Tflock.step, abs, hp, hx, if_true, hm.last, reduceCtorEq, if_false]
    · exact (hg.v.request hm).go (Th.rmw_cur_le _ _ _ (by simp)) (by simp [Th.rmw, Th.store, Th.load, upd_ne])
        (fun u hu => ⟨upd_ne _ _ hu, upd_ne _ _ hu⟩) nofun (by simp [hp]) (by simp) (by simp) (by simp)
  case wu =>
    have hm := Put.rmw s.mem (s.th t) .completion (goalW x)
    refine ⟨Rw.Tflock.inv_step hn' (a := .run t) hg.sc ?_, ?_⟩
    · simp only [Rw.Tflock.step, abs, hp, hx, if_true, hm.last, reduceCtorEq, if_false]
    · have hv : s.mem.last .completion = word s.rc s.wc := hg.sc.comp
      refine hg.v.complete (.inr (by rw [hp]; rfl)) (.inl ⟨rfl, rfl⟩) (by rw [← hx, hv, goalW_word]) (fun u hu h => ?_) (fun u hu h => (rb hg.sc h).2)
        (fun _ => hg.v.rl t (.inr ⟨x, hp⟩)) (fun _ => rfl)
      have := (wb hg.sc h).2
      simp only [abs] at this ⊢
      omega
  case ru =>
    have hm := Put.rmw s.mem (s.th t) .completion (goalR x)
    refine ⟨Rw.Tflock.inv_step hn' (a := .run t) hg.sc ?_, ?_⟩
    · simp only [Rw.Tflock.step, abs, hp, hx, if_true, hm.last, reduceCtorEq, if_false]
    · have hv : s.mem.last .completion = word s.rc s.wc := hg.sc.comp
      refine hg.v.complete (.inl (by rw [hp]; rfl)) (.inr ⟨rfl, rfl⟩) (by rw [← hx, hv, goalR_word]) (fun u hu h => (wb hg.sc h).2) (fun u hu h => ?_)
        (fun h => by simp at h) (fun h => by rw [hp] at h; cases h)
      have := (rb hg.sc h).2
      simp only [abs] at this ⊢
      omega

theorem good_fence {s : St n} (hg : Good s) {t : Fin n} (hf : s.fen t = true) :
    Good { s with sc := (s.th t).fenceSc s.sc, th := upd s.th t ((s.th t).fence s.sc), fen := upd s.fen t false } :=
  ⟨hg.sc, hg.v.fence hf (fun h => (wb hg.sc h).2) (fun h => (rb hg.sc h).2)⟩

theorem good_wSpin {s s' : St n} (hn : 2 * n < 2 ^ 15) (hg : Good s) {t : Fin n} {i : Nat} {p : Word} (hp : s.pc t = .wSpin p)
    (hs : step real s (.run t i) = some s') : Good s' := by
  simp only [step, hp, real, if_true] at hs
  split at hs
  · next hf => simp only [Option.some.injEq] at hs; subst hs; exact good_fence hg hf
  next hf =>
  rw [Bool.not_eq_true] at hf
  split at hs
  · next hm =>
    split at hs <;> simp only [Option.some.injEq] at hs <;> subst hs
    · next hv =>
      have hact : (s.pc t).wr = true := by rw [hp]; rfl
      have e := hg.sc.p1 t p hp
      rw [← hv, hg.v.val i hm.2] at e
      have e := word_inj e
      have h1 := hg.v.dr t hf hact i hm.1 hm.2
      have h2 := hg.v.dw t hf (.inr hact) i hm.1 hm.2
      have h3 := hg.v.le hm.2
      have h4 := (rb hg.sc hact).1
      have h5 := (wb hg.sc (.inr hact)).1
      have h8 := hg.v.tp
      simp only [abs] at e h4 h5
      have h6 := f_inj e.1 (by omega) (by omega)
      have h7 := f_inj e.2 (by omega) (by omega)
      have hi : i = s.mem.top .completion := by omega
      have hsc : Rw.Tflock.Inv (abs { s with th := upd s.th t (opt true Th.fenceAcq ((s.th t).load s.mem .completion i)), pc := upd s.pc t .writing }) := by
        refine Rw.Tflock.inv_step (by omega) (a := .run t) hg.sc ?_
        simp only [Rw.Tflock.step, abs, hp, Mem.last, ← hi, hv, if_true]
      refine ⟨hsc, ?_⟩
      have hno : ∀ u, (s.pc u).win = false := fun u => by
        cases eu : (s.pc u).win
        · rfl
        · have hu : u ≠ t := by rintro rfl; rw [hp] at eu; cases eu
          refine absurd (hsc.excl.1 u t (Rw.Tflock.writes_iff.2 ?_) (Rw.Tflock.writes_iff.2 ?_)) hu
          · simpa [abs, upd_ne _ _ hu] using eu
          · simp [abs]
      have := hg.v.go (t := t) (q := opt true Th.fenceAcq ((s.th t).load s.mem .completion i)) (p := .writing) (b := s.fen t) (r' := s.r) (w' := s.w)
        (Nat.le_trans (Th.load_cur_le _ _ _ _ _) (le_join_left _ _ _)) rfl (fun _ _ => ⟨rfl, rfl⟩) (fun hb _ => ⟨hb, rfl, rfl, by rw [hp]; rfl, by rw [hp]; rfl⟩)
        (fun _ => rfl)
        (fun _ => (hg.v.vw hno i hm.2 (by omega)).mono fun _ => Nat.le_trans (Th.load_view_le _ _ _ _ _) (le_join_right _ _ _)) (by simp)
        (fun e => by rw [hf] at e; cases e)
      rwa [upd_eq_self] at this
    · refine ⟨hg.sc, ?_⟩
      have := hg.v.go (t := t) (q := (s.th t).load s.mem .completion i) (p := s.pc t) (b := s.fen t) (r' := s.r) (w' := s.w)
        (Th.load_cur_le _ _ _ _ _) rfl (fun _ _ => ⟨rfl, rfl⟩) (fun hb _ => ⟨hb, rfl, rfl, rfl, rfl⟩) id (by simp [hp]) (by simp [hp]) (by simp [hp])
      rwa [upd_eq_self, upd_eq_self] at this
  · cases hs

theorem good_rSpin {s s' : St n} (hn : 2 * n < 2 ^ 15) (hg : Good s) {t : Fin n} {i : Nat} {p : Word} (hp : s.pc t = .rSpin p)
    (hs : step real s (.run t i) = some s') : Good s' := by
  simp only [step, hp, real, if_true] at hs
  split at hs
  · next hf => simp only [Option.some.injEq] at hs; subst hs; exact good_fence hg hf
  next hf =>
  rw [Bool.not_eq_true] at hf
  split at hs
  · next hm =>
    split at hs <;> simp only [Option.some.injEq] at hs <;> subst hs
    · next hv =>
      have hact : (s.pc t).rd = true := by rw [hp]; rfl
      have e := hg.sc.p2 t p hp
      have e' := e
      rw [← hv, hg.v.val i hm.2, low_word] at e
      have e := congrArg BitVec.toNat e
      have l1 := f_le (i - s.hr i)
      have l2 := f_le (s.w t)
      simp only [BitVec.toNat_ofNat, abs] at e
      have h2 := hg.v.dw t hf (.inl hact) i hm.1 hm.2
      have h3 := hg.v.le hm.2
      have h5 := (wb hg.sc (.inl hact)).1
      simp only [abs] at h5
      have h7 := f_inj (a := i - s.hr i) (b := s.w t) (by omega) (by omega) (by omega)
      have h9 := hg.v.mono i _ hm.2 (Nat.le_refl _)
      have h10 := hg.v.ht
      have h8 := hg.v.tp
      have hwc : s.w t = s.wc := by omega
      have hlast : s.mem.last .completion &&& 0xffff#32 = p := by
        have : s.mem.last .completion = word s.rc s.wc := hg.sc.comp
        rw [this, low_word, e', ← hwc]
        rfl
      have hsc : Rw.Tflock.Inv (abs { s with th := upd s.th t (opt true Th.fenceAcq ((s.th t).load s.mem .completion i)), pc := upd s.pc t .reading }) := by
        refine Rw.Tflock.inv_step (by omega) (a := .run t) hg.sc ?_
        simp only [Rw.Tflock.step, abs, hp, hlast, if_true]
      refine ⟨hsc, ?_⟩
      have hno : ∀ u, (s.pc u).win = false := fun u => by
        cases eu : (s.pc u).win
        · rfl
        · have hu : u ≠ t := by rintro rfl; rw [hp] at eu; cases eu
          refine (hsc.excl.2 u t (Rw.Tflock.writes_iff.2 ?_) (Rw.Tflock.reads_iff.2 ?_)).elim
          · simpa [abs, upd_ne _ _ hu] using eu
          · simp [abs]
      have := hg.v.go (t := t) (q := opt true Th.fenceAcq ((s.th t).load s.mem .completion i)) (p := .reading) (b := s.fen t) (r' := s.r) (w' := s.w)
        (Nat.le_trans (Th.load_cur_le _ _ _ _ _) (le_join_left _ _ _)) rfl (fun _ _ => ⟨rfl, rfl⟩) (fun hb _ => ⟨hb, rfl, rfl, by rw [hp]; rfl, by rw [hp]; rfl⟩)
        (fun e => by rw [hp] at e; cases e)
        (fun _ => (hg.v.vw hno i hm.2 (by omega)).mono fun _ => Nat.le_trans (Th.load_view_le _ _ _ _ _) (le_join_right _ _ _)) (by simp)
        (fun e => by rw [hf] at e; cases e)
      rwa [upd_eq_self] at this
    · refine ⟨hg.sc, ?_⟩
      have := hg.v.go (t := t) (q := (s.th t).load s.mem .completion i) (p := s.pc t) (b := s.fen t) (r' := s.r) (w' := s.w)
        (Th.load_cur_le _ _ _ _ _) rfl (fun _ _ => ⟨rfl, rfl⟩) (fun hb _ => ⟨hb, rfl, rfl, rfl, rfl⟩) id (by simp [hp]) (by simp [hp]) (by simp [hp])
      rwa [upd_eq_self, upd_eq_self] at this
  · cases hs

theorem good_read {s : St n} (hg : Good s) {t : Fin n} {x i : Nat} (hp : s.pc t = .reading ∨ s.pc t = .writing) :
    Good { s with th := upd s.th t ((s.th t).load s.mem (.usr x) i) } := by
  refine ⟨hg.sc, ?_⟩
  have := hg.v.go (t := t) (q := (s.th t).load s.mem (.usr x) i) (p := s.pc t) (b := s.fen t) (r' := s.r) (w' := s.w)
    (Th.load_cur_le _ _ _ _ _) rfl (fun _ _ => ⟨rfl, rfl⟩) (fun hb _ => ⟨hb, rfl, rfl, rfl, rfl⟩) id
    (fun h => (hg.v.cs t h).mono (Th.load_cur_le _ _ _ _)) (by rcases hp with hp | hp <;> simp [hp]) (hg.v.fe t)
  rwa [upd_eq_self, upd_eq_self] at this

theorem good_write {s : St n} (hg : Good s) {t : Fin n} {x : Nat} {v : Word} (hp : s.pc t = .writing) :
    Good { s with mem := s.mem.store (s.th t) (.usr x) v, th := upd s.th t ((s.th t).store s.mem (.usr x)) } := by
  have hm := Put.store s.mem (s.th t) (.usr x) v
  have hwt : (abs s).writes t := .inl hp
  have hex := hg.sc.excl
  have hc : (s.mem.store (s.th t) (.usr x) v).top .completion = s.mem.top .completion := hm.top_ne (by simp)
  have ho : ∀ i, i ≤ s.mem.top .completion → (s.mem.store (s.th t) (.usr x) v).msg .completion i = s.mem.msg .completion i := fun i hi => hm.old _ _ hi
  refine ⟨?_, ?_⟩
  · have : abs { s with mem := s.mem.store (s.th t) (.usr x) v, th := upd s.th t ((s.th t).store s.mem (.usr x)) } = abs s := by
      simp [abs, hm.last]
    rw [this]; exact hg.sc
  have hcur : ∀ u, (upd s.th t ((s.th t).store s.mem (.usr x)) u).cur .completion = (s.th u).cur .completion := fun u => by
    by_cases e : u = t
    · subst e; rw [upd_same]; simp [Th.store, upd_ne]
    · rw [upd_ne _ _ e]
  have hwr : ∀ u, (upd s.th t ((s.th t).store s.mem (.usr x)) u).wr .completion = (s.th u).wr .completion := fun u => by
    by_cases e : u = t
    · subst e; rw [upd_same]; simp [Th.store, upd_ne]
    · rw [upd_ne _ _ e]
  exact
    { tp := by rw [hc]; exact hg.v.tp, ht := by rw [hc]; exact hg.v.ht, h0 := hg.v.h0, mono := by rw [hc]; exact hg.v.mono
      val := fun i hi => by rw [hc] at hi; simp only [ho i hi]; exact hg.v.val i hi
      own := by simp only [hc, hwr]; exact hg.v.own
      wcur := by simp only [hcur, hwr]; exact hg.v.wcur
      past := by simp only [hwr]; exact hg.v.past
      dw := by simp only [hc, hcur]; exact hg.v.dw
      dr := by simp only [hc, hcur]; exact hg.v.dr
      vw := fun hu => by have := hu t; simp only [hp] at this; cases this
      cs := fun u hu => by
        have e : u = t := by
          rcases hu with hu | hu
          · exact (hex.2 t u hwt (.inl hu)).elim
          · exact hex.1 u t (.inl hu) hwt
        subst e
        simp only [upd_same]
        intro y
        rw [hm.top]
        simp only [Th.store, upd_apply, Loc.usr.injEq]
        split
        · exact Nat.le_refl _
        · exact hg.v.cs u (.inr hp) y
      rl := fun u hu => by
        have e : u = t := hex.1 u t (.inr hu) hwt
        subst e
        simp only [hp] at hu
        rcases hu with hu | ⟨y, hu⟩ <;> cases hu
      fe := hg.v.fe }

theorem good_step {s s' : St n} {a : Act n} (hn : 2 * n < 2 ^ 15) (hg : Good s) (hs : step real s a = some s') : Good s' := by
  cases a with
  | wlock t =>
    simp only [step] at hs
    split at hs <;> simp only [Option.some.injEq, reduceCtorEq] at hs
    next hp =>
    subst hs
    have := hg.quiet (t := t) (q := s.th t) (p := .load .wl) (fun _ => Nat.le_refl _) rfl (by simp [hp]) (by simp [hp]) (by simp [hp]) (by simp [hp])
      nofun nofun (nf hg (by simp [hp]) (by simp [hp])) (by simp) (by simp)
    rwa [upd_eq_self] at this
  | rlock t =>
    simp only [step] at hs
    split at hs <;> simp only [Option.some.injEq, reduceCtorEq] at hs
    next hp =>
    subst hs
    have := hg.quiet (t := t) (q := s.th t) (p := .load .rl) (fun _ => Nat.le_refl _) rfl (by simp [hp]) (by simp [hp]) (by simp [hp]) (by simp [hp])
      nofun nofun (nf hg (by simp [hp]) (by simp [hp])) (by simp) (by simp)
    rwa [upd_eq_self] at this
  | wunlock t =>
    simp only [step] at hs
    split at hs <;> simp only [Option.some.injEq, reduceCtorEq] at hs
    next hp =>
    subst hs
    exact hg.quiet (t := t) (p := .load .wu) (fun _ => Nat.le_refl _) rfl (by simp [hp]) (by simp [hp]) (by simp [hp]) (by simp [hp])
      nofun nofun (nf hg (by simp [hp]) (by simp [hp])) (by simp) (fun _ => (hg.v.cs t (.inr hp)).mono fun _ => le_join_right _ _ _)
  | runlock t =>
    simp only [step] at hs
    split at hs <;> simp only [Option.some.injEq, reduceCtorEq] at hs
    next hp =>
    subst hs
    exact hg.quiet (t := t) (p := .load .ru) (fun _ => Nat.le_refl _) rfl (by simp [hp]) (by simp [hp]) (by simp [hp]) (by simp [hp])
      nofun nofun (nf hg (by simp [hp]) (by simp [hp])) (by simp) (by simp)
  | run t i =>
    cases hp : s.pc t
    case load o =>
      simp only [step, hp] at hs
      split at hs <;> simp only [Option.some.injEq, reduceCtorEq] at hs
      subst hs
      exact hg.load (.inl hp)
    case cas o x => exact good_cas hn hg hp hs
    case wSpin p => exact good_wSpin hn hg hp hs
    case rSpin p => exact good_rSpin hn hg hp hs
    all_goals (simp only [step, hp] at hs; cases hs)
  | fail t i =>
    simp only [step] at hs
    split at hs
    · next o x hp =>
      split at hs <;> simp only [Option.some.injEq, reduceCtorEq] at hs
      subst hs
      exact hg.load (.inr ⟨x, hp⟩)
    · cases hs
  | read t x i =>
    simp only [step] at hs
    split at hs <;> simp only [Option.some.injEq, reduceCtorEq] at hs
    next hp => subst hs; exact good_read hg hp.1
  | write t x v =>
    simp only [step] at hs
    split at hs <;> simp only [Option.some.injEq, reduceCtorEq] at hs
    next hp => subst hs; exact good_write hg hp

theorem good_reach (hn : 2 * n < 2 ^ 15) {s : St n} (h : (sys real n).Reach s) : Good s := by
  refine h.invariant (I := Good) ?_ (fun _ _ _ hi hs => good_step hn hi hs)
  rintro s rfl
  refine ⟨Rw.Tflock.init_inv, ?_⟩
  have hz : ∀ i : Nat, i ≤ 0 → i = 0 := fun i => Nat.le_zero.1
  exact
    { tp := rfl, ht := rfl, h0 := rfl, mono := fun i j h1 h2 => ⟨Nat.le_refl _, h1⟩
      val := fun i hi => by rw [hz i hi]; exact (Rw.Tflock.init_inv (n := n)).comp
      own := fun j h1 h2 => absurd h1 (by rw [hz j h2]; simp), wcur := fun _ => Nat.le_refl _
      past := fun u _ h => by rcases h with h | h <;> cases h
      dw := fun u _ h => by (rcases h with h | h <;> cases h)
      dr := fun u _ h => by cases h
      vw := fun _ _ _ _ _ => Nat.zero_le _
      cs := fun u h => by rcases h with h | h <;> cases h
      rl := fun u h => by (rcases h with h | ⟨x, h⟩ <;> cases h)
      fe := fun u h => by cases h }

/-! ## Property theorems -/

/-- C81: a writer is alone, for fewer than 2^14 threads and any number of earlier acquisitions. -/
theorem rw_exclusion (hn : n < 2 ^ 14) {s : St n} (h : (sys real n).Reach s) : Spec.RwEx s.reads s.writes :=
  (good_reach (by omega) h).sc.excl

/-- C81: task fairness.  A writer is inside only if all earlier requests were completed, a reader only if all earlier write requests were. -/
theorem task_fair (hn : n < 2 ^ 14) {s : St n} (h : (sys real n).Reach s) (t u : Fin n) :
    (s.writes t → (s.wreq u ∨ s.rreq u) → u ≠ t → s.ix t < s.ix u) ∧ (s.reads t → s.wreq u → s.ix t < s.ix u) :=
  (good_reach (by omega) h).sc.fair t u

/-- C81: whatever a thread loads while it holds the lock is the value stored last, by whichever thread. -/
theorem reads_last (hn : n < 2 ^ 14) {s s' : St n} (h : (sys real n).Reach s) {t : Fin n} {x i : Nat}
    (hs : (sys real n).step s (.read t x i) = some s') : (s.mem.msg (.usr x) i).val = s.mem.last (.usr x) := by
  simp only [sys, step] at hs
  split at hs
  · next hp =>
    have h1 := (good_reach (by omega) h).v.cs t hp.1 x
    have h2 := hp.2.1
    have h3 := hp.2.2
    rw [show i = s.mem.top (.usr x) from Nat.le_antisymm h3 (Nat.le_trans h1 h2)]
    rfl
  · cases hs

/-! ## The fences are needed -/

/-- After the run `as`, thread 1 can load the initial value of data word 0. -/
def stale (fc : Fences) (as : List (Act 2)) : Bool := ((sys fc 2).run (initSt 2) (as ++ [.read 1 0 0])).isSome

/-- Thread 0 takes the write lock, stores 5 and unlocks. -/
def wrote : List (Act 2) := [.wlock 0, .run 0 0, .run 0 0, .run 0 0, .run 0 0, .write 0 0 5, .wunlock 0, .run 0 0, .run 0 0]

/-- Then thread 1 takes the read lock, or the write lock. -/
def rthen : List (Act 2) := wrote ++ [.rlock 1, .run 1 1, .run 1 0, .run 1 0, .run 1 1]
def wthen : List (Act 2) := wrote ++ [.wlock 1, .run 1 0, .fail 1 1, .run 1 0, .run 1 0, .run 1 1]

theorem no_fence_lock : stale { real with lock := false } rthen = true ∧ stale { real with lock := false } wthen = true := by decide +kernel

theorem no_fence_unlock : stale { real with unlock := false } rthen = true ∧ stale { real with unlock := false } wthen = true := by decide +kernel

/-- With the fences thread 1 loads 5. -/
example : ∀ as ∈ [rthen, wthen], stale real as = false ∧ ((sys real 2).run (initSt 2) (as ++ [.read 1 0 1])).isSome = true := by decide +kernel

/-- Without the full fence. -/
def noAl : Fences := { real with al := false }

/-- Thread 0 has made `k` write requests and `j` completions, thread 1 nothing. -/
structure K (s : St 2) (k j : Nat) : Prop where
  re : (sys noAl 2).Reach s
  rq : s.mem.last .request = word 0 k
  cp : s.mem.last .completion = word 0 j
  tp : s.mem.top .completion = j
  m1 : 1 ≤ j → (s.mem.msg .completion 1).val = word 0 1
  mw : s.mem.Wf
  w0 : (s.th 0).Wf s.mem
  t1 : s.th 1 = Th.init
  p1 : s.pc 1 = .idle

theorem K.same {s s' : St 2} {k j : Nat} (h : K s k j) {a : Act 2} (hs : (sys noAl 2).step s a = some s') (hm : s'.mem = s.mem)
    (hw : (s'.th 0).Wf s.mem) (ht : s'.th 1 = s.th 1) (hp : s'.pc 1 = s.pc 1) : K s' k j :=
  { re := h.re.step hs, rq := by rw [hm]; exact h.rq, cp := by rw [hm]; exact h.cp, tp := by rw [hm]; exact h.tp, m1 := by rw [hm]; exact h.m1
    mw := by rw [hm]; exact h.mw, w0 := by rw [hm]; exact hw, t1 := by rw [ht]; exact h.t1, p1 := by rw [hp]; exact h.p1 }

theorem K.lock {s : St 2} {k : Nat} (h : K s k k) (hp : s.pc 0 = .idle) : ∃ s', K s' (k + 1) k ∧ s'.pc 0 = .writing := by
  obtain ⟨s1, e1, m1, t1, p1, q1⟩ : ∃ s1, (sys noAl 2).step s (.wlock 0) = some s1 ∧ s1.mem = s.mem ∧ s1.th = s.th ∧
      s1.pc 1 = s.pc 1 ∧ s1.pc 0 = .load .wl :=
    ⟨_, by simp only [sys, step, hp, if_true]; rfl, by rfl, by rfl, by rfl, by rfl⟩
  have k1 := h.same e1 m1 (by rw [t1]; exact h.w0) (by rw [t1]) p1
  have y1 : (s1.th 0).may s1.mem .request (s1.mem.top .request) := ⟨(k1.w0 _).1, Nat.le_refl _⟩
  obtain ⟨s2, e2, m2, t2, u2, p2, q2⟩ : ∃ s2, (sys noAl 2).step s1 (.run 0 (s1.mem.top .request)) = some s2 ∧ s2.mem = s1.mem ∧
      s2.th 0 = (s1.th 0).load s1.mem .request (s1.mem.top .request) ∧ s2.th 1 = s1.th 1 ∧ s2.pc 1 = s1.pc 1 ∧
      s2.pc 0 = .cas .wl (s1.mem.last .request) :=
    ⟨_, by simp only [sys, step, q1, target, y1, if_true]; rfl, by rfl, by rfl, by rfl, by rfl, by rfl⟩
  have k2 := k1.same e2 m2 (by rw [t2]; exact k1.w0.load k1.mw (Nat.le_refl _)) u2 p2
  rw [k1.rq] at q2
  obtain ⟨s3, e3, m3, t3, u3, p3, q3, f3⟩ : ∃ s3, (sys noAl 2).step s2 (.run 0 0) = some s3 ∧
      s3.mem = s2.mem.rmw (s2.th 0) .request (goalW (word 0 k)) ∧ s3.th 0 = (s2.th 0).rmw s2.mem .request ∧ s3.th 1 = s2.th 1 ∧
      s3.pc 1 = s2.pc 1 ∧ s3.pc 0 = .wSpin (word 0 k) ∧ s3.fen 0 = true :=
    ⟨_, by simp only [sys, step, q2, k2.rq, if_true]; rfl, by rfl, by rfl, by rfl, by rfl, by rfl, by rfl⟩
  have k3 : K s3 (k + 1) k := by
    have hm := Put.rmw s2.mem (s2.th 0) .request (goalW (word 0 k))
    rw [← m3] at hm
    exact
      { re := k2.re.step e3, rq := by rw [hm.last, if_pos rfl, goalW_word], cp := by rw [hm.last, if_neg (by simp)]; exact k2.cp
        tp := by rw [hm.top_ne (by simp)]; exact k2.tp
        m1 := fun hk => by rw [hm.old _ _ (by rw [k2.tp]; exact hk)]; exact k2.m1 hk
        mw := by rw [m3]; exact k2.mw.rmw k2.w0 _ _, w0 := by rw [m3, t3]; exact k2.w0.rmw k2.mw _ _
        t1 := by rw [u3]; exact k2.t1, p1 := by rw [p3]; exact k2.p1 }
  obtain ⟨s4, e4, m4, t4, p4, q4, f4⟩ : ∃ s4, (sys noAl 2).step s3 (.run 0 0) = some s4 ∧ s4.mem = s3.mem ∧ s4.th = s3.th ∧ s4.pc 1 = s3.pc 1 ∧
      s4.pc 0 = .wSpin (word 0 k) ∧ s4.fen 0 = false :=
    ⟨_, by simp only [sys, step, q3, f3, noAl, if_true, Bool.false_eq_true, if_false]; rfl, by rfl, by rfl, by rfl, by exact q3, by rfl⟩
  have k4 := k3.same e4 m4 (by rw [t4]; exact k3.w0) (by rw [t4]) p4
  have y4 : (s4.th 0).may s4.mem .completion (s4.mem.top .completion) := ⟨(k4.w0 _).1, Nat.le_refl _⟩
  have v4 : (s4.mem.msg .completion (s4.mem.top .completion)).val = word 0 k := k4.cp
  obtain ⟨s5, e5, m5, t5, u5, p5, q5⟩ : ∃ s5, (sys noAl 2).step s4 (.run 0 (s4.mem.top .completion)) = some s5 ∧ s5.mem = s4.mem ∧
      s5.th 0 = ((s4.th 0).load s4.mem .completion (s4.mem.top .completion)).fenceAcq ∧ s5.th 1 = s4.th 1 ∧ s5.pc 1 = s4.pc 1 ∧
      s5.pc 0 = .writing :=
    ⟨_, by simp only [sys, step, q4, f4, y4, v4, if_true, Bool.false_eq_true, if_false]; rfl, by rfl, by rfl, by rfl, by rfl, by rfl⟩
  exact ⟨s5, k4.same e5 m5 (by rw [t5]; exact (k4.w0.load k4.mw (Nat.le_refl _)).fenceAcq) u5 p5, q5⟩

theorem K.unlock {s : St 2} {k : Nat} (h : K s (k + 1) k) (hp : s.pc 0 = .writing) : ∃ s', K s' (k + 1) (k + 1) ∧ s'.pc 0 = .idle := by
  obtain ⟨s1, e1, m1, t1, u1, p1, q1⟩ : ∃ s1, (sys noAl 2).step s (.wunlock 0) = some s1 ∧ s1.mem = s.mem ∧ s1.th 0 = (s.th 0).fenceRel ∧
      s1.th 1 = s.th 1 ∧ s1.pc 1 = s.pc 1 ∧ s1.pc 0 = .load .wu :=
    ⟨_, by simp only [sys, step, hp, if_true]; rfl, by rfl, by rfl, by rfl, by rfl, by rfl⟩
  have k1 := h.same e1 m1 (by rw [t1]; exact h.w0.fenceRel) u1 p1
  have y1 : (s1.th 0).may s1.mem .completion (s1.mem.top .completion) := ⟨(k1.w0 _).1, Nat.le_refl _⟩
  obtain ⟨s2, e2, m2, t2, u2, p2, q2⟩ : ∃ s2, (sys noAl 2).step s1 (.run 0 (s1.mem.top .completion)) = some s2 ∧ s2.mem = s1.mem ∧
      s2.th 0 = (s1.th 0).load s1.mem .completion (s1.mem.top .completion) ∧ s2.th 1 = s1.th 1 ∧ s2.pc 1 = s1.pc 1 ∧
      s2.pc 0 = .cas .wu (s1.mem.last .completion) :=
    ⟨_, by simp only [sys, step, q1, target, y1, if_true]; rfl, by rfl, by rfl, by rfl, by rfl, by rfl⟩
  have k2 := k1.same e2 m2 (by rw [t2]; exact k1.w0.load k1.mw (Nat.le_refl _)) u2 p2
  rw [k1.cp] at q2
  obtain ⟨s3, e3, m3, t3, u3, p3, q3⟩ : ∃ s3, (sys noAl 2).step s2 (.run 0 0) = some s3 ∧
      s3.mem = s2.mem.rmw (s2.th 0) .completion (goalW (word 0 k)) ∧ s3.th 0 = (s2.th 0).rmw s2.mem .completion ∧ s3.th 1 = s2.th 1 ∧
      s3.pc 1 = s2.pc 1 ∧ s3.pc 0 = .idle :=
    ⟨_, by simp only [sys, step, q2, k2.cp, if_true]; rfl, by rfl, by rfl, by rfl, by rfl, by rfl⟩
  have hm := Put.rmw s2.mem (s2.th 0) .completion (goalW (word 0 k))
  rw [← m3] at hm
  refine ⟨s3, ?_, q3⟩
  exact
    { re := k2.re.step e3, rq := by rw [hm.last, if_neg (by simp)]; exact k2.rq, cp := by rw [hm.last, if_pos rfl, goalW_word]
      tp := by rw [hm.top, if_pos rfl, k2.tp]
      m1 := fun hk => by
        by_cases e : 1 ≤ k
        · rw [hm.old _ _ (by rw [k2.tp]; exact e)]; exact k2.m1 e
        · obtain rfl : k = 0 := by omega
          have := hm.new
          rw [k2.tp] at this
          rw [this]
          exact goalW_word 0 0
      mw := by rw [m3]; exact k2.mw.rmw k2.w0 _ _, w0 := by rw [m3, t3]; exact k2.w0.rmw k2.mw _ _
      t1 := by rw [u3]; exact k2.t1, p1 := by rw [p3]; exact k2.p1 }

theorem rounds (k : Nat) : ∃ s, K s k k ∧ s.pc 0 = .idle := by
  induction k with
  | zero =>
    exact ⟨initSt 2, { re := .init rfl, rq := (Rw.Tflock.init_inv (n := 2)).req, cp := (Rw.Tflock.init_inv (n := 2)).comp, tp := rfl, m1 := nofun
                       mw := Mem.Wf.init _, w0 := Th.Wf.init _, t1 := rfl, p1 := rfl }, rfl⟩
  | succ k ih =>
    obtain ⟨s, h, hp⟩ := ih
    obtain ⟨s1, h1, hp1⟩ := h.lock hp
    exact h1.unlock hp1

/-- Without the full fence a reader can enter while a writer is inside, after 2^15 write sections that it has not noticed. -/
theorem no_fence_al : ∃ s, (sys noAl 2).Reach s ∧ s.writes 0 ∧ s.reads 1 := by
  obtain ⟨s, h, hp⟩ := rounds (2 ^ 15)
  obtain ⟨s0, h, hp⟩ := h.lock hp
  obtain ⟨s1, e1, m1, t1, p1, q1⟩ : ∃ s1, (sys noAl 2).step s0 (.rlock 1) = some s1 ∧ s1.mem = s0.mem ∧ s1.th = s0.th ∧
      s1.pc 0 = s0.pc 0 ∧ s1.pc 1 = .load .rl :=
    ⟨_, by simp only [sys, step, h.p1, if_true]; rfl, by rfl, by rfl, by rfl, by rfl⟩
  have y1 : (s1.th 1).may s1.mem .request (s1.mem.top .request) := ⟨by rw [t1, h.t1]; exact Nat.zero_le _, Nat.le_refl _⟩
  obtain ⟨s2, e2, m2, t2, p2, q2⟩ : ∃ s2, (sys noAl 2).step s1 (.run 1 (s1.mem.top .request)) = some s2 ∧ s2.mem = s1.mem ∧
      s2.th 1 = (s1.th 1).load s1.mem .request (s1.mem.top .request) ∧ s2.pc 0 = s1.pc 0 ∧ s2.pc 1 = .cas .rl (s1.mem.last .request) :=
    ⟨_, by simp only [sys, step, q1, target, y1, if_true]; rfl, by rfl, by rfl, by rfl, by rfl⟩
  rw [m1, h.rq] at q2
  have r2 : s2.mem.last .request = word 0 (2 ^ 15 + 1) := by rw [m2, m1, h.rq]
  obtain ⟨s3, e3, m3, t3, p3, q3, f3⟩ : ∃ s3, (sys noAl 2).step s2 (.run 1 0) = some s3 ∧
      s3.mem = s2.mem.rmw (s2.th 1) .request (goalR (word 0 (2 ^ 15 + 1))) ∧ s3.th 1 = (s2.th 1).rmw s2.mem .request ∧
      s3.pc 0 = s2.pc 0 ∧ s3.pc 1 = .rSpin (word 0 (2 ^ 15 + 1) &&& 0xffff#32) ∧ s3.fen 1 = true :=
    ⟨_, by simp only [sys, step, q2, r2, if_true]; rfl, by rfl, by rfl, by rfl, by rfl, by rfl⟩
  obtain ⟨s4, e4, m4, t4, p4, q4, f4⟩ : ∃ s4, (sys noAl 2).step s3 (.run 1 0) = some s4 ∧ s4.mem = s3.mem ∧ s4.th = s3.th ∧ s4.pc 0 = s3.pc 0 ∧
      s4.pc 1 = .rSpin (word 0 (2 ^ 15 + 1) &&& 0xffff#32) ∧ s4.fen 1 = false :=
    ⟨_, by simp only [sys, step, q3, f3, noAl, if_true, Bool.false_eq_true, if_false]; rfl, by rfl, by rfl, by rfl, by exact q3, by rfl⟩
  have hm := Put.rmw s2.mem (s2.th 1) .request (goalR (word 0 (2 ^ 15 + 1)))
  rw [← m3] at hm
  have hle : 1 ≤ s0.mem.top .completion := by rw [h.tp]; omega
  have y4 : (s4.th 1).may s4.mem .completion 1 := by
    refine ⟨?_, ?_⟩
    · rw [t4, t3, t2, t1, h.t1]; simp [Th.rmw, Th.load, Th.store, Th.init, upd_apply, join]
    · rw [m4, hm.top_ne (by simp), m2, m1]; exact hle
  have v4 : (s4.mem.msg .completion 1).val &&& 0xffff#32 = word 0 (2 ^ 15 + 1) &&& 0xffff#32 := by
    rw [m4, hm.old _ _ (by rw [m2, m1]; exact hle), m2, m1, h.m1 (by omega), low_word, low_word]
    rfl
  obtain ⟨s5, e5, p5, q5⟩ : ∃ s5, (sys noAl 2).step s4 (.run 1 1) = some s5 ∧ s5.pc 0 = s4.pc 0 ∧ s5.pc 1 = .reading :=
    ⟨_, by simp only [sys, step, q4, f4, y4, v4, if_true, Bool.false_eq_true, if_false]; rfl, by rfl, by rfl⟩
  exact ⟨s5, ((((h.re.step e1).step e2).step e3).step e4).step e5, .inl (by rw [p5, p4, p3, p2, p1, hp]), .inl q5⟩

end Verif.Weak.Tflock
