import Verif.Rw.Brlock
import Verif.Core.Count

/-!
# `ck_brlock`: exclusion with registration and unregistration (C15)
-/

set_option linter.unusedSimpArgs false
set_option linter.unusedVariables false

namespace Verif.Rw.Brlock

open Verif Verif.Spec

variable {n : Nat}

/-- Owns the `writer` flag. -/
@[grind] def PC.own : PC n → Bool
  | .wHead _ | .wWait _ _ | .wNext _ _ | .wBack | .writing | .link | .unlink | .release => true
  | _ => false
/-- All readers are known to be outside. -/
@[grind] def PC.ex : PC n → Bool
  | .writing | .link | .unlink => true
  | _ => false
/-- `n_readers` was set to 1 tentatively. -/
@[grind] def PC.tent : PC n → Bool
  | .rCheck _ | .rBack _ => true
  | _ => false
/-- In the slow path of a read lock. -/
@[grind] def PC.rd : PC n → Bool
  | .rLoad _ | .rSet _ | .rCheck _ | .rBack _ | .rFail => true
  | _ => false
/-- Inside read_register before the list surgery. -/
@[grind] def PC.reg : PC n → Bool
  | .wFas .reg | .wHead .reg | .wWait .reg _ | .wNext .reg _ | .link => true
  | _ => false
@[grind] def PC.unreg : PC n → Bool
  | .wFas .unreg | .wHead .unreg | .wWait .unreg _ | .wNext .unreg _ | .unlink => true
  | _ => false
/-- The reader under the cursor, and whether it was already seen outside. -/
@[grind] def PC.cur : PC n → Option (Fin n × Bool)
  | .wWait _ c => some (c, false)
  | .wNext _ c => some (c, true)
  | _ => none

structure Inv (s : St n) : Prop where
  wr : cnt PC.own s.pc = s.writer.toNat
  nr : ∀ t, s.nreaders t = s.depth t + (s.pc t).tent.toNat
  rd : ∀ t, (s.pc t).rd = true → s.depth t = 0 ∧ t ∈ s.lst
  rg : ∀ t, (s.pc t).reg = true → s.prev t = none ∧ t ∉ s.lst
  ur : ∀ t, (s.pc t).unreg = true → t ∈ s.lst
  dl : ∀ t, 0 < s.depth t → t ∈ s.lst
  nd : s.lst.Nodup
  nx : Seg s.next s.readers s.lst none
  pv : PSeg s.prev none s.lst
  ex : ∀ t u, (s.pc t).ex = true → s.depth u = 0
  sc : ∀ t c b, (s.pc t).cur = some (c, b) → ∃ pre post, s.lst = pre ++ c :: post ∧
    (∀ u ∈ pre, s.depth u = 0) ∧ (b = true → s.depth c = 0)

theorem Inv.writer_true {s : St n} (hi : Inv s) {t : Fin n} (h : (s.pc t).own = true) :
    s.writer = true := by
  have := cnt_pos (P := PC.own) (f := s.pc) t h
  have := hi.wr
  cases hw : s.writer <;> simp_all

theorem Inv.uniq {s : St n} (hi : Inv s) {t u : Fin n} (h : (s.pc t).own = true)
    (h' : (s.pc u).own = true) : t = u := by
  refine cnt_eq_one_unique (P := PC.own) (f := s.pc) ?_ h h'
  rw [hi.wr]; cases s.writer <;> simp

theorem ex_own {p : PC n} (h : p.ex = true) : p.own = true := by cases p <;> simp_all [PC.ex, PC.own]
theorem cur_own {p : PC n} {x} (h : p.cur = some x) : p.own = true := by
  cases p <;> simp_all [PC.cur, PC.own]

/-- A step of `t` on its own state, the flag and its own reader object. -/
theorem Inv.set {s : St n} (hi : Inv s) (t : Fin n) (p : PC n) (w : Bool) (v d : Nat)
    (hw : w.toNat + (s.pc t).own.toNat = s.writer.toNat + p.own.toNat)
    (hn : v = d + p.tent.toNat)
    (hrd : p.rd = true → d = 0 ∧ t ∈ s.lst)
    (hrg : p.reg = true → s.prev t = none ∧ t ∉ s.lst)
    (hur : p.unreg = true → t ∈ s.lst)
    (hdl : 0 < d → t ∈ s.lst)
    (hd : s.depth t = 0 → d = 0 ∨ s.writer = false)
    (hex : p.ex = true → d = 0 ∧ ∀ u, s.depth u = 0)
    (hsc : ∀ c b, p.cur = some (c, b) → d = s.depth t ∧ ∃ pre post, s.lst = pre ++ c :: post ∧
      (∀ u ∈ pre, s.depth u = 0) ∧ (b = true → s.depth c = 0)) :
    Inv { s with pc := upd s.pc t p, writer := w, nreaders := upd s.nreaders t v,
                 depth := upd s.depth t d } := by
  have hwt := fun u => hi.writer_true (t := u)
  obtain ⟨h1, h3, h4, h5, h6, h7, h8, h9, h10, h11, h12⟩ := hi
  constructor
  case wr =>
    have := cnt_update PC.own s.pc t p
    simp only; omega
  case nr => fin h3 hn
  case rd => fin h4 hrd
  case rg => fin h5 hrg
  case ur => fin h6 hur
  case dl => fin h7 hdl
  case nd => exact h8
  case nx => exact h9
  case pv => exact h10
  case ex =>
    intro u x; simp only [upd_apply]; split
    · intro hp; split
      · exact (hex hp).1
      · exact (hex hp).2 x
    · intro hp
      have hx := h11 u x hp
      split
      · subst x
        rcases hd hx with h | h
        · exact h
        · rw [hwt u (ex_own hp)] at h; cases h
      · exact hx
  case sc =>
    intro u c b; simp only [upd_apply]; split
    · intro hp
      obtain ⟨e4, pre, post, e1, e2, e3⟩ := hsc c b hp
      exact ⟨pre, post, e1, by fin e2 e4, by fin e3 e4⟩
    · intro hp
      obtain ⟨pre, post, e1, e2, e3⟩ := h12 u c b hp
      have hwr := hwt u (cur_own hp)
      exact ⟨pre, post, e1, by fin e2 hd hwr, by fin e3 hd hwr⟩

/-- A step that only moves the program counter (and possibly the flag). -/
theorem Inv.move {s : St n} (hi : Inv s) (t : Fin n) (p : PC n) (w : Bool)
    (hw : w.toNat + (s.pc t).own.toNat = s.writer.toNat + p.own.toNat)
    (hn : p.tent = (s.pc t).tent)
    (hrd : p.rd = true → s.depth t = 0 ∧ t ∈ s.lst)
    (hrg : p.reg = true → s.prev t = none ∧ t ∉ s.lst)
    (hur : p.unreg = true → t ∈ s.lst)
    (hex : p.ex = true → ∀ u, s.depth u = 0)
    (hsc : ∀ c b, p.cur = some (c, b) → ∃ pre post, s.lst = pre ++ c :: post ∧
      (∀ u ∈ pre, s.depth u = 0) ∧ (b = true → s.depth c = 0)) :
    Inv { s with pc := upd s.pc t p, writer := w } := by
  have h := hi.set t p w (s.nreaders t) (s.depth t) hw (by rw [hn]; exact hi.nr t) hrd hrg hur (hi.dl t)
    (by intro h; exact .inl h) (fun h => ⟨hex h t, hex h⟩)
    (fun c b hc => ⟨rfl, hsc c b hc⟩)
  simpa using h

/-- The next position of the scan. -/
theorem inv_scan {s : St n} (hi : Inv s) {t : Fin n} {k : Kind} {h : Option (Fin n)}
    {pre post : List (Fin n)} (hl : s.lst = pre ++ post) (hs : Seg s.next h post none)
    (hp : ∀ u ∈ pre, s.depth u = 0) (ho : (s.pc t).own = true) (ht : (s.pc t).tent = false)
    (hrg : k = .reg → s.prev t = none ∧ t ∉ s.lst) (hur : k = .unreg → t ∈ s.lst) :
    Inv { s with pc := upd s.pc t (scan k h) } := by
  have hw := hi.writer_true ho
  have := hi.move t (scan k h) s.writer
    (by rw [ho]; cases h <;> cases k <;> simp [scan, afterScan, PC.own])
    (by rw [ht]; cases h <;> cases k <;> simp [scan, afterScan, PC.tent])
    (by cases h <;> cases k <;> simp [scan, afterScan, PC.rd])
    (by cases h <;> cases k <;> simp [scan, afterScan, PC.reg] <;> simpa using hrg)
    (by cases h <;> cases k <;> simp [scan, afterScan, PC.unreg] <;> simpa using hur)
    (by
      intro hx u
      cases post with
      | nil =>
        by_contra hd
        have := hi.dl u (by omega)
        rw [hl] at this; simp at this
        exact hd (hp u this)
      | cons c post =>
        simp only [seg_cons] at hs
        rw [hs.1] at hx; cases k <;> simp [scan, PC.ex] at hx)
    (by
      intro c b hc
      cases post with
      | nil => simp at hs; subst hs; cases k <;> simp [scan, afterScan, PC.cur] at hc
      | cons x post =>
        simp only [seg_cons] at hs
        rw [hs.1] at hc
        simp only [scan, PC.cur, Option.some.injEq, Prod.mk.injEq] at hc
        obtain ⟨rfl, rfl⟩ := hc
        exact ⟨pre, post, hl, hp, by simp⟩)
  simpa using this

/-- Registration (lines 151-154). -/
theorem inv_linkIn {s : St n} (hi : Inv s) {t : Fin n} (hp : s.pc t = .link) :
    Inv { linkIn s t with pc := upd s.pc t .release } := by
  have hown : (s.pc t).own = true := by rw [hp]; rfl
  have hu : ∀ u, (s.pc u).own = true → u = t := fun u h => hi.uniq h hown
  obtain ⟨h1, h3, h4, h5, h6, h7, h8, h9, h10, h11, h12⟩ := hi
  have ht := h5 t (by rw [hp]; rfl)
  have hd : ∀ u, s.depth u = 0 := fun u => h11 t u (by rw [hp]; rfl)
  constructor <;> simp only [linkIn]
  case wr =>
    have := cnt_update PC.own s.pc t .release
    rw [hp] at this; simp [PC.own] at this; omega
  case nr => intro u; simp only [upd_apply]; split
             · subst u; have := h3 t; rw [hp] at this; exact this
             · exact h3 u
  case rd => intro u; simp only [upd_apply]; split
             · simp [PC.rd]
             · intro h; exact ⟨hd u, List.mem_cons_of_mem _ (h4 u h).2⟩
  case rg =>
    intro u; simp only [upd_apply]; split
    · simp [PC.reg]
    · next hne =>
      intro h
      have := h5 u h
      refine ⟨?_, by simp [hne, this.2]⟩
      cases hr : s.readers with
      | none => exact this.1
      | some y =>
        simp only [upd_apply]; split
        · subst u
          exfalso
          cases hl : s.lst with
          | nil => rw [hl, hr] at h9; simp at h9
          | cons z l => rw [hl, hr] at h9; simp at h9; apply this.2; simp [hl, h9.1]
        · exact this.1
  case ur => intro u; simp only [upd_apply]; split
             · simp [PC.unreg]
             · intro h; exact List.mem_cons_of_mem _ (h6 u h)
  case dl => intro u h; have := hd u; omega
  case nd => exact List.nodup_cons.2 ⟨ht.2, h8⟩
  case nx => rw [seg_cons]; exact ⟨rfl, by simp only [upd_same]; exact (seg_upd ht.2).2 h9⟩
  case pv =>
    rw [pseg_cons]
    cases hl : s.lst with
    | nil => rw [hl] at h9; simp at h9; simp only [h9]; exact ⟨ht.1, by simp⟩
    | cons z l =>
      rw [hl] at h9 h10 h8 ht; simp at h9 h10 h8 ht
      simp only [h9.1]
      refine ⟨by rw [upd_ne _ _ ht.2.1]; exact ht.1, ?_⟩
      rw [pseg_cons]; exact ⟨by simp, (pseg_upd h8.1).2 h10.2⟩
  case ex => intro u x _; exact hd x
  case sc =>
    intro u c b; simp only [upd_apply]; split
    · simp [PC.cur]
    · next hne => intro hc; exact absurd (hu u (cur_own hc)) hne

/-- Unregistration (lines 166-172). -/
theorem inv_unlinkOut {s : St n} (hi : Inv s) {t : Fin n} (hp : s.pc t = .unlink) :
    Inv { unlinkOut s t with pc := upd s.pc t .release } := by
  have hown : (s.pc t).own = true := by rw [hp]; rfl
  have hu : ∀ u, (s.pc u).own = true → u = t := fun u h => hi.uniq h hown
  obtain ⟨h1, h3, h4, h5, h6, h7, h8, h9, h10, h11, h12⟩ := hi
  have ht := h6 t (by rw [hp]; rfl)
  have hd : ∀ u, s.depth u = 0 := fun u => h11 t u (by rw [hp]; rfl)
  obtain ⟨pre, post, hl⟩ := List.append_of_mem ht
  have hnd := h8
  rw [hl] at hnd
  have hnd' := hnd
  rw [List.nodup_append] at hnd
  obtain ⟨n1, n2, n3⟩ := hnd
  rw [List.nodup_cons] at n2
  have npre : t ∉ pre := fun h => n3 t h t (by simp) rfl
  have her : s.lst.erase t = pre ++ post := by
    rw [hl, List.erase_append_right _ npre]; simp
  rw [hl] at h9 h10
  rw [seg_append] at h9
  obtain ⟨m, g1, g2, g3⟩ := h9
  subst g2
  rw [pseg_append, pseg_cons] at h10
  obtain ⟨k1, k2, k3⟩ := h10
  have hpn := seg_head g3
  have hmem : ∀ u, u ≠ t → (u ∈ pre ++ post ↔ u ∈ s.lst) := by
    intro u hne; rw [hl]; simp [hne]
  have hnx : Seg (unlinkOut s t).next (unlinkOut s t).readers (pre ++ post) none := by
    simp only [unlinkOut]
    rcases List.eq_nil_or_concat pre with rfl | ⟨pre', z, rfl⟩
    · simp at k2; rw [k2]; simpa using g3
    · rw [List.concat_eq_append] at *
      rw [lastOr_append] at k2; simp at k2
      simp only [k2]
      rw [seg_snoc] at g1
      have hz1 : z ∉ pre' := by
        rw [List.nodup_append] at n1; exact fun h => n1.2.2 z h z (by simp) rfl
      have hz2 : z ∉ post := fun h => n3 z (by simp) z (by simp [h]) rfl
      rw [seg_append]
      refine ⟨s.next t, ?_, (seg_upd hz2).2 g3⟩
      rw [seg_snoc]
      exact ⟨(seg_upd hz1).2 g1.1, by simp⟩
  have hpv : PSeg (unlinkOut s t).prev none (pre ++ post) := by
    simp only [unlinkOut]
    rw [pseg_append]
    cases post with
    | nil => simp at g3; rw [g3]; exact ⟨k1, by simp⟩
    | cons y post =>
      simp at hpn; simp only [hpn]
      have hy1 : y ∉ pre := fun h => n3 y h y (by simp) rfl
      have hy2 : y ∉ post := by
        have := n2.2; rw [List.nodup_cons] at this; exact this.1
      refine ⟨(pseg_upd hy1).2 k1, ?_⟩
      rw [pseg_cons] at k3 ⊢
      exact ⟨by simp [k2], (pseg_upd hy2).2 k3.2⟩
  constructor <;> simp only [unlinkOut, her]
  case wr =>
    have := cnt_update PC.own s.pc t .release
    rw [hp] at this; simp [PC.own] at this; omega
  case nr => intro u; simp only [upd_apply]; split
             · subst u; have := h3 t; rw [hp] at this; exact this
             · exact h3 u
  case rd => intro u; simp only [upd_apply]; split
             · simp [PC.rd]
             · next hne => intro h; exact ⟨hd u, (hmem u hne).2 (h4 u h).2⟩
  case rg =>
    intro u; simp only [upd_apply]; split
    · simp [PC.reg]
    · next hne =>
      intro h
      have := h5 u h
      refine ⟨?_, by rw [hmem u hne]; exact this.2⟩
      cases hr : s.next t with
      | none => exact this.1
      | some y =>
        simp only [upd_apply]; split
        · subst u
          exfalso
          cases post with
          | nil => rw [hr] at hpn; simp at hpn
          | cons z l => rw [hr] at hpn; simp at hpn; apply this.2; rw [hl]; simp [hpn]
        · exact this.1
  case ur => intro u; simp only [upd_apply]; split
             · simp [PC.unreg]
             · next hne => intro h; exact (hmem u hne).2 (h6 u h)
  case dl => intro u h; have := hd u; omega
  case nd => rw [← her]; exact h8.erase t
  case nx => exact hnx
  case pv => exact hpv
  case ex => intro u x _; exact hd x
  case sc =>
    intro u c b; simp only [upd_apply]; split
    · simp [PC.cur]
    · next hne => intro hc; exact absurd (hu u (cur_own hc)) hne

theorem inv_step {s s' : St n} {a : Act n} (hi : Inv s) (hs : step s a = some s') : Inv s' := by
  cases a <;> simp only [step] at hs
  case wlock t =>
    step_split hs; next hp =>
    exact hi.move t _ s.writer (by rw [hp]; rfl) (by rw [hp]; rfl) (by simp [PC.rd]) (by simp [PC.reg]) (by simp [PC.unreg]) (by simp [PC.ex]) (by simp [PC.cur])
  case wtrylock t =>
    step_split hs; next hp =>
    exact hi.move t _ s.writer (by rw [hp]; rfl) (by rw [hp]; rfl) (by simp [PC.rd]) (by simp [PC.reg]) (by simp [PC.unreg]) (by simp [PC.ex]) (by simp [PC.cur])
  case wunlock t =>
    step_split hs; next hp =>
    have := hi.writer_true (t := t) (by rw [hp]; rfl)
    exact hi.move t _ false (by rw [hp, this]; rfl) (by rw [hp]; rfl) (by simp [PC.rd]) (by simp [PC.reg]) (by simp [PC.unreg]) (by simp [PC.ex]) (by simp [PC.cur])
  case unregister t =>
    step_split hs; next hp =>
    exact hi.move t _ s.writer (by rw [hp.1]; rfl) (by rw [hp.1]; rfl) (by simp [PC.rd]) (by simp [PC.reg]) (by simp [hp.2]) (by simp [PC.ex]) (by simp [PC.cur])
  case register t =>
    step_split hs; next hp =>
    have hd : s.depth t = 0 := by
      by_contra h; exact hp.2 (hi.dl t (by omega))
    have h1 : Inv { s with prev := upd s.prev t none } := by
      obtain ⟨h1, h3, h4, h5, h6, h7, h8, h9, h10, h11, h12⟩ := hi
      exact ⟨h1, h3, h4, by fin h5, h6, h7, h8, h9, (pseg_upd hp.2).2 h10, h11, h12⟩
    have h2 := h1.set t (.wFas .reg) s.writer 0 (s.depth t) (by rw [hp.1]; rfl) (by rw [hd]; rfl) (by simp [PC.rd]) (by simp [hp.2]) (by simp [PC.unreg]) (by simp [hd]) (by simp [hd]) (by simp [PC.ex]) (by simp [PC.cur])
    simpa using h2
  case rlock t =>
    step_split hs
    · next hp h1 =>
      have hn := hi.nr t
      rw [hp.1] at hn
      have h2 := hi.set t .idle s.writer (s.nreaders t + 1) (s.depth t + 1) (by rw [hp.1]) (by rw [hn]; simp [PC.tent]) (by simp [PC.rd]) (by simp [PC.reg]) (by simp [PC.unreg]) (by simp [hp.2]) (by simp [PC.tent] at hn; omega) (by simp [PC.ex]) (by simp [PC.cur])
      rw [← hp.1] at h2
      simpa using h2
    · next hp h1 =>
      have hn := hi.nr t
      rw [hp.1] at hn
      exact hi.move t _ s.writer (by rw [hp.1]; rfl) (by rw [hp.1]; rfl) (by simp [hp.2]; simp [PC.tent] at hn; omega) (by simp [PC.reg]) (by simp [PC.unreg]) (by simp [PC.ex]) (by simp [PC.cur])
  case rtrylock t =>
    step_split hs
    · next hp h1 =>
      have hn := hi.nr t
      rw [hp.1] at hn
      have h2 := hi.set t .idle s.writer (s.nreaders t + 1) (s.depth t + 1) (by rw [hp.1]) (by rw [hn]; simp [PC.tent]) (by simp [PC.rd]) (by simp [PC.reg]) (by simp [PC.unreg]) (by simp [hp.2]) (by simp [PC.tent] at hn; omega) (by simp [PC.ex]) (by simp [PC.cur])
      rw [← hp.1] at h2
      simpa using h2
    · next hp h1 =>
      have hn := hi.nr t
      rw [hp.1] at hn
      exact hi.move t _ s.writer (by rw [hp.1]; rfl) (by rw [hp.1]; rfl) (by simp [hp.2]; simp [PC.tent] at hn; omega) (by simp [PC.reg]) (by simp [PC.unreg]) (by simp [PC.ex]) (by simp [PC.cur])
  case runlock t =>
    step_split hs; next hp =>
    have hn := hi.nr t
    rw [hp.1] at hn
    have hm := hi.dl t hp.2
    have h2 := hi.set t .idle s.writer (s.nreaders t - 1) (s.depth t - 1) (by rw [hp.1]) (by rw [hn]; simp [PC.tent]) (by simp [PC.rd]) (by simp [PC.reg]) (by simp [PC.unreg]) (by simp [hm]) (by omega) (by simp [PC.ex]) (by simp [PC.cur])
    rw [← hp.1] at h2
    simpa using h2
  case run t =>
    cases hp : s.pc t <;> simp only [hp] at hs
    case wFas k =>
      step_split hs
      · next h => rw [← h]; exact hi
      · next h =>
        have hr := hi.rg t
        have hu := hi.ur t
        rw [hp] at hr hu
        have h : s.writer = false := by simpa using h
        exact hi.move t _ true (by rw [hp, h]; rfl) (by rw [hp]; rfl) (by simp [PC.rd])
          (by cases k <;> simp_all [PC.reg]) (by cases k <;> simp_all [PC.unreg]) (by simp [PC.ex]) (by simp [PC.cur])
    case wHead k =>
      step_split hs
      have hr := hi.rg t
      have hu := hi.ur t
      rw [hp] at hr hu
      exact inv_scan hi (pre := []) (post := s.lst) rfl hi.nx (by simp) (by rw [hp]; rfl) (by rw [hp]; rfl)
        (by rintro rfl; exact hr rfl) (by rintro rfl; exact hu rfl)
    case wWait k c =>
      step_split hs
      · exact hi
      · next h0 =>
        have hr := hi.rg t
        have hu := hi.ur t
        rw [hp] at hr hu
        obtain ⟨pre, post, e1, e2, e3⟩ := hi.sc t c false (by rw [hp]; rfl)
        have hn := hi.nr c
        exact hi.move t _ s.writer (by rw [hp]; rfl) (by rw [hp]; rfl) (by simp [PC.rd])
          (by cases k <;> simp_all [PC.reg]) (by cases k <;> simp_all [PC.unreg]) (by simp [PC.ex])
          (by
            intro c' b' hc
            simp only [PC.cur, Option.some.injEq, Prod.mk.injEq] at hc
            obtain ⟨rfl, rfl⟩ := hc
            exact ⟨pre, post, e1, e2, fun _ => by simp at h0; omega⟩)
    case wNext k c =>
      step_split hs
      have hr := hi.rg t
      have hu := hi.ur t
      rw [hp] at hr hu
      obtain ⟨pre, post, e1, e2, e3⟩ := hi.sc t c true (by rw [hp]; rfl)
      have hx := hi.nx
      rw [e1, seg_append] at hx
      obtain ⟨m, _, _, hx⟩ := hx
      exact inv_scan hi (pre := pre ++ [c]) (post := post) (by simp [e1]) hx (by
          intro u hu; simp at hu; rcases hu with h | rfl
          · exact e2 u h
          · exact e3 rfl) (by rw [hp]; rfl) (by rw [hp]; rfl)
        (by rintro rfl; exact hr rfl) (by rintro rfl; exact hu rfl)
    case wBack =>
      step_split hs
      have := hi.writer_true (t := t) (by rw [hp]; rfl)
      exact hi.move t _ false (by rw [hp, this]; rfl) (by rw [hp]; rfl) (by simp [PC.rd]) (by simp [PC.reg]) (by simp [PC.unreg]) (by simp [PC.ex]) (by simp [PC.cur])
    case link => step_split hs; exact inv_linkIn hi hp
    case unlink => step_split hs; exact inv_unlinkOut hi hp
    case release =>
      step_split hs
      have := hi.writer_true (t := t) (by rw [hp]; rfl)
      exact hi.move t _ false (by rw [hp, this]; rfl) (by rw [hp]; rfl) (by simp [PC.rd]) (by simp [PC.reg]) (by simp [PC.unreg]) (by simp [PC.ex]) (by simp [PC.cur])
    case rLoad b =>
      have hr := hi.rd t (by rw [hp]; rfl)
      step_split hs
      · exact hi
      · exact hi.move t _ s.writer (by rw [hp]; rfl) (by rw [hp]; rfl) (by simp [hr]) (by simp [PC.reg]) (by simp [PC.unreg]) (by simp [PC.ex]) (by simp [PC.cur])
    case rSet b =>
      have hr := hi.rd t (by rw [hp]; rfl)
      step_split hs
      have h2 := hi.set t (.rCheck b) s.writer 1 (s.depth t) (by rw [hp]; rfl) (by rw [hr.1]; rfl) (by simp [hr]) (by simp [PC.reg]) (by simp [PC.unreg]) (by simp [hr]) (by simp [hr]) (by simp [PC.ex]) (by simp [PC.cur])
      simpa using h2
    case rCheck b =>
      have hr := hi.rd t (by rw [hp]; rfl)
      have hn := hi.nr t
      rw [hp, hr.1] at hn
      step_split hs
      · exact hi.move t _ s.writer (by rw [hp]; rfl) (by rw [hp]; rfl) (by simp [hr]) (by simp [PC.reg]) (by simp [PC.unreg]) (by simp [PC.ex]) (by simp [PC.cur])
      · next h =>
        have h2 := hi.set t .idle s.writer (s.nreaders t) 1 (by rw [hp]; rfl) (by rw [hn]; rfl) (by simp [PC.rd]) (by simp [PC.reg]) (by simp [PC.unreg]) (by simp [hr]) (fun _ => .inr (by simpa using h)) (by simp [PC.ex]) (by simp [PC.cur])
        simpa using h2
    case rBack b =>
      have hr := hi.rd t (by rw [hp]; rfl)
      cases b <;> dsimp only at hs <;> step_split hs
      · have h2 := hi.set t (.rLoad false) s.writer 0 (s.depth t) (by rw [hp]; rfl) (by rw [hr.1]; rfl) (by simp [hr]) (by simp [PC.reg]) (by simp [PC.unreg]) (by simp [hr]) (by simp [hr]) (by simp [PC.ex]) (by simp [PC.cur])
        simpa using h2
      · have h2 := hi.set t .rFail s.writer 0 (s.depth t) (by rw [hp]; rfl) (by rw [hr.1]; rfl) (by simp [hr]) (by simp [PC.reg]) (by simp [PC.unreg]) (by simp [hr]) (by simp [hr]) (by simp [PC.ex]) (by simp [PC.cur])
        simpa using h2
    case rFail =>
      have hr := hi.rd t (by rw [hp]; rfl)
      step_split hs
      exact hi.move t _ s.writer (by rw [hp]; rfl) (by rw [hp]; rfl) (by simp [hr]) (by simp [PC.reg]) (by simp [PC.unreg]) (by simp [PC.ex]) (by simp [PC.cur])
    all_goals cases hs
  case giveup t =>
    cases hp : s.pc t <;> simp only [hp] at hs
    case wFas k =>
      cases k <;> dsimp only at hs <;> step_split hs
      exact hi.move t _ s.writer (by rw [hp]; rfl) (by rw [hp]; rfl) (by simp [PC.rd]) (by simp [PC.reg]) (by simp [PC.unreg]) (by simp [PC.ex]) (by simp [PC.cur])
    case wWait k c =>
      cases k <;> dsimp only at hs <;> step_split hs
      exact hi.move t _ s.writer (by rw [hp]; rfl) (by rw [hp]; rfl) (by simp [PC.rd]) (by simp [PC.reg]) (by simp [PC.unreg]) (by simp [PC.ex]) (by simp [PC.cur])
    case rLoad b =>
      cases b <;> dsimp only at hs <;> step_split hs
      exact hi.move t _ s.writer (by rw [hp]; rfl) (by rw [hp]; rfl) (by simp [PC.rd]) (by simp [PC.reg]) (by simp [PC.unreg]) (by simp [PC.ex]) (by simp [PC.cur])
    case rFail =>
      step_split hs
      exact hi.move t _ s.writer (by rw [hp]; rfl) (by rw [hp]; rfl) (by simp [PC.rd]) (by simp [PC.reg]) (by simp [PC.unreg]) (by simp [PC.ex]) (by simp [PC.cur])
    all_goals cases hs

theorem inv_of_reach {s : St n} (h : (sys n).Reach s) : Inv s := by
  refine h.invariant (I := Inv) ?_ (fun _ _ _ => inv_step)
  rintro s ⟨h1, h2, h3, h4, h5, h6⟩
  constructor
  case wr => rw [h2]; exact cnt_zero_of (fun t => by rw [h4]; rfl)
  case nx => rw [h1, h5]; rfl
  case pv => rw [h5]; simp
  all_goals simp [h2, h3, h4, h5, h6, PC.tent, PC.rd, PC.reg, PC.unreg, PC.ex, PC.cur]

/-! ## Properties -/

/-- C15: a writer is alone, for any number of threads registering, unregistering, reading
(recursively) and writing. -/
theorem rw_exclusion {s : St n} (h : (sys n).Reach s) : RwEx s.reads s.writes := by
  have hi := inv_of_reach h
  refine ⟨fun t u ht hu => hi.uniq (by rw [show s.pc t = _ from ht]; rfl) (by rw [show s.pc u = _ from hu]; rfl), ?_⟩
  intro t u ht hu
  have := hi.ex t u (by rw [show s.pc t = _ from ht]; rfl)
  simp only [St.reads] at hu
  omega

/-- C15: the list of the lock, followed through the `next` pointers, is exactly the list of readers
registered and not yet unregistered, each once. -/
theorem list_exact {s : St n} (h : (sys n).Reach s) :
    Seg s.next s.readers s.lst none ∧ s.lst.Nodup ∧ ∀ t, s.reads t → t ∈ s.lst :=
  ⟨(inv_of_reach h).nx, (inv_of_reach h).nd, fun t ht => (inv_of_reach h).dl t ht⟩

/-- The registered readers change only by completed registrations and unregistrations. -/
theorem registered {s s' : St n} {a : Act n} (hs : (sys n).step s a = some s') (u : Fin n) :
    (u ∈ s'.lst ↔ u ∈ s.lst) ∨ (a = .run u ∧ (s.pc u = .link ∨ s.pc u = .unlink)) := by
  simp only [sys] at hs
  cases a <;> simp only [step] at hs
  case run t =>
    cases hp : s.pc t <;> simp only [hp] at hs
    case link =>
      step_split hs
      by_cases e : u = t
      · subst e; exact .inr ⟨rfl, .inl hp⟩
      · left; simp [linkIn, e]
    case unlink =>
      step_split hs
      by_cases e : u = t
      · subst e; exact .inr ⟨rfl, .inr hp⟩
      · left; simp only [unlinkOut]; exact List.mem_erase_of_ne e
    case rBack b => cases b <;> dsimp only at hs <;> step_split hs <;> exact .inl .rfl
    all_goals (step_split hs <;> exact .inl .rfl)
  all_goals (step_split hs <;> exact .inl .rfl)

/-- C15: nothing is left behind: with no call in progress and nobody inside, the flag is clear and every
reader count is 0, so the next acquisition succeeds. -/
theorem quiescent {s : St n} (h : (sys n).Reach s) (hq : ∀ t, s.pc t = .idle)
    (hr : ∀ t, ¬ s.reads t) : s.writer = false ∧ ∀ t, s.nreaders t = 0 := by
  have hi := inv_of_reach h
  have hd : ∀ t, s.depth t = 0 := fun t => by have := hr t; simp only [St.reads] at this; omega
  refine ⟨?_, fun t => by rw [hi.nr t, hd t, hq t]; rfl⟩
  have := hi.wr
  rw [cnt_zero_of (P := PC.own) (f := s.pc) (fun t => by rw [hq t]; rfl)] at this
  cases hw : s.writer
  · rfl
  · rw [hw] at this; simp at this

/-- Two readers register; 0 reads recursively; 1's write_lock waits for it, 0 leaves, 1 enters after
scanning the list. -/
example : ((sys 2).run
    { readers := none, writer := false, nreaders := fun _ => 0, next := fun _ => none, prev := fun _ => none, pc := fun _ => .idle, lst := [],
      depth := fun _ => 0 }
    [.register 0, .run 0, .run 0, .run 0, .run 0, .register 1, .run 1, .run 1,
    .run 1, .run 1, .run 1, .run 1, .rlock 0, .run 0, .run 0, .run 0, .rlock 0, .wlock 1, .run 1,
    .run 1, .run 1, .run 1, .run 1, .runlock 0, .run 1, .runlock 0, .run 1, .run 1]).map
    (fun s => (s.pc 1, s.lst, s.depth 0, s.readers)) = some (.writing, [1, 0], 0, some 1) := by
  decide

end Verif.Rw.Brlock
