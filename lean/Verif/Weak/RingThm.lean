import Verif.Weak.Ring

/-!
# `ck_ring` on relaxed memory: a queue, and what it publishes (C70)
-/

namespace Verif.Weak.Ring

open Verif

variable {k : Nat}

theorem at_eq (hk : k ≤ 32) (n : Nat) : at_ k n = n % 2 ^ k := by
  unfold at_
  rw [Nat.and_two_pow_sub_one_eq_mod]
  exact Nat.mod_mod_of_dvd _ (Nat.pow_dvd_pow 2 hk)

/-- Number of the values `0 … N - 1` that go to slot `i`. -/
def cnt (m N i : Nat) : Nat := (N + (m - 1 - i)) / m

theorem cnt_succ {m N i : Nat} (hi : i < m) : cnt m (N + 1) i = cnt m N i + if i = N % m then 1 else 0 := by
  unfold cnt
  have h0 : 0 < m := by omega
  have hN := Nat.div_add_mod N m
  have hr := Nat.mod_lt N h0
  obtain ⟨q, hq⟩ : ∃ q, q = N / m := ⟨_, rfl⟩
  obtain ⟨r, hr'⟩ : ∃ r, r = N % m := ⟨_, rfl⟩
  rw [← hq, ← hr'] at hN
  rw [← hr'] at hr ⊢
  have e1 : ∀ x, x < m → (m * q + x) / m = q := by
    intro x hx
    rw [Nat.mul_add_div h0, Nat.div_eq_of_lt hx, Nat.add_zero]
  have e2 : ∀ x, m ≤ x → x < 2 * m → (m * q + x) / m = q + 1 := by
    intro x h1 h2
    rw [Nat.mul_add_div h0, show x / m = 1 from Nat.div_eq_of_lt_le (by omega) (by omega)]
  rw [← hN]
  split
  · next h =>
    subst h
    rw [show m * q + i + 1 + (m - 1 - i) = m * q + m by omega, show m * q + i + (m - 1 - i) = m * q + (m - 1) by omega,
      e2 m (by omega) (by omega), e1 (m - 1) (by omega)]
  · next h =>
    rw [show m * q + r + 1 + (m - 1 - i) = m * q + (r + 1 + (m - 1 - i)) by omega,
      show m * q + r + (m - 1 - i) = m * q + (r + (m - 1 - i)) by omega]
    by_cases hlt : r < i
    · rw [e1 (r + 1 + (m - 1 - i)) (by omega), e1 (r + (m - 1 - i)) (by omega)]; rfl
    · rw [e2 (r + 1 + (m - 1 - i)) (by omega) (by omega), e2 (r + (m - 1 - i)) (by omega) (by omega)]

theorem cnt_at {m N : Nat} (h0 : 0 < m) : cnt m N (N % m) = N / m := by
  unfold cnt
  have hN := Nat.div_add_mod N m
  have hr := Nat.mod_lt N h0
  obtain ⟨q, hq⟩ : ∃ q, q = N / m := ⟨_, rfl⟩
  obtain ⟨r, hr'⟩ : ∃ r, r = N % m := ⟨_, rfl⟩
  rw [← hq, ← hr'] at hN
  rw [← hr'] at hr ⊢
  rw [← hq, ← hN, show m * q + r + (m - 1 - r) = m * q + (m - 1) by omega, Nat.mul_add_div h0,
    Nat.div_eq_of_lt (by omega), Nat.add_zero]

theorem cnt_mono {m N N' i : Nat} (h : N ≤ N') : cnt m N i ≤ cnt m N' i :=
  Nat.div_le_div_right (by omega)

/-- Within one round the slot of value `N` holds nothing newer. -/
theorem cnt_window {m N M : Nat} (h0 : 0 < m) (h1 : N < M) (h2 : M ≤ N + m) : cnt m M (N % m) = N / m + 1 := by
  have e := cnt_succ (m := m) (N := N) (i := N % m) (Nat.mod_lt _ h0)
  rw [cnt_at h0, if_pos rfl] at e
  refine Nat.le_antisymm ?_ (by rw [← e]; exact cnt_mono h1)
  refine Nat.le_trans (cnt_mono h2) ?_
  unfold cnt
  have hN := Nat.div_add_mod N m
  have hr := Nat.mod_lt N h0
  obtain ⟨q, hq⟩ : ∃ q, q = N / m := ⟨_, rfl⟩
  obtain ⟨r, hr'⟩ : ∃ r, r = N % m := ⟨_, rfl⟩
  rw [← hq, ← hr'] at hN
  rw [← hr'] at hr ⊢
  rw [← hq, ← hN, show m * q + r + m + (m - 1 - r) = m * q + (m + (m - 1)) by omega, Nat.mul_add_div h0]
  have : (m + (m - 1)) / m = 1 := Nat.div_eq_of_lt_le (by omega) (by omega)
  omega

/-- Values stored so far, counting the one about to be published. -/
def stored (s : St) : Nat := match s.ppc with
  | .commit _ => s.np + 1
  | _ => s.np

structure Inv (k : Nat) (s : St) : Prop where
  topP : s.mem.top .ptail = s.np
  topC : s.mem.top .chead = s.nc
  topS : ∀ i, i < 2 ^ k → s.mem.top (.slot i) = cnt (2 ^ k) (stored s) i
  valP : ∀ j, j ≤ s.np → (s.mem.msg .ptail j).val = j % 2 ^ 32
  valC : ∀ j, j ≤ s.nc → (s.mem.msg .chead j).val = j % 2 ^ 32
  valS : ∀ j, j < s.np → (s.mem.msg (.slot (j % 2 ^ k)) (j / 2 ^ k + 1)).val = s.E j
  valN : ∀ v, s.ppc = .commit v → (s.mem.msg (.slot (s.np % 2 ^ k)) (s.np / 2 ^ k + 1)).val = v
  viewS : ∀ j i, j ≤ s.np → i < j → i / 2 ^ k + 1 ≤ (s.mem.msg .ptail j).view (.slot (i % 2 ^ k))
  viewU : ∀ j i x, j ≤ s.np → i < j → s.pub i x ≤ (s.mem.msg .ptail j).view (.usr x)
  wrS : ∀ i, i < 2 ^ k → s.mem.top (.slot i) ≤ s.p.wr (.slot i)
  wrU : ∀ x, s.mem.top (.usr x) ≤ s.p.wr (.usr x)
  pubU : ∀ i x, i < s.np → s.pub i x ≤ s.mem.top (.usr x)
  pcur : s.p.cur .chead ≤ s.nc
  room : s.np + 1 ≤ s.p.cur .chead + 2 ^ k
  room' : s.ppc ≠ .idle → s.np + 2 ≤ s.p.cur .chead + 2 ^ k
  le : s.nc ≤ s.np
  ccur : s.nc ≤ s.c.cur .ptail
  cpub : ∀ i x, i < s.nc → s.pub i x ≤ s.c.cur (.usr x)
  cpy : s.cpc = .copy → s.nc < s.np ∧ s.nc + 1 ≤ s.c.cur .ptail ∧ s.nc / 2 ^ k + 1 ≤ s.c.cur (.slot (s.nc % 2 ^ k)) ∧
    ∀ x, s.pub s.nc x ≤ s.c.cur (.usr x)
  cmt : ∀ v, s.cpc = .commit v → s.nc < s.np ∧ v = s.E s.nc ∧ s.nc + 1 ≤ s.c.cur .ptail ∧ ∀ x, s.pub s.nc x ≤ s.c.cur (.usr x)
  out : ∀ i, i < s.nc → s.D i = s.E i

theorem Th.load_cur_ne {L V : Type} [DecidableEq L] (t : Th L) (m : Mem L V) {x y : L} (i : Nat) (h : y ≠ x) :
    (t.load m x i).cur y = t.cur y := by
  simp only [Th.load, join_apply]
  rw [upd_ne _ _ h]
  omega

theorem Th.load_cur_same {L V : Type} [DecidableEq L] (t : Th L) (m : Mem L V) {x : L} {i : Nat} (h : t.cur x ≤ i) :
    (t.load m x i).cur x = i := by
  simp only [Th.load, join_apply, upd_same]
  omega

theorem inv_step (hk : k ≤ 31) {s s' : St} {a : Act} (hi : Inv k s) (hs : step k real s a = some s') : Inv k s' := by
  have h0 : 0 < 2 ^ k := Nat.pow_pos (by omega)
  have hk32 : 2 ^ k ≤ 2 ^ 31 := Nat.pow_le_pow_right (by omega) hk
  have hat := at_eq (k := k) (by omega)
  cases a with
  | usr x v =>
    simp only [step] at hs
    split at hs
    · next hp =>
      cases hs
      constructor
      case topS => exact hi.topS
      case topP => exact hi.topP
      case topC => exact hi.topC
      case valP => intro j hj; simp only; rw [Mem.store_ne _ (by simp)]; exact hi.valP j hj
      case valC => intro j hj; simp only; rw [Mem.store_ne _ (by simp)]; exact hi.valC j hj
      case valS => intro j hj; simp only; rw [Mem.store_ne _ (by simp)]; exact hi.valS j hj
      case valN => intro v hv; simp only; rw [Mem.store_ne _ (by simp)]; exact hi.valN v hv
      case viewS => intro j i h1 h2; simp only; rw [Mem.store_ne _ (by simp)]; exact hi.viewS j i h1 h2
      case viewU => intro j i x h1 h2; simp only; rw [Mem.store_ne _ (by simp)]; exact hi.viewU j i x h1 h2
      case wrS => exact hi.wrS
      case wrU =>
        intro y
        simp only [Mem.store_top, Th.store, upd_apply]
        split
        · exact Nat.le_refl _
        · exact hi.wrU y
      case pubU =>
        intro i y h
        have := hi.pubU i y h
        simp only [Mem.store_top]
        split
        · next e => rw [e] at this; omega
        · exact this
      case pcur => exact hi.pcur
      case room => exact hi.room
      case room' => exact hi.room'
      case le => exact hi.le
      case ccur => exact hi.ccur
      case cpub => exact hi.cpub
      case cpy => exact hi.cpy
      case cmt => exact hi.cmt
      case out => exact hi.out
    · cases hs
  | enq v i =>
    simp only [step] at hs
    split at hs
    · next hc =>
      obtain ⟨hp, hm1, hm2⟩ := hc
      rw [hi.topC] at hm2
      have hcur : (s.p.load s.mem .chead i).cur .chead = i := Th.load_cur_same _ _ hm1
      have hroom := hi.room
      split at hs
      · cases hs
        exact { hi with
          pcur := by simp only [hcur]; exact hm2
          room := by simp only [hcur]; omega
          room' := fun h => absurd hp h }
      · next hf =>
        cases hs
        have hne : (s.np + 1) % 2 ^ k ≠ i % 2 ^ k := by
          intro e
          apply hf
          rw [hat, hi.valC i hm2, Nat.and_two_pow_sub_one_eq_mod, Nat.mod_mod_of_dvd _ (Nat.pow_dvd_pow 2 (by omega)), e]
        have hst : stored { s with p := s.p.load s.mem .chead i, ppc := PPC.store v } = stored s := by
          simp only [stored, hp]
        have hle := hi.le
        have hrm : s.np + 2 ≤ i + 2 ^ k := by
          refine Decidable.byContradiction fun hc => ?_
          have : s.np + 1 = i + 2 ^ k := by omega
          apply hne
          rw [this, Nat.add_mod_right]
        exact { hi with
          topS := by rw [hst]; exact hi.topS
          valN := fun v hv => by cases hv
          pcur := by simp only [hcur]; exact hm2
          room := by simp only [hcur]; omega
          room' := fun _ => by simp only [hcur]; omega }
    · cases hs
  | store =>
    simp only [step] at hs
    cases hp : s.ppc <;> simp only [hp] at hs <;> try (cases hs; done)
    next v =>
    cases hs
    rw [hat]
    have hroom := hi.room' (by rw [hp]; simp)
    have hst : stored s = s.np := by simp only [stored, hp]
    have htop := hi.topS (s.np % 2 ^ k) (Nat.mod_lt _ h0)
    rw [hst, cnt_at h0] at htop
    have hle := hi.le
    have hpc := hi.pcur
    constructor
    case topP => exact hi.topP
    case topC => exact hi.topC
    case topS =>
      intro i hlt
      simp only [stored, Mem.store_top, Loc.slot.injEq]
      rw [cnt_succ hlt]
      have h1 := hi.topS i hlt
      rw [hst] at h1
      by_cases e : i = s.np % 2 ^ k
      · simp only [if_pos e]
        rw [← e, h1]
      · simp only [if_neg e]
        rw [h1, Nat.add_zero]
    case valP => intro j hj; simp only; rw [Mem.store_ne _ (by simp)]; exact hi.valP j hj
    case valC => intro j hj; simp only; rw [Mem.store_ne _ (by simp)]; exact hi.valC j hj
    case valS =>
      intro j hj
      simp only at hj
      simp only
      rw [Mem.store_old]
      · exact hi.valS j hj
      · rw [hi.topS _ (Nat.mod_lt _ h0), hst]
        have := cnt_succ (m := 2 ^ k) (N := j) (i := j % 2 ^ k) (Nat.mod_lt _ h0)
        rw [cnt_at h0, if_pos rfl] at this
        rw [← this]
        exact cnt_mono hj
    case valN =>
      intro w hw
      simp only [PPC.commit.injEq] at hw
      subst hw
      simp only
      rw [Mem.store_at _ _ (by rw [htop])]
    case viewS => intro j i h1 h2; simp only; rw [Mem.store_ne _ (by simp)]; exact hi.viewS j i h1 h2
    case viewU => intro j i x h1 h2; simp only; rw [Mem.store_ne _ (by simp)]; exact hi.viewU j i x h1 h2
    case wrS =>
      intro i hlt
      simp only [Mem.store_top, Th.store, upd_apply]
      split
      · exact Nat.le_refl _
      · exact hi.wrS i hlt
    case wrU => exact hi.wrU
    case pubU => exact hi.pubU
    case pcur => exact hi.pcur
    case room => exact hi.room
    case room' => intro _; exact hroom
    case le => exact hi.le
    case ccur => exact hi.ccur
    case cpub => exact hi.cpub
    case cpy => exact hi.cpy
    case cmt => exact hi.cmt
    case out => exact hi.out
  | publish =>
    simp only [step] at hs
    cases hp : s.ppc <;> simp only [hp] at hs <;> try (cases hs; done)
    next v =>
    cases hs
    simp only [opt, real, if_true]
    have hroom := hi.room' (by rw [hp]; simp)
    have hst : stored s = s.np + 1 := by simp only [stored, hp]
    have hle := hi.le
    have hE : ∀ j, j < s.np → upd s.E s.np v j = s.E j := fun j hj => upd_ne _ _ (by omega)
    have hpub : ∀ j, j < s.np → upd s.pub s.np (fun x => s.mem.top (.usr x)) j = s.pub j :=
      fun j hj => upd_ne _ _ (by omega)
    have hpu : ∀ i x, i < s.np + 1 → upd s.pub s.np (fun x => s.mem.top (.usr x)) i x ≤ s.mem.top (.usr x) := by
      intro i x h1
      by_cases h : i < s.np
      · rw [hpub i h]; exact hi.pubU i x h
      · obtain rfl : i = s.np := by omega
        rw [upd_same]
        exact Nat.le_refl _
    constructor
    case topP => simp only [Mem.store_top, if_true, hi.topP]
    case topC => exact hi.topC
    case topS =>
      intro i hlt
      have := hi.topS i hlt
      rw [hst] at this
      exact this
    case valP =>
      intro j hj
      simp only at hj
      simp only
      by_cases h : j ≤ s.np
      · rw [Mem.store_old (by rw [hi.topP]; exact h)]; exact hi.valP j h
      · obtain rfl : j = s.np + 1 := by omega
        rw [Mem.store_at _ _ (by rw [hi.topP])]
    case valC => intro j hj; simp only; rw [Mem.store_ne _ (by simp)]; exact hi.valC j hj
    case valS =>
      intro j hj
      simp only at hj
      simp only
      rw [Mem.store_ne _ (by simp)]
      by_cases h : j < s.np
      · rw [hE j h]; exact hi.valS j h
      · obtain rfl : j = s.np := by omega
        rw [upd_same]
        exact hi.valN v hp
    case valN => intro w hw; cases hw
    case viewS =>
      intro j i h1 h2
      simp only at h1
      simp only
      by_cases h : j ≤ s.np
      · rw [Mem.store_old (by rw [hi.topP]; exact h)]; exact hi.viewS j i h h2
      · obtain rfl : j = s.np + 1 := by omega
        rw [Mem.store_at _ _ (by rw [hi.topP])]
        simp only
        rw [upd_ne _ _ (by simp)]
        refine Nat.le_trans ?_ (le_join_right _ _ _)
        refine Nat.le_trans ?_ (hi.wrS _ (Nat.mod_lt _ h0))
        rw [hi.topS _ (Nat.mod_lt _ h0), hst]
        have := cnt_succ (m := 2 ^ k) (N := i) (i := i % 2 ^ k) (Nat.mod_lt _ h0)
        rw [cnt_at h0, if_pos rfl] at this
        rw [← this]
        exact cnt_mono (by omega)
    case viewU =>
      intro j i x h1 h2
      simp only at h1
      simp only
      by_cases h : j ≤ s.np
      · rw [Mem.store_old (by rw [hi.topP]; exact h), hpub i (by omega)]; exact hi.viewU j i x h h2
      · obtain rfl : j = s.np + 1 := by omega
        rw [Mem.store_at _ _ (by rw [hi.topP])]
        simp only
        rw [upd_ne (Th.fenceStore s.p).rel _ (show Loc.usr x ≠ Loc.ptail by simp)]
        exact Nat.le_trans (Nat.le_trans (hpu i x h2) (hi.wrU x)) (le_join_right _ _ _)
    case wrS => exact hi.wrS
    case wrU => exact hi.wrU
    case pubU =>
      intro i x h1
      simp only at h1
      simp only [Mem.store_top]
      rw [if_neg (by simp)]
      exact hpu i x h1
    case pcur => exact hi.pcur
    case room =>
      simp only [Th.store, Th.fenceStore]
      rw [upd_ne _ _ (by simp)]
      omega
    case room' => intro h; simp at h
    case le => simp only; omega
    case ccur => exact hi.ccur
    case cpub =>
      intro i x h
      simp only at h
      simp only
      rw [hpub i (by omega)]
      exact hi.cpub i x h
    case cpy =>
      intro h
      obtain ⟨h1, h2, h2', h3⟩ := hi.cpy h
      refine ⟨by simp only; omega, h2, h2', fun x => ?_⟩
      simp only
      rw [hpub _ h1]
      exact h3 x
    case cmt =>
      intro w h
      obtain ⟨h1, h2, h3, h4⟩ := hi.cmt w h
      refine ⟨by simp only; omega, ?_, h3, fun x => ?_⟩
      · simp only; rw [hE _ h1]; exact h2
      · simp only
        rw [hpub _ h1]
        exact h4 x
    case out =>
      intro i h
      simp only at h
      simp only
      rw [hE i (by omega)]
      exact hi.out i h
  | deq i =>
    simp only [step] at hs
    split at hs
    · next hc =>
      obtain ⟨hp, hm1, hm2⟩ := hc
      rw [hi.topP] at hm2
      have hcur : (s.c.load s.mem .ptail i).cur .ptail = i := Th.load_cur_same _ _ hm1
      have hcu : ∀ x, (s.c.load s.mem .ptail i).cur (.usr x) = s.c.cur (.usr x) := fun x => Th.load_cur_ne _ _ _ (by simp)
      have hc1 := hi.ccur
      have hpc := hi.pcur
      have hroom := hi.room
      split at hs
      · cases hs
        exact { hi with
          ccur := by simp only [hcur]; omega
          cpub := by simp only [hcu]; exact hi.cpub
          cpy := fun h => by rw [hp] at h; cases h
          cmt := fun v h => by rw [hp] at h; cases h }
      · next hne =>
        cases hs
        simp only [opt, real, if_true]
        have hlt : s.nc < i := by
          refine Nat.lt_of_le_of_ne (by omega) fun e => hne ?_
          rw [hi.valP i hm2, e]
        have hnew : s.nc + 1 ≤ join (s.c.load s.mem .ptail i).cur (s.c.load s.mem .ptail i).acq .ptail :=
          Nat.le_trans (by rw [hcur]; omega) (le_join_left _ _ _)
        exact { hi with
          ccur := Nat.le_of_succ_le hnew
          cpub := fun j x h => Nat.le_trans (by rw [hcu]; exact hi.cpub j x h) (le_join_left _ _ _)
          cpy := fun _ => ⟨by simp only; omega, hnew,
            Nat.le_trans (Nat.le_trans (hi.viewS i s.nc hm2 hlt) (Th.load_view_le _ _ _ _ _)) (le_join_right _ _ _),
            fun x => Nat.le_trans (Nat.le_trans (hi.viewU i s.nc x hm2 hlt) (Th.load_view_le _ _ _ _ _))
              (le_join_right _ _ _)⟩
          cmt := fun v h => by cases h }
    · cases hs
  | copy i =>
    simp only [step] at hs
    cases hp : s.cpc <;> simp only [hp] at hs <;> try (cases hs; done)
    split at hs
    · next hm =>
      obtain ⟨hm1, hm2⟩ := hm
      cases hs
      rw [hat] at hm1 hm2 ⊢
      obtain ⟨h1, h2, h2', h3⟩ := hi.cpy hp
      have hpc := hi.pcur
      have hroom := hi.room
      have hst : stored s ≤ s.nc + 2 ^ k ∧ s.nc < stored s := by
        cases hq : s.ppc <;> simp only [stored, hq]
        · omega
        · omega
        · have := hi.room' (by rw [hq]; simp)
          omega
      rw [hi.topS _ (Nat.mod_lt _ h0), cnt_window h0 hst.2 hst.1] at hm2
      obtain rfl : i = s.nc / 2 ^ k + 1 := by omega
      have hcu : ∀ x, (s.c.load s.mem (.slot (s.nc % 2 ^ k)) (s.nc / 2 ^ k + 1)).cur (.usr x) = s.c.cur (.usr x) :=
        fun x => Th.load_cur_ne _ _ _ (by simp)
      have hcp : (s.c.load s.mem (.slot (s.nc % 2 ^ k)) (s.nc / 2 ^ k + 1)).cur .ptail = s.c.cur .ptail :=
        Th.load_cur_ne _ _ _ (by simp)
      exact { hi with
        ccur := by simp only [hcp]; exact hi.ccur
        cpub := by simp only [hcu]; exact hi.cpub
        cpy := fun h => by cases h
        cmt := fun v h => by
          simp only [CPC.commit.injEq] at h
          subst h
          refine ⟨h1, hi.valS _ h1, ?_, ?_⟩
          · simp only [hcp]; exact h2
          · simp only [hcu]; exact h3 }
    · cases hs
  | consume =>
    simp only [step] at hs
    cases hp : s.cpc <;> simp only [hp] at hs <;> try (cases hs; done)
    next v =>
    cases hs
    obtain ⟨h1, h2, h3, h4⟩ := hi.cmt v hp
    have hpc := hi.pcur
    constructor
    case topP => exact hi.topP
    case topC => simp only [Mem.store_top, if_true, hi.topC]
    case topS => exact hi.topS
    case valP => intro j hj; simp only; rw [Mem.store_ne _ (by simp)]; exact hi.valP j hj
    case valC =>
      intro j hj
      simp only at hj
      simp only
      by_cases h : j ≤ s.nc
      · rw [Mem.store_old (by rw [hi.topC]; exact h)]; exact hi.valC j h
      · obtain rfl : j = s.nc + 1 := by omega
        rw [Mem.store_at _ _ (by rw [hi.topC])]
    case valS => intro j hj; simp only; rw [Mem.store_ne _ (by simp)]; exact hi.valS j hj
    case valN => intro v hv; simp only; rw [Mem.store_ne _ (by simp)]; exact hi.valN v hv
    case viewS => intro j i h1 h2; simp only; rw [Mem.store_ne _ (by simp)]; exact hi.viewS j i h1 h2
    case viewU => intro j i x h1 h2; simp only; rw [Mem.store_ne _ (by simp)]; exact hi.viewU j i x h1 h2
    case wrS => exact hi.wrS
    case wrU => exact hi.wrU
    case pubU => exact hi.pubU
    case pcur => simp only; omega
    case room => exact hi.room
    case room' => exact hi.room'
    case le => simp only; omega
    case ccur =>
      simp only [Th.store, Th.fenceStore]
      rw [upd_ne _ _ (by simp)]
      exact h3
    case cpub =>
      intro i x h
      simp only at h
      simp only [Th.store, Th.fenceStore]
      rw [upd_ne _ _ (by simp)]
      by_cases hlt : i < s.nc
      · exact hi.cpub i x hlt
      · obtain rfl : i = s.nc := by omega
        exact h4 x
    case cpy => intro h; cases h
    case cmt => intro w h; cases h
    case out =>
      intro i h
      simp only at h
      simp only
      by_cases hlt : i < s.nc
      · rw [upd_ne _ _ (by omega)]; exact hi.out i hlt
      · obtain rfl : i = s.nc := by omega
        rw [upd_same]; exact h2

theorem inv_reach (hk : k ≤ 31) {s : St} (h : (sys k real).Reach s) : Inv k s := by
  refine h.invariant (I := Inv k) ?_ (fun _ _ _ hi hs => inv_step hk hi hs)
  rintro s rfl
  have h0 : 0 < 2 ^ k := Nat.pow_pos (by omega)
  refine ⟨rfl, rfl, ?_, ?_, ?_, ?_, ?_, ?_, ?_, ?_, ?_, ?_, ?_, ?_, ?_, ?_, ?_, ?_, ?_, ?_, ?_⟩
  · intro i hi
    simp only [initSt, Mem.init, stored, cnt]
    rw [Nat.div_eq_of_lt (by omega)]
  · intro j hj; obtain rfl : j = 0 := Nat.le_zero.1 hj; rfl
  · intro j hj; obtain rfl : j = 0 := Nat.le_zero.1 hj; rfl
  · intro j hj; exact absurd hj (Nat.not_lt_zero j)
  · intro v hv; cases hv
  · intro j i h1 h2; exact absurd (Nat.lt_of_lt_of_le h2 h1) (Nat.not_lt_zero i)
  · intro j i x h1 h2; exact absurd (Nat.lt_of_lt_of_le h2 h1) (Nat.not_lt_zero i)
  · intro i _; exact Nat.zero_le _
  · intro i; exact Nat.zero_le _
  · intro j x hj; exact absurd hj (Nat.not_lt_zero j)
  · exact Nat.zero_le _
  · simp only [initSt, Th.init]; omega
  · intro h; exact absurd rfl h
  · exact Nat.zero_le _
  · exact Nat.zero_le _
  · intro j x hj; exact absurd hj (Nat.not_lt_zero j)
  · intro h; cases h
  · intro v hv; cases hv
  · intro j hj; exact absurd hj (Nat.not_lt_zero j)

/-! ## Properties -/

/-- C70: what is dequeued is what was enqueued, in order, each value once, and there are never more than `2 ^ k - 1` values
in the ring. -/
theorem fifo (hk : k ≤ 31) {s : St} (h : (sys k real).Reach s) :
    s.nc ≤ s.np ∧ s.np ≤ s.nc + (2 ^ k - 1) ∧ ∀ i, i < s.nc → s.D i = s.E i := by
  have hi := inv_reach hk h
  have h1 := hi.room
  have h2 := hi.pcur
  exact ⟨hi.le, by omega, hi.out⟩

/-- C70: whoever has dequeued a value sees the memory of the producer at least as new as it was when the value was
enqueued. -/
theorem publication (hk : k ≤ 31) {s : St} (h : (sys k real).Reach s) {i x j : Nat} (hn : i < s.nc)
    (hl : s.c.may s.mem (.usr x) j) : s.pub i x ≤ j :=
  Nat.le_trans ((inv_reach hk h).cpub i x hn) hl.1

/-- What `pub` and `E` stand for: they are taken when `p_tail` is stored, `E` has the value passed to enqueue. -/
theorem pub_publish {fc : Fences} {s s' : St} (hs : (sys k fc).step s .publish = some s') :
    s'.np = s.np + 1 ∧ (∀ x, s'.pub s.np x = s.mem.top (.usr x)) ∧ s.ppc = .commit (s'.E s.np) ∧
      ∀ i, i ≠ s.np → s'.pub i = s.pub i ∧ s'.E i = s.E i := by
  simp only [sys, step] at hs
  cases hp : s.ppc <;> simp only [hp] at hs <;> try (cases hs; done)
  cases hs
  exact ⟨rfl, fun x => by simp, by simp, fun i hi => ⟨upd_ne _ _ hi, upd_ne _ _ hi⟩⟩

/-- C70: enqueue fails only if `2 ^ k - 1` values were in the ring at the value of `c_head` it loaded, which it has to do
if it has seen the newest one. -/
theorem enq_full (hk : k ≤ 31) {s s' : St} (h : (sys k real).Reach s) {v i : Nat}
    (hs : (sys k real).step s (.enq v i) = some s') : s'.ppc = .idle ↔ s.np = i + (2 ^ k - 1) := by
  have hi := inv_reach hk h
  have h0 : 0 < 2 ^ k := Nat.pow_pos (by omega)
  have hat := at_eq (k := k) (by omega)
  simp only [sys, step] at hs
  split at hs
  · next hc =>
    obtain ⟨hp, hm1, hm2⟩ := hc
    rw [hi.topC] at hm2
    have hroom := hi.room
    have hle := hi.le
    rw [hat, hi.valC i hm2, Nat.and_two_pow_sub_one_eq_mod,
      Nat.mod_mod_of_dvd _ (Nat.pow_dvd_pow 2 (by omega : k ≤ 32))] at hs
    have key : (s.np + 1) % 2 ^ k = i % 2 ^ k ↔ s.np = i + (2 ^ k - 1) := by
      constructor
      · intro e
        have e' : (s.np + 1 - i) % 2 ^ k = 0 := Nat.sub_mod_eq_zero_of_mod_eq e
        have := Nat.dvd_of_mod_eq_zero e'
        have := Nat.le_of_dvd (by omega) this
        omega
      · intro e
        rw [e, show i + (2 ^ k - 1) + 1 = i + 2 ^ k by omega, Nat.add_mod_right]
    split at hs
    · next hf =>
      cases hs
      exact ⟨fun _ => key.1 hf, fun _ => hp⟩
    · next hf =>
      cases hs
      exact ⟨(fun h => nomatch h), fun h => absurd (key.2 h) hf⟩
  · cases hs

/-- C70: dequeue fails only if the ring was empty at the value of `p_tail` it loaded, which it has to be if it has seen
the newest one. -/
theorem deq_empty (hk : k ≤ 31) {s s' : St} (h : (sys k real).Reach s) {i : Nat}
    (hs : (sys k real).step s (.deq i) = some s') : s'.cpc = .idle ↔ s.nc = i := by
  have hi := inv_reach hk h
  have hk32 : 2 ^ k ≤ 2 ^ 31 := Nat.pow_le_pow_right (by omega) hk
  simp only [sys, step] at hs
  split at hs
  · next hc =>
    obtain ⟨hp, hm1, hm2⟩ := hc
    rw [hi.topP] at hm2
    have hroom := hi.room
    have hpc := hi.pcur
    have hcc := hi.ccur
    rw [hi.valP i hm2] at hs
    have key : s.nc % 2 ^ 32 = i % 2 ^ 32 ↔ s.nc = i := ⟨fun e => by omega, fun e => by rw [e]⟩
    split at hs
    · next hf =>
      cases hs
      exact ⟨fun _ => key.1 hf, fun _ => hp⟩
    · next hf =>
      cases hs
      exact ⟨(fun h => nomatch h), fun h => absurd (key.2 h) hf⟩
  · cases hs

/-! ## Both fences are needed -/

/-- Without the fence of line 199 a value is dequeued that was never enqueued. -/
theorem no_fence_enqueue : ((sys 2 { real with enq := false }).run initSt
    [.enq 7 0, .store, .publish, .deq 1, .copy 0, .consume]).any
      (fun s => decide (s.nc = 1 ∧ s.E 0 = 7 ∧ s.D 0 = 0)) = true := by decide +kernel

/-- So it is without the fence of line 238. -/
theorem no_fence_dequeue : ((sys 2 { real with deq := false }).run initSt
    [.enq 7 0, .store, .publish, .deq 1, .copy 0, .consume]).any
      (fun s => decide (s.nc = 1 ∧ s.E 0 = 7 ∧ s.D 0 = 0)) = true := by decide +kernel

/-- With both the run above is impossible, the consumer loads the new value of the slot; so it does when the slot is used
again, and it sees what the producer stored before. -/
example : ((sys 1 real).run initSt [.enq 7 0, .store, .publish, .deq 1, .copy 0, .consume]).isNone = true ∧
    ((sys 1 real).run initSt
      [.usr 0 5, .enq 7 0, .store, .publish, .enq 8 0, .deq 1, .copy 1, .consume, .usr 0 6, .enq 8 0, .enq 8 1, .store,
        .publish, .deq 1, .deq 2, .copy 1, .consume, .enq 9 2, .store, .publish, .deq 3, .copy 2, .consume]).map
      (fun s => (s.D 0, s.D 1, s.D 2, s.c.cur (.usr 0))) = some (7, 8, 9, 2) := by
  decide +kernel

end Verif.Weak.Ring
