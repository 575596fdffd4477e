import Verif.Smr.EpochInv

/-!
# Epoch reclamation: `active` and the bucket counts are exact
-/

set_option linter.unusedSectionVars false
set_option linter.unusedSimpArgs false

namespace Verif.Ep

open Verif

variable {T R S X : Type} [DecidableEq T] [DecidableEq R] [DecidableEq S] [DecidableEq X] {c : Cfg}

/-- The open sections of `r`. -/
def nO (o : List S) (sr : S → R) (r : R) : Nat := o.countP (fun x => decide (sr x = r))

/-- The open section objects of `r` in bucket `b`. -/
def nB (o : List S) (sr : S → R) (nul : S → Bool) (bk : S → Nat) (r : R) (b : Nat) : Nat :=
  o.countP (fun x => decide (sr x = r ∧ nul x = false ∧ bk x = b))

theorem nO_cons (o : List S) (sr : S → R) (r : R) (x : S) :
    nO (x :: o) sr r = nO o sr r + (if sr x = r then 1 else 0) := by
  simp [nO, List.countP_cons]

theorem nB_cons (o : List S) (sr : S → R) (nul : S → Bool) (bk : S → Nat) (r : R) (b : Nat) (x : S) :
    nB (x :: o) sr nul bk r b = nB o sr nul bk r b + (if sr x = r ∧ nul x = false ∧ bk x = b then 1 else 0) := by
  simp [nB, List.countP_cons]

theorem nO_congr {o : List S} {sr sr' : S → R} (r : R) (h : ∀ x ∈ o, sr' x = sr x) : nO o sr' r = nO o sr r :=
  List.countP_congr fun x hx => by simp [h x hx]

theorem nB_congr {o : List S} {sr sr' : S → R} {nul nul' : S → Bool} {bk bk' : S → Nat} (r : R) (b : Nat)
    (h : ∀ x ∈ o, sr' x = sr x ∧ nul' x = nul x ∧ bk' x = bk x) :
    nB o sr' nul' bk' r b = nB o sr nul bk r b :=
  List.countP_congr fun x hx => by obtain ⟨h1, h2, h3⟩ := h x hx; simp [h1, h2, h3]

theorem nO_erase {o : List S} (sr : S → R) (r : R) {x : S} (hx : x ∈ o) :
    nO o sr r = nO (o.erase x) sr r + (if sr x = r then 1 else 0) := by
  rw [← nO_cons]
  exact (List.perm_cons_erase hx).countP_eq _

theorem nB_erase {o : List S} (sr : S → R) (nul : S → Bool) (bk : S → Nat) (r : R) (b : Nat) {x : S}
    (hx : x ∈ o) :
    nB o sr nul bk r b = nB (o.erase x) sr nul bk r b + (if sr x = r ∧ nul x = false ∧ bk x = b then 1 else 0) := by
  rw [← nB_cons]
  exact (List.perm_cons_erase hx).countP_eq _

theorem nO_zero {o : List S} {sr : S → R} {r : R} : nO o sr r = 0 ↔ ∀ x ∈ o, sr x ≠ r := by
  simp [nO, List.countP_eq_zero]

theorem nB_zero {o : List S} {sr : S → R} {nul : S → Bool} {bk : S → Nat} {r : R} {b : Nat} :
    nB o sr nul bk r b = 0 ↔ ∀ x ∈ o, sr x = r → nul x = false → bk x ≠ b := by
  simp [nB, List.countP_eq_zero]

/-- The owner is inside `ck_epoch_begin` on `r`, after the store of `active`. -/
def beg (r : R) : Sub R S X → Nat
  | .b1 q _ _ | .b2 q _ _ _ | .a0 q _ => if q = r then 1 else 0
  | _ => 0

/-- The owner is about to leave bucket `b` of `r`. -/
def lv (bk : S → Nat) (r : R) (b : Nat) : Sub R S X → Nat
  | .e1 q x => if q = r ∧ bk x = b then 1 else 0
  | _ => 0

structure InvA (c : Cfg) (s : St T R S X) : Prop where
  act : ∀ r t, s.own r = some t → s.act r = nO s.opn s.sr r + beg r (s.sub t)
  act0 : ∀ r, s.own r = none → s.act r = 0
  bc : ∀ r t, s.own r = some t → ∀ b, b < 2 → s.bc r b = nB s.opn s.sr s.nul s.bk r b + lv s.bk r b (s.sub t)
  bc0 : ∀ r ∈ s.recs, s.own r = none → ∀ b, b < 2 → s.bc r b = 0
  bk : ∀ x ∈ s.opn, s.nul x = false → s.bk x < 2
  kb1 : ∀ t r x n, s.sub t = .b1 r x n → s.nul x = n ∧ ∀ y ∈ s.opn, s.sr y ≠ r
  kb2 : ∀ t r x n g, s.sub t = .b2 r x n g → s.nul x = n ∧ ∀ y ∈ s.opn, s.sr y ≠ r
  ka0 : ∀ t r x, s.sub t = .a0 r x → s.nul x = false
  ke1 : ∀ t r x, s.sub t = .e1 r x → s.nul x = false ∧ s.bk x < 2
  kind : c.mix = false → ∀ x ∈ s.opn, ∀ y ∈ s.opn, s.sr x = s.sr y → s.nul x = s.nul y
  kinds : c.mix = false → ∀ t r x, subKey (s.sub t) = some (r, x) → ∀ y ∈ s.opn, s.sr y = r → s.nul y = s.nul x

theorem invA_init {s : St T R S X} (h : Init s) : InvA c s := by
  obtain ⟨h1, h2, h3, h4, h5, h6, h7, h8, h9, h10⟩ := h
  constructor <;> simp [h1, h2, h3, h4, h5, h6, h7, h8]

theorem beg_le (r : R) (q : Sub R S X) : beg r q ≠ 0 → subRec q = some r := by
  cases q <;> simp_all [beg, subRec]

theorem lv_le (bk : S → Nat) (r : R) (b : Nat) (q : Sub R S X) : lv bk r b q ≠ 0 → subRec q = some r := by
  cases q <;> simp_all [lv, subRec]

theorem invA_step {s s' : St T R S X} {a : Act T R S X} (hW : InvW c s) (hI : InvA c s)
    (h : step c s a = some s') : InvA c s' := by
  obtain ⟨ownr, oown, ouse, nodup, sown, skey, mown, scan, un, sect⟩ := hW
  obtain ⟨act, act0, bc, bc0, bk, kb1, kb2, ka0, ke1, kind, kinds⟩ := hI
  cases a with
  | main t =>
    simp only [step] at h
    split at h
    · next hn =>
      obtain ⟨m', F, hM⟩ := main_cases h
      obtain ⟨f1, f2, f3, f4, f5, f6, f7, f8, f9, f10, f11, f12, -, -, -, -, -, -, -⟩ := F
      constructor
      · rw [f3, f8, f10, f11, f7]; exact act
      · rw [f3, f8]; exact act0
      · rw [f4, f6, f7, f8, f10, f11, f12]; exact bc
      · rw [f1, f4, f8]; exact bc0
      · rw [f10, f12, f6]; exact bk
      · rw [f7, f10, f11, f12]; exact kb1
      · rw [f7, f10, f11, f12]; exact kb2
      · rw [f7, f12]; exact ka0
      · rw [f7, f12, f6]; exact ke1
      · rw [f10, f11, f12]; exact kind
      · rw [f7, f10, f11, f12]; exact kinds
    · cases h
  | sub t =>
    simp only [step, subStep, gs, opened] at h
    split at h <;> rename_i hq
    case h_1 => cases h
    case h_6 =>
      step_split h
      constructor <;> dsimp only
      · keep act hq; grind [beg]
      · exact act0
      · keep bc hq; grind [lv]
      · exact bc0
      · exact bk
      · keep kb1; grind
      · keep kb2; grind
      · keep ka0; grind
      · keep ke1; grind
      · exact kind
      · keep kinds; grind [subKey]
    case h_7 =>
      have k1 := sown t _ (by rw [hq]; rfl)
      have k2 := un t _ hq
      have k4 := act _ _ k1
      have k5 := bc _ _ k1
      rw [nO_zero.2 k2.2, hq] at k4
      simp only [nB_zero.2 (fun x hx h1 _ => absurd h1 (k2.2 x hx)), hq] at k5
      step_split h
      constructor <;> dsimp only
      · keep act hq; grind [beg]
      · keep act0 k4; grind [beg]
      · keep bc hq; grind [lv]
      · keep bc0 k5; grind [lv]
      · exact bk
      · keep kb1; grind
      · keep kb2; grind
      · keep ka0; grind
      · keep ke1; grind
      · exact kind
      · keep kinds; grind [subKey]
    case h_2 r x n =>
      step_split h
      constructor <;> dsimp only
      · keep act hq; grind [beg]
      · exact act0
      · keep bc hq; grind [lv]
      · exact bc0
      · exact bk
      · keep kb1; grind
      · keep kb2 kb1 hq; grind
      · keep ka0; grind
      · keep ke1; grind
      · exact kind
      · keep kinds hq; grind [subKey]
    case h_3 r x n g =>
      have k1 := sown t _ (by rw [hq]; rfl)
      have k2 := skey t _ _ (by rw [hq]; rfl)
      have k3 := key_inj sown skey k1 k2.2.2
      have k4 := kb2 _ _ _ _ _ hq
      split at h <;> simp only [Option.some.injEq] at h <;> subst h
      · constructor <;> dsimp only
        · keep act hq k1 k2; grind [beg, nO_cons]
        · exact act0
        · keep bc hq k4; grind [lv, nB_cons]
        · exact bc0
        · keep bk k4; grind
        · keep kb1 k1 k2 sown; grind [subRec]
        · keep kb2 k1 k2 sown; grind [subRec]
        · keep ka0; grind
        · keep ke1; grind
        · keep kind k4 k2; grind
        · keep kinds k1 k2 sown; grind [subKey, subKey_rec]
      · constructor <;> dsimp only
        · keep act hq k1 k2; grind [beg, nO_cons]
        · exact act0
        · keep bc hq k4; grind [lv, nB_cons]
        · exact bc0
        · exact bk
        · keep kb1 k1 k2 sown; grind [subRec]
        · keep kb2 k1 k2 sown; grind [subRec]
        · keep ka0 k4; grind
        · keep ke1; grind
        · exact kind
        · keep kinds k4; grind [subKey]
    case h_4 r x =>
      have k1 := sown t _ (by rw [hq]; rfl)
      have k2 := skey t _ _ (by rw [hq]; rfl)
      have k3 := key_inj sown skey k1 k2.2.2
      have k4 := ka0 _ _ _ hq
      have k5 := kinds
      simp only [Option.some.injEq] at h
      subst h
      have e1 : ∀ r' b, nB s.opn s.sr s.nul (upd s.bk x (s.G % 2)) r' b = nB s.opn s.sr s.nul s.bk r' b :=
        fun r' b => nB_congr r' b fun y hy => ⟨rfl, rfl, upd_ne _ _ (fun e : y = x => k2.2.1 (e ▸ hy))⟩
      have e2 : ∀ u r' b, u ≠ t → lv (upd s.bk x (s.G % 2)) r' b (s.sub u) = lv s.bk r' b (s.sub u) := by
        intro u r' b hu
        have := k3 u
        cases hs : s.sub u <;> simp only [lv]
        rename_i q y
        rw [hs] at this
        rw [upd_ne _ _ (this q y hu rfl)]
      constructor <;> dsimp only
      · keep act hq k1 k2; grind [beg, nO_cons]
      · exact act0
      · intro r' u ho b hb
        rw [nB_cons, e1]
        have := bc r' u ho b hb
        by_cases hu : u = t
        · subst hu
          rw [hq] at this
          simp only [lv, upd_same, k2.2.2, k4, true_and] at this ⊢
          keep this; grind [upd2_apply]
        · have hr : r' ≠ r := fun e => hu (by rw [e, k1] at ho; simpa using ho.symm)
          rw [upd_ne _ _ hu, e2 u r' b hu]
          rw [if_neg (by rw [k2.2.2]; exact fun e => hr e.1.symm)]
          simp only [Nat.add_zero]
          rw [← this, upd2_apply, if_neg (fun e => hr e.1)]
      · intro r' hr' ho b hb
        have hr : r' ≠ r := fun e => by rw [e, k1] at ho; cases ho
        simp only [upd2, upd_ne _ _ hr]
        exact bc0 r' hr' ho b hb
      · keep bk; grind
      · keep kb1 k1 k2 sown; grind [subRec]
      · keep kb2 k1 k2 sown; grind [subRec]
      · keep ka0; grind
      · keep ke1 k3; grind [subKey]
      · have k6 : c.mix = false → ∀ y ∈ s.opn, s.sr y = r → s.nul y = s.nul x := fun hm => kinds hm t r x (by rw [hq]; rfl)
        keep kind k2 k6; grind
      · keep kinds k1 k2 sown; grind [subKey, subKey_rec]
    case h_5 r x =>
      have k1 := sown t _ (by rw [hq]; rfl)
      have k2 := skey t _ _ (by rw [hq]; rfl)
      have k3 := key_inj sown skey k1 k2.2.2
      have k4 := ke1 _ _ _ hq
      have k6 := bc r t k1 (s.bk x) k4.2
      rw [hq] at k6
      simp only [lv, and_self, if_true] at k6
      have key : ∀ r' u, s.own r' = some u → ∀ b, b < 2 → upd2 s.bc r (s.bk x) (s.bc r (s.bk x) - 1) r' b
          = nB s.opn s.sr s.nul s.bk r' b + lv s.bk r' b (upd s.sub t .none u) := by
        intro r' u ho b hb
        have := bc r' u ho b hb
        by_cases hu : u = t
        · subst hu
          rw [hq] at this
          rw [upd_same]
          simp only [lv] at this ⊢
          keep this k6; grind [upd2_apply]
        · have hr : r' ≠ r := fun e => hu (by rw [e, k1] at ho; simpa using ho.symm)
          rw [upd_ne _ _ hu, ← this]
          simp only [upd2, upd_ne _ _ hr]
      have key0 : ∀ r' ∈ s.recs, s.own r' = none → ∀ b, b < 2 →
          upd2 s.bc r (s.bk x) (s.bc r (s.bk x) - 1) r' b = 0 := by
        intro r' hr' ho b hb
        have hr : r' ≠ r := fun e => by rw [e, k1] at ho; cases ho
        simp only [upd2, upd_ne _ _ hr]
        exact bc0 r' hr' ho b hb
      step_split h
      all_goals constructor <;> dsimp only
      all_goals first
        | exact act0
        | exact key
        | exact key0
        | exact bk
        | exact kind
        | (keep act hq; grind [beg])
        | (keep kb1; grind)
        | (keep kb2; grind)
        | (keep ka0; grind)
        | (keep ke1; grind)
        | (keep kinds; grind [subKey])
  | end_ t x =>
    simp only [step, endStep, gs] at h
    split at h
    case isFalse => cases h
    rename_i hg
    simp only [Option.some.injEq] at h
    subst h
    obtain ⟨g1, g2, g3, g4, g5⟩ := hg
    have hme : ∀ y, y ∈ s.opn.erase x ↔ y ≠ x ∧ y ∈ s.opn := fun y => nodup.mem_erase_iff
    have hmem : ∀ y, y ∈ s.opn.erase x → y ∈ s.opn := fun y hy => ((hme y).1 hy).2
    have e1 := fun r => nO_erase s.sr r g1
    have e2 := fun r b => nB_erase s.sr s.nul s.bk r b g1
    have hb := bk x g1
    constructor <;> dsimp only
    · keep act g2 g3 e1; grind [beg]
    · keep act0 g2; grind
    · intro r u ho b hb
      have h1 := bc r u ho b hb
      have h2 := e2 r b
      by_cases hu : u = t
      · subst hu
        rw [upd_same]
        rw [g3] at h1
        cases hn : s.nul x
        · rw [if_neg (by simp)]
          simp only [lv, hn, true_and] at h1 h2 ⊢
          keep h1 h2; grind
        · rw [if_pos rfl]
          simp only [lv, hn] at h1 h2 ⊢
          keep h1 h2; grind
      · have hr : s.sr x ≠ r := fun e => hu (by rw [e] at g2; rw [g2] at ho; simpa using ho.symm)
        rw [upd_ne _ _ hu]
        rw [if_neg (fun e => hr e.1)] at h2
        keep h1 h2; grind
    · exact bc0
    · keep bk hmem; grind
    · keep kb1 hmem; grind
    · keep kb2 hmem; grind
    · keep ka0; grind
    · keep ke1 hb; grind
    · keep kind hmem; grind
    · intro hm u r y hk z hz hzr
      by_cases hu : u = t
      · subst hu
        rw [upd_same] at hk
        have : r = s.sr x ∧ y = x := by keep hk; grind [subKey]
        rw [this.2]
        exact kind hm z (hmem z hz) x g1 (hzr.trans this.1)
      · rw [upd_ne _ _ hu] at hk
        exact kinds hm u r y hk z (hmem z hz) hzr
  | begin t r x n =>
    simp only [step, gs, opened] at h
    split at h
    case isFalse => cases h
    rename_i hg
    obtain ⟨g1, g2, g3, g4, g5⟩ := hg
    have k1 : x ∉ s.opn := fun hx => by rw [ouse x hx] at g4; simp at g4
    have k2 : ∀ u q y, subKey (s.sub u) = some (q, y) → y ≠ x := fun u q y hy e => by
      have := (skey u q y hy).1; subst e; rw [this] at g4; simp at g4
    have k5 : ∀ u q y m, s.sub u = .b1 q y m → y ≠ x := fun u q y m hy => k2 u q y (by rw [hy]; rfl)
    have k6 : ∀ u q y m g, s.sub u = .b2 q y m g → y ≠ x := fun u q y m g hy => k2 u q y (by rw [hy]; rfl)
    have k7 : ∀ u q y, s.sub u = .a0 q y → y ≠ x := fun u q y hy => k2 u q y (by rw [hy]; rfl)
    have k8 : ∀ u q y, s.sub u = .e1 q y → y ≠ x := fun u q y hy => k2 u q y (by rw [hy]; rfl)
    have k9 : ∀ u q y m, s.sub u = .b1 q y m → u ≠ t → q ≠ r := fun u q y m hy hu e => by
      have := sown u q (by rw [hy]; rfl); rw [e, g1] at this; exact hu (by simpa using this.symm)
    have k10 : ∀ u q y m g, s.sub u = .b2 q y m g → u ≠ t → q ≠ r := fun u q y m g hy hu e => by
      have := sown u q (by rw [hy]; rfl); rw [e, g1] at this; exact hu (by simpa using this.symm)
    have k3 : ∀ y ∈ s.opn, upd s.sr x r y = s.sr y := fun y hy => upd_ne _ _ (fun e : y = x => k1 (e ▸ hy))
    have k4 : ∀ y ∈ s.opn, upd s.nul x n y = s.nul y := fun y hy => upd_ne _ _ (fun e : y = x => k1 (e ▸ hy))
    have e1 : ∀ q, nO s.opn (upd s.sr x r) q = nO s.opn s.sr q := fun q => nO_congr q k3
    have e2 : ∀ q b, nB s.opn (upd s.sr x r) (upd s.nul x n) s.bk q b = nB s.opn s.sr s.nul s.bk q b :=
      fun q b => nB_congr q b fun y hy => ⟨k3 y hy, k4 y hy, rfl⟩
    have e3 := act r t g1
    have e4 : s.act r = 0 → ∀ y ∈ s.opn, s.sr y ≠ r := by
      intro h0; apply nO_zero.1; omega
    split at h
    · next h0 =>
      have e5 := e4 h0
      simp only [Option.some.injEq] at h
      subst h
      constructor <;> dsimp only
      · simp only [e1]; keep act g1 g2; grind [beg]
      · keep act0 g1; grind
      · simp only [e2]; keep bc g2; grind [lv]
      · exact bc0
      · keep bk k4; grind
      · keep kb1 k5 k3 e5; grind
      · keep kb2 k6 k3; grind
      · keep ka0 k7; grind
      · keep ke1 k8; grind
      · keep kind k3 k4; grind
      · keep kinds k3 k4 e5 k2; grind [subKey]
    · split at h <;> simp only [Option.some.injEq] at h <;> subst h
      · next h0 hn =>
        subst hn
        constructor <;> dsimp only
        · simp only [nO_cons, e1]; keep act g1 g2; grind [beg]
        · keep act0 g1; grind
        · simp only [nB_cons, e2]; keep bc g2; grind [lv]
        · exact bc0
        · keep bk k4; grind
        · keep kb1 k5 k9 k3 g2; grind
        · keep kb2 k6 k10 k3 g2; grind
        · keep ka0 k7; grind
        · keep ke1 k8; grind
        · keep kind k3 k4 g5; grind
        · keep kinds k3 k4 g1 g2 k2 sown; grind [subKey, subKey_rec]
      · next h0 hn =>
        have hn : n = false := eq_false_of_ne_true hn
        subst hn
        constructor <;> dsimp only
        · simp only [e1]; keep act g1 g2; grind [beg]
        · keep act0 g1; grind
        · simp only [e2]; keep bc g2; grind [lv]
        · exact bc0
        · keep bk k4; grind
        · keep kb1 k5 k9 k3 g2; grind
        · keep kb2 k6 k10 k3 g2; grind
        · keep ka0 k7; grind
        · keep ke1 k8; grind
        · keep kind k3 k4 g5; grind
        · keep kinds k3 k4 k2 g5; grind [subKey]
  | register t r =>
    simp only [step] at h
    step_split h
    rename_i hr
    have k1 : s.own r = none := by
      cases ho : s.own r with
      | none => rfl
      | some u => exact absurd (ownr r u ho).1 hr
    have k2 : nO s.opn s.sr r = 0 := nO_zero.2 fun x hx e => oown x hx (e ▸ k1)
    have k3 : ∀ b, nB s.opn s.sr s.nul s.bk r b = 0 := fun b => nB_zero.2 fun x hx e => absurd (e ▸ k1) (oown x hx)
    have k4 : beg r (s.sub t) = 0 := by
      by_contra hb; have := sown t r (beg_le _ _ hb); rw [k1] at this; cases this
    have k5 : ∀ b, lv s.bk r b (s.sub t) = 0 := by
      intro b; by_contra hb; have := sown t r (lv_le _ _ _ _ hb); rw [k1] at this; cases this
    constructor <;> dsimp only
    · keep act k2 k4; grind
    · keep act0; grind
    · simp only [upd_const]; keep bc k3 k5; grind
    · simp only [upd_const]; keep bc0; grind
    all_goals assumption
  | recycle t r =>
    simp only [step] at h
    step_split h
    rename_i hr
    have k1 : s.own r = none := by
      cases ho : s.own r with
      | none => rfl
      | some u => have := (ownr r u ho).2; grind
    have k2 : nO s.opn s.sr r = 0 := nO_zero.2 fun x hx e => oown x hx (e ▸ k1)
    have k3 : ∀ b, nB s.opn s.sr s.nul s.bk r b = 0 := fun b => nB_zero.2 fun x hx e => absurd (e ▸ k1) (oown x hx)
    have k4 : beg r (s.sub t) = 0 := by
      by_contra hb; have := sown t r (beg_le _ _ hb); rw [k1] at this; cases this
    have k5 : ∀ b, lv s.bk r b (s.sub t) = 0 := by
      intro b; by_contra hb; have := sown t r (lv_le _ _ _ _ hb); rw [k1] at this; cases this
    have k6 := act0 r k1
    have k7 := bc0 r hr.1 k1
    constructor <;> dsimp only
    · keep act k2 k4 k6; grind
    · keep act0; grind
    · keep bc k3 k5 k7; grind
    · keep bc0; grind
    all_goals assumption
  | unreg t r =>
    simp only [step, gs] at h
    step_split h
    rename_i hg
    obtain ⟨g1, g2, g3, g4⟩ := hg
    have k2 : nO s.opn s.sr r = 0 := nO_zero.2 g4
    have k3 : ∀ b, nB s.opn s.sr s.nul s.bk r b = 0 := fun b => nB_zero.2 fun x hx e => absurd e (g4 x hx)
    constructor <;> dsimp only
    · keep act g1 g2 k2; grind [beg]
    · keep act0; grind
    · simp only [upd_const]; keep bc g1 g2 k3; grind [lv]
    · simp only [upd_const]; keep bc0; grind
    · exact bk
    · keep kb1; grind
    · keep kb2; grind
    · keep ka0; grind
    · keep ke1; grind
    · exact kind
    · keep kinds; grind [subKey]
  | call t r x =>
    simp only [step, gs] at h
    step_split h
    rename_i hg
    obtain ⟨g1, g2, g3, g4⟩ := hg
    constructor <;> dsimp only
    · keep act g3; grind [beg]
    · exact act0
    · keep bc g3; grind [lv]
    · exact bc0
    · exact bk
    · keep kb1; grind
    · keep kb2; grind
    · keep ka0; grind
    · keep ke1; grind
    · exact kind
    · keep kinds; grind [subKey]
  | sync t bar =>
    simp only [step, gm] at h
    step_split h
    exact ⟨act, act0, bc, bc0, bk, kb1, kb2, ka0, ke1, kind, kinds⟩
  | poll t r =>
    simp only [step, gm] at h
    step_split h
    exact ⟨act, act0, bc, bc0, bk, kb1, kb2, ka0, ke1, kind, kinds⟩

end Verif.Ep
