import Verif.Rhs.Del

/-!
# Robin-hood hash set: growth
-/

set_option linter.unusedSectionVars false

namespace Verif.Rhs

open Verif Classical

variable {K V : Type} [DecidableEq K] [DecidableEq V]

/-! ## New maps -/

theorem capOf_pow (c : Nat) : ∃ p, 3 ≤ p ∧ p ≤ 31 ∧ capOf c = 2 ^ p := by
  unfold capOf
  by_cases h : (BitVec.ofNat 32 c).toNat = 0 ∨ 2 ^ 31 < (BitVec.ofNat 32 c).toNat
  · rw [Internal.power2_overflow _ h]
    exact ⟨3, by omega, by omega, rfl⟩
  · have h1 : 1 ≤ (BitVec.ofNat 32 c).toNat := by omega
    have h2 : (BitVec.ofNat 32 c).toNat ≤ 2 ^ 31 := by omega
    obtain ⟨⟨k, hk⟩, h4, h5⟩ := Internal.power2_least _ h1 h2
    generalize hP : (Internal.power2 (BitVec.ofNat 32 c)).toNat = P at *
    subst hk
    have hk31 : k ≤ 31 := by
      by_contra hc
      have h6 : 2 ^ 32 ≤ 2 ^ k := Nat.pow_le_pow_right (by omega) (by omega)
      have h7 : 2 ^ k < 2 ^ 32 := by rw [← hP]; exact BitVec.isLt _
      omega
    rcases Nat.lt_or_ge k 3 with h3 | h3
    · refine ⟨3, by omega, by omega, ?_⟩
      have h6 : 2 ^ k ≤ 2 ^ 3 := Nat.pow_le_pow_right (by omega) (by omega)
      exact Nat.max_eq_right (by omega)
    · refine ⟨k, h3, hk31, ?_⟩
      have h6 : 2 ^ 3 ≤ 2 ^ k := Nat.pow_le_pow_right (by omega) h3
      exact Nat.max_eq_left (by omega)

theorem geo_cap (cfg : Cfg K V) (c : Nat) : Geo cfg.ln (capOf c) := by
  obtain ⟨p, h1, h2, h3⟩ := capOf_pow c
  have h8 : capOf c = 8 * 2 ^ (p - 3) := by
    rw [h3, show p = 3 + (p - 3) by omega, Nat.pow_add]; simp
  unfold Cfg.ln
  split
  · exact ⟨by omega, p - 3, h8⟩
  · exact ⟨by omega, p - 3 + 1, by rw [h8, Nat.pow_succ]; omega⟩

/-- Probe limit of a map with `n` slots. -/
def limOf (n : Nat) : Nat := Nat.min (Nat.max (n >>> 5) 64) (2 ^ 32 - 1)

theorem bag_create (lf c : Nat) : bag (create lf c : Map V) = 0 := by
  unfold bag bagOf create
  simp [objs]

theorem good_create (cfg : Cfg K V) (lf c : Nat) : Good cfg (create lf c : Map V) none := by
  refine ⟨⟨geo_cap cfg c, ?_, ?_, ?_⟩, ⟨?_⟩, ⟨?_, ?_, ?_⟩⟩
  · intro o v _ _ h; simp [create] at h
  · intro o _ _ _; rfl
  · intro o _
    show 0 = _
    unfold W
    symm
    apply Finset.sum_eq_zero
    intro x _
    rw [D_none (by rfl)]
    rfl
  · intro o v _ _ h; simp [create] at h
  · exact Nat.zero_le _
  · intro o; exact Nat.zero_le _
  · intro o; exact Nat.zero_le _

/-! ## Reinsertion -/

/-- `v`, after `p` probes, is on its way into `u`. -/
structure RI (cfg : Cfg K V) (u : Map V) (v : V) (p : Nat) (w0 : Nat → Nat) : Prop where
  core : Core cfg u.cap u.limit u.ent u.prb w0 none
  wnt : ∀ x, x < u.cap → u.wnt x = w0 x + thru cfg.ln u.cap (cfg.hv v) (p + 1) x
  bnd : Bnd cfg u u.prb none
  lims : Lims cfg u
  occ : ∀ j, j < p → u.ent (sq cfg.ln u.cap (cfg.hv v) j) ≠ none
  le : p ≤ u.limit

theorem reinsert_full {cfg : Cfg K V} : ∀ (fuel : Nat) (u : Map V) (v : V) (o p : Nat), Geo cfg.ln u.cap → o < u.cap →
    (∀ x, x < u.cap → u.ent x ≠ none) → ∀ u', reinsert cfg fuel u v o p ≠ .ok (some u') := by
  intro fuel
  induction fuel with
  | zero => intro u v o p _ _ _ u' h; cases h
  | succ fuel ih =>
    intro u v o p g ho hf u'
    unfold reinsert
    by_cases hp : p = u.limit
    · rw [if_pos hp]; intro h; cases h
    · rw [if_neg hp]
      obtain ⟨w, hw⟩ := Option.ne_none_iff_exists'.1 (hf o ho)
      rw [hw]
      simp only
      split
      · have hb : ∀ m : Map V, ∀ h n, (boundSet cfg m h n).cap = m.cap ∧ (boundSet cfg m h n).ent = m.ent := by
          intro m h n
          unfold boundSet
          simp only
          constructor <;> (split <;> split <;> (try split) <;> rfl)
        obtain ⟨b1, b2⟩ := hb { u with ent := upd u.ent o (some v) } (cfg.hash (cfg.key v)) (p + 1)
        refine ih _ _ _ _ (by simp only; rw [b1]; exact g) (by simp only; rw [b1]; exact ho) ?_ u'
        intro x hx
        simp only at hx ⊢
        rw [b1] at hx
        rw [b2]
        simp only [upd_apply]
        split
        · simp
        · exact hf x hx
      · have hn : next cfg.ln u.cap o (p + 1) < u.cap := by
          obtain ⟨h, -, hh⟩ := g.home_ex o p ho
          rw [← hh]
          exact g.sq_lt h (p + 1)
        exact ih { u with wnt := upd u.wnt o ((u.wnt o + 1) % 65536) } _ _ _ g hn hf u'

theorem reinsert_spec {cfg : Cfg K V} : ∀ (fuel : Nat) (u : Map V) (v : V) (p : Nat) (w0 : Nat → Nat),
    RI cfg u v p w0 → (bag u).card < 65534 → (∃ x, x < u.cap ∧ u.ent x = none) →
    ∀ u', reinsert cfg fuel u v (sq cfg.ln u.cap (cfg.hv v) p) p = .ok (some u') →
      Good cfg u' none ∧ bag u' = bag u + {v} ∧ u'.n = u.n + 1 ∧ u'.cap = u.cap ∧ u'.limit = u.limit ∧ u'.maxEnt = u.maxEnt := by
  intro fuel
  induction fuel with
  | zero => intro u v p w0 _ _ _ u' h; cases h
  | succ fuel ih =>
    intro u v p w0 ri hcard hemp u' hu
    have hgeo := ri.core.geo
    have hsl := hgeo.sq_lt (cfg.hv v) p
    have hpC : p < u.cap := by
      obtain ⟨x, hx, he⟩ := hemp
      exact hgeo.lt_of_empty ri.occ hx he
    unfold reinsert at hu
    by_cases hp : p = u.limit
    · rw [if_pos hp] at hu; cases hu
    · rw [if_neg hp] at hu
      have hpl : p < u.limit := by have := ri.le; omega
      cases hent : u.ent (sq cfg.ln u.cap (cfg.hv v) p) with
      | none =>
        rw [hent] at hu
        simp only [Except.ok.injEq, Option.some.injEq] at hu
        have hcore := (ri.core.open_empty hent).put (c := sq cfg.ln u.cap (cfg.hv v) p) (k := p) (v := v) (wnt' := u.wnt)
          hsl hpC hpl rfl ri.occ ri.wnt
        generalize hm : ({ u with ent := upd u.ent (sq cfg.ln u.cap (cfg.hv v) p) (some v), n := u.n + 1,
                                  prb := upd u.prb (sq cfg.ln u.cap (cfg.hv v) p) (p + 1) } : Map V) = m at hu
        have hlm : Lims cfg m := by rw [← hm]; exact ⟨ri.lims.pm, ri.lims.bl, ri.lims.bw⟩
        obtain ⟨s1, s2, s3⟩ := boundSet_spec hlm (cfg.hash (cfg.key v)) (p + 1) (by rw [← hm]; exact hpl)
        rw [hu] at s1 s2 s3
        have hsame : ∀ h, boundGet cfg u h = boundGet cfg m h := by
          intro h; exact (boundGet_eq (by rw [← hm]) (by rw [← hm]) (by rw [← hm]) h).symm
        have hc : u'.cap = u.cap := by rw [s1.cap, ← hm]
        have hl : u'.limit = u.limit := by rw [s1.limit, ← hm]
        have he : u'.ent = upd u.ent (sq cfg.ln u.cap (cfg.hv v) p) (some v) := by rw [s1.ent, ← hm]
        have hpb : u'.prb = upd u.prb (sq cfg.ln u.cap (cfg.hv v) p) (p + 1) := by rw [s1.prb, ← hm]
        have hw : u'.wnt = u.wnt := by rw [s1.wnt, ← hm]
        refine ⟨⟨?_, ⟨?_⟩, s1.lims⟩, ?_, by rw [s1.n, ← hm], hc, hl, by rw [s1.maxEnt, ← hm]⟩
        · rw [hc, hl, he, hpb, hw]; exact hcore
        · intro x w hx _ hxw
          rw [hc] at hx
          rw [he, upd_apply] at hxw
          rw [hpb, upd_apply]
          by_cases h1 : x = sq cfg.ln u.cap (cfg.hv v) p
          · rw [if_pos h1] at hxw ⊢
            cases hxw
            exact ⟨s2, s3⟩
          · rw [if_neg h1] at hxw ⊢
            have h2 := ri.bnd.bd x w hx (by simp) hxw
            have h3 := s1.bd (cfg.hv w)
            rw [← hsame] at h3
            have h4 := s1.pm
            have h5 : m.pmax = u.pmax := by rw [← hm]
            omega
        · have h1 := bag_upd u.cap u.ent _ (some v) hsl
          rw [hent] at h1
          unfold bag
          rw [hc, he]
          simpa [objs] using h1
      | some w =>
        rw [hent] at hu
        simp only at hu
        obtain ⟨k, b1, b2, b3, b4, b5⟩ := ri.core.pos _ w hsl (by simp) hent
        by_cases hsw : u.prb (sq cfg.ln u.cap (cfg.hv v) p) < p + 1
        · rw [if_pos hsw] at hu
          generalize ho : sq cfg.ln u.cap (cfg.hv v) p = o at *
          generalize hm : ({ u with ent := upd u.ent o (some v) } : Map V) = m at hu
          have hlm : Lims cfg m := by rw [← hm]; exact ⟨ri.lims.pm, ri.lims.bl, ri.lims.bw⟩
          obtain ⟨s1, s2, s3⟩ := boundSet_spec hlm (cfg.hash (cfg.key v)) (p + 1) (by rw [← hm]; exact hpl)
          generalize boundSet cfg m (cfg.hash (cfg.key v)) (p + 1) = m' at hu s1 s2 s3
          have hsame : ∀ h, boundGet cfg u h = boundGet cfg m h := by
            intro h; exact (boundGet_eq (by rw [← hm]) (by rw [← hm]) (by rw [← hm]) h).symm
          have hc : m'.cap = u.cap := by rw [s1.cap, ← hm]
          have hl : m'.limit = u.limit := by rw [s1.limit, ← hm]
          have he : m'.ent = upd u.ent o (some v) := by rw [s1.ent, ← hm]
          have hpb : m'.prb = u.prb := by rw [s1.prb, ← hm]
          have hw : m'.wnt = u.wnt := by rw [s1.wnt, ← hm]
          have hge : ∀ x, x < u.cap → thru cfg.ln u.cap (cfg.hv w) (k + 1) x ≤ w0 x := by
            intro x hx
            have h1 := W_ge cfg.ln u.cap (D cfg u.ent u.prb none) o x hsl
            rw [← ri.core.wnt x hx, D_of (by simp) hent, b1] at h1
            exact h1
          have hcore := (ri.core.take (s := o) (v := w) (wnt' := fun x => w0 x - thru cfg.ln u.cap (cfg.hv w) (k + 1) x) hsl hent (by
            intro x hx
            have := hge x hx
            rw [b1]; omega)).put (c := o) (k := p) (v := v)
              (wnt' := fun x => w0 x - thru cfg.ln u.cap (cfg.hv w) (k + 1) x + thru cfg.ln u.cap (cfg.hv v) (p + 1) x)
              hsl hpC hpl ho ri.occ (fun _ _ => rfl)
          have hbagm : bag { m' with prb := upd m'.prb o (p + 1) } + {w} = bag u + {v} := by
            have h1 := bag_upd u.cap u.ent o (some v) hsl
            rw [hent] at h1
            unfold bag
            simp only
            rw [hc, he]
            exact h1
          rw [hpb, b1, Nat.add_sub_cancel] at hu
          have hne : ∀ x, u.ent x ≠ none → upd u.ent o (some v) x ≠ none := by
            intro x hx
            rw [upd_apply]
            split
            · simp
            · exact hx
          have := ih { m' with prb := upd m'.prb o (p + 1) } w k
            (fun x => w0 x - thru cfg.ln u.cap (cfg.hv w) (k + 1) x + thru cfg.ln u.cap (cfg.hv v) (p + 1) x)
            ⟨by simp only; rw [hc, hl, he, hpb]; exact hcore, ?_, ⟨?_⟩, ⟨s1.lims.pm, s1.lims.bl, s1.lims.bw⟩, ?_, ?_⟩ ?_ ?_ u' (by
              simp only [hc, b4]
              rw [hc] at hu
              rw [hpb]; exact hu)
          · obtain ⟨t1, t2, t3, t4, t5, t6⟩ := this
            simp only at t3 t4 t5 t6
            refine ⟨t1, ?_, ?_, by rw [t4, hc], by rw [t5, hl], ?_⟩
            · rw [t2, hbagm]
            · rw [t3, s1.n, ← hm]
            · rw [t6, s1.maxEnt, ← hm]
          · intro x hx
            simp only at hx ⊢
            rw [hc] at hx ⊢
            rw [hw, ri.wnt x hx]
            have := hge x hx
            omega
          · intro x y hx _ hxy
            simp only at hx hxy ⊢
            rw [hc] at hx
            rw [he, upd_apply] at hxy
            rw [boundGet_eq (cfg := cfg) (m := m') (by rfl) (by rfl) (by rfl), upd_apply]
            by_cases h1 : x = o
            · rw [if_pos h1] at hxy ⊢
              cases hxy
              exact ⟨s2, s3⟩
            · rw [if_neg h1] at hxy ⊢
              have h2 := ri.bnd.bd x y hx (by simp) hxy
              have h3 := s1.bd (cfg.hv y)
              rw [← hsame] at h3
              have h4 := s1.pm
              have h5 : m.pmax = u.pmax := by rw [← hm]
              rw [hpb]
              omega
          · intro j hj
            simp only
            rw [hc, he]
            exact hne _ (b5 j hj)
          · simp only; rw [hl]; omega
          · have h1 := congrArg Multiset.card hbagm
            rw [Multiset.card_add, Multiset.card_add, Multiset.card_singleton, Multiset.card_singleton] at h1
            omega
          · obtain ⟨x, hx, hxe⟩ := hemp
            refine ⟨x, by simp only; rw [hc]; exact hx, ?_⟩
            simp only
            rw [he, upd_ne _ _ (fun h => by rw [h, hent] at hxe; cases hxe)]
            exact hxe
        · rw [if_neg hsw] at hu
          have hth := thru_succ hgeo (cfg.hv v) p
          have hzero : thru cfg.ln u.cap (cfg.hv v) (p + 1) (sq cfg.ln u.cap (cfg.hv v) p) = 0 := by
            have h1 := hth (sq cfg.ln u.cap (cfg.hv v) p) hpC
            rw [if_pos rfl] at h1
            have h2 := thru_le cfg.ln u.cap (cfg.hv v) (p + 2) (sq cfg.ln u.cap (cfg.hv v) p)
            omega
          have hwo := ri.wnt _ hsl
          have hwle := ri.core.wnt_le hsl
          have hcard' : (bagOf u.cap u.ent).card < 65534 := hcard
          rw [hzero] at hwo
          have hmodw : (u.wnt (sq cfg.ln u.cap (cfg.hv v) p) + 1) % 65536 = u.wnt (sq cfg.ln u.cap (cfg.hv v) p) + 1 :=
            Nat.mod_eq_of_lt (by omega)
          rw [hmodw] at hu
          refine ih { u with wnt := upd u.wnt (sq cfg.ln u.cap (cfg.hv v) p) (u.wnt (sq cfg.ln u.cap (cfg.hv v) p) + 1) } v (p + 1) w0
            ⟨ri.core, ?_, ⟨ri.bnd.bd⟩, ⟨ri.lims.pm, ri.lims.bl, ri.lims.bw⟩, ?_, hpl⟩ hcard hemp u' hu
          · intro x hx
            simp only at hx ⊢
            have h1 := hth x hpC
            have h2 := ri.wnt x hx
            rw [upd_apply, h1]
            by_cases h3 : x = sq cfg.ln u.cap (cfg.hv v) p
            · rw [if_pos h3, if_pos h3.symm]
              subst h3
              omega
            · rw [if_neg h3, if_neg (fun h => h3 h.symm)]
              omega
          · intro j hj
            simp only
            rcases Nat.lt_or_ge j p with h1 | h1
            · exact ri.occ j h1
            · have : j = p := by omega
              subst this
              rw [hent]; simp

theorem boundSet_keeps (cfg : Cfg K V) (m : Map V) (h n : Nat) : (boundSet cfg m h n).cap = m.cap ∧
    (boundSet cfg m h n).limit = m.limit ∧ (boundSet cfg m h n).prb = m.prb ∧ (boundSet cfg m h n).ent = m.ent := by
  unfold boundSet
  simp only
  refine ⟨?_, ?_, ?_, ?_⟩ <;> (split <;> split <;> (try split) <;> rfl)

/-- The loop ends. -/
theorem reinsert_ends {cfg : Cfg K V} : ∀ (fuel : Nat) (u : Map V) (v : V) (o p : Nat), Geo cfg.ln u.cap → o < u.cap →
    (∀ x, x < u.cap → u.prb x ≤ u.limit) → (∀ x, x < u.cap → u.ent x ≠ none → 1 ≤ u.prb x) → p ≤ u.limit →
    2 * ((u.cap + 1) * u.limit) + (if u.prb o < p + 1 then 1 else 0) < fuel + 2 * (∑ x ∈ Finset.range u.cap, u.prb x + p) →
    ∃ r, reinsert cfg fuel u v o p = .ok r := by
  intro fuel
  induction fuel with
  | zero =>
    intro u v o p g ho hp1 hp2 hpl hf
    exfalso
    have h1 := sum_le_mul u.cap u.limit u.prb hp1
    have h2 : (u.cap + 1) * u.limit = u.cap * u.limit + u.limit := by rw [Nat.add_mul, Nat.one_mul]
    split at hf <;> omega
  | succ fuel ih =>
    intro u v o p g ho hp1 hp2 hpl hf
    unfold reinsert
    by_cases hp : p = u.limit
    · rw [if_pos hp]; exact ⟨_, rfl⟩
    · rw [if_neg hp]
      cases hent : u.ent o with
      | none => exact ⟨_, rfl⟩
      | some w =>
        simp only
        have h1 := hp2 o ho (by rw [hent]; simp)
        have h2 := hp1 o ho
        by_cases hsw : u.prb o < p + 1
        · rw [if_pos hsw] at hf
          rw [if_pos hsw]
          obtain ⟨b1, b2, b3, b4⟩ := boundSet_keeps cfg { u with ent := upd u.ent o (some v) } (cfg.hash (cfg.key v)) (p + 1)
          simp only at b1 b2 b3 b4
          generalize boundSet cfg { u with ent := upd u.ent o (some v) } (cfg.hash (cfg.key v)) (p + 1) = m at *
          refine ih _ _ _ _ (by simp only; rw [b1]; exact g) (by simp only; rw [b1]; exact ho) ?_ ?_ (by simp only; rw [b2, b3]; omega) ?_
          · intro x hx
            simp only at hx ⊢
            rw [b1] at hx
            rw [b2, b3, upd_apply]
            split
            · omega
            · exact hp1 x hx
          · intro x hx
            simp only at hx ⊢
            rw [b1] at hx
            rw [b3, b4, upd_apply, upd_apply]
            split
            · intro _; omega
            · exact hp2 x hx
          · simp only
            rw [b1, b2, b3]
            have hs := sum_upd u.cap (fun x : Nat => x) u.prb o (p + 1) ho
            rw [if_neg (by simp only [upd_same]; omega)]
            omega
        · rw [if_neg hsw] at hf
          rw [if_neg hsw]
          have hn : next cfg.ln u.cap o (p + 1) < u.cap := by
            obtain ⟨h, -, hh⟩ := g.home_ex o p ho
            rw [← hh]
            exact g.sq_lt h (p + 1)
          refine ih { u with wnt := upd u.wnt o ((u.wnt o + 1) % 65536) } _ _ _ g hn hp1 hp2 (by simp only; omega) ?_
          simp only
          split <;> omega

/-! ## `ck_rhs_grow` -/

theorem good_prb {cfg : Cfg K V} {m : Map V} (g : Good cfg m none) : (∀ x, x < m.cap → m.prb x ≤ m.limit) ∧
    ∀ x, x < m.cap → m.ent x ≠ none → 1 ≤ m.prb x := by
  constructor
  · intro x hx
    cases he : m.ent x with
    | none => rw [g.core.emp x hx (by simp) he]; omega
    | some v =>
      obtain ⟨k, h1, -, h3, -⟩ := g.core.pos x v hx (by simp) he
      omega
  · intro x hx hne
    obtain ⟨v, hv⟩ := Option.ne_none_iff_exists'.1 hne
    obtain ⟨k, h1, -⟩ := g.core.pos x v hx (by simp) hv
    omega

theorem bag_list (C : Nat) (ent : Nat → Option V) :
    bagOf C ent = ((List.range C).filterMap ent : Multiset V) := by
  unfold bagOf
  induction C with
  | zero => simp
  | succ n ih =>
    rw [Finset.sum_range_succ, ih, List.range_succ, List.filterMap_append]
    cases h : ent n with
    | none => simp [objs, h]
    | some v => simp only [objs, List.filterMap_cons, h, List.filterMap_nil]; rw [← Multiset.coe_add]; rfl

theorem rehash_spec {cfg : Cfg K V} {m : Map V} : ∀ (ks : List Nat) (u : Map V), Good cfg u none →
    (bag u).card + (ks.filterMap m.ent).length < 65534 →
    ∃ r, rehash cfg m ks u = .ok r ∧ ∀ u', r = some u' → Good cfg u' none ∧ bag u' = bag u + ↑(ks.filterMap m.ent) ∧
      u'.n = u.n + (ks.filterMap m.ent).length ∧ u'.cap = u.cap ∧ u'.limit = u.limit ∧ u'.maxEnt = u.maxEnt := by
  intro ks
  induction ks with
  | nil =>
    intro u g _
    refine ⟨_, rfl, fun u' hu => ?_⟩
    cases hu
    exact ⟨g, by simp, by simp, rfl, rfl, rfl⟩
  | cons k ks ih =>
    intro u g hcard
    unfold rehash
    cases hk : m.ent k with
    | none =>
      simp only
      rw [List.filterMap_cons_none hk] at hcard ⊢
      exact ih u g hcard
    | some v =>
      rw [List.filterMap_cons_some hk] at hcard ⊢
      simp only [bind, Except.bind]
      obtain ⟨p1, p2⟩ := good_prb g
      have hgeo := g.core.geo
      have hsl : cfg.hash (cfg.key v) % u.cap < u.cap := Nat.mod_lt _ hgeo.cpos
      obtain ⟨r, hr⟩ := reinsert_ends (cfg := cfg) (2 * (u.cap + 1) * (u.limit + 2)) u v (cfg.hash (cfg.key v) % u.cap) 0 hgeo hsl
        p1 p2 (by omega) (by
          have : 2 * (u.cap + 1) * (u.limit + 2) = 2 * ((u.cap + 1) * u.limit) + 4 * (u.cap + 1) := by ring
          rw [this]
          split <;> omega)
      rw [hr]
      simp only
      cases r with
      | none =>
        refine ⟨_, rfl, fun u' hu => ?_⟩
        cases hu
      | some u1 =>
        simp only
        have hemp : ∃ x, x < u.cap ∧ u.ent x = none := by
          by_contra hno
          push Not at hno
          exact reinsert_full _ u v _ 0 hgeo hsl hno u1 hr
        obtain ⟨t1, t2, t3, t4, t5, t6⟩ := reinsert_spec _ u v 0 u.wnt
          ⟨g.core, fun x _ => by rw [thru_one]; rfl, g.bnd, g.lims, fun j hj => by omega, by omega⟩
          (by simp only [List.length_cons] at hcard; omega) hemp u1 hr
        obtain ⟨r, h1, h2⟩ := ih u1 t1 (by
          rw [t2, Multiset.card_add, Multiset.card_singleton]
          simp only [List.length_cons] at hcard
          omega)
        refine ⟨r, h1, fun u' hu => ?_⟩
        obtain ⟨q1, q2, q3, q4, q5, q6⟩ := h2 u' hu
        refine ⟨q1, ?_, ?_, by rw [q4, t4], by rw [q5, t5], by rw [q6, t6]⟩
        · rw [q2, t2, ← Multiset.cons_coe, add_assoc, Multiset.singleton_add]
        · rw [q3, t3, List.length_cons]; omega

/-- A new map and what it holds. -/
structure Grown (cfg : Cfg K V) (lf : Nat) (m u : Map V) : Prop where
  good : Good cfg u none
  bagm : bag u = bag m
  n : u.n = (bag m).card
  lim : u.limit = limOf u.cap
  max : u.maxEnt = u.cap * lf / 100

theorem grow_spec {cfg : Cfg K V} {lf : Nat} {m : Map V} (hcard : (bag m).card < 65534) :
    ∀ (al : Alloc) (c : Nat), ∃ r al', grow cfg lf m c al = .ok (r, al') ∧ (∃ pre, al = pre ++ al') ∧
      ∀ u, r = some u → Grown cfg lf m u ∧ al'.length < al.length ∧ ∃ a ∈ al, a u.cap = true := by
  intro al
  induction al with
  | nil =>
    intro c
    exact ⟨none, [], rfl, ⟨[], rfl⟩, fun u h => by cases h⟩
  | cons a al ih =>
    intro c
    unfold grow
    by_cases h1 : m.cap > c
    · rw [if_pos h1]; exact ⟨none, a :: al, rfl, ⟨[], rfl⟩, fun u h => by cases h⟩
    · rw [if_neg h1]
      by_cases h2 : a (capOf c) = false
      · rw [if_pos h2]; exact ⟨none, al, rfl, ⟨[a], rfl⟩, fun u h => by cases h⟩
      · rw [if_neg h2]
        have hbl := bag_list m.cap m.ent
        have hlen : ((List.range m.cap).filterMap m.ent).length = (bag m).card := by
          unfold bag; rw [hbl]; rfl
        obtain ⟨r, q1, q2⟩ := rehash_spec (cfg := cfg) (m := m) (List.range m.cap) (create lf c) (good_create cfg lf c)
          (by rw [bag_create, hlen]; simpa using hcard)
        simp only [bind, Except.bind, q1]
        cases r with
        | some u =>
          obtain ⟨t1, t2, t3, t4, t5, t6⟩ := q2 u rfl
          refine ⟨some u, al, rfl, ⟨[a], rfl⟩, fun u' hu => ?_⟩
          cases hu
          refine ⟨⟨t1, ?_, ?_, ?_, ?_⟩, by simp, a, by simp, ?_⟩
          · rw [t2, bag_create, ← hbl, zero_add]; rfl
          · rw [t3, hlen]; simp [create]
          · rw [t5, t4]; rfl
          · rw [t6, t4]; rfl
          · rw [t4]
            have : (create lf c : Map V).cap = capOf c := rfl
            rw [this]
            simpa using h2
        | none =>
          simp only
          obtain ⟨r, al', e1, ⟨pre, e2⟩, e3⟩ := ih (c * 2 % 2 ^ 64)
          refine ⟨r, al', e1, ⟨a :: pre, by rw [e2]; rfl⟩, fun u hu => ?_⟩
          obtain ⟨f1, f2, b, f3, f4⟩ := e3 u hu
          exact ⟨f1, by rw [List.length_cons]; omega, b, List.mem_cons_of_mem _ f3, f4⟩

end Verif.Rhs
