import Verif.Rhs.Put

/-!
# Robin-hood hash set: deletion
-/

set_option linter.unusedSectionVars false

namespace Verif.Rhs

open Verif Classical

variable {K V : Type} [DecidableEq K] [DecidableEq V]

theorem findIn_spec {L : Nat} (m : Map V) (h : Nat) : ∀ (r j : Nat),
    match findIn L m r (sq L m.cap h j) j with
    | some (o, p) => j ≤ p ∧ p < j + r ∧ o = sq L m.cap h p ∧ m.prb o = p + 1
    | none => ∀ p, j ≤ p → p < j + r → m.prb (sq L m.cap h p) ≠ p + 1 := by
  intro r
  induction r with
  | zero => intro j; unfold findIn; intro p h1 h2; omega
  | succ r ih =>
    intro j
    unfold findIn
    by_cases h1 : m.prb (sq L m.cap h j) = j + 1
    · rw [if_pos h1]
      exact ⟨Nat.le_refl _, by omega, rfl, h1⟩
    · rw [if_neg h1]
      have h2 := ih (j + 1)
      rw [show sq L m.cap h (j + 1) = next L m.cap (sq L m.cap h j) (j + 1) from rfl] at h2
      split
      · next o p he =>
        rw [he] at h2
        exact ⟨by omega, by omega, h2.2.2.1, h2.2.2.2⟩
      · next he =>
        rw [he] at h2
        intro p h3 h4
        rcases Nat.eq_or_lt_of_le h3 with h5 | h5
        · subst h5; exact h1
        · exact h2 p (by omega) (by omega)

theorem findSucc_spec {L : Nat} (m : Map V) (g : Geo L m.cap) {slot : Nat} (hs : slot < m.cap) : ∀ (r i : Nat),
    match findSucc L m slot r (i + 1) with
    | some (i', o, p) => i + 1 ≤ i' ∧ i' ≤ p ∧ p < m.pmax ∧ m.prb o = p + 1 ∧
        ∃ h, sq L m.cap h (i' - 1) = slot ∧ o = sq L m.cap h p
    | none => ∀ h i' p, i ≤ i' → i' < i + r → sq L m.cap h i' = slot → i' < p → p < m.pmax → m.prb (sq L m.cap h p) ≠ p + 1 := by
  intro r
  induction r with
  | zero => intro i; unfold findSucc; intro h i' p h1 h2; omega
  | succ r ih =>
    intro i
    unfold findSucc
    obtain ⟨h, -, hh⟩ := g.home_ex slot i hs
    have hnx : ∀ h, sq L m.cap h i = slot → next L m.cap slot (i + 1) = sq L m.cap h (i + 1) := by
      rintro h rfl; rfl
    have h1 := findIn_spec (L := L) m h (m.pmax - (i + 1)) (i + 1)
    rw [← hnx h hh] at h1
    cases he : findIn L m (m.pmax - (i + 1)) (next L m.cap slot (i + 1)) (i + 1) with
    | some x =>
      obtain ⟨o, p⟩ := x
      rw [he] at h1
      simp only at h1 ⊢
      exact ⟨Nat.le_refl _, h1.1, by omega, h1.2.2.2, h, by simpa using hh, h1.2.2.1⟩
    | none =>
      simp only
      have h2 := ih (i + 1)
      cases he2 : findSucc L m slot r (i + 1 + 1) with
      | some x =>
        obtain ⟨i', o, p⟩ := x
        rw [he2] at h2
        simp only at h2 ⊢
        exact ⟨by omega, h2.2⟩
      | none =>
        rw [he2] at h2
        simp only at h2 ⊢
        intro h' i' p a1 a2 a3 a4 a5
        rcases Nat.eq_or_lt_of_le a1 with h5 | h5
        · subst h5
          have h6 := findIn_spec (L := L) m h' (m.pmax - (i + 1)) (i + 1)
          rw [← hnx h' a3, he] at h6
          exact h6 p (by omega) (by omega)
        · exact h2 h' i' p (by omega) (by omega) a3 a4 a5

/-- The fields a deletion leaves alone. -/
structure Frame (m0 m : Map V) : Prop where
  cap : m.cap = m0.cap
  limit : m.limit = m0.limit
  n : m.n = m0.n
  maxEnt : m.maxEnt = m0.maxEnt
  pm : m.pmax = m0.pmax

/-- Invariant of the loop: `slot` is the hole, and still holds an object that has been moved or is to be removed. -/
structure Sh (cfg : Cfg K V) (m0 : Map V) (w : V) (m : Map V) (slot h : Nat) : Prop where
  frame : Frame m0 m
  good : Good cfg m (some slot)
  bagm : bagOf m.cap m.ent + {w} = bagOf m0.cap m0.ent + objs (m.ent slot)
  lt : slot < m.cap
  old : ∃ v k, m.ent slot = some v ∧ h = cfg.hv v % m.cap ∧ m.prb slot = k + 1 ∧ k < m.cap ∧ k < m.limit ∧
    sq cfg.ln m.cap (cfg.hv v) k = slot

theorem shrink_other (cfg : Cfg K V) (m : Map V) (h i o p : Nat) : ∃ b, shrink cfg m h i o p = { m with bnd := b } ∧
    (b = m.bnd ∨ (i < cfg.wmax ∧ b = upd m.bnd h i)) := by
  unfold shrink
  split
  · next hi =>
    split
    · exact ⟨_, rfl, .inr ⟨hi, rfl⟩⟩
    · split
      · simp only
        generalize (if m.bnd h = cfg.wmax then m.pmax else m.bnd h - 1) = mx
        split
        · exact ⟨_, rfl, .inr ⟨hi, rfl⟩⟩
        · exact ⟨_, rfl, .inl rfl⟩
      · exact ⟨_, rfl, .inl rfl⟩
  · exact ⟨_, rfl, .inl rfl⟩

/-- Below `CK_RHS_WORD_MAX` the bound is lowered only if one object runs through the home slot. -/
theorem shrink_one (cfg : Cfg K V) (m : Map V) (h i o p : Nat) (hb : m.bnd h < cfg.wmax) (ho : m.prb o = p + 1)
    (hw : m.wnt h ≠ 1) : shrink cfg m h i o p = m := by
  unfold shrink
  split
  · split
    · next hx =>
      rcases hx with hx | hx
      · omega
      · simp only
        rw [if_neg]
        rw [if_neg (by omega)]
        rintro ⟨h1, -⟩
        omega
    · rfl
  · rfl

theorem sum_le_mul (C L : Nat) (f : Nat → Nat) (h : ∀ x, x < C → f x ≤ L) : ∑ x ∈ Finset.range C, f x ≤ C * L := by
  have := Finset.sum_le_card_nsmul (Finset.range C) f L (fun x hx => h x (Finset.mem_range.1 hx))
  simpa using this

/-- Sum of the probe numbers, without the hole. -/
noncomputable def mu (m : Map V) (slot : Nat) : Nat := ∑ x ∈ Finset.range m.cap, upd m.prb slot 0 x

theorem shift_spec {cfg : Cfg K V} {m0 : Map V} {w : V} (hcard : (bag m0).card < 65535)
    (hwm : cfg.rm = true ∨ m0.limit < cfg.wmax) :
    ∀ (fuel : Nat) (m : Map V) (slot h : Nat), Sh cfg m0 w m slot h → mu m slot < fuel →
      ∃ m' s' h', shift cfg fuel m slot h = .ok (m', s', h') ∧ Sh cfg m0 w m' s' h' ∧ m'.wnt s' = 0 := by
  intro fuel
  induction fuel with
  | zero => intro m slot h _ hf; omega
  | succ fuel ih =>
    intro m slot h s hf
    unfold shift
    by_cases hz : m.wnt slot > 0
    · rw [if_pos hz]
      have hgeo := s.good.core.geo
      obtain ⟨v0, k0, o1, o2, o3, o4, o5, o6⟩ := s.old
      have hwb : ∀ x, x < m.cap → m.wnt x < 65535 := by
        intro x hx
        have h1 := s.good.core.wnt_le hx
        have h2 := congrArg Multiset.card s.bagm
        rw [Multiset.card_add, Multiset.card_add, Multiset.card_singleton, o1] at h2
        simp only [objs, Multiset.card_singleton] at h2
        have : (bagOf m0.cap m0.ent).card < 65535 := hcard
        omega
      have hsp := findSucc_spec (L := cfg.ln) m hgeo s.lt (m.pmax - 1) 0
      cases hfs : findSucc cfg.ln m slot (m.pmax - 1) 1 with
      | none =>
        exfalso
        rw [Nat.zero_add, hfs] at hsp
        simp only at hsp
        rw [s.good.core.wnt slot s.lt] at hz
        obtain ⟨x, hx, hc⟩ := W_pos hz
        by_cases hxs : x = slot
        · subst hxs; rw [D_hole] at hc; exact absurd hc (Nat.lt_irrefl 0)
        · cases hex : m.ent x with
          | none => rw [D_none hex] at hc; exact absurd hc (Nat.lt_irrefl 0)
          | some v =>
            rw [D_of (by simpa using hxs) hex] at hc
            obtain ⟨i, hi1, hi2⟩ := thru_pos hc
            obtain ⟨k, b1, b2, b3, b4, b5⟩ := s.good.core.pos x v hx (by simpa using hxs) hex
            have hb := (s.good.bnd.bd x v hx (by simpa using hxs) hex).2
            simp only at hi1
            exact hsp (cfg.hv v) i k (by omega) (by omega) hi2 (by omega) (by omega) (by rw [b4]; exact b1)
      | some y =>
        obtain ⟨i, o, p⟩ := y
        rw [Nat.zero_add, hfs] at hsp
        simp only at hsp ⊢
        obtain ⟨c1, c2, c3, c4, h1, c5, c6⟩ := hsp
        have ho : o < m.cap := by rw [c6]; exact hgeo.sq_lt _ _
        have hos : o ≠ slot := by
          intro he
          have hp : p < m.cap := by rw [he, o3] at c4; omega
          have := hgeo.sq_inj (by omega) hp (c5.trans (he.symm.trans c6))
          omega
        cases hent : m.ent o with
        | none =>
          have := s.good.core.emp o ho (by simpa using hos) hent
          omega
        | some v =>
          obtain ⟨k, b1, b2, b3, b4, b5⟩ := s.good.core.pos o v ho (by simpa using hos) hent
          have hkp : k = p := by omega
          subst hkp
          have hhome : cfg.hv v % m.cap = h1 % m.cap := hgeo.sq_home (b4.trans c6)
          have hsl : sq cfg.ln m.cap (cfg.hv v) (i - 1) = slot := by rw [sq_congr hhome]; exact c5
          have hbo := s.good.bnd.bd o v ho (by simpa using hos) hent
          -- `wanted`
          have hcon : ∀ x, con cfg.ln m.cap (D cfg m.ent m.prb (some slot) o) x = thru cfg.ln m.cap (cfg.hv v) (k + 1) x := by
            intro x
            rw [D_of (by simpa using hos) hent, b1]; rfl
          have hge : ∀ x, x < m.cap → thru cfg.ln m.cap (cfg.hv v) (k + 1) x ≤ m.wnt x := by
            intro x hx
            rw [s.good.core.wnt x hx, ← hcon]; exact W_ge _ _ _ _ _ ho
          obtain ⟨w1, d1, d2⟩ := remWanted_move (cfg := cfg) (m := { m with prb := upd m.prb slot i }) (h := cfg.hv v)
            (k := k) (i := i - 1) (o := o) (slot := slot) hgeo b2 b4 (by simp only; rw [upd_ne _ _ hos]; exact b1) (by omega) hsl (by
              intro j hj1 hj2
              simp only
              have h2 := hge _ (hgeo.sq_lt (cfg.hv v) j)
              rw [thru_eq_one (k := j) (by omega) rfl] at h2
              exact ⟨h2, hwb _ (hgeo.sq_lt _ _)⟩)
          rw [d1]
          simp only
          rw [hent]
          simp only at d2
          rw [show i - 1 + 2 = i + 1 by omega] at d2
          generalize hm2 : ({ m with prb := upd m.prb slot i, wnt := w1, ent := upd m.ent slot (some v) } : Map V) = m2
          have hsh := shrink_other cfg m2 (cfg.hv v % m.cap) i o k
          obtain ⟨b, e1, e2⟩ := hsh
          rw [show m2.bnd = m.bnd by rw [← hm2]] at e2
          have hw1s : w1 slot = m.wnt slot := by
            have := d2 slot
            rw [thru_eq_one (k := i - 1) (p := k + 1) (by omega) hsl, thru_eq_one (k := i - 1) (p := i + 1) (by omega) hsl] at this
            omega
          have hm3 : (if (shrink cfg m2 (cfg.hv v % m.cap) i o k).wnt slot < 65535 then
              { (shrink cfg m2 (cfg.hv v % m.cap) i o k) with
                wnt := upd (shrink cfg m2 (cfg.hv v % m.cap) i o k).wnt slot ((shrink cfg m2 (cfg.hv v % m.cap) i o k).wnt slot - 1) }
              else shrink cfg m2 (cfg.hv v % m.cap) i o k) =
              { m with prb := upd m.prb slot i, wnt := upd w1 slot (w1 slot - 1), ent := upd m.ent slot (some v), bnd := b } := by
            rw [e1, ← hm2]
            simp only
            rw [if_pos (by rw [hw1s]; exact hwb _ s.lt)]
          rw [hm3]
          have hcore := s.good.core.fill (p := o) (c := slot) (k := i - 1) (v := v) (wnt' := upd w1 slot (w1 slot - 1)) ho s.lt hos hent
            (by omega) (by omega) hsl (fun j hj => b5 j (by omega)) (by
              intro x hx
              have h2 := d2 x
              have h3 := thru_succ hgeo (cfg.hv v) (i - 1) x (by omega)
              rw [show i - 1 + 2 = i + 1 by omega, hsl] at h3
              rw [b1, show i - 1 + 1 = i by omega]
              rw [show i - 1 + 1 = i by omega] at h3
              simp only [upd_apply]
              by_cases hxs : x = slot
              · rw [if_pos hxs.symm] at h3
                rw [if_pos hxs]
                rw [hxs] at h2 h3 ⊢
                omega
              · rw [if_neg (fun h => hxs h.symm)] at h3
                rw [if_neg hxs]
                omega)
          rw [show i - 1 + 1 = i by omega] at hcore
          have hlims : Lims cfg { m with prb := upd m.prb slot i, wnt := upd w1 slot (w1 slot - 1), ent := upd m.ent slot (some v), bnd := b } := by
            refine ⟨s.good.lims.pm, fun x => ?_, fun x => ?_⟩
            · simp only
              rcases e2 with e2 | ⟨e2, e3⟩
              · rw [e2]; exact s.good.lims.bl x
              · rw [e3, upd_apply]
                split
                · omega
                · exact s.good.lims.bl x
            · simp only
              rcases e2 with e2 | ⟨e2, e3⟩
              · rw [e2]; exact s.good.lims.bw x
              · rw [e3, upd_apply]
                split
                · omega
                · exact s.good.lims.bw x
          refine ih _ o (cfg.hv v % m.cap) ⟨⟨s.frame.cap, s.frame.limit, s.frame.n, s.frame.maxEnt, s.frame.pm⟩,
            ⟨hcore, ⟨?_⟩, hlims⟩, ?_, ho, ?_⟩ ?_
          · -- the bounds
            intro y u hy hyo hyu
            simp only at hy hyu ⊢
            -- the objects and what they need
            have hneed : upd m.prb slot i y ≤ boundGet cfg m (cfg.hv u) ∧ upd m.prb slot i y ≤ m.pmax := by
              rw [upd_apply] at hyu ⊢
              by_cases hys : y = slot
              · rw [if_pos hys] at hyu ⊢
                cases hyu
                omega
              · rw [if_neg hys] at hyu ⊢
                exact s.good.bnd.bd y u hy (by simpa using hys) hyu
            refine ⟨?_, hneed.2⟩
            rcases hwm with hrm | hlw
            · have := hneed.1
              unfold boundGet at this ⊢
              rw [if_pos hrm] at this ⊢
              exact this
            · by_cases hrm : cfg.rm = true
              · have := hneed.1
                unfold boundGet at this ⊢
                rw [if_pos hrm] at this ⊢
                exact this
              · have hbl : ∀ x, m.bnd x < cfg.wmax := fun x => by
                  have h2 := s.good.lims.bl x
                  have h3 := s.frame.limit
                  omega
                rcases e2 with e2 | ⟨e2, e3⟩
                · subst e2
                  rw [boundGet_eq (cfg := cfg) (m := m) (by rfl) (by rfl) (by rfl)]
                  exact hneed.1
                · by_cases hhu : cfg.hv u % m.cap = cfg.hv v % m.cap
                  · -- same home
                    have hgoal : upd m.prb slot i y ≤ i ∨ b = m.bnd := by
                      by_cases hone : m2.wnt (cfg.hv v % m.cap) = 1
                      · left
                        rw [upd_apply] at hyu ⊢
                        by_cases hys : y = slot
                        · rw [if_pos hys]
                        · rw [if_neg hys] at hyu ⊢
                          by_contra hgt
                          have hyo' : y ≠ o := by simpa using hyo
                          have h2 := W_ge2 cfg.ln m.cap (D cfg m.ent m.prb (some slot)) y o (cfg.hv v % m.cap) hy ho hyo'
                          rw [← s.good.core.wnt _ (Nat.mod_lt _ hgeo.cpos), hcon, D_of (by simpa using hys) hyu] at h2
                          simp only [con] at h2
                          rw [thru_eq_one (k := 0) (p := m.prb y) (by omega) (by simpa [sq] using hhu),
                            thru_eq_one (k := 0) (p := k + 1) (by omega) (by simp [sq])] at h2
                          have h3 := d2 (cfg.hv v % m.cap)
                          rw [thru_eq_one (k := 0) (p := k + 1) (by omega) (by simp [sq]),
                            thru_eq_one (k := 0) (p := i + 1) (by omega) (by simp [sq])] at h3
                          rw [← hm2] at hone
                          simp only at hone
                          omega
                      · right
                        have h2 := shrink_one cfg m2 (cfg.hv v % m.cap) i o k (by rw [← hm2]; exact hbl _)
                          (by rw [← hm2]; simp only; rw [upd_ne _ _ hos]; exact b1) hone
                        rw [e1, ← hm2] at h2
                        simpa using congrArg Map.bnd h2
                    rcases hgoal with hg | hg
                    · unfold boundGet
                      rw [if_neg hrm]
                      simp only
                      rw [e3, hhu, upd_same, if_neg (by omega)]
                      exact hg
                    · subst hg
                      rw [boundGet_eq (cfg := cfg) (m := m) (by rfl) (by rfl) (by rfl)]
                      exact hneed.1
                  · have := hneed.1
                    unfold boundGet at this ⊢
                    rw [if_neg hrm] at this ⊢
                    simp only
                    rw [e3, upd_ne _ _ hhu]
                    exact this
          · simp only
            rw [upd_ne _ _ hos, hent]
            have h2 := bag_upd m.cap m.ent slot (some v) s.lt
            have h3 := s.bagm
            have h4 : bagOf m.cap (upd m.ent slot (some v)) + {w} + objs (m.ent slot) =
                bagOf m0.cap m0.ent + objs (some v) + objs (m.ent slot) := by
              rw [add_right_comm, h2, add_right_comm, h3, add_right_comm]
            exact add_right_cancel h4
          · simp only
            rw [upd_ne _ _ hos, upd_ne _ _ hos]
            exact ⟨v, k, hent, rfl, b1, b2, b3, b4⟩
          · unfold mu at hf ⊢
            simp only
            have hs1 := sum_upd m.cap (fun x : Nat => x) (upd (upd m.prb slot 0) slot i) o 0 ho
            have hs2 := sum_upd m.cap (fun x : Nat => x) (upd m.prb slot 0) slot i s.lt
            have hu : upd (upd m.prb slot i) o 0 = upd (upd (upd m.prb slot 0) slot i) o 0 := by
              funext x
              simp only [upd_apply]
              split
              · rfl
              · split <;> rfl
            rw [hu]
            simp only [upd_same, upd_ne _ _ hos] at hs1 hs2
            omega
    · rw [if_neg hz]
      exact ⟨m, slot, h, rfl, s, by omega⟩

theorem delete_spec {cfg : Cfg K V} {m : Map V} {slot : Nat} {w : V} (g : Good cfg m none) (hcard : (bag m).card < 65535)
    (hwm : cfg.rm = true ∨ m.limit < cfg.wmax) (hs : slot < m.cap) (hw : m.ent slot = some w) :
    ∃ m', delete cfg m slot = .ok m' ∧ Frame m m' ∧ Good cfg m' none ∧ bag m' + {w} = bag m := by
  have hgeo := g.core.geo
  obtain ⟨k, b1, b2, b3, b4, b5⟩ := g.core.pos slot w hs (by simp) hw
  have hge : ∀ x, x < m.cap → thru cfg.ln m.cap (cfg.hv w) (k + 1) x ≤ m.wnt x := by
    intro x hx
    have h1 := W_ge cfg.ln m.cap (D cfg m.ent m.prb none) slot x hs
    rw [← g.core.wnt x hx, D_of (by simp) hw, b1] at h1
    exact h1
  obtain ⟨w1, d1, d2⟩ := remWanted_take (cfg := cfg) (m := m) (h := cfg.hv w) hgeo b2 b4 b1 (by
    intro i hi
    have h1 := hge _ (hgeo.sq_lt (cfg.hv w) i)
    rw [thru_eq_one (k := i) (by omega) rfl] at h1
    have h2 := g.core.wnt_le (hgeo.sq_lt (cfg.hv w) i)
    have : (bagOf m.cap m.ent).card < 65535 := hcard
    exact ⟨h1, by omega⟩)
  have hcore := g.core.take (s := slot) (v := w) (wnt' := w1) hs hw (by
    intro o _
    rw [b1]; exact d2 o)
  unfold delete
  simp only [d1, bind, Except.bind]
  obtain ⟨m', s', h', e1, e2, e3⟩ := shift_spec (cfg := cfg) (m0 := m) (w := w) hcard hwm (m.cap * (m.limit + 1) + 1)
    { m with wnt := w1 } slot (cfg.hv w % m.cap)
    ⟨⟨rfl, rfl, rfl, rfl, rfl⟩, ⟨hcore, ⟨fun o v ho _ he => g.bnd.bd o v ho (by simp) he⟩, ⟨g.lims.pm, g.lims.bl, g.lims.bw⟩⟩,
      by simp only; rw [hw]; rfl, hs, ⟨w, k, hw, rfl, b1, b2, b3, b4⟩⟩ (by
      unfold mu
      have := sum_le_mul m.cap (m.limit + 1) (upd m.prb slot 0) (by
        intro x hx
        rw [upd_apply]
        split
        · omega
        · cases he : m.ent x with
          | none => rw [g.core.emp x hx (by simp) he]; omega
          | some v =>
            obtain ⟨j, a1, -, a3, -⟩ := g.core.pos x v hx (by simp) he
            omega)
      simp only
      omega)
  rw [e1]
  simp only
  refine ⟨_, rfl, ?_⟩
  obtain ⟨v, j, o1, o2, o3, o4, o5, o6⟩ := e2.old
  have hcore' := e2.good.core.clear e2.lt e3
  have hclear : clear cfg m' s' h' = { m' with
      ent := upd m'.ent s' none, prb := upd m'.prb s' 0, bnd := if j < cfg.wmax then upd m'.bnd h' j else m'.bnd } := by
    unfold clear
    simp only
    rw [o3, Nat.add_sub_cancel]
    by_cases hj : j < cfg.wmax
    · rw [if_pos ⟨by omega, hj⟩, if_pos hj]
    · rw [if_neg (fun h => hj h.2), if_neg hj]
  rw [hclear]
  refine ⟨⟨e2.frame.cap, e2.frame.limit, e2.frame.n, e2.frame.maxEnt, e2.frame.pm⟩, ⟨hcore', ⟨?_⟩, ⟨e2.good.lims.pm, ?_, ?_⟩⟩, ?_⟩
  · intro y u hy _ hyu
    simp only at hy hyu ⊢
    rw [upd_apply] at hyu ⊢
    by_cases hys : y = s'
    · rw [if_pos hys] at hyu; cases hyu
    · rw [if_neg hys] at hyu ⊢
      have hb := e2.good.bnd.bd y u hy (by simpa using hys) hyu
      refine ⟨?_, hb.2⟩
      have hb1 := hb.1
      unfold boundGet at hb1 ⊢
      by_cases hrm : cfg.rm = true
      · rw [if_pos hrm] at hb1 ⊢; exact hb1
      · rw [if_neg hrm] at hb1 ⊢
        simp only
        by_cases hj : j < cfg.wmax
        · rw [if_pos hj]
          by_cases hh : cfg.hv u % m'.cap = h'
          · rw [hh, upd_same, if_neg (by omega)]
            obtain ⟨ky, a1, a2, a3, a4, a5⟩ := e2.good.core.pos y u hy (by simpa using hys) hyu
            have hsq : ∀ t, sq cfg.ln m'.cap (cfg.hv u) t = sq cfg.ln m'.cap (cfg.hv v) t :=
              fun t => sq_congr (by rw [hh, o2]) t
            rcases Nat.lt_or_ge ky j with h1 | h1
            · omega
            · exfalso
              rcases Nat.eq_or_lt_of_le h1 with h2 | h2
              · apply hys
                rw [← a4, ← h2, hsq]; exact o6
              · have h3 := W_ge cfg.ln m'.cap (D cfg m'.ent m'.prb (some s')) y s' hy
                rw [← e2.good.core.wnt s' e2.lt, e3, D_of (by simpa using hys) hyu] at h3
                have h4 : thru cfg.ln m'.cap (cfg.hv u) (m'.prb y) s' = 1 :=
                  thru_eq_one (k := j) (by omega) (by rw [hsq]; exact o6)
                simp only [con] at h3
                omega
          · rw [upd_ne _ _ hh]; exact hb1
        · rw [if_neg hj]; exact hb1
  · intro x
    simp only
    split
    · rw [upd_apply]
      split
      · omega
      · exact e2.good.lims.bl x
    · exact e2.good.lims.bl x
  · intro x
    simp only
    split
    · rw [upd_apply]
      split
      · omega
      · exact e2.good.lims.bw x
    · exact e2.good.lims.bw x
  · have h1 := bag_upd m'.cap m'.ent s' none e2.lt
    have h2 := e2.bagm
    unfold bag
    rw [o1] at h1 h2
    have h3 : bagOf m'.cap (upd m'.ent s' none) + {w} + objs (some v) = bagOf m.cap m.ent + objs (some v) := by
      rw [add_right_comm, h1, ← h2]
      simp [objs]
    exact add_right_cancel h3

end Verif.Rhs
