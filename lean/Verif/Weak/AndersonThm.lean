import Verif.Weak.Anderson
import Mathlib.Data.Fintype.EquivFin

/-!
# Anderson's array lock on relaxed memory: exclusion, order, and what the holder loads (C80)

The invariant of `Verif.Spin.Anderson` holds of the newest values.  A slot is opened and closed once for each of its tickets, so the
number of a value tells its ticket.  A thread that takes ticket `k` must not load the open value of ticket `k - c` in the same slot.
Among the `c` tickets before `k` either is one of its own, or some thread has taken two: that thread knew of the closing of `k - c`
when it took the second, and the store to `next` passes this on.
-/

namespace Verif.Weak.Anderson

open Verif
open Verif.Spin.Anderson (PC mask wrap bump mod_window)
open Fas (opt)

variable {n c : Nat}

/-! ## The newest values -/

def abs (s : St n) : Spin.Anderson.St n :=
  { next := s.mem.last .next, slot := fun i => decide (s.mem.last (.slot i) ≠ 0), pc := s.pc, q := s.q }

theorem abs_slot {m m' : Mem Loc Word} {i : Nat} {v : Word} {w : View Loc} (h : Put m m' (.slot i) v w) :
    m'.last .next = m.last .next ∧
    (fun j => decide (m'.last (.slot j) ≠ 0)) = upd (fun j => decide (m.last (.slot j) ≠ 0)) i (decide (v ≠ 0)) := by
  refine ⟨by simp [h.last], ?_⟩
  funext j
  simp only [h.last, Loc.slot.injEq, upd_apply]
  split <;> rfl

/-- The loop of lines 117-123 may have seen any value. -/
theorem goto {a : Spin.Anderson.St n} (hi : Spin.Anderson.Inv c a) {t : Fin n} {v : Word} (hp : (a.pc t).act = false) :
    Spin.Anderson.Inv c { a with pc := upd a.pc t (.casLoop v) } := by
  obtain ⟨hq, hnx, hw, hcl, hin, hsl⟩ := hi
  have h1 : (a.pc t).held = false := by cases h : a.pc t <;> rw [h] at hp <;> cases hp <;> rfl
  have h2 : (a.pc t).ins = false := by cases h : a.pc t <;> rw [h] at hp <;> cases hp <;> rfl
  refine ⟨?_, hnx, ?_, ?_, ?_, ?_⟩
  · simp only
    rw [comp_upd_same _ _ _ _ (by rw [hp]; rfl), comp_upd_same _ _ _ _ (by rw [h1]; rfl)]
    exact hq
  · clear * - hw; grind
  · clear * - hcl; grind
  · clear * - hin; grind
  · simp only [Spin.Anderson.ins_upd (show (PC.casLoop v).ins = (a.pc t).ins by rw [h2]; rfl)]; exact hsl

/-! ## Tickets and the numbers of values -/

/-- Number of the value with which ticket `k` closes its slot; the one before opens it. -/
def shut (c k : Nat) : Nat := 2 * (k / c) + if k % c = 0 then 1 else 2

theorem shut_add (h0 : 0 < c) (k : Nat) : shut c (k + c) = shut c k + 2 := by
  simp only [shut, Nat.add_div_right _ h0, Nat.add_mod_right]
  omega

theorem shut_pos (k : Nat) : 0 < shut c k := by
  simp only [shut]; split <;> omega

theorem shut_le {k : Nat} (h : k < c) : shut c k ≤ 2 := by
  simp only [shut, Nat.div_eq_of_lt h]; split <;> omega

theorem shut_mono (h0 : 0 < c) {j k : Nat} (h : j ≤ k) : shut c j ≤ shut c k := by
  simp only [shut]
  have h1 := Nat.div_le_div_right (c := c) h
  have hj := Nat.div_add_mod j c
  have hk := Nat.div_add_mod k c
  by_cases e : j / c = k / c
  · rw [e] at hj ⊢
    split <;> split <;> omega
  · split <;> split <;> omega

/-- An earlier ticket of the same slot is a round earlier. -/
theorem shut_round (h0 : 0 < c) {j k : Nat} (hj : j < k) (h : j % c = k % c) : shut c j + 2 ≤ shut c k := by
  rw [← shut_add h0]
  refine shut_mono h0 ?_
  refine Decidable.byContradiction fun hn => ?_
  have := mod_window (Nat.le_of_lt hj) (by omega) h
  omega

/-- Of the last `c` arrivals, one is of `t` or two are of the same thread. -/
theorem pigeon (hn : n ≤ c) (arr : List (Fin n)) (hl : c ≤ arr.length) (t : Fin n) :
    (∃ j, arr.length ≤ j + c ∧ arr[j]? = some t) ∨
    ∃ j k u, arr.length ≤ j + c ∧ j < k ∧ arr[j]? = some u ∧ arr[k]? = some u := by
  let f : Fin c → Fin n := fun i => arr[arr.length - c + i.val]'(by have := i.isLt; omega)
  have hf : ∀ i : Fin c, arr[arr.length - c + i.val]? = some (f i) := fun i => List.getElem?_eq_getElem _
  by_cases hi : Function.Injective f
  · have hcn : c ≤ n := by simpa using Fintype.card_le_of_injective f hi
    obtain rfl : n = c := by omega
    obtain ⟨i, h⟩ := Finite.surjective_of_injective hi t
    exact .inl ⟨arr.length - n + i.val, by omega, by rw [hf, h]⟩
  · right
    simp only [Function.Injective, not_forall] at hi
    obtain ⟨a, b, h, hne⟩ := hi
    rcases Nat.lt_or_gt_of_ne (fun e => hne (Fin.ext e)) with hlt | hlt
    · exact ⟨arr.length - c + a.val, arr.length - c + b.val, f b, by omega, by omega, by rw [hf a, h], hf b⟩
    · exact ⟨arr.length - c + b.val, arr.length - c + a.val, f b, by omega, by omega, hf b, by rw [hf a, h]⟩

/-- The view has the closings of all tickets before `k`. -/
def Cov (c : Nat) (v : View Loc) (k : Nat) : Prop := ∀ j, j < k → shut c j ≤ v (.slot (j % c))

theorem Cov.mono {v w : View Loc} {k : Nat} (h : Cov c v k) (hw : ∀ i, v (.slot i) ≤ w (.slot i)) : Cov c w k :=
  fun j hj => Nat.le_trans (h j hj) (hw _)

theorem Cov.le {v : View Loc} {k l : Nat} (h : Cov c v k) (hl : l ≤ k) : Cov c v l := fun j hj => h j (Nat.lt_of_lt_of_le hj hl)

theorem Cov.upd {v : View Loc} {i x k : Nat} (h : Cov c v k) (hx : ∀ j, j < k → j % c = i → shut c j ≤ x) :
    Cov c (upd v (.slot i) x) k := by
  intro j hj
  by_cases e : j % c = i
  · rw [e, upd_same]; exact hx j hj e
  · rw [upd_ne _ _ (by simpa using e)]; exact h j hj

/-! ## Views -/

structure VInv (c : Nat) (s : St n) : Prop where
  tp : ∀ k, s.q.rel < k → k < s.q.rel + c → s.mem.top (.slot (k % c)) + 2 = shut c k
  trn : (∀ u, (s.pc u).ins = false) → s.mem.top (.slot (s.q.rel % c)) + 1 = shut c s.q.rel
  tri : ∀ t, (s.pc t).ins = true → s.mem.top (.slot (s.q.rel % c)) = shut c s.q.rel
  vl : ∀ i, i < c → ∀ j, j ≤ s.mem.top (.slot i) → (s.mem.msg (.slot i) j).val = 0 → j % 2 = if i = 0 then 0 else 1
  wt : ∀ t i, s.pc t = .wait i → shut c (s.q.tk t) ≤ (s.th t).cur (.slot i) + 2
  cl : ∀ t i, s.pc t = .close i → (∀ x, s.mem.top (.usr x) ≤ (s.th t).acq (.usr x)) ∧ Cov c (s.th t).acq s.q.rel
  ns : ∀ t, (s.pc t).ins = true → (∀ x, s.mem.top (.usr x) ≤ (s.th t).cur (.usr x)) ∧ Cov c (s.th t).cur (s.q.rel + 1)
  fo : (∀ u, (s.pc u).held = false) →
    (∀ x, s.mem.top (.usr x) ≤ (s.mem.msg (.slot (s.q.rel % c)) (s.mem.top (.slot (s.q.rel % c)))).view (.usr x)) ∧
    Cov c (s.mem.msg (.slot (s.q.rel % c)) (s.mem.top (.slot (s.q.rel % c)))).view s.q.rel
  ow : ∀ t, (s.pc t).act = false → ∀ j, s.q.arr[j]? = some t → Cov c (s.th t).cur (j + 1) ∧ Cov c (s.th t).rel (j + 1)
  fa : ∀ j k u, j < k → s.q.arr[j]? = some u → s.q.arr[k]? = some u → Cov c (s.mem.msg .next (s.mem.top .next)).view (j + 1)

structure Good (c : Nat) (s : St n) : Prop where
  sc : Spin.Anderson.Inv c (abs s)
  v : VInv c s

/-- A step of `t` that loads. -/
theorem VInv.go {s : St n} (hv : VInv c s) {t : Fin n} {q : Th Loc} {p : PC} {Q' : Q n} (hQ : Q'.rel = s.q.rel) (hA : Q'.arr = s.q.arr)
    (hT : Q'.tk = s.q.tk) (hc : ∀ y, (s.th t).cur y ≤ q.cur y) (hr : q.rel = (s.th t).rel) (hact : p.act = (s.pc t).act)
    (hins : p.ins = (s.pc t).ins) (hheld : p.held = false → (s.pc t).held = false) (hw : ∀ i, p = .wait i → s.pc t = .wait i)
    (hcl : ∀ i, p = .close i → (∀ x, s.mem.top (.usr x) ≤ q.acq (.usr x)) ∧ Cov c q.acq s.q.rel) :
    VInv c { s with th := upd s.th t q, pc := upd s.pc t p, q := Q' } := by
  have hI : ∀ u, (upd s.pc t p u).ins = (s.pc u).ins := fun u => congrFun (comp_upd_same PC.ins s.pc t p hins) u
  refine { tp := ?_, trn := fun h => ?_, tri := fun u h => ?_, vl := hv.vl, wt := fun u i h => ?_, cl := fun u i h => ?_
           ns := fun u h => ?_, fo := fun h => ?_, ow := fun u h j hj => ?_, fa := ?_ } <;> simp only [hQ, hA, hT, hI] at *
  · exact hv.tp
  · exact hv.trn h
  · exact hv.tri u h
  · by_cases e : u = t
    · subst e
      rw [upd_same] at *
      have := hv.wt u i (hw i h)
      have := hc (.slot i)
      omega
    · rw [upd_ne _ _ e] at *
      exact hv.wt u i h
  · by_cases e : u = t
    · subst e
      rw [upd_same] at *
      exact hcl i h
    · rw [upd_ne _ _ e] at *
      exact hv.cl u i h
  · have := hv.ns u h
    by_cases e : u = t
    · subst e
      rw [upd_same]
      exact ⟨fun x => Nat.le_trans (this.1 x) (hc _), this.2.mono fun _ => hc _⟩
    · rw [upd_ne _ _ e]
      exact this
  · refine hv.fo fun u => ?_
    have hu := h u
    by_cases e : u = t
    · subst e; rw [upd_same] at hu; exact hheld hu
    · rwa [upd_ne _ _ e] at hu
  · by_cases e : u = t
    · subst e
      rw [upd_same] at *
      rw [hact] at h
      have := hv.ow u h j hj
      exact ⟨this.1.mono fun _ => hc _, by rw [hr]; exact this.2⟩
    · rw [upd_ne _ _ e] at *
      exact hv.ow u h j hj
  · exact hv.fa

theorem good_loop {s : St n} (hg : Good c s) {t : Fin n} {i : Nat} {v : Word} (hp : (s.pc t).act = false) :
    Good c { s with th := upd s.th t ((s.th t).load s.mem .next i), pc := upd s.pc t (.casLoop v) } := by
  refine ⟨goto hg.sc hp, hg.v.go rfl rfl rfl (Th.load_cur_le _ _ _ _) rfl (by rw [hp]; rfl) ?_ ?_ nofun nofun⟩
  · cases h : s.pc t <;> rw [h] at hp <;> cases hp <;> rfl
  · cases h : s.pc t <;> rw [h] at hp <;> cases hp <;> simp [PC.held]

theorem view_take {s : St n} (hv : VInv c s) (h0 : 0 < c) (hn : n ≤ c) {t : Fin n} {v : Word} (ha : (s.pc t).act = false) :
    VInv c (take real s t v (s.q.arr.length % c)) := by
  have hm := Put.rmw s.mem (s.th t) .next v
  have hsl : ∀ y, y ≠ Loc.next → (s.mem.rmw (s.th t) .next v).top y = s.mem.top y := fun y h => hm.top_ne h
  have hmg : ∀ y j, y ≠ Loc.next → (s.mem.rmw (s.th t) .next v).msg y j = s.mem.msg y j := fun y j h => Mem.rmw_ne j h
  have hins : (s.pc t).ins = false := by cases h : s.pc t <;> rw [h] at ha <;> cases ha <;> rfl
  have hheld : (s.pc t).held = false := by cases h : s.pc t <;> rw [h] at ha <;> cases ha <;> rfl
  have hI : ∀ u, (upd s.pc t (.wait (s.q.arr.length % c)) u).ins = (s.pc u).ins :=
    fun u => congrFun (comp_upd_same PC.ins s.pc t _ (by rw [hins]; rfl)) u
  have hcur : ∀ i, (s.th t).cur (.slot i) ≤ (opt real.ld Th.fenceLoad ((s.th t).rmw s.mem .next)).cur (.slot i) := fun i =>
    Nat.le_trans (Th.rmw_cur_le _ _ _ (by simp)) (le_join_left _ _ _)
  have hacq : ∀ i, (s.mem.msg .next (s.mem.top .next)).view (.slot i) ≤
      (opt real.ld Th.fenceLoad ((s.th t).rmw s.mem .next)).cur (.slot i) := fun i =>
    Nat.le_trans (Th.load_view_le _ _ _ _ _) (le_join_right _ _ _)
  have hne : ∀ {u j}, (s.q.arr ++ [t])[j]? = some u → s.q.arr[j]? = some u ∨ (j = s.q.arr.length ∧ u = t) := by
    intro u j h
    rcases Nat.lt_or_ge j s.q.arr.length with hj | hj
    · rw [List.getElem?_append_left hj] at h; exact .inl h
    · have := getElem?_lt h
      simp only [List.length_append, List.length_singleton] at this
      obtain rfl : j = s.q.arr.length := by omega
      simp at h
      exact .inr ⟨rfl, h.symm⟩
  refine { tp := fun k h1 h2 => ?_, trn := fun h => ?_, tri := fun u h => ?_, vl := fun i hi j hj => ?_, wt := fun u i h => ?_
           cl := fun u i h => ?_
           ns := fun u h => ?_, fo := fun h => ?_, ow := fun u h j hj => ?_, fa := fun j k u hjk hj hk => ?_ } <;>
    simp only [take, Q.arrive, hI] at *
  · rw [hsl _ (by simp)]; exact hv.tp k h1 h2
  · rw [hsl _ (by simp)]; exact hv.trn h
  · rw [hsl _ (by simp)]; exact hv.tri u h
  · rw [hsl _ (by simp)] at hj
    rw [hmg _ _ (by simp)]
    exact hv.vl i hi j hj
  · by_cases e : u = t
    · subst e
      rw [upd_same] at *
      simp only [PC.wait.injEq] at h
      subst h
      rw [upd_same]
      rcases Nat.lt_or_ge s.q.arr.length c with hl | hl
      · have := shut_le hl
        omega
      · have hk : shut c s.q.arr.length = shut c (s.q.arr.length - c) + 2 := by
          rw [← shut_add h0]; congr 1; omega
        have hs : (s.q.arr.length - c) % c = s.q.arr.length % c := by
          conv => rhs; rw [show s.q.arr.length = s.q.arr.length - c + c by omega]
          rw [Nat.add_mod_right]
        rw [hk]
        refine Nat.add_le_add_right ?_ 2
        rw [← hs]
        rcases pigeon hn s.q.arr hl u with ⟨j, h1, h2⟩ | ⟨j, k, w, h1, h2, h3, h4⟩
        · exact Nat.le_trans ((hv.ow u ha j h2).1 _ (by omega)) (hcur _)
        · exact Nat.le_trans (hv.fa j k w h2 h3 h4 _ (by omega)) (hacq _)
    · rw [upd_ne _ _ e] at *
      rw [upd_ne _ _ e]
      exact hv.wt u i h
  · have e : u ≠ t := by rintro rfl; rw [upd_same] at h; cases h
    rw [upd_ne _ _ e] at *
    have := hv.cl u i h
    exact ⟨fun x => by rw [hsl _ (by simp)]; exact this.1 x, this.2⟩
  · have e : u ≠ t := by rintro rfl; rw [hins] at h; cases h
    rw [upd_ne _ _ e]
    have := hv.ns u h
    exact ⟨fun x => by rw [hsl _ (by simp)]; exact this.1 x, this.2⟩
  · have := hv.fo fun u => by
      have hu := h u
      by_cases e : u = t
      · subst e; exact hheld
      · rwa [upd_ne _ _ e] at hu
    rw [hsl _ (by simp), hmg _ _ (by simp)]
    exact ⟨fun x => by rw [hsl _ (by simp)]; exact this.1 x, this.2⟩
  · have e : u ≠ t := by rintro rfl; rw [upd_same] at h; cases h
    rw [upd_ne _ _ e] at *
    rcases hne hj with h' | h'
    · exact hv.ow u h j h'
    · exact absurd h'.2 e
  · rw [hm.msg_at]
    simp only
    have hup : ∀ w : View Loc, Cov c w (j + 1) → Cov c (upd w .next (s.mem.top .next + 1)) (j + 1) := fun w h =>
      h.mono fun i => by rw [upd_ne _ _ (by simp)]
    refine hup _ ?_
    rcases hne hk with hk' | ⟨hk', rfl⟩
    · have hj' : s.q.arr[j]? = some u := by
        rcases hne hj with h | h
        · exact h
        · have := getElem?_lt hk'
          omega
      exact (hv.fa j k u hjk hj' hk').mono fun _ => le_join_right _ _ _
    · have hj' : s.q.arr[j]? = some u := by
        rcases hne hj with h | h
        · exact h
        · omega
      exact (hv.ow u ha j hj').2.mono fun _ => le_join_left _ _ _

theorem good_faa {s : St n} (hg : Good c s) (h0 : 0 < c) (hc : c < 2 ^ 32) (hn : n ≤ c) {t : Fin n} (hp : s.pc t = .idle)
    (hw : wrap c = 0) : Good c (take real s t (s.mem.last .next + 1) (s.mem.last .next &&& mask c).toNat) := by
  have hi : (s.mem.last .next &&& mask c).toNat = s.q.arr.length % c := by
    rw [Spin.Anderson.and_mask h0 hc hw]; exact hg.sc.next
  refine ⟨Spin.Anderson.inv_step h0 hc hn (a := .lock t) hg.sc ?_, ?_⟩
  · have hm := Put.rmw s.mem (s.th t) .next (s.mem.last .next + 1)
    simp only [Spin.Anderson.step, abs, hp, if_true, hw, ne_eq, not_true, if_false, take, hm.last, reduceCtorEq]
  · rw [hi]
    exact view_take hg.v h0 hn (by rw [hp]; rfl)

theorem good_cas {s : St n} (hg : Good c s) (h0 : 0 < c) (hc : c < 2 ^ 32) (hn : n ≤ c) {t : Fin n} {p : Word} (hp : s.pc t = .casLoop p)
    (hl : s.mem.last .next = p) : Good c (take real s t (bump c p) (p.toNat % c)) := by
  have hi : p.toNat % c = s.q.arr.length % c := by rw [← hl]; exact hg.sc.next
  refine ⟨Spin.Anderson.inv_step h0 hc hn (a := .run t) hg.sc ?_, ?_⟩
  · have hm := Put.rmw s.mem (s.th t) .next (bump c p)
    simp only [Spin.Anderson.step, abs, hp, hl, if_true, take, hm.last, reduceCtorEq, if_false]
  · rw [hi]
    exact view_take hg.v h0 hn (by rw [hp]; rfl)

theorem good_retry {s : St n} (hg : Good c s) {t : Fin n} {j i : Nat} (hp : s.pc t = .wait j) :
    Good c { s with th := upd s.th t ((s.th t).load s.mem (.slot j) i) } := by
  refine ⟨hg.sc, ?_⟩
  have := hg.v.go (t := t) (q := (s.th t).load s.mem (.slot j) i) (p := .wait j) (Q' := s.q) rfl rfl rfl (Th.load_cur_le _ _ _ _) rfl
    (by rw [hp]) (by rw [hp]) (fun _ => by rw [hp]; rfl) (fun i e => by rw [hp, e]) nofun
  rwa [show upd s.pc t (.wait j) = s.pc by rw [← hp]; exact upd_eq_self _ _] at this

theorem good_open {s : St n} (hg : Good c s) (h0 : 0 < c) (hc : c < 2 ^ 32) (hn : n ≤ c) {t : Fin n} {j i : Nat} (hp : s.pc t = .wait j)
    (hm : (s.th t).may s.mem (.slot j) i) (hv : (s.mem.msg (.slot j) i).val = 0) :
    Good c { s with th := upd s.th t ((s.th t).load s.mem (.slot j) i), pc := upd s.pc t (.close j), q := s.q.enter t } := by
  have hj : j = s.q.tk t % c := hg.sc.wait t j hp
  have ha : ((abs s).pc t).act = true := by rw [show (abs s).pc t = _ from hp]; rfl
  have hk := hg.sc.q.act_tk t ha
  have hk1 : s.q.rel ≤ s.q.tk t := hk.1
  have hk2 : s.q.tk t < s.q.arr.length := getElem?_lt hk.2
  have hwin : s.q.arr.length ≤ s.q.rel + n := hg.sc.q.window
  have hjc : j < c := by rw [hj]; exact Nat.mod_lt _ h0
  -- the value loaded is the newest one
  have htop : s.mem.top (.slot j) + 1 ≤ shut c (s.q.tk t) := by
    rcases Nat.lt_or_eq_of_le hk1 with h | h
    · have := hg.v.tp (s.q.tk t) h (by omega)
      rw [← hj] at this
      omega
    · have hno : ∀ u, (s.pc u).ins = false := by
        intro u
        cases hu : (s.pc u).ins with
        | false => rfl
        | true =>
          have hh := Spin.Anderson.PC.held_of_ins hu
          have := hg.sc.q.none_held ha h.symm (by rw [show (abs s).pc t = _ from hp]; rfl) u
          rw [show ((abs s).pc u).held = true from hh] at this
          cases this
      have := hg.v.trn hno
      rw [h, ← hj] at this
      omega
  have hi : i = s.mem.top (.slot j) := by
    have h1 := hg.v.vl j hjc i hm.2 hv
    have h2 := hg.v.wt t j hp
    have h3 := hm.1
    have h4 := hm.2
    have h5 : shut c (s.q.tk t) % 2 = if j = 0 then 1 else 0 := by
      simp only [shut, ← hj]; split <;> omega
    clear * - h1 h2 h3 h4 h5 htop
    split at h1 <;> split at h5 <;> omega
  have hlast : (abs s).slot j = false := by simp only [abs, Mem.last, ← hi, hv]; rfl
  have hsl := (hg.sc.slot j hjc).1 hlast
  have hrel : s.q.tk t = s.q.rel := (mod_window hk1 (by omega) (by rw [← hj]; exact hsl.1.symm : s.q.rel % c = s.q.tk t % c)).symm
  have hno : ∀ u, (s.pc u).held = false := fun u =>
    hg.sc.q.none_held ha hrel (by rw [show (abs s).pc t = _ from hp]; rfl) u
  refine ⟨Spin.Anderson.inv_step h0 hc hn (a := .run t) hg.sc ?_, ?_⟩
  · simp only [Spin.Anderson.step, show (abs s).pc t = _ from hp, hlast, Bool.false_eq_true, if_false]; rfl
  refine hg.v.go rfl rfl rfl (Th.load_cur_le _ _ _ _) rfl (by rw [hp]; rfl) (by rw [hp]; rfl) nofun nofun (fun i' e => ?_)
  have hf := hg.v.fo hno
  rw [show s.q.rel % c = j by rw [← hrel, ← hj], ← hi] at hf
  exact ⟨fun x => Nat.le_trans (hf.1 x) (Th.load_view_le _ _ _ _ _), hf.2.mono fun _ => Th.load_view_le _ _ _ _ _⟩

theorem good_close {s : St n} (hg : Good c s) (h0 : 0 < c) (hc : c < 2 ^ 32) (hn : n ≤ c) {t : Fin n} {j : Nat} (hp : s.pc t = .close j) :
    Good c { s with
      mem := s.mem.store (s.th t) (.slot j) 1, th := upd s.th t (opt real.lock Th.fenceAcq ((s.th t).store s.mem (.slot j)))
      pc := upd s.pc t (.inside j) } := by
  have hm := Put.store s.mem (s.th t) (.slot j) 1
  have hh : (s.pc t).held = true := by rw [hp]; rfl
  have huniq : ∀ u, (s.pc u).held = true → u = t := fun u hu => hg.sc.q.held_unique hu hh
  have hj : j = s.q.rel % c := by
    have h1 : j = s.q.tk t % c := hg.sc.close t j hp
    rw [h1, show s.q.tk t = s.q.rel from hg.sc.q.held_tk t hh]
  have hjc : j < c := by rw [hj]; exact Nat.mod_lt _ h0
  have hno : ∀ u, (s.pc u).ins = false := by
    intro u
    cases hu : (s.pc u).ins with
    | false => rfl
    | true =>
      have := huniq u (Spin.Anderson.PC.held_of_ins hu)
      subst this
      rw [hp] at hu; cases hu
  have htop := hg.v.trn hno
  rw [← hj] at htop
  have hus : ∀ x, (s.mem.store (s.th t) (.slot j) 1).top (.usr x) = s.mem.top (.usr x) := fun x => hm.top_ne (by simp)
  refine ⟨?_, ?_⟩
  · refine Spin.Anderson.inv_step h0 hc hn (a := .run t) hg.sc ?_
    simp only [Spin.Anderson.step, hp, abs, abs_slot hm]
    rfl
  refine { tp := fun k h1 h2 => ?_, trn := fun h => ?_, tri := fun u h => ?_, vl := fun i hi k hk => ?_, wt := fun u i h => ?_
           cl := fun u i h => ?_
           ns := fun u h => ?_, fo := fun h => ?_, ow := fun u h k hk => ?_, fa := ?_ } <;> simp only at *
  · rw [hm.top_ne]
    · exact hg.v.tp k h1 h2
    · simp only [ne_eq, Loc.slot.injEq]
      intro e
      rw [hj] at e
      have := mod_window (Nat.le_of_lt h1) h2 e.symm
      omega
  · have := h t
    rw [upd_same] at this; cases this
  · rw [← hj, hm.top, if_pos rfl]; exact htop
  · by_cases e : i = j
    · subst e
      by_cases e' : k ≤ s.mem.top (.slot i)
      · rw [hm.old _ _ e']; exact hg.v.vl i hi k e'
      · rw [hm.top, if_pos rfl] at hk
        rw [show k = s.mem.top (.slot i) + 1 by omega, hm.new]
        simp
    · rw [hm.top_ne (by simpa using e)] at hk
      rw [hm.old _ _ hk]; exact hg.v.vl i hi k hk
  · have e : u ≠ t := by rintro rfl; rw [upd_same] at h; cases h
    rw [upd_ne _ _ e] at *
    exact hg.v.wt u i h
  · have e : u ≠ t := by rintro rfl; rw [upd_same] at h; cases h
    rw [upd_ne _ _ e] at *
    exact absurd (huniq u (by rw [h]; rfl)) e
  · by_cases e : u = t
    · subst e
      have hcl := hg.v.cl u j hp
      rw [upd_same]
      refine ⟨fun x => ?_, fun k hk => ?_⟩
      · rw [hus]; exact Nat.le_trans (hcl.1 x) (le_join_right _ _ _)
      · rcases Nat.lt_or_eq_of_le (Nat.le_of_lt_succ hk) with h' | h'
        · exact Nat.le_trans (hcl.2 k h') (le_join_right _ _ _)
        · subst h'
          refine Nat.le_trans ?_ (le_join_left _ _ _)
          rw [← hj]
          simp only [Th.store, upd_same]
          omega
    · rw [upd_ne _ _ e] at h
      rw [hno u] at h; cases h
  · have := h t
    rw [upd_same] at this; cases this
  · have e : u ≠ t := by rintro rfl; rw [upd_same] at h; cases h
    rw [upd_ne _ _ e] at *
    exact hg.v.ow u h k hk
  · rw [hm.msg_ne (by simp)]; exact hg.v.fa

theorem good_unlock {s : St n} (hg : Good c s) (h0 : 0 < c) (hc : c < 2 ^ 32) (hn : n ≤ c) {t : Fin n} {i : Nat} (hp : s.pc t = .inside i)
    {j : Nat} (hjdef : j = if wrap c = 0 then (BitVec.ofNat 32 i + 1 &&& mask c).toNat else ((BitVec.ofNat 32 i + 1).toNat) % c) :
    Good c { s with
      mem := s.mem.store (opt real.unlock Th.fenceRel (s.th t)) (.slot j) 0
      th := upd s.th t ((opt real.unlock Th.fenceRel (s.th t)).store s.mem (.slot j)), pc := upd s.pc t .idle, q := s.q.leave } := by
  have hm := Put.store s.mem (opt real.unlock Th.fenceRel (s.th t)) (.slot j) 0
  have hh : (s.pc t).held = true := by rw [hp]; rfl
  have hin : (s.pc t).ins = true := by rw [hp]; rfl
  have huniq : ∀ u, (s.pc u).held = true → u = t := fun u hu => hg.sc.q.held_unique hu hh
  have hi : i = s.q.rel % c := by
    have h1 : i = s.q.tk t % c := hg.sc.ins t i hp
    rw [h1, show s.q.tk t = s.q.rel from hg.sc.q.held_tk t hh]
  have hic : i < c := by rw [hi]; exact Nat.mod_lt _ h0
  have hj : j = (s.q.rel + 1) % c := by rw [hjdef, Spin.Anderson.unlock_index h0 hc hic, hi, Nat.mod_add_mod]
  have hno : ∀ u, u ≠ t → (s.pc u).ins = false := by
    intro u hu
    cases hu' : (s.pc u).ins with
    | false => rfl
    | true => exact absurd (huniq u (Spin.Anderson.PC.held_of_ins hu')) hu
  have htri := hg.v.tri t hin
  -- the next slot before
  have htop : s.mem.top (.slot j) + 2 = shut c (s.q.rel + 1) := by
    by_cases hc1 : c = 1
    · subst hc1
      rw [shut_add h0, ← htri, hj]
      simp only [Nat.mod_one]
    · rw [hj]; exact hg.v.tp (s.q.rel + 1) (by omega) (by omega)
  have hus : ∀ x, (s.mem.store (opt real.unlock Th.fenceRel (s.th t)) (.slot j) 0).top (.usr x) = s.mem.top (.usr x) :=
    fun x => hm.top_ne (by simp)
  have hns := hg.v.ns t hin
  have hold : ∀ k, k < s.q.rel + 1 → k % c = j → shut c k ≤ s.mem.top (.slot j) + 1 := by
    intro k hk e
    have := shut_round h0 hk (by rw [e, hj])
    omega
  have hrel : Cov c (opt real.unlock Th.fenceRel (s.th t)).rel (s.q.rel + 1) := hns.2.mono fun _ => le_join_right _ _ _
  refine ⟨?_, ?_⟩
  · refine Spin.Anderson.inv_step h0 hc hn (a := .unlock t) hg.sc ?_
    simp only [Spin.Anderson.step, hp, abs, abs_slot hm, ← hjdef]
    rfl
  refine { tp := fun k h1 h2 => ?_, trn := fun h => ?_, tri := fun u h => ?_, vl := fun i hi k hk => ?_, wt := fun u i h => ?_
           cl := fun u i h => ?_
           ns := fun u h => ?_, fo := fun h => ?_, ow := fun u h k hk => ?_, fa := ?_ } <;> simp only [Q.leave] at *
  · rw [hm.top_ne]
    · by_cases e : k = s.q.rel + c
      · subst e
        rw [shut_add h0, Nat.add_mod_right, htri]
      · exact hg.v.tp k (by omega) (by omega)
    · simp only [ne_eq, Loc.slot.injEq]
      intro e
      rw [hj] at e
      have := mod_window (Nat.le_of_lt h1) (by omega) e.symm
      omega
  · rw [← hj, hm.top, if_pos rfl]; omega
  · by_cases e : u = t
    · subst e; rw [upd_same] at h; cases h
    · rw [upd_ne _ _ e, hno u e] at h; cases h
  · by_cases e : i = j
    · subst e
      by_cases e' : k ≤ s.mem.top (.slot i)
      · rw [hm.old _ _ e']; exact hg.v.vl i hi k e'
      · rw [hm.top, if_pos rfl] at hk
        have hk' : k = s.mem.top (.slot i) + 1 := by omega
        intro _
        have h5 : shut c (s.q.rel + 1) % 2 = if i = 0 then 1 else 0 := by
          simp only [shut, ← hj]; split <;> omega
        rw [hk']
        clear * - h5 htop
        split at h5 <;> split <;> omega
    · rw [hm.top_ne (by simpa using e)] at hk
      rw [hm.old _ _ hk]; exact hg.v.vl i hi k hk
  · have e : u ≠ t := by rintro rfl; rw [upd_same] at h; cases h
    rw [upd_ne _ _ e] at *
    exact hg.v.wt u i h
  · have e : u ≠ t := by rintro rfl; rw [upd_same] at h; cases h
    rw [upd_ne _ _ e] at *
    exact absurd (huniq u (by rw [h]; rfl)) e
  · by_cases e : u = t
    · subst e; rw [upd_same] at h; cases h
    · rw [upd_ne _ _ e, hno u e] at h; cases h
  · rw [← hj, hm.msg_at]
    refine ⟨fun x => ?_, hrel.upd hold⟩
    rw [hus]
    simp only [upd_ne _ _ (show Loc.usr x ≠ .slot j by simp)]
    exact Nat.le_trans (hns.1 x) (le_join_right _ _ _)
  · by_cases e : u = t
    · subst e
      rw [upd_same]
      have hlt : k < s.q.rel + 1 := by
        refine Decidable.byContradiction fun hge => ?_
        have hcov := hg.sc.q.cov k u (show s.q.rel ≤ k by omega) hk
        have h1 : s.q.tk u = k := hcov.2
        have h2 : s.q.tk u = s.q.rel := hg.sc.q.held_tk u hh
        omega
      exact ⟨(hns.2.upd hold).le (by omega), hrel.le (by omega)⟩
    · rw [upd_ne _ _ e] at *
      exact hg.v.ow u h k hk
  · rw [hm.msg_ne (by simp)]; exact hg.v.fa

theorem good_read {s : St n} (hg : Good c s) {t : Fin n} {x i : Nat} (hp : (s.pc t).ins = true) :
    Good c { s with th := upd s.th t ((s.th t).load s.mem (.usr x) i) } := by
  refine ⟨hg.sc, ?_⟩
  have := hg.v.go (t := t) (q := (s.th t).load s.mem (.usr x) i) (p := s.pc t) (Q' := s.q) rfl rfl rfl (Th.load_cur_le _ _ _ _) rfl
    rfl rfl id (fun _ => id) (fun i e => by rw [e] at hp; cases hp)
  rwa [upd_eq_self] at this

theorem good_write {s : St n} (hg : Good c s) {t : Fin n} {x : Nat} {v : Word} (hp : (s.pc t).ins = true) :
    Good c { s with mem := s.mem.store (s.th t) (.usr x) v, th := upd s.th t ((s.th t).store s.mem (.usr x)) } := by
  have hm := Put.store s.mem (s.th t) (.usr x) v
  have hh := Spin.Anderson.PC.held_of_ins hp
  have huniq : ∀ u, (s.pc u).held = true → u = t := fun u hu => hg.sc.q.held_unique hu hh
  refine ⟨?_, ?_⟩
  · have : abs { s with mem := s.mem.store (s.th t) (.usr x) v, th := upd s.th t ((s.th t).store s.mem (.usr x)) } = abs s := by
      simp [abs, hm.last]
    rw [this]; exact hg.sc
  have hsl : ∀ i, (s.mem.store (s.th t) (.usr x) v).top (.slot i) = s.mem.top (.slot i) := fun i => hm.top_ne (by simp)
  have hact : (s.pc t).act = true := Spin.Anderson.PC.act_of_held hh
  refine { tp := fun k h1 h2 => ?_, trn := fun h => ?_, tri := fun u h => ?_, vl := fun i hi k hk => ?_, wt := fun u i h => ?_
           cl := fun u i h => ?_
           ns := fun u h => ?_, fo := fun h => ?_, ow := fun u h k hk => ?_, fa := ?_ } <;> simp only [hsl] at *
  · exact hg.v.tp k h1 h2
  · exact hg.v.trn h
  · exact hg.v.tri u h
  · rw [hm.old _ _ hk]; exact hg.v.vl i hi k hk
  · have e : u ≠ t := by rintro rfl; rw [h] at hp; cases hp
    rw [upd_ne _ _ e]
    exact hg.v.wt u i h
  · have e : u ≠ t := by rintro rfl; rw [h] at hp; cases hp
    exact absurd (huniq u (by rw [h]; rfl)) e
  · obtain rfl := huniq u (Spin.Anderson.PC.held_of_ins h)
    rw [upd_same]
    have hns := hg.v.ns u hp
    refine ⟨fun y => ?_, hns.2.mono fun _ => Th.store_cur_le _ _ _ (by simp)⟩
    rw [hm.top]
    simp only [Th.store, upd_apply, Loc.usr.injEq]
    split
    · exact Nat.le_refl _
    · exact hns.1 y
  · rw [h t] at hh; cases hh
  · have e : u ≠ t := by rintro rfl; rw [hact] at h; cases h
    rw [upd_ne _ _ e]
    exact hg.v.ow u h k hk
  · rw [hm.msg_ne (by simp)]; exact hg.v.fa

theorem good_step {s s' : St n} {a : Act n} (h0 : 0 < c) (hc : c < 2 ^ 32) (hn : n ≤ c) (hg : Good c s) (hs : step real c s a = some s') :
    Good c s' := by
  cases a with
  | lock t i =>
    simp only [step] at hs
    split at hs
    · next hp =>
      split at hs
      · split at hs <;> simp only [Option.some.injEq, reduceCtorEq] at hs
        subst hs
        exact good_loop hg (by rw [hp]; rfl)
      · next hw =>
        simp only [Option.some.injEq] at hs
        subst hs
        exact good_faa hg h0 hc hn hp (by simpa using hw)
    · cases hs
  | run t i =>
    simp only [step] at hs
    split at hs
    · next p hp =>
      split at hs <;> simp only [Option.some.injEq, reduceCtorEq] at hs
      next hl =>
      subst hs
      exact good_cas hg h0 hc hn hp hl
    · next j hp =>
      split at hs
      · next hm =>
        split at hs <;> simp only [Option.some.injEq] at hs <;> subst hs
        · next hv => exact good_open hg h0 hc hn hp hm hv
        · exact good_retry hg hp
      · cases hs
    · next j hp =>
      simp only [Option.some.injEq] at hs
      subst hs
      exact good_close hg h0 hc hn hp
    · cases hs
  | fail t i =>
    simp only [step] at hs
    split at hs
    · next p hp =>
      split at hs <;> simp only [Option.some.injEq, reduceCtorEq] at hs
      subst hs
      exact good_loop hg (by rw [hp]; rfl)
    · cases hs
  | unlock t =>
    simp only [step] at hs
    split at hs
    · next i hp =>
      simp only [Option.some.injEq] at hs
      subst hs
      exact good_unlock hg h0 hc hn hp rfl
    · cases hs
  | read t x i =>
    simp only [step] at hs
    split at hs <;> simp only [Option.some.injEq, reduceCtorEq] at hs
    next hp => subst hs; exact good_read hg hp.1
  | write t x v =>
    simp only [step] at hs
    split at hs <;> simp only [Option.some.injEq, reduceCtorEq] at hs
    next hp => subst hs; exact good_write hg hp

theorem good_reach (h0 : 0 < c) (hc : c < 2 ^ 32) (hn : n ≤ c) {s : St n} (h : (sys real c n).Reach s) : Good c s := by
  refine h.invariant (I := Good c) ?_ (fun _ _ _ hi hs => good_step h0 hc hn hi hs)
  rintro s rfl
  refine ⟨?_, ?_⟩
  · have : abs (initSt n) = Spin.Anderson.initSt n := by
      simp only [abs, initSt, Mem.last, Mem.init, initVal, Spin.Anderson.initSt]
      congr 1
      funext i
      cases i <;> simp [initVal]
    rw [this]
    exact Spin.Anderson.inv_init h0
  · refine { tp := fun k h1 h2 => ?_, trn := fun _ => ?_, tri := nofun, vl := fun i hi j hj => ?_, wt := nofun, cl := nofun, ns := nofun
             fo := fun _ => ⟨fun _ => Nat.le_refl _, fun j hj => absurd hj (Nat.not_lt_zero _)⟩
             ow := nofun, fa := nofun }
    · simp only [initSt, Q.empty, Mem.init] at *
      have hk : k < c := by omega
      simp only [shut, Nat.div_eq_of_lt hk, Nat.mod_eq_of_lt hk]
      split <;> omega
    · simp [initSt, Q.empty, Mem.init, shut]
    · simp only [initSt, Mem.init] at *
      cases i with
      | zero => simp [Nat.le_zero.1 hj]
      | succ i => simp [initVal]

/-! ## Property theorems -/

/-- C80: at most one thread holds the lock, for every number of slots and at most as many threads. -/
theorem mutual_exclusion (h0 : 0 < c) (hc : c < 2 ^ 32) (hn : n ≤ c) {s : St n} (h : (sys real c n).Reach s) : Spec.MutEx s.holds :=
  fun _ _ ht hu => (good_reach h0 hc hn h).sc.q.held_unique ht hu

/-- C80: threads enter in the order in which they obtained their positions. -/
theorem fcfs (h0 : 0 < c) (hc : c < 2 ^ 32) (hn : n ≤ c) {s : St n} (h : (sys real c n).Reach s) : Spec.Fcfs s.q.arr s.q.srv :=
  (good_reach h0 hc hn h).sc.q.pre

/-- C80: whatever a thread loads while it holds the lock is the value stored last, by whichever thread. -/
theorem reads_last (h0 : 0 < c) (hc : c < 2 ^ 32) (hn : n ≤ c) {s s' : St n} (h : (sys real c n).Reach s) {t : Fin n} {x i : Nat}
    (hs : (sys real c n).step s (.read t x i) = some s') : (s.mem.msg (.usr x) i).val = s.mem.last (.usr x) := by
  simp only [sys, step] at hs
  split at hs
  · next hp =>
    have h1 := ((good_reach h0 hc hn h).v.ns t hp.1).1 x
    have h2 := hp.2.1
    have h3 := hp.2.2
    rw [show i = s.mem.top (.usr x) from Nat.le_antisymm h3 (Nat.le_trans h1 h2)]
    rfl
  · cases hs

/-! ## The fences are needed -/

/-- After the run `as`, thread 1 can load the initial value of data word 0. -/
def stale (fc : Fences) (as : List (Act 2)) : Bool := ((sys fc 2 2).run (initSt 2) (as ++ [.read 1 0 0])).isSome

/-- After the run `as` both threads hold the lock. -/
def both (fc : Fences) (as : List (Act 2)) : Bool :=
  match (sys fc 2 2).run (initSt 2) as with
  | some s => (s.pc 0).held && (s.pc 1).held
  | none => false

/-- Thread 0 takes the lock, stores 5 and unlocks, then thread 1 takes the lock. -/
def after : List (Act 2) := [.lock 0 0, .run 0 0, .run 0 0, .write 0 0 5, .unlock 0, .lock 1 0, .run 1 1, .run 1 0]

/-- Thread 0 takes the lock twice; thread 1 gets the slot that was used first and loads its initial value. -/
def ahead : List (Act 2) := [.lock 0 0, .run 0 0, .run 0 0, .unlock 0, .lock 0 0, .run 0 1, .run 0 0, .lock 1 0, .run 1 0]

theorem no_fence_lock : stale { real with lock := false } after = true := by decide +kernel

/-- Without line 155 neither the data nor the closed slot is passed on. -/
theorem no_fence_unlock : stale { real with unlock := false } after = true ∧ both { real with unlock := false } ahead = true := by
  decide +kernel

/-- Without line 132 the slot may be loaded before the position is taken. -/
theorem no_fence_load : both { real with ld := false } ahead = true := by decide +kernel

/-- With the fences thread 1 loads 5, and it finds the reused slot closed. -/
example : stale real after = false ∧ ((sys real 2 2).run (initSt 2) (after ++ [.read 1 0 1])).isSome = true ∧
    both real ahead = false ∧ ((sys real 2 2).run (initSt 2) ahead).isSome = false ∧
    ((sys real 2 2).run (initSt 2) (ahead.take 8 ++ [.run 1 1])).isSome = true := by decide +kernel

/-- Three slots: both threads load `next`, the `cas` of thread 0 fails, thread 1 enters first; then thread 0, which first loads its slot
when it was closed. -/
def loop : List (Act 2) :=
  [.lock 0 0, .lock 1 0, .run 1 0, .fail 0 1, .run 0 0, .run 1 0, .run 1 0, .write 1 0 7, .unlock 1, .run 0 0, .run 0 1, .run 0 0]

example : ((sys real 3 2).run (initSt 2) loop).map (fun s => (s.pc 0, s.pc 1, s.q.arr, s.q.srv)) =
    some (.inside 1, .idle, [1, 0], [1, 0]) ∧ ((sys real 3 2).run (initSt 2) (loop ++ [.read 0 0 1])).isSome = true ∧
    ((sys real 3 2).run (initSt 2) (loop ++ [.read 0 0 0])).isSome = false := by decide +kernel

end Verif.Weak.Anderson
