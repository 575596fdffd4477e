import Verif.Fifo.MpmcWit

/-! # `ck_fifo_mpmc`: when the `try` operations fail -/

namespace Verif.Fifo.Mpmc

open Verif Verif.Lin

variable {N V : Type} [DecidableEq N] {n : Nat}

/-- `y` is gone, or the tail is at or after it. -/
def Bf (s : St N V n) (y : N) : Prop := y ∈ s.chain → ∃ a b, s.chain = a ++ y :: b ∧ s.tail ∈ y :: b

/-- Nobody acted since the attempt began, and then `p`. -/
def Und (s : St N V n) (t : Fin n) (p : Prop) : Prop := s.gv t ≤ s.ver ∧ (s.gv t = s.ver → p)

def Loc2 (s : St N V n) (t : Fin n) : PC N V → Prop
  | .eTP _ _ _ tg => Und s t (s.tgen = tg)
  | .eNG _ _ _ tg tp => Und s t (s.tgen = tg ∧ s.tail = tp) ∧ Bf s tp
  | .eNP _ _ _ tg tp ng => Und s t (s.tgen = tg ∧ s.tail = tp ∧ s.ngen tp = ng) ∧ Bf s tp
  | .eCk _ _ _ tg tp ng np =>
      Und s t (s.tgen = tg ∧ s.tail = tp ∧ s.ngen tp = ng ∧ s.next tp = np) ∧ Bf s tp
  | .eFwd _ _ _ tg tp y => Und s t (s.tail = tp ∧ s.next tp = some y) ∧ Bf s tp ∧ (s.tail = tp → s.tgen = tg)
  | .eCas _ _ _ tg tp ng =>
      Und s t (s.next tp = none ∧ s.ngen tp = ng) ∧ Bf s tp ∧ (s.tail = tp → s.tgen = tg)
  | .eSw _ _ tg tp => Bf s tp ∧ (s.tail = tp → s.tgen = tg)
  | .dHP _ hg => Und s t (s.hgen = hg)
  | .dTG _ hg hp | .dTP _ hg hp _ | .dV _ hg hp _ | .dCas _ hg hp _ _ => Und s t (s.hgen = hg ∧ s.head = hp)
  | .dNG _ hg hp _ tp | .dNP _ hg hp _ tp => Und s t (s.hgen = hg ∧ s.head = hp ∧ s.tail = tp)
  | .dFwd _ _ tp y => Und s t (s.tail = tp ∧ s.next tp = some y)
  | _ => True

structure Inv2 (s : St N V n) : Prop where
  /-- The tail lags by at most one entry, whose enqueue has yet to move it. -/
  lag : ∀ x, s.next s.tail = some x → s.next x = none ∧ ∃ u tr tg, s.th u = .eSw tr x tg s.tail
  loc : ∀ t, Loc2 s t (s.th t)

/-- The tail snapshot of an enqueue. -/
def eknows : PC N V → N → Prop
  | .eNG _ _ _ _ tp, x | .eNP _ _ _ _ tp _, x | .eCk _ _ _ _ tp _ _, x | .eFwd _ _ _ _ tp _, x
  | .eCas _ _ _ _ tp _, x | .eSw _ _ _ tp, x => tp = x
  | _, _ => False

omit [DecidableEq N] in
theorem eknows.knows {pc : PC N V} {y : N} (h : eknows pc y) : knows pc y := by
  cases pc <;> first | exact h | exact h.elim

omit [DecidableEq N] in
theorem Loc2.bf {s : St N V n} {t : Fin n} {pc : PC N V} {y : N} (h : Loc2 s t pc) (hk : eknows pc y) :
    Bf s y := by
  cases pc <;> first
    | exact hk.elim
    | (cases hk; first | exact h.2 | exact h.2.1 | exact h.1)

structure Keep2 (s s' : St N V n) (u : Fin n) (pc : PC N V) : Prop where
  gv : s'.gv u = s.gv u
  ver : s'.ver = s.ver + 1 ∨ (s'.ver = s.ver ∧ s'.tail = s.tail ∧ s'.head = s.head ∧ s'.tgen = s.tgen ∧
    s'.hgen = s.hgen ∧ ∀ y, knows pc y → s'.next y = s.next y ∧ s'.ngen y = s.ngen y)
  bf : ∀ y, eknows pc y → Bf s y → Bf s' y
  gn : ∀ y, eknows pc y → s'.tail = y → s.tail = y ∧ s'.tgen = s.tgen

omit [DecidableEq N] in
theorem Keep2.und {s s' : St N V n} {u : Fin n} {pc : PC N V} (h : Keep2 s s' u pc) {p p' : Prop}
    (hu : Und s u p) (hp : s'.tail = s.tail → s'.head = s.head → s'.tgen = s.tgen → s'.hgen = s.hgen →
      (∀ y, knows pc y → s'.next y = s.next y ∧ s'.ngen y = s.ngen y) → p → p') : Und s' u p' := by
  obtain ⟨h1, h2⟩ := hu
  rcases h.ver with hv | ⟨hv, e1, e2, e3, e4, e5⟩
  · exact ⟨by rw [h.gv, hv]; omega, fun e => by rw [h.gv, hv] at e; omega⟩
  · exact ⟨by rw [h.gv, hv]; exact h1, fun e => hp e1 e2 e3 e4 e5 (h2 (by rw [h.gv, hv] at e; exact e))⟩

omit [DecidableEq N] in
theorem Keep2.loc {s s' : St N V n} {u : Fin n} {pc : PC N V} (h : Keep2 s s' u pc) (hl : Loc2 s u pc) :
    Loc2 s' u pc := by
  have hg : ∀ tp tg, eknows pc tp → (s.tail = tp → s.tgen = tg) → (s'.tail = tp → s'.tgen = tg) := by
    intro tp tg hk h1 e
    obtain ⟨e1, e2⟩ := h.gn tp hk e
    rw [e2]; exact h1 e1
  cases pc with
  | eTP tr x v tg => exact h.und hl (fun _ _ h3 _ _ hp => by rw [h3]; exact hp)
  | eNG tr x v tg tp =>
    exact ⟨h.und hl.1 (fun h1 _ h3 _ _ hp => by rw [h1, h3]; exact hp), h.bf _ rfl hl.2⟩
  | eNP tr x v tg tp ng =>
    exact ⟨h.und hl.1 (fun h1 _ h3 _ h5 hp => by rw [h1, h3, (h5 tp rfl).2]; exact hp), h.bf _ rfl hl.2⟩
  | eCk tr x v tg tp ng np =>
    exact ⟨h.und hl.1 (fun h1 _ h3 _ h5 hp => by rw [h1, h3, (h5 tp rfl).2, (h5 tp rfl).1]; exact hp),
      h.bf _ rfl hl.2⟩
  | eFwd tr x v tg tp y =>
    exact ⟨h.und hl.1 (fun h1 _ _ _ h5 hp => by rw [h1, (h5 tp rfl).1]; exact hp), h.bf _ rfl hl.2.1,
      hg _ _ rfl hl.2.2⟩
  | eCas tr x v tg tp ng =>
    exact ⟨h.und hl.1 (fun _ _ _ _ h5 hp => by rw [(h5 tp rfl).1, (h5 tp rfl).2]; exact hp), h.bf _ rfl hl.2.1,
      hg _ _ rfl hl.2.2⟩
  | eSw tr x tg tp => exact ⟨h.bf _ rfl hl.1, hg _ _ rfl hl.2⟩
  | dHP tr hg => exact h.und hl (fun _ _ _ h4 _ hp => by rw [h4]; exact hp)
  | dTG tr hg hp => exact h.und hl (fun _ h2 _ h4 _ hp => by rw [h4, h2]; exact hp)
  | dTP tr hg hp tg => exact h.und hl (fun _ h2 _ h4 _ hp => by rw [h4, h2]; exact hp)
  | dV tr hg hp y => exact h.und hl (fun _ h2 _ h4 _ hp => by rw [h4, h2]; exact hp)
  | dCas tr hg hp y v => exact h.und hl (fun _ h2 _ h4 _ hp => by rw [h4, h2]; exact hp)
  | dNG tr hg hp tg tp => exact h.und hl (fun h1 h2 _ h4 _ hp => by rw [h4, h2, h1]; exact hp)
  | dNP tr hg hp tg tp => exact h.und hl (fun h1 h2 _ h4 _ hp => by rw [h4, h2, h1]; exact hp)
  | dFwd tr tg tp y => exact h.und hl (fun h1 _ _ _ h5 hp => by rw [h1, (h5 tp rfl).1]; exact hp)
  | _ => trivial

omit [DecidableEq N] in
/-- Steps that leave all pointers alone that are in the chain or known to the thread. -/
theorem keep2_same {s s' : St N V n} (u : Fin n) (pc : PC N V) (h0 : s'.gv u = s.gv u) (h1 : s'.ver = s.ver)
    (h2 : s'.tail = s.tail) (h3 : s'.head = s.head) (h4 : s'.tgen = s.tgen) (h5 : s'.hgen = s.hgen)
    (h6 : s'.q = s.q) (h7 : ∀ y, knows pc y → s'.next y = s.next y ∧ s'.ngen y = s.ngen y) :
    Keep2 s s' u pc where
  gv := h0
  ver := Or.inr ⟨h1, h2, h3, h4, h5, h7⟩
  bf y _ hb := by
    have hc : s'.chain = s.chain := by simp [St.chain, h3, h6]
    simp only [Bf, hc, h2]; exact hb
  gn y _ e := ⟨by rw [h2] at e; exact e, h4⟩

omit [DecidableEq N] in
theorem bf_tail {s : St N V n} (h : Inv s) : Bf s s.tail := fun _ => by
  obtain ⟨a, b, hab⟩ := List.append_of_mem h.tail
  exact ⟨a, b, hab, by simp⟩

/-- The rest of a step that moves neither `tail` nor a chained `next`, and after which `t` is at `pc`, not
leaving an unfinished enqueue. -/
theorem Inv2.quiet {s s' : St N V n} (h : Inv2 s) (hi : Inv s) (t : Fin n) (pc : PC N V)
    (hth : s'.th = upd s.th t pc)
    (h0 : ∀ u, u ≠ t → s'.gv u = s.gv u) (h1 : s'.ver = s.ver)
    (h2 : s'.tail = s.tail) (h3 : s'.head = s.head) (h4 : s'.tgen = s.tgen) (h5 : s'.hgen = s.hgen)
    (h6 : s'.q = s.q) (h7 : ∀ y, ¬ preparing (s.th t) y → s'.next y = s.next y ∧ s'.ngen y = s.ngen y)
    (hsw : ∀ tr x tg tp, s.th t = .eSw tr x tg tp → s.tail ≠ tp) (hl : Loc2 s' t pc) : Inv2 s' where
  lag x hx := by
    have e1 : s'.next s.tail = s.next s.tail := (h7 _ fun hp => hi.out t _ hp hi.tail).1
    rw [h2] at hx ⊢
    rw [e1] at hx
    obtain ⟨l1, u, tr, tg, hu⟩ := h.lag x hx
    refine ⟨?_, u, tr, tg, ?_⟩
    · rw [(h7 x fun hp => hi.out t _ hp (hi.next_mem hi.tail hx).1).1]; exact l1
    · rw [hth, upd_ne]
      · exact hu
      · rintro rfl; exact hsw _ _ _ _ hu rfl
  loc u := by
    rw [hth, upd_apply]; split
    · next e => subst e; exact hl
    · next e =>
      refine (keep2_same u _ (h0 u e) h1 h2 h3 h4 h5 h6 fun y hy => h7 y fun hp => ?_).loc (h.loc u)
      exact hi.sep t u y hp hy

omit [DecidableEq N] in
theorem again_loc2 {s : St N V n} {t : Fin n} {tr : Bool} {x : N} {v : V} : Loc2 s t (again tr x v) := by
  unfold again; split <;> trivial

omit [DecidableEq N] in
theorem dagain_loc2 {s : St N V n} {t : Fin n} {tr : Bool} : Loc2 s t (dagain tr : PC N V) := by
  unfold dagain; split <;> trivial

/-- The tail moves to its successor. -/
theorem Inv2.swing {s s' : St N V n} (h : Inv2 s) (hi : Inv s) (t : Fin n) (pc : PC N V)
    (hth : s'.th = upd s.th t pc) (h0 : s'.gv = s.gv) (h1 : s'.ver = s.ver + 1)
    (h2 : s.next s.tail = some s'.tail) (h3 : s'.head = s.head) (h6 : s'.q = s.q) (h7 : s'.next = s.next)
    (hl : Loc2 s' t pc) : Inv2 s' where
  lag x hx := by
    rw [h7, (h.lag _ h2).1] at hx; cases hx
  loc u := by
    have hc : s'.chain = s.chain := by simp [St.chain, h3, h6]
    rw [hth, upd_apply]; split
    · next e => subst e; exact hl
    · refine Keep2.loc (s := s) ⟨by rw [h0], Or.inl h1, ?_, ?_⟩ (h.loc u)
      · intro y _ hb hy
        rw [hc] at hy ⊢
        obtain ⟨a, b, hab, ht⟩ := hb hy
        refine ⟨a, b, hab, ?_⟩
        have hseg := hi.seg
        rw [hab, seg_append] at hseg
        obtain ⟨m, -, hs2⟩ := hseg
        -- the successor of a member of a segment that ends in NULL is a member
        have key : ∀ (l : List N) (m : Option N), Seg s.next m l none → s.tail ∈ l → s'.tail ∈ l := by
          intro l
          induction l with
          | nil => intro m _ hm; cases hm
          | cons z l ih =>
            intro m hs hm
            obtain ⟨e1, e2⟩ := hs
            rcases List.mem_cons.1 hm with e | e
            · rw [← e, h2] at e2
              cases l with
              | nil => cases e2
              | cons w l => obtain ⟨e3, -⟩ := e2; cases e3; simp
            · exact List.mem_cons_of_mem _ (ih _ e2 e)
        exact key _ _ hs2 ht
      · intro y hk e
        exfalso
        -- the new tail is at the end, the known node before or at the old tail
        have hl1 := (h.lag _ h2)
        obtain ⟨hm, -⟩ := hi.next_mem hi.tail h2
        have hloc := h.loc u
        have hloc1 := hi.loc u
        have hnone : s.next y = none := by rw [← e]; exact hl1.1
        obtain ⟨a, ha⟩ := hi.last hm hl1.1
        have hnt : s.tail ≠ s'.tail := by
          intro e'; rw [e'] at h2; rw [hl1.1] at h2; cases h2
        obtain ⟨a', b', hab, ht⟩ := (h.loc u).bf hk (by rw [← e]; exact hm)
        have hb' : b' = [] := by
          cases hb : b' with
          | nil => rfl
          | cons z b =>
            have hseg := hi.seg
            rw [hab, hb, seg_append] at hseg
            obtain ⟨m, -, -, hs2⟩ := hseg
            rw [hnone] at hs2; cases hs2.1
        rw [hb'] at ht
        rw [List.mem_singleton] at ht
        exact hnt (by rw [ht, e])

theorem Inv2.run {s s' : St N V n} (h : Inv2 s) (hi : Inv s) {t : Fin n} (hs : Mpmc.run s t = some s') :
    Inv2 s' := by
  have hl := hi.loc t
  have hl2 := h.loc t
  unfold Mpmc.run at hs
  cases hp : s.th t with
  | idle => rw [hp] at hs; cases hs
  | ret r => rw [hp] at hs; cases hs
  | enqV tr x v =>
    simp only [hp] at hs
    cases hs
    exact h.quiet hi t _ rfl (fun _ _ => rfl) rfl rfl rfl rfl rfl rfl (fun _ _ => ⟨rfl, rfl⟩)
      (by intro _ _ _ _ e; rw [hp] at e; cases e) trivial
  | enqP tr x v =>
    simp only [hp] at hs
    cases hs
    refine h.quiet hi t _ rfl (fun _ _ => rfl) rfl rfl rfl rfl rfl rfl (fun y hy => ⟨?_, rfl⟩)
      (by intro _ _ _ _ e; rw [hp] at e; cases e) trivial
    exact upd_ne _ _ (by rintro rfl; exact hy (by rw [hp]; rfl))
  | enqG tr x v =>
    simp only [hp] at hs
    cases hs
    refine h.quiet hi t _ rfl (fun _ _ => rfl) rfl rfl rfl rfl rfl rfl (fun y hy => ⟨rfl, ?_⟩)
      (by intro _ _ _ _ e; rw [hp] at e; cases e) trivial
    exact upd_ne _ _ (by rintro rfl; exact hy (by rw [hp]; rfl))
  | eTG tr x v =>
    simp only [hp] at hs
    cases hs
    refine h.quiet hi t _ rfl (fun u hu => upd_ne _ _ hu) rfl rfl rfl rfl rfl rfl (fun _ _ => ⟨rfl, rfl⟩)
      (by intro _ _ _ _ e; rw [hp] at e; cases e) ⟨?_, fun _ => rfl⟩
    simp only [upd_same]; exact Nat.le_refl _
  | eTP tr x v tg =>
    simp only [hp] at hs hl2
    cases hs
    have hb : Bf s s.tail := bf_tail hi
    exact h.quiet hi t _ rfl (fun _ _ => rfl) rfl rfl rfl rfl rfl rfl (fun _ _ => ⟨rfl, rfl⟩)
      (by intro _ _ _ _ e; rw [hp] at e; cases e) ⟨⟨hl2.1, fun e => ⟨hl2.2 e, rfl⟩⟩, hb⟩
  | eNG tr x v tg tp =>
    simp only [hp] at hs hl2
    cases hs
    exact h.quiet hi t _ rfl (fun _ _ => rfl) rfl rfl rfl rfl rfl rfl (fun _ _ => ⟨rfl, rfl⟩)
      (by intro _ _ _ _ e; rw [hp] at e; cases e)
      ⟨⟨hl2.1.1, fun e => ⟨(hl2.1.2 e).1, (hl2.1.2 e).2, rfl⟩⟩, hl2.2⟩
  | eNP tr x v tg tp ng =>
    simp only [hp] at hs hl2
    cases hs
    exact h.quiet hi t _ rfl (fun _ _ => rfl) rfl rfl rfl rfl rfl rfl (fun _ _ => ⟨rfl, rfl⟩)
      (by intro _ _ _ _ e; rw [hp] at e; cases e)
      ⟨⟨hl2.1.1, fun e => ⟨(hl2.1.2 e).1, (hl2.1.2 e).2.1, (hl2.1.2 e).2.2, rfl⟩⟩, hl2.2⟩
  | eCk tr x v tg tp ng np =>
    simp only [hp] at hs hl2
    split at hs
    · next hg =>
      split at hs
      · cases hs
        exact h.quiet hi t _ rfl (fun _ _ => rfl) rfl rfl rfl rfl rfl rfl (fun _ _ => ⟨rfl, rfl⟩)
          (by intro _ _ _ _ e; rw [hp] at e; cases e)
          ⟨⟨hl2.1.1, fun e => ⟨(hl2.1.2 e).2.1, (hl2.1.2 e).2.2.2⟩⟩, hl2.2, fun _ => hg⟩
      · cases hs
        exact h.quiet hi t _ rfl (fun _ _ => rfl) rfl rfl rfl rfl rfl rfl (fun _ _ => ⟨rfl, rfl⟩)
          (by intro _ _ _ _ e; rw [hp] at e; cases e)
          ⟨⟨hl2.1.1, fun e => ⟨(hl2.1.2 e).2.2.2, (hl2.1.2 e).2.2.1⟩⟩, hl2.2, fun _ => hg⟩
    · cases hs
      exact h.quiet hi t _ rfl (fun _ _ => rfl) rfl rfl rfl rfl rfl rfl (fun _ _ => ⟨rfl, rfl⟩)
        (by intro _ _ _ _ e; rw [hp] at e; cases e) again_loc2
  | eFwd tr x v tg tp y =>
    simp only [hp] at hs hl
    split at hs
    · next hc =>
      cases hs
      exact h.swing hi t _ rfl rfl rfl (by rw [hc.1]; exact hl.2.2) rfl rfl rfl again_loc2
    · cases hs
      exact h.quiet hi t _ rfl (fun _ _ => rfl) rfl rfl rfl rfl rfl rfl (fun _ _ => ⟨rfl, rfl⟩)
        (by intro _ _ _ _ e; rw [hp] at e; cases e) again_loc2
  | eCas tr x v tg tp ng =>
    simp only [hp] at hs hl hl2
    split at hs
    · next hc =>
      cases hs
      have hpx : preparing (s.th t) x := by rw [hp]; rfl
      have hx := hi.out t x hpx
      obtain ⟨⟨hv, hxn⟩, hk⟩ := hl
      have htp : tp ∈ s.chain := by
        rcases hk with hk | hk
        · exact hk
        · exact absurd hc.1 hk
      have hch : s.head :: (s.q ++ [(x, v)]).map Prod.fst = s.chain ++ [x] := by simp [St.chain]
      have hxt : x ≠ tp := by rintro rfl; exact hx htp
      have hbf : ∀ y, y ≠ x → Bf s y → Bf { s with
          next := upd s.next tp (some x), ngen := upd s.ngen tp (ng + 1#64), q := s.q ++ [(x, v)],
          ver := s.ver + 1, th := upd s.th t (.eSw tr x tg tp) } y := by
        intro y hyx hb hy
        rw [St.chain] at hy ⊢; simp only [] at hy ⊢; rw [hch] at hy ⊢
        rcases List.mem_append.1 hy with hy | hy
        · obtain ⟨a, b, hab, ht⟩ := hb hy
          refine ⟨a, b ++ [x], by rw [hab]; simp, ?_⟩
          rw [← List.cons_append]; exact List.mem_append_left _ ht
        · rw [List.mem_singleton] at hy; exact absurd hy hyx
      -- the tail is at `tp`
      have htl : s.tail = tp := by
        obtain ⟨a, b, hab, ht⟩ := hl2.2.1 htp
        cases b with
        | nil => rw [List.mem_singleton] at ht; exact ht
        | cons z b =>
          have hseg := hi.seg
          rw [hab, seg_append] at hseg
          obtain ⟨m, -, -, h3⟩ := hseg
          rw [hc.1] at h3; cases h3.1
      refine ⟨?_, ?_⟩
      · intro z hz
        simp only [htl, upd_same, Option.some.injEq] at hz
        subst hz
        refine ⟨by simp only []; rw [upd_ne _ _ hxt]; exact hxn, t, tr, tg, ?_⟩
        simp only [upd_same, htl]
      · intro u
        simp only [upd_apply]; split
        · next e => subst e; exact ⟨hbf tp (Ne.symm hxt) hl2.2.1, hl2.2.2⟩
        · next e =>
          refine Keep2.loc (s := s) ⟨rfl, Or.inl rfl, ?_, fun y _ e => ⟨e, rfl⟩⟩ (h.loc u)
          intro y hk hb
          exact hbf y (by rintro rfl; exact hi.sep t u _ hpx hk.knows) hb
    · cases hs
      exact h.quiet hi t _ rfl (fun _ _ => rfl) rfl rfl rfl rfl rfl rfl (fun _ _ => ⟨rfl, rfl⟩)
        (by intro _ _ _ _ e; rw [hp] at e; cases e) again_loc2
  | eSw tr x tg tp =>
    simp only [hp] at hs hl hl2
    split at hs
    · next hc =>
      cases hs
      exact h.swing hi t _ rfl rfl rfl (by rw [hc.1]; exact hl.2) rfl rfl rfl trivial
    · next hc =>
      cases hs
      refine h.quiet hi t _ rfl (fun _ _ => rfl) rfl rfl rfl rfl rfl rfl (fun _ _ => ⟨rfl, rfl⟩) ?_ trivial
      intro _ _ _ _ e e'
      rw [hp] at e; cases e
      exact hc ⟨e', hl2.2 e'⟩
  | dHG tr =>
    simp only [hp] at hs
    cases hs
    refine h.quiet hi t _ rfl (fun u hu => upd_ne _ _ hu) rfl rfl rfl rfl rfl rfl (fun _ _ => ⟨rfl, rfl⟩)
      (by intro _ _ _ _ e; rw [hp] at e; cases e) ⟨?_, fun _ => rfl⟩
    simp only [upd_same]; exact Nat.le_refl _
  | dHP tr hg =>
    simp only [hp] at hs hl2
    cases hs
    exact h.quiet hi t _ rfl (fun _ _ => rfl) rfl rfl rfl rfl rfl rfl (fun _ _ => ⟨rfl, rfl⟩)
      (by intro _ _ _ _ e; rw [hp] at e; cases e) ⟨hl2.1, fun e => ⟨hl2.2 e, rfl⟩⟩
  | dTG tr hg hp' =>
    simp only [hp] at hs hl2
    cases hs
    exact h.quiet hi t _ rfl (fun _ _ => rfl) rfl rfl rfl rfl rfl rfl (fun _ _ => ⟨rfl, rfl⟩)
      (by intro _ _ _ _ e; rw [hp] at e; cases e) hl2
  | dTP tr hg hp' tg =>
    simp only [hp] at hs hl2
    cases hs
    exact h.quiet hi t _ rfl (fun _ _ => rfl) rfl rfl rfl rfl rfl rfl (fun _ _ => ⟨rfl, rfl⟩)
      (by intro _ _ _ _ e; rw [hp] at e; cases e) ⟨hl2.1, fun e => ⟨(hl2.2 e).1, (hl2.2 e).2, rfl⟩⟩
  | dNG tr hg hp' tg tp =>
    simp only [hp] at hs hl2
    cases hs
    exact h.quiet hi t _ rfl (fun _ _ => rfl) rfl rfl rfl rfl rfl rfl (fun _ _ => ⟨rfl, rfl⟩)
      (by intro _ _ _ _ e; rw [hp] at e; cases e) hl2
  | dNP tr hg hp' tg tp =>
    simp only [hp] at hs hl2
    split at hs
    · next he =>
      split at hs
      · cases hs
        exact h.quiet hi t _ rfl (fun _ _ => rfl) rfl rfl rfl rfl rfl rfl (fun _ _ => ⟨rfl, rfl⟩)
          (by intro _ _ _ _ e; rw [hp] at e; cases e) trivial
      · next hn =>
        cases hs
        exact h.quiet hi t _ rfl (fun _ _ => rfl) rfl rfl rfl rfl rfl rfl (fun _ _ => ⟨rfl, rfl⟩)
          (by intro _ _ _ _ e; rw [hp] at e; cases e)
          ⟨hl2.1, fun e => ⟨(hl2.2 e).2.2, by rw [← he]; exact hn⟩⟩
    · split at hs
      · cases hs
        exact h.quiet hi t _ rfl (fun _ _ => rfl) rfl rfl rfl rfl rfl rfl (fun _ _ => ⟨rfl, rfl⟩)
          (by intro _ _ _ _ e; rw [hp] at e; cases e) dagain_loc2
      · cases hs
        exact h.quiet hi t _ rfl (fun _ _ => rfl) rfl rfl rfl rfl rfl rfl (fun _ _ => ⟨rfl, rfl⟩)
          (by intro _ _ _ _ e; rw [hp] at e; cases e) ⟨hl2.1, fun e => ⟨(hl2.2 e).1, (hl2.2 e).2.1⟩⟩
  | dFwd tr tg tp y =>
    simp only [hp] at hs hl
    split at hs
    · next hc =>
      cases hs
      exact h.swing hi t _ rfl rfl rfl (by rw [hc.1]; exact hl.2) rfl rfl rfl dagain_loc2
    · cases hs
      exact h.quiet hi t _ rfl (fun _ _ => rfl) rfl rfl rfl rfl rfl rfl (fun _ _ => ⟨rfl, rfl⟩)
        (by intro _ _ _ _ e; rw [hp] at e; cases e) dagain_loc2
  | dV tr hg hp' y =>
    simp only [hp] at hs hl2
    cases hs
    exact h.quiet hi t _ rfl (fun _ _ => rfl) rfl rfl rfl rfl rfl rfl (fun _ _ => ⟨rfl, rfl⟩)
      (by intro _ _ _ _ e; rw [hp] at e; cases e) hl2
  | dCas tr hg hp' y v =>
    simp only [hp] at hs hl
    split at hs
    · next hc =>
      cases hs
      obtain ⟨hc, -⟩ := hc
      subst hc
      obtain ⟨-, -, hn, -, -⟩ := hl
      rw [hi.next_head] at hn
      cases hq : s.q with
      | nil => rw [hq] at hn; cases hn
      | cons p l =>
        rw [hq] at hn; cases hn
        have hchain : s.chain = s.head :: (p.1 :: l.map Prod.fst) := by simp [St.chain, hq]
        have hnd := hi.nodup
        rw [hchain, List.nodup_cons] at hnd
        refine ⟨?_, ?_⟩
        · intro x hx
          obtain ⟨l1, u, tr', tg, hu⟩ := h.lag x hx
          refine ⟨l1, u, tr', tg, ?_⟩
          simp only []
          rw [upd_ne]
          · exact hu
          · rintro rfl; rw [hp] at hu; cases hu
        · intro u
          simp only [upd_apply]; split
          · trivial
          · refine Keep2.loc (s := s) ⟨rfl, Or.inl rfl, ?_, fun y _ e => ⟨e, rfl⟩⟩ (h.loc u)
            intro y _ hb hy
            rw [St.chain] at hy ⊢; simp only [List.tail_cons] at hy ⊢
            obtain ⟨a, b, hab, ht⟩ := hb (by rw [hchain]; exact List.mem_cons_of_mem _ hy)
            rw [hchain] at hab
            cases a with
            | nil =>
              simp only [List.nil_append, List.cons.injEq] at hab
              exact absurd (by rw [hab.1]; exact hy) hnd.1
            | cons z a =>
              simp only [List.cons_append, List.cons.injEq] at hab
              exact ⟨a, b, hab.2, ht⟩
    · cases hs
      exact h.quiet hi t _ rfl (fun _ _ => rfl) rfl rfl rfl rfl rfl rfl (fun _ _ => ⟨rfl, rfl⟩)
        (by intro _ _ _ _ e; rw [hp] at e; cases e) dagain_loc2

theorem Inv2.step {s s' : St N V n} (h : Inv2 s) (hi : Inv s) {a : Act N V n}
    (hs : Mpmc.step True s a = some s') : Inv2 s' := by
  have key : ∀ t pc, (∀ tr x tg tp, s.th t ≠ .eSw tr x tg tp) → Loc2 s t pc →
      Inv2 { s with th := upd s.th t pc } := fun t pc h1 h2 =>
    h.quiet hi t pc rfl (fun _ _ => rfl) rfl rfl rfl rfl rfl rfl (fun _ _ => ⟨rfl, rfl⟩)
      (fun _ _ _ _ e => absurd e (h1 _ _ _ _))
      ((keep2_same (s := s) t pc rfl rfl rfl rfl rfl rfl rfl fun _ _ => ⟨rfl, rfl⟩).loc h2)
  cases a with
  | run t => exact h.run hi hs
  | ret t =>
    simp only [Mpmc.step] at hs
    split at hs
    · next hp => cases hs; exact key _ _ (by intro _ _ _ _ e; rw [hp] at e; cases e) trivial
    · cases hs
  | call t o =>
    simp only [Mpmc.step] at hs
    split at hs
    · next hp =>
      have hne : ∀ tr x tg tp, s.th t ≠ .eSw tr x tg tp := by intro _ _ _ _ e; rw [hp] at e; cases e
      cases o <;> simp only at hs
      · split at hs
        · cases hs; exact key _ _ hne trivial
        · cases hs
      · split at hs
        · cases hs; exact key _ _ hne trivial
        · cases hs
      · cases hs; exact key _ _ hne trivial
      · cases hs; exact key _ _ hne trivial
    · cases hs

omit [DecidableEq N] in
theorem Start.inv2 {d : N} {q : List (N × V)} {s : St N V n} (h : Start d q s) : Inv2 s := by
  have hi := h.inv
  refine ⟨?_, fun t => by rw [h.idle t]; trivial⟩
  intro x hx
  exfalso
  have hch : s.chain = d :: q.map Prod.fst := by simp [St.chain, h.head, h.hq]
  obtain ⟨a, ha⟩ := List.getLast?_eq_some_iff.1 h.tail
  have hseg := hi.seg
  rw [hch, ha, seg_append] at hseg
  obtain ⟨m, -, -, h3⟩ := hseg
  rw [hx] at h3; cases h3

variable {d : N} {q0 : List (N × V)} {s0 : St N V n}

theorem inv2 (h0 : Start d q0 s0) {s : St N V n} (h : (sys True s0).Reach s) : Inv2 s := by
  induction h with
  | init h => rw [h]; exact h0.inv2
  | step hr hs ih => exact ih.step (inv h0 hr) hs

/-- Some thread other than `t` has linked its entry but not yet moved `tail`. -/
def Unfinished (s : St N V n) (t : Fin n) : Prop := ∃ u tr x tg, u ≠ t ∧ s.th u = .eSw tr x tg s.tail

/-- `tail` lags at most one entry behind the last, and only while the enqueue of that entry is running. -/
theorem tail_lag (h0 : Start d q0 s0) {s : St N V n} (h : (sys True s0).Reach s) {x : N}
    (hx : s.next s.tail = some x) : s.next x = none ∧ ∃ u tr tg, s.th u = .eSw tr x tg s.tail :=
  (inv2 h0 h).lag x hx

/-- A failing `ck_fifo_mpmc_tryenqueue` was overtaken: since it began its attempt some compare-and-swap of
another thread succeeded, or another enqueue is halfway done. -/
theorem tryenqueue_fail (h0 : Start d q0 s0) {s s' : St N V n} (h : (sys True s0).Reach s) {t : Fin n}
    (hs : step True s (.run t) = some s') (hr : s'.th t = .ret (.flag false)) :
    s.gv t < s.ver ∨ Unfinished s t := by
  have hi := inv h0 h
  have hi2 := inv2 h0 h
  have hl := hi.loc t
  have hl2 := hi2.loc t
  have lt_of : ∀ {p : Prop}, Und s t p → ¬ p → s.gv t < s.ver := fun hu hp =>
    Nat.lt_of_le_of_ne hu.1 fun e => hp (hu.2 e)
  simp only [Mpmc.step] at hs
  unfold Mpmc.run at hs
  cases hp : s.th t <;> simp only [hp] at hs hl hl2
  case eCk =>
    split at hs
    · split at hs <;> cases hs <;> simp only [upd_same] at hr <;> cases hr
    · next hg => exact Or.inl (lt_of hl2.1 fun e => hg e.1)
  case eFwd =>
    by_cases hv : s.gv t = s.ver
    · obtain ⟨e1, e2⟩ := hl2.1.2 hv
      obtain ⟨-, u, tr, tg, hu⟩ := hi2.lag _ (by rw [e1]; exact e2)
      exact Or.inr ⟨u, tr, _, tg, fun e => (by rw [e, hp] at hu; cases hu), hu⟩
    · exact Or.inl (Nat.lt_of_le_of_ne hl2.1.1 hv)
  case eCas =>
    split at hs
    · cases hs; simp only [upd_same] at hr; cases hr
    · next hc => exact Or.inl (lt_of hl2.1 hc)
  case eSw tr x tg tp =>
    exfalso
    split at hs <;> cases hs <;> simp only [upd_same] at hr <;> cases tr <;> simp at hr
  case dNP tr hg hp' tg tp =>
    exfalso
    split at hs <;> split at hs <;> cases hs <;> simp only [upd_same] at hr <;> cases tr <;>
      simp [dagain] at hr
  case dFwd tr tg tp y =>
    exfalso
    split at hs <;> cases hs <;> simp only [upd_same] at hr <;> cases tr <;> simp [dagain] at hr
  case dCas tr hg hp' y v =>
    exfalso
    split at hs <;> cases hs <;> simp only [upd_same] at hr <;> cases tr <;> simp [dagain] at hr
  all_goals (cases hs; try (simp only [upd_same] at hr; cases hr))

/-- A failing `ck_fifo_mpmc_trydequeue` saw an empty queue or was overtaken. -/
theorem trydequeue_fail (h0 : Start d q0 s0) {s s' : St N V n} (h : (sys True s0).Reach s) {t : Fin n}
    (hs : step True s (.run t) = some s') (hr : s'.th t = .ret (.val none)) :
    s.q = [] ∨ s.gv t < s.ver ∨ Unfinished s t := by
  have hi := inv h0 h
  have hi2 := inv2 h0 h
  have hl := hi.loc t
  have hl2 := hi2.loc t
  have lt_of : ∀ {p : Prop}, Und s t p → ¬ p → s.gv t < s.ver := fun hu hp =>
    Nat.lt_of_le_of_ne hu.1 fun e => hp (hu.2 e)
  simp only [Mpmc.step] at hs
  unfold Mpmc.run at hs
  cases hp : s.th t <;> simp only [hp] at hs hl hl2
  case eCk tr x v tg tp ng np =>
    exfalso
    split at hs
    · split at hs <;> cases hs <;> simp only [upd_same] at hr <;> cases hr
    · cases hs; simp only [upd_same] at hr; cases tr <;> simp [again] at hr
  case eFwd tr x v tg tp y =>
    exfalso
    split at hs <;> cases hs <;> simp only [upd_same] at hr <;> cases tr <;> simp [again] at hr
  case eCas tr x v tg tp ng =>
    exfalso
    split at hs <;> cases hs <;> simp only [upd_same] at hr <;> cases tr <;> simp [again] at hr
  case eSw tr x tg tp =>
    exfalso
    split at hs <;> cases hs <;> simp only [upd_same] at hr <;> cases tr <;> simp at hr
  case dNP tr hg hp' tg tp =>
    cases hn : s.next hp' with
    | none => exact Or.inl (hi.empty hl.1 hl.2.1 hn).2
    | some y =>
      exfalso
      rw [hn] at hs
      split at hs <;> cases hs <;> simp only [upd_same] at hr <;> cases hr
  case dFwd tr tg tp y =>
    by_cases hv : s.gv t = s.ver
    · obtain ⟨e1, e2⟩ := hl2.2 hv
      obtain ⟨-, u, tr, tg, hu⟩ := hi2.lag _ (by rw [e1]; exact e2)
      exact Or.inr (Or.inr ⟨u, tr, _, tg, fun e => (by rw [e, hp] at hu; cases hu), hu⟩)
    · exact Or.inr (Or.inl (Nat.lt_of_le_of_ne hl2.1 hv))
  case dCas tr hg hp' y v =>
    split at hs
    · cases hs; simp only [upd_same] at hr; cases hr
    · next hc => exact Or.inr (Or.inl (lt_of hl2 fun e => hc ⟨e.2, e.1⟩))
  all_goals (cases hs; try (simp only [upd_same] at hr; cases hr))

/-- Failures of both kinds: thread 0's `tryenqueue` loses to thread 1's enqueue, which is still halfway; thread
2's `tryenqueue` then begins afresh and fails too, helping the tail along. -/
example : (runT (sys True one) obs one
    ([.call 0 (.tryEnq 2 200)] ++ runs 0 7 ++ [.call 1 (.enq 3 300)] ++ runs 1 9 ++ runs 0 2 ++ [.ret 0] ++
      [.call 2 (.tryEnq 4 400)] ++ runs 2 9 ++ [.ret 2])).map
      (fun p => (p.2, p.1.gv 0, p.1.gv 2, p.1.ver, p.1.tail)) =
    some ([.call 0 (.tryEnq 2 200), .call 1 (.enq 3 300), .ret 0 (.flag false), .call 2 (.tryEnq 4 400),
      .ret 2 (.flag false)], 0, 1, 2, 3) := by rfl

end Verif.Fifo.Mpmc
