import Verif.Fifo.Mpmc

/-! # `ck_fifo_mpmc`: linearizability when entries are not reused under a running operation -/

namespace Verif.Fifo.Mpmc

open Verif Verif.Lin

variable {N V : Type} [DecidableEq N] {n : Nat}

/-- `y` is in the chain or has a successor. -/
def K (s : St N V n) (y : N) : Prop := y ∈ s.chain ∨ s.next y ≠ none

/-- `y`, once loaded from `head`, is the dummy or gone. -/
def Hd (s : St N V n) (y : N) : Prop := y = s.head ∨ y ∉ s.chain

/-- If `y` is the dummy, the tail is past it. -/
def Past (s : St N V n) (y : N) : Prop := y = s.head → s.tail ≠ s.head

/-- Preparation of the entry is done. -/
def Rdy (s : St N V n) (x : N) (v : V) : Prop := s.val x = v ∧ s.next x = none

def Loc (s : St N V n) : PC N V → Prop
  | .enqP _ x v => s.val x = v
  | .enqG _ x v | .eTG _ x v | .eTP _ x v _ => Rdy s x v
  | .eNG _ x v _ tp | .eNP _ x v _ tp _ | .eCas _ x v _ tp _ => Rdy s x v ∧ K s tp
  | .eCk _ x v _ tp _ np => Rdy s x v ∧ K s tp ∧ ∀ y, np = some y → s.next tp = some y
  | .eFwd _ x v _ tp y => Rdy s x v ∧ K s tp ∧ s.next tp = some y
  | .eSw _ x _ tp => K s tp ∧ s.next tp = some x
  | .dTG _ _ hp | .dTP _ _ hp _ => Hd s hp ∧ K s hp
  | .dNG _ _ hp _ tp | .dNP _ _ hp _ tp => Hd s hp ∧ K s hp ∧ K s tp ∧ (hp ≠ tp → Past s hp)
  | .dFwd _ _ tp y => K s tp ∧ s.next tp = some y
  | .dV _ _ hp y => Hd s hp ∧ K s hp ∧ s.next hp = some y ∧ Past s hp
  | .dCas _ _ hp y v => Hd s hp ∧ K s hp ∧ s.next hp = some y ∧ Past s hp ∧ (hp = s.head → s.val y = v)
  | _ => True

structure Inv (s : St N V n) : Prop where
  seg : Seg s.next (some s.head) s.chain none
  nodup : s.chain.Nodup
  vals : ∀ p ∈ s.q, s.val p.1 = p.2
  tail : s.tail ∈ s.chain
  out : ∀ t x, preparing (s.th t) x → x ∉ s.chain
  uniq : ∀ t u x, preparing (s.th t) x → preparing (s.th u) x → t = u
  sep : ∀ t u x, preparing (s.th t) x → ¬ knows (s.th u) x
  loc : ∀ t, Loc s (s.th t)

/-- What another thread's locals need from a step. -/
structure Keep (s s' : St N V n) (pc : PC N V) : Prop where
  nx : ∀ y, knows pc y → s.next y ≠ none → s'.next y = s.next y
  ch : ∀ y, knows pc y → y ∈ s.chain → y ∈ s'.chain ∨ s'.next y ≠ none
  nw : ∀ y, knows pc y → y ∈ s'.chain → y ∈ s.chain
  hd : ∀ y, knows pc y → y = s.head → y = s'.head ∨ y ∉ s'.chain
  pst : ∀ y, knows pc y → y = s'.head → y = s.head → s.tail ≠ s.head → s'.tail ≠ s'.head
  rdy : ∀ x, preparing pc x → s'.val x = s.val x ∧ s'.next x = s.next x
  vl : ∀ y, s'.head = s.head → s.next s.head = some y → s'.val y = s.val y

omit [DecidableEq N] in
theorem Keep.K {s s' : St N V n} {pc : PC N V} (h : Keep s s' pc) {y : N} (hk : knows pc y)
    (hy : K s y) : K s' y := by
  rcases hy with hy | hy
  · exact h.ch y hk hy
  · exact Or.inr (by rw [h.nx y hk hy]; exact hy)

omit [DecidableEq N] in
theorem Keep.Hd {s s' : St N V n} {pc : PC N V} (h : Keep s s' pc) {y : N} (hk : knows pc y)
    (hy : Hd s y) : Hd s' y := by
  rcases hy with hy | hy
  · exact h.hd y hk hy
  · exact Or.inr fun hc => hy (h.nw y hk hc)

omit [DecidableEq N] in
theorem Keep.head {s s' : St N V n} {pc : PC N V} (h : Keep s s' pc) {y : N} (hk : knows pc y)
    (hy : Mpmc.Hd s y) (e : y = s'.head) : y = s.head := by
  rcases hy with hy | hy
  · exact hy
  · exact absurd (h.nw y hk (by rw [e]; simp [St.chain])) hy

omit [DecidableEq N] in
theorem Keep.Past {s s' : St N V n} {pc : PC N V} (h : Keep s s' pc) {y : N} (hk : knows pc y)
    (hh : Mpmc.Hd s y) (hy : Past s y) : Past s' y := fun e =>
  h.pst y hk e (h.head hk hh e) (hy (h.head hk hh e))

omit [DecidableEq N] in
theorem Keep.next {s s' : St N V n} {pc : PC N V} (h : Keep s s' pc) {y z : N} (hk : knows pc y)
    (hy : s.next y = some z) : s'.next y = some z := by
  rw [h.nx y hk (by rw [hy]; simp)]; exact hy

omit [DecidableEq N] in
theorem Keep.Rdy {s s' : St N V n} {pc : PC N V} (h : Keep s s' pc) {x : N} {v : V} (hp : preparing pc x)
    (hr : Rdy s x v) : Rdy s' x v := by
  obtain ⟨h1, h2⟩ := h.rdy x hp
  exact ⟨by rw [h1]; exact hr.1, by rw [h2]; exact hr.2⟩

omit [DecidableEq N] in
theorem Keep.loc {s s' : St N V n} {pc : PC N V} (h : Keep s s' pc) (hl : Loc s pc) : Loc s' pc := by
  cases pc with
  | enqP tr x v => show s'.val x = v; rw [(h.rdy x rfl).1]; exact hl
  | enqG tr x v => exact h.Rdy (v := v) rfl hl
  | eTG tr x v => exact h.Rdy (v := v) rfl hl
  | eTP tr x v tg => exact h.Rdy (v := v) rfl hl
  | eNG tr x v tg tp => exact ⟨h.Rdy rfl hl.1, h.K rfl hl.2⟩
  | eNP tr x v tg tp ng => exact ⟨h.Rdy rfl hl.1, h.K rfl hl.2⟩
  | eCas tr x v tg tp ng => exact ⟨h.Rdy rfl hl.1, h.K rfl hl.2⟩
  | eCk tr x v tg tp ng np =>
    exact ⟨h.Rdy rfl hl.1, h.K rfl hl.2.1, fun y hy => h.next rfl (hl.2.2 y hy)⟩
  | eFwd tr x v tg tp y => exact ⟨h.Rdy rfl hl.1, h.K rfl hl.2.1, h.next rfl hl.2.2⟩
  | eSw tr x tg tp => exact ⟨h.K rfl hl.1, h.next rfl hl.2⟩
  | dTG tr hg hp => exact ⟨h.Hd rfl hl.1, h.K rfl hl.2⟩
  | dTP tr hg hp tg => exact ⟨h.Hd rfl hl.1, h.K rfl hl.2⟩
  | dNG tr hg hp tg tp =>
    exact ⟨h.Hd (Or.inl rfl) hl.1, h.K (Or.inl rfl) hl.2.1, h.K (Or.inr rfl) hl.2.2.1,
      fun hne => h.Past (Or.inl rfl) hl.1 (hl.2.2.2 hne)⟩
  | dNP tr hg hp tg tp =>
    exact ⟨h.Hd (Or.inl rfl) hl.1, h.K (Or.inl rfl) hl.2.1, h.K (Or.inr rfl) hl.2.2.1,
      fun hne => h.Past (Or.inl rfl) hl.1 (hl.2.2.2 hne)⟩
  | dFwd tr tg tp y => exact ⟨h.K rfl hl.1, h.next rfl hl.2⟩
  | dV tr hg hp y => exact ⟨h.Hd rfl hl.1, h.K rfl hl.2.1, h.next rfl hl.2.2.1, h.Past rfl hl.1 hl.2.2.2⟩
  | dCas tr hg hp y v =>
    refine ⟨h.Hd rfl hl.1, h.K rfl hl.2.1, h.next rfl hl.2.2.1, h.Past rfl hl.1 hl.2.2.2.1, fun e => ?_⟩
    have e' := h.head rfl hl.1 e
    rw [h.vl y (by rw [← e, ← e']) (by rw [← e']; exact hl.2.2.1)]
    exact hl.2.2.2.2 e'
  | _ => trivial

/-- Reassemble the invariant after a step of `t`. -/
theorem Inv.mk' {s s' : St N V n} (h : Inv s) (t : Fin n) (pc : PC N V) (hth : s'.th = upd s.th t pc)
    (hseg : Seg s'.next (some s'.head) s'.chain none) (hnd : s'.chain.Nodup)
    (hv : ∀ p ∈ s'.q, s'.val p.1 = p.2) (ht : s'.tail ∈ s'.chain)
    (hpr : ∀ x, preparing pc x → preparing (s.th t) x) (hpo : ∀ x, preparing pc x → x ∉ s'.chain)
    (hch : ∀ x, x ∈ s'.chain → x ∈ s.chain ∨ preparing (s.th t) x)
    (hkn : ∀ x, knows pc x → ∀ u, ¬ preparing (s.th u) x)
    (hk : ∀ u, u ≠ t → Keep s s' (s.th u)) (hl : Loc s' pc) : Inv s' where
  seg := hseg
  nodup := hnd
  vals := hv
  tail := ht
  out u x hu := by
    rw [hth, upd_apply] at hu
    split at hu
    · exact hpo x hu
    · next hne =>
      intro hc
      rcases hch x hc with h1 | h1
      · exact h.out u x hu h1
      · exact hne (h.uniq u t x hu h1)
  uniq u v x hu hv' := by
    rw [hth, upd_apply] at hu hv'
    refine h.uniq u v x ?_ ?_
    · split at hu
      · next e => rw [e]; exact hpr x hu
      · exact hu
    · split at hv'
      · next e => rw [e]; exact hpr x hv'
      · exact hv'
  sep u v x hu hv' := by
    rw [hth, upd_apply] at hu hv'
    have hu' : preparing (s.th u) x := by
      split at hu
      · next e => rw [e]; exact hpr x hu
      · exact hu
    split at hv'
    · exact hkn x hv' u hu'
    · exact h.sep u v x hu' hv'
  loc u := by
    rw [hth, upd_apply]; split
    · exact hl
    · next hne => exact (hk u hne).loc (h.loc u)

omit [DecidableEq N] in
/-- Steps that leave the pointers alone (values and generations may change). -/
theorem keep_same {s s' : St N V n} (pc : PC N V) (h1 : s'.next = s.next) (h2 : s'.head = s.head)
    (h3 : s'.tail = s.tail) (h4 : s'.q = s.q)
    (h5 : ∀ x, preparing pc x → s'.val x = s.val x)
    (h6 : ∀ y, s.next s.head = some y → s'.val y = s.val y) : Keep s s' pc where
  nx y _ _ := by rw [h1]
  ch y _ hy := Or.inl (by simpa [St.chain, h2, h4] using hy)
  nw y _ hy := by simpa [St.chain, h2, h4] using hy
  hd y _ hy := Or.inl (by rw [h2]; exact hy)
  pst y _ _ _ h := by rw [h3, h2]; exact h
  rdy x hx := ⟨h5 x hx, by rw [h1]⟩
  vl y _ hy := h6 y hy

theorem Inv.quiet {s s' : St N V n} (h : Inv s) (t : Fin n) (pc : PC N V) (hth : s'.th = upd s.th t pc)
    (h1 : s'.next = s.next) (h2 : s'.head = s.head) (h3 : s'.tail = s.tail) (h4 : s'.q = s.q)
    (h5 : s'.val = s.val) (hpr : ∀ x, preparing pc x → preparing (s.th t) x)
    (hkn : ∀ x, knows pc x → knows (s.th t) x ∨ x ∈ s.chain) (hl : Loc s pc) : Inv s' := by
  have hc : s'.chain = s.chain := by simp [St.chain, h2, h4]
  refine h.mk' t pc hth ?_ ?_ ?_ ?_ hpr ?_ ?_ ?_ ?_ ?_
  · rw [h1, h2, hc]; exact h.seg
  · rw [hc]; exact h.nodup
  · rw [h4, h5]; exact h.vals
  · rw [hc, h3]; exact h.tail
  · intro x hx; rw [hc]; exact h.out t x (hpr x hx)
  · intro x hx; rw [hc] at hx; exact Or.inl hx
  · intro x hx u hu
    rcases hkn x hx with hx | hx
    · exact h.sep u t x hu hx
    · exact h.out u x hu hx
  · intro u _; exact keep_same _ h1 h2 h3 h4 (fun _ _ => by rw [h5]) (fun _ _ => by rw [h5])
  · refine Keep.loc (s := s) ?_ hl
    exact keep_same _ h1 h2 h3 h4 (fun _ _ => by rw [h5]) (fun _ _ => by rw [h5])

omit [DecidableEq N] in
/-- The successor of a chained entry is chained. -/
theorem Inv.next_mem {s : St N V n} (h : Inv s) {x y : N} (hx : x ∈ s.chain) (hy : s.next x = some y) :
    y ∈ s.chain ∧ y ≠ s.head := by
  obtain ⟨a, b, hab⟩ := List.append_of_mem hx
  have hseg := h.seg
  have hnd := h.nodup
  rw [hab, seg_append] at hseg
  obtain ⟨m, -, h2, h3⟩ := hseg
  rw [hy] at h3
  cases b with
  | nil => cases h3
  | cons z b =>
    obtain ⟨h4, -⟩ := h3
    cases h4
    have hh : ∃ l, s.chain = s.head :: l := ⟨_, rfl⟩
    obtain ⟨l, hl⟩ := hh
    rw [hab] at hl hnd
    refine ⟨by rw [hab]; simp, ?_⟩
    rintro rfl
    cases a with
    | nil =>
      simp only [List.nil_append, List.cons.injEq] at hl hnd
      rw [List.nodup_cons] at hnd
      exact hnd.1 (by rw [hl.1]; simp)
    | cons w a =>
      simp only [List.cons_append, List.cons.injEq] at hl hnd
      rw [List.nodup_cons] at hnd
      exact hnd.1 (by rw [hl.1]; simp)

omit [DecidableEq N] in
/-- A chained entry without successor is the last. -/
theorem Inv.last {s : St N V n} (h : Inv s) {x : N} (hx : x ∈ s.chain) (hy : s.next x = none) :
    ∃ a, s.chain = a ++ [x] := by
  obtain ⟨a, b, hab⟩ := List.append_of_mem hx
  have hseg := h.seg
  rw [hab, seg_append] at hseg
  obtain ⟨m, -, h2, h3⟩ := hseg
  rw [hy] at h3
  cases b with
  | nil => exact ⟨a, hab⟩
  | cons z b => obtain ⟨h4, -⟩ := h3; cases h4

omit [DecidableEq N] in
theorem Inv.next_head {s : St N V n} (h : Inv s) : s.next s.head = (s.q.map Prod.fst).head? := by
  have := h.seg
  rw [St.chain] at this
  obtain ⟨-, h3⟩ := this
  cases hq : s.q.map Prod.fst with
  | nil => rw [hq] at h3; exact h3
  | cons y l => rw [hq] at h3; exact h3.1

/-- The tail moves to its successor. -/
theorem Inv.swing {s s' : St N V n} (h : Inv s) (t : Fin n) (pc : PC N V) (hth : s'.th = upd s.th t pc)
    (h1 : s'.next = s.next) (h2 : s'.head = s.head) (h4 : s'.q = s.q) (h5 : s'.val = s.val)
    (hn : s.next s.tail = some s'.tail) (hpr : ∀ x, preparing pc x → preparing (s.th t) x)
    (hkn : ∀ x, ¬ knows pc x) (hl : ∀ s'' : St N V n, s''.val = s.val → s''.next = s.next → Loc s'' pc) :
    Inv s' := by
  have hc : s'.chain = s.chain := by simp [St.chain, h2, h4]
  obtain ⟨hm, hne⟩ := h.next_mem h.tail hn
  refine h.mk' t pc hth ?_ ?_ ?_ ?_ hpr ?_ ?_ ?_ ?_ ?_
  · rw [h1, h2, hc]; exact h.seg
  · rw [hc]; exact h.nodup
  · rw [h4, h5]; exact h.vals
  · rw [hc]; exact hm
  · intro x hx; rw [hc]; exact h.out t x (hpr x hx)
  · intro x hx; rw [hc] at hx; exact Or.inl hx
  · intro x hx; exact absurd hx (hkn x)
  · intro u _
    refine ⟨fun y _ _ => by rw [h1], fun y _ hy => Or.inl (by rw [hc]; exact hy),
      fun y _ hy => by rw [hc] at hy; exact hy, fun y _ hy => Or.inl (by rw [h2]; exact hy),
      fun _ _ _ _ _ => by rw [h2]; exact hne, fun x _ => ⟨by rw [h5], by rw [h1]⟩,
      fun y _ _ => by rw [h5]⟩
  · exact hl _ h5 h1

theorem again_prep {tr : Bool} {x y : N} {v : V} (h : preparing (again tr x v) y) : x = y := by
  unfold again at h; split at h
  · exact h.elim
  · exact h

theorem again_knows {tr : Bool} {x y : N} {v : V} : ¬ knows (again tr x v) y := by
  unfold again; split <;> exact id

theorem again_loc {s : St N V n} {tr : Bool} {x : N} {v : V} (h : Rdy s x v) : Loc s (again tr x v) := by
  unfold again; split
  · trivial
  · exact h

theorem dagain_prep {tr : Bool} {y : N} : ¬ preparing (dagain tr : PC N V) y := by
  unfold dagain; split <;> exact id

theorem dagain_knows {tr : Bool} {y : N} : ¬ knows (dagain tr : PC N V) y := by
  unfold dagain; split <;> exact id

theorem dagain_loc {s : St N V n} {tr : Bool} : Loc s (dagain tr : PC N V) := by
  unfold dagain; split <;> trivial

theorem Inv.run {s s' : St N V n} (h : Inv s) {t : Fin n} (hs : Mpmc.run s t = some s') : Inv s' := by
  have hl := h.loc t
  unfold Mpmc.run at hs
  cases hp : s.th t with
  | idle => rw [hp] at hs; cases hs
  | ret r => rw [hp] at hs; cases hs
  | enqV tr x v =>
    simp only [hp] at hs
    cases hs
    have hpx : preparing (s.th t) x := by rw [hp]; rfl
    have hx := h.out t x hpx
    have hne : ∀ y ∈ s.chain, upd s.val x v y = s.val y := fun y hy => upd_ne _ _ (by rintro rfl; exact hx hy)
    refine h.mk' t _ rfl h.seg h.nodup ?_ h.tail (fun y hy => by rw [hp]; exact hy) ?_ (fun y hy => Or.inl hy)
      (fun y hy => hy.elim) ?_ (upd_same _ _ _)
    · intro p hpq
      show upd s.val x v p.1 = p.2
      rw [hne p.1 (by simp only [St.chain, List.mem_cons, List.mem_map]; exact Or.inr ⟨p, hpq, rfl⟩)]
      exact h.vals p hpq
    · intro y hy; cases hy; exact hx
    · intro u hu
      refine keep_same _ rfl rfl rfl rfl ?_ ?_
      · intro y hy
        exact upd_ne _ _ (by rintro rfl; exact hu (h.uniq u t _ hy hpx))
      · intro y hy
        exact hne y (h.next_mem (by simp [St.chain]) hy).1
  | enqP tr x v =>
    simp only [hp] at hs hl
    cases hs
    have hpx : preparing (s.th t) x := by rw [hp]; rfl
    have hx := h.out t x hpx
    refine h.mk' t _ rfl ((seg_upd hx).2 h.seg) h.nodup h.vals h.tail (fun y hy => by rw [hp]; exact hy) ?_
      (fun y hy => Or.inl hy) (fun y hy => hy.elim) ?_ ⟨hl, upd_same _ _ _⟩
    · intro y hy; cases hy; exact hx
    · intro u hu
      refine ⟨fun y hy _ => ?_, fun _ _ hy => Or.inl hy, fun _ _ hy => hy, fun _ _ hy => Or.inl hy,
        fun _ _ _ _ h => h, fun y hy => ⟨rfl, ?_⟩, fun _ _ _ => rfl⟩
      · exact upd_ne _ _ (by rintro rfl; exact h.sep t u _ hpx hy)
      · exact upd_ne _ _ (by rintro rfl; exact hu (h.uniq u t _ hy hpx))
  | enqG tr x v =>
    simp only [hp] at hs hl
    cases hs
    exact h.quiet t _ rfl rfl rfl rfl rfl rfl (fun y hy => by rw [hp]; exact hy) (fun y hy => hy.elim) hl
  | eTG tr x v =>
    simp only [hp] at hs hl
    cases hs
    exact h.quiet t _ rfl rfl rfl rfl rfl rfl (fun y hy => by rw [hp]; exact hy) (fun y hy => hy.elim) hl
  | eTP tr x v tg =>
    simp only [hp] at hs hl
    cases hs
    exact h.quiet t _ rfl rfl rfl rfl rfl rfl (fun y hy => by rw [hp]; exact hy)
      (fun y hy => by cases hy; exact Or.inr h.tail) ⟨hl, Or.inl h.tail⟩
  | eNG tr x v tg tp =>
    simp only [hp] at hs hl
    cases hs
    exact h.quiet t _ rfl rfl rfl rfl rfl rfl (fun y hy => by rw [hp]; exact hy)
      (fun y hy => by rw [hp]; exact Or.inl hy) hl
  | eNP tr x v tg tp ng =>
    simp only [hp] at hs hl
    cases hs
    exact h.quiet t _ rfl rfl rfl rfl rfl rfl (fun y hy => by rw [hp]; exact hy)
      (fun y hy => by rw [hp]; exact Or.inl hy) ⟨hl.1, hl.2, fun y hy => hy⟩
  | eCk tr x v tg tp ng np =>
    simp only [hp] at hs hl
    split at hs
    · split at hs
      · cases hs
        exact h.quiet t _ rfl rfl rfl rfl rfl rfl (fun y hy => by rw [hp]; exact hy)
          (fun y hy => by rw [hp]; exact Or.inl hy) ⟨hl.1, hl.2.1, hl.2.2 _ rfl⟩
      · cases hs
        exact h.quiet t _ rfl rfl rfl rfl rfl rfl (fun y hy => by rw [hp]; exact hy)
          (fun y hy => by rw [hp]; exact Or.inl hy) ⟨hl.1, hl.2.1⟩
    · cases hs
      exact h.quiet t _ rfl rfl rfl rfl rfl rfl (fun y hy => by rw [hp]; exact again_prep hy)
        (fun y hy => absurd hy again_knows) (again_loc hl.1)
  | eFwd tr x v tg tp y =>
    simp only [hp] at hs hl
    split at hs
    · next hc =>
      cases hs
      exact h.swing t _ rfl rfl rfl rfl rfl (by rw [hc.1]; exact hl.2.2)
        (fun y hy => by rw [hp]; exact again_prep hy) (fun y => again_knows)
        (fun s'' h1 h2 => again_loc ⟨by rw [h1]; exact hl.1.1, by rw [h2]; exact hl.1.2⟩)
    · cases hs
      exact h.quiet t _ rfl rfl rfl rfl rfl rfl (fun y hy => by rw [hp]; exact again_prep hy)
        (fun y hy => absurd hy again_knows) (again_loc hl.1)
  | eCas tr x v tg tp ng =>
    simp only [hp] at hs hl
    split at hs
    · next hc =>
      cases hs
      have hpx : preparing (s.th t) x := by rw [hp]; rfl
      have hx := h.out t x hpx
      obtain ⟨⟨hv, hxn⟩, hk⟩ := hl
      have htp : tp ∈ s.chain := by
        rcases hk with hk | hk
        · exact hk
        · exact absurd hc.1 hk
      obtain ⟨a, ha⟩ := h.last htp hc.1
      have hch : s.head :: (s.q ++ [(x, v)]).map Prod.fst = s.chain ++ [x] := by simp [St.chain]
      have hxt : x ≠ tp := by rintro rfl; exact hx htp
      have hnd := h.nodup
      have hta : tp ∉ a := by
        rw [ha, List.nodup_append] at hnd
        intro hm; exact hnd.2.2 _ hm _ (by simp) rfl
      refine h.mk' t _ rfl ?_ ?_ ?_ ?_ (fun y hy => hy.elim) (fun y hy => hy.elim) ?_ ?_ ?_ ?_
      · rw [St.chain]; simp only []; rw [hch, ha, List.append_assoc, seg_append]
        have hseg := h.seg
        rw [ha, seg_append] at hseg
        obtain ⟨m, h1, h2⟩ := hseg
        refine ⟨m, (seg_upd hta).2 h1, ?_⟩
        simp only [List.cons_append, List.nil_append]
        refine ⟨h2.1, ?_⟩
        simp only [upd_same]
        exact ⟨rfl, by rw [upd_ne _ _ hxt]; exact hxn⟩
      · rw [St.chain]; simp only []; rw [hch, List.nodup_append]
        exact ⟨h.nodup, by simp, by simp only [List.mem_singleton]; rintro a ha b rfl rfl; exact hx ha⟩
      · intro p hpq
        rcases List.mem_append.1 hpq with hpq | hpq
        · exact h.vals p hpq
        · rw [List.mem_singleton] at hpq; subst hpq; exact hv
      · rw [St.chain]; simp only []; rw [hch]; exact List.mem_append_left _ h.tail
      · intro y hy
        rw [St.chain] at hy; simp only [] at hy; rw [hch] at hy
        rcases List.mem_append.1 hy with hy | hy
        · exact Or.inl hy
        · rw [List.mem_singleton] at hy; subst hy; exact Or.inr hpx
      · intro y hy u hu
        cases hy
        exact h.sep u t tp hu (by rw [hp]; rfl)
      · intro u hu
        refine ⟨fun y hy hn => ?_, fun y _ hy => ?_, fun y hy hyc => ?_, fun _ _ hy => Or.inl hy,
          fun _ _ _ _ h => h, fun y hy => ⟨rfl, ?_⟩, fun _ _ _ => rfl⟩
        · exact upd_ne _ _ (by rintro rfl; exact hn hc.1)
        · left; rw [St.chain]; simp only []; rw [hch]; exact List.mem_append_left _ hy
        · rw [St.chain] at hyc; simp only [] at hyc; rw [hch] at hyc
          rcases List.mem_append.1 hyc with hyc | hyc
          · exact hyc
          · rw [List.mem_singleton] at hyc; subst hyc
            exact absurd hy (h.sep t u _ hpx)
        · exact upd_ne _ _ (by rintro rfl; exact h.out u _ hy htp)
      · refine ⟨Or.inr ?_, upd_same _ _ _⟩
        simp only [upd_same]; simp
    · cases hs
      exact h.quiet t _ rfl rfl rfl rfl rfl rfl (fun y hy => by rw [hp]; exact again_prep hy)
        (fun y hy => absurd hy again_knows) (again_loc hl.1)
  | eSw tr x tg tp =>
    simp only [hp] at hs hl
    split at hs
    · next hc =>
      cases hs
      exact h.swing t _ rfl rfl rfl rfl rfl (by rw [hc.1]; exact hl.2)
        (fun y hy => hy.elim) (fun y => id) (fun _ _ _ => trivial)
    · cases hs
      exact h.quiet t _ rfl rfl rfl rfl rfl rfl (fun y hy => hy.elim) (fun y hy => hy.elim) trivial
  | dHG tr =>
    simp only [hp] at hs
    cases hs
    exact h.quiet t _ rfl rfl rfl rfl rfl rfl (fun y hy => hy.elim) (fun y hy => hy.elim) trivial
  | dHP tr hg =>
    simp only [hp] at hs
    cases hs
    have hm : s.head ∈ s.chain := by simp [St.chain]
    exact h.quiet t _ rfl rfl rfl rfl rfl rfl (fun y hy => hy.elim) (fun y hy => by cases hy; exact Or.inr hm)
      ⟨Or.inl rfl, Or.inl hm⟩
  | dTG tr hg hp' =>
    simp only [hp] at hs hl
    cases hs
    exact h.quiet t _ rfl rfl rfl rfl rfl rfl (fun y hy => hy.elim) (fun y hy => by rw [hp]; exact Or.inl hy) hl
  | dTP tr hg hp' tg =>
    simp only [hp] at hs hl
    cases hs
    refine h.quiet t _ rfl rfl rfl rfl rfl rfl (fun y hy => hy.elim) (fun y hy => ?_)
      ⟨hl.1, hl.2, Or.inl h.tail, fun hne e => by rw [← e]; exact fun e' => hne e'.symm⟩
    rcases hy with rfl | rfl
    · left; rw [hp]; rfl
    · exact Or.inr h.tail
  | dNG tr hg hp' tg tp =>
    simp only [hp] at hs hl
    cases hs
    exact h.quiet t _ rfl rfl rfl rfl rfl rfl (fun y hy => hy.elim) (fun y hy => by rw [hp]; exact Or.inl hy) hl
  | dNP tr hg hp' tg tp =>
    simp only [hp] at hs hl
    split at hs
    · next he =>
      split at hs
      · cases hs
        exact h.quiet t _ rfl rfl rfl rfl rfl rfl (fun y hy => hy.elim) (fun y hy => hy.elim) trivial
      · next hn =>
        cases hs
        exact h.quiet t _ rfl rfl rfl rfl rfl rfl (fun y hy => hy.elim)
          (fun y hy => by rw [hp]; exact Or.inl (Or.inr hy)) ⟨hl.2.2.1, by rw [← he]; exact hn⟩
    · next he =>
      split at hs
      · cases hs
        exact h.quiet t _ rfl rfl rfl rfl rfl rfl (fun y hy => absurd hy dagain_prep)
          (fun y hy => absurd hy dagain_knows) dagain_loc
      · next hn =>
        cases hs
        exact h.quiet t _ rfl rfl rfl rfl rfl rfl (fun y hy => hy.elim)
          (fun y hy => by rw [hp]; exact Or.inl (Or.inl hy)) ⟨hl.1, hl.2.1, hn, hl.2.2.2 he⟩
  | dFwd tr tg tp y =>
    simp only [hp] at hs hl
    split at hs
    · next hc =>
      cases hs
      exact h.swing t _ rfl rfl rfl rfl rfl (by rw [hc.1]; exact hl.2)
        (fun y hy => absurd hy dagain_prep) (fun y => dagain_knows) (fun _ _ _ => dagain_loc)
    · cases hs
      exact h.quiet t _ rfl rfl rfl rfl rfl rfl (fun y hy => absurd hy dagain_prep)
          (fun y hy => absurd hy dagain_knows) dagain_loc
  | dV tr hg hp' y =>
    simp only [hp] at hs hl
    cases hs
    exact h.quiet t _ rfl rfl rfl rfl rfl rfl (fun y hy => hy.elim)
      (fun y hy => by rw [hp]; exact Or.inl hy) ⟨hl.1, hl.2.1, hl.2.2.1, hl.2.2.2, fun _ => rfl⟩
  | dCas tr hg hp' y v =>
    simp only [hp] at hs hl
    split at hs
    · next hc =>
      cases hs
      obtain ⟨hc, -⟩ := hc
      subst hc
      obtain ⟨-, -, hn, hpast, -⟩ := hl
      have htl := hpast rfl
      rw [h.next_head] at hn
      cases hq : s.q with
      | nil => rw [hq] at hn; cases hn
      | cons p l =>
        rw [hq] at hn; cases hn
        have hchain : s.chain = s.head :: (p.1 :: l.map Prod.fst) := by simp [St.chain, hq]
        have hseg := h.seg
        have hnd := h.nodup
        have htm := h.tail
        rw [hchain] at hseg hnd htm
        rw [List.nodup_cons] at hnd
        have hnx : s.next s.head = some p.1 := hseg.2.1
        refine h.mk' t _ rfl ?_ ?_ ?_ ?_ (fun y hy => hy.elim) (fun y hy => hy.elim) ?_ (fun y hy => hy.elim) ?_
          trivial
        · rw [St.chain]; simp only [List.tail_cons]
          have := hseg.2; rw [hnx] at this; exact this
        · rw [St.chain]; simp only [List.tail_cons]; exact hnd.2
        · intro p' hp'; exact h.vals p' (by rw [hq]; exact List.mem_cons_of_mem _ (by simpa using hp'))
        · rw [St.chain]; simp only [List.tail_cons]
          rcases List.mem_cons.1 htm with e | e
          · exact absurd e htl
          · exact e
        · intro y hy
          rw [St.chain] at hy; simp only [List.tail_cons] at hy
          left; rw [hchain]; exact List.mem_cons_of_mem _ hy
        · intro u hu
          have hout : s.head ∉ p.1 :: l.map Prod.fst := hnd.1
          refine ⟨fun _ _ _ => rfl, fun y _ hy => ?_, fun y _ hy => ?_, fun y _ hy => ?_, fun y _ h1 h2 => ?_,
            fun _ _ => ⟨rfl, rfl⟩, fun y h1 _ => rfl⟩
          · rw [hchain] at hy
            rcases List.mem_cons.1 hy with rfl | hy
            · right; simp only []; rw [hnx]; simp
            · left; rw [St.chain]; simp only [List.tail_cons]; exact hy
          · rw [St.chain] at hy; simp only [List.tail_cons] at hy
            rw [hchain]; exact List.mem_cons_of_mem _ hy
          · right; rw [St.chain]; simp only [List.tail_cons]; rw [hy]; exact hout
          · exfalso; simp only [] at h1
            exact hout (by rw [← h2, h1]; simp)
    · cases hs
      exact h.quiet t _ rfl rfl rfl rfl rfl rfl (fun y hy => absurd hy dagain_prep)
          (fun y hy => absurd hy dagain_knows) dagain_loc

theorem Inv.step {s s' : St N V n} (h : Inv s) {a : Act N V n} (hs : Mpmc.step True s a = some s') :
    Inv s' := by
  cases a with
  | run t => exact h.run hs
  | ret t =>
    simp only [Mpmc.step] at hs
    split at hs
    · cases hs
      exact h.quiet t _ rfl rfl rfl rfl rfl rfl (fun y hy => hy.elim) (fun y hy => hy.elim) trivial
    · cases hs
  | call t o =>
    simp only [Mpmc.step] at hs
    split at hs
    · next hp =>
      have key : ∀ tr x v, free True s x → Inv { s with th := upd s.th t (.enqV tr x v) } := by
        intro tr x v hf
        obtain ⟨f1, f2, f3⟩ := hf
        refine ⟨h.seg, h.nodup, h.vals, h.tail, ?_, ?_, ?_, ?_⟩
        · intro u y hu
          simp only [upd_apply] at hu
          split at hu
          · cases hu; exact f1
          · exact h.out u y hu
        · intro u w y hu hw
          simp only [upd_apply] at hu hw
          split at hu <;> split at hw
          · next a b => rw [a, b]
          · cases hu; exact absurd hw (f2 w)
          · cases hw; exact absurd hu (f2 u)
          · exact h.uniq u w y hu hw
        · intro u w y hu hw
          simp only [upd_apply] at hu hw
          split at hw
          · exact hw
          · split at hu
            · cases hu; exact f3 trivial w hw
            · exact h.sep u w y hu hw
        · intro u
          simp only [upd_apply]; split
          · trivial
          · exact (keep_same (s := s) _ rfl rfl rfl rfl (fun _ _ => rfl) (fun _ _ => rfl)).loc (h.loc u)
      cases o <;> simp only at hs
      · split at hs
        · next hf => cases hs; exact key _ _ _ hf
        · cases hs
      · split at hs
        · next hf => cases hs; exact key _ _ _ hf
        · cases hs
      · cases hs
        exact h.quiet t _ rfl rfl rfl rfl rfl rfl (fun y hy => hy.elim) (fun y hy => hy.elim) trivial
      · cases hs
        exact h.quiet t _ rfl rfl rfl rfl rfl rfl (fun y hy => hy.elim) (fun y hy => hy.elim) trivial
    · cases hs

omit [DecidableEq N] in
theorem Start.inv {d : N} {q : List (N × V)} {s : St N V n} (h : Start d q s) : Inv s := by
  have hch : s.chain = d :: q.map Prod.fst := by simp [St.chain, h.head, h.hq]
  refine ⟨?_, ?_, ?_, ?_, ?_, ?_, ?_, ?_⟩
  · rw [hch, h.head]; exact h.seg
  · rw [hch]; exact h.nodup
  · rw [h.hq]; exact h.vals
  · rw [hch]; exact List.mem_of_getLast? h.tail
  · intro t x hx; rw [h.idle t] at hx; exact hx.elim
  · intro t u x hx; rw [h.idle t] at hx; exact hx.elim
  · intro t u x hx; rw [h.idle t] at hx; exact hx.elim
  · intro t; rw [h.idle t]; trivial

variable {d : N} {q0 : List (N × V)} {s0 : St N V n}

theorem inv (h0 : Start d q0 s0) {s : St N V n} (h : (sys True s0).Reach s) : Inv s := by
  induction h with
  | init h => rw [h]; exact h0.inv
  | step _ hs ih => exact ih.step hs

/-! ## Simulation -/

def tryE (tr : Bool) (x : N) (v : V) : Op N V := if tr then .tryEnq x v else .enq x v
def tryD (tr : Bool) : Op N V := if tr then .tryDeq else .deq

def view : PC N V → TS (Op N V) (Res N V)
  | .idle => .idle
  | .enqV tr x v | .enqP tr x v | .enqG tr x v | .eTG tr x v | .eTP tr x v _ | .eNG tr x v _ _
  | .eNP tr x v _ _ _ | .eCk tr x v _ _ _ _ | .eFwd tr x v _ _ _ | .eCas tr x v _ _ _ => .pend (tryE tr x v)
  | .eSw tr _ _ _ => .done (if tr then .flag true else .unit)
  | .dHG tr | .dHP tr _ | .dTG tr _ _ | .dTP tr _ _ _ | .dNG tr _ _ _ _ | .dNP tr _ _ _ _ | .dFwd tr _ _ _
  | .dV tr _ _ _ | .dCas tr _ _ _ _ => .pend (tryD tr)
  | .ret r => .done r

def abs (s : St N V n) : Abs (Fin n) (Op N V) (Res N V) (X N V) :=
  { x := { dummy := s.head, q := s.q }, th := fun t => view (s.th t) }

variable {x0 : X N V}

omit [DecidableEq N] in
theorem abs_skip {s s' : St N V n} (t : Fin n) {pc : PC N V} (h1 : s'.head = s.head) (h2 : s'.q = s.q)
    (h : s'.th = upd s.th t pc) (h3 : view pc = view (s.th t)) :
    AStar (fifo x0) (abs s) (none : Option (Ev (Fin n) (Op N V) (Res N V))).toList (abs s') := by
  refine .skip ?_
  simp only [abs, h1, h2, h]
  rw [upd_comp_same]
  exact h3

omit [DecidableEq N] in
theorem abs_lin {s s' : St N V n} (t : Fin n) {pc : PC N V} {o : Op N V} {r : Res N V}
    (h1 : view (s.th t) = .pend o) (h : s'.th = upd s.th t pc) (hv : view pc = .done r)
    (ha : (fifo x0).app (abs s).x o r (abs s').x) :
    AStar (fifo x0) (abs s) (none : Option (Ev (Fin n) (Op N V) (Res N V))).toList (abs s') := by
  refine .lin' (t := t) (o := o) (r := r) (x' := (abs s').x) h1 ha ?_
  simp only [abs, h, upd_comp, hv]

omit [DecidableEq N] in
/-- A failed attempt: another try, or the failure of a `try` operation. -/
theorem abs_again {s s' : St N V n} (t : Fin n) {tr : Bool} {x : N} {v : V} (h1 : s'.head = s.head)
    (h2 : s'.q = s.q) (h : s'.th = upd s.th t (again tr x v)) (hv : view (s.th t) = .pend (tryE tr x v)) :
    AStar (fifo x0) (abs s) (none : Option (Ev (Fin n) (Op N V) (Res N V))).toList (abs s') := by
  cases tr
  · exact abs_skip t h1 h2 h (by rw [hv]; rfl)
  · exact abs_lin t (o := .tryEnq x v) (r := .flag false) hv h rfl (by show X.mk _ _ = X.mk _ _; rw [h1, h2])

omit [DecidableEq N] in
theorem abs_dagain {s s' : St N V n} (t : Fin n) {tr : Bool} (h1 : s'.head = s.head)
    (h2 : s'.q = s.q) (h : s'.th = upd s.th t (dagain tr)) (hv : view (s.th t) = .pend (tryD tr)) :
    AStar (fifo x0) (abs s) (none : Option (Ev (Fin n) (Op N V) (Res N V))).toList (abs s') := by
  cases tr
  · exact abs_skip t h1 h2 h (by rw [hv]; rfl)
  · exact abs_lin t (o := .tryDeq) (r := .val none) hv h rfl (by show X.mk _ _ = X.mk _ _; rw [h1, h2])

omit [DecidableEq N] in
/-- An old head without successor is the dummy of an empty queue. -/
theorem Inv.empty {s : St N V n} (h : Inv s) {y : N} (hh : Hd s y) (hk : K s y) (hn : s.next y = none) :
    y = s.head ∧ s.q = [] := by
  have hc : y ∈ s.chain := by
    rcases hk with hk | hk
    · exact hk
    · exact absurd hn hk
  have e : y = s.head := by
    rcases hh with e | e
    · exact e
    · exact absurd hc e
  refine ⟨e, ?_⟩
  subst e
  rw [h.next_head] at hn
  cases hq : s.q with
  | nil => rfl
  | cons p l => rw [hq] at hn; cases hn

theorem sim_run {s s' : St N V n} (h : Inv s) {t : Fin n} (hs : Mpmc.run s t = some s') :
    AStar (fifo x0) (abs s) (none : Option (Ev (Fin n) (Op N V) (Res N V))).toList (abs s') := by
  have hl := h.loc t
  unfold Mpmc.run at hs
  cases hp : s.th t with
  | idle => rw [hp] at hs; cases hs
  | ret r => rw [hp] at hs; cases hs
  | enqV tr x v => simp only [hp] at hs; cases hs; exact abs_skip t rfl rfl rfl (by rw [hp]; rfl)
  | enqP tr x v => simp only [hp] at hs; cases hs; exact abs_skip t rfl rfl rfl (by rw [hp]; rfl)
  | enqG tr x v => simp only [hp] at hs; cases hs; exact abs_skip t rfl rfl rfl (by rw [hp]; rfl)
  | eTG tr x v => simp only [hp] at hs; cases hs; exact abs_skip t rfl rfl rfl (by rw [hp]; rfl)
  | eTP tr x v => simp only [hp] at hs; cases hs; exact abs_skip t rfl rfl rfl (by rw [hp]; rfl)
  | eNG tr x v => simp only [hp] at hs; cases hs; exact abs_skip t rfl rfl rfl (by rw [hp]; rfl)
  | eNP tr x v => simp only [hp] at hs; cases hs; exact abs_skip t rfl rfl rfl (by rw [hp]; rfl)
  | eCk tr x v tg tp ng np =>
    simp only [hp] at hs
    split at hs
    · split at hs <;> cases hs <;> exact abs_skip t rfl rfl rfl (by rw [hp]; rfl)
    · cases hs; exact abs_again t rfl rfl rfl (by rw [hp]; rfl)
  | eFwd tr x v tg tp y =>
    simp only [hp] at hs
    split at hs <;> cases hs <;> exact abs_again t rfl rfl rfl (by rw [hp]; rfl)
  | eCas tr x v tg tp ng =>
    simp only [hp] at hs
    split at hs
    · cases hs
      cases tr
      · exact abs_lin t (o := .enq x v) (by rw [hp]; rfl) rfl rfl rfl
      · exact abs_lin t (o := .tryEnq x v) (by rw [hp]; rfl) rfl rfl rfl
    · cases hs; exact abs_again t rfl rfl rfl (by rw [hp]; rfl)
  | eSw tr x tg tp =>
    simp only [hp] at hs
    split at hs <;> cases hs <;> exact abs_skip t rfl rfl rfl (by rw [hp]; rfl)
  | dHG tr => simp only [hp] at hs; cases hs; exact abs_skip t rfl rfl rfl (by rw [hp]; rfl)
  | dHP tr => simp only [hp] at hs; cases hs; exact abs_skip t rfl rfl rfl (by rw [hp]; rfl)
  | dTG tr => simp only [hp] at hs; cases hs; exact abs_skip t rfl rfl rfl (by rw [hp]; rfl)
  | dTP tr => simp only [hp] at hs; cases hs; exact abs_skip t rfl rfl rfl (by rw [hp]; rfl)
  | dNG tr => simp only [hp] at hs; cases hs; exact abs_skip t rfl rfl rfl (by rw [hp]; rfl)
  | dV tr => simp only [hp] at hs; cases hs; exact abs_skip t rfl rfl rfl (by rw [hp]; rfl)
  | dNP tr hg hp' tg tp =>
    simp only [hp] at hs hl
    split at hs
    · split at hs
      · next hn =>
        cases hs
        obtain ⟨-, hq⟩ := h.empty hl.1 hl.2.1 hn
        cases tr
        · exact abs_lin t (o := .deq) (by rw [hp]; rfl) rfl rfl ⟨hq, rfl⟩
        · exact abs_lin t (o := .tryDeq) (by rw [hp]; rfl) rfl rfl rfl
      · cases hs; exact abs_skip t rfl rfl rfl (by rw [hp]; rfl)
    · split at hs
      · cases hs; exact abs_dagain t rfl rfl rfl (by rw [hp]; rfl)
      · cases hs; exact abs_skip t rfl rfl rfl (by rw [hp]; rfl)
  | dFwd tr tg tp y =>
    simp only [hp] at hs
    split at hs <;> cases hs <;> exact abs_dagain t rfl rfl rfl (by rw [hp]; rfl)
  | dCas tr hg hp' y v =>
    simp only [hp] at hs hl
    split at hs
    · next hc =>
      cases hs
      obtain ⟨hc, -⟩ := hc
      subst hc
      obtain ⟨-, -, hn, -, hv⟩ := hl
      have hv := hv rfl
      rw [h.next_head] at hn
      cases hq : s.q with
      | nil => rw [hq] at hn; cases hn
      | cons p l =>
        rw [hq] at hn; cases hn
        have hpv := h.vals p (by simp [hq])
        have hpe : p = (p.1, v) := by rw [← hv, hpv]
        cases tr
        · refine abs_lin t (o := .deq) (by rw [hp]; rfl) rfl rfl ?_
          simp only [fifo, abs]; exact ⟨p.1, l, by rw [hq, ← hpe], trivial, by simp [hq]⟩
        · refine abs_lin t (o := .tryDeq) (by rw [hp]; rfl) rfl rfl ?_
          simp only [fifo, abs]; exact ⟨p.1, l, by rw [hq, ← hpe], trivial, by simp [hq]⟩
    · cases hs; exact abs_dagain t rfl rfl rfl (by rw [hp]; rfl)

theorem sim_step {s s' : St N V n} (h : Inv s) {a : Act N V n} (hs : step True s a = some s') :
    AStar (fifo x0) (abs s) (obs s a).toList (abs s') := by
  cases a with
  | run t => exact sim_run h hs
  | ret t =>
    simp only [step] at hs
    split at hs
    · next r hp =>
      cases hs
      simp only [obs, hp]
      exact .ret' (by simp [abs, hp, view]) (by simp only [abs, upd_comp]; rfl)
    · cases hs
  | call t o =>
    simp only [step] at hs
    split at hs
    · next hp =>
      have key : ∀ pc : PC N V, view pc = .pend o → s' = { s with th := upd s.th t pc } →
          AStar (fifo x0) (abs s) (obs s (.call t o)).toList (abs s') := by
        intro pc hv he
        subst he
        exact .call' (by simp [abs, hp, view]) (by simp only [abs, upd_comp, hv])
      cases o <;> simp only at hs
      · split at hs
        · cases hs; exact key _ rfl rfl
        · cases hs
      · split at hs
        · cases hs; exact key _ rfl rfl
        · cases hs
      · cases hs; exact key _ rfl rfl
      · cases hs; exact key _ rfl rfl
    · cases hs

/-- **C36, partial.**  Provided that no entry is enqueued while a running operation holds it as a snapshot
of `head` or `tail`, the fifo is linearizable to a FIFO queue: any number of threads, any wrap of the
generations.  The full claim allows to reuse an entry as soon as it is handed back; it is false
(`dequeue_reuse_wrong`, `enqueue_reuse_wrong`). -/
theorem linearizable_partial (h0 : Start d q0 s0) :
    Linearizable (sys True s0) obs (fifo { dummy := d, q := q0 }) := by
  refine linearizable_of_sim (fun s α => α = abs s) ?_ ?_
  · intro s hs
    have hs : s = s0 := hs
    subst hs
    refine ⟨_, rfl, ?_⟩
    simp only [abs, h0.head, h0.hq, h0.idle]; rfl
  · rintro s a s' α hre rfl hs
    exact ⟨_, sim_step (inv h0 hre) hs, rfl⟩

end Verif.Fifo.Mpmc
