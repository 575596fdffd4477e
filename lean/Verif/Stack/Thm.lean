import Verif.Stack.Stack

/-! # `ck_stack`: linearizability -/

namespace Verif.Stack

open Verif Verif.Lin

variable {N : Type} [DecidableEq N] {n : Nat}

/-! ## Invariant -/

/-- What the mode lets a thread do. -/
def allowed (m : Mode) : PC N → Prop
  | .pop _ | .popN _ _ _ | .popC _ _ _ _ => m = .upmc
  | .mp _ | .mpH _ _ _ _ | .mpN _ _ _ _ _ | .mpC _ _ _ _ _ _ => m ≠ .upmc
  | .bat | .walk _ _ _ => m ≠ .mpmc
  | _ => True

def Loc (m : Mode) (s : St N n) : PC N → Prop
  | .pshW _ _ e g => g ≤ s.ver ∧ (g = s.ver → s.head = e)
  | .pshC _ x e g => g ≤ s.ver ∧ (g = s.ver → s.head = e) ∧ s.next x = e
  | .popN _ e g => g ≤ s.ver ∧ (g = s.ver → s.head = some e)
  | .popC _ e nx g => g ≤ s.ver ∧ (g = s.ver → s.head = some e) ∧ (e ∈ s.stk → s.next e = nx)
  | .walk full acc cur => acc.reverse = full.take acc.length ∧ Seg s.next cur (full.drop acc.length) none ∧
      full.Nodup
  | .mpH _ gn gg g => g ≤ s.ver ∧ (g = s.ver → s.gen = gn) ∧ gn = BitVec.ofNat 64 gg ∧ gg ≤ s.G
  | .mpN _ gn gg g e => g ≤ s.ver ∧ (g = s.ver → s.gen = gn ∧ s.head = some e) ∧
      gn = BitVec.ofNat 64 gg ∧ gg ≤ s.G ∧ (m = .mpmc → gg = s.G → e ∈ s.stk)
  | .mpC _ gn gg g e nx => g ≤ s.ver ∧ (g = s.ver → s.gen = gn ∧ s.head = some e) ∧
      gn = BitVec.ofNat 64 gg ∧ gg ≤ s.G ∧ (m = .mpmc → gg = s.G → e ∈ s.stk ∧ s.next e = nx) ∧
      (m.strict → e ∈ s.stk → s.next e = nx)
  | _ => True

structure Inv (m : Mode) (s : St N n) : Prop where
  seg : Seg s.next s.head s.stk none
  nodup : s.stk.Nodup
  gen : s.gen = BitVec.ofNat 64 s.G
  out : ∀ t x, holds (s.th t) x → x ∉ s.stk
  uniq : ∀ t u x, holds (s.th t) x → holds (s.th u) x → t = u
  saw : m.strict → ∀ t u x, saw (s.th t) x → ¬ pushing (s.th u) x
  ok : ∀ t, allowed m (s.th t)
  loc : ∀ t, Loc m s (s.th t)

theorem pushing_holds {pc : PC N} {x : N} (h : pushing pc x) : holds pc x := by
  cases pc <;> first | exact h | exact h.elim

/-- A step of `t` that leaves the memory alone. -/
theorem Inv.quiet {m : Mode} {s : St N n} (h : Inv m s) (t : Fin n) (pc : PC N)
    (hh : ∀ x, holds pc x → holds (s.th t) x) (hpu : ∀ x, pushing pc x → pushing (s.th t) x)
    (hsw : m.strict → ∀ x, Stack.saw pc x → ∀ u, u ≠ t → ¬ pushing (s.th u) x)
    (hsw' : ∀ x, Stack.saw pc x → ¬ pushing pc x)
    (ho : allowed m pc) (hl : Loc m s pc) : Inv m { s with th := upd s.th t pc } where
  seg := h.seg
  nodup := h.nodup
  gen := h.gen
  out u x hx := by
    simp only [upd_apply] at hx
    split at hx
    · exact h.out t x (hh x hx)
    · exact h.out u x hx
  uniq u v x hu hv := by
    simp only [upd_apply] at hu hv
    split at hu <;> split at hv
    · next a b => rw [a, b]
    · next a b => rw [a]; exact h.uniq t v x (hh x hu) hv
    · next a b => rw [b]; exact h.uniq u t x hu (hh x hv)
    · exact h.uniq u v x hu hv
  saw hm u v x hu hv := by
    simp only [upd_apply] at hu hv
    split at hu <;> split at hv
    · exact hsw' x hu hv
    · next a b => exact hsw hm x hu v b hv
    · exact h.saw hm u t x hu (hpu x hv)
    · exact h.saw hm u v x hu hv
  ok u := by
    simp only [upd_apply]; split
    · exact ho
    · exact h.ok u
  loc u := by
    simp only [upd_apply]
    have : ∀ pc' : PC N, Loc m s pc' → Loc m { s with th := upd s.th t pc } pc' := by
      intro pc' h; cases pc' <;> exact h
    split
    · exact this _ hl
    · exact this _ (h.loc u)

/-- Locals of other threads when `next` of an entry outside their sight changes. -/
theorem Loc.next {m : Mode} {s : St N n} (h : Inv m s) {t u : Fin n} (htu : u ≠ t) {x : N} {e : Option N}
    (hp : pushing (s.th t) x) (th : Fin n → PC N) :
    Loc m { s with next := upd s.next x e, th := th } (s.th u) := by
  have hl := h.loc u
  have hx : x ∉ s.stk := h.out t x (pushing_holds hp)
  have hne : ∀ y ∈ s.stk, upd s.next x e y = s.next y := fun y hy => upd_ne _ _ (by rintro rfl; exact hx hy)
  have hho : ¬ holds (s.th u) x := fun hc => htu (h.uniq u t x hc (pushing_holds hp))
  cases hpu : s.th u with
  | pshC tr y e' g =>
    rw [hpu] at hl hho
    refine ⟨hl.1, hl.2.1, ?_⟩
    show upd s.next x e y = e'
    rw [upd_ne _ _ (by rintro rfl; exact hho rfl)]
    exact hl.2.2
  | popC tr y nx g =>
    rw [hpu] at hl
    refine ⟨hl.1, hl.2.1, fun hy => ?_⟩
    show upd s.next x e y = nx
    rw [hne y hy]; exact hl.2.2 hy
  | walk full acc cur =>
    rw [hpu] at hl hho
    exact ⟨hl.1, (seg_upd hho).2 hl.2.1, hl.2.2⟩
  | mpC tr gn gg g y nx =>
    rw [hpu] at hl
    refine ⟨hl.1, hl.2.1, hl.2.2.1, hl.2.2.2.1, fun hm hg => ?_, fun hm h1 => ?_⟩
    · obtain ⟨h1, h2⟩ := hl.2.2.2.2.1 hm hg
      exact ⟨h1, by show upd s.next x e y = nx; rw [hne y h1]; exact h2⟩
    · show upd s.next x e y = nx
      rw [hne y h1]; exact hl.2.2.2.2.2 hm h1
  | pshW => rw [hpu] at hl; exact hl
  | popN => rw [hpu] at hl; exact hl
  | mpH => rw [hpu] at hl; exact hl
  | mpN => rw [hpu] at hl; exact hl
  | _ => trivial

/-- Locals of other threads when `head` and the content change.  `hG`: while the generation stays, the
content only grows. -/
theorem Loc.swap {m : Mode} {s s' : St N n} (h : Inv m s) (u : Fin n) (hv : s'.ver = s.ver + 1)
    (hn : s'.next = s.next) (hG1 : s.G ≤ s'.G)
    (hG : m = .mpmc → s'.G = s.G → ∀ x ∈ s.stk, x ∈ s'.stk)
    (hst : m.strict → ∀ x, Stack.saw (s.th u) x → x ∈ s'.stk → x ∈ s.stk) :
    Loc m s' (s.th u) := by
  have hl := h.loc u
  have hok := h.ok u
  cases hpu : s.th u with
  | pshW => rw [hpu] at hl; exact ⟨by have := hl.1; omega, fun e => by have := hl.1; omega⟩
  | pshC =>
    rw [hpu] at hl
    exact ⟨by have := hl.1; omega, fun e => by have := hl.1; omega, by rw [hn]; exact hl.2.2⟩
  | popN => rw [hpu] at hl; exact ⟨by have := hl.1; omega, fun e => by have := hl.1; omega⟩
  | popC tr y nx g =>
    rw [hpu] at hl hok hst
    refine ⟨by have := hl.1; omega, fun e => by have := hl.1; omega, fun hy => ?_⟩
    rw [hn]; exact hl.2.2 (hst (by rw [show m = .upmc from hok]; trivial) y rfl hy)
  | walk full acc cur => rw [hpu] at hl; exact ⟨hl.1, by rw [hn]; exact hl.2.1, hl.2.2⟩
  | mpH =>
    rw [hpu] at hl
    exact ⟨by have := hl.1; omega, fun e => by have := hl.1; omega, hl.2.2.1, by have := hl.2.2.2; omega⟩
  | mpN tr gn gg g y =>
    rw [hpu] at hl hok
    refine ⟨by have := hl.1; omega, fun e => by have := hl.1; omega, hl.2.2.1,
      by have := hl.2.2.2.1; omega, fun hm e => ?_⟩
    have h4 := hl.2.2.2.1
    exact hG hm (by omega) y (hl.2.2.2.2 hm (by omega))
  | mpC tr gn gg g y nx =>
    rw [hpu] at hl hok hst
    refine ⟨by have := hl.1; omega, fun e => by have := hl.1; omega, hl.2.2.1,
      by have := hl.2.2.2.1; omega, fun hm e => ?_, fun hm hy => ?_⟩
    · have h4 := hl.2.2.2.1
      obtain ⟨h5, h6⟩ := hl.2.2.2.2.1 hm (by omega)
      exact ⟨hG hm (by omega) y h5, by rw [hn]; exact h6⟩
    · rw [hn]; exact hl.2.2.2.2.2 hm (hst hm y rfl hy)
  | _ => trivial

/-- Content and one thread change; nobody comes to hold anything new except `t`. -/
theorem Inv.swap {m : Mode} {s s' : St N n} (h : Inv m s) (t : Fin n) (pc : PC N)
    (hth : s'.th = upd s.th t pc) (hv : s'.ver = s.ver + 1) (hn : s'.next = s.next) (hG1 : s.G ≤ s'.G)
    (hgen : s'.gen = BitVec.ofNat 64 s'.G) (hseg : Seg s'.next s'.head s'.stk none) (hnd : s'.stk.Nodup)
    (hG : m = .mpmc → s'.G = s.G → ∀ x ∈ s.stk, x ∈ s'.stk)
    (hnew : ∀ x ∈ s'.stk, x ∈ s.stk ∨ pushing (s.th t) x)
    (hpc : ∀ x, holds pc x → x ∈ s.stk) (hpo : ∀ x, holds pc x → x ∉ s'.stk) (hpp : ∀ x, ¬ pushing pc x)
    (hps : ∀ x, ¬ Stack.saw pc x) (ho : allowed m pc) (hl : Loc m s' pc) : Inv m s' where
  seg := hseg
  nodup := hnd
  gen := hgen
  out u x hx := by
    rw [hth, upd_apply] at hx
    split at hx
    · exact hpo x hx
    · next hne =>
      intro hc
      rcases hnew x hc with h1 | h1
      · exact h.out u x hx h1
      · exact hne (h.uniq u t x hx (pushing_holds h1))
  uniq u v x hu hv' := by
    rw [hth, upd_apply] at hu hv'
    split at hu <;> split at hv'
    · next a b => rw [a, b]
    · exact absurd (hpc x hu) (h.out v x hv')
    · exact absurd (hpc x hv') (h.out u x hu)
    · exact h.uniq u v x hu hv'
  saw hm u v x hu hv' := by
    rw [hth, upd_apply] at hu hv'
    split at hu
    · exact hps x hu
    · split at hv'
      · exact hpp x hv'
      · exact h.saw hm u v x hu hv'
  ok u := by
    rw [hth, upd_apply]; split
    · exact ho
    · exact h.ok u
  loc u := by
    rw [hth, upd_apply]; split
    · exact hl
    · refine Loc.swap h u hv hn hG1 hG ?_
      intro hm x hx hxs
      rcases hnew x hxs with h1 | h1
      · exact h1
      · exact absurd h1 (h.saw hm u t x hx)

theorem Inv.run {m : Mode} (hm : m ≠ .mpmcBatch) {s s' : St N n} (h : Inv m s) (hf : Fresh s) {t : Fin n}
    (hs : Stack.run s t = some s') : Inv m s' := by
  have hl := h.loc t
  have hok := h.ok t
  have hft := hf t
  have hsee : ∀ x, x ∈ s.stk → ∀ u, ¬ pushing (s.th u) x := fun x hx u hu => h.out u x (pushing_holds hu) hx
  unfold Stack.run at hs
  cases hp : s.th t with
  | idle => rw [hp] at hs; cases hs
  | ret r => rw [hp] at hs; cases hs
  | psh tr x =>
    simp only [hp] at hs
    cases hs
    exact h.quiet t _ (fun y hy => by rw [hp]; exact hy) (fun y hy => by rw [hp]; exact hy)
      (fun _ y hy => hy.elim) (fun y hy => hy.elim) trivial ⟨Nat.le_refl _, fun _ => rfl⟩
  | pshW tr x e g =>
    simp only [hp] at hs hl
    cases hs
    have hpx : pushing (s.th t) x := by rw [hp]; rfl
    have hx : x ∉ s.stk := h.out t x (pushing_holds hpx)
    have hq := h.quiet t (.pshC tr x s.head s.ver) (fun y hy => by rw [hp]; exact hy)
      (fun y hy => by rw [hp]; exact hy) (fun _ y hy => hy.elim) (fun y hy => hy.elim) trivial
    constructor
    · exact (seg_upd hx).2 h.seg
    · exact h.nodup
    · exact h.gen
    · intro u y hy
      simp only [upd_apply] at hy
      split at hy
      · next hu => exact h.out t y (by rw [hp]; exact hy)
      · exact h.out u y hy
    · intro u v y hu hv
      simp only [upd_apply] at hu hv
      have key : ∀ w, holds (if w = t then PC.pshC tr x e g else s.th w) y → holds (s.th w) y := by
        intro w hw
        split at hw
        · next e' => rw [e', hp]; exact hw
        · exact hw
      exact h.uniq u v y (key u hu) (key v hv)
    · intro hm' u v y hu hv
      simp only [upd_apply] at hu hv
      split at hu
      · exact hu
      · split at hv
        · exact h.saw hm' u t y hu (by rw [hp]; exact hv)
        · exact h.saw hm' u v y hu hv
    · intro u
      simp only [upd_apply]; split
      · trivial
      · exact h.ok u
    · intro u
      simp only [upd_apply]; split
      · exact ⟨hl.1, hl.2, upd_same _ _ _⟩
      · next hu => exact Loc.next h hu hpx _
  | pshC tr x e g =>
    simp only [hp] at hs hl
    have hpx : pushing (s.th t) x := by rw [hp]; rfl
    have hx : x ∉ s.stk := h.out t x (pushing_holds hpx)
    split at hs
    · next he =>
      cases hs
      refine h.swap t _ rfl rfl rfl (Nat.le_refl _) h.gen ?_ ?_ (fun _ _ y hy => List.mem_cons_of_mem _ hy)
        ?_ ?_ ?_ ?_ ?_ ?_ ?_
      · exact ⟨rfl, by rw [hl.2.2, ← he]; exact h.seg⟩
      · exact List.nodup_cons.2 ⟨hx, h.nodup⟩
      · intro y hy
        rcases List.mem_cons.1 hy with rfl | hy
        · exact Or.inr hpx
        · exact Or.inl hy
      · intro y hy; exact hy.elim
      · intro y hy; exact hy.elim
      · intro y hy; exact hy.elim
      · intro y hy; exact hy.elim
      · trivial
      · trivial
    · split at hs
      · cases hs
        exact h.quiet t _ (fun y hy => hy.elim) (fun y hy => hy.elim)
          (fun _ y hy => hy.elim) (fun y hy => hy.elim) trivial trivial
      · cases hs
        exact h.quiet t _ (fun y hy => by rw [hp]; exact hy) (fun y hy => by rw [hp]; exact hy)
          (fun _ y hy => hy.elim) (fun y hy => hy.elim) trivial ⟨Nat.le_refl _, fun _ => rfl⟩
  | pop tr =>
    simp only [hp] at hs
    rw [hp] at hok
    split at hs
    · cases hs
      exact h.quiet t _ (fun y hy => hy.elim) (fun y hy => hy.elim)
        (fun _ y hy => hy.elim) (fun y hy => hy.elim) trivial trivial
    · next e he =>
      cases hs
      have hmem : e ∈ s.stk := by
        have := h.seg; rw [he] at this
        cases hstk : s.stk with
        | nil => rw [hstk] at this; cases this
        | cons y l => rw [hstk] at this; obtain ⟨h1, -⟩ := this; cases h1; simp
      exact h.quiet t _ (fun y hy => hy.elim) (fun y hy => hy.elim)
        (fun _ y hy u _ => by cases hy; exact hsee e hmem u) (fun y hy hy' => hy') hok
        ⟨Nat.le_refl _, fun _ => he⟩
  | popN tr e g =>
    simp only [hp] at hs hl
    rw [hp] at hok
    cases hs
    exact h.quiet t _ (fun y hy => hy.elim) (fun y hy => hy.elim)
      (fun hm' y hy u _ => h.saw hm' t u y (by rw [hp]; exact hy)) (fun y hy hy' => hy') hok
      ⟨hl.1, hl.2, fun _ => rfl⟩
  | popC tr e nx g =>
    simp only [hp] at hs hl
    rw [hp] at hok
    split at hs
    · next he =>
      cases hs
      have hseg := h.seg
      have hnd := h.nodup
      rw [he] at hseg
      cases hstk : s.stk with
      | nil => rw [hstk] at hseg; cases hseg
      | cons y l =>
        rw [hstk] at hseg hnd
        obtain ⟨h1, h2⟩ := hseg
        cases h1
        refine h.swap t _ rfl rfl rfl (Nat.le_refl _) h.gen ?_ ?_ (fun hm' => by rw [show m = .upmc from hok] at hm'; cases hm')
          ?_ ?_ ?_ ?_ ?_ ?_ ?_
        · rw [hl.2.2 (by rw [hstk]; simp)] at h2; exact h2
        · exact (List.nodup_cons.1 hnd).2
        · intro z hz; exact Or.inl (by rw [hstk]; exact List.mem_cons_of_mem _ hz)
        · intro y hy; exact hy.elim
        · intro y hy; exact hy.elim
        · intro y hy; exact hy.elim
        · intro y hy; exact hy.elim
        · trivial
        · trivial
    · split at hs
      · cases hs
        exact h.quiet t _ (fun y hy => hy.elim) (fun y hy => hy.elim)
          (fun _ y hy => hy.elim) (fun y hy => hy.elim) trivial trivial
      · split at hs
        · cases hs
          exact h.quiet t _ (fun y hy => hy.elim) (fun y hy => hy.elim)
            (fun _ y hy => hy.elim) (fun y hy => hy.elim) trivial trivial
        · next e' he =>
          cases hs
          have hmem : e' ∈ s.stk := by
            have := h.seg; rw [he] at this
            cases hstk : s.stk with
            | nil => rw [hstk] at this; cases this
            | cons y l => rw [hstk] at this; obtain ⟨h1, -⟩ := this; cases h1; simp
          exact h.quiet t _ (fun y hy => hy.elim) (fun y hy => hy.elim)
            (fun _ y hy u _ => by cases hy; exact hsee _ hmem u) (fun y hy hy' => hy') hok
            ⟨Nat.le_refl _, fun _ => he⟩
  | bat =>
    simp only [hp] at hs
    rw [hp] at hok
    cases hs
    refine h.swap t _ rfl rfl rfl (Nat.le_refl _) h.gen rfl List.nodup_nil ?_ ?_ ?_ ?_ ?_ ?_ ?_ ?_
    · intro hm'; exact absurd hm' hok
    · intro y hy; cases hy
    · intro y hy; simpa [holds] using hy
    · intro y hy; simp
    · intro y hy; exact hy.elim
    · intro y hy; exact hy.elim
    · exact hok
    · exact ⟨rfl, h.seg, h.nodup⟩
  | walk full acc cur =>
    simp only [hp] at hs hl
    rw [hp] at hok
    split at hs
    · cases hs
      exact h.quiet t _ (fun y hy => hy.elim) (fun y hy => hy.elim)
        (fun _ y hy => hy.elim) (fun y hy => hy.elim) trivial trivial
    · next e =>
      cases hs
      obtain ⟨l1, l2, l3⟩ := hl
      have hd : ∃ l, full.drop acc.length = e :: l := by
        cases hdr : full.drop acc.length with
        | nil => rw [hdr] at l2; cases l2
        | cons y l => rw [hdr] at l2; obtain ⟨h1, -⟩ := l2; cases h1; exact ⟨l, rfl⟩
      obtain ⟨l, hd⟩ := hd
      have hd' : full.drop (acc.length + 1) = l := by
        rw [← List.drop_drop, hd]; rfl
      refine h.quiet t _ (fun y hy => ?_) (fun y hy => hy.elim)
        (fun _ y hy => hy.elim) (fun y hy => hy.elim) hok ⟨?_, ?_, l3⟩
      · rw [hp]
        simp only [holds, List.length_cons, hd'] at hy
        simp only [holds, hd]; exact List.mem_cons_of_mem _ hy
      · simp only [List.reverse_cons, List.length_cons, l1]
        rw [List.take_add_one]
        congr 1
        have : full[acc.length]? = some e := by
          have := congrArg List.head? hd
          simpa [List.head?_drop] using this
        rw [this]; rfl
      · simp only [List.length_cons, hd']
        rw [hd] at l2; exact l2.2
  | mp tr =>
    simp only [hp] at hs
    rw [hp] at hok
    cases hs
    exact h.quiet t _ (fun y hy => hy.elim) (fun y hy => hy.elim)
      (fun _ y hy => hy.elim) (fun y hy => hy.elim) hok ⟨Nat.le_refl _, fun _ => rfl, h.gen, Nat.le_refl _⟩
  | mpH tr gn gg g =>
    simp only [hp] at hs hl
    rw [hp] at hok
    split at hs
    · cases hs
      exact h.quiet t _ (fun y hy => hy.elim) (fun y hy => hy.elim)
        (fun _ y hy => hy.elim) (fun y hy => hy.elim) trivial trivial
    · next e he =>
      cases hs
      have hmem : e ∈ s.stk := by
        have := h.seg; rw [he] at this
        cases hstk : s.stk with
        | nil => rw [hstk] at this; cases this
        | cons y l => rw [hstk] at this; obtain ⟨h1, -⟩ := this; cases h1; simp
      exact h.quiet t _ (fun y hy => hy.elim) (fun y hy => hy.elim)
        (fun _ y hy u _ => by cases hy; exact hsee e hmem u) (fun y hy hy' => hy') hok
        ⟨hl.1, fun e => ⟨hl.2.1 e, he⟩, hl.2.2.1, hl.2.2.2, fun _ _ => hmem⟩
  | mpN tr gn gg g e =>
    simp only [hp] at hs hl
    rw [hp] at hok
    cases hs
    exact h.quiet t _ (fun y hy => hy.elim) (fun y hy => hy.elim)
      (fun hm' y hy u _ => h.saw hm' t u y (by rw [hp]; exact hy)) (fun y hy hy' => hy') hok
      ⟨hl.1, hl.2.1, hl.2.2.1, hl.2.2.2.1, fun hm' e => ⟨hl.2.2.2.2 hm' e, rfl⟩, fun _ _ => rfl⟩
  | mpC tr gn gg g e nx =>
    simp only [hp] at hs hl hft
    rw [hp] at hok
    split at hs
    · next he =>
      cases hs
      obtain ⟨he, hg⟩ := he
      obtain ⟨l1, l2, l3, l4, l5⟩ := hl
      have hgg : gg = s.G := by
        rw [h.gen, l3] at hg
        have := congrArg BitVec.toNat hg
        simp only [BitVec.toNat_ofNat] at this
        omega
      have hnx : e ∈ s.stk → s.next e = nx := by
        cases m with
        | upmc => exact absurd rfl hok
        | mpmc => exact fun _ => (l5.1 rfl hgg).2
        | mpmcBatch => exact absurd rfl hm
        | mpmcSafe => exact l5.2 trivial
      have hseg := h.seg
      have hnd := h.nodup
      rw [he] at hseg
      cases hstk : s.stk with
      | nil => rw [hstk] at hseg; cases hseg
      | cons y l =>
        rw [hstk] at hseg hnd
        obtain ⟨h1, h2⟩ := hseg
        cases h1
        refine h.swap t _ rfl rfl rfl (Nat.le_succ _) ?_ ?_ ?_ (fun _ hG => absurd hG (by simp))
          ?_ ?_ ?_ ?_ ?_ ?_ ?_
        · simp only []
          rw [l3, hgg]
          apply BitVec.eq_of_toNat_eq
          simp only [BitVec.toNat_add, BitVec.toNat_ofNat]; omega
        · rw [hnx (by rw [hstk]; simp)] at h2; exact h2
        · exact (List.nodup_cons.1 hnd).2
        · intro z hz; exact Or.inl (by rw [hstk]; exact List.mem_cons_of_mem _ hz)
        · intro y hy; exact hy.elim
        · intro y hy; exact hy.elim
        · intro y hy; exact hy.elim
        · intro y hy; exact hy.elim
        · trivial
        · trivial
    · split at hs
      · cases hs
        exact h.quiet t _ (fun y hy => hy.elim) (fun y hy => hy.elim)
          (fun _ y hy => hy.elim) (fun y hy => hy.elim) trivial trivial
      · split at hs
        · cases hs
          exact h.quiet t _ (fun y hy => hy.elim) (fun y hy => hy.elim)
            (fun _ y hy => hy.elim) (fun y hy => hy.elim) trivial trivial
        · next e' he =>
          cases hs
          have hmem : e' ∈ s.stk := by
            have := h.seg; rw [he] at this
            cases hstk : s.stk with
            | nil => rw [hstk] at this; cases this
            | cons y l => rw [hstk] at this; obtain ⟨h1, -⟩ := this; cases h1; simp
          exact h.quiet t _ (fun y hy => hy.elim) (fun y hy => hy.elim)
            (fun _ y hy u _ => by cases hy; exact hsee _ hmem u) (fun y hy hy' => hy') hok
            ⟨Nat.le_refl _, fun _ => ⟨rfl, he⟩, h.gen, Nat.le_refl _, fun _ _ => hmem⟩

theorem Inv.step {m : Mode} (hm : m ≠ .mpmcBatch) {s s' : St N n} (h : Inv m s) (hf : Fresh s)
    {a : Act N n} (hs : Stack.step m s a = some s') : Inv m s' := by
  cases a with
  | run t => exact h.run hm hf hs
  | ret t =>
    simp only [Stack.step] at hs
    split at hs
    · cases hs
      exact h.quiet t _ (fun y hy => hy.elim) (fun y hy => hy.elim)
        (fun _ y hy => hy.elim) (fun y hy => hy.elim) trivial trivial
    · cases hs
  | call t o =>
    simp only [Stack.step] at hs
    split at hs
    · next hp =>
      have key : ∀ x tr, free m s x → Inv m { s with th := upd s.th t (.psh tr x) } := by
        intro x tr hfr
        obtain ⟨f1, f2, f3⟩ := hfr
        constructor
        · exact h.seg
        · exact h.nodup
        · exact h.gen
        · intro u y hy
          simp only [upd_apply] at hy
          split at hy
          · cases hy; exact f1
          · exact h.out u y hy
        · intro u v y hu hv
          simp only [upd_apply] at hu hv
          split at hu <;> split at hv
          · next a b => rw [a, b]
          · cases hu; exact absurd hv (f2 v)
          · cases hv; exact absurd hu (f2 u)
          · exact h.uniq u v y hu hv
        · intro hm' u v y hu hv
          simp only [upd_apply] at hu hv
          split at hu
          · exact hu
          · split at hv
            · cases hv; exact f3 hm' u hu
            · exact h.saw hm' u v y hu hv
        · intro u
          simp only [upd_apply]; split
          · trivial
          · exact h.ok u
        · intro u
          simp only [upd_apply]; split
          · trivial
          · have := h.loc u
            cases hpu : s.th u <;> rw [hpu] at this <;> exact this
      have q : ∀ pc : PC N, (∀ x, ¬ holds pc x) → (∀ x, ¬ Stack.saw pc x) → allowed m pc → Loc m s pc →
          Inv m { s with th := upd s.th t pc } := by
        intro pc h1 h2 h3 h4
        exact h.quiet t pc (fun y hy => absurd hy (h1 y)) (fun y hy => absurd (pushing_holds hy) (h1 y))
          (fun _ y hy => absurd hy (h2 y)) (fun y hy => absurd hy (h2 y)) h3 h4
      cases o with
      | push x =>
        simp only at hs
        split at hs
        · next hf => cases hs; exact key x false hf
        · cases hs
      | tryPush x =>
        simp only at hs
        split at hs
        · next hf => cases hs; exact key x true hf
        · cases hs
      | pop =>
        simp only at hs; cases hs
        split
        · next hm' => exact q _ (fun _ h => h) (fun _ h => h) hm' trivial
        · next hm' => exact q _ (fun _ h => h) (fun _ h => h) hm' trivial
      | tryPop =>
        simp only at hs; cases hs
        split
        · next hm' => exact q _ (fun _ h => h) (fun _ h => h) hm' trivial
        · next hm' => exact q _ (fun _ h => h) (fun _ h => h) hm' trivial
      | batch =>
        simp only at hs
        split at hs
        · cases hs
        · next hm' => cases hs; exact q _ (fun _ h => h) (fun _ h => h) hm' trivial
    · cases hs

theorem Start.inv {X0 : List N} {s : St N n} (h : Start X0 s) (m : Mode) : Inv m s where
  seg := by rw [h.stk]; exact h.seg
  nodup := by rw [h.stk]; exact h.nodup
  gen := h.gen
  out t x hx := by rw [h.idle t] at hx; exact hx.elim
  uniq t u x hx := by rw [h.idle t] at hx; exact hx.elim
  saw _ t u x hx := by rw [h.idle t] at hx; exact hx.elim
  ok t := by rw [h.idle t]; trivial
  loc t := by rw [h.idle t]; trivial

/-- All executions from `s0`. -/
def sys (m : Mode) (s0 : St N n) : Sys (St N n) (Act N n) :=
  { init := fun s => s = s0, step := step m }

/-- The executions in which no generation snapshot gets `2 ^ 64` pops old. -/
def sysF (m : Mode) (s0 : St N n) : Sys (St N n) (Act N n) :=
  { init := fun s => s = s0, step := fun s a => if Fresh s then step m s a else none }

theorem fresh_upmc {s : St N n} (h : Inv .upmc s) : Fresh s := by
  intro t
  have := h.ok t
  cases hp : s.th t <;> simp only
  rw [hp] at this; exact absurd rfl this

theorem inv_upmc {X0 : List N} {s0 s : St N n} (h0 : Start X0 s0) (h : (sys .upmc s0).Reach s) :
    Inv .upmc s := by
  induction h with
  | init h => rw [h]; exact h0.inv _
  | step _ hs ih => exact ih.step (by decide) (fresh_upmc ih) hs

theorem inv_mpmc {m : Mode} (hm : m ≠ .mpmcBatch) {X0 : List N} {s0 s : St N n} (h0 : Start X0 s0)
    (h : (sysF m s0).Reach s) : Inv m s := by
  induction h with
  | init h => rw [h]; exact h0.inv _
  | step _ hs ih =>
    simp only [sysF] at hs
    split at hs
    · next hf => exact ih.step hm hf hs
    · cases hs

/-! ## Simulation -/

def tryP (tr : Bool) (x : N) : Op N := if tr then .tryPush x else .push x
def tryQ (tr : Bool) : Op N := if tr then .tryPop else .pop

def view : PC N → TS (Op N) (Res N)
  | .idle => .idle
  | .psh tr x | .pshW tr x _ _ | .pshC tr x _ _ => .pend (tryP tr x)
  | .pop tr | .popN tr _ _ | .popC tr _ _ _ | .mp tr | .mpH tr _ _ _ | .mpN tr _ _ _ _
  | .mpC tr _ _ _ _ _ => .pend (tryQ tr)
  | .bat => .pend .batch
  | .walk full _ _ => .done (.list full)
  | .ret r => .done r

def abs (s : St N n) : Abs (Fin n) (Op N) (Res N) (List N) :=
  { x := s.stk, th := fun t => view (s.th t) }

variable {X0 : List N}

omit [DecidableEq N] in
theorem abs_skip {s s' : St N n} {O : Obj (Op N) (Res N) (List N)} {t : Fin n} {pc : PC N}
    (h1 : s'.stk = s.stk) (h2 : s'.th = upd s.th t pc) (h3 : view pc = view (s.th t)) :
    AStar O (abs s) (none : Option (Ev (Fin n) (Op N) (Res N))).toList (abs s') := by
  refine .skip ?_
  simp only [abs, h1, h2]
  rw [upd_comp_same]
  exact h3

omit [DecidableEq N] in
theorem abs_lin {s s' : St N n} {O : Obj (Op N) (Res N) (List N)} {t : Fin n} {pc : PC N} {r : Res N}
    {o : Op N} (h1 : view (s.th t) = .pend o) (h2 : s'.th = upd s.th t pc) (hv : view pc = .done r)
    (h3 : O.app s.stk o r s'.stk) :
    AStar O (abs s) (none : Option (Ev (Fin n) (Op N) (Res N))).toList (abs s') := by
  refine .lin' (o := o) (t := t) (r := r) (x' := s'.stk) h1 h3 ?_
  simp only [abs, h2, upd_comp, hv]

theorem sim_run {m : Mode} {s s' : St N n} (h : Inv m s) {t : Fin n}
    (hs : Stack.run s t = some s') :
    AStar (lifo X0) (abs s) (none : Option (Ev (Fin n) (Op N) (Res N))).toList (abs s') := by
  have hl := h.loc t
  have hseg := h.seg
  have hnil : s.head = none → s.stk = [] := by
    intro he; rw [he] at hseg
    cases hstk : s.stk with
    | nil => rfl
    | cons y l => rw [hstk] at hseg; obtain ⟨h1, -⟩ := hseg; cases h1
  have hcons : ∀ e, s.head = some e → s.stk = e :: s.stk.tail := by
    intro e he; rw [he] at hseg
    cases hstk : s.stk with
    | nil => rw [hstk] at hseg; cases hseg
    | cons y l => rw [hstk] at hseg; obtain ⟨h1, -⟩ := hseg; cases h1; rfl
  have qn : ∀ tr, s.head = none → (lifo X0).app s.stk (tryQ tr) (.entry none) s.stk := by
    intro tr hh
    cases tr
    · exact ⟨hnil hh, rfl⟩
    · exact rfl
  have qs : ∀ tr e, s.head = some e → (lifo X0).app s.stk (tryQ tr) (.entry (some e)) s.stk.tail := by
    intro tr e he
    cases tr <;> exact hcons e he
  unfold Stack.run at hs
  cases hp : s.th t with
  | idle => rw [hp] at hs; cases hs
  | ret r => rw [hp] at hs; cases hs
  | psh tr x => simp only [hp] at hs; cases hs; exact abs_skip (t := t) rfl rfl (by rw [hp]; rfl)
  | pshW tr x e g => simp only [hp] at hs; cases hs; exact abs_skip (t := t) rfl rfl (by rw [hp]; rfl)
  | pshC tr x e g =>
    simp only [hp] at hs
    split at hs
    · cases hs
      cases tr
      · exact abs_lin (t := t) (o := .push x) (by rw [hp]; rfl) rfl rfl rfl
      · exact abs_lin (t := t) (o := .tryPush x) (by rw [hp]; rfl) rfl rfl rfl
    · split at hs
      · next htr =>
        subst htr; cases hs
        exact abs_lin (t := t) (o := .tryPush x) (by rw [hp]; rfl) rfl rfl rfl
      · cases hs; exact abs_skip (t := t) rfl rfl (by rw [hp]; rfl)
  | pop tr =>
    simp only [hp] at hs
    split at hs
    · next he => cases hs; exact abs_lin (t := t) (o := tryQ tr) (by rw [hp]; rfl) rfl rfl (qn tr he)
    · cases hs; exact abs_skip (t := t) rfl rfl (by rw [hp]; rfl)
  | popN tr e g => simp only [hp] at hs; cases hs; exact abs_skip (t := t) rfl rfl (by rw [hp]; rfl)
  | popC tr e nx g =>
    simp only [hp] at hs
    split at hs
    · next he => cases hs; exact abs_lin (t := t) (o := tryQ tr) (by rw [hp]; rfl) rfl rfl (qs tr e he)
    · split at hs
      · next htr =>
        subst htr; cases hs
        exact abs_lin (t := t) (o := .tryPop) (by rw [hp]; rfl) rfl rfl rfl
      · split at hs
        · next he => cases hs; exact abs_lin (t := t) (o := tryQ tr) (by rw [hp]; rfl) rfl rfl (qn tr he)
        · cases hs; exact abs_skip (t := t) rfl rfl (by rw [hp]; rfl)
  | bat =>
    simp only [hp] at hs; cases hs
    exact abs_lin (t := t) (o := .batch) (by rw [hp]; rfl) rfl rfl ⟨rfl, rfl⟩
  | walk full acc cur =>
    simp only [hp] at hs hl
    split at hs
    · cases hs
      refine abs_skip (t := t) rfl rfl ?_
      rw [hp]
      obtain ⟨l1, l2, -⟩ := hl
      have : full.drop acc.length = [] := by
        cases hd : full.drop acc.length with
        | nil => rfl
        | cons y l => rw [hd] at l2; obtain ⟨h1, -⟩ := l2; cases h1
      have hle : full.length ≤ acc.length := List.drop_eq_nil_iff.1 this
      simp only [view, l1, List.take_of_length_le hle]
    · cases hs; exact abs_skip (t := t) rfl rfl (by rw [hp]; rfl)
  | mp tr => simp only [hp] at hs; cases hs; exact abs_skip (t := t) rfl rfl (by rw [hp]; rfl)
  | mpH tr gn gg g =>
    simp only [hp] at hs
    split at hs
    · next he => cases hs; exact abs_lin (t := t) (o := tryQ tr) (by rw [hp]; rfl) rfl rfl (qn tr he)
    · cases hs; exact abs_skip (t := t) rfl rfl (by rw [hp]; rfl)
  | mpN tr gn gg g e => simp only [hp] at hs; cases hs; exact abs_skip (t := t) rfl rfl (by rw [hp]; rfl)
  | mpC tr gn gg g e nx =>
    simp only [hp] at hs
    split at hs
    · next he => cases hs; exact abs_lin (t := t) (o := tryQ tr) (by rw [hp]; rfl) rfl rfl (qs tr e he.1)
    · split at hs
      · next htr =>
        subst htr; cases hs
        exact abs_lin (t := t) (o := .tryPop) (by rw [hp]; rfl) rfl rfl rfl
      · split at hs
        · next he => cases hs; exact abs_lin (t := t) (o := tryQ tr) (by rw [hp]; rfl) rfl rfl (qn tr he)
        · cases hs; exact abs_skip (t := t) rfl rfl (by rw [hp]; rfl)

theorem sim_step {m : Mode} {s s' : St N n} (h : Inv m s) {a : Act N n}
    (hs : step m s a = some s') : AStar (lifo X0) (abs s) (obs s a).toList (abs s') := by
  cases a with
  | run t => exact sim_run h hs
  | ret t =>
    simp only [step] at hs
    split at hs
    · next r hp =>
      cases hs
      simp only [obs, hp]
      exact .ret' (by simp [abs, hp, view]) (by simp only [abs, upd_comp]; rfl)
    · cases hs
  | call t o =>
    simp only [step] at hs
    split at hs
    · next hp =>
      have key : ∀ pc : PC N, view pc = .pend o → s' = { s with th := upd s.th t pc } →
          AStar (lifo X0) (abs s) (obs s (.call t o)).toList (abs s') := by
        intro pc hv he
        subst he
        exact .call' (by simp [abs, hp, view]) (by simp only [abs, upd_comp, hv])
      cases o with
      | push x =>
        simp only at hs
        split at hs
        · cases hs; exact key _ rfl rfl
        · cases hs
      | tryPush x =>
        simp only at hs
        split at hs
        · cases hs; exact key _ rfl rfl
        · cases hs
      | pop => simp only at hs; cases hs; exact key _ (by split <;> rfl) rfl
      | tryPop => simp only at hs; cases hs; exact key _ (by split <;> rfl) rfl
      | batch =>
        simp only at hs
        split at hs
        · cases hs
        · cases hs; exact key _ rfl rfl
    · cases hs

omit [DecidableEq N] in
theorem abs_start {s : St N n} (h : Start X0 s) : abs s = { x := X0, th := fun _ => .idle } := by
  simp only [abs, h.stk, h.idle]; rfl

/-- **C32.**  Under the unique-producer discipline, the UPMC stack (with batch pops) is linearizable to a
LIFO stack. -/
theorem upmc_linearizable {s0 : St N n} (h0 : Start X0 s0) :
    Linearizable (sys .upmc s0) obs (lifo X0) := by
  refine linearizable_of_sim (fun s α => α = abs s) ?_ ?_
  · intro s hs; exact ⟨X0, rfl, by rw [hs, abs_start h0]⟩
  · rintro s a s' α hre rfl hs
    exact ⟨_, sim_step (inv_upmc h0 hre) hs, rfl⟩

/-- **C33.**  The MPMC stack is linearizable to a LIFO stack although entries may be pushed again as soon
as they are popped, even while other pops still hold their address. -/
theorem mpmc_linearizable {s0 : St N n} (h0 : Start X0 s0) :
    Linearizable (sysF .mpmc s0) obs (lifo X0) := by
  refine linearizable_of_sim (fun s α => α = abs s) ?_ ?_
  · intro s hs; exact ⟨X0, rfl, by rw [hs, abs_start h0]⟩
  · rintro s a s' α hre rfl hs
    simp only [sysF] at hs
    split at hs
    · exact ⟨_, sim_step (inv_mpmc (by decide) h0 hre) hs, rfl⟩
    · cases hs

/-- **C34, partial.**  Pops and batch pops of the MPMC variant may be mixed if the unique-producer
discipline is kept: no entry is pushed while a running pop holds its address.  The full claim allows
immediate reuse; it is false (`batch_pop_mpmc_aba`). -/
theorem mpmc_batch_linearizable_partial {s0 : St N n} (h0 : Start X0 s0) :
    Linearizable (sysF .mpmcSafe s0) obs (lifo X0) := by
  refine linearizable_of_sim (fun s α => α = abs s) ?_ ?_
  · intro s hs; exact ⟨X0, rfl, by rw [hs, abs_start h0]⟩
  · rintro s a s' α hre rfl hs
    simp only [sysF] at hs
    split at hs
    · exact ⟨_, sim_step (inv_mpmc (by decide) h0 hre) hs, rfl⟩
    · cases hs

/-- In a quiescent state of either variant, following the pointers from `head` gives the content. -/
theorem content {m : Mode} {s : St N n} (h : Inv m s) : Seg s.next s.head s.stk none := h.seg

/-- The compare-and-swap of a thread is about to fail. -/
def fails (s : St N n) : PC N → Prop
  | .pshC _ _ e _ => s.head ≠ e
  | .popC _ e _ _ => s.head ≠ some e
  | .mpC _ gn _ _ e _ => ¬ (s.head = some e ∧ s.gen = gn)
  | _ => False

/-- The number of writes to `head` the thread had seen. -/
def seen : PC N → Nat
  | .pshC _ _ _ g | .popC _ _ _ g | .mpC _ _ _ g _ _ => g
  | _ => 0

omit [DecidableEq N] in
/-- A `try` operation (or an attempt of a looping one) fails only if another thread wrote `head` since it
began. -/
theorem fail_overtaken {m : Mode} {s : St N n} (h : Inv m s) {t : Fin n} (hf : fails s (s.th t)) :
    seen (s.th t) < s.ver := by
  have hl := h.loc t
  cases hp : s.th t <;> rw [hp] at hf hl <;> first | exact hf.elim | skip
  · exact Nat.lt_of_le_of_ne hl.1 fun e => hf (hl.2.1 e)
  · exact Nat.lt_of_le_of_ne hl.1 fun e => hf (hl.2.1 e)
  · exact Nat.lt_of_le_of_ne hl.1 fun e => hf ⟨(hl.2.1 e).2, (hl.2.1 e).1⟩

end Verif.Stack
