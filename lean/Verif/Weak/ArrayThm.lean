import Verif.Weak.Array
import Verif.Core.Tactic

/-!
# Readers of a `ck_array` on relaxed memory: what they find (C97)

`Fits b L S`: whoever has view `S` finds the values `L` in buffer `b`.
-/

namespace Verif.Weak.Array

open Verif
open Fas (opt)

variable {V : Type} {k : Nat}

theorem values_eq : ∀ {x : List (Option V)} {l : List V}, values x = some l → x = l.map some
  | [], l, h => by simp [values] at h; subst h; rfl
  | a :: x, l, h => by
    simp only [values] at h
    split at h
    · next v r e =>
      simp only [Option.some.injEq] at h
      subst h
      simp [values_eq e]
    · simp at h

theorem content_of {m : Mem Loc (Val V)} {b c : Nat} {l : List V} (h : values (content m b c) = some l) :
    l.length = c ∧ ∀ j, j < l.length → (m.last (.val b j)).get = l[j]? := by
  have e := values_eq h
  have h1 : l.length = c := by
    have := congrArg List.length e
    simpa [content] using this.symm
  refine ⟨h1, fun j hj => ?_⟩
  have := congrArg (fun x => x[j]?) e
  rw [h1] at hj
  simp only [content, List.getElem?_map, List.getElem?_range hj, Option.map_some] at this
  rw [List.getElem?_eq_getElem (by omega)] at this ⊢
  simpa using this

def Fits (s : St V k) (b : Nat) (l : List V) (S : View Loc) : Prop :=
  ∀ j, j < l.length → ∀ c, S (.val b j) ≤ c → c ≤ s.mem.top (.val b j) → (s.mem.msg (.val b j) c).val.get = l[j]?

/-- Nothing has been committed in place since the last `sync`, if there is no fence `rd2`. -/
def Kn (fc : Fences) (s : St V k) (b : Nat) : Prop := fc.rd2 = true ∨ s.ipl ≤ b

/-- Whoever finds number `m` in buffer `b` with view `S` then, finds a content. -/
def Q (fc : Fences) (s : St V k) (t0 : Nat) (S : View Loc) (b m : Nat) : Prop :=
  m ≤ (s.mem.last (.n b)).toNat ∧ ∃ t, t0 ≤ t ∧ t ≤ s.now ∧ (s.hist t).length = m ∧ (Kn fc s t0 → Fits s b (s.hist t) S)

/-- What is known of the values once number `a` of `n_committed` is loaded. -/
def vw (fc : Fences) (v S : View Loc) : View Loc := if fc.rd2 then join S v else S

def Pc (fc : Fences) (s : St V k) (q : Rd V) : RPC V → Prop
  | .len b => b < s.nxt ∧ ∀ a, q.th.cur (.n b) ≤ a → a ≤ s.mem.top (.n b) →
      Q fc s q.b (vw fc (s.mem.msg (.n b) a).view q.th.cur) b (s.mem.msg (.n b) a).val.toNat
  | .vals b m acc => b < s.nxt ∧ acc.length ≤ m ∧ m ≤ (s.mem.last (.n b)).toNat ∧
      ∃ t, q.b ≤ t ∧ t ≤ s.now ∧ (s.hist t).length = m ∧
        (Kn fc s q.b → acc = ((s.hist t).take acc.length).map some ∧ Fits s b (s.hist t) q.th.cur)
  | .ret acc => ∃ t, q.b ≤ t ∧ t ≤ s.now ∧ (s.hist t).length = acc.length ∧ (Kn fc s q.b → acc = (s.hist t).map some)
  | _ => True

structure RInv (fc : Fences) (s : St V k) (q : Rd V) : Prop where
  wf : q.th.Wf s.mem
  bn : q.b ≤ s.now
  act : ∀ i, q.th.cur .active ≤ i → i ≤ s.mem.top .active → (s.mem.msg .active i).val.toNat < s.nxt ∧
    ∀ b, (s.mem.msg .active i).val.toNat = b → ∀ a, join q.th.cur (s.mem.msg .active i).view (.n b) ≤ a → a ≤ s.mem.top (.n b) →
      Q fc s q.b (vw fc (s.mem.msg (.n b) a).view (join q.th.cur (s.mem.msg .active i).view)) b (s.mem.msg (.n b) a).val.toNat
  pc : Pc fc s q q.pc

structure WInv (s : St V k) : Prop where
  mwf : s.mem.Wf
  wwf : s.w.Wf s.mem
  cur : ∀ l, s.w.cur l = s.mem.top l
  wr : ∀ l, s.w.wr l = s.mem.top l
  cn : s.cur < s.nxt
  len : (s.hist s.now).length = (s.mem.last (.n s.cur)).toNat
  fit : ∀ j, j < (s.hist s.now).length → (s.mem.last (.val s.cur j)).get = (s.hist s.now)[j]?
  ipl : s.ipl ≤ s.now

structure Inv (fc : Fences) (s : St V k) : Prop where
  w : WInv s
  r : ∀ r, RInv fc s (s.rd r)

theorem Fits.mono {s : St V k} {b : Nat} {l : List V} {S S' : View Loc} (h : Fits s b l S) (hS : ∀ y, S y ≤ S' y) : Fits s b l S' :=
  fun j hj c h1 h2 => h j hj c (Nat.le_trans (hS _) h1) h2

theorem Q.mono {fc : Fences} {s : St V k} {t0 b m : Nat} {S S' : View Loc} (h : Q fc s t0 S b m) (hS : ∀ y, S y ≤ S' y) : Q fc s t0 S' b m := by
  obtain ⟨h1, t, h2, h3, h4, h5⟩ := h
  exact ⟨h1, t, h2, h3, h4, fun hk => (h5 hk).mono hS⟩

theorem vw_mono {fc : Fences} {v S S' : View Loc} (h : ∀ y, S y ≤ S' y) (y : Loc) : vw fc v S y ≤ vw fc v S' y := by
  unfold vw
  split
  · exact join_le (Nat.le_trans (h y) (le_join_left _ _ _)) (le_join_right _ _ _)
  · exact h y

theorem le_vw (fc : Fences) (v S : View Loc) (y : Loc) : S y ≤ vw fc v S y := by
  unfold vw
  split
  · exact le_join_left _ _ _
  · exact Nat.le_refl _

/-! ## Steps of the writer -/

/-- What a step of the writer does for readers. -/
structure WStep (s s' : St V k) : Prop where
  top : ∀ y, s.mem.top y ≤ s'.mem.top y
  old : ∀ y i, i ≤ s.mem.top y → s'.mem.msg y i = s.mem.msg y i
  now : s.now ≤ s'.now
  hist : ∀ t, t ≤ s.now → s'.hist t = s.hist t
  ipl : s.ipl ≤ s'.ipl
  nxt : s.nxt ≤ s'.nxt
  lastn : ∀ b, b < s.nxt → (s.mem.last (.n b)).toNat ≤ (s'.mem.last (.n b)).toNat
  newv : ∀ b j c, b < s.nxt → s.mem.top (.val b j) < c → c ≤ s'.mem.top (.val b j) → (s.mem.last (.n b)).toNat ≤ j
  newn : ∀ b a, b < s.nxt → s.mem.top (.n b) < a → a ≤ s'.mem.top (.n b) →
    (s'.mem.msg (.n b) a).val.toNat = (s'.hist s'.now).length ∧ (s'.hist s'.now).length ≤ (s'.mem.last (.n b)).toNat ∧ s.now < s'.ipl ∧
      Fits s' b (s'.hist s'.now) (s'.mem.msg (.n b) a).view
  newa : ∀ i, s.mem.top .active < i → i ≤ s'.mem.top .active → (s'.mem.msg .active i).val.toNat < s'.nxt ∧
    ∀ b, (s'.mem.msg .active i).val.toNat = b →
      Fits s' b (s'.hist s'.now) (s'.mem.msg .active i).view ∧ ∀ a, (s'.mem.msg .active i).view (.n b) ≤ a → a ≤ s'.mem.top (.n b) →
        (s'.mem.msg (.n b) a).val.toNat = (s'.hist s'.now).length ∧ (s'.hist s'.now).length ≤ (s'.mem.last (.n b)).toNat

theorem WStep.kn {fc : Fences} {s s' : St V k} (h : WStep s s') {b : Nat} (hk : Kn fc s' b) : Kn fc s b :=
  hk.imp_right fun h1 => Nat.le_trans h.ipl h1

theorem Fits.wstep {s s' : St V k} {b : Nat} {l : List V} {S : View Loc} (hs : WStep s s') (h : Fits s b l S) (hb : b < s.nxt)
    (hl : l.length ≤ (s.mem.last (.n b)).toNat) : Fits s' b l S := by
  intro j hj c h1 h2
  by_cases ho : c ≤ s.mem.top (.val b j)
  · rw [hs.old _ _ ho]; exact h j hj c h1 ho
  · have := hs.newv b j c hb (by omega) h2; omega

theorem Q.wstep {fc : Fences} {s s' : St V k} {t0 b m : Nat} {S : View Loc} (hs : WStep s s') (h : Q fc s t0 S b m) (hb : b < s.nxt) : Q fc s' t0 S b m := by
  obtain ⟨h1, t, h2, h3, h4, h5⟩ := h
  refine ⟨Nat.le_trans h1 (hs.lastn b hb), t, h2, Nat.le_trans h3 hs.now, by rw [hs.hist t h3]; exact h4, fun hk => ?_⟩
  rw [hs.hist t h3]
  exact (h5 (hs.kn hk)).wstep hs hb (by omega)

theorem RInv.wstep {fc : Fences} {s s' : St V k} {q : Rd V} (h : RInv fc s q) (hs : WStep s s') : RInv fc s' q := by
  have hn := hs.now
  have hbn := h.bn
  have hQ : ∀ b S, b < s.nxt → (∀ a, S (.n b) ≤ a → a ≤ s.mem.top (.n b) → Q fc s q.b (vw fc (s.mem.msg (.n b) a).view S) b (s.mem.msg (.n b) a).val.toNat) →
      ∀ a, S (.n b) ≤ a → a ≤ s'.mem.top (.n b) → Q fc s' q.b (vw fc (s'.mem.msg (.n b) a).view S) b (s'.mem.msg (.n b) a).val.toNat := by
    intro b S hb h0 a h1 h2
    by_cases ho : a ≤ s.mem.top (.n b)
    · rw [hs.old _ _ ho]; exact (h0 a h1 ho).wstep hs hb
    · obtain ⟨c1, c2, c3, c4⟩ := hs.newn b a hb (by omega) h2
      refine ⟨by omega, s'.now, by omega, Nat.le_refl _, c1.symm, fun hk => ?_⟩
      rcases hk with hk | hk
      · refine c4.mono fun y => ?_
        simp only [vw, hk, if_true]
        exact le_join_right _ _ _
      · omega
  refine ⟨h.wf.mono hs.top, by omega, fun i h1 h2 => ?_, ?_⟩
  · by_cases ho : i ≤ s.mem.top .active
    · obtain ⟨c1, c2⟩ := h.act i h1 ho
      rw [hs.old _ _ ho]
      refine ⟨Nat.lt_of_lt_of_le c1 hs.nxt, fun b e => ?_⟩
      exact hQ b _ (e ▸ c1) (c2 b e)
    · obtain ⟨c1, c2⟩ := hs.newa i (by omega) h2
      refine ⟨c1, fun b e a e1 e2 => ?_⟩
      obtain ⟨c3, c4⟩ := c2 b e
      obtain ⟨c5, c6⟩ := c4 a (Nat.le_trans (le_join_right _ _ _) e1) e2
      refine ⟨by omega, s'.now, by omega, Nat.le_refl _, c5.symm, fun _ => c3.mono fun y => ?_⟩
      exact Nat.le_trans (le_join_right _ _ _) (le_vw _ _ _ _)
  · have hp := h.pc
    unfold Pc at hp ⊢
    split at hp
    · next b _ => exact ⟨Nat.lt_of_lt_of_le hp.1 hs.nxt, hQ b _ hp.1 hp.2⟩
    · next b m acc _ =>
      obtain ⟨c1, c2, c3, t, c4, c5, c6, c7⟩ := hp
      refine ⟨Nat.lt_of_lt_of_le c1 hs.nxt, c2, Nat.le_trans c3 (hs.lastn b c1), t, c4, by omega, by rw [hs.hist t c5]; exact c6, fun hk => ?_⟩
      rw [hs.hist t c5]
      exact ⟨(c7 (hs.kn hk)).1, (c7 (hs.kn hk)).2.wstep hs c1 (by omega)⟩
    · obtain ⟨t, c4, c5, c6, c7⟩ := hp
      refine ⟨t, c4, by omega, by rw [hs.hist t c5]; exact c6, fun hk => ?_⟩
      rw [hs.hist t c5]; exact c7 (hs.kn hk)
    · trivial

/-- A store that changes no content: to the active buffer beyond what is committed, or to the next buffer. -/
theorem WInv.plain {s : St V k} (h : WInv s) {l : Loc} {v : Val V}
    (hl : (∃ j, l = .val s.cur j ∧ (s.mem.last (.n s.cur)).toNat ≤ j) ∨ (∃ j, l = .val s.nxt j) ∨ l = .n s.nxt) :
    WInv (s.wput s.w l v) ∧ WStep s (s.wput s.w l v) := by
  have hp : Put s.mem (s.wput s.w l v).mem l v _ := Put.store s.mem s.w l v
  have hcn := h.cn
  have hlen := h.len
  have ea : l ≠ .active := by rcases hl with ⟨j, rfl, _⟩ | ⟨j, rfl⟩ | rfl <;> simp
  have en : ∀ b, b < s.nxt → l ≠ .n b := by
    intro b hb
    rcases hl with ⟨j, rfl, _⟩ | ⟨j, rfl⟩ | rfl
    · simp
    · simp
    · simp only [ne_eq, Loc.n.injEq]; omega
  have ev : ∀ b j, b < s.nxt → l = .val b j → (s.mem.last (.n b)).toNat ≤ j := by
    intro b j hb e
    rcases hl with ⟨j', e', h1⟩ | ⟨j', e'⟩ | e'
    · rw [e'] at e; simp only [Loc.val.injEq] at e; rw [← e.1, ← e.2]; exact h1
    · rw [e'] at e; simp only [Loc.val.injEq] at e; omega
    · rw [e'] at e; simp at e
  have ec : (s.wput s.w l v).cur = s.cur := by
    show ((s.wput s.w l v).mem.last _).toNat = _
    rw [hp.last, if_neg (Ne.symm ea)]; rfl
  have eln : ∀ b, b < s.nxt → (s.wput s.w l v).mem.last (.n b) = s.mem.last (.n b) := fun b hb => by
    rw [hp.last, if_neg (Ne.symm (en b hb))]
  refine ⟨⟨h.mwf.store h.wwf l v, h.wwf.store l v, fun y => ?_, fun y => ?_, ?_, ?_, ?_, h.ipl⟩, ⟨hp.top_le, hp.old, Nat.le_refl _, fun _ _ => rfl,
    Nat.le_refl _, Nat.le_refl _, ?_, ?_, ?_, ?_⟩⟩
  · rw [hp.top]; simp only [St.wput, Th.store, upd_apply]; split
    · rfl
    · exact h.cur y
  · rw [hp.top]; simp only [St.wput, Th.store, upd_apply]; split
    · rfl
    · exact h.wr y
  · rw [ec]; exact hcn
  · rw [ec, eln _ hcn]; exact hlen
  · intro j hj
    have hj' : j < (s.hist s.now).length := hj
    rw [ec, hp.last, if_neg (fun e => ?_)]
    · exact h.fit j hj
    · have := ev _ _ hcn e.symm; omega
  · intro b hb; rw [eln b hb]; exact Nat.le_refl _
  · intro b j c hb h1 h2
    rw [hp.top] at h2
    split at h2
    · next e => exact ev b j hb e.symm
    · omega
  · intro b a hb h1 h2
    rw [hp.top_ne (Ne.symm (en b hb))] at h2; omega
  · intro i h1 h2
    rw [hp.top_ne (Ne.symm ea)] at h2; omega

theorem WInv.commit {s : St V k} (h : WInv s) {m : Nat} {l : List V} (hm : (s.mem.last (.n s.cur)).toNat ≤ m)
    (hl : values (content s.mem s.cur m) = some l) :
    WInv { (s.wput s.w.fenceStore (.n s.cur) (.num m)).change l with ipl := s.now + 1 } ∧
      WStep s { (s.wput s.w.fenceStore (.n s.cur) (.num m)).change l with ipl := s.now + 1 } := by
  have hp : Put s.mem (s.wput s.w.fenceStore (.n s.cur) (.num m)).mem (.n s.cur) (.num m) _ := Put.store s.mem s.w.fenceStore _ _
  obtain ⟨hl1, hl2⟩ := content_of hl
  generalize es' : ({ (s.wput s.w.fenceStore (.n s.cur) (.num m)).change l with ipl := s.now + 1 } : St V k) = s'
  have e1 : s'.mem = (s.wput s.w.fenceStore (.n s.cur) (.num m)).mem := by subst es'; rfl
  have e2 : s'.w = s.w.fenceStore.store s.mem (.n s.cur) := by subst es'; rfl
  have e3 : s'.now = s.now + 1 := by subst es'; rfl
  have e4 : s'.nxt = s.nxt := by subst es'; rfl
  have e5 : s'.hist = upd s.hist (s.now + 1) l := by subst es'; rfl
  have e6 : s'.ipl = s.now + 1 := by subst es'; rfl
  have e7 : s'.cur = s.cur := by
    show (s'.mem.last _).toNat = _
    rw [e1, hp.last, if_neg (by simp)]; rfl
  have e8 : s'.hist s'.now = l := by rw [e5, e3, upd_same]
  have hv : ∀ b j, s'.mem.last (.val b j) = s.mem.last (.val b j) := fun b j => by rw [e1, hp.last, if_neg (by simp)]
  have hn : (s'.mem.last (.n s.cur)).toNat = l.length := by rw [e1, hp.last, if_pos rfl]; exact hl1.symm
  rw [← e1] at hp
  refine ⟨⟨?_, ?_, fun y => ?_, fun y => ?_, ?_, ?_, ?_, ?_⟩, ⟨hp.top_le, hp.old, by omega, ?_, ?_, by omega, ?_, ?_, ?_, ?_⟩⟩
  · rw [e1]; exact h.mwf.store h.wwf.fenceStore _ _
  · rw [e1, e2]; exact h.wwf.fenceStore.store _ _
  · rw [e2, hp.top]; simp only [Th.store, upd_apply]; split
    · rfl
    · exact h.cur y
  · rw [e2, hp.top]; simp only [Th.store, upd_apply]; split
    · rfl
    · exact h.wr y
  · rw [e7, e4]; exact h.cn
  · rw [e8, e7, hn]
  · intro j hj
    rw [e8] at hj ⊢
    rw [e7, hv]; exact hl2 j hj
  · omega
  · intro t ht; rw [e5, upd_ne _ _ (by omega)]
  · have := h.ipl; omega
  · intro b hb
    rw [hp.last]
    split
    · next e => simp only [Loc.n.injEq] at e; rw [e]; exact hm
    · exact Nat.le_refl _
  · intro b j c hb h1 h2
    rw [hp.top_ne (by simp)] at h2; omega
  · intro b a hb h1 h2
    rw [hp.top] at h2
    split at h2
    · next e =>
      simp only [Loc.n.injEq] at e
      subst e
      have ea : a = s.mem.top (.n s.cur) + 1 := by omega
      rw [e8, hn, ea, hp.new]
      refine ⟨hl1.symm, Nat.le_refl _, by omega, fun j hj c c1 c2 => ?_⟩
      have ht : s'.mem.top (.val s.cur j) = s.mem.top (.val s.cur j) := hp.top_ne (by simp)
      have hw : s.mem.top (.val s.cur j) ≤ c := by
        refine Nat.le_trans ?_ c1
        show s.mem.top (.val s.cur j) ≤ (upd (join s.w.rel s.w.wr) (.n s.cur) (s.mem.top (.n s.cur) + 1)) (.val s.cur j)
        rw [upd_ne _ _ (by simp), ← h.wr]
        exact le_join_right _ _ _
      have : c = s'.mem.top (.val s.cur j) := by omega
      rw [this, ← hl2 j hj, ← hv]; rfl
    · omega
  · intro i h1 h2
    rw [hp.top_ne (by simp)] at h2; omega

theorem WInv.publish {s : St V k} (h : WInv s) {l : List V} (hl : values (content s.mem s.nxt (s.mem.last (.n s.nxt)).toNat) = some l) :
    WInv { (s.wput s.w.fenceStore .active (.num s.nxt)).change l with nxt := s.nxt + 1 } ∧
      WStep s { (s.wput s.w.fenceStore .active (.num s.nxt)).change l with nxt := s.nxt + 1 } := by
  have hp : Put s.mem (s.wput s.w.fenceStore .active (.num s.nxt)).mem .active (.num s.nxt) _ := Put.store s.mem s.w.fenceStore _ _
  obtain ⟨hl1, hl2⟩ := content_of hl
  generalize es' : ({ (s.wput s.w.fenceStore .active (.num s.nxt)).change l with nxt := s.nxt + 1 } : St V k) = s'
  have e1 : s'.mem = (s.wput s.w.fenceStore .active (.num s.nxt)).mem := by subst es'; rfl
  have e2 : s'.w = s.w.fenceStore.store s.mem .active := by subst es'; rfl
  have e3 : s'.now = s.now + 1 := by subst es'; rfl
  have e4 : s'.nxt = s.nxt + 1 := by subst es'; rfl
  have e5 : s'.hist = upd s.hist (s.now + 1) l := by subst es'; rfl
  have e6 : s'.ipl = s.ipl := by subst es'; rfl
  have e7 : s'.cur = s.nxt := by
    show (s'.mem.last _).toNat = _
    rw [e1, hp.last, if_pos rfl]; rfl
  have e8 : s'.hist s'.now = l := by rw [e5, e3, upd_same]
  have hv : ∀ b j, s'.mem.last (.val b j) = s.mem.last (.val b j) := fun b j => by rw [e1, hp.last, if_neg (by simp)]
  have hn : ∀ b, s'.mem.last (.n b) = s.mem.last (.n b) := fun b => by rw [e1, hp.last, if_neg (by simp)]
  rw [← e1] at hp
  refine ⟨⟨?_, ?_, fun y => ?_, fun y => ?_, ?_, ?_, ?_, ?_⟩, ⟨hp.top_le, hp.old, by omega, ?_, by omega, by omega, ?_, ?_, ?_, ?_⟩⟩
  · rw [e1]; exact h.mwf.store h.wwf.fenceStore _ _
  · rw [e1, e2]; exact h.wwf.fenceStore.store _ _
  · rw [e2, hp.top]; simp only [Th.store, upd_apply]; split
    · rfl
    · exact h.cur y
  · rw [e2, hp.top]; simp only [Th.store, upd_apply]; split
    · rfl
    · exact h.wr y
  · rw [e7, e4]; omega
  · rw [e8, e7, hn, hl1]
  · intro j hj
    rw [e8] at hj ⊢
    rw [e7, hv]; exact hl2 j hj
  · have := h.ipl; omega
  · intro t ht; rw [e5, upd_ne _ _ (by omega)]
  · intro b hb; rw [hn]; exact Nat.le_refl _
  · intro b j c hb h1 h2
    rw [hp.top_ne (by simp)] at h2; omega
  · intro b a hb h1 h2
    rw [hp.top_ne (by simp)] at h2; omega
  · intro i h1 h2
    rw [hp.top, if_pos rfl] at h2
    have ei : i = s.mem.top .active + 1 := by omega
    have hw : ∀ y, y ≠ .active → s.mem.top y ≤ (s'.mem.msg .active i).view y := by
      intro y hy
      rw [ei, hp.new]
      show s.mem.top y ≤ (upd (join s.w.rel s.w.wr) .active (s.mem.top .active + 1)) y
      rw [upd_ne _ _ hy, ← h.wr]
      exact le_join_right _ _ _
    have eb : (s'.mem.msg .active i).val.toNat = s.nxt := by rw [ei, hp.new]; rfl
    refine ⟨by omega, fun b e => ?_⟩
    rw [eb] at e
    subst e
    rw [e8]
    refine ⟨fun j hj c c1 c2 => ?_, fun a a1 a2 => ?_⟩
    · have ht : s'.mem.top (.val s.nxt j) = s.mem.top (.val s.nxt j) := hp.top_ne (by simp)
      have := hw (.val s.nxt j) (by simp)
      have : c = s'.mem.top (.val s.nxt j) := by omega
      rw [this, ← hl2 j hj, ← hv]; rfl
    · have ht : s'.mem.top (.n s.nxt) = s.mem.top (.n s.nxt) := hp.top_ne (by simp)
      have := hw (.n s.nxt) (by simp)
      have ea : a = s'.mem.top (.n s.nxt) := by omega
      have e9 : (s'.mem.msg (.n s.nxt) a).val = s.mem.last (.n s.nxt) := by rw [ea, ← hn]; rfl
      rw [e9, hn]; omega

/-! ## Steps of a reader -/

/-- The reader learns something. -/
theorem RInv.th {fc : Fences} {s : St V k} {q q' : Rd V} (h : RInv fc s q) (hb : q'.b = q.b) (hf : q'.th.Wf s.mem)
    (hc : ∀ y, q.th.cur y ≤ q'.th.cur y) (hpc : Pc fc s q' q'.pc) : RInv fc s q' := by
  refine ⟨hf, hb ▸ h.bn, fun i h1 h2 => ?_, hpc⟩
  obtain ⟨c1, c2⟩ := h.act i (Nat.le_trans (hc _) h1) h2
  have hj : ∀ y, join q.th.cur (s.mem.msg .active i).view y ≤ join q'.th.cur (s.mem.msg .active i).view y := fun y =>
    join_le (Nat.le_trans (hc y) (le_join_left _ _ _)) (le_join_right _ _ _)
  refine ⟨c1, fun b e a e1 e2 => ?_⟩
  rw [hb]
  exact (c2 b e a (Nat.le_trans (hj _) e1) e2).mono (vw_mono hj)

theorem RInv.sync {fc : Fences} {s : St V k} {q : Rd V} (h : RInv fc s q) (hw : WInv s) (hpc : q.pc = .idle) :
    RInv fc s { q with th := { q.th with cur := join q.th.cur s.w.cur }, b := s.now } := by
  have ec : ∀ y, join q.th.cur s.w.cur y = s.mem.top y := fun y => by
    rw [join_apply, hw.cur]; exact Nat.max_eq_right (h.wf y).1
  refine ⟨fun y => ⟨Nat.le_of_eq (ec y), (h.wf y).2⟩, Nat.le_refl _, fun i h1 h2 => ?_, ?_⟩
  · replace h1 : join q.th.cur s.w.cur .active ≤ i := h1
    rw [ec] at h1
    have ei : i = s.mem.top .active := by omega
    subst ei
    refine ⟨hw.cn, fun b e a a1 a2 => ?_⟩
    have eb : s.cur = b := e
    subst eb
    replace a1 := Nat.le_trans (le_join_left (join q.th.cur s.w.cur) _ _) a1
    rw [ec] at a1
    have ea : a = s.mem.top (.n s.cur) := by omega
    subst ea
    refine ⟨Nat.le_refl _, s.now, Nat.le_refl _, Nat.le_refl _, hw.len, fun _ j hj c c1 c2 => ?_⟩
    replace c1 := Nat.le_trans (Nat.le_trans (le_join_left (join q.th.cur s.w.cur) _ _) (le_vw fc _ _ _)) c1
    rw [ec] at c1
    have : c = s.mem.top (.val s.cur j) := by omega
    subst this
    exact hw.fit j hj
  · show Pc fc s _ q.pc
    rw [hpc]; trivial

theorem RInv.load {fc : Fences} {s : St V k} {q : Rd V} (h : RInv fc s q) (hw : WInv s) (h1 : fc.rd1 = true) {i : Nat} (hm : q.th.may s.mem .active i) :
    RInv fc s { q with th := opt fc.rd1 Th.fenceLoad (q.th.load s.mem .active i), pc := .len (s.mem.msg .active i).val.toNat } := by
  simp only [h1, opt, if_true]
  have hf := (h.wf.load hw.mwf hm.2).fenceLoad
  have hc : ∀ y, q.th.cur y ≤ (q.th.load s.mem .active i).fenceLoad.cur y := fun y => Nat.le_trans (Th.load_cur_le _ _ _ _ _) (le_join_left _ _ _)
  have hj : ∀ y, join q.th.cur (s.mem.msg .active i).view y ≤ (q.th.load s.mem .active i).fenceLoad.cur y := fun y =>
    join_le (hc y) (Nat.le_trans (Th.load_view_le _ _ _ _ _) (le_join_right _ _ _))
  refine h.th rfl hf hc ?_
  obtain ⟨c1, c2⟩ := h.act i hm.1 hm.2
  exact ⟨c1, fun a a1 a2 => (c2 _ rfl a (Nat.le_trans (hj _) a1) a2).mono (vw_mono hj)⟩

theorem RInv.len {fc : Fences} {s : St V k} {q : Rd V} (h : RInv fc s q) (hw : WInv s) {b i : Nat} (hpc : q.pc = .len b) (hm : q.th.may s.mem (.n b) i) :
    RInv fc s { q with th := opt fc.rd2 Th.fenceLoad (q.th.load s.mem (.n b) i), pc := .vals b (s.mem.msg (.n b) i).val.toNat [] } := by
  have hp := h.pc
  rw [hpc] at hp
  have hl := h.wf.load hw.mwf hm.2
  have hv : ∀ y, vw fc (s.mem.msg (.n b) i).view q.th.cur y ≤ (opt fc.rd2 Th.fenceLoad (q.th.load s.mem (.n b) i)).cur y := by
    intro y
    unfold vw opt
    split
    · exact join_le (Nat.le_trans (Th.load_cur_le _ _ _ _ _) (le_join_left _ _ _)) (Nat.le_trans (Th.load_view_le _ _ _ _ _) (le_join_right _ _ _))
    · exact Th.load_cur_le _ _ _ _ _
  have hf : (opt fc.rd2 Th.fenceLoad (q.th.load s.mem (.n b) i)).Wf s.mem := by
    unfold opt
    split
    · exact hl.fenceLoad
    · exact hl
  refine h.th rfl hf (fun y => Nat.le_trans (le_vw _ _ _ _) (hv y)) ?_
  obtain ⟨c1, t, c2, c3, c4, c5⟩ := hp.2 i hm.1 hm.2
  exact ⟨hp.1, Nat.zero_le _, c1, t, c2, c3, c4, fun hk => ⟨by simp, (c5 hk).mono hv⟩⟩

theorem RInv.val {fc : Fences} {s : St V k} {q : Rd V} (h : RInv fc s q) (hw : WInv s) {b m i : Nat} {acc : List (Option V)} (hpc : q.pc = .vals b m acc)
    (ha : acc.length < m) (hm : q.th.may s.mem (.val b acc.length) i) :
    RInv fc s { q with
      th := q.th.load s.mem (.val b acc.length) i, pc := .vals b m (acc ++ [(s.mem.msg (.val b acc.length) i).val.get]) } := by
  have hp := h.pc
  rw [hpc] at hp
  have hc : ∀ y, q.th.cur y ≤ (q.th.load s.mem (.val b acc.length) i).cur y := Th.load_cur_le _ _ _ _
  refine h.th rfl (h.wf.load hw.mwf hm.2) hc ?_
  obtain ⟨c1, c2, c3, t, c4, c5, c6, c7⟩ := hp
  refine ⟨c1, by simp; omega, c3, t, c4, c5, c6, fun hk => ⟨?_, (c7 hk).2.mono hc⟩⟩
  rw [(c7 hk).2 acc.length (by omega) i hm.1 hm.2]
  have hlt : acc.length < (s.hist t).length := by omega
  rw [List.getElem?_eq_getElem hlt, List.length_append, List.length_singleton, List.take_add_one, List.getElem?_eq_getElem hlt]
  simp only [Option.toList_some, List.map_append, List.map_cons, List.map_nil]
  rw [← (c7 hk).1]

theorem RInv.ret {fc : Fences} {s : St V k} {q : Rd V} (h : RInv fc s q) {b m : Nat} {acc : List (Option V)} (hpc : q.pc = .vals b m acc)
    (ha : ¬ acc.length < m) : RInv fc s { q with pc := .ret acc } := by
  have hp := h.pc
  rw [hpc] at hp
  obtain ⟨c1, c2, c3, t, c4, c5, c6, c7⟩ := hp
  refine h.th rfl h.wf (fun _ => Nat.le_refl _) ⟨t, c4, c5, by omega, fun hk => ?_⟩
  have := (c7 hk).1
  rwa [List.take_of_length_le (by omega)] at this

/-! ## The invariant -/

theorem init_inv (fc : Fences) : Inv fc (initSt : St V k) := by
  have hwf : (Mem.init fun _ => Val.num 0 : Mem Loc (Val V)).Wf := Mem.Wf.init _
  refine ⟨⟨hwf, Th.Wf.init _, fun _ => rfl, fun _ => rfl, ?_, rfl, ?_, Nat.le_refl _⟩, fun r => ⟨Th.Wf.init _, Nat.le_refl _, fun i h1 h2 => ?_, trivial⟩⟩
  · exact Nat.zero_lt_one
  · intro j hj; exact absurd hj (Nat.not_lt_zero _)
  · refine ⟨Nat.zero_lt_one, fun b e a a1 a2 => ?_⟩
    exact ⟨Nat.le_refl _, 0, Nat.le_refl _, Nat.le_refl _, rfl, fun _ j hj => absurd hj (Nat.not_lt_zero _)⟩

theorem Inv.reader {fc : Fences} {s : St V k} (h : Inv fc s) {r : Fin k} {q : Rd V} (hq : RInv fc s q) : Inv fc { s with rd := upd s.rd r q } := by
  have e : ∀ q', RInv fc s q' → RInv fc { s with rd := upd s.rd r q } q' := fun q' h => ⟨h.wf, h.bn, h.act, h.pc⟩
  refine ⟨⟨h.w.mwf, h.w.wwf, h.w.cur, h.w.wr, h.w.cn, h.w.len, h.w.fit, h.w.ipl⟩, fun r' => ?_⟩
  show RInv fc _ (upd s.rd r q r')
  rw [upd_apply]
  split
  · exact e _ hq
  · exact e _ (h.r r')

theorem step_inv {fc : Fences} (h1 : fc.pub = true) (h2 : fc.com = true) (h3 : fc.rd1 = true) {s s' : St V k} {a : Act V k} (h : Inv fc s)
    (hs : (sys fc V k).step s a = some s') : Inv fc s' := by
  have hw : ∀ {s' : St V k}, s'.rd = s.rd → WInv s' ∧ WStep s s' → Inv fc s' := fun e hh => ⟨hh.1, fun r => e ▸ (h.r r).wstep hh.2⟩
  cases a with
  | put j v =>
    simp only [sys, step] at hs
    split at hs
    · next hc =>
      simp only [Option.some.injEq] at hs; subst hs
      exact hw rfl (h.w.plain (.inl ⟨j, rfl, hc⟩))
    · simp at hs
  | commit m =>
    simp only [sys, step] at hs
    split at hs
    · next hc =>
      split at hs
      · next l hl =>
        simp only [h2, opt, if_true, Option.some.injEq] at hs; subst hs
        exact hw rfl (h.w.commit hc hl)
      · simp at hs
    · simp at hs
  | prep j v =>
    simp only [sys, step, Option.some.injEq] at hs; subst hs
    exact hw rfl (h.w.plain (.inr (.inl ⟨j, rfl⟩)))
  | prepN m =>
    simp only [sys, step, Option.some.injEq] at hs; subst hs
    exact hw rfl (h.w.plain (.inr (.inr rfl)))
  | publish =>
    simp only [sys, step] at hs
    split at hs
    · next l hl =>
      simp only [h1, opt, if_true, Option.some.injEq] at hs; subst hs
      exact hw rfl (h.w.publish hl)
    · simp at hs
  | sync r =>
    simp only [sys, step] at hs
    split at hs
    · next hc =>
      simp only [Option.some.injEq] at hs; subst hs
      exact h.reader ((h.r r).sync h.w hc)
    · simp at hs
  | call r =>
    simp only [sys, step] at hs
    split at hs
    · simp only [Option.some.injEq] at hs; subst hs
      exact h.reader ((h.r r).th rfl (h.r r).wf (fun _ => Nat.le_refl _) trivial)
    · simp at hs
  | act r i =>
    simp only [sys, step] at hs
    split at hs
    · split at hs
      · next hc =>
        simp only [Option.some.injEq] at hs; subst hs
        exact h.reader ((h.r r).load h.w h3 hc)
      · simp at hs
    · simp at hs
  | len r i =>
    simp only [sys, step] at hs
    split at hs
    · next b hpc =>
      split at hs
      · next hc =>
        simp only [Option.some.injEq] at hs; subst hs
        exact h.reader ((h.r r).len h.w hpc hc)
      · simp at hs
    · simp at hs
  | val r i =>
    simp only [sys, step] at hs
    split at hs
    · next b m acc hpc =>
      split at hs
      · next hl =>
        split at hs
        · next hc =>
          simp only [Option.some.injEq] at hs; subst hs
          exact h.reader ((h.r r).val h.w hpc hl hc)
        · simp at hs
      · next hl =>
        simp only [Option.some.injEq] at hs; subst hs
        exact h.reader ((h.r r).ret hpc hl)
    · simp at hs
  | leave r =>
    simp only [sys, step] at hs
    split at hs
    · simp only [Option.some.injEq] at hs; subst hs
      exact h.reader ((h.r r).th rfl (h.r r).wf (fun _ => Nat.le_refl _) trivial)
    · simp at hs

theorem inv {fc : Fences} (h1 : fc.pub = true) (h2 : fc.com = true) (h3 : fc.rd1 = true) {s : St V k} (h : (sys fc V k).Reach s) : Inv fc s :=
  h.invariant (I := Inv fc) (fun s e => by subst e; exact init_inv fc) fun _ _ _ hi hs => step_inv h1 h2 h3 hi hs

/-! ## What readers find -/

/-- `ck_array_length`, and the length of `ck_array_buffer`: the length of a committed content, not older than the last `sync`. -/
theorem length_ok {s : St V k} (h : (sys real V k).Reach s) (r : Fin k) {b m : Nat} {acc : List (Option V)} (hpc : (s.rd r).pc = .vals b m acc) :
    ∃ t, (s.rd r).b ≤ t ∧ t ≤ s.now ∧ (s.hist t).length = m := by
  have hp := ((inv rfl rfl rfl h).r r).pc
  rw [hpc] at hp
  obtain ⟨_, _, _, t, c4, c5, c6, _⟩ := hp
  exact ⟨t, c4, c5, c6⟩

/-- With a fence after `ck_array_buffer`, the values are a committed content, not older than the last `sync`. -/
theorem buffer_fixed {fc : Fences} (h1 : fc.pub = true) (h2 : fc.com = true) (h3 : fc.rd1 = true) (h4 : fc.rd2 = true) {s : St V k}
    (h : (sys fc V k).Reach s) (r : Fin k) {acc : List (Option V)} (hpc : (s.rd r).pc = .ret acc) :
    ∃ t, (s.rd r).b ≤ t ∧ t ≤ s.now ∧ acc = (s.hist t).map some := by
  have hp := ((inv h1 h2 h3 h).r r).pc
  rw [hpc] at hp
  obtain ⟨t, c4, c5, _, c7⟩ := hp
  exact ⟨t, c4, c5, c7 (.inl h4)⟩

/-- The code: the values are a committed content, not older than the last `sync`.  Missing: a commit in place since the last `sync` (`buffer_fails`). -/
theorem buffer_partial {s : St V k} (h : (sys real V k).Reach s) (r : Fin k) {acc : List (Option V)} (hpc : (s.rd r).pc = .ret acc)
    (hi : s.ipl ≤ (s.rd r).b) : ∃ t, (s.rd r).b ≤ t ∧ t ≤ s.now ∧ acc = (s.hist t).map some := by
  have hp := ((inv rfl rfl rfl h).r r).pc
  rw [hpc] at hp
  obtain ⟨t, c4, c5, _, c7⟩ := hp
  exact ⟨t, c4, c5, c7 (.inr hi)⟩

/-- What the model calls the content is what the last store to the active buffer left there. -/
theorem hist_now {s : St V k} (h : (sys real V k).Reach s) : content s.mem s.cur (s.mem.last (.n s.cur)).toNat = (s.hist s.now).map some := by
  have hw := (inv rfl rfl rfl h).w
  rw [← hw.len]
  refine List.ext_getElem? fun j => ?_
  by_cases hj : j < (s.hist s.now).length
  · simp only [content, List.getElem?_map, List.getElem?_range hj, Option.map_some, hw.fit j hj]
    rw [List.getElem?_eq_getElem hj]; rfl
  · rw [List.getElem?_eq_none (by simp [content]; omega), List.getElem?_eq_none (by simp; omega)]

end Verif.Weak.Array
