import Verif.Queue.Queue

/-! # The list macros implement sequences (C53) -/

namespace Verif.Queue

open Verif

variable {H N : Type} [DecidableEq H] [DecidableEq N]

/-! ## Paths -/

/-- The pointers from `c` through `l`, without the last one. -/
def Lnk (p : Cell H N → Option N) : Cell H N → List N → Prop
  | _, [] => True
  | c, x :: l => p c = some x ∧ Lnk p (.next x) l

omit [DecidableEq H] [DecidableEq N] in
theorem path_append {p : Cell H N → Option N} {c : Cell H N} {a b : List N} :
    Path p c (a ++ b) ↔ Lnk p c a ∧ Path p (endC c a) b := by
  induction a generalizing c with
  | nil => simp [Lnk, endC]
  | cons x a ih => simp [Path, Lnk, endC, ih, and_assoc]

omit [DecidableEq H] [DecidableEq N] in
theorem endC_append {c : Cell H N} {a b : List N} : endC c (a ++ b) = endC (endC c a) b := by
  induction a generalizing c with
  | nil => rfl
  | cons x a ih => exact ih

omit [DecidableEq H] [DecidableEq N] in
theorem prevs_append {q : N → Cell H N} {c : Cell H N} {a b : List N} :
    Prevs q c (a ++ b) ↔ Prevs q c a ∧ Prevs q (endC c a) b := by
  induction a generalizing c with
  | nil => simp [Prevs, endC]
  | cons x a ih => simp [Prevs, endC, ih, and_assoc]

omit [DecidableEq H] [DecidableEq N] in
/-- The end of a path is its first cell or belongs to its last element. -/
theorem endC_cases (c : Cell H N) (a : List N) :
    (a = [] ∧ endC c a = c) ∨ ∃ b x, a = b ++ [x] ∧ endC c a = .next x := by
  rcases List.eq_nil_or_concat a with rfl | ⟨b, x, rfl⟩
  · exact Or.inl ⟨rfl, rfl⟩
  · exact Or.inr ⟨b, x, by simp, by simp [List.concat_eq_append, endC_append, endC]⟩

omit [DecidableEq H] [DecidableEq N] in
theorem endC_head_ne {h h' : H} {a : List N} (hne : h' ≠ h) : endC (.head h) a ≠ (.head h' : Cell H N) := by
  rcases endC_cases (.head h) a with ⟨-, e⟩ | ⟨_, x, -, e⟩ <;> rw [e]
  · simpa using Ne.symm hne
  · simp

omit [DecidableEq H] [DecidableEq N] in
theorem endC_next_ne {h : H} {a : List N} {x : N} (hx : x ∉ a) : endC (.head h) a ≠ (.next x : Cell H N) := by
  rcases endC_cases (.head h) a with ⟨-, e⟩ | ⟨b, y, hb, e⟩ <;> rw [e]
  · simp
  · simp only [ne_eq, Cell.next.injEq]; rintro rfl; exact hx (by rw [hb]; simp)

theorem path_upd {p : Cell H N → Option N} {c d : Cell H N} {v : Option N} {l : List N} (h1 : d ≠ c)
    (h2 : ∀ x ∈ l, d ≠ .next x) : Path (upd p d v) c l ↔ Path p c l := by
  induction l generalizing c with
  | nil => simp only [Path]; rw [upd_ne _ _ (Ne.symm h1)]
  | cons x l ih =>
    simp only [Path]
    rw [upd_ne _ _ (Ne.symm h1), ih (h2 x (by simp)) (fun y hy => h2 y (by simp [hy]))]

theorem lnk_upd_end {p : Cell H N → Option N} {c : Cell H N} {v : Option N} {a : List N} (hn : a.Nodup)
    (hc : ∀ x ∈ a, c ≠ .next x) : Lnk (upd p (endC c a) v) c a ↔ Lnk p c a := by
  induction a generalizing c with
  | nil => simp [Lnk]
  | cons x a ih =>
    rw [List.nodup_cons] at hn
    simp only [Lnk, endC]
    have hx : ∀ y ∈ a, (.next x : Cell H N) ≠ .next y := by
      rintro y hy e; cases e; exact hn.1 hy
    rw [ih hn.2 hx, upd_ne]
    rcases endC_cases (.next x) a with ⟨-, e⟩ | ⟨b, y, hb, e⟩ <;> rw [e]
    · exact hc x (by simp)
    · exact hc y (by rw [hb]; simp)

/-- The pointer `v` starts the sequence `b`. -/
def From (p : Cell H N → Option N) : Option N → List N → Prop
  | v, [] => v = none
  | v, y :: l => v = some y ∧ Path p (.next y) l

omit [DecidableEq H] [DecidableEq N] in
theorem from_iff {p : Cell H N → Option N} {c : Cell H N} {b : List N} : From p (p c) b ↔ Path p c b := by
  cases b <;> rfl

/-- Redirect the pointer after `a` to the sequence `b`. -/
theorem path_splice {p : Cell H N → Option N} {h : H} {v : Option N} {a b : List N} (ha : Lnk p (.head h) a)
    (hn : (a ++ b).Nodup) (hb : From p v b) : Path (upd p (endC (.head h) a) v) (.head h) (a ++ b) := by
  rw [List.nodup_append] at hn
  rw [path_append]
  refine ⟨(lnk_upd_end hn.1 (by simp)).2 ha, ?_⟩
  have hd : ∀ x ∈ b, endC (.head h) a ≠ (.next x : Cell H N) := fun x hx =>
    endC_next_ne fun hxa => hn.2.2 x hxa x hx rfl
  cases b with
  | nil => simp only [Path, upd_same]; exact hb
  | cons y l =>
    simp only [Path, upd_same]
    exact ⟨hb.1, (path_upd (hd y (by simp)) (fun x hx => hd x (by simp [hx]))).2 hb.2⟩

/-- A store to the `next` of an element outside. -/
theorem path_private {p : Cell H N → Option N} {h : H} {v : Option N} {l : List N} {x : N} (hx : x ∉ l) :
    Path (upd p (.next x) v) (.head h) l ↔ Path p (.head h) l :=
  path_upd (by simp) (fun y hy e => by cases e; exact hx hy)

theorem prevs_upd {q : N → Cell H N} {c : Cell H N} {d : Cell H N} {l : List N} {x : N} (hx : x ∉ l) :
    Prevs (upd q x d) c l ↔ Prevs q c l := by
  induction l generalizing c with
  | nil => rfl
  | cons y l ih =>
    simp only [List.mem_cons, not_or] at hx
    simp only [Prevs]
    rw [ih hx.2, upd_ne _ _ (Ne.symm hx.1)]

omit [DecidableEq H] [DecidableEq N] in
theorem path_unique {p : Cell H N → Option N} {c : Cell H N} {l l' : List N} (h : Path p c l) (h' : Path p c l') :
    l = l' := by
  induction l generalizing c l' with
  | nil => cases l' with
    | nil => rfl
    | cons y l' => simp only [Path] at h h'; rw [h] at h'; cases h'.1
  | cons x l ih => cases l' with
    | nil => simp only [Path] at h h'; rw [h'] at h; cases h.1
    | cons y l' =>
      simp only [Path] at h h'
      have e := h.1.symm.trans h'.1
      cases e
      rw [ih h.2 h'.2]

/-! ## Frames -/

omit [DecidableEq H] [DecidableEq N] in
theorem Frame.path {m m' : Mem H N} {hs : List H} {xs : List N} (f : Frame m m' hs xs) {c : Cell H N} {l : List N}
    (h1 : m'.ptr c = m.ptr c) (h2 : ∀ x ∈ l, x ∉ xs) (hp : Path m.ptr c l) : Path m'.ptr c l := by
  induction l generalizing c with
  | nil => simp only [Path] at hp ⊢; rw [h1]; exact hp
  | cons x l ih =>
    simp only [Path] at hp ⊢
    exact ⟨by rw [h1]; exact hp.1, ih (f.elt x (h2 x (by simp))).1 (fun y hy => h2 y (by simp [hy])) hp.2⟩

omit [DecidableEq H] [DecidableEq N] in
/-- Other lists are left alone. -/
theorem Frame.srep {m m' : Mem H N} {hs : List H} {xs : List N} (f : Frame m m' hs xs) {h : H} {l : List N}
    (h1 : h ∉ hs) (h2 : ∀ x ∈ l, x ∉ xs) (hr : SRep m h l) : SRep m' h l :=
  ⟨f.path (f.head h h1).1 h2 hr.path, hr.nodup⟩

omit [DecidableEq H] [DecidableEq N] in
theorem Frame.trep {m m' : Mem H N} {hs : List H} {xs : List N} (f : Frame m m' hs xs) {h : H} {l : List N}
    (h1 : h ∉ hs) (h2 : ∀ x ∈ l, x ∉ xs) (hr : TRep m h l) : TRep m' h l :=
  ⟨f.srep h1 h2 hr.toSRep, by rw [(f.head h h1).2]; exact hr.last⟩

omit [DecidableEq H] [DecidableEq N] in
theorem Frame.lrep {m m' : Mem H N} {hs : List H} {xs : List N} (f : Frame m m' hs xs) {h : H} {l : List N}
    (h1 : h ∉ hs) (h2 : ∀ x ∈ l, x ∉ xs) (hr : LRep m h l) : LRep m' h l := by
  refine ⟨f.srep h1 h2 hr.toSRep, ?_⟩
  have key : ∀ (l : List N) (c : Cell H N), (∀ x ∈ l, x ∉ xs) → Prevs m.prev c l → Prevs m'.prev c l := by
    intro l
    induction l with
    | nil => intro _ _ _; trivial
    | cons x l ih =>
      intro c hx hp
      exact ⟨by rw [(f.elt x (hx x (by simp))).2]; exact hp.1, ih _ (fun y hy => hx y (by simp [hy])) hp.2⟩
  exact key l _ h2 hr.prevs

omit [DecidableEq H] [DecidableEq N] in
theorem Frame.refl (m : Mem H N) (hs : List H) (xs : List N) : Frame m m hs xs :=
  ⟨fun _ _ => ⟨rfl, rfl⟩, fun _ _ => ⟨rfl, rfl⟩⟩

omit [DecidableEq H] [DecidableEq N] in
theorem Frame.trans {m m' m'' : Mem H N} {hs : List H} {xs : List N} (f : Frame m m' hs xs)
    (g : Frame m' m'' hs xs) : Frame m m'' hs xs :=
  ⟨fun h hh => ⟨(g.head h hh).1.trans (f.head h hh).1, (g.head h hh).2.trans (f.head h hh).2⟩,
   fun x hx => ⟨(g.elt x hx).1.trans (f.elt x hx).1, (g.elt x hx).2.trans (f.elt x hx).2⟩⟩

/-- The cells of the frame. -/
def okCell (hs : List H) (xs : List N) : Cell H N → Prop
  | .head h => h ∈ hs
  | .next x => x ∈ xs

theorem Frame.store {m m' : Mem H N} {hs : List H} {xs : List N} (f : Frame m m' hs xs) {c : Cell H N}
    {v : Option N} (hc : okCell hs xs c) : Frame m (m'.store c v) hs xs := by
  refine f.trans ⟨fun h hh => ⟨?_, rfl⟩, fun x hx => ⟨?_, rfl⟩⟩
  · exact upd_ne _ _ (by rintro rfl; exact hh hc)
  · exact upd_ne _ _ (by rintro rfl; exact hx hc)

theorem Frame.last {m m' : Mem H N} {hs : List H} {xs : List N} (f : Frame m m' hs xs) {h : H} {d : Cell H N}
    (hc : h ∈ hs) : Frame m (m'.setLast h d) hs xs :=
  f.trans ⟨fun h' hh => ⟨rfl, upd_ne _ _ (by rintro rfl; exact hh hc)⟩, fun _ _ => ⟨rfl, rfl⟩⟩

theorem Frame.prev {m m' : Mem H N} {hs : List H} {xs : List N} (f : Frame m m' hs xs) {x : N} {d : Cell H N}
    (hc : x ∈ xs) : Frame m (m'.setPrev x d) hs xs :=
  f.trans ⟨fun _ _ => ⟨rfl, rfl⟩, fun y hy => ⟨rfl, upd_ne _ _ (by rintro rfl; exact hy hc)⟩⟩

omit [DecidableEq H] [DecidableEq N] in
theorem okCell_end {h : H} {hs : List H} {xs a : List N} (h1 : h ∈ hs) (h2 : ∀ x ∈ a, x ∈ xs) :
    okCell hs xs (endC (.head h) a) := by
  rcases endC_cases (.head h) a with ⟨-, e⟩ | ⟨b, y, hb, e⟩ <;> rw [e]
  · exact h1
  · exact h2 y (by rw [hb]; simp)

/-! ## The two ways the content changes -/

/-- `x->next` gets what follows `a`, then the pointer after `a` gets `x`. -/
theorem path_insert {p : Cell H N → Option N} {h : H} {a b : List N} {x : N} (hp : Path p (.head h) (a ++ b))
    (hn : (a ++ b).Nodup) (hx : x ∉ a ++ b) {p1 : Cell H N → Option N}
    (hp1 : p1 = upd p (.next x) (p (endC (.head h) a))) :
    Path (upd p1 (endC (.head h) a) (some x)) (.head h) (a ++ x :: b) := by
  have h1 := (path_private (v := p (endC (.head h) a)) hx).2 hp
  rw [← hp1] at h1
  rw [path_append] at h1
  simp only [List.mem_append, not_or] at hx
  refine path_splice h1.1 ?_ ⟨rfl, ?_⟩
  · rw [List.nodup_append] at hn ⊢
    refine ⟨hn.1, List.nodup_cons.2 ⟨hx.2, hn.2.1⟩, ?_⟩
    intro y hy z hz
    rcases List.mem_cons.1 hz with rfl | hz
    · rintro rfl; exact hx.1 hy
    · exact hn.2.2 y hy z hz
  · have h2 := (path_append.1 hp).2
    have e : p1 (.next x) = p1 (endC (.head h) a) := by
      rw [hp1, upd_same, upd_ne _ _ (endC_next_ne hx.1)]
    rw [← from_iff] at h1 ⊢
    rw [e]; exact h1.2

/-- The pointer after `a` gets what follows `x`. -/
theorem path_remove {p : Cell H N → Option N} {h : H} {a b : List N} {x : N}
    (hp : Path p (.head h) (a ++ x :: b)) (hn : (a ++ x :: b).Nodup) :
    Path (upd p (endC (.head h) a) (p (.next x))) (.head h) (a ++ b) := by
  rw [path_append] at hp
  exact path_splice hp.1 (hn.sublist (by simp)) (from_iff.2 hp.2.2)

omit [DecidableEq H] [DecidableEq N] in
theorem nodup_insert {a b : List N} {x : N} (hn : (a ++ b).Nodup) (hx : x ∉ a ++ b) : (a ++ x :: b).Nodup := by
  rw [List.nodup_middle]; exact List.nodup_cons.2 ⟨hx, hn⟩

omit [DecidableEq H] [DecidableEq N] in
theorem ptr_end {p : Cell H N → Option N} {c : Cell H N} {a b : List N} {x : N} (hp : Path p c (a ++ x :: b)) :
    p (endC c a) = some x := (path_append.1 hp).2.1

omit [DecidableEq H] [DecidableEq N] in
theorem endC_snoc {c : Cell H N} {a : List N} {x : N} : endC c (a ++ [x]) = .next x := by
  simp [endC_append, endC]


omit [DecidableEq H] [DecidableEq N] in
theorem mem_pred [DecidableEq N] {a b : List N} {x : N} (hn : (a ++ x :: b).Nodup) : x ∉ a := by
  intro h
  rw [List.nodup_append] at hn
  exact hn.2.2 x h x (by simp) rfl

omit [DecidableEq H] in
/-- The loop of `CK_SLIST_REMOVE`/`CK_STAILQ_REMOVE` finds the predecessor. -/
theorem findPrev_eq {m : Mem H N} {x cur : N} {l b : List N} {fuel : Nat}
    (hp : Path m.ptr (.next cur) (l ++ x :: b)) (hx : x ∉ l) (hf : l.length < fuel) :
    ∃ y, findPrev m x fuel cur = some y ∧ endC (.next cur) l = (.next y : Cell H N) ∧ y ∈ cur :: l := by
  induction l generalizing cur fuel with
  | nil =>
    cases fuel with
    | zero => simp at hf
    | succ k => exact ⟨cur, by simp [findPrev, hp.1], rfl, by simp⟩
  | cons z l ih =>
    cases fuel with
    | zero => simp at hf
    | succ k =>
      simp only [List.mem_cons, not_or] at hx
      obtain ⟨y, h1, h2, h3⟩ := ih (cur := z) (fuel := k) hp.2 hx.2 (by simpa using hf)
      refine ⟨y, ?_, h2, by simp only [List.mem_cons] at h3 ⊢; tauto⟩
      rw [findPrev, hp.1, if_neg (by simpa using Ne.symm hx.1)]
      exact h1

/-! ## `CK_SLIST` -/

namespace SL

theorem init_rep (m : Mem H N) (h : H) :
    ∃ m', exec (init h) m = some m' ∧ SRep m' h [] ∧ Frame m m' [h] [] :=
  ⟨_, rfl, ⟨by simp [Path, Mem.store], by simp⟩, (Frame.refl _ _ _).store (by simp [okCell])⟩

/-- Insertion behind the cell that ends `a`; common to all `INSERT` macros. -/
theorem insert_rep {m : Mem H N} {h : H} {a b : List N} {x : N} (hr : SRep m h (a ++ b)) (hx : x ∉ a ++ b) :
    SRep ((m.store (.next x) (m.ptr (endC (.head h) a))).store (endC (.head h) a) (some x)) h (a ++ x :: b) ∧
    Frame m ((m.store (.next x) (m.ptr (endC (.head h) a))).store (endC (.head h) a) (some x)) [h]
      (x :: (a ++ b)) :=
  ⟨⟨path_insert hr.path hr.nodup hx rfl, nodup_insert hr.nodup hx⟩,
    ((Frame.refl _ _ _).store (by simp [okCell])).store (okCell_end (by simp) (by simp_all))⟩

theorem insertHead_rep {m : Mem H N} {h : H} {l : List N} {x : N} (hr : SRep m h l) (hx : x ∉ l) :
    ∃ m', exec (insertHead h x) m = some m' ∧ SRep m' h (x :: l) ∧ Frame m m' [h] (x :: l) :=
  ⟨_, rfl, insert_rep (a := []) hr hx⟩

theorem insertAfter_rep {m : Mem H N} {h : H} {l1 l2 : List N} {y x : N} (hr : SRep m h (l1 ++ y :: l2))
    (hx : x ∉ l1 ++ y :: l2) :
    ∃ m', exec (insertAfter y x) m = some m' ∧ SRep m' h (l1 ++ y :: x :: l2) ∧
      Frame m m' [h] (x :: (l1 ++ y :: l2)) := by
  have hr' : SRep m h ((l1 ++ [y]) ++ l2) := by simpa using hr
  have := insert_rep (x := x) hr' (by simpa using hx)
  rw [endC_snoc] at this
  refine ⟨_, rfl, ?_⟩
  simpa using this

/-- `p` is the address of the pointer to `y`, as `CK_SLIST_FOREACH_PREVPTR` leaves it. -/
theorem insertPrevptr_rep {m : Mem H N} {h : H} {l1 l2 : List N} {y x : N} (hr : SRep m h (l1 ++ y :: l2))
    (hx : x ∉ l1 ++ y :: l2) :
    ∃ m', exec (insertPrevptr (endC (.head h) l1) y x) m = some m' ∧ SRep m' h (l1 ++ x :: y :: l2) ∧
      Frame m m' [h] (x :: (l1 ++ y :: l2)) := by
  have := insert_rep (x := x) hr hx
  rw [ptr_end hr.path] at this
  exact ⟨_, rfl, this⟩

/-- Removal of the element after the cell that ends `a`. -/
theorem remove_rep' {m : Mem H N} {h : H} {a b : List N} {x : N} (hr : SRep m h (a ++ x :: b)) :
    SRep (m.store (endC (.head h) a) (m.ptr (.next x))) h (a ++ b) ∧
    Frame m (m.store (endC (.head h) a) (m.ptr (.next x))) [h] a :=
  ⟨⟨path_remove hr.path hr.nodup, hr.nodup.sublist (by simp)⟩,
    (Frame.refl _ _ _).store (okCell_end (by simp) (by simp))⟩

theorem removeHead_rep {m : Mem H N} {h : H} {l : List N} {x : N} (hr : SRep m h (x :: l)) :
    ∃ m', exec (removeHead h) m = some m' ∧ SRep m' h l ∧ Frame m m' [h] [] := by
  refine ⟨_, ?_, remove_rep' (a := []) hr⟩
  simp [exec, removeHead, hr.path.1, endC]

theorem removeAfter_rep {m : Mem H N} {h : H} {l1 l2 : List N} {y x : N} (hr : SRep m h (l1 ++ y :: x :: l2)) :
    ∃ m', exec (removeAfter y) m = some m' ∧ SRep m' h (l1 ++ y :: l2) ∧ Frame m m' [h] (l1 ++ [y]) := by
  have hr' : SRep m h ((l1 ++ [y]) ++ x :: l2) := by simpa using hr
  have := remove_rep' hr'
  have hp := ptr_end hr'.path
  rw [endC_snoc] at this hp
  refine ⟨_, ?_, by simpa using this⟩
  simp [exec, removeAfter, hp]

/-- `CK_SLIST_REMOVE` removes the element wherever it is, given enough iterations. -/
theorem remove_rep {m : Mem H N} {h : H} {l1 l2 : List N} {x : N} {fuel : Nat} (hr : SRep m h (l1 ++ x :: l2))
    (hf : l1.length ≤ fuel) :
    ∃ fs m', remove fuel h x m = some fs ∧ exec fs m = some m' ∧ SRep m' h (l1 ++ l2) ∧ Frame m m' [h] l1 := by
  cases l1 with
  | nil =>
    obtain ⟨m', h1, h2, h3⟩ := removeHead_rep hr
    exact ⟨_, m', by rw [remove, if_pos hr.path.1], h1, h2, h3⟩
  | cons cur l =>
    have hx := mem_pred hr.nodup
    simp only [List.mem_cons, not_or] at hx
    obtain ⟨y, h1, h2, h3⟩ := findPrev_eq (fuel := fuel) hr.path.2 hx.2 (by simp at hf; omega)
    have := remove_rep' hr
    have hp := ptr_end hr.path
    simp only [endC, h2] at this hp
    refine ⟨removeAfter y, _, ?_, ?_, this⟩
    · rw [remove, if_neg (by rw [hr.path.1]; simpa using Ne.symm hx.1), hr.path.1]
      simp only [h1, Option.map_some]
    · simp [exec, removeAfter, hp]

/-- With the right address in the variable it uses. -/
theorem removePrevptr_rep {m : Mem H N} {h : H} {l1 l2 : List N} {x : N} (hr : SRep m h (l1 ++ x :: l2)) :
    ∃ m', exec (removePrevptr (endC (.head h) l1) x) m = some m' ∧ SRep m' h (l1 ++ l2) ∧ Frame m m' [h] l1 :=
  ⟨_, rfl, remove_rep' hr⟩

/-- `CK_SLIST_MOVE(h1, h2)`: `h1` gets the content of `h2` (which still has it too). -/
theorem move_rep {m : Mem H N} {h1 h2 : H} {l : List N} (hr : SRep m h2 l) :
    ∃ m', exec (move h1 h2) m = some m' ∧ SRep m' h1 l ∧ Frame m m' [h1] [] := by
  refine ⟨_, rfl, ⟨?_, hr.nodup⟩, (Frame.refl _ _ _).store (by simp [okCell])⟩
  have := path_splice (p := m.ptr) (h := h1) (v := m.ptr (.head h2)) (a := []) (b := l) trivial hr.nodup
    (from_iff.2 hr.path)
  exact this

theorem swap_rep {m : Mem H N} {h1 h2 : H} {l1 l2 : List N} (hr1 : SRep m h1 l1) (hr2 : SRep m h2 l2) :
    ∃ m', exec (swap h1 h2 m) m = some m' ∧ SRep m' h1 l2 ∧ SRep m' h2 l1 ∧ Frame m m' [h1, h2] [] := by
  refine ⟨_, rfl, ?_⟩
  by_cases he : h1 = h2
  · subst he
    have e : l1 = l2 := path_unique hr1.path hr2.path
    subst e
    simp only [Mem.store, upd_eq_self]
    exact ⟨hr1, hr1, Frame.refl _ _ _⟩
  · refine ⟨⟨?_, hr2.nodup⟩, ⟨?_, hr1.nodup⟩,
      ((Frame.refl _ _ _).store (by simp [okCell])).store (by simp [okCell])⟩
    · refine (path_upd (by simpa using Ne.symm he) (by simp)).2 ?_
      exact path_splice (p := m.ptr) (h := h1) (a := []) trivial hr2.nodup (from_iff.2 hr2.path)
    · refine path_splice (p := upd m.ptr (.head h1) _) (h := h2) (a := []) trivial hr1.nodup ?_
      have := from_iff.2 hr1.path
      cases l1 with
      | nil => exact this
      | cons y l => exact ⟨this.1, (path_upd (by simp) (by simp)).2 this.2⟩

end SL

/-! ## `CK_STAILQ` -/

namespace STQ

theorem init_rep (m : Mem H N) (h : H) :
    ∃ m', exec (init h) m = some m' ∧ TRep m' h [] ∧ Frame m m' [h] [] :=
  ⟨_, rfl, ⟨⟨by simp [Path, Mem.store], by simp⟩, by simp [Mem.store, endC]⟩,
    ((Frame.refl _ _ _).store (by simp [okCell])).last (by simp)⟩

/-- `fixLast` after an insertion of `x` behind `a`. -/
theorem fixLast_rep {m m1 : Mem H N} {h : H} {a b : List N} {x : N} {xs : List N} (hs : SRep m1 h (a ++ x :: b))
    (hl : m1.last h = endC (.head h) (a ++ b)) (hf : Frame m m1 [h] xs) :
    ∃ m', fixLast h x m1 = some m' ∧ TRep m' h (a ++ x :: b) ∧ Frame m m' [h] xs := by
  have hp := (path_append.1 hs.path).2.2
  unfold fixLast
  cases b with
  | nil =>
    have hp : m1.ptr (.next x) = none := hp
    rw [if_pos hp]
    exact ⟨_, rfl, ⟨⟨hs.path, hs.nodup⟩, by simp [endC_append, endC]⟩, hf.last (by simp)⟩
  | cons y b =>
    rw [if_neg (by rw [hp.1]; simp)]
    exact ⟨_, rfl, ⟨hs, by rw [hl]; simp [endC_append, endC]⟩, hf⟩

theorem insertHead_rep {m : Mem H N} {h : H} {l : List N} {x : N} (hr : TRep m h l) (hx : x ∉ l) :
    ∃ m', exec (insertHead h x) m = some m' ∧ TRep m' h (x :: l) ∧ Frame m m' [h] (x :: l) := by
  obtain ⟨h1, h2⟩ := SL.insert_rep (a := []) hr.toSRep hx
  obtain ⟨m', h3, h4, h5⟩ := fixLast_rep (a := []) h1 hr.last h2
  exact ⟨m', by simp only [exec, insertHead, Option.bind_some]; exact (by simpa [endC] using h3), h4, h5⟩

theorem insertAfter_rep {m : Mem H N} {h : H} {l1 l2 : List N} {y x : N} (hr : TRep m h (l1 ++ y :: l2))
    (hx : x ∉ l1 ++ y :: l2) :
    ∃ m', exec (insertAfter h y x) m = some m' ∧ TRep m' h (l1 ++ y :: x :: l2) ∧
      Frame m m' [h] (x :: (l1 ++ y :: l2)) := by
  have hr' : SRep m h ((l1 ++ [y]) ++ l2) := by simpa using hr.toSRep
  have := SL.insert_rep (x := x) hr' (by simpa using hx)
  rw [endC_snoc] at this
  obtain ⟨m', h3, h4, h5⟩ := fixLast_rep this.1 (by rw [Mem.store_last, Mem.store_last]; simpa using hr.last) this.2
  exact ⟨m', by simp only [exec, insertAfter, Option.bind_some]; exact (by simpa using h3), by simpa using h4,
    by simpa using h5⟩

theorem insertTail_rep {m : Mem H N} {h : H} {l : List N} {x : N} (hr : TRep m h l) (hx : x ∉ l) :
    ∃ m', exec (insertTail h x) m = some m' ∧ TRep m' h (l ++ [x]) ∧ Frame m m' [h] (x :: l) := by
  have hr' : SRep m h (l ++ []) := by simpa using hr.toSRep
  have hn : m.ptr (endC (.head h) l) = none := (path_append.1 hr'.path).2
  have := SL.insert_rep (x := x) hr' (by simpa using hx)
  rw [hn, ← hr.last] at this
  refine ⟨_, rfl, ⟨⟨this.1.path, this.1.nodup⟩, by simp [endC_append, endC]⟩, ?_⟩
  have h2 := this.2
  rw [List.append_nil] at h2
  exact h2.last (by simp)

theorem removeAfter_rep {m : Mem H N} {h : H} {l1 l2 : List N} {y x : N} (hr : TRep m h (l1 ++ y :: x :: l2)) :
    ∃ m', exec (removeAfter h y) m = some m' ∧ TRep m' h (l1 ++ y :: l2) ∧ Frame m m' [h] (l1 ++ [y]) := by
  have hr' : SRep m h ((l1 ++ [y]) ++ x :: l2) := by simpa using hr.toSRep
  have := SL.remove_rep' hr'
  have hp := ptr_end hr'.path
  rw [endC_snoc] at this hp
  have hs : SRep (m.store (.next y) (m.ptr (.next x))) h (l1 ++ y :: l2) := by simpa using this.1
  have hq := (path_append.1 hs.path).2.2
  cases l2 with
  | nil =>
    have hq : (m.store (.next y) (m.ptr (.next x))).ptr (.next y) = none := hq
    refine ⟨(m.store (.next y) (m.ptr (.next x))).setLast h (.next y), ?_, ⟨⟨hs.path, hs.nodup⟩, ?_⟩,
      this.2.last (by simp)⟩
    · simp only [exec, removeAfter, hp, Option.bind_some, fixLast]
      rw [if_pos hq]; rfl
    · simp [endC_append, endC]
  | cons z l2 =>
    refine ⟨_, ?_, ⟨hs, ?_⟩, this.2⟩
    · simp only [exec, removeAfter, hp, Option.bind_some, fixLast]
      rw [if_neg (by rw [hq.1]; simp)]; rfl
    · show m.last h = _
      rw [hr.last]; simp [endC_append, endC]

theorem removeHead_rep {m : Mem H N} {h : H} {l : List N} {x : N} (hr : TRep m h (x :: l)) :
    ∃ m', exec (removeHead h) m = some m' ∧ TRep m' h l ∧ Frame m m' [h] [] := by
  have := SL.remove_rep' (a := []) hr.toSRep
  have hs : SRep (m.store (.head h) (m.ptr (.next x))) h l := this.1
  cases l with
  | nil =>
    have hq : (m.store (.head h) (m.ptr (.next x))).ptr (.head h) = none := hs.path
    refine ⟨(m.store (.head h) (m.ptr (.next x))).setLast h (.head h), ?_, ⟨⟨hs.path, hs.nodup⟩, ?_⟩,
      this.2.last (by simp)⟩
    · simp only [exec, removeHead, hr.path.1, Option.bind_some]
      rw [if_pos hq]; rfl
    · simp [endC]
  | cons z l =>
    refine ⟨_, ?_, ⟨hs, ?_⟩, this.2⟩
    · simp only [exec, removeHead, hr.path.1, Option.bind_some]
      rw [if_neg (by rw [hs.path.1]; simp)]; rfl
    · show m.last h = _
      rw [hr.last]; simp [endC]

theorem remove_rep {m : Mem H N} {h : H} {l1 l2 : List N} {x : N} {fuel : Nat} (hr : TRep m h (l1 ++ x :: l2))
    (hf : l1.length ≤ fuel) :
    ∃ fs m', remove fuel h x m = some fs ∧ exec fs m = some m' ∧ TRep m' h (l1 ++ l2) ∧ Frame m m' [h] l1 := by
  cases l1 with
  | nil =>
    obtain ⟨m', h1, h2, h3⟩ := removeHead_rep hr
    exact ⟨_, m', by rw [remove, if_pos hr.path.1], h1, h2, h3⟩
  | cons cur l =>
    have hx := mem_pred hr.nodup
    simp only [List.mem_cons, not_or] at hx
    obtain ⟨y, h1, h2, h3⟩ := findPrev_eq (fuel := fuel) hr.path.2 hx.2 (by simp at hf; omega)
    have hy : ∃ a, cur :: l = a ++ [y] := by
      rcases endC_cases (.next cur : Cell H N) l with ⟨e1, e2⟩ | ⟨b, z, e1, e2⟩
      · rw [h2] at e2; cases e2; exact ⟨[], by simp [e1]⟩
      · rw [h2] at e2; cases e2; exact ⟨cur :: b, by simp [e1]⟩
    obtain ⟨a, ha⟩ := hy
    have hr' : TRep m h (a ++ y :: x :: l2) := by rw [ha] at hr; simpa using hr
    obtain ⟨m', h4, h5, h6⟩ := removeAfter_rep hr'
    refine ⟨removeAfter h y, m', ?_, h4, by rw [ha]; simpa using h5, by rw [ha]; exact h6⟩
    rw [remove, if_neg (by rw [hr.path.1]; simpa using Ne.symm hx.1), hr.path.1]
    simp only [h1, Option.map_some]

/-- `CK_STAILQ_CONCAT(h1, h2)`: the content of `h2` is appended to `h1`, `h2` becomes empty. -/
theorem concat_rep {m : Mem H N} {h1 h2 : H} {l1 l2 : List N} (hne : h1 ≠ h2) (hr1 : TRep m h1 l1)
    (hr2 : TRep m h2 l2) (hd : (l1 ++ l2).Nodup) :
    ∃ m', exec (concat h1 h2 m) m = some m' ∧ TRep m' h1 (l1 ++ l2) ∧ TRep m' h2 [] ∧
      Frame m m' [h1, h2] l1 := by
  unfold concat
  cases l2 with
  | nil =>
    have hp : m.ptr (.head h2) = none := hr2.path
    rw [if_pos hp]
    exact ⟨m, rfl, by simpa using hr1, hr2, Frame.refl _ _ _⟩
  | cons y l2 =>
    rw [if_neg (by rw [hr2.path.1]; simp)]
    have hp1 : Lnk m.ptr (.head h1) l1 := by
      have := hr1.path
      rw [← List.append_nil l1, path_append] at this
      exact this.1
    have hsp := path_splice (v := m.ptr (.head h2)) hp1 hd (from_iff.2 hr2.path)
    have hlast2 : endC (.head h1) (l1 ++ y :: l2) = endC (.head h2) (y :: l2) := by
      simp [endC_append, endC]
    refine ⟨_, rfl, ⟨⟨?_, hd⟩, ?_⟩, ⟨⟨?_, by simp⟩, ?_⟩, ?_⟩
    · simp only [Mem.setLast_ptr, Mem.store_ptr]
      rw [hr1.last]
      exact (path_upd (by simpa using Ne.symm hne) (by simp)).2 hsp
    · simp only [Mem.setLast_last, Mem.store_last]
      rw [upd_ne _ _ hne, upd_same, hr2.last, hlast2]
    · simp [Path, Mem.store]
    · simp [Mem.store, endC]
    · refine Frame.last (Frame.store (Frame.last (Frame.store (Frame.refl _ _ _) ?_) (by simp))
        (by simp [okCell])) (by simp)
      rw [hr1.last]; exact okCell_end (by simp) (by simp)

/-- `CK_STAILQ_MOVE(h1, h2)`: `h1` gets the content of `h2` (which still has it too). -/
theorem move_rep {m : Mem H N} {h1 h2 : H} {l : List N} (hr : TRep m h2 l) :
    ∃ m', exec (move h1 h2) m = some m' ∧ TRep m' h1 l ∧ Frame m m' [h1] [] := by
  have hs := path_splice (p := m.ptr) (h := h1) (v := m.ptr (.head h2)) (a := []) (b := l) trivial hr.nodup
    (from_iff.2 hr.path)
  have hl := hr.last
  have hc : upd m.last h1 (m.last h2) h2 = m.last h2 := by
    rw [upd_apply]; split <;> rfl
  cases l with
  | nil =>
    refine ⟨((m.store (.head h1) (m.ptr (.head h2))).setLast h1 (m.last h2)).setLast h1 (.head h1), ?_,
      ⟨⟨hs, hr.nodup⟩, ?_⟩, (((Frame.refl _ _ _).store (by simp [okCell])).last (by simp)).last (by simp)⟩
    · simp only [exec, move, Option.bind_some]
      rw [if_pos]
      · rfl
      · show upd m.last h1 (m.last h2) h2 = _
        rw [hc, hl]; rfl
    · simp [endC]
  | cons z l =>
    refine ⟨(m.store (.head h1) (m.ptr (.head h2))).setLast h1 (m.last h2), ?_, ⟨⟨hs, hr.nodup⟩, ?_⟩,
      ((Frame.refl _ _ _).store (by simp [okCell])).last (by simp)⟩
    · simp only [exec, move, Option.bind_some]
      rw [if_neg]
      · rfl
      · show upd m.last h1 (m.last h2) h2 ≠ _
        rw [hc, hl]
        rcases endC_cases (.head h2) (z :: l) with ⟨e, -⟩ | ⟨_, _, -, e⟩
        · cases e
        · rw [e]; simp
    · simp only [Mem.setLast_last, upd_same, hl]; rfl

end STQ

/-! ## `CK_LIST` -/

namespace LST

theorem init_rep (m : Mem H N) (h : H) :
    ∃ m', exec (init h) m = some m' ∧ LRep m' h [] ∧ Frame m m' [h] [] :=
  ⟨_, rfl, ⟨⟨by simp [Path, Mem.store], by simp⟩, trivial⟩, (Frame.refl _ _ _).store (by simp [okCell])⟩

omit [DecidableEq H] in
/-- Back pointers after an insertion of `x` between `a` and `b`. -/
theorem prevs_insert {q q' : N → Cell H N} {c : Cell H N} {a b : List N} {x : N} (hq : Prevs q c (a ++ b))
    (hn : (a ++ x :: b).Nodup) (h1 : q' x = endC c a) (h2 : ∀ y l, b = y :: l → q' y = .next x)
    (h3 : ∀ z, z ≠ x → (∀ l, b ≠ z :: l) → q' z = q z) : Prevs q' c (a ++ x :: b) := by
  have congr : ∀ (l : List N) (c : Cell H N), (∀ z ∈ l, q' z = q z) → Prevs q c l → Prevs q' c l := by
    intro l
    induction l with
    | nil => intros; trivial
    | cons y l ih =>
      intro c hz hp
      exact ⟨by rw [hz y (by simp)]; exact hp.1, ih _ (fun z hzl => hz z (by simp [hzl])) hp.2⟩
  rw [prevs_append] at hq
  rw [List.nodup_middle, List.nodup_cons, List.nodup_append] at hn
  obtain ⟨hx, hna, hnb, hab⟩ := hn
  simp only [List.mem_append, not_or] at hx
  rw [prevs_append]
  refine ⟨congr a c (fun z hz => h3 z ?_ ?_) hq.1, h1, ?_⟩
  · rintro rfl; exact hx.1 hz
  · intro l hl; exact hab z hz z (by rw [hl]; simp) rfl
  · cases b with
    | nil => trivial
    | cons y b =>
      rw [List.nodup_cons] at hnb
      refine ⟨h2 y b rfl, congr b _ (fun z hz => h3 z ?_ ?_) hq.2.2⟩
      · rintro rfl; exact hx.2 (by simp [hz])
      · intro l hl; cases hl; exact hnb.1 hz

theorem insertHead_rep {m : Mem H N} {h : H} {l : List N} {x : N} (hr : LRep m h l) (hx : x ∉ l) :
    ∃ m', exec (insertHead h x) m = some m' ∧ LRep m' h (x :: l) ∧ Frame m m' [h] (x :: l) := by
  obtain ⟨h1, h2⟩ := SL.insert_rep (a := []) hr.toSRep hx
  simp only [List.nil_append, endC] at h1 h2
  have hn : ([] ++ x :: l).Nodup := h1.nodup
  cases l with
  | nil =>
    refine ⟨((m.store (.next x) (m.ptr (.head h))).store (.head h) (some x)).setPrev x (.head h), ?_,
      ⟨⟨h1.path, h1.nodup⟩, ?_⟩, h2.prev (by simp)⟩
    · have hp : m.ptr (.head h) = none := hr.path
      simp only [exec, insertHead, Option.bind_some, Mem.store_ptr, upd_same, hp]
    · exact ⟨by simp, trivial⟩
  | cons y l =>
    have hxy : x ≠ y := by rintro rfl; exact hx (by simp)
    refine ⟨(((m.store (.next x) (m.ptr (.head h))).setPrev y (.next x)).store (.head h) (some x)).setPrev x
        (.head h), ?_, ⟨⟨h1.path, h1.nodup⟩, ?_⟩, Frame.prev (Frame.store (Frame.prev (Frame.store
        (Frame.refl _ _ _) (by simp [okCell])) (by simp)) (by simp [okCell])) (by simp)⟩
    · have hp : m.ptr (.head h) = some y := hr.path.1
      have hne : (.head h : Cell H N) ≠ .next x := by simp
      simp only [exec, insertHead, Option.bind_some, Mem.store_ptr, upd_same, upd_ne _ _ hne, hp]
    · refine prevs_insert (a := []) hr.prevs hn ?_ ?_ ?_
      · simp [endC]
      · intro z l' e; cases e
        simp only [Mem.setPrev_prev, Mem.store_prev]; rw [upd_ne _ _ (Ne.symm hxy), upd_same]
      · intro z hz1 hz2
        simp only [Mem.setPrev_prev, Mem.store_prev]
        rw [upd_ne _ _ hz1, upd_ne _ _ (by rintro rfl; exact hz2 _ rfl)]

theorem insertAfter_rep {m : Mem H N} {h : H} {l1 l2 : List N} {y x : N} (hr : LRep m h (l1 ++ y :: l2))
    (hx : x ∉ l1 ++ y :: l2) :
    ∃ m', exec (insertAfter y x) m = some m' ∧ LRep m' h (l1 ++ y :: x :: l2) ∧
      Frame m m' [h] (x :: (l1 ++ y :: l2)) := by
  have hr' : SRep m h ((l1 ++ [y]) ++ l2) := by simpa using hr.toSRep
  obtain ⟨h1, h2⟩ := SL.insert_rep (x := x) hr' (by simpa using hx)
  rw [endC_snoc] at h1 h2
  have hn := h1.nodup
  have hxy : x ≠ y := by rintro rfl; exact hx (by simp)
  have hyx : (.next y : Cell H N) ≠ .next x := by simpa using Ne.symm hxy
  have hq : Prevs m.prev (.head h) ((l1 ++ [y]) ++ l2) := by simpa using hr.prevs
  have hpy := (path_append.1 hr'.path).2
  rw [endC_snoc] at hpy
  cases l2 with
  | nil =>
    refine ⟨((m.store (.next x) (m.ptr (.next y))).setPrev x (.next y)).store (.next y) (some x), ?_, ?_,
      Frame.store (Frame.prev (Frame.store (Frame.refl _ _ _) (by simp [okCell])) (by simp)) (by simp [okCell])⟩
    · have hp : m.ptr (.next y) = none := hpy
      simp only [exec, insertAfter, Option.bind_some, Mem.store_ptr, Mem.setPrev_ptr, upd_ne _ _ hyx, hp]
    · refine ⟨⟨by simpa using h1.path, by simpa using h1.nodup⟩, ?_⟩
      have := prevs_insert (q' := upd m.prev x (.next y)) hq hn (by simp [endC_snoc]) (by simp)
        (fun z hz _ => upd_ne _ _ hz)
      simpa using this
  | cons z l2 =>
    have hxz : x ≠ z := by rintro rfl; exact hx (by simp)
    refine ⟨(((m.store (.next x) (m.ptr (.next y))).setPrev x (.next y)).setPrev z (.next x)).store (.next y)
      (some x), ?_, ?_, Frame.store (Frame.prev (Frame.prev (Frame.store (Frame.refl _ _ _) (by simp [okCell]))
      (by simp)) (by simp)) (by simp [okCell])⟩
    · have hp : m.ptr (.next y) = some z := hpy.1
      simp only [exec, insertAfter, Option.bind_some, Mem.store_ptr, Mem.setPrev_ptr, upd_ne _ _ hyx, hp]
    · refine ⟨⟨by simpa using h1.path, by simpa using h1.nodup⟩, ?_⟩
      have := prevs_insert (q' := upd (upd m.prev x (.next y)) z (.next x)) hq hn
        (by rw [upd_ne _ _ hxz, upd_same, endC_snoc]) (by intro w l e; cases e; simp)
        (fun w hw1 hw2 => by rw [upd_ne _ _ (by rintro rfl; exact hw2 _ rfl), upd_ne _ _ hw1])
      simpa using this

theorem insertBefore_rep {m : Mem H N} {h : H} {l1 l2 : List N} {y x : N} (hr : LRep m h (l1 ++ y :: l2))
    (hx : x ∉ l1 ++ y :: l2) :
    ∃ m', exec (insertBefore y x) m = some m' ∧ LRep m' h (l1 ++ x :: y :: l2) ∧
      Frame m m' [h] (x :: (l1 ++ y :: l2)) := by
  obtain ⟨h1, h2⟩ := SL.insert_rep (x := x) hr.toSRep hx
  have hpy := ptr_end hr.path
  rw [hpy] at h1 h2
  have hxy : x ≠ y := by rintro rfl; exact hx (by simp)
  have hpv : m.prev y = endC (.head h) l1 := (prevs_append.1 hr.prevs).2.1
  refine ⟨_, rfl, ⟨⟨?_, h1.nodup⟩, ?_⟩, ?_⟩
  · simp only [Mem.setPrev_prev, Mem.setPrev_ptr, Mem.store_prev, Mem.store_ptr, upd_ne _ _ (Ne.symm hxy), hpv]
    exact h1.path
  · refine prevs_insert hr.prevs h1.nodup ?_ ?_ ?_
    · simp only [Mem.setPrev_prev, Mem.store_prev]
      rw [upd_ne _ _ hxy, upd_same, hpv]
    · intro z l e; cases e; simp only [Mem.setPrev_prev, upd_same]
    · intro z hz1 hz2
      simp only [Mem.setPrev_prev, Mem.store_prev]
      rw [upd_ne _ _ (by rintro rfl; exact hz2 _ rfl), upd_ne _ _ hz1]
  · refine Frame.prev (Frame.store (Frame.store (Frame.prev (Frame.refl _ _ _) (by simp))
      (by simp [okCell])) ?_) (by simp)
    simp only [Mem.setPrev_prev, Mem.setPrev_ptr, Mem.store_prev, Mem.store_ptr, upd_ne _ _ (Ne.symm hxy), hpv]
    exact okCell_end (by simp) (by simp_all)

theorem remove_rep {m : Mem H N} {h : H} {l1 l2 : List N} {x : N} (hr : LRep m h (l1 ++ x :: l2)) :
    ∃ m', exec (remove x) m = some m' ∧ LRep m' h (l1 ++ l2) ∧ Frame m m' [h] (l1 ++ l2) := by
  obtain ⟨h1, h2⟩ := SL.remove_rep' hr.toSRep
  have hpv : m.prev x = endC (.head h) l1 := (prevs_append.1 hr.prevs).2.1
  have hpx := (path_append.1 hr.path).2.2
  have hn := hr.nodup
  have hx := mem_pred hn
  have hne : (.next x : Cell H N) ≠ endC (.head h) l1 := Ne.symm (endC_next_ne hx)
  have hq := prevs_append.1 hr.prevs
  have h2' : Frame m (m.store (endC (.head h) l1) (m.ptr (.next x))) [h] (l1 ++ l2) :=
    ⟨h2.head, fun y hy => h2.elt y fun hm => hy (List.mem_append_left _ hm)⟩
  cases l2 with
  | nil =>
    refine ⟨_, ?_, ⟨h1, ?_⟩, h2'⟩
    · have hp : m.ptr (.next x) = none := hpx
      simp only [exec, remove, Option.bind_some, hpv]
      simp only [Mem.store_ptr, upd_ne _ _ hne, hp, Option.bind_some]
    · rw [List.append_nil]; exact hq.1
  | cons z l2 =>
    refine ⟨(m.store (endC (.head h) l1) (m.ptr (.next x))).setPrev z (endC (.head h) l1), ?_,
      ⟨⟨h1.path, h1.nodup⟩, ?_⟩, h2'.prev (by simp)⟩
    · have hp : m.ptr (.next x) = some z := hpx.1
      simp only [exec, remove, Option.bind_some, hpv]
      simp only [Mem.store_ptr, Mem.store_prev, upd_ne _ _ hne, hp, hpv, Option.bind_some]
    · rw [List.nodup_append] at hn
      obtain ⟨-, hn2, hn3⟩ := hn
      simp only [List.nodup_cons, List.mem_cons, not_or] at hn2
      rw [prevs_append]
      refine ⟨(prevs_upd ?_).2 hq.1, by simp, (prevs_upd hn2.2.1).2 hq.2.2.2⟩
      intro hz; exact hn3 z hz z (by simp) rfl

/-- `CK_LIST_MOVE(h1, h2)`: `h1` gets the content of `h2`; `h2` may only be reinitialised. -/
theorem move_rep {m : Mem H N} {h1 h2 : H} {l : List N} (hr : LRep m h2 l) :
    ∃ m', exec (move h1 h2) m = some m' ∧ LRep m' h1 l ∧ Frame m m' [h1] l := by
  have hs := path_splice (p := m.ptr) (h := h1) (v := m.ptr (.head h2)) (a := []) (b := l) trivial hr.nodup
    (from_iff.2 hr.path)
  cases l with
  | nil =>
    have hp : m.ptr (.head h2) = none := hr.path
    refine ⟨m.store (.head h1) (m.ptr (.head h2)), ?_, ⟨⟨hs, hr.nodup⟩, trivial⟩,
      (Frame.refl _ _ _).store (by simp [okCell])⟩
    simp [exec, move, fixPrev, hp]
  | cons z l =>
    have hp : m.ptr (.head h2) = some z := hr.path.1
    refine ⟨(m.store (.head h1) (m.ptr (.head h2))).setPrev z (.head h1), ?_, ⟨⟨hs, hr.nodup⟩, ?_⟩,
      ((Frame.refl _ _ _).store (by simp [okCell])).prev (by simp)⟩
    · simp [exec, move, fixPrev, hp]
    · exact ⟨by simp, (prevs_upd (List.nodup_cons.1 hr.nodup).1).2 hr.prevs.2⟩

theorem swap_rep {m : Mem H N} {h1 h2 : H} {l1 l2 : List N} (hne : h1 ≠ h2) (hd : (l1 ++ l2).Nodup)
    (hr1 : LRep m h1 l1) (hr2 : LRep m h2 l2) :
    ∃ m', exec (swap h1 h2 m) m = some m' ∧ LRep m' h1 l2 ∧ LRep m' h2 l1 ∧
      Frame m m' [h1, h2] (l1 ++ l2) := by
  have hp1 : From m.ptr (m.ptr (.head h1)) l1 := from_iff.2 hr1.path
  have hp2 : From m.ptr (m.ptr (.head h2)) l2 := from_iff.2 hr2.path
  obtain ⟨m2, e2, hs1, hs2, -⟩ := SL.swap_rep hr1.toSRep hr2.toSRep
  simp only [exec, SL.swap, Option.bind_some, Option.some.injEq] at e2
  rw [List.nodup_append] at hd
  -- the back pointer of the first element
  have fix : ∀ (m : Mem H N) (h h' : H) (l : List N), Path m.ptr (.head h) l → Prevs m.prev (.head h') l →
      l.Nodup → ∃ m', fixPrev h m = some m' ∧ m'.ptr = m.ptr ∧ m'.last = m.last ∧
        Prevs m'.prev (.head h) l ∧ ∀ x, x ∉ l → m'.prev x = m.prev x := by
    intro m h h' l hp hq hn
    cases l with
    | nil =>
      have hp : m.ptr (.head h) = none := hp
      exact ⟨m, by rw [fixPrev, hp], rfl, rfl, trivial, fun _ _ => rfl⟩
    | cons z l =>
      refine ⟨m.setPrev z (.head h), by rw [fixPrev, hp.1], rfl, rfl, ⟨by simp, ?_⟩, fun x hx => ?_⟩
      · exact (prevs_upd (List.nodup_cons.1 hn).1).2 hq.2
      · exact upd_ne _ _ (by rintro rfl; exact hx (by simp))
  have hpv : m2.prev = m.prev := by rw [← e2]; rfl
  obtain ⟨m3, f1, f2, f3, f4, f5⟩ := fix m2 h1 h2 l2 hs1.path (by rw [hpv]; exact hr2.prevs) hr2.nodup
  have hq1 : Prevs m3.prev (.head h1) l1 := by
    have key : ∀ (l : List N) (c : Cell H N), (∀ x ∈ l, x ∉ l2) → Prevs m2.prev c l → Prevs m3.prev c l := by
      intro l
      induction l with
      | nil => intros; trivial
      | cons y l ih =>
        intro c hz hp
        exact ⟨by rw [f5 y (hz y (by simp))]; exact hp.1, ih _ (fun z hzl => hz z (by simp [hzl])) hp.2⟩
    exact key l1 _ (fun x hx hx2 => hd.2.2 x hx x hx2 rfl) (by rw [hpv]; exact hr1.prevs)
  obtain ⟨m4, g1, g2, g3, g4, g5⟩ := fix m3 h2 h1 l1 (by rw [f2]; exact hs2.path) hq1 hr1.nodup
  have hq2 : Prevs m4.prev (.head h1) l2 := by
    have key : ∀ (l : List N) (c : Cell H N), (∀ x ∈ l, x ∉ l1) → Prevs m3.prev c l → Prevs m4.prev c l := by
      intro l
      induction l with
      | nil => intros; trivial
      | cons y l ih =>
        intro c hz hp
        exact ⟨by rw [g5 y (hz y (by simp))]; exact hp.1, ih _ (fun z hzl => hz z (by simp [hzl])) hp.2⟩
    exact key l2 _ (fun x hx hx2 => hd.2.2 x hx2 x hx rfl) f4
  refine ⟨m4, ?_, ⟨⟨by rw [g2, f2]; exact hs1.path, hs1.nodup⟩, hq2⟩,
    ⟨⟨by rw [g2, f2]; exact hs2.path, hs2.nodup⟩, g4⟩, ?_⟩
  · simp only [exec, swap, Option.bind_some]
    rw [e2, f1]
    simp only [Option.bind_some]
    rw [g1]; rfl
  · refine ⟨fun h hh => ?_, fun x hx => ?_⟩
    · simp only [List.mem_cons, List.not_mem_nil, or_false, not_or] at hh
      rw [g2, f2, g3, f3, ← e2]
      simp only [Mem.store_ptr, Mem.store_last]
      rw [upd_ne _ _ (by simpa using hh.2), upd_ne _ _ (by simpa using hh.1)]
      exact ⟨rfl, trivial⟩
    · simp only [List.mem_append, not_or] at hx
      rw [g2, f2, g5 x hx.1, f5 x hx.2, ← e2]
      simp only [Mem.store_ptr, Mem.store_prev]
      rw [upd_ne _ _ (by simp), upd_ne _ _ (by simp)]
      exact ⟨rfl, trivial⟩

end LST

/-! ## Traversal -/

omit [DecidableEq H] [DecidableEq N] in
/-- `CK_*_FOREACH` visits exactly the content in order. -/
theorem foreach_visits {m : Mem H N} {c : Cell H N} {l : List N} {fuel : Nat} (hp : Path m.ptr c l)
    (hf : l.length < fuel) : foreach m fuel c = some l := by
  induction l generalizing c fuel with
  | nil =>
    cases fuel with
    | zero => simp at hf
    | succ k => simp only [foreach]; have hp : m.ptr c = none := hp; rw [hp]
  | cons x l ih =>
    cases fuel with
    | zero => simp at hf
    | succ k => simp only [foreach, hp.1, ih hp.2 (by simpa using hf), Option.map_some]

/-- `CK_LIST_FOREACH_SAFE` with a body that removes the element and then does anything to its fields (frees it):
visits every element, leaves the list empty. -/
theorem foreachSafe_remove {m : Mem H N} {h : H} {l : List N} {fuel : Nat} {g : N → Mem H N → Mem H N}
    (hg : ∀ x m, Frame m (g x m) [] [x]) (hr : LRep m h l) (hf : l.length ≤ fuel) :
    ∃ m', foreachSafe (fun x m => (exec (LST.remove x) m).map (g x)) fuel m (m.ptr (.head h)) = some (l, m') ∧
      LRep m' h [] := by
  induction l generalizing m fuel with
  | nil =>
    have hp : m.ptr (.head h) = none := hr.path
    exact ⟨m, by rw [hp]; cases fuel <;> rfl, hr⟩
  | cons x l ih =>
    cases fuel with
    | zero => simp at hf
    | succ k =>
      obtain ⟨m1, h1, h2, -⟩ := LST.remove_rep (l1 := []) hr
      have hx : x ∉ l := (List.nodup_cons.1 hr.nodup).1
      have h2' : LRep (g x m1) h l := (hg x m1).lrep (by simp) (by simp; rintro y hy rfl; exact hx hy) h2
      obtain ⟨m', h3, h4⟩ := ih (fuel := k) h2' (by simpa using hf)
      refine ⟨m', ?_, h4⟩
      rw [hr.path.1]
      simp only [foreachSafe, h1, Option.map_some]
      have e : m.ptr (.next x) = (g x m1).ptr (.head h) := by
        have a1 := hr.path.2
        have a2 := h2'.path
        cases l with
        | nil => exact Eq.trans (b := none) a1 (Eq.symm a2)
        | cons y l => rw [a1.1, a2.1]
      rw [e, h3]; rfl

/-- For instance: the body clears the pointers of the element it removed. -/
example : ∃ g : Nat → Mem Nat Nat → Mem Nat Nat, (∀ x m, Frame m (g x m) [] [x]) ∧
    ∀ x m, (g x m).ptr (.next x) = none :=
  ⟨fun x m => m.store (.next x) none, fun x m => (Frame.refl _ _ _).store (by simp [okCell]),
    fun x m => upd_same _ _ _⟩

/-! ## Concrete cases -/

/-- A list, a tail queue or a double list 0, 1, 2 at head 0 and 7, 8 at head 1. -/
def ex0 : Mem Nat Nat :=
  { ptr := fun
      | .head 0 => some 0 | .head 1 => some 7 | .next 0 => some 1 | .next 1 => some 2 | .next 7 => some 8
      | _ => none
    last := fun h => if h = 0 then .next 2 else .next 8
    prev := fun x => if x = 0 then .head 0 else if x = 7 then .head 1 else .next (x - 1) }

example : TRep ex0 0 [0, 1, 2] ∧ LRep ex0 0 [0, 1, 2] ∧ TRep ex0 1 [7, 8] ∧ LRep ex0 1 [7, 8] :=
  ⟨⟨⟨by simp [Path, ex0], by decide⟩, rfl⟩, ⟨⟨by simp [Path, ex0], by decide⟩, by simp [Prevs, ex0]⟩,
   ⟨⟨by simp [Path, ex0], by decide⟩, rfl⟩, ⟨⟨by simp [Path, ex0], by decide⟩, by simp [Prevs, ex0]⟩⟩

example : ((exec (LST.insertBefore 1 5) ex0).bind (exec (LST.remove 0))).bind (foreach · 9 (.head 0)) =
    some [5, 1, 2] := by rfl
example : ((STQ.remove 9 0 2 ex0).bind fun fs => (exec fs ex0).bind fun m => exec (STQ.concat 0 1 m) m).bind
    (foreach · 9 (.head 0)) = some [0, 1, 7, 8] := by rfl

end Verif.Queue
