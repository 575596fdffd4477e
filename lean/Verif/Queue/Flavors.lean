import Verif.Queue.Reader

/-!
# The insert and remove macros under concurrent traversal (C54)
-/

namespace Verif.Queue

open Verif

variable {H N : Type} [DecidableEq H] [DecidableEq N] {n : Nat}

/-- Position in a list: the elements before and from there on. -/
def Split (h : H) (m : Mem H N) (a b : List N) : Prop := Path m.ptr (.head h) (a ++ b)

/-- Statements that do not change pointers. -/
def Nops : List (Stmt H N) → Mem H N → Prop
  | [], _ => True
  | f :: fs, m => ∃ m1, f m = some m1 ∧ m1.ptr = m.ptr ∧ Nops fs m1

theorem effs_nops {h : H} {e : Option N} {fs : List (Stmt H N)} {m : Mem H N} {l : List N}
    (hf : Nops fs m) : Effs h e fs m l l := by
  induction fs generalizing m with
  | nil => rfl
  | cons f fs ih => obtain ⟨m1, h1, h2, h3⟩ := hf; exact ⟨m1, l, h1, .nop h2, ih h3⟩

/-- Initialise `x->next`, other stores, publish, other stores. -/
theorem effs_ins {h : H} {m m1 m2 m3 : Mem H N} {x : N} {a b l : List N} {f1 f2 : Stmt H N}
    {fs gs : List (Stmt H N)} (hl : l = a ++ b) (hx : x ∉ l) (h1 : f1 m = some m1)
    (e1 : m1.ptr = upd m.ptr (.next x) (m.ptr (endC (.head h) a))) (hf : Nops fs m1) (e2 : exec fs m1 = some m2)
    (h3 : f2 m2 = some m3) (e3 : m3.ptr = upd m2.ptr (endC (.head h) a) (some x)) (hg : Nops gs m3) :
    Effs h (some x) (f1 :: (fs ++ f2 :: gs)) m l (a ++ x :: b) := by
  refine ⟨m1, l, h1, .priv rfl hx e1, ?_⟩
  have hx' : x ∉ a := by rw [hl] at hx; simp only [List.mem_append, not_or] at hx; exact hx.1
  have key : ∀ m', m'.ptr = m1.ptr → Nops fs m' → exec fs m' = some m2 →
      Effs h (some x) (fs ++ f2 :: gs) m' l (a ++ x :: b) := by
    clear hf e2
    induction fs with
    | nil =>
      intro m' e hf e2
      cases e2
      refine ⟨m3, _, h3, .ins rfl hl hx ?_ e3, effs_nops hg⟩
      rw [e, e1, upd_same, upd_ne _ _ (endC_next_ne hx')]
    | cons f fs ih =>
      rintro m' e ⟨m5, k1, k2, k3⟩ e2
      refine ⟨m5, l, k1, .nop k2, ih m5 (k2.trans e) k3 ?_⟩
      simpa [exec, k1] using e2
  exact key m1 rfl hf e2

/-! ## `CK_SLIST` -/

inductive SlOp (H N : Type)
  | insertHead (x : N)
  | insertAfter (y x : N)
  | insertPrevptr (p : Cell H N) (y x : N)
  | removeHead
  | removeAfter (y : N)
  | remove (fuel : Nat) (x : N)
  | removePrevptr (p : Cell H N) (x : N)

def slist (h : H) : Flavor H N where
  Op := SlOp H N
  prog o m := match o with
    | .insertHead x => some (SL.insertHead h x)
    | .insertAfter y x => some (SL.insertAfter y x)
    | .insertPrevptr p y x => some (SL.insertPrevptr p y x)
    | .removeHead => some (SL.removeHead h)
    | .removeAfter y => some (SL.removeAfter y)
    | .remove fuel x => SL.remove fuel h x m
    | .removePrevptr p x => some (SL.removePrevptr p x)
  elem o := match o with
    | .insertHead x | .insertAfter _ x | .insertPrevptr _ _ x => some x
    | _ => none
  pre o m := match o with
    | .insertHead _ => True
    | .insertAfter y _ => InList h m y
    | .insertPrevptr p y _ => ∃ a b, Split h m a (y :: b) ∧ p = endC (.head h) a
    | .removeHead => ∃ x b, Split h m [] (x :: b)
    | .removeAfter y => ∃ a x b, Split h m a (y :: x :: b)
    | .remove fuel x => ∃ a b, Split h m a (x :: b) ∧ a.length ≤ fuel
    | .removePrevptr p x => ∃ a b, Split h m a (x :: b) ∧ p = endC (.head h) a
  rep m l := SRep m h l

/-- What `Sound.op` asks of one operation. -/
def OpSound (h : H) (rep : Mem H N → List N → Prop) (e : Option N) (fs : List (Stmt H N)) (m : Mem H N)
    (l : List N) : Prop :=
  ∃ l', Effs h e fs m l l' ∧ ∀ m', exec fs m = some m' → rep m' l'

omit [DecidableEq H] [DecidableEq N] in
theorem SRep.of_split {m : Mem H N} {h : H} {l a b : List N} (hr : SRep m h l) (hs : Split h m a b) :
    l = a ++ b := path_unique hr.path hs

theorem OpSound.of {h : H} {rep : Mem H N → List N → Prop} {e : Option N} {fs : List (Stmt H N)} {m : Mem H N}
    {l l' : List N} (h1 : Effs h e fs m l l') (h2 : ∃ m', exec fs m = some m' ∧ rep m' l') :
    OpSound h rep e fs m l := by
  obtain ⟨m', h3, h4⟩ := h2
  exact ⟨l', h1, fun m'' h5 => by rw [h3] at h5; cases h5; exact h4⟩

theorem SL.ins_effs {h : H} {m : Mem H N} {a b l : List N} {x : N} (hl : l = a ++ b) (hx : x ∉ l)
    {f1 f2 : Stmt H N} (h1 : f1 m = some (m.store (.next x) (m.ptr (endC (.head h) a))))
    (h2 : ∀ m, f2 m = some (m.store (endC (.head h) a) (some x))) :
    Effs h (some x) [f1, f2] m l (a ++ x :: b) :=
  effs_ins (fs := []) (gs := []) (m1 := m.store (.next x) (m.ptr (endC (.head h) a))) hl hx h1 rfl trivial rfl
    (h2 _) rfl trivial

theorem SL.del_effs {h : H} {m : Mem H N} {a b l : List N} {x : N} (hl : l = a ++ x :: b) {f : Stmt H N}
    {gs : List (Stmt H N)} {m1 : Mem H N} (h1 : f m = some m1)
    (e1 : m1.ptr = upd m.ptr (endC (.head h) a) (m.ptr (.next x))) (hg : Nops gs m1) :
    Effs h none (f :: gs) m l (a ++ b) :=
  ⟨m1, _, h1, .del rfl hl e1, effs_nops hg⟩

/-- Where `CK_SLIST_REMOVE` and `CK_STAILQ_REMOVE` find the predecessor. -/
theorem findPrev_split {m : Mem H N} {h : H} {a b : List N} {x : N} {fuel : Nat} (hr : SRep m h (a ++ x :: b))
    (hf : a.length ≤ fuel) :
    (a = [] ∧ m.ptr (.head h) = some x) ∨
    ∃ a' y cur, a = a' ++ [y] ∧ m.ptr (.head h) = some cur ∧ cur ≠ x ∧ findPrev m x fuel cur = some y := by
  cases a with
  | nil => exact Or.inl ⟨rfl, hr.path.1⟩
  | cons cur l =>
    right
    have hx := mem_pred hr.nodup
    simp only [List.mem_cons, not_or] at hx
    obtain ⟨y, h1, h2, h3⟩ := findPrev_eq (fuel := fuel) hr.path.2 hx.2 (by simp at hf; omega)
    rcases endC_cases (.head h) (cur :: l) with ⟨e, -⟩ | ⟨a', y', ha, e⟩
    · cases e
    · have e' : endC (.next cur) l = (.next y' : Cell H N) := e
      rw [h2] at e'
      cases e'
      exact ⟨a', y, cur, ha, hr.path.1, Ne.symm hx.1, h1⟩

theorem slist_sound (h : H) : Sound h (slist h (N := N)) where
  path m l hr := ⟨hr.path, hr.nodup⟩
  op o m l fs hr hpre hx hfs := by
    have hr : SRep m h l := hr
    change OpSound h (fun m l => SRep m h l) _ fs m l
    cases o with
    | insertHead x =>
      cases hfs
      obtain ⟨m', k1, k2, -⟩ := SL.insertHead_rep hr (hx x rfl)
      exact .of (SL.ins_effs (a := []) rfl (hx x rfl) rfl fun _ => rfl) ⟨m', k1, k2⟩
    | insertAfter y x =>
      cases hfs
      obtain ⟨l0, hp, hy⟩ := hpre
      rw [path_unique hp hr.path] at hy
      obtain ⟨a, b, rfl⟩ := List.append_of_mem hy
      have hx := hx x rfl
      obtain ⟨m', k1, k2, -⟩ := SL.insertAfter_rep hr hx
      refine .of (SL.ins_effs (a := a ++ [y]) (b := b) (by simp) hx ?_ ?_) ⟨m', k1, ?_⟩
      · rw [endC_snoc]
      · intro m; rw [endC_snoc]
      · simpa using k2
    | insertPrevptr p y x =>
      cases hfs
      obtain ⟨a, b, hs, rfl⟩ := hpre
      obtain rfl := hr.of_split hs
      have hx := hx x rfl
      obtain ⟨m', k1, k2, -⟩ := SL.insertPrevptr_rep hr hx
      refine .of (SL.ins_effs (a := a) (b := y :: b) rfl hx ?_ fun _ => rfl) ⟨m', k1, k2⟩
      rw [ptr_end hr.path]
    | removeHead =>
      cases hfs
      obtain ⟨x, b, hs⟩ := hpre
      obtain rfl := hr.of_split hs
      obtain ⟨m', k1, k2, -⟩ := SL.removeHead_rep hr
      have hp := hr.path.1
      exact .of (SL.del_effs (a := []) (b := b) (x := x) rfl (m1 := m.store (.head h) (m.ptr (.next x)))
        (by simp [hp]) rfl trivial) ⟨m', k1, k2⟩
    | removeAfter y =>
      cases hfs
      obtain ⟨a, x, b, hs⟩ := hpre
      obtain rfl := hr.of_split hs
      obtain ⟨m', k1, k2, -⟩ := SL.removeAfter_rep hr
      have hr' : SRep m h ((a ++ [y]) ++ x :: b) := by simpa using hr
      have hp := ptr_end hr'.path
      rw [endC_snoc] at hp
      exact .of (SL.del_effs (a := a ++ [y]) (b := b) (x := x) (by simp)
        (m1 := m.store (.next y) (m.ptr (.next x))) (by simp [hp]) (by rw [endC_snoc]; rfl) trivial)
        ⟨m', k1, by simpa using k2⟩
    | remove fuel x =>
      have hfs : SL.remove fuel h x m = some fs := hfs
      obtain ⟨a, b, hs, hf⟩ := hpre
      obtain rfl := hr.of_split hs
      obtain ⟨fs', m', k0, k1, k2, -⟩ := SL.remove_rep hr hf
      rw [hfs] at k0
      cases k0
      refine .of ?_ ⟨m', k1, k2⟩
      rcases findPrev_split hr hf with ⟨rfl, hp⟩ | ⟨a', y, cur, rfl, hp, hne, hfp⟩
      · rw [SL.remove, if_pos hp] at hfs
        cases hfs
        exact SL.del_effs (a := []) rfl (m1 := m.store (.head h) (m.ptr (.next x))) (by simp [hp]) rfl trivial
      · rw [SL.remove, if_neg (by rw [hp]; simpa using hne), hp] at hfs
        simp only [hfp, Option.map_some, Option.some.injEq] at hfs
        subst hfs
        have hq := ptr_end hr.path
        rw [endC_snoc] at hq
        exact SL.del_effs (a := a' ++ [y]) rfl (m1 := m.store (.next y) (m.ptr (.next x))) (by simp [hq])
          (by rw [endC_snoc]; rfl) trivial
    | removePrevptr p x =>
      cases hfs
      obtain ⟨a, b, hs, rfl⟩ := hpre
      obtain rfl := hr.of_split hs
      obtain ⟨m', k1, k2, -⟩ := SL.removePrevptr_rep hr
      exact .of (SL.del_effs (a := a) rfl rfl rfl trivial) ⟨m', k1, k2⟩

/-! ## `CK_STAILQ` -/

inductive StqOp (N : Type)
  | insertHead (x : N)
  | insertAfter (y x : N)
  | insertTail (x : N)
  | removeHead
  | removeAfter (y : N)
  | remove (fuel : Nat) (x : N)

def stailq (h : H) : Flavor H N where
  Op := StqOp N
  prog o m := match o with
    | .insertHead x => some (STQ.insertHead h x)
    | .insertAfter y x => some (STQ.insertAfter h y x)
    | .insertTail x => some (STQ.insertTail h x)
    | .removeHead => some (STQ.removeHead h)
    | .removeAfter y => some (STQ.removeAfter h y)
    | .remove fuel x => STQ.remove fuel h x m
  elem o := match o with
    | .insertHead x | .insertAfter _ x | .insertTail x => some x
    | _ => none
  pre o m := match o with
    | .insertHead _ | .insertTail _ => True
    | .insertAfter y _ => InList h m y
    | .removeHead => ∃ x b, Split h m [] (x :: b)
    | .removeAfter y => ∃ a x b, Split h m a (y :: x :: b)
    | .remove fuel x => ∃ a b, Split h m a (x :: b) ∧ a.length ≤ fuel
  rep m l := TRep m h l

theorem nops_fixLast (h : H) (x : N) (m : Mem H N) : Nops [STQ.fixLast h x] m := by
  by_cases e : m.ptr (.next x) = none
  · exact ⟨m.setLast h (.next x), by simp [STQ.fixLast, e], rfl, trivial⟩
  · exact ⟨m, by simp [STQ.fixLast, e], rfl, trivial⟩

theorem STQ.nops_head (h : H) (m : Mem H N) :
    Nops [fun m => if m.ptr (.head h) = none then some (m.setLast h (.head h)) else some m] m := by
  by_cases e : m.ptr (.head h) = none
  · exact ⟨m.setLast h (.head h), by simp [e], rfl, trivial⟩
  · exact ⟨m, by simp [e], rfl, trivial⟩

theorem stailq_sound (h : H) : Sound h (stailq h (N := N)) where
  path m l hr := ⟨hr.path, hr.nodup⟩
  op o m l fs hr hpre hx hfs := by
    have hr : TRep m h l := hr
    have hs0 := hr.toSRep
    change OpSound h (fun m l => TRep m h l) _ fs m l
    cases o with
    | insertHead x =>
      cases hfs
      obtain ⟨m', k1, k2, -⟩ := STQ.insertHead_rep hr (hx x rfl)
      exact .of (effs_ins (fs := []) (a := []) (b := l) (m1 := m.store (.next x) (m.ptr (.head h)))
        rfl (hx x rfl) rfl rfl trivial rfl rfl rfl (nops_fixLast h x _)) ⟨m', k1, k2⟩
    | insertAfter y x =>
      cases hfs
      obtain ⟨l0, hp, hy⟩ := hpre
      rw [path_unique hp hr.path] at hy
      obtain ⟨a, b, rfl⟩ := List.append_of_mem hy
      have hx := hx x rfl
      obtain ⟨m', k1, k2, -⟩ := STQ.insertAfter_rep hr hx
      exact .of (effs_ins (fs := []) (a := a ++ [y]) (b := b) (m1 := m.store (.next x) (m.ptr (.next y)))
        (by simp) hx rfl (by rw [endC_snoc]; rfl) trivial rfl rfl (by rw [endC_snoc]; rfl) (nops_fixLast h x _))
        ⟨m', k1, by simpa using k2⟩
    | insertTail x =>
      cases hfs
      have hx := hx x rfl
      obtain ⟨m', k1, k2, -⟩ := STQ.insertTail_rep hr hx
      have hend : m.ptr (endC (.head h) l) = none := by
        have := hr.path
        rw [← List.append_nil l, path_append] at this
        exact this.2
      exact .of (effs_ins (fs := []) (a := l) (b := []) (m1 := m.store (.next x) none)
        (by simp) hx rfl (by rw [hend]; rfl) trivial rfl rfl (by rw [← hr.last]; rfl) ⟨_, rfl, rfl, trivial⟩)
        ⟨m', k1, k2⟩
    | removeHead =>
      cases hfs
      obtain ⟨x, b, hs⟩ := hpre
      obtain rfl := hs0.of_split hs
      obtain ⟨m', k1, k2, -⟩ := STQ.removeHead_rep hr
      have hp := hr.path.1
      refine .of (SL.del_effs (a := []) (b := b) (x := x) rfl (m1 := m.store (.head h) (m.ptr (.next x)))
        (by simp [hp]) rfl ?_) ⟨m', k1, k2⟩
      exact STQ.nops_head h _
    | removeAfter y =>
      cases hfs
      obtain ⟨a, x, b, hs⟩ := hpre
      obtain rfl := hs0.of_split hs
      obtain ⟨m', k1, k2, -⟩ := STQ.removeAfter_rep hr
      have hr' : SRep m h ((a ++ [y]) ++ x :: b) := by simpa using hs0
      have hp := ptr_end hr'.path
      rw [endC_snoc] at hp
      exact .of (SL.del_effs (a := a ++ [y]) (b := b) (x := x) (by simp)
        (m1 := m.store (.next y) (m.ptr (.next x))) (by simp [hp]) (by rw [endC_snoc]; rfl) (nops_fixLast h y _))
        ⟨m', k1, by simpa using k2⟩
    | remove fuel x =>
      have hfs : STQ.remove fuel h x m = some fs := hfs
      obtain ⟨a, b, hs, hf⟩ := hpre
      obtain rfl := hs0.of_split hs
      obtain ⟨fs', m', k0, k1, k2, -⟩ := STQ.remove_rep hr hf
      rw [hfs] at k0
      cases k0
      refine .of ?_ ⟨m', k1, k2⟩
      rcases findPrev_split hs0 hf with ⟨rfl, hp⟩ | ⟨a', y, cur, rfl, hp, hne, hfp⟩
      · rw [STQ.remove, if_pos hp] at hfs
        cases hfs
        exact SL.del_effs (a := []) rfl (m1 := m.store (.head h) (m.ptr (.next x))) (by simp [hp]) rfl
          (STQ.nops_head h _)
      · rw [STQ.remove, if_neg (by rw [hp]; simpa using hne), hp] at hfs
        simp only [hfp, Option.map_some, Option.some.injEq] at hfs
        subst hfs
        have hq := ptr_end hr.path
        rw [endC_snoc] at hq
        exact SL.del_effs (a := a' ++ [y]) rfl (m1 := m.store (.next y) (m.ptr (.next x))) (by simp [hq])
          (by rw [endC_snoc]; rfl) (nops_fixLast h y _)

/-! ## `CK_LIST` -/

inductive LstOp (N : Type)
  | insertHead (x : N)
  | insertAfter (y x : N)
  | insertBefore (y x : N)
  | remove (x : N)

def lst (h : H) : Flavor H N where
  Op := LstOp N
  prog o _ := match o with
    | .insertHead x => some (LST.insertHead h x)
    | .insertAfter y x => some (LST.insertAfter y x)
    | .insertBefore y x => some (LST.insertBefore y x)
    | .remove x => some (LST.remove x)
  elem o := match o with
    | .insertHead x | .insertAfter _ x | .insertBefore _ x => some x
    | _ => none
  pre o m := match o with
    | .insertHead _ => True
    | .insertAfter y _ | .insertBefore y _ | .remove y => InList h m y
  rep m l := LRep m h l

theorem lst_sound (h : H) : Sound h (lst h (N := N)) where
  path m l hr := ⟨hr.path, hr.nodup⟩
  op o m l fs hr hpre hx hfs := by
    have hr : LRep m h l := hr
    change OpSound h (fun m l => LRep m h l) _ fs m l
    cases o with
    | insertHead x =>
      cases hfs
      have hx := hx x rfl
      obtain ⟨m', k1, k2, -⟩ := LST.insertHead_rep hr hx
      refine .of ?_ ⟨m', k1, k2⟩
      cases hp : m.ptr (.head h) with
      | none =>
        exact effs_ins (fs := [_]) (a := []) (b := l) (m1 := m.store (.next x) (m.ptr (.head h)))
          (m2 := m.store (.next x) (m.ptr (.head h)))
          rfl hx rfl rfl ⟨m.store (.next x) (m.ptr (.head h)), by simp [hp], rfl, trivial⟩ (by simp [exec, hp]) rfl rfl
          ⟨_, rfl, rfl, trivial⟩
      | some z =>
        exact effs_ins (fs := [_]) (a := []) (b := l) (m1 := m.store (.next x) (m.ptr (.head h)))
          (m2 := (m.store (.next x) (m.ptr (.head h))).setPrev z (.next x))
          rfl hx rfl rfl ⟨(m.store (.next x) (m.ptr (.head h))).setPrev z (.next x), by simp [hp, upd_apply], rfl, trivial⟩
          (by simp [exec, hp, upd_apply]) rfl rfl ⟨_, rfl, rfl, trivial⟩
    | insertAfter y x =>
      cases hfs
      obtain ⟨l0, hp, hy⟩ := hpre
      rw [path_unique hp hr.path] at hy
      obtain ⟨a, b, rfl⟩ := List.append_of_mem hy
      have hx := hx x rfl
      have hxy : x ≠ y := by rintro rfl; exact hx (by simp)
      obtain ⟨m', k1, k2, -⟩ := LST.insertAfter_rep hr hx
      refine .of (l' := (a ++ [y]) ++ x :: b) ?_ ⟨m', k1, by simpa using k2⟩
      let m1 := m.store (.next x) (m.ptr (.next y))
      have hy1 : m1.ptr (.next y) = m.ptr (.next y) := by
        simp only [m1, Mem.store_ptr]; rw [upd_ne _ _ (by simpa using Ne.symm hxy)]
      cases hz : m.ptr (.next y) with
      | none =>
        rw [hz] at hy1
        exact effs_ins (fs := [_, _]) (gs := []) (a := a ++ [y]) (b := b) (m1 := m1) (m2 := m1.setPrev x (.next y))
          (by simp) hx rfl (by rw [endC_snoc]; rfl)
          ⟨m1.setPrev x (.next y), rfl, rfl, m1.setPrev x (.next y), by simp [hy1], rfl, trivial⟩
          (by simp [exec, hy1]) rfl (by rw [endC_snoc]; rfl) trivial
      | some z =>
        rw [hz] at hy1
        exact effs_ins (fs := [_, _]) (gs := []) (a := a ++ [y]) (b := b) (m1 := m1)
          (m2 := (m1.setPrev x (.next y)).setPrev z (.next x))
          (by simp) hx rfl (by rw [endC_snoc]; rfl)
          ⟨m1.setPrev x (.next y), rfl, rfl, (m1.setPrev x (.next y)).setPrev z (.next x), by simp [hy1], rfl, trivial⟩
          (by simp [exec, hy1]) rfl (by rw [endC_snoc]; rfl) trivial
    | insertBefore y x =>
      cases hfs
      obtain ⟨l0, hp, hy⟩ := hpre
      rw [path_unique hp hr.path] at hy
      obtain ⟨a, b, rfl⟩ := List.append_of_mem hy
      have hx := hx x rfl
      have hxy : x ≠ y := by rintro rfl; exact hx (by simp)
      obtain ⟨m', k1, k2, -⟩ := LST.insertBefore_rep hr hx
      refine .of (l' := a ++ x :: (y :: b)) ?_ ⟨m', k1, by simpa using k2⟩
      have hq : m.prev y = endC (.head h) a := (prevs_append.1 hr.prevs).2.1
      refine ⟨m.setPrev x (m.prev y), _, rfl, .nop rfl, ?_⟩
      exact effs_ins (fs := []) (gs := [_]) (a := a) (b := y :: b)
        (m1 := (m.setPrev x (m.prev y)).store (.next x) (some y)) rfl hx rfl
        (by
          have : (m.setPrev x (m.prev y)).ptr (endC (.head h) a) = some y := ptr_end hr.path
          rw [this]; rfl)
        trivial rfl rfl
        (by
          have : ((m.setPrev x (m.prev y)).store (.next x) (some y)).prev y = endC (.head h) a := by
            simp only [Mem.store_prev, Mem.setPrev_prev]
            rw [upd_ne _ _ (Ne.symm hxy), hq]
          simp only [Mem.store_ptr]
          rw [this])
        ⟨_, rfl, rfl, trivial⟩
    | remove x =>
      cases hfs
      obtain ⟨l0, hp, hy⟩ := hpre
      rw [path_unique hp hr.path] at hy
      obtain ⟨a, b, rfl⟩ := List.append_of_mem hy
      obtain ⟨m', k1, k2, -⟩ := LST.remove_rep hr
      have hq : m.prev x = endC (.head h) a := (prevs_append.1 hr.prevs).2.1
      refine .of (SL.del_effs (a := a) rfl (m1 := m.store (m.prev x) (m.ptr (.next x))) rfl (by rw [hq]; rfl) ?_)
        ⟨m', k1, k2⟩
      generalize m.store (m.prev x) (m.ptr (.next x)) = m1
      cases hz : m1.ptr (.next x) with
      | none => exact ⟨m1, by simp [hz], rfl, trivial⟩
      | some z => exact ⟨m1.setPrev z (m1.prev x), by simp [hz], rfl, trivial⟩

/-! ## The theorems -/

/-- `CK_SLIST_FOREACH` against insertions and removals. -/
theorem slist_traversal (h : H) {s : St H N n} (hs : (sys h (slist h) n).Reach s) :
    TraversalOk s ∧ WriterOk h (slist h) s := traversal (slist_sound h) hs

/-- `CK_STAILQ_FOREACH` against insertions and removals. -/
theorem stailq_traversal (h : H) {s : St H N n} (hs : (sys h (stailq h) n).Reach s) :
    TraversalOk s ∧ WriterOk h (stailq h) s := traversal (stailq_sound h) hs

/-- `CK_LIST_FOREACH` against insertions and removals. -/
theorem list_traversal (h : H) {s : St H N n} (hs : (sys h (lst h) n).Reach s) :
    TraversalOk s ∧ WriterOk h (lst h) s := traversal (lst_sound h) hs


/-- A list with 1 and 2. -/
def exL : Mem Nat Nat :=
  { ptr := fun c => match c with
      | .head _ => some 1
      | .next 1 => some 2
      | .next _ => none
    last := fun _ => .next 2
    prev := fun x => if x = 2 then .next 1 else .head 0 }

theorem exL_path : Path exL.ptr (.head 0) [1, 2] := ⟨rfl, rfl, rfl⟩

/-- A traversal during which the element it stands on is removed: it goes on to the end. -/
example : ∃ s : St Nat Nat 1, (sys 0 (lst 0) 1).Reach s ∧ (s.rd 0).pos = some none ∧ (s.rd 0).vis = [1, 2] ∧
    ¬ (s.rd 0).always 1 ∧ (s.rd 0).always 2 := by
  let r0 : Rd Nat := { pos := none, vis := [], ever := fun _ => False, always := fun _ => False }
  let s0 : St Nat Nat 1 := { mem := exL, pend := [], rd := fun _ => r0 }
  have hr0 : (sys 0 (lst 0) 1).Reach s0 :=
    .init ⟨rfl, ⟨[1, 2], ⟨⟨exL_path, by simp⟩, rfl, rfl, trivial⟩⟩, fun _ => rfl⟩
  have hr1 := hr0.step (a := .start 0) rfl
  have hr2 := hr1.step (a := .begin (.remove 1)) (by
    simp only [sys, step, s0]
    rw [if_pos]
    · rfl
    · exact ⟨⟨[1, 2], exL_path, by simp⟩, fun x hx => by cases hx⟩)
  have hr3 := hr2.step (a := .exec) rfl
  have hr4 := hr3.step (a := .exec) rfl
  have hr5 := hr4.step (a := .next 0) rfl
  have hr6 := hr5.step (a := .next 0) rfl
  refine ⟨_, hr6, rfl, rfl, ?_, ?_⟩
  · rintro ⟨⟨h1, ⟨l, hp, hm⟩⟩, -⟩
    have hp' : Path (exL.store (.head 0) (some 2)).ptr (.head 0) [2] := ⟨rfl, rfl⟩
    have := path_unique hp hp'
    subst this
    simp at hm
  · exact ⟨⟨⟨[1, 2], exL_path, by simp⟩, [2], ⟨rfl, rfl⟩, by simp⟩, [2], ⟨rfl, rfl⟩, by simp⟩

/-- Without the obligation on reinsertion the traversal is not safe: an element removed and inserted again ahead of
the reader is visited twice. -/
example : ∃ m1 m2 : Mem Nat Nat, exec (LST.remove 1) exL = some m1 ∧ exec (LST.insertAfter 2 1) m1 = some m2 ∧
    exL.ptr (.head 0) = some 1 ∧ m1.ptr (.next 1) = some 2 ∧ m2.ptr (.next 2) = some 1 :=
  ⟨_, _, rfl, rfl, rfl, rfl, rfl⟩

end Verif.Queue
