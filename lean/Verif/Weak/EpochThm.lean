import Verif.Weak.Epoch

/-!
# Epoch reclamation on relaxed memory: no node in use is destroyed (C79)
-/

namespace Verif.Weak.Ep

open Verif

variable {n m : Nat}

/-- past the first fence of `ck_epoch_begin` -/
def PC.post : PC → Prop
  | .idle | .fen1 => False
  | _ => True

/-- has loaded the epoch -/
def PC.has : PC → Prop
  | .stg | .fen2 | .sec => True
  | _ => False

/-- in the middle of a scan -/
def UPC.armed : UPC n → Prop
  | .scan | .eph _ | .blk _ => True
  | _ => False

/-- has an epoch -/
def UPC.dv : UPC n → Prop
  | .fen | .scan | .eph _ | .blk _ | .casf => True
  | _ => False

/-- A bound of what `record->epoch` has been. -/
def Lo (s : St n m) (u : Fin n) (k : Nat) : Prop :=
  ((s.pc u).has → k ≤ s.v u) ∧ (¬ (s.pc u).has → k ≤ (s.th u).cur .glob + 1)

/-- `u` has no pointer to a node `t` is waiting for, nor will it find one. -/
def Past (s : St n m) (t u : Fin n) : Prop :=
  s.pc u = .sec → ∀ w, s.ns w = .ret t → s.hold u w = false ∧ Unlinked s.mem (s.th u).cur w

/-- `u` is in a section that `t` will wait for. -/
structure Third (s : St n m) (t u : Fin n) : Prop where
  sec : s.pc u = .sec
  act : s.mem.top (.act u) ≤ (s.th t).cur (.act u)
  ep : s.mem.top (.ep u) ≤ (s.th t).cur (.ep u)
  i1 : (s.up t).i ≤ 1
  ld : (s.up t).pc = .load ∧ s.v u ≤ (s.th t).cur .glob + 1 ∧ (s.up t).i = 0 ∨
    (s.up t).pc.dv ∧ s.v u ≤ (s.up t).e ∧ s.v u ≤ (s.up t).d ∧ (1 ≤ (s.up t).i → s.v u < (s.up t).d)

structure Inv (s : St n m) : Prop where
  glob : ∀ i, i ≤ s.mem.top .glob → (s.mem.msg .glob i).val = i + 1
  act1 : ∀ u, s.pc u ≠ .idle → (s.mem.msg (.act u) (s.mem.top (.act u))).val = 1
  ownA : ∀ u, s.mem.top (.act u) ≤ (s.th u).cur (.act u)
  ownE : ∀ u, s.mem.top (.ep u) ≤ (s.th u).cur (.ep u)
  scA : ∀ u, (s.pc u).post → s.mem.top (.act u) ≤ s.sc (.act u)
  vle : ∀ u, (s.pc u).has → s.v u ≤ (s.th u).cur .glob + 1
  epLo : ∀ u j, j ≤ s.mem.top (.ep u) → Lo s u (s.mem.msg (.ep u) j).val
  epV : ∀ u, s.pc u = .fen2 ∨ s.pc u = .sec → (s.mem.msg (.ep u) (s.mem.top (.ep u))).val = s.v u
  scE : ∀ u, s.pc u = .sec → s.mem.top (.ep u) ≤ s.sc (.ep u) ∧ s.v u ≤ s.sc .glob + 1
  /-- the epoch is moved only by who has seen the newest one before its last full fence -/
  K0 : s.mem.top .glob ≤ s.sc .glob + 1
  /-- at most once while a section is open -/
  K1 : ∀ u, (s.pc u).post → Lo s u (s.mem.top .glob)
  hold0 : ∀ u w, s.pc u ≠ .sec → s.hold u w = false
  ret : ∀ t w, s.ns w = .ret t → Unlinked s.mem (s.th t).cur w
  freesc : ∀ w, s.ns w = .free → Unlinked s.mem s.sc w
  freeH : ∀ w u, s.ns w = .free → s.pc u = .sec → s.hold u w = false ∧ Unlinked s.mem (s.th u).cur w
  uD : ∀ t, (s.up t).pc.dv → (s.up t).d ≤ (s.th t).cur .glob + 1
  uS : ∀ t, (s.up t).pc.armed → (s.up t).d ≤ s.sc .glob + 1
  uJ : ∀ t u, (s.up t).pc.armed → (s.pc u).post → s.mem.top (.act u) ≤ (s.th t).cur (.act u) ∨ Lo s u (s.up t).d
  uE : ∀ t u, (s.up t).pc.armed → (s.up t).ok u = true → (s.pc u).post → Lo s u (s.up t).d
  uR : ∀ t w, (s.up t).sync = true → (s.up t).pc ≠ .idle → s.ns w = .ret t → Unlinked s.mem s.sc w
  uX : ∀ t u, (s.up t).sync = true → (s.up t).pc ≠ .idle → Past s t u ∨ Third s t u
  uE2 : ∀ t u, (s.up t).sync = true → (s.up t).pc.armed → (s.up t).ok u = true →
    Past s t u ∨ (s.v u = (s.up t).d ∧ (s.up t).af = true)
  uAf : ∀ t u, (s.up t).pc = .eph u → (s.up t).af = true
  /-- only `ck_epoch_synchronize` gets there -/
  uSy : ∀ t, (∃ u, (s.up t).pc = .blk u) ∨ (s.up t).pc = .casf ∨ (s.up t).pc = .out ∨ (s.up t).pc = .done → (s.up t).sync = true

theorem Unlinked.mono {mem : Mem (Loc n m) Nat} {k k' : View (Loc n m)} {w : Nat} (h : Unlinked mem k w)
    (hk : ∀ c, k (.cell c) ≤ k' (.cell c)) : Unlinked mem k' w :=
  fun c i h1 h2 => Nat.le_trans (h c i h1 h2) (hk c)

theorem Unlinked.eq {mem mem' : Mem (Loc n m) Nat} {k : View (Loc n m)} {w : Nat} (h : Unlinked mem k w)
    (h1 : ∀ c, mem'.top (.cell c) = mem.top (.cell c)) (h2 : ∀ c i, mem'.msg (.cell c) i = mem.msg (.cell c) i) :
    Unlinked mem' k w := fun c i h3 h4 => by
  rw [h1] at h3
  rw [h2] at h4
  exact h c i h3 h4

theorem Lo.le {s : St n m} {u : Fin n} {k k' : Nat} (h : Lo s u k) (hk : k' ≤ k) : Lo s u k' :=
  ⟨fun h' => Nat.le_trans hk (h.1 h'), fun h' => Nat.le_trans hk (h.2 h')⟩

/-- A thread learns something. -/
theorem Inv.grow {s : St n m} (hi : Inv s) {t : Fin n} {q : Th (Loc n m)} {sc : View (Loc n m)}
    (hc : ∀ x, (s.th t).cur x ≤ q.cur x) (hsc : ∀ x, s.sc x ≤ sc x) : Inv { s with sc := sc, th := upd s.th t q } := by
  have hq : ∀ u x, (s.th u).cur x ≤ (upd s.th t q u).cur x := fun u x => by
    rw [upd_apply]
    split
    · next h => subst h; exact hc x
    · exact Nat.le_refl _
  have hL : ∀ {u k}, Lo s u k → Lo { s with sc := sc, th := upd s.th t q } u k := fun {u k} h =>
    ⟨h.1, fun h' => Nat.le_trans (h.2 h') (Nat.succ_le_succ (hq u _))⟩
  have hP : ∀ {r u}, Past s r u → Past { s with sc := sc, th := upd s.th t q } r u := fun {r u} h h1 w h2 =>
    ⟨(h h1 w h2).1, (h h1 w h2).2.mono fun _ => hq _ _⟩
  exact {
    glob := hi.glob, act1 := hi.act1, epV := hi.epV, hold0 := hi.hold0, uAf := hi.uAf, uSy := hi.uSy
    ownA := fun u => Nat.le_trans (hi.ownA u) (hq _ _)
    ownE := fun u => Nat.le_trans (hi.ownE u) (hq _ _)
    scA := fun u h => Nat.le_trans (hi.scA u h) (hsc _)
    vle := fun u h => Nat.le_trans (hi.vle u h) (Nat.succ_le_succ (hq _ _))
    epLo := fun u j h => hL (hi.epLo u j h)
    scE := fun u h => ⟨Nat.le_trans (hi.scE u h).1 (hsc _), Nat.le_trans (hi.scE u h).2 (Nat.succ_le_succ (hsc _))⟩
    K0 := Nat.le_trans hi.K0 (Nat.succ_le_succ (hsc _))
    K1 := fun u h => hL (hi.K1 u h)
    ret := fun u w h => (hi.ret u w h).mono fun _ => hq _ _
    freesc := fun w h => (hi.freesc w h).mono fun _ => hsc _
    freeH := fun w u h h' => ⟨(hi.freeH w u h h').1, (hi.freeH w u h h').2.mono fun _ => hq _ _⟩
    uD := fun r h => Nat.le_trans (hi.uD r h) (Nat.succ_le_succ (hq _ _))
    uS := fun r h => Nat.le_trans (hi.uS r h) (Nat.succ_le_succ (hsc _))
    uJ := fun r u h h' => (hi.uJ r u h h').imp (fun h => Nat.le_trans h (hq _ _)) hL
    uE := fun r u h h' h'' => hL (hi.uE r u h h' h'')
    uR := fun r w h h' h'' => (hi.uR r w h h' h'').mono fun _ => hsc _
    uX := fun r u h h' => (hi.uX r u h h').imp hP fun h =>
      ⟨h.sec, Nat.le_trans h.act (hq _ _), Nat.le_trans h.ep (hq _ _), h.i1,
        h.ld.imp (fun h => ⟨h.1, Nat.le_trans h.2.1 (Nat.succ_le_succ (hq _ _)), h.2.2⟩) id⟩
    uE2 := fun r u h h' h'' => (hi.uE2 r u h h' h'').imp hP id }

/-- The scan of a thread changes. -/
theorem Inv.setUp {s : St n m} (hi : Inv s) {t : Fin n} {a : Up n}
    (uD : a.pc.dv → a.d ≤ (s.th t).cur .glob + 1)
    (uS : a.pc.armed → a.d ≤ s.sc .glob + 1)
    (uJ : ∀ u, a.pc.armed → (s.pc u).post → s.mem.top (.act u) ≤ (s.th t).cur (.act u) ∨ Lo s u a.d)
    (uE : ∀ u, a.pc.armed → a.ok u = true → (s.pc u).post → Lo s u a.d)
    (uR : ∀ w, a.sync = true → a.pc ≠ .idle → s.ns w = .ret t → Unlinked s.mem s.sc w)
    (uX : ∀ u, a.sync = true → a.pc ≠ .idle → Past s t u ∨ Third (setUp s t a) t u)
    (uE2 : ∀ u, a.sync = true → a.pc.armed → a.ok u = true → Past s t u ∨ (s.v u = a.d ∧ a.af = true))
    (uAf : ∀ u, a.pc = .eph u → a.af = true := by simp_all)
    (uSy : (∃ u, a.pc = .blk u) ∨ a.pc = .casf ∨ a.pc = .out ∨ a.pc = .done → a.sync = true := by simp_all) :
    Inv (setUp s t a) := by
  have e : ∀ u, u ≠ t → upd s.up t a u = s.up u := fun u hu => upd_ne _ _ hu
  refine { hi with
    uD := fun r h => ?_, uS := fun r h => ?_, uJ := fun r u h h' => ?_, uE := fun r u h h' h'' => ?_
    uR := fun r w h h' h'' => ?_, uX := fun r u h h' => ?_, uE2 := fun r u h h' h'' => ?_, uAf := fun r u h => ?_
    uSy := fun r h => ?_ } <;>
    simp only [Ep.setUp] at h <;> (try simp only [Ep.setUp] at h') <;> (try simp only [Ep.setUp] at h'') <;>
    by_cases hr : r = t
  · subst hr; rw [upd_same] at h; simp only [Ep.setUp, upd_same]; exact uD h
  · rw [e r hr] at h; simp only [Ep.setUp, e r hr]; exact hi.uD r h
  · subst hr; rw [upd_same] at h; simp only [Ep.setUp, upd_same]; exact uS h
  · rw [e r hr] at h; simp only [Ep.setUp, e r hr]; exact hi.uS r h
  · subst hr; rw [upd_same] at h; simp only [Ep.setUp, upd_same]; exact uJ u h h'
  · rw [e r hr] at h; simp only [Ep.setUp, e r hr]; exact hi.uJ r u h h'
  · subst hr; rw [upd_same] at h h'; simp only [Ep.setUp, upd_same]; exact uE u h h' h''
  · rw [e r hr] at h h'; simp only [Ep.setUp, e r hr]; exact hi.uE r u h h' h''
  · subst hr; rw [upd_same] at h h'; exact uR w h h' h''
  · rw [e r hr] at h h'; exact hi.uR r w h h' h''
  · subst hr; rw [upd_same] at h h'; exact uX u h h'
  · rw [e r hr] at h h'
    refine (hi.uX r u h h').imp id fun h => ⟨h.sec, h.act, h.ep, ?_, ?_⟩
    · simp only [Ep.setUp, e r hr]; exact h.i1
    · simp only [Ep.setUp, e r hr]; exact h.ld
  · subst hr; rw [upd_same] at h h' h''; simp only [Ep.setUp, upd_same]; exact uE2 u h h' h''
  · rw [e r hr] at h h' h''; simp only [Ep.setUp, e r hr]; exact hi.uE2 r u h h' h''
  · subst hr; rw [upd_same] at h; simp only [Ep.setUp, upd_same]; exact uAf u h
  · rw [e r hr] at h; simp only [Ep.setUp, e r hr]; exact hi.uAf r u h
  · subst hr; rw [upd_same] at h; simp only [Ep.setUp, upd_same]; exact uSy h
  · rw [e r hr] at h; simp only [Ep.setUp, e r hr]; exact hi.uSy r h

/-- A full fence. -/
theorem Inv.fence {s : St n m} (hi : Inv s) (t : Fin n) : Inv (fen true s t) :=
  hi.grow (fun _ => Nat.le_trans (le_join_left _ _ _) (le_join_left _ _ _)) (fun _ => le_join_right _ _ _)

theorem fence_sc (s : St n m) (t : Fin n) (x : Loc n m) : (fen true s t).sc x = ((fen true s t).th t).cur x := by
  simp only [fen, if_true, upd_same]
  rfl

theorem fence_le (s : St n m) (t : Fin n) (x : Loc n m) : (s.th t).cur x ≤ (fen true s t).sc x :=
  Nat.le_trans (le_join_left _ _ _) (le_join_left _ _ _)

/-- A load. -/
theorem Inv.ld {s : St n m} (hi : Inv s) (t : Fin n) (x : Loc n m) (i : Nat) : Inv (ld s t x i) :=
  hi.grow (sc := s.sc) (Th.load_cur_le _ _ _ _) (fun _ => Nat.le_refl _)

theorem ld_at (s : St n m) (t : Fin n) (x : Loc n m) (i : Nat) : i ≤ ((Ep.ld s t x i).th t).cur x := by
  simp only [Ep.ld, upd_same]
  exact Th.load_at _ _ _ _

theorem ld_le (s : St n m) (t u : Fin n) (x y : Loc n m) (i : Nat) : (s.th u).cur y ≤ ((Ep.ld s t x i).th u).cur y := by
  simp only [Ep.ld, upd_apply]
  split
  · next h => subst h; exact Th.load_cur_le _ _ _ _ _
  · exact Nat.le_refl _

/-- Another place in `ck_epoch_begin`, not yet in the section. -/
theorem Inv.setPc {s : St n m} (hi : Inv s) {t : Fin n} {p : PC} (h1 : s.pc t ≠ .idle) (h2 : s.pc t ≠ .sec) (h3 : ¬ (s.pc t).has)
    (hp : p = .ldg) (hsc : s.mem.top (.act t) ≤ s.sc (.act t)) (hg : s.sc .glob ≤ (s.th t).cur .glob) : Inv (setPc s t p) := by
  subst hp
  have e : ∀ u, u ≠ t → upd s.pc t .ldg u = s.pc u := fun u hu => upd_ne _ _ hu
  have hL : ∀ {u k}, Lo s u k → Lo (Ep.setPc s t .ldg) u k := fun {u k} h => by
    by_cases hu : u = t
    · subst hu
      refine ⟨fun h' => ?_, fun _ => h.2 h3⟩
      simp [Ep.setPc, PC.has] at h'
    · simp only [Lo, Ep.setPc, e u hu]; exact h
  have hLt : ∀ {k}, k ≤ s.sc .glob + 1 → Lo (Ep.setPc s t .ldg) t k := fun {k} h =>
    ⟨fun h' => by simp [Ep.setPc, PC.has] at h', fun _ => Nat.le_trans h (Nat.succ_le_succ hg)⟩
  have hP : ∀ {r u}, Past s r u → Past (Ep.setPc s t .ldg) r u := fun {r u} h h' => by
    simp only [Ep.setPc] at h'
    by_cases hu : u = t
    · subst hu; rw [upd_same] at h'; cases h'
    · rw [e u hu] at h'; exact h h'
  have hPt : ∀ {r}, Past (Ep.setPc s t .ldg) r t := fun {r} h' => by
    simp only [Ep.setPc, upd_same] at h'; cases h'
  refine { hi with
    act1 := fun u h => ?_, scA := fun u h => ?_, vle := fun u h => ?_, epLo := fun u j h => hL (hi.epLo u j h), epV := fun u h => ?_
    scE := fun u h => ?_, K1 := fun u h => ?_, hold0 := fun u w h => ?_, freeH := fun w u h h' => ?_
    uJ := fun r u h h' => ?_, uE := fun r u h h' h'' => ?_
    uX := fun r u h h' => ?_, uE2 := fun r u h h' h'' => ?_ } <;> by_cases hu : u = t
  · subst hu; exact hi.act1 u h1
  · simp only [Ep.setPc, e u hu] at h; exact hi.act1 u h
  · subst hu; exact hsc
  · simp only [Ep.setPc, e u hu] at h; exact hi.scA u h
  · subst hu; simp [Ep.setPc, PC.has] at h
  · simp only [Ep.setPc, e u hu] at h; exact hi.vle u h
  · subst hu; simp [Ep.setPc] at h
  · simp only [Ep.setPc, e u hu] at h; exact hi.epV u h
  · subst hu; simp [Ep.setPc] at h
  · simp only [Ep.setPc, e u hu] at h; exact hi.scE u h
  · subst hu; exact hLt hi.K0
  · simp only [Ep.setPc, e u hu] at h; exact hL (hi.K1 u h)
  · subst hu; exact hi.hold0 u w h2
  · simp only [Ep.setPc, e u hu] at h; exact hi.hold0 u w h
  · subst hu; simp [Ep.setPc] at h'
  · simp only [Ep.setPc, e u hu] at h'; exact hi.freeH w u h h'
  · subst hu; exact .inr (hLt (hi.uS r h))
  · simp only [Ep.setPc, e u hu] at h'; exact (hi.uJ r u h h').imp id hL
  · subst hu; exact hLt (hi.uS r h)
  · simp only [Ep.setPc, e u hu] at h''; exact hL (hi.uE r u h h' h'')
  · subst hu; exact .inl hPt
  · refine (hi.uX r u h h').imp hP fun h => ⟨?_, h.act, h.ep, h.i1, h.ld⟩
    simp only [Ep.setPc, e u hu]; exact h.sec
  · subst hu; exact .inl hPt
  · exact (hi.uE2 r u h h' h'').imp hP id

/-- Line 157. -/
theorem Inv.setStg {s : St n m} (hi : Inv s) {t : Fin n} (hp : s.pc t = .ldg) :
    Inv { Ep.setPc s t .stg with v := upd s.v t ((s.th t).cur .glob + 1) } := by
  have e : ∀ u, u ≠ t → upd s.pc t .stg u = s.pc u := fun u hu => upd_ne _ _ hu
  have ev : ∀ u, u ≠ t → upd s.v t ((s.th t).cur .glob + 1) u = s.v u := fun u hu => upd_ne _ _ hu
  obtain ⟨s', hs'⟩ : ∃ s' : St n m, s' = { Ep.setPc s t .stg with v := upd s.v t ((s.th t).cur .glob + 1) } := ⟨_, rfl⟩
  rw [← hs']
  have hL : ∀ {u k}, Lo s u k → Lo s' u k := fun {u k} h => by
    by_cases hu : u = t
    · subst hu
      refine ⟨fun _ => ?_, fun h' => absurd ?_ h'⟩
      · subst hs'; simp only [upd_same]; exact h.2 (by rw [hp]; simp [PC.has])
      · subst hs'; simp [Ep.setPc, PC.has]
    · subst hs'; simp only [Lo, Ep.setPc, e u hu, ev u hu]; exact h
  have hP : ∀ {r u}, Past s r u → Past s' r u := fun {r u} h h' => by
    subst hs'
    simp only [Ep.setPc] at h'
    by_cases hu : u = t
    · subst hu; rw [upd_same] at h'; cases h'
    · rw [e u hu] at h'; exact h h'
  have hPt : ∀ {r}, Past s' r t := fun {r} h' => by
    subst hs'
    simp only [Ep.setPc, upd_same] at h'; cases h'
  subst hs'
  refine { hi with
    act1 := fun u h => ?_, scA := fun u h => ?_, vle := fun u h => ?_, epLo := fun u j h => hL (hi.epLo u j h), epV := fun u h => ?_
    scE := fun u h => ?_, K1 := fun u h => ?_, hold0 := fun u w h => ?_, freeH := fun w u h h' => ?_
    uJ := fun r u h h' => ?_, uE := fun r u h h' h'' => ?_
    uX := fun r u h h' => ?_, uE2 := fun r u h h' h'' => ?_ } <;> by_cases hu : u = t
  · subst hu; exact hi.act1 u (by rw [hp]; simp)
  · simp only [Ep.setPc, e u hu] at h; exact hi.act1 u h
  · subst hu; exact hi.scA u (by rw [hp]; simp [PC.post])
  · simp only [Ep.setPc, e u hu] at h; exact hi.scA u h
  · subst hu; simp [Ep.setPc]
  · simp only [Ep.setPc, e u hu] at h; simp only [ev u hu]; exact hi.vle u h
  · subst hu; simp [Ep.setPc] at h
  · simp only [Ep.setPc, e u hu] at h; simp only [ev u hu]; exact hi.epV u h
  · subst hu; simp [Ep.setPc] at h
  · simp only [Ep.setPc, e u hu] at h; simp only [ev u hu]; exact hi.scE u h
  · subst hu; exact hL (hi.K1 u (by rw [hp]; simp [PC.post]))
  · simp only [Ep.setPc, e u hu] at h; exact hL (hi.K1 u h)
  · subst hu; exact hi.hold0 u w (by rw [hp]; simp)
  · simp only [Ep.setPc, e u hu] at h; exact hi.hold0 u w h
  · subst hu; simp [Ep.setPc] at h'
  · simp only [Ep.setPc, e u hu] at h'; exact hi.freeH w u h h'
  · subst hu; exact (hi.uJ r u h (by rw [hp]; simp [PC.post])).imp id hL
  · simp only [Ep.setPc, e u hu] at h'; exact (hi.uJ r u h h').imp id hL
  · subst hu; exact hL (hi.uE r u h h' (by rw [hp]; simp [PC.post]))
  · simp only [Ep.setPc, e u hu] at h''; exact hL (hi.uE r u h h' h'')
  · subst hu; exact .inl hPt
  · refine (hi.uX r u h h').imp hP fun h => ⟨?_, h.act, h.ep, h.i1, ?_⟩
    · simp only [Ep.setPc, e u hu]; exact h.sec
    · simp only [ev u hu]; exact h.ld
  · subst hu; exact .inl hPt
  · simp only [ev u hu]; exact (hi.uE2 r u h h' h'').imp hP id

/-- The section is open. -/
theorem Inv.setSec {s : St n m} (hi : Inv s) {t : Fin n} (hp : s.pc t = .fen2) (h1 : ∀ x, s.sc x = (s.th t).cur x) :
    Inv (Ep.setPc s t .sec) := by
  have e : ∀ u, u ≠ t → upd s.pc t .sec u = s.pc u := fun u hu => upd_ne _ _ hu
  obtain ⟨s', hs'⟩ : ∃ s' : St n m, s' = Ep.setPc s t .sec := ⟨_, rfl⟩
  rw [← hs']
  have hns : s.pc t ≠ .sec := by rw [hp]; simp
  have hL : ∀ {u k}, Lo s u k → Lo s' u k := fun {u k} h => by
    by_cases hu : u = t
    · subst hu
      refine ⟨fun _ => ?_, fun h' => absurd ?_ h'⟩
      · subst hs'; exact h.1 (by rw [hp]; simp [PC.has])
      · subst hs'; simp [Ep.setPc, PC.has]
    · subst hs'; simp only [Lo, Ep.setPc, e u hu]; exact h
  have hPt : ∀ {r}, (∀ w, s.ns w = .ret r → Unlinked s.mem s.sc w) → Past s' r t := fun {r} h _ w hw => by
    subst hs'
    exact ⟨hi.hold0 t w hns, (h w hw).mono fun c => Nat.le_of_eq (h1 _)⟩
  have hP : ∀ {r u}, u ≠ t → Past s r u → Past s' r u := fun {r u} hu h h' => by
    subst hs'
    simp only [Ep.setPc, e u hu] at h'; exact h h'
  subst hs'
  refine { hi with
    act1 := fun u h => ?_, scA := fun u h => ?_, vle := fun u h => ?_, epLo := fun u j h => hL (hi.epLo u j h), epV := fun u h => ?_
    scE := fun u h => ?_, K1 := fun u h => ?_, hold0 := fun u w h => ?_, freeH := fun w u h h' => ?_
    uJ := fun r u h h' => ?_, uE := fun r u h h' h'' => ?_
    uX := fun r u h h' => ?_, uE2 := fun r u h h' h'' => ?_ } <;> by_cases hu : u = t
  · subst hu; exact hi.act1 u (by rw [hp]; simp)
  · simp only [Ep.setPc, e u hu] at h; exact hi.act1 u h
  · subst hu; exact hi.scA u (by rw [hp]; simp [PC.post])
  · simp only [Ep.setPc, e u hu] at h; exact hi.scA u h
  · subst hu; exact hi.vle u (by rw [hp]; simp [PC.has])
  · simp only [Ep.setPc, e u hu] at h; exact hi.vle u h
  · subst hu; exact hi.epV u (.inl hp)
  · simp only [Ep.setPc, e u hu] at h; exact hi.epV u h
  · subst hu
    exact ⟨Nat.le_trans (hi.ownE u) (Nat.le_of_eq (h1 _).symm),
      Nat.le_trans (hi.vle u (by rw [hp]; simp [PC.has])) (Nat.succ_le_succ (Nat.le_of_eq (h1 _).symm))⟩
  · simp only [Ep.setPc, e u hu] at h; exact hi.scE u h
  · subst hu; exact hL (hi.K1 u (by rw [hp]; simp [PC.post]))
  · simp only [Ep.setPc, e u hu] at h; exact hL (hi.K1 u h)
  · subst hu; exact hi.hold0 u w hns
  · simp only [Ep.setPc, e u hu] at h; exact hi.hold0 u w h
  · subst hu; exact ⟨hi.hold0 u w hns, (hi.freesc w h).mono fun c => Nat.le_of_eq (h1 _)⟩
  · simp only [Ep.setPc, e u hu] at h'; exact hi.freeH w u h h'
  · subst hu; exact (hi.uJ r u h (by rw [hp]; simp [PC.post])).imp id hL
  · simp only [Ep.setPc, e u hu] at h'; exact (hi.uJ r u h h').imp id hL
  · subst hu; exact hL (hi.uE r u h h' (by rw [hp]; simp [PC.post]))
  · simp only [Ep.setPc, e u hu] at h''; exact hL (hi.uE r u h h' h'')
  · subst hu; exact .inl (hPt fun w hw => hi.uR r w h h' hw)
  · refine (hi.uX r u h h').imp (hP hu) fun h => ⟨?_, h.act, h.ep, h.i1, h.ld⟩
    simp only [Ep.setPc, e u hu]; exact h.sec
  · subst hu
    refine .inl (hPt fun w hw => hi.uR r w h ?_ hw)
    intro h0
    simp only [Ep.setPc] at h'
    rw [h0] at h'
    exact h'
  · exact (hi.uE2 r u h h' h'').imp (hP hu) id

/-- Entering and leaving a section, lines 146 and 178. -/
theorem Inv.storeAct {s : St n m} (hi : Inv s) {t : Fin n} {k : Nat} {p : PC} {hd : Fin n → Nat → Bool}
    (hp : p = .fen1 ∧ k = 1 ∨ p = .idle) (h1 : ∀ u, u ≠ t → hd u = s.hold u) (h2 : ∀ w, hd t w = false) :
    Inv { Ep.setPc (stor s t (.act t) k) t p with hold := hd } := by
  have e : ∀ u, u ≠ t → upd s.pc t p u = s.pc u := fun u hu => upd_ne _ _ hu
  have hpp : ¬ p.post ∧ ¬ p.has ∧ p ≠ .sec ∧ p ≠ .fen2 := by rcases hp with ⟨rfl, _⟩ | rfl <;> simp [PC.post, PC.has]
  have htop : ∀ x, x ≠ .act t → (s.mem.store (s.th t) (.act t) k).top x = s.mem.top x := fun x hx => by
    rw [Mem.store_top, if_neg hx]
  have hmsg : ∀ x i, x ≠ .act t → (s.mem.store (s.th t) (.act t) k).msg x i = s.mem.msg x i := fun x i hx => Mem.store_ne _ hx
  have hcur : ∀ u x, x ≠ .act t → (upd s.th t ((s.th t).store s.mem (.act t)) u).cur x = (s.th u).cur x := fun u x hx => by
    rw [upd_apply]
    split
    · next h => subst h; simp only [Th.store]; rw [upd_ne _ _ hx]
    · rfl
  have hA : ∀ u, u ≠ t → (Loc.act u : Loc n m) ≠ .act t := fun u hu => by simpa using hu
  have hU : ∀ {q q' w}, (∀ c : Fin m, q (.cell c) = q' (.cell c)) → Unlinked s.mem q w →
      Unlinked (s.mem.store (s.th t) (.act t) k) q' w := fun {q q' w} hq h =>
    (h.mono fun c => Nat.le_of_eq (hq c)).eq (fun c => htop _ (by simp)) (fun c i => hmsg _ _ (by simp))
  obtain ⟨s', hs'⟩ : ∃ s' : St n m, s' = { Ep.setPc (stor s t (.act t) k) t p with hold := hd } := ⟨_, rfl⟩
  rw [← hs']
  have hL : ∀ {u j}, Lo s u j → Lo s' u j := fun {u j} h => by
    by_cases hu : u = t
    · subst hu
      refine ⟨fun h' => ?_, fun _ => ?_⟩
      · subst hs'; simp only [Ep.setPc, upd_same] at h'; exact absurd h' hpp.2.1
      · subst hs'; simp only [Ep.setPc, stor]; rw [hcur _ _ (by simp)]
        by_cases hh : (s.pc u).has
        · exact Nat.le_trans (h.1 hh) (hi.vle u hh)
        · exact h.2 hh
    · subst hs'; simp only [Lo, Ep.setPc, stor, e u hu, hcur u .glob (by simp)]; exact h
  have hPt : ∀ {r}, Past s' r t := fun {r} h' => by
    subst hs'
    simp only [Ep.setPc, upd_same] at h'; exact absurd h' hpp.2.2.1
  have hP : ∀ {r u}, u ≠ t → Past s r u → Past s' r u := fun {r u} hu h h' w hw => by
    subst hs'
    simp only [Ep.setPc, stor, e u hu] at h'
    have := h h' w hw
    simp only [h1 u hu]
    exact ⟨this.1, hU (fun c => (hcur u _ (by simp)).symm) this.2⟩
  subst hs'
  refine {
    glob := fun i h => ?_, act1 := fun u h => ?_, ownA := fun u => ?_, ownE := fun u => ?_, scA := fun u h => ?_
    vle := fun u h => ?_, epLo := fun u j h => ?_, epV := fun u h => ?_, scE := fun u h => ?_, K0 := ?_
    K1 := fun u h => ?_, hold0 := fun u w h => ?_, ret := fun u w h => ?_, freesc := fun w h => ?_, freeH := fun w u h h' => ?_
    uD := fun r h => ?_, uS := fun r h => ?_, uJ := fun r u h h' => ?_, uE := fun r u h h' h'' => ?_, uR := fun r w h h' h'' => ?_
    uX := fun r u h h' => ?_, uE2 := fun r u h h' h'' => ?_, uAf := hi.uAf, uSy := hi.uSy } <;> simp only [Ep.setPc, stor] at *
  · rw [htop _ (by simp)] at h; rw [hmsg _ _ (by simp)]; exact hi.glob i h
  · by_cases hu : u = t
    · subst hu
      rw [upd_same] at h
      rcases hp with ⟨_, rfl⟩ | h'
      · rw [Mem.store_top, if_pos rfl, Mem.store_at _ _ rfl]
      · exact absurd h' h
    · rw [e u hu] at h; rw [htop _ (hA u hu), hmsg _ _ (hA u hu)]; exact hi.act1 u h
  · by_cases hu : u = t
    · subst hu
      rw [upd_same, Mem.store_top, if_pos rfl]; simp only [Th.store, upd_same]; exact Nat.le_refl _
    · rw [htop _ (hA u hu), hcur u _ (hA u hu)]; exact hi.ownA u
  · rw [htop _ (by simp), hcur u _ (by simp)]; exact hi.ownE u
  · by_cases hu : u = t
    · subst hu; rw [upd_same] at h; exact absurd h hpp.1
    · rw [e u hu] at h; rw [htop _ (hA u hu)]; exact hi.scA u h
  · by_cases hu : u = t
    · subst hu; rw [upd_same] at h; exact absurd h hpp.2.1
    · rw [e u hu] at h; rw [hcur u _ (by simp)]; exact hi.vle u h
  · rw [htop _ (by simp)] at h; rw [hmsg _ _ (by simp)]; exact hL (hi.epLo u j h)
  · by_cases hu : u = t
    · subst hu; rw [upd_same] at h
      rcases h with h | h
      · exact absurd h hpp.2.2.2
      · exact absurd h hpp.2.2.1
    · rw [e u hu] at h; rw [htop _ (by simp), hmsg _ _ (by simp)]; exact hi.epV u h
  · by_cases hu : u = t
    · subst hu; rw [upd_same] at h; exact absurd h hpp.2.2.1
    · rw [e u hu] at h; rw [htop _ (by simp)]; exact hi.scE u h
  · rw [htop _ (by simp)]; exact hi.K0
  · rw [htop _ (by simp)]
    by_cases hu : u = t
    · subst hu; rw [upd_same] at h; exact absurd h hpp.1
    · rw [e u hu] at h; exact hL (hi.K1 u h)
  · by_cases hu : u = t
    · subst hu; exact h2 w
    · rw [e u hu] at h; rw [h1 u hu]; exact hi.hold0 u w h
  · exact hU (fun c => (hcur u _ (by simp)).symm) (hi.ret u w h)
  · exact hU (fun c => rfl) (hi.freesc w h)
  · by_cases hu : u = t
    · subst hu; rw [upd_same] at h'; exact absurd h' hpp.2.2.1
    · rw [e u hu] at h'
      rw [h1 u hu]
      exact ⟨(hi.freeH w u h h').1, hU (fun c => (hcur u _ (by simp)).symm) (hi.freeH w u h h').2⟩
  · rw [hcur r _ (by simp)]; exact hi.uD r h
  · exact hi.uS r h
  · by_cases hu : u = t
    · subst hu; rw [upd_same] at h'; exact absurd h' hpp.1
    · rw [e u hu] at h'; rw [htop _ (hA u hu), hcur r _ (hA u hu)]; exact (hi.uJ r u h h').imp id hL
  · by_cases hu : u = t
    · subst hu; rw [upd_same] at h''; exact absurd h'' hpp.1
    · rw [e u hu] at h''; exact hL (hi.uE r u h h' h'')
  · exact hU (fun c => rfl) (hi.uR r w h h' h'')
  · by_cases hu : u = t
    · subst hu; exact .inl hPt
    · refine (hi.uX r u h h').imp (hP hu) fun h => ⟨?_, ?_, ?_, h.i1, ?_⟩ <;> simp only
      · rw [e u hu]; exact h.sec
      · rw [htop _ (hA u hu), hcur r _ (hA u hu)]; exact h.act
      · rw [htop _ (by simp), hcur r _ (by simp)]; exact h.ep
      · rw [hcur r _ (by simp)]; exact h.ld
  · by_cases hu : u = t
    · subst hu; exact .inl hPt
    · exact (hi.uE2 r u h h' h'').imp (hP hu) id

/-- Line 158. -/
theorem Inv.storeEp {s : St n m} (hi : Inv s) {t : Fin n} (hpc : s.pc t = .stg) :
    Inv (Ep.setPc (stor s t (.ep t) (s.v t)) t .fen2) := by
  have e : ∀ u, u ≠ t → upd s.pc t .fen2 u = s.pc u := fun u hu => upd_ne _ _ hu
  have htop : ∀ x, x ≠ .ep t → (s.mem.store (s.th t) (.ep t) (s.v t)).top x = s.mem.top x := fun x hx => by
    rw [Mem.store_top, if_neg hx]
  have hmsg : ∀ x i, x ≠ .ep t → (s.mem.store (s.th t) (.ep t) (s.v t)).msg x i = s.mem.msg x i := fun x i hx => Mem.store_ne _ hx
  have hcur : ∀ u x, x ≠ .ep t → (upd s.th t ((s.th t).store s.mem (.ep t)) u).cur x = (s.th u).cur x := fun u x hx => by
    rw [upd_apply]
    split
    · next h => subst h; simp only [Th.store]; rw [upd_ne _ _ hx]
    · rfl
  have hA : ∀ u, u ≠ t → (Loc.ep u : Loc n m) ≠ .ep t := fun u hu => by simpa using hu
  have hU : ∀ {q q' w}, (∀ c : Fin m, q (.cell c) = q' (.cell c)) → Unlinked s.mem q w →
      Unlinked (s.mem.store (s.th t) (.ep t) (s.v t)) q' w := fun {q q' w} hq h =>
    (h.mono fun c => Nat.le_of_eq (hq c)).eq (fun c => htop _ (by simp)) (fun c i => hmsg _ _ (by simp))
  obtain ⟨s', hs'⟩ : ∃ s' : St n m, s' = Ep.setPc (stor s t (.ep t) (s.v t)) t .fen2 := ⟨_, rfl⟩
  rw [← hs']
  have hL : ∀ {u j}, Lo s u j → Lo s' u j := fun {u j} h => by
    by_cases hu : u = t
    · subst hu
      refine ⟨fun _ => ?_, fun h' => absurd ?_ h'⟩
      · subst hs'; exact h.1 (by rw [hpc]; simp [PC.has])
      · subst hs'; simp [Ep.setPc, PC.has]
    · subst hs'; simp only [Lo, Ep.setPc, stor, e u hu, hcur u .glob (by simp)]; exact h
  have hPt : ∀ {r}, Past s' r t := fun {r} h' => by
    subst hs'
    simp only [Ep.setPc, upd_same] at h'; cases h'
  have hP : ∀ {r u}, u ≠ t → Past s r u → Past s' r u := fun {r u} hu h h' w hw => by
    subst hs'
    simp only [Ep.setPc, stor, e u hu] at h'
    have := h h' w hw
    exact ⟨this.1, hU (fun c => (hcur u _ (by simp)).symm) this.2⟩
  have hv : Lo s' t (s.v t) := by
    subst hs'
    exact ⟨fun _ => Nat.le_refl _, fun h' => absurd (by simp [Ep.setPc, PC.has]) h'⟩
  subst hs'
  refine {
    glob := fun i h => ?_, act1 := fun u h => ?_, ownA := fun u => ?_, ownE := fun u => ?_, scA := fun u h => ?_
    vle := fun u h => ?_, epLo := fun u j h => ?_, epV := fun u h => ?_, scE := fun u h => ?_, K0 := ?_
    K1 := fun u h => ?_, hold0 := fun u w h => ?_, ret := fun u w h => ?_, freesc := fun w h => ?_, freeH := fun w u h h' => ?_
    uD := fun r h => ?_, uS := fun r h => ?_, uJ := fun r u h h' => ?_, uE := fun r u h h' h'' => ?_, uR := fun r w h h' h'' => ?_
    uX := fun r u h h' => ?_, uE2 := fun r u h h' h'' => ?_, uAf := hi.uAf, uSy := hi.uSy } <;> simp only [Ep.setPc, stor] at *
  · rw [htop _ (by simp)] at h; rw [hmsg _ _ (by simp)]; exact hi.glob i h
  · rw [htop _ (by simp), hmsg _ _ (by simp)]
    refine hi.act1 u ?_
    by_cases hu : u = t
    · subst hu; rw [hpc]; simp
    · rw [e u hu] at h; exact h
  · rw [htop _ (by simp), hcur u _ (by simp)]; exact hi.ownA u
  · by_cases hu : u = t
    · subst hu
      rw [upd_same, Mem.store_top, if_pos rfl]; simp only [Th.store, upd_same]; exact Nat.le_refl _
    · rw [htop _ (hA u hu), hcur u _ (hA u hu)]; exact hi.ownE u
  · rw [htop _ (by simp)]
    refine hi.scA u ?_
    by_cases hu : u = t
    · subst hu; rw [hpc]; simp [PC.post]
    · rw [e u hu] at h; exact h
  · rw [hcur u _ (by simp)]
    refine hi.vle u ?_
    by_cases hu : u = t
    · subst hu; rw [hpc]; simp [PC.has]
    · rw [e u hu] at h; exact h
  · by_cases hu : u = t
    · subst hu
      rw [Mem.store_top, if_pos rfl] at h
      by_cases hj : j ≤ s.mem.top (.ep u)
      · rw [Mem.store_old hj]; exact hL (hi.epLo u j hj)
      · rw [Mem.store_at _ _ (by omega)]; exact hv
    · rw [htop _ (hA u hu)] at h; rw [hmsg _ _ (hA u hu)]; exact hL (hi.epLo u j h)
  · by_cases hu : u = t
    · subst hu; rw [Mem.store_top, if_pos rfl, Mem.store_at _ _ rfl]
    · rw [e u hu] at h; rw [htop _ (hA u hu), hmsg _ _ (hA u hu)]; exact hi.epV u h
  · by_cases hu : u = t
    · subst hu; rw [upd_same] at h; cases h
    · rw [e u hu] at h; rw [htop _ (hA u hu)]; exact hi.scE u h
  · rw [htop _ (by simp)]; exact hi.K0
  · rw [htop _ (by simp)]
    refine hL (hi.K1 u ?_)
    by_cases hu : u = t
    · subst hu; rw [hpc]; simp [PC.post]
    · rw [e u hu] at h; exact h
  · refine hi.hold0 u w ?_
    by_cases hu : u = t
    · subst hu; rw [hpc]; simp
    · rw [e u hu] at h; exact h
  · exact hU (fun c => (hcur u _ (by simp)).symm) (hi.ret u w h)
  · exact hU (fun c => rfl) (hi.freesc w h)
  · by_cases hu : u = t
    · subst hu; rw [upd_same] at h'; cases h'
    · rw [e u hu] at h'
      exact ⟨(hi.freeH w u h h').1, hU (fun c => (hcur u _ (by simp)).symm) (hi.freeH w u h h').2⟩
  · rw [hcur r _ (by simp)]; exact hi.uD r h
  · exact hi.uS r h
  · rw [htop _ (by simp), hcur r _ (by simp)]
    refine (hi.uJ r u h ?_).imp id hL
    by_cases hu : u = t
    · subst hu; rw [hpc]; simp [PC.post]
    · rw [e u hu] at h'; exact h'
  · refine hL (hi.uE r u h h' ?_)
    by_cases hu : u = t
    · subst hu; rw [hpc]; simp [PC.post]
    · rw [e u hu] at h''; exact h''
  · exact hU (fun c => rfl) (hi.uR r w h h' h'')
  · by_cases hu : u = t
    · subst hu; exact .inl hPt
    · refine (hi.uX r u h h').imp (hP hu) fun h => ⟨?_, ?_, ?_, h.i1, ?_⟩ <;> simp only
      · rw [e u hu]; exact h.sec
      · rw [htop _ (by simp), hcur r _ (by simp)]; exact h.act
      · rw [htop _ (hA u hu), hcur r _ (hA u hu)]; exact h.ep
      · rw [hcur r _ (by simp)]; exact h.ld
  · by_cases hu : u = t
    · subst hu; exact .inl hPt
    · exact (hi.uE2 r u h h' h'').imp (hP hu) id

/-- The client stores a pointer. -/
theorem Inv.swap {s : St n m} (hi : Inv s) {t : Fin n} {c : Fin m} {x : Option Nat} (hx : usable s.ns x = true)
    (hwf : ∀ y, (s.th t).cur y ≤ s.mem.top y) : Inv (rmw s t (.cell c) (enc x)) := by
  have h1 : Inv { s with th := upd s.th t ((s.th t).rmw s.mem (.cell c)) } := by
    refine hi.grow (sc := s.sc) (fun y => ?_) fun _ => Nat.le_refl _
    simp only [Th.rmw, Th.store, upd_apply]
    split
    · next h => subst h; have := hwf (.cell c); omega
    · exact Th.load_cur_le _ _ _ _ _
  have hU : ∀ {k w}, s.ns w ≠ .alive → Unlinked s.mem k w → Unlinked (s.mem.rmw (s.th t) (.cell c) (enc x)) k w := by
    intro k w hw h c' i h1 h2
    by_cases hc : c' = c
    · subst hc
      rw [Mem.rmw_top, if_pos rfl] at h1
      by_cases hi : i ≤ s.mem.top (.cell c')
      · rw [Mem.rmw_old hi] at h2; exact h c' i (by omega) h2
      · rw [Mem.rmw_at _ _ (by omega)] at h2
        simp only at h2
        cases x with
        | none => cases h2
        | some w' =>
          simp only [enc] at h2
          have : w' = w := by omega
          subst this
          simp only [usable, decide_eq_true_eq] at hx
          exact absurd hx hw
    · rw [Mem.rmw_top, if_neg (by simp [hc])] at h1
      rw [Mem.rmw_ne _ (by simp [hc])] at h2
      exact h c' i h1 h2
  have htop : ∀ y, y ≠ .cell c → (s.mem.rmw (s.th t) (.cell c) (enc x)).top y = s.mem.top y := fun y hy => by
    rw [Mem.rmw_top, if_neg hy]
  have hmsg : ∀ y i, y ≠ .cell c → (s.mem.rmw (s.th t) (.cell c) (enc x)).msg y i = s.mem.msg y i := fun y i hy => Mem.rmw_ne _ hy
  have hret : ∀ {w r}, s.ns w = .ret r → s.ns w ≠ .alive := fun h => by rw [h]; simp
  have hfree : ∀ {w}, s.ns w = .free → s.ns w ≠ .alive := fun h => by rw [h]; simp
  have hP : ∀ {r u}, Past { s with th := upd s.th t ((s.th t).rmw s.mem (.cell c)) } r u → Past (rmw s t (.cell c) (enc x)) r u :=
    fun {r u} h h' w hw => ⟨(h h' w hw).1, hU (hret hw) (h h' w hw).2⟩
  refine {
    glob := fun i h => ?_, act1 := fun u h => ?_, ownA := fun u => ?_, ownE := fun u => ?_, scA := fun u h => ?_
    vle := h1.vle, epLo := fun u j h => ?_, epV := fun u h => ?_, scE := fun u h => ?_, K0 := ?_
    K1 := fun u h => ?_, hold0 := h1.hold0, ret := fun u w h => hU (hret h) (h1.ret u w h)
    freesc := fun w h => hU (hfree h) (h1.freesc w h)
    freeH := fun w u h h' => ⟨(h1.freeH w u h h').1, hU (hfree h) (h1.freeH w u h h').2⟩
    uD := h1.uD, uS := h1.uS, uJ := fun r u h h' => ?_, uE := h1.uE
    uR := fun r w h h' h'' => hU (hret h'') (h1.uR r w h h' h'')
    uX := fun r u h h' => (h1.uX r u h h').imp hP fun h => ⟨h.sec, ?_, ?_, h.i1, h.ld⟩
    uE2 := fun r u h h' h'' => (h1.uE2 r u h h' h'').imp hP id, uAf := hi.uAf, uSy := hi.uSy } <;> simp only [Ep.rmw] at *
  · rw [htop _ (by simp)] at h; rw [hmsg _ _ (by simp)]; exact hi.glob i h
  · rw [htop _ (by simp), hmsg _ _ (by simp)]; exact hi.act1 u h
  · rw [htop _ (by simp)]; exact h1.ownA u
  · rw [htop _ (by simp)]; exact h1.ownE u
  · rw [htop _ (by simp)]; exact h1.scA u h
  · rw [htop _ (by simp)] at h; rw [hmsg _ _ (by simp)]; exact h1.epLo u j h
  · rw [htop _ (by simp), hmsg _ _ (by simp)]; exact h1.epV u h
  · rw [htop _ (by simp)]; exact h1.scE u h
  · rw [htop _ (by simp)]; exact h1.K0
  · rw [htop _ (by simp)]; exact h1.K1 u h
  · rw [htop _ (by simp)]; exact h1.uJ r u h h'
  · rw [htop _ (by simp)]; exact h.act
  · rw [htop _ (by simp)]; exact h.ep

/-- The epoch is moved, lines 505 and 612. -/
theorem Inv.tick {s : St n m} (hi : Inv s) {t : Fin n} {k : Nat} (hwf : ∀ y, (s.th t).cur y ≤ s.mem.top y)
    (hk : k = s.mem.top .glob + 2) (h0 : s.mem.top .glob ≤ s.sc .glob)
    (h1 : ∀ u, (s.pc u).post → Lo s u (s.mem.top .glob + 1)) : Inv (rmw s t .glob k) := by
  have hg : Inv { s with th := upd s.th t ((s.th t).rmw s.mem .glob) } := by
    refine hi.grow (sc := s.sc) (fun y => ?_) fun _ => Nat.le_refl _
    simp only [Th.rmw, Th.store, upd_apply]
    split
    · next h => subst h; have := hwf .glob; omega
    · exact Th.load_cur_le _ _ _ _ _
  have hq : ∀ u x, (s.th u).cur x ≤ (upd s.th t ((s.th t).rmw s.mem .glob) u).cur x := fun u y => by
    rw [upd_apply]
    split
    · next h =>
      subst h
      simp only [Th.rmw, Th.store, upd_apply]
      split
      · next h => subst h; have := hwf .glob; omega
      · exact Th.load_cur_le _ _ _ _ _
    · exact Nat.le_refl _
  have htop : ∀ y, y ≠ .glob → (s.mem.rmw (s.th t) .glob k).top y = s.mem.top y := fun y hy => by
    rw [Mem.rmw_top, if_neg hy]
  have hmsg : ∀ y i, y ≠ .glob → (s.mem.rmw (s.th t) .glob k).msg y i = s.mem.msg y i := fun y i hy => Mem.rmw_ne _ hy
  have hU : ∀ {q w}, Unlinked s.mem q w → Unlinked (s.mem.rmw (s.th t) .glob k) q w := fun {q w} h =>
    h.eq (fun c => htop _ (by simp)) (fun c i => hmsg _ _ (by simp))
  have hP : ∀ {r u}, Past { s with th := upd s.th t ((s.th t).rmw s.mem .glob) } r u → Past (rmw s t .glob k) r u :=
    fun {r u} h h' w hw => ⟨(h h' w hw).1, hU (h h' w hw).2⟩
  refine {
    glob := fun i h => ?_, act1 := fun u h => ?_, ownA := fun u => ?_, ownE := fun u => ?_, scA := fun u h => ?_
    vle := hg.vle, epLo := fun u j h => ?_, epV := fun u h => ?_, scE := fun u h => ?_, K0 := ?_
    K1 := fun u h => ?_, hold0 := hg.hold0, ret := fun u w h => hU (hg.ret u w h)
    freesc := fun w h => hU (hg.freesc w h)
    freeH := fun w u h h' => ⟨(hg.freeH w u h h').1, hU (hg.freeH w u h h').2⟩
    uD := hg.uD, uS := hg.uS, uJ := fun r u h h' => ?_, uE := hg.uE
    uR := fun r w h h' h'' => hU (hg.uR r w h h' h'')
    uX := fun r u h h' => (hg.uX r u h h').imp hP fun h => ⟨h.sec, ?_, ?_, h.i1, h.ld⟩
    uE2 := fun r u h h' h'' => (hg.uE2 r u h h' h'').imp hP id, uAf := hi.uAf, uSy := hi.uSy } <;> simp only [Ep.rmw] at *
  · rw [Mem.rmw_top, if_pos rfl] at h
    by_cases hj : i ≤ s.mem.top .glob
    · rw [Mem.rmw_old hj]; exact hi.glob i hj
    · rw [Mem.rmw_at _ _ (by omega)]; simp only; omega
  · rw [htop _ (by simp), hmsg _ _ (by simp)]; exact hi.act1 u h
  · rw [htop _ (by simp)]; exact hg.ownA u
  · rw [htop _ (by simp)]; exact hg.ownE u
  · rw [htop _ (by simp)]; exact hg.scA u h
  · rw [htop _ (by simp)] at h; rw [hmsg _ _ (by simp)]; exact hg.epLo u j h
  · rw [htop _ (by simp), hmsg _ _ (by simp)]; exact hg.epV u h
  · rw [htop _ (by simp)]; exact hg.scE u h
  · rw [Mem.rmw_top, if_pos rfl]; omega
  · rw [Mem.rmw_top, if_pos rfl]
    exact ⟨(h1 u h).1, fun h' => Nat.le_trans ((h1 u h).2 h') (Nat.succ_le_succ (hq _ _))⟩
  · rw [htop _ (by simp)]; exact hg.uJ r u h h'
  · rw [htop _ (by simp)]; exact h.act
  · rw [htop _ (by simp)]; exact h.ep

/-- Following a pointer. -/
theorem Inv.read {s : St n m} (hi : Inv s) {t : Fin n} {c : Fin m} {i : Nat} (hp : s.pc t = .sec) (hm : (s.th t).may s.mem (.cell c) i) :
    Inv { s with hold := upd s.hold t fun w => if (s.mem.msg (.cell c) i).val = w + 1 then true else s.hold t w } := by
  have hno : ∀ {w}, Unlinked s.mem (s.th t).cur w → (s.mem.msg (.cell c) i).val ≠ w + 1 := fun {w} h h' => by
    have := h c i (Nat.lt_succ_of_le hm.2) h'
    have := hm.1
    omega
  have hP : ∀ {r u}, Past s r u → Past { s with
      hold := upd s.hold t fun w => if (s.mem.msg (.cell c) i).val = w + 1 then true else s.hold t w } r u := by
    intro r u h h1 w hw
    have := h h1 w hw
    refine ⟨?_, this.2⟩
    simp only [upd_apply]
    split
    · next hu => subst hu; show (if _ then _ else _) = _; rw [if_neg (hno this.2)]; exact this.1
    · exact this.1
  refine { hi with
    hold0 := fun u w h => ?_, freeH := fun w u h h' => ?_
    uX := fun r u h h' => (hi.uX r u h h').imp hP fun h => ⟨h.sec, h.act, h.ep, h.i1, h.ld⟩
    uE2 := fun r u h h' h'' => (hi.uE2 r u h h' h'').imp hP id }
  · simp only at h ⊢
    by_cases hu : u = t
    · subst hu; exact absurd hp h
    · rw [upd_ne _ _ hu]; exact hi.hold0 u w h
  · have := hi.freeH w u h h'
    refine ⟨?_, this.2⟩
    simp only [upd_apply]
    split
    · next hu => subst hu; show (if _ then _ else _) = _; rw [if_neg (hno this.2)]; exact this.1
    · exact this.1

theorem fen_mem (b : Bool) (s : St n m) (t : Fin n) : (fen b s t).mem = s.mem := by cases b <;> rfl
theorem fen_pc (b : Bool) (s : St n m) (t : Fin n) : (fen b s t).pc = s.pc := by cases b <;> rfl
theorem fen_up (b : Bool) (s : St n m) (t : Fin n) : (fen b s t).up = s.up := by cases b <;> rfl
theorem fen_ns (b : Bool) (s : St n m) (t : Fin n) : (fen b s t).ns = s.ns := by cases b <;> rfl

theorem Third.set {s : St n m} {t u : Fin n} {a : Up n} (h : Third s t u) (h1 : a.i ≤ 1)
    (h2 : a.pc = .load ∧ s.v u ≤ (s.th t).cur .glob + 1 ∧ a.i = 0 ∨
      a.pc.dv ∧ s.v u ≤ a.e ∧ s.v u ≤ a.d ∧ (1 ≤ a.i → s.v u < a.d)) : Third (setUp s t a) t u := by
  refine ⟨h.sec, h.act, h.ep, ?_, ?_⟩ <;> simp only [Ep.setUp, upd_same]
  · exact h1
  · exact h2

/-- `t` has stopped scanning. -/
theorem Inv.stop {s : St n m} (hi : Inv s) {t : Fin n} {a : Up n} (ha : a.pc = .idle) : Inv (Ep.setUp s t a) := by
  have h1 : ¬ a.pc.dv := by rw [ha]; simp [UPC.dv]
  have h2 : ¬ a.pc.armed := by rw [ha]; simp [UPC.armed]
  exact hi.setUp (fun h => absurd h h1) (fun h => absurd h h2) (fun _ h => absurd h h2) (fun _ h => absurd h h2)
    (fun _ _ h => absurd ha h) (fun _ _ h => absurd ha h) (fun _ _ h => absurd h h2) (by simp [ha]) (by simp [ha])

/-- `t` has found no section to wait for. -/
theorem Inv.out {s : St n m} (hi : Inv s) {t : Fin n} {a : Up n} (ha : a.pc = .out ∨ a.pc = .done) (hs : (s.up t).sync = true)
    (ha' : a.sync = true) (hs0 : (s.up t).pc ≠ .idle) (hP : ∀ u, Past s t u) : Inv (Ep.setUp s t a) := by
  have h1 : ¬ a.pc.dv := by rcases ha with ha | ha <;> rw [ha] <;> simp [UPC.dv]
  have h2 : ¬ a.pc.armed := by rcases ha with ha | ha <;> rw [ha] <;> simp [UPC.armed]
  exact hi.setUp (fun h => absurd h h1) (fun h => absurd h h2) (fun _ h => absurd h h2) (fun _ h => absurd h h2)
    (fun w _ _ => hi.uR t w hs hs0) (fun u _ _ => .inl (hP u)) (fun _ _ h => absurd h h2)
    (by rcases ha with ha | ha <;> simp [ha]) (fun _ => ha')

/-- `t` starts a scan after a full fence. -/
theorem Inv.arm {s : St n m} (hi : Inv s) {t : Fin n} {a : Up n} (hpc : (s.up t).pc.dv) (h1 : ∀ x, s.sc x = (s.th t).cur x)
    (ha : a = { s.up t with pc := .scan, ok := fun _ => false, af := false }) : Inv (Ep.setUp s t a) := by
  subst ha
  have hn : (s.up t).pc ≠ .idle := fun h => by rw [h] at hpc; exact hpc
  have hd := hi.uD t hpc
  refine hi.setUp (fun _ => hd) (fun _ => ?_) (fun u _ h => .inl ?_) (fun u _ h => ?_)
    (fun w h _ => hi.uR t w h hn) (fun u h _ => ?_) (fun u _ _ h => ?_)
  · rw [h1]; exact hd
  · rw [← h1]; exact hi.scA u h
  · cases h
  · refine (hi.uX t u h hn).imp id fun h => h.set h.i1 (.inr ⟨trivial, ?_⟩)
    rcases h.ld with h' | h'
    · rw [h'.1] at hpc; exact hpc.elim
    · exact h'.2
  · cases h

theorem inv_step {s s' : St n m} {a : Act n m} (hi : Inv s) (hwf : ∀ t y, (s.th t).cur y ≤ s.mem.top y)
    (hs : step fenced s a = some s') : Inv s' := by
  cases a with
  | alloc w =>
    simp only [step] at hs
    split at hs
    · next hf =>
      cases hs
      have e : ∀ w' x, upd s.ns w .alive w' = x → x ≠ .alive → s.ns w' = x := fun v' x h hx => by
        rw [upd_apply] at h
        split at h
        · exact absurd h.symm hx
        · exact h
      have hP : ∀ {r u}, Past s r u → Past { s with ns := upd s.ns w .alive } r u := fun {r u} h h1 w' hw =>
        h h1 w' (e _ _ hw (by simp))
      exact { hi with
        ret := fun t w h => hi.ret t w (e _ _ h (by simp)), freesc := fun w h => hi.freesc w (e _ _ h (by simp))
        freeH := fun w u h => hi.freeH w u (e _ _ h (by simp)), uR := fun t w h h' h'' => hi.uR t w h h' (e _ _ h'' (by simp))
        uX := fun r u h h' => (hi.uX r u h h').imp hP fun h => ⟨h.sec, h.act, h.ep, h.i1, h.ld⟩
        uE2 := fun r u h h' h'' => (hi.uE2 r u h h' h'').imp hP id }
    · cases hs
  | swap t c x =>
    simp only [step] at hs
    split at hs
    · next hx => cases hs; exact hi.swap hx (hwf t)
    · cases hs
  | look t c i =>
    simp only [step] at hs
    split at hs
    · cases hs; exact hi.ld _ _ _
    · cases hs
  | begin t =>
    simp only [step] at hs
    split at hs
    · next hc =>
      cases hs
      exact hi.storeAct (.inl ⟨rfl, rfl⟩) (fun _ _ => rfl) (fun w => hi.hold0 t w (by rw [hc.1]; simp))
    · cases hs
  | fence1 t =>
    simp only [step, fenced] at hs
    split at hs
    · next hc =>
      cases hs
      have hf := hi.fence t
      refine hf.setPc ?_ ?_ ?_ rfl ?_ ?_
      · rw [fen_pc, hc]; simp
      · rw [fen_pc, hc]; simp
      · rw [fen_pc, hc]; simp [PC.has]
      · rw [fence_sc]; exact hf.ownA t
      · rw [fence_sc]; exact Nat.le_refl _
    · cases hs
  | loadg t i =>
    simp only [step] at hs
    split at hs
    · next hc =>
      cases hs
      have hf := (hi.ld t .glob i).setStg (t := t) hc.1
      have h1 : ((Ep.ld s t .glob i).th t).cur .glob = i := by
        simp only [Ep.ld, upd_same, Th.load, join_apply]
        have := hc.2.1
        omega
      rw [h1] at hf
      rw [hi.glob i hc.2.2]
      exact hf
    · cases hs
  | storeg t =>
    simp only [step] at hs
    split at hs
    · next hc => cases hs; exact hi.storeEp hc
    · cases hs
  | fence2 t =>
    simp only [step, fenced] at hs
    split at hs
    · next hc =>
      cases hs
      exact (hi.fence t).setSec (by rw [fen_pc, hc]) (fence_sc s t)
    · cases hs
  | read t c i =>
    simp only [step] at hs
    split at hs
    · next hc => cases hs; exact (hi.read hc.1 hc.2.2).ld t (.cell c) i
    · cases hs
  | end_ t =>
    simp only [step] at hs
    split at hs
    · next hc =>
      cases hs
      have h1 : Inv { s with th := upd s.th t (s.th t).fenceRel } :=
        hi.grow (sc := s.sc) (fun _ => Nat.le_refl _) (fun _ => Nat.le_refl _)
      exact h1.storeAct (.inr rfl) (fun u hu => upd_ne _ _ hu) (fun w => by rw [upd_same])
    · cases hs
  | retire t w =>
    simp only [step] at hs
    split at hs
    · next hc =>
      cases hs
      obtain ⟨ha, hsn, hun⟩ := hc
      have e : ∀ v' r, upd s.ns w (.ret t) v' = .ret r → (v' = w ∧ r = t) ∨ s.ns v' = .ret r := fun v' r h => by
        rw [upd_apply] at h
        split at h
        · next e => injection h with h; exact .inl ⟨e, h.symm⟩
        · exact .inr h
      have ef : ∀ v', upd s.ns w (.ret t) v' = .free → s.ns v' = .free := fun v' h => by
        rw [upd_apply] at h
        split at h
        · cases h
        · exact h
      have hP : ∀ {r u}, r ≠ t → Past s r u → Past { s with ns := upd s.ns w (.ret t) } r u := fun {r u} hr h h1 w' hw => by
        rcases e _ _ hw with ⟨_, h'⟩ | h'
        · exact absurd h' hr
        · exact h h1 w' h'
      have hnt : ∀ {r}, (s.up r).pc ≠ .idle → r ≠ t := fun h h' => by subst h'; exact h hsn
      refine { hi with
        ret := fun r w h => ?_, freesc := fun w h => hi.freesc w (ef _ h)
        freeH := fun w u h => hi.freeH w u (ef _ h), uR := fun r w h h' h'' => ?_
        uX := fun r u h h' => (hi.uX r u h h').imp (hP (hnt h')) fun h => ⟨h.sec, h.act, h.ep, h.i1, h.ld⟩
        uE2 := fun r u h h' h'' => (hi.uE2 r u h h' h'').imp (hP (hnt ?_)) id }
      · rcases e _ _ h with ⟨rfl, rfl⟩ | h
        · exact hun
        · exact hi.ret r w h
      · rcases e _ _ h'' with ⟨_, hw⟩ | h''
        · exact absurd hw (hnt h')
        · exact hi.uR r w h h' h''
      · intro h0
        simp only at h'
        rw [h0] at h'
        exact h'
    · cases hs
  | sync t =>
    simp only [step, fenced] at hs
    split at hs
    · next hc =>
      cases hs
      have hf := hi.fence t
      have h1 := fence_sc s t
      refine hf.setUp (fun h => h.elim) (fun h => h.elim) (fun _ h => h.elim) (fun _ h => h.elim) (fun w _ _ hw => ?_)
        (fun u _ _ => ?_) (fun _ _ h => h.elim)
      · exact (hf.ret t w hw).mono fun c => Nat.le_of_eq (h1 _).symm
      · by_cases hu : (fen true s t).pc u = .sec
        · have h2 := hf.scE u hu
          refine .inr ⟨hu, ?_, ?_, ?_, ?_⟩ <;> simp only [Ep.setUp, upd_same]
          · rw [← h1]; exact hf.scA u (by rw [hu]; simp [PC.post])
          · rw [← h1]; exact h2.1
          · simp [Up.init]
          · exact .inl ⟨trivial, by rw [← h1]; exact h2.2, by simp [Up.init]⟩
        · exact .inl fun h => absurd h hu
    · cases hs
  | poll t =>
    simp only [step] at hs
    split at hs
    · next hc =>
      cases hs
      exact hi.setUp (fun h => h.elim) (fun h => h.elim) (fun _ h => h.elim) (fun _ h => h.elim) (fun w h => by cases h)
        (fun u h => by cases h) (fun _ _ h => h.elim)
    · cases hs
  | lde t i =>
    simp only [step] at hs
    split at hs
    · next hc =>
      cases hs
      have hf := hi.ld t .glob i
      have hn : (s.up t).pc ≠ .idle := by rw [hc.1]; simp
      rw [hi.glob i hc.2.2]
      have hi' : ((Ep.ld s t .glob i).th t).cur .glob = i := by
        simp only [Ep.ld, upd_same, Th.load, join_apply]
        have := hc.2.1
        omega
      refine hf.setUp (fun _ => Nat.succ_le_succ (ld_at s t .glob i)) (fun h => h.elim) (fun _ h => h.elim) (fun _ h => h.elim)
        (fun w h _ => hf.uR t w h hn) (fun u h _ => ?_) (fun _ _ h => h.elim)
      refine (hf.uX t u h hn).imp id fun h => h.set h.i1 (.inr ⟨trivial, ?_⟩)
      rcases h.ld with h' | h'
      · rw [hi'] at h'
        refine ⟨h'.2.1, h'.2.1, fun h1 => ?_⟩
        have : (s.up t).i = 0 := h'.2.2
        have : 1 ≤ (s.up t).i := h1
        omega
      · have := h'.1
        simp only [Ep.ld, hc.1] at this
        exact this.elim
    · cases hs
  | ufence t =>
    simp only [step, fenced, ite_self] at hs
    split at hs
    · next hc =>
      cases hs
      refine (hi.fence t).arm ?_ (fence_sc s t) ?_
      · rw [fen_up, hc]; trivial
      · rw [fen_up]
    · cases hs
  | active t u i =>
    simp only [step] at hs
    split at hs
    · next hc =>
      cases hs
      obtain ⟨hpc, hok, hm⟩ := hc
      have hf := hi.ld t (.act u) i
      have hn : (s.up t).pc ≠ .idle := by rw [hpc]; simp
      have har : (s.up t).pc.armed := by rw [hpc]; trivial
      have hdv : (s.up t).pc.dv := by rw [hpc]; trivial
      split
      · next h0 =>
        -- a value that is known to be the newest is not zero
        have hne : s.mem.top (.act u) ≤ (s.th t).cur (.act u) → (s.pc u).post → False := fun h h' => by
          have : i = s.mem.top (.act u) := Nat.le_antisymm hm.2 (Nat.le_trans h hm.1)
          rw [this, hi.act1 u (by intro h0; rw [h0] at h'; exact h')] at h0
          cases h0
        have hL : ∀ {j}, Lo s u j → Lo (Ep.ld s t (.act u) i) u j := fun {j} h =>
          ⟨h.1, fun h' => Nat.le_trans (h.2 h') (Nat.succ_le_succ (ld_le s t u _ _ _))⟩
        refine hf.setUp (fun _ => hf.uD t hdv) (fun _ => hf.uS t har) (fun r _ => hf.uJ t r har) (fun r _ h h' => ?_)
          (fun w h _ => hf.uR t w h hn) (fun r h _ => ?_) (fun r h _ h' => ?_)
        · simp only [upd_apply] at h
          split at h
          · next e =>
            subst e
            exact hL ((hi.uJ t r har h').resolve_left fun h => hne h h')
          · exact hf.uE t r har h h'
        · exact (hf.uX t r h hn).imp id fun h => h.set h.i1 (by simpa [Ep.ld, hpc] using h.ld)
        · simp only [upd_apply] at h'
          split at h'
          · next e =>
            subst e
            rcases hi.uX t r h hn with h1 | h1
            · refine .inl fun h2 w hw => ?_
              have := h1 h2 w hw
              exact ⟨this.1, this.2.mono fun c => ld_le s t r _ _ _⟩
            · exact (hne h1.act (by rw [h1.sec]; trivial)).elim
          · exact hf.uE2 t r h har h'
      · refine hf.setUp (fun _ => hf.uD t hdv) (fun _ => hf.uS t har) (fun r _ => hf.uJ t r har) (fun r _ => hf.uE t r har)
          (fun w h _ => hf.uR t w h hn) (fun r h _ => ?_) (fun r h _ h' => ?_)
        · refine (hf.uX t r h hn).imp id fun h => h.set h.i1 (.inr ⟨trivial, ?_⟩)
          rcases h.ld with h' | h'
          · have := h'.1; simp only [Ep.ld, hpc] at this; cases this
          · exact h'.2
        · exact (hf.uE2 t r h har h').imp id fun h => ⟨h.1, rfl⟩
    · cases hs
  | epoch t i =>
    simp only [step] at hs
    split at hs
    · next u hpc =>
      split at hs
      · next hm =>
        cases hs
        have hf := hi.ld t (.ep u) i
        have hn : (s.up t).pc ≠ .idle := by rw [hpc]; simp
        have har : (s.up t).pc.armed := by rw [hpc]; trivial
        have hdv : (s.up t).pc.dv := by rw [hpc]; trivial
        have haf : (s.up t).af = true := hi.uAf t u hpc
        split
        · next h0 =>
          have hL : ∀ {j}, Lo s u j → Lo (Ep.ld s t (.ep u) i) u j := fun {j} h =>
            ⟨h.1, fun h' => Nat.le_trans (h.2 h') (Nat.succ_le_succ (ld_le s t u _ _ _))⟩
          refine hf.setUp (fun _ => hf.uD t hdv) (fun _ => hf.uS t har) (fun r _ => hf.uJ t r har) (fun r _ h h' => ?_)
            (fun w h _ => hf.uR t w h hn) (fun r h _ => ?_) (fun r h _ h' => ?_)
          · simp only [upd_apply] at h
            split at h
            · next e =>
              subst e
              have := hi.epLo r i hm.2
              rw [h0] at this
              exact hL this
            · exact hf.uE t r har h h'
          · refine (hf.uX t r h hn).imp id fun h => h.set h.i1 (.inr ⟨trivial, ?_⟩)
            rcases h.ld with h' | h'
            · have := h'.1; simp only [Ep.ld, hpc] at this; cases this
            · exact h'.2
          · simp only [upd_apply] at h'
            split at h'
            · next e =>
              subst e
              rcases hi.uX t r h hn with h1 | h1
              · refine .inl fun h2 w hw => ?_
                have := h1 h2 w hw
                exact ⟨this.1, this.2.mono fun c => ld_le s t r _ _ _⟩
              · have : i = s.mem.top (.ep r) := Nat.le_antisymm hm.2 (Nat.le_trans h1.ep hm.1)
                rw [this, hi.epV r (.inr h1.sec)] at h0
                exact .inr ⟨h0, haf⟩
            · exact hf.uE2 t r h har h'
        · split
          · refine hf.setUp (fun _ => hf.uD t hdv) (fun _ => hf.uS t har) (fun r _ => hf.uJ t r har) (fun r _ => hf.uE t r har)
              (fun w h _ => hf.uR t w h hn) (fun r h _ => ?_) (fun r h _ h' => hf.uE2 t r h har h')
            refine (hf.uX t r h hn).imp id fun h => h.set h.i1 (.inr ⟨trivial, ?_⟩)
            rcases h.ld with h' | h'
            · have := h'.1; simp only [Ep.ld, hpc] at this; cases this
            · exact h'.2
          · exact hf.stop rfl
      · cases hs
    · cases hs
  | reload t i =>
    simp only [step] at hs
    split at hs
    · next u hpc =>
      split at hs
      · next hm =>
        cases hs
        have hf := hi.ld t .glob i
        have hn : (s.up t).pc ≠ .idle := by rw [hpc]; simp
        have har : (s.up t).pc.armed := by rw [hpc]; trivial
        have hdv : (s.up t).pc.dv := by rw [hpc]; trivial
        have hsy : (s.up t).sync = true := hi.uSy t (.inl ⟨u, hpc⟩)
        rw [hi.glob i hm.2]
        split
        · next h0 =>
          refine hf.setUp (fun _ => hf.uD t hdv) (fun _ => hf.uS t har) (fun r _ => hf.uJ t r har) (fun r _ => hf.uE t r har)
            (fun w h _ => hf.uR t w h hn) (fun r h _ => ?_) (fun r h _ h' => ?_)
          · refine (hf.uX t r h hn).imp id fun h => h.set h.i1 (.inr ⟨trivial, ?_⟩)
            rcases h.ld with h' | h'
            · have := h'.1; simp only [Ep.ld, hpc] at this; cases this
            · exact h'.2
          · exact (hf.uE2 t r h har h').imp id fun h => ⟨h.1, rfl⟩
        · next h0 =>
          split
          · next hg =>
            refine hf.out (.inl rfl) hsy hsy hn fun r => (hf.uX t r hsy hn).resolve_right fun h => ?_
            have h1 := (hi.K1 r (by have := h.sec; simp only [Ep.ld] at this; rw [this]; trivial)).1
              (by have := h.sec; simp only [Ep.ld] at this; rw [this]; trivial)
            have h2 := hm.2
            rcases h.ld with h' | h'
            · have := h'.1; simp only [Ep.ld, hpc] at this; cases this
            · have := h'.2.1
              simp only [Ep.ld] at this
              omega
          · refine hf.setUp (fun _ => Nat.succ_le_succ (ld_at s t .glob i)) (fun h => h.elim) (fun _ h => h.elim)
              (fun _ h => h.elim) (fun w h _ => hf.uR t w h hn) (fun r h _ => ?_) (fun _ _ h => h.elim)
            refine (hf.uX t r h hn).imp id fun h => h.set h.i1 (.inr ⟨trivial, ?_⟩)
            rcases h.ld with h' | h'
            · have := h'.1; simp only [Ep.ld, hpc] at this; cases this
            · have h1 := hi.uD t hdv
              have h2 := hm.1
              obtain ⟨h3, h4, h5⟩ := h'.2
              simp only [Ep.ld] at h3 h4 h5 ⊢
              exact ⟨h3, by omega, fun h => by have := h5 h; omega⟩
      · cases hs
    · cases hs
  | tick t =>
    simp only [step] at hs
    split at hs
    · next hc =>
      obtain ⟨hpc, hok⟩ := hc
      have hn : (s.up t).pc ≠ .idle := by rw [hpc]; simp
      have har : (s.up t).pc.armed := by rw [hpc]; trivial
      have hdv : (s.up t).pc.dv := by rw [hpc]; trivial
      split at hs
      · next haf =>
        cases hs
        by_cases hsy : (s.up t).sync = true
        · rw [if_pos hsy]
          refine hi.out (.inl rfl) hsy hsy hn fun r => (hi.uE2 t r hsy har (hok r)).resolve_right fun h => ?_
          rw [haf] at h
          cases h.2
        · rw [if_neg hsy]
          exact hi.stop rfl
      · split at hs
        · next haf hl =>
          cases hs
          have hd : (s.up t).d = s.mem.top .glob + 1 := by
            rw [← hl, Mem.last, hi.glob _ (Nat.le_refl _)]
          rw [hd]
          have hf : Inv (rmw s t .glob (s.mem.top .glob + 1 + 1)) := by
            refine hi.tick (hwf t) rfl ?_ fun u hu => ?_
            · have := hi.uS t har; omega
            · rw [← hd]; exact hi.uE t u har (hok u) hu
          by_cases hsy : (s.up t).sync = true
          · rw [if_pos hsy]
            refine hf.setUp (fun _ => ?_) (fun h => h.elim) (fun _ h => h.elim) (fun _ h => h.elim)
              (fun w h _ => hf.uR t w h hn) (fun r h _ => ?_) (fun _ _ h => h.elim)
            · simp [Ep.rmw, Th.rmw, Th.store]
            · rcases hf.uX t r h hn with h | h
              · exact .inl h
              · rcases h.ld with h' | h'
                · have := h'.1; simp only [Ep.rmw, hpc] at this; cases this
                · obtain ⟨h3, h4, h5⟩ := h'.2
                  by_cases hi1 : (s.up t).i = 0
                  · refine .inr (h.set ?_ (.inr ⟨trivial, h3, ?_, fun _ => ?_⟩)) <;> simp only [Ep.rmw] at * <;> omega
                  · rcases hf.uE2 t r hsy har (hok r) with h6 | h6
                    · exact .inl h6
                    · have := h5 (by simp only [Ep.rmw]; omega)
                      have := h6.1
                      omega
          · rw [if_neg hsy]
            exact hf.stop rfl
        · cases hs
    · cases hs
  | tickf t i =>
    simp only [step] at hs
    split at hs
    · next hc =>
      cases hs
      obtain ⟨hpc, hok, haf, hm, hne⟩ := hc
      have hn : (s.up t).pc ≠ .idle := by rw [hpc]; simp
      have har : (s.up t).pc.armed := by rw [hpc]; trivial
      have hdv : (s.up t).pc.dv := by rw [hpc]; trivial
      rw [hi.glob i hm.2] at hne ⊢
      have hf := hi.ld t .glob i
      have hd := hi.uD t hdv
      have hm1 := hm.1
      by_cases hsy : (s.up t).sync = true
      · rw [if_pos hsy]
        refine hf.setUp (fun _ => Nat.succ_le_succ (ld_at s t .glob i)) (fun h => h.elim) (fun _ h => h.elim)
          (fun _ h => h.elim) (fun w h _ => hf.uR t w h hn) (fun r h _ => ?_) (fun _ _ h => h.elim)
        rcases hf.uX t r h hn with h | h
        · exact .inl h
        · rcases h.ld with h' | h'
          · have := h'.1; simp only [Ep.ld, hpc] at this; cases this
          · obtain ⟨h3, h4, h5⟩ := h'.2
            by_cases hi1 : (s.up t).i = 0
            · refine .inr (h.set ?_ (.inr ⟨trivial, h3, ?_, fun _ => ?_⟩)) <;> simp only [Ep.ld] at * <;> omega
            · rcases hf.uE2 t r hsy har (hok r) with h6 | h6
              · exact .inl h6
              · have := h5 (by simp only [Ep.ld]; omega)
                have := h6.1
                omega
      · rw [if_neg hsy]
        exact hf.stop rfl
    · cases hs
  | cfence t =>
    simp only [step, fenced] at hs
    split at hs
    · next hc =>
      cases hs
      have hf := hi.fence t
      have hsy : (s.up t).sync = true := hi.uSy t (.inr (.inl hc))
      have hn : (s.up t).pc ≠ .idle := by rw [hc]; simp
      split
      · refine hf.arm ?_ (fence_sc s t) ?_
        · rw [fen_up, hc]; trivial
        · rw [fen_up]
      · next h2 =>
        refine hf.out (.inl rfl) (by rw [fen_up]; exact hsy) hsy (by rw [fen_up]; exact hn) fun r => ?_
        refine (hf.uX t r (by rw [fen_up]; exact hsy) (by rw [fen_up]; exact hn)).resolve_right fun h => ?_
        have := h.i1
        rw [fen_up] at this
        omega
    · cases hs
  | leave t =>
    simp only [step] at hs
    split at hs
    · next hc =>
      cases hs
      have hf := hi.fence t
      have hsy : (s.up t).sync = true := hi.uSy t (.inr (.inr (.inl hc)))
      have hn : (s.up t).pc ≠ .idle := by rw [hc]; simp
      refine hf.out (.inr rfl) (by rw [fen_up]; exact hsy) hsy (by rw [fen_up]; exact hn) fun r => ?_
      refine (hf.uX t r (by rw [fen_up]; exact hsy) (by rw [fen_up]; exact hn)).resolve_right fun h => ?_
      rcases h.ld with h' | h'
      · have := h'.1; rw [fen_up, hc] at this; cases this
      · have := h'.1; rw [fen_up, hc] at this; exact this
    · cases hs
  | destroy t w =>
    simp only [step] at hs
    split at hs
    · next hc =>
      cases hs
      obtain ⟨hpc, hr⟩ := hc
      have hsy : (s.up t).sync = true := hi.uSy t (.inr (.inr (.inr hpc)))
      have hn : (s.up t).pc ≠ .idle := by rw [hpc]; simp
      have hpast : ∀ u, Past s t u := fun u => (hi.uX t u hsy hn).resolve_right fun h => by
        rcases h.ld with h' | h'
        · have := h'.1; rw [hpc] at this; cases this
        · have := h'.1; rw [hpc] at this; exact this
      have e : ∀ v' r, upd s.ns w .free v' = .ret r → s.ns v' = .ret r := fun v' r h => by
        rw [upd_apply] at h
        split at h
        · cases h
        · exact h
      have ef : ∀ v', upd s.ns w .free v' = .free → v' = w ∨ s.ns v' = .free := fun v' h => by
        rw [upd_apply] at h
        split at h
        · next e => exact .inl e
        · exact .inr h
      have hP : ∀ {r u}, Past s r u → Past { s with ns := upd s.ns w .free } r u := fun {r u} h h1 w' hw =>
        h h1 w' (e _ _ hw)
      refine { hi with
        ret := fun r w h => hi.ret r w (e _ _ h), freesc := fun w' h => ?_
        freeH := fun w' u h h' => ?_, uR := fun r w h h' h'' => hi.uR r w h h' (e _ _ h'')
        uX := fun r u h h' => (hi.uX r u h h').imp hP fun h => ⟨h.sec, h.act, h.ep, h.i1, h.ld⟩
        uE2 := fun r u h h' h'' => (hi.uE2 r u h h' h'').imp hP id }
      · rcases ef _ h with rfl | h
        · exact hi.uR t w' hsy hn hr
        · exact hi.freesc w' h
      · rcases ef _ h with rfl | h
        · exact hpast u h' w' hr
        · exact hi.freeH w' u h h'
    · cases hs
  | ret t =>
    simp only [step] at hs
    split at hs
    · cases hs; exact hi.stop rfl
    · cases hs

/-! ## Views do not point beyond the newest value -/

def Wf (s : St n m) : Prop := s.mem.Wf ∧ (∀ t, (s.th t).Wf s.mem) ∧ ∀ y, s.sc y ≤ s.mem.top y

theorem Wf.th {s : St n m} (h : Wf s) {t : Fin n} {q : Th (Loc n m)} (hq : q.Wf s.mem) : Wf { s with th := upd s.th t q } := by
  refine ⟨h.1, fun u => ?_, h.2.2⟩
  simp only [upd_apply]
  split
  · exact hq
  · exact h.2.1 u

theorem Wf.ld {s : St n m} (h : Wf s) {t : Fin n} {x : Loc n m} {i : Nat} (hm : (s.th t).may s.mem x i) : Wf (ld s t x i) :=
  h.th ((h.2.1 t).load h.1 hm.2)

theorem Wf.fen {s : St n m} (h : Wf s) (b : Bool) (t : Fin n) : Wf (fen b s t) := by
  cases b
  · exact h
  · have h1 := h.th (t := t) ((h.2.1 t).fence h.2.2)
    exact ⟨h1.1, h1.2.1, fun y => join_le (join_le (h.2.1 t y).1 (h.2.1 t y).2.1) (h.2.2 y)⟩

theorem Wf.stor {s : St n m} (h : Wf s) (t : Fin n) (x : Loc n m) (k : Nat) : Wf (stor s t x k) := by
  refine ⟨h.1.store (h.2.1 t) _ _, fun u => ?_, fun y => Nat.le_trans (h.2.2 y) (Mem.store_top_le _ _ _ _ _)⟩
  simp only [Ep.stor, upd_apply]
  split
  · exact (h.2.1 t).store _ _
  · exact (h.2.1 u).mono (Mem.store_top_le _ _ _ _)

theorem Wf.rmw {s : St n m} (h : Wf s) (t : Fin n) (x : Loc n m) (k : Nat) : Wf (rmw s t x k) := by
  refine ⟨h.1.rmw (h.2.1 t) _ _, fun u => ?_, fun y => Nat.le_trans (h.2.2 y) (Mem.rmw_top_le _ _ _ _ _)⟩
  simp only [Ep.rmw, upd_apply]
  split
  · exact (h.2.1 t).rmw h.1 _ _
  · exact (h.2.1 u).mono (Mem.rmw_top_le _ _ _ _)

theorem wf_step {fc : Fences} {s s' : St n m} {a : Act n m} (h : Wf s) (hs : step fc s a = some s') : Wf s' := by
  cases a <;> simp only [step] at hs
  case alloc => split at hs <;> cases hs; exact h
  case swap => split at hs <;> cases hs; exact h.rmw _ _ _
  case look => split at hs <;> cases hs; next hc => exact h.ld hc
  case begin => split at hs <;> cases hs; exact h.stor _ _ _
  case fence1 => split at hs <;> cases hs; exact h.fen _ _
  case loadg => split at hs <;> cases hs; next hc => exact h.ld hc.2
  case storeg => split at hs <;> cases hs; exact h.stor _ _ _
  case fence2 => split at hs <;> cases hs; exact h.fen _ _
  case read => split at hs <;> cases hs; next hc => exact h.ld hc.2.2
  case end_ t => split at hs <;> cases hs; exact (h.th (t := t) (h.2.1 t).fenceRel).stor _ _ _
  case retire => split at hs <;> cases hs; exact h
  case sync => split at hs <;> cases hs; exact h.fen _ _
  case poll => split at hs <;> cases hs; exact h
  case lde => split at hs <;> cases hs; next hc => exact h.ld hc.2
  case ufence => split at hs <;> cases hs; exact h.fen _ _
  case active => split at hs <;> cases hs; next hc => exact h.ld hc.2.2
  case epoch =>
    split at hs
    · split at hs <;> cases hs
      next hc => exact h.ld hc
    · cases hs
  case reload =>
    split at hs
    · split at hs <;> cases hs
      next hc => exact h.ld hc
    · cases hs
  case tick =>
    split at hs
    · split at hs
      · cases hs; exact h
      · split at hs <;> cases hs
        exact h.rmw _ _ _
    · cases hs
  case tickf => split at hs <;> cases hs; next hc => exact h.ld hc.2.2.2.1
  case cfence => split at hs <;> cases hs; exact h.fen _ _
  case leave => split at hs <;> cases hs; exact h.fen _ _
  case destroy => split at hs <;> cases hs; exact h
  case ret => split at hs <;> cases hs; exact h

theorem wf_reach {fc : Fences} {s : St n m} (h : (sys fc n m).Reach s) : Wf s := by
  refine h.invariant (I := Wf) ?_ (fun _ _ _ hi hs => wf_step hi hs)
  rintro s rfl
  exact ⟨Mem.Wf.init _, fun _ => Th.Wf.init _, fun _ => Nat.le_refl _⟩

theorem inv_init : Inv (initSt n m) := by
  have hU : ∀ k w, Unlinked (initSt n m).mem k w := fun k w c i _ h => by simp [initSt, Mem.init] at h
  exact {
    glob := fun i h => by
      have : i = 0 := Nat.le_zero.1 h
      subst this; simp [initSt, Mem.init]
    act1 := fun u h => absurd rfl h
    ownA := fun u => Nat.le_refl _
    ownE := fun u => Nat.le_refl _
    scA := fun u h => h.elim
    vle := fun u h => h.elim
    epLo := fun u j h => by simp [Lo, initSt, Mem.init, PC.has]
    epV := fun u h => by rcases h with h | h <;> cases h
    scE := fun u h => by cases h
    K0 := Nat.zero_le _
    K1 := fun u h => h.elim
    hold0 := fun u w _ => rfl
    ret := fun t w _ => hU _ _
    freesc := fun w _ => hU _ _
    freeH := fun w u _ h => by cases h
    uD := fun t h => h.elim
    uS := fun t h => h.elim
    uJ := fun t u h => h.elim
    uE := fun t u h => h.elim
    uR := fun t w h => by cases h
    uX := fun t u h => by cases h
    uE2 := fun t u h => by cases h
    uAf := fun t u h => by cases h
    uSy := fun t h => by rcases h with ⟨u, h⟩ | h | h | h <;> cases h }

theorem inv_reach {s : St n m} (h : (sys fenced n m).Reach s) : Inv s := by
  induction h with
  | init h0 => cases h0; exact inv_init
  | step hr hs ih => exact inv_step ih (fun t y => ((wf_reach hr).2.1 t y).1) hs

/-! ## Properties -/

/-- C79: a node to which a thread in a protected section has found a pointer is not destroyed.  Partial: only with a full fence added
at the end of `ck_epoch_begin` and one after `ck_epoch_synchronize` has loaded the epoch; not true of the code as it is, see
`use_after_free`. -/
theorem held_partial {s : St n m} (h : (sys fenced n m).Reach s) {t : Fin n} {w : Nat} (hp : s.pc t = .sec)
    (hw : s.hold t w = true) : s.ns w ≠ .free := fun h' => by
  have := ((inv_reach h).freeH w t h' hp).1
  rw [hw] at this
  cases this

/-- C79: what is destroyed after `ck_epoch_synchronize` is in use in no section, and no section that is open will find a pointer to
it (partial: as `held_partial`). -/
theorem destroy_unheld_partial {s s' : St n m} (h : (sys fenced n m).Reach s) {t u : Fin n} {w : Nat}
    (hs : (sys fenced n m).step s (.destroy t w) = some s') (hp : s.pc u = .sec) :
    s.hold u w = false ∧ ∀ c i, (s.th u).may s.mem (.cell c) i → (s.mem.msg (.cell c) i).val ≠ w + 1 := by
  have hc := inv_reach (h.step hs)
  simp only [sys, step] at hs
  split at hs
  · cases hs
    have := hc.freeH w u (by simp only [upd_same]) hp
    refine ⟨this.1, fun c i hm hv => ?_⟩
    have := this.2 c i (Nat.lt_succ_of_le hm.2) hv
    have := hm.1
    simp only at *
    omega
  · cases hs

/-- C79: the epoch is moved at most once past the one a section has loaded, as long as the section is open (partial: as
`held_partial`). -/
theorem epoch_lag_partial {s : St n m} (h : (sys fenced n m).Reach s) {t : Fin n} (hp : s.pc t = .sec) :
    s.mem.last .glob ≤ (s.mem.last (.ep t)) + 1 := by
  have hi := inv_reach h
  have h1 := (hi.K1 t (by rw [hp]; trivial)).1 (by rw [hp]; trivial)
  have h2 := hi.epV t (.inr hp)
  have h3 := hi.glob _ (Nat.le_refl _)
  simp only [Mem.last]
  omega

/-! ## Without the fences -/

/-- A run after which thread 0 is in a section and has a pointer to node 7, which was destroyed. -/
def lost {n : Nat} (fc : Fences) (t : Fin n) (as : List (Act n 1)) : Bool :=
  match (sys fc n 1).run (initSt n 1) as with
  | some s => decide (s.pc t = .sec ∧ s.hold t 7 = true ∧ s.ns 7 = .free)
  | none => false

/-- The reader has been in a section before, and is in `ck_epoch_begin` again; the writer sees the old epoch of its record and
moves the epoch; the reader loads the new epoch but, not being fenced after that, still the old pointer. -/
def lateEpoch : List (Act 2 1) :=
  [.alloc 7, .swap 1 0 (some 7), .begin 0, .fence1 0, .loadg 0 0, .storeg 0, .fence2 0, .end_ 0, .begin 0, .fence1 0,
    .swap 1 0 none, .retire 1 7, .sync 1, .lde 1 0, .ufence 1, .active 1 0 3, .epoch 1 1, .active 1 1 0, .tick 1, .cfence 1,
    .loadg 0 1, .storeg 0, .fence2 0, .read 0 0 1,
    .active 1 0 3, .epoch 1 2, .active 1 1 0, .tick 1, .cfence 1, .leave 1, .destroy 1 7]

/-- C79, the code as it is: the node is destroyed after `ck_epoch_synchronize` while a section uses it. -/
theorem use_after_free : lost real 0 lateEpoch = true := by decide +kernel

/-- The fence in `ck_epoch_synchronize` alone does not help. -/
theorem no_fence_begin : lost { fenced with rd2 := false } 0 lateEpoch = true := by decide +kernel

/-- Thread 2 enters a section, loading epoch `i + 1`. -/
def enter (i : Nat) : List (Act 5 1) := [.begin 2, .fence1 2, .loadg 2 i, .storeg 2, .fence2 2]

/-- Scan by `t`, which does not see the section of thread 0, but that of thread 2 (`a`, `e`: which values of its record are loaded). -/
def blind (t : Fin 5) (a e : Nat) : List (Act 5 1) :=
  [.active t 0 0, .active t 1 0, .active t 2 a, .epoch t e, .active t 3 0, .active t 4 0]

/-- The fence in `ck_epoch_begin` alone does not help: threads 3 and 4 fenced before the section began, they load the epoch later
and move it three times, so that thread 1 does not wait. -/
theorem no_fence_load : lost (n := 5) { fenced with s2 := false } 0
    ([.alloc 7, .swap 1 0 (some 7), .sync 3, .sync 4, .begin 0, .fence1 0, .loadg 0 0, .storeg 0, .fence2 0, .read 0 0 1,
      .swap 1 0 none, .retire 1 7, .sync 1, .lde 1 0, .ufence 1, .active 1 0 1, .epoch 1 1, .active 1 1 0, .active 1 2 0, .active 1 3 0,
      .active 1 4 0, .tick 1, .cfence 1] ++ enter 1 ++ [.lde 3 1, .ufence 3] ++ blind 3 1 1 ++ [.tick 3, .end_ 2] ++ enter 2 ++
      [.lde 4 2, .ufence 4] ++ blind 4 3 2 ++ [.tick 4, .active 1 0 1, .epoch 1 1, .reload 1 3, .leave 1, .destroy 1 7]) = true := by
  decide +kernel

/-- Without the first fence of `ck_epoch_synchronize` (line 432): the epoch it loads may be old. -/
theorem no_fence_sync : lost (n := 5) { fenced with s1 := false } 0
    ([.alloc 7, .swap 1 0 (some 7)] ++ enter 0 ++ [.poll 2, .lde 2 0, .ufence 2] ++ blind 2 1 1 ++ [.tick 2, .end_ 2] ++ enter 1 ++
      [.poll 2, .lde 2 1, .ufence 2] ++ blind 2 3 2 ++ [.tick 2, .end_ 2] ++ enter 2 ++ [.poll 2, .lde 2 2, .ufence 2] ++ blind 2 5 3 ++
      [.tick 2, .end_ 2, .begin 0, .fence1 0, .loadg 0 3, .storeg 0, .fence2 0, .read 0 0 1,
      .swap 1 0 none, .retire 1 7, .sync 1, .lde 1 0, .ufence 1, .active 1 0 1, .epoch 1 1, .reload 1 3, .leave 1,
      .destroy 1 7]) = true := by
  decide +kernel

/-- Without the fence after the `cas` (line 509). -/
theorem no_fence_cas : lost (n := 5) { fenced with s3 := false } 0
    ([.alloc 7, .swap 1 0 (some 7)] ++ enter 0 ++ [.sync 3, .lde 3 0, .ufence 3, .sync 4, .lde 4 0, .ufence 4] ++ blind 3 1 1 ++ blind 4 1 1 ++
      [.begin 0, .fence1 0, .loadg 0 0, .storeg 0, .fence2 0, .read 0 0 1,
      .swap 1 0 none, .retire 1 7, .sync 1, .lde 1 0, .ufence 1, .active 1 0 1, .epoch 1 1, .active 1 1 0, .active 1 2 1, .epoch 1 1,
      .active 1 3 0, .active 1 4 0, .tick 1, .cfence 1, .tickf 3 1, .cfence 3, .end_ 2] ++ enter 1 ++ blind 3 3 2 ++
      [.tick 3, .end_ 2] ++ enter 2 ++ [.tickf 4 2, .cfence 4] ++ blind 4 5 3 ++
      [.tick 4, .active 1 0 1, .epoch 1 1, .reload 1 3, .leave 1, .destroy 1 7]) = true := by
  decide +kernel

/-- Without the fence of `ck_epoch_poll` (line 577). -/
theorem no_fence_poll : lost (n := 5) { fenced with pl := false } 0
    ([.alloc 7, .swap 1 0 (some 7)] ++ enter 0 ++ [.begin 0, .fence1 0, .loadg 0 0, .storeg 0, .fence2 0, .read 0 0 1,
      .swap 1 0 none, .retire 1 7, .sync 1, .lde 1 0, .ufence 1, .poll 3, .lde 3 0, .ufence 3] ++ blind 3 1 1 ++ [.tick 3, .end_ 2] ++
      enter 1 ++ [.poll 3, .lde 3 1, .ufence 3] ++ blind 3 3 2 ++ [.tick 3, .end_ 2] ++ enter 2 ++ [.poll 3, .lde 3 2, .ufence 3] ++
      blind 3 5 3 ++ [.tick 3, .active 1 0 1, .epoch 1 1, .active 1 1 0, .active 1 2 5, .epoch 1 3, .reload 1 3, .leave 1,
      .destroy 1 7]) = true := by
  decide +kernel

/-- With all fences: the writer waits until the section is over, and destroys the node; its memory is used again. -/
def sample : List (Act 2 1) :=
  [.alloc 7, .swap 1 0 (some 7), .begin 0, .fence1 0, .loadg 0 0, .storeg 0, .fence2 0, .read 0 0 1,
    .swap 1 0 none, .retire 1 7, .sync 1, .lde 1 0, .ufence 1, .active 1 0 1, .epoch 1 1, .active 1 1 0, .tick 1, .cfence 1,
    .active 1 0 1, .epoch 1 1, .reload 1 1, .end_ 0, .active 1 0 2, .active 1 1 0, .tick 1, .cfence 1, .leave 1, .destroy 1 7, .ret 1,
    .alloc 7, .swap 1 0 (some 7), .begin 0, .fence1 0, .loadg 0 2, .storeg 0, .fence2 0, .read 0 0 3]

theorem sample_run : ((sys fenced 2 1).run (initSt 2 1) sample).map (fun s => (s.ns 7, s.pc 0, s.hold 0 7)) =
    some (.alive, .sec, true) := by decide +kernel

example : ∃ s : St 2 1, (sys fenced 2 1).Reach s ∧ s.pc 0 = .sec ∧ s.hold 0 7 = true := by
  cases hr : (sys fenced 2 1).run (initSt 2 1) sample with
  | none => have h := sample_run; rw [hr] at h; cases h
  | some s =>
    have h := sample_run
    rw [hr] at h
    simp only [Option.map_some, Option.some.injEq, Prod.mk.injEq] at h
    exact ⟨s, Sys.Reach.of_run (.init rfl) hr, h.2⟩

end Verif.Weak.Ep
