import Verif.Ht.HsInv

/-!
# Hash set: every operation of the writer is a sequence of stores that keeps the invariant
-/

set_option linter.unusedSectionVars false

namespace Verif.Hs

open Verif

variable {K V : Type} [DecidableEq K] [DecidableEq V]

/-! ## The probe -/

/-- What a probe that ended at index `e` knows. -/
def PS (cfg : Cfg K V) (m : Map V) (q : K) (beh : Beh) (lim0 opl : Nat) (r : PR V) (e : Nat) : Prop :=
  let h := cfg.hash q
  NE m h e ∧ (∀ j, j < e → ¬ IsKey cfg m q (slotAt m h j)) ∧
  (match r.obj with
    | some v => r.cur = some (slotAt m h e) ∧ cfg.key v = q ∧ e < opl ∧ ∃ tg, m.ent (slotAt m h e) = .full v tg
    | none => (r.cur = none ∧ lim0 ≤ e) ∨ (r.cur = some (slotAt m h e) ∧ e < opl ∧
        (m.ent (slotAt m h e) = .empty ∨
          beh = .tombstone ∧ m.ent (slotAt m h e) = .tomb ∧ r.pr = some (slotAt m h e)))) ∧
  ((r.pr = none ∧ r.n = e + 1) ∨ ∃ j, j ≤ e ∧ (j = e → r.obj = none) ∧ j < opl ∧ r.pr = some (slotAt m h j) ∧
    r.n = j + 1 ∧ m.ent (slotAt m h j) = .tomb)

theorem probeLoop_spec (cfg : Cfg K V) (m : Map V) (q : K) (beh : Beh) (lim0 opl : Nat)
    (htag : ∀ x v tg, m.ent x = .full v tg → tg = cfg.tag (cfg.hash (cfg.key v))) (hl : lim0 ≤ opl) :
    ∀ fuel k lim pr r, probeLoop cfg m q beh opl fuel k lim pr = some r →
      (lim = lim0 ∨ lim = opl) → k ≤ lim → NE m (cfg.hash q) k →
      (∀ j, j < k → ¬ IsKey cfg m q (slotAt m (cfg.hash q) j)) →
      (∀ p, pr = some p → ∃ j, j < k ∧ p = (slotAt m (cfg.hash q) j, j + 1) ∧
        m.ent (slotAt m (cfg.hash q) j) = .tomb) →
      ∃ e, PS cfg m q beh lim0 opl r e := by
  intro fuel
  induction fuel with
  | zero => intro k lim pr r h; simp [probeLoop] at h
  | succ fuel ih =>
    intro k lim pr r h hlim hk hne hnk hpr
    unfold probeLoop at h
    simp only at h
    -- the part of the result about tombstones
    have hP : ∀ (x lim' : Nat) (o : Option V), 
        (((leave x (k + 1) lim' pr o).pr = none ∧ (leave x (k + 1) lim' pr o).n = k + 1) ∨
        ∃ j, j ≤ k ∧ (j = k → (leave x (k + 1) lim' pr o).obj = none) ∧ j < opl ∧
          (leave x (k + 1) lim' pr o).pr = some (slotAt m (cfg.hash q) j) ∧
          (leave x (k + 1) lim' pr o).n = j + 1 ∧ m.ent (slotAt m (cfg.hash q) j) = .tomb) := by
      intro x lim' o
      cases hp : pr with
      | none => left; exact ⟨rfl, rfl⟩
      | some p =>
        right
        obtain ⟨j', h8, h9, h10⟩ := hpr p hp
        exact ⟨j', by omega, by omega, by rcases hlim with h | h <;> omega, by simp [leave, h9], by simp [leave, h9], h10⟩
    split at h
    · next hc =>
      cases h
      refine ⟨k, hne, hnk, ?_, hP _ _ _⟩
      have : lim < k + 1 := by omega
      simp only [leave, this, if_true]
      left
      refine ⟨trivial, ?_⟩
      rcases hlim with h | h <;> omega
    · next hc =>
      have hlim' : k < (if k = lim then opl else lim) := by
        split
        · next h =>
          have : lim ≠ opl := fun h' => hc ⟨h, .inl h'⟩
          rcases hlim with h1 | h1 <;> omega
        · omega
      have hlim'' : (if k = lim then opl else lim) = lim0 ∨ (if k = lim then opl else lim) = opl := by
        split
        · right; rfl
        · exact hlim
      have hko : k < opl := by rcases hlim'' with h | h <;> omega
      have hnlt : ¬ ((if k = lim then opl else lim) < k + 1) := by omega
      split at h
      · next he =>
        cases h
        refine ⟨k, hne, hnk, ?_, hP _ _ _⟩
        simp only [leave, gt_iff_lt, if_neg hnlt]
        right
        exact ⟨trivial, hko, .inl he⟩
      · next he =>
        have hne' : NE m (cfg.hash q) (k + 1) := by
          intro j hj
          by_cases h : j = k
          · rw [h, he]; simp
          · exact hne j (by omega)
        have hnk' : ∀ j, j < k + 1 → ¬ IsKey cfg m q (slotAt m (cfg.hash q) j) := by
          intro j hj
          by_cases h : j = k
          · rw [h]; rintro ⟨v, tg, h1, -⟩; rw [he] at h1; cases h1
          · exact hnk j (by omega)
        split at h
        · refine ih _ _ _ _ h hlim'' (by omega) hne' hnk' ?_
          intro p' hp'
          obtain ⟨j, h1, h2, h3⟩ := hpr p' hp'
          exact ⟨j, by omega, h2, h3⟩
        · split at h
          · next hb =>
            cases h
            refine ⟨k, hne, hnk, ?_, ?_⟩
            · simp only [leave, gt_iff_lt, if_neg hnlt]
              right
              exact ⟨trivial, hko, .inr ⟨hb, he, rfl⟩⟩
            · right
              refine ⟨k, Nat.le_refl _, ?_, hko, rfl, rfl, he⟩
              intro _
              simp [leave]
          · refine ih _ _ _ _ h hlim'' (by omega) hne' hnk' ?_
            intro p' hp'
            cases hp'
            exact ⟨k, by omega, rfl, he⟩
      · next v tg he =>
        split at h
        · next hh =>
          cases h
          simp only [hit, Bool.and_eq_true, decide_eq_true_eq] at hh
          refine ⟨k, hne, hnk, ?_, hP _ _ _⟩
          simp only [leave, gt_iff_lt, if_neg hnlt]
          exact ⟨trivial, hh.2, hko, tg, he⟩
        · next hh =>
          refine ih _ _ _ _ h hlim'' (by omega) ?_ ?_ ?_
          · intro j hj
            by_cases h : j = k
            · rw [h, he]; simp
            · exact hne j (by omega)
          · intro j hj
            by_cases h : j = k
            · rw [h]
              rintro ⟨w, t, h1, h2⟩
              rw [he] at h1; cases h1
              apply hh
              have := htag _ _ _ he
              simp only [hit, Bool.and_eq_true, decide_eq_true_eq]
              exact ⟨by rw [this, h2], h2⟩
            · exact hnk j (by omega)
          · intro p hp
            obtain ⟨j, h1, h2, h3⟩ := hpr p hp
            exact ⟨j, by omega, h2, h3⟩

theorem probeLoop_ends (cfg : Cfg K V) (m : Map V) (q : K) (beh : Beh) (lim0 opl : Nat) (hl : lim0 ≤ opl) :
    ∀ fuel k lim pr, (lim = lim0 ∨ lim = opl) → k ≤ lim → opl < fuel + k →
      ∃ r, probeLoop cfg m q beh opl fuel k lim pr = some r := by
  intro fuel
  induction fuel with
  | zero => intro k lim pr hlim hk hf; rcases hlim with h | h <;> omega
  | succ fuel ih =>
    intro k lim pr hlim hk hf
    unfold probeLoop
    simp only
    split
    · exact ⟨_, rfl⟩
    · next hc =>
      have hlim' : k < (if k = lim then opl else lim) := by
        split
        · next h =>
          have : lim ≠ opl := fun h' => hc ⟨h, .inl h'⟩
          rcases hlim with h1 | h1 <;> omega
        · omega
      have hlim'' : (if k = lim then opl else lim) = lim0 ∨ (if k = lim then opl else lim) = opl := by
        split
        · right; rfl
        · exact hlim
      split
      · exact ⟨_, rfl⟩
      · split
        · exact ih _ _ _ hlim'' (by omega) (by omega)
        · split
          · exact ⟨_, rfl⟩
          · exact ih _ _ _ hlim'' (by omega) (by omega)
      · split
        · exact ⟨_, rfl⟩
        · exact ih _ _ _ hlim'' (by omega) (by omega)

theorem Wf.bound_le {cfg : Cfg K V} {m : Map V} {abs : K → Option V} (h : Wf cfg m abs) (x : Nat) :
    bound cfg m x ≤ m.maxi := by
  unfold bound
  split
  · exact Nat.le_refl _
  · next b hb =>
    split
    · exact Nat.le_refl _
    · exact h.bm b _ hb (h.g.off_lt x)

/-- The three ways the probe is called. -/
def Call (cfg : Cfg K V) (m : Map V) (q : K) (beh : Beh) (opl : Nat) : Prop :=
  (beh = .probe ∧ opl = bound cfg m (cfg.hash q)) ∨ (beh = .insert ∧ opl = m.limit) ∨ (beh = .tombstone ∧ opl = m.limit)

theorem probe_spec {cfg : Cfg K V} {m : Map V} {abs : K → Option V} {q : K} {beh : Beh} {opl : Nat}
    (hw : Wf cfg m abs) (hc : Call cfg m q beh opl) :
    ∃ r e, probe cfg m q beh opl = some r ∧
      PS cfg m q beh (if beh = .tombstone then opl else bound cfg m (cfg.hash q)) opl r e := by
  have hb := hw.bound_le (cfg.hash q)
  have hml := hw.ml
  have hle : (if beh = .tombstone then opl else bound cfg m (cfg.hash q)) ≤ opl := by
    rcases hc with ⟨h, h'⟩ | ⟨h, h'⟩ | ⟨h, h'⟩ <;> subst h h' <;> simp <;> omega
  have heq : (if beh = .insert then bound cfg m (cfg.hash q) else opl) =
      (if beh = .tombstone then opl else bound cfg m (cfg.hash q)) := by
    rcases hc with ⟨h, h'⟩ | ⟨h, h'⟩ | ⟨h, h'⟩ <;> subst h h' <;> simp
  unfold probe
  simp only
  rw [heq]
  have hmax : Nat.max (if beh = .tombstone then opl else bound cfg m (cfg.hash q)) opl = opl := Nat.max_eq_right hle
  rw [hmax]
  obtain ⟨r, hr⟩ := probeLoop_ends cfg m q beh _ opl hle (opl + 1) 0
    (if beh = .tombstone then opl else bound cfg m (cfg.hash q)) none (.inl rfl) (Nat.zero_le _) (by omega)
  obtain ⟨e, he⟩ := probeLoop_spec cfg m q beh _ opl (fun x v tg h => (hw.g.tag x v tg h).1) hle _ _ _ _ _ hr
    (.inl rfl) (Nat.zero_le _) (fun j hj => by omega) (fun j hj => by omega) (fun p hp => by cases hp)
  exact ⟨r, e, hr, he⟩

/-- The probe finds the object of the key. -/
theorem PS.obj {cfg : Cfg K V} {m : Map V} {abs : K → Option V} {q : K} {beh : Beh} {opl e : Nat} {r : PR V}
    (hw : Wf cfg m abs)
    (hp : PS cfg m q beh (if beh = .tombstone then opl else bound cfg m (cfg.hash q)) opl r e)
    (ht : beh = .tombstone → abs q = none) : r.obj = abs q := by
  obtain ⟨hne, hnk, ho, -⟩ := hp
  cases hro : r.obj with
  | some v =>
    rw [hro] at ho
    obtain ⟨-, hk, -, tg, he⟩ := ho
    have := hw.g.here _ _ _ he (by simp)
    rw [← hk]; exact this.symm
  | none =>
    rw [hro] at ho
    cases ha : abs q with
    | none => rfl
    | some v =>
      exfalso
      obtain ⟨k, hb, -, hf, hn⟩ := hw.g.pos q v ha
      have hb := hb.lt_bound
      have hkey := hw.g.ak q v ha
      have hnt : beh ≠ .tombstone := fun h => by rw [ht h] at ha; cases ha
      rw [if_neg hnt] at ho
      have hke : ¬ k < e := fun h => hnk k h ⟨v, _, hf, hkey⟩
      rcases ho with ⟨-, h⟩ | ⟨-, -, h | ⟨h, -⟩⟩
      · omega
      · by_cases hk : k = e
        · rw [hk, h] at hf; cases hf
        · exact hn e (by omega) h
      · exact hnt h

/-! ## Counting -/

theorem countP_upd (f : Nat → Slot V) (x : Nat) (s : Slot V) (l : List Nat) (hl : l.Nodup) (hx : x ∈ l) :
    l.countP (fun y => isFull (upd f x s y)) + (if isFull (f x) then 1 else 0) =
      l.countP (fun y => isFull (f y)) + (if isFull s then 1 else 0) := by
  induction l with
  | nil => cases hx
  | cons a l ih =>
    rw [List.nodup_cons] at hl
    rw [List.countP_cons, List.countP_cons]
    by_cases h : a = x
    · subst h
      have : l.countP (fun y => isFull (upd f a s y)) = l.countP (fun y => isFull (f y)) := by
        apply List.countP_congr
        intro y hy
        rw [upd_ne]
        intro h; subst h; exact hl.1 hy
      rw [this, upd_same]
      omega
    · have := ih hl.2 (by simpa [Ne.symm h] using hx)
      rw [upd_ne _ _ h]
      omega

theorem card_upd (m : Map V) (x : Nat) (s : Slot V) (hx : x < m.cap) (m' : Map V) (hc : m'.cap = m.cap)
    (he : m'.ent = upd m.ent x s) :
    card m' + (if isFull (m.ent x) then 1 else 0) = card m + (if isFull s then 1 else 0) := by
  unfold card
  rw [hc, he]
  exact countP_upd m.ent x s _ List.nodup_range (List.mem_range.2 hx)

theorem isFull_of {s : Slot V} {v : V} {tg : Nat} (h : s = .full v tg) : isFull s = true := by subst h; rfl

/-! ## Raising the bounds -/

/-- `m'` differs from `m` only in its bounds, and these are not lower. -/
structure Raise (cfg : Cfg K V) (m m' : Map V) : Prop where
  ent : m'.ent = m.ent
  cap : m'.cap = m.cap
  mask : m'.mask = m.mask
  step : m'.step = m.step
  limit : m'.limit = m.limit
  n : m'.n = m.n
  inb : ∀ h k, InB cfg m h k → InB cfg m' h k

theorem Raise.slot {cfg : Cfg K V} {m m' : Map V} (h : Raise cfg m m') : slotAt m' = slotAt m := by
  funext a k; unfold slotAt; rw [h.mask, h.step]

theorem Raise.pos {cfg : Cfg K V} {m m' : Map V} (h : Raise cfg m m') {d : Option Nat} {q : K} {k : Nat} {v : V}
    (hp : Pos cfg m d q k v) : Pos cfg m' d q k v := by
  obtain ⟨h1, h2, h3, h4⟩ := hp
  refine ⟨h.inb _ _ h1, ?_, ?_, ?_⟩
  · rw [h.slot]; exact h2
  · rw [h.slot, h.ent]; exact h3
  · intro j hj; rw [h.slot, h.ent]; exact h4 j hj

theorem Raise.trans {cfg : Cfg K V} {m m' m'' : Map V} (h : Raise cfg m m') (h' : Raise cfg m' m'') :
    Raise cfg m m'' :=
  ⟨h'.ent.trans h.ent, h'.cap.trans h.cap, h'.mask.trans h.mask, h'.step.trans h.step, h'.limit.trans h.limit,
    h'.n.trans h.n, fun a k hk => h'.inb a k (h.inb a k hk)⟩

theorem Raise.refl (cfg : Cfg K V) (m : Map V) : Raise cfg m m := ⟨rfl, rfl, rfl, rfl, rfl, rfl, fun _ _ h => h⟩

/-- `P` holds for the contents before and after each of the stores. -/
def Near (cfg : Cfg K V) (P : (K → Option V) → Prop) : Map V → Gh K V → List (Stmt V) → Prop
  | _, g, [] => P g.abs
  | m, g, st :: l => P g.abs ∧ Near cfg P (exec m st) (gexec cfg m g st) l

theorem Near.append {cfg : Cfg K V} {P : (K → Option V) → Prop} :
    ∀ {l l' : List (Stmt V)} {m : Map V} {g : Gh K V}, Near cfg P m g l →
      Near cfg P (execs m l) (gexecs cfg m g l) l' → Near cfg P m g (l ++ l')
  | [], _, _, _, _, h' => h'
  | _ :: _, _, _, _, ⟨h, h1⟩, h' => ⟨h, Near.append h1 h'⟩

/-- The contents are `a` up to one of the stores and `b` from then on. -/
def Once (cfg : Cfg K V) (a b : K → Option V) : Map V → Gh K V → List (Stmt V) → Prop
  | _, g, [] => g.abs = b
  | m, g, st :: l => (g.abs = a ∧ Once cfg a b (exec m st) (gexec cfg m g st) l) ∨ Near cfg (· = b) m g (st :: l)

theorem Near.once {cfg : Cfg K V} {a b : K → Option V} :
    ∀ {l : List (Stmt V)} {m : Map V} {g : Gh K V}, Near cfg (· = b) m g l → Once cfg a b m g l
  | [], _, _, h => h
  | _ :: _, _, _, h => .inr h

theorem Once.near {cfg : Cfg K V} {a : K → Option V} :
    ∀ {l : List (Stmt V)} {m : Map V} {g : Gh K V}, Once cfg a a m g l → Near cfg (· = a) m g l
  | [], _, _, h => h
  | _ :: _, _, _, .inl ⟨h, h'⟩ => ⟨h, Once.near h'⟩
  | _ :: _, _, _, .inr h => h

theorem Near.append_once {cfg : Cfg K V} {a b : K → Option V} :
    ∀ {l l' : List (Stmt V)} {m : Map V} {g : Gh K V}, Near cfg (· = a) m g l →
      Once cfg a b (execs m l) (gexecs cfg m g l) l' → Once cfg a b m g (l ++ l')
  | [], _, _, _, _, h' => h'
  | _ :: _, _, _, _, ⟨h, h1⟩, h' => .inl ⟨h, Near.append_once h1 h'⟩

theorem Once.append_near {cfg : Cfg K V} {a b : K → Option V} :
    ∀ {l l' : List (Stmt V)} {m : Map V} {g : Gh K V}, Once cfg a b m g l →
      Near cfg (· = b) (execs m l) (gexecs cfg m g l) l' → Once cfg a b m g (l ++ l')
  | [], _, _, _, _, h' => h'.once
  | _ :: _, _, _, _, .inl ⟨h, h1⟩, h' => .inl ⟨h, Once.append_near h1 h'⟩
  | _ :: _, _, _, _, .inr h, h' => .inr (h.append h')

/-- Effect of an operation: from `abs` to `abs'`, at one store. -/
structure OpOk (cfg : Cfg K V) (m : Map V) (abs : K → Option V) (l : List (Stmt V)) (abs' : K → Option V) : Prop where
  eff : Effs cfg m ⟨abs, none, false⟩ l
  gh : gexecs cfg m ⟨abs, none, false⟩ l = ⟨abs', none, false⟩
  one : Once cfg abs abs' m ⟨abs, none, false⟩ l
  wf : Wf cfg (execs m l) abs'

theorem OpOk.nil {cfg : Cfg K V} {m : Map V} {abs : K → Option V} (h : Wf cfg m abs) : OpOk cfg m abs [] abs :=
  ⟨trivial, rfl, rfl, h⟩

theorem OpOk.append {cfg : Cfg K V} {m : Map V} {a b c : K → Option V} {l l' : List (Stmt V)}
    (h : OpOk cfg m a l b) (h' : OpOk cfg (execs m l) b l' c)
    (hab : a = b ∨ b = c := by first | exact .inl rfl | exact .inr rfl) : OpOk cfg m a (l ++ l') c :=
  ⟨(Effs_append ..).2 ⟨h.eff, by rw [h.gh]; exact h'.eff⟩, by rw [gexecs_append, h.gh, h'.gh],
    (by
      rcases hab with rfl | rfl
      · exact h.one.near.append_once (by rw [h.gh]; exact h'.one)
      · exact h.one.append_near (by rw [h.gh]; exact h'.one.near)),
    by rw [execs_append]; exact h'.wf⟩

theorem OpOk.publish {cfg : Cfg K V} {m u : Map V} {abs : K → Option V} (h : Wf cfg u abs) :
    OpOk cfg m abs [.publish u false] abs :=
  ⟨⟨⟨rfl, h.g⟩, trivial⟩, rfl, (.inl ⟨rfl, rfl⟩), h⟩

theorem OpOk.clear {cfg : Cfg K V} {m u : Map V} {abs : K → Option V} (h : Wf cfg u (fun _ => none)) :
    OpOk cfg m abs [.publish u true] (fun _ => none) :=
  ⟨⟨⟨rfl, h.g⟩, trivial⟩, rfl, (.inl ⟨rfl, rfl⟩), h⟩

theorem boundSet_spec {cfg : Cfg K V} {m : Map V} {abs : K → Option V} (hw : Wf cfg m abs) (h n : Nat)
    (hn : n ≤ m.limit) : OpOk cfg m abs (boundSet cfg m h n) abs ∧ Raise cfg m (execs m (boundSet cfg m h n)) ∧
      ∀ k, k < n → InB cfg (execs m (boundSet cfg m h n)) h k := by
  -- the maximum
  obtain ⟨m1, l1, hl1, hm1, hok1, hr1, hmax1, hb1⟩ : ∃ m1 l1, (if n > m.maxi then [Stmt.setMax n] else []) = l1 ∧
      execs m l1 = m1 ∧ OpOk cfg m abs l1 abs ∧ Raise cfg m m1 ∧ n ≤ m1.maxi ∧ m1.bnd = m.bnd := by
    split
    · next hgt =>
      have hr : Raise cfg m (exec m (.setMax n)) :=
        ⟨rfl, rfl, rfl, rfl, rfl, rfl, fun a k hk => ⟨Nat.lt_trans hk.1 hgt, hk.2⟩⟩
      have he : Eff cfg m ⟨abs, none, false⟩ (.setMax n) := by
        intro q v hq
        obtain ⟨k, hk⟩ := hw.g.pos q v hq
        exact ⟨k, hr.pos hk⟩
      refine ⟨exec m (.setMax n), [.setMax n], rfl, rfl, ⟨⟨he, trivial⟩, rfl, (.inl ⟨rfl, rfl⟩), hw.g.exec he, ?_, hn, hw.cn⟩, hr,
        Nat.le_refl _, rfl⟩
      intro b off hb ho
      exact Nat.le_trans (hw.bm b off hb ho) (Nat.le_of_lt hgt)
    · next hgt => exact ⟨m, [], rfl, rfl, OpOk.nil hw, Raise.refl cfg m, by omega, rfl⟩
  have hw1 : Wf cfg m1 abs := hm1 ▸ hok1.wf
  unfold boundSet
  rw [hl1]
  cases hb : m.bnd with
  | none =>
    simp only [List.append_nil]
    rw [hm1]
    refine ⟨hok1, hr1, fun k hk => ⟨by omega, fun b hb' => ?_⟩⟩
    rw [hb1, hb] at hb'; cases hb'
  | some b =>
    simp only
    split
    · next hlt =>
      generalize hn' : (if n > cfg.wmax then cfg.wmax else n) = n'
      have hw' : n' ≤ cfg.wmax := by rw [← hn']; split <;> omega
      have hn1 : n' = cfg.wmax ∨ n' = n := by rw [← hn']; split <;> simp
      have hwb := hw.g.wb b (h &&& m.mask) hb
      have hge : b (h &&& m.mask) ≤ n' := by rcases hn1 with h1 | h1 <;> omega
      have hnn : n' ≤ n := by rw [← hn']; split <;> omega
      have hbe : ∀ b', (exec m1 (.setBnd (h &&& m.mask) n')).bnd = some b' → b' = upd b (h &&& m.mask) n' := by
        intro b' hb'
        simp only [exec, hb1, hb] at hb'
        cases hb'; rfl
      have hr2 : Raise cfg m1 (exec m1 (.setBnd (h &&& m.mask) n')) := by
        refine ⟨rfl, rfl, rfl, rfl, rfl, rfl, fun a k hk => ⟨hk.1, fun b' hb' => ?_⟩⟩
        rw [hbe b' hb', upd_apply]
        have := hk.2 b (by rw [hb1, hb])
        split
        · next he => change a &&& m1.mask = _ at he; rw [he] at this; omega
        · exact this
      have he : Eff cfg m1 ⟨abs, none, false⟩ (.setBnd (h &&& m.mask) n') := by
        refine ⟨hw', fun q v hq => ?_⟩
        obtain ⟨k, hk⟩ := hw1.g.pos q v hq
        exact ⟨k, hr2.pos hk⟩
      have hok2 : OpOk cfg m1 abs [.setBnd (h &&& m.mask) n'] abs := by
        refine ⟨⟨he, trivial⟩, rfl, (.inl ⟨rfl, rfl⟩), hw1.g.exec he, ?_, hw1.ml, hw1.cn⟩
        intro b' off hb' ho
        change (exec m1 (.setBnd (h &&& m.mask) n')).bnd = some b' at hb'
        rw [hbe b' hb', upd_apply]
        show _ ≤ m1.maxi
        split
        · omega
        · exact hw1.bm b off (by rw [hb1, hb]) ho
      refine ⟨hok1.append (hm1 ▸ hok2), ?_, ?_⟩
      · rw [execs_append, hm1]; exact hr1.trans hr2
      · rw [execs_append, hm1]
        intro k hk
        refine ⟨show k < m1.maxi by omega, fun b' hb' => ?_⟩
        change (exec m1 (.setBnd (h &&& m.mask) n')).bnd = some b' at hb'
        rw [hbe b' hb']
        show upd b _ n' (h &&& m1.mask) = _ ∨ _ < upd b _ n' (h &&& m1.mask)
        rw [hr1.mask, upd_same]
        omega
    · next hlt =>
      rw [List.append_nil, hm1]
      refine ⟨hok1, hr1, fun k hk => ⟨by omega, fun b' hb' => ?_⟩⟩
      rw [hb1, hb] at hb'; cases hb'
      rw [hr1.mask]; omega

/-! ## Storing, moving and deleting -/

/-- A new object in a free slot. -/
theorem insert_spec {cfg : Cfg K V} {m : Map V} {abs : K → Option V} {v : V} {k : Nat} (hw : Wf cfg m abs)
    (ha : abs (cfg.key v) = none) (hb : InB cfg m (cfg.hash (cfg.key v)) k) (hne : NE m (cfg.hash (cfg.key v)) k)
    (hf : isFull (m.ent (slotAt m (cfg.hash (cfg.key v)) k)) = false) :
    OpOk cfg m abs [.store (slotAt m (cfg.hash (cfg.key v)) k) v (cfg.tag (cfg.hash (cfg.key v))) none,
      .cnt (m.n + 1)] (upd abs (cfg.key v) (some v)) := by
  have he : Eff cfg m ⟨abs, none, false⟩
      (.store (slotAt m (cfg.hash (cfg.key v)) k) v (cfg.tag (cfg.hash (cfg.key v))) none) := by
    refine ⟨rfl, rfl, ⟨k, rfl, hb, hne⟩, ?_, ?_, ?_⟩
    · intro w tg h; rw [h] at hf; cases hf
    · rintro _ y ⟨w, tg, h1, h2⟩
      have := hw.g.here y w tg h1 (by simp)
      simp only at this
      rw [h2, ha] at this; cases this
    · intro y h; cases h
  have hg := hw.g.exec he
  refine ⟨⟨he, trivial, trivial⟩, rfl, (.inl ⟨rfl, .inr ⟨rfl, rfl⟩⟩), ⟨hg.geo, hg.tag, hg.ak, hg.pos, hg.here, hg.uniq, hg.dup, hg.wb⟩, hw.bm, hw.ml, ?_⟩
  have := card_upd m (slotAt m (cfg.hash (cfg.key v)) k) (.full v (cfg.tag (cfg.hash (cfg.key v)))) (hw.g.slot_lt _ _)
    (execs m [.store (slotAt m (cfg.hash (cfg.key v)) k) v (cfg.tag (cfg.hash (cfg.key v))) none, .cnt (m.n + 1)]) rfl rfl
  rw [hf] at this
  simp only [isFull] at this
  have hn := hw.cn
  show m.n + 1 = _
  simp at this
  omega

/-- Replacing an object in its slot. -/
theorem replace_spec {cfg : Cfg K V} {m : Map V} {abs : K → Option V} {v w : V} {k tg : Nat} (hw : Wf cfg m abs)
    (hk : cfg.key w = cfg.key v) (hb : InB cfg m (cfg.hash (cfg.key v)) k) (hne : NE m (cfg.hash (cfg.key v)) k)
    (hf : m.ent (slotAt m (cfg.hash (cfg.key v)) k) = .full w tg) :
    OpOk cfg m abs [.store (slotAt m (cfg.hash (cfg.key v)) k) v (cfg.tag (cfg.hash (cfg.key v))) none]
      (upd abs (cfg.key v) (some v)) := by
  have he : Eff cfg m ⟨abs, none, false⟩
      (.store (slotAt m (cfg.hash (cfg.key v)) k) v (cfg.tag (cfg.hash (cfg.key v))) none) := by
    refine ⟨rfl, rfl, ⟨k, rfl, hb, hne⟩, ?_, ?_, ?_⟩
    · intro w' tg' h; rw [hf] at h; cases h; exact ⟨hk, rfl⟩
    · rintro _ y ⟨w', tg', h1, h2⟩
      exact hw.g.uniq y _ w' w tg' tg h1 hf (h2.trans hk.symm) (by simp) (by simp)
    · intro y h; cases h
  refine ⟨⟨he, trivial⟩, rfl, (.inl ⟨rfl, rfl⟩), hw.g.exec he, hw.bm, hw.ml, ?_⟩
  have := card_upd m (slotAt m (cfg.hash (cfg.key v)) k) (.full v (cfg.tag (cfg.hash (cfg.key v)))) (hw.g.slot_lt _ _)
    (execs m [.store (slotAt m (cfg.hash (cfg.key v)) k) v (cfg.tag (cfg.hash (cfg.key v))) none]) rfl rfl
  rw [hf] at this
  simp only [isFull] at this
  have hn := hw.cn
  show m.n = _
  omega

/-- Moving an object to an earlier tombstone. -/
theorem move_spec {cfg : Cfg K V} {m : Map V} {abs : K → Option V} {v w : V} {j e tg : Nat} (hw : Wf cfg m abs)
    (hk : cfg.key w = cfg.key v) (hb : InB cfg m (cfg.hash (cfg.key v)) j) (hne : NE m (cfg.hash (cfg.key v)) j)
    (hje : j < e) (hf : m.ent (slotAt m (cfg.hash (cfg.key v)) e) = .full w tg)
    (hnk : ∀ i, i < e → ¬ IsKey cfg m (cfg.key v) (slotAt m (cfg.hash (cfg.key v)) i))
    (ht : m.ent (slotAt m (cfg.hash (cfg.key v)) j) = .tomb) :
    OpOk cfg m abs [.store (slotAt m (cfg.hash (cfg.key v)) j) v (cfg.tag (cfg.hash (cfg.key v)))
        (some (slotAt m (cfg.hash (cfg.key v)) e)), .sig (cfg.hash (cfg.key v) % 2 = 1),
      .del (slotAt m (cfg.hash (cfg.key v)) e)] (upd abs (cfg.key v) (some v)) := by
  generalize hh : cfg.hash (cfg.key v) = h at *
  generalize hx : slotAt m h j = x at *
  generalize hy : slotAt m h e = y at *
  have hyx : y ≠ x := fun h => by rw [h, ht] at hf; cases hf
  have he : Eff cfg m ⟨abs, none, false⟩ (.store x v (cfg.tag h) (some y)) := by
    refine ⟨rfl, by rw [hh], ⟨j, by rw [hh, hx], hh ▸ hb, hh ▸ hne⟩, ?_, ?_, ?_⟩
    · intro w' tg' h; rw [ht] at h; cases h
    · intro h; cases h
    · intro y' hy'
      cases hy'
      refine ⟨⟨w, tg, hf, hk⟩, fun k hk' => ⟨j, ?_, by rw [hh, hx]⟩⟩
      by_contra hc
      rw [hh] at hk'
      exact hnk k (by omega) ⟨w, tg, by rw [hk', hf], hk⟩
  have hg := hw.g.exec he
  have hye : (exec m (.store x v (cfg.tag h) (some y))).ent y = .full w tg := by
    show upd m.ent x _ y = _
    rw [upd_ne _ _ hyx, hf]
  have he2 : Eff cfg (exec m (.store x v (cfg.tag h) (some y)))
      (gexec cfg m ⟨abs, none, false⟩ (.store x v (cfg.tag h) (some y))) (.sig (h % 2 = 1)) := by
    intro y' w' tg' h1 h2
    cases h1
    rw [hye] at h2; cases h2
    rw [hk, hh]
  have hg2 := hg.exec he2
  have he3 : Eff cfg (exec (exec m (.store x v (cfg.tag h) (some y))) (.sig (h % 2 = 1)))
      (gexec cfg (exec m (.store x v (cfg.tag h) (some y)))
        (gexec cfg m ⟨abs, none, false⟩ (.store x v (cfg.tag h) (some y))) (.sig (h % 2 = 1))) (.del y) :=
    ⟨⟨w, tg, hye⟩, .inr ⟨rfl, rfl⟩⟩
  have hg3 := hg2.exec he3
  have hgh : gexecs cfg m ⟨abs, none, false⟩ [.store x v (cfg.tag h) (some y), .sig (h % 2 = 1), .del y] =
      ⟨upd abs (cfg.key v) (some v), none, false⟩ := by
    simp only [gexecs, gexec, if_true]
  refine ⟨⟨he, he2, he3, trivial⟩, hgh, (.inl ⟨rfl, .inr ⟨rfl, rfl, (by show (gexec cfg _ _ (.del y)).abs = _; simp only [gexec, if_true])⟩⟩), ?_, hw.bm, hw.ml, ?_⟩
  · rw [← hgh]; exact hg3
  · have hx' : x < m.cap := hx ▸ hw.g.slot_lt _ _
    have hy' : y < m.cap := hy ▸ hw.g.slot_lt _ _
    have h1 := card_upd m x (.full v (cfg.tag h)) hx' (exec m (.store x v (cfg.tag h) (some y))) rfl rfl
    have h2 := card_upd (exec m (.store x v (cfg.tag h) (some y))) y .tomb hy'
      (execs m [.store x v (cfg.tag h) (some y), .sig (h % 2 = 1), .del y]) rfl rfl
    rw [hye] at h2
    rw [ht] at h1
    simp [isFull] at h1 h2
    have hn := hw.cn
    show m.n = _
    omega

/-- Deleting. -/
theorem del_spec {cfg : Cfg K V} {m : Map V} {abs : K → Option V} {w : V} {x tg : Nat} (hw : Wf cfg m abs)
    (hf : m.ent x = .full w tg) :
    OpOk cfg m abs [.del x, .cnt (m.n - 1)] (upd abs (cfg.key w) none) := by
  have he : Eff cfg m ⟨abs, none, false⟩ (.del x) := ⟨⟨w, tg, hf⟩, .inl rfl⟩
  have hg := hw.g.exec he
  have hgh : gexec cfg m ⟨abs, none, false⟩ (.del x) = ⟨upd abs (cfg.key w) none, none, false⟩ := by
    simp only [gexec, hf]; simp
  rw [hgh] at hg
  refine ⟨⟨he, trivial, trivial⟩, hgh, (.inl ⟨rfl, .inr ⟨(by rw [hgh]), (by rw [hgh]; rfl)⟩⟩), ⟨hg.geo, hg.tag, hg.ak, hg.pos, hg.here, hg.uniq, hg.dup, hg.wb⟩, hw.bm, hw.ml, ?_⟩
  have := card_upd m x .tomb (hw.g.tag _ _ _ hf).2 (execs m [.del x, .cnt (m.n - 1)]) rfl rfl
  rw [hf] at this
  simp [isFull] at this
  have hn := hw.cn
  show m.n - 1 = _
  omega

end Verif.Hs
