import Verif.Ht.HtStep

/-!
# Hash table: the operations of the writer, store by store (C68)
-/

set_option linter.unusedSectionVars false

namespace Verif.Ht

open Verif

variable {K V : Type} [DecidableEq K] [DecidableEq V]

/-! ## The contents change at most once -/

/-- The contents satisfy `P` from now to the end. -/
def Near (cfg : Cfg K V) (P : (K → Option V) → Prop) : Map K V → Gh K V → List (Stmt K V) → Prop
  | _, g, [] => P g.abs
  | m, g, st :: l => P g.abs ∧ Near cfg P (exec m st) (gexec cfg m g st) l

/-- The contents are `a`, and `b` from some store on. -/
def Once (cfg : Cfg K V) (a b : K → Option V) : Map K V → Gh K V → List (Stmt K V) → Prop
  | _, g, [] => g.abs = b
  | m, g, st :: l => (g.abs = a ∧ Once cfg a b (exec m st) (gexec cfg m g st) l) ∨ Near cfg (· = b) m g (st :: l)

theorem Near.once {cfg : Cfg K V} {a b : K → Option V} :
    ∀ {l : List (Stmt K V)} {m : Map K V} {g : Gh K V}, Near cfg (· = b) m g l → Once cfg a b m g l
  | [], _, _, h => h
  | _ :: _, _, _, h => .inr h

theorem Once.near {cfg : Cfg K V} {a : K → Option V} :
    ∀ {l : List (Stmt K V)} {m : Map K V} {g : Gh K V}, Once cfg a a m g l → Near cfg (· = a) m g l
  | [], _, _, h => h
  | _ :: _, _, _, .inl h => ⟨h.1, h.2.near⟩
  | _ :: _, _, _, .inr h => h

theorem Near.append {cfg : Cfg K V} {P : (K → Option V) → Prop} :
    ∀ {l l' : List (Stmt K V)} {m : Map K V} {g : Gh K V}, Near cfg P m g l →
      Near cfg P (execs m l) (gexecs cfg m g l) l' → Near cfg P m g (l ++ l')
  | [], _, _, _, _, h' => h'
  | _ :: _, _, _, _, ⟨h, h1⟩, h' => ⟨h, Near.append h1 h'⟩

theorem Near.append_once {cfg : Cfg K V} {a b : K → Option V} :
    ∀ {l l' : List (Stmt K V)} {m : Map K V} {g : Gh K V}, Near cfg (· = a) m g l →
      Once cfg a b (execs m l) (gexecs cfg m g l) l' → Once cfg a b m g (l ++ l')
  | [], _, _, _, _, h' => h'
  | _ :: _, _, _, _, ⟨h, h1⟩, h' => .inl ⟨h, Near.append_once h1 h'⟩

theorem Once.append {cfg : Cfg K V} {a b : K → Option V} :
    ∀ {l l' : List (Stmt K V)} {m : Map K V} {g : Gh K V}, Once cfg a b m g l →
      Near cfg (· = b) (execs m l) (gexecs cfg m g l) l' → Once cfg a b m g (l ++ l')
  | [], _, _, _, _, h' => h'.once
  | _ :: _, _, _, _, .inl h, h' => .inl ⟨h.1, h.2.append h'⟩
  | _ :: _, _, _, _, .inr h, h' => .inr (Near.append h h')

theorem Effs.append {cfg : Cfg K V} :
    ∀ {l l' : List (Stmt K V)} {m : Map K V} {g : Gh K V}, Effs cfg m g l →
      Effs cfg (execs m l) (gexecs cfg m g l) l' → Effs cfg m g (l ++ l')
  | [], _, _, _, _, h' => h'
  | _ :: _, _, _, _, ⟨h, h1⟩, h' => ⟨h, Effs.append h1 h'⟩

theorem gexecs_append {cfg : Cfg K V} :
    ∀ {l l' : List (Stmt K V)} {m : Map K V} {g : Gh K V},
      gexecs cfg m g (l ++ l') = gexecs cfg (execs m l) (gexecs cfg m g l) l'
  | [], _, _, _ => rfl
  | _ :: l, l', _, _ => gexecs_append (l := l) (l' := l')

theorem G.runs {cfg : Cfg K V} : ∀ {l : List (Stmt K V)} {m : Map K V} {g : Gh K V}, G cfg m g → Effs cfg m g l →
    G cfg (execs m l) (gexecs cfg m g l)
  | [], _, _, h, _ => h
  | s :: l, m, g, h, he => G.runs (l := l) (m := Ht.exec m s) (g := gexec cfg m g s) (h.exec he.1) he.2

/-- The stores `l` change the contents from `a` to `b` at one instant. -/
structure Run (cfg : Cfg K V) (a b : K → Option V) (m : Map K V) (g : Gh K V) (l : List (Stmt K V)) (g' : Gh K V) :
    Prop where
  eff : Effs cfg m g l
  gh : gexecs cfg m g l = g'
  one : Once cfg a b m g l

theorem Run.nil {cfg : Cfg K V} {a : K → Option V} {m : Map K V} {g : Gh K V} (h : g.abs = a) : Run cfg a a m g [] g :=
  ⟨trivial, rfl, h⟩

theorem Run.single {cfg : Cfg K V} {m : Map K V} {g : Gh K V} {s : Stmt K V} {g' : Gh K V} (he : Eff cfg m g s)
    (hg : gexec cfg m g s = g') : Run cfg g.abs g'.abs m g [s] g' :=
  ⟨⟨he, trivial⟩, hg, .inl ⟨rfl, congrArg Gh.abs hg⟩⟩

theorem Run.pre {cfg : Cfg K V} {a b : K → Option V} {m : Map K V} {g g' g'' : Gh K V} {l l' : List (Stmt K V)}
    (h : Run cfg a a m g l g') (h' : Run cfg a b (execs m l) g' l' g'') : Run cfg a b m g (l ++ l') g'' := by
  have := h.gh
  subst this
  exact ⟨h.eff.append h'.eff, gexecs_append.trans h'.gh, h.one.near.append_once h'.one⟩

theorem Run.post {cfg : Cfg K V} {a b : K → Option V} {m : Map K V} {g g' g'' : Gh K V} {l l' : List (Stmt K V)}
    (h : Run cfg a b m g l g') (h' : Run cfg b b (execs m l) g' l' g'') : Run cfg a b m g (l ++ l') g'' := by
  have := h.gh
  subst this
  exact ⟨h.eff.append h'.eff, gexecs_append.trans h'.gh, h.one.append h'.one.near⟩

theorem Run.g {cfg : Cfg K V} {a b : K → Option V} {m : Map K V} {g g' : Gh K V} {l : List (Stmt K V)}
    (h : Run cfg a b m g l g') (hg : G cfg m g) : G cfg (execs m l) g' := h.gh ▸ hg.runs h.eff

/-! ## Bounds -/

theorem eff_setMax {cfg : Cfg K V} {m : Map K V} {g : Gh K V} {n : Nat} (hg : G cfg m g) (h : n > m.maxi) :
    Eff cfg m g (.setMax n) := by
  refine ⟨?_, fun _ => by omega⟩
  intro q v hq
  obtain ⟨k, h1, h2, h3⟩ := hg.pos q v hq
  exact ⟨k, ⟨h1.1, Nat.le_trans h1.2.1 (Nat.le_of_lt h), h1.2.2⟩, h2, h3⟩

theorem eff_setBnd {cfg : Cfg K V} {m : Map K V} {g : Gh K V} {n o : Nat} {b : Nat → Nat} (hg : G cfg m g)
    (hb : m.bnd = some b) (h : b o < n) (hn : n ≤ m.maxi) : Eff cfg m g (.setBnd o (sat cfg n)) := by
  refine ⟨?_, fun hc => ?_⟩
  · intro q v hq
    obtain ⟨k, h1, h2, h3⟩ := hg.pos q v hq
    refine ⟨k, ⟨h1.1, h1.2.1, ?_⟩, h2, h3⟩
    intro b' hb'
    simp only [exec, hb, Option.map_some, Option.some.injEq] at hb'
    subst hb'
    have h4 := h1.2.2 b hb
    show upd b o (sat cfg n) (cfg.hash q &&& m.mask) = _ ∨ _ ≤ upd b o (sat cfg n) (cfg.hash q &&& m.mask)
    rw [upd_apply]
    split
    · next he =>
      rw [he] at h4
      unfold sat
      split
      · exact .inl rfl
      · right; rcases h4 with h4 | h4 <;> omega
    · exact h4
  · have h1 := sat_le cfg n
    refine ⟨by omega, h1.1, ?_⟩
    intro b' hb'
    rw [hb] at hb'
    cases hb'
    have := hg.cm hc b hb o
    rcases h1.2.2 with h2 | h2 <;> omega

theorem gexec_bound {cfg : Cfg K V} {m : Map K V} {g : Gh K V} (hh : g.hid = none) (n o : Nat) :
    gexec cfg m g (.setMax n) = g ∧ gexec cfg m g (.setBnd o n) = g := ⟨reveal_none hh, reveal_none hh⟩

/-- The two stores of `ck_ht_map_bound_set`. -/
theorem boundSet_cases (cfg : Cfg K V) (m : Map K V) (h n : Nat) {P : List (Stmt K V) → Prop}
    (h1 : P []) (h2 : n > m.maxi → P [.setMax n])
    (h3 : ∀ b, m.bnd = some b → b (h &&& m.mask) < n → n ≤ m.maxi → P [.setBnd (h &&& m.mask) (sat cfg n)])
    (h4 : ∀ b, m.bnd = some b → b (h &&& m.mask) < n → n > m.maxi →
      P ([.setMax n] ++ [.setBnd (h &&& m.mask) (sat cfg n)])) :
    P (boundSet cfg m h n) := by
  unfold boundSet
  by_cases hm : n > m.maxi
  · rw [if_pos hm]
    cases hb : m.bnd with
    | none => simp only [List.append_nil]; exact h2 hm
    | some b =>
      simp only
      by_cases hlt : b (h &&& m.mask) < n
      · rw [if_pos hlt]; exact h4 b hb hlt hm
      · rw [if_neg hlt]; simp only [List.append_nil]; exact h2 hm
  · rw [if_neg hm]
    cases hb : m.bnd with
    | none => exact h1
    | some b =>
      simp only
      by_cases hlt : b (h &&& m.mask) < n
      · rw [if_pos hlt]; exact h3 b hb hlt (by omega)
      · rw [if_neg hlt]; exact h1

theorem boundSet_run {cfg : Cfg K V} {m : Map K V} {g : Gh K V} (hg : G cfg m g) (hh : g.hid = none) (h n : Nat) :
    Run cfg g.abs g.abs m g (boundSet cfg m h n) g := by
  refine boundSet_cases cfg m h n (P := fun l => Run cfg g.abs g.abs m g l g) (.nil rfl) ?_ ?_ ?_
  · intro h1; exact .single (eff_setMax hg h1) (gexec_bound hh _ 0).1
  · intro b h1 h2 h3; exact .single (eff_setBnd hg h1 h2 h3) (gexec_bound hh _ _).2
  · intro b h1 h2 h3
    have e1 := eff_setMax hg h3
    have hg' := hg.exec e1
    rw [(gexec_bound hh n 0).1] at hg'
    exact Run.pre (.single e1 (gexec_bound hh _ 0).1)
      (.single (eff_setBnd (m := exec m (.setMax n)) hg' h1 h2 (Nat.le_refl _)) (gexec_bound hh _ _).2)

/-- The hidden key is revealed when the bounds are raised. -/
theorem boundSet_hid {cfg : Cfg K V} {m : Map K V} {g : Gh K V} {x : Nat} {q : K} (hg : G cfg m g) (hh : g.hid = some x)
    (hk : (m.ent x).key = .key q) (h n : Nat) (hs : SeenAt cfg (execs m (boundSet cfg m h n)) q x) :
    Run cfg g.abs (upd g.abs q (some (m.ent x).val)) m g (boundSet cfg m h n)
      { g with abs := upd g.abs q (some (m.ent x).val), hid := none } := by
  have hns : ¬ SeenAt cfg m q x := by
    obtain ⟨-, -, p, h1, -, h2, -⟩ := hg.hid x hh
    rw [hk] at h1; cases h1; exact h2
  revert hs
  refine boundSet_cases cfg m h n (P := fun l => SeenAt cfg (execs m l) q x → Run cfg g.abs _ m g l
    { g with abs := upd g.abs q (some (m.ent x).val), hid := none }) ?_ ?_ ?_ ?_
  · intro h; exact absurd h hns
  · intro h1 hs
    exact .single (eff_setMax hg h1) (reveal_seen (m := exec m (.setMax n)) hh hk hs)
  · intro b h1 h2 h3 hs
    exact .single (eff_setBnd hg h1 h2 h3) (reveal_seen (m := exec m (.setBnd _ _)) hh hk hs)
  · intro b h1 h2 h3 hs
    have e1 := eff_setMax hg h3
    have hg' := hg.exec e1
    by_cases hs1 : SeenAt cfg (exec m (.setMax n)) q x
    · have e2 : gexec cfg m g (.setMax n) = { g with abs := upd g.abs q (some (m.ent x).val), hid := none } :=
        reveal_seen (m := exec m (.setMax n)) hh hk hs1
      rw [e2] at hg'
      exact Run.post (.single e1 e2)
        (.single (eff_setBnd (m := exec m (.setMax n)) hg' h1 h2 (Nat.le_refl _)) (gexec_bound rfl _ _).2)
    · have e2 : gexec cfg m g (.setMax n) = g := reveal_not (m := exec m (.setMax n)) hh hk hs1
      rw [e2] at hg'
      exact Run.pre (.single e1 e2)
        (.single (eff_setBnd (m := exec m (.setMax n)) hg' h1 h2 (Nat.le_refl _))
          (reveal_seen (m := exec (exec m (.setMax n)) (.setBnd (h &&& m.mask) (sat cfg n))) hh hk hs))

/-! ## `ck_ht_grow_spmc` -/

theorem create_calm (cfg : Cfg K V) (c : Nat) : Calm cfg (create cfg c) := by
  intro b hb o
  simp only [create] at hb
  split at hb <;> simp at hb
  subst hb
  exact ⟨Nat.zero_le _, Nat.zero_le _⟩

theorem boundSet_calm {cfg : Cfg K V} {m : Map K V} (hc : Calm cfg m) (h n : Nat) :
    Calm cfg (execs m (boundSet cfg m h n)) := by
  have hs := sat_le cfg n
  have key : ∀ b : Nat → Nat, ∀ M, m.bnd = some b → m.maxi ≤ M → n ≤ M → ∀ o,
      upd b (h &&& m.mask) (sat cfg n) o ≤ M ∧ upd b (h &&& m.mask) (sat cfg n) o ≤ cfg.wmax := by
    intro b M hb h1 h2 o
    have := hc b hb o
    rw [upd_apply]
    split <;> omega
  refine boundSet_cases cfg m h n (P := fun l => Calm cfg (execs m l)) hc ?_ ?_ ?_
  · intro h1 b hb o
    have := hc b hb o
    exact ⟨by show b o ≤ n; omega, this.2⟩
  · intro b h1 h2 h3 b' hb' o
    simp only [execs, List.foldl, exec, h1, Option.map_some, Option.some.injEq] at hb'
    subst hb'
    exact key b m.maxi h1 (Nat.le_refl _) h3 o
  · intro b h1 h2 h3 b' hb' o
    simp only [execs, List.foldl, List.cons_append, List.nil_append, exec, h1, Option.map_some, Option.some.injEq] at hb'
    subst hb'
    exact key b n h1 (by omega) (Nat.le_refl _) o

theorem reinsert_calm {cfg : Cfg K V} {u u' : Map K V} {e : Ent K V} (hc : Calm cfg u) (h : reinsert cfg u e = some u') :
    Calm cfg u' := by
  unfold reinsert at h
  split at h
  · simp only at h
    split at h
    · cases h
    · cases h
      refine boundSet_calm ?_ _ _
      exact hc
  · cases h; exact hc

theorem rehash_calm {cfg : Cfg K V} {m : Map K V} : ∀ (ks : List Nat) (u u' : Map K V), Calm cfg u →
    rehash cfg m ks u = some u' → Calm cfg u' := by
  intro ks
  induction ks with
  | nil => intro u u' hc h; cases h; exact hc
  | cons k ks ih =>
    intro u u' hc h
    simp only [rehash, Option.bind_eq_some_iff] at h
    obtain ⟨u1, h1, h2⟩ := h
    exact ih u1 u' (reinsert_calm hc h1) h2

theorem grow_calm {cfg : Cfg K V} {m u : Map K V} : ∀ (al : List Bool) (c : Nat) (al' : List Bool),
    grow cfg m c al = some (some u, al') → Calm cfg u := by
  intro al
  induction al with
  | nil =>
    intro c al' h
    unfold grow at h
    split at h <;> cases h
  | cons a al ih =>
    intro c al' h
    unfold grow at h
    split at h
    · cases h
    · split at h
      · cases h
      · split at h
        · next u' hu => cases h; exact rehash_calm _ _ _ (create_calm cfg c) hu
        · exact ih _ _ h

/-- A map with the same contents replaces the current one. -/
theorem publish_run {cfg : Cfg K V} {m u : Map K V} {abs : K → Option V} {sg calm : Bool} (hw : Wf cfg u abs)
    (hc : Calm cfg u) : Run cfg abs abs m (g0 abs sg calm) [.publish u false] (g0 abs sg calm) :=
  Run.single (m := m) (s := .publish u false) (g := g0 abs sg calm) (g' := g0 abs sg calm) ⟨rfl, rfl, hw.g fun _ => hc⟩ rfl

theorem clear_run {cfg : Cfg K V} {m : Map K V} {c : Nat} {abs : K → Option V} {sg calm : Bool} :
    Run cfg abs (fun _ => none) m (g0 abs sg calm) [.publish (create cfg c) true] (g0 (fun _ => none) sg calm) :=
  Run.single (m := m) (s := .publish (create cfg c) true) (g := g0 abs sg calm) (g' := g0 (fun _ => none) sg calm)
    ⟨rfl, rfl, (create_wf cfg c).g fun _ => create_calm cfg c⟩ rfl

theorem postinsert_run {cfg : Cfg K V} {m : Map K V} {a : Abs K V} {al : List Bool} {l : List (Stmt K V)} {sg calm : Bool}
    (hp : postinsert cfg m al = some l) (hw : Rep cfg m a) : Run cfg a.map a.map m (g0 a.map sg calm) l (g0 a.map sg calm) := by
  unfold postinsert at hp
  split at hp
  · split at hp
    · cases hp
    · cases hp; exact .nil rfl
    · next u _ hg =>
      cases hp
      exact publish_run (grow_spec hw.1 _ _ _ hg).1 (grow_calm _ _ _ hg)
  · cases hp; exact .nil rfl

/-- What is shown of an operation. -/
def OkRun (cfg : Cfg K V) (calm : Bool) (m : Map K V) (a b : K → Option V) (l : List (Stmt K V)) : Prop :=
  ∀ sg, ∃ sg', Run cfg a b m (g0 a sg calm) l (g0 b sg' calm)

theorem withRoom_run {cfg : Cfg K V} {q : K} {calm : Bool}
    {f : Map K V → PW → List Bool → Option (List (Stmt K V) × Res V)} {a : Abs K V} {P : Res V → Abs K V → Prop}
    (hd : a.map q = none → P .denied a)
    (hf : ∀ m r al l res, Rep cfg m a → (calm = true → Calm cfg m) → r = probeWr cfg m q none →
      (r.cur ≠ none ∨ r.pr ≠ none) → f m r al = some (l, res) → ∃ b : Abs K V, P res b ∧ OkRun cfg calm m a.map b.map l) :
    ∀ (fuel : Nat) (m : Map K V) (al : List Bool) (l : List (Stmt K V)) (res : Res V), Rep cfg m a →
      (calm = true → Calm cfg m) → withRoom cfg q f fuel m al = some (l, res) →
      ∃ b : Abs K V, P res b ∧ OkRun cfg calm m a.map b.map l := by
  intro fuel
  induction fuel with
  | zero => intro m al l res _ _ h; cases h
  | succ fuel ih =>
    intro m al l res hw hc h
    simp only [withRoom] at h
    split at h
    · next hn =>
      split at h
      · cases h
      · cases h
        refine ⟨a, hd ?_, fun sg => ⟨sg, .nil rfl⟩⟩
        obtain ⟨L, -, hp⟩ := hw.1.probeWr q none (.inl rfl)
        have h1 := hp.cur
        rw [hn.1] at h1
        revert h1
        generalize a.map q = o
        intro h1
        cases h1; rfl
      · next u al' hg =>
        simp only [Option.map_eq_some_iff] at h
        obtain ⟨⟨l', res'⟩, h1, h2⟩ := h
        cases h2
        obtain ⟨h3, h4, -⟩ := grow_spec hw.1 _ _ _ hg
        have hcu := grow_calm _ _ _ hg
        obtain ⟨b, hb, hr⟩ := ih u al' l' _ ⟨h3, fun _ => h4⟩ (fun _ => hcu) h1
        refine ⟨b, hb, fun sg => ?_⟩
        obtain ⟨sg', hr⟩ := hr sg
        exact ⟨sg', Run.pre (l := [.publish u false]) (publish_run h3 hcu) hr⟩
    · next hn =>
      refine hf m _ al l res hw hc rfl ?_ h
      rw [Decidable.not_and_iff_or_not] at hn
      exact hn

/-! ## `ck_ht_put_spmc` -/

/-- Ghost state while slot `x` is filled. -/
def gre (abs : K → Option V) (sg calm : Bool) (re : Option Nat) : Gh K V := ⟨abs, none, sg, re, none, calm⟩

theorem gre_g {cfg : Cfg K V} {m : Map K V} {abs : K → Option V} {sg calm : Bool} {re : Option Nat} (hw : Wf cfg m abs)
    (hc : calm = true → Calm cfg m) (hr : ∀ x, re = some x → (m.ent x).key = .tomb) :
    G cfg m (gre abs sg calm re) := by
  have := hw.g (sg := sg) hc
  exact ⟨this.pos, this.here, this.uniq, this.hid, hr, this.cm⟩

theorem dels_run {cfg : Cfg K V} {m : Map K V} {abs : K → Option V} {sg calm : Bool} {x : Nat}
    (hx : (m.ent x).key = .tomb) : Run cfg abs abs m (g0 abs sg calm) [.dels (some x)] (gre abs true calm (some x)) :=
  Run.single (g := g0 abs sg calm) (g' := gre abs true calm (some x)) (fun y hy => by cases hy; exact hx) rfl

theorem val_run {cfg : Cfg K V} {m : Map K V} {abs : K → Option V} {sg calm : Bool} {x : Nat} {v : V} {re : Option Nat}
    (hf : Free m (gre abs sg calm re) x) :
    Run cfg abs abs m (gre abs sg calm re) [.val x v] (gre abs sg calm re) := by
  refine Run.single (g := gre abs sg calm re) (g' := gre abs sg calm re) ⟨rfl, rfl, .inl hf⟩ ?_
  rcases hf with h | h
  · simp only [gexec, h]
  · simp only [gexec, h.1]

theorem Free.nk {m : Map K V} {g : Gh K V} {x : Nat} (hf : Free m g x) (p : K) : (m.ent x).key ≠ .key p := by
  rcases hf with h | h <;> intro hc
  · rw [h] at hc; cases hc
  · rw [h.1] at hc; cases hc

theorem execs_val (m : Map K V) (x : Nat) (v : V) :
    execs m [.val x v] = { m with ent := upd m.ent x ⟨(m.ent x).key, v⟩ } := rfl

/-- The value and then the key are stored into a slot within the bounds. -/
theorem ins_run {cfg : Cfg K V} {m : Map K V} {abs : K → Option V} {sg calm : Bool} {x k : Nat} {q : K} {v : V}
    {re : Option Nat} (hf : Free m (gre abs sg calm re) x) (ha : abs q = none)
    (hk : slotAt cfg m (cfg.hash q) k = x) (hv : Vis cfg m (cfg.hash q) k) (hn : NE cfg m (cfg.hash q) k) (c : Nat) :
    Run cfg abs (upd abs q (some v)) m (gre abs sg calm re) [.val x v, .key x q none, .cnt c]
      (g0 (upd abs q (some v)) sg calm) := by
  refine Run.pre (l := [.val x v]) (val_run hf) ?_
  have hek : ∀ y, ((execs m [.val x v]).ent y).key = (m.ent y).key := by
    intro y
    show (upd m.ent x _ y).key = _
    rw [upd_apply]; split
    · next h => rw [h]
    · rfl
  have hf' : Free (execs m [.val x v]) (gre abs sg calm re) x := by
    unfold Free; rw [hek]; exact hf
  refine Run.post (l := [.key x q none]) (g' := g0 (upd abs q (some v)) sg calm)
    (Run.single (g := gre abs sg calm re) (g' := g0 (upd abs q (some v)) sg calm) (.inr ⟨rfl, rfl, hf', .inl ⟨rfl, ha, k, hv.1, hk, ?_, .inl hv⟩⟩) ?_) ?_
  · intro j hj
    have := hn j hj
    show ((execs m [.val x v]).ent (slotAt cfg m _ j)).key ≠ _
    rw [hek]; exact this
  · simp only [gexec, if_neg (hf'.nk q)]
    refine (reveal_seen (m := exec (execs m [.val x v]) (.key x q none)) (g := { gre abs sg calm re with re := none, hid := some x }) (x := x) (q := q) rfl ?_ ⟨k, hv, hk⟩).trans ?_
    · show (upd (execs m [.val x v]).ent x _ x).key = _
      rw [upd_same]
    · have : ((exec (execs m [.val x v]) (.key x q none)).ent x).val = v := by
        show (upd (upd m.ent x ⟨(m.ent x).key, v⟩) x ⟨.key q, _⟩ x).val = v
        rw [upd_same]
        show (upd m.ent x ⟨(m.ent x).key, v⟩ x).val = v
        rw [upd_same]
      rw [this]; rfl
  · exact Run.single (g := g0 (upd abs q (some v)) sg calm) (g' := g0 (upd abs q (some v)) sg calm) trivial rfl

theorem putStores_run {cfg : Cfg K V} {m : Map K V} {a : Abs K V} {q : K} {v : V} {r : PW} {k : Nat} {calm : Bool}
    (hw : Rep cfg m a) (hc : calm = true → Calm cfg m) (ha : a.map q = none) (hk : probesOf r = k + 1) (hl : k < m.len cfg)
    (hne : NE cfg m (cfg.hash q) k)
    (he : (r.pr.isSome = true ∧ (m.ent (at_ cfg m q k)).key = .tomb) ∨
      (r.pr.isSome = false ∧ (m.ent (at_ cfg m q k)).key = .empty)) :
    OkRun cfg calm m a.map (upd a.map q (some v)) (putStores cfg q v m r (at_ cfg m q k)) := by
  intro sg
  unfold putStores
  rw [hk, List.append_assoc]
  obtain ⟨x, hx⟩ : ∃ x, x = at_ cfg m q k := ⟨_, rfl⟩
  rw [← hx] at he ⊢
  obtain ⟨re, sg', d, h1, h2, h3, h4⟩ : ∃ re sg' d,
      Run cfg a.map a.map m (g0 a.map sg calm) (if r.pr.isSome then [.dels (some x)] else []) (gre a.map sg' calm re) ∧
      execs m (if r.pr.isSome then [.dels (some x)] else []) = { m with dels := d } ∧
      (∀ y, re = some y → (m.ent y).key = .tomb) ∧ Free m (gre a.map sg' calm re) x := by
    rcases he with ⟨h1, h2⟩ | ⟨h1, h2⟩
    · rw [if_pos h1]
      exact ⟨some x, true, _, dels_run h2, rfl, fun y hy => by cases hy; exact h2, .inr ⟨h2, rfl⟩⟩
    · rw [if_neg (by simp [h1])]
      exact ⟨none, sg, m.dels, .nil rfl, rfl, fun y hy => (by cases hy), .inl h2⟩
  refine ⟨sg', Run.pre h1 ?_⟩
  rw [h2, show boundSet cfg m (cfg.hash q) (k + 1) = boundSet cfg { m with dels := d } (cfg.hash q) (k + 1) from rfl]
  obtain ⟨b1, b2, -, -, b4⟩ := boundSet_spec cfg { m with dels := d } (cfg.hash q) (k + 1)
  have hg : G cfg { m with dels := d } (gre a.map sg' calm re) := by
    have := gre_g (re := re) (sg := sg') hw.1 hc h3
    exact ⟨this.pos, this.here, this.uniq, this.hid, this.re, this.cm⟩
  refine Run.pre (boundSet_run hg rfl _ _) ?_
  have hsl := Same.slot (cfg := cfg) b1.mask b1.step
  refine ins_run (k := k) ?_ ha ?_ (b4 k (Nat.le_refl _) hl).vis ?_ _
  · unfold Free at h4 ⊢; rw [b2]; exact h4
  · rw [hsl, hx]; rfl
  · intro j hj; rw [hsl, b2]; exact hne j hj

/-- What the user must observe for readers: `ck_ht_put_spmc` and `ck_ht_set_spmc` only on a table from which nothing was
removed or with an absent key, and `ck_ht_set_spmc` with an absent key only if `ck_ht_gc` was never called. -/
def CContract (a : Abs K V) (calm : Bool) : Op K V → Prop
  | .put q _ => a.map q = none ∨ a.fresh = true
  | .set q _ => (a.map q = none ∧ calm = true) ∨ (a.map q ≠ none ∧ a.fresh = true)
  | _ => True

instance (a : Abs K V) (calm : Bool) (op : Op K V) : Decidable (CContract a calm op) := by
  cases op <;> unfold CContract <;> infer_instance

theorem CContract.contract {a : Abs K V} {calm : Bool} {op : Op K V} (h : CContract a calm op) : Contract a op := by
  cases op <;> first | exact h | trivial

theorem put_run {cfg : Cfg K V} {m : Map K V} {a : Abs K V} {q : K} {v : V} {al : List Bool} {l : List (Stmt K V)}
    {res : Res V} {fuel : Nat} {calm : Bool} (hw : Rep cfg m a) (hcm : calm = true → Calm cfg m)
    (hc : CContract a calm (.put q v))
    (h : withRoom cfg q (putTail cfg q v) fuel m al = some (l, res)) :
    ∃ b, Spec a (.put q v) res b ∧ OkRun cfg calm m a.map b.map l := by
  refine withRoom_run (P := Spec a (.put q v)) (fun h => ⟨h, rfl⟩) ?_ fuel m al l res hw hcm h
  intro m r al l res hw hcm hr hrr h
  obtain ⟨L, hL, hp⟩ := hw.1.probeWr q none (.inl rfl)
  rw [← hr] at hp
  clear hr
  have hcur := hp.cur
  have done : ∀ k l', a.map q = none → probesOf r = k + 1 → k < m.len cfg → NE cfg m (cfg.hash q) k →
      ((r.pr.isSome = true ∧ (m.ent (at_ cfg m q k)).key = .tomb) ∨
        (r.pr.isSome = false ∧ (m.ent (at_ cfg m q k)).key = .empty)) →
      postinsert cfg (execs m (putStores cfg q v m r (at_ cfg m q k))) al = some l' →
      ∃ b, Spec a (.put q v) (.bool true) b ∧ OkRun cfg calm m a.map b.map (putStores cfg q v m r (at_ cfg m q k) ++ l') := by
    intro k l' h1 h2 h3 h4 h5 h6
    refine ⟨⟨upd a.map q (some v), a.fresh⟩, ⟨h1, rfl⟩, fun sg => ?_⟩
    obtain ⟨sg', hrun⟩ := putStores_run (v := v) hw hcm h1 h2 h3 h4 h5 sg
    refine ⟨sg', hrun.post (postinsert_run h6 (putStores_spec hw h1 h2 h3 h4 ?_))⟩
    rcases h5 with h5 | h5 <;> rw [h5.2] <;> rfl
  unfold putTail at h
  simp only at h
  cases hpr : r.pr with
  | some j =>
    rw [hpr] at h
    obtain ⟨h1, h2, h3, h4⟩ := hp.pr j hpr
    simp only [Option.map_eq_some_iff] at h
    obtain ⟨l', h5, h6⟩ := h
    cases h6
    have ha : a.map q = none := by
      rcases hc with hc | hc
      · exact hc
      · exact absurd h3 (hw.2 hc _)
    exact done j l' ha (by simp only [probesOf, hpr]) (by omega) h2 (.inl ⟨by rw [hpr]; rfl, h3⟩) h5
  | none =>
    rw [hpr] at h hrr
    cases hcc : r.cur with
    | none => rw [hcc] at hrr; simp at hrr
    | some c =>
      rw [hcc] at h hcur
      simp only at h
      generalize ha : a.map q = o at hcur
      split at h
      · next hne =>
        cases h
        cases hcur with
        | here c w hc hcl => exact ⟨a, ⟨by rw [ha]; simp, rfl⟩, fun sg => ⟨sg, .nil rfl⟩⟩
        | empty c hc hcn hcl => exact absurd hc hne
      · next hne =>
        simp only [ne_eq, Decidable.not_not] at hne
        simp only [Option.map_eq_some_iff] at h
        obtain ⟨l', h5, h6⟩ := h
        cases h6
        cases hcur with
        | here c w hc hcl => rw [show (m.ent (at_ cfg m q c)).key = _ from hc.2.2.1] at hne; cases hne
        | empty c hc hcn hcl =>
          exact done c l' ha (by simp only [probesOf, hpr, hcc]) (by omega) hcn (.inr ⟨by rw [hpr]; rfl, hc⟩) h5

/-! ## `ck_ht_set_spmc` -/

/-- The value and then the key are stored, then the bounds are raised. -/
theorem late_run {cfg : Cfg K V} {m : Map K V} {abs : K → Option V} {sg calm : Bool} {x k : Nat} {q : K} {v : V}
    {re : Option Nat} (hg : G cfg m (gre abs sg calm re)) (hf : Free m (gre abs sg calm re) x) (ha : abs q = none) (hcm : calm = true)
    (hk : slotAt cfg m (cfg.hash q) k = x) (hl : k < m.len cfg) (hn : NE cfg m (cfg.hash q) k) (c : Nat) :
    Run cfg abs (upd abs q (some v)) m (gre abs sg calm re) ([.val x v, .key x q none, .cnt c] ++
        boundSet cfg (execs m [.val x v, .key x q none, .cnt c]) (cfg.hash q) (k + 1))
      (g0 (upd abs q (some v)) sg calm) := by
  have hek : ∀ y, ((execs m [.val x v]).ent y).key = (m.ent y).key := by
    intro y
    show (upd m.ent x _ y).key = _
    rw [upd_apply]; split
    · next h => rw [h]
    · rfl
  have hf' : Free (execs m [.val x v]) (gre abs sg calm re) x := by
    unfold Free; rw [hek]; exact hf
  have hval : ((exec (execs m [.val x v]) (.key x q none)).ent x).val = v := by
    show (upd (upd m.ent x ⟨(m.ent x).key, v⟩) x ⟨.key q, _⟩ x).val = v
    rw [upd_same]
    show (upd m.ent x ⟨(m.ent x).key, v⟩ x).val = v
    rw [upd_same]
  have hkey : ((exec (execs m [.val x v]) (.key x q none)).ent x).key = .key q := by
    show (upd (execs m [.val x v]).ent x _ x).key = _
    rw [upd_same]
  have hn' : NE cfg (execs m [.val x v]) (cfg.hash q) k := by
    intro j hj
    have := hn j hj
    show ((execs m [.val x v]).ent (slotAt cfg m _ j)).key ≠ _
    rw [hek]; exact this
  have hrv := val_run (cfg := cfg) (v := v) hf
  have heff : Eff cfg (execs m [.val x v]) (gre abs sg calm re) (.key x q none) :=
    .inr ⟨rfl, rfl, hf', .inl ⟨rfl, ha, k, hl, hk, hn', .inr hcm⟩⟩
  have hgk := (hrv.g hg).exec heff
  have hgx : gexec cfg (execs m [.val x v]) (gre abs sg calm re) (.key x q none) =
      reveal cfg (exec (execs m [.val x v]) (.key x q none)) { gre abs sg calm re with re := none, hid := some x } := by
    simp only [gexec, if_neg (hf'.nk q)]
  rw [hgx] at hgk
  obtain ⟨m2, hm2⟩ : ∃ m2, m2 = exec (execs m [.val x v]) (.key x q none) := ⟨_, rfl⟩
  have he3 : execs m [.val x v, .key x q none, .cnt c] = { m2 with n := c } := by rw [hm2]; rfl
  have hlen : m2.len cfg = m.len cfg := by rw [hm2]; rfl
  have hsl : slotAt cfg m2 = slotAt cfg m := by rw [hm2]; rfl
  rw [← hm2] at hgk hgx hval hkey
  rw [he3]
  obtain ⟨b1, b2, -, -, b4⟩ := boundSet_spec cfg { m2 with n := c } (cfg.hash q) (k + 1)
  have hseen : SeenAt cfg (execs { m2 with n := c } (boundSet cfg { m2 with n := c } (cfg.hash q) (k + 1))) q x := by
    refine ⟨k, (b4 k (Nat.le_refl _) (by rw [show ({ m2 with n := c } : Map K V).len cfg = m2.len cfg from rfl, hlen]; exact hl)).vis, ?_⟩
    rw [Same.slot (cfg := cfg) b1.mask b1.step]
    show slotAt cfg m2 _ k = x
    rw [hsl]; exact hk
  by_cases hs : SeenAt cfg m2 q x
  · have hr := reveal_seen (g := { gre abs sg calm re with re := none, hid := some x }) rfl hkey hs
    rw [hr, hval] at hgk hgx
    have r2 : Run cfg abs (upd abs q (some v)) (execs m [.val x v]) (gre abs sg calm re) [.key x q none]
        (g0 (upd abs q (some v)) sg calm) :=
      Run.single (g := gre abs sg calm re) (g' := g0 (upd abs q (some v)) sg calm) heff hgx
    have r3 := Run.single (cfg := cfg) (m := m2) (g := g0 (upd abs q (some v)) sg calm) (s := .cnt c) (g' := g0 (upd abs q (some v)) sg calm) trivial rfl
    have r4 := boundSet_run (m := { m2 with n := c }) (g := g0 (upd abs q (some v)) sg calm)
      ⟨hgk.pos, hgk.here, hgk.uniq, hgk.hid, hgk.re, hgk.cm⟩ rfl (cfg.hash q) (k + 1)
    refine Run.post (l := [.val x v, .key x q none, .cnt c]) (g' := g0 (upd abs q (some v)) sg calm)
      (Run.pre (l := [.val x v]) hrv (Run.post (l := [.key x q none]) r2 (l' := [.cnt c]) ?_)) ?_
    · rw [show execs (execs m [.val x v]) [.key x q none] = m2 from hm2.symm]; exact r3
    · rw [he3]; exact r4
  · have hr := reveal_not (g := { gre abs sg calm re with re := none, hid := some x }) rfl hkey hs
    rw [hr] at hgk hgx
    obtain ⟨gh, hgh⟩ : ∃ gh : Gh K V, gh = { gre abs sg calm re with re := none, hid := some x } := ⟨_, rfl⟩
    rw [← hgh] at hgk hgx
    have habs : gh.abs = abs := by rw [hgh]; rfl
    have r2 : Run cfg abs abs (execs m [.val x v]) (gre abs sg calm re) [.key x q none] gh := by
      have := Run.single (g := gre abs sg calm re) heff hgx
      rw [habs] at this; exact this
    have r3 : Run cfg abs abs m2 gh [.cnt c] gh := by
      have := Run.single (cfg := cfg) (m := m2) (g := gh) (s := .cnt c) (g' := gh) trivial rfl
      rw [habs] at this; exact this
    have r4 := boundSet_hid (m := { m2 with n := c }) (g := gh) (x := x) (q := q)
      ⟨hgk.pos, hgk.here, hgk.uniq, hgk.hid, hgk.re, hgk.cm⟩ (by rw [hgh]) hkey (cfg.hash q) (k + 1) hseen
    have hgf : { gh with abs := upd gh.abs q (some (({ m2 with n := c } : Map K V).ent x).val), hid := none } =
        g0 (upd abs q (some v)) sg calm := by
      show ({ gh with abs := upd gh.abs q (some (m2.ent x).val), hid := none } : Gh K V) = _
      rw [hval, habs, hgh]; rfl
    rw [hgf, show ({ m2 with n := c } : Map K V).ent x = m2.ent x from rfl, hval, habs] at r4
    refine Run.pre (l := [.val x v, .key x q none, .cnt c]) (g' := gh)
      (Run.pre (l := [.val x v]) hrv (Run.pre (l := [.key x q none]) r2 (l' := [.cnt c]) ?_)) ?_
    · rw [show execs (execs m [.val x v]) [.key x q none] = m2 from hm2.symm]; exact r3
    · rw [he3]; exact r4

theorem setStores_run {cfg : Cfg K V} {m : Map K V} {a : Abs K V} {q : K} {v : V} {r : PW} {calm : Bool}
    (hw : Rep cfg m a) (hcm : calm = true → Calm cfg m) (hc : CContract a calm (.set q v)) (hr : r = probeWr cfg m q none)
    (hrr : r.cur ≠ none ∨ r.pr ≠ none) :
    OkRun cfg calm m a.map (upd a.map q (some v))
      (setStores cfg q v m r ++ boundSet cfg (execs m (setStores cfg q v m r)) (cfg.hash q) (probesOf r)) := by
  obtain ⟨L, hL, hp⟩ := hw.1.probeWr q none (.inl rfl)
  rw [← hr] at hp
  clear hr
  have hcur := hp.cur
  -- insertion at the tombstone
  have insT : ∀ j, r.pr = some j → a.map q = none →
      OkRun cfg calm m a.map (upd a.map q (some v))
        ([.dels (some (at_ cfg m q j)), .val (at_ cfg m q j) v, .key (at_ cfg m q j) q none, .cnt (m.n + 1)] ++
        boundSet cfg (execs m [.dels (some (at_ cfg m q j)), .val (at_ cfg m q j) v, .key (at_ cfg m q j) q none, .cnt (m.n + 1)])
          (cfg.hash q) (j + 1)) := by
    intro j hj ha sg
    have hcalm : calm = true := by
      rcases hc with hc | hc
      · exact hc.2
      · exact absurd ha hc.1
    obtain ⟨h1, h2, h3, -⟩ := hp.pr j hj
    obtain ⟨x, hx⟩ : ∃ x, x = at_ cfg m q j := ⟨_, rfl⟩
    rw [← hx] at h3 ⊢
    have hg : G cfg (execs m [.dels (some x)]) (gre a.map true calm (some x)) := by
      have := gre_g (re := some x) (sg := true) hw.1 hcm (fun y hy => by cases hy; exact h3)
      exact ⟨this.pos, this.here, this.uniq, this.hid, this.re, this.cm⟩
    refine ⟨true, Run.pre (l := [.dels (some x)]) (dels_run h3) ?_⟩
    exact late_run (m := execs m [.dels (some x)]) (k := j) hg (.inr ⟨h3, rfl⟩) ha hcalm hx.symm (Nat.lt_of_lt_of_le h1 hL) h2 (m.n + 1)
  cases hpr : r.pr with
  | some j =>
    have hpo : probesOf r = j + 1 := by simp only [probesOf, hpr]
    obtain ⟨h1, h2, h3, h4⟩ := hp.pr j hpr
    have ha : a.map q = none := by
      rcases hc with hc | hc
      · exact hc.1
      · exact absurd h3 (hw.2 hc.2 _)
    rw [hpo]
    unfold setStores
    rw [hpr]
    rw [ha] at hcur
    generalize hcc : r.cur = cur at hcur
    cases hcur with
    | empty c hc hcn hcl =>
      simp only
      rw [if_neg (fun h => h.1 hc)]
      exact insT j hpr ha
    | full hcn => exact insT j hpr ha
  | none =>
    unfold setStores
    simp only [probesOf]
    rw [hpr]
    revert hcur
    rw [hpr] at hrr
    generalize hcc : r.cur = cur at hrr
    generalize ha : a.map q = o
    intro hcur
    cases hcur with
    | here c w hc hcl =>
      have hsk : (m.ent (at_ cfg m q c)).key = .key q := hc.2.2.1
      simp only
      rw [if_pos (by rw [hsk]; simp)]
      intro sg
      obtain ⟨x, hx⟩ : ∃ x, x = at_ cfg m q c := ⟨_, rfl⟩
      rw [← hx] at hsk ⊢
      have hg := hw.1.g (sg := sg) hcm
      have e1 : Eff cfg m (g0 a.map sg calm) (.val x v) := ⟨rfl, rfl, .inr ⟨q, hsk⟩⟩
      have r1 : Run cfg a.map (upd a.map q (some v)) m (g0 a.map sg calm) [.val x v] (g0 (upd a.map q (some v)) sg calm) :=
        Run.single (g := g0 a.map sg calm) (g' := g0 (upd a.map q (some v)) sg calm) e1 (by simp only [gexec, hsk]; rfl)
      have hsk' : ((execs m [.val x v]).ent x).key = .key q := by
        show (upd m.ent x _ x).key = _
        rw [upd_same]; exact hsk
      have r2 : Run cfg (upd a.map q (some v)) (upd a.map q (some v)) (execs m [.val x v]) (g0 (upd a.map q (some v)) sg calm)
          [.key x q none] (g0 (upd a.map q (some v)) sg calm) :=
        Run.single (g := g0 (upd a.map q (some v)) sg calm) (g' := g0 (upd a.map q (some v)) sg calm) (.inl hsk')
          (by simp only [gexec, if_pos hsk'])
      have r3 := Run.post (l := [.val x v]) r1 r2
      exact ⟨sg, r3.post (boundSet_run (r3.g hg) rfl _ _)⟩
    | empty c hc' hcn hcl =>
      simp only
      rw [if_neg (fun h => h hc')]
      intro sg
      have hcalm : calm = true := by
        rcases hc with hc | hc
        · exact hc.2
        · exact absurd ha hc.1
      exact ⟨sg, late_run (k := c) (re := none) (hw.1.g hcm) (.inl hc') ha hcalm rfl (Nat.lt_of_lt_of_le hcl hL) hcn (m.n + 1)⟩
    | full hcn => simp at hrr

theorem set_run {cfg : Cfg K V} {m : Map K V} {a : Abs K V} {q : K} {v : V} {al : List Bool} {l : List (Stmt K V)}
    {res : Res V} {fuel : Nat} {calm : Bool} (hw : Rep cfg m a) (hcm : calm = true → Calm cfg m)
    (hc : CContract a calm (.set q v)) (h : withRoom cfg q (setTail cfg q v) fuel m al = some (l, res)) :
    ∃ b, Spec a (.set q v) res b ∧ OkRun cfg calm m a.map b.map l := by
  refine withRoom_run (P := Spec a (.set q v)) (fun h => ⟨h, rfl⟩) ?_ fuel m al l res hw hcm h
  intro m r al l res hw hcm hr hrr h
  unfold setTail at h
  simp only [Option.map_eq_some_iff] at h
  obtain ⟨l', h1, h2⟩ := h
  cases h2
  obtain ⟨h3, h4⟩ := setStores_spec (v := v) hw hr hrr
  refine ⟨⟨upd a.map q (some v), a.fresh⟩, ⟨h4, rfl⟩, fun sg => ?_⟩
  obtain ⟨sg', hrun⟩ := setStores_run hw hcm hc hr hrr sg
  exact ⟨sg', hrun.post (postinsert_run h1 h3)⟩

/-! ## `ck_ht_remove_spmc` -/

theorem remove_run {cfg : Cfg K V} {m : Map K V} {a : Abs K V} {q : K} {calm : Bool} (hw : Rep cfg m a) :
    ∃ b, Spec a (.remove q) (remove cfg m q).2 b ∧ OkRun cfg calm m a.map b.map (remove cfg m q).1 := by
  have h := hw.1.found q _ fun k hk => hk.bound
  unfold remove probeRd
  revert h
  generalize ((List.range (Nat.min (m.len cfg) (bound cfg m (cfg.hash q) + 1))).find? fun k =>
    stop q (m.ent (slotAt cfg m (cfg.hash q) k)).key) = cur
  generalize ha : a.map q = o
  intro h
  have hnone : a.map q = none → Spec a (.remove q) (.val none) a := by
    intro h
    refine ⟨h.symm, ?_⟩
    cases a with
    | mk map fresh =>
      simp only at h
      simp only [Option.isNone_none, Bool.and_true, Abs.mk.injEq, and_true]
      funext p; rw [upd_apply]; split
      · next hp => rw [hp, h]
      · rfl
  cases h with
  | here c v hc hcl =>
    have hsk : (m.ent (at_ cfg m q c)).key = .key q := hc.2.2.1
    have hv : (m.ent (at_ cfg m q c)).val = v := hc.2.2.2
    simp only [valOf, hsk, hv]
    refine ⟨_, ⟨ha.symm, rfl⟩, fun sg => ⟨sg, ?_⟩⟩
    refine Run.post (l := [.tomb (at_ cfg m q c)]) (g' := g0 (upd a.map q none) sg calm)
      (Run.single (g := g0 a.map sg calm) (g' := g0 (upd a.map q none) sg calm) ⟨⟨q, hsk⟩, .inl ⟨rfl, rfl⟩⟩ ?_)
      (Run.single (g := g0 (upd a.map q none) sg calm) (g' := g0 (upd a.map q none) sg calm) trivial rfl)
    simp only [gexec, hsk]; simp [g0]
  | empty c hc hcn hcl =>
    simp only [valOf, hc]
    exact ⟨a, hnone ha, fun sg => ⟨sg, .nil rfl⟩⟩
  | full hcn => exact ⟨a, hnone ha, fun sg => ⟨sg, .nil rfl⟩⟩

/-! ## `ck_ht_gc` -/

theorem moveStores_run {cfg : Cfg K V} {m : Map K V} {a : Abs K V} {q : K} {x : Nat} (hw : Rep cfg m a)
    (hx : (m.ent x).key = .key q) :
    OkRun cfg false m a.map a.map (moveStores cfg m q (probeWr cfg m q (some (bound cfg m (cfg.hash q))))) := by
  obtain ⟨L, hL, hp⟩ := hw.1.probeWr q _ (.inr rfl)
  generalize probeWr cfg m q (some (bound cfg m (cfg.hash q))) = r at hp
  have ha := hw.1.here x q hx
  have hcur := hp.cur
  rw [ha] at hcur
  generalize hcc : r.cur = cur at hcur
  generalize hvv : (m.ent x).val = v at hcur
  cases hcur with
  | here c v hc hcl =>
  have hsk : (m.ent (at_ cfg m q c)).key = .key q := hc.2.2.1
  unfold moveStores
  rw [hcc]
  cases hpr : r.pr with
  | none => exact fun sg => ⟨sg, .nil rfl⟩
  | some j =>
    simp only
    obtain ⟨h1, h2, h3, h4⟩ := hp.pr j hpr
    have hj : j < c := h4 c hcc
    intro sg
    have hvj : Vis cfg m (cfg.hash q) j := hc.1.vis.le (by omega)
    obtain ⟨f, hf⟩ : ∃ f, f = at_ cfg m q j := ⟨_, rfl⟩
    obtain ⟨s, hs⟩ : ∃ s, s = at_ cfg m q c := ⟨_, rfl⟩
    rw [← hf] at h3 ⊢
    rw [← hs] at hsk ⊢
    have hfs : f ≠ s := fun h => by rw [h, hsk] at h3; cases h3
    refine ⟨true, Run.pre (l := [.dels (some f)]) (dels_run h3) ?_⟩
    refine Run.pre (l := [.val f (m.ent s).val]) (val_run (.inr ⟨h3, rfl⟩)) ?_
    obtain ⟨m2, hm2⟩ : ∃ m2, m2 = execs (execs m [.dels (some f)]) [.val f (m.ent s).val] := ⟨_, rfl⟩
    have e2 : m2.ent = upd m.ent f ⟨(m.ent f).key, (m.ent s).val⟩ := by rw [hm2]; rfl
    have hsl : slotAt cfg m2 = slotAt cfg m := by rw [hm2]; rfl
    have hv2 : Vis cfg m2 (cfg.hash q) j := by rw [hm2]; exact hvj
    have hk2 : ∀ y, (m2.ent y).key = (m.ent y).key := by
      intro y; rw [e2, upd_apply]; split
      · next h => rw [h]
      · rfl
    rw [← hm2]
    have hkf : (m2.ent f).key ≠ .key q := by rw [hk2, h3]; simp
    have r3 : Run cfg a.map a.map m2 (gre a.map true false (some f)) [.key f q (some s)]
        ⟨a.map, some s, false, none, none, false⟩ := by
      refine Run.single (g := gre a.map true false (some f)) (g' := ⟨a.map, some s, false, none, none, false⟩)
        (.inr ⟨rfl, rfl, .inr ⟨by rw [hk2]; exact h3, rfl⟩, .inr ⟨s, rfl, by rw [hk2]; exact hsk, ?_, j, hv2, ?_, ?_⟩⟩) ?_
      · rw [e2, upd_same, upd_ne _ _ (Ne.symm hfs)]
      · rw [hsl, hf]; rfl
      · intro i hi; rw [hsl, hk2]; exact h2 i hi
      · simp only [gexec, if_neg hkf]; rfl
    refine Run.pre (l := [.key f q (some s)]) r3 ?_
    refine Run.pre (l := [.dels none]) (g' := ⟨a.map, some s, true, none, none, false⟩)
      (Run.single (g := ⟨a.map, some s, false, none, none, false⟩) (g' := ⟨a.map, some s, true, none, none, false⟩)
        (fun y hy => (by cases hy)) rfl) ?_
    refine Run.single (g := ⟨a.map, some s, true, none, none, false⟩) (g' := g0 a.map true false)
      ⟨⟨q, ?_⟩, .inr ⟨rfl, rfl⟩⟩ ?_
    · show (upd m2.ent f ⟨.key q, (m2.ent f).val⟩ s).key = _
      rw [upd_ne _ _ (Ne.symm hfs), hk2]; exact hsk
    · simp only [gexec, if_true]; rfl

theorem gcBody_run {cfg : Cfg K V} {full : Bool} {m0 : Map K V} {a : Abs K V} {x : Nat} {rest : List Nat} {g : Gc K V}
    (hi : GcI cfg full m0 a (x :: rest) g) (hr : OkRun cfg false m0 a.map a.map g.out) :
    OkRun cfg false m0 a.map a.map (gcBody cfg full g x).out := by
  unfold gcBody
  split
  · exact hr
  · split
    · next q hx =>
      have : OkRun cfg false m0 a.map a.map
          (g.out ++ moveStores cfg g.m q (probeWr cfg g.m q (some (bound cfg g.m (cfg.hash q))))) := by
        intro sg
        obtain ⟨s1, h1⟩ := hr sg
        obtain ⟨s2, h2⟩ := moveStores_run hi.rep hx s1
        rw [hi.em] at h2
        have h3 := h1.pre h2
        rw [← hi.em] at h3
        exact ⟨s2, h3⟩
      split <;> exact this
    · exact hr

theorem gcLoop_run {cfg : Cfg K V} {full : Bool} {m0 : Map K V} {a : Abs K V} : ∀ (xs : List Nat) (g : Gc K V),
    GcI cfg full m0 a xs g → OkRun cfg false m0 a.map a.map g.out →
    OkRun cfg false m0 a.map a.map (xs.foldl (gcBody cfg full) g).out := by
  intro xs
  induction xs with
  | nil => intro g _ hr; exact hr
  | cons x xs ih => intro g hi hr; exact ih _ (gcBody_spec hi) (gcBody_run hi hr)

/-- Every bound is the old or the new one. -/
structure Mix (cfg : Cfg K V) (m : Map K V) (M : Nat) (B : Nat → Nat) (m' : Map K V) : Prop where
  ent : m'.ent = m.ent
  mask : m'.mask = m.mask
  step : m'.step = m.step
  limit : m'.limit = m.limit
  maxi : m'.maxi = m.maxi ∨ m'.maxi = M
  bnd : ∀ b', m'.bnd = some b' → ∃ b, m.bnd = some b ∧ ∀ o, b' o = b o ∨ b' o = B o

theorem bounds_run {cfg : Cfg K V} {m : Map K V} {abs : K → Option V} {M : Nat} {B : Nat → Nat}
    (hp : ∀ q v, abs q = some v → ∃ k, Vis cfg m (cfg.hash q) k ∧ k ≤ M ∧
      (B (cfg.hash q &&& m.mask) = cfg.wmax ∨ k ≤ B (cfg.hash q &&& m.mask)) ∧
      (m.ent (slotAt cfg m (cfg.hash q) k)).key = .key q ∧ (m.ent (slotAt cfg m (cfg.hash q) k)).val = v ∧
      NE cfg m (cfg.hash q) k) (sg : Bool) :
    ∀ (l : List (Stmt K V)) (m' : Map K V), (∀ s, s ∈ l → s = .setMax M ∨ ∃ i, s = .setBnd i (B i)) → Mix cfg m M B m' →
      Run cfg abs abs m' (g0 abs sg false) l (g0 abs sg false) := by
  have pos : ∀ m', Mix cfg m M B m' → Posd cfg m' (g0 abs sg false) := by
    intro m' hm q v hq
    obtain ⟨k, h1, h2, h3, h4, h5, h6⟩ := hp q v hq
    have hsl : slotAt cfg m' = slotAt cfg m := Same.slot hm.mask hm.step
    refine ⟨k, ⟨?_, ?_, ?_⟩, by simp [g0], by rw [hsl, hm.ent]; exact h4, by rw [hsl, hm.ent]; exact h5,
      fun i hi => by rw [hsl, hm.ent]; exact h6 i hi⟩
    · have := h1.1; unfold Map.len at this ⊢; rw [hm.limit]; exact this
    · have := h1.2.1; rcases hm.maxi with h | h <;> omega
    · intro b' hb'
      obtain ⟨b, hb, ho⟩ := hm.bnd b' hb'
      rw [hm.mask]
      rcases ho (cfg.hash q &&& m.mask) with h | h <;> rw [h]
      · exact h1.2.2 b hb
      · exact h3
  intro l
  induction l with
  | nil => intro m' _ _; exact .nil rfl
  | cons s l ih =>
    intro m' hl hm
    have hm' : Mix cfg m M B (exec m' s) ∧ Eff cfg m' (g0 abs sg false) s ∧ gexec cfg m' (g0 abs sg false) s = g0 abs sg false := by
      rcases hl s (by simp) with h | ⟨i, h⟩
      · subst h
        have h1 : Mix cfg m M B (exec m' (.setMax M)) := ⟨hm.ent, hm.mask, hm.step, hm.limit, .inr rfl, hm.bnd⟩
        exact ⟨h1, ⟨pos _ h1, fun h => (by cases h)⟩, reveal_none (cfg := cfg) (m := exec m' (.setMax M)) (g := g0 abs sg false) rfl⟩
      · subst h
        have h1 : Mix cfg m M B (exec m' (.setBnd i (B i))) := by
          refine ⟨hm.ent, hm.mask, hm.step, hm.limit, hm.maxi, ?_⟩
          intro b' hb'
          simp only [exec, Option.map_eq_some_iff] at hb'
          obtain ⟨b1, h1, h2⟩ := hb'
          obtain ⟨b, hb, ho⟩ := hm.bnd b1 h1
          refine ⟨b, hb, fun o => ?_⟩
          rw [← h2, upd_apply]
          split
          · next h => right; rw [h]
          · exact ho o
        exact ⟨h1, ⟨pos _ h1, fun h => (by cases h)⟩, reveal_none (cfg := cfg) (m := exec m' (.setBnd i (B i))) (g := g0 abs sg false) rfl⟩
    exact Run.pre (l := [s]) (Run.single (g := g0 abs sg false) (g' := g0 abs sg false) hm'.2.1 hm'.2.2)
      (ih _ (fun s hs => hl s (List.mem_cons_of_mem _ hs)) hm'.1)

theorem gc_run {cfg : Cfg K V} {m : Map K V} {a : Abs K V} {cycles seed : Nat} {al : List Bool} {l : List (Stmt K V)}
    {res : Res V} (hw : Rep cfg m a) (h : gc cfg m cycles seed al = some (l, res)) :
    OkRun cfg false m a.map a.map l := by
  have mixR : ∀ (m : Map K V) M B, Mix cfg m M B m := fun m M B =>
    ⟨rfl, rfl, rfl, rfl, .inl rfl, fun b hb => ⟨b, hb, fun _ => .inl rfl⟩⟩
  unfold gc at h
  split at h
  · next hn =>
    cases h
    have hnone : ∀ q v, a.map q ≠ some v := by
      intro q v hq
      obtain ⟨k, -, -, hk, -⟩ := hw.1.pos q v hq
      have := hw.1.cn
      rw [hn, eq_comm] at this
      unfold card at this
      rw [List.countP_eq_zero] at this
      have := this _ (List.mem_range.2 (hw.1.lt _ _ hk))
      rw [hk] at this; exact this rfl
    intro sg
    refine ⟨sg, bounds_run (M := 0) (B := fun _ => 0) (fun q v hq => absurd hq (hnone q v)) sg _ m ?_ (mixR m _ _)⟩
    intro s hs
    rcases List.mem_cons.1 hs with hs | hs
    · exact .inl hs
    · split at hs
      · rw [List.mem_map] at hs
        obtain ⟨i, -, rfl⟩ := hs
        exact .inr ⟨i, rfl⟩
      · cases hs
  · simp only at h
    have hi0 : GcI cfg (decide (cycles = 0)) m a ((List.range m.cap).map fun i => (i + seed) &&& m.mask)
        ⟨[], m, cycles, false, if decide (cycles = 0) = true then 0 else m.maxi, fun _ => 0⟩ := by
      refine ⟨rfl, hw, ⟨rfl, rfl, rfl, rfl⟩, fun hf => ⟨rfl, fun _ => Nat.zero_le _, ?_⟩, fun hf => ?_⟩
      · intro q v hq
        obtain ⟨k, -, -, hk, -⟩ := hw.1.pos q v hq
        exact .inr ⟨_, visits hw.1 seed _ (hw.1.lt _ _ hk), hk⟩
      · simp [hf]
    have hi := gcLoop_spec _ _ hi0
    have hru := gcLoop_run _ _ hi0 (fun sg => ⟨sg, .nil rfl⟩)
    generalize List.foldl (gcBody cfg (decide (cycles = 0)))
        ⟨[], m, cycles, false, if decide (cycles = 0) = true then 0 else m.maxi, fun _ => 0⟩
        ((List.range m.cap).map fun i => (i + seed) &&& m.mask) = g at hi hru h
    obtain ⟨g1, g2, g3, g4⟩ := hi.geo
    have done : OkRun cfg false m a.map a.map (g.out ++ (if g.maxi ≠ g.m.maxi then [.setMax g.maxi] else []) ++
        (if (decide (cycles = 0)) = true ∧ m.bnd.isSome then (List.range m.cap).map fun i => .setBnd i (g.bnds i) else [])) := by
      intro sg
      obtain ⟨sg', hr⟩ := hru sg
      refine ⟨sg', ?_⟩
      rw [List.append_assoc]
      refine hr.pre ?_
      rw [← hi.em]
      by_cases hf : cycles = 0
      · have hft : decide (cycles = 0) = true := by simp [hf]
        obtain ⟨f1, f2, f3⟩ := hi.fl hft
        refine bounds_run (M := g.maxi) (B := g.bnds) ?_ sg' _ g.m ?_ (mixR g.m _ _)
        · intro q v hq
          obtain ⟨k, h1, h2, h3, h4⟩ := hi.rep.1.pos q v hq
          rcases f3 q v hq with ⟨k', k1, k2, k3, k4, k5, k6⟩ | ⟨x, hx, -⟩
          · have hB : ∀ i, i ≤ k' → g.bnds (cfg.hash q &&& g.m.mask) = cfg.wmax ∨ i ≤ g.bnds (cfg.hash q &&& g.m.mask) := by
              intro i hi
              have h1 := f2 (cfg.hash q &&& g.m.mask)
              rcases (sat_le cfg (k' + 1)).2.2 with h2 | h2
              · right; omega
              · left; omega
            by_cases hkk : k ≤ k'
            · exact ⟨k, h1.vis, by omega, hB k hkk, h3, h4, h2⟩
            · exact ⟨k', h1.vis.le (by omega), by omega, hB k' (Nat.le_refl _), k3, k4, k2⟩
          · cases hx
        · intro s hs
          rw [List.mem_append] at hs
          rcases hs with hs | hs
          · split at hs
            · rw [List.mem_singleton] at hs; exact .inl hs
            · cases hs
          · split at hs
            · rw [List.mem_map] at hs
              obtain ⟨i, -, rfl⟩ := hs
              exact .inr ⟨i, rfl⟩
            · cases hs
      · rw [if_neg (c := g.maxi ≠ g.m.maxi) (by rw [hi.nf (by simp [hf]), g3]; simp),
          if_neg (c := decide (cycles = 0) = true ∧ _) (fun h => hf (by simpa using h.1))]
        exact .nil rfl
    split at h
    · split at h
      · cases h
      · cases h; exact fun sg => ⟨sg, .nil rfl⟩
      · cases h; exact done
    · cases h; exact done

/-! ## All operations -/

/-- The result determines the contents after the operation. -/
theorem Spec.fn {a : Abs K V} {op : Op K V} {res : Res V} {b b' : Abs K V} (h : Spec a op res b) (h' : Spec a op res b') :
    b = b' := by
  cases op <;> rcases res with (_ | _) | _ | _ <;> simp only [Spec] at h h' <;>
    first | exact h.2.trans h'.2.symm | exact h.trans h'.symm | exact h.elim

/-- `ck_ht_gc` was not called so far. -/
def calmed (calm : Bool) : Op K V → Bool
  | .gc _ _ => false
  | _ => calm

theorem prog_run {cfg : Cfg K V} {m : Map K V} {a : Abs K V} {op : Op K V} {al : List Bool}
    {l : List (Stmt K V)} {res : Res V} {calm : Bool} (hw : Rep cfg m a) (hcm : calm = true → Calm cfg m)
    (hc : CContract a calm op) (h : prog cfg m al op = some (l, res)) :
    ∃ b, Spec a op res b ∧ Rep cfg (execs m l) b ∧ OkRun cfg (calmed calm op) m a.map b.map l := by
  obtain ⟨b, hb, hr⟩ := prog_spec hw hc.contract h
  refine ⟨b, hb, hr, ?_⟩
  have fin : (∃ b', Spec a op res b' ∧ OkRun cfg (calmed calm op) m a.map b'.map l) →
      OkRun cfg (calmed calm op) m a.map b.map l := by
    rintro ⟨b', h1, h2⟩
    rw [hb.fn h1]; exact h2
  have hreset : ∀ c, resetOp cfg c al = some (l, res) →
      (res = .denied ∧ OkRun cfg calm m a.map a.map l) ∨ (res = .bool true ∧ OkRun cfg calm m a.map (fun _ => none) l) := by
    intro c h
    unfold resetOp at h
    split at h
    · cases h
    · cases h; exact .inl ⟨rfl, fun sg => ⟨sg, .nil rfl⟩⟩
    · cases h; exact .inr ⟨rfl, fun sg => ⟨sg, clear_run⟩⟩
  cases op with
  | put q v => exact fin (put_run hw hcm hc h)
  | set q v => exact fin (set_run hw hcm hc h)
  | remove q =>
    simp only [prog, Option.some.injEq] at h
    have := remove_run (q := q) (calm := calm) hw
    rw [h] at this
    exact fin this
  | grow c =>
    simp only [prog, growOp] at h
    split at h
    · cases h
    · cases h; exact fin ⟨a, rfl, fun sg => ⟨sg, .nil rfl⟩⟩
    · next u _ hg =>
      cases h
      exact fin ⟨⟨a.map, true⟩, rfl, fun sg => ⟨sg, publish_run (grow_spec hw.1 _ _ _ hg).1 (grow_calm _ _ _ hg)⟩⟩
  | gc cycles seed =>
    have hba : b = a := by
      revert hb
      rcases res with (_ | _) | _ | _ <;> simp only [Spec] <;> intro h <;> first | exact h | exact h.elim
    rw [hba]
    exact gc_run hw h
  | reset =>
    rcases hreset _ h with ⟨rfl, h2⟩ | ⟨rfl, h2⟩
    · exact fin ⟨a, rfl, h2⟩
    · exact fin ⟨⟨fun _ => none, true⟩, rfl, h2⟩
  | resetSize c =>
    rcases hreset _ h with ⟨rfl, h2⟩ | ⟨rfl, h2⟩
    · exact fin ⟨a, rfl, h2⟩
    · exact fin ⟨⟨fun _ => none, true⟩, rfl, h2⟩

end Verif.Ht
