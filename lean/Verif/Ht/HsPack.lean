import Verif.Ht.Hs
import Verif.Ht.Bytes

/-!
# Words in the entries of a hash set (C103): pointer packing in `src/ck_hs.c` and `src/ck_rhs.c`

The models of the hash sets (`Hs.lean`, `Rhs`) say that an entry is empty, deleted, or an object together with some bits
of its hash.  Here an entry is what it is in memory: a word of 64 bits.  With pointer packing and `CK_HS_MODE_OBJECT` the
word holds the address of the object in its lower `CK_MD_VMA_BITS` bits and bits of the hash above, otherwise it is the
address (or the value, `CK_HS_MODE_DIRECT`) itself.

`ck_hs_map_probe`, `ck_hs_next`, the copy of an entry in `ck_hs_grow`, and the stores of the writer are modelled on words, and
shown to do what the models on abstract entries do: what is proved there holds of the words.

Simplification: words of 64 bits only.  With 32 bits and `CK_MD_VMA_BITS` of 32 (`configure`, line 814) the shifts of the
code are undefined.  `32 < CK_MD_VMA_BITS < 64`: otherwise the shift in `CK_HS_KEY_MASK` is undefined.
-/

namespace Verif.Hs.Pack

open Verif Verif.Hs

/-- `none`: entries are addresses (no pointer packing, or `CK_HS_MODE_DIRECT`); `some b`: pointer packing with
`CK_MD_VMA_BITS = b` and `CK_HS_MODE_OBJECT`; `include/ck_hs.h`, lines 78-81, `include/ck_rhs.h`, lines 77-80. -/
abbrev Mode := Option Nat

/-- `CK_HS_VMA`, lines 49-51 (`CK_RHS_VMA`, `src/ck_rhs.c`, lines 50-52). -/
def vma (b x : Nat) : Nat := x &&& ((1 <<< b) % 2 ^ 64 - 1)

/-- `CK_HS_KEY_MASK`, `include/ck_hs.h`, line 80 (`CK_RHS_KEY_MASK`, `include/ck_rhs.h`, line 79): the shift is one of
32 bits. -/
def keyMask (b : Nat) : Nat := (1 <<< (64 - b)) % 2 ^ 32 - 1

/-- `ck_hs_marshal`, lines 533-553 (`ck_rhs_marshal`, `src/ck_rhs.c`, lines 805-824). -/
def marshal (md : Mode) (p h : Nat) : Nat :=
  match md with
  | none => p
  | some b => vma b p ||| (((h >>> 25) <<< b) % 2 ^ 64)

/-- `CK_HS_TOMBSTONE`, line 54 (`CK_RHS_TOMBSTONE`); `CK_HS_EMPTY`, line 53, is 0. -/
def tombstone : Nat := 2 ^ 64 - 1

/-- The object of a used entry: lines 120-124, 356-359, 502 and 594-598 (`src/ck_rhs.c`: 290-293, 517-520, 548-551, 660, 774). -/
def unmarshal (md : Mode) (w : Nat) : Nat :=
  match md with
  | none => w
  | some b => vma b w

/-- `k == compare`, then the callback `cmp`, if there is one: lines 505-511. -/
def sameW (cmp : Option (Nat → Nat → Bool)) (q k compare : Nat) : Option Nat :=
  if k = compare then some k
  else match cmp with
    | none => none
    | some c => if c k q then some k else none

/-- The comparison of the entry `w` with the address `q` and the hash `h`, lines 440-450 and 497-511
(`src/ck_rhs.c`: 599-603, 653-672, and 711-715, 767-786, without the hashes stored in
descriptors).  `some` of the object if the probe ends here. -/
def hitW (md : Mode) (cmp : Option (Nat → Nat → Bool)) (q h w : Nat) : Option Nat :=
  match md with
  | none => sameW cmp q w q
  | some b => if w >>> b ≠ (h >>> 25) &&& keyMask b then none else sameW cmp q (vma b w) (vma b q)

/-- The loop of `ck_hs_map_probe` on words, lines 461-516; as `Hs.probeLoop`. -/
def probeLoopW (md : Mode) (cmp : Option (Nat → Nat → Bool)) (mask step : Nat) (ent : Nat → Nat) (q h : Nat) (beh : Beh)
    (opl : Nat) : Nat → Nat → Nat → Option (Nat × Nat) → Option (PR Nat)
  | 0, _, _, _ => none
  | fuel + 1, k, lim, pr =>
    let x := slotIdx mask step h k
    if k = lim ∧ (lim = opl ∨ pr.isSome) then some (leave x (k + 1) lim pr none)
    else
      let lim' := if k = lim then opl else lim
      if ent x = 0 then some (leave x (k + 1) lim' pr none)
      else if ent x = tombstone then
        match pr with
        | some p => probeLoopW md cmp mask step ent q h beh opl fuel (k + 1) lim' (some p)
        | none =>
          if beh = .tombstone then some (leave x (k + 1) lim' (some (x, k + 1)) none)
          else probeLoopW md cmp mask step ent q h beh opl fuel (k + 1) lim' (some (x, k + 1))
      else
        match hitW md cmp q h (ent x) with
        | some o => some (leave x (k + 1) lim' pr (some o))
        | none => probeLoopW md cmp mask step ent q h beh opl fuel (k + 1) lim' pr

/-- `ck_hs_next` on words, lines 108-150. -/
def nextW (md : Mode) (cap : Nat) (ent : Nat → Nat) : Nat → Nat → Option (Nat × Nat)
  | 0, _ => none
  | fuel + 1, offset =>
    if offset ≥ cap then none
    else if ent offset ≠ 0 ∧ ent offset ≠ tombstone then some (unmarshal md (ent offset), offset + 1)
    else nextW md cap ent fuel (offset + 1)

/-- A store of the writer on words: lines 602-606, 664-670, 734-748, 785-800, 843-846; the object is stored as
`ck_hs_marshal` gives it. -/
def execW (md : Mode) (hash : Nat → Nat) (ent : Nat → Nat) : Stmt Nat → Nat → Nat
  | .store x v _ _ => upd ent x (marshal md v (hash v))
  | .del x => upd ent x tombstone
  | _ => ent

/-- Where `ck_hs_grow` puts the entry `w`, lines 346-388: its hash is that of the object, the word is copied. -/
def copyW (md : Mode) (hash : Nat → Nat) (mask step limit : Nat) (ent : Nat → Nat) (w : Nat) : Option (Nat → Nat) :=
  if w = 0 ∨ w = tombstone then some ent
  else
    match (List.range limit).find? fun k => decide (ent (slotIdx mask step (hash (unmarshal md w)) k) = 0) with
    | none => none
    | some k => some (upd ent (slotIdx mask step (hash (unmarshal md w)) k) w)

/-- The loop of `ck_hs_grow` over the entries of the old map, lines 346-397; the new map is empty at first. -/
def rehashW (md : Mode) (hash : Nat → Nat) (mask step limit : Nat) (old : Nat → Nat) : List Nat → (Nat → Nat) → Option (Nat → Nat)
  | [], ent => some ent
  | k :: ks, ent => (copyW md hash mask step limit ent (old k)).bind (rehashW md hash mask step limit old ks)

/-! ## Specification -/

/-- Addresses the build can hold: not `NULL`, and not all bits set. -/
def Fits (md : Mode) (p : Nat) : Prop :=
  0 < p ∧ match md with
    | none => p < 2 ^ 64 - 1
    | some b => 32 < b ∧ b < 64 ∧ p < 2 ^ b - 1

/-- The bits of the hash an entry holds. -/
def tagOf (md : Mode) (h : Nat) : Nat :=
  match md with
  | none => 0
  | some b => h / 2 ^ 25 % 2 ^ (64 - b)

/-- What a word stands for. -/
def read (md : Mode) (w : Nat) : Slot Nat :=
  if w = 0 then .empty else if w = tombstone then .tomb
  else match md with
    | none => .full w 0
    | some b => .full (w % 2 ^ b) (w / 2 ^ b)

/-- The callbacks of the user are those of the abstract model: the comparison callback (or, if there is none, equality of the
addresses) tells whether the keys are the same. -/
structure Calls (md : Mode) (cmp : Option (Nat → Nat → Bool)) {K : Type} (cfg : Cfg K Nat) : Prop where
  same : ∀ p q, Fits md p → Fits md q → ((p = q ∨ ∃ c, cmp = some c ∧ c p q = true) ↔ cfg.key p = cfg.key q)
  tag : ∀ h, cfg.tag h = tagOf md h

/-- All used entries hold objects that fit. -/
def Good (md : Mode) (ent : Nat → Nat) : Prop := ∀ x v tg, read md (ent x) = .full v tg → Fits md v

/-! ## Proofs -/

theorem vma_eq {b x : Nat} (hb : b < 64) : vma b x = x % 2 ^ b := by
  have h : (1 <<< b) % 2 ^ 64 = 2 ^ b := by
    rw [Nat.shiftLeft_eq, Nat.one_mul, Nat.mod_eq_of_lt (Nat.pow_lt_pow_right (by decide) hb)]
  rw [vma, h, Nat.and_two_pow_sub_one_eq_mod]

theorem keyMask_eq {b x : Nat} (h0 : 32 < b) (hb : b < 64) : x &&& keyMask b = x % 2 ^ (64 - b) := by
  have h : (1 <<< (64 - b)) % 2 ^ 32 = 2 ^ (64 - b) := by
    rw [Nat.shiftLeft_eq, Nat.one_mul, Nat.mod_eq_of_lt (Nat.pow_lt_pow_right (by decide) (by omega))]
  rw [keyMask, h, Nat.and_two_pow_sub_one_eq_mod]

theorem marshal_eq {b p h : Nat} (hb : b < 64) :
    marshal (some b) p h = (h / 2 ^ 25 % 2 ^ (64 - b)) * 2 ^ b + p % 2 ^ b := by
  have := Ht.Bytes.pack_eq (v := b) (p := p % 2 ^ b) (x := h >>> 25) (by omega) (Nat.mod_lt _ (Nat.two_pow_pos b))
  rw [Nat.shiftRight_eq_div_pow] at this
  rw [← this, marshal, vma_eq hb, Ht.Bytes.pack, Nat.shiftRight_eq_div_pow]

theorem marshal_low {b p h : Nat} (hb : b < 64) : marshal (some b) p h % 2 ^ b = p % 2 ^ b := by
  rw [marshal_eq hb, Nat.add_comm, Nat.add_mul_mod_self_right, Nat.mod_mod]

theorem marshal_high {b p h : Nat} (hb : b < 64) : marshal (some b) p h / 2 ^ b = h / 2 ^ 25 % 2 ^ (64 - b) := by
  rw [marshal_eq hb, Nat.add_comm, Nat.add_mul_div_right _ _ (Nat.two_pow_pos b),
    Nat.div_eq_of_lt (Nat.mod_lt _ (Nat.two_pow_pos b)), Nat.zero_add]

/-- The word holds all of the address if, and only if, the address has no more than `CK_MD_VMA_BITS` bits. -/
theorem unpack_iff {b : Nat} (hb : b < 64) (p h : Nat) : unmarshal (some b) (marshal (some b) p h) = p ↔ p < 2 ^ b := by
  rw [unmarshal, vma_eq hb, marshal_low hb]
  exact ⟨fun e => e ▸ Nat.mod_lt _ (Nat.two_pow_pos b), fun e => Nat.mod_eq_of_lt e⟩

theorem tomb_low {b : Nat} (hb : b ≤ 64) : tombstone % 2 ^ b = 2 ^ b - 1 := by
  have h : (2 : Nat) ^ 64 = 2 ^ b * 2 ^ (64 - b) := by rw [← Nat.pow_add]; congr 1; omega
  have hp := Nat.two_pow_pos b
  have hq := Nat.two_pow_pos (64 - b)
  obtain ⟨c, hc⟩ : ∃ c, 2 ^ (64 - b) = c + 1 := ⟨2 ^ (64 - b) - 1, by omega⟩
  have : tombstone = 2 ^ b - 1 + 2 ^ b * c := by
    rw [tombstone, h, hc, Nat.mul_add, Nat.mul_one]; omega
  rw [this, Nat.add_mul_mod_self_left, Nat.mod_eq_of_lt (by omega)]

/-- A stored object is neither taken for an empty entry nor for a deleted one, comes back as it was, and carries the bits of
its hash. -/
theorem stored (md : Mode) (p h : Nat) (hf : Fits md p) : read md (marshal md p h) = .full p (tagOf md h) := by
  cases md with
  | none =>
    have := hf.2; have := hf.1
    simp only [Fits] at *
    rw [read, if_neg (by show p ≠ 0; omega), if_neg (by show p ≠ tombstone; rw [tombstone]; omega)]
    rfl
  | some b =>
    obtain ⟨h0, h1, h2, h3⟩ := hf
    have hl := marshal_low (p := p) (h := h) h2
    rw [Nat.mod_eq_of_lt (a := p) (by omega)] at hl
    have hz : marshal (some b) p h ≠ 0 := by intro e; rw [e, Nat.zero_mod] at hl; omega
    have ht : marshal (some b) p h ≠ tombstone := by
      intro e; rw [e, tomb_low (by omega)] at hl; omega
    rw [read, if_neg hz, if_neg ht]
    show Slot.full _ _ = _
    rw [hl, marshal_high h2]; rfl

theorem read_unm {md : Mode} {w v tg : Nat} (hb : ∀ b, md = some b → b < 64) (h : read md w = .full v tg) :
    w ≠ 0 ∧ w ≠ tombstone ∧ unmarshal md w = v := by
  unfold read at h
  split at h
  · cases h
  · split at h
    · cases h
    · refine ⟨‹_›, ‹_›, ?_⟩
      cases md with
      | none => cases h; rfl
      | some b => cases h; exact vma_eq (hb b rfl)

theorem fits_bits {md : Mode} {p : Nat} (h : Fits md p) : ∀ b, md = some b → b < 64 := by
  intro b e; subst e; exact h.2.2.1

variable {K : Type} [DecidableEq K]

/-- The comparison on words is the comparison of the abstract model. -/
theorem compare (md : Mode) (cmp : Option (Nat → Nat → Bool)) (cfg : Cfg K Nat) (hc : Calls md cmp cfg) (q w v tg : Nat)
    (hq : Fits md q) (hv : Fits md v) (hr : read md w = .full v tg) :
    hitW md cmp q (cfg.hash (cfg.key q)) w = if hit cfg (cfg.key q) v tg then some v else none := by
  obtain ⟨hz, ht, hu⟩ := read_unm (fits_bits hq) hr
  have key : ∀ k, k = v →
      sameW cmp q k q = if cfg.key v = cfg.key q then some v else none := by
    intro k e; subst e; unfold sameW
    have hs := hc.same k q hv hq
    by_cases e : k = q
    · rw [if_pos e, if_pos (hs.1 (.inl e))]
    · rw [if_neg e]
      cases cmp with
      | none =>
        rw [if_neg]
        intro h
        rcases hs.2 h with h | ⟨c, h, _⟩
        · exact e h
        · cases h
      | some c =>
        by_cases hk : c k q = true
        · rw [if_pos (hs.1 (.inr ⟨c, rfl, hk⟩))]; simp [hk]
        · rw [if_neg]
          · simp [hk]
          · intro h
            rcases hs.2 h with h | ⟨c', h, h'⟩
            · exact e h
            · cases h; exact hk h'
  rw [hit, hc.tag]
  cases md with
  | none =>
    have htg : tg = 0 := by
      unfold read at hr; rw [if_neg hz, if_neg ht] at hr; cases hr; rfl
    have := key w hu
    simp only [hitW, tagOf, htg]
    refine this.trans ?_
    simp
  | some b =>
    obtain ⟨_, h1, h2, h3⟩ := hq
    have htg : w / 2 ^ b = tg := by
      unfold read at hr; rw [if_neg hz, if_neg ht] at hr; cases hr; rfl
    have hqq : vma b q = q := by rw [vma_eq h2, Nat.mod_eq_of_lt (by omega)]
    have := key (vma b w) hu
    simp only [hitW, keyMask_eq h1 h2, Nat.shiftRight_eq_div_pow, htg, tagOf, hqq]
    by_cases e : tg = cfg.hash (cfg.key q) / 2 ^ 25 % 2 ^ (64 - b)
    · rw [if_neg (fun h => h e)]
      refine this.trans ?_
      simp [e]
    · rw [if_pos e]; simp [e]

/-- The probe on words is the probe of the abstract model: all that is proved there about what is found, what is inserted where,
and when the probe ends holds for the words in memory. -/
theorem probe_words (md : Mode) (cmp : Option (Nat → Nat → Bool)) (cfg : Cfg K Nat) (hc : Calls md cmp cfg) (m : Map Nat)
    (ent : Nat → Nat) (he : ∀ x, read md (ent x) = m.ent x) (hg : Good md ent) (q : Nat) (hq : Fits md q) (beh : Beh)
    (opl fuel k lim : Nat) (pr : Option (Nat × Nat)) :
    probeLoopW md cmp m.mask m.step ent q (cfg.hash (cfg.key q)) beh opl fuel k lim pr
      = probeLoop cfg m (cfg.key q) beh opl fuel k lim pr := by
  induction fuel generalizing k lim pr with
  | zero => rfl
  | succ fuel ih =>
    rw [probeLoopW, probeLoop]
    simp only [slotAt]
    split
    · rfl
    · rw [← he]
      generalize hx : ent (slotIdx m.mask m.step (cfg.hash (cfg.key q)) k) = w
      by_cases hz : w = 0
      · rw [if_pos hz]; simp only [read, if_pos hz]
      · by_cases ht : w = tombstone
        · rw [if_neg hz, if_pos ht]
          simp only [read, if_neg hz, if_pos ht]
          cases pr with
          | some p => exact ih ..
          | none =>
            simp only
            split
            · rfl
            · exact ih ..
        · rw [if_neg hz, if_neg ht]
          obtain ⟨v, tg, hr⟩ : ∃ v tg, read md w = .full v tg := by
            cases md <;> simp [read, hz, ht]
          rw [hr, compare md cmp cfg hc q w v tg hq (hg _ v tg (hx ▸ hr)) hr]
          by_cases hh : hit cfg (cfg.key q) v tg = true
          · simp only [hh, if_true]
          · simp only [hh]; exact ih ..

omit [DecidableEq K] in
/-- A store of the writer on words is the store of the abstract model, if it is one of `ck_hs_marshal`. -/
theorem store_words (md : Mode) (cfg : Cfg K Nat) (ht : ∀ h, cfg.tag h = tagOf md h) (m : Map Nat)
    (ent : Nat → Nat) (he : ∀ x, read md (ent x) = m.ent x) (hg : Good md ent) (s : Stmt Nat)
    (hp : ∀ u c, s ≠ .publish u c)
    (hs : ∀ x v tg d, s = .store x v tg d → Fits md v ∧ tg = cfg.tag (cfg.hash (cfg.key v))) :
    (∀ x, read md (execW md (fun v => cfg.hash (cfg.key v)) ent s x) = (exec m s).ent x)
      ∧ Good md (execW md (fun v => cfg.hash (cfg.key v)) ent s) := by
  have htomb : read md tombstone = .tomb := by simp [read, tombstone]
  cases s with
  | store x v tg d =>
    obtain ⟨hf, e⟩ := hs x v tg d rfl
    have hst := stored md v (cfg.hash (cfg.key v)) hf
    refine ⟨fun y => ?_, fun y v' tg' h => ?_⟩
    · show read md (upd ent x _ y) = upd m.ent x _ y
      by_cases hy : y = x
      · subst hy; rw [upd_same, upd_same, hst, e, ht]
      · rw [upd_ne _ _ hy, upd_ne _ _ hy]; exact he y
    · change read md (upd ent x _ y) = _ at h
      by_cases hy : y = x
      · subst hy; rw [upd_same, hst] at h; cases h; exact hf
      · rw [upd_ne _ _ hy] at h; exact hg y v' tg' h
  | del x =>
    refine ⟨fun y => ?_, fun y v' tg' h => ?_⟩
    · show read md (upd ent x _ y) = upd m.ent x _ y
      by_cases hy : y = x
      · subst hy; rw [upd_same, upd_same, htomb]
      · rw [upd_ne _ _ hy, upd_ne _ _ hy]; exact he y
    · change read md (upd ent x _ y) = _ at h
      by_cases hy : y = x
      · subst hy; rw [upd_same, htomb] at h; cases h
      · rw [upd_ne _ _ hy] at h; exact hg y v' tg' h
  | publish u c => exact absurd rfl (hp u c)
  | setMax n => exact ⟨he, hg⟩
  | setBnd o n => exact ⟨he, hg⟩
  | sig p => exact ⟨he, hg⟩
  | cnt n => exact ⟨he, hg⟩

omit [DecidableEq K] in
theorem boundSet_ent (cfg : Cfg K Nat) (m : Map Nat) (u : Map Nat) (h n : Nat) :
    (execs u (boundSet cfg m h n)).ent = u.ent := by
  unfold boundSet
  split <;> (cases m.bnd with
    | none => simp [execs, exec]
    | some b => simp only; split <;> simp [execs, exec])

omit [DecidableEq K] in
/-- The copy of an entry by `ck_hs_grow` on words is that of the abstract model. -/
theorem copy_words (md : Mode) (cfg : Cfg K Nat) (u : Map Nat)
    (ent : Nat → Nat) (he : ∀ x, read md (ent x) = u.ent x) (hg : Good md ent) (w : Nat)
    (hw : ∀ v tg, read md w = .full v tg → Fits md v) :
    match copyW md (fun v => cfg.hash (cfg.key v)) u.mask u.step u.limit ent w, reinsert cfg u (read md w) with
    | none, none => True
    | some ent', some u' => (∀ x, read md (ent' x) = u'.ent x) ∧ Good md ent'
    | _, _ => False := by
  by_cases hz : w = 0 ∨ w = tombstone
  · rw [copyW, if_pos hz]
    rcases hz with h | h <;> subst h
    · exact ⟨he, hg⟩
    · have htomb : read md tombstone = .tomb := by simp [read, tombstone]
      rw [htomb]; exact ⟨he, hg⟩
  · obtain ⟨v, tg, hr⟩ : ∃ v tg, read md w = .full v tg := by
      have h1 : w ≠ 0 := fun e => hz (.inl e)
      have h2 : w ≠ tombstone := fun e => hz (.inr e)
      cases md <;> simp [read, h1, h2]
    have hf := hw v tg hr
    have hu := (read_unm (fits_bits hf) hr).2.2
    have hemp : ∀ x, decide (ent x = 0) = decide (u.ent x = .empty) := by
      intro x; rw [← he x, decide_eq_decide]
      constructor
      · intro e; simp [read, e]
      · intro e
        unfold read at e
        split at e
        · assumption
        · split at e
          · cases e
          · cases md <;> cases e
    have hfe : (fun k => decide (ent (slotIdx u.mask u.step (cfg.hash (cfg.key v)) k) = 0))
        = fun k => decide (u.ent (slotAt u (cfg.hash (cfg.key v)) k) = .empty) := funext fun k => hemp _
    rw [copyW, if_neg hz, hr, hu, hfe]
    unfold reinsert
    cases hfind : (List.range u.limit).find? fun k =>
        decide (u.ent (slotAt u (cfg.hash (cfg.key v)) k) = .empty) with
    | none => simp only [hfind]
    | some k =>
      simp only [hfind]
      refine ⟨fun x => ?_, fun x v' tg' h => ?_⟩
      · rw [boundSet_ent]
        show _ = upd _ (slotIdx u.mask u.step (cfg.hash (cfg.key v)) k) _ _
        by_cases hx : x = slotIdx u.mask u.step (cfg.hash (cfg.key v)) k
        · subst hx; rw [upd_same, upd_same, hr]
        · rw [upd_ne _ _ hx, upd_ne _ _ hx]; exact he x
      · by_cases hx : x = slotIdx u.mask u.step (cfg.hash (cfg.key v)) k
        · subst hx; rw [upd_same, hr] at h; cases h; exact hf
        · rw [upd_ne _ _ hx] at h; exact hg x v' tg' h

omit [DecidableEq K] in
theorem reinsert_shape {cfg : Cfg K Nat} {u u' : Map Nat} {s : Slot Nat} (h : reinsert cfg u s = some u') :
    u'.mask = u.mask ∧ u'.step = u.step ∧ u'.limit = u.limit := by
  have hb : ∀ (a m : Map Nat) (h n : Nat), (execs a (boundSet cfg m h n)).mask = a.mask
      ∧ (execs a (boundSet cfg m h n)).step = a.step ∧ (execs a (boundSet cfg m h n)).limit = a.limit := by
    intro a m h n
    unfold boundSet
    split <;> (cases m.bnd with
      | none => simp [execs, exec]
      | some b => simp only; split <;> simp [execs, exec])
  unfold reinsert at h
  split at h
  · simp only at h
    split at h
    · cases h
    · cases h; exact hb _ _ _ _
  · cases h; exact ⟨rfl, rfl, rfl⟩

omit [DecidableEq K] in
/-- `ck_hs_grow` on words is that of the abstract model: it fails on the same entries, and otherwise the words of the new map
stand for the entries of the new map. -/
theorem grow_words (md : Mode) (cfg : Cfg K Nat) (m : Map Nat) (old : Nat → Nat)
    (ho : ∀ x, read md (old x) = m.ent x) (hgo : Good md old) :
    ∀ (ks : List Nat) (u : Map Nat) (ent : Nat → Nat), (∀ x, read md (ent x) = u.ent x) → Good md ent →
    match rehashW md (fun v => cfg.hash (cfg.key v)) u.mask u.step u.limit old ks ent, rehash cfg m ks u with
    | none, none => True
    | some ent', some u' => (∀ x, read md (ent' x) = u'.ent x) ∧ Good md ent'
    | _, _ => False
  | [], u, ent, he, hg => ⟨he, hg⟩
  | k :: ks, u, ent, he, hg => by
    have h1 := copy_words md cfg u ent he hg (old k) (fun v tg h => hgo k v tg h)
    rw [ho] at h1
    unfold rehashW rehash
    cases hc : copyW md (fun v => cfg.hash (cfg.key v)) u.mask u.step u.limit ent (old k) with
    | none =>
      cases hr : reinsert cfg u (m.ent k) with
      | none => trivial
      | some u' => rw [hc, hr] at h1; exact h1.elim
    | some ent' =>
      cases hr : reinsert cfg u (m.ent k) with
      | none => rw [hc, hr] at h1; exact h1.elim
      | some u' =>
        rw [hc, hr] at h1
        obtain ⟨e1, e2, e3⟩ := reinsert_shape hr
        have := grow_words md cfg m old ho hgo ks u' ent' h1.1 h1.2
        rw [e1, e2, e3] at this
        exact this

/-- Iteration on words returns the objects of the abstract model. -/
theorem next_words (md : Mode) (m : Map Nat) (ent : Nat → Nat) (he : ∀ x, read md (ent x) = m.ent x) (hg : Good md ent)
    (fuel offset : Nat) : nextW md m.cap ent fuel offset = next m fuel offset := by
  induction fuel generalizing offset with
  | zero => rfl
  | succ fuel ih =>
    rw [nextW, next]
    split
    · rfl
    · rw [← he]
      by_cases hz : ent offset = 0
      · simp only [read, hz, ne_eq, not_true, false_and, if_false, if_true]; exact ih _
      · by_cases ht : ent offset = tombstone
        · simp only [ht, ne_eq, not_true, and_false, if_false]
          have htomb : read md tombstone = .tomb := by simp [read, tombstone]
          rw [htomb]; exact ih _
        · obtain ⟨v, tg, hr⟩ : ∃ v tg, read md (ent offset) = .full v tg := by
            cases md <;> simp [read, hz, ht]
          rw [if_pos ⟨hz, ht⟩, hr, (read_unm (fits_bits (hg _ v tg hr)) hr).2.2]

/-! ### The stores of the operations -/

omit [DecidableEq K]

/-- Every object that `l` stores satisfies `P` and is stored as `ck_hs_marshal` gives it. -/
def Mar {V : Type} (P : V → Prop) (cfg : Cfg K V) (l : List (Stmt V)) : Prop :=
  ∀ x v tg d, .store x v tg d ∈ l → P v ∧ tg = cfg.tag (cfg.hash (cfg.key v))

/-- The objects that the user gives to an operation. -/
def Gives {V : Type} : Op K V → V → Prop
  | .put v, w => w = v
  | .putUnique v, w => w = v
  | .set v, w => w = v
  | .fas v, w => w = v
  | .apply _ fn, w => ∃ o, fn o = some w
  | _, _ => False

section

variable {V : Type} {P : V → Prop}

theorem Mar.append {cfg : Cfg K V} {l l' : List (Stmt V)} (h : Mar P cfg l) (h' : Mar P cfg l') :
    Mar P cfg (l ++ l') := by
  intro x v tg d hm
  rcases List.mem_append.mp hm with h1 | h1
  · exact h x v tg d h1
  · exact h' x v tg d h1

theorem mar_nil {cfg : Cfg K V} : Mar P cfg [] := fun _ _ _ _ hm => by cases hm

theorem mar_boundSet (cfg : Cfg K V) (m : Map V) (h n : Nat) : Mar P cfg (boundSet cfg m h n) := by
  unfold boundSet
  apply Mar.append
  · intro x v tg d hm; split at hm <;> simp at hm
  · intro x v tg d hm; split at hm
    · simp at hm
    · split at hm <;> simp at hm

variable [DecidableEq V]

theorem mar_postinsert {cfg : Cfg K V} {m : Map V} {al : List Bool} {l : List (Stmt V)}
    (h : postinsert cfg m al = some l) : Mar P cfg l := by
  unfold postinsert at h
  simp only at h
  intro x v tg d hm
  split at h
  · split at h
    · cases h
    · cases h; simp at hm
    · cases h; simp at hm
  · cases h; simp at hm

theorem mar_setAt {cfg : Cfg K V} {m : Map V} {r : PR V} {w : V} {al : List Bool} {l : List (Stmt V)} (hw : P w)
    (hl : setAt cfg m r w al = some l) : Mar P cfg l := by
  have hst : Mar P cfg (storeAt cfg m r w) := by
    unfold storeAt
    apply (mar_boundSet cfg m _ _).append
    intro x v tg d hm
    split at hm
    · split at hm
      · simp at hm; rw [hm.2.1, hm.2.2.1]; exact ⟨hw, rfl⟩
      · simp at hm; rw [hm.2.1, hm.2.2.1]; exact ⟨hw, rfl⟩
    · simp at hm; rw [hm.2.1, hm.2.2.1]; exact ⟨hw, rfl⟩
    · simp at hm; rw [hm.2.1, hm.2.2.1]; exact ⟨hw, rfl⟩
    · simp at hm
  unfold setAt at hl
  simp only at hl
  split at hl
  · cases hl; exact hst
  · rw [Option.map_eq_some_iff] at hl
    obtain ⟨l', h1, h2⟩ := hl
    subst h2
    exact hst.append (mar_postinsert h1)

theorem mar_moveTo (cfg : Cfg K V) (r : PR V) (w : V) (hw : P w) : Mar P cfg (moveTo cfg r w) := by
  unfold moveTo
  intro x v tg d hm
  simp only at hm
  split at hm
  · simp at hm; rw [hm.2.1, hm.2.2.1]; exact ⟨hw, rfl⟩
  · simp at hm

theorem ent_moveTo (cfg : Cfg K V) (r : PR V) (m : Map V) (w : V) (hw : P w) (hm : ∀ x v tg, m.ent x = .full v tg → P v) :
    ∀ x v tg, (execs m (moveTo cfg r w)).ent x = .full v tg → P v := by
  unfold moveTo
  intro x v tg h
  simp only at h
  split at h
  · simp only [execs, List.foldl, exec] at h
    simp only [upd_apply] at h
    split at h
    · cases h
    · split at h
      · cases h; exact hw
      · exact hm x v tg h
  · exact hm x v tg h

variable [DecidableEq K]

theorem mar_withRoom {cfg : Cfg K V} {q : K} {beh : Beh}
    {f : Map V → PR V → List Bool → Option (List (Stmt V) × Res V)}
    (hf : ∀ m r al l res, f m r al = some (l, res) → Mar P cfg l) :
    ∀ fuel m al l res, withRoom cfg q beh f fuel m al = some (l, res) → Mar P cfg l := by
  intro fuel
  induction fuel with
  | zero => intro m al l res h; cases h
  | succ fuel ih =>
    intro m al l res h
    unfold withRoom at h
    split at h
    · cases h
    · split at h
      · split at h
        · cases h
        · cases h; exact mar_nil
        · next u al' hg =>
          rw [Option.map_eq_some_iff] at h
          obtain ⟨⟨l', res'⟩, h1, h2⟩ := h
          cases h2
          have := ih _ _ _ _ h1
          intro x v tg d hm
          rcases List.mem_cons.mp hm with h3 | h3
          · cases h3
          · exact this x v tg d h3
      · exact hf _ _ _ _ _ h

theorem mar_gcBody {cfg : Cfg K V} {full : Bool} {g g' : Gc V} {x : Nat} (h : gcBody cfg full g x = some g')
    (hg : Mar P cfg g.out ∧ ∀ x v tg, g.m.ent x = .full v tg → P v) :
    Mar P cfg g'.out ∧ ∀ x v tg, g'.m.ent x = .full v tg → P v := by
  unfold gcBody at h
  split at h
  · cases h; exact hg
  · split at h
    · next w tw he =>
      have hw := hg.2 _ _ _ he
      simp only at h
      split at h
      · cases h
      · split at h <;> cases h <;> exact ⟨hg.1.append (mar_moveTo cfg _ _ hw), ent_moveTo cfg _ _ _ hw hg.2⟩
    · cases h; exact hg

theorem mar_gcLoop {cfg : Cfg K V} {full : Bool} : ∀ (xs : List Nat) (g g' : Gc V), gcLoop cfg full xs g = some g' →
    (Mar P cfg g.out ∧ ∀ x v tg, g.m.ent x = .full v tg → P v) → Mar P cfg g'.out
  | [], _, _, h, hg => by cases h; exact hg.1
  | x :: xs, g, g', h, hg => by
    simp only [gcLoop, Option.bind_eq_some_iff] at h
    obtain ⟨g1, h1, h2⟩ := h
    exact mar_gcLoop xs g1 g' h2 (mar_gcBody h1 hg)

omit [DecidableEq V] [DecidableEq K] in
theorem mar_bnds {cfg : Cfg K V} (l : List Nat) (f : Nat → Nat) : Mar P cfg (l.map fun i => .setBnd i (f i)) := by
  intro x v tg d hm
  rw [List.mem_map] at hm
  obtain ⟨_, -, h⟩ := hm
  cases h

theorem mar_gc {cfg : Cfg K V} {m : Map V} {cycles seed : Nat} {al : List Bool} {l : List (Stmt V)} {res : Res V}
    (hm : ∀ x v tg, m.ent x = .full v tg → P v)
    (h : gc cfg m cycles seed al = some (l, res)) : Mar P cfg l := by
  unfold gc at h
  simp only at h
  split at h
  · cases h
    intro x v tg d hm
    rcases List.mem_cons.mp hm with h1 | h1
    · cases h1
    · split at h1
      · exact mar_bnds _ _ x v tg d h1
      · cases h1
  · have hgo : ∀ {g : Gc V}, gcLoop cfg (decide (cycles = 0)) ((List.range m.cap).map fun i => (i + seed) &&& m.mask)
        ⟨[], m, cycles, false, if decide (cycles = 0) then 0 else m.maxi, fun _ => 0⟩ = some g →
        Mar P cfg (g.out ++ (if g.maxi ≠ g.m.maxi then [.setMax g.maxi] else []) ++
          (if decide (cycles = 0) ∧ m.bnd.isSome then (List.range m.cap).map fun i => .setBnd i (g.bnds i) else [])) := by
      intro g hg
      refine ((mar_gcLoop _ _ _ hg ⟨mar_nil, hm⟩).append ?_).append ?_
      · split
        · intro x v tg d hm; simp at hm
        · exact mar_nil
      · split
        · exact mar_bnds _ _
        · exact mar_nil
    split at h
    · split at h
      · cases h
      · cases h; exact mar_nil
      · split at h
        · cases h
        · next g hg => cases h; exact hgo hg
    · split at h
      · cases h
      · next g hg => cases h; exact hgo hg

/-- Every store of an operation is one of `ck_hs_marshal` (the hypothesis of `store_words`): the bits of the hash belong to the
object stored, and the object is one that the user gave to this operation or that is in the map. -/
theorem marshalled {cfg : Cfg K V} {m : Map V} {al : List Bool} {op : Op K V} {l : List (Stmt V)} {res : Res V}
    (hp : ∀ w, Gives op w → P w) (hm : ∀ x v tg, m.ent x = .full v tg → P v)
    (h : prog cfg m al op = some (l, res)) : Mar P cfg l := by
  have hput : ∀ w, P w → ∀ m r al l res, putTail cfg w m r al = some (l, res) → Mar P cfg l := by
    intro w hw m r al l res h
    unfold putTail at h
    split at h
    · cases h; exact mar_nil
    · rw [Option.map_eq_some_iff] at h
      obtain ⟨l', h1, h2⟩ := h
      cases h2
      exact mar_setAt hw h1
  have hgrow : ∀ c, growOp cfg m c al = some (l, res) → Mar P cfg l := by
    intro c h
    unfold growOp at h
    intro x v tg d hm
    split at h
    · cases h
    · cases h; cases hm
    · cases h; simp at hm
  have hreset : ∀ c, resetOp cfg c al = some (l, res) → Mar P cfg l := by
    intro c h
    unfold resetOp at h
    intro x v tg d hm
    split at h
    · cases h
    · cases h; cases hm
    · cases h; simp at hm
  cases op with
  | put w => exact mar_withRoom (hput w (hp w rfl)) _ _ _ _ _ h
  | putUnique w => exact mar_withRoom (hput w (hp w rfl)) _ _ _ _ _ h
  | set w =>
    refine mar_withRoom ?_ _ _ _ _ _ h
    intro m r al l res h
    unfold setTail at h
    rw [Option.map_eq_some_iff] at h
    obtain ⟨l', h1, h2⟩ := h
    cases h2
    exact mar_setAt (hp w rfl) h1
  | fas w =>
    simp only [prog, fas] at h
    split at h
    · cases h
    · split at h
      · cases h; exact mar_nil
      · split at h
        · cases h; exact mar_moveTo cfg _ _ (hp w rfl)
        · cases h; intro x v tg d hm; simp at hm; rw [hm.2.1, hm.2.2.1]; exact ⟨hp w rfl, rfl⟩
        · cases h
  | remove q =>
    simp only [prog, remove] at h
    split at h
    · cases h
    · split at h <;> cases h <;> intro x v tg d hm <;> simp at hm
  | apply q fn =>
    refine mar_withRoom ?_ _ _ _ _ _ h
    intro m r al l res h
    unfold applyTail at h
    split at h
    · split at h <;> cases h <;> intro x v tg d hm <;> simp at hm
    · next w hfn =>
      split at h
      · cases h; exact mar_nil
      · rw [Option.map_eq_some_iff] at h
        obtain ⟨l', h1, h2⟩ := h
        cases h2
        exact mar_setAt (hp w ⟨_, hfn⟩) h1
  | grow c => exact hgrow c h
  | rebuild => exact hgrow _ h
  | gc a b => exact mar_gc hm h
  | reset => exact hreset _ h
  | resetSize c => exact hreset _ h

end

/-! ## Cases and limits -/

/-- 48 bits, an address of a user process: hypotheses of `stored`, and the word. -/
theorem stored_case : Fits (some 48) 0x7f3a12345678 ∧
    marshal (some 48) 0x7f3a12345678 0xdeadbeefcafef00d = 0x77e57f3a12345678 := by
  refine ⟨⟨by decide, by decide, by decide, by decide⟩, by decide⟩

/-- Callbacks for `Calls`: objects are the same if their addresses agree but for the lowest bit. -/
theorem calls_case (md : Mode) : Calls md (some fun p q => p / 2 == q / 2)
    { key := fun p => p / 2, hash := id, tag := tagOf md, del := false, wmax := 255 } :=
  ⟨fun p q _ _ => by
    constructor
    · rintro (h | ⟨c, h, h'⟩)
      · rw [h]
      · cases h; exact of_decide_eq_true h'
    · intro h; exact .inr ⟨_, rfl, by simpa using h⟩, fun _ => rfl⟩

/-- A map of 8 entries with one object, at the second probe behind a deleted entry: hypotheses of `probe_words`, `grow_words` and
`next_words`, and what they give. -/
theorem words_case :
    let h := 0xdeadbeefcafef00d
    let ent := upd (upd (fun _ => 0) 5 tombstone) 6 (marshal (some 48) 0x7f3a12345678 h)
    Good (some 48) ent
      ∧ (probeLoopW (some 48) none 7 4 ent 0x7f3a12345678 h .probe 2 3 0 2 none).map (fun r => (r.obj, r.cur, r.pr))
        = some (some 0x7f3a12345678, some 6, some 5)
      ∧ nextW (some 48) 8 ent 9 0 = some (0x7f3a12345678, 7)
      ∧ (rehashW (some 48) id 15 5 64 ent (List.range 8) (fun _ => 0)).map (fun e => e 8) = some (ent 6) := by
  refine ⟨?_, by decide +kernel, by decide +kernel, by decide +kernel⟩
  intro x v tg h
  by_cases h6 : x = 6
  · subst h6; rw [upd_same, stored _ _ _ stored_case.1] at h; cases h; exact stored_case.1
  · rw [upd_ne _ _ h6] at h
    by_cases h5 : x = 5
    · subst h5; rw [upd_same] at h; simp [read, tombstone] at h
    · rw [upd_ne _ _ h5] at h; simp [read] at h

/-- An address with bits above `CK_MD_VMA_BITS` (an address of a kernel, or one tagged in its upper byte) is not what the
set returns. -/
theorem high_lost : unmarshal (some 48) (marshal (some 48) 0xffff888012345678 7) = 0x888012345678 := by decide

/-- Two objects whose addresses agree below are taken for one, whatever the comparison callback says, if the bits of their hashes
that are stored agree. -/
theorem high_confused (cmp : Option (Nat → Nat → Bool)) (b p h h' : Nat) (h0 : 32 < b) (hb : b < 64)
    (hh : tagOf (some b) h = tagOf (some b) h') (j : Nat) :
    hitW (some b) cmp (p + j * 2 ^ b) h' (marshal (some b) p h) = some (p % 2 ^ b) := by
  have h1 : marshal (some b) p h >>> b = h' / 2 ^ 25 % 2 ^ (64 - b) := by
    rw [Nat.shiftRight_eq_div_pow, marshal_high hb]; exact hh
  simp only [hitW, keyMask_eq h0 hb, h1, vma_eq hb, marshal_low hb, Nat.shiftRight_eq_div_pow, Nat.add_mul_mod_self_right,
    sameW]
  simp

/-- The bound of `Fits` is needed: the last address of `CK_MD_VMA_BITS` bits with a hash of all ones is taken for a deleted
entry. -/
theorem last_deleted (b h : Nat) (hb : b < 64) (hh : h / 2 ^ 25 % 2 ^ (64 - b) = 2 ^ (64 - b) - 1) :
    read (some b) (marshal (some b) (2 ^ b - 1) h) = .tomb := by
  have hp := Nat.two_pow_pos b
  have hq := Nat.two_pow_pos (64 - b)
  have h64 : (2 : Nat) ^ 64 = 2 ^ (64 - b) * 2 ^ b := by rw [← Nat.pow_add]; congr 1; omega
  have e : marshal (some b) (2 ^ b - 1) h = tombstone := by
    rw [marshal_eq hb, hh, Nat.mod_eq_of_lt (by omega), tombstone, h64, Nat.sub_mul, Nat.one_mul]
    have := Nat.le_mul_of_pos_left (2 ^ b) hq
    omega
  rw [e]; simp [read, tombstone]

end Verif.Hs.Pack
