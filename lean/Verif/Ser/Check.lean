import Verif.Ser.Hash

/-!
# Checked deserialization of arbitrary bytes
-/
set_option linter.unusedSimpArgs false
set_option linter.unusedSectionVars false

namespace Cista.Ser

/-! ## Specification -/

/-- `n` bytes at `a` lie in the buffer and are aligned. -/
def InB (d : DEnv) (a n al : Nat) : Prop := d.lo ≤ a ∧ a + n ≤ d.hi ∧ a % al = 0

/-- A value that can be used without leaving the buffer: every object lies in the buffer, properly aligned; every flag is a valid
bool and no container claims to own memory; sizes agree with the element storage; the control bytes of a hash table agree with its
counters and follow its entries, the slots in use hold such values; indices select an alternative; pointers are null
or designate an object in the buffer (`void*` may hold anything).  Pointees of pointer members are not followed. -/
def Safe (d : DEnv) (m : Mem) : Ty → Nat → Prop
  | .int w, a => InB d a w w
  | .blob s al, a => InB d a s al
  | .ptr p, a => InB d a 8 8 ∧
      match p, ptrAt d.host d.raw m a with
      | .void, _ => True
      | .obj _, none => True
      | .obj n, some x => InB d x (d.obj n).1 (d.obj n).2
  | .vec sw _ t, a => InB d a (16 + 2 * sw) 8 ∧ m (a + 8 + 2 * sw) = 0#8 ∧
      rdN d.host m (a + 8 + sw) sw = rdN d.host m (a + 8) sw ∧
      match ptrAt d.host d.raw m a with
      | none => rdN d.host m (a + 8) sw = 0
      | some el => 0 < rdN d.host m (a + 8) sw ∧ InB d el (rdN d.host m (a + 8) sw * t.sizeof) t.alignof ∧
          ∀ i, i < rdN d.host m (a + 8) sw → Safe d m t (el + i * t.sizeof)
  | .str, a => InB d a 16 8 ∧ (m a = 1#8 ∨
      (m a = 0#8 ∧ m (a + 1) = 0#8 ∧
        match ptrAt d.host d.raw m (a + 8) with
        | none => rdN d.host m (a + 4) 4 = 0
        | some x => 0 < rdN d.host m (a + 4) 4 ∧ InB d x (rdN d.host m (a + 4) 4) 1))
  | .uptr t, a => InB d a 16 8 ∧ m (a + 8) = 0#8 ∧
      match ptrAt d.host d.raw m a with
      | none => True
      | some el => Safe d m t el
  | .hash t, a => InB d a 48 8 ∧ m (a + 40) = 0#8 ∧ ∃ c, ptrAt d.host d.raw m (a + 8) = some c ∧
      InB d c (rdN d.host m (a + 24) 8 + 9) 1 ∧
      HTable (ctl m c (rdN d.host m (a + 24) 8 + 9)) (rdN d.host m (a + 24) 8) (rdN d.host m (a + 16) 8) (rdN d.host m (a + 32) 8) ∧
      match ptrAt d.host d.raw m a with
      | none => rdN d.host m (a + 24) 8 = 0 ∧ rdN d.host m (a + 16) 8 = 0
      | some el => 0 < rdN d.host m (a + 24) 8 ∧ c = el + rdN d.host m (a + 24) 8 * t.sizeof ∧
          InB d el (rdN d.host m (a + 24) 8 * t.sizeof + (rdN d.host m (a + 24) 8 + 9)) t.alignof ∧
          ∀ i, i < rdN d.host m (a + 24) 8 → Full m c i → Safe d m t (el + i * t.sizeof)
  | .opt t, a => InB d a (t.alignof + t.sizeof) t.alignof ∧ (m a = 0#8 ∨ (m a = 1#8 ∧ Safe d m t (a + t.alignof)))
  | .var ib so s al n t, a => InB d a s al ∧ ∃ i : Fin n, rdN d.host m a ib = i.1 ∧ Safe d m (t i) (a + so)
  | .arr n t, a => InB d a (n * t.sizeof) t.alignof ∧ ∀ i, i < n → Safe d m t (a + i * t.sizeof)
  | .idx t, a => Safe d m t a
  | .agg s al n off t, a => InB d a s al ∧ ∀ i : Fin n, Safe d m (t i) (a + off i)

/-! ## Facts about layouts -/

theorem Ty.pos_of_WF : ∀ {t : Ty}, t.WF → 0 < t.alignof ∧ 0 < t.sizeof ∧ t.alignof ∣ t.sizeof := by
  intro t
  induction t with
  | int w =>
    intro h
    simp only [Ty.WF] at h
    simp only [Ty.alignof, Ty.sizeof, Nat.dvd_refl, and_true]
    omega
  | blob s al => intro h; exact ⟨h.2.1, h.1, h.2.2⟩
  | ptr p => intro _; simp [Ty.alignof, Ty.sizeof]
  | vec sw ix t _ =>
    intro h
    simp only [Ty.alignof, Ty.sizeof]
    refine ⟨by omega, by omega, ?_⟩
    rcases h.1 with e | e <;> subst e <;> decide
  | str => intro _; simp [Ty.alignof, Ty.sizeof]
  | uptr t _ => intro _; simp [Ty.alignof, Ty.sizeof]
  | hash t _ => intro _; simp only [Ty.alignof, Ty.sizeof]; decide
  | opt t ih =>
    intro h
    have := ih h
    simp only [Ty.alignof, Ty.sizeof]
    exact ⟨this.1, by omega, Nat.dvd_add (Nat.dvd_refl _) this.2.2⟩
  | var ib so s al n t _ =>
    intro h
    simp only [Ty.WF] at h
    exact ⟨h.2.2.2.1, h.2.2.2.2.2.2.2.1, h.2.2.2.2.1⟩
  | arr n t ih =>
    intro h
    have := ih h.2
    simp only [Ty.alignof, Ty.sizeof]
    exact ⟨this.1, Nat.mul_pos h.1 this.2.1, Nat.dvd_trans this.2.2 (Nat.dvd_mul_left _ _)⟩
  | idx t ih => intro h; exact ih h
  | agg s al n off t _ => intro h; exact ⟨h.2.1, h.1, h.2.2.1⟩

/-! ## Checks -/

/-- Assumptions on a checked deserialization: checks enabled, buffer in the lower half of the address space (as on x86-64 and
AArch64), signed overflow in `offset_ptr::get` wraps. -/
structure DEnv.Checked (d : DEnv) : Prop where
  chk : d.unchecked = false
  wrap : d.strict = false
  lo : 0 < d.lo
  hi : d.hi < 2 ^ 63

variable {d : DEnv}

theorem ld_ok {m : Mem} {a n al : Nat} (h : InB d a n al) : ld d m a n al = .ok (rd m a n) := by
  unfold ld
  exact if_pos h

theorem st_ok {m : Mem} {a al : Nat} {bs : List Byte} (h : InB d a bs.length al) : st d m a al bs = .ok (wr m a bs) := by
  unfold st
  exact if_pos h

/-- A part of an aligned object. -/
theorem InB.sub {a n al k w al' : Nat} (h : InB d a n al) (hk : k + w ≤ n) (hd : al' ∣ al) (hk' : al' ∣ k) :
    InB d (a + k) w al' := by
  obtain ⟨h1, h2, h3⟩ := h
  refine ⟨by omega, by omega, ?_⟩
  exact Nat.mod_eq_zero_of_dvd (Nat.dvd_add (Nat.dvd_trans hd (Nat.dvd_of_mod_eq_zero h3)) hk')

theorem InB.head {a n al w al' : Nat} (h : InB d a n al) (hk : w ≤ n) (hd : al' ∣ al) : InB d a w al' := by
  have := h.sub (k := 0) (w := w) (al' := al') (by omega) hd (Nat.dvd_zero _)
  simpa using this

/-- serialization.h:612-635: a passed check. -/
theorem checkAddr_tri (hd : d.Checked) {x : Int} (hx : -(2 ^ 63) ≤ x ∧ x < 2 ^ 63) (size al : Nat) :
    Tri (checkAddr d x size al) fun _ => x = 0 ∨ (0 < x ∧ d.lo ≤ x.toNat ∧ x.toNat + size ≤ d.hi ∧ (al = 0 ∨ x.toNat % al = 0)) := by
  unfold checkAddr
  rw [hd.chk]
  rw [if_neg (by decide)]
  by_cases h0 : x = 0
  · rw [if_pos h0]; exact Or.inl h0
  · rw [if_neg h0]
    refine Tri.bind (Tri.verify _) fun _ _ h1 => ?_
    rw [add64 hx (toS64_range size)]
    have h1 := of_decide_eq_true h1
    have hlo := hd.lo
    split
    · rw [ok_bind]
      refine Tri.bind (Tri.verify _) fun _ _ h2 => ?_
      refine Tri.bind (Tri.verify _) fun _ _ h3 => ?_
      have h2 := of_decide_eq_true h2
      have h3 := of_decide_eq_true h3
      rw [toS64_of_lt (by omega)] at h2
      refine Tri.mono (Tri.verify _) fun _ h4 => ?_
      have h4 := of_decide_eq_true h4
      refine Or.inr ⟨by omega, by omega, by omega, ?_⟩
      rcases h4 with h4 | h4
      · exact Or.inl h4
      · right
        obtain ⟨k, rfl⟩ := Int.eq_ofNat_of_zero_le (show 0 ≤ x by omega)
        rw [← Int.natCast_emod] at h4
        rw [Int.toNat_natCast]
        exact Int.natCast_eq_zero.1 h4
    · rw [error_bind]; exact Tri.exn

theorem checkAddr_nat (hd : d.Checked) {a : Nat} (ha : 0 < a ∧ a < 2 ^ 63) {size al : Nat} (hal : 0 < al) :
    Tri (checkAddr d a size al) fun _ => InB d a size al := by
  refine Tri.mono (checkAddr_tri hd (by omega) size al) fun _ h => ?_
  rcases h with h | ⟨h1, h2, h3, h4⟩
  · omega
  · simp only [Int.toNat_natCast] at h2 h3 h4
    exact ⟨h2, h3, by omega⟩

/-- A pointer object whose value has passed its check. -/
def PtrOk (d : DEnv) (m : Mem) (a size al : Nat) : Prop :=
  (loadPtr d m a = .ok 0 ∧ ptrAt d.host d.raw m a = none) ∨
    ∃ x : Nat, 0 < x ∧ loadPtr d m a = .ok (x : Int) ∧ ptrAt d.host d.raw m a = some x ∧ InB d x size al

theorem checkPtrAt_raw (hd : d.Checked) (hr : d.raw = true) {m : Mem} {a size al : Nat} (ha : InB d a 8 8) (hal : 0 < al) :
    Tri (checkPtrAt d m a size al) fun _ => PtrOk d m a size al := by
  unfold checkPtrAt
  rw [if_pos hr]
  have e : loadPtr d m a = .ok (decI d.host (rd m a 8)) := by
    unfold loadPtr
    rw [ld_ok ha, ok_bind, if_pos hr]
  rw [e, ok_bind]
  have hrg := decI_range d.host (rd m a 8)
  refine Tri.mono (checkAddr_tri hd hrg size al) fun _ h => ?_
  have hlt : rdN d.host m a 8 < 2 ^ 64 := by
    have := ofHost_lt d.host (rd m a 8)
    rw [length_rd] at this
    exact this
  have hs : decI d.host (rd m a 8) = toS64 (rdN d.host m a 8) := rfl
  have hs' : toS64 (rdN d.host m a 8) = if rdN d.host m a 8 < 2 ^ 63 then (rdN d.host m a 8 : Int) else (rdN d.host m a 8 : Int) - 2 ^ 64 := by
    unfold toS64
    rw [Nat.mod_eq_of_lt hlt]
  rcases h with h | ⟨h1, h2, h3, h4⟩
  · left
    refine ⟨by rw [e, h], ?_⟩
    unfold ptrAt
    rw [if_pos hr, if_pos]
    rw [hs, hs'] at h
    split at h <;> omega
  · right
    refine ⟨(decI d.host (rd m a 8)).toNat, by omega, by rw [e, Int.toNat_of_nonneg (by omega)], ?_, h2, h3, by omega⟩
    unfold ptrAt
    rw [if_pos hr]
    rw [hs, hs'] at h1 ⊢
    split at h1
    · rename_i h5
      rw [if_pos h5]
      rw [if_neg (by omega)]
      simp
    · omega

theorem checkPtrAt_off (hd : d.Checked) (hr : d.raw = false) {m : Mem} {a size al : Nat} (ha : InB d a 8 8) (hal : 0 < al) :
    Tri (checkPtrAt d m a size al) fun _ => PtrOk d m a size al := by
  have hhi := hd.hi
  have hlo := hd.lo
  obtain ⟨ha1, ha2, ha3⟩ := id ha
  have hrg := decI_range d.host (rd m a 8)
  have e : loadPtr d m a = (if decI d.host (rd m a 8) = NULLO then .ok 0
      else if (a : Int) + decI d.host (rd m a 8) < 2 ^ 63 then .ok ((a : Int) + decI d.host (rd m a 8))
      else .ok ((a : Int) + decI d.host (rd m a 8) - 2 ^ 64) : Res Int) := by
    unfold loadPtr
    rw [ld_ok ha, ok_bind, hr, hd.wrap]
    simp only [Bool.false_eq_true, if_false]
  have ep : ptrAt d.host d.raw m a = (if decI d.host (rd m a 8) = NULLO then none
      else if (a : Int) + decI d.host (rd m a 8) ≤ 0 then none
      else some ((a : Int) + decI d.host (rd m a 8)).toNat) := by
    unfold ptrAt
    rw [hr]
    simp only [Bool.false_eq_true, if_false]
  unfold checkPtrAt PtrOk
  rw [ep]
  rw [ld_ok ha, hr]
  simp only [Bool.false_eq_true, if_false]
  rw [if_neg (show ¬ al = 0 by omega)]
  generalize ho : decI d.host (rd m a 8) = o at hrg e ⊢
  rw [NULLO_eq] at e ⊢
  by_cases h1 : o = -(2 ^ 63)
  · rw [if_pos h1] at e
    rw [e, ok_bind, if_pos rfl]
    refine Tri.ok (Or.inl ⟨rfl, ?_⟩)
    rw [if_pos h1]
  · rw [if_neg h1] at e
    rw [if_neg h1]
    by_cases h2 : (a : Int) + o < 2 ^ 63
    · rw [if_pos h2] at e
      rw [e, ok_bind]
      by_cases h3 : (a : Int) + o = 0
      · rw [if_pos h3]
        refine Tri.ok (Or.inl ⟨by rw [h3], ?_⟩)
        rw [if_pos (by omega)]
      · rw [if_neg h3, ok_bind, ho, add64 hrg (by omega), if_pos (by omega), ok_bind, ok_bind]
        refine Tri.mono (checkAddr_tri hd (by omega) size al) fun _ h => ?_
        rcases h with h | ⟨g1, g2, g3, g4⟩
        · exact absurd h h3
        · right
          refine ⟨((a : Int) + o).toNat, by omega, by rw [Int.toNat_of_nonneg (by omega)], ?_, g2, g3, by omega⟩
          rw [if_neg (by omega)]
    · rw [if_neg h2] at e
      rw [e, ok_bind, if_neg (by omega), ok_bind, ho, add64 hrg (by omega), if_neg (by omega), error_bind]
      exact Tri.exn

theorem checkPtrAt_tri (hd : d.Checked) {m : Mem} {a size al : Nat} (ha : InB d a 8 8) (hal : 0 < al) :
    Tri (checkPtrAt d m a size al) fun _ => PtrOk d m a size al := by
  cases hr : d.raw
  · exact checkPtrAt_off hd hr ha hal
  · exact checkPtrAt_raw hd hr ha hal

/-! ## Conversion steps -/

/-- Memory outside the buffer is untouched; nothing at all changes with offset pointers in host byte order. -/
def Kept (d : DEnv) (m m' : Mem) : Prop :=
  (∀ x, x < d.lo ∨ d.hi ≤ x → m' x = m x) ∧ (d.conv = false → d.raw = false → m' = m)

theorem Kept.refl (m : Mem) : Kept d m m := ⟨fun _ _ => rfl, fun _ _ => rfl⟩

theorem Kept.trans {m1 m2 m3 : Mem} (h1 : Kept d m1 m2) (h2 : Kept d m2 m3) : Kept d m1 m3 :=
  ⟨fun x hx => (h2.1 x hx).trans (h1.1 x hx), fun a b => (h2.2 a b).trans (h1.2 a b)⟩

theorem Kept.wr {m : Mem} {a al : Nat} {bs : List Byte} (h : InB d a bs.length al) (hm : d.conv = true ∨ d.raw = true) :
    Kept d m (wr m a bs) :=
  ⟨fun x hx => wr_out (by obtain ⟨h1, h2, _⟩ := h; omega), fun h1 h2 => by
    rcases hm with h | h
    · rw [h] at h1; cases h1
    · rw [h] at h2; cases h2⟩

theorem convInt_ok {m : Mem} {a w : Nat} (h : InB d a w w) :
    ∃ m', convInt d a w m = .ok m' ∧ Kept d m m' ∧ (∀ x, x < a ∨ a + w ≤ x → m' x = m x) ∧ rd m' a w = cv d.conv (rd m a w) := by
  unfold convInt
  cases hc : d.conv
  · exact ⟨m, rfl, Kept.refl m, fun _ _ => rfl, by simp [cv]⟩
  · have h' : InB d a (rd m a w).reverse.length w := by simpa using h
    rw [if_pos rfl, ld_ok h, ok_bind, st_ok h']
    refine ⟨_, rfl, Kept.wr h' (Or.inl hc), fun x hx => wr_out (by simpa using hx), ?_⟩
    rw [rd_wr_same' _ _ _ _ (by simp)]
    simp [cv]

theorem convPtr_tri (hd : d.Checked) {m : Mem} {a : Nat} (h : InB d a 8 8) : Tri (convPtr d a m) (Kept d m) := by
  have hhi := hd.hi
  have hlo := hd.lo
  obtain ⟨ha1, ha2, _⟩ := id h
  unfold convPtr
  cases hr : d.raw
  · obtain ⟨m', e, hk, _⟩ := convInt_ok (m := m) h
    rw [if_neg (by decide), e]
    exact hk
  · rw [if_pos rfl, ld_ok h, ok_bind]
    by_cases h1 : decI d.host (cv d.conv (rd m a 8)) = NULLO
    · rw [if_pos h1, st_ok (by simpa using h)]
      exact Kept.wr (bs := encI d.host 0) (al := 8) (by simpa using h) (Or.inr hr)
    · rw [if_neg h1, add64 (by omega) (decI_range _ _)]
      split
      · rw [ok_bind, st_ok (by simpa using h)]
        exact Kept.wr (al := 8) (by simpa using h) (Or.inr hr)
      · rw [error_bind]; exact Tri.exn

theorem deserPtr_tri (hd : d.Checked) {m : Mem} {a size al : Nat} (ha : 0 < a ∧ a < 2 ^ 63) (hal : 0 < al) :
    Tri (deserPtr d size al a m) fun m' => Kept d m m' ∧ InB d a 8 8 ∧ PtrOk d m' a size al := by
  unfold deserPtr
  refine Tri.bind (checkAddr_nat hd ha (by decide)) fun _ _ h1 => ?_
  refine Tri.bind (convPtr_tri hd h1) fun m' _ h2 => ?_
  have : (d.unchecked || (d.raw && al == 0)) = false := by
    rw [hd.chk, show (al == 0) = false by simp; omega]; simp
  rw [this, if_neg (by decide)]
  refine Tri.bind (checkPtrAt_tri hd h1 hal) fun _ _ h3 => ?_
  exact ⟨h2, h1, h3⟩

theorem deserPtr_void (hd : d.Checked) {m : Mem} {a : Nat} (ha : 0 < a ∧ a < 2 ^ 63) :
    Tri (deserPtr d 0 0 a m) fun m' => Kept d m m' ∧ InB d a 8 8 := by
  have hhi := hd.hi
  have hlo := hd.lo
  unfold deserPtr
  refine Tri.bind (checkAddr_nat hd ha (by decide)) fun _ _ h1 => ?_
  refine Tri.bind (convPtr_tri hd h1) fun m' _ h2 => ?_
  rw [hd.chk]
  cases hr : d.raw
  · rw [if_neg (by decide)]
    obtain ⟨ha1, ha2, _⟩ := id h1
    refine Tri.bind (P := fun _ => True) ?_ fun _ _ _ => ⟨h2, h1⟩
    unfold checkPtrAt
    rw [hr, if_neg (by decide), if_pos rfl, ld_ok h1, ok_bind]
    have hrg := decI_range d.host (rd m' a 8)
    split
    · exact trivial
    · rename_i h3
      rw [add64 hrg (by omega)]
      split
      · rename_i h4
        rw [ok_bind]
        have e : loadPtr d m' a = .ok ((a : Int) + decI d.host (rd m' a 8)) := by
          unfold loadPtr
          rw [ld_ok h1, ok_bind, hr]
          simp only [Bool.false_eq_true, if_false]
          rw [if_neg h3, if_pos (by omega)]
        rw [e, ok_bind]
        exact Tri.mono (checkAddr_tri hd (by omega) 0 0) fun _ _ => trivial
      · rw [error_bind]; exact Tri.exn
  · exact ⟨h2, h1⟩

theorem ldN_ok {m : Mem} {a w : Nat} (h : InB d a w w) : ldN d m a w = .ok (rdN d.host m a w) := by
  unfold ldN
  rw [ld_ok h, ok_bind]
  rfl

theorem rdN_one (h : Endian) (m : Mem) (a : Nat) : rdN h m a 1 = (m a).toNat := by
  unfold rdN
  rw [rd_one]
  cases h <;> simp [ofHost, ofLE]

theorem checkBool_tri {m : Mem} {a : Nat} (h : InB d a 1 1) : Tri (checkBool d m a) fun _ => m a = 0#8 ∨ m a = 1#8 := by
  unfold checkBool
  rw [ldN_ok h, ok_bind]
  refine Tri.mono (Tri.verify _) fun _ h1 => ?_
  have h1 := of_decide_eq_true h1
  rw [rdN_one] at h1
  rcases Nat.le_one_iff_eq_zero_or_eq_one.1 h1 with h1 | h1
  · left; exact BitVec.eq_of_toNat_eq (by rw [h1]; rfl)
  · right; exact BitVec.eq_of_toNat_eq (by rw [h1]; rfl)

theorem checkNotOwned_tri {m : Mem} {a : Nat} (h : InB d a 1 1) : Tri (checkNotOwned d m a) fun _ => m a = 0#8 := by
  unfold checkNotOwned
  refine Tri.bind (checkBool_tri h) fun _ _ _ => ?_
  rw [ldN_ok h, ok_bind]
  refine Tri.mono (Tri.verify _) fun _ h1 => ?_
  have h1 := of_decide_eq_true h1
  rw [rdN_one] at h1
  exact BitVec.eq_of_toNat_eq (by rw [h1]; rfl)

theorem rdN_lt (h : Endian) (m : Mem) (a n : Nat) : rdN h m a n < 256 ^ n := by
  have := ofHost_lt h (rd m a n)
  rw [length_rd] at this
  exact this

/-- serialization.h:795-806: a passed vector check. -/
theorem checkVec_tri (hd : d.Checked) {m : Mem} {sw size al a : Nat} (hsw : sw = 4 ∨ sw = 8) (hsz : size < 2 ^ 64)
    (hal : 0 < al) (h : InB d a (16 + 2 * sw) 8) :
    Tri (checkVec d sw size al a m) fun _ => m (a + 8 + 2 * sw) = 0#8 ∧
      rdN d.host m (a + 8 + sw) sw = rdN d.host m (a + 8) sw ∧
      ((loadPtr d m a = .ok 0 ∧ ptrAt d.host d.raw m a = none ∧ rdN d.host m (a + 8) sw = 0) ∨
        ∃ x : Nat, 0 < x ∧ loadPtr d m a = .ok (x : Int) ∧ ptrAt d.host d.raw m a = some x ∧ 0 < rdN d.host m (a + 8) sw ∧
          InB d x (rdN d.host m (a + 8) sw * size) al) := by
  have hi1 : InB d (a + 8 + sw) sw sw := by
    have := h.sub (k := 8 + sw) (w := sw) (al' := sw) (by omega) (by rcases hsw with e | e <;> subst e <;> decide)
      (by rcases hsw with e | e <;> subst e <;> decide)
    rw [← Nat.add_assoc] at this; exact this
  have hi2 : InB d (a + 8) sw sw := h.sub (by omega) (by rcases hsw with e | e <;> subst e <;> decide)
    (by rcases hsw with e | e <;> subst e <;> decide)
  have hi3 : InB d (a + 8 + 2 * sw) 1 1 := by
    have := h.sub (k := 8 + 2 * sw) (w := 1) (al' := 1) (by omega) (Nat.one_dvd _) (Nat.one_dvd _)
    rw [← Nat.add_assoc] at this; exact this
  have hi4 : InB d a 8 8 := h.head (by omega) (Nat.dvd_refl _)
  have hlt : rdN d.host m (a + 8 + sw) sw < 2 ^ 64 := by
    have := rdN_lt d.host m (a + 8 + sw) sw
    rcases hsw with e | e <;> subst e
    · have e1 : (256:Nat) ^ 4 = 2 ^ 32 := by decide
      omega
    · have e1 : (256:Nat) ^ 8 = 2 ^ 64 := by decide
      omega
  unfold checkVec
  rw [ldN_ok hi1, ok_bind, mul64 hlt hsz]
  split
  · rw [ok_bind]
    refine Tri.bind (checkPtrAt_tri hd hi4 hal) fun _ _ hp => ?_
    refine Tri.bind (checkNotOwned_tri hi3) fun _ _ h0 => ?_
    rw [ldN_ok hi2, ok_bind]
    refine Tri.bind (Tri.verify _) fun _ _ he => ?_
    have he := of_decide_eq_true he
    rw [Int.toNat_natCast, he] at hp
    rcases hp with ⟨p1, p2⟩ | ⟨x, hx, p1, p2, p3⟩
    · rw [p1, ok_bind]
      refine Tri.mono (Tri.verify _) fun _ h1 => ?_
      have h1 := of_decide_eq_true h1
      exact ⟨h0, he, Or.inl ⟨rfl, p2, h1.2 rfl⟩⟩
    · rw [p1, ok_bind]
      refine Tri.mono (Tri.verify _) fun _ h1 => ?_
      have h1 := of_decide_eq_true h1
      refine ⟨h0, he, Or.inr ⟨x, hx, rfl, p2, ?_, p3⟩⟩
      rcases Nat.eq_zero_or_pos (rdN d.host m (a + 8) sw) with h2 | h2
      · have := h1.1 h2; omega
      · exact h2
  · rw [error_bind]; exact Tri.exn

/-- serialization.h:826-837: a passed string check. -/
theorem checkStr_tri (hd : d.Checked) {m : Mem} {a : Nat} (h : InB d a 16 8) :
    Tri (checkStr d a m) fun _ => m a = 1#8 ∨
      (m a = 0#8 ∧ m (a + 1) = 0#8 ∧
        match ptrAt d.host d.raw m (a + 8) with
        | none => rdN d.host m (a + 4) 4 = 0
        | some x => 0 < rdN d.host m (a + 4) 4 ∧ InB d x (rdN d.host m (a + 4) 4) 1) := by
  have hi1 : InB d a 1 1 := h.head (by omega) (Nat.one_dvd _)
  have hi2 : InB d (a + 4) 4 4 := h.sub (by omega) (by decide) (by decide)
  have hi3 : InB d (a + 8) 8 8 := h.sub (by omega) (by decide) (by decide)
  have hi4 : InB d (a + 1) 1 1 := h.sub (by omega) (by decide) (by decide)
  unfold checkStr
  refine Tri.bind (checkBool_tri hi1) fun _ _ hb => ?_
  rw [ldN_ok hi1, ok_bind, rdN_one]
  rcases hb with hb | hb
  · rw [hb, if_pos (by rfl), ldN_ok hi2, ok_bind]
    refine Tri.bind (checkPtrAt_tri hd hi3 (by decide)) fun _ _ hp => ?_
    refine Tri.bind (checkNotOwned_tri hi4) fun _ _ h0 => ?_
    rcases hp with ⟨p1, p2⟩ | ⟨x, hx, p1, p2, p3⟩
    · rw [p1, ok_bind]
      refine Tri.mono (Tri.verify _) fun _ h1 => ?_
      have h1 := of_decide_eq_true h1
      rw [p2]
      exact Or.inr ⟨rfl, h0, h1.2 rfl⟩
    · rw [p1, ok_bind]
      refine Tri.mono (Tri.verify _) fun _ h1 => ?_
      have h1 := of_decide_eq_true h1
      rw [p2]
      refine Or.inr ⟨rfl, h0, ?_, p3⟩
      rcases Nat.eq_zero_or_pos (rdN d.host m (a + 4) 4) with h2 | h2
      · have := h1.1 h2; omega
      · exact h2
  · rw [hb, if_neg (by decide)]
    exact Tri.ok (Or.inl rfl)

/-- serialization.h:926-989: a passed hash table check. -/
theorem checkHash_tri (hd : d.Checked) {m : Mem} {size al a : Nat} (hsz : size < 2 ^ 64) (hal : 0 < al) (h : InB d a 48 8) :
    Tri (checkHash d size al a m) fun _ => m (a + 40) = 0#8 ∧ ∃ c : Nat, 0 < c ∧ loadPtr d m (a + 8) = .ok (c : Int) ∧
      ptrAt d.host d.raw m (a + 8) = some c ∧ InB d c (rdN d.host m (a + 24) 8 + 9) 1 ∧
      HTable (ctl m c (rdN d.host m (a + 24) 8 + 9)) (rdN d.host m (a + 24) 8) (rdN d.host m (a + 16) 8) (rdN d.host m (a + 32) 8) ∧
      ((loadPtr d m a = .ok 0 ∧ ptrAt d.host d.raw m a = none ∧ rdN d.host m (a + 24) 8 = 0 ∧ rdN d.host m (a + 16) 8 = 0) ∨
        ∃ el : Nat, 0 < el ∧ loadPtr d m a = .ok (el : Int) ∧ ptrAt d.host d.raw m a = some el ∧ 0 < rdN d.host m (a + 24) 8 ∧
          c = el + rdN d.host m (a + 24) 8 * size ∧ InB d el (rdN d.host m (a + 24) 8 * size + (rdN d.host m (a + 24) 8 + 9)) al) := by
  have hi0 : InB d a 8 8 := h.head (by omega) (Nat.dvd_refl _)
  have hi8 : InB d (a + 8) 8 8 := h.sub (by omega) (by decide) (by decide)
  have hi16 : InB d (a + 16) 8 8 := h.sub (by omega) (by decide) (by decide)
  have hi24 : InB d (a + 24) 8 8 := h.sub (by omega) (by decide) (by decide)
  have hi32 : InB d (a + 32) 8 8 := h.sub (by omega) (by decide) (by decide)
  have hi40 : InB d (a + 40) 1 1 := h.sub (by omega) (by decide) (by decide)
  have hcap : rdN d.host m (a + 24) 8 < 2 ^ 64 := rdN_lt d.host m (a + 24) 8
  unfold checkHash
  have hl8 : ∃ x, loadPtr d m (a + 8) = .ok x := by
    unfold loadPtr
    rw [ld_ok hi8, ok_bind, hd.wrap]
    split
    · exact ⟨_, rfl⟩
    · split
      · exact ⟨_, rfl⟩
      · split
        · exact ⟨_, rfl⟩
        · exact ⟨_, rfl⟩
  obtain ⟨ct, hct⟩ := hl8
  rw [hct, ok_bind]
  refine Tri.bind (Tri.verify _) fun _ _ hne => ?_
  have hne := of_decide_eq_true hne
  rw [ldN_ok hi24, ok_bind, mul64 hcap hsz]
  split
  case isFalse => rw [error_bind]; exact Tri.exn
  rename_i hm
  rw [ok_bind, addU9 hcap]
  split
  case isFalse => rw [error_bind]; exact Tri.exn
  rename_i hm9
  rw [ok_bind, addU64 hm hm9]
  split
  case isFalse => rw [error_bind]; exact Tri.exn
  rw [ok_bind, Int.toNat_natCast, Int.toNat_natCast]
  refine Tri.bind (checkPtrAt_tri hd hi0 hal) fun _ _ hp => ?_
  refine Tri.bind (checkPtrAt_tri hd hi8 (by decide)) fun _ _ hq => ?_
  rcases hq with ⟨q1, _⟩ | ⟨c, hc0, q1, q2, q3⟩
  · rw [hct] at q1; injection q1 with q1; exact absurd q1 hne
  rw [hct] at q1
  injection q1 with q1
  subst q1
  have tail : ∀ (en : Int) (P : Prop), loadPtr d m a = .ok en →
      ((en = 0 ∨ (c : Int) = en + ((rdN d.host m (a + 24) 8 * size : Nat) : Int)) →
        (en = 0 ↔ (rdN d.host m (a + 24) 8 = 0 ∧ rdN d.host m (a + 16) 8 = 0)) →
        HTable (ctl m c (rdN d.host m (a + 24) 8 + 9)) (rdN d.host m (a + 24) 8) (rdN d.host m (a + 16) 8) (rdN d.host m (a + 32) 8) → P) →
      Tri (do
        let en ← loadPtr d m a
        verify (decide (en = 0 ∨ (c : Int) = en + ((rdN d.host m (a + 24) 8 * size : Nat) : Int)))
        let used ← ldN d m (a + 16) 8
        verify (decide ((en = 0) ↔ (rdN d.host m (a + 24) 8 = 0 ∧ used = 0)))
        checkNotOwned d m (a + 40)
        let c ← toAddr (c : Int)
        let bs ← ld d m c (rdN d.host m (a + 24) 8 + 9) 1
        let growth ← ldN d m (a + 32) 8
        HS.checkState (⟨bs.map BitVec.toNat, [], used, rdN d.host m (a + 24) 8, growth, decide (en ≠ 0), false⟩ : HS.HS Nat Nat))
        fun _ => m (a + 40) = 0#8 ∧
          HTable (ctl m c (rdN d.host m (a + 24) 8 + 9)) (rdN d.host m (a + 24) 8) (rdN d.host m (a + 16) 8) (rdN d.host m (a + 32) 8) ∧ P := by
    intro en P hen hP
    rw [hen, ok_bind]
    refine Tri.bind (Tri.verify _) fun _ _ h1 => ?_
    have h1 := of_decide_eq_true h1
    rw [ldN_ok hi16, ok_bind]
    refine Tri.bind (Tri.verify _) fun _ _ h2 => ?_
    have h2 := of_decide_eq_true h2
    refine Tri.bind (checkNotOwned_tri hi40) fun _ _ h3 => ?_
    rw [toAddr_ok hc0, ok_bind, ld_ok q3, ok_bind, ldN_ok hi32, ok_bind]
    exact Tri.mono (checkState_tri (by simp)) fun _ h4 => ⟨h3, h4, hP h1 h2 h4⟩
  rcases hp with ⟨p1, p2⟩ | ⟨el, hel, p1, p2, p3⟩
  · refine Tri.mono (tail 0 _ p1 fun _ h2 _ => h2.1 rfl) fun _ hh => ?_
    exact ⟨hh.1, c, hc0, rfl, q2, q3, hh.2.1, Or.inl ⟨p1, p2, hh.2.2⟩⟩
  · refine Tri.mono (tail el (0 < rdN d.host m (a + 24) 8 ∧ c = el + rdN d.host m (a + 24) 8 * size) p1 fun h1 h2 h3 => ⟨?_, ?_⟩) fun _ hh => ?_
    · rcases Nat.eq_zero_or_pos (rdN d.host m (a + 24) 8) with h0 | h0
      · have hu := h3.used
        rw [h0] at hu
        have := h2.2 ⟨h0, hu⟩
        omega
      · exact h0
    · rcases h1 with h1 | h1 <;> omega
    · exact ⟨hh.1, c, hc0, rfl, q2, q3, hh.2.1, Or.inr ⟨el, hel, p1, p2, hh.2.2.1, hh.2.2.2, p3⟩⟩

/-! ## The main induction -/

/-- No hash tables. -/
def Ty.NoHash : Ty → Prop
  | .int _ => True
  | .blob _ _ => True
  | .ptr _ => True
  | .vec _ _ t => t.NoHash
  | .str => True
  | .uptr t => t.NoHash
  | .hash _ => False
  | .opt t => t.NoHash
  | .var _ _ _ _ _ t => ∀ i, (t i).NoHash
  | .arr _ t => t.NoHash
  | .idx t => t.NoHash
  | .agg _ _ _ _ t => ∀ i, (t i).NoHash

/-- The first pass over the data cannot change the control bytes of a hash table it iterates: there is no hash table, or nothing is
written (offset pointers in host byte order). -/
def Steady (d : DEnv) (t : Ty) : Prop := t.NoHash ∨ (d.conv = false ∧ d.raw = false)

/-- Sizes fit into the address space, and pointees have an alignment. -/
def Ty.Fits : Ty → Prop
  | .int _ => True
  | .blob _ _ => True
  | .ptr _ => True
  | .vec _ _ t => t.sizeof < 2 ^ 63 ∧ t.Fits
  | .str => True
  | .uptr t => t.Fits
  | .hash t => t.sizeof < 2 ^ 63 ∧ t.Fits
  | .opt t => t.Fits
  | .var _ _ _ _ _ t => ∀ i, (t i).Fits
  | .arr _ t => t.Fits
  | .idx t => t.Fits
  | .agg _ _ _ _ t => ∀ i, (t i).Fits

/-- What is known after deserializing an object at `a`. -/
def Post (d : DEnv) (t : Ty) (a : Nat) (m m' : Mem) : Prop :=
  Kept d m m' ∧ (d.conv = false → d.raw = false → Safe d m t a)

theorem deser_tri (hd : d.Checked) (hobj : ∀ n, 0 < (d.obj n).2) : ∀ (t : Ty), t.WF → t.Fits → Steady d t → ∀ (a : Nat),
    0 < a ∧ a < 2 ^ 63 → ∀ m, Tri (deser d t a m) (Post d t a m) := by
  have hhi := hd.hi
  have hlo := hd.lo
  intro t
  induction t with
  | int w =>
    intro hw _ _ a ha m
    have hw0 := (Ty.pos_of_WF hw).1
    unfold deser
    refine Tri.bind (checkAddr_nat hd ha hw0) fun _ _ h1 => ?_
    obtain ⟨m', e, hk, _⟩ := convInt_ok (m := m) h1
    rw [e]
    exact ⟨hk, fun _ _ => h1⟩
  | blob s al =>
    intro hw _ _ a ha m
    unfold deser
    refine Tri.bind (checkAddr_nat hd ha hw.2.1) fun _ _ h1 => ?_
    exact ⟨Kept.refl m, fun _ _ => h1⟩
  | ptr p =>
    intro _ _ _ a ha m
    unfold deser
    cases p with
    | void =>
      refine Tri.mono (deserPtr_void hd ha) fun m' h => ⟨h.1, fun _ _ => ⟨h.2, trivial⟩⟩
    | obj n =>
      refine Tri.mono (deserPtr_tri hd ha (hobj n)) fun m' h => ⟨h.1, fun h1 h2 => ⟨h.2.1, ?_⟩⟩
      obtain ⟨hk, hi, hp⟩ := h
      have hm : m' = m := hk.2 h1 h2
      subst hm
      rcases hp with ⟨_, p2⟩ | ⟨x, _, _, p2, p3⟩
      · rw [p2]; exact trivial
      · rw [p2]; exact p3
  | vec sw ix t ih =>
    intro hw hf hs a ha m
    have htp := Ty.pos_of_WF hw.2
    have hsw := hw.1
    unfold deser
    refine Tri.bind (checkAddr_nat hd ha (by decide)) fun _ _ h1 => ?_
    have h1 : InB d a (16 + 2 * sw) 8 := h1
    have hi1 : InB d (a + 8 + sw) sw sw := by
      have := h1.sub (k := 8 + sw) (w := sw) (al' := sw) (by omega) (by rcases hsw with e | e <;> subst e <;> decide)
        (by rcases hsw with e | e <;> subst e <;> decide)
      rw [← Nat.add_assoc] at this; exact this
    have hi2 : InB d (a + 8) sw sw := h1.sub (by omega) (by rcases hsw with e | e <;> subst e <;> decide)
      (by rcases hsw with e | e <;> subst e <;> decide)
    refine Tri.bind (deserPtr_tri hd ha htp.1) fun m1 _ hp => ?_
    obtain ⟨m2, e2, k2, _⟩ := convInt_ok (m := m1) hi1
    rw [e2, ok_bind]
    obtain ⟨m3, e3, k3, _⟩ := convInt_ok (m := m2) hi2
    rw [e3, ok_bind, hd.chk]
    have k := (hp.1.trans k2).trans k3
    refine Tri.bind (checkVec_tri hd (m := m3) (size := t.sizeof) hsw (by have := hf.1; omega) htp.1 h1) fun _ _ hv => ?_
    obtain ⟨h0, heq, hv⟩ := hv
    rcases hv with ⟨p1, p2, p3⟩ | ⟨x, hx, p1, p2, p3, p4⟩
    · rw [p1, ok_bind, ldN_ok hi2, ok_bind, if_pos p3]
      refine ⟨k, fun g1 g2 => ?_⟩
      have := k.2 g1 g2
      subst this
      refine ⟨h1, h0, heq, ?_⟩
      rw [p2]; exact p3
    · rw [p1, ok_bind, ldN_ok hi2, ok_bind, if_neg (by omega)]
      have ea : toAddr (x : Int) = .ok x := by
        unfold toAddr
        rw [if_neg (by omega)]
        simp
      rw [ea, ok_bind]
      obtain ⟨q1, q2, q3⟩ := id p4
      have hb : ∀ j, j < rdN d.host m3 (a + 8) sw → j * t.sizeof + t.sizeof ≤ rdN d.host m3 (a + 8) sw * t.sizeof := fun j hj => by
        have := Nat.mul_le_mul_right t.sizeof (show j + 1 ≤ rdN d.host m3 (a + 8) sw from hj)
        rw [Nat.add_mul, Nat.one_mul] at this
        exact this
      have := Tri.forFrom (f := fun i m => deser d t (x + i * t.sizeof) m)
        (P := fun i m' => Kept d m3 m' ∧ (d.conv = false → d.raw = false → ∀ j, j < i → Safe d m3 t (x + j * t.sizeof)))
        (rdN d.host m3 (a + 8) sw) 0 m3 ⟨Kept.refl _, fun _ _ j hj => by omega⟩ (fun j s _ hj hp => by
          have hjb := hb j (by omega)
          refine Tri.mono (ih hw.2 hf.2 hs (x + j * t.sizeof) ⟨by omega, by omega⟩ s) fun m' hq => ?_
          refine ⟨hp.1.trans hq.1, fun g1 g2 i hi => ?_⟩
          rcases Nat.lt_succ_iff_lt_or_eq.1 hi with hi | hi
          · exact hp.2 g1 g2 i hi
          · subst hi
            have hs := hq.2 g1 g2
            have e := hp.1.2 g1 g2
            rw [e] at hs
            exact hs)
      refine Tri.mono this fun m' hq => ⟨k.trans hq.1, fun g1 g2 => ?_⟩
      have e := k.2 g1 g2
      rw [e] at h0 heq p2 p3 p4 hq
      refine ⟨h1, h0, heq, ?_⟩
      rw [p2]
      exact ⟨p3, p4, fun i hi => hq.2 g1 g2 i (by omega)⟩
  | str =>
    intro _ _ _ a ha m
    unfold deser
    refine Tri.bind (checkAddr_nat hd ha (by decide)) fun _ _ h1 => ?_
    have hi1 : InB d a 1 1 := h1.head (by omega) (Nat.one_dvd _)
    have hi2 : InB d (a + 4) 4 4 := h1.sub (by omega) (by decide) (by decide)
    obtain ⟨q1, q2, _⟩ := id h1
    have hc : Tri (convStr d a m) (Kept d m) := by
      unfold convStr
      rw [ldN_ok hi1, ok_bind]
      split
      · refine Tri.bind (deserPtr_tri hd ⟨by omega, by omega⟩ (by decide)) fun m1 _ hp => ?_
        obtain ⟨m2, e2, k2, _⟩ := convInt_ok (m := m1) hi2
        rw [e2]
        exact hp.1.trans k2
      · exact Kept.refl m
    refine Tri.bind hc fun m1 _ hk => ?_
    rw [hd.chk]
    refine Tri.bind (checkStr_tri hd (m := m1) h1) fun _ _ hs => ?_
    refine ⟨hk, fun g1 g2 => ?_⟩
    have := hk.2 g1 g2
    subst this
    exact ⟨h1, hs⟩
  | uptr t ih =>
    intro hw hf hs a ha m
    have htp := Ty.pos_of_WF (t := t) hw
    unfold deser
    refine Tri.bind (checkAddr_nat hd ha (by decide)) fun _ _ h1 => ?_
    have hi3 : InB d (a + 8) 1 1 := h1.sub (by omega) (by decide) (by decide)
    refine Tri.bind (deserPtr_tri hd ha htp.1) fun m1 _ hp => ?_
    rw [hd.chk]
    refine Tri.bind (checkNotOwned_tri (m := m1) hi3) fun _ _ h0 => ?_
    obtain ⟨k, hi, hp⟩ := hp
    rcases hp with ⟨p1, p2⟩ | ⟨x, hx, p1, p2, p3⟩
    · rw [p1, ok_bind, if_pos rfl]
      refine ⟨k, fun g1 g2 => ?_⟩
      have := k.2 g1 g2
      subst this
      refine ⟨h1, h0, ?_⟩
      rw [p2]; exact trivial
    · rw [p1, ok_bind, if_neg (by omega)]
      have ea : toAddr (x : Int) = .ok x := by
        unfold toAddr
        rw [if_neg (by omega)]
        simp
      rw [ea, ok_bind]
      obtain ⟨r1, r2, _⟩ := p3
      refine Tri.mono (ih hw hf hs x ⟨by omega, by omega⟩ m1) fun m' hq => ⟨k.trans hq.1, fun g1 g2 => ?_⟩
      have := k.2 g1 g2
      subst this
      refine ⟨h1, h0, ?_⟩
      rw [p2]; exact hq.2 g1 g2
  | hash t ih =>
    intro hw hf hs a ha m
    have htp := Ty.pos_of_WF (t := t) hw
    obtain ⟨hcv, hrw⟩ := hs.resolve_left fun h => h
    unfold deser
    refine Tri.bind (checkAddr_nat hd ha (by decide)) fun _ _ h1 => ?_
    obtain ⟨q1, q2, _⟩ := id h1
    have hi24 : InB d (a + 24) 8 8 := h1.sub (by omega) (by decide) (by decide)
    have hcv' : ∀ b, ∀ m, convInt d b 8 m = .ok m := fun b m => by
      unfold convInt
      rw [hcv, if_neg (by decide)]
    refine Tri.bind (deserPtr_tri hd ha htp.1) fun m1 _ hp => ?_
    have e1 := hp.1.2 hcv hrw
    subst e1
    refine Tri.bind (deserPtr_tri hd (a := a + 8) ⟨by omega, by omega⟩ (by decide)) fun m2 _ hp' => ?_
    have e2 := hp'.1.2 hcv hrw
    subst e2
    rw [hcv', ok_bind, hcv', ok_bind, hcv', ok_bind, hd.chk]
    refine Tri.bind (checkHash_tri hd (m := m2) (size := t.sizeof) (by have := hf.1; omega) htp.1 h1) fun _ _ hh => ?_
    obtain ⟨h0, c, hc0, c1, c2, c3, htab, hcase⟩ := hh
    obtain ⟨r1, r2, _⟩ := id c3
    rcases hcase with ⟨p1, p2, p3, p4⟩ | ⟨el, hel, p1, p2, p3, p4, p5⟩
    · rw [p3] at htab c3 r2
      rw [hashFor_nil (mem := fun m => m) (c := c) c1 hc0 p1 (by rw [ldN_ok hi24, p3]) r1 (by omega) htab.toCtrl]
      refine ⟨Kept.refl _, fun _ _ => ⟨h1, h0, c, c2, by rw [p3]; exact c3, by rw [p3]; exact htab, ?_⟩⟩
      rw [p2]; exact ⟨p3, p4⟩
    · rw [hashFor_eq (mem := fun m => m) (c := c) (el := el) (P := fun _ m => m = m2) c1 hc0 p1 hel (ldN_ok hi24) r1 (by omega) htab.toCtrl
        (fun j s' h => by rw [h]) (fun j s1 s' hj h hf' hb => ?_) (fun j s1 _ h _ => h) rfl]
      · obtain ⟨s1, s2, s3⟩ := id p5
        have hb : ∀ j, j < rdN d.host m2 (a + 24) 8 → j * t.sizeof + t.sizeof ≤ rdN d.host m2 (a + 24) 8 * t.sizeof := fun j hj => by
          have := Nat.mul_le_mul_right t.sizeof (show j + 1 ≤ rdN d.host m2 (a + 24) 8 from hj)
          rw [Nat.add_mul, Nat.one_mul] at this
          exact this
        have := Tri.forFrom (f := fun j s1 => if Full m2 c j then deser d t (el + j * t.sizeof) s1 else .ok s1)
          (P := fun i m' => m' = m2 ∧ ∀ j, j < i → Full m2 c j → Safe d m2 t (el + j * t.sizeof))
          (rdN d.host m2 (a + 24) 8) 0 m2 ⟨rfl, fun j hj => by omega⟩ (fun j s _ hj hp => by
            have hjb := hb j (by omega)
            obtain ⟨hp1, hp2⟩ := hp
            subst hp1
            by_cases hfl : Full s c j
            · rw [if_pos hfl]
              refine Tri.mono (ih hw hf.2 (Or.inr ⟨hcv, hrw⟩) (el + j * t.sizeof) ⟨by omega, by omega⟩ s) fun m' hq => ?_
              have := hq.1.2 hcv hrw
              subst this
              refine ⟨rfl, fun i hi hfi => ?_⟩
              rcases Nat.lt_succ_iff_lt_or_eq.1 hi with hi | hi
              · exact hp2 i hi hfi
              · subst hi
                exact hq.2 hcv hrw
            · rw [if_neg hfl]
              refine ⟨rfl, fun i hi hfi => ?_⟩
              rcases Nat.lt_succ_iff_lt_or_eq.1 hi with hi | hi
              · exact hp2 i hi hfi
              · subst hi
                exact absurd hfi hfl)
        refine Tri.mono this fun m' hq => ?_
        obtain ⟨rfl, hq⟩ := hq
        refine ⟨Kept.refl _, fun g1 g2 => ⟨h1, h0, c, c2, c3, htab, ?_⟩⟩
        rw [p2]
        exact ⟨p3, p4, p5, fun i hi => hq i (by omega)⟩
      · obtain ⟨s1', s2, _⟩ := id p5
        have hjb : j * t.sizeof + t.sizeof ≤ rdN d.host m2 (a + 24) 8 * t.sizeof := by
          have := Nat.mul_le_mul_right t.sizeof (show j + 1 ≤ rdN d.host m2 (a + 24) 8 from hj)
          rw [Nat.add_mul, Nat.one_mul] at this
          exact this
        have := ih hw hf.2 (Or.inr ⟨hcv, hrw⟩) (el + j * t.sizeof) ⟨by omega, by omega⟩ s1
        rw [hb] at this
        exact (this.1.2 hcv hrw).trans h
  | opt t ih =>
    intro hw hf hs a ha m
    have htp := Ty.pos_of_WF (t := t) hw
    unfold deser
    refine Tri.bind (checkAddr_nat hd ha (show 0 < (Ty.opt t).alignof from htp.1)) fun _ _ h1 => ?_
    have h1 : InB d a (t.alignof + t.sizeof) t.alignof := h1
    have hi1 : InB d a 1 1 := h1.head (by omega) (Nat.one_dvd _)
    rw [hd.chk]
    refine Tri.bind (checkBool_tri (m := m) hi1) fun _ _ hb => ?_
    rw [ldN_ok hi1, ok_bind, rdN_one]
    obtain ⟨q1, q2, _⟩ := id h1
    rcases hb with hb | hb
    · rw [hb, if_pos (by rfl)]
      exact ⟨Kept.refl m, fun _ _ => ⟨h1, Or.inl hb⟩⟩
    · rw [hb, if_neg (by decide)]
      refine Tri.mono (ih hw hf hs (a + t.alignof) ⟨by omega, by omega⟩ m) fun m' hq => ⟨hq.1, fun g1 g2 => ?_⟩
      exact ⟨h1, Or.inr ⟨hb, hq.2 g1 g2⟩⟩
  | var ib so s al n t ih =>
    intro hw hf hs a ha m
    simp only [Ty.WF] at hw
    obtain ⟨hib, hn, hso, hal, hdv, hia, hso', hs0, hti⟩ := hw
    unfold deser
    refine Tri.bind (checkAddr_nat hd ha hal) fun _ _ h1 => ?_
    have hi1 : InB d a ib ib := h1.head (by omega) hia
    rw [ldN_ok hi1, ok_bind, hd.chk]
    refine Tri.bind (Tri.verify _) fun _ _ hv => ?_
    have hv := of_decide_eq_true hv
    rw [dif_pos hv]
    obtain ⟨q1, q2, _⟩ := id h1
    have htv := hti ⟨_, hv⟩
    have htp := Ty.pos_of_WF htv.1
    refine Tri.mono (ih ⟨_, hv⟩ htv.1 (hf _) (hs.imp (fun h => h _) id) (a + so) ⟨by omega, by omega⟩ m) fun m' hq => ⟨hq.1, fun g1 g2 => ?_⟩
    exact ⟨h1, ⟨_, hv⟩, rfl, hq.2 g1 g2⟩
  | arr n t ih =>
    intro hw hf hs a ha m
    have htp := Ty.pos_of_WF hw.2
    unfold deser
    refine Tri.bind (checkAddr_nat hd ha htp.1) fun _ _ h1 => ?_
    have h1 : InB d a (n * t.sizeof) t.alignof := h1
    obtain ⟨q1, q2, _⟩ := id h1
    have hb : ∀ j, j < n → j * t.sizeof + t.sizeof ≤ n * t.sizeof := fun j hj => by
      have := Nat.mul_le_mul_right t.sizeof (show j + 1 ≤ n from hj)
      rw [Nat.add_mul, Nat.one_mul] at this
      exact this
    have := Tri.forFrom (f := fun i m => deser d t (a + i * t.sizeof) m)
      (P := fun i m' => Kept d m m' ∧ (d.conv = false → d.raw = false → ∀ j, j < i → Safe d m t (a + j * t.sizeof)))
      n 0 m ⟨Kept.refl _, fun _ _ j hj => by omega⟩ (fun j s _ hj hp => by
        have hjb := hb j (by omega)
        refine Tri.mono (ih hw.2 hf hs (a + j * t.sizeof) ⟨by omega, by omega⟩ s) fun m' hq => ?_
        refine ⟨hp.1.trans hq.1, fun g1 g2 i hi => ?_⟩
        rcases Nat.lt_succ_iff_lt_or_eq.1 hi with hi | hi
        · exact hp.2 g1 g2 i hi
        · subst hi
          have hs := hq.2 g1 g2
          have e := hp.1.2 g1 g2
          rw [e] at hs
          exact hs)
    refine Tri.mono this fun m' hq => ⟨hq.1, fun g1 g2 => ⟨h1, fun i hi => hq.2 g1 g2 i (by omega)⟩⟩
  | idx t ih =>
    intro hw hf hs a ha m
    have htp := Ty.pos_of_WF (t := t) hw
    unfold deser
    refine Tri.bind (checkAddr_nat hd ha htp.1) fun _ _ h1 => ?_
    exact Tri.mono (ih hw hf hs a ha m) fun m' hq => ⟨hq.1, fun g1 g2 => hq.2 g1 g2⟩
  | agg s al n off t ih =>
    intro hw hf hs a ha m
    simp only [Ty.WF] at hw
    obtain ⟨hs0, hal, hdv, hti, _⟩ := hw
    unfold deser
    refine Tri.bind (checkAddr_nat hd ha hal) fun _ _ h1 => ?_
    obtain ⟨q1, q2, _⟩ := id h1
    have := Tri.forFrom (f := fun i m => if h : i < n then deser d (t ⟨i, h⟩) (a + off ⟨i, h⟩) m else .ok m)
      (P := fun i m' => Kept d m m' ∧ (d.conv = false → d.raw = false → ∀ j (hj : j < n), j < i → Safe d m (t ⟨j, hj⟩) (a + off ⟨j, hj⟩)))
      n 0 m ⟨Kept.refl _, fun _ _ j _ hj => by omega⟩ (fun j s _ hj hp => by
        have hjn : j < n := by omega
        rw [dif_pos hjn]
        have htj := hti ⟨j, hjn⟩
        have htp := Ty.pos_of_WF htj.1
        refine Tri.mono (ih ⟨j, hjn⟩ htj.1 (hf _) (hs.imp (fun h => h _) id) (a + off ⟨j, hjn⟩) ⟨by omega, by omega⟩ s) fun m' hq => ?_
        refine ⟨hp.1.trans hq.1, fun g1 g2 i hin hi => ?_⟩
        rcases Nat.lt_succ_iff_lt_or_eq.1 hi with hi | hi
        · exact hp.2 g1 g2 i hin hi
        · subst hi
          have hs := hq.2 g1 g2
          have e := hp.1.2 g1 g2
          rw [e] at hs
          exact hs)
    refine Tri.mono this fun m' hq => ⟨hq.1, fun g1 g2 => ⟨h1, fun i => hq.2 g1 g2 i.1 i.2 (by omega)⟩⟩

end Cista.Ser
