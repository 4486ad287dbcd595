import Verif.Arith.Lemmas

set_option linter.unusedSimpArgs false

/-!
# C01, C02, C47, C48 — arithmetic helpers
-/
namespace Cista.Arith

/-- Integer widths `next_power_of_two` is instantiated with. -/
def StdWidth (w : Nat) : Prop := w = 8 ∨ w = 16 ∨ w = 32 ∨ w = 64

/-- **C01** Smallest power of two `≥ n`, whenever it is representable. -/
theorem C01_next_power_of_two_least {w : Nat} (hw : StdWidth w) (n : BitVec w)
    (h0 : n ≠ 0#w) (hmax : n.toNat ≤ 2 ^ (w - 1)) :
    ∃ k, (nextPow2 n).toNat = 2 ^ k ∧ n.toNat ≤ 2 ^ k ∧ ∀ j, n.toNat ≤ 2 ^ j → 2 ^ k ≤ 2 ^ j := by
  obtain ⟨y, hy, hs⟩ := nextPow2_smear hw n
  have hw0 : 1 < w := by rcases hw with rfl | rfl | rfl | rfl <;> omega
  have hn0 : n.toNat ≠ 0 := by
    intro h; apply h0; apply BitVec.eq_of_toNat_eq; simpa using h
  have h1w : (1#w).toNat = 1 := by
    rw [BitVec.toNat_ofNat]; exact Nat.mod_eq_of_lt (Nat.one_lt_two_pow (by omega))
  have hpw : (2:Nat) ^ w = 2 * 2 ^ (w - 1) := by
    rw [show w = (w - 1) + 1 by omega, Nat.pow_succ]; simp; omega
  have hsub : (n - 1#w).toNat = n.toNat - 1 := by
    rw [BitVec.toNat_sub_of_le (by rw [BitVec.le_def, h1w]; omega), h1w]
  by_cases h1 : n.toNat = 1
  · -- n = 1: nothing to smear
    have hz : n - 1#w = 0#w := by
      apply BitVec.eq_of_toNat_eq; rw [hsub]; simp [h1]
    have hy0 : y = 0#w := by
      apply BitVec.eq_of_getLsbD_eq
      intro i _
      cases hb : y.getLsbD i
      · simp
      · obtain ⟨j, _, _, h3⟩ := (hs i).1 hb
        rw [hz] at h3; simp at h3
    refine ⟨0, ?_, by omega, fun j _ => ?_⟩
    · rw [hy, hy0]; simp [h1w]
    · have := Nat.pow_pos (n := j) (show 0 < 2 by omega)
      omega
  · have hne : (n - 1#w).toNat ≠ 0 := by omega
    have hyn := smear_toNat (Nat.le_refl w) hs hne
    rw [hsub] at hyn hne
    have hlt : (n.toNat - 1).log2 < w - 1 := (Nat.log2_lt hne).2 (by omega)
    have hlow := Nat.log2_self_le hne
    have hhigh := (Nat.log2_lt (k := (n.toNat - 1).log2 + 1) hne).1 (by omega)
    refine ⟨(n.toNat - 1).log2 + 1, ?_, by omega, ?_⟩
    · rw [hy, BitVec.toNat_add, hyn, h1w]
      have hle : (2:Nat) ^ ((n.toNat - 1).log2 + 1) ≤ 2 ^ (w - 1) :=
        Nat.pow_le_pow_right (by omega) (by omega)
      have hpos := Nat.pow_pos (n := (n.toNat - 1).log2 + 1) (show 0 < 2 by omega)
      rw [Nat.sub_add_cancel hpos]
      apply Nat.mod_eq_of_lt
      have := Nat.pow_pos (n := w - 1) (show 0 < 2 by omega)
      omega
    · intro j hj
      apply Nat.pow_le_pow_right (by omega)
      by_cases hjl : (n.toNat - 1).log2 + 1 ≤ j
      · exact hjl
      · exfalso
        have : (2:Nat) ^ j ≤ 2 ^ (n.toNat - 1).log2 := Nat.pow_le_pow_right (by omega) (by omega)
        omega

/-- **C01** Outside the representable range the result is `0`. -/
theorem C01_next_power_of_two_zero {w : Nat} (hw : StdWidth w) (n : BitVec w)
    (h : n = 0#w ∨ 2 ^ (w - 1) < n.toNat) : nextPow2 n = 0#w := by
  obtain ⟨y, hy, hs⟩ := nextPow2_smear hw n
  have hw0 : 1 < w := by rcases hw with rfl | rfl | rfl | rfl <;> omega
  have h1w : (1#w).toNat = 1 := by
    rw [BitVec.toNat_ofNat]; exact Nat.mod_eq_of_lt (Nat.one_lt_two_pow (by omega))
  have hpw : (2:Nat) ^ w = 2 * 2 ^ (w - 1) := by
    rw [show w = (w - 1) + 1 by omega, Nat.pow_succ]; simp; omega
  have hpp := Nat.pow_pos (n := w - 1) (show 0 < 2 by omega)
  have hge : 2 ^ (w - 1) ≤ (n - 1#w).toNat := by
    rcases h with rfl | h
    · rw [BitVec.toNat_sub, h1w]; simp
      omega
    · rw [BitVec.toNat_sub_of_le (by rw [BitVec.le_def, h1w]; omega), h1w]; omega
  have hne : (n - 1#w).toNat ≠ 0 := by omega
  have hyn := smear_toNat (Nat.le_refl w) hs hne
  have hl1 : (n - 1#w).toNat.log2 < w := (Nat.log2_lt hne).2 (n - 1#w).isLt
  have hl2 : w - 1 ≤ (n - 1#w).toNat.log2 := (Nat.le_log2 hne).2 hge
  have hl : (n - 1#w).toNat.log2 + 1 = w := by omega
  rw [hl] at hyn
  rw [hy]
  apply BitVec.eq_of_toNat_eq
  rw [BitVec.toNat_add, hyn, h1w, Nat.sub_add_cancel (by omega)]
  simp

example : nextPow2 (5#32) = 8#32 := by decide
example : nextPow2 (2147483649#32) = 0#32 := by decide
example : (5#8 : BitVec 8) ≠ 0#8 ∧ (5#8).toNat ≤ 2 ^ (8 - 1) := by decide

/-- **C02** `checked_addition`: if every partial sum is representable the result is the exact sum,
otherwise an exception is thrown; in particular there is never a signed overflow (`Err.ub`) and
never a wrapped result. -/
theorem C02_checked_addition (t : IntTy) (hb : 0 < t.bits) (a : Int) (xs : List Int)
    (ha : t.InRange a) (hx : ∀ x ∈ xs, t.InRange x) :
    ((∀ k, k ≤ xs.length → t.InRange (a + (xs.take k).sum)) →
        checkedAddition t a xs = .ok (a + xs.sum)) ∧
    ((∃ k, k ≤ xs.length ∧ ¬ t.InRange (a + (xs.take k).sum)) →
        checkedAddition t a xs = .error .exn) := by
  induction xs generalizing a with
  | nil =>
    constructor
    · intro _; simp [checkedAddition]
    · rintro ⟨k, hk, hn⟩
      simp at hk hn
      exact absurd ha hn
  | cons x xs ih =>
    have hx0 : t.InRange x := hx x (by simp)
    have hxs : ∀ y ∈ xs, t.InRange y := fun y hy => hx y (by simp [hy])
    have hstep := addIfOk_eq t hb a x ha hx0
    by_cases hin : t.InRange (a + x)
    · rw [if_pos hin] at hstep
      have e : checkedAddition t a (x :: xs) = checkedAddition t (a + x) xs := by
        simp [checkedAddition, hstep, bind, Except.bind]
      obtain ⟨i1, i2⟩ := ih (a + x) hin hxs
      rw [e]
      constructor
      · intro h
        rw [i1]
        · simp [List.sum_cons]; omega
        · intro k hk
          have := h (k + 1) (by simp; omega)
          simp [List.sum_cons] at this
          rwa [Int.add_assoc]
      · rintro ⟨k, hk, hn⟩
        apply i2
        cases k with
        | zero => simp at hn; exact absurd ha hn
        | succ k =>
          refine ⟨k, by simp at hk; omega, ?_⟩
          simp [List.sum_cons] at hn
          rwa [Int.add_assoc]
    · rw [if_neg hin] at hstep
      have e : checkedAddition t a (x :: xs) = .error .exn := by
        simp [checkedAddition, hstep, bind, Except.bind]
      constructor
      · intro h
        exfalso; apply hin
        have := h 1 (by simp)
        simpa using this
      · intro _; exact e

/-- **C02** `checked_multiplication` of non-negative arguments, at any signed or unsigned type (the deserializer multiplies unsigned
sizes): the result is the exact product if every partial product is representable, otherwise an exception. -/
theorem C02_checked_multiplication (t : IntTy) (a : Int) (xs : List Int) (ha0 : 0 ≤ a) (hx0 : ∀ x ∈ xs, 0 ≤ x)
    (ha : t.InRange a) (hx : ∀ x ∈ xs, t.InRange x) :
    ((∀ k, k ≤ xs.length → t.InRange ((xs.take k).foldl (· * ·) a)) →
        checkedMultiplication t a xs = .ok (xs.foldl (· * ·) a)) ∧
    ((∃ k, k ≤ xs.length ∧ ¬ t.InRange ((xs.take k).foldl (· * ·) a)) →
        checkedMultiplication t a xs = .error .exn) := by
  induction xs generalizing a with
  | nil =>
    constructor
    · intro _; simp [checkedMultiplication]
    · rintro ⟨k, hk, hn⟩
      simp at hk hn
      exact absurd ha hn
  | cons x xs ih =>
    have hx1 : t.InRange x := hx x (by simp)
    have hxs : ∀ y ∈ xs, t.InRange y := fun y hy => hx y (by simp [hy])
    have hx2 : 0 ≤ x := hx0 x (by simp)
    have hstep := multiplyIfOk_eq t a x ha0 hx2 ha hx1
    by_cases hin : t.InRange (a * x)
    · rw [if_pos hin] at hstep
      have e : checkedMultiplication t a (x :: xs) = checkedMultiplication t (a * x) xs := by
        simp [checkedMultiplication, hstep, bind, Except.bind]
      obtain ⟨i1, i2⟩ := ih (a * x) (Int.mul_nonneg ha0 hx2) (fun y hy => hx0 y (by simp [hy])) hin hxs
      rw [e]
      constructor
      · intro h
        rw [i1]
        · simp
        · intro k hk
          simpa using h (k + 1) (by simp; omega)
      · rintro ⟨k, hk, hn⟩
        apply i2
        cases k with
        | zero => simp at hn; exact absurd ha hn
        | succ k => exact ⟨k, by simp at hk; omega, by simpa using hn⟩
    · rw [if_neg hin] at hstep
      have e : checkedMultiplication t a (x :: xs) = .error .exn := by
        simp [checkedMultiplication, hstep, bind, Except.bind]
      constructor
      · intro h
        exfalso; apply hin
        simpa using h 1 (by simp)
      · intro _; exact e

/-- **C02** Whatever the signs of the arguments, `checked_multiplication` at a signed type never returns a wrapped value (at unsigned
types there are no negative arguments). -/
theorem C02_multiplication_never_wraps (t : IntTy) (hs : t.signed = true) (a r : Int) (xs : List Int)
    (h : checkedMultiplication t a xs = .ok r) : r = xs.foldl (· * ·) a := by
  induction xs generalizing a with
  | nil => simp only [checkedMultiplication, Except.ok.injEq] at h; exact h.symm
  | cons x xs ih =>
    simp only [checkedMultiplication, multiplyIfOk, bind, Except.bind, IntTy.arith, hs] at h
    split at h
    · cases h
    · next b hb =>
      split at hb
      · cases hb
      · split at hb
        · cases hb; exact ih _ h
        · cases hb

/-- The guard of `checked_multiplication` is not sufficient for negative arguments of a *signed* type (which the
deserializer does not use): `INT64_MIN * -1` reaches the undefined multiplication. -/
theorem C02_checked_multiplication_signed_ub :
    checkedMultiplication ⟨64, true⟩ (-1) [-(2 ^ 63)] = .error .ub := by rfl

example : checkedAddition ⟨64, true⟩ (2 ^ 63 - 1) [1] = .error .exn := by rfl
example : checkedAddition ⟨64, true⟩ (-5) [3, 10] = .ok 8 := by rfl
example : (⟨64, true⟩ : IntTy).InRange (2 ^ 63 - 1) := by decide
example : checkedMultiplication ⟨64, false⟩ (2 ^ 32) [2 ^ 32] = .error .exn := by rfl
example : checkedMultiplication ⟨64, true⟩ (2 ^ 32) [2 ^ 31] = .error .exn ∧ checkedMultiplication ⟨32, true⟩ 5 [-3, -7] = .error .exn ∧
    checkedMultiplication ⟨32, true⟩ 5 [-3] = .ok (-15) := by decide

/-! ## C47 bit counting -/

/-- Specification: `i` is the index of the lowest set bit. -/
def IsLowestBit {w : Nat} (t : BitVec w) (i : Nat) : Prop :=
  i < w ∧ t.getLsbD i = true ∧ ∀ j, j < i → t.getLsbD j = false

/-- Specification: `i` is the number of zero bits above the highest set bit. -/
def IsLeadingZeros {w : Nat} (t : BitVec w) (i : Nat) : Prop :=
  i < w ∧ t.getLsbD (w - 1 - i) = true ∧ ∀ j, w - 1 - i < j → t.getLsbD j = false

/-- **C47** `constexpr_trailing_zeros` finds the lowest set bit of every non-zero input. -/
theorem C47_constexpr_trailing_zeros {w : Nat} (t : BitVec w) (h : t ≠ 0#w) :
    IsLowestBit t (constexprTrailingZeros t) := by
  obtain ⟨i, hi, hb⟩ := exists_bit_of_ne_zero h
  obtain ⟨h1, _, h3⟩ := ctzLoop_spec (by omega) t 0 w ⟨i, by omega, by omega, hb⟩
  refine ⟨?_, h1, fun j hj => h3 j (by omega) hj⟩
  exact BitVec.lt_of_getLsbD h1

/-- On zero `constexpr_trailing_zeros` returns 0 where `trailing_zeros` returns the width. -/
theorem C47_trailing_zeros_of_zero {w : Nat} (hw : 0 < w) :
    constexprTrailingZeros (0#w) = 0 ∧ trailingZeros (0#w) = .ok w := by
  exact ⟨ctzLoop_zero hw 0 w, by simp [trailingZeros]⟩

/-- **C47** `trailing_zeros` never reaches the undefined case of the intrinsic. -/
theorem C47_trailing_zeros {w : Nat} (t : BitVec w) (h : t ≠ 0#w) :
    ∃ i, trailingZeros t = .ok i ∧ IsLowestBit t i := by
  obtain ⟨a, b, c⟩ := findIdx_range_spec w (fun i => t.getLsbD i) (exists_bit_of_ne_zero h)
  exact ⟨_, by simp [trailingZeros, scanForward, h], a, b, c⟩

/-- **C47** the two-step 64-bit `trailing_zeros` of 32-bit MSVC computes the same. -/
theorem C47_trailing_zeros_split (t : BitVec 64) (h : t ≠ 0#64) :
    ∃ i, trailingZeros64Split t = .ok i ∧ IsLowestBit t i := by
  by_cases hl : t.setWidth 32 = 0#32
  · have hz : ∀ j, j < 32 → t.getLsbD j = false := by
      intro j hj
      have := congrArg (fun v => v.getLsbD j) hl
      simpa [hj] using this
    have hh : (t >>> 32).setWidth 32 ≠ 0#32 := by
      obtain ⟨i, hi, hb⟩ := exists_bit_of_ne_zero h
      intro hc
      have h32 : 32 ≤ i := by
        by_cases hlt : i < 32
        · rw [hz i hlt] at hb; cases hb
        · omega
      have := congrArg (fun v => v.getLsbD (i - 32)) hc
      simp at this
      rw [show 32 + (i - 32) = i by omega, hb] at this
      have hlt : i - 32 < 32 := by omega
      simp [hlt] at this
    obtain ⟨i, he, h1, h2, h3⟩ := C47_trailing_zeros _ hh
    simp only [trailingZeros, hh, if_false] at he
    refine ⟨i + 32, ?_, ?_, ?_, ?_⟩
    · simp [trailingZeros64Split, h, hl, he, bind, Except.bind, pure, Except.pure]
    · omega
    · simp [h1] at h2; rwa [Nat.add_comm]
    · intro j hj
      by_cases hj32 : j < 32
      · exact hz j hj32
      · have := h3 (j - 32) (by omega)
        simp at this
        rw [show 32 + (j - 32) = j by omega] at this
        exact this (by omega)
  · obtain ⟨i, he, h1, h2, h3⟩ := C47_trailing_zeros _ hl
    simp only [trailingZeros, hl, if_false] at he
    refine ⟨i, by simp [trailingZeros64Split, h, hl, he], by omega, ?_, ?_⟩
    · simpa [h1] using h2
    · intro j hj
      have := h3 j hj
      simp at this
      exact this (by omega)

/-- **C47** `leading_zeros` never reaches the undefined case of the intrinsic. -/
theorem C47_leading_zeros {w : Nat} (t : BitVec w) (h : t ≠ 0#w) :
    ∃ i, leadingZeros t = .ok i ∧ IsLeadingZeros t i := by
  obtain ⟨i, hi, hb⟩ := exists_bit_of_ne_zero h
  obtain ⟨a, b, c⟩ := findIdx_range_spec w (fun i => t.getLsbD (w - 1 - i))
    ⟨w - 1 - i, by omega, by simpa [show w - 1 - (w - 1 - i) = i by omega] using hb⟩
  refine ⟨(List.range w).findIdx (fun i => t.getLsbD (w - 1 - i)), ?_, a, b, ?_⟩
  · simp [leadingZeros, scanReverse, h, bind, Except.bind, pure, Except.pure]
    omega
  · intro j hj
    by_cases hjw : j < w
    · have := c (w - 1 - j) (by omega)
      simpa [show w - 1 - (w - 1 - j) = j by omega] using this
    · exact BitVec.getLsbD_of_ge t j (by omega)

/-- **C47** the two-step 64-bit `leading_zeros` of 32-bit MSVC computes the same. -/
theorem C47_leading_zeros_split (t : BitVec 64) (h : t ≠ 0#64) :
    ∃ i, leadingZeros64Split t = .ok i ∧ IsLeadingZeros t i := by
  by_cases hh : (t >>> 32).setWidth 32 = 0#32
  · have hz : ∀ j, 32 ≤ j → t.getLsbD j = false := by
      intro j hj
      by_cases hj64 : j < 64
      · have := congrArg (fun v => v.getLsbD (j - 32)) hh
        simp at this
        rw [show 32 + (j - 32) = j by omega] at this
        exact this (by omega)
      · exact BitVec.getLsbD_of_ge t j (by omega)
    have hl : t.setWidth 32 ≠ 0#32 := by
      obtain ⟨i, hi, hb⟩ := exists_bit_of_ne_zero h
      intro hc
      have h32 : i < 32 := by
        by_cases hlt : i < 32
        · exact hlt
        · rw [hz i (by omega)] at hb; cases hb
      have := congrArg (fun v => v.getLsbD i) hc
      simp [h32, hb] at this
    obtain ⟨i, he, h1, h2, h3⟩ := C47_leading_zeros _ hl
    simp only [leadingZeros, hl, if_false] at he
    cases hs : scanReverse (t.setWidth 32) with
    | error e => simp [hs, bind, Except.bind] at he
    | ok k =>
      simp [hs, bind, Except.bind, pure, Except.pure] at he
      have hk31 : k ≤ 31 := by
        simp [scanReverse, hl] at hs
        omega
      refine ⟨63 - k, ?_, by omega, ?_, ?_⟩
      · simp [leadingZeros64Split, h, hh, hs, bind, Except.bind, pure, Except.pure]
      · simp at h2 ⊢
        rw [show 63 - (63 - k) = k by omega]
        rw [show 31 - i = k by omega] at h2
        exact h2.2
      · intro j hj
        by_cases hj32 : j < 32
        · have := h3 j (by omega)
          simp at this
          exact this hj32
        · exact hz j (by omega)
  · obtain ⟨i, he, h1, h2, h3⟩ := C47_leading_zeros _ hh
    simp only [leadingZeros, hh, if_false] at he
    cases hs : scanReverse ((t >>> 32).setWidth 32) with
    | error e => simp [hs, bind, Except.bind] at he
    | ok k =>
      simp [hs, bind, Except.bind, pure, Except.pure] at he
      refine ⟨i, ?_, by omega, ?_, ?_⟩
      · simp [leadingZeros64Split, h, hh, hs, bind, Except.bind, pure, Except.pure, he]
      · simp at h2 ⊢
        have := h2.2
        rwa [show 32 + (31 - i) = 63 - i by omega] at this
      · intro j hj
        by_cases hj64 : j < 64
        · have := h3 (j - 32) (by omega)
          simp at this
          rw [show 32 + (j - 32) = j by omega] at this
          exact this (by omega)
        · exact BitVec.getLsbD_of_ge t j (by omega)

/-- **C47** summing the two 32-bit halves counts the set bits of the 64-bit value. -/
theorem C47_popcount_split (t : BitVec 64) : popcount64Split t = popcount t := by
  unfold popcount64Split popcount
  rw [popcountUpTo_add t 32 32]
  unfold popcountUpTo
  congr 1
  · apply List.countP_congr
    intro i hi
    simp at hi
    simp [hi]
  · apply List.countP_congr
    intro i hi
    simp at hi
    simp [hi]

example : trailingZeros64Split (0x8000000000#64) = .ok 39 := by rfl
example : leadingZeros64Split (0x8000000000#64) = .ok 24 := by rfl
example : IsLowestBit (12#8) 2 := ⟨by decide, by decide, by decide⟩

/-! ## C48 mode flags -/

theorem Mode.flag_is_twoPow : ∀ f ∈ Mode.flags, ∃ k, k < 32 ∧ f = BitVec.twoPow 32 k ∧
    ∀ g ∈ Mode.flags, (g.getLsbD k = true ↔ g = f) := by
  have key : ([0, 1, 2, 3, 4, 5, 6, 7, 8, 29, 30] : List Nat).all (fun k => decide (k < 32) &&
      Mode.flags.all (fun g => g.getLsbD k == (g == BitVec.twoPow 32 k))) = true := by
    decide +kernel
  have idx : Mode.flags.all (fun f => ([0, 1, 2, 3, 4, 5, 6, 7, 8, 29, 30] : List Nat).any
      (fun k => f == BitVec.twoPow 32 k)) = true := by decide +kernel
  intro f hf
  have := List.all_eq_true.1 idx f hf
  obtain ⟨k, hk, hfk⟩ := List.any_eq_true.1 this
  rw [beq_iff_eq] at hfk
  subst hfk
  have hk2 := List.all_eq_true.1 key k hk
  rw [Bool.and_eq_true, decide_eq_true_eq] at hk2
  refine ⟨k, hk2.1, rfl, fun g hg => ?_⟩
  have := List.all_eq_true.1 hk2.2 g hg
  rw [beq_iff_eq] at this
  rw [this, beq_iff_eq]

theorem Mode.orAll_getLsbD (l : List Mode) (k : Nat) :
    (Mode.orAll l).getLsbD k = l.any (fun f => f.getLsbD k) := by
  have : ∀ (acc : Mode), (l.foldl (· ||| ·) acc).getLsbD k =
      (acc.getLsbD k || l.any (fun f => f.getLsbD k)) := by
    induction l with
    | nil => intro acc; simp
    | cons x xs ih => intro acc; simp [ih, Bool.or_assoc]
  simp [Mode.orAll, this, Mode.NONE]

/-- **C48** A mode built by or-ing any collection of flags reports exactly these flags as
enabled, and exactly the others as disabled. -/
theorem C48_mode_flags (l : List Mode) (hl : ∀ f ∈ l, f ∈ Mode.flags) (f : Mode)
    (hf : f ∈ Mode.flags) :
    (Mode.isEnabled (Mode.orAll l) f = true ↔ f ∈ l) ∧
    (Mode.isDisabled (Mode.orAll l) f = true ↔ f ∉ l) := by
  obtain ⟨k, hk, hfk, hu⟩ := Mode.flag_is_twoPow f hf
  have hbit : (Mode.orAll l).getLsbD k = true ↔ f ∈ l := by
    rw [Mode.orAll_getLsbD, List.any_eq_true]
    constructor
    · rintro ⟨g, hg, hb⟩
      rwa [← (hu g (hl g hg)).1 hb]
    · intro h; exact ⟨f, h, (hu f hf).2 rfl⟩
  have hen : Mode.isEnabled (Mode.orAll l) f = true ↔ (Mode.orAll l).getLsbD k = true := by
    unfold Mode.isEnabled
    rw [beq_iff_eq, hfk]
    constructor
    · intro h
      have := congrArg (fun v => v.getLsbD k) h
      simpa [BitVec.getLsbD_twoPow, hk] using this
    · intro h
      apply BitVec.eq_of_getLsbD_eq
      intro i hi
      simp only [BitVec.getLsbD_and, BitVec.getLsbD_twoPow]
      by_cases hik : k = i
      · subst hik; simp [h]
      · simp [hik]
  have hdis : Mode.isDisabled (Mode.orAll l) f = true ↔ ¬ (Mode.orAll l).getLsbD k = true := by
    unfold Mode.isDisabled Mode.NONE
    rw [beq_iff_eq, hfk]
    constructor
    · intro h hb
      have h' := congrArg (fun v => v.getLsbD k) h
      simp only [BitVec.getLsbD_and, BitVec.getLsbD_twoPow, hb] at h'
      simp [hk] at h'
    · intro h
      apply BitVec.eq_of_getLsbD_eq
      intro i hi
      simp only [BitVec.getLsbD_and, BitVec.getLsbD_twoPow]
      by_cases hik : k = i
      · subst hik; simp at h; simp [h]
      · simp [hik]
  exact ⟨hen.trans hbit, hdis.trans (not_congr hbit)⟩

example : Mode.isEnabled (Mode.orAll [Mode.WITH_VERSION, Mode.CAST]) Mode.CAST = true := by decide
example : Mode.isDisabled (Mode.orAll [Mode.WITH_VERSION, Mode.CAST]) Mode.DEEP_CHECK = true := by
  decide

end Cista.Arith
