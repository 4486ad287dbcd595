import Verif.Arith.Model

set_option linter.unusedSimpArgs false

namespace Cista.Arith

/-- `y` is `x` smeared downwards over `k` positions. -/
def Smear {w : Nat} (k : Nat) (x y : BitVec w) : Prop :=
  ∀ i, y.getLsbD i = true ↔ ∃ j, i ≤ j ∧ j < i + k ∧ x.getLsbD j = true

theorem smear_one {w : Nat} (x : BitVec w) : Smear 1 x x := by
  intro i
  constructor
  · intro h; exact ⟨i, by omega, by omega, h⟩
  · rintro ⟨j, h1, h2, h3⟩
    have : j = i := by omega
    rwa [this] at h3

theorem smear_step {w : Nat} {k : Nat} {x y : BitVec w} (h : Smear k x y) :
    Smear (k + k) x (y ||| (y >>> k)) := by
  intro i
  simp only [BitVec.getLsbD_or, BitVec.getLsbD_ushiftRight, Bool.or_eq_true]
  rw [h i, h (k + i)]
  constructor
  · rintro (⟨j, h1, h2, h3⟩ | ⟨j, h1, h2, h3⟩)
    · exact ⟨j, h1, by omega, h3⟩
    · exact ⟨j, by omega, by omega, h3⟩
  · rintro ⟨j, h1, h2, h3⟩
    by_cases hj : j < i + k
    · exact Or.inl ⟨j, h1, hj, h3⟩
    · exact Or.inr ⟨j, by omega, by omega, h3⟩

theorem smear_toNat {w k : Nat} {x y : BitVec w} (hk : w ≤ k) (h : Smear k x y)
    (hx : x.toNat ≠ 0) : y.toNat = 2 ^ (x.toNat.log2 + 1) - 1 := by
  apply Nat.eq_of_testBit_eq
  intro i
  rw [Nat.testBit_two_pow_sub_one]
  have hi := h i
  rw [BitVec.testBit_toNat, Bool.eq_iff_iff, hi]
  simp only [decide_eq_true_eq]
  constructor
  · rintro ⟨j, h1, _, h3⟩
    rw [← BitVec.testBit_toNat] at h3
    have := Nat.ge_two_pow_of_testBit h3
    have : j ≤ x.toNat.log2 := (Nat.le_log2 hx).2 this
    omega
  · intro hle
    refine ⟨x.toNat.log2, by omega, ?_, ?_⟩
    · have : x.toNat.log2 < w := (Nat.log2_lt hx).2 x.isLt
      omega
    · rw [← BitVec.testBit_toNat]
      exact Nat.testBit_log2 hx

/-- The smearing part of `nextPow2`, up to the final increment. -/
theorem nextPow2_smear {w : Nat} (hw : w = 8 ∨ w = 16 ∨ w = 32 ∨ w = 64) (n : BitVec w) :
    ∃ y, nextPow2 n = y + 1#w ∧ Smear w (n - 1#w) y := by
  rcases hw with rfl | rfl | rfl | rfl
  · exact ⟨_, rfl, smear_step (k := 4) (smear_step (k := 2) (smear_step (smear_one _)))⟩
  · exact ⟨_, rfl, smear_step (k := 8) (smear_step (k := 4)
      (smear_step (k := 2) (smear_step (smear_one _))))⟩
  · exact ⟨_, rfl, smear_step (k := 16) (smear_step (k := 8) (smear_step (k := 4)
      (smear_step (k := 2) (smear_step (smear_one _)))))⟩
  · exact ⟨_, rfl, smear_step (k := 32) (smear_step (k := 16) (smear_step (k := 8)
      (smear_step (k := 4) (smear_step (k := 2) (smear_step (smear_one _))))))⟩

end Cista.Arith

namespace Cista.Arith

theorem addIfOk_eq (t : IntTy) (hb : 0 < t.bits) (a x : Int) (ha : t.InRange a) (hx : t.InRange x) :
    addIfOk t a x = if t.InRange (a + x) then .ok (a + x) else .error .exn := by
  obtain ⟨bits, signed⟩ := t
  have h2 : (2:Int) ^ (bits - 1) ≥ 1 := by
    have : (0:Int) < 2 ^ (bits - 1) := Int.pow_pos (by omega)
    omega
  have h3 : (2:Int) ^ bits ≥ 1 := by
    have : (0:Int) < 2 ^ bits := Int.pow_pos (by omega)
    omega
  unfold addIfOk IntTy.arith
  simp only [IntTy.InRange] at ha hx
  by_cases hx0 : x = 0
  · subst hx0
    simp [IntTy.InRange, ha]
  · simp only [hx0, if_false]
    cases signed <;> simp [IntTy.InRange, IntTy.min, IntTy.max] at ha hx ⊢
    · have : ¬ x < 0 := by omega
      have h' : 0 < x := by omega
      simp only [this, if_false, h', if_true]
      have e1 : x ≤ 2 ^ bits - 1 := by omega
      have e2 : (2:Int) ^ bits - 1 - x ≤ 2 ^ bits - 1 := by omega
      simp [e1, e2, pure, Except.pure, bind, Except.bind]
      by_cases hc : 2 ^ bits - 1 - x < a
      · have : ¬ (a + x ≤ 2 ^ bits - 1) := by omega
        simp [hc, this]
      · have : (a + x ≤ 2 ^ bits - 1) := by omega
        have h0 : 0 ≤ a + x := by omega
        simp [hc, this, h0]
    · by_cases hneg : x < 0
      · have h' : ¬ 0 < x := by omega
        simp only [hneg, if_true, h', if_false]
        have e1 : -(2:Int) ^ (bits - 1) ≤ -2 ^ (bits - 1) - x := by omega
        have e2 : -(2:Int) ^ (bits - 1) - x ≤ 2 ^ (bits - 1) - 1 := by omega
        simp [e1, e2, pure, Except.pure, bind, Except.bind]
        by_cases hc : a < -2 ^ (bits - 1) - x
        · have : ¬ (-(2:Int) ^ (bits - 1) ≤ a + x) := by omega
          simp [hc, this]
        · have : (-(2:Int) ^ (bits - 1) ≤ a + x) := by omega
          have h0 : a + x ≤ 2 ^ (bits - 1) - 1 := by omega
          simp [hc, this, h0]
      · have h' : 0 < x := by omega
        simp only [hneg, if_false, h', if_true]
        have e1 : -(2:Int) ^ (bits - 1) ≤ 2 ^ (bits - 1) - 1 - x := by omega
        have e2 : (2:Int) ^ (bits - 1) - 1 - x ≤ 2 ^ (bits - 1) - 1 := by omega
        simp [e1, e2, pure, Except.pure, bind, Except.bind]
        by_cases hc : 2 ^ (bits - 1) - 1 - x < a
        · have : ¬ (a + x ≤ 2 ^ (bits - 1) - 1) := by omega
          simp [hc, this]
        · have : (a + x ≤ 2 ^ (bits - 1) - 1) := by omega
          have h0 : -(2:Int) ^ (bits - 1) ≤ a + x := by omega
          simp [hc, this, h0]

theorem multiplyIfOk_eq (t : IntTy) (a x : Int) (ha0 : 0 ≤ a) (hx0 : 0 ≤ x)
    (ha : t.InRange a) (_hx : t.InRange x) :
    multiplyIfOk t a x = if t.InRange (a * x) then .ok (a * x) else .error .exn := by
  unfold multiplyIfOk IntTy.arith
  have hm : t.min ≤ 0 := by
    unfold IntTy.min
    split
    · have : (0:Int) < 2 ^ (t.bits - 1) := Int.pow_pos (by omega)
      omega
    · omega
  simp only [IntTy.InRange] at ha ⊢
  have hM : 0 ≤ t.max := by omega
  have hax : 0 ≤ a * x := Int.mul_nonneg ha0 hx0
  have hmin : t.min ≤ a * x := by omega
  by_cases h0 : a = 0
  · subst h0; simp [hM, hm]
  · have hapos : 0 < a := by omega
    have key : (Int.tdiv t.max a < x) ↔ ¬ (a * x ≤ t.max) := by
      rw [Int.tdiv_eq_ediv_of_nonneg hM, Int.ediv_lt_iff_lt_mul hapos, Int.mul_comm x a]
      omega
    by_cases h : a * x ≤ t.max
    · have : ¬ (Int.tdiv t.max a < x) := by rw [key]; simpa using h
      simp [this, h, hmin]
    · have : (Int.tdiv t.max a < x) := by rw [key]; exact h
      simp [this, h0, h]

theorem findIdx_range_spec (w : Nat) (p : Nat → Bool) (h : ∃ i, i < w ∧ p i = true) :
    (List.range w).findIdx p < w ∧ p ((List.range w).findIdx p) = true ∧
      ∀ j, j < (List.range w).findIdx p → p j = false := by
  have hlt : (List.range w).findIdx p < (List.range w).length := by
    rw [List.findIdx_lt_length]
    obtain ⟨i, hi, hp⟩ := h
    exact ⟨i, by simpa using hi, hp⟩
  have hlt' : (List.range w).findIdx p < w := by simpa using hlt
  refine ⟨hlt', ?_, ?_⟩
  · have := List.findIdx_getElem (w := hlt)
    simpa using this
  · intro j hj
    have := List.not_of_lt_findIdx hj
    simpa using this

theorem exists_bit_of_ne_zero {w : Nat} {t : BitVec w} (h : t ≠ 0#w) :
    ∃ i, i < w ∧ t.getLsbD i = true := by
  by_cases hx : ∃ i, i < w ∧ t.getLsbD i = true
  · exact hx
  · exfalso; apply h
    apply BitVec.eq_of_getLsbD_eq
    intro i hi
    simp
    cases hb : t.getLsbD i
    · rfl
    · exact absurd ⟨i, hi, hb⟩ hx

theorem and_one_eq_one {w : Nat} (hw : 0 < w) (t : BitVec w) (i : Nat) :
    ((t >>> i) &&& 1#w = 1#w) ↔ t.getLsbD i = true := by
  constructor
  · intro h
    have h0 := congrArg (fun v => v.getLsbD 0) h
    simp [hw] at h0
    exact h0
  · intro h
    apply BitVec.eq_of_getLsbD_eq
    intro j hj
    simp only [BitVec.getLsbD_and, BitVec.getLsbD_ushiftRight, BitVec.getLsbD_one]
    by_cases hj0 : j = 0
    · subst hj0; simp [h, hw]
    · simp [hj0]

theorem ctzLoop_spec {w : Nat} (hw : 0 < w) (t : BitVec w) (i fuel : Nat)
    (h : ∃ j, i ≤ j ∧ j < i + fuel ∧ t.getLsbD j = true) :
    t.getLsbD (ctzLoop t i fuel) = true ∧ i ≤ ctzLoop t i fuel ∧
      ∀ j, i ≤ j → j < ctzLoop t i fuel → t.getLsbD j = false := by
  induction fuel generalizing i with
  | zero => obtain ⟨j, h1, h2, _⟩ := h; omega
  | succ f ih =>
    unfold ctzLoop
    by_cases hb : t.getLsbD i = true
    · rw [if_pos ((and_one_eq_one hw t i).2 hb)]
      exact ⟨hb, by omega, fun j h1 h2 => by omega⟩
    · rw [if_neg (fun hc => hb ((and_one_eq_one hw t i).1 hc))]
      obtain ⟨j, h1, h2, h3⟩ := h
      have hne : j ≠ i := fun e => hb (e ▸ h3)
      obtain ⟨a, b, c⟩ := ih (i + 1) ⟨j, by omega, by omega, h3⟩
      refine ⟨a, by omega, fun j' h1' h2' => ?_⟩
      by_cases he : j' = i
      · subst he; simpa using hb
      · exact c j' (by omega) h2'

theorem ctzLoop_zero {w : Nat} (hw : 0 < w) (i fuel : Nat) : ctzLoop (0#w) i fuel = 0 := by
  induction fuel generalizing i with
  | zero => rfl
  | succ f ih =>
    unfold ctzLoop
    rw [if_neg]
    · exact ih _
    · rw [and_one_eq_one hw]; simp

theorem popcountUpTo_add {w : Nat} (t : BitVec w) (a b : Nat) :
    popcountUpTo t (a + b) = popcountUpTo t a + popcountUpTo (t >>> a) b := by
  unfold popcountUpTo
  rw [List.range_add, List.countP_append, List.countP_map]
  congr 1
  apply List.countP_congr
  intro i _
  simp [Function.comp]

end Cista.Arith
