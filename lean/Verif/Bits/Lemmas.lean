import Verif.Bits.Model

set_option linter.unusedSimpArgs false

/-! # Helper lemmas about block arrays -/
namespace Cista.Bits

variable {w : Nat}

/-- Block `i`, zero outside. -/
def blk (bs : Blocks w) (i : Nat) : BitVec w := bs.getD i 0#w

/-- Raw bit `i` of the block array, ignoring `size`. -/
def bit (bs : Blocks w) (i : Nat) : Bool := (blk bs (i / w)).getLsbD (i % w)

theorem rd_ok {bs : Blocks w} {i : Nat} (h : i < bs.length) : rd bs i = .ok (blk bs i) := by
  simp [rd, blk, List.getElem?_eq_getElem h]

theorem wr_ok {bs : Blocks w} {i : Nat} {v : BitVec w} (h : i < bs.length) :
    wr bs i v = .ok (bs.set i v) := by simp [wr, h]

theorem blk_set {bs : Blocks w} {i j : Nat} {v : BitVec w} (h : i < bs.length) :
    blk (bs.set i v) j = if j = i then v else blk bs j := by
  unfold blk
  rw [List.getD_eq_getElem?_getD, List.getD_eq_getElem?_getD]
  by_cases e : j = i
  · subst e; simp [h]
  · rw [List.getElem?_set_ne (by omega)]; simp [e]

theorem blk_out {bs : Blocks w} {i : Nat} (h : bs.length ≤ i) : blk bs i = 0#w := by
  unfold blk; simp [List.getD_eq_getElem?_getD, List.getElem?_eq_none h]

theorem bit_mul_add {bs : Blocks w} {q r : Nat} (h : r < w) :
    bit bs (q * w + r) = (blk bs q).getLsbD r := by
  unfold bit
  rw [Nat.mul_comm, Nat.mul_add_div (by omega), Nat.div_eq_of_lt h, Nat.mul_add_mod,
    Nat.mod_eq_of_lt h, Nat.add_zero]

theorem bit_out (hw : 0 < w) {bs : Blocks w} {i : Nat} (h : bs.length * w ≤ i) : bit bs i = false := by
  unfold bit
  rw [blk_out ((Nat.le_div_iff_mul_le hw).2 h)]
  simp

theorem testMask_eq (b : BitVec w) (i : Nat) (h : i < w) : testMask b i = b.getLsbD i := by
  unfold testMask
  have hb : ∀ j, (b &&& (1#w <<< i)).getLsbD j = (b.getLsbD j && decide (j = i)) := by
    intro j
    by_cases hj : j < w
    · simp [hj]
      by_cases e : j = i
      · subst e; simp
      · simp [e]; intro _ h2; omega
    · simp [BitVec.getLsbD_of_ge _ _ (Nat.le_of_not_lt hj)]
  cases hc : b.getLsbD i with
  | false =>
    have : b &&& (1#w <<< i) = 0#w := by
      apply BitVec.eq_of_getLsbD_eq
      intro j hj
      rw [hb]
      by_cases e : j = i
      · subst e; simp [hc]
      · simp [e]
    simp [this]
  | true =>
    have : b &&& (1#w <<< i) ≠ 0#w := by
      intro h0
      have := hb i
      rw [h0] at this
      simp [hc] at this
    simpa using this

theorem decomp (hw : 0 < w) (i : Nat) : i = i / w * w + i % w ∧ i % w < w :=
  ⟨by rw [Nat.mul_comm]; exact (Nat.div_add_mod i w).symm, Nat.mod_lt _ hw⟩

theorem numBlocks_mul (hw : 0 < w) (n : Nat) :
    n ≤ numBlocks w n * w ∧ numBlocks w n * w < n + w := by
  unfold numBlocks
  obtain ⟨h1, h2⟩ := decomp hw n
  split
  · rw [Nat.add_zero]
    omega
  · rw [Nat.add_mul]; omega

theorem numBlocks_pos {n : Nat} (hw : 0 < w) (h : 0 < n) : 0 < numBlocks w n := by
  have := (numBlocks_mul hw n).1
  rcases Nat.eq_zero_or_pos (numBlocks w n) with h0 | h0
  · rw [h0] at this; omega
  · exact h0

theorem numBlocks_zero (_hw : 0 < w) : numBlocks w 0 = 0 := by simp [numBlocks]

theorem div_lt_numBlocks (hw : 0 < w) {i n : Nat} (h : i < n) : i / w < numBlocks w n := by
  have := (numBlocks_mul hw n).1
  exact (Nat.div_lt_iff_lt_mul hw).2 (by omega)

/-- Position of the last block: `size = (numBlocks-1)*w + rem`, with `0 < rem ≤ w`. -/
theorem last_block (hw : 0 < w) {n : Nat} (h : 0 < n) :
    ∃ rem, n = (numBlocks w n - 1) * w + rem ∧ 0 < rem ∧ rem ≤ w ∧
      (n % w ≠ 0 → rem = n % w) ∧ (n % w = 0 → rem = w) := by
  obtain ⟨h1, h2⟩ := decomp hw n
  unfold numBlocks
  split
  · next h0 =>
    have hq : 0 < n / w := by
      rcases Nat.eq_zero_or_pos (n / w) with hz | hz
      · rw [hz] at h1; omega
      · exact hz
    refine ⟨w, ?_, hw, Nat.le_refl _, fun h => absurd h0 h, fun _ => rfl⟩
    rw [Nat.add_zero, Nat.sub_mul, Nat.one_mul]
    have : w ≤ n / w * w := Nat.le_mul_of_pos_left _ hq
    omega
  · next h0 =>
    refine ⟨n % w, ?_, by omega, by omega, fun _ => rfl, fun h => absurd h h0⟩
    rw [Nat.add_sub_cancel]; exact h1

/-! ## The observed list -/

/-- The booleans a bit array of `size` bits represents. -/
def abs (size : Nat) (bs : Blocks w) : List Bool := (List.range size).map (bit bs)

@[simp] theorem length_abs (size : Nat) (bs : Blocks w) : (abs size bs).length = size := by
  simp [abs]

theorem abs_getD {size : Nat} {bs : Blocks w} {i : Nat} (h : i < size) :
    (abs size bs).getD i false = bit bs i := by
  simp [abs, List.getD_eq_getElem?_getD, h]

theorem getD_out {l : List Bool} {i : Nat} (h : l.length ≤ i) : l.getD i false = false := by
  simp [List.getD_eq_getElem?_getD, List.getElem?_eq_none h]

theorem ext_getD {l l' : List Bool} (hl : l.length = l'.length)
    (h : ∀ i, i < l.length → l.getD i false = l'.getD i false) : l = l' := by
  apply List.ext_getElem hl
  intro i h1 h2
  have := h i h1
  simpa [List.getD_eq_getElem?_getD, h1, h2] using this

theorem abs_eq {size : Nat} {bs : Blocks w} {l : List Bool} (hl : l.length = size)
    (h : ∀ i, i < size → bit bs i = l.getD i false) : abs size bs = l := by
  apply ext_getD (by simp [hl])
  intro i hi
  simp at hi
  rw [abs_getD hi, h i hi]

/-! ## set / test -/

theorem setBit_ok (hw : 0 < w) {bs : Blocks w} {i : Nat} {v : Bool} (h : i / w < bs.length) :
    ∃ c, setBit bs i v = .ok c ∧ c.length = bs.length ∧
      ∀ j, bit c j = if j = i then v else bit bs j := by
  unfold setBit
  rw [rd_ok h]
  simp only [bind, Except.bind]
  rw [wr_ok h]
  refine ⟨_, rfl, by simp, ?_⟩
  intro j
  unfold bit
  rw [blk_set h]
  obtain ⟨hj1, hj2⟩ := decomp hw j
  obtain ⟨hi1, hi2⟩ := decomp hw i
  by_cases e : j / w = i / w
  · rw [if_pos e]
    have hji : j = i ↔ j % w = i % w := by
      constructor
      · intro h; rw [h]
      · intro h2; rw [e] at hj1; omega
    rw [e]
    cases v
    · simp only [Bool.false_eq_true, if_false]
      by_cases h2 : j % w = i % w
      · rw [if_pos (hji.2 h2), h2]
        simp [hi2]
      · rw [if_neg (fun h => h2 (hji.1 h))]
        simp [hj2]
        intro hb
        by_cases h3 : j % w < i % w
        · simp [h3]
        · simp [h3]
          try omega
    · simp only [if_true]
      by_cases h2 : j % w = i % w
      · rw [if_pos (hji.2 h2), h2]
        simp [hi2]
      · rw [if_neg (fun h => h2 (hji.1 h))]
        simp [hj2]
        intro h3 h4
        omega
  · rw [if_neg e, if_neg (fun h => e (by rw [h]))]

theorem test_eq (hw : 0 < w) {size : Nat} {bs : Blocks w} (hl : bs.length = numBlocks w size)
    (i : Nat) : test size bs i = .ok ((abs size bs).getD i false) := by
  unfold test
  split
  · next h => rw [getD_out (by simpa using h)]
  · next h =>
    rw [rd_ok (by rw [hl]; exact div_lt_numBlocks hw (by omega))]
    simp only [bind, Except.bind, pure, Except.pure]
    rw [testMask_eq _ _ (Nat.mod_lt _ hw), abs_getD (by omega)]
    rfl

/-! ## last block -/

theorem getLsbD_lowmask (b : BitVec w) (k j : Nat) :
    (b &&& ~~~((~~~(0#w)) <<< k)).getLsbD j = (b.getLsbD j && decide (j < k)) := by
  by_cases hj : j < w
  · simp [hj]
  · simp [BitVec.getLsbD_of_ge _ _ (Nat.le_of_not_lt hj)]

/-- The sanitised last block contains exactly the bits below `size`. -/
theorem sanitizedLast_ok (hw : 0 < w) {size : Nat} {bs : Blocks w}
    (hl : bs.length = numBlocks w size) (h : 0 < size) :
    ∃ b, sanitizedLast size bs = .ok b ∧
      ∀ r, r < w → b.getLsbD r =
        (decide ((bs.length - 1) * w + r < size) && bit bs ((bs.length - 1) * w + r)) := by
  have hpos : 0 < bs.length := by rw [hl]; exact numBlocks_pos hw h
  unfold sanitizedLast
  rw [rd_ok (by omega)]
  refine ⟨_, rfl, ?_⟩
  intro r hr
  rw [bit_mul_add hr]
  obtain ⟨rem, h1, h2, h3, h4, h5⟩ := last_block hw h
  rw [← hl] at h1
  by_cases h0 : size % w = 0
  · rw [if_neg (by simpa using h0)]
    have := h5 h0
    have : (bs.length - 1) * w + r < size := by omega
    simp [this]
  · rw [if_pos h0, getLsbD_lowmask, Bool.and_comm]
    congr 1
    have := h4 h0
    rw [decide_eq_decide]; omega

/-- The blocks with the last one sanitised: an array with the same observed bits and no
padding bits. -/
def sanitized (size : Nat) (bs : Blocks w) : Blocks w :=
  match sanitizedLast size bs with
  | .ok b => bs.set (bs.length - 1) b
  | .error _ => bs

theorem length_sanitized (size : Nat) (bs : Blocks w) : (sanitized size bs).length = bs.length := by
  unfold sanitized; split <;> simp

theorem bit_sanitized (hw : 0 < w) {size : Nat} {bs : Blocks w}
    (hl : bs.length = numBlocks w size) (i : Nat) :
    bit (sanitized size bs) i = (decide (i < size) && bit bs i) := by
  by_cases h : 0 < size
  · have hpos : 0 < bs.length := by rw [hl]; exact numBlocks_pos hw h
    obtain ⟨b, hb, hbit⟩ := sanitizedLast_ok hw hl h
    unfold sanitized
    rw [hb]
    simp only []
    obtain ⟨h1, h2⟩ := decomp hw i
    unfold bit
    rw [blk_set (by omega)]
    split
    · next e =>
      rw [hbit _ h2, ← e, ← h1]
      rfl
    · next e =>
      by_cases hlt : i / w < bs.length
      · have : i < size := by
          obtain ⟨rem, hs, h3, h4, _⟩ := last_block hw h
          rw [← hl] at hs
          have : (i / w + 1) * w ≤ (bs.length - 1) * w := Nat.mul_le_mul_right _ (by omega)
          rw [Nat.add_mul] at this
          omega
        simp [this]
      · rw [blk_out (by omega)]; simp
  · have h0 : size = 0 := by omega
    subst h0
    rw [numBlocks_zero hw] at hl
    have : bs = [] := List.length_eq_zero_iff.1 hl
    subst this
    simp [sanitized, sanitizedLast, rd, bind, Except.bind, bit, blk]

theorem blk_sanitized_lt {size : Nat} {bs : Blocks w} {i : Nat} (h : i < bs.length - 1) :
    blk (sanitized size bs) i = blk bs i := by
  unfold sanitized
  split
  · rw [blk_set (by omega), if_neg (by omega)]
  · rfl

theorem sanitizedLast_eq (hw : 0 < w) {size : Nat} {bs : Blocks w}
    (hl : bs.length = numBlocks w size) (h : 0 < size) :
    sanitizedLast size bs = .ok (blk (sanitized size bs) (bs.length - 1)) := by
  have hpos : 0 < bs.length := by rw [hl]; exact numBlocks_pos hw h
  obtain ⟨b, hb, _⟩ := sanitizedLast_ok hw hl h
  rw [hb]
  unfold sanitized
  rw [hb]
  simp only []
  rw [blk_set (by omega), if_pos rfl]

theorem blk_ext {a b : Blocks w} (h : ∀ i, bit a i = bit b i) (i : Nat) : blk a i = blk b i := by
  apply BitVec.eq_of_getLsbD_eq
  intro j hj
  rw [← bit_mul_add hj, ← bit_mul_add hj, h]

end Cista.Bits
