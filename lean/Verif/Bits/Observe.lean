import Verif.Bits.Loops

set_option linter.unusedSimpArgs false

/-! # Observers of block arrays in terms of the represented list -/
namespace Cista.Bits

variable {w : Nat}

theorem countP_range_mul (hw : 0 < w) (s : Blocks w) (n : Nat) :
    (List.range ((n + 1) * w)).countP (bit s) =
      (List.range (n * w)).countP (bit s) + Arith.popcount (blk s n) := by
  rw [Nat.add_mul, Nat.one_mul, List.range_add, List.countP_append, List.countP_map]
  congr 1
  unfold Arith.popcount Arith.popcountUpTo
  apply List.countP_congr
  intro r hr
  simp at hr
  simp [Function.comp, bit_mul_add hr]

theorem filter_range_mul (hw : 0 < w) (s : Blocks w) (n : Nat) :
    (List.range ((n + 1) * w)).filter (bit s) =
      (List.range (n * w)).filter (bit s) ++ checkBlock n (blk s n) := by
  rw [Nat.add_mul, Nat.one_mul, List.range_add, List.filter_append, List.filter_map]
  congr 1
  unfold checkBlock
  have hf : (List.range w).filter (bit s ∘ fun x => n * w + x) =
      (List.range w).filter (fun bit => testMask (blk s n) bit) := by
    apply List.filter_congr
    intro r hr
    simp at hr
    simp [Function.comp, bit_mul_add hr, testMask_eq _ _ hr]
  rw [hf]
  split
  · rfl
  · next h =>
    simp at h
    rw [h]
    have : (List.range w).filter (fun bit => testMask (0#w) bit) = [] := by
      rw [List.filter_eq_nil_iff]
      intro r hr
      simp at hr
      simp [testMask_eq _ _ hr]
    simp [this]

theorem range_size_filter {size n : Nat} {s bs : Blocks w} (h : size ≤ n)
    (hb : ∀ i, bit s i = (decide (i < size) && bit bs i)) :
    (List.range n).filter (bit s) = (List.range size).filter (bit bs) := by
  obtain ⟨d, rfl⟩ : ∃ d, n = size + d := ⟨n - size, by omega⟩
  rw [List.range_add, List.filter_append]
  have h1 : (List.range size).filter (bit s) = (List.range size).filter (bit bs) := by
    apply List.filter_congr
    intro i hi
    simp at hi
    rw [hb]; simp [hi]
  have h2 : ((List.range d).map (fun x => size + x)).filter (bit s) = [] := by
    rw [List.filter_eq_nil_iff]
    intro i hi
    simp at hi
    obtain ⟨a, _, rfl⟩ := hi
    rw [hb]; simp; intro h; omega
  rw [h1, h2, List.append_nil]

theorem countLoop_eq (hw : 0 < w) (bs : Blocks w) (n : Nat) (h : n ≤ bs.length) :
    countLoop bs n = .ok ((List.range (n * w)).countP (bit bs)) := by
  induction n with
  | zero => simp [countLoop]
  | succ n ih =>
    simp only [countLoop, ih (by omega), rd_ok (show n < bs.length by omega), bind, Except.bind,
      pure, Except.pure]
    rw [countP_range_mul hw]

theorem forEachLoop_eq (hw : 0 < w) (bs : Blocks w) (n : Nat) (h : n ≤ bs.length) :
    forEachLoop bs n = .ok ((List.range (n * w)).filter (bit bs)) := by
  induction n with
  | zero => simp [forEachLoop]
  | succ n ih =>
    simp only [forEachLoop, ih (by omega), rd_ok (show n < bs.length by omega), bind, Except.bind,
      pure, Except.pure]
    rw [filter_range_mul hw]

theorem bit_congr_lt (hw : 0 < w) {a b : Blocks w} {n : Nat} (h : ∀ j, j < n → blk a j = blk b j)
    {i : Nat} (hi : i < n * w) : bit a i = bit b i := by
  unfold bit
  rw [h _ ((Nat.div_lt_iff_lt_mul hw).2 hi)]

theorem forEach_eq (hw : 0 < w) {size : Nat} {bs : Blocks w} (hl : bs.length = numBlocks w size)
    (h : 0 < size) : forEachSetBit size bs = .ok ((List.range size).filter (bit bs)) := by
  have hpos : 0 < bs.length := by rw [hl]; exact numBlocks_pos hw h
  unfold forEachSetBit
  rw [forEachLoop_eq hw _ _ (by omega), sanitizedLast_eq hw hl h]
  simp only [bind, Except.bind, pure, Except.pure]
  congr 1
  have h1 : (List.range ((bs.length - 1) * w)).filter (bit bs) =
      (List.range ((bs.length - 1) * w)).filter (bit (sanitized size bs)) := by
    apply List.filter_congr
    intro i hi
    simp at hi
    exact (bit_congr_lt hw (fun j hj => (blk_sanitized_lt hj).symm) hi)
  rw [h1, ← filter_range_mul hw, Nat.sub_add_cancel (by omega)]
  apply range_size_filter _ (bit_sanitized hw hl)
  rw [hl]; exact (numBlocks_mul hw size).1

theorem countP_eq_length_filter_range (p : Nat → Bool) (n : Nat) :
    (List.range n).countP p = ((List.range n).filter p).length := List.countP_eq_length_filter

theorem count_eq (hw : 0 < w) {size : Nat} {bs : Blocks w} (hl : bs.length = numBlocks w size)
    (h : 0 < size) : count size bs = .ok ((List.range size).countP (bit bs)) := by
  have hpos : 0 < bs.length := by rw [hl]; exact numBlocks_pos hw h
  unfold count
  rw [countLoop_eq hw _ _ (by omega), sanitizedLast_eq hw hl h]
  simp only [bind, Except.bind, pure, Except.pure]
  congr 1
  have h1 : (List.range ((bs.length - 1) * w)).countP (bit bs) =
      (List.range ((bs.length - 1) * w)).countP (bit (sanitized size bs)) := by
    apply List.countP_congr
    intro i hi
    simp at hi
    rw [(bit_congr_lt hw (fun j hj => (blk_sanitized_lt hj).symm) hi)]
  rw [h1, ← countP_range_mul hw, Nat.sub_add_cancel (by omega), List.countP_eq_length_filter,
    range_size_filter _ (bit_sanitized hw hl), List.countP_eq_length_filter]
  rw [hl]; exact (numBlocks_mul hw size).1

theorem blk_ne_zero_iff (_hw : 0 < w) (b : BitVec w) : b ≠ 0#w ↔ ∃ r, r < w ∧ b.getLsbD r = true := by
  constructor
  · intro h
    by_cases h2 : ∃ r, r < w ∧ b.getLsbD r = true
    · exact h2
    · exfalso
      apply h
      apply BitVec.eq_of_getLsbD_eq
      intro i hi
      simp
      cases hb : b.getLsbD i
      · rfl
      · exact absurd ⟨i, hi, hb⟩ h2
  · rintro ⟨r, hr, hb⟩ rfl
    simp at hb

theorem anyLoop_eq (bs : Blocks w) (n : Nat) (h : n ≤ bs.length) :
    ∃ r, anyLoop bs n = .ok r ∧ (r = true ↔ ∃ q, q < n ∧ blk bs q ≠ 0#w) := by
  induction n with
  | zero => exact ⟨false, rfl, by simp⟩
  | succ n ih =>
    obtain ⟨r, hr, hi⟩ := ih (by omega)
    simp only [anyLoop, hr, bind, Except.bind]
    cases r with
    | true =>
      refine ⟨true, rfl, ?_⟩
      obtain ⟨q, h1, h2⟩ := hi.1 rfl
      exact ⟨fun _ => ⟨q, by omega, h2⟩, fun _ => rfl⟩
    | false =>
      simp only [Bool.false_eq_true, if_false, rd_ok (show n < bs.length by omega), pure, Except.pure]
      refine ⟨_, rfl, ?_⟩
      constructor
      · intro h
        exact ⟨n, by omega, by simpa using h⟩
      · rintro ⟨q, h1, h2⟩
        by_cases e : q = n
        · subst e; simpa using h2
        · exact absurd (hi.2 ⟨q, by omega, h2⟩) (by simp)

theorem any_eq (hw : 0 < w) {size : Nat} {bs : Blocks w} (hl : bs.length = numBlocks w size)
    (h : 0 < size) : ∃ r, any size bs = .ok r ∧ (r = true ↔ ∃ i, i < size ∧ bit bs i = true) := by
  have hpos : 0 < bs.length := by rw [hl]; exact numBlocks_pos hw h
  have key : (∃ q, q < bs.length ∧ blk (sanitized size bs) q ≠ 0#w) ↔ ∃ i, i < size ∧ bit bs i = true := by
    constructor
    · rintro ⟨q, _, hq⟩
      obtain ⟨r, hr, hb⟩ := (blk_ne_zero_iff hw _).1 hq
      rw [← bit_mul_add hr, bit_sanitized hw hl] at hb
      simp at hb
      exact ⟨_, hb⟩
    · rintro ⟨i, hi, hb⟩
      refine ⟨i / w, by rw [hl]; exact div_lt_numBlocks hw hi, (blk_ne_zero_iff hw _).2 ⟨i % w, Nat.mod_lt _ hw, ?_⟩⟩
      have := bit_sanitized hw hl i
      unfold bit at this
      rw [this]
      simp [hi]
      exact hb
  unfold any
  obtain ⟨r, hr, hi⟩ := anyLoop_eq bs (bs.length - 1) (by omega)
  rw [hr, sanitizedLast_eq hw hl h]
  simp only [bind, Except.bind]
  cases r with
  | true =>
    refine ⟨true, rfl, ?_⟩
    obtain ⟨q, h1, h2⟩ := hi.1 rfl
    rw [← blk_sanitized_lt (size := size) h1] at h2
    exact ⟨fun _ => key.1 ⟨q, by omega, h2⟩, fun _ => rfl⟩
  | false =>
    simp only [Bool.false_eq_true, if_false, pure, Except.pure]
    refine ⟨_, rfl, ?_⟩
    rw [← key]
    constructor
    · intro h; exact ⟨bs.length - 1, by omega, by simpa using h⟩
    · rintro ⟨q, h1, h2⟩
      by_cases e : q = bs.length - 1
      · subst e; simpa using h2
      · have h3 : q < bs.length - 1 := by omega
        rw [blk_sanitized_lt h3] at h2
        exact absurd (hi.2 ⟨q, h3, h2⟩) (by simp)

theorem eqLoop_eq (a b : Blocks w) (n : Nat) (h : n ≤ a.length) (h' : n ≤ b.length) :
    ∃ r, eqLoop a b n = .ok r ∧ (r = true ↔ ∀ q, q < n → blk a q = blk b q) := by
  induction n with
  | zero => exact ⟨true, rfl, by simp⟩
  | succ n ih =>
    obtain ⟨r, hr, hi⟩ := ih (by omega) (by omega)
    simp only [eqLoop, hr, bind, Except.bind]
    cases r with
    | false =>
      refine ⟨false, rfl, ?_⟩
      constructor
      · intro h; simp at h
      · intro h; exact hi.2 (fun q hq => h q (by omega))
    | true =>
      simp only [Bool.not_true, Bool.false_eq_true, if_false, rd_ok (show n < a.length by omega),
        rd_ok (show n < b.length by omega), pure, Except.pure]
      refine ⟨_, rfl, ?_⟩
      constructor
      · intro h q hq
        by_cases e : q = n
        · subst e; simpa using h
        · exact hi.1 rfl q (by omega)
      · intro h; simpa using h n (by omega)

theorem abs_eq_abs_iff (hw : 0 < w) {size : Nat} {a b : Blocks w} (ha : a.length = numBlocks w size)
    (hb : b.length = numBlocks w size) :
    abs size a = abs size b ↔ ∀ q, q < a.length → blk (sanitized size a) q = blk (sanitized size b) q := by
  constructor
  · intro h q _
    apply blk_ext
    intro i
    rw [bit_sanitized hw ha, bit_sanitized hw hb]
    by_cases hi : i < size
    · have := congrArg (fun l => l.getD i false) h
      simp only [abs_getD hi] at this
      rw [this]
    · simp [hi]
  · intro h
    apply abs_eq (by simp)
    intro i hi
    rw [abs_getD hi]
    have h1 := bit_sanitized hw ha i
    have h2 := bit_sanitized hw hb i
    simp only [hi, decide_true, Bool.true_and] at h1 h2
    rw [← h1, ← h2]
    unfold bit
    rw [h _ (by rw [ha]; exact div_lt_numBlocks hw hi)]

theorem eq_eq (hw : 0 < w) {size : Nat} {a b : Blocks w} (ha : a.length = numBlocks w size)
    (hb : b.length = numBlocks w size) (h : 0 < size) :
    eq size a b = .ok (decide (abs size a = abs size b)) := by
  have hpos : 0 < a.length := by rw [ha]; exact numBlocks_pos hw h
  have hab : a.length = b.length := by rw [ha, hb]
  unfold eq
  obtain ⟨r, hr, hi⟩ := eqLoop_eq a b (a.length - 1) (by omega) (by omega)
  rw [hr, sanitizedLast_eq hw ha h, sanitizedLast_eq hw hb h]
  simp only [bind, Except.bind]
  have iff := abs_eq_abs_iff hw ha hb
  cases r with
  | false =>
    simp only [Bool.not_false, if_true, pure, Except.pure]
    congr 1
    symm
    rw [decide_eq_false_iff_not, iff]
    intro hall
    have := hi.2 (fun q hq => by
      have := hall q (by omega)
      rwa [blk_sanitized_lt hq, blk_sanitized_lt (by omega)] at this)
    simp at this
  | true =>
    simp only [Bool.not_true, Bool.false_eq_true, if_false, pure, Except.pure]
    congr 1
    rw [Bool.eq_iff_iff, decide_eq_true_iff, iff, ← hab]
    constructor
    · intro he q hq
      by_cases e : q = a.length - 1
      · subst e; simpa using he
      · rw [blk_sanitized_lt (by omega), blk_sanitized_lt (by omega)]
        exact hi.1 rfl q (by omega)
    · intro h
      simpa using h (a.length - 1) (by omega)

/-! ## Order -/

/-- Number with the given bits, least significant first. -/
def natOf : List Bool → Nat
  | [] => 0
  | b :: l => b.toNat + 2 * natOf l

/-- Number with the given blocks, least significant first. -/
def val : Blocks w → Nat
  | [] => 0
  | b :: l => b.toNat + 2 ^ w * val l

theorem testBit_natOf (l : List Bool) (i : Nat) : (natOf l).testBit i = l.getD i false := by
  induction l generalizing i with
  | nil => simp [natOf]
  | cons b l ih =>
    cases i with
    | zero =>
      cases b <;> simp [natOf, Nat.testBit_zero] <;> omega
    | succ i =>
      rw [Nat.testBit_succ]
      have : natOf (b :: l) / 2 = natOf l := by cases b <;> simp [natOf] <;> omega
      rw [this, ih]
      simp

theorem testBit_val (hw : 0 < w) (bs : Blocks w) (i : Nat) : (val bs).testBit i = bit bs i := by
  induction bs generalizing i with
  | nil => simp [val, bit, blk]
  | cons b l ih =>
    have e : val (b :: l) = 2 ^ w * val l + b.toNat := by simp [val]; omega
    rw [e, Nat.testBit_two_pow_mul_add _ b.isLt]
    split
    · next h =>
      unfold bit
      rw [Nat.div_eq_of_lt h, Nat.mod_eq_of_lt h]
      simp [blk, BitVec.getLsbD]
    · next h =>
      rw [ih]
      unfold bit
      have h1 : i / w = (i - w) / w + 1 := by
        rw [← Nat.add_div_right _ hw]; congr 1; omega
      have h2 : i % w = (i - w) % w := by
        rw [← Nat.add_mod_right (i - w) w]; congr 1; omega
      rw [h1, h2]
      simp [blk]

theorem val_sanitized (hw : 0 < w) {size : Nat} {bs : Blocks w} (hl : bs.length = numBlocks w size) :
    val (sanitized size bs) = natOf (abs size bs) := by
  apply Nat.eq_of_testBit_eq
  intro i
  rw [testBit_val hw, testBit_natOf, bit_sanitized hw hl]
  by_cases h : i < size
  · rw [abs_getD h]; simp [h]
  · rw [getD_out (by simp; omega)]; simp [h]

theorem val_drop {bs : Blocks w} {j : Nat} (h : j < bs.length) :
    val (bs.drop j) = (blk bs j).toNat + 2 ^ w * val (bs.drop (j + 1)) := by
  rw [List.drop_eq_getElem_cons h]
  simp [val, blk, List.getD_eq_getElem?_getD, h]

/-- Comparison state of the descending loop at level `j`. -/
def CmpState (a b : Blocks w) (j : Nat) (st : Option Bool) : Prop :=
  match st with
  | none => val (a.drop j) = val (b.drop j)
  | some true => val (a.drop j) < val (b.drop j)
  | some false => val (b.drop j) < val (a.drop j)

theorem cmp_step {a b : Blocks w} {j : Nat} (ha : j < a.length) (hb : j < b.length)
    {st : Option Bool} (h : CmpState a b (j + 1) st) :
    CmpState a b j (match st with
      | some r => some r
      | none => if blk a j < blk b j then some true else if blk b j < blk a j then some false
        else none) := by
  have h1 := val_drop ha
  have h2 := val_drop hb
  have l1 := (blk a j).isLt
  have l2 := (blk b j).isLt
  have aux : ∀ x y u v : Nat, x < 2 ^ w → u < v → x + 2 ^ w * u < y + 2 ^ w * v := by
    intro x y u v hx huv
    have : 2 ^ w * (u + 1) ≤ 2 ^ w * v := Nat.mul_le_mul_left _ huv
    rw [Nat.mul_add] at this
    omega
  match st, h with
  | some true, h => simp only [CmpState] at *; rw [h1, h2]; exact aux _ _ _ _ l1 h
  | some false, h => simp only [CmpState] at *; rw [h1, h2]; exact aux _ _ _ _ l2 h
  | none, h =>
    simp only [CmpState] at h
    simp only [BitVec.lt_def]
    by_cases c1 : (blk a j).toNat < (blk b j).toNat
    · simp only [c1, if_true, CmpState]; rw [h1, h2, h]; omega
    · by_cases c2 : (blk b j).toNat < (blk a j).toNat
      · simp only [c1, c2, if_true, if_false, CmpState]; rw [h1, h2, h]; omega
      · simp only [c1, c2, if_false, CmpState]; rw [h1, h2, h]; omega

/-- The loop, started when the blocks from `L-1` on are equal, in terms of arrays `a'`,`b'` that
agree with `a`,`b` below the last block. -/
theorem ltLoop_ok {a b a' b' : Blocks w} {L : Nat} (hL : 0 < L) (ha : a.length = L)
    (hb : b.length = L) (ha' : a'.length = L) (hb' : b'.length = L)
    (ea : ∀ j, j < L - 1 → blk a' j = blk a j) (eb : ∀ j, j < L - 1 → blk b' j = blk b j)
    (h0 : CmpState a' b' (L - 1) none) (t : Nat) (ht : t ≤ L - 1) :
    ∃ st, ltLoop a b t = .ok st ∧ CmpState a' b' (L - 1 - t) st := by
  induction t with
  | zero => exact ⟨none, rfl, h0⟩
  | succ t ih =>
    obtain ⟨st, hst, hc⟩ := ih (by omega)
    rw [show L - 1 - t = (L - 1 - (t + 1)) + 1 by omega] at hc
    have := cmp_step (by omega) (by omega) hc
    refine ⟨_, ?_, this⟩
    simp only [ltLoop, hst, bind, Except.bind]
    cases st with
    | some r => rfl
    | none =>
      simp only [pure, Except.pure]
      rw [rd_ok (by omega), rd_ok (by omega)]
      simp only []
      rw [ea _ (by omega), eb _ (by omega), ha, show L - 2 - t = L - 1 - (t + 1) by omega]

theorem lt_eq (hw : 0 < w) {size : Nat} {a b : Blocks w} (ha : a.length = numBlocks w size)
    (hb : b.length = numBlocks w size) (h : 0 < size) :
    lt size a b = .ok (decide (natOf (abs size a) < natOf (abs size b))) := by
  have hpos : 0 < a.length := by rw [ha]; exact numBlocks_pos hw h
  have hab : b.length = a.length := by rw [ha, hb]
  have la := length_sanitized size a
  have lb := length_sanitized size b
  unfold lt
  rw [sanitizedLast_eq hw ha h, sanitizedLast_eq hw hb h]
  simp only [bind, Except.bind]
  rw [hab] at lb ⊢
  have hinit : CmpState (sanitized size a) (sanitized size b) (a.length - 1 + 1) none := by
    simp only [CmpState]
    rw [List.drop_of_length_le (by omega), List.drop_of_length_le (by omega)]
  have hlast := cmp_step (j := a.length - 1) (by omega) (by omega) hinit
  simp only [] at hlast
  have esb : ∀ j, j < a.length - 1 → blk (sanitized size b) j = blk b j :=
    fun j hj => blk_sanitized_lt (by omega)
  rw [← val_sanitized hw ha, ← val_sanitized hw hb]
  have fin : ∀ st, CmpState (sanitized size a) (sanitized size b) 0 st →
      decide (val (sanitized size a) < val (sanitized size b)) = st.getD false := by
    intro st hst
    match st, hst with
    | none, hst => simp only [CmpState, List.drop_zero] at hst; simp [hst]
    | some true, hst => simp only [CmpState, List.drop_zero] at hst; simp [hst]
    | some false, hst => simp only [CmpState, List.drop_zero] at hst; simp; omega
  have down : ∀ r : Bool, ∀ n, n ≤ a.length → CmpState (sanitized size a) (sanitized size b) n (some r) →
      CmpState (sanitized size a) (sanitized size b) 0 (some r) := by
    intro r n
    induction n with
    | zero => intro _ h; exact h
    | succ n ih =>
      intro hn h
      have := cmp_step (by omega) (by omega) h
      exact ih (by omega) this
  by_cases c1 : blk (sanitized size a) (a.length - 1) < blk (sanitized size b) (a.length - 1)
  · rw [if_pos c1] at hlast ⊢
    rw [fin _ (down _ _ (by omega) hlast)]
    rfl
  · rw [if_neg c1] at hlast ⊢
    by_cases c2 : blk (sanitized size b) (a.length - 1) < blk (sanitized size a) (a.length - 1)
    · rw [if_pos c2] at hlast ⊢
      rw [fin _ (down _ _ (by omega) hlast)]
      rfl
    · rw [if_neg c2] at hlast ⊢
      obtain ⟨st, hst, hc⟩ := ltLoop_ok hpos rfl hab la lb
        (fun j hj => blk_sanitized_lt hj) esb hlast
        (a.length - 1) (Nat.le_refl _)
      rw [Nat.sub_self] at hc
      rw [hst, fin _ hc]
      cases st <;> rfl

/-! ## Text -/

theorem strLoop_eq (hw : 0 < w) {size : Nat} {bs : Blocks w} (hl : bs.length = numBlocks w size)
    (n : Nat) : strLoop size bs n = .ok ((List.range n).map fun i =>
      if (abs size bs).getD (size - i - 1) false then '1' else '0') := by
  induction n with
  | zero => rfl
  | succ n ih =>
    simp only [strLoop, ih, test_eq hw hl, bind, Except.bind, pure, Except.pure, List.range_succ,
      List.map_append, List.map_cons, List.map_nil]

theorem str_eq (hw : 0 < w) {size : Nat} {bs : Blocks w} (hl : bs.length = numBlocks w size) :
    str size bs = .ok ((abs size bs).reverse.map fun b => if b then '1' else '0') := by
  unfold str
  rw [strLoop_eq hw hl]
  congr 1
  apply List.ext_getElem
  · simp
  · intro i h1 h2
    simp at h1
    have h3 : size - i - 1 < size := by omega
    simp only [List.getElem_map, List.getElem_range, List.getElem_reverse]
    rw [List.getD_eq_getElem?_getD, List.getElem?_eq_getElem (by simpa using h3)]
    simp only [Option.getD_some, length_abs]
    congr 2
    congr 1
    omega

/-! ## next_set_bit -/

theorem find_range' (p : Nat → Bool) (lo n : Nat) :
    match (List.range' lo n).find? p with
    | none => ∀ j, lo ≤ j → j < lo + n → p j = false
    | some k => lo ≤ k ∧ k < lo + n ∧ p k = true ∧ ∀ j, lo ≤ j → j < k → p j = false := by
  induction n generalizing lo with
  | zero => simp; intro j h1 h2; omega
  | succ n ih =>
    rw [List.range'_succ, List.find?_cons]
    cases hp : p lo with
    | true => simp [hp]; intro j h1 h2; omega
    | false =>
      have := ih (lo + 1)
      simp only []
      split
      · next h =>
        rw [h] at this
        intro j h1 h2
        by_cases e : j = lo
        · rw [e]; exact hp
        · exact this j (by omega) (by omega)
      · next k h =>
        rw [h] at this
        obtain ⟨a, b, c, d⟩ := this
        refine ⟨by omega, by omega, c, ?_⟩
        intro j h1 h2
        by_cases e : j = lo
        · rw [e]; exact hp
        · exact d j (by omega) h2

/-- Scanning result over the raw bits `[lo, hi)`: first set bit or none. -/
def Scan (s : Blocks w) (lo hi : Nat) (r : Option Nat) : Prop :=
  match r with
  | none => ∀ j, lo ≤ j → j < hi → bit s j = false
  | some k => lo ≤ k ∧ k < hi ∧ bit s k = true ∧ ∀ j, lo ≤ j → j < k → bit s j = false

theorem scan_block (hw : 0 < w) (s : Blocks w) (q lo hi : Nat) (hhi : hi ≤ w) (hlo : lo ≤ hi)
    (b : BitVec w) (hb : b = blk s q) :
    Scan s (q * w + lo) (q * w + hi)
      (if b ≠ 0#w then (findBit b lo hi).map (fun bit => q * w + bit) else none) := by
  subst hb
  split
  · next hne =>
    unfold findBit
    have := find_range' (fun bit => testMask (blk s q) bit) lo (hi - lo)
    split at this
    · next h =>
      rw [h]
      intro j h1 h2
      obtain ⟨d, rfl⟩ : ∃ d, j = q * w + d := ⟨j - q * w, by omega⟩
      have := this d (by omega) (by omega)
      rw [bit_mul_add (by omega)]
      rwa [testMask_eq _ _ (by omega)] at this
    · next k h =>
      rw [h]
      obtain ⟨a, b, c, d⟩ := this
      rw [testMask_eq _ _ (by omega)] at c
      simp only [Option.map_some, Scan]
      refine ⟨by omega, by omega, by rw [bit_mul_add (by omega)]; exact c, ?_⟩
      intro j h1 h2
      obtain ⟨e, rfl⟩ : ∃ d, j = q * w + d := ⟨j - q * w, by omega⟩
      have := d e (by omega) (by omega)
      rw [bit_mul_add (by omega)]
      rwa [testMask_eq _ _ (by omega)] at this
  · next hne =>
    simp at hne
    intro j h1 h2
    obtain ⟨d, rfl⟩ : ∃ d, j = q * w + d := ⟨j - q * w, by omega⟩
    rw [bit_mul_add (by omega), hne]
    simp

theorem scan_append {s : Blocks w} {a b c : Nat} {r : Option Nat} (h1 : Scan s a b none)
    (hab : a ≤ b) (h2 : Scan s b c r) : Scan s a c r := by
  cases r with
  | none =>
    intro j ha hc
    by_cases h : j < b
    · exact h1 j ha h
    · exact h2 j (by omega) hc
  | some k =>
    obtain ⟨x, y, z, u⟩ := h2
    refine ⟨by omega, y, z, ?_⟩
    intro j ha hc
    by_cases h : j < b
    · exact h1 j ha h
    · exact u j (by omega) hc

theorem scan_extend {s : Blocks w} {a b c k : Nat} (h : Scan s a b (some k)) (hbc : b ≤ c) :
    Scan s a c (some k) := ⟨h.1, by have := h.2.1; omega, h.2.2.1, h.2.2.2⟩

theorem nextLoop_ok (hw : 0 < w) (bs : Blocks w) (first n : Nat) (h : first + 1 + n ≤ bs.length) :
    ∃ r, nextLoop bs first n = .ok r ∧ Scan bs ((first + 1) * w) ((first + 1 + n) * w) r := by
  induction n with
  | zero => exact ⟨none, rfl, fun j h1 h2 => by rw [Nat.add_zero] at h2; omega⟩
  | succ n ih =>
    obtain ⟨r, hr, hs⟩ := ih (by omega)
    simp only [nextLoop, hr, bind, Except.bind]
    have e : (first + 1 + (n + 1)) * w = (first + 1 + n) * w + w := by
      rw [show first + 1 + (n + 1) = first + 1 + n + 1 by omega, Nat.add_mul, Nat.one_mul]
    cases r with
    | some k => exact ⟨some k, rfl, scan_extend hs (by omega)⟩
    | none =>
      simp only [rd_ok (show first + 1 + n < bs.length by omega), pure, Except.pure]
      refine ⟨_, rfl, ?_⟩
      have hb := scan_block hw bs (first + 1 + n) 0 w (Nat.le_refl _) (by omega) _ rfl
      rw [e]
      exact scan_append hs (Nat.mul_le_mul_right _ (by omega)) hb

/-- `next_set_bit` scans the raw bits up to `hi`: up to `size`, except that a scan starting in the
last of several blocks also looks at the padding bits. -/
theorem nextSetBit_ok (hw : 0 < w) {size : Nat} {bs : Blocks w} (hl : bs.length = numBlocks w size)
    (i : Nat) (hi : i < size)
    (hpad : i / w + 1 ≠ bs.length ∨ size ≤ w ∨ ∀ j, size ≤ j → bit bs j = false) :
    ∃ r, nextSetBit size bs i = .ok r ∧ Scan (sanitized size bs) i size r := by
  have hs0 : 0 < size := by omega
  have hq : i / w < bs.length := by rw [hl]; exact div_lt_numBlocks hw hi
  obtain ⟨hd1, hd2⟩ := decomp hw i
  obtain ⟨rem, hsz, hr1, hr2, hr3, hr4⟩ := last_block hw hs0
  rw [← hl] at hsz
  have hsan := bit_sanitized hw hl
  unfold nextSetBit
  rw [if_neg (by omega)]
  simp only []
  rw [rd_ok hq]
  simp only [bind, Except.bind]
  have himin : i % w ≤ min size w := by
    have : i % w ≤ i := Nat.mod_le _ _
    omega
  have hfirst := scan_block hw bs (i / w) (i % w) (min size w) (by omega) himin _ rfl
  rw [← hd1] at hfirst
  generalize hres : (if blk bs (i / w) ≠ 0#w then
    (findBit (blk bs (i / w)) (i % w) (min size w)).map (fun bit => i / w * w + bit) else none) = res at hfirst
  -- the first block, restricted to the bits below `size`
  have conv : ∀ lo hi r, hi ≤ size → Scan bs lo hi r → Scan (sanitized size bs) lo hi r := by
    intro lo hi r hhi h
    cases r with
    | none =>
      intro j h1 h2
      rw [hsan]; simp [h j h1 h2]
    | some k =>
      obtain ⟨a, b, c, d⟩ := h
      refine ⟨a, b, by rw [hsan, c]; simp; omega, ?_⟩
      intro j h1 h2
      rw [hsan]; simp [d j h1 h2]
  by_cases hlastq : i / w + 1 = bs.length
  · -- starting in the last block
    have hqe : bs.length - 1 = i / w := by rw [← hlastq]; rfl
    rw [hqe] at hsz
    have hcut : Scan (sanitized size bs) i size res := by
      by_cases hsw : size ≤ w
      · have hlen1 : numBlocks w size = 1 := by
          have h1 := (numBlocks_mul hw size).2
          have h2 := numBlocks_pos hw hs0
          rcases Nat.lt_or_ge (numBlocks w size) 2 with h3 | h3
          · omega
          · have : 2 * w ≤ numBlocks w size * w := Nat.mul_le_mul_right _ h3
            omega
        have hq0 : i / w = 0 := by
          rw [hl, hlen1] at hq; exact Nat.lt_one_iff.1 hq
        rw [hq0] at hfirst
        apply conv _ _ _ (Nat.le_refl _)
        rw [Nat.min_eq_left hsw, Nat.zero_mul, Nat.zero_add] at hfirst
        exact hfirst
      · have hclean : ∀ j, size ≤ j → bit bs j = false := by
          rcases hpad with h | h | h
          · exact absurd hlastq h
          · exact absurd h hsw
          · exact h
        rw [show min size w = w by omega] at hfirst
        have hle : size ≤ i / w * w + w := by omega
        cases res with
        | none => exact conv _ _ _ (Nat.le_refl _) (fun j h1 h2 => hfirst j h1 (by omega))
        | some k =>
          obtain ⟨a, b, c, d⟩ := hfirst
          have hk : k < size := by
            rcases Nat.lt_or_ge k size with h | h
            · exact h
            · rw [hclean k h] at c; cases c
          exact conv _ _ _ (Nat.le_refl _) ⟨a, hk, c, d⟩
    cases res with
    | some k => exact ⟨some k, rfl, hcut⟩
    | none =>
      simp only [pure, Except.pure]
      rw [if_pos hlastq]
      exact ⟨none, rfl, hcut⟩
  · -- there are later blocks
    have hge : i / w + 2 ≤ bs.length := by omega
    have hbl : (i / w + 1) * w ≤ (bs.length - 1) * w := Nat.mul_le_mul_right _ (by omega)
    have e1 : (i / w + 1) * w = i / w * w + w := by rw [Nat.add_mul, Nat.one_mul]
    have hws : w ≤ size := by omega
    have hil : i ≤ (bs.length - 1) * w := by omega
    clear himin
    rw [Nat.min_eq_right hws] at hfirst
    cases res with
    | some k => exact ⟨some k, rfl, scan_extend (conv _ _ _ (by omega) hfirst) (by omega)⟩
    | none =>
      simp only [pure, Except.pure]
      rw [if_neg hlastq]
      obtain ⟨r, hr, hsc⟩ := nextLoop_ok hw bs (i / w) (bs.length - 1 - (i / w + 1)) (by omega)
      rw [Nat.add_sub_cancel' (show i / w + 1 ≤ bs.length - 1 from Nat.le_sub_of_add_le hge), e1] at hsc
      rw [hr]
      have h12 := scan_append hfirst (by omega) hsc
      cases r with
      | some k => exact ⟨some k, rfl, scan_extend (conv _ _ _ (by omega) h12) (by omega)⟩
      | none =>
        simp only [sanitizedLast_eq hw hl hs0]
        refine ⟨_, rfl, ?_⟩
        have hb := scan_block hw (sanitized size bs) (bs.length - 1) 0 w (Nat.le_refl _) (by omega) _ rfl
        have hfin := scan_append (conv _ _ _ (by omega) h12) (by omega) hb
        change Scan _ _ _ (nextInBlock (bs.length - 1) _) at hfin
        generalize nextInBlock (bs.length - 1) (blk (sanitized size bs) (bs.length - 1)) = r at *
        cases r with
        | none => exact fun j h1 h2 => hfin j h1 (by omega)
        | some k =>
          obtain ⟨a, b, c, d⟩ := hfin
          refine ⟨a, ?_, c, d⟩
          rw [hsan] at c
          simp at c
          exact c.1

end Cista.Bits
