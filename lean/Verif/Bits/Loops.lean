import Verif.Bits.Lemmas

set_option linter.unusedSimpArgs false

/-! # Loops over block arrays -/
namespace Cista.Bits

variable {w : Nat}

theorem zeroLoop_ok (start : Nat) (bs : Blocks w) (n : Nat) (h : start + n ≤ bs.length) :
    ∃ c, zeroLoop start bs n = .ok c ∧ c.length = bs.length ∧
      ∀ j, blk c j = if start ≤ j ∧ j < start + n then 0#w else blk bs j := by
  induction n with
  | zero => exact ⟨bs, rfl, rfl, fun j => by rw [if_neg (by omega)]⟩
  | succ n ih =>
    obtain ⟨c, hc, hl, hb⟩ := ih (by omega)
    refine ⟨c.set (start + n) 0#w, ?_, by simp [hl], ?_⟩
    · simp only [zeroLoop, hc, bind, Except.bind]
      rw [wr_ok (by omega)]
    · intro j
      rw [blk_set (by omega), hb]
      by_cases e : j = start + n
      · rw [if_pos e, if_pos (by omega)]
      · rw [if_neg e]
        by_cases h2 : start ≤ j ∧ j < start + n
        · rw [if_pos h2, if_pos (by omega)]
        · rw [if_neg h2, if_neg (by omega)]

theorem shrBlockLoop_ok (sb : Nat) (bs : Blocks w) (n : Nat) (h : n + sb ≤ bs.length) :
    ∃ c, shrBlockLoop sb bs n = .ok c ∧ c.length = bs.length ∧
      ∀ j, blk c j = if j < n then blk bs (j + sb) else blk bs j := by
  induction n with
  | zero => exact ⟨bs, rfl, rfl, fun j => by rw [if_neg (by omega)]⟩
  | succ n ih =>
    obtain ⟨c, hc, hl, hb⟩ := ih (by omega)
    refine ⟨c.set n (blk c (n + sb)), ?_, by simp [hl], ?_⟩
    · simp only [shrBlockLoop, hc, bind, Except.bind]
      rw [rd_ok (by omega)]
      simp only []
      rw [wr_ok (by omega)]
    · intro j
      rw [blk_set (by omega)]
      by_cases e : j = n
      · subst e
        rw [if_pos rfl, hb, if_neg (by omega), if_pos (by omega)]
      · rw [if_neg e, hb]
        by_cases h2 : j < n
        · rw [if_pos h2, if_pos (by omega)]
        · rw [if_neg h2, if_neg (by omega)]

theorem shrLoop_ok (sb k : Nat) (bs : Blocks w) (n : Nat) (h : n + sb + 1 ≤ bs.length) :
    ∃ c, shrLoop sb k bs n = .ok c ∧ c.length = bs.length ∧
      ∀ j, blk c j = if j < n then (blk bs (j + sb) >>> k) ||| (blk bs (j + sb + 1) <<< (w - k))
        else blk bs j := by
  induction n with
  | zero => exact ⟨bs, rfl, rfl, fun j => by rw [if_neg (by omega)]⟩
  | succ n ih =>
    obtain ⟨c, hc, hl, hb⟩ := ih (by omega)
    refine ⟨c.set n ((blk c (n + sb) >>> k) ||| (blk c (n + sb + 1) <<< (w - k))), ?_,
      by simp [hl], ?_⟩
    · simp only [shrLoop, hc, bind, Except.bind]
      rw [rd_ok (by omega), rd_ok (by omega)]
      simp only []
      rw [wr_ok (by omega)]
    · intro j
      rw [blk_set (by omega)]
      by_cases e : j = n
      · subst e
        rw [if_pos rfl, hb, hb, if_neg (by omega), if_neg (by omega), if_pos (by omega)]
      · rw [if_neg e, hb]
        by_cases h2 : j < n
        · rw [if_pos h2, if_pos (by omega)]
        · rw [if_neg h2, if_neg (by omega)]

theorem shlBlockLoop_ok (sb : Nat) (bs : Blocks w) (n : Nat) (h : n + sb ≤ bs.length) :
    ∃ c, shlBlockLoop sb bs n = .ok c ∧ c.length = bs.length ∧
      ∀ j, j < bs.length →
        blk c j = if bs.length - n ≤ j then blk bs (j - sb) else blk bs j := by
  induction n with
  | zero => exact ⟨bs, rfl, rfl, fun j hj => by rw [if_neg (by omega)]⟩
  | succ n ih =>
    obtain ⟨c, hc, hl, hb⟩ := ih (by omega)
    refine ⟨c.set (bs.length - 1 - n) (blk c (bs.length - 1 - n - sb)), ?_, by simp [hl], ?_⟩
    · simp only [shlBlockLoop, hc, bind, Except.bind]
      rw [rd_ok (by omega)]
      simp only []
      rw [wr_ok (by omega)]
    · intro j hj
      rw [blk_set (by omega)]
      by_cases e : j = bs.length - 1 - n
      · subst e
        rw [if_pos rfl, hb _ (by omega), if_neg (by omega), if_pos (by omega)]
      · rw [if_neg e, hb _ hj]
        by_cases h2 : bs.length - n ≤ j
        · rw [if_pos h2, if_pos (by omega)]
        · rw [if_neg h2, if_neg (by omega)]

theorem shlLoop_ok (sb k : Nat) (bs : Blocks w) (n : Nat) (h : n + sb + 1 ≤ bs.length) :
    ∃ c, shlLoop sb k bs n = .ok c ∧ c.length = bs.length ∧
      ∀ j, j < bs.length → blk c j = if bs.length - n ≤ j
        then (blk bs (j - sb) <<< k) ||| (blk bs (j - sb - 1) >>> (w - k)) else blk bs j := by
  induction n with
  | zero => exact ⟨bs, rfl, rfl, fun j hj => by rw [if_neg (by omega)]⟩
  | succ n ih =>
    obtain ⟨c, hc, hl, hb⟩ := ih (by omega)
    refine ⟨c.set (bs.length - 1 - n) ((blk c (bs.length - 1 - n - sb) <<< k) |||
      (blk c (bs.length - 1 - n - sb - 1) >>> (w - k))), ?_, by simp [hl], ?_⟩
    · simp only [shlLoop, hc, bind, Except.bind]
      rw [rd_ok (by omega), rd_ok (by omega)]
      simp only []
      rw [wr_ok (by omega)]
    · intro j hj
      rw [blk_set (by omega)]
      by_cases e : j = bs.length - 1 - n
      · subst e
        rw [if_pos rfl, hb _ (by omega), hb _ (by omega), if_neg (by omega), if_neg (by omega),
          if_pos (by omega)]
      · rw [if_neg e, hb _ hj]
        by_cases h2 : bs.length - n ≤ j
        · rw [if_pos h2, if_pos (by omega)]
        · rw [if_neg h2, if_neg (by omega)]

theorem zipLoop_ok (f : BitVec w → BitVec w → BitVec w) (a o : Blocks w) (n : Nat)
    (h1 : n ≤ a.length) (h2 : n ≤ o.length) :
    ∃ c, zipLoop f a o n = .ok c ∧ c.length = a.length ∧
      ∀ j, blk c j = if j < n then f (blk a j) (blk o j) else blk a j := by
  induction n with
  | zero => exact ⟨a, rfl, rfl, fun j => by rw [if_neg (by omega)]⟩
  | succ n ih =>
    obtain ⟨c, hc, hl, hb⟩ := ih (by omega) (by omega)
    refine ⟨c.set n (f (blk c n) (blk o n)), ?_, by simp [hl], ?_⟩
    · simp only [zipLoop, hc, bind, Except.bind]
      rw [rd_ok (by omega), rd_ok (by omega)]
      simp only []
      rw [wr_ok (by omega)]
    · intro j
      rw [blk_set (by omega)]
      by_cases e : j = n
      · subst e
        rw [if_pos rfl, hb, if_neg (by omega), if_pos (by omega)]
      · rw [if_neg e, hb]
        by_cases h2 : j < n
        · rw [if_pos h2, if_pos (by omega)]
        · rw [if_neg h2, if_neg (by omega)]

theorem setStrLoop_ok (hw : 0 < w) (s : List Char) (bs : Blocks w) (n : Nat)
    (h : n ≤ bs.length * w) :
    ∃ c, setStrLoop s bs n = .ok c ∧ c.length = bs.length ∧
      ∀ j, bit c j = if j < n then s.getD (s.length - j - 1) '0' != '0' else bit bs j := by
  induction n with
  | zero => exact ⟨bs, rfl, rfl, fun j => by rw [if_neg (by omega)]⟩
  | succ n ih =>
    obtain ⟨c, hc, hl, hb⟩ := ih (by omega)
    have hn : n / w < c.length := by
      rw [hl]; exact (Nat.div_lt_iff_lt_mul hw).2 (by omega)
    obtain ⟨d, hd, hdl, hdb⟩ := setBit_ok hw (v := s.getD (s.length - n - 1) '0' != '0') hn
    refine ⟨d, by simp only [setStrLoop, hc, bind, Except.bind]; exact hd, by rw [hdl, hl], ?_⟩
    intro j
    rw [hdb]
    by_cases e : j = n
    · subst e; rw [if_pos rfl, if_pos (by omega)]
    · rw [if_neg e, hb]
      by_cases h2 : j < n
      · rw [if_pos h2, if_pos (by omega)]
      · rw [if_neg h2, if_neg (by omega)]

/-! ## Shifts -/

theorem getLsbD_shr_or (x y : BitVec w) (k r : Nat) (hk : k < w) (hr : r < w) :
    ((x >>> k) ||| (y <<< (w - k))).getLsbD r =
      if r + k < w then x.getLsbD (r + k) else y.getLsbD (r + k - w) := by
  simp only [BitVec.getLsbD_or, BitVec.getLsbD_ushiftRight, BitVec.getLsbD_shiftLeft, hr,
    decide_true, Bool.true_and, Nat.add_comm k r]
  by_cases h : r + k < w
  · rw [if_pos h]
    have : r < w - k := by omega
    simp [this]
  · rw [if_neg h, BitVec.getLsbD_of_ge x _ (by omega)]
    have : ¬ r < w - k := by omega
    simp only [this, decide_false, Bool.not_false, Bool.true_and, Bool.false_or]
    congr 1; omega

theorem getLsbD_shl_or (x y : BitVec w) (k r : Nat) (hr : r < w) :
    ((x <<< k) ||| (y >>> (w - k))).getLsbD r =
      if k ≤ r then x.getLsbD (r - k) || (decide (k = 0) && y.getLsbD (w + r)) else y.getLsbD (w - k + r) := by
  simp only [BitVec.getLsbD_or, BitVec.getLsbD_ushiftRight, BitVec.getLsbD_shiftLeft, hr,
    decide_true, Bool.true_and]
  by_cases h : k ≤ r
  · rw [if_pos h]
    have : ¬ r < k := by omega
    simp only [this, decide_false, Bool.not_false, Bool.true_and]
    congr 1
    rw [BitVec.getLsbD_of_ge y _ (by omega), BitVec.getLsbD_of_ge y _ (by omega)]
    simp
  · rw [if_neg h]
    have : r < k := by omega
    simp [this]

theorem shr_ok (hw : 0 < w) {size shift : Nat} {bs : Blocks w}
    (hl : bs.length = numBlocks w size) (h : shift < size) :
    ∃ c, shr size bs shift = .ok c ∧ c.length = bs.length ∧
      ∀ i, bit c i = (decide (i + shift < size) && bit bs (i + shift)) := by
  have hs0 : 0 < size := by omega
  have hpos : 0 < bs.length := by rw [hl]; exact numBlocks_pos hw hs0
  have hsb : shift / w < bs.length := by rw [hl]; exact div_lt_numBlocks hw h
  -- the sanitising step
  have hsan : ∃ s : Blocks w, shrSanitize size bs = .ok s ∧
      s.length = bs.length ∧ ∀ i, bit s i = (decide (i < size) && bit bs i) := by
    unfold shrSanitize
    by_cases h0 : size % w = 0
    · refine ⟨bs, by rw [if_neg (by simpa using h0)], rfl, ?_⟩
      intro i
      by_cases hi : i < size
      · simp [hi]
      · have : bs.length * w ≤ i := by
          have h1 : numBlocks w size = size / w := by simp [numBlocks, h0]
          rw [hl, h1]
          obtain ⟨h2, _⟩ := decomp hw size
          omega
        rw [bit_out hw this]; simp
    · refine ⟨sanitized size bs, ?_, length_sanitized _ _, bit_sanitized hw hl⟩
      rw [if_pos h0]
      obtain ⟨b, hb, _⟩ := sanitizedLast_ok hw hl hs0
      simp only [hb, bind, Except.bind, sanitized]
      rw [wr_ok (by omega)]
  obtain ⟨s, hs, hsl, hsbit⟩ := hsan
  suffices hmain : ∃ c, shrMain s shift = .ok c ∧
      c.length = s.length ∧ ∀ i, bit c i = bit s (i + shift) by
    obtain ⟨c, hc, hcl, hcb⟩ := hmain
    refine ⟨c, ?_, by rw [hcl, hsl], fun i => by rw [hcb, hsbit]⟩
    unfold shr
    rw [hs]
    exact hc
  unfold shrMain
  rw [← hsl] at hpos hsb
  obtain ⟨hd1, hd2⟩ := decomp hw shift
  by_cases h1 : s.length = 1
  · rw [if_pos h1, rd_ok (by omega)]
    simp only [bind, Except.bind]
    rw [wr_ok (by omega)]
    refine ⟨_, rfl, by simp, ?_⟩
    intro i
    have hq : shift / w = 0 := by rw [h1] at hsb; exact Nat.lt_one_iff.1 hsb
    obtain ⟨hi1, hi2⟩ := decomp hw i
    unfold bit
    rw [blk_set (by omega)]
    by_cases hi : i / w = 0
    · rw [if_pos hi]
      have hi3 : i = i % w := by rw [hi] at hi1; omega
      have hsw : shift < w := by rw [hq] at hd1; omega
      simp only [BitVec.getLsbD_ushiftRight]
      by_cases h2 : i + shift < w
      · rw [Nat.div_eq_of_lt h2, Nat.mod_eq_of_lt h2, ← hi3, Nat.add_comm]
      · rw [blk_out (i := (i + shift) / w), BitVec.getLsbD_of_ge _ _ (by omega)]
        · simp
        · rw [h1]; exact (Nat.le_div_iff_mul_le hw).2 (by omega)
    · have hip : 1 ≤ i / w := Nat.one_le_iff_ne_zero.2 hi
      rw [if_neg hi, blk_out (by rw [h1]; exact hip), blk_out]
      · simp
      · rw [h1]
        exact Nat.le_trans hip (Nat.div_le_div_right (by omega))
  · rw [if_neg h1]
    by_cases h0 : shift = 0
    · subst h0; rw [if_pos rfl]; exact ⟨s, rfl, rfl, fun i => rfl⟩
    · rw [if_neg h0]
      simp only []
      generalize hsbe : shift / w = sb at *
      generalize hke : shift % w = k at *
      have hblocks : ∃ c, shrBlocks sb k s = .ok c ∧
          c.length = s.length ∧ ∀ j, j < s.length - sb → ∀ r, r < w →
            (blk c j).getLsbD r = if r + k < w then (blk s (j + sb)).getLsbD (r + k)
              else (blk s (j + sb + 1)).getLsbD (r + k - w) := by
        unfold shrBlocks
        by_cases hk : k = 0
        · rw [if_pos hk]
          obtain ⟨c, hc, hcl, hcb⟩ := shrBlockLoop_ok sb s (s.length - sb - 1 + 1) (by omega)
          refine ⟨c, hc, hcl, fun j hj r hr => ?_⟩
          subst hk
          rw [hcb, if_pos (by omega), if_pos (by omega)]
          rfl
        · rw [if_neg hk]
          obtain ⟨c, hc, hcl, hcb⟩ := shrLoop_ok sb k s (s.length - sb - 1) (by omega)
          rw [hc]
          simp only [bind, Except.bind]
          rw [rd_ok (by omega)]
          simp only []
          rw [wr_ok (by omega)]
          refine ⟨_, rfl, by simp [hcl], fun j hj r hr => ?_⟩
          rw [blk_set (by omega)]
          by_cases e : j = s.length - sb - 1
          · rw [if_pos e, hcb, if_neg (by omega)]
            simp only [BitVec.getLsbD_ushiftRight]
            have e2 : j + sb = s.length - 1 := by omega
            rw [e2]
            by_cases h2 : r + k < w
            · rw [if_pos h2, Nat.add_comm]
            · rw [if_neg h2, BitVec.getLsbD_of_ge _ _ (by omega), blk_out (by omega)]; simp
          · rw [if_neg e, hcb, if_pos (by omega), getLsbD_shr_or _ _ _ _ hd2 hr]
      obtain ⟨c, hc, hcl, hcb⟩ := hblocks
      rw [hc]
      simp only [bind, Except.bind]
      obtain ⟨z, hz, hzl, hzb⟩ := zeroLoop_ok (s.length - sb - 1 + 1) c
        (s.length - (s.length - sb - 1 + 1)) (by omega)
      refine ⟨z, hz, by omega, ?_⟩
      intro i
      obtain ⟨hi1, hi2⟩ := decomp hw i
      have key : ∀ q r, r < w → bit z (q * w + r) = bit s (q * w + r + shift) := by
        intro q r hr
        rw [bit_mul_add hr, hzb]
        by_cases hq : q < s.length - sb
        · rw [if_neg (by omega), hcb q hq r hr]
          by_cases h2 : r + k < w
          · rw [if_pos h2, ← bit_mul_add h2]
            congr 1
            rw [Nat.add_mul]; omega
          · rw [if_neg h2, ← bit_mul_add (show r + k - w < w by omega)]
            congr 1
            rw [Nat.add_mul, Nat.add_mul]; omega
        · have hout : s.length * w ≤ q * w + r + shift := by
            have : s.length * w ≤ (q + sb) * w := Nat.mul_le_mul_right _ (by omega)
            rw [Nat.add_mul] at this
            omega
          rw [bit_out hw hout]
          by_cases hq2 : q < s.length
          · rw [if_pos (by omega)]; simp
          · rw [if_neg (by omega), blk_out (by omega)]; simp
      have := key (i / w) (i % w) hi2
      rw [← hi1] at this
      exact this

theorem shl_ok (hw : 0 < w) {shift : Nat} {bs : Blocks w} (hsb : shift / w < bs.length) :
    ∃ c, shl bs shift = .ok c ∧ c.length = bs.length ∧
      ∀ i, i < bs.length * w → bit c i = (decide (shift ≤ i) && bit bs (i - shift)) := by
  obtain ⟨hd1, hd2⟩ := decomp hw shift
  unfold shl
  by_cases h1 : bs.length = 1
  · rw [if_pos h1, rd_ok (by omega)]
    simp only [bind, Except.bind]
    rw [wr_ok (by omega)]
    refine ⟨_, rfl, by simp, ?_⟩
    intro i hi
    rw [h1, Nat.one_mul] at hi
    have hq : shift / w = 0 := by rw [h1] at hsb; exact Nat.lt_one_iff.1 hsb
    have hsw : shift < w := by rw [hq] at hd1; omega
    unfold bit
    rw [Nat.div_eq_of_lt hi, Nat.mod_eq_of_lt hi, blk_set (by omega), if_pos rfl,
      Nat.div_eq_of_lt (show i - shift < w by omega), Nat.mod_eq_of_lt (show i - shift < w by omega)]
    simp only [BitVec.getLsbD_shiftLeft, hi, decide_true, Bool.true_and]
    by_cases h2 : i < shift
    · have : ¬ shift ≤ i := by omega
      simp [h2, this]
    · have : shift ≤ i := by omega
      simp [h2, this]
  · rw [if_neg h1]
    by_cases h0 : shift = 0
    · subst h0; rw [if_pos rfl]; exact ⟨bs, rfl, rfl, fun i hi => by simp⟩
    · rw [if_neg h0]
      generalize hsbe : shift / w = sb at *
      generalize hke : shift % w = k at *
      have hblocks : ∃ c, shlBlocks sb k bs = .ok c ∧
          c.length = bs.length ∧ ∀ j, sb ≤ j → j < bs.length → ∀ r, r < w →
            (blk c j).getLsbD r = if k ≤ r then (blk bs (j - sb)).getLsbD (r - k)
              else (decide (sb < j) && (blk bs (j - sb - 1)).getLsbD (w - k + r)) := by
        unfold shlBlocks
        by_cases hk : k = 0
        · rw [if_pos hk]
          obtain ⟨c, hc, hcl, hcb⟩ := shlBlockLoop_ok sb bs (bs.length - sb) (by omega)
          refine ⟨c, hc, hcl, fun j hj1 hj2 r hr => ?_⟩
          subst hk
          rw [hcb _ hj2, if_pos (by omega), if_pos (by omega)]
          rfl
        · rw [if_neg hk]
          obtain ⟨c, hc, hcl, hcb⟩ := shlLoop_ok sb k bs (bs.length - 1 - sb) (by omega)
          rw [hc]
          simp only [bind, Except.bind]
          rw [rd_ok (by omega)]
          simp only []
          rw [wr_ok (by omega)]
          refine ⟨_, rfl, by simp [hcl], fun j hj1 hj2 r hr => ?_⟩
          rw [blk_set (by omega)]
          by_cases e : j = sb
          · subst e
            -- block 0 was not written by the loop (for sb = 0 the loop stops before 0)
            rw [if_pos rfl, hcb 0 (by omega), if_neg (by omega)]
            simp only [BitVec.getLsbD_shiftLeft, hr, decide_true, Bool.true_and]
            rw [show j - j = 0 by omega]
            by_cases h2 : k ≤ r
            · rw [if_pos h2]; have : ¬ r < k := by omega
              simp [this]
            · rw [if_neg h2]; have : r < k := by omega
              simp [this]
          · rw [if_neg e, hcb _ hj2, if_pos (by omega), getLsbD_shl_or _ _ _ _ hr]
            have : sb < j := by omega
            simp [hk, this]
      obtain ⟨c, hc, hcl, hcb⟩ := hblocks
      rw [hc]
      simp only [bind, Except.bind]
      obtain ⟨z, hz, hzl, hzb⟩ := zeroLoop_ok 0 c sb (by omega)
      refine ⟨z, hz, by omega, ?_⟩
      intro i hi
      obtain ⟨hi1, hi2⟩ := decomp hw i
      have hiq : i / w < bs.length := (Nat.div_lt_iff_lt_mul hw).2 hi
      have key : ∀ q r, r < w → q < bs.length →
          bit z (q * w + r) = (decide (shift ≤ q * w + r) && bit bs (q * w + r - shift)) := by
        intro q r hr hq
        rw [bit_mul_add hr, hzb]
        by_cases hq2 : q < sb
        · rw [if_pos (by omega)]
          have : (q + 1) * w ≤ sb * w := Nat.mul_le_mul_right _ (by omega)
          rw [Nat.add_mul] at this
          have : ¬ shift ≤ q * w + r := by omega
          simp [this]
        · rw [if_neg (by omega), hcb q (by omega) hq r hr]
          obtain ⟨d, rfl⟩ : ∃ d, q = sb + d := ⟨q - sb, by omega⟩
          rw [Nat.add_mul]
          by_cases h2 : k ≤ r
          · rw [if_pos h2, ← bit_mul_add (show r - k < w by omega)]
            have : shift ≤ sb * w + d * w + r := by omega
            simp only [this, decide_true, Bool.true_and]
            congr 1
            rw [show sb + d - sb = d by omega]; omega
          · rw [if_neg h2]
            cases d with
            | zero =>
              have : ¬ shift ≤ sb * w + 0 * w + r := by omega
              simp [this]
              intro h; omega
            | succ d =>
              rw [← bit_mul_add (show w - k + r < w by omega)]
              have e1 : (d + 1) * w = d * w + w := by rw [Nat.add_mul, Nat.one_mul]
              have : shift ≤ sb * w + (d + 1) * w + r := by omega
              have h3 : sb < sb + (d + 1) := by omega
              simp only [this, h3, decide_true, Bool.true_and]
              congr 1
              rw [show sb + (d + 1) - sb - 1 = d by omega]; omega
      have := key (i / w) (i % w) hi2 hiq
      rw [← hi1] at this
      exact this

end Cista.Bits
