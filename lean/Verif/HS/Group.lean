import Verif.Arith.Props

/-!
# Control byte groups of the hash table

Model of `hash_storage::group` and `bit_mask` (include/cista/containers/hash_storage.h:84-144): eight control bytes examined at once by
64-bit arithmetic.  Control bytes are natural numbers below 256 (`EMPTY` = 0x80, `DELETED` = 0xFE, `END` = 0xFF, 0 … 0x7F for a full
slot); a group is the list of its eight bytes.
-/
set_option linter.unusedSimpArgs false

namespace Cista.HS

/-- hash_storage.h:60-64. -/
def EMPTY : Nat := 128
def DELETED : Nat := 254
def END : Nat := 255

/-- hash_storage.h:234 `is_full` on the signed byte. -/
def isFull (c : Nat) : Bool := decide (c < 128)
/-- hash_storage.h:238-240 `is_empty_or_deleted`: signed comparison with -1. -/
def isED (c : Nat) : Bool := decide (128 ≤ c ∧ c < 255)

/-- The four kinds of byte a table contains. -/
def Valid (c : Nat) : Prop := c < 128 ∨ c = EMPTY ∨ c = DELETED ∨ c = END

/-- Little-endian number of a byte list. -/
def ofB : List Nat → Nat
  | [] => 0
  | b :: bs => 2 ^ 8 * ofB bs + b

/-- hash_storage.h:123-128: the group word (the big-endian branch swaps to the same value). -/
def word (w : List Nat) : BitVec 64 := BitVec.ofNat 64 (ofB w)

/-- hash_storage.h:119-121. -/
def MSBS : BitVec 64 := 0x8080808080808080#64
def LSBS : BitVec 64 := 0x0101010101010101#64
def GAPS : BitVec 64 := 0x00FEFEFEFEFEFEFE#64

/-- hash_storage.h:129-132 `match`. -/
def matchMask (w : List Nat) (h : Nat) : BitVec 64 :=
  ((word w ^^^ (LSBS * BitVec.ofNat 64 h)) - LSBS) &&& ~~~(word w ^^^ (LSBS * BitVec.ofNat 64 h)) &&& MSBS

/-- hash_storage.h:133-135 `match_empty`. -/
def emptyMask (w : List Nat) : BitVec 64 := (word w &&& (~~~(word w) <<< 6)) &&& MSBS

/-- hash_storage.h:136-138 `match_empty_or_deleted`. -/
def edMask (w : List Nat) : BitVec 64 := (word w &&& (~~~(word w) <<< 7)) &&& MSBS

/-- `trailing_zeros` as a number; it is total (C47). -/
def tz (m : BitVec 64) : Nat := match Arith.trailingZeros m with | .ok i => i | .error _ => 0
/-- `leading_zeros` as a number; it is total (C47). -/
def lz (m : BitVec 64) : Nat := match Arith.leadingZeros m with | .ok i => i | .error _ => 0

/-- hash_storage.h:139-142 `count_leading_empty_or_deleted`. -/
def countED (w : List Nat) : Nat := (tz (((~~~(word w) &&& (word w >>> 7)) ||| GAPS) + 1#64) + 7) / 8

/-- hash_storage.h:84-116: iterating a `bit_mask`: `*it` (94, 101-103) and `++it` (89-92) until the mask is zero (98-99).  Each
step clears a bit, so 64 steps suffice. -/
def maskIdx : Nat → BitVec 64 → List Nat
  | 0, _ => []
  | n + 1, m => if m = 0#64 then [] else (tz m / 8) :: maskIdx n (m &&& (m - 1#64))

/-- hash_storage.h:382, 540: the positions a group match visits. -/
def matchIdx (w : List Nat) (h : Nat) : List Nat := maskIdx 64 (matchMask w h)

/-- hash_storage.h:96 `if (mask)`. -/
def anyEmpty (w : List Nat) : Bool := emptyMask w != 0#64

/-- hash_storage.h:554-556: the first empty or deleted position. -/
def firstED (w : List Nat) : Option Nat := if edMask w = 0#64 then none else some (tz (edMask w) / 8)

/-! ## Bits of a group word -/

structure Grp (w : List Nat) : Prop where
  len : w.length = 8
  valid : ∀ c ∈ w, Valid c

theorem Valid.lt {c : Nat} (h : Valid c) : c < 256 := by
  unfold Valid EMPTY DELETED END at h
  omega

theorem ofB_testBit : ∀ {w : List Nat}, (∀ c ∈ w, c < 256) → ∀ i j, j < 8 →
    (ofB w).testBit (8 * i + j) = ((w[i]?).getD 0).testBit j
  | [], _, i, j, _ => by simp [ofB]
  | b :: bs, h, 0, j, hj => by
    rw [ofB, Nat.testBit_two_pow_mul_add _ (h b (by simp)), if_pos (by omega)]; simp
  | b :: bs, h, i + 1, j, hj => by
    rw [ofB, Nat.testBit_two_pow_mul_add _ (h b (by simp)), if_neg (by omega),
      show 8 * (i + 1) + j - 8 = 8 * i + j by omega, ofB_testBit (fun c hc => h c (by simp [hc])) i j hj]
    simp

theorem word_bit {w : List Nat} (h : ∀ c ∈ w, c < 256) {i j : Nat} (hi : i < 8) (hj : j < 8) :
    (word w).getLsbD (8 * i + j) = ((w[i]?).getD 0).testBit j := by
  rw [word, BitVec.getLsbD_ofNat, ofB_testBit h i j hj]
  simp; omega

theorem Grp.bit {w : List Nat} (h : Grp w) {i j c : Nat} (hi : w[i]? = some c) (hj : j < 8) :
    (word w).getLsbD (8 * i + j) = c.testBit j := by
  have hl := (List.getElem?_eq_some_iff.1 hi).1
  rw [h.len] at hl
  rw [word_bit (fun c hc => (h.valid c hc).lt) hl hj, hi]; rfl

theorem msbs_bit (p : Nat) : MSBS.getLsbD p = decide (p < 64 ∧ p % 8 = 7) := by
  by_cases hp : p < 64
  · have : ∀ q : Fin 64, MSBS.getLsbD q.val = decide (q.val < 64 ∧ q.val % 8 = 7) := by decide
    exact this ⟨p, hp⟩
  · rw [BitVec.getLsbD_of_ge _ _ (by omega)]; simp [hp]

theorem bit7 {c : Nat} (h : c < 256) : c.testBit 7 = decide (128 ≤ c) := by
  rw [Nat.testBit_eq_decide_div_mod_eq]
  exact decide_eq_decide.2 (by omega)

/-- A mask whose set bits are top bits of bytes satisfying a predicate. -/
def IsMask (m : BitVec 64) (P : Nat → Prop) : Prop := ∀ p, m.getLsbD p = true ↔ p < 64 ∧ p % 8 = 7 ∧ P (p / 8)

theorem valid_empty {c : Nat} (h : Valid c) : (c.testBit 7 && !c.testBit 1) = true ↔ c = EMPTY := by
  rcases h with h | h | h | h
  · rw [bit7 (by omega), decide_eq_false (by omega)]
    simp [EMPTY]; omega
  all_goals subst h; decide

theorem valid_ed {c : Nat} (h : Valid c) : (c.testBit 7 && !c.testBit 0) = true ↔ isED c = true := by
  rcases h with h | h | h | h
  · rw [bit7 (by omega), decide_eq_false (by omega)]
    simp [isED]; omega
  all_goals subst h; decide

theorem shifted_isMask {w : List Nat} (h : Grp w) {s : Nat} (hs : s ≤ 7) {P : Nat → Prop}
    (hP : ∀ i c, w[i]? = some c → ((c.testBit 7 && !c.testBit (7 - s)) = true ↔ P i)) :
    IsMask ((word w &&& (~~~(word w) <<< s)) &&& MSBS) P := by
  intro p
  rw [BitVec.getLsbD_and, BitVec.getLsbD_and, msbs_bit]
  by_cases hp : p < 64 ∧ p % 8 = 7
  · have hi : p / 8 < w.length := by rw [h.len]; omega
    obtain ⟨c, hc⟩ : ∃ c, w[p / 8]? = some c := ⟨_, List.getElem?_eq_getElem hi⟩
    have h1 : (word w).getLsbD p = c.testBit 7 := by
      have := h.bit hc (j := 7) (by omega)
      rwa [show 8 * (p / 8) + 7 = p by omega] at this
    have h2 : (~~~(word w) <<< s).getLsbD p = !c.testBit (7 - s) := by
      rw [BitVec.getLsbD_shiftLeft, BitVec.getLsbD_not]
      have := h.bit hc (j := 7 - s) (by omega)
      rw [show 8 * (p / 8) + (7 - s) = p - s by omega] at this
      rw [this]
      have a1 : p < 64 := hp.1
      have a2 : ¬ p < s := by omega
      have a3 : p - s < 64 := by omega
      simp [a1, a2, a3]
    rw [h1, h2]
    simp only [hp, and_self, decide_true, Bool.and_true, true_and]
    exact hP _ c hc
  · simp only [hp, decide_false, Bool.and_false, Bool.false_eq_true, false_iff]
    rintro ⟨a, b, _⟩; exact hp ⟨a, b⟩

theorem emptyMask_isMask {w : List Nat} (h : Grp w) : IsMask (emptyMask w) (fun i => w[i]? = some EMPTY) :=
  shifted_isMask h (by omega) fun i c hc => by
    rw [hc, show 7 - 6 = 1 from rfl, valid_empty (h.valid c (List.mem_of_getElem? hc))]; simp

theorem edMask_isMask {w : List Nat} (h : Grp w) : IsMask (edMask w) (fun i => ∃ c, w[i]? = some c ∧ isED c = true) :=
  shifted_isMask h (by omega) fun i c hc => by
    rw [show 7 - 7 = 0 from rfl, valid_ed (h.valid c (List.mem_of_getElem? hc))]; simp [hc]

/-! ## Scanning masks -/

theorem tz_spec {m : BitVec 64} (h : m ≠ 0#64) : Arith.IsLowestBit m (tz m) := by
  obtain ⟨i, e, hi⟩ := Arith.C47_trailing_zeros m h
  unfold tz; rw [e]; exact hi

theorem lz_spec {m : BitVec 64} (h : m ≠ 0#64) : Arith.IsLeadingZeros m (lz m) := by
  obtain ⟨i, e, hi⟩ := Arith.C47_leading_zeros m h
  unfold lz; rw [e]; exact hi

theorem ne_zero_iff {m : BitVec 64} : m ≠ 0#64 ↔ ∃ p, m.getLsbD p = true := by
  constructor
  · intro h
    obtain ⟨i, _, hb⟩ := Arith.exists_bit_of_ne_zero h
    exact ⟨i, hb⟩
  · rintro ⟨p, hp⟩ rfl
    simp at hp

theorem IsMask.ne_zero {m : BitVec 64} {P : Nat → Prop} (h : IsMask m P) : m ≠ 0#64 ↔ ∃ i, i < 8 ∧ P i := by
  rw [ne_zero_iff]
  constructor
  · rintro ⟨p, hp⟩
    obtain ⟨h1, h2, h3⟩ := (h p).1 hp
    exact ⟨p / 8, by omega, h3⟩
  · rintro ⟨i, hi, hP⟩
    exact ⟨8 * i + 7, (h _).2 ⟨by omega, by omega, by rw [show (8 * i + 7) / 8 = i by omega]; exact hP⟩⟩

theorem IsMask.tz_first {m : BitVec 64} {P : Nat → Prop} (h : IsMask m P) (h0 : m ≠ 0#64) :
    tz m / 8 < 8 ∧ P (tz m / 8) ∧ ∀ j, j < tz m / 8 → ¬ P j := by
  obtain ⟨h1, h2, h3⟩ := tz_spec h0
  obtain ⟨a, b, c⟩ := (h _).1 h2
  refine ⟨by omega, c, fun j hj hP => ?_⟩
  have := h3 (8 * j + 7) (by omega)
  have h4 := (h (8 * j + 7)).2 ⟨by omega, by omega, by rw [show (8 * j + 7) / 8 = j by omega]; exact hP⟩
  rw [this] at h4; cases h4

theorem IsMask.lz_last {m : BitVec 64} {P : Nat → Prop} (h : IsMask m P) (h0 : m ≠ 0#64) :
    lz m / 8 < 8 ∧ P (7 - lz m / 8) ∧ ∀ j, 7 - lz m / 8 < j → j < 8 → ¬ P j := by
  obtain ⟨h1, h2, h3⟩ := lz_spec h0
  obtain ⟨a, b, c⟩ := (h _).1 h2
  have e : (64 - 1 - lz m) / 8 = 7 - lz m / 8 := by omega
  rw [e] at c
  refine ⟨by omega, c, fun j hj hj8 hP => ?_⟩
  have h4 := (h (8 * j + 7)).2 ⟨by omega, by omega, by rw [show (8 * j + 7) / 8 = j by omega]; exact hP⟩
  have h5 := h3 (8 * j + 7) (by omega)
  rw [h5] at h4; cases h4

/-- `m &= m - 1` clears exactly the lowest set bit. -/
theorem clear_lowest {m : BitVec 64} {b : Nat} (h : Arith.IsLowestBit m b) (p : Nat) :
    (m &&& (m - 1#64)).getLsbD p = (m.getLsbD p && decide (p ≠ b)) := by
  obtain ⟨hb, hs, hl⟩ := h
  have hbit : ∀ p, m.getLsbD p = m.toNat.testBit p := fun p => rfl
  -- m = 2^b * (2 q + 1)
  have hlow : m.toNat % 2 ^ b = 0 := by
    apply Nat.eq_of_testBit_eq
    intro j
    rw [Nat.testBit_mod_two_pow, Nat.zero_testBit]
    by_cases hj : j < b
    · rw [← hbit, hl j hj]; simp
    · simp [hj]
  obtain ⟨r, hr⟩ : ∃ r, m.toNat = 2 ^ b * r := ⟨m.toNat / 2 ^ b, by
    have := Nat.div_add_mod m.toNat (2 ^ b); omega⟩
  have hpb : 0 < 2 ^ b := Nat.pow_pos (by omega)
  have hodd : r % 2 = 1 := by
    rw [hbit, hr] at hs
    have := Nat.testBit_two_pow_mul_add r (b := 0) hpb b
    rw [Nat.add_zero, if_neg (by omega), Nat.sub_self] at this
    rw [this, Nat.testBit_zero] at hs
    simpa using hs
  have hsub : (m - 1#64).toNat = 2 ^ b * (r - 1) + (2 ^ b - 1) := by
    have hm := m.isLt
    have h1 : 1 ≤ m.toNat := by
      rw [hr]; exact Nat.mul_pos hpb (by omega)
    have : (m - 1#64).toNat = m.toNat - 1 := by
      rw [BitVec.toNat_sub]
      simp only [BitVec.toNat_ofNat]
      omega
    rw [this, hr, Nat.mul_sub, Nat.mul_one]
    have : 2 ^ b ≤ 2 ^ b * r := Nat.le_mul_of_pos_right _ (by omega)
    omega
  rw [BitVec.getLsbD_and, show (m - 1#64).getLsbD p = (m - 1#64).toNat.testBit p from rfl, hsub, hbit, hr,
    Nat.testBit_two_pow_mul_add _ (by omega), ← Nat.add_zero (2 ^ b * r), Nat.testBit_two_pow_mul_add _ hpb]
  by_cases hp : p < b
  · rw [if_pos hp, if_pos hp]; simp
  · rw [if_neg hp, if_neg hp]
    by_cases he : p = b
    · subst he; simp; omega
    · obtain ⟨q, hq⟩ : ∃ q, p - b = q + 1 := ⟨p - b - 1, by omega⟩
      rw [hq, Nat.testBit_succ, Nat.testBit_succ, show (r - 1) / 2 = r / 2 by omega]
      simp [he]

theorem maskIdx_mem : ∀ (n : Nat) (m : BitVec 64), (∀ p, m.getLsbD p = true → 64 - n ≤ p) → ∀ i,
    i ∈ maskIdx n m ↔ ∃ p, m.getLsbD p = true ∧ p / 8 = i
  | 0, m, h, i => by
    simp only [maskIdx, List.not_mem_nil, false_iff]
    rintro ⟨p, hp, _⟩
    have := h p hp
    have := BitVec.lt_of_getLsbD hp
    omega
  | n + 1, m, h, i => by
    unfold maskIdx
    by_cases h0 : m = 0#64
    · subst h0; simp
    · rw [if_neg h0]
      have hb := tz_spec h0
      have hb' := hb
      obtain ⟨h1, h2, h3⟩ := hb'
      have hge := h _ h2
      rw [List.mem_cons, maskIdx_mem n (m &&& (m - 1#64)) (by
        intro p hp
        rw [clear_lowest hb] at hp
        simp only [Bool.and_eq_true, decide_eq_true_eq] at hp
        have hlt : ¬ p < tz m := fun hlt => by have := h3 p hlt; rw [hp.1] at this; cases this
        omega)]
      constructor
      · rintro (rfl | ⟨p, hp, rfl⟩)
        · exact ⟨_, h2, rfl⟩
        · rw [clear_lowest hb] at hp
          simp only [Bool.and_eq_true] at hp
          exact ⟨p, hp.1, rfl⟩
      · rintro ⟨p, hp, rfl⟩
        by_cases he : p = tz m
        · left; rw [he]
        · right
          exact ⟨p, by rw [clear_lowest hb, hp]; simp [he], rfl⟩

/-! ## The match mask -/

theorem lsbs_mul {h : Nat} (hh : h < 128) {i j : Nat} (hi : i < 8) (hj : j < 8) :
    (LSBS * BitVec.ofNat 64 h).getLsbD (8 * i + j) = h.testBit j := by
  have : LSBS * BitVec.ofNat 64 h = word (List.replicate 8 h) := by
    apply BitVec.eq_of_toNat_eq
    rw [word, BitVec.toNat_mul, BitVec.toNat_ofNat, BitVec.toNat_ofNat]
    simp only [List.replicate, ofB, LSBS, BitVec.toNat_ofNat]
    omega
  rw [this, word_bit (by intro c hc; rw [(List.mem_replicate.1 hc).2]; omega) hi hj, List.getElem?_replicate, if_pos hi]
  rfl

theorem match_full {w : List Nat} (hw : Grp w) {h : Nat} (hh : h < 128) {p : Nat}
    (hp : (matchMask w h).getLsbD p = true) : ∃ c, w[p / 8]? = some c ∧ isFull c = true := by
  rw [matchMask, BitVec.getLsbD_and, BitVec.getLsbD_and, msbs_bit] at hp
  simp only [Bool.and_eq_true, decide_eq_true_eq] at hp
  obtain ⟨⟨_, h2⟩, h3, h4⟩ := hp
  have hi : p / 8 < w.length := by rw [hw.len]; omega
  obtain ⟨c, hc⟩ : ∃ c, w[p / 8]? = some c := ⟨_, List.getElem?_eq_getElem hi⟩
  refine ⟨c, hc, ?_⟩
  rw [BitVec.getLsbD_not, BitVec.getLsbD_xor] at h2
  have e : 8 * (p / 8) + 7 = p := by omega
  have a1 := hw.bit hc (j := 7) (by omega)
  have a2 := lsbs_mul hh (i := p / 8) (j := 7) (by omega) (by omega)
  rw [e] at a1 a2
  rw [a1, a2, bit7 (hw.valid c (List.mem_of_getElem? hc)).lt, bit7 (by omega)] at h2
  simp only [isFull, decide_eq_true_eq]
  simp at h2
  omega

/-- A zero byte `i` of `x` gets its top bit set by the subtraction. -/
theorem sub_lsbs_bit {x : BitVec 64} {i : Nat} (hi : i < 8) (hz : ∀ j, j < 8 → x.getLsbD (8 * i + j) = false) :
    (x - LSBS).getLsbD (8 * i + 7) = true := by
  have hx := x.isLt
  have hbyte : x.toNat / 2 ^ (8 * i) % 2 ^ 8 = 0 := by
    apply Nat.eq_of_testBit_eq
    intro j
    rw [Nat.testBit_mod_two_pow, Nat.testBit_div_two_pow, Nat.zero_testBit]
    by_cases hj : j < 8
    · have := hz j hj
      rw [Nat.add_comm] at this
      simp only [BitVec.getLsbD] at this
      rw [this]; simp
    · simp [hj]
  have hg : (x - LSBS).getLsbD (8 * i + 7) = (x - LSBS).toNat.testBit (8 * i + 7) := rfl
  rw [hg, BitVec.toNat_sub, Nat.testBit_eq_decide_div_mod_eq, decide_eq_true_eq]
  have hL : LSBS.toNat = 0x0101010101010101 := rfl
  rw [hL]
  generalize x.toNat = n at hx hbyte ⊢
  obtain rfl | rfl | rfl | rfl | rfl | rfl | rfl | rfl : i = 0 ∨ i = 1 ∨ i = 2 ∨ i = 3 ∨ i = 4 ∨ i = 5 ∨ i = 6 ∨ i = 7 := by
    omega
  all_goals simp only [Nat.mul_zero, Nat.pow_zero, Nat.reduceMul, Nat.reducePow, Nat.reduceAdd, Nat.reduceSub] at *; omega

theorem match_hit {w : List Nat} (hw : Grp w) {h : Nat} (hh : h < 128) {i : Nat} (hi : w[i]? = some h) :
    (matchMask w h).getLsbD (8 * i + 7) = true := by
  have hl : i < 8 := by have := (List.getElem?_eq_some_iff.1 hi).1; rwa [hw.len] at this
  have hz : ∀ j, j < 8 → (word w ^^^ (LSBS * BitVec.ofNat 64 h)).getLsbD (8 * i + j) = false := by
    intro j hj
    rw [BitVec.getLsbD_xor, hw.bit hi hj, lsbs_mul hh hl hj]; simp
  rw [matchMask, BitVec.getLsbD_and, BitVec.getLsbD_and, msbs_bit, sub_lsbs_bit hl hz, BitVec.getLsbD_not, hz 7 (by omega)]
  simp; omega

theorem matchIdx_full {w : List Nat} (hw : Grp w) {h : Nat} (hh : h < 128) {i : Nat} (hi : i ∈ matchIdx w h) :
    i < 8 ∧ ∃ c, w[i]? = some c ∧ isFull c = true := by
  rw [matchIdx, maskIdx_mem 64 _ (by intro p _; omega)] at hi
  obtain ⟨p, hp, rfl⟩ := hi
  have := BitVec.lt_of_getLsbD hp
  exact ⟨by omega, match_full hw hh hp⟩

theorem matchIdx_hit {w : List Nat} (hw : Grp w) {h : Nat} (hh : h < 128) {i : Nat} (hi : w[i]? = some h) :
    i ∈ matchIdx w h := by
  rw [matchIdx, maskIdx_mem 64 _ (by intro p _; omega)]
  exact ⟨_, match_hit hw hh hi, by omega⟩

theorem anyEmpty_iff {w : List Nat} (hw : Grp w) : anyEmpty w = true ↔ EMPTY ∈ w := by
  rw [anyEmpty, bne_iff_ne, (emptyMask_isMask hw).ne_zero, List.mem_iff_getElem?]
  constructor
  · rintro ⟨i, _, h⟩; exact ⟨i, h⟩
  · rintro ⟨i, h⟩
    exact ⟨i, by have := (List.getElem?_eq_some_iff.1 h).1; rwa [hw.len] at this, h⟩

theorem firstED_none {w : List Nat} (hw : Grp w) (h : firstED w = none) : ∀ c ∈ w, isED c = false := by
  unfold firstED at h
  split at h
  · rename_i h0
    intro c hc
    obtain ⟨i, hi⟩ := List.mem_iff_getElem?.1 hc
    have hl : i < 8 := by have := (List.getElem?_eq_some_iff.1 hi).1; rwa [hw.len] at this
    have := mt (edMask_isMask hw).ne_zero.2 (fun h' => h' h0)
    by_cases hE : isED c = true
    · exact absurd ⟨i, hl, c, hi, hE⟩ this
    · simpa using hE
  · cases h

theorem firstED_some {w : List Nat} (hw : Grp w) {i : Nat} (h : firstED w = some i) :
    i < 8 ∧ (∃ c, w[i]? = some c ∧ isED c = true) ∧ ∀ j c, j < i → w[j]? = some c → isED c = false := by
  unfold firstED at h
  split at h
  · cases h
  · rename_i h0
    injection h with h; subst h
    obtain ⟨h1, h2, h3⟩ := (edMask_isMask hw).tz_first h0
    refine ⟨h1, h2, fun j c hj hc => ?_⟩
    by_cases hE : isED c = true
    · exact absurd ⟨c, hc, hE⟩ (h3 j hj)
    · simpa using hE

/-- First empty position of a group. -/
theorem tzEmpty {w : List Nat} (hw : Grp w) (h : anyEmpty w = true) :
    tz (emptyMask w) / 8 < 8 ∧ w[tz (emptyMask w) / 8]? = some EMPTY ∧
      ∀ j, j < tz (emptyMask w) / 8 → w[j]? ≠ some EMPTY :=
  (emptyMask_isMask hw).tz_first (bne_iff_ne.1 h)

/-- Last empty position of a group. -/
theorem lzEmpty {w : List Nat} (hw : Grp w) (h : anyEmpty w = true) :
    lz (emptyMask w) / 8 < 8 ∧ w[7 - lz (emptyMask w) / 8]? = some EMPTY ∧
      ∀ j, 7 - lz (emptyMask w) / 8 < j → j < 8 → w[j]? ≠ some EMPTY :=
  (emptyMask_isMask hw).lz_last (bne_iff_ne.1 h)

/-! ## Counting leading free bytes -/

theorem gaps_bit (p : Nat) : GAPS.getLsbD p = decide (p < 56 ∧ p % 8 ≠ 0) := by
  by_cases hp : p < 64
  · have : ∀ q : Fin 64, GAPS.getLsbD q.val = decide (q.val < 56 ∧ q.val % 8 ≠ 0) := by decide
    exact this ⟨p, hp⟩
  · rw [BitVec.getLsbD_of_ge _ _ (by omega)]; simp; omega

/-- Adding one to a word whose lowest clear bit is `b` makes `b` the lowest set bit. -/
theorem succ_lowest {m : BitVec 64} {b : Nat} (hb : b < 64) (hc : m.getLsbD b = false) (hl : ∀ j, j < b → m.getLsbD j = true) :
    tz (m + 1#64) = b := by
  have hbit : ∀ p, m.getLsbD p = m.toNat.testBit p := fun p => rfl
  have hpb : 0 < 2 ^ b := Nat.pow_pos (by omega)
  have hlow : m.toNat % 2 ^ b = 2 ^ b - 1 := by
    apply Nat.eq_of_testBit_eq
    intro j
    rw [Nat.testBit_mod_two_pow, Nat.testBit_two_pow_sub_one]
    by_cases hj : j < b
    · rw [← hbit, hl j hj]; simp [hj]
    · simp [hj]
  have hd := Nat.div_add_mod m.toNat (2 ^ b)
  rw [hlow] at hd
  have hq : m.toNat / 2 ^ b % 2 = 0 := by
    rw [hbit, ← hd, Nat.testBit_two_pow_mul_add _ (by omega), if_neg (by omega), Nat.sub_self, Nat.testBit_zero] at hc
    simpa using hc
  generalize hQ : m.toNat / 2 ^ b = q at hd hq
  have h64 : (2:Nat) ^ 64 = 2 ^ b * 2 ^ (64 - b) := by rw [← Nat.pow_add]; congr 1; omega
  have hm := m.isLt
  have hpe : 2 ^ (64 - b) % 2 = 0 := by
    rw [show 64 - b = (64 - b - 1) + 1 by omega, Nat.pow_succ]; omega
  have hqlt : q < 2 ^ (64 - b) := by
    by_cases hlt : q < 2 ^ (64 - b)
    · exact hlt
    · have := Nat.mul_le_mul_left (2 ^ b) (Nat.le_of_not_lt hlt)
      rw [h64] at hm
      omega
  have hsum : m.toNat + 1 = 2 ^ b * (q + 1) := by rw [Nat.mul_add, Nat.mul_one]; omega
  have hlt : m.toNat + 1 < 2 ^ 64 := by
    rw [hsum, h64]
    exact Nat.mul_lt_mul_of_pos_left (by omega) hpb
  have hv : (m + 1#64).toNat = 2 ^ b * (q + 1) + 0 := by
    rw [BitVec.toNat_add, BitVec.toNat_ofNat, Nat.add_zero, ← hsum]
    omega
  have hbits : ∀ p, (m + 1#64).getLsbD p = if p < b then false else (q + 1).testBit (p - b) := by
    intro p
    show (m + 1#64).toNat.testBit p = _
    rw [hv, Nat.testBit_two_pow_mul_add _ hpb]; simp
  have hset : (m + 1#64).getLsbD b = true := by
    rw [hbits, if_neg (by omega), Nat.sub_self, Nat.testBit_zero, decide_eq_true_eq]; omega
  have hne : m + 1#64 ≠ 0#64 := ne_zero_iff.2 ⟨b, hset⟩
  obtain ⟨h1, h2, h3⟩ := tz_spec hne
  rcases Nat.lt_trichotomy (tz (m + 1#64)) b with h | h | h
  · rw [hbits, if_pos h] at h2; cases h2
  · exact h
  · have := h3 b h; rw [hset] at this; cases this

/-- hash_storage.h:139-142 counts the leading empty or deleted bytes. -/
theorem countED_spec {w : List Nat} (hw : Grp w) :
    countED w ≤ 8 ∧ (∀ j c, j < countED w → w[j]? = some c → isED c = true) ∧
      ∀ c, w[countED w]? = some c → isED c = false := by
  -- bits of the scanned word
  have hget : ∀ i, i < 8 → ∃ c, w[i]? = some c ∧ Valid c := fun i hi => by
    have hl : i < w.length := by rw [hw.len]; exact hi
    exact ⟨_, List.getElem?_eq_getElem hl, hw.valid _ (List.getElem_mem hl)⟩
  have hbase : ∀ i c, w[i]? = some c → i < 8 →
      ((~~~(word w) &&& (word w >>> 7)) ||| GAPS).getLsbD (8 * i) = isED c := by
    intro i c hc hi
    rw [BitVec.getLsbD_or, BitVec.getLsbD_and, BitVec.getLsbD_not, BitVec.getLsbD_ushiftRight, gaps_bit,
      show 7 + 8 * i = 8 * i + 7 by omega, hw.bit hc (by omega)]
    have := hw.bit hc (j := 0) (by omega)
    rw [Nat.add_zero] at this
    rw [this]
    have h1 : decide (8 * i < 64) = true := decide_eq_true (by omega)
    have h2 : decide (8 * i < 56 ∧ 8 * i % 8 ≠ 0) = false := decide_eq_false (by omega)
    rw [h1, h2, Bool.true_and, Bool.or_false, Bool.and_comm]
    have hv := valid_ed (hw.valid c (List.mem_of_getElem? hc))
    cases hE : isED c with
    | true => rw [hv.2 hE]
    | false =>
      cases hB : (c.testBit 7 && !c.testBit 0) with
      | false => rfl
      | true => rw [hv.1 hB] at hE; cases hE
  have hgap : ∀ p, p < 56 → p % 8 ≠ 0 → ((~~~(word w) &&& (word w >>> 7)) ||| GAPS).getLsbD p = true := by
    intro p hp hp8
    rw [BitVec.getLsbD_or, gaps_bit, decide_eq_true (show p < 56 ∧ p % 8 ≠ 0 from ⟨hp, hp8⟩), Bool.or_true]
  -- the least byte that is not free
  have hex : ∃ n, n ≤ 8 ∧ (∀ j c, j < n → w[j]? = some c → isED c = true) ∧ ∀ c, w[n]? = some c → isED c = false := by
    have : ∀ n, n ≤ 8 → (∀ j c, j < n → w[j]? = some c → isED c = true) →
        ∃ n, n ≤ 8 ∧ (∀ j c, j < n → w[j]? = some c → isED c = true) ∧ ∀ c, w[n]? = some c → isED c = false := by
      intro n hn
      induction hk : 8 - n generalizing n with
      | zero =>
        intro h
        refine ⟨n, hn, h, fun c hc => ?_⟩
        have := (List.getElem?_eq_some_iff.1 hc).1
        rw [hw.len] at this; omega
      | succ k ih =>
        intro h
        obtain ⟨c, hc, _⟩ := hget n (by omega)
        cases hE : isED c with
        | false =>
          refine ⟨n, hn, h, fun c' hc' => ?_⟩
          rw [hc] at hc'; injection hc' with hc'; rw [← hc']; exact hE
        | true =>
          refine ih (n + 1) (by omega) (by omega) ?_
          intro j c' hj hc'
          by_cases he : j = n
          · subst he; rw [hc] at hc'; injection hc' with hc'; rw [← hc']; exact hE
          · exact h j c' (by omega) hc'
    exact this 0 (by omega) (by intro j c hj; omega)
  obtain ⟨n, hn, hlo, hhi⟩ := hex
  have hbits : ∀ p, p < 8 * n → p < 57 → ((~~~(word w) &&& (word w >>> 7)) ||| GAPS).getLsbD p = true := by
    intro p hp hp57
    by_cases h8 : p % 8 = 0
    · obtain ⟨c, hc, _⟩ := hget (p / 8) (by omega)
      have := hbase (p / 8) c hc (by omega)
      rw [show 8 * (p / 8) = p by omega] at this
      rw [this]; exact hlo _ c (by omega) hc
    · exact hgap p (by omega) h8
  have hcount : countED w = n := by
    unfold countED
    by_cases h8 : n = 8
    · subst h8
      rw [succ_lowest (b := 57) (by omega) ?_ (fun j hj => hbits j (by omega) hj)]
      rw [BitVec.getLsbD_or, BitVec.getLsbD_and, BitVec.getLsbD_ushiftRight, gaps_bit]
      rw [BitVec.getLsbD_of_ge _ (7 + 57) (by omega)]; simp
    · obtain ⟨c, hc, _⟩ := hget n (by omega)
      rw [succ_lowest (b := 8 * n) (by omega) (by rw [hbase n c hc (by omega)]; exact hhi c hc)
        (fun j hj => hbits j hj (by omega))]
      omega
  rw [hcount]
  exact ⟨hn, hlo, hhi⟩

example : matchIdx [5, 128, 5, 254, 4, 0, 255, 5] 5 = [0, 2, 7] ∧ matchIdx [5, 4, 128, 128, 128, 128, 128, 128] 5 = [0, 1] ∧
    anyEmpty [5, 254, 255, 1, 2, 3, 4, 5] = false ∧ firstED [5, 255, 254, 1, 2, 3, 4, 5] = some 2 ∧
    countED [128, 254, 128, 255, 128, 128, 128, 128] = 3 := by decide +kernel

end Cista.HS
