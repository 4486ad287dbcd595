import Verif.Arith.Props

/-!
# Aligned allocation

Model of the size computations of include/cista/aligned_alloc.h and include/cista/aligned_allocator.h on 64 bit `std::size_t`.
-/

namespace Cista.Arith.Alloc

/-- aligned_alloc.h:9-13 `to_next_multiple` for `std::size_t`: `n + multiple - r` modulo 2⁶⁴. -/
def toNextMultiple (n m : Nat) : Nat :=
  let r := n % m
  if r = 0 then n else (n + m - r) % 2 ^ 64

/-- aligned_alloc.h:36-39 `CISTA_ALIGNED_ALLOC(alignment, size)`: alignment and size passed to `std::aligned_alloc`. -/
def alignedAlloc (alignment size : Nat) : Nat × Nat :=
  let a := (nextPow2 (BitVec.ofNat 64 alignment)).toNat
  (a, toNextMultiple size a)

/-- aligned_allocator.h:34-41 `allocate(n)` for `sizeof(value_type) = sz` and the template argument `N`. -/
def allocate (N sz n : Nat) : Nat × Nat := alignedAlloc N (n * sz % 2 ^ 64)

/-- aligned_allocator.h:51-53 `max_size`: `size_type(~0U) / sizeof(value_type)`, where `~0U` has 32 bits. -/
def maxSize (sz : Nat) : Nat := (2 ^ 32 - 1) / sz

/-! ## Properties -/

theorem next_multiple_eq (n m : Nat) (hm : 0 < m) :
    ∃ q, (if n % m = 0 then n else n + m - n % m) = q * m ∧ n ≤ q * m ∧ q * m < n + m := by
  have h1 := Nat.mod_add_div n m
  have h2 := Nat.mod_lt n hm
  split
  · rename_i h0
    refine ⟨n / m, ?_, ?_, ?_⟩ <;> rw [Nat.mul_comm] <;> omega
  · refine ⟨n / m + 1, ?_, ?_, ?_⟩ <;> rw [Nat.add_mul, Nat.one_mul, Nat.mul_comm (n / m)] <;> omega

/-- The result is the least multiple of `m` that is at least `n`, if that is a `std::size_t`. -/
theorem C77_next_multiple (n m : Nat) (hm : 0 < m) (hfit : ∃ q, n ≤ q * m ∧ q * m < 2 ^ 64) :
    m ∣ toNextMultiple n m ∧ n ≤ toNextMultiple n m ∧ ∀ q, n ≤ q * m → toNextMultiple n m ≤ q * m := by
  obtain ⟨q, e, h1, h2⟩ := next_multiple_eq n m hm
  have hleast : ∀ p, n ≤ p * m → q * m ≤ p * m := by
    intro p hp
    apply Nat.mul_le_mul_right
    apply Nat.le_of_lt_succ
    apply Nat.lt_of_mul_lt_mul_right (a := m)
    rw [Nat.succ_mul]; omega
  obtain ⟨p, hp, hp'⟩ := hfit
  have hlt : q * m < 2 ^ 64 := Nat.lt_of_le_of_lt (hleast p hp) hp'
  have key : toNextMultiple n m = q * m := by
    unfold toNextMultiple
    simp only
    split
    · rename_i h0; rw [if_pos h0] at e; exact e
    · rename_i h0; rw [if_neg h0] at e; rw [e]; exact Nat.mod_eq_of_lt hlt
  rw [key]
  exact ⟨Nat.dvd_mul_left _ _, h1, hleast⟩

example : toNextMultiple 17 8 = 24 ∧ toNextMultiple 16 8 = 16 ∧ toNextMultiple 0 8 = 0 := by decide

/-- What `std::aligned_alloc` is called with for an allocation of up to `max_size()` elements: the alignment is the least power of two from `N` on,
the size is a multiple of it, and has room for all elements with less than one alignment to spare. -/
theorem C77_allocate (N sz n : Nat) (hN : 0 < N) (hN' : N ≤ 2 ^ 31) (hs : 0 < sz) (hn : n ≤ maxSize sz) :
    (∃ k, (allocate N sz n).1 = 2 ^ k ∧ N ≤ 2 ^ k ∧ ∀ j, N ≤ 2 ^ j → 2 ^ k ≤ 2 ^ j) ∧
      (allocate N sz n).1 ∣ (allocate N sz n).2 ∧ n * sz ≤ (allocate N sz n).2 ∧ (allocate N sz n).2 < n * sz + (allocate N sz n).1 := by
  have hNn : (BitVec.ofNat 64 N).toNat = N := by
    rw [BitVec.toNat_ofNat]; apply Nat.mod_eq_of_lt; omega
  obtain ⟨k, hk, hle, hleast⟩ := C01_next_power_of_two_least (w := 64) (by simp [StdWidth]) (BitVec.ofNat 64 N)
    (fun h => by rw [h] at hNn; simp at hNn; omega) (by rw [hNn]; omega)
  rw [hNn] at hle hleast
  have hk31 : 2 ^ k ≤ 2 ^ 31 := hleast 31 hN'
  have hbytes : n * sz < 2 ^ 32 := by
    have h1 := Nat.mul_le_mul_right sz hn
    have h2 := Nat.div_mul_le_self (2 ^ 32 - 1) sz
    unfold maxSize at h1
    omega
  have hpos : 0 < 2 ^ k := Nat.pow_pos (by decide)
  obtain ⟨q, _, h1, h2⟩ := next_multiple_eq (n * sz) (2 ^ k) hpos
  have hm := C77_next_multiple (n * sz) (2 ^ k) hpos ⟨q, h1, by omega⟩
  have e : allocate N sz n = (2 ^ k, toNextMultiple (n * sz) (2 ^ k)) := by
    unfold allocate alignedAlloc
    simp only [hk]
    rw [Nat.mod_eq_of_lt (show n * sz < 2 ^ 64 by omega)]
  rw [e]
  exact ⟨⟨k, rfl, hle, hleast⟩, hm.1, hm.2.1, Nat.lt_of_le_of_lt (hm.2.2 q h1) h2⟩

example : allocate 16 24 5 = (16, 128) ∧ 5 ≤ maxSize 24 := by decide +kernel

/-- Beyond `max_size()`, which `allocate` does not check, the claim fails: a request whose size in bytes is a little more than 2⁶⁴ gets a small block. -/
theorem C77_beyond_max_size (N k : Nat) :
    (allocate N 16 (2 ^ 60 + k)).2 = (allocate N 16 k).2 := by
  unfold allocate
  rw [show (2 ^ 60 + k) * 16 % 2 ^ 64 = k * 16 % 2 ^ 64 by omega]

/-- Close to 2⁶⁴ rounding up wraps around to zero. -/
theorem C77_wraps_around (k n : Nat) (hk : k ≤ 63) (h : 2 ^ 64 - 2 ^ k < n) (h' : n < 2 ^ 64) : toNextMultiple n (2 ^ k) = 0 := by
  have hp : 0 < 2 ^ k := Nat.pow_pos (by decide)
  obtain ⟨d, hd⟩ : 2 ^ k ∣ 2 ^ 64 := Nat.pow_dvd_pow 2 (by omega)
  obtain ⟨q, e, h1, h2⟩ := next_multiple_eq n (2 ^ k) hp
  have hq : q = d := by
    have a1 : q < d + 1 := by
      apply Nat.lt_of_mul_lt_mul_right (a := 2 ^ k)
      rw [Nat.add_mul, Nat.mul_comm d, ← hd]; omega
    have a2 : d < q + 1 := by
      apply Nat.lt_of_mul_lt_mul_right (a := 2 ^ k)
      rw [Nat.add_mul, Nat.mul_comm d, ← hd]; omega
    omega
  have hne : n % 2 ^ k ≠ 0 := by
    intro h0
    rw [if_pos h0, hq, Nat.mul_comm, ← hd] at e
    omega
  unfold toNextMultiple
  simp only
  rw [if_neg hne]
  rw [if_neg hne] at e
  rw [e, hq, Nat.mul_comm, ← hd]

example : toNextMultiple (2 ^ 64 - 3) 16 = 0 := by decide

end Cista.Arith.Alloc
