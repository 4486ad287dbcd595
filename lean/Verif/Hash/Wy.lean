import Verif.Hash.Props

/-!
# wyhash

Model of tools/wyhash/wyhash.h, the hash functions of the build options `CISTA_HASH=WYHASH` and `CISTA_HASH=WYHASH_FASTEST`
(CMakeLists.txt:51-60), and of the wrappers in include/cista/hash.h:41-103.  Pointers are offsets into the hashed bytes; a read outside
of them is undefined.  Lengths are the ones of existing objects and do not reach `2^64`.  The macros `UNOFFICIAL_WYHASH_32BIT` and
`UNOFFICIAL_WYHASH_CONDOM` are not defined; `make_secret` and the random numbers are not used by the library.
-/
set_option linter.unusedSimpArgs false

namespace Cista.Wy

open Cista.Hash

/-- tools/wyhash/wyhash.h:18 `_wyp`. -/
def s0 : HashT := 0xa0761d6478bd642f#64
def s1 : HashT := 0xe7037ed1a0b428db#64

/-- tools/wyhash/wyhash.h:19 `_wyrotr`. -/
def rotr (v : HashT) (k : Nat) : HashT := (v >>> k) ||| (v <<< (64 - k))

/-- tools/wyhash/wyhash.h:25-26 `_wymum` with 128 bit integers. -/
def mum (A B : HashT) : HashT :=
  let r : BitVec 128 := A.setWidth 128 * B.setWidth 128
  (r >>> 64 ^^^ r).setWidth 64

/-- tools/wyhash/wyhash.h:30-33 `_wymum` without 128 bit integers. -/
def mumPortable (A B : HashT) : HashT :=
  let ha := A >>> 32
  let hb := B >>> 32
  let la := A &&& 0xffffffff#64
  let lb := B &&& 0xffffffff#64
  let rh := ha * hb
  let rm0 := ha * lb
  let rm1 := hb * la
  let rl := la * lb
  let t := rl + (rm0 <<< 32)
  let c := if t < rl then 1#64 else 0#64
  let lo := t + (rm1 <<< 32)
  let c := c + if lo < t then 1#64 else 0#64
  let hi := rh + (rm0 >>> 32) + (rm1 >>> 32) + c
  hi ^^^ lo

/-- `n` bytes at `p`. -/
def rdAt (l : List Byte) (p n : Nat) : Res (List Byte) := do
  require (decide (p + n ≤ l.length))
  return (l.drop p).take n

/-- tools/wyhash/wyhash.h:56, 60, 63 `_wyr8`: the bytes are copied to an integer, which is swapped on a big endian machine. -/
def r8 (host : Endian) (l : List Byte) (p : Nat) : Res HashT := do
  let b ← rdAt l p 8
  return BitVec.ofNat 64 (match host with
    | .little => ofHost .little b
    | .big => endianSwap 8 (ofHost .big b))

/-- tools/wyhash/wyhash.h:57, 61, 64 `_wyr4`. -/
def r4 (host : Endian) (l : List Byte) (p : Nat) : Res HashT := do
  let b ← rdAt l p 4
  return BitVec.ofNat 64 (match host with
    | .little => ofHost .little b
    | .big => endianSwap 4 (ofHost .big b))

/-- One byte at `p`. -/
def r1 (l : List Byte) (p : Nat) : Res HashT :=
  match l[p]? with
  | some b => .ok (b.setWidth 64)
  | none => .error .ub

/-- tools/wyhash/wyhash.h:67 `_wyr3`. -/
def r3 (l : List Byte) (p k : Nat) : Res HashT := do
  let a ← r1 l p
  let b ← r1 l (p + k / 2)
  let c ← r1 l (p + (k - 1))
  return a <<< 16 ||| b <<< 8 ||| c

/-- tools/wyhash/wyhash.h:68-71 `FastestHash`. -/
def fastest (host : Endian) (l : List Byte) (seed : HashT) : Res HashT :=
  if l.length ≥ 4 then do
    let a ← r4 host l 0
    let b ← r4 host l (l.length - 4)
    let c ← r4 host l (l.length / 2 - 2)
    return (a + b) * (c ^^^ seed)
  else if l.length ≠ 0 then do
    let a ← r3 l 0 l.length
    return a * (s0 ^^^ seed)
  else return seed

/-- tools/wyhash/wyhash.h:75-82: the code behind `finalization`. -/
def fin (host : Endian) (l : List Byte) (p i : Nat) (seed : HashT) : Res HashT :=
  if i ≤ 8 then
    if 4 ≤ i then do
      let a ← r4 host l p
      let b ← r4 host l (p + i - 4)
      return mum (a ^^^ s0) (b ^^^ seed)
    else if i ≠ 0 then do
      let a ← r3 l p i
      return mum (a ^^^ s0) seed
    else return mum s0 seed
  else if i ≤ 16 then do
    let a ← r8 host l p
    let b ← r8 host l (p + i - 8)
    return mum (a ^^^ s0) (b ^^^ seed)
  else do
    let a ← r8 host l p
    let b ← r8 host l (p + 8)
    fin host l (p + 16) (i - 16) (mum (a ^^^ s0) (b ^^^ seed))
termination_by i
decreasing_by omega

/-- One line of the loop. -/
def mixAt (host : Endian) (l : List Byte) (p : Nat) (seed : HashT) : Res HashT := do
  let a ← r8 host l p
  let b ← r8 host l (p + 8)
  return mum (a ^^^ s0) (b ^^^ seed)

/-- tools/wyhash/wyhash.h:85-92: the loop and the jump to `finalization`. -/
def loop (host : Endian) (l : List Byte) (p i : Nat) (seed see1 see2 see3 : HashT) : Res HashT :=
  if 64 < i then do
    let seed ← mixAt host l p seed
    let see1 ← mixAt host l (p + 16) see1
    let see2 ← mixAt host l (p + 32) see2
    let see3 ← mixAt host l (p + 48) see3
    loop host l (p + 64) (i - 64) seed see1 see2 see3
  else fin host l p i (seed ^^^ (see1 ^^^ see2 ^^^ see3))
termination_by i
decreasing_by omega

/-- tools/wyhash/wyhash.h:72-94 `_wyhash`, `wyhash`. -/
def wyhash (host : Endian) (l : List Byte) (seed : HashT) : Res HashT := do
  let seed := seed ^^^ s1
  let r ← if l.length ≤ 64 then fin host l 0 l.length seed
    else loop host l 0 l.length seed (rotr seed 16) (rotr seed 32) (rotr seed 48)
  return mum (r ^^^ BitVec.ofNat 64 l.length) s0

/-! ## Specification -/

/-- `hi ^ lo` of the full product. -/
def mumNat (a b : Nat) : Nat := (a * b / 2 ^ 64) ^^^ (a * b % 2 ^ 64)

/-- The number that `n` bytes at `p` denote, least significant byte first. -/
def word (l : List Byte) (p n : Nat) : HashT := BitVec.ofNat 64 (ofLE ((l.drop p).take n))

/-- First, middle and last byte. -/
def three (l : List Byte) : HashT :=
  BitVec.ofNat 64 (65536 * (l.getD 0 0).toNat + 256 * (l.getD (l.length / 2) 0).toNat + (l.getD (l.length - 1) 0).toNat)

/-- Absorb 16 bytes. -/
def absorb (l : List Byte) (seed : HashT) : HashT := mum (word l 0 8 ^^^ s0) (word l 8 8 ^^^ seed)

/-- The last bytes, at most 64. -/
def tailS (l : List Byte) (seed : HashT) : HashT :=
  if 16 < l.length then tailS (l.drop 16) (absorb l seed)
  else if 8 < l.length then mum (word l 0 8 ^^^ s0) (word l (l.length - 8) 8 ^^^ seed)
  else if 4 ≤ l.length then mum (word l 0 4 ^^^ s0) (word l (l.length - 4) 4 ^^^ seed)
  else if l.length = 0 then mum s0 seed
  else mum (three l ^^^ s0) seed
termination_by l.length
decreasing_by simp; omega

/-- Blocks of 64 bytes in four lanes. -/
def bodyS (l : List Byte) (a b c d : HashT) : HashT :=
  if 64 < l.length then
    bodyS (l.drop 64) (absorb l a) (absorb (l.drop 16) b) (absorb (l.drop 32) c) (absorb (l.drop 48) d)
  else tailS l (a ^^^ b ^^^ c ^^^ d)
termination_by l.length
decreasing_by simp; omega

def hashS (l : List Byte) (seed : HashT) : HashT :=
  let s := seed ^^^ s1
  mum ((if l.length ≤ 64 then tailS l s else bodyS l s (s.rotateRight 16) (s.rotateRight 32) (s.rotateRight 48)) ^^^
    BitVec.ofNat 64 l.length) s0

def fastestS (l : List Byte) (seed : HashT) : HashT :=
  if 4 ≤ l.length then (word l 0 4 + word l (l.length - 4) 4) * (word l (l.length / 2 - 2) 4 ^^^ seed)
  else if l.length = 0 then seed
  else three l * (s0 ^^^ seed)

/-! ## Multiplication -/

theorem mum_toNat (A B : HashT) : (mum A B).toNat = mumNat A.toNat B.toNat := by
  have hA := A.isLt
  have hB := B.isLt
  have hlt : A.toNat * B.toNat < 2 ^ 128 := by
    calc A.toNat * B.toNat < 2 ^ 64 * 2 ^ 64 := Nat.mul_lt_mul'' hA hB
      _ = 2 ^ 128 := by decide
  have hq : A.toNat * B.toNat / 2 ^ 64 < 2 ^ 64 := by omega
  unfold mum mumNat
  simp only [BitVec.toNat_setWidth, BitVec.toNat_xor, BitVec.toNat_ushiftRight, BitVec.toNat_mul]
  rw [Nat.mod_eq_of_lt (show A.toNat < 2 ^ 128 by omega), Nat.mod_eq_of_lt (show B.toNat < 2 ^ 128 by omega), Nat.mod_eq_of_lt hlt,
    Nat.shiftRight_eq_div_pow, Nat.xor_mod_two_pow, Nat.mod_eq_of_lt hq]

theorem carry_lo (P M0 M1 R : Nat) :
    (R + M0 % 4294967296 * 4294967296 + M1 % 4294967296 * 4294967296) % 18446744073709551616 =
      (18446744073709551616 * P + 4294967296 * M0 + 4294967296 * M1 + R) % 18446744073709551616 := by omega

theorem carry_hi (P M0 M1 R : Nat) (_h0 : M0 ≤ 18446744065119617025) (_h1 : M1 ≤ 18446744065119617025)
    (_hR : R ≤ 18446744065119617025) :
    P + M0 / 4294967296 + M1 / 4294967296 +
      ((if (R + M0 % 4294967296 * 4294967296) % 18446744073709551616 < R then 1 else 0) +
        (if (R + M0 % 4294967296 * 4294967296 + M1 % 4294967296 * 4294967296) % 18446744073709551616 <
          (R + M0 % 4294967296 * 4294967296) % 18446744073709551616 then 1 else 0)) =
      (18446744073709551616 * P + 4294967296 * M0 + 4294967296 * M1 + R) / 18446744073709551616 := by
  split <;> split <;> omega

theorem prod_split (ha la hb lb : Nat) : (4294967296 * ha + la) * (4294967296 * hb + lb) =
    18446744073709551616 * (ha * hb) + 4294967296 * (ha * lb) + 4294967296 * (hb * la) + la * lb := by
  have e1 : 4294967296 * ha * (4294967296 * hb) = 18446744073709551616 * (ha * hb) := by
    rw [Nat.mul_mul_mul_comm]
  rw [Nat.add_mul, Nat.mul_add, Nat.mul_add, e1, Nat.mul_assoc, Nat.mul_left_comm la, Nat.mul_comm la hb]
  omega

theorem toNat_low (x : HashT) : (x &&& 0xffffffff#64).toNat = x.toNat % 4294967296 := by
  have h := Nat.and_two_pow_sub_one_eq_mod x.toNat 32
  simp only [Nat.reducePow, Nat.reduceSub] at h
  rw [BitVec.toNat_and, ← h]
  simp only [BitVec.toNat_ofNat, Nat.reduceMod, Nat.reducePow]

theorem toNat_high (x : HashT) : (x >>> 32).toNat = x.toNat / 4294967296 := by
  rw [BitVec.toNat_ushiftRight, Nat.shiftRight_eq_div_pow]

theorem toNat_up (x : HashT) : (x <<< 32).toNat = x.toNat % 4294967296 * 4294967296 := by
  have := x.isLt
  rw [BitVec.toNat_shiftLeft, Nat.shiftLeft_eq]
  simp only [Nat.reducePow] at this ⊢
  omega

theorem toNat_flag (x y : HashT) : (if x < y then 1#64 else 0#64).toNat = if x.toNat < y.toNat then 1 else 0 := by
  by_cases h : x < y
  · rw [if_pos h, if_pos (BitVec.lt_def.1 h)]; rfl
  · rw [if_neg h, if_neg (fun g => h (BitVec.lt_def.2 g))]; rfl

theorem toNat_mul_small {x y : HashT} (hx : x.toNat < 4294967296) (hy : y.toNat < 4294967296) :
    (x * y).toNat = x.toNat * y.toNat ∧ x.toNat * y.toNat ≤ 18446744065119617025 := by
  have h : x.toNat * y.toNat ≤ 18446744065119617025 :=
    calc x.toNat * y.toNat ≤ 4294967295 * 4294967295 := Nat.mul_le_mul (by omega) (by omega)
      _ = 18446744065119617025 := by decide
  refine ⟨?_, h⟩
  rw [BitVec.toNat_mul, Nat.mod_eq_of_lt]
  simp only [Nat.reducePow]
  omega

/-- Adding up the partial products. -/
theorem parts (vP vM0 vM1 vR : HashT) (N : Nat) (h0 : vM0.toNat ≤ 18446744065119617025) (h1 : vM1.toNat ≤ 18446744065119617025)
    (hR : vR.toNat ≤ 18446744065119617025) (hN : N < 18446744073709551616 * 18446744073709551616)
    (hs : N = 18446744073709551616 * vP.toNat + 4294967296 * vM0.toNat + 4294967296 * vM1.toNat + vR.toNat) :
    (vR + vM0 <<< 32 + vM1 <<< 32).toNat = N % 18446744073709551616 ∧
    (vP + vM0 >>> 32 + vM1 >>> 32 + ((if vR + vM0 <<< 32 < vR then 1#64 else 0#64) +
      if vR + vM0 <<< 32 + vM1 <<< 32 < vR + vM0 <<< 32 then 1#64 else 0#64)).toNat = N / 18446744073709551616 := by
  have et : (vR + vM0 <<< 32).toNat = (vR.toNat + vM0.toNat % 4294967296 * 4294967296) % 18446744073709551616 := by
    rw [BitVec.toNat_add, toNat_up]
  have el : (vR + vM0 <<< 32 + vM1 <<< 32).toNat =
      (vR.toNat + vM0.toNat % 4294967296 * 4294967296 + vM1.toNat % 4294967296 * 4294967296) % 18446744073709551616 := by
    rw [BitVec.toNat_add, toNat_up, et]
    exact Nat.mod_add_mod _ _ _
  refine ⟨by rw [el, hs]; exact carry_lo _ _ _ _, ?_⟩
  have hq : N / 18446744073709551616 < 18446744073709551616 := Nat.div_lt_of_lt_mul hN
  have hh := carry_hi vP.toNat vM0.toNat vM1.toNat vR.toNat h0 h1 hR
  rw [← hs] at hh
  have hf : ((if vR + vM0 <<< 32 < vR then 1#64 else 0#64) +
      if vR + vM0 <<< 32 + vM1 <<< 32 < vR + vM0 <<< 32 then 1#64 else 0#64 : HashT).toNat =
      (if (vR.toNat + vM0.toNat % 4294967296 * 4294967296) % 18446744073709551616 < vR.toNat then 1 else 0) +
        (if (vR.toNat + vM0.toNat % 4294967296 * 4294967296 + vM1.toNat % 4294967296 * 4294967296) % 18446744073709551616 <
          (vR.toNat + vM0.toNat % 4294967296 * 4294967296) % 18446744073709551616 then 1 else 0) := by
    rw [BitVec.toNat_add, toNat_flag, toNat_flag, et, el]
    split <;> split <;> rfl
  have ha : ∀ x c f n : Nat, (x % n + c + f) % n = (x + c + f) % n := fun x c f n => by
    rw [Nat.add_assoc, Nat.mod_add_mod, Nat.add_assoc]
  rw [BitVec.toNat_add, BitVec.toNat_add, BitVec.toNat_add, toNat_high, toNat_high, hf, Nat.mod_add_mod, ha, hh]
  exact Nat.mod_eq_of_lt hq

/-- **C145** The variant of the multiplication for compilers without 128 bit integers computes the same as the one with them: the
exclusive or of the two halves of the full product. -/
theorem C145_multiply (A B : HashT) : mumPortable A B = mum A B ∧ (mum A B).toNat = mumNat A.toNat B.toNat := by
  refine ⟨BitVec.eq_of_toNat_eq ?_, mum_toNat A B⟩
  have hA : A.toNat < 18446744073709551616 := A.isLt
  have hB : B.toNat < 18446744073709551616 := B.isLt
  have a1 : (A >>> 32).toNat < 4294967296 := by rw [toNat_high]; omega
  have a2 : (A &&& 0xffffffff#64).toNat < 4294967296 := by rw [toNat_low]; omega
  have b1 : (B >>> 32).toNat < 4294967296 := by rw [toNat_high]; omega
  have b2 : (B &&& 0xffffffff#64).toNat < 4294967296 := by rw [toNat_low]; omega
  obtain ⟨p1, _⟩ := toNat_mul_small a1 b1
  obtain ⟨p2, q2⟩ := toNat_mul_small a1 b2
  obtain ⟨p3, q3⟩ := toNat_mul_small b1 a2
  obtain ⟨p4, q4⟩ := toNat_mul_small a2 b2
  have hs : A.toNat * B.toNat = 18446744073709551616 * (A >>> 32 * B >>> 32).toNat +
      4294967296 * (A >>> 32 * (B &&& 0xffffffff#64)).toNat + 4294967296 * (B >>> 32 * (A &&& 0xffffffff#64)).toNat +
      ((A &&& 0xffffffff#64) * (B &&& 0xffffffff#64)).toNat := by
    rw [p1, p2, p3, p4, ← prod_split, toNat_high, toNat_high, toNat_low, toNat_low, Nat.div_add_mod, Nat.div_add_mod]
  have hN : A.toNat * B.toNat < 18446744073709551616 * 18446744073709551616 := Nat.mul_lt_mul'' hA hB
  obtain ⟨hl, hh⟩ := parts _ _ _ _ _ (p2 ▸ q2) (p3 ▸ q3) (p4 ▸ q4) hN hs
  rw [mum_toNat]
  unfold mumPortable mumNat
  dsimp only
  rw [BitVec.toNat_xor, hl, hh]

example : mum 0xffffffffffffffff#64 0xfffffffffffffffe#64 = 0xffffffffffffffff#64 ∧
    mumPortable 0xffffffffffffffff#64 0xfffffffffffffffe#64 = 0xffffffffffffffff#64 := by decide

/-! ## Reading -/

theorem rdAt_ok {l : List Byte} {p n : Nat} (h : p + n ≤ l.length) : rdAt l p n = .ok ((l.drop p).take n) := by
  rw [rdAt, decide_eq_true h, require_true]; rfl

theorem swap_big {n : Nat} {b : List Byte} (h : b.length = n) : endianSwap n (ofHost .big b) = ofLE b := by
  show ofLE (leBytes n (ofLE b.reverse)).reverse = ofLE b
  have : leBytes n (ofLE b.reverse) = b.reverse := by
    have := leBytes_ofLE b.reverse
    rw [List.length_reverse, h] at this
    exact this
  rw [this, List.reverse_reverse]

theorem r8_ok (host : Endian) {l : List Byte} {p : Nat} (h : p + 8 ≤ l.length) : r8 host l p = .ok (word l p 8) := by
  have hl : ((l.drop p).take 8).length = 8 := by simp; omega
  rw [r8, rdAt_ok h, ok_bind]
  cases host with
  | little => rfl
  | big => simp only [swap_big hl]; rfl

theorem r4_ok (host : Endian) {l : List Byte} {p : Nat} (h : p + 4 ≤ l.length) : r4 host l p = .ok (word l p 4) := by
  have hl : ((l.drop p).take 4).length = 4 := by simp; omega
  rw [r4, rdAt_ok h, ok_bind]
  cases host with
  | little => rfl
  | big => simp only [swap_big hl]; rfl

theorem word_drop (l : List Byte) (p q n : Nat) : word (l.drop p) q n = word l (p + q) n := by
  rw [word, List.drop_drop]; rfl

theorem r1_ok {l : List Byte} {p : Nat} (h : p < l.length) : r1 l p = .ok ((l.getD p 0).setWidth 64) := by
  rw [r1, List.getElem?_eq_getElem h]
  simp [List.getD, List.getElem?_eq_getElem h]

theorem three_bits (a b c : Byte) : (a.setWidth 64 <<< 16 ||| b.setWidth 64 <<< 8 ||| c.setWidth 64 : HashT) =
    BitVec.ofNat 64 (65536 * a.toNat + 256 * b.toNat + c.toNat) := by
  apply BitVec.eq_of_toNat_eq
  have ha := a.isLt
  have hb := b.isLt
  have hc := c.isLt
  simp only [BitVec.toNat_or, BitVec.toNat_shiftLeft, BitVec.toNat_setWidth, BitVec.toNat_ofNat, Nat.shiftLeft_eq]
  simp only [Nat.reducePow] at *
  rw [Nat.mod_eq_of_lt (show a.toNat < 18446744073709551616 by omega), Nat.mod_eq_of_lt (show b.toNat < 18446744073709551616 by omega),
    Nat.mod_eq_of_lt (show c.toNat < 18446744073709551616 by omega),
    Nat.mod_eq_of_lt (show a.toNat * 65536 < 18446744073709551616 by omega),
    Nat.mod_eq_of_lt (show b.toNat * 256 < 18446744073709551616 by omega),
    Nat.mod_eq_of_lt (show 65536 * a.toNat + 256 * b.toNat + c.toNat < 18446744073709551616 by omega)]
  have h1 := Nat.two_pow_add_eq_or_of_lt (i := 8) hc (256 * a.toNat + b.toNat)
  have h2 := Nat.two_pow_add_eq_or_of_lt (i := 8) (b := b.toNat) hb a.toNat
  have h3 : a.toNat * 65536 ||| b.toNat * 256 = 65536 * a.toNat + 256 * b.toNat := by
    have := Nat.two_pow_add_eq_or_of_lt (i := 16) (b := 256 * b.toNat) (by simp only [Nat.reducePow]; omega) a.toNat
    simp only [Nat.reducePow] at this
    rw [this, Nat.mul_comm, Nat.mul_comm b.toNat]
  simp only [Nat.reducePow] at h1
  rw [h3, show 65536 * a.toNat + 256 * b.toNat = 256 * (256 * a.toNat + b.toNat) by omega, ← h1]

theorem r3_ok {l : List Byte} {p k : Nat} (hk : k ≠ 0) (h : p + k = l.length) : r3 l p k = .ok (three (l.drop p)) := by
  rw [r3, r1_ok (by omega), r1_ok (by omega), r1_ok (by omega), ok_bind, ok_bind, ok_bind, three]
  have e : (l.drop p).length = k := by simp; omega
  have g : ∀ q, (l.drop p).getD q 0 = l.getD (p + q) 0 := fun q => by simp [List.getD]
  rw [e, g, g, g, ← three_bits, Nat.add_zero]
  rfl

theorem fin_ok (host : Endian) (l : List Byte) : ∀ (i p : Nat) (seed : HashT), p + i = l.length →
    fin host l p i seed = .ok (tailS (l.drop p) seed) := by
  intro i
  induction i using Nat.strongRecOn with
  | ind i ih =>
    intro p seed h
    have e : (l.drop p).length = i := by simp; omega
    unfold fin tailS
    rw [e]
    by_cases h8 : i ≤ 8
    · rw [if_pos h8, if_neg (show ¬ 16 < i by omega), if_neg (show ¬ 8 < i by omega)]
      by_cases h4 : 4 ≤ i
      · rw [if_pos h4, if_pos h4, r4_ok host (show p + 4 ≤ l.length by omega), r4_ok host (show p + i - 4 + 4 ≤ l.length by omega), ok_bind,
          ok_bind, word_drop, word_drop, show p + i - 4 = p + (i - 4) by omega]
        rfl
      · rw [if_neg h4, if_neg h4]
        by_cases h0 : i = 0
        · rw [if_neg (show ¬ i ≠ 0 by omega), if_pos h0]; rfl
        · rw [if_pos h0, if_neg h0, r3_ok h0 h, ok_bind]; rfl
    · rw [if_neg h8]
      by_cases h16 : i ≤ 16
      · rw [if_pos h16, if_neg (show ¬ 16 < i by omega), if_pos (show 8 < i by omega), r8_ok host (show p + 8 ≤ l.length by omega),
          r8_ok host (show p + i - 8 + 8 ≤ l.length by omega), ok_bind, ok_bind, word_drop, word_drop,
          show p + i - 8 = p + (i - 8) by omega]
        rfl
      · rw [if_neg h16, if_pos (show 16 < i by omega), r8_ok host (show p + 8 ≤ l.length by omega),
          r8_ok host (show p + 8 + 8 ≤ l.length by omega), ok_bind, ok_bind, ih (i - 16) (by omega) _ _ (by omega), List.drop_drop, absorb,
          word_drop, word_drop]
        rfl

theorem mixAt_ok (host : Endian) (l : List Byte) (p q : Nat) (seed : HashT) (h : p + q + 16 ≤ l.length) :
    mixAt host l (p + q) seed = .ok (absorb ((l.drop p).drop q) seed) := by
  rw [mixAt, r8_ok host (by omega), r8_ok host (by omega), ok_bind, ok_bind, absorb, List.drop_drop, word_drop, word_drop]
  rfl

theorem loop_ok (host : Endian) (l : List Byte) : ∀ (i p : Nat) (a b c d : HashT), p + i = l.length →
    loop host l p i a b c d = .ok (bodyS (l.drop p) a b c d) := by
  intro i
  induction i using Nat.strongRecOn with
  | ind i ih =>
    intro p a b c d h
    have e : (l.drop p).length = i := by simp; omega
    unfold loop bodyS
    rw [e]
    by_cases h64 : 64 < i
    · have h0 := mixAt_ok host l p 0 a (by omega)
      rw [if_pos h64, if_pos h64, show mixAt host l p a = _ from h0, mixAt_ok host l p 16 b (by omega), mixAt_ok host l p 32 c (by omega),
        mixAt_ok host l p 48 d (by omega), ok_bind, ok_bind, ok_bind, ok_bind, ih (i - 64) (by omega) _ _ _ _ _ (by omega)]
      simp only [List.drop_drop, Nat.add_zero]
    · rw [if_neg h64, if_neg h64, fin_ok host l i p _ h, BitVec.xor_assoc, BitVec.xor_assoc, BitVec.xor_assoc]

theorem rotr_eq (v : HashT) (k : Nat) (h : k < 64) : rotr v k = v.rotateRight k := by
  rw [BitVec.rotateRight_def, Nat.mod_eq_of_lt h]; rfl

/-- **C145** `wyhash` reads only the bytes it is given, for every number of bytes, and its result is the one of the specification on
machines of both byte orders. -/
theorem C145_wyhash (host : Endian) (l : List Byte) (seed : HashT) : wyhash host l seed = .ok (hashS l seed) := by
  unfold wyhash hashS
  dsimp only
  by_cases h : l.length ≤ 64
  · rw [if_pos h, if_pos h, fin_ok host l _ 0 _ (by omega), ok_bind]; rfl
  · rw [if_neg h, if_neg h, loop_ok host l _ 0 _ _ _ _ (by omega), ok_bind, rotr_eq _ _ (by decide), rotr_eq _ _ (by decide),
      rotr_eq _ _ (by decide)]
    rfl

example : wyhash .big [1, 2, 3, 4, 5] 7#64 = wyhash .little [1, 2, 3, 4, 5] 7#64 ∧ hashS [1, 2, 3, 4, 5] 7#64 ≠ hashS [1, 2, 3, 4, 6] 7#64 :=
  ⟨by rw [C145_wyhash, C145_wyhash], by decide +kernel⟩

/-- **C145** `FastestHash` reads only the bytes it is given, for every number of bytes, and its result is the one of the specification on
machines of both byte orders. -/
theorem C145_fastest (host : Endian) (l : List Byte) (seed : HashT) : fastest host l seed = .ok (fastestS l seed) := by
  unfold fastest fastestS
  by_cases h : 4 ≤ l.length
  · rw [if_pos h, if_pos h, r4_ok host (by omega), r4_ok host (by omega), r4_ok host (by omega)]; rfl
  · rw [if_neg h, if_neg h]
    by_cases h0 : l.length = 0
    · rw [if_neg (by simp [h0]), if_pos h0]; rfl
    · rw [if_pos h0, if_neg h0, r3_ok h0 (by omega)]; rfl

example : fastest .big [1, 0, 0, 0, 2] 3#64 = .ok 0x4000002#64 ∧ fastestS [1, 2] 0 ≠ fastestS [2, 1] 0 := by
  constructor
  · rw [C145_fastest]; decide +kernel
  · decide +kernel

/-! ## The wrappers of the library -/

/-- The build options. -/
inductive Opt | wyhash | fastest

/-- include/cista/hash.h:45, 79 `BASE_HASH`. -/
def base : Opt → HashT
  | .wyhash => 34432#64
  | .fastest => 123#64

/-- include/cista/hash.h:56-58, 90-92 `hash(std::string_view, hash_t)`. -/
def hashSv (host : Endian) (o : Opt) (l : List Byte) (h : HashT) : Res HashT :=
  match o with
  | .wyhash => Wy.wyhash host l h
  | .fastest => Wy.fastest host l h

/-- include/cista/hash.h:66-71, 100-104 `hash(T const&, hash_t)` of a container of bytes. -/
def hashBuf (host : Endian) (o : Opt) (l : List Byte) (h : HashT) : Res HashT :=
  if l.length = 0 then return h else hashSv host o l h

/-- include/cista/hash.h:47-54, 81-88 `hash_combine` with one integer of `w` bytes: its object representation is hashed. -/
def combine (host : Endian) (o : Opt) (h : HashT) (w v : Nat) : Res HashT := hashSv host o (hostBytes host w v) h

/-- include/cista/targets/buf.h:27-31 `buf::checksum`, also the comparison of include/cista/serialization.h:684-688. -/
def bufSum (host : Endian) (o : Opt) (content : List Byte) (start : Nat) : Res HashT := do
  require (start < content.length)
  hashSv host o (content.drop start) (base o)

/-- include/cista/targets/file.h:265-270: the blocks are read one after the other, each hash is the seed of the next one. -/
def fileBlock (host : Endian) (o : Opt) (content : List Byte) (st : Nat × HashT) (s : Nat) : Res (Nat × HashT) := do
  let blk := (content.drop st.1).take s
  verify (blk.length = s)
  let c ← hashSv host o blk st.2
  return (st.1 + s, c)

/-- include/cista/targets/file.h:258-272 `file::checksum` (POSIX); `blockSize` is 512 kB there. -/
def fileSum (host : Endian) (o : Opt) (blockSize : Nat) (content : List Byte) (size start : Nat) : Res HashT := do
  verify (start ≤ size)
  let cs ← chunk blockSize (size - start)
  let r ← cs.foldlM (fun st c => fileBlock host o content st c.2) (start, base o)
  return r.2

/-- Result of `hashSv` without the machine. -/
def hashO (o : Opt) (l : List Byte) (h : HashT) : HashT :=
  match o with
  | .wyhash => hashS l h
  | .fastest => fastestS l h

theorem hashSv_ok (host : Endian) (o : Opt) (l : List Byte) (h : HashT) : hashSv host o l h = .ok (hashO o l h) := by
  cases o with
  | wyhash => exact C145_wyhash host l h
  | fastest => exact C145_fastest host l h

theorem bufSum_ok (host : Endian) (o : Opt) {content : List Byte} {start : Nat} (h : start < content.length) :
    bufSum host o content start = .ok (hashO o (content.drop start) (base o)) := by
  rw [bufSum, decide_eq_true h, require_true, ok_bind, hashSv_ok]

theorem fileBlock_ok (host : Endian) (o : Opt) {content : List Byte} {st : Nat × HashT} {s : Nat} (h : st.1 + s ≤ content.length) :
    fileBlock host o content st s = .ok (st.1 + s, hashO o ((content.drop st.1).take s) st.2) := by
  have e : ((content.drop st.1).take s).length = s := by simp; omega
  rw [fileBlock, decide_eq_true e, verify_true, ok_bind, hashSv_ok, ok_bind]
  rfl

/-- Content of at most one block. -/
theorem fileSum_one (host : Endian) (o : Opt) (bs : Nat) (content : List Byte) (start : Nat) (h : start < content.length)
    (hb : content.length ≤ start + bs) :
    fileSum host o bs content content.length start = .ok (hashO o (content.drop start) (base o)) := by
  have hc : chunk bs (content.length - start) = .ok [(0, content.length - start)] := by
    rw [chunk, chunkLoop, dif_neg (by omega), dif_neg (by omega), Nat.min_eq_left (by omega)]
    dsimp only
    rw [Nat.sub_self, chunkLoop, dif_pos rfl]
    rfl
  rw [fileSum, decide_eq_true (by omega), verify_true, ok_bind, hc, ok_bind, List.foldlM_cons,
    fileBlock_ok host o (show start + (content.length - start) ≤ _ by omega), ok_bind, List.foldlM_nil]
  simp only [pure, Except.pure, ok_bind]
  rw [List.take_of_length_le (by simp)]

/-- One full block and some bytes behind a header. -/
theorem fileSum_two (host : Endian) (o : Opt) (bs : Nat) (hd a b : List Byte) (ha : a.length = bs) (hb : b.length ≤ bs) (h0 : 0 < b.length) :
    fileSum host o bs (hd ++ (a ++ b)) (hd ++ (a ++ b)).length hd.length = .ok (hashO o b (hashO o a (base o))) := by
  have hl : (hd ++ (a ++ b)).length = hd.length + (bs + b.length) := by simp; omega
  have hc : chunk bs (bs + b.length) = .ok [(0, bs), (bs, b.length)] := by
    rw [chunk, chunkLoop, dif_neg (show ¬ bs + b.length = 0 by omega), dif_neg (show ¬ bs = 0 by omega), Nat.min_eq_right (by omega)]
    dsimp only
    rw [Nat.zero_add, show bs + b.length - bs = b.length by omega, chunkLoop, dif_neg (show ¬ b.length = 0 by omega),
      dif_neg (show ¬ bs = 0 by omega), Nat.min_eq_left hb]
    dsimp only
    rw [Nat.sub_self, chunkLoop, dif_pos rfl]
    rfl
  rw [fileSum, decide_eq_true (by omega), verify_true, ok_bind, hl, Nat.add_sub_cancel_left, hc, ok_bind, List.foldlM_cons,
    fileBlock_ok host o (show hd.length + bs ≤ _ by omega), ok_bind, List.foldlM_cons,
    fileBlock_ok host o (show hd.length + bs + b.length ≤ _ by omega), ok_bind, List.foldlM_nil]
  simp only [pure, Except.pure, ok_bind]
  rw [← List.drop_drop, List.drop_left, ← ha, List.take_left, List.drop_left, List.take_length]

/-- **C146** (partial: files of at most one block) With the optional hash functions, the checksum that a file target stores is the one
that is compared when the file is read (which needs at least one byte, C04); beyond the end of the file the file target throws. -/
theorem C146_one_block_partial (host reader : Endian) (o : Opt) (bs : Nat) (content : List Byte) (start : Nat)
    (hb : content.length ≤ start + bs) :
    (start ≤ content.length → ∃ c, fileSum host o bs content content.length start = .ok c ∧
      (start < content.length → bufSum reader o content start = .ok c)) ∧
    (content.length < start → fileSum host o bs content content.length start = .error .exn) := by
  refine ⟨fun h => ?_, fun h => by rw [fileSum, decide_eq_false (by omega), verify_false]; rfl⟩
  by_cases h1 : start < content.length
  · exact ⟨_, fileSum_one host o bs content start h1 hb, fun _ => bufSum_ok reader o h1⟩
  · refine ⟨base o, ?_, fun h2 => absurd h2 h1⟩
    have e : chunk bs (content.length - start) = .ok [] := by
      unfold chunk chunkLoop
      rw [dif_pos (by omega)]
    rw [fileSum, decide_eq_true h, verify_true, ok_bind, e]
    rfl

example : fileSum .big .wyhash 4 [9, 1, 2, 3] 4 1 = bufSum .little .wyhash [9, 1, 2, 3] 1 := by
  obtain ⟨c, h1, h2⟩ := (C146_one_block_partial .big .little .wyhash 4 [9, 1, 2, 3] 1 (by decide)).1 (by decide)
  exact h1.trans (h2 (by decide)).symm

theorem word_zero (k m p : Nat) (b : List Byte) (h : p + m ≤ k) : word (List.replicate k 0 ++ b) p m = 0 := by
  have e : ((List.replicate k (0 : Byte) ++ b).drop p).take m = List.replicate m 0 := by
    rw [List.drop_append_of_le_length (by simp; omega), List.drop_replicate, List.take_append_of_le_length (by simp; omega),
      List.take_replicate, Nat.min_eq_left (by omega)]
  have z : ∀ m, ofLE (List.replicate m (0 : Byte)) = 0 := by
    intro m
    induction m with
    | zero => rfl
    | succ m ih => rw [List.replicate_succ, ofLE, ih]; rfl
  rw [word, e, z]; rfl

/-- **C146** violated: with `FastestHash`, files of more than one block are not accepted when they are read.  After a block of zeros, the
bytes `1 0 0 0` in the next block: the file target stores 2, the reader computes 123; for every size of the blocks
and whatever header `hd` precedes the data. -/
theorem C146_blocks_fastest_violated (host reader : Endian) (bs : Nat) (h : 8 ≤ bs) (hd : List Byte) :
    fileSum host .fastest bs (hd ++ (List.replicate bs 0 ++ [1, 0, 0, 0])) (hd.length + (bs + 4)) hd.length = .ok 2#64 ∧
    bufSum reader .fastest (hd ++ (List.replicate bs 0 ++ [1, 0, 0, 0])) hd.length = .ok 123#64 := by
  have hl : (List.replicate bs (0 : Byte) ++ [1, 0, 0, 0]).length = bs + 4 := by simp
  constructor
  · rw [show hd.length + (bs + 4) = (hd ++ (List.replicate bs (0 : Byte) ++ [1, 0, 0, 0])).length by rw [List.length_append, hl],
      fileSum_two host .fastest bs hd (List.replicate bs 0) [1, 0, 0, 0] List.length_replicate (by simp; omega) (by simp)]
    have e : fastestS (List.replicate bs 0) 123#64 = 0 := by
      have w : ∀ p, p + 4 ≤ bs → word (List.replicate bs 0) p 4 = 0 := fun p hp => by
        have := word_zero bs 4 p [] hp
        rwa [List.append_nil] at this
      rw [fastestS, if_pos (by simp; omega), List.length_replicate, w 0 (by omega), w _ (by omega)]
      simp
    show Except.ok (fastestS [1, 0, 0, 0] (fastestS (List.replicate bs 0) 123#64)) = _
    rw [e]
    decide
  · rw [bufSum_ok _ _ (by rw [List.length_append, hl]; omega), List.drop_left]
    show Except.ok (fastestS _ 123#64) = _
    rw [fastestS, if_pos (by rw [hl]; omega), hl, word_zero bs 4 0 _ (by omega),
      word_zero bs 4 ((bs + 4) / 2 - 2) _ (by omega)]
    have e : word (List.replicate bs 0 ++ [1, 0, 0, 0]) (bs + 4 - 4) 4 = 1 := by
      rw [word, Nat.add_sub_cancel]
      have := List.drop_left (l₁ := List.replicate bs (0 : Byte)) (l₂ := [1, 0, 0, 0])
      rw [List.length_replicate] at this
      rw [this]
      rfl
    rw [e]
    rfl

/-- The bytes of the first secret, which the source code contains. -/
def secret : List Byte := leBytes 8 0xa0761d6478bd642f

theorem mum_zero (x : HashT) : mum 0 x = 0 := by
  apply BitVec.eq_of_toNat_eq
  rw [mum_toNat]
  simp [mumNat]

theorem word_secret (post : List Byte) : word (secret ++ post) 0 8 ^^^ s0 = 0 := by
  have e : ((secret ++ post).drop 0).take 8 = secret := by
    rw [List.drop_zero]
    exact List.take_left (l₁ := secret)
  rw [word, e]
  decide

theorem tailS_secret (n : Nat) : ∀ (pre post : List Byte) (seed : HashT), pre.length = 16 * n → 1 ≤ post.length → post.length ≤ 8 →
    tailS (pre ++ (secret ++ post)) seed = 0 := by
  induction n with
  | zero =>
    intro pre post seed hp h1 h8
    have : pre = [] := List.length_eq_zero_iff.1 (by omega)
    subst this
    have hs : secret.length = 8 := by decide
    rw [List.nil_append, tailS, if_neg (by simp; omega), if_pos (by simp; omega), word_secret, mum_zero]
  | succ n ih =>
    intro pre post seed hp h1 h8
    have hs : secret.length = 8 := by decide
    rw [tailS, if_pos (by simp; omega), List.drop_append_of_le_length (by omega)]
    exact ih _ _ _ (by simp; omega) h1 h8

theorem bodyS_secret (k : Nat) : ∀ (n : Nat) (pre post : List Byte) (a b c d : HashT), n ≤ k → pre.length = 16 * n → 1 ≤ post.length →
    post.length ≤ 8 → bodyS (pre ++ (secret ++ post)) a b c d = 0 := by
  have hs : secret.length = 8 := by decide
  induction k with
  | zero =>
    intro n pre post a b c d hk hp h1 h8
    rw [bodyS, if_neg (by simp; omega)]
    exact tailS_secret n _ _ _ hp h1 h8
  | succ k ih =>
    intro n pre post a b c d hk hp h1 h8
    rw [bodyS]
    by_cases h : 64 < (pre ++ (secret ++ post)).length
    · rw [if_pos h]
      simp at h
      rw [List.drop_append_of_le_length (by omega)]
      exact ih (n - 4) _ _ _ _ _ _ (by omega) (by simp; omega) h1 h8
    · rw [if_neg h]
      exact tailS_secret n _ _ _ hp h1 h8

theorem hashS_secret (n : Nat) (pre post : List Byte) (seed : HashT) (hp : pre.length = 16 * n) (h1 : 1 ≤ post.length) (h8 : post.length ≤ 8) :
    hashS (pre ++ (secret ++ post)) seed = mum (BitVec.ofNat 64 (16 * n + 8 + post.length)) s0 := by
  have hs : secret.length = 8 := by decide
  have hl : (pre ++ (secret ++ post)).length = 16 * n + 8 + post.length := by simp; omega
  rw [hashS, tailS_secret n _ _ _ hp h1 h8, bodyS_secret n n _ _ _ _ _ _ (Nat.le_refl n) hp h1 h8, hl, ite_self]
  simp

theorem sums_secret (host reader : Endian) (n : Nat) (hd pre post : List Byte) (hn : 0 < n) (hp : pre.length = 16 * n) (h8 : post.length = 8) :
    fileSum host .wyhash (16 * n) (hd ++ (pre ++ (secret ++ post))) (hd ++ (pre ++ (secret ++ post))).length hd.length = .ok (mum 16#64 s0) ∧
    bufSum reader .wyhash (hd ++ (pre ++ (secret ++ post))) hd.length = .ok (mum (BitVec.ofNat 64 (16 * n + 16)) s0) := by
  have hs : secret.length = 8 := by decide
  have h0 := hashS_secret 0 [] post (hashS pre (base .wyhash)) rfl (by omega) (by omega)
  rw [List.nil_append, h8] at h0
  have h1 := hashS_secret n pre post (base .wyhash) hp (by omega) (by omega)
  rw [h8] at h1
  constructor
  · rw [fileSum_two host .wyhash (16 * n) hd pre (secret ++ post) hp (by simp; omega) (by simp; omega)]
    simp only [hashO]
    rw [h0]
  · rw [bufSum_ok reader .wyhash (by simp; omega), List.drop_left]
    simp only [hashO]
    rw [h1]

/-- **C146** violated: with `wyhash`, files of more than one block are not accepted when they are read, here all files
whose data are 512 kB and 16 bytes, with eight certain bytes after the first block; whatever header `hd` precedes the data. -/
theorem C146_blocks_wyhash_violated (host reader : Endian) (hd pre post : List Byte) (hp : pre.length = 524288) (h8 : post.length = 8) :
    ∃ c d, fileSum host .wyhash 524288 (hd ++ (pre ++ (secret ++ post))) (hd ++ (pre ++ (secret ++ post))).length hd.length = .ok c ∧
      bufSum reader .wyhash (hd ++ (pre ++ (secret ++ post))) hd.length = .ok d ∧ c ≠ d := by
  have h := sums_secret host reader 32768 hd pre post (by omega) (by omega) h8
  simp only [Nat.reduceMul, Nat.reduceAdd] at h
  exact ⟨_, _, h.1, h.2, by decide +kernel⟩

example : (List.replicate 524288 (0 : Byte)).length = 512 * 1024 ∧ (List.replicate 8 (1 : Byte)).length = 8 :=
  ⟨List.length_replicate, List.length_replicate⟩

/-- **C146** violated: with `wyhash`, all contents of the same length with eight certain bytes near the end have the same checksum. -/
theorem C146_secret_violated (host : Endian) (pre pre' post post' : List Byte) (seed seed' : HashT) (hp : pre.length % 16 = 0)
    (hp' : pre'.length = pre.length) (h1 : 1 ≤ post.length) (h8 : post.length ≤ 8) (hq : post'.length = post.length) :
    wyhash host (pre ++ (secret ++ post)) seed = wyhash host (pre' ++ (secret ++ post')) seed' := by
  rw [C145_wyhash, C145_wyhash, hashS_secret (pre.length / 16) _ _ _ (by omega) h1 h8,
    hashS_secret (pre.length / 16) _ _ _ (by omega) (by omega) (by omega), hq]

example : wyhash .little (List.replicate 32 0 ++ (secret ++ [1, 2])) 1#64 = wyhash .little (List.replicate 32 7 ++ (secret ++ [3, 4])) 2#64 :=
  C146_secret_violated .little _ _ _ _ _ _ (by decide) (by decide) (by decide) (by decide) rfl

theorem word_set (l : List Byte) (i p n : Nat) (x : Byte) (h : i < p ∨ p + n ≤ i) : word (l.set i x) p n = word l p n := by
  have e : ((l.set i x).drop p).take n = (l.drop p).take n := by
    apply List.ext_getElem?
    intro j
    rw [List.getElem?_take, List.getElem?_take]
    by_cases hj : j < n
    · rw [if_pos hj, if_pos hj, List.getElem?_drop, List.getElem?_drop, List.getElem?_set_ne (by omega)]
    · rw [if_neg hj, if_neg hj]
  rw [word, e]; rfl

/-- **C146** violated: with `FastestHash`, changes of bytes other than the first four, the last four and four in the middle are not
noticed. -/
theorem C146_unread_violated (host : Endian) (l : List Byte) (seed : HashT) (i : Nat) (x : Byte) (h4 : 4 ≤ i)
    (hi : i < l.length / 2 - 2 ∨ l.length / 2 + 2 ≤ i ∧ i + 4 < l.length) :
    fastest host (l.set i x) seed = fastest host l seed := by
  rw [C145_fastest, C145_fastest, fastestS, fastestS, List.length_set, if_pos (by omega), if_pos (by omega),
    word_set _ _ _ _ _ (by omega), word_set _ _ _ _ _ (by omega), word_set _ _ _ _ _ (by omega)]

example : fastest .little ((List.replicate 32 1).set 9 7) 123#64 = fastest .little (List.replicate 32 1) 123#64 ∧
    (List.replicate 32 (1 : Byte)).set 9 7 ≠ List.replicate 32 1 :=
  ⟨C146_unread_violated .little (List.replicate 32 1) 123#64 9 7 (by decide) (by decide), by decide⟩

/-! ## Combining -/

/-- **C147** (partial: the default hash function) Values that were combined before are not forgotten, whatever is combined next. -/
theorem C147_fnv_partial (h h' : HashT) (vs : List HashT) (he : vs.foldl hashCombine h = vs.foldl hashCombine h') : h = h' := by
  induction vs generalizing h h' with
  | nil => exact he
  | cons v vs ih => exact hashCombine_inj_state (ih _ _ he)

example : [0, 5].foldl hashCombine 1#64 ≠ [0, 5].foldl hashCombine 2#64 := fun h => absurd (C147_fnv_partial _ _ _ h) (by decide)

/-- **C147** violated: with `FastestHash`, combining with a zero of four or eight bytes gives zero, whatever was combined before. -/
theorem C147_zero_violated (host : Endian) (h : HashT) (w : Nat) (hw : w = 4 ∨ w = 8) : combine host .fastest h w 0 = .ok 0 := by
  have e : hostBytes host w 0 = List.replicate w 0 := by
    rcases hw with rfl | rfl <;> cases host <;> rfl
  rw [combine, e, hashSv_ok]
  show Except.ok (fastestS _ _) = _
  have w0 : ∀ p, p + 4 ≤ w → word (List.replicate w 0) p 4 = 0 := fun p hp => by
    have := word_zero w 4 p [] hp
    rwa [List.append_nil] at this
  rw [fastestS, if_pos (by simp; omega), List.length_replicate, w0 0 (by omega), w0 _ (by omega)]
  simp

/-- **C147** violated: with both functions, the result of combining depends on the byte order of the machine. -/
theorem C147_byte_order_violated : (∃ a b, combine .little .wyhash 1#64 4 1 = .ok a ∧ combine .big .wyhash 1#64 4 1 = .ok b ∧ a ≠ b) ∧
    ∃ a b, combine .little .fastest 1#64 4 1 = .ok a ∧ combine .big .fastest 1#64 4 1 = .ok b ∧ a ≠ b :=
  ⟨⟨_, _, hashSv_ok _ _ _ _, hashSv_ok _ _ _ _, by decide +kernel⟩, ⟨_, _, hashSv_ok _ _ _ _, hashSv_ok _ _ _ _, by decide +kernel⟩⟩

/-- **C147** violated: with `wyhash`, an empty string and an empty container have different hash values, unlike with the other functions. -/
theorem C147_empty_violated (host : Endian) : hashBuf host .wyhash [] (base .wyhash) = .ok (base .wyhash) ∧
    (∃ a, hashSv host .wyhash [] (base .wyhash) = .ok a ∧ a ≠ base .wyhash) ∧
    ∀ h, hashSv host .fastest [] h = hashBuf host .fastest [] h ∧ hashBuf host .fastest [] h = .ok h :=
  ⟨rfl, ⟨_, hashSv_ok _ _ _ _, by decide +kernel⟩, fun _ => ⟨rfl, rfl⟩⟩

end Cista.Wy
