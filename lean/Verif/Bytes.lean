import Verif.Arith.Model

/-!
# Bytes, byte order, headers

Byte-level vocabulary shared by the checksum, target and serialization models.
-/
namespace Cista

/-- One byte of memory. -/
abbrev Byte := BitVec 8

/-- Host byte order, include/cista/endian/detection.h:1-36 (`CISTA_LITTLE_ENDIAN` /
`CISTA_BIG_ENDIAN`). -/
inductive Endian where
  | little
  | big
  deriving DecidableEq, Repr

/-- The `n` bytes of `v`, least significant first. -/
def leBytes : Nat → Nat → List Byte
  | 0, _ => []
  | n + 1, v => BitVec.ofNat 8 v :: leBytes n (v / 256)

/-- The number denoted by bytes given least significant first. -/
def ofLE : List Byte → Nat
  | [] => 0
  | b :: bs => b.toNat + 256 * ofLE bs

/-- Bytes of an `n`-byte unsigned integer object in host memory. -/
def hostBytes (e : Endian) (n v : Nat) : List Byte :=
  match e with
  | .little => leBytes n v
  | .big => (leBytes n v).reverse

/-- Value of an unsigned integer object from its bytes in host memory. -/
def ofHost (e : Endian) (l : List Byte) : Nat :=
  match e with
  | .little => ofLE l
  | .big => ofLE l.reverse

/-- include/cista/endian/conversion.h:21-50 `endian_swap<T>` for `sizeof(T) = n`
(1/2/4/8): the value whose bytes are reversed (`__builtin_bswapN` by its specification;
the identity for one byte). -/
def endianSwap (n v : Nat) : Nat := ofLE (leBytes n v).reverse

/-- include/cista/endian/conversion.h:52-68 `endian_conversion_necessary<Mode>`, with the
host order as a parameter. -/
def conversionNecessary (host : Endian) (m : Arith.Mode) : Bool :=
  if Arith.Mode.isEnabled m Arith.Mode.SERIALIZE_BIG_ENDIAN then
    match host with | .big => false | .little => true
  else
    match host with | .little => false | .big => true

/-- include/cista/endian/conversion.h:70-77 `convert_endian<Mode, T>` with `sizeof(T) = n`. -/
def convertEndian (host : Endian) (m : Arith.Mode) (n v : Nat) : Nat :=
  if conversionNecessary host m then endianSwap n v else v

@[simp] theorem length_leBytes (n v : Nat) : (leBytes n v).length = n := by
  induction n generalizing v with
  | zero => rfl
  | succ n ih => simp [leBytes, ih]

theorem ofLE_lt (l : List Byte) : ofLE l < 256 ^ l.length := by
  induction l with
  | nil => simp [ofLE]
  | cons b bs ih =>
    have := b.isLt
    simp only [ofLE, List.length_cons, Nat.pow_succ]
    omega

theorem ofLE_leBytes (n v : Nat) : ofLE (leBytes n v) = v % 256 ^ n := by
  induction n generalizing v with
  | zero => simp [leBytes, ofLE, Nat.mod_one]
  | succ n ih =>
    simp only [leBytes, ofLE, ih, BitVec.toNat_ofNat]
    have : (256:Nat) ^ (n + 1) = 256 * 256 ^ n := by rw [Nat.pow_succ, Nat.mul_comm]
    rw [this, Nat.mod_mul]

theorem ofLE_leBytes_of_lt {n v : Nat} (h : v < 256 ^ n) : ofLE (leBytes n v) = v := by
  rw [ofLE_leBytes, Nat.mod_eq_of_lt h]

theorem leBytes_ofLE (l : List Byte) : leBytes l.length (ofLE l) = l := by
  induction l with
  | nil => rfl
  | cons b bs ih =>
    have hb := b.isLt
    simp only [List.length_cons, leBytes, ofLE]
    congr 1
    · apply BitVec.eq_of_toNat_eq
      rw [BitVec.toNat_ofNat]
      omega
    · rw [show (b.toNat + 256 * ofLE bs) / 256 = ofLE bs by omega]
      exact ih

theorem leBytes_mod (n v : Nat) : leBytes n (v % 256 ^ n) = leBytes n v := by
  have h := leBytes_ofLE (leBytes n v)
  rw [length_leBytes, ofLE_leBytes] at h
  exact h

theorem leBytes_ofLE' {l : List Byte} {n : Nat} (h : l.length = n) : leBytes n (ofLE l) = l := by
  subst h; exact leBytes_ofLE l

theorem leBytes_inj {n a b : Nat} (ha : a < 256 ^ n) (hb : b < 256 ^ n)
    (h : leBytes n a = leBytes n b) : a = b := by
  rw [← ofLE_leBytes_of_lt ha, ← ofLE_leBytes_of_lt hb, h]

@[simp] theorem length_hostBytes (e : Endian) (n v : Nat) : (hostBytes e n v).length = n := by
  cases e <;> simp [hostBytes]

theorem endianSwap_lt (n v : Nat) : endianSwap n v < 256 ^ n := by
  have := ofLE_lt (leBytes n v).reverse
  simpa [endianSwap] using this

theorem leBytes_endianSwap (n v : Nat) : leBytes n (endianSwap n v) = (leBytes n v).reverse :=
  leBytes_ofLE' (by simp)

theorem endianSwap_endianSwap {n v : Nat} (h : v < 256 ^ n) : endianSwap n (endianSwap n v) = v := by
  have e : endianSwap n (endianSwap n v) = ofLE (leBytes n (endianSwap n v)).reverse := rfl
  rw [e, leBytes_endianSwap, List.reverse_reverse, ofLE_leBytes_of_lt h]

theorem ofHost_hostBytes {e : Endian} {n v : Nat} (h : v < 256 ^ n) : ofHost e (hostBytes e n v) = v := by
  cases e <;> simp [ofHost, hostBytes, ofLE_leBytes_of_lt h]

theorem convertEndian_lt {host : Endian} {m : Arith.Mode} {n v : Nat} (h : v < 256 ^ n) :
    convertEndian host m n v < 256 ^ n := by
  unfold convertEndian
  split
  · exact endianSwap_lt n v
  · exact h

theorem convertEndian_convertEndian {host : Endian} {m : Arith.Mode} {n v : Nat} (h : v < 256 ^ n) :
    convertEndian host m n (convertEndian host m n v) = v := by
  unfold convertEndian
  cases conversionNecessary host m
  · simp
  · simpa using endianSwap_endianSwap h

theorem ofHost_lt (e : Endian) (l : List Byte) : ofHost e l < 256 ^ l.length := by
  cases e
  · exact ofLE_lt l
  · have := ofLE_lt l.reverse
    simpa [ofHost] using this

theorem hostBytes_ofHost (e : Endian) {l : List Byte} {n : Nat} (h : l.length = n) :
    hostBytes e n (ofHost e l) = l := by
  cases e
  · exact leBytes_ofLE' h
  · simp only [hostBytes, ofHost]
    rw [leBytes_ofLE' (by simpa using h), List.reverse_reverse]

end Cista
