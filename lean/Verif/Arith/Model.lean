import Verif.Basic

/-!
# Arithmetic helpers

Models of `next_power_of_2.h`, `bit_counting.h`, `mode.h`, the checked arithmetic
of `serialization.h`, and `chunk.h`.
-/
namespace Cista.Arith

/-- include/cista/next_power_of_2.h:5-21 `next_power_of_two<TemplateSizeType>`.
`w` is the bit width of the type (8/16/32/64).  The `if constexpr` guards on
`sizeof` become `if` on `w`.  For 8/16-bit types C++ promotes to `int` and
truncates on the compound assignment, which agrees with width-`w` arithmetic. -/
def nextPow2 {w : Nat} (n0 : BitVec w) : BitVec w :=
  let n := n0 - 1#w
  let n := n ||| (n >>> 1)
  let n := n ||| (n >>> 2)
  let n := n ||| (n >>> 4)
  let n := if w > 8 then n ||| (n >>> 8) else n
  let n := if w > 16 then n ||| (n >>> 16) else n
  let n := if w > 32 then n ||| (n >>> 32) else n
  n + 1#w

/-- Loop of include/cista/bit_counting.h:23-28 `constexpr_trailing_zeros`: first `i`
(counting up, `fuel` indices left) whose bit is set, `0` if none. -/
def ctzLoop {w : Nat} (t : BitVec w) : (i fuel : Nat) → Nat
  | _, 0 => 0
  | i, fuel + 1 => if (t >>> i) &&& 1#w = 1#w then i else ctzLoop t (i + 1) fuel

/-- include/cista/bit_counting.h:18-29 `constexpr_trailing_zeros`. -/
def constexprTrailingZeros {w : Nat} (t : BitVec w) : Nat := ctzLoop t 0 w

/-- The 32-bit `_BitScanForward` / `__builtin_ctz` intrinsic, by its specification:
index of the lowest set bit (undefined for 0). -/
def scanForward {w : Nat} (t : BitVec w) : Res Nat :=
  if t = 0#w then .error .ub else .ok ((List.range w).findIdx (fun i => t.getLsbD i))

/-- The `_BitScanReverse` intrinsic, by its specification: index of the highest set
bit (undefined for 0). -/
def scanReverse {w : Nat} (t : BitVec w) : Res Nat :=
  if t = 0#w then .error .ub
  else .ok (w - 1 - (List.range w).findIdx (fun i => t.getLsbD (w - 1 - i)))

/-- include/cista/bit_counting.h:31-64 `trailing_zeros<uint64_t>` on the 32-bit MSVC path
(lines 44-51), the only one that is not a single intrinsic. -/
def trailingZeros64Split (t : BitVec 64) : Res Nat :=
  if t = 0#64 then .ok 64
  else if t.setWidth 32 = 0#32 then do
    let i ← scanForward ((t >>> 32).setWidth 32)
    return i + 32
  else scanForward (t.setWidth 32)

/-- include/cista/bit_counting.h:31-64 `trailing_zeros` on the single-intrinsic paths. -/
def trailingZeros {w : Nat} (t : BitVec w) : Res Nat :=
  if t = 0#w then .ok w else scanForward t

/-- include/cista/bit_counting.h:66-104 `leading_zeros<uint64_t>` on the 32-bit MSVC path
(lines 81-89). -/
def leadingZeros64Split (t : BitVec 64) : Res Nat :=
  if t = 0#64 then .ok 64
  else if (t >>> 32).setWidth 32 ≠ 0#32 then do
    let i ← scanReverse ((t >>> 32).setWidth 32)
    return 31 - i
  else do
    let i ← scanReverse (t.setWidth 32)
    return 63 - i

/-- include/cista/bit_counting.h:66-104 `leading_zeros` on the single-intrinsic paths
(`w - 1 - index`). -/
def leadingZeros {w : Nat} (t : BitVec w) : Res Nat :=
  if t = 0#w then .ok w else do
    let i ← scanReverse t
    return w - 1 - i

/-- Number of set bits of the low `n` positions; specification of `__popcnt` /
`__builtin_popcountll`. -/
def popcountUpTo {w : Nat} (t : BitVec w) (n : Nat) : Nat :=
  (List.range n).countP (fun i => t.getLsbD i)

/-- include/cista/bit_counting.h:106-118 `popcount`, intrinsic paths. -/
def popcount {w : Nat} (t : BitVec w) : Nat := popcountUpTo t w

/-- include/cista/bit_counting.h:109-112 `popcount` on 32-bit MSVC: two 32-bit halves. -/
def popcount64Split (t : BitVec 64) : Nat :=
  popcount (t.setWidth 32) + popcount ((t >>> 32).setWidth 32)

/-! ## mode.h -/

/-- include/cista/mode.h:7-20 `enum class mode` (underlying type `int`, 32 bits). -/
abbrev Mode := BitVec 32

namespace Mode
def NONE : Mode := 0
def UNCHECKED : Mode := 1 <<< 0
def WITH_VERSION : Mode := 1 <<< 1
def WITH_INTEGRITY : Mode := 1 <<< 2
def SERIALIZE_BIG_ENDIAN : Mode := 1 <<< 3
def DEEP_CHECK : Mode := 1 <<< 4
def CAST : Mode := 1 <<< 5
def WITH_STATIC_VERSION : Mode := 1 <<< 6
def SKIP_INTEGRITY : Mode := 1 <<< 7
def SKIP_VERSION : Mode := 1 <<< 8
def CONST : Mode := 1 <<< 29
def PHASE_II : Mode := 1 <<< 30

/-- All flags, in declaration order (include/cista/mode.h:9-19). -/
def flags : List Mode :=
  [UNCHECKED, WITH_VERSION, WITH_INTEGRITY, SERIALIZE_BIG_ENDIAN, DEEP_CHECK, CAST,
   WITH_STATIC_VERSION, SKIP_INTEGRITY, SKIP_VERSION, CONST, PHASE_II]

/-- include/cista/mode.h:32-34 `is_mode_enabled`. -/
def isEnabled (m f : Mode) : Bool := (m &&& f) == f

/-- include/cista/mode.h:36-38 `is_mode_disabled`. -/
def isDisabled (m f : Mode) : Bool := (m &&& f) == NONE

/-- `a | b | …` of the mode operators, include/cista/mode.h:22-25. -/
def orAll (l : List Mode) : Mode := l.foldl (· ||| ·) NONE
end Mode

/-! ## checked arithmetic -/

/-- Range of an integer type. `signed = true` is two's complement. -/
structure IntTy where
  bits : Nat
  signed : Bool

/-- `std::numeric_limits<Type>::min()`. -/
def IntTy.min (t : IntTy) : Int := if t.signed then -(2 ^ (t.bits - 1) : Int) else 0
/-- `std::numeric_limits<Type>::max()`. -/
def IntTy.max (t : IntTy) : Int := if t.signed then 2 ^ (t.bits - 1) - 1 else 2 ^ t.bits - 1
/-- value representable in the type -/
def IntTy.InRange (t : IntTy) (x : Int) : Prop := t.min ≤ x ∧ x ≤ t.max
instance (t : IntTy) (x : Int) : Decidable (t.InRange x) := by unfold IntTy.InRange; infer_instance

/-- The C++ built-in `+ - *` at type `t`: modular for unsigned, undefined behaviour on
overflow for signed. -/
def IntTy.arith (t : IntTy) (exact : Int) : Res Int :=
  if t.InRange exact then .ok exact
  else if t.signed then .error .ub
  else .ok (exact % 2 ^ t.bits)

/-- include/cista/serialization.h:539-548, lambda `add_if_ok` of `checked_addition`.
Each sub-expression goes through `IntTy.arith`, so an overflow inside the guard itself
would be visible.  `||`/`&&` short-circuit as in C++. -/
def addIfOk (t : IntTy) (a1 x : Int) : Res Int :=
  if x = 0 then .ok a1
  else do
    let under ← if x < 0 then do
        let lim ← t.arith (t.min - x)
        pure (decide (a1 < lim))
      else pure false
    let bad ← if under then pure true
      else if x > 0 then do
        let lim ← t.arith (t.max - x)
        pure (decide (a1 > lim))
      else pure false
    if bad then .error .exn else t.arith (a1 + x)

/-- include/cista/serialization.h:535-551 `checked_addition`: fold of `add_if_ok` over the
remaining arguments. -/
def checkedAddition (t : IntTy) : Int → List Int → Res Int
  | a1, [] => .ok a1
  | a1, x :: xs => do
    let a ← addIfOk t a1 x
    checkedAddition t a xs

/-- include/cista/serialization.h:556-561, lambda `multiply_if_ok`.  Integer division
truncates (`Int.tdiv`). -/
def multiplyIfOk (t : IntTy) (a1 x : Int) : Res Int :=
  if a1 ≠ 0 ∧ Int.tdiv t.max a1 < x then .error .exn else t.arith (a1 * x)

/-- include/cista/serialization.h:553-564 `checked_multiplication`. -/
def checkedMultiplication (t : IntTy) : Int → List Int → Res Int
  | a1, [] => .ok a1
  | a1, x :: xs => do
    let a ← multiplyIfOk t a1 x
    checkedMultiplication t a xs

end Cista.Arith
