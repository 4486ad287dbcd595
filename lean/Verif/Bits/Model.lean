import Verif.Basic
import Verif.Arith.Model

/-!
# Bit arrays: `bitset<Size>` and `basic_bitvec<Vec>`

Both containers keep a list of `w`-bit blocks (`w = 64` for `bitset` and the default `bitvec`); the
block functions below are parametrised by the number of bits `size`.  Array accesses outside the
block array are undefined behaviour.  A loop is modelled by its state after `n` iterations.
Sizes are unbounded naturals: the `int`/`unsigned` loop counters of bitset.h:143, bitvec.h:261,299
restrict the C++ code to fewer than 2^31 blocks / 2^32 bits (always true for the default 32-bit
`size_type`).
-/
namespace Cista.Bits

variable {w : Nat}

/-- The block array. -/
abbrev Blocks (w : Nat) := List (BitVec w)

/-- `blocks_[i]` read. -/
def rd (bs : Blocks w) (i : Nat) : Res (BitVec w) :=
  match bs[i]? with
  | some b => .ok b
  | none => .error .ub

/-- `blocks_[i] = v`. -/
def wr (bs : Blocks w) (i : Nat) (v : BitVec w) : Res (Blocks w) :=
  if i < bs.length then .ok (bs.set i v) else .error .ub

/-- include/cista/containers/bitset.h:22-23, bitvec.h:49-52 `num_blocks`. -/
def numBlocks (w n : Nat) : Nat := n / w + (if n % w = 0 then 0 else 1)

/-- `(block & (block_t{1} << bit)) != 0`, used in bitset.h:73,103 and bitvec.h:146,157,180,194. -/
def testMask (b : BitVec w) (bit : Nat) : Bool := (b &&& (1#w <<< bit)) != 0#w

/-- bitset.h:43-53, bitvec.h:89-99 `set(i, val)`. -/
def setBit (bs : Blocks w) (i : Nat) (v : Bool) : Res (Blocks w) := do
  let b ← rd bs (i / w)
  let m := 1#w <<< (i % w)
  wr bs (i / w) (if v then b ||| m else b &&& (~~~(0#w) ^^^ m))

/-- bitset.h:67-74, bitvec.h:138-147 `test(i)`. -/
def test (size : Nat) (bs : Blocks w) (i : Nat) : Res Bool :=
  if i ≥ size then .ok false
  else do
    let b ← rd bs (i / w)
    return testMask b (i % w)

/-- bitset.h:89-96, bitvec.h:249-256 `sanitized_last_block()`.  With no blocks the index wraps
around: undefined. -/
def sanitizedLast (size : Nat) (bs : Blocks w) : Res (BitVec w) := do
  let b ← rd bs (bs.length - 1)
  return if size % w ≠ 0 then b &&& ~~~((~~~(0#w)) <<< (size % w)) else b

/-- First `n` iterations of the loop bitset.h:61-63 / bitvec.h:132-134. -/
def countLoop (bs : Blocks w) : Nat → Res Nat
  | 0 => .ok 0
  | n + 1 => do
    let s ← countLoop bs n
    let b ← rd bs n
    return s + Arith.popcount b

/-- bitset.h:59-65, bitvec.h:131-135 `count()` (the `empty()` test of bitvec is in `Bitvec.count`). -/
def count (size : Nat) (bs : Blocks w) : Res Nat := do
  let s ← countLoop bs (bs.length - 1)
  return s + Arith.popcount (← sanitizedLast size bs)

/-- First `n` iterations of the loop bitset.h:79-83 / bitvec.h:239-243. -/
def anyLoop (bs : Blocks w) : Nat → Res Bool
  | 0 => .ok false
  | n + 1 => do
    if ← anyLoop bs n then return true
    return (← rd bs n) != 0#w

/-- bitset.h:78-85, bitvec.h:239-244 `any()`. -/
def any (size : Nat) (bs : Blocks w) : Res Bool := do
  if ← anyLoop bs (bs.length - 1) then return true
  return (← sanitizedLast size bs) != 0#w

/-- bitset.h:100-108, bitvec.h:154-162 lambda `check_block`: the indices passed to the callback. -/
def checkBlock (i : Nat) (b : BitVec w) : List Nat :=
  if b ≠ 0#w then ((List.range w).filter (fun bit => testMask b bit)).map (fun bit => i * w + bit)
  else []

/-- First `n` iterations of the loop bitset.h:109-111 / bitvec.h:163-165. -/
def forEachLoop (bs : Blocks w) : Nat → Res (List Nat)
  | 0 => .ok []
  | n + 1 => do
    let l ← forEachLoop bs n
    return l ++ checkBlock n (← rd bs n)

/-- bitset.h:98-113, bitvec.h:163-166 `for_each_set_bit`: the sequence of callback arguments. -/
def forEachSetBit (size : Nat) (bs : Blocks w) : Res (List Nat) := do
  let l ← forEachLoop bs (bs.length - 1)
  return l ++ checkBlock (bs.length - 1) (← sanitizedLast size bs)

/-- First `n` iterations of bitset.h:118-120 / bitvec.h:261-263. -/
def strLoop (size : Nat) (bs : Blocks w) : Nat → Res (List Char)
  | 0 => .ok []
  | n + 1 => do
    let s ← strLoop size bs n
    return s ++ [if ← test size bs (size - n - 1) then '1' else '0']

/-- bitset.h:115-122 `to_string()`, bitvec.h:258-265 `str()`. -/
def str (size : Nat) (bs : Blocks w) : Res (List Char) := strLoop size bs size

/-- First `n` iterations of bitset.h:38-40 / bitvec.h:83-86 (string `s` given as character list). -/
def setStrLoop (s : List Char) (bs : Blocks w) : Nat → Res (Blocks w)
  | 0 => .ok bs
  | n + 1 => do
    let c ← setStrLoop s bs n
    setBit c n (s.getD (s.length - n - 1) '0' != '0')

/-- First `n` iterations of bitset.h:125-129 / bitvec.h:277-281. -/
def eqLoop (a b : Blocks w) : Nat → Res Bool
  | 0 => .ok true
  | n + 1 => do
    if !(← eqLoop a b n) then return false
    return (← rd a n) == (← rd b n)

/-- bitset.h:124-131, bitvec.h:277-282 `operator==` (same size). -/
def eq (size : Nat) (a b : Blocks w) : Res Bool := do
  if !(← eqLoop a b (a.length - 1)) then return false
  return (← sanitizedLast size a) == (← sanitizedLast size b)

/-- First `t` iterations of the descending loop bitset.h:143-152 / bitvec.h:299-305
(iteration `t` looks at block `length - 2 - t`). -/
def ltLoop (a b : Blocks w) : Nat → Res (Option Bool)
  | 0 => .ok none
  | t + 1 => do
    match ← ltLoop a b t with
    | some r => return some r
    | none =>
      let x ← rd a (a.length - 2 - t)
      let y ← rd b (a.length - 2 - t)
      return if x < y then some true else if y < x then some false else none

/-- bitset.h:133-155, bitvec.h:291-307 `operator<` (same size). -/
def lt (size : Nat) (a b : Blocks w) : Res Bool := do
  let x ← sanitizedLast size a
  let y ← sanitizedLast size b
  if x < y then return true
  else if y < x then return false
  else
    match ← ltLoop a b (a.length - 1) with
    | some r => return r
    | none => return false

/-- First `n` iterations of `blocks_[i] op= o.blocks_[i]`, bitset.h:172-191 / bitvec.h:328-353. -/
def zipLoop (f : BitVec w → BitVec w → BitVec w) (a o : Blocks w) : Nat → Res (Blocks w)
  | 0 => .ok a
  | n + 1 => do
    let c ← zipLoop f a o n
    wr c n (f (← rd c n) (← rd o n))

/-- bitset.h:172-191, bitvec.h:328-353 `operator&=`, `|=`, `^=`. -/
def zipAssign (f : BitVec w → BitVec w → BitVec w) (a o : Blocks w) : Res (Blocks w) :=
  zipLoop f a o a.length

/-- bitset.h:193-199, bitvec.h:355-361 `operator~`. -/
def notAll (a : Blocks w) : Blocks w := a.map (fun b => ~~~b)

/-- First `n` iterations of bitset.h:242-244 / bitvec.h:407-409. -/
def shrBlockLoop (sb : Nat) (bs : Blocks w) : Nat → Res (Blocks w)
  | 0 => .ok bs
  | n + 1 => do
    let c ← shrBlockLoop sb bs n
    wr c n (← rd c (n + sb))

/-- First `n` iterations of bitset.h:246-250 / bitvec.h:411-415. -/
def shrLoop (sb k : Nat) (bs : Blocks w) : Nat → Res (Blocks w)
  | 0 => .ok bs
  | n + 1 => do
    let c ← shrLoop sb k bs n
    wr c n (((← rd c (n + sb)) >>> k) ||| ((← rd c (n + sb + 1)) <<< (w - k)))

/-- First `n` iterations of the zeroing loop `for (i = from; …; ++i) blocks_[i] = 0`,
bitset.h:254-256,292-294 / bitvec.h:419-421,457-459. -/
def zeroLoop (start : Nat) (bs : Blocks w) : Nat → Res (Blocks w)
  | 0 => .ok bs
  | n + 1 => do
    let c ← zeroLoop start bs n
    wr c (start + n) 0#w

/-- bitset.h:225-227, bitvec.h:390-392: clear the padding bits before shifting right. -/
def shrSanitize (size : Nat) (bs : Blocks w) : Res (Blocks w) :=
  if size % w ≠ 0 then do
    let b ← sanitizedLast size bs
    wr bs (bs.length - 1) b
  else .ok bs

/-- bitset.h:239-252, bitvec.h:404-417: the moving part of `operator>>=`. -/
def shrBlocks (sb k : Nat) (bs : Blocks w) : Res (Blocks w) :=
  if k = 0 then shrBlockLoop sb bs (bs.length - sb - 1 + 1)
  else do
    let c ← shrLoop sb k bs (bs.length - sb - 1)
    let x ← rd c (bs.length - 1)
    wr c (bs.length - sb - 1) (x >>> k)

/-- bitset.h:229-259, bitvec.h:394-424: `operator>>=` after sanitising. -/
def shrMain (bs : Blocks w) (shift : Nat) : Res (Blocks w) :=
  if bs.length = 1 then do
    let x ← rd bs 0
    wr bs 0 (x >>> shift)
  else if shift = 0 then .ok bs
  else do
    let c ← shrBlocks (shift / w) (shift % w) bs
    let border := bs.length - shift / w - 1
    zeroLoop (border + 1) c (bs.length - (border + 1))

/-- bitset.h:225-260, bitvec.h:390-425 `operator>>=` for `shift < size`. -/
def shr (size : Nat) (bs : Blocks w) (shift : Nat) : Res (Blocks w) := do
  let s ← shrSanitize size bs
  shrMain s shift

/-- First `t` iterations of the descending loop bitset.h:280-282 / bitvec.h:445-447
(iteration `t` writes block `length - 1 - t`). -/
def shlBlockLoop (sb : Nat) (bs : Blocks w) : Nat → Res (Blocks w)
  | 0 => .ok bs
  | t + 1 => do
    let c ← shlBlockLoop sb bs t
    let i := bs.length - 1 - t
    wr c i (← rd c (i - sb))

/-- First `t` iterations of the descending loop bitset.h:284-288 / bitvec.h:449-453. -/
def shlLoop (sb k : Nat) (bs : Blocks w) : Nat → Res (Blocks w)
  | 0 => .ok bs
  | t + 1 => do
    let c ← shlLoop sb k bs t
    let i := bs.length - 1 - t
    wr c i (((← rd c (i - sb)) <<< k) ||| ((← rd c (i - sb - 1)) >>> (w - k)))

/-- bitset.h:279-290, bitvec.h:444-455: the moving part of `operator<<=`. -/
def shlBlocks (sb k : Nat) (bs : Blocks w) : Res (Blocks w) :=
  if k = 0 then shlBlockLoop sb bs (bs.length - sb)
  else do
    let c ← shlLoop sb k bs (bs.length - 1 - sb)
    let x ← rd c 0
    wr c sb (x <<< k)

/-- bitset.h:268-298, bitvec.h:433-463 `operator<<=` for `shift < size`. -/
def shl (bs : Blocks w) (shift : Nat) : Res (Blocks w) :=
  if bs.length = 1 then do
    let x ← rd bs 0
    wr bs 0 (x <<< shift)
  else if shift = 0 then .ok bs
  else do
    let c ← shlBlocks (shift / w) (shift % w) bs
    zeroLoop 0 c (shift / w)

/-- bitvec.h:179-183, 193-197: the first set bit in `[lo, hi)` of a block. -/
def findBit (b : BitVec w) (lo hi : Nat) : Option Nat :=
  (List.range' lo (hi - lo)).find? (fun bit => testMask b bit)

/-- bitvec.h:190-200 lambda `check_block` of `next_set_bit`. -/
def nextInBlock (idx : Nat) (b : BitVec w) : Option Nat :=
  if b ≠ 0#w then (findBit b 0 w).map (fun bit => idx * w + bit) else none

/-- First `n` iterations of bitvec.h:202-208. -/
def nextLoop (bs : Blocks w) (first : Nat) : Nat → Res (Option Nat)
  | 0 => .ok none
  | n + 1 => do
    match ← nextLoop bs first n with
    | some r => return some r
    | none => return nextInBlock (first + 1 + n) (← rd bs (first + 1 + n))

/-- bitvec.h:169-217 `next_set_bit(i)`. -/
def nextSetBit (size : Nat) (bs : Blocks w) (i : Nat) : Res (Option Nat) :=
  if i ≥ size then .ok none
  else do
    let fb := i / w
    let b ← rd bs fb
    match if b ≠ 0#w then (findBit b (i % w) (min size w)).map (fun bit => fb * w + bit)
          else none with
    | some r => return some r
    | none =>
      if fb + 1 = bs.length then return none
      else
        match ← nextLoop bs fb (bs.length - 1 - (fb + 1)) with
        | some r => return some r
        | none => return nextInBlock (bs.length - 1) (← sanitizedLast size bs)

/-! ## `bitset<Size>` -/

/-- bitset.h:316 the only member; `N` is the template parameter `Size`, `block_t` has 64 bits. -/
structure Bitset (N : Nat) where
  blocks : Blocks 64

namespace Bitset
variable {N : Nat}

/-- bitset.h:25 default constructor (value-initialised array). -/
def empty : Bitset N := ⟨List.replicate (numBlocks 64 N) 0#64⟩

/-- bitset.h:27-33 `max()`. -/
def max : Bitset N := ⟨(empty (N := N)).blocks.map (fun _ => BitVec.allOnes 64)⟩

/-- bitset.h:37-41 `set(string_view)`. -/
def setStr (b : Bitset N) (s : List Char) : Res (Bitset N) := do
  return ⟨← setStrLoop s b.blocks (min N s.length)⟩

/-- bitset.h:55 `reset()`. -/
def reset (_ : Bitset N) : Bitset N := ⟨List.replicate (numBlocks 64 N) 0#64⟩

/-- bitset.h:219-260 `operator>>=`. -/
def shr (b : Bitset N) (shift : Nat) : Res (Bitset N) :=
  if shift ≥ N then .ok b.reset else do return ⟨← Bits.shr N b.blocks shift⟩

/-- bitset.h:262-298 `operator<<=`. -/
def shl (b : Bitset N) (shift : Nat) : Res (Bitset N) :=
  if shift ≥ N then .ok b.reset else do return ⟨← Bits.shl b.blocks shift⟩

end Bitset

/-! ## `basic_bitvec<Vec>` -/

/-- bitvec.h:481-482 the members; `w` = number of bits of `block_t`. -/
structure Bitvec (w : Nat) where
  size : Nat
  blocks : Blocks w

namespace Bitvec

/-- bitvec.h:29 default constructor. -/
def empty : Bitvec w := ⟨0, []⟩

/-- bitvec.h:71-74: clear the padding bits before resizing. -/
def resizeSanitize (b : Bitvec w) : Res (Blocks w) :=
  if b.size ≠ 0 ∧ b.size % w ≠ 0 then do
    let x ← rd b.blocks (b.blocks.length - 1)
    wr b.blocks (b.blocks.length - 1) (x &&& ~~~((~~~(0#w)) <<< (b.size % w)))
  else .ok b.blocks

/-- bitvec.h:66-77 `resize(new_size)`; `blocks_.resize` keeps a prefix and appends zero blocks. -/
def resize (b : Bitvec w) (n : Nat) : Res (Bitvec w) :=
  if n = b.size then .ok b
  else do
    let bs ← b.resizeSanitize
    let m := numBlocks w n
    return ⟨n, bs.take m ++ List.replicate (m - bs.length) 0#w⟩

/-- bitvec.h:38-45 `max(size)`. -/
def max (n : Nat) : Res (Bitvec w) := do
  let b ← resize (w := w) empty n
  return { b with blocks := b.blocks.map (fun _ => BitVec.allOnes w) }

/-- bitvec.h:54-58 `zero_out()`. -/
def zeroOut (b : Bitvec w) : Bitvec w := { b with blocks := b.blocks.map (fun _ => 0#w) }

/-- bitvec.h:60-64 `one_out()`. -/
def oneOut (b : Bitvec w) : Bitvec w := { b with blocks := b.blocks.map (fun _ => ~~~(0#w)) }

/-- bitvec.h:79-87 `set(string_view)`. -/
def setStr (b : Bitvec w) (s : List Char) : Res (Bitvec w) := do
  let b ← b.resize s.length
  return { b with blocks := ← setStrLoop s b.blocks (min b.size s.length) }

/-- bitvec.h:89-99 `set(i, val)`; `i < size()` is a precondition (assert). -/
def set (b : Bitvec w) (i : Nat) (v : Bool) : Res (Bitvec w) := do
  require (i < b.size)
  return { b with blocks := ← setBit b.blocks i v }

/-- bitvec.h:123 `reset()`: the blocks are dropped, `size_` is kept. -/
def reset (b : Bitvec w) : Bitvec w := { b with blocks := [] }

/-- bitvec.h:127-136 `count()`. -/
def count (b : Bitvec w) : Res Nat := if b.size = 0 then .ok 0 else Bits.count b.size b.blocks

/-- bitvec.h:138-147 `test(i)`, `operator[]`. -/
def test (b : Bitvec w) (i : Nat) : Res Bool := Bits.test b.size b.blocks i

/-- bitvec.h:149-167 `for_each_set_bit`. -/
def forEachSetBit (b : Bitvec w) : Res (List Nat) :=
  if b.size = 0 then .ok [] else Bits.forEachSetBit b.size b.blocks

/-- bitvec.h:169-217 `next_set_bit`. -/
def nextSetBit (b : Bitvec w) (i : Nat) : Res (Option Nat) := Bits.nextSetBit b.size b.blocks i

/-- bitvec.h:235-245 `any()`. -/
def any (b : Bitvec w) : Res Bool := if b.size = 0 then .ok false else Bits.any b.size b.blocks

/-- bitvec.h:258-265 `str()`. -/
def str (b : Bitvec w) : Res (List Char) := Bits.str b.size b.blocks

/-- bitvec.h:267-283 `operator==`. -/
def eq (a b : Bitvec w) : Res Bool :=
  if a.size ≠ b.size then .ok false
  else if a.size = 0 then .ok true
  else Bits.eq a.size a.blocks b.blocks

/-- bitvec.h:285-308 `operator<`; equal sizes are a precondition (assert). -/
def lt (a b : Bitvec w) : Res Bool := do
  require (a.size = b.size)
  if a.size = 0 then return false else Bits.lt a.size a.blocks b.blocks

/-- bitvec.h:328-353 `operator&=`, `|=`, `^=`; equal sizes are a precondition (assert). -/
def zipAssign (f : BitVec w → BitVec w → BitVec w) (a o : Bitvec w) : Res (Bitvec w) := do
  require (a.size = o.size)
  return { a with blocks := ← Bits.zipAssign f a.blocks o.blocks }

/-- bitvec.h:355-361 `operator~`. -/
def not (a : Bitvec w) : Bitvec w := { a with blocks := notAll a.blocks }

/-- bitvec.h:384-425 `operator>>=`. -/
def shr (b : Bitvec w) (shift : Nat) : Res (Bitvec w) :=
  if shift ≥ b.size then .ok b.reset
  else do return { b with blocks := ← Bits.shr b.size b.blocks shift }

/-- bitvec.h:427-463 `operator<<=`. -/
def shl (b : Bitvec w) (shift : Nat) : Res (Bitvec w) :=
  if shift ≥ b.size then .ok b.reset
  else do return { b with blocks := ← Bits.shl b.blocks shift }

end Bitvec
end Cista.Bits
