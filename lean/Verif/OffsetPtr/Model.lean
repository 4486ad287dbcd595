import Verif.Bytes

/-!
# Relative pointers

Model of `containers/offset_ptr.h` over 64-bit addresses; the specialisation for `void` (:112-168) repeats the constructors,
assignments, `ptr_to_offset`, `operator bool` and `get` of the primary template.  Signed overflow of the offset
computation is undefined behaviour and is reported as such.
-/
namespace Cista.OffsetPtr

/-- A machine address / pointer value (`0` is the null pointer). -/
abbrev Addr := BitVec 64

/-- include/cista/offset_t.h:12 `NULLPTR_OFFSET` (the minimal `intptr_t`). -/
def NULLPTR_OFFSET : BitVec 64 := BitVec.intMin 64

/-- include/cista/containers/offset_ptr.h:56-59 `ptr_to_offset` evaluated in an offset pointer object
located at `this`; the subtraction is on signed `intptr_t`. -/
def ptrToOffset (this p : Addr) : Res (BitVec 64) :=
  if p = 0 then .ok NULLPTR_OFFSET
  else if BitVec.ssubOverflow p this then .error .ub
  else .ok (p - this)

/-- include/cista/containers/offset_ptr.h:69-75 `get` of an object at `this` with stored offset
`off`; the addition is on signed `intptr_t`. -/
def get (this : Addr) (off : BitVec 64) : Res Addr :=
  if off = NULLPTR_OFFSET then .ok 0
  else if BitVec.saddOverflow this off then .error .ub
  else .ok (this + off)

/-- include/cista/containers/offset_ptr.h:61 `operator bool`. -/
def toBool (off : BitVec 64) : Bool := off ≠ NULLPTR_OFFSET

/-- Raw pointer arithmetic `p + k` on elements of `stride` bytes, as performed by the built-in
pointer type inside `operator++`/`--`/`+`/`-` (offset_ptr.h:77-108).  Arithmetic on the null pointer
or leaving the (lower half) address space is undefined. -/
def rawAdd (p : Addr) (stride : Nat) (k : Int) : Res Addr :=
  let r : Int := (p.toNat : Int) + k * (stride : Int)
  if p = 0 ∨ r ≤ 0 ∨ r ≥ 2 ^ 63 then .error .ub else .ok (BitVec.ofNat 64 r.toNat)

/-- Memory holding offset pointer objects: stored offset by object address.  (Distinct objects do not
overlap.) -/
abbrev Cells := Addr → BitVec 64

/-- Operations on relative pointer objects; arguments are object addresses. -/
inductive Op where
  /-- `offset_ptr()` / `= nullptr` : offset_ptr.h:30-31, 38-41 -/
  | setNull (d : Addr)
  /-- construct / assign from a raw pointer: offset_ptr.h:32-37 -/
  | setRaw (d : Addr) (p : Addr)
  /-- copy/move construct and copy/move assign: offset_ptr.h:43-52 (all four re-derive the offset) -/
  | copy (d s : Addr)
  /-- `++`/`--` prefix: offset_ptr.h:97-105 -/
  | step (d : Addr) (stride : Nat) (k : Int)
  /-- `std::swap(*a, *b)`: move-construct a temporary at `t`, two move-assignments -/
  | swap (a b t : Addr)

/-- Update one object. -/
def upd {α : Type} (m : Addr → α) (a : Addr) (v : α) : Addr → α := fun x => if x = a then v else m x

/-- One assignment from another offset pointer: offset_ptr.h:43-52. -/
def assignFrom (m : Cells) (d s : Addr) : Res Cells := do
  let p ← get s (m s)
  let o ← ptrToOffset d p
  return upd m d o

/-- Execute one operation on offset pointers. -/
def step (m : Cells) : Op → Res Cells
  | .setNull d => .ok (upd m d NULLPTR_OFFSET)
  | .setRaw d p => do
    let o ← ptrToOffset d p
    return upd m d o
  | .copy d s => assignFrom m d s
  | .step d stride k => do
    let p ← get d (m d)
    let q ← rawAdd p stride k
    let o ← ptrToOffset d q
    return upd m d o
  | .swap a b t => do
    let m1 ← assignFrom m t a
    let m2 ← assignFrom m1 a b
    assignFrom m2 b t

/-- Execute a history. -/
def run : Cells → List Op → Res Cells
  | m, [] => .ok m
  | m, op :: ops => do run (← step m op) ops

/-- include/cista/containers/offset_ptr.h:107-108 postfix `operator++(int) const` (`k = 1`) and `operator--(int) const` (`k = -1`):
returns a new pointer to the next or previous element and leaves `*this` alone.  Result: (value returned, cells after). -/
def postStep (m : Cells) (d : Addr) (stride : Nat) (k : Int) : Res (Addr × Cells) := do
  let p ← get d (m d)
  let q ← rawAdd p stride k
  return (q, m)

/-- `p == q` of two `offset_ptr<void>` (offset_ptr.h:112-168): there is no comparison for them, the conversion to `void*` is explicit, but
the conversion to `bool` is not (:144), so that the truth values are compared. -/
def eqVoid (o1 o2 : BitVec 64) : Bool := toBool o1 == toBool o2

/-! ## Byte memory (for relocation) -/

/-- Byte-addressed memory. -/
abbrev Bytes := Nat → Byte

/-- `memcpy(dst, src, len)`. -/
def memcpy (m : Bytes) (dst src len : Nat) : Bytes :=
  fun a => if dst ≤ a ∧ a < dst + len then m (src + (a - dst)) else m a

/-- Load the 8-byte offset stored at address `a`. -/
def loadOff (host : Endian) (m : Bytes) (a : Nat) : BitVec 64 :=
  BitVec.ofNat 64 (ofHost host ((List.range 8).map fun i => m (a + i)))

/-- Store the 8-byte offset `v` at address `a`. -/
def storeOff (host : Endian) (m : Bytes) (a : Nat) (v : BitVec 64) : Bytes :=
  fun x => if a ≤ x ∧ x < a + 8 then (hostBytes host 8 v.toNat).getD (x - a) 0#8 else m x

/-- `get` of the offset pointer object stored in byte memory at `a`. -/
def getAt (host : Endian) (m : Bytes) (a : Nat) : Res Addr :=
  get (BitVec.ofNat 64 a) (loadOff host m a)

end Cista.OffsetPtr
