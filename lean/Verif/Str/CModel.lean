import Verif.Str.Model

/-!
# Model of `generic_cstring` / `basic_cstring` / `basic_cstring_view`

Source: `/repo/include/cista/containers/cstring.h`.  Same memory model and simplifications as
`Verif.Str.Model`.  `remaining_` and `minus_one_` share one byte (cstring.h:304-349), so the
representation is a sum type distinguished by its sign.  `assert`s are caller obligations and disabled
in release builds; they only concern null pointers with non-zero length, which the model treats as
unreadable memory.
-/
namespace Cista.CStr

open Cista.Str

abbrev Byte := Ch 8

/-- cstring.h:304-349. -/
inductive CS where
  /-- `stack`: 15 inline bytes and `remaining_ ≥ 0` -/
  | sso (s : List Byte) (rem : Int)
  /-- `heap`: self_allocated_, size_, ptr_ -/
  | heap (self : Bool) (size : Nat) (ptr : Loc)
deriving DecidableEq, Repr

/-- cstring.h:332-334 `stack{}`. -/
def CS.init : CS := .sso (List.replicate 15 0#8) 15

/-- Memory and all string variables. -/
structure CSt where
  mem : SMem 8
  strs : Nat → CS

/-- Inline buffers. -/
def CSt.inl (st : CSt) (x : Nat) : Option (List Byte) :=
  match st.strs x with
  | .sso s _ => some s
  | .heap .. => none

def CSt.put (st : CSt) (d : Nat) (s : CS) : CSt :=
  { st with strs := fun x => if x = d then s else st.strs x }

def CSt.read (st : CSt) (p : Loc) (n : Nat) : Res (List Byte) := readLoc st.mem st.inl p n

/-- cstring.h:289-300 `data()`. -/
def CSt.data (st : CSt) (x : Nat) : Loc :=
  match st.strs x with
  | .sso _ _ => .inl x 0
  | .heap _ _ p => p

/-- cstring.h:302, 328, 340-343 `size()`, the inline size in unsigned 32-bit arithmetic. -/
def CSt.size (st : CSt) (x : Nat) : Nat :=
  match st.strs x with
  | .sso _ rem => ((15 - rem) % (2 ^ 32 : Int)).toNat
  | .heap _ n _ => n

/-- cstring.h:141-142 `view()`/`str()`; an empty view reads nothing. -/
def CSt.view (st : CSt) (x : Nat) : Res (List Byte) :=
  if st.size x = 0 then .ok [] else st.read (st.data x) (st.size x)

/-- The byte `data()[size()]`: behind a full inline buffer that is `remaining_` itself. -/
def CSt.terminator (st : CSt) (x : Nat) : Res Byte :=
  match st.strs x with
  | .sso s rem => match (s ++ [BitVec.ofInt 8 rem])[st.size x]? with
    | some c => .ok c
    | none => .error .ub
  | .heap _ n (.mem b o) => match st.mem.blocks b with
    | none => .error .ub
    | some cs => match cs[o + n]? with
      | some c => .ok c
      | none => .error .ub
  | .heap .. => .error .ub

/-- cstring.h:63-68. -/
def reset (st : CSt) (d : Nat) : Res CSt :=
  match st.strs d with
  | .heap true _ p => match p with
    | .mem b o => do
      let m ← st.mem.free b o
      return { st with mem := m }.put d .init
    | .null => .ok (st.put d .init)
    | .inl .. => .error .ub
  | _ => .ok (st.put d .init)

/-- cstring.h:91-92: `static_cast<int8_t>(std::max(static_cast<int32_t>(15U - len), -1))`. -/
def remaining (len : Nat) : Int :=
  (BitVec.ofInt 8 (max (15#32 - BitVec.ofNat 32 len).toInt (-1))).toInt

/-- cstring.h:85-99, 312-322: `len + 1` is computed in `msize_t` = `uint32_t`; with `len = 2^32-1` the
allocation has 0 bytes and the terminator is written outside. -/
def setOwning (st : CSt) (d : Nat) (src : Loc) (len : Nat) : Res CSt := do
  let st ← reset st d
  if len = 0 then return st
  let rem := remaining len
  if 0 ≤ rem then
    require (len ≤ 15)
    let cs ← st.read src len
    return st.put d (.sso (cs ++ List.replicate (15 - len) 0#8) rem)
  else
    require (len + 1 < 2 ^ 32)
    let cs ← st.read src len
    let (m, b) := st.mem.alloc (cs ++ [0#8])
    return { st with mem := m }.put d (.heap true len (.mem b 0))

/-- cstring.h:113-117. -/
def setNonOwning (st : CSt) (d : Nat) (src : Loc) (len : Nat) : Res CSt := do
  let st ← reset st d
  return st.put d (.heap false len src)

/-- cstring.h:28-30. -/
def mstrlen (st : CSt) (b off : Nat) : Res Nat :=
  match st.mem.blocks b with
  | none => .error .ub
  | some cs =>
    let t := (cs.drop off).takeWhile (· ≠ 0#8)
    if off + t.length < cs.length then .ok (t.length % 2 ^ 32) else .error .ub

/-- cstring.h:119-127; `raw` = `Ptr` is a raw pointer type (a zeroed object is an inline one with
`remaining_ = 0`). -/
def moveFrom (raw : Bool) (st : CSt) (d x : Nat) : CSt :=
  let src := st.strs x
  let st := st.put d src
  if raw then st.put x (.sso (List.replicate 15 0#8) 0)
  else match src with
    | .sso .. => st
    | .heap .. => st.put x .init

/-- cstring.h:70-76, 101-107: length conversion from `size_t`. -/
def setOwningView (st : CSt) (d : Nat) (src : Loc) (len : Nat) : Res CSt := setOwning st d src (len % 2 ^ 32)
@[inherit_doc setOwningView]
def setNonOwningView (st : CSt) (d : Nat) (src : Loc) (len : Nat) : Res CSt :=
  setNonOwning st d src (len % 2 ^ 32)

/-- cstring.h:374-377 `basic_cstring` copy assignment (no self check). -/
def assignString (st : CSt) (d x : Nat) : Res CSt := setOwning st d (st.data x) (st.size x)

/-- cstring.h:416-429 `basic_cstring_view` copy/move. -/
def assignView (st : CSt) (d x : Nat) : Res CSt := setNonOwning st d (st.data x) (st.size x)

/-- cstring.h:392-395 from a view onto part of variable `x`. -/
def assignSub (st : CSt) (d x off n : Nat) : Res CSt := setOwningView st d ((st.data x).add off) n

/-- The implicitly declared copy constructor of `generic_cstring<char const*>` (cstring.h:24-68 declares
a destructor but no copy operations, and with a raw pointer the union is trivially copyable). -/
def implicitCopy (st : CSt) (d x : Nat) : CSt := st.put d (st.strs x)

/-- cstring.h:146 `s[i] = c`. -/
def write (st : CSt) (d i : Nat) (c : Byte) : Res CSt := do
  require (i < st.size d)
  match st.strs d with
  | .sso s rem => return st.put d (.sso (s.set i c) rem)
  | .heap self n (.mem b o) =>
    match st.mem.blocks b with
    | none => .error .ub
    | some cs =>
      require (o + i < cs.length)
      return { st with mem := st.mem.setBlk b (some (cs.set (o + i) c)) }.put d (.heap self n (.mem b o))
  | _ => .error .ub

end Cista.CStr
