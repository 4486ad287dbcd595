import Verif.Mem
import Verif.Arith.Model

/-!
# `basic_vector` — include/cista/containers/vector.h:24-453

Simplifications (for the whole file):
* element constructors/assignments do not throw (see `Verif.Throw.Vector`) and allocation does not fail (see `Verif.Fail.Vector`);
* iterators/pointers into the vector are indices relative to `begin()`;
* `std::rotate`, `std::swap`, `std::move(range)`, `std::equal`, `std::lexicographical_compare` are
  modelled by their standard-library contracts;
* `W` is the bit width of `size_type`; all `size_type` arithmetic is modulo `2^W`.
`strict` : see `Verif.Mem` (object lifetime tracking for types with non-trivial destructors).
-/
namespace Cista.Vector

open Cista.Mem

variable {α : Type}

/-- vector.h:446-449 the members; `ptr = none` is `el_ == nullptr`. -/
structure Vec where
  ptr : Option Nat
  used : Nat
  alloc : Nat
  self : Bool
  deriving DecidableEq, Repr

/-- vector.h:41, 439-444 default construction / `reset()`. -/
def Vec.empty : Vec := ⟨none, 0, 0, false⟩

/-- Dereferencing base: `el_` must not be null. -/
def Vec.base (v : Vec) : Res Nat :=
  match v.ptr with
  | none => .error .ub
  | some b => .ok b

/-- vector.h:361-364: move the first `n` elements of block `src` to block `dst`. -/
def moveLoop (strict : Bool) (src dst : Nat) : Nat → Heap α → Res (Heap α)
  | 0, h => .ok h
  | n + 1, h => do
    let h ← moveLoop strict src dst n h
    let (a, h) ← h.moveOut src n
    h.construct strict dst n a

/-- Destroy elements `lo, …, lo + n - 1` (vector.h:106-108, 339-341, 366-368, 399-401). -/
def destroyLoop (b lo : Nat) : Nat → Heap α → Res (Heap α)
  | 0, h => .ok h
  | n + 1, h => do
    let h ← destroyLoop b lo n h
    h.destroy b (lo + n)

/-- vector.h:359-372: move the elements over to the new block. -/
def migrate (strict : Bool) (h : Heap α) (v : Vec) (dst : Nat) : Res (Heap α) :=
  if v.used = 0 then .ok h else do
    let src ← v.base
    let h ← moveLoop strict src dst v.used h
    destroyLoop src 0 v.used h

/-- vector.h:374-378: release the old block if it is owned. -/
def freeOld (strict : Bool) (h : Heap α) (v : Vec) : Res (Heap α) :=
  if v.self then do
    let b ← v.base
    h.free strict b
  else .ok h

/-- vector.h:345-382 `reserve(new_size)`. -/
def reserve (W : Nat) (strict : Bool) (h : Heap α) (v : Vec) (n : Nat) : Res (Heap α × Vec) :=
  let n := max v.alloc n
  if v.alloc ≥ n then .ok (h, v) else do
    let nx := (Arith.nextPow2 (BitVec.ofNat W n)).toNat
    let (b, h) := h.alloc nx
    let h ← migrate strict h v b
    let h ← freeOld strict h v
    return (h, { ptr := some b, used := v.used, alloc := nx, self := true })

/-- vector.h:294-313 `push_back(T const&)`, `push_back(T&&)`, `emplace_back` with an argument that
does not alias the vector. -/
def pushBack (W : Nat) (strict : Bool) (h : Heap α) (v : Vec) (a : α) : Res (Heap α × Vec) := do
  let (h, v) ← reserve W strict h v ((v.used + 1) % 2 ^ W)
  let b ← v.base
  let h ← h.construct strict b v.used a
  return (h, { v with used := (v.used + 1) % 2 ^ W })

/-- The same with an argument that is a reference to slot `rb[ri]` (vector.h:294-298, 306-313):
the reference is read after `reserve`. -/
def pushBackRef (W : Nat) (strict : Bool) (h : Heap α) (v : Vec) (rb ri : Nat) : Res (Heap α × Vec) := do
  let (h, v) ← reserve W strict h v ((v.used + 1) % 2 ^ W)
  let b ← v.base
  let a ← h.read rb ri
  let h ← h.construct strict b v.used a
  return (h, { v with used := (v.used + 1) % 2 ^ W })

/-- Every slot holds a value. -/
def allVal (ss : List (Slot α)) : Bool := ss.all fun s => match s with
  | .val _ => true
  | _ => false

/-- `std::rotate(begin + off, begin + mid, begin + last)` on block `b`. -/
def rotate (h : Heap α) (b off mid last : Nat) : Res (Heap α) :=
  match h.blocks b with
  | none => .error .ub
  | some ss =>
    if off ≤ mid ∧ mid ≤ last ∧ last ≤ ss.length ∧ allVal ((ss.drop off).take (last - off)) then
      .ok (h.setBlk b (some (ss.take off ++ (ss.drop mid).take (last - mid) ++
        (ss.drop off).take (mid - off) ++ ss.drop last)))
    else .error .ub

/-- vector.h:223, 237, 251: rotate the new elements `[old_size, used)` to `off`; returns the offset
of the returned iterator — `std::rotate` returns `first + (last - middle)`. -/
def rotateIn (h : Heap α) (v : Vec) (off oldSize : Nat) : Res (Heap α × Nat) :=
  if off = oldSize ∧ v.used = oldSize then .ok (h, off) else do
    let b ← v.base
    let h ← rotate h b off oldSize v.used
    return (h, off + (v.used - oldSize))

/-- vector.h:214-224 `insert(it, el)`; the result contains the returned iterator as index. -/
def insertOne (W : Nat) (strict : Bool) (h : Heap α) (v : Vec) (off : Nat) (a : α) :
    Res (Heap α × Vec × Nat) := do
  require (off ≤ v.used)
  let oldSize := v.used
  let (h, v) ← pushBack W strict h v a
  let (h, r) ← rotateIn h v off oldSize
  return (h, v, r)

/-- vector.h:214-224 with a reference argument to slot `rb[ri]`. -/
def insertOneRef (W : Nat) (strict : Bool) (h : Heap α) (v : Vec) (off rb ri : Nat) :
    Res (Heap α × Vec × Nat) := do
  require (off ≤ v.used)
  let oldSize := v.used
  let (h, v) ← pushBackRef W strict h v rb ri
  let (h, r) ← rotateIn h v off oldSize
  return (h, v, r)

/-- Construct the elements of `xs` at `b[at]`, `b[at+1]`, … (vector.h:182-184, 232-235, 317-319). -/
def constructAll (strict : Bool) (b : Nat) : Nat → List α → Heap α → Res (Heap α)
  | _, [], h => .ok h
  | i, a :: xs, h => do
    let h ← h.construct strict b i a
    constructAll strict b (i + 1) xs h

/-- Construct `xs` at the end of the vector; nothing is dereferenced for an empty `xs`. -/
def constructFrom (strict : Bool) (h : Heap α) (v : Vec) (i : Nat) (xs : List α) : Res (Heap α) :=
  match xs with
  | [] => .ok h
  | xs => do
    let b ← v.base
    constructAll strict b i xs h

/-- vector.h:226-238 `insert(it, count, value)`. -/
def insertN (W : Nat) (strict : Bool) (h : Heap α) (v : Vec) (off n : Nat) (a : α) :
    Res (Heap α × Vec × Nat) := do
  require (off ≤ v.used)
  let oldSize := v.used
  let (h, v) ← reserve W strict h v ((v.used + n) % 2 ^ W)
  let h ← constructFrom strict h v v.used (List.replicate n a)
  let v := { v with used := (v.used + n) % 2 ^ W }
  let (h, r) ← rotateIn h v off oldSize
  return (h, v, r)

/-- vector.h:245-249: append the elements one by one. -/
def appendEach (W : Nat) (strict : Bool) : List α → Heap α → Vec → Res (Heap α × Vec)
  | [], h, v => .ok (h, v)
  | a :: xs, h, v => do
    let (h, v) ← pushBack W strict h v a
    appendEach W strict xs h v

/-- vector.h:240-252 `insert(pos, first, last, input_iterator_tag)`. -/
def insertInput (W : Nat) (strict : Bool) (h : Heap α) (v : Vec) (off : Nat) (xs : List α) :
    Res (Heap α × Vec × Nat) := do
  require (off ≤ v.used)
  let oldSize := v.used
  let (h, v) ← appendEach W strict xs h v
  let (h, r) ← rotateIn h v off oldSize
  return (h, v, r)

/-- vector.h:171-187 `set(begin_it, end_it)`. -/
def set (W : Nat) (strict : Bool) (h : Heap α) (v : Vec) (xs : List α) : Res (Heap α × Vec) := do
  verify (xs.length ≤ 2 ^ W - 1)
  let (h, v) ← reserve W strict h v xs.length
  let h ← constructFrom strict h v 0 xs
  return (h, { v with used := xs.length })

/-- `*dst = std::move(*src)` inside one block.  Moving an object onto itself leaves it in an
unspecified (moved-from) state — e.g. `basic_vector::operator=(basic_vector&&)`, vector.h:80-90,
empties the vector. -/
def moveAssign (h : Heap α) (b dst src : Nat) : Res (Heap α) := do
  let (a, h) ← h.moveOut b src
  if dst = src then .ok h else h.assign b dst a

/-- vector.h:268-272 one step of shifting the tail; `used` is the (old) size. -/
def shiftStep (strict : Bool) (h : Heap α) (b used dst src : Nat) : Res (Heap α) :=
  if dst ≥ used then do
    let (a, h) ← h.moveOut b src
    h.construct strict b dst a
  else moveAssign h b dst src

/-- vector.h:266-273 after `n` iterations: elements `used-1, …, used-n` have been moved up by `cnt`. -/
def shiftTail (strict : Bool) (b used cnt : Nat) : Nat → Heap α → Res (Heap α)
  | 0, h => .ok h
  | n + 1, h => do
    let h ← shiftTail strict b used cnt n h
    shiftStep strict h b used (used + cnt - 1 - n) (used - 1 - n)

/-- vector.h:275-281: write the new elements, assigning below the old end and constructing above. -/
def writeNew (strict : Bool) (b used : Nat) : Nat → List α → Heap α → Res (Heap α)
  | _, [], h => .ok h
  | i, a :: xs, h => do
    let h ← (if i ≥ used then h.construct strict b i a else h.assign b i a)
    writeNew strict b used (i + 1) xs h

/-- vector.h:254-286 `insert(pos, first, last, forward_iterator_tag)`. -/
def insertRange (W : Nat) (strict : Bool) (h : Heap α) (v : Vec) (off : Nat) (xs : List α) :
    Res (Heap α × Vec × Nat) := do
  require (off ≤ v.used)
  if v.used = 0 then
    let (h, v) ← set W strict h v xs
    return (h, v, 0)
  else
    let cnt := xs.length % 2 ^ W
    let (h, v) ← reserve W strict h v ((v.used + cnt) % 2 ^ W)
    let b ← v.base
    let h ← shiftTail strict b v.used cnt (v.used - off) h
    let h ← writeNew strict b v.used off xs h
    return (h, { v with used := (v.used + cnt) % 2 ^ W }, off)

/-- vector.h:315-329 `resize(size)` / `resize(size, init)`. -/
def resize (W : Nat) (strict : Bool) (h : Heap α) (v : Vec) (n : Nat) (a : α) : Res (Heap α × Vec) := do
  let (h, v) ← reserve W strict h v n
  let h ← constructFrom strict h v v.used (List.replicate (n - v.used) a)
  return (h, { v with used := n })

/-- vector.h:333-336 `pop_back()`; on an empty vector `used_size_` wraps and the access is out of
bounds. -/
def popBack (h : Heap α) (v : Vec) : Res (Heap α × Vec) := do
  require (v.used ≠ 0)
  let b ← v.base
  let h ← h.destroy b (v.used - 1)
  return (h, { v with used := v.used - 1 })

/-- vector.h:338-343 `clear()`. -/
def clear (h : Heap α) (v : Vec) : Res (Heap α × Vec) :=
  if v.used = 0 then .ok (h, v) else do
    let b ← v.base
    let h ← destroyLoop b 0 v.used h
    return (h, { v with used := 0 })

/-- `std::swap(b[i], b[j])`. -/
def swap (h : Heap α) (b i j : Nat) : Res (Heap α) := do
  let x ← h.read b i
  let y ← h.read b j
  let h ← h.put b i (.val y)
  h.put b j (.val x)

/-- vector.h:387-390 after `n` iterations. -/
def swapLoop (b pos : Nat) : Nat → Heap α → Res (Heap α)
  | 0, h => .ok h
  | n + 1, h => do
    let h ← swapLoop b pos n h
    swap h b (pos + n) (pos + n + 1)

/-- vector.h:384-394 `erase(pos)`; returns `pos`. -/
def erase (h : Heap α) (v : Vec) (pos : Nat) : Res (Heap α × Vec × Nat) := do
  require (pos < v.used)
  let b ← v.base
  let h ← swapLoop b pos (v.used - 1 - pos) h
  let h ← h.destroy b (v.used - 1)
  return (h, { v with used := v.used - 1 }, pos)

/-- vector.h:398 `std::move(last, end(), first)` after `n` iterations. -/
def moveDown (b first last : Nat) : Nat → Heap α → Res (Heap α)
  | 0, h => .ok h
  | n + 1, h => do
    let h ← moveDown b first last n h
    moveAssign h b (first + n) (last + n)

/-- vector.h:396-405 `erase(first, last)`; returns `end()`. -/
def eraseRange (h : Heap α) (v : Vec) (first last : Nat) : Res (Heap α × Vec × Nat) := do
  require (first ≤ last ∧ last ≤ v.used)
  if first = last then
    return (h, v, v.used)
  else
    let b ← v.base
    let h ← moveDown b first last (v.used - last) h
    let h ← destroyLoop b (first + (v.used - last)) (last - first) h
    return (h, { v with used := v.used - (last - first) }, v.used - (last - first))

/-- vector.h:101-112 `deallocate()` (also the destructor). -/
def deallocate (strict : Bool) (h : Heap α) (v : Vec) : Res (Heap α × Vec) :=
  if v.self = false ∨ v.ptr = none then .ok (h, v) else do
    let b ← v.base
    let h ← destroyLoop b 0 v.used h
    let h ← h.free strict b
    return (h, Vec.empty)

/-- Values of the first `n` elements of block `b`. -/
def values (h : Heap α) (b : Nat) : Nat → Res (List α)
  | 0 => .ok []
  | n + 1 => do
    let l ← values h b n
    let a ← h.read b n
    return l ++ [a]

/-- All elements in order (iteration `begin()`…`end()`, vector.h:116-123). -/
def toList (h : Heap α) (v : Vec) : Res (List α) :=
  if v.used = 0 then .ok [] else do
    let b ← v.base
    values h b v.used

/-- vector.h:142-149 `operator[]`. -/
def index (h : Heap α) (v : Vec) (i : Nat) : Res α := do
  require (i < v.used)
  let b ← v.base
  h.read b i

/-- vector.h:151-160 `at`. -/
def at' (h : Heap α) (v : Vec) (i : Nat) : Res α :=
  if i ≥ v.used then .error .exn else index h v i

/-- Assignment through `operator[]`: `v[i] = a`. -/
def write (h : Heap α) (v : Vec) (i : Nat) (a : α) : Res (Heap α) := do
  require (i < v.used)
  let b ← v.base
  h.assign b i a

/-- vector.h:162-163 `back()`. -/
def back (h : Heap α) (v : Vec) : Res α := do
  require (v.used ≠ 0)
  let b ← v.base
  h.read b (v.used - 1)

/-- vector.h:165-166 `front()`. -/
def front (h : Heap α) (v : Vec) : Res α := do
  require (v.used ≠ 0)
  let b ← v.base
  h.read b 0

/-- `std::lexicographical_compare` with `<`. -/
def lexLt (lt : α → α → Bool) : List α → List α → Bool
  | [], [] => false
  | [], _ :: _ => true
  | _ :: _, [] => false
  | a :: as, b :: bs => if lt a b then true else if lt b a then false else lexLt lt as bs

/-- vector.h:416-423 `==`. -/
def eq [DecidableEq α] (h : Heap α) (v w : Vec) : Res Bool := do
  let a ← toList h v
  let b ← toList h w
  return decide (a = b)

/-- vector.h:424-426 `<`. -/
def lt (ltα : α → α → Bool) (h : Heap α) (v w : Vec) : Res Bool := do
  let a ← toList h v
  let b ← toList h w
  return lexLt ltα a b

end Cista.Vector
