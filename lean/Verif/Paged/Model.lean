import Verif.MM.Lemmas
import Verif.Bytes

/-!
# Model of `paged` and `paged_vecvec`

Source: `/repo/include/cista/containers/paged.h` and `/repo/include/cista/containers/paged_vecvec.h`.

`data_` is a cista vector of a trivially copyable element type of `E` bytes; it is modelled by the bytes of its
elements (C09: the vector behaves like a list; its reallocations move bytes unchanged), because the free lists
are stored inside the elements of free pages.  `size_type` has `S` bytes (4 or 8), `PageSizeType` is
`uint16_t`, `MinPageSize = 2^m`, `MaxPageSize = 2^M` (the defaults are powers of two; paged.h:26-30).  Element
positions are natural numbers; the theorems bound the number of elements below `2^(8S) - 1`.  Accesses outside
`data_` are `Err.ub`.
-/
set_option linter.unusedSimpArgs false

namespace Cista.Paged

/-- Template parameters and host byte order. -/
structure Cfg where
  host : Endian
  /-- `sizeof(value_type)` -/
  E : Nat
  /-- `sizeof(size_type)` -/
  S : Nat
  /-- `MinPageSize = 2^m` -/
  m : Nat
  /-- `MaxPageSize = 2^M` -/
  M : Nat

/-- paged.h:24-30 (defaults) and the `static_assert` at paged.h:41 (`sizeof(page_t) ≥ S`). -/
structure Cfg.Ok (c : Cfg) : Prop where
  E0 : 0 < c.E
  Ssize : c.S = 4 ∨ c.S = 8
  m1 : 1 ≤ c.m
  mM : c.m ≤ c.M
  M15 : c.M ≤ 15
  fits : c.S ≤ 2 ^ c.m * c.E

/-- paged.h:14-22 `page`. -/
structure Page where
  size : Nat
  cap : Nat
  start : Nat
deriving DecidableEq, Repr

/-- Default constructed `page` (paged.h:19-21). -/
def Page.null : Page := ⟨0, 0, 0⟩

/-- paged.h:153-154: the bytes of `data_`, and `next_` of every free list. -/
structure Paged where
  data : List Byte
  free : List Nat
deriving DecidableEq, Repr

/-- `std::numeric_limits<size_type>::max()`. -/
def Cfg.sentinel (c : Cfg) : Nat := 256 ^ c.S - 1

/-- Default constructed `paged` (paged.h:150, 154). -/
def Paged.empty (c : Cfg) : Paged := ⟨[], List.replicate (c.M - c.m + 1) c.sentinel⟩

/-- `data_.size()`. -/
def Paged.size (c : Cfg) (p : Paged) : Nat := p.data.length / c.E

/-- paged.h:44-47 `free_list_index`; the subtraction is on 32-bit `unsigned`. -/
@[irreducible] def freeIdx (c : Cfg) (capacity : Nat) : Nat :=
  (Arith.constexprTrailingZeros (BitVec.ofNat (8 * c.S) capacity) + 2 ^ 32 -
    Arith.constexprTrailingZeros (BitVec.ofNat 16 (2 ^ c.m))) % 2 ^ 32 % 256 ^ c.S

/-- `memcpy` out of `data_`: `n` bytes from byte position `pos`. -/
def load (d : List Byte) (pos n : Nat) : Res (List Byte) := do
  require (pos + n ≤ d.length)
  return (d.drop pos).take n

/-- `memcpy` into `data_`. -/
def store (d : List Byte) (pos : Nat) (bs : List Byte) : Res (List Byte) := do
  require (pos + bs.length ≤ d.length)
  return MM.blit d pos bs

/-- paged.h:86-92 `read<size_type>(offset)`. -/
def Paged.read (c : Cfg) (p : Paged) (off : Nat) : Res Nat := do
  let bs ← load p.data (off * c.E) c.S
  return ofHost c.host bs

/-- paged.h:94-98 `write(offset, x)` with `x` of type `size_type`. -/
def Paged.write (c : Cfg) (p : Paged) (off x : Nat) : Res Paged := do
  let d ← store p.data (off * c.E) (hostBytes c.host c.S x)
  return { p with data := d }

/-- paged.h:64: the capacity computed for a request, in 16-bit arithmetic. -/
@[irreducible] def newCap (c : Cfg) (size : Nat) : Nat := (Arith.nextPow2 (BitVec.ofNat 16 (max (2 ^ c.m) size))).toNat

/-- paged.h:66-74 and 133-135, 142-148 (`empty`/`pop` of the free list): the body of `create_page` once the
capacity and the free list index are known.  New elements are `T{}`, here all zero bytes. -/
def Paged.createAt (c : Cfg) (p : Paged) (size cap i : Nat) : Res (Page × Paged) := do
  verify (i < p.free.length)
  match p.free[i]? with
  | none => .error .ub
  | some next =>
    if next = c.sentinel then
      .ok (⟨size, cap, p.size c⟩, { p with data := p.data ++ List.replicate (cap * c.E) 0#8 })
    else do
      let nn ← p.read c next
      return (⟨size, cap, next⟩, { p with free := p.free.set i nn })

/-- paged.h:63-75 `create_page`; `size < 2^16`. -/
def Paged.create (c : Cfg) (p : Paged) (size : Nat) : Res (Page × Paged) :=
  p.createAt c size (newCap c size) (freeIdx c (newCap c size))

/-- paged.h:82-83 with paged.h:137-140 `push`. -/
def Paged.pushFree (c : Cfg) (p : Paged) (start i : Nat) : Res Paged := do
  verify (i < p.free.length)
  match p.free[i]? with
  | none => .error .ub
  | some next => do
    let p ← p.write c start next
    return { p with free := p.free.set i start }

/-- paged.h:77-84 `free_page`. -/
def Paged.freePage (c : Cfg) (p : Paged) (q : Page) : Res Paged :=
  if q.cap = 0 then .ok p else p.pushFree c q.start (freeIdx c q.cap)

/-- paged.h:113-115 `copy(to, from)`: `memcpy`, overlapping ranges are undefined. -/
def Paged.copy (c : Cfg) (p : Paged) (dst src : Page) : Res Paged :=
  let n := src.size * c.E
  if n = 0 then .ok p else do
    let bs ← load p.data (src.start * c.E) n
    require (src.start * c.E + n ≤ dst.start * c.E || dst.start * c.E + n ≤ src.start * c.E)
    let d ← store p.data (dst.start * c.E) bs
    return { p with data := d }

/-- paged.h:52-61 `resize_page`. -/
def Paged.resize (c : Cfg) (p : Paged) (q : Page) (size : Nat) : Res (Page × Paged) :=
  if size ≤ q.cap then .ok (⟨size, q.cap, q.start⟩, p)
  else do
    let (n, p) ← p.create c size
    let p ← p.copy c n q
    let p ← p.freePage c q
    return (n, p)

/-- paged.h:117-123 `copy(to, begin, end)` from bytes outside of `data_`. -/
def Paged.copyIn (c : Cfg) (p : Paged) (dst : Page) (bs : List Byte) : Res Paged :=
  if bs.length = 0 then .ok p else do
    let d ← store p.data (dst.start * c.E) bs
    return { p with data := d }

/-- paged.h:125-130 `clear`. -/
def Paged.clear (c : Cfg) (p : Paged) : Paged := ⟨[], p.free.map fun _ => c.sentinel⟩

/-- paged.h:107-111: the bytes of the elements `[begin, end)` of a page. -/
def Paged.contents (c : Cfg) (p : Paged) (q : Page) : Res (List Byte) := load p.data (q.start * c.E) (q.size * c.E)

/-! ## paged_vecvec -/

/-- paged_vecvec.h:356-357. -/
structure PV where
  paged : Paged
  idx : List Page
deriving DecidableEq, Repr

def PV.empty (c : Cfg) : PV := ⟨Paged.empty c, []⟩

def PV.page (v : PV) (i : Nat) : Res Page :=
  match v.idx[i]? with
  | some q => .ok q
  | none => .error .ub

/-- paged_vecvec.h:310-318 `emplace_back(bucket)`; elements are given by their `E` bytes.  The size is
converted to `uint16_t`, the copy is not. -/
def PV.emplaceBack (c : Cfg) (v : PV) (xs : List (List Byte)) : Res PV := do
  let (q, p) ← v.paged.create c (xs.length % 2 ^ 16)
  let p ← p.copyIn c q xs.flatten
  return ⟨p, v.idx ++ [q]⟩

/-- paged_vecvec.h:326 `emplace_back_empty`. -/
def PV.emplaceBackEmpty (c : Cfg) (v : PV) : Res PV := do
  let (q, p) ← v.paged.create c 0
  return ⟨p, v.idx ++ [q]⟩

/-- paged_vecvec.h:334-342 `insert(k, bucket)`. -/
def PV.insert (c : Cfg) (v : PV) (k : Nat) (xs : List (List Byte)) : Res PV := do
  let (q, p) ← v.paged.create c (xs.length % 2 ^ 16)
  let p ← p.copyIn c q xs.flatten
  require (k ≤ v.idx.length)
  return ⟨p, v.idx.insertIdx k q⟩

/-- paged_vecvec.h:187-190 `bucket[j] = x` (the `assert` is a caller obligation: `Err.ub`). -/
def PV.set (c : Cfg) (v : PV) (i j : Nat) (x : List Byte) : Res PV := do
  let q ← v.page i
  require (j < q.size)
  let d ← store v.paged.data ((q.start + j) * c.E) x
  return { v with paged := { v.paged with data := d } }

/-- paged_vecvec.h:158-162 `bucket::push_back(x)`, first step: make room.  `p.size_ + 1U` converts to `uint16_t`. -/
def PV.grow (c : Cfg) (v : PV) (i : Nat) : Res PV := do
  let q ← v.page i
  let (q', p) ← v.paged.resize c q ((q.size + 1) % 2 ^ 16)
  return ⟨p, v.idx.set i q'⟩

/-- paged_vecvec.h:158-162 `bucket::push_back(x)` with `x` outside of the container. -/
def PV.pushBack (c : Cfg) (v : PV) (i : Nat) (x : List Byte) : Res PV := do
  let v ← v.grow c i
  let q ← v.page i
  v.set c i (q.size - 1) x

/-- paged_vecvec.h:158-162 `v[i].push_back(v[i'][j])`: the argument is a reference into `data_`, read after
making room.  Modelled for the case that `data_` is not reallocated meanwhile (then the reference would dangle). -/
def PV.pushBackOwn (c : Cfg) (v : PV) (i i' j : Nat) : Res PV := do
  let q' ← v.page i'
  require (j < q'.size)
  let v ← v.grow c i
  let x ← load v.paged.data ((q'.start + j) * c.E) c.E
  let q ← v.page i
  v.set c i (q.size - 1) x

/-- paged_vecvec.h:178-181: the elements of bucket `i`. -/
def PV.bucketBytes (c : Cfg) (v : PV) (i : Nat) : Res (List Byte) := do
  let q ← v.page i
  v.paged.contents c q

/-- Cut bytes into elements of `E` bytes (`n` of them). -/
def elems (E : Nat) : Nat → List Byte → List (List Byte)
  | 0, _ => []
  | n + 1, bs => bs.take E :: elems E n (bs.drop E)

/-- `*begin() .. *end()` of bucket `i` (paged_vecvec.h:178-181, 211). -/
def PV.bucket (c : Cfg) (v : PV) (i : Nat) : Res (List (List Byte)) := do
  let q ← v.page i
  let bs ← v.paged.contents c q
  return elems c.E q.size bs

/-- `std::rotate(first + a, first + b, last)` on the elements of a range, by its specification. -/
def rotate {α : Type} (a b : Nat) (l : List α) : List α := l.take a ++ l.drop b ++ (l.take b).drop a

/-- paged_vecvec.h:164-170 `bucket::insert(begin() + j, x)`. -/
def PV.bucketInsert (c : Cfg) (v : PV) (i j : Nat) (x : List Byte) : Res PV := do
  let q ← v.page i
  require (j ≤ q.size)
  let old := q.size
  let v ← v.pushBack c i x
  let q ← v.page i
  let xs ← v.bucket c i
  let d ← store v.paged.data (q.start * c.E) (rotate j old xs).flatten
  return { v with paged := { v.paged with data := d } }

/-- paged_vecvec.h:197-205 `v[i].at(j)`. -/
def PV.bucketAt (c : Cfg) (v : PV) (i j : Nat) : Res (List Byte) := do
  let q ← v.page i
  verify (j < q.size)
  load v.paged.data ((q.start + j) * c.E) c.E

/-- Loop of paged_vecvec.h:345-347. -/
def freeAll (c : Cfg) : List Page → Paged → Res Paged
  | [], p => .ok p
  | q :: qs, p => do
    let p ← p.freePage c q
    freeAll c qs p

/-- paged_vecvec.h:344-349 `resize`. -/
def PV.resize (c : Cfg) (v : PV) (n : Nat) : Res PV := do
  let p ← freeAll c (v.idx.drop n) v.paged
  return ⟨p, v.idx.take n ++ List.replicate (n - v.idx.length) Page.null⟩

/-- paged_vecvec.h:351-354 `clear`. -/
def PV.clear (c : Cfg) (v : PV) : PV := ⟨v.paged.clear c, []⟩

/-- paged_vecvec.h:281-289 `at(i)`: the bucket number. -/
def PV.at (v : PV) (i : Nat) : Res Nat := do
  verify (i < v.idx.length)
  return i

/-- paged_vecvec.h:300-303 with 291 (`begin()` is `front()` is `at(0)`): `for (auto b : v)`, collecting buckets. -/
def PV.iterate (c : Cfg) (v : PV) : Res (List (List (List Byte))) := do
  let b ← v.at 0
  (List.range' b (v.idx.length - b)).mapM (v.bucket c)

end Cista.Paged
