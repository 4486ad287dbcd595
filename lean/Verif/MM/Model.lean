import Verif.Arith.Props

/-!
# Model of `dynamic_fws_multimap_base` (mutable_fws_multimap)

Source: `/repo/include/cista/containers/mutable_fws_multimap.h`.  `index_`, `data_` and the free lists are
cista vectors, modelled by their element lists (C09; arguments must therefore not refer to elements of the
container itself, see `Alias.lean`).  `T` is trivially copyable (enforced by a `static_assert`), so destroying an
element does nothing.  `K` is `Log2MaxEntriesPerBucket`, `W` the width of `size_type` (32 or 64, enforced by
`trailing_zeros`).  Offsets and sizes are natural numbers: they are bounded by the size of `data_`, which
`C19_storage_bound` bounds in terms of the history; the theorems assume that bound is at most `2^32`, the limit
of the `uint32_t` size type of the vectors (vector.h:25, used by both aliases at mutable_fws_multimap.h:628-656),
and then nothing wraps.  Two conversions to 32 bits are modelled where they occur: the argument of
`index_.resize` (389, 427) and the position written by `resize` (181).  Unchecked vector accesses outside the
range are `Err.ub`.
-/
namespace Cista.MM

/-- mutable_fws_multimap.h:32-36 `index_type`. -/
structure Ix where
  /-- `begin_` -/
  b : Nat
  /-- `size_` -/
  s : Nat
  /-- `capacity_` -/
  c : Nat
deriving DecidableEq, Repr

/-- mutable_fws_multimap.h:622-625. -/
structure Map (α : Type) where
  index : List Ix
  data : List α
  /-- `free_buckets_`: one list per order `0..K` -/
  free : List (List Ix)
  /-- `element_count_` -/
  count : Nat
deriving DecidableEq, Repr

variable {α : Type}

/-- Default constructed map. -/
def Map.empty (K : Nat) : Map α := ⟨[], [], List.replicate (K + 1) [], 0⟩

def Map.ix (m : Map α) (i : Nat) : Res Ix :=
  match m.index[i]? with
  | some x => .ok x
  | none => .error .ub

/-- Elements `[p, p + n)` of `data_`. -/
def Map.slice (m : Map α) (p n : Nat) : Res (List α) := do
  require (p + n ≤ m.data.length)
  return (m.data.drop p).take n

/-- Overwrite `data_` from position `p`. -/
def blit (data : List α) (p : Nat) (xs : List α) : List α :=
  data.take p ++ xs ++ data.drop (p + xs.length)

/-- mutable_fws_multimap.h:520-521 `new_capacity`. -/
def newCapacity (W req : Nat) : Nat := (Arith.nextPow2 (BitVec.ofNat W req)).toNat

/-- mutable_fws_multimap.h:618-620 `get_order`. -/
def getOrder (W c : Nat) : Res Nat := Arith.trailingZeros (BitVec.ofNat W c)

/-- mutable_fws_multimap.h:583-600 `move_entries` (memcpy: overlapping blocks are undefined). -/
def Map.moveEntries (m : Map α) (src dst n : Nat) : Res (Map α) :=
  if n = 0 then .ok m else do
    let xs ← m.slice src n
    require (dst + n ≤ m.data.length)
    require (src + n ≤ dst || dst + n ≤ src)
    return { m with data := blit m.data dst xs }

/-- mutable_fws_multimap.h:573-581 `release_bucket`: the free entry pushed (the caller zeroes the capacity). -/
def Map.release (W : Nat) (m : Map α) (x : Ix) : Res (Map α) :=
  if x.c = 0 then .ok m else do
    let o ← getOrder W x.c
    match m.free[o]? with
    | some fl => .ok { m with free := m.free.set o (fl ++ [{ x with s := 0 }]) }
    | none => .error .ub

/-- mutable_fws_multimap.h:557-571 `get_free_bucket`: pop the last entry of the order's list. -/
def Map.popFree (m : Map α) (o : Nat) : Res (Option (Ix × Map α)) :=
  match m.free[o]? with
  | none => .error .ub
  | some fl => match fl.getLast? with
    | none => .ok none
    | some x => .ok (some (x, { m with free := m.free.set o fl.dropLast }))

def Map.setIx (m : Map α) (i : Nat) (x : Ix) : Map α := { m with index := m.index.set i x }

/-- mutable_fws_multimap.h:530-538: a bucket of the requested order is reused. -/
def Map.growReuse (W : Nat) (m : Map α) (i : Nat) (old fb : Ix) : Res (Map α) :=
  if old.c = 0 then .ok (m.setIx i ⟨fb.b, old.s, fb.c⟩)
  else do
    let m ← m.moveEntries old.b fb.b old.s
    let m ← m.release W old
    return m.setIx i ⟨fb.b, old.s, fb.c⟩

/-- mutable_fws_multimap.h:539-554: extend the last bucket or allocate at the end; `dflt` is `T{}`. -/
def Map.growEnd (W : Nat) (dflt : α) (m : Map α) (i : Nat) (old : Ix) (cap : Nat) : Res (Map α) :=
  if old.b + old.c = m.data.length then
    .ok ({ m with data := m.data ++ List.replicate (cap - old.c) dflt }.setIx i ⟨old.b, old.s, cap⟩)
  else do
    let nb := m.data.length
    let m ← { m with data := m.data ++ List.replicate cap dflt }.moveEntries old.b nb old.s
    let m := m.setIx i ⟨nb, old.s, cap⟩
    m.release W old

/-- mutable_fws_multimap.h:513-555 `grow_bucket(map_index, idx, requested_capacity)`. -/
def Map.grow (W K : Nat) (dflt : α) (m : Map α) (i req : Nat) : Res (Map α) := do
  let old ← m.ix i
  let cap := newCapacity W req
  let order ← getOrder W cap
  verify (order ≤ K)
  match ← m.popFree order with
  | some (fb, m) => m.growReuse W i old fb
  | none => m.growEnd W dflt i old cap

/-- mutable_fws_multimap.h:160-165 `bucket::reserve`. -/
def Map.reserve (W K : Nat) (dflt : α) (m : Map α) (i n : Nat) : Res (Map α) := do
  let x ← m.ix i
  if x.c < n then m.grow W K dflt i n else return m

/-- mutable_fws_multimap.h:500-502. -/
def Map.growIfFull (W K : Nat) (dflt : α) (m : Map α) (i : Nat) (x : Ix) : Res (Map α) :=
  if x.s = x.c then m.grow W K dflt i (x.c + 1) else .ok m

/-- mutable_fws_multimap.h:134-144, 496-511, 602-616 `push_back`, `emplace_back`. -/
def Map.pushBack (W K : Nat) (dflt : α) (m : Map α) (i : Nat) (v : α) : Res (Map α) := do
  let x ← m.ix i
  let m ← m.growIfFull W K dflt i x
  let x ← m.ix i
  require (x.b + x.s < m.data.length)
  return { m.setIx i { x with s := x.s + 1 } with data := m.data.set (x.b + x.s) v, count := m.count + 1 }

/-- mutable_fws_multimap.h:146-158, 249-259 `insert(begin() + pos, v)`. -/
def Map.insert (W K : Nat) (dflt : α) (m : Map α) (i pos : Nat) (v : α) : Res (Map α) := do
  let x ← m.ix i
  let m ← m.reserve W K dflt i (x.s + 1)
  let x ← m.ix i
  require (pos ≤ x.s)
  let tail ← m.slice (x.b + pos) (x.s - pos)
  require (x.b + x.s + 1 ≤ m.data.length)
  return { m.setIx i { x with s := x.s + 1 } with
    data := (blit m.data (x.b + pos + 1) tail).set (x.b + pos) v, count := m.count + 1 }

/-- mutable_fws_multimap.h:180-182: assign `v` to `n` positions from `p`; each position is cast to `unsigned`. -/
def fillLoop : Nat → List α → Nat → α → Res (List α)
  | 0, d, _, _ => .ok d
  | n + 1, d, p, v => do
    require (p % 2 ^ 32 < d.length)
    fillLoop n (d.set (p % 2 ^ 32) v) (p + 1) v

/-- mutable_fws_multimap.h:167-186 `resize(n, v)`. -/
def Map.resize (W K : Nat) (dflt : α) (m : Map α) (i n : Nat) (v : α) : Res (Map α) := do
  let old ← m.ix i
  let m ← m.reserve W K dflt i n
  let x ← m.ix i
  if n < old.s then
    return { m.setIx i { x with s := n } with count := m.count - (old.s - n) }
  else do
    let d ← fillLoop (n - old.s) m.data (x.b + old.s) v
    return { m.setIx i { x with s := n } with data := d, count := m.count + (n - old.s) }

/-- mutable_fws_multimap.h:188-193 `pop_back`. -/
def Map.popBack (W K : Nat) (dflt : α) (m : Map α) (i : Nat) : Res (Map α) := do
  let x ← m.ix i
  if x.s = 0 then return m else m.resize W K dflt i (x.s - 1) dflt

/-- mutable_fws_multimap.h:195-204 `bucket::clear`. -/
def Map.clearBucket (m : Map α) (i : Nat) : Res (Map α) := do
  let x ← m.ix i
  return { m.setIx i { x with s := 0 } with count := m.count - x.s }

/-- `std::swap(data[p], data[p + 1])`. -/
def swapNext (d : List α) (p : Nat) : List α :=
  match d[p]?, d[p + 1]? with
  | some a, some b => (d.set p b).set (p + 1) a
  | _, _ => d

/-- mutable_fws_multimap.h:208-212: the swap loop, `n` iterations. -/
def swapLoop : Nat → List α → Nat → List α
  | 0, d, _ => d
  | n + 1, d, p => swapLoop n (swapNext d p) (p + 1)

/-- mutable_fws_multimap.h:206-217 `erase(begin() + pos)`. -/
def Map.erase (m : Map α) (i pos : Nat) : Res (Map α) := do
  let x ← m.ix i
  require (pos < x.s && x.b + x.s ≤ m.data.length)
  return { m.setIx i { x with s := x.s - 1 } with
    data := swapLoop (x.s - 1 - pos) m.data (x.b + pos), count := m.count - 1 }

/-- mutable_fws_multimap.h:219-231 `erase(begin() + p, begin() + q)`. -/
def Map.eraseRange (m : Map α) (i p q : Nat) : Res (Map α) := do
  let x ← m.ix i
  require (p ≤ q && q ≤ x.s)
  if p = q then return m
  else do
    let tail ← m.slice (x.b + q) (x.s - q)
    return { m.setIx i { x with s := x.s - (q - p) } with
      data := blit m.data (x.b + p) tail, count := m.count - (q - p) }

/-- mutable_fws_multimap.h:92-94, 121-124 `m[i][j] = v`. -/
def Map.write (m : Map α) (i j : Nat) (v : α) : Res (Map α) := do
  let x ← m.ix i
  require (j < x.s && x.b + j < m.data.length)
  return { m with data := m.data.set (x.b + j) v }

/-- vector.h:315-321 `index_.resize(n)`; the parameter is a `uint32_t`. -/
def Map.resizeIndex (m : Map α) (n : Nat) : Map α :=
  { m with index := m.index.take (n % 2 ^ 32) ++
      List.replicate (n % 2 ^ 32 - m.index.length) ⟨0, 0, 0⟩ }

/-- mutable_fws_multimap.h:387-392 `operator[]` (non-const): grow `index_`; `index + 1U` in `size_type`. -/
def Map.touch (W : Nat) (m : Map α) (k : Nat) : Map α :=
  if m.index.length ≤ k then m.resizeIndex ((k + 1) % 2 ^ W) else m

/-- mutable_fws_multimap.h:423-430 `get_or_create`. -/
def Map.getOrCreate (W : Nat) (m : Map α) (k : Nat) : Res (Map α) := do
  verify (k ≠ 2 ^ W - 1)
  if m.index.length ≤ k + 1 then return m.resizeIndex (k + 1) else return m

/-- mutable_fws_multimap.h:432-436, 573-581 `erase(i)`. -/
def Map.eraseKey (W : Nat) (m : Map α) (i : Nat) : Res (Map α) :=
  match m.index[i]? with
  | none => .ok m
  | some x => if x.c = 0 then .ok m else do
    let m ← m.release W x
    return m.setIx i ⟨x.b, 0, 0⟩

/-- mutable_fws_multimap.h:487-494 `clear`. -/
def Map.clear (m : Map α) : Map α := ⟨[], [], m.free.map fun _ => [], 0⟩

/-! ## Observers -/

/-- mutable_fws_multimap.h:68-82: iterate over bucket `i`. -/
def Map.contents (m : Map α) (i : Nat) : Res (List α) := do
  let x ← m.ix i
  m.slice x.b x.s

/-- mutable_fws_multimap.h:100-106, 240-247 `bucket.at(j)`. -/
def Map.bucketAt (m : Map α) (i j : Nat) : Res α := do
  let x ← m.ix i
  verify (j < x.s)
  match m.data[x.b + j]? with
  | some v => .ok v
  | none => .error .ub

/-- mutable_fws_multimap.h:399-413 `at(i)`, then iterate. -/
def Map.at (m : Map α) (i : Nat) : Res (List α) := do
  verify (i < m.index.length)
  m.contents i

/-- mutable_fws_multimap.h:286-312, 460-467: iterate over all buckets. -/
def Map.iterate (m : Map α) : Res (List (List α)) := (List.range m.index.length).mapM m.at

end Cista.MM
