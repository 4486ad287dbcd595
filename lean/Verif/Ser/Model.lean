import Verif.Bytes
import Verif.Target.Model
import Verif.HS.Check

/-!
# Serialization and deserialization

Model of `serialization.h` over byte memory, for a universe of types built from integers, trivially copied data, pointers, vectors,
strings, unique pointers, hash tables, optionals, variants, arrays, `indexed` and aggregates.

Simplifications (all stated here once):
* Memory is a total map from addresses to bytes.  The serializer reads the source value through it; the deserializer may only
  touch the buffer, every other access is `Err.ub`.  Accesses that are not aligned for their type are `Err.ub` as well.
* Byte order conversion is reversal of the bytes of an object (proved equal to `convert_endian` in `Bytes.lean`).
* `pos & (alignment - 1)` is written `pos % alignment` (alignments are powers of two).
* The target is an abstract buffer with aligned append and bounds-checked patch (the specification in `Target/Props.lean`, which `buf` and
  `file` refine: C44).
* Struct layouts of aggregates, tuples, pairs and variants are parameters (chosen by the compiler) constrained by `Ty.WF`.
* `std::chrono` values, `strong`, and bool members are integers of their width; `bitset` is an array of 64 bit integers; `pair`,
  `tuple` and `dynamic_fws_multimap_base` are aggregates; floating point numbers, enums and unions are `blob`s.
* Strings have one byte characters.
* The slot counter at serialization.h:371 (32 bit) does not wrap: a table has fewer than 2^32 slots.
* A null control pointer, which only data loaded without checks can have, is `Err.ub` when the table is iterated.
-/
namespace Cista.Ser

open Cista.Target (alignUp)

/-- Byte memory. -/
abbrev Mem := Nat → Byte

/-- The `n` bytes at address `a`. -/
def rd (m : Mem) (a n : Nat) : List Byte := (List.range n).map fun i => m (a + i)

/-- Store bytes at address `a`. -/
def wr (m : Mem) (a : Nat) (bs : List Byte) : Mem :=
  fun x => if a ≤ x ∧ x < a + bs.length then bs.getD (x - a) 0#8 else m x

/-! ## Types -/

/-- Pointee of a pointer member: `void`, or an object type given by a number (resolved by a table, so that pointer graphs may be
cyclic). -/
inductive Pointee where
  | void
  | obj (n : Nat)
  deriving DecidableEq, Repr

/-- The supported types. -/
inductive Ty where
  /-- an integer of `w` bytes (`std::numeric_limits<T>::is_integer`) -/
  | int (w : Nat)
  /-- scalar or union that is copied without conversion: serialization.h:139-141, 157-160 -/
  | blob (size align : Nat)
  /-- pointer member (`T*` or `offset_ptr<T>`) -/
  | ptr (p : Pointee)
  /-- `basic_vector<T, Ptr, Indexed, TemplateSizeType>` with `sw = sizeof(TemplateSizeType)` -/
  | vec (sw : Nat) (indexed : Bool) (t : Ty)
  /-- `generic_string<Ptr>` with one byte characters -/
  | str
  /-- `basic_unique_ptr<T, Ptr>` -/
  | uptr (t : Ty)
  /-- `hash_storage<T, Ptr, ...>` (hash maps and sets) with entries `T` -/
  | hash (t : Ty)
  /-- `optional<T>` -/
  | opt (t : Ty)
  /-- `variant<T...>`: index width, storage offset, size, alignment, alternatives -/
  | var (ib so size align n : Nat) (t : Fin n → Ty)
  /-- `array<T, n>` -/
  | arr (n : Nat) (t : Ty)
  /-- `indexed<T>` -/
  | idx (t : Ty)
  /-- aggregate with explicit field offsets -/
  | agg (size align n : Nat) (off : Fin n → Nat) (t : Fin n → Ty)

namespace Ty

/-- `alignof`.  vector.h:446-452, string.h:425-446, unique_ptr.h:76-80, hash_storage.h:671-674 hold an 8 byte pointer; optional.h:79-80. -/
def alignof : Ty → Nat
  | int w => w
  | blob _ al => al
  | ptr _ => 8
  | vec _ _ _ => 8
  | str => 8
  | uptr _ => 8
  | hash _ => 8
  | opt t => alignof t
  | var _ _ _ al _ _ => al
  | arr _ t => alignof t
  | idx t => alignof t
  | agg _ al _ _ _ => al

/-- `sizeof` (= `serialized_size`, include/cista/serialized_size.h). -/
def sizeof : Ty → Nat
  | int w => w
  | blob s _ => s
  | ptr _ => 8
  | vec sw _ _ => 16 + 2 * sw
  | str => 16
  | uptr _ => 16
  | hash _ => 48
  | opt t => alignof t + sizeof t
  | var _ _ s _ _ _ => s
  | arr n t => n * sizeof t
  | idx t => sizeof t
  | agg s _ _ _ _ => s

/-- Layouts a C++ implementation may choose. -/
def WF : Ty → Prop
  | int w => w = 1 ∨ w = 2 ∨ w = 4 ∨ w = 8
  | blob s al => 0 < s ∧ 0 < al ∧ al ∣ s
  | ptr _ => True
  | vec sw _ t => (sw = 4 ∨ sw = 8) ∧ t.WF
  | str => True
  | uptr t => t.WF
  | hash t => t.WF
  | opt t => t.WF
  | var ib so s al n t => (ib = 1 ∨ ib = 2) ∧ n < 256 ^ ib ∧ ib ≤ so ∧ 0 < al ∧ al ∣ s ∧ ib ∣ al ∧ so ≤ s ∧ 0 < s ∧
      ∀ i, (t i).WF ∧ so + (t i).sizeof ≤ s ∧ (t i).alignof ∣ so ∧ (t i).alignof ∣ al
  | arr n t => 0 < n ∧ t.WF
  | idx t => t.WF
  | agg s al n off t => 0 < s ∧ 0 < al ∧ al ∣ s ∧
      (∀ i, (t i).WF ∧ off i + (t i).sizeof ≤ s ∧ (t i).alignof ∣ off i ∧ (t i).alignof ∣ al) ∧
      ∀ i j, i < j → off i + (t i).sizeof ≤ off j

end Ty

/-- Run `f` for `i, i+1, …, i+k-1`, in order. -/
def forFrom {σ : Type} (f : Nat → σ → Res σ) : (i k : Nat) → σ → Res σ
  | _, 0, s => .ok s
  | i, k + 1, s => do
    let s' ← f i s
    forFrom f (i + 1) k s'

/-! ## Scalars -/

/-- Byte order conversion of one object, serialization.h:70-77 of endian/conversion.h at the byte level. -/
def cv (conv : Bool) (bs : List Byte) : List Byte := if conv then bs.reverse else bs

/-- Two's complement value of a 64 bit word. -/
def toS64 (v : Nat) : Int := if v % 2 ^ 64 < 2 ^ 63 then ((v % 2 ^ 64 : Nat) : Int) else ((v % 2 ^ 64 : Nat) : Int) - 2 ^ 64

/-- 64 bit word of an integer. -/
def toU64 (i : Int) : Nat := (i % 2 ^ 64).toNat

/-- Bytes of an `offset_t`/`intptr_t`. -/
def encI (h : Endian) (i : Int) : List Byte := hostBytes h 8 (toU64 i)

/-- Value of an `offset_t`/`intptr_t`. -/
def decI (h : Endian) (bs : List Byte) : Int := toS64 (ofHost h bs)

/-- include/cista/offset_t.h:12 `NULLPTR_OFFSET`. -/
def NULLO : Int := -(2 ^ 63)

/-- Unsigned value of `n` bytes. -/
def rdN (h : Endian) (m : Mem) (a n : Nat) : Nat := ofHost h (rd m a n)

/-- The object designated by the pointer object at `a` in a live value: raw pointers hold the address, offset pointers
(offset_ptr.h:69-75) a distance. -/
def ptrAt (h : Endian) (raw : Bool) (m : Mem) (a : Nat) : Option Nat :=
  if raw then
    if rdN h m a 8 = 0 then none else some (rdN h m a 8)
  else
    if decI h (rd m a 8) = NULLO then none
    else if (a : Int) + decI h (rd m a 8) ≤ 0 then none
    else some ((a : Int) + decI h (rd m a 8)).toNat

/-! ## Serializer -/

/-- What the serializer is instantiated with: host byte order, whether bytes are swapped, kind of pointers, source memory. -/
structure SEnv where
  host : Endian
  conv : Bool
  raw : Bool
  mem : Mem

/-- serialization.h:57-134 `serialization_context` and the target: length and bytes written so far, `offsets_` (newest first),
`vector_ranges_` (address, start, size; a missing start is `NULLPTR_OFFSET`), `pending_` (origin, position). -/
structure Ctx where
  len : Nat
  buf : Mem
  offs : List (Nat × Nat)
  rngs : List (Nat × Nat × Nat)
  pend : List (Nat × Nat)

/-- serialization.h:68-71 `write(ptr, size, alignment)`: aligned append, returns the position. -/
def put (c : Ctx) (bs : List Byte) (al : Nat) : Ctx × Nat :=
  let pos := if al > 1 then alignUp c.len al else c.len
  ({ c with len := pos + bs.length, buf := wr c.buf pos bs }, pos)

/-- serialization.h:73-76 `write(pos, val)`; targets/buf.h:33-37. -/
def patch (c : Ctx) (pos : Nat) (bs : List Byte) : Res Ctx := do
  verify (decide (pos + bs.length ≤ c.len))
  .ok { c with buf := wr c.buf pos bs }

/-- Patch a converted offset. -/
def patchOff (e : SEnv) (c : Ctx) (pos : Nat) (o : Int) : Res Ctx := patch c pos (cv e.conv (encI e.host o))

/-- serialization.h:116-120 `std::prev(vector_ranges_.upper_bound(ptr))`: the range with the greatest start address not above
`x`. -/
def predRange (x : Nat) : List (Nat × Nat × Nat) → Option (Nat × Nat × Nat)
  | [] => none
  | r :: rs =>
    match predRange x rs with
    | none => if r.1 ≤ x then some r else none
    | some r' => if r.1 ≤ x ∧ r'.1 ≤ r.1 then some r else some r'

/-- serialization.h:111-124 `resolve_vector_range_ptr` with 39-55 `contains`, `offset_of`. -/
def resolveRange (c : Ctx) (x : Nat) : Option Nat :=
  match predRange x c.rngs with
  | none => none
  | some (b, s, n) => if x < b + n then some (s + (x - b)) else none

/-- `offsets_.find`. -/
def findOff (x : Nat) : List (Nat × Nat) → Option Nat
  | [] => none
  | p :: ps => if p.1 = x then some p.2 else findOff x ps

/-- serialization.h:95-102: the position a pointer target has been written to. -/
def resolved (c : Ctx) (x : Nat) : Option Nat :=
  match findOff x c.offs with
  | some y => some y
  | none => resolveRange c x

/-- serialization.h:84-109 `resolve_pointer` for a pointer member at `pos` with target `x` (`add_pending = true`). -/
def resolvePtr (e : SEnv) (c : Ctx) (p : Pointee) (x : Option Nat) (pos : Nat) : Res Ctx :=
  match p, x with
  | .void, _ => patchOff e c pos NULLO
  | _, none => patchOff e c pos NULLO
  | _, some x =>
    match resolved c x with
    | some y => patchOff e c pos ((y : Int) - pos)
    | none => do
      let c ← patchOff e c pos NULLO
      .ok { c with pend := c.pend ++ [(x, pos)] }

/-- `offsets_.emplace(origin, pos)` (serialization.h:145): keeps an existing entry. -/
def regNew (c : Ctx) (x pos : Nat) : Ctx :=
  match findOff x c.offs with
  | some _ => c
  | none => { c with offs := (x, pos) :: c.offs }

/-- `offsets_[x] = pos` (serialization.h:321): replaces an existing entry. -/
def regSet (c : Ctx) (x pos : Nat) : Ctx := { c with offs := (x, pos) :: c.offs }

/-- `vector_ranges_.emplace(x, {start, size})` (serialization.h:189): keeps an existing entry. -/
def regRange (c : Ctx) (x start size : Nat) : Ctx :=
  if (c.rngs.map (·.1)).contains x then c else { c with rngs := (x, start, size) :: c.rngs }

/-- serialization.h:176-185: the header members of a vector at `pos`. -/
def vecHeader (e : SEnv) (sw a pos : Nat) (start : Option Nat) (c : Ctx) : Res Ctx := do
  let c ← patchOff e c pos (match start with | none => NULLO | some s => (s : Int) - pos)
  let c ← patch c (pos + 8 + sw) (cv e.conv (rd e.mem (a + 8) sw))
  let c ← patch c (pos + 8) (cv e.conv (rd e.mem (a + 8) sw))
  patch c (pos + 8 + 2 * sw) [0#8]

/-- serialization.h:223-239: a long string at `a`. -/
def serLong (e : SEnv) (a pos : Nat) (c : Ctx) : Res Ctx :=
  match ptrAt e.host e.raw e.mem (a + 8) with
  | none => do
    let c ← patchOff e c (pos + 8) NULLO
    let c ← patch c (pos + 4) (cv e.conv (rd e.mem (a + 4) 4))
    patch c (pos + 1) [0#8]
  | some d => do
    let r := put c (rd e.mem d (rdN e.host e.mem (a + 4) 4)) 0
    let c ← patchOff e r.1 (pos + 8) ((r.2 : Int) - 8 - pos)
    let c ← patch c (pos + 4) (cv e.conv (rd e.mem (a + 4) 4))
    patch c (pos + 1) [0#8]

/-- serialization.h:202-240 `serialize(generic_string)`; reading `is_short_` needs a valid bool. -/
def serStr (e : SEnv) (a pos : Nat) (c : Ctx) : Res Ctx :=
  if e.mem a = 1#8 then .ok c
  else if e.mem a = 0#8 then serLong e a pos c
  else .error .ub

/-- hash_storage.h:226-231 `empty_group`. -/
def emptyGroup : List Byte := HS.emptyGroup.map (BitVec.ofNat 8)

/-- serialization.h:350-368: the header members of a hash table at `pos`: positions of the entries and of the control bytes. -/
def hashHeader (e : SEnv) (a pos : Nat) (start : Option Nat) (ctrl : Nat) (c : Ctx) : Res Ctx := do
  let c ← patchOff e c pos (match start with | none => NULLO | some s => (s : Int) - pos)
  let c ← patchOff e c (pos + 8) ((ctrl : Int) - 8 - pos)
  let c ← patch c (pos + 40) [0#8]
  let c ← patch c (pos + 16) (cv e.conv (rd e.mem (a + 16) 8))
  let c ← patch c (pos + 24) (cv e.conv (rd e.mem (a + 24) 8))
  patch c (pos + 32) (cv e.conv (rd e.mem (a + 32) 8))

/-- serialization.h:137-460 `serialize(c, origin, pos)`: `a` is the address of `origin`. -/
def ser (e : SEnv) : Ty → (a pos : Nat) → Ctx → Res Ctx
  -- 155-156
  | .int w, a, pos, c => patch c pos (cv e.conv (rd e.mem a w))
  -- 139-141, 157-160
  | .blob _ _, _, _, c => .ok c
  -- 142-143
  | .ptr p, a, pos, c => resolvePtr e c p (ptrAt e.host e.raw e.mem a) pos
  -- 163-200
  | .vec sw indexed t, a, pos, c =>
    match ptrAt e.host e.raw e.mem a, rdN e.host e.mem (a + 8) sw with
    | none, 0 => vecHeader e sw a pos none c
    | none, _ + 1 => .error .ub
    -- an empty vector with storage registers an empty range, which never resolves anything
    | some _, 0 => vecHeader e sw a pos none c
    | some el, n + 1 => do
      let r := put c (rd e.mem el ((n + 1) * t.sizeof)) t.alignof
      let c ← vecHeader e sw a pos (some r.2) r.1
      let c := if indexed then regRange c el r.2 ((n + 1) * t.sizeof) else c
      forFrom (fun i c => ser e t (el + i * t.sizeof) (r.2 + i * t.sizeof) c) 0 (n + 1) c
  -- 202-240
  | .str, a, pos, c => serStr e a pos c
  -- 303-324
  | .uptr t, a, pos, c =>
    match ptrAt e.host e.raw e.mem a with
    | none => do
      let c ← patchOff e c pos NULLO
      patch c (pos + 8) [0#8]
    | some el => do
      let r := put c (rd e.mem el t.sizeof) t.alignof
      let c ← patchOff e r.1 pos ((r.2 : Int) - pos)
      let c ← patch c (pos + 8) [0#8]
      ser e t el r.2 (regSet c el r.2)
  -- 326-381
  | .hash t, a, pos, c =>
    match ptrAt e.host e.raw e.mem a with
    | none => do
      let r := put c emptyGroup 1
      hashHeader e a pos none r.2 r.1
    | some el => do
      let r := put c (rd e.mem el (rdN e.host e.mem (a + 24) 8 * t.sizeof + (rdN e.host e.mem (a + 24) 8 + 1 + 8))) t.alignof
      let c ← hashHeader e a pos (some r.2) (r.2 + rdN e.host e.mem (a + 24) 8 * t.sizeof) r.1
      match ptrAt e.host e.raw e.mem (a + 8) with
      | none => .error .ub
      | some ct =>
        forFrom (fun i c =>
          if HS.isFull (e.mem (ct + i)).toNat then ser e t (el + i * t.sizeof) (r.2 + i * t.sizeof) c else .ok c)
          0 (rdN e.host e.mem (a + 24) 8) c
  -- 434-441
  | .opt t, a, pos, c =>
    if e.mem a = 1#8 then ser e t (a + t.alignof) (pos + t.alignof) c
    else if e.mem a = 0#8 then .ok c
    else .error .ub
  -- 425-432; `apply` throws for an index outside of the alternatives' range (variant.h:219-226)
  | .var ib so _ _ n t, a, pos, c => do
    let c ← patch c pos (cv e.conv (rd e.mem a ib))
    if h : rdN e.host e.mem a ib < n then ser e (t ⟨rdN e.host e.mem a ib, h⟩) (a + so) (pos + so) c
    else .error .exn
  -- 401-409
  | .arr n t, a, pos, c => forFrom (fun i c => ser e t (a + i * t.sizeof) (pos + i * t.sizeof) c) 0 n c
  -- 144-146
  | .idx t, a, pos, c => ser e t a pos (regNew c a pos)
  -- 147-154; pairs 411-423, tuples 443-454
  | .agg _ _ n off t, a, pos, c =>
    forFrom (fun i c => if h : i < n then ser e (t ⟨i, h⟩) (a + off ⟨i, h⟩) (pos + off ⟨i, h⟩) c else .ok c) 0 n c

/-- serialization.h:511-516: the second attempt at the pending pointers (`add_pending = false`); unresolvable ones only print. -/
def resolvePending (e : SEnv) : List (Nat × Nat) → Ctx → Res Ctx
  | [], c => .ok c
  | (x, pos) :: ps, c =>
    match resolved c x with
    | some y => do
      let c ← patchOff e c pos ((y : Int) - pos)
      resolvePending e ps c
    | none => resolvePending e ps c

/-- serialization.h:507-516 after the headers `hdr` (version and checksum words): root object, members, pending pointers.
Returns the context and the position of the root. -/
def serRoot (e : SEnv) (t : Ty) (a : Nat) (hdr : List Byte) : Res (Ctx × Nat) := do
  let c0 := (put ⟨0, fun _ => 0#8, [], [], []⟩ hdr 0).1
  let r := put c0 (rd e.mem a t.sizeof) t.alignof
  let c ← ser e t a r.2 r.1
  let c' ← resolvePending e c.pend c
  .ok (c', r.2)

/-! ## Deserializer -/

/-- What the deserializer is instantiated with: byte order, conversion, pointer kind, `UNCHECKED`; whether signed overflow in
`offset_ptr::get` counts as undefined behaviour (`strict`) or wraps; `from_`, `to_`; size and alignment of the pointees. -/
structure DEnv where
  host : Endian
  conv : Bool
  raw : Bool
  unchecked : Bool
  strict : Bool
  lo : Nat
  hi : Nat
  obj : Nat → Nat × Nat
  /-- type hashes of the pointer types, used by the deep check -/
  key : Nat → BitVec 64

/-- Read an object of `n` bytes with alignment `al` in the buffer. -/
def ld (d : DEnv) (m : Mem) (a n al : Nat) : Res (List Byte) :=
  if d.lo ≤ a ∧ a + n ≤ d.hi ∧ a % al = 0 then .ok (rd m a n) else .error .ub

/-- Write an object with alignment `al` in the buffer. -/
def st (d : DEnv) (m : Mem) (a al : Nat) (bs : List Byte) : Res Mem :=
  if d.lo ≤ a ∧ a + bs.length ≤ d.hi ∧ a % al = 0 then .ok (wr m a bs) else .error .ub

/-- `intptr_t`/`offset_t`. -/
def i64 : Arith.IntTy := ⟨64, true⟩
/-- `std::size_t`. -/
def u64 : Arith.IntTy := ⟨64, false⟩

/-- serialization.h:574-579 `convert_endian` on an integer member of width `w`. -/
def convInt (d : DEnv) (a w : Nat) (m : Mem) : Res Mem :=
  if d.conv then do
    let bs ← ld d m a w w
    st d m a w bs.reverse
  else .ok m

/-- Value of a pointer object at `a` (0 is null): raw pointer, or offset_ptr.h:69-75 `get()`. -/
def loadPtr (d : DEnv) (m : Mem) (a : Nat) : Res Int := do
  let bs ← ld d m a 8 8
  if d.raw then .ok (decI d.host bs)
  else if decI d.host bs = NULLO then .ok 0
  else if (a : Int) + decI d.host bs < 2 ^ 63 then .ok ((a : Int) + decI d.host bs)
  else if d.strict then .error .ub
  else .ok ((a : Int) + decI d.host bs - 2 ^ 64)

/-- serialization.h:612-635 `check_ptr(T* el, size)`; `al = 0` stands for `T = void`. -/
def checkAddr (d : DEnv) (x : Int) (size al : Nat) : Res Unit :=
  if d.unchecked then .ok ()
  else if x = 0 then .ok ()
  else do
    verify (decide ((d.lo : Int) ≤ x))
    let s ← Arith.checkedAddition i64 x [toS64 size]
    verify (decide (s ≤ (d.hi : Int)))
    verify (decide (size < 2 ^ 63 - 1))
    verify (decide (al = 0 ∨ x % al = 0))

/-- serialization.h:603-610 `check_ptr(offset_ptr<T> const&, size)` resp. 612-635 on a raw pointer member at `a`.  `el != nullptr`
goes through `get()` for `T ≠ void`, and compares the stored offset for `void` (offset_ptr.h:155-166). -/
def checkPtrAt (d : DEnv) (m : Mem) (a size al : Nat) : Res Unit :=
  if d.raw then do
    let x ← loadPtr d m a
    checkAddr d x size al
  else if al = 0 then do
    let bs ← ld d m a 8 8
    if decI d.host bs = NULLO then .ok ()
    else do
      let _ ← Arith.checkedAddition i64 (decI d.host bs) [(a : Int)]
      let x ← loadPtr d m a
      checkAddr d x size al
  else do
    let x ← loadPtr d m a
    if x = 0 then .ok ()
    else do
      let bs ← ld d m a 8 8
      let _ ← Arith.checkedAddition i64 (decI d.host bs) [(a : Int)]
      let x ← loadPtr d m a
      checkAddr d x size al

/-- serialization.h:581-591 `deserialize_ptr` on a raw pointer, 761-765 on an offset pointer. -/
def convPtr (d : DEnv) (a : Nat) (m : Mem) : Res Mem :=
  if d.raw then do
    let bs ← ld d m a 8 8
    if decI d.host (cv d.conv bs) = NULLO then st d m a 8 (encI d.host 0)
    else do
      let p ← Arith.checkedAddition i64 (a : Int) [decI d.host (cv d.conv bs)]
      st d m a 8 (encI d.host p)
  else convInt d a 8 m

/-- serialization.h:736-746 `deserialize` of a pointer member at `a` whose pointee has the given size and alignment (0 for
`void`); 706-715, 767-770: a raw `void*` is not checked. -/
def deserPtr (d : DEnv) (size al a : Nat) (m : Mem) : Res Mem := do
  checkAddr d a 8 8
  let m ← convPtr d a m
  if d.unchecked || (d.raw && al == 0) then .ok m
  else do
    checkPtrAt d m a size al
    .ok m

/-- Read an unsigned member. -/
def ldN (d : DEnv) (m : Mem) (a w : Nat) : Res Nat := do
  let bs ← ld d m a w w
  .ok (ofHost d.host bs)

/-- serialization.h:637-640 `check_bool`. -/
def checkBool (d : DEnv) (m : Mem) (a : Nat) : Res Unit := do
  let b ← ldN d m a 1
  verify (decide (b ≤ 1))

/-- serialization.h:637-640, 803: a `self_allocated_` flag must be a valid bool and false. -/
def checkNotOwned (d : DEnv) (m : Mem) (a : Nat) : Res Unit := do
  checkBool d m a
  let b ← ldN d m a 1
  verify (decide (b = 0))

/-- serialization.h:795-806 `check_state(basic_vector)`. -/
def checkVec (d : DEnv) (sw size al a : Nat) (m : Mem) : Res Unit := do
  let n ← ldN d m (a + 8 + sw) sw
  let bytes ← Arith.checkedMultiplication u64 n [(size : Int)]
  checkPtrAt d m a bytes.toNat al
  checkNotOwned d m (a + 8 + 2 * sw)
  let used ← ldN d m (a + 8) sw
  verify (decide (n = used))
  let x ← loadPtr d m a
  verify (decide ((used = 0) ↔ (x = 0)))

/-- serialization.h:817-824 `convert_endian_and_ptr(generic_string)`. -/
def convStr (d : DEnv) (a : Nat) (m : Mem) : Res Mem := do
  let b ← ldN d m a 1
  if b = 0 then do
    let m ← deserPtr d 1 1 (a + 8) m
    convInt d (a + 4) 4 m
  else .ok m

/-- serialization.h:826-837 `check_state(generic_string)`. -/
def checkStr (d : DEnv) (a : Nat) (m : Mem) : Res Unit := do
  checkBool d m a
  let b ← ldN d m a 1
  if b = 0 then do
    let n ← ldN d m (a + 4) 4
    checkPtrAt d m (a + 8) n 1
    checkNotOwned d m (a + 1)
    let x ← loadPtr d m (a + 8)
    verify (decide ((n = 0) ↔ (x = 0)))
  else .ok ()

/-- Run a check unless `UNCHECKED` (serialization.h:742-744). -/
def chk (u : Bool) (r : Res Unit) : Res Unit := if u then .ok () else r

/-- An address to recurse into. -/
def toAddr (x : Int) : Res Nat := if x ≤ 0 then .error .ub else .ok x.toNat

/-- serialization.h:926-989 `check_state(hash_storage)`; the conditions on the control bytes are `HS.checkState`. -/
def checkHash (d : DEnv) (size al a : Nat) (m : Mem) : Res Unit := do
  let ct ← loadPtr d m (a + 8)
  verify (decide (ct ≠ 0))
  let cap ← ldN d m (a + 24) 8
  let s1 ← Arith.checkedMultiplication u64 cap [(size : Int)]
  let s2 ← Arith.checkedAddition u64 cap [1, 8]
  let s ← Arith.checkedAddition u64 s1 [s2]
  checkPtrAt d m a s.toNat al
  checkPtrAt d m (a + 8) s2.toNat 1
  let en ← loadPtr d m a
  verify (decide (en = 0 ∨ ct = en + s1))
  let used ← ldN d m (a + 16) 8
  verify (decide ((en = 0) ↔ (cap = 0 ∧ used = 0)))
  checkNotOwned d m (a + 40)
  let c ← toAddr ct
  let bs ← ld d m c (cap + 9) 1
  let growth ← ldN d m (a + 32) 8
  HS.checkState (⟨bs.map BitVec.toNat, [], used, cap, growth, decide (en ≠ 0), false⟩ : HS.HS Nat Nat)

/-- hash_storage.h:180-186 `skip_empty_or_deleted` on the control bytes at `c`, from slot `i`; `0`: no progress. -/
def skipM (d : DEnv) (m : Mem) (c : Nat) : Nat → Nat → Res Nat
  | 0, _ => .error .diverge
  | f + 1, i => do
    let b ← ldN d m (c + i) 1
    if HS.isED b then do
      let w ← ld d m (c + i) 8 1
      skipM d m c f (i + HS.countED (w.map BitVec.toNat))
    else .ok i

/-- serialization.h:991-999 `for (auto& m : *el)` with the iterators of hash_storage.h:149-191: `body` for the slots from `i` until
`cap` is reached.  The control bytes are read from the memory as it is at that moment. -/
def hashIter {σ : Type} (d : DEnv) (mem : σ → Mem) (body : Nat → σ → Res σ) (c cap : Nat) : Nat → Nat → σ → Res σ
  | 0, _, _ => .error .diverge
  | f + 1, i, s =>
    if i = cap then .ok s
    else do
      let s ← body i s
      let j ← skipM d (mem s) c (d.hi + 1) (i + 1)
      hashIter d mem body c cap f j s

/-- serialization.h:991-999 `recurse(hash_storage)` on the table at `a` with entries of the given size: begin (hash_storage.h:451-457)
and the loop. -/
def hashFor {σ : Type} (d : DEnv) (mem : σ → Mem) (body : Nat → σ → Res σ) (size a : Nat) (s : σ) : Res σ := do
  let ct ← loadPtr d (mem s) (a + 8)
  let en ← loadPtr d (mem s) a
  let cap ← ldN d (mem s) (a + 24) 8
  let c ← toAddr ct
  let b ← skipM d (mem s) c (d.hi + 1) 0
  hashIter d mem (fun i s => do
    let el ← toAddr en
    body (el + i * size) s) c cap (d.hi + 1) b s

/-- Size and alignment of the pointee of a pointer member. -/
def pointee (d : DEnv) : Pointee → Nat × Nat
  | .void => (0, 0)
  | .obj n => d.obj n

/-- serialization.h:736-746 `deserialize(c, el)` for the object at `a` (first phase), with `convert_endian_and_ptr`,
`check_state` and `recurse` of each type. -/
def deser (d : DEnv) : Ty → Nat → Mem → Res Mem
  -- 698-699
  | .int w, a, m => do
    checkAddr d a w w
    convInt d a w m
  | .blob s al, a, m => do
    checkAddr d a s al
    .ok m
  -- 696-697, 709-710, 761-783
  | .ptr p, a, m => deserPtr d (pointee d p).1 (pointee d p).2 a m
  -- 785-815
  | .vec sw ix t, a, m => do
    checkAddr d a (Ty.vec sw ix t).sizeof 8
    let m ← deserPtr d t.sizeof t.alignof a m
    let m ← convInt d (a + 8 + sw) sw m
    let m ← convInt d (a + 8) sw m
    chk d.unchecked (checkVec d sw t.sizeof t.alignof a m)
    let x ← loadPtr d m a
    let n ← ldN d m (a + 8) sw
    if n = 0 then .ok m
    else do
      let el ← toAddr x
      forFrom (fun i m => deser d t (el + i * t.sizeof) m) 0 n m
  -- 817-849
  | .str, a, m => do
    checkAddr d a 16 8
    let m ← convStr d a m
    chk d.unchecked (checkStr d a m)
    .ok m
  -- 881-898
  | .uptr t, a, m => do
    checkAddr d a 16 8
    let m ← deserPtr d t.sizeof t.alignof a m
    chk d.unchecked (checkNotOwned d m (a + 8))
    let x ← loadPtr d m a
    if x = 0 then .ok m
    else do
      let el ← toAddr x
      deser d t el m
  -- 914-999
  | .hash t, a, m => do
    checkAddr d a 48 8
    let m ← deserPtr d t.sizeof t.alignof a m
    let m ← deserPtr d 1 1 (a + 8) m
    let m ← convInt d (a + 16) 8 m
    let m ← convInt d (a + 24) 8 m
    let m ← convInt d (a + 32) 8 m
    chk d.unchecked (checkHash d t.sizeof t.alignof a m)
    hashFor d (fun m => m) (fun x m => deser d t x m) t.sizeof a m
  -- 1031-1042
  | .opt t, a, m => do
    checkAddr d a (Ty.opt t).sizeof (Ty.opt t).alignof
    chk d.unchecked (checkBool d m a)
    let b ← ldN d m a 1
    if b = 0 then .ok m else deser d t (a + t.alignof) m
  -- 1015-1029; 1016-1019 is never selected (`Fn` cannot be deduced), the index is not converted
  | .var ib so s al n t, a, m => do
    checkAddr d a s al
    let i ← ldN d m a ib
    chk d.unchecked (verify (decide (i < n)))
    if h : i < n then deser d (t ⟨i, h⟩) (a + so) m else .error .exn
  -- 1007-1013
  | .arr n t, a, m => do
    checkAddr d a (Ty.arr n t).sizeof t.alignof
    forFrom (fun i m => deser d t (a + i * t.sizeof) m) 0 n m
  -- 720-721
  | .idx t, a, m => do
    checkAddr d a t.sizeof t.alignof
    deser d t a m
  -- 722-723, 748-759, 1044-1048
  | .agg s al n off t, a, m => do
    checkAddr d a s al
    forFrom (fun i m => if h : i < n then deser d (t ⟨i, h⟩) (a + off ⟨i, h⟩) m else .ok m) 0 n m

end Cista.Ser
