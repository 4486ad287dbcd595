import Verif.Bytes

/-!
# Hashing, chunking, checksums and the buffer header

Models of `hash.h` (FNV-1a configuration), `chunk.h`, the `checksum` members of the
targets, `hashing.h`, and of the header part of `serialization.h` (version/checksum).
-/
namespace Cista.Hash

open Cista.Arith (Mode)

/-- `hash_t`, include/cista/hash.h:111. -/
abbrev HashT := BitVec 64

/-- include/cista/hash.h:113 `BASE_HASH`. -/
def BASE_HASH : HashT := 14695981039346656037#64

/-- include/cista/hash.h:117 `fnv_prime`. -/
def fnvPrime : HashT := 1099511628211#64

/-- include/cista/hash.h:115-123 `hash_combine` with one argument, already cast to `hash_t`. -/
def hashCombine (h x : HashT) : HashT := (h ^^^ x) * fnvPrime

/-- include/cista/hash.h:125-131 `hash(std::string_view, hash_t)`: the loop over the characters,
each cast to `uint8_t`. -/
def fnv (h : HashT) (s : List Byte) : HashT :=
  s.foldl (fun h b => hashCombine h (b.setWidth 64)) h

/-- include/cista/chunk.h:8-19 `chunk`: the list of `(offset, curr_chunk_size)` passed to `fn`.
`chunk_size = 0` with something remaining never makes progress. -/
def chunkLoop (chunkSize offset remaining : Nat) : Res (List (Nat × Nat)) :=
  if _h : remaining = 0 then .ok []
  else if _hc : chunkSize = 0 then .error .diverge
  else do
    let curr := min remaining chunkSize
    let rest ← chunkLoop chunkSize (offset + curr) (remaining - curr)
    return (offset, curr) :: rest
termination_by remaining
decreasing_by omega

/-- include/cista/chunk.h:8-19 `chunk`. -/
def chunk (chunkSize total : Nat) : Res (List (Nat × Nat)) := chunkLoop chunkSize 0 total

/-- include/cista/targets/buf.h:27-31 `buf::checksum`: hash of everything from `start`;
`&buf_[start]` requires `start` to be a valid index. -/
def bufChecksum (content : List Byte) (start : Nat) : Res HashT := do
  require (start < content.length)
  return fnv BASE_HASH (content.drop start)

/-- Body of the block loop in include/cista/targets/file.h:266-269 (POSIX): read `s` bytes from
the current position (short reads throw) and continue the hash. -/
def checksumBlock (content : List Byte) (st : Nat × HashT) (s : Nat) : Res (Nat × HashT) := do
  let blk := (content.drop st.1).take s
  verify (blk.length = s)
  return (st.1 + s, fnv st.2 blk)

/-- include/cista/targets/file.h:258-271 `file::checksum` (POSIX), with the block size
(there 512 kB) as parameter; `size` is the cached `size_`. -/
def fileChecksum (blockSize : Nat) (content : List Byte) (size start : Nat) : Res HashT := do
  verify (start ≤ size)
  let cs ← chunk blockSize (size - start)
  let r ← cs.foldlM (fun st c => checksumBlock content st c.2) (start, BASE_HASH)
  return r.2

/-! ## Header of a serialized buffer -/

/-- include/cista/serialization.h:462-470 `integrity_start`. -/
def integrityStart (m : Mode) : Nat :=
  if Mode.isEnabled m Mode.WITH_VERSION || Mode.isEnabled m Mode.WITH_STATIC_VERSION ||
      Mode.isEnabled m Mode.SKIP_VERSION then 8 else 0

/-- include/cista/serialization.h:472-479 `data_start`. -/
def dataStart (m : Mode) : Nat :=
  integrityStart m +
    (if Mode.isEnabled m Mode.WITH_INTEGRITY || Mode.isEnabled m Mode.SKIP_INTEGRITY then 8 else 0)

/-- Read a `uint64_t` at a byte offset of the buffer (host order). -/
def readU64 (host : Endian) (b : List Byte) (off : Nat) : Res Nat := do
  require (off + 8 ≤ b.length)
  return ofHost host ((b.drop off).take 8)

/-- Version part of `check`, include/cista/serialization.h:671-680. -/
def checkVersion (host : Endian) (m : Mode) (typeHash staticHash : HashT) (b : List Byte) :
    Res Unit :=
  if Mode.isEnabled m Mode.WITH_VERSION then do
    let v ← readU64 host b 0
    verify (convertEndian host m 8 v = typeHash.toNat)
  else if Mode.isEnabled m Mode.WITH_STATIC_VERSION then do
    let v ← readU64 host b 0
    verify (convertEndian host m 8 v = staticHash.toNat)
  else .ok ()

/-- Checksum part of `check`, include/cista/serialization.h:682-689. -/
def checkIntegrity (host : Endian) (m : Mode) (b : List Byte) : Res Unit :=
  if Mode.isEnabled m Mode.WITH_INTEGRITY then do
    let v ← readU64 host b (integrityStart m)
    verify (convertEndian host m 8 v = (fnv BASE_HASH (b.drop (dataStart m))).toNat)
  else .ok ()

/-- include/cista/serialization.h:667-690 `check<T, Mode>`: minimum size, version, checksum.
`typeHash`/`staticHash` are `type_hash<T>()` / `static_type_hash<T>()`. -/
def check (host : Endian) (m : Mode) (typeHash staticHash : HashT) (b : List Byte) : Res Unit := do
  verify (b.length > dataStart m)
  checkVersion host m typeHash staticHash b
  checkIntegrity host m b

/-- Version bytes written at the start, include/cista/serialization.h:485-499. -/
def versionBytes (host : Endian) (m : Mode) (typeHash staticHash : HashT) : List Byte :=
  if Mode.isEnabled m Mode.WITH_VERSION then
    hostBytes host 8 (convertEndian host m 8 typeHash.toNat)
  else if Mode.isEnabled m Mode.WITH_STATIC_VERSION then
    hostBytes host 8 (convertEndian host m 8 staticHash.toNat)
  else []

/-- Checksum bytes: placeholder of line 503-504 overwritten at lines 518-522 by the checksum of
everything behind it (include/cista/serialization.h:501-522). -/
def checksumBytes (host : Endian) (m : Mode) (payload : List Byte) : List Byte :=
  if Mode.isEnabled m Mode.WITH_INTEGRITY then
    hostBytes host 8 (convertEndian host m 8 (fnv BASE_HASH payload).toNat)
  else []

/-- The finished buffer: header followed by the payload (root object and everything written
after it).  include/cista/serialization.h:481-523; the payload is produced by the recursive
serializer (modelled separately). -/
def finish (host : Endian) (m : Mode) (typeHash staticHash : HashT) (payload : List Byte) :
    List Byte :=
  versionBytes host m typeHash staticHash ++ checksumBytes host m payload ++ payload

/-! ## `hashing<T>` -/

/-- Textual key representations, include/cista/hashing.h:63-68 `is_string_like_v`. -/
inductive TextRepr where
  /-- `cista::basic_string`, `basic_string_view`, `std::string`, `std::string_view` -/
  | sized
  /-- `char[N]`; `pad` extra NUL characters behind the text in addition to the terminator
  (0 for a string literal) -/
  | array (pad : Nat)
  /-- `char const*` -/
  | cptr
  deriving DecidableEq, Repr

/-- Hashable key shapes of include/cista/hashing.h:94-136 (scalars, text, iterables/aggregates,
`std::pair`/tuples as field lists, `std::variant` as index + value).  `std::hash`-based and
member-`hash()` types are left out (their hash is an external parameter).  Generic in the hash
word type `H`, instantiated with `HashT`. -/
inductive Key (H : Type) where
  /-- scalar with the value `static_cast<hash_t>(el)` -/
  | scalar (v : H)
  /-- text without NUL characters -/
  | text (r : TextRepr) (chars : List Byte)
  /-- iterable container, aggregate, pair, tuple: hashed element by element -/
  | seq (elems : List (Key H))
  /-- `std::variant` -/
  | variant (idx : H) (val : Key H)

/-- Text branches of include/cista/hashing.h: lines 101-102 (array: `sizeof(el) - 1` characters, i.e.
text plus padding), 103-108 (sized; empty returns the seed), 203-208 (`char const*`: up to the
first NUL). -/
def hashText (r : TextRepr) (cs : List Byte) (seed : HashT) : HashT :=
  match r with
  | .sized => if cs.length = 0 then seed else fnv seed cs
  | .array pad => fnv seed (cs ++ List.replicate pad 0#8)
  | .cptr => fnv seed (cs.takeWhile (· ≠ 0#8))

mutual
/-- include/cista/hashing.h:94-136, 177-208: `hashing<T>::operator()`, generic in `hash_combine`
and the text hash. -/
def hashKeyG {H : Type} (comb : H → H → H) (txt : TextRepr → List Byte → H → H) : Key H → H → H
  | .scalar v, seed => comb seed v
  | .text r cs, seed => txt r cs seed
  | .seq es, seed => hashKeysG comb txt es seed
  | .variant i v, seed => hashKeyG comb txt v (comb seed i)
/-- The loops of include/cista/hashing.h:113-124 and 177-189. -/
def hashKeysG {H : Type} (comb : H → H → H) (txt : TextRepr → List Byte → H → H) :
    List (Key H) → H → H
  | [], seed => seed
  | e :: es, seed => hashKeysG comb txt es (hashKeyG comb txt e seed)
end

/-- include/cista/hashing.h:94-136 `hashing<T>::operator()` in the FNV-1a configuration. -/
def hashKey (k : Key HashT) (seed : HashT) : HashT := hashKeyG hashCombine hashText k seed

end Cista.Hash
