import Verif.Hash.Model

/-!
# Serialization targets

Models of `targets/buf.h` and (POSIX) `targets/file.h`.
-/
namespace Cista.Target

/-- `std::align` on an address with unlimited space: next multiple of `al` (power of two; the
standard requires it, `al = 0` does not occur because callers test `alignment > 1`). -/
def alignUp (x al : Nat) : Nat := (x + al - 1) / al * al

/-- Overwrite bytes of `l` starting at `pos` (`memcpy` into an existing range). -/
def overwrite (l : List Byte) (pos : Nat) (bs : List Byte) : List Byte :=
  l.take pos ++ bs ++ l.drop (pos + bs.length)

/-- include/cista/targets/buf.h:39-63 `buf::write(ptr, num_bytes, alignment)`.
`base` is the address of `buf_[0]` at the time of the call (it depends on the allocator and may
change between calls).  `buf_.resize` zero-fills. -/
def bufWrite (base : Nat) (buf : List Byte) (bs : List Byte) (alignment : Nat) :
    Res (List Byte × Nat) :=
  let start0 := buf.length
  let start := if alignment > 1 ∧ buf.length ≠ 0
    then alignUp (base + start0) alignment - base else start0
  let spaceLeft : Int := (buf.length : Int) - (start : Int)
  let buf' := if spaceLeft < (bs.length : Int)
    then buf ++ List.replicate ((bs.length : Int) - spaceLeft).toNat 0#8 else buf
  -- `&buf_[0]` of an empty vector (only if nothing at all is written)
  if buf'.length = 0 then .error .ub
  else if start + bs.length ≤ buf'.length then .ok (overwrite buf' start bs, start)
  else .error .ub

/-- include/cista/targets/buf.h:33-37 `buf::write(pos, val)`. -/
def bufPatch (buf : List Byte) (pos : Nat) (bs : List Byte) : Res (List Byte) := do
  verify (buf.length ≥ pos + bs.length)
  return overwrite buf pos bs

/-- A file: its bytes and the cached `size_` member. -/
structure File where
  content : List Byte
  size : Nat

/-- `fwrite` of `bs` at file position `pos`: nothing happens for an empty block; a gap behind the
old end reads as zeros (POSIX). -/
def fwriteAt (content : List Byte) (pos : Nat) (bs : List Byte) : List Byte :=
  if bs = [] then content
  else overwrite (content ++ List.replicate (pos - content.length) 0#8) pos bs

/-- include/cista/targets/file.h:281-301 `file::write(ptr, size, alignment)` (POSIX; I/O errors,
which throw, are not modelled). -/
def fileWrite (f : File) (bs : List Byte) (alignment : Nat) : File × Nat :=
  let curr := if alignment > 1 then alignUp f.size alignment else f.size
  let seek := if alignment > 1 then curr else f.content.length
  ({ content := fwriteAt f.content seek bs, size := curr + bs.length }, curr)

/-- include/cista/targets/file.h:273-279 `file::write(pos, val)`. -/
def filePatch (f : File) (pos : Nat) (bs : List Byte) : File :=
  { f with content := fwriteAt f.content pos bs }

/-- One call on a target: append a block, or patch bytes at a position. -/
inductive Op where
  | block (bs : List Byte) (alignment : Nat)
  | patch (pos : Nat) (bs : List Byte)

/-- Run a sequence of calls on a memory buffer; `bases i` is the buffer address during call `i`
(counted from `k`).  Collects the returned offsets. -/
def runBuf (bases : Nat → Nat) : Nat → List Byte → List Op → Res (List Byte × List Nat)
  | _, b, [] => .ok (b, [])
  | k, b, .block bs al :: ops => do
    let (b', off) ← bufWrite (bases k) b bs al
    let (r, offs) ← runBuf bases (k + 1) b' ops
    return (r, off :: offs)
  | k, b, .patch pos bs :: ops => do
    let b' ← bufPatch b pos bs
    runBuf bases (k + 1) b' ops

/-- Run a sequence of calls on a file. -/
def runFile : File → List Op → File × List Nat
  | f, [] => (f, [])
  | f, .block bs al :: ops =>
    let (f', off) := fileWrite f bs al
    let (r, offs) := runFile f' ops
    (r, off :: offs)
  | f, .patch pos bs :: ops => runFile (filePatch f pos bs) ops

/-- Header writes and the root write of include/cista/serialization.h:485-509 into a file: the
offset passed to the recursive serializer for the root object.  `root` are the root object's bytes,
`al` its alignment. -/
def rootOffsetFile (host : Endian) (m : Arith.Mode) (th sh : Hash.HashT) (root : List Byte)
    (al : Nat) : Nat :=
  let hdr := Hash.versionBytes host m th sh
  let f0 : File := { content := [], size := 0 }
  let f1 := if hdr = [] then f0 else (fileWrite f0 hdr 0).1
  let f2 := if Arith.Mode.isEnabled m Arith.Mode.WITH_INTEGRITY
    then (fileWrite f1 (List.replicate 8 0#8) 0).1 else f1
  (fileWrite f2 root al).2

end Cista.Target
