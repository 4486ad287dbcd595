import Verif.Basic

/-!
# Model of `generic_string` / `basic_string` / `basic_string_view`

Source: `/repo/include/cista/containers/string.h`.

Simplifications
* Characters are `BitVec w` (`w` = 8, 16, 32); memory is a set of blocks holding characters.  `malloc`
  never fails and always returns a fresh block, which is filled completely by the `memcpy` that
  follows it (string.h:110-116), so it is allocated with its contents.
* The union of the heap and the inline representation is a sum type; the discriminating byte
  `is_short_` has the same address in both members (string.h:426-445).
* Zero-length `memmove`/`memset`/`memcpy` on null pointers are no-ops.
* Reading the inline buffer of a string that is not in the inline representation, and `memcpy` between
  overlapping regions, is undefined behaviour.
-/
namespace Cista.Str

abbrev Ch (w : Nat) := BitVec w

/-- Character memory: live blocks and the next fresh block number. -/
structure SMem (w : Nat) where
  blocks : Nat → Option (List (Ch w))
  next : Nat

/-- Replace a block. -/
def SMem.setBlk {w : Nat} (m : SMem w) (b : Nat) (x : Option (List (Ch w))) : SMem w :=
  { m with blocks := fun i => if i = b then x else m.blocks i }

/-- `malloc` of a block that is then filled with `cs`. -/
def SMem.alloc {w : Nat} (m : SMem w) (cs : List (Ch w)) : SMem w × Nat :=
  ({ blocks := fun i => if i = m.next then some cs else m.blocks i, next := m.next + 1 }, m.next)

/-- `free`: the pointer must be the start of a live block. -/
def SMem.free {w : Nat} (m : SMem w) (b off : Nat) : Res (SMem w) :=
  match m.blocks b with
  | none => .error .ub
  | some _ => if off = 0 then .ok (m.setBlk b none) else .error .ub

/-- A `CharT const*`. -/
inductive Loc where
  | null
  /-- into block `b` -/
  | mem (b off : Nat)
  /-- into the inline buffer of string variable `x` -/
  | inl (x off : Nat)
deriving DecidableEq, Repr

/-- `n` characters starting at `off`. -/
def slice {α : Type} (l : List α) (off n : Nat) : List α := (l.drop off).take n

/-- Read `n` characters at a pointer; `inl` gives the inline buffers that exist. -/
def readLoc {w : Nat} (m : SMem w) (inl : Nat → Option (List (Ch w))) (p : Loc) (n : Nat) :
    Res (List (Ch w)) :=
  match p with
  | .null => if n = 0 then .ok [] else .error .ub
  | .mem b off => match m.blocks b with
    | none => .error .ub
    | some cs => if off + n ≤ cs.length then .ok (slice cs off n) else .error .ub
  | .inl x off => match inl x with
    | none => .error .ub
    | some cs => if off + n ≤ cs.length then .ok (slice cs off n) else .error .ub

/-- `memmove` inside one buffer. -/
def memmove {α : Type} (l : List α) (dst src n : Nat) : List α :=
  l.take dst ++ slice l src n ++ l.drop (dst + n)

/-- `memset(…, 0, n)` inside one buffer. -/
def memzero {w : Nat} (l : List (Ch w)) (off n : Nat) : List (Ch w) :=
  l.take off ++ List.replicate n 0#w ++ l.drop (off + n)

/-- string.h:426-445. -/
inductive Str (w : Nat) where
  /-- `stack`: the `short_length_limit` inline characters -/
  | sso (s : List (Ch w))
  /-- `heap`: self_allocated_, size_, ptr_ -/
  | heap (self : Bool) (size : Nat) (ptr : Option (Nat × Nat))
deriving DecidableEq, Repr

/-- string.h:31, 443 `heap h_{}`. -/
def Str.init {w : Nat} : Str w := .heap false 0 none

/-- string.h:77. -/
def Str.isShort {w : Nat} : Str w → Bool
  | .sso _ => true
  | .heap .. => false

/-- Memory and all string variables. -/
structure St (w : Nat) where
  mem : SMem w
  strs : Nat → Str w

/-- Inline buffers. -/
def St.inl {w : Nat} (st : St w) (x : Nat) : Option (List (Ch w)) :=
  match st.strs x with
  | .sso s => some s
  | .heap .. => none

/-- Assign the representation of variable `d`. -/
def St.put {w : Nat} (st : St w) (d : Nat) (s : Str w) : St w :=
  { st with strs := fun x => if x = d then s else st.strs x }

/-- Read through a pointer. -/
def St.read {w : Nat} (st : St w) (p : Loc) (n : Nat) : Res (List (Ch w)) := readLoc st.mem st.inl p n

/-- string.h:333-342 `data()`. -/
def St.data {w : Nat} (st : St w) (x : Nat) : Loc :=
  match st.strs x with
  | .sso _ => .inl x 0
  | .heap _ _ none => .null
  | .heap _ _ (some (b, o)) => .mem b o

/-- string.h:344-352 `size()`: position of the first NUL of the inline buffer or the limit. -/
def St.size {w : Nat} (st : St w) (x : Nat) : Nat :=
  match st.strs x with
  | .sso s => (s.takeWhile (· ≠ 0#w)).length
  | .heap _ n _ => n

/-- string.h:178-181 `view()`/`str()`. -/
def St.view {w : Nat} (st : St w) (x : Nat) : Res (List (Ch w)) := st.read (st.data x) (st.size x)

/-- string.h:79-84. -/
def reset {w : Nat} (st : St w) (d : Nat) : Res (St w) :=
  match st.strs d with
  | .heap true _ (some (b, o)) => do
    let m ← st.mem.free b o
    return { st with mem := m }.put d .init
  | _ => .ok (st.put d .init)

/-- string.h:98-118 (`L` = `short_length_limit`, 15 / sizeof(CharT)). -/
def setOwning {w : Nat} (L : Nat) (st : St w) (d : Nat) (src : Loc) (len : Nat) : Res (St w) := do
  let st ← reset st d
  if src = .null ∨ len = 0 then return st
  let cs ← st.read src len
  if len ≤ L then
    return st.put d (.sso (cs ++ List.replicate (L - len) 0#w))
  else
    let (m, b) := st.mem.alloc cs
    return { st with mem := m }.put d (.heap true len (some (b, 0)))

/-- string.h:130-144. -/
def setNonOwning {w : Nat} (L : Nat) (st : St w) (d : Nat) (src : Loc) (len : Nat) : Res (St w) := do
  let st ← reset st d
  if src = .null ∨ len = 0 then return st
  if len ≤ L then setOwning L st d src len
  else match src with
    | .mem b o => return st.put d (.heap false len (some (b, o)))
    | _ => .error .ub

/-- string.h:86-92, 120-126: from a `std::basic_string(_view)` of size `len` (any `size_t`), the size
being converted to `msize_t` = `uint32_t`. -/
def setOwningView {w : Nat} (L : Nat) (st : St w) (d : Nat) (src : Loc) (len : Nat) : Res (St w) :=
  setOwning L st d src (len % 2 ^ 32)

@[inherit_doc setOwningView]
def setNonOwningView {w : Nat} (L : Nat) (st : St w) (d : Nat) (src : Loc) (len : Nat) : Res (St w) :=
  setNonOwning L st d src (len % 2 ^ 32)

/-- string.h:22-24 `mstrlen`: characters before the first NUL, which must exist in the block. -/
def mstrlen {w : Nat} (st : St w) (b off : Nat) : Res Nat :=
  match st.mem.blocks b with
  | none => .error .ub
  | some cs =>
    let t := (cs.drop off).takeWhile (· ≠ 0#w)
    if off + t.length < cs.length then .ok (t.length % 2 ^ 32) else .error .ub

/-- string.h:94 (`char const*` argument). -/
def setOwningC {w : Nat} (L : Nat) (st : St w) (d b off : Nat) : Res (St w) := do
  let len ← mstrlen st b off
  setOwning L st d (.mem b off) len

/-- string.h:128. -/
def setNonOwningC {w : Nat} (L : Nat) (st : St w) (d b off : Nat) : Res (St w) := do
  let len ← mstrlen st b off
  setNonOwning L st d (.mem b off) len

/-- string.h:146-161; `raw` = `Ptr` is a raw pointer type. -/
def moveFrom {w : Nat} (raw : Bool) (st : St w) (d x : Nat) : Res (St w) :=
  if d = x then .ok st else do
    let st ← reset st d
    let src := st.strs x
    let st := st.put d src
    if raw then return st.put x .init
    else match src with
      | .sso _ => return st
      | .heap self _ _ => return st.put x (.heap self 0 none)

/-- string.h:163-175. -/
def copyFrom {w : Nat} (L : Nat) (st : St w) (d x : Nat) : Res (St w) :=
  if d = x then .ok st else do
    let st ← reset st d
    match st.strs x with
    | .sso s => return st.put d (.sso s)
    | .heap true _ _ => setOwning L st d (st.data x) (st.size x)
    | .heap false _ _ => setNonOwning L st d (st.data x) (st.size x)

/-- string.h:474-480 (`basic_string`). -/
def assignString {w : Nat} (L : Nat) (st : St w) (d x : Nat) : Res (St w) :=
  if d = x then .ok st else setOwning L st d (st.data x) (st.size x)

/-- string.h:528-535 (`basic_string_view`, copy and move). -/
def assignView {w : Nat} (L : Nat) (st : St w) (d x : Nat) : Res (St w) :=
  setNonOwning L st d (st.data x) (st.size x)

/-- Assignment from a `std::string_view` onto `n` characters of variable `x` at `off`
(string.h:495-498, 90-92). -/
def assignSub {w : Nat} (L : Nat) (st : St w) (d x off n : Nat) : Res (St w) :=
  match st.data x with
  | .null => setOwningView L st d .null n
  | .mem b o => setOwningView L st d (.mem b (o + off)) n
  | .inl y o => setOwningView L st d (.inl y (o + off)) n

/-- string.h:355-357: make a non-owning string owning. -/
def own {w : Nat} (L : Nat) (st : St w) (d : Nat) : Res (St w) :=
  match st.strs d with
  | .heap false _ _ => setOwningView L st d (st.data d) (st.size d)
  | _ => .ok st

/-- string.h:358-365 on an owning string; `pos + n ≤ size()` is the caller's obligation (otherwise the
unsigned length of the `memmove` wraps). -/
def eraseIn {w : Nat} (st : St w) (d pos n : Nat) : Res (St w) := do
  let size := st.size d
  require (pos + n ≤ size)
  match st.strs d with
  | .sso s => return st.put d (.sso (memzero (memmove s pos (pos + n) (size - (pos + n))) (size - n) n))
  | .heap self _ none => return st.put d (.heap self (size - n) none)
  | .heap self _ (some (b, o)) =>
    match st.mem.blocks b with
    | none => .error .ub
    | some cs =>
      require (o + size ≤ cs.length)
      let cs := memzero (memmove cs (o + pos) (o + (pos + n)) (size - (pos + n))) (o + (size - n)) n
      return { st with mem := st.mem.setBlk b (some cs) }.put d (.heap self (size - n) (some (b, o)))

/-- string.h:354-366. -/
def erase {w : Nat} (L : Nat) (st : St w) (d pos n : Nat) : Res (St w) := do
  let st ← own L st d
  eraseIn st d pos n

/-- string.h:185 `s[i] = c`. -/
def write {w : Nat} (st : St w) (d i : Nat) (c : Ch w) : Res (St w) := do
  require (i < st.size d)
  match st.strs d with
  | .sso s => return st.put d (.sso (s.set i c))
  | .heap _ _ none => .error .ub
  | .heap self n (some (b, o)) =>
    match st.mem.blocks b with
    | none => .error .ub
    | some cs =>
      require (o + i < cs.length)
      return { st with mem := st.mem.setBlk b (some (cs.set (o + i) c)) }.put d (.heap self n (some (b, o)))

/-! ## Comparisons -/

/-- `std::char_traits<CharT>::compare` on equally long sequences: characters compare as unsigned. -/
def traitsCompare {w : Nat} : List (Ch w) → List (Ch w) → Int
  | a :: as, b :: bs => if a.toNat < b.toNat then -1 else if b.toNat < a.toNat then 1 else traitsCompare as bs
  | _, _ => 0

/-- `std::basic_string_view::compare`. -/
def svCompare {w : Nat} (a b : List (Ch w)) : Int :=
  let n := min a.length b.length
  let r := traitsCompare (a.take n) (b.take n)
  if r ≠ 0 then r else (a.length : Int) - b.length

/-- string.h:195-223: the six comparison operators, each one on the two views. -/
def cmpOp {w : Nat} (f : List (Ch w) → List (Ch w) → Bool) (st : St w) (x y : Nat) : Res Bool := do
  let a ← st.view x
  let b ← st.view y
  return f a b

/-- `std::basic_string_view` operators used by the operators above. -/
def svEq {w : Nat} (a b : List (Ch w)) : Bool := a.length = b.length && svCompare a b = 0
def svNe {w : Nat} (a b : List (Ch w)) : Bool := !svEq a b
def svLt {w : Nat} (a b : List (Ch w)) : Bool := svCompare a b < 0
def svGt {w : Nat} (a b : List (Ch w)) : Bool := svCompare a b > 0
def svLe {w : Nat} (a b : List (Ch w)) : Bool := svCompare a b ≤ 0
def svGe {w : Nat} (a b : List (Ch w)) : Bool := svCompare a b ≥ 0

/-- string.h:378-389. -/
def startsWith {w : Nat} (st : St w) (x : Nat) (p : List (Ch w)) : Res Bool :=
  if p.length > st.size x then .ok false
  else if p.length = 0 then .ok true
  else if st.size x = 0 then .ok false
  else do
    let c ← st.read (st.data x) p.length
    return decide (p = c)

/-- Pointer arithmetic. -/
def Loc.add : Loc → Nat → Loc
  | .null, _ => .null
  | .mem b o, n => .mem b (o + n)
  | .inl x o, n => .inl x (o + n)

/-- string.h:407-418. -/
def endsWith {w : Nat} (st : St w) (x : Nat) (p : List (Ch w)) : Res Bool :=
  if p.length > st.size x then .ok false
  else if p.length = 0 then .ok true
  else if st.size x = 0 then .ok false
  else do
    let c ← st.read ((st.data x).add (st.size x - p.length)) p.length
    return decide (p = c)

/-- string.h:390-395. -/
def startsWithCh {w : Nat} (st : St w) (x : Nat) (c : Ch w) : Res Bool :=
  if st.size x = 0 then .ok false
  else do
    let d ← st.read (st.data x) 1
    return decide (d = [c])

/-- string.h:419-424. -/
def endsWithCh {w : Nat} (st : St w) (x : Nat) (c : Ch w) : Res Bool :=
  if st.size x = 0 then .ok false
  else do
    let d ← st.read ((st.data x).add (st.size x - 1)) 1
    return decide (d = [c])

end Cista.Str
