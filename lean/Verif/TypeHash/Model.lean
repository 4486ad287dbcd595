import Verif.Hash.Model

/-!
# Type hashes

Models of `type_hash/type_hash.h` (computed at run time) and `type_hash/static_type_hash.h` (computed at compile time): the numbers in
the version header of a buffer, also used by the deep check to remember what was visited.
-/
set_option linter.unusedVariables false

namespace Cista.TypeHash

open Cista.Hash (HashT BASE_HASH hashCombine fnv)

/-- Containers with one element type that only differ in their tag. -/
inductive Wrap
  | vector | uniquePtr | hashStorage | optional
deriving DecidableEq

/-- Containers with a list of element types. -/
inductive Multi
  | variant | tuple
deriving DecidableEq

/-- C++ types as the two functions see them.  `base`: hash of name and size of a type (type_hash.h:15-18, static_type_hash.h:12-15), a parameter of the model;
structs are numbered and looked up in a table, so that types can be recursive.  `period`/`clock` of the chrono types are given by name
and by type. -/
inductive CTy
  | voidPtr (base : HashT)
  | ptr (base : HashT) (t : CTy)
  | int (base : HashT) (size : Nat)
  | scalar (base : HashT)
  | named (n : Nat)
  | array (size : Nat) (t : CTy)
  | pair (a b : CTy)
  | wrap (w : Wrap) (t : CTy)
  | multi (w : Multi) (n : Nat) (t : Fin n → CTy)
  | string
  | indexed (t : CTy)
  | strong (tag : HashT) (t : CTy)
  | fws (sizes values : CTy) (log2 : Nat)
  | duration (name : HashT) (period rep : CTy)
  | timepoint (name : HashT) (clock dur : CTy)

/-- The structs of a program: name hash, number of members, types of the members. -/
structure Env where
  base : Nat → HashT
  arity : Nat → Nat
  field : (n : Nat) → Fin (arity n) → CTy

/-- `hash("…")` of a literal, hash.h:133-137. -/
def lit (s : List Char) : HashT := fnv BASE_HASH (s.map fun c => BitVec.ofNat 8 c.toNat)

/-- A `size_t` or `unsigned` as argument of `hash_combine`. -/
def num (n : Nat) : HashT := BitVec.ofNat 64 n

/-- Tags of the single element containers, type_hash.h:95, 102, 110, 166. -/
def Wrap.tag : Wrap → HashT
  | .vector => lit ['v', 'e', 'c', 't', 'o', 'r']
  | .uniquePtr => lit ['u', 'n', 'i', 'q', 'u', 'e', '_', 'p', 't', 'r']
  | .hashStorage => lit ['h', 'a', 's', 'h', '_', 's', 't', 'o', 'r', 'a', 'g', 'e']
  | .optional => lit ['o', 'p', 't', 'i', 'o', 'n', 'a', 'l']

/-- type_hash.h:117, 125. -/
def Multi.tag : Multi → HashT
  | .variant => lit ['v', 'a', 'r', 'i', 'a', 'n', 't']
  | .tuple => lit ['t', 'u', 'p', 'l', 'e']

/-- Which function: `type_hash` at run time, or `static_type_hash` with room for `NMaxTypes` types. -/
inductive Flavor
  | dynamic
  | static (limit : Nat)

/-- The running hash and the types seen so far; the number of a type (type_hash.h:56, static_type_hash.h:41) is its position. -/
abbrev St := HashT × List HashT

/-- `h = hash_combine(h, x)`. -/
def comb (x : HashT) (s : St) : Res St := .ok (hashCombine s.1 x, s.2)

/-- type_hash.h:54-59, static_type_hash.h:38-48, 111-115: a type that was seen before is replaced by its number; otherwise it is
added (without bounds check in the static case). -/
def once (fl : Flavor) (b : HashT) (k : St → Res St) (s : St) : Res St :=
  match s.2.findIdx? (· == b) with
  | some i => comb (num i) s
  | none =>
    match fl with
    | .dynamic => k (s.1, s.2 ++ [b])
    | .static m => if s.2.length < m then k (s.1, s.2 ++ [b]) else .error .ub

/-- `for (i …)` over the `n` member types. -/
def overFin {n : Nat} (f : Fin n → St → Res St) : (k : Nat) → (i : Nat) → St → Res St
  | 0, _, s => .ok s
  | k + 1, i, s =>
    if h : i < n then do
      let s ← f ⟨i, h⟩ s
      overFin f k (i + 1) s
    else .ok s

/-- The overloads of `type_hash(T const&, hash_t, map&)` and `static_type_hash(T const*, hash_data)`; `rec` treats structs.  The overload for
`basic_rtree::node` (static_type_hash.h:268-284) is never selected: its parameters cannot be deduced. -/
def hashT (fl : Flavor) (rec : Nat → St → Res St) : CTy → St → Res St
  -- type_hash.h:61-65, static_type_hash.h:117-120
  | .voidPtr b, s => once fl b (comb (lit ['v', 'o', 'i', 'd', '*'])) s
  -- type_hash.h:66-67, static_type_hash.h:121-123
  | .ptr b t, s => once fl b (fun s => do
      let s ← comb (lit ['p', 'o', 'i', 'n', 't', 'e', 'r']) s
      hashT fl rec t s) s
  -- type_hash.h:69-70, static_type_hash.h:125-126
  | .int b size, s => once fl b (fun s => do
      let s ← comb (lit ['i']) s
      comb (num size) s) s
  -- type_hash.h:71-72, static_type_hash.h:127-128
  | .scalar b, s => once fl b (comb b) s
  | .named n, s => rec n s
  -- type_hash.h:41-47, static_type_hash.h:165-170
  | .array n t, s =>
    match fl with
    | .dynamic => do
      let s ← comb (lit ['a', 'r', 'r', 'a', 'y']) s
      let s ← comb (num n) s
      hashT fl rec t s
    | .static _ => do
      let s ← hashT fl rec t s
      let s ← comb (lit ['a', 'r', 'r', 'a', 'y']) s
      comb (num n) s
  -- type_hash.h:83-89, static_type_hash.h:147-154
  | .pair a b, s =>
    match fl with
    | .dynamic => do
      let s ← hashT fl rec a s
      let s ← hashT fl rec b s
      comb (lit ['p', 'a', 'i', 'r']) s
    | .static _ => do
      let s ← comb (lit ['p', 'a', 'i', 'r']) s
      let s ← hashT fl rec a s
      hashT fl rec b s
  -- type_hash.h:91-112, 163-169, static_type_hash.h:172-195, 244-250
  | .wrap w t, s => do
    let s ← comb w.tag s
    hashT fl rec t s
  -- type_hash.h:114-128, static_type_hash.h:197-211
  | .multi w n t, s => do
    let s ← comb w.tag s
    overFin (fun i s => hashT fl rec (t i) s) n 0 s
  -- type_hash.h:130-146, static_type_hash.h:213-229
  | .string, s => comb (lit ['s', 't', 'r', 'i', 'n', 'g']) s
  -- type_hash.h:148-152, static_type_hash.h:231-235
  | .indexed t, s => hashT fl rec t s
  -- type_hash.h:154-161, static_type_hash.h:237-242
  | .strong tag t, s =>
    match fl with
    | .dynamic => do
      let s ← comb (lit ['s', 't', 'r', 'o', 'n', 'g']) s
      let s ← hashT fl rec t s
      .ok (hashCombine tag s.1, s.2)
    | .static _ => hashT fl rec t s
  -- type_hash.h:171-181, static_type_hash.h:252-262
  | .fws a b k, s => do
    let s ← comb (lit ['d', 'y', 'n', 'a', 'm', 'i', 'c', '_', 'f', 'w', 's', '_', 'm', 'u', 'l', 't', 'i', 'm', 'a', 'p']) s
    let s ← hashT fl rec a s
    let s ← hashT fl rec b s
    .ok (hashCombine (num k) s.1, s.2)
  -- type_hash.h:23-30, static_type_hash.h:138-145
  | .duration nm p r, s => do
    let s ← comb (lit ['d', 'u', 'r', 'a', 't', 'i', 'o', 'n']) s
    let s ← hashT fl rec r s
    match fl with
    | .dynamic => .ok (hashCombine nm s.1, s.2)
    | .static _ => hashT fl rec p s
  -- type_hash.h:32-39, static_type_hash.h:156-163
  | .timepoint nm c d, s => do
    let s ← comb (lit ['t', 'i', 'm', 'e', 'p', 'o', 'i', 'n', 't']) s
    let s ← hashT fl rec d s
    match fl with
    | .dynamic => .ok (hashCombine nm s.1, s.2)
    | .static _ => hashT fl rec c s

/-- type_hash.h:74-79, static_type_hash.h:129-135: a struct is the sequence of its members.  The bound limits the nesting of structs;
without bound the recursion of the code has no other end than a type seen before. -/
def hashNamed (fl : Flavor) (env : Env) : (fuel : Nat) → Nat → St → Res St
  | 0, _, _ => .error .diverge
  | f + 1, n, s => once fl (env.base n) (fun s => do
      let s ← comb (lit ['s', 't', 'r', 'u', 'c', 't']) s
      overFin (fun i s => hashT fl (hashNamed fl env f) (env.field n i) s) (env.arity n) 0 s) s

/-- type_hash.h:183-187 `type_hash<T>()`, static_type_hash.h:264-267 `static_type_hash<T>()`. -/
def typeHash (fl : Flavor) (env : Env) (fuel : Nat) (t : CTy) : Res HashT := do
  let s ← hashT fl (hashNamed fl env fuel) t (BASE_HASH, [])
  .ok s.1

end Cista.TypeHash
