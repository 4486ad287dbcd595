import Verif.HS.Group

/-!
# Hash table

Model of `hash_storage` (include/cista/containers/hash_storage.h:31-675), which is `hash_map` (hash_map.h:26-38) with entries
`pair<Key, Value>` and `hash_set` (hash_set.h:18-26) with the key itself as the entry (`V = Unit`).

* `ctrl` is the array of control bytes `ctrl_` points to, `entries` the entry array (`none`: no object alive there);
  constructing over a live entry is `Err.leak`, using a dead one `Err.ub`, indices are checked against the arrays.
* the hash is any function from keys to numbers, key equality is equality of `K`.
* `mask_` arithmetic is on natural numbers: `& capacity_` with `capacity_ + 1` a power of two makes the reduction modulo
  2^64 invisible; `index - WIDTH` (unsigned wrap-around) is `index + 2^64 - 8`.
* probing loops take a fuel argument; running out is `Err.diverge`.
* allocation failure is the subject of `Verif.Fail.HS`.
-/
set_option linter.unusedSimpArgs false

namespace Cista.HS

/-- hash_storage.h:246-248. -/
def h1 (h : Nat) : Nat := (h >>> 7) ^^^ 16777619
/-- hash_storage.h:250-252. -/
def h2 (h : Nat) : Nat := h % 128
/-- hash_storage.h:254-257. -/
def growthOf (cap : Nat) : Nat := if cap = 7 then 6 else cap - cap / 8

/-- hash_storage.h:671-674; `block`: `entries_` is not null. -/
structure HS (K V : Type) where
  ctrl : List Nat
  entries : List (Option (K × V))
  size : Nat
  cap : Nat
  growth : Nat
  block : Bool
  self : Bool
  deriving DecidableEq, Repr

/-- hash_storage.h:226-231. -/
def emptyGroup : List Nat := END :: List.replicate 15 EMPTY

/-- hash_storage.h:259, 671-674. -/
def HS.init {K V : Type} : HS K V := ⟨emptyGroup, [], 0, 0, 0, false, false⟩

/-- hash_storage.h:123-124: eight control bytes at an offset. -/
def group (ctrl : List Nat) (off : Nat) : Res (List Nat) :=
  if off + 8 ≤ ctrl.length then .ok ((ctrl.drop off).take 8) else .error .ub

/-- A control byte. -/
def ctrlAt (ctrl : List Nat) (i : Nat) : Res Nat :=
  match ctrl[i]? with
  | some c => .ok c
  | none => .error .ub

/-- `entries_[i]` used as an object. -/
def entryAt {K V : Type} (es : List (Option (K × V))) (i : Nat) : Res (K × V) :=
  match es[i]? with
  | some (some e) => .ok e
  | _ => .error .ub

/-- Index `(i - WIDTH) & capacity_`. -/
def before (cap i : Nat) : Nat := (i + 2 ^ 64 - 8) &&& cap

/-- hash_storage.h:573-577 `set_ctrl`. -/
def setCtrl (ctrl : List Nat) (cap i c : Nat) : Res (List Nat) :=
  if i < ctrl.length ∧ before cap i + 1 + (7 &&& cap) < ctrl.length then
    .ok ((ctrl.set i c).set (before cap i + 1 + (7 &&& cap)) c)
  else .error .ub

/-- Placement new into an entry. -/
def construct {K V : Type} (es : List (Option (K × V))) (i : Nat) (e : K × V) : Res (List (Option (K × V))) :=
  match es[i]? with
  | some none => .ok (es.set i (some e))
  | some (some _) => .error .leak
  | none => .error .ub

section
variable {K V : Type} [DecidableEq K]

/-- hash_storage.h:382-386, 540-544: compare the matching entries of one group. -/
def scan (es : List (Option (K × V))) (cap off : Nat) (k : K) : List Nat → Res (Option Nat)
  | [] => .ok none
  | i :: is => do
    let e ← entryAt es ((off + i) &&& cap)
    if e.1 = k then .ok (some ((off + i) &&& cap)) else scan es cap off k is

/-- hash_storage.h:380-390, 538-548: the probing loop of `find_impl` and `find_or_prepare_insert`; `none`: stopped at a group
with an empty byte.  `idx` is `seq.index_`. -/
def findLoop (st : HS K V) (k : K) (hk2 : Nat) : Nat → Nat → Nat → Res (Option Nat)
  | 0, _, _ => .error .diverge
  | n + 1, off, idx => do
    let w ← group st.ctrl off
    let r ← scan st.entries st.cap off k (matchIdx w hk2)
    match r with
    | some i => .ok (some i)
    | none => if anyEmpty w then .ok none else findLoop st k hk2 n ((off + (idx + 8)) &&& st.cap) (idx + 8)

/-- hash_storage.h:377-391 `find_impl` with a bound on the number of groups examined. -/
def findN (hash : K → Nat) (fuel : Nat) (st : HS K V) (k : K) : Res (Option Nat) :=
  findLoop st k (h2 (hash k)) fuel (h1 (hash k) &&& st.cap) 0

/-- `find_impl`, allowed to examine as many groups as there are positions. -/
def find (hash : K → Nat) (st : HS K V) (k : K) : Res (Option Nat) := findN hash (st.cap + 1) st k

/-- hash_storage.h:553-558: the loop of `find_first_non_full`. -/
def ffLoop (ctrl : List Nat) (cap : Nat) : Nat → Nat → Nat → Res Nat
  | 0, _, _ => .error .diverge
  | n + 1, off, idx => do
    let w ← group ctrl off
    match firstED w with
    | some i => .ok ((off + i) &&& cap)
    | none => ffLoop ctrl cap n ((off + (idx + 8)) &&& cap) (idx + 8)

/-- hash_storage.h:552-559 `find_first_non_full`. -/
def findFirst (ctrl : List Nat) (cap h : Nat) : Res Nat := ffLoop ctrl cap (cap + 1) (h1 h &&& cap) 0

/-- hash_storage.h:587-590 `reset_ctrl`. -/
def freshCtrl (cap : Nat) : List Nat := (List.replicate (cap + 9) EMPTY).set cap END

/-- hash_storage.h:622-627: move one entry to the new arrays. -/
def moveOne (hash : K → Nat) (cap : Nat) (e : K × V) (s : List Nat × List (Option (K × V))) :
    Res (List Nat × List (Option (K × V))) := do
  let t ← findFirst s.1 cap (hash e.1)
  let c ← setCtrl s.1 cap t (h2 (hash e.1))
  let es ← construct s.2 t e
  .ok (c, es)

/-- hash_storage.h:620-629: the loop of `resize`, over the first `n` old slots, from slot `i`. -/
def moveLoop (hash : K → Nat) (cap : Nat) (oc : List Nat) (oe : List (Option (K × V))) :
    Nat → Nat → List Nat × List (Option (K × V)) → Res (List Nat × List (Option (K × V)))
  | 0, _, s => .ok s
  | n + 1, i, s => do
    let c ← ctrlAt oc i
    if isFull c then do
      let e ← entryAt oe i
      let s' ← moveOne hash cap e s
      moveLoop hash cap oc oe n (i + 1) s'
    else moveLoop hash cap oc oe n (i + 1) s

/-- hash_storage.h:611-634 `resize` with `initialize_entries` (592-609) and `reset_growth_left` (583-585).  A block that the
table owns but does not free at 631-633 is leaked. -/
def resize (hash : K → Nat) (st : HS K V) (ncap : Nat) : Res (HS K V) := do
  let s ← moveLoop hash ncap st.ctrl st.entries st.cap 0 (freshCtrl ncap, List.replicate ncap none)
  if st.cap = 0 ∧ st.block = true ∧ st.self = true then .error .leak
  else .ok ⟨s.1, s.2, st.size, ncap, growthOf ncap - st.size, true, true⟩

/-- hash_storage.h:579-581. -/
def grow (hash : K → Nat) (st : HS K V) : Res (HS K V) :=
  resize hash st (if st.cap = 0 then 1 else st.cap * 2 + 1)

/-- hash_storage.h:567-570: account for and mark the chosen slot. -/
def takeSlot (st : HS K V) (t hk2 : Nat) : Res (HS K V × Nat) := do
  let c ← ctrlAt st.ctrl t
  let ctrl ← setCtrl st.ctrl st.cap t hk2
  .ok ({ st with size := st.size + 1, growth := st.growth - (if c = EMPTY then 1 else 0), ctrl := ctrl }, t)

/-- hash_storage.h:561-571 `prepare_insert`. -/
def prepareInsert (hash : K → Nat) (st : HS K V) (h : Nat) : Res (HS K V × Nat) := do
  let t ← findFirst st.ctrl st.cap h
  let c ← ctrlAt st.ctrl t
  if st.growth = 0 ∧ c ≠ DELETED then do
    let st' ← grow hash st
    let t' ← findFirst st'.ctrl st'.cap h
    takeSlot st' t' (h2 h)
  else takeSlot st t (h2 h)

/-- hash_storage.h:535-550 `find_or_prepare_insert`. -/
def findOrPrepare (hash : K → Nat) (st : HS K V) (k : K) : Res (HS K V × Nat × Bool) := do
  let r ← find hash st k
  match r with
  | some i => .ok (st, i, false)
  | none => do
    let p ← prepareInsert hash st (hash k)
    .ok (p.1, p.2, true)

/-- hash_storage.h:441-449 `emplace` (and `insert` 439): the slot of the entry with that key and whether it was inserted. -/
def emplace (hash : K → Nat) (st : HS K V) (e : K × V) : Res (HS K V × Nat × Bool) := do
  let r ← findOrPrepare hash st e.1
  if r.2.2 then do
    let es ← construct r.1.entries r.2.1 e
    .ok ({ r.1 with entries := es }, r.2.1, true)
  else .ok r

/-- hash_storage.h:409-414, 261-263: insert a range. -/
def insertAll (hash : K → Nat) : List (K × V) → HS K V → Res (HS K V)
  | [], st => .ok st
  | e :: es, st => do
    let r ← emplace hash st e
    insertAll hash es r.1

/-- hash_storage.h:317-324 `operator[]`: default-insert if absent; the slot of the value. -/
def bracket (hash : K → Nat) (d : V) (st : HS K V) (k : K) : Res (HS K V × Nat) := do
  let r ← findOrPrepare hash st k
  if r.2.2 then do
    let es ← construct r.1.entries r.2.1 (k, d)
    .ok ({ r.1 with entries := es }, r.2.1)
  else do
    let _ ← entryAt r.1.entries r.2.1
    .ok (r.1, r.2.1)

/-- Assigning through the reference returned by `operator[]`, `at` or an iterator. -/
def assignAt (st : HS K V) (i : Nat) (v : V) : Res (HS K V) := do
  let e ← entryAt st.entries i
  .ok { st with entries := st.entries.set i (some (e.1, v)) }

/-- hash_storage.h:498-507 `was_never_full`. -/
def wasNeverFull (ctrl : List Nat) (cap i : Nat) : Res Bool := do
  let wa ← group ctrl i
  let wb ← group ctrl (before cap i)
  .ok (anyEmpty wb && anyEmpty wa && decide (tz (emptyMask wa) / 8 + lz (emptyMask wb) / 8 < 8))

/-- hash_storage.h:509-515 `erase_meta_only`. -/
def eraseMeta (st : HS K V) (i : Nat) : Res (HS K V) := do
  let wnf ← wasNeverFull st.ctrl st.cap i
  let ctrl ← setCtrl st.ctrl st.cap i (if wnf then EMPTY else DELETED)
  .ok { st with size := st.size - 1, ctrl := ctrl, growth := st.growth + (if wnf then 1 else 0) }

/-- hash_storage.h:434-437 `erase(iterator)`. -/
def eraseAt (st : HS K V) (i : Nat) : Res (HS K V) := do
  let _ ← entryAt st.entries i
  eraseMeta { st with entries := st.entries.set i none } i

/-- hash_storage.h:417-425 `erase(key)`. -/
def erase (hash : K → Nat) (st : HS K V) (k : K) : Res (HS K V × Nat) := do
  let r ← find hash st k
  match r with
  | none => .ok (st, 0)
  | some i => do
    let st' ← eraseAt st i
    .ok (st', 1)

/-- hash_storage.h:336-348 `get` (and what `find` 377-407 gives access to). -/
def get (hash : K → Nat) (st : HS K V) (k : K) : Res (Option V) := do
  let r ← find hash st k
  match r with
  | none => .ok none
  | some i => do
    let e ← entryAt st.entries i
    .ok (some e.2)

/-- hash_storage.h:351-374 `at`. -/
def at' (hash : K → Nat) (st : HS K V) (k : K) : Res V := do
  let r ← get hash st k
  match r with
  | none => .error .exn
  | some v => .ok v

/-- hash_storage.h:522-526: destroy the entries of the full slots; `n` slots from `i`. -/
def destroyLoop (ctrl : List Nat) : Nat → Nat → List (Option (K × V)) → Res (List (Option (K × V)))
  | 0, _, es => .ok es
  | n + 1, i, es => do
    let c ← ctrlAt ctrl i
    if isFull c then do
      let _ ← entryAt es i
      destroyLoop ctrl n (i + 1) (es.set i none)
    else destroyLoop ctrl n (i + 1) es

/-- hash_storage.h:517-533 `clear` with `partial_reset` (636-642); releasing an array with live entries is a leak. -/
def clear (st : HS K V) : Res (HS K V) :=
  if st.cap = 0 then .ok st
  else do
    let es ← destroyLoop st.ctrl st.cap 0 st.entries
    if es.all Option.isNone then .ok { HS.init with self := st.self } else .error .leak

/-- hash_storage.h:311 `~hash_storage`: a block still owned afterwards is leaked. -/
def destroy (st : HS K V) : Res Unit := do
  let st' ← clear st
  if st'.block = true ∧ st'.self = true then .error .leak else .ok ()

/-- hash_storage.h:649 `rehash`. -/
def rehash (hash : K → Nat) (st : HS K V) : Res (HS K V) := resize hash st st.cap

/-- hash_storage.h:180-186 `skip_empty_or_deleted`. -/
def skip (ctrl : List Nat) : Nat → Nat → Res Nat
  | 0, _ => .error .diverge
  | n + 1, i => do
    let c ← ctrlAt ctrl i
    if isED c then do
      let w ← group ctrl i
      skip ctrl n (i + countED w)
    else .ok i

/-- Iterating with `begin()` (451-457), `*it` (155), `++it` (157-162) and `it != end()` (458, 169-174): the positions visited
from `i` (already skipped to). -/
def positions (st : HS K V) : Nat → Nat → Res (List Nat)
  | 0, _ => .error .diverge
  | n + 1, i =>
    if i = st.cap then .ok []
    else do
      let j ← skip st.ctrl (st.cap + 1) (i + 1)
      let ps ← positions st n j
      .ok (i :: ps)

/-- `for (auto const& e : map)`: the entries visited. -/
def iterate (st : HS K V) : Res (List (K × V)) := do
  let b ← skip st.ctrl (st.cap + 1) 0
  let ps ← positions st (st.cap + 1) b
  ps.mapM (entryAt st.entries)

/-- hash_storage.h:275-281 copy constructor. -/
def copy (hash : K → Nat) (o : HS K V) : Res (HS K V) := do
  if o.size = 0 then .ok HS.init
  else do
    let es ← iterate o
    insertAll hash es HS.init

/-- hash_storage.h:297-309 copy assignment (distinct objects). -/
def copyAssign (hash : K → Nat) (st o : HS K V) : Res (HS K V) := do
  let st' ← clear st
  if o.size = 0 then .ok st'
  else do
    let es ← iterate o
    insertAll hash es st'

/-- hash_storage.h:265-273 move constructor: the new object and the source (`reset` 644-647). -/
def moveCtor (o : HS K V) : HS K V × HS K V := (o, HS.init)

/-- hash_storage.h:283-295 move assignment (distinct objects): the old members are overwritten; live entries or an owned block are
leaked. -/
def moveAssign (st o : HS K V) : Res (HS K V × HS K V) :=
  if (st.block = true ∧ st.self = true) ∨ st.entries.any Option.isSome = true then .error .leak else .ok (o, HS.init)

/-- hash_storage.h:662-667: the loop of `operator==`. -/
def eqLoop [DecidableEq V] (hash : K → Nat) (b : HS K V) : List (K × V) → Res Bool
  | [] => .ok true
  | e :: es => do
    let r ← get hash b e.1
    match r with
    | none => .ok false
    | some v => if v = e.2 then eqLoop hash b es else .ok false

/-- hash_storage.h:658-669 `operator==`. -/
def eq [DecidableEq V] (hash : K → Nat) (a b : HS K V) : Res Bool :=
  if a.size ≠ b.size then .ok false
  else do
    let es ← iterate a
    eqLoop hash b es

end

end Cista.HS
