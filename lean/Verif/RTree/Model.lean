import Verif.Basic

/-!
# R-tree

Model of `basic_rtree` (include/cista/containers/rtree.h:18-631).

* `nodes` is `nodes_` (630); a node (127-263) has a count, a kind and `M` = `MaxItems` slots.  A slot is the pair of `rects_[i]` and
  the union member `children_[i]` / `data_[i]`; reading the union member that was not written is undefined behaviour.
* `D` = `Dims`; a coordinate type is a strict weak order (so floating point without NaN) with arbitrary total `-`, `*`: overflow of
  the arithmetic, which only influences where entries are placed, is not modelled.
* Node indices and counts are natural numbers (`SizeType`/`uint32_t` overflow is not modelled).
* `DataType` is copied by assignment (it is a union member, hence trivially copyable); `insert` is given data outside the tree.
* The predicate passed to `delete_element_with_function` is a function of the entry; the callback of `search` may depend on
  everything reported before.
* Loops and recursion carry fuel; running out of it is reported as divergence and is proved not to happen.
-/
namespace Cista.RTree

/-- `NumType`: comparison and arithmetic. -/
class Coord (N : Type) where
  lt : N → N → Bool
  sub : N → N → N
  mul : N → N → N
  zero : N
  one : N
  inf : N
  asymm : ∀ {a b}, lt a b = true → lt b a = false
  ntrans : ∀ {a b c}, lt a b = false → lt b c = false → lt a c = false

variable {N T : Type} [Coord N] {D : Nat}

open Coord

/-- `std::min`, `std::max` as used in rtree.h:45-46, 89-90. -/
def cmin (a b : N) : N := if lt b a then b else a
def cmax (a b : N) : N := if lt a b then b else a

/-- rtree.h:39-125 `rect`. -/
structure Rect (N : Type) (D : Nat) where
  lo : Fin D → N
  hi : Fin D → N

/-- rtree.h:124. -/
def Rect.zero : Rect N D := ⟨fun _ => Coord.zero, fun _ => Coord.zero⟩

/-- rtree.h:40 `feq`. -/
def feq (a b : N) : Bool := !(lt a b || lt b a)

/-- rtree.h:42-49 `united_area`. -/
def Rect.unitedArea (a b : Rect N D) : N :=
  (List.finRange D).foldl (fun acc i => mul acc (sub (cmax (a.hi i) (b.hi i)) (cmin (a.lo i) (b.lo i)))) one

/-- rtree.h:51-57 `area`. -/
def Rect.area (a : Rect N D) : N := (List.finRange D).foldl (fun acc i => mul acc (sub (a.hi i) (a.lo i))) one

/-- rtree.h:59-66 `contains`. -/
def Rect.contains (a b : Rect N D) : Bool := (List.finRange D).all fun i => !lt (b.lo i) (a.lo i) && !lt (a.hi i) (b.hi i)

/-- rtree.h:68-75 `intersects`. -/
def Rect.intersects (a b : Rect N D) : Bool := (List.finRange D).all fun i => !lt (a.hi i) (b.lo i) && !lt (b.hi i) (a.lo i)

/-- rtree.h:77-85 `onedge`. -/
def Rect.onedge (a b : Rect N D) : Bool := (List.finRange D).any fun i => feq (a.lo i) (b.lo i) || feq (a.hi i) (b.hi i)

/-- rtree.h:87-92 `expand`. -/
def Rect.expand (a b : Rect N D) : Rect N D := ⟨fun i => cmin (a.lo i) (b.lo i), fun i => cmax (a.hi i) (b.hi i)⟩

/-- rtree.h:94-105 `largest_axis`. -/
def Rect.largestAxis [NeZero D] (a : Rect N D) : Fin D :=
  ((List.finRange D).tail.foldl (fun (acc : Fin D × N) i =>
    if lt acc.2 (sub (a.hi i) (a.lo i)) then (i, sub (a.hi i) (a.lo i)) else acc) (0, sub (a.hi 0) (a.lo 0))).1

/-- rtree.h:107-122 `equals`, `coord_t_equal`. -/
def coordEq (a b : Fin D → N) : Bool := (List.finRange D).all fun i => feq (a i) (b i)
def Rect.equals (a b : Rect N D) : Bool := coordEq a.lo b.lo && coordEq a.hi b.hi

/-- rtree.h:31 `kind`. -/
inductive Kind where
  | leaf
  | branch
  | endFree
  deriving DecidableEq

/-- rtree.h:259-262: an element of the union of arrays. -/
inductive Pay (T : Type) where
  | raw
  | child (i : Nat)
  | item (d : T)

abbrev Slot (N T : Type) (D : Nat) := Rect N D × Pay T

/-- rtree.h:127-263 `node`. -/
structure Node (N T : Type) (D : Nat) where
  count : Nat
  kind : Kind
  slots : List (Slot N T D)

/-- rtree.h:621-630. -/
structure RT (N T : Type) (D : Nat) where
  nodes : List (Node N T D)
  root : Option Nat
  free : Option Nat
  rect : Rect N D
  count : Nat
  height : Nat
  hint : List Nat

/-- rtree.h:621-630: the default member initializers. -/
def RT.init : RT N T D := ⟨[], none, none, Rect.zero, 0, 0, List.replicate 16 0⟩

/-- rtree.h:27-29 `kSplitMinItems`. -/
def minItems (M : Nat) : Nat := M * 10 / 100 + 1

/-- rtree.h:404-407 `get_node`. -/
def getNode (st : RT N T D) (i : Nat) : Res (Node N T D) :=
  match st.nodes[i]? with
  | some n => .ok n
  | none => .error .ub

/-- Writing a node back (the node exists). -/
def setNode (st : RT N T D) (i : Nat) (n : Node N T D) : RT N T D := { st with nodes := st.nodes.set i n }

/-- `rects_[i]` with its payload. -/
def slotAt (n : Node N T D) (i : Nat) : Res (Slot N T D) :=
  match n.slots[i]? with
  | some s => .ok s
  | none => .error .ub

/-- `children_[i]`. -/
def childOf (s : Slot N T D) : Res Nat :=
  match s.2 with
  | .child c => .ok c
  | _ => .error .ub

/-- The occupied slots. -/
def live (n : Node N T D) : List (Slot N T D) := n.slots.take n.count

/-- rtree.h:205-212 `swap`. -/
def swap (L : List (Slot N T D)) (i j : Nat) : Res (List (Slot N T D)) :=
  match L[i]?, L[j]? with
  | some a, some b => .ok ((L.set i b).set j a)
  | _, _ => .error .ub

/-- rtree.h:139-141, 151: `rects[i].all[index]`; the index is `axis` or `Dims + axis` (130-131). -/
def keyOf (ax : Fin D) (mx : Bool) (s : Slot N T D) : N := if mx then s.1.hi ax else s.1.lo ax

/-- rtree.h:154, 161. -/
def before (ax : Fin D) (mx rev : Bool) (a p : Slot N T D) : Bool :=
  if rev then lt (keyOf ax mx p) (keyOf ax mx a) else lt (keyOf ax mx a) (keyOf ax mx p)

/-- rtree.h:152-166: the partition loop, `n` steps from index `i`; the result is the array and `left`. -/
def qpart (ax : Fin D) (mx rev : Bool) (start right : Nat) :
    Nat → Nat → Nat → List (Slot N T D) → Res (List (Slot N T D) × Nat)
  | 0, _, left, L => .ok (L, left)
  | n + 1, i, left, L =>
    match L[start + i]?, L[start + right]? with
    | some a, some p =>
      if before ax mx rev a p then do
        let L1 ← swap L (start + i) (start + left)
        qpart ax mx rev start right n (i + 1) (left + 1) L1
      else qpart ax mx rev start right n (i + 1) left L
    | _, _ => .error .ub

/-- rtree.h:136-170 `qsort`. -/
def qsort (ax : Fin D) (mx rev : Bool) : Nat → Nat → Nat → List (Slot N T D) → Res (List (Slot N T D))
  | 0, _, _, _ => .error .diverge
  | f + 1, start, stop, L =>
    if stop - start < 2 then .ok L
    else do
      let L1 ← swap L (start + (stop - start) / 2) (start + (stop - start - 1))
      let (L2, left) ← qpart ax mx rev start (stop - start - 1) (stop - start) 0 0 L1
      let L3 ← swap L2 (start + left) (start + (stop - start - 1))
      let L4 ← qsort ax mx rev f start (start + left) L3
      qsort ax mx rev f (start + left + 1) stop L4

/-- rtree.h:128-133 `sort_by_axis`. -/
def sortByAxis (n : Node N T D) (ax : Fin D) (rev mx : Bool) : Res (Node N T D) := do
  let L ← qsort ax mx rev (n.count + 1) 0 n.count n.slots
  .ok { n with slots := L }

/-- rtree.h:175-184: the loop of `choose_least_enlargement` from index `i`. -/
def leastLoop (r : Rect N D) : List (Slot N T D) → Nat → Nat → N → Nat
  | [], _, j, _ => j
  | s :: L, i, j, je =>
    if lt (sub (s.1.unitedArea r) s.1.area) je then leastLoop r L (i + 1) i (sub (s.1.unitedArea r) s.1.area)
    else leastLoop r L (i + 1) j je

/-- rtree.h:172-186 `choose_least_enlargement`. -/
def chooseLeast (n : Node N T D) (r : Rect N D) : Nat := leastLoop r (live n) 0 0 inf

/-- rtree.h:189-202 `move_rect_at_index_into`. -/
def moveInto (i : Nat) (a b : Node N T D) : Res (Node N T D × Node N T D) :=
  match a.slots[i]?, a.slots[a.count - 1]? with
  | some s, some l =>
    if b.count < b.slots.length ∧ 0 < a.count then
      .ok ({ a with slots := a.slots.set i l, count := a.count - 1 },
        { b with slots := b.slots.set b.count s, count := b.count + 1 })
    else .error .ub
  | _, _ => .error .ub

/-- rtree.h:214-221 `bounding_box`: with no occupied slot it is whatever `rects_[0]` holds. -/
def boundingBox (n : Node N T D) : Res (Rect N D) := do
  let s ← slotAt n 0
  .ok ((live n).tail.foldl (fun r s => r.expand s.1) s.1)

/-- rtree.h:412: `memset` of a new node. -/
def zeroNode (M : Nat) (k : Kind) : Node N T D := ⟨0, k, List.replicate M (Rect.zero, .raw)⟩

/-- rtree.h:409-426 `node_new`. -/
def nodeNew (M : Nat) (st : RT N T D) (k : Kind) : Res (RT N T D × Nat) :=
  match st.free with
  | none => .ok ({ st with nodes := st.nodes ++ [zeroNode M k] }, st.nodes.length)
  | some i => do
    let n ← getNode st i
    .ok ({ st with
      nodes := st.nodes.set i { n with kind := k, count := 0 }, free := if n.kind = .endFree then none else some n.count }, i)

/-- rtree.h:609-616 `add_to_free_list`. -/
def addFree (st : RT N T D) (i : Nat) : Res (RT N T D) := do
  let n ← getNode st i
  match st.free with
  | none => .ok { st with nodes := st.nodes.set i { n with kind := .endFree }, free := some i }
  | some j => .ok { st with nodes := st.nodes.set i { n with count := j }, free := some i }

/-- rtree.h:350-354: the entry is nearer to the upper end. -/
def toRight (r : Rect N D) (ax : Fin D) (s : Slot N T D) : Bool :=
  lt (sub (r.hi ax) (s.1.hi ax)) (sub (s.1.lo ax) (r.lo ax))

/-- rtree.h:349-359. -/
def splitLoop (r : Rect N D) (ax : Fin D) : Nat → Nat → Node N T D → Node N T D → Res (Node N T D × Node N T D)
  | 0, _, _, _ => .error .diverge
  | f + 1, i, a, b =>
    if i < a.count then do
      let s ← slotAt a i
      if toRight r ax s then do
        let (a1, b1) ← moveInto i a b
        splitLoop r ax f i a1 b1
      else splitLoop r ax f (i + 1) a b
    else .ok (a, b)

/-- rtree.h:365-367, 371-373: move the last entry of `a` to `b` until `b` has enough (`do … while`). -/
def refill (m : Nat) : Nat → Node N T D → Node N T D → Res (Node N T D × Node N T D)
  | 0, _, _ => .error .diverge
  | f + 1, a, b => do
    let (a1, b1) ← moveInto (a.count - 1) a b
    if b1.count < m then refill m f a1 b1 else .ok (a1, b1)

/-- rtree.h:361-374. -/
def balance (M : Nat) (ax : Fin D) (a b : Node N T D) : Res (Node N T D × Node N T D) :=
  if a.count < minItems M then do
    let b1 ← sortByAxis b ax true false
    let (b2, a2) ← refill (minItems M) (M + 1) b1 a
    .ok (a2, b2)
  else if b.count < minItems M then do
    let a1 ← sortByAxis a ax true true
    refill (minItems M) (M + 1) a1 b
  else .ok (a, b)

/-- rtree.h:375-378. -/
def finalSort [NeZero D] (a b : Node N T D) : Res (Node N T D × Node N T D) :=
  if a.kind = .branch then do
    let a1 ← sortByAxis a 0 true false
    let b1 ← sortByAxis b 0 true false
    .ok (a1, b1)
  else .ok (a, b)

/-- rtree.h:343-379 `node_split`: the new state and the new node. -/
def nodeSplit [NeZero D] (M : Nat) (st : RT N T D) (r : Rect N D) (i : Nat) : Res (RT N T D × Nat) := do
  let n ← getNode st i
  let (st1, j) ← nodeNew M st n.kind
  let a ← getNode st1 i
  let b ← getNode st1 j
  let (a1, b1) ← splitLoop r r.largestAxis (2 * M + 1) 0 a b
  let (a2, b2) ← balance M r.largestAxis a1 b1
  let (a3, b3) ← finalSort a2 b2
  .ok (setNode (setNode st1 i a3) j b3, j)

/-- rtree.h:627: `path_hint_[depth]`. -/
def hintAt (st : RT N T D) (d : Nat) : Res Nat :=
  match st.hint[d]? with
  | some h => .ok h
  | none => .error .ub

/-- rtree.h:384-388: the hinted slot if it exists and contains the rectangle. -/
def hinted (n : Node N T D) (h : Nat) (r : Rect N D) : Res Bool :=
  if h < n.count then do
    let s ← slotAt n h
    .ok (s.1.contains r)
  else .ok false

/-- rtree.h:390-401. -/
def chooseSlow (n : Node N T D) (r : Rect N D) : Nat :=
  match (live n).findIdx? fun s => s.1.contains r with
  | some i => i
  | none => chooseLeast n r

/-- rtree.h:381-402 `node_choose`. -/
def nodeChoose (st : RT N T D) (n : Node N T D) (r : Rect N D) (d : Nat) : Res (RT N T D × Nat) := do
  let h ← hintAt st d
  let ok ← hinted n h r
  if ok then .ok (st, h) else .ok ({ st with hint := st.hint.set d (chooseSlow n r) }, chooseSlow n r)

/-- rtree.h:309-312: append to a leaf. -/
def appendSlot (n : Node N T D) (s : Slot N T D) : Res (Node N T D) :=
  if n.count < n.slots.length then .ok { n with slots := n.slots.set n.count s, count := n.count + 1 } else .error .ub

/-- rtree.h:331-339: split the child in slot `i` of node `n`. -/
def splitChild [NeZero D] (M : Nat) (st : RT N T D) (n i : Nat) : Res (RT N T D) := do
  let nd ← getNode st n
  let s ← slotAt nd i
  let c ← childOf s
  let (st1, right) ← nodeSplit M st s.1 c
  let nd1 ← getNode st1 n
  let s1 ← slotAt nd1 i
  let c1 ← childOf s1
  let cn ← getNode st1 c1
  let b1 ← boundingBox cn
  let rn ← getNode st1 right
  let b2 ← boundingBox rn
  let nd2 ← appendSlot { nd1 with slots := nd1.slots.set i (b1, s1.2) } (b2, .child right)
  .ok (setNode st1 n nd2)

/-- rtree.h:322: enlarge the rectangle of slot `i`. -/
def expandSlot (st : RT N T D) (n i : Nat) (r : Rect N D) : Res (RT N T D) := do
  let nd ← getNode st n
  let s ← slotAt nd i
  .ok (setNode st n { nd with slots := nd.slots.set i (s.1.expand r, s.2) })

/-- rtree.h:299-341 `node_insert`: the new state and `split`. -/
def nodeInsert [NeZero D] (M : Nat) : Nat → RT N T D → Nat → Rect N D → T → Nat → Res (RT N T D × Bool)
  | 0, _, _, _, _, _ => .error .diverge
  | f + 1, st, n, r, d, depth => do
    let nd ← getNode st n
    if nd.kind = .leaf then
      if nd.count = M then .ok (st, true)
      else do
        let nd1 ← appendSlot nd (r, .item d)
        .ok (setNode st n nd1, false)
    else do
      let (st1, i) ← nodeChoose st nd r depth
      let s ← slotAt nd i
      let c ← childOf s
      let (st2, split) ← nodeInsert M f st1 c r d (depth + 1)
      if split then do
        let nd2 ← getNode st2 n
        if nd2.count = M then .ok (st2, true)
        else do
          let st3 ← splitChild M st2 n i
          nodeInsert M f st3 n r d depth
      else do
        let st3 ← expandSlot st2 n i r
        .ok (st3, false)

/-- rtree.h:282-295: split the root. -/
def splitRoot [NeZero D] (M : Nat) (st : RT N T D) (root : Nat) : Res (RT N T D) := do
  let (st1, nr) ← nodeNew M st .branch
  let (st2, right) ← nodeSplit M st1 st1.rect root
  let rn ← getNode st2 nr
  let on ← getNode st2 root
  let b1 ← boundingBox on
  let tn ← getNode st2 right
  let b2 ← boundingBox tn
  if 2 ≤ rn.slots.length then
    .ok { st2 with nodes := st2.nodes.set nr { rn with slots := (rn.slots.set 0 (b1, .child root)).set 1 (b2, .child right), count := 2 }, root := some nr, height := st2.height + 1 }
  else .error .ub

/-- rtree.h:268-272: make sure that there is a root. -/
def ensureRoot (M : Nat) (st : RT N T D) (r : Rect N D) : Res (RT N T D × Nat) :=
  match st.root with
  | some i => .ok (st, i)
  | none => do
    let (st1, i) ← nodeNew M st .leaf
    .ok ({ st1 with root := some i, rect := r, height := 1 }, i)

/-- rtree.h:267-296: the loop of `insert`. -/
def insertLoop [NeZero D] (M : Nat) (r : Rect N D) (d : T) : Nat → RT N T D → Res (RT N T D)
  | 0, _ => .error .diverge
  | f + 1, st => do
    let (st1, root) ← ensureRoot M st r
    let (st2, split) ← nodeInsert M (st1.height * (M + 2)) st1 root r d 0
    if split then do
      let st3 ← splitRoot M st2 root
      insertLoop M r d f st3
    else .ok { st2 with rect := st2.rect.expand r, count := st2.count + 1 }

/-- rtree.h:265-297 `insert`. -/
def insert [NeZero D] (M : Nat) (st : RT N T D) (r : Rect N D) (d : T) : Res (RT N T D) :=
  insertLoop M r d (st.nodes.length * minItems M ^ st.height + 2) st

/-- Searching with a callback that sees what was reported before (rtree.h:434, 453-454). -/
abbrev Callback (N T : Type) (D : Nat) := List (Rect N D × T) → Rect N D × T → Bool

/-- rtree.h:432-439: the loop over the entries of a leaf; what was reported so far and whether to continue. -/
def leafSearch (r : Rect N D) (fn : Callback N T D) :
    List (Slot N T D) → List (Rect N D × T) → Res (List (Rect N D × T) × Bool)
  | [], acc => .ok (acc, true)
  | s :: L, acc =>
    if s.1.intersects r then
      match s.2 with
      | .item d => if fn acc (s.1, d) then leafSearch r fn L (acc ++ [(s.1, d)]) else .ok (acc ++ [(s.1, d)], false)
      | _ => .error .ub
    else leafSearch r fn L acc

/-- rtree.h:442-449: the loop over the children of a branch. -/
def branchSearch (rec : Nat → List (Rect N D × T) → Res (List (Rect N D × T) × Bool)) (r : Rect N D) :
    List (Slot N T D) → List (Rect N D × T) → Res (List (Rect N D × T) × Bool)
  | [], acc => .ok (acc, true)
  | s :: L, acc =>
    if s.1.intersects r then do
      let c ← childOf s
      let (acc1, go) ← rec c acc
      if go then branchSearch rec r L acc1 else .ok (acc1, false)
    else branchSearch rec r L acc

/-- rtree.h:428-451 `node_search`. -/
def nodeSearch (st : RT N T D) (r : Rect N D) (fn : Callback N T D) :
    Nat → Nat → List (Rect N D × T) → Res (List (Rect N D × T) × Bool)
  | 0, _, _ => .error .diverge
  | f + 1, i, acc => do
    let n ← getNode st i
    if n.slots.length < n.count then .error .ub
    else if n.kind = .leaf then leafSearch r fn (live n) acc
    else branchSearch (nodeSearch st r fn f) r (live n) acc

/-- rtree.h:453-459 `search`: the entries reported to the callback, in order. -/
def search (st : RT N T D) (r : Rect N D) (fn : Callback N T D) : Res (List (Rect N D × T)) :=
  match st.root with
  | none => .ok []
  | some i => do
    let (acc, _) ← nodeSearch st r fn st.height i []
    .ok acc

/-- Result of `node_delete`: state, `node_rect`, `removed`, `shrunk`. -/
structure Del (N T : Type) (D : Nat) where
  st : RT N T D
  rect : Rect N D
  removed : Bool
  shrunk : Bool

/-- rtree.h:478-484: index of the first entry selected by the predicate. -/
def findItem (fn : Rect N D → T → Bool) : List (Slot N T D) → Nat → Res (Option Nat)
  | [], _ => .ok none
  | s :: L, i =>
    match s.2 with
    | .item d => if fn s.1 d then .ok (some i) else findItem fn L (i + 1)
    | _ => .error .ub

/-- rtree.h:489-491, 532-535: remove slot `i`, the last one takes its place. -/
def dropSlot (n : Node N T D) (i : Nat) : Res (Node N T D) :=
  match n.slots[n.count - 1]? with
  | some l => if 0 < n.count ∧ i < n.slots.length then .ok { n with slots := n.slots.set i l, count := n.count - 1 } else .error .ub
  | none => .error .ub

/-- rtree.h:477-503: `node_delete` on a leaf. -/
def leafDelete (fn : Rect N D → T → Bool) (st : RT N T D) (nr : Rect N D) (id : Nat) (n : Node N T D) (input : Rect N D) :
    Res (Del N T D) := do
  let o ← findItem fn (live n) 0
  match o with
  | none => .ok ⟨st, nr, false, false⟩
  | some i => do
    let n1 ← dropSlot n i
    if input.onedge nr then do
      let b ← boundingBox n1
      .ok ⟨setNode st id n1, b, true, true⟩
    else .ok ⟨setNode st id n1, nr, true, false⟩

/-- rtree.h:528-547: after an entry was removed below slot `h`; `crect` is the rectangle of the slot before. -/
def afterRemove (st : RT N T D) (nr : Rect N D) (id h : Nat) (crect : Rect N D) (depth : Nat) (shrunk : Bool) : Res (Del N T D) := do
  let n ← getNode st id
  let s ← slotAt n h
  let c ← childOf s
  let cn ← getNode st c
  if cn.count = 0 then do
    let st1 ← addFree st c
    let n1 ← dropSlot n h
    let b ← boundingBox n1
    .ok ⟨setNode st1 id n1, b, true, true⟩
  else if shrunk && !s.1.equals crect then do
    let b ← boundingBox n
    .ok ⟨{ st with hint := st.hint.set depth h }, b, true, true⟩
  else .ok ⟨{ st with hint := st.hint.set depth h }, nr, true, false⟩

/-- The recursive call `node_delete(rects_[h], children_[h], …)`: the rectangle is updated in place. -/
def descend (rec : RT N T D → Rect N D → Nat → Res (Del N T D)) (st : RT N T D) (id h : Nat) : Res (Del N T D) := do
  let n ← getNode st id
  let s ← slotAt n h
  let c ← childOf s
  let x ← rec st s.1 c
  let n1 ← getNode x.st id
  .ok { x with st := setNode x.st id { n1 with slots := n1.slots.set h (x.rect, s.2) } }

/-- rtree.h:516-526: try the children from index `h` on. -/
def tryAll (rec : RT N T D → Rect N D → Nat → Res (Del N T D)) (nr : Rect N D) (id : Nat) (input : Rect N D) (depth : Nat) :
    Nat → Nat → RT N T D → Res (Del N T D)
  | 0, _, st => .ok ⟨st, nr, false, false⟩
  | k + 1, h, st => do
    let n ← getNode st id
    let s ← slotAt n h
    if s.1.contains input then do
      let x ← descend rec st id h
      if x.removed then afterRemove x.st nr id h s.1 depth x.shrunk
      else tryAll rec nr id input depth k (h + 1) x.st
    else tryAll rec nr id input depth k (h + 1) st

/-- rtree.h:505-548: `node_delete` on a branch. -/
def branchDelete (rec : RT N T D → Rect N D → Nat → Res (Del N T D)) (st : RT N T D) (nr : Rect N D) (id : Nat) (n : Node N T D)
    (input : Rect N D) (depth : Nat) : Res (Del N T D) := do
  let h ← hintAt st depth
  let ok ← hinted n h input
  if ok then do
    let x ← descend rec st id h
    if x.removed then afterRemove x.st nr id h Rect.zero depth x.shrunk
    else tryAll rec nr id input depth n.count 0 x.st
  else tryAll rec nr id input depth n.count 0 st

/-- rtree.h:470-549 `node_delete`. -/
def nodeDelete (fn : Rect N D → T → Bool) (input : Rect N D) : Nat → Nat → RT N T D → Rect N D → Nat → Res (Del N T D)
  | 0, _, _, _, _ => .error .diverge
  | f + 1, depth, st, nr, id => do
    let n ← getNode st id
    if n.slots.length < n.count then .error .ub
    else if n.kind = .leaf then leafDelete fn st nr id n input
    else branchDelete (nodeDelete fn input f (depth + 1)) st nr id n input depth

/-- rtree.h:572-580: replace the root by its first child while a single entry is left. -/
def collapse : Nat → RT N T D → Nat → Res (RT N T D × Nat)
  | 0, _, _ => .error .diverge
  | f + 1, st, root => do
    let n ← getNode st root
    if n.kind = .branch ∧ st.count = 1 then do
      let s ← slotAt n 0
      let c ← childOf s
      let st1 ← addFree (setNode st root { n with count := 0 }) root
      collapse f { st1 with root := some c, height := st1.height - 1 } c
    else .ok (st, root)

/-- rtree.h:562-585: what follows the removal of an entry. -/
def afterDelete (st : RT N T D) (root : Nat) (shrunk : Bool) : Res (RT N T D) :=
  if st.count = 0 then do
    let st1 ← addFree st root
    .ok { st1 with root := none, height := 0 }
  else do
    let (st1, root1) ← collapse (st.height + 1) st root
    if shrunk then do
      let n ← getNode st1 root1
      let b ← boundingBox n
      .ok { st1 with rect := b }
    else .ok st1

/-- rtree.h:551-585 `delete_0`, 603-607 `delete_element_with_function`. -/
def deleteFn (st : RT N T D) (input : Rect N D) (fn : Rect N D → T → Bool) : Res (RT N T D) :=
  match st.root with
  | none => .ok st
  | some root => do
    let x ← nodeDelete fn input st.height 0 st st.rect root
    if x.removed then afterDelete { x.st with rect := x.rect, count := x.st.count - 1 } root x.shrunk
    else .ok { x.st with rect := x.rect }

/-- rtree.h:587-601 `delete_element`. -/
def delete [DecidableEq T] (st : RT N T D) (r : Rect N D) (d : T) : Res (RT N T D) :=
  deleteFn st r fun r' d' => coordEq r.lo r'.lo && coordEq r.hi r'.hi && decide (d = d')

end Cista.RTree
