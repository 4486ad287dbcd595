import Verif.Sum.Variant
import Verif.Mem

set_option linter.unusedSimpArgs false

/-!
# C112, C113 — variants and tuples of elements whose constructors may throw
-/
namespace Cista.Variant

variable {α : Type} {e : Env α}

/-- variant.h:105-121 `operator=(Arg&&)`; `throws`: the assignment or construction of the element throws (an assignment
that throws leaves its target as it was).  Old object and index are replaced before the construction. -/
def Var.assignT (e : Env α) (throws : Bool) (v : Var α) (cat : Cat) (t : TypeId) (x : α) : Res (Var α × Bool) :=
  if e.indexOf t = v.idx then do
    let (t', _) ← v.apply e
    if t' = t ∧ cat = .rvalue then
      if throws then return (v, true) else return ({ v with slot := some (t, x) }, false)
    else return (v, false)
  else do
    let v ← v.destruct e
    if throws then return (⟨e.indexOf t, v.slot⟩, true) else do
      let v ← (⟨e.indexOf t, v.slot⟩ : Var α).construct t x
      return (v, false)

/-- variant.h:175-182 `emplace<T>(x)`. -/
def Var.emplaceT (e : Env α) (throws : Bool) (v : Var α) (t : TypeId) (x : α) : Res (Var α × Bool) := do
  let v ← v.destruct e
  if throws then return (⟨e.indexOf t, v.slot⟩, true) else do
    let v ← (⟨e.indexOf t, v.slot⟩ : Var α).construct t x
    return (v, false)

/-- **C112** (partial): assigning a value of the alternative the variant holds survives a throwing assignment operator: the
variant still holds its old value and can be destroyed.  Without exceptions assignment and `emplace` store the value.

Missing: changing the alternative and `emplace` with a constructor that throws (`C112_assign_violated`,
`C112_emplace_violated`). -/
theorem C112_same_alternative_partial (ok : e.Ok) (v : Var α) (t : TypeId) (old new : α)
    (h : VOk e v (some (t, old))) :
    v.assignT e true .rvalue t new = .ok (v, true) ∧ v.destroy e = .ok () ∧
    (∃ v', v.assignT e false .rvalue t new = .ok (v', false) ∧ VOk e v' (some (t, new))) ∧
    ∀ u ∈ e.tys, (∃ v', v.assignT e false .rvalue u new = .ok (v', false) ∧ VOk e v' (some (u, new))) ∧
      ∃ v', v.emplaceT e false u new = .ok (v', false) ∧ VOk e v' (some (u, new)) := by
  have happ := apply_ok ok h
  have hd := destruct_ok ok h
  have hdes := destroy_ok ok h
  obtain ⟨k, hk, rfl⟩ := h
  have hi := indexOf_get ok hk
  have same : ∀ throws, (⟨k, some (t, old)⟩ : Var α).assignT e throws .rvalue t new =
      .ok (if throws then (⟨k, some (t, old)⟩, true) else (⟨k, some (t, new)⟩, false)) := by
    intro throws
    unfold Var.assignT
    rw [if_pos hi, happ]
    cases throws <;> simp [bind, Except.bind, pure, Except.pure]
  refine ⟨by rw [same]; rfl, hdes, ⟨_, by rw [same]; rfl, k, hk, rfl⟩, ?_⟩
  intro u hu
  obtain ⟨j, hj, hij, _⟩ := exists_indexOf ok hu
  constructor
  · by_cases hjk : j = k
    · subst hjk
      rw [hk] at hj
      cases hj
      exact ⟨_, by rw [same]; rfl, j, hk, rfl⟩
    · refine ⟨⟨j, some (u, new)⟩, ?_, j, hj, rfl⟩
      unfold Var.assignT
      rw [if_neg (by rw [hij]; exact hjk), hd, hij]
      rfl
  · refine ⟨⟨j, some (u, new)⟩, ?_, j, hj, rfl⟩
    unfold Var.emplaceT
    rw [hd, hij]
    rfl

/-- What is left when the constructor threw: an index without an object. -/
theorem hollow (ok : e.Ok) {t : TypeId} (ht : t ∈ e.tys) : (⟨e.indexOf t, none⟩ : Var α).valid e = true ∧
    (⟨e.indexOf t, none⟩ : Var α).apply e = .error .ub ∧ (⟨e.indexOf t, none⟩ : Var α).destroy e = .error .ub := by
  obtain ⟨j, hj, hij, hlt⟩ := exists_indexOf ok ht
  have hne := ne_no ok hj
  have happ : (⟨e.indexOf t, none⟩ : Var α).apply e = .error .ub := by
    unfold Var.apply Var.applyAt
    simp only [hij, if_neg hne, hj]
    rfl
  refine ⟨by unfold Var.valid; simp only [hij]; simpa using hne, happ, ?_⟩
  unfold Var.destroy Var.destruct
  simp only [hij] at happ ⊢
  rw [if_pos hne, happ]
  rfl

/-- **C112** (violated): for every variant and every alternative other than the present one, if the constructor of the new
value throws during assignment, the old value is gone, the variant claims to hold a value of the new
alternative, and using or merely destroying it is undefined behaviour. -/
theorem C112_assign_violated (ok : e.Ok) (v : Var α) (s : SVar α) (h : VOk e v s) (cat : Cat) (t : TypeId) (x : α)
    (ht : t ∈ e.tys) (hne : e.indexOf t ≠ v.idx) :
    ∃ v', v.assignT e true cat t x = .ok (v', true) ∧ v'.valid e = true ∧ v'.apply e = .error .ub ∧
      v'.destroy e = .error .ub := by
  refine ⟨⟨e.indexOf t, none⟩, ?_, hollow ok ht⟩
  unfold Var.assignT
  rw [if_neg hne, destruct_ok ok h]
  rfl

/-- **C112** (violated): the same for `emplace`, whatever the variant holds. -/
theorem C112_emplace_violated (ok : e.Ok) (v : Var α) (s : SVar α) (h : VOk e v s) (t : TypeId) (x : α)
    (ht : t ∈ e.tys) :
    ∃ v', v.emplaceT e true t x = .ok (v', true) ∧ v'.valid e = true ∧ v'.apply e = .error .ub ∧
      v'.destroy e = .error .ub := by
  refine ⟨⟨e.indexOf t, none⟩, ?_, hollow ok ht⟩
  unfold Var.emplaceT
  rw [destruct_ok ok h]
  rfl

/-- Non-vacuity (C112): a variant of three types holding 5 as its first type. -/
example : VOk env3 ⟨0, some (10, 5)⟩ (some (10, 5)) ∧ 20 ∈ env3.tys ∧ env3.indexOf 20 ≠ 0 ∧
    (⟨0, some (10, 5)⟩ : Var Nat).assignT env3 true .rvalue 20 7 = .ok (⟨1, none⟩, true) ∧
    (⟨0, some (10, 5)⟩ : Var Nat).assignT env3 true .rvalue 10 7 = .ok (⟨0, some (10, 5)⟩, true) :=
  ⟨⟨0, rfl, rfl⟩, by decide, by decide, rfl, rfl⟩

end Cista.Variant

namespace Cista.TupleLife

open Cista.Mem

variable {α : Type}

/-! ## Lifetimes of tuple elements

Model of the life of the elements of `cista::tuple<Ts...>` (tuple.h:100-185).  The storage `mem_` is a list of
slots, one per element (placement inside `mem_` is the subject of C28); values of all element types live in one
carrier.  `throws i`: constructing or copy-assigning element `i` throws (an assignment that throws leaves its target
as it was). -/

/-- The value of a live element. -/
def readAt (mem : List (Slot α)) (i : Nat) : Res α :=
  match mem[i]? with
  | some (.val a) => .ok a
  | _ => .error .ub

/-- Placement new. -/
def newAt (mem : List (Slot α)) (i : Nat) (a : α) : Res (List (Slot α)) :=
  match mem[i]? with
  | some .raw => .ok (mem.set i (.val a))
  | some _ => .error .leak
  | none => .error .ub

/-- Assignment to a live element. -/
def assignAt (mem : List (Slot α)) (i : Nat) (a : α) : Res (List (Slot α)) :=
  match mem[i]? with
  | some .raw => .error .ub
  | some _ => .ok (mem.set i (.val a))
  | none => .error .ub

/-- Destructor call. -/
def destroyAt (mem : List (Slot α)) (i : Nat) : Res (List (Slot α)) :=
  match mem[i]? with
  | some .raw => .error .ub
  | some _ => .ok (mem.set i .raw)
  | none => .error .ub

/-- tuple.h:130-140 `move_construct_from_args`, `default_construct`: elements `i`, `i+1`, … get the values `xs`. -/
def initFrom (throws : Nat → Bool) : Nat → List α → List (Slot α) → Res (List (Slot α) × Bool)
  | _, [], mem => .ok (mem, false)
  | i, a :: xs, mem =>
    if throws i then .ok (mem, true) else do
      let mem ← newAt mem i a
      initFrom throws (i + 1) xs mem

/-- tuple.h:142-145 `copy_construct`: `n` elements from `i`. -/
def copyConstruct (throws : Nat → Bool) (src : List (Slot α)) : Nat → Nat → List (Slot α) →
    Res (List (Slot α) × Bool)
  | 0, _, mem => .ok (mem, false)
  | n + 1, i, mem => do
    let a ← readAt src i
    if throws i then .ok (mem, true) else do
      let mem ← newAt mem i a
      copyConstruct throws src n (i + 1) mem

/-- tuple.h:152-156 `move_construct`: the source and the new storage. -/
def moveConstruct : Nat → Nat → List (Slot α) → List (Slot α) → Res (List (Slot α) × List (Slot α))
  | 0, _, src, mem => .ok (src, mem)
  | n + 1, i, src, mem => do
    let a ← readAt src i
    let mem ← newAt mem i a
    moveConstruct n (i + 1) (src.set i .moved) mem

/-- tuple.h:147-150 `copy_assign`. -/
def copyAssign (throws : Nat → Bool) (src : List (Slot α)) : Nat → Nat → List (Slot α) →
    Res (List (Slot α) × Bool)
  | 0, _, mem => .ok (mem, false)
  | n + 1, i, mem => do
    let a ← readAt src i
    if throws i then .ok (mem, true) else do
      let mem ← assignAt mem i a
      copyAssign throws src n (i + 1) mem

/-- tuple.h:158-161 `move_assign` from another tuple. -/
def moveAssign : Nat → Nat → List (Slot α) → List (Slot α) → Res (List (Slot α) × List (Slot α))
  | 0, _, src, mem => .ok (src, mem)
  | n + 1, i, src, mem => do
    let a ← readAt src i
    let mem ← assignAt mem i a
    moveAssign n (i + 1) (src.set i .moved) mem

/-- tuple.h:163-172 `destruct`. -/
def destruct : Nat → Nat → List (Slot α) → Res (List (Slot α))
  | 0, _, mem => .ok mem
  | n + 1, i, mem => do
    let mem ← destroyAt mem i
    destruct n (i + 1) mem

/-- All tuple variables (`none`: no tuple) and the number of elements that are still alive in storage that has
been given up. -/
structure St (α : Type) where
  ts : Nat → Option (List (Slot α))
  lost : Nat

/-- Assign a variable. -/
def upd {β : Type} (m : Nat → β) (d : Nat) (v : β) : Nat → β := fun x => if x = d then v else m x

/-- Live elements. -/
def alive (mem : List (Slot α)) : Nat := mem.countP fun s => !s.isRaw

/-- The end of a constructor: if it threw there is no tuple, and the storage is given up as it is. -/
def St.born (s : St α) (d : Nat) (r : List (Slot α) × Bool) : St α × Bool :=
  if r.2 then (⟨s.ts, s.lost + alive r.1⟩, true) else (⟨upd s.ts d (some r.1), s.lost⟩, false)

/-- The storage of an existing tuple. -/
def St.get (s : St α) (d : Nat) : Res (List (Slot α)) :=
  match s.ts d with
  | some mem => .ok mem
  | none => .error .ub

/-- The storage for a new tuple in a variable that holds none. -/
def St.room (s : St α) (n d : Nat) : Res (List (Slot α)) :=
  match s.ts d with
  | some _ => .error .leak
  | none => .ok (List.replicate n .raw)

/-- Operations on tuple variables. -/
inductive Op (α : Type) where
  /-- `tuple d{xs...}` or `tuple d` -/
  | make (d : Nat) (xs : List α)
  /-- `tuple d{s}` -/
  | copy (d s : Nat)
  /-- `tuple d{std::move(s)}` -/
  | move (d s : Nat)
  /-- `d = s` -/
  | assign (d s : Nat)
  /-- `d = std::move(s)` -/
  | massign (d s : Nat)
  /-- `get<i>(d) = x` -/
  | set (d i : Nat) (x : α)
  /-- end of life -/
  | destroy (d : Nat)

/-- Execute one operation on tuples of `n` elements; the flag says whether an exception left it.
tuple.h:105-128. -/
def Op.exec (n : Nat) (throws : Nat → Bool) (s : St α) : Op α → Res (St α × Bool)
  | .make d xs => do
    let mem ← s.room n d
    let r ← initFrom throws 0 xs mem
    return s.born d r
  | .copy d o => do
    let mem ← s.room n d
    let src ← s.get o
    let r ← copyConstruct throws src n 0 mem
    return s.born d r
  | .move d o => do
    let mem ← s.room n d
    let src ← s.get o
    let r ← moveConstruct n 0 src mem
    return (⟨upd (upd s.ts o (some r.1)) d (some r.2), s.lost⟩, false)
  | .assign d o => do
    let mem ← s.get d
    let src ← s.get o
    if d = o then return (s, false) else do
      let r ← copyAssign throws src n 0 mem
      return (⟨upd s.ts d (some r.1), s.lost⟩, r.2)
  | .massign d o => do
    let mem ← s.get d
    let src ← s.get o
    let r ← moveAssign n 0 src mem
    return (⟨upd (upd s.ts o (some r.1)) d (some r.2), s.lost⟩, false)
  | .set d i x => do
    let mem ← s.get d
    if throws i then return (s, true) else do
      let mem ← assignAt mem i x
      return (⟨upd s.ts d (some mem), s.lost⟩, false)
  | .destroy d => do
    let mem ← s.get d
    let mem ← destruct n 0 mem
    return (⟨upd s.ts d none, s.lost + alive mem⟩, false)

/-- Run a history; each operation comes with the elements that throw in it. -/
def run (n : Nat) : List (Op α × (Nat → Bool)) → St α → Res (St α × List Bool)
  | [], s => .ok (s, [])
  | (op, throws) :: ops, s => (op.exec n throws s).bind fun r =>
      (run n ops r.1).map fun q => (q.1, r.2 :: q.2)

/-! ### Specification -/

/-- A tuple is a list of values; `none` is an element whose value has been moved away. -/
abbrev STup (α : Type) := List (Option α)

/-- What an operation does to the tuples if the elements `throws` says throw; `none`: the caller's obligations are not
met (the variable is in use, a moved-from value is read, self-move) or a constructor throws. -/
inductive Step (n : Nat) (throws : Nat → Bool) (m : Nat → Option (STup α)) :
    Op α → Bool → (Nat → Option (STup α)) → Prop
  | make {d : Nat} {xs : List α} (hd : m d = none) (hx : xs.length = n) (ht : ∀ i, i < n → throws i = false) :
      Step n throws m (.make d xs) false (upd m d (some (xs.map some)))
  | copy {d o : Nat} {xs : List α} (hd : m d = none) (ho : m o = some (xs.map some))
      (ht : ∀ i, i < n → throws i = false) :
      Step n throws m (.copy d o) false (upd m d (some (xs.map some)))
  | move {d o : Nat} {xs : List α} (hd : m d = none) (ho : m o = some (xs.map some)) :
      Step n throws m (.move d o) false (upd (upd m o (some (List.replicate n none))) d (some (xs.map some)))
  | assignSelf {d : Nat} {ys : STup α} (hd : m d = some ys) : Step n throws m (.assign d d) false m
  | assign {d o : Nat} {xs : List α} {ys : STup α} (hne : d ≠ o) (hd : m d = some ys) (ho : m o = some (xs.map some))
      (ht : ∀ i, i < n → throws i = false) :
      Step n throws m (.assign d o) false (upd m d (some (xs.map some)))
  | assignThrow {d o k : Nat} {xs : List α} {ys : STup α} (hne : d ≠ o) (hd : m d = some ys)
      (ho : m o = some (xs.map some)) (hk : k < n) (hck : throws k = true) (hcl : ∀ i, i < k → throws i = false) :
      Step n throws m (.assign d o) true (upd m d (some ((xs.take k).map some ++ ys.drop k)))
  | massign {d o : Nat} {xs : List α} {ys : STup α} (hne : d ≠ o) (hd : m d = some ys) (ho : m o = some (xs.map some)) :
      Step n throws m (.massign d o) false (upd (upd m o (some (List.replicate n none))) d (some (xs.map some)))
  | set {d i : Nat} {x : α} {ys : STup α} (hd : m d = some ys) (hi : i < n) (ht : throws i = false) :
      Step n throws m (.set d i x) false (upd m d (some (ys.set i (some x))))
  | setThrow {d i : Nat} {x : α} {ys : STup α} (hd : m d = some ys) (hi : i < n) (ht : throws i = true) :
      Step n throws m (.set d i x) true m
  | destroy {d : Nat} {ys : STup α} (hd : m d = some ys) : Step n throws m (.destroy d) false (upd m d none)

/-- A history of such operations. -/
inductive Steps (n : Nat) : (Nat → Option (STup α)) → List (Op α × (Nat → Bool)) → List Bool →
    (Nat → Option (STup α)) → Prop
  | nil {m : Nat → Option (STup α)} : Steps n m [] [] m
  | cons {m m1 m2 : Nat → Option (STup α)} {op : Op α} {throws : Nat → Bool} {t : Bool}
      {ops : List (Op α × (Nat → Bool))} {ts : List Bool} (h : Step n throws m op t m1) (hs : Steps n m1 ops ts m2) :
      Steps n m ((op, throws) :: ops) (t :: ts) m2

/-! ### Proof -/

/-- The slots of a tuple. -/
def slots (ys : STup α) : List (Slot α) := ys.map fun
  | some a => .val a
  | none => .moved

/-- The variables represent the tuples, all of `n` elements, and nothing is lost. -/
structure Rel (n : Nat) (s : St α) (m : Nat → Option (STup α)) : Prop where
  rep : ∀ d, s.ts d = (m d).map slots
  len : ∀ d ys, m d = some ys → ys.length = n
  lost : s.lost = 0

theorem slots_some (xs : List α) : slots (xs.map some) = xs.map .val := by
  simp [slots, Function.comp_def]

theorem slots_none (n : Nat) : slots (List.replicate n (none : Option α)) = List.replicate n .moved := by
  simp [slots]

theorem slots_live (ys : STup α) : ∀ s ∈ slots ys, s.isRaw = false := by
  intro s hs
  obtain ⟨y, _, rfl⟩ := List.mem_map.1 hs
  cases y <;> rfl

theorem Rel.set {n : Nat} {s : St α} {m : Nat → Option (STup α)} (h : Rel n s m) (d : Nat) (y : Option (STup α))
    (hy : ∀ ys, y = some ys → ys.length = n) : Rel n ⟨upd s.ts d (y.map slots), s.lost⟩ (upd m d y) := by
  refine ⟨fun x => ?_, fun x ys hx => ?_, h.lost⟩
  · simp only [upd]
    by_cases hxd : x = d
    · simp [hxd]
    · simp [hxd, h.rep x]
  · simp only [upd] at hx
    by_cases hxd : x = d
    · rw [if_pos hxd] at hx; exact hy ys hx
    · rw [if_neg hxd] at hx; exact h.len x ys hx

theorem Rel.get {n : Nat} {s : St α} {m : Nat → Option (STup α)} (h : Rel n s m) {d : Nat} {ys : STup α}
    (hd : m d = some ys) : s.get d = .ok (slots ys) := by
  simp [St.get, h.rep d, hd]

theorem Rel.room {n : Nat} {s : St α} {m : Nat → Option (STup α)} (h : Rel n s m) {d : Nat}
    (hd : m d = none) (k : Nat) : s.room k d = .ok (List.replicate k .raw) := by
  simp [St.room, h.rep d, hd]

section loops
variable {p : List (Slot α)}

theorem newAt_ok {q : List (Slot α)} {i : Nat} (hi : i = p.length) (a : α) :
    newAt (p ++ .raw :: q) i a = .ok (p ++ .val a :: q) := by
  subst hi
  simp [newAt]

theorem readAt_ok {q : List (Slot α)} {i : Nat} {a : α} (hi : i = p.length) :
    readAt (p ++ .val a :: q) i = .ok a := by
  subst hi
  simp [readAt]

theorem assignAt_ok {q : List (Slot α)} {i : Nat} {s : Slot α} (hi : i = p.length) (hs : s.isRaw = false) (a : α) :
    assignAt (p ++ s :: q) i a = .ok (p ++ .val a :: q) := by
  subst hi
  cases s with
  | raw => cases hs
  | moved => simp [assignAt]
  | val b => simp [assignAt]

theorem destroyAt_ok {q : List (Slot α)} {i : Nat} {s : Slot α} (hi : i = p.length) (hs : s.isRaw = false) :
    destroyAt (p ++ s :: q) i = .ok (p ++ .raw :: q) := by
  subst hi
  cases s with
  | raw => cases hs
  | moved => simp [destroyAt]
  | val b => simp [destroyAt]

end loops

/-- How far a loop over elements `i, …, i+n-1` gets. -/
theorem first_throw (throws : Nat → Bool) : ∀ (n i : Nat), (∀ j, i ≤ j → j < i + n → throws j = false) ∨
    ∃ k, k < n ∧ throws (i + k) = true ∧ ∀ j, i ≤ j → j < i + k → throws j = false
  | 0, i => Or.inl (by intro j h1 h2; omega)
  | n + 1, i => by
    cases hi : throws i with
    | true => exact Or.inr ⟨0, by omega, by simpa using hi, by intro j h1 h2; omega⟩
    | false =>
      rcases first_throw throws n (i + 1) with h | ⟨k, hk, h1, h2⟩
      · left
        intro j hj1 hj2
        by_cases hji : j = i
        · rw [hji]; exact hi
        · exact h j (by omega) (by omega)
      · right
        refine ⟨k + 1, by omega, by rw [show i + (k + 1) = i + 1 + k by omega]; exact h1, ?_⟩
        intro j hj1 hj2
        by_cases hji : j = i
        · rw [hji]; exact hi
        · exact h2 j (by omega) (by omega)

/-- Constructing elements until one throws (`k` of them are constructed; all if `k` is their number). -/
theorem initFrom_ok {throws : Nat → Bool} : ∀ (xs : List α) {p q : List (Slot α)} {i k : Nat}, i = p.length →
    k ≤ xs.length → (∀ j, i ≤ j → j < i + k → throws j = false) → (k < xs.length → throws (i + k) = true) →
    initFrom throws i xs (p ++ (List.replicate xs.length .raw ++ q)) =
      .ok (p ++ ((xs.take k).map .val ++ (List.replicate (xs.length - k) .raw ++ q)), decide (k < xs.length))
  | [], p, q, i, k, hi, hk, _, _ => by
    have : k = 0 := by simpa using hk
    subst this
    simp [initFrom]
  | a :: xs, p, q, i, 0, hi, hk, _, ht => by
    have := ht (by simp)
    simp only [Nat.add_zero] at this
    simp [initFrom, this]
  | a :: xs, p, q, i, k + 1, hi, hk, hcl, ht => by
    simp only [initFrom, hcl i (Nat.le_refl _) (by omega), Bool.false_eq_true, if_false, List.length_cons,
      List.replicate_succ, List.cons_append]
    rw [newAt_ok hi, ok_bind]
    have := initFrom_ok (throws := throws) xs (p := p ++ [.val a]) (q := q) (i := i + 1) (k := k) (by simp [hi])
      (by simpa using hk) (fun j h1 h2 => hcl j (by omega) (by omega))
      (fun h => by rw [show i + 1 + k = i + (k + 1) by omega]; exact ht (by simpa using h))
    simp only [List.append_assoc, List.cons_append, List.nil_append] at this
    rw [this]
    simp

theorem copyConstruct_eq (throws : Nat → Bool) : ∀ (xs : List α) (r : List (Slot α)) (i : Nat) (mem : List (Slot α)),
    i = r.length → copyConstruct throws (r ++ xs.map .val) xs.length i mem = initFrom throws i xs mem
  | [], _, _, _, _ => rfl
  | a :: xs, r, i, mem, hi => by
    simp only [List.length_cons, copyConstruct, List.map_cons, initFrom]
    rw [readAt_ok hi, ok_bind]
    by_cases ht : throws i = true
    · simp only [if_pos ht]
    · simp only [if_neg ht]
      cases newAt mem i a with
      | error e => rfl
      | ok mem' =>
        simp only [ok_bind]
        have := copyConstruct_eq throws xs (r ++ [.val a]) (i + 1) mem' (by simp [hi])
        simpa using this

theorem moveConstruct_ok : ∀ (xs : List α) {r p q : List (Slot α)} {i : Nat}, i = r.length → i = p.length →
    moveConstruct xs.length i (r ++ xs.map .val) (p ++ (List.replicate xs.length .raw ++ q)) =
      .ok (r ++ List.replicate xs.length .moved, p ++ (xs.map .val ++ q))
  | [], r, p, q, i, _, _ => by simp [moveConstruct]
  | a :: xs, r, p, q, i, hr, hp => by
    simp only [List.length_cons, moveConstruct, List.map_cons, List.replicate_succ, List.cons_append]
    rw [readAt_ok hr, ok_bind, newAt_ok hp, ok_bind]
    have := moveConstruct_ok xs (r := r ++ [.moved]) (p := p ++ [.val a]) (q := q) (i := i + 1) (by simp [hr])
      (by simp [hp])
    simp only [List.append_assoc, List.cons_append, List.nil_append] at this
    rw [show List.set (r ++ Slot.val a :: xs.map Slot.val) i Slot.moved = r ++ Slot.moved :: xs.map Slot.val by
      subst hr; simp, this]

theorem copyAssign_ok {throws : Nat → Bool} : ∀ (xs : List α) {r p : List (Slot α)} {ys : List (Slot α)} {i k : Nat},
    i = r.length → i = p.length → ys.length = xs.length → (∀ s ∈ ys, s.isRaw = false) → k ≤ xs.length →
    (∀ j, i ≤ j → j < i + k → throws j = false) → (k < xs.length → throws (i + k) = true) →
    copyAssign throws (r ++ xs.map .val) xs.length i (p ++ ys) =
      .ok (p ++ ((xs.take k).map .val ++ ys.drop k), decide (k < xs.length))
  | [], r, p, ys, i, k, _, _, hy, _, hk, _, _ => by
    have hk0 : k = 0 := by simpa using hk
    have hy0 : ys = [] := List.length_eq_zero_iff.1 (by simpa using hy)
    subst hk0; subst hy0
    simp [copyAssign]
  | a :: xs, r, p, ys, i, 0, hr, _, _, _, _, _, ht => by
    have := ht (by simp)
    simp only [Nat.add_zero] at this
    simp only [List.length_cons, copyAssign, List.map_cons]
    rw [readAt_ok hr, ok_bind]
    simp [this]
  | a :: xs, r, p, [], i, k + 1, _, _, hy, _, _, _, _ => by simp at hy
  | a :: xs, r, p, y :: ys, i, k + 1, hr, hp, hy, hl, hk, hcl, ht => by
    simp only [List.length_cons, copyAssign, List.map_cons]
    rw [readAt_ok hr, ok_bind]
    simp only [hcl i (Nat.le_refl _) (by omega), Bool.false_eq_true, if_false]
    rw [assignAt_ok hp (hl y List.mem_cons_self), ok_bind]
    have := copyAssign_ok (throws := throws) xs (r := r ++ [.val a]) (p := p ++ [.val a]) (ys := ys) (i := i + 1) (k := k)
      (by simp [hr]) (by simp [hp]) (by simpa using hy) (fun s hs => hl s (List.mem_cons_of_mem _ hs))
      (by simpa using hk) (fun j h1 h2 => hcl j (by omega) (by omega))
      (fun h => by rw [show i + 1 + k = i + (k + 1) by omega]; exact ht (by simpa using h))
    simp only [List.append_assoc, List.cons_append, List.nil_append] at this
    rw [this]
    simp

theorem moveAssign_ok : ∀ (xs : List α) {r p : List (Slot α)} {ys : List (Slot α)} {i : Nat}, i = r.length →
    i = p.length → ys.length = xs.length → (∀ s ∈ ys, s.isRaw = false) →
    moveAssign xs.length i (r ++ xs.map .val) (p ++ ys) = .ok (r ++ List.replicate xs.length .moved, p ++ xs.map .val)
  | [], r, p, ys, i, _, _, hy, _ => by
    have hy0 : ys = [] := List.length_eq_zero_iff.1 (by simpa using hy)
    subst hy0
    simp [moveAssign]
  | a :: xs, r, p, [], i, _, _, hy, _ => by simp at hy
  | a :: xs, r, p, y :: ys, i, hr, hp, hy, hl => by
    simp only [List.length_cons, moveAssign, List.map_cons, List.replicate_succ]
    rw [readAt_ok hr, ok_bind, assignAt_ok hp (hl y List.mem_cons_self), ok_bind]
    have := moveAssign_ok xs (r := r ++ [.moved]) (p := p ++ [.val a]) (ys := ys) (i := i + 1) (by simp [hr])
      (by simp [hp]) (by simpa using hy) (fun s hs => hl s (List.mem_cons_of_mem _ hs))
    simp only [List.append_assoc, List.cons_append, List.nil_append] at this
    rw [show List.set (r ++ Slot.val a :: xs.map Slot.val) i Slot.moved = r ++ Slot.moved :: xs.map Slot.val by
      subst hr; simp, this]

theorem destruct_ok : ∀ (ys : List (Slot α)) {p : List (Slot α)} {i : Nat}, i = p.length →
    (∀ s ∈ ys, s.isRaw = false) → destruct ys.length i (p ++ ys) = .ok (p ++ List.replicate ys.length .raw)
  | [], p, i, _, _ => by simp [destruct]
  | y :: ys, p, i, hp, hl => by
    simp only [List.length_cons, destruct, List.replicate_succ]
    rw [destroyAt_ok hp (hl y List.mem_cons_self), ok_bind]
    have := destruct_ok ys (p := p ++ [.raw]) (i := i + 1) (by simp [hp]) (fun s hs => hl s (List.mem_cons_of_mem _ hs))
    simp only [List.append_assoc, List.cons_append, List.nil_append] at this
    exact this

theorem alive_raw (n : Nat) : alive (List.replicate n (Slot.raw : Slot α)) = 0 := by
  unfold alive
  rw [List.countP_eq_zero]
  intro s hs
  rw [(List.mem_replicate.1 hs).2]
  simp [Slot.isRaw]

theorem slots_length (ys : STup α) : (slots ys).length = ys.length := by simp [slots]

theorem exec_ok {n : Nat} {throws : Nat → Bool} {s : St α} {m m' : Nat → Option (STup α)} {op : Op α} {t : Bool}
    (h : Rel n s m) (hs : Step n throws m op t m') : ∃ s', op.exec n throws s = .ok (s', t) ∧ Rel n s' m' := by
  cases hs with
  | @make d xs hd hx ht =>
    simp only [Op.exec, h.room hd, ok_bind]
    have e := initFrom_ok (throws := throws) xs (p := []) (q := []) (i := 0) (k := xs.length) rfl (Nat.le_refl _)
      (fun j _ hj => ht j (by omega)) (fun hlt => absurd hlt (by omega))
    simp only [List.nil_append, List.append_nil, List.take_length, Nat.sub_self, List.replicate_zero, Nat.lt_irrefl,
      decide_false] at e
    rw [← hx, e]
    refine ⟨_, rfl, ?_⟩
    have := h.set d (some (xs.map some)) (by intro ys hy; cases hy; simpa using hx)
    simpa [slots_some, hx] using this
  | @copy d o xs hd ho ht =>
    have hx : xs.length = n := by have := h.len o _ ho; simpa using this
    simp only [Op.exec, h.room hd, h.get ho, ok_bind, slots_some]
    have e := initFrom_ok (throws := throws) xs (p := []) (q := []) (i := 0) (k := xs.length) rfl (Nat.le_refl _)
      (fun j _ hj => ht j (by omega)) (fun hlt => absurd hlt (by omega))
    simp only [List.nil_append, List.append_nil, List.take_length, Nat.sub_self, List.replicate_zero, Nat.lt_irrefl,
      decide_false] at e
    have ec := copyConstruct_eq throws xs [] 0 (List.replicate xs.length .raw) rfl
    rw [List.nil_append] at ec
    rw [← hx, ec, e]
    refine ⟨_, rfl, ?_⟩
    have := h.set d (some (xs.map some)) (by intro ys hy; cases hy; simpa using hx)
    simpa [slots_some, hx] using this
  | @move d o xs hd ho =>
    have hx : xs.length = n := by have := h.len o _ ho; simpa using this
    simp only [Op.exec, h.room hd, h.get ho, ok_bind, slots_some]
    have e := moveConstruct_ok xs (r := []) (p := []) (q := []) (i := 0) rfl rfl
    simp only [List.nil_append, List.append_nil] at e
    rw [← hx, e]
    refine ⟨_, rfl, ?_⟩
    have h1 := h.set o (some (List.replicate n none)) (by intro ys hy; cases hy; simp)
    have h2 := h1.set d (some (xs.map some)) (by intro ys hy; cases hy; simpa using hx)
    simpa [slots_some, slots_none, hx] using h2
  | @assignSelf d ys hd =>
    simp only [Op.exec, h.get hd, ok_bind, if_true]
    exact ⟨s, rfl, h⟩
  | @assign d o xs ys hne hd ho ht =>
    have hx : xs.length = n := by have := h.len o _ ho; simpa using this
    have hy : ys.length = n := h.len d _ hd
    simp only [Op.exec, h.get hd, h.get ho, ok_bind, slots_some, if_neg hne]
    have e := copyAssign_ok (throws := throws) xs (r := []) (p := []) (ys := slots ys) (i := 0) (k := xs.length) rfl rfl
      (by rw [slots_length]; omega) (slots_live ys) (Nat.le_refl _) (fun j _ hj => ht j (by omega))
      (fun hlt => absurd hlt (by omega))
    simp only [List.nil_append, List.take_length, Nat.lt_irrefl, decide_false,
      List.drop_of_length_le (show (slots ys).length ≤ xs.length by rw [slots_length]; omega), List.append_nil] at e
    rw [← hx, e]
    refine ⟨_, rfl, ?_⟩
    have := h.set d (some (xs.map some)) (by intro ys hy; cases hy; simpa using hx)
    simpa [slots_some, hx] using this
  | @assignThrow d o k xs ys hne hd ho hk hck hcl =>
    have hx : xs.length = n := by have := h.len o _ ho; simpa using this
    have hy : ys.length = n := h.len d _ hd
    simp only [Op.exec, h.get hd, h.get ho, ok_bind, slots_some, if_neg hne]
    have e := copyAssign_ok (throws := throws) xs (r := []) (p := []) (ys := slots ys) (i := 0) (k := k) rfl rfl
      (by rw [slots_length]; omega) (slots_live ys) (by omega) (fun j _ hj => hcl j (by omega))
      (fun _ => by simpa using hck)
    simp only [List.nil_append] at e
    rw [decide_eq_true (show k < xs.length by omega)] at e
    rw [← hx, e]
    refine ⟨_, rfl, ?_⟩
    have := h.set d (some ((xs.take k).map some ++ ys.drop k)) (by
      intro zs hz; cases hz
      simp only [List.length_append, List.length_map, List.length_take, List.length_drop]; omega)
    have hsl : slots ((xs.take k).map some ++ ys.drop k) = (xs.take k).map .val ++ (slots ys).drop k := by
      unfold slots
      rw [List.map_append, List.map_drop]
      congr 1
      simp [Function.comp_def]
    rw [Option.map_some, hsl] at this
    rw [hx]
    exact this
  | @massign d o xs ys hne hd ho =>
    have hx : xs.length = n := by have := h.len o _ ho; simpa using this
    have hy : ys.length = n := h.len d _ hd
    simp only [Op.exec, h.get hd, h.get ho, ok_bind, slots_some]
    have e := moveAssign_ok xs (r := []) (p := []) (ys := slots ys) (i := 0) rfl rfl
      (by rw [slots_length]; omega) (slots_live ys)
    simp only [List.nil_append] at e
    rw [← hx, e]
    refine ⟨_, rfl, ?_⟩
    have h1 := h.set o (some (List.replicate n none)) (by intro ys hy; cases hy; simp)
    have h2 := h1.set d (some (xs.map some)) (by intro ys hy; cases hy; simpa using hx)
    simpa [slots_some, slots_none, hx] using h2
  | @set d i x ys hd hi ht =>
    have hy : ys.length = n := h.len d _ hd
    simp only [Op.exec, h.get hd, ok_bind, ht, Bool.false_eq_true, if_false]
    have hlt : i < (slots ys).length := by rw [slots_length]; omega
    have hlive := slots_live ys _ (List.getElem_mem hlt)
    have ha : assignAt (slots ys) i x = .ok ((slots ys).set i (.val x)) := by
      unfold assignAt
      rw [List.getElem?_eq_getElem hlt]
      revert hlive
      cases (slots ys)[i] with
      | raw => intro hl; cases hl
      | moved => intro _; rfl
      | val b => intro _; rfl
    rw [ha]
    refine ⟨_, rfl, ?_⟩
    have := h.set d (some (ys.set i (some x))) (by intro zs hz; cases hz; simpa using hy)
    have hsl : slots (ys.set i (some x)) = (slots ys).set i (.val x) := by
      unfold slots; rw [List.map_set]
    rw [Option.map_some, hsl] at this
    exact this
  | @setThrow d i x ys hd hi ht =>
    simp only [Op.exec, h.get hd, ok_bind, ht, if_true]
    exact ⟨s, rfl, h⟩
  | @destroy d ys hd =>
    have hy : ys.length = n := h.len d _ hd
    simp only [Op.exec, h.get hd, ok_bind]
    have e := destruct_ok (slots ys) (p := []) (i := 0) rfl (slots_live ys)
    simp only [List.nil_append, slots_length, hy] at e
    rw [e]
    refine ⟨_, rfl, ?_⟩
    have := h.set d none (by intro zs hz; cases hz)
    simpa [alive_raw] using this

/-- **C113** Tuples of any arity and any history of construction, copying, moving, assignment and destruction in which no
element *constructor* throws (assignments may throw at any element): every element is constructed before it is
used, never constructed over a living one, destroyed exactly once — nothing stays alive in the storage of a
destroyed tuple —, and the tuples hold the values of the specification; a throwing assignment has replaced exactly
the elements before the one that threw. -/
theorem C113_history (n : Nat) (ops : List (Op α × (Nat → Bool))) (ts : List Bool) (m : Nat → Option (STup α))
    (h : Steps n (fun _ => none) ops ts m) :
    ∃ s, run n ops ⟨fun _ => none, 0⟩ = .ok (s, ts) ∧ s.lost = 0 ∧
      (∀ d, s.ts d = none ↔ m d = none) ∧
      ∀ d ys, m d = some ys → ∃ mem, s.ts d = some mem ∧ mem.length = n ∧ alive mem = n ∧
        ∀ i a, ys[i]? = some (some a) → readAt mem i = .ok a := by
  have key : ∀ (ops : List (Op α × (Nat → Bool))) (ts : List Bool) (m0 m : Nat → Option (STup α)) (s0 : St α),
      Rel n s0 m0 → Steps n m0 ops ts m → ∃ s, run n ops s0 = .ok (s, ts) ∧ Rel n s m := by
    intro ops
    induction ops with
    | nil => intro ts m0 m s0 h0 hs; cases hs; exact ⟨s0, rfl, h0⟩
    | cons o ops ih =>
      intro ts m0 m s0 h0 hs
      cases hs with
      | @cons _ m1 _ op throws t _ ts' h1 h2 =>
        obtain ⟨s1, e1, r1⟩ := exec_ok h0 h1
        obtain ⟨s2, e2, r2⟩ := ih ts' m1 m s1 r1 h2
        refine ⟨s2, ?_, r2⟩
        simp only [run, e1, Except.bind, e2]
        rfl
  obtain ⟨s, e, r⟩ := key ops ts _ m ⟨fun _ => none, 0⟩
    ⟨fun _ => rfl, fun _ _ hx => (by cases hx), rfl⟩ h
  refine ⟨s, e, r.lost, fun d => ?_, ?_⟩
  · rw [r.rep d]
    cases m d <;> simp
  · intro d ys hd
    refine ⟨slots ys, by rw [r.rep d, hd]; rfl, by rw [slots_length]; exact r.len d ys hd, ?_, ?_⟩
    · unfold alive
      rw [List.countP_eq_length.2 (fun s hs => by simp [slots_live ys s hs]), slots_length]
      exact r.len d ys hd
    · intro i a hi
      unfold readAt slots
      rw [List.getElem?_map, hi]
      rfl

/-- Every obeying operation can be carried out: the specification is not stuck on a copy assignment, whichever elements
throw. -/
theorem assign_total {n : Nat} (throws : Nat → Bool) (m : Nat → Option (STup α)) (d o : Nat) (xs : List α) (ys : STup α)
    (hne : d ≠ o) (hd : m d = some ys) (ho : m o = some (xs.map some)) : ∃ t m', Step n throws m (.assign d o) t m' := by
  rcases first_throw throws n 0 with h | ⟨k, hk, h1, h2⟩
  · exact ⟨_, _, .assign hne hd ho (fun i hi => h i (Nat.zero_le _) (by omega))⟩
  · exact ⟨_, _, .assignThrow hne hd ho hk (by simpa using h1) (fun i hi => h2 i (Nat.zero_le _) (by omega))⟩

/-- The limit of C113: if the constructor of element `k` throws while a tuple is constructed or copied, the `k` elements
before it stay alive for ever (tuple.h has no cleanup, and the destructor of an object that was never completed does
not run). -/
theorem ctor_throw_leaks (n : Nat) (throws : Nat → Bool) (s : St α) (d : Nat) (hd : s.ts d = none) (xs : List α)
    (hx : xs.length = n) (k : Nat) (hk : k < n) (hck : throws k = true) (hcl : ∀ i, i < k → throws i = false) :
    ∃ s', (Op.make d xs).exec n throws s = .ok (s', true) ∧ s'.ts = s.ts ∧ s'.lost = s.lost + k := by
  have e := initFrom_ok (throws := throws) xs (p := []) (q := []) (i := 0) (k := k) rfl (by omega)
      (fun j _ hj => hcl j (by omega)) (fun _ => by simpa using hck)
  simp only [List.nil_append, List.append_nil] at e
  rw [decide_eq_true (show k < xs.length by omega)] at e
  refine ⟨⟨s.ts, s.lost + k⟩, ?_, rfl, rfl⟩
  simp only [Op.exec, St.room, hd, ok_bind]
  rw [← hx, e]
  simp only [ok_bind, St.born, if_true]
  have hal : alive ((xs.take k).map Slot.val ++ List.replicate (xs.length - k) .raw) = k := by
    unfold alive
    rw [List.countP_append, List.countP_eq_length.2 (by
      intro t ht
      obtain ⟨a, _, rfl⟩ := List.mem_map.1 ht
      rfl)]
    have := alive_raw (α := α) (xs.length - k)
    unfold alive at this
    rw [this]
    simp only [List.length_map, List.length_take]; omega
  rw [hal]
  rfl

/-- Non-vacuity (C113): two tuples of three elements; the assignment throws at the last element; one is moved from; all
are destroyed. -/
example : Steps (α := Nat) 3 (fun _ => none)
    [(.make 0 [1, 2, 3], fun _ => false), (.make 1 [7, 8, 9], fun _ => false), (.assign 1 0, fun i => i == 2),
     (.move 2 0, fun _ => false), (.destroy 0, fun _ => false)] [false, false, true, false, false]
    (upd (upd (upd (upd (upd (upd (fun _ => none) 0 (some [some 1, some 2, some 3])) 1 (some [some 7, some 8, some 9]))
      1 (some [some 1, some 2, some 9])) 0 (some [none, none, none])) 2 (some [some 1, some 2, some 3])) 0 none) :=
  .cons (.make rfl rfl (fun _ _ => rfl)) (.cons (.make rfl rfl (fun _ _ => rfl))
    (.cons (.assignThrow (xs := [1, 2, 3]) (ys := [some 7, some 8, some 9]) (k := 2) (by decide) rfl rfl (by decide) rfl
      (by intro i hi; simp; omega))
    (.cons (.move (xs := [1, 2, 3]) rfl rfl) (.cons (.destroy (ys := [none, none, none]) rfl) .nil))))

end Cista.TupleLife
