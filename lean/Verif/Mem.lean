import Verif.Basic

/-!
# Heap with object lifetimes

Storage blocks are sequences of slots.  A slot is raw memory, a live object with a value, or a live
object that has been moved from.  Every access outside a block, to a released block, to an object
that is not alive, and every *read of a moved-from value* is `Err.ub`.

`strict = true` additionally reports (`Err.leak`) constructing over a live object and releasing a
block that still contains live objects — not undefined behaviour in C++, but the destructor of the
object never runs.
-/
namespace Cista.Mem

/-- One element slot. -/
inductive Slot (α : Type) where
  | raw
  | moved
  | val (a : α)
  deriving DecidableEq, Repr

/-- No object alive in the slot. -/
def Slot.isRaw {α : Type} : Slot α → Bool
  | .raw => true
  | _ => false

/-- Heap: `none` = not allocated (or released); `next` = smallest never used block id. -/
structure Heap (α : Type) where
  blocks : Nat → Option (List (Slot α))
  next : Nat

variable {α : Type}

/-- Replace the contents of block `b`. -/
def Heap.setBlk (h : Heap α) (b : Nat) (ss : Option (List (Slot α))) : Heap α :=
  { h with blocks := fun x => if x = b then ss else h.blocks x }

/-- No blocks at all. -/
def Heap.empty : Heap α := ⟨fun _ => none, 0⟩

/-- The slot `b[i]`. -/
def Heap.get (h : Heap α) (b i : Nat) : Res (Slot α) :=
  match h.blocks b with
  | none => .error .ub
  | some ss => match ss[i]? with
    | none => .error .ub
    | some s => .ok s

/-- Overwrite slot `b[i]`. -/
def Heap.put (h : Heap α) (b i : Nat) (s : Slot α) : Res (Heap α) :=
  match h.blocks b with
  | none => .error .ub
  | some ss => if i < ss.length then .ok (h.setBlk b (some (ss.set i s))) else .error .ub

/-- Read the value of a live object. -/
def Heap.read (h : Heap α) (b i : Nat) : Res α :=
  h.get b i >>= fun s => match s with
    | .val a => .ok a
    | _ => .error .ub

/-- Placement new. -/
def Heap.construct (strict : Bool) (h : Heap α) (b i : Nat) (a : α) : Res (Heap α) :=
  h.get b i >>= fun s => if strict && !s.isRaw then .error .leak else h.put b i (.val a)

/-- Destructor call: the object must be alive. -/
def Heap.destroy (h : Heap α) (b i : Nat) : Res (Heap α) :=
  h.get b i >>= fun s => if s.isRaw then .error .ub else h.put b i .raw

/-- `std::move(b[i])` as source of a construction or assignment. -/
def Heap.moveOut (h : Heap α) (b i : Nat) : Res (α × Heap α) := do
  let a ← h.read b i
  let h ← h.put b i .moved
  return (a, h)

/-- Assignment to a live (possibly moved-from) object. -/
def Heap.assign (h : Heap α) (b i : Nat) (a : α) : Res (Heap α) :=
  h.get b i >>= fun s => if s.isRaw then .error .ub else h.put b i (.val a)

/-- `malloc` of `n` slots.  Out of memory is not modelled. -/
def Heap.alloc (h : Heap α) (n : Nat) : Nat × Heap α :=
  (h.next, ⟨fun x => if x = h.next then some (List.replicate n .raw) else h.blocks x, h.next + 1⟩)

/-- `free`. -/
def Heap.free (strict : Bool) (h : Heap α) (b : Nat) : Res (Heap α) :=
  match h.blocks b with
  | none => .error .ub
  | some ss => if strict && ss.any (fun s => !s.isRaw) then .error .leak else .ok (h.setBlk b none)

/-! ## Basic facts -/

@[simp] theorem setBlk_blocks (h : Heap α) (b x : Nat) (ss : Option (List (Slot α))) :
    (h.setBlk b ss).blocks x = if x = b then ss else h.blocks x := rfl
@[simp] theorem setBlk_next (h : Heap α) (b : Nat) (ss : Option (List (Slot α))) :
    (h.setBlk b ss).next = h.next := rfl
@[simp] theorem setBlk_setBlk (h : Heap α) (b : Nat) (s t : Option (List (Slot α))) :
    (h.setBlk b s).setBlk b t = h.setBlk b t := by
  unfold Heap.setBlk
  congr 1
  funext x
  simp only []
  split <;> simp_all

theorem setBlk_comm (h : Heap α) {b c : Nat} (hbc : b ≠ c) (s t : Option (List (Slot α))) :
    (h.setBlk b s).setBlk c t = (h.setBlk c t).setBlk b s := by
  unfold Heap.setBlk
  congr 1
  funext x
  simp only []
  by_cases h1 : x = c
  · subst h1
    have : ¬ x = b := fun e => hbc e.symm
    simp [this]
  · simp [h1]

theorem setBlk_self (h : Heap α) {b : Nat} {s : Option (List (Slot α))} (e : h.blocks b = s) :
    h.setBlk b s = h := by
  unfold Heap.setBlk
  cases h with
  | mk bl n =>
    congr 1
    funext x
    simp only at e ⊢
    split
    · next hx => rw [hx, e]
    · rfl

section At
variable {h : Heap α} {b : Nat} {p q : List (Slot α)} {s : Slot α}

theorem get_at (e : h.blocks b = some (p ++ s :: q)) {i : Nat} (hi : i = p.length) :
    h.get b i = .ok s := by
  subst hi
  simp [Heap.get, e]

theorem put_at (e : h.blocks b = some (p ++ s :: q)) {i : Nat} (hi : i = p.length) (s' : Slot α) :
    h.put b i s' = .ok (h.setBlk b (some (p ++ s' :: q))) := by
  subst hi
  simp [Heap.put, e]

theorem read_at {a : α} (e : h.blocks b = some (p ++ .val a :: q)) {i : Nat} (hi : i = p.length) :
    h.read b i = .ok a := by
  simp [Heap.read, get_at e hi, bind, Except.bind]

theorem construct_at {strict : Bool} (e : h.blocks b = some (p ++ s :: q)) {i : Nat}
    (hi : i = p.length) (hs : strict = true → s = .raw) (a : α) :
    h.construct strict b i a = .ok (h.setBlk b (some (p ++ .val a :: q))) := by
  have : (strict && !s.isRaw) = false := by
    cases strict with
    | false => rfl
    | true => rw [hs rfl]; rfl
  simp [Heap.construct, get_at e hi, put_at e hi, this, bind, Except.bind]

theorem destroy_at (e : h.blocks b = some (p ++ s :: q)) {i : Nat} (hi : i = p.length)
    (hs : s.isRaw = false) : h.destroy b i = .ok (h.setBlk b (some (p ++ .raw :: q))) := by
  simp [Heap.destroy, get_at e hi, put_at e hi, hs, bind, Except.bind]

theorem assign_at (e : h.blocks b = some (p ++ s :: q)) {i : Nat} (hi : i = p.length)
    (hs : s.isRaw = false) (a : α) :
    h.assign b i a = .ok (h.setBlk b (some (p ++ .val a :: q))) := by
  simp [Heap.assign, get_at e hi, put_at e hi, hs, bind, Except.bind]

theorem moveOut_at {a : α} (e : h.blocks b = some (p ++ .val a :: q)) {i : Nat} (hi : i = p.length) :
    h.moveOut b i = .ok (a, h.setBlk b (some (p ++ .moved :: q))) := by
  simp [Heap.moveOut, read_at e hi, put_at e hi, bind, Except.bind, pure, Except.pure]

end At

theorem free_ok {h : Heap α} {b : Nat} {ss : List (Slot α)} {strict : Bool}
    (e : h.blocks b = some ss) (hs : strict = true → ∀ s ∈ ss, s = .raw) :
    h.free strict b = .ok (h.setBlk b none) := by
  have : (strict && ss.any (fun s => !s.isRaw)) = false := by
    cases strict with
    | false => rfl
    | true =>
      simp only [Bool.true_and, List.any_eq_false]
      intro s hs'
      rw [hs rfl s hs']; simp [Slot.isRaw]
  simp [Heap.free, e, this]

end Cista.Mem
