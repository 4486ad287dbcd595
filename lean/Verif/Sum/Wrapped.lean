import Verif.Basic

/-!
# buffer, memory_holder and wrapped

Model of `cista::wrapped<T>` (include/cista/memory_holder.h): an object together with the memory it was loaded into, as returned by
`cista::read` and `cista::read_mmap` (include/cista/io.h).  Memory is a set of numbered blocks (a `malloc`ed buffer, the storage of a
`std::vector`, a file mapping together with its open file, an object made with `new`); every block has room for one root object.  Releasing a
dead block, destroying a dead object and using one are undefined behaviour.
-/
set_option linter.unusedSimpArgs false

namespace Cista.Wrapped

/-- Blocks that are allocated, and those whose root object is alive. -/
structure World where
  next : Nat
  live : Nat → Bool
  alive : Nat → Bool

def upd {α : Type} (f : Nat → α) (i : Nat) (x : α) : Nat → α := fun j => if j = i then x else f j

/-- `free`, `munmap` and `fclose`, or the release of the storage of a vector: ends the life of an object in it. -/
def World.release (w : World) (b : Nat) : Res World := do
  require (w.live b)
  return { w with live := upd w.live b false, alive := upd w.alive b false }

/-- `el->~T()`. -/
def World.destroy (w : World) (b : Nat) : Res World := do
  require (w.alive b)
  return { w with alive := upd w.alive b false }

/-- A new block with an object in it. -/
def World.alloc (w : World) : World :=
  { next := w.next + 1, live := upd w.live w.next true, alive := upd w.alive w.next true }

/-- The alternatives of `memory_holder`, memory_holder.h:12. -/
inductive Kind where
  | mmap
  | buffer
  | bytes
deriving DecidableEq, Repr

/-- A `memory_holder`: the alternative and the block it holds (`addr_`, `buf_`, `data()`), if any. -/
structure Holder where
  kind : Kind
  addr : Option Nat
deriving DecidableEq, Repr

/-- Release a block if there is one. -/
def World.releaseOpt (w : World) : Option Nat → Res World
  | some b => w.release b
  | none => .ok w

/-- `~memory_holder`: buffer.h:27, 74-79 (`free`); mmap.h:40-49 and targets/file.h:214-219; `~std::vector`. -/
def Holder.dtor (w : World) (h : Holder) : Res World := w.releaseOpt h.addr

/-- Move construction of every alternative takes the block and leaves none: buffer.h:32-36, mmap.h:54-64 and targets/file.h:224-227. -/
def Holder.move (h : Holder) : Holder × Holder := (h, ⟨h.kind, none⟩)

/-- `buffer::operator=`, buffer.h:38-49, of two objects. -/
def assignBuffer (w : World) (d s : Option Nat) : Res (World × Option Nat × Option Nat) := do
  let w ← w.releaseOpt d
  return (w, s, none)

/-- `mmap::operator=`, mmap.h:66-77 with targets/file.h:229-235: the previous mapping and file are not released. -/
def assignMmap (w : World) (_d s : Option Nat) : Res (World × Option Nat × Option Nat) := .ok (w, s, none)

/-- `std::variant` move assignment of two objects: of the alternatives if they are the same, otherwise the previous one is destroyed and the new one
move constructed.  Result: world, target, source. -/
def Holder.assign (w : World) (d s : Holder) : Res (World × Holder × Holder) :=
  if d.kind = s.kind then do
    let (w, a, b) ← match d.kind with
      | .mmap => assignMmap w d.addr s.addr
      | .buffer => assignBuffer w d.addr s.addr
      | .bytes => assignBuffer w d.addr s.addr
    return (w, ⟨d.kind, a⟩, ⟨s.kind, b⟩)
  else do
    let w ← d.dtor w
    return (w, s.move.1, s.move.2)

/-- `raw::unique_ptr<T>`. -/
structure UP where
  el : Option Nat
  own : Bool
deriving DecidableEq, Repr

/-- unique_ptr.h:47-53 `reset`; `delete` destroys the object and releases its block. -/
def UP.reset (w : World) (p : UP) : Res (World × UP) :=
  match p.own, p.el with
  | true, some b => do
    let w ← w.destroy b
    let w ← w.release b
    return (w, ⟨none, false⟩)
  | _, _ => .ok (w, p)

/-- unique_ptr.h:30-37 move assignment of two objects. -/
def UP.assign (w : World) (d s : UP) : Res (World × UP × UP) := do
  let (w, _) ← d.reset w
  return (w, s, ⟨none, false⟩)

/-- memory_holder.h:42-43 `mem_`, `el_`. -/
structure Wr where
  mem : Holder
  el : UP
deriving DecidableEq, Repr

/-- memory_holder.h:16 `wrapped() = default`: the first alternative, no object. -/
def Wr.empty : Wr := ⟨⟨.mmap, none⟩, ⟨none, false⟩⟩

/-- memory_holder.h:22-29 `reset`: destroys the object, releases a buffer or vector; `el_` keeps its value. -/
def Wr.reset (w : World) (x : Wr) : Res (World × Wr) :=
  match x.el.el with
  | none => .error .ub
  | some b => do
    let w ← w.destroy b
    match x.mem.kind with
    | .mmap => return (w, x)
    | _ => do
      let (w, a, _) ← assignBuffer w x.mem.addr none
      return (w, { x with mem := ⟨x.mem.kind, a⟩ })

/-- `~wrapped()` (implicit): `el_`, then `mem_`. -/
def Wr.dtor (w : World) (x : Wr) : Res World := do
  let (w, _) ← x.el.reset w
  x.mem.dtor w

/-- `wrapped(wrapped&&)` (implicit), with unique_ptr.h:24-28.  Result: new object, source. -/
def Wr.move (x : Wr) : Wr × Wr := (⟨x.mem.move.1, x.el⟩, ⟨x.mem.move.2, ⟨none, false⟩⟩)

/-- `operator=(wrapped&&)` (implicit) of two objects: `mem_`, then `el_`.  Result: world, target, source. -/
def Wr.assign (w : World) (d s : Wr) : Res (World × Wr × Wr) := do
  let (w, m, m') ← d.mem.assign w s.mem
  let (w, e, e') ← d.el.assign w s.el
  return (w, ⟨m, e⟩, ⟨m', e'⟩)

/-- Variables of type `wrapped<T>`. -/
structure State where
  w : World
  vars : Nat → Option Wr

def State.init : State := ⟨⟨0, fun _ => false, fun _ => false⟩, fun _ => none⟩

inductive Op where
  /-- memory_holder.h:16 -/
  | empty (i : Nat)
  /-- io.h:33-38 `read`, io.h:41-47 `read_mmap`, or `wrapped{holder, ptr}` (memory_holder.h:17-19) with the result of `deserialize` -/
  | load (i : Nat) (k : Kind)
  /-- memory_holder.h:20 with `make_unique<T>()` -/
  | own (i : Nat)
  /-- variable `i` move constructed from `j` -/
  | move (i j : Nat)
  /-- `i = std::move(j)`, `i ≠ j` -/
  | assign (i j : Nat)
  /-- memory_holder.h:22-29 -/
  | reset (i : Nat)
  /-- `*x`, memory_holder.h:38-40 -/
  | deref (i : Nat)
  /-- `if (x)`, memory_holder.h:35 -/
  | test (i : Nat)
  /-- the variable goes out of scope -/
  | destroy (i : Nat)
deriving DecidableEq, Repr

/-- What an operation returns. -/
inductive Out where
  | none
  | obj (b : Nat)
  | bool (b : Bool)
deriving DecidableEq, Repr

/-- The value of an existing variable. -/
def State.get (s : State) (i : Nat) : Res Wr :=
  match s.vars i with
  | some x => .ok x
  | none => .error .ub

def Op.exec (s : State) : Op → Res (State × Out)
  | .empty i => .ok (⟨s.w, upd s.vars i (some .empty)⟩, .none)
  | .load i k => .ok (⟨s.w.alloc, upd s.vars i (some ⟨⟨k, some s.w.next⟩, ⟨some s.w.next, false⟩⟩)⟩, .none)
  | .own i => .ok (⟨s.w.alloc, upd s.vars i (some ⟨⟨.mmap, none⟩, ⟨some s.w.next, true⟩⟩)⟩, .none)
  | .move i j => do
    let x ← s.get j
    return (⟨s.w, upd (upd s.vars j (some x.move.2)) i (some x.move.1)⟩, .none)
  | .assign i j => do
    let d ← s.get i
    let x ← s.get j
    let (w, d, x) ← d.assign s.w x
    return (⟨w, upd (upd s.vars j (some x)) i (some d)⟩, .none)
  | .reset i => do
    let x ← s.get i
    let (w, x) ← x.reset s.w
    return (⟨w, upd s.vars i (some x)⟩, .none)
  | .deref i => do
    let x ← s.get i
    match x.el.el with
    | some b => do
      require (s.w.alive b)
      return (s, .obj b)
    | none => .error .ub
  | .test i => do
    let x ← s.get i
    return (s, .bool x.el.el.isSome)
  | .destroy i => do
    let x ← s.get i
    let w ← x.dtor s.w
    return (⟨w, upd s.vars i none⟩, .none)

def run (s : State) : List Op → Res (State × List Out)
  | [] => .ok (s, [])
  | op :: ops => do
    let (s, o) ← op.exec s
    let (s, os) ← run s ops
    return (s, o :: os)

/-! ## Specification -/

/-- What the user knows about a variable: which kind of memory it holds or last held, and its object (numbered in the order of creation). -/
inductive Val where
  | null (k : Kind)
  | loaded (k : Kind) (b : Nat)
  | owned (b : Nat)
  /-- after `reset` -/
  | spent (k : Kind) (b : Nat)
deriving DecidableEq, Repr

/-- The kind of the memory holder: that of a variable that never held one is `mmap`. -/
def Val.kind : Val → Kind
  | .null k => k
  | .loaded k _ => k
  | .owned _ => .mmap
  | .spent k _ => k

/-- The object a variable gives access to. -/
def Val.obj : Val → Option Nat
  | .loaded _ b => some b
  | .owned b => some b
  | _ => none

/-- The block a variable has to release. -/
def Val.block : Val → Option Nat
  | .loaded _ b => some b
  | .owned b => some b
  | .spent .mmap b => some b
  | _ => none

/-- The variable holds a mapping. -/
def Val.mapped : Val → Bool
  | .loaded .mmap _ => true
  | .spent .mmap _ => true
  | _ => false

/-- Specification state: number of objects made so far, variables. -/
structure Spec where
  n : Nat
  vars : Nat → Option Val

def Spec.init : Spec := ⟨0, fun _ => none⟩

/-- Specification of the uses that are promised to work (`none` otherwise).  `reset` is for loaded objects, once; no access to a variable after `reset` except
assignment, move and destruction; a variable that holds a mapping is only assigned from one with another kind of memory. -/
def Op.spec (s : Spec) : Op → Option (Spec × Out)
  | .empty i => match s.vars i with
    | none => some (⟨s.n, upd s.vars i (some (.null .mmap))⟩, .none)
    | _ => none
  | .load i k => match s.vars i with
    | none => some (⟨s.n + 1, upd s.vars i (some (.loaded k s.n))⟩, .none)
    | _ => none
  | .own i => match s.vars i with
    | none => some (⟨s.n + 1, upd s.vars i (some (.owned s.n))⟩, .none)
    | _ => none
  | .move i j => match s.vars i, s.vars j with
    | none, some v => some (⟨s.n, upd (upd s.vars j (some (.null v.kind))) i (some v)⟩, .none)
    | _, _ => none
  | .assign i j => match s.vars i, s.vars j with
    | some d, some v =>
      if i = j ∨ (d.mapped ∧ v.kind = .mmap) then none
      else some (⟨s.n, upd (upd s.vars j (some (.null v.kind))) i (some v)⟩, .none)
    | _, _ => none
  | .reset i => match s.vars i with
    | some (.loaded k b) => some (⟨s.n, upd s.vars i (some (.spent k b))⟩, .none)
    | _ => none
  | .deref i => match s.vars i with
    | some v => match v.obj with
      | some b => some (s, .obj b)
      | none => none
    | none => none
  | .test i => match s.vars i with
    | some (.spent _ _) => none
    | some v => some (s, .bool v.obj.isSome)
    | none => none
  | .destroy i => match s.vars i with
    | some _ => some (⟨s.n, upd s.vars i none⟩, .none)
    | none => none

def specRun (s : Spec) : List Op → Option (Spec × List Out)
  | [] => some (s, [])
  | op :: ops =>
    match op.spec s with
    | none => none
    | some (s, o) =>
      match specRun s ops with
      | none => none
      | some (s, os) => some (s, o :: os)

/-! ## Invariant -/

/-- The representation of a variable. -/
def Val.wr : Val → Wr
  | .null k => ⟨⟨k, none⟩, ⟨none, false⟩⟩
  | .loaded k b => ⟨⟨k, some b⟩, ⟨some b, false⟩⟩
  | .owned b => ⟨⟨.mmap, none⟩, ⟨some b, true⟩⟩
  | .spent k b => ⟨⟨k, if k = .mmap then some b else none⟩, ⟨some b, false⟩⟩

structure Inv (s : State) (a : Spec) : Prop where
  next : s.w.next = a.n
  vars : ∀ i, s.vars i = (a.vars i).map Val.wr
  live : ∀ b, s.w.live b = true ↔ ∃ i v, a.vars i = some v ∧ v.block = some b
  alive : ∀ b, s.w.alive b = true ↔ ∃ i v, a.vars i = some v ∧ v.obj = some b
  uniq : ∀ i j v u b, a.vars i = some v → a.vars j = some u → v.block = some b → u.block = some b → i = j
  bound : ∀ i v b, a.vars i = some v → v.block = some b → b < a.n

theorem upd_same {α : Type} (f : Nat → α) (i : Nat) (x : α) : upd f i x i = x := by simp [upd]
theorem upd_other {α : Type} (f : Nat → α) {i j : Nat} (x : α) (h : j ≠ i) : upd f i x j = f j := by simp [upd, h]
theorem upd_upd {α : Type} (f : Nat → α) (i : Nat) (x y : α) : upd (upd f i x) i y = upd f i y := by
  funext j; simp only [upd]; split <;> rfl

/-- The world without a block. -/
def World.drop (w : World) : Option Nat → World
  | some b => { w with live := upd w.live b false, alive := upd w.alive b false }
  | none => w

theorem obj_block {v : Val} {b : Nat} (h : v.obj = some b) : v.block = some b := by
  cases v <;> simp_all [Val.obj, Val.block]

theorem release_ok {w : World} {b : Nat} (h : w.live b = true) : w.release b = .ok (w.drop (some b)) := by
  simp only [World.release, h, require_true, ok_bind, pure_ok]; rfl

theorem destroy_ok {w : World} {b : Nat} (h : w.alive b = true) :
    w.destroy b = .ok { w with alive := upd w.alive b false } := by
  simp only [World.destroy, h, require_true, ok_bind, pure_ok]

theorem delete_ok {w : World} {b : Nat} (h : w.live b = true) (h' : w.alive b = true) :
    UP.reset w ⟨some b, true⟩ = .ok (w.drop (some b), ⟨none, false⟩) := by
  simp only [UP.reset, destroy_ok h', ok_bind]
  rw [release_ok (by exact h), ok_bind]
  simp only [World.drop, upd_upd, pure_ok]

theorem dtor_ok {w : World} {v : Val} (h : ∀ b, v.block = some b → w.live b = true) (h' : ∀ b, v.obj = some b → w.alive b = true) :
    v.wr.dtor w = .ok (w.drop v.block) := by
  cases v with
  | null k => rfl
  | loaded k b =>
    simp only [Val.wr, Wr.dtor, UP.reset, ok_bind, Holder.dtor, World.releaseOpt, Val.block]
    exact release_ok (h b rfl)
  | owned b =>
    simp only [Val.wr, Wr.dtor, delete_ok (h b rfl) (h' b rfl), ok_bind, Holder.dtor, World.releaseOpt, Val.block]
  | spent k b =>
    cases k <;> simp only [Val.wr, Wr.dtor, UP.reset, ok_bind, Holder.dtor, World.releaseOpt, Val.block, if_true, reduceCtorEq, if_false]
    · exact release_ok (h b rfl)
    · rfl
    · rfl

/-- Assignment releases what the target held and takes what the source holds. -/
theorem assign_ok {w : World} {d v : Val} (h : ∀ b, d.block = some b → w.live b = true) (h' : ∀ b, d.obj = some b → w.alive b = true)
    (hm : ¬ (d.mapped = true ∧ v.kind = .mmap)) :
    d.wr.assign w v.wr = .ok (w.drop d.block, v.wr, (Val.null v.kind).wr) := by
  have hh : v.wr.mem.kind = v.kind := by cases v <;> rfl
  have hd : d.wr.mem.kind = d.kind := by cases d <;> rfl
  have hmem : d.wr.mem.assign w v.wr.mem = .ok (w.drop d.wr.mem.addr, v.wr.mem, ⟨v.kind, none⟩) := by
    have hrel : w.releaseOpt d.wr.mem.addr = .ok (w.drop d.wr.mem.addr) := by
      cases d with
      | null k => rfl
      | loaded k b => exact release_ok (h b rfl)
      | owned b => rfl
      | spent k b =>
        cases k
        · exact release_ok (h b rfl)
        · rfl
        · rfl
    unfold Holder.assign
    by_cases hk : d.wr.mem.kind = v.wr.mem.kind
    · rw [if_pos hk]
      cases hk' : d.wr.mem.kind
      · have hn : d.wr.mem.addr = none := by
          rw [hk] at hk'
          rw [hh] at hk'
          cases d with
          | null k => rfl
          | owned b => rfl
          | loaded k b =>
            have : k = .mmap := by rw [hh, hk'] at hk; exact hk
            subst this
            exact absurd ⟨rfl, hk'⟩ hm
          | spent k b =>
            have : k = .mmap := by rw [hh, hk'] at hk; exact hk
            subst this
            exact absurd ⟨rfl, hk'⟩ hm
        simp only [assignMmap, ok_bind, hn, World.drop, pure_ok]
        rw [← hk', hk, hh, ← hh]
      · simp only [assignBuffer, hrel, ok_bind, pure_ok]
        rw [← hk', hk, hh, ← hh]
      · simp only [assignBuffer, hrel, ok_bind, pure_ok]
        rw [← hk', hk, hh, ← hh]
    · rw [if_neg hk]
      simp only [Holder.dtor, hrel, ok_bind, Holder.move, hh, pure_ok]
  simp only [Wr.assign, hmem, ok_bind]
  have hel : d.wr.el.reset (w.drop d.wr.mem.addr) = .ok (w.drop d.block, if d.wr.el.own then ⟨none, false⟩ else d.wr.el) := by
    cases d with
    | null k => rfl
    | loaded k b => rfl
    | owned b => exact delete_ok (h b rfl) (h' b rfl)
    | spent k b => cases k <;> rfl
  simp only [UP.assign, hel, ok_bind, pure_ok]
  rfl

theorem get_ok {s : State} {a : Spec} (I : Inv s a) {i : Nat} {v : Val} (h : a.vars i = some v) : s.get i = .ok v.wr := by
  simp [State.get, I.vars, h]

theorem Inv.blockLive {s : State} {a : Spec} (I : Inv s a) {i : Nat} {v : Val} (h : a.vars i = some v) (b : Nat) (hb : v.block = some b) :
    s.w.live b = true := (I.live b).2 ⟨i, v, h, hb⟩

theorem Inv.objAlive {s : State} {a : Spec} (I : Inv s a) {i : Nat} {v : Val} (h : a.vars i = some v) (b : Nat) (hb : v.obj = some b) :
    s.w.alive b = true := (I.alive b).2 ⟨i, v, h, hb⟩

theorem drop_live (w : World) (o : Option Nat) (b : Nat) : (w.drop o).live b = true ↔ w.live b = true ∧ o ≠ some b := by
  cases o with
  | none => simp [World.drop]
  | some c =>
    by_cases h : b = c
    · subst h; simp [World.drop, upd]
    · simp [World.drop, upd, h, Ne.symm h]

theorem drop_alive (w : World) (o : Option Nat) (b : Nat) : (w.drop o).alive b = true ↔ w.alive b = true ∧ o ≠ some b := by
  cases o with
  | none => simp [World.drop]
  | some c =>
    by_cases h : b = c
    · subst h; simp [World.drop, upd]
    · simp [World.drop, upd, h, Ne.symm h]

theorem drop_next (w : World) (o : Option Nat) : (w.drop o).next = w.next := by cases o <;> rfl

theorem inv_vars_upd {s : State} {a : Spec} (I : ∀ i, s.vars i = (a.vars i).map Val.wr) (i : Nat) (x : Option Val) (j : Nat) :
    upd s.vars i (x.map Val.wr) j = (upd a.vars i x j).map Val.wr := by
  simp only [upd]; split
  · rfl
  · exact I j

/-- A variable goes away with what it holds. -/
theorem inv_drop {s : State} {a : Spec} (I : Inv s a) {i : Nat} {v : Val} (h : a.vars i = some v) :
    Inv ⟨s.w.drop v.block, upd s.vars i none⟩ ⟨a.n, upd a.vars i none⟩ := by
  refine ⟨by rw [drop_next]; exact I.next, inv_vars_upd I.vars i none, ?_, ?_, ?_, ?_⟩
  · intro b
    simp only [drop_live, I.live]
    constructor
    · rintro ⟨⟨j, u, hj, hb⟩, hn⟩
      refine ⟨j, u, ?_, hb⟩
      rw [upd_other _ _ (by rintro rfl; rw [h] at hj; cases hj; exact hn hb)]; exact hj
    · rintro ⟨j, u, hj, hb⟩
      by_cases hji : j = i
      · subst hji; rw [upd_same] at hj; cases hj
      · rw [upd_other _ _ hji] at hj
        exact ⟨⟨j, u, hj, hb⟩, fun e => hji (I.uniq j i u v b hj h hb e)⟩
  · intro b
    simp only [drop_alive, I.alive]
    constructor
    · rintro ⟨⟨j, u, hj, hb⟩, hn⟩
      refine ⟨j, u, ?_, hb⟩
      rw [upd_other _ _ (by rintro rfl; rw [h] at hj; cases hj; exact hn (obj_block hb))]; exact hj
    · rintro ⟨j, u, hj, hb⟩
      by_cases hji : j = i
      · subst hji; rw [upd_same] at hj; cases hj
      · rw [upd_other _ _ hji] at hj
        exact ⟨⟨j, u, hj, hb⟩, fun e => hji (I.uniq j i u v b hj h (obj_block hb) e)⟩
  · intro j k u t b hj hk
    simp only [upd] at hj hk
    split at hj <;> split at hk <;> try (first | cases hj | cases hk)
    exact I.uniq j k u t b hj hk
  · intro j u b hj
    simp only [upd] at hj
    split at hj
    · cases hj
    · exact I.bound j u b hj

/-- A variable that holds nothing appears. -/
theorem inv_null {s : State} {a : Spec} (I : Inv s a) {i : Nat} (h : a.vars i = none) (k : Kind) :
    Inv ⟨s.w, upd s.vars i (some (Val.null k).wr)⟩ ⟨a.n, upd a.vars i (some (.null k))⟩ := by
  have key : ∀ j u, upd a.vars i (some (.null k)) j = some u → (u = .null k ∧ j = i) ∨ (j ≠ i ∧ a.vars j = some u) := by
    intro j u hj
    by_cases hji : j = i
    · subst hji; rw [upd_same] at hj; cases hj; exact Or.inl ⟨rfl, rfl⟩
    · rw [upd_other _ _ hji] at hj; exact Or.inr ⟨hji, hj⟩
  have fwd : ∀ j u, a.vars j = some u → upd a.vars i (some (.null k)) j = some u := by
    intro j u hj
    rw [upd_other _ _ (by rintro rfl; rw [h] at hj; cases hj)]; exact hj
  refine ⟨I.next, inv_vars_upd I.vars i (some (.null k)), ?_, ?_, ?_, ?_⟩
  · intro b
    rw [I.live]
    constructor
    · rintro ⟨j, u, hj, hb⟩; exact ⟨j, u, fwd j u hj, hb⟩
    · rintro ⟨j, u, hj, hb⟩
      rcases key j u hj with ⟨rfl, _⟩ | ⟨_, h'⟩
      · cases hb
      · exact ⟨j, u, h', hb⟩
  · intro b
    rw [I.alive]
    constructor
    · rintro ⟨j, u, hj, hb⟩; exact ⟨j, u, fwd j u hj, hb⟩
    · rintro ⟨j, u, hj, hb⟩
      rcases key j u hj with ⟨rfl, _⟩ | ⟨_, h'⟩
      · cases hb
      · exact ⟨j, u, h', hb⟩
  · intro j l u t b hj hl hb hb'
    rcases key j u hj with ⟨rfl, _⟩ | ⟨_, h1⟩
    · cases hb
    · rcases key l t hl with ⟨rfl, _⟩ | ⟨_, h2⟩
      · cases hb'
      · exact I.uniq j l u t b h1 h2 hb hb'
  · intro j u b hj hb
    rcases key j u hj with ⟨rfl, _⟩ | ⟨_, h1⟩
    · cases hb
    · exact I.bound j u b h1 hb

/-- What a variable holds moves to a new variable. -/
theorem inv_move {s : State} {a : Spec} (I : Inv s a) {i j : Nat} {v : Val} (hi : a.vars i = none) (hj : a.vars j = some v) :
    Inv ⟨s.w, upd (upd s.vars j (some (Val.null v.kind).wr)) i (some v.wr)⟩
      ⟨a.n, upd (upd a.vars j (some (.null v.kind))) i (some v)⟩ := by
  have hij : i ≠ j := by rintro rfl; rw [hi] at hj; cases hj
  have key : ∀ l u, upd (upd a.vars j (some (.null v.kind))) i (some v) l = some u →
      (l = i ∧ u = v) ∨ (l = j ∧ u = .null v.kind) ∨ (l ≠ i ∧ l ≠ j ∧ a.vars l = some u) := by
    intro l u hl
    simp only [upd] at hl
    split at hl
    · rename_i e; cases hl; exact Or.inl ⟨e, rfl⟩
    · rename_i e
      split at hl
      · rename_i e'; cases hl; exact Or.inr (Or.inl ⟨e', rfl⟩)
      · rename_i e'; exact Or.inr (Or.inr ⟨e, e', hl⟩)
  have fwd : ∀ l u, a.vars l = some u → l ≠ j → upd (upd a.vars j (some (.null v.kind))) i (some v) l = some u := by
    intro l u hl hlj
    rw [upd_other _ _ (by rintro rfl; rw [hi] at hl; cases hl), upd_other _ _ hlj]; exact hl
  have back : ∀ l u b, upd (upd a.vars j (some (.null v.kind))) i (some v) l = some u → u.block = some b →
      a.vars (if l = i then j else l) = some u := by
    intro l u b hl hb
    rcases key l u hl with ⟨rfl, rfl⟩ | ⟨rfl, rfl⟩ | ⟨h1, _, h2⟩
    · rw [if_pos rfl]; exact hj
    · cases hb
    · rw [if_neg h1]; exact h2
  refine ⟨I.next, inv_vars_upd (s := ⟨s.w, _⟩) (a := ⟨a.n, _⟩) (inv_vars_upd I.vars j (some (.null v.kind))) i (some v), ?_, ?_, ?_, ?_⟩
  · intro b
    rw [I.live]
    constructor
    · rintro ⟨l, u, hl, hb⟩
      by_cases hlj : l = j
      · subst hlj; rw [hj] at hl; cases hl; exact ⟨i, v, upd_same .., hb⟩
      · exact ⟨l, u, fwd l u hl hlj, hb⟩
    · rintro ⟨l, u, hl, hb⟩; exact ⟨_, u, back l u b hl hb, hb⟩
  · intro b
    rw [I.alive]
    constructor
    · rintro ⟨l, u, hl, hb⟩
      by_cases hlj : l = j
      · subst hlj; rw [hj] at hl; cases hl; exact ⟨i, v, upd_same .., hb⟩
      · exact ⟨l, u, fwd l u hl hlj, hb⟩
    · rintro ⟨l, u, hl, hb⟩; exact ⟨_, u, back l u b hl (obj_block hb), hb⟩
  · intro l m u t b hl hm hb hb'
    have e := I.uniq _ _ u t b (back l u b hl hb) (back m t b hm hb') hb hb'
    have hl' : l ≠ j := by
      rintro rfl
      rcases key l u hl with ⟨e, _⟩ | ⟨_, rfl⟩ | ⟨_, e, _⟩
      · exact hij e.symm
      · cases hb
      · exact e rfl
    have hm' : m ≠ j := by
      rintro rfl
      rcases key m t hm with ⟨e, _⟩ | ⟨_, rfl⟩ | ⟨_, e, _⟩
      · exact hij e.symm
      · cases hb'
      · exact e rfl
    split at e <;> split at e
    · rename_i h1 h2; rw [h1, h2]
    · exact absurd e.symm hm'
    · exact absurd e hl'
    · exact e
  · intro l u b hl hb
    exact I.bound _ u b (back l u b hl hb) hb

/-- A new variable with a new object. -/
theorem inv_alloc {s : State} {a : Spec} (I : Inv s a) {i : Nat} {v : Val} (hi : a.vars i = none) (ho : v.obj = some a.n) :
    Inv ⟨s.w.alloc, upd s.vars i (some v.wr)⟩ ⟨a.n + 1, upd a.vars i (some v)⟩ := by
  have hb := obj_block ho
  have key : ∀ j u, upd a.vars i (some v) j = some u → (u = v ∧ j = i) ∨ (j ≠ i ∧ a.vars j = some u) := by
    intro j u hj
    by_cases hji : j = i
    · subst hji; rw [upd_same] at hj; cases hj; exact Or.inl ⟨rfl, rfl⟩
    · rw [upd_other _ _ hji] at hj; exact Or.inr ⟨hji, hj⟩
  have fwd : ∀ j u, a.vars j = some u → upd a.vars i (some v) j = some u := by
    intro j u hj
    rw [upd_other _ _ (by rintro rfl; rw [hi] at hj; cases hj)]; exact hj
  have hnext := I.next
  refine ⟨by simp [World.alloc, hnext], inv_vars_upd I.vars i (some v), ?_, ?_, ?_, ?_⟩
  · intro b
    by_cases hbn : b = a.n
    · subst hbn
      simp only [World.alloc, hnext, upd_same, true_iff]
      exact ⟨i, v, upd_same .., hb⟩
    · simp only [World.alloc, hnext]
      rw [upd_other _ _ hbn, I.live]
      constructor
      · rintro ⟨j, u, hj, h⟩; exact ⟨j, u, fwd j u hj, h⟩
      · rintro ⟨j, u, hj, h⟩
        rcases key j u hj with ⟨rfl, _⟩ | ⟨_, h'⟩
        · rw [hb] at h; cases h; exact absurd rfl hbn
        · exact ⟨j, u, h', h⟩
  · intro b
    by_cases hbn : b = a.n
    · subst hbn
      simp only [World.alloc, hnext, upd_same, true_iff]
      exact ⟨i, v, upd_same .., ho⟩
    · simp only [World.alloc, hnext]
      rw [upd_other _ _ hbn, I.alive]
      constructor
      · rintro ⟨j, u, hj, h⟩; exact ⟨j, u, fwd j u hj, h⟩
      · rintro ⟨j, u, hj, h⟩
        rcases key j u hj with ⟨rfl, _⟩ | ⟨_, h'⟩
        · rw [ho] at h; cases h; exact absurd rfl hbn
        · exact ⟨j, u, h', h⟩
  · intro j l u t b hj hl h h'
    rcases key j u hj with ⟨rfl, rfl⟩ | ⟨_, h1⟩
    · rcases key l t hl with ⟨rfl, rfl⟩ | ⟨_, h2⟩
      · rfl
      · rw [hb] at h; cases h; exact absurd (I.bound l t _ h2 h') (Nat.lt_irrefl _)
    · rcases key l t hl with ⟨rfl, rfl⟩ | ⟨_, h2⟩
      · rw [hb] at h'; cases h'; exact absurd (I.bound j u _ h1 h) (Nat.lt_irrefl _)
      · exact I.uniq j l u t b h1 h2 h h'
  · intro j u b hj h
    rcases key j u hj with ⟨rfl, _⟩ | ⟨_, h1⟩
    · rw [hb] at h; cases h; exact Nat.lt_succ_self _
    · exact Nat.lt_succ_of_lt (I.bound j u b h1 h)

/-- `reset` of a loaded object. -/
theorem reset_ok {w : World} {k : Kind} {b : Nat} (h : w.live b = true) (h' : w.alive b = true) :
    (Val.loaded k b).wr.reset w =
      .ok (if k = .mmap then { w with alive := upd w.alive b false } else w.drop (some b), (Val.spent k b).wr) := by
  simp only [Val.wr, Wr.reset, destroy_ok h', ok_bind]
  cases k
  · simp only [if_true, pure_ok]
  all_goals
    simp only [reduceCtorEq, if_false, assignBuffer, World.releaseOpt, pure_ok]
    rw [release_ok (by exact h)]
    simp only [ok_bind, World.drop, upd_upd]

theorem inv_reset {s : State} {a : Spec} (I : Inv s a) {i : Nat} {k : Kind} {b : Nat} (hi : a.vars i = some (.loaded k b)) :
    Inv ⟨if k = .mmap then { s.w with alive := upd s.w.alive b false } else s.w.drop (some b), upd s.vars i (some (Val.spent k b).wr)⟩
      ⟨a.n, upd a.vars i (some (.spent k b))⟩ := by
  have key : ∀ j u, upd a.vars i (some (.spent k b)) j = some u → (u = .spent k b ∧ j = i) ∨ (j ≠ i ∧ a.vars j = some u) := by
    intro j u hj
    by_cases hji : j = i
    · subst hji; rw [upd_same] at hj; cases hj; exact Or.inl ⟨rfl, rfl⟩
    · rw [upd_other _ _ hji] at hj; exact Or.inr ⟨hji, hj⟩
  have hsp : ∀ c, (Val.spent k b).block = some c → c = b ∧ k = .mmap := by
    intro c hc; cases k <;> simp [Val.block] at hc ⊢; exact hc.symm
  have hown : ∀ j u, a.vars j = some u → u.block = some b → j = i := fun j u hj hb => I.uniq j i u _ b hj hi hb rfl
  refine ⟨by split <;> (try rw [drop_next]) <;> exact I.next, inv_vars_upd I.vars i (some (.spent k b)), ?_, ?_, ?_, ?_⟩
  · intro c
    have hl : (if k = .mmap then { s.w with alive := upd s.w.alive b false } else s.w.drop (some b)).live c = true ↔
        s.w.live c = true ∧ (c = b → k = .mmap) := by
      split
      · rename_i hk; simp [hk]
      · rename_i hk; rw [drop_live]; simp only [hk, imp_false, ne_eq, Option.some.injEq]; exact and_congr_right fun _ => not_congr eq_comm
    rw [hl, I.live]
    constructor
    · rintro ⟨⟨j, u, hj, hb⟩, hn⟩
      by_cases hji : j = i
      · subst hji
        rw [hi] at hj; cases hj; cases hb
        have := hn rfl
        subst this
        exact ⟨j, _, upd_same .., rfl⟩
      · exact ⟨j, u, (upd_other _ _ hji).trans hj, hb⟩
    · rintro ⟨j, u, hj, hb⟩
      rcases key j u hj with ⟨rfl, rfl⟩ | ⟨hji, h1⟩
      · obtain ⟨rfl, hk⟩ := hsp c hb
        exact ⟨⟨j, _, hi, rfl⟩, fun _ => hk⟩
      · exact ⟨⟨j, u, h1, hb⟩, fun e => absurd (hown j u h1 (e ▸ hb)) hji⟩
  · intro c
    have hl : (if k = .mmap then { s.w with alive := upd s.w.alive b false } else s.w.drop (some b)).alive c = true ↔
        s.w.alive c = true ∧ c ≠ b := by
      split
      · by_cases h : c = b
        · subst h; simp [upd]
        · simp [upd, h]
      · rw [drop_alive]; simp only [ne_eq, Option.some.injEq]; exact and_congr_right fun _ => not_congr eq_comm
    rw [hl, I.alive]
    constructor
    · rintro ⟨⟨j, u, hj, hb⟩, hn⟩
      have hji : j ≠ i := by rintro rfl; rw [hi] at hj; cases hj; cases hb; exact hn rfl
      exact ⟨j, u, (upd_other _ _ hji).trans hj, hb⟩
    · rintro ⟨j, u, hj, hb⟩
      rcases key j u hj with ⟨rfl, rfl⟩ | ⟨hji, h1⟩
      · cases hb
      · exact ⟨⟨j, u, h1, hb⟩, fun e => hji (hown j u h1 (obj_block (e ▸ hb)))⟩
  · intro j l u t c hj hl h h'
    rcases key j u hj with ⟨rfl, rfl⟩ | ⟨hji, h1⟩
    · rcases key l t hl with ⟨rfl, rfl⟩ | ⟨hli, h2⟩
      · rfl
      · obtain ⟨rfl, _⟩ := hsp c h
        exact (hown l t h2 h').symm
    · rcases key l t hl with ⟨rfl, rfl⟩ | ⟨hli, h2⟩
      · obtain ⟨rfl, _⟩ := hsp c h'
        exact hown j u h1 h
      · exact I.uniq j l u t c h1 h2 h h'
  · intro j u c hj h
    rcases key j u hj with ⟨rfl, rfl⟩ | ⟨_, h1⟩
    · obtain ⟨rfl, _⟩ := hsp c h
      exact I.bound j _ c hi rfl
    · exact I.bound j u c h1 h

theorem step_ok {s : State} {a : Spec} (I : Inv s a) {op : Op} {a' : Spec} {o : Out} (h : op.spec a = some (a', o)) :
    ∃ s', op.exec s = .ok (s', o) ∧ Inv s' a' := by
  cases op with
  | empty i =>
    simp only [Op.spec] at h
    split at h
    · rename_i hi; cases h; exact ⟨_, rfl, inv_null I hi .mmap⟩
    · cases h
  | load i k =>
    simp only [Op.spec] at h
    split at h
    · rename_i hi
      cases h
      refine ⟨_, rfl, ?_⟩
      have := inv_alloc I (v := .loaded k a.n) hi rfl
      rw [← I.next] at this ⊢
      exact this
    · cases h
  | own i =>
    simp only [Op.spec] at h
    split at h
    · rename_i hi
      cases h
      refine ⟨_, rfl, ?_⟩
      have := inv_alloc I (v := .owned a.n) hi rfl
      rw [← I.next] at this ⊢
      exact this
    · cases h
  | move i j =>
    simp only [Op.spec] at h
    split at h
    · rename_i v hi hj
      cases h
      have hm : v.wr.move = (v.wr, (Val.null v.kind).wr) := by cases v <;> rfl
      refine ⟨_, by simp only [Op.exec, get_ok I hj, ok_bind, hm, pure_ok], inv_move I hi hj⟩
    · cases h
  | assign i j =>
    simp only [Op.spec] at h
    split at h
    · rename_i d v hi hj
      split at h
      · cases h
      · rename_i hc
        rw [not_or] at hc
        cases h
        refine ⟨⟨s.w.drop d.block, upd (upd s.vars j (some (Val.null v.kind).wr)) i (some v.wr)⟩, ?_, ?_⟩
        · simp only [Op.exec, get_ok I hi, get_ok I hj, ok_bind, assign_ok (I.blockLive hi) (I.objAlive hi) hc.2, pure_ok]
        · have I1 := inv_drop I hi
          have hj1 : (upd a.vars i none) j = some v := by rw [upd_other _ _ (Ne.symm hc.1)]; exact hj
          have I2 := inv_move I1 (i := i) (j := j) (v := v) (upd_same ..) hj1
          have swap : ∀ {α : Type} (f : Nat → α) (x y z : α), upd (upd (upd f i x) j y) i z = upd (upd f j y) i z := by
            intro α f x y z; funext l; simp only [upd]; repeat' split <;> simp_all
          simp only [swap] at I2
          exact I2
    · cases h
  | reset i =>
    simp only [Op.spec] at h
    split at h
    · rename_i k b hi
      cases h
      refine ⟨_, ?_, inv_reset I hi⟩
      simp only [Op.exec, get_ok I hi, ok_bind, reset_ok (I.blockLive hi b rfl) (I.objAlive hi b rfl), pure_ok]
    · cases h
  | deref i =>
    simp only [Op.spec] at h
    split at h
    · rename_i v hi
      split at h
      · rename_i b hb
        cases h
        refine ⟨s, ?_, I⟩
        have he : v.wr.el.el = some b := by cases v <;> simp_all [Val.obj, Val.wr]
        simp only [Op.exec, get_ok I hi, ok_bind, he, I.objAlive hi b hb, require_true, pure_ok]
      · cases h
    · cases h
  | test i =>
    simp only [Op.spec] at h
    split at h
    · cases h
    · rename_i v hv hi
      cases h
      refine ⟨s, ?_, I⟩
      have he : v.wr.el.el.isSome = v.obj.isSome := by
        cases v with
        | spent k b => exact absurd rfl (hv k b)
        | _ => rfl
      simp only [Op.exec, get_ok I hi, ok_bind, he, pure_ok]
    · cases h
  | destroy i =>
    simp only [Op.spec] at h
    split at h
    · rename_i v hi
      cases h
      exact ⟨_, by simp only [Op.exec, get_ok I hi, ok_bind, dtor_ok (I.blockLive hi) (I.objAlive hi), pure_ok], inv_drop I hi⟩
    · cases h

theorem run_ok {s : State} {a : Spec} (I : Inv s a) (ops : List Op) {a' : Spec} {os : List Out} (h : specRun a ops = some (a', os)) :
    ∃ s', run s ops = .ok (s', os) ∧ Inv s' a' := by
  induction ops generalizing s a os with
  | nil => cases h; exact ⟨s, rfl, I⟩
  | cons op ops ih =>
    simp only [specRun] at h
    split at h
    · cases h
    · rename_i a1 o h1
      split at h
      · cases h
      · rename_i a2 os' h2
        cases h
        obtain ⟨s1, e1, I1⟩ := step_ok I h1
        obtain ⟨s2, e2, I2⟩ := ih I1 h2
        exact ⟨s2, by simp only [run, e1, ok_bind, e2, pure_ok], I2⟩

theorem inv_init : Inv .init .init := by
  refine ⟨rfl, fun _ => rfl, ?_, ?_, ?_, ?_⟩ <;> simp [State.init, Spec.init]

/-! ## Properties -/

/-- Every history of supported uses is free of undefined behaviour and gives access to the object the specification says; the blocks that are
allocated afterwards are those the variables hold, each by one variable, and the objects that are alive those they give access to. -/
theorem C75_history_partial (ops : List Op) (a : Spec) (os : List Out) (h : specRun .init ops = some (a, os)) :
    ∃ s, run .init ops = .ok (s, os) ∧
      (∀ b, s.w.live b = true ↔ ∃ i v, a.vars i = some v ∧ v.block = some b) ∧
      (∀ b, s.w.alive b = true ↔ ∃ i v, a.vars i = some v ∧ v.obj = some b) ∧
      (∀ i j v u b, a.vars i = some v → a.vars j = some u → v.block = some b → u.block = some b → i = j) := by
  obtain ⟨s, e, I⟩ := run_ok inv_init ops h
  exact ⟨s, e, I.live, I.alive, I.uniq⟩

/-- Once all variables are gone every block was released. -/
theorem C75_no_leak_partial (ops : List Op) (a : Spec) (os : List Out) (h : specRun .init ops = some (a, os)) (hv : ∀ i, a.vars i = none) :
    ∃ s, run .init ops = .ok (s, os) ∧ ∀ b, s.w.live b = false := by
  obtain ⟨s, e, I⟩ := run_ok inv_init ops h
  refine ⟨s, e, fun b => ?_⟩
  cases hb : s.w.live b with
  | false => rfl
  | true =>
    obtain ⟨i, v, hi, _⟩ := (I.live b).1 hb
    rw [hv i] at hi; cases hi

/-- A history with every kind of memory, moves, assignments and `reset`. -/
def exOps : List Op :=
  [.load 0 .buffer, .load 1 .mmap, .own 2, .empty 3, .deref 0, .test 3, .move 4 0, .deref 4, .assign 1 4, .deref 1, .assign 3 2, .deref 3,
   .reset 1, .load 5 .bytes, .assign 1 5, .deref 1, .destroy 0, .destroy 1, .destroy 2, .destroy 3, .destroy 4, .destroy 5]

example : (specRun .init exOps).map (·.2) =
    some [.none, .none, .none, .none, .obj 0, .bool false, .none, .obj 0, .none, .obj 0, .none, .obj 2, .none, .none, .none, .obj 3,
      .none, .none, .none, .none, .none, .none] := by decide +kernel

/-- The uses of C76: no `reset`, and no assignment to a variable that holds a mapping. -/
def Plain : List Op → Spec → Prop
  | [], _ => True
  | op :: ops, a =>
    (match op with
      | .reset _ => False
      | .assign i j => i ≠ j ∧ ∃ d v, a.vars i = some d ∧ a.vars j = some v ∧ ∀ b, d ≠ .loaded .mmap b
      | .empty i | .load i _ | .own i => a.vars i = none
      | .move i j => a.vars i = none ∧ ∃ v, a.vars j = some v
      | .deref i => ∃ v, a.vars i = some v ∧ v.obj ≠ none
      | .test i | .destroy i => ∃ v, a.vars i = some v) ∧
    ∀ a' o, op.spec a = some (a', o) → Plain ops a'

theorem plain_spec (ops : List Op) (a : Spec) (h : Plain ops a) (hs : ∀ i k b, a.vars i ≠ some (.spent k b)) :
    ∃ a' os, specRun a ops = some (a', os) := by
  induction ops generalizing a with
  | nil => exact ⟨a, [], rfl⟩
  | cons op ops ih =>
    obtain ⟨h1, h2⟩ := h
    have step : ∃ a' o, op.spec a = some (a', o) ∧ ∀ i k b, a'.vars i ≠ some (.spent k b) := by
      cases op with
      | empty i =>
        have h1 : a.vars i = none := h1
        refine ⟨⟨a.n, upd a.vars i (some (.null .mmap))⟩, .none, by simp only [Op.spec, h1], fun l k b => ?_⟩
        simp only [upd]; split
        · simp
        · exact hs l k b
      | load i q =>
        have h1 : a.vars i = none := h1
        refine ⟨⟨a.n + 1, upd a.vars i (some (.loaded q a.n))⟩, .none, by simp only [Op.spec, h1], fun l k b => ?_⟩
        simp only [upd]; split
        · simp
        · exact hs l k b
      | own i =>
        have h1 : a.vars i = none := h1
        refine ⟨⟨a.n + 1, upd a.vars i (some (.owned a.n))⟩, .none, by simp only [Op.spec, h1], fun l k b => ?_⟩
        simp only [upd]; split
        · simp
        · exact hs l k b
      | move i j =>
        obtain ⟨hi, v, hj⟩ := h1
        refine ⟨_, _, by simp only [Op.spec, hi, hj]; rfl, fun l k b => ?_⟩
        simp only [upd]; split
        · rw [← hj]; exact hs j k b
        · split
          · simp
          · exact hs l k b
      | assign i j =>
        obtain ⟨hij, d, v, hi, hj, hd⟩ := h1
        have hm : d.mapped = false := by
          cases d with
          | loaded q b => cases q <;> first | rfl | exact absurd rfl (hd b)
          | spent q b => exact absurd hi (hs i q b)
          | _ => rfl
        refine ⟨_, _, by simp only [Op.spec, hi, hj, hij, hm, Bool.false_eq_true, false_and, or_self, if_false]; rfl, fun l k b => ?_⟩
        simp only [upd]; split
        · rw [← hj]; exact hs j k b
        · split
          · simp
          · exact hs l k b
      | reset i => exact absurd h1 id
      | deref i =>
        obtain ⟨v, hi, hv⟩ := h1
        cases ho : v.obj with
        | none => exact absurd ho hv
        | some b => exact ⟨_, _, by simp only [Op.spec, hi, ho]; rfl, hs⟩
      | test i =>
        obtain ⟨v, hi⟩ := h1
        cases v with
        | spent q b => exact absurd hi (hs i q b)
        | _ => exact ⟨_, _, by simp only [Op.spec, hi]; rfl, hs⟩
      | destroy i =>
        obtain ⟨v, hi⟩ := h1
        refine ⟨_, _, by simp only [Op.spec, hi]; rfl, fun l k b => ?_⟩
        simp only [upd]; split
        · simp
        · exact hs l k b
    obtain ⟨a', o, e, hs'⟩ := step
    obtain ⟨a2, os, e2⟩ := ih a' (h2 a' o e) hs'
    exact ⟨a2, o :: os, by simp only [specRun, e, e2]⟩

/-- Histories without `reset` and without assignment to a variable that holds a mapping run without undefined behaviour, every access gives the object of the
specification, and what is allocated at the end is what the variables hold: nothing, once they are gone. -/
theorem C76_history (ops : List Op) (h : Plain ops .init) :
    ∃ a os s, specRun .init ops = some (a, os) ∧ run .init ops = .ok (s, os) ∧
      (∀ b, s.w.live b = true ↔ ∃ i v, a.vars i = some v ∧ v.block = some b) ∧
      ((∀ i, a.vars i = none) → ∀ b, s.w.live b = false) := by
  obtain ⟨a, os, e⟩ := plain_spec ops .init h (fun i k b => by simp [Spec.init])
  obtain ⟨s, e', hl, _⟩ := C75_history_partial ops a os e
  refine ⟨a, os, s, e, e', hl, fun hv b => ?_⟩
  cases hb : s.w.live b with
  | false => rfl
  | true =>
    obtain ⟨i, v, hi, _⟩ := (hl b).1 hb
    rw [hv i] at hi; cases hi

/-- Non-vacuity: a load, a move, an assignment over a buffer, an access. -/
example : Plain [.load 0 .buffer, .load 1 .mmap, .assign 0 1, .deref 0, .destroy 0, .destroy 1] .init := by
  refine ⟨rfl, fun a o e => ?_⟩
  cases e
  refine ⟨rfl, fun a o e => ?_⟩
  cases e
  refine ⟨⟨by decide, _, _, rfl, rfl, fun b => by simp⟩, fun a o e => ?_⟩
  cases e
  refine ⟨⟨_, rfl, by simp [Val.obj]⟩, fun a o e => ?_⟩
  cases e
  refine ⟨⟨_, rfl⟩, fun a o e => ?_⟩
  cases e
  refine ⟨⟨_, rfl⟩, fun a o e => ?_⟩
  trivial

/-- **Violated**: assigning over a variable that holds a mapping (from another mapping, from an empty variable or from one that owns its object)
leaks the mapping and the open file. -/
theorem C75_mapping_leak_violated (op : Op) (hop : op = .load 1 .mmap ∨ op = .empty 1 ∨ op = .own 1) :
    ∃ s os, run .init [.load 0 .mmap, op, .assign 0 1, .destroy 0, .destroy 1] = .ok (s, os) ∧
      (∀ i, s.vars i = none) ∧ s.w.live 0 = true := by
  rcases hop with rfl | rfl | rfl
  all_goals
    refine ⟨_, _, rfl, fun i => ?_, by decide⟩
    simp only [upd]
    repeat' split <;> try rfl

/-- **Violated**: `reset` of a variable that owns its object destroys it, and its destructor does so again, whatever happened before. -/
theorem C75_reset_owned_violated (s : State) (i : Nat) : run s [.own i, .reset i, .destroy i] = .error .ub := by
  simp [run, Op.exec, State.get, Wr.reset, Wr.dtor, UP.reset, World.destroy, World.alloc, upd, require, bind, Except.bind, pure, Except.pure]

/-- **Violated**: a second `reset` destroys the object again; `reset` of an empty variable calls a member of a null pointer. -/
theorem C75_reset_twice_violated (s : State) (i : Nat) (k : Kind) :
    run s [.load i k, .reset i, .reset i] = .error .ub ∧ run s [.empty i, .reset i] = .error .ub := by
  constructor
  · cases k <;>
      simp [run, Op.exec, State.get, Wr.reset, World.destroy, World.alloc, assignBuffer, World.releaseOpt, World.release, upd, require, bind,
        Except.bind, pure, Except.pure]
  · simp [run, Op.exec, State.get, Wr.reset, Wr.empty, upd, bind, Except.bind]

/-- **Violated**: after `reset` the variable still claims to have an object; using it is undefined behaviour. -/
theorem C75_reset_dangling_violated (s : State) (i : Nat) (k : Kind) :
    (∃ s', run s [.load i k, .reset i, .test i] = .ok (s', [.none, .none, .bool true])) ∧
      run s [.load i k, .reset i, .deref i] = .error .ub := by
  constructor <;> cases k <;>
    simp [run, Op.exec, State.get, Wr.reset, World.destroy, World.alloc, assignBuffer, World.releaseOpt, World.release, upd, require, bind,
      Except.bind, pure, Except.pure]

example : run .init [.own 0, .reset 0, .destroy 0] = .error .ub ∧ run .init [.load 0 .buffer, .reset 0, .reset 0] = .error .ub ∧
    run .init [.load 0 .mmap, .reset 0, .deref 0] = .error .ub :=
  ⟨C75_reset_owned_violated _ _, (C75_reset_twice_violated _ _ _).1, (C75_reset_dangling_violated _ _ _).2⟩

end Cista.Wrapped
