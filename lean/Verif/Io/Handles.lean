import Verif.Io.MmapFail

/-!
# Who owns a mapped file

Several `cista::mmap` objects (include/cista/mmap.h) with the `cista::file` inside (include/cista/targets/file.h, POSIX branches): opening, moving,
assigning, resizing, reading, writing and destroying them.  The world outside is what the system knows: the files on the disk, the open `FILE*` and the
mappings.  Using a `FILE*` or a mapping that is no longer there is `Err.ub`, and so is `fileno(nullptr)`.

Opening a file may fail at each of its system calls; the system calls of `resize`, `sync` and the destructor succeed here (see `Io/MmapFail.lean` for
their failures).  A mapping shows the bytes of the file.  `mmap m{}` is modelled; the members of `mmap m;` are indeterminate.
-/
set_option linter.unusedSimpArgs false

namespace Cista.Handles

open Cista.MmapVec (ftruncate np2 np2_ge)
open Cista.Ser (rd length_rd rd_get ftruncate_rd)
open Cista.MmapFail (rd_eq_map)

/-! ## Model -/

abbrev Path := Nat

def upd {α : Type} (f : Nat → α) (i : Nat) (x : α) : Nat → α := fun j => if j = i then x else f j

/-- mmap.h:207-211: `f_.f_`, `prot_ != READ`, `size_`, `used_size_`, `addr_`. -/
structure Obj where
  f : Option Nat
  rw_ : Bool
  size : Nat
  used : Nat
  addr : Option Nat
  deriving DecidableEq

/-- The files by name, the open `FILE*` with their files, the mappings with file and length, the next free number, and the variables. -/
structure World where
  disk : Path → Option (List Byte)
  files : Nat → Option Path
  maps : Nat → Option (Path × Nat)
  next : Nat
  vars : Nat → Option Obj

/-- mmap.h:27 `protection`. -/
inductive Prot where
  | read | write | modify
  deriving DecidableEq

/-- mmap.h:32-34 and `fopen`: "w+" makes the file empty, "r" and "r+" need an existing one.  The bytes then. -/
def mode (p : Prot) (d : Option (List Byte)) : Option (List Byte) :=
  match p with
  | .write => some []
  | _ => d

/-- The call that fails while a file is opened: `fopen`, `fstat` in the constructor of `file`, `fstat` in the constructor of `mmap`, `mmap`. -/
inductive Fault where
  | fopen | statFile | statMmap | map
  deriving DecidableEq

/-- file.h:214-219 `~file`. -/
def World.fclose (w : World) (f : Option Nat) : Res World :=
  match f with
  | none => .ok w
  | some h => match w.files h with
    | none => .error .ub
    | some _ => .ok { w with files := upd w.files h none }

/-- file.h:237-241 `fd`: the file behind it. -/
def World.fd (w : World) (f : Option Nat) : Res Path :=
  match f with
  | none => .error .ub
  | some h => match w.files h with
    | none => .error .ub
    | some p => .ok p

/-- file.h:243-250 `size`. -/
def World.fsize (w : World) (f : Option Nat) : Res Nat :=
  if f = none then .ok 0
  else do
    let p ← w.fd f
    match w.disk p with
    | none => .error .ub
    | some b => .ok b.length

/-- Pages of `n` bytes. -/
def pages (page n : Nat) : Nat := (n + page - 1) / page

/-- `munmap`: of the mapping that begins here the pages of `n` bytes go; `n = 0` is refused. -/
def World.munmap (page : Nat) (w : World) (a n : Nat) : Res World :=
  match w.maps a with
  | none => .error .ub
  | some (p, l) =>
    if n = 0 then .ok w
    else if pages page n < pages page l then .ok { w with maps := upd w.maps a (some (p, l - pages page n * page)) }
    else .ok { w with maps := upd w.maps a none }

/-- mmap.h:129-144 `unmap`. -/
def World.unmap (page : Nat) (w : World) (o : Obj) : Res (World × Obj) :=
  match o.addr with
  | none => .ok (w, o)
  | some a => do
    let w ← w.munmap page a o.size
    .ok (w, { o with addr := none })

/-- mmap.h:146-174 `map`; `none`: it throws (zero bytes cannot be mapped). -/
def World.map (w : World) (o : Obj) : Res (World × Option Nat) := do
  let p ← w.fd o.f
  if o.size = 0 then .ok (w, none)
  else .ok ({ w with maps := upd w.maps w.next (some (p, o.size)), next := w.next + 1 }, some w.next)

/-- mmap.h:176-194 `resize_file`. -/
def World.resizeFile (w : World) (o : Obj) : Res World :=
  if o.rw_ = false then .ok w
  else do
    let p ← w.fd o.f
    match w.disk p with
    | none => .error .ub
    | some b => .ok { w with disk := upd w.disk p (some (ftruncate b o.size)) }

/-- mmap.h:196-205 `resize_map` (the callers have checked `prot_`); `false`: it throws. -/
def World.resizeMap (page : Nat) (w : World) (o : Obj) (n : Nat) : Res (World × Obj × Bool) := do
  let (w, o) ← w.unmap page o
  let o := { o with size := n }
  let w ← w.resizeFile o
  let (w, a) ← w.map o
  .ok (w, { o with addr := a }, a.isSome)

/-- mmap.h:40-49 the destructor, then the one of `f_`. -/
def World.destroy (page : Nat) (w : World) (o : Obj) : Res World := do
  if o.addr = none then w.fclose o.f
  else do
    let (w, o) ← w.unmap page { o with size := o.used }
    let n ← w.fsize o.f
    let w ← if o.size ≠ n then w.resizeFile o else .ok w
    w.fclose o.f

inductive Op where
  | open_ (i : Nat) (p : Path) (prot : Prot) (fault : Option Fault)
  | init (i : Nat)
  | moveNew (i j : Nat)
  | moveAssign (i j : Nat)
  | resize (i n : Nat)
  | reserve (i n : Nat)
  | sync (i : Nat)
  | size (i : Nat)
  | get (i k : Nat)
  | put (i k : Nat) (x : Byte)
  | destroy (i : Nat)

inductive Ans where
  | done | threw | num (n : Nat) | byte (x : Byte)
  deriving DecidableEq

/-- A use of a variable that is alive. -/
def World.at_ (w : World) (i : Nat) : Res Obj :=
  match w.vars i with
  | none => .error .ub
  | some o => .ok o

/-- A new variable. -/
def World.fresh (w : World) (i : Nat) : Res Unit :=
  if w.vars i = none then .ok () else .error .ub

/-- A successful `fopen`. -/
def World.fopen (w : World) (p : Path) (b : List Byte) : World :=
  { w with disk := upd w.disk p (some b), files := upd w.files w.next (some p), next := w.next + 1 }

/-- mmap.h:31-38 and file.h:208-212: opening; when the constructor of `mmap` throws, `f_` is destroyed, when the one of `file` does, nothing is. -/
def World.open_ (w : World) (i : Nat) (p : Path) (prot : Prot) (fault : Option Fault) : Res (World × Ans) :=
  if fault = some .fopen then .ok (w, .threw)
  else match mode prot (w.disk p) with
    | none => .ok (w, .threw)
    | some b =>
      let h := w.next
      let w := w.fopen p b
      if fault = some .statFile then .ok (w, .threw)
      else if fault = some .statMmap then do
        let w ← w.fclose (some h)
        .ok (w, .threw)
      else do
        let n ← w.fsize (some h)
        let o : Obj := ⟨some h, decide (prot ≠ .read), n, n, none⟩
        if n = 0 then .ok ({ w with vars := upd w.vars i (some o) }, .done)
        else if fault = some .map then do
          let w ← w.fclose (some h)
          .ok (w, .threw)
        else do
          let (w, a) ← w.map o
          .ok ({ w with vars := upd w.vars i (some { o with addr := a }) }, .done)

/-- mmap.h:54-64, 66-77 and file.h:224-227, 229-235: the target takes all members, then the source loses `f_` and `addr_`. -/
def World.takeFrom (w : World) (i j : Nat) (o : Obj) : World :=
  let vars := upd w.vars i (some o)
  { w with vars := upd vars j (some { o with f := none, addr := none }) }

/-- mmap.h:91-98 (`keep = false`) and 100-106 (`keep = true`). -/
def World.grow (page : Nat) (keep : Bool) (w : World) (i n : Nat) : Res (World × Ans) := do
  let o ← w.at_ i
  if o.rw_ = false then .ok (w, .threw)
  else if o.size < n then do
    let (w, o, ok) ← w.resizeMap page o (np2 n)
    if ok then .ok ({ w with vars := upd w.vars i (some { o with used := if keep then o.used else n }) }, .done)
    else .ok ({ w with vars := upd w.vars i (some o) }, .threw)
  else .ok ({ w with vars := upd w.vars i (some { o with used := if keep then o.used else n }) }, .done)

/-- Where the byte `k` of the mapping is: mmap.h:123-126. -/
def World.byteAt (w : World) (o : Obj) (k : Nat) : Res (Path × List Byte) :=
  match o.addr with
  | none => .error .ub
  | some a => match w.maps a with
    | none => .error .ub
    | some (p, l) => match w.disk p with
      | none => .error .ub
      | some b => if k < l ∧ k < b.length then .ok (p, b) else .error .ub

def World.exec (page : Nat) (w : World) : Op → Res (World × Ans)
  | .open_ i p prot fault => do
    w.fresh i
    w.open_ i p prot fault
  | .init i => do
    w.fresh i
    .ok ({ w with vars := upd w.vars i (some ⟨none, false, 0, 0, none⟩) }, .done)
  | .moveNew i j => do
    w.fresh i
    let o ← w.at_ j
    .ok (w.takeFrom i j o, .done)
  | .moveAssign i j => do
    let _ ← w.at_ i
    let o ← w.at_ j
    .ok (w.takeFrom i j o, .done)
  | .resize i n => w.grow page false i n
  | .reserve i n => w.grow page true i n
  | .sync i => do
    let o ← w.at_ i
    match o.addr with
    | none => .ok (w, .done)
    | some a => if w.maps a = none then .error .ub else .ok (w, .done)
  | .size i => do
    let o ← w.at_ i
    .ok (w, .num o.used)
  | .get i k => do
    let o ← w.at_ i
    let r ← w.byteAt o k
    .ok (w, .byte (r.2.getD k 0))
  | .put i k x => do
    let o ← w.at_ i
    if o.rw_ = false then .error .ub
    else do
      let r ← w.byteAt o k
      .ok ({ w with disk := upd w.disk r.1 (some (r.2.set k x)) }, .done)
  | .destroy i => do
    let o ← w.at_ i
    let w ← w.destroy page o
    .ok ({ w with vars := upd w.vars i none }, .done)

def World.run (page : Nat) : World → List Op → Res (World × List Ans)
  | w, [] => .ok (w, [])
  | w, op :: ops => do
    let (w, a) ← w.exec page op
    let (w, as) ← World.run page w ops
    .ok (w, a :: as)

/-- Nothing is open. -/
def World.start (disk : Path → Option (List Byte)) : World := ⟨disk, fun _ => none, fun _ => none, 0, fun _ => none⟩

/-! ## Specification -/

/-- An open file: a file without end, of which `used` bytes are in use and `cap` bytes have been asked for. -/
structure SObj where
  path : Path
  rw_ : Bool
  b : Nat → Byte
  used : Nat
  cap : Nat

/-- A variable never had a file, has handed it on, or holds one. -/
inductive Holds where
  | fresh | moved | obj (s : SObj)

/-- The files that are not open, and the variables. -/
structure Spec where
  disk : Path → Option (List Byte)
  vars : Nat → Option Holds

def Holds.after : Holds → Holds
  | .fresh => .fresh
  | _ => .moved

/-- The bytes in use. -/
def SObj.bytes (s : SObj) : List Byte := (List.range s.used).map s.b

/-- Is the file of this name open? -/
def Spec.Open (a : Spec) (p : Path) : Prop := ∃ i s, a.vars i = some (.obj s) ∧ s.path = p

/-- One operation and its answer.  Not allowed: to use a variable that is not alive or was moved from, to open a file twice, to assign to a variable that
holds a file, `fstat` failing in the constructor of `file`, to destroy a variable with unused pages, accesses outside of the bytes in use. -/
inductive Spec.Step (page : Nat) (a : Spec) : Op → Spec → Ans → Prop
  | noOpen {i p prot fault} (h : a.vars i = none) (ho : ¬ a.Open p) (hf : fault = some .fopen ∨ mode prot (a.disk p) = none) :
    Step page a (.open_ i p prot fault) a .threw
  | badOpen {i p prot fault d} (h : a.vars i = none) (ho : ¬ a.Open p) (hd : mode prot (a.disk p) = some d)
    (hf : fault = some .statMmap ∨ (fault = some .map ∧ d ≠ [])) :
    Step page a (.open_ i p prot fault) { a with disk := upd a.disk p (some d) } .threw
  | open_ {i p prot fault d} (h : a.vars i = none) (ho : ¬ a.Open p) (hd : mode prot (a.disk p) = some d)
    (hf : fault = none ∨ (fault = some .map ∧ d = [])) :
    Step page a (.open_ i p prot fault)
      { a with vars := upd a.vars i (some (.obj ⟨p, decide (prot ≠ .read), fun k => d.getD k 0, d.length, d.length⟩)) } .done
  | init {i} (h : a.vars i = none) : Step page a (.init i) { a with vars := upd a.vars i (some .fresh) } .done
  | moveNew {i j x} (h : a.vars i = none) (hj : a.vars j = some x) :
    Step page a (.moveNew i j) { a with vars := upd (upd a.vars i (some x)) j (some x.after) } .done
  | moveAssign {i j x y} (h : a.vars i = some y) (hy : ∀ s, y ≠ .obj s) (hj : a.vars j = some x) :
    Step page a (.moveAssign i j) { a with vars := upd (upd a.vars i (some x)) j (some x.after) } .done
  | resize {i n s} (h : a.vars i = some (.obj s)) (hw : s.rw_ = true) (hn : n ≤ 2 ^ 63) :
    Step page a (.resize i n)
      { a with vars := upd a.vars i (some (.obj { s with used := n, cap := if s.cap < n then np2 n else s.cap })) } .done
  | reserve {i n s} (h : a.vars i = some (.obj s)) (hw : s.rw_ = true) (hn : n ≤ 2 ^ 63) :
    Step page a (.reserve i n)
      { a with vars := upd a.vars i (some (.obj { s with cap := if s.cap < n then np2 n else s.cap })) } .done
  | readOnly {i n s op} (h : a.vars i = some (.obj s)) (hw : s.rw_ = false) (ho : op = .resize i n ∨ op = .reserve i n) : Step page a op a .threw
  | never {i n op} (h : a.vars i = some .fresh) (ho : op = .resize i n ∨ op = .reserve i n) : Step page a op a .threw
  | sync {i x} (h : a.vars i = some x) : Step page a (.sync i) a .done
  | size {i s} (h : a.vars i = some (.obj s)) : Step page a (.size i) a (.num s.used)
  | noSize {i} (h : a.vars i = some .fresh) : Step page a (.size i) a (.num 0)
  | get {i k s} (h : a.vars i = some (.obj s)) (hk : k < s.used) : Step page a (.get i k) a (.byte (s.b k))
  | put {i k x s} (h : a.vars i = some (.obj s)) (hw : s.rw_ = true) (hk : k < s.used) :
    Step page a (.put i k x) { a with vars := upd a.vars i (some (.obj { s with b := upd s.b k x })) } .done
  | destroy {i s} (h : a.vars i = some (.obj s)) (hp : pages page s.used = pages page s.cap) :
    Step page a (.destroy i) { disk := upd a.disk s.path (some s.bytes), vars := upd a.vars i none } .done
  | drop {i x} (h : a.vars i = some x) (hx : ∀ s, x ≠ .obj s) : Step page a (.destroy i) { a with vars := upd a.vars i none } .done

inductive Spec.Run (page : Nat) : Spec → List Op → Spec → List Ans → Prop
  | nil {a} : Run page a [] a []
  | cons {a b c op ops x xs} (h : Spec.Step page a op b x) (t : Run page b ops c xs) : Run page a (op :: ops) c (x :: xs)

def Spec.start (disk : Path → Option (List Byte)) : Spec := ⟨disk, fun _ => none⟩

/-! ## Proofs -/

theorem upd_same {α : Type} (f : Nat → α) (i : Nat) (x : α) : upd f i x i = x := if_pos rfl
theorem upd_upd {α : Type} (f : Nat → α) (i : Nat) (x y : α) : upd (upd f i x) i y = upd f i y := by
  funext k
  unfold upd
  split <;> rfl
theorem upd_ne {α : Type} (f : Nat → α) {i j : Nat} (x : α) (h : j ≠ i) : upd f i x j = f j := if_neg h

/-- The object of a variable that holds a file. -/
structure Is (w : World) (o : Obj) (s : SObj) : Prop where
  file : ∃ h, o.f = some h ∧ w.files h = some s.path
  rw_ : o.rw_ = s.rw_
  size : o.size = s.cap
  used : o.used = s.used
  le : s.used ≤ s.cap
  disk : w.disk s.path = some (rd s.b 0 s.cap)
  zero : ∀ x, s.cap ≤ x → s.b x = 0#8
  addr : (o.addr = none ∧ s.cap = 0) ∨ ∃ m, o.addr = some m ∧ 0 < s.cap ∧ w.maps m = some (s.path, s.cap)
  same : s.rw_ = false → s.used = s.cap

/-- A variable. -/
def Rel (w : World) (v : Option Obj) : Option Holds → Prop
  | none => v = none
  | some .fresh => v = some ⟨none, false, 0, 0, none⟩
  | some .moved => ∃ o, v = some o ∧ o.f = none ∧ o.addr = none
  | some (.obj s) => ∃ o, v = some o ∧ Is w o s

structure Inv (w : World) (a : Spec) : Prop where
  vars : ∀ i, Rel w (w.vars i) (a.vars i)
  ownF : ∀ h p, w.files h = some p → ∃ i o, w.vars i = some o ∧ o.f = some h
  ownM : ∀ m q, w.maps m = some q → ∃ i o, w.vars i = some o ∧ o.addr = some m
  injF : ∀ i j o o' h, w.vars i = some o → w.vars j = some o' → o.f = some h → o'.f = some h → i = j
  injM : ∀ i j o o' m, w.vars i = some o → w.vars j = some o' → o.addr = some m → o'.addr = some m → i = j
  injP : ∀ i j s s', a.vars i = some (.obj s) → a.vars j = some (.obj s') → s.path = s'.path → i = j
  disk : ∀ p, ¬ a.Open p → w.disk p = a.disk p
  ids : ∀ h, w.next ≤ h → w.files h = none ∧ w.maps h = none

theorem Is.frame {w w' : World} {o : Obj} {s : SObj} (h : Is w o s) (hf : ∀ k, o.f = some k → w'.files k = w.files k)
    (hm : ∀ k, o.addr = some k → w'.maps k = w.maps k) (hd : w'.disk s.path = w.disk s.path) : Is w' o s := by
  refine ⟨?_, h.rw_, h.size, h.used, h.le, by rw [hd]; exact h.disk, h.zero, ?_, h.same⟩
  · obtain ⟨k, e1, e2⟩ := h.file
    exact ⟨k, e1, by rw [hf k e1]; exact e2⟩
  · rcases h.addr with e | ⟨m, e1, e2, e3⟩
    · exact .inl e
    · exact .inr ⟨m, e1, e2, by rw [hm m e1]; exact e3⟩

theorem Rel.frame {w w' : World} {v : Option Obj} {x : Option Holds} (h : Rel w v x) (hf : ∀ o k, v = some o → o.f = some k → w'.files k = w.files k)
    (hm : ∀ o k, v = some o → o.addr = some k → w'.maps k = w.maps k) (hd : ∀ s, x = some (.obj s) → w'.disk s.path = w.disk s.path) : Rel w' v x := by
  cases x with
  | none => exact h
  | some y => cases y with
    | fresh => exact h
    | moved => exact h
    | obj s =>
      obtain ⟨o, e, i⟩ := h
      exact ⟨o, e, i.frame (fun k => hf o k e) (fun k => hm o k e) (hd s rfl)⟩

theorem Inv.obj {w : World} {a : Spec} (h : Inv w a) {i : Nat} {s : SObj} (e : a.vars i = some (.obj s)) : ∃ o, w.vars i = some o ∧ Is w o s := by
  have := h.vars i
  rw [e] at this
  exact this

theorem Inv.none {w : World} {a : Spec} (h : Inv w a) {i : Nat} (e : a.vars i = none) : w.vars i = none := by
  have := h.vars i
  rw [e] at this
  exact this

theorem Inv.freshOf {w : World} {a : Spec} (h : Inv w a) {i : Nat} (e : a.vars i = some .fresh) : w.vars i = some ⟨.none, false, 0, 0, .none⟩ := by
  have := h.vars i
  rw [e] at this
  exact this

/-- A variable that is alive. -/
theorem Inv.some {w : World} {a : Spec} (h : Inv w a) {i : Nat} {x : Holds} (e : a.vars i = some x) :
    ∃ o, w.vars i = some o ∧ ((∀ s, x ≠ .obj s) → o.f = Option.none ∧ o.addr = Option.none) := by
  have := h.vars i
  rw [e] at this
  cases x with
  | fresh => exact ⟨_, this, fun _ => ⟨rfl, rfl⟩⟩
  | moved => obtain ⟨o, e, h1, h2⟩ := this; exact ⟨o, e, fun _ => ⟨h1, h2⟩⟩
  | obj s => obtain ⟨o, e, _⟩ := this; exact ⟨o, e, fun g => absurd rfl (g s)⟩

theorem at_eq {w : World} {i : Nat} {o : Obj} (e : w.vars i = some o) : w.at_ i = .ok o := by unfold World.at_; rw [e]
theorem fresh_eq {w : World} {i : Nat} (e : w.vars i = none) : w.fresh i = .ok () := if_pos e

theorem fd_eq {w : World} {f : Option Nat} {h p : Nat} (e : f = some h) (e2 : w.files h = some p) : w.fd f = .ok p := by
  unfold World.fd; rw [e]; simp only [e2]

theorem fsize_eq {w : World} {f : Option Nat} {h p : Nat} {b : List Byte} (e : f = some h) (e2 : w.files h = some p) (e3 : w.disk p = some b) :
    w.fsize f = .ok b.length := by
  unfold World.fsize
  rw [if_neg (by rw [e]; nofun), fd_eq e e2, ok_bind]
  simp only [e3]

/-- The mapping as a whole is given back. -/
theorem unmap_eq {page : Nat} {w : World} {o : Obj} {m n : Nat} {p : Path} (e : o.addr = some m) (e2 : w.maps m = some (p, n)) (h0 : o.size ≠ 0)
    (hp : pages page o.size = pages page n) :
    w.unmap page o = .ok ({ w with maps := upd w.maps m none }, { o with addr := none }) := by
  unfold World.unmap World.munmap
  simp only [e, e2]
  rw [if_neg h0, if_neg (by omega)]
  rfl

theorem unmap_none {page : Nat} {w : World} {o : Obj} (e : o.addr = none) : w.unmap page o = .ok (w, o) := by
  unfold World.unmap; rw [e]

theorem Inv.isObj {w : World} {a : Spec} (h : Inv w a) {i : Nat} {o : Obj} (e : w.vars i = Option.some o) (hn : o.f ≠ Option.none ∨ o.addr ≠ Option.none) :
    ∃ s, a.vars i = Option.some (.obj s) ∧ Is w o s := by
  have := h.vars i
  cases hx : a.vars i with
  | none => rw [hx] at this; rw [show w.vars i = Option.none from this] at e; cases e
  | some x =>
    rw [hx, e] at this
    cases x with
    | fresh => cases this; rcases hn with hn | hn <;> exact absurd rfl hn
    | moved =>
      obtain ⟨o', e', h1, h2⟩ := this
      cases e'
      rcases hn with hn | hn
      · exact absurd h1 hn
      · exact absurd h2 hn
    | obj s =>
      obtain ⟨o', e', h1⟩ := this
      cases e'
      exact ⟨s, rfl, h1⟩

theorem Inv.liveF {w : World} {a : Spec} (h : Inv w a) {i k : Nat} {o : Obj} (e : w.vars i = Option.some o) (hf : o.f = Option.some k) : k < w.next := by
  obtain ⟨s, _, hi⟩ := h.isObj e (.inl (by rw [hf]; nofun))
  obtain ⟨k', e1, e2⟩ := hi.file
  rw [hf] at e1
  cases e1
  refine Nat.lt_of_not_le fun hle => ?_
  rw [(h.ids k hle).1] at e2
  cases e2

theorem Inv.liveM {w : World} {a : Spec} (h : Inv w a) {i k : Nat} {o : Obj} (e : w.vars i = Option.some o) (hf : o.addr = Option.some k) : k < w.next := by
  obtain ⟨s, _, hi⟩ := h.isObj e (.inr (by rw [hf]; nofun))
  rcases hi.addr with ⟨e1, _⟩ | ⟨k', e1, _, e2⟩
  · rw [hf] at e1; cases e1
  · rw [hf] at e1
    cases e1
    refine Nat.lt_of_not_le fun hle => ?_
    rw [(h.ids k hle).2] at e2
    cases e2

/-- The file of one variable changes; it keeps its `FILE*` but may get a new mapping. -/
theorem Inv.change {w w' : World} {a : Spec} (h : Inv w a) {i : Nat} {s s' : SObj} {o o' : Obj} (ea : a.vars i = Option.some (.obj s))
    (ew : w.vars i = Option.some o) (hfiles : w'.files = w.files) (hvars : w'.vars = upd w.vars i (Option.some o')) (hof : o'.f = o.f)
    (hnext : w.next ≤ w'.next) (hmaps : ∀ k, o.addr ≠ Option.some k → o'.addr ≠ Option.some k → w'.maps k = w.maps k)
    (hgone : ∀ k q, w'.maps k = Option.some q → o.addr = Option.some k → o'.addr = Option.some k)
    (hnew : ∀ k, o'.addr = Option.some k → o.addr = Option.some k ∨ (w.next ≤ k ∧ k < w'.next))
    (hdisk : ∀ p, p ≠ s.path → w'.disk p = w.disk p) (hi : Is w' o' s') (hp : s'.path = s.path) :
    Inv w' { a with vars := upd a.vars i (Option.some (.obj s')) } := by
  have hv : ∀ j, j ≠ i → w'.vars j = w.vars j := fun j hj => by rw [hvars, upd_ne _ _ hj]
  have hvi : w'.vars i = Option.some o' := by rw [hvars, upd_same]
  have hmj : ∀ j oj k, j ≠ i → w.vars j = Option.some oj → oj.addr = Option.some k → o.addr ≠ Option.some k ∧ o'.addr ≠ Option.some k := by
    intro j oj k hj e e2
    have h1 : o.addr ≠ Option.some k := fun e3 => hj (h.injM j i oj o k e ew e2 e3)
    refine ⟨h1, fun e3 => ?_⟩
    rcases hnew k e3 with e4 | ⟨e4, _⟩
    · exact h1 e4
    · have := h.liveM e e2
      omega
  refine ⟨fun j => ?_, fun k p e => ?_, fun m q e => ?_, ?_, ?_, ?_, ?_, ?_⟩
  · by_cases hj : j = i
    · subst hj
      show Rel w' (w'.vars j) (upd a.vars j (Option.some (.obj s')) j)
      rw [hvi, upd_same]
      exact ⟨o', rfl, hi⟩
    · show Rel w' (w'.vars j) (upd a.vars i (Option.some (.obj s')) j)
      rw [hv j hj, upd_ne _ _ hj]
      refine (h.vars j).frame (fun oj k _ _ => by rw [hfiles]) (fun oj k e e2 => ?_) (fun sj e => ?_)
      · obtain ⟨h1, h2⟩ := hmj j oj k hj e e2
        exact hmaps k h1 h2
      · exact hdisk _ fun hpe => hj (h.injP j i sj s e ea hpe)
  · rw [hfiles] at e
    obtain ⟨j, oj, e1, e2⟩ := h.ownF k p e
    by_cases hj : j = i
    · subst hj
      rw [ew] at e1; cases e1
      exact ⟨j, o', hvi, by rw [hof]; exact e2⟩
    · exact ⟨j, oj, by rw [hv j hj]; exact e1, e2⟩
  · by_cases h1 : o'.addr = Option.some m
    · exact ⟨i, o', hvi, h1⟩
    · have h2 : o.addr ≠ Option.some m := fun h2 => h1 (hgone m q e h2)
      rw [hmaps m h2 h1] at e
      obtain ⟨j, oj, e1, e2⟩ := h.ownM m q e
      by_cases hj : j = i
      · subst hj
        rw [ew] at e1; cases e1
        exact absurd e2 h2
      · exact ⟨j, oj, by rw [hv j hj]; exact e1, e2⟩
  · intro j k oj ok m e1 e2 e3 e4
    by_cases hj : j = i
    · subst hj
      rw [hvi] at e1; cases e1
      by_cases hk : k = j
      · exact hk.symm
      · rw [hv k hk] at e2
        exact h.injF j k o ok m ew e2 (by rw [← hof]; exact e3) e4
    · rw [hv j hj] at e1
      by_cases hk : k = i
      · subst hk
        rw [hvi] at e2; cases e2
        exact h.injF j k oj o m e1 ew e3 (by rw [← hof]; exact e4)
      · rw [hv k hk] at e2
        exact h.injF j k oj ok m e1 e2 e3 e4
  · intro j k oj ok m e1 e2 e3 e4
    by_cases hj : j = i
    · subst hj
      rw [hvi] at e1; cases e1
      by_cases hk : k = j
      · exact hk.symm
      · rw [hv k hk] at e2
        exact absurd e3 (hmj k ok m hk e2 e4).2
    · rw [hv j hj] at e1
      by_cases hk : k = i
      · subst hk
        rw [hvi] at e2; cases e2
        exact absurd e4 (hmj j oj m hj e1 e3).2
      · rw [hv k hk] at e2
        exact h.injM j k oj ok m e1 e2 e3 e4
  · have hs : ∀ j sj, upd a.vars i (Option.some (.obj s')) j = Option.some (.obj sj) → ∃ sj', a.vars j = Option.some (.obj sj') ∧ sj'.path = sj.path := by
      intro j sj e
      by_cases hj : j = i
      · subst hj
        rw [upd_same] at e; cases e
        exact ⟨s, ea, hp.symm⟩
      · rw [upd_ne _ _ hj] at e
        exact ⟨sj, e, rfl⟩
    intro j k sj sk e1 e2 e3
    obtain ⟨x, x1, x2⟩ := hs j sj e1
    obtain ⟨y, y1, y2⟩ := hs k sk e2
    exact h.injP j k x y x1 y1 (by rw [x2, y2]; exact e3)
  · intro p hno
    have h1 : ¬ a.Open p := by
      rintro ⟨j, sj, e1, e2⟩
      by_cases hj : j = i
      · subst hj
        rw [ea] at e1; cases e1
        exact hno ⟨j, s', upd_same _ _ _, by rw [hp]; exact e2⟩
      · exact hno ⟨j, sj, by show upd _ _ _ _ = _; rw [upd_ne _ _ hj]; exact e1, e2⟩
    have h2 : p ≠ s.path := fun e => h1 ⟨i, s, ea, e.symm⟩
    rw [hdisk p h2]
    exact h.disk p h1
  · intro k hk
    obtain ⟨h1, h2⟩ := h.ids k (Nat.le_trans hnext hk)
    refine ⟨by rw [hfiles]; exact h1, ?_⟩
    rw [hmaps k (fun e => ?_) (fun e => ?_)]
    · exact h2
    · have := h.liveM ew e
      omega
    · rcases hnew k e with e | ⟨_, e⟩
      · have := h.liveM ew e
        omega
      · omega

theorem resizeFile_eq {w : World} {o : Obj} {h p : Nat} {b : List Byte} (hr : o.rw_ = true) (e : o.f = some h) (e2 : w.files h = some p)
    (e3 : w.disk p = some b) : w.resizeFile o = .ok { w with disk := upd w.disk p (some (ftruncate b o.size)) } := by
  unfold World.resizeFile
  rw [if_neg (by rw [hr]; decide), fd_eq e e2, ok_bind]
  simp only [e3]

/-- Growing. -/
theorem resizeMap_ok {page : Nat} {w : World} {o : Obj} {s : SObj} (h : Is w o s) (hr : s.rw_ = true) {n : Nat} (hn : s.cap < n)
    (hlt : ∀ k, o.addr = some k → k < w.next) :
    ∃ w', w.resizeMap page o n = .ok (w', { o with size := n, addr := some w.next }, true) ∧ w'.files = w.files ∧ w'.vars = w.vars ∧ w'.next = w.next + 1 ∧
      w'.disk = upd w.disk s.path (some (rd s.b 0 n)) ∧ w'.maps w.next = some (s.path, n) ∧
      (∀ k, o.addr = some k → w'.maps k = none) ∧ (∀ k, o.addr ≠ some k → k ≠ w.next → w'.maps k = w.maps k) := by
  obtain ⟨f, ef, eff⟩ := h.file
  have hd := h.disk
  have ht : ftruncate (rd s.b 0 s.cap) n = rd s.b 0 n := ftruncate_rd h.zero (Nat.le_refl _) (Nat.le_of_lt hn)
  have hrw : o.rw_ = true := by rw [h.rw_]; exact hr
  have hfd : ∀ d m n, ({ w with disk := d, maps := m, next := n } : World).fd o.f = .ok s.path := fun _ _ _ => fd_eq ef eff
  rcases h.addr with ⟨ea, hc⟩ | ⟨m, ea, hc, em⟩
  · refine ⟨{ w with disk := upd w.disk s.path (some (rd s.b 0 n)), maps := upd w.maps w.next (some (s.path, n)), next := w.next + 1 },
      ?_, rfl, rfl, rfl, rfl, upd_same _ _ _, (fun k e => by rw [ea] at e; cases e), fun k _ hk => upd_ne _ _ hk⟩
    unfold World.resizeMap
    rw [unmap_none ea, ok_bind]
    simp only
    rw [resizeFile_eq (w := w) (o := { o with size := n }) hrw ef eff hd, ok_bind]
    unfold World.map
    simp only
    rw [hfd, ok_bind, if_neg (by omega), ht]
    rfl
  · have hm := hlt m ea
    refine ⟨{ w with disk := upd w.disk s.path (some (rd s.b 0 n)), maps := upd (upd w.maps m none) w.next (some (s.path, n)), next := w.next + 1 },
      ?_, rfl, rfl, rfl, rfl, upd_same _ _ _, fun k e => ?_, fun k h1 hk => ?_⟩
    · unfold World.resizeMap
      rw [unmap_eq ea em (by rw [h.size]; omega) (by rw [h.size]), ok_bind]
      simp only
      rw [resizeFile_eq (w := { w with maps := upd w.maps m none }) (o := { o with size := n, addr := none }) hrw ef eff hd, ok_bind]
      unfold World.map
      simp only
      rw [hfd, ok_bind, if_neg (by omega), ht]
      rfl
    · rw [ea] at e; cases e
      show upd (upd w.maps m none) w.next _ m = none
      rw [upd_ne _ _ (by omega), upd_same]
    · show upd (upd w.maps m none) w.next _ k = _
      rw [upd_ne _ _ hk, upd_ne _ _ (fun e => h1 (by rw [e]; exact ea))]

/-- `resize` and `reserve`. -/
theorem grow_ok {page : Nat} {w : World} {a : Spec} (h : Inv w a) {i n : Nat} {s : SObj} (ea : a.vars i = some (.obj s)) (hr : s.rw_ = true)
    (hn : n ≤ 2 ^ 63) (keep : Bool) :
    ∃ w', w.grow page keep i n = .ok (w', .done) ∧
      Inv w' { a with vars := upd a.vars i (some (.obj { s with used := if keep then s.used else n, cap := if s.cap < n then np2 n else s.cap })) } := by
  obtain ⟨o, ew, hi⟩ := h.obj ea
  have hrw : o.rw_ = true := by rw [hi.rw_]; exact hr
  unfold World.grow
  rw [at_eq ew, ok_bind, if_neg (by rw [hrw]; decide)]
  have hsz := hi.size
  by_cases hlt : s.cap < n
  · have hge := np2_ge (n := n) (by omega) hn
    obtain ⟨w', e, f1, f2, f3, f4, f5, f6, f7⟩ := resizeMap_ok (page := page) hi hr (n := np2 n) (by omega) (fun k => h.liveM ew)
    rw [if_pos (by rw [hsz]; exact hlt), e, ok_bind, if_pos hlt]
    simp only [if_true]
    refine ⟨_, rfl, h.change (o' := { o with size := np2 n, addr := some w.next, used := if keep then o.used else n }) ea ew f1 (by rw [f2]) rfl
      (by show w.next ≤ w'.next; omega) (fun k h1 h2 => f7 k h1 (fun e => h2 (by rw [e])))
      (fun k q e1 e2 => by rw [show w'.maps k = none from f6 k e2] at e1; cases e1)
      (fun k e1 => by cases e1; right; show w.next ≤ w.next ∧ w.next < w'.next; omega)
      (fun p hp => by show w'.disk p = _; rw [f4, upd_ne _ _ hp]) ?_ rfl⟩
    obtain ⟨f, ef, eff⟩ := hi.file
    have hle := hi.le
    refine ⟨⟨f, ef, by show w'.files f = _; rw [f1]; exact eff⟩, hi.rw_, rfl, ?_, ?_, by show w'.disk _ = _; rw [f4, upd_same], fun x hx => hi.zero x ?_,
      .inr ⟨_, rfl, by show 0 < np2 n; omega, f5⟩, fun hf => ?_⟩
    · show (if keep = true then o.used else n) = if keep = true then s.used else n
      rw [hi.used]
    · show (if keep = true then s.used else n) ≤ np2 n
      split <;> omega
    · have hx : np2 n ≤ x := hx
      omega
    · have hf : s.rw_ = false := hf
      rw [hr] at hf; cases hf
  · rw [if_neg (by rw [hsz]; exact hlt), if_neg hlt]
    refine ⟨_, rfl, h.change (o' := { o with used := if keep then o.used else n }) ea ew rfl rfl rfl (Nat.le_refl _) (fun _ _ _ => rfl)
      (fun _ _ _ e => e) (fun _ e => .inl e) (fun _ _ => rfl) ?_ rfl⟩
    have hle := hi.le
    refine ⟨hi.file, hi.rw_, hi.size, ?_, ?_, hi.disk, hi.zero, hi.addr, fun hf => ?_⟩
    · show (if keep = true then o.used else n) = if keep = true then s.used else n
      rw [hi.used]
    · show (if keep = true then s.used else n) ≤ s.cap
      split <;> omega
    · have hf : s.rw_ = false := hf
      rw [hr] at hf; cases hf

/-- A variable without a file becomes another one without a file. -/
theorem Inv.setEmpty {w : World} {a : Spec} (h : Inv w a) {i : Nat} (v : Option Obj) (x : Option Holds)
    (hw : ∀ o, w.vars i = Option.some o → o.f = Option.none ∧ o.addr = Option.none) (hv : ∀ o, v = Option.some o → o.f = Option.none ∧ o.addr = Option.none)
    (ha : ∀ s, a.vars i ≠ Option.some (.obj s)) (hx : ∀ s, x ≠ Option.some (.obj s)) (hr : Rel w v x) :
    Inv { w with vars := upd w.vars i v } { a with vars := upd a.vars i x } := by
  have hs : ∀ j s, upd a.vars i x j = Option.some (.obj s) ↔ a.vars j = Option.some (.obj s) := by
    intro j s
    by_cases hj : j = i
    · subst hj
      rw [upd_same]
      exact ⟨fun e => absurd e (hx s), fun e => absurd e (ha s)⟩
    · rw [upd_ne _ _ hj]
  have hF : ∀ j o k, upd w.vars i v j = Option.some o → o.f = Option.some k → w.vars j = Option.some o := by
    intro j o k e e2
    by_cases hj : j = i
    · subst hj
      rw [upd_same] at e
      rw [(hv o e).1] at e2; cases e2
    · rw [upd_ne _ _ hj] at e
      exact e
  have hM : ∀ j o k, upd w.vars i v j = Option.some o → o.addr = Option.some k → w.vars j = Option.some o := by
    intro j o k e e2
    by_cases hj : j = i
    · subst hj
      rw [upd_same] at e
      rw [(hv o e).2] at e2; cases e2
    · rw [upd_ne _ _ hj] at e
      exact e
  have hO : ∀ p, Spec.Open { a with vars := upd a.vars i x } p ↔ a.Open p := by
    intro p
    constructor
    · rintro ⟨j, s, e1, e2⟩
      exact ⟨j, s, (hs j s).1 e1, e2⟩
    · rintro ⟨j, s, e1, e2⟩
      exact ⟨j, s, (hs j s).2 e1, e2⟩
  refine ⟨fun j => ?_, fun k p e => ?_, fun m q e => ?_, ?_, ?_, ?_, fun p hp => h.disk p (fun g => hp ((hO p).2 g)), h.ids⟩
  · by_cases hj : j = i
    · subst hj
      show Rel _ (upd w.vars j v j) (upd a.vars j x j)
      rw [upd_same, upd_same]
      exact hr.frame (fun _ _ _ _ => rfl) (fun _ _ _ _ => rfl) (fun _ _ => rfl)
    · show Rel _ (upd w.vars i v j) (upd a.vars i x j)
      rw [upd_ne _ _ hj, upd_ne _ _ hj]
      exact (h.vars j).frame (fun _ _ _ _ => rfl) (fun _ _ _ _ => rfl) (fun _ _ => rfl)
  · obtain ⟨j, o, e1, e2⟩ := h.ownF k p e
    have hj : j ≠ i := by rintro rfl; rw [(hw o e1).1] at e2; cases e2
    exact ⟨j, o, by show upd _ _ _ _ = _; rw [upd_ne _ _ hj]; exact e1, e2⟩
  · obtain ⟨j, o, e1, e2⟩ := h.ownM m q e
    have hj : j ≠ i := by rintro rfl; rw [(hw o e1).2] at e2; cases e2
    exact ⟨j, o, by show upd _ _ _ _ = _; rw [upd_ne _ _ hj]; exact e1, e2⟩
  · intro j k o o' n e1 e2 e3 e4
    exact h.injF j k o o' n (hF j o n e1 e3) (hF k o' n e2 e4) e3 e4
  · intro j k o o' n e1 e2 e3 e4
    exact h.injM j k o o' n (hM j o n e1 e3) (hM k o' n e2 e4) e3 e4
  · intro j k s s' e1 e2 e3
    exact h.injP j k s s' ((hs j s).1 e1) ((hs k s').1 e2) e3

/-- Moving into a variable without a file. -/
theorem Inv.move {w : World} {a : Spec} (h : Inv w a) {i j : Nat} {x : Holds} {o : Obj}
    (hw : ∀ o, w.vars i = Option.some o → o.f = Option.none ∧ o.addr = Option.none) (ha : ∀ s, a.vars i ≠ Option.some (.obj s))
    (ej : w.vars j = Option.some o) (eaj : a.vars j = Option.some x) :
    Inv (w.takeFrom i j o) { a with vars := upd (upd a.vars i (Option.some x)) j (Option.some x.after) } := by
  have hrj : Rel w (Option.some o) (Option.some x) := by have := h.vars j; rw [ej, eaj] at this; exact this
  have hafter : ∀ w' : World, Rel w' (Option.some { o with f := Option.none, addr := Option.none }) (Option.some x.after) := by
    intro w'
    cases x with
    | fresh => cases hrj; exact rfl
    | moved => exact ⟨_, rfl, rfl, rfl⟩
    | obj s => exact ⟨_, rfl, rfl, rfl⟩
  have hna : ∀ s, x.after ≠ .obj s := by intro s; cases x <;> nofun
  by_cases hij : i = j
  · subst hij
    have e1 : w.takeFrom i i o = { w with vars := upd w.vars i (Option.some { o with f := Option.none, addr := Option.none }) } := by
      show ({ w with vars := upd (upd w.vars i (Option.some o)) i (Option.some { o with f := Option.none, addr := Option.none }) } : World) = _
      rw [upd_upd]
    have e2 : upd (upd a.vars i (Option.some x)) i (Option.some x.after) = upd a.vars i (Option.some x.after) := upd_upd _ _ _ _
    rw [e1, e2]
    exact h.setEmpty _ _ hw (fun o e => by cases e; exact ⟨rfl, rfl⟩) ha (fun s e => hna s (Option.some.inj e)) (hafter w)
  · have hV : ∀ k, (w.takeFrom i j o).vars k = if k = j then Option.some { o with f := Option.none, addr := Option.none } else if k = i then Option.some o else w.vars k :=
      fun _ => rfl
    have hA : ∀ k, (upd (upd a.vars i (Option.some x)) j (Option.some x.after)) k =
        if k = j then Option.some x.after else if k = i then Option.some x else a.vars k := fun _ => rfl
    have hVi : (w.takeFrom i j o).vars i = Option.some o := by rw [hV, if_neg hij, if_pos rfl]
    have hVk : ∀ k, k ≠ i → k ≠ j → (w.takeFrom i j o).vars k = w.vars k := fun k h1 h2 => by rw [hV, if_neg h2, if_neg h1]
    -- a variable with a file now had it before, or it is the target
    have hback : ∀ k ok, (w.takeFrom i j o).vars k = Option.some ok → ok.f ≠ Option.none ∨ ok.addr ≠ Option.none → (k ≠ j) ∧ w.vars (if k = i then j else k) = Option.some ok := by
      intro k ok e hne
      by_cases hk : k = j
      · rw [hV, if_pos hk] at e; cases e
        rcases hne with hne | hne <;> exact absurd rfl hne
      · refine ⟨hk, ?_⟩
        by_cases hk2 : k = i
        · rw [if_pos hk2, ej, ← e, hk2, hVi]
        · rw [if_neg hk2, ← hVk k hk2 hk]; exact e
    have hsw : ∀ k l, k ≠ j → l ≠ j → (if k = i then j else k) = (if l = i then j else l) → k = l := by
      intro k l hk hl e
      by_cases h1 : k = i <;> by_cases h2 : l = i
      · rw [h1, h2]
      · rw [if_pos h1, if_neg h2] at e; exact absurd e.symm hl
      · rw [if_neg h1, if_pos h2] at e; exact absurd e hk
      · rw [if_neg h1, if_neg h2] at e; exact e
    have hS : ∀ k s, (upd (upd a.vars i (Option.some x)) j (Option.some x.after)) k = Option.some (.obj s) → k ≠ j ∧ a.vars (if k = i then j else k) = Option.some (.obj s) := by
      intro k s e
      by_cases hk : k = j
      · rw [hA, if_pos hk] at e
        exact absurd (Option.some.inj e) (hna s)
      · refine ⟨hk, ?_⟩
        rw [hA, if_neg hk] at e
        by_cases hk2 : k = i
        · rw [if_pos hk2] at e ⊢
          rw [eaj]; exact e
        · rw [if_neg hk2] at e ⊢
          exact e
    refine ⟨fun k => ?_, fun k p e => ?_, fun m q e => ?_, ?_, ?_, ?_, fun p hp => h.disk p (fun ⟨k, s, e1, e2⟩ => ?_), h.ids⟩
    · show Rel _ ((w.takeFrom i j o).vars k) ((upd (upd a.vars i (Option.some x)) j (Option.some x.after)) k)
      rw [hV, hA]
      by_cases hk : k = j
      · rw [if_pos hk, if_pos hk]; exact hafter _
      · rw [if_neg hk, if_neg hk]
        by_cases hk2 : k = i
        · rw [if_pos hk2, if_pos hk2]
          exact hrj.frame (fun _ _ _ _ => rfl) (fun _ _ _ _ => rfl) (fun _ _ => rfl)
        · rw [if_neg hk2, if_neg hk2]
          exact (h.vars k).frame (fun _ _ _ _ => rfl) (fun _ _ _ _ => rfl) (fun _ _ => rfl)
    · obtain ⟨l, ol, e1, e2⟩ := h.ownF k p e
      by_cases hl : l = j
      · subst hl
        rw [ej] at e1; cases e1
        exact ⟨i, o, hVi, e2⟩
      · have hli : l ≠ i := by rintro rfl; rw [(hw ol e1).1] at e2; cases e2
        exact ⟨l, ol, by rw [hVk l hli hl]; exact e1, e2⟩
    · obtain ⟨l, ol, e1, e2⟩ := h.ownM m q e
      by_cases hl : l = j
      · subst hl
        rw [ej] at e1; cases e1
        exact ⟨i, o, hVi, e2⟩
      · have hli : l ≠ i := by rintro rfl; rw [(hw ol e1).2] at e2; cases e2
        exact ⟨l, ol, by rw [hVk l hli hl]; exact e1, e2⟩
    · intro k l ok ol n e1 e2 e3 e4
      obtain ⟨k1, k2⟩ := hback k ok e1 (.inl (by rw [e3]; nofun))
      obtain ⟨l1, l2⟩ := hback l ol e2 (.inl (by rw [e4]; nofun))
      exact hsw k l k1 l1 (h.injF _ _ ok ol n k2 l2 e3 e4)
    · intro k l ok ol n e1 e2 e3 e4
      obtain ⟨k1, k2⟩ := hback k ok e1 (.inr (by rw [e3]; nofun))
      obtain ⟨l1, l2⟩ := hback l ol e2 (.inr (by rw [e4]; nofun))
      exact hsw k l k1 l1 (h.injM _ _ ok ol n k2 l2 e3 e4)
    · intro k l s s' e1 e2 e3
      obtain ⟨k1, k2⟩ := hS k s e1
      obtain ⟨l1, l2⟩ := hS l s' e2
      exact hsw k l k1 l1 (h.injP _ _ s s' k2 l2 e3)
    · refine hp ?_
      by_cases hk : k = j
      · subst hk
        rw [eaj] at e1; cases e1
        exact ⟨i, s, by show (upd (upd a.vars i (Option.some (.obj s))) k _) i = _; rw [upd_ne _ _ hij, upd_same], e2⟩
      · have hki : k ≠ i := fun e => ha s (by rw [← e]; exact e1)
        exact ⟨k, s, by show (upd (upd a.vars i (Option.some x)) j _) k = _; rw [upd_ne _ _ hk, upd_ne _ _ hki]; exact e1, e2⟩

/-- Only a file that is not open changes. -/
theorem Inv.setDisk {w w' : World} {a : Spec} (h : Inv w a) {p : Path} {d : Option (List Byte)} (ho : ¬ a.Open p) (hf : ∀ k, w'.files k = w.files k)
    (hm : w'.maps = w.maps) (hv : w'.vars = w.vars) (hn : w.next ≤ w'.next) (hd : w'.disk = upd w.disk p d) :
    Inv w' { a with disk := upd a.disk p d } := by
  refine ⟨fun i => ?_, fun k q e => ?_, fun m q e => ?_, ?_, ?_, h.injP, fun q hq => ?_, fun k hk => ?_⟩
  · rw [hv]
    refine (h.vars i).frame (fun _ k _ _ => hf k) (fun _ k _ _ => by rw [hm]) (fun s e => ?_)
    rw [hd, upd_ne]
    intro e2
    exact ho ⟨i, s, e, e2⟩
  · rw [hf] at e; rw [hv]; exact h.ownF k q e
  · rw [hm] at e; rw [hv]; exact h.ownM m q e
  · rw [hv]; exact h.injF
  · rw [hv]; exact h.injM
  · rw [hd]
    by_cases e : q = p
    · rw [e, upd_same]; exact (upd_same _ _ _).symm
    · rw [upd_ne _ _ e]
      show w.disk q = upd a.disk p d q
      rw [upd_ne _ _ e]
      exact h.disk q hq
  · rw [hf, hm]
    exact h.ids k (Nat.le_trans hn hk)

/-- A new variable with a new file. -/
theorem Inv.add {w w' : World} {a : Spec} (h : Inv w a) {i : Nat} {s : SObj} {o : Obj} (ea : a.vars i = Option.none) (ho : ¬ a.Open s.path)
    (hf : w'.files = upd w.files w.next (Option.some s.path)) (hv : w'.vars = upd w.vars i (Option.some o)) (hof : o.f = Option.some w.next)
    (hm : ∀ k, o.addr ≠ Option.some k → w'.maps k = w.maps k) (hnew : ∀ k, o.addr = Option.some k → w.next ≤ k ∧ k < w'.next) (hn : w.next < w'.next)
    (hd : ∀ p, p ≠ s.path → w'.disk p = w.disk p) (hi : Is w' o s) : Inv w' { a with vars := upd a.vars i (Option.some (.obj s)) } := by
  have ew := h.none ea
  have hvi : w'.vars i = Option.some o := by rw [hv, upd_same]
  have hvj : ∀ j, j ≠ i → w'.vars j = w.vars j := fun j hj => by rw [hv, upd_ne _ _ hj]
  have hfj : ∀ j oj k, w.vars j = Option.some oj → oj.f = Option.some k → w'.files k = w.files k := by
    intro j oj k e1 e2
    have := h.liveF e1 e2
    rw [hf, upd_ne _ _ (by omega)]
  have hmj : ∀ j oj k, w.vars j = Option.some oj → oj.addr = Option.some k → o.addr ≠ Option.some k := by
    intro j oj k e1 e2 e3
    have := h.liveM e1 e2
    have := hnew k e3
    omega
  refine ⟨fun j => ?_, fun k p e => ?_, fun m q e => ?_, ?_, ?_, ?_, ?_, ?_⟩
  · show Rel w' (w'.vars j) (upd a.vars i (Option.some (.obj s)) j)
    by_cases hj : j = i
    · subst hj
      rw [hvi, upd_same]
      exact ⟨o, rfl, hi⟩
    · rw [hvj j hj, upd_ne _ _ hj]
      refine (h.vars j).frame (fun oj k e e2 => hfj j oj k e e2) (fun oj k e e2 => hm k (hmj j oj k e e2)) (fun sj e => hd _ fun hp => ?_)
      exact ho ⟨j, sj, e, hp⟩
  · by_cases hk : k = w.next
    · exact ⟨i, o, hvi, by rw [hk]; exact hof⟩
    · rw [hf, upd_ne _ _ hk] at e
      obtain ⟨j, oj, e1, e2⟩ := h.ownF k p e
      have hj : j ≠ i := by rintro rfl; rw [ew] at e1; cases e1
      exact ⟨j, oj, by rw [hvj j hj]; exact e1, e2⟩
  · by_cases hk : o.addr = Option.some m
    · exact ⟨i, o, hvi, hk⟩
    · rw [hm m hk] at e
      obtain ⟨j, oj, e1, e2⟩ := h.ownM m q e
      have hj : j ≠ i := by rintro rfl; rw [ew] at e1; cases e1
      exact ⟨j, oj, by rw [hvj j hj]; exact e1, e2⟩
  · intro j k oj ok n e1 e2 e3 e4
    by_cases hj : j = i
    · by_cases hk : k = i
      · rw [hj, hk]
      · rw [hj, hvi] at e1; cases e1
        rw [hvj k hk] at e2
        rw [hof] at e3; cases e3
        exact absurd (h.liveF e2 e4) (by omega)
    · rw [hvj j hj] at e1
      by_cases hk : k = i
      · rw [hk, hvi] at e2; cases e2
        rw [hof] at e4; cases e4
        exact absurd (h.liveF e1 e3) (by omega)
      · rw [hvj k hk] at e2
        exact h.injF j k oj ok n e1 e2 e3 e4
  · intro j k oj ok n e1 e2 e3 e4
    by_cases hj : j = i
    · by_cases hk : k = i
      · rw [hj, hk]
      · rw [hj, hvi] at e1; cases e1
        rw [hvj k hk] at e2
        exact absurd e3 (hmj k ok n e2 e4)
    · rw [hvj j hj] at e1
      by_cases hk : k = i
      · rw [hk, hvi] at e2; cases e2
        exact absurd e4 (hmj j oj n e1 e3)
      · rw [hvj k hk] at e2
        exact h.injM j k oj ok n e1 e2 e3 e4
  · intro j k sj sk e1 e2 e3
    by_cases hj : j = i
    · by_cases hk : k = i
      · rw [hj, hk]
      · have e1 : upd a.vars i (Option.some (.obj s)) j = Option.some (.obj sj) := e1
        have e2 : upd a.vars i (Option.some (.obj s)) k = Option.some (.obj sk) := e2
        rw [hj, upd_same] at e1; cases e1
        rw [upd_ne _ _ hk] at e2
        exact absurd ⟨k, sk, e2, e3.symm⟩ ho
    · have e1 : upd a.vars i (Option.some (.obj s)) j = Option.some (.obj sj) := e1
      have e2 : upd a.vars i (Option.some (.obj s)) k = Option.some (.obj sk) := e2
      rw [upd_ne _ _ hj] at e1
      by_cases hk : k = i
      · rw [hk, upd_same] at e2; cases e2
        exact absurd ⟨j, sj, e1, e3⟩ ho
      · rw [upd_ne _ _ hk] at e2
        exact h.injP j k sj sk e1 e2 e3
  · intro p hp
    have h1 : p ≠ s.path := fun e => hp ⟨i, s, upd_same _ _ _, e.symm⟩
    rw [hd p h1]
    refine h.disk p ?_
    rintro ⟨j, sj, e1, e2⟩
    have hj : j ≠ i := by rintro rfl; rw [ea] at e1; cases e1
    exact hp ⟨j, sj, by show upd _ _ _ _ = _; rw [upd_ne _ _ hj]; exact e1, e2⟩
  · intro k hk
    obtain ⟨h1, h2⟩ := h.ids k (by omega)
    refine ⟨by rw [hf, upd_ne _ _ (by omega)]; exact h1, ?_⟩
    rw [hm k fun e => ?_]
    · exact h2
    · have := hnew k e
      omega

/-- A variable with its file goes. -/
theorem Inv.release {w w' : World} {a : Spec} (h : Inv w a) {i f : Nat} {s : SObj} {o : Obj} {d : Option (List Byte)} (ea : a.vars i = Option.some (.obj s))
    (ew : w.vars i = Option.some o) (ef : o.f = Option.some f) (hf : w'.files = upd w.files f Option.none) (hv : w'.vars = upd w.vars i Option.none)
    (hm : ∀ k, o.addr ≠ Option.some k → w'.maps k = w.maps k) (hgone : ∀ k, o.addr = Option.some k → w'.maps k = Option.none) (hn : w'.next = w.next)
    (hd : w'.disk = upd w.disk s.path d) : Inv w' ⟨upd a.disk s.path d, upd a.vars i Option.none⟩ := by
  have hvj : ∀ j, j ≠ i → w'.vars j = w.vars j := fun j hj => by rw [hv, upd_ne _ _ hj]
  have hvi : w'.vars i = Option.none := by rw [hv, upd_same]
  have hne : ∀ j oj, w'.vars j = Option.some oj → j ≠ i := by rintro j oj e rfl; rw [hvi] at e; cases e
  have hneA : ∀ j sj, upd a.vars i Option.none j = Option.some sj → j ≠ i := by rintro j sj e rfl; rw [upd_same] at e; cases e
  refine ⟨fun j => ?_, fun k p e => ?_, fun m q e => ?_, ?_, ?_, ?_, ?_, ?_⟩
  · show Rel w' (w'.vars j) (upd a.vars i Option.none j)
    by_cases hj : j = i
    · subst hj
      rw [hvi, upd_same]
      exact rfl
    · rw [hvj j hj, upd_ne _ _ hj]
      refine (h.vars j).frame (fun oj k e e2 => ?_) (fun oj k e e2 => ?_) (fun sj e => ?_)
      · rw [hf, upd_ne]
        rintro rfl
        exact hj (h.injF j i oj o k e ew e2 ef)
      · exact hm k fun e3 => hj (h.injM j i oj o k e ew e2 e3)
      · rw [hd, upd_ne]
        exact fun hp => hj (h.injP j i sj s e ea hp)
  · by_cases hk : k = f
    · rw [hf, hk, upd_same] at e; cases e
    · rw [hf, upd_ne _ _ hk] at e
      obtain ⟨j, oj, e1, e2⟩ := h.ownF k p e
      have hj : j ≠ i := by
        rintro rfl
        rw [ew] at e1; cases e1
        rw [ef] at e2; cases e2
        exact hk rfl
      exact ⟨j, oj, by rw [hvj j hj]; exact e1, e2⟩
  · by_cases hk : o.addr = Option.some m
    · rw [hgone m hk] at e; cases e
    · rw [hm m hk] at e
      obtain ⟨j, oj, e1, e2⟩ := h.ownM m q e
      have hj : j ≠ i := by
        rintro rfl
        rw [ew] at e1; cases e1
        exact hk e2
      exact ⟨j, oj, by rw [hvj j hj]; exact e1, e2⟩
  · intro j k oj ok n e1 e2 e3 e4
    rw [hvj j (hne j oj e1)] at e1
    rw [hvj k (hne k ok e2)] at e2
    exact h.injF j k oj ok n e1 e2 e3 e4
  · intro j k oj ok n e1 e2 e3 e4
    rw [hvj j (hne j oj e1)] at e1
    rw [hvj k (hne k ok e2)] at e2
    exact h.injM j k oj ok n e1 e2 e3 e4
  · intro j k sj sk e1 e2 e3
    have e1 : upd a.vars i Option.none j = Option.some (.obj sj) := e1
    have e2 : upd a.vars i Option.none k = Option.some (.obj sk) := e2
    rw [upd_ne _ _ (hneA j _ e1)] at e1
    rw [upd_ne _ _ (hneA k _ e2)] at e2
    exact h.injP j k sj sk e1 e2 e3
  · intro p hp
    rw [hd]
    show upd w.disk s.path d p = upd a.disk s.path d p
    by_cases e : p = s.path
    · rw [e, upd_same, upd_same]
    · rw [upd_ne _ _ e, upd_ne _ _ e]
      refine h.disk p ?_
      rintro ⟨j, sj, e1, e2⟩
      have hj : j ≠ i := by
        rintro rfl
        rw [ea] at e1; cases e1
        exact e e2.symm
      exact hp ⟨j, sj, by show upd _ _ _ _ = _; rw [upd_ne _ _ hj]; exact e1, e2⟩
  · intro k hk
    obtain ⟨h1, h2⟩ := h.ids k (by omega)
    refine ⟨?_, ?_⟩
    · rw [hf]
      by_cases e : k = f
      · rw [e, upd_same]
      · rw [upd_ne _ _ e]; exact h1
    · by_cases e : o.addr = Option.some k
      · exact hgone k e
      · rw [hm k e]; exact h2

theorem rd_getD (d : List Byte) : rd (fun k => d.getD k 0) 0 d.length = d := by
  rw [rd_eq_map]
  apply List.ext_getElem?
  intro i
  rw [List.getElem?_map]
  by_cases h : i < d.length
  · rw [List.getElem?_range h, Option.map_some, List.getElem?_eq_getElem h, List.getD_eq_getElem?_getD, List.getElem?_eq_getElem h]
    rfl
  · rw [List.getElem?_eq_none (by simp; omega), List.getElem?_eq_none (by omega)]
    rfl

/-- Opening a file. -/
theorem open_ok {w : World} {a : Spec} (h : Inv w a) {i : Nat} {p : Path} {prot : Prot} {fault : Option Fault} {d : List Byte}
    (ea : a.vars i = none) (ho : ¬ a.Open p) (hd : mode prot (a.disk p) = some d) (hf : fault = none ∨ (fault = some .map ∧ d = [])) :
    ∃ w', w.open_ i p prot fault = .ok (w', .done) ∧
      Inv w' { a with vars := upd a.vars i (some (.obj ⟨p, decide (prot ≠ .read), fun k => d.getD k 0, d.length, d.length⟩)) } := by
  have hd' : mode prot (w.disk p) = some d := by rw [h.disk p ho]; exact hd
  have hz : ∀ x, d.length ≤ x → d.getD x 0 = 0#8 := by
    intro x hx
    rw [List.getD_eq_getElem?_getD, List.getElem?_eq_none hx]
    rfl
  have h1 : fault ≠ some .fopen := by rcases hf with rfl | ⟨rfl, _⟩ <;> nofun
  have h2 : fault ≠ some .statFile := by rcases hf with rfl | ⟨rfl, _⟩ <;> nofun
  have h3 : fault ≠ some .statMmap := by rcases hf with rfl | ⟨rfl, _⟩ <;> nofun
  unfold World.open_ World.fopen
  rw [if_neg h1, hd']
  simp only
  rw [if_neg h2, if_neg h3, fsize_eq (w := { w with disk := upd w.disk p (some d), files := upd w.files w.next (some p), next := w.next + 1 })
    rfl (upd_same _ _ _) (upd_same _ _ _), ok_bind]
  by_cases h0 : d.length = 0
  · rw [if_pos h0]
    refine ⟨_, rfl, h.add (s := ⟨p, decide (prot ≠ .read), fun k => d.getD k 0, d.length, d.length⟩)
      (o := ⟨some w.next, decide (prot ≠ .read), d.length, d.length, none⟩) ea ho rfl rfl rfl (fun _ _ => rfl) nofun
      (Nat.lt_succ_self _) (fun q hq => upd_ne _ _ hq) ?_⟩
    refine ⟨⟨_, rfl, upd_same _ _ _⟩, rfl, rfl, rfl, Nat.le_refl _, ?_, hz, .inl ⟨rfl, h0⟩, fun _ => rfl⟩
    show upd w.disk p (some d) p = some (rd (fun k => d.getD k 0) 0 d.length)
    rw [upd_same, rd_getD]
  · rw [if_neg h0]
    have h4 : fault ≠ some .map := by
      rcases hf with rfl | ⟨_, e⟩
      · nofun
      · rw [e] at h0; exact absurd rfl h0
    rw [if_neg h4]
    unfold World.map
    simp only
    rw [fd_eq (w := { w with disk := upd w.disk p (some d), files := upd w.files w.next (some p), next := w.next + 1 }) rfl (upd_same _ _ _), ok_bind,
      if_neg h0, ok_bind]
    simp only
    refine ⟨_, rfl, h.add (s := ⟨p, decide (prot ≠ .read), fun k => d.getD k 0, d.length, d.length⟩)
      (o := ⟨some w.next, decide (prot ≠ .read), d.length, d.length, some (w.next + 1)⟩) ea ho rfl rfl rfl
      (fun k hk => upd_ne _ _ (fun e => hk (by rw [e]))) (fun k e => by cases e; exact ⟨Nat.le_succ _, Nat.lt_succ_self _⟩)
      (by show w.next < w.next + 1 + 1; omega) (fun q hq => upd_ne _ _ hq) ?_⟩
    refine ⟨⟨_, rfl, upd_same _ _ _⟩, rfl, rfl, rfl, Nat.le_refl _, ?_, hz, .inr ⟨_, rfl, Nat.pos_of_ne_zero h0, upd_same _ _ _⟩, fun _ => rfl⟩
    show upd w.disk p (some d) p = some (rd (fun k => d.getD k 0) 0 d.length)
    rw [upd_same, rd_getD]

theorem fclose_eq {w : World} {f : Option Nat} {h p : Nat} (e : f = some h) (e2 : w.files h = some p) :
    w.fclose f = .ok { w with files := upd w.files h none } := by
  unfold World.fclose; rw [e]; simp only [e2]

/-- Opening a file that fails after `fopen`, but not in the constructor of `file`. -/
theorem badOpen_ok {w : World} {a : Spec} (h : Inv w a) {i : Nat} {p : Path} {prot : Prot} {fault : Option Fault} {d : List Byte}
    (ho : ¬ a.Open p) (hd : mode prot (a.disk p) = some d) (hf : fault = some .statMmap ∨ (fault = some .map ∧ d ≠ [])) :
    ∃ w', w.open_ i p prot fault = .ok (w', .threw) ∧ Inv w' { a with disk := upd a.disk p (some d) } := by
  have hd' : mode prot (w.disk p) = some d := by rw [h.disk p ho]; exact hd
  have h1 : fault ≠ some .fopen := by rcases hf with rfl | ⟨rfl, _⟩ <;> nofun
  have h2 : fault ≠ some .statFile := by rcases hf with rfl | ⟨rfl, _⟩ <;> nofun
  have hcl := fclose_eq (w := { w with disk := upd w.disk p (some d), files := upd w.files w.next (some p), next := w.next + 1 })
    rfl (upd_same w.files w.next (some p))
  have hinv : Inv { w with disk := upd w.disk p (some d), files := upd (upd w.files w.next (some p)) w.next none, next := w.next + 1 }
      { a with disk := upd a.disk p (some d) } := by
    refine h.setDisk ho (fun k => ?_) rfl rfl (Nat.le_succ _) rfl
    show upd (upd w.files w.next (some p)) w.next none k = _
    rw [upd_upd]
    by_cases e : k = w.next
    · rw [e, upd_same, (h.ids w.next (Nat.le_refl _)).1]
    · rw [upd_ne _ _ e]
  refine ⟨_, ?_, hinv⟩
  unfold World.open_ World.fopen
  rw [if_neg h1, hd']
  simp only
  rw [if_neg h2]
  rcases hf with rfl | ⟨rfl, hne⟩
  · rw [if_pos rfl, hcl, ok_bind]
  · rw [if_neg nofun, fsize_eq (w := { w with disk := upd w.disk p (some d), files := upd w.files w.next (some p), next := w.next + 1 })
      rfl (upd_same _ _ _) (upd_same _ _ _), ok_bind, if_neg (fun e => hne (List.eq_nil_of_length_eq_zero e)), if_pos rfl, hcl, ok_bind]

theorem noOpen_ok {w : World} {a : Spec} (h : Inv w a) {i : Nat} {p : Path} {prot : Prot} {fault : Option Fault}
    (ho : ¬ a.Open p) (hf : fault = some .fopen ∨ mode prot (a.disk p) = none) : w.open_ i p prot fault = .ok (w, .threw) := by
  unfold World.open_ World.fopen
  by_cases h1 : fault = some .fopen
  · rw [if_pos h1]
  · have h2 : mode prot (w.disk p) = none := by rw [h.disk p ho]; exact hf.resolve_left h1
    rw [if_neg h1, h2]

theorem pages_zero {page n : Nat} (hp : 0 < page) : pages page n = 0 ↔ n = 0 := by
  unfold pages
  rw [Nat.div_eq_zero_iff]
  omega

theorem ftruncate_less {b : Nat → Byte} {m n : Nat} (h : m ≤ n) : ftruncate (rd b 0 n) m = rd b 0 m := by
  unfold ftruncate
  rw [length_rd, Nat.sub_eq_zero_of_le h, List.replicate_zero, List.append_nil, rd_eq_map, rd_eq_map, ← List.map_take, List.take_range,
    Nat.min_eq_left h]

/-- The destructor of a variable with a file. -/
theorem destroy_ok {page : Nat} (hpage : 0 < page) {w : World} {a : Spec} (h : Inv w a) {i : Nat} {s : SObj} {o : Obj} (ea : a.vars i = some (.obj s))
    (ew : w.vars i = some o) (hi : Is w o s) (hp : pages page s.used = pages page s.cap) :
    ∃ w', w.destroy page o = .ok w' ∧ Inv { w' with vars := upd w'.vars i none } ⟨upd a.disk s.path (some s.bytes), upd a.vars i none⟩ := by
  obtain ⟨f, ef, eff⟩ := hi.file
  have hle := hi.le
  rcases hi.addr with ⟨e1, e2⟩ | ⟨m, e1, e2, e3⟩
  · refine ⟨{ w with files := upd w.files f none }, ?_, h.release (d := some s.bytes) ea ew ef rfl rfl (fun _ _ => rfl) (fun k e => ?_) rfl ?_⟩
    · unfold World.destroy
      rw [if_pos e1]
      exact fclose_eq ef eff
    · rw [e1] at e; cases e
    · show w.disk = upd w.disk s.path (some s.bytes)
      funext q
      by_cases e : q = s.path
      · rw [e, upd_same, hi.disk, e2]
        have : s.used = 0 := by omega
        unfold SObj.bytes
        rw [this, rd_eq_map]
      · rw [upd_ne _ _ e]
  · have h0 : s.used ≠ 0 := by
      intro e
      rw [e, (pages_zero hpage).2 rfl] at hp
      have := (pages_zero hpage).1 hp.symm
      omega
    have hu : w.unmap page { o with size := o.used } = .ok ({ w with maps := upd w.maps m none }, { o with size := o.used, addr := none }) :=
      unmap_eq (o := { o with size := o.used }) e1 e3 (by show o.used ≠ 0; rw [hi.used]; exact h0) (by show pages page o.used = _; rw [hi.used]; exact hp)
    have hmaps : ∀ k, o.addr ≠ some k → upd w.maps m none k = w.maps k := fun k hk => upd_ne _ _ (fun e => hk (by rw [e]; exact e1))
    have hgone : ∀ k, o.addr = some k → upd w.maps m none k = none := fun k e => by rw [e1] at e; cases e; exact upd_same _ _ _
    have hfs : ({ w with maps := upd w.maps m none } : World).fsize o.f = .ok s.cap := by
      rw [fsize_eq (w := { w with maps := upd w.maps m none }) ef eff hi.disk, length_rd]
    have hrd : ∀ n, rd s.b 0 n = (List.range n).map s.b := rd_eq_map s.b
    unfold World.destroy
    rw [if_neg (by rw [e1]; nofun), hu, ok_bind]
    simp only
    rw [hfs, ok_bind]
    have hfull : s.used = s.cap → w.disk = upd w.disk s.path (some s.bytes) := by
      intro e
      funext q
      by_cases eq : q = s.path
      · rw [eq, upd_same, hi.disk, hrd]
        unfold SObj.bytes
        rw [e]
      · rw [upd_ne _ _ eq]
    by_cases hne : o.used ≠ s.cap
    · rw [if_pos hne]
      have hrw : o.rw_ = true := by
        cases hr : o.rw_ with
        | true => rfl
        | false => exact absurd (by rw [hi.used]; exact hi.same (by rw [← hi.rw_]; exact hr)) hne
      rw [resizeFile_eq (w := { w with maps := upd w.maps m none }) (o := { o with size := o.used, addr := none }) hrw ef eff hi.disk, ok_bind]
      refine ⟨_, fclose_eq (w := { w with maps := upd w.maps m none, disk := upd w.disk s.path (some (ftruncate (rd s.b 0 s.cap) o.used)) }) ef eff,
        h.release (d := some s.bytes) ea ew ef rfl rfl hmaps hgone rfl ?_⟩
      show upd w.disk s.path (some (ftruncate (rd s.b 0 s.cap) o.used)) = _
      rw [hi.used, ftruncate_less hle, hrd]
      rfl
    · rw [if_neg hne, ok_bind]
      have he : s.used = s.cap := by rw [← hi.used]; exact Decidable.not_not.1 hne
      exact ⟨_, fclose_eq (w := { w with maps := upd w.maps m none }) ef eff, h.release (d := some s.bytes) ea ew ef rfl rfl hmaps hgone rfl (hfull he)⟩

theorem byteAt_eq {w : World} {o : Obj} {s : SObj} (h : Is w o s) {k : Nat} (hk : k < s.used) : w.byteAt o k = .ok (s.path, rd s.b 0 s.cap) := by
  have hle := h.le
  rcases h.addr with ⟨_, e⟩ | ⟨m, e1, _, e2⟩
  · omega
  · unfold World.byteAt
    rw [e1]
    simp only [e2, h.disk]
    rw [if_pos ⟨by omega, by rw [length_rd]; omega⟩]

theorem set_rd {b : Nat → Byte} {n k : Nat} {x : Byte} : (rd b 0 n).set k x = rd (upd b k x) 0 n := by
  rw [rd_eq_map, rd_eq_map]
  apply List.ext_getElem?
  intro i
  rw [List.getElem?_set, List.length_map, List.length_range]
  by_cases h : i < n
  · rw [List.getElem?_map, List.getElem?_map, List.getElem?_range h, Option.map_some, Option.map_some]
    by_cases e : k = i
    · rw [if_pos e, if_pos (by omega), e, upd_same]
    · rw [if_neg e, upd_ne _ _ (fun e' => e e'.symm)]
  · rw [List.getElem?_eq_none (by simp; omega), List.getElem?_eq_none (by simp; omega)]
    split
    · rw [if_neg (by omega)]
    · rfl

theorem exec_ok {page : Nat} (hpage : 0 < page) {w : World} {a a' : Spec} (h : Inv w a) {op : Op} {x : Ans} (hs : a.Step page op a' x) :
    ∃ w', w.exec page op = .ok (w', x) ∧ Inv w' a' := by
  have hempty : ∀ {i : Nat} {o : Obj}, a.vars i = none → w.vars i = some o → o.f = none ∧ o.addr = none := by
    intro i o e1 e2
    rw [h.none e1] at e2; cases e2
  cases hs with
  | @noOpen i p prot fault hn ho hf =>
    refine ⟨w, ?_, h⟩
    simp only [World.exec]
    rw [fresh_eq (h.none hn), ok_bind]
    exact noOpen_ok h ho hf
  | @badOpen i p prot fault d hn ho hd hf =>
    obtain ⟨w', e, hi⟩ := badOpen_ok h (i := i) ho hd hf
    refine ⟨w', ?_, hi⟩
    simp only [World.exec]
    rw [fresh_eq (h.none hn), ok_bind]
    exact e
  | @open_ i p prot fault d hn ho hd hf =>
    obtain ⟨w', e, hi⟩ := open_ok h hn ho hd hf
    refine ⟨w', ?_, hi⟩
    simp only [World.exec]
    rw [fresh_eq (h.none hn), ok_bind]
    exact e
  | @init i hn =>
    refine ⟨_, ?_, h.setEmpty (i := i) (some ⟨none, false, 0, 0, none⟩) (some .fresh) (fun o e => hempty hn e) (fun o e => by cases e; exact ⟨rfl, rfl⟩)
      (fun s e => by rw [hn] at e; cases e) nofun rfl⟩
    simp only [World.exec]
    rw [fresh_eq (h.none hn), ok_bind]
  | @moveNew i j x hn hj =>
    obtain ⟨o, e, _⟩ := h.some hj
    refine ⟨_, ?_, h.move (i := i) (fun o e => hempty hn e) (fun s e => by rw [hn] at e; cases e) e hj⟩
    simp only [World.exec]
    rw [fresh_eq (h.none hn), ok_bind, at_eq e, ok_bind]
  | @moveAssign i j x y hi hy hj =>
    obtain ⟨o, e, _⟩ := h.some hj
    obtain ⟨o', e', h'⟩ := h.some hi
    refine ⟨_, ?_, h.move (i := i) (fun o e => by rw [e'] at e; cases e; exact h' hy) (fun s e => by rw [hi] at e; exact hy s (Option.some.inj e)) e hj⟩
    simp only [World.exec]
    rw [at_eq e', ok_bind, at_eq e, ok_bind]
  | @resize i n s hv hw hn => exact grow_ok h hv hw hn false
  | @reserve i n s hv hw hn => exact grow_ok h hv hw hn true
  | @readOnly i n s op hv hw ho =>
    obtain ⟨o, e, hi⟩ := h.obj hv
    have hg : ∀ keep, w.grow page keep i n = .ok (w, .threw) := by
      intro keep
      unfold World.grow
      rw [at_eq e, ok_bind, if_pos (by rw [hi.rw_]; exact hw)]
    refine ⟨w, ?_, h⟩
    rcases ho with rfl | rfl
    · exact hg false
    · exact hg true
  | @never i n op hv ho =>
    have hg : ∀ keep, w.grow page keep i n = .ok (w, .threw) := by
      intro keep
      unfold World.grow
      rw [at_eq (h.freshOf hv), ok_bind, if_pos rfl]
    refine ⟨w, ?_, h⟩
    rcases ho with rfl | rfl
    · exact hg false
    · exact hg true
  | @sync i x hv =>
    obtain ⟨o, e, _⟩ := h.some hv
    refine ⟨w, ?_, h⟩
    simp only [World.exec]
    rw [at_eq e, ok_bind]
    cases ha : o.addr with
    | none => rfl
    | some m =>
      obtain ⟨s, _, hi⟩ := h.isObj e (.inr (by rw [ha]; nofun))
      simp only
      rcases hi.addr with ⟨e1, _⟩ | ⟨m', e1, _, e2⟩
      · rw [ha] at e1; cases e1
      · rw [ha] at e1; cases e1
        rw [if_neg (by rw [e2]; nofun)]
  | @size i s hv =>
    obtain ⟨o, e, hi⟩ := h.obj hv
    refine ⟨w, ?_, h⟩
    simp only [World.exec]
    rw [at_eq e, ok_bind, hi.used]
  | @noSize i hv =>
    refine ⟨w, ?_, h⟩
    simp only [World.exec]
    rw [at_eq (h.freshOf hv), ok_bind]
  | @get i k s hv hk =>
    obtain ⟨o, e, hi⟩ := h.obj hv
    refine ⟨w, ?_, h⟩
    have hle := hi.le
    simp only [World.exec]
    rw [at_eq e, ok_bind, byteAt_eq hi hk, ok_bind]
    have : (rd s.b 0 s.cap).getD k 0 = s.b k := by
      rw [List.getD_eq_getElem?_getD, rd_eq_map, List.getElem?_map, List.getElem?_range (by omega)]
      rfl
    rw [this]
  | @put i k x s hv hw hk =>
    obtain ⟨o, e, hi⟩ := h.obj hv
    have hle := hi.le
    refine ⟨_, ?_, h.change (w' := { w with disk := upd w.disk s.path (some (rd (upd s.b k x) 0 s.cap)) }) (o' := o) (s' := { s with b := upd s.b k x })
      hv e rfl ?_ rfl (Nat.le_refl _) (fun _ _ _ => rfl) (fun _ _ _ e => e) (fun _ e => .inl e) (fun q hq => upd_ne _ _ hq) ?_ rfl⟩
    · simp only [World.exec]
      rw [at_eq e, ok_bind, if_neg (by rw [hi.rw_, hw]; decide), byteAt_eq hi hk, ok_bind]
      simp only
      rw [set_rd]
    · show w.vars = upd w.vars i (some o)
      funext j
      by_cases hj : j = i
      · rw [hj, upd_same]; exact e
      · rw [upd_ne _ _ hj]
    · refine ⟨hi.file, hi.rw_, hi.size, hi.used, hi.le, upd_same _ _ _, fun y hy => ?_, hi.addr, hi.same⟩
      have hy : s.cap ≤ y := hy
      show upd s.b k x y = 0#8
      rw [upd_ne _ _ (by omega)]
      exact hi.zero y hy
  | @destroy i s hv hp =>
    obtain ⟨o, e, hi⟩ := h.obj hv
    obtain ⟨w', e', hinv⟩ := destroy_ok hpage h hv e hi hp
    refine ⟨_, ?_, hinv⟩
    simp only [World.exec]
    rw [at_eq e, ok_bind, e', ok_bind]
  | @drop i x hv hx =>
    obtain ⟨o, e, h'⟩ := h.some hv
    obtain ⟨h1, h2⟩ := h' hx
    refine ⟨_, ?_, h.setEmpty (i := i) none none (fun o' e' => by rw [e] at e'; cases e'; exact ⟨h1, h2⟩) nofun
      (fun s e' => by rw [hv] at e'; exact hx s (Option.some.inj e')) nofun rfl⟩
    simp only [World.exec]
    rw [at_eq e, ok_bind]
    unfold World.destroy
    rw [if_pos h2]
    unfold World.fclose
    rw [h1]
    rfl

theorem run_ok {page : Nat} (hpage : 0 < page) {a a' : Spec} {ops : List Op} {xs : List Ans} (hs : a.Run page ops a' xs) :
    ∀ {w : World}, Inv w a → ∃ w', w.run page ops = .ok (w', xs) ∧ Inv w' a' := by
  induction hs with
  | nil => intro w h; exact ⟨w, rfl, h⟩
  | cons hs _ ih =>
    intro w h
    obtain ⟨w1, e1, h1⟩ := exec_ok hpage h hs
    obtain ⟨w2, e2, h2⟩ := ih h1
    refine ⟨w2, ?_, h2⟩
    unfold World.run
    rw [e1, ok_bind]
    simp only
    rw [e2, ok_bind]

theorem start_inv (disk : Path → Option (List Byte)) : Inv (World.start disk) (Spec.start disk) :=
  ⟨fun _ => rfl, nofun, nofun, nofun, nofun, nofun, fun _ _ => rfl, fun _ _ => ⟨rfl, rfl⟩⟩

/-! ## Theorems -/

/-- **C139** (partial): in every history of any number of `mmap` variables over any files (opening with any protection and with failures, moving, move
assigning, resizing, reading, writing, destroying) all answers are those of files without owners, no `FILE*` or mapping is used after its end; at every
time each open `FILE*` and each mapping belongs to exactly one variable; when the variables are gone none is left and the files have the bytes in use.

Missing: assigning to a variable that holds a file (`C139_assign_violated`, `C139_self_violated`), `fstat` failing in the constructor of `file`
(`C139_stat_violated`), variables that were moved from (`C139_moved_violated`) and destroying a variable with unused pages (`C139_pages_violated`). -/
theorem C139_history_partial {page : Nat} (hpage : 0 < page) (disk : Path → Option (List Byte)) {ops : List Op} {a : Spec} {xs : List Ans}
    (hs : (Spec.start disk).Run page ops a xs) :
    ∃ w, (World.start disk).run page ops = .ok (w, xs) ∧
      (∀ h p, w.files h = some p → ∃ i o, w.vars i = some o ∧ o.f = some h ∧ ∀ j o', w.vars j = some o' → o'.f = some h → j = i) ∧
      (∀ m q, w.maps m = some q → ∃ i o, w.vars i = some o ∧ o.addr = some m ∧ ∀ j o', w.vars j = some o' → o'.addr = some m → j = i) ∧
      ((∀ i, a.vars i = none) → (∀ h, w.files h = none) ∧ (∀ m, w.maps m = none) ∧ w.disk = a.disk) := by
  obtain ⟨w, e, h⟩ := run_ok hpage hs (start_inv disk)
  refine ⟨w, e, fun k p hk => ?_, fun m q hm => ?_, fun hn => ⟨fun k => ?_, fun m => ?_, ?_⟩⟩
  · obtain ⟨i, o, e1, e2⟩ := h.ownF k p hk
    exact ⟨i, o, e1, e2, fun j o' e3 e4 => h.injF j i o' o k e3 e1 e4 e2⟩
  · obtain ⟨i, o, e1, e2⟩ := h.ownM m q hm
    exact ⟨i, o, e1, e2, fun j o' e3 e4 => h.injM j i o' o m e3 e1 e4 e2⟩
  · cases hk : w.files k with
    | none => rfl
    | some p =>
      obtain ⟨i, o, e1, _⟩ := h.ownF k p hk
      rw [h.none (hn i)] at e1; cases e1
  · cases hk : w.maps m with
    | none => rfl
    | some q =>
      obtain ⟨i, o, e1, _⟩ := h.ownM m q hk
      rw [h.none (hn i)] at e1; cases e1
  · funext p
    exact h.disk p (fun ⟨i, s, e1, _⟩ => by rw [hn i] at e1; cases e1)

/-- A `FILE*` or mapping that no variable refers to. -/
def World.LostF (w : World) (h : Nat) : Prop := (∃ p, w.files h = some p) ∧ h < w.next ∧ ∀ i o, w.vars i = some o → o.f ≠ some h

def World.LostM (w : World) (m : Nat) : Prop := (∃ q, w.maps m = some q) ∧ m < w.next ∧ ∀ i o, w.vars i = some o → o.addr ≠ some m

/-- `w'` differs from `w` in nothing that concerns others than the owner of the `FILE*` `f` and the mapping `a`. -/
structure Near (w w' : World) (f a : Option Nat) : Prop where
  files : ∀ k, k < w.next → f ≠ some k → w'.files k = w.files k
  maps : ∀ k, k < w.next → a ≠ some k → w'.maps k = w.maps k
  next : w.next ≤ w'.next
  vars : w'.vars = w.vars

theorem Near.refl (w : World) (f a : Option Nat) : Near w w f a := ⟨fun _ _ _ => rfl, fun _ _ _ => rfl, Nat.le_refl _, rfl⟩

theorem Near.trans {w w' w'' : World} {f a : Option Nat} (h : Near w w' f a) (h' : Near w' w'' f a) : Near w w'' f a := by
  refine ⟨fun k hk hf => ?_, fun k hk hf => ?_, Nat.le_trans h.next h'.next, by rw [h'.vars, h.vars]⟩
  · rw [h'.files k (Nat.lt_of_lt_of_le hk h.next) hf, h.files k hk hf]
  · rw [h'.maps k (Nat.lt_of_lt_of_le hk h.next) hf, h.maps k hk hf]

theorem fclose_near {w w' : World} {f : Option Nat} (a : Option Nat) (h : w.fclose f = .ok w') : Near w w' f a := by
  unfold World.fclose at h
  cases f with
  | none => cases h; exact .refl ..
  | some k =>
    simp only at h
    cases hk : w.files k with
    | none => rw [hk] at h; cases h
    | some p =>
      rw [hk] at h; cases h
      exact ⟨fun j _ hj => upd_ne _ _ (fun e => hj (by rw [e])), fun _ _ _ => rfl, Nat.le_refl _, rfl⟩

theorem unmap_near {page : Nat} {w w' : World} {o o' : Obj} (h : w.unmap page o = .ok (w', o')) :
    Near w w' o.f o.addr ∧ o' = { o with addr := none } := by
  unfold World.unmap at h
  cases ha : o.addr with
  | none =>
    rw [ha] at h; cases h
    exact ⟨.refl .., by rw [← ha]⟩
  | some m =>
    rw [ha] at h
    unfold World.munmap at h
    simp only at h
    cases hm : w.maps m with
    | none => rw [hm] at h; cases h
    | some q =>
      rw [hm] at h
      simp only at h
      have hk : ∀ v, Near w { w with maps := upd w.maps m v } o.f (some m) := fun v =>
        ⟨fun _ _ _ => rfl, fun j _ hj => upd_ne _ _ (fun e => hj (by rw [e])), Nat.le_refl _, rfl⟩
      split at h
      · cases h; exact ⟨.refl .., rfl⟩
      · split at h
        · cases h; exact ⟨hk _, rfl⟩
        · cases h; exact ⟨hk _, rfl⟩

theorem resizeFile_near {w w' : World} {o : Obj} (f a : Option Nat) (h : w.resizeFile o = .ok w') : Near w w' f a := by
  unfold World.resizeFile at h
  split at h
  · cases h; exact .refl ..
  · cases hp : w.fd o.f with
    | error e => rw [hp] at h; cases h
    | ok p =>
      rw [hp, ok_bind] at h
      split at h
      · cases h
      · cases h
        exact ⟨fun _ _ _ => rfl, fun _ _ _ => rfl, Nat.le_refl _, rfl⟩

theorem map_near {w w' : World} {o : Obj} {r : Option Nat} (f a : Option Nat) (h : w.map o = .ok (w', r)) :
    Near w w' f a ∧ (∀ k, r = some k → w.next ≤ k) := by
  unfold World.map at h
  cases hp : w.fd o.f with
  | error e => rw [hp] at h; cases h
  | ok p =>
    rw [hp, ok_bind] at h
    split at h
    · cases h; exact ⟨.refl .., nofun⟩
    · cases h
      refine ⟨⟨fun _ _ _ => rfl, fun k hk _ => upd_ne _ _ (by omega), Nat.le_succ _, rfl⟩, fun k e => ?_⟩
      cases e
      exact Nat.le_refl _

theorem resizeMap_near {page : Nat} {w w' : World} {o o' : Obj} {n : Nat} {b : Bool} (h : w.resizeMap page o n = .ok (w', o', b)) :
    Near w w' o.f o.addr ∧ o'.f = o.f ∧ (∀ k, o'.addr = some k → w.next ≤ k) := by
  unfold World.resizeMap at h
  cases h1 : w.unmap page o with
  | error e => rw [h1] at h; cases h
  | ok r =>
    obtain ⟨w1, o1⟩ := r
    obtain ⟨n1, rfl⟩ := unmap_near h1
    rw [h1, ok_bind] at h
    simp only at h
    cases h2 : w1.resizeFile { o with addr := none, size := n } with
    | error e => rw [h2] at h; cases h
    | ok w2 =>
      have n2 := resizeFile_near o.f o.addr h2
      rw [h2, ok_bind] at h
      cases h3 : w2.map { o with addr := none, size := n } with
      | error e => rw [h3] at h; cases h
      | ok r =>
        obtain ⟨w3, a⟩ := r
        obtain ⟨n3, hn⟩ := map_near o.f o.addr h3
        rw [h3, ok_bind] at h
        cases h
        refine ⟨(n1.trans n2).trans n3, rfl, fun k hk => ?_⟩
        exact Nat.le_trans (Nat.le_trans n1.next n2.next) (hn k hk)

theorem destroy_near {page : Nat} {w w' : World} {o : Obj} (h : w.destroy page o = .ok w') : Near w w' o.f o.addr := by
  unfold World.destroy at h
  split at h
  · exact fclose_near _ h
  · cases h1 : w.unmap page { o with size := o.used } with
    | error e => rw [h1] at h; cases h
    | ok r =>
      obtain ⟨w1, o1⟩ := r
      obtain ⟨n1, rfl⟩ := unmap_near h1
      rw [h1, ok_bind] at h
      simp only at h
      cases h2 : w1.fsize o.f with
      | error e => rw [h2] at h; cases h
      | ok n =>
        rw [h2, ok_bind] at h
        by_cases hne : o.used ≠ n
        · rw [if_pos hne] at h
          cases h3 : w1.resizeFile { o with size := o.used, addr := none } with
          | error e => rw [h3] at h; cases h
          | ok w2 =>
            rw [h3, ok_bind] at h
            exact (n1.trans (resizeFile_near _ _ h3)).trans (fclose_near _ h)
        · rw [if_neg hne, ok_bind] at h
          exact n1.trans (fclose_near _ h)

/-- What no variable refers to stays as it is, and no variable gets hold of it. -/
structure Keeps (w w' : World) : Prop where
  next : w.next ≤ w'.next
  file : ∀ k, k < w.next → (∀ i o, w.vars i = some o → o.f ≠ some k) → w'.files k = w.files k ∧ ∀ i o, w'.vars i = some o → o.f ≠ some k
  map : ∀ k, k < w.next → (∀ i o, w.vars i = some o → o.addr ≠ some k) → w'.maps k = w.maps k ∧ ∀ i o, w'.vars i = some o → o.addr ≠ some k

theorem Keeps.refl (w : World) : Keeps w w := ⟨Nat.le_refl _, fun _ _ h => ⟨rfl, h⟩, fun _ _ h => ⟨rfl, h⟩⟩

/-- An operation on the object `o` of the variable `i`, after which it is `v`. -/
theorem Near.keeps {w w' : World} {f a : Option Nat} (h : Near w w' f a) (i : Nat) (v : Option Obj)
    (hf : ∀ k, f = some k → w.next ≤ k ∨ ∃ j o, w.vars j = some o ∧ o.f = some k) (ha : ∀ k, a = some k → w.next ≤ k ∨ ∃ j o, w.vars j = some o ∧ o.addr = some k)
    (hv : ∀ o, v = some o → (∀ k, o.f = some k → w.next ≤ k ∨ ∃ j o, w.vars j = some o ∧ o.f = some k) ∧
      ∀ k, o.addr = some k → w.next ≤ k ∨ ∃ j o, w.vars j = some o ∧ o.addr = some k) :
    Keeps w { w' with vars := upd w'.vars i v } := by
  refine ⟨h.next, fun k hk hn => ⟨h.files k hk fun e => ?_, fun j o e1 e2 => ?_⟩, fun k hk hn => ⟨h.maps k hk fun e => ?_, fun j o e1 e2 => ?_⟩⟩
  · rcases hf k e with e | ⟨j, o, e1, e2⟩
    · omega
    · exact hn j o e1 e2
  · have e1 : upd w'.vars i v j = some o := e1
    by_cases hj : j = i
    · rw [hj, upd_same] at e1
      rcases (hv o e1).1 k e2 with e | ⟨j, o, e1, e2⟩
      · omega
      · exact hn j o e1 e2
    · rw [upd_ne _ _ hj, h.vars] at e1
      exact hn j o e1 e2
  · rcases ha k e with e | ⟨j, o, e1, e2⟩
    · omega
    · exact hn j o e1 e2
  · have e1 : upd w'.vars i v j = some o := e1
    by_cases hj : j = i
    · rw [hj, upd_same] at e1
      rcases (hv o e1).2 k e2 with e | ⟨j, o, e1, e2⟩
      · omega
      · exact hn j o e1 e2
    · rw [upd_ne _ _ hj, h.vars] at e1
      exact hn j o e1 e2

/-- The same without a change of the variables. -/
theorem Near.keeps' {w w' : World} {f a : Option Nat} (h : Near w w' f a)
    (hf : ∀ k, f = some k → w.next ≤ k ∨ ∃ j o, w.vars j = some o ∧ o.f = some k) (ha : ∀ k, a = some k → w.next ≤ k ∨ ∃ j o, w.vars j = some o ∧ o.addr = some k) :
    Keeps w w' := by
  have := h.keeps 0 (w'.vars 0) hf ha (fun o e => by
    rw [h.vars] at e
    exact ⟨fun k e2 => .inr ⟨0, o, e, e2⟩, fun k e2 => .inr ⟨0, o, e, e2⟩⟩)
  have e : upd w'.vars 0 (w'.vars 0) = w'.vars := by
    funext j
    by_cases hj : j = 0
    · rw [hj, upd_same]
    · rw [upd_ne _ _ hj]
  rw [e] at this
  exact this

theorem open_keeps {w w' : World} {i : Nat} {p : Path} {prot : Prot} {fault : Option Fault} {x : Ans} (h : w.open_ i p prot fault = .ok (w', x)) :
    Keeps w w' := by
  unfold World.open_ at h
  split at h
  · cases h; exact .refl w
  · split at h
    · cases h; exact .refl w
    · rename_i d _
      simp only at h
      have n1 : Near w (w.fopen p d) (some w.next) none :=
        ⟨fun k hk _ => upd_ne _ _ (by omega), fun _ _ _ => rfl, Nat.le_succ _, rfl⟩
      generalize w.fopen p d = w1 at h n1
      have hf : ∀ k, some w.next = some k → w.next ≤ k ∨ ∃ j o, w.vars j = some o ∧ o.f = some k := fun k e => by cases e; exact .inl (Nat.le_refl _)
      split at h
      · cases h
        exact n1.keeps' hf nofun
      · split at h
        · cases hc : w1.fclose (some w.next) with
          | error e => rw [hc] at h; cases h
          | ok w2 =>
            rw [hc, ok_bind] at h; cases h
            exact (n1.trans (fclose_near none hc)).keeps' hf nofun
        · cases hz : w1.fsize (some w.next) with
          | error e => rw [hz] at h; cases h
          | ok n =>
            rw [hz, ok_bind] at h
            split at h
            · cases h
              exact n1.keeps i (some ⟨some w.next, decide (prot ≠ .read), n, n, none⟩) hf nofun (fun o e => by cases e; exact ⟨hf, nofun⟩)
            · split at h
              · cases hc : w1.fclose (some w.next) with
                | error e => rw [hc] at h; cases h
                | ok w2 =>
                  rw [hc, ok_bind] at h; cases h
                  exact (n1.trans (fclose_near none hc)).keeps' hf nofun
              · cases hm : w1.map ⟨some w.next, decide (prot ≠ .read), n, n, none⟩ with
                | error e => rw [hm] at h; cases h
                | ok r =>
                  obtain ⟨w2, a⟩ := r
                  obtain ⟨n2, hn⟩ := map_near (some w.next) none hm
                  rw [hm, ok_bind] at h; cases h
                  refine (n1.trans n2).keeps i _ hf nofun (fun o e => ?_)
                  cases e
                  exact ⟨hf, fun k e => .inl (Nat.le_trans n1.next (hn k e))⟩

theorem take_keeps {w : World} {i j : Nat} {o : Obj} (e : w.vars j = some o) : Keeps w (w.takeFrom i j o) := by
  have hv : ∀ l ol, (w.takeFrom i j o).vars l = some ol → (∀ k, ol.f = some k → ∃ l' o', w.vars l' = some o' ∧ o'.f = some k) ∧
      ∀ k, ol.addr = some k → ∃ l' o', w.vars l' = some o' ∧ o'.addr = some k := by
    intro l ol e1
    have e1 : upd (upd w.vars i (some o)) j (some { o with f := none, addr := none }) l = some ol := e1
    by_cases h1 : l = j
    · rw [h1, upd_same] at e1; cases e1
      exact ⟨nofun, nofun⟩
    · rw [upd_ne _ _ h1] at e1
      by_cases h2 : l = i
      · rw [h2, upd_same] at e1; cases e1
        exact ⟨fun k e2 => ⟨j, o, e, e2⟩, fun k e2 => ⟨j, o, e, e2⟩⟩
      · rw [upd_ne _ _ h2] at e1
        exact ⟨fun k e2 => ⟨l, ol, e1, e2⟩, fun k e2 => ⟨l, ol, e1, e2⟩⟩
  refine ⟨Nat.le_refl _, fun k _ hn => ⟨rfl, fun l ol e1 e2 => ?_⟩, fun k _ hn => ⟨rfl, fun l ol e1 e2 => ?_⟩⟩
  · obtain ⟨l', o', h1, h2⟩ := (hv l ol e1).1 k e2
    exact hn l' o' h1 h2
  · obtain ⟨l', o', h1, h2⟩ := (hv l ol e1).2 k e2
    exact hn l' o' h1 h2

theorem grow_keeps {page : Nat} {keep : Bool} {w w' : World} {i n : Nat} {x : Ans} (h : w.grow page keep i n = .ok (w', x)) : Keeps w w' := by
  unfold World.grow World.at_ at h
  cases hv : w.vars i with
  | none => rw [hv] at h; cases h
  | some o =>
    rw [hv] at h
    simp only [ok_bind] at h
    have hf : ∀ k, o.f = some k → w.next ≤ k ∨ ∃ j o, w.vars j = some o ∧ o.f = some k := fun k e => .inr ⟨i, o, hv, e⟩
    have ha : ∀ k, o.addr = some k → w.next ≤ k ∨ ∃ j o, w.vars j = some o ∧ o.addr = some k := fun k e => .inr ⟨i, o, hv, e⟩
    split at h
    · cases h; exact .refl w
    · split at h
      · cases hr : w.resizeMap page o (np2 n) with
        | error e => rw [hr] at h; cases h
        | ok r =>
          obtain ⟨w1, o1, b⟩ := r
          obtain ⟨n1, e1, e2⟩ := resizeMap_near hr
          rw [hr, ok_bind] at h
          simp only at h
          split at h
          · cases h
            refine n1.keeps i _ hf ha (fun o' e => ?_)
            cases e
            exact ⟨fun k e => hf k (by rw [← e1]; exact e), fun k e => .inl (e2 k e)⟩
          · cases h
            refine n1.keeps i _ hf ha (fun o' e => ?_)
            cases e
            exact ⟨fun k e => hf k (by rw [← e1]; exact e), fun k e => .inl (e2 k e)⟩
      · cases h
        refine (Near.refl w o.f o.addr).keeps i _ hf ha (fun o' e => ?_)
        cases e
        exact ⟨hf, ha⟩

theorem exec_keeps {page : Nat} {w w' : World} {op : Op} {x : Ans} (h : w.exec page op = .ok (w', x)) : Keeps w w' := by
  have hat : ∀ {i : Nat} {o : Obj}, w.at_ i = .ok o → w.vars i = some o := by
    intro i o e
    unfold World.at_ at e
    split at e
    · cases e
    · rename_i o' e'; cases e; exact e'
  cases op with
  | open_ i p prot fault =>
    simp only [World.exec] at h
    cases hf : w.fresh i with
    | error e => rw [hf] at h; cases h
    | ok u => rw [hf, ok_bind] at h; exact open_keeps h
  | init i =>
    simp only [World.exec] at h
    cases hf : w.fresh i with
    | error e => rw [hf] at h; cases h
    | ok u =>
      rw [hf, ok_bind] at h; cases h
      exact (Near.refl w none none).keeps i (some ⟨none, false, 0, 0, none⟩) nofun nofun (fun o e => by cases e; exact ⟨nofun, nofun⟩)
  | moveNew i j =>
    simp only [World.exec] at h
    cases hf : w.fresh i with
    | error e => rw [hf] at h; cases h
    | ok u =>
      rw [hf, ok_bind] at h
      cases ho : w.at_ j with
      | error e => rw [ho] at h; cases h
      | ok o => rw [ho, ok_bind] at h; cases h; exact take_keeps (hat ho)
  | moveAssign i j =>
    simp only [World.exec] at h
    cases hf : w.at_ i with
    | error e => rw [hf] at h; cases h
    | ok u =>
      rw [hf, ok_bind] at h
      cases ho : w.at_ j with
      | error e => rw [ho] at h; cases h
      | ok o => rw [ho, ok_bind] at h; cases h; exact take_keeps (hat ho)
  | resize i n => exact grow_keeps (keep := false) h
  | reserve i n => exact grow_keeps (keep := true) h
  | sync i =>
    simp only [World.exec] at h
    cases ho : w.at_ i with
    | error e => rw [ho] at h; cases h
    | ok o =>
      rw [ho, ok_bind] at h
      split at h
      · cases h; exact .refl w
      · split at h
        · cases h
        · cases h; exact .refl w
  | size i =>
    simp only [World.exec] at h
    cases ho : w.at_ i with
    | error e => rw [ho] at h; cases h
    | ok o => rw [ho, ok_bind] at h; cases h; exact .refl w
  | get i k =>
    simp only [World.exec] at h
    cases ho : w.at_ i with
    | error e => rw [ho] at h; cases h
    | ok o =>
      rw [ho, ok_bind] at h
      cases hb : w.byteAt o k with
      | error e => rw [hb] at h; cases h
      | ok r => rw [hb, ok_bind] at h; cases h; exact .refl w
  | put i k x =>
    simp only [World.exec] at h
    cases ho : w.at_ i with
    | error e => rw [ho] at h; cases h
    | ok o =>
      rw [ho, ok_bind] at h
      split at h
      · cases h
      · cases hb : w.byteAt o k with
        | error e => rw [hb] at h; cases h
        | ok r =>
          rw [hb, ok_bind] at h; cases h
          exact ⟨Nat.le_refl _, fun _ _ h => ⟨rfl, h⟩, fun _ _ h => ⟨rfl, h⟩⟩
  | destroy i =>
    simp only [World.exec] at h
    cases ho : w.at_ i with
    | error e => rw [ho] at h; cases h
    | ok o =>
      rw [ho, ok_bind] at h
      cases hb : w.destroy page o with
      | error e => rw [hb] at h; cases h
      | ok w1 =>
        rw [hb, ok_bind] at h; cases h
        exact (destroy_near hb).keeps i none (fun k e => .inr ⟨i, o, hat ho, e⟩) (fun k e => .inr ⟨i, o, hat ho, e⟩) nofun

/-- What is lost stays lost, whatever is done. -/
theorem run_lost {page : Nat} : ∀ (ops : List Op) {w w' : World} {xs : List Ans}, w.run page ops = .ok (w', xs) →
    (∀ h, w.LostF h → w'.LostF h) ∧ ∀ m, w.LostM m → w'.LostM m
  | [], _, _, _, h => by cases h; exact ⟨fun _ h => h, fun _ h => h⟩
  | op :: ops, w, w', xs, h => by
    unfold World.run at h
    cases he : w.exec page op with
    | error e => rw [he] at h; cases h
    | ok r =>
      obtain ⟨w1, x⟩ := r
      rw [he, ok_bind] at h
      simp only at h
      cases hr : w1.run page ops with
      | error e => rw [hr] at h; cases h
      | ok r =>
        obtain ⟨w2, ys⟩ := r
        rw [hr, ok_bind] at h
        cases h
        obtain ⟨i1, i2⟩ := run_lost ops hr
        have hk := exec_keeps he
        refine ⟨fun k ⟨⟨p, h1⟩, h2, h3⟩ => i1 k ?_, fun k ⟨⟨p, h1⟩, h2, h3⟩ => i2 k ?_⟩
        · obtain ⟨g1, g2⟩ := hk.file k h2 h3
          exact ⟨⟨p, by rw [g1]; exact h1⟩, Nat.lt_of_lt_of_le h2 hk.next, g2⟩
        · obtain ⟨g1, g2⟩ := hk.map k h2 h3
          exact ⟨⟨p, by rw [g1]; exact h1⟩, Nat.lt_of_lt_of_le h2 hk.next, g2⟩

/-- **C139** (violated): move assignment to a variable that holds a file loses its `FILE*` and its mapping: they stay open whatever is done afterwards.
The file is not cut to its used size. -/
theorem C139_assign_violated {page : Nat} {w : World} {a : Spec} (h : Inv w a) {i j : Nat} {s : SObj} {x : Holds} (hij : i ≠ j)
    (ei : a.vars i = some (.obj s)) (ej : a.vars j = some x) :
    ∃ w1 f, w.exec page (.moveAssign i j) = .ok (w1, .done) ∧ w1.disk = w.disk ∧ w1.files f = some s.path ∧ (0 < s.cap → ∃ m, w1.maps m = some (s.path, s.cap) ∧
      ∀ ops w2 xs, w1.run page ops = .ok (w2, xs) → w2.LostM m) ∧ ∀ ops w2 xs, w1.run page ops = .ok (w2, xs) → w2.LostF f := by
  obtain ⟨o, eo, hi⟩ := h.obj ei
  obtain ⟨o', eo', _⟩ := h.some ej
  obtain ⟨f, ef, eff⟩ := hi.file
  have hv : ∀ k, (w.takeFrom i j o').vars k = if k = j then some { o' with f := none, addr := none } else if k = i then some o' else w.vars k := fun _ => rfl
  have hF : (w.takeFrom i j o').LostF f := by
    refine ⟨⟨s.path, eff⟩, h.liveF eo ef, fun k ok e1 e2 => ?_⟩
    rw [hv] at e1
    split at e1
    · cases e1; cases e2
    · split at e1
      · cases e1
        exact hij (h.injF i j o o' f eo eo' ef e2)
      · rename_i hk
        exact hk (h.injF k i ok o f e1 eo e2 ef)
  refine ⟨w.takeFrom i j o', f, ?_, rfl, eff, fun hc => ?_, fun ops w2 xs hr => (run_lost ops hr).1 f hF⟩
  · simp only [World.exec]
    rw [at_eq eo, ok_bind, at_eq eo', ok_bind]
  · rcases hi.addr with ⟨_, e⟩ | ⟨m, e1, _, e2⟩
    · omega
    · refine ⟨m, e2, fun ops w2 xs hr => (run_lost ops hr).2 m ⟨⟨_, e2⟩, h.liveM eo e1, fun k ok e3 e4 => ?_⟩⟩
      rw [hv] at e3
      split at e3
      · cases e3; cases e4
      · split at e3
        · cases e3
          exact hij (h.injM i j o o' m eo eo' e1 e4)
        · rename_i hk
          exact hk (h.injM k i ok o m e3 eo e4 e1)

/-- **C139** (violated): assigning a variable to itself loses its `FILE*` and its mapping. -/
theorem C139_self_violated {page : Nat} {w : World} {a : Spec} (h : Inv w a) {i : Nat} {s : SObj} (ei : a.vars i = some (.obj s)) :
    ∃ w1 f, w.exec page (.moveAssign i i) = .ok (w1, .done) ∧ w1.files f = some s.path ∧
      (∀ k, w1.exec page (.get i k) = .error .ub) ∧ ∀ ops w2 xs, w1.run page ops = .ok (w2, xs) → w2.LostF f := by
  obtain ⟨o, eo, hi⟩ := h.obj ei
  obtain ⟨f, ef, eff⟩ := hi.file
  have hv : ∀ k, (w.takeFrom i i o).vars k = if k = i then some { o with f := none, addr := none } else if k = i then some o else w.vars k := fun _ => rfl
  refine ⟨w.takeFrom i i o, f, ?_, eff, fun k => ?_, fun ops w2 xs hr => (run_lost ops hr).1 f ⟨⟨_, eff⟩, h.liveF eo ef, fun k ok e1 e2 => ?_⟩⟩
  · simp only [World.exec]
    rw [at_eq eo, ok_bind, ok_bind]
  · simp only [World.exec]
    rw [at_eq (o := { o with f := none, addr := none }) (by rw [hv, if_pos rfl]), ok_bind]
    rfl
  · rw [hv] at e1
    split at e1
    · cases e1; cases e2
    · rename_i hk
      exact hk (h.injF k i ok o f e1 eo e2 ef)

/-- **C139** (violated): if `fstat` fails in the constructor of `file`, the exception leaves the `FILE*` open for ever. -/
theorem C139_stat_violated {page : Nat} {w : World} {a : Spec} (h : Inv w a) {i : Nat} {p : Path} {prot : Prot} {d : List Byte}
    (ei : a.vars i = none) (hd : mode prot (w.disk p) = some d) :
    ∃ w1 f, w.exec page (.open_ i p prot (some .statFile)) = .ok (w1, .threw) ∧ w1.files f = some p ∧
      ∀ ops w2 xs, w1.run page ops = .ok (w2, xs) → w2.LostF f := by
  refine ⟨w.fopen p d, w.next, ?_, upd_same _ _ _, fun ops w2 xs hr => (run_lost ops hr).1 w.next
    ⟨⟨p, upd_same _ _ _⟩, Nat.lt_succ_self _, fun k ok e1 e2 => ?_⟩⟩
  · simp only [World.exec]
    rw [fresh_eq (h.none ei), ok_bind]
    unfold World.open_
    rw [if_neg nofun, hd]
    simp only [if_true]
  · exact absurd (h.liveF e1 e2) (Nat.lt_irrefl _)

/-- **C139** (violated): a variable that was moved from still has its size, although there is nothing to access; resizing it to no more than it had
"succeeds", resizing it to more is undefined (`fileno(nullptr)`). -/
theorem C139_moved_violated {page : Nat} {w : World} {a : Spec} (h : Inv w a) {i j : Nat} {s : SObj}
    (ei : a.vars i = none) (ej : a.vars j = some (.obj s)) :
    ∃ w1, w.exec page (.moveNew i j) = .ok (w1, .done) ∧ w1.exec page (.size j) = .ok (w1, .num s.used) ∧ (∀ k, w1.exec page (.get j k) = .error .ub) ∧
      (s.rw_ = true → (∀ n, n ≤ s.cap → ∃ w2, w1.exec page (.resize j n) = .ok (w2, .done)) ∧ ∀ n, s.cap < n → w1.exec page (.resize j n) = .error .ub) := by
  obtain ⟨o, eo, hi⟩ := h.obj ej
  have hv : (w.takeFrom i j o).vars j = some { o with f := none, addr := none } := upd_same _ _ _
  refine ⟨w.takeFrom i j o, ?_, ?_, fun k => ?_, fun hr => ⟨fun n hn => ?_, fun n hn => ?_⟩⟩
  · simp only [World.exec]
    rw [fresh_eq (h.none ei), ok_bind, at_eq eo, ok_bind]
  · simp only [World.exec]
    rw [at_eq hv, ok_bind, hi.used]
  · simp only [World.exec]
    rw [at_eq hv, ok_bind]
    rfl
  · have hrw : o.rw_ = true := by rw [hi.rw_]; exact hr
    have hsz := hi.size
    simp only [World.exec, World.grow]
    rw [at_eq hv, ok_bind, if_neg (by show ¬ o.rw_ = false; rw [hrw]; decide), if_neg (by show ¬ o.size < n; omega)]
    exact ⟨_, rfl⟩
  · have hrw : o.rw_ = true := by rw [hi.rw_]; exact hr
    have hsz := hi.size
    simp only [World.exec, World.grow]
    rw [at_eq hv, ok_bind, if_neg (by show ¬ o.rw_ = false; rw [hrw]; decide), if_pos (by show o.size < n; omega)]
    unfold World.resizeMap
    rw [unmap_none rfl, ok_bind]
    simp only
    unfold World.resizeFile
    rw [if_neg (by show ¬ o.rw_ = false; rw [hrw]; decide)]
    rfl

/-- **C139** (violated): destroying a variable that has more pages than it uses leaves the mapping of the rest, for ever. -/
theorem C139_pages_violated {page : Nat} {w : World} {a : Spec} (h : Inv w a) {i : Nat} {s : SObj} (ei : a.vars i = some (.obj s))
    (hp : pages page s.used < pages page s.cap) (hc : 0 < s.cap) :
    ∃ w1 m, w.exec page (.destroy i) = .ok (w1, .done) ∧ w1.vars i = none ∧ ∀ ops w2 xs, w1.run page ops = .ok (w2, xs) → w2.LostM m := by
  obtain ⟨o, eo, hi⟩ := h.obj ei
  obtain ⟨f, ef, eff⟩ := hi.file
  rcases hi.addr with ⟨_, e⟩ | ⟨m, e1, _, e2⟩
  · omega
  · -- what `munmap` leaves
    obtain ⟨q, hq⟩ : ∃ q, w.unmap page { o with size := o.used } = .ok ({ w with maps := upd w.maps m (some q) }, { o with size := o.used, addr := none }) := by
      unfold World.unmap World.munmap
      simp only [e1, e2]
      by_cases h0 : o.used = 0
      · refine ⟨(s.path, s.cap), ?_⟩
        rw [if_pos h0, ok_bind]
        have : upd w.maps m (some (s.path, s.cap)) = w.maps := by
          funext k
          by_cases hk : k = m
          · rw [hk, upd_same, e2]
          · rw [upd_ne _ _ hk]
        rw [this]
      · exact ⟨_, by rw [if_neg h0, if_pos (by rw [hi.used]; exact hp), ok_bind]⟩
    obtain ⟨w1, hw1, g1, g2, g3⟩ : ∃ w1, w.destroy page o = .ok w1 ∧ w1.maps m = some q ∧ w1.next = w.next ∧ w1.vars = w.vars := by
      unfold World.destroy
      rw [if_neg (by rw [e1]; nofun), hq, ok_bind]
      simp only
      rw [fsize_eq (w := { w with maps := upd w.maps m (some q) }) ef eff hi.disk, ok_bind]
      split
      · cases hrw : o.rw_ with
        | true =>
          rw [resizeFile_eq (w := { w with maps := upd w.maps m (some q) }) (o := ⟨o.f, true, o.used, o.used, none⟩) rfl ef eff hi.disk, ok_bind]
          exact ⟨_, fclose_eq (w := { w with maps := upd w.maps m (some q), disk := upd w.disk s.path _ }) ef eff, upd_same _ _ _, rfl, rfl⟩
        | false =>
          unfold World.resizeFile
          rw [if_pos rfl, ok_bind]
          exact ⟨_, fclose_eq (w := { w with maps := upd w.maps m (some q) }) ef eff, upd_same _ _ _, rfl, rfl⟩
      · rw [ok_bind]
        exact ⟨_, fclose_eq (w := { w with maps := upd w.maps m (some q) }) ef eff, upd_same _ _ _, rfl, rfl⟩
    refine ⟨{ w1 with vars := upd w1.vars i none }, m, ?_, upd_same _ _ _, fun ops w2 xs hr => (run_lost ops hr).2 m
      ⟨⟨q, g1⟩, by show m < w1.next; rw [g2]; exact h.liveM eo e1, fun k ok e3 e4 => ?_⟩⟩
    · simp only [World.exec]
      rw [at_eq eo, ok_bind, hw1, ok_bind]
    · have e3 : upd w1.vars i none k = some ok := e3
      by_cases hk : k = i
      · rw [hk, upd_same] at e3; cases e3
      · rw [upd_ne _ _ hk, g3] at e3
        exact hk (h.injM k i ok o m e3 eo e4 e1)

/-! ## Examples -/

/-- One file with three bytes. -/
def oneFile : Path → Option (List Byte) := fun p => if p = 7 then some [1, 2, 3] else none

/-- Two variables: a file is opened, grown, handed on, written to, a missing file and a failing `mmap` are tried, then all is destroyed. -/
def twoVars : List Op :=
  [.open_ 0 7 .modify none, .resize 0 5, .open_ 2 8 .read none, .moveNew 1 0, .put 1 4 9, .open_ 3 9 .write (some .statMmap), .get 1 1, .size 1, .destroy 0,
    .destroy 1]

theorem np2_five : np2 5 = 8 := by unfold np2; decide +kernel

/-- Its bytes. -/
def b0 : Nat → Byte := fun k => [1, 2, 3].getD k 0

theorem twoVars_run : ∃ a, (Spec.start oneFile).Run 4096 twoVars a
    [.done, .done, .threw, .done, .done, .threw, .byte 2, .num 5, .done, .done] ∧ (∀ i, a.vars i = none) ∧ a.disk 7 = some [1, 2, 3, 0, 9] ∧
      a.disk 9 = some [] := by
  have hp : pages 4096 5 = pages 4096 (np2 5) := by rw [np2_five]; decide
  refine ⟨_, .cons (.open_ (d := [1, 2, 3]) rfl ?_ rfl (.inl rfl)) (.cons (.resize (s := ⟨7, true, b0, 3, 3⟩) rfl rfl (by decide))
    (.cons (.noOpen rfl ?_ (.inr rfl)) (.cons (.moveNew (x := .obj ⟨7, true, b0, 5, np2 5⟩) rfl rfl)
    (.cons (.put (s := ⟨7, true, b0, 5, np2 5⟩) rfl rfl (by decide)) (.cons (.badOpen (d := []) rfl ?_ rfl (.inl rfl))
    (.cons (.get (s := ⟨7, true, upd b0 4 9, 5, np2 5⟩) rfl (by decide)) (.cons (.size (s := ⟨7, true, upd b0 4 9, 5, np2 5⟩) rfl)
    (.cons (.drop (x := .moved) rfl nofun) (.cons (.destroy (s := ⟨7, true, upd b0 4 9, 5, np2 5⟩) rfl hp) .nil))))))))), ?_, ?_, ?_⟩
  · rintro ⟨i, s, e, _⟩; cases e
  · rintro ⟨i, s, e, e2⟩
    rcases i with _ | i
    · cases e; cases e2
    · cases e
  · rintro ⟨i, s, e, e2⟩
    rcases i with _ | _ | i
    · cases e
    · cases e; cases e2
    · cases e
  · intro i
    rcases i with _ | _ | i
    · rfl
    · rfl
    · rfl
  · rfl
  · rfl

example : ∃ w, (World.start oneFile).run 4096 twoVars = .ok (w, [.done, .done, .threw, .done, .done, .threw, .byte 2, .num 5, .done, .done]) ∧
    (∀ h, w.files h = none) ∧ (∀ m, w.maps m = none) ∧ w.disk 7 = some [1, 2, 3, 0, 9] := by
  obtain ⟨a, hr, hn, hd, _⟩ := twoVars_run
  obtain ⟨w, e, _, _, h⟩ := C139_history_partial (by decide) oneFile hr
  obtain ⟨h1, h2, h3⟩ := h hn
  exact ⟨w, e, h1, h2, by rw [h3]; exact hd⟩

/-- A state with two open files, the first with an unused page, and variables to move to. -/
theorem twoOpen : ∃ w a s t, Inv w a ∧ a.vars 0 = some (.obj s) ∧ a.vars 1 = some (.obj t) ∧ a.vars 2 = none ∧ s.rw_ = true ∧ 0 < s.cap ∧
    pages 4096 s.used < pages 4096 s.cap ∧ mode .read (w.disk 9) = some [] := by
  have hr : (Spec.start oneFile).Run 4096 [.open_ 0 7 .modify none, .reserve 0 5000, .open_ 1 9 .write none] _ [.done, .done, .done] :=
    .cons (.open_ (d := [1, 2, 3]) rfl (by rintro ⟨i, s, e, _⟩; cases e) rfl (.inl rfl)) (.cons (.reserve (s := ⟨7, true, b0, 3, 3⟩) rfl rfl (by decide))
      (.cons (.open_ (d := []) rfl (by
        rintro ⟨i, s, e, e2⟩
        rcases i with _ | i
        · cases e; cases e2
        · cases e) rfl (.inl rfl)) .nil))
  obtain ⟨w, _, h⟩ := run_ok (by decide) hr (start_inv oneFile)
  have hn : np2 5000 = 8192 := by unfold np2; decide +kernel
  refine ⟨w, _, ⟨7, true, b0, 3, np2 5000⟩, ⟨9, true, _, 0, 0⟩, h, rfl, rfl, rfl, rfl, by rw [hn]; decide, by rw [hn]; decide, ?_⟩
  obtain ⟨o, _, hi⟩ := h.obj (i := 1) (s := ⟨9, true, _, 0, 0⟩) rfl
  exact hi.disk
