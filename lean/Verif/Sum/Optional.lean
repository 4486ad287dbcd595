import Verif.Sum.Variant

/-!
# optional

Model of `cista::optional<T>` (include/cista/containers/optional.h).  `slot` is the object alive in `storage_`.  For
a `T` with a non-trivial destructor (`triv = false`), replacing a living object by placement new, or ending
the lifetime of the optional with a living object, is `Err.leak` (there is no destructor).
-/
set_option linter.unusedSimpArgs false

namespace Cista.Optional

open Variant (getVar)

structure Env (α : Type) where
  /-- `T` is trivially destructible -/
  triv : Bool
  /-- value left behind by a move -/
  mv : α → α
  /-- `T{b}` for a `bool` (compiles for integral types); used when `T` is built from an optional -/
  ofBool : Bool → α

/-- optional.h:79-80. -/
structure Opt (α : Type) where
  valid : Bool
  slot : Option α
deriving DecidableEq, Repr

variable {α : Type}

/-- `new (&storage_[0]) T…` -/
def Opt.construct (e : Env α) (o : Opt α) (x : α) : Res (Opt α) :=
  match o.slot with
  | some _ => if e.triv then .ok { o with slot := some x } else .error .leak
  | none => .ok { o with slot := some x }

/-- optional.h:52-64 `value()`. -/
def Opt.value (o : Opt α) : Res α :=
  if o.valid then
    match o.slot with
    | some x => .ok x
    | none => .error .ub
  else .error .exn

/-- optional.h:13, 21-22: empty. -/
def Opt.empty : Opt α := ⟨false, none⟩

/-- optional.h:15-19 construction from constructor arguments of `T`. -/
def Opt.make (x : α) : Opt α := ⟨true, some x⟩

/-- optional.h:32-40 `copy`. -/
def Opt.copy (e : Env α) (o other : Opt α) : Res (Opt α) :=
  if other.valid then do
    let x ← other.value
    let o ← o.construct e x
    return { o with valid := true }
  else .ok { o with valid := false }

/-- optional.h:42-50 `move`: this, and `other` after. -/
def Opt.move (e : Env α) (o other : Opt α) : Res (Opt α × Opt α) :=
  if other.valid then do
    let x ← other.value
    let o ← o.construct e x
    return ({ o with valid := true }, { other with slot := some (e.mv x) })
  else .ok ({ o with valid := false }, other)

/-- optional.h:15-19 selected for a non-const lvalue `optional&` (`auto b = a;`): a better match than the copy
constructor of line 24, so `T` is list-initialised from the optional, through optional.h:67 `operator bool`. -/
def Opt.copyLvalue (e : Env α) (other : Opt α) : Opt α := Opt.make (e.ofBool other.valid)

/-- End of lifetime: no destructor is declared, the object in `storage_` is not destroyed. -/
def Opt.destroy (e : Env α) (o : Opt α) : Res Unit :=
  match o.slot with
  | some _ => if e.triv then .ok () else .error .leak
  | none => .ok ()

inductive Op (α : Type) where
  | empty
  | make (x : α)
  /-- copy construction from a const optional (optional.h:24) -/
  | copy (j : Nat)
  /-- optional.h:27 -/
  | move (j : Nat)
  /-- optional.h:25 -/
  | copyAssign (i j : Nat)
  /-- optional.h:28-30 -/
  | moveAssign (i j : Nat)
  | destroy (i : Nat)

def Op.exec (e : Env α) (os : List (Opt α)) : Op α → Res (List (Opt α))
  | .empty => .ok (os ++ [Opt.empty])
  | .make x => .ok (os ++ [Opt.make x])
  | .copy j => do
    let o ← getVar os j
    let v ← Opt.empty.copy e o
    return os ++ [v]
  | .move j => do
    let o ← getVar os j
    let (v, o) ← Opt.empty.move e o
    return os.set j o ++ [v]
  | .copyAssign i j => do
    let v ← getVar os i
    let o ← getVar os j
    let v ← v.copy e o
    return os.set i v
  | .moveAssign i j => do
    let v ← getVar os i
    let o ← getVar os j
    let (v, o) ← v.move e o
    return (os.set j o).set i v
  | .destroy i => do
    let v ← getVar os i
    let _ ← v.destroy e
    return os.eraseIdx i

def run (e : Env α) : List (Opt α) → List (Op α) → Res (List (Opt α))
  | os, [] => .ok os
  | os, op :: ops => do
    let os ← op.exec e os
    run e os ops

/-! ## Specification -/

def Op.spec (e : Env α) (S : List (Option α)) : Op α → List (Option α)
  | .empty => S ++ [none]
  | .make x => S ++ [some x]
  | .copy j => S ++ [(S[j]?).join]
  | .move j => S.set j ((S[j]?).join.map e.mv) ++ [(S[j]?).join]
  | .copyAssign i j => S.set i (S[j]?).join
  | .moveAssign i j => (S.set j ((S[j]?).join.map e.mv)).set i (S[j]?).join
  | .destroy i => S.eraseIdx i

def Op.Pre (S : List (Option α)) : Op α → Prop
  | .empty => True
  | .make _ => True
  | .copy j => j < S.length
  | .move j => j < S.length
  | .copyAssign i j => i < S.length ∧ j < S.length
  | .moveAssign i j => i ≠ j ∧ i < S.length ∧ j < S.length
  | .destroy i => i < S.length

def specRun (e : Env α) : List (Option α) → List (Op α) → List (Option α)
  | S, [] => S
  | S, op :: ops => specRun e (op.spec e S) ops

def Allowed (e : Env α) : List (Option α) → List (Op α) → Prop
  | _, [] => True
  | S, op :: ops => op.Pre S ∧ Allowed e (op.spec e S) ops

/-- An optional shows the abstract one: `has_value()` and `value()`. -/
def Shows (o : Opt α) (s : Option α) : Prop :=
  o.valid = s.isSome ∧ o.value = (match s with | some x => .ok x | none => .error .exn)

theorem Shows.cases {o : Opt α} {s : Option α} (h : Shows o s) :
    (∃ x, s = some x ∧ o = ⟨true, some x⟩) ∨ (s = none ∧ o.valid = false) := by
  obtain ⟨h1, h2⟩ := h
  cases s with
  | none => exact Or.inr ⟨rfl, h1⟩
  | some x =>
    left
    refine ⟨x, rfl, ?_⟩
    cases o with
    | mk v sl =>
      simp only [Option.isSome_some] at h1
      subst h1
      cases sl with
      | none => simp [Opt.value] at h2
      | some y => simp [Opt.value] at h2; subst h2; rfl

theorem shows_none {o : Opt α} (h : o.valid = false) : Shows o none := ⟨h, by simp [Opt.value, h]⟩

theorem shows_some (x : α) : Shows ⟨true, some x⟩ (some x) := ⟨rfl, rfl⟩

theorem copy_ok {e : Env α} (ht : e.triv = true) (o : Opt α) {p : Opt α} {s : Option α} (h : Shows p s) :
    ∃ o', o.copy e p = .ok o' ∧ Shows o' s := by
  rcases h.cases with ⟨x, rfl, rfl⟩ | ⟨rfl, hv⟩
  · refine ⟨⟨true, some x⟩, ?_, shows_some x⟩
    cases o with
    | mk v sl => cases sl <;> simp [Opt.copy, Opt.value, Opt.construct, ht, ok_bind, pure_ok]
  · exact ⟨_, by simp only [Opt.copy, hv]; rfl, shows_none rfl⟩

theorem move_ok {e : Env α} (ht : e.triv = true) (o : Opt α) {p : Opt α} {s : Option α} (h : Shows p s) :
    ∃ o' p', o.move e p = .ok (o', p') ∧ Shows o' s ∧ Shows p' (s.map e.mv) := by
  rcases h.cases with ⟨x, rfl, rfl⟩ | ⟨rfl, hv⟩
  · refine ⟨⟨true, some x⟩, ⟨true, some (e.mv x)⟩, ?_, shows_some x, shows_some _⟩
    cases o with
    | mk v sl => cases sl <;> simp [Opt.move, Opt.value, Opt.construct, ht, ok_bind, pure_ok]
  · exact ⟨_, p, by simp only [Opt.move, hv]; rfl, shows_none rfl, h⟩

structure Rel (os : List (Opt α)) (S : List (Option α)) : Prop where
  len : os.length = S.length
  each : ∀ (i : Nat) (o : Opt α) (s : Option α), os[i]? = some o → S[i]? = some s → Shows o s

theorem Rel.get {os : List (Opt α)} {S : List (Option α)} (h : Rel os S) {i : Nat} (hi : i < S.length) :
    ∃ o, getVar os i = .ok o ∧ Shows o S[i] := by
  have hl : i < os.length := by rw [h.len]; exact hi
  have hv := List.getElem?_eq_getElem hl
  exact ⟨_, by simp only [getVar, hv], h.each i _ _ hv (List.getElem?_eq_getElem hi)⟩

theorem Rel.push {os : List (Opt α)} {S : List (Option α)} (h : Rel os S) {o : Opt α} {s : Option α} (hv : Shows o s) :
    Rel (os ++ [o]) (S ++ [s]) where
  len := by simp [h.len]
  each i w u h1 h2 := by
    by_cases hi : i < os.length
    · rw [List.getElem?_append_left hi] at h1
      rw [List.getElem?_append_left (by rw [← h.len]; exact hi)] at h2
      exact h.each i w u h1 h2
    · have hj : i = os.length := by
        have := (List.getElem?_eq_some_iff.1 h1).1
        simp at this; omega
      subst hj
      have h1' : w = o := by simpa using h1.symm
      have h2' : u = s := by rw [h.len] at h2; simpa using h2.symm
      rw [h1', h2']; exact hv

theorem Rel.set {os : List (Opt α)} {S : List (Option α)} (h : Rel os S) (i : Nat) {o : Opt α} {s : Option α} (hv : Shows o s) :
    Rel (os.set i o) (S.set i s) where
  len := by simp [h.len]
  each j w u h1 h2 := by
    by_cases hij : i = j
    · subst hij
      have hi : i < os.length := by simpa using (List.getElem?_eq_some_iff.1 h1).1
      rw [List.getElem?_set_self hi] at h1
      rw [List.getElem?_set_self (by rw [← h.len]; exact hi)] at h2
      injection h1 with h1; injection h2 with h2
      rw [← h1, ← h2]; exact hv
    · rw [List.getElem?_set_ne hij] at h1 h2
      exact h.each j w u h1 h2

theorem Rel.erase {os : List (Opt α)} {S : List (Option α)} (h : Rel os S) (i : Nat) :
    Rel (os.eraseIdx i) (S.eraseIdx i) where
  len := by simp [List.length_eraseIdx, h.len]
  each j w u h1 h2 := by
    rw [List.getElem?_eraseIdx] at h1 h2
    split at h1
    · rw [if_pos (by assumption)] at h2; exact h.each _ _ _ h1 h2
    · rw [if_neg (by assumption)] at h2; exact h.each _ _ _ h1 h2

theorem exec_ok {e : Env α} (ht : e.triv = true) {os : List (Opt α)} {S : List (Option α)} (h : Rel os S) {op : Op α}
    (hp : op.Pre S) : ∃ os', op.exec e os = .ok os' ∧ Rel os' (op.spec e S) := by
  have hjoin : ∀ j (hj : j < S.length), (S[j]?).join = S[j] := fun j hj => by rw [List.getElem?_eq_getElem hj]; rfl
  cases op with
  | empty => exact ⟨_, rfl, h.push (shows_none rfl)⟩
  | make x => exact ⟨_, rfl, h.push (shows_some x)⟩
  | copy j =>
    obtain ⟨o, eo, ho⟩ := h.get hp
    obtain ⟨v, ev, hv⟩ := copy_ok ht Opt.empty ho
    refine ⟨os ++ [v], by simp only [Op.exec, eo, ok_bind, ev, pure_ok], ?_⟩
    simp only [Op.spec, hjoin j hp]
    exact h.push hv
  | move j =>
    obtain ⟨o, eo, ho⟩ := h.get hp
    obtain ⟨v, o', ev, hv, ho'⟩ := move_ok ht Opt.empty ho
    refine ⟨os.set j o' ++ [v], by simp only [Op.exec, eo, ok_bind, ev, pure_ok], ?_⟩
    simp only [Op.spec, hjoin j hp]
    exact (h.set j ho').push hv
  | copyAssign i j =>
    obtain ⟨hi, hj⟩ := hp
    obtain ⟨w, ew, hw⟩ := h.get hi
    obtain ⟨o, eo, ho⟩ := h.get hj
    obtain ⟨v, ev, hv⟩ := copy_ok ht w ho
    refine ⟨os.set i v, by simp only [Op.exec, ew, eo, ok_bind, ev, pure_ok], ?_⟩
    simp only [Op.spec, hjoin j hj]
    exact h.set i hv
  | moveAssign i j =>
    obtain ⟨hij, hi, hj⟩ := hp
    obtain ⟨w, ew, hw⟩ := h.get hi
    obtain ⟨o, eo, ho⟩ := h.get hj
    obtain ⟨v, o', ev, hv, ho'⟩ := move_ok ht w ho
    refine ⟨(os.set j o').set i v, by simp only [Op.exec, ew, eo, ok_bind, ev, pure_ok], ?_⟩
    simp only [Op.spec, hjoin j hj]
    exact (h.set j ho').set i hv
  | destroy i =>
    obtain ⟨o, eo, ho⟩ := h.get hp
    have : o.destroy e = .ok () := by
      cases o with
      | mk v sl => cases sl <;> simp [Opt.destroy, ht]
    exact ⟨os.eraseIdx i, by simp only [Op.exec, eo, ok_bind, this, pure_ok], h.erase i⟩

theorem run_ok {e : Env α} (ht : e.triv = true) : ∀ (ops : List (Op α)) {os : List (Opt α)} {S : List (Option α)},
    Rel os S → Allowed e S ops → ∃ os', run e os ops = .ok os' ∧ Rel os' (specRun e S ops)
  | [], os, S, h, _ => ⟨os, rfl, h⟩
  | op :: ops, os, S, h, ha => by
    obtain ⟨v1, e1, h1⟩ := exec_ok ht h ha.1
    obtain ⟨v2, e2, h2⟩ := run_ok ht ops h1 ha.2
    exact ⟨v2, by simp only [run, e1, ok_bind, e2], h2⟩

/-- **C53**: for trivially destructible `T`, every history of constructions, copies from const optionals, moves,
assignments and destructions leaves every optional with the value (or emptiness) it was given: `has_value()` says so,
`value()` returns it or throws.  Partial: copies of non-const optionals and other `T` are excluded. -/
theorem C53_history_partial {e : Env α} (ht : e.triv = true) (ops : List (Op α)) (ha : Allowed e [] ops) :
    ∃ os, run e [] ops = .ok os ∧ os.length = (specRun e [] ops).length ∧
      ∀ (i : Nat) (o : Opt α) (s : Option α), os[i]? = some o → (specRun e [] ops)[i]? = some s →
        o.valid = s.isSome ∧ o.value = (match s with | some x => .ok x | none => .error .exn) := by
  obtain ⟨os, e1, h⟩ := run_ok ht ops (os := []) (S := []) ⟨rfl, by simp⟩ ha
  exact ⟨os, e1, h.len, h.each⟩

/-- `optional<int>`. -/
def envInt : Env Nat := ⟨true, fun x => x, fun b => if b then 1 else 0⟩

/-- `optional<cista::string>` or any `T` that owns something. -/
def envOwner : Env Nat := ⟨false, fun _ => 0, fun _ => 0⟩

example : envInt.triv = true ∧
    Allowed envInt [] [.empty, .make 5, .copyAssign 0 1, .move 0, .moveAssign 1 2, .empty, .copyAssign 0 3, .destroy 1] := by
  simp [Allowed, Op.Pre, Op.spec, envInt]

example : run envInt [] [.empty, .make 5, .copyAssign 0 1, .empty, .copyAssign 0 2] =
    .ok [⟨false, some 5⟩, ⟨true, some 5⟩, ⟨false, none⟩] := by decide +kernel

/-- **C53** violated: copying a non-const optional (`auto b = a;`) takes the forwarding constructor: the copy always
has a value, namely the `bool` of whether the source had one. -/
theorem C53_copy_nonconst_violated (e : Env α) (o : Opt α) :
    (o.copyLvalue e).valid = true ∧ (o.copyLvalue e).value = .ok (e.ofBool o.valid) := ⟨rfl, rfl⟩

/-- A copy of an optional holding 5 holds 1, a copy of an empty one holds 0. -/
example : ((Opt.make 5).copyLvalue envInt).value = .ok 1 ∧ ((Opt.empty : Opt Nat).copyLvalue envInt).value = .ok 0 ∧
    (Opt.empty : Opt Nat).value = .error .exn := by decide

/-- **C30** violated (`optional`): an optional holding an object with a destructor never destroys it: not at its end of
lifetime, and not when it is assigned to. -/
theorem C30_optional_leak_violated {e : Env α} (ht : e.triv = false) (x y : α) :
    (Opt.make x).destroy e = .error .leak ∧ (Opt.make x).copy e (Opt.make y) = .error .leak ∧
      (Opt.make x).move e (Opt.make y) = .error .leak ∧
      ∃ o, (Opt.make x).copy e Opt.empty = .ok o ∧ o.valid = false ∧ o.destroy e = .error .leak := by
  refine ⟨?_, ?_, ?_, ⟨false, some x⟩, rfl, rfl, ?_⟩ <;>
    simp [Opt.make, Opt.destroy, Opt.copy, Opt.move, Opt.value, Opt.construct, ht, ok_bind, error_bind] <;> rfl

example : envOwner.triv = false := rfl

end Cista.Optional
