import Verif.Paged.Hist

/-!
# variant

Model of `cista::variant<T...>` (include/cista/containers/variant.h).

* Types are numbers (`TypeId`); `Env.tys` is the list of (decayed) alternatives.  Values of all alternatives live in one
  carrier `α`; the type of a stored object is kept beside it, and reading with another type is undefined behaviour.
* `storage_` is `none` when no object is alive in it.  Constructing over a living object is `Err.leak`,
  using or destroying a missing one is `Err.ub`.
* `Env.mv x` is what an object with value `x` holds after being moved from.
* At most 15 alternatives compile (variant.h:326-328 misses an argument); the model allows any number up to 65535.
-/
set_option linter.unusedSimpArgs false

namespace Cista.Variant

abbrev TypeId := Nat

structure Env (α : Type) where
  tys : List TypeId
  mv : α → α

/-- variant.h:27-33, 68 `NO_VALUE` for `n` alternatives. -/
def noValue (n : Nat) : Nat := if 255 < n then 65535 else 255

/-- variant.h:13-33: how many bytes `index_t` has for `n` alternatives. -/
def indexBytes (n : Nat) : Nat := if n > 2 ^ 8 - 1 then 2 else 1

/-- variant.h:356-357. -/
structure Var (α : Type) where
  idx : Nat
  slot : Option (TypeId × α)
deriving DecidableEq, Repr

variable {α : Type}

/-- `NO_VALUE` of this variant type. -/
def Env.no (e : Env α) : Nat := noValue e.tys.length

/-- variant.h:37-47 `index_of_type`: the first match (the number of alternatives if there is none). -/
def Env.indexOf (e : Env α) (t : TypeId) : Nat := e.tys.findIdx (· == t)

/-- Which kind of expression is assigned: only for `rvalue` is the template argument `Arg` the plain type
(for an lvalue it is a reference type, for a const rvalue a const type). -/
inductive Cat where
  | rvalue | lvalue | constRvalue
deriving DecidableEq, Repr

/-- variant.h:70 -/
def Var.default (e : Env α) : Var α := ⟨e.no, none⟩

/-- variant.h:337-345 `as<T>()`. -/
def Var.as (v : Var α) (t : TypeId) : Res α :=
  match v.slot with
  | some (t', x) => if t' = t then .ok x else .error .ub
  | none => .error .ub

/-- Placement new of an object of type `t`. -/
def Var.construct (v : Var α) (t : TypeId) (x : α) : Res (Var α) :=
  match v.slot with
  | some _ => .error .leak
  | none => .ok { v with slot := some (t, x) }

/-- variant.h:240-335 the static `apply`: the alternative selected by `idx`, read as that type; no case for other
indices (`__builtin_unreachable`). -/
def Var.applyAt (e : Env α) (idx : Nat) (v : Var α) : Res (TypeId × α) :=
  match e.tys[idx]? with
  | none => .error .ub
  | some t => do
    let x ← v.as t
    return (t, x)

/-- variant.h:219-234 `apply(f)`. -/
def Var.apply (e : Env α) (v : Var α) : Res (TypeId × α) :=
  if v.idx = e.no then .error .exn else v.applyAt e v.idx

/-- variant.h:72-82 construction from a value. -/
def Var.make (e : Env α) (t : TypeId) (x : α) : Res (Var α) := (⟨e.indexOf t, none⟩ : Var α).construct t x

/-- variant.h:84-89 copy construction. -/
def Var.copyOf (e : Env α) (o : Var α) : Res (Var α) := do
  let (t, x) ← o.apply e
  (⟨o.idx, none⟩ : Var α).construct t x

/-- variant.h:90-95 move construction: the new variant, and `o` with its value moved from. -/
def Var.moveOf (e : Env α) (o : Var α) : Res (Var α × Var α) := do
  let (t, x) ← o.apply e
  let v ← (⟨o.idx, none⟩ : Var α).construct t x
  return (v, { o with slot := some (t, e.mv x) })

/-- variant.h:210-217 `destruct`. -/
def Var.destruct (e : Env α) (v : Var α) : Res (Var α) :=
  if v.idx ≠ e.no then do
    let _ ← v.apply e
    return { v with slot := none }
  else .ok v

/-- variant.h:105-121 `operator=(Arg&&)`.  In the first branch the assignment is compiled only if `Arg` is exactly
the type of the element. -/
def Var.assign (e : Env α) (v : Var α) (cat : Cat) (t : TypeId) (x : α) : Res (Var α) :=
  if e.indexOf t = v.idx then do
    let (t', _) ← v.apply e
    if t' = t ∧ cat = .rvalue then return { v with slot := some (t, x) } else return v
  else do
    let v ← v.destruct e
    (⟨e.indexOf t, v.slot⟩ : Var α).construct t x

/-- variant.h:97-99 copy assignment: `el` is an lvalue. -/
def Var.copyAssign (e : Env α) (v o : Var α) : Res (Var α) := do
  let (t, x) ← o.apply e
  v.assign e .lvalue t x

/-- variant.h:100-103 move assignment from another variant: the target, and `o` moved from. -/
def Var.moveAssign (e : Env α) (v o : Var α) : Res (Var α × Var α) := do
  let (t, x) ← o.apply e
  let v ← v.assign e .rvalue t x
  return (v, { o with slot := some (t, e.mv x) })

/-- variant.h:175-182 `emplace<T>(x)`. -/
def Var.emplace (e : Env α) (v : Var α) (t : TypeId) (x : α) : Res (Var α) := do
  let v ← v.destruct e
  (⟨e.indexOf t, v.slot⟩ : Var α).construct t x

/-- variant.h:184-191 `emplace<I>(x)`. -/
def Var.emplaceIdx (e : Env α) (v : Var α) (k : Nat) (x : α) : Res (Var α) :=
  match e.tys[k]? with
  | none => .error .ub
  | some t => do
    let v ← v.destruct e
    (⟨k, v.slot⟩ : Var α).construct t x

/-- variant.h:125-127 the destructor; an object left alive is a leak. -/
def Var.destroy (e : Env α) (v : Var α) : Res Unit := do
  let v ← v.destruct e
  match v.slot with
  | some _ => .error .leak
  | none => .ok ()

/-- variant.h:195-208 `swap` of two different variants. -/
def Var.swap (e : Env α) (v o : Var α) : Res (Var α × Var α) :=
  if v.idx = o.idx then do
    let (t, x) ← v.applyAt e v.idx
    let (_, y) ← o.applyAt e v.idx
    return ({ v with slot := some (t, y) }, { o with slot := some (t, x) })
  else do
    let (tmp, o) ← o.moveOf e
    let (o, v) ← o.moveAssign e v
    let (v, tmp) ← v.moveAssign e tmp
    let _ ← tmp.destroy e
    return (v, o)

/-- variant.h:129 `valid()`. -/
def Var.valid (e : Env α) (v : Var α) : Bool := v.idx != e.no

/-- variant.h:360-363 `holds_alternative<T>`. -/
def Var.holds (e : Env α) (v : Var α) (t : TypeId) : Bool := v.idx == e.indexOf t

/-- variant.h:388-417 `get_if<T>`: the value pointed to, or null. -/
def Var.getIf (e : Env α) (v : Var α) (t : TypeId) : Res (Option α) :=
  if v.idx = e.indexOf t then do
    let x ← v.as t
    return some x
  else .ok none

/-! ## Specification -/

/-- A variant is empty or holds a value of one of its types. -/
abbrev SVar (α : Type) := Option (TypeId × α)

/-- Operations on a collection of variants. -/
inductive Op (α : Type) where
  | default
  | make (t : TypeId) (x : α)
  | copy (j : Nat)
  | move (j : Nat)
  | assign (i : Nat) (cat : Cat) (t : TypeId) (x : α)
  | copyAssign (i j : Nat)
  | moveAssign (i j : Nat)
  | emplace (i : Nat) (t : TypeId) (x : α)
  | emplaceIdx (i k : Nat) (x : α)
  | swap (i j : Nat)
  | destroy (i : Nat)

def getVar {β : Type _} (l : List β) (i : Nat) : Res β :=
  match l[i]? with
  | some v => .ok v
  | none => .error .ub

def Op.exec (e : Env α) (vs : List (Var α)) : Op α → Res (List (Var α))
  | .default => .ok (vs ++ [Var.default e])
  | .make t x => do
    let v ← Var.make e t x
    return vs ++ [v]
  | .copy j => do
    let o ← getVar vs j
    let v ← o.copyOf e
    return vs ++ [v]
  | .move j => do
    let o ← getVar vs j
    let (v, o) ← o.moveOf e
    return vs.set j o ++ [v]
  | .assign i cat t x => do
    let v ← getVar vs i
    let v ← v.assign e cat t x
    return vs.set i v
  | .copyAssign i j => do
    let v ← getVar vs i
    let o ← getVar vs j
    let v ← v.copyAssign e o
    return vs.set i v
  | .moveAssign i j => do
    let v ← getVar vs i
    let o ← getVar vs j
    let (v, o) ← v.moveAssign e o
    return (vs.set j o).set i v
  | .emplace i t x => do
    let v ← getVar vs i
    let v ← v.emplace e t x
    return vs.set i v
  | .emplaceIdx i k x => do
    let v ← getVar vs i
    let v ← v.emplaceIdx e k x
    return vs.set i v
  | .swap i j => do
    let v ← getVar vs i
    let o ← getVar vs j
    let (v, o) ← v.swap e o
    return (vs.set j o).set i v
  | .destroy i => do
    let v ← getVar vs i
    let _ ← v.destroy e
    return vs.eraseIdx i

/-- The same on abstract variants. -/
def Op.spec (e : Env α) (S : List (SVar α)) : Op α → List (SVar α)
  | .default => S ++ [none]
  | .make t x => S ++ [some (t, x)]
  | .copy j => S ++ [(S[j]?).join]
  | .move j => (S.modify j fun v => v.map fun (t, x) => (t, e.mv x)) ++ [(S[j]?).join]
  | .assign i _ t x => S.set i (some (t, x))
  | .copyAssign i j => S.set i (S[j]?).join
  | .moveAssign i j => (S.modify j fun v => v.map fun (t, x) => (t, e.mv x)).set i (S[j]?).join
  | .emplace i t x => S.set i (some (t, x))
  | .emplaceIdx i k x => S.set i ((e.tys[k]?).map fun t => (t, x))
  | .swap i j => (S.set j (S[i]?).join).set i (S[j]?).join
  | .destroy i => S.eraseIdx i

/-- Caller obligations.  The conditions on `assign` and `copyAssign` exclude the defect shown below; reading from
an empty variant throws and is covered separately. -/
def Op.Pre (e : Env α) (S : List (SVar α)) : Op α → Prop
  | .default => True
  | .make t _ => t ∈ e.tys
  | .copy j => ∃ a, S[j]? = some (some a)
  | .move j => ∃ a, S[j]? = some (some a)
  | .assign i cat t _ => t ∈ e.tys ∧ ∃ s, S[i]? = some s ∧ (cat = .rvalue ∨ ∀ x, s ≠ some (t, x))
  | .copyAssign i j => ∃ s t x, S[i]? = some s ∧ S[j]? = some (some (t, x)) ∧ (i = j ∨ ∀ y, s ≠ some (t, y))
  | .moveAssign i j => i ≠ j ∧ ∃ s a, S[i]? = some s ∧ S[j]? = some (some a)
  | .emplace i t _ => t ∈ e.tys ∧ i < S.length
  | .emplaceIdx i k _ => k < e.tys.length ∧ i < S.length
  | .swap i j => i ≠ j ∧ ∃ a b, S[i]? = some (some a) ∧ S[j]? = some (some b)
  | .destroy i => i < S.length

def run (e : Env α) : List (Var α) → List (Op α) → Res (List (Var α))
  | vs, [] => .ok vs
  | vs, op :: ops => do
    let vs ← op.exec e vs
    run e vs ops

def specRun (e : Env α) : List (SVar α) → List (Op α) → List (SVar α)
  | S, [] => S
  | S, op :: ops => specRun e (op.spec e S) ops

def Allowed (e : Env α) : List (SVar α) → List (Op α) → Prop
  | _, [] => True
  | S, op :: ops => op.Pre e S ∧ Allowed e (op.spec e S) ops

/-! ## Proofs -/

/-- The alternatives are different types, and there are at most as many as can be told apart from `NO_VALUE` of two bytes. -/
structure Env.Ok (e : Env α) : Prop where
  nodup : e.tys.Nodup
  few : e.tys.length ≤ 65535

/-- Every index of an alternative is different from `NO_VALUE`. -/
theorem Env.Ok.le_no {e : Env α} (ok : e.Ok) : e.tys.length ≤ e.no := by
  have := ok.few
  unfold Env.no noValue
  split <;> omega

/-- A variant represents an abstract one. -/
def VOk (e : Env α) (v : Var α) : SVar α → Prop
  | none => v = ⟨e.no, none⟩
  | some (t, x) => ∃ k, e.tys[k]? = some t ∧ v = ⟨k, some (t, x)⟩

variable {e : Env α}

theorem indexOf_get (ok : e.Ok) {k : Nat} {t : TypeId} (h : e.tys[k]? = some t) : e.indexOf t = k := by
  obtain ⟨hk, hk'⟩ := List.getElem?_eq_some_iff.1 h
  unfold Env.indexOf
  rw [List.findIdx_eq hk]
  refine ⟨by simpa using hk', ?_⟩
  intro j hj
  have hne : e.tys[j] ≠ e.tys[k] := List.pairwise_iff_getElem.1 ok.nodup j k (by omega) hk hj
  rw [← hk']
  simpa using hne

theorem exists_indexOf (ok : e.Ok) {t : TypeId} (h : t ∈ e.tys) : ∃ k, e.tys[k]? = some t ∧ e.indexOf t = k ∧ k < e.no := by
  obtain ⟨k, hk⟩ := List.getElem?_of_mem h
  have hl := (List.getElem?_eq_some_iff.1 hk).1
  have := ok.le_no
  exact ⟨k, hk, indexOf_get ok hk, by omega⟩

theorem ne_no (ok : e.Ok) {k : Nat} {t : TypeId} (h : e.tys[k]? = some t) : k ≠ e.no := by
  have hl := (List.getElem?_eq_some_iff.1 h).1
  have := ok.le_no
  omega

theorem apply_ok (ok : e.Ok) {v : Var α} {t : TypeId} {x : α} (h : VOk e v (some (t, x))) : v.apply e = .ok (t, x) := by
  obtain ⟨k, hk, rfl⟩ := h
  unfold Var.apply Var.applyAt Var.as
  simp only [ne_no ok hk, if_false, hk, if_true, ok_bind, pure_ok]

theorem apply_none {v : Var α} (h : VOk e v none) : v.apply e = .error .exn := by
  rw [show v = _ from h]
  simp [Var.apply]

theorem destruct_ok (ok : e.Ok) {v : Var α} {s : SVar α} (h : VOk e v s) : v.destruct e = .ok ⟨v.idx, none⟩ := by
  cases s with
  | none => rw [show v = _ from h]; simp [Var.destruct]
  | some a =>
    obtain ⟨t, x⟩ := a
    have ha := apply_ok ok h
    obtain ⟨k, hk, rfl⟩ := h
    unfold Var.destruct
    simp only [ne_eq, ne_no ok hk, not_false_eq_true, if_true, ha, ok_bind, pure_ok]

theorem assign_ok (ok : e.Ok) {v : Var α} {s : SVar α} (h : VOk e v s) {t : TypeId} (ht : t ∈ e.tys) {cat : Cat} {x : α}
    (hc : cat = .rvalue ∨ ∀ y, s ≠ some (t, y)) : ∃ v', v.assign e cat t x = .ok v' ∧ VOk e v' (some (t, x)) := by
  obtain ⟨k, hk, hi, hlt⟩ := exists_indexOf ok ht
  unfold Var.assign
  by_cases hs : e.indexOf t = v.idx
  · cases s with
    | none => rw [show v = _ from h] at hs; simp only at hs; omega
    | some a =>
      obtain ⟨t', y⟩ := a
      have ha := apply_ok ok h
      obtain ⟨k', hk', rfl⟩ := h
      simp only at hs
      have : t' = t := by rw [← hs, hi, hk] at hk'; injection hk' with hk'; exact hk'.symm
      subst this
      have hr : cat = .rvalue := hc.resolve_right fun hh => hh y rfl
      simp only [hs, if_true, ha, ok_bind, hr, and_self, pure_ok]
      exact ⟨_, rfl, k', hk', rfl⟩
  · rw [if_neg hs, hi]
    simp only [destruct_ok ok h, ok_bind, Var.construct]
    exact ⟨_, rfl, k, hk, rfl⟩

theorem moveAssign_ok (ok : e.Ok) {v o : Var α} {s : SVar α} {t : TypeId} {x : α} (h : VOk e v s)
    (ho : VOk e o (some (t, x))) : ∃ v' o', v.moveAssign e o = .ok (v', o') ∧ VOk e v' (some (t, x)) ∧
      VOk e o' (some (t, e.mv x)) ∧ o'.idx = o.idx ∧ v'.idx = o.idx := by
  have ha := apply_ok ok ho
  obtain ⟨k, hk, rfl⟩ := ho
  obtain ⟨v', e1, h1⟩ := assign_ok ok h (List.mem_of_getElem? hk) (cat := .rvalue) (x := x) (Or.inl rfl)
  refine ⟨v', ⟨k, some (t, e.mv x)⟩, ?_, h1, ⟨k, hk, rfl⟩, rfl, ?_⟩
  · unfold Var.moveAssign
    simp only [ha, ok_bind, e1, pure_ok]
  · obtain ⟨k', hk', rfl⟩ := h1
    have h1 := indexOf_get ok hk
    have h2 := indexOf_get ok hk'
    simp only; omega

theorem moveOf_ok (ok : e.Ok) {o : Var α} {t : TypeId} {x : α} (ho : VOk e o (some (t, x))) :
    ∃ v' o', o.moveOf e = .ok (v', o') ∧ VOk e v' (some (t, x)) ∧ VOk e o' (some (t, e.mv x)) ∧ o'.idx = o.idx ∧
      v'.idx = o.idx := by
  have ha := apply_ok ok ho
  obtain ⟨k, hk, rfl⟩ := ho
  refine ⟨⟨k, some (t, x)⟩, ⟨k, some (t, e.mv x)⟩, ?_, ⟨k, hk, rfl⟩, ⟨k, hk, rfl⟩, rfl, rfl⟩
  unfold Var.moveOf
  simp only [ha, ok_bind, Var.construct, pure_ok]

theorem destroy_ok (ok : e.Ok) {v : Var α} {s : SVar α} (h : VOk e v s) : v.destroy e = .ok () := by
  unfold Var.destroy
  simp only [destruct_ok ok h, ok_bind]

theorem swap_ok (ok : e.Ok) {v o : Var α} {a b : TypeId × α} (h : VOk e v (some a)) (ho : VOk e o (some b)) :
    ∃ v' o', v.swap e o = .ok (v', o') ∧ VOk e v' (some b) ∧ VOk e o' (some a) := by
  obtain ⟨t, x⟩ := a
  obtain ⟨u, y⟩ := b
  by_cases hi : v.idx = o.idx
  · obtain ⟨k, hk, rfl⟩ := h
    obtain ⟨l, hl, rfl⟩ := ho
    simp only at hi
    subst hi
    rw [hk] at hl; injection hl with hl; subst hl
    refine ⟨⟨k, some (t, y)⟩, ⟨k, some (t, x)⟩, ?_, ⟨k, hk, rfl⟩, ⟨k, hk, rfl⟩⟩
    unfold Var.swap Var.applyAt Var.as
    simp only [if_true, hk, ok_bind, pure_ok]
  · obtain ⟨tmp, o1, e1, ht, ho1, _, _⟩ := moveOf_ok ok ho
    obtain ⟨o2, v1, e2, ho2, hv1, _, _⟩ := moveAssign_ok ok ho1 h
    obtain ⟨v2, tmp1, e3, hv2, ht1, _, _⟩ := moveAssign_ok ok hv1 ht
    refine ⟨v2, o2, ?_, hv2, ho2⟩
    unfold Var.swap
    simp only [hi, if_false, e1, ok_bind, e2, e3, destroy_ok ok ht1, pure_ok]

theorem modify_set' {β : Type _} {l : List β} {i : Nat} {x : β} (h : l[i]? = some x) (f : β → β) :
    l.modify i f = l.set i (f x) := by
  have hi := (List.getElem?_eq_some_iff.1 h).1
  apply List.ext_getElem?
  intro j
  by_cases hj : j = i
  · subst hj; rw [Paged.modify_get h, List.getElem?_set_self hi]
  · rw [Paged.modify_get_ne hj, List.getElem?_set_ne (fun h => hj h.symm)]

/-- All variants represent the abstract ones. -/
structure Rel (e : Env α) (vs : List (Var α)) (S : List (SVar α)) : Prop where
  len : vs.length = S.length
  each : ∀ (i : Nat) (v : Var α) (s : SVar α), vs[i]? = some v → S[i]? = some s → VOk e v s

theorem Rel.get {vs : List (Var α)} {S : List (SVar α)} (h : Rel e vs S) {i : Nat} {s : SVar α} (hi : S[i]? = some s) :
    ∃ v, vs[i]? = some v ∧ getVar vs i = .ok v ∧ VOk e v s := by
  have hl : i < vs.length := by rw [h.len]; exact (List.getElem?_eq_some_iff.1 hi).1
  have hv := List.getElem?_eq_getElem hl
  exact ⟨_, hv, by simp only [getVar, hv], h.each i _ s hv hi⟩

theorem Rel.push {vs : List (Var α)} {S : List (SVar α)} (h : Rel e vs S) {v : Var α} {s : SVar α} (hv : VOk e v s) :
    Rel e (vs ++ [v]) (S ++ [s]) where
  len := by simp [h.len]
  each i w u h1 h2 := by
    by_cases hi : i < vs.length
    · rw [List.getElem?_append_left hi] at h1
      rw [List.getElem?_append_left (by rw [← h.len]; exact hi)] at h2
      exact h.each i w u h1 h2
    · have hj : i = vs.length := by
        have := (List.getElem?_eq_some_iff.1 h1).1
        simp at this; omega
      subst hj
      have h1' : w = v := by simpa using h1.symm
      have h2' : u = s := by rw [h.len] at h2; simpa using h2.symm
      rw [h1', h2']; exact hv

theorem Rel.set {vs : List (Var α)} {S : List (SVar α)} (h : Rel e vs S) (i : Nat) {v : Var α} {s : SVar α} (hv : VOk e v s) :
    Rel e (vs.set i v) (S.set i s) where
  len := by simp [h.len]
  each j w u h1 h2 := by
    by_cases hij : i = j
    · subst hij
      have hi : i < vs.length := by simpa using (List.getElem?_eq_some_iff.1 h1).1
      rw [List.getElem?_set_self hi] at h1
      rw [List.getElem?_set_self (by rw [← h.len]; exact hi)] at h2
      injection h1 with h1; injection h2 with h2
      rw [← h1, ← h2]; exact hv
    · rw [List.getElem?_set_ne hij] at h1 h2
      exact h.each j w u h1 h2

theorem Rel.erase {vs : List (Var α)} {S : List (SVar α)} (h : Rel e vs S) (i : Nat) :
    Rel e (vs.eraseIdx i) (S.eraseIdx i) where
  len := by simp [List.length_eraseIdx, h.len]
  each j w u h1 h2 := by
    rw [List.getElem?_eraseIdx] at h1 h2
    split at h1
    · rw [if_pos (by assumption)] at h2; exact h.each _ _ _ h1 h2
    · rw [if_neg (by assumption)] at h2; exact h.each _ _ _ h1 h2

theorem exec_ok (ok : e.Ok) {vs : List (Var α)} {S : List (SVar α)} (h : Rel e vs S) {op : Op α} (hp : op.Pre e S) :
    ∃ vs', op.exec e vs = .ok vs' ∧ Rel e vs' (op.spec e S) := by
  cases op with
  | default => exact ⟨_, rfl, h.push rfl⟩
  | make t x =>
    obtain ⟨k, hk, hi, hlt⟩ := exists_indexOf ok hp
    exact ⟨_, rfl, h.push ⟨k, hk, by rw [hi]⟩⟩
  | copy j =>
    obtain ⟨⟨t, x⟩, hj⟩ := hp
    obtain ⟨o, ho, eo, hv⟩ := h.get hj
    have ha := apply_ok ok hv
    obtain ⟨k, hk, rfl⟩ := hv
    refine ⟨vs ++ [⟨k, some (t, x)⟩], ?_, ?_⟩
    · simp only [Op.exec, eo, ok_bind, Var.copyOf, ha, Var.construct, pure_ok]
    · simp only [Op.spec, hj, Option.join_some]
      exact h.push ⟨k, hk, rfl⟩
  | move j =>
    obtain ⟨⟨t, x⟩, hj⟩ := hp
    obtain ⟨o, ho, eo, hv⟩ := h.get hj
    obtain ⟨v', o', e1, h1, h2, _, _⟩ := moveOf_ok ok hv
    refine ⟨vs.set j o' ++ [v'], ?_, ?_⟩
    · simp only [Op.exec, eo, ok_bind, e1, pure_ok]
    · simp only [Op.spec, hj, Option.join_some, modify_set' hj, Option.map_some]
      exact (h.set j h2).push h1
  | assign i cat t x =>
    obtain ⟨ht, s, hi, hc⟩ := hp
    obtain ⟨v, hv, ev, hV⟩ := h.get hi
    obtain ⟨v', e1, h1⟩ := assign_ok ok hV ht (x := x) hc
    exact ⟨vs.set i v', by simp only [Op.exec, ev, ok_bind, e1, pure_ok], h.set i h1⟩
  | copyAssign i j =>
    obtain ⟨s, t, x, hi, hj, hc⟩ := hp
    obtain ⟨v, hv, ev, hV⟩ := h.get hi
    obtain ⟨o, ho, eo, hO⟩ := h.get hj
    have ha := apply_ok ok hO
    have ht : t ∈ e.tys := by obtain ⟨k, hk, _⟩ := hO; exact List.mem_of_getElem? hk
    simp only [Op.spec, hj, Option.join_some]
    by_cases hsame : ∀ y, s ≠ some (t, y)
    · obtain ⟨v', e1, h1⟩ := assign_ok ok hV ht (cat := .lvalue) (x := x) (Or.inr hsame)
      exact ⟨vs.set i v', by simp only [Op.exec, ev, eo, ok_bind, Var.copyAssign, ha, e1, pure_ok], h.set i h1⟩
    · have hij : i = j := hc.resolve_right hsame
      subst hij
      rw [hv] at ho; injection ho with ho; subst ho
      refine ⟨vs.set i v, ?_, h.set i hO⟩
      have hidx : e.indexOf t = v.idx := by
        obtain ⟨k, hk, rfl⟩ := hO; exact indexOf_get ok hk
      simp only [Op.exec, ev, ok_bind, Var.copyAssign, ha, Var.assign, hidx, if_true]
      rfl
  | moveAssign i j =>
    obtain ⟨hij, s, ⟨t, x⟩, hi, hj⟩ := hp
    obtain ⟨v, hv, ev, hV⟩ := h.get hi
    obtain ⟨o, ho, eo, hO⟩ := h.get hj
    obtain ⟨v', o', e1, h1, h2, _, _⟩ := moveAssign_ok ok hV hO
    refine ⟨(vs.set j o').set i v', by simp only [Op.exec, ev, eo, ok_bind, e1, pure_ok], ?_⟩
    simp only [Op.spec, hj, Option.join_some, modify_set' hj, Option.map_some]
    exact (h.set j h2).set i h1
  | emplace i t x =>
    obtain ⟨ht, hi⟩ := hp
    obtain ⟨v, hv, ev, hV⟩ := h.get (List.getElem?_eq_getElem hi)
    obtain ⟨k, hk, hik, hlt⟩ := exists_indexOf ok ht
    refine ⟨vs.set i ⟨k, some (t, x)⟩, ?_, h.set i ⟨k, hk, rfl⟩⟩
    simp only [Op.exec, ev, ok_bind, Var.emplace, destruct_ok ok hV, hik, Var.construct, pure_ok]
  | emplaceIdx i k x =>
    obtain ⟨hk, hi⟩ := hp
    obtain ⟨v, hv, ev, hV⟩ := h.get (List.getElem?_eq_getElem hi)
    have hk' : e.tys[k]? = some e.tys[k] := List.getElem?_eq_getElem hk
    refine ⟨vs.set i ⟨k, some (e.tys[k], x)⟩, ?_, ?_⟩
    · simp only [Op.exec, ev, ok_bind, Var.emplaceIdx, hk', destruct_ok ok hV, Var.construct, pure_ok]
    · simp only [Op.spec, hk', Option.map_some]
      exact h.set i ⟨k, hk', rfl⟩
  | swap i j =>
    obtain ⟨hij, a, b, hi, hj⟩ := hp
    obtain ⟨v, hv, ev, hV⟩ := h.get hi
    obtain ⟨o, ho, eo, hO⟩ := h.get hj
    obtain ⟨v', o', e1, h1, h2⟩ := swap_ok ok hV hO
    refine ⟨(vs.set j o').set i v', by simp only [Op.exec, ev, eo, ok_bind, e1, pure_ok], ?_⟩
    simp only [Op.spec, hi, hj, Option.join_some]
    exact (h.set j h2).set i h1
  | destroy i =>
    obtain ⟨v, hv, ev, hV⟩ := h.get (List.getElem?_eq_getElem hp)
    exact ⟨vs.eraseIdx i, by simp only [Op.exec, ev, ok_bind, destroy_ok ok hV, pure_ok], h.erase i⟩

theorem run_ok (ok : e.Ok) : ∀ (ops : List (Op α)) {vs : List (Var α)} {S : List (SVar α)}, Rel e vs S → Allowed e S ops →
    ∃ vs', run e vs ops = .ok vs' ∧ Rel e vs' (specRun e S ops)
  | [], vs, S, h, _ => ⟨vs, rfl, h⟩
  | op :: ops, vs, S, h, ha => by
    obtain ⟨v1, e1, h1⟩ := exec_ok ok h ha.1
    obtain ⟨v2, e2, h2⟩ := run_ok ok ops h1 ha.2
    exact ⟨v2, by simp only [run, e1, ok_bind, e2], h2⟩

/-- What is observable of a variant. -/
structure Shows (e : Env α) (v : Var α) (s : SVar α) : Prop where
  valid : v.valid e = s.isSome
  index : ∀ t x, s = some (t, x) → e.tys[v.idx]? = some t
  holds : ∀ t ∈ e.tys, v.holds e t = true ↔ ∃ x, s = some (t, x)
  get : ∀ t x, s = some (t, x) → v.as t = .ok x
  getIf : ∀ t x, s = some (t, x) → v.getIf e t = .ok (some x)
  getIfNot : ∀ t ∈ e.tys, (∀ x, s ≠ some (t, x)) → v.getIf e t = .ok none
  apply : ∀ t x, s = some (t, x) → v.apply e = .ok (t, x)
  applyEmpty : s = none → v.apply e = .error .exn

theorem VOk.shows (ok : e.Ok) {v : Var α} {s : SVar α} (h : VOk e v s) : Shows e v s := by
  cases s with
  | none =>
    have hne : ∀ t ∈ e.tys, e.no ≠ e.indexOf t := fun t ht => by
      obtain ⟨k, _, h1, h2⟩ := exists_indexOf ok ht; omega
    have hv : v = ⟨e.no, none⟩ := h
    refine ⟨by rw [hv]; simp [Var.valid], by simp, ?_, by simp, by simp, ?_, by simp, fun _ => apply_none h⟩
    · intro t ht; rw [hv]; simp [Var.holds, hne t ht]
    · intro t ht _; rw [hv]; simp [Var.getIf, hne t ht]
  | some a =>
    obtain ⟨t, x⟩ := a
    have ha := apply_ok ok h
    obtain ⟨k, hk, rfl⟩ := h
    have hik := indexOf_get ok hk
    have hother : ∀ t' ∈ e.tys, k = e.indexOf t' → t' = t := fun t' ht' hh => by
      obtain ⟨l, hl, h1, _⟩ := exists_indexOf ok ht'
      rw [hh, h1, hl] at hk; injection hk
    refine ⟨by simp [Var.valid, ne_no ok hk], ?_, ?_, ?_, ?_, ?_, ?_, by simp⟩
    · intro t' x' hh; injection hh with hh; injection hh with h1 h2; subst h1; exact hk
    · intro t' ht'
      simp only [Var.holds, beq_iff_eq]
      constructor
      · intro hh; have := hother t' ht' hh; subst this; exact ⟨x, rfl⟩
      · rintro ⟨y, hy⟩; injection hy with hy; injection hy with h1 _; subst h1; exact hik.symm
    · intro t' x' hh; injection hh with hh; injection hh with h1 h2; subst h1; subst h2; simp [Var.as]
    · intro t' x' hh; injection hh with hh; injection hh with h1 h2; subst h1; subst h2
      simp only [Var.getIf, hik, if_true, Var.as, ok_bind, pure_ok]
    · intro t' ht' hne
      have : ¬ k = e.indexOf t' := fun hh => by
        have := hother t' ht' hh; subst this; exact hne x rfl
      simp only [Var.getIf, this, if_false]
    · intro t' x' hh; injection hh with hh; rw [← hh]; exact ha

/-- **C26**: the value that stands for "nothing held" is the greatest value of the index type and no index of an
alternative, however many alternatives (fewer than 2^16) there are. -/
theorem C26_no_value (n : Nat) (h : n < 2 ^ 16) :
    noValue n = 2 ^ (8 * indexBytes n) - 1 ∧ n ≤ noValue n := by
  unfold noValue indexBytes
  split <;> omega

example : noValue 255 = 255 ∧ indexBytes 255 = 1 ∧ noValue 256 = 65535 ∧ indexBytes 256 = 2 := by decide

/-- **C26**: in every history of constructions, copies, moves, assignments, `emplace`, `swap` and destructions of any
number of variants, every variant holds what was last put into it, as seen by `index`, `valid`, `holds_alternative`,
`get`, `get_if` and `apply`; no object is leaked, destroyed twice or read with the wrong type.  Partial: assigning an
lvalue, a const rvalue or (by copy) another variant is excluded when the target already holds that alternative. -/
theorem C26_history_partial (ok : e.Ok) (ops : List (Op α)) (ha : Allowed e [] ops) :
    ∃ vs, run e [] ops = .ok vs ∧ vs.length = (specRun e [] ops).length ∧
      ∀ (i : Nat) (v : Var α) (s : SVar α), vs[i]? = some v → (specRun e [] ops)[i]? = some s → Shows e v s := by
  obtain ⟨vs, e1, h⟩ := run_ok ok ops (vs := []) (S := []) ⟨rfl, by simp⟩ ha
  exact ⟨vs, e1, h.len, fun i v s h1 h2 => (h.each i v s h1 h2).shows ok⟩

/-- Three alternatives, moved-from values are 0. -/
def env3 : Env Nat := ⟨[10, 20, 30], fun _ => 0⟩

theorem env3_ok : env3.Ok := ⟨by decide, by decide⟩

def sampleOps : List (Op Nat) :=
  [.default, .make 20 5, .assign 0 .lvalue 10 7, .assign 0 .rvalue 10 8, .move 1, .swap 0 2, .copyAssign 1 2,
   .moveAssign 2 0, .emplaceIdx 0 2 4, .copy 0, .destroy 1]

example : Allowed env3 [] sampleOps := by
  simp [sampleOps, Allowed, Op.Pre, Op.spec, env3, List.modify, List.modifyTailIdx, List.modifyTailIdx.go]

example : run env3 [] sampleOps = .ok [⟨2, some (30, 4)⟩, ⟨1, some (20, 5)⟩, ⟨2, some (30, 4)⟩] := by decide +kernel

/-- **C26** violated: assigning an lvalue (or a const rvalue) of the type already held changes nothing. -/
theorem C26_lvalue_assign_violated (ok : e.Ok) (v : Var α) (t : TypeId) (old new : α) (cat : Cat) (hc : cat ≠ .rvalue)
    (h : VOk e v (some (t, old))) : v.assign e cat t new = .ok v := by
  have ha := apply_ok ok h
  have hidx : e.indexOf t = v.idx := by obtain ⟨k, hk, rfl⟩ := h; exact indexOf_get ok hk
  simp only [Var.assign, hidx, if_true, ha, ok_bind, hc, and_false, if_false, pure_ok]

/-- **C26** violated: `a = b` for two variants holding the same alternative leaves `a` as it was. -/
theorem C26_copy_assign_violated (ok : e.Ok) (a b : Var α) (t : TypeId) (x y : α) (ha : VOk e a (some (t, x)))
    (hb : VOk e b (some (t, y))) : ∃ a', a.copyAssign e b = .ok a' ∧ a'.as t = .ok x := by
  refine ⟨a, ?_, (ha.shows ok).get t x rfl⟩
  simp only [Var.copyAssign, apply_ok ok hb, ok_bind]
  exact C26_lvalue_assign_violated ok a t x y .lvalue (by decide) ha

example : VOk env3 ⟨0, some (10, 1)⟩ (some (10, 1)) ∧ VOk env3 ⟨0, some (10, 2)⟩ (some (10, 2)) :=
  ⟨⟨0, rfl, rfl⟩, ⟨0, rfl, rfl⟩⟩

/-- **C26** violated: an empty variant cannot be copied, moved or assigned from; all of these throw. -/
theorem C26_empty_source_violated (v o : Var α) (ho : VOk e o none) :
    o.copyOf e = .error .exn ∧ o.moveOf e = .error .exn ∧ v.copyAssign e o = .error .exn ∧
      v.moveAssign e o = .error .exn := by
  have ha := apply_none ho
  refine ⟨?_, ?_, ?_, ?_⟩
  · simp only [Var.copyOf, ha, error_bind]
  · simp only [Var.moveOf, ha, error_bind]
  · simp only [Var.copyAssign, ha, error_bind]
  · simp only [Var.moveAssign, ha, error_bind]

example : VOk env3 (Var.default env3) none := rfl

/-! ## Comparison -/

/-- Comparison of two values of the same type. -/
structure Cmp (α : Type) where
  eq : TypeId → α → α → Bool
  ne : TypeId → α → α → Bool
  lt : TypeId → α → α → Bool
  gt : TypeId → α → α → Bool
  le : TypeId → α → α → Bool
  ge : TypeId → α → α → Bool

/-- The common shape of variant.h:133-173. -/
def compare (e : Env α) (f : TypeId → α → α → Bool) (g : Bool) (a b : Var α) : Res Bool :=
  if a.idx = b.idx then do
    let (t, x) ← a.applyAt e a.idx
    let (_, y) ← b.applyAt e a.idx
    return f t x y
  else .ok g

/-- variant.h:133-138 -/
def Var.eq (e : Env α) (c : Cmp α) (a b : Var α) : Res Bool := compare e c.eq false a b
/-- variant.h:140-145 -/
def Var.ne (e : Env α) (c : Cmp α) (a b : Var α) : Res Bool := compare e c.ne true a b
/-- variant.h:147-152 -/
def Var.lt (e : Env α) (c : Cmp α) (a b : Var α) : Res Bool := compare e c.lt (a.idx < b.idx) a b
/-- variant.h:154-159 -/
def Var.gt (e : Env α) (c : Cmp α) (a b : Var α) : Res Bool := compare e c.gt (a.idx > b.idx) a b
/-- variant.h:161-166 -/
def Var.le (e : Env α) (c : Cmp α) (a b : Var α) : Res Bool := compare e c.le (a.idx ≤ b.idx) a b
/-- variant.h:168-173 -/
def Var.ge (e : Env α) (c : Cmp α) (a b : Var α) : Res Bool := compare e c.ge (a.idx ≥ b.idx) a b

/-- `k` is the position of the alternative; an empty variant comes after all alternatives. -/
def Rank (e : Env α) (s : SVar α) (k : Nat) : Prop :=
  match s with
  | none => k = e.no
  | some (t, _) => e.tys[k]? = some t

theorem VOk.rank (ok : e.Ok) {v : Var α} {s : SVar α} (h : VOk e v s) {k : Nat} (hr : Rank e s k) : v.idx = k := by
  cases s with
  | none => rw [show v = _ from h, show k = _ from hr]
  | some a =>
    obtain ⟨t, x⟩ := a
    obtain ⟨l, hl, rfl⟩ := h
    have h1 := indexOf_get ok hl
    have h2 := indexOf_get ok (show e.tys[k]? = some t from hr)
    simp only; omega

theorem compare_ne {f : TypeId → α → α → Bool} {g : Bool} {a b : Var α} (h : a.idx ≠ b.idx) :
    compare e f g a b = .ok g := by simp [compare, h]

theorem compare_same (ok : e.Ok) {f : TypeId → α → α → Bool} {g : Bool} {a b : Var α} {t : TypeId} {x y : α}
    (ha : VOk e a (some (t, x))) (hb : VOk e b (some (t, y))) : compare e f g a b = .ok (f t x y) := by
  obtain ⟨k, hk, rfl⟩ := ha
  obtain ⟨l, hl, rfl⟩ := hb
  have : k = l := by rw [← indexOf_get ok hk, indexOf_get ok hl]
  subst this
  simp only [compare, if_true, Var.applyAt, hk, Var.as, ok_bind, pure_ok]

/-- **C27**: two variants holding the same alternative compare like their values. -/
theorem C27_same_alternative (ok : e.Ok) (c : Cmp α) (a b : Var α) (t : TypeId) (x y : α) (ha : VOk e a (some (t, x)))
    (hb : VOk e b (some (t, y))) :
    a.eq e c b = .ok (c.eq t x y) ∧ a.ne e c b = .ok (c.ne t x y) ∧ a.lt e c b = .ok (c.lt t x y) ∧
      a.gt e c b = .ok (c.gt t x y) ∧ a.le e c b = .ok (c.le t x y) ∧ a.ge e c b = .ok (c.ge t x y) :=
  ⟨compare_same ok ha hb, compare_same ok ha hb, compare_same ok ha hb, compare_same ok ha hb, compare_same ok ha hb,
    compare_same ok ha hb⟩

/-- **C27**: variants with different alternatives compare by the position of the alternative, an empty variant is
after all others. -/
theorem C27_different_alternative (ok : e.Ok) (c : Cmp α) (a b : Var α) (s u : SVar α) (ha : VOk e a s) (hb : VOk e b u)
    (k l : Nat) (hk : Rank e s k) (hl : Rank e u l) (hkl : k ≠ l) :
    a.eq e c b = .ok false ∧ a.ne e c b = .ok true ∧ a.lt e c b = .ok (k < l) ∧
      a.gt e c b = .ok (l < k) ∧ a.le e c b = .ok (k < l) ∧ a.ge e c b = .ok (l < k) := by
  have h1 := ha.rank ok hk
  have h2 := hb.rank ok hl
  have h3 : a.idx ≠ b.idx := by omega
  refine ⟨compare_ne h3, compare_ne h3, ?_, ?_, ?_, ?_⟩
  · rw [Var.lt, compare_ne h3, h1, h2]
  · rw [Var.gt, compare_ne h3, h1, h2]
  · rw [Var.le, compare_ne h3, h1, h2]; congr 1; simp only [decide_eq_decide]; omega
  · rw [Var.ge, compare_ne h3, h1, h2]; congr 1; simp only [decide_eq_decide]; omega

/-- Element comparison is a strict total order with consistent operators. -/
structure Cmp.Total (c : Cmp α) : Prop where
  eq_iff : ∀ t x y, c.eq t x y = true ↔ x = y
  ne_iff : ∀ t x y, c.ne t x y = !c.eq t x y
  gt_iff : ∀ t x y, c.gt t x y = c.lt t y x
  le_iff : ∀ t x y, c.le t x y = !c.lt t y x
  ge_iff : ∀ t x y, c.ge t x y = !c.lt t x y
  irrefl : ∀ t x, c.lt t x x = false
  trans : ∀ t x y z, c.lt t x y = true → c.lt t y z = true → c.lt t x z = true
  tri : ∀ t x y, c.lt t x y = true ∨ x = y ∨ c.lt t y x = true

theorem exists_rank {v : Var α} {s : SVar α} (h : VOk e v s) : ∃ k, Rank e s k := by
  cases s with
  | none => exact ⟨_, rfl⟩
  | some a => obtain ⟨k, hk, _⟩ := h; exact ⟨k, hk⟩

theorem same_rank (ok : e.Ok) {s u : SVar α} {k : Nat} (h1 : Rank e s k) (h2 : Rank e u k) :
    (s = none ∧ u = none) ∨ ∃ t x y, s = some (t, x) ∧ u = some (t, y) := by
  cases s with
  | none =>
    cases u with
    | none => exact Or.inl ⟨rfl, rfl⟩
    | some b => exact absurd (show k = e.no from h1) (ne_no ok (show e.tys[k]? = some b.1 from h2))
  | some a =>
    cases u with
    | none => exact absurd (show k = e.no from h2) (ne_no ok (show e.tys[k]? = some a.1 from h1))
    | some b =>
      obtain ⟨t, x⟩ := a
      obtain ⟨u, y⟩ := b
      have h3 : e.tys[k]? = some t := h1
      have h4 : e.tys[k]? = some u := h2
      rw [h3] at h4; injection h4 with h4; subst h4
      exact Or.inr ⟨t, x, y, rfl, rfl⟩

/-- **C27**: over totally ordered alternatives, exactly one of `a < b`, `a == b`, `b < a` holds, `==` is equality of
alternative and value, and the other operators agree.  Partial: not for two empty variants. -/
theorem C27_total_partial (ok : e.Ok) (c : Cmp α) (hc : c.Total) (a b : Var α) (s u : SVar α) (ha : VOk e a s)
    (hb : VOk e b u) (hv : s ≠ none ∨ u ≠ none) :
    ∃ lt eq gt : Bool, a.lt e c b = .ok lt ∧ a.eq e c b = .ok eq ∧ a.gt e c b = .ok gt ∧ a.ne e c b = .ok (!eq) ∧
      a.le e c b = .ok (!gt) ∧ a.ge e c b = .ok (!lt) ∧ b.lt e c a = .ok gt ∧ b.gt e c a = .ok lt ∧
      (eq = true ↔ s = u) ∧ (lt, eq, gt) ∈ [(true, false, false), (false, true, false), (false, false, true)] := by
  obtain ⟨k, hk⟩ := exists_rank ha
  obtain ⟨l, hl⟩ := exists_rank hb
  by_cases hkl : k = l
  · subst hkl
    rcases same_rank ok hk hl with ⟨rfl, rfl⟩ | ⟨t, x, y, rfl, rfl⟩
    · simp at hv
    · obtain ⟨h1, h2, h3, h4, h5, h6⟩ := C27_same_alternative ok c a b t x y ha hb
      obtain ⟨_, _, h3', h4', _, _⟩ := C27_same_alternative ok c b a t y x hb ha
      refine ⟨c.lt t x y, c.eq t x y, c.lt t y x, h3, h1, by rw [h4, hc.gt_iff], by rw [h2, hc.ne_iff],
        by rw [h5, hc.le_iff], by rw [h6, hc.ge_iff], h3', by rw [h4', hc.gt_iff], ?_, ?_⟩
      · rw [hc.eq_iff]; simp
      · have hirr := hc.irrefl t
        rcases hc.tri t x y with h | h | h
        · have h7 : c.eq t x y = false := by
            rw [Bool.eq_false_iff]; intro hh; rw [hc.eq_iff] at hh; subst hh; rw [hirr] at h; cases h
          have h8 : c.lt t y x = false := by
            rw [Bool.eq_false_iff]; intro hh; have := hc.trans t x y x h hh; rw [hirr] at this; cases this
          simp [h, h7, h8]
        · subst h
          simp [hirr, (hc.eq_iff t x x).2 rfl]
        · have h7 : c.eq t x y = false := by
            rw [Bool.eq_false_iff]; intro hh; rw [hc.eq_iff] at hh; subst hh; rw [hirr] at h; cases h
          have h8 : c.lt t x y = false := by
            rw [Bool.eq_false_iff]; intro hh; have := hc.trans t x y x hh h; rw [hirr] at this; cases this
          simp [h, h7, h8]
  · obtain ⟨h1, h2, h3, h4, h5, h6⟩ := C27_different_alternative ok c a b s u ha hb k l hk hl hkl
    obtain ⟨_, _, h3', h4', _, _⟩ := C27_different_alternative ok c b a u s hb ha l k hl hk (Ne.symm hkl)
    have hgt : decide (l < k) = !decide (k < l) := by
      by_cases h : k < l
      · simp [h]; omega
      · simp [h]; omega
    refine ⟨k < l, false, l < k, h3, h1, h4, h2, by rw [h5, hgt, Bool.not_not], by rw [h6, hgt], h3', h4', ?_, ?_⟩
    · simp only [Bool.false_eq_true, false_iff]
      rintro rfl
      exact hkl (by rw [← ha.rank ok hk]; exact ha.rank ok hl)
    · rw [hgt]; by_cases h : k < l <;> simp [h]

/-- **C27**: `<` is transitive over totally ordered alternatives, including empty variants where it is defined. -/
theorem C27_transitive (ok : e.Ok) (c : Cmp α) (hc : c.Total) (v1 v2 v3 : Var α) (s1 s2 s3 : SVar α) (h1 : VOk e v1 s1)
    (h2 : VOk e v2 s2) (h3 : VOk e v3 s3) (h12 : v1.lt e c v2 = .ok true) (h23 : v2.lt e c v3 = .ok true) :
    v1.lt e c v3 = .ok true := by
  obtain ⟨k, hk⟩ := exists_rank h1
  obtain ⟨l, hl⟩ := exists_rank h2
  obtain ⟨m, hm⟩ := exists_rank h3
  have key : ∀ {a b : Var α} {s u : SVar α} {k l : Nat}, VOk e a s → VOk e b u → Rank e s k → Rank e u l →
      a.lt e c b = .ok true → k < l ∨ (k = l ∧ ∃ t x y, s = some (t, x) ∧ u = some (t, y) ∧ c.lt t x y = true) := by
    intro a b s u k l ha hb hk hl h
    by_cases hkl : k = l
    · subst hkl
      rcases same_rank ok hk hl with ⟨rfl, rfl⟩ | ⟨t, x, y, rfl, rfl⟩
      · have e1 : a = ⟨e.no, none⟩ := ha
        have e2 : b = ⟨e.no, none⟩ := hb
        have hn : e.tys[e.no]? = none := by rw [List.getElem?_eq_none]; have := ok.le_no; omega
        rw [e1, e2] at h
        simp only [Var.lt, compare, if_true, Var.applyAt, hn, error_bind] at h
        cases h
      · rw [(C27_same_alternative ok c a b t x y ha hb).2.2.1] at h
        injection h with h
        exact Or.inr ⟨rfl, t, x, y, rfl, rfl, h⟩
    · rw [(C27_different_alternative ok c a b s u ha hb k l hk hl hkl).2.2.1] at h
      injection h with h
      exact Or.inl (by simpa using h)
  have a1 := key h1 h2 hk hl h12
  have a2 := key h2 h3 hl hm h23
  by_cases hkm : k = m
  · subst hkm
    rcases a1 with a1 | ⟨rfl, t, x, y, rfl, rfl, hxy⟩
    · rcases a2 with a2 | ⟨rfl, _⟩ <;> omega
    · rcases a2 with a2 | ⟨_, t', y', z, e1, rfl, hyz⟩
      · omega
      · injection e1 with e1; injection e1 with e2 e3; subst e2; subst e3
        rw [(C27_same_alternative ok c v1 v3 t x z h1 h3).2.2.1, hc.trans t x y z hxy hyz]
  · rw [(C27_different_alternative ok c v1 v3 s1 s3 h1 h3 k m hk hm hkm).2.2.1]
    have : k < m := by rcases a1 with a1 | ⟨rfl, _⟩ <;> rcases a2 with a2 | ⟨rfl, _⟩ <;> omega
    simp [this]

/-- **C27** violated: comparing two empty variants is undefined behaviour, for every operator. -/
theorem C27_empty_violated (ok : e.Ok) (c : Cmp α) (a b : Var α) (ha : VOk e a none) (hb : VOk e b none) :
    a.eq e c b = .error .ub ∧ a.ne e c b = .error .ub ∧ a.lt e c b = .error .ub ∧ a.gt e c b = .error .ub ∧
      a.le e c b = .error .ub ∧ a.ge e c b = .error .ub := by
  have e1 : a = ⟨e.no, none⟩ := ha
  have e2 : b = ⟨e.no, none⟩ := hb
  have hn : e.tys[e.no]? = none := by rw [List.getElem?_eq_none]; have := ok.le_no; omega
  subst e1; subst e2
  refine ⟨?_, ?_, ?_, ?_, ?_, ?_⟩ <;>
    simp only [Var.eq, Var.ne, Var.lt, Var.gt, Var.le, Var.ge, compare, if_true, Var.applyAt, hn, error_bind]

/-- The usual comparison of numbers. -/
def natCmp : Cmp Nat := ⟨fun _ x y => x == y, fun _ x y => x != y, fun _ x y => x < y, fun _ x y => x > y,
  fun _ x y => x ≤ y, fun _ x y => x ≥ y⟩

theorem natCmp_total : natCmp.Total where
  eq_iff := by simp [natCmp]
  ne_iff := by simp [natCmp, bne]
  gt_iff := by simp [natCmp]
  le_iff t x y := by
    simp only [natCmp]
    by_cases h : y < x
    · simp [h]
    · simp [h]; omega
  ge_iff t x y := by
    simp only [natCmp]
    by_cases h : x < y
    · simp [h]
    · simp [h]; omega
  irrefl := by simp [natCmp]
  trans := by simp only [natCmp, decide_eq_true_eq]; omega
  tri := by simp only [natCmp, decide_eq_true_eq]; omega

example : (⟨0, some (10, 7)⟩ : Var Nat).lt env3 natCmp ⟨1, some (20, 3)⟩ = .ok true ∧
    (⟨1, some (20, 3)⟩ : Var Nat).lt env3 natCmp ⟨1, some (20, 4)⟩ = .ok true ∧
    (⟨1, some (20, 3)⟩ : Var Nat).lt env3 natCmp (Var.default env3) = .ok true := by decide +kernel

end Cista.Variant
