import Verif.Sum.Variant

/-!
# unique_ptr

Model of `cista::basic_unique_ptr` (include/cista/containers/unique_ptr.h).  Objects are numbered; an object is
either made with `new`, or external (it lives inside a deserialized buffer).  `delete` of a dead or external object is
undefined behaviour.
-/
set_option linter.unusedSimpArgs false

namespace Cista.UPtr

open Variant (getVar)

structure Obj where
  alive : Bool
  external : Bool
deriving DecidableEq, Repr

/-- unique_ptr.h:76-77 `el_`, `self_allocated_`. -/
structure Ptr where
  el : Option Nat
  self : Bool
deriving DecidableEq, Repr

/-- Default constructed, or from `nullptr` (unique_ptr.h:16, 39, 76-77). -/
def Ptr.null : Ptr := ⟨none, false⟩

abbrev Heap := List Obj

/-- `delete el_`. -/
def delete (h : Heap) (o : Nat) : Res Heap :=
  match h[o]? with
  | some ⟨true, false⟩ => .ok (h.set o ⟨false, false⟩)
  | _ => .error .ub

/-- unique_ptr.h:47-53 `reset`. -/
def Ptr.reset (h : Heap) (p : Ptr) : Res (Ptr × Heap) :=
  match p.self, p.el with
  | true, some o => do
    let h ← delete h o
    return (Ptr.null, h)
  | _, _ => .ok (p, h)

/-- Pointers and objects. -/
structure State where
  heap : Heap
  ptrs : List Ptr
deriving DecidableEq, Repr

inductive Op where
  /-- unique_ptr.h:18-19, 90-91: `make_unique<T>()`, or adopting a `new` object -/
  | make
  /-- a pointer deserialized from a buffer together with its pointee -/
  | external
  /-- unique_ptr.h:18-19 with `take_ownership = false` -/
  | borrow (o : Nat)
  /-- unique_ptr.h:16, 39 -/
  | null
  /-- unique_ptr.h:24-28 -/
  | move (j : Nat)
  /-- unique_ptr.h:30-37, `i = j` is self-assignment -/
  | moveAssign (i j : Nat)
  /-- unique_ptr.h:47-53 -/
  | reset (i : Nat)
  /-- unique_ptr.h:40-43 -/
  | assignNull (i : Nat)
  /-- unique_ptr.h:45 -/
  | destroy (i : Nat)

def Op.exec (s : State) : Op → Res State
  | .make => .ok ⟨s.heap ++ [⟨true, false⟩], s.ptrs ++ [⟨some s.heap.length, true⟩]⟩
  | .external => .ok ⟨s.heap ++ [⟨true, true⟩], s.ptrs ++ [⟨some s.heap.length, false⟩]⟩
  | .borrow o => .ok ⟨s.heap, s.ptrs ++ [⟨some o, false⟩]⟩
  | .null => .ok ⟨s.heap, s.ptrs ++ [Ptr.null]⟩
  | .move j => do
    let o ← getVar s.ptrs j
    return ⟨s.heap, s.ptrs.set j Ptr.null ++ [o]⟩
  | .moveAssign i j => do
    let p ← getVar s.ptrs i
    let (p, h) ← p.reset s.heap
    let ps := s.ptrs.set i p
    let o ← getVar ps j
    return ⟨h, (ps.set i o).set j Ptr.null⟩
  | .reset i => do
    let p ← getVar s.ptrs i
    let (p, h) ← p.reset s.heap
    return ⟨h, s.ptrs.set i p⟩
  | .assignNull i => do
    let p ← getVar s.ptrs i
    let (p, h) ← p.reset s.heap
    return ⟨h, s.ptrs.set i p⟩
  | .destroy i => do
    let p ← getVar s.ptrs i
    let (_, h) ← p.reset s.heap
    return ⟨h, s.ptrs.eraseIdx i⟩

def run : State → List Op → Res State
  | s, [] => .ok s
  | s, op :: ops => do
    let s ← op.exec s
    run s ops

/-! ## Specification -/

/-- What a pointer refers to. -/
inductive SPtr where
  | null
  | owns (o : Nat)
  | borrows (o : Nat)
deriving DecidableEq, Repr

/-- Pointers, and for every object created so far whether it is external. -/
structure SState where
  ext : List Bool
  ptrs : List SPtr

def Op.spec (s : SState) : Op → SState
  | .make => ⟨s.ext ++ [false], s.ptrs ++ [.owns s.ext.length]⟩
  | .external => ⟨s.ext ++ [true], s.ptrs ++ [.borrows s.ext.length]⟩
  | .borrow o => ⟨s.ext, s.ptrs ++ [.borrows o]⟩
  | .null => ⟨s.ext, s.ptrs ++ [.null]⟩
  | .move j => ⟨s.ext, s.ptrs.set j .null ++ [s.ptrs.getD j .null]⟩
  | .moveAssign i j => ⟨s.ext, (s.ptrs.set i (s.ptrs.getD j .null)).set j .null⟩
  | .reset i => ⟨s.ext, s.ptrs.set i .null⟩
  | .assignNull i => ⟨s.ext, s.ptrs.set i .null⟩
  | .destroy i => ⟨s.ext, s.ptrs.eraseIdx i⟩

/-- Caller obligations: the pointers exist; `reset` of a non-owning pointer is excluded (see below). -/
def Op.Pre (s : SState) : Op → Prop
  | .make => True
  | .external => True
  | .borrow o => o < s.ext.length
  | .null => True
  | .move j => j < s.ptrs.length
  | .moveAssign i j => i < s.ptrs.length ∧ j < s.ptrs.length
  | .reset i => i < s.ptrs.length ∧ ∀ o, s.ptrs[i]? ≠ some (.borrows o)
  | .assignNull i => i < s.ptrs.length ∧ ∀ o, s.ptrs[i]? ≠ some (.borrows o)
  | .destroy i => i < s.ptrs.length

def specRun : SState → List Op → SState
  | s, [] => s
  | s, op :: ops => specRun (op.spec s) ops

def Allowed : SState → List Op → Prop
  | _, [] => True
  | s, op :: ops => op.Pre s ∧ Allowed (op.spec s) ops

/-- The stored pointer for an abstract one. -/
def SPtr.rep : SPtr → Ptr
  | .null => ⟨none, false⟩
  | .owns o => ⟨some o, true⟩
  | .borrows o => ⟨some o, false⟩

/-- `get()` of a pointer. -/
def SPtr.target : SPtr → Option Nat
  | .null => none
  | .owns o => some o
  | .borrows o => some o

/-- Every object made with `new` is alive exactly as long as some pointer owns it, external objects always are, and
no object has two owners. -/
structure Rel (st : State) (s : SState) : Prop where
  ptrs : st.ptrs = s.ptrs.map SPtr.rep
  heap : st.heap.map Obj.external = s.ext
  alive : ∀ (o : Nat) (x : Obj), st.heap[o]? = some x → (x.alive = true ↔ x.external = true ∨ SPtr.owns o ∈ s.ptrs)
  owned : ∀ o, SPtr.owns o ∈ s.ptrs → s.ext[o]? = some false
  once : ∀ o, s.ptrs.count (SPtr.owns o) ≤ 1

theorem Rel.getVar {st : State} {s : SState} (h : Rel st s) {i : Nat} {p : SPtr} (hi : s.ptrs[i]? = some p) :
    getVar st.ptrs i = .ok p.rep := by
  have : st.ptrs[i]? = some p.rep := by rw [h.ptrs, List.getElem?_map, hi]; rfl
  simp only [Variant.getVar, this]

theorem Rel.heapLen {st : State} {s : SState} (h : Rel st s) : st.heap.length = s.ext.length := by
  rw [← h.heap]; simp

theorem count_set {l : List SPtr} {i : Nat} {p : SPtr} (hi : l[i]? = some p) (q r : SPtr) :
    (l.set i q).count r + (if p = r then 1 else 0) = l.count r + (if q = r then 1 else 0) := by
  have h1 := (Paged.getElem?_perm hi).count_eq r
  have h2 := (Paged.set_perm (List.getElem?_eq_some_iff.1 hi).1 q).count_eq r
  rw [List.count_cons] at h1 h2
  rw [h1, h2]
  by_cases ha : p = r <;> by_cases hb : q = r <;> simp [ha, hb] <;> omega

theorem count_mem {l : List SPtr} {r : SPtr} (h : r ∈ l) : 0 < l.count r := List.count_pos_iff.2 h

/-- `reset` of any pointer: the pointer is replaced by what `reset` leaves, and its object dies if owned. -/
theorem reset_ok {st : State} {s : SState} (h : Rel st s) {i : Nat} {p : SPtr} (hi : s.ptrs[i]? = some p) :
    ∃ q hp, p.rep.reset st.heap = .ok (SPtr.rep q, hp) ∧ (q = .null ∨ ∃ o, p = .borrows o ∧ q = p) ∧
      (∀ r, (∀ o, r ≠ SPtr.owns o) → Rel ⟨hp, st.ptrs.set i r.rep⟩ ⟨s.ext, s.ptrs.set i r⟩) := by
  have hil := (List.getElem?_eq_some_iff.1 hi).1
  have hptr : ∀ r : SPtr, st.ptrs.set i r.rep = (s.ptrs.set i r).map SPtr.rep := fun r => by
    rw [h.ptrs, List.map_set]
  have hcnt : ∀ r : SPtr, (∀ o, r ≠ SPtr.owns o) → ∀ o, (s.ptrs.set i r).count (SPtr.owns o) ≤ s.ptrs.count (SPtr.owns o) := by
    intro r hr o
    have := count_set hi r (SPtr.owns o)
    rw [if_neg (hr o)] at this; omega
  have hmem : ∀ r : SPtr, (∀ o, r ≠ SPtr.owns o) → ∀ o, SPtr.owns o ∈ s.ptrs.set i r → SPtr.owns o ∈ s.ptrs := by
    intro r hr o hm
    have h1 := count_mem hm
    have h2 := hcnt r hr o
    exact List.count_pos_iff.1 (by omega)
  by_cases hown : ∃ o, p = .owns o
  · obtain ⟨o, rfl⟩ := hown
    have hpm := List.mem_of_getElem? hi
    have hext := h.owned o hpm
    have hol : o < st.heap.length := by rw [h.heapLen]; exact (List.getElem?_eq_some_iff.1 hext).1
    have hx : st.heap[o]? = some ⟨true, false⟩ := by
      have h1 := List.getElem?_eq_getElem hol
      have h2 : st.heap[o].external = false := by
        have : (st.heap.map Obj.external)[o]? = some st.heap[o].external := by rw [List.getElem?_map, h1]; rfl
        rw [h.heap, hext] at this
        injection this with this; exact this.symm
      have h3 : st.heap[o].alive = true := (h.alive o _ h1).2 (Or.inr hpm)
      rw [h1]
      congr 1
      cases hh : st.heap[o] with
      | mk a b => rw [hh] at h2 h3; simp only at h2 h3; rw [h2, h3]
    refine ⟨.null, st.heap.set o ⟨false, false⟩, ?_, Or.inl rfl, ?_⟩
    · simp only [Ptr.reset, SPtr.rep, delete, hx, ok_bind, pure_ok, Ptr.null]
    · intro r hr
      have hnot : SPtr.owns o ∉ s.ptrs.set i r := by
        intro hm
        have h1 := count_mem hm
        have h2 := count_set hi r (SPtr.owns o)
        rw [if_neg (hr o), if_pos rfl] at h2
        have := h.once o
        omega
      refine ⟨hptr r, ?_, ?_, fun o' ho' => h.owned o' (hmem r hr o' ho'), fun o' => Nat.le_trans (hcnt r hr o') (h.once o')⟩
      · dsimp only
        rw [← h.heap]
        apply List.ext_getElem?
        intro k
        rw [List.getElem?_map, List.getElem?_map]
        by_cases hk : o = k
        · subst hk; rw [List.getElem?_set_self hol, hx]; rfl
        · rw [List.getElem?_set_ne hk]
      · intro k x hk
        dsimp only at hk ⊢
        by_cases hko : o = k
        · subst hko
          rw [List.getElem?_set_self hol] at hk
          injection hk with hk; subst hk
          simp [hnot]
        · rw [List.getElem?_set_ne hko] at hk
          rw [h.alive k x hk]
          have hc := count_set hi r (SPtr.owns k)
          rw [if_neg (hr k), if_neg (by simpa using hko)] at hc
          have : SPtr.owns k ∈ s.ptrs ↔ SPtr.owns k ∈ s.ptrs.set i r := by
            rw [← List.count_pos_iff, ← List.count_pos_iff]; omega
          rw [this]
  · have hno : ∀ o, p ≠ .owns o := fun o ho => hown ⟨o, ho⟩
    refine ⟨p, st.heap, ?_, ?_, ?_⟩
    · cases p with
      | null => rfl
      | owns o => exact absurd rfl (hno o)
      | borrows o => rfl
    · cases p with
      | null => exact Or.inl rfl
      | owns o => exact absurd rfl (hno o)
      | borrows o => exact Or.inr ⟨o, rfl, rfl⟩
    · intro r hr
      refine ⟨hptr r, h.heap, ?_, fun o' ho' => h.owned o' (hmem r hr o' ho'), fun o' => Nat.le_trans (hcnt r hr o') (h.once o')⟩
      intro k x hk
      dsimp only at hk ⊢
      rw [h.alive k x hk]
      have hc := count_set hi r (SPtr.owns k)
      rw [if_neg (hr k), if_neg (hno k)] at hc
      have : SPtr.owns k ∈ s.ptrs ↔ SPtr.owns k ∈ s.ptrs.set i r := by
        rw [← List.count_pos_iff, ← List.count_pos_iff]; omega
      rw [this]

/-- Rearranging pointers without changing the collection of owners. -/
theorem Rel.rearrange {st : State} {s : SState} (h : Rel st s) {l : List SPtr}
    (hc : ∀ o, l.count (SPtr.owns o) = s.ptrs.count (SPtr.owns o)) : Rel ⟨st.heap, l.map SPtr.rep⟩ ⟨s.ext, l⟩ := by
  have hm : ∀ o, SPtr.owns o ∈ l ↔ SPtr.owns o ∈ s.ptrs := fun o => by
    rw [← List.count_pos_iff, ← List.count_pos_iff, hc]
  refine ⟨rfl, h.heap, ?_, fun o ho => h.owned o ((hm o).1 ho), fun o => by rw [hc]; exact h.once o⟩
  intro o x hx
  dsimp only at hx ⊢
  rw [h.alive o x hx, hm]

theorem exec_ok {st : State} {s : SState} (h : Rel st s) {op : Op} (hp : op.Pre s) :
    ∃ st', op.exec st = .ok st' ∧ Rel st' (op.spec s) := by
  have hnonew : ∀ o, s.ext.length ≤ o → SPtr.owns o ∉ s.ptrs := fun o ho hm => by
    have := (List.getElem?_eq_some_iff.1 (h.owned o hm)).1; omega
  cases op with
  | make =>
    refine ⟨_, rfl, ?_, ?_, ?_, ?_, ?_⟩
    · simp only [Op.spec, List.map_append, h.ptrs, List.map_cons, List.map_nil, SPtr.rep, h.heapLen]
    · simp only [Op.spec, List.map_append, h.heap, List.map_cons, List.map_nil]
    · intro o x hx
      simp only [Op.spec] at hx ⊢
      by_cases ho : o < st.heap.length
      · rw [List.getElem?_append_left ho] at hx
        rw [h.alive o x hx]
        have : o ≠ s.ext.length := by have := h.heapLen; omega
        simp [this]
      · have ho' : o = st.heap.length := by have := (List.getElem?_eq_some_iff.1 hx).1; simp at this; omega
        subst ho'
        have hx' : x = ⟨true, false⟩ := by simpa using hx.symm
        subst hx'
        simp [h.heapLen]
    · intro o ho
      simp only [Op.spec, List.mem_append, List.mem_singleton, SPtr.owns.injEq] at ho ⊢
      rcases ho with ho | rfl
      · have := h.owned o ho
        rw [List.getElem?_append_left (List.getElem?_eq_some_iff.1 this).1]; exact this
      · simp
    · intro o
      simp only [Op.spec, List.count_append]
      by_cases ho : o = s.ext.length
      · subst ho
        rw [List.count_eq_zero_of_not_mem (hnonew _ (Nat.le_refl _))]
        simp
      · have : List.count (SPtr.owns o) [SPtr.owns s.ext.length] = 0 := by
          rw [List.count_eq_zero_of_not_mem]; simpa using ho
        rw [this]; exact h.once o
  | external =>
    refine ⟨_, rfl, ?_, ?_, ?_, ?_, ?_⟩
    · simp only [Op.spec, List.map_append, h.ptrs, List.map_cons, List.map_nil, SPtr.rep, h.heapLen]
    · simp only [Op.spec, List.map_append, h.heap, List.map_cons, List.map_nil]
    · intro o x hx
      simp only [Op.spec] at hx ⊢
      by_cases ho : o < st.heap.length
      · rw [List.getElem?_append_left ho] at hx
        rw [h.alive o x hx]; simp
      · have ho' : o = st.heap.length := by have := (List.getElem?_eq_some_iff.1 hx).1; simp at this; omega
        subst ho'
        have hx' : x = ⟨true, true⟩ := by simpa using hx.symm
        subst hx'
        simp
    · intro o ho
      simp only [Op.spec, List.mem_append, List.mem_singleton, reduceCtorEq, or_false] at ho ⊢
      have := h.owned o ho
      rw [List.getElem?_append_left (List.getElem?_eq_some_iff.1 this).1]; exact this
    · intro o
      simp only [Op.spec, List.count_append]
      rw [show List.count (SPtr.owns o) [SPtr.borrows s.ext.length] = 0 by
        rw [List.count_eq_zero_of_not_mem]; simp]
      exact h.once o
  | borrow o =>
    refine ⟨⟨st.heap, st.ptrs ++ [⟨some o, false⟩]⟩, rfl, ?_⟩
    have := h.rearrange (l := s.ptrs ++ [.borrows o]) (fun o' => by
      rw [List.count_append, List.count_eq_zero_of_not_mem (l := [SPtr.borrows o]) (by simp), Nat.add_zero])
    simp only [List.map_append, ← h.ptrs, List.map_cons, List.map_nil, SPtr.rep] at this
    exact this
  | null =>
    refine ⟨⟨st.heap, st.ptrs ++ [⟨none, false⟩]⟩, rfl, ?_⟩
    have := h.rearrange (l := s.ptrs ++ [.null]) (fun o' => by
      rw [List.count_append, List.count_eq_zero_of_not_mem (l := [SPtr.null]) (by simp), Nat.add_zero])
    simp only [List.map_append, ← h.ptrs, List.map_cons, List.map_nil, SPtr.rep] at this
    exact this
  | move j =>
    have hj : s.ptrs[j]? = some s.ptrs[j] := List.getElem?_eq_getElem hp
    have hg : s.ptrs.getD j .null = s.ptrs[j] := by simp [List.getD, hj]
    refine ⟨⟨st.heap, st.ptrs.set j Ptr.null ++ [s.ptrs[j].rep]⟩, ?_, ?_⟩
    · simp only [Op.exec, h.getVar hj, ok_bind, pure_ok]
    · have := h.rearrange (l := s.ptrs.set j .null ++ [s.ptrs[j]]) (fun o => by
        have := count_set hj .null (SPtr.owns o)
        rw [if_neg (show SPtr.null ≠ SPtr.owns o by simp)] at this
        rw [List.count_append, List.count_singleton]
        simp only [beq_iff_eq]
        omega)
      simp only [Op.spec, hg]
      simp only [List.map_append, List.map_set, ← h.ptrs, List.map_cons, List.map_nil] at this
      exact this
  | moveAssign i j =>
    obtain ⟨hi, hj⟩ := hp
    have hi' : s.ptrs[i]? = some s.ptrs[i] := List.getElem?_eq_getElem hi
    have hj' : s.ptrs[j]? = some s.ptrs[j] := List.getElem?_eq_getElem hj
    obtain ⟨q, hp, e1, hq, hrel⟩ := reset_ok h hi'
    have hqn : ∀ o, q ≠ SPtr.owns o := by
      rcases hq with rfl | ⟨o, ho, rfl⟩
      · simp
      · rw [ho]; simp
    have h1 := hrel q hqn
    have hg : s.ptrs.getD j .null = s.ptrs[j] := by simp [List.getD, hj']
    by_cases hij : i = j
    · subst hij
      have h2 := hrel .null (by simp)
      have hiq : (s.ptrs.set i q)[i]? = some q := List.getElem?_set_self hi
      refine ⟨⟨hp, st.ptrs.set i Ptr.null⟩, ?_, ?_⟩
      · simp only [Op.exec, h.getVar hi', ok_bind, e1, h1.getVar hiq, pure_ok, List.set_set]
      · simp only [Op.spec, List.set_set]
        exact h2
    · have hjq : (s.ptrs.set i q)[j]? = some s.ptrs[j] := by rw [List.getElem?_set_ne hij]; exact hj'
      refine ⟨⟨hp, (((st.ptrs.set i q.rep).set i s.ptrs[j].rep).set j Ptr.null)⟩, ?_, ?_⟩
      · simp only [Op.exec, h.getVar hi', ok_bind, e1, h1.getVar hjq, pure_ok]
      · have h2 := h1.rearrange (l := ((s.ptrs.set i q).set i s.ptrs[j]).set j .null) (fun o => by
          have c1 := count_set (l := s.ptrs.set i q) (i := i) (p := q) (List.getElem?_set_self hi) s.ptrs[j] (SPtr.owns o)
          have c2 := count_set (l := (s.ptrs.set i q).set i s.ptrs[j]) (i := j) (p := s.ptrs[j])
            (by rw [List.getElem?_set_ne hij]; exact hjq) .null (SPtr.owns o)
          rw [if_neg (hqn o)] at c1
          rw [if_neg (show SPtr.null ≠ SPtr.owns o by simp)] at c2
          dsimp only at c1 c2 ⊢
          omega)
        simp only [Op.spec, hg]
        simp only [List.set_set] at h2 ⊢
        simp only [List.map_set, ← h.ptrs] at h2
        exact h2
  | reset i =>
    obtain ⟨hi, hb⟩ := hp
    have hi' : s.ptrs[i]? = some s.ptrs[i] := List.getElem?_eq_getElem hi
    obtain ⟨q, hp, e1, hq, hrel⟩ := reset_ok h hi'
    have hqn : q = .null := hq.resolve_right fun ⟨o, ho, _⟩ => hb o (by rw [hi', ho])
    subst hqn
    exact ⟨⟨hp, st.ptrs.set i Ptr.null⟩, by simp only [Op.exec, h.getVar hi', ok_bind, e1, pure_ok]; rfl, hrel .null (by simp)⟩
  | assignNull i =>
    obtain ⟨hi, hb⟩ := hp
    have hi' : s.ptrs[i]? = some s.ptrs[i] := List.getElem?_eq_getElem hi
    obtain ⟨q, hp, e1, hq, hrel⟩ := reset_ok h hi'
    have hqn : q = .null := hq.resolve_right fun ⟨o, ho, _⟩ => hb o (by rw [hi', ho])
    subst hqn
    exact ⟨⟨hp, st.ptrs.set i Ptr.null⟩, by simp only [Op.exec, h.getVar hi', ok_bind, e1, pure_ok]; rfl, hrel .null (by simp)⟩
  | destroy i =>
    have hi' : s.ptrs[i]? = some s.ptrs[i] := List.getElem?_eq_getElem hp
    obtain ⟨q, hp', e1, hq, hrel⟩ := reset_ok h hi'
    have h1 := hrel .null (by simp)
    refine ⟨⟨hp', st.ptrs.eraseIdx i⟩, by simp only [Op.exec, h.getVar hi', ok_bind, e1, pure_ok], ?_⟩
    have h2 := h1.rearrange (l := s.ptrs.eraseIdx i) (fun o => by
      have := (Paged.set_perm hp SPtr.null).count_eq (SPtr.owns o)
      rw [List.count_cons, if_neg (by simp)] at this
      dsimp only; omega)
    simp only [Op.spec]
    have hm : st.ptrs.eraseIdx i = (s.ptrs.eraseIdx i).map SPtr.rep := by
      rw [h.ptrs]
      apply List.ext_getElem?
      intro k
      simp only [List.getElem?_eraseIdx, List.getElem?_map]
      split <;> rfl
    rw [hm]; exact h2

theorem run_ok : ∀ (ops : List Op) {st : State} {s : SState}, Rel st s → Allowed s ops →
    ∃ st', run st ops = .ok st' ∧ Rel st' (specRun s ops)
  | [], st, s, h, _ => ⟨st, rfl, h⟩
  | op :: ops, st, s, h, ha => by
    obtain ⟨s1, e1, h1⟩ := exec_ok h ha.1
    obtain ⟨s2, e2, h2⟩ := run_ok ops h1 ha.2
    exact ⟨s2, by simp only [run, e1, ok_bind, e2], h2⟩

theorem rel_empty : Rel ⟨[], []⟩ ⟨[], []⟩ := ⟨rfl, rfl, by simp, by simp, by simp⟩

/-- **C30** (`unique_ptr`): in every history of creating, adopting, borrowing, moving (also onto itself), resetting and
destroying pointers nothing is deleted twice and no external object is deleted (either would be undefined behaviour);
an object made with `new` is alive exactly while some pointer owns it; `get()` is what the history says.
Partial: `reset()` and `= nullptr` on a non-owning pointer are excluded, as are objects that contain pointers
themselves, see the `_violated` theorems. -/
theorem C30_unique_ptr_partial (ops : List Op) (ha : Allowed ⟨[], []⟩ ops) :
    ∃ st, run ⟨[], []⟩ ops = .ok st ∧
      st.ptrs.map Ptr.el = (specRun ⟨[], []⟩ ops).ptrs.map SPtr.target ∧
      st.heap.map Obj.external = (specRun ⟨[], []⟩ ops).ext ∧
      ∀ (o : Nat) (x : Obj), st.heap[o]? = some x →
        (x.alive = true ↔ x.external = true ∨ SPtr.owns o ∈ (specRun ⟨[], []⟩ ops).ptrs) := by
  obtain ⟨st, e, h⟩ := run_ok ops rel_empty ha
  refine ⟨st, e, ?_, h.heap, h.alive⟩
  rw [h.ptrs, List.map_map]
  apply List.map_congr_left
  intro p _
  cases p <;> rfl

/-- **C30**: when all pointers are gone, every object made with `new` has been deleted. -/
theorem C30_all_freed (ops : List Op) (ha : Allowed ⟨[], []⟩ ops) (hn : (specRun ⟨[], []⟩ ops).ptrs = []) :
    ∃ st, run ⟨[], []⟩ ops = .ok st ∧ ∀ x ∈ st.heap, x.external = false → x.alive = false := by
  obtain ⟨st, e, h⟩ := run_ok ops rel_empty ha
  refine ⟨st, e, fun x hx hext => ?_⟩
  obtain ⟨o, ho⟩ := List.getElem?_of_mem hx
  have := h.alive o x ho
  rw [hn, hext] at this
  simpa using this

def sampleOps : List Op :=
  [.make, .make, .external, .move 0, .moveAssign 0 1, .moveAssign 1 2, .borrow 0, .reset 0, .moveAssign 3 1, .destroy 0,
   .destroy 0, .destroy 0, .destroy 0, .destroy 0]

example : Allowed ⟨[], []⟩ sampleOps ∧ (specRun ⟨[], []⟩ sampleOps).ptrs = [] := by
  simp [sampleOps, Allowed, Op.Pre, Op.spec, specRun]

example : run ⟨[], []⟩ sampleOps = .ok ⟨[⟨false, false⟩, ⟨false, false⟩, ⟨true, true⟩], []⟩ := by decide +kernel

/-- **C30** violated: `p.reset()` and `p = nullptr` leave a non-owning (for example deserialized) pointer non-null. -/
theorem C30_reset_borrowed_violated (h : Heap) (o : Nat) : (SPtr.borrows o).rep.reset h = .ok (⟨some o, false⟩, h) := rfl

/-- The same through the operations. -/
example : (run ⟨[], []⟩ [.external, .assignNull 0]).map (fun s => s.ptrs) = .ok [⟨some 0, false⟩] := by decide

/-- Self-move of an owning pointer deletes the object and leaves a null pointer (`std::unique_ptr` would keep it). -/
theorem C30_self_move (h : Heap) (o : Nat) (hx : h[o]? = some ⟨true, false⟩) :
    (Op.moveAssign 0 0).exec ⟨h, [⟨some o, true⟩]⟩ = .ok ⟨h.set o ⟨false, false⟩, [Ptr.null]⟩ := by
  simp only [Op.exec, Variant.getVar, List.getElem?_cons_zero, ok_bind, Ptr.reset, delete, hx, pure_ok, List.set_cons_zero]

example : (([⟨true, false⟩] : Heap))[0]? = some ⟨true, false⟩ := rfl

/-! ## Objects that own objects: `head = std::move(head->next)` -/

/-- A heap of list nodes, each with a `next` pointer; `none` is freed memory. -/
abbrev NHeap := List (Option Ptr)

/-- `delete` of a node: its destructor resets `next` (unique_ptr.h:45), then the memory is freed.  The first argument
bounds the recursion depth. -/
def delNode : Nat → NHeap → Nat → Res NHeap
  | 0, _, _ => .error .diverge
  | n + 1, h, o =>
    match h[o]? with
    | some (some ⟨some o', true⟩) => do
      let h ← delNode n h o'
      return h.set o none
    | some (some _) => .ok (h.set o none)
    | _ => .error .ub

/-- unique_ptr.h:30-37 with `o` the field `next` of the node owned by `*this`. -/
def moveAssignNext (fuel : Nat) (h : NHeap) (a : Nat) : Res (Ptr × NHeap) := do
  let h ← delNode fuel h a
  match h[a]? with
  | some (some o) => return (o, h.set a (some Ptr.null))
  | _ => .error .ub

/-- **C30** violated: `head = std::move(head->next)` on an owning `head` frees the node first and reads `next` from
freed memory: it never succeeds, whatever the list. -/
theorem C30_move_from_own_member_violated (fuel : Nat) (h : NHeap) (a : Nat) (r : Ptr × NHeap) :
    moveAssignNext fuel h a ≠ .ok r := by
  have key : ∀ (n : Nat) (h h' : NHeap) (a : Nat), delNode n h a = .ok h' → h'[a]? = some none ∨ h'[a]? = none := by
    intro n
    cases n with
    | zero => intro h h' a e; simp [delNode] at e
    | succ n =>
      intro h h' a e
      have setn : ∀ g : NHeap, (g.set a none)[a]? = some none ∨ (g.set a none)[a]? = none := by
        intro g
        by_cases hg : a < g.length
        · exact Or.inl (List.getElem?_set_self hg)
        · right; rw [List.getElem?_eq_none]; simp; omega
      unfold delNode at e
      split at e
      · rename_i o' _
        cases hd : delNode n h o' with
        | error x => rw [hd, error_bind] at e; cases e
        | ok g => rw [hd, ok_bind, pure_ok] at e; injection e with e; subst e; exact setn g
      · injection e with e; subst e; exact setn h
      · cases e
  unfold moveAssignNext
  cases hd : delNode fuel h a with
  | error x => rw [error_bind]; simp
  | ok g =>
    rw [ok_bind]
    rcases key fuel h g a hd with hh | hh <;> rw [hh] <;> simp

/-- A list of two nodes: undefined behaviour, although both nodes are alive and owned exactly once. -/
example : moveAssignNext 5 [some ⟨some 1, true⟩, some ⟨none, false⟩] 0 = .error .ub := by decide

end Cista.UPtr
