import Verif.Fail.Vector

set_option linter.unusedSimpArgs false

/-!
# C109, C110 — vector when copying an element throws

The operations of `vector.h` with two oracles: which allocation fails (as in `Verif.Fail.Vector`) and
which *copy* of an element throws.  A thrown exception leaves the operation in the state reached so
far; that state is part of the result.

Assumptions: move construction, move assignment and `swap` of elements do not throw (except in
`C109_move_violated`); an assignment that throws leaves its target as it was.
-/
namespace Cista.Throw

open Cista.Mem Cista.Vector Cista.Fail

variable {α : Type}

/-- `alloc i`: the `i`-th allocation of the call fails; `copy i`: the `i`-th copy of an element throws. -/
structure Faults where
  alloc : Nat → Bool
  copy : Nat → Bool

/-- vector.h:294-313 `push_back`, `emplace_back`: the element is constructed before `used_size_` is
incremented. -/
def pushBackT (W : Nat) (strict fa fc : Bool) (h : Heap α) (v : Vec) (a : α) : Res (VecOut α) :=
  andThen (reserveF W strict fa h v ((v.used + 1) % 2 ^ W)) fun h v => do
    let b ← v.base
    if fc then .ok (h, v, true) else do
      let h ← h.construct strict b v.used a
      return (h, { v with used := (v.used + 1) % 2 ^ W }, false)

/-- vector.h:214-224 `insert(it, el)`. -/
def insertOneT (W : Nat) (strict fa fc : Bool) (h : Heap α) (v : Vec) (off : Nat) (a : α) :
    Res (VecOut α) := do
  require (off ≤ v.used)
  andThen (pushBackT W strict fa fc h v a) (rotateF off v.used)

/-- vector.h:232-235: construct and count one by one. -/
def appendT (W : Nat) (strict : Bool) : (Nat → Bool) → List α → Heap α → Vec → Res (VecOut α)
  | _, [], h, v => .ok (h, v, false)
  | copy, a :: xs, h, v => do
    let b ← v.base
    if copy 0 then .ok (h, v, true) else do
      let h ← h.construct strict b v.used a
      appendT W strict (fun i => copy (i + 1)) xs h { v with used := (v.used + 1) % 2 ^ W }

/-- vector.h:226-238 `insert(it, count, value)`. -/
def insertNT (W : Nat) (strict fa : Bool) (copy : Nat → Bool) (h : Heap α) (v : Vec) (off n : Nat)
    (a : α) : Res (VecOut α) := do
  require (off ≤ v.used)
  andThen (andThen (reserveF W strict fa h v ((v.used + n) % 2 ^ W))
    (appendT W strict copy (List.replicate n a))) (rotateF off v.used)

/-- vector.h:245-249: append one by one. -/
def appendEachT (W : Nat) (strict : Bool) : (Nat → Bool) → (Nat → Bool) → List α → Heap α → Vec →
    Res (VecOut α)
  | _, _, [], h, v => .ok (h, v, false)
  | alloc, copy, a :: xs, h, v =>
    andThen (pushBackT W strict (alloc 0) (copy 0) h v a)
      (appendEachT W strict (fun i => alloc (i + 1)) (fun i => copy (i + 1)) xs)

/-- vector.h:240-252 `insert(pos, first, last, input_iterator_tag)`. -/
def insertInputT (W : Nat) (strict : Bool) (f : Faults) (h : Heap α) (v : Vec) (off : Nat)
    (xs : List α) : Res (VecOut α) := do
  require (off ≤ v.used)
  andThen (appendEachT W strict f.alloc f.copy xs h v) (rotateF off v.used)

/-- Construct `xs` at `b[i]`, `b[i+1]`, …, until a copy throws (vector.h:182-184, 317-319, 325-327). -/
def constructT (strict : Bool) (b : Nat) : (Nat → Bool) → Nat → List α → Heap α → Res (Heap α × Bool)
  | _, _, [], h => .ok (h, false)
  | copy, i, a :: xs, h =>
    if copy 0 then .ok (h, true) else do
      let h ← h.construct strict b i a
      constructT strict b (fun i => copy (i + 1)) (i + 1) xs h

/-- The same; nothing is dereferenced for an empty `xs`. -/
def constructFromT (strict : Bool) (copy : Nat → Bool) (h : Heap α) (v : Vec) (i : Nat) (xs : List α) :
    Res (Heap α × Bool) :=
  match xs with
  | [] => .ok (h, false)
  | xs => do
    let b ← v.base
    constructT strict b copy i xs h

/-- vector.h:320, 328, 186: the size is set only after all elements have been constructed. -/
def finishT (v : Vec) (n : Nat) (r : Heap α × Bool) : VecOut α :=
  if r.2 then (r.1, v, true) else (r.1, { v with used := n }, false)

/-- vector.h:171-187 `set(begin_it, end_it)`. -/
def setT (W : Nat) (strict fa : Bool) (copy : Nat → Bool) (h : Heap α) (v : Vec) (xs : List α) :
    Res (VecOut α) := do
  verify (xs.length ≤ 2 ^ W - 1)
  andThen (reserveF W strict fa h v xs.length) fun h v =>
    (constructFromT strict copy h v 0 xs).map (finishT v xs.length)

/-- vector.h:315-329 `resize`. -/
def resizeT (W : Nat) (strict fa : Bool) (copy : Nat → Bool) (h : Heap α) (v : Vec) (n : Nat) (a : α) :
    Res (VecOut α) :=
  andThen (reserveF W strict fa h v n) fun h v =>
    (constructFromT strict copy h v v.used (List.replicate (n - v.used) a)).map (finishT v n)

/-- vector.h:275-281: write the new elements, until a copy throws. -/
def writeNewT (strict : Bool) (b used : Nat) : (Nat → Bool) → Nat → List α → Heap α → Res (Heap α × Bool)
  | _, _, [], h => .ok (h, false)
  | copy, i, a :: xs, h =>
    if copy 0 then .ok (h, true) else do
      let h ← (if i ≥ used then h.construct strict b i a else h.assign b i a)
      writeNewT strict b used (fun i => copy (i + 1)) (i + 1) xs h

/-- vector.h:254-286 `insert(pos, first, last, forward_iterator_tag)`. -/
def insertRangeT (W : Nat) (strict fa : Bool) (copy : Nat → Bool) (h : Heap α) (v : Vec) (off : Nat)
    (xs : List α) : Res (VecOut α) := do
  require (off ≤ v.used)
  if v.used = 0 then setT W strict fa copy h v xs
  else
    let cnt := xs.length % 2 ^ W
    andThen (reserveF W strict fa h v ((v.used + cnt) % 2 ^ W)) fun h v => do
      let b ← v.base
      let h ← shiftTail strict b v.used cnt (v.used - off) h
      (writeNewT strict b v.used copy off xs h).map (finishT v ((v.used + cnt) % 2 ^ W))

/-- `v[i] = a`. -/
def writeT (fc : Bool) (h : Heap α) (v : Vec) (i : Nat) (a : α) : Res (VecOut α) := do
  require (i < v.used)
  if fc then .ok (h, v, true) else do
    let h ← write h v i a
    return (h, v, false)

/-- One operation on the store.  Operations that neither allocate nor copy are those of `Op.exec`. -/
def execT (W : Nat) (strict : Bool) (f : Faults) (s : State α) : Op α → Res (State α × Bool)
  | .push d a => (pushBackT W strict (f.alloc 0) (f.copy 0) s.h (s.vs d) a).map (putF s d)
  | .insertOne d off a => (insertOneT W strict (f.alloc 0) (f.copy 0) s.h (s.vs d) off a).map (putF s d)
  | .insertN d off n a => (insertNT W strict (f.alloc 0) f.copy s.h (s.vs d) off n a).map (putF s d)
  | .insertInput d off xs => (insertInputT W strict f s.h (s.vs d) off xs).map (putF s d)
  | .insertRange d off xs => (insertRangeT W strict (f.alloc 0) f.copy s.h (s.vs d) off xs).map (putF s d)
  | .resize d n a => (resizeT W strict (f.alloc 0) f.copy s.h (s.vs d) n a).map (putF s d)
  | .reserve d n => (reserveF W strict (f.alloc 0) s.h (s.vs d) n).map (putF s d)
  | .set d xs => (setT W strict (f.alloc 0) f.copy s.h (s.vs d) xs).map (putF s d)
  | .copyAssign d x => if d = x then .ok (s, false) else
      (toList s.h (s.vs x)).bind fun xs =>
        (setT W strict (f.alloc 0) f.copy s.h (s.vs d) xs).map (putF s d)
  | .write d i a => (writeT (f.copy 0) s.h (s.vs d) i a).map (putF s d)
  | op => (op.exec W strict s).map fun s' => (s', false)

/-- Run a program; the result contains which of the executed operations threw. -/
def runT (W : Nat) (strict : Bool) : Prog (Op α) Faults → State α → Res (State α × List Bool)
  | .done, s => .ok (s, [])
  | .step op f next, s => (execT W strict f s op).bind fun r =>
      (runT W strict (next r.2) r.1).map fun q => (q.1, r.2 :: q.2)

/-! ## Specification -/

/-- What an operation may do to the lists.  If it does not throw: exactly what the operation does.
If it throws: nothing — except insertion of several elements one by one, which may leave those already
copied at the end of its vector. -/
def StepT (W : Nat) (m : Nat → List α) (op : Op α) : Bool → (Nat → List α) → Prop
  | false, m' => op.spec W m = some m'
  | true, m' => match op with
    | .push .. | .insertOne .. | .insertRange .. | .resize .. | .reserve .. | .set .. | .copyAssign ..
    | .write .. => m' = m
    | .insertN d _ n a => m' = m ∨ ∃ k, k < n ∧ m' = upd m d (m d ++ List.replicate k a)
    | .insertInput d _ xs => ∃ k, k < xs.length ∧ m' = upd m d (m d ++ xs.take k)
    | _ => False

/-- The lists after a program with the given outcomes. -/
def StepsT (W : Nat) : Prog (Op α) Faults → (Nat → List α) → List Bool → (Nat → List α) → Prop
  | .done, m, [], m' => m' = m
  | .step op _ next, m, t :: ts, m' => ∃ m1, StepT W m op t m1 ∧ StepsT W (next t) m1 ts m'
  | _, _, _, _ => False

/-- Copies throw only in operations that append or assign one element at a time. -/
def Calm (f : Faults) : Op α → Prop
  | .resize .. | .set .. | .copyAssign .. | .insertRange .. => ∀ i, f.copy i = false
  | _ => True

/-- The program meets the obligations of every operation it executes, whichever operations throw. -/
def ObeysT (W : Nat) (P : (Nat → List α) → Op α → Faults → Prop) :
    Prog (Op α) Faults → (Nat → List α) → Prop
  | .done, _ => True
  | .step op f next, m => (op.spec W m).isSome ∧ P m op f ∧
      ∀ t m', StepT W m op t m' → ObeysT W P (next t) m'

/-! ## Proof -/

/-- `reserve` in the present model: it throws and changes nothing, or it does what it does. -/
theorem reserveF_rep {W : Nat} {strict fa : Bool} {h : Heap α} {v : Vec} {l : List α}
    (r : Rep strict h v l) (hf : Fresh h) {n : Nat} (hl : Lim W n) :
    (fa = true ∧ reserveF W strict fa h v n = .ok (h, v, true)) ∨
    ∃ h' v', reserveF W strict fa h v n = .ok (h', v', false) ∧ reserve W strict h v n = .ok (h', v') ∧
      Rep strict h' v' l ∧ n ≤ v'.alloc ∧ v'.used = v.used ∧ Frame h v h' v' := by
  rcases reserveF_ok (W := W) (strict := strict) h v n fa with e | e
  · exact Or.inl e
  · obtain ⟨h', v', e', r', ha, hu, f⟩ := reserve_ok r hf hl
    rw [e'] at e
    exact Or.inr ⟨h', v', e, e', r', ha, hu, f⟩

theorem pushBackT_ok {W : Nat} {strict fa fc : Bool} {h : Heap α} {v : Vec} {l : List α}
    (r : Rep strict h v l) (hf : Fresh h) (hl : Lim W (l.length + 1)) (a : α) :
    (∃ h' v', (fa = true ∨ fc = true) ∧ pushBackT W strict fa fc h v a = .ok (h', v', true) ∧
      Rep strict h' v' l ∧ Frame h v h' v') ∨
    ∃ h' v', pushBackT W strict fa fc h v a = .ok (h', v', false) ∧
      pushBack W strict h v a = .ok (h', v') ∧ Rep strict h' v' (l ++ [a]) ∧ Frame h v h' v' := by
  unfold pushBackT
  rw [r.used, hl.mod]
  rcases reserveF_rep (fa := fa) r hf hl with ⟨hfa, e⟩ | ⟨h1, v1, e, e1, r1, hc, hu, f1⟩
  · left
    exact ⟨h, v, Or.inl hfa, by rw [e]; rfl, r, Frame.refl hf r.good⟩
  · rw [e]
    obtain ⟨b, rest, hp, hb, hs, hu1, ha, hr⟩ := r1.toBlk (by omega)
    cases fc with
    | true =>
      left
      refine ⟨h1, v1, Or.inr rfl, ?_, r1, f1⟩
      show (do let b ← v1.base; if true = true then .ok (h1, v1, true) else _ : Res (VecOut α)) = _
      rw [base_ok hp]; rfl
    | false =>
      right
      obtain ⟨h', v', e', r', f'⟩ := pushBack_ok r hf hl a
      refine ⟨h', v', ?_, e', r', f'⟩
      show (do let b ← v1.base
               if false = true then .ok (h1, v1, true) else do
                 let h ← h1.construct strict b v1.used a
                 return (h, { v1 with used := (v1.used + 1) % 2 ^ W }, false) : Res (VecOut α)) = _
      unfold pushBack at e'
      rw [r.used, hl.mod, e1, ok_bind] at e'
      simp only at e'
      rw [base_ok hp] at e' ⊢
      simp only [ok_bind, Bool.false_eq_true, if_false] at e' ⊢
      revert e'
      cases h1.construct strict b v1.used a with
      | error e => intro e'; cases e'
      | ok h2 => intro e'; cases e'; rfl

theorem appendT_ok {W : Nat} (hW : Arith.StdWidth W) {strict : Bool} (xs : List α) (copy : Nat → Bool)
    {h : Heap α} {v : Vec} {l : List α} (r : Rep strict h v l) (hf : Fresh h)
    (hc : l.length + xs.length ≤ v.alloc) (hl : l.length + xs.length ≤ 2 ^ (W - 1)) :
    (∃ k h' v', k < xs.length ∧ copy k = true ∧ appendT W strict copy xs h v = .ok (h', v', true) ∧
      Rep strict h' v' (l ++ xs.take k) ∧ Frame h v h' v') ∨
    ∃ h' v', appendT W strict copy xs h v = .ok (h', v', false) ∧
      Rep strict h' v' (l ++ xs) ∧ Frame h v h' v' := by
  induction xs generalizing copy h v l with
  | nil => exact Or.inr ⟨h, v, rfl, by simpa using r, Frame.refl hf r.good⟩
  | cons a xs ih =>
    simp only [List.length_cons] at hc hl
    obtain ⟨b, rest, hp, hb, hs, hu, ha, hr⟩ := r.toBlk (by omega)
    simp only [appendT, base_ok hp, ok_bind]
    cases hcp : copy 0 with
    | true =>
      left
      exact ⟨0, h, v, by simp, hcp, rfl, by simpa using r, Frame.refl hf r.good⟩
    | false =>
      obtain ⟨h1, e1, r1, f1⟩ := constructFrom_ok r hf [a] (by simpa using (show l.length + 1 ≤ v.alloc by omega))
      have e2 : h.construct strict b v.used a = .ok h1 := by
        simp only [constructFrom, base_ok hp, ok_bind, constructAll] at e1
        revert e1
        cases h.construct strict b v.used a with
        | error e => intro e1; cases e1
        | ok h2 => intro e1; cases e1; rfl
      have hmod : (v.used + 1) % 2 ^ W = l.length + 1 := by
        rw [hu]; exact Lim.mod ⟨hW, by omega⟩
      simp only [List.length_cons, List.length_nil, Nat.zero_add] at r1 f1
      simp only [Bool.false_eq_true, if_false, e2, ok_bind, hmod]
      rcases ih (fun i => copy (i + 1)) r1 f1.fresh
        (by simp only [List.length_append, List.length_cons, List.length_nil]; omega)
        (by simp only [List.length_append, List.length_cons, List.length_nil]; omega) with
        ⟨k, h', v', hk, hck, e', r', f'⟩ | ⟨h', v', e', r', f'⟩
      · left
        exact ⟨k + 1, h', v', by simpa using hk, hck, e', by simpa using r', f1.trans f'⟩
      · right
        exact ⟨h', v', e', by simpa using r', f1.trans f'⟩

theorem appendEachT_ok {W : Nat} (hW : Arith.StdWidth W) {strict : Bool} (xs : List α)
    (alloc copy : Nat → Bool) {h : Heap α} {v : Vec} {l : List α} (r : Rep strict h v l) (hf : Fresh h)
    (hl : l.length + xs.length ≤ 2 ^ (W - 1)) :
    (∃ k h' v', k < xs.length ∧ (alloc k = true ∨ copy k = true) ∧
      appendEachT W strict alloc copy xs h v = .ok (h', v', true) ∧
      Rep strict h' v' (l ++ xs.take k) ∧ Frame h v h' v') ∨
    ∃ h' v', appendEachT W strict alloc copy xs h v = .ok (h', v', false) ∧
      Rep strict h' v' (l ++ xs) ∧ Frame h v h' v' := by
  induction xs generalizing alloc copy h v l with
  | nil => exact Or.inr ⟨h, v, rfl, by simpa using r, Frame.refl hf r.good⟩
  | cons a xs ih =>
    simp only [List.length_cons] at hl
    rcases pushBackT_ok (W := W) (fa := alloc 0) (fc := copy 0) r hf ⟨hW, by omega⟩ a with
      ⟨h1, v1, ht, e, r1, f1⟩ | ⟨h1, v1, e, _, r1, f1⟩
    · left
      exact ⟨0, h1, v1, by simp, ht, by simp only [appendEachT, e]; rfl, by simpa using r1, f1⟩
    · have hstep : appendEachT W strict alloc copy (a :: xs) h v =
          appendEachT W strict (fun i => alloc (i + 1)) (fun i => copy (i + 1)) xs h1 v1 := by
        simp only [appendEachT, e]; rfl
      rw [hstep]
      rcases ih (fun i => alloc (i + 1)) (fun i => copy (i + 1)) r1 f1.fresh (by
        simp only [List.length_append, List.length_cons, List.length_nil]; omega) with
        ⟨k, h', v', hk, hfk, e', r', f'⟩ | ⟨h', v', e', r', f'⟩
      · left
        exact ⟨k + 1, h', v', by simpa using hk, hfk, e', by simpa using r', f1.trans f'⟩
      · right
        exact ⟨h', v', e', by simpa using r', f1.trans f'⟩

theorem rotateF_ok {strict : Bool} {h : Heap α} {v : Vec} {l xs : List α} (r : Rep strict h v (l ++ xs))
    (hf : Fresh h) {off : Nat} (ho : off ≤ l.length) :
    ∃ h', rotateF off l.length h v = .ok (h', v, false) ∧
      Rep strict h' v (l.take off ++ xs ++ l.drop off) ∧ Frame h v h' v := by
  obtain ⟨h', e, r', f'⟩ := rotateIn_ok r hf ho
  exact ⟨h', by simp only [rotateF, e]; rfl, r', f'⟩

/-! ### Without throwing copies -/

theorem constructT_calm {strict : Bool} {b : Nat} (xs : List α) {copy : Nat → Bool}
    (hc : ∀ i, copy i = false) (i : Nat) (h : Heap α) :
    constructT strict b copy i xs h = (constructAll strict b i xs h).map fun h => (h, false) := by
  induction xs generalizing copy i h with
  | nil => rfl
  | cons a xs ih =>
    simp only [constructT, constructAll, hc 0, Bool.false_eq_true, if_false]
    cases h.construct strict b i a with
    | error e => rfl
    | ok h1 => exact ih (fun i => hc (i + 1)) (i + 1) h1

theorem constructFromT_calm {strict : Bool} (xs : List α) {copy : Nat → Bool}
    (hc : ∀ i, copy i = false) (i : Nat) (h : Heap α) (v : Vec) :
    constructFromT strict copy h v i xs = (constructFrom strict h v i xs).map fun h => (h, false) := by
  cases xs with
  | nil => rfl
  | cons a xs =>
    simp only [constructFromT, constructFrom]
    cases v.base with
    | error e => rfl
    | ok b => exact constructT_calm (a :: xs) hc i h

theorem writeNewT_calm {strict : Bool} {b used : Nat} (xs : List α) {copy : Nat → Bool}
    (hc : ∀ i, copy i = false) (i : Nat) (h : Heap α) :
    writeNewT strict b used copy i xs h = (writeNew strict b used i xs h).map fun h => (h, false) := by
  induction xs generalizing copy i h with
  | nil => rfl
  | cons a xs ih =>
    simp only [writeNewT, writeNew, hc 0, Bool.false_eq_true, if_false]
    cases (if i ≥ used then h.construct strict b i a else h.assign b i a) with
    | error e => rfl
    | ok h1 => exact ih (fun i => hc (i + 1)) (i + 1) h1

theorem finish_calm (v : Vec) (n : Nat) (r : Res (Heap α)) :
    (r.map fun h => (h, false)).map (finishT v n) = (do
      let h ← r
      return (h, { v with used := n }, false)) := by
  cases r <;> rfl

theorem setT_calm {W : Nat} {strict fa : Bool} {copy : Nat → Bool} (hc : ∀ i, copy i = false)
    (h : Heap α) (v : Vec) (xs : List α) : setT W strict fa copy h v xs = setF W strict fa h v xs := by
  unfold setT setF
  simp only [constructFromT_calm xs hc, finish_calm]

theorem resizeT_calm {W : Nat} {strict fa : Bool} {copy : Nat → Bool} (hc : ∀ i, copy i = false)
    (h : Heap α) (v : Vec) (n : Nat) (a : α) :
    resizeT W strict fa copy h v n a = Fail.resizeF W strict fa h v n a := by
  unfold resizeT Fail.resizeF
  simp only [constructFromT_calm _ hc, finish_calm]

theorem insertRangeT_calm {W : Nat} {strict fa : Bool} {copy : Nat → Bool} (hc : ∀ i, copy i = false)
    (h : Heap α) (v : Vec) (off : Nat) (xs : List α) :
    insertRangeT W strict fa copy h v off xs = insertRangeF W strict fa h v off xs := by
  unfold insertRangeT insertRangeF
  simp only [setT_calm hc, writeNewT_calm xs hc, finish_calm]

/-! ### One operation -/

theorem execT_ok {W : Nat} (hW : Arith.StdWidth W) {strict : Bool} {ext : Nat → Prop} {s : State α}
    {m : Nat → List α} (w : WF strict ext s m) (op : Op α) (hs : (op.spec W m).isSome)
    (he : op.NoEmptyInsert m) (ho : strict = true → op.NoOverwrite m) (f : Faults) (hc : Calm f op) :
    ∃ s' t m', execT W strict f s op = .ok (s', t) ∧ WF strict ext s' m' ∧ StepT W m op t m' ∧
      (t = true → ∃ i, f.alloc i = true ∨ f.copy i = true) := by
  -- operations in which no copy throws
  have calm : execT W strict f s op = execF W strict f.alloc s op → isInput op = false →
      (∀ m', StepF W m op true m' → StepT W m op true m') →
      ∃ s' t m', execT W strict f s op = .ok (s', t) ∧ WF strict ext s' m' ∧ StepT W m op t m' ∧
        (t = true → ∃ i, f.alloc i = true ∨ f.copy i = true) := by
    intro e hi hst
    obtain ⟨s', t, m', e', w', st, hf, _⟩ := execF_ok hW w op hs he ho f.alloc
    refine ⟨s', t, m', e.trans e', w', ?_, fun ht => ?_⟩
    · cases t with
      | false => exact st
      | true => exact hst m' st
    · obtain ⟨i, hi⟩ := hf ht
      exact ⟨i, Or.inl hi⟩
  obtain ⟨m1, hm1⟩ := Option.isSome_iff_exists.1 hs
  cases op with
  | push d a =>
    simp only [Op.spec] at hm1
    split at hm1
    · next hcd =>
      rcases pushBackT_ok (W := W) (fa := f.alloc 0) (fc := f.copy 0) (w.rep d) w.fresh ⟨hW, hcd⟩ a with
        ⟨h', v', ht, e, r, fr⟩ | ⟨h', v', e, _, r, fr⟩
      · refine ⟨_, true, m, by simp only [execT, e]; rfl, ?_, rfl, fun _ => ⟨0, ht⟩⟩
        have := w.lift r fr
        rwa [upd_self] at this
      · exact ⟨_, false, _, by simp only [execT, e]; rfl, w.lift r fr, by simp only [StepT, Op.spec, if_pos hcd],
          by simp⟩
    · cases hm1
  | insertOne d off a =>
    simp only [Op.spec] at hm1
    split at hm1
    · next hcd =>
      have hu : off ≤ (s.vs d).used := by rw [(w.rep d).used]; exact hcd.1
      simp only [execT, insertOneT, decide_eq_true hu, require_true, ok_bind]
      rcases pushBackT_ok (W := W) (fa := f.alloc 0) (fc := f.copy 0) (w.rep d) w.fresh ⟨hW, hcd.2⟩ a with
        ⟨h', v', ht, e, r, fr⟩ | ⟨h', v', e, _, r, fr⟩
      · refine ⟨_, true, m, by rw [e]; rfl, ?_, rfl, fun _ => ⟨0, ht⟩⟩
        have := w.lift r fr
        rwa [upd_self] at this
      · obtain ⟨h2, e2, r2, f2⟩ := rotateF_ok r fr.fresh hcd.1
        refine ⟨_, false, _, by rw [e]; simp only [andThen, Except.bind, Bool.false_eq_true, if_false, (w.rep d).used, e2]; rfl,
          w.lift r2 (fr.trans f2), by simp only [StepT, Op.spec, if_pos hcd, specInsert], by simp⟩
    · cases hm1
  | insertN d off n a =>
    simp only [Op.spec] at hm1
    split at hm1
    · next hcd =>
      have hu : off ≤ (s.vs d).used := by rw [(w.rep d).used]; exact hcd.1
      have hl : Lim W ((m d).length + n) := ⟨hW, hcd.2⟩
      simp only [execT, insertNT, decide_eq_true hu, require_true, ok_bind]
      rcases reserveF_rep (fa := f.alloc 0) (w.rep d) w.fresh hl with
        ⟨hfa, e⟩ | ⟨h1, v1, e, e1, r1, hcap, hu1, f1⟩
      · refine ⟨_, true, m, by rw [(w.rep d).used, hl.mod, e]; rfl, ?_, ?_, fun _ => ⟨0, Or.inl hfa⟩⟩
        · show WF strict ext (s.put d (s.h, s.vs d)) m
          rw [put_self]; exact w
        · exact Or.inl rfl
      · rcases appendT_ok hW (List.replicate n a) f.copy r1 f1.fresh (by simpa using hcap)
          (by simpa using hcd.2) with ⟨k, h', v', hk, hck, e', r', f'⟩ | ⟨h', v', e', r', f'⟩
        · have hk' : k < n := by simpa using hk
          refine ⟨s.put d (h', v'), true, upd m d (m d ++ List.replicate k a), ?_, ?_, Or.inr ⟨k, hk', rfl⟩,
            fun _ => ⟨k, Or.inr hck⟩⟩
          · rw [(w.rep d).used, hl.mod, e]
            simp only [andThen, Except.bind, Bool.false_eq_true, if_false, e', if_true]
            rfl
          · have := w.lift r' (f1.trans f')
            rwa [List.take_replicate, Nat.min_eq_left (Nat.le_of_lt hk')] at this
        · obtain ⟨h2, e2, r2, f2⟩ := rotateF_ok r' f'.fresh hcd.1
          refine ⟨_, false, _, ?_, w.lift r2 ((f1.trans f').trans f2),
            by simp only [StepT, Op.spec, if_pos hcd, specInsert], by simp⟩
          rw [(w.rep d).used, hl.mod, e]
          simp only [andThen, Except.bind, Bool.false_eq_true, if_false, e', e2]
          rfl
    · cases hm1
  | insertInput d off xs =>
    simp only [Op.spec] at hm1
    split at hm1
    · next hcd =>
      have hu : off ≤ (s.vs d).used := by rw [(w.rep d).used]; exact hcd.1
      simp only [execT, insertInputT, decide_eq_true hu, require_true, ok_bind]
      rcases appendEachT_ok hW xs f.alloc f.copy (w.rep d) w.fresh hcd.2 with
        ⟨k, h', v', hk, ht, e, r, fr⟩ | ⟨h', v', e, r, fr⟩
      · exact ⟨_, true, _, by rw [e]; rfl, w.lift r fr, ⟨k, hk, rfl⟩, fun _ => ⟨k, ht⟩⟩
      · obtain ⟨h2, e2, r2, f2⟩ := rotateF_ok r fr.fresh hcd.1
        refine ⟨_, false, _, ?_, w.lift r2 (fr.trans f2),
          by simp only [StepT, Op.spec, if_pos hcd, specInsert], by simp⟩
        rw [e]
        simp only [andThen, Except.bind, Bool.false_eq_true, if_false, (w.rep d).used, e2]
        rfl
    · cases hm1
  | write d i a =>
    simp only [Op.spec] at hm1
    split at hm1
    · next hcd =>
      have hu : i < (s.vs d).used := by rw [(w.rep d).used]; exact hcd
      simp only [execT, writeT, decide_eq_true hu, require_true, ok_bind]
      cases hcp : f.copy 0 with
      | true =>
        refine ⟨_, true, m, rfl, ?_, rfl, fun _ => ⟨0, Or.inr hcp⟩⟩
        show WF strict ext (s.put d (s.h, s.vs d)) m
        rw [put_self]; exact w
      | false =>
        obtain ⟨h', e, r, fr⟩ := write_ok (w.rep d) w.fresh hcd a
        exact ⟨_, false, _, by simp only [Bool.false_eq_true, if_false, e]; rfl, w.lift r fr,
          by simp only [StepT, Op.spec, if_pos hcd], by simp⟩
    · cases hm1
  | insertRange d off xs =>
    exact calm (by simp only [execT, execF, insertRangeT_calm hc]) rfl (fun _ h => h)
  | resize d n a => exact calm (by simp only [execT, execF, resizeT_calm hc]) rfl (fun _ h => h)
  | set d xs => exact calm (by simp only [execT, execF, setT_calm hc]) rfl (fun _ h => h)
  | copyAssign d x => exact calm (by simp only [execT, execF, setT_calm hc]) rfl (fun _ h => h)
  | reserve d n => exact calm rfl rfl (fun _ h => h)
  | pop d => exact calm rfl rfl (fun _ h => h)
  | clear d => exact calm rfl rfl (fun _ h => h)
  | erase d pos => exact calm rfl rfl (fun _ h => h)
  | eraseRange d i j => exact calm rfl rfl (fun _ h => h)
  | moveAssign d x => exact calm rfl rfl (fun _ h => h)
  | destroy d => exact calm rfl rfl (fun _ h => h)

theorem runT_ok {W : Nat} (hW : Arith.StdWidth W) {strict : Bool} {ext : Nat → Prop}
    (p : Prog (Op α) Faults) {s : State α} {m : Nat → List α} (w : WF strict ext s m)
    (ho : ObeysT W (fun m op f => op.NoEmptyInsert m ∧ op.NoOverwrite m ∧ Calm f op) p m) :
    ∃ s' ts m', runT W strict p s = .ok (s', ts) ∧ WF strict ext s' m' ∧ StepsT W p m ts m' := by
  induction p generalizing s m with
  | done => exact ⟨s, [], m, rfl, w, rfl⟩
  | step op f next ih =>
    simp only [ObeysT] at ho
    obtain ⟨s1, t, m1, e, w1, st, _⟩ :=
      execT_ok hW w op ho.1 ho.2.1.1 (fun _ => ho.2.1.2.1) f ho.2.1.2.2
    obtain ⟨s2, ts, m2, e2, w2, st2⟩ := ih t w1 (ho.2.2 t m1 st)
    exact ⟨s2, t :: ts, m2, by simp only [runT, e]; simp only [Except.bind, e2]; rfl, w2, m1, st, st2⟩

/-- **C110** Elements with destructors, programs in which copies of elements throw (while single elements
are appended, inserted or assigned, or several are inserted one by one) and allocations fail (anywhere):
every vector behaves like the list obtained by carrying out the operations that did not throw and
skipping those that did (an insertion of several elements that throws may leave those already copied
at the end); every allocation belongs to exactly one vector; nothing is leaked or destroyed twice —
destroying all vectors afterwards releases everything. -/
theorem C110_history [DecidableEq α] {W : Nat} (hW : Arith.StdWidth W) (p : Prog (Op α) Faults)
    (ho : ObeysT W (fun m op f => op.NoEmptyInsert m ∧ op.NoOverwrite m ∧ Calm f op) p (fun _ => [])) :
    ∃ s ts m, runT W true p State.empty = .ok (s, ts) ∧
      StepsT W p (fun _ => []) ts m ∧ (∀ x, Observes s m x) ∧
      (∀ b, s.h.blocks b ≠ none → ∃ x, (s.vs x).ptr = some b ∧ (s.vs x).self = true ∧
        ∀ y, (s.vs y).ptr = some b → y = x) ∧
      (∀ x, ∃ s', (Op.destroy x : Op α).exec W true s = .ok s') := by
  obtain ⟨s, ts, m, e, w, st⟩ := runT_ok hW p (wf_empty true) ho
  refine ⟨s, ts, m, e, st, fun x => observes w x, ?_, fun x => ?_⟩
  · intro b hb
    rcases w.owned b hb with h | ⟨x, hx, hs⟩
    · exact h.elim
    · exact ⟨x, hx, hs, fun y hy => w.inj y x b hy hx⟩
  · obtain ⟨s', e', _⟩ := exec_ok hW w (.destroy x) trivial (fun _ => trivial) rfl
    exact ⟨s', e'⟩

/-- **C109** One operation in any well-formed state, elements with destructors: if copies throw only in
single-element operations and element-by-element insertions, the operation takes effect or throws and
leaves the lists as they were (up to already copied elements at the end); lifetimes stay exact.
Missing: `resize`, `set`, copy assignment, range construction and forward range insertion, where the
claim is false (see the `_violated` theorems). -/
theorem C109_step_partial {W : Nat} (hW : Arith.StdWidth W) {ext : Nat → Prop} (s : State α)
    (m : Nat → List α) (w : WF true ext s m) (op : Op α) (hs : (op.spec W m).isSome)
    (he : op.NoEmptyInsert m) (ho : op.NoOverwrite m) (f : Faults) (hc : Calm f op) :
    ∃ s' t m', execT W true f s op = .ok (s', t) ∧ WF true ext s' m' ∧ StepT W m op t m' ∧
      (t = true → ∃ i, f.alloc i = true ∨ f.copy i = true) :=
  execT_ok hW w op hs he (fun _ => ho) f hc

/-- Non-vacuity (C110): the copy for the second `push` throws, an `insert(pos, 3, x)` throws at its third
copy (two copies remain at the end), an allocation fails; then everything is destroyed. -/
example : ∃ s ts, runT 32 true (.ofList
    [(.push 0 1, ⟨fun _ => false, fun _ => false⟩), (.push 0 2, ⟨fun _ => false, fun _ => true⟩),
     (.insertN 0 0 3 7, ⟨fun _ => false, fun i => i == 2⟩), (.push 0 4, ⟨fun _ => true, fun _ => false⟩),
     (.reserve 0 9, ⟨fun _ => true, fun _ => false⟩)]) (State.empty (α := Nat)) = .ok (s, ts) ∧
    ts = [false, true, true, false, true] ∧ toList s.h (s.vs 0) = .ok [1, 7, 7, 4] :=
  ⟨_, _, rfl, by decide, by decide⟩

/-! ## What goes wrong -/

theorem constructT_throw {strict : Bool} {b : Nat} {copy : Nat → Bool} (xs : List α) {i : Nat}
    {h : Heap α} {p mid q : List (Slot α)} (hi : i = p.length) (hm : mid.length = xs.length)
    (hr : strict = true → ∀ s ∈ mid, s = .raw) (hs : h.blocks b = some (p ++ (mid ++ q)))
    {k : Nat} (hk : k < xs.length) (hck : copy k = true) (hcl : ∀ j, j < k → copy j = false) :
    constructT strict b copy i xs h =
      .ok (h.setBlk b (some (p ++ (vals (xs.take k) ++ (mid.drop k ++ q)))), true) := by
  induction xs generalizing i h p mid copy k with
  | nil => simp at hk
  | cons a xs ih =>
    cases mid with
    | nil => simp at hm
    | cons s mid =>
      cases k with
      | zero =>
        simp only [constructT, hck, if_true, List.take_zero, List.map_nil, List.nil_append, List.drop_zero]
        rw [setBlk_self _ hs]
      | succ k =>
        simp only [constructT, hcl 0 (by omega), Bool.false_eq_true, if_false]
        rw [construct_at (p := p) (s := s) (q := mid ++ q) (by simpa using hs) hi
          (fun e => hr e s List.mem_cons_self), ok_bind,
          ih (p := p ++ [.val a]) (mid := mid) (k := k) (copy := fun i => copy (i + 1)) (by simp [hi])
          (by simpa using hm) (fun e t ht => hr e t (List.mem_cons_of_mem _ ht)) (by simp)
          (by simpa using hk) hck (fun j hj => hcl (j + 1) (by omega)), setBlk_setBlk]
        simp

/-- **C109 is violated** by `resize`: for every vector and every size that adds at least two elements, if
a copy other than the first throws, the vector keeps its elements, but the copies already made are
forgotten: destroying the vector leaks them. -/
theorem C109_resize_violated {W : Nat} (h : Heap α) (v : Vec) (l : List α) (r : Rep true h v l)
    (hf : Fresh h) (n : Nat) (a : α) (hl : Lim W n) (copy : Nat → Bool) (k : Nat) (hk0 : 0 < k)
    (hk : k < n - l.length) (hck : copy k = true) (hcl : ∀ j, j < k → copy j = false) :
    ∃ h' v', resizeT W true false copy h v n a = .ok (h', v', true) ∧ toList h' v' = .ok l ∧
      (v'.self = true → deallocate true h' v' = .error .leak) := by
  unfold resizeT
  rcases reserveF_rep (fa := false) r hf hl with ⟨h0, _⟩ | ⟨h1, v1, e, e1, r1, hcap, hu1, f1⟩
  · cases h0
  obtain ⟨b, rest, hp, hb, hs, hu, ha, hr⟩ := r1.toBlk (by omega)
  have hlen : (List.replicate (n - l.length) a).length = n - l.length := by simp
  have hne : List.replicate (n - l.length) a ≠ [] := by
    intro e0
    rw [e0] at hlen
    simp at hlen; omega
  have hfrom : constructFromT true copy h1 v1 v1.used (List.replicate (n - v1.used) a) =
      constructT true b copy l.length (List.replicate (n - l.length) a) h1 := by
    rw [hu]
    revert hne
    cases List.replicate (n - l.length) a with
    | nil => intro hne; exact absurd rfl hne
    | cons x xs => intro _; simp only [constructFromT, base_ok hp, ok_bind]
  have hsplit : rest = rest.take (n - l.length) ++ rest.drop (n - l.length) := by simp
  have hrt : rest.length ≥ n - l.length := by omega
  obtain ⟨hr1, hr2⟩ := raw_append (strict := true) (p := rest.take (n - l.length))
    (q := rest.drop (n - l.length)) (by rw [← hsplit]; exact hr)
  have hct := constructT_throw (strict := true) (b := b) (copy := copy) (i := l.length) (h := h1)
    (List.replicate (n - l.length) a) (p := vals l) (mid := rest.take (n - l.length))
    (q := rest.drop (n - l.length)) (by simp) (by simp; omega) hr1 (by rw [hs, ← hsplit])
    (k := k) (by simpa using hk) hck hcl
  refine ⟨_, v1, by rw [e]; simp only [andThen, Except.bind, Bool.false_eq_true, if_false, hfrom, hct]; rfl, ?_, ?_⟩
  · have hrep : Rep false (h1.setBlk b (some (vals l ++ (vals ((List.replicate (n - l.length) a).take k) ++
        ((rest.take (n - l.length)).drop k ++ rest.drop (n - l.length)))))) v1 l :=
      .blk b _ hp hb (by rw [setBlk_blocks, if_pos rfl]) hu (by
        simp only [List.length_append, List.length_map, List.length_take, List.length_drop,
          List.length_replicate]; omega) (by simp)
    exact toList_ok hrep
  · intro hself
    unfold deallocate
    rw [if_neg (by simp [hself, hp]), base_ok hp, ok_bind, hu]
    rw [destroyLoop_ok (p := []) (lo := 0) (mid := vals l)
      (q := vals ((List.replicate (n - l.length) a).take k) ++
        ((rest.take (n - l.length)).drop k ++ rest.drop (n - l.length))) rfl (vals_live l)
      (by rw [setBlk_blocks, if_pos rfl]; rfl) l.length (by simp)]
    rw [ok_bind]
    have hany : ∀ (x y : List (Slot α)), (x ++ (vals ((List.replicate (n - l.length) a).take k) ++ y)).any
        (fun s => !s.isRaw) = true := by
      intro x y
      rw [List.any_append, List.any_append]
      have : (vals ((List.replicate (n - l.length) a).take k)).any (fun s => !s.isRaw) = true := by
        rw [List.take_replicate, Nat.min_eq_left (by omega), show k = (k - 1) + 1 by omega,
          List.replicate_succ]
        rfl
      rw [this]; simp
    unfold Heap.free
    rw [setBlk_blocks, if_pos rfl]
    simp only [Bool.true_and]
    rw [if_pos]
    · rfl
    · simp only [List.nil_append]
      rw [← List.append_assoc]
      exact hany _ _

theorem read_cases (h : Heap α) (b i : Nat) : (∃ a, h.read b i = .ok a) ∨ h.read b i = .error .ub := by
  unfold Heap.read Heap.get
  cases h.blocks b with
  | none => right; rfl
  | some ss =>
    cases hs : ss[i]? with
    | none => right; simp [hs, bind, Except.bind]
    | some t =>
      cases t with
      | raw => right; simp [hs, bind, Except.bind]
      | moved => right; simp [hs, bind, Except.bind]
      | val a => left; exact ⟨a, by simp [hs, bind, Except.bind]⟩

theorem values_cases (h : Heap α) (b n : Nat) :
    (∃ l, values h b n = .ok l ∧ ∀ i, i < n → ∃ a, h.read b i = .ok a) ∨ values h b n = .error .ub := by
  induction n with
  | zero => left; exact ⟨[], rfl, by intro i hi; omega⟩
  | succ n ih =>
    rcases ih with ⟨l, e, hr⟩ | e
    · rcases read_cases h b n with ⟨a, ea⟩ | ea
      · left
        refine ⟨l ++ [a], by simp only [values, e, ok_bind, ea]; rfl, ?_⟩
        intro i hi
        by_cases hin : i = n
        · subst hin; exact ⟨a, ea⟩
        · exact hr i (by omega)
      · right; simp only [values, e, ok_bind, ea]; rfl
    · right; simp only [values, e]; rfl

/-- A vector one of whose slots holds no value cannot be read. -/
theorem toList_ub {h : Heap α} {v : Vec} {b : Nat} (hp : v.ptr = some b) {i : Nat} (hi : i < v.used)
    (hr : h.read b i = .error .ub) : toList h v = .error .ub := by
  unfold toList
  rw [if_neg (by omega), base_ok hp, ok_bind]
  rcases values_cases h b v.used with ⟨l, _, hok⟩ | e
  · obtain ⟨a, ha⟩ := hok i hi
    rw [ha] at hr; cases hr
  · exact e

theorem read_moved {h : Heap α} {b : Nat} {p q : List (Slot α)} (e : h.blocks b = some (p ++ .moved :: q))
    {i : Nat} (hi : i = p.length) : h.read b i = .error .ub := by
  simp [Heap.read, get_at e hi, bind, Except.bind]

theorem read_raw {h : Heap α} {b : Nat} {p q : List (Slot α)} (e : h.blocks b = some (p ++ .raw :: q))
    {i : Nat} (hi : i = p.length) : h.read b i = .error .ub := by
  simp [Heap.read, get_at e hi, bind, Except.bind]

/-- **C109 is violated** by `insert(pos, first, last)` with forward iterators: for every vector, every
position in front of an element and every non-empty range, if the first copy throws, the vector
is left with moved-from elements (its values are lost; the shifted elements are beyond its end). -/
theorem C109_range_violated {W : Nat} (h : Heap α) (v : Vec) (l : List α) (r : Rep true h v l)
    (hf : Fresh h) (off : Nat) (ho : off < l.length) (xs : List α) (hx : xs ≠ [])
    (hl : Lim W (l.length + xs.length)) (copy : Nat → Bool) (hc : copy 0 = true) :
    ∃ h' v', insertRangeT W true false copy h v off xs = .ok (h', v', true) ∧
      v'.used = l.length ∧ toList h' v' = .error .ub := by
  have hxl : 0 < xs.length := List.length_pos_iff.2 hx
  have hmodx : xs.length % 2 ^ W = xs.length := Lim.mod ⟨hl.std, by have := hl.le; omega⟩
  unfold insertRangeT
  rw [decide_eq_true (show off ≤ v.used by rw [r.used]; omega), require_true, ok_bind,
    if_neg (show ¬ v.used = 0 by rw [r.used]; omega), r.used, hmodx]
  simp only [hl.mod]
  rcases reserveF_rep (fa := false) r hf hl with ⟨h0, _⟩ | ⟨h1, v1, e, e1, r1, hcap, hu1, f1⟩
  · cases h0
  obtain ⟨b, rest, hp, hb, hs, hu, ha, hr⟩ := r1.toBlk (by omega)
  have hsplit : rest = rest.take xs.length ++ rest.drop xs.length := by simp
  obtain ⟨hr1, _⟩ := raw_append (strict := true) (p := rest.take xs.length) (q := rest.drop xs.length)
    (by rw [← hsplit]; exact hr)
  have hRl : (rest.take xs.length).length = xs.length := by rw [List.length_take]; omega
  have hsh := shiftTail_ok (strict := true) (h := h1) (b := b) (A := l.take off) (T := l.drop off)
    (R := rest.take xs.length) (Q := rest.drop xs.length) (by omega) hr1
    (by rw [hs, List.take_append_drop, ← hsplit]) (used := l.length) (cnt := xs.length)
    (by simp; omega) hRl.symm (l.length - off) (by simp)
  have hhole : hole (rest.take xs.length) xs.length (l.length - off) =
      .moved :: (List.replicate (min (l.length - off) xs.length - 1) .moved ++
        (rest.take xs.length).take (xs.length - (l.length - off))) := by
    unfold hole
    rw [show min (l.length - off) xs.length = (min (l.length - off) xs.length - 1) + 1 by omega,
      List.replicate_succ]
    rfl
  rw [hhole] at hsh
  obtain ⟨x, xs', rfl⟩ := List.exists_cons_of_ne_nil hx
  refine ⟨_, v1, by
    rw [e]
    simp only [andThen, Except.bind, Bool.false_eq_true, if_false, base_ok hp, ok_bind, hu, hsh,
      writeNewT, hc, if_true]
    rfl, hu, ?_⟩
  have hrm : ∀ H : Heap α, (∃ q, H.blocks b = some (vals (l.take off ++ (l.drop off).take
      ((l.drop off).length - (l.length - off))) ++ .moved :: q)) → H.read b off = .error .ub := by
    rintro H ⟨q, hq⟩
    exact read_moved hq (by simp; omega)
  exact toList_ub hp (i := off) (by omega) (hrm _ ⟨_, by rw [setBlk_blocks, if_pos rfl]; rfl⟩)

/-- vector.h:61-64, 75-78 construction from a range (also the copy constructor and the other
constructors that call `set` or `resize`): if `set` throws there is no vector, and no destructor runs. -/
def fromRangeT (W : Nat) (strict fa : Bool) (copy : Nat → Bool) (h : Heap α) (xs : List α) :
    Res (Heap α × Option Vec) :=
  (setT W strict fa copy h Vec.empty xs).map fun o => (o.1, if o.2.2 then none else some o.2.1)

/-- **C109 is violated** by the constructors: whenever a copy throws, the memory allocated for the elements
stays allocated although there is no vector that could release it. -/
theorem C109_ctor_violated {W : Nat} (h : Heap α) (hf : Fresh h) (xs : List α)
    (hl : Lim W xs.length) (copy : Nat → Bool) (k : Nat) (hk : k < xs.length) (hck : copy k = true)
    (hcl : ∀ j, j < k → copy j = false) :
    ∃ h' b, fromRangeT W true false copy h xs = .ok (h', none) ∧ h.blocks b = none ∧
      h'.blocks b ≠ none := by
  have hx : xs.length ≤ 2 ^ W - 1 := by have := Lim.pow _ _ hl; omega
  unfold fromRangeT setT
  rw [decide_eq_true hx, verify_true, ok_bind]
  have r0 : Rep true h Vec.empty ([] : List α) := .null rfl rfl
  rcases reserveF_rep (fa := false) r0 hf hl with ⟨h0, _⟩ | ⟨h1, v1, e, e1, r1, hcap, hu1, f1⟩
  · cases h0
  obtain ⟨b, rest, hp, hb, hs, hu, ha, hr⟩ := r1.toBlk (by omega)
  simp only [List.map_nil, List.nil_append, List.length_nil, Nat.zero_add] at hs hu ha
  have hbn : h.next ≤ b := by
    rcases f1.ptr with ⟨h0, _⟩ | h0 | ⟨c, hc, h0, _⟩
    · rw [hp] at h0; cases h0
    · rw [hp] at h0; cases h0
    · rw [hp] at h0; cases h0; exact hc
  have hsplit : rest = rest.take xs.length ++ rest.drop xs.length := by simp
  obtain ⟨hr1, _⟩ := raw_append (strict := true) (p := rest.take xs.length) (q := rest.drop xs.length)
    (by rw [← hsplit]; exact hr)
  have hct := constructT_throw (strict := true) (b := b) (copy := copy) (i := 0) (h := h1) xs (p := [])
    (mid := rest.take xs.length) (q := rest.drop xs.length) rfl (by simp; omega) hr1
    (by rw [hs, List.nil_append, ← hsplit]) hk hck hcl
  have hfrom : constructFromT true copy h1 v1 0 xs = constructT true b copy 0 xs h1 := by
    cases xs with
    | nil => simp at hk
    | cons x xs => simp only [constructFromT, base_ok hp, ok_bind]
  refine ⟨_, b, by
    rw [e]
    simp only [andThen, Except.bind, Bool.false_eq_true, if_false, hfrom, hct]
    rfl, hf b hbn, ?_⟩
  simp only [finishT, if_true]
  rw [setBlk_blocks, if_pos rfl]
  simp

/-- vector.h:359-382 in a release build (`NDEBUG`, the `assert(0)` of line 370 has no effect), if moving
element `k` throws: the exception is swallowed, the remaining elements are not moved, none is
destroyed, and the new block takes the place of the old one. -/
def reserveMoveT (W : Nat) (strict : Bool) (k : Nat) (h : Heap α) (v : Vec) (n : Nat) :
    Res (Heap α × Vec) :=
  let n := max v.alloc n
  if v.alloc ≥ n then .ok (h, v) else do
    let nx := (Arith.nextPow2 (BitVec.ofNat W n)).toNat
    let (b, h) := h.alloc nx
    let src ← v.base
    let h ← moveLoop strict src b k h
    let h ← freeOld strict h v
    return (h, { ptr := some b, used := v.used, alloc := nx, self := true })

/-- **C109 is violated** if *moving* an element throws while the vector grows: no exception reaches the
caller, the vector claims to hold all its elements, but reading them is undefined behaviour. -/
theorem C109_move_violated {W : Nat} (h : Heap α) (v : Vec) (l : List α) (r : Rep false h v l)
    (n : Nat) (hl : Lim W n) (hn : v.alloc < n) (k : Nat) (hk : k < l.length) :
    ∃ h' v', reserveMoveT W false k h v n = .ok (h', v') ∧ v'.used = l.length ∧
      toList h' v' = .error .ub := by
  obtain ⟨b, rest, hp, hb, hs, hu, ha, hr⟩ := r.toBlk (Or.inr (by rw [r.used]; omega))
  have hne : b ≠ h.next := by omega
  have hge := nextPow2_ge hl (by omega)
  unfold reserveMoveT
  simp only []
  rw [if_neg (by omega), show max v.alloc n = n by omega]
  generalize (Arith.nextPow2 (BitVec.ofNat W n)).toNat = nx at hge
  simp only [Heap.alloc, base_ok hp, ok_bind]
  rw [moveLoop_ok hne (l := l) (rest := rest) (tail := []) k (by omega) nx (by omega)
    (by simp [hne, hs]) (by simp), ok_bind]
  have hread : ∀ H : Heap α, H.blocks h.next = some (vals (l.take k) ++ (List.replicate (nx - k) .raw ++ [])) →
      H.read h.next k = .error .ub := by
    intro H hH
    refine read_raw (p := vals (l.take k)) (q := List.replicate (nx - k - 1) .raw) ?_ (by simp; omega)
    rw [hH, show nx - k = (nx - k - 1) + 1 by omega, List.replicate_succ]
    simp
  unfold freeOld
  cases hself : v.self with
  | false =>
    rw [if_neg (by simp), ok_bind, pure_ok]
    refine ⟨_, _, rfl, hu, toList_ub rfl (i := k) (by simp only [hu]; omega) (hread _ ?_)⟩
    rw [setBlk_blocks, if_pos rfl]
  | true =>
    rw [if_pos rfl, base_ok hp, ok_bind]
    have hfree : ∀ H : Heap α, H.blocks b ≠ none → H.free false b = .ok (H.setBlk b none) := by
      intro H hH
      unfold Heap.free
      cases hx : H.blocks b with
      | none => exact absurd hx hH
      | some ss => simp
    rw [hfree _ (by rw [setBlk_blocks, if_neg hne, setBlk_blocks, if_pos rfl]; simp), ok_bind, pure_ok]
    refine ⟨_, _, rfl, hu, toList_ub rfl (i := k) (by simp only [hu]; omega) (hread _ ?_)⟩
    rw [setBlk_blocks, if_neg (Ne.symm hne), setBlk_blocks, if_pos rfl]

/-- Non-vacuity (C109): a vector with the elements 1, 2 and capacity 2; each of the four faults occurs. -/
def demo : Heap Nat × Vec :=
  (⟨fun b => if b = 0 then some [.val 1, .val 2] else none, 1⟩, ⟨some 0, 2, 2, true⟩)

example : Rep true demo.1 demo.2 [1, 2] ∧ Fresh demo.1 :=
  ⟨.blk 0 [] rfl (by decide) rfl rfl rfl (by simp), by
    intro b hb
    simp only [demo] at hb ⊢
    rw [if_neg (by omega)]⟩

example : ((resizeT 32 true false (fun i => i == 1) demo.1 demo.2 4 9).bind fun o =>
    (deallocate true o.1 o.2.1).map fun _ => ()) = .error .leak := by decide
example : ((insertRangeT 32 true false (fun i => i == 0) demo.1 demo.2 1 [9]).bind fun o =>
    toList o.1 o.2.1) = .error .ub := by decide
example : ((fromRangeT 32 true false (fun i => i == 1) demo.1 [7, 8]).map fun o => (o.1.blocks 1, o.2)) =
    .ok (some [.val 7, .raw], none) := by decide
example : ((reserveMoveT 32 false 1 demo.1 demo.2 3).bind fun o => toList o.1 o.2) = .error .ub := by decide

end Cista.Throw
