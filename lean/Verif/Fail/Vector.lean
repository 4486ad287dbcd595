import Verif.Vector.Props
import Verif.Fail.Prog

set_option linter.unusedSimpArgs false

/-!
# C101 — vector when memory runs out

The operations of `vector.h` once more, now with an oracle that decides which call of `std::malloc`
returns a null pointer.  A thrown `std::bad_alloc` leaves the operation in the state reached so far;
that state is part of the result.

Simplification: the elements' own constructors do not throw (see `Verif.Throw.Vector`).
-/
namespace Cista.Fail

open Cista.Mem Cista.Vector

variable {α : Type}

/-- State after a call: heap, vector, and whether `std::bad_alloc` was thrown. -/
abbrev VecOut (α : Type) := Heap α × Vec × Bool

/-- vector.h:345-382 `reserve`; `fail` = `std::malloc` (line 354) returns null, then lines 355-357
throw before anything has been changed. -/
def reserveF (W : Nat) (strict fail : Bool) (h : Heap α) (v : Vec) (n : Nat) : Res (VecOut α) :=
  let n := max v.alloc n
  if v.alloc ≥ n then .ok (h, v, false) else do
    let nx := (Arith.nextPow2 (BitVec.ofNat W n)).toNat
    if fail then .ok (h, v, true) else do
      let (b, h) := h.alloc nx
      let h ← migrate strict h v b
      let h ← freeOld strict h v
      return (h, { ptr := some b, used := v.used, alloc := nx, self := true }, false)

/-- The rest of a function after `reserve`: skipped if `reserve` threw. -/
def andThen (r : Res (VecOut α)) (k : Heap α → Vec → Res (VecOut α)) : Res (VecOut α) :=
  r.bind fun o => if o.2.2 then .ok o else k o.1 o.2.1

/-- vector.h:294-313 `push_back`, `emplace_back`. -/
def pushBackF (W : Nat) (strict fail : Bool) (h : Heap α) (v : Vec) (a : α) : Res (VecOut α) :=
  andThen (reserveF W strict fail h v ((v.used + 1) % 2 ^ W)) fun h v => do
    let b ← v.base
    let h ← h.construct strict b v.used a
    return (h, { v with used := (v.used + 1) % 2 ^ W }, false)

/-- `std::rotate` at the end of the insertions (vector.h:223, 237, 251). -/
def rotateF (off oldSize : Nat) (h : Heap α) (v : Vec) : Res (VecOut α) := do
  let (h, _) ← rotateIn h v off oldSize
  return (h, v, false)

/-- vector.h:214-224 `insert(it, el)`. -/
def insertOneF (W : Nat) (strict fail : Bool) (h : Heap α) (v : Vec) (off : Nat) (a : α) :
    Res (VecOut α) := do
  require (off ≤ v.used)
  andThen (pushBackF W strict fail h v a) (rotateF off v.used)

/-- vector.h:226-238 `insert(it, count, value)`. -/
def insertNF (W : Nat) (strict fail : Bool) (h : Heap α) (v : Vec) (off n : Nat) (a : α) :
    Res (VecOut α) := do
  require (off ≤ v.used)
  andThen (reserveF W strict fail h v ((v.used + n) % 2 ^ W)) fun h v => do
    let h ← constructFrom strict h v v.used (List.replicate n a)
    rotateF off v.used h { v with used := (v.used + n) % 2 ^ W }

/-- vector.h:245-249: append one by one; `fails i` decides about the allocation for element `i`. -/
def appendEachF (W : Nat) (strict : Bool) : (Nat → Bool) → List α → Heap α → Vec → Res (VecOut α)
  | _, [], h, v => .ok (h, v, false)
  | fails, a :: xs, h, v =>
    andThen (pushBackF W strict (fails 0) h v a) (appendEachF W strict (fun i => fails (i + 1)) xs)

/-- vector.h:240-252 `insert(pos, first, last, input_iterator_tag)`. -/
def insertInputF (W : Nat) (strict : Bool) (fails : Nat → Bool) (h : Heap α) (v : Vec) (off : Nat)
    (xs : List α) : Res (VecOut α) := do
  require (off ≤ v.used)
  andThen (appendEachF W strict fails xs h v) (rotateF off v.used)

/-- vector.h:171-187 `set(begin_it, end_it)`. -/
def setF (W : Nat) (strict fail : Bool) (h : Heap α) (v : Vec) (xs : List α) : Res (VecOut α) := do
  verify (xs.length ≤ 2 ^ W - 1)
  andThen (reserveF W strict fail h v xs.length) fun h v => do
    let h ← constructFrom strict h v 0 xs
    return (h, { v with used := xs.length }, false)

/-- vector.h:254-286 `insert(pos, first, last, forward_iterator_tag)`. -/
def insertRangeF (W : Nat) (strict fail : Bool) (h : Heap α) (v : Vec) (off : Nat) (xs : List α) :
    Res (VecOut α) := do
  require (off ≤ v.used)
  if v.used = 0 then setF W strict fail h v xs
  else
    let cnt := xs.length % 2 ^ W
    andThen (reserveF W strict fail h v ((v.used + cnt) % 2 ^ W)) fun h v => do
      let b ← v.base
      let h ← shiftTail strict b v.used cnt (v.used - off) h
      let h ← writeNew strict b v.used off xs h
      return (h, { v with used := (v.used + cnt) % 2 ^ W }, false)

/-- vector.h:315-329 `resize`. -/
def resizeF (W : Nat) (strict fail : Bool) (h : Heap α) (v : Vec) (n : Nat) (a : α) :
    Res (VecOut α) :=
  andThen (reserveF W strict fail h v n) fun h v => do
    let h ← constructFrom strict h v v.used (List.replicate (n - v.used) a)
    return (h, { v with used := n }, false)

/-- Store heap, vector and flag. -/
def putF (s : State α) (d : Nat) (o : VecOut α) : State α × Bool := (s.put d (o.1, o.2.1), o.2.2)

/-- One operation on the store; `fails i` = the `i`-th allocation of the call returns null.
Operations that never allocate are those of `Op.exec`. -/
def execF (W : Nat) (strict : Bool) (fails : Nat → Bool) (s : State α) : Op α → Res (State α × Bool)
  | .push d a => (pushBackF W strict (fails 0) s.h (s.vs d) a).map (putF s d)
  | .insertOne d off a => (insertOneF W strict (fails 0) s.h (s.vs d) off a).map (putF s d)
  | .insertN d off n a => (insertNF W strict (fails 0) s.h (s.vs d) off n a).map (putF s d)
  | .insertInput d off xs => (insertInputF W strict fails s.h (s.vs d) off xs).map (putF s d)
  | .insertRange d off xs => (insertRangeF W strict (fails 0) s.h (s.vs d) off xs).map (putF s d)
  | .resize d n a => (resizeF W strict (fails 0) s.h (s.vs d) n a).map (putF s d)
  | .reserve d n => (reserveF W strict (fails 0) s.h (s.vs d) n).map (putF s d)
  | .set d xs => (setF W strict (fails 0) s.h (s.vs d) xs).map (putF s d)
  | .copyAssign d x => if d = x then .ok (s, false) else
      (toList s.h (s.vs x)).bind fun xs => (setF W strict (fails 0) s.h (s.vs d) xs).map (putF s d)
  | op => (op.exec W strict s).map fun s' => (s', false)

/-- Run a program; the result contains which of the executed operations threw. -/
def runF (W : Nat) (strict : Bool) : Prog (Op α) (Nat → Bool) → State α → Res (State α × List Bool)
  | .done, s => .ok (s, [])
  | .step op fails next, s => (execF W strict fails s op).bind fun r =>
      (runF W strict (next r.2) r.1).map fun q => (q.1, r.2 :: q.2)

/-! ## Specification -/

/-- What an operation may do to the lists.  If it does not throw: exactly what the operation does.
If it throws: nothing — except range insertion from single-pass iterators, which may leave some of
the elements it has already read at the end of its vector. -/
def StepF (W : Nat) (m : Nat → List α) (op : Op α) : Bool → (Nat → List α) → Prop
  | false, m' => op.spec W m = some m'
  | true, m' => match op with
    | .push .. | .insertOne .. | .insertN .. | .insertRange .. | .resize .. | .reserve .. | .set ..
    | .copyAssign .. => m' = m
    | .insertInput d _ xs => ∃ k, k < xs.length ∧ m' = upd m d (m d ++ xs.take k)
    | _ => False

/-- The lists after a program with the given outcomes. -/
def StepsF (W : Nat) : Prog (Op α) (Nat → Bool) → (Nat → List α) → List Bool → (Nat → List α) → Prop
  | .done, m, [], m' => m' = m
  | .step op _ next, m, t :: ts, m' => ∃ m1, StepF W m op t m1 ∧ StepsF W (next t) m1 ts m'
  | _, _, _, _ => False

/-- The program meets the obligations of every operation it executes, whichever operations throw. -/
def Obeys (W : Nat) (P : (Nat → List α) → Op α → Prop) : Prog (Op α) (Nat → Bool) → (Nat → List α) → Prop
  | .done, _ => True
  | .step op _ next, m => (op.spec W m).isSome ∧ P m op ∧
      ∀ t m', StepF W m op t m' → Obeys W P (next t) m'

/-! ## Proof -/

theorem reserveF_ok {W : Nat} {strict : Bool} (h : Heap α) (v : Vec) (n : Nat) (fail : Bool) :
    (fail = true ∧ reserveF W strict fail h v n = .ok (h, v, true)) ∨
      reserveF W strict fail h v n = (reserve W strict h v n).map fun r => (r.1, r.2, false) := by
  unfold reserveF reserve
  by_cases hc : v.alloc ≥ max v.alloc n
  · right; simp only [if_pos hc]; rfl
  · simp only [if_neg hc]
    cases fail with
    | true => left; exact ⟨rfl, rfl⟩
    | false =>
      right
      simp only [Bool.false_eq_true, if_false]
      cases migrate strict (h.alloc (Arith.nextPow2 (BitVec.ofNat W (max v.alloc n))).toNat).2 v
        (h.alloc (Arith.nextPow2 (BitVec.ofNat W (max v.alloc n))).toNat).1 with
      | error e => rfl
      | ok h2 =>
        simp only [ok_bind]
        cases freeOld strict h2 v with
        | error e => rfl
        | ok h3 => rfl

theorem andThen_thrown (h : Heap α) (v : Vec) (k : Heap α → Vec → Res (VecOut α)) :
    andThen (.ok (h, v, true)) k = .ok (h, v, true) := rfl

theorem andThen_map (r : Res (Heap α × Vec)) (k : Heap α → Vec → Res (VecOut α)) :
    andThen (r.map fun r => (r.1, r.2, false)) k = r.bind fun o => k o.1 o.2 := by
  cases r <;> rfl

/-- A call either throws at its first allocation — nothing has changed — or does what it does when
memory is available. -/
def Atomic (fail : Bool) (h : Heap α) (v : Vec) (f : Res (VecOut α)) (g : Res (Heap α × Vec)) : Prop :=
  (fail = true ∧ f = .ok (h, v, true)) ∨ f = g.map fun r => (r.1, r.2, false)

theorem Atomic.after {W : Nat} {strict fail : Bool} {h : Heap α} {v : Vec} {n : Nat}
    {k : Heap α → Vec → Res (VecOut α)} {k' : Heap α → Vec → Res (Heap α × Vec)}
    (hk : ∀ h v, k h v = (k' h v).map fun r => (r.1, r.2, false)) :
    Atomic fail h v (andThen (reserveF W strict fail h v n) k)
      ((reserve W strict h v n).bind fun o => k' o.1 o.2) := by
  rcases reserveF_ok (W := W) (strict := strict) h v n fail with ⟨hf, e⟩ | e
  · left; exact ⟨hf, by rw [e]; rfl⟩
  · right
    rw [e, andThen_map]
    cases reserve W strict h v n with
    | error e => rfl
    | ok o => exact hk o.1 o.2

theorem pushBackF_atomic {W : Nat} {strict fail : Bool} (h : Heap α) (v : Vec) (a : α) :
    Atomic fail h v (pushBackF W strict fail h v a) (pushBack W strict h v a) := by
  have := Atomic.after (W := W) (strict := strict) (fail := fail) (h := h) (v := v)
    (n := (v.used + 1) % 2 ^ W)
    (k := fun h v => do
      let b ← v.base
      let h ← h.construct strict b v.used a
      return (h, { v with used := (v.used + 1) % 2 ^ W }, false))
    (k' := fun h v => do
      let b ← v.base
      let h ← h.construct strict b v.used a
      return (h, { v with used := (v.used + 1) % 2 ^ W })) (by
      intro h v
      cases v.base with
      | error e => rfl
      | ok b =>
        simp only [ok_bind]
        cases h.construct strict b v.used a <;> rfl)
  exact this

theorem bindF {β γ : Type} (x : Res β) (k : β → Res γ) : (x >>= k) = x.bind k := rfl

theorem insertOneF_atomic {W : Nat} {strict fail : Bool} (h : Heap α) (v : Vec) (off : Nat) (a : α)
    (ho : off ≤ v.used) : Atomic fail h v (insertOneF W strict fail h v off a)
      ((insertOne W strict h v off a).map fun r => (r.1, r.2.1)) := by
  unfold insertOneF insertOne
  simp only [decide_eq_true ho, require_true, ok_bind]
  rcases pushBackF_atomic (W := W) (strict := strict) (fail := fail) h v a with ⟨hf, e⟩ | e
  · left; exact ⟨hf, by rw [e]; rfl⟩
  · right
    rw [e, andThen_map]
    cases pushBack W strict h v a with
    | error e => rfl
    | ok o =>
      simp only [ok_bind, rotateF]
      show (do let (h, _) ← rotateIn o.1 o.2 off v.used; return (h, o.2, false) : Res (VecOut α)) = _
      cases rotateIn o.1 o.2 off v.used <;> rfl

theorem insertNF_atomic {W : Nat} {strict fail : Bool} (h : Heap α) (v : Vec) (off n : Nat) (a : α)
    (ho : off ≤ v.used) : Atomic fail h v (insertNF W strict fail h v off n a)
      ((insertN W strict h v off n a).map fun r => (r.1, r.2.1)) := by
  unfold insertNF insertN
  simp only [decide_eq_true ho, require_true, ok_bind]
  rcases reserveF_ok (W := W) (strict := strict) h v ((v.used + n) % 2 ^ W) fail with ⟨hf, e⟩ | e
  · left; exact ⟨hf, by rw [e]; rfl⟩
  · right
    rw [e, andThen_map]
    have hu : ∀ o, reserve W strict h v ((v.used + n) % 2 ^ W) = .ok o → o.2.used = v.used := by
      intro o he
      unfold reserve at he
      by_cases hc : v.alloc ≥ max v.alloc ((v.used + n) % 2 ^ W)
      · simp only [if_pos hc] at he; cases he; rfl
      · simp only [if_neg hc] at he
        revert he
        generalize migrate strict _ v _ = x
        cases x with
        | error e => intro he; cases he
        | ok h2 =>
          simp only [ok_bind]
          cases freeOld strict h2 v with
          | error e => intro he; cases he
          | ok h3 => intro he; cases he; rfl
    revert hu
    cases reserve W strict h v ((v.used + n) % 2 ^ W) with
    | error e => intro _; rfl
    | ok o =>
      intro hu
      have hu' := hu o rfl
      show (do let h ← constructFrom strict o.1 o.2 o.2.used (List.replicate n a)
               rotateF off o.2.used h { o.2 with used := (o.2.used + n) % 2 ^ W } : Res (VecOut α)) = _
      simp only [ok_bind]
      cases constructFrom strict o.1 o.2 o.2.used (List.replicate n a) with
      | error e => rfl
      | ok h2 =>
        simp only [ok_bind, rotateF, hu']
        cases rotateIn h2 { o.2 with used := (v.used + n) % 2 ^ W } off v.used <;> rfl

theorem setF_atomic {W : Nat} {strict fail : Bool} (h : Heap α) (v : Vec) (xs : List α)
    (hx : xs.length ≤ 2 ^ W - 1) : Atomic fail h v (setF W strict fail h v xs) (Vector.set W strict h v xs) := by
  unfold setF Vector.set
  simp only [decide_eq_true hx, verify_true, ok_bind]
  exact Atomic.after
    (k' := fun h v => do
      let h ← constructFrom strict h v 0 xs
      return (h, { v with used := xs.length })) (by
      intro h v
      cases constructFrom strict h v 0 xs <;> rfl)

theorem insertRangeF_atomic {W : Nat} {strict fail : Bool} (h : Heap α) (v : Vec) (off : Nat)
    (xs : List α) (ho : off ≤ v.used) (hx : xs.length ≤ 2 ^ W - 1) :
    Atomic fail h v (insertRangeF W strict fail h v off xs)
      ((insertRange W strict h v off xs).map fun r => (r.1, r.2.1)) := by
  unfold insertRangeF insertRange
  simp only [decide_eq_true ho, require_true, ok_bind]
  by_cases hu : v.used = 0
  · simp only [if_pos hu]
    rcases setF_atomic (W := W) (strict := strict) (fail := fail) h v xs hx with ⟨hf, e⟩ | e
    · left; exact ⟨hf, e⟩
    · right
      rw [e]
      cases Vector.set W strict h v xs <;> rfl
  · simp only [if_neg hu]
    rcases reserveF_ok (W := W) (strict := strict) h v ((v.used + xs.length % 2 ^ W) % 2 ^ W) fail with
      ⟨hf, e⟩ | e
    · left; exact ⟨hf, by rw [e]; rfl⟩
    · right
      rw [e, andThen_map]
      cases reserve W strict h v ((v.used + xs.length % 2 ^ W) % 2 ^ W) with
      | error e => rfl
      | ok o =>
        simp only [ok_bind]
        show (do let b ← o.2.base
                 let h ← shiftTail strict b o.2.used (xs.length % 2 ^ W) (o.2.used - off) o.1
                 let h ← writeNew strict b o.2.used off xs h
                 return (h, { o.2 with used := (o.2.used + xs.length % 2 ^ W) % 2 ^ W }, false) :
                 Res (VecOut α)) = _
        cases o.2.base with
        | error e => rfl
        | ok b =>
          simp only [ok_bind]
          cases shiftTail strict b o.2.used (xs.length % 2 ^ W) (o.2.used - off) o.1 with
          | error e => rfl
          | ok h2 =>
            simp only [ok_bind]
            cases writeNew strict b o.2.used off xs h2 <;> rfl

theorem resizeF_atomic {W : Nat} {strict fail : Bool} (h : Heap α) (v : Vec) (n : Nat) (a : α) :
    Atomic fail h v (resizeF W strict fail h v n a) (resize W strict h v n a) :=
  Atomic.after
    (k' := fun h v => do
      let h ← constructFrom strict h v v.used (List.replicate (n - v.used) a)
      return (h, { v with used := n })) (by
      intro h v
      cases constructFrom strict h v v.used (List.replicate (n - v.used) a) <;> rfl)

theorem appendEachF_ok {W : Nat} {strict : Bool} (hW : Arith.StdWidth W) (xs : List α)
    (fails : Nat → Bool) {h : Heap α} {v : Vec} {l : List α} (r : Rep strict h v l) (hf : Fresh h)
    (hl : l.length + xs.length ≤ 2 ^ (W - 1)) :
    (∃ k h' v', k < xs.length ∧ fails k = true ∧
      appendEachF W strict fails xs h v = .ok (h', v', true) ∧
      Rep strict h' v' (l ++ xs.take k) ∧ Frame h v h' v') ∨
    ∃ h' v', appendEachF W strict fails xs h v = .ok (h', v', false) ∧
      appendEach W strict xs h v = .ok (h', v') ∧
      Rep strict h' v' (l ++ xs) ∧ Frame h v h' v' := by
  induction xs generalizing fails h v l with
  | nil =>
    right
    exact ⟨h, v, rfl, rfl, by simpa using r, Frame.refl hf r.good⟩
  | cons a xs ih =>
    simp only [List.length_cons] at hl
    obtain ⟨h1, v1, e1, r1, f1⟩ := pushBack_ok (W := W) r hf ⟨hW, by omega⟩ a
    rcases pushBackF_atomic (W := W) (strict := strict) (fail := fails 0) h v a with ⟨hb, e⟩ | e
    · left
      exact ⟨0, h, v, by simp, hb, by simp only [appendEachF, e]; rfl, by simpa using r,
        Frame.refl hf r.good⟩
    · rw [e1] at e
      have hstep : appendEachF W strict fails (a :: xs) h v =
          appendEachF W strict (fun i => fails (i + 1)) xs h1 v1 := by
        simp only [appendEachF, e]; rfl
      have hstep' : appendEach W strict (a :: xs) h v = appendEach W strict xs h1 v1 := by
        simp only [appendEach, e1]; rfl
      rw [hstep, hstep']
      rcases ih (fun i => fails (i + 1)) r1 f1.fresh (by
        simp only [List.length_append, List.length_cons, List.length_nil]; omega) with
        ⟨k, h', v', hk, hfk, e', r', f'⟩ | ⟨h', v', e', e'', r', f'⟩
      · left
        refine ⟨k + 1, h', v', by simpa using hk, hfk, e', ?_, f1.trans f'⟩
        simpa using r'
      · right
        exact ⟨h', v', e', e'', by simpa using r', f1.trans f'⟩

/-- The vector an operation works on. -/
def target : Op α → Nat
  | .push d _ | .insertOne d _ _ | .insertN d _ _ _ | .insertInput d _ _ | .insertRange d _ _
  | .resize d _ _ | .pop d | .clear d | .reserve d _ | .erase d _ | .eraseRange d _ _ | .set d _
  | .copyAssign d _ | .moveAssign d _ | .write d _ _ | .destroy d => d

/-- Single-pass range insertion. -/
def isInput : Op α → Bool
  | .insertInput .. => true
  | _ => false

theorem put_self (s : State α) (d : Nat) : s.put d (s.h, s.vs d) = s := by
  cases s
  simp only [State.put, upd_self]

theorem Atomic.lift {fail : Bool} {s : State α} {d : Nat} {f : Res (VecOut α)} {g : Res (Heap α × Vec)}
    (a : Atomic fail s.h (s.vs d) f g) :
    (fail = true ∧ f.map (putF s d) = .ok (s, true)) ∨
      f.map (putF s d) = (g.map (s.put d)).map fun s' => (s', false) := by
  rcases a with ⟨hf, e⟩ | e
  · left
    refine ⟨hf, ?_⟩
    rw [e]
    show Except.ok (putF s d (s.h, s.vs d, true)) = _
    simp only [putF, put_self]
  · right
    rw [e]
    cases g <;> rfl

/-- One operation, any oracle: it either throws or is the operation of the model without failures. -/
theorem execF_cases {W : Nat} (hW : Arith.StdWidth W) {strict : Bool} {ext : Nat → Prop} {s : State α}
    {m : Nat → List α} (w : WF strict ext s m) (op : Op α) (hs : (op.spec W m).isSome)
    (hn : isInput op = false) (fails : Nat → Bool) :
    (fails 0 = true ∧ execF W strict fails s op = .ok (s, true) ∧ StepF W m op true m) ∨
      execF W strict fails s op = (op.exec W strict s).map fun s' => (s', false) := by
  have hpow : 2 ^ (W - 1) ≤ 2 ^ W - 1 := by
    have h1 : 0 < W := by rcases hW with h | h | h | h <;> omega
    have : 2 ^ W = 2 * 2 ^ (W - 1) := by
      conv => lhs; rw [show W = (W - 1) + 1 by omega, Nat.pow_succ]
      omega
    have := Nat.pow_pos (a := 2) (n := W - 1) (by omega)
    omega
  cases op with
  | push d a =>
    rcases (pushBackF_atomic (W := W) (strict := strict) (fail := fails 0) s.h (s.vs d) a).lift with
      ⟨hf, e⟩ | e
    · exact Or.inl ⟨hf, e, rfl⟩
    · exact Or.inr e
  | insertOne d off a =>
    simp only [Op.spec] at hs
    split at hs
    · next hc =>
      rcases (insertOneF_atomic (W := W) (strict := strict) (fail := fails 0) s.h (s.vs d) off a
        (by rw [(w.rep d).used]; exact hc.1)).lift with ⟨hf, e⟩ | e
      · exact Or.inl ⟨hf, e, rfl⟩
      · refine Or.inr (e.trans ?_)
        simp only [Op.exec]
        cases insertOne W strict s.h (s.vs d) off a <;> rfl
    · cases hs
  | insertN d off n a =>
    simp only [Op.spec] at hs
    split at hs
    · next hc =>
      rcases (insertNF_atomic (W := W) (strict := strict) (fail := fails 0) s.h (s.vs d) off n a
        (by rw [(w.rep d).used]; exact hc.1)).lift with ⟨hf, e⟩ | e
      · exact Or.inl ⟨hf, e, rfl⟩
      · refine Or.inr (e.trans ?_)
        simp only [Op.exec]
        cases insertN W strict s.h (s.vs d) off n a <;> rfl
    · cases hs
  | insertInput d off xs => cases hn
  | insertRange d off xs =>
    simp only [Op.spec] at hs
    split at hs
    · next hc =>
      rcases (insertRangeF_atomic (W := W) (strict := strict) (fail := fails 0) s.h (s.vs d) off xs
        (by rw [(w.rep d).used]; exact hc.1) (by omega)).lift with ⟨hf, e⟩ | e
      · exact Or.inl ⟨hf, e, rfl⟩
      · refine Or.inr (e.trans ?_)
        simp only [Op.exec]
        cases insertRange W strict s.h (s.vs d) off xs <;> rfl
    · cases hs
  | resize d n a =>
    rcases (resizeF_atomic (W := W) (strict := strict) (fail := fails 0) s.h (s.vs d) n a).lift with
      ⟨hf, e⟩ | e
    · exact Or.inl ⟨hf, e, rfl⟩
    · exact Or.inr e
  | reserve d n =>
    have ha : Atomic (fails 0) s.h (s.vs d) (reserveF W strict (fails 0) s.h (s.vs d) n)
        (reserve W strict s.h (s.vs d) n) := reserveF_ok s.h (s.vs d) n (fails 0)
    rcases ha.lift with ⟨hf, e⟩ | e
    · exact Or.inl ⟨hf, e, rfl⟩
    · exact Or.inr e
  | set d xs =>
    simp only [Op.spec] at hs
    split at hs
    · next hc =>
      rcases (setF_atomic (W := W) (strict := strict) (fail := fails 0) s.h (s.vs d) xs
        (by omega)).lift with ⟨hf, e⟩ | e
      · exact Or.inl ⟨hf, e, rfl⟩
      · exact Or.inr e
    · cases hs
  | copyAssign d x =>
    simp only [Op.spec] at hs
    split at hs
    · next hc =>
      simp only [execF, Op.exec]
      by_cases hdx : d = x
      · right
        simp only [if_pos hdx]
        rfl
      · simp only [if_neg hdx, toList_ok (w.rep x)]
        rcases (setF_atomic (W := W) (strict := strict) (fail := fails 0) s.h (s.vs d) (m x)
          (by omega)).lift with ⟨hf, e⟩ | e
        · exact Or.inl ⟨hf, e, rfl⟩
        · exact Or.inr e
    · cases hs
  | pop d => exact Or.inr rfl
  | clear d => exact Or.inr rfl
  | erase d pos => exact Or.inr rfl
  | eraseRange d i j => exact Or.inr rfl
  | moveAssign d x => exact Or.inr rfl
  | write d i a => exact Or.inr rfl
  | destroy d => exact Or.inr rfl

theorem execF_ok {W : Nat} (hW : Arith.StdWidth W) {strict : Bool} {ext : Nat → Prop} {s : State α}
    {m : Nat → List α} (w : WF strict ext s m) (op : Op α) (hs : (op.spec W m).isSome)
    (he : op.NoEmptyInsert m) (ho : strict = true → op.NoOverwrite m) (fails : Nat → Bool) :
    ∃ s' t m', execF W strict fails s op = .ok (s', t) ∧ WF strict ext s' m' ∧ StepF W m op t m' ∧
      (t = true → ∃ i, fails i = true) ∧ (t = true → isInput op = false → s' = s) := by
  obtain ⟨m1, hm1⟩ := Option.isSome_iff_exists.1 hs
  obtain ⟨s1, e1, w1⟩ := exec_ok hW w op he ho hm1
  by_cases hn : isInput op = false
  · rcases execF_cases hW w op hs hn fails with ⟨hf, e, st⟩ | e
    · exact ⟨s, true, m, e, w, st, fun _ => ⟨0, hf⟩, fun _ _ => rfl⟩
    · rw [e1] at e
      exact ⟨s1, false, m1, e, w1, hm1, by simp, by simp⟩
  · cases op with
    | insertInput d off xs =>
      simp only [Op.spec] at hs
      split at hs
      · next hc =>
        simp only [execF, insertInputF]
        simp only [decide_eq_true (show off ≤ (s.vs d).used by rw [(w.rep d).used]; exact hc.1),
          require_true, ok_bind]
        rcases appendEachF_ok hW xs fails (w.rep d) w.fresh hc.2 with
          ⟨k, h', v', hk, hfk, e, r, f⟩ | ⟨h', v', e, e', r, f⟩
        · refine ⟨_, true, upd m d (m d ++ xs.take k), by rw [e]; rfl, w.lift r f, ⟨k, hk, rfl⟩,
            fun _ => ⟨k, hfk⟩, by simp [isInput]⟩
        · simp only [Op.exec, insertInput] at e1
          simp only [decide_eq_true (show off ≤ (s.vs d).used by rw [(w.rep d).used]; exact hc.1),
            require_true, ok_bind, e'] at e1
          refine ⟨s1, false, m1, ?_, w1, hm1, by simp, by simp⟩
          rw [e]
          show (rotateF off (s.vs d).used h' v').map (putF s d) = _
          unfold rotateF
          revert e1
          cases rotateIn h' v' off (s.vs d).used with
          | error e => intro e1; cases e1
          | ok q => intro e1; cases e1; rfl
      · cases hs
    | _ => exact absurd rfl hn

theorem runF_ok {W : Nat} (hW : Arith.StdWidth W) {strict : Bool} {ext : Nat → Prop}
    (p : Prog (Op α) (Nat → Bool)) {s : State α} {m : Nat → List α} (w : WF strict ext s m)
    (ho : Obeys W (fun m op => op.NoEmptyInsert m ∧ (strict = true → op.NoOverwrite m)) p m) :
    ∃ s' ts m', runF W strict p s = .ok (s', ts) ∧ WF strict ext s' m' ∧ StepsF W p m ts m' := by
  induction p generalizing s m with
  | done => exact ⟨s, [], m, rfl, w, rfl⟩
  | step op fails next ih =>
    simp only [Obeys] at ho
    obtain ⟨s1, t, m1, e, w1, st, _, _⟩ := execF_ok hW w op ho.1 ho.2.1.1 ho.2.1.2 fails
    obtain ⟨s2, ts, m2, e2, w2, st2⟩ := ih t w1 (ho.2.2 t m1 st)
    exact ⟨s2, t :: ts, m2, by simp only [runF, e]; simp only [Except.bind, e2]; rfl, w2, m1, st, st2⟩

theorem Obeys.mono {W : Nat} {P Q : (Nat → List α) → Op α → Prop} (h : ∀ m op, P m op → Q m op)
    (p : Prog (Op α) (Nat → Bool)) : ∀ m, Obeys W P p m → Obeys W Q p m := by
  induction p with
  | done => intro _ _; trivial
  | step op f next ih => intro m ho; exact ⟨ho.1, h _ _ ho.2.1, fun t m' st => ih t m' (ho.2.2 t m' st)⟩

/-- **C101** Whatever allocations fail while a program uses vectors, every vector behaves like the
list obtained by carrying out the operations that did not throw and skipping those that did (a
single-pass range insertion that throws may leave a prefix of its elements at the end); nothing is
leaked or released twice: every allocation belongs to exactly one vector. -/
theorem C101_history [DecidableEq α] {W : Nat} (hW : Arith.StdWidth W) (p : Prog (Op α) (Nat → Bool))
    (ho : Obeys W (fun m op => op.NoEmptyInsert m) p (fun _ => [])) :
    ∃ s ts m, runF W false p State.empty = .ok (s, ts) ∧
      StepsF W p (fun _ => []) ts m ∧ (∀ x, Observes s m x) ∧
      (∀ b, s.h.blocks b ≠ none → ∃ x, (s.vs x).ptr = some b ∧ (s.vs x).self = true ∧
        ∀ y, (s.vs y).ptr = some b → y = x) := by
  obtain ⟨s, ts, m, e, w, st⟩ := runF_ok hW p (wf_empty false)
    (ho.mono (Q := fun m op => op.NoEmptyInsert m ∧ (false = true → op.NoOverwrite m))
      (fun _ _ h => ⟨h, by simp⟩) p _)
  refine ⟨s, ts, m, e, st, fun x => observes w x, ?_⟩
  intro b hb
  rcases w.owned b hb with h | ⟨x, hx, hs⟩
  · exact h.elim
  · exact ⟨x, hx, hs, fun y hy => w.inj y x b hy hx⟩

/-- **C101** One operation in any well-formed state (also with deserialized vectors and elements whose
life time matters): if it throws, heap and vectors are bit for bit what they were (iterators remain
valid), unless it is a single-pass range insertion; and it throws only if an allocation failed. -/
theorem C101_strong {W : Nat} (hW : Arith.StdWidth W) {strict : Bool} {ext : Nat → Prop} (s : State α)
    (m : Nat → List α) (w : WF strict ext s m) (op : Op α) (hs : (op.spec W m).isSome)
    (he : op.NoEmptyInsert m) (ho : strict = true → op.NoOverwrite m) (fails : Nat → Bool) :
    ∃ s' t m', execF W strict fails s op = .ok (s', t) ∧ WF strict ext s' m' ∧ StepF W m op t m' ∧
      (t = true → ∃ i, fails i = true) ∧ (t = true → isInput op = false → s' = s) :=
  execF_ok hW w op hs he ho fails

/-- **C101** With sufficient capacity nothing throws: after a successful `reserve(n)`, appending up to
`n` elements in total succeeds although every further allocation would fail, and does not move the
elements. -/
theorem C101_reserved {W : Nat} (hW : Arith.StdWidth W) {strict : Bool} (h : Heap α) (v : Vec)
    (l : List α) (r : Rep strict h v l) (hf : Fresh h) (xs : List α)
    (hc : l.length + xs.length ≤ v.alloc) (hl : l.length + xs.length ≤ 2 ^ (W - 1)) :
    ∃ h' v', appendEachF W strict (fun _ => true) xs h v = .ok (h', v', false) ∧
      Rep strict h' v' (l ++ xs) ∧ v'.ptr = v.ptr := by
  induction xs generalizing h v l with
  | nil => exact ⟨h, v, rfl, by simpa using r, rfl⟩
  | cons a xs ih =>
    simp only [List.length_cons] at hc hl
    obtain ⟨b, rest, hp, hlt, hbl, hu, ha, hr⟩ := r.toBlk (Or.inl (by omega))
    obtain ⟨h1, v1, e1, r1, f1⟩ := pushBack_ok (W := W) r hf ⟨hW, by omega⟩ a
    have hmod : (v.used + 1) % 2 ^ W = l.length + 1 := by
      rw [hu]; exact Lim.mod ⟨hW, by omega⟩
    have hcap : v.alloc ≥ max v.alloc ((v.used + 1) % 2 ^ W) := by
      rw [hmod]; omega
    have hF : pushBackF W strict true h v a = .ok (h1, v1, false) := by
      unfold pushBackF reserveF
      unfold pushBack reserve at e1
      simp only [if_pos hcap] at e1 ⊢
      rw [ok_bind] at e1
      show (do let b ← v.base
               let h ← h.construct strict b v.used a
               return (h, { v with used := (v.used + 1) % 2 ^ W }, false) : Res (VecOut α)) = _
      simp only at e1
      revert e1
      cases v.base with
      | error e => intro e1; cases e1
      | ok b =>
        simp only [ok_bind]
        cases h.construct strict b v.used a with
        | error e => intro e1; cases e1
        | ok h2 => intro e1; cases e1; rfl
    have hv1 : v1.ptr = v.ptr ∧ v1.alloc = v.alloc := by
      unfold pushBack reserve at e1
      simp only [if_pos hcap] at e1
      rw [ok_bind] at e1
      simp only at e1
      revert e1
      cases v.base with
      | error e => intro e1; cases e1
      | ok b =>
        simp only [ok_bind]
        cases h.construct strict b v.used a with
        | error e => intro e1; cases e1
        | ok h2 => intro e1; cases e1; exact ⟨rfl, rfl⟩
    obtain ⟨h', v', e, r', hp'⟩ := ih h1 v1 (l ++ [a]) r1 f1.fresh (by
      rw [hv1.2]; simp only [List.length_append, List.length_cons, List.length_nil]; omega) (by
      simp only [List.length_append, List.length_cons, List.length_nil]; omega)
    refine ⟨h', v', ?_, by simpa using r', by rw [hp', hv1.1]⟩
    simp only [appendEachF, hF]
    exact e

/-- Non-vacuity (C101): the second growth and a copy fail, the first single-pass insertion stops after
two elements; the other operations take effect. -/
example : ∃ s ts, runF 32 false (.ofList
    [(.push 0 1, fun _ => false), (.push 0 2, fun _ => true), (.push 0 3, fun _ => false),
     (.copyAssign 1 0, fun _ => true), (.insertInput 0 0 [7, 8, 9], fun i => i == 2),
     (.insertInput 0 0 [5, 6], fun i => i == 1), (.erase 0 0, fun _ => true)])
      (State.empty (α := Nat)) = .ok (s, ts) ∧
    ts = [false, true, false, true, true, false, false] ∧
    (toList s.h (s.vs 0)).toOption = some [6, 1, 3, 7, 8] := ⟨_, _, rfl, by decide, by decide⟩

/-- Non-vacuity (C101): a program that pushes and, if that worked, reads back and pops. -/
example (f g : Nat → Bool) : Obeys 32 (fun m op => op.NoEmptyInsert m)
    (.step (.push 0 1) f fun t => if t then .done else .step (.insertRange 0 0 [2, 3]) g fun t =>
      if t then .done else .step (.pop 0) g fun _ => .done) (fun _ => ([] : List Nat)) := by
  refine ⟨by decide, trivial, ?_⟩
  intro t m' st
  cases t with
  | true => trivial
  | false =>
    cases st
    refine ⟨by decide, Or.inl (by simp), ?_⟩
    intro t m' st
    cases t with
    | true => trivial
    | false => cases st; exact ⟨by decide, trivial, fun _ _ _ => trivial⟩

end Cista.Fail
