import Verif.Bits.Props
import Verif.Fail.Prog

set_option linter.unusedSimpArgs false

/-!
# C133 — `bitvec` when memory runs out

A vector operation that throws leaves its vector as it was (C101).  `basic_bitvec` has no own copy operations:
the implicitly defined ones copy `size_` first and `blocks_` second (bitvec.h:481-482).
-/
namespace Cista.Bits

open Cista.Fail (Prog)

variable {w : Nat}

/-- How a call ends: it returns, it throws `std::bad_alloc`, or `std::terminate` is called because the exception
leaves a `noexcept` function. -/
inductive After (σ : Type) where
  | returns (s : σ)
  | throws (s : σ)
  | terminates

/-- bitvec.h:66-77 `resize`: the padding is cleared before the vector is resized, `size_` is set after it.
(Resizing to fewer blocks does not allocate; letting it fail as well covers more than the code can do.) -/
def Bitvec.resizeF (fail : Bool) (b : Bitvec w) (n : Nat) : Res (After (Bitvec w)) :=
  if n = b.size then .ok (.returns b)
  else do
    let bs ← b.resizeSanitize
    if fail then return .throws { b with blocks := bs }
    let m := numBlocks w n
    return .returns ⟨n, bs.take m ++ List.replicate (m - bs.length) 0#w⟩

/-- bitvec.h:79-87 `set(string_view)`: `resize` first. -/
def Bitvec.setStrF (fail : Bool) (b : Bitvec w) (s : List Char) : Res (After (Bitvec w)) := do
  match ← b.resizeF fail s.length with
  | .returns b => return .returns { b with blocks := ← setStrLoop s b.blocks (min b.size s.length) }
  | r => return r

/-- bitvec.h:38-45 `max(size)`; a fresh object, so nothing is left when it throws. -/
def Bitvec.maxF (fail : Bool) (n : Nat) : Res (Option (Bitvec w)) := do
  match ← Bitvec.resizeF (w := w) fail .empty n with
  | .returns b => return some { b with blocks := b.blocks.map (fun _ => BitVec.allOnes w) }
  | _ => return none

/-- bitvec.h:481-482: implicit copy assignment, member by member.  The vector (capacity `cap`) allocates only
when the source does not fit (vector.h:92-97, 189-199, 345-350). -/
def Bitvec.assignF (fail : Bool) (cap : Nat) (b o : Bitvec w) : After (Bitvec w) :=
  if fail ∧ cap < o.blocks.length then .throws ⟨o.size, b.blocks⟩ else .returns o

/-- bitvec.h:355-361 `operator~`, which is `noexcept`; the copy it starts with allocates unless it is empty. -/
def Bitvec.notF (fail : Bool) (b : Bitvec w) : After (Bitvec w) :=
  if fail ∧ b.blocks ≠ [] then .terminates else .returns b.not

/-- One call, its allocations failing if `fail`; the target of a copy has no spare capacity.  The calls without an allocation are those of `VOp.exec`. -/
def VOp.execF (fail : Bool) (m : Nat → Bitvec w) : VOp → Res (After (Nat → Bitvec w))
  | .resize d n => do
    match ← (m d).resizeF fail n with
    | .returns b => return .returns (upd m d b)
    | .throws b => return .throws (upd m d b)
    | .terminates => return .terminates
  | .setStr d s => do
    match ← (m d).setStrF fail s with
    | .returns b => return .returns (upd m d b)
    | .throws b => return .throws (upd m d b)
    | .terminates => return .terminates
  | .max d n => do
    match ← Bitvec.maxF fail n with
    | some b => return .returns (upd m d b)
    | none => return .throws m
  | .copy d s =>
    match (m d).assignF fail (m d).blocks.length (m s) with
    | .returns b => .ok (.returns (upd m d b))
    | .throws b => .ok (.throws (upd m d b))
    | .terminates => .ok .terminates
  | .not d s =>
    match (m s).notF fail with
    | .returns b => .ok (.returns (upd m d b))
    | .throws b => .ok (.throws (upd m d b))
    | .terminates => .ok .terminates
  | op => do return .returns (← op.exec m)

/-- Run a program that catches the exceptions: the bit vectors at the end and which calls threw, or nothing if
`std::terminate` was called. -/
def runF : Prog VOp Bool → (Nat → Bitvec w) → Res (Option ((Nat → Bitvec w) × List Bool))
  | .done, m => .ok (some (m, []))
  | .step op fail next, m => do
    match ← op.execF fail m with
    | .terminates => return none
    | .returns m' => return (← runF (next false) m').map fun q => (q.1, false :: q.2)
    | .throws m' => return (← runF (next true) m').map fun q => (q.1, true :: q.2)

/-! ## Specification -/

/-- What the program has computed: calls that threw are skipped. -/
def outcome : Prog VOp Bool → (Nat → List Bool) → List Bool → Nat → List Bool
  | .step op _ next, m, t :: ts => outcome (next t) (if t then m else (op.spec m).getD m) ts
  | _, m, _ => m

/-- Is it a call that copies a bit vector (`=` from an lvalue, `~`)? -/
def VOp.Copies : VOp → Bool
  | .copy _ _ => true
  | .not _ _ => true
  | _ => false

/-- The program meets the obligations of the callers, whichever calls throw, does not shift out everything (see
`C12_shift_out_violated`), and no allocation of a copy fails. -/
def AllowedF : Prog VOp Bool → (Nat → List Bool) → Prop
  | .done, _ => True
  | .step op fail next, m => (fail = true → op.Copies = false) ∧ op.ShiftInside m ∧
      AllowedF (next true) m ∧ ∃ m', op.spec m = some m' ∧ AllowedF (next false) m'

/-! ## Proofs -/

theorem resizeF_fail (hw : 0 < w) {b : Bitvec w} {l : List Bool} (h : b.Repr l) {n : Nat} (hn : n ≠ b.size) :
    ∃ c, b.resizeF true n = .ok (.throws c) ∧ c.Repr l := by
  obtain ⟨s, hs, hsl, hsb⟩ := sanitize_ok hw h
  refine ⟨{ b with blocks := s }, ?_, mkRepr (by simp [hsl, h.1]) (by simp [h.size]) ?_⟩
  · unfold Bitvec.resizeF
    rw [if_neg hn, hs]
    rfl
  · intro i hi
    simp only at hi ⊢
    rw [hsb, h.bit hi]
    simp [hi]

theorem resizeF_ok {b c : Bitvec w} {n : Nat} (h : b.resize n = .ok c) : b.resizeF false n = .ok (.returns c) := by
  unfold Bitvec.resize at h
  unfold Bitvec.resizeF
  split at h
  · next e => cases h; rw [if_pos e]
  · next e =>
    rw [if_neg e]
    cases hs : b.resizeSanitize with
    | error x => rw [hs] at h; cases h
    | ok s => rw [hs] at h; cases h; rfl

/-- Calls whose allocations succeed do what they do without failures. -/
theorem execF_false {op : VOp} {m m' : Nat → Bitvec w} (h : op.exec m = .ok m') :
    op.execF false m = .ok (.returns m') := by
  cases op with
  | resize d n =>
    simp only [VOp.exec] at h
    cases hr : (m d).resize n with
    | error x => rw [hr] at h; cases h
    | ok c => rw [hr] at h; cases h; simp only [VOp.execF, resizeF_ok hr]; rfl
  | setStr d s =>
    simp only [VOp.exec, Bitvec.setStr] at h
    cases hr : (m d).resize s.length with
    | error x => rw [hr] at h; cases h
    | ok c =>
      rw [hr, ok_bind] at h
      simp only [VOp.execF, Bitvec.setStrF, resizeF_ok hr, ok_bind]
      cases hl : setStrLoop s c.blocks (min c.size s.length) with
      | error x => rw [hl] at h; cases h
      | ok q => rw [hl] at h; cases h; rfl
  | max d n =>
    simp only [VOp.exec, Bitvec.max] at h
    cases hr : Bitvec.resize (w := w) Bitvec.empty n with
    | error x => rw [hr] at h; cases h
    | ok c => rw [hr] at h; cases h; simp only [VOp.execF, Bitvec.maxF, resizeF_ok hr]; rfl
  | copy d s => cases h; simp [VOp.execF, Bitvec.assignF]
  | not d s => cases h; simp [VOp.execF, Bitvec.notF]
  | set d i v => simp only [VOp.execF, h]; rfl
  | zeroOut d => simp only [VOp.execF, h]; rfl
  | oneOut d => simp only [VOp.execF, h]; rfl
  | and d s => simp only [VOp.execF, h]; rfl
  | or d s => simp only [VOp.execF, h]; rfl
  | xor d s => simp only [VOp.execF, h]; rfl
  | shr d k => simp only [VOp.execF, h]; rfl
  | shl d k => simp only [VOp.execF, h]; rfl

theorem upd_repr_same {m : Nat → Bitvec w} {r : Nat → List Bool} (h : ∀ x, (m x).Repr (r x)) {d : Nat}
    {b : Bitvec w} (hb : b.Repr (r d)) : ∀ x, (upd m d b x).Repr (r x) := by
  intro x
  unfold upd
  split
  · next e => rw [e]; exact hb
  · exact h x

/-- A call whose allocations fail either throws and leaves all bit vectors as they were, or needs no allocation. -/
theorem execF_true (hw : 0 < w) {op : VOp} {m : Nat → Bitvec w} {r r' : Nat → List Bool} (h : ∀ x, (m x).Repr (r x))
    (hc : op.Copies = false) (hsh : op.ShiftInside r) (hr : op.spec r = some r') :
    (∃ m', op.execF true m = .ok (.throws m') ∧ ∀ x, (m' x).Repr (r x)) ∨
    (∃ m', op.execF true m = .ok (.returns m') ∧ ∀ x, (m' x).Repr (r' x)) := by
  obtain ⟨m1, he, h1⟩ := exec_refines hw op h hsh hr
  have hE : Bitvec.Repr (w := w) Bitvec.empty [] :=
    mkRepr (by simp [Bitvec.empty, numBlocks_zero hw]) rfl (by intro i hi; simp [Bitvec.empty] at hi)
  cases op with
  | resize d n =>
    by_cases hn : n = (m d).size
    · right
      refine ⟨m1, ?_, h1⟩
      have := execF_false he
      rw [← this]
      simp only [VOp.execF, Bitvec.resizeF, if_pos hn]
    · left
      obtain ⟨c, e, hc⟩ := resizeF_fail hw (h d) hn
      exact ⟨upd m d c, by simp only [VOp.execF, e]; rfl, upd_repr_same h hc⟩
  | setStr d s =>
    by_cases hn : s.length = (m d).size
    · right
      refine ⟨m1, ?_, h1⟩
      have := execF_false he
      rw [← this]
      simp only [VOp.execF, Bitvec.setStrF, Bitvec.resizeF, if_pos hn]
    · left
      obtain ⟨c, e, hc⟩ := resizeF_fail hw (h d) hn
      exact ⟨upd m d c, by simp only [VOp.execF, Bitvec.setStrF, e]; rfl, upd_repr_same h hc⟩
  | max d n =>
    by_cases hn : n = (Bitvec.empty (w := w)).size
    · right
      refine ⟨m1, ?_, h1⟩
      have := execF_false he
      rw [← this]
      simp only [VOp.execF, Bitvec.maxF, Bitvec.resizeF, if_pos hn]
    · left
      obtain ⟨c, e, _⟩ := resizeF_fail hw hE hn
      exact ⟨m, by simp only [VOp.execF, Bitvec.maxF, e]; rfl, h⟩
  | copy d s => cases hc
  | not d s => cases hc
  | set d i v => exact .inr ⟨m1, by simp only [VOp.execF, he]; rfl, h1⟩
  | zeroOut d => exact .inr ⟨m1, by simp only [VOp.execF, he]; rfl, h1⟩
  | oneOut d => exact .inr ⟨m1, by simp only [VOp.execF, he]; rfl, h1⟩
  | and d s => exact .inr ⟨m1, by simp only [VOp.execF, he]; rfl, h1⟩
  | or d s => exact .inr ⟨m1, by simp only [VOp.execF, he]; rfl, h1⟩
  | xor d s => exact .inr ⟨m1, by simp only [VOp.execF, he]; rfl, h1⟩
  | shr d k => exact .inr ⟨m1, by simp only [VOp.execF, he]; rfl, h1⟩
  | shl d k => exact .inr ⟨m1, by simp only [VOp.execF, he]; rfl, h1⟩

theorem runF_ok (hw : 0 < w) (p : Prog VOp Bool) : ∀ {m : Nat → Bitvec w} {r : Nat → List Bool},
    (∀ x, (m x).Repr (r x)) → AllowedF p r →
    ∃ m' ts, runF p m = .ok (some (m', ts)) ∧ ∀ x, (m' x).Repr (outcome p r ts x) := by
  induction p with
  | done => intro m r h _; exact ⟨m, [], rfl, h⟩
  | step op fail next ih =>
    intro m r h ⟨hc, hsh, ht, r', hr, hf⟩
    have key : (∃ m', op.execF fail m = .ok (.throws m') ∧ ∀ x, (m' x).Repr (r x)) ∨
        (∃ m', op.execF fail m = .ok (.returns m') ∧ ∀ x, (m' x).Repr (r' x)) := by
      cases fail with
      | true => exact execF_true hw h (hc rfl) hsh hr
      | false =>
        obtain ⟨m1, he, h1⟩ := exec_refines hw op h hsh hr
        exact .inr ⟨m1, execF_false he, h1⟩
    rcases key with ⟨m1, he, h1⟩ | ⟨m1, he, h1⟩
    · obtain ⟨m2, ts, e2, h2⟩ := ih true h1 ht
      refine ⟨m2, true :: ts, ?_, ?_⟩
      · simp only [runF, he, ok_bind, e2]; rfl
      · simp only [outcome, if_true]; exact h2
    · obtain ⟨m2, ts, e2, h2⟩ := ih false h1 hf
      refine ⟨m2, false :: ts, ?_, ?_⟩
      · simp only [runF, he, ok_bind, e2]; rfl
      · simp only [outcome, hr, Option.getD_some, Bool.false_eq_true, if_false]; exact h2

/-- **C133 (partial)** A program that works with any number of bit vectors while allocations fail at any points,
catches `std::bad_alloc` and goes on: no undefined behaviour, no `std::terminate`, and at the end every observer
(size, test, count, any, for_each_set_bit, str, `==`, `<`) answers for exactly the calls that did not throw.  Missing:
copies whose allocation fails (`C133_assign_violated`, `C133_noexcept_violated`) and shifts by `size()` or more
(`C12_shift_out_violated`). -/
theorem C133_history_partial (hw : 0 < w) (p : Prog VOp Bool) (ha : AllowedF p (fun _ => [])) :
    ∃ (m : Nat → Bitvec w) (ts : List Bool), runF p (fun _ => Bitvec.empty) = .ok (some (m, ts)) ∧
      let r := outcome p (fun _ => []) ts
      ∀ x, (m x).size = (r x).length ∧
        (∀ i, (m x).test i = .ok ((r x).getD i false)) ∧
        (m x).count = .ok ((r x).countP id) ∧
        (m x).any = .ok (decide (true ∈ r x)) ∧
        (m x).forEachSetBit = .ok (specSetBits (r x)) ∧
        (m x).str = .ok (specText (r x)) ∧
        (∀ y, (m x).eq (m y) = .ok (decide (r x = r y))) ∧
        (∀ y, (r x).length = (r y).length →
          (m x).lt (m y) = .ok (decide (natOf (r x) < natOf (r y)))) := by
  have h0 : ∀ _ : Nat, Bitvec.Repr (w := w) Bitvec.empty [] := fun _ =>
    mkRepr (by simp [Bitvec.empty, numBlocks_zero hw]) rfl (by intro i hi; simp [Bitvec.empty] at hi)
  obtain ⟨m, ts, e, h⟩ := runF_ok hw p h0 ha
  exact ⟨m, ts, e, observers hw h⟩

/-- A text is stored (the program ends if that throws), a failing `resize` is caught and repeated, `max` fails. -/
def retryProg : Prog VOp Bool :=
  .step (.setStr 0 "1101".toList) false fun t => if t then .done else
  .step (.resize 0 130) true fun _ => .step (.set 0 1 true) false fun _ =>
  .step (.resize 0 130) false fun _ => .step (.max 1 70) true fun _ => .done

example : AllowedF retryProg (fun _ => []) ∧
    (runF (w := 64) retryProg (fun _ => .empty)).toOption.map (fun o => o.map (·.2)) =
      some (some [false, true, false, false, true]) ∧
    (outcome retryProg (fun _ => []) [false, true, false, false, true] 0).take 6 =
      [true, true, true, true, false, false] ∧
    (outcome retryProg (fun _ => []) [false, true, false, false, true] 0).length = 130 ∧
    outcome retryProg (fun _ => []) [false, true, false, false, true] 1 = [] := by
  refine ⟨⟨nofun, trivial, trivial, _, rfl, ?_⟩, by decide +kernel, by decide +kernel, by decide +kernel,
    by decide +kernel⟩
  have tail : ∀ m, AllowedF (.step (.resize 0 130) false fun _ => .step (.max 1 70) true fun _ => .done) m := fun m =>
    ⟨nofun, trivial, ⟨fun _ => rfl, trivial, trivial, _, rfl, trivial⟩, _, rfl,
      ⟨fun _ => rfl, trivial, trivial, _, rfl, trivial⟩⟩
  have mid : ∀ m : Nat → List Bool, 1 < (m 0).length → AllowedF (.step (.set 0 1 true) false fun _ =>
      .step (.resize 0 130) false fun _ => .step (.max 1 70) true fun _ => .done) m := fun m h =>
    ⟨nofun, trivial, tail _, _, if_pos h, tail _⟩
  exact ⟨fun _ => rfl, trivial, mid _ (by decide), _, rfl, mid _ (by
    show 1 < (specResize _ 130).length
    rw [length_specResize]; omega)⟩

/-- **C133 violated** Assigning a bit vector that exceeds the capacity of the target: if the allocation fails, the assignment throws and the target is
broken — it reports the size of the source but still has its own blocks.  Reading or writing its last bit is
undefined behaviour. -/
theorem C133_assign_violated (hw : 0 < w) {b o : Bitvec w} {l l' : List Bool} (h : b.Repr l) (h' : o.Repr l')
    {cap : Nat} (hcap : numBlocks w l.length ≤ cap) (hlt : cap < numBlocks w l'.length) :
    ∃ c, b.assignF true cap o = .throws c ∧ c.size = l'.length ∧ c.test (l'.length - 1) = .error .ub ∧
      ∀ v, c.set (l'.length - 1) v = .error .ub := by
  have e1 : b.blocks.length = numBlocks w l.length := by rw [h.1, h.size]
  have e2 : o.blocks.length = numBlocks w l'.length := by rw [h'.1, h'.size]
  have hpos : 0 < l'.length := by
    cases hl : l'.length with
    | zero => rw [hl, numBlocks_zero hw] at hlt; omega
    | succ n => omega
  have hdiv : numBlocks w l.length ≤ (l'.length - 1) / w := by
    have hm := (numBlocks_mul hw l'.length).2
    rw [Nat.le_div_iff_mul_le hw]
    have h1 : (numBlocks w l.length + 1) * w ≤ numBlocks w l'.length * w := Nat.mul_le_mul_right w (by omega)
    rw [Nat.add_mul] at h1
    omega
  have hrd : rd b.blocks ((l'.length - 1) / w) = .error .ub := by
    unfold rd
    rw [List.getElem?_eq_none (by omega)]
  refine ⟨⟨o.size, b.blocks⟩, ?_, h'.size, ?_, fun v => ?_⟩
  · unfold Bitvec.assignF
    rw [if_pos ⟨rfl, by omega⟩]
  · unfold Bitvec.test test
    rw [if_neg (by rw [h'.size]; omega), hrd]
    rfl
  · unfold Bitvec.set setBit
    simp only [h'.size]
    rw [show decide (l'.length - 1 < l'.length) = true from decide_eq_true (by omega), require_true, ok_bind, hrd]
    rfl

example : (Bitvec.empty (w := 64)).Repr [] ∧ (⟨3, [5#64]⟩ : Bitvec 64).Repr [true, false, true] ∧
    numBlocks 64 ([] : List Bool).length ≤ 0 ∧ 0 < numBlocks 64 [true, false, true].length ∧
    (runF (w := 64) (.step (.setStr 0 "101".toList) false fun _ => .step (.copy 1 0) true fun _ =>
      .step (.set 1 2 false) false fun _ => .done) fun _ => .empty).toOption.isSome = false :=
  ⟨⟨by decide, by decide⟩, ⟨by decide, by decide⟩, by decide, by decide, by decide +kernel⟩

/-- The operators that return a new bit vector. -/
inductive DOp where
  | not | and | or | xor
  | shr (k : Nat)
  | shl (k : Nat)

/-- bitvec.h:355-361, 363-382, 465-475: each copies its (left) operand and applies the in-place operator; all are
`noexcept`. -/
def DOp.execF (fail : Bool) (a b : Bitvec w) (op : DOp) : Res (After (Bitvec w)) :=
  if fail ∧ a.blocks ≠ [] then .ok .terminates
  else match op with
    | .not => .ok (.returns a.not)
    | .and => do return .returns (← a.zipAssign (· &&& ·) b)
    | .or => do return .returns (← a.zipAssign (· ||| ·) b)
    | .xor => do return .returns (← a.zipAssign (· ^^^ ·) b)
    | .shr k => do return .returns (← a.shr k)
    | .shl k => do return .returns (← a.shl k)

/-- The value of the operators on lists; `none`: the operands differ in size. -/
def DOp.spec (l m : List Bool) : DOp → Option (List Bool)
  | .not => some (l.map fun b => !b)
  | .and => if l.length = m.length then some (List.zipWith (· && ·) l m) else none
  | .or => if l.length = m.length then some (List.zipWith (· || ·) l m) else none
  | .xor => if l.length = m.length then some (List.zipWith Bool.xor l m) else none
  | .shr k => if k < l.length ∨ l.length = 0 then some (specShr l k) else none
  | .shl k => if k < l.length ∨ l.length = 0 then some (specShl l k) else none

/-- **C133 violated** `~a`, `a & b`, `a | b`, `a ^ b`, `a >> k`, `a << k` with a non-empty `a`: if the allocation of the
result fails, the program is terminated; the caller cannot catch `std::bad_alloc`. -/
theorem C133_noexcept_violated (hw : 0 < w) {a : Bitvec w} {l : List Bool} (h : a.Repr l) (hl : l ≠ []) (b : Bitvec w)
    (op : DOp) : op.execF true a b = .ok .terminates ∧ a.notF true = .terminates := by
  have : 0 < a.blocks.length := by
    rw [h.1, h.size]
    exact numBlocks_pos hw (by cases l with | nil => exact absurd rfl hl | cons => simp)
  have hc : (true = true) ∧ a.blocks ≠ [] := ⟨rfl, by intro e; rw [e] at this; simp at this⟩
  unfold DOp.execF Bitvec.notF
  rw [if_pos hc, if_pos hc]
  exact ⟨rfl, rfl⟩

/-- **C133** While memory lasts, and without memory if the left operand is empty, the operators that return a new bit vector compute the
same lists of bits as the in-place ones, and leave their operands alone. -/
theorem C133_operators (hw : 0 < w) {a b : Bitvec w} {l m r : List Bool} (ha : a.Repr l) (hb : b.Repr m) (op : DOp)
    (hr : op.spec l m = some r) {fail : Bool} (hf : fail = false ∨ l = []) :
    (∃ c, op.execF fail a b = .ok (.returns c) ∧ c.Repr r) ∧ a.notF fail = .returns a.not := by
  have hc : ¬ (fail = true ∧ a.blocks ≠ []) := by
    rintro ⟨h1, h2⟩
    rcases hf with hf | hf
    · rw [h1] at hf; cases hf
    · subst hf
      apply h2
      rw [← List.length_eq_zero_iff, ha.1, ha.size]
      exact numBlocks_zero hw
  have hnf : op.execF fail a b = op.execF false a b := by
    unfold DOp.execF
    rw [if_neg hc, if_neg (show ¬ (false = true ∧ a.blocks ≠ []) from fun h => nomatch h.1)]
  refine ⟨?_, by unfold Bitvec.notF; rw [if_neg hc]⟩
  rw [hnf]
  have key : ∀ vop : VOp, vop.ShiftInside (fun x => if x = 0 then l else m) → ∀ r', vop.spec (fun x => if x = 0 then l else m) = some r' →
      ∃ m', vop.exec (fun x => if x = 0 then a else b) = .ok m' ∧ ∀ x, (m' x).Repr (r' x) := fun vop hs r' h =>
    exec_refines hw vop (fun x => by split <;> assumption) hs h
  cases op with
  | not =>
    cases hr
    obtain ⟨m', e, h⟩ := key (.not 0 0) trivial _ rfl
    cases e
    exact ⟨_, rfl, h 0⟩
  | and =>
    simp only [DOp.spec] at hr
    split at hr
    · next hl =>
      cases hr
      obtain ⟨c, e, h⟩ := repr_zip hw ha hb hl (f := (· &&& ·)) (g := (· && ·)) (by intro x y r _; simp)
      exact ⟨c, by simp only [DOp.execF, e]; rfl, h⟩
    · cases hr
  | or =>
    simp only [DOp.spec] at hr
    split at hr
    · next hl =>
      cases hr
      obtain ⟨c, e, h⟩ := repr_zip hw ha hb hl (f := (· ||| ·)) (g := (· || ·)) (by intro x y r _; simp)
      exact ⟨c, by simp only [DOp.execF, e]; rfl, h⟩
    · cases hr
  | xor =>
    simp only [DOp.spec] at hr
    split at hr
    · next hl =>
      cases hr
      obtain ⟨c, e, h⟩ := repr_zip hw ha hb hl (f := (· ^^^ ·)) (g := Bool.xor) (by intro x y r _; simp)
      exact ⟨c, by simp only [DOp.execF, e]; rfl, h⟩
    · cases hr
  | shr k =>
    simp only [DOp.spec] at hr
    split at hr
    · next hl =>
      cases hr
      obtain ⟨m', e, h⟩ := key (.shr 0 k) hl _ rfl
      simp only [VOp.exec, if_true] at e
      cases es : a.shr k with
      | error x => rw [es] at e; cases e
      | ok c => rw [es] at e; cases e; exact ⟨c, by simp only [DOp.execF, es]; rfl, h 0⟩
    · cases hr
  | shl k =>
    simp only [DOp.spec] at hr
    split at hr
    · next hl =>
      cases hr
      obtain ⟨m', e, h⟩ := key (.shl 0 k) hl _ rfl
      simp only [VOp.exec, if_true] at e
      cases es : a.shl k with
      | error x => rw [es] at e; cases e
      | ok c => rw [es] at e; cases e; exact ⟨c, by simp only [DOp.execF, es]; rfl, h 0⟩
    · cases hr

example : (⟨3, [5#64]⟩ : Bitvec 64).Repr [true, false, true] ∧
    DOp.spec [true, false, true] [] (.shl 1) = some [false, true, false] ∧
    (DOp.execF false (⟨3, [5#64]⟩ : Bitvec 64) .empty (.shl 1)).toOption.map (fun r => match r with
      | .returns c => some (c.size, c.blocks) | _ => none) = some (some (3, [10#64])) := ⟨⟨by decide, by decide⟩, by decide, by decide +kernel⟩

end Cista.Bits
