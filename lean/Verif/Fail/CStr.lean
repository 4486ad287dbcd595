import Verif.Str.CProps
import Verif.Fail.Prog

set_option linter.unusedSimpArgs false

/-!
# C104 — `cstring` when memory runs out

`set_owning` is the only function of `cstring.h` that allocates (cstring.h:95, 312-322); here `fail` says
that `std::malloc` (cstring.h:313) returns null.
-/
namespace Cista.CStr

open Cista.Str
open Cista.Fail (Prog)

/-- State at the end of a call and whether it ended with `std::bad_alloc`. -/
abbrev Out := CSt × Bool

def done (r : Res CSt) : Res Out := r.map fun st => (st, false)

/-- cstring.h:63-68, 84-95, 305-309, 332-349: `reset` has zeroed the object and `remaining_` is already
-1 when the constructor of the temporary `heap` throws, so the object is a `heap` of size 0 that owns
nothing.  A zeroed raw pointer is null, a zeroed offset pointer points to itself. -/
def abandoned (raw : Bool) (d : Nat) : CS := .heap false 0 (if raw then .null else .inl d 0)

/-- cstring.h:84-99. -/
def setOwningF (raw fail : Bool) (st : CSt) (d : Nat) (src : Loc) (len : Nat) : Res Out := do
  let st ← reset st d
  if len = 0 then return (st, false)
  let rem := remaining len
  if 0 ≤ rem then
    require (len ≤ 15)
    let cs ← st.read src len
    return (st.put d (.sso (cs ++ List.replicate (15 - len) 0#8) rem), false)
  else if fail then return (st.put d (abandoned raw d), true)
  else
    require (len + 1 < 2 ^ 32)
    let cs ← st.read src len
    let (m, b) := st.mem.alloc (cs ++ [0#8])
    return ({ st with mem := m }.put d (.heap true len (.mem b 0)), false)

/-- One operation with an oracle. -/
def Op.execF (raw fail : Bool) (st : CSt) : Op → Res Out
  | .assign d b off len => setOwningF raw fail st d (.mem b off) (len % 2 ^ 32)
  | .assignC d b off => (mstrlen st b off).bind fun n => setOwningF raw fail st d (.mem b off) n
  | .assignSub d x off n => setOwningF raw fail st d ((st.data x).add off) (n % 2 ^ 32)
  | .assignString d x => setOwningF raw fail st d (st.data x) (st.size x)
  | op => done (op.exec raw st)

/-- Run a program that catches the exceptions. -/
def runF (raw : Bool) : Prog Op Bool → CSt → Res (CSt × List Bool)
  | .done, st => .ok (st, [])
  | .step op fail next, st => (op.execF raw fail st).bind fun r =>
      (runF raw (next r.2) r.1).map fun q => (q.1, r.2 :: q.2)

/-! ## Specification -/

/-- The variable an operation may throw for. -/
def Op.allocFor : Op → Option Nat
  | .assign d .. | .assignC d .. | .assignSub d .. | .assignString d _ => some d
  | _ => none

/-- What one operation may do: its effect, or, if it throws, its variable is empty afterwards. -/
def StepF (ext : Ext 8) (m : Nat → Var 8) (op : Op) : Bool → (Nat → Var 8) → Prop
  | false, m' => op.Step ext m m'
  | true, m' => ∃ d, op.allocFor = some d ∧ m' = upd m d ⟨[], false⟩

/-- A program with given outcomes; a call throws only if its request for memory failed. -/
def StepsF (ext : Ext 8) : Prog Op Bool → (Nat → Var 8) → List Bool → (Nat → Var 8) → Prop
  | .done, m, [], m' => m' = m
  | .step op fail next, m, t :: ts, m' =>
    (t = true → fail = true) ∧ ∃ m1, StepF ext m op t m1 ∧ StepsF ext (next t) m1 ts m'
  | _, _, _, _ => False

/-- The program meets the obligations of every operation, whichever operations throw. -/
def AllowedF (ext : Ext 8) : Prog Op Bool → (Nat → Var 8) → Prop
  | .done, _ => True
  | .step op _ next, m => op.Pre ext m ∧ op.NoBug ext m ∧
      ∀ t m', StepF ext m op t m' → AllowedF ext (next t) m'

/-! ## Proof -/

theorem setOwningF_ok (raw fail : Bool) (st : CSt) (d : Nat) (src : Loc) (len : Nat) :
    setOwningF raw fail st d src len = done (setOwning st d src len) ∨
    (fail = true ∧ ∃ p st', setNonOwning st d p 0 = .ok st' ∧ setOwningF raw fail st d src len = .ok (st', true)) := by
  unfold setOwningF setOwning setNonOwning
  cases hr : reset st d with
  | error e => left; rfl
  | ok st1 =>
    simp only [bind, Except.bind, pure, Except.pure]
    by_cases hz : len = 0
    · left; simp only [if_pos hz]; rfl
    · simp only [if_neg hz]
      by_cases hL : 0 ≤ remaining len
      · left
        simp only [if_pos hL]
        cases require (len ≤ 15) with
        | error e => rfl
        | ok _ =>
          simp only
          cases st1.read src len <;> rfl
      · simp only [if_neg hL]
        cases fail with
        | false =>
          left
          simp only [Bool.false_eq_true, if_false]
          cases require (len + 1 < 2 ^ 32) with
          | error e => rfl
          | ok _ =>
            simp only
            cases st1.read src len <;> rfl
        | true =>
          right
          exact ⟨rfl, if raw then .null else .inl d 0, _, rfl, by simp only [if_true]; rfl⟩

theorem execF_ok (raw fail : Bool) {ext : Ext 8} {st : CSt} {m : Nat → Var 8} (h : WF ext st m) (op : Op)
    (hp : op.Pre ext m) (hb : op.NoBug ext m) :
    ∃ st' t m', op.execF raw fail st = .ok (st', t) ∧ StepF ext m op t m' ∧ WF ext st' m' ∧
      (t = true → fail = true) := by
  obtain ⟨st1, m1, e1, s1, w1⟩ := exec_ok raw h op hp hb
  have normal : op.execF raw fail st = done (op.exec raw st) →
      ∃ st' t m', op.execF raw fail st = .ok (st', t) ∧ StepF ext m op t m' ∧ WF ext st' m' ∧
        (t = true → fail = true) := by
    intro e
    rw [e1] at e
    exact ⟨st1, false, m1, e, s1, w1, by simp⟩
  have fin : ∀ d, op.allocFor = some d → (op.execF raw fail st = done (op.exec raw st) ∨
      (fail = true ∧ ∃ p st', setNonOwning st d p 0 = .ok st' ∧ op.execF raw fail st = .ok (st', true))) →
      ∃ st' t m', op.execF raw fail st = .ok (st', t) ∧ StepF ext m op t m' ∧ WF ext st' m' ∧
        (t = true → fail = true) := by
    intro d hd ha
    rcases ha with e | ⟨hf, p, st2, e2, e⟩
    · exact normal e
    · obtain ⟨st3, e3, w3⟩ := setNonOwning_ok h d (src := p) (t := []) (Or.inl rfl) (by simp)
      rw [List.length_nil, e2] at e3
      cases e3
      exact ⟨st2, true, _, e, ⟨d, hd, rfl⟩, w3, fun _ => hf⟩
  cases op with
  | assign d b off len => exact fin d rfl (setOwningF_ok raw fail st d _ _)
  | assignC d b off =>
    refine fin d rfl ?_
    simp only [Op.execF, Op.exec]
    cases mstrlen st b off with
    | error e => left; rfl
    | ok n => exact setOwningF_ok raw fail st d _ _
  | assignSub d x off n => exact fin d rfl (setOwningF_ok raw fail st d _ _)
  | assignString d x => exact fin d rfl (setOwningF_ok raw fail st d _ _)
  | reference d b off len => exact normal rfl
  | referenceC d b off => exact normal rfl
  | assignView d x => exact normal rfl
  | move d x => exact normal rfl
  | reset d => exact normal rfl
  | write d i c => exact normal rfl

theorem runF_ok (raw : Bool) {ext : Ext 8} (p : Prog Op Bool) {st : CSt} {m : Nat → Var 8}
    (h : WF ext st m) (ha : AllowedF ext p m) :
    ∃ st' ts m', runF raw p st = .ok (st', ts) ∧ StepsF ext p m ts m' ∧ WF ext st' m' := by
  induction p generalizing st m with
  | done => exact ⟨st, [], m, rfl, rfl, h⟩
  | step op fail next ih =>
    obtain ⟨hp, hb, hr⟩ := ha
    obtain ⟨st1, t, m1, e1, s1, w1, hf⟩ := execF_ok raw fail h op hp hb
    obtain ⟨st2, ts, m2, e2, s2, w2⟩ := ih t w1 (hr t m1 s1)
    exact ⟨st2, t :: ts, m2, by simp only [runF, e1, Except.bind, e2]; rfl, ⟨hf, m1, s1, s2⟩, w2⟩

/-- **C104** (partial).  Whatever allocations fail while a program uses C strings, every string has the
text given by the operations that did not throw, where a string whose assignment threw is empty; strings
that own a text have a NUL behind it, caller memory is unmodified, and the heap blocks still allocated
are those of the caller plus one per string longer than 15 characters.

Missing: a NUL behind the empty text left by a failed assignment (`C104_terminator_violated`). -/
theorem C104_history_partial (raw : Bool) (ext : Ext 8) (n : Nat) (hn : ∀ b, n ≤ b → ext b = none)
    (p : Prog Op Bool) (ha : AllowedF ext p (fun _ => ⟨[], false⟩)) :
    ∃ st' ts m', runF raw p (start ext n) = .ok (st', ts) ∧ StepsF ext p (fun _ => ⟨[], false⟩) ts m' ∧
      (∀ x, st'.view x = .ok (m' x).text ∧ st'.size x = (m' x).text.length ∧
        ((m' x).own = true → st'.terminator x = .ok 0#8)) ∧
      (∀ b cs, ext b = some cs → st'.mem.blocks b = some cs) ∧
      (∀ b, st'.mem.blocks b ≠ none → ext b ≠ none ∨
        ∃ x, (m' x).own = true ∧ 15 < (m' x).text.length ∧ st'.strs x = .heap true (m' x).text.length (.mem b 0)) := by
  obtain ⟨st', ts, m', e, s, w⟩ := runF_ok raw p (start_wf hn) ha
  refine ⟨st', ts, m', e, s, fun x => ⟨w.view x, w.size x, w.terminator x⟩, w.extLive, ?_⟩
  intro b hb
  rcases w.owned b hb with h | ⟨x, k, hx⟩
  · exact Or.inl h
  · refine Or.inr ⟨x, ?_⟩
    have r := w.rep x
    rw [hx] at r
    generalize m' x = v at r
    cases r with
    | owned _ t hb he hl hg => exact ⟨rfl, hl, hx⟩

/-- **C104** (violated): with raw pointers, `c_str()` of an owning string is a null pointer after an
assignment of more than 15 characters to it has thrown, whatever it held before. -/
theorem C104_terminator_violated (ext : Ext 8) (st : CSt) (m : Nat → Var 8) (h : WF ext st m) (d : Nat)
    (src : Loc) (len : Nat) (h1 : 15 < len) (h2 : GoodLen len) :
    ∃ st', setOwningF true true st d src len = .ok (st', true) ∧ st'.size d = 0 ∧ st'.data d = .null ∧
      st'.terminator d = .error .ub := by
  obtain ⟨st1, e1, _⟩ := reset_ok h d true
  refine ⟨st1.put d (abandoned true d), ?_, by simp [CSt.size, abandoned], by simp [CSt.data, abandoned],
    by simp [CSt.terminator, abandoned]⟩
  have hn : ¬ 0 ≤ remaining len := by have := h2.neg h1; omega
  unfold setOwningF
  rw [e1, ok_bind]
  simp only [show ¬ len = 0 by omega, hn, if_false, if_true]
  rfl

/-- Non-vacuity (C104): a long C string whose replacement fails, a short one that needs no memory. -/
example : ∃ st, runF true (.ofList [(.assign 0 0 0 20, false), (.assign 1 0 0 3, true), (.assignString 2 0, true),
    (.assign 0 0 0 18, true)]) (start exExt 1) = .ok (st, [false, false, true, true]) ∧
    (st.view 0).toOption = some [] ∧ (st.view 1).toOption = some [65#8, 65#8, 65#8] ∧
    (st.view 2).toOption = some [] ∧ st.mem.blocks 1 = none := ⟨_, rfl, by decide, by decide, by decide, by decide⟩

/-- Non-vacuity (C104): the obligations are met by a program that assigns and copies. -/
example (f g : Bool) : AllowedF exExt
    (.step (.assign 0 0 0 20) f fun _ => .step (.assignString 1 0) g fun _ => .done) (fun _ => ⟨[], false⟩) := by
  refine ⟨⟨_, rfl, by decide, by decide⟩, Or.inl (by decide), ?_⟩
  intro t m' st
  refine ⟨trivial, ⟨by decide, ?_⟩, fun _ _ _ => trivial⟩
  cases t with
  | true =>
    obtain ⟨d, hd, hm⟩ := st
    cases hd
    subst hm
    exact Or.inl (by simp [upd])
  | false =>
    cases st with
    | assign h =>
      cases h
      exact Or.inl (by simp [upd, slice])

end Cista.CStr
