import Verif.Str.Props
import Verif.Fail.Prog

set_option linter.unusedSimpArgs false

/-!
# C103 — `string` when memory runs out

`set_owning` is the only function of `string.h` that allocates; here `fail` says that `std::malloc`
(string.h:110) returns null.
-/
namespace Cista.Str

open Cista.Fail (Prog)

variable {w : Nat}

/-- State at the end of a call and whether it ended with `std::bad_alloc`. -/
abbrev Out (w : Nat) := St w × Bool

def done (r : Res (St w)) : Res (Out w) := r.map fun st => (st, false)

/-- string.h:98-118: the old contents are released first (99), then memory is requested (110) and the
null pointer has been stored when line 112 throws (size and ownership are still those of `reset`). -/
def setOwningF (L : Nat) (fail : Bool) (st : St w) (d : Nat) (src : Loc) (len : Nat) : Res (Out w) := do
  let st ← reset st d
  if src = .null ∨ len = 0 then return (st, false)
  if len ≤ L then do
    let cs ← st.read src len
    return (st.put d (.sso (cs ++ List.replicate (L - len) 0#w)), false)
  else if fail then return (st.put d (.heap false 0 none), true)
  else do
    let cs ← st.read src len
    let (m, b) := st.mem.alloc cs
    return ({ st with mem := m }.put d (.heap true len (some (b, 0))), false)

/-- string.h:86-92. -/
def setOwningViewF (L : Nat) (fail : Bool) (st : St w) (d : Nat) (src : Loc) (len : Nat) : Res (Out w) :=
  setOwningF L fail st d src (len % 2 ^ 32)

/-- string.h:94. -/
def setOwningCF (L : Nat) (fail : Bool) (st : St w) (d b off : Nat) : Res (Out w) := do
  let len ← mstrlen st b off
  setOwningF L fail st d (.mem b off) len

/-- string.h:163-175. -/
def copyFromF (L : Nat) (fail : Bool) (st : St w) (d x : Nat) : Res (Out w) :=
  if d = x then .ok (st, false) else do
    let st ← reset st d
    match st.strs x with
    | .sso s => return (st.put d (.sso s), false)
    | .heap true _ _ => setOwningF L fail st d (st.data x) (st.size x)
    | .heap false _ _ => done (setNonOwning L st d (st.data x) (st.size x))

/-- string.h:474-480. -/
def assignStringF (L : Nat) (fail : Bool) (st : St w) (d x : Nat) : Res (Out w) :=
  if d = x then .ok (st, false) else setOwningF L fail st d (st.data x) (st.size x)

/-- string.h:495-498, 90-92. -/
def assignSubF (L : Nat) (fail : Bool) (st : St w) (d x off n : Nat) : Res (Out w) :=
  match st.data x with
  | .null => setOwningViewF L fail st d .null n
  | .mem b o => setOwningViewF L fail st d (.mem b (o + off)) n
  | .inl y o => setOwningViewF L fail st d (.inl y (o + off)) n

/-- string.h:355-357. -/
def ownF (L : Nat) (fail : Bool) (st : St w) (d : Nat) : Res (Out w) :=
  match st.strs d with
  | .heap false _ _ => setOwningViewF L fail st d (st.data d) (st.size d)
  | _ => .ok (st, false)

/-- string.h:354-366. -/
def eraseF (L : Nat) (fail : Bool) (st : St w) (d pos n : Nat) : Res (Out w) :=
  (ownF L fail st d).bind fun o => if o.2 then .ok o else done (eraseIn o.1 d pos n)

/-- One operation with an oracle. -/
def Op.execF (L : Nat) (raw fail : Bool) (st : St w) : Op w → Res (Out w)
  | .assign d b off len => setOwningViewF L fail st d (.mem b off) len
  | .assignC d b off => setOwningCF L fail st d b off
  | .assignSub d x off n => assignSubF L fail st d x off n
  | .copy d x => copyFromF L fail st d x
  | .assignString d x => assignStringF L fail st d x
  | .erase d pos n => eraseF L fail st d pos n
  | op => done (op.exec L raw st)

/-- Run a program that catches the exceptions. -/
def runF (L : Nat) (raw : Bool) : Prog (Op w) Bool → St w → Res (St w × List Bool)
  | .done, st => .ok (st, [])
  | .step op fail next, st => (op.execF L raw fail st).bind fun r =>
      (runF L raw (next r.2) r.1).map fun q => (q.1, r.2 :: q.2)

/-! ## Specification -/

/-- The variable an operation may throw for. -/
def Op.allocFor : Op w → Option Nat
  | .assign d .. | .assignC d .. | .assignSub d .. | .copy d _ | .assignString d _ | .erase d .. => some d
  | _ => none

/-- What one operation may do: its effect, or, if it throws, its variable is empty afterwards. -/
def StepF (ext : Ext w) (m : Nat → Var w) (op : Op w) : Bool → (Nat → Var w) → Prop
  | false, m' => op.Step ext m m'
  | true, m' => ∃ d, op.allocFor = some d ∧ m' = upd m d ⟨[], true⟩

/-- A program with given outcomes; a call throws only if its request for memory failed. -/
def StepsF (ext : Ext w) : Prog (Op w) Bool → (Nat → Var w) → List Bool → (Nat → Var w) → Prop
  | .done, m, [], m' => m' = m
  | .step op fail next, m, t :: ts, m' =>
    (t = true → fail = true) ∧ ∃ m1, StepF ext m op t m1 ∧ StepsF ext (next t) m1 ts m'
  | _, _, _, _ => False

/-- The program meets the obligations of every operation, whichever operations throw. -/
def AllowedF (L : Nat) (ext : Ext w) : Prog (Op w) Bool → (Nat → Var w) → Prop
  | .done, _ => True
  | .step op _ next, m => op.Pre ext m ∧ op.NoBug L ext m ∧
      ∀ t m', StepF ext m op t m' → AllowedF L ext (next t) m'

/-! ## Proof -/

/-- Either the call does what it does with sufficient memory, or it throws and variable `d` is in the
state `reset()` left it in. -/
def Aborts (fail : Bool) (st : St w) (d : Nat) (f : Res (Out w)) (g : Res (St w)) : Prop :=
  f = done g ∨ (fail = true ∧ ∃ st', reset st d = .ok st' ∧ f = .ok (st', true))

theorem reset_strs {st st' : St w} {d : Nat} (h : reset st d = .ok st') : st'.strs d = .init := by
  unfold reset at h
  split at h
  · next b o _ =>
    cases hf : st.mem.free b o with
    | error e => rw [hf] at h; cases h
    | ok m => rw [hf] at h; cases h; simp [St.put]
  · cases h; simp [St.put]

theorem setOwningF_ok (L : Nat) (fail : Bool) (st : St w) (d : Nat) (src : Loc) (len : Nat) :
    Aborts fail st d (setOwningF L fail st d src len) (setOwning L st d src len) := by
  unfold Aborts setOwningF setOwning
  cases hr : reset st d with
  | error e => left; rfl
  | ok st1 =>
    simp only [bind, Except.bind, pure, Except.pure]
    by_cases hz : src = .null ∨ len = 0
    · left; simp only [if_pos hz]; rfl
    · simp only [if_neg hz]
      by_cases hL : len ≤ L
      · left
        simp only [if_pos hL]
        cases st1.read src len <;> rfl
      · simp only [if_neg hL]
        cases fail with
        | false =>
          left
          simp only [Bool.false_eq_true, if_false]
          cases st1.read src len <;> rfl
        | true =>
          right
          refine ⟨rfl, st1, rfl, ?_⟩
          have : st1.put d (.heap false 0 none) = st1 := by
            have h := put_id st1 d
            rwa [reset_strs hr] at h
          simp only [if_true, this]

theorem copyFromF_ok (L : Nat) (fail : Bool) (st : St w) (d x : Nat) :
    Aborts fail st d (copyFromF L fail st d x) (copyFrom L st d x) := by
  unfold copyFromF copyFrom
  by_cases hdx : d = x
  · left; simp only [if_pos hdx]; rfl
  · simp only [if_neg hdx]
    cases hr : reset st d with
    | error e => left; rfl
    | ok st1 =>
      simp only [bind, Except.bind, pure, Except.pure]
      cases hs : st1.strs x with
      | sso s => left; rfl
      | heap o n q =>
        cases o with
        | false => left; rfl
        | true =>
          simp only
          rcases setOwningF_ok L fail st1 d (st1.data x) (st1.size x) with e | ⟨hf, st2, e2, e⟩
          · exact Or.inl e
          · right
            rw [reset_init st1 d (reset_strs hr)] at e2
            cases e2
            exact ⟨hf, st1, hr, e⟩

theorem ownF_ok (L : Nat) (fail : Bool) (st : St w) (d : Nat) :
    Aborts fail st d (ownF L fail st d) (own L st d) := by
  unfold ownF own
  cases st.strs d with
  | sso s => left; rfl
  | heap o n q =>
    cases o with
    | false => exact setOwningF_ok L fail st d _ _
    | true => left; rfl

theorem eraseF_ok (L : Nat) (fail : Bool) (st : St w) (d pos n : Nat) :
    Aborts fail st d (eraseF L fail st d pos n) (erase L st d pos n) := by
  unfold eraseF erase
  rcases ownF_ok L fail st d with e | ⟨hf, st2, e2, e⟩
  · left
    rw [e]
    cases own L st d <;> rfl
  · right
    exact ⟨hf, st2, e2, by rw [e]; rfl⟩

theorem execF_ok {L : Nat} (hL : L < 2 ^ 32) (raw fail : Bool) {ext : Ext w} {st : St w}
    {m : Nat → Var w} (h : WF L ext st m) (op : Op w) (hp : op.Pre ext m) (hb : op.NoBug L ext m) :
    ∃ st' t m', op.execF L raw fail st = .ok (st', t) ∧ StepF ext m op t m' ∧ WF L ext st' m' ∧
      (t = true → fail = true) := by
  obtain ⟨st1, m1, e1, s1, w1⟩ := exec_ok hL raw h op hp hb
  have normal : op.execF L raw fail st = done (op.exec L raw st) →
      ∃ st' t m', op.execF L raw fail st = .ok (st', t) ∧ StepF ext m op t m' ∧ WF L ext st' m' ∧
        (t = true → fail = true) := by
    intro e
    rw [e1] at e
    exact ⟨st1, false, m1, e, s1, w1, by simp⟩
  have fin : ∀ d, op.allocFor = some d → Aborts fail st d (op.execF L raw fail st) (op.exec L raw st) →
      ∃ st' t m', op.execF L raw fail st = .ok (st', t) ∧ StepF ext m op t m' ∧ WF L ext st' m' ∧
        (t = true → fail = true) := by
    intro d hd ha
    rcases ha with e | ⟨hf, st2, e2, e⟩
    · exact normal e
    · obtain ⟨st3, e3, w3, _⟩ := reset_ok h d true
      rw [e2] at e3
      cases e3
      exact ⟨st2, true, _, e, ⟨d, hd, rfl⟩, w3, fun _ => hf⟩
  cases op with
  | assign d b off len => exact fin d rfl (setOwningF_ok L fail st d _ _)
  | assignC d b off =>
    refine fin d rfl ?_
    simp only [Op.execF, Op.exec, setOwningCF, setOwningC]
    cases mstrlen st b off with
    | error e => left; rfl
    | ok n => exact setOwningF_ok L fail st d _ _
  | assignSub d x off n =>
    refine fin d rfl ?_
    simp only [Op.execF, Op.exec, assignSubF, Str.assignSub]
    cases st.data x with
    | null => exact setOwningF_ok L fail st d _ _
    | mem b o => exact setOwningF_ok L fail st d _ _
    | inl y o => exact setOwningF_ok L fail st d _ _
  | copy d x => exact fin d rfl (copyFromF_ok L fail st d x)
  | assignString d x =>
    refine fin d rfl ?_
    simp only [Op.execF, Op.exec, assignStringF, Str.assignString]
    by_cases hdx : d = x
    · left; simp only [if_pos hdx]; rfl
    · simp only [if_neg hdx]
      exact setOwningF_ok L fail st d _ _
  | erase d pos n => exact fin d rfl (eraseF_ok L fail st d pos n)
  | reference d b off len => exact normal rfl
  | referenceC d b off => exact normal rfl
  | assignView d x => exact normal rfl
  | move d x => exact normal rfl
  | reset d => exact normal rfl
  | write d i c => exact normal rfl

theorem runF_ok {L : Nat} (hL : L < 2 ^ 32) (raw : Bool) {ext : Ext w} (p : Prog (Op w) Bool) {st : St w}
    {m : Nat → Var w} (h : WF L ext st m) (ha : AllowedF L ext p m) :
    ∃ st' ts m', runF L raw p st = .ok (st', ts) ∧ StepsF ext p m ts m' ∧ WF L ext st' m' := by
  induction p generalizing st m with
  | done => exact ⟨st, [], m, rfl, rfl, h⟩
  | step op fail next ih =>
    obtain ⟨hp, hb, hr⟩ := ha
    obtain ⟨st1, t, m1, e1, s1, w1, hf⟩ := execF_ok hL raw fail h op hp hb
    obtain ⟨st2, ts, m2, e2, s2, w2⟩ := ih t w1 (hr t m1 s1)
    exact ⟨st2, t :: ts, m2, by simp only [runF, e1, Except.bind, e2]; rfl, ⟨hf, m1, s1, s2⟩, w2⟩

/-- **C103** Whatever allocations fail while a program uses strings, every string has the text given by
the operations that did not throw, where a string whose assignment, copy or `erase` threw is empty (and
usable: all later operations work on it); external memory is never changed or released, and every
allocation is owned by exactly one string, so nothing is leaked or released twice. -/
theorem C103_history {L : Nat} (hL : L < 2 ^ 32) (raw : Bool) (ext : Ext w) (next : Nat)
    (hn : ∀ b, next ≤ b → ext b = none) (p : Prog (Op w) Bool)
    (ha : AllowedF L ext p (fun _ => ⟨[], true⟩)) :
    ∃ st ts m, runF L raw p (St.start ext next) = .ok (st, ts) ∧
      StepsF ext p (fun _ => ⟨[], true⟩) ts m ∧ (∀ x, Observes st x (m x).text) ∧
      (∀ b cs, ext b = some cs → st.mem.blocks b = some cs) ∧
      (∀ b, st.mem.blocks b ≠ none → ext b = none → ∃ x n, st.strs x = .heap true n (some (b, 0)) ∧
        ∀ y k j, st.strs y = .heap true k (some (b, j)) → y = x) := by
  obtain ⟨st, ts, m, e, s, w1⟩ := runF_ok hL raw p (wf_start L ext next hn) ha
  refine ⟨st, ts, m, e, s, fun x => observes w1 x, w1.extLive, ?_⟩
  intro b hb he
  rcases w1.owned b hb with h | ⟨x, n, hx⟩
  · exact absurd he h
  · exact ⟨x, n, hx, fun y k j hy => w1.inj y x b k n j 0 hy hx⟩

/-- **C103** Texts that fit into the object never throw. -/
theorem C103_short (L : Nat) (st : St w) (d : Nat) (src : Loc) (len : Nat) (h : len ≤ L) :
    setOwningF L true st d src len = done (setOwning L st d src len) := by
  unfold setOwningF setOwning
  cases reset st d with
  | error e => rfl
  | ok st1 =>
    simp only [bind, Except.bind, pure, Except.pure]
    by_cases hz : src = .null ∨ len = 0
    · simp only [if_pos hz]; rfl
    · simp only [if_neg hz, if_pos h]
      cases st1.read src len <;> rfl

/-- Non-vacuity (C103): a long string, whose replacement fails, and a short one. -/
example : ∃ st, runF 15 true (.ofList [(.assign 0 0 0 20, false), (.assign 1 0 0 3, true), (.copy 2 0, true),
    (.assign 0 0 0 18, true)]) (St.start (fun b => if b = 0 then some (List.replicate 20 65#8) else none) 1) =
      .ok (st, [false, false, true, true]) ∧
    (st.view 0).toOption = some [] ∧ (st.view 1).toOption = some [65#8, 65#8, 65#8] ∧
    (st.view 2).toOption = some [] ∧ st.mem.blocks 1 = none := ⟨_, rfl, by decide, by decide, by decide, by decide⟩

/-- Non-vacuity (C103): the obligations are met by a program that assigns and copies. -/
example (f g : Bool) : AllowedF 15 (fun b => if b = 0 then some (List.replicate 20 65#8) else none)
    (.step (.assign 0 0 0 20) f fun _ => .step (.copy 1 0) g fun _ => .done) (fun _ => ⟨[], true⟩) := by
  refine ⟨⟨_, rfl, by decide, by decide⟩, ?_, ?_⟩
  · intro cs hcs
    cases hcs
    intro h
    simp [slice] at h
  · intro t m' st
    refine ⟨trivial, ?_, fun _ _ _ => trivial⟩
    cases t with
    | true =>
      obtain ⟨d, hd, hm⟩ := st
      cases hd
      subst hm
      intro _ h
      simp [upd] at h
    | false =>
      cases st with
      | assign h =>
        cases h
        intro h
        simp [upd, slice] at h

end Cista.Str
