import Verif.Multi.Fws
import Verif.Multi.VecVec
import Verif.Misc.FlatMatrix
import Verif.Fail.Prog

set_option linter.unusedSimpArgs false

/-!
# C106, C107, C108 — `fws_multimap`, `vecvec` and `flat_matrix` when memory runs out

A vector operation that throws leaves its vector as it was (C101); the models here say in which order the
containers update their vectors.
-/
namespace Cista.Multi.Fws

open Cista.Fail (Prog)

variable {α : Type}

inductive Op (α : Type) where
  | push (x : α)
  | finishKey
  | finishMap

/-- fws_multimap.h:151-173: each operation starts with the `push_back` that may throw; everything else
follows it. -/
def Op.execF (W : Nat) (fail : Bool) (m : FM α) : Op α → FM α × Bool
  | .push x => if fail then (m, true) else (m.pushBack x, false)
  | .finishKey => if fail then (m, true) else (m.finishKey W, false)
  | .finishMap => if fail then (m, true) else (m.finishMap W, false)

/-- Run a program that catches the exceptions. -/
def runF (W : Nat) : Prog (Op α) Bool → FM α → FM α × List Bool
  | .done, m => (m, [])
  | .step op fail next, m =>
    let r := op.execF W fail m
    let q := runF W (next r.2) r.1
    (q.1, r.2 :: q.2)

/-! ## Specification: finished groups, the open group, whether the map is finished -/

structure Spec (α : Type) where
  groups : List (List α)
  cur : List α
  finished : Bool

def Op.spec (s : Spec α) : Op α → Spec α
  | .push x => { s with cur := s.cur ++ [x] }
  | .finishKey => ⟨s.groups ++ [s.cur], [], s.finished⟩
  | .finishMap => { s with finished := true }

/-- Caller obligations: nothing after `finish_map`, which follows a `finish_key`; all counts fit. -/
def Op.Pre (W : Nat) (s : Spec α) (op : Op α) : Prop :=
  s.finished = false ∧ s.groups.length + 1 < 2 ^ W ∧ s.groups.length + 2 < 2 ^ 64 ∧
  match op with
  | .push _ => (s.groups.flatten ++ s.cur).length + 1 < 2 ^ W
  | .finishKey => True
  | .finishMap => s.cur = []

/-- What the program has built: operations that threw are skipped. -/
def outcome : Prog (Op α) Bool → Spec α → List Bool → Spec α
  | .step op _ next, s, t :: ts => outcome (next t) (if t then s else op.spec s) ts
  | _, s, _ => s

/-- The program meets the obligations, whichever operations throw. -/
def AllowedF (W : Nat) : Prog (Op α) Bool → Spec α → Prop
  | .done, _ => True
  | .step op _ next, s => op.Pre W s ∧ AllowedF W (next true) s ∧ AllowedF W (next false) (op.spec s)

/-- The state of a map under construction, or of a finished one. -/
def Holds (W : Nat) (m : FM α) (s : Spec α) : Prop :=
  (s.groups.flatten ++ s.cur).length < 2 ^ W ∧ s.groups.length < 2 ^ W ∧ s.groups.length + 1 < 2 ^ 64 ∧
  if s.finished then m = build W s.groups ∧ s.cur = []
  else m = s.cur.foldl FM.pushBack (s.groups.foldl (addGroup W) .empty)

theorem execF_ok {W : Nat} {m : FM α} {s : Spec α} (h : Holds W m s) (op : Op α) (hp : op.Pre W s) :
    Holds W (op.execF W false m).1 (op.spec s) ∧ (op.execF W false m).2 = false := by
  obtain ⟨g, cur, fin⟩ := s
  obtain ⟨hf, hn, hn2, hop⟩ := hp
  simp only at hf
  subst hf
  obtain ⟨h1, h2, h3, h4⟩ := h
  simp only [Bool.false_eq_true, if_false] at h1 h2 h3 h4 hop hn hn2
  subst h4
  cases op with
  | push x =>
    refine ⟨⟨?_, h2, h3, ?_⟩, rfl⟩
    · simp only [Op.spec]
      rw [← List.append_assoc, List.length_append]
      simpa using hop
    · simp only [Op.spec, Bool.false_eq_true, if_false, Op.execF]
      rw [List.foldl_append]
      rfl
  | finishKey =>
    refine ⟨⟨?_, ?_, ?_, ?_⟩, rfl⟩
    · simpa [Op.spec] using h1
    · simp only [Op.spec, List.length_append, List.length_singleton]; omega
    · simp only [Op.spec, List.length_append, List.length_singleton]; omega
    · simp only [Op.spec, Bool.false_eq_true, if_false, Op.execF, List.foldl_append, List.foldl_cons, List.foldl_nil]
      rfl
  | finishMap =>
    subst hop
    refine ⟨⟨h1, h2, h3, ?_⟩, rfl⟩
    simp only [Op.spec, if_true, Op.execF, Bool.false_eq_true, if_false, and_true]
    rfl

theorem runF_ok {W : Nat} (p : Prog (Op α) Bool) : ∀ {m : FM α} {s : Spec α}, Holds W m s → AllowedF W p s →
    Holds W (runF W p m).1 (outcome p s (runF W p m).2) := by
  induction p with
  | done => intro m s h _; exact h
  | step op fail next ih =>
    intro m s h ⟨hp, ht, hf⟩
    cases fail with
    | true =>
      have e : op.execF W true m = (m, true) := by cases op <;> rfl
      simp only [runF, e, outcome, if_true]
      exact ih true h ht
    | false =>
      obtain ⟨h1, h2⟩ := execF_ok h op hp
      simp only [runF, h2, outcome, Bool.false_eq_true, if_false]
      exact ih false h1 hf

/-- **C106** A `fws_multimap` built by a program that catches `std::bad_alloc` and goes on (for instance
retries) holds exactly what the calls that did not throw have added: once finished, the entry of key `k` is
the `k`-th group and iteration visits the groups in key order; before, `current_key()` is the number of
finished keys. -/
theorem C106_fws_history (W : Nat) (p : Prog (Op α) Bool) (ha : AllowedF W p ⟨[], [], false⟩) :
    let r := runF W p .empty
    let s := outcome p ⟨[], [], false⟩ r.2
    (s.finished = true → r.1.iterate W = .ok s.groups ∧ r.1.complete = true ∧
      ∀ k g, s.groups[k]? = some g → r.1.entry k = .ok g) ∧
    (s.finished = false → r.1.currentKey W = s.groups.length ∧ r.1.complete = false) := by
  intro r s
  have h : Holds W r.1 s := runF_ok p (m := .empty) (s := ⟨[], [], false⟩)
    ⟨by simpa using Nat.two_pow_pos W, by simpa using Nat.two_pow_pos W, by simp, by simp⟩ ha
  obtain ⟨h1, h2, h3, h4⟩ := h
  have hl : s.groups.flatten.length < 2 ^ W := by rw [List.length_append] at h1; omega
  refine ⟨fun hs => ?_, fun hs => ?_⟩
  · rw [hs, if_pos rfl] at h4
    obtain ⟨c1, c2, _, _, c5⟩ := C21_groups W s.groups hl h2 h3
    rw [h4.1]
    exact ⟨c2, c5, fun k g hg => (c1 k g hg).1⟩
  · rw [hs] at h4
    simp only [Bool.false_eq_true, if_false] at h4
    rw [h4]
    refine ⟨C21_current_key W s.groups s.cur hl h2, ?_⟩
    rw [foldl_push, groups W s.groups hl]

/-- Non-vacuity (C106): the second value and the first `finish_key` fail and are retried. -/
example : ((runF 32 (.ofList [(.push 1, false), (.push 2, true), (.push 3, false), (.finishKey, true), (.finishKey, false),
    (.finishMap, false)]) (.empty : FM Nat)).1).iterate 32 = .ok [[1, 3]] := by decide

example (f : Bool) : AllowedF 32 (.step (.push 1) f fun _ => .step .finishKey false fun _ => .done : Prog (Op Nat) Bool)
    ⟨[], [], false⟩ := by
  simp [AllowedF, Op.Pre, Op.spec]

end Cista.Multi.Fws

namespace Cista.Multi.VecVec

variable {α : Type}

/-- vecvec.h:367-375 `emplace_back` of a container and 377-384 `add_back_sized`; the flags say which of
the three vector operations fails: the leading 0, the elements, the index. -/
def VV.emplaceBackF (W : Nat) (f0 f1 f2 : Bool) (v : VV α) (xs : List α) : VV α × Bool :=
  if v.starts = [] && f0 then (v, true)
  else if f1 then (v.ensure, true)
  else if f2 then ({ v.ensure with data := v.data ++ xs }, true)
  else (v.emplaceBack W xs, false)

/-- vecvec.h:386-397 `emplace_back` of an initializer list: the index first. -/
def VV.emplaceListF (W : Nat) (f0 f1 f2 : Bool) (v : VV α) (xs : List α) : VV α × Bool :=
  if v.starts = [] && f0 then (v, true)
  else if f1 then (v.ensure, true)
  else if f2 then (⟨v.data, v.ensure.starts ++ [(v.data.length + xs.length) % 2 ^ W]⟩, true)
  else (v.emplaceBack W xs, false)

theorem Inv.ensure' {v : VV α} {L : List (List α)} {s : Bool} (h : Inv v L s) : Inv v.ensure L s := by
  obtain ⟨h1, h2, h3⟩ := h.ensure
  exact Or.inr ⟨h1, by rw [h2]; exact h3⟩

/-- **C107** (partial): if only the first element of the index or the elements cannot be stored, a failed
`emplace_back` of a container or `add_back_sized` leaves all buckets as they were; if nothing fails the bucket is added.

Missing: a failure when the index grows (`C107_index_violated`), and the initializer list overload
(`C107_list_violated`). -/
theorem C107_emplace_partial {W : Nat} {v : VV α} {L : List (List α)} (h : Inv v L false) (xs : List α) (f0 f1 : Bool)
    (hlt : (L ++ [xs]).flatten.length < 2 ^ W) :
    let r := v.emplaceBackF W f0 f1 false xs
    Inv r.1 (if r.2 then L else L ++ [xs]) false ∧ (r.2 = true → f0 = true ∨ f1 = true) := by
  intro r
  by_cases hc : (v.starts = [] && f0) = true
  · have : r = (v, true) := by simp only [r, VV.emplaceBackF]; rw [if_pos hc]
    rw [this]
    exact ⟨by simpa using h, fun _ => Or.inl (by simp at hc; exact hc.2)⟩
  · cases f1 with
    | true =>
      have : r = (v.ensure, true) := by simp only [r, VV.emplaceBackF]; rw [if_neg hc]; rfl
      rw [this]
      exact ⟨by simpa using h.ensure', fun _ => Or.inr rfl⟩
    | false =>
      have : r = (v.emplaceBack W xs, false) := by
        simp only [r, VV.emplaceBackF]; rw [if_neg hc]; rfl
      rw [this]
      exact ⟨by simpa using h.emplaceBack xs hlt, by simp⟩

/-- **C107** (partial): the same for an initializer list: if only its elements can be stored, a failure is reported and
leaves all buckets as they were. -/
theorem C107_list_partial {W : Nat} {v : VV α} {L : List (List α)} (h : Inv v L false) (xs : List α) (f0 f1 : Bool)
    (hlt : (L ++ [xs]).flatten.length < 2 ^ W) :
    let r := v.emplaceListF W f0 f1 false xs
    Inv r.1 (if r.2 then L else L ++ [xs]) false ∧ (r.2 = true → f0 = true ∨ f1 = true) ∧ (f1 = true → r.2 = true) := by
  intro r
  by_cases hc : (v.starts = [] && f0) = true
  · have : r = (v, true) := by simp only [r, VV.emplaceListF]; rw [if_pos hc]
    rw [this]
    exact ⟨by simpa using h, fun _ => Or.inl (by simp at hc; exact hc.2), fun _ => rfl⟩
  · cases f1 with
    | true =>
      have : r = (v.ensure, true) := by simp only [r, VV.emplaceListF]; rw [if_neg hc]; rfl
      rw [this]
      exact ⟨by simpa using h.ensure', fun _ => Or.inr rfl, fun _ => rfl⟩
    | false =>
      have : r = (v.emplaceBack W xs, false) := by simp only [r, VV.emplaceListF]; rw [if_neg hc]; rfl
      rw [this]
      refine ⟨?_, nofun, nofun⟩
      obtain ⟨h1, h2⟩ := (C107_emplace_partial h xs false false hlt : _ ∧ _)
      simpa [VV.emplaceBackF] using h1

/-- **C107** (violated): if the index cannot grow, the elements stay behind and the next bucket that is
added begins with them. -/
theorem C107_index_violated (W : Nat) (L : List (List α)) (xs ys : List α)
    (hlt : L.flatten.length + xs.length + ys.length < 2 ^ W) :
    let r := (⟨L.flatten, offs L⟩ : VV α).emplaceBackF W false false true xs
    r.2 = true ∧ (r.1.emplaceBack W ys).bucket L.length = .ok (xs ++ ys) := by
  have hne : offs L ≠ [] := by intro e; simpa using congrArg List.length e
  intro r
  have hr : r = (⟨(L ++ [xs]).flatten, offs L⟩, true) := by
    simp [r, VV.emplaceBackF, VV.ensure, hne]
  refine ⟨by rw [hr], ?_⟩
  rw [hr]
  have h := C22_resize_violated W (L ++ [xs]) L.length (by simp) ys (by
    simp only [List.flatten_append, List.flatten_cons, List.flatten_nil, List.append_nil, List.length_append]; omega)
  have e : (⟨(L ++ [xs]).flatten, offs (L ++ [xs])⟩ : VV α).resize W L.length = ⟨(L ++ [xs]).flatten, offs L⟩ := by
    have ht := offs_take (L ++ [xs]) L.length (by simp)
    rw [List.take_left] at ht
    simp only [VV.resize]
    rw [ht]
    simp
  rw [e] at h
  rw [h]
  simp

/-- **C107** (violated): if the elements of an initializer list cannot be stored, the index already
refers to them: using the new bucket reads behind the elements. -/
theorem C107_list_violated (W : Nat) (L : List (List α)) (xs : List α) (hx : xs ≠ [])
    (hlt : L.flatten.length + xs.length < 2 ^ W) :
    let r := (⟨L.flatten, offs L⟩ : VV α).emplaceListF W false false true xs
    r.2 = true ∧ r.1.starts.length = L.length + 2 ∧ r.1.bucket L.length = .error .ub := by
  have hne : offs L ≠ [] := by intro e; simpa using congrArg List.length e
  intro r
  have hr : r = (⟨L.flatten, offs (L ++ [xs])⟩, true) := by
    simp only [r, VV.emplaceListF, VV.ensure, hne, decide_false, Bool.false_and, Bool.false_eq_true, if_false, if_true,
      offs_snoc, Nat.mod_eq_of_lt hlt]
  rw [hr]
  refine ⟨rfl, by simp, ?_⟩
  have hlen : 0 < xs.length := by cases xs with | nil => exact absurd rfl hx | cons a l => simp
  have h1 : (offs (L ++ [xs]))[L.length]? = some L.flatten.length := by
    rw [offs_get? (by simp)]; simp
  have h2 : (offs (L ++ [xs]))[L.length + 1]? = some (L.flatten.length + xs.length) := by
    rw [offs_get? (by simp), List.take_of_length_le (by simp)]; simp
  unfold VV.bucket VV.beginIdx VV.endIdx VV.start
  have he : VV.isEmpty (⟨L.flatten, offs (L ++ [xs])⟩ : VV α) = false := by
    simp [VV.isEmpty, offs_snoc]
  rw [he]
  simp only [h1, h2, Bool.false_eq_true, if_false, bind, Except.bind, pure, Except.pure]
  have hr2 : (decide (L.flatten.length ≤ L.flatten.length + xs.length) &&
      decide (L.flatten.length + xs.length ≤ L.flatten.length)) = false := by
    rw [Bool.and_eq_false_iff]; right; exact decide_eq_false (by omega)
  rw [hr2]
  rfl

/-- Non-vacuity (C107). -/
example : ((VV.empty.emplaceBackF 32 false true false [1]).1.emplaceBack 32 [2, 3]).iterate 32 = .ok [[2, 3]] ∧
    ((VV.empty.emplaceBackF 32 false false true [1]).1.emplaceBack 32 [2, 3]).iterate 32 = .ok [[1, 2, 3]] := by decide

end Cista.Multi.VecVec

namespace Cista.FlatMatrix

variable {α : Type}

/-- flat_matrix.h:96-100: the dimensions are stored before the vector grows; shrinking does not allocate. -/
def Mat.resizeF (W : Nat) (fail : Bool) (a : Mat α) (n m : Nat) (d : α) : Mat α × Bool :=
  if fail && decide (a.entries.length < (n * m) % 2 ^ W) then ({ a with rows := n, cols := m % 2 ^ W }, true)
  else (a.resize W n m d, false)

/-- **C108** (partial): resizing to no more cells does not allocate: it succeeds whatever the allocator
does.

Missing: growing (`C108_grow_violated`). -/
theorem C108_shrink_partial {W m : Nat} {a : Mat α} {s : Spec α} (r : Rel W m a s) (fail : Bool) (n m' : Nat) (d : α)
    (h : n * m' ≤ s.rows * m) : a.resizeF W fail n m' d = (a.resize W n m' d, false) := by
  have := r.fits
  have hl := r.len
  unfold Mat.resizeF
  rw [Nat.mod_eq_of_lt (by omega), decide_eq_false (by omega)]
  simp

/-- **C108** (violated): a matrix that could not grow claims the new size, and access to its last cell
is undefined behaviour. -/
theorem C108_grow_violated {W m : Nat} {a : Mat α} {s : Spec α} (r : Rel W m a s) (n m' : Nat) (d : α)
    (h : s.rows * m < n * m') (hf : n * m' < 2 ^ W) :
    ∃ a', a.resizeF W true n m' d = (a', true) ∧ a'.rows = n ∧ a'.cols = m' ∧
      a'.at W (n - 1) (m' - 1) = .error .ub := by
  have hl := r.len
  have hpos : 0 < n * m' := by omega
  have hn : 0 < n := Nat.pos_of_mul_pos_right hpos
  have hm : 0 < m' := Nat.pos_of_mul_pos_left hpos
  have hm2 : m' < 2 ^ W := Nat.lt_of_le_of_lt (Nat.le_mul_of_pos_left m' hn) hf
  refine ⟨{ a with rows := n, cols := m' }, ?_, rfl, rfl, ?_⟩
  · unfold Mat.resizeF
    rw [Nat.mod_eq_of_lt hf, Nat.mod_eq_of_lt hm2, decide_eq_true (by omega)]
    simp
  · obtain ⟨n, rfl⟩ : ∃ k, n = k + 1 := ⟨n - 1, by omega⟩
    obtain ⟨m', rfl⟩ : ∃ k, m' = k + 1 := ⟨m' - 1, by omega⟩
    have e : (m' + 1) * n + m' + 1 = (n + 1) * (m' + 1) := by
      simp only [Nat.add_mul, Nat.mul_add, Nat.one_mul, Nat.mul_one]
      rw [Nat.mul_comm m' n]; omega
    unfold Mat.at Mat.get Mat.pos
    simp only [Nat.add_sub_cancel]
    rw [decide_eq_true (Nat.lt_succ_self n), verify_true, ok_bind, decide_eq_true ⟨Nat.lt_succ_self n, Nat.lt_succ_self m'⟩,
      require_true, ok_bind, Nat.mod_eq_of_lt (by omega), List.getElem?_eq_none (by omega)]

/-- Non-vacuity (C108). -/
example : ((make 32 2 3 7).resizeF 32 true 4 4 0).2 = true ∧
    ((make 32 2 3 7).resizeF 32 true 4 4 0).1.at 32 3 3 = .error .ub := by decide

end Cista.FlatMatrix
