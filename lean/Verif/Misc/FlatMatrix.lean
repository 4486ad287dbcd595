import Verif.Basic

/-!
# flat_matrix

Model of `cista::base_flat_matrix` (include/cista/containers/flat_matrix.h).  `entries_` is the list of elements of the
`cista::vector` (its own refinement of lists is the subject of C09); sizes and positions are computed in the
`W`-bit `size_type` of the vector (32 for `offset::/raw::flat_matrix`).
-/
set_option linter.unusedSimpArgs false

namespace Cista.FlatMatrix

/-- flat_matrix.h:106-107. -/
structure Mat (α : Type) where
  rows : Nat
  cols : Nat
  entries : List α
deriving DecidableEq, Repr

variable {α : Type}

/-- `Vector::resize(n, init)`: keep the first `n` elements, append copies of `init`. -/
def vecResize (es : List α) (n : Nat) (x : α) : List α := es.take n ++ List.replicate (n - es.length) x

/-- flat_matrix.h:116-122, 132-138 `make_flat_matrix`: the product is computed in 32 bits. -/
def make (W n m : Nat) (x : α) : Mat α := ⟨n, m, vecResize [] ((n * m) % 2 ^ W) x⟩

/-- flat_matrix.h:96-100 `resize`; `d` is the value-initialised element. `n_columns` is a `size_t`: stored and multiplied,
then truncated to `size_type`. -/
def Mat.resize (W : Nat) (a : Mat α) (n m : Nat) (d : α) : Mat α :=
  ⟨n, m % 2 ^ W, vecResize a.entries ((n * m) % 2 ^ W) d⟩

/-- flat_matrix.h:39, 64, 83: the position of a cell. -/
def Mat.pos (W : Nat) (a : Mat α) (i j : Nat) : Nat := (a.cols * i + j) % 2 ^ W

/-- flat_matrix.h:81-84 `operator()`, 37-41, 62-66 `row::operator[]` after 72-79: the `assert`s are preconditions. -/
def Mat.get (W : Nat) (a : Mat α) (i j : Nat) : Res α := do
  require (decide (i < a.rows ∧ j < a.cols))
  match a.entries[a.pos W i j]? with
  | some x => .ok x
  | none => .error .ub

/-- Writing through the reference returned by `operator()` / `operator[]`. -/
def Mat.put (W : Nat) (a : Mat α) (i j : Nat) (x : α) : Res (Mat α) := do
  require (decide (i < a.rows ∧ j < a.cols))
  require (decide (a.pos W i j < a.entries.length))
  return { a with entries := a.entries.set (a.pos W i j) x }

/-- flat_matrix.h:86-94 `at(i)[j]`: the row index is verified, the column index asserted. -/
def Mat.at (W : Nat) (a : Mat α) (i j : Nat) : Res α := do
  verify (decide (i < a.rows))
  a.get W i j

/-- flat_matrix.h:37-41, 62-66: the elements of a row, read one after the other by `row::operator[]`.  `row::begin()` and `end()`
(flat_matrix.h:20-31, 53-58) hand the vector itself, which is no iterator, to `std::next` and do not compile. -/
def Mat.row (W : Nat) (a : Mat α) (i : Nat) : Res (List α) := (List.range a.cols).mapM (a.get W i)

/-- flat_matrix.h:102-104 `reset`. -/
def Mat.reset (a : Mat α) (x : α) : Mat α := { a with entries := a.entries.map fun _ => x }

inductive Op (α : Type) where
  | put (i j : Nat) (x : α)
  | reset (x : α)
  /-- resizing to another number of rows -/
  | rows (n : Nat)

def Op.exec (W : Nat) (d : α) (a : Mat α) : Op α → Res (Mat α)
  | .put i j x => a.put W i j x
  | .reset x => .ok (a.reset x)
  | .rows n => .ok (a.resize W n a.cols d)

def run (W : Nat) (d : α) : Mat α → List (Op α) → Res (Mat α)
  | a, [] => .ok a
  | a, op :: ops => do
    let a ← op.exec W d a
    run W d a ops

/-! ## Specification: a number of rows and a function from cells to values -/

structure Spec (α : Type) where
  rows : Nat
  cell : Nat → Nat → α

def Op.spec (d : α) (s : Spec α) : Op α → Spec α
  | .put i j x => ⟨s.rows, fun i' j' => if i' = i ∧ j' = j then x else s.cell i' j'⟩
  | .reset x => ⟨s.rows, fun _ _ => x⟩
  | .rows n => ⟨n, fun i j => if i < s.rows then s.cell i j else d⟩

def Op.Pre (W m : Nat) (s : Spec α) : Op α → Prop
  | .put i j _ => i < s.rows ∧ j < m
  | .reset _ => True
  | .rows n => n * m < 2 ^ W

def specRun (d : α) : Spec α → List (Op α) → Spec α
  | s, [] => s
  | s, op :: ops => specRun d (op.spec d s) ops

def Allowed (W m : Nat) (d : α) : Spec α → List (Op α) → Prop
  | _, [] => True
  | s, op :: ops => op.Pre W m s ∧ Allowed W m d (op.spec d s) ops

/-! ## Proof -/

structure Rel (W m : Nat) (a : Mat α) (s : Spec α) : Prop where
  rows : a.rows = s.rows
  cols : a.cols = m
  colsW : m < 2 ^ W
  len : a.entries.length = s.rows * m
  fits : s.rows * m < 2 ^ W
  cell : ∀ i j, i < s.rows → j < m → a.entries[m * i + j]? = some (s.cell i j)

theorem cell_lt {n m i j : Nat} (hi : i < n) (hj : j < m) : m * i + j < n * m := by
  have : m * (i + 1) ≤ m * n := Nat.mul_le_mul_left m hi
  rw [Nat.mul_succ] at this
  rw [Nat.mul_comm n m]; omega

theorem cell_inj {m i j i' j' : Nat} (hj : j < m) (hj' : j' < m) (h : m * i + j = m * i' + j') : i = i' ∧ j = j' := by
  have h1 : (m * i + j) / m = i := by
    rw [Nat.mul_add_div (by omega), Nat.div_eq_of_lt hj]; omega
  have h2 : (m * i' + j') / m = i' := by
    rw [Nat.mul_add_div (by omega), Nat.div_eq_of_lt hj']; omega
  have : i = i' := by rw [← h1, ← h2, h]
  subst this
  exact ⟨rfl, by omega⟩

theorem Rel.pos {W m : Nat} {a : Mat α} {s : Spec α} (h : Rel W m a s) {i j : Nat} (hi : i < s.rows) (hj : j < m) :
    a.pos W i j = m * i + j := by
  rw [Mat.pos, h.cols, Nat.mod_eq_of_lt (Nat.lt_trans (cell_lt hi hj) h.fits)]

theorem Rel.get {W m : Nat} {a : Mat α} {s : Spec α} (h : Rel W m a s) {i j : Nat} (hi : i < s.rows) (hj : j < m) :
    a.get W i j = .ok (s.cell i j) := by
  simp only [Mat.get, h.pos hi hj, h.rows, h.cols, hi, hj, h.cell i j hi hj, and_self, decide_true, require_true, ok_bind]

theorem Rel.put {W m : Nat} {a : Mat α} {s : Spec α} (h : Rel W m a s) {i j : Nat} (hi : i < s.rows) (hj : j < m) (x : α) :
    ∃ a', a.put W i j x = .ok a' ∧
      Rel W m a' ⟨s.rows, fun i' j' => if i' = i ∧ j' = j then x else s.cell i' j'⟩ := by
  have hl : m * i + j < a.entries.length := by rw [h.len]; exact cell_lt hi hj
  refine ⟨{ a with entries := a.entries.set (m * i + j) x }, ?_, h.rows, h.cols, h.colsW, ?_, h.fits, ?_⟩
  · simp only [Mat.put, h.pos hi hj, h.rows, h.cols, hi, hj, hl, and_self, decide_true, require_true, ok_bind, pure_ok]
  · simp only [List.length_set]; exact h.len
  · intro i' j' hi' hj'
    show (a.entries.set (m * i + j) x)[m * i' + j']? = some (if i' = i ∧ j' = j then x else s.cell i' j')
    by_cases he : m * i + j = m * i' + j'
    · obtain ⟨rfl, rfl⟩ := cell_inj hj hj' he
      rw [List.getElem?_set_self hl]; simp
    · rw [List.getElem?_set_ne he, h.cell i' j' hi' hj', if_neg]
      rintro ⟨rfl, rfl⟩; exact he rfl

theorem vecResize_length (es : List α) (n : Nat) (x : α) : (vecResize es n x).length = n := by
  simp [vecResize]; omega

theorem vecResize_get (es : List α) (n : Nat) (x : α) {i : Nat} (hi : i < n) :
    (vecResize es n x)[i]? = if i < es.length then es[i]? else some x := by
  unfold vecResize
  by_cases h : i < es.length
  · rw [List.getElem?_append_left (by simp; omega), List.getElem?_take, if_pos hi, if_pos h]
  · rw [List.getElem?_append_right (by simp; omega), if_neg h, List.getElem?_replicate, if_pos]
    simp; omega

theorem Rel.resize {W m : Nat} {a : Mat α} {s : Spec α} (h : Rel W m a s) {n : Nat} (hn : n * m < 2 ^ W) (d : α) :
    Rel W m (a.resize W n a.cols d) ⟨n, fun i j => if i < s.rows then s.cell i j else d⟩ := by
  have hm : (n * a.cols) % 2 ^ W = n * m := by rw [h.cols, Nat.mod_eq_of_lt hn]
  refine ⟨rfl, ?_, h.colsW, ?_, hn, ?_⟩
  · show a.cols % 2 ^ W = m
    rw [h.cols, Nat.mod_eq_of_lt h.colsW]
  · simp only [Mat.resize, hm]; exact vecResize_length _ _ _
  · intro i j hi hj
    simp only [Mat.resize, hm]
    rw [vecResize_get _ _ _ (cell_lt hi hj), h.len]
    by_cases hr : i < s.rows
    · rw [if_pos (cell_lt hr hj), if_pos hr]; exact h.cell i j hr hj
    · rw [if_neg hr, if_neg]
      have : m * s.rows ≤ m * i := Nat.mul_le_mul_left m (by omega)
      rw [Nat.mul_comm s.rows m]; omega

theorem Rel.reset {W m : Nat} {a : Mat α} {s : Spec α} (h : Rel W m a s) (x : α) :
    Rel W m (a.reset x) ⟨s.rows, fun _ _ => x⟩ := by
  refine ⟨h.rows, h.cols, h.colsW, ?_, h.fits, ?_⟩
  · simp only [Mat.reset, List.length_map]; exact h.len
  · intro i j hi hj
    simp only [Mat.reset, List.getElem?_map, h.cell i j hi hj, Option.map_some]

theorem make_rel {W n m : Nat} (hm : m < 2 ^ W) (hnm : n * m < 2 ^ W) (x : α) :
    Rel W m (make W n m x) ⟨n, fun _ _ => x⟩ := by
  refine ⟨rfl, rfl, hm, ?_, hnm, ?_⟩
  · simp only [make, Nat.mod_eq_of_lt hnm]; exact vecResize_length _ _ _
  · intro i j hi hj
    simp only [make, Nat.mod_eq_of_lt hnm]
    rw [vecResize_get _ _ _ (cell_lt hi hj)]; simp

theorem run_ok {W m : Nat} {d : α} : ∀ (ops : List (Op α)) {a : Mat α} {s : Spec α}, Rel W m a s → Allowed W m d s ops →
    ∃ a', run W d a ops = .ok a' ∧ Rel W m a' (specRun d s ops)
  | [], a, s, h, _ => ⟨a, rfl, h⟩
  | op :: ops, a, s, h, ha => by
    have : ∃ a', op.exec W d a = .ok a' ∧ Rel W m a' (op.spec d s) := by
      cases op with
      | put i j x => exact h.put ha.1.1 ha.1.2 x
      | reset x => exact ⟨_, rfl, h.reset x⟩
      | rows n => exact ⟨_, rfl, h.resize ha.1 d⟩
    obtain ⟨a1, e1, h1⟩ := this
    obtain ⟨a2, e2, h2⟩ := run_ok ops h1 ha.2
    exact ⟨a2, by simp only [run, e1, ok_bind, e2], h2⟩

/-- **C45**: in a matrix whose number of cells fits the size type, after any history of writes, resets and row-count
changes, every in-range cell reads, via `operator()`, `operator[]` and `at`, as the function updated at exactly the
written cells says; a row index out of range makes `at` throw. -/
theorem C45_history_partial {W n m : Nat} (hm : m < 2 ^ W) (hnm : n * m < 2 ^ W) (x d : α) (ops : List (Op α))
    (ha : Allowed W m d ⟨n, fun _ _ => x⟩ ops) :
    ∃ a, run W d (make W n m x) ops = .ok a ∧
      (∀ i j, i < (specRun d ⟨n, fun _ _ => x⟩ ops).rows → j < m →
        a.get W i j = .ok ((specRun d ⟨n, fun _ _ => x⟩ ops).cell i j) ∧
        a.at W i j = .ok ((specRun d ⟨n, fun _ _ => x⟩ ops).cell i j)) ∧
      (∀ i j, (specRun d ⟨n, fun _ _ => x⟩ ops).rows ≤ i → a.at W i j = .error .exn) := by
  obtain ⟨a, e, h⟩ := run_ok ops (make_rel hm hnm x) ha
  refine ⟨a, e, fun i j hi hj => ⟨h.get hi hj, ?_⟩, fun i j hi => ?_⟩
  · simp only [Mat.at, h.rows, hi, decide_true, verify_true, ok_bind]; exact h.get hi hj
  · have : decide (i < a.rows) = false := by rw [h.rows]; simp; exact hi
    rw [Mat.at, this, verify_false]; rfl

theorem mapM_map {β γ : Type} {f : β → Res γ} {g : β → γ} : ∀ (l : List β), (∀ x ∈ l, f x = .ok (g x)) → l.mapM f = .ok (l.map g)
  | [], _ => rfl
  | x :: l, h => by
    rw [List.mapM_cons, h x (by simp), ok_bind, mapM_map l fun y hy => h y (by simp [hy])]
    rfl

theorem Rel.row {W m : Nat} {a : Mat α} {s : Spec α} (h : Rel W m a s) {i : Nat} (hi : i < s.rows) :
    a.row W i = .ok ((List.range m).map fun j => s.cell i j) := by
  rw [Mat.row, h.cols]
  exact mapM_map _ fun j hj => h.get hi (List.mem_range.1 hj)

/-- **C45**: reading a row from its first to its last column yields its cells. -/
theorem C45_row {W n m : Nat} (hm : m < 2 ^ W) (hnm : n * m < 2 ^ W) (x d : α) (ops : List (Op α))
    (ha : Allowed W m d ⟨n, fun _ _ => x⟩ ops) {i : Nat} (hi : i < (specRun d ⟨n, fun _ _ => x⟩ ops).rows) :
    ∃ a, run W d (make W n m x) ops = .ok a ∧
      a.row W i = .ok ((List.range m).map fun j => (specRun d ⟨n, fun _ _ => x⟩ ops).cell i j) := by
  obtain ⟨a, e, h⟩ := run_ok ops (make_rel hm hnm x) ha
  exact ⟨a, e, h.row hi⟩

example : Allowed (α := Nat) 32 3 0 ⟨2, fun _ _ => 7⟩ [.put 1 2 5, .rows 4, .put 3 0 9, .rows 1, .reset 4, .put 0 1 1] := by
  simp [Allowed, Op.Pre, Op.spec]

example : (run 32 0 (make 32 2 3 7) [.put 1 2 5, .rows 3, .put 2 0 9]).bind (fun a => a.row 32 1) = .ok [7, 7, 5] := by
  decide +kernel

/-- **C45** violated: dimensions whose product reaches `2^W` are accepted without error, and the cells then lie outside
the (truncated) storage: for 2^16 x 2^16 cells and 32-bit sizes the matrix has no storage at all. -/
theorem C45_overflow_violated (x : α) {i j : Nat} (hi : i < 65536) (hj : j < 65536) :
    (make 32 65536 65536 x).entries = [] ∧ (make 32 65536 65536 x).get 32 i j = .error .ub := by
  refine ⟨rfl, ?_⟩
  simp [Mat.get, make, vecResize, hi, hj, require_true, ok_bind]

/-- **C45** violated: whenever the product wraps, whatever the dimensions and the width, some in-range cell lies outside of
the storage. -/
theorem C45_wrapped_violated {W n m : Nat} (hm : m < 2 ^ W) (h : 2 ^ W ≤ n * m) (x : α) :
    ∃ i j, i < n ∧ j < m ∧ (make W n m x).get W i j = .error .ub := by
  have hp : 0 < 2 ^ W := Nat.pow_pos (by omega)
  have hm0 : 0 < m := by
    rcases Nat.eq_zero_or_pos m with rfl | h0
    · simp at h
    · exact h0
  -- the last position below 2^W is an in-range cell
  have hq : (2 ^ W - 1) / m < n := by
    rw [Nat.div_lt_iff_lt_mul hm0]; omega
  have hlt : (n * m) % 2 ^ W ≤ 2 ^ W - 1 := by have := Nat.mod_lt (n * m) hp; omega
  refine ⟨(2 ^ W - 1) / m, (2 ^ W - 1) % m, hq, Nat.mod_lt _ hm0, ?_⟩
  have hpos : (make W n m x).pos W ((2 ^ W - 1) / m) ((2 ^ W - 1) % m) = 2 ^ W - 1 := by
    show (m * ((2 ^ W - 1) / m) + (2 ^ W - 1) % m) % 2 ^ W = 2 ^ W - 1
    rw [Nat.div_add_mod, Nat.mod_eq_of_lt (by omega)]
  have hnone : (make W n m x).entries[2 ^ W - 1]? = none := by
    apply List.getElem?_eq_none
    rw [show (make W n m x).entries = vecResize [] ((n * m) % 2 ^ W) x from rfl, vecResize_length]
    exact hlt
  have hreq : decide ((2 ^ W - 1) / m < (make W n m x).rows ∧ (2 ^ W - 1) % m < (make W n m x).cols) = true :=
    decide_eq_true ⟨hq, Nat.mod_lt _ hm0⟩
  rw [Mat.get, hreq, require_true, ok_bind, hpos, hnone]

example : (65537 : Nat) < 2 ^ 32 ∧ 2 ^ 32 ≤ 65537 * 65537 := by decide

/-! ## Any `resize` -/

/-- Calls on a matrix whose number of columns changes, too. -/
inductive ROp (α : Type) where
  | put (i j : Nat) (x : α)
  | reset (x : α)
  | resize (n m : Nat)

def ROp.exec (W : Nat) (d : α) (a : Mat α) : ROp α → Res (Mat α)
  | .put i j x => a.put W i j x
  | .reset x => .ok (a.reset x)
  | .resize n m => .ok (a.resize W n m d)

def rrun (W : Nat) (d : α) : Mat α → List (ROp α) → Res (Mat α)
  | a, [] => .ok a
  | a, op :: ops => do
    let a ← op.exec W d a
    rrun W d a ops

/-- Numbers of rows and columns and the cells. -/
structure RSpec (α : Type) where
  rows : Nat
  cols : Nat
  cell : Nat → Nat → α

/-- What `resize` does to the cells: they are enumerated row by row before and after; the cells that have the same
number have the same value, and additional ones are `d`. -/
def reshape (d : α) (s : RSpec α) (n m : Nat) : RSpec α :=
  ⟨n, m, fun i j => if m * i + j < s.rows * s.cols then s.cell ((m * i + j) / s.cols) ((m * i + j) % s.cols) else d⟩

def ROp.spec (d : α) (s : RSpec α) : ROp α → RSpec α
  | .put i j x => ⟨s.rows, s.cols, fun i' j' => if i' = i ∧ j' = j then x else s.cell i' j'⟩
  | .reset x => ⟨s.rows, s.cols, fun _ _ => x⟩
  | .resize n m => reshape d s n m

def ROp.Pre (W : Nat) (s : RSpec α) : ROp α → Prop
  | .put i j _ => i < s.rows ∧ j < s.cols
  | .reset _ => True
  | .resize n m => m < 2 ^ W ∧ n * m < 2 ^ W

def rspecRun (d : α) : RSpec α → List (ROp α) → RSpec α
  | s, [] => s
  | s, op :: ops => rspecRun d (op.spec d s) ops

def RAllowed (W : Nat) (d : α) : RSpec α → List (ROp α) → Prop
  | _, [] => True
  | s, op :: ops => op.Pre W s ∧ RAllowed W d (op.spec d s) ops

theorem Rel.reshape {W m : Nat} {a : Mat α} {s : Spec α} (h : Rel W m a s) {n m' : Nat} (hm' : m' < 2 ^ W)
    (hn : n * m' < 2 ^ W) (d : α) :
    Rel W m' (a.resize W n m' d) ⟨n, (FlatMatrix.reshape d ⟨s.rows, m, s.cell⟩ n m').cell⟩ := by
  have hm : (n * m') % 2 ^ W = n * m' := Nat.mod_eq_of_lt hn
  refine ⟨rfl, Nat.mod_eq_of_lt hm', hm', ?_, hn, ?_⟩
  · simp only [Mat.resize, hm]; exact vecResize_length _ _ _
  · intro i j hi hj
    simp only [Mat.resize, hm, FlatMatrix.reshape]
    rw [vecResize_get _ _ _ (cell_lt hi hj), h.len]
    by_cases hr : m' * i + j < s.rows * m
    · rw [if_pos hr, if_pos hr]
      have hm0 : 0 < m := by
        rcases Nat.eq_zero_or_pos m with rfl | h0
        · simp at hr
        · exact h0
      rw [← h.cell _ _ ((Nat.div_lt_iff_lt_mul hm0).2 hr) (Nat.mod_lt _ hm0), Nat.div_add_mod]
    · rw [if_neg hr, if_neg hr]

theorem rrun_ok {W : Nat} {d : α} : ∀ (ops : List (ROp α)) {a : Mat α} {s : RSpec α}, Rel W s.cols a ⟨s.rows, s.cell⟩ →
    RAllowed W d s ops → ∃ a', rrun W d a ops = .ok a' ∧
      Rel W (rspecRun d s ops).cols a' ⟨(rspecRun d s ops).rows, (rspecRun d s ops).cell⟩
  | [], a, s, h, _ => ⟨a, rfl, h⟩
  | op :: ops, a, s, h, ha => by
    have : ∃ a', op.exec W d a = .ok a' ∧ Rel W (op.spec d s).cols a' ⟨(op.spec d s).rows, (op.spec d s).cell⟩ := by
      cases op with
      | put i j x => exact h.put ha.1.1 ha.1.2 x
      | reset x => exact ⟨_, rfl, h.reset x⟩
      | resize n m => exact ⟨_, rfl, h.reshape ha.1.1 ha.1.2 d⟩
    obtain ⟨a1, e1, h1⟩ := this
    obtain ⟨a2, e2, h2⟩ := rrun_ok ops h1 ha.2
    exact ⟨a2, by simp only [rrun, e1, ok_bind, e2], h2⟩

/-- **C45** over histories that also change the number of columns: every cell reads what was last written to it, where `resize`
keeps the values in the order of the rows (and so moves cells to other positions if the number of columns changes). -/
theorem C45_resize_partial {W n m : Nat} (hm : m < 2 ^ W) (hnm : n * m < 2 ^ W) (x d : α) (ops : List (ROp α))
    (ha : RAllowed W d ⟨n, m, fun _ _ => x⟩ ops) :
    let s := rspecRun d ⟨n, m, fun _ _ => x⟩ ops
    ∃ a, rrun W d (make W n m x) ops = .ok a ∧
      (∀ i j, i < s.rows → j < s.cols → a.get W i j = .ok (s.cell i j) ∧ a.at W i j = .ok (s.cell i j)) ∧
      (∀ i, i < s.rows → a.row W i = .ok ((List.range s.cols).map fun j => s.cell i j)) ∧
      (∀ i j, s.rows ≤ i → a.at W i j = .error .exn) := by
  intro s
  obtain ⟨a, e, h⟩ := rrun_ok ops (s := ⟨n, m, fun _ _ => x⟩) (make_rel hm hnm x) ha
  refine ⟨a, e, fun i j hi hj => ⟨h.get hi hj, ?_⟩, fun i hi => h.row hi, fun i j hi => ?_⟩
  · have : decide (i < a.rows) = true := by rw [h.rows]; simp; exact hi
    simp only [Mat.at, this, verify_true, ok_bind]; exact h.get hi hj
  · have : decide (i < a.rows) = false := by rw [h.rows]; simp; exact hi
    rw [Mat.at, this, verify_false]; rfl

/-- The cell in column 2 of row 0 moves to column 0 of row 1. -/
example : RAllowed (α := Nat) 32 0 ⟨2, 3, fun _ _ => 7⟩ [.put 0 2 5, .resize 2 2, .put 0 0 1, .resize 3 2] ∧
    (rspecRun (α := Nat) 0 ⟨2, 3, fun _ _ => 7⟩ [.put 0 2 5, .resize 2 2, .put 0 0 1, .resize 3 2]).cell 1 0 = 5 ∧
    (rspecRun (α := Nat) 0 ⟨2, 3, fun _ _ => 7⟩ [.put 0 2 5, .resize 2 2, .put 0 0 1, .resize 3 2]).cell 2 1 = 0 := by
  refine ⟨?_, by decide, by decide⟩
  simp [RAllowed, ROp.Pre, ROp.spec, reshape]

end Cista.FlatMatrix
