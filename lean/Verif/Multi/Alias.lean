import Verif.Multi.VecVec

/-!
# Arguments of `basic_vecvec` that are taken from containers

Source: `/repo/include/cista/containers/vecvec.h` and the functions of `vector.h` it calls with `data_`.

* `emplace_back(c)` (vecvec.h:364-375) wraps the iterators of `c` into move iterators whether `c` is a temporary
  or not.  `moved x` is the value an element `x` has after it was moved from: `x` itself for trivially copyable types
  and for elements that are only reachable as `const`.
* `v[i].push_back(v[j][p])`, `v[i].grow(n, v[j][p])` and `v.emplace_back(v[i])` hand a reference or iterators into
  `data_` to `data_.insert`, which calls `reserve` first (vector.h:215-238, 255-286).  `cap` is the capacity of `data_`:
  if it does not suffice, the elements have been moved elsewhere and the old ones are destroyed when they are read
  (vector.h:345-382, proved for the memory in C10).
-/
set_option linter.unusedSimpArgs false

namespace Cista.Multi.VecVec

variable {α : Type _}

/-- vecvec.h:364-375 `v.emplace_back(c)` for a container `c` with the elements `ys` that is not `v` itself: `v` and the
elements of `c` afterwards. -/
def VV.emplaceBackFrom (W : Nat) (moved : α → α) (v : VV α) (ys : List α) : VV α × List α :=
  (v.emplaceBack W ys, ys.map moved)

/-- vecvec.h:93-101 `v[j][p]`: the cell of `data_` it refers to. -/
def VV.own (v : VV α) (j p : Nat) : Res α := do
  let b ← v.start j
  match v.data[b + p]? with
  | some x => .ok x
  | none => .error .ub

/-- A reference into `data_` that is read after `data_.reserve(data_.size() + n)`. -/
def VV.readAfter (cap : Nat) (v : VV α) (n j p : Nat) : Res α :=
  if v.data.length + n ≤ cap then v.own j p else .error .ub

/-- vecvec.h:71-78 `v[i].push_back(v[j][p])`, vector.h:214-224. -/
def VV.pushBackRef (W cap : Nat) (v : VV α) (i j p : Nat) : Res (VV α) := do
  let x ← v.readAfter cap 1 j p
  v.insertEnd W i [x]

/-- vecvec.h:80-91 `v[i].grow(n, v[j][p])`, vector.h:226-238: nothing is read if nothing is added. -/
def VV.growRef (W cap : Nat) (v : VV α) (i n j p : Nat) : Res (VV α) := do
  let b ← v.beginIdx i
  let e ← v.endIdx i
  verify (e - b ≤ n)
  if n - (e - b) = 0 then v.insertEnd W i []
  else do
    let x ← v.readAfter cap (n - (e - b)) j p
    v.insertEnd W i (List.replicate (n - (e - b)) x)

/-- vecvec.h:364-375 `v.emplace_back(v[i])`, vector.h:254-286: the elements of the bucket are moved to the end one by
one. -/
def VV.emplaceBackOwn (W cap : Nat) (moved : α → α) (v : VV α) (i : Nat) : Res (VV α) := do
  let b ← v.beginIdx i
  let e ← v.endIdx i
  let xs ← v.bucket i
  require (xs.isEmpty || v.data.length + xs.length ≤ cap)
  return { v with data := v.data.take b ++ xs.map moved ++ v.data.drop e }.emplaceBack W xs

/-! ## The states -/

theorem history_inv {W : Nat} {dflt : α} {ops : List (Op α)} (ha : Allowed W dflt [] false ops) {v : VV α}
    (hr : run W dflt .empty ops = .ok v) : ∃ s, Inv v (specRun dflt [] ops) s := by
  obtain ⟨v', s, e, w, _⟩ := run_ok (W := W) dflt ops (v := .empty) (L := []) (s := false)
    (Or.inl ⟨rfl, rfl, rfl⟩) (by simpa using Nat.two_pow_pos W) ha
  rw [hr] at e; cases e
  exact ⟨s, w⟩

theorem Inv.own {v : VV α} {L : List (List α)} {s : Bool} (h : Inv v L s) {j p : Nat} {zs : List α} {x : α}
    (hj : L[j]? = some zs) (hp : zs[p]? = some x) : v.own j p = .ok x := by
  obtain ⟨hi, rfl⟩ := List.getElem?_eq_some_iff.1 hj
  obtain ⟨hpl, _⟩ := List.getElem?_eq_some_iff.1 hp
  obtain ⟨h1, h2, h3, h4, h5, junk, h6, h7⟩ := h.idx hi
  have : v.data[(L.take j).flatten.length + p]? = L[j][p]? := by
    have hs := flatten_slice hi junk
    rw [← h6] at hs
    have h8 := congrArg (fun l => l[p]?) hs
    simp only [List.getElem?_take, if_pos hpl, List.getElem?_drop] at h8
    exact h8
  unfold VV.own
  rw [h3, ok_bind, this, hp]

/-! ## C129 -/

/-- **C129** `v.emplace_back(c)` appends the elements of `c` and leaves `c` as it was, if moving from its elements does
not change them (trivially copyable elements, or a `const` container). -/
theorem C129_argument_partial (W : Nat) (moved : α → α) (v : VV α) (ys : List α) (hm : ∀ y ∈ ys, moved y = y) :
    v.emplaceBackFrom W moved ys = (v.emplaceBack W ys, ys) := by
  unfold VV.emplaceBackFrom
  rw [show ys.map moved = ys from (List.map_congr_left hm).trans (List.map_id ys)]

/-- **C129 (violated)** Every element that is changed by moving from it is changed in the argument `c`, although `c` is not
a temporary. -/
theorem C129_moved_out_violated (W : Nat) (moved : α → α) (v : VV α) (ys : List α) {y : α} (hy : y ∈ ys)
    (hm : moved y ≠ y) : (v.emplaceBackFrom W moved ys).2 ≠ ys := by
  intro h
  have h : ys.map moved = ys.map id := h.trans (List.map_id ys).symm
  exact hm (List.map_inj_left.1 h y hy)

/-- **C129** After every history `v[i].push_back(v[j][p])` and `v[i].grow(n, v[j][p])` do what they do with a copy of the
element, exceptions included, if `data_` has room for the new elements. -/
theorem C129_element_partial {W : Nat} {dflt : α} {ops : List (Op α)} (ha : Allowed W dflt [] false ops) {v : VV α}
    (hr : run W dflt .empty ops = .ok v) {j p : Nat} {zs : List α} {x : α} (hj : (specRun dflt [] ops)[j]? = some zs)
    (hp : zs[p]? = some x) (cap : Nat) {i : Nat} {xs : List α} (hi : (specRun dflt [] ops)[i]? = some xs) :
    (v.data.length + 1 ≤ cap → v.pushBackRef W cap i j p = v.insertEnd W i [x]) ∧
    (∀ n, v.data.length + (n - xs.length) ≤ cap → v.growRef W cap i n j p = v.grow W i n x) := by
  obtain ⟨s, h⟩ := history_inv ha hr
  constructor
  · intro hc
    unfold VV.pushBackRef VV.readAfter
    rw [if_pos hc, h.own hj hp, ok_bind]
  · intro n hc
    obtain ⟨hil, rfl⟩ := List.getElem?_eq_some_iff.1 hi
    obtain ⟨h1, h2, h3, h4, h5, junk, h6, h7⟩ := h.idx hil
    unfold VV.growRef VV.grow VV.beginIdx VV.endIdx
    rw [h1, h3, h4]
    simp only [Bool.false_eq_true, if_false, ok_bind, Nat.add_sub_cancel_left]
    by_cases hz : n - (specRun dflt [] ops)[i].length = 0
    · rw [if_pos hz, hz]; rfl
    · rw [if_neg hz]
      unfold VV.readAfter
      rw [if_pos hc, h.own hj hp, ok_bind]

/-- **C129** After every history `v.emplace_back(v[i])` appends a copy of the bucket and leaves the bucket as it was, if
`data_` has room and moving from the elements does not change them. -/
theorem C129_bucket_partial {W : Nat} {dflt : α} {ops : List (Op α)} (ha : Allowed W dflt [] false ops) {v : VV α}
    (hr : run W dflt .empty ops = .ok v) {i : Nat} {xs : List α} (hi : (specRun dflt [] ops)[i]? = some xs) {cap : Nat}
    (hc : xs = [] ∨ v.data.length + xs.length ≤ cap) (moved : α → α) (hm : ∀ x ∈ xs, moved x = x) :
    v.emplaceBackOwn W cap moved i = .ok (v.emplaceBack W xs) := by
  obtain ⟨s, h⟩ := history_inv ha hr
  obtain ⟨hil, rfl⟩ := List.getElem?_eq_some_iff.1 hi
  obtain ⟨h1, h2, h3, h4, h5, junk, h6, h7⟩ := h.idx hil
  have hb := (h.bucket hil).1
  generalize hL : (specRun dflt [] ops) = L at *
  have hd : v.data.length = L.flatten.length + junk.length := by rw [h6, List.length_append]
  have hreq : (L[i].isEmpty || decide (v.data.length + L[i].length ≤ cap)) = true := by
    rcases hc with hc | hc
    · rw [hc]; rfl
    · rw [decide_eq_true hc, Bool.or_true]
  have hsl : v.data.take (L.take i).flatten.length ++ L[i] ++
      v.data.drop ((L.take i).flatten.length + L[i].length) = v.data := by
    have hs := flatten_slice hil junk
    rw [← h6] at hs
    have e1 := List.take_append_drop (L.take i).flatten.length v.data
    have e2 := List.take_append_drop L[i].length (v.data.drop (L.take i).flatten.length)
    rw [hs, List.drop_drop] at e2
    rw [← e2, ← List.append_assoc] at e1
    exact e1
  unfold VV.emplaceBackOwn VV.beginIdx VV.endIdx
  rw [h1, h3, h4, hb]
  simp only [Bool.false_eq_true, if_false, ok_bind, hreq, require_true]
  rw [show L[i].map moved = L[i] from (List.map_congr_left hm).trans (List.map_id _), hsl]
  rfl

/-- **C129 (violated)** If `data_` has no room, `push_back`, `grow` and `emplace_back` read own elements after they were
destroyed: undefined behaviour after every history and for every element. -/
theorem C129_growth_violated {W : Nat} {dflt : α} {ops : List (Op α)} (ha : Allowed W dflt [] false ops) {v : VV α}
    (hr : run W dflt .empty ops = .ok v) {i : Nat} {xs : List α} (hi : (specRun dflt [] ops)[i]? = some xs) (cap : Nat) :
    (cap < v.data.length + 1 → ∀ j p, v.pushBackRef W cap i j p = .error .ub) ∧
    (∀ n, xs.length < n → cap < v.data.length + (n - xs.length) → ∀ j p, v.growRef W cap i n j p = .error .ub) ∧
    (xs ≠ [] → cap < v.data.length + xs.length → ∀ moved, v.emplaceBackOwn W cap moved i = .error .ub) := by
  obtain ⟨s, h⟩ := history_inv ha hr
  obtain ⟨hil, rfl⟩ := List.getElem?_eq_some_iff.1 hi
  obtain ⟨h1, h2, h3, h4, h5, junk, h6, h7⟩ := h.idx hil
  have hb := (h.bucket hil).1
  generalize hL : (specRun dflt [] ops) = L at *
  refine ⟨?_, ?_, ?_⟩
  · intro hc j p
    unfold VV.pushBackRef VV.readAfter
    rw [if_neg (by omega), error_bind]
  · intro n hn hc j p
    unfold VV.growRef VV.readAfter VV.beginIdx VV.endIdx
    rw [h1, h3, h4]
    simp only [Bool.false_eq_true, if_false, ok_bind, Nat.add_sub_cancel_left]
    rw [decide_eq_true (by omega : L[i].length ≤ n), verify_true, ok_bind, if_neg (by omega), if_neg (by omega), error_bind]
  · intro hne hc moved
    have hreq : (L[i].isEmpty || decide (v.data.length + L[i].length ≤ cap)) = false := by
      rw [decide_eq_false (by omega), Bool.or_false]
      cases hx : L[i] with
      | nil => exact absurd hx hne
      | cons => rfl
    unfold VV.emplaceBackOwn VV.beginIdx VV.endIdx
    rw [h1, h3, h4, hb]
    simp only [Bool.false_eq_true, if_false, ok_bind, hreq, require_false, error_bind]

/-- **C129 (violated)** With room `v.emplace_back(v[i])` appends the bucket, but afterwards bucket `i` has the elements that
were moved from. -/
theorem C129_own_moved_violated {W : Nat} {dflt : α} {ops : List (Op α)} (ha : Allowed W dflt [] false ops) {v : VV α}
    (hr : run W dflt .empty ops = .ok v) {i : Nat} {xs : List α} (hi : (specRun dflt [] ops)[i]? = some xs) {cap : Nat}
    (hc : v.data.length + xs.length ≤ cap) (moved : α → α) :
    (do let v' ← v.emplaceBackOwn W cap moved i; v'.bucket i) = .ok (xs.map moved) := by
  obtain ⟨s, h⟩ := history_inv ha hr
  obtain ⟨hil, rfl⟩ := List.getElem?_eq_some_iff.1 hi
  obtain ⟨h1, h2, h3, h4, h5, junk, h6, h7⟩ := h.idx hil
  have hb := (h.bucket hil).1
  generalize hL : (specRun dflt [] ops) = L at *
  have hd : v.data.length = L.flatten.length + junk.length := by rw [h6, List.length_append]
  have hne : v.starts ≠ [] := by
    intro e; rw [VV.isEmpty, e] at h1; exact Bool.noConfusion h1
  have hlen : i + 1 < v.starts.length := by rw [h2]; simp; omega
  unfold VV.emplaceBackOwn VV.beginIdx VV.endIdx
  rw [h1, h3, h4, hb]
  simp only [Bool.false_eq_true, if_false, ok_bind, decide_eq_true hc, Bool.or_true, require_true, pure_ok]
  unfold VV.start at h3 h4
  unfold VV.emplaceBack VV.ensure VV.bucket VV.beginIdx VV.endIdx VV.isEmpty VV.start
  simp only [hne, if_false]
  have e0 : ∀ a, (v.starts ++ [a]).isEmpty = false := by
    intro a; cases hs : v.starts with
    | nil => exact absurd hs hne
    | cons => rfl
  simp only [e0, Bool.false_eq_true, if_false, List.getElem?_append_left (Nat.lt_of_succ_lt hlen), List.getElem?_append_left hlen, h3, h4, ok_bind]
  generalize hA : (L.take i).flatten.length = A at *
  have ht : (v.data.take A).length = A := by rw [List.length_take]; omega
  have hr2 : (decide (A ≤ A + L[i].length) && decide (A + L[i].length ≤
      (v.data.take A ++ L[i].map moved ++ v.data.drop (A + L[i].length) ++ L[i]).length)) = true := by
    rw [Bool.and_eq_true]
    refine ⟨decide_eq_true (by omega), decide_eq_true ?_⟩
    simp only [List.length_append, ht, List.length_map]; omega
  rw [hr2, require_true, ok_bind, Nat.add_sub_cancel_left, List.append_assoc, List.append_assoc, List.drop_left' ht,
    List.take_left' (by rw [List.length_map])]
  rfl

/-! ## Examples -/

/-- Two buckets of two and one element. -/
def aliasOps : List (Op (List Nat)) := [.emplaceBack [[1], [2, 3]], .emplaceBack [[4]]]

/-- The state after `aliasOps`. -/
def aliasVV : VV (List Nat) := ⟨[[1], [2, 3], [4]], [0, 2, 3]⟩

example : Allowed 32 [] [] false aliasOps := by
  simp [aliasOps, Allowed, Op.Pre, Op.NoBug, Op.spec, Op.dropped]

example : run 32 [] .empty aliasOps = .ok aliasVV ∧ specRun [] [] aliasOps = [[[1], [2, 3]], [[4]]] := ⟨by decide, rfl⟩

/-- `C129_element_partial` and `C129_growth_violated` with capacities 4 (a power of two) and 3. -/
example : aliasVV.pushBackRef 32 4 0 1 0 = .ok ⟨[[1], [2, 3], [4], [4]], [0, 3, 4]⟩ ∧
    aliasVV.pushBackRef 32 3 0 1 0 = .error .ub ∧
    aliasVV.growRef 32 8 1 3 0 1 = .ok ⟨[[1], [2, 3], [4], [2, 3], [2, 3]], [0, 2, 5]⟩ := by decide

/-- `C129_bucket_partial`: elements that stay as they are; `C129_own_moved_violated`: strings that become empty. -/
example : aliasVV.emplaceBackOwn 32 8 id 0 = .ok ⟨[[1], [2, 3], [4], [1], [2, 3]], [0, 2, 3, 5]⟩ ∧
    aliasVV.emplaceBackOwn 32 8 (fun _ => []) 0 = .ok ⟨[[], [], [4], [1], [2, 3]], [0, 2, 3, 5]⟩ := by decide

/-- `C129_argument_partial` and `C129_moved_out_violated`. -/
example : aliasVV.emplaceBackFrom 32 id [[7]] = (⟨[[1], [2, 3], [4], [7]], [0, 2, 3, 4]⟩, [[7]]) ∧
    aliasVV.emplaceBackFrom 32 (fun _ => []) [[7]] = (⟨[[1], [2, 3], [4], [7]], [0, 2, 3, 4]⟩, [[]]) := by decide

end Cista.Multi.VecVec
