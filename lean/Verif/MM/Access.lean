import Verif.MM.Props

set_option linter.unusedSimpArgs false

/-!
# Accessors of mutable multimap buckets, first and last bucket, iterator differences

Source: `/repo/include/cista/containers/mutable_fws_multimap.h`.

A bucket handle (`bucket<Const>`) is the index of the bucket (lines 234-235); an iterator inside a bucket is its
position in `data_`.  An `assert` that fails is `Err.ub`.
-/
namespace Cista.MM

variable {α : Type} {lo : Nat}

/-! ## Buckets -/

/-- mutable_fws_multimap.h:52 `bucket.size()`. -/
def Map.bucketSize (m : Map α) (i : Nat) : Res Nat := do
  let x ← m.ix i
  return x.s

/-- mutable_fws_multimap.h:53 `bucket.capacity()`. -/
def Map.bucketCapacity (m : Map α) (i : Nat) : Res Nat := do
  let x ← m.ix i
  return x.c

/-- mutable_fws_multimap.h:54 `bucket.empty()`. -/
def Map.bucketEmpty (m : Map α) (i : Nat) : Res Bool := do
  let n ← m.bucketSize i
  return n == 0

/-- mutable_fws_multimap.h:121-124 `data_index`. -/
def Map.dataIndex (m : Map α) (i j : Nat) : Res Nat := do
  let x ← m.ix i
  require (j < x.s)
  return x.b + j

/-- mutable_fws_multimap.h:92-98 `bucket[j]`. -/
def Map.bucketGet (m : Map α) (i j : Nat) : Res α := do
  let p ← m.dataIndex i j
  match m.data[p]? with
  | some v => .ok v
  | none => .error .ub

/-- mutable_fws_multimap.h:108-109 `bucket.front()`. -/
def Map.bucketFront (m : Map α) (i : Nat) : Res α := m.bucketGet i 0

/-- mutable_fws_multimap.h:111-119 `bucket.back()`. -/
def Map.bucketBack (m : Map α) (i : Nat) : Res α := do
  let n ← m.bucketSize i
  require (n ≠ 0)
  m.bucketGet i (n - 1)

/-- mutable_fws_multimap.h:68-72 `bucket.begin()`. -/
def Map.bucketBegin (m : Map α) (i : Nat) : Res Nat := do
  let x ← m.ix i
  return x.b

/-- mutable_fws_multimap.h:74-82 `bucket.end()`. -/
def Map.bucketEnd (m : Map α) (i : Nat) : Res Nat := do
  let x ← m.ix i
  return x.b + x.s

/-- Reading through an iterator into `data_`. -/
def Map.derefData (m : Map α) (p : Nat) : Res α :=
  match m.data[p]? with
  | some v => .ok v
  | none => .error .ub

/-- mutable_fws_multimap.h:126-132 `bucket_index(it)`. -/
def Map.bucketIndex (m : Map α) (i it : Nat) : Res Nat := do
  let b ← m.bucketBegin i
  let e ← m.bucketEnd i
  verify (!(decide (it < b) || decide (e ≤ it)))
  return it - b

/-! ## The container -/

/-- mutable_fws_multimap.h:394-397 `operator[] const`, then iterate. -/
def Map.constGet (m : Map α) (i : Nat) : Res (List α) := do
  require (i < m.index.length)
  m.contents i

/-- mutable_fws_multimap.h:416 `front() const`, then iterate. -/
def Map.constFront (m : Map α) : Res (List α) := m.constGet 0

/-- mutable_fws_multimap.h:419 `back() const`, then iterate; `size() - 1U` in `size_type`. -/
def Map.constBack (W : Nat) (m : Map α) : Res (List α) :=
  m.constGet (BitVec.ofNat W m.index.length - 1#W).toNat

/-- mutable_fws_multimap.h:415 `front()`: the map afterwards and the index of the bucket. -/
def Map.front (W : Nat) (m : Map α) : Map α × Nat := (m.touch W 0, 0)

/-- mutable_fws_multimap.h:418 `back()`. -/
def Map.back (W : Nat) (m : Map α) : Map α × Nat :=
  let i := (BitVec.ofNat W m.index.length - 1#W).toNat
  (m.touch W i, i)

/-- mutable_fws_multimap.h:438 `size()` (a `size_type`). -/
def Map.size (W : Nat) (m : Map α) : Nat := (BitVec.ofNat W m.index.length).toNat

/-- mutable_fws_multimap.h:441 `empty()`. -/
def Map.isEmpty (W : Nat) (m : Map α) : Bool := m.size W == 0

/-- C18: on every reachable map the accessors of a bucket agree with its list: `size`, `empty`, `capacity` (a
bound of the size), `operator[]`, `front`, `back`, the iterators `begin()` .. `end()`, and `bucket_index`, which is
the inverse of `begin() + j` and throws exactly for iterators outside the bucket. -/
theorem C18_bucket_accessors {W K : Nat} (hW : W = 32 ∨ W = 64) (hK : K < W) (dflt : α) {ops : List (Op α)}
    (hA : Allowed W K ops start) (hc : (specRun K ops).cost ≤ 2 ^ 32) {m : Map α} {t : List Bool}
    (hr : run W K dflt ops (Map.empty K) = .ok (m, t)) {i : Nat} {xs : List α}
    (hL : (specRun K ops).lists[i]? = some xs) :
    m.bucketSize i = .ok xs.length ∧ m.bucketEmpty i = .ok xs.isEmpty ∧
    (∃ c, m.bucketCapacity i = .ok c ∧ xs.length ≤ c ∧ c ≤ 2 ^ K) ∧
    (∀ (j : Nat) (v : α), xs[j]? = some v → m.bucketGet i j = .ok v) ∧
    (∀ v, xs.head? = some v → m.bucketFront i = .ok v) ∧
    (∀ v, xs.getLast? = some v → m.bucketBack i = .ok v) ∧
    (∃ b, m.bucketBegin i = .ok b ∧ m.bucketEnd i = .ok (b + xs.length) ∧
      (∀ (j : Nat) (v : α), xs[j]? = some v → m.derefData (b + j) = .ok v) ∧
      (∀ j, j < xs.length → m.bucketIndex i (b + j) = .ok j) ∧
      (∀ p, p < b ∨ b + xs.length ≤ p → m.bucketIndex i p = .error .exn)) := by
  have hI : Inv 1 K m (specRun K ops).lists := (history_rel hW hK dflt hA hc hr).1.inv
  obtain ⟨x, hi, hix, hx⟩ := hI.ix hL
  have hs := hx.size
  have hsize : m.bucketSize i = .ok xs.length := by
    simp only [Map.bucketSize, hix, ok_bind, pure_ok, hs]
  have hget : ∀ (j : Nat) (v : α), xs[j]? = some v → m.bucketGet i j = .ok v := by
    intro j v hj
    have hjl := (List.getElem?_eq_some_iff.1 hj).1
    simp only [Map.bucketGet, Map.dataIndex, hix, ok_bind, decide_eq_true (show j < x.s by omega), require_true,
      pure_ok, hx.get j hjl, hj]
  refine ⟨hsize, ?_, ⟨x.c, ?_, hx.cap, hx.cap_le⟩, hget, ?_, ?_, x.b, ?_, ?_, ?_, ?_, ?_⟩
  · simp only [Map.bucketEmpty, hsize, ok_bind, pure_ok]
    cases xs <;> simp
  · simp only [Map.bucketCapacity, hix, ok_bind, pure_ok]
  · intro v hv
    exact hget 0 v (by rw [← hv, List.head?_eq_getElem?])
  · intro v hv
    have hne : xs.length ≠ 0 := by
      intro h; rw [List.eq_nil_of_length_eq_zero h] at hv; simp at hv
    rw [Map.bucketBack, hsize, ok_bind, decide_eq_true hne, require_true, ok_bind]
    exact hget _ v (by rw [← hv, List.getLast?_eq_getElem?])
  · simp only [Map.bucketBegin, hix, ok_bind, pure_ok]
  · simp only [Map.bucketEnd, hix, ok_bind, pure_ok, hs]
  · intro j v hj
    simp only [Map.derefData, hx.get j (List.getElem?_eq_some_iff.1 hj).1, hj]
  · intro j hj
    simp only [Map.bucketIndex, Map.bucketBegin, Map.bucketEnd, hix, ok_bind, pure_ok, hs,
      decide_eq_false (show ¬ x.b + j < x.b by omega),
      decide_eq_false (show ¬ x.b + xs.length ≤ x.b + j by omega), Bool.or_false, Bool.not_false, verify_true]
    congr 1
    omega
  · intro p hp
    have : (decide (p < x.b) || decide (x.b + xs.length ≤ p)) = true := by
      rcases hp with hp | hp <;> simp [hp]
    simp only [Map.bucketIndex, Map.bucketBegin, Map.bucketEnd, hix, ok_bind, pure_ok, hs, this, Bool.not_true,
      verify_false, error_bind]

theorem lastIdx {W n : Nat} (h0 : 0 < n) (hn : n < 2 ^ W) : (BitVec.ofNat W n - 1#W).toNat = n - 1 := by
  have hW : 1 < 2 ^ W := by omega
  rw [BitVec.toNat_sub, BitVec.toNat_ofNat, BitVec.toNat_ofNat, Nat.mod_eq_of_lt hn, Nat.mod_eq_of_lt hW,
    show 2 ^ W - 1 + n = (n - 1) + 2 ^ W by omega, Nat.add_mod_right, Nat.mod_eq_of_lt (by omega)]

/-- C18: on every reachable map `size()`, `empty()` and the const `operator[]` agree with the list of lists; on a
map that is not empty both versions of `front()` and `back()` give the first and the last bucket and change
nothing (missing: the empty map, see `C18_front_violated` and `C18_back_violated`). -/
theorem C18_front_back_partial {W K : Nat} (hW : W = 32 ∨ W = 64) (hK : K < W) (dflt : α) {ops : List (Op α)}
    (hA : Allowed W K ops start) (hc : (specRun K ops).cost ≤ 2 ^ 32) {m : Map α} {t : List Bool}
    (hr : run W K dflt ops (Map.empty K) = .ok (m, t)) (hlen : (specRun K ops).lists.length < 2 ^ 32) :
    m.size W = (specRun K ops).lists.length ∧ m.isEmpty W = (specRun K ops).lists.isEmpty ∧
    (∀ (i : Nat) (xs : List α), (specRun K ops).lists[i]? = some xs → m.constGet i = .ok xs) ∧
    (∀ xs, (specRun K ops).lists.head? = some xs →
      m.constFront = .ok xs ∧ (m.front W).1 = m ∧ m.contents (m.front W).2 = .ok xs) ∧
    (∀ xs, (specRun K ops).lists.getLast? = some xs →
      m.constBack W = .ok xs ∧ (m.back W).1 = m ∧ m.contents (m.back W).2 = .ok xs) := by
  have hI : Inv 1 K m (specRun K ops).lists := (history_rel hW hK dflt hA hc hr).1.inv
  have hlW : m.index.length < 2 ^ W := by
    rw [hI.len]
    exact Nat.lt_of_lt_of_le hlen (Nat.pow_le_pow_right (by omega) (by omega))
  have hsz : m.size W = (specRun K ops).lists.length := by
    rw [Map.size, BitVec.toNat_ofNat, Nat.mod_eq_of_lt hlW, hI.len]
  have hget : ∀ (i : Nat) (xs : List α), (specRun K ops).lists[i]? = some xs → m.constGet i = .ok xs := by
    intro i xs hi
    have : i < m.index.length := by rw [hI.len]; exact (List.getElem?_eq_some_iff.1 hi).1
    rw [Map.constGet, decide_eq_true this, require_true, ok_bind]
    exact hI.contents hi
  refine ⟨hsz, ?_, hget, ?_, ?_⟩
  · rw [Map.isEmpty, hsz]
    cases (specRun K ops).lists <;> simp
  · intro xs h
    have h0 : (specRun K ops).lists[0]? = some xs := by rw [← h, List.head?_eq_getElem?]
    have : ¬ m.index.length ≤ 0 := by
      have := (List.getElem?_eq_some_iff.1 h0).1
      rw [hI.len]; omega
    refine ⟨hget 0 xs h0, ?_, hI.contents h0⟩
    simp only [Map.front, Map.touch, if_neg this]
  · intro xs h
    have h0 : (specRun K ops).lists[(specRun K ops).lists.length - 1]? = some xs := by
      rw [← h, List.getLast?_eq_getElem?]
    have hlt := (List.getElem?_eq_some_iff.1 h0).1
    have e : (BitVec.ofNat W m.index.length - 1#W).toNat = (specRun K ops).lists.length - 1 := by
      rw [lastIdx (by rw [hI.len]; omega) hlW, hI.len]
    have : ¬ m.index.length ≤ (specRun K ops).lists.length - 1 := by rw [hI.len]; omega
    refine ⟨?_, ?_, ?_⟩
    · rw [Map.constBack, e]; exact hget _ xs h0
    · simp only [Map.back, e, Map.touch, if_neg this]
    · simp only [Map.back, e]; exact hI.contents h0

/-- C18, violated: `front()` of a non-const empty map is not an error: it adds an empty bucket. -/
theorem C18_front_violated {W K : Nat} (hW : W = 32 ∨ W = 64) {m : Map α} {lost : Nat} (hR : Rel lo K m ⟨[], lost⟩) :
    Rel lo K (m.front W).1 ⟨[[]], lost⟩ := by
  have hlen : m.index.length = 0 := hR.inv.len
  have h1 : 1 < 2 ^ W := Nat.lt_of_lt_of_le (by decide) (Nat.pow_le_pow_right (by omega) (show 1 ≤ W by omega))
  have := resizeIndex_ok hR (n := 1) (by omega) (by omega)
  simp only [Map.front, Map.touch, if_pos (show m.index.length ≤ 0 by omega), Nat.zero_add, Nat.mod_eq_of_lt h1]
  simpa using this

/-- C18, violated: `back()` of a non-const empty map gives a handle whose use is undefined behaviour, although it
goes through the `operator[]` that creates missing buckets. -/
theorem C18_back_violated {W : Nat} (hW : W = 32 ∨ W = 64) {m : Map α} (hm : m.index = []) :
    (m.back W).1.index = [] ∧ (m.back W).1.contents (m.back W).2 = .error .ub ∧
    (m.back W).1.bucketSize (m.back W).2 = .error .ub := by
  have h1 : 1 < 2 ^ W := Nat.lt_of_lt_of_le (by decide) (Nat.pow_le_pow_right (by omega) (show 1 ≤ W by omega))
  have e : (BitVec.ofNat W m.index.length - 1#W).toNat = 2 ^ W - 1 := by
    rw [hm]
    rcases hW with rfl | rfl <;> decide
  have hi : (m.back W).1.index = [] := by
    show (m.touch W (BitVec.ofNat W m.index.length - 1#W).toNat).index = []
    rw [e]
    simp only [Map.touch, hm, List.length_nil, Nat.zero_le, if_true, Map.resizeIndex,
      show 2 ^ W - 1 + 1 = 2 ^ W by omega, Nat.mod_self, Nat.zero_mod]
    rfl
  refine ⟨hi, ?_, ?_⟩
  · simp only [Map.contents, Map.ix, hi, List.getElem?_nil, error_bind]
  · simp only [Map.bucketSize, Map.ix, hi, List.getElem?_nil, error_bind]

/-! ## Iterators over buckets -/

/-- mutable_fws_multimap.h:339-342 `a - b`: both indices are converted to `int`, the subtraction must not
overflow. -/
def iterDiff {W : Nat} (a b : BitVec W) : Res Int := do
  let x := (BitVec.ofNat 32 a.toNat).toInt
  let y := (BitVec.ofNat 32 b.toNat).toInt
  require (decide (-2 ^ 31 ≤ x - y) && decide (x - y < 2 ^ 31))
  return x - y

/-- mutable_fws_multimap.h:344-352 `it[n]`, then iterate. -/
def Map.iterGet {W : Nat} (m : Map α) (i : BitVec W) (n : Int) : Res (List α) := m.at (i + BitVec.ofInt W n).toNat

/-- mutable_fws_multimap.h:354-356 `operator<`. -/
def iterLt {W : Nat} (a b : BitVec W) : Bool := BitVec.ult a b

/-- mutable_fws_multimap.h:357-359 `operator<=`. -/
def iterLe {W : Nat} (a b : BitVec W) : Bool := BitVec.ule a b

/-- mutable_fws_multimap.h:360-362 `operator>`. -/
def iterGt {W : Nat} (a b : BitVec W) : Bool := BitVec.ult b a

/-- mutable_fws_multimap.h:363-365 `operator>=`. -/
def iterGe {W : Nat} (a b : BitVec W) : Bool := BitVec.ule b a

/-- mutable_fws_multimap.h:367-369 `operator==`; `x`, `y` are the addresses of the maps. -/
def iterEq {W : Nat} (a b : BitVec W) (x y : Nat) : Bool := a == b && x == y

/-- mutable_fws_multimap.h:371-373 `operator!=`. -/
def iterNe {W : Nat} (a b : BitVec W) (x y : Nat) : Bool := a != b || x != y

/-- C52: for iterators of a map with at most `2^31` buckets, `a - b` is the signed distance, the comparisons order
the positions, `it[n]` is the bucket `n` further (an exception outside the map), `it + (b - a)` goes from `a` to `b`,
and `==` is the negation of `!=`. -/
theorem C52_iterator_distance {W : Nat} (hW : W = 32 ∨ W = 64) (m : Map α) (hm : m.index.length < 2 ^ 31)
    {a b : Nat} (ha : a ≤ m.index.length) (hb : b ≤ m.index.length) :
    iterDiff (BitVec.ofNat W a) (BitVec.ofNat W b) = .ok ((a : Int) - b) ∧
    iterAdd (BitVec.ofNat W a) ((b : Int) - a) = BitVec.ofNat W b ∧
    m.iterGet (BitVec.ofNat W a) ((b : Int) - a) = m.at b ∧
    iterLt (BitVec.ofNat W a) (BitVec.ofNat W b) = decide (a < b) ∧
    iterLe (BitVec.ofNat W a) (BitVec.ofNat W b) = decide (a ≤ b) ∧
    iterGt (BitVec.ofNat W a) (BitVec.ofNat W b) = decide (b < a) ∧
    iterGe (BitVec.ofNat W a) (BitVec.ofNat W b) = decide (b ≤ a) ∧
    (∀ x y, iterEq (BitVec.ofNat W a) (BitVec.ofNat W b) x y = decide (a = b ∧ x = y) ∧
      iterNe (BitVec.ofNat W a) (BitVec.ofNat W b) x y = !decide (a = b ∧ x = y)) := by
  have hp : 2 ^ 32 ≤ 2 ^ W := Nat.pow_le_pow_right (by omega) (by omega)
  have na : (BitVec.ofNat W a).toNat = a := by rw [BitVec.toNat_ofNat, Nat.mod_eq_of_lt (by omega)]
  have nb : (BitVec.ofNat W b).toNat = b := by rw [BitVec.toNat_ofNat, Nat.mod_eq_of_lt (by omega)]
  have hadd : BitVec.ofNat W a + BitVec.ofInt W ((b : Int) - a) = BitVec.ofNat W b := by
    have e1 : BitVec.ofNat W a = BitVec.ofInt W a := by simp
    have e2 : BitVec.ofNat W b = BitVec.ofInt W b := by simp
    rw [e1, e2, ← BitVec.ofInt_add]
    congr 1
    omega
  have hint : ∀ n : Nat, n < 2 ^ 31 → (BitVec.ofNat 32 n).toInt = n := by
    intro n hn
    rw [BitVec.toInt_eq_toNat_cond, BitVec.toNat_ofNat, Nat.mod_eq_of_lt (by omega), if_pos (by omega)]
  have heq : (BitVec.ofNat W a == BitVec.ofNat W b) = decide (a = b) := by
    rw [Bool.eq_iff_iff]
    simp only [beq_iff_eq, decide_eq_true_eq]
    constructor
    · intro h
      rw [← na, ← nb, h]
    · intro h; rw [h]
  refine ⟨?_, hadd, ?_, ?_, ?_, ?_, ?_, ?_⟩
  · have h1 : (-2 ^ 31 : Int) ≤ (a : Int) - b := by omega
    have h2 : (a : Int) - b < 2 ^ 31 := by omega
    rw [iterDiff, na, nb, hint a (by omega), hint b (by omega), decide_eq_true h1, decide_eq_true h2, Bool.and_self,
      require_true, ok_bind, pure_ok]
  · rw [Map.iterGet, hadd, nb]
  · simp only [iterLt, BitVec.ult, na, nb]
  · simp only [iterLe, BitVec.ule, na, nb]
  · simp only [iterGt, BitVec.ult, na, nb]
  · simp only [iterGe, BitVec.ule, na, nb]
  · intro x y
    constructor
    · rw [iterEq, heq, Bool.eq_iff_iff]
      simp
    · rw [iterNe, bne, heq, Bool.eq_iff_iff]
      simp [bne]

/-! ## Concrete maps -/

/-- The accessor theorems apply: after the demonstration history there is a non-empty bucket. -/
example : ∃ m t, run 32 2 0 demo (Map.empty 2) = .ok (m, t) ∧ (m.bucketSize 1).toOption.isSome ∧
    ((specRun 2 demo).lists[1]?).isSome ∧ (m.bucketFront 1).toOption = ((specRun 2 demo).lists[1]?.bind List.head?) := by
  refine ⟨_, _, rfl, ?_⟩
  decide +kernel

/-- The differences go both ways. -/
example : iterDiff (3 : BitVec 32) 5 = .ok (-2) ∧ iterDiff (5 : BitVec 64) 3 = .ok 2 := by decide

/-- A default constructed map meets the hypotheses of the violated theorems. -/
example : Rel 1 2 (Map.empty 2 : Map Nat) ⟨[], 0⟩ ∧ (Map.empty 2 : Map Nat).index = [] := ⟨empty_rel 2 (Nat.le_refl 1), rfl⟩

end Cista.MM
