import Verif.Multi.VecVec
import Verif.Multi.NVec
import Verif.Paged.Props

/-!
# Buckets as iterators and as ranges

`vecvec`, `nvec` and `paged_vecvec` hand out buckets that are at the same time iterators: a container and an index.
First the iterator operations on the index, then the accessors of single buckets (`size`, `empty`, `operator[]`, `front`, `back`, …).
-/
set_option linter.unusedSimpArgs false

namespace Cista.Multi.Access

/-! ## Iterators

The index is an unsigned integer of `W` bits: vecvec.h:190, 321 (`index_value_type`, `std::size_t`), nvec.h:129, 263, 344, 435,
paged_vecvec.h:118, 261 (`Key`). -/

/-- vecvec.h:143-146, nvec.h:83-86, 220-223, 301-304, 393-396, paged_vecvec.h:83-86, 224-227 `++it`. -/
def inc (W i : Nat) : Nat := (i + 1) % 2 ^ W

/-- vecvec.h:147-150, nvec.h:87-90, 224-227, 305-308, 398-401, paged_vecvec.h:87-90, 228-231 `--it`. -/
def dec (W i : Nat) : Nat := (i + 2 ^ W - 1) % 2 ^ W

/-- vecvec.h:152-155, 160-164, nvec.h:92-95, 100-104, paged_vecvec.h:92-95, 100-104 `it += n`, `it + n`; `n` converts to unsigned. -/
def plus (W i : Nat) (n : Int) : Nat := (((i : Int) + n) % (2 ^ W : Int)).toNat

/-- vecvec.h:156-159, 165-169, nvec.h:96-99, 105-109, paged_vecvec.h:96-99, 105-109 `it -= n`, `it - n`. -/
def minus (W i : Nat) (n : Int) : Nat := (((i : Int) - n) % (2 ^ W : Int)).toNat

/-- vecvec.h:170-174, 304-308, nvec.h:110-115, 247-251, paged_vecvec.h:110-114, 251-254 `a - b`: indices of fewer than 32 bits are promoted to
`int`, the others subtracted as unsigned numbers; then the conversion to `std::ptrdiff_t`. -/
def diff (W i j : Nat) : Int :=
  if W < 32 then (i : Int) - (j : Int) else ((((i : Int) - (j : Int)) % (2 ^ W : Int)).bmod (2 ^ 64))

/-- `for (it = begin; it != end; ++it)` collecting `f it`; at most `fuel` iterations. -/
def rangeFor {β : Type} (W : Nat) (f : Nat → Res β) (e : Nat) : Nat → Nat → Res (List β)
  | 0, _ => .error .diverge
  | fuel + 1, i =>
    if i = e then .ok []
    else do
      let x ← f i
      let xs ← rangeFor W f e fuel (inc W i)
      return x :: xs

/-- One step of an iterator. -/
inductive Move where
  | inc
  | dec
  | plus (n : Int)
  | minus (n : Int)

def Move.exec (W i : Nat) : Move → Nat
  | .inc => Access.inc W i
  | .dec => Access.dec W i
  | .plus n => Access.plus W i n
  | .minus n => Access.minus W i n

/-- How far a step goes. -/
def Move.dist : Move → Int
  | .inc => 1
  | .dec => -1
  | .plus n => n
  | .minus n => -n

def moves (W : Nat) : Nat → List Move → Nat
  | i, [] => i
  | i, m :: ms => moves W (m.exec W i) ms

/-- All intermediate positions are between 0 and `size`. -/
def Within (size : Nat) : Int → List Move → Prop
  | p, [] => 0 ≤ p ∧ p ≤ size
  | p, m :: ms => 0 ≤ p ∧ p ≤ size ∧ Within size (p + m.dist) ms

theorem Within.here {size : Nat} {p : Int} {ms : List Move} (h : Within size p ms) : 0 ≤ p ∧ p ≤ size := by
  cases ms with
  | nil => exact h
  | cons m ms => exact ⟨h.1, h.2.1⟩

theorem mod_of {W size : Nat} (hs : size < 2 ^ W) {p : Int} (h : 0 ≤ p ∧ p ≤ size) : p % (2 ^ W : Int) = p := by
  apply Int.emod_eq_of_lt h.1
  have : (size : Int) < ((2 ^ W : Nat) : Int) := by exact_mod_cast hs
  push_cast at this
  omega

/-- An iterator that is moved any number of times and stays between `begin` and `end` is at the sum of the distances. -/
theorem C80_moves (W size : Nat) (hs : size < 2 ^ W) (ms : List Move) (i : Nat) (hw : Within size i ms) :
    ((moves W i ms : Nat) : Int) = i + (ms.map Move.dist).sum := by
  induction ms generalizing i with
  | nil => simp [moves]
  | cons m ms ih =>
    obtain ⟨h0, h1, h2⟩ := hw
    have hp := h2.here
    have key : ((m.exec W i : Nat) : Int) = i + m.dist := by
      have hpos : 0 < 2 ^ W := Nat.two_pow_pos W
      cases m with
      | inc =>
        simp only [Move.exec, inc, Move.dist] at hp ⊢
        rw [Nat.mod_eq_of_lt (by omega)]
        omega
      | dec =>
        simp only [Move.exec, dec, Move.dist] at hp ⊢
        rw [show i + 2 ^ W - 1 = (i - 1) + 2 ^ W by omega, Nat.add_mod_right, Nat.mod_eq_of_lt (by omega)]
        omega
      | plus n =>
        simp only [Move.exec, plus, Move.dist] at hp ⊢
        rw [mod_of hs hp]; omega
      | minus n =>
        simp only [Move.exec, minus, Move.dist] at hp ⊢
        rw [mod_of hs (p := (i : Int) - n) (by omega)]; omega
    have e := ih (m.exec W i) (by rw [key]; exact h2)
    simp only [moves, List.map_cons, List.sum_cons]
    rw [e, key]; omega

example : Within 5 2 [.inc, .plus 2, .minus 4, .dec, .plus 3] := by simp [Within, Move.dist]

theorem rangeFor_ok {β : Type} {W e : Nat} (he : e < 2 ^ W) (f : Nat → Res β) :
    ∀ n i, i + n = e → ∀ fuel, n < fuel → rangeFor W f e fuel i = (List.range' i n).mapM f := by
  intro n
  induction n with
  | zero =>
    intro i h fuel hf
    obtain ⟨k, rfl⟩ : ∃ k, fuel = k + 1 := ⟨fuel - 1, by omega⟩
    rw [rangeFor, if_pos (by omega)]; rfl
  | succ n ih =>
    intro i h fuel hf
    obtain ⟨k, rfl⟩ : ∃ k, fuel = k + 1 := ⟨fuel - 1, by omega⟩
    rw [rangeFor, if_neg (by omega), List.range'_succ, List.mapM_cons]
    rw [show inc W i = i + 1 from Nat.mod_eq_of_lt (by omega), ih (i + 1) (by omega) k (by omega)]

/-- A loop from `begin` (0) to `end` (`size`) ends and visits every position once, in order. -/
theorem C80_range_for {β : Type} (W size : Nat) (hs : size < 2 ^ W) (f : Nat → Res β) (fuel : Nat) (hf : size < fuel) :
    rangeFor W f size fuel 0 = (List.range size).mapM f := by
  rw [rangeFor_ok hs f size 0 (by omega) fuel hf, List.range_eq_range']

/-- The difference of two iterators is the distance if it is not negative, or if the index has fewer than 32 bits or 64 bits. -/
theorem C80_difference_partial (W i j : Nat) (hW : W ≤ 64) (hi : i < 2 ^ W) (hj : j < 2 ^ W) (hd : (i : Int) - j < 2 ^ 63 ∧ -(2 ^ 63) ≤ (i : Int) - j)
    (h : W < 32 ∨ W = 64 ∨ j ≤ i) : diff W i j = (i : Int) - j := by
  unfold diff
  split
  · rfl
  · rename_i hw
    rcases h with h | h | h
    · exact absurd h hw
    · subst h
      rw [show ((2 ^ 64 : Int)) = ((2 ^ 64 : Nat) : Int) by norm_cast, Int.emod_bmod]
      rw [Int.bmod_eq_of_le] <;> omega
    · have hlt : (i : Int) < 2 ^ W := by exact_mod_cast hi
      rw [Int.emod_eq_of_lt (by omega) (by omega), Int.bmod_eq_of_le] <;> omega

example : diff 32 7 3 = 4 ∧ diff 64 3 7 = -4 ∧ diff 16 3 7 = -4 := by decide +kernel

/-- **C80 is violated** for 32 bit indices (the default): the distance to an earlier iterator is not negative, it is almost 2³². -/
theorem C80_difference_violated (W i j : Nat) (hW : 32 ≤ W) (hW' : W < 63) (hij : i < j) (hj : j < 2 ^ W) :
    diff W i j = 2 ^ W - ((j : Int) - i) ∧ diff W i j ≠ (i : Int) - j := by
  have hpos : (0 : Int) < 2 ^ W := by exact_mod_cast Nat.two_pow_pos W
  have hlt : (j : Int) < 2 ^ W := by exact_mod_cast hj
  have hle : (2 : Int) ^ W ≤ 2 ^ 62 := by
    have : 2 ^ W ≤ 2 ^ 62 := Nat.pow_le_pow_right (by omega) (by omega)
    exact_mod_cast this
  have key : diff W i j = 2 ^ W - ((j : Int) - i) := by
    unfold diff
    rw [if_neg (by omega)]
    have : ((i : Int) - j) % 2 ^ W = 2 ^ W - ((j : Int) - i) := by
      rw [← Int.add_emod_right ((i : Int) - j) (2 ^ W)]
      rw [Int.emod_eq_of_lt (by omega) (by omega)]
      omega
    rw [this, Int.bmod_eq_of_le] <;> omega
  refine ⟨key, ?_⟩
  rw [key]
  omega

example : diff 32 0 1 = 4294967295 := by decide +kernel

end Cista.Multi.Access

/-! ## vecvec: accessors -/

namespace Cista.Multi.VecVec

variable {α : Type _}

/-- vecvec.h:177-184 (`bucket`), 311-316 (`const_bucket`, `c = true`): the range of bucket `i` in `data_`. -/
def VV.range (v : VV α) (c : Bool) (i : Nat) : Res (Nat × Nat) := do
  let b ← if c then v.start i else v.beginIdx i
  let e ← if c then v.start (i + 1) else v.endIdx i
  return (b, e)

/-- vecvec.h:113-115, 246-248 `size()`; the difference wraps. -/
def VV.bucketSize (v : VV α) (c : Bool) (i : Nat) : Res Nat := do
  let (b, e) ← v.range c i
  return (e + 2 ^ 64 - b) % 2 ^ 64

/-- vecvec.h:69, 234 `empty()`. -/
def VV.bucketEmpty (v : VV α) (c : Bool) (i : Nat) : Res Bool := do
  let (b, e) ← v.range c i
  return b = e

/-- Element of `data_`. -/
def VV.datum (v : VV α) (k : Nat) : Res α :=
  match v.data[k]? with
  | some x => .ok x
  | none => .error .ub

/-- vecvec.h:93-101, 241-244 `bucket[j]`, with the assertion (185-187, 317-319) as an obligation of the caller. -/
def VV.bucketGet (v : VV α) (c : Bool) (i j : Nat) : Res α := do
  let (b, e) ← v.range c i
  require (b + j < e)
  let s ← v.start i
  v.datum (s + j)

/-- vecvec.h:236-239 `const_bucket::at(j)`. -/
def VV.constBucketAt (v : VV α) (i j : Nat) : Res α := do
  let n ← v.bucketSize true i
  verify (j < n)
  let (b, _) ← v.range true i
  v.datum (b + j)

/-- vecvec.h:49-52, 59-62, 224-227 `front()`. -/
def VV.bucketFront (v : VV α) (c : Bool) (i : Nat) : Res α := do
  let y ← v.bucketEmpty c i
  require (!y)
  v.bucketGet c i 0

/-- vecvec.h:54-57, 64-67, 229-232 `back()`. -/
def VV.bucketBack (v : VV α) (c : Bool) (i : Nat) : Res α := do
  let y ← v.bucketEmpty c i
  require (!y)
  let n ← v.bucketSize c i
  v.bucketGet c i (n - 1)

/-- vecvec.h:39-41, 214-216 `data()`: the position of the first element, none for the null pointer. -/
def VV.bucketData (v : VV α) (c : Bool) (i : Nat) : Res (Option Nat) := do
  let y ← v.bucketEmpty c i
  if y then return none
  else do
    let _ ← v.bucketGet c i 0
    let s ← v.start i
    return some s

/-- vecvec.h:262-267 `rbegin()` to `rend()`: the elements `begin() + size() - 1` down to `begin()`. -/
def VV.bucketReverse (v : VV α) (i : Nat) : Res (List α) := do
  let n ← v.bucketSize true i
  let (b, _) ← v.range true i
  (List.range n).mapM fun k => v.datum (b + n - 1 - k)

/-- vecvec.h:348, 351 `front()`. -/
def VV.front (v : VV α) : Res Nat := v.at 0

/-- vecvec.h:349, 352 `back()`. -/
def VV.back (W : Nat) (v : VV α) : Res Nat := v.at ((v.size W + 2 ^ W - 1) % 2 ^ W)

theorem Inv.range {v : VV α} {L : List (List α)} {s : Bool} (h : Inv v L s) {i : Nat} (hi : i < L.length) (c : Bool) :
    v.range c i = .ok ((L.take i).flatten.length, (L.take i).flatten.length + L[i].length) := by
  obtain ⟨h1, h2, h3, h4, h5, junk, h6, h7⟩ := h.idx hi
  unfold VV.range VV.beginIdx VV.endIdx
  rw [h1, h3, h4]
  cases c <;> rfl

theorem Inv.datum {v : VV α} {L : List (List α)} {s : Bool} (h : Inv v L s) {i : Nat} (hi : i < L.length) {j : Nat} (hj : j < L[i].length) :
    v.datum ((L.take i).flatten.length + j) = .ok L[i][j] := by
  obtain ⟨h1, h2, h3, h4, h5, junk, h6, h7⟩ := h.idx hi
  have : v.data[(L.take i).flatten.length + j]? = L[i][j]? := by
    have hs := flatten_slice hi junk
    rw [← h6] at hs
    have h8 := congrArg (fun l => l[j]?) hs
    simp only [List.getElem?_take, if_pos hj, List.getElem?_drop] at h8
    exact h8
  unfold VV.datum
  rw [this, List.getElem?_eq_getElem hj]

theorem Inv.bucketGet {v : VV α} {L : List (List α)} {s : Bool} (h : Inv v L s) {i : Nat} (hi : i < L.length) (c : Bool) {j : Nat}
    (hj : j < L[i].length) : v.bucketGet c i j = .ok L[i][j] := by
  unfold VV.bucketGet
  rw [h.range hi c, ok_bind]
  simp only
  rw [decide_eq_true (by omega), require_true, ok_bind, (h.idx hi).2.2.1, ok_bind]
  exact h.datum hi hj

theorem Inv.bucketSize {v : VV α} {L : List (List α)} {s : Bool} (h : Inv v L s) {i : Nat} (hi : i < L.length) (c : Bool)
    (hb : L[i].length < 2 ^ 64) : v.bucketSize c i = .ok L[i].length := by
  unfold VV.bucketSize
  rw [h.range hi c, ok_bind]
  simp only [pure_ok]
  rw [show (L.take i).flatten.length + L[i].length + 2 ^ 64 - (L.take i).flatten.length = L[i].length + 2 ^ 64 by omega, Nat.add_mod_right,
    Nat.mod_eq_of_lt hb]

theorem Inv.bucketEmpty {v : VV α} {L : List (List α)} {s : Bool} (h : Inv v L s) {i : Nat} (hi : i < L.length) (c : Bool) :
    v.bucketEmpty c i = .ok L[i].isEmpty := by
  unfold VV.bucketEmpty
  rw [h.range hi c, ok_bind]
  simp only [pure_ok]
  congr 1
  cases hn : L[i] <;> simp

theorem mapM_range_ok {β : Type _} {f : Nat → Res β} : ∀ (r : List β) (b : Nat), (∀ k (hk : k < r.length), f (b + k) = .ok r[k]) →
    (List.range' b r.length).mapM f = .ok r := by
  intro r
  induction r with
  | nil => intro b _; rfl
  | cons x r ih =>
    intro b h
    have h0 := h 0 (by simp)
    rw [Nat.add_zero] at h0
    rw [List.length_cons, List.range'_succ, List.mapM_cons, h0, ok_bind, ih (b + 1) fun k hk => by
      have := h (k + 1) (by simpa using hk)
      rw [show b + (k + 1) = b + 1 + k by omega] at this
      rw [this]; rfl]
    rfl

/-- What the accessors of bucket `i` say, compared to the list `b`. -/
structure Accessors (v : VV α) (i : Nat) (b : List α) : Prop where
  size : ∀ c, v.bucketSize c i = .ok b.length
  empty : ∀ c, v.bucketEmpty c i = .ok b.isEmpty
  get : ∀ c j x, b[j]? = some x → v.bucketGet c i j = .ok x
  constAt : ∀ j, v.constBucketAt i j = match b[j]? with | some x => .ok x | none => .error .exn
  front : ∀ c x, b.head? = some x → v.bucketFront c i = .ok x
  back : ∀ c x, b.getLast? = some x → v.bucketBack c i = .ok x
  data : ∀ c, ∃ p, v.bucketData c i = .ok p ∧ (p = none ↔ b = []) ∧ ∀ q, p = some q → (v.data.drop q).take b.length = b
  reverse : v.bucketReverse i = .ok b.reverse

theorem Inv.accessors {v : VV α} {L : List (List α)} {s : Bool} (h : Inv v L s) {i : Nat} (hi : i < L.length)
    (hb : L[i].length < 2 ^ 64) : Accessors v i L[i] where
  size c := h.bucketSize hi c hb
  empty c := h.bucketEmpty hi c
  get c j x hx := by
    obtain ⟨hj, e⟩ := List.getElem?_eq_some_iff.1 hx
    rw [h.bucketGet hi c hj, e]
  constAt j := by
    unfold VV.constBucketAt
    rw [h.bucketSize hi true hb, ok_bind]
    by_cases hj : j < L[i].length
    · rw [decide_eq_true hj, verify_true, ok_bind, h.range hi true, ok_bind]
      simp only
      rw [h.datum hi hj, List.getElem?_eq_getElem hj]
    · rw [decide_eq_false hj, verify_false, error_bind, List.getElem?_eq_none (by omega)]
  front c x hx := by
    rw [List.head?_eq_getElem?] at hx
    obtain ⟨hj, e⟩ := List.getElem?_eq_some_iff.1 hx
    unfold VV.bucketFront
    rw [h.bucketEmpty hi c, ok_bind]
    have : L[i].isEmpty = false := by rw [List.isEmpty_eq_false_iff]; intro e; rw [e] at hj; simp at hj
    rw [this, Bool.not_false, require_true, ok_bind, h.bucketGet hi c hj, e]
  back c x hx := by
    rw [List.getLast?_eq_getElem?] at hx
    obtain ⟨hj, e⟩ := List.getElem?_eq_some_iff.1 hx
    unfold VV.bucketBack
    rw [h.bucketEmpty hi c, ok_bind]
    have : L[i].isEmpty = false := by rw [List.isEmpty_eq_false_iff]; intro e; rw [e] at hj; simp at hj
    rw [this, Bool.not_false, require_true, ok_bind, h.bucketSize hi c hb, ok_bind, h.bucketGet hi c hj, e]
  data c := by
    unfold VV.bucketData
    rw [h.bucketEmpty hi c, ok_bind]
    by_cases he : L[i] = []
    · rw [he]
      exact ⟨none, rfl, by simp, by simp⟩
    · have : L[i].isEmpty = false := by rw [List.isEmpty_eq_false_iff]; exact he
      have hl : 0 < L[i].length := List.length_pos_iff.2 he
      rw [this, if_neg (by simp), h.bucketGet hi c hl, ok_bind, (h.idx hi).2.2.1, ok_bind]
      refine ⟨_, rfl, by simp [he], ?_⟩
      rintro q hq
      cases hq
      obtain ⟨_, _, _, _, _, junk, h6, _⟩ := h.idx hi
      rw [h6, flatten_slice hi]
  reverse := by
    unfold VV.bucketReverse
    rw [h.bucketSize hi true hb, ok_bind, h.range hi true, ok_bind]
    simp only
    rw [List.range_eq_range', show List.range' 0 L[i].length = List.range' 0 L[i].reverse.length by rw [List.length_reverse]]
    apply mapM_range_ok
    intro k hk
    have hk' : k < L[i].length := by simpa using hk
    rw [show (L.take i).flatten.length + L[i].length - 1 - (0 + k) = (L.take i).flatten.length + (L[i].length - 1 - k) by omega,
      h.datum hi (by omega), List.getElem_reverse]

/-- **C22**: the accessors of every bucket, mutable and const, agree with the list of lists after every allowed history, and so do `front()` and
`back()` of the container. -/
theorem C22_accessors (W : Nat) (hW : W ≤ 64) (dflt : α) (ops : List (Op α)) (ha : Allowed W dflt [] false ops)
    (hf : (specRun dflt [] ops).flatten.length < 2 ^ W) :
    ∃ v, run W dflt .empty ops = .ok v ∧ (∀ i b, (specRun dflt [] ops)[i]? = some b → Accessors v i b) ∧
      (specRun dflt [] ops ≠ [] → v.front = .ok 0 ∧ v.back W = .ok ((specRun dflt [] ops).length - 1)) := by
  obtain ⟨v, s, e, w, hl⟩ := run_ok (W := W) dflt ops (v := .empty) (L := []) (s := false)
    (Or.inl ⟨rfl, rfl, rfl⟩) (by simpa using Nat.two_pow_pos W) ha
  refine ⟨v, e, ?_, ?_⟩
  · intro i b hb
    obtain ⟨hi, hb2⟩ := List.getElem?_eq_some_iff.1 hb
    subst hb2
    refine w.accessors hi ?_
    have h1 := (w.idx hi).2.2.2.2.1
    have h2 : 2 ^ W ≤ 2 ^ 64 := Nat.pow_le_pow_right (by omega) hW
    omega
  · intro hne
    have hpos : 0 < (specRun dflt [] ops).length := List.length_pos_iff.2 hne
    have hst := (w.idx hpos).2.1
    have hlen : v.starts.length = (specRun dflt [] ops).length + 1 := by rw [hst, offs_length]
    unfold VV.front VV.back VV.at
    rw [w.size hl, show (specRun dflt [] ops).length + 2 ^ W - 1 = ((specRun dflt [] ops).length - 1) + 2 ^ W by omega, Nat.add_mod_right,
      Nat.mod_eq_of_lt (by omega), decide_eq_true (by omega), decide_eq_true (by omega), verify_true, ok_bind, ok_bind]
    exact ⟨rfl, rfl⟩

example : (specRun 0 [] (exOps.take 10)).flatten.length < 2 ^ 8 := by decide

end Cista.Multi.VecVec

/-! ## nvec: accessors of leaf buckets -/

namespace Cista.Multi.NVec

variable {α : Type}

/-- nvec.h:65, 198-200 `size()` of leaf bucket `i`. -/
def NV.leafSize (v : NV α) (i : Nat) : Res Nat := do
  let b ← v.idx 0 i
  let e ← v.idx 0 (i + 1)
  return (e + 2 ^ 64 - b) % 2 ^ 64

/-- nvec.h:51, 170 `empty()`. -/
def NV.leafEmpty (v : NV α) (i : Nat) : Res Bool := do
  let b ← v.idx 0 i
  let e ← v.idx 0 (i + 1)
  return b = e

/-- Element of `data_`. -/
def NV.datum (v : NV α) (k : Nat) : Res α :=
  match v.data[k]? with
  | some x => .ok x
  | none => .error .ub

/-- nvec.h:58-61, 172-180 `bucket[j]`, with the assertion (123-125, 259-261) as an obligation of the caller. -/
def NV.leafGet (v : NV α) (i j : Nat) : Res α := do
  let b ← v.idx 0 i
  let e ← v.idx 0 (i + 1)
  require (b + j < e)
  v.datum (b + j)

/-- nvec.h:53-56, 182-190 `bucket.at(j)`. -/
def NV.leafAt (v : NV α) (i j : Nat) : Res α := do
  let n ← v.leafSize i
  verify (j < n)
  let b ← v.idx 0 i
  v.datum (b + j)

/-- nvec.h:41-44, 160-163 `front()`. -/
def NV.leafFront (v : NV α) (i : Nat) : Res α := do
  let y ← v.leafEmpty i
  require (!y)
  v.leafGet i 0

/-- nvec.h:46-49, 165-168 `back()`. -/
def NV.leafBack (v : NV α) (i : Nat) : Res α := do
  let y ← v.leafEmpty i
  require (!y)
  let n ← v.leafSize i
  v.leafGet i (n - 1)

/-- nvec.h:464, 467 `front()`: the position of the first container. -/
def NV.front (_ : NV α) : Nat := 0

/-- nvec.h:465, 468 `back()`: `begin() + size() - 1`. -/
def NV.back (W L : Nat) (v : NV α) : Nat := Access.minus W (Access.plus W 0 (v.size W L)) 1

/-- What the accessors of leaf bucket `i` say, compared to the list `b`. -/
structure Accessors (v : NV α) (i : Nat) (b : List α) : Prop where
  size : v.leafSize i = .ok b.length
  empty : v.leafEmpty i = .ok b.isEmpty
  get : ∀ j x, b[j]? = some x → v.leafGet i j = .ok x
  checked : ∀ j, v.leafAt i j = match b[j]? with | some x => .ok x | none => .error .exn
  front : ∀ x, b.head? = some x → v.leafFront i = .ok x
  back : ∀ x, b.getLast? = some x → v.leafBack i = .ok x

theorem leaf_inv {v : NV α} {i : Nat} {d : List α} (h : v.leaf i = .ok d) :
    ∃ b e, v.idx 0 i = .ok b ∧ v.idx 0 (i + 1) = .ok e ∧ b ≤ e ∧ e ≤ v.data.length ∧ d = (v.data.drop b).take (e - b) := by
  unfold NV.leaf at h
  cases hb : v.idx 0 i with
  | error => rw [hb] at h; cases h
  | ok b =>
    rw [hb, ok_bind] at h
    cases he : v.idx 0 (i + 1) with
    | error => rw [he] at h; cases h
    | ok e =>
      rw [he, ok_bind] at h
      by_cases hc : b ≤ e ∧ e ≤ v.data.length
      · rw [decide_eq_true hc.1, decide_eq_true hc.2, Bool.and_self, require_true, ok_bind, pure_ok] at h
        injection h with h
        exact ⟨b, e, rfl, rfl, hc.1, hc.2, h.symm⟩
      · have : (decide (b ≤ e) && decide (e ≤ v.data.length)) = false := by
          rw [Bool.and_eq_false_iff, decide_eq_false_iff_not, decide_eq_false_iff_not]; omega
        rw [this, require_false, error_bind] at h
        cases h

theorem accessors {v : NV α} {i : Nat} {d : List α} (h : v.leaf i = .ok d) (hl : v.data.length < 2 ^ 64) : Accessors v i d := by
  obtain ⟨b, e, hb, he, h1, h2, rfl⟩ := leaf_inv h
  have hlen : ((v.data.drop b).take (e - b)).length = e - b := by simp; omega
  have hget : ∀ j, j < e - b → ∃ x, v.datum (b + j) = .ok x ∧ ((v.data.drop b).take (e - b))[j]? = some x := by
    intro j hj
    refine ⟨v.data[b + j]'(by omega), ?_, ?_⟩
    · unfold NV.datum
      rw [List.getElem?_eq_getElem (by omega)]
    · rw [List.getElem?_take, if_pos hj, List.getElem?_drop, List.getElem?_eq_getElem (by omega)]
  have hsize : v.leafSize i = .ok (e - b) := by
    unfold NV.leafSize
    rw [hb, ok_bind, he, ok_bind, pure_ok, show e + 2 ^ 64 - b = (e - b) + 2 ^ 64 by omega, Nat.add_mod_right, Nat.mod_eq_of_lt (by omega)]
  have hempty : v.leafEmpty i = .ok ((v.data.drop b).take (e - b)).isEmpty := by
    unfold NV.leafEmpty
    rw [hb, ok_bind, he, ok_bind, pure_ok]
    congr 1
    rw [Bool.eq_iff_iff, decide_eq_true_iff, List.isEmpty_iff, ← List.length_eq_zero_iff, hlen]
    omega
  have hlg : ∀ (j : Nat) (x : α), ((v.data.drop b).take (e - b))[j]? = some x → v.leafGet i j = .ok x := by
    intro j x hx
    obtain ⟨hj, _⟩ := List.getElem?_eq_some_iff.1 hx
    rw [hlen] at hj
    obtain ⟨y, g1, g2⟩ := hget j hj
    rw [g2] at hx
    injection hx with hx
    unfold NV.leafGet
    rw [hb, ok_bind, he, ok_bind, decide_eq_true (by omega), require_true, ok_bind, g1, hx]
  have hne : ∀ (j : Nat) (x : α), ((v.data.drop b).take (e - b))[j]? = some x → v.leafEmpty i = .ok false := by
    intro j x hx
    rw [hempty]
    congr 1
    rw [List.isEmpty_eq_false_iff]
    intro e'
    rw [e'] at hx
    simp at hx
  refine ⟨by rw [hsize, hlen], hempty, hlg, ?_, ?_, ?_⟩
  · intro j
    unfold NV.leafAt
    rw [hsize, ok_bind]
    by_cases hj : j < e - b
    · obtain ⟨y, g1, g2⟩ := hget j hj
      rw [decide_eq_true hj, verify_true, ok_bind, hb, ok_bind, g1, g2]
    · rw [decide_eq_false hj, verify_false, error_bind, List.getElem?_eq_none (by omega)]
  · intro x hx
    rw [List.head?_eq_getElem?] at hx
    unfold NV.leafFront
    rw [hne _ _ hx, ok_bind, Bool.not_false, require_true, ok_bind, hlg _ _ hx]
  · intro x hx
    rw [List.getLast?_eq_getElem?, hlen] at hx
    unfold NV.leafBack
    rw [hne _ _ hx, ok_bind, Bool.not_false, require_true, ok_bind, hsize, ok_bind, hlg _ _ hx]

/-- **C23**: for depths of at least two the accessors of every leaf bucket, reached by any chain of `operator[]`, agree with the emplaced content, and `front()` and `back()`
are the first and the last container. -/
theorem C23_accessors (W L : Nat) (C : List (Nest α (L + 1))) (hf : Fits W (L + 1) C) (hd : (build W (L + 1) C).data.length < 2 ^ 64) :
    (∀ i c path (d : List α), C[i]? = some c → Nest.sub (L + 1) c path = some ⟨0, d⟩ →
      ∃ k, (build W (L + 1) C).follow (L + 1) i path = .ok (0, k) ∧ Accessors (build W (L + 1) C) k d) ∧
    (C ≠ [] → (build W (L + 1) C).front = 0 ∧ (build W (L + 1) C).back W (L + 1) = C.length - 1) := by
  obtain ⟨hs, _, hc⟩ := C23_content W L C hf
  refine ⟨?_, ?_⟩
  · intro i c path d h1 h2
    obtain ⟨k, g1, _, g3⟩ := hc i c path 0 d h1 h2
    exact ⟨k, g1, accessors g3 hd⟩
  · intro hne
    have hpos : 0 < C.length := List.length_pos_iff.2 hne
    have hlt := fits_len (L + 1) C hf
    refine ⟨rfl, ?_⟩
    unfold NV.back Access.minus Access.plus
    rw [hs, Access.mod_of hlt (p := ((0 : Nat) : Int) + (C.length : Int)) (by omega)]
    rw [Access.mod_of hlt (p := ((((0 : Nat) : Int) + (C.length : Int)).toNat : Int) - 1) (by omega)]
    omega

example : Nest.sub 2 [[[1, 2], []], []] [0, 0] = some ⟨0, ([1, 2] : List Nat)⟩ := rfl

end Cista.Multi.NVec

/-! ## paged_vecvec: accessors -/

namespace Cista.Paged

/-- paged_vecvec.h:43-46, 187-195 `bucket[j]` (`bucket` and `const_bucket`); the assertion is an obligation of the caller. -/
def PV.bucketGet (c : Cfg) (v : PV) (i j : Nat) : Res (List Byte) := do
  let q ← v.page i
  require (j < q.size)
  load v.paged.data ((q.start + j) * c.E) c.E

/-- paged_vecvec.h:71, 212 `empty()`. -/
def PV.bucketEmpty (v : PV) (i : Nat) : Res Bool := do
  let q ← v.page i
  return q.size = 0

/-- paged_vecvec.h:58-61, 138-141, 148-151 `front()`. -/
def PV.bucketFront (c : Cfg) (v : PV) (i : Nat) : Res (List Byte) := do
  let y ← v.bucketEmpty i
  require (!y)
  v.bucketGet c i 0

/-- paged_vecvec.h:63-66, 143-146, 153-156 `back()`. -/
def PV.bucketBack (c : Cfg) (v : PV) (i : Nat) : Res (List Byte) := do
  let y ← v.bucketEmpty i
  require (!y)
  let q ← v.page i
  v.bucketGet c i (q.size - 1)

/-- paged_vecvec.h:291, 294 `front()`. -/
def PV.front (v : PV) : Res Nat := v.at 0

/-- paged_vecvec.h:292, 295 `back()` for keys of `W` bits. -/
def PV.back (W : Nat) (v : PV) : Res Nat := v.at ((v.idx.length % 2 ^ W + 2 ^ W - 1) % 2 ^ W)

/-- What the accessors say, compared to a list of lists. -/
structure Accessors (c : Cfg) (W : Nat) (v : PV) (L : List (List (List Byte))) : Prop where
  get : ∀ (i j : Nat) (xs : List (List Byte)) (x : List Byte), L[i]? = some xs → xs[j]? = some x → v.bucketGet c i j = .ok x
  empty : ∀ (i : Nat) (xs : List (List Byte)), L[i]? = some xs → v.bucketEmpty i = .ok xs.isEmpty
  front : ∀ (i : Nat) (xs : List (List Byte)) (x : List Byte), L[i]? = some xs → xs.head? = some x → v.bucketFront c i = .ok x
  back : ∀ (i : Nat) (xs : List (List Byte)) (x : List Byte), L[i]? = some xs → xs.getLast? = some x → v.bucketBack c i = .ok x
  first : L ≠ [] → v.front = .ok 0
  last : L ≠ [] → v.back W = .ok (L.length - 1)
  none : L = [] → v.front = .error .exn ∧ v.back W = .error .exn

theorem VGood.accessors {c : Cfg} {v : PV} {L : List (List (List Byte))} (h : VGood c v L) (W : Nat) (hl : L.length < 2 ^ W) :
    Accessors c W v L := by
  have hpage : ∀ (i : Nat) (xs : List (List Byte)), L[i]? = some xs → ∃ q, v.page i = .ok q ∧ q.size = xs.length := by
    intro i xs hi
    have h1 := h.bucketSize i xs hi
    cases hp : v.page i with
    | error => rw [hp] at h1; cases h1
    | ok q =>
      rw [hp] at h1
      exact ⟨q, rfl, by injection h1⟩
  have hget : ∀ (i j : Nat) (xs : List (List Byte)) (x : List Byte), L[i]? = some xs → xs[j]? = some x → v.bucketGet c i j = .ok x := by
    intro i j xs x hi hj
    obtain ⟨q, hq, hs⟩ := hpage i xs hi
    have h1 := h.elem i j xs x hi hj
    have hjl : j < q.size := by rw [hs]; exact (List.getElem?_eq_some_iff.1 hj).1
    unfold PV.bucketAt at h1
    rw [hq, ok_bind, decide_eq_true hjl, verify_true, ok_bind] at h1
    unfold PV.bucketGet
    rw [hq, ok_bind, decide_eq_true hjl, require_true, ok_bind, h1]
  have hempty : ∀ (i : Nat) (xs : List (List Byte)), L[i]? = some xs → v.bucketEmpty i = .ok xs.isEmpty := by
    intro i xs hi
    obtain ⟨q, hq, hs⟩ := hpage i xs hi
    unfold PV.bucketEmpty
    rw [hq, ok_bind, pure_ok]
    congr 1
    rw [Bool.eq_iff_iff, decide_eq_true_iff, List.isEmpty_iff, ← List.length_eq_zero_iff, hs]
  have hne : ∀ (i j : Nat) (xs : List (List Byte)) (x : List Byte), L[i]? = some xs → xs[j]? = some x → v.bucketEmpty i = .ok false := by
    intro i j xs x hi hj
    rw [hempty i xs hi]
    congr 1
    rw [List.isEmpty_eq_false_iff]
    rintro rfl
    simp at hj
  refine ⟨hget, hempty, ?_, ?_, ?_, ?_, ?_⟩
  · intro i xs x hi hx
    rw [List.head?_eq_getElem?] at hx
    unfold PV.bucketFront
    rw [hne i 0 xs x hi hx, ok_bind, Bool.not_false, require_true, ok_bind, hget i 0 xs x hi hx]
  · intro i xs x hi hx
    rw [List.getLast?_eq_getElem?] at hx
    obtain ⟨q, hq, hs⟩ := hpage i xs hi
    unfold PV.bucketBack
    rw [hne i _ xs x hi hx, ok_bind, Bool.not_false, require_true, ok_bind, hq, ok_bind, hs, hget i _ xs x hi hx]
  · intro hL
    exact h.atIn 0 (List.length_pos_iff.2 hL)
  · intro hL
    have hpos : 0 < L.length := List.length_pos_iff.2 hL
    unfold PV.back
    rw [h.size, Nat.mod_eq_of_lt hl, show L.length + 2 ^ W - 1 = (L.length - 1) + 2 ^ W by omega, Nat.add_mod_right, Nat.mod_eq_of_lt (by omega)]
    exact h.atIn _ (by omega)
  · rintro rfl
    exact ⟨h.atOut 0 (by simp), h.atOut _ (by simp)⟩

/-- **C25**: after every allowed history the accessors of every bucket and `front()` and `back()` of the container agree with the list of lists. -/
theorem C25_accessors {c : Cfg} (ok : c.Ok) (W : Nat) (ops : List VOp) (ha : VAllowed c [] ops) (hb : vcost c [] ops ≤ c.sentinel)
    (hl : (vspec [] ops).length < 2 ^ W) : ∃ v, vrun c (PV.empty c) ops = .ok v ∧ Accessors c W v (vspec [] ops) := by
  obtain ⟨v, e, h⟩ := C25_history_partial ok ops ha hb
  exact ⟨v, e, h.accessors W hl⟩

example : (vspec [] sampleV).length < 2 ^ 32 := by decide

end Cista.Paged
