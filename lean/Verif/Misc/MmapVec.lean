import Verif.Arith.Props
import Verif.Bytes
import Verif.MM.Lemmas
import Verif.Sum.Variant

/-!
# mmap and mmap_vec

Model of `cista::mmap` (include/cista/mmap.h, POSIX branch) and `cista::basic_mmap_vec` (include/cista/containers/mmap_vec.h) on
one file.  The file is its list of bytes; a `MAP_SHARED` mapping shows these very bytes, so the mapping is not stored
separately.  Accessing an element outside the mapping is `Err.ub` (page granularity is ignored, which only makes more
accesses undefined).  An element is the list of its `s` bytes (`T` is trivially copyable).  `std::rotate` and `::ftruncate`
are modelled by their documented effect.  Opened with `protection::MODIFY`/`WRITE`; no i/o errors.  Sizes are natural numbers except
for `next_power_of_two`, which is the 64-bit one of C01.
-/
set_option linter.unusedSimpArgs false

namespace Cista.MmapVec

/-- Element size, page size, bytes of `T{}`. -/
structure Cfg where
  s : Nat
  page : Nat
  zero : List Byte

/-- mmap.h:207-211 and mmap_vec.h:173-174; `leaked` counts pages that stay mapped after the mapping object is gone. -/
structure St where
  file : List Byte
  size : Nat
  used : Nat
  mapped : Bool
  vused : Nat
  leaked : Nat
deriving DecidableEq, Repr

/-- `::ftruncate`: cut or extend with zero bytes. -/
def ftruncate (f : List Byte) (n : Nat) : List Byte := f.take n ++ List.replicate (n - f.length) 0

/-- next_power_of_2.h for `std::size_t`. -/
@[irreducible] def np2 (n : Nat) : Nat := (Arith.nextPow2 (BitVec.ofNat 64 n)).toNat

/-- mmap.h:31-38 and mmap_vec.h:25-27: opening an existing file for modification. -/
def openFile (c : Cfg) (f : List Byte) (leaked : Nat) : St :=
  { file := f, size := f.length, used := f.length, mapped := decide (f.length ≠ 0), vused := f.length / c.s,
    leaked := leaked }

/-- mmap.h:196-205 `resize_map`; mapping zero bytes fails (mmap.h:167-171). -/
def resizeMap (st : St) (n : Nat) : Res St :=
  if n = 0 then .error .exn else .ok { st with file := ftruncate st.file n, size := n, mapped := true }

/-- mmap.h:91-98 `resize`. -/
def mmapResize (st : St) (n : Nat) : Res St :=
  if st.size < n then do
    let st ← resizeMap st (np2 n)
    return { st with used := n }
  else .ok { st with used := n }

/-- Pages of `n` bytes. -/
def pages (c : Cfg) (n : Nat) : Nat := (n + c.page - 1) / c.page

/-- mmap.h:40-49 the destructor: `size_ = used_size_` is set before `munmap(addr_, size_)`, so only the used pages are
unmapped; then the file is cut to the used size.  Result: the file and the pages left mapped. -/
def close (c : Cfg) (st : St) : List Byte × Nat :=
  if st.mapped then (ftruncate st.file st.used, st.leaked + (pages c st.size - pages c st.used)) else (st.file, st.leaked)

/-- The bytes of element `i`. -/
def elAt (s : Nat) (f : List Byte) (i : Nat) : List Byte := (f.drop (i * s)).take s

/-- mmap_vec.h:65-73 reading `operator[]`. -/
def St.get (c : Cfg) (st : St) (i : Nat) : Res (List Byte) := do
  require (decide (i < st.vused ∧ (i + 1) * c.s ≤ st.file.length))
  return elAt c.s st.file i

/-- Writing one element through a pointer into the mapping. -/
def write (s : Nat) (f : List Byte) (i : Nat) (x : List Byte) : Res (List Byte) := do
  require (decide ((i + 1) * s ≤ f.length))
  return MM.blit f (i * s) x

/-- Writing elements `p, p+1, …` in ascending order. -/
def writeSeq (s : Nat) : List Byte → Nat → List (List Byte) → Res (List Byte)
  | f, _, [] => .ok f
  | f, p, x :: xs => do
    let f ← write s f p x
    writeSeq s f (p + 1) xs

/-- mmap_vec.h:145-152: move the elements `src … src+k-1` to `src+n …`, last one first. -/
def shift (s : Nat) (src n : Nat) : List Byte → Nat → Res (List Byte)
  | f, 0 => .ok f
  | f, k + 1 => do
    require (decide ((src + k + 1) * s ≤ f.length))
    let f ← write s f (src + k + n) (elAt s f (src + k))
    shift s src n f k

/-- `std::rotate(begin + a, begin + m, begin + e)`. -/
def rotate (s : Nat) (f : List Byte) (a m e : Nat) : Res (List Byte) :=
  writeSeq s f a (((List.range' m (e - m)).map (elAt s f)) ++ ((List.range' a (m - a)).map (elAt s f)))

/-- mmap_vec.h:29-33 `push_back`. -/
def pushBack (c : Cfg) (st : St) (x : List Byte) : Res St := do
  let st ← mmapResize { st with vused := st.vused + 1 } (c.s * (st.vused + 1))
  let f ← write c.s st.file (st.vused - 1) x
  return { st with file := f }

/-- mmap_vec.h:29-33 `push_back(v[i])`: the argument is a reference into the mapping, which `resize_map` unmaps. -/
def pushBackOwn (c : Cfg) (st : St) (i : Nat) : Res St := do
  let x ← st.get c i
  require (decide (c.s * (st.vused + 1) ≤ st.size))
  pushBack c st x

/-- mmap_vec.h:75 `reserve`. -/
def reserve (c : Cfg) (st : St) (n : Nat) : Res St := mmapResize st (n * c.s)

/-- mmap_vec.h:35-42 `emplace_back`. -/
def emplaceBack (c : Cfg) (st : St) (x : List Byte) : Res St := do
  let st ← reserve c st (st.vused + 1)
  let f ← write c.s st.file st.vused x
  return { st with file := f, vused := st.vused + 1 }

/-- mmap_vec.h:77-83 `resize`. -/
def resize (c : Cfg) (st : St) (n : Nat) : Res St := do
  let st ← mmapResize st (n * c.s)
  let f ← writeSeq c.s st.file st.vused (List.replicate (n - st.vused) c.zero)
  return { st with file := f, vused := n }

/-- mmap_vec.h:85-105 `set`. -/
def set (c : Cfg) (st : St) (xs : List (List Byte)) : Res St := do
  let st ← reserve c st xs.length
  let f ← writeSeq c.s st.file 0 xs
  return { st with file := f, vused := xs.length }

/-- mmap_vec.h:107-117 `insert(it, el)`. -/
def insert1 (c : Cfg) (st : St) (p : Nat) (x : List Byte) : Res St := do
  let st' ← emplaceBack c st x
  let f ← rotate c.s st'.file p st.vused st'.vused
  return { st' with file := f }

/-- mmap_vec.h:124-128: append every element. -/
def appendAll (c : Cfg) : St → List (List Byte) → Res St
  | st, [] => .ok st
  | st, x :: xs => do
    let st ← emplaceBack c st x
    appendAll c st xs

/-- mmap_vec.h:119-131 `insert` of an input range. -/
def insertInput (c : Cfg) (st : St) (p : Nat) (xs : List (List Byte)) : Res St := do
  let st' ← appendAll c st xs
  let f ← rotate c.s st'.file p st.vused st'.vused
  return { st' with file := f }

/-- mmap_vec.h:133-165 `insert` of a forward range. -/
def insertFwd (c : Cfg) (st : St) (p : Nat) (xs : List (List Byte)) : Res St :=
  if st.vused = 0 then set c st xs
  else do
    let st ← reserve c st (st.vused + xs.length)
    let f ← shift c.s p xs.length st.file (st.vused - p)
    let f ← writeSeq c.s f p xs
    return { st with file := f, vused := st.vused + xs.length }

/-- Assigning to `v[i]`. -/
def put (c : Cfg) (st : St) (i : Nat) (x : List Byte) : Res St := do
  require (decide (i < st.vused))
  let f ← write c.s st.file i x
  return { st with file := f }

inductive Op where
  | pushBack (x : List Byte)
  | emplaceBack (x : List Byte)
  | resize (n : Nat)
  | reserve (n : Nat)
  | set (xs : List (List Byte))
  | insert (p : Nat) (x : List Byte)
  | insertInput (p : Nat) (xs : List (List Byte))
  | insertFwd (p : Nat) (xs : List (List Byte))
  | put (i : Nat) (x : List Byte)
  /-- destroy the vector and its mapping, open the file again -/
  | reopen

def Op.exec (c : Cfg) (st : St) : Op → Res St
  | .pushBack x => MmapVec.pushBack c st x
  | .emplaceBack x => MmapVec.emplaceBack c st x
  | .resize n => MmapVec.resize c st n
  | .reserve n => MmapVec.reserve c st n
  | .set xs => MmapVec.set c st xs
  | .insert p x => MmapVec.insert1 c st p x
  | .insertInput p xs => MmapVec.insertInput c st p xs
  | .insertFwd p xs => MmapVec.insertFwd c st p xs
  | .put i x => MmapVec.put c st i x
  | .reopen => .ok (openFile c (close c st).1 (close c st).2)

def run (c : Cfg) : St → List Op → Res St
  | st, [] => .ok st
  | st, op :: ops => do
    let st ← op.exec c st
    run c st ops

/-! ## Specification: a list of elements that survives reopening -/

def Op.spec (c : Cfg) (C : List (List Byte)) : Op → List (List Byte)
  | .pushBack x => C ++ [x]
  | .emplaceBack x => C ++ [x]
  | .resize n => C.take n ++ List.replicate (n - C.length) c.zero
  | .reserve _ => C
  | .set xs => xs
  | .insert p x => C.take p ++ [x] ++ C.drop p
  | .insertInput p xs => C.take p ++ xs ++ C.drop p
  | .insertFwd p xs => C.take p ++ xs ++ C.drop p
  | .put i x => C.set i x
  | .reopen => C

/-- Whether an explicit `reserve` for another number of elements is still in force: it is ended by any operation that
requests memory for the actual elements. -/
def Op.pend (C : List (List Byte)) (b : Bool) : Op → Bool
  | .reserve n => decide (n ≠ C.length)
  | .insertInput _ xs => b && xs.isEmpty
  | .put _ _ => b
  | .reopen => b
  | _ => false

def Op.Pre (c : Cfg) (C : List (List Byte)) (b : Bool) : Op → Prop
  | .pushBack x => x.length = c.s ∧ c.s * (C.length + 1) ≤ 2 ^ 63
  | .emplaceBack x => x.length = c.s ∧ c.s * (C.length + 1) ≤ 2 ^ 63
  | .resize n => c.s * n ≤ 2 ^ 63
  | .reserve n => c.s * n ≤ 2 ^ 63
  | .set xs => (∀ x ∈ xs, x.length = c.s) ∧ c.s * xs.length ≤ 2 ^ 63
  | .insert p x => p ≤ C.length ∧ x.length = c.s ∧ c.s * (C.length + 1) ≤ 2 ^ 63
  | .insertInput p xs => p ≤ C.length ∧ (∀ x ∈ xs, x.length = c.s) ∧ c.s * (C.length + xs.length) ≤ 2 ^ 63
  | .insertFwd p xs => p ≤ C.length ∧ (∀ x ∈ xs, x.length = c.s) ∧ c.s * (C.length + xs.length) ≤ 2 ^ 63
  | .put i x => i < C.length ∧ x.length = c.s
  | .reopen => b = false

def specRun (c : Cfg) : List (List Byte) → List Op → List (List Byte)
  | C, [] => C
  | C, op :: ops => specRun c (op.spec c C) ops

def pendRun (c : Cfg) : List (List Byte) → Bool → List Op → Bool
  | _, b, [] => b
  | C, b, op :: ops => pendRun c (op.spec c C) (op.pend C b) ops

def Allowed (c : Cfg) : List (List Byte) → Bool → List Op → Prop
  | _, _, [] => True
  | C, b, op :: ops => op.Pre c C b ∧ Allowed c (op.spec c C) (op.pend C b) ops

/-! ## Elements of a byte list -/

theorem elAt_get (s : Nat) (f : List Byte) (i k : Nat) (hk : k < s) : (elAt s f i)[k]? = f[i * s + k]? := by
  rw [elAt, List.getElem?_take, if_pos hk, List.getElem?_drop]

theorem elAt_length (s : Nat) (f : List Byte) (i : Nat) (h : (i + 1) * s ≤ f.length) : (elAt s f i).length = s := by
  rw [Nat.add_mul, Nat.one_mul] at h
  simp [elAt]; omega

theorem ext_s {s : Nat} {x y : List Byte} (hx : x.length = s) (hy : y.length = s)
    (h : ∀ k, k < s → x[k]? = y[k]?) : x = y := by
  apply List.ext_getElem?
  intro k
  by_cases hk : k < s
  · exact h k hk
  · rw [List.getElem?_eq_none (by omega), List.getElem?_eq_none (by omega)]

theorem idx_le {i n s : Nat} (h : i < n) : (i + 1) * s ≤ n * s := Nat.mul_le_mul_right s h

theorem write_ok {s : Nat} {f : List Byte} {j : Nat} {x : List Byte} (hj : (j + 1) * s ≤ f.length) (hx : x.length = s) :
    ∃ f', write s f j x = .ok f' ∧ f'.length = f.length ∧
      ∀ i, (i + 1) * s ≤ f.length → elAt s f' i = if i = j then x else elAt s f i := by
  have hj' : j * s + x.length ≤ f.length := by rw [Nat.add_mul, Nat.one_mul] at hj; omega
  have hlen := MM.blit_length f (j * s) x hj'
  refine ⟨MM.blit f (j * s) x, by simp only [write, hj, decide_true, require_true, ok_bind, pure_ok], hlen, fun i hi => ?_⟩
  apply ext_s (elAt_length _ _ _ (by rw [hlen]; exact hi))
  · split
    · exact hx
    · exact elAt_length _ _ _ hi
  · intro k hk
    rw [elAt_get _ _ _ _ hk, MM.blit_get _ _ _ hj']
    by_cases hij : i = j
    · subst hij
      rw [if_pos ⟨by omega, by omega⟩, if_pos rfl]
      congr 1; omega
    · rw [if_neg hij, if_neg, elAt_get _ _ _ _ hk]
      rintro ⟨h1, h2⟩
      rcases Nat.lt_or_ge i j with h | h
      · have := idx_le (s := s) h
        rw [Nat.add_mul, Nat.one_mul] at this; omega
      · have := idx_le (s := s) (show j < i by omega)
        rw [Nat.add_mul, Nat.one_mul] at this; omega

theorem writeSeq_ok {s : Nat} : ∀ (xs : List (List Byte)) {f : List Byte} {p : Nat}, (p + xs.length) * s ≤ f.length →
    (∀ x ∈ xs, x.length = s) → ∃ f', writeSeq s f p xs = .ok f' ∧ f'.length = f.length ∧
      ∀ i, (i + 1) * s ≤ f.length → elAt s f' i = if i < p then elAt s f i else (xs[i - p]?).getD (elAt s f i)
  | [], f, p, _, _ => ⟨f, rfl, rfl, fun i _ => by simp⟩
  | x :: xs, f, p, h, hx => by
    rw [List.length_cons] at h
    have h1 : (p + 1) * s ≤ f.length := Nat.le_trans (Nat.mul_le_mul_right s (by omega)) h
    obtain ⟨f1, e1, l1, g1⟩ := write_ok h1 (hx x (by simp))
    obtain ⟨f2, e2, l2, g2⟩ := writeSeq_ok xs (f := f1) (p := p + 1) (by
      rw [l1, show p + 1 + xs.length = p + (xs.length + 1) by omega]; exact h) (fun y hy => hx y (by simp [hy]))
    refine ⟨f2, by simp only [writeSeq, e1, ok_bind, e2], by rw [l2, l1], fun i hi => ?_⟩
    rw [g2 i (by rw [l1]; exact hi)]
    by_cases h1 : i < p
    · rw [if_pos (by omega), if_pos h1, g1 i hi, if_neg (by omega)]
    · rw [if_neg h1]
      by_cases h2 : i = p
      · subst h2
        rw [if_pos (by omega), g1 i hi, if_pos rfl]; simp
      · rw [if_neg (by omega), g1 i hi, if_neg h2, show i - p = (i - (p + 1)) + 1 by omega, List.getElem?_cons_succ]

theorem shift_ok {s src n : Nat} : ∀ (k : Nat) {f : List Byte}, (src + k + n) * s ≤ f.length →
    ∃ f', shift s src n f k = .ok f' ∧ f'.length = f.length ∧
      ∀ i, (i + 1) * s ≤ f.length → elAt s f' i = if src + n ≤ i ∧ i < src + n + k then elAt s f (i - n) else elAt s f i
  | 0, f, _ => ⟨f, rfl, rfl, fun i _ => by rw [if_neg (by omega)]⟩
  | k + 1, f, h => by
    have h0 : (src + k + 1) * s ≤ f.length := Nat.le_trans (Nat.mul_le_mul_right s (by omega)) h
    have h1 : (src + k + n + 1) * s ≤ f.length := Nat.le_trans (Nat.mul_le_mul_right s (by omega)) h
    obtain ⟨f1, e1, l1, g1⟩ := write_ok h1 (elAt_length s f (src + k) h0)
    obtain ⟨f2, e2, l2, g2⟩ := shift_ok (s := s) (src := src) (n := n) k (f := f1) (by
      rw [l1]; exact Nat.le_trans (Nat.mul_le_mul_right s (by omega)) h)
    refine ⟨f2, by simp only [shift, h0, decide_true, require_true, ok_bind, e1, e2], by rw [l2, l1], fun i hi => ?_⟩
    rw [g2 i (by rw [l1]; exact hi)]
    by_cases hc : src + n ≤ i ∧ i < src + n + k
    · have hi' : (i - n + 1) * s ≤ f.length := Nat.le_trans (Nat.mul_le_mul_right s (by omega)) hi
      rw [if_pos hc, if_pos (by omega), g1 _ hi']
      split
      · rename_i he; omega
      · rfl
    · rw [if_neg hc, g1 i hi]
      by_cases he : i = src + k + n
      · rw [if_pos he, if_pos (by omega), show i - n = src + k by omega]
      · rw [if_neg he, if_neg (by omega)]

/-! ## Invariant -/

/-- The first elements of the file are `C`. -/
def Holds (s : Nat) (f : List Byte) (C : List (List Byte)) : Prop :=
  ∀ i x, C[i]? = some x → elAt s f i = x

structure Inv (c : Cfg) (st : St) (C : List (List Byte)) (b : Bool) : Prop where
  vused : st.vused = C.length
  els : ∀ x ∈ C, x.length = c.s
  fits : C.length * c.s ≤ st.size
  flen : st.file.length = st.size
  map : st.mapped = decide (st.size ≠ 0)
  used : b = false → st.used = C.length * c.s
  usedLe : st.used ≤ st.size
  holds : Holds c.s st.file C

theorem np2_ge {n : Nat} (h0 : n ≠ 0) (h : n ≤ 2 ^ 63) : n ≤ np2 n := by
  have hn : (BitVec.ofNat 64 n).toNat = n := by
    rw [BitVec.toNat_ofNat, Nat.mod_eq_of_lt (Nat.lt_of_le_of_lt h (by decide))]
  obtain ⟨k, e, hle, _⟩ := Arith.C01_next_power_of_two_least (w := 64) (Or.inr (Or.inr (Or.inr rfl))) (BitVec.ofNat 64 n) (by
    intro h'; rw [h'] at hn; simp at hn; omega) (by rw [hn]; exact h)
  unfold np2
  rw [e]; omega

theorem ftruncate_length (f : List Byte) (n : Nat) : (ftruncate f n).length = n := by simp [ftruncate]; omega

theorem ftruncate_holds {s : Nat} {f : List Byte} {C : List (List Byte)} {n : Nat} (h : Holds s f C)
    (hf : C.length * s ≤ f.length) (hn : C.length * s ≤ n) : Holds s (ftruncate f n) C := by
  intro i x hi
  rw [← h i x hi]
  have hil := (List.getElem?_eq_some_iff.1 hi).1
  have h1 := idx_le (s := s) hil
  apply ext_s (s := s)
  · exact elAt_length _ _ _ (by rw [ftruncate_length]; omega)
  · exact elAt_length _ _ _ (by omega)
  · intro k hk
    rw [elAt_get _ _ _ _ hk, elAt_get _ _ _ _ hk, ftruncate]
    rw [Nat.add_mul, Nat.one_mul] at h1
    rw [List.getElem?_append_left (by simp; omega), List.getElem?_take, if_pos (by omega)]

theorem mmapResize_ok {c : Cfg} {st : St} {C : List (List Byte)} {b : Bool} (h : Inv c st C b) {n : Nat}
    (hn : n ≤ 2 ^ 63) : ∃ st', mmapResize st n = .ok st' ∧ st'.vused = st.vused ∧ n ≤ st'.size ∧ st'.used = n ∧
      C.length * c.s ≤ st'.size ∧ st'.file.length = st'.size ∧ st'.mapped = decide (st'.size ≠ 0) ∧
      Holds c.s st'.file C := by
  unfold mmapResize
  by_cases hs : st.size < n
  · have hge := np2_ge (n := n) (by omega) hn
    have hne : np2 n ≠ 0 := by omega
    rw [if_pos hs]
    refine ⟨{ st with file := ftruncate st.file (np2 n), size := np2 n, mapped := true, used := n },
      by simp only [resizeMap, hne, if_false, ok_bind, pure_ok], rfl, hge, rfl, ?_, ?_, ?_, ?_⟩
    · have := h.fits; show C.length * c.s ≤ np2 n; omega
    · exact ftruncate_length _ _
    · simp [hne]
    · exact ftruncate_holds h.holds (by rw [h.flen]; exact h.fits) (by have := h.fits; omega)
  · rw [if_neg hs]
    exact ⟨_, rfl, rfl, by show n ≤ st.size; omega, rfl, h.fits, h.flen, h.map, h.holds⟩

/-- Reassembling the invariant after memory was provided for `C'` and the file rewritten. -/
theorem Inv.mk' {c : Cfg} {st : St} {C' : List (List Byte)} (hv : st.vused = C'.length) (hE : ∀ x ∈ C', x.length = c.s)
    (hu : st.used = C'.length * c.s) (hs : st.used ≤ st.size) (hl : st.file.length = st.size)
    (hm : st.mapped = decide (st.size ≠ 0)) (hh : Holds c.s st.file C') (b : Bool) : Inv c st C' b :=
  ⟨hv, hE, by omega, hl, hm, fun _ => hu, hs, hh⟩

theorem Inv.emplace {c : Cfg} {st : St} {C : List (List Byte)} {b : Bool} (h : Inv c st C b) {x : List Byte}
    (hx : x.length = c.s) (hn : c.s * (C.length + 1) ≤ 2 ^ 63) :
    ∃ st', emplaceBack c st x = .ok st' ∧ Inv c st' (C ++ [x]) false := by
  rw [Nat.mul_comm] at hn
  obtain ⟨s1, e1, v1, n1, u1, f1, l1, m1, h1⟩ := mmapResize_ok h hn
  obtain ⟨f2, e2, l2, g2⟩ := write_ok (s := c.s) (f := s1.file) (j := C.length) (by rw [l1]; exact n1) hx
  refine ⟨{ s1 with file := f2, vused := s1.vused + 1 }, ?_, Inv.mk' ?_ ?_ ?_ ?_ ?_ (by exact m1) ?_ _⟩
  · simp only [emplaceBack, reserve, h.vused, e1, ok_bind, v1, e2, pure_ok]
  · simp [v1, h.vused]
  · intro y hy
    rcases List.mem_append.1 hy with hy | hy
    · exact h.els y hy
    · simp at hy; rw [hy]; exact hx
  · show s1.used = _; rw [u1]; simp
  · show s1.used ≤ s1.size; omega
  · show f2.length = s1.size; rw [l2, l1]
  · intro i y hi
    have hil := (List.getElem?_eq_some_iff.1 hi).1
    simp at hil
    rw [g2 i (by rw [l1]; exact Nat.le_trans (Nat.mul_le_mul_right c.s hil) n1)]
    by_cases he : i = C.length
    · subst he; simp at hi; rw [if_pos rfl]; exact hi
    · rw [if_neg he]
      rw [List.getElem?_append_left (by omega)] at hi
      exact h1 i y hi

theorem Inv.push {c : Cfg} {st : St} {C : List (List Byte)} {b : Bool} (h : Inv c st C b) {x : List Byte}
    (hx : x.length = c.s) (hn : c.s * (C.length + 1) ≤ 2 ^ 63) :
    ∃ st', pushBack c st x = .ok st' ∧ Inv c st' (C ++ [x]) false := by
  obtain ⟨st', e, h'⟩ := h.emplace hx hn
  refine ⟨st', ?_, h'⟩
  have : ∀ n v, mmapResize { st with vused := v } n =
      (mmapResize st n).bind fun st' => .ok { st' with vused := v } := by
    intro n v
    unfold mmapResize resizeMap
    split
    · split <;> rfl
    · rfl
  rw [← e, pushBack, emplaceBack, this, reserve, Nat.mul_comm c.s]
  obtain ⟨s1, e1, v1, _⟩ := mmapResize_ok h (n := (st.vused + 1) * c.s) (by rw [h.vused, Nat.mul_comm]; exact hn)
  rw [e1]
  simp only [Except.bind, ok_bind, v1, Nat.add_sub_cancel]

theorem Inv.app {c : Cfg} : ∀ (xs : List (List Byte)) {st : St} {C : List (List Byte)} {b : Bool}, Inv c st C b →
    (∀ x ∈ xs, x.length = c.s) → c.s * (C.length + xs.length) ≤ 2 ^ 63 →
    ∃ st', appendAll c st xs = .ok st' ∧ Inv c st' (C ++ xs) (b && xs.isEmpty)
  | [], st, C, b, h, _, _ => ⟨st, rfl, by simpa using h⟩
  | x :: xs, st, C, b, h, hx, hn => by
    rw [List.length_cons] at hn
    obtain ⟨s1, e1, h1⟩ := h.emplace (hx x (by simp)) (Nat.le_trans (Nat.mul_le_mul_left c.s (by omega)) hn)
    obtain ⟨s2, e2, h2⟩ := Inv.app xs h1 (fun y hy => hx y (by simp [hy])) (by
      rw [List.length_append, List.length_singleton, show C.length + 1 + xs.length = C.length + (xs.length + 1) by omega]
      exact hn)
    exact ⟨s2, by simp only [appendAll, e1, ok_bind, e2], by simpa using h2⟩

theorem holds_elems {s : Nat} {f : List Byte} {C : List (List Byte)} (h : Holds s f C) {a n : Nat} (hn : a + n ≤ C.length) :
    (List.range' a n).map (elAt s f) = (C.drop a).take n := by
  apply List.ext_getElem?
  intro k
  rw [List.getElem?_map, List.getElem?_take, List.getElem?_drop]
  by_cases hk : k < n
  · rw [if_pos hk, List.getElem?_range' hk]
    have hl : a + k < C.length := by omega
    rw [List.getElem?_eq_getElem hl, Option.map_some, Nat.one_mul, h _ _ (List.getElem?_eq_getElem hl)]
  · rw [if_neg hk, List.getElem?_eq_none (by simpa using hk)]; rfl

theorem rotate_ok {c : Cfg} {st : St} {C D : List (List Byte)} {b : Bool} (h : Inv c st (C ++ D) b) {p : Nat}
    (hp : p ≤ C.length) : ∃ f', rotate c.s st.file p C.length (C.length + D.length) = .ok f' ∧
      Inv c { st with file := f' } (C.take p ++ D ++ C.drop p) b := by
  have e1 : (List.range' C.length (C.length + D.length - C.length)).map (elAt c.s st.file) = D := by
    rw [holds_elems h.holds (by simp)]; simp
  have e2 : (List.range' p (C.length - p)).map (elAt c.s st.file) = C.drop p := by
    rw [holds_elems h.holds (by simp; omega), List.drop_append_of_le_length hp, List.take_left' (by simp)]
  have hlen : (C.take p ++ D ++ C.drop p).length = (C ++ D).length := by simp; omega
  have hfit := h.fits
  have hE : ∀ x ∈ D ++ C.drop p, x.length = c.s := by
    intro x hx
    apply h.els
    rcases List.mem_append.1 hx with hx | hx
    · exact List.mem_append_right _ hx
    · exact List.mem_append_left _ (List.mem_of_mem_drop hx)
  obtain ⟨f', e, l, g⟩ := writeSeq_ok (s := c.s) (D ++ C.drop p) (f := st.file) (p := p) (by
    rw [h.flen]; refine Nat.le_trans (Nat.le_of_eq ?_) hfit; congr 1; simp; omega) hE
  refine ⟨f', by rw [rotate, e1, e2, e], ?_, ?_, ?_, ?_, h.map, ?_, h.usedLe, ?_⟩
  · rw [hlen]; exact h.vused
  · intro x hx
    rw [List.append_assoc] at hx
    rcases List.mem_append.1 hx with hx | hx
    · exact h.els x (List.mem_append_left _ (List.mem_of_mem_take hx))
    · exact hE x hx
  · rw [hlen]; exact hfit
  · show f'.length = st.size; rw [l, h.flen]
  · rw [hlen]; exact h.used
  · intro i x hi
    have hil := (List.getElem?_eq_some_iff.1 hi).1
    rw [hlen] at hil
    show elAt c.s f' i = x
    rw [g i (by rw [h.flen]; exact Nat.le_trans (idx_le hil) hfit)]
    rw [List.append_assoc] at hi
    by_cases hip : i < p
    · rw [if_pos hip]
      rw [List.getElem?_append_left (by simp; omega), List.getElem?_take, if_pos hip] at hi
      exact h.holds i x (by rw [List.getElem?_append_left (by omega)]; exact hi)
    · rw [if_neg hip]
      rw [List.getElem?_append_right (by simp; omega), List.length_take, Nat.min_eq_left hp] at hi
      rw [hi]; rfl

theorem ins_get {C xs : List (List Byte)} {p i : Nat} (hp : p ≤ C.length) {x : List Byte}
    (h : (C.take p ++ xs ++ C.drop p)[i]? = some x) :
    (i < p ∧ C[i]? = some x) ∨ (p ≤ i ∧ xs[i - p]? = some x) ∨
      (p + xs.length ≤ i ∧ i < C.length + xs.length ∧ C[i - xs.length]? = some x) := by
  have hil := (List.getElem?_eq_some_iff.1 h).1
  simp at hil
  rw [List.append_assoc] at h
  by_cases h1 : i < p
  · rw [List.getElem?_append_left (by simp; omega), List.getElem?_take, if_pos h1] at h
    exact Or.inl ⟨h1, h⟩
  · rw [List.getElem?_append_right (by simp; omega), List.length_take, Nat.min_eq_left hp] at h
    by_cases h2 : i - p < xs.length
    · rw [List.getElem?_append_left h2] at h
      exact Or.inr (Or.inl ⟨by omega, h⟩)
    · rw [List.getElem?_append_right (by omega), List.getElem?_drop] at h
      refine Or.inr (Or.inr ⟨by omega, by omega, ?_⟩)
      rw [show i - xs.length = p + (i - p - xs.length) by omega]; exact h

theorem Inv.setAll {c : Cfg} {st : St} {C : List (List Byte)} {b : Bool} (h : Inv c st C b) {xs : List (List Byte)}
    (hx : ∀ x ∈ xs, x.length = c.s) (hn : c.s * xs.length ≤ 2 ^ 63) :
    ∃ st', MmapVec.set c st xs = .ok st' ∧ Inv c st' xs false := by
  rw [Nat.mul_comm] at hn
  obtain ⟨s1, e1, v1, n1, u1, f1, l1, m1, h1⟩ := mmapResize_ok h hn
  obtain ⟨f2, e2, l2, g2⟩ := writeSeq_ok (s := c.s) xs (f := s1.file) (p := 0) (by rw [l1, Nat.zero_add]; exact n1) hx
  refine ⟨{ s1 with file := f2, vused := xs.length }, by simp only [MmapVec.set, reserve, e1, ok_bind, e2, pure_ok],
    Inv.mk' (by rfl) hx (by exact u1) (by show s1.used ≤ s1.size; omega)
      (by show f2.length = s1.size; rw [l2, l1]) (by exact m1) ?_ _⟩
  intro i x hi
  have hil := (List.getElem?_eq_some_iff.1 hi).1
  rw [g2 i (by rw [l1]; exact Nat.le_trans (idx_le hil) n1), if_neg (by omega), Nat.sub_zero, hi]; rfl

theorem exec_ok {c : Cfg} (hs : 0 < c.s) (hz : c.zero.length = c.s) {st : St} {C : List (List Byte)} {b : Bool}
    (h : Inv c st C b) {op : Op} (hp : op.Pre c C b) :
    ∃ st', op.exec c st = .ok st' ∧ Inv c st' (op.spec c C) (op.pend C b) := by
  cases op with
  | pushBack x => exact h.push hp.1 hp.2
  | emplaceBack x => exact h.emplace hp.1 hp.2
  | reserve n =>
    have hn : n * c.s ≤ 2 ^ 63 := by rw [Nat.mul_comm]; exact hp
    obtain ⟨s1, e1, v1, n1, u1, f1, l1, m1, h1⟩ := mmapResize_ok h hn
    refine ⟨s1, e1, by rw [v1]; exact h.vused, h.els, f1, l1, m1, ?_, by omega, h1⟩
    intro hb
    simp only [Op.pend, decide_eq_false_iff_not, Decidable.not_not] at hb
    rw [u1, hb]
    rfl
  | resize n =>
    have hn : n * c.s ≤ 2 ^ 63 := by rw [Nat.mul_comm]; exact hp
    obtain ⟨s1, e1, v1, n1, u1, f1, l1, m1, h1⟩ := mmapResize_ok h hn
    have hfit : (C.length + (n - C.length)) * c.s ≤ s1.size := by
      by_cases hc : C.length ≤ n
      · rw [show C.length + (n - C.length) = n by omega]; exact n1
      · rw [show C.length + (n - C.length) = C.length by omega]; exact f1
    obtain ⟨f2, e2, l2, g2⟩ := writeSeq_ok (s := c.s) (List.replicate (n - C.length) c.zero) (f := s1.file)
      (p := C.length) (by rw [l1, List.length_replicate]; exact hfit) (by
        intro x hx; rw [(List.mem_replicate.1 hx).2]; exact hz)
    refine ⟨{ s1 with file := f2, vused := n }, ?_, Inv.mk' ?_ ?_ ?_ ?_ ?_ (by exact m1) ?_ _⟩
    · simp only [Op.exec, MmapVec.resize, e1, ok_bind, v1, h.vused, e2, pure_ok]
    · simp [Op.spec]; omega
    · intro x hx
      rcases List.mem_append.1 hx with hx | hx
      · exact h.els x (List.mem_of_mem_take hx)
      · rw [(List.mem_replicate.1 hx).2]; exact hz
    · show s1.used = _
      rw [u1]; congr 1; simp [Op.spec]; omega
    · show s1.used ≤ s1.size; omega
    · show f2.length = s1.size; rw [l2, l1]
    · intro i x hi
      have hil := (List.getElem?_eq_some_iff.1 hi).1
      simp [Op.spec] at hil
      show elAt c.s f2 i = x
      rw [g2 i (by rw [l1]; exact Nat.le_trans (Nat.mul_le_mul_right c.s (show i + 1 ≤ n by omega)) n1)]
      simp only [Op.spec] at hi
      by_cases hc : i < C.length
      · rw [if_pos hc]
        rw [List.getElem?_append_left (by simp; omega), List.getElem?_take, if_pos (by omega)] at hi
        exact h1 i x hi
      · rw [if_neg hc]
        rw [List.getElem?_append_right (by simp; omega)] at hi
        simp only [List.length_take] at hi
        rw [show min n C.length = C.length by omega] at hi
        rw [hi]; rfl
  | set xs => exact h.setAll hp.1 hp.2
  | insert p x =>
    obtain ⟨h1, h2, h3⟩ := hp
    obtain ⟨s1, e1, i1⟩ := h.emplace h2 h3
    obtain ⟨f, e2, i2⟩ := rotate_ok i1 h1
    have hv : s1.vused = C.length + [x].length := by rw [i1.vused]; simp
    exact ⟨_, by simp only [Op.exec, insert1, e1, ok_bind, h.vused, hv, e2, pure_ok], i2⟩
  | insertInput p xs =>
    obtain ⟨h1, h2, h3⟩ := hp
    obtain ⟨s1, e1, i1⟩ := h.app xs h2 h3
    obtain ⟨f, e2, i2⟩ := rotate_ok i1 h1
    have hv : s1.vused = C.length + xs.length := by rw [i1.vused]; simp
    exact ⟨_, by simp only [Op.exec, MmapVec.insertInput, e1, ok_bind, h.vused, hv, e2, pure_ok], i2⟩
  | insertFwd p xs =>
    obtain ⟨h1, h2, h3⟩ := hp
    by_cases hc : st.vused = 0
    · have hC : C = [] := by rw [h.vused] at hc; exact List.length_eq_zero_iff.1 hc
      subst hC
      have hp0 : p = 0 := by simpa using h1
      subst hp0
      obtain ⟨s1, e1, i1⟩ := h.setAll h2 (by simpa using h3)
      exact ⟨s1, by simp only [Op.exec, MmapVec.insertFwd, hc, if_true, e1], by simpa [Op.spec, Op.pend] using i1⟩
    · have hn : (C.length + xs.length) * c.s ≤ 2 ^ 63 := by rw [Nat.mul_comm]; exact h3
      obtain ⟨s1, e1, v1, n1, u1, f1, l1, m1, hh⟩ := mmapResize_ok h hn
      obtain ⟨f2, e2, l2, g2⟩ := shift_ok (s := c.s) (src := p) (n := xs.length) (C.length - p) (f := s1.file) (by
        rw [l1]; refine Nat.le_trans (Nat.mul_le_mul_right c.s ?_) n1; omega)
      obtain ⟨f3, e3, l3, g3⟩ := writeSeq_ok (s := c.s) xs (f := f2) (p := p) (by
        rw [l2, l1]; refine Nat.le_trans (Nat.mul_le_mul_right c.s ?_) n1; omega) h2
      have hlen : (C.take p ++ xs ++ C.drop p).length = C.length + xs.length := by simp; omega
      refine ⟨{ s1 with file := f3, vused := C.length + xs.length }, ?_, Inv.mk' (by exact hlen.symm) ?_ ?_ ?_ ?_ (by exact m1) ?_ _⟩
      · have hc' : ¬ C.length = 0 := by rw [← h.vused]; exact hc
        simp only [Op.exec, MmapVec.insertFwd, hc', if_false, reserve, h.vused, e1, ok_bind, v1, e2, e3, pure_ok]
      · intro x hx
        simp only [Op.spec, List.mem_append] at hx
        rcases hx with (hx | hx) | hx
        · exact h.els x (List.mem_of_mem_take hx)
        · exact h2 x hx
        · exact h.els x (List.mem_of_mem_drop hx)
      · show s1.used = (C.take p ++ xs ++ C.drop p).length * c.s
        rw [u1, hlen]
      · show s1.used ≤ s1.size; omega
      · show f3.length = s1.size; rw [l3, l2, l1]
      · intro i x hi
        have hil := (List.getElem?_eq_some_iff.1 hi).1
        rw [show (Op.insertFwd p xs).spec c C = C.take p ++ xs ++ C.drop p from rfl, hlen] at hil
        have hb : (i + 1) * c.s ≤ s1.file.length := by rw [l1]; exact Nat.le_trans (idx_le hil) n1
        show elAt c.s f3 i = x
        rw [g3 i (by rw [l2]; exact hb)]
        rcases ins_get h1 hi with ⟨hip, hx⟩ | ⟨hip, hx⟩ | ⟨hip, hlt, hx⟩
        · rw [if_pos hip, g2 i hb, if_neg (by omega)]; exact hh i x hx
        · rw [if_neg (by omega), hx]; rfl
        · rw [if_neg (by omega), List.getElem?_eq_none (by omega), Option.getD_none, g2 i hb, if_pos (by omega)]
          exact hh _ x hx
  | put i x =>
    obtain ⟨h1, h2⟩ := hp
    obtain ⟨f, e, l, g⟩ := write_ok (s := c.s) (f := st.file) (j := i) (by
      rw [h.flen]; exact Nat.le_trans (idx_le h1) h.fits) h2
    have hi' : i < st.vused := by rw [h.vused]; exact h1
    refine ⟨{ st with file := f }, ?_, ?_, ?_, ?_, ?_, h.map, ?_, h.usedLe, ?_⟩
    · simp only [Op.exec, MmapVec.put, hi', decide_true, require_true, ok_bind, e, pure_ok]
    · simp only [Op.spec, List.length_set]; exact h.vused
    · intro y hy
      rcases List.mem_or_eq_of_mem_set hy with hy | hy
      · exact h.els y hy
      · rw [hy]; exact h2
    · simp only [Op.spec, List.length_set]; exact h.fits
    · show f.length = st.size; rw [l, h.flen]
    · intro hb
      simp only [Op.spec, List.length_set]; exact h.used hb
    · intro j y hj
      have hjl := (List.getElem?_eq_some_iff.1 hj).1
      simp only [Op.spec, List.length_set] at hjl
      show elAt c.s f j = y
      rw [g j (by rw [h.flen]; exact Nat.le_trans (idx_le hjl) h.fits)]
      simp only [Op.spec] at hj
      by_cases he : j = i
      · subst he
        rw [List.getElem?_set_self hjl] at hj
        rw [if_pos rfl]; exact Option.some.inj hj
      · rw [if_neg he]
        rw [List.getElem?_set_ne (fun h' => he h'.symm)] at hj
        exact h.holds j y hj
  | reopen =>
    have hu := h.used hp
    have hf : (close c st).1 = ftruncate st.file (C.length * c.s) := by
      unfold close
      split
      · rw [hu]
      · rename_i hm
        have hz : st.size = 0 := by
          have := h.map; simp only [Bool.not_eq_true] at hm; rw [hm] at this
          exact Decidable.not_not.1 (of_decide_eq_false this.symm)
        have h1 : st.file = [] := List.length_eq_zero_iff.1 (by rw [h.flen, hz])
        have h2 : C.length * c.s = 0 := by have := h.fits; omega
        rw [h1, h2]; rfl
    have hl : (close c st).1.length = C.length * c.s := by rw [hf, ftruncate_length]
    refine ⟨_, rfl, ?_, h.els, ?_, rfl, rfl, fun _ => hl, Nat.le_refl _, ?_⟩
    · show (close c st).1.length / c.s = C.length
      rw [hl, Nat.mul_div_cancel _ hs]
    · show C.length * c.s ≤ (close c st).1.length
      rw [hl]; exact Nat.le_refl _
    · show Holds c.s (close c st).1 C
      rw [hf]
      exact ftruncate_holds h.holds (by rw [h.flen]; exact h.fits) (Nat.le_refl _)

theorem run_ok {c : Cfg} (hs : 0 < c.s) (hz : c.zero.length = c.s) : ∀ (ops : List Op) {st : St} {C : List (List Byte)}
    {b : Bool}, Inv c st C b → Allowed c C b ops →
    ∃ st', run c st ops = .ok st' ∧ Inv c st' (specRun c C ops) (pendRun c C b ops)
  | [], st, C, b, h, _ => ⟨st, rfl, h⟩
  | op :: ops, st, C, b, h, ha => by
    obtain ⟨v1, e1, h1⟩ := exec_ok hs hz h ha.1
    obtain ⟨v2, e2, h2⟩ := run_ok hs hz ops h1 ha.2
    exact ⟨v2, by simp only [run, e1, ok_bind, e2], h2⟩

/-- A new file (`"w+"`). -/
def fresh : St := { file := [], size := 0, used := 0, mapped := false, vused := 0, leaked := 0 }

theorem fresh_inv (c : Cfg) : Inv c fresh [] false :=
  ⟨rfl, by simp, by simp [fresh], rfl, rfl, fun _ => by simp [fresh], Nat.le_refl _, by intro i x h; simp at h⟩

/-- **C46**: for every history of `push_back`, `emplace_back`, `resize`, `reserve`, `set`, the three `insert`s, element writes and
close/reopen on a file, the vector's size and elements are those of the list specification, in which reopening changes
nothing.  Partial: a close/reopen while an explicit `reserve` for another size is still in force is excluded
(`C46_reserve_violated`). -/
theorem C46_history_partial {c : Cfg} (hs : 0 < c.s) (hz : c.zero.length = c.s) (ops : List Op)
    (ha : Allowed c [] false ops) :
    ∃ st, run c fresh ops = .ok st ∧ st.vused = (specRun c [] ops).length ∧
      ∀ (i : Nat) (x : List Byte), (specRun c [] ops)[i]? = some x → st.get c i = .ok x := by
  obtain ⟨st, e, h⟩ := run_ok hs hz ops (fresh_inv c) ha
  refine ⟨st, e, h.vused, fun i x hi => ?_⟩
  have hil := (List.getElem?_eq_some_iff.1 hi).1
  have h1 : i < st.vused := by rw [h.vused]; exact hil
  have h2 : (i + 1) * c.s ≤ st.file.length := by rw [h.flen]; exact Nat.le_trans (idx_le hil) h.fits
  simp only [St.get, h1, h2, and_self, decide_true, require_true, ok_bind, pure_ok, h.holds i x hi]

/-- **C46**: closing leaves a file that consists of exactly the bytes of the elements. -/
theorem C46_file {c : Cfg} (hs : 0 < c.s) (hz : c.zero.length = c.s) (ops : List Op)
    (ha : Allowed c [] false ops) (hb : pendRun c [] false ops = false) :
    ∃ st, run c fresh ops = .ok st ∧ (close c st).1 = (specRun c [] ops).flatten := by
  obtain ⟨st, e, h⟩ := run_ok hs hz ops (fresh_inv c) ha
  refine ⟨st, e, ?_⟩
  generalize specRun c [] ops = C at h
  rw [hb] at h
  obtain ⟨st', e', h'⟩ := exec_ok hs hz h (op := .reopen) rfl
  obtain rfl : st' = openFile c (close c st).1 (close c st).2 := by simpa [Op.exec] using e'.symm
  have hl : (close c st).1.length = C.length * c.s := h'.used rfl
  have hh : Holds c.s (close c st).1 C := h'.holds
  have hE := h.els
  generalize (close c st).1 = f at hl hh
  clear h h' e'
  clear e
  induction C generalizing f with
  | nil => simp at hl; simp [hl]
  | cons y C ih =>
    have h0 := hh 0 y rfl
    have hr := ih (fun x hx => hE x (by simp [hx])) (f.drop c.s) (by
      rw [List.length_drop, hl, List.length_cons, Nat.add_mul]; omega) (by
      intro i x hi
      have := hh (i + 1) x hi
      rw [elAt, Nat.add_mul, Nat.one_mul, Nat.add_comm, ← List.drop_drop] at this
      exact this)
    simp only [elAt, Nat.zero_mul, List.drop_zero] at h0
    rw [List.flatten_cons, ← hr, ← h0, List.take_append_drop]

def cfg1 : Cfg := ⟨2, 4096, [0, 0]⟩

example : 0 < cfg1.s ∧ cfg1.zero.length = cfg1.s ∧
    Allowed cfg1 [] false [.pushBack [1, 2], .reserve 7, .insertFwd 0 [[3, 4], [5, 6]], .reopen, .resize 4, .insert 1 [7, 8],
      .put 0 [9, 9], .reserve 1, .insertInput 2 [[1, 1]], .reopen] ∧
    pendRun cfg1 [] false [.pushBack [1, 2], .reserve 7, .pushBack [3, 3]] = false := by
  refine ⟨by decide, rfl, ?_, by decide⟩
  simp [Allowed, Op.Pre, Op.spec, Op.pend, cfg1]

/-- **C46** violated: `reserve` also sets the length recorded for the file: for every content and every other count the
file closed after `reserve(n)` and reopened has `n` elements - data is lost for smaller `n` and made up for larger. -/
theorem C46_reserve_violated {c : Cfg} (hs : 0 < c.s) (hz : c.zero.length = c.s) (ops : List Op)
    (ha : Allowed c [] false ops) {n : Nat} (hn : c.s * n ≤ 2 ^ 63) (hn0 : 0 < c.s * (specRun c [] ops).length) :
    ∃ st, run c fresh (ops ++ [.reserve n, .reopen]) = .ok st ∧ st.vused = n := by
  obtain ⟨st, e, h⟩ := run_ok hs hz ops (fresh_inv c) ha
  have hn' : n * c.s ≤ 2 ^ 63 := by rw [Nat.mul_comm]; exact hn
  obtain ⟨s1, e1, v1, n1, u1, f1, l1, m1, h1⟩ := mmapResize_ok h hn'
  have happ : ∀ (ops : List Op) (s0 : St) (tl : List Op), run c s0 (ops ++ tl) = (run c s0 ops).bind fun s => run c s tl := by
    intro ops
    induction ops with
    | nil => intro s0 tl; rfl
    | cons op ops ih =>
      intro s0 tl
      simp only [List.cons_append, run]
      cases op.exec c s0 with
      | error e => rfl
      | ok s => simp only [ok_bind]; exact ih s tl
  have hm : s1.mapped = true := by
    rw [m1]; rw [Nat.mul_comm] at hn0; simp; omega
  refine ⟨openFile c (close c s1).1 (close c s1).2, ?_, ?_⟩
  · rw [happ, e]
    simp only [Except.bind, run, Op.exec, reserve, e1, ok_bind]
  · simp only [openFile, close, hm, if_true, ftruncate_length, u1]
    exact Nat.mul_div_cancel _ hs

/-- Three elements, `reserve(1)` or `reserve(5)`, close, reopen. -/
example : (run cfg1 fresh [.pushBack [1, 2], .pushBack [3, 4], .pushBack [5, 6], .reserve 1, .reopen]).map St.vused = .ok 1 ∧
    (run cfg1 fresh [.pushBack [1, 2], .pushBack [3, 4], .pushBack [5, 6], .reserve 5, .reopen]).map St.vused = .ok 5 := by
  decide +kernel

/-- **C46** violated: `v.push_back(v[i])` reads its argument after unmapping it whenever the mapping has to grow. -/
theorem C46_push_back_own_element_violated {c : Cfg} (st : St) (i : Nat) (hi : i < st.vused)
    (hf : (i + 1) * c.s ≤ st.file.length) (h : st.size < c.s * (st.vused + 1)) : pushBackOwn c st i = .error .ub := by
  have : ¬ c.s * (st.vused + 1) ≤ st.size := by omega
  simp only [pushBackOwn, St.get, hi, hf, and_self, decide_true, require_true, ok_bind, pure_ok, this, decide_false,
    require_false]
  rfl

example : (run cfg1 fresh [.pushBack [1, 2]]).bind (fun st => pushBackOwn cfg1 st 0) = .error .ub := by decide +kernel

/-- **C54** violated: destroying a mapping whose capacity has more pages than the used part leaves the difference mapped
for the rest of the process: `munmap` is given the used size. -/
theorem C54_unmap_violated {c : Cfg} {st : St} (hm : st.mapped = true) (h : pages c st.used < pages c st.size) :
    st.leaked < (close c st).2 := by
  simp only [close, hm, if_true]; omega

/-- **C54**: no pages stay mapped when the used pages are all pages. -/
theorem C54_unmap_partial {c : Cfg} {st : St} (h : pages c st.used = pages c st.size) : (close c st).2 = st.leaked := by
  unfold close; split
  · simp [h]
  · rfl

/-- Five pages of data have eight pages of capacity: three stay mapped. -/
example : (run ⟨1, 4, [0]⟩ fresh [.resize 17, .reopen]).map (fun st => (st.vused, st.leaked)) = .ok (17, 3) := by decide +kernel

end Cista.MmapVec
