import Verif.Hash.Wy

/-!
# Hash of a container

Model of `hash(T const& buf, hash_t)` for containers of trivially copyable elements of any size (include/cista/hash.h:66-71, 100-104,
139-147).  A container is the list of the object representations of its elements; `&buf[0]` is the address of their concatenation.
XXH3 (hash.h:34-37, the same code) is represented by an arbitrary function of the bytes and the seed.
-/

namespace Cista.Wy

open Cista.Hash

/-- The hash functions that can be selected. -/
inductive Fn
  | fnv
  | wy (o : Opt)
  | xxh3 (f : List Byte → HashT → HashT)

/-- Hash of a range of bytes. -/
def Fn.run (host : Endian) : Fn → List Byte → HashT → Res HashT
  | .fnv, l, h => .ok (Hash.fnv h l)
  | .wy o, l, h => hashSv host o l h
  | .xxh3 f, l, h => .ok (f l h)

/-- include/cista/hash.h:139-147 `hash(T const& buf, hash_t const h)`, and :34-37, :66-71, :100-104: `buf.size()` bytes from `&buf[0]`. -/
def hashOf (host : Endian) (fn : Fn) (elems : List (List Byte)) (h : HashT) : Res HashT :=
  if elems.length = 0 then .ok h else do
    let b ← rdAt elems.flatten 0 elems.length
    fn.run host b h

theorem length_flatten {w : Nat} : ∀ {es : List (List Byte)}, (∀ e ∈ es, e.length = w) → es.flatten.length = es.length * w
  | [], _ => by simp
  | e :: es, h => by
    rw [List.flatten_cons, List.length_append, length_flatten fun x hx => h x (List.mem_cons_of_mem _ hx), h e List.mem_cons_self,
      List.length_cons, Nat.add_mul]
    omega

/-- **C148** (partial: elements of one byte) `hash(buf)` is the hash of all the bytes of the container; the default function notices each
change of a single byte. -/
theorem C148_bytes_partial (host : Endian) (fn : Fn) (l : List Byte) (h : HashT) (hl : l ≠ []) :
    hashOf host fn (l.map fun b => [b]) h = fn.run host l h ∧
    ∀ (pre post : List Byte) (x y : Byte), l = pre ++ x :: post → x ≠ y →
      hashOf host .fnv (l.map fun b => [b]) h ≠ hashOf host .fnv ((pre ++ y :: post).map fun b => [b]) h := by
  have key : ∀ (fn : Fn) (l : List Byte), l ≠ [] → hashOf host fn (l.map fun b => [b]) h = fn.run host l h := by
    intro fn l hl
    have e : (l.map fun b => [b]).flatten = l := by
      induction l with
      | nil => rfl
      | cons a l ih =>
        by_cases h0 : l = []
        · subst h0; rfl
        · rw [List.map_cons, List.flatten_cons, ih h0]; rfl
    have hp : 0 < l.length := List.length_pos_iff.2 hl
    rw [hashOf, List.length_map, if_neg (by omega), e, rdAt_ok (by omega), ok_bind, List.drop_zero, List.take_length]
  refine ⟨key fn l hl, fun pre post x y he hxy => ?_⟩
  rw [key _ _ hl, key _ _ (by simp), he]
  intro hc
  exact fnv_ne_of_one_diff h pre post x y hxy (Except.ok.inj hc)

example : hashOf .little .fnv [[1], [2]] 5#64 = .ok (fnv 5#64 [1, 2]) := (C148_bytes_partial .little .fnv [1, 2] 5#64 (by simp)).1

/-- **C148** violated: `size()` counts elements but is used as number of bytes, so that the hash of a container whose elements have `w`
bytes depends on the first `1/w` of the bytes only, whatever the hash function.  Changes of the other elements, the last one included if
there are two, are not noticed. -/
theorem C148_wide_violated (host : Endian) (fn : Fn) (w : Nat) (elems : List (List Byte)) (x : List Byte) (i : Nat) (h : HashT)
    (hw : ∀ e ∈ elems, e.length = w) (hi : elems.length ≤ i * w) :
    hashOf host fn (elems.set i x) h = hashOf host fn elems h := by
  by_cases hn : i < elems.length
  · have e1 : elems.set i x = elems.take i ++ x :: elems.drop (i + 1) := List.set_eq_take_append_cons_drop.trans (if_pos hn)
    have e2 : elems = elems.take i ++ elems[i] :: elems.drop (i + 1) := by simp
    have hlen : (elems.take i).flatten.length = i * w := by
      rw [length_flatten fun e he => hw e (List.mem_of_mem_take he), List.length_take, Nat.min_eq_left (Nat.le_of_lt hn)]
    have t : ∀ (y : List Byte) (r : List (List Byte)),
        rdAt (elems.take i ++ y :: r).flatten 0 elems.length = .ok ((elems.take i).flatten.take elems.length) := by
      intro y r
      rw [rdAt_ok (by rw [List.flatten_append, List.length_append, hlen]; omega), List.drop_zero, List.flatten_append,
        List.take_append_of_le_length (by omega)]
    have t2 : rdAt elems.flatten 0 elems.length = .ok ((elems.take i).flatten.take elems.length) := by
      have := t elems[i] (elems.drop (i + 1))
      rw [← e2] at this
      exact this
    rw [hashOf, hashOf, List.length_set, t2, e1, t]
  · rw [List.set_eq_of_length_le (by omega)]

/-- The last of at least two elements of at least two bytes does not matter. -/
example (host : Endian) (fn : Fn) (h : HashT) : hashOf host fn [[1, 0, 0, 0], [2, 0, 0, 0]] h = hashOf host fn [[1, 0, 0, 0], [3, 0, 0, 0]] h :=
  (C148_wide_violated host fn 4 [[1, 0, 0, 0], [2, 0, 0, 0]] [3, 0, 0, 0] 1 h (by decide) (by decide)).symm

end Cista.Wy
