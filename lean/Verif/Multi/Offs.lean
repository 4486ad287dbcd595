import Verif.Basic

/-!
# Offsets of concatenated sequences

`offs C` lists, for a sequence of sequences `C`, where each one starts in the concatenation, and finally
where the concatenation ends.  Used by the proofs about vecvec, fws_multimap and nvec; no property is
stated in terms of it.
-/
namespace Cista.Multi

variable {α : Type _}

theorem snocInd {P : List α → Prop} (h0 : P []) (h1 : ∀ l x, P l → P (l ++ [x])) : ∀ l, P l := by
  have : ∀ l : List α, P l.reverse := by
    intro l
    induction l with
    | nil => exact h0
    | cons a l ih => rw [List.reverse_cons]; exact h1 _ _ ih
  intro l
  rw [← List.reverse_reverse l]; exact this _

/-- Start offsets, ending with the total length. -/
def offs (C : List (List α)) : List Nat := (List.range (C.length + 1)).map fun i => (C.take i).flatten.length

@[simp] theorem offs_length (C : List (List α)) : (offs C).length = C.length + 1 := by simp [offs]

theorem offs_get? {C : List (List α)} {i : Nat} (h : i ≤ C.length) :
    (offs C)[i]? = some (C.take i).flatten.length := by
  simp only [offs, List.getElem?_map]
  rw [List.getElem?_range (by omega)]
  rfl

theorem offs_nil : offs ([] : List (List α)) = [0] := by simp [offs]

theorem flatten_append_length (A B : List (List α)) :
    (A ++ B).flatten.length = A.flatten.length + B.flatten.length := by
  rw [List.flatten_append, List.length_append]

theorem offs_snoc (C : List (List α)) (b : List α) :
    offs (C ++ [b]) = offs C ++ [C.flatten.length + b.length] := by
  unfold offs
  rw [show (C ++ [b]).length + 1 = (C.length + 1) + 1 by simp, List.range_succ, List.map_append]
  congr 1
  · apply List.map_congr_left
    intro i hi
    rw [List.mem_range] at hi
    rw [List.take_append_of_le_length (by omega)]
  · simp only [List.map_cons, List.map_nil]
    rw [List.take_of_length_le (by simp), flatten_append_length]
    simp

theorem take_succ_length {C : List (List α)} {i : Nat} (h : i < C.length) :
    (C.take (i + 1)).flatten.length = (C.take i).flatten.length + C[i].length := by
  rw [List.take_succ_eq_append_getElem h, flatten_append_length]; simp

theorem take_le_flatten (C : List (List α)) (i : Nat) : (C.take i).flatten.length ≤ C.flatten.length := by
  have := flatten_append_length (C.take i) (C.drop i)
  rw [List.take_append_drop] at this
  omega

theorem flatten_split {C : List (List α)} {i : Nat} (h : i < C.length) :
    C.flatten = (C.take i).flatten ++ C[i] ++ (C.drop (i + 1)).flatten := by
  have : C = C.take i ++ (C[i] :: C.drop (i + 1)) := by
    rw [← List.drop_eq_getElem_cons h, List.take_append_drop]
  have h2 := congrArg List.flatten this
  rw [List.flatten_append, List.flatten_cons] at h2
  rw [List.append_assoc]; exact h2

theorem flatten_slice {C : List (List α)} {i : Nat} (h : i < C.length) (junk : List α) :
    ((C.flatten ++ junk).drop (C.take i).flatten.length).take C[i].length = C[i] := by
  rw [flatten_split h, List.append_assoc, List.append_assoc, List.drop_left', List.take_left']
  · rfl
  · rfl

theorem set_split {C : List (List α)} {i : Nat} (h : i < C.length) (b : List α) :
    (C.set i b).flatten = (C.take i).flatten ++ b ++ (C.drop (i + 1)).flatten := by
  rw [List.set_eq_take_append_cons_drop, if_pos h, List.flatten_append, List.flatten_cons, List.append_assoc]

/-- Offsets after replacing one sequence by one that is `n` longer. -/
theorem offs_set {C : List (List α)} {i n : Nat} {b : List α} (h : i < C.length)
    (hb : b.length = C[i].length + n) :
    offs (C.set i b) = (offs C).take (i + 1) ++ ((offs C).drop (i + 1)).map (· + n) := by
  apply List.ext_getElem?
  intro k
  by_cases hk : k ≤ C.length
  · rw [offs_get? (by simpa using hk)]
    by_cases hki : k ≤ i
    · rw [List.getElem?_append_left (by simp; omega), List.getElem?_take, if_pos (by omega), offs_get? hk,
        List.take_set_of_le hki]
    · have hl : ((offs C).take (i + 1)).length = i + 1 := by simp; omega
      rw [List.getElem?_append_right (by omega), hl, List.getElem?_map, List.getElem?_drop,
        show i + 1 + (k - (i + 1)) = k by omega, offs_get? hk]
      simp only [Option.map_some, Option.some.injEq]
      rw [List.take_set]
      have hi : i < (C.take k).length := by simp; omega
      rw [set_split hi, flatten_split hi]
      simp only [List.length_append, List.getElem_take, hb]
      omega
  · rw [List.getElem?_eq_none (by simp; omega), List.getElem?_eq_none (by simp; omega)]

theorem offs_take (C : List (List α)) (n : Nat) (h : n ≤ C.length) : offs (C.take n) = (offs C).take (n + 1) := by
  apply List.ext_getElem?
  intro k
  by_cases hk : k ≤ n
  · rw [offs_get? (by simp; omega), List.getElem?_take, if_pos (by omega), offs_get? (by omega), List.take_take,
      Nat.min_eq_left hk]
  · rw [List.getElem?_eq_none (by simp; omega), List.getElem?_eq_none (by simp; omega)]

theorem offs_replicate_nil (C : List (List α)) (n : Nat) :
    offs (C ++ List.replicate n []) = offs C ++ List.replicate n C.flatten.length := by
  induction n with
  | zero => simp
  | succ n ih =>
    rw [List.replicate_succ', ← List.append_assoc, offs_snoc, ih, List.replicate_succ', List.append_assoc,
      flatten_append_length]
    simp

end Cista.Multi
