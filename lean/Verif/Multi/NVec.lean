import Verif.Multi.Fws

set_option linter.unusedSimpArgs false

/-!
# Model of `basic_nvec`

Source: `/repo/include/cista/containers/nvec.h`.  `index_` is an array of `N` vectors (modelled as a function
from level to list), `data_` a vector; both by their element lists (C09).  `W` is the width of `size_type` and
of the index value type.  An element of an `nvec<K,V,N>` is a container nested `N` deep: `Nest V (N-1)`.

`at` with three or more indices (N ≥ 3) does not compile: `get_bucket<Rest...>` (nvec.h:519-520, 531-532) names only
the variadic template, which then needs at least three arguments.  It is therefore modelled for N = 2 only.

For N = 1 the elements cannot be reached: `operator[]` and the iterators are `meta_bucket<0>` (nvec.h:452-453), whose
`begin()` steps before the first index table (`NV.toMeta`, `C23_depth_one_violated`), and `at(i)` does not compile
(`get_bucket` takes at least two arguments).
-/
namespace Cista.Multi.NVec

/-- Containers nested `n + 1` deep. -/
abbrev Nest (α : Type) : Nat → Type
  | 0 => List α
  | n + 1 => List (Nest α n)

/-- nvec.h:570-571. -/
structure NV (α : Type) where
  data : List α
  index : Nat → List Nat

variable {α : Type}

def NV.empty : NV α := ⟨[], fun _ => []⟩

def NV.push (v : NV α) (L x : Nat) : NV α :=
  { v with index := fun k => if k = L then v.index k ++ [x] else v.index k }

/-- nvec.h:540-553 `add<L>(c)`. -/
def add (W : Nat) : (L : Nat) → Nest α L → NV α → NV α
  | 0, c, v =>
    let c : List α := c
    let v := v.push 0 ((v.data.length + c.length) % 2 ^ W)
    { v with data := v.data ++ c }
  | L + 1, c, v =>
    let c : List (Nest α L) := c
    c.foldl (fun v x => add W L x v) (v.push (L + 1) (((v.index L).length + c.length - 1) % 2 ^ W))

/-- nvec.h:470-478 `emplace_back`, `N = L + 1`. -/
def emplaceBack (W L : Nat) (v : NV α) (c : Nest α L) : NV α :=
  add W L c (if (v.index 0).length = 0 then
    { v with index := fun k => if k ≤ L then v.index k ++ [0] else v.index k } else v)

def NV.idx (v : NV α) (L i : Nat) : Res Nat :=
  match (v.index L)[i]? with
  | some x => .ok x
  | none => .error .ub

/-- nvec.h:483-485 `size()`. -/
def NV.size (W L : Nat) (v : NV α) : Nat := if (v.index L).length = 0 then 0 else ((v.index L).length - 1) % 2 ^ W

/-- nvec.h:67-68, 121-122, 201-204, 257-258: the elements of leaf bucket `i`. -/
def NV.leaf (v : NV α) (i : Nat) : Res (List α) := do
  let b ← v.idx 0 i
  let e ← v.idx 0 (i + 1)
  require (b ≤ e && e ≤ v.data.length)
  return (v.data.drop b).take (e - b)

/-- nvec.h:65, 198-200, 289, 369 `size()` of the (meta) bucket at position `i` of level `L`. -/
def NV.bucketSize (v : NV α) (L i : Nat) : Res Nat := do
  let b ← v.idx L i
  let e ← v.idx L (i + 1)
  require (b ≤ e)
  return e - b

/-- nvec.h:201-204, 291-292, 371-375: nested range-for over the `bucket` at position `i` of level 0, or over the `meta_bucket<L>` at position
`i` of level `L ≥ 1`. -/
def NV.toNest (v : NV α) : (L : Nat) → Nat → Res (Nest α L)
  | 0, i => v.leaf i
  | L + 1, i =>
    (v.idx (L + 1) i).bind fun b => (v.idx (L + 1) (i + 1)).bind fun e =>
      (require (b ≤ e)).bind fun _ => (List.range' b (e - b)).mapM (v.toNest L)

/-- nvec.h:270-292, 349-375: nested range-for over a `meta_bucket<L>`, the type of the containers of an nvec with `N = L + 1`.  `begin()` of
`meta_bucket<0>` computes `index_ - 1` for the first index table of the array. -/
def NV.toMeta (v : NV α) : (L : Nat) → Nat → Res (Nest α L)
  | 0, _ => .error .ub
  | L + 1, i => v.toNest (L + 1) i

/-- nvec.h:452-462: nested range-for over the whole nvec. -/
def NV.iterate (W L : Nat) (v : NV α) : Res (List (Nest α L)) := (List.range (v.size W L)).mapM (v.toMeta L)

/-- nvec.h:299, 386-387 `bucket[j]`: position on level `L` of child `j` of position `i` of level `L + 1`. -/
def NV.child (v : NV α) (L i j : Nat) : Res Nat := do
  let b ← v.idx (L + 1) i
  return b + j

/-- Chain of `operator[]`: from position `i` of level `L` follow `path`; result: (level, position). -/
def NV.follow (v : NV α) : (L : Nat) → Nat → List Nat → Res (Nat × Nat)
  | L, i, [] => .ok (L, i)
  | L + 1, i, j :: path => (v.child L i j).bind fun k => v.follow L k path
  | 0, _, _ :: _ => .error .ub

/-- nvec.h:498-512, 523-526, 535-538 `at(i, j)` for N = 2: the leaf bucket. -/
def NV.at2 (v : NV α) (i j : Nat) : Res (List α) := do
  verify (i < (v.index 1).length)
  let b ← v.idx 1 i
  v.leaf (b + j)

/-- nvec.h:555-568 `get_size<L>(i, rest...)`. -/
def NV.getSize (v : NV α) (L : Nat) : Nat → List Nat → Res Nat
  | i, [] => v.bucketSize L i
  | i, [j] => v.bucketSize L (i + j)
  | i, j :: rest => do
    let k ← v.idx L (i + j)
    NV.getSize v L k rest

/-- nvec.h:487-496 `size(first, rest...)`, `N = T + 1`. -/
def NV.sizeOf (T : Nat) (v : NV α) (first : Nat) (rest : List Nat) : Res Nat := do
  verify (first < (v.index rest.length).length)
  if rest = [] then v.getSize (T - rest.length) first []
  else do
    let k ← v.idx rest.length first
    v.getSize (T - rest.length) k rest

/-! ## Specification -/

/-- Number of direct children. -/
def Nest.count : (L : Nat) → Nest α L → Nat
  | 0, c => List.length (α := α) c
  | _ + 1, c => List.length c

/-- The sub-container reached by a path of indices. -/
def Nest.sub : (L : Nat) → Nest α L → List Nat → Option ((K : Nat) × Nest α K)
  | L, c, [] => some ⟨L, c⟩
  | L + 1, c, j :: path => (c[j]?).bind fun d => Nest.sub L d path
  | 0, _, _ :: _ => none

/-- All element and container counts fit the index type. -/
def Fits (W : Nat) : (L : Nat) → List (Nest α L) → Prop
  | 0, C => C.length < 2 ^ W ∧ (List.flatten C).length < 2 ^ W
  | L + 1, C => C.length < 2 ^ W ∧ Fits W L (List.flatten C)

/-! ## Invariant -/

/-- Offsets of level `k` for content `C` on level `L`. -/
def offsAt : (L : Nat) → List (Nest α L) → Nat → List Nat
  | 0, C, k => if k = 0 then offs C else []
  | L + 1, C, k => if k = L + 1 then offs C
      else offsAt L (List.flatten C) k

def dataOf : (L : Nat) → List (Nest α L) → List α
  | 0, C => List.flatten C
  | L + 1, C => dataOf L (List.flatten C)

theorem offsAt_len : (L : Nat) → (C : List (Nest α L)) → (offsAt L C L).length = C.length + 1
  | 0, C => by simp [offsAt, offs_length]
  | L + 1, C => by simp [offsAt, offs_length]

/-- Levels `0..L` and the data hold content `C`. -/
def Holds (L : Nat) (v : NV α) (C : List (Nest α L)) : Prop :=
  (∀ k, k ≤ L → v.index k = offsAt L C k) ∧ v.data = dataOf L C

theorem fits_append {W : Nat} : (L : Nat) → (A B : List (Nest α L)) → Fits W L (A ++ B) → Fits W L A
  | 0, A, B, h => by
    obtain ⟨h1, h2⟩ := h
    have := flatten_append_length (α := α) A B
    rw [List.length_append] at h1
    exact ⟨by omega, by rw [this] at h2; omega⟩
  | L + 1, A, B, h => by
    obtain ⟨h1, h2⟩ := h
    rw [List.length_append] at h1
    refine ⟨by omega, fits_append L _ (List.flatten B) ?_⟩
    have := List.flatten_append (L₁ := A) (L₂ := B)
    rw [← this]; exact h2

theorem fits_len {W : Nat} : (L : Nat) → (A : List (Nest α L)) → Fits W L A → A.length < 2 ^ W
  | 0, _, h => h.1
  | _ + 1, _, h => h.1

theorem push_index (v : NV α) (L x k : Nat) :
    (v.push L x).index k = if k = L then v.index k ++ [x] else v.index k := rfl

theorem add_index_gt (W : Nat) : (L : Nat) → (c : Nest α L) → (v : NV α) → (k : Nat) → L < k →
    (add W L c v).index k = v.index k
  | 0, c, v, k, h => by
    simp only [add, push_index]; rw [if_neg (by omega)]
  | L + 1, c, v, k, h => by
    simp only [add]
    have key : ∀ (cs : List (Nest α L)) (v : NV α),
        (cs.foldl (fun v x => add W L x v) v).index k = v.index k := by
      intro cs
      induction cs with
      | nil => intro v; rfl
      | cons d cs ih => intro v; rw [List.foldl_cons, ih, add_index_gt W L d v k (by omega)]
    rw [key, push_index, if_neg (by omega)]

theorem add_holds {W : Nat} : (L : Nat) → (C : List (Nest α L)) → (c : Nest α L) → (v : NV α) →
    Fits W L (C ++ [c]) → Holds L v C → Holds L (add W L c v) (C ++ [c])
  | 0, C, c, v, hf, h => by
    obtain ⟨h1, h2⟩ := h
    have h3 := flatten_append_length (α := α) C [c]
    have hf2 := hf.2
    have e : (List.flatten (α := α) [c]).length = List.length (α := α) c := by simp
    constructor
    · intro k hk
      have : k = 0 := by omega
      subst this
      simp only [add, push_index, if_true, h1 0 (Nat.le_refl _), h2]
      simp only [offsAt, if_true, dataOf]
      have hs := offs_snoc (α := α) C c
      rw [Nat.mod_eq_of_lt (by rw [h3, e] at hf2; exact hf2)]
      exact hs.symm
    · change v.data ++ c = List.flatten (α := α) (C ++ [c])
      rw [List.flatten_append (L₁ := C), h2]
      simp [dataOf]
  | L + 1, C, c, v, hf, h => by
    obtain ⟨h1, h2⟩ := h
    have hfl : List.flatten (α := Nest α L) (C ++ [c]) = List.flatten (α := Nest α L) C ++ c := by
      rw [List.flatten_append (L₁ := C)]; simp
    have hf2 : Fits W L (List.flatten (α := Nest α L) C ++ c) := by rw [← hfl]; exact hf.2
    have key : ∀ (cs : List (Nest α L)) (D : List (Nest α L)) (v : NV α),
        Fits W L (D ++ cs) → Holds L v D → Holds L (cs.foldl (fun v x => add W L x v) v) (D ++ cs) := by
      intro cs
      induction cs with
      | nil => intro D v _ h; simpa using h
      | cons d cs ih =>
        intro D v hf h
        rw [List.foldl_cons]
        have e : D ++ d :: cs = (D ++ [d]) ++ cs := by simp
        rw [e] at hf ⊢
        exact ih _ _ hf (add_holds L D d v (fits_append L _ _ hf) h)
    have hv : Holds L (v.push (L + 1) (((v.index L).length + List.length (α := Nest α L) c - 1) % 2 ^ W))
        (List.flatten (α := Nest α L) C) := by
      constructor
      · intro k hk
        rw [push_index, if_neg (by omega), h1 k (by omega)]
        simp only [offsAt]
        rw [if_neg (by omega)]
      · exact h2
    have hh := key c _ _ hf2 hv
    constructor
    · intro k hk
      simp only [add]
      by_cases hkL : k = L + 1
      · subst hkL
        have key2 : ∀ (cs : List (Nest α L)) (v : NV α),
            (cs.foldl (fun v x => add W L x v) v).index (L + 1) = v.index (L + 1) := by
          intro cs
          induction cs with
          | nil => intro v; rfl
          | cons d cs ih => intro v; rw [List.foldl_cons, ih, add_index_gt W L d v _ (by omega)]
        rw [key2, push_index, if_pos rfl, h1 (L + 1) (Nat.le_refl _), h1 L (by omega)]
        have hlen := offsAt_len L (List.flatten (α := Nest α L) C)
        have e1 : offsAt (L + 1) C L = offsAt L (List.flatten (α := Nest α L) C) L := by
          simp only [offsAt]; rw [if_neg (by omega)]
        rw [e1, hlen]
        have hl := fits_len L _ hf2
        rw [List.length_append] at hl
        rw [show (List.flatten (α := Nest α L) C).length + 1 + List.length (α := Nest α L) c - 1 =
          (List.flatten (α := Nest α L) C).length + List.length (α := Nest α L) c by omega, Nat.mod_eq_of_lt hl]
        simp only [offsAt, if_true]
        exact (offs_snoc (α := Nest α L) C c).symm
      · rw [hh.1 k (by omega)]
        simp only [offsAt]
        rw [if_neg hkL, hfl]
    · change _ = dataOf L (List.flatten (α := Nest α L) (C ++ [c]))
      rw [hfl]
      exact hh.2

theorem offsAt_zero_ne : (L : Nat) → (C : List (Nest α L)) → (offsAt L C 0).length ≠ 0
  | 0, C => by rw [offsAt_len]; omega
  | L + 1, C => by
    simp only [offsAt]; rw [if_neg (by omega)]; exact offsAt_zero_ne L _

/-- Empty or holding `C`. -/
def Inv (L : Nat) (v : NV α) (C : List (Nest α L)) : Prop :=
  (C = [] ∧ v.data = [] ∧ ∀ k, k ≤ L → v.index k = []) ∨ Holds L v C

theorem holds_nil : (L : Nat) → (v : NV α) → v.data = [] → (∀ k, k ≤ L → v.index k = [0]) → Holds L v []
  | 0, v, h1, h2 => ⟨by
      intro k hk
      have : k = 0 := by omega
      subst this
      simp [offsAt, h2 0 (Nat.le_refl _), offs_nil], by simp [h1, dataOf]⟩
  | L + 1, v, h1, h2 => by
    have ih := holds_nil L v h1 (fun k hk => h2 k (by omega))
    refine ⟨?_, by simpa [dataOf] using ih.2⟩
    intro k hk
    simp only [offsAt]
    split
    · next h => subst h; simp [h2 (L + 1) (Nat.le_refl _), offs_nil]
    · exact ih.1 k (by omega)

theorem emplaceBack_inv {W L : Nat} {v : NV α} {C : List (Nest α L)} {c : Nest α L}
    (hf : Fits W L (C ++ [c])) (h : Inv L v C) : Holds L (emplaceBack W L v c) (C ++ [c]) := by
  unfold emplaceBack
  apply add_holds L C c _ hf
  rcases h with ⟨h1, h2, h3⟩ | h
  · subst h1
    rw [if_pos (by rw [h3 0 (by omega)]; rfl)]
    refine holds_nil L _ h2 ?_
    intro k hk
    simp [hk, h3 k hk]
  · have hne : (v.index 0).length ≠ 0 := by
      rw [h.1 0 (Nat.zero_le _)]; exact offsAt_zero_ne L C
    rw [if_neg hne]; exact h

/-- Emplace containers one after the other. -/
def build (W L : Nat) (C : List (Nest α L)) : NV α := C.foldl (emplaceBack W L) .empty

theorem build_inv {W L : Nat} (C : List (Nest α L)) : Fits W L C → Inv L (build W L C) C := by
  refine snocInd (P := fun C => Fits W L C → Inv L (build W L C) C) ?_ ?_ C
  · intro _; exact Or.inl ⟨rfl, rfl, fun _ _ => rfl⟩
  · intro C c ih hf
    refine Or.inr ?_
    have := emplaceBack_inv hf (ih (fits_append L _ _ hf))
    unfold build
    rw [List.foldl_append]
    exact this

theorem holds_down {L : Nat} {v : NV α} {C : List (Nest α (L + 1))} (h : Holds (L + 1) v C) :
    Holds L v (List.flatten (α := Nest α L) C) :=
  ⟨fun k hk => by
    have := h.1 k (by omega)
    simp only [offsAt] at this
    rw [if_neg (by omega)] at this
    exact this, h.2⟩

/-- Start and end of position `i`, generically in the element type. -/
theorem idx_offs {β : Type} {v : NV α} {L : Nat} {C : List (List β)} (h : v.index L = offs C) {i : Nat}
    (hi : i < C.length) :
    v.idx L i = .ok (C.take i).flatten.length ∧
    v.idx L (i + 1) = .ok ((C.take i).flatten.length + C[i].length) ∧
    (C.take i).flatten.length + C[i].length ≤ C.flatten.length := by
  refine ⟨?_, ?_, ?_⟩
  · simp only [NV.idx, h, offs_get? (Nat.le_of_lt hi)]
  · simp only [NV.idx, h, offs_get? hi, take_succ_length hi]
  · rw [← take_succ_length hi]; exact take_le_flatten C (i + 1)

theorem bucketSize_holds : (L : Nat) → {v : NV α} → {C : List (Nest α L)} → Holds L v C → {i : Nat} →
    (hi : i < C.length) → v.bucketSize L i = .ok (Nest.count L C[i])
  | 0, v, C, h, i, hi => by
    obtain ⟨h1, h2, h3⟩ := idx_offs (v := v) (L := 0) (C := C) (by simpa [offsAt] using h.1 0 (Nat.le_refl _)) hi
    unfold NV.bucketSize
    rw [h1, h2]
    simp [bind, Except.bind, pure, Except.pure, Nest.count]
  | L + 1, v, C, h, i, hi => by
    obtain ⟨h1, h2, h3⟩ := idx_offs (v := v) (L := L + 1) (C := C)
      (by simpa [offsAt] using h.1 (L + 1) (Nat.le_refl _)) hi
    unfold NV.bucketSize
    rw [h1, h2]
    simp [bind, Except.bind, pure, Except.pure, Nest.count]

theorem leaf_holds {v : NV α} {C : List (List α)} (h : Holds 0 v C) {i : Nat} (hi : i < C.length) :
    v.leaf i = .ok C[i] := by
  obtain ⟨h1, h2, h3⟩ := idx_offs (v := v) (L := 0) (C := C) (by simpa [offsAt] using h.1 0 (Nat.le_refl _)) hi
  have hd : v.data = C.flatten := h.2
  unfold NV.leaf
  rw [h1, h2]
  have hr : (decide ((C.take i).flatten.length ≤ (C.take i).flatten.length + C[i].length) &&
      decide ((C.take i).flatten.length + C[i].length ≤ v.data.length)) = true := by
    rw [Bool.and_eq_true, hd]
    exact ⟨decide_eq_true (by omega), decide_eq_true (by omega)⟩
  simp only [bind, Except.bind, pure, Except.pure, hr, require_true]
  have := flatten_slice hi []
  rw [List.append_nil] at this
  rw [hd, Nat.add_sub_cancel_left, this]

theorem toNest_holds : (L : Nat) → {v : NV α} → {C : List (Nest α L)} → Holds L v C → {i : Nat} →
    (hi : i < C.length) → v.toNest L i = .ok C[i]
  | 0, v, C, h, i, hi => leaf_holds h hi
  | L + 1, v, C, h, i, hi => by
    obtain ⟨h1, h2, h3⟩ := idx_offs (v := v) (L := L + 1) (C := C)
      (by simpa [offsAt] using h.1 (L + 1) (Nat.le_refl _)) hi
    have ih : ∀ k (hk : k < (List.flatten (α := Nest α L) C).length), v.toNest L k = .ok (List.flatten (α := Nest α L) C)[k] :=
      fun k hk => toNest_holds L (holds_down h) hk
    simp only [NV.toNest, h1, h2, Except.bind, Nat.le_add_right, decide_true, require_true,
      Nat.add_sub_cancel_left]
    have hs := flatten_slice (α := Nest α L) (C := C) hi []
    rw [List.append_nil] at hs
    have hm : ∀ (n b : Nat), b + n ≤ (List.flatten (α := Nest α L) C).length →
        (List.range' b n).mapM (v.toNest L) =
          .ok (((List.flatten (α := Nest α L) C).drop b).take n) := by
      intro n
      induction n with
      | zero => intro b _; rfl
      | succ n ihn =>
        intro b hb
        rw [List.range'_succ, List.mapM_cons, ih b (by omega), ihn (b + 1) (by omega),
          List.drop_eq_getElem_cons (show b < (List.flatten (α := Nest α L) C).length by omega)]
        rfl
    rw [hm _ _ h3, hs]

theorem flatten_get {β : Type} {C : List (List β)} {i j : Nat} (hi : i < C.length) (hj : j < C[i].length) :
    C.flatten[(C.take i).flatten.length + j]? = some C[i][j] := by
  have hs := flatten_slice hi []
  rw [List.append_nil] at hs
  have h8 := congrArg (fun l => l[j]?) hs
  simp only [List.getElem?_take, if_pos hj, List.getElem?_drop] at h8
  rw [h8, List.getElem?_eq_getElem hj]

theorem follow_holds (path : List Nat) : (L : Nat) → {v : NV α} → {C : List (Nest α L)} → Holds L v C →
    {i : Nat} → (hi : i < C.length) → {K : Nat} → {d : Nest α K} → Nest.sub L C[i] path = some ⟨K, d⟩ →
    ∃ k, v.follow L i path = .ok (K, k) ∧ v.bucketSize K k = .ok (Nest.count K d) ∧ v.toNest K k = .ok d := by
  induction path with
  | nil =>
    intro L v C h i hi K d hs
    have hs' : Nest.sub L C[i] [] = some ⟨L, C[i]⟩ := by cases L <;> rfl
    rw [hs'] at hs
    cases hs
    refine ⟨i, ?_, bucketSize_holds L h hi, toNest_holds L h hi⟩
    cases L <;> rfl
  | cons j path ih =>
    intro L v C h i hi K d hs
    cases L with
    | zero => cases hs
    | succ L =>
      obtain ⟨h1, h2, h3⟩ := idx_offs (v := v) (L := L + 1) (C := C)
        (by simpa [offsAt] using h.1 (L + 1) (Nat.le_refl _)) hi
      simp only [Nest.sub] at hs
      cases hj : (show List (Nest α L) from C[i])[j]? with
      | none => rw [hj] at hs; cases hs
      | some e =>
        rw [hj] at hs
        obtain ⟨hjl, hje⟩ := List.getElem?_eq_some_iff.1 hj
        have hg := flatten_get (C := (show List (List (Nest α L)) from C)) hi hjl
        obtain ⟨hkl, hke⟩ := List.getElem?_eq_some_iff.1 hg
        have hd : Nest.sub L (List.flatten (α := Nest α L) C)[(List.take i C).flatten.length + j] path = some ⟨K, d⟩ := by
          have : (List.flatten (α := Nest α L) C)[(List.take i C).flatten.length + j] = e := by
            rw [← hje]; exact hke
          rw [this]; exact hs
        obtain ⟨k, hk1, hk2, hk3⟩ := ih L (holds_down h) hkl hd
        refine ⟨k, ?_, hk2, hk3⟩
        simp only [NV.follow, NV.child, h1, bind, Except.bind, pure, Except.pure]
        exact hk1

theorem size_inv {W L : Nat} {v : NV α} {C : List (Nest α L)} (h : Inv L v C) (hf : C.length < 2 ^ W) :
    v.size W L = C.length := by
  rcases h with ⟨h1, _, h3⟩ | h
  · simp [NV.size, h3 L (Nat.le_refl _), h1]
  · simp only [NV.size, h.1 L (Nat.le_refl _), offsAt_len]
    rw [if_neg (by omega), Nat.add_sub_cancel, Nat.mod_eq_of_lt hf]

/-- **C23** (reading back).  For every depth of at least two and every sequence of emplaced nested containers: `size()` is the
number of emplaced containers, nested iteration yields exactly the emplaced content, and indexing with any
chain of `operator[]` reaches the sub-container at that path: its `size()` and its (nested) content agree. -/
theorem C23_content (W L : Nat) (C : List (Nest α (L + 1))) (hf : Fits W (L + 1) C) :
    (build W (L + 1) C).size W (L + 1) = C.length ∧
    (build W (L + 1) C).iterate W (L + 1) = .ok C ∧
    ∀ i c path K (d : Nest α K), C[i]? = some c → Nest.sub (L + 1) c path = some ⟨K, d⟩ →
      ∃ k, (build W (L + 1) C).follow (L + 1) i path = .ok (K, k) ∧
        (build W (L + 1) C).bucketSize K k = .ok (Nest.count K d) ∧ (build W (L + 1) C).toNest K k = .ok d := by
  have hI := build_inv C hf
  have hs := size_inv hI (fits_len (L + 1) C hf)
  refine ⟨hs, ?_, ?_⟩
  · unfold NV.iterate
    rw [hs]
    rcases hI with ⟨h1, _, _⟩ | h
    · subst h1; rfl
    · have hm : ∀ (n b : Nat), b + n = C.length →
          (List.range' b n).mapM ((build W (L + 1) C).toMeta (L + 1)) = .ok (C.drop b) := by
        intro n
        induction n with
        | zero => intro b hb; rw [List.drop_of_length_le (i := b) (l := C) (by omega)]; rfl
        | succ n ihn =>
          intro b hb
          rw [List.range'_succ, List.mapM_cons, show (build W (L + 1) C).toMeta (L + 1) b = _ from toNest_holds (L + 1) h (show b < C.length by omega),
            ihn (b + 1) (by omega), List.drop_eq_getElem_cons (show b < C.length by omega)]
          rfl
      rw [List.range_eq_range', hm C.length 0 (by omega)]
      rfl
  · intro i c path K d hc hd
    obtain ⟨hi, hc2⟩ := List.getElem?_eq_some_iff.1 hc
    subst hc2
    rcases hI with ⟨h1, _, _⟩ | h
    · subst h1; simp at hi
    · exact follow_holds path (L + 1) h hi hd

/-- **C23 is violated** for N = 1: iterating over any container of any nvec of depth one is undefined behaviour. -/
theorem C23_depth_one_violated (W : Nat) (C : List (Nest α 0)) (hf : Fits W 0 C) (hne : C ≠ []) :
    (build W 0 C).size W 0 = C.length ∧ (∀ i, (build W 0 C).toMeta 0 i = .error .ub) ∧
    (build W 0 C).iterate W 0 = .error .ub := by
  have hs := size_inv (build_inv C hf) (fits_len 0 C hf)
  refine ⟨hs, fun _ => rfl, ?_⟩
  unfold NV.iterate
  rw [hs]
  cases C with
  | nil => exact absurd rfl hne
  | cons c C =>
    rw [List.length_cons, List.range_succ_eq_map, List.mapM_cons]
    rfl

example : (build 32 0 ([[1, 2], [3]] : List (Nest Nat 0))).size 32 0 = 2 ∧
    (build 32 0 ([[1, 2], [3]] : List (Nest Nat 0))).iterate 32 0 = .error .ub := by decide

/-- Depth 3 content (N = 3). -/
def exC : List (Nest Nat 2) := [[[[1, 2], []], []], [], [[[3]], [[4], [5, 6]]]]

example : Fits 32 2 exC := by simp [Fits, exC]
example : (build 32 2 exC).iterate 32 2 = .ok exC := by decide
example : Nest.sub 2 ([[[3]], [[4], [5, 6]]] : List (List (List Nat))) [1, 1] = some ⟨0, [5, 6]⟩ := rfl

/-- Number of leaf buckets. -/
def leafCount : (L : Nat) → List (Nest α L) → Nat
  | 0, C => C.length
  | L + 1, C => leafCount L (List.flatten (α := Nest α L) C)

theorem index0_len : (L : Nat) → {v : NV α} → {C : List (Nest α L)} → Holds L v C →
    (v.index 0).length = leafCount L C + 1
  | 0, v, C, h => by rw [h.1 0 (Nat.le_refl _), offsAt_len]; rfl
  | L + 1, v, C, h => index0_len L (holds_down h)

/-- **C23** (`size(i…)` and `at`, partial).  `size(i)` is the size of container `i` for every depth, provided
`i` is at most the number of leaf buckets; for N = 2 `size(i, j)` is the size of leaf bucket `j` of
container `i` and `at(i, j)` its content.  Missing: `size` with two or more indices for N ≥ 3, `size(i)`
with few leaf buckets, and the range checks; refuted below. -/
theorem C23_access_partial (W L : Nat) (C : List (Nest α L)) (hf : Fits W L C) :
    (∀ i c, C[i]? = some c → i ≤ leafCount L C →
      (build W L C).sizeOf L i [] = .ok (Nest.count L c)) ∧
    (∀ (hL : L = 1) (i j : Nat) (b : List α), ((hL ▸ C : List (Nest α 1))[i]?.bind fun c => (c : List (List α))[j]?) = some b →
      (build W L C).sizeOf 1 i [j] = .ok b.length ∧ (build W L C).at2 i j = .ok b) := by
  have hI := build_inv C hf
  constructor
  · intro i c hc hi0
    obtain ⟨hi, hc2⟩ := List.getElem?_eq_some_iff.1 hc
    subst hc2
    rcases hI with ⟨h1, _, _⟩ | h
    · subst h1; simp at hi
    · have e : decide (i < ((build W L C).index 0).length) = true := by
        rw [index0_len L h]; exact decide_eq_true (by omega)
      simp only [NV.sizeOf, List.length_nil, e, verify_true, bind, Except.bind, if_true, NV.getSize, Nat.sub_zero]
      exact bucketSize_holds L h hi
  · intro hL i j b hb
    subst hL
    simp only at hb
    cases hc : C[i]? with
    | none => rw [hc] at hb; cases hb
    | some c =>
      rw [hc] at hb
      obtain ⟨hi, hc2⟩ := List.getElem?_eq_some_iff.1 hc
      subst hc2
      simp only [Option.bind_some] at hb
      obtain ⟨hj, hb2⟩ := List.getElem?_eq_some_iff.1 hb
      subst hb2
      rcases hI with ⟨h1, _, _⟩ | h
      · subst h1; simp at hi
      · obtain ⟨h1, h2, h3⟩ := idx_offs (v := build W 1 C) (L := 1) (C := C)
          (by simpa [offsAt] using h.1 1 (Nat.le_refl _)) hi
        have hd := holds_down h
        have hg := flatten_get (C := (show List (List (List α)) from C)) hi hj
        obtain ⟨hkl, hke⟩ := List.getElem?_eq_some_iff.1 hg
        have e1 : decide (i < ((build W 1 C).index 1).length) = true := by
          rw [h.1 1 (Nat.le_refl _), offsAt_len]; exact decide_eq_true (by omega)
        constructor
        · simp only [NV.sizeOf, List.length_singleton, e1, verify_true, bind, Except.bind, List.cons_ne_self,
            reduceCtorEq, if_false, h1, NV.getSize, Nat.sub_self]
          rw [bucketSize_holds 0 hd hkl]
          simp only [Nest.count]
          exact congrArg (fun l => Except.ok (List.length l)) hke
        · simp only [NV.at2, e1, verify_true, bind, Except.bind, h1]
          rw [leaf_holds hd hkl]
          exact congrArg Except.ok hke

/-- Depth 2 content. -/
def exC2 : List (Nest Nat 1) := [[[1, 2], [3]], [], [[4], [5, 6]]]

example : (build 32 1 exC2).sizeOf 1 2 [] = .ok 2 ∧ (build 32 1 exC2).sizeOf 1 2 [1] = .ok 2 ∧
    (build 32 1 exC2).at2 2 1 = .ok [5, 6] := by decide

theorem at2_other {v : NV α} {C : List (List (List α))} (h : v.index 1 = offs C) (hd : Holds 0 v C.flatten)
    {i i' j' : Nat} (hlt : i < i') (hi' : i' < C.length) (hj' : j' < C[i'].length) :
    ∃ d, v.at2 i (C[i].length + d) = .ok C[i'][j'] := by
  have hi : i < C.length := by omega
  obtain ⟨h1, h2, h3⟩ := idx_offs h hi
  obtain ⟨hkl, hke⟩ := List.getElem?_eq_some_iff.1 (flatten_get hi' hj')
  have e1 : decide (i < (v.index 1).length) = true := by
    rw [h, offs_length]; exact decide_eq_true (by omega)
  have hle := take_le_flatten (C.take i') (i + 1)
  rw [List.take_take, Nat.min_eq_left (by omega), take_succ_length hi] at hle
  refine ⟨(C.take i').flatten.length + j' - ((C.take i).flatten.length + C[i].length), ?_⟩
  simp only [NV.at2, e1, verify_true, bind, Except.bind, h1]
  rw [show (C.take i).flatten.length + (C[i].length + ((C.take i').flatten.length + j' -
    ((C.take i).flatten.length + C[i].length))) = (C.take i').flatten.length + j' by omega, leaf_holds hd hkl, hke]

theorem at2_end {v : NV α} {C : List (List (List α))} (h : v.index 1 = offs C) (hd : Holds 0 v C.flatten) (j : Nat) :
    v.at2 C.length j = .error .ub := by
  have e1 : decide (C.length < (v.index 1).length) = true := by
    rw [h, offs_length]; exact decide_eq_true (by omega)
  have hi : v.idx 1 C.length = .ok C.flatten.length := by
    simp only [NV.idx, h]
    rw [offs_get? (Nat.le_refl _), List.take_length]
  have hl : (v.index 0).length = C.flatten.length + 1 := index0_len 0 hd
  have hx : v.idx 0 (C.flatten.length + j + 1) = .error .ub := by
    unfold NV.idx
    rw [List.getElem?_eq_none (by rw [hl]; omega)]
  simp only [NV.at2, e1, verify_true, bind, Except.bind, hi, NV.leaf, hx]
  unfold NV.idx
  split
  · next he => split at he <;> cases he; rfl
  · rfl

/-- **C23 is violated**: for a second index that is out of range `at(i, j)` returns the content of any leaf
bucket of any later container, for a suitable `j`; and for a first index equal to `size()` it does not throw
but reads outside of the index. -/
theorem C23_at_violated (W : Nat) (C : List (Nest α 1)) (hf : Fits W 1 C) (hne : C ≠ []) :
    (∀ (i i' j' : Nat) (c c' : List (List α)) (b : List α), i < i' → C[i]? = some c → C[i']? = some c' →
      c'[j']? = some b → ∃ j, c.length ≤ j ∧ (build W 1 C).at2 i j = .ok b) ∧
    ∀ j, (build W 1 C).at2 C.length j = .error .ub := by
  rcases build_inv C hf with ⟨h1, _, _⟩ | h
  · exact absurd h1 hne
  have hd := holds_down h
  have hoff : (build W 1 C).index 1 = offs C := by simpa [offsAt] using h.1 1 (Nat.le_refl _)
  refine ⟨?_, at2_end hoff hd⟩
  intro i i' j' c c' b hlt hc hc' hb
  obtain ⟨hi, rfl⟩ := List.getElem?_eq_some_iff.1 hc
  obtain ⟨hi', rfl⟩ := List.getElem?_eq_some_iff.1 hc'
  obtain ⟨hj', rfl⟩ := List.getElem?_eq_some_iff.1 hb
  obtain ⟨d, e⟩ := at2_other hoff hd hlt hi' hj'
  exact ⟨_, Nat.le_add_right _ d, e⟩

example : (build 32 1 exC2).at2 0 2 = .ok [4] ∧ (build 32 1 exC2).at2 1 1 = .ok [5, 6] ∧
    (build 32 1 exC2).at2 3 0 = .error .ub := by decide
example : Fits 32 1 exC2 ∧ exC2[2]? = some [[4], [5, 6]] := ⟨by simp [Fits, exC2], rfl⟩

/-- **C23 is violated**: `at(i, j)` never throws for an existing container, whatever `j`. -/
theorem C23_at_unchecked_violated (W : Nat) (C : List (Nest α 1)) (hf : Fits W 1 C) (i j : Nat)
    (hi : i < C.length) : (build W 1 C).at2 i j ≠ .error .exn := by
  have hI := build_inv C hf
  rcases hI with ⟨h1, _, _⟩ | h
  · subst h1; simp at hi
  · obtain ⟨h1, h2, h3⟩ := idx_offs (v := build W 1 C) (L := 1) (C := C)
      (by simpa [offsAt] using h.1 1 (Nat.le_refl _)) hi
    have e1 : decide (i < ((build W 1 C).index 1).length) = true := by
      rw [h.1 1 (Nat.le_refl _), offsAt_len]; exact decide_eq_true (by omega)
    simp only [NV.at2, e1, verify_true, bind, Except.bind, h1, NV.leaf, NV.idx]
    repeat' split
    all_goals first
      | (intro hh; cases hh; done)
      | (rename_i hh; split at hh <;> cases hh <;> (intro he; cases he))
      | (rename_i hh; unfold require at hh; split at hh <;> cases hh; intro he; cases he)

/-- **C23 is violated**: `size(i)` throws for an existing container whenever there are fewer leaf buckets than
`i` (it is checked against the wrong level). -/
theorem C23_size_throws_violated (W L : Nat) (C : List (Nest α L)) (hf : Fits W L C) (i : Nat)
    (hi : i < C.length) (hlt : leafCount L C < i) : (build W L C).sizeOf L i [] = .error .exn := by
  have hI := build_inv C hf
  rcases hI with ⟨h1, _, _⟩ | h
  · subst h1; simp at hi
  · have e : decide (i < ((build W L C).index 0).length) = false := by
      rw [index0_len L h]; exact decide_eq_false (by omega)
    simp [NV.sizeOf, e, bind, Except.bind]

example : leafCount 1 ([[], [], []] : List (Nest Nat 1)) < 2 := by decide

/-- **C23 is violated** for N = 3: `size(i, j)` and `size(i, j, k)` look at the wrong level. -/
theorem C23_size_depth_violated :
    let C : List (Nest Nat 2) := [[[[1, 1]], [[2], [3], [4]], [[5, 5, 5]]], [[[6, 6], [7]]]]
    (build 32 2 C).sizeOf 2 1 [0] = .ok 3 ∧ Nest.sub 2 C[1] [0] = some ⟨1, ([[6, 6], [7]] : List (List Nat))⟩ ∧
    (build 32 2 C).sizeOf 2 1 [0, 0] = .ok 3 ∧ Nest.sub 2 C[1] [0, 0] = some ⟨0, ([6, 6] : List Nat)⟩ ∧
    (build 32 2 C).sizeOf 2 0 [2, 0] = .ok 1 ∧ Nest.sub 2 C[0] [2, 0] = some ⟨0, ([5, 5, 5] : List Nat)⟩ := by
  refine ⟨by decide, rfl, by decide, rfl, by decide, rfl⟩

end Cista.Multi.NVec
