import Verif.Multi.Offs

set_option linter.unusedSimpArgs false

/-!
# Model of `fws_multimap`

Source: `/repo/include/cista/containers/fws_multimap.h`.  The two vectors are modelled by their element
lists (C09).  `W` is the width of the unsigned `index_t`.  `assert(!complete_)` is a caller obligation.
-/
namespace Cista.Multi.Fws

/-- fws_multimap.h:197-200. -/
structure FM (α : Type _) where
  data : List α
  index : List Nat
  current : Nat
  complete : Bool
deriving DecidableEq, Repr

variable {α : Type _}

def FM.empty : FM α := ⟨[], [], 0, false⟩

/-- fws_multimap.h:151-159. -/
def FM.pushBack (m : FM α) (x : α) : FM α := { m with data := m.data ++ [x] }

/-- fws_multimap.h:161. -/
def FM.currentKey (W : Nat) (m : FM α) : Nat := m.index.length % 2 ^ W

/-- fws_multimap.h:163-167. -/
def FM.finishKey (W : Nat) (m : FM α) : FM α :=
  { m with index := m.index ++ [m.current], current := m.data.length % 2 ^ W }

/-- fws_multimap.h:169-173. -/
def FM.finishMap (W : Nat) (m : FM α) : FM α :=
  { m with index := m.index ++ [m.data.length % 2 ^ W], complete := true }

/-- fws_multimap.h:21-33, 179-182: iterate over the entry of key `k`. -/
def FM.entry (m : FM α) (k : Nat) : Res (List α) :=
  match m.index[k]?, m.index[k + 1]? with
  | some b, some e => do
    require (b ≤ e && e ≤ m.data.length)
    return (m.data.drop b).take (e - b)
  | _, _ => .error .ub

/-- fws_multimap.h:38-45 `entry[i]`. -/
def FM.entryAt (m : FM α) (k i : Nat) : Res α :=
  match m.index[k]? with
  | some b => match m.data[b + i]? with
    | some x => .ok x
    | none => .error .ub
  | none => .error .ub

/-- fws_multimap.h:184-185: the index of `end()`; `begin()` is 0. -/
def FM.endIdx (W : Nat) (m : FM α) : Nat := (m.index.length + 2 ^ 64 - 1) % 2 ^ 64 % 2 ^ W

/-- Iterate from `begin()` to `end()`. -/
def FM.iterate (W : Nat) (m : FM α) : Res (List (List α)) := (List.range (m.endIdx W)).mapM m.entry

/-! ## Iterator arithmetic on the index (fws_multimap.h:69-99); `n` is an `int` -/

/-- fws_multimap.h:69-72, 89-91 `it += n`, `it + n`. -/
def iterAdd (W : Nat) (i : Nat) (n : Int) : Nat := (((i : Int) + n) % (2 ^ W : Int)).toNat
/-- fws_multimap.h:74-77 `it -= n`. -/
def iterSubAssign (W : Nat) (i : Nat) (n : Int) : Nat := (((i : Int) - n) % (2 ^ W : Int)).toNat
/-- fws_multimap.h:93-95 `it - n`; adds. -/
def iterSub (W : Nat) (i : Nat) (n : Int) : Nat := (((i : Int) + n) % (2 ^ W : Int)).toNat
/-- fws_multimap.h:97-99 `a - b` converted to `int` (for an index type of at least 32 bits). -/
def iterDiff (W : Nat) (i j : Nat) : Int :=
  (BitVec.ofInt 32 (((i : Int) - (j : Int)) % (2 ^ W : Int))).toInt

/-! ## Building -/

/-- Push the values of one key and finish it. -/
def addGroup (W : Nat) (m : FM α) (g : List α) : FM α := (g.foldl FM.pushBack m).finishKey W

/-- Push all groups, then finish the map. -/
def build (W : Nat) (gs : List (List α)) : FM α := (gs.foldl (addGroup W) .empty).finishMap W

theorem foldl_push (g : List α) : ∀ m : FM α, g.foldl FM.pushBack m = { m with data := m.data ++ g } := by
  induction g with
  | nil => intro m; simp
  | cons x g ih => intro m; rw [List.foldl_cons, ih]; simp [FM.pushBack]

theorem groups (W : Nat) (gs : List (List α)) : gs.flatten.length < 2 ^ W →
    gs.foldl (addGroup W) .empty =
      ⟨gs.flatten, (offs gs).take gs.length, gs.flatten.length, false⟩ := by
  refine snocInd (P := fun gs => gs.flatten.length < 2 ^ W → gs.foldl (addGroup W) .empty =
      ⟨gs.flatten, (offs gs).take gs.length, gs.flatten.length, false⟩) ?_ ?_ gs
  · intro _; simp [FM.empty, offs]
  · intro gs g ih h
    have h1 := flatten_append_length gs [g]
    simp only [List.flatten_cons, List.flatten_nil, List.append_nil] at h1
    rw [List.foldl_append, ih (by omega)]
    simp only [List.foldl_cons, List.foldl_nil, addGroup, foldl_push, FM.finishKey]
    have e1 : (gs ++ [g]).flatten = gs.flatten ++ g := by simp
    rw [e1] at h ⊢
    rw [Nat.mod_eq_of_lt h]
    congr 1
    rw [offs_snoc, List.length_append, List.length_singleton]
    rw [List.take_append_of_le_length (by simp), List.take_of_length_le (i := gs.length + 1) (l := offs gs) (by simp)]
    have : offs gs = (offs gs).take gs.length ++ [gs.flatten.length] := by
      conv => lhs; rw [← List.take_append_drop gs.length (offs gs)]
      congr 1
      apply List.ext_getElem?
      intro k
      rw [List.getElem?_drop]
      cases k with
      | zero => rw [Nat.add_zero, offs_get? (Nat.le_refl _)]; simp
      | succ k => rw [List.getElem?_eq_none (by simp), List.getElem?_eq_none (by simp)]
    exact this.symm

theorem offs_take_length (gs : List (List α)) :
    (offs gs).take gs.length ++ [gs.flatten.length] = offs gs := by
  conv => rhs; rw [← List.take_append_drop gs.length (offs gs)]
  congr 1
  apply List.ext_getElem?
  intro k
  rw [List.getElem?_drop]
  cases k with
  | zero => rw [Nat.add_zero, offs_get? (Nat.le_refl _)]; simp
  | succ k => rw [List.getElem?_eq_none (by simp), List.getElem?_eq_none (by simp)]

theorem build_eq (W : Nat) (gs : List (List α)) (h : gs.flatten.length < 2 ^ W) :
    build W gs = ⟨gs.flatten, offs gs, gs.flatten.length, true⟩ := by
  rw [build, groups W gs h]
  simp only [FM.finishMap, Nat.mod_eq_of_lt h, offs_take_length]

theorem entry_offs (gs : List (List α)) (c : Nat) (b : Bool) {k : Nat} (hk : k < gs.length) :
    FM.entry ⟨gs.flatten, offs gs, c, b⟩ k = .ok gs[k] := by
  unfold FM.entry
  have hle := take_le_flatten gs (k + 1)
  have hs := take_succ_length hk
  simp only [offs_get? (Nat.le_of_lt hk), offs_get? hk]
  have hr : (decide ((gs.take k).flatten.length ≤ (gs.take (k + 1)).flatten.length) &&
      decide ((gs.take (k + 1)).flatten.length ≤ gs.flatten.length)) = true := by
    rw [Bool.and_eq_true]
    exact ⟨decide_eq_true (by omega), decide_eq_true (by omega)⟩
  simp only [hr, require_true, bind, Except.bind, pure, Except.pure]
  rw [hs, Nat.add_sub_cancel_left]
  have := flatten_slice hk []
  rw [List.append_nil] at this
  rw [this]

theorem mapM_ok {β γ : Type _} {f : β → Res γ} {g : β → γ} (l : List β) (h : ∀ x ∈ l, f x = .ok (g x)) :
    l.mapM f = .ok (l.map g) := by
  induction l with
  | nil => rfl
  | cons a l ih =>
    rw [List.mapM_cons, h a (by simp), ih (fun x hx => h x (by simp [hx]))]
    rfl

/-- **C21**.  After pushing the values of each key followed by `finish_key`, then `finish_map`: the entry of
key `k` is exactly the `k`-th group, element access agrees, iteration from `begin()` to `end()` visits the
groups in key order, and the index has one more element than there are keys.  (The elements and keys must
be countable by the index type.) -/
theorem C21_groups (W : Nat) (gs : List (List α)) (h : gs.flatten.length < 2 ^ W) (hW : gs.length < 2 ^ W)
    (hW2 : gs.length + 1 < 2 ^ 64) :
    (∀ k g, gs[k]? = some g → (build W gs).entry k = .ok g ∧
      ∀ i x, g[i]? = some x → (build W gs).entryAt k i = .ok x) ∧
    (build W gs).iterate W = .ok gs ∧
    (build W gs).index.length = gs.length + 1 ∧ (build W gs).data = gs.flatten ∧
    (build W gs).complete = true := by
  rw [build_eq W gs h]
  refine ⟨?_, ?_, by simp, rfl, rfl⟩
  · intro k g hg
    obtain ⟨hk, hg2⟩ := List.getElem?_eq_some_iff.1 hg
    subst hg2
    refine ⟨entry_offs gs _ _ hk, ?_⟩
    intro i x hx
    unfold FM.entryAt
    simp only [offs_get? (Nat.le_of_lt hk)]
    have hs := flatten_slice hk []
    rw [List.append_nil] at hs
    have hi : i < gs[k].length := (List.getElem?_eq_some_iff.1 hx).1
    have h8 := congrArg (fun l => l[i]?) hs
    simp only [List.getElem?_take, if_pos hi, List.getElem?_drop] at h8
    rw [h8, hx]
  · unfold FM.iterate FM.endIdx
    have e : ∀ M, gs.length + 1 < M → ((offs gs).length + M - 1) % M % 2 ^ W = gs.length := by
      intro M hM
      rw [offs_length, show gs.length + 1 + M - 1 = gs.length + M by omega, Nat.add_mod_right,
        Nat.mod_eq_of_lt (a := gs.length) (b := M) (by omega), Nat.mod_eq_of_lt hW]
    rw [e _ hW2]
    rw [mapM_ok (g := fun i => (gs[i]?).getD [])]
    · congr 1
      apply List.ext_getElem?
      intro k
      by_cases hk : k < gs.length
      · rw [List.getElem?_map, List.getElem?_range hk]; simp [hk]
      · rw [List.getElem?_eq_none (by simp; omega), List.getElem?_eq_none (by omega)]
    · intro i hi
      rw [List.mem_range] at hi
      rw [entry_offs gs _ _ hi]; simp [hi]

example : (build 32 [[1, 2], [], [3]]).iterate 32 = .ok [[1, 2], [], [3]] := by decide

/-- **C21** While a map is built, `current_key()` is the number of finished keys: the key the elements pushed now will belong to. -/
theorem C21_current_key (W : Nat) (gs : List (List α)) (t : List α) (h : gs.flatten.length < 2 ^ W) (hW : gs.length < 2 ^ W) :
    (t.foldl FM.pushBack (gs.foldl (addGroup W) .empty)).currentKey W = gs.length := by
  have hl : gs.length < (offs gs).length := by simp
  rw [foldl_push, groups W gs h]
  simp only [FM.currentKey, List.length_take]
  rw [Nat.min_eq_left (by omega), Nat.mod_eq_of_lt hW]

example : ([5].foldl FM.pushBack ([[1, 2], [], [3]].foldl (addGroup 32) .empty) : FM Nat).currentKey 32 = 3 := by decide

/-- **C21**, iterator arithmetic (partial): `+`, `+=`, `-=` and the difference of two iterators move/measure
by the stated distance whenever the target is representable.  Missing: `it - n`, refuted below. -/
theorem C21_iterator_partial (W : Nat) (i : Nat) (n : Int) :
    (0 ≤ (i : Int) + n → (i : Int) + n < 2 ^ W → (iterAdd W i n : Int) = i + n) ∧
    (0 ≤ (i : Int) - n → (i : Int) - n < 2 ^ W → (iterSubAssign W i n : Int) = i - n) ∧
    (∀ j : Nat, 32 ≤ W → i < 2 ^ W → j < 2 ^ W → -2 ^ 31 ≤ (i : Int) - j → (i : Int) - j < 2 ^ 31 →
      iterDiff W i j = (i : Int) - j) := by
  refine ⟨?_, ?_, ?_⟩
  · intro h1 h2
    rw [iterAdd, Int.emod_eq_of_lt h1 h2, Int.toNat_of_nonneg h1]
  · intro h1 h2
    rw [iterSubAssign, Int.emod_eq_of_lt h1 h2, Int.toNat_of_nonneg h1]
  · intro j hW _ _ h1 h2
    unfold iterDiff
    rw [BitVec.toInt_ofInt]
    have hd : ((2 : Int) ^ 32) ∣ 2 ^ W := by
      obtain ⟨k, rfl⟩ := Nat.exists_eq_add_of_le hW
      exact ⟨2 ^ k, by rw [Int.pow_add]⟩
    have e : Int.bmod (((i : Int) - j) % 2 ^ W) (2 ^ 32) = Int.bmod ((i : Int) - j) (2 ^ 32) := by
      have : (((i : Int) - j) % 2 ^ W) % ((2 ^ 32 : Nat) : Int) = ((i : Int) - j) % ((2 ^ 32 : Nat) : Int) := by
        rw [show ((2 ^ 32 : Nat) : Int) = (2 : Int) ^ 32 by norm_cast]
        exact Int.emod_emod_of_dvd _ hd
      unfold Int.bmod
      rw [this]
    rw [e, Int.bmod_def]
    split <;> omega

example : iterAdd 32 5 (-3) = 2 ∧ iterDiff 32 3 5 = -2 := by decide +kernel

/-- **C21 is violated** by `it - n`: for every position and every `n` with `0 < n`, `2n < 2^W` it does not
yield the iterator `n` positions before (it yields the one `n` positions after). -/
theorem C21_iterator_violated (W i : Nat) (n : Int) (h0 : 0 < n) (h1 : n ≤ i) (h2 : i + n < 2 ^ W) :
    (iterSub W i n : Int) = i + n ∧ (iterSub W i n : Int) ≠ i - n := by
  have : (iterSub W i n : Int) = i + n := by
    rw [iterSub, Int.emod_eq_of_lt (by omega) h2, Int.toNat_of_nonneg (by omega)]
  exact ⟨this, by omega⟩

example : iterSub 32 5 2 = 7 := by decide

/-- Values pushed after the last `finish_key` are silently attributed to the last key. -/
theorem C21_unfinished_key_violated (W : Nat) (gs : List (List α)) (g t : List α)
    (h : (gs ++ [g ++ t]).flatten.length < 2 ^ W) :
    ((t.foldl FM.pushBack ((gs ++ [g]).foldl (addGroup W) .empty)).finishMap W).entry gs.length =
      .ok (g ++ t) := by
  have h1 : (gs ++ [g ++ t]).flatten = (gs ++ [g]).flatten ++ t := by simp
  rw [foldl_push, groups W (gs ++ [g]) (by rw [h1, List.length_append] at h; omega)]
  simp only [FM.finishMap, ← h1, Nat.mod_eq_of_lt h]
  have e : (offs (gs ++ [g])).take (gs ++ [g]).length = (offs (gs ++ [g ++ t])).take (gs ++ [g ++ t]).length := by
    simp [offs_snoc]
  rw [e, offs_take_length]
  have := entry_offs (gs ++ [g ++ t]) (gs ++ [g]).flatten.length true (k := gs.length) (by simp)
  rw [this]; simp

end Cista.Multi.Fws
