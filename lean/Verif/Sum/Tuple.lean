import Verif.MM.Model
import Verif.MM.Lemmas
import Verif.Basic

/-!
# tuple

Model of `cista::tuple<Ts...>` (include/cista/containers/tuple.h): placement of the elements in `mem_`, access, and
comparison.  An element type is given by `sizeof` and `alignof`; element values are byte strings of that size.
-/
set_option linter.unusedSimpArgs false

namespace Cista.Tuple

/-- `sizeof(T)`, `alignof(T)`. -/
structure Ty where
  size : Nat
  align : Nat
deriving DecidableEq, Repr

/-- tuple.h:38-44 `max_align_of`. -/
def maxAlign : List Ty → Nat
  | [] => 1
  | [t] => t.align
  | t :: ts => max t.align (maxAlign ts)

/-- tuple.h:49-51. -/
def pad (a cur : Nat) : Nat := if cur % a ≠ 0 then cur + (a - cur % a) % a else cur

/-- tuple.h:46-64 `get_offset` (sums of sizes are assumed to stay below `2^64`). -/
def getOffset : List Ty → Nat → Nat → Nat
  | [], _, cur => cur
  | t :: ts, idx, cur =>
    if idx = 0 then pad t.align cur
    else if ts = [] then
      (if idx = 1 then pad t.align cur + t.size + t.size else pad t.align cur + t.size)
    else getOffset ts (idx - 1) (pad t.align cur + t.size)

/-- tuple.h:66-69 `get_total_size`. -/
def totalSize (ts : List Ty) : Nat := getOffset ts (ts.length + 1) 0

/-- Where element `i` is (tuple.h:174-182 `get_ptr`), relative to `mem_`. -/
def offset (ts : List Ty) (i : Nat) : Nat := getOffset ts i 0

theorem pad_ge (a cur : Nat) : cur ≤ pad a cur := by unfold pad; split <;> omega

theorem pad_mod {a : Nat} (ha : 0 < a) (cur : Nat) : pad a cur % a = 0 := by
  unfold pad
  split
  · have h := Nat.mod_lt cur ha
    rw [Nat.mod_eq_of_lt (show a - cur % a < a by omega)]
    have h2 : cur + (a - cur % a) = a * (cur / a) + a := by have := Nat.div_add_mod cur a; omega
    rw [h2, Nat.add_mod_right, Nat.mul_mod_right]
  · omega

/-- Nothing is wasted beyond the alignment. -/
theorem pad_lt {a : Nat} (ha : 0 < a) (cur : Nat) : pad a cur < cur + a := by
  unfold pad
  split
  · have h := Nat.mod_lt cur ha
    rw [Nat.mod_eq_of_lt (show a - cur % a < a by omega)]
    omega
  · omega

theorem getOffset_ge : ∀ (ts : List Ty) (i cur : Nat), cur ≤ getOffset ts i cur
  | [], _, _ => Nat.le_refl _
  | t :: ts, i, cur => by
    have h := pad_ge t.align cur
    unfold getOffset
    split
    · exact h
    · split
      · split <;> omega
      · have := getOffset_ge ts (i - 1) (pad t.align cur + t.size)
        omega

theorem getOffset_mod : ∀ {ts : List Ty} {i : Nat} {t : Ty} (cur : Nat), ts[i]? = some t → 0 < t.align →
    getOffset ts i cur % t.align = 0
  | [], _, _, _, h, _ => by simp at h
  | t :: ts, 0, u, cur, h, ha => by
    simp at h; subst h
    simp [getOffset, pad_mod ha]
  | t :: ts, i + 1, u, cur, h, ha => by
    have h' : ts[i]? = some u := by simpa using h
    have hne : ts ≠ [] := by rintro rfl; simp at h'
    simp only [getOffset, Nat.add_eq_zero_iff, Nat.succ_ne_self, and_false, if_false, hne, Nat.add_sub_cancel]
    exact getOffset_mod _ h' ha

theorem getOffset_lt : ∀ {ts : List Ty} {i j : Nat} {t u : Ty} (cur : Nat), ts[i]? = some t → ts[j]? = some u → i < j →
    getOffset ts i cur + t.size ≤ getOffset ts j cur
  | [], _, _, _, _, _, h, _, _ => by simp at h
  | t :: ts, _, 0, _, _, _, _, _, h => by omega
  | t :: ts, 0, j + 1, v, u, cur, h, hj, _ => by
    simp at h; subst h
    have h' : ts[j]? = some u := by simpa using hj
    have hne : ts ≠ [] := by rintro rfl; simp at h'
    simp only [getOffset, if_true, Nat.add_eq_zero_iff, Nat.succ_ne_self, and_false, if_false, hne, Nat.add_sub_cancel]
    exact getOffset_ge _ _ _
  | t :: ts, i + 1, j + 1, v, u, cur, hi, hj, hij => by
    have hi' : ts[i]? = some v := by simpa using hi
    have hj' : ts[j]? = some u := by simpa using hj
    have hne : ts ≠ [] := by rintro rfl; simp at hi'
    simp only [getOffset, Nat.add_eq_zero_iff, Nat.succ_ne_self, and_false, if_false, hne, Nat.add_sub_cancel]
    exact getOffset_lt _ hi' hj' (by omega)

theorem getOffset_end : ∀ {ts : List Ty} {i : Nat} {t : Ty} (cur : Nat), ts[i]? = some t →
    getOffset ts i cur + t.size ≤ getOffset ts (ts.length + 1) cur
  | [], _, _, _, h => by simp at h
  | [t], 0, u, cur, h => by
    simp at h; subst h
    simp [getOffset]
  | [t], i + 1, u, cur, h => by simp at h
  | t :: s :: ts, 0, u, cur, h => by
    simp at h; subst h
    rw [getOffset, getOffset]
    simp only [if_true, List.length_cons, Nat.add_eq_zero_iff, Nat.succ_ne_self, and_false, if_false, List.cons_ne_nil,
      reduceCtorEq]
    exact getOffset_ge _ _ _
  | t :: s :: ts, i + 1, u, cur, h => by
    have h' : (s :: ts)[i]? = some u := by simpa using h
    have ih := getOffset_end (pad t.align cur + t.size) h'
    rw [getOffset, getOffset]
    simp only [List.length_cons, Nat.add_eq_zero_iff, Nat.succ_ne_self, and_false, if_false, List.cons_ne_nil,
      reduceCtorEq, Nat.add_sub_cancel] at ih ⊢
    exact ih

/-- **C28**: elements are aligned, follow each other without overlap in declaration order, and lie inside the
storage; for all lists of sizes and alignments. -/
theorem C28_layout (ts : List Ty) (ha : ∀ t ∈ ts, 0 < t.align) :
    (∀ (i : Nat) (t : Ty), ts[i]? = some t → offset ts i % t.align = 0 ∧ offset ts i + t.size ≤ totalSize ts) ∧
    (∀ (i j : Nat) (t u : Ty), ts[i]? = some t → ts[j]? = some u → i < j → offset ts i + t.size ≤ offset ts j) :=
  ⟨fun _ t h => ⟨getOffset_mod 0 h (ha t (List.mem_of_getElem? h)), getOffset_end 0 h⟩,
    fun _ _ _ _ hi hj hij => getOffset_lt 0 hi hj hij⟩

example : (List.range 4).map (offset [⟨1, 1⟩, ⟨8, 8⟩, ⟨2, 2⟩, ⟨4, 4⟩]) = [0, 8, 16, 20] ∧
    totalSize [⟨1, 1⟩, ⟨8, 8⟩, ⟨2, 2⟩, ⟨4, 4⟩] = 24 := by decide

theorem dvd_maxAlign : ∀ {ts : List Ty} {t : Ty}, (∀ u ∈ ts, ∃ k, u.align = 2 ^ k) → t ∈ ts →
    t.align ∣ maxAlign ts ∧ ∃ k, maxAlign ts = 2 ^ k
  | [], _, _, h => by simp at h
  | [u], t, hp, h => by
    simp at h; subst h
    exact ⟨Nat.dvd_refl _, hp t (by simp)⟩
  | u :: v :: ts, t, hp, h => by
    obtain ⟨k, hk⟩ := hp u (by simp)
    have ih : ∀ {t : Ty}, t ∈ v :: ts → t.align ∣ maxAlign (v :: ts) ∧ ∃ k, maxAlign (v :: ts) = 2 ^ k :=
      fun hm => dvd_maxAlign (fun w hw => hp w (List.mem_cons_of_mem _ hw)) hm
    obtain ⟨_, l, hl⟩ := ih (t := v) (by simp)
    have hm : maxAlign (u :: v :: ts) = 2 ^ max k l := by
      rw [show maxAlign (u :: v :: ts) = max u.align (maxAlign (v :: ts)) from rfl, hk, hl]
      rcases Nat.le_total k l with h | h
      · rw [Nat.max_eq_right h, Nat.max_eq_right (Nat.pow_le_pow_right (by omega) h)]
      · rw [Nat.max_eq_left h, Nat.max_eq_left (Nat.pow_le_pow_right (by omega) h)]
    refine ⟨?_, _, hm⟩
    rw [hm]
    rcases List.mem_cons.1 h with rfl | h
    · rw [hk]; exact Nat.pow_dvd_pow 2 (Nat.le_max_left _ _)
    · obtain ⟨h1, _⟩ := ih h
      rw [hl] at h1
      exact Nat.dvd_trans h1 (Nat.pow_dvd_pow 2 (Nat.le_max_right _ _))

/-- **C28**: with power-of-two alignments, the address of every element is aligned whenever the tuple itself is placed
at an address aligned for `max_align_of`. -/
theorem C28_address_aligned (ts : List Ty) (hp : ∀ t ∈ ts, ∃ k, t.align = 2 ^ k) (base : Nat)
    (hb : base % maxAlign ts = 0) (i : Nat) (t : Ty) (h : ts[i]? = some t) : (base + offset ts i) % t.align = 0 := by
  have hm := List.mem_of_getElem? h
  obtain ⟨k, hk⟩ := hp t hm
  have hd := (dvd_maxAlign hp hm).1
  have h1 := getOffset_mod 0 h (by rw [hk]; exact Nat.pow_pos (by omega))
  exact Nat.mod_eq_zero_of_dvd (Nat.dvd_add (Nat.dvd_trans hd (Nat.dvd_of_mod_eq_zero hb)) (Nat.dvd_of_mod_eq_zero h1))

example : (4096 + offset [⟨1, 1⟩, ⟨8, 8⟩] 1) % 8 = 0 := by decide

/-- **C28**: padding before an element is less than its alignment. -/
theorem C28_no_excess_padding (ts : List Ty) (i : Nat) (t u : Ty) (hi : ts[i]? = some t) (hj : ts[i + 1]? = some u)
    (ha : 0 < u.align) : offset ts (i + 1) < offset ts i + t.size + u.align := by
  have key : ∀ (ts : List Ty) (i cur : Nat) (t u : Ty), ts[i]? = some t → ts[i + 1]? = some u → 0 < u.align →
      getOffset ts (i + 1) cur < getOffset ts i cur + t.size + u.align := by
    intro ts
    induction ts with
    | nil => intro i cur t u h; simp at h
    | cons v ts ih =>
      intro i cur t u hi hj ha
      have hj' : ts[i]? = some u := by simpa using hj
      have hne : ts ≠ [] := by rintro rfl; simp at hj'
      cases i with
      | zero =>
        simp at hi; subst hi
        obtain ⟨w, ts', rfl⟩ := List.exists_cons_of_ne_nil hne
        simp at hj'; subst hj'
        simp only [getOffset, if_true, Nat.zero_add, Nat.one_ne_zero, if_false, reduceCtorEq, Nat.sub_self]
        exact pad_lt ha _
      | succ i =>
        have hi' : ts[i]? = some t := by simpa using hi
        rw [getOffset, getOffset]
        simp only [Nat.add_eq_zero_iff, Nat.succ_ne_self, and_false, if_false, hne, Nat.add_sub_cancel]
        exact ih i _ t u hi' hj' ha
  exact key ts i 0 t u hi hj ha

example : offset [⟨1, 1⟩, ⟨8, 8⟩] 1 < offset [⟨1, 1⟩, ⟨8, 8⟩] 0 + 1 + 8 := by decide

/-! ## Memory -/

abbrev Byte := BitVec 8

/-- Write the bytes of element `i` (placement new or assignment). -/
def put (ts : List Ty) (mem : List Byte) (i : Nat) (x : List Byte) : Res (List Byte) := do
  require (offset ts i + x.length ≤ mem.length)
  return MM.blit mem (offset ts i) x

/-- tuple.h:80-97 `get<I>`. -/
def get (ts : List Ty) (mem : List Byte) (i : Nat) : Res (List Byte) :=
  match ts[i]? with
  | none => .error .ub
  | some t => do
    require (offset ts i + t.size ≤ mem.length)
    return (mem.drop (offset ts i)).take t.size

/-- tuple.h:130-135 (and the folds 137-161): put elements `i, i + 1, …` in order. -/
def putAll (ts : List Ty) : List (List Byte) → Nat → List Byte → Res (List Byte)
  | [], _, mem => .ok mem
  | x :: xs, i, mem => do
    let mem ← put ts mem i x
    putAll ts xs (i + 1) mem

/-- tuple.h:124-126 construction from arguments, into uninitialised storage. -/
def construct (ts : List Ty) (xs : List (List Byte)) (mem : List Byte) : Res (List Byte) := putAll ts xs 0 mem

/-- tuple.h:147-150 `copy_assign` (also copy/move construction of elements, 142-145, 152-161, for byte-wise copyable
elements): read element `i` of `from`, write it, next. -/
def copyFrom (ts : List Ty) (src : List Byte) : Nat → Nat → List Byte → Res (List Byte)
  | 0, _, mem => .ok mem
  | n + 1, i, mem => do
    let x ← get ts src i
    let mem ← put ts mem i x
    copyFrom ts src n (i + 1) mem

/-- The bytes are values for the element types. -/
def Fits (ts : List Ty) (xs : List (List Byte)) : Prop := xs.map List.length = ts.map Ty.size

theorem Fits.get {ts : List Ty} {xs : List (List Byte)} (h : Fits ts xs) {i : Nat} {x : List Byte} (hi : xs[i]? = some x) :
    ∃ t, ts[i]? = some t ∧ t.size = x.length := by
  have h1 : (xs.map List.length)[i]? = some x.length := by simp [hi]
  rw [h] at h1
  simpa using h1

theorem put_ok {ts : List Ty} {mem x : List Byte} {i : Nat} {t : Ty} (hi : ts[i]? = some t) (hx : t.size = x.length)
    (hm : totalSize ts ≤ mem.length) : ∃ mem', put ts mem i x = .ok mem' ∧ mem'.length = mem.length ∧
      get ts mem' i = .ok x ∧ ∀ j, j ≠ i → get ts mem' j = get ts mem j := by
  have hfit : offset ts i + x.length ≤ mem.length := by
    have : offset ts i + t.size ≤ totalSize ts := getOffset_end 0 hi
    omega
  have hl := MM.blit_length mem (offset ts i) x hfit
  refine ⟨_, ?_, hl, ?_, ?_⟩
  · unfold put
    rw [decide_eq_true hfit, require_true, ok_bind, pure_ok]
  · unfold get
    simp only [hi]
    rw [decide_eq_true (by rw [hl, hx]; exact hfit), require_true, ok_bind, pure_ok]
    congr 1
    apply List.ext_getElem?
    intro k
    rw [List.getElem?_take]
    by_cases hk : k < t.size
    · rw [if_pos hk, List.getElem?_drop, MM.blit_get _ _ _ hfit, if_pos (by omega), Nat.add_sub_cancel_left]
    · rw [if_neg hk, List.getElem?_eq_none (by omega)]
  · intro j hj
    unfold get
    cases hu : ts[j]? with
    | none => rfl
    | some u =>
      have hj2 : offset ts j + u.size ≤ totalSize ts := getOffset_end 0 hu
      simp only
      rw [decide_eq_true (by rw [hl]; omega), decide_eq_true (by omega)]
      simp only [require_true, ok_bind, pure_ok]
      congr 1
      apply List.ext_getElem?
      intro k
      rw [List.getElem?_take, List.getElem?_take]
      by_cases hk : k < u.size
      · rw [if_pos hk, if_pos hk, List.getElem?_drop, List.getElem?_drop, MM.blit_get _ _ _ hfit, if_neg]
        rintro ⟨h1, h2⟩
        rcases Nat.lt_or_gt_of_ne hj with hlt | hgt
        · have : offset ts j + u.size ≤ offset ts i := getOffset_lt 0 hu hi hlt
          omega
        · have : offset ts i + t.size ≤ offset ts j := getOffset_lt 0 hi hu hgt
          omega
      · rw [if_neg hk, if_neg hk]

theorem putAll_ok {ts : List Ty} : ∀ (xs : List (List Byte)) (i : Nat) {mem : List Byte}, totalSize ts ≤ mem.length →
    (∀ (j : Nat) (x : List Byte), xs[j]? = some x → ∃ t, ts[i + j]? = some t ∧ t.size = x.length) →
    ∃ mem', putAll ts xs i mem = .ok mem' ∧ mem'.length = mem.length ∧
      (∀ (j : Nat) (x : List Byte), xs[j]? = some x → get ts mem' (i + j) = .ok x) ∧
      ∀ j, j < i → get ts mem' j = get ts mem j
  | [], i, mem, _, _ => ⟨mem, rfl, rfl, by simp, fun _ _ => rfl⟩
  | x :: xs, i, mem, hm, h => by
    obtain ⟨t, ht, hx⟩ := h 0 x (by simp)
    obtain ⟨m1, e1, hl1, hg1, hf1⟩ := put_ok ht hx hm
    simp only [Nat.add_zero] at e1 hg1 hf1
    obtain ⟨m2, e2, hl2, hg2, hf2⟩ := putAll_ok (ts := ts) xs (i + 1) (mem := m1) (by omega) (by
      intro j y hj
      obtain ⟨u, hu, hy⟩ := h (j + 1) y (by simpa using hj)
      exact ⟨u, by rw [← hu]; congr 1; omega, hy⟩)
    refine ⟨m2, by simp only [putAll, e1, ok_bind, e2], by omega, ?_, ?_⟩
    · intro j y hj
      cases j with
      | zero =>
        simp at hj; subst hj
        rw [Nat.add_zero, hf2 i (by omega), hg1]
      | succ j =>
        have := hg2 j y (by simpa using hj)
        rwa [show i + 1 + j = i + (j + 1) by omega] at this
    · intro j hj
      rw [hf2 j (by omega), hf1 j (by omega)]

/-- **C28**: after construction from values, every element reads back as the value given for it. -/
theorem C28_construct_get (ts : List Ty) (xs : List (List Byte)) (hx : Fits ts xs) (mem : List Byte)
    (hm : totalSize ts ≤ mem.length) : ∃ mem', construct ts xs mem = .ok mem' ∧
      ∀ (i : Nat) (x : List Byte), xs[i]? = some x → get ts mem' i = .ok x := by
  obtain ⟨m, e, _, hg, _⟩ := putAll_ok (ts := ts) xs 0 hm (fun j x hj => by
    obtain ⟨t, h1, h2⟩ := hx.get hj
    exact ⟨t, by rw [Nat.zero_add]; exact h1, h2⟩)
  refine ⟨m, e, fun i x hi => ?_⟩
  have := hg i x hi
  rwa [Nat.zero_add] at this

example : Fits [⟨1, 1⟩, ⟨2, 2⟩] [[7#8], [1#8, 2#8]] ∧ totalSize [⟨1, 1⟩, ⟨2, 2⟩] ≤ (List.replicate 4 0xAA#8).length :=
  ⟨rfl, by decide⟩

example : construct [⟨1, 1⟩, ⟨2, 2⟩] [[7#8], [1#8, 2#8]] (List.replicate 4 0xAA#8) =
    .ok [7#8, 0xAA#8, 1#8, 2#8] := by decide

/-- **C28**: writing element `i` changes no other element. -/
theorem C28_write_frame (ts : List Ty) (mem x : List Byte) (i : Nat) (t : Ty) (hi : ts[i]? = some t)
    (hx : t.size = x.length) (hm : totalSize ts ≤ mem.length) : ∃ mem', put ts mem i x = .ok mem' ∧
      get ts mem' i = .ok x ∧ ∀ j, j ≠ i → get ts mem' j = get ts mem j := by
  obtain ⟨m, h1, _, h2, h3⟩ := put_ok hi hx hm
  exact ⟨m, h1, h2, h3⟩

example : ([⟨1, 1⟩, ⟨2, 2⟩] : List Ty)[1]? = some ⟨2, 2⟩ := rfl

theorem copyFrom_ok {ts : List Ty} {src : List Byte} (hs : totalSize ts ≤ src.length) : ∀ (n i : Nat) {mem : List Byte},
    totalSize ts ≤ mem.length → i + n ≤ ts.length → ∃ mem', copyFrom ts src n i mem = .ok mem' ∧
      mem'.length = mem.length ∧ (∀ j, i ≤ j → j < i + n → get ts mem' j = get ts src j) ∧
      ∀ j, j < i → get ts mem' j = get ts mem j
  | 0, i, mem, _, _ => ⟨mem, rfl, rfl, fun j h1 h2 => by omega, fun _ _ => rfl⟩
  | n + 1, i, mem, hm, hn => by
    have ht : ts[i]? = some ts[i] := List.getElem?_eq_getElem (by omega)
    have hin : offset ts i + ts[i].size ≤ totalSize ts := getOffset_end 0 ht
    have eg : get ts src i = .ok ((src.drop (offset ts i)).take ts[i].size) := by
      unfold get
      simp only [ht]
      rw [decide_eq_true (by omega), require_true, ok_bind, pure_ok]
    obtain ⟨m1, e1, hl1, hg1, hf1⟩ := put_ok (mem := mem) (x := (src.drop (offset ts i)).take ts[i].size) ht
      (by rw [List.length_take, List.length_drop]; omega) hm
    obtain ⟨m2, e2, hl2, hg2, hf2⟩ := copyFrom_ok hs n (i + 1) (mem := m1) (by omega) (by omega)
    refine ⟨m2, by simp only [copyFrom, eg, ok_bind, e1, e2], by omega, ?_, ?_⟩
    · intro j h1 h2
      by_cases hj : j = i
      · subst hj; rw [hf2 j (by omega), hg1, eg]
      · exact hg2 j (by omega) (by omega)
    · intro j hj
      rw [hf2 j (by omega), hf1 j (by omega)]

/-- **C28**: copying a tuple copies every element. -/
theorem C28_copy (ts : List Ty) (src mem : List Byte) (hs : totalSize ts ≤ src.length) (hm : totalSize ts ≤ mem.length) :
    ∃ mem', copyFrom ts src ts.length 0 mem = .ok mem' ∧ ∀ i, i < ts.length → get ts mem' i = get ts src i := by
  obtain ⟨m, e, _, hg, _⟩ := copyFrom_ok hs ts.length 0 hm (by omega)
  exact ⟨m, e, fun i hi => hg i (by omega) (by omega)⟩

example : copyFrom [⟨1, 1⟩, ⟨2, 2⟩] [7#8, 0#8, 1#8, 2#8] 2 0 (List.replicate 4 0xAA#8) = .ok [7#8, 0xAA#8, 1#8, 2#8] := by
  decide

/-! ## Comparison

Element comparisons may differ per position: `eqf i`, `ltf i` are `==` and `<` of the type of element `i`. -/

variable {α : Type}

/-- tuple.h:237-241 `eq`, folding over the indices of the first tuple. -/
def eq (eqf : Nat → α → α → Bool) : Nat → List α → List α → Bool
  | _, [], _ => true
  | i, x :: a, y :: b => eqf i x y && eq eqf (i + 1) a b
  | _, _ :: _, [] => false

/-- tuple.h:257-270 `lt` from `Index` on. -/
def lt (ltf : Nat → α → α → Bool) : Nat → List α → List α → Bool
  | i, x :: a, y :: b => if ltf i x y then true else if ltf i y x then false else lt ltf (i + 1) a b
  | _, _, _ => false

/-- tuple.h:251-255 -/
def neOp (eqf : Nat → α → α → Bool) (a b : List α) : Bool := !eq eqf 0 a b
/-- tuple.h:272-276 -/
def ltOp (ltf : Nat → α → α → Bool) (a b : List α) : Bool := lt ltf 0 a b
/-- tuple.h:278-282 -/
def leOp (ltf : Nat → α → α → Bool) (a b : List α) : Bool := !ltOp ltf b a
/-- tuple.h:284-288 -/
def gtOp (ltf : Nat → α → α → Bool) (a b : List α) : Bool := ltOp ltf b a
/-- tuple.h:290-294 -/
def geOp (ltf : Nat → α → α → Bool) (a b : List α) : Bool := !ltOp ltf a b

/-- Lexicographic order: the first position where the elements differ (one is smaller) decides. -/
def Lex (ltf : Nat → α → α → Bool) (a b : List α) : Prop :=
  ∃ k x y, a[k]? = some x ∧ b[k]? = some y ∧ ltf k x y = true ∧
    ∀ i u v, i < k → a[i]? = some u → b[i]? = some v → ltf i u v = false ∧ ltf i v u = false

theorem lt_iff {ltf : Nat → α → α → Bool} : ∀ {a b : List α} (n : Nat), lt ltf n a b = true ↔
    ∃ k x y, a[k]? = some x ∧ b[k]? = some y ∧ ltf (n + k) x y = true ∧
      ∀ i u v, i < k → a[i]? = some u → b[i]? = some v → ltf (n + i) u v = false ∧ ltf (n + i) v u = false
  | [], b, n => by simp [lt]
  | x :: a, [], n => by simp [lt]
  | x :: a, y :: b, n => by
    rw [lt]
    have ih := lt_iff (ltf := ltf) (a := a) (b := b) (n + 1)
    constructor
    · intro h
      by_cases h1 : ltf n x y = true
      · exact ⟨0, x, y, rfl, rfl, h1, fun i u v hi => by omega⟩
      · rw [if_neg h1] at h
        by_cases h2 : ltf n y x = true
        · rw [if_pos h2] at h; simp at h
        · rw [if_neg h2] at h
          obtain ⟨k, u, v, hu, hv, hl, hp⟩ := ih.1 h
          refine ⟨k + 1, u, v, by simpa using hu, by simpa using hv, by rwa [show n + (k + 1) = n + 1 + k by omega], ?_⟩
          intro i p q hi hp' hq'
          cases i with
          | zero =>
            simp at hp' hq'; subst hp'; subst hq'
            exact ⟨by simpa using h1, by simpa using h2⟩
          | succ i =>
            have := hp i p q (by omega) (by simpa using hp') (by simpa using hq')
            rwa [show n + 1 + i = n + (i + 1) by omega] at this
    · rintro ⟨k, u, v, hu, hv, hl, hp⟩
      cases k with
      | zero =>
        simp at hu hv; subst hu; subst hv
        rw [Nat.add_zero] at hl
        rw [if_pos hl]
      | succ k =>
        obtain ⟨h1, h2⟩ := hp 0 x y (by omega) rfl rfl
        rw [Nat.add_zero] at h1 h2
        rw [h1, h2]
        simp only [Bool.false_eq_true, if_false]
        refine ih.2 ⟨k, u, v, by simpa using hu, by simpa using hv, by rwa [show n + 1 + k = n + (k + 1) by omega], ?_⟩
        intro i p q hi hp' hq'
        have := hp (i + 1) p q (by omega) (by simpa using hp') (by simpa using hq')
        rwa [show n + (i + 1) = n + 1 + i by omega] at this

/-- **C29**: `<`, `>`, `<=`, `>=` are the lexicographic order. -/
theorem C29_lexicographic (ltf : Nat → α → α → Bool) (a b : List α) :
    (ltOp ltf a b = true ↔ Lex ltf a b) ∧ (gtOp ltf a b = true ↔ Lex ltf b a) ∧
      (leOp ltf a b = true ↔ ¬ Lex ltf b a) ∧ (geOp ltf a b = true ↔ ¬ Lex ltf a b) := by
  have key : ∀ a b : List α, lt ltf 0 a b = true ↔ Lex ltf a b := by
    intro a b
    have := lt_iff (ltf := ltf) (a := a) (b := b) 0
    simp only [Nat.zero_add] at this
    exact this
  refine ⟨key a b, key b a, ?_, ?_⟩
  · rw [← key b a]; simp [leOp, ltOp]
  · rw [← key a b]; simp [geOp, ltOp]

example : ltOp (fun _ (x y : Nat) => decide (x < y)) [1, 5, 9] [1, 6, 0] = true := by decide

theorem eq_iff {eqf : Nat → α → α → Bool} : ∀ {a b : List α} (n : Nat), a.length ≤ b.length → (eq eqf n a b = true ↔
    ∀ i x y, a[i]? = some x → b[i]? = some y → eqf (n + i) x y = true)
  | [], b, n, _ => by simp [eq]
  | x :: a, [], n, h => by simp at h
  | x :: a, y :: b, n, h => by
    have ih := eq_iff (eqf := eqf) (a := a) (b := b) (n + 1) (by simpa using h)
    rw [eq, Bool.and_eq_true, ih]
    constructor
    · rintro ⟨h1, h2⟩ i u v hu hv
      cases i with
      | zero => simp at hu hv; subst hu; subst hv; rwa [Nat.add_zero]
      | succ i =>
        have := h2 i u v (by simpa using hu) (by simpa using hv)
        rwa [show n + 1 + i = n + (i + 1) by omega] at this
    · intro hh
      refine ⟨by simpa using hh 0 x y rfl rfl, fun i u v hu hv => ?_⟩
      have := hh (i + 1) u v (by simpa using hu) (by simpa using hv)
      rwa [show n + (i + 1) = n + 1 + i by omega] at this

/-- **C29**: `==` compares all elements of tuples of the same arity, `!=` is its negation. -/
theorem C29_equality (eqf : Nat → α → α → Bool) (a b : List α) (h : a.length = b.length) :
    (eq eqf 0 a b = true ↔ ∀ i x y, a[i]? = some x → b[i]? = some y → eqf i x y = true) ∧
      (neOp eqf a b = !eq eqf 0 a b) := by
  have := eq_iff (eqf := eqf) (a := a) (b := b) 0 (by omega)
  simp only [Nat.zero_add] at this
  exact ⟨this, rfl⟩

example : eq (fun _ (x y : Nat) => x == y) 0 [1, 2] [1, 2] = true ∧ neOp (fun _ (x y : Nat) => x == y) [1, 2] [1, 3] = true := by
  decide

/-- Element comparisons are total: exactly one of `<`, `==`, `>`. -/
structure Total (eqf ltf : Nat → α → α → Bool) : Prop where
  lt_asymm : ∀ i x y, ltf i x y = true → ltf i y x = false
  lt_ne : ∀ i x y, ltf i x y = true → eqf i x y = false
  gt_ne : ∀ i x y, ltf i y x = true → eqf i x y = false
  tri : ∀ i x y, ltf i x y = true ∨ eqf i x y = true ∨ ltf i y x = true

/-- **C29**: over such elements, exactly one of `a < b`, `a == b`, `a > b` holds for tuples of the same arity. -/
theorem C29_trichotomy (eqf ltf : Nat → α → α → Bool) (h : Total eqf ltf) (a b : List α) (hl : a.length = b.length) :
    (ltOp ltf a b, eq eqf 0 a b, gtOp ltf a b) ∈
      [(true, false, false), (false, true, false), (false, false, true)] := by
  have key : ∀ (a b : List α) (n : Nat), a.length = b.length → (lt ltf n a b, eq eqf n a b, lt ltf n b a) ∈
      [(true, false, false), (false, true, false), (false, false, true)] := by
    intro a
    induction a with
    | nil => intro b n hl; cases b with
      | nil => simp [lt, eq]
      | cons y b => simp at hl
    | cons x a ih =>
      intro b n hl
      cases b with
      | nil => simp at hl
      | cons y b =>
        simp only [lt, eq]
        rcases h.tri n x y with h1 | h1 | h1
        · simp [h1, h.lt_asymm _ _ _ h1, h.lt_ne _ _ _ h1]
        · have h2 : ltf n x y = false := by
            rw [Bool.eq_false_iff]; intro hh; rw [h.lt_ne _ _ _ hh] at h1; cases h1
          have h3 : ltf n y x = false := by
            rw [Bool.eq_false_iff]; intro hh; rw [h.gt_ne _ _ _ hh] at h1; cases h1
          simp only [h1, h2, h3, Bool.false_eq_true, if_false, Bool.true_and]
          exact ih b (n + 1) (by simpa using hl)
        · simp [h1, h.lt_asymm _ _ _ h1, h.gt_ne _ _ _ h1]
  exact key a b 0 hl

/-- **C29**: `<` on tuples is transitive when it is a strict weak order on the elements. -/
theorem C29_transitive (ltf : Nat → α → α → Bool) (ht : ∀ i x y z, ltf i x y = true → ltf i y z = true → ltf i x z = true)
    (hn : ∀ i x y z, ltf i x y = false → ltf i y z = false → ltf i x z = false) (a b c : List α)
    (h1 : ltOp ltf a b = true) (h2 : ltOp ltf b c = true) : ltOp ltf a c = true := by
  have key : ∀ (a b c : List α) (n : Nat), lt ltf n a b = true → lt ltf n b c = true → lt ltf n a c = true := by
    intro a
    induction a with
    | nil => intro b c n h; simp [lt] at h
    | cons x a ih =>
      intro b c n h1 h2
      cases b with
      | nil => simp [lt] at h1
      | cons y b =>
        cases c with
        | nil => simp [lt] at h2
        | cons z c =>
          rw [lt] at h1 h2 ⊢
          by_cases hxy : ltf n x y = true
          · by_cases hyz : ltf n y z = true
            · rw [if_pos (ht n x y z hxy hyz)]
            · rw [if_neg hyz] at h2
              by_cases hzy : ltf n z y = true
              · rw [if_pos hzy] at h2; simp at h2
              · have : ltf n x z = true := by
                  by_cases hxz : ltf n x z = true
                  · exact hxz
                  · exfalso
                    have := hn n x z y (by simpa using hxz) (by simpa using hzy)
                    rw [hxy] at this; cases this
                rw [if_pos this]
          · rw [if_neg hxy] at h1
            by_cases hyx : ltf n y x = true
            · rw [if_pos hyx] at h1; simp at h1
            · rw [if_neg hyx] at h1
              by_cases hyz : ltf n y z = true
              · have : ltf n x z = true := by
                  by_cases hxz : ltf n x z = true
                  · exact hxz
                  · exfalso
                    have := hn n y x z (by simpa using hyx) (by simpa using hxz)
                    rw [hyz] at this; cases this
                rw [if_pos this]
              · rw [if_neg hyz] at h2
                by_cases hzy : ltf n z y = true
                · rw [if_pos hzy] at h2; simp at h2
                · rw [if_neg hzy] at h2
                  have h3 := hn n x y z (by simpa using hxy) (by simpa using hyz)
                  have h4 := hn n z y x (by simpa using hzy) (by simpa using hyx)
                  rw [h3, h4]
                  simp only [Bool.false_eq_true, if_false]
                  exact ih b c (n + 1) h1 h2
  exact key a b c 0 h1 h2

example : Total (fun _ (x y : Nat) => x == y) (fun _ x y => decide (x < y)) where
  lt_asymm := by simp only [decide_eq_true_eq, decide_eq_false_iff_not]; omega
  lt_ne := by simp only [decide_eq_true_eq, beq_eq_false_iff_ne]; omega
  gt_ne := by simp only [decide_eq_true_eq, beq_eq_false_iff_ne]; omega
  tri := by simp only [decide_eq_true_eq, beq_iff_eq]; omega

example : ltOp (fun _ (x y : Nat) => decide (x < y)) [1, 2] [1, 3] = true ∧
    ltOp (fun _ (x y : Nat) => decide (x < y)) [1, 3] [2, 0] = true := by decide

/-- **C29** violated: `==` accepts a right operand of larger arity and then compares only the common prefix
(`tuple<int>{1} == tuple<int, int>{1, 2}`), although such tuples differ. -/
theorem C29_equality_arity_violated (eqf : Nat → α → α → Bool) (hr : ∀ i x, eqf i x x = true) (a c : List α) :
    eq eqf 0 a (a ++ c) = true := by
  rw [eq_iff 0 (by simp)]
  intro i x y hx hy
  rw [List.getElem?_append_left (List.getElem?_eq_some_iff.1 hx).1, hx] at hy
  injection hy with hy; subst hy
  exact hr _ _

example : eq (fun _ (x y : Nat) => x == y) 0 [1] ([1] ++ [2]) = true ∧ [1] ≠ [1] ++ [2] := by decide

end Cista.Tuple
