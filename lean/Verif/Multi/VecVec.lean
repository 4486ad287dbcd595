import Verif.Multi.Offs

/-!
# Model of `basic_vecvec`

Source: `/repo/include/cista/containers/vecvec.h`.  `data_` and `bucket_starts_` are cista vectors; they
are modelled by the element lists that property C09 proves them to behave like (so arguments must not
alias `data_`, see `Alias.lean`).  `W` is the width of `index_value_type`; stores into `bucket_starts_` convert
modulo `2^W`.  `assert`s are caller obligations.
-/
set_option linter.unusedSimpArgs false

namespace Cista.Multi.VecVec

/-- vecvec.h:432-433. -/
structure VV (α : Type _) where
  data : List α
  starts : List Nat
deriving DecidableEq, Repr

variable {α : Type _}

def VV.empty : VV α := ⟨[], []⟩

/-- vecvec.h:354-356. -/
def VV.size (W : Nat) (v : VV α) : Nat := if v.starts = [] then 0 else (v.starts.length - 1) % 2 ^ W

/-- vecvec.h:357. -/
def VV.isEmpty (v : VV α) : Bool := v.starts.isEmpty

/-- Unchecked access to `bucket_starts_`. -/
def VV.start (v : VV α) (i : Nat) : Res Nat :=
  match v.starts[i]? with
  | some s => .ok s
  | none => .error .ub

/-- vecvec.h:177-184: both indices are 0 in an empty map. -/
def VV.beginIdx (v : VV α) (i : Nat) : Res Nat := if v.isEmpty then .ok 0 else v.start i
@[inherit_doc VV.beginIdx]
def VV.endIdx (v : VV α) (i : Nat) : Res Nat := if v.isEmpty then .ok 0 else v.start (i + 1)

/-- vecvec.h:116-121: iterate over `v[i]` (`bucket`); a range that ends before it starts or past the data
is undefined behaviour. -/
def VV.bucket (v : VV α) (i : Nat) : Res (List α) := do
  let b ← v.beginIdx i
  let e ← v.endIdx i
  require (b ≤ e && e ≤ v.data.length)
  return (v.data.drop b).take (e - b)

/-- vecvec.h:249-254, 311-316: the same for `const_bucket` (no special case for an empty map). -/
def VV.constBucket (v : VV α) (i : Nat) : Res (List α) := do
  let b ← v.start i
  let e ← v.start (i + 1)
  require (b ≤ e && e ≤ v.data.length)
  return (v.data.drop b).take (e - b)

/-- vecvec.h:103-111 `v[i].at(j)`. -/
def VV.bucketAt (v : VV α) (i j : Nat) : Res α := do
  let b ← v.beginIdx i
  let e ← v.endIdx i
  verify (j < e - b)
  match v.data[b + j]? with
  | some x => .ok x
  | none => .error .ub

/-- vecvec.h:336-346 `at(i)`: the bucket number, checked against `bucket_starts_.size()`. -/
def VV.at (v : VV α) (i : Nat) : Res Nat := do
  verify (i < v.starts.length)
  return i

/-- vecvec.h:368-370 and copies: create the leading 0. -/
def VV.ensure (v : VV α) : VV α := if v.starts = [] then { v with starts := [0] } else v

/-- vecvec.h:364-375, 386-397 `emplace_back` (container or initializer list). -/
def VV.emplaceBack (W : Nat) (v : VV α) (xs : List α) : VV α :=
  let v := v.ensure
  ⟨v.data ++ xs, v.starts ++ [(v.data.length + xs.length) % 2 ^ W]⟩

/-- vecvec.h:377-384 `add_back_sized`, `dflt` is `T{}`. -/
def VV.addBackSized (W : Nat) (dflt : α) (v : VV α) (n : Nat) : VV α :=
  v.emplaceBack W (List.replicate n dflt)

/-- vecvec.h:405-412 `resize`. -/
def VV.resize (W : Nat) (v : VV α) (n : Nat) : VV α :=
  { v with starts := v.starts.take (n + 1) ++
      List.replicate (n + 1 - v.starts.length) (v.data.length % 2 ^ W) }

/-- vecvec.h:359-362. -/
def VV.clear (_ : VV α) : VV α := ⟨[], []⟩

/-- vecvec.h:80-91 `bucket::grow` after its check, and 71-78 `push_back` (`xs = [x]`): insert at the end of
bucket `i`, then add to all later starts.  In an empty map the loop `i != 0` runs past the index. -/
def VV.insertEnd (W : Nat) (v : VV α) (i : Nat) (xs : List α) : Res (VV α) := do
  require (i + 1 < v.starts.length)
  let e ← v.endIdx i
  require (e ≤ v.data.length)
  return ⟨v.data.take e ++ xs ++ v.data.drop e,
    v.starts.take (i + 1) ++ (v.starts.drop (i + 1)).map fun s => (s + xs.length) % 2 ^ W⟩

/-- vecvec.h:80-91 `v[i].grow(n, x)`. -/
def VV.grow (W : Nat) (v : VV α) (i n : Nat) (x : α) : Res (VV α) := do
  let b ← v.beginIdx i
  let e ← v.endIdx i
  verify (e - b ≤ n)
  v.insertEnd W i (List.replicate (n - (e - b)) x)

/-- vecvec.h:93-96 `v[i][j] = x`. -/
def VV.write (v : VV α) (i j : Nat) (x : α) : Res (VV α) := do
  let b ← v.start i
  require (b + j < v.data.length)
  return { v with data := v.data.set (b + j) x }

/-- vecvec.h:414-421: `for (auto b : v)` collecting every bucket. -/
def VV.iterate (W : Nat) (v : VV α) : Res (List (List α)) := (List.range (v.size W)).mapM v.bucket

/-! ## Specification -/

/-- Operations. -/
inductive Op (α : Type _) where
  | emplaceBack (xs : List α)
  | addBackSized (n : Nat)
  | pushBack (i : Nat) (x : α)
  | grow (i n : Nat) (x : α)
  | write (i j : Nat) (x : α)
  | resize (n : Nat)
  | clear

def Op.exec (W : Nat) (dflt : α) (v : VV α) : Op α → Res (VV α)
  | .emplaceBack xs => .ok (v.emplaceBack W xs)
  | .addBackSized n => .ok (v.addBackSized W dflt n)
  | .pushBack i x => v.insertEnd W i [x]
  | .grow i n x => v.grow W i n x
  | .write i j x => v.write i j x
  | .resize n => .ok (v.resize W n)
  | .clear => .ok v.clear

def run (W : Nat) (dflt : α) : VV α → List (Op α) → Res (VV α)
  | v, [] => .ok v
  | v, op :: ops => (op.exec W dflt v).bind fun v => run W dflt v ops

/-- Effect on a list of lists. -/
def Op.spec (dflt : α) (L : List (List α)) : Op α → List (List α)
  | .emplaceBack xs => L ++ [xs]
  | .addBackSized n => L ++ [List.replicate n dflt]
  | .pushBack i x => L.modify i (· ++ [x])
  | .grow i n x => L.modify i fun b => b ++ List.replicate (n - b.length) x
  | .write i j x => L.modify i fun b => b.set j x
  | .resize n => L.take n ++ List.replicate (n - L.length) []
  | .clear => []

/-- Caller obligations: existing buckets and positions, a bucket only grows by `grow` (otherwise it
throws), and the total number of elements and buckets fits the index type. -/
def Op.Pre (W : Nat) (dflt : α) (L : List (List α)) (op : Op α) : Prop :=
  (match op with
    | .pushBack i _ => i < L.length
    | .grow i n _ => ∃ b, L[i]? = some b ∧ b.length ≤ n
    | .write i j _ => ∃ b, L[i]? = some b ∧ j < b.length
    | _ => True) ∧
  (op.spec dflt L).flatten.length < 2 ^ W ∧ (op.spec dflt L).length < 2 ^ W

/-- Whether `resize` has dropped elements since the last `clear`. -/
def Op.dropped (L : List (List α)) (s : Bool) : Op α → Bool
  | .resize n => s || (L.drop n).flatten.length != 0
  | .clear => false
  | _ => s

/-- What C22 has to exclude: adding buckets after `resize` dropped elements. -/
def Op.NoBug (L : List (List α)) (s : Bool) : Op α → Prop
  | .emplaceBack _ | .addBackSized _ => s = false
  | .resize n => s = false ∨ n ≤ L.length
  | _ => True

def Allowed (W : Nat) (dflt : α) : List (List α) → Bool → List (Op α) → Prop
  | _, _, [] => True
  | L, s, op :: ops => op.Pre W dflt L ∧ op.NoBug L s ∧ Allowed W dflt (op.spec dflt L) (op.dropped L s) ops

/-! ## Invariant -/

/-- Starts are the offsets; behind the elements there may be leftovers of dropped buckets. -/
def Inv (v : VV α) (L : List (List α)) (s : Bool) : Prop :=
  (v.starts = [] ∧ L = [] ∧ v.data = []) ∨
  (v.starts = offs L ∧ ∃ junk, v.data = L.flatten ++ junk ∧ (s = false → junk = []))

theorem Inv.ensure {v : VV α} {L : List (List α)} {s : Bool} (h : Inv v L s) :
    v.ensure.starts = offs L ∧ v.ensure.data = v.data ∧
      ∃ junk, v.data = L.flatten ++ junk ∧ (s = false → junk = []) := by
  rcases h with ⟨h1, h2, h3⟩ | ⟨h1, h2⟩
  · subst h2; exact ⟨by simp [VV.ensure, h1, offs_nil], by simp [VV.ensure, h1], [], by simp [h3], fun _ => rfl⟩
  · have : v.starts ≠ [] := by rw [h1]; intro e; simpa using congrArg List.length e
    exact ⟨by rw [VV.ensure, if_neg this]; exact h1, by simp [VV.ensure, this], h2⟩

theorem Inv.emplaceBack {W : Nat} {v : VV α} {L : List (List α)} (h : Inv v L false) (xs : List α)
    (hlt : (L ++ [xs]).flatten.length < 2 ^ W) : Inv (v.emplaceBack W xs) (L ++ [xs]) false := by
  obtain ⟨h1, h2, junk, h3, h4⟩ := h.ensure
  have := h4 rfl
  subst this
  rw [List.append_nil] at h3
  refine Or.inr ⟨?_, [], ?_, fun _ => rfl⟩
  · simp only [VV.emplaceBack, h1, h2, h3]
    rw [flatten_append_length] at hlt
    simp only [List.flatten_cons, List.flatten_nil, List.append_nil] at hlt
    rw [Nat.mod_eq_of_lt hlt, offs_snoc]
  · simp [VV.emplaceBack, h2, h3]

/-- Facts about bucket `i` of a state in the invariant. -/
theorem Inv.idx {v : VV α} {L : List (List α)} {s : Bool} (h : Inv v L s) {i : Nat} (hi : i < L.length) :
    v.isEmpty = false ∧ v.starts = offs L ∧ v.start i = .ok (L.take i).flatten.length ∧
    v.start (i + 1) = .ok ((L.take i).flatten.length + L[i].length) ∧
    (L.take i).flatten.length + L[i].length ≤ L.flatten.length ∧
    ∃ junk, v.data = L.flatten ++ junk ∧ (s = false → junk = []) := by
  rcases h with ⟨h1, h2, h3⟩ | ⟨h1, h2⟩
  · subst h2; simp at hi
  · refine ⟨?_, h1, ?_, ?_, ?_, h2⟩
    · cases hs : v.starts with
      | nil => rw [hs] at h1; have := congrArg List.length h1; simp at this
      | cons => simp [VV.isEmpty, hs]
    · simp [VV.start, h1, offs_get? (Nat.le_of_lt hi)]
    · simp [VV.start, h1, offs_get? hi, -List.length_flatten, take_succ_length hi]
    · rw [← take_succ_length hi]; exact take_le_flatten L (i + 1)

theorem Inv.bucket {v : VV α} {L : List (List α)} {s : Bool} (h : Inv v L s) {i : Nat} (hi : i < L.length) :
    v.bucket i = .ok L[i] ∧ v.constBucket i = .ok L[i] := by
  obtain ⟨h1, h2, h3, h4, h5, junk, h6, h7⟩ := h.idx hi
  have hr : (decide ((L.take i).flatten.length ≤ (L.take i).flatten.length + L[i].length) &&
      decide ((L.take i).flatten.length + L[i].length ≤ v.data.length)) = true := by
    have : v.data.length = L.flatten.length + junk.length := by rw [h6, List.length_append]
    rw [Bool.and_eq_true]
    exact ⟨decide_eq_true (by omega), decide_eq_true (by omega)⟩
  constructor
  · unfold VV.bucket VV.beginIdx VV.endIdx
    rw [h1, h3, h4]
    simp only [Bool.false_eq_true, if_false, bind, Except.bind, pure, Except.pure, hr, require_true]
    rw [Nat.add_sub_cancel_left, h6, flatten_slice hi]
  · unfold VV.constBucket
    rw [h3, h4]
    simp only [bind, Except.bind, pure, Except.pure, hr, require_true]
    rw [Nat.add_sub_cancel_left, h6, flatten_slice hi]

theorem Inv.bucketAt {v : VV α} {L : List (List α)} {s : Bool} (h : Inv v L s) {i : Nat} (hi : i < L.length)
    (j : Nat) : v.bucketAt i j = match L[i][j]? with | some x => .ok x | none => .error .exn := by
  obtain ⟨h1, h2, h3, h4, h5, junk, h6, h7⟩ := h.idx hi
  unfold VV.bucketAt VV.beginIdx VV.endIdx
  rw [h1, h3, h4]
  simp only [Bool.false_eq_true, if_false, bind, Except.bind, pure, Except.pure, Nat.add_sub_cancel_left]
  by_cases hj : j < L[i].length
  · simp only [hj, decide_true, verify_true]
    have : v.data[(L.take i).flatten.length + j]? = L[i][j]? := by
      have hs := flatten_slice hi junk
      rw [← h6] at hs
      have h8 := congrArg (fun l => l[j]?) hs
      simp only [List.getElem?_take, if_pos hj, List.getElem?_drop] at h8
      exact h8
    rw [this, List.getElem?_eq_getElem hj]
  · simp only [hj, decide_false, verify_false]
    rw [List.getElem?_eq_none (by omega)]

theorem Inv.size {W : Nat} {v : VV α} {L : List (List α)} {s : Bool} (h : Inv v L s) (hl : L.length < 2 ^ W) :
    v.size W = L.length := by
  rcases h with ⟨h1, h2, h3⟩ | ⟨h1, h2⟩
  · simp [VV.size, h1, h2]
  · have : v.starts ≠ [] := by rw [h1]; intro e; simpa using congrArg List.length e
    rw [VV.size, if_neg this, h1]
    simp only [offs_length, Nat.add_sub_cancel]
    exact Nat.mod_eq_of_lt hl

theorem mapM_ok {β γ : Type _} {f : β → Res γ} {g : β → γ} (l : List β) (h : ∀ x ∈ l, f x = .ok (g x)) :
    l.mapM f = .ok (l.map g) := by
  induction l with
  | nil => rfl
  | cons a l ih =>
    rw [List.mapM_cons, h a (by simp), ih (fun x hx => h x (by simp [hx]))]
    rfl

theorem Inv.iterate {W : Nat} {v : VV α} {L : List (List α)} {s : Bool} (h : Inv v L s)
    (hl : L.length < 2 ^ W) : v.iterate W = .ok L := by
  unfold VV.iterate
  rw [h.size hl, mapM_ok (g := fun i => (L[i]?).getD [])]
  · congr 1
    apply List.ext_getElem?
    intro k
    by_cases hk : k < L.length
    · rw [List.getElem?_map, List.getElem?_range hk]; simp [hk]
    · rw [List.getElem?_eq_none (by simp; omega), List.getElem?_eq_none (by omega)]
  · intro i hi
    rw [List.mem_range] at hi
    rw [(h.bucket hi).1]; simp [hi]

theorem modify_set {L : List (List α)} {i : Nat} (hi : i < L.length) (f : List α → List α) :
    L.modify i f = L.set i (f L[i]) := by
  apply List.ext_getElem?
  intro k
  rw [List.getElem?_modify, List.getElem?_set]
  by_cases hk : i = k
  · subst hk; simp [hi]
  · simp [hk]

theorem Inv.insertEnd {W : Nat} {v : VV α} {L : List (List α)} {s : Bool} (h : Inv v L s) {i : Nat}
    (hi : i < L.length) (xs : List α) (hlt : (L.set i (L[i] ++ xs)).flatten.length < 2 ^ W) :
    ∃ v', v.insertEnd W i xs = .ok v' ∧ Inv v' (L.set i (L[i] ++ xs)) s := by
  obtain ⟨h1, h2, h3, h4, h5, junk, h6, h7⟩ := h.idx hi
  unfold VV.insertEnd VV.endIdx
  rw [h1, h4]
  have hd : v.data.length = L.flatten.length + junk.length := by rw [h6, List.length_append]
  have e1 : decide (i + 1 < v.starts.length) = true := by rw [h2]; simp; omega
  have e2 : decide ((L.take i).flatten.length + L[i].length ≤ v.data.length) = true :=
    decide_eq_true (by omega)
  simp only [e1, require_true, Bool.false_eq_true, if_false, bind, Except.bind, pure, Except.pure, e2]
  refine ⟨_, rfl, Or.inr ⟨?_, junk, ?_, h7⟩⟩
  · have ho := offs_set (C := L) (i := i) (n := xs.length) (b := L[i] ++ xs) hi (by simp)
    simp only [h2]
    rw [ho]
    congr 1
    apply List.map_congr_left
    intro a ha
    apply Nat.mod_eq_of_lt
    have : a + xs.length ∈ offs (L.set i (L[i] ++ xs)) := by
      rw [ho]; exact List.mem_append_right _ (List.mem_map.2 ⟨a, ha, rfl⟩)
    simp only [offs, List.mem_map] at this
    obtain ⟨k, _, hk⟩ := this
    have := take_le_flatten (L.set i (L[i] ++ xs)) k
    omega
  · simp only []
    rw [h6, set_split hi, flatten_split hi]
    have hl : (L.take i).flatten.length + L[i].length = ((L.take i).flatten ++ L[i]).length := by
      rw [List.length_append]
    rw [hl, List.append_assoc ((L.take i).flatten ++ L[i]), List.take_left', List.drop_left']
    · simp only [List.append_assoc]
    · rfl
    · rfl

theorem flatten_set_same {L : List (List α)} {i : Nat} (hi : i < L.length) (b : List α)
    (hb : b.length = L[i].length) : offs (L.set i b) = offs L := by
  have := offs_set (C := L) (i := i) (n := 0) (b := b) hi (by omega)
  simpa using this

theorem exec_ok {W : Nat} (dflt : α) {v : VV α} {L : List (List α)} {s : Bool} (h : Inv v L s) (op : Op α)
    (hp : op.Pre W dflt L) (hb : op.NoBug L s) :
    ∃ v', op.exec W dflt v = .ok v' ∧ Inv v' (op.spec dflt L) (op.dropped L s) := by
  obtain ⟨hp, hlt, hln⟩ := hp
  cases op with
  | emplaceBack xs =>
    simp only [Op.NoBug] at hb
    subst hb
    exact ⟨_, rfl, h.emplaceBack xs hlt⟩
  | addBackSized n =>
    simp only [Op.NoBug] at hb
    subst hb
    exact ⟨_, rfl, h.emplaceBack _ hlt⟩
  | pushBack i x =>
    simp only at hp
    simp only [Op.spec, modify_set hp] at hlt ⊢
    exact h.insertEnd hp [x] hlt
  | grow i n x =>
    obtain ⟨b, hb1, hb2⟩ := hp
    obtain ⟨hi, hb3⟩ := List.getElem?_eq_some_iff.1 hb1
    subst hb3
    simp only [Op.spec, modify_set hi] at hlt ⊢
    obtain ⟨v', e, w⟩ := h.insertEnd hi _ hlt
    refine ⟨v', ?_, w⟩
    obtain ⟨h1, h2, h3, h4, h5, h6⟩ := h.idx hi
    simp only [Op.exec, VV.grow, VV.beginIdx, VV.endIdx, h1, h3, h4, Bool.false_eq_true, if_false, bind,
      Except.bind, Nat.add_sub_cancel_left, hb2, decide_true, verify_true]
    exact e
  | write i j x =>
    obtain ⟨b, hb1, hb2⟩ := hp
    obtain ⟨hi, hb3⟩ := List.getElem?_eq_some_iff.1 hb1
    subst hb3
    simp only [Op.spec, modify_set hi]
    obtain ⟨h1, h2, h3, h4, h5, junk, h6, h7⟩ := h.idx hi
    have hd : v.data.length = L.flatten.length + junk.length := by rw [h6, List.length_append]
    have e2 : decide ((L.take i).flatten.length + j < v.data.length) = true := decide_eq_true (by omega)
    refine ⟨{ v with data := v.data.set ((L.take i).flatten.length + j) x }, ?_,
      Or.inr ⟨by rw [flatten_set_same hi _ (by simp)]; exact h2, junk, ?_, h7⟩⟩
    · simp only [Op.exec, VV.write, h3, bind, Except.bind, pure, Except.pure, e2, require_true]
    · simp only []
      rw [h6, set_split hi, flatten_split hi, List.append_assoc, List.append_assoc,
        List.set_append_right (s := (L.take i).flatten) (t := L[i] ++ ((L.drop (i + 1)).flatten ++ junk)) _ _ (by omega),
        Nat.add_sub_cancel_left, List.set_append_left _ _ (by omega)]
      simp only [List.append_assoc]
  | resize n =>
    refine ⟨_, rfl, ?_⟩
    simp only [Op.spec, VV.resize, Op.dropped]
    simp only [Op.spec] at hlt
    rcases h with ⟨h1, h2, h3⟩ | ⟨h1, junk, h2, h3⟩
    · subst h2
      refine Or.inr ⟨?_, [], by simp [h3], fun _ => rfl⟩
      have := offs_replicate_nil ([] : List (List α)) n
      simp only [List.nil_append, offs_nil] at this
      simp [h1, h3, this, List.replicate_succ]
    · by_cases hn : n ≤ L.length
      · refine Or.inr ⟨?_, (L.drop n).flatten ++ junk, ?_, ?_⟩
        · simp [h1, hn, ← offs_take L n hn, show n + 1 - (L.length + 1) = 0 by omega,
            show n - L.length = 0 by omega]
        · rw [show n - L.length = 0 by omega]
          simp only [List.replicate_zero, List.append_nil]
          rw [← List.append_assoc, ← List.flatten_append, List.take_append_drop]; exact h2
        · intro hs
          simp only [Bool.or_eq_false_iff, bne_eq_false_iff_eq] at hs
          rw [h3 hs.1, List.length_eq_zero_iff.1 hs.2]; rfl
      · have hs : s = false := by
          rcases hb with hb | hb
          · exact hb
          · exact absurd hb hn
        have hj := h3 hs
        subst hj
        rw [List.append_nil] at h2
        refine Or.inr ⟨?_, [], ?_, fun _ => rfl⟩
        · have h4 : L.flatten.length < 2 ^ W := by
            rw [List.take_of_length_le (by omega), flatten_append_length] at hlt; omega
          simp only [h1, h2, Nat.mod_eq_of_lt h4]
          rw [List.take_of_length_le (by simp; omega), List.take_of_length_le (by omega), offs_replicate_nil]
          simp only [offs_length]
          rw [show n + 1 - (L.length + 1) = n - L.length by omega]
        · simp [h2, List.take_of_length_le (show L.length ≤ n by omega)]
  | clear => exact ⟨_, rfl, Or.inl ⟨rfl, rfl, rfl⟩⟩

/-- The list of lists after a history. -/
def specRun (dflt : α) (L : List (List α)) (ops : List (Op α)) : List (List α) := ops.foldl (Op.spec dflt) L

theorem run_ok {W : Nat} (dflt : α) (ops : List (Op α)) : ∀ {v : VV α} {L : List (List α)} {s : Bool},
    Inv v L s → L.length < 2 ^ W → Allowed W dflt L s ops →
    ∃ v' s', run W dflt v ops = .ok v' ∧ Inv v' (specRun dflt L ops) s' ∧ (specRun dflt L ops).length < 2 ^ W := by
  induction ops with
  | nil => intro v L s h hl _; exact ⟨v, s, rfl, h, hl⟩
  | cons op ops ih =>
    intro v L s h _ ha
    obtain ⟨hp, hb, hn⟩ := ha
    obtain ⟨v1, e1, w1⟩ := exec_ok dflt h op hp hb
    obtain ⟨v2, s2, e2, w2⟩ := ih w1 hp.2.2 hn
    exact ⟨v2, s2, by rw [run, e1]; exact e2, w2⟩

/-- **C22** (partial).  Every history of `emplace_back`, `add_back_sized`, bucket `push_back`/`grow`/element
writes, `resize` and `clear` starting from an empty vecvec runs without undefined behaviour and all
observers agree with the list of lists: `size()`, iteration, every bucket (mutable and const view),
`bucket.at(j)` (which throws exactly for `j ≥ size`), and `at(i)` for every index except `i = size()`.

Missing: adding buckets after `resize` dropped elements, and `at(size())`; both are refuted below. -/
theorem C22_history_partial (W : Nat) (dflt : α) (ops : List (Op α)) (ha : Allowed W dflt [] false ops) :
    ∃ v, run W dflt .empty ops = .ok v ∧
      v.size W = (specRun dflt [] ops).length ∧
      v.iterate W = .ok (specRun dflt [] ops) ∧
      (∀ i b, (specRun dflt [] ops)[i]? = some b → v.bucket i = .ok b ∧ v.constBucket i = .ok b ∧
        (∀ j, v.bucketAt i j = match b[j]? with | some x => .ok x | none => .error .exn) ∧ v.at i = .ok i) ∧
      (∀ i, (specRun dflt [] ops).length < i → v.at i = .error .exn) := by
  obtain ⟨v, s, e, w, hl⟩ := run_ok (W := W) dflt ops (v := .empty) (L := []) (s := false)
    (Or.inl ⟨rfl, rfl, rfl⟩) (by simpa using Nat.two_pow_pos W) ha
  refine ⟨v, e, w.size hl, w.iterate hl, ?_, ?_⟩
  · intro i b hb
    obtain ⟨hi, hb2⟩ := List.getElem?_eq_some_iff.1 hb
    subst hb2
    refine ⟨(w.bucket hi).1, (w.bucket hi).2, w.bucketAt hi, ?_⟩
    have := (w.idx hi).2.1
    have e : decide (i < v.starts.length) = true := by rw [this]; simp; omega
    simp [VV.at, e, bind, Except.bind, pure, Except.pure]
  · intro i hi
    have e : decide (i < v.starts.length) = false := by
      rcases w with ⟨h1, h2, h3⟩ | ⟨h1, _⟩
      · simp [h1]
      · rw [h1]; simp; omega
    simp [VV.at, e, bind, Except.bind]

/-- A history using every operation. -/
def exOps : List (Op Nat) :=
  [.emplaceBack [1, 2], .emplaceBack [], .pushBack 1 7, .addBackSized 2, .grow 0 3 9, .write 2 1 5, .resize 5,
   .pushBack 4 8, .resize 2, .pushBack 0 4, .clear, .emplaceBack [3], .resize 2]

example : Allowed 8 0 [] false exOps := by
  simp [exOps, Allowed, Op.Pre, Op.NoBug, Op.spec, Op.dropped, List.modify, List.modifyTailIdx,
    List.modifyTailIdx.go]

example : (run 8 0 .empty (exOps.take 10)).bind (fun v => v.iterate 8) = .ok [[1, 2, 9, 4], [7]] := by decide

/-! ## Violations -/

/-- **C22 is violated** after every `resize` that dropped elements: the next bucket contains the dropped
elements too. -/
theorem C22_resize_violated (W : Nat) (L : List (List α)) (n : Nat) (hn : n < L.length) (xs : List α)
    (hlt : L.flatten.length + xs.length < 2 ^ W) :
    (((⟨L.flatten, offs L⟩ : VV α).resize W n).emplaceBack W xs).bucket n =
      .ok ((L.drop n).flatten ++ xs) := by
  have hst : ((⟨L.flatten, offs L⟩ : VV α).resize W n) = ⟨L.flatten, offs (L.take n)⟩ := by
    simp [VV.resize, offs_take L n (by omega), show n + 1 - (L.length + 1) = 0 by omega]
  rw [hst]
  have hne : offs (L.take n) ≠ [] := by intro e; simpa using congrArg List.length e
  have hlen : (offs (L.take n)).length = n + 1 := by simp; omega
  have h1 : (offs (L.take n) ++ [(L.flatten.length + xs.length) % 2 ^ W])[n]? =
      some (L.take n).flatten.length := by
    rw [List.getElem?_append_left (by omega), offs_get? (by simp; omega), List.take_take, Nat.min_self]
  have h2 : (offs (L.take n) ++ [(L.flatten.length + xs.length) % 2 ^ W])[n + 1]? =
      some (L.flatten.length + xs.length) := by
    rw [List.getElem?_append_right (by omega), hlen, Nat.mod_eq_of_lt hlt]; simp
  have hem : ((⟨L.flatten, offs (L.take n)⟩ : VV α).emplaceBack W xs) =
      ⟨L.flatten ++ xs, offs (L.take n) ++ [(L.flatten.length + xs.length) % 2 ^ W]⟩ := by
    simp [VV.emplaceBack, VV.ensure, hne]
  rw [hem]
  have hle := take_le_flatten L n
  have he : (VV.isEmpty (⟨L.flatten ++ xs, offs (L.take n) ++ [(L.flatten.length + xs.length) % 2 ^ W]⟩ : VV α)) =
      false := by
    simp [VV.isEmpty]
  unfold VV.bucket VV.beginIdx VV.endIdx VV.start
  rw [he]
  simp only [h1, h2, Bool.false_eq_true, if_false, bind, Except.bind, pure, Except.pure]
  have hr : (decide ((L.take n).flatten.length ≤ L.flatten.length + xs.length) &&
      decide (L.flatten.length + xs.length ≤ (L.flatten ++ xs).length)) = true := by
    rw [Bool.and_eq_true, List.length_append]
    exact ⟨decide_eq_true (by omega), decide_eq_true (by omega)⟩
  rw [hr]
  simp only [require_true]
  congr 1
  rw [List.take_of_length_le (by rw [List.length_drop, List.length_append]; omega),
    List.drop_append_of_le_length hle]
  congr 1
  have := List.flatten_append (L₁ := L.take n) (L₂ := L.drop n)
  rw [List.take_append_drop] at this
  rw [this, List.drop_left']
  rfl

example : (run 32 0 .empty [.emplaceBack [1, 2], .emplaceBack [3], .resize 1, .emplaceBack [4]]).bind
    (fun v => v.iterate 32) = .ok [[1, 2], [3, 4]] := by decide

/-- **C22 is violated** by `at(size())`, which does not throw on any vecvec that has ever had a bucket;
using the returned bucket reads past `bucket_starts_`. -/
theorem C22_at_violated (W : Nat) (v : VV α) (h : v.starts ≠ []) (hl : v.starts.length ≤ 2 ^ W) :
    v.at (v.size W) = .ok (v.size W) ∧ v.bucket (v.size W) = .error .ub := by
  have hpos : 0 < v.starts.length := List.length_pos_iff.2 h
  have hs : v.size W = v.starts.length - 1 := by
    rw [VV.size, if_neg h]; exact Nat.mod_eq_of_lt (by omega)
  rw [hs]
  constructor
  · have : decide (v.starts.length - 1 < v.starts.length) = true := decide_eq_true (by omega)
    simp [VV.at, this, bind, Except.bind, pure, Except.pure]
  · have he : v.isEmpty = false := by simp [VV.isEmpty, h]
    have h1 : v.starts[v.starts.length - 1 + 1]? = none := List.getElem?_eq_none (by omega)
    obtain ⟨a, ha⟩ : ∃ a, v.starts[v.starts.length - 1]? = some a :=
      ⟨_, List.getElem?_eq_getElem (by omega)⟩
    simp [VV.bucket, VV.beginIdx, VV.endIdx, VV.start, he, ha, h1, bind, Except.bind]

example : ((⟨[1], [0, 1]⟩ : VV Nat).at 1) = .ok 1 := by decide

/-- **C22 is violated** when the elements outgrow the index type: no error, the bucket reads back empty. -/
theorem C22_index_overflow_violated (W : Nat) (xs : List α) (h : xs.length = 2 ^ W) :
    (VV.emplaceBack W .empty xs).bucket 0 = .ok [] := by
  simp [VV.emplaceBack, VV.ensure, VV.empty, VV.bucket, VV.beginIdx, VV.endIdx, VV.start, VV.isEmpty, h,
    bind, Except.bind, pure, Except.pure]

end Cista.Multi.VecVec
