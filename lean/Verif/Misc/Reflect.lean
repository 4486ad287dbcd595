import Verif.Basic
import Verif.Domain.More

/-!
# C89–C91 — reflection of structs

reflection/arity.h, to_tuple.h, for_each_field.h, member_index.h, comparable.h, printable.h and pair.h.

A struct is the list of its data members.  Simplifications: no base classes; a member is either something a
`cista::detail::instance` converts to (all scalars, pointers and class types, nested aggregates included: brace elision is not
considered if the conversion is possible) or a C array, for which brace elision happens.  Templates that do not compile are `none`.
-/
namespace Cista.Reflect

/-- A data member: `dflt` tells whether it can be initialised from `{}` (false: references, types without default constructor);
a C array of `n` elements. -/
inductive Kind where
  | val (dflt : Bool)
  | arr (n : Nat) (el : Kind)

/-- The sub-objects that take one initialiser each, with `dflt`. -/
def Kind.leaves : Kind → List Bool
  | .val d => [d]
  | .arr n el => (List.replicate n el.leaves).flatten

/-- The initialisers of a struct. -/
def leaves (ms : List Kind) : List Bool := ms.flatMap Kind.leaves

/-- arity.h:36-39: `Aggregate{instance, …, instance}` with `n` initialisers compiles: not too many, and what gets none can do
without. -/
def accepts (ms : List Kind) (n : Nat) : Bool := n ≤ (leaves ms).length && ((leaves ms).drop n).all id

/-- arity.h:26-41 `arity_impl`: one more initialiser as long as that compiles. -/
def arityImpl (ms : List Kind) : Nat → Nat → Res Nat
  | 0, _ => .error .diverge
  | fuel + 1, n => if accepts ms (n + 1) then arityImpl ms fuel (n + 1) else .ok n

/-- arity.h:49-52; the recursion of the templates never gets deeper than the number of initialisers (`arityImpl_ends`). -/
def arity (ms : List Kind) : Res Nat := arityImpl ms ((leaves ms).length + 1) 0

/-- to_tuple.h:76-523 `to_tuple` of a struct without `cista_members()`: the members it refers to, by position.
`static_assert(a <= 64)`; `auto& [p1, …, pa] = t` compiles for exactly as many names as there are members; no binding for `a == 0`. -/
def toTuple (ms : List Kind) : Option (List Nat) :=
  match arity ms with
  | .error _ => none
  | .ok a => if 64 < a then none else if a = 0 then some [] else if a = ms.length then some (List.range a) else none

/-- What `for_each_field` is given. -/
inductive Arg where
  | scalar
  | ptr (target : Option Arg)
  | agg (ms : List Kind)

/-- What a callback is given: after `depth` dereferences, the object itself or one of its members. -/
structure Ref where
  depth : Nat
  member : Option Nat
deriving DecidableEq

/-- for_each_field.h:23-34 `for_each_field` (for_each_field.h:10-21 `for_each_ptr_field` passes pointers to the same members). -/
def forEachField (depth : Nat) : Arg → Option (List Ref)
  | .ptr none => some []
  | .ptr (some t) => forEachField (depth + 1) t
  | .scalar => some [⟨depth, none⟩]
  | .agg ms => (toTuple ms).map fun refs => refs.map fun i => ⟨depth, some i⟩

/-- member_index.h:14-21: the loop over the members; `i` and `field_index` are `unsigned`. -/
def indexLoop (j : Nat) : List Nat → Nat → Nat → Nat
  | [], _, found => found
  | r :: rs, i, found => indexLoop j rs ((i + 1) % 2 ^ 32) (if r = j then i else found)

/-- member_index.h:10-23; `T t{}` needs defaults for all members. -/
def memberIndex (ms : List Kind) (j : Nat) : Option Nat :=
  if accepts ms 0 then (toTuple ms).map fun refs => indexLoop j refs 0 (2 ^ 32 - 1) else none

/-! ## comparable.h -/

variable {α : Type}

/-- `std::tuple` equality from position `i` on. -/
def tupEq (eqf : Nat → α → α → Bool) : Nat → List α → List α → Bool
  | i, x :: a, y :: b => eqf i x y && tupEq eqf (i + 1) a b
  | _, _, _ => true

/-- `std::tuple` order from position `i` on: `bool(x < y) || (!bool(y < x) && …)`. -/
def tupLt (ltf : Nat → α → α → Bool) : Nat → List α → List α → Bool
  | i, x :: a, y :: b => ltf i x y || (!ltf i y x && tupLt ltf (i + 1) a b)
  | _, _, _ => false

/-- The values `to_tuple` refers to, for an object with the members `a`. -/
def tie (ms : List Kind) (a : List α) : Option (List α) := (toTuple ms).map fun refs => refs.filterMap (a[·]?)

/-- comparable.h:5-34, 36-59: each operator compares the tuples of both objects. -/
def compare (ms : List Kind) (op : List α → List α → Bool) (a b : List α) : Option Bool := do
  let s ← tie ms a
  let t ← tie ms b
  return op s t

/-- comparable.h:6-9. -/
def structEq (eqf : Nat → α → α → Bool) (ms : List Kind) (a b : List α) : Option Bool := compare ms (tupEq eqf 0) a b
/-- comparable.h:11-14; `std::tuple` defines it as the negation. -/
def structNe (eqf : Nat → α → α → Bool) (ms : List Kind) (a b : List α) : Option Bool := compare ms (fun s t => !tupEq eqf 0 s t) a b
/-- comparable.h:16-19. -/
def structLt (ltf : Nat → α → α → Bool) (ms : List Kind) (a b : List α) : Option Bool := compare ms (tupLt ltf 0) a b
/-- comparable.h:21-24. -/
def structLe (ltf : Nat → α → α → Bool) (ms : List Kind) (a b : List α) : Option Bool := compare ms (fun s t => !tupLt ltf 0 t s) a b
/-- comparable.h:26-29. -/
def structGt (ltf : Nat → α → α → Bool) (ms : List Kind) (a b : List α) : Option Bool := compare ms (fun s t => tupLt ltf 0 t s) a b
/-- comparable.h:31-34. -/
def structGe (ltf : Nat → α → α → Bool) (ms : List Kind) (a b : List α) : Option Bool := compare ms (fun s t => !tupLt ltf 0 s t) a b

/-! ## printable.h -/

/-- printable.h:46-60: the loop over the members; `texts` is what `<<` writes for each of them. -/
def printLoop (names : List (List Char)) : List (List Char) → Bool → Nat → List Char → List Char
  | [], _, _, out => out
  | f :: fs, first, i, out =>
    let out := if first then out else out ++ [',', ' ']
    let out := match names[i]? with
      | some n => out ++ n ++ ['=']
      | none => out
    printLoop names fs false (i + 1) (out ++ f)

/-- printable.h:39-63 `CISTA_PRINTABLE`. -/
def printStruct (names : List (List Char)) (texts : List (List Char)) : List Char :=
  printLoop names texts true 0 ['{'] ++ ['}']

/-- printable.h:18-29: the loop over the elements of a vector. -/
def printVecLoop : List (List Char) → Bool → List Char → List Char
  | [], _, out => out
  | f :: fs, first, out => printVecLoop fs false ((if first then out else out ++ [',', '\n', ' ', ' ']) ++ f)

/-- printable.h:14-31 `operator<<` for `std::vector`. -/
def printVec (texts : List (List Char)) : List Char :=
  printVecLoop texts true ['[', '\n', ' ', ' '] ++ ['\n', ']']

/-! ## Number of members -/

theorem arityImpl_ends (ms : List Kind) : ∀ (fuel n : Nat), n ≤ (leaves ms).length → (leaves ms).length < fuel + n →
    ∃ a, arityImpl ms fuel n = .ok a ∧ n ≤ a ∧ a ≤ (leaves ms).length ∧ (∀ k, n < k → k ≤ a → accepts ms k = true) ∧
      accepts ms (a + 1) = false
  | 0, n, hn, h => by omega
  | fuel + 1, n, hn, h => by
    rw [arityImpl]
    by_cases ha : accepts ms (n + 1) = true
    · rw [if_pos ha]
      have hl : n + 1 ≤ (leaves ms).length := by
        simp only [accepts, Bool.and_eq_true, decide_eq_true_eq] at ha
        exact ha.1
      obtain ⟨a, e, h1, h2, h3, h4⟩ := arityImpl_ends ms fuel (n + 1) hl (by omega)
      refine ⟨a, e, by omega, h2, fun k hk hk' => ?_, h4⟩
      by_cases hkn : k = n + 1
      · rw [hkn]; exact ha
      · exact h3 k (by omega) hk'
    · rw [if_neg ha]
      exact ⟨n, rfl, Nat.le_refl _, hn, fun k hk hk' => by omega, by simpa using ha⟩

/-- Whether all initialisers but the first can be left out. -/
def Rest (ms : List Kind) : Prop := ∀ d ∈ (leaves ms).drop 1, d = true

/-- What `arity` computes: the number of initialisers, or zero. -/
theorem arity_eq (ms : List Kind) :
    (Rest ms → arity ms = .ok (leaves ms).length) ∧ (¬ Rest ms → arity ms = .ok 0) := by
  obtain ⟨a, e, -, h2, h3, h4⟩ := arityImpl_ends ms ((leaves ms).length + 1) 0 (by omega) (by omega)
  constructor
  · intro hr
    rw [arity, e]
    by_cases ha : a = (leaves ms).length
    · rw [ha]
    · exfalso
      have : accepts ms (a + 1) = true := by
        simp only [accepts, Bool.and_eq_true, decide_eq_true_eq, List.all_eq_true, id]
        refine ⟨by omega, fun d hd => hr d ?_⟩
        rw [Nat.add_comm a 1, ← List.drop_drop] at hd
        exact List.mem_of_mem_drop hd
      rw [this] at h4
      cases h4
  · intro hr
    rw [arity, e]
    by_cases ha : a = 0
    · rw [ha]
    · exfalso
      apply hr
      have := h3 1 (by omega) (by omega)
      simp only [accepts, Bool.and_eq_true, decide_eq_true_eq, List.all_eq_true, id] at this
      exact this.2

theorem leaves_length {ms : List Kind} (h : ∀ k ∈ ms, k.leaves.length = 1) : (leaves ms).length = ms.length := by
  induction ms with
  | nil => rfl
  | cons k ms ih =>
    have h1 : k.leaves.length = 1 := h k (by simp)
    have h2 := ih fun x hx => h x (by simp [hx])
    simp only [leaves, List.flatMap_cons, List.length_append, List.length_cons] at h2 ⊢
    omega

theorem leaves_nonempty {ms : List Kind} (h : ∀ k ∈ ms, k.leaves ≠ []) : ms.length ≤ (leaves ms).length := by
  induction ms with
  | nil => simp
  | cons k ms ih =>
    have h1 : 0 < k.leaves.length := List.length_pos_iff.2 (h k (by simp))
    have h2 := ih fun x hx => h x (by simp [hx])
    simp only [leaves, List.flatMap_cons, List.length_append, List.length_cons] at h2 ⊢
    omega

/-! ## C89 -/

/-- A struct as reflection expects it: at most 64 members, C arrays have one element, and every member but the first can be
default initialised. -/
structure Good (ms : List Kind) : Prop where
  few : ms.length ≤ 64
  flat : ∀ k ∈ ms, k.leaves.length = 1
  rest : Rest ms

theorem Good.toTuple {ms : List Kind} (h : Good ms) : toTuple ms = some (List.range ms.length) := by
  unfold Reflect.toTuple
  rw [(arity_eq ms).1 h.rest, leaves_length h.flat]
  simp only
  rw [if_neg (by have := h.few; omega)]
  by_cases h0 : ms.length = 0
  · rw [if_pos h0, h0]; rfl
  · rw [if_neg h0]; simp

theorem indexLoop_range (j : Nat) : ∀ (n i found : Nat), i + n < 2 ^ 32 →
    indexLoop j (List.range' i n) i found = if i ≤ j ∧ j < i + n then j else found
  | 0, i, found, _ => by simp [indexLoop]; omega
  | n + 1, i, found, h => by
    rw [List.range'_succ, indexLoop, Nat.mod_eq_of_lt (by omega), indexLoop_range j n (i + 1) _ (by omega)]
    by_cases h1 : i = j
    · rw [if_neg (by omega), if_pos h1, if_pos (by omega), h1]
    · rw [if_neg h1]
      by_cases h2 : i + 1 ≤ j ∧ j < i + 1 + n
      · rw [if_pos h2, if_pos (by omega)]
      · rw [if_neg h2, if_neg (by omega)]

/-- A pointer to a pointer to … (`k` times). -/
def pointers : Nat → Arg → Arg
  | 0, t => t
  | k + 1, t => .ptr (some (pointers k t))

/-- **C89** For a struct as expected, `arity` is the number of members, `to_tuple` refers to each member once, in the order of
declaration, `for_each_field` visits them in that order, also through any number of pointers (nothing behind a null pointer), and
`member_index` gives the position of every member (if the first one has a default, too). -/
theorem C89_members {ms : List Kind} (h : Good ms) :
    arity ms = .ok ms.length ∧ toTuple ms = some (List.range ms.length) ∧
    (∀ k, forEachField 0 (pointers k (.agg ms)) = some ((List.range ms.length).map fun i => ⟨k, some i⟩) ∧
      forEachField 0 (pointers k (.ptr none)) = some []) ∧
    ((∀ d ∈ leaves ms, d = true) → ∀ j, j < ms.length → memberIndex ms j = some j) := by
  refine ⟨by rw [(arity_eq ms).1 h.rest, leaves_length h.flat], h.toTuple, fun k => ?_, fun hd j hj => ?_⟩
  · have key : ∀ (k d : Nat) (t : Arg), forEachField d (pointers k t) = forEachField (d + k) t := by
      intro k
      induction k with
      | zero => intro d t; rfl
      | succ k ih => intro d t; rw [pointers, forEachField, ih, Nat.add_right_comm, Nat.add_assoc]
    rw [key, key, Nat.zero_add, forEachField, forEachField, h.toTuple]
    exact ⟨rfl, rfl⟩
  · have := h.few
    have ha : accepts ms 0 = true := by simpa [accepts] using hd
    rw [memberIndex, if_pos ha, h.toTuple, List.range_eq_range', Option.map_some, indexLoop_range j ms.length 0 _ (by omega), if_pos (by omega)]

/-- **C89** A struct with other members is never taken apart wrongly if every member but the first can be default initialised: what
compiles refers to all members in order. -/
theorem C89_compiles_only_right {ms : List Kind} (hk : ∀ k ∈ ms, k.leaves ≠ []) (hr : Rest ms) (r : List Nat)
    (h : toTuple ms = some r) : r = List.range ms.length := by
  unfold toTuple at h
  rw [(arity_eq ms).1 hr] at h
  simp only at h
  have hl := leaves_nonempty hk
  split at h
  · cases h
  · split at h
    · next h0 =>
      cases h
      have : ms.length = 0 := by omega
      rw [this]; rfl
    · split at h
      · next e => cases h; rw [e]
      · cases h

/-- **C89** violated: if a member other than the first has no default (a reference, a class without default constructor), `arity` is 0
and the struct is silently treated as empty: no member is visited, serialized, hashed or compared. -/
theorem C89_skips_members_violated {ms : List Kind} (h : false ∈ (leaves ms).drop 1) (d : Nat) :
    arity ms = .ok 0 ∧ toTuple ms = some [] ∧ forEachField d (.agg ms) = some [] := by
  have e := (arity_eq ms).2 fun hr => Bool.false_ne_true (hr false h)
  have t : toTuple ms = some [] := by unfold toTuple; rw [e]; rfl
  exact ⟨e, t, by rw [forEachField, t]; rfl⟩

/-- **C89** violated: structs with a C array of several elements are not supported, the array counts once for each element. -/
theorem C89_c_array_violated {ms : List Kind} (hr : Rest ms) (hk : ∀ k ∈ ms, k.leaves ≠ []) {k : Kind} (h : k ∈ ms)
    (h2 : 2 ≤ k.leaves.length) : toTuple ms = none ∧ ∃ a, arity ms = .ok a ∧ ms.length < a := by
  have hlt : ms.length < (leaves ms).length := by
    clear hr
    induction ms with
    | nil => simp at h
    | cons m ms ih =>
      have h0 : 0 < m.leaves.length := List.length_pos_iff.2 (hk m (by simp))
      simp only [leaves, List.flatMap_cons, List.length_append, List.length_cons] at ih ⊢
      rcases List.mem_cons.1 h with rfl | h'
      · have := leaves_nonempty (ms := ms) fun x hx => hk x (by simp [hx])
        simp only [leaves] at this
        omega
      · have := ih (fun x hx => hk x (by simp [hx])) h'
        omega
  refine ⟨?_, _, (arity_eq ms).1 hr, hlt⟩
  unfold toTuple
  rw [(arity_eq ms).1 hr]
  simp only
  split
  · rfl
  · rw [if_neg (by omega), if_neg (by omega)]

/-- `struct { int a; std::string b; int c[1]; }` -/
def demo : List Kind := [.val true, .val true, .arr 1 (.val true)]

example : Good demo := ⟨by decide, by decide, by unfold Rest; decide⟩
example : arity demo = .ok 3 ∧ toTuple demo = some [0, 1, 2] ∧ memberIndex demo 1 = some 1 := by decide
/-- `struct { int a; int& b; }` and `struct { int a[2]; }` -/
example : arity [.val true, .val false] = .ok 0 ∧ toTuple [.arr 2 (.val true)] = none ∧ arity [.val true, .arr 2 (.arr 3 (.val true))] = .ok 7 := by
  decide
example : (∀ k ∈ [Kind.val false, .arr 2 (.val true)], k.leaves ≠ []) ∧ Rest [.val false, .arr 2 (.val true)] :=
  ⟨by decide, by unfold Rest; decide⟩

/-! ## C90 -/

theorem tupLt_eq (ltf : Nat → α → α → Bool) : ∀ (i : Nat) (a b : List α), tupLt ltf i a b = Tuple.lt ltf i a b
  | _, [], _ => by simp [tupLt, Tuple.lt]
  | _, _ :: _, [] => by simp [tupLt, Tuple.lt]
  | i, x :: a, y :: b => by
    rw [tupLt, Tuple.lt, tupLt_eq ltf (i + 1) a b]
    cases ltf i x y <;> cases ltf i y x <;> rfl

theorem tupEq_eq (eqf : Nat → α → α → Bool) : ∀ (i : Nat) (a b : List α), a.length = b.length → tupEq eqf i a b = Tuple.eq eqf i a b
  | _, [], _, _ => by simp [tupEq, Tuple.eq]
  | _, _ :: _, [], h => by simp at h
  | i, x :: a, y :: b, h => by
    rw [tupEq, Tuple.eq, tupEq_eq eqf (i + 1) a b (by simpa using h)]

theorem Good.tie {ms : List Kind} (h : Good ms) (a : List α) (ha : a.length = ms.length) : tie ms a = some a := by
  have key : ∀ (l : List α), (List.range l.length).filterMap (l[·]?) = l := by
    intro l
    induction l with
    | nil => rfl
    | cons x l ih =>
      rw [List.length_cons, List.range_succ_eq_map, List.filterMap_cons]
      simp only [List.getElem?_cons_zero, List.filterMap_map]
      congr 1
  rw [Reflect.tie, h.toTuple, Option.map_some, ← ha, key]

/-- **C90** For a struct as expected, with totally ordered members, the operators defined by `CISTA_COMPARABLE` (and those of `pair`) are
the lexicographic order of the members, equality is equality of all members, and together they form a strict total order. -/
theorem C90_comparable {ms : List Kind} (h : Good ms) (eqf ltf : Nat → α → α → Bool) (hT : Tuple.Total eqf ltf)
    (ht : ∀ i x y z, ltf i x y = true → ltf i y z = true → ltf i x z = true)
    (hn : ∀ i x y z, ltf i x y = false → ltf i y z = false → ltf i x z = false) (a b c : List α) (ha : a.length = ms.length)
    (hb : b.length = ms.length) (hc : c.length = ms.length) :
    ∃ eq lt gt : Bool, structEq eqf ms a b = some eq ∧ structNe eqf ms a b = some (!eq) ∧ structLt ltf ms a b = some lt ∧
      structGt ltf ms a b = some gt ∧ structLe ltf ms a b = some (!gt) ∧ structGe ltf ms a b = some (!lt) ∧
      structLt ltf ms b a = some gt ∧
      (eq = true ↔ ∀ i x y, a[i]? = some x → b[i]? = some y → eqf i x y = true) ∧ (lt = true ↔ Tuple.Lex ltf a b) ∧
      (lt, eq, gt) ∈ [(true, false, false), (false, true, false), (false, false, true)] ∧
      (structLt ltf ms b c = some true → lt = true → structLt ltf ms a c = some true) := by
  obtain ⟨e1, e2, e3, e4, e5, e6, e7, e8⟩ := Tuple.C70_tuple eqf ltf hT ht hn a b c (by omega)
  have ta := h.tie a ha
  have tb := h.tie b hb
  have tc := h.tie c hc
  have hab := tupEq_eq eqf 0 a b (by omega)
  simp only [structEq, structNe, structLt, structGt, structLe, structGe, compare, ta, tb, tc, Option.bind_eq_bind, Option.bind_some,
    Option.pure_def, tupLt_eq, hab]
  refine ⟨_, _, _, rfl, rfl, rfl, rfl, rfl, rfl, rfl, e1, e3, e7, fun h1 h2 => ?_⟩
  rw [Option.some.injEq] at h1
  rw [Option.some.injEq]
  exact e8 h2 h1

/-- Outside of this domain: objects of a struct with a member (not the first) without default are all equal. -/
theorem compare_skips_violated {ms : List Kind} (h : false ∈ (leaves ms).drop 1) (eqf : Nat → α → α → Bool) (a b : List α) :
    structEq eqf ms a b = some true := by
  have t := (C89_skips_members_violated h 0).2.1
  simp [structEq, compare, tie, t, tupEq]

example : structLt (fun _ (x y : Nat) => decide (x < y)) demo [1, 2, 9] [1, 3, 0] = some true ∧
    structEq (fun _ (x y : Nat) => x == y) demo [1, 2, 9] [1, 2, 9] = some true := by decide

/-! ## C91 -/

/-- A member with its name, if it has one. -/
def labelled (names : List (List Char)) (i : Nat) (text : List Char) : List Char :=
  match names[i]? with
  | some n => n ++ '=' :: text
  | none => text

/-- The texts with a separator between two of them. -/
def separated (sep : List Char) : List (List Char) → List Char
  | [] => []
  | [x] => x
  | x :: y :: xs => x ++ sep ++ separated sep (y :: xs)

theorem separated_cons (sep x : List Char) (xs : List (List Char)) :
    separated sep (x :: xs) = x ++ (xs.map (sep ++ ·)).flatten := by
  induction xs generalizing x with
  | nil => simp [separated]
  | cons y xs ih => rw [separated, ih]; simp

theorem printLoop_eq (names : List (List Char)) : ∀ (fs : List (List Char)) (i : Nat) (out : List Char),
    printLoop names fs false i out =
      out ++ ((fs.zipIdx i).map fun p => [',', ' '] ++ labelled names p.2 p.1).flatten
  | [], i, out => by simp [printLoop]
  | f :: fs, i, out => by
    rw [printLoop, printLoop_eq names fs (i + 1)]
    simp only [Bool.false_eq_true, if_false, List.zipIdx_cons, List.map_cons, List.flatten_cons, labelled]
    cases names[i]? <;> simp

/-- **C91** A printable struct prints as `{name=value, …}`: the members in order, separated by commas, each with its name; names that are
missing are left out, superfluous names ignored. -/
theorem C91_struct (names texts : List (List Char)) :
    printStruct names texts = '{' :: separated [',', ' '] (texts.zipIdx.map fun p => labelled names p.2 p.1) ++ ['}'] := by
  cases texts with
  | nil => rfl
  | cons f fs =>
    rw [printStruct, printLoop, printLoop_eq, List.zipIdx_cons, List.map_cons, separated_cons]
    simp only [if_true, labelled, List.map_map]
    cases names[0]? <;> simp [Function.comp_def]

theorem printVecLoop_eq : ∀ (fs : List (List Char)) (out : List Char),
    printVecLoop fs false out = out ++ (fs.map ([',', '\n', ' ', ' '] ++ ·)).flatten
  | [], out => by simp [printVecLoop]
  | f :: fs, out => by rw [printVecLoop, printVecLoop_eq fs]; simp

/-- **C91** A vector prints as its elements on separate lines, indented and separated by commas, in brackets. -/
theorem C91_vector (texts : List (List Char)) :
    printVec texts = ['[', '\n', ' ', ' '] ++ separated [',', '\n', ' ', ' '] texts ++ ['\n', ']'] := by
  cases texts with
  | nil => rfl
  | cons f fs =>
    rw [printVec, printVecLoop, printVecLoop_eq, separated_cons]
    simp

example : printStruct [['a'], ['b']] [['1'], ['2'], ['3']] = "{a=1, b=2, 3}".toList ∧
    printVec [['1'], ['2']] = "[\n  1,\n  2\n]".toList := by decide +kernel

end Cista.Reflect
