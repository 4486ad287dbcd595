import Verif.Basic

/-!
# Canonical type names

Model of `remove_all` and `canonicalize_type_name` (include/cista/type_hash/type_name.h) on strings as lists of characters.
-/
set_option linter.unusedSimpArgs false

namespace Cista.TypeHash.Name

/-- `s.find(substr, pos)` for `pos ≤ s.size()`: the first position from `pos` on at which `substr` starts. -/
def find (sub : List Char) : List Char → Nat → Option Nat
  | s, 0 => findAt sub s 0
  | [], _ + 1 => none
  | _ :: s, pos + 1 => (find sub s pos).map (· + 1)
where
  /-- The first position at which `sub` starts, plus `i`. -/
  findAt (sub : List Char) : List Char → Nat → Option Nat
    | [], i => if sub = [] then some i else none
    | c :: s, i => if sub.isPrefixOf (c :: s) then some i else findAt sub s (i + 1)

/-- type_name.h:19-24 `remove_all`: `pos` is where the last occurrence was erased.  `fuel` bounds the iterations. -/
def removeLoop (sub : List Char) : Nat → List Char → Nat → Res (List Char)
  | 0, _, _ => .error .diverge
  | fuel + 1, s, pos =>
    match find sub s pos with
    | none => .ok s
    | some p => removeLoop sub fuel (s.take p ++ s.drop (p + sub.length)) p

def removeAll (s sub : List Char) : Res (List Char) := removeLoop sub (s.length + 1) s 0

/-- type_name.h:27 -/
def anonGcc : List Char := ['{', 'a', 'n', 'o', 'n', 'y', 'm', 'o', 'u', 's', '}', ':', ':']

/-- type_name.h:28 -/
def anonClang : List Char := ['(', 'a', 'n', 'o', 'n', 'y', 'm', 'o', 'u', 's', ' ', 'n', 'a', 'm', 'e', 's', 'p', 'a', 'c', 'e', ')', ':', ':']

/-- type_name.h:29 -/
def anonMsvc : List Char := ['`', 'a', 'n', 'o', 'n', 'y', 'm', 'o', 'u', 's', '-', 'n', 'a', 'm', 'e', 's', 'p', 'a', 'c', 'e', '\'', ':', ':']

/-- type_name.h:30 -/
def kwStruct : List Char := ['s', 't', 'r', 'u', 'c', 't']

/-- type_name.h:31 -/
def kwConst : List Char := ['c', 'o', 'n', 's', 't']

/-- type_name.h:32 -/
def space : List Char := [' ']

/-- type_name.h:26-33 `canonicalize_type_name`. -/
def canonicalize (s : List Char) : Res (List Char) := do
  let s ← removeAll s anonGcc
  let s ← removeAll s anonClang
  let s ← removeAll s anonMsvc
  let s ← removeAll s kwStruct
  let s ← removeAll s kwConst
  removeAll s space

/-! ## Specification -/

/-- `t` is `s` without the occurrences of `sub` found from left to right. -/
inductive Removed (sub : List Char) : List Char → List Char → Prop where
  | nil : Removed sub [] []
  | keep (c : Char) (s t : List Char) : ¬ sub <+: c :: s → Removed sub s t → Removed sub (c :: s) (c :: t)
  | drop (s t : List Char) : Removed sub s t → Removed sub (sub ++ s) t

theorem findAt_shift (sub : List Char) (s : List Char) (i : Nat) : find.findAt sub s i = (find.findAt sub s 0).map (· + i) := by
  induction s generalizing i with
  | nil => simp only [find.findAt]; split <;> simp
  | cons c s ih =>
    simp only [find.findAt]
    split
    · simp
    · rw [ih (i + 1), ih (0 + 1)]
      cases find.findAt sub s 0 <;> simp; omega

theorem find_zero (sub s : List Char) : find sub s 0 = find.findAt sub s 0 := by cases s <;> rfl

/-- Searching from `pos` is searching the rest. -/
theorem find_drop (sub s : List Char) (pos : Nat) (h : pos ≤ s.length) : find sub s pos = (find sub (s.drop pos) 0).map (· + pos) := by
  induction s generalizing pos with
  | nil =>
    have : pos = 0 := by simpa using h
    subst this; simp
  | cons c s ih =>
    cases pos with
    | zero => simp
    | succ pos =>
      simp only [find, List.drop_succ_cons]
      rw [ih pos (by simpa using h), Option.map_map, find_zero]
      congr 1

theorem findAt_none {sub s : List Char} (hs : sub ≠ []) (h : find.findAt sub s 0 = none) : Removed sub s s := by
  induction s with
  | nil => exact .nil
  | cons c s ih =>
    simp only [find.findAt] at h
    split at h
    · cases h
    · rename_i hp
      rw [findAt_shift] at h
      exact .keep c s s (fun e => hp (List.isPrefixOf_iff_prefix.2 e)) (ih (by simpa using h))

theorem findAt_some {sub s : List Char} {p : Nat} (hs : sub ≠ []) (h : find.findAt sub s 0 = some p) :
    p + sub.length ≤ s.length ∧ ∀ t, Removed sub (s.drop (p + sub.length)) t → Removed sub s (s.take p ++ t) := by
  induction s generalizing p with
  | nil => simp [find.findAt, hs] at h
  | cons c s ih =>
    simp only [find.findAt] at h
    split at h
    · rename_i hp
      cases h
      obtain ⟨u, hu⟩ := List.isPrefixOf_iff_prefix.1 hp
      rw [← hu]
      refine ⟨by simp, fun t ht => ?_⟩
      simp only [Nat.zero_add, List.drop_left, List.take_zero, List.nil_append] at ht ⊢
      exact .drop u t ht
    · rename_i hp
      rw [findAt_shift] at h
      cases hq : find.findAt sub s 0 with
      | none => rw [hq] at h; cases h
      | some q =>
        rw [hq] at h
        cases h
        obtain ⟨h1, h2⟩ := ih hq
        refine ⟨by simp; omega, fun t ht => ?_⟩
        rw [show q + (0 + 1) + sub.length = (q + sub.length) + 1 by omega, List.drop_succ_cons] at ht
        exact .keep c s _ (fun e => hp (List.isPrefixOf_iff_prefix.2 e)) (h2 t ht)

theorem removeLoop_spec {sub : List Char} (hs : sub ≠ []) (fuel : Nat) (s : List Char) (pos : Nat) (hp : pos ≤ s.length)
    (hf : s.length - pos < fuel) : ∃ t, removeLoop sub fuel s pos = .ok (s.take pos ++ t) ∧ Removed sub (s.drop pos) t := by
  induction fuel generalizing s pos with
  | zero => omega
  | succ fuel ih =>
    have hl : 0 < sub.length := List.length_pos_iff.2 hs
    simp only [removeLoop]
    rw [find_drop sub s pos hp, find_zero]
    cases hq : find.findAt sub (s.drop pos) 0 with
    | none => exact ⟨s.drop pos, by simp [List.take_append_drop], findAt_none hs hq⟩
    | some q =>
      obtain ⟨h1, h2⟩ := findAt_some hs hq
      rw [List.length_drop] at h1
      simp only [Option.map_some]
      have hlen : (s.take (q + pos) ++ s.drop (q + pos + sub.length)).length = s.length - sub.length := by
        simp only [List.length_append, List.length_take, List.length_drop]; omega
      have htl : (s.take (q + pos)).length = q + pos := by rw [List.length_take]; omega
      obtain ⟨t, e, ht⟩ := ih (s.take (q + pos) ++ s.drop (q + pos + sub.length)) (q + pos) (by rw [hlen]; omega) (by rw [hlen]; omega)
      rw [List.take_left' htl] at e
      rw [List.drop_left' htl] at ht
      refine ⟨(s.drop pos).take q ++ t, ?_, ?_⟩
      · rw [e, ← List.append_assoc]
        congr 2
        rw [Nat.add_comm q pos, List.take_add]
      · apply h2
        rw [List.drop_drop, show pos + (q + sub.length) = q + pos + sub.length by omega]
        exact ht

/-- `remove_all` of a non-empty text terminates and removes the occurrences found from left to right. -/
theorem C78_remove_all (s sub : List Char) (hs : sub ≠ []) : ∃ t, removeAll s sub = .ok t ∧ Removed sub s t := by
  obtain ⟨t, e, h⟩ := removeLoop_spec hs (s.length + 1) s 0 (Nat.zero_le _) (by omega)
  exact ⟨t, by simpa [removeAll] using e, by simpa using h⟩

example : removeAll ['a', 'c', 'o', 'n', 's', 't', 'b', 'c', 'o', 'n', 's', 't'] kwConst = .ok ['a', 'b'] := by decide +kernel

/-- The specification determines the result. -/
theorem removed_unique {sub s t u : List Char} (hs : sub ≠ []) (h : Removed sub s t) (h' : Removed sub s u) : t = u := by
  induction h generalizing u with
  | nil =>
    generalize hn : ([] : List Char) = n at h'
    cases h' with
    | nil => rfl
    | keep => cases hn
    | drop s t _ => exact absurd (List.append_eq_nil_iff.1 hn.symm).1 hs
  | keep c s t hp _ ih =>
    generalize hn : c :: s = n at h'
    cases h' with
    | nil => cases hn
    | keep c' s' t' _ h2 => cases hn; rw [ih h2]
    | drop s' t' h2 => exact absurd (hn ▸ List.prefix_append sub s') hp
  | drop s t _ ih =>
    generalize hn : sub ++ s = n at h'
    cases h' with
    | nil => exact absurd (List.append_eq_nil_iff.1 hn).1 hs
    | keep c' s' t' hp _ => exact absurd (hn ▸ List.prefix_append sub s) hp
    | drop s' t' h2 =>
      have e := List.append_cancel_left hn
      subst e
      exact ih h2

/-- No occurrence of `sub` begins in `a` and ends in `b`. -/
def NoStraddle (sub a b : List Char) : Prop := ∀ u v, u ≠ [] → v ≠ [] → sub = u ++ v → u <:+ a → ¬ v <+: b

theorem prefix_append_cases {sub a b : List Char} (h : sub <+: a ++ b) : sub <+: a ∨ ∃ v, v ≠ [] ∧ sub = a ++ v ∧ v <+: b := by
  obtain ⟨r, hr⟩ := h
  rcases List.append_eq_append_iff.1 hr with ⟨x, hx, _⟩ | ⟨x, hx, hx'⟩
  · exact Or.inl ⟨x, hx.symm⟩
  · cases x with
    | nil => left; rw [List.append_nil] at hx; rw [hx]; exact List.prefix_refl _
    | cons c x => exact Or.inr ⟨c :: x, by simp, hx, r, hx'.symm⟩

/-- Texts next to each other are treated separately. -/
theorem removed_append {sub a a' b b' : List Char} (hs : sub ≠ []) (h : Removed sub a a') (hb : Removed sub b b')
    (hn : NoStraddle sub a b) : Removed sub (a ++ b) (a' ++ b') := by
  induction h with
  | nil => exact hb
  | keep c s t hp _ ih =>
    refine .keep c _ _ (fun e => ?_) (ih ?_)
    · have e : sub <+: (c :: s) ++ b := e
      rcases prefix_append_cases e with h | ⟨v, hv, e', hv'⟩
      · exact hp h
      · exact hn _ v (by simp) hv e' (List.suffix_refl _) hv'
    · intro u v hu hv e hsuf
      exact hn u v hu hv e (hsuf.trans (List.suffix_cons c s))
  | drop s t _ ih =>
    rw [List.append_assoc]
    refine .drop _ _ (ih ?_)
    intro u v hu hv e hsuf
    exact hn u v hu hv e (hsuf.trans (List.suffix_append sub s))

theorem removeAll_eq {s sub t : List Char} (hs : sub ≠ []) (h : Removed sub s t) : removeAll s sub = .ok t := by
  obtain ⟨u, e, hu⟩ := C78_remove_all s sub hs
  rw [e, removed_unique hs h hu]

/-- The parts of a text can be treated separately if the pattern cannot straddle them. -/
theorem removeAll_append {a a' b b' sub : List Char} (hs : sub ≠ []) (ha : removeAll a sub = .ok a') (hb : removeAll b sub = .ok b')
    (hn : NoStraddle sub a b) : removeAll (a ++ b) sub = .ok (a' ++ b') := by
  obtain ⟨u, e, hu⟩ := C78_remove_all a sub hs
  obtain ⟨v, e', hv⟩ := C78_remove_all b sub hs
  rw [ha] at e; rw [hb] at e'
  cases e; cases e'
  exact removeAll_eq hs (removed_append hs hu hv hn)

theorem noStraddle_of {sub a b : List Char} (h : ∀ k, 0 < k → k < sub.length → sub.take k <:+ a → ¬ sub.drop k <+: b) : NoStraddle sub a b := by
  intro u v hu hv e ha hb
  have hl : 0 < u.length := List.length_pos_iff.2 hu
  have hr : 0 < v.length := List.length_pos_iff.2 hv
  refine h u.length hl (by rw [e, List.length_append]; omega) ?_ ?_
  · rw [e, List.take_left]; exact ha
  · rw [e, List.drop_left]; exact hb

/-- The pattern cannot begin in `a`, decided by looking at all its beginnings. -/
def beginsIn (sub a : List Char) : Bool := (List.range sub.length).any fun k => decide (0 < k) && (sub.take k).isSuffixOf a

/-- The pattern cannot end in `b`. -/
def endsIn (sub b : List Char) : Bool := (List.range sub.length).any fun k => decide (0 < k) && (sub.drop k).isPrefixOf b

theorem noStraddle_left {sub a : List Char} (b : List Char) (h : beginsIn sub a = false) : NoStraddle sub a b := by
  refine noStraddle_of fun k hk hk' hs _ => ?_
  have := List.any_eq_false.1 h k (List.mem_range.2 hk')
  simp [hk, List.isSuffixOf_iff_suffix] at this
  exact this hs

theorem noStraddle_right {sub b : List Char} (a : List Char) (h : endsIn sub b = false) : NoStraddle sub a b := by
  refine noStraddle_of fun k hk hk' _ hs => ?_
  have := List.any_eq_false.1 h k (List.mem_range.2 hk')
  simp [hk, List.isPrefixOf_iff_prefix] at this
  exact this hs

/-- One after the other, the six patterns. -/
theorem canonicalize_total (s : List Char) : ∃ s1 s2 s3 s4 s5 s6, removeAll s anonGcc = .ok s1 ∧ removeAll s1 anonClang = .ok s2 ∧
    removeAll s2 anonMsvc = .ok s3 ∧ removeAll s3 kwStruct = .ok s4 ∧ removeAll s4 kwConst = .ok s5 ∧ removeAll s5 space = .ok s6 ∧
    canonicalize s = .ok s6 := by
  obtain ⟨s1, e1, _⟩ := C78_remove_all s anonGcc (by decide)
  obtain ⟨s2, e2, _⟩ := C78_remove_all s1 anonClang (by decide)
  obtain ⟨s3, e3, _⟩ := C78_remove_all s2 anonMsvc (by decide)
  obtain ⟨s4, e4, _⟩ := C78_remove_all s3 kwStruct (by decide)
  obtain ⟨s5, e5, _⟩ := C78_remove_all s4 kwConst (by decide)
  obtain ⟨s6, e6, _⟩ := C78_remove_all s5 space (by decide)
  exact ⟨s1, s2, s3, s4, s5, s6, e1, e2, e3, e4, e5, e6, by simp only [canonicalize, e1, e2, e3, e4, e5, e6, ok_bind]⟩

/-- Text in front that no pattern begins in. -/
theorem canonicalize_front (p p1 p2 p3 p4 p5 p6 s : List Char)
    (h1 : removeAll p anonGcc = .ok p1) (h2 : removeAll p1 anonClang = .ok p2) (h3 : removeAll p2 anonMsvc = .ok p3)
    (h4 : removeAll p3 kwStruct = .ok p4) (h5 : removeAll p4 kwConst = .ok p5) (h6 : removeAll p5 space = .ok p6)
    (b1 : beginsIn anonGcc p = false) (b2 : beginsIn anonClang p1 = false) (b3 : beginsIn anonMsvc p2 = false)
    (b4 : beginsIn kwStruct p3 = false) (b5 : beginsIn kwConst p4 = false) (b6 : beginsIn space p5 = false) :
    canonicalize (p ++ s) = (canonicalize s).map (p6 ++ ·) := by
  obtain ⟨s1, s2, s3, s4, s5, s6, e1, e2, e3, e4, e5, e6, e⟩ := canonicalize_total s
  rw [e]
  simp only [canonicalize, removeAll_append (by decide) h1 e1 (noStraddle_left _ b1), ok_bind,
    removeAll_append (by decide) h2 e2 (noStraddle_left _ b2), removeAll_append (by decide) h3 e3 (noStraddle_left _ b3),
    removeAll_append (by decide) h4 e4 (noStraddle_left _ b4), removeAll_append (by decide) h5 e5 (noStraddle_left _ b5),
    removeAll_append (by decide) h6 e6 (noStraddle_left _ b6)]
  rfl

/-- Text behind that no pattern ends in. -/
theorem canonicalize_back (p p1 p2 p3 p4 p5 p6 s : List Char)
    (h1 : removeAll p anonGcc = .ok p1) (h2 : removeAll p1 anonClang = .ok p2) (h3 : removeAll p2 anonMsvc = .ok p3)
    (h4 : removeAll p3 kwStruct = .ok p4) (h5 : removeAll p4 kwConst = .ok p5) (h6 : removeAll p5 space = .ok p6)
    (b1 : endsIn anonGcc p = false) (b2 : endsIn anonClang p1 = false) (b3 : endsIn anonMsvc p2 = false)
    (b4 : endsIn kwStruct p3 = false) (b5 : endsIn kwConst p4 = false) (b6 : endsIn space p5 = false) :
    canonicalize (s ++ p) = (canonicalize s).map (· ++ p6) := by
  obtain ⟨s1, s2, s3, s4, s5, s6, e1, e2, e3, e4, e5, e6, e⟩ := canonicalize_total s
  rw [e]
  simp only [canonicalize, removeAll_append (by decide) e1 h1 (noStraddle_right _ b1), ok_bind,
    removeAll_append (by decide) e2 h2 (noStraddle_right _ b2), removeAll_append (by decide) e3 h3 (noStraddle_right _ b3),
    removeAll_append (by decide) e4 h4 (noStraddle_right _ b4), removeAll_append (by decide) e5 h5 (noStraddle_right _ b5),
    removeAll_append (by decide) e6 h6 (noStraddle_right _ b6)]
  rfl

theorem map_nil_append (r : Res (List Char)) : r.map ([] ++ ·) = r := by cases r <;> simp [Except.map]
theorem map_append_nil (r : Res (List Char)) : r.map (· ++ []) = r := by cases r <;> simp [Except.map]

/-- Spellings of different compilers have the same canonical name: `struct` in front of a name, `const` in front of or behind one. -/
theorem C78_spellings_partial (s : List Char) :
    (∃ t, canonicalize s = .ok t) ∧ canonicalize (kwStruct ++ space ++ s) = canonicalize s ∧ canonicalize (kwConst ++ space ++ s) = canonicalize s ∧
      canonicalize (s ++ (space ++ kwConst)) = canonicalize s := by
  refine ⟨?_, ?_, ?_, ?_⟩
  · obtain ⟨_, _, _, _, _, s6, _, _, _, _, _, _, e⟩ := canonicalize_total s
    exact ⟨s6, e⟩
  · rw [canonicalize_front (kwStruct ++ space) (kwStruct ++ space) (kwStruct ++ space) (kwStruct ++ space) space space [] s,
      map_nil_append] <;> decide +kernel
  · rw [canonicalize_front (kwConst ++ space) (kwConst ++ space) (kwConst ++ space) (kwConst ++ space) (kwConst ++ space) space [] s,
      map_nil_append] <;> decide +kernel
  · rw [canonicalize_back (space ++ kwConst) (space ++ kwConst) (space ++ kwConst) (space ++ kwConst) (space ++ kwConst) space [] s,
      map_append_nil] <;> decide +kernel

/-- `const char*` and `char const*`. -/
example : canonicalize (kwConst ++ space ++ ['c', 'h', 'a', 'r', '*']) = .ok ['c', 'h', 'a', 'r', '*'] ∧
    canonicalize (['c', 'h', 'a', 'r'] ++ space ++ kwConst ++ ['*']) = .ok ['c', 'h', 'a', 'r', '*'] := by decide +kernel

/-- The result has no spaces. -/
theorem C78_no_spaces (s t : List Char) (h : canonicalize s = .ok t) : ' ' ∉ t := by
  obtain ⟨_, _, _, _, s5, s6, _, _, _, _, e5, e6, e⟩ := canonicalize_total s
  rw [h] at e
  cases e
  clear e5
  obtain ⟨u, e', hu⟩ := C78_remove_all s5 space (by decide)
  rw [e6] at e'
  cases e'
  clear h e6
  induction hu with
  | nil => simp
  | keep c s t hp _ ih =>
    simp only [List.mem_cons, not_or]
    refine ⟨fun e => hp ?_, ih⟩
    subst e
    exact List.prefix_append [' '] s
  | drop s t _ ih => exact ih

/-- A pattern that does not occur changes nothing. -/
theorem C78_no_occurrence (s sub : List Char) (hs : sub ≠ []) (h : ¬ sub <:+: s) : removeAll s sub = .ok s := by
  apply removeAll_eq hs
  induction s with
  | nil => exact .nil
  | cons c s ih =>
    exact .keep c s s (fun e => h e.isInfix) (ih (fun e => h (e.trans (List.suffix_cons c s).isInfix)))

example : ¬ kwConst <:+: ['c', 'o', 'n', 's'] := by decide +kernel

/-- **Violated**: types with different names get the same canonical name: a name that starts with the letters `struct` and the rest of it, the same name in
an anonymous and in the surrounding namespace. -/
theorem C78_collision_violated (s : List Char) :
    canonicalize (kwStruct ++ s) = canonicalize s ∧ canonicalize (anonGcc ++ s) = canonicalize s ∧ canonicalize (anonClang ++ s) = canonicalize s := by
  refine ⟨?_, ?_, ?_⟩
  · rw [canonicalize_front kwStruct kwStruct kwStruct kwStruct [] [] [] s, map_nil_append] <;> decide +kernel
  · rw [canonicalize_front anonGcc [] [] [] [] [] [] s, map_nil_append] <;> decide +kernel
  · rw [canonicalize_front anonClang anonClang [] [] [] [] [] s, map_nil_append] <;> decide +kernel

/-- **Violated**: letters inside of a name are removed, too: `constant` and `ant`; of `construct` only `con` is left. -/
theorem C78_inner_violated : canonicalize (kwConst ++ ['a', 'n', 't']) = canonicalize ['a', 'n', 't'] ∧
    canonicalize (kwConst ++ ['r', 'u', 'c', 't']) = .ok ['c', 'o', 'n'] := by decide +kernel

/-- **Violated**: the result can contain the removed text: `remove_all` does not look at what an erasure joins. -/
theorem C78_not_idempotent_violated :
    removeAll (['c', 'o'] ++ kwConst ++ ['n', 's', 't']) kwConst = .ok kwConst ∧ removeAll kwConst kwConst = .ok [] := by decide +kernel

/-- `remove_all` of the empty text never ends (it is not called like this). -/
theorem C78_empty_pattern_diverges (s : List Char) (fuel : Nat) : removeLoop [] fuel s 0 = .error .diverge := by
  have hf : find [] s 0 = some 0 := by cases s <;> rfl
  induction fuel with
  | zero => rfl
  | succ fuel ih =>
    simp only [removeLoop, hf]
    simpa using ih

/-- A name in which none of the removed texts but spaces occurs. -/
def Plain (s : List Char) : Prop :=
  ¬ anonGcc <:+: s ∧ ¬ anonClang <:+: s ∧ ¬ anonMsvc <:+: s ∧ ¬ kwStruct <:+: s ∧ ¬ kwConst <:+: s

instance (s : List Char) : Decidable (Plain s) := by unfold Plain; infer_instance

theorem removed_space {s t : List Char} (h : Removed space s t) : t = s.filter (· ≠ ' ') := by
  induction h with
  | nil => rfl
  | keep c s t hp _ ih =>
    have hc : c ≠ ' ' := by
      intro e
      subst e
      exact hp (List.prefix_append [' '] s)
    simp [hc, ih]
  | drop s t _ ih => simpa [space] using ih

/-- In a plain name only the spaces are removed. -/
theorem C79_plain (s : List Char) (h : Plain s) : canonicalize s = .ok (s.filter (· ≠ ' ')) := by
  obtain ⟨h1, h2, h3, h4, h5⟩ := h
  obtain ⟨t, e, ht⟩ := C78_remove_all s space (by decide)
  rw [← removed_space ht, ← e]
  simp only [canonicalize, C78_no_occurrence s _ (by decide) h1, C78_no_occurrence s _ (by decide) h2, C78_no_occurrence s _ (by decide) h3,
    C78_no_occurrence s _ (by decide) h4, C78_no_occurrence s _ (by decide) h5, ok_bind]

/-- Plain names have the same canonical name exactly if they differ in spaces only. -/
theorem C79_distinct (s t : List Char) (hs : Plain s) (ht : Plain t) :
    canonicalize s = canonicalize t ↔ s.filter (· ≠ ' ') = t.filter (· ≠ ' ') := by
  rw [C79_plain s hs, C79_plain t ht]
  exact ⟨fun h => by injection h, fun h => by rw [h]⟩

/-- Canonicalizing again changes nothing. -/
theorem C79_idempotent (s : List Char) (hs : Plain s) (hb : ' ' ∉ s) : canonicalize s = .ok s := by
  rw [C79_plain s hs, List.filter_eq_self.2]
  intro c hc
  simp only [ne_eq, decide_not, Bool.not_eq_true', decide_eq_false_iff_not]
  rintro rfl
  exact hb hc

example : Plain ['u', 'n', 's', 'i', 'g', 'n', 'e', 'd', ' ', 'i', 'n', 't'] := by decide +kernel

end Cista.TypeHash.Name
