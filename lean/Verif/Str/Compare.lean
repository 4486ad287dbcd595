import Verif.Str.Props
import Verif.Str.CModel

/-! # C16 — comparisons in every state, and their mixed overloads -/
namespace Cista.Str

variable {w : Nat}

/-- One side of a comparison: a string variable, a `std::basic_string_view`, or a `CharT const*` (given by the characters
that are readable behind it). -/
inductive Operand (w : Nat) where
  | str (x : Nat)
  | sv (l : List (Ch w))
  | cstr (cs : List (Ch w))

/-- `std::basic_string_view<CharT>{s}`: reads up to the first NUL. -/
def ofCstr (cs : List (Ch w)) : Res (List (Ch w)) :=
  if 0#w ∈ cs then .ok (cs.takeWhile (· ≠ 0#w)) else .error .ub

/-- The view that is compared; string.h:195-331 convert their arguments like this. -/
def Operand.view (st : St w) : Operand w → Res (List (Ch w))
  | .str x => st.view x
  | .sv l => .ok l
  | .cstr cs => ofCstr cs

/-- string.h:195-331: the 30 comparison operators, each one on the two views. -/
def cmpAny (f : List (Ch w) → List (Ch w) → Bool) (st : St w) (a b : Operand w) : Res Bool := do
  let s ← a.view st
  let t ← b.view st
  return f s t

/-- cstring.h:155-287: the same on C strings. -/
def cOperandView (st : CStr.CSt) : Operand 8 → Res (List (Ch 8))
  | .str x => st.view x
  | .sv l => .ok l
  | .cstr cs => ofCstr cs

/-- cstring.h:155-287. -/
def cmpCAny (f : List (Ch 8) → List (Ch 8) → Bool) (st : CStr.CSt) (a b : Operand 8) : Res Bool := do
  let s ← cOperandView st a
  let t ← cOperandView st b
  return f s t

/-- The pointer and the `msize_t` that string.h:368-377, 397-406 pass on: sizes are cut to 32 bits (those of strings have no
more). -/
def Operand.affix (st : St w) : Operand w → Res (List (Ch w))
  | .str x => st.view x
  | .sv l => .ok (l.take (l.length % 2 ^ 32))
  | .cstr cs => do
    let l ← ofCstr cs
    return l.take (l.length % 2 ^ 32)

/-- string.h:368-377. -/
def startsWithAny (st : St w) (x : Nat) (p : Operand w) : Res Bool := do
  let c ← p.affix st
  startsWith st x c

/-- string.h:397-406. -/
def endsWithAny (st : St w) (x : Nat) (p : Operand w) : Res Bool := do
  let c ← p.affix st
  endsWith st x c

/-! ## Specification -/

/-- The six answers are those for the texts `s` and `t`. -/
def Compares (s t : List (Ch w)) (eq ne lt gt le ge : Res Bool) : Prop :=
  ∃ eq' ne' lt' gt' le' ge' : Bool, eq = .ok eq' ∧ ne = .ok ne' ∧ lt = .ok lt' ∧ gt = .ok gt' ∧ le = .ok le' ∧ ge = .ok ge' ∧
    (eq' = true ↔ s = t) ∧ (ne' = true ↔ s ≠ t) ∧ (lt' = true ↔ TextLt s t) ∧ (gt' = true ↔ TextLt t s) ∧
    (le' = true ↔ TextLt s t ∨ s = t) ∧ (ge' = true ↔ TextLt t s ∨ s = t)

theorem compares_sv (s t : List (Ch w)) :
    Compares s t (.ok (svEq s t)) (.ok (svNe s t)) (.ok (svLt s t)) (.ok (svGt s t)) (.ok (svLe s t)) (.ok (svGe s t)) := by
  refine ⟨_, _, _, _, _, _, rfl, rfl, rfl, rfl, rfl, rfl, ?_, ?_, ?_, ?_, ?_, ?_⟩
  · simp only [svEq, Bool.and_eq_true, decide_eq_true_eq, svCompare_zero]
    exact ⟨fun h => h.2, fun h => ⟨by rw [h], h⟩⟩
  · simp only [svNe, svEq, Bool.not_eq_true', Bool.and_eq_false_iff, decide_eq_false_iff_not, svCompare_zero]
    constructor
    · rintro (h | h) e
      · rw [e] at h; exact h rfl
      · exact h e
    · intro h; exact Or.inr h
  · rw [textLt_iff]; simp [svLt]
  · rw [textLt_iff, svCompare_swap]; simp [svGt]
  · rw [textLt_iff, ← svCompare_zero]; simp [svLe]; omega
  · rw [textLt_iff, svCompare_swap, ← svCompare_zero]; simp [svGe]; omega

/-! ## Reading -/

theorem readLoc_part {m : SMem w} {inl : Nat → Option (List (Ch w))} {p : Loc} {n : Nat} {s : List (Ch w)}
    (h : readLoc m inl p n = .ok s) : s.length = n ∧ ∀ off k, off + k ≤ n → readLoc m inl (p.add off) k = .ok (slice s off k) := by
  have part : ∀ (cs : List (Ch w)) (o off k : Nat), off + k ≤ n → slice cs (o + off) k = slice (slice cs o n) off k := by
    intro cs o off k hk
    simp only [slice, List.drop_take, List.take_take, List.drop_drop]
    rw [Nat.min_eq_left (by omega)]
  cases p with
  | null =>
    simp only [readLoc] at h
    split at h
    · next h0 =>
      cases h
      refine ⟨h0.symm, fun off k hk => ?_⟩
      have : k = 0 := by omega
      subst this
      simp [Loc.add, readLoc, slice]
    · cases h
  | mem b o =>
    simp only [readLoc] at h
    split at h
    · cases h
    · next cs hcs =>
      split at h
      · next hl =>
        cases h
        refine ⟨by simp [slice]; omega, fun off k hk => ?_⟩
        simp only [Loc.add, readLoc, hcs]
        rw [if_pos (by omega), part cs o off k hk]
      · cases h
  | inl x o =>
    simp only [readLoc] at h
    split at h
    · cases h
    · next cs hcs =>
      split at h
      · next hl =>
        cases h
        refine ⟨by simp [slice]; omega, fun off k hk => ?_⟩
        simp only [Loc.add, readLoc, hcs]
        rw [if_pos (by omega), part cs o off k hk]
      · cases h

theorem Loc.add_zero' (p : Loc) : p.add 0 = p := by cases p <;> rfl

theorem view_read {st : St w} {x : Nat} {s : List (Ch w)} (h : st.view x = .ok s) :
    st.size x = s.length ∧ (∀ k, k ≤ s.length → st.read (st.data x) k = .ok (s.take k)) ∧
      ∀ off k, off + k ≤ s.length → st.read ((st.data x).add off) k = .ok (slice s off k) := by
  obtain ⟨h1, h2⟩ := readLoc_part (show readLoc st.mem st.inl (st.data x) (st.size x) = .ok s from h)
  refine ⟨h1.symm, fun k hk => ?_, fun off k hk => h2 off k (by omega)⟩
  have := h2 0 k (by omega)
  rw [Loc.add_zero'] at this
  simpa [slice, St.read] using this

/-! ## C16 -/

/-- **C16** In every state, however it came about: if the characters of both sides can be read at all, the comparison operators -
between strings, views and C strings in any combination - agree with equality and order of the texts. -/
theorem C16_any_state (st : St w) (a b : Operand w) {s t : List (Ch w)} (ha : a.view st = .ok s) (hb : b.view st = .ok t) :
    Compares s t (cmpAny svEq st a b) (cmpAny svNe st a b) (cmpAny svLt st a b) (cmpAny svGt st a b) (cmpAny svLe st a b)
      (cmpAny svGe st a b) := by
  simp only [cmpAny, ha, hb, bind, Except.bind, pure, Except.pure]
  exact compares_sv s t

/-- **C16** The same for `cstring`. -/
theorem C16_cstring (st : CStr.CSt) (a b : Operand 8) {s t : List (Ch 8)} (ha : cOperandView st a = .ok s)
    (hb : cOperandView st b = .ok t) :
    Compares s t (cmpCAny svEq st a b) (cmpCAny svNe st a b) (cmpCAny svLt st a b) (cmpCAny svGt st a b) (cmpCAny svLe st a b)
      (cmpCAny svGe st a b) := by
  simp only [cmpCAny, ha, hb, bind, Except.bind, pure, Except.pure]
  exact compares_sv s t

/-- **C16** `starts_with` and `ends_with` decide whether the argument - a string, view or C string of fewer than 2³² characters - is
a prefix or suffix of the text, with the character overloads whether it begins or ends with the character. -/
theorem C16_affixes (st : St w) (x : Nat) (a : Operand w) {s p : List (Ch w)} (hx : st.view x = .ok s) (ha : a.view st = .ok p)
    (hl : p.length < 2 ^ 32) (c : Ch w) :
    startsWithAny st x a = .ok (decide (p <+: s)) ∧ endsWithAny st x a = .ok (decide (p <:+ s)) ∧
    startsWithCh st x c = .ok (decide (s.head? = some c)) ∧ endsWithCh st x c = .ok (decide (s.getLast? = some c)) := by
  obtain ⟨h1, h2, h3⟩ := view_read hx
  have haf : a.affix st = .ok p := by
    cases a with
    | str y => exact ha
    | sv l =>
      simp only [Operand.view] at ha
      cases ha
      simp only [Operand.affix]
      rw [Nat.mod_eq_of_lt hl, List.take_length]
    | cstr cs =>
      simp only [Operand.view] at ha
      simp only [Operand.affix, ha, bind, Except.bind, pure, Except.pure]
      rw [Nat.mod_eq_of_lt hl, List.take_length]
  refine ⟨?_, ?_, ?_, ?_⟩
  · simp only [startsWithAny, haf, bind, Except.bind, startsWith, h1]
    by_cases g1 : p.length > s.length
    · rw [if_pos g1, decide_eq_false (fun h => by have := h.length_le; omega)]
    · rw [if_neg g1]
      by_cases g2 : p.length = 0
      · rw [if_pos g2, List.length_eq_zero_iff.1 g2]
        simp
      · rw [if_neg g2, if_neg (by omega), h2 _ (by omega)]
        simp only [pure, Except.pure, Except.ok.injEq, decide_eq_decide]
        rw [List.prefix_iff_eq_take]
  · simp only [endsWithAny, haf, bind, Except.bind, endsWith, h1]
    by_cases g1 : p.length > s.length
    · rw [if_pos g1, decide_eq_false (fun h => by have := h.length_le; omega)]
    · rw [if_neg g1]
      by_cases g2 : p.length = 0
      · rw [if_pos g2, List.length_eq_zero_iff.1 g2]
        simp
      · rw [if_neg g2, if_neg (by omega), h3 _ _ (by omega)]
        simp only [pure, Except.pure, Except.ok.injEq, decide_eq_decide]
        rw [List.suffix_iff_eq_drop, slice, List.take_of_length_le (by simp; omega)]
  · simp only [startsWithCh, h1]
    cases s with
    | nil => simp
    | cons y s =>
      rw [if_neg (by simp), h2 1 (by simp)]
      simp [bind, Except.bind, pure, Except.pure]
  · simp only [endsWithCh, h1]
    by_cases g : s.length = 0
    · rw [if_pos g, List.length_eq_zero_iff.1 g]; simp
    · rw [if_neg g, h3 _ 1 (by omega)]
      simp only [bind, Except.bind, pure, Except.pure, Except.ok.injEq]
      apply decide_eq_decide.2
      rw [slice, List.getLast?_eq_getElem?, List.drop_eq_getElem_cons (by omega), List.getElem?_eq_getElem (by omega),
        List.take_succ_cons, List.take_zero, List.cons.injEq, Option.some.injEq]
      exact ⟨fun h => h.1, fun h => ⟨h, rfl⟩⟩

/-- **C16** The hash of a string is that of its characters, in every state. -/
theorem C16_hash_any_state (st : St 8) (x : Nat) (seed : Hash.HashT) {s : List (Ch 8)} (hx : st.view x = .ok s) :
    hashStr st x seed = .ok (Hash.fnv seed s) := by
  obtain ⟨h1, h2, _⟩ := view_read hx
  unfold hashStr
  rw [h1, h2 _ (Nat.le_refl _), List.take_length]
  split
  · next h0 => rw [List.length_eq_zero_iff.1 h0]; rfl
  · rfl

/-- The limit on the length is necessary: every string starts and ends with every view of exactly 2³² characters, because the size
is cut to 32 bits. -/
theorem affix_length_violated (st : St w) (x : Nat) (l : List (Ch w)) (hl : l.length = 2 ^ 32) :
    startsWithAny st x (.sv l) = .ok true ∧ endsWithAny st x (.sv l) = .ok true := by
  simp [startsWithAny, endsWithAny, Operand.affix, hl, bind, Except.bind, startsWith, endsWith]

/-! ## Non-vacuity: a string with a NUL inside on the heap, compared with a view and a C string. -/

/-- `"a\0b…"` (17 characters) on the heap and `"ab"` inline. -/
def cmpState : St 8 :=
  ⟨⟨fun b => if b = 0 then some ([97#8, 0#8, 98#8] ++ List.replicate 14 99#8) else none, 1⟩,
    fun x => if x = 0 then .heap true 17 (some (0, 0)) else .sso ([97#8, 98#8] ++ List.replicate 13 0#8)⟩

example : (Operand.str 0).view cmpState = .ok ([97#8, 0#8, 98#8] ++ List.replicate 14 99#8) ∧
    (Operand.str 1).view cmpState = .ok [97#8, 98#8] ∧ (Operand.cstr [97#8, 98#8, 0#8, 1#8]).view cmpState = .ok [97#8, 98#8] := by
  decide +kernel

example : cmpAny svLt cmpState (.str 0) (.str 1) = .ok true ∧ cmpAny svEq cmpState (.str 1) (.cstr [97#8, 98#8, 0#8, 1#8]) = .ok true ∧
    startsWithAny cmpState 0 (.sv [97#8, 0#8]) = .ok true ∧ startsWithAny cmpState 0 (.cstr [97#8, 0#8]) = .ok true ∧
    endsWithAny cmpState 0 (.str 1) = .ok false := by decide +kernel

/-- C strings: bytes with a NUL inside. -/
def cmpCState : CStr.CSt := ⟨⟨fun _ => none, 0⟩, fun _ => .sso ([97#8, 0#8, 98#8] ++ List.replicate 12 0#8) 12⟩

example : cOperandView cmpCState (.str 0) = .ok [97#8, 0#8, 98#8] ∧ cmpCAny svGt cmpCState (.str 0) (.cstr [97#8, 0#8]) = .ok true := by
  decide +kernel

end Cista.Str
