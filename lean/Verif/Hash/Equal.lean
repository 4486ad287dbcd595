import Verif.Hash.Props
import Verif.Hash.Lemmas

/-!
# `equal_to` against `hashing`

Model of `cista::equal_to` (include/cista/equal_to.h) and, with static types kept, of `cista::hashing` (include/cista/hashing.h): a hash
table finds a key only if `equal_to` of the stored key and the looked up key implies equal hashes.  Keys keep the information the
overloads depend on: width and signedness of integers, precision of floating point numbers, representation of text.
-/
set_option linter.unusedSimpArgs false

namespace Cista.Hash.Equal

open Cista.Hash

/-- An integer type. -/
structure ITy where
  sgn : Bool
  w : Nat
deriving DecidableEq, Repr

/-- The values of an integer type. -/
def ITy.Holds (t : ITy) (v : Int) : Prop :=
  if t.sgn then -2 ^ (t.w - 1) ≤ v ∧ v < 2 ^ (t.w - 1) else 0 ≤ v ∧ v < 2 ^ t.w

instance (t : ITy) (v : Int) : Decidable (t.Holds v) := by unfold ITy.Holds; infer_instance

/-- Integral promotion: types narrower than `int` become `int`. -/
def ITy.promote (t : ITy) : ITy := if t.w < 32 then ⟨true, 32⟩ else t

/-- Usual arithmetic conversions of two promoted integer types. -/
def ITy.common (t u : ITy) : ITy :=
  if t.sgn = u.sgn then ⟨t.sgn, max t.w u.w⟩
  else if t.sgn then (if t.w ≤ u.w then u else t)
  else if u.w ≤ t.w then t else u

/-- Conversion to an integer type: modulo 2ʷ. -/
def ITy.conv (t : ITy) (v : Int) : Int :=
  let r := v % 2 ^ t.w
  if t.sgn ∧ 2 ^ (t.w - 1) ≤ r then r - 2 ^ t.w else r

/-- `a == b` for integers. -/
def intEq (t : ITy) (v : Int) (u : ITy) (w : Int) : Bool :=
  let c := t.promote.common u.promote
  c.conv v == c.conv w

/-- Conversion of a natural number to a floating point number with a significand of `p` bits: round to nearest, ties to even. -/
def roundNat (p n : Nat) : Nat :=
  if n < 2 ^ p then n
  else
    let e := n.log2 + 1 - p
    let m := n / 2 ^ e
    let r := n % 2 ^ e
    if 2 ^ e < 2 * r ∨ (2 * r = 2 ^ e ∧ m % 2 = 1) then (m + 1) * 2 ^ e else m * 2 ^ e

/-- Conversion of an integer to a floating point number. -/
def roundInt (p : Nat) (v : Int) : Int := if v < 0 then -(roundNat p v.natAbs : Int) else roundNat p v.natAbs

/-- Text: a sized string (`cista::string`, `std::string` and their views), the characters of a `char[N]`, or a `char const*`. -/
inductive Text where
  | sized (cs : List Byte)
  | array (buf : List Byte)
  | cptr (addr : Nat)
deriving DecidableEq, Repr

/-- Keys.  The elements of `list` (iterable container) and `tup` (aggregate or type with `cista_members`, `std::tuple`) are written with
`nil` and `cons`; `pair` is `cista::pair` or `std::pair`, `variant` is `std::variant`, `none` and `some` make a `std::optional` (of a type without `std::hash`).  `flt p q` is a finite floating
point number with a significand of `p` bits. -/
inductive Val where
  | int (t : ITy) (v : Int)
  | flt (p : Nat) (q : Rat)
  | ptr (addr : Nat)
  | text (t : Text)
  | list (es : Val)
  | tup (es : Val)
  | pair (a b : Val)
  | variant (i : Nat) (v : Val)
  | none
  | some (v : Val)
  | nil
  | cons (e es : Val)
deriving DecidableEq

/-- Memory behind `char const*`: the characters before the first NUL. -/
abbrev CMem := Nat → List Byte

/-- Characters before the first NUL. -/
def upToNul (cs : List Byte) : List Byte := cs.takeWhile (· ≠ 0#8)

/-- Equality of text.  Two sized strings are iterable: equal_to.h:53-59, `std::equal`.  A `char[N]` is not (`std::begin` does not take
an rvalue array) and a `char const*` is not: equal_to.h:64-65, i.e. string.h:285-287, cstring.h:241-243, which compare up to the first NUL, and for
two `char const*` the addresses.  Stored keys are not arrays. -/
def textEq (M : CMem) : Text → Text → Res Bool
  | .sized a, .sized b => .ok (a == b)
  | .sized a, .array buf => do
    require (buf.contains 0#8)
    return a == upToNul buf
  | .sized a, .cptr x => .ok (a == M x)
  | .cptr x, .sized b => .ok (M x == b)
  | .cptr x, .cptr y => .ok (x == y)
  | _, _ => .ok false

/-- equal_to.h:47-81: iterables element by element with the same length (53-59), aggregates member by member (60-63), everything else by
`operator==` (64-65), `cista::pair` by `operator==` of the members (75-81).  `operator==` of the key types (string.h:195-198, vector.h:416-419,
reflection/comparable.h, `std::variant`, `std::optional`) compares like `equal_to`, so one function serves both.
Combinations that do not compile are `false`. -/
def equalTo (M : CMem) : Val → Val → Res Bool
  | .int t v, .int u w => .ok (intEq t v u w)
  | .int _ v, .flt p y => .ok ((roundInt p v : Rat) == y)
  | .flt p x, .int _ w => .ok (x == (roundInt p w : Rat))
  | .flt _ x, .flt _ y => .ok (x == y)
  | .ptr x, .ptr y => .ok (x == y)
  | .text s, .text t => textEq M s t
  | .list a, .list b => equalTo M a b
  | .tup a, .tup b => equalTo M a b
  | .pair a b, .pair c d => do
    let x ← equalTo M a c
    if x then equalTo M b d else .ok false
  | .variant i a, .variant j b => if i = j then equalTo M a b else .ok false
  | .none, .none => .ok true
  | .some a, .some b => equalTo M a b
  | .nil, .nil => .ok true
  | .cons a as, .cons b bs => do
    let x ← equalTo M a b
    if x then equalTo M as bs else .ok false
  | _, _ => .ok false

/-- hashing.h:101-108, 203-208 for text. -/
def hashTextV (M : CMem) (seed : HashT) : Text → HashT
  | .sized cs => if cs.length = 0 then seed else fnv seed cs
  | .array buf => fnv seed (buf.take (buf.length - 1))
  | .cptr x => fnv seed (M x)

/-- Conversion of a floating point number to an integer: towards zero. -/
def truncQ (q : Rat) : Int := if q < 0 then -(-q).floor else q.floor

/-- One past the greatest `hash_t`. -/
def hashEnd : Rat := 18446744073709551616

/-- hash.h:115-123 `hash_combine` of an integer, converted to `hash_t`. -/
def hashInt (v : Int) (h : HashT) : HashT := hashCombine h (BitVec.ofInt 64 v)

/-- hash.h:115-123 `hash_combine` of a floating point number, converted to `hash_t`: undefined behaviour unless the integral part is a value of that type. -/
def hashFlt (q : Rat) (h : HashT) : Res HashT := do
  require (decide (-1 < q) && decide (q < hashEnd))
  return hashInt (truncQ q) h

/-- hashing.h:94-136 `hashing<T>`: pointer (99-100), text, scalar (109-110), iterable (113-118), aggregate (119-124), optional (127-129), 166-175
pair, 177-189 tuple, 191-201 variant; over any way of combining a number, a floating point number or text with the hash so far. -/
def hashValG {H : Type} (int : Int → H → H) (flt : Rat → H → Res H) (txt : Text → H → H) : Val → H → Res H
  | .int _ v, h => .ok (int v h)
  | .flt _ q, h => flt q h
  | .ptr x, h => .ok (int x h)
  | .text t, h => .ok (txt t h)
  | .list es, h => hashValG int flt txt es h
  | .tup es, h => hashValG int flt txt es h
  | .pair a b, h => do
    let h ← hashValG int flt txt a h
    hashValG int flt txt b h
  | .variant i v, h => hashValG int flt txt v (int i h)
  | .none, h => .ok h
  | .some v, h => hashValG int flt txt v h
  | .nil, h => .ok h
  | .cons e es, h => do
    let h ← hashValG int flt txt e h
    hashValG int flt txt es h

/-- hashing.h:94-136 with the functions of hash.h. -/
def hashVal (M : CMem) (a : Val) (h : HashT) : Res HashT := hashValG hashInt hashFlt (fun t h => hashTextV M h t) a h

/-! ## Specification -/

/-- Key types; `tnil`/`tcons` list member or alternative types, `many t` is the type of the elements of a container of `t`. -/
inductive KTy where
  | int (t : ITy)
  | flt (p : Nat)
  | ptr
  | sized
  | cptr
  | list (t : KTy)
  | tup (ts : KTy)
  | pair (a b : KTy)
  | variant (ts : KTy)
  | opt (t : KTy)
  | tnil
  | tcons (t ts : KTy)
  | many (t : KTy)
deriving DecidableEq

/-- The `i`-th type of a list of types. -/
def KTy.alt : KTy → Nat → Option KTy
  | .tcons t _, 0 => Option.some t
  | .tcons _ ts, i + 1 => ts.alt i
  | _, _ => Option.none

/-- The value has the type. -/
def HasTy : KTy → Val → Prop
  | .int t, .int u v => t = u ∧ 1 ≤ t.w ∧ t.Holds v
  | .flt p, .flt q _ => p = q
  | .ptr, .ptr _ => True
  | .sized, .text (.sized _) => True
  | .cptr, .text (.cptr _) => True
  | .list t, .list es => HasTy (.many t) es
  | .tup ts, .tup es => HasTy ts es
  | .pair a b, .pair x y => HasTy a x ∧ HasTy b y
  | .variant ts, .variant i v => ∃ t, ts.alt i = Option.some t ∧ HasTy t v
  | .opt _, .none => True
  | .opt t, .some v => HasTy t v
  | .tnil, .nil => True
  | .tcons t ts, .cons e es => HasTy t e ∧ HasTy ts es
  | .many _, .nil => True
  | .many t, .cons e es => HasTy t e ∧ HasTy (.many t) es
  | _, _ => False

/-- Two integers that `==` compares by value, or that are both hashed as 64 bit numbers. -/
def IntAgree (t : ITy) (v : Int) (u : ITy) (w : Int) : Prop :=
  let c := t.promote.common u.promote
  1 ≤ t.w ∧ 1 ≤ u.w ∧ t.Holds v ∧ u.Holds w ∧ (c.sgn = true ∨ c.w = 64 ∨ (0 ≤ v ∧ 0 ≤ w))

/-- A `char[N]` is a string literal: one NUL, at the end. -/
def TextAgree : Text → Text → Prop
  | .sized _, .array buf => ∃ cs, buf = cs ++ [0#8] ∧ 0#8 ∉ cs
  | _, _ => True

/-- Side conditions for a stored and a looked up key: no comparison of a negative with an unsigned 32 bit integer, integers compared to floating point
numbers are exactly representable, character arrays are literals. -/
def Agree : Val → Val → Prop
  | .int t v, .int u w => IntAgree t v u w
  | .int _ v, .flt p _ => v.natAbs < 2 ^ p
  | .flt p _, .int _ w => w.natAbs < 2 ^ p
  | .text s, .text t => TextAgree s t
  | .list a, .list b => Agree a b
  | .tup a, .tup b => Agree a b
  | .pair a b, .pair c d => Agree a c ∧ Agree b d
  | .variant i a, .variant j b => i = j → Agree a b
  | .some a, .some b => Agree a b
  | .cons a as, .cons b bs => Agree a b ∧ Agree as bs
  | _, _ => True

/-- Every floating point number in the key is above -1 and below 2⁶⁴. -/
def Hashable : Val → Prop
  | .flt _ q => -1 < q ∧ q < hashEnd
  | .list es => Hashable es
  | .tup es => Hashable es
  | .pair a b => Hashable a ∧ Hashable b
  | .variant _ v => Hashable v
  | .some v => Hashable v
  | .cons e es => Hashable e ∧ Hashable es
  | _ => True

/-! ## Integers -/

theorem conv_of_holds {t : ITy} {v : Int} (hw : 1 ≤ t.w) (h : t.Holds v) : t.conv v = v := by
  obtain ⟨s, w⟩ := t
  obtain ⟨k, rfl⟩ : ∃ k, w = k + 1 := ⟨w - 1, by simp only at hw; omega⟩
  have e2 : (2 : Int) ^ (k + 1) = 2 * 2 ^ k := by rw [Int.pow_succ]; omega
  have hp : (0 : Int) < 2 ^ k := Int.pow_pos (by decide)
  cases s
  · simp only [ITy.Holds, ITy.conv, Bool.false_eq_true, if_false, false_and] at *
    exact Int.emod_eq_of_lt h.1 h.2
  · simp only [ITy.Holds, ITy.conv, if_true, true_and, Nat.add_sub_cancel] at *
    rw [e2]
    by_cases hv : 0 ≤ v
    · rw [Int.emod_eq_of_lt hv (by omega), if_neg (by omega)]
    · have : v % (2 * 2 ^ k) = v + 2 * 2 ^ k := by
        rw [← Int.add_emod_right, Int.emod_eq_of_lt (by omega) (by omega)]
      rw [this, if_pos (by omega)]; omega

theorem pow_mono {a b : Nat} (h : a ≤ b) : (2 : Int) ^ a ≤ 2 ^ b := by
  have := Nat.pow_le_pow_right (n := 2) (by decide) h
  exact_mod_cast this

theorem holds_mono {s : Bool} {a b : Nat} {v : Int} (h : a ≤ b) (hv : ITy.Holds ⟨s, a⟩ v) : ITy.Holds ⟨s, b⟩ v := by
  have h1 := pow_mono h
  have h2 := pow_mono (show a - 1 ≤ b - 1 by omega)
  cases s <;> simp only [ITy.Holds, if_true, Bool.false_eq_true, if_false] at * <;> omega

/-- An unsigned value fits a wider signed type. -/
theorem holds_signed {a b : Nat} {v : Int} (h : a < b) (hv : ITy.Holds ⟨false, a⟩ v) : ITy.Holds ⟨true, b⟩ v := by
  have h2 := pow_mono (show a ≤ b - 1 by omega)
  have hp : (0 : Int) < 2 ^ a := Int.pow_pos (by decide)
  simp only [ITy.Holds, if_true, Bool.false_eq_true, if_false] at *; omega

/-- A value of a signed type that is not negative fits an unsigned type at least as wide. -/
theorem holds_unsigned {a b : Nat} {v : Int} (h : a ≤ b) (h0 : 0 ≤ v) (hv : ITy.Holds ⟨true, a⟩ v) : ITy.Holds ⟨false, b⟩ v := by
  have h2 := pow_mono (show a - 1 ≤ b by omega)
  simp only [ITy.Holds, if_true, Bool.false_eq_true, if_false] at *; omega

theorem holds_promote {t : ITy} {v : Int} (h : t.Holds v) : t.promote.Holds v := by
  unfold ITy.promote
  obtain ⟨s, w⟩ := t
  split
  · rename_i hw
    cases s
    · exact holds_signed hw h
    · exact holds_mono (Nat.le_of_lt hw) h
  · exact h

theorem promote_width {t : ITy} (h : 1 ≤ t.w) : 1 ≤ t.promote.w := by
  unfold ITy.promote; split <;> simp_all

theorem common_comm (t u : ITy) : t.common u = u.common t := by
  obtain ⟨s, a⟩ := t; obtain ⟨r, b⟩ := u
  cases s <;> cases r <;> simp [ITy.common, Nat.max_comm]

/-- The common type holds the value unless it is unsigned and the value negative. -/
theorem common_holds {t u : ITy} {v : Int} (h : t.Holds v) (h0 : (t.common u).sgn = true ∨ 0 ≤ v) : (t.common u).Holds v := by
  obtain ⟨s, a⟩ := t; obtain ⟨r, b⟩ := u
  cases s <;> cases r <;> simp only [ITy.common, if_true, Bool.false_eq_true, Bool.true_eq_false, if_false] at *
  · exact holds_mono (Nat.le_max_left ..) h
  · split
    · exact h
    · exact holds_signed (by omega) h
  · split at h0
    · rename_i hab
      rw [if_pos hab]
      exact holds_unsigned hab (by simpa using h0) h
    · rename_i hab
      rw [if_neg hab]; exact h
  · exact holds_mono (Nat.le_max_left ..) h

theorem common_width {t u : ITy} (h : 1 ≤ t.w) (h' : 1 ≤ u.w) : 1 ≤ (t.common u).w := by
  unfold ITy.common; split
  · simp only; omega
  · split <;> split <;> assumption

theorem intEq_value {t u : ITy} {v w : Int} (ht : 1 ≤ t.w) (hu : 1 ≤ u.w) (hv : t.Holds v) (hw : u.Holds w)
    (h0 : (t.promote.common u.promote).sgn = true ∨ (0 ≤ v ∧ 0 ≤ w)) : intEq t v u w = decide (v = w) := by
  have hc := common_width (promote_width ht) (promote_width hu)
  have h1 : (t.promote.common u.promote).Holds v := common_holds (holds_promote hv) (h0.imp id (·.1))
  have h2 : (t.promote.common u.promote).Holds w := by
    rw [common_comm] at h0 ⊢
    exact common_holds (holds_promote hw) (h0.imp id (·.2))
  simp only [intEq]
  rw [conv_of_holds hc h1, conv_of_holds hc h2]
  rfl

theorem ofInt_conv64 (s : Bool) (v : Int) : BitVec.ofInt 64 (ITy.conv ⟨s, 64⟩ v) = BitVec.ofInt 64 v := by
  apply BitVec.eq_of_toNat_eq
  simp only [BitVec.toNat_ofInt, ITy.conv]
  split <;> congr 1 <;> omega

theorem common_sgn_wide {t u : ITy} (h : (t.common u).w = 64) : t.common u = ⟨(t.common u).sgn, 64⟩ := by
  rw [← h]

/-! ## Hashes of equal keys -/

theorem roundInt_exact {p : Nat} {v : Int} (h : v.natAbs < 2 ^ p) : roundInt p v = v := by
  unfold roundInt roundNat
  rw [if_pos h]
  split <;> omega

theorem truncQ_int (v : Int) : truncQ (v : Rat) = v := by
  unfold truncQ
  split
  · rw [← Rat.intCast_neg, Rat.floor_intCast]; omega
  · exact Rat.floor_intCast v

theorem int_hash {t u : ITy} {v w : Int} (h : IntAgree t v u w) (he : intEq t v u w = true) :
    BitVec.ofInt 64 v = BitVec.ofInt 64 w := by
  obtain ⟨ht, hu, hv, hw, h0⟩ := h
  by_cases h64 : (t.promote.common u.promote).w = 64
  · simp only [intEq] at he
    have e := beq_iff_eq.1 he
    rw [common_sgn_wide h64] at e
    rw [← ofInt_conv64 _ v, e, ofInt_conv64]
  · have h1 : (t.promote.common u.promote).sgn = true ∨ (0 ≤ v ∧ 0 ≤ w) := by
      rcases h0 with h | h | h
      · exact Or.inl h
      · exact absurd h h64
      · exact Or.inr h
    rw [intEq_value ht hu hv hw h1] at he
    rw [of_decide_eq_true he]

theorem upToNul_literal {cs : List Byte} (h : 0#8 ∉ cs) : upToNul (cs ++ [0#8]) = cs := by
  unfold upToNul
  induction cs with
  | nil => decide
  | cons c cs ih =>
    simp only [List.mem_cons, not_or] at h
    rw [List.cons_append, List.takeWhile_cons_of_pos (by simpa using fun e => h.1 e.symm), ih h.2]

theorem hashTextV_sized (M : CMem) (seed : HashT) (cs : List Byte) : hashTextV M seed (.sized cs) = fnv seed cs := by
  cases cs <;> simp [hashTextV, fnv]

theorem text_hash {M : CMem} {s t : Text} (h : TextAgree s t) (he : textEq M s t = .ok true) (seed : HashT) :
    hashTextV M seed s = hashTextV M seed t := by
  cases s <;> cases t <;> simp only [textEq, Except.ok.injEq, beq_iff_eq, Bool.false_eq_true] at he
  · rw [he]
  · obtain ⟨cs, rfl, hn⟩ := h
    rw [show ((cs ++ [0#8]).contains 0#8) = true by simp, require_true, ok_bind, upToNul_literal hn] at he
    have e := beq_iff_eq.1 (Except.ok.inj he)
    rw [hashTextV_sized, e]
    simp [hashTextV]
  · rw [hashTextV_sized, he]; rfl
  · rw [hashTextV_sized, ← he]; rfl
  · rw [he]

/-- Hashing a key is undefined behaviour only for a floating point number out of range. -/
theorem hashValG_defined {H : Type} (int : Int → H → H) (flt : Rat → H → Res H) (txt : Text → H → H)
    (hf : ∀ q s, -1 < q → q < hashEnd → flt q s = .ok (int (truncQ q) s)) (a : Val) (h : Hashable a) (seed : H) :
    ∃ r, hashValG int flt txt a seed = .ok r := by
  induction a generalizing seed with
  | flt p q => exact ⟨_, hf q seed h.1 h.2⟩
  | pair a b iha ihb =>
    obtain ⟨r, e⟩ := iha h.1 seed
    simp only [hashValG, e, ok_bind]
    exact ihb h.2 r
  | cons a b iha ihb =>
    obtain ⟨r, e⟩ := iha h.1 seed
    simp only [hashValG, e, ok_bind]
    exact ihb h.2 r
  | list es ih => exact ih h seed
  | tup es ih => exact ih h seed
  | variant i v ih => exact ih h _
  | some v ih => exact ih h seed
  | _ => exact ⟨_, rfl⟩

theorem seq_true {x y : Res Bool} (h : (x >>= fun b => if b = true then y else .ok false) = .ok true) : x = .ok true ∧ y = .ok true := by
  cases x with
  | error e => rw [error_bind] at h; cases h
  | ok b =>
    rw [ok_bind] at h
    cases b <;> simp_all

theorem equal_hashG {H : Type} (int : Int → H → H) (flt : Rat → H → Res H) (txt : Text → H → H)
    (hf : ∀ q s, -1 < q → q < hashEnd → flt q s = .ok (int (truncQ q) s)) (M : CMem)
    (hi : ∀ t v u w s, IntAgree t v u w → intEq t v u w = true → int v s = int w s)
    (ht : ∀ x y s, TextAgree x y → textEq M x y = .ok true → txt x s = txt y s)
    (a b : Val) (ha : Agree a b) (h1 : Hashable a) (h2 : Hashable b)
    (he : equalTo M a b = .ok true) (seed : H) : hashValG int flt txt a seed = hashValG int flt txt b seed := by
  induction a generalizing b seed with
  | int t v =>
    cases b <;> simp only [equalTo, Except.ok.injEq, Bool.false_eq_true, reduceCtorEq] at he
    · simp only [hashValG, hi _ _ _ _ seed ha he]
    · rename_i p q
      have e := beq_iff_eq.1 he
      rw [roundInt_exact ha] at e
      subst e
      simp only [hashValG]
      rw [hf _ _ h2.1 h2.2, truncQ_int]
  | flt p q =>
    cases b <;> simp only [equalTo, Except.ok.injEq, Bool.false_eq_true, reduceCtorEq] at he
    · have e := beq_iff_eq.1 he
      rw [roundInt_exact ha] at e
      subst e
      simp only [hashValG]
      rw [hf _ _ h1.1 h1.2, truncQ_int]
    · have e := beq_iff_eq.1 he
      subst e; rfl
  | ptr x =>
    cases b <;> simp only [equalTo, Except.ok.injEq, Bool.false_eq_true, reduceCtorEq, beq_iff_eq] at he
    rw [he]
  | text s =>
    cases b <;> simp only [equalTo, Except.ok.injEq, Bool.false_eq_true, reduceCtorEq] at he
    simp only [hashValG, ht _ _ seed ha he]
  | list es ih =>
    cases b <;> simp only [equalTo, Except.ok.injEq, Bool.false_eq_true, reduceCtorEq] at he
    exact ih _ ha h1 h2 he seed
  | tup es ih =>
    cases b <;> simp only [equalTo, Except.ok.injEq, Bool.false_eq_true, reduceCtorEq] at he
    exact ih _ ha h1 h2 he seed
  | pair x y ihx ihy =>
    cases b <;> simp only [equalTo, Except.ok.injEq, Bool.false_eq_true, reduceCtorEq] at he
    obtain ⟨e1, e2⟩ := seq_true he
    simp only [hashValG]
    rw [ihx _ ha.1 h1.1 h2.1 e1 seed]
    congr 1; funext r
    exact ihy _ ha.2 h1.2 h2.2 e2 r
  | cons x y ihx ihy =>
    cases b <;> simp only [equalTo, Except.ok.injEq, Bool.false_eq_true, reduceCtorEq] at he
    obtain ⟨e1, e2⟩ := seq_true he
    simp only [hashValG]
    rw [ihx _ ha.1 h1.1 h2.1 e1 seed]
    congr 1; funext r
    exact ihy _ ha.2 h1.2 h2.2 e2 r
  | variant i v ih =>
    cases b <;> simp only [equalTo, Except.ok.injEq, Bool.false_eq_true, reduceCtorEq] at he
    split at he
    · rename_i hij
      subst hij
      exact ih _ (ha rfl) h1 h2 he _
    · cases he
  | some v ih =>
    cases b <;> simp only [equalTo, Except.ok.injEq, Bool.false_eq_true, reduceCtorEq] at he
    exact ih _ ha h1 h2 he seed
  | none => cases b <;> first | rfl | simp [equalTo] at he
  | nil => cases b <;> first | rfl | simp [equalTo] at he

theorem hash_flt (q : Rat) (s : HashT) (h1 : -1 < q) (h2 : q < hashEnd) : hashFlt q s = .ok (hashInt (truncQ q) s) := by
  rw [hashFlt, decide_eq_true h1, decide_eq_true h2, Bool.and_self, require_true, ok_bind, pure_ok]

/-- Keys that `equal_to` calls equal have the same hash, with every seed: also keys of different types (`find` with another type of key), subject to
the side conditions of `Agree` (see the `_violated` theorems) and for floating point numbers that can be hashed. -/
theorem C74_equal_keys_hash_alike (M : CMem) (a b : Val) (ha : Agree a b) (h1 : Hashable a) (h2 : Hashable b)
    (he : equalTo M a b = .ok true) (seed : HashT) : ∃ h, hashVal M a seed = .ok h ∧ hashVal M b seed = .ok h := by
  obtain ⟨r, e⟩ := hashValG_defined hashInt hashFlt (fun t h => hashTextV M h t) hash_flt a h1 seed
  refine ⟨r, e, ?_⟩
  rw [← e]
  exact (equal_hashG hashInt hashFlt (fun t h => hashTextV M h t) hash_flt M
    (fun t v u w s hi he => by rw [hashInt, hashInt, int_hash hi he])
    (fun x y s hx he => text_hash hx he s) a b ha h1 h2 he seed).symm

theorem common_self (t : ITy) : t.common t = t := by simp [ITy.common]

theorem holds_nonneg {t : ITy} {v : Int} (h : t.Holds v) : t.promote.sgn = true ∨ 0 ≤ v := by
  obtain ⟨s, w⟩ := t
  cases s
  · right; simp only [ITy.Holds, Bool.false_eq_true, if_false] at h; exact h.1
  · left; unfold ITy.promote; split <;> rfl

theorem seq_decide {p q r : Prop} [Decidable p] [Decidable q] [Decidable r] {x y : Res Bool} (hx : x = .ok (decide p)) (hy : y = .ok (decide q))
    (h : r ↔ p ∧ q) : (x >>= fun b => if b = true then y else .ok false) = .ok (decide r) := by
  subst hx hy
  rw [ok_bind]
  by_cases hp : p <;> by_cases hq : q <;> simp [hp, hq, h]

/-- On keys of one type `equal_to` decides equality: of every number, of the characters of text, of the addresses of pointers. -/
theorem C74_decides (M : CMem) (T : KTy) (a b : Val) (ha : HasTy T a) (hb : HasTy T b) :
    equalTo M a b = .ok (decide (a = b)) := by
  induction a generalizing b T with
  | int t v =>
    cases T <;> simp only [HasTy] at ha
    cases b <;> simp only [HasTy] at hb
    obtain ⟨rfl, hw, hv⟩ := ha
    obtain ⟨rfl, _, hv'⟩ := hb
    simp only [equalTo]
    rw [intEq_value hw hw hv hv' (by
      rw [common_self]
      rcases holds_nonneg hv with h | h
      · exact Or.inl h
      · rcases holds_nonneg hv' with h' | h'
        · exact Or.inl h'
        · exact Or.inr ⟨h, h'⟩)]
    simp
  | flt p q =>
    cases T <;> simp only [HasTy] at ha
    cases b <;> simp only [HasTy] at hb
    subst ha hb
    simp [equalTo, Bool.beq_eq_decide_eq]
  | ptr x =>
    cases T <;> simp only [HasTy] at ha
    cases b <;> simp only [HasTy] at hb
    simp [equalTo, Bool.beq_eq_decide_eq]
  | text s =>
    cases T <;> cases s <;> simp only [HasTy] at ha
    all_goals
      cases b <;> try (simp only [HasTy] at hb; done)
      rename_i t
      cases t <;> first
        | (simp [equalTo, textEq, Bool.beq_eq_decide_eq]; done)
        | (simp only [HasTy] at hb; done)
  | list es ih =>
    cases T <;> simp only [HasTy] at ha
    cases b <;> simp only [HasTy] at hb
    simp [equalTo, ih _ _ ha hb]
  | tup es ih =>
    cases T <;> simp only [HasTy] at ha
    cases b <;> simp only [HasTy] at hb
    simp [equalTo, ih _ _ ha hb]
  | pair x y ihx ihy =>
    cases T <;> simp only [HasTy] at ha
    cases b <;> simp only [HasTy] at hb
    simp only [equalTo]
    exact seq_decide (ihx _ _ ha.1 hb.1) (ihy _ _ ha.2 hb.2) (by simp)
  | cons x y ihx ihy =>
    cases T <;> simp only [HasTy] at ha
    · cases b <;> simp only [HasTy] at hb
      simp only [equalTo]
      exact seq_decide (ihx _ _ ha.1 hb.1) (ihy _ _ ha.2 hb.2) (by simp)
    · cases b <;> simp only [HasTy] at hb
      · simp [equalTo]
      · simp only [equalTo]
        exact seq_decide (ihx _ _ ha.1 hb.1) (ihy _ _ ha.2 hb.2) (by simp)
  | variant i v ih =>
    cases T <;> simp only [HasTy] at ha
    cases b <;> simp only [HasTy] at hb
    rename_i j w
    obtain ⟨t, e, hv⟩ := ha
    obtain ⟨u, e', hw⟩ := hb
    simp only [equalTo]
    by_cases hij : i = j
    · subst hij
      rw [e] at e'
      cases e'
      rw [if_pos rfl, ih _ _ hv hw]
      simp
    · rw [if_neg hij]
      simp [hij]
  | some v ih =>
    cases T <;> simp only [HasTy] at ha
    cases b <;> simp only [HasTy] at hb
    · simp [equalTo]
    · simp [equalTo, ih _ _ ha hb]
  | none =>
    cases T <;> simp only [HasTy] at ha
    cases b <;> simp only [HasTy] at hb <;> simp [equalTo]
  | nil =>
    cases T <;> simp only [HasTy] at ha
    all_goals
      cases b <;> simp only [HasTy] at hb <;> simp [equalTo]

/-- A record `{pair<uint8_t, string>, vector<variant<int64_t, double>>, optional<int>}` and the same record written with other types: `int`, a literal. -/
def exTy : KTy :=
  .tup (.tcons (.pair (.int ⟨false, 8⟩) .sized) (.tcons (.list (.variant (.tcons (.int ⟨true, 64⟩) (.tcons (.flt 53) .tnil)))) (.tcons (.opt .ptr) .tnil)))

def exVal (x : Val) (t : Text) (y : Val) : Val :=
  .tup (.cons (.pair x (.text t)) (.cons (.list (.cons (.variant 0 y) (.cons (.variant 1 (.flt 53 (3 / 2))) .nil))) (.cons (.some (.ptr 64)) .nil)))

def exA : Val := exVal (.int ⟨false, 8⟩ 200) (.sized [104#8, 105#8]) (.int ⟨true, 64⟩ (-7))
def exB : Val := exVal (.int ⟨true, 32⟩ 200) (.array [104#8, 105#8, 0#8]) (.int ⟨true, 16⟩ (-7))

/-- Non-vacuity: a typed key, equal to itself and unequal to a key that differs in one place. -/
example : HasTy exTy exA ∧ equalTo (fun _ => []) exA exA = .ok true ∧
    equalTo (fun _ => []) exA (exVal (.int ⟨false, 8⟩ 200) (.sized [104#8, 106#8]) (.int ⟨true, 64⟩ (-7))) = .ok false := by
  refine ⟨?_, by decide +kernel, by decide +kernel⟩
  simp [exTy, exA, exVal, HasTy, ITy.Holds, KTy.alt]

/-- Non-vacuity: two keys of different types that are equal and within the side conditions. -/
example : Agree exA exB ∧ Hashable exA ∧ Hashable exB ∧ equalTo (fun _ => []) exA exB = .ok true := by
  refine ⟨?_, ?_, ?_, by decide +kernel⟩
  · simp only [exA, exB, exVal, Agree, IntAgree, TextAgree]
    refine ⟨⟨by decide, ⟨[104#8, 105#8], rfl, by decide⟩⟩, ⟨?_, ?_, trivial⟩, trivial, trivial⟩ <;> intros <;> first | decide | trivial
  · simp only [exA, exVal, Hashable, hashEnd]
    decide +kernel
  · simp only [exB, exVal, Hashable, hashEnd]
    decide +kernel

/-! ## Where equal keys have different hashes -/

/-- **Violated** for every negative `int` and the `uint32_t` it converts to: `equal_to` calls them equal (in both directions), every seed gives different hashes. -/
theorem C34_negative_int_violated (M : CMem) (v : Int) (h : v < 0) (hv : -2 ^ 31 ≤ v) (seed : HashT) :
    equalTo M (.int ⟨false, 32⟩ (v + 2 ^ 32)) (.int ⟨true, 32⟩ v) = .ok true ∧
    equalTo M (.int ⟨true, 32⟩ v) (.int ⟨false, 32⟩ (v + 2 ^ 32)) = .ok true ∧
    hashVal M (.int ⟨true, 32⟩ v) seed ≠ hashVal M (.int ⟨false, 32⟩ (v + 2 ^ 32)) seed := by
  refine ⟨?_, ?_, ?_⟩
  · simp [equalTo, intEq, ITy.promote, ITy.common, ITy.conv]
  · simp [equalTo, intEq, ITy.promote, ITy.common, ITy.conv]
  · intro he
    simp only [hashVal, hashValG, hashInt] at he
    have e := hashCombine_inj_val (Except.ok.inj he)
    have e' := congrArg BitVec.toNat e
    simp only [BitVec.toNat_ofInt] at e'
    omega

/-- **Violated**: an `int` that a `float` cannot represent equals the rounded `float` and has a different hash, with every seed. -/
theorem C34_float_rounding_violated (M : CMem) (seed : HashT) :
    equalTo M (.int ⟨true, 32⟩ 16777217) (.flt 24 16777216) = .ok true ∧
    ∃ h h', hashVal M (.int ⟨true, 32⟩ 16777217) seed = .ok h ∧ hashVal M (.flt 24 16777216) seed = .ok h' ∧ h ≠ h' := by
  refine ⟨congrArg Except.ok (by decide +kernel : ((roundInt 24 16777217 : Rat) == 16777216) = true), _, _, rfl, hash_flt _ seed (by decide) (by decide), ?_⟩
  intro he
  have e := hashCombine_inj_val he
  exact absurd e (by decide +kernel)

/-- **Violated**: a `char[N]` holding a shorter text equals the string and has a different hash whenever the padding changes the hash;
here "a" in a `char[3]`. -/
theorem C34_char_array_violated (M : CMem) :
    equalTo M (.text (.sized [97#8])) (.text (.array [97#8, 0#8, 0#8])) = .ok true ∧
    hashVal M (.text (.sized [97#8])) BASE_HASH ≠ hashVal M (.text (.array [97#8, 0#8, 0#8])) BASE_HASH := by
  refine ⟨congrArg Except.ok (by decide +kernel : ([97#8] == upToNul [97#8, 0#8, 0#8]) = true), ?_⟩
  intro he
  simp only [hashVal, hashValG, hashTextV] at he
  exact absurd (Except.ok.inj he) (by decide +kernel)

/-- **Violated**: hashing a floating point number of -1 or less is undefined behaviour, although -1.0 equals the `int` -1, which has a hash. -/
theorem C34_negative_float_violated (M : CMem) (p : Nat) (q : Rat) (h : q ≤ -1) (seed : HashT) :
    hashVal M (.flt p q) seed = .error .ub := by
  have h' : ¬ -1 < q := Rat.not_lt.2 h
  simp only [hashVal, hashValG]
  rw [hashFlt, decide_eq_false h', Bool.false_and, require_false, error_bind]

/-- Two `char const*` keys with the same text are hashed alike but are equal only if the addresses are. -/
theorem C74_c_strings_compare_addresses (M : CMem) (x y : Nat) (hm : M x = M y) (seed : HashT) :
    hashVal M (.text (.cptr x)) seed = hashVal M (.text (.cptr y)) seed ∧
    equalTo M (.text (.cptr x)) (.text (.cptr y)) = .ok (decide (x = y)) := by
  refine ⟨?_, by simp [equalTo, textEq, Bool.beq_eq_decide_eq]⟩
  simp only [hashVal, hashValG, hashTextV, hm]

example : ∃ M : CMem, M 1 = M 2 ∧ M 1 = [97#8] := ⟨fun _ => [97#8], rfl, rfl⟩

end Cista.Hash.Equal
