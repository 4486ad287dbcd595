import Verif.Basic

/-!
# strong

Model of `cista::strong<T, Tag>` (include/cista/strong.h) for integral `T`.  Values are integers in the range of `T`; the operators first
promote (integral promotion: types narrower than `int` become `int`), then compute (signed results out of range are undefined, unsigned ones
wrap), then convert back to `T` (modulo `2^w`).  `operator>>`/`operator<<` with a `strong` on the right are ill-formed when used (implicit
conversion through an explicit constructor) and not modelled; stream output neither.
-/
set_option linter.unusedSimpArgs false

namespace Cista.Strong

/-- An integral type: width and signedness. -/
structure IT where
  w : Nat
  sg : Bool
deriving DecidableEq

/-- Widths of the standard integer types. -/
def IT.Std (t : IT) : Prop := t.w = 8 ∨ t.w = 16 ∨ t.w = 32 ∨ t.w = 64

def IT.min (t : IT) : Int := if t.sg then -(2 ^ (t.w - 1)) else 0
def IT.max (t : IT) : Int := if t.sg then 2 ^ (t.w - 1) - 1 else 2 ^ t.w - 1

/-- Values of the type. -/
def IT.In (t : IT) (x : Int) : Prop := t.min ≤ x ∧ x ≤ t.max

instance (t : IT) (x : Int) : Decidable (t.In x) := inferInstanceAs (Decidable (_ ∧ _))

/-- Conversion to `T`: the value congruent modulo `2^w`. -/
def IT.conv (t : IT) (x : Int) : Int := if t.sg then (x + 2 ^ (t.w - 1)) % 2 ^ t.w - 2 ^ (t.w - 1) else x % 2 ^ t.w

/-- Integral promotion. -/
def IT.promote (t : IT) : IT := if t.w < 32 then ⟨32, true⟩ else t

/-- The built-in operator on promoted operands with exact result `x`, converted back: `static_cast<value_t>(v_ op i)`. -/
def arith (t : IT) (x : Int) : Res Int :=
  if t.promote.sg then do
    require (decide (t.promote.In x))
    .ok (t.conv x)
  else .ok (t.conv (t.promote.conv x))

/-- strong.h:67-69, 79-81. -/
def add (t : IT) (a b : Int) : Res Int := arith t (a + b)

/-- strong.h:70-72, 82-84. -/
def sub (t : IT) (a b : Int) : Res Int := arith t (a - b)

/-- strong.h:73-75, 85-87. -/
def mul (t : IT) (a b : Int) : Res Int := arith t (a * b)

/-- strong.h:76-78, 88-90. -/
def div (t : IT) (a b : Int) : Res Int := do
  require (decide (b ≠ 0))
  arith t (Int.tdiv a b)

/-- strong.h:101-103: the shift count is below the width of the promoted type, `>>` of a negative value rounds down. -/
def shr (t : IT) (a i : Int) : Res Int := do
  require (decide (0 ≤ i ∧ i < t.promote.w))
  .ok (t.conv (a / 2 ^ i.toNat))

/-- strong.h:104-106: for a signed promoted type `a` is not negative and the result fits the unsigned type (C++17). -/
def shl (t : IT) (a i : Int) : Res Int := do
  require (decide (0 ≤ i ∧ i < t.promote.w))
  require (!t.promote.sg || decide (0 ≤ a ∧ a * 2 ^ i.toNat < 2 ^ t.promote.w))
  .ok (t.conv (a * 2 ^ i.toNat))

/-- strong.h:110-113: the bits of the values; promotion and the conversion back do not change the lowest `w` bits. -/
def or (t : IT) (a b : Int) : Res Int := .ok (t.conv (BitVec.ofInt t.w a ||| BitVec.ofInt t.w b).toNat)

/-- strong.h:114-117. -/
def and (t : IT) (a b : Int) : Res Int := .ok (t.conv (BitVec.ofInt t.w a &&& BitVec.ofInt t.w b).toNat)

/-- strong.h:45-54 `++`: the new value. -/
def inc (t : IT) (a : Int) : Res Int := arith t (a + 1)

/-- strong.h:56-65 `--`. -/
def dec (t : IT) (a : Int) : Res Int := arith t (a - 1)

/-- strong.h:41-43, 187-189 `invalid()`, `numeric_limits::max()`. -/
def invalid (t : IT) : Int := t.max

/-- Operations on one variable `v`. -/
inductive Op where
  | preInc
  | postInc
  | preDec
  | postDec
  /-- strong.h:92-95 -/
  | addEq (i : Int)
  /-- strong.h:96-99 -/
  | subEq (i : Int)
  /-- `v = v * i` -/
  | mul (i : Int)
  | div (i : Int)
  | shr (i : Int)
  | shl (i : Int)
  | orEq (i : Int)
  | andEq (i : Int)

/-- New value and value of the expression. -/
def Op.exec (t : IT) (v : Int) : Op → Res (Int × Int)
  | .preInc => do let r ← inc t v; .ok (r, r)
  | .postInc => do let r ← inc t v; .ok (r, v)
  | .preDec => do let r ← dec t v; .ok (r, r)
  | .postDec => do let r ← dec t v; .ok (r, v)
  | .addEq i => do let r ← add t v i; .ok (r, r)
  | .subEq i => do let r ← sub t v i; .ok (r, r)
  | .mul i => do let r ← Strong.mul t v i; .ok (r, r)
  | .div i => do let r ← Strong.div t v i; .ok (r, r)
  | .shr i => do let r ← Strong.shr t v i; .ok (r, r)
  | .shl i => do let r ← Strong.shl t v i; .ok (r, r)
  | .orEq i => do let r ← Strong.or t v i; .ok (r, r)
  | .andEq i => do let r ← Strong.and t v i; .ok (r, r)

def run (t : IT) : Int → List Op → Res (Int × List Int)
  | v, [] => .ok (v, [])
  | v, op :: ops => do
    let r ← op.exec t v
    let q ← run t r.1 ops
    .ok (q.1, r.2 :: q.2)

/-- strong.h:119-131: equality and order on the values. -/
def eq (a b : Int) : Bool := decide (a = b)
def ne (a b : Int) : Bool := decide (a ≠ b)
def le (a b : Int) : Bool := decide (a ≤ b)
def ge (a b : Int) : Bool := decide (a ≥ b)
def lt (a b : Int) : Bool := decide (a < b)
def gt (a b : Int) : Bool := decide (a > b)

/-! ## Specification: natural numbers modulo `2^w` -/

/-- The number below `2^w` with the given binary digits. -/
def bits : Nat → (p : Nat → Prop) → [DecidablePred p] → Nat
  | 0, _, _ => 0
  | w + 1, p, _ => bits w p + if p w then 2 ^ w else 0

/-- New value and result of an operation on an unsigned value of `w` bits. -/
def Op.spec (w : Nat) (v : Nat) : Op → Nat × Nat
  | .preInc => ((v + 1) % 2 ^ w, (v + 1) % 2 ^ w)
  | .postInc => ((v + 1) % 2 ^ w, v)
  | .preDec => ((v + 2 ^ w - 1) % 2 ^ w, (v + 2 ^ w - 1) % 2 ^ w)
  | .postDec => ((v + 2 ^ w - 1) % 2 ^ w, v)
  | .addEq i => ((v + i.toNat) % 2 ^ w, (v + i.toNat) % 2 ^ w)
  | .subEq i => ((v + 2 ^ w - i.toNat) % 2 ^ w, (v + 2 ^ w - i.toNat) % 2 ^ w)
  | .mul i => (v * i.toNat % 2 ^ w, v * i.toNat % 2 ^ w)
  | .div i => (v / i.toNat, v / i.toNat)
  | .shr i => (v / 2 ^ i.toNat, v / 2 ^ i.toNat)
  | .shl i => (v * 2 ^ i.toNat % 2 ^ w, v * 2 ^ i.toNat % 2 ^ w)
  | .orEq i => (bits w fun k => v / 2 ^ k % 2 = 1 ∨ i.toNat / 2 ^ k % 2 = 1, bits w fun k => v / 2 ^ k % 2 = 1 ∨ i.toNat / 2 ^ k % 2 = 1)
  | .andEq i => (bits w fun k => v / 2 ^ k % 2 = 1 ∧ i.toNat / 2 ^ k % 2 = 1, bits w fun k => v / 2 ^ k % 2 = 1 ∧ i.toNat / 2 ^ k % 2 = 1)

def specRun (w : Nat) : Nat → List Op → Nat × List Nat
  | v, [] => (v, [])
  | v, op :: ops => ((specRun w (op.spec w v).1 ops).1, (op.spec w v).2 :: (specRun w (op.spec w v).1 ops).2)

/-- Arguments are values of the type; nothing is divided by zero or shifted by the width or more. -/
def Op.Pre (w : Nat) : Op → Prop
  | .addEq i => 0 ≤ i ∧ i < 2 ^ w
  | .subEq i => 0 ≤ i ∧ i < 2 ^ w
  | .mul i => 0 ≤ i ∧ i < 2 ^ w
  | .div i => 0 < i ∧ i < 2 ^ w
  | .shr i => 0 ≤ i ∧ i < w
  | .shl i => 0 ≤ i ∧ i < w
  | .orEq i => 0 ≤ i ∧ i < 2 ^ w
  | .andEq i => 0 ≤ i ∧ i < 2 ^ w
  | _ => True

def Op.isMul : Op → Bool
  | .mul _ => true
  | _ => false

/-! ## Lemmas -/

theorem conv_unsigned (w : Nat) (x : Int) : (⟨w, false⟩ : IT).conv x = x % 2 ^ w := rfl

/-- Unsigned results in the range of the promoted type. -/
theorem arith_small {w : Nat} (hw : w = 8 ∨ w = 16) {x : Int} (h : -(2 ^ 31) ≤ x ∧ x < 2 ^ 31) :
    arith ⟨w, false⟩ x = .ok (x % 2 ^ w) := by
  have hp : (⟨w, false⟩ : IT).promote = ⟨32, true⟩ := by
    unfold IT.promote
    rw [if_pos (by show w < 32; omega)]
  unfold arith
  rw [hp, if_pos rfl, decide_eq_true (show IT.In ⟨32, true⟩ x from ⟨h.1, by show x ≤ 2 ^ 31 - 1; omega⟩), require_true, ok_bind]
  rfl

theorem arith_wide {w : Nat} (hw : w = 32 ∨ w = 64) (x : Int) : arith ⟨w, false⟩ x = .ok (x % 2 ^ w) := by
  have hp : (⟨w, false⟩ : IT).promote = ⟨w, false⟩ := by
    unfold IT.promote
    rw [if_neg (by show ¬ w < 32; omega)]
  unfold arith
  rw [hp, if_neg Bool.false_ne_true, conv_unsigned, conv_unsigned, Int.emod_emod_of_dvd _ (Int.dvd_refl _)]

theorem arith_ok {w : Nat} (hw : (⟨w, false⟩ : IT).Std) {x : Int} (h : (w = 8 ∨ w = 16) → -(2 ^ 31) ≤ x ∧ x < 2 ^ 31) :
    arith ⟨w, false⟩ x = .ok (x % 2 ^ w) := by
  rcases hw with h1 | h1 | h1 | h1
  · exact arith_small (Or.inl h1) (h (Or.inl h1))
  · exact arith_small (Or.inr h1) (h (Or.inr h1))
  · exact arith_wide (Or.inl h1) x
  · exact arith_wide (Or.inr h1) x

theorem pow_le_16 {w : Nat} (h : w = 8 ∨ w = 16) : (2 : Int) ^ w ≤ 2 ^ 16 := by
  rcases h with rfl | rfl <;> decide

theorem pow_pos_int (w : Nat) : (0 : Int) < 2 ^ w := by
  have := Nat.pow_pos (n := w) (show 0 < 2 by decide)
  exact_mod_cast this

theorem cast_pow (w : Nat) : ((2 ^ w : Nat) : Int) = 2 ^ w := by push_cast; rfl

theorem sub_mod (v i w : Nat) (hi : i ≤ 2 ^ w) : (((v + 2 ^ w - i) % 2 ^ w : Nat) : Int) = ((v : Int) - i) % 2 ^ w := by
  rw [Int.natCast_emod, Int.natCast_sub (by omega), Int.natCast_add, cast_pow,
    show (v : Int) + 2 ^ w - i = (v : Int) - i + 2 ^ w by omega, Int.add_emod_right]

theorem promote_w {w : Nat} (hw : (⟨w, false⟩ : IT).Std) : w ≤ (⟨w, false⟩ : IT).promote.w := by
  unfold IT.promote
  split
  · rename_i h
    have h : w < 32 := h
    show w ≤ 32
    omega
  · exact Nat.le_refl _

theorem bits_lt (p : Nat → Prop) [DecidablePred p] : ∀ w, bits w p < 2 ^ w
  | 0 => by simp [bits]
  | w + 1 => by
    have := bits_lt p w
    unfold bits
    rw [Nat.pow_succ]
    split <;> omega

/-- A number is the one with its digits. -/
theorem bits_eq (p : Nat → Prop) [DecidablePred p] : ∀ (w x : Nat), x < 2 ^ w → (∀ k, k < w → (x.testBit k = true ↔ p k)) → bits w p = x
  | 0, x, hx, _ => by simp [bits] at hx ⊢; omega
  | w + 1, x, hx, h => by
    have hp : 0 < 2 ^ w := Nat.pow_pos (by decide)
    have ih := bits_eq p w (x % 2 ^ w) (Nat.mod_lt _ hp) fun k hk => by
      rw [Nat.testBit_mod_two_pow, ← h k (by omega)]; simp [hk]
    have hw := h w (by omega)
    have hd : x / 2 ^ w < 2 := by rw [Nat.div_lt_iff_lt_mul hp, Nat.mul_comm, ← Nat.pow_succ]; exact hx
    have hx2 := Nat.div_add_mod x (2 ^ w)
    have hb : x.testBit w = true ↔ x / 2 ^ w = 1 := by
      rw [Nat.testBit_eq_decide_div_mod_eq, decide_eq_true_eq, Nat.mod_eq_of_lt hd]
    generalize x / 2 ^ w = q at hd hx2 hb
    unfold bits
    rw [ih]
    by_cases hpw : p w
    · rw [if_pos hpw]
      rw [hb.1 (hw.2 hpw)] at hx2
      omega
    · rw [if_neg hpw]
      have : q = 0 := by
        have : ¬ q = 1 := fun h1 => hpw (hw.1 (hb.2 h1))
        omega
      rw [this] at hx2
      omega

theorem testBit_iff (x k : Nat) : x.testBit k = true ↔ x / 2 ^ k % 2 = 1 := by
  rw [Nat.testBit_eq_decide_div_mod_eq]; simp

theorem exec_ok {w : Nat} (hw : (⟨w, false⟩ : IT).Std) {v : Nat} (hv : v < 2 ^ w) {op : Op} (hp : op.Pre w)
    (hm : w = 16 → op.isMul = false) :
    op.exec ⟨w, false⟩ v = .ok ((op.spec w v).1, (op.spec w v).2) ∧ (op.spec w v).1 < 2 ^ w := by
  have hpos : 0 < 2 ^ w := Nat.pow_pos (by decide)
  have hv' : (v : Int) < 2 ^ w := by rw [← cast_pow]; exact_mod_cast hv
  have hlt : ∀ x : Nat, x % 2 ^ w < 2 ^ w := fun x => Nat.mod_lt _ hpos
  have hsmall : ∀ x : Int, -(2 ^ 16) ≤ x → x ≤ 2 ^ 17 → -(2 ^ 31) ≤ x ∧ x < 2 ^ 31 := fun x h1 h2 => by omega
  cases op with
  | preInc =>
    have : inc ⟨w, false⟩ v = .ok (((v + 1) % 2 ^ w : Nat) : Int) := by
      unfold inc
      rw [arith_ok hw (fun h => hsmall _ (by omega) (by have := pow_le_16 h; omega)), Int.natCast_emod, cast_pow, Int.natCast_add]
      rfl
    exact ⟨by show (inc _ _ >>= _) = _; rw [this, ok_bind]; rfl, hlt _⟩
  | postInc =>
    have : inc ⟨w, false⟩ v = .ok (((v + 1) % 2 ^ w : Nat) : Int) := by
      unfold inc
      rw [arith_ok hw (fun h => hsmall _ (by omega) (by have := pow_le_16 h; omega)), Int.natCast_emod, cast_pow, Int.natCast_add]
      rfl
    exact ⟨by show (inc _ _ >>= _) = _; rw [this, ok_bind]; rfl, hlt _⟩
  | preDec =>
    have : dec ⟨w, false⟩ v = .ok (((v + 2 ^ w - 1) % 2 ^ w : Nat) : Int) := by
      unfold dec
      rw [arith_ok hw (fun h => hsmall _ (by omega) (by have := pow_le_16 h; omega)), sub_mod _ _ _ hpos]
      rfl
    exact ⟨by show (dec _ _ >>= _) = _; rw [this, ok_bind]; rfl, hlt _⟩
  | postDec =>
    have : dec ⟨w, false⟩ v = .ok (((v + 2 ^ w - 1) % 2 ^ w : Nat) : Int) := by
      unfold dec
      rw [arith_ok hw (fun h => hsmall _ (by omega) (by have := pow_le_16 h; omega)), sub_mod _ _ _ hpos]
      rfl
    exact ⟨by show (dec _ _ >>= _) = _; rw [this, ok_bind]; rfl, hlt _⟩
  | addEq i =>
    have hi : ((i.toNat : Nat) : Int) = i := Int.toNat_of_nonneg hp.1
    have : add ⟨w, false⟩ v i = .ok (((v + i.toNat) % 2 ^ w : Nat) : Int) := by
      unfold add
      have := hp.1
      have := hp.2
      rw [arith_ok hw (fun h => hsmall _ (by omega) (by have := pow_le_16 h; omega)), Int.natCast_emod, cast_pow, Int.natCast_add, hi]
    exact ⟨by show (add _ _ _ >>= _) = _; rw [this, ok_bind]; rfl, hlt _⟩
  | subEq i =>
    have hi : ((i.toNat : Nat) : Int) = i := Int.toNat_of_nonneg hp.1
    have hi2 : i.toNat ≤ 2 ^ w := by
      have := hp.2
      rw [← hi, ← cast_pow] at this
      have := Int.ofNat_lt.1 this
      omega
    have : sub ⟨w, false⟩ v i = .ok (((v + 2 ^ w - i.toNat) % 2 ^ w : Nat) : Int) := by
      unfold sub
      have := hp.1
      have := hp.2
      rw [arith_ok hw (fun h => hsmall _ (by have := pow_le_16 h; omega) (by have := pow_le_16 h; omega)), sub_mod _ _ _ hi2, hi]
    exact ⟨by show (sub _ _ _ >>= _) = _; rw [this, ok_bind]; rfl, hlt _⟩
  | mul i =>
    have hi : ((i.toNat : Nat) : Int) = i := Int.toNat_of_nonneg hp.1
    have hi2 : i.toNat < 2 ^ w := by
      have := hp.2
      rw [← hi, ← cast_pow] at this
      exact Int.ofNat_lt.1 this
    have : Strong.mul ⟨w, false⟩ v i = .ok ((v * i.toNat % 2 ^ w : Nat) : Int) := by
      unfold Strong.mul
      rw [arith_ok hw (fun h => ?_), Int.natCast_emod, cast_pow, Int.natCast_mul, hi]
      have h8 : w = 8 := h.resolve_right (fun h16 => absurd (hm h16) (by simp [Op.isMul]))
      subst h8
      have : v * i.toNat ≤ 255 * 255 := Nat.mul_le_mul (by omega) (by omega)
      rw [← hi, ← Int.natCast_mul]
      omega
    exact ⟨by show (Strong.mul _ _ _ >>= _) = _; rw [this, ok_bind]; rfl, hlt _⟩
  | div i =>
    have hi : ((i.toNat : Nat) : Int) = i := Int.toNat_of_nonneg (Int.le_of_lt hp.1)
    have hle : v / i.toNat ≤ v := Nat.div_le_self _ _
    have : Strong.div ⟨w, false⟩ v i = .ok ((v / i.toNat : Nat) : Int) := by
      unfold Strong.div
      have h1 := hp.1
      have htd : Int.tdiv (v : Int) i = ((v / i.toNat : Nat) : Int) := by
        rw [← hi, Int.ofNat_tdiv]
        rfl
      rw [decide_eq_true (show i ≠ 0 by omega), require_true, ok_bind, htd,
        arith_ok hw (fun h => hsmall _ (Int.le_trans (by decide) (Int.natCast_nonneg _))
          (Int.le_trans (Int.ofNat_le.2 hle) (by have := pow_le_16 h; omega))), ← cast_pow, ← Int.natCast_emod,
        Nat.mod_eq_of_lt (by omega)]
    exact ⟨by show (Strong.div _ _ _ >>= _) = _; rw [this, ok_bind]; rfl, Nat.lt_of_le_of_lt hle hv⟩
  | shr i =>
    have hi : ((i.toNat : Nat) : Int) = i := Int.toNat_of_nonneg hp.1
    have hle : v / 2 ^ i.toNat ≤ v := Nat.div_le_self _ _
    have hpw := promote_w hw
    have : Strong.shr ⟨w, false⟩ v i = .ok ((v / 2 ^ i.toNat : Nat) : Int) := by
      unfold Strong.shr
      rw [decide_eq_true ⟨hp.1, by have h2 : i < (w : Int) := hp.2; omega⟩, require_true, ok_bind, conv_unsigned, ← cast_pow, ← cast_pow,
        ← Int.natCast_ediv, ← Int.natCast_emod, Nat.mod_eq_of_lt (by omega)]
    exact ⟨by show (Strong.shr _ _ _ >>= _) = _; rw [this, ok_bind]; rfl, Nat.lt_of_le_of_lt hle hv⟩
  | shl i =>
    have hi : ((i.toNat : Nat) : Int) = i := Int.toNat_of_nonneg hp.1
    have hpw := promote_w hw
    have h2 : i < (w : Int) := hp.2
    have hb : (!(⟨w, false⟩ : IT).promote.sg || decide (0 ≤ (v : Int) ∧ (v : Int) * 2 ^ i.toNat < 2 ^ (⟨w, false⟩ : IT).promote.w)) = true := by
      by_cases h32 : w < 32
      · have hprom : (⟨w, false⟩ : IT).promote = ⟨32, true⟩ := by unfold IT.promote; rw [if_pos h32]
        rw [hprom]
        have h1 : v * 2 ^ i.toNat < 2 ^ w * 2 ^ i.toNat := Nat.mul_lt_mul_of_pos_right hv (Nat.pow_pos (by decide))
        rw [← Nat.pow_add] at h1
        have hw' : w ≤ 16 := by rcases hw with h | h | h | h <;> (have h : w = _ := h; omega)
        have h3 : v * 2 ^ i.toNat < 2 ^ 32 := Nat.lt_of_lt_of_le h1 (Nat.pow_le_pow_right (by decide) (by omega))
        rw [decide_eq_true ⟨Int.natCast_nonneg v, by rw [← cast_pow, ← Int.natCast_mul]; exact_mod_cast h3⟩]
        rfl
      · have hprom : (⟨w, false⟩ : IT).promote = ⟨w, false⟩ := by unfold IT.promote; rw [if_neg h32]
        rw [hprom]
        rfl
    have : Strong.shl ⟨w, false⟩ v i = .ok ((v * 2 ^ i.toNat % 2 ^ w : Nat) : Int) := by
      unfold Strong.shl
      rw [decide_eq_true ⟨hp.1, by omega⟩, require_true, ok_bind, hb, require_true, ok_bind, conv_unsigned, Int.natCast_emod, Int.natCast_mul,
        cast_pow, cast_pow]
    exact ⟨by show (Strong.shl _ _ _ >>= _) = _; rw [this, ok_bind]; rfl, hlt _⟩

  | orEq i =>
    have hi : ((i.toNat : Nat) : Int) = i := Int.toNat_of_nonneg hp.1
    have hi2 : i.toNat < 2 ^ w := by
      have := hp.2
      rw [← hi, ← cast_pow] at this
      exact Int.ofNat_lt.1 this
    have hl : v ||| i.toNat < 2 ^ w := Nat.or_lt_two_pow hv hi2
    have hb : bits w (fun k => v / 2 ^ k % 2 = 1 ∨ i.toNat / 2 ^ k % 2 = 1) = v ||| i.toNat :=
      bits_eq _ w _ hl fun k _ => by rw [Nat.testBit_or, Bool.or_eq_true, testBit_iff, testBit_iff]
    have : Strong.or ⟨w, false⟩ v i = .ok ((v ||| i.toNat : Nat) : Int) := by
      unfold Strong.or
      rw [conv_unsigned, ← hi, BitVec.ofInt_natCast, BitVec.ofInt_natCast, BitVec.toNat_or, BitVec.toNat_ofNat, BitVec.toNat_ofNat,
        Nat.mod_eq_of_lt hv, Nat.mod_eq_of_lt (by simpa using hi2), ← cast_pow, ← Int.natCast_emod, Int.toNat_natCast, Nat.mod_eq_of_lt hl]
    exact ⟨by show (Strong.or _ _ _ >>= _) = _; rw [this, ok_bind]; simp only [Op.spec, hb], bits_lt _ _⟩
  | andEq i =>
    have hi : ((i.toNat : Nat) : Int) = i := Int.toNat_of_nonneg hp.1
    have hi2 : i.toNat < 2 ^ w := by
      have := hp.2
      rw [← hi, ← cast_pow] at this
      exact Int.ofNat_lt.1 this
    have hl : v &&& i.toNat < 2 ^ w := Nat.lt_of_le_of_lt Nat.and_le_left hv
    have hb : bits w (fun k => v / 2 ^ k % 2 = 1 ∧ i.toNat / 2 ^ k % 2 = 1) = v &&& i.toNat :=
      bits_eq _ w _ hl fun k _ => by rw [Nat.testBit_and, Bool.and_eq_true, testBit_iff, testBit_iff]
    have : Strong.and ⟨w, false⟩ v i = .ok ((v &&& i.toNat : Nat) : Int) := by
      unfold Strong.and
      rw [conv_unsigned, ← hi, BitVec.ofInt_natCast, BitVec.ofInt_natCast, BitVec.toNat_and, BitVec.toNat_ofNat, BitVec.toNat_ofNat,
        Nat.mod_eq_of_lt hv, Nat.mod_eq_of_lt (by simpa using hi2), ← cast_pow, ← Int.natCast_emod, Int.toNat_natCast, Nat.mod_eq_of_lt hl]
    exact ⟨by show (Strong.and _ _ _ >>= _) = _; rw [this, ok_bind]; simp only [Op.spec, hb], bits_lt _ _⟩

/-! ## C86, C87 -/

/-- C86: a variable of an unsigned strong type behaves under any sequence of `++`, `--`, `+=`, `-=`, `*`, `/`, `>>`, `<<`, `|=`, `&=` like a number modulo
`2^w`; postfix operators return the old value.

16 bit values are not multiplied, see `multiply_violated`. -/
theorem C86_unsigned {w : Nat} (hw : (⟨w, false⟩ : IT).Std) : ∀ (ops : List Op) (v : Nat), v < 2 ^ w → (∀ op ∈ ops, op.Pre w) →
    (w = 16 → ∀ op ∈ ops, op.isMul = false) →
    run ⟨w, false⟩ v ops = .ok ((specRun w v ops).1, (specRun w v ops).2.map fun (x : Nat) => (x : Int)) ∧ (specRun w v ops).1 < 2 ^ w
  | [], v, hv, _, _ => ⟨rfl, hv⟩
  | op :: ops, v, hv, hp, hm => by
    obtain ⟨e, hl⟩ := exec_ok hw hv (hp op (by simp)) (fun h => hm h op (by simp))
    obtain ⟨e2, hl2⟩ := C86_unsigned hw ops (op.spec w v).1 hl (fun o ho => hp o (by simp [ho])) (fun h o ho => hm h o (by simp [ho]))
    refine ⟨?_, hl2⟩
    unfold run
    rw [e, ok_bind]
    dsimp only
    rw [e2, ok_bind]
    rfl

/-- 8 bits: 250 + 10 = 4, `--` twice, times 100. -/
example : run ⟨8, false⟩ 250 [.addEq 10, .postDec, .preDec, .mul 100, .shl 3, .postInc] = .ok (65, [4, 4, 2, 200, 64, 64]) ∧
    specRun 8 250 [.addEq 10, .postDec, .preDec, .mul 100, .shl 3, .postInc] = (65, [4, 4, 2, 200, 64, 64]) := by decide

/-- 12 |= 10 is 14, &= 7 is 6. -/
example : run ⟨16, false⟩ 12 [.orEq 10, .andEq 7] = .ok (6, [14, 6]) ∧ specRun 16 12 [.orEq 10, .andEq 7] = (6, [14, 6]) := by decide

/-- C87: `++` and `--` undo each other, for signed types unless the first one already leaves the range (undefined for `int` and wider). -/
theorem C87_inc_dec (t : IT) (ht : t.Std) (v : Int) (hv : t.In v) :
    (t.sg = false ∨ t.w < 32 ∨ v ≠ t.max → ∃ x, inc t v = .ok x ∧ dec t x = .ok v) ∧
    (t.sg = false ∨ t.w < 32 ∨ v ≠ t.min → ∃ x, dec t v = .ok x ∧ inc t x = .ok v) := by
  obtain ⟨w, sg⟩ := t
  have hw : w = 8 ∨ w = 16 ∨ w = 32 ∨ w = 64 := ht
  obtain ⟨h1, h2⟩ := hv
  have key : ∀ y d : Int, IT.In ⟨w, sg⟩ y → d = 1 ∨ d = -1 → (sg = false ∨ w < 32 ∨ IT.In ⟨w, sg⟩ (y + d)) →
      arith ⟨w, sg⟩ (y + d) = .ok (IT.conv ⟨w, sg⟩ (y + d)) := by
    intro y d hy hd hc
    obtain ⟨g1, g2⟩ := hy
    unfold arith IT.promote
    rcases hw with rfl | rfl | rfl | rfl <;> cases sg <;>
      simp only [IT.min, IT.max, IT.In, IT.conv, Bool.false_eq_true, if_true, if_false, Nat.reduceLT, Nat.reduceSub, Nat.reducePow,
        Int.reducePow, reduceCtorEq, false_or] at g1 g2 hc ⊢
    all_goals first
      | rw [decide_eq_true (by omega)]; rfl
      | (congr 1; omega)
  have conv_in : ∀ y, IT.In ⟨w, sg⟩ (IT.conv ⟨w, sg⟩ y) := by
    intro y
    rcases hw with rfl | rfl | rfl | rfl <;> cases sg <;>
      simp only [IT.min, IT.max, IT.In, IT.conv, Bool.false_eq_true, if_true, if_false, Nat.reduceLT, Nat.reduceSub, Nat.reducePow,
        Int.reducePow] <;> omega
  have conv_id : ∀ y, IT.In ⟨w, sg⟩ y → IT.conv ⟨w, sg⟩ y = y := by
    intro y hy
    obtain ⟨g1, g2⟩ := hy
    rcases hw with rfl | rfl | rfl | rfl <;> cases sg <;>
      simp only [IT.min, IT.max, IT.In, IT.conv, Bool.false_eq_true, if_true, if_false, Nat.reduceLT, Nat.reduceSub, Nat.reducePow,
        Int.reducePow] at g1 g2 ⊢ <;> omega
  have conv_back : ∀ y d : Int, IT.conv ⟨w, sg⟩ (IT.conv ⟨w, sg⟩ (y + d) + -d) = IT.conv ⟨w, sg⟩ y := by
    intro y d
    rcases hw with rfl | rfl | rfl | rfl <;> cases sg <;>
      simp only [IT.min, IT.max, IT.In, IT.conv, Bool.false_eq_true, if_true, if_false, Nat.reduceLT, Nat.reduceSub, Nat.reducePow,
        Int.reducePow] <;> omega
  constructor
  · intro hc
    have hc' : sg = false ∨ w < 32 ∨ IT.In ⟨w, sg⟩ (v + 1) := by
      rcases hc with h | h | h
      · exact Or.inl h
      · exact Or.inr (Or.inl h)
      · exact Or.inr (Or.inr ⟨by omega, by omega⟩)
    refine ⟨_, key v 1 ⟨h1, h2⟩ (Or.inl rfl) hc', ?_⟩
    have := key (IT.conv ⟨w, sg⟩ (v + 1)) (-1) (conv_in _) (Or.inr rfl) (by
      rcases hc' with h | h | h
      · exact Or.inl h
      · exact Or.inr (Or.inl h)
      · rw [conv_id _ h]
        exact Or.inr (Or.inr (by rw [show v + 1 + -1 = v by omega]; exact ⟨h1, h2⟩)))
    rw [conv_back, conv_id v ⟨h1, h2⟩] at this
    exact this
  · intro hc
    have hc' : sg = false ∨ w < 32 ∨ IT.In ⟨w, sg⟩ (v + -1) := by
      rcases hc with h | h | h
      · exact Or.inl h
      · exact Or.inr (Or.inl h)
      · exact Or.inr (Or.inr ⟨by omega, by omega⟩)
    refine ⟨_, key v (-1) ⟨h1, h2⟩ (Or.inr rfl) hc', ?_⟩
    have := key (IT.conv ⟨w, sg⟩ (v + -1)) 1 (conv_in _) (Or.inl rfl) (by
      rcases hc' with h | h | h
      · exact Or.inl h
      · exact Or.inr (Or.inl h)
      · rw [conv_id _ h]
        exact Or.inr (Or.inr (by rw [show v + -1 + 1 = v by omega]; exact ⟨h1, h2⟩)))
    have hb := conv_back v (-1)
    rw [show (-(-1 : Int)) = 1 by decide] at hb
    rw [hb, conv_id v ⟨h1, h2⟩] at this
    exact this

example : inc ⟨8, true⟩ 127 = .ok (-128) ∧ dec ⟨8, true⟩ (-128) = .ok 127 ∧ inc ⟨32, true⟩ 2147483647 = .error .ub := by decide

/-- C87: equality and the order relations agree with each other and form a total order in which `invalid()` is the greatest value. -/
theorem C87_order (t : IT) (a b c : Int) :
    ne a b = !eq a b ∧ gt a b = lt b a ∧ ge a b = !lt a b ∧ le a b = !lt b a ∧
    (lt a b, eq a b, gt a b) ∈ [(true, false, false), (false, true, false), (false, false, true)] ∧
    (lt a b = true → lt b c = true → lt a c = true) ∧ (t.In a → le a (invalid t) = true) := by
  refine ⟨?_, rfl, ?_, ?_, ?_, ?_, fun h => decide_eq_true h.2⟩
  · simp [ne, eq]
  · rw [Bool.eq_iff_iff]; simp [ge, lt]
  · rw [Bool.eq_iff_iff]; simp [le, lt]
  · simp [lt, eq, gt]; omega
  · simp only [lt, decide_eq_true_eq]; omega

example : lt 3 5 = true ∧ le 5 (invalid ⟨16, false⟩) = true ∧ invalid ⟨16, false⟩ = 65535 := by decide

/-- C86 does not extend to products of 16 bit values: the product is computed as `int` and overflows for every pair of factors with a product of at least
`2^31`, such as 65535 * 65535. -/
theorem multiply_violated (a b : Int) (h : 2 ^ 31 ≤ a * b) : mul ⟨16, false⟩ a b = .error .ub := by
  unfold mul arith
  have hp : (⟨16, false⟩ : IT).promote = ⟨32, true⟩ := rfl
  rw [hp, if_pos rfl, decide_eq_false, require_false, error_bind]
  rintro ⟨_, h2⟩
  have h2 : a * b ≤ 2 ^ 31 - 1 := h2
  omega

example : mul ⟨16, false⟩ 65535 65535 = .error .ub := multiply_violated _ _ (by decide)

end Cista.Strong
