import Verif.Ser.Model
import Verif.Arith.Lemmas

/-!
# Basic facts about the serialization model
-/
set_option linter.unusedSimpArgs false
set_option linter.unusedSectionVars false

namespace Cista.Ser

open Cista.Target (alignUp)

/-! ## Memory -/

@[simp] theorem length_rd (m : Mem) (a n : Nat) : (rd m a n).length = n := by simp [rd]

theorem rd_congr {m m' : Mem} {a n : Nat} (h : ∀ x, a ≤ x → x < a + n → m x = m' x) : rd m a n = rd m' a n := by
  unfold rd
  apply List.map_congr_left
  intro i hi
  rw [List.mem_range] at hi
  exact h _ (by omega) (by omega)

theorem getElem_rd (m : Mem) (a n i : Nat) (h : i < (rd m a n).length) : (rd m a n)[i] = m (a + i) := by
  simp [rd]

theorem rd_eq_iff {m m' : Mem} {a b n : Nat} : rd m a n = rd m' b n ↔ ∀ i, i < n → m (a + i) = m' (b + i) := by
  constructor
  · intro h i hi
    have h1 := getElem_rd m a n i (by simpa using hi)
    have h2 := getElem_rd m' b n i (by simpa using hi)
    rw [← h1, ← h2]
    simp only [h]
  · intro h
    unfold rd
    apply List.map_congr_left
    intro i hi
    rw [List.mem_range] at hi
    exact h i hi

theorem rd_sub {m m' : Mem} {a b n : Nat} (h : rd m a n = rd m' b n) {k j : Nat} (hk : k + j ≤ n) :
    rd m (a + k) j = rd m' (b + k) j := by
  rw [rd_eq_iff] at h ⊢
  intro i hi
  have := h (k + i) (by omega)
  rw [Nat.add_assoc, Nat.add_assoc]
  exact this

theorem wr_out {m : Mem} {a x : Nat} {bs : List Byte} (h : x < a ∨ a + bs.length ≤ x) : wr m a bs x = m x := by
  unfold wr
  rw [if_neg (by omega)]

theorem rd_wr_same (m : Mem) (a : Nat) (bs : List Byte) : rd (wr m a bs) a bs.length = bs := by
  apply List.ext_getElem (by simp)
  intro i h1 h2
  rw [getElem_rd]
  unfold wr
  rw [if_pos (by omega)]
  simp [List.getD, show a + i - a = i by omega, h2]

theorem rd_wr_same' (m : Mem) (a n : Nat) (bs : List Byte) (h : bs.length = n) : rd (wr m a bs) a n = bs := by
  subst h; exact rd_wr_same m a bs

theorem rd_wr_disj {m : Mem} {a b n : Nat} {bs : List Byte} (h : b + n ≤ a ∨ a + bs.length ≤ b) :
    rd (wr m a bs) b n = rd m b n :=
  rd_congr fun x _ _ => wr_out (by omega)

theorem rd_one (m : Mem) (a : Nat) : rd m a 1 = [m a] := by simp [rd]

theorem rd_wr_sub {m m' : Mem} {a b n : Nat} {k j : Nat} (hk : k + j ≤ n) :
    rd (wr m a (rd m' b n)) (a + k) j = rd m' (b + k) j := by
  have h := rd_wr_same' m a n (rd m' b n) (by simp)
  exact rd_sub h hk

/-! ## Loops -/

theorem forFrom_zero {σ : Type} (f : Nat → σ → Res σ) (i : Nat) (s : σ) : forFrom f i 0 s = .ok s := rfl

theorem forFrom_succ {σ : Type} (f : Nat → σ → Res σ) (i k : Nat) (s : σ) :
    forFrom f i (k + 1) s = (f i s >>= forFrom f (i + 1) k) := rfl

/-! ## Outcomes: a normal result satisfying `Q`, or a thrown exception -/

/-- Either an exception is thrown or the result satisfies `Q`; in particular no undefined behaviour. -/
def Tri {α : Type} (r : Res α) (Q : α → Prop) : Prop :=
  match r with
  | .ok v => Q v
  | .error x => x = .exn

theorem Tri.ok {α : Type} {Q : α → Prop} {v : α} (h : Q v) : Tri (.ok v) Q := h
theorem Tri.exn {α : Type} {Q : α → Prop} : Tri (.error .exn : Res α) Q := rfl

theorem Tri.bind {α β : Type} {r : Res α} {f : α → Res β} {P : α → Prop} {Q : β → Prop} (h : Tri r P)
    (hf : ∀ v, r = .ok v → P v → Tri (f v) Q) : Tri (r >>= f) Q := by
  cases r with
  | ok v => exact hf v rfl h
  | error x =>
    have : x = .exn := h
    subst this
    exact rfl

theorem Tri.mono {α : Type} {r : Res α} {P Q : α → Prop} (h : Tri r P) (hf : ∀ v, P v → Q v) : Tri r Q := by
  cases r with
  | ok v => exact hf v h
  | error x => exact h

theorem Tri.verify (b : Bool) : Tri (verify b) fun _ => b = true := by
  cases b
  · exact rfl
  · exact rfl

theorem Tri.forFrom {σ : Type} {f : Nat → σ → Res σ} {P : Nat → σ → Prop} : ∀ k i s, P i s →
    (∀ j s, i ≤ j → j < i + k → P j s → Tri (f j s) (P (j + 1))) → Tri (forFrom f i k s) (P (i + k))
  | 0, i, s, h, _ => h
  | k + 1, i, s, h, hf => by
    rw [forFrom_succ]
    refine Tri.bind (hf i s (Nat.le_refl _) (by omega) h) fun s' _ h' => ?_
    have := Tri.forFrom k (i + 1) s' h' fun j s hj hk hp => hf j s (by omega) (by omega) hp
    rw [show i + (k + 1) = i + 1 + k by omega]
    exact this

/-! ## Integers -/

theorem i64_inRange {x : Int} : i64.InRange x ↔ -(2 ^ 63) ≤ x ∧ x < 2 ^ 63 := by
  unfold Arith.IntTy.InRange Arith.IntTy.min Arith.IntTy.max i64
  simp only [if_true]
  constructor <;> intro h <;> constructor <;> omega

theorem u64_inRange {x : Int} : u64.InRange x ↔ 0 ≤ x ∧ x < 2 ^ 64 := by
  unfold Arith.IntTy.InRange Arith.IntTy.min Arith.IntTy.max u64
  simp only [Bool.false_eq_true, if_false]
  constructor <;> intro h <;> constructor <;> omega

theorem add64 {x y : Int} (hx : -(2 ^ 63) ≤ x ∧ x < 2 ^ 63) (hy : -(2 ^ 63) ≤ y ∧ y < 2 ^ 63) :
    Arith.checkedAddition i64 x [y] = if -(2 ^ 63) ≤ x + y ∧ x + y < 2 ^ 63 then .ok (x + y) else .error .exn := by
  unfold Arith.checkedAddition
  rw [Arith.addIfOk_eq i64 (by decide) x y (i64_inRange.2 hx) (i64_inRange.2 hy)]
  by_cases h : i64.InRange (x + y)
  · rw [if_pos h, if_pos (i64_inRange.1 h), ok_bind]; rfl
  · rw [if_neg h, if_neg (fun h' => h (i64_inRange.2 h')), error_bind]

theorem addU {x y : Nat} (hx : x < 2 ^ 64) (hy : y < 2 ^ 64) :
    Arith.addIfOk u64 x y = if x + y < 2 ^ 64 then .ok ((x + y : Nat) : Int) else .error .exn := by
  rw [Arith.addIfOk_eq u64 (by decide) x y (u64_inRange.2 (by omega)) (u64_inRange.2 (by omega))]
  by_cases h : u64.InRange ((x : Int) + (y : Int))
  · have := u64_inRange.1 h
    rw [if_pos h, if_pos (by omega)]; rfl
  · rw [if_neg h, if_neg (fun h' => h (u64_inRange.2 (by omega)))]

theorem addU64 {x y : Nat} (hx : x < 2 ^ 64) (hy : y < 2 ^ 64) :
    Arith.checkedAddition u64 x [(y : Int)] = if x + y < 2 ^ 64 then .ok ((x + y : Nat) : Int) else .error .exn := by
  unfold Arith.checkedAddition
  rw [addU hx hy]
  split
  · rw [ok_bind]; rfl
  · rw [error_bind]

theorem addU9 {x : Nat} (hx : x < 2 ^ 64) :
    Arith.checkedAddition u64 x [1, 8] = if x + 9 < 2 ^ 64 then .ok ((x + 9 : Nat) : Int) else .error .exn := by
  unfold Arith.checkedAddition
  rw [show (1 : Int) = ((1 : Nat) : Int) from rfl, addU hx (by decide)]
  by_cases h : x + 1 < 2 ^ 64
  · rw [if_pos h, ok_bind, show (8 : Int) = ((8 : Nat) : Int) from rfl, addU64 h (by decide)]
  · rw [if_neg h, if_neg (by omega), error_bind]

theorem mul64 {x y : Nat} (hx : x < 2 ^ 64) (hy : y < 2 ^ 64) :
    Arith.checkedMultiplication u64 x [(y : Int)] = if x * y < 2 ^ 64 then .ok ((x * y : Nat) : Int) else .error .exn := by
  unfold Arith.checkedMultiplication
  rw [Arith.multiplyIfOk_eq u64 x y (by omega) (by omega) (u64_inRange.2 (by omega)) (u64_inRange.2 (by omega))]
  have e : (x : Int) * (y : Int) = ((x * y : Nat) : Int) := by simp
  by_cases h : u64.InRange ((x : Int) * (y : Int))
  · rw [if_pos h]
    have := u64_inRange.1 h
    rw [if_pos (by omega), ok_bind, e]; rfl
  · rw [if_neg h, if_neg (fun h' => h (u64_inRange.2 (by omega))), error_bind]

theorem toS64_range (v : Nat) : -(2 ^ 63) ≤ toS64 v ∧ toS64 v < 2 ^ 63 := by
  unfold toS64
  have : v % 2 ^ 64 < 2 ^ 64 := Nat.mod_lt _ (by decide)
  split <;> omega

theorem toS64_of_lt {v : Nat} (h : v < 2 ^ 63) : toS64 v = v := by
  unfold toS64
  rw [Nat.mod_eq_of_lt (by omega), if_pos h]

theorem toS64_toU64 {i : Int} (h : -(2 ^ 63) ≤ i ∧ i < 2 ^ 63) : toS64 (toU64 i) = i := by
  unfold toS64 toU64
  have h1 : (0:Int) ≤ i % 2 ^ 64 := Int.emod_nonneg _ (by decide)
  have h2 : i % 2 ^ 64 < 2 ^ 64 := Int.emod_lt_of_pos _ (by decide)
  rw [Nat.mod_eq_of_lt (by omega)]
  split <;> omega

theorem toU64_lt (i : Int) : toU64 i < 256 ^ 8 := by
  unfold toU64
  have h1 : (0:Int) ≤ i % 2 ^ 64 := Int.emod_nonneg _ (by decide)
  have h2 : i % 2 ^ 64 < 2 ^ 64 := Int.emod_lt_of_pos _ (by decide)
  have : (256:Nat) ^ 8 = 2 ^ 64 := by decide
  omega

theorem toU64_ofNat {n : Nat} (h : n < 2 ^ 64) : toU64 (n : Int) = n := by
  unfold toU64
  omega

@[simp] theorem length_encI (h : Endian) (i : Int) : (encI h i).length = 8 := by simp [encI]

theorem decI_encI {h : Endian} {i : Int} (hi : -(2 ^ 63) ≤ i ∧ i < 2 ^ 63) : decI h (encI h i) = i := by
  unfold decI encI
  rw [ofHost_hostBytes (toU64_lt i), toS64_toU64 hi]

theorem decI_range (h : Endian) (bs : List Byte) : -(2 ^ 63) ≤ decI h bs ∧ decI h bs < 2 ^ 63 := toS64_range _

@[simp] theorem length_cv (c : Bool) (bs : List Byte) : (cv c bs).length = bs.length := by
  unfold cv; split <;> simp

@[simp] theorem cv_cv (c : Bool) (bs : List Byte) : cv c (cv c bs) = bs := by
  unfold cv; cases c <;> simp

theorem NULLO_eq : NULLO = -(2 ^ 63) := rfl

/-! ## Alignment -/

theorem dvd_alignUp (x al : Nat) : al ∣ alignUp x al := ⟨(x + al - 1) / al, by unfold alignUp; rw [Nat.mul_comm]⟩

theorem le_alignUp {x al : Nat} (h : 0 < al) : x ≤ alignUp x al := by
  unfold alignUp
  have h1 := Nat.div_add_mod (x + al - 1) al
  have h2 := Nat.mod_lt (x + al - 1) h
  have h3 : (x + al - 1) / al * al = al * ((x + al - 1) / al) := Nat.mul_comm _ _
  omega

theorem put_pos_dvd (c : Ctx) (bs : List Byte) {al : Nat} (h : 0 < al) : al ∣ (put c bs al).2 := by
  unfold put
  dsimp only
  split
  · exact dvd_alignUp _ _
  · have : al = 1 := by omega
    subst this; exact Nat.one_dvd _

theorem put_pos_le (c : Ctx) (bs : List Byte) (al : Nat) : c.len ≤ (put c bs al).2 := by
  unfold put
  dsimp only
  split
  · exact le_alignUp (by omega)
  · exact Nat.le_refl _

end Cista.Ser
