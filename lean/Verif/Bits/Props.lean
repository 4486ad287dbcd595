import Verif.Bits.Observe

set_option linter.unusedSimpArgs false

/-!
# C11, C12 — bit arrays are arrays of booleans
-/
namespace Cista.Bits

variable {w : Nat}

/-! ## Specification on lists of booleans (bit `i` = element `i`) -/

/-- Append `false` or cut to length `n`. -/
def specResize (l : List Bool) (n : Nat) : List Bool := l.take n ++ List.replicate (n - l.length) false

/-- Shift towards index 0, filling with `false`; the length is kept. -/
def specShr (l : List Bool) (k : Nat) : List Bool :=
  l.drop k ++ List.replicate (min k l.length) false

/-- Shift away from index 0, filling with `false`; the length is kept. -/
def specShl (l : List Bool) (k : Nat) : List Bool :=
  List.replicate (min k l.length) false ++ l.take (l.length - k)

/-- Bits of a text: the last character is bit 0, everything but `'0'` is set. -/
def specBits (s : List Char) : List Bool := s.reverse.map (fun c => c != '0')

/-- Text of a bit list. -/
def specText (l : List Bool) : List Char := l.reverse.map fun b => if b then '1' else '0'

/-- Indices of the set bits in increasing order. -/
def specSetBits (l : List Bool) : List Nat := (List.range l.length).filter fun i => l.getD i false

/-- `r` is the first set bit at or after `i`. -/
def IsNext (l : List Bool) (i : Nat) : Option Nat → Prop
  | none => ∀ j, i ≤ j → l.getD j false = false
  | some k => i ≤ k ∧ l.getD k false = true ∧ ∀ j, i ≤ j → j < k → l.getD j false = false

/-! ## Pointwise facts about the specification -/

theorem getD_replicate_false (n i : Nat) : (List.replicate n false).getD i false = false := by
  simp only [List.getD_eq_getElem?_getD, List.getElem?_replicate]
  split <;> rfl

theorem getD_append (a b : List Bool) (i : Nat) : (a ++ b).getD i false =
    if i < a.length then a.getD i false else b.getD (i - a.length) false := by
  simp only [List.getD_eq_getElem?_getD, List.getElem?_append]
  split <;> rfl

theorem getD_take (l : List Bool) (n i : Nat) : (l.take n).getD i false =
    (decide (i < n) && l.getD i false) := by
  simp only [List.getD_eq_getElem?_getD, List.getElem?_take]
  split
  · next h => simp [h]
  · next h => simp [h]

theorem getD_drop (l : List Bool) (n i : Nat) : (l.drop n).getD i false = l.getD (n + i) false := by
  simp only [List.getD_eq_getElem?_getD, List.getElem?_drop]

theorem getD_specResize (l : List Bool) (n i : Nat) (h : i < n) :
    (specResize l n).getD i false = l.getD i false := by
  unfold specResize
  rw [getD_append, getD_take, getD_replicate_false]
  split
  · simp [h]
  · next h2 => rw [getD_out]; simp at h2; omega

theorem getD_specShr (l : List Bool) (k i : Nat) :
    (specShr l k).getD i false = l.getD (i + k) false := by
  unfold specShr
  rw [getD_append, getD_drop, getD_replicate_false]
  split
  · rw [Nat.add_comm]
  · next h2 => rw [getD_out]; simp at h2; omega

theorem getD_specShl (l : List Bool) (k i : Nat) (h : i < l.length) :
    (specShl l k).getD i false = (decide (k ≤ i) && l.getD (i - k) false) := by
  unfold specShl
  rw [getD_append, getD_take, getD_replicate_false]
  simp only [List.length_replicate]
  split
  · have : ¬ k ≤ i := by omega
    simp [this]
  · have h1 : k ≤ i := by omega
    have h2 : i - min k l.length = i - k := by omega
    have h3 : i - k < l.length - k := by omega
    simp [h1, h2, h3]

theorem length_specShr (l : List Bool) (k : Nat) : (specShr l k).length = l.length := by
  simp [specShr]; omega

theorem length_specShl (l : List Bool) (k : Nat) : (specShl l k).length = l.length := by
  simp [specShl]; omega

theorem length_specResize (l : List Bool) (n : Nat) : (specResize l n).length = n := by
  simp [specResize]; omega

theorem getD_specBits (s : List Char) (i : Nat) (h : i < s.length) :
    (specBits s).getD i false = (s.getD (s.length - i - 1) '0' != '0') := by
  unfold specBits
  simp only [List.getD_eq_getElem?_getD, List.getElem?_map, List.getElem?_reverse h]
  rw [show s.length - 1 - i = s.length - i - 1 by omega]
  rw [List.getElem?_eq_getElem (by omega)]
  simp

theorem getD_zipWith (f : Bool → Bool → Bool) (a b : List Bool) (hab : a.length = b.length) (i : Nat)
    (h : i < a.length) : (List.zipWith f a b).getD i false = f (a.getD i false) (b.getD i false) := by
  simp only [List.getD_eq_getElem?_getD, List.getElem?_zipWith]
  rw [List.getElem?_eq_getElem h, List.getElem?_eq_getElem (by omega)]
  simp

theorem getD_map_not (a : List Bool) (i : Nat) (h : i < a.length) :
    (a.map (fun b => !b)).getD i false = !(a.getD i false) := by
  simp only [List.getD_eq_getElem?_getD, List.getElem?_map]
  rw [List.getElem?_eq_getElem h]
  simp

theorem getD_set (a : List Bool) (i j : Nat) (v : Bool) (h : j < a.length) :
    (a.set i v).getD j false = if j = i then v else a.getD j false := by
  simp only [List.getD_eq_getElem?_getD, List.getElem?_set]
  by_cases e : j = i
  · subst e; simp [h]
  · have : ¬ i = j := fun h => e h.symm
    simp [e, this]

/-- What an operation on one operand does to the raw bits of the second bitwise argument. -/
theorem bit_zip (hw : 0 < w) {f : BitVec w → BitVec w → BitVec w} {g : Bool → Bool → Bool}
    (hfg : ∀ x y r, r < w → (f x y).getLsbD r = g (x.getLsbD r) (y.getLsbD r))
    {a o : Blocks w} (h : a.length ≤ o.length) :
    ∃ c, zipAssign f a o = .ok c ∧ c.length = a.length ∧
      ∀ i, i < a.length * w → bit c i = g (bit a i) (bit o i) := by
  obtain ⟨c, hc, hl, hb⟩ := zipLoop_ok f a o a.length (Nat.le_refl _) h
  refine ⟨c, hc, hl, ?_⟩
  intro i hi
  unfold bit
  rw [hb, if_pos ((Nat.div_lt_iff_lt_mul hw).2 hi), hfg _ _ _ (Nat.mod_lt _ hw)]

theorem bit_map (hw : 0 < w) (f : BitVec w → BitVec w) (g : Bool → Bool)
    (hfg : ∀ x r, r < w → (f x).getLsbD r = g (x.getLsbD r)) (a : Blocks w) (i : Nat)
    (h : i < a.length * w) : bit (a.map f) i = g (bit a i) := by
  have hq : i / w < a.length := (Nat.div_lt_iff_lt_mul hw).2 h
  unfold bit blk
  simp only [List.getD_eq_getElem?_getD, List.getElem?_map]
  rw [List.getElem?_eq_getElem hq]
  simp only [Option.map_some, Option.getD_some]
  exact hfg _ _ (Nat.mod_lt _ hw)

/-! ## bitvec histories -/

/-- Operations on a store of bit vectors (addressed by variable number). -/
inductive VOp where
  | resize (d n : Nat)
  | setStr (d : Nat) (s : List Char)
  | set (d i : Nat) (v : Bool)
  | zeroOut (d : Nat)
  | oneOut (d : Nat)
  | max (d n : Nat)
  | copy (d s : Nat)
  | and (d s : Nat)
  | or (d s : Nat)
  | xor (d s : Nat)
  | not (d s : Nat)
  | shr (d k : Nat)
  | shl (d k : Nat)

/-- Assign variable `d`. -/
def upd {α : Type} (m : Nat → α) (d : Nat) (v : α) : Nat → α := fun x => if x = d then v else m x

/-- Execute one operation on the modelled containers. -/
def VOp.exec (m : Nat → Bitvec w) : VOp → Res (Nat → Bitvec w)
  | .resize d n => do return upd m d (← (m d).resize n)
  | .setStr d s => do return upd m d (← (m d).setStr s)
  | .set d i v => do return upd m d (← (m d).set i v)
  | .zeroOut d => .ok (upd m d (m d).zeroOut)
  | .oneOut d => .ok (upd m d (m d).oneOut)
  | .max d n => do return upd m d (← Bitvec.max n)
  | .copy d s => .ok (upd m d (m s))
  | .and d s => do return upd m d (← (m d).zipAssign (· &&& ·) (m s))
  | .or d s => do return upd m d (← (m d).zipAssign (· ||| ·) (m s))
  | .xor d s => do return upd m d (← (m d).zipAssign (· ^^^ ·) (m s))
  | .not d s => .ok (upd m d (m s).not)
  | .shr d k => do return upd m d (← (m d).shr k)
  | .shl d k => do return upd m d (← (m d).shl k)

/-- Specification of one operation on lists; `none` = precondition violated by the caller. -/
def VOp.spec (m : Nat → List Bool) : VOp → Option (Nat → List Bool)
  | .resize d n => some (upd m d (specResize (m d) n))
  | .setStr d s => some (upd m d (specBits s))
  | .set d i v => if i < (m d).length then some (upd m d ((m d).set i v)) else none
  | .zeroOut d => some (upd m d (List.replicate (m d).length false))
  | .oneOut d => some (upd m d (List.replicate (m d).length true))
  | .max d n => some (upd m d (List.replicate n true))
  | .copy d s => some (upd m d (m s))
  | .and d s => if (m d).length = (m s).length
      then some (upd m d (List.zipWith (· && ·) (m d) (m s))) else none
  | .or d s => if (m d).length = (m s).length
      then some (upd m d (List.zipWith (· || ·) (m d) (m s))) else none
  | .xor d s => if (m d).length = (m s).length
      then some (upd m d (List.zipWith Bool.xor (m d) (m s))) else none
  | .not d s => some (upd m d ((m s).map (fun b => !b)))
  | .shr d k => some (upd m d (specShr (m d) k))
  | .shl d k => some (upd m d (specShl (m d) k))

/-- The shift distance is smaller than the current size (or the vector is empty). -/
def VOp.ShiftInside (m : Nat → List Bool) : VOp → Prop
  | .shr d k => k < (m d).length ∨ (m d).length = 0
  | .shl d k => k < (m d).length ∨ (m d).length = 0
  | _ => True

/-- Run a history on the containers. -/
def runV (m : Nat → Bitvec w) : List VOp → Res (Nat → Bitvec w)
  | [] => .ok m
  | op :: ops => do runV (← op.exec m) ops

/-- Run a history on lists. -/
def specV (m : Nat → List Bool) : List VOp → Option (Nat → List Bool)
  | [] => some m
  | op :: ops => (op.spec m).bind fun m' => specV m' ops

/-- Every shift of the history is by less than the size at that point. -/
def AllShiftsInside (m : Nat → List Bool) : List VOp → Prop
  | [] => True
  | op :: ops => op.ShiftInside m ∧ ∀ m', op.spec m = some m' → AllShiftsInside m' ops

/-- Container `b` represents the list `l`. -/
def Bitvec.Repr (b : Bitvec w) (l : List Bool) : Prop :=
  b.blocks.length = numBlocks w b.size ∧ abs b.size b.blocks = l

theorem Bitvec.Repr.size {b : Bitvec w} {l : List Bool} (h : b.Repr l) : b.size = l.length := by
  rw [← h.2]; simp

theorem Bitvec.Repr.bit {b : Bitvec w} {l : List Bool} (h : b.Repr l) {i : Nat} (hi : i < b.size) :
    Bits.bit b.blocks i = l.getD i false := by rw [← h.2, abs_getD hi]

theorem mkRepr {b : Bitvec w} {l : List Bool} (h1 : b.blocks.length = numBlocks w b.size)
    (h2 : b.size = l.length) (h3 : ∀ i, i < b.size → Bits.bit b.blocks i = l.getD i false) : b.Repr l :=
  ⟨h1, abs_eq h2.symm h3⟩

theorem repr_upd {m : Nat → Bitvec w} {r : Nat → List Bool} (h : ∀ x, (m x).Repr (r x)) {d : Nat}
    {b : Bitvec w} {l : List Bool} (hb : b.Repr l) : ∀ x, (upd m d b x).Repr (upd r d l x) := by
  intro x; unfold upd; split
  · exact hb
  · exact h x

theorem size_le_bits (hw : 0 < w) {b : Bitvec w} {l : List Bool} (h : b.Repr l) {i : Nat}
    (hi : i < b.size) : i < b.blocks.length * w := by
  have := (numBlocks_mul hw b.size).1
  rw [h.1]; omega

theorem repr_const (hw : 0 < w) {b : Bitvec w} {l : List Bool} (h : b.Repr l) (v : Bool) (x : BitVec w)
    (hx : ∀ r, r < w → x.getLsbD r = v) :
    Bitvec.Repr (w := w) { b with blocks := b.blocks.map (fun _ => x) } (List.replicate l.length v) := by
  refine mkRepr (by simp [h.1]) (by simp [h.size]) ?_
  intro i hi
  simp only at hi ⊢
  rw [bit_map hw (fun _ => x) (fun _ => v) (fun _ r hr => hx r hr) _ _ (size_le_bits hw h hi)]
  have := h.size
  simp only [List.getD_eq_getElem?_getD, List.getElem?_replicate]
  rw [if_pos (by omega)]; rfl

theorem repr_zip (hw : 0 < w) {a o : Bitvec w} {l m : List Bool} (ha : a.Repr l) (ho : o.Repr m)
    (hlen : l.length = m.length) {f : BitVec w → BitVec w → BitVec w} {g : Bool → Bool → Bool}
    (hfg : ∀ x y r, r < w → (f x y).getLsbD r = g (x.getLsbD r) (y.getLsbD r)) :
    ∃ c, a.zipAssign f o = .ok c ∧ c.Repr (List.zipWith g l m) := by
  have hs : a.size = o.size := by rw [ha.size, ho.size, hlen]
  obtain ⟨c, hc, hcl, hcb⟩ := bit_zip hw hfg (a := a.blocks) (o := o.blocks)
    (by rw [ha.1, ho.1, hs]; exact Nat.le_refl _)
  refine ⟨{ a with blocks := c }, ?_, ?_⟩
  · simp [Bitvec.zipAssign, hs, hc, bind, Except.bind, pure, Except.pure]
  · refine mkRepr (by simp [hcl, ha.1]) (by simp [ha.size, hlen]) ?_
    intro i hi
    simp only at hi ⊢
    rw [hcb i (size_le_bits hw ha hi), getD_zipWith _ _ _ hlen _ (by rw [← ha.size]; exact hi),
      ha.bit hi, ho.bit (by omega)]

theorem sanitize_ok (hw : 0 < w) {b : Bitvec w} {l : List Bool} (h : b.Repr l) :
    ∃ s : Blocks w, b.resizeSanitize = .ok s ∧ s.length = b.blocks.length ∧
      ∀ i, Bits.bit s i = (decide (i < b.size) && Bits.bit b.blocks i) := by
  by_cases hc : b.size ≠ 0 ∧ b.size % w ≠ 0
  · have hpos : 0 < b.blocks.length := by
      rw [h.1]; exact numBlocks_pos hw (by omega)
    refine ⟨sanitized b.size b.blocks, ?_, length_sanitized _ _, bit_sanitized hw h.1⟩
    unfold Bitvec.resizeSanitize
    rw [if_pos hc]
    unfold sanitized sanitizedLast
    rw [rd_ok (by omega)]
    simp only [bind, Except.bind, pure, Except.pure]
    rw [wr_ok (by omega), if_pos hc.2]
  · refine ⟨b.blocks, by unfold Bitvec.resizeSanitize; rw [if_neg hc], rfl, ?_⟩
    intro i
    by_cases hi : i < b.size
    · simp [hi]
    · have hm : b.size % w = 0 := by
        by_cases h0 : b.size = 0
        · rw [h0]; exact Nat.zero_mod _
        · by_cases h1 : b.size % w = 0
          · exact h1
          · exact absurd ⟨h0, h1⟩ hc
      have : b.blocks.length * w ≤ i := by
        have h1 : numBlocks w b.size = b.size / w := by simp [numBlocks, hm]
        rw [h.1, h1]
        obtain ⟨h2, _⟩ := decomp hw b.size
        omega
      rw [bit_out hw this]; simp

theorem repr_resize (hw : 0 < w) {b : Bitvec w} {l : List Bool} (h : b.Repr l) (n : Nat) :
    ∃ c, b.resize n = .ok c ∧ c.Repr (specResize l n) ∧ c.size = n := by
  unfold Bitvec.resize
  split
  · next e =>
    refine ⟨b, rfl, ?_, e.symm⟩
    rw [h.size] at e
    subst e
    refine mkRepr h.1 (by rw [length_specResize]; exact h.size) ?_
    intro i hi
    rw [getD_specResize _ _ _ (by rw [← h.size]; exact hi), h.bit hi]
  · obtain ⟨s, hs, hsl, hsb⟩ := sanitize_ok hw h
    simp only [hs, bind, Except.bind, pure, Except.pure]
    refine ⟨_, rfl, mkRepr ?_ (by simp [length_specResize]) ?_, rfl⟩
    · simp; omega
    · intro i hi
      simp only at hi ⊢
      rw [getD_specResize _ _ _ hi]
      have hbit : Bits.bit (s.take (numBlocks w n) ++ List.replicate (numBlocks w n - s.length) 0#w) i
          = Bits.bit s i := by
        unfold Bits.bit blk
        congr 1
        have hq := div_lt_numBlocks hw hi
        simp only [List.getD_eq_getElem?_getD, List.getElem?_append, List.getElem?_take,
          List.getElem?_replicate, List.length_take, hq, if_true]
        split
        · rfl
        · next h2 =>
          rw [List.getElem?_eq_none (l := s) (by omega)]
          split <;> rfl
      rw [hbit, hsb]
      by_cases hi2 : i < b.size
      · rw [h.bit hi2]; simp [hi2]
      · rw [getD_out (by rw [← h.size]; omega)]; simp [hi2]

theorem shr_empty {b : Bitvec w} {l : List Bool} (hw : 0 < w) (h : b.Repr l) (h0 : l.length = 0) :
    b.reset.Repr l := by
  have hs := h.size
  refine mkRepr ?_ (by simp [Bitvec.reset, hs]) ?_
  · simp [Bitvec.reset, hs, h0, numBlocks_zero hw]
  · intro i hi
    simp [Bitvec.reset] at hi
    omega

theorem exec_refines (hw : 0 < w) (op : VOp) {m : Nat → Bitvec w} {r : Nat → List Bool}
    (h : ∀ x, (m x).Repr (r x)) (hsh : op.ShiftInside r) {r' : Nat → List Bool}
    (hr : op.spec r = some r') : ∃ m', op.exec m = .ok m' ∧ ∀ x, (m' x).Repr (r' x) := by
  cases op with
  | resize d n =>
    cases hr
    obtain ⟨c, hc, hcr, _⟩ := repr_resize hw (h d) n
    exact ⟨upd m d c, by simp [VOp.exec, hc, bind, Except.bind, pure, Except.pure], repr_upd h hcr⟩
  | setStr d s =>
    cases hr
    obtain ⟨c, hc, hcr, hcs⟩ := repr_resize hw (h d) s.length
    obtain ⟨e, he, hel, heb⟩ := setStrLoop_ok hw s c.blocks (min c.size s.length) (by
      rw [hcr.1]
      have := (numBlocks_mul hw c.size).1
      omega)
    refine ⟨upd m d { c with blocks := e }, ?_, repr_upd h ?_⟩
    · simp [VOp.exec, Bitvec.setStr, hc, he, bind, Except.bind, pure, Except.pure]
    · refine mkRepr (by simp [hel, hcr.1]) (by simp [hcs, specBits]) ?_
      intro i hi
      simp only at hi ⊢
      rw [heb, if_pos (by omega), getD_specBits _ _ (by omega)]
  | set d i v =>
    simp only [VOp.spec] at hr
    split at hr
    · next hi =>
      cases hr
      have hi' : i < (m d).size := by rw [(h d).size]; exact hi
      obtain ⟨c, hc, hcl, hcb⟩ := setBit_ok hw (bs := (m d).blocks) (v := v)
        (by rw [(h d).1]; exact div_lt_numBlocks hw hi')
      refine ⟨upd m d { m d with blocks := c }, ?_, repr_upd h ?_⟩
      · simp [VOp.exec, Bitvec.set, hi', hc, bind, Except.bind, pure, Except.pure]
      · refine mkRepr (by simp [hcl, (h d).1]) (by simp [(h d).size]) ?_
        intro j hj
        simp only at hj ⊢
        rw [hcb, getD_set _ _ _ _ (by rw [← (h d).size]; exact hj)]
        split
        · rfl
        · exact (h d).bit hj
    · cases hr
  | zeroOut d =>
    cases hr
    exact ⟨_, rfl, repr_upd h (repr_const hw (h d) false 0#w (by simp))⟩
  | oneOut d =>
    cases hr
    exact ⟨_, rfl, repr_upd h (repr_const hw (h d) true (~~~(0#w)) (by simp))⟩
  | max d n =>
    cases hr
    have h0 : Bitvec.Repr (w := w) Bitvec.empty [] := mkRepr (by simp [Bitvec.empty, numBlocks_zero hw])
      rfl (by intro i hi; simp [Bitvec.empty] at hi)
    obtain ⟨c, hc, hcr, hcs⟩ := repr_resize hw h0 n
    have := repr_const hw hcr true (BitVec.allOnes w) (by simp)
    rw [length_specResize] at this
    exact ⟨upd m d { c with blocks := c.blocks.map (fun _ => BitVec.allOnes w) },
      by simp only [VOp.exec, Bitvec.max, hc, bind, Except.bind, pure, Except.pure], repr_upd h this⟩
  | copy d s => cases hr; exact ⟨_, rfl, repr_upd h (h s)⟩
  | and d s =>
    simp only [VOp.spec] at hr
    split at hr
    · next hl =>
      cases hr
      obtain ⟨c, hc, hcr⟩ := repr_zip hw (h d) (h s) hl (f := (· &&& ·)) (g := (· && ·)) (by simp)
      exact ⟨upd m d c, by simp [VOp.exec, hc, bind, Except.bind, pure, Except.pure], repr_upd h hcr⟩
    · cases hr
  | or d s =>
    simp only [VOp.spec] at hr
    split at hr
    · next hl =>
      cases hr
      obtain ⟨c, hc, hcr⟩ := repr_zip hw (h d) (h s) hl (f := (· ||| ·)) (g := (· || ·)) (by simp)
      exact ⟨upd m d c, by simp [VOp.exec, hc, bind, Except.bind, pure, Except.pure], repr_upd h hcr⟩
    · cases hr
  | xor d s =>
    simp only [VOp.spec] at hr
    split at hr
    · next hl =>
      cases hr
      obtain ⟨c, hc, hcr⟩ := repr_zip hw (h d) (h s) hl (f := (· ^^^ ·)) (g := Bool.xor) (by simp)
      exact ⟨upd m d c, by simp [VOp.exec, hc, bind, Except.bind, pure, Except.pure], repr_upd h hcr⟩
    · cases hr
  | not d s =>
    cases hr
    refine ⟨_, rfl, repr_upd h ?_⟩
    refine mkRepr (by simp [Bitvec.not, notAll, (h s).1]) (by simp [Bitvec.not, (h s).size]) ?_
    intro i hi
    simp only [Bitvec.not] at hi
    simp only [Bitvec.not, notAll]
    rw [bit_map hw _ (fun b => !b) (by intro x r hr; simp [hr]) _ _ (size_le_bits hw (h s) hi),
      getD_map_not _ _ (by rw [← (h s).size]; exact hi), (h s).bit hi]
  | shr d k =>
    cases hr
    rcases hsh with hk | h0
    · have hk' : k < (m d).size := by rw [(h d).size]; exact hk
      obtain ⟨c, hc, hcl, hcb⟩ := shr_ok hw (h d).1 hk'
      refine ⟨upd m d { m d with blocks := c }, ?_, repr_upd h ?_⟩
      · have : ¬ k ≥ (m d).size := by omega
        simp [VOp.exec, Bitvec.shr, this, hc, bind, Except.bind, pure, Except.pure]
      · refine mkRepr (by simp [hcl, (h d).1]) (by simp [length_specShr, (h d).size]) ?_
        intro i hi
        simp only at hi ⊢
        rw [hcb, getD_specShr]
        by_cases h2 : i + k < (m d).size
        · rw [(h d).bit h2]; simp [h2]
        · rw [getD_out (by rw [← (h d).size]; omega)]; simp [h2]
    · refine ⟨upd m d (m d).reset, ?_, repr_upd h ?_⟩
      · have : k ≥ (m d).size := by rw [(h d).size]; omega
        simp [VOp.exec, Bitvec.shr, this, bind, Except.bind, pure, Except.pure]
      · have : r d = [] := List.length_eq_zero_iff.1 h0
        have h2 := shr_empty hw (h d) h0
        rw [this] at h2 ⊢
        simpa [specShr] using h2
  | shl d k =>
    cases hr
    rcases hsh with hk | h0
    · have hk' : k < (m d).size := by rw [(h d).size]; exact hk
      obtain ⟨c, hc, hcl, hcb⟩ := shl_ok hw (shift := k) (bs := (m d).blocks)
        (by rw [(h d).1]; exact div_lt_numBlocks hw hk')
      refine ⟨upd m d { m d with blocks := c }, ?_, repr_upd h ?_⟩
      · have : ¬ k ≥ (m d).size := by omega
        simp [VOp.exec, Bitvec.shl, this, hc, bind, Except.bind, pure, Except.pure]
      · refine mkRepr (by simp [hcl, (h d).1]) (by simp [length_specShl, (h d).size]) ?_
        intro i hi
        simp only at hi ⊢
        rw [hcb i (size_le_bits hw (h d) hi), getD_specShl _ _ _ (by rw [← (h d).size]; exact hi),
          (h d).bit (by omega)]
    · refine ⟨upd m d (m d).reset, ?_, repr_upd h ?_⟩
      · have : k ≥ (m d).size := by rw [(h d).size]; omega
        simp [VOp.exec, Bitvec.shl, this, bind, Except.bind, pure, Except.pure]
      · have : r d = [] := List.length_eq_zero_iff.1 h0
        have h2 := shr_empty hw (h d) h0
        rw [this] at h2 ⊢
        simpa [specShl] using h2

theorem run_refines (hw : 0 < w) (ops : List VOp) {m : Nat → Bitvec w} {r : Nat → List Bool}
    (h : ∀ x, (m x).Repr (r x)) (hsh : AllShiftsInside r ops) {r' : Nat → List Bool}
    (hr : specV r ops = some r') : ∃ m', runV m ops = .ok m' ∧ ∀ x, (m' x).Repr (r' x) := by
  induction ops generalizing m r with
  | nil => cases hr; exact ⟨m, rfl, h⟩
  | cons op ops ih =>
    simp only [specV] at hr
    cases hs : op.spec r with
    | none => rw [hs] at hr; cases hr
    | some r1 =>
      rw [hs] at hr
      obtain ⟨m1, hm1, h1⟩ := exec_refines hw op h hsh.1 hs
      obtain ⟨m2, hm2, h2⟩ := ih h1 (hsh.2 r1 hs) hr
      exact ⟨m2, by simp [runV, hm1, hm2, bind, Except.bind], h2⟩

/-! ## C12 -/

theorem countP_abs {size : Nat} {bs : Blocks w} :
    (List.range size).countP (bit bs) = (abs size bs).countP id := by
  rw [abs, List.countP_map]; rfl

theorem filter_abs {size : Nat} {bs : Blocks w} :
    (List.range size).filter (bit bs) = specSetBits (abs size bs) := by
  unfold specSetBits
  simp only [length_abs]
  apply List.filter_congr
  intro i hi
  simp at hi
  rw [abs_getD hi]

/-- Every observer of bit vectors that represent lists answers for these lists. -/
theorem observers (hw : 0 < w) {m : Nat → Bitvec w} {r : Nat → List Bool} (hrep : ∀ x, (m x).Repr (r x)) (x : Nat) :
    (m x).size = (r x).length ∧
        (∀ i, (m x).test i = .ok ((r x).getD i false)) ∧
        (m x).count = .ok ((r x).countP id) ∧
        (m x).any = .ok (decide (true ∈ r x)) ∧
        (m x).forEachSetBit = .ok (specSetBits (r x)) ∧
        (m x).str = .ok (specText (r x)) ∧
        (∀ y, (m x).eq (m y) = .ok (decide (r x = r y))) ∧
        (∀ y, (r x).length = (r y).length →
          (m x).lt (m y) = .ok (decide (natOf (r x) < natOf (r y)))) := by
  have hx := hrep x
  have hlen := hx.size
  refine ⟨hx.size, ?_, ?_, ?_, ?_, ?_, ?_, ?_⟩
  · intro i
    unfold Bitvec.test
    rw [test_eq hw hx.1, hx.2]
  · unfold Bitvec.count
    split
    · next h =>
      have : r x = [] := List.length_eq_zero_iff.1 (by omega)
      simp [this]
    · rw [count_eq hw hx.1 (by omega), countP_abs, hx.2]
  · unfold Bitvec.any
    split
    · next h =>
      have : r x = [] := List.length_eq_zero_iff.1 (by omega)
      simp [this]
    · obtain ⟨b, hb, hiff⟩ := any_eq hw hx.1 (by omega)
      rw [hb]
      congr 1
      rw [Bool.eq_iff_iff, hiff, decide_eq_true_iff]
      constructor
      · rintro ⟨i, hi, hbit⟩
        rw [hx.bit hi] at hbit
        rw [List.getD_eq_getElem?_getD, List.getElem?_eq_getElem (by omega)] at hbit
        simp at hbit
        rw [← hbit]
        exact List.getElem_mem _
      · intro hmem
        obtain ⟨i, hi, e⟩ := List.getElem_of_mem hmem
        refine ⟨i, by omega, ?_⟩
        rw [hx.bit (by omega)]
        simp [List.getD_eq_getElem?_getD, List.getElem?_eq_getElem hi, e]
  · unfold Bitvec.forEachSetBit
    split
    · next h =>
      have : r x = [] := List.length_eq_zero_iff.1 (by omega)
      simp [this, specSetBits]
    · rw [forEach_eq hw hx.1 (by omega), filter_abs, hx.2]
  · unfold Bitvec.str specText
    rw [str_eq hw hx.1, hx.2]
  · intro y
    have hy := hrep y
    have hleny := hy.size
    unfold Bitvec.eq
    split
    · next h =>
      congr 1
      symm
      rw [decide_eq_false_iff_not]
      intro e; rw [e] at hlen; omega
    · next h =>
      simp only [ne_eq, Decidable.not_not] at h
      split
      · next h2 =>
        have e1 : r x = [] := List.length_eq_zero_iff.1 (by omega)
        have e2 : r y = [] := List.length_eq_zero_iff.1 (by omega)
        simp [e1, e2]
      · have hyl : (m y).blocks.length = numBlocks w (m x).size := by rw [h]; exact hy.1
        rw [eq_eq hw hx.1 hyl (by omega), hx.2, h, hy.2]
  · intro y hxy
    have hy := hrep y
    have hleny := hy.size
    have hs : (m x).size = (m y).size := by omega
    unfold Bitvec.lt
    simp only [hs, decide_true, require_true, bind, Except.bind, pure, Except.pure]
    split
    · next h2 =>
      have e1 : r x = [] := List.length_eq_zero_iff.1 (by omega)
      have e2 : r y = [] := List.length_eq_zero_iff.1 (by omega)
      simp [e1, e2]
    · have hxl : (m x).blocks.length = numBlocks w (m y).size := by rw [← hs]; exact hx.1
      rw [lt_eq hw hxl hy.1 (by omega), hy.2]
      have := hx.2
      rw [hs] at this
      rw [this]

/-- **C12 (partial)** For any block type, any set of bit vectors and any history of
resize / set(text) / set / zero_out / one_out / max / copy / `&=` / `|=` / `^=` / `~` / `>>=` / `<<=`
whose caller obligations hold (index in range, equal sizes) and that never shifts by `size()` or
more: the run has no undefined behaviour, and afterwards *every* observer — size, test/`[]`, count,
any, for_each_set_bit, str, `==`, `<` — answers for the list of booleans the same history produces.
Missing for the full claim: shifts by `size()` or more (`C12_shift_out_violated`), and
`next_set_bit` (see `C12_next_set_bit_partial`, `C12_next_set_bit_violated`). -/
theorem C12_history_partial (hw : 0 < w) (ops : List VOp) (r : Nat → List Bool)
    (hsh : AllShiftsInside (fun _ => []) ops) (hr : specV (fun _ => []) ops = some r) :
    ∃ m : Nat → Bitvec w, runV (fun _ => Bitvec.empty) ops = .ok m ∧
      ∀ x, (m x).size = (r x).length ∧
        (∀ i, (m x).test i = .ok ((r x).getD i false)) ∧
        (m x).count = .ok ((r x).countP id) ∧
        (m x).any = .ok (decide (true ∈ r x)) ∧
        (m x).forEachSetBit = .ok (specSetBits (r x)) ∧
        (m x).str = .ok (specText (r x)) ∧
        (∀ y, (m x).eq (m y) = .ok (decide (r x = r y))) ∧
        (∀ y, (r x).length = (r y).length →
          (m x).lt (m y) = .ok (decide (natOf (r x) < natOf (r y)))) := by
  have h0 : ∀ _ : Nat, Bitvec.Repr (w := w) Bitvec.empty [] := fun _ =>
    mkRepr (by simp [Bitvec.empty, numBlocks_zero hw]) rfl (by intro i hi; simp [Bitvec.empty] at hi)
  obtain ⟨m, hm, hrep⟩ := run_refines hw ops h0 hsh hr
  exact ⟨m, hm, observers hw hrep⟩

/-- **C12 (partial)** `next_set_bit(i)` returns the first set bit at or after `i`, unless the scan
starts in the last one of several blocks while padding bits are set.  Missing for the full claim:
that remaining case, where it is false (`C12_next_set_bit_violated`). -/
theorem C12_next_set_bit_partial (hw : 0 < w) (b : Bitvec w) (l : List Bool) (h : b.Repr l) (i : Nat)
    (hpad : i / w + 1 ≠ b.blocks.length ∨ b.size ≤ w ∨ ∀ j, b.size ≤ j → bit b.blocks j = false) :
    ∃ r, b.nextSetBit i = .ok r ∧ IsNext l i r := by
  have hlen := h.size
  unfold Bitvec.nextSetBit
  by_cases hi : i < b.size
  · obtain ⟨r, hr, hs⟩ := nextSetBit_ok hw h.1 i hi hpad
    refine ⟨r, hr, ?_⟩
    have conv : ∀ j, bit (sanitized b.size b.blocks) j = l.getD j false := by
      intro j
      rw [bit_sanitized hw h.1]
      by_cases hj : j < b.size
      · rw [h.bit hj]; simp [hj]
      · rw [getD_out (by omega)]; simp [hj]
    cases r with
    | none =>
      intro j h1
      by_cases hj : j < b.size
      · rw [← conv]; exact hs j h1 hj
      · exact getD_out (by omega)
    | some k =>
      obtain ⟨x, y, z, u⟩ := hs
      exact ⟨x, by rw [← conv]; exact z, fun j h1 h2 => by rw [← conv]; exact u j h1 h2⟩
  · refine ⟨none, by simp [Bits.nextSetBit]; intro h; omega, fun j hj => getD_out (by omega)⟩

/-- **C12 violated** After `>>=` or `<<=` by `size()` or more, or `reset()`, the blocks are gone but the size is kept: reading or writing
any bit, counting, testing for any bit and visiting the set bits are undefined; for all bit vectors that are not empty. -/
theorem C12_shift_out_violated (b : Bitvec w) (k : Nat) (hs : 0 < b.size) (hk : b.size ≤ k) :
    ∃ b' : Bitvec w, b.shr k = .ok b' ∧ b.shl k = .ok b' ∧ b.reset = b' ∧ b'.size = b.size ∧
      (∀ i < b'.size, b'.test i = .error .ub) ∧ b'.count = .error .ub ∧ b'.any = .error .ub ∧
      (∀ i < b'.size, b'.nextSetBit i = .error .ub) ∧ ∀ i v, setBit b'.blocks i v = .error .ub := by
  have r : ∀ i, rd ([] : Blocks w) i = .error .ub := fun i => rfl
  refine ⟨b.reset, by rw [Bitvec.shr, if_pos hk], by rw [Bitvec.shl, if_pos hk], rfl, rfl, ?_, ?_, ?_, ?_, ?_⟩
  · intro i hi
    have hi : i < b.size := hi
    show Bits.test b.size [] i = _
    rw [Bits.test, if_neg (by omega), r]; rfl
  · show (if b.size = 0 then _ else Bits.count b.size []) = _
    rw [if_neg (by omega)]; rfl
  · show (if b.size = 0 then _ else Bits.any b.size []) = _
    rw [if_neg (by omega)]; rfl
  · intro i hi
    have hi : i < b.size := hi
    show Bits.nextSetBit b.size [] i = _
    rw [Bits.nextSetBit, if_neg (by omega)]; rfl
  · intro i v; rfl

example : (runV (w := 64) (fun _ => Bitvec.empty) [.resize 0 1, .shr 0 1] >>= fun m => (m 0).test 0) = .error .ub ∧
    (runV (w := 64) (fun _ => Bitvec.empty) [.resize 0 1, .shl 0 1] >>= fun m => (m 0).count) = .error .ub := by decide +kernel

/-- **C12 violated** If the scan starts in the last of several blocks, no bit at or after `i` is set, and some padding bit is, then
`next_set_bit(i)` returns an index that is not less than `size()`: exactly the case that `C12_next_set_bit_partial` excludes. -/
theorem C12_next_set_bit_violated (hw : 0 < w) (b : Bitvec w) (l : List Bool) (h : b.Repr l) (i p : Nat) (hi : i < b.size)
    (hq : i / w + 1 = b.blocks.length) (hs : w < b.size) (hclear : ∀ j, i ≤ j → l.getD j false = false) (hp : b.size ≤ p)
    (hset : bit b.blocks p = true) : IsNext l i none ∧ ∃ k, b.nextSetBit i = .ok (some k) ∧ b.size ≤ k := by
  refine ⟨hclear, ?_⟩
  obtain ⟨hd1, hd2⟩ := decomp hw i
  have hlt : i / w < b.blocks.length := by omega
  have hpl : p < i / w * w + w := by
    rcases Nat.lt_or_ge p (i / w * w + w) with g | g
    · exact g
    · exfalso
      have : b.blocks.length ≤ p / w := by
        rw [← hq, Nat.le_div_iff_mul_le hw, Nat.add_mul]
        omega
      unfold bit at hset
      simp [blk, List.getElem?_eq_none this] at hset
  have hfirst := scan_block hw b.blocks (i / w) (i % w) (min b.size w) (by omega) (by omega) _ rfl
  rw [← hd1, Nat.min_eq_right (by omega)] at hfirst
  unfold Bitvec.nextSetBit nextSetBit
  rw [if_neg (by omega)]
  simp only []
  rw [rd_ok hlt]
  simp only [bind, Except.bind]
  rw [Nat.min_eq_right (show w ≤ b.size by omega)]
  generalize (if blk b.blocks (i / w) ≠ 0#w then
    (findBit (blk b.blocks (i / w)) (i % w) w).map (fun bit => i / w * w + bit) else none) = res at hfirst ⊢
  cases res with
  | none =>
    have := hfirst p (by omega) hpl
    rw [hset] at this; cases this
  | some k =>
    obtain ⟨k1, k2, k3, _⟩ := hfirst
    refine ⟨k, rfl, ?_⟩
    rcases Nat.lt_or_ge k b.size with g | g
    · rw [h.bit g, hclear k k1] at k3; cases k3
    · exact g

/-- With 65 bits all set, clearing bit 64 leaves no set bit at or after 64, yet `next_set_bit(64)` returns 65. -/
example : (runV (w := 64) (fun _ => Bitvec.empty) [.max 0 65, .set 0 64 false] >>= fun m => (m 0).nextSetBit 64) = .ok (some 65) := by
  decide +kernel

/-- Non-vacuity of `C12_history_partial`: a history with several vectors, a text, shifts and binary
operations satisfies all hypotheses. -/
example : AllShiftsInside (fun _ => [])
      [.setStr 0 "1101".toList, .copy 1 0, .shr 1 1, .shl 0 2, .xor 0 1, .not 2 0, .resize 2 70] ∧
    ∃ r, specV (fun _ => [])
      [.setStr 0 "1101".toList, .copy 1 0, .shr 1 1, .shl 0 2, .xor 0 1, .not 2 0, .resize 2 70]
      = some r ∧ r 0 = [false, true, false, false] := by
  refine ⟨?_, _, rfl, by decide⟩
  refine ⟨trivial, fun _ h => ?_⟩; cases h
  refine ⟨trivial, fun _ h => ?_⟩; cases h
  refine ⟨Or.inl (by decide), fun _ h => ?_⟩; cases h
  refine ⟨Or.inl (by decide), fun _ h => ?_⟩; cases h
  refine ⟨trivial, fun _ h => ?_⟩; cases h
  refine ⟨trivial, fun _ h => ?_⟩; cases h
  exact ⟨trivial, fun _ _ => trivial⟩

/-! ## C11 : bitset -/

/-- Operations on a store of bitsets of size `N`. -/
inductive SOp where
  | set (d i : Nat) (v : Bool)
  | setStr (d : Nat) (s : List Char)
  | reset (d : Nat)
  | max (d : Nat)
  | copy (d s : Nat)
  | and (d s : Nat)
  | or (d s : Nat)
  | xor (d s : Nat)
  | not (d s : Nat)
  | shr (d k : Nat)
  | shl (d k : Nat)

variable {N : Nat}

/-- Execute one operation on the modelled containers. -/
def SOp.exec (m : Nat → Bitset N) : SOp → Res (Nat → Bitset N)
  | .set d i v => do return upd m d ⟨← setBit (m d).blocks i v⟩
  | .setStr d s => do return upd m d (← (m d).setStr s)
  | .reset d => .ok (upd m d (m d).reset)
  | .max d => .ok (upd m d Bitset.max)
  | .copy d s => .ok (upd m d (m s))
  | .and d s => do return upd m d ⟨← zipAssign (· &&& ·) (m d).blocks (m s).blocks⟩
  | .or d s => do return upd m d ⟨← zipAssign (· ||| ·) (m d).blocks (m s).blocks⟩
  | .xor d s => do return upd m d ⟨← zipAssign (· ^^^ ·) (m d).blocks (m s).blocks⟩
  | .not d s => .ok (upd m d ⟨notAll (m s).blocks⟩)
  | .shr d k => do return upd m d (← (m d).shr k)
  | .shl d k => do return upd m d (← (m d).shl k)

/-- Specification on lists of length `N`; `none` = index out of range. -/
def SOp.spec (m : Nat → List Bool) : SOp → Option (Nat → List Bool)
  | .set d i v => if i < (m d).length then some (upd m d ((m d).set i v)) else none
  | .setStr d s => some (upd m d ((specBits s).take (m d).length ++ (m d).drop s.length))
  | .reset d => some (upd m d (List.replicate (m d).length false))
  | .max d => some (upd m d (List.replicate (m d).length true))
  | .copy d s => some (upd m d (m s))
  | .and d s => some (upd m d (List.zipWith (· && ·) (m d) (m s)))
  | .or d s => some (upd m d (List.zipWith (· || ·) (m d) (m s)))
  | .xor d s => some (upd m d (List.zipWith Bool.xor (m d) (m s)))
  | .not d s => some (upd m d ((m s).map (fun b => !b)))
  | .shr d k => some (upd m d (specShr (m d) k))
  | .shl d k => some (upd m d (specShl (m d) k))

/-- Run a history on the containers. -/
def runS (m : Nat → Bitset N) : List SOp → Res (Nat → Bitset N)
  | [] => .ok m
  | op :: ops => do runS (← op.exec m) ops

/-- Run a history on lists. -/
def specS (m : Nat → List Bool) : List SOp → Option (Nat → List Bool)
  | [] => some m
  | op :: ops => (op.spec m).bind fun m' => specS m' ops

/-- Bitset `b` represents the list `l`. -/
def Bitset.Repr (b : Bitset N) (l : List Bool) : Prop :=
  b.blocks.length = numBlocks 64 N ∧ abs N b.blocks = l

theorem mkSRepr {b : Bitset N} {l : List Bool} (h1 : b.blocks.length = numBlocks 64 N)
    (h2 : l.length = N) (h3 : ∀ i, i < N → bit b.blocks i = l.getD i false) : b.Repr l :=
  ⟨h1, abs_eq h2 h3⟩

theorem Bitset.Repr.len {b : Bitset N} {l : List Bool} (h : b.Repr l) : l.length = N := by
  rw [← h.2]; simp

theorem Bitset.Repr.bit {b : Bitset N} {l : List Bool} (h : b.Repr l) {i : Nat} (hi : i < N) :
    Bits.bit b.blocks i = l.getD i false := by rw [← h.2, abs_getD hi]

theorem srepr_upd {m : Nat → Bitset N} {r : Nat → List Bool} (h : ∀ x, (m x).Repr (r x)) {d : Nat}
    {b : Bitset N} {l : List Bool} (hb : b.Repr l) : ∀ x, (upd m d b x).Repr (upd r d l x) := by
  intro x; unfold upd; split
  · exact hb
  · exact h x

theorem lt_bits {b : Bitset N} {l : List Bool} (h : b.Repr l) {i : Nat} (hi : i < N) :
    i < b.blocks.length * 64 := by
  have := (numBlocks_mul (w := 64) (by omega) N).1
  rw [h.1]; omega

theorem bit_replicate_zero (n i : Nat) : Bits.bit (List.replicate n 0#w) i = false := by
  unfold Bits.bit blk
  simp only [List.getD_eq_getElem?_getD, List.getElem?_replicate]
  split <;> simp

theorem srepr_reset (b : Bitset N) : b.reset.Repr (List.replicate N false) :=
  mkSRepr (by simp [Bitset.reset]) (by simp) (fun i _ => by
    rw [getD_replicate_false]; simp only [Bitset.reset]; exact bit_replicate_zero _ _)

theorem srepr_zip {a o : Bitset N} {l m : List Bool} (ha : a.Repr l) (ho : o.Repr m)
    {f : BitVec 64 → BitVec 64 → BitVec 64} {g : Bool → Bool → Bool}
    (hfg : ∀ x y r, r < 64 → (f x y).getLsbD r = g (x.getLsbD r) (y.getLsbD r)) :
    ∃ c, zipAssign f a.blocks o.blocks = .ok c ∧
      Bitset.Repr (N := N) ⟨c⟩ (List.zipWith g l m) := by
  obtain ⟨c, hc, hcl, hcb⟩ := bit_zip (by omega) hfg (a := a.blocks) (o := o.blocks)
    (by rw [ha.1, ho.1]; exact Nat.le_refl _)
  refine ⟨c, hc, mkSRepr (by simp [hcl, ha.1]) (by simp [ha.len, ho.len]) ?_⟩
  intro i hi
  rw [hcb i (lt_bits ha hi), getD_zipWith _ _ _ (by rw [ha.len, ho.len]) _ (by rw [ha.len]; exact hi),
    ha.bit hi, ho.bit hi]

theorem sexec_refines (op : SOp) {m : Nat → Bitset N} {r : Nat → List Bool}
    (h : ∀ x, (m x).Repr (r x)) {r' : Nat → List Bool}
    (hr : op.spec r = some r') : ∃ m', op.exec m = .ok m' ∧ ∀ x, (m' x).Repr (r' x) := by
  have hw : 0 < 64 := by omega
  cases op with
  | set d i v =>
    simp only [SOp.spec] at hr
    split at hr
    · next hi =>
      cases hr
      rw [(h d).len] at hi
      obtain ⟨c, hc, hcl, hcb⟩ := setBit_ok hw (bs := (m d).blocks) (v := v)
        (by rw [(h d).1]; exact div_lt_numBlocks hw hi)
      refine ⟨upd m d ⟨c⟩, ?_, srepr_upd h ?_⟩
      · simp [SOp.exec, hc, bind, Except.bind, pure, Except.pure]
      · refine mkSRepr (by simp [hcl, (h d).1]) (by simp [(h d).len]) ?_
        intro j hj
        rw [hcb, getD_set _ _ _ _ (by rw [(h d).len]; exact hj)]
        split
        · rfl
        · exact (h d).bit hj
    · cases hr
  | setStr d s =>
    cases hr
    obtain ⟨e, he, hel, heb⟩ := setStrLoop_ok hw s (m d).blocks (min N s.length) (by
      rw [(h d).1]
      have := (numBlocks_mul hw N).1
      omega)
    refine ⟨upd m d ⟨e⟩, ?_, srepr_upd h ?_⟩
    · simp [SOp.exec, Bitset.setStr, he, bind, Except.bind, pure, Except.pure]
    · have hl := (h d).len
      refine mkSRepr (by simp [hel, (h d).1]) (by simp [specBits, hl]; omega) ?_
      intro i hi
      simp only
      rw [heb, getD_append, getD_take, getD_drop, hl]
      have hlen : (List.take N (specBits s)).length = min N s.length := by simp [specBits]
      rw [hlen]
      by_cases h2 : i < min N s.length
      · rw [if_pos h2, if_pos h2, getD_specBits _ _ (by omega)]
        simp [hi]
      · rw [if_neg h2, if_neg h2, (h d).bit hi]
        congr 1; omega
  | reset d =>
    cases hr
    refine ⟨_, rfl, srepr_upd h ?_⟩
    rw [(h d).len]; exact srepr_reset _
  | max d =>
    cases hr
    refine ⟨_, rfl, srepr_upd h ?_⟩
    rw [(h d).len]
    refine mkSRepr (by simp [Bitset.max, Bitset.empty]) (by simp) ?_
    intro i hi
    simp only [Bitset.max]
    rw [bit_map hw (fun _ => BitVec.allOnes 64) (fun _ => true)
      (fun _ r hr => by rw [BitVec.getLsbD_allOnes]; simp [hr])]
    · simp [List.getD_eq_getElem?_getD, List.getElem?_replicate, hi]
    · have := (numBlocks_mul hw N).1
      simp only [Bitset.empty, List.length_replicate]; omega
  | copy d s => cases hr; exact ⟨_, rfl, srepr_upd h (h s)⟩
  | and d s =>
    cases hr
    obtain ⟨c, hc, hcr⟩ := srepr_zip (h d) (h s) (f := (· &&& ·)) (g := (· && ·)) (by simp)
    exact ⟨upd m d ⟨c⟩, by simp [SOp.exec, hc, bind, Except.bind, pure, Except.pure], srepr_upd h hcr⟩
  | or d s =>
    cases hr
    obtain ⟨c, hc, hcr⟩ := srepr_zip (h d) (h s) (f := (· ||| ·)) (g := (· || ·)) (by simp)
    exact ⟨upd m d ⟨c⟩, by simp [SOp.exec, hc, bind, Except.bind, pure, Except.pure], srepr_upd h hcr⟩
  | xor d s =>
    cases hr
    obtain ⟨c, hc, hcr⟩ := srepr_zip (h d) (h s) (f := (· ^^^ ·)) (g := Bool.xor) (by simp)
    exact ⟨upd m d ⟨c⟩, by simp [SOp.exec, hc, bind, Except.bind, pure, Except.pure], srepr_upd h hcr⟩
  | not d s =>
    cases hr
    refine ⟨_, rfl, srepr_upd h ?_⟩
    refine mkSRepr (by simp [notAll, (h s).1]) (by simp [(h s).len]) ?_
    intro i hi
    simp only [notAll]
    rw [bit_map hw _ (fun b => !b) (by intro x r hr; simp [hr]) _ _ (lt_bits (h s) hi),
      getD_map_not _ _ (by rw [(h s).len]; exact hi), (h s).bit hi]
  | shr d k =>
    cases hr
    have hl := (h d).len
    by_cases hk : k < N
    · obtain ⟨c, hc, hcl, hcb⟩ := shr_ok hw (h d).1 hk
      refine ⟨upd m d ⟨c⟩, ?_, srepr_upd h ?_⟩
      · have : ¬ k ≥ N := by omega
        simp [SOp.exec, Bitset.shr, this, hc, bind, Except.bind, pure, Except.pure]
      · refine mkSRepr (by simp [hcl, (h d).1]) (by simp [length_specShr, hl]) ?_
        intro i hi
        simp only
        rw [hcb, getD_specShr]
        by_cases h2 : i + k < N
        · rw [(h d).bit h2]; simp [h2]
        · rw [getD_out (by omega)]; simp [h2]
    · refine ⟨upd m d (m d).reset, ?_, srepr_upd h ?_⟩
      · have : k ≥ N := by omega
        simp [SOp.exec, Bitset.shr, this, bind, Except.bind, pure, Except.pure]
      · have : specShr (r d) k = List.replicate N false := by
          unfold specShr; rw [List.drop_of_length_le (by omega), hl]
          simp; omega
        rw [this]; exact srepr_reset _
  | shl d k =>
    cases hr
    have hl := (h d).len
    by_cases hk : k < N
    · obtain ⟨c, hc, hcl, hcb⟩ := shl_ok hw (shift := k) (bs := (m d).blocks)
        (by rw [(h d).1]; exact div_lt_numBlocks hw hk)
      refine ⟨upd m d ⟨c⟩, ?_, srepr_upd h ?_⟩
      · have : ¬ k ≥ N := by omega
        simp [SOp.exec, Bitset.shl, this, hc, bind, Except.bind, pure, Except.pure]
      · refine mkSRepr (by simp [hcl, (h d).1]) (by simp [length_specShl, hl]) ?_
        intro i hi
        simp only
        rw [hcb i (lt_bits (h d) hi), getD_specShl _ _ _ (by omega), (h d).bit (by omega)]
    · refine ⟨upd m d (m d).reset, ?_, srepr_upd h ?_⟩
      · have : k ≥ N := by omega
        simp [SOp.exec, Bitset.shl, this, bind, Except.bind, pure, Except.pure]
      · have : specShl (r d) k = List.replicate N false := by
          unfold specShl; rw [hl, show N - k = 0 by omega]
          simp; omega
        rw [this]; exact srepr_reset _

theorem runS_refines (ops : List SOp) {m : Nat → Bitset N} {r : Nat → List Bool}
    (h : ∀ x, (m x).Repr (r x)) {r' : Nat → List Bool}
    (hr : specS r ops = some r') : ∃ m', runS m ops = .ok m' ∧ ∀ x, (m' x).Repr (r' x) := by
  induction ops generalizing m r with
  | nil => cases hr; exact ⟨m, rfl, h⟩
  | cons op ops ih =>
    simp only [specS] at hr
    cases hs : op.spec r with
    | none => rw [hs] at hr; cases hr
    | some r1 =>
      rw [hs] at hr
      obtain ⟨m1, hm1, h1⟩ := sexec_refines op h hs
      obtain ⟨m2, hm2, h2⟩ := ih h1 hr
      exact ⟨m2, by simp [runS, hm1, hm2, bind, Except.bind], h2⟩

/-- **C11** For every size `N > 0`, every set of bitsets and every history of
set / set(text) / reset / max / copy / `&=` / `|=` / `^=` / `~` / `>>=` / `<<=` (any shift distance)
with in-range indices: no undefined behaviour, and every observer answers for the array of `N`
booleans the same history produces. -/
theorem C11_history (hN : 0 < N) (ops : List SOp) (r : Nat → List Bool)
    (hr : specS (fun _ => List.replicate N false) ops = some r) :
    ∃ m : Nat → Bitset N, runS (fun _ => Bitset.empty) ops = .ok m ∧
      ∀ x, (r x).length = N ∧
        (∀ i, test N (m x).blocks i = .ok ((r x).getD i false)) ∧
        count N (m x).blocks = .ok ((r x).countP id) ∧
        any N (m x).blocks = .ok (decide (true ∈ r x)) ∧
        forEachSetBit N (m x).blocks = .ok (specSetBits (r x)) ∧
        str N (m x).blocks = .ok (specText (r x)) ∧
        (∀ y, eq N (m x).blocks (m y).blocks = .ok (decide (r x = r y))) ∧
        (∀ y, lt N (m x).blocks (m y).blocks = .ok (decide (natOf (r x) < natOf (r y)))) := by
  have hw : 0 < 64 := by omega
  obtain ⟨m, hm, hrep⟩ := runS_refines ops (m := fun _ => Bitset.empty (N := N))
    (fun _ => srepr_reset Bitset.empty) hr
  refine ⟨m, hm, fun x => ?_⟩
  have hx := hrep x
  have hlen := hx.len
  refine ⟨hlen, ?_, ?_, ?_, ?_, ?_, ?_, ?_⟩
  · intro i; rw [test_eq hw hx.1, hx.2]
  · rw [count_eq hw hx.1 hN, countP_abs, hx.2]
  · obtain ⟨b, hb, hiff⟩ := any_eq hw hx.1 hN
    rw [hb]
    congr 1
    rw [Bool.eq_iff_iff, hiff, decide_eq_true_iff]
    constructor
    · rintro ⟨i, hi, hbit⟩
      rw [hx.bit hi] at hbit
      rw [List.getD_eq_getElem?_getD, List.getElem?_eq_getElem (by omega)] at hbit
      simp at hbit
      rw [← hbit]
      exact List.getElem_mem _
    · intro hmem
      obtain ⟨i, hi, e⟩ := List.getElem_of_mem hmem
      refine ⟨i, by omega, ?_⟩
      rw [hx.bit (by omega)]
      simp [List.getD_eq_getElem?_getD, List.getElem?_eq_getElem hi, e]
  · rw [forEach_eq hw hx.1 hN, filter_abs, hx.2]
  · rw [str_eq hw hx.1, hx.2]; rfl
  · intro y
    rw [eq_eq hw hx.1 (hrep y).1 hN, hx.2, (hrep y).2]
  · intro y
    rw [lt_eq hw hx.1 (hrep y).1 hN, hx.2, (hrep y).2]

/-- Non-vacuity: a history on 70-bit sets. -/
example : ∃ r, specS (fun _ => List.replicate 70 false)
    [.max 0, .set 0 3 false, .shl 1 99, .shr 0 65, .setStr 1 "101".toList, .xor 1 0, .not 2 1] = some r ∧
    (r 1).take 6 = [false, true, false, true, true, false] := ⟨_, rfl, by decide +kernel⟩

/-- `N = 0` is excluded: `bitset<0>` has no block, and these three read the last one. -/
example : count (w := 64) 0 (Bitset.empty (N := 0)).blocks = .error .ub ∧ any (w := 64) 0 (Bitset.empty (N := 0)).blocks = .error .ub ∧
    forEachSetBit (w := 64) 0 (Bitset.empty (N := 0)).blocks = .error .ub ∧
    str (w := 64) 0 (Bitset.empty (N := 0)).blocks = .ok [] := by decide

/-- **C11** the order used by `<` is total: exactly one of `<`, `==`, `>` holds for two lists of the
same length. -/
theorem C11_order_total (a b : List Bool) (h : a.length = b.length) :
    natOf a < natOf b ∨ a = b ∨ natOf b < natOf a := by
  by_cases e : natOf a = natOf b
  · right; left
    apply ext_getD h
    intro i _
    rw [← testBit_natOf, ← testBit_natOf, e]
  · omega

end Cista.Bits
