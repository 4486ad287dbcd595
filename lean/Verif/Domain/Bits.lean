import Verif.Conc.Props

/-!
# bitvec without stray padding bits

The unused bits of the last block ("padding") decide whether `next_set_bit` and `get_next` work (C12, C13).  Here the histories are
singled out that never set them, and everything is shown to hold for these.
-/

namespace Cista.Bits

open Cista.Conc

variable {w : Nat}

/-- The operation does not write past `size()`: it does not shrink and does not write whole blocks, unless the new size fills its last
block. -/
def VOp.Tidy (w : Nat) (m : Nat → List Bool) : VOp → Prop
  | .resize d n => (m d).length ≤ n ∨ n % w = 0
  | .setStr d s => (m d).length ≤ s.length ∨ s.length % w = 0
  | .oneOut d => (m d).length % w = 0
  | .shl d _ => (m d).length % w = 0
  | .max _ n => n % w = 0
  | .not _ s => (m s).length % w = 0
  | _ => True

/-- All operations of a history are tidy, and shift by less than the size. -/
def AllTidy (w : Nat) (m : Nat → List Bool) : List VOp → Prop
  | [] => True
  | op :: ops => op.ShiftInside m ∧ op.Tidy w m ∧ ∀ m', op.spec m = some m' → AllTidy w m' ops

theorem AllTidy.shifts : ∀ {ops : List VOp} {m : Nat → List Bool}, AllTidy w m ops → AllShiftsInside m ops
  | [], _, _ => trivial
  | _ :: _, _, h => ⟨h.1, fun m' e => (h.2.2 m' e).shifts⟩

theorem clean_of_full (hw : 0 < w) {b : Bitvec w} {l : List Bool} (h : b.Repr l) (h0 : l.length % w = 0) : CleanPadding b := by
  intro j hj
  apply bit_out hw
  have h1 : numBlocks w b.size = b.size / w := by rw [h.size]; simp [numBlocks, h0]
  obtain ⟨h2, _⟩ := decomp hw b.size
  rw [h.1, h1]
  have : b.size % w = 0 := by rw [h.size]; exact h0
  omega

theorem clean_upd {m : Nat → Bitvec w} (h : ∀ x, CleanPadding (m x)) {d : Nat} {b : Bitvec w} (hb : CleanPadding b) :
    ∀ x, CleanPadding (upd m d b x) := by
  intro x; unfold upd; split
  · exact hb
  · exact h x

theorem clean_resize (hw : 0 < w) {b c : Bitvec w} {l : List Bool} (h : b.Repr l) (hc : CleanPadding b) {n : Nat} (hn : l.length ≤ n)
    (e : b.resize n = .ok c) : CleanPadding c := by
  unfold Bitvec.resize at e
  split at e
  · cases e; exact hc
  · have hsan : ∃ s : Blocks w, b.resizeSanitize = .ok s ∧ ∀ i, Bits.bit s i = (decide (i < b.size) && Bits.bit b.blocks i) := by
      by_cases hc : b.size ≠ 0 ∧ b.size % w ≠ 0
      · have hpos : 0 < b.blocks.length := by
          rw [h.1]; exact numBlocks_pos hw (by omega)
        refine ⟨sanitized b.size b.blocks, ?_, bit_sanitized hw h.1⟩
        unfold Bitvec.resizeSanitize
        rw [if_pos hc]
        unfold sanitized sanitizedLast
        rw [rd_ok (by omega)]
        simp only [bind, Except.bind, pure, Except.pure]
        rw [wr_ok (by omega), if_pos hc.2]
      · refine ⟨b.blocks, by unfold Bitvec.resizeSanitize; rw [if_neg hc], fun i => ?_⟩
        by_cases hi : i < b.size
        · simp [hi]
        · rw [‹CleanPadding b› i (by omega)]; simp
    obtain ⟨s, hs, hsb⟩ := hsan
    simp only [hs, bind, Except.bind, pure, Except.pure] at e
    cases e
    intro j hj
    simp only at hj ⊢
    have hle : ∀ k, Bits.blk (s.take (numBlocks w n) ++ List.replicate (numBlocks w n - s.length) 0#w) k = Bits.blk s k ∨
        Bits.blk (s.take (numBlocks w n) ++ List.replicate (numBlocks w n - s.length) 0#w) k = 0#w := by
      intro k
      unfold blk
      simp only [List.getD_eq_getElem?_getD, List.getElem?_append, List.getElem?_take, List.getElem?_replicate, List.length_take]
      repeat' split
      all_goals first | exact Or.inl rfl | exact Or.inr rfl | (right; simp)
    have hsz := h.size
    unfold Bits.bit
    rcases hle (j / w) with e | e
    · rw [e]
      have := hsb j
      unfold Bits.bit at this
      rw [this, decide_eq_false (by omega)]
      rfl
    · rw [e]; simp

theorem clean_zip (hw : 0 < w) {a o c : Bitvec w} {l m : List Bool} (ha : a.Repr l) (ho : o.Repr m) (hlen : l.length = m.length)
    (ca : CleanPadding a) (co : CleanPadding o) {f : BitVec w → BitVec w → BitVec w} {g : Bool → Bool → Bool}
    (hfg : ∀ x y r, r < w → (f x y).getLsbD r = g (x.getLsbD r) (y.getLsbD r)) (hg : g false false = false)
    (e : a.zipAssign f o = .ok c) : CleanPadding c := by
  have hs : a.size = o.size := by rw [ha.size, ho.size, hlen]
  obtain ⟨bs, hc, hcl, hcb⟩ := bit_zip hw hfg (a := a.blocks) (o := o.blocks) (by rw [ha.1, ho.1, hs]; exact Nat.le_refl _)
  simp only [Bitvec.zipAssign, hs, hc, bind, Except.bind, pure, Except.pure, verify] at e
  simp at e
  cases e
  intro j hj
  simp only at hj ⊢
  by_cases hj2 : j < a.blocks.length * w
  · rw [hcb j hj2, ca j (by omega), co j (by omega), hg]
  · exact bit_out hw (by rw [hcl]; omega)

/-- Tidy operations leave the padding clean. -/
theorem exec_clean (hw : 0 < w) (op : VOp) {m m' : Nat → Bitvec w} {r r' : Nat → List Bool} (h : ∀ x, (m x).Repr (r x))
    (hc : ∀ x, CleanPadding (m x)) (h' : ∀ x, (m' x).Repr (r' x)) (hsh : op.ShiftInside r) (ht : op.Tidy w r) (hr : op.spec r = some r')
    (e : op.exec m = .ok m') : ∀ x, CleanPadding (m' x) := by
  have full : ∀ d b, m' = upd m d b → (r' d).length % w = 0 → ∀ x, CleanPadding (m' x) := by
    intro d b hm h0
    have h1 := h' d
    subst hm
    refine clean_upd hc (clean_of_full hw (l := r' d) ?_ h0)
    simpa [upd] using h1
  cases op with
  | resize d n =>
    cases hr
    obtain ⟨c, e1, _, _⟩ := repr_resize hw (h d) n
    simp only [VOp.exec, e1, bind, Except.bind, pure, Except.pure] at e
    cases e
    rcases ht with ht | ht
    · exact clean_upd hc (clean_resize hw (h d) (hc d) ht e1)
    · exact full d c rfl (by simp [upd, length_specResize, ht])
  | setStr d s =>
    cases hr
    obtain ⟨c, e1, hcr, hcs⟩ := repr_resize hw (h d) s.length
    obtain ⟨bs, e2, hel, heb⟩ := setStrLoop_ok hw s c.blocks (min c.size s.length) (by
      rw [hcr.1]
      have := (numBlocks_mul hw c.size).1
      omega)
    simp only [VOp.exec, Bitvec.setStr, e1, e2, bind, Except.bind, pure, Except.pure] at e
    cases e
    rcases ht with ht | ht
    · refine clean_upd hc fun j hj => ?_
      simp only at hj ⊢
      rw [heb, if_neg (by omega)]
      exact clean_resize hw (h d) (hc d) ht e1 j hj
    · exact full d _ rfl (by simp [upd, specBits, ht])
  | set d i v =>
    simp only [VOp.spec] at hr
    split at hr
    · next hi =>
      have hi' : i < (m d).size := by rw [(h d).size]; exact hi
      obtain ⟨c, e1, hcl, hcb⟩ := setBit_ok hw (bs := (m d).blocks) (v := v) (by rw [(h d).1]; exact div_lt_numBlocks hw hi')
      simp only [VOp.exec, Bitvec.set, hi', e1, bind, Except.bind, pure, Except.pure, decide_true, verify] at e
      simp at e
      cases e
      refine clean_upd hc fun j hj => ?_
      simp only at hj ⊢
      rw [hcb, if_neg (by omega)]
      exact hc d j hj
    · cases hr
  | zeroOut d =>
    cases e
    refine clean_upd hc fun j _ => ?_
    simp only [Bitvec.zeroOut]
    by_cases hj : j < (m d).blocks.length * w
    · rw [bit_map hw (fun _ => 0#w) (fun _ => false) (by simp) _ _ hj]
    · exact bit_out hw (by simp; omega)
  | oneOut d => cases hr; cases e; exact full d _ rfl (by simpa [upd, VOp.Tidy] using ht)
  | max d n =>
    cases hr
    have h0 : Bitvec.Repr (w := w) Bitvec.empty [] := mkRepr (by simp [Bitvec.empty, numBlocks_zero hw])
      rfl (by intro i hi; simp [Bitvec.empty] at hi)
    obtain ⟨c, e1, _, _⟩ := repr_resize hw h0 n
    simp only [VOp.exec, Bitvec.max, e1, bind, Except.bind, pure, Except.pure] at e
    cases e
    exact full d _ rfl (by simpa [upd, VOp.Tidy] using ht)
  | copy d s => cases e; exact clean_upd hc (hc s)
  | and d s =>
    simp only [VOp.spec] at hr
    split at hr
    · next hl =>
      obtain ⟨c, e1, _⟩ := repr_zip hw (h d) (h s) hl (f := (· &&& ·)) (g := (· && ·)) (by simp)
      simp only [VOp.exec, e1, bind, Except.bind, pure, Except.pure] at e
      cases e
      exact clean_upd hc (clean_zip hw (h d) (h s) hl (hc d) (hc s) (g := (· && ·)) (by simp) rfl e1)
    · cases hr
  | or d s =>
    simp only [VOp.spec] at hr
    split at hr
    · next hl =>
      obtain ⟨c, e1, _⟩ := repr_zip hw (h d) (h s) hl (f := (· ||| ·)) (g := (· || ·)) (by simp)
      simp only [VOp.exec, e1, bind, Except.bind, pure, Except.pure] at e
      cases e
      exact clean_upd hc (clean_zip hw (h d) (h s) hl (hc d) (hc s) (g := (· || ·)) (by simp) rfl e1)
    · cases hr
  | xor d s =>
    simp only [VOp.spec] at hr
    split at hr
    · next hl =>
      obtain ⟨c, e1, _⟩ := repr_zip hw (h d) (h s) hl (f := (· ^^^ ·)) (g := Bool.xor) (by simp)
      simp only [VOp.exec, e1, bind, Except.bind, pure, Except.pure] at e
      cases e
      exact clean_upd hc (clean_zip hw (h d) (h s) hl (hc d) (hc s) (g := Bool.xor) (by simp) rfl e1)
    · cases hr
  | not d s => cases hr; cases e; exact full d _ rfl (by simpa [upd, VOp.Tidy] using ht)
  | shr d k =>
    cases hr
    rcases hsh with hk | h0
    · have hk' : k < (m d).size := by rw [(h d).size]; exact hk
      obtain ⟨c, e1, hcl, hcb⟩ := shr_ok hw (h d).1 hk'
      have : ¬ k ≥ (m d).size := by omega
      simp only [VOp.exec, Bitvec.shr, this, if_false, e1, bind, Except.bind, pure, Except.pure] at e
      cases e
      refine clean_upd hc fun j hj => ?_
      simp only at hj ⊢
      rw [hcb, decide_eq_false (by omega)]
      rfl
    · have : k ≥ (m d).size := by rw [(h d).size]; omega
      simp only [VOp.exec, Bitvec.shr, this, if_true, bind, Except.bind, pure, Except.pure] at e
      cases e
      exact full d _ rfl (by simp [upd, length_specShr, h0])
  | shl d k =>
    cases hr
    simp only [VOp.exec, bind, Except.bind, pure, Except.pure] at e
    split at e
    · cases e
    · cases e
      exact full d _ rfl (by simpa [upd, length_specShl, VOp.Tidy] using ht)

theorem run_clean (hw : 0 < w) (ops : List VOp) {m : Nat → Bitvec w} {r : Nat → List Bool} (h : ∀ x, (m x).Repr (r x))
    (hc : ∀ x, CleanPadding (m x)) (ht : AllTidy w r ops) {r' : Nat → List Bool} (hr : specV r ops = some r') :
    ∃ m', runV m ops = .ok m' ∧ (∀ x, (m' x).Repr (r' x)) ∧ ∀ x, CleanPadding (m' x) := by
  induction ops generalizing m r with
  | nil => cases hr; exact ⟨m, rfl, h, hc⟩
  | cons op ops ih =>
    simp only [specV] at hr
    cases hs : op.spec r with
    | none => rw [hs] at hr; cases hr
    | some r1 =>
      rw [hs] at hr
      obtain ⟨m1, e1, h1⟩ := exec_refines hw op h ht.1 hs
      obtain ⟨m2, e2, h2⟩ := ih h1 (exec_clean hw op h hc h1 ht.1 ht.2.1 hs e1) (ht.2.2 r1 hs) hr
      exact ⟨m2, by simp only [runV, e1, bind, Except.bind, e2], h2⟩

/-- C58: after every tidy history (any block type, any number of bit vectors) all observers answer for the bit list of the
specification, `next_set_bit(i)` returns the first set bit at or after `i` for every `i`, and threads calling `get_next` concurrently
get every set bit, each exactly once. -/
theorem C58_bitvec (hw : 0 < w) (ops : List VOp) (r : Nat → List Bool) (ht : AllTidy w (fun _ => []) ops)
    (hr : specV (fun _ => []) ops = some r) :
    ∃ m : Nat → Bitvec w, runV (fun _ => Bitvec.empty) ops = .ok m ∧ ∀ x,
      ((m x).size = (r x).length ∧ (∀ i, (m x).test i = .ok ((r x).getD i false)) ∧ (m x).count = .ok ((r x).countP id) ∧
        (m x).any = .ok (decide (true ∈ r x)) ∧ (m x).forEachSetBit = .ok (specSetBits (r x)) ∧ (m x).str = .ok (specText (r x)) ∧
        (∀ y, (m x).eq (m y) = .ok (decide (r x = r y))) ∧
        (∀ y, (r x).length = (r y).length → (m x).lt (m y) = .ok (decide (natOf (r x) < natOf (r y))))) ∧
      (∀ i, ∃ k, (m x).nextSetBit i = .ok k ∧ IsNext (r x) i k) ∧
      ∀ evs, ∃ s, nextRun (m x) .init evs = .ok s ∧ (handedOut s.results).Nodup ∧
        (∀ i ∈ handedOut s.results, (r x).getD i false = true) ∧
        ∀ t, (t, none) ∈ s.results → ∀ i, (r x).getD i false = true ↔ i ∈ handedOut s.results := by
  have h0 : ∀ _ : Nat, Bitvec.Repr (w := w) Bitvec.empty [] := fun _ =>
    mkRepr (by simp [Bitvec.empty, numBlocks_zero hw]) rfl (by intro i hi; simp [Bitvec.empty] at hi)
  have c0 : ∀ _ : Nat, CleanPadding (w := w) Bitvec.empty := fun x => clean_of_full hw (h0 x) (by simp)
  obtain ⟨m, hm, hrep, hcl⟩ := run_clean hw ops h0 c0 ht hr
  obtain ⟨m', hm', hobs⟩ := C12_history_partial hw ops r ht.shifts hr
  rw [hm] at hm'
  cases hm'
  refine ⟨m, hm, fun x => ⟨hobs x, fun i => C12_next_set_bit_partial hw (m x) (r x) (hrep x) i (Or.inr (Or.inr (hcl x))), fun evs => ?_⟩⟩
  obtain ⟨s, h1, _, h2, h3, h4⟩ := C13_get_next_partial hw (m x) (r x) (hrep x) (hcl x) evs
  exact ⟨s, h1, h2, h3, h4⟩

/-- A tidy history with a complement of a full vector. -/
example : AllTidy 8 (fun _ => []) [.resize 0 13, .set 0 3 true, .set 0 12 true, .copy 1 0, .shr 1 2, .xor 1 0, .resize 1 16, .not 1 1] ∧
    ∃ r, specV (fun _ => []) [.resize 0 13, .set 0 3 true, .set 0 12 true, .copy 1 0, .shr 1 2, .xor 1 0, .resize 1 16, .not 1 1] = some r ∧
      specSetBits (r 0) = [3, 12] ∧ specSetBits (r 1) = [0, 2, 4, 5, 6, 7, 8, 9, 11, 13, 14, 15] := by
  refine ⟨?_, _, rfl, by decide, by decide⟩
  refine ⟨trivial, Or.inl (by decide), fun _ h => ?_⟩; cases h
  refine ⟨trivial, trivial, fun _ h => ?_⟩; cases h
  refine ⟨trivial, trivial, fun _ h => ?_⟩; cases h
  refine ⟨trivial, trivial, fun _ h => ?_⟩; cases h
  refine ⟨Or.inl (by decide), trivial, fun _ h => ?_⟩; cases h
  refine ⟨trivial, trivial, fun _ h => ?_⟩; cases h
  refine ⟨trivial, Or.inl (by decide), fun _ h => ?_⟩; cases h
  exact ⟨trivial, (by decide : _ % 8 = 0), fun _ _ => trivial⟩

end Cista.Bits
