import Verif.RTree.Model
import Verif.Paged.Hist

/-!
# R-tree: rectangles and operations on one or two nodes
-/
set_option linter.unusedSimpArgs false
set_option linter.unusedSectionVars false

namespace Cista.RTree
open Coord

variable {N T : Type} [Coord N] {D : Nat}

theorem lt_irrefl (a : N) : lt a a = false := by
  cases h : lt a a with
  | false => rfl
  | true => exact absurd (asymm h) (by rw [h]; simp)

theorem contains_iff {a b : Rect N D} :
    a.contains b = true ↔ ∀ i, lt (b.lo i) (a.lo i) = false ∧ lt (a.hi i) (b.hi i) = false := by
  simp [Rect.contains, List.all_eq_true]

theorem intersects_iff {a b : Rect N D} :
    a.intersects b = true ↔ ∀ i, lt (a.hi i) (b.lo i) = false ∧ lt (b.hi i) (a.lo i) = false := by
  simp [Rect.intersects, List.all_eq_true]

theorem contains_refl (a : Rect N D) : a.contains a = true := contains_iff.2 fun i => ⟨lt_irrefl _, lt_irrefl _⟩

theorem contains_trans {a b c : Rect N D} (h1 : a.contains b = true) (h2 : b.contains c = true) : a.contains c = true := by
  rw [contains_iff] at h1 h2 ⊢
  exact fun i => ⟨ntrans (h2 i).1 (h1 i).1, ntrans (h1 i).2 (h2 i).2⟩

theorem expand_left (a b : Rect N D) : (a.expand b).contains a = true := by
  rw [contains_iff]
  intro i
  constructor
  · show lt (a.lo i) (cmin (a.lo i) (b.lo i)) = false
    unfold cmin
    split
    · exact asymm (by assumption)
    · exact lt_irrefl _
  · show lt (cmax (a.hi i) (b.hi i)) (a.hi i) = false
    unfold cmax
    split
    · exact asymm (by assumption)
    · exact lt_irrefl _

theorem expand_right (a b : Rect N D) : (a.expand b).contains b = true := by
  rw [contains_iff]
  intro i
  constructor
  · show lt (b.lo i) (cmin (a.lo i) (b.lo i)) = false
    unfold cmin
    split
    · exact lt_irrefl _
    · rename_i h; simpa using h
  · show lt (cmax (a.hi i) (b.hi i)) (b.hi i) = false
    unfold cmax
    split
    · exact lt_irrefl _
    · rename_i h; simpa using h

theorem expand_least {a b q : Rect N D} (ha : q.contains a = true) (hb : q.contains b = true) : q.contains (a.expand b) = true := by
  rw [contains_iff] at ha hb ⊢
  intro i
  simp only [Rect.expand, cmin, cmax]
  refine ⟨?_, ?_⟩
  · split
    · exact (hb i).1
    · exact (ha i).1
  · split
    · exact (hb i).2
    · exact (ha i).2

theorem intersects_mono {a b r : Rect N D} (h : a.contains b = true) (hi : b.intersects r = true) : a.intersects r = true := by
  rw [contains_iff] at h
  rw [intersects_iff] at hi ⊢
  exact fun i => ⟨ntrans (h i).2 (hi i).1, ntrans (hi i).2 (h i).1⟩

theorem coordEq_contains {a b : Rect N D} (h1 : coordEq a.lo b.lo = true) (h2 : coordEq a.hi b.hi = true) : b.contains a = true := by
  rw [contains_iff]
  intro i
  simp only [coordEq, List.all_eq_true, feq] at h1 h2
  have h1 := h1 i (by simp)
  have h2 := h2 i (by simp)
  simp at h1 h2
  exact ⟨h1.1, h2.2⟩

theorem coordEq_contains' {a b : Rect N D} (h1 : coordEq a.lo b.lo = true) (h2 : coordEq a.hi b.hi = true) : a.contains b = true := by
  rw [contains_iff]
  intro i
  simp only [coordEq, List.all_eq_true, feq] at h1 h2
  have h1 := h1 i (by simp)
  have h2 := h2 i (by simp)
  simp at h1 h2
  exact ⟨h1.2, h2.1⟩

/-! ## Slots -/

theorem live_length {n : Node N T D} (h : n.count ≤ n.slots.length) : (live n).length = n.count := by
  unfold live; simp; omega

theorem live_get {n : Node N T D} {i : Nat} (h : i < n.count) : (live n)[i]? = n.slots[i]? := by
  unfold live; rw [List.getElem?_take_of_lt h]

theorem slotAt_of {n : Node N T D} {i : Nat} {s : Slot N T D} (h : n.slots[i]? = some s) : slotAt n i = .ok s := by
  unfold slotAt; rw [h]

/-- Removing an element by moving the last one to its place. -/
theorem drop_perm {α : Type _} {L : List α} {c i : Nat} {s l : α} (hc : c ≤ L.length) (hi : i < c) (hs : L[i]? = some s)
    (hl : L[c - 1]? = some l) : (s :: (L.set i l).take (c - 1)).Perm (L.take c) := by
  have hP : L.take c = L.take (c - 1) ++ [l] := by
    have : c = (c - 1) + 1 := by omega
    rw [this, List.take_succ]
    rw [show c - 1 + 1 - 1 = c - 1 by omega, hl]; rfl
  rw [hP, List.take_set]
  by_cases hic : i = c - 1
  · have : s = l := by rw [hic, hl] at hs; injection hs with hs; exact hs.symm
    rw [List.set_eq_of_length_le (by simp; omega), this]
    exact (List.perm_append_singleton l _).symm
  · have hlen : i < (L.take (c - 1)).length := by simp; omega
    have h1 := Paged.set_perm hlen l
    have hg : (L.take (c - 1))[i]? = some s := by rw [List.getElem?_take_of_lt (by omega)]; exact hs
    have h2 := Paged.getElem?_perm hg
    refine (h1.cons s).trans ((List.Perm.swap l s _).trans ?_)
    exact ((h2.symm).cons l).trans (List.perm_append_singleton l _).symm

theorem dropSlot_ok {n : Node N T D} {i : Nat} {s : Slot N T D} (hc : n.count ≤ n.slots.length) (hi : i < n.count)
    (hs : n.slots[i]? = some s) : ∃ n1, dropSlot n i = .ok n1 ∧ n1.kind = n.kind ∧ n1.slots.length = n.slots.length ∧
      n1.count + 1 = n.count ∧ (s :: live n1).Perm (live n) := by
  have hl : n.slots[n.count - 1]? = some (n.slots[n.count - 1]'(by omega)) := List.getElem?_eq_getElem (by omega)
  unfold dropSlot
  rw [hl]
  simp only
  rw [if_pos ⟨by omega, by omega⟩]
  exact ⟨_, rfl, rfl, by simp, by simp; omega, drop_perm hc hi hs hl⟩

theorem moveInto_ok {a b : Node N T D} {i : Nat} {s : Slot N T D} (ha : a.count ≤ a.slots.length) (hi : i < a.count)
    (hs : a.slots[i]? = some s) (hb : b.count < b.slots.length) :
    ∃ a1 b1, moveInto i a b = .ok (a1, b1) ∧ a1.kind = a.kind ∧ b1.kind = b.kind ∧ a1.slots.length = a.slots.length ∧
      b1.slots.length = b.slots.length ∧ a1.count + 1 = a.count ∧ b1.count = b.count + 1 ∧
      (live a1 ++ live b1).Perm (live a ++ live b) := by
  have hl : a.slots[a.count - 1]? = some (a.slots[a.count - 1]'(by omega)) := List.getElem?_eq_getElem (by omega)
  unfold moveInto
  rw [hs, hl]
  simp only
  rw [if_pos ⟨hb, by omega⟩]
  refine ⟨_, _, rfl, rfl, rfl, by simp, by simp, by simp; omega, rfl, ?_⟩
  have h1 := drop_perm ha hi hs hl
  have h2 : (b.slots.set b.count s).take (b.count + 1) = b.slots.take b.count ++ [s] := by
    rw [List.take_succ, List.getElem?_set_self hb, List.take_set_of_le (Nat.le_refl _)]; rfl
  show ((a.slots.set i _).take (a.count - 1) ++ (b.slots.set b.count s).take (b.count + 1)).Perm (a.slots.take a.count ++ b.slots.take b.count)
  rw [h2, ← List.append_assoc]
  refine (List.perm_append_singleton s _).trans ?_
  rw [← List.cons_append]
  exact h1.append_right _

theorem appendSlot_ok {n : Node N T D} (s : Slot N T D) (h : n.count < n.slots.length) :
    ∃ n1, appendSlot n s = .ok n1 ∧ n1.kind = n.kind ∧ n1.slots.length = n.slots.length ∧ n1.count = n.count + 1 ∧
      live n1 = live n ++ [s] := by
  unfold appendSlot
  rw [if_pos h]
  refine ⟨_, rfl, rfl, by simp, rfl, ?_⟩
  show (n.slots.set n.count s).take (n.count + 1) = _
  rw [List.take_succ, List.getElem?_set_self h, List.take_set_of_le (Nat.le_refl _)]; rfl

/-! ## Sorting permutes -/

theorem swap_ok {L : List (Slot N T D)} {i j c : Nat} (hi : i < c) (hj : j < c) (hc : c ≤ L.length) :
    ∃ L', swap L i j = .ok L' ∧ L'.length = L.length ∧ (L'.take c).Perm (L.take c) ∧
      L'[j]? = L[i]? ∧ (∀ x, x ≠ i → x ≠ j → L'[x]? = L[x]?) := by
  have hgi : L[i]? = some (L[i]'(by omega)) := List.getElem?_eq_getElem (by omega)
  have hgj : L[j]? = some (L[j]'(by omega)) := List.getElem?_eq_getElem (by omega)
  unfold swap
  rw [hgi, hgj]
  refine ⟨_, rfl, by simp, ?_, ?_, ?_⟩
  · rw [List.take_set, List.take_set]
    have hl : (L.take c).length = c := by simp; omega
    have h1 : (L.take c)[i]? = some (L[i]'(by omega)) := by rw [List.getElem?_take_of_lt hi]; exact hgi
    have h2 : (L.take c)[j]? = some (L[j]'(by omega)) := by rw [List.getElem?_take_of_lt hj]; exact hgj
    generalize L[i]'(by omega) = a at *
    generalize L[j]'(by omega) = b at *
    generalize L.take c = P at *
    -- (P.set i b).set j a
    have e1 := Paged.set_perm (l := P.set i b) (i := j) (by simp; omega) a
    have e2 : ((P.set i b).set i b).Perm (b :: (P.set i b).eraseIdx i) := Paged.set_perm (by simp; omega) b
    by_cases hij : i = j
    · subst hij
      rw [h1] at h2; injection h2 with h2; subst h2
      rw [List.set_set]
      have e3 := Paged.set_perm (l := P) (i := i) (by omega) a
      exact e3.trans (Paged.getElem?_perm h1).symm
    · have hj' : (P.set i b)[j]? = some b := by rw [List.getElem?_set_ne hij]; exact h2
      have e3 := Paged.getElem?_perm hj'
      have e4 := Paged.set_perm (l := P) (i := i) (by omega) b
      have e5 := Paged.getElem?_perm h1
      -- b :: erase j ~ b :: P.erase i
      have e6 : ((P.set i b).eraseIdx j).Perm (P.eraseIdx i) := (e3.symm.trans e4).cons_inv
      exact e1.trans ((e6.cons a).trans e5.symm)
  · rw [List.getElem?_set_self (by simp; omega)]
  · intro x h1 h2
    rw [List.getElem?_set_ne (fun h => h2 h.symm), List.getElem?_set_ne (fun h => h1 h.symm)]

theorem before_irrefl (ax : Fin D) (mx rev : Bool) (a : Slot N T D) : before ax mx rev a a = false := by
  unfold before; split <;> exact lt_irrefl _

theorem qpart_ok (ax : Fin D) (mx rev : Bool) {start right c : Nat} (hc : start + right < c) :
    ∀ (n i left : Nat) (L : List (Slot N T D)), left ≤ i → left ≤ right → i + n = right + 1 → c ≤ L.length →
      ∃ L' left', qpart ax mx rev start right n i left L = .ok (L', left') ∧ left' ≤ right ∧ L'.length = L.length ∧
        (L'.take c).Perm (L.take c)
  | 0, i, left, L, h1, h2, h3, h4 => ⟨L, left, rfl, h2, rfl, List.Perm.refl _⟩
  | n + 1, i, left, L, h1, h2, h3, h4 => by
    have ha : L[start + i]? = some (L[start + i]'(by omega)) := List.getElem?_eq_getElem (by omega)
    have hp : L[start + right]? = some (L[start + right]'(by omega)) := List.getElem?_eq_getElem (by omega)
    unfold qpart
    rw [ha, hp]
    simp only
    by_cases hb : before ax mx rev (L[start + i]'(by omega)) (L[start + right]'(by omega)) = true
    · rw [if_pos hb]
      have hne : i ≠ right := by
        intro h; subst h
        rw [before_irrefl] at hb; cases hb
      obtain ⟨L1, e1, e2, e3, _, _⟩ := swap_ok (L := L) (i := start + i) (j := start + left) (c := c) (by omega) (by omega) h4
      rw [e1, ok_bind]
      obtain ⟨L2, l2, e4, e5, e6, e7⟩ := qpart_ok ax mx rev hc n (i + 1) (left + 1) L1 (by omega) (by omega) (by omega) (by omega)
      exact ⟨L2, l2, e4, e5, by omega, e7.trans e3⟩
    · rw [if_neg hb]
      exact qpart_ok ax mx rev hc n (i + 1) left L (by omega) h2 (by omega) h4

theorem qsort_ok (ax : Fin D) (mx rev : Bool) {c : Nat} :
    ∀ (f start stop : Nat) (L : List (Slot N T D)), stop ≤ c → c ≤ L.length → stop - start < f →
      ∃ L', qsort ax mx rev f start stop L = .ok L' ∧ L'.length = L.length ∧ (L'.take c).Perm (L.take c)
  | 0, start, stop, L, h1, h2, h3 => by omega
  | f + 1, start, stop, L, h1, h2, h3 => by
    unfold qsort
    by_cases hlt : stop - start < 2
    · rw [if_pos hlt]; exact ⟨L, rfl, rfl, List.Perm.refl _⟩
    · rw [if_neg hlt]
      have hd : (stop - start) / 2 < stop - start := Nat.div_lt_self (by omega) (by omega)
      obtain ⟨L1, e1, l1, p1, _, _⟩ := swap_ok (L := L) (i := start + (stop - start) / 2) (j := start + (stop - start - 1)) (c := c)
        (by omega) (by omega) h2
      rw [e1, ok_bind]
      obtain ⟨L2, left, e2, hleft, l2, p2⟩ := qpart_ok ax mx rev (start := start) (right := stop - start - 1) (c := c) (by omega)
        (stop - start) 0 0 L1 (Nat.le_refl _) (Nat.zero_le _) (by omega) (by omega)
      rw [e2, ok_bind]
      simp only
      obtain ⟨L3, e3, l3, p3, _, _⟩ := swap_ok (L := L2) (i := start + left) (j := start + (stop - start - 1)) (c := c)
        (by omega) (by omega) (by omega)
      rw [e3, ok_bind]
      obtain ⟨L4, e4, l4, p4⟩ := qsort_ok ax mx rev (c := c) f start (start + left) L3 (by omega) (by omega) (by omega)
      rw [e4, ok_bind]
      obtain ⟨L5, e5, l5, p5⟩ := qsort_ok ax mx rev (c := c) f (start + left + 1) stop L4 h1 (by omega) (by omega)
      exact ⟨L5, e5, by omega, p5.trans (p4.trans (p3.trans (p2.trans p1)))⟩

theorem sortByAxis_ok {n : Node N T D} (h : n.count ≤ n.slots.length) (ax : Fin D) (rev mx : Bool) :
    ∃ n1, sortByAxis n ax rev mx = .ok n1 ∧ n1.kind = n.kind ∧ n1.slots.length = n.slots.length ∧ n1.count = n.count ∧
      (live n1).Perm (live n) := by
  obtain ⟨L, e, l, p⟩ := qsort_ok ax mx rev (c := n.count) (n.count + 1) 0 n.count n.slots (by omega) h (by omega)
  unfold sortByAxis
  rw [e, ok_bind]
  exact ⟨_, rfl, rfl, l, rfl, p⟩

/-! ## Splitting a full node -/

/-- The entries of two nodes are redistributed. -/
structure Redist (M : Nat) (a b a1 b1 : Node N T D) : Prop where
  ka : a1.kind = a.kind
  kb : b1.kind = b.kind
  la : a1.slots.length = M
  lb : b1.slots.length = M
  cnt : a1.count + b1.count = a.count + b.count
  perm : (live a1 ++ live b1).Perm (live a ++ live b)

theorem Redist.trans {M : Nat} {a b a1 b1 a2 b2 : Node N T D} (h : Redist M a b a1 b1) (g : Redist M a1 b1 a2 b2) :
    Redist M a b a2 b2 :=
  ⟨g.ka.trans h.ka, g.kb.trans h.kb, g.la, g.lb, g.cnt.trans h.cnt, g.perm.trans h.perm⟩

theorem splitLoop_ok {M : Nat} (r : Rect N D) (ax : Fin D) : ∀ (f i : Nat) (a b : Node N T D), a.slots.length = M →
    b.slots.length = M → a.count + b.count = M → a.count - i < f →
    ∃ a1 b1, splitLoop r ax f i a b = .ok (a1, b1) ∧ Redist M a b a1 b1
  | 0, i, a, b, h1, h2, h3, h4 => by omega
  | f + 1, i, a, b, h1, h2, h3, h4 => by
    unfold splitLoop
    by_cases hi : i < a.count
    · rw [if_pos hi]
      have hs : a.slots[i]? = some (a.slots[i]'(by omega)) := List.getElem?_eq_getElem (by omega)
      rw [slotAt_of hs, ok_bind]
      by_cases ht : toRight r ax (a.slots[i]'(by omega)) = true
      · rw [if_pos ht]
        obtain ⟨a1, b1, e, k1, k2, l1, l2, c1, c2, p⟩ := moveInto_ok (b := b) (by omega) hi hs (by omega)
        rw [e, ok_bind]
        obtain ⟨a2, b2, e2, hr⟩ := splitLoop_ok (M := M) r ax f i a1 b1 (by omega) (by omega) (by omega) (by omega)
        exact ⟨a2, b2, e2, Redist.trans ⟨k1, k2, by omega, by omega, by omega, p⟩ hr⟩
      · rw [if_neg ht]
        exact splitLoop_ok r ax f (i + 1) a b h1 h2 h3 (by omega)
    · rw [if_neg hi]
      exact ⟨a, b, rfl, rfl, rfl, h1, h2, rfl, List.Perm.refl _⟩

theorem refill_ok {M m : Nat} : ∀ (f : Nat) (a b : Node N T D), a.slots.length = M → b.slots.length = M → a.count + b.count = M →
    b.count < m → m < M → m - b.count < f →
    ∃ a1 b1, refill m f a b = .ok (a1, b1) ∧ Redist M a b a1 b1 ∧ b1.count = m
  | 0, a, b, h1, h2, h3, h4, h5, h6 => by omega
  | f + 1, a, b, h1, h2, h3, h4, h5, h6 => by
    unfold refill
    have hs : a.slots[a.count - 1]? = some (a.slots[a.count - 1]'(by omega)) := List.getElem?_eq_getElem (by omega)
    obtain ⟨a1, b1, e, k1, k2, l1, l2, c1, c2, p⟩ := moveInto_ok (b := b) (by omega) (by omega) hs (by omega)
    rw [e, ok_bind]
    have hr : Redist M a b a1 b1 := ⟨k1, k2, by omega, by omega, by omega, p⟩
    simp only
    by_cases hb : b1.count < m
    · rw [if_pos hb]
      obtain ⟨a2, b2, e2, hr2, hc2⟩ := refill_ok f a1 b1 (by omega) (by omega) (by omega) hb h5 (by omega)
      exact ⟨a2, b2, e2, hr.trans hr2, hc2⟩
    · rw [if_neg hb]
      exact ⟨a1, b1, rfl, hr, by omega⟩

theorem minItems_bounds {M : Nat} (h : 2 ≤ M) : 1 ≤ minItems M ∧ 2 * minItems M ≤ M := by
  unfold minItems; omega

theorem balance_ok {M : Nat} (hM : 2 ≤ M) (ax : Fin D) {a b : Node N T D} (h1 : a.slots.length = M) (h2 : b.slots.length = M)
    (h3 : a.count + b.count = M) : ∃ a1 b1, balance M ax a b = .ok (a1, b1) ∧ Redist M a b a1 b1 ∧
      minItems M ≤ a1.count ∧ minItems M ≤ b1.count := by
  have hm := minItems_bounds hM
  unfold balance
  by_cases hA : a.count < minItems M
  · rw [if_pos hA]
    obtain ⟨b1, e1, k1, l1, c1, p1⟩ := sortByAxis_ok (n := b) (by omega) ax true false
    rw [e1, ok_bind]
    obtain ⟨b2, a2, e2, hr, hc⟩ := refill_ok (m := minItems M) (M + 1) b1 a (by omega) h1 (by omega) hA (by omega) (by omega)
    rw [e2, ok_bind]
    have := hr.cnt
    refine ⟨a2, b2, rfl, ⟨hr.kb, hr.ka.trans k1, hr.lb, hr.la, by omega, ?_⟩, by omega, by omega⟩
    exact (List.perm_append_comm.trans (hr.perm.trans (p1.append_right _))).trans List.perm_append_comm
  · rw [if_neg hA]
    by_cases hB : b.count < minItems M
    · rw [if_pos hB]
      obtain ⟨a1, e1, k1, l1, c1, p1⟩ := sortByAxis_ok (n := a) (by omega) ax true true
      rw [e1, ok_bind]
      obtain ⟨a2, b2, e2, hr, hc⟩ := refill_ok (m := minItems M) (M + 1) a1 b (by omega) h2 (by omega) hB (by omega) (by omega)
      have := hr.cnt
      exact ⟨a2, b2, e2, ⟨hr.ka.trans k1, hr.kb, hr.la, hr.lb, by omega, hr.perm.trans (p1.append_right _)⟩, by omega, by omega⟩
    · rw [if_neg hB]
      exact ⟨a, b, rfl, ⟨rfl, rfl, h1, h2, rfl, List.Perm.refl _⟩, by omega, by omega⟩

theorem finalSort_ok [NeZero D] {M : Nat} {a b : Node N T D} (h1 : a.slots.length = M) (h2 : b.slots.length = M)
    (h3 : a.count + b.count = M) : ∃ a1 b1, finalSort a b = .ok (a1, b1) ∧ Redist M a b a1 b1 ∧ a1.count = a.count ∧ b1.count = b.count := by
  unfold finalSort
  by_cases hk : a.kind = .branch
  · rw [if_pos hk]
    obtain ⟨a1, e1, k1, l1, c1, p1⟩ := sortByAxis_ok (n := a) (by omega) 0 true false
    obtain ⟨b1, e2, k2, l2, c2, p2⟩ := sortByAxis_ok (n := b) (by omega) 0 true false
    rw [e1, ok_bind, e2, ok_bind]
    exact ⟨a1, b1, rfl, ⟨k1, k2, by omega, by omega, by omega, p1.append p2⟩, c1, c2⟩
  · rw [if_neg hk]
    exact ⟨a, b, rfl, ⟨rfl, rfl, h1, h2, rfl, List.Perm.refl _⟩, rfl, rfl⟩

/-- The part of `node_split` after the allocation. -/
theorem splitCore [NeZero D] {M : Nat} (hM : 2 ≤ M) (r : Rect N D) {a b : Node N T D} (h1 : a.slots.length = M)
    (h2 : b.slots.length = M) (h3 : a.count = M) (h4 : b.count = 0) :
    ∃ a1 b1 a2 b2 a3 b3, splitLoop r r.largestAxis (2 * M + 1) 0 a b = .ok (a1, b1) ∧ balance M r.largestAxis a1 b1 = .ok (a2, b2) ∧
      finalSort a2 b2 = .ok (a3, b3) ∧ Redist M a b a3 b3 ∧ minItems M ≤ a3.count ∧ minItems M ≤ b3.count := by
  obtain ⟨a1, b1, e1, r1⟩ := splitLoop_ok (M := M) r r.largestAxis (2 * M + 1) 0 a b h1 h2 (by omega) (by omega)
  have c1 := r1.cnt
  obtain ⟨a2, b2, e2, r2, m1, m2⟩ := balance_ok hM r.largestAxis r1.la r1.lb (by omega)
  have c2 := r2.cnt
  obtain ⟨a3, b3, e3, r3, c3, c4⟩ := finalSort_ok r2.la r2.lb (by omega)
  exact ⟨a1, b1, a2, b2, a3, b3, e1, e2, e3, (r1.trans r2).trans r3, by omega, by omega⟩

/-! ## Bounding boxes -/

theorem foldl_expand_contains (L : List (Slot N T D)) : ∀ (r : Rect N D),
    (L.foldl (fun r s => r.expand s.1) r).contains r = true ∧ ∀ s ∈ L, (L.foldl (fun r s => r.expand s.1) r).contains s.1 = true := by
  induction L with
  | nil => exact fun r => ⟨contains_refl r, fun s hs => by cases hs⟩
  | cons x L ih =>
    intro r
    obtain ⟨h1, h2⟩ := ih (r.expand x.1)
    refine ⟨contains_trans h1 (expand_left _ _), fun s hs => ?_⟩
    rcases List.mem_cons.1 hs with rfl | hs
    · exact contains_trans h1 (expand_right _ _)
    · exact h2 s hs

theorem boundingBox_ok {n : Node N T D} (h : 0 < n.slots.length) :
    ∃ b, boundingBox n = .ok b ∧ ∀ s ∈ live n, b.contains s.1 = true := by
  unfold boundingBox
  have hs : n.slots[0]? = some (n.slots[0]'h) := List.getElem?_eq_getElem h
  rw [slotAt_of hs, ok_bind]
  refine ⟨_, rfl, fun s hm => ?_⟩
  obtain ⟨h1, h2⟩ := foldl_expand_contains (live n).tail (n.slots[0]'h).1
  cases hl : live n with
  | nil => rw [hl] at hm; cases hm
  | cons x L =>
    rw [hl] at hm
    rw [hl] at h1 h2
    rcases List.mem_cons.1 hm with rfl | hm
    · have hx : n.slots[0]? = some s := by
        have : (live n)[0]? = some s := by rw [hl]; rfl
        unfold live at this
        rw [List.getElem?_take] at this
        split at this
        · exact this
        · cases this
      rw [hs] at hx; injection hx with hx
      rw [← hx]; rw [hx] at h1 ⊢; exact h1
    · exact h2 s hm

/-- A rectangle that contains the rectangles of a node contains the bounding box. -/
theorem boundingBox_least {n : Node N T D} {b : Rect N D} (h : boundingBox n = .ok b) (h0 : live n ≠ []) {q : Rect N D}
    (hq : ∀ s ∈ live n, q.contains s.1 = true) : q.contains b = true := by
  have key : ∀ (L : List (Slot N T D)) (r : Rect N D), q.contains r = true → (∀ s ∈ L, q.contains s.1 = true) →
      q.contains (L.foldl (fun r s => r.expand s.1) r) = true := by
    intro L
    induction L with
    | nil => exact fun r hr _ => hr
    | cons x L ih => exact fun r hr hL => ih _ (expand_least hr (hL x (by simp))) fun s hs => hL s (by simp [hs])
  unfold boundingBox at h
  cases hl : live n with
  | nil => exact absurd hl h0
  | cons x L =>
    have hx : n.slots[0]? = some x := by
      have : (live n)[0]? = some x := by rw [hl]; rfl
      unfold live at this
      rw [List.getElem?_take] at this
      split at this
      · exact this
      · cases this
    rw [slotAt_of hx, ok_bind, hl] at h
    injection h with h
    rw [← h]
    rw [hl] at hq
    exact key L x.1 (hq x (by simp)) fun s hs => hq s (by simp [hs])

/-! ## Choosing a child -/

theorem leastLoop_bound (r : Rect N D) : ∀ (L : List (Slot N T D)) (i j : Nat) (je : N) (c : Nat), j < c → i + L.length ≤ c →
    leastLoop r L i j je < c
  | [], i, j, je, c, h1, h2 => h1
  | s :: L, i, j, je, c, h1, h2 => by
    rw [List.length_cons] at h2
    unfold leastLoop
    split
    · exact leastLoop_bound r L _ _ _ c (by omega) (by omega)
    · exact leastLoop_bound r L _ _ _ c h1 (by omega)

theorem chooseSlow_bound {n : Node N T D} (r : Rect N D) (h : n.count ≤ n.slots.length) (h0 : 1 ≤ n.count) : chooseSlow n r < n.count := by
  unfold chooseSlow
  have hl := live_length h
  split
  · rename_i i hi
    have := (List.findIdx?_eq_some_iff_findIdx_eq.1 hi).1
    omega
  · exact leastLoop_bound r _ 0 0 _ _ (by omega) (by omega)

theorem hinted_ok {n : Node N T D} (hd : Nat) (r : Rect N D) (h : n.count ≤ n.slots.length) :
    ∃ b, hinted n hd r = .ok b ∧ (b = true → hd < n.count ∧ ∃ s, n.slots[hd]? = some s ∧ s.1.contains r = true) := by
  unfold hinted
  by_cases hh : hd < n.count
  · rw [if_pos hh]
    have hs : n.slots[hd]? = some (n.slots[hd]'(by omega)) := List.getElem?_eq_getElem (by omega)
    rw [slotAt_of hs, ok_bind]
    exact ⟨_, rfl, fun hb => ⟨hh, _, hs, hb⟩⟩
  · rw [if_neg hh]
    exact ⟨false, rfl, fun h => by cases h⟩

theorem nodeChoose_ok {st : RT N T D} {n : Node N T D} (r : Rect N D) {d : Nat} (hd : d < st.hint.length)
    (h : n.count ≤ n.slots.length) (h0 : 1 ≤ n.count) :
    ∃ hint i, nodeChoose st n r d = .ok ({ st with hint := hint }, i) ∧ hint.length = st.hint.length ∧ i < n.count := by
  unfold nodeChoose hintAt
  have : st.hint[d]? = some st.hint[d] := List.getElem?_eq_getElem hd
  rw [this]
  simp only
  rw [ok_bind]
  obtain ⟨b, e, hb⟩ := hinted_ok st.hint[d] r h
  rw [e, ok_bind]
  cases b with
  | true => exact ⟨st.hint, _, rfl, rfl, (hb rfl).1⟩
  | false => exact ⟨_, _, rfl, by simp, chooseSlow_bound r h h0⟩

end Cista.RTree
