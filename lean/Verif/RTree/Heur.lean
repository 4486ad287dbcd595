import Verif.RTree.Props

/-!
# R-tree: how entries are placed

Sorting along an axis, the longest axis, the child that needs the least enlargement, and where a split puts the entries.
-/
set_option linter.unusedSimpArgs false

namespace Cista.RTree
open Coord

variable {N T : Type} [Coord N] {D : Nat}

/-! ## Sorting -/

/-- `L'` differs from `L` within `[a, b)` only, and holds there nothing that `L` does not hold there. -/
structure Within (a b : Nat) (L L' : List (Slot N T D)) : Prop where
  len : L'.length = L.length
  out : ∀ x, x < a ∨ b ≤ x → L'[x]? = L[x]?
  inn : ∀ x, a ≤ x → x < b → ∃ y, a ≤ y ∧ y < b ∧ L'[x]? = L[y]?

theorem Within.refl (a b : Nat) (L : List (Slot N T D)) : Within a b L L := ⟨rfl, fun _ _ => rfl, fun x h1 h2 => ⟨x, h1, h2, rfl⟩⟩

theorem Within.trans {a b : Nat} {L L1 L2 : List (Slot N T D)} (h : Within a b L L1) (g : Within a b L1 L2) : Within a b L L2 :=
  ⟨g.len.trans h.len, fun x hx => (g.out x hx).trans (h.out x hx), fun x h1 h2 => by
    obtain ⟨y, q1, q2, q3⟩ := g.inn x h1 h2
    obtain ⟨z, r1, r2, r3⟩ := h.inn y q1 q2
    exact ⟨z, r1, r2, q3.trans r3⟩⟩

theorem Within.mono {a b a' b' : Nat} {L L' : List (Slot N T D)} (h : Within a b L L') (ha : a' ≤ a) (hb : b ≤ b') : Within a' b' L L' :=
  ⟨h.len, fun x hx => h.out x (by omega), fun x h1 h2 => by
    by_cases hx : x < a ∨ b ≤ x
    · exact ⟨x, h1, h2, h.out x hx⟩
    · obtain ⟨y, q1, q2, q3⟩ := h.inn x (by omega) (by omega)
      exact ⟨y, by omega, by omega, q3⟩⟩

theorem swap_within {L L' : List (Slot N T D)} {i j a b : Nat} (h : swap L i j = .ok L') (hi : a ≤ i ∧ i < b) (hj : a ≤ j ∧ j < b) :
    Within a b L L' ∧ L'[j]? = L[i]? ∧ L'[i]? = L[j]? ∧ ∀ x, x ≠ i → x ≠ j → L'[x]? = L[x]? := by
  unfold swap at h
  cases hgi : L[i]? with
  | none => rw [hgi] at h; cases h
  | some p =>
    cases hgj : L[j]? with
    | none => rw [hgi, hgj] at h; cases h
    | some q =>
      rw [hgi, hgj] at h
      injection h with h
      subst h
      have li : i < L.length := (List.getElem?_eq_some_iff.1 hgi).1
      have lj : j < L.length := (List.getElem?_eq_some_iff.1 hgj).1
      have e1 : ((L.set i q).set j p)[j]? = some p := List.getElem?_set_self (by simpa using lj)
      have e2 : ((L.set i q).set j p)[i]? = some q := by
        by_cases hij : i = j
        · subst hij
          rw [e1]
          rw [hgi] at hgj
          exact hgj
        · rw [List.getElem?_set_ne (fun h => hij h.symm), List.getElem?_set_self li]
      have e3 : ∀ x, x ≠ i → x ≠ j → ((L.set i q).set j p)[x]? = L[x]? := fun x h1 h2 => by
        rw [List.getElem?_set_ne (fun h => h2 h.symm), List.getElem?_set_ne (fun h => h1 h.symm)]
      refine ⟨⟨by simp, fun x hx => e3 x (by omega) (by omega), fun x h1 h2 => ?_⟩, e1, e2, e3⟩
      by_cases hxj : x = j
      · subst hxj; exact ⟨i, hi.1, hi.2, by rw [e1, hgi]⟩
      · by_cases hxi : x = i
        · subst hxi; exact ⟨j, hj.1, hj.2, by rw [e2, hgj]⟩
        · exact ⟨x, h1, h2, e3 x hxi hxj⟩

theorem before_asymm {ax : Fin D} {mx rev : Bool} {a b : Slot N T D} (h : before ax mx rev a b = true) : before ax mx rev b a = false := by
  unfold before at *
  split at h
  · rename_i hr; rw [if_pos hr]; exact asymm h
  · rename_i hr; rw [if_neg hr]; exact asymm h

theorem before_ntrans {ax : Fin D} {mx rev : Bool} {a b c : Slot N T D} (h1 : before ax mx rev a b = false)
    (h2 : before ax mx rev b c = false) : before ax mx rev a c = false := by
  unfold before at *
  split at h1
  · rename_i hr; rw [if_pos hr] at h2 ⊢; exact ntrans h2 h1
  · rename_i hr; rw [if_neg hr] at h2 ⊢; exact ntrans h1 h2

theorem qpart_spec (ax : Fin D) (mx rev : Bool) {start right : Nat} {p : Slot N T D} :
    ∀ (n i left : Nat) (L L' : List (Slot N T D)) (left' : Nat), qpart ax mx rev start right n i left L = .ok (L', left') →
      left ≤ i → left ≤ right → i + n = right + 1 → L[start + right]? = some p →
      (∀ x, x < left → ∀ s, L[start + x]? = some s → before ax mx rev s p = true) →
      (∀ x, left ≤ x → x < i → ∀ s, L[start + x]? = some s → before ax mx rev s p = false) →
      Within start (start + right + 1) L L' ∧ left' ≤ right ∧ L'[start + right]? = some p ∧
      (∀ x, x < left' → ∀ s, L'[start + x]? = some s → before ax mx rev s p = true) ∧
      (∀ x, left' ≤ x → x ≤ right → ∀ s, L'[start + x]? = some s → before ax mx rev s p = false)
  | 0, i, left, L, L', left', h, h1, h2, h3, hp, hl, hr => by
    unfold qpart at h
    injection h with h
    injection h with h h'
    subst h; subst h'
    exact ⟨.refl _ _ _, h2, hp, hl, fun x q1 q2 => hr x q1 (by omega)⟩
  | n + 1, i, left, L, L', left', h, h1, h2, h3, hp, hl, hr => by
    unfold qpart at h
    cases ha : L[start + i]? with
    | none => rw [ha] at h; cases h
    | some a =>
      rw [ha, hp] at h
      simp only at h
      by_cases hb : before ax mx rev a p = true
      · rw [if_pos hb] at h
        have hne : i ≠ right := by
          rintro rfl
          rw [hp] at ha
          injection ha with ha
          subst ha
          rw [before_irrefl] at hb
          cases hb
        cases hs : swap L (start + i) (start + left) with
        | error e => rw [hs, error_bind] at h; cases h
        | ok L1 =>
          rw [hs, ok_bind] at h
          obtain ⟨w, e1, e2, e3⟩ := swap_within (a := start) (b := start + right + 1) hs ⟨by omega, by omega⟩ ⟨by omega, by omega⟩
          obtain ⟨w', r1, r2, r3, r4⟩ := qpart_spec ax mx rev (p := p) n (i + 1) (left + 1) L1 L' left' h (by omega) (by omega) (by omega)
            (by rw [e3 _ (by omega) (by omega)]; exact hp)
            (fun x hx s hs' => by
              by_cases hxl : x = left
              · subst hxl
                rw [e1, ha] at hs'
                injection hs' with hs'
                subst hs'
                exact hb
              · rw [e3 _ (by omega) (by omega)] at hs'
                exact hl x (by omega) s hs')
            (fun x q1 q2 s hs' => by
              by_cases hxi : x = i
              · subst hxi
                rw [e2] at hs'
                exact hr left (Nat.le_refl _) (by omega) s hs'
              · rw [e3 _ (by omega) (by omega)] at hs'
                exact hr x (by omega) (by omega) s hs')
          exact ⟨w.trans w', r1, r2, r3, r4⟩
      · rw [if_neg hb] at h
        refine qpart_spec ax mx rev (p := p) n (i + 1) left L L' left' h (by omega) h2 (by omega) hp hl fun x q1 q2 s hs' => ?_
        by_cases hxi : x = i
        · subst hxi
          rw [ha] at hs'
          injection hs' with hs'
          subst hs'
          simpa using hb
        · exact hr x q1 (by omega) s hs'

/-- The slots `[a, b)` are sorted. -/
def Sorted (ax : Fin D) (mx rev : Bool) (a b : Nat) (L : List (Slot N T D)) : Prop :=
  ∀ i j s t, a ≤ i → i < j → j < b → L[i]? = some s → L[j]? = some t → before ax mx rev t s = false

theorem qsort_sorted (ax : Fin D) (mx rev : Bool) : ∀ (f start stop : Nat) (L L' : List (Slot N T D)),
    qsort ax mx rev f start stop L = .ok L' → Within start stop L L' ∧ Sorted ax mx rev start stop L'
  | 0, start, stop, L, L', h => by unfold qsort at h; cases h
  | f + 1, start, stop, L, L', h => by
    unfold qsort at h
    by_cases hlt : stop - start < 2
    · rw [if_pos hlt] at h
      injection h with h
      subst h
      exact ⟨.refl _ _ _, fun i j s t h1 h2 h3 => by omega⟩
    · rw [if_neg hlt] at h
      have hd : (stop - start) / 2 < stop - start := Nat.div_lt_self (by omega) (by omega)
      obtain ⟨right, hright⟩ : ∃ r, stop - start = r + 1 := ⟨stop - start - 1, by omega⟩
      have hstop : stop = start + right + 1 := by omega
      rw [hright] at h
      simp only [Nat.add_sub_cancel] at h
      cases h1 : swap L (start + (right + 1) / 2) (start + right) with
      | error e => rw [h1, error_bind] at h; cases h
      | ok L1 =>
        rw [h1, ok_bind] at h
        rw [hright] at hd
        obtain ⟨w1, _, _, _⟩ := swap_within (a := start) (b := stop) h1 ⟨by omega, by omega⟩ ⟨by omega, by omega⟩
        cases h2 : qpart ax mx rev start right (right + 1) 0 0 L1 with
        | error e => rw [h2, error_bind] at h; cases h
        | ok r =>
          obtain ⟨L2, left⟩ := r
          rw [h2, ok_bind] at h
          simp only at h
          cases hp : L1[start + right]? with
          | none =>
            unfold qpart at h2
            cases hq : L1[start + 0]? with
            | none => rw [hq] at h2; cases h2
            | some a => rw [hq, hp] at h2; cases h2
          | some p =>
            obtain ⟨w2, q1, q2, q3, q4⟩ := qpart_spec ax mx rev (p := p) _ _ _ _ _ _ h2 (Nat.le_refl _) (Nat.zero_le _) (by omega) hp
              (fun x hx => by omega) (fun x _ hx => by omega)
            cases h3 : swap L2 (start + left) (start + right) with
            | error e => rw [h3, error_bind] at h; cases h
            | ok L3 =>
              rw [h3, ok_bind] at h
              obtain ⟨w3, e1, e2, e3⟩ := swap_within (a := start) (b := stop) h3 ⟨by omega, by omega⟩ ⟨by omega, by omega⟩
              cases h4 : qsort ax mx rev f start (start + left) L3 with
              | error e => rw [h4, error_bind] at h; cases h
              | ok L4 =>
                rw [h4, ok_bind] at h
                obtain ⟨w4, s4⟩ := qsort_sorted ax mx rev f _ _ _ _ h4
                obtain ⟨w5, s5⟩ := qsort_sorted ax mx rev f _ _ _ _ h
                refine ⟨w1.trans ((w2.mono (Nat.le_refl _) (by omega)).trans (w3.trans ((w4.mono (Nat.le_refl _) (by omega)).trans
                  (w5.mono (by omega) (Nat.le_refl _))))), ?_⟩
                -- what is left and right of the pivot
                have hL : ∀ x s, start ≤ x → x < start + left → L'[x]? = some s → before ax mx rev s p = true := by
                  intro x s g1 g2 g3
                  rw [w5.out x (by omega)] at g3
                  obtain ⟨y, y1, y2, y3⟩ := w4.inn x g1 g2
                  rw [y3, e3 y (by omega) (by omega)] at g3
                  exact q3 (y - start) (by omega) s (by rw [show start + (y - start) = y by omega]; exact g3)
                have hP : L'[start + left]? = some p := by
                  rw [w5.out _ (by omega), w4.out _ (by omega), e2, q2]
                have hR : ∀ x s, start + left < x → x < stop → L'[x]? = some s → before ax mx rev s p = false := by
                  intro x s g1 g2 g3
                  obtain ⟨y, y1, y2, y3⟩ := w5.inn x (by omega) g2
                  rw [y3, w4.out y (by omega)] at g3
                  by_cases hy : y = start + right
                  · subst hy
                    rw [e1] at g3
                    exact q4 left (Nat.le_refl _) q1 s g3
                  · rw [e3 y (by omega) hy] at g3
                    exact q4 (y - start) (by omega) (by omega) s (by rw [show start + (y - start) = y by omega]; exact g3)
                intro i j s t g1 g2 g3 gi gj
                by_cases c1 : j < start + left
                · refine s4 i j s t g1 g2 c1 ?_ ?_
                  · rw [← w5.out i (by omega)]; exact gi
                  · rw [← w5.out j (by omega)]; exact gj
                · by_cases c2 : start + left < i
                  · exact s5 i j s t (by omega) g2 g3 gi gj
                  · have hs : i ≠ start + left → before ax mx rev s p = true := fun h => hL i s g1 (by omega) gi
                    have ht : j ≠ start + left → before ax mx rev t p = false := fun h => hR j t (by omega) g3 gj
                    by_cases c3 : i = start + left
                    · subst c3
                      rw [hP] at gi
                      injection gi with gi
                      subst gi
                      exact ht (by omega)
                    · by_cases c4 : j = start + left
                      · subst c4
                        rw [hP] at gj
                        injection gj with gj
                        subst gj
                        exact before_asymm (hs c3)
                      · exact before_ntrans (ht c4) (before_asymm (hs c3))

/-- The coordinate by which `sort_by_axis` sorts. -/
def coord (ax : Fin D) (max : Bool) (r : Rect N D) : N :=
  match max with
  | true => r.hi ax
  | false => r.lo ax

/-- **C119** `sort_by_axis` permutes the entries of a node and leaves them in ascending (or, reversed, descending) order of the chosen
coordinate. -/
theorem C119_sort {n : Node N T D} (h : n.count ≤ n.slots.length) (ax : Fin D) (rev mx : Bool) :
    ∃ n', sortByAxis n ax rev mx = .ok n' ∧ n'.count = n.count ∧ n'.kind = n.kind ∧ (live n').Perm (live n) ∧
      n'.slots.drop n.count = n.slots.drop n.count ∧
      (live n').Pairwise fun a b => match rev with
        | false => lt (coord ax mx b.1) (coord ax mx a.1) = false
        | true => lt (coord ax mx a.1) (coord ax mx b.1) = false := by
  obtain ⟨L, e, l, p⟩ := qsort_ok ax mx rev (c := n.count) (n.count + 1) 0 n.count n.slots (by omega) h (by omega)
  obtain ⟨w, s⟩ := qsort_sorted ax mx rev _ _ _ _ _ e
  refine ⟨{ n with slots := L }, by unfold sortByAxis; rw [e, ok_bind], rfl, rfl, p, ?_, ?_⟩
  · refine List.ext_getElem? fun i => ?_
    rw [List.getElem?_drop, List.getElem?_drop]
    exact w.out _ (by omega)
  · rw [List.pairwise_iff_getElem]
    intro i j hi hj hij
    have hj' : j < n.count := by
      have : j < (L.take n.count).length := hj
      rw [List.length_take] at this
      omega
    have gi : L[i]? = some (live { n with slots := L })[i] := by
      rw [← List.getElem?_eq_getElem hi]
      exact (List.getElem?_take_of_lt (Nat.lt_trans hij hj')).symm
    have gj : L[j]? = some (live { n with slots := L })[j] := by
      rw [← List.getElem?_eq_getElem hj]
      exact (List.getElem?_take_of_lt hj').symm
    have := s i j _ _ (Nat.zero_le _) hij hj' gi gj
    unfold before keyOf at this
    cases rev <;> cases mx <;> simpa [coord] using this

/-! ## Choices -/

/-- **C119** `largest_axis` is the first axis of largest extent. -/
theorem C119_largest_axis [NeZero D] (r : Rect N D) :
    (∀ i, lt (sub (r.hi r.largestAxis) (r.lo r.largestAxis)) (sub (r.hi i) (r.lo i)) = false) ∧
    ∀ i, i < r.largestAxis → lt (sub (r.hi i) (r.lo i)) (sub (r.hi r.largestAxis) (r.lo r.largestAxis)) = true := by
  have key : ∀ (l : List (Fin D)) (p : List (Fin D)) (a : Fin D), (∀ i ∈ p, lt (sub (r.hi a) (r.lo a)) (sub (r.hi i) (r.lo i)) = false) →
      (∀ i ∈ p, i < a → lt (sub (r.hi i) (r.lo i)) (sub (r.hi a) (r.lo a)) = true) → (∀ i ∈ p, ∀ j ∈ l, i < j) → a ∈ p → l.Pairwise (· < ·) →
      ∃ b, (l.foldl (fun (acc : Fin D × N) i => if lt acc.2 (sub (r.hi i) (r.lo i)) then (i, sub (r.hi i) (r.lo i)) else acc)
          (a, sub (r.hi a) (r.lo a))) = (b, sub (r.hi b) (r.lo b)) ∧
        (∀ i ∈ p ++ l, lt (sub (r.hi b) (r.lo b)) (sub (r.hi i) (r.lo i)) = false) ∧
        ∀ i ∈ p ++ l, i < b → lt (sub (r.hi i) (r.lo i)) (sub (r.hi b) (r.lo b)) = true := by
    intro l
    induction l with
    | nil => exact fun p a h1 h2 _ _ _ => ⟨a, rfl, by simpa using h1, by simpa using h2⟩
    | cons x l ih =>
      intro p a h1 h2 h3 h4 h5
      rw [List.pairwise_cons] at h5
      rw [List.foldl_cons, show p ++ x :: l = (p ++ [x]) ++ l by simp]
      have hlt : ∀ i ∈ p ++ [x], ∀ j ∈ l, i < j := by
        intro i hi j hj
        rcases List.mem_append.1 hi with hi | hi
        · exact h3 i hi j (by simp [hj])
        · rw [List.mem_singleton] at hi; subst hi; exact h5.1 j hj
      by_cases hc : lt (sub (r.hi a) (r.lo a)) (sub (r.hi x) (r.lo x)) = true
      · simp only [hc, if_true]
        refine ih (p ++ [x]) x (fun i hi => ?_) (fun i hi hix => ?_) hlt (by simp) h5.2
        · rcases List.mem_append.1 hi with hi | hi
          · exact ntrans (asymm hc) (h1 i hi)
          · rw [List.mem_singleton] at hi; subst hi; exact lt_irrefl _
        · rcases List.mem_append.1 hi with hi | hi
          · cases hx : lt (sub (r.hi i) (r.lo i)) (sub (r.hi x) (r.lo x)) with
            | true => rfl
            | false =>
              have := ntrans (h1 i hi) hx
              rw [hc] at this
              cases this
          · rw [List.mem_singleton] at hi; subst hi; exact absurd hix (by simp)
      · have hc' : lt (sub (r.hi a) (r.lo a)) (sub (r.hi x) (r.lo x)) = false := by simpa using hc
        simp only [hc', Bool.false_eq_true, if_false]
        refine ih (p ++ [x]) a (fun i hi => ?_) (fun i hi hia => ?_) hlt (by simp [h4]) h5.2
        · rcases List.mem_append.1 hi with hi | hi
          · exact h1 i hi
          · rw [List.mem_singleton] at hi; subst hi; exact hc'
        · rcases List.mem_append.1 hi with hi | hi
          · exact h2 i hi hia
          · rw [List.mem_singleton] at hi
            subst hi
            exact absurd hia (Nat.lt_asymm (h3 a h4 i (by simp)))
  have hfr : List.finRange D = 0 :: (List.finRange D).tail := by
    cases D with
    | zero => exact absurd rfl (NeZero.ne 0)
    | succ D => rw [List.finRange_succ]; rfl
  have hpw : (List.finRange D).Pairwise (· < ·) := List.pairwise_lt_finRange D
  rw [hfr, List.pairwise_cons] at hpw
  obtain ⟨b, e1, e2, e3⟩ := key (List.finRange D).tail [0] 0 (by simp [lt_irrefl]) (by simp) (by simpa using hpw.1) (by simp) hpw.2
  have hb : r.largestAxis = b := by unfold Rect.largestAxis; rw [e1]
  rw [hb]
  have hm : ∀ i : Fin D, i ∈ [0] ++ (List.finRange D).tail := fun i => by
    have : i ∈ List.finRange D := List.mem_finRange i
    rw [hfr] at this
    exact this
  exact ⟨fun i => e2 i (hm i), fun i => e3 i (hm i)⟩

/-- The product of the sides. -/
def volume (r : Rect N D) : N := ((List.finRange D).map fun i => sub (r.hi i) (r.lo i)).foldl mul one

/-- The rectangle spanned by two others; `C119_area` says that it is the smallest one. -/
def hull (s r : Rect N D) : Rect N D :=
  ⟨fun i => if lt (r.lo i) (s.lo i) then r.lo i else s.lo i, fun i => if lt (s.hi i) (r.hi i) then r.hi i else s.hi i⟩

/-- By how much the area of a rectangle grows if it has to cover another one. -/
def enlargement (s r : Rect N D) : N := sub (volume (hull s r)) (volume s)

/-- **C119** `area` is the product of the sides and `united_area` that of the smallest rectangle that covers both. -/
theorem C119_area (s r : Rect N D) : s.area = volume s ∧ s.unitedArea r = volume (hull s r) ∧
    Covers (hull s r) s ∧ Covers (hull s r) r ∧ ∀ q, Covers q s → Covers q r → Covers q (hull s r) := by
  refine ⟨?_, ?_, fun i => ?_, fun i => ?_, fun q h1 h2 i => ?_⟩
  · unfold Rect.area volume
    rw [List.foldl_map]
  · unfold Rect.unitedArea volume
    rw [List.foldl_map]
    rfl
  · unfold hull
    constructor
    · show lt (s.lo i) (if _ then _ else _) = false
      split
      · exact asymm ‹_›
      · exact lt_irrefl _
    · show lt (if _ then _ else _) (s.hi i) = false
      split
      · exact asymm ‹_›
      · exact lt_irrefl _
  · unfold hull
    constructor
    · show lt (r.lo i) (if lt (r.lo i) (s.lo i) = true then _ else _) = false
      split
      · exact lt_irrefl _
      · rename_i h; simpa using h
    · show lt (if lt (s.hi i) (r.hi i) = true then _ else _) (r.hi i) = false
      split
      · exact lt_irrefl _
      · rename_i h; simpa using h
  · unfold hull
    constructor
    · show lt (if lt (r.lo i) (s.lo i) = true then _ else _) (q.lo i) = false
      split
      · exact (h2 i).1
      · exact (h1 i).1
    · show lt (q.hi i) (if lt (s.hi i) (r.hi i) = true then _ else _) = false
      split
      · exact (h2 i).2
      · exact (h1 i).2

/-- **C119** `choose_least_enlargement` is the first child whose rectangle grows least, among those that grow by less than "infinity" (and the
first child if there is none). -/
theorem C119_least_enlargement {n : Node N T D} (h : n.count ≤ n.slots.length) (h0 : 1 ≤ n.count) (r : Rect N D) :
    ∃ s, (live n)[chooseLeast n r]? = some s ∧
      (∀ t ∈ live n, lt (enlargement t.1 r) inf = true → lt (enlargement t.1 r) (enlargement s.1 r) = false) ∧
      (∀ i t, i < chooseLeast n r → (live n)[i]? = some t → lt (enlargement s.1 r) (enlargement t.1 r) = true) ∧
      (lt (enlargement s.1 r) inf = false → chooseLeast n r = 0) := by
  have hE : ∀ x : Rect N D, sub (x.unitedArea r) x.area = enlargement x r := fun x => by
    rw [(C119_area x r).1, (C119_area x r).2.1]
    rfl
  have key : ∀ (L P : List (Slot N T D)) (j : Nat) (je : N), (∀ t ∈ P, lt (enlargement t.1 r) je = false) →
      ((lt je inf = true ∧ ∃ s, P[j]? = some s ∧ je = enlargement s.1 r ∧ ∀ i t, i < j → P[i]? = some t → lt je (enlargement t.1 r) = true) ∨
        je = inf ∧ j = 0) →
      (∀ t ∈ P ++ L, lt (enlargement t.1 r) inf = true → ∃ s, (P ++ L)[leastLoop r L P.length j je]? = some s ∧
          lt (enlargement s.1 r) inf = true) ∧
      (∀ s, (P ++ L)[leastLoop r L P.length j je]? = some s →
        ((lt (enlargement s.1 r) inf = true ∧ (∀ t ∈ P ++ L, lt (enlargement t.1 r) (enlargement s.1 r) = false) ∧
          ∀ i t, i < leastLoop r L P.length j je → (P ++ L)[i]? = some t → lt (enlargement s.1 r) (enlargement t.1 r) = true) ∨
        (∀ t ∈ P ++ L, lt (enlargement t.1 r) inf = false) ∧ leastLoop r L P.length j je = 0)) := by
    intro L
    induction L with
    | nil =>
      intro P j je h1 h2
      simp only [List.append_nil, leastLoop]
      rcases h2 with ⟨h2, s, h3, h4, h5⟩ | ⟨h2, h3⟩
      · subst h4
        refine ⟨fun t _ _ => ⟨s, h3, h2⟩, fun s' hs' => ?_⟩
        rw [h3] at hs'
        injection hs' with hs'
        subst hs'
        exact .inl ⟨h2, h1, h5⟩
      · subst h2
        subst h3
        refine ⟨fun t ht htl => ?_, fun _ _ => .inr ⟨h1, rfl⟩⟩
        rw [h1 t ht] at htl
        cases htl
    | cons x L ih =>
      intro P j je h1 h2
      have hje : lt je inf = true ∨ je = inf := by
        rcases h2 with h2 | h2
        · exact .inl h2.1
        · exact .inr h2.1
      rw [show P ++ x :: L = (P ++ [x]) ++ L by simp]
      unfold leastLoop
      rw [hE]
      have hlen : P.length + 1 = (P ++ [x]).length := by simp
      by_cases hc : lt (enlargement x.1 r) je = true
      · rw [if_pos hc, hlen]
        have hc : lt (enlargement x.1 r) je = true := hc
        refine ih (P ++ [x]) P.length _ (fun t ht => ?_) (.inl ⟨?_, x, by simp, rfl, fun i t hi ht => ?_⟩)
        · rcases List.mem_append.1 ht with ht | ht
          · exact ntrans (h1 t ht) (asymm hc)
          · rw [List.mem_singleton] at ht; subst ht; exact lt_irrefl _
        · rcases hje with hje | hje
          · cases hx : lt (enlargement x.1 r) inf with
            | true => rfl
            | false =>
              have := ntrans hx (asymm hje)
              rw [hc] at this
              cases this
          · rw [← hje]; exact hc
        · rw [List.getElem?_append_left hi] at ht
          cases hx : lt (enlargement x.1 r) (enlargement t.1 r) with
          | true => rfl
          | false =>
            have := ntrans hx (h1 t (List.mem_of_getElem? ht))
            have hc' : lt (enlargement x.1 r) je = true := hc
            rw [hc'] at this
            cases this
      · rw [if_neg hc, hlen]
        have hc : lt (enlargement x.1 r) je = false := by simpa using hc
        refine ih (P ++ [x]) j je (fun t ht => ?_) ?_
        · rcases List.mem_append.1 ht with ht | ht
          · exact h1 t ht
          · rw [List.mem_singleton] at ht; subst ht; exact hc
        · rcases h2 with ⟨h2, s, h3, h4, h5⟩ | h2
          · have hj : j < P.length := (List.getElem?_eq_some_iff.1 h3).1
            refine .inl ⟨h2, s, by rw [List.getElem?_append_left hj]; exact h3, h4, fun i t hi ht => h5 i t hi ?_⟩
            rw [List.getElem?_append_left (by omega)] at ht
            exact ht
          · exact .inr h2
  have hlt : chooseLeast n r < (live n).length := by
    rw [live_length h]
    exact leastLoop_bound r (live n) 0 0 inf n.count (by omega) (by rw [live_length h]; omega)
  have hs : (live n)[chooseLeast n r]? = some (live n)[chooseLeast n r] := List.getElem?_eq_getElem hlt
  refine ⟨_, hs, ?_⟩
  generalize (live n)[chooseLeast n r] = s at hs
  have hk := (key (live n) [] 0 inf (by simp) (.inr ⟨rfl, rfl⟩)).2 s hs
  rw [List.nil_append] at hk
  rcases hk with ⟨k1, k2, k3⟩ | ⟨k1, k2⟩
  · exact ⟨fun t ht _ => k2 t ht, k3, fun h => by rw [k1] at h; cases h⟩
  · have k2 : chooseLeast n r = 0 := k2
    refine ⟨fun t ht h => (by rw [k1 t ht] at h; cases h), fun i t hi => by omega, fun _ => k2⟩

/-- **C119** `node_choose` is a child that contains the rectangle if there is one, and else the one of least enlargement; it is remembered. -/
theorem C119_choose {st : RT N T D} {n : Node N T D} (h : n.count ≤ n.slots.length) (r : Rect N D) {d : Nat}
    (hd : d < st.hint.length) :
    ∃ st' i, nodeChoose st n r d = .ok (st', i) ∧ st' = { st with hint := st.hint.set d i } ∧
      ((∃ s ∈ live n, Covers s.1 r) → ∃ s, (live n)[i]? = some s ∧ Covers s.1 r) ∧
      ((∀ s ∈ live n, ¬ Covers s.1 r) → i = chooseLeast n r) ∧
      (∀ s, (live n)[st.hint[d]]? = some s → Covers s.1 r → i = st.hint[d]) := by
  have hC : ∀ x : Rect N D, Covers x r ↔ x.contains r = true := fun x => by
    simp [Covers, Rect.contains]
  simp only [hC, Bool.not_eq_true]
  have hlv : ∀ i, i < n.count → n.slots[i]? = (live n)[i]? := fun i hi => (List.getElem?_take_of_lt hi).symm
  have hn : ∀ i s, (live n)[i]? = some s → i < n.count := fun i s hs => by
    have := (List.getElem?_eq_some_iff.1 hs).1
    rw [live_length h] at this
    exact this
  unfold nodeChoose hintAt
  rw [List.getElem?_eq_getElem hd]
  simp only
  rw [ok_bind]
  have hset : st.hint.set d st.hint[d] = st.hint := List.set_getElem_self hd
  cases hh : (live n)[st.hint[d]]? with
  | none =>
    have hge : ¬ st.hint[d] < n.count := fun hlt => by
      rw [List.getElem?_eq_none_iff, live_length h] at hh
      omega
    have e : hinted n st.hint[d] r = .ok false := by unfold hinted; rw [if_neg hge]
    rw [e, ok_bind]
    refine ⟨_, _, rfl, rfl, ?_, ?_, fun s hs => by cases hs⟩
    · rintro ⟨s, hs, hc⟩
      unfold chooseSlow
      cases hf : (live n).findIdx? fun s => s.1.contains r with
      | none => rw [List.findIdx?_eq_none_iff] at hf; have := hf s hs; rw [hc] at this; cases this
      | some i =>
        obtain ⟨hi, hi2, _⟩ := List.findIdx?_eq_some_iff_getElem.1 hf
        exact ⟨_, List.getElem?_eq_getElem hi, hi2⟩
    · intro hno
      unfold chooseSlow
      cases hf : (live n).findIdx? fun s => s.1.contains r with
      | none => rfl
      | some i =>
        obtain ⟨hi, hi2, _⟩ := List.findIdx?_eq_some_iff_getElem.1 hf
        rw [hno _ (List.getElem_mem hi)] at hi2
        cases hi2
  | some t =>
    have hlt := hn _ _ hh
    have e : hinted n st.hint[d] r = .ok (t.1.contains r) := by
      unfold hinted
      rw [if_pos hlt, slotAt_of ((hlv _ hlt).trans hh), ok_bind]
    rw [e, ok_bind]
    cases hc : t.1.contains r with
    | true =>
      refine ⟨_, _, rfl, by rw [hset], fun _ => ⟨t, hh, hc⟩, fun hno => ?_, fun _ _ _ => rfl⟩
      rw [hno t (List.mem_of_getElem? hh)] at hc
      cases hc
    | false =>
      refine ⟨_, _, rfl, rfl, ?_, ?_, fun s hs hs2 => ?_⟩
      · rintro ⟨s, hs, hc⟩
        unfold chooseSlow
        cases hf : (live n).findIdx? fun s => s.1.contains r with
        | none => rw [List.findIdx?_eq_none_iff] at hf; have := hf s hs; rw [hc] at this; cases this
        | some i =>
          obtain ⟨hi, hi2, _⟩ := List.findIdx?_eq_some_iff_getElem.1 hf
          exact ⟨_, List.getElem?_eq_getElem hi, hi2⟩
      · intro hno
        unfold chooseSlow
        cases hf : (live n).findIdx? fun s => s.1.contains r with
        | none => rfl
        | some i =>
          obtain ⟨hi, hi2, _⟩ := List.findIdx?_eq_some_iff_getElem.1 hf
          rw [hno _ (List.getElem_mem hi)] at hi2
          cases hi2
      · injection hs with hs
        subst hs
        rw [hc] at hs2
        cases hs2

/-! ## Splits -/

theorem moveInto_shape {i : Nat} {a b a1 b1 : Node N T D} (h : moveInto i a b = .ok (a1, b1)) :
    ∃ s l, a.slots[i]? = some s ∧ a.slots[a.count - 1]? = some l ∧ b.count < b.slots.length ∧ 0 < a.count ∧
      a1 = { a with slots := a.slots.set i l, count := a.count - 1 } ∧
      b1 = { b with slots := b.slots.set b.count s, count := b.count + 1 } ∧ live b1 = live b ++ [s] := by
  unfold moveInto at h
  cases h1 : a.slots[i]? with
  | none => rw [h1] at h; cases h
  | some s =>
    cases h2 : a.slots[a.count - 1]? with
    | none => rw [h1, h2] at h; cases h
    | some l =>
      rw [h1, h2] at h
      simp only at h
      by_cases hc : b.count < b.slots.length ∧ 0 < a.count
      · rw [if_pos hc] at h
        injection h with h
        injection h with h h'
        refine ⟨s, l, rfl, rfl, hc.1, hc.2, h.symm, h'.symm, ?_⟩
        rw [← h']
        show (b.slots.set b.count s).take (b.count + 1) = _
        rw [List.take_succ, List.getElem?_set_self hc.1, List.take_set_of_le (Nat.le_refl _)]
        rfl
      · rw [if_neg hc] at h; cases h

theorem splitLoop_side (r : Rect N D) (ax : Fin D) : ∀ (f i : Nat) (a b a1 b1 : Node N T D), splitLoop r ax f i a b = .ok (a1, b1) →
    (∀ x s, x < i → a.slots[x]? = some s → toRight r ax s = false) →
    (∀ s ∈ live a1, toRight r ax s = false) ∧ ∀ s ∈ live b1, s ∈ live b ∨ toRight r ax s = true
  | 0, i, a, b, a1, b1, h, hi => by unfold splitLoop at h; cases h
  | f + 1, i, a, b, a1, b1, h, hi => by
    unfold splitLoop at h
    by_cases hc : i < a.count
    · rw [if_pos hc] at h
      cases hs : a.slots[i]? with
      | none => unfold slotAt at h; rw [hs] at h; cases h
      | some s =>
        rw [slotAt_of hs, ok_bind] at h
        by_cases ht : toRight r ax s = true
        · rw [if_pos ht] at h
          cases hm : moveInto i a b with
          | error e => rw [hm, error_bind] at h; cases h
          | ok p =>
            obtain ⟨a2, b2⟩ := p
            rw [hm, ok_bind] at h
            obtain ⟨s', l, q1, q2, q3, q4, q5, q6, q7⟩ := moveInto_shape hm
            rw [hs] at q1
            injection q1 with q1
            subst q1
            obtain ⟨r1, r2⟩ := splitLoop_side r ax f i a2 b2 a1 b1 h fun x t hx hxt => by
              rw [q5] at hxt
              rw [show ({ a with slots := a.slots.set i l, count := a.count - 1 } : Node N T D).slots = a.slots.set i l from rfl,
                List.getElem?_set_ne (by omega)] at hxt
              exact hi x t hx hxt
            refine ⟨r1, fun t htt => ?_⟩
            rcases r2 t htt with g | g
            · rw [q7] at g
              rcases List.mem_append.1 g with g | g
              · exact .inl g
              · rw [List.mem_singleton] at g; subst g; exact .inr ht
            · exact .inr g
        · rw [if_neg ht] at h
          refine splitLoop_side r ax f (i + 1) a b a1 b1 h fun x t hx hxt => ?_
          by_cases hxi : x = i
          · subst hxi
            rw [hs] at hxt
            injection hxt with hxt
            subst hxt
            simpa using ht
          · exact hi x t (by omega) hxt
    · rw [if_neg hc] at h
      injection h with h
      injection h with h h'
      subst h; subst h'
      refine ⟨fun s hs => ?_, fun s hs => .inl hs⟩
      obtain ⟨x, hx, hxs⟩ := List.mem_iff_getElem.1 hs
      have hx' : x < a.count := by
        have : x < (a.slots.take a.count).length := hx
        rw [List.length_take] at this
        omega
      refine hi x s (by omega) ?_
      rw [← hxs, ← List.getElem?_eq_getElem hx]
      exact (List.getElem?_take_of_lt hx').symm

theorem refill_moves (m : Nat) : ∀ (f : Nat) (a b a1 b1 : Node N T D), refill m f a b = .ok (a1, b1) →
    ∃ X, live a = live a1 ++ X.reverse ∧ live b1 = live b ++ X
  | 0, a, b, a1, b1, h => by unfold refill at h; cases h
  | f + 1, a, b, a1, b1, h => by
    unfold refill at h
    cases hm : moveInto (a.count - 1) a b with
    | error e => rw [hm, error_bind] at h; cases h
    | ok p =>
      obtain ⟨a2, b2⟩ := p
      rw [hm, ok_bind] at h
      obtain ⟨s, l, q1, q2, q3, q4, q5, q6, q7⟩ := moveInto_shape hm
      rw [q1] at q2
      injection q2 with q2
      subst q2
      have hcl : a.count - 1 < a.slots.length := (List.getElem?_eq_some_iff.1 q1).1
      have hset : a.slots.set (a.count - 1) s = a.slots := by
        have := (List.getElem?_eq_some_iff.1 q1).2
        rw [← this]
        exact List.set_getElem_self hcl
      have hla : live a = live a2 ++ [s] := by
        rw [q5]
        show a.slots.take a.count = (a.slots.set (a.count - 1) s).take (a.count - 1) ++ [s]
        rw [hset]
        obtain ⟨c, hc⟩ : ∃ c, a.count = c + 1 := ⟨a.count - 1, by omega⟩
        rw [hc] at q1 ⊢
        simp only [Nat.add_sub_cancel] at q1 ⊢
        rw [List.take_succ, q1]
        rfl
      simp only at h
      by_cases hc : b2.count < m
      · rw [if_pos hc] at h
        obtain ⟨X, e1, e2⟩ := refill_moves m f a2 b2 a1 b1 h
        refine ⟨s :: X, ?_, ?_⟩
        · rw [hla, e1, List.reverse_cons, List.append_assoc]
        · rw [e2, q7, List.append_assoc]; rfl
      · rw [if_neg hc] at h
        injection h with h
        injection h with h h'
        subst h; subst h'
        exact ⟨[s], hla, q7⟩

theorem getNode_some {st : RT N T D} {i : Nat} {n : Node N T D} (h : st.nodes[i]? = some n) : getNode st i = .ok n := by
  unfold getNode; rw [h]

theorem minItems_eq (M : Nat) : minItems M = M / 10 + 1 := by
  unfold minItems
  omega

/-- The entry is nearer to the upper than to the lower side of the rectangle that is split, along its longest axis. -/
def upper [NeZero D] (r : Rect N D) (s : Slot N T D) : Bool :=
  lt (sub (r.hi r.largestAxis) (s.1.hi r.largestAxis)) (sub (s.1.lo r.largestAxis) (r.lo r.largestAxis))

/-- What a split makes of the entries `E` of a full node, if a node needs at least `m` entries: the lists of the old node and of the new one. -/
inductive Halves [NeZero D] (m : Nat) (r : Rect N D) (E A B : List (Slot N T D)) : Prop
  /-- Both halves are large enough. -/
  | even : m ≤ (E.filter fun s => !upper r s).length → m ≤ (E.filter (upper r)).length →
      A.Perm (E.filter fun s => !upper r s) → B.Perm (E.filter (upper r)) → Halves m r E A B
  /-- The lower half takes some of the upper half, those that begin lowest. -/
  | low (X : List (Slot N T D)) : (E.filter fun s => !upper r s).length < m → A.length = m →
      A.Perm ((E.filter fun s => !upper r s) ++ X) → (B ++ X).Perm (E.filter (upper r)) →
      (∀ x ∈ X, ∀ y ∈ B, lt (y.1.lo r.largestAxis) (x.1.lo r.largestAxis) = false) → Halves m r E A B
  /-- The upper half takes some of the lower half, those that end lowest. -/
  | high (X : List (Slot N T D)) : (E.filter (upper r)).length < m → B.length = m →
      B.Perm (E.filter (upper r) ++ X) → (A ++ X).Perm (E.filter fun s => !upper r s) →
      (∀ x ∈ X, ∀ y ∈ A, lt (y.1.hi r.largestAxis) (x.1.hi r.largestAxis) = false) → Halves m r E A B

theorem Halves.perm [NeZero D] {m : Nat} {r : Rect N D} {E A B A' B' : List (Slot N T D)} (h : Halves m r E A B) (ha : A'.Perm A)
    (hb : B'.Perm B) : Halves m r E A' B' := by
  cases h with
  | even h1 h2 h3 h4 => exact .even h1 h2 (ha.trans h3) (hb.trans h4)
  | low X h1 h2 h3 h4 h5 =>
    exact .low X h1 (ha.length_eq.trans h2) (ha.trans h3) ((hb.append_right X).trans h4) fun x hx y hy => h5 x hx y (hb.mem_iff.1 hy)
  | high X h1 h2 h3 h4 h5 =>
    exact .high X h1 (hb.length_eq.trans h2) (hb.trans h3) ((ha.append_right X).trans h4) fun x hx y hy => h5 x hx y (ha.mem_iff.1 hy)

theorem filter_parts {α : Type} {p : α → Bool} {A B E : List α} (h : (A ++ B).Perm E) (ha : ∀ s ∈ A, p s = false) (hb : ∀ s ∈ B, p s = true) :
    A.Perm (E.filter fun s => !p s) ∧ B.Perm (E.filter p) := by
  have e1 := h.filter fun s => !p s
  have e2 := h.filter p
  rw [List.filter_append, List.filter_eq_self.2 (fun s hs => by simp [ha s hs]), List.filter_eq_nil_iff.2 (fun s hs => by simp [hb s hs]),
    List.append_nil] at e1
  rw [List.filter_append, List.filter_eq_self.2 hb, List.filter_eq_nil_iff.2 (fun s hs => by simp [ha s hs]), List.nil_append] at e2
  exact ⟨e1, e2⟩

theorem halves [NeZero D] {M : Nat} (hM : 2 ≤ M) (r : Rect N D) {a b a1 b1 a2 b2 a3 b3 : Node N T D} (h1 : a.slots.length = M)
    (h2 : b.slots.length = M) (ha : a.count = M) (hb : b.count = 0) (e1 : splitLoop r r.largestAxis (2 * M + 1) 0 a b = .ok (a1, b1))
    (e2 : balance M r.largestAxis a1 b1 = .ok (a2, b2)) (e3 : finalSort a2 b2 = .ok (a3, b3)) :
    Halves (minItems M) r (live a) (live a3) (live b3) ∧ (a.kind = .branch →
      ((live a3).Pairwise fun s t => lt (s.1.lo 0) (t.1.lo 0) = false) ∧ (live b3).Pairwise fun s t => lt (s.1.lo 0) (t.1.lo 0) = false) := by
  have hlb : live b = [] := by unfold live; rw [hb]; rfl
  obtain ⟨a1', b1', e1', R1⟩ := splitLoop_ok (M := M) r r.largestAxis (2 * M + 1) 0 a b h1 h2 (by omega) (by omega)
  rw [e1] at e1'
  injection e1' with e1'
  injection e1' with e1a e1b
  subst e1a; subst e1b
  obtain ⟨s1, s2⟩ := splitLoop_side r _ _ _ _ _ _ _ e1 (fun x s hx => by omega)
  obtain ⟨f1, f2⟩ := filter_parts (p := upper r) (E := live a) (by have := R1.perm; rwa [hlb, List.append_nil] at this) s1
    (fun s hs => by
      rcases s2 s hs with g | g
      · rw [hlb] at g; cases g
      · exact g)
  have hcnt := R1.cnt
  have hla := R1.la
  have hlb' := R1.lb
  have la1 : (live a1).length = a1.count := live_length (by omega)
  have lb1 : (live b1).length = b1.count := live_length (by omega)
  have hm := minItems_bounds hM
  have hbal : Halves (minItems M) r (live a) (live a2) (live b2) ∧ a2.kind = a1.kind ∧ a2.slots.length = M ∧ b2.slots.length = M ∧
      a2.count + b2.count = M := by
    obtain ⟨a2', b2', e2', R2, _, _⟩ := balance_ok hM r.largestAxis (a := a1) (b := b1) R1.la R1.lb (by omega)
    rw [e2] at e2'
    injection e2' with e2'
    injection e2' with e2a e2b
    subst e2a; subst e2b
    have hc2 := R2.cnt
    have la2 : (live a2).length = a2.count := live_length (by rw [R2.la]; omega)
    have lb2 : (live b2).length = b2.count := live_length (by rw [R2.lb]; omega)
    refine ⟨?_, R2.ka, R2.la, R2.lb, by omega⟩
    unfold balance at e2
    by_cases hA : a1.count < minItems M
    · rw [if_pos hA] at e2
      obtain ⟨b', g1, g2, g3, g4, _, g6⟩ := C119_sort (n := b1) (by omega) r.largestAxis true false
      rw [g1, ok_bind] at e2
      obtain ⟨n1, g7, _, g9, g10, _⟩ := sortByAxis_ok (n := b1) (by omega) r.largestAxis true false
      rw [g1] at g7
      injection g7 with g7
      subst g7
      obtain ⟨x, y, t1, t2, t3⟩ := refill_ok (m := minItems M) (M + 1) b' a1 (by omega) R1.la (by omega) hA (by omega) (by omega)
      rw [t1, ok_bind] at e2
      simp only at e2
      injection e2 with e2
      injection e2 with e2a e2b
      subst e2a; subst e2b
      obtain ⟨X, m1, m2⟩ := refill_moves _ _ _ _ _ _ t1
      rw [m1, List.pairwise_append] at g6
      refine .low X (by rw [← f1.length_eq, la1]; exact hA) (by omega) (by rw [m2]; exact f1.append_right X) ?_ fun x hx y hy =>
        g6.2.2 y hy x (List.mem_reverse.2 hx)
      refine List.Perm.trans ?_ (g4.trans f2)
      rw [m1]
      exact (List.reverse_perm X).symm.append_left _
    · rw [if_neg hA] at e2
      by_cases hB : b1.count < minItems M
      · rw [if_pos hB] at e2
        obtain ⟨a', g1, g2, g3, g4, _, g6⟩ := C119_sort (n := a1) (by omega) r.largestAxis true true
        rw [g1, ok_bind] at e2
        obtain ⟨n1, g7, _, g9, g10, _⟩ := sortByAxis_ok (n := a1) (by omega) r.largestAxis true true
        rw [g1] at g7
        injection g7 with g7
        subst g7
        obtain ⟨x, y, t1, t2, t3⟩ := refill_ok (m := minItems M) (M + 1) a' b1 (by omega) R1.lb (by omega) hB (by omega) (by omega)
        rw [t1] at e2
        injection e2 with e2
        injection e2 with e2a e2b
        subst e2a; subst e2b
        obtain ⟨X, m1, m2⟩ := refill_moves _ _ _ _ _ _ t1
        rw [m1, List.pairwise_append] at g6
        refine .high X (by rw [← f2.length_eq, lb1]; exact hB) (by omega) (by rw [m2]; exact f2.append_right X) ?_ fun x hx y hy =>
          g6.2.2 y hy x (List.mem_reverse.2 hx)
        refine List.Perm.trans ?_ (g4.trans f1)
        rw [m1]
        exact (List.reverse_perm X).symm.append_left _
      · rw [if_neg hB] at e2
        injection e2 with e2
        injection e2 with e2a e2b
        subst e2a; subst e2b
        exact .even (by rw [← f1.length_eq]; omega) (by rw [← f2.length_eq]; omega) f1 f2
  obtain ⟨hh, hk, hl1, hl2, hc⟩ := hbal
  unfold finalSort at e3
  by_cases hkb : a2.kind = .branch
  · rw [if_pos hkb] at e3
    obtain ⟨x, g1, _, _, g4, _, g6⟩ := C119_sort (n := a2) (by omega) 0 true false
    obtain ⟨y, k1, _, _, k4, _, k6⟩ := C119_sort (n := b2) (by omega) 0 true false
    rw [g1, ok_bind, k1, ok_bind] at e3
    injection e3 with e3
    injection e3 with e3a e3b
    subst e3a; subst e3b
    exact ⟨hh.perm g4 k4, fun _ => ⟨g6, k6⟩⟩
  · rw [if_neg hkb] at e3
    injection e3 with e3
    injection e3 with e3a e3b
    subst e3a; subst e3b
    exact ⟨hh, fun h => absurd ((hk.trans R1.ka).trans h) hkb⟩

/-- **C120** A full node is split into those of its entries that are nearer to the lower side and those that are nearer to the upper side of its
rectangle along the longest axis. If one of the halves has less than the minimum, the other one gives it as many as are missing: to the lower half
those that begin lowest, to the upper half those that end lowest. The entries of the halves of a branch are in descending order of their lower
side along axis 0. -/
theorem C120_split [NeZero D] {M : Nat} (hM : 2 ≤ M) {st : RT N T D} {i : Nat} {n : Node N T D} (r : Rect N D) (hn : st.nodes[i]? = some n)
    (hfull : n.count = M) (hlen : ∀ m ∈ st.nodes, m.slots.length = M) (hf : ∀ f, st.free = some f → f < st.nodes.length ∧ f ≠ i) :
    ∃ st' j a b, nodeSplit M st r i = .ok (st', j) ∧ j ≠ i ∧ st'.nodes[i]? = some a ∧ st'.nodes[j]? = some b ∧
      (∀ k, k ≠ i → k ≠ j → st'.nodes[k]? = st.nodes[k]?) ∧ Halves (M / 10 + 1) r (live n) (live a) (live b) ∧
      (n.kind = .branch →
        ((live a).Pairwise fun s t => lt (s.1.lo 0) (t.1.lo 0) = false) ∧ (live b).Pairwise fun s t => lt (s.1.lo 0) (t.1.lo 0) = false) := by
  have hi : i < st.nodes.length := (List.getElem?_eq_some_iff.1 hn).1
  have hnl : n.slots.length = M := hlen n (List.mem_of_getElem? hn)
  have hnew : ∃ st1 j b, nodeNew M st n.kind = .ok (st1, j) ∧ j ≠ i ∧ st1.nodes[i]? = some n ∧ st1.nodes[j]? = some b ∧ b.count = 0 ∧
      b.slots.length = M ∧ ∀ k, k ≠ j → k < st1.nodes.length → st1.nodes[k]? = st.nodes[k]? := by
    unfold nodeNew
    cases hfr : st.free with
    | none =>
      refine ⟨_, _, zeroNode M n.kind, rfl, by omega, ?_, ?_, rfl, by simp [zeroNode], fun k hk hkl => ?_⟩
      · show (st.nodes ++ [zeroNode M n.kind])[i]? = _
        rw [List.getElem?_append_left hi]; exact hn
      · show (st.nodes ++ [zeroNode M n.kind])[st.nodes.length]? = _
        simp
      · show (st.nodes ++ [zeroNode M n.kind])[k]? = _
        have : k < (st.nodes ++ [zeroNode M n.kind]).length := hkl
        rw [List.length_append, List.length_singleton] at this
        rw [List.getElem?_append_left (by omega)]
    | some f =>
      obtain ⟨f1, f2⟩ := hf f hfr
      have hg : st.nodes[f]? = some st.nodes[f] := List.getElem?_eq_getElem f1
      simp only
      rw [getNode_some hg, ok_bind]
      refine ⟨_, _, { st.nodes[f] with kind := n.kind, count := 0 }, rfl, f2, ?_, ?_, rfl, hlen st.nodes[f] (List.getElem_mem f1), fun k hk _ => ?_⟩
      · show (st.nodes.set f _)[i]? = _
        rw [List.getElem?_set_ne f2]; exact hn
      · show (st.nodes.set f _)[f]? = _
        rw [List.getElem?_set_self f1]
      · show (st.nodes.set f _)[k]? = _
        rw [List.getElem?_set_ne (fun h => hk h.symm)]
  obtain ⟨st1, j, b, e1, hji, hi1, hj1, hb0, hbl, hk1⟩ := hnew
  obtain ⟨a1, b1, e2, R1⟩ := splitLoop_ok (M := M) r r.largestAxis (2 * M + 1) 0 n b hnl hbl (by omega) (by omega)
  have c1 := R1.cnt
  obtain ⟨a2, b2, e3, R2, _, _⟩ := balance_ok hM r.largestAxis (a := a1) (b := b1) R1.la R1.lb (by omega)
  have c2 := R2.cnt
  obtain ⟨a3, b3, e4, R3, _, _⟩ := finalSort_ok (a := a2) (b := b2) R2.la R2.lb (by omega)
  obtain ⟨H, Hs⟩ := halves hM r hnl hbl hfull hb0 e2 e3 e4
  have hi1' : i < st1.nodes.length := (List.getElem?_eq_some_iff.1 hi1).1
  have hj1' : j < st1.nodes.length := (List.getElem?_eq_some_iff.1 hj1).1
  refine ⟨setNode (setNode st1 i a3) j b3, j, a3, b3, ?_, hji, ?_, ?_, fun k h1 h2 => ?_, minItems_eq M ▸ H, Hs⟩
  · unfold nodeSplit
    rw [getNode_some hn, ok_bind, e1, ok_bind]
    simp only
    rw [getNode_some hi1, ok_bind, getNode_some hj1, ok_bind, e2, ok_bind]
    simp only
    rw [e3, ok_bind]
    simp only
    rw [e4, ok_bind]
  · show ((st1.nodes.set i a3).set j b3)[i]? = _
    rw [List.getElem?_set_ne hji, List.getElem?_set_self hi1']
  · show ((st1.nodes.set i a3).set j b3)[j]? = _
    rw [List.getElem?_set_self (by simpa using hj1')]
  · show ((st1.nodes.set i a3).set j b3)[k]? = _
    rw [List.getElem?_set_ne (fun h => h2 h.symm), List.getElem?_set_ne (fun h => h1 h.symm)]
    by_cases hkl : k < st1.nodes.length
    · exact hk1 k h2 hkl
    · have hle : st.nodes.length ≤ st1.nodes.length := by
        unfold nodeNew at e1
        cases hfr : st.free with
        | none => rw [hfr] at e1; injection e1 with e1; injection e1 with e1; rw [← e1]; simp
        | some f =>
          rw [hfr] at e1
          simp only at e1
          rw [getNode_some (List.getElem?_eq_getElem (hf f hfr).1), ok_bind] at e1
          injection e1 with e1
          injection e1 with e1
          rw [← e1]
          simp
      rw [List.getElem?_eq_none (by omega), List.getElem?_eq_none (by omega)]

/-! ## Examples -/

/-- A full leaf holding the given intervals. -/
def exNode (L : List (Nat × Nat)) : Node Nat Nat 1 := ⟨L.length, .leaf, L.zipIdx.map fun p => (box p.1.1 p.1.2, .item p.2)⟩

def exSides (n : Node Nat Nat 1) : List (Nat × Nat) := (live n).map fun s => (s.1.lo 0, s.1.hi 0)

example : (sortByAxis (exNode [(3, 9), (1, 4), (5, 6), (1, 2), (4, 8)]) 0 false false).map exSides = .ok [(1, 4), (1, 2), (3, 9), (4, 8), (5, 6)] := by
  decide +kernel

example : (sortByAxis (exNode [(3, 9), (1, 4), (5, 6), (1, 2), (4, 8)]) 0 true true).map exSides = .ok [(3, 9), (4, 8), (5, 6), (1, 4), (1, 2)] := by
  decide +kernel

example : (⟨fun i => [0, 2, 1][i]!, fun i => [4, 9, 8][i]!⟩ : Rect Nat 3).largestAxis = 1 := by decide +kernel

example : chooseLeast (exNode [(0, 4), (20, 25), (8, 9), (30, 31)]) (box 11 12) = 2 ∧
    chooseLeast (exNode [(0, 4), (20, 25)]) (box 0 (2 ^ 33)) = 0 := by decide +kernel

/-- A square that grows to cover one beside it. -/
example : volume (⟨fun _ => 1, fun _ => 3⟩ : Rect Nat 2) = 4 ∧
    enlargement (⟨fun _ => 1, fun _ => 3⟩ : Rect Nat 2) ⟨fun i => if i = 0 then 5 else 1, fun i => if i = 0 then 6 else 2⟩ = 6 := by decide +kernel

/-- The state with one node, which is full. -/
def exState (L : List (Nat × Nat)) : RT Nat Nat 1 := { (RT.init : RT Nat Nat 1) with nodes := [exNode L] }

def exSplit (L : List (Nat × Nat)) (r : Rect Nat 1) : Res (List (List (Nat × Nat))) :=
  (nodeSplit L.length (exState L) r 0).map fun p => p.1.nodes.map exSides

/-- Evenly; the lower half takes an entry; the upper half takes the entry that ends lowest, not one that ends highest. -/
example : exSplit [(0, 1), (8, 9), (2, 3), (6, 7)] (box 0 9) = .ok [[(0, 1), (2, 3)], [(8, 9), (6, 7)]] ∧
    exSplit [(3, 9), (2, 9), (5, 9), (1, 9)] (box 0 9) = .ok [[(1, 9)], [(5, 9), (3, 9), (2, 9)]] ∧
    exSplit [(0, 1), (0, 2), (0, 9), (0, 3)] (box 0 9) = .ok [[(0, 9), (0, 3), (0, 2)], [(0, 1)]] := by decide +kernel

example : (nodeChoose (RT.init : RT Nat Nat 1) (exNode [(0, 4), (20, 25), (8, 15)]) (box 11 12) 0).map (·.2) = .ok 2 := by decide +kernel

end Cista.RTree
