import Verif.MM.Lemmas
import Verif.Multi.VecVec

set_option linter.unusedSimpArgs false

/-! # Operations of the mutable multimap preserve the invariant -/
namespace Cista.MM

variable {α : Type} {lo : Nat}

def total (L : List (List α)) : Nat := (L.map List.length).sum

theorem total_set : ∀ {L : List (List α)} {i : Nat} {xs : List α} (_ : L[i]? = some xs) (ys : List α),
    total (L.set i ys) + xs.length = total L + ys.length
  | [], i, xs, h, _ => by simp at h
  | a :: L, 0, xs, h, ys => by simp at h; subst h; simp [total]; omega
  | a :: L, i + 1, xs, h, ys => by
    have := total_set (L := L) (i := i) (xs := xs) (by simpa using h) ys
    simp [total] at this ⊢; omega

/-- The abstract state: the list of buckets, plus the number of elements dropped by `erase(key)` since the last
`clear` (which `element_count_` keeps counting). -/
structure Abs (α : Type) where
  lists : List (List α)
  lost : Nat

structure Rel (lo K : Nat) (m : Map α) (A : Abs α) : Prop where
  inv : Inv lo K m A.lists
  count : m.count = total A.lists + A.lost

theorem fillLoop_ok (n : Nat) : ∀ (d : List α) (p : Nat) (v : α), p + n ≤ d.length → d.length ≤ 2 ^ 32 →
    ∃ d', fillLoop n d p v = .ok d' ∧ d'.length = d.length ∧
      ∀ q, d'[q]? = if p ≤ q ∧ q < p + n then some v else d[q]? := by
  induction n with
  | zero =>
    intro d p v _ _
    refine ⟨d, rfl, rfl, ?_⟩
    intro q
    rw [if_neg (by omega)]
  | succ n ih =>
    intro d p v h1 h2
    have hp : p % 2 ^ 32 = p := Nat.mod_eq_of_lt (by omega)
    have e : decide (p < d.length) = true := decide_eq_true (by omega)
    obtain ⟨d', hd1, hd2, hd3⟩ := ih (d.set p v) (p + 1) v (by simp; omega) (by simpa using h2)
    refine ⟨d', ?_, by simpa using hd2, ?_⟩
    · simp only [fillLoop, hp, e, require_true, bind, Except.bind]
      exact hd1
    · intro q
      rw [hd3, List.getElem?_set]
      by_cases hq : p = q
      · subst hq
        rw [if_neg (by omega), if_pos rfl, if_pos (by omega), if_pos (by omega)]
      · rw [if_neg hq]
        by_cases h3 : p + 1 ≤ q ∧ q < p + 1 + n
        · rw [if_pos h3, if_pos (by omega)]
        · rw [if_neg h3, if_neg (by omega)]

theorem Holds.cap_le {K : Nat} {d : List α} {x : Ix} {xs : List α} (h : Holds K d x xs) : x.c ≤ 2 ^ K := by
  rcases h.pow with h | ⟨k, hk, h⟩
  · rw [h]; exact Nat.zero_le _
  · rw [h]; exact Nat.pow_le_pow_right (by omega) hk

/-- A length at which a bucket can be completely full. -/
def full (n : Nat) : Bool := n == 0 || (List.range n).any (fun k => 2 ^ k == n)

theorem full_of_pow {K n : Nat} (h : n = 0 ∨ ∃ k, k ≤ K ∧ n = 2 ^ k) : full n = true := by
  rcases h with h | ⟨k, _, h⟩
  · simp [full, h]
  · have : k < n := by rw [h]; exact Nat.lt_two_pow_self
    simp only [full, Bool.or_eq_true, List.any_eq_true, List.mem_range]
    exact Or.inr ⟨k, this, by simp [h]⟩

section
variable {W K : Nat} (hW : W = 32 ∨ W = 64) (hK : K < W) (dflt : α)
include hW hK

theorem pow_succ_lt : 2 ^ K + 1 < 2 ^ W := by
  have : 2 ^ K ≤ 2 ^ (W - 1) := Nat.pow_le_pow_right (by omega) (by omega)
  have h2 : 2 ^ W = 2 * 2 ^ (W - 1) := by
    rw [← Nat.pow_succ']; congr 1; omega
  have h3 : 2 ^ 2 ≤ 2 ^ (W - 1) := Nat.pow_le_pow_right (by omega) (by omega)
  omega

theorem reserve_ok {m : Map α} {L : List (List α)} (h : Inv lo K m L) {i n : Nat} {x : Ix} {xs : List α}
    (hi : m.index[i]? = some x) (hL : L[i]? = some xs) (hn : n < 2 ^ W) :
    (2 ^ K < n ∧ m.reserve W K dflt i n = .error .exn) ∨
    (n ≤ 2 ^ K ∧ ∃ m' y, m.reserve W K dflt i n = .ok m' ∧ Inv lo K m' L ∧ m'.index[i]? = some y ∧ n ≤ y.c ∧
      m'.count = m.count ∧ m'.data.length ≤ m.data.length + (if x.c < n then 2 * n else 0)) := by
  have hx := h.holds i x xs hi hL
  have hixok : m.ix i = .ok x := by simp [Map.ix, hi]
  unfold Map.reserve
  rw [hixok]
  simp only [bind, Except.bind]
  by_cases hc : x.c < n
  · rw [if_pos hc]
    rcases grow_ok hW hK dflt h hi hL hc hn with ⟨h1, h2⟩ | ⟨h1, m', y, h2, h3, h4, h5, h6, h7, h8⟩
    · exact Or.inl ⟨h1, h2⟩
    · exact Or.inr ⟨h1, m', y, h2, h3, h4, h5, h6, by rw [if_pos hc]; exact h8⟩
  · rw [if_neg hc]
    have := hx.cap_le
    exact Or.inr ⟨by omega, m, x, rfl, h, hi, by omega, rfl, by omega⟩

/-- What an operation on bucket `i` has to establish. -/
def Post (m : Map α) (A : Abs α) (i : Nat) (xs' : List α) (cost : Nat) (r : Res (Map α)) : Prop :=
  ∃ m', r = .ok m' ∧ Rel lo K m' { A with lists := A.lists.set i xs' } ∧ m'.data.length ≤ m.data.length + cost

omit hW hK in
theorem post_of {m m1 m' : Map α} {A : Abs α} {i : Nat} {y : Ix} {xs xs' : List α} {cost : Nat}
    (hR : Rel lo K m A) (hL : A.lists[i]? = some xs) (h1 : Inv lo K m1 A.lists) (hi : m1.index[i]? = some y)
    (hlen1 : m1.data.length ≤ m.data.length + cost)
    (hix : m'.index = m1.index.set i { y with s := xs'.length }) (hfree : m'.free = m1.free)
    (hlen : m'.data.length = m1.data.length) (hout : ∀ q, has q y = false → m'.data[q]? = m1.data[q]?)
    (hcap : xs'.length ≤ y.c) (hget : ∀ t, t < xs'.length → m'.data[y.b + t]? = xs'[t]?)
    (hcount : m'.count + xs.length = m.count + xs'.length) :
    Post (lo := lo) (K := K) m A i xs' cost (.ok m') := by
  refine ⟨m', rfl, ⟨h1.update hi hL hix hfree hlen hout hcap hget, ?_⟩, by omega⟩
  have := total_set hL xs'
  have := hR.count
  simp only
  omega

theorem push_ok {m : Map α} {A : Abs α} (hR : Rel lo K m A) {i : Nat} {xs : List α} (hL : A.lists[i]? = some xs)
    (v : α) :
    (xs.length = 2 ^ K ∧ m.pushBack W K dflt i v = .error .exn) ∨
    (xs.length < 2 ^ K ∧ Post (lo := lo) (K := K) m A i (xs ++ [v]) (if full xs.length then 2 * (xs.length + 1) else 0)
      (m.pushBack W K dflt i v)) := by
  obtain ⟨x, hi, hix, hx⟩ := hR.inv.ix hL
  have hs := hx.size; have hcl := hx.cap_le; have hc := hx.cap
  -- the bucket after making room
  have key : (xs.length = 2 ^ K ∧ m.growIfFull W K dflt i x = .error .exn) ∨
      (xs.length < 2 ^ K ∧ ∃ m1 y, m.growIfFull W K dflt i x = .ok m1 ∧
        Inv lo K m1 A.lists ∧ m1.index[i]? = some y ∧ xs.length + 1 ≤ y.c ∧ m1.count = m.count ∧
        m1.data.length ≤ m.data.length + (if full xs.length then 2 * (xs.length + 1) else 0)) := by
    unfold Map.growIfFull
    by_cases he : x.s = x.c
    · rw [if_pos he]
      have hlt := pow_succ_lt hW hK
      have hf : full xs.length = true := by
        rw [← hs, he]; exact full_of_pow hx.pow
      rcases grow_ok hW hK dflt hR.inv hi hL (Nat.lt_succ_self x.c) (by omega) with
        ⟨h1, h2⟩ | ⟨h1, m', y, h2, h3, h4, h5, h6, h7, h8⟩
      · exact Or.inl ⟨by omega, h2⟩
      · exact Or.inr ⟨by omega, m', y, h2, h3, h4, by omega, h6, by rw [hf, if_pos rfl, ← hs, he]; exact h8⟩
    · rw [if_neg he]
      exact Or.inr ⟨by omega, m, x, rfl, hR.inv, hi, by omega, rfl, by omega⟩
  unfold Map.pushBack
  rw [hix]
  simp only [bind, Except.bind]
  rcases key with ⟨h1, h2⟩ | ⟨h1, m1, y, h2, h3, h4, h5, h6, h7⟩
  · left; rw [h2]; exact ⟨h1, rfl⟩
  · right
    refine ⟨h1, ?_⟩
    have hy := h3.holds i y xs h4 hL
    have hys := hy.size; have hyb := hy.bound
    have e : decide (y.b + y.s < m1.data.length) = true := decide_eq_true (by omega)
    have hix1 : m1.ix i = .ok y := by simp [Map.ix, h4]
    rw [h2]
    simp only [hix1, e, require_true, pure, Except.pure]
    refine post_of (xs' := xs ++ [v]) hR hL h3 h4 h7 ?_ rfl ?_ ?_ ?_ ?_ ?_
    · simp [Map.setIx, hys]
    · simp [Map.setIx]
    · intro q hq
      rw [has_false] at hq
      simp only [Map.setIx]
      rw [List.getElem?_set, if_neg (by omega)]
    · simp; omega
    · intro t ht
      simp only [List.length_append, List.length_singleton] at ht
      simp only [Map.setIx]
      rw [List.getElem?_set]
      by_cases htx : t = xs.length
      · subst htx
        rw [if_pos (by omega), if_pos (by omega)]; simp
      · rw [if_neg (by omega), hy.get t (by omega), List.getElem?_append_left (by omega)]
    · simp [Map.setIx]; omega

theorem insert_ok {m : Map α} {A : Abs α} (hR : Rel lo K m A) {i pos : Nat} {xs : List α}
    (hL : A.lists[i]? = some xs) (hpos : pos ≤ xs.length) (v : α) :
    (xs.length = 2 ^ K ∧ m.insert W K dflt i pos v = .error .exn) ∨
    (xs.length < 2 ^ K ∧ Post (lo := lo) (K := K) m A i (xs.take pos ++ v :: xs.drop pos)
      (if full xs.length then 2 * (xs.length + 1) else 0) (m.insert W K dflt i pos v)) := by
  obtain ⟨x, hi, hix, hx⟩ := hR.inv.ix hL
  have hs := hx.size; have hcl := hx.cap_le; have hc := hx.cap
  have hlt := pow_succ_lt hW hK
  unfold Map.insert
  rw [hix]
  simp only [bind, Except.bind]
  rcases reserve_ok hW hK dflt hR.inv hi hL (n := x.s + 1) (by omega) with
    ⟨h1, h2⟩ | ⟨h1, m1, y, h2, h3, h4, h5, h6, h7⟩
  · left; rw [h2]; exact ⟨by omega, rfl⟩
  · right
    refine ⟨by omega, ?_⟩
    have hy := h3.holds i y xs h4 hL
    have hys := hy.size; have hyb := hy.bound
    have e1 : decide (pos ≤ y.s) = true := decide_eq_true (by omega)
    have e2 : decide (y.b + y.s + 1 ≤ m1.data.length) = true := decide_eq_true (by omega)
    have hix1 : m1.ix i = .ok y := by simp [Map.ix, h4]
    have hsl := hy.slice (m := m1) (p := pos) (n := y.s - pos) (by omega)
    have htl : (xs.drop pos).take (y.s - pos) = xs.drop pos := by
      rw [List.take_of_length_le (i := y.s - pos) (l := xs.drop pos) (by simp; omega)]
    rw [htl] at hsl
    rw [h2]
    simp only [hix1, e1, e2, require_true, hsl, pure, Except.pure]
    have hbl : y.b + pos + 1 + (xs.drop pos).length ≤ m1.data.length := by simp; omega
    have hcost : m1.data.length ≤ m.data.length + (if full xs.length then 2 * (xs.length + 1) else 0) := by
      by_cases hg : x.c < x.s + 1
      · have hf : full xs.length = true := by
          rw [show xs.length = x.c by omega]; exact full_of_pow hx.pow
        rw [if_pos hg] at h7
        rw [hf, if_pos rfl, ← hs]; exact h7
      · rw [if_neg hg] at h7; omega
    refine post_of (xs' := xs.take pos ++ v :: xs.drop pos) hR hL h3 h4 hcost ?_ rfl ?_ ?_ ?_ ?_ ?_
    · simp only [Map.setIx]; congr 2; simp; omega
    · simp only [Map.setIx, List.length_set]; exact blit_length _ _ _ hbl
    · intro q hq
      rw [has_false] at hq
      simp only [Map.setIx]
      rw [List.getElem?_set, if_neg (by omega), blit_get _ _ _ hbl, if_neg (by simp; omega)]
    · simp; omega
    · intro t ht
      have ht' : t < xs.length + 1 := by simp at ht; omega
      simp only [Map.setIx]
      rw [List.getElem?_set, blit_length _ _ _ hbl, blit_get _ _ _ hbl]
      by_cases h8 : t < pos
      · rw [if_neg (by omega), if_neg (by omega), hy.get t (by omega),
          List.getElem?_append_left (by simp; omega), List.getElem?_take, if_pos h8]
      · rw [List.getElem?_append_right (by simp; omega)]
        simp only [List.length_take, Nat.min_eq_left hpos]
        by_cases h9 : t = pos
        · subst h9
          rw [if_pos rfl, if_pos (by omega)]; simp
        · rw [if_neg (by omega), if_pos (by simp; omega), show t - pos = (t - pos - 1) + 1 by omega,
            List.getElem?_cons_succ]
          congr 1; omega
    · simp [Map.setIx]; omega

theorem resize_ok {m : Map α} {A : Abs α} (hR : Rel lo K m A) {i n : Nat} {xs : List α}
    (hL : A.lists[i]? = some xs) (hn : n < 2 ^ W) (v : α)
    (hb : m.data.length + (if xs.length < n then 2 * n else 0) ≤ 2 ^ 32) :
    (2 ^ K < n ∧ m.resize W K dflt i n v = .error .exn) ∨
    (n ≤ 2 ^ K ∧ Post (lo := lo) (K := K) m A i (xs.take n ++ List.replicate (n - xs.length) v)
      (if xs.length < n then 2 * n else 0) (m.resize W K dflt i n v)) := by
  obtain ⟨x, hi, hix, hx⟩ := hR.inv.ix hL
  have hs := hx.size; have hc := hx.cap
  have hcnt : xs.length ≤ m.count := by
    have h1 := total_set hL []
    have h2 := hR.count
    simp at h1; omega
  unfold Map.resize
  rw [hix]
  simp only [bind, Except.bind]
  rcases reserve_ok hW hK dflt hR.inv hi hL hn with ⟨h1, h2⟩ | ⟨h1, m1, y, h2, h3, h4, h5, h6, h7⟩
  · left; rw [h2]; exact ⟨h1, rfl⟩
  · right
    refine ⟨h1, ?_⟩
    have hy := h3.holds i y xs h4 hL
    have hys := hy.size; have hyb := hy.bound
    have hix1 : m1.ix i = .ok y := by simp [Map.ix, h4]
    have hcost : m1.data.length ≤ m.data.length + (if xs.length < n then 2 * n else 0) := by
      by_cases hg : x.c < n
      · rw [if_pos hg] at h7; rw [if_pos (by omega)]; exact h7
      · rw [if_neg hg] at h7; omega
    rw [h2]
    simp only [hix1]
    by_cases hlt : n < x.s
    · rw [if_pos hlt]
      simp only [pure, Except.pure]
      have hl : (xs.take n ++ List.replicate (n - xs.length) v).length = n := by simp; omega
      refine post_of (xs' := xs.take n ++ List.replicate (n - xs.length) v) hR hL h3 h4 hcost
        ?_ rfl rfl (fun _ _ => rfl) ?_ ?_ ?_
      · rw [hl]; rfl
      · rw [hl]; exact h5
      · intro t ht
        rw [hl] at ht
        simp only [Map.setIx]
        rw [hy.get t (by omega), List.getElem?_append_left (by simp; omega), List.getElem?_take, if_pos ht]
      · rw [hl]; simp [Map.setIx]; omega
    · rw [if_neg hlt]
      have hl : (xs.take n ++ List.replicate (n - xs.length) v).length = n := by simp; omega
      obtain ⟨d, hd1, hd2, hd3⟩ := fillLoop_ok (n - x.s) m1.data (y.b + x.s) v (by omega) (by omega)
      rw [hd1]
      simp only [pure, Except.pure]
      refine post_of (xs' := xs.take n ++ List.replicate (n - xs.length) v) hR hL h3 h4 hcost
        ?_ rfl hd2 ?_ ?_ ?_ ?_
      · rw [hl]; rfl
      · intro q hq
        rw [has_false] at hq
        simp only [Map.setIx]
        rw [hd3, if_neg (by omega)]
      · rw [hl]; exact h5
      · intro t ht
        rw [hl] at ht
        simp only [Map.setIx]
        rw [hd3, List.take_of_length_le (i := n) (l := xs) (by omega)]
        by_cases h8 : t < xs.length
        · rw [if_neg (by omega), hy.get t h8, List.getElem?_append_left h8]
        · rw [if_pos (by omega), List.getElem?_append_right (by omega), List.getElem?_replicate, if_pos (by omega)]
      · rw [hl]; simp [Map.setIx]; omega

end

theorem Rel.le_count {K : Nat} {m : Map α} {A : Abs α} (hR : Rel lo K m A) {i : Nat} {xs : List α}
    (hL : A.lists[i]? = some xs) : xs.length ≤ m.count := by
  have h1 := total_set hL []
  have h2 := hR.count
  simp at h1; omega

theorem clearBucket_ok {K : Nat} {m : Map α} {A : Abs α} (hR : Rel lo K m A) {i : Nat} {xs : List α}
    (hL : A.lists[i]? = some xs) : Post (lo := lo) (K := K) m A i [] 0 (m.clearBucket i) := by
  obtain ⟨x, hi, hix, hx⟩ := hR.inv.ix hL
  have := hx.size; have := hR.le_count hL
  unfold Map.clearBucket
  rw [hix]
  refine post_of (xs' := []) hR hL hR.inv hi (by omega) rfl rfl rfl (fun _ _ => rfl) (Nat.zero_le _)
    (fun t ht => absurd ht (Nat.not_lt_zero _)) ?_
  simp [Map.setIx]; omega

theorem erase_ok {K : Nat} {m : Map α} {A : Abs α} (hR : Rel lo K m A) {i pos : Nat} {xs : List α}
    (hL : A.lists[i]? = some xs) (hpos : pos < xs.length) :
    Post (lo := lo) (K := K) m A i (xs.eraseIdx pos) 0 (m.erase i pos) := by
  obtain ⟨x, hi, hix, hx⟩ := hR.inv.ix hL
  have hs := hx.size; have hcnt := hR.le_count hL; have hc := hx.cap; have hb := hx.bound
  have hl : (xs.eraseIdx pos).length = xs.length - 1 := by rw [List.length_eraseIdx, if_pos hpos]
  unfold Map.erase
  rw [hix]
  have e1 : (decide (pos < x.s) && decide (x.b + x.s ≤ m.data.length)) = true := by
    simp; omega
  simp only [bind, Except.bind, e1, require_true, pure, Except.pure]
  refine post_of (xs' := xs.eraseIdx pos) hR hL hR.inv hi (by omega) ?_ rfl (swapLoop_length _ _ _) ?_ ?_ ?_ ?_
  · rw [hl, ← hs]; rfl
  · intro q hq
    rw [has_false] at hq
    simp only [Map.setIx]
    rw [swapLoop_get _ _ _ (by omega), if_pos (by omega)]
  · omega
  · intro t ht
    simp only [Map.setIx]
    rw [swapLoop_get _ _ _ (by omega), List.getElem?_eraseIdx]
    by_cases h1 : t < pos
    · rw [if_pos (by omega), if_pos h1, hx.get t (by omega)]
    · rw [if_neg (by omega), if_pos (by omega), if_neg h1, Nat.add_assoc, hx.get (t + 1) (by omega)]
  · rw [hl]; simp [Map.setIx]; omega

theorem eraseRange_ok {K : Nat} {m : Map α} {A : Abs α} (hR : Rel lo K m A) {i p q : Nat} {xs : List α}
    (hL : A.lists[i]? = some xs) (hpq : p ≤ q) (hq : q ≤ xs.length) :
    Post (lo := lo) (K := K) m A i (xs.take p ++ xs.drop q) 0 (m.eraseRange i p q) := by
  obtain ⟨x, hi, hix, hx⟩ := hR.inv.ix hL
  have hs := hx.size; have hcnt := hR.le_count hL; have hc := hx.cap; have hb := hx.bound
  unfold Map.eraseRange
  rw [hix]
  have e1 : (decide (p ≤ q) && decide (q ≤ x.s)) = true := by simp; omega
  simp only [bind, Except.bind, e1, require_true]
  by_cases he : p = q
  · subst he
    rw [if_pos rfl]
    refine ⟨m, rfl, ?_, by omega⟩
    rw [List.take_append_drop, set_self hL]
    exact hR
  · rw [if_neg he]
    have hsl := hx.slice (m := m) (p := q) (n := x.s - q) (by omega)
    have htl : (xs.drop q).take (x.s - q) = xs.drop q := by
      rw [List.take_of_length_le (i := x.s - q) (l := xs.drop q) (by simp; omega)]
    rw [htl] at hsl
    simp only [hsl, pure, Except.pure]
    have hbl : x.b + p + (xs.drop q).length ≤ m.data.length := by simp; omega
    have hl : (xs.take p ++ xs.drop q).length = xs.length - (q - p) := by simp; omega
    refine post_of (xs' := xs.take p ++ xs.drop q) hR hL hR.inv hi (by omega) ?_ rfl (blit_length _ _ _ hbl) ?_ ?_ ?_ ?_
    · rw [hl, ← hs]; rfl
    · intro r hr
      rw [has_false] at hr
      simp only [Map.setIx]
      rw [blit_get _ _ _ hbl, if_neg (by simp; omega)]
    · omega
    · intro t ht
      rw [hl] at ht
      simp only [Map.setIx]
      rw [blit_get _ _ _ hbl]
      by_cases h1 : t < p
      · rw [if_neg (by omega), hx.get t (by omega), List.getElem?_append_left (by simp; omega),
          List.getElem?_take, if_pos h1]
      · rw [if_pos (by simp; omega), List.getElem?_append_right (by simp; omega)]
        congr 1; simp; omega
    · rw [hl]; simp [Map.setIx]; omega

theorem write_ok {K : Nat} {m : Map α} {A : Abs α} (hR : Rel lo K m A) {i j : Nat} {xs : List α}
    (hL : A.lists[i]? = some xs) (hj : j < xs.length) (v : α) :
    Post (lo := lo) (K := K) m A i (xs.set j v) 0 (m.write i j v) := by
  obtain ⟨x, hi, hix, hx⟩ := hR.inv.ix hL
  have hs := hx.size; have hc := hx.cap; have hb := hx.bound
  unfold Map.write
  rw [hix]
  have e1 : (decide (j < x.s) && decide (x.b + j < m.data.length)) = true := by simp; omega
  simp only [bind, Except.bind, e1, require_true, pure, Except.pure]
  refine post_of (xs' := xs.set j v) hR hL hR.inv hi (by omega) ?_ rfl (by simp) ?_ (by simpa using hc) ?_ (by simp)
  · rw [List.length_set, ← hs]
    exact (set_self hi).symm
  · intro q hq
    rw [has_false] at hq
    simp only
    rw [List.getElem?_set, if_neg (by omega)]
  · intro t ht
    simp only [List.length_set] at ht
    simp only
    rw [List.getElem?_set, List.getElem?_set]
    by_cases h1 : j = t
    · subst h1
      rw [if_pos rfl, if_pos (by omega), if_pos rfl, if_pos hj]
    · rw [if_neg (by omega), if_neg h1, hx.get t ht]

theorem eraseKey_ok {W K : Nat} (hK : K < W) {m : Map α} {A : Abs α} (hR : Rel lo K m A) {i : Nat} {xs : List α}
    (hL : A.lists[i]? = some xs) : ∃ m', m.eraseKey W i = .ok m' ∧
      Rel lo K m' ⟨A.lists.set i [], A.lost + xs.length⟩ ∧ m'.data.length = m.data.length := by
  obtain ⟨x, hi, hix, hx⟩ := hR.inv.ix hL
  have hs := hx.size; have hc := hx.cap
  unfold Map.eraseKey
  rw [hi]
  dsimp only
  by_cases hc0 : x.c = 0
  · rw [if_pos hc0]
    have hxs : xs = [] := List.eq_nil_of_length_eq_zero (by omega)
    subst hxs
    refine ⟨m, rfl, ?_, rfl⟩
    rw [set_self hL]
    exact ⟨hR.inv, by simpa using hR.count⟩
  · rw [if_neg hc0]
    obtain ⟨f', hf1, hf2, hf3, hf4⟩ := release_ok hK (m := m) (x := x) hR.inv.flen hx.pow
    rw [hf1]
    simp only [bind, Except.bind, pure, Except.pure]
    refine ⟨_, rfl, ⟨?_, ?_⟩, rfl⟩
    · have hb := hx.bound
      refine hR.inv.rebuildSet hi rfl ⟨rfl, Nat.zero_le _, ?_, fun t ht => absurd ht (Nat.not_lt_zero _), Or.inl rfl⟩
        (Nat.le_refl _) (fun _ _ _ _ _ _ _ => rfl) hf2 ?_ ?_
      · simp only [Map.setIx]; omega
      · intro k fl z hk hz
        rcases hf4 k fl z hk hz with ⟨fl', h3, h4⟩ | ⟨h3, h4⟩
        · exact hR.inv.free k fl' z h3 h4
        · subst h3; exact ⟨h4, hb⟩
      · intro p hp
        have h3 := countP_set_ix (y := ⟨x.b, 0, 0⟩) hi p
        have h4 := hR.inv.cov p hp
        have h5 := hf3 p
        have h6 : has p ⟨x.b, 0, 0⟩ = false := by rw [has_false]; simp only; omega
        rw [h6] at h3
        simp only [Bool.false_eq_true, if_false] at h3
        simp only [cover, Map.setIx] at h4 ⊢
        omega
    · have h1 := total_set hL []
      have h2 := hR.count
      simp only [Map.setIx]
      simp at h1; omega

theorem eraseKey_out {W : Nat} {m : Map α} {i : Nat} (h : m.index.length ≤ i) : m.eraseKey W i = .ok m := by
  unfold Map.eraseKey
  rw [List.getElem?_eq_none h]

theorem resizeIndex_ok {K : Nat} {m : Map α} {A : Abs α} (hR : Rel lo K m A) {n : Nat} (hn : n < 2 ^ 32)
    (hle : m.index.length ≤ n) :
    Rel lo K (m.resizeIndex n) { A with lists := A.lists ++ List.replicate (n - A.lists.length) [] } := by
  have hI := hR.inv
  have hmod : n % 2 ^ 32 = n := Nat.mod_eq_of_lt hn
  have hidx : (m.resizeIndex n).index = m.index ++ List.replicate (n - m.index.length) ⟨0, 0, 0⟩ := by
    simp only [Map.resizeIndex, hmod]
    rw [List.take_of_length_le (i := n) (l := m.index) hle]
  refine ⟨⟨?_, ?_, hI.flen, hI.free, hI.lo_le, ?_⟩, ?_⟩
  · rw [hidx]; simp [hI.len]
  · intro i x xs hi hxs
    rw [hidx] at hi
    by_cases h : i < m.index.length
    · rw [List.getElem?_append_left h] at hi
      rw [List.getElem?_append_left (by rw [← hI.len]; exact h)] at hxs
      exact hI.holds i x xs hi hxs
    · rw [List.getElem?_append_right (by omega), List.getElem?_replicate] at hi
      rw [List.getElem?_append_right (by rw [← hI.len]; omega), List.getElem?_replicate] at hxs
      split at hi
      · split at hxs
        · injection hi with hi; injection hxs with hxs
          subst hi hxs
          exact ⟨rfl, Nat.zero_le _, Nat.zero_le _, fun t ht => absurd ht (Nat.not_lt_zero _), Or.inl rfl⟩
        · cases hxs
      · cases hi
  · intro p hp
    have h1 := hI.cov p hp
    have h2 : (List.replicate (n - m.index.length) (⟨0, 0, 0⟩ : Ix)).countP (has p) = 0 := by
      rw [List.countP_eq_zero]
      intro z hz
      rw [List.eq_of_mem_replicate hz]
      simp [has]
    simp only [cover, hidx, List.countP_append, h2] at h1 ⊢
    exact h1
  · have h1 : total (A.lists ++ List.replicate (n - A.lists.length) []) = total A.lists := by
      simp [total]
    simp only [h1]
    exact hR.count

theorem clear_ok {K : Nat} {m : Map α} {A : Abs α} (hR : Rel lo K m A) : Rel lo K m.clear ⟨[], 0⟩ := by
  refine ⟨⟨rfl, ?_, ?_, ?_, hR.inv.lo_le, ?_⟩, rfl⟩
  · intro i x xs hi; simp [Map.clear] at hi
  · simp [Map.clear, hR.inv.flen]
  · intro k fl x hk hx
    simp only [Map.clear, List.getElem?_map] at hk
    cases h : m.free[k]? with
    | none => rw [h] at hk; cases hk
    | some f => rw [h] at hk; injection hk with hk; subst hk; cases hx
  · intro p hp; simp [Map.clear] at hp

theorem empty_rel (K : Nat) (hlo : lo ≤ 1) : Rel lo K (Map.empty K : Map α) ⟨[], 0⟩ := by
  refine ⟨⟨rfl, ?_, by simp [Map.empty], ?_, hlo, ?_⟩, rfl⟩
  · intro i x xs hi; simp [Map.empty] at hi
  · intro k fl x hk hx
    simp only [Map.empty, List.getElem?_replicate] at hk
    split at hk
    · injection hk with hk; subst hk; cases hx
    · cases hk
  · intro p hp; simp [Map.empty] at hp

end Cista.MM
