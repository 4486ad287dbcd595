import Verif.MM.Model
import Verif.Multi.Offs

set_option linter.unusedSimpArgs false

/-! # Invariant of the mutable multimap -/
namespace Cista.MM

variable {α : Type} {lo : Nat}

/-! ## Orders -/

theorem std_of {W : Nat} (hW : W = 32 ∨ W = 64) : Arith.StdWidth W := by
  rcases hW with rfl | rfl
  · exact Or.inr (Or.inr (Or.inl rfl))
  · exact Or.inr (Or.inr (Or.inr rfl))

theorem order_pow {W k : Nat} (hk : k < W) : getOrder W (2 ^ k) = .ok k := by
  have hlt : 2 ^ k < 2 ^ W := Nat.pow_lt_pow_right (by omega) hk
  have hbit : ∀ i, (BitVec.ofNat W (2 ^ k)).getLsbD i = decide (i = k) := by
    intro i
    rw [BitVec.getLsbD_ofNat, Nat.testBit_two_pow]
    by_cases hi : i = k
    · subst hi; simp [hk]
    · have : k ≠ i := fun h => hi h.symm
      simp [hi, this]
  have hne : BitVec.ofNat W (2 ^ k) ≠ 0#W := by
    intro h
    have := hbit k
    rw [h] at this
    simp at this
  obtain ⟨i, hi, h1, h2, h3⟩ := Arith.C47_trailing_zeros _ hne
  rw [hbit] at h2
  have : i = k := of_decide_eq_true h2
  rw [getOrder, hi, this]

/-- The order computed for a request: the least power of two if the request is small enough, otherwise
an order that is rejected. -/
theorem order_spec {W K req : Nat} (hW : W = 32 ∨ W = 64) (hK : K < W) (h0 : 0 < req) (hreq : req < 2 ^ W) :
    (req ≤ 2 ^ K ∧ ∃ k, k ≤ K ∧ newCapacity W req = 2 ^ k ∧ getOrder W (newCapacity W req) = .ok k ∧
      req ≤ 2 ^ k ∧ 2 ^ k < 2 * req) ∨
    (2 ^ K < req ∧ ∃ o, getOrder W (newCapacity W req) = .ok o ∧ K < o) := by
  have hn : (BitVec.ofNat W req).toNat = req := by
    rw [BitVec.toNat_ofNat]; exact Nat.mod_eq_of_lt hreq
  by_cases hmax : req ≤ 2 ^ (W - 1)
  · obtain ⟨k, hk1, hk2, hk3⟩ := Arith.C01_next_power_of_two_least (std_of hW) (BitVec.ofNat W req)
      (by intro h; have := congrArg BitVec.toNat h; rw [hn] at this; simp at this; omega) (by rw [hn]; exact hmax)
    rw [hn] at hk2 hk3
    have hkW : k < W := by
      have := hk3 (W - 1) hmax
      have := (Nat.pow_le_pow_iff_right (show 1 < 2 by omega)).1 this
      omega
    have hord : getOrder W (newCapacity W req) = .ok k := by
      rw [newCapacity, hk1]; exact order_pow hkW
    by_cases hle : req ≤ 2 ^ K
    · left
      have := hk3 K hle
      have hkK := (Nat.pow_le_pow_iff_right (show 1 < 2 by omega)).1 this
      refine ⟨hle, k, hkK, hk1, hord, hk2, ?_⟩
      cases k with
      | zero => simp; omega
      | succ k =>
        by_cases h : 2 ^ (k + 1) < 2 * req
        · exact h
        · have h2 : req ≤ 2 ^ k := by rw [Nat.pow_succ] at h; omega
          have := hk3 k h2
          have := (Nat.pow_le_pow_iff_right (show 1 < 2 by omega)).1 this
          omega
    · right
      refine ⟨by omega, k, hord, ?_⟩
      by_cases h : k ≤ K
      · have := Nat.pow_le_pow_right (n := 2) (by omega) h
        omega
      · omega
  · right
    have hz := Arith.C01_next_power_of_two_zero (std_of hW) (BitVec.ofNat W req) (Or.inr (by rw [hn]; omega))
    have : 2 ^ K ≤ 2 ^ (W - 1) := Nat.pow_le_pow_right (by omega) (by omega)
    refine ⟨by omega, W, ?_, hK⟩
    rw [newCapacity, getOrder, hz]
    simp [Arith.trailingZeros]

/-! ## Pointwise data updates -/

theorem blit_length (d : List α) (p : Nat) (xs : List α) (h : p + xs.length ≤ d.length) :
    (blit d p xs).length = d.length := by
  simp [blit]; omega

theorem blit_get (d : List α) (p : Nat) (xs : List α) (h : p + xs.length ≤ d.length) (q : Nat) :
    (blit d p xs)[q]? = if p ≤ q ∧ q < p + xs.length then xs[q - p]? else d[q]? := by
  unfold blit
  by_cases h1 : q < p
  · rw [if_neg (by omega), List.append_assoc, List.getElem?_append_left (by simp; omega), List.getElem?_take,
      if_pos h1]
  · rw [List.append_assoc, List.getElem?_append_right (by simp; omega)]
    simp only [List.length_take, Nat.min_eq_left (show p ≤ d.length by omega)]
    by_cases h2 : q < p + xs.length
    · rw [if_pos ⟨by omega, h2⟩, List.getElem?_append_left (by omega)]
    · rw [if_neg (by omega), List.getElem?_append_right (by omega), List.getElem?_drop,
        show p + xs.length + (q - p - xs.length) = q by omega]

theorem swapNext_get (d : List α) (p : Nat) (h : p + 1 < d.length) (q : Nat) :
    (swapNext d p)[q]? = if q = p then d[p + 1]? else if q = p + 1 then d[p]? else d[q]? := by
  unfold swapNext
  rw [List.getElem?_eq_getElem (show p < d.length by omega), List.getElem?_eq_getElem h]
  simp only [List.getElem?_set]
  by_cases h1 : q = p
  · subst h1
    rw [if_neg (show ¬ (q + 1 = q) by omega)]
    simp; omega
  · by_cases h2 : q = p + 1
    · subst h2; simp [h]
    · have h3 : ¬ (p + 1 = q) := fun h => h2 h.symm
      have h4 : ¬ (p = q) := fun h => h1 h.symm
      simp [h1, h2, h3, h4]

theorem swapNext_length (d : List α) (p : Nat) : (swapNext d p).length = d.length := by
  unfold swapNext; split <;> simp

theorem swapLoop_length (n : Nat) : ∀ (d : List α) (p : Nat), (swapLoop n d p).length = d.length := by
  induction n with
  | zero => intro d p; rfl
  | succ n ih => intro d p; rw [swapLoop, ih, swapNext_length]

theorem swapLoop_get (n : Nat) : ∀ (d : List α) (p : Nat), p + n < d.length → ∀ q,
    (swapLoop n d p)[q]? = if q < p ∨ p + n < q then d[q]? else if q < p + n then d[q + 1]? else d[p]? := by
  induction n with
  | zero =>
    intro d p h q
    simp only [swapLoop, Nat.add_zero]
    by_cases hq : q = p
    · subst hq; simp
    · rw [if_pos (by omega)]
  | succ n ih =>
    intro d p h q
    rw [swapLoop, ih _ _ (by rw [swapNext_length]; omega)]
    simp only [swapNext_get d p (by omega)]
    by_cases h1 : q < p
    · rw [if_pos (by omega), if_neg (by omega), if_neg (by omega), if_pos (by omega)]
    · by_cases h2 : q = p
      · subst h2
        rw [if_pos (by omega), if_pos rfl, if_neg (by omega), if_pos (by omega)]
      · by_cases h3 : p + 1 + n < q
        · rw [if_pos (by omega), if_neg (by omega), if_neg (by omega), if_pos (by omega)]
        · rw [if_neg (by omega)]
          by_cases h4 : q < p + 1 + n
          · rw [if_pos h4, if_neg (by omega), if_neg (by omega), if_neg (by omega), if_pos (by omega)]
          · rw [if_neg h4, if_neg (by omega), if_pos trivial, if_neg (by omega), if_neg (by omega)]

/-! ## Invariant -/

/-- The region contains position `p`. -/
def has (p : Nat) (x : Ix) : Bool := decide (x.b ≤ p ∧ p < x.b + x.c)

/-- How many regions contain position `p`. -/
def cover (m : Map α) (p : Nat) : Nat := m.index.countP (has p) + m.free.flatten.countP (has p)

/-- A bucket entry and the list it holds. -/
structure Holds (K : Nat) (data : List α) (x : Ix) (xs : List α) : Prop where
  size : x.s = xs.length
  cap : xs.length ≤ x.c
  bound : x.b + x.c ≤ data.length
  get : ∀ t, t < xs.length → data[x.b + t]? = xs[t]?
  pow : x.c = 0 ∨ ∃ k, k ≤ K ∧ x.c = 2 ^ k

/-- Regions do not overlap; every position of `data_` is contained in at least `lo` regions (`lo = 1`:
the regions cover `data_`; `lo = 0`: storage may have been lost by a failed allocation). -/
structure Inv (lo K : Nat) (m : Map α) (L : List (List α)) : Prop where
  len : m.index.length = L.length
  holds : ∀ (i : Nat) (x : Ix) (xs : List α), m.index[i]? = some x → L[i]? = some xs → Holds K m.data x xs
  flen : m.free.length = K + 1
  free : ∀ (k : Nat) (fl : List Ix) (x : Ix), m.free[k]? = some fl → x ∈ fl → x.c = 2 ^ k ∧ x.b + x.c ≤ m.data.length
  lo_le : lo ≤ 1
  cov : ∀ p, p < m.data.length → lo ≤ cover m p ∧ cover m p ≤ 1

theorem Inv.ix {K : Nat} {m : Map α} {L : List (List α)} (h : Inv lo K m L) {i : Nat} {xs : List α}
    (hi : L[i]? = some xs) : ∃ x, m.index[i]? = some x ∧ m.ix i = .ok x ∧ Holds K m.data x xs := by
  have hil : i < m.index.length := by rw [h.len]; exact (List.getElem?_eq_some_iff.1 hi).1
  refine ⟨m.index[i], List.getElem?_eq_getElem hil, ?_, h.holds i _ _ (List.getElem?_eq_getElem hil) hi⟩
  simp [Map.ix, List.getElem?_eq_getElem hil]

theorem Holds.slice {K : Nat} {m : Map α} {x : Ix} {xs : List α} (h : Holds K m.data x xs) {p n : Nat}
    (hp : p + n ≤ xs.length) : m.slice (x.b + p) n = .ok ((xs.drop p).take n) := by
  have := h.cap; have := h.bound
  have hr : decide (x.b + p + n ≤ m.data.length) = true := decide_eq_true (by omega)
  simp only [Map.slice, hr, require_true, bind, Except.bind, pure, Except.pure]
  congr 1
  apply List.ext_getElem?
  intro t
  rw [List.getElem?_take, List.getElem?_take]
  split
  · rw [List.getElem?_drop, List.getElem?_drop, Nat.add_assoc, h.get _ (by omega)]
  · rfl

theorem countP_pos_ix {l : List Ix} {x : Ix} {p : Nat} (hx : x ∈ l) (hp : has p x = true) :
    0 < l.countP (has p) := List.countP_pos_iff.2 ⟨x, hx, hp⟩

theorem countP_set_ix {l : List Ix} {i : Nat} {x y : Ix} (h : l[i]? = some x) (p : Nat) :
    (l.set i y).countP (has p) + (if has p x then 1 else 0) = l.countP (has p) + (if has p y then 1 else 0) := by
  obtain ⟨hi, hx⟩ := List.getElem?_eq_some_iff.1 h
  rw [List.countP_set hi, hx]
  have : has p x = true → 0 < l.countP (has p) := fun hp => countP_pos_ix (List.mem_of_getElem? h) hp
  split <;> split <;> simp_all <;> omega

/-- Two different entries do not share positions. -/
theorem countP_two {l : List Ix} {i j : Nat} {x y : Ix} (hij : i ≠ j) (hi : l[i]? = some x) (hj : l[j]? = some y)
    {p : Nat} (hx : has p x = true) (hy : has p y = true) : 2 ≤ l.countP (has p) := by
  have h1 := countP_set_ix (y := ⟨0, 0, 0⟩) hi p
  have h2 : (l.set i ⟨0, 0, 0⟩)[j]? = some y := by rw [List.getElem?_set, if_neg hij]; exact hj
  have h3 := countP_pos_ix (List.mem_of_getElem? h2) hy
  have h4 : has p ⟨0, 0, 0⟩ = false := by simp [has]
  simp [hx, h4] at h1
  omega

theorem Inv.disj {K : Nat} {m : Map α} {L : List (List α)} (h : Inv lo K m L) {i j : Nat} {x y : Ix} (hij : i ≠ j)
    (hi : m.index[i]? = some x) (hj : m.index[j]? = some y) {p : Nat} (hp : p < m.data.length)
    (hx : has p x = true) : has p y = false := by
  cases hy : has p y with
  | false => rfl
  | true =>
    have := countP_two hij hi hj hx hy
    have := h.cov p hp
    simp only [cover] at this
    omega

theorem flatten_countP_set {C : List (List Ix)} {i : Nat} {fl : List Ix} (h : C[i]? = some fl) (b : List Ix)
    (p : Nat) : (C.set i b).flatten.countP (has p) + fl.countP (has p) =
      C.flatten.countP (has p) + b.countP (has p) := by
  obtain ⟨hi, hx⟩ := List.getElem?_eq_some_iff.1 h
  rw [Multi.set_split hi, Multi.flatten_split hi, hx]
  simp only [List.countP_append]
  omega

theorem Inv.disjFree {K : Nat} {m : Map α} {L : List (List α)} (h : Inv lo K m L) {i k : Nat} {x y : Ix}
    {fl : List Ix} (hi : m.index[i]? = some x) (hk : m.free[k]? = some fl) (hy : y ∈ fl) {p : Nat}
    (hp : p < m.data.length) (hpy : has p y = true) : has p x = false := by
  cases hx : has p x with
  | false => rfl
  | true =>
    have h1 := countP_pos_ix (List.mem_of_getElem? hi) hx
    have h2 := countP_pos_ix hy hpy
    have h3 := flatten_countP_set hk [] p
    have := h.cov p hp
    simp only [cover] at this
    simp only [List.countP_nil] at h3
    omega

theorem has_iff {p : Nat} {x : Ix} : has p x = true ↔ x.b ≤ p ∧ p < x.b + x.c := by simp [has]

theorem has_false {p : Nat} {x : Ix} : has p x = false ↔ ¬ (x.b ≤ p ∧ p < x.b + x.c) := by
  rw [← has_iff, Bool.not_eq_true]

/-- Changing the content of one bucket inside its region. -/
theorem Inv.update {K : Nat} {m m' : Map α} {L : List (List α)} (h : Inv lo K m L) {i : Nat} {x : Ix}
    {xs xs' : List α} (hi : m.index[i]? = some x) (hL : L[i]? = some xs)
    (hix : m'.index = m.index.set i { x with s := xs'.length }) (hfree : m'.free = m.free)
    (hlen : m'.data.length = m.data.length)
    (hout : ∀ q, has q x = false → m'.data[q]? = m.data[q]?)
    (hcap : xs'.length ≤ x.c)
    (hget : ∀ t, t < xs'.length → m'.data[x.b + t]? = xs'[t]?) : Inv lo K m' (L.set i xs') where
  len := by rw [hix]; simp [h.len]
  holds := by
    intro j y ys hj hys
    have hx := h.holds i x xs hi hL
    rw [hix, List.getElem?_set] at hj
    rw [List.getElem?_set] at hys
    by_cases hij : i = j
    · subst hij
      have hil := (List.getElem?_eq_some_iff.1 hi).1
      have hiL := (List.getElem?_eq_some_iff.1 hL).1
      simp only [if_true, if_pos hil, Option.some.injEq] at hj
      simp only [if_true, if_pos hiL, Option.some.injEq] at hys
      subst hj hys
      exact ⟨rfl, hcap, by rw [hlen]; exact hx.bound, hget, hx.pow⟩
    · rw [if_neg hij] at hj hys
      have hy := h.holds j y ys hj hys
      refine ⟨hy.size, hy.cap, by rw [hlen]; exact hy.bound, ?_, hy.pow⟩
      intro t ht
      rw [hout, hy.get t ht]
      have := hy.cap; have := hy.bound
      refine h.disj (fun e => hij e.symm) hj hi (p := y.b + t) (by omega) ?_
      rw [has_iff]; omega
  flen := by rw [hfree]; exact h.flen
  free := by intro k fl y hk hy; rw [hfree] at hk; rw [hlen]; exact h.free k fl y hk hy
  lo_le := h.lo_le
  cov := by
    intro p hp
    rw [hlen] at hp
    have h1 := countP_set_ix (y := { x with s := xs'.length }) hi p
    have h2 : has p { x with s := xs'.length } = has p x := by simp [has]
    rw [h2] at h1
    have := h.cov p hp
    simp only [cover, hix, hfree] at this ⊢
    omega

/-! ## Growing a bucket -/

theorem release_ok {W K : Nat} (hK : K < W) {m : Map α} {x : Ix} (hf : m.free.length = K + 1)
    (hx : x.c = 0 ∨ ∃ k, k ≤ K ∧ x.c = 2 ^ k) :
    ∃ free', m.release W x = .ok { m with free := free' } ∧ free'.length = K + 1 ∧
      (∀ p, free'.flatten.countP (has p) = m.free.flatten.countP (has p) + (if has p x then 1 else 0)) ∧
      (∀ k fl y, free'[k]? = some fl → y ∈ fl → (∃ fl', m.free[k]? = some fl' ∧ y ∈ fl') ∨
        (y = { x with s := 0 } ∧ x.c = 2 ^ k)) := by
  unfold Map.release
  by_cases hc : x.c = 0
  · rw [if_pos hc]
    refine ⟨m.free, rfl, hf, ?_, fun k fl y h1 h2 => Or.inl ⟨fl, h1, h2⟩⟩
    intro p
    have : has p x = false := by simp [has, hc]
    simp [this]
  · rw [if_neg hc]
    obtain ⟨k, hk, hxc⟩ : ∃ k, k ≤ K ∧ x.c = 2 ^ k := by
      rcases hx with h | h
      · exact absurd h hc
      · exact h
    have hkl : k < m.free.length := by omega
    have ho : getOrder W x.c = .ok k := by rw [hxc]; exact order_pow (by omega)
    rw [ho]
    simp only [bind, Except.bind, List.getElem?_eq_getElem hkl]
    refine ⟨_, rfl, by simpa using hf, ?_, ?_⟩
    · intro p
      have h1 := flatten_countP_set (List.getElem?_eq_getElem hkl) (m.free[k] ++ [{ x with s := 0 }]) p
      have h2 : has p { x with s := 0 } = has p x := by simp [has]
      simp only [List.countP_append, List.countP_cons, List.countP_nil, h2] at h1
      omega
    · intro j fl y hj hy
      rw [List.getElem?_set] at hj
      by_cases hkj : k = j
      · subst hkj
        simp only [if_true, if_pos hkl, Option.some.injEq] at hj
        subst hj
        rw [List.mem_append, List.mem_singleton] at hy
        rcases hy with hy | hy
        · exact Or.inl ⟨_, List.getElem?_eq_getElem hkl, hy⟩
        · refine Or.inr ⟨?_, hxc⟩
          rw [hy]
      · rw [if_neg hkj] at hj
        exact Or.inl ⟨fl, hj, hy⟩

theorem moveEntries_ok {K : Nat} {m : Map α} {x : Ix} {xs : List α} (h : Holds K m.data x xs) {dst : Nat}
    (hdst : dst + xs.length ≤ m.data.length)
    (hdisj : xs.length ≠ 0 → x.b + xs.length ≤ dst ∨ dst + xs.length ≤ x.b) :
    ∃ d, m.moveEntries x.b dst x.s = .ok { m with data := d } ∧ d.length = m.data.length ∧
      (∀ q, ¬ (dst ≤ q ∧ q < dst + xs.length) → d[q]? = m.data[q]?) ∧
      (∀ t, t < xs.length → d[dst + t]? = xs[t]?) := by
  unfold Map.moveEntries
  by_cases h0 : x.s = 0
  · rw [if_pos h0]
    have : xs.length = 0 := by rw [← h.size]; exact h0
    exact ⟨m.data, rfl, rfl, fun _ _ => rfl, fun t ht => by omega⟩
  · rw [if_neg h0]
    have hs := h.slice (p := 0) (n := xs.length) (by omega)
    rw [Nat.add_zero, List.drop_zero, List.take_length] at hs
    have hne : xs.length ≠ 0 := by rw [← h.size]; exact h0
    have e1 : decide (dst + xs.length ≤ m.data.length) = true := decide_eq_true hdst
    have e2 : (decide (x.b + xs.length ≤ dst) || decide (dst + xs.length ≤ x.b)) = true := by
      rcases hdisj hne with h | h
      · simp [h]
      · simp [h]
    rw [h.size, hs]
    simp only [bind, Except.bind, pure, Except.pure, e1, e2, require_true]
    refine ⟨_, rfl, blit_length _ _ _ hdst, ?_, ?_⟩
    · intro q hq; rw [blit_get _ _ _ hdst, if_neg hq]
    · intro t ht; rw [blit_get _ _ _ hdst, if_pos (by omega), Nat.add_sub_cancel_left]

/-- Rebuild the invariant after bucket `i` got a new region `y` and new content `xs'`. -/
theorem Inv.rebuildSet {K : Nat} {m m' : Map α} {L : List (List α)} (h : Inv lo K m L) {i : Nat} {x y : Ix}
    {xs' : List α} (hi : m.index[i]? = some x)
    (hix : m'.index = m.index.set i y) (hy : Holds K m'.data y xs')
    (hlen : m.data.length ≤ m'.data.length)
    (hout : ∀ (q : Nat), q < m.data.length → (∀ (j : Nat) (z : Ix), j ≠ i → m.index[j]? = some z →
      has q z = true → m'.data[q]? = m.data[q]?))
    (hfl : m'.free.length = K + 1)
    (hfree : ∀ (k : Nat) (fl : List Ix) (z : Ix), m'.free[k]? = some fl → z ∈ fl →
      z.c = 2 ^ k ∧ z.b + z.c ≤ m'.data.length)
    (hcov : ∀ p, p < m'.data.length → lo ≤ cover m' p ∧ cover m' p ≤ 1) : Inv lo K m' (L.set i xs') where
  len := by rw [hix]; simp [h.len]
  holds := by
    intro j z zs hj hzs
    have hil := (List.getElem?_eq_some_iff.1 hi).1
    rw [hix, List.getElem?_set] at hj
    rw [List.getElem?_set] at hzs
    by_cases hij : i = j
    · subst hij
      simp only [if_true, if_pos hil, Option.some.injEq] at hj
      simp only [if_true, if_pos (show i < L.length by rw [← h.len]; exact hil), Option.some.injEq] at hzs
      subst hj hzs
      exact hy
    · rw [if_neg hij] at hj hzs
      have hz := h.holds j z zs hj hzs
      have := hz.bound; have := hz.cap
      refine ⟨hz.size, hz.cap, by omega, ?_, hz.pow⟩
      intro t ht
      rw [hout (z.b + t) (by omega) j z (fun e => hij e.symm) hj (by rw [has_iff]; omega), hz.get t ht]
  flen := hfl
  free := hfree
  lo_le := h.lo_le
  cov := hcov

theorem set_self {β : Type} {l : List β} {i : Nat} {x : β} (h : l[i]? = some x) : l.set i x = l := by
  apply List.ext_getElem?
  intro j
  rw [List.getElem?_set]
  by_cases hij : i = j
  · subst hij
    rw [if_pos rfl, if_pos (List.getElem?_eq_some_iff.1 h).1, h]
  · rw [if_neg hij]

/-- Rebuild the invariant after bucket `i` got a new region `y` (its content unchanged). -/
theorem Inv.rebuild {K : Nat} {m m' : Map α} {L : List (List α)} (h : Inv lo K m L) {i : Nat} {x y : Ix}
    {xs : List α} (hi : m.index[i]? = some x) (hL : L[i]? = some xs)
    (hix : m'.index = m.index.set i y) (hy : Holds K m'.data y xs)
    (hlen : m.data.length ≤ m'.data.length)
    (hout : ∀ (q : Nat), q < m.data.length → (∀ (j : Nat) (z : Ix), j ≠ i → m.index[j]? = some z →
      has q z = true → m'.data[q]? = m.data[q]?))
    (hfl : m'.free.length = K + 1)
    (hfree : ∀ (k : Nat) (fl : List Ix) (z : Ix), m'.free[k]? = some fl → z ∈ fl →
      z.c = 2 ^ k ∧ z.b + z.c ≤ m'.data.length)
    (hcov : ∀ p, p < m'.data.length → lo ≤ cover m' p ∧ cover m' p ≤ 1) : Inv lo K m' L := by
  have := h.rebuildSet hi hix hy hlen hout hfl hfree hcov
  rwa [set_self hL] at this

theorem grow_ok {W K : Nat} (hW : W = 32 ∨ W = 64) (hK : K < W) (dflt : α) {m : Map α} {L : List (List α)}
    (h : Inv lo K m L) {i req : Nat} {x : Ix} {xs : List α} (hi : m.index[i]? = some x) (hL : L[i]? = some xs)
    (hreq : x.c < req) (hlt : req < 2 ^ W) :
    (2 ^ K < req ∧ m.grow W K dflt i req = .error .exn) ∨
    (req ≤ 2 ^ K ∧ ∃ m' y, m.grow W K dflt i req = .ok m' ∧ Inv lo K m' L ∧ m'.index[i]? = some y ∧ req ≤ y.c ∧
      m'.count = m.count ∧ m.data.length ≤ m'.data.length ∧ m'.data.length ≤ m.data.length + 2 * req) := by
  have hx := h.holds i x xs hi hL
  have hil := (List.getElem?_eq_some_iff.1 hi).1
  have hixok : m.ix i = .ok x := by simp [Map.ix, hi]
  unfold Map.grow
  rw [hixok]
  rcases order_spec hW hK (show 0 < req by omega) hlt with ⟨hle, k, hkK, hcap, hord, h1, h2⟩ | ⟨hgt, o, hord, ho⟩
  · refine Or.inr ⟨hle, ?_⟩
    have ek : decide (k ≤ K) = true := decide_eq_true hkK
    have hkl : k < m.free.length := by rw [h.flen]; omega
    have hord' : getOrder W (2 ^ k) = .ok k := by rw [← hcap]; exact hord
    simp only [bind, Except.bind, hcap, hord', ek, verify_true, Map.popFree, List.getElem?_eq_getElem hkl]
    cases hlast : m.free[k].getLast? with
    | some fb =>
      have hfl : m.free[k]? = some m.free[k] := List.getElem?_eq_getElem hkl
      have hmem : fb ∈ m.free[k] := List.mem_of_getLast? hlast
      obtain ⟨hfc, hfb⟩ := h.free k _ fb hfl hmem
      have hsplit : m.free[k] = m.free[k].dropLast ++ [fb] := by
        have hne : m.free[k] ≠ [] := by intro e; rw [e] at hmem; cases hmem
        have := List.dropLast_concat_getLast hne
        rw [List.getLast?_eq_some_getLast hne] at hlast
        injection hlast with hlast
        rw [hlast] at this; exact this.symm
      have hcov1 : ∀ p, (m.free.set k m.free[k].dropLast).flatten.countP (has p) + (if has p fb then 1 else 0) =
          m.free.flatten.countP (has p) := by
        intro p
        have h3 := flatten_countP_set hfl m.free[k].dropLast p
        have h4 : m.free[k].countP (has p) = m.free[k].dropLast.countP (has p) + (if has p fb then 1 else 0) := by
          conv => lhs; rw [hsplit]
          simp [List.countP_append, List.countP_cons]
        omega
      have hfree1 : ∀ j fl z, (m.free.set k m.free[k].dropLast)[j]? = some fl → z ∈ fl →
          z.c = 2 ^ j ∧ z.b + z.c ≤ m.data.length := by
        intro j fl z hj hz
        rw [List.getElem?_set] at hj
        by_cases hkj : k = j
        · subst hkj
          simp only [if_true, if_pos hkl, Option.some.injEq] at hj
          subst hj
          exact h.free k _ z hfl (List.dropLast_subset _ hz)
        · rw [if_neg hkj] at hj; exact h.free j fl z hj hz
      -- nothing else lives in the reused region
      have hsafe : ∀ (q j : Nat) (z : Ix), q < m.data.length → m.index[j]? = some z → has q z = true →
          ¬ (fb.b ≤ q ∧ q < fb.b + xs.length) := by
        intro q j z hq hj hz hh
        have := h.disjFree hj hfl hmem hq (by rw [has_iff]; have := hx.cap; omega)
        rw [hz] at this; cases this
      dsimp only
      unfold Map.growReuse
      by_cases hc0 : x.c = 0
      · rw [if_pos hc0]
        have hxs : xs.length = 0 := by have := hx.cap; omega
        refine ⟨_, ⟨fb.b, x.s, fb.c⟩, rfl, ?_, by simp [Map.setIx, hil], by simp; omega, rfl, by simp [Map.setIx],
          by simp [Map.setIx]⟩
        refine h.rebuild hi hL rfl ⟨hx.size, by simp; omega, by simpa [Map.setIx] using hfb,
          fun t ht => by omega, Or.inr ⟨k, hkK, hfc⟩⟩ (by simp [Map.setIx]) (by intros; rfl)
          (by simpa [Map.setIx] using h.flen) (by simpa [Map.setIx] using hfree1) ?_
        intro p hp
        have h3 := countP_set_ix (y := ⟨fb.b, x.s, fb.c⟩) hi p
        have h4 := h.cov p (by simpa [Map.setIx] using hp)
        have h5 := hcov1 p
        have h6 : has p ⟨fb.b, x.s, fb.c⟩ = has p fb := by simp [has]
        have h7 : has p x = false := by simp [has, hc0]
        rw [h6, h7] at h3
        simp only [cover, Map.setIx] at h4 ⊢
        simp at h3
        omega
      · rw [if_neg hc0]
        have hdst : fb.b + xs.length ≤ m.data.length := by have := hx.cap; omega
        obtain ⟨d, hd1, hd2, hd3, hd4⟩ := moveEntries_ok
          (m := { m with free := m.free.set k m.free[k].dropLast }) (x := x) hx (dst := fb.b) hdst (by
            intro hne
            by_cases ho : x.b + xs.length ≤ fb.b
            · exact Or.inl ho
            · by_cases ho2 : fb.b + xs.length ≤ x.b
              · exact Or.inr ho2
              · exfalso
                have hc := hx.cap; have hb := hx.bound
                by_cases hle2 : x.b ≤ fb.b
                · exact hsafe fb.b i x (by omega) hi (by rw [has_iff]; omega) (by omega)
                · exact hsafe x.b i x (by omega) hi (by rw [has_iff]; omega) (by omega))
        simp only [bind, Except.bind, hd1]
        obtain ⟨f', hf1, hf2, hf3, hf4⟩ := release_ok hK
          (m := { m with free := m.free.set k m.free[k].dropLast, data := d }) (x := x)
          (by simpa using h.flen) hx.pow
        rw [hf1]
        simp only [pure, Except.pure]
        refine ⟨_, ⟨fb.b, x.s, fb.c⟩, rfl, ?_, by simp [Map.setIx, hil], by simp; omega, rfl,
          by simp [Map.setIx, hd2], by simp [Map.setIx, hd2]⟩
        have hdl : d.length = m.data.length := hd2
        refine h.rebuild hi hL rfl ⟨hx.size, ?_, ?_, hd4, Or.inr ⟨k, hkK, hfc⟩⟩ ?_ ?_ hf2 ?_ ?_
        · have := hx.cap; simp; omega
        · simp only [Map.setIx, hdl]; exact hfb
        · simp only [Map.setIx, hdl]; exact Nat.le_refl _
        · intro q hq j z _ hj hz
          exact hd3 q (hsafe q j z hq hj hz)
        · intro j fl z hj hz
          simp only [Map.setIx, hdl] at hj ⊢
          rcases hf4 j fl z hj hz with ⟨fl', h3, h4⟩ | ⟨h3, h4⟩
          · exact hfree1 j fl' z h3 h4
          · subst h3; exact ⟨h4, hx.bound⟩
        · intro p hp
          simp only [Map.setIx, hdl] at hp
          have h3 := countP_set_ix (y := ⟨fb.b, x.s, fb.c⟩) hi p
          have h4 := h.cov p hp
          have h5 := hcov1 p
          have h6 : has p ⟨fb.b, x.s, fb.c⟩ = has p fb := by simp [has]
          have h7 := hf3 p
          rw [h6] at h3
          simp only [cover, Map.setIx] at h4 h7 ⊢
          omega
    | none =>
      dsimp only
      unfold Map.growEnd
      by_cases hend : x.b + x.c = m.data.length
      · rw [if_pos hend]
        have hcap2 : x.c ≤ 2 ^ k := by omega
        refine ⟨_, ⟨x.b, x.s, 2 ^ k⟩, rfl, ?_, by simp [Map.setIx, hil], h1, rfl, by simp [Map.setIx],
          by simp [Map.setIx]; omega⟩
        refine h.rebuild hi hL rfl ⟨hx.size, ?_, ?_, ?_, Or.inr ⟨k, hkK, rfl⟩⟩ (by simp [Map.setIx]) ?_ h.flen ?_ ?_
        · have := hx.cap; simp; omega
        · simp [Map.setIx]; omega
        · intro t ht
          simp only [Map.setIx]
          rw [List.getElem?_append_left (by have := hx.cap; omega)]
          exact hx.get t ht
        · intro q hq j z _ _ _
          simp only [Map.setIx]
          rw [List.getElem?_append_left hq]
        · intro j fl z hj hz
          obtain ⟨h3, h4⟩ := h.free j fl z hj hz
          refine ⟨h3, ?_⟩
          simp only [Map.setIx, List.length_append]; omega
        · intro p hp
          simp only [Map.setIx, List.length_append, List.length_replicate] at hp
          have h3 := countP_set_ix (y := ⟨x.b, x.s, 2 ^ k⟩) hi p
          simp only [cover, Map.setIx]
          by_cases hpl : p < m.data.length
          · have h4 := h.cov p hpl
            have h5 : has p ⟨x.b, x.s, 2 ^ k⟩ = has p x := by
              simp only [has, decide_eq_decide]; omega
            rw [h5] at h3
            simp only [cover] at h4
            omega
          · have h5 : has p ⟨x.b, x.s, 2 ^ k⟩ = true := by rw [has_iff]; simp; omega
            have h6 : has p x = false := by rw [has_false]; omega
            have h7 : m.index.countP (has p) = 0 := by
              rw [List.countP_eq_zero]
              intro z hz hh
              obtain ⟨j, hj, hjz⟩ := List.getElem_of_mem hz
              have hjL : j < L.length := by rw [← h.len]; exact hj
              have := (h.holds j z _ (by rw [List.getElem?_eq_getElem hj, hjz]) (List.getElem?_eq_getElem hjL)).bound
              rw [has_iff] at hh; omega
            have h8 : m.free.flatten.countP (has p) = 0 := by
              rw [List.countP_eq_zero]
              intro z hz hh
              obtain ⟨fl, hfl, hzf⟩ := List.mem_flatten.1 hz
              obtain ⟨j, hj, hjz⟩ := List.getElem_of_mem hfl
              have := (h.free j fl z (by rw [List.getElem?_eq_getElem hj, hjz]) hzf).2
              rw [has_iff] at hh; omega
            rw [h5, h6] at h3
            simp at h3
            have := h.lo_le; omega
      · rw [if_neg hend]
        have hb := hx.bound; have hc := hx.cap
        have hx' : Holds K (m.data ++ List.replicate (2 ^ k) dflt) x xs :=
          ⟨hx.size, hx.cap, by simp; omega, fun t ht => by
            rw [List.getElem?_append_left (by omega)]; exact hx.get t ht, hx.pow⟩
        obtain ⟨d, hd1, hd2, hd3, hd4⟩ := moveEntries_ok
          (m := { m with data := m.data ++ List.replicate (2 ^ k) dflt }) (x := x) hx' (dst := m.data.length)
          (by simp; omega) (by intro _; left; omega)
        simp only [bind, Except.bind, hd1]
        obtain ⟨f', hf1, hf2, hf3, hf4⟩ := release_ok hK
          (m := ({ m with data := d }.setIx i ⟨m.data.length, x.s, 2 ^ k⟩)) (x := x)
          (by simpa [Map.setIx] using h.flen) hx.pow
        rw [hf1]
        have hdl : d.length = m.data.length + 2 ^ k := by rw [hd2]; simp
        refine ⟨_, ⟨m.data.length, x.s, 2 ^ k⟩, rfl, ?_, by simp [Map.setIx, hil], h1, rfl,
          by simp [Map.setIx, hdl], by simp [Map.setIx, hdl]; omega⟩
        have hz0 : ∀ p, m.data.length ≤ p → m.index.countP (has p) = 0 ∧ m.free.flatten.countP (has p) = 0 := by
          intro p hp
          constructor
          · rw [List.countP_eq_zero]
            intro z hz hh
            obtain ⟨j, hj, hjz⟩ := List.getElem_of_mem hz
            have hjL : j < L.length := by rw [← h.len]; exact hj
            have := (h.holds j z _ (by rw [List.getElem?_eq_getElem hj, hjz]) (List.getElem?_eq_getElem hjL)).bound
            rw [has_iff] at hh; omega
          · rw [List.countP_eq_zero]
            intro z hz hh
            obtain ⟨fl, hfl, hzf⟩ := List.mem_flatten.1 hz
            obtain ⟨j, hj, hjz⟩ := List.getElem_of_mem hfl
            have := (h.free j fl z (by rw [List.getElem?_eq_getElem hj, hjz]) hzf).2
            rw [has_iff] at hh; omega
        refine h.rebuild hi hL rfl ⟨hx.size, ?_, ?_, hd4, Or.inr ⟨k, hkK, rfl⟩⟩ ?_ ?_ hf2 ?_ ?_
        · simp; omega
        · simp only [Map.setIx, hdl]; omega
        · simp only [Map.setIx, hdl]; omega
        · intro q hq j z _ hj hz
          have := hd3 q (by omega)
          simp only [Map.setIx]
          rw [this, List.getElem?_append_left hq]
        · intro j fl z hj hz
          simp only [Map.setIx, hdl] at hj ⊢
          rcases hf4 j fl z hj hz with ⟨fl', h3, h4⟩ | ⟨h3, h4⟩
          · obtain ⟨h5, h6⟩ := h.free j fl' z h3 h4
            exact ⟨h5, by omega⟩
          · subst h3; exact ⟨h4, by simp only; omega⟩
        · intro p hp
          simp only [Map.setIx, hdl] at hp
          have h3 := countP_set_ix (y := ⟨m.data.length, x.s, 2 ^ k⟩) hi p
          have h7 := hf3 p
          simp only [cover, Map.setIx] at h7 ⊢
          by_cases hpl : p < m.data.length
          · have h4 := h.cov p hpl
            have h6 : has p ⟨m.data.length, x.s, 2 ^ k⟩ = false := by rw [has_false]; simp only; omega
            rw [h6] at h3
            simp only [cover] at h4
            simp only [Bool.false_eq_true, if_false] at h3
            omega
          · have h6 : has p ⟨m.data.length, x.s, 2 ^ k⟩ = true := by rw [has_iff]; simp only; omega
            have h8 : has p x = false := by rw [has_false]; omega
            obtain ⟨h9, h10⟩ := hz0 p (by omega)
            rw [h6, h8] at h3
            rw [h8] at h7
            simp only [Bool.false_eq_true, if_false, if_true] at h3 h7
            have := h.lo_le; omega
  · refine Or.inl ⟨hgt, ?_⟩
    have eo : decide (o ≤ K) = false := decide_eq_false (by omega)
    simp only [bind, Except.bind, hord, eo, verify_false]

end Cista.MM
