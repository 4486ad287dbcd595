import Verif.HS.Model

/-! # Probe sequence and layout of the control bytes -/
set_option linter.unusedSimpArgs false

namespace Cista.HS

/-! ## Triangular numbers visit every residue modulo a power of two -/

def T : Nat → Nat
  | 0 => 0
  | n + 1 => T n + (n + 1)

theorem two_T : ∀ n, 2 * T n = n * (n + 1)
  | 0 => rfl
  | n + 1 => by rw [T, Nat.mul_add, two_T n, Nat.mul_add (n + 1), Nat.mul_comm (n + 1) (n + 1), Nat.add_mul]; 
                simp only [Nat.mul_add, Nat.add_mul]; omega

theorem T_flip (M n n' : Nat) (h : n' + 1 + n = 2 * M) : T n' + M * (2 * n + 1) = 2 * M * M + T n := by
  have h1 := two_T n
  have h2 := two_T n'
  have : 2 * (T n' + M * (2 * n + 1)) = 2 * (2 * M * M + T n) := by
    rw [Nat.mul_add 2 (T n'), Nat.mul_add 2 (2 * M * M), h1, h2]
    -- n'(n'+1) + 2M(2n+1) = 4M² + n(n+1)
    have e1 : 2 * (M * (2 * n + 1)) = (n' + 1 + n) * (2 * n + 1) := by rw [h, Nat.mul_assoc]
    have e2 : 2 * (2 * M * M) = (n' + 1 + n) * (n' + 1 + n) := by
      rw [h, show 2 * (2 * M * M) = 2 * M * (2 * M) by
        rw [Nat.mul_comm (2 * M) (2 * M), Nat.mul_assoc 2 M, Nat.mul_assoc 2 M, Nat.mul_left_comm M 2 M]]
    rw [e1, e2]
    simp only [Nat.mul_add, Nat.add_mul, Nat.mul_one, Nat.one_mul, Nat.mul_comm n n', Nat.mul_comm n (2 * n),
      Nat.mul_comm n' (2 * n), Nat.mul_assoc, ]
    omega
  omega

theorem T_onto : ∀ (m r : Nat), r < 2 ^ m → ∃ n, n < 2 ^ m ∧ T n % 2 ^ m = r
  | 0, r, h => ⟨0, by omega, by simp at h; subst h; rfl⟩
  | m + 1, r, h => by
    have hM : 0 < 2 ^ m := Nat.pow_pos (by omega)
    have e : 2 ^ (m + 1) = 2 * 2 ^ m := by rw [Nat.pow_succ]; omega
    obtain ⟨n, hn, hr⟩ := T_onto m (r % 2 ^ m) (Nat.mod_lt _ hM)
    rw [e] at h ⊢
    generalize 2 ^ m = M at *
    -- both residues of `T n` modulo `2 M`
    have hn2 : T n % (2 * M) = r % M ∨ T n % (2 * M) = r % M + M := by
      have h1 : T n % (2 * M) % M = r % M := by rw [Nat.mod_mod_of_dvd _ ⟨2, by omega⟩]; exact hr
      have h2 : T n % (2 * M) < 2 * M := Nat.mod_lt _ (by omega)
      have h3 : r % M < M := Nat.mod_lt _ hM
      generalize T n % (2 * M) = x at h1 h2 ⊢
      by_cases hx : x < M
      · left; rwa [Nat.mod_eq_of_lt hx] at h1
      · right
        rw [Nat.mod_eq_sub_mod (by omega), Nat.mod_eq_of_lt (by omega)] at h1
        omega
    have hflip := T_flip M n (2 * M - 1 - n) (by omega)
    have hf2 : (T (2 * M - 1 - n) + M) % (2 * M) = T n % (2 * M) := by
      have e1 : T (2 * M - 1 - n) + M * (2 * n + 1) = (T (2 * M - 1 - n) + M) + 2 * M * n := by
        rw [Nat.mul_add, Nat.mul_one, ← Nat.mul_assoc, Nat.mul_comm M 2]; omega
      rw [e1] at hflip
      have := congrArg (· % (2 * M)) hflip
      simp only [Nat.add_mul_mod_self_left, Nat.mul_add_mod] at this
      exact this
    have hr' : r = r % M ∨ r = r % M + M := by
      by_cases hx : r < M
      · left; rw [Nat.mod_eq_of_lt hx]
      · right; rw [Nat.mod_eq_sub_mod (by omega), Nat.mod_eq_of_lt (by omega)]; omega
    have h3 : r % M < M := Nat.mod_lt _ hM
    by_cases hc : T n % (2 * M) = r
    · exact ⟨n, by omega, hc⟩
    · refine ⟨2 * M - 1 - n, by omega, ?_⟩
      have hlt : T (2 * M - 1 - n) % (2 * M) < 2 * M := Nat.mod_lt _ (by omega)
      rw [← Nat.mod_add_mod] at hf2
      generalize T (2 * M - 1 - n) % (2 * M) = y at hf2 hlt ⊢
      by_cases hy : y + M < 2 * M
      · rw [Nat.mod_eq_of_lt hy] at hf2; omega
      · rw [Nat.mod_eq_sub_mod (by omega), Nat.mod_eq_of_lt (by omega)] at hf2; omega

/-! ## Masks -/

/-- The capacity of a table: one less than a power of two. -/
def PCap (cap : Nat) : Prop := ∃ k, k ≤ 63 ∧ cap + 1 = 2 ^ k

theorem PCap.and {cap : Nat} (h : PCap cap) (x : Nat) : x &&& cap = x % (cap + 1) := by
  obtain ⟨k, _, hk⟩ := h
  have : cap = 2 ^ k - 1 := by omega
  rw [hk, this, Nat.and_two_pow_sub_one_eq_mod]

theorem PCap.small {cap : Nat} (h : PCap cap) : cap + 1 = 1 ∨ cap + 1 = 2 ∨ cap + 1 = 4 ∨ (8 ≤ cap + 1 ∧ (cap + 1) % 8 = 0) := by
  obtain ⟨k, _, hk⟩ := h
  match k with
  | 0 => left; exact hk
  | 1 => right; left; exact hk
  | 2 => right; right; left; exact hk
  | k + 3 =>
    have : 2 ^ (k + 3) = 8 * 2 ^ k := by rw [Nat.pow_add]; omega
    have hp : 0 < 2 ^ k := Nat.pow_pos (by omega)
    right; right; right
    generalize 2 ^ k = x at *
    omega

theorem before_eq {cap i : Nat} (h : PCap cap) (hi : i ≤ cap) :
    before cap i = if cap + 1 < 8 then i else if 8 ≤ i then i - 8 else i + (cap + 1) - 8 := by
  unfold before
  rw [h.and]
  obtain ⟨k, hk, e⟩ := h
  have hs := PCap.small ⟨k, hk, e⟩
  by_cases h8 : cap + 1 < 8
  · rw [if_pos h8]
    obtain rfl | rfl | rfl : cap = 0 ∨ cap = 1 ∨ cap = 3 := by omega
    all_goals omega
  rw [if_neg h8]
  obtain ⟨r, hr⟩ : ∃ r, 2 ^ 64 = (cap + 1) + (cap + 1) * (r + 1) := by
    refine ⟨2 ^ (64 - k) - 2, ?_⟩
    have h2 : 2 ^ (64 - k) ≥ 2 ^ 1 := Nat.pow_le_pow_right (by omega) (by omega)
    have h3 : 2 ^ 64 = (cap + 1) * 2 ^ (64 - k) := by rw [e, ← Nat.pow_add]; congr 1; omega
    rw [h3, show 2 ^ (64 - k) - 2 + 1 = 2 ^ (64 - k) - 1 by omega, Nat.mul_sub, Nat.mul_one]
    have : cap + 1 ≤ (cap + 1) * 2 ^ (64 - k) := Nat.le_mul_of_pos_right _ (by omega)
    omega
  generalize (2:Nat) ^ 64 = W at *
  split
  · rw [hr, show i + ((cap + 1) + (cap + 1) * (r + 1)) - 8 = (i - 8) + (cap + 1) * (r + 2) by
      rw [show r + 2 = (r + 1) + 1 from rfl, Nat.mul_add (cap + 1) (r + 1) 1]; omega, Nat.add_mul_mod_self_left,
      Nat.mod_eq_of_lt (by omega)]
  · rw [hr, show i + ((cap + 1) + (cap + 1) * (r + 1)) - 8 = (i + (cap + 1) - 8) + (cap + 1) * (r + 1) by omega,
      Nat.add_mul_mod_self_left, Nat.mod_eq_of_lt (by omega)]

theorem seven_and {cap : Nat} (h : PCap cap) : 7 &&& cap = if cap + 1 < 8 then cap else 7 := by
  rw [h.and]
  split
  · have := h.small
    obtain rfl | rfl | rfl : cap = 0 ∨ cap = 1 ∨ cap = 3 := by omega
    all_goals rfl
  · rw [Nat.mod_eq_of_lt (by omega)]

/-- The second byte written by `set_ctrl`: the mirror of one of the first eight slots, otherwise the slot itself. -/
theorem mirror_eq {cap i : Nat} (h : PCap cap) (hi : i < cap) :
    before cap i + 1 + (7 &&& cap) = if i < 8 then i + cap + 1 else i := by
  rw [before_eq h (by omega), seven_and h]
  have := h.small
  by_cases h1 : cap + 1 < 8 <;> by_cases h2 : i < 8 <;> simp only [h1, h2, if_true, if_false] <;> (try split) <;> omega

/-! ## Layout of the control bytes -/

/-- Control bytes of a table with the slot bytes `S`: the slots, the end marker, a copy of the first eight slots, filled up with
empty bytes. -/
def layout (S : List Nat) : List Nat := S ++ END :: (S.take 8 ++ List.replicate (8 - S.length) EMPTY)

/-- The slot shown at a position of the control array. -/
def slotOf (cap p : Nat) : Option Nat :=
  if p < cap then some p else if p = cap then none else if p - cap - 1 < cap then some (p - cap - 1) else none

def byteAt (S : List Nat) (p : Nat) : Nat :=
  match slotOf S.length p with
  | some i => S.getD i EMPTY
  | none => if p = S.length then END else EMPTY

/-- The eight bytes at a position. -/
def win (S : List Nat) (off : Nat) : List Nat := (List.range 8).map fun j => byteAt S (off + j)

theorem slotOf_some {cap p i : Nat} : slotOf cap p = some i ↔ i < cap ∧ (p = i ∨ p = i + cap + 1) := by
  unfold slotOf
  split
  · simp; omega
  · split
    · simp; omega
    · split <;> simp <;> omega

theorem slotOf_none {cap p : Nat} (h : slotOf cap p = none) (hp : p ≠ cap) : 2 * cap + 1 ≤ p := by
  unfold slotOf at h
  by_cases h1 : p < cap
  · rw [if_pos h1] at h; cases h
  · rw [if_neg h1, if_neg hp] at h
    by_cases h2 : p - cap - 1 < cap
    · rw [if_pos h2] at h; cases h
    · omega

theorem slotOf_lt {cap p i : Nat} (h : slotOf cap p = some i) : i < cap := (slotOf_some.1 h).1

theorem slotOf_and {cap p i : Nat} (hc : PCap cap) (h : slotOf cap p = some i) : p &&& cap = i := by
  rw [hc.and]
  obtain ⟨h1, rfl | rfl⟩ := slotOf_some.1 h
  · exact Nat.mod_eq_of_lt (by omega)
  · rw [show i + cap + 1 = i + (cap + 1) by omega, Nat.add_mod_right, Nat.mod_eq_of_lt (by omega)]

theorem layout_length (S : List Nat) : (layout S).length = S.length + 9 := by
  simp [layout]; omega

theorem layout_get {S : List Nat} {p : Nat} (hp : p < S.length + 9) : (layout S)[p]? = some (byteAt S p) := by
  unfold layout byteAt slotOf
  by_cases h1 : p < S.length
  · rw [if_pos h1, List.getElem?_append_left h1]
    simp [List.getD, h1]
  · rw [if_neg h1, List.getElem?_append_right (by omega)]
    by_cases h2 : p = S.length
    · subst h2; simp
    · rw [if_neg h2]
      obtain ⟨q, hq⟩ : ∃ q, p = S.length + (q + 1) := ⟨p - S.length - 1, by omega⟩
      subst hq
      rw [Nat.add_sub_cancel_left, List.getElem?_cons_succ, show q + 1 - 1 = q by omega]
      by_cases h3 : q < S.length
      · rw [if_pos h3, List.getElem?_append_left (by simp; omega), List.getElem?_take_of_lt (by omega)]
        simp [List.getD, h3]
      · rw [if_neg h3, List.getElem?_append_right (by simp; omega), List.getElem?_replicate, if_pos (by simp; omega)]
        simp

theorem byteAt_set {S : List Nat} {i c : Nat} (hi : i < S.length) (p : Nat) :
    byteAt (S.set i c) p = if slotOf S.length p = some i then c else byteAt S p := by
  unfold byteAt
  rw [List.length_set]
  cases h : slotOf S.length p with
  | none => simp
  | some j =>
    simp only [List.getD_eq_getElem?_getD, List.getElem?_set]
    by_cases he : i = j
    · subst he; simp [hi]
    · rw [if_neg he, if_neg (by simpa using fun h => he h.symm)]

theorem layout_set {S : List Nat} {i c : Nat} (h : PCap S.length) (hi : i < S.length) :
    ((layout S).set i c).set (before S.length i + 1 + (7 &&& S.length)) c = layout (S.set i c) := by
  rw [mirror_eq h hi]
  apply List.ext_getElem?
  intro p
  by_cases hp : p < S.length + 9
  · rw [layout_get (by simpa using hp), byteAt_set hi]
    simp only [List.getElem?_set, List.length_set, layout_length, layout_get hp]
    have := @slotOf_some S.length p i
    by_cases hs : slotOf S.length p = some i
    · have h2 := (this.1 hs).2
      rw [if_pos hs]
      split <;> rename_i h8
      · split
        · rw [if_pos (by omega)]
        · rw [if_pos (by omega), if_pos (by omega)]
      · rw [if_pos (by omega), if_pos (by omega)]
    · have h2 : ¬ (p = i ∨ p = i + S.length + 1) := fun h2 => hs (this.2 ⟨hi, h2⟩)
      rw [if_neg hs, if_neg (by split <;> omega), if_neg (by omega)]
  · rw [List.getElem?_eq_none (by simp [layout_length]; omega), List.getElem?_eq_none (by simp [layout_length]; omega)]

theorem setCtrl_layout {S t : List Nat} {i : Nat} (c : Nat) (h : PCap S.length) (hi : i < S.length) :
    setCtrl (layout S ++ t) S.length i c = .ok (layout (S.set i c) ++ t) := by
  unfold setCtrl
  have hm := mirror_eq h hi
  have h8 : before S.length i + 1 + (7 &&& S.length) < (layout S).length := by rw [hm, layout_length]; split <;> omega
  rw [if_pos (by simp only [List.length_append]; rw [layout_length] at *; omega)]
  rw [List.set_append_left _ _ (by rw [layout_length]; omega), List.set_append_left _ _ (by simpa using h8),
    layout_set h hi]

theorem win_get {S : List Nat} {off j : Nat} (hj : j < 8) : (win S off)[j]? = some (byteAt S (off + j)) := by
  unfold win; rw [List.getElem?_map, List.getElem?_range hj]; rfl

theorem win_mem {S : List Nat} {off c : Nat} : c ∈ win S off ↔ ∃ j, j < 8 ∧ byteAt S (off + j) = c := by
  simp [win]

theorem group_layout {S t : List Nat} {off : Nat} (h : off ≤ S.length) : group (layout S ++ t) off = .ok (win S off) := by
  unfold group
  rw [if_pos (by simp [layout_length]; omega)]
  congr 1
  apply List.ext_getElem?
  intro j
  by_cases hj : j < 8
  · rw [List.getElem?_take_of_lt hj, List.getElem?_drop, List.getElem?_append_left (by rw [layout_length]; omega),
      layout_get (by omega), win_get hj]
  · rw [List.getElem?_eq_none (by simp; omega), List.getElem?_eq_none (by simp [win]; omega)]

theorem ctrlAt_layout {S t : List Nat} {i : Nat} (h : i < S.length + 9) : ctrlAt (layout S ++ t) i = .ok (byteAt S i) := by
  unfold ctrlAt
  rw [List.getElem?_append_left (by rw [layout_length]; exact h), layout_get h]

theorem byteAt_slot {S : List Nat} {i c : Nat} (h : S[i]? = some c) : byteAt S i = c := by
  have hl := (List.getElem?_eq_some_iff.1 h).1
  unfold byteAt
  rw [slotOf_some.2 ⟨hl, Or.inl rfl⟩]
  simp [List.getD, h]

theorem byteAt_of_slotOf {S : List Nat} {p i c : Nat} (hs : slotOf S.length p = some i) (h : S[i]? = some c) : byteAt S p = c := by
  unfold byteAt; rw [hs]; simp [List.getD, h]

theorem byteAt_end (S : List Nat) : byteAt S S.length = END := by
  unfold byteAt slotOf; simp

/-- Slot bytes of a table are never the end marker. -/
def SV (S : List Nat) : Prop := ∀ c ∈ S, c < 128 ∨ c = EMPTY ∨ c = DELETED

theorem SV.set {S : List Nat} (h : SV S) {i c : Nat} (hc : c < 128 ∨ c = EMPTY ∨ c = DELETED) : SV (S.set i c) := by
  intro x hx
  rcases List.mem_or_eq_of_mem_set hx with h' | h'
  · exact h x h'
  · rw [h']; exact hc

theorem byteAt_cases {S : List Nat} (p : Nat) :
    (∃ i c, slotOf S.length p = some i ∧ S[i]? = some c ∧ byteAt S p = c) ∨ (slotOf S.length p = none ∧
      ((p = S.length ∧ byteAt S p = END) ∨ (p ≠ S.length ∧ byteAt S p = EMPTY))) := by
  cases h : slotOf S.length p with
  | some i =>
    left
    have hl := slotOf_lt h
    exact ⟨i, S[i], rfl, List.getElem?_eq_getElem hl, byteAt_of_slotOf h (List.getElem?_eq_getElem hl)⟩
  | none =>
    right
    refine ⟨rfl, ?_⟩
    unfold byteAt
    rw [h]
    by_cases hp : p = S.length
    · simp [hp]
    · simp [hp]

theorem win_grp {S : List Nat} (h : SV S) (off : Nat) : Grp (win S off) where
  len := by simp [win]
  valid := by
    intro c hc
    obtain ⟨j, _, hb⟩ := win_mem.1 hc
    rcases byteAt_cases (S := S) (off + j) with ⟨i, c', _, h2, h3⟩ | ⟨_, ⟨_, h3⟩ | ⟨_, h3⟩⟩
    · rw [← hb, h3]
      rcases h c' (List.mem_of_getElem? h2) with h | h | h
      · exact Or.inl h
      · exact Or.inr (Or.inl h)
      · exact Or.inr (Or.inr (Or.inl h))
    · rw [← hb, h3]; exact Or.inr (Or.inr (Or.inr rfl))
    · rw [← hb, h3]; exact Or.inr (Or.inl rfl)

/-- A full byte anywhere in a window belongs to a slot. -/
theorem full_slot {S : List Nat} {p : Nat} (h : isFull (byteAt S p) = true) : ∃ i, slotOf S.length p = some i ∧ S[i]? = some (byteAt S p) := by
  rcases byteAt_cases (S := S) p with ⟨i, c, h1, h2, h3⟩ | ⟨_, ⟨_, h3⟩ | ⟨_, h3⟩⟩
  · exact ⟨i, h1, by rw [h3]; exact h2⟩
  · rw [h3] at h; exact absurd h (by decide)
  · rw [h3] at h; exact absurd h (by decide)

/-! ## The probe sequence -/

/-- Offset of the `n`-th group examined. -/
def pos (cap h n : Nat) : Nat := (h + 8 * T n) % (cap + 1)

theorem pos_zero {cap : Nat} (hc : PCap cap) (h : Nat) : h &&& cap = pos cap h 0 := by
  rw [hc.and]; simp [pos, T]

theorem pos_succ {cap : Nat} (hc : PCap cap) (h n : Nat) : (pos cap h n + (8 * n + 8)) &&& cap = pos cap h (n + 1) := by
  rw [hc.and]; unfold pos
  rw [Nat.mod_add_mod, T]
  congr 1; omega

theorem pos_le (cap h n : Nat) : pos cap h n ≤ cap := by
  have := Nat.mod_lt (h + 8 * T n) (y := cap + 1) (by omega)
  unfold pos; omega

/-- Every slot is in one of the first `cap + 1` groups examined. -/
theorem cover {cap : Nat} (hc : PCap cap) (h : Nat) {i : Nat} (hi : i < cap) :
    ∃ n j, n ≤ cap ∧ j < 8 ∧ slotOf cap (pos cap h n + j) = some i := by
  have hs := hc.small
  by_cases h8 : cap + 1 < 8
  · have hp := pos_le cap h 0
    by_cases hle : pos cap h 0 ≤ i
    · exact ⟨0, i - pos cap h 0, by omega, by omega, slotOf_some.2 ⟨hi, by omega⟩⟩
    · exact ⟨0, i + (cap + 1) - pos cap h 0, by omega, by omega, slotOf_some.2 ⟨hi, by omega⟩⟩
  · obtain ⟨k, hk, e⟩ := hc
    obtain ⟨m, rfl⟩ : ∃ m, k = m + 3 := ⟨k - 3, by
      have : ¬ k < 3 := fun hlt => by
        have : 2 ^ k ≤ 2 ^ 2 := Nat.pow_le_pow_right (by omega) (by omega)
        omega
      omega⟩
    have e' : cap + 1 = 8 * 2 ^ m := by rw [e, Nat.pow_add]; omega
    have hM : 0 < 2 ^ m := Nat.pow_pos (by omega)
    -- distance from the start
    have hd := Nat.mod_lt (i + (cap + 1) - h % (cap + 1)) (y := cap + 1) (by omega)
    have ho := Nat.mod_lt h (y := cap + 1) (by omega)
    obtain ⟨d, hd⟩ : ∃ d, d < cap + 1 ∧ (h % (cap + 1) + d = i ∨ h % (cap + 1) + d = i + (cap + 1)) := by
      by_cases hle : h % (cap + 1) ≤ i
      · exact ⟨i - h % (cap + 1), by omega, by omega⟩
      · exact ⟨i + (cap + 1) - h % (cap + 1), by omega, by omega⟩
    obtain ⟨n, hn, hT⟩ := T_onto m (d / 8) (by omega)
    refine ⟨n, d % 8, by omega, by omega, slotOf_some.2 ⟨hi, ?_⟩⟩
    have hpl := pos_le cap h n
    have hmod : (pos cap h n + d % 8) % (cap + 1) = i := by
      unfold pos
      have h8T : (8 * T n) % (cap + 1) = 8 * (d / 8) := by rw [e', Nat.mul_mod_mul_left, hT]
      rw [Nat.mod_add_mod, Nat.add_right_comm, Nat.add_mod _ (8 * T n), h8T, Nat.mod_add_mod, Nat.add_assoc, ← Nat.mod_add_mod h,
        ← Nat.add_assoc]
      rw [show h % (cap + 1) + d % 8 + 8 * (d / 8) = h % (cap + 1) + d by omega]
      rcases hd.2 with h | h
      · rw [h, Nat.mod_eq_of_lt (by omega)]
      · rw [h, Nat.add_mod_right, Nat.mod_eq_of_lt (by omega)]
    by_cases hlt : pos cap h n + d % 8 < cap + 1
    · rw [Nat.mod_eq_of_lt hlt] at hmod; omega
    · rw [Nat.mod_eq_sub_mod (by omega), Nat.mod_eq_of_lt (by omega)] at hmod; omega

/-- Small tables show their padding in every group. -/
theorem small_pad {S : List Nat} (h8 : S.length + 1 < 8) (hc : PCap S.length) {off : Nat} (h : off ≤ S.length) :
    EMPTY ∈ win S off := by
  have := hc.small
  refine win_mem.2 ⟨7, by omega, ?_⟩
  unfold byteAt slotOf
  rw [if_neg (by omega), if_neg (by omega), if_neg (by omega)]
  simp; omega

end Cista.HS
