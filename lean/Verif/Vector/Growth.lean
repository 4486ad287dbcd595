import Verif.Vector.Props

set_option linter.unusedSimpArgs false

/-!
# Growth of vectors: stable references, number of allocations, `to_vec`

Source: `/repo/include/cista/containers/vector.h`.
-/
namespace Cista.Vector

open Cista.Mem

variable {α β : Type}

/-! ## Only `malloc` makes new blocks -/

theorem put_next {h h' : Heap α} {b i : Nat} {s : Slot α} (e : h.put b i s = .ok h') : h'.next = h.next := by
  unfold Heap.put at e
  split at e
  · cases e
  · split at e
    · injection e with e; subst e; rfl
    · cases e

theorem construct_next {strict : Bool} {h h' : Heap α} {b i : Nat} {a : α}
    (e : h.construct strict b i a = .ok h') : h'.next = h.next := by
  unfold Heap.construct at e
  cases hg : h.get b i with
  | error x => rw [hg, error_bind] at e; cases e
  | ok s =>
    rw [hg, ok_bind] at e
    split at e
    · cases e
    · exact put_next e

theorem destroy_next {h h' : Heap α} {b i : Nat} (e : h.destroy b i = .ok h') : h'.next = h.next := by
  unfold Heap.destroy at e
  cases hg : h.get b i with
  | error x => rw [hg, error_bind] at e; cases e
  | ok s =>
    rw [hg, ok_bind] at e
    split at e
    · cases e
    · exact put_next e

theorem moveOut_next {h : Heap α} {b i : Nat} {r : α × Heap α} (e : h.moveOut b i = .ok r) :
    r.2.next = h.next := by
  unfold Heap.moveOut at e
  cases hg : h.read b i with
  | error x => rw [hg, error_bind] at e; cases e
  | ok s =>
    rw [hg, ok_bind] at e
    cases hp : h.put b i .moved with
    | error x => rw [hp, error_bind] at e; cases e
    | ok h1 =>
      rw [hp, ok_bind, pure_ok] at e
      injection e with e; subst e
      exact put_next hp

theorem moveLoop_next {strict : Bool} {src dst : Nat} (n : Nat) {h h' : Heap α}
    (e : moveLoop strict src dst n h = .ok h') : h'.next = h.next := by
  induction n generalizing h' with
  | zero => injection e with e; subst e; rfl
  | succ n ih =>
    unfold moveLoop at e
    cases h1 : moveLoop strict src dst n h with
    | error x => rw [h1, error_bind] at e; cases e
    | ok g1 =>
      rw [h1, ok_bind] at e
      cases h2 : g1.moveOut src n with
      | error x => rw [h2, error_bind] at e; cases e
      | ok r =>
        rw [h2, ok_bind] at e
        rw [construct_next e, moveOut_next h2, ih h1]

theorem destroyLoop_next {b lo : Nat} (n : Nat) {h h' : Heap α} (e : destroyLoop b lo n h = .ok h') :
    h'.next = h.next := by
  induction n generalizing h' with
  | zero => injection e with e; subst e; rfl
  | succ n ih =>
    unfold destroyLoop at e
    cases h1 : destroyLoop b lo n h with
    | error x => rw [h1, error_bind] at e; cases e
    | ok g1 =>
      rw [h1, ok_bind] at e
      rw [destroy_next e, ih h1]

theorem migrate_next {strict : Bool} {h h' : Heap α} {v : Vec} {d : Nat} (e : migrate strict h v d = .ok h') :
    h'.next = h.next := by
  unfold migrate at e
  split at e
  · injection e with e; subst e; rfl
  · cases hb : v.base with
    | error x => rw [hb, error_bind] at e; cases e
    | ok b =>
      rw [hb, ok_bind] at e
      cases h1 : moveLoop strict b d v.used h with
      | error x => rw [h1, error_bind] at e; cases e
      | ok g =>
        rw [h1, ok_bind] at e
        rw [destroyLoop_next _ e, moveLoop_next _ h1]

theorem freeOld_next {strict : Bool} {h h' : Heap α} {v : Vec} (e : freeOld strict h v = .ok h') :
    h'.next = h.next := by
  unfold freeOld at e
  split at e
  · cases hb : v.base with
    | error x => rw [hb, error_bind] at e; cases e
    | ok b =>
      rw [hb, ok_bind] at e
      unfold Heap.free at e
      split at e
      · cases e
      · split at e
        · cases e
        · injection e with e; subst e; rfl
  · injection e with e; subst e; rfl

/-- `reserve` does nothing within the capacity. -/
theorem reserve_fits {W : Nat} {strict : Bool} {h : Heap α} {v : Vec} {n : Nat} (hn : n ≤ v.alloc) :
    reserve W strict h v n = .ok (h, v) := by
  unfold reserve
  simp only []
  rw [if_pos (by omega)]

/-- `reserve` beyond the capacity allocates one block. -/
theorem reserve_grows {W : Nat} {strict : Bool} {h h' : Heap α} {v v' : Vec} {n : Nat} (hn : v.alloc < n)
    (e : reserve W strict h v n = .ok (h', v')) :
    h'.next = h.next + 1 ∧ v'.alloc = (Arith.nextPow2 (BitVec.ofNat W n)).toNat := by
  unfold reserve at e
  simp only [] at e
  rw [if_neg (by omega), show max v.alloc n = n by omega] at e
  simp only [Heap.alloc] at e
  cases h1 : migrate strict (⟨fun x => if x = h.next then
      some (List.replicate (Arith.nextPow2 (BitVec.ofNat W n)).toNat .raw) else h.blocks x, h.next + 1⟩ : Heap α)
      v h.next with
  | error x => rw [h1, error_bind] at e; cases e
  | ok g =>
    rw [h1, ok_bind] at e
    cases h2 : freeOld strict g v with
    | error x => rw [h2, error_bind] at e; cases e
    | ok g2 =>
      rw [h2, ok_bind, pure_ok] at e
      injection e with e
      injection e with e1 e2
      subst e1; subst e2
      exact ⟨by rw [freeOld_next h2, migrate_next h1], rfl⟩

/-- `push_back` within the capacity stays in the same block. -/
theorem pushBack_fits {W : Nat} {strict : Bool} {h h' : Heap α} {v v' : Vec} {a : α} (hn : v.used + 1 ≤ v.alloc)
    (hm : (v.used + 1) % 2 ^ W = v.used + 1) (e : pushBack W strict h v a = .ok (h', v')) :
    h'.next = h.next ∧ v'.ptr = v.ptr ∧ v'.alloc = v.alloc ∧ v'.used = v.used + 1 := by
  unfold pushBack at e
  rw [hm, reserve_fits hn, ok_bind] at e
  simp only at e
  cases hb : v.base with
  | error x => rw [hb, error_bind] at e; cases e
  | ok b =>
    rw [hb, ok_bind] at e
    cases h1 : h.construct strict b v.used a with
    | error x => rw [h1, error_bind] at e; cases e
    | ok g =>
      rw [h1, ok_bind, pure_ok] at e
      injection e with e
      injection e with e1 e2
      subst e1; subst e2
      exact ⟨construct_next h1, rfl, rfl, hm⟩

/-- `push_back` on a full vector makes one block with the next capacity. -/
theorem pushBack_grows {W : Nat} {strict : Bool} {h h' : Heap α} {v v' : Vec} {a : α} (hn : v.alloc < v.used + 1)
    (hm : (v.used + 1) % 2 ^ W = v.used + 1) (e : pushBack W strict h v a = .ok (h', v')) :
    h'.next = h.next + 1 ∧ v'.alloc = (Arith.nextPow2 (BitVec.ofNat W (v.used + 1))).toNat := by
  unfold pushBack at e
  rw [hm] at e
  cases hr : reserve W strict h v (v.used + 1) with
  | error x => rw [hr, error_bind] at e; cases e
  | ok r =>
    obtain ⟨h1, v1⟩ := r
    have hg := reserve_grows hn hr
    rw [hr, ok_bind] at e
    simp only at e
    cases hb : v1.base with
    | error x => rw [hb, error_bind] at e; cases e
    | ok b =>
      rw [hb, ok_bind] at e
      cases h2 : h1.construct strict b v1.used a with
      | error x => rw [h2, error_bind] at e; cases e
      | ok g =>
        rw [h2, ok_bind, pure_ok] at e
        injection e with e
        injection e with e1 e2
        subst e1; subst e2
        exact ⟨by rw [construct_next h2, hg.1], hg.2⟩

theorem Rep.used_le {strict : Bool} {h : Heap α} {v : Vec} {l : List α} (r : Rep strict h v l) :
    v.used ≤ v.alloc := by
  cases r with
  | null hv hl => subst hv; exact Nat.le_refl _
  | blk b rest hp hb hs hu ha hr => omega

/-- C81: as long as the capacity suffices, appending stays in the same block, so pointers, references and
iterators to the elements stay valid, and nothing is allocated. -/
theorem C81_stable_within_capacity {W : Nat} (hW : Arith.StdWidth W) {strict : Bool} (xs : List α) :
    ∀ {h : Heap α} {v : Vec} {l : List α}, Rep strict h v l → Fresh h → l.length + xs.length ≤ v.alloc →
      l.length + xs.length ≤ 2 ^ (W - 1) →
      ∃ h' v', appendEach W strict xs h v = .ok (h', v') ∧ toList h' v' = .ok (l ++ xs) ∧
        v'.ptr = v.ptr ∧ v'.alloc = v.alloc ∧ h'.next = h.next := by
  induction xs with
  | nil =>
    intro h v l r hf _ _
    exact ⟨h, v, rfl, by rw [List.append_nil]; exact toList_ok r, rfl, rfl, rfl⟩
  | cons a xs ih =>
    intro h v l r hf hc hl
    simp only [List.length_cons] at hc hl
    have hlim : Lim W (l.length + 1) := ⟨hW, by omega⟩
    obtain ⟨h1, v1, e1, r1, f1⟩ := pushBack_ok r hf hlim a
    have hu := r.used
    obtain ⟨n1, p1, a1, _⟩ := pushBack_fits (by omega) (by rw [hu]; exact hlim.mod) e1
    obtain ⟨h2, v2, e2, t2, p2, a2, n2⟩ := ih r1 f1.fresh (by rw [a1]; simp; omega) (by simp; omega)
    refine ⟨h2, v2, ?_, ?_, p2.trans p1, a2.trans a1, n2.trans n1⟩
    · rw [appendEach, e1, ok_bind]; exact e2
    · rw [t2, List.append_assoc]; rfl

/-- Capacities of vectors that were only ever grown: none, or a power of two. -/
def PowCap (v : Vec) : Prop := v.alloc = 0 ∨ ∃ k, v.alloc = 2 ^ k

theorem next_of_full {W u : Nat} (hW : Arith.StdWidth W) (hl : u + 1 ≤ 2 ^ (W - 1)) (hp : u = 0 ∨ ∃ k, u = 2 ^ k) :
    (Arith.nextPow2 (BitVec.ofNat W (u + 1))).toNat = if u = 0 then 1 else 2 * u := by
  have hlim : Lim W (u + 1) := ⟨hW, hl⟩
  have h2 : (BitVec.ofNat W (u + 1)).toNat = u + 1 := by rw [BitVec.toNat_ofNat]; exact hlim.mod
  obtain ⟨k, hk, hle, hleast⟩ := Arith.C01_next_power_of_two_least hW (BitVec.ofNat W (u + 1))
    (by intro e; rw [e] at h2; simp at h2) (by rw [h2]; exact hl)
  rw [h2] at hle hleast
  rw [hk]
  rcases hp with rfl | ⟨j, rfl⟩
  · have h3 := hleast 0 (by simp)
    have h4 := Nat.pow_pos (n := k) (show 0 < 2 by omega)
    rw [Nat.pow_zero] at h3
    rw [if_pos rfl]
    omega
  · have hj := Nat.pow_pos (n := j) (show 0 < 2 by omega)
    rw [if_neg (by omega)]
    have h3 := hleast (j + 1) (by rw [Nat.pow_succ]; omega)
    have h4 : j < k := by
      apply Nat.lt_of_not_le
      intro h
      have := Nat.pow_le_pow_right (show 0 < 2 by omega) h
      omega
    have h5 := Nat.pow_le_pow_right (show 0 < 2 by omega) h4
    rw [Nat.pow_succ] at h3 h5
    omega

/-- The number of blocks that growing one element at a time from nothing to capacity `c` makes. -/
def blocksFor (c : Nat) : Nat := if c = 0 then 0 else Nat.log2 c + 1

theorem append_cost {W : Nat} (hW : Arith.StdWidth W) {strict : Bool} (xs : List α) :
    ∀ {h : Heap α} {v : Vec} {l : List α}, Rep strict h v l → Fresh h → PowCap v →
      l.length + xs.length ≤ 2 ^ (W - 1) →
      ∃ h' v', appendEach W strict xs h v = .ok (h', v') ∧ Rep strict h' v' (l ++ xs) ∧ PowCap v' ∧
        h'.next + blocksFor v.alloc = h.next + blocksFor v'.alloc ∧
        (v'.alloc = v.alloc ∨ v'.alloc < 2 * (l.length + xs.length)) := by
  induction xs with
  | nil =>
    intro h v l r hf hp _
    exact ⟨h, v, rfl, by simpa using r, hp, rfl, Or.inl rfl⟩
  | cons a xs ih =>
    intro h v l r hf hp hl
    simp only [List.length_cons] at hl
    have hlim : Lim W (l.length + 1) := ⟨hW, by omega⟩
    obtain ⟨h1, v1, e1, r1, f1⟩ := pushBack_ok r hf hlim a
    have hu := r.used
    have hle := r.used_le
    have hm : (v.used + 1) % 2 ^ W = v.used + 1 := by rw [hu]; exact hlim.mod
    have key : PowCap v1 ∧ h1.next + blocksFor v.alloc = h.next + blocksFor v1.alloc ∧
        (v1.alloc = v.alloc ∨ v1.alloc < 2 * (l.length + 1)) := by
      by_cases hf : v.used + 1 ≤ v.alloc
      · obtain ⟨n1, _, a1, _⟩ := pushBack_fits hf hm e1
        exact ⟨by unfold PowCap; rw [a1]; exact hp, by rw [n1, a1], Or.inl a1⟩
      · obtain ⟨n1, a1⟩ := pushBack_grows (by omega) hm e1
        have hfull : v.used = v.alloc := by omega
        rw [hu, next_of_full hW (by omega) (by rw [← hu, hfull]; exact hp)] at a1
        rw [← hu, hfull] at a1
        rcases hp with h0 | ⟨k, h0⟩
        · rw [if_pos h0] at a1
          refine ⟨Or.inr ⟨0, a1⟩, ?_, Or.inr (by omega)⟩
          rw [n1, a1, h0, show blocksFor 0 = 0 by decide, show blocksFor 1 = 1 by decide]
        · have := Nat.pow_pos (n := k) (show 0 < 2 by omega)
          rw [if_neg (by omega)] at a1
          refine ⟨Or.inr ⟨k + 1, by rw [a1, h0, Nat.pow_succ]; omega⟩, ?_, Or.inr (by omega)⟩
          have e2 : blocksFor v.alloc = k + 1 := by
            rw [blocksFor, if_neg (by omega), h0, Nat.log2_two_pow]
          have e3 : blocksFor v1.alloc = k + 2 := by
            rw [blocksFor, if_neg (by omega), a1, h0, show 2 * 2 ^ k = 2 ^ (k + 1) by rw [Nat.pow_succ]; omega,
              Nat.log2_two_pow]
          omega
    obtain ⟨h2, v2, e2, r2, p2, c2, b2⟩ := ih r1 f1.fresh key.1 (by simp; omega)
    refine ⟨h2, v2, by rw [appendEach, e1, ok_bind]; exact e2, by simpa using r2, p2, by omega, ?_⟩
    simp only [List.length_append, List.length_cons, List.length_nil] at b2 ⊢
    omega

/-- C81: appending `n` elements one by one to a fresh vector allocates exactly `⌊log2 c⌋ + 1` blocks for the final
capacity `c`, which is less than twice the number of elements: at most `⌊log2 n⌋ + 2` allocations, so the cost per
element is constant on average. -/
theorem C81_appends_allocate_logarithmically {W : Nat} (hW : Arith.StdWidth W) {strict : Bool} (xs : List α)
    (hl : xs.length ≤ 2 ^ (W - 1)) {h : Heap α} (hf : Fresh h) :
    ∃ h' v', appendEach W strict xs h Vec.empty = .ok (h', v') ∧ toList h' v' = .ok xs ∧
      (xs ≠ [] → xs.length ≤ v'.alloc ∧ v'.alloc < 2 * xs.length ∧
        h'.next - h.next = Nat.log2 v'.alloc + 1 ∧ h'.next - h.next ≤ Nat.log2 xs.length + 2) := by
  obtain ⟨h', v', e, r, p, c, b⟩ := append_cost hW (strict := strict) xs (h := h) (v := Vec.empty) (l := [])
    (.null rfl rfl) hf (Or.inl rfl) (by simpa using hl)
  simp only [List.nil_append, List.length_nil, Nat.zero_add] at r b
  refine ⟨h', v', e, toList_ok r, ?_⟩
  intro hne
  have hpos := List.length_pos_iff.2 hne
  have h1 := r.used_le
  rw [r.used] at h1
  have h0 : (Vec.empty).alloc = 0 := rfl
  have hb : v'.alloc < 2 * xs.length := by omega
  rw [h0] at c
  have hc : h'.next = h.next + (Nat.log2 v'.alloc + 1) := by
    simpa [blocksFor, show v'.alloc ≠ 0 by omega] using c
  refine ⟨h1, hb, by omega, ?_⟩
  have : Nat.log2 v'.alloc < Nat.log2 xs.length + 2 := by
    rw [Nat.log2_lt (by omega)]
    have := Nat.lt_log2_self (n := xs.length)
    rw [Nat.pow_succ]
    omega
  omega

/-! ## `to_vec` -/

/-- vector.h:466-492, 535-560 `raw::to_vec`, `offset::to_vec`, and vector.h:493-520, 561-588 `to_indexed_vec`:
`reserve` the length (converted to `size_type`), then append the results one by one.  In the versions without
operation `op` is the identity. -/
def toVec (W : Nat) (strict : Bool) (h : Heap β) (op : α → β) (xs : List α) : Res (Heap β × Vec) := do
  let (h, v) ← reserve W strict h Vec.empty (xs.length % 2 ^ W)
  appendEach W strict (xs.map op) h v

/-- C81: `to_vec` returns a vector with exactly the transformed elements in order, made with one allocation (none
for an empty source). -/
theorem C81_to_vec {W : Nat} (hW : Arith.StdWidth W) {strict : Bool} (op : α → β) (xs : List α)
    (hl : xs.length ≤ 2 ^ (W - 1)) {h : Heap β} (hf : Fresh h) :
    ∃ h' v', toVec W strict h op xs = .ok (h', v') ∧ toList h' v' = .ok (xs.map op) ∧
      v'.used = xs.length ∧ h'.next = h.next + (if xs = [] then 0 else 1) := by
  have hlim : Lim W xs.length := ⟨hW, hl⟩
  unfold toVec
  rw [hlim.mod]
  obtain ⟨h1, v1, e1, r1, c1, u1, f1⟩ := reserve_ok (strict := strict) (h := h) (v := Vec.empty) (l := [])
    (.null rfl rfl) hf hlim
  obtain ⟨h2, v2, e2, t2, p2, a2, n2⟩ := C81_stable_within_capacity hW (xs.map op) r1 f1.fresh
    (by simpa using c1) (by simpa using hl)
  obtain ⟨h3, v3, e3, r3, _⟩ := appendEach_ok (W := W) (xs.map op) r1 f1.fresh ⟨hW, by simpa using hl⟩
  rw [e2] at e3
  injection e3 with e3
  injection e3 with e3 e4
  subst e3; subst e4
  refine ⟨h2, v2, by rw [e1, ok_bind]; exact e2, by simpa using t2, by simpa using r3.used, ?_⟩
  rw [n2]
  by_cases hx : xs = []
  · subst hx
    rw [if_pos rfl]
    have : reserve W strict h Vec.empty 0 = .ok (h, Vec.empty) := reserve_fits (Nat.le_refl _)
    simp only [List.length_nil] at e1
    rw [this] at e1
    injection e1 with e1
    injection e1 with e1 _
    rw [← e1, Nat.add_zero]
  · rw [if_neg hx]
    exact (reserve_grows (show Vec.empty.alloc < xs.length from List.length_pos_iff.2 hx) e1).1

/-- The theorems apply: three appends make blocks of capacity 1, 2 and 4; `to_vec` one of capacity 4. -/
example : (appendEach 32 true [1, 2, 3] Heap.empty Vec.empty).map (fun r => (r.1.next, r.2.alloc)) = .ok (3, 4) ∧
    (toVec 32 true Heap.empty (· + 1) [1, 2, 3]).map (fun r => (r.1.next, r.2.alloc)) = .ok (1, 4) ∧
    (toVec 32 true Heap.empty (· + 1) [1, 2, 3]).bind (fun r => toList r.1 r.2) = .ok [2, 3, 4] := by
  decide +kernel

end Cista.Vector
