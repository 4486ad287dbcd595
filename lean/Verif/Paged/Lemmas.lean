import Verif.Paged.Model

/-!
# Invariant of `paged`

Every page handed out and every page in a free list is a block of `data_`; the blocks are pairwise disjoint,
and the free lists are the chains stored in the first bytes of the free blocks.
-/
set_option linter.unusedSimpArgs false

namespace Cista.Paged

variable {c : Cfg}

/-! ## Index computations -/

theorem ctz_pow {w k : Nat} (hk : k < w) : Arith.constexprTrailingZeros (BitVec.ofNat w (2 ^ k)) = k := by
  have hbit : ∀ i, (BitVec.ofNat w (2 ^ k)).getLsbD i = decide (i = k) := by
    intro i
    rw [BitVec.getLsbD_ofNat, Nat.testBit_two_pow]
    by_cases hi : i = k
    · subst hi; simp [hk]
    · have : k ≠ i := fun h => hi h.symm
      simp [hi, this]
  have hne : BitVec.ofNat w (2 ^ k) ≠ 0#w := by
    intro h
    have := hbit k
    rw [h] at this
    simp at this
  obtain ⟨_, h2, _⟩ := Arith.C47_constexpr_trailing_zeros _ hne
  rw [hbit] at h2
  simpa using h2

theorem sentinel_pos (ok : c.Ok) : 2 ^ 31 < c.sentinel := by
  unfold Cfg.sentinel
  rcases ok.Ssize with h | h <;> rw [h] <;> decide

theorem freeIdx_pow (ok : c.Ok) {k : Nat} (h1 : c.m ≤ k) (h2 : k ≤ 15) : freeIdx c (2 ^ k) = k - c.m := by
  have hS := ok.Ssize
  have hm := ok.mM
  have hM := ok.M15
  unfold freeIdx
  rw [ctz_pow (by omega), ctz_pow (by omega)]
  have h3 := sentinel_pos ok
  unfold Cfg.sentinel at h3
  have e : k + 2 ^ 32 - c.m = (k - c.m) + 2 ^ 32 := by omega
  rw [e, Nat.add_mod_right, Nat.mod_eq_of_lt (by omega), Nat.mod_eq_of_lt (by omega)]

theorem freeIdx_zero (ok : c.Ok) : c.M - c.m + 1 ≤ freeIdx c 0 := by
  have hS := ok.Ssize
  have hm := ok.mM
  have hM := ok.M15
  have h1 := ok.m1
  unfold freeIdx
  rw [ctz_pow (by omega)]
  have : Arith.constexprTrailingZeros (BitVec.ofNat (8 * c.S) 0) = 0 :=
    (Arith.C47_trailing_zeros_of_zero (by omega)).1
  rw [this, Nat.mod_eq_of_lt (a := 0 + 2 ^ 32 - c.m) (by omega)]
  have h3 : 2 ^ 32 ≤ 256 ^ c.S := by rcases hS with h | h <;> rw [h] <;> decide
  rw [Nat.mod_eq_of_lt (by omega)]
  omega

/-- The capacity for a request: the least power of two, at least `MinPageSize`, that fits. -/
theorem newCap_spec (ok : c.Ok) {n : Nat} (hn : n ≤ 2 ^ 15) :
    ∃ k, c.m ≤ k ∧ k ≤ 15 ∧ newCap c n = 2 ^ k ∧ n ≤ 2 ^ k ∧ (∀ j, c.m ≤ j → n ≤ 2 ^ j → k ≤ j) := by
  have hm := ok.mM
  have hM := ok.M15
  have h2m : 2 ^ c.m ≤ 2 ^ 15 := Nat.pow_le_pow_right (by omega) (by omega)
  have hmx : max (2 ^ c.m) n ≤ 2 ^ 15 := by omega
  have hpos : 0 < 2 ^ c.m := Nat.pow_pos (by omega)
  have htn : (BitVec.ofNat 16 (max (2 ^ c.m) n)).toNat = max (2 ^ c.m) n := by
    rw [BitVec.toNat_ofNat]; exact Nat.mod_eq_of_lt (by omega)
  obtain ⟨k, h1, h2, h3⟩ := Arith.C01_next_power_of_two_least (w := 16) (Or.inr (Or.inl rfl))
    (BitVec.ofNat 16 (max (2 ^ c.m) n))
    (by intro h; have := congrArg BitVec.toNat h; rw [htn] at this; simp at this) (by rw [htn]; exact hmx)
  rw [htn] at h2 h3
  have mono : ∀ {a b : Nat}, 2 ^ a ≤ 2 ^ b → a ≤ b := fun h => (Nat.pow_le_pow_iff_right (show 1 < 2 by omega)).1 h
  refine ⟨k, mono (by omega), mono (h3 15 hmx), by rw [newCap]; exact h1, by omega, ?_⟩
  intro j hj hnj
  have : 2 ^ c.m ≤ 2 ^ j := Nat.pow_le_pow_right (by omega) hj
  exact mono (h3 j (by omega))

theorem newCap_big (ok : c.Ok) {n : Nat} (hn : 2 ^ 15 < n) (h16 : n < 2 ^ 16) : newCap c n = 0 := by
  have hm := ok.mM
  have hM := ok.M15
  have h2m : 2 ^ c.m ≤ 2 ^ 15 := Nat.pow_le_pow_right (by omega) (by omega)
  unfold newCap
  rw [Arith.C01_next_power_of_two_zero (w := 16) (Or.inr (Or.inl rfl)) _ (Or.inr ?_)]
  · rfl
  · rw [BitVec.toNat_ofNat, Nat.mod_eq_of_lt (by omega)]; omega

/-! ## Blocks -/

/-- Two blocks (start, capacity) do not overlap. -/
def disj (a b : Nat × Nat) : Prop := a.1 + a.2 ≤ b.1 ∨ b.1 + b.2 ≤ a.1

theorem disj_symm {a b : Nat × Nat} (h : disj a b) : disj b a := Or.symm h

def Page.blk (q : Page) : Nat × Nat := (q.start, q.cap)

/-- The blocks of free lists of orders `k, k + 1, …`. -/
def fblocks : Nat → List (List Nat) → List (Nat × Nat)
  | _, [] => []
  | k, l :: ls => l.map (fun s => (s, 2 ^ k)) ++ fblocks (k + 1) ls

theorem fblocks_push (s : Nat) : ∀ (fl : List (List Nat)) (k i : Nat) (l : List Nat), fl[i]? = some l →
    (fblocks k (fl.set i (s :: l))).Perm ((s, 2 ^ (k + i)) :: fblocks k fl)
  | [], _, _, _, h => by simp at h
  | a :: fl, k, 0, l, h => by
    simp at h; subst h
    simp [fblocks]
  | a :: fl, k, i + 1, l, h => by
    have h' : fl[i]? = some l := by simpa using h
    have ih := fblocks_push s fl (k + 1) i l h'
    simp only [List.set_cons_succ, fblocks]
    have e : k + 1 + i = k + (i + 1) := by omega
    rw [e] at ih
    exact (List.Perm.append_left _ ih).trans List.perm_middle

theorem mem_fblocks : ∀ (fl : List (List Nat)) (k i : Nat) (l : List Nat) (s : Nat), fl[i]? = some l → s ∈ l →
    (s, 2 ^ (k + i)) ∈ fblocks k fl
  | [], _, _, _, _, h, _ => by simp at h
  | a :: fl, k, 0, l, s, h, hs => by
    simp at h; subst h
    simp only [fblocks, List.mem_append, List.mem_map]
    exact Or.inl ⟨s, hs, rfl⟩
  | a :: fl, k, i + 1, l, s, h, hs => by
    have h' : fl[i]? = some l := by simpa using h
    have ih := mem_fblocks fl (k + 1) i l s h' hs
    rw [show k + 1 + i = k + (i + 1) by omega] at ih
    simp only [fblocks, List.mem_append]
    exact Or.inr ih

theorem of_mem_fblocks : ∀ (fl : List (List Nat)) (k : Nat) (b : Nat × Nat), b ∈ fblocks k fl →
    ∃ (i : Nat) (l : List Nat), fl[i]? = some l ∧ b.1 ∈ l ∧ b.2 = 2 ^ (k + i)
  | [], _, _, h => by simp [fblocks] at h
  | a :: fl, k, b, h => by
    simp only [fblocks, List.mem_append, List.mem_map] at h
    rcases h with ⟨s, hs, rfl⟩ | h
    · exact ⟨0, a, rfl, hs, rfl⟩
    · obtain ⟨i, l, h1, h2, h3⟩ := of_mem_fblocks fl (k + 1) b h
      exact ⟨i + 1, l, by simpa using h1, h2, by rw [h3]; congr 1; omega⟩

/-- The `size_type` value stored at element position `s`. -/
def nextAt (c : Cfg) (d : List Byte) (s : Nat) : Nat := ofHost c.host ((d.drop (s * c.E)).take c.S)

/-- `x` is the head of the chain of free pages `l`. -/
def Chain (c : Cfg) (d : List Byte) : List Nat → Nat → Prop
  | [], x => x = c.sentinel
  | s :: l, x => x = s ∧ Chain c d l (nextAt c d s)

theorem Chain.congr {d d' : List Byte} : ∀ {l : List Nat} {x : Nat}, Chain c d l x →
    (∀ s ∈ l, nextAt c d' s = nextAt c d s) → Chain c d' l x
  | [], _, h, _ => h
  | s :: l, x, h, hs => by
    refine ⟨h.1, ?_⟩
    rw [hs s (by simp)]
    exact Chain.congr h.2 fun t ht => hs t (by simp [ht])

theorem nextAt_congr {d d' : List Byte} {s : Nat} (h : ∀ k, k < c.S → d'[s * c.E + k]? = d[s * c.E + k]?) :
    nextAt c d' s = nextAt c d s := by
  unfold nextAt
  congr 1
  apply List.ext_getElem?
  intro k
  rw [List.getElem?_take, List.getElem?_take]
  split
  · rw [List.getElem?_drop, List.getElem?_drop]; exact h k ‹_›
  · rfl

/-- A page as handed out: null, or a power-of-two capacity in range, and not over-full. -/
def PageOk (c : Cfg) (q : Page) : Prop :=
  q.size ≤ q.cap ∧ (q.cap = 0 ∨ ∃ k, c.m ≤ k ∧ k ≤ c.M ∧ q.cap = 2 ^ k)

structure Inv (c : Cfg) (p : Paged) (live : List Page) (fl : List (List Nat)) : Prop where
  len : p.data.length = p.size c * c.E
  small : p.size c ≤ c.sentinel
  pages : ∀ q ∈ live, PageOk c q
  fll : fl.length = c.M - c.m + 1
  frl : p.free.length = c.M - c.m + 1
  chain : ∀ (i : Nat) (l : List Nat) (x : Nat), fl[i]? = some l → p.free[i]? = some x → Chain c p.data l x
  pw : (live.map Page.blk ++ fblocks c.m fl).Pairwise disj
  inr : ∀ b ∈ live.map Page.blk ++ fblocks c.m fl, b.1 + b.2 ≤ p.size c

theorem Inv.empty (c : Cfg) : Inv c (Paged.empty c) [] (List.replicate (c.M - c.m + 1) []) where
  len := by simp [Paged.empty, Paged.size]
  small := by simp [Paged.empty, Paged.size]
  pages := by simp
  fll := by simp
  frl := by simp [Paged.empty]
  chain := by
    intro i l x h1 h2
    simp only [Paged.empty, List.getElem?_replicate] at h1 h2
    split at h1
    · simp at h1 h2; subst h1
      exact h2.2.symm
    · simp at h1
  pw := by
    have : ∀ n k, fblocks k (List.replicate n []) = [] := by
      intro n
      induction n with
      | zero => intro k; rfl
      | succ n ih => intro k; simp [List.replicate_succ, fblocks, ih]
    simp [this]
  inr := by
    have : ∀ n k, fblocks k (List.replicate n []) = [] := by
      intro n
      induction n with
      | zero => intro k; rfl
      | succ n ih => intro k; simp [List.replicate_succ, fblocks, ih]
    simp [this]

theorem Inv.perm {p : Paged} {l1 l2 : List Page} {fl : List (List Nat)} (h : Inv c p l1 fl) (hp : l1.Perm l2) :
    Inv c p l2 fl := by
  have hpp := (hp.map Page.blk).append_right (fblocks c.m fl)
  exact { h with
    pages := fun q hq => h.pages q (hp.mem_iff.2 hq)
    pw := (hpp.pairwise_iff (fun h => disj_symm h)).1 h.pw
    inr := fun b hb => h.inr b (hpp.mem_iff.2 hb) }

theorem Inv.addNull {p : Paged} {l : List Page} {fl : List (List Nat)} (h : Inv c p l fl) :
    Inv c p (Page.null :: l) fl := by
  refine { h with
    pages := ?_
    pw := ?_
    inr := ?_ }
  · intro q hq
    rcases List.mem_cons.1 hq with rfl | hq
    · exact ⟨by simp [Page.null], Or.inl rfl⟩
    · exact h.pages q hq
  · simp only [List.map_cons, List.cons_append, List.pairwise_cons]
    refine ⟨fun b _ => Or.inl (by simp [Page.blk, Page.null]), h.pw⟩
  · intro b hb
    simp only [List.map_cons, List.cons_append, List.mem_cons] at hb
    rcases hb with rfl | hb
    · simp [Page.blk, Page.null]
    · exact h.inr b hb

theorem mul_le {a b E : Nat} (h : a ≤ b) : a * E ≤ b * E := Nat.mul_le_mul_right E h

/-- Changing bytes inside one live page keeps the invariant. -/
theorem Inv.write {p : Paged} {q : Page} {live : List Page} {fl : List (List Nat)} (ok : c.Ok) (h : Inv c p live fl)
    (hq : q ∈ live) {d : List Byte} (hl : d.length = p.data.length)
    (hd : ∀ k, ¬ (q.start * c.E ≤ k ∧ k < (q.start + q.cap) * c.E) → d[k]? = p.data[k]?) :
    Inv c { p with data := d } live fl := by
  have hsz : (Paged.size c { p with data := d }) = p.size c := by simp [Paged.size, hl]
  refine { h with
    len := by rw [hsz]; simp only [hl]; exact h.len
    small := by rw [hsz]; exact h.small
    inr := by rw [hsz]; exact h.inr
    chain := ?_ }
  intro i l x h1 h2
  refine (h.chain i l x h1 h2).congr ?_
  intro s hs
  apply nextAt_congr
  intro k hk
  apply hd
  have hm := mem_fblocks fl c.m i l s h1 hs
  have hdj := (List.pairwise_append.1 h.pw).2.2 q.blk (List.mem_map_of_mem (f := Page.blk) hq) _ hm
  have hfit : c.S ≤ 2 ^ (c.m + i) * c.E := by
    have := ok.fits
    have h2 : 2 ^ c.m * c.E ≤ 2 ^ (c.m + i) * c.E := mul_le (Nat.pow_le_pow_right (by omega) (by omega))
    omega
  rcases hdj with hdj | hdj
  · have := mul_le (E := c.E) hdj
    simp only [Page.blk] at this
    omega
  · have := mul_le (E := c.E) hdj
    simp only [Page.blk] at this
    rw [Nat.add_mul] at this
    omega

theorem Inv.fresh {p : Paged} {live : List Page} {fl : List (List Nat)} (ok : c.Ok) (h : Inv c p live fl) (n cap : Nat)
    (hpo : PageOk c ⟨n, cap, p.size c⟩) (hb : p.size c + cap ≤ c.sentinel) (ex : List Byte) (hex : ex.length = cap * c.E) :
    Inv c { p with data := p.data ++ ex } (⟨n, cap, p.size c⟩ :: live) fl ∧
      Paged.size c { p with data := p.data ++ ex } = p.size c + cap := by
  have hE := ok.E0
  have hsz : Paged.size c { p with data := p.data ++ ex } = p.size c + cap := by
    simp only [Paged.size, List.length_append, hex]
    rw [Nat.add_mul_div_right _ _ hE]
  refine ⟨{ h with
    len := by rw [hsz, Nat.add_mul]; simp only [List.length_append, hex, h.len]
    small := by rw [hsz]; exact hb
    pages := ?_
    chain := ?_
    pw := ?_
    inr := ?_ }, hsz⟩
  · intro q hq
    rcases List.mem_cons.1 hq with rfl | hq
    · exact hpo
    · exact h.pages q hq
  · intro i l x h1 h2
    refine (h.chain i l x h1 h2).congr ?_
    intro s hs
    apply nextAt_congr
    intro k hk
    have hm := mem_fblocks fl c.m i l s h1 hs
    have := h.inr _ (List.mem_append_right _ hm)
    have h3 := mul_le (E := c.E) this
    have hfit : c.S ≤ 2 ^ (c.m + i) * c.E := by
      have := ok.fits
      have h2 : 2 ^ c.m * c.E ≤ 2 ^ (c.m + i) * c.E := mul_le (Nat.pow_le_pow_right (by omega) (by omega))
      omega
    rw [Nat.add_mul, ← h.len] at h3
    dsimp only at h3 ⊢
    rw [List.getElem?_append_left (by omega)]
  · simp only [List.map_cons, List.cons_append, List.pairwise_cons]
    refine ⟨fun b hb => Or.inr ?_, h.pw⟩
    simpa [Page.blk] using h.inr b hb
  · rw [hsz]
    intro b hb
    simp only [List.map_cons, List.cons_append, List.mem_cons] at hb
    rcases hb with rfl | hb
    · simp [Page.blk]
    · have := h.inr b hb; omega

/-- `create_page`: the new page is disjoint from everything in use, no byte of `data_` changes. -/
theorem create_ok {p : Paged} {live : List Page} {fl : List (List Nat)} (ok : c.Ok) (h : Inv c p live fl) {n : Nat}
    (hn : n ≤ 2 ^ c.M) (hb : p.size c + newCap c n ≤ c.sentinel) :
    ∃ q p' fl', p.create c n = .ok (q, p') ∧ q.size = n ∧ q.cap = newCap c n ∧ n ≤ q.cap ∧
      Inv c p' (q :: live) fl' ∧ p'.size c ≤ p.size c + newCap c n ∧ p.data.length ≤ p'.data.length ∧
      ∀ k, k < p.data.length → p'.data[k]? = p.data[k]? := by
  have hM := ok.M15
  have hmM := ok.mM
  have hE := ok.E0
  have h15 : n ≤ 2 ^ 15 := Nat.le_trans hn (Nat.pow_le_pow_right (by omega) hM)
  obtain ⟨k, hk1, hk2, hk3, hk4, hk5⟩ := newCap_spec ok h15
  have hkM : k ≤ c.M := hk5 c.M hmM hn
  have hi := freeIdx_pow ok hk1 hk2
  have hil : k - c.m < p.free.length := by rw [h.frl]; omega
  have hfl : k - c.m < fl.length := by rw [h.fll]; omega
  have hx : p.free[k - c.m]? = some p.free[k - c.m] := List.getElem?_eq_getElem hil
  have hf : fl[k - c.m]? = some fl[k - c.m] := List.getElem?_eq_getElem hfl
  have hch := h.chain _ _ _ hf hx
  generalize hxe : p.free[k - c.m] = x at hx hch
  generalize hle : fl[k - c.m] = l at hf hch
  have hpo : ∀ s, PageOk c ⟨n, 2 ^ k, s⟩ := fun s => ⟨hk4, Or.inr ⟨k, hk1, hkM, rfl⟩⟩
  cases l with
  | nil =>
    have hx' : x = c.sentinel := hch
    subst hx'
    rw [hk3] at hb
    obtain ⟨hI, hs⟩ := h.fresh ok n (2 ^ k) (hpo _) hb (List.replicate (2 ^ k * c.E) 0#8) (by simp)
    refine ⟨⟨n, 2 ^ k, p.size c⟩, _, fl, ?_, rfl, hk3.symm, hk4, hI, ?_, ?_, ?_⟩
    · unfold Paged.create
      rw [hk3, hi]
      unfold Paged.createAt
      have ed : decide (k - c.m < p.free.length) = true := decide_eq_true hil
      simp only [ed, verify_true, ok_bind, hx, if_true]
    · rw [hs, hk3]; exact Nat.le_refl _
    · simp
    · intro j hj; exact List.getElem?_append_left hj
  | cons s l =>
    obtain ⟨rfl, hch⟩ := hch
    have hmem := mem_fblocks fl c.m (k - c.m) (x :: l) x hf (by simp)
    have hir := h.inr _ (List.mem_append_right _ hmem)
    rw [show c.m + (k - c.m) = k by omega] at hir
    have hpos : 0 < 2 ^ k := Nat.pow_pos (by omega)
    have hsm := h.small
    have hxs : x ≠ c.sentinel := by dsimp only at hir; omega
    have hrd : x * c.E + c.S ≤ p.data.length := by
      have h3 := mul_le (E := c.E) hir
      have h4 := ok.fits
      have h5 : 2 ^ c.m * c.E ≤ 2 ^ k * c.E := mul_le (Nat.pow_le_pow_right (by omega) hk1)
      rw [Nat.add_mul, ← h.len] at h3
      dsimp only at h3
      omega
    have hset : (fl.set (k - c.m) l).set (k - c.m) (x :: l) = fl := by
      rw [List.set_set]; exact MM.set_self hf
    have hget : (fl.set (k - c.m) l)[k - c.m]? = some l := by
      rw [List.getElem?_set_self hfl]
    have hperm := fblocks_push x (fl.set (k - c.m) l) c.m (k - c.m) l hget
    rw [hset, show c.m + (k - c.m) = k by omega] at hperm
    have hperm2 : (live.map Page.blk ++ fblocks c.m fl).Perm
        (((⟨n, 2 ^ k, x⟩ : Page) :: live).map Page.blk ++ fblocks c.m (fl.set (k - c.m) l)) :=
      (List.Perm.append_left _ hperm).trans List.perm_middle
    refine ⟨⟨n, 2 ^ k, x⟩, { p with free := p.free.set (k - c.m) (nextAt c p.data x) }, fl.set (k - c.m) l, ?_, rfl,
      hk3.symm, hk4, ?_, ?_, Nat.le_refl _, fun _ _ => rfl⟩
    · unfold Paged.create
      rw [hk3, hi]
      unfold Paged.createAt
      have ed : decide (k - c.m < p.free.length) = true := decide_eq_true hil
      have er : decide (x * c.E + c.S ≤ p.data.length) = true := decide_eq_true hrd
      simp only [ed, verify_true, ok_bind, hx, hxs, if_false, pure_ok,
         Paged.read, load, er, require_true, nextAt]
    · refine { h with
        pages := ?_
        fll := by simp [h.fll]
        frl := by simp [h.frl]
        chain := ?_
        pw := (hperm2.pairwise_iff (fun h => disj_symm h)).1 h.pw
        inr := fun b hb => h.inr b (hperm2.mem_iff.2 hb) }
      · intro q hq
        rcases List.mem_cons.1 hq with rfl | hq
        · exact hpo _
        · exact h.pages q hq
      · intro i l' x' h1 h2
        by_cases e : i = k - c.m
        · subst e
          rw [hget] at h1
          dsimp only at h2
          rw [List.getElem?_set_self hil] at h2
          injection h1 with h1; injection h2 with h2
          subst h1; subst h2; exact hch
        · dsimp only at h2
          rw [List.getElem?_set_ne (fun h => e h.symm)] at h1 h2
          exact h.chain i l' x' h1 h2
    · simp only [Paged.size]; exact Nat.le_add_right _ _

theorem create_exn {p : Paged} (ok : c.Ok) (hf : p.free.length = c.M - c.m + 1) {n : Nat} (h1 : 2 ^ c.M < n)
    (h2 : n < 2 ^ 16) : p.create c n = .error .exn := by
  have hM := ok.M15
  have hmM := ok.mM
  have hbad : ¬ freeIdx c (newCap c n) < p.free.length := by
    rw [hf]
    by_cases hn : n ≤ 2 ^ 15
    · obtain ⟨k, hk1, hk2, hk3, hk4, _⟩ := newCap_spec ok hn
      rw [hk3, freeIdx_pow ok hk1 hk2]
      have : c.M < k := by
        apply Nat.lt_of_not_le
        intro hle
        have : 2 ^ k ≤ 2 ^ c.M := Nat.pow_le_pow_right (by omega) hle
        omega
      omega
    · rw [newCap_big ok (by omega) h2]
      have := freeIdx_zero ok
      omega
  unfold Paged.create
  generalize freeIdx c (newCap c n) = i at hbad ⊢
  unfold Paged.createAt
  have ed : decide (i < p.free.length) = false := decide_eq_false hbad
  rw [ed, verify_false]
  rfl

/-- `free_page`: only bytes of the freed page change. -/
theorem free_ok {p : Paged} {q : Page} {live : List Page} {fl : List (List Nat)} (ok : c.Ok)
    (h : Inv c p (q :: live) fl) :
    ∃ p' fl', p.freePage c q = .ok p' ∧ Inv c p' live fl' ∧ p'.data.length = p.data.length ∧
      ∀ k, ¬ (q.start * c.E ≤ k ∧ k < (q.start + q.cap) * c.E) → p'.data[k]? = p.data[k]? := by
  have hM := ok.M15
  have hmM := ok.mM
  have hE := ok.E0
  by_cases h0 : q.cap = 0
  · refine ⟨p, fl, by simp [Paged.freePage, h0], ?_, rfl, fun _ _ => rfl⟩
    have hpw := h.pw
    simp only [List.map_cons, List.cons_append, List.pairwise_cons] at hpw
    exact { h with
      pages := fun r hr => h.pages r (List.mem_cons_of_mem _ hr)
      pw := hpw.2
      inr := fun b hb => h.inr b (by simp only [List.map_cons, List.cons_append]; exact List.mem_cons_of_mem _ hb) }
  · obtain ⟨hqs, hk⟩ := h.pages q (by simp)
    obtain ⟨k, hk1, hk2, hk3⟩ := hk.resolve_left h0
    have hi := freeIdx_pow ok hk1 (by omega : k ≤ 15)
    have hil : k - c.m < p.free.length := by rw [h.frl]; omega
    have hfl : k - c.m < fl.length := by rw [h.fll]; omega
    have hx : p.free[k - c.m]? = some p.free[k - c.m] := List.getElem?_eq_getElem hil
    have hf : fl[k - c.m]? = some fl[k - c.m] := List.getElem?_eq_getElem hfl
    have hch := h.chain _ _ _ hf hx
    generalize hxe : p.free[k - c.m] = x at hx hch
    generalize hle : fl[k - c.m] = l at hf hch
    have hir := h.inr q.blk (by simp)
    simp only [Page.blk] at hir
    have hfitk : c.S ≤ 2 ^ k * c.E := by
      have h4 := ok.fits
      have h5 : 2 ^ c.m * c.E ≤ 2 ^ k * c.E := mul_le (Nat.pow_le_pow_right (by omega) hk1)
      omega
    have hwr : q.start * c.E + c.S ≤ p.data.length := by
      have h3 := mul_le (E := c.E) hir
      rw [Nat.add_mul, ← h.len, hk3] at h3
      omega
    have hxb : x < 256 ^ c.S := by
      have hs := sentinel_pos ok
      have hsm := h.small
      have hse : c.sentinel + 1 = 256 ^ c.S := by
        have : 0 < 256 ^ c.S := Nat.pow_pos (by omega)
        unfold Cfg.sentinel; omega
      cases l with
      | nil => have : x = c.sentinel := hch; omega
      | cons s l =>
        obtain ⟨rfl, _⟩ := hch
        have hmem := mem_fblocks fl c.m (k - c.m) (x :: l) x hf (by simp)
        have := h.inr _ (List.mem_append_right _ hmem)
        dsimp only at this
        have hpp : 0 < 2 ^ (c.m + (k - c.m)) := Nat.pow_pos (by omega)
        omega
    have hlen : (MM.blit p.data (q.start * c.E) (hostBytes c.host c.S x)).length = p.data.length :=
      MM.blit_length _ _ _ (by rw [length_hostBytes]; exact hwr)
    have hfr : ∀ j, ¬ (q.start * c.E ≤ j ∧ j < (q.start + q.cap) * c.E) →
        (MM.blit p.data (q.start * c.E) (hostBytes c.host c.S x))[j]? = p.data[j]? := by
      intro j hj
      rw [MM.blit_get _ _ _ (by rw [length_hostBytes]; exact hwr), if_neg]
      rw [length_hostBytes]
      intro hc
      apply hj
      rw [Nat.add_mul, hk3]
      omega
    have hnx : nextAt c (MM.blit p.data (q.start * c.E) (hostBytes c.host c.S x)) q.start = x := by
      unfold nextAt
      rw [← ofHost_hostBytes (e := c.host) hxb]
      congr 1
      rw [ofHost_hostBytes hxb]
      apply List.ext_getElem?
      intro j
      rw [List.getElem?_take]
      split
      · rw [List.getElem?_drop, MM.blit_get _ _ _ (by rw [length_hostBytes]; exact hwr), if_pos, Nat.add_sub_cancel_left]
        rw [length_hostBytes]; omega
      · rw [List.getElem?_eq_none]; rw [length_hostBytes]; omega
    have hW := h.write ok (q := q) (by simp) hlen hfr
    have hperm := fblocks_push q.start fl c.m (k - c.m) l hf
    rw [show c.m + (k - c.m) = k by omega, ← hk3] at hperm
    have hperm2 : ((q :: live).map Page.blk ++ fblocks c.m fl).Perm
        (live.map Page.blk ++ fblocks c.m (fl.set (k - c.m) (q.start :: l))) := by
      simp only [List.map_cons, List.cons_append]
      exact List.perm_middle.symm.trans (List.Perm.append_left _ hperm.symm)
    have hpw := (List.pairwise_append.1 h.pw)
    refine ⟨{ data := MM.blit p.data (q.start * c.E) (hostBytes c.host c.S x), free := p.free.set (k - c.m) q.start },
      fl.set (k - c.m) (q.start :: l), ?_, ?_, hlen, hfr⟩
    · unfold Paged.freePage
      have ed : decide (k - c.m < p.free.length) = true := decide_eq_true hil
      have er : decide (q.start * c.E + c.S ≤ p.data.length) = true := decide_eq_true hwr
      rw [if_neg h0, hk3, hi]
      unfold Paged.pushFree
      simp only [ed, verify_true, ok_bind, hx, if_false, pure_ok,
        Paged.write, store, er, require_true, length_hostBytes]
    · have hsz : Paged.size c { data := MM.blit p.data (q.start * c.E) (hostBytes c.host c.S x), free := p.free.set (k - c.m) q.start } = p.size c := by
        simp [Paged.size, hlen]
      refine ⟨?_, ?_, ?_, by simp [h.fll], by simp [h.frl], ?_, ?_, ?_⟩
      · rw [hsz]; simp only [hlen]; exact h.len
      · rw [hsz]; exact h.small
      · exact fun r hr => h.pages r (List.mem_cons_of_mem _ hr)
      · intro i l' x' h1 h2
        by_cases e : i = k - c.m
        · subst e
          rw [List.getElem?_set_self hfl] at h1
          dsimp only at h2
          rw [List.getElem?_set_self hil] at h2
          injection h1 with h1; injection h2 with h2
          subst h1; subst h2
          refine ⟨rfl, ?_⟩
          rw [hnx]
          exact hW.chain _ _ _ hf hx
        · dsimp only at h2
          rw [List.getElem?_set_ne (fun h => e h.symm)] at h1 h2
          exact hW.chain i l' x' h1 h2
      · exact (hperm2.pairwise_iff (fun h => disj_symm h)).1 h.pw
      · rw [hsz]; exact fun b hb => h.inr b (hperm2.mem_iff.2 hb)

end Cista.Paged
