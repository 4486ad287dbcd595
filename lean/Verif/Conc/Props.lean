import Verif.Conc.Model

set_option linter.unusedSimpArgs false

/-!
# C13, C14, C49 — concurrent operations
-/
namespace Cista.Conc

open Cista.Bits

variable {w : Nat}

/-! ## C13 -/

/-- The indices handed out so far, in order. -/
def handedOut (results : List (Nat × Option Nat)) : List Nat := results.filterMap (·.2)

/-- The set bits below `n`. -/
def setBelow (l : List Bool) (n : Nat) : List Nat := (List.range n).filter fun i => l.getD i false

/-- No padding bit of the last block is set (always true for vectors whose size is a multiple of the
block width and for vectors that were only written through `resize`/`set`). -/
def CleanPadding (b : Bitvec w) : Prop := ∀ j, b.size ≤ j → bit b.blocks j = false

structure NextInv (l : List Bool) (s : NextState) : Prop where
  handed : handedOut s.results = setBelow l s.next
  loaded : ∀ t e, s.pc t = .loaded e → e ≤ s.next
  found : ∀ t e i, s.pc t = .found e i → e ≤ s.next ∧ e ≤ i ∧ l.getD i false = true ∧
    ∀ j, e ≤ j → j < i → l.getD j false = false
  none : ∀ t, (t, none) ∈ s.results → ∀ j, s.next ≤ j → l.getD j false = false

theorem setBelow_succ (l : List Bool) (e i : Nat) (h : e ≤ i) (hi : l.getD i false = true)
    (hz : ∀ j, e ≤ j → j < i → l.getD j false = false) :
    setBelow l (i + 1) = setBelow l e ++ [i] := by
  have h1 : setBelow l i = setBelow l e := by
    obtain ⟨k, rfl⟩ := Nat.le.dest h
    clear hi
    induction k with
    | zero => rfl
    | succ k ih =>
      unfold setBelow at ih ⊢
      rw [show e + (k + 1) = (e + k) + 1 by omega, List.range_succ, List.filter_append,
        ih (by omega) (fun j h1 h2 => hz j h1 (by omega))]
      have := hz (e + k) (by omega) (by omega)
      rw [List.filter_cons, this]
      simp
  unfold setBelow at h1 ⊢
  rw [List.range_succ, List.filter_append, h1]
  congr 1
  rw [List.filter_cons, hi]
  simp

theorem nextStep_inv (hw : 0 < w) {b : Bitvec w} {l : List Bool} (hb : b.Repr l)
    (hp : CleanPadding b) {s : NextState} (h : NextInv l s) (t : Nat) (sp : Bool) :
    ∃ s', nextStep b s t sp = .ok s' ∧ NextInv l s' := by
  unfold nextStep
  have pcs : ∀ (p : NextPc) t', upd s.pc t p t' = if t' = t then p else s.pc t' := fun _ _ => rfl
  split
  · refine ⟨_, rfl, h.handed, ?_, ?_, h.none⟩
    · intro t' e he
      simp only [pcs] at he
      split at he
      · cases he; exact Nat.le_refl _
      · exact h.loaded t' e he
    · intro t' e i he
      simp only [pcs] at he
      split at he
      · cases he
      · exact h.found t' e i he
  · next e hpc =>
    have hle := h.loaded t e hpc
    obtain ⟨r, hr, hn⟩ := C12_next_set_bit_partial hw b l hb e (Or.inr (Or.inr hp))
    rw [hr]
    simp only [bind, Except.bind]
    cases r with
    | none =>
      refine ⟨_, rfl, ?_, ?_, ?_, ?_⟩
      · simp only [handedOut, List.filterMap_append]
        have := h.handed
        unfold handedOut at this
        rw [this]; simp
      · intro t' e he
        simp only [pcs] at he
        split at he
        · cases he
        · exact h.loaded t' e he
      · intro t' e i he
        simp only [pcs] at he
        split at he
        · cases he
        · exact h.found t' e i he
      · intro t' _ j hj
        exact hn j (by simp only at hj; omega)
    | some i =>
      refine ⟨_, rfl, h.handed, ?_, ?_, h.none⟩
      · intro t' e he
        simp only [pcs] at he
        split at he
        · cases he
        · exact h.loaded t' e he
      · intro t' e' i' he
        simp only [pcs] at he
        split at he
        · cases he; exact ⟨hle, hn⟩
        · exact h.found t' e' i' he
  · next e i hpc =>
    obtain ⟨hle, hei, hi, hz⟩ := h.found t e i hpc
    split
    · next hc =>
      obtain ⟨hc, -⟩ := hc
      refine ⟨_, rfl, ?_, ?_, ?_, ?_⟩
      · simp only [handedOut, List.filterMap_append]
        have := h.handed
        unfold handedOut at this
        rw [this, setBelow_succ l e i hei hi hz, hc]; simp
      · intro t' e' he
        simp only [pcs] at he
        split at he
        · cases he
        · have := h.loaded t' e' he; simp only; omega
      · intro t' e' i' he
        simp only [pcs] at he
        split at he
        · cases he
        · obtain ⟨h1, h2⟩ := h.found t' e' i' he
          exact ⟨by simp only; omega, h2⟩
      · intro t' hm j hj
        simp only [List.mem_append, List.mem_singleton, Prod.mk.injEq, reduceCtorEq, and_false,
          or_false] at hm
        exact h.none t' hm j (by simp only at hj; omega)
    · refine ⟨_, rfl, h.handed, ?_, ?_, h.none⟩
      · intro t' e he
        simp only [pcs] at he
        split at he
        · cases he
        · exact h.loaded t' e he
      · intro t' e i he
        simp only [pcs] at he
        split at he
        · cases he
        · exact h.found t' e i he

theorem nextRun_inv (hw : 0 < w) {b : Bitvec w} {l : List Bool} (hb : b.Repr l)
    (hp : CleanPadding b) (evs : List (Nat × Bool)) {s : NextState} (h : NextInv l s) :
    ∃ s', nextRun b s evs = .ok s' ∧ NextInv l s' := by
  induction evs generalizing s with
  | nil => exact ⟨s, rfl, h⟩
  | cons e evs ih =>
    obtain ⟨t, sp⟩ := e
    obtain ⟨s1, h1, i1⟩ := nextStep_inv hw hb hp h t sp
    obtain ⟨s2, h2, i2⟩ := ih i1
    exact ⟨s2, by simp [nextRun, h1, h2, bind, Except.bind], i2⟩

/-- **C13 (partial)** For every bit vector (content `l`, no stray padding bits) and every schedule of
any number of threads calling `get_next` any number of times, with arbitrary spurious
compare-exchange failures: there is no undefined behaviour; the indices handed out, in order of time,
are exactly the set bits below `next` in increasing order (so each is a set bit and nobody gets a
bit twice); and once *some* caller has received "none", every set bit has been handed out.
Missing for the full claim: vectors with padding bits set (`C13_padding_violated`). -/
theorem C13_get_next_partial (hw : 0 < w) (b : Bitvec w) (l : List Bool) (hb : b.Repr l)
    (hp : CleanPadding b) (evs : List (Nat × Bool)) :
    ∃ s, nextRun b .init evs = .ok s ∧
      handedOut s.results = (List.range s.next).filter (fun i => l.getD i false) ∧
      (handedOut s.results).Nodup ∧
      (∀ i ∈ handedOut s.results, l.getD i false = true) ∧
      (∀ t, (t, none) ∈ s.results →
        ∀ i, (l.getD i false = true ↔ i ∈ handedOut s.results)) := by
  have h0 : NextInv l .init := ⟨by simp [handedOut, setBelow, NextState.init],
    by intro t e h; simp [NextState.init] at h, by intro t e i h; simp [NextState.init] at h,
    by intro t h; simp [NextState.init] at h⟩
  obtain ⟨s, hs, h⟩ := nextRun_inv hw hb hp evs h0
  have hh := h.handed
  unfold setBelow at hh
  refine ⟨s, hs, hh, ?_, ?_, ?_⟩
  · rw [hh]; exact List.nodup_range.filter _
  · intro i hi; rw [hh] at hi; exact (List.mem_filter.1 hi).2
  · intro t ht i
    rw [hh, List.mem_filter, List.mem_range]
    constructor
    · intro hi
      refine ⟨?_, hi⟩
      by_cases hlt : i < s.next
      · exact hlt
      · have := h.none t ht i (by omega)
        rw [this] at hi; cases hi
    · exact fun h => h.2

/-- **C13** Progress: whatever the others did before, a thread that is not in the middle of a call
and then runs (at most three) steps without interference and spurious failure returns a result. -/
theorem C13_solo_progress (hw : 0 < w) (b : Bitvec w) (l : List Bool) (hb : b.Repr l)
    (hp : CleanPadding b) (s : NextState) (t : Nat) (ht : s.pc t = .idle) :
    ∃ k s' r, k ≤ 3 ∧ nextRun b s (List.replicate k (t, false)) = .ok s' ∧
      s'.pc t = .idle ∧ s'.results = s.results ++ [(t, r)] := by
  obtain ⟨r, hr, hn⟩ := C12_next_set_bit_partial hw b l hb s.next (Or.inr (Or.inr hp))
  cases r with
  | none =>
    exact ⟨2, { s with pc := upd (upd s.pc t (.loaded s.next)) t .idle,
                       results := s.results ++ [(t, none)] }, none, by omega,
      by simp [List.replicate, nextRun, nextStep, ht, upd, hr, bind, Except.bind], by simp [upd], rfl⟩
  | some i =>
    exact ⟨3, { next := i + 1,
                pc := upd (upd (upd s.pc t (.loaded s.next)) t (.found s.next i)) t .idle,
                results := s.results ++ [(t, some i)] }, some i, by omega,
      by simp [List.replicate, nextRun, nextStep, ht, upd, hr, bind, Except.bind], by simp [upd], rfl⟩

/-- **C13 violated** Whenever padding bits are set and no bit of the vector is left from the last block's
bit `s.next` on, the next caller receives an index that is not even an index of the vector. -/
theorem C13_padding_violated (hw : 0 < w) (b : Bitvec w) (l : List Bool) (hb : b.Repr l) (s : NextState)
    (t p : Nat) (ht : s.pc t = .idle) (hi : s.next < b.size) (hq : s.next / w + 1 = b.blocks.length)
    (hs : w < b.size) (hclear : ∀ j, s.next ≤ j → l.getD j false = false) (hp : b.size ≤ p)
    (hset : bit b.blocks p = true) :
    ∃ s' k, nextRun b s (List.replicate 3 (t, false)) = .ok s' ∧
      s'.results = s.results ++ [(t, some k)] ∧ l.length ≤ k := by
  obtain ⟨-, k, hk, hkb⟩ := C12_next_set_bit_violated hw b l hb s.next p hi hq hs hclear hp hset
  exact ⟨{ next := k + 1,
           pc := upd (upd (upd s.pc t (.loaded s.next)) t (.found s.next k)) t .idle,
           results := s.results ++ [(t, some k)] }, k,
    by simp [List.replicate, nextRun, nextStep, ht, upd, hk, bind, Except.bind], rfl,
    by rw [← hb.size]; exact hkb⟩

/-- 65 bits all set, then bit 64 cleared: a single caller that has drained the bits up to 63 receives
index 65. -/
example :
    (do
      let m ← runV (w := 64) (fun _ => Bitvec.empty) [.max 0 65, .set 0 64 false]
      let s ← nextRun (m 0) .init (List.replicate 195 (0, false))
      return (s.results.length, s.results.getLast?)) = .ok (65, some (0, some 65)) := by decide +kernel

/-- Non-vacuity: two threads racing for the two set bits of a 3-bit vector; thread 1's first
compare-exchange fails because thread 0 was faster. -/
example : Bitvec.Repr (w := 64) ⟨3, [5#64]⟩ [true, false, true] ∧ CleanPadding (w := 64) ⟨3, [5#64]⟩ ∧
    (nextRun (w := 64) ⟨3, [5#64]⟩ .init
      [(0, false), (1, false), (0, false), (1, false), (0, false), (1, false),
       (1, false), (1, false), (1, false), (0, false), (0, false)]).toOption.map (·.results)
      = some [(0, some 0), (1, some 2), (0, none)] := by
  refine ⟨⟨by decide, by decide⟩, ?_, by decide +kernel⟩
  intro j hj
  have hj : 3 ≤ j := hj
  unfold bit blk
  by_cases h : j < 64
  · rw [Nat.div_eq_of_lt h, Nat.mod_eq_of_lt h]
    have : (5#64).getLsbD j = Nat.testBit 5 j := rfl
    simp only [List.getD_cons_zero]
    rw [this]
    apply Nat.testBit_lt_two_pow
    calc 5 < 2 ^ 3 := by decide
      _ ≤ 2 ^ j := Nat.pow_le_pow_right (by omega) hj
  · have : 1 ≤ j / 64 := by omega
    rw [List.getD_eq_getElem?_getD, List.getElem?_eq_none (by simpa using this)]
    simp

/-! ## C14 -/

/-- Sequential specification: apply `(argument, returned)` pairs one after the other to the cell;
`none` if some returned value is not the value the cell had. -/
def replay (f : Int → Int → Int) : Int → List (Int × Int) → Option Int
  | c, [] => some c
  | c, (v, ret) :: rest => if ret = c then replay f (f c v) rest else none

theorem replay_append (f : Int → Int → Int) (xs : List (Int × Int)) (c d : Int)
    (h : replay f c xs = some d) (v : Int) : replay f c (xs ++ [(v, d)]) = some (f d v) := by
  induction xs generalizing c with
  | nil => cases h; simp [replay]
  | cons x xs ih =>
    obtain ⟨a, b⟩ := x
    simp only [replay, List.cons_append] at h ⊢
    split
    · next e => rw [if_pos e] at h; exact ih _ h
    · next e => rw [if_neg e] at h; cases h

/-- What a thread still has to do, as argument list. -/
def pendingArg : ExPc → List Int
  | .idle => []
  | .start v => [v]
  | .loop _ v => [v]

structure ExInv (c : Int) (s : ExState) : Prop where
  lin : replay min c s.finished = some s.cell

theorem exStep_inv {c : Int} {s : ExState} (h : ExInv c s) (e : ExEv) : ExInv c (exStep min s e) := by
  cases e with
  | call t v => simp only [exStep]; split <;> exact ⟨h.lin⟩
  | step t sp =>
    simp only [exStep]
    split
    · exact h
    · next v _ =>
      split
      · exact ⟨h.lin⟩
      · next hc =>
        refine ⟨?_⟩
        have := replay_append min s.finished c s.cell h.lin v
        rw [show min s.cell v = s.cell by omega] at this
        exact this
    · next old v _ =>
      split
      · next hc =>
        refine ⟨?_⟩
        have := replay_append min s.finished c s.cell h.lin v
        rw [hc.1] at this
        exact this
      · exact ⟨h.lin⟩

/-- **C14** `fetch_min` is linearizable: after every schedule (any number of threads and calls, any
spurious failures) the finished calls, in the order in which they finished, are a correct sequential
execution — each returned the value the cell had, and the cell is the result. -/
theorem C14_fetch_min_linearizable (c : Int) (evs : List ExEv) :
    let s := exRun min (.init c) evs
    replay min c s.finished = some s.cell := by
  intro s
  have : ∀ (evs : List ExEv) (s : ExState), ExInv c s → ExInv c (exRun min s evs) := by
    intro evs
    induction evs with
    | nil => intro s h; exact h
    | cons e evs ih => intro s h; exact ih _ (exStep_inv h e)
  exact (this evs _ ⟨rfl⟩).lin

theorem replay_min (xs : List (Int × Int)) (c d : Int) (h : replay min c xs = some d) :
    d ≤ c ∧ (∀ x ∈ xs, d ≤ x.1) ∧ (d = c ∨ ∃ x ∈ xs, d = x.1) := by
  induction xs generalizing c with
  | nil => cases h; simp
  | cons x xs ih =>
    obtain ⟨v, r⟩ := x
    simp only [replay] at h
    split at h
    · obtain ⟨h1, h2, h3⟩ := ih _ h
      refine ⟨by omega, ?_, ?_⟩
      · intro y hy
        rcases List.mem_cons.1 hy with rfl | hy
        · simp only; omega
        · exact h2 y hy
      · rcases h3 with h3 | ⟨y, hy, h3⟩
        · by_cases hcv : c ≤ v
          · left; omega
          · right; exact ⟨(v, r), List.mem_cons_self, by simp only; omega⟩
        · right; exact ⟨y, List.mem_cons_of_mem _ hy, h3⟩
    · cases h

/-- `x` occurs in the list of begun calls iff it is finished or held by an unfinished thread. -/
def ArgInv (s : ExState) : Prop :=
  ∀ v, v ∈ s.started ↔ (∃ r, (v, r) ∈ s.finished) ∨ ∃ t, v ∈ pendingArg (s.pc t)

theorem argInv_upd {pc : Nat → ExPc} {t : Nat} {p : ExPc} (v : Int)
    (h : pendingArg p = pendingArg (pc t)) :
    (∃ u, v ∈ pendingArg (upd pc t p u)) ↔ ∃ u, v ∈ pendingArg (pc u) := by
  constructor
  · rintro ⟨u, hu⟩
    unfold upd at hu
    split at hu
    · next e => exact ⟨t, by rw [← h]; exact hu⟩
    · exact ⟨u, hu⟩
  · rintro ⟨u, hu⟩
    refine ⟨u, ?_⟩
    unfold upd
    split
    · next e => rw [h, ← e]; exact hu
    · exact hu

theorem argInv_finish {pc : Nat → ExPc} {t : Nat} {v : Int} {fin : List (Int × Int)} (r x : Int)
    (h : pendingArg (pc t) = [v]) :
    ((∃ q, (x, q) ∈ fin ++ [(v, r)]) ∨ ∃ u, x ∈ pendingArg (upd pc t .idle u)) ↔
      ((∃ q, (x, q) ∈ fin) ∨ ∃ u, x ∈ pendingArg (pc u)) := by
  constructor
  · rintro (⟨q, hq⟩ | ⟨u, hu⟩)
    · rcases List.mem_append.1 hq with hq | hq
      · exact Or.inl ⟨q, hq⟩
      · simp at hq; exact Or.inr ⟨t, by rw [h, hq.1]; simp⟩
    · unfold upd at hu
      split at hu
      · simp [pendingArg] at hu
      · exact Or.inr ⟨u, hu⟩
  · rintro (⟨q, hq⟩ | ⟨u, hu⟩)
    · exact Or.inl ⟨q, List.mem_append_left _ hq⟩
    · by_cases e : u = t
      · rw [e, h] at hu; simp at hu
        exact Or.inl ⟨r, by rw [hu]; simp⟩
      · refine Or.inr ⟨u, ?_⟩
        unfold upd; rw [if_neg e]; exact hu

theorem exStep_argInv (f : Int → Int → Int) {s : ExState} (h : ArgInv s) (e : ExEv) :
    ArgInv (exStep f s e) := by
  cases e with
  | call t v =>
    simp only [exStep]
    split
    · next hpc =>
      intro x
      simp only [List.mem_append, List.mem_singleton]
      rw [h x]
      constructor
      · rintro ((h1 | ⟨u, hu⟩) | rfl)
        · exact Or.inl h1
        · refine Or.inr ⟨u, ?_⟩
          unfold upd
          split
          · next e => rw [e, hpc] at hu; simp [pendingArg] at hu
          · exact hu
        · exact Or.inr ⟨t, by simp [upd, pendingArg]⟩
      · rintro (h1 | ⟨u, hu⟩)
        · exact Or.inl (Or.inl h1)
        · unfold upd at hu
          split at hu
          · simp [pendingArg] at hu; exact Or.inr hu
          · exact Or.inl (Or.inr ⟨u, hu⟩)
    · exact h
  | step t sp =>
    simp only [exStep]
    split
    · exact h
    · next v hpc =>
      split
      · intro x; rw [argInv_upd x (by rw [hpc]; rfl)]; exact h x
      · intro x
        rw [argInv_finish s.cell x (by rw [hpc]; rfl)]; exact h x
    · next old v hpc =>
      split
      · intro x
        rw [argInv_finish old x (by rw [hpc]; rfl)]; exact h x
      · intro x; rw [argInv_upd x (by rw [hpc]; rfl)]; exact h x

/-- **C14** When all `fetch_min` calls have returned, the cell holds the minimum of its initial value
and all the values passed — for every schedule. -/
theorem C14_fetch_min (c : Int) (evs : List ExEv)
    (hq : ∀ t, (exRun min (.init c) evs).pc t = .idle) :
    let s := exRun min (.init c) evs
    s.cell ≤ c ∧ (∀ v ∈ s.started, s.cell ≤ v) ∧ (s.cell = c ∨ s.cell ∈ s.started) := by
  intro s
  obtain ⟨h1, h2, h3⟩ := replay_min _ _ _ (C14_fetch_min_linearizable c evs)
  have ha : ArgInv s := by
    have : ∀ (evs : List ExEv) (s : ExState), ArgInv s → ArgInv (exRun min s evs) := by
      intro evs
      induction evs with
      | nil => intro s h; exact h
      | cons e evs ih => intro s h; exact ih _ (exStep_argInv min h e)
    exact this evs _ (by intro v; simp [ExState.init, pendingArg])
  have hs : ∀ v, v ∈ s.started ↔ ∃ r, (v, r) ∈ s.finished := by
    intro v
    rw [ha v]
    constructor
    · rintro (h | ⟨t, ht⟩)
      · exact h
      · rw [show s.pc t = .idle from hq t] at ht; simp [pendingArg] at ht
    · exact Or.inl
  refine ⟨h1, ?_, ?_⟩
  · intro v hv
    obtain ⟨r, hr⟩ := (hs v).1 hv
    exact h2 _ hr
  · rcases h3 with h3 | ⟨x, hx, h3⟩
    · exact Or.inl h3
    · right; rw [h3]; exact (hs _).2 ⟨x.2, hx⟩

/-- Non-vacuity: two overlapping calls, thread 0's first compare-exchange fails. -/
example : (exRun min (.init 9)
      [.call 0 5, .call 1 7, .step 0 false, .step 1 false, .step 1 false, .step 0 false,
       .step 0 false]).cell = 5 ∧
    (exRun min (.init 9)
      [.call 0 5, .call 1 7, .step 0 false, .step 1 false, .step 1 false, .step 0 false,
       .step 0 false]).finished = [(7, 9), (5, 7)] := by decide

/-- **C14 violated** `fetch_max` tests `old > val` instead of `old < val`: *no* schedule of any number
of `fetch_max` calls ever changes the cell, whatever the values passed. -/
theorem C14_fetch_max_violated (c : Int) (evs : List ExEv) : (exRun max (.init c) evs).cell = c := by
  have step : ∀ (s : ExState) (e : ExEv),
      (s.cell = c ∧ ∀ t old v, s.pc t = .loop old v → old = c ∧ v < c) →
      ((exStep max s e).cell = c ∧ ∀ t old v, (exStep max s e).pc t = .loop old v → old = c ∧ v < c) := by
    intro s e ⟨h1, h2⟩
    cases e with
    | call t v =>
      simp only [exStep]
      split
      · refine ⟨h1, ?_⟩
        intro t' old v' he
        simp only [upd] at he
        split at he
        · cases he
        · exact h2 _ _ _ he
      · exact ⟨h1, h2⟩
    | step t sp =>
      simp only [exStep]
      split
      · exact ⟨h1, h2⟩
      · next v hpc =>
        split
        · next hc =>
          refine ⟨h1, ?_⟩
          intro t' old v' he
          simp only [upd] at he
          split at he
          · cases he; exact ⟨h1, by omega⟩
          · exact h2 _ _ _ he
        · refine ⟨h1, ?_⟩
          intro t' old v' he
          simp only [upd] at he
          split at he
          · cases he
          · exact h2 _ _ _ he
      · next old v hpc =>
        obtain ⟨h3, h4⟩ := h2 _ _ _ hpc
        split
        · refine ⟨by simp only; omega, ?_⟩
          intro t' old v' he
          simp only [upd] at he
          split at he
          · cases he
          · exact h2 _ _ _ he
        · refine ⟨h1, ?_⟩
          intro t' old v' he
          simp only [upd] at he
          split at he
          · cases he; exact ⟨h1, h4⟩
          · exact h2 _ _ _ he
  have : ∀ (evs : List ExEv) (s : ExState),
      (s.cell = c ∧ ∀ t old v, s.pc t = .loop old v → old = c ∧ v < c) →
      (exRun max s evs).cell = c := by
    intro evs
    induction evs with
    | nil => intro s h; exact h.1
    | cons e evs ih => intro s h; exact ih _ (step s e h)
  exact this evs _ ⟨rfl, by intro t old v h; simp [ExState.init] at h⟩

/-- Concretely: `fetch_max(cell = 1, 5)` returns 1 and leaves 1. -/
example : (exRun max (.init 1) [.call 0 5, .step 0 false]).finished = [(5, 1)] ∧
    (exRun max (.init 1) [.call 0 5, .step 0 false]).cell = 1 := by decide

/-! ## C49 -/

/-- The last value written to index `i`, or `d` if it is not written. -/
def lastWrite (evs : List (Nat × Nat × Bool)) (i : Nat) (d : Bool) : Bool :=
  evs.foldl (fun acc e => if e.2.1 = i then e.2.2 else acc) d

theorem setRun_ok (hw : 0 < w) (evs : List (Nat × Nat × Bool)) {b : Bitvec w} {l : List Bool}
    (hb : b.Repr l) (hin : ∀ e ∈ evs, e.2.1 < l.length) :
    ∃ b' l', setRun b evs = .ok b' ∧ b'.Repr l' ∧ l'.length = l.length ∧
      ∀ i, i < l.length → l'.getD i false = lastWrite evs i (l.getD i false) := by
  induction evs generalizing b l with
  | nil => exact ⟨b, l, rfl, hb, rfl, fun _ _ => rfl⟩
  | cons e evs ih =>
    obtain ⟨t, i, v⟩ := e
    have hi : i < l.length := hin _ List.mem_cons_self
    obtain ⟨m', h1, h2⟩ := exec_refines hw (.set 0 i v) (m := fun _ => b) (r := fun _ => l)
      (fun _ => hb) trivial (r' := upd (fun _ => l) 0 (l.set i v)) (by simp [VOp.spec, hi])
    have hset : b.set i v = .ok (m' 0) := by
      simp only [VOp.exec, bind, Except.bind, pure, Except.pure] at h1
      split at h1
      · cases h1
      · next b1 hb1 => cases h1; simp [hb1, upd]
    have hrep : (m' 0).Repr (l.set i v) := by simpa [upd] using h2 0
    obtain ⟨b', l', h3, h4, h5, h6⟩ := ih hrep (by
      intro e he; simpa using hin e (List.mem_cons_of_mem _ he))
    refine ⟨b', l', ?_, h4, by simpa using h5, ?_⟩
    · simp [setRun, atomicSet, hset, h3, bind, Except.bind]
    · intro j hj
      rw [h6 j (by simpa using hj), getD_set _ _ _ _ hj]
      simp only [lastWrite, List.foldl_cons]
      by_cases e : j = i
      · subst e; simp
      · have : ¬ i = j := fun h => e h.symm
        simp [e, this]

/-- **C49** Threads `t` with programs of atomic bit writes, where every index has a single owning
thread, interleaved in any way: no undefined behaviour, and every bit ends with the last value its
owner wrote — computed from the owner's own program alone — or its old value. -/
theorem C49_atomic_set (hw : 0 < w) (b : Bitvec w) (l : List Bool) (hb : b.Repr l)
    (owner : Nat → Nat) (evs : List (Nat × Nat × Bool))
    (hin : ∀ e ∈ evs, e.2.1 < l.length) (hown : ∀ e ∈ evs, e.1 = owner e.2.1) :
    ∃ b', setRun b evs = .ok b' ∧ b'.size = l.length ∧
      ∀ i, i < l.length → b'.test i = .ok
        (lastWrite (evs.filter fun e => e.1 = owner i) i (l.getD i false)) := by
  obtain ⟨b', l', h1, h2, h3, h4⟩ := setRun_ok hw evs hb hin
  refine ⟨b', h1, by rw [h2.size, h3], ?_⟩
  intro i hi
  unfold Bitvec.test
  rw [test_eq hw h2.1, h2.2, h4 i hi]
  congr 1
  unfold lastWrite
  generalize l.getD i false = d
  clear h1 hin h4
  induction evs generalizing d with
  | nil => rfl
  | cons e evs ih =>
    have ho := hown e List.mem_cons_self
    have ih := ih (fun e he => hown e (List.mem_cons_of_mem _ he))
    rw [List.filter_cons]
    by_cases hi' : e.2.1 = i
    · rw [if_pos (by rw [ho, hi']; simp)]
      simp only [List.foldl_cons, ih]
    · simp only [List.foldl_cons, if_neg hi']
      rw [ih]
      split
      · simp only [List.foldl_cons, if_neg hi']
      · rfl

/-- Non-vacuity: two threads writing neighbouring bits of the same block, interleaved. -/
example : (setRun (w := 64) ⟨2, [0#64]⟩ [(0, 0, true), (1, 1, true), (0, 0, false), (1, 1, true)]).toOption.map
    (·.blocks) = some [2#64] := by decide +kernel

end Cista.Conc
