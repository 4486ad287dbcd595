import Verif.Paged.VV
import Verif.Multi.VecVec

/-!
# Properties C24 and C25
-/
set_option linter.unusedSimpArgs false

namespace Cista.Paged

/-! ## C24: the page allocator -/

/-- What a user of the allocator relies on: live pages lie inside `data_`, are at least as large as requested,
do not overlap, and read back as specified. -/
structure Good (c : Cfg) (st : State) (s : Spec) : Prop where
  count : st.live.length = s.length
  inside : ∀ q ∈ st.live, (q.start + q.cap) * c.E ≤ st.p.data.length
  large : ∀ q ∈ st.live, q.size ≤ q.cap
  apart : ∀ i j : Nat, i < j → ∀ q r : Page, st.live[i]? = some q → st.live[j]? = some r →
    q.start + q.cap ≤ r.start ∨ r.start + r.cap ≤ q.start
  reads : ∀ (i : Nat) (q : Page) (b : List (Option Byte)), st.live[i]? = some q → s[i]? = some b →
    b.length = q.size * c.E ∧ ∀ (k : Nat) (x : Byte), b[k]? = some (some x) → st.p.data[q.start * c.E + k]? = some x

theorem Rel.good {c : Cfg} {st : State} {s : Spec} (h : Rel c st s) : Good c st s := by
  obtain ⟨fl, hI⟩ := h.inv
  refine ⟨h.len, fun q hq => hI.inrange hq, fun q hq => (hI.pages q hq).1, ?_, h.agree⟩
  intro i j hij q r hq hr
  exact (hI.perm (getElem?_perm hq)).disj_of (mem_eraseIdx_of hr (by omega))

/-- **C24**: every history of `create_page`, `resize_page`, `free_page`, writes into live pages and `clear`
succeeds, and afterwards every live page is inside the array, disjoint from all others, and stores exactly the bytes
written to it, including across its own growth and the reuse of freed pages.  The array never exceeds the sum of
the (rounded) requests. -/
theorem C24_history {c : Cfg} (ok : c.Ok) (ops : List Op) (ha : Allowed c [] ops) (hb : totalCost c ops ≤ c.sentinel) :
    ∃ st, run c ⟨Paged.empty c, []⟩ ops = .ok st ∧ Good c st (specRun c [] ops) ∧
      st.p.data.length / c.E ≤ totalCost c ops := by
  obtain ⟨st, e, h, hs⟩ := run_ok ok ops (rel_empty c) ha (by simpa [Paged.size, Paged.empty] using hb)
  exact ⟨st, e, h.good, by simpa [Paged.size, Paged.empty] using hs⟩

/-- **C24**: a request above `MaxPageSize` throws in any reachable state. -/
theorem C24_too_large_throws {c : Cfg} (ok : c.Ok) (ops : List Op) (ha : Allowed c [] ops)
    (hb : totalCost c ops ≤ c.sentinel) (n : Nat) (h1 : 2 ^ c.M < n) (h2 : n < 2 ^ 16) :
    ∃ st, run c ⟨Paged.empty c, []⟩ ops = .ok st ∧ st.p.create c n = .error .exn ∧
      ∀ q ∈ st.live, st.p.resize c q n = .error .exn := by
  obtain ⟨st, e, h, _⟩ := run_ok ok ops (rel_empty c) ha (by simpa [Paged.size, Paged.empty] using hb)
  obtain ⟨fl, hI⟩ := h.inv
  exact ⟨st, e, create_exn ok hI.frl h1 h2, fun q hq => resize_exn ok hI.frl (hI.pages q hq) h1 h2⟩

/-- The default configuration for 4 byte elements and a 32-bit size type. -/
def cfg4 : Cfg := ⟨.little, 4, 4, 1, 15⟩

theorem cfg4_ok : cfg4.Ok := ⟨by decide, by decide, by decide, by decide, by decide, by decide⟩

/-- Two pages, the first freed and its memory reused by the third; the second grows. -/
def sampleOps : List Op :=
  [.create 2, .create 3, .write 1 0 [1#8, 2#8, 3#8, 4#8, 5#8, 6#8, 7#8, 8#8, 9#8, 10#8, 11#8, 12#8], .free 0,
   .create 1, .write 1 0 [9#8], .resize 0 5]

example : Allowed cfg4 [] sampleOps ∧ totalCost cfg4 sampleOps ≤ cfg4.sentinel := by
  refine ⟨?_, by decide⟩
  simp only [sampleOps, Allowed, Op.Pre, Op.spec]
  decide

example : (run cfg4 ⟨Paged.empty cfg4, []⟩ sampleOps).map (fun st => st.live) = .ok [⟨5, 8, 6⟩, ⟨1, 2, 0⟩] := by
  decide +kernel

example : (run cfg4 ⟨Paged.empty cfg4, []⟩ sampleOps).map (fun st => (st.p.data.drop 24).take 12) =
    .ok [1#8, 2#8, 3#8, 4#8, 5#8, 6#8, 7#8, 8#8, 9#8, 10#8, 11#8, 12#8] := by decide +kernel

example : 2 ^ cfg4.M < 40000 ∧ 40000 < 2 ^ 16 := by decide

/-! ## C25: paged_vecvec -/

/-- What is observable through the API of `paged_vecvec`, compared to a list of lists. -/
structure VGood (c : Cfg) (v : PV) (L : List (List (List Byte))) : Prop where
  size : v.idx.length = L.length
  bucket : ∀ (i : Nat) (xs : List (List Byte)), L[i]? = some xs → v.bucket c i = .ok xs
  bucketSize : ∀ (i : Nat) (xs : List (List Byte)), L[i]? = some xs → (v.page i).map Page.size = .ok xs.length
  elem : ∀ (i j : Nat) (xs : List (List Byte)) (x : List Byte), L[i]? = some xs → xs[j]? = some x →
    v.bucketAt c i j = .ok x
  elemOut : ∀ (i j : Nat) (xs : List (List Byte)), L[i]? = some xs → xs.length ≤ j → v.bucketAt c i j = .error .exn
  atIn : ∀ i, i < L.length → v.at i = .ok i
  atOut : ∀ i, L.length ≤ i → v.at i = .error .exn
  iter : L ≠ [] → v.iterate c = .ok L

theorem VRel.good {c : Cfg} {v : PV} {L : List (List (List Byte))} (h : VRel c v L) : VGood c v L where
  size := h.len
  bucket i xs hi := h.bucket hi
  bucketSize i xs hi := by
    obtain ⟨q, hq, hp, hB⟩ := h.page hi
    rw [hp, ← hB.1]; rfl
  elem i j xs x hi hj := by
    obtain ⟨fl, hI⟩ := h.inv
    obtain ⟨q, hq, hp, hB⟩ := h.page hi
    have hm := List.mem_of_getElem? hq
    have hin := hI.inrange hm
    have hjl : j < xs.length := (List.getElem?_eq_some_iff.1 hj).1
    have hjc : j + 1 ≤ q.cap := by have := hB.1; have := (hI.pages q hm).1; omega
    have hjm := mul_le (E := c.E) hjc
    have hjx : j + 1 ≤ xs.length := hjl
    have hjm' := mul_le (E := c.E) hjx
    have hfl := flatten_len hB.2.1
    rw [Nat.add_mul] at hin hjm hjm'
    have hx := hB.2.1 x (List.mem_of_getElem? hj)
    have e1 : decide (j < q.size) = true := decide_eq_true (by rw [hB.1]; exact hjl)
    have e2 : decide ((q.start + j) * c.E + c.E ≤ v.paged.data.length) = true :=
      decide_eq_true (by rw [Nat.add_mul]; omega)
    unfold PV.bucketAt load
    simp only [hp, ok_bind, e1, verify_true, e2, require_true, pure_ok]
    congr 1
    apply List.ext_getElem?
    intro k
    rw [List.getElem?_take]
    by_cases hk : k < c.E
    · rw [if_pos hk, List.getElem?_drop, ← flatten_get hB.2.1 hj k hk, ← hB.2.2 (j * c.E + k) (by omega), Nat.add_mul,
        Nat.add_assoc]
    · rw [if_neg hk, List.getElem?_eq_none (by omega)]
  elemOut i j xs hi hj := by
    obtain ⟨q, hq, hp, hB⟩ := h.page hi
    have e1 : decide (j < q.size) = false := decide_eq_false (by rw [hB.1]; omega)
    unfold PV.bucketAt
    rw [hp, ok_bind, e1, verify_false]; rfl
  atIn i hi := by
    have e : decide (i < v.idx.length) = true := decide_eq_true (by rw [h.len]; exact hi)
    unfold PV.at
    rw [e, verify_true]; rfl
  atOut i hi := by
    have e : decide (i < v.idx.length) = false := decide_eq_false (by rw [h.len]; omega)
    unfold PV.at
    rw [e, verify_false]; rfl
  iter hL := by
    have hl : 0 < v.idx.length := by rw [h.len]; exact List.length_pos_iff.2 hL
    have e : decide (0 < v.idx.length) = true := decide_eq_true hl
    unfold PV.iterate PV.at
    simp only [e, verify_true, ok_bind, pure_ok, Nat.sub_zero]
    rw [Multi.VecVec.mapM_ok (g := fun i => L.getD i [])]
    · congr 1
      apply List.ext_getElem?
      intro i
      rw [List.getElem?_map]
      by_cases hi : i < L.length
      · rw [List.getElem?_range' (by rw [h.len]; exact hi)]; simp [hi]
      · rw [List.getElem?_eq_none (by rw [List.length_range', h.len]; omega), List.getElem?_eq_none (by omega)]; rfl
    · intro i hi
      simp only [List.mem_range'_1, h.len] at hi
      have hi' : L[i]? = some L[i] := List.getElem?_eq_getElem (by omega)
      rw [h.bucket hi']
      simp [List.getD, hi']

/-- **C25**: every history of `emplace_back`, `emplace_back_empty`, `insert`, `push_back` and `insert` on
buckets, element writes, `resize` and `clear`, with buckets of at most `MaxPageSize` elements, succeeds and is
observed exactly like the list of lists.  Partial: iteration over an empty container, larger buckets and
`push_back` of an element of the same container are excluded, see the `_violated` theorems. -/
theorem C25_history_partial {c : Cfg} (ok : c.Ok) (ops : List VOp) (ha : VAllowed c [] ops)
    (hb : vcost c [] ops ≤ c.sentinel) :
    ∃ v, vrun c (PV.empty c) ops = .ok v ∧ VGood c v (vspec [] ops) := by
  obtain ⟨v, e, h⟩ := vrun_ok ok ops (vrel_empty c) ha (by simpa [Paged.size, Paged.empty, PV.empty] using hb)
  exact ⟨v, e, h.good⟩

/-- A history touching every operation: bucket 0 outgrows its page, which bucket 3 then reuses. -/
def sampleV : List VOp :=
  [.emplaceBack [[1#8, 0#8, 0#8, 0#8], [2#8, 0#8, 0#8, 0#8]], .emplaceBackEmpty, .push 0 [3#8, 0#8, 0#8, 0#8],
   .insert 1 [[7#8, 7#8, 7#8, 7#8]], .resize 4, .bucketInsert 0 1 [9#8, 9#8, 9#8, 9#8], .set 1 0 [8#8, 8#8, 8#8, 8#8],
   .push 3 [5#8, 5#8, 5#8, 5#8]]

example : VAllowed cfg4 [] sampleV ∧ vcost cfg4 [] sampleV ≤ cfg4.sentinel := by
  constructor
  · simp only [sampleV, VAllowed, VOp.Pre, VOp.spec, cfg4]
    simp [List.modify, List.modifyTailIdx, List.modifyTailIdx.go, List.insertIdx]
  · decide +kernel

example : (do let v ← vrun cfg4 (PV.empty cfg4) sampleV; v.iterate cfg4) =
    .ok [[[1#8, 0#8, 0#8, 0#8], [9#8, 9#8, 9#8, 9#8], [2#8, 0#8, 0#8, 0#8], [3#8, 0#8, 0#8, 0#8]],
      [[8#8, 8#8, 8#8, 8#8]], [], [[5#8, 5#8, 5#8, 5#8]]] := by decide +kernel

/-- **C25**: `push_back` on a bucket of `MaxPageSize` elements throws in every reachable state: buckets cannot
grow beyond that (a list can). -/
theorem C25_push_back_limit {c : Cfg} (ok : c.Ok) (ops : List VOp) (ha : VAllowed c [] ops)
    (hb : vcost c [] ops ≤ c.sentinel) (i : Nat) (xs : List (List Byte)) (hi : (vspec [] ops)[i]? = some xs)
    (hx : xs.length = 2 ^ c.M) (x : List Byte) :
    ∃ v, vrun c (PV.empty c) ops = .ok v ∧ v.pushBack c i x = .error .exn := by
  obtain ⟨v, e, h⟩ := vrun_ok ok ops (vrel_empty c) ha (by simpa [Paged.size, Paged.empty, PV.empty] using hb)
  obtain ⟨fl, hI⟩ := h.inv
  obtain ⟨q, hq, hp, hB⟩ := h.page hi
  have hM : 2 ^ c.M ≤ 2 ^ 15 := Nat.pow_le_pow_right (by omega) ok.M15
  have hmod : (q.size + 1) % 2 ^ 16 = 2 ^ c.M + 1 := by rw [hB.1, hx]; exact Nat.mod_eq_of_lt (by omega)
  refine ⟨v, e, ?_⟩
  unfold PV.pushBack PV.grow
  simp only [hp, ok_bind, hmod, resize_exn ok hI.frl (hI.pages q (List.mem_of_getElem? hq))
    (Nat.lt_succ_self (2 ^ c.M)) (by omega), error_bind]

/-- A configuration with `MaxPageSize = 2`: the bound is reached after two elements. -/
def cfg4s : Cfg := ⟨.little, 4, 4, 1, 1⟩

example : cfg4s.Ok := ⟨by decide, by decide, by decide, by decide, by decide, by decide⟩

example : (do
    let v ← vrun cfg4s (PV.empty cfg4s) [.emplaceBack [[1#8, 0#8, 0#8, 0#8], [2#8, 0#8, 0#8, 0#8]]]
    v.pushBack cfg4s 0 [3#8, 0#8, 0#8, 0#8]) = .error .exn := by decide +kernel

/-- **C25** violated: `emplace_back` of a bucket of `2^16 + r` elements allocates a page for `r` elements and then
copies all of them, writing outside of the storage (into an empty container: always; otherwise over other buckets
or outside). -/
theorem C25_large_bucket_violated {c : Cfg} (ok : c.Ok) (xs : List (List Byte)) (hE : ∀ x ∈ xs, x.length = c.E)
    (h16 : 2 ^ 16 ≤ xs.length) (hr : xs.length % 2 ^ 16 ≤ 2 ^ c.M) : (PV.empty c).emplaceBack c xs = .error .ub := by
  have hM : 2 ^ c.M ≤ 2 ^ 15 := Nat.pow_le_pow_right (by omega) ok.M15
  have hm2 : 2 ^ c.m ≤ 2 ^ 15 := Nat.pow_le_pow_right (by omega) (Nat.le_trans ok.mM ok.M15)
  obtain ⟨k, h1, h2, h3, h4, h5⟩ := newCap_spec ok (n := xs.length % 2 ^ 16) (by omega)
  have hk : newCap c (xs.length % 2 ^ 16) ≤ 2 ^ 15 := by
    rw [h3]; exact Nat.pow_le_pow_right (by omega) h2
  have hcl := newCap_le ok (n := xs.length % 2 ^ 16) (by omega)
  have hs : 2 ^ 16 ≤ c.sentinel := by
    unfold Cfg.sentinel
    rcases ok.Ssize with h | h <;> rw [h] <;> decide
  obtain ⟨q, p1, fl1, e, hqs, hc, hle, hI1, hsz, hl, hfr⟩ := create_ok ok (Inv.empty c) (n := xs.length % 2 ^ 16) hr
    (by
      have : (Paged.empty c).size c = 0 := by simp [Paged.size, Paged.empty]
      omega)
  have hlen : p1.data.length = p1.size c * c.E := hI1.len
  have hsz' : p1.size c ≤ 2 ^ 15 := by
    have : (Paged.empty c).size c = 0 := by simp [Paged.size, Paged.empty]
    omega
  have hfl := flatten_len hE
  have hm1 := mul_le (E := c.E) hsz'
  have hm2 := mul_le (E := c.E) h16
  have hEp := ok.E0
  have hlt : p1.data.length < xs.flatten.length := by rw [hlen, hfl]; omega
  have h0 : ¬ xs.flatten.length = 0 := by omega
  have es : decide (q.start * c.E + xs.flatten.length ≤ p1.data.length) = false := decide_eq_false (by omega)
  unfold PV.emplaceBack PV.empty
  simp only [e, ok_bind, Paged.copyIn, h0, if_false, store, es]
  rfl

example : ∃ xs : List (List Byte), (∀ x ∈ xs, x.length = cfg4.E) ∧ 2 ^ 16 ≤ xs.length ∧ xs.length % 2 ^ 16 ≤ 2 ^ cfg4.M := by
  refine ⟨List.replicate (2 ^ 16) [0#8, 0#8, 0#8, 0#8], ?_, ?_, ?_⟩
  · intro x hx; rw [List.eq_of_mem_replicate hx]; rfl
  · rw [List.length_replicate]; exact Nat.le_refl _
  · rw [List.length_replicate, Nat.mod_self]; exact Nat.zero_le _

/-- **C25** (partial): `v[i].push_back(v[i'][j])` does what it does with a copy of the element if the page of bucket `i` has room for one more.
Missing: a page that has to be replaced (`C25_push_back_own_violated`). -/
theorem C25_push_back_own_partial {c : Cfg} {v : PV} {i i' j : Nat} {q : Page} {x : List Byte} (hq : v.page i = .ok q) (hroom : q.size + 1 ≤ q.cap)
    (hs : q.size + 1 < 2 ^ 16) (hx : v.bucketAt c i' j = .ok x) : v.pushBackOwn c i i' j = v.pushBack c i x := by
  have hg : v.grow c i = .ok ⟨v.paged, v.idx.set i ⟨q.size + 1, q.cap, q.start⟩⟩ := by
    unfold PV.grow Paged.resize
    rw [hq, ok_bind, Nat.mod_eq_of_lt hs, if_pos hroom]
    rfl
  unfold PV.bucketAt at hx
  cases hp : v.page i' with
  | error e => rw [hp] at hx; cases hx
  | ok q' =>
    rw [hp, ok_bind] at hx
    cases hj : decide (j < q'.size) with
    | false => rw [hj, verify_false] at hx; cases hx
    | true =>
      rw [hj, verify_true, ok_bind] at hx
      unfold PV.pushBackOwn PV.pushBack
      rw [hp, ok_bind, hj, require_true, ok_bind, hg, ok_bind, ok_bind]
      simp only
      rw [hx, ok_bind]

/-- A bucket of three elements in a page of four. -/
example : (do
      let v ← vrun cfg4 (PV.empty cfg4) [.emplaceBack [[1#8, 0#8, 0#8, 0#8], [2#8, 0#8, 0#8, 0#8], [3#8, 0#8, 0#8, 0#8]]]
      let q ← v.page 0
      let x ← v.bucketAt cfg4 0 1
      return (q, x)) = .ok (⟨3, 4, 0⟩, [2#8, 0#8, 0#8, 0#8]) := by decide +kernel

/-- **C25** violated: `v[0].push_back(v[0][0])`.  The reference is read after the old page went to the free list,
whose link replaced the element: the bucket ends up with a changed last element although nothing was reallocated. -/
theorem C25_push_back_own_violated :
    (do
      let v ← vrun cfg4 (PV.empty cfg4)
        [.emplaceBack [[1#8, 0#8, 0#8, 0#8], [1#8, 0#8, 0#8, 0#8], [1#8, 0#8, 0#8, 0#8], [1#8, 0#8, 0#8, 0#8]],
         .resize 0, .emplaceBack [[7#8, 0#8, 0#8, 0#8], [8#8, 0#8, 0#8, 0#8]]]
      let before ← v.bucket cfg4 0
      let v' ← v.pushBackOwn cfg4 0 0 0
      let after ← v'.bucket cfg4 0
      return (before, after, v'.paged.data.length == v.paged.data.length)) =
    .ok ([[7#8, 0#8, 0#8, 0#8], [8#8, 0#8, 0#8, 0#8]],
      [[7#8, 0#8, 0#8, 0#8], [8#8, 0#8, 0#8, 0#8], [0xFF#8, 0xFF#8, 0xFF#8, 0xFF#8]], true) := by decide +kernel

/-- **C25** violated: `for (auto b : v)` on a container without buckets throws instead of doing nothing. -/
theorem C25_iterate_empty_violated {c : Cfg} (v : PV) (h : v.idx = []) : v.iterate c = .error .exn := by
  have e : decide (0 < v.idx.length) = false := decide_eq_false (by rw [h]; simp)
  unfold PV.iterate PV.at
  rw [e, verify_false]; rfl

example : (PV.empty cfg4).idx = [] := rfl

end Cista.Paged
