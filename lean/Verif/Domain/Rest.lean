import Verif.OffsetPtr.Props
import Verif.Conc.Props
import Verif.Multi.Fws
import Verif.Multi.Access
import Verif.Misc.FlatMatrix
import Verif.Target.Props
import Verif.Vector.Props
import Verif.MM.Access

/-!
# Restricted uses of pointers, atomics, flat containers and targets with complete claims

As in `Verif.Domain.Containers`: each theorem names a restricted use and shows the complete claim for it.
-/
set_option linter.unusedSimpArgs false

namespace Cista.OffsetPtr

/-- No object stores the distance to address 0: null is always stored as `NULLPTR_OFFSET`. -/
def NullOnce (m : Cells) : Prop := ∀ a, Low a → m a ≠ 0 - a

theorem null_ne {a : Addr} (ha : Low a) : NULLPTR_OFFSET ≠ 0 - a := by
  intro h
  have := congrArg BitVec.toNat h
  unfold Low at ha
  simp [NULLPTR_OFFSET, BitVec.toNat_sub, BitVec.toNat_intMin] at this
  omega

theorem nullOnce_upd {m : Cells} (hm : NullOnce m) {d p : Addr} {o : BitVec 64} (ho : ptrToOffset d p = .ok o) :
    NullOnce (upd m d o) := by
  intro a ha
  unfold upd
  by_cases e : a = d
  · subst e
    rw [if_pos rfl]
    unfold ptrToOffset at ho
    split at ho
    · cases ho; exact null_ne ha
    · next hp =>
      split at ho
      · cases ho
      · cases ho
        intro h
        exact hp (by bv_omega)
  · rw [if_neg e]; exact hm a ha

theorem nullOnce_assign {m m' : Cells} (hm : NullOnce m) {d s : Addr} (h : assignFrom m d s = .ok m') : NullOnce m' := by
  unfold assignFrom at h
  cases hg : get s (m s) with
  | error e => simp [hg, bind, Except.bind] at h
  | ok p =>
    cases ho : ptrToOffset d p with
    | error e => simp [hg, ho, bind, Except.bind] at h
    | ok o =>
      simp [hg, ho, bind, Except.bind, pure, Except.pure] at h
      subst h
      exact nullOnce_upd hm ho

theorem nullOnce_step {m m' : Cells} (hm : NullOnce m) (op : Op) (h : step m op = .ok m') : NullOnce m' := by
  cases op with
  | setNull d =>
    cases h
    exact nullOnce_upd (p := 0) hm (by simp [ptrToOffset])
  | setRaw d p =>
    cases ho : ptrToOffset d p with
    | error e => simp [step, ho, bind, Except.bind] at h
    | ok o =>
      simp [step, ho, bind, Except.bind, pure, Except.pure] at h
      subst h
      exact nullOnce_upd hm ho
  | copy d s => exact nullOnce_assign hm h
  | step d stride k =>
    cases hg : get d (m d) with
    | error e => simp [step, hg, bind, Except.bind] at h
    | ok p =>
      cases hq : rawAdd p stride k with
      | error e => simp [step, hg, hq, bind, Except.bind] at h
      | ok q =>
        cases ho : ptrToOffset d q with
        | error e => simp [step, hg, hq, ho, bind, Except.bind] at h
        | ok o =>
          simp [step, hg, hq, ho, bind, Except.bind, pure, Except.pure] at h
          subst h
          exact nullOnce_upd hm ho
  | swap a b t =>
    simp only [step] at h
    cases h1 : assignFrom m t a with
    | error e => simp [h1, bind, Except.bind] at h
    | ok m1 =>
      cases h2 : assignFrom m1 a b with
      | error e => simp [h1, h2, bind, Except.bind] at h
      | ok m2 =>
        simp [h1, h2, bind, Except.bind] at h
        exact nullOnce_assign (nullOnce_assign (nullOnce_assign hm h1) h2) h

/-- C92: relative pointers that start out null and are used with anything but postfix `++`/`--` denote at each point what raw pointers
would; `operator bool` and `==` agree with the raw pointers. -/
theorem C92_offset_ptr (ops : List Op) (hv : ∀ op ∈ ops, op.Valid) {r : Raw} (hr : specRun (fun _ => 0) ops = .ok r) :
    ∃ m, run (fun _ => NULLPTR_OFFSET) ops = .ok m ∧
      (∀ a, Low a → get a (m a) = .ok (r a)) ∧
      (∀ a, Low a → toBool (m a) = decide (r a ≠ 0)) ∧
      (∀ a b, Low a → Low b → ((get a (m a) = get b (m b)) ↔ r a = r b)) := by
  have hm : ∀ (ops : List Op), (∀ op ∈ ops, op.Valid) → ∀ (m : Cells) (r0 r : Raw), NullOnce m → Denotes m r0 → specRun r0 ops = .ok r →
      ∃ m', run m ops = .ok m' ∧ NullOnce m' ∧ Denotes m' r := by
    intro ops
    induction ops with
    | nil => intro _ m r0 r hn hd hr; cases hr; exact ⟨m, rfl, hn, hd⟩
    | cons op ops ih =>
      intro hv m r0 r hn hd hr
      have hs := step_refines op (hv op (by simp)) hd
      unfold specRun at hr
      cases h : specStep r0 op with
      | error e => simp [h, bind, Except.bind] at hr
      | ok r1 =>
        simp only [h] at hs
        obtain ⟨m1, e1, d1⟩ := hs
        simp only [h, bind, Except.bind] at hr
        obtain ⟨m2, e2, n2, d2⟩ := ih (fun o ho => hv o (by simp [ho])) m1 r1 r (nullOnce_step hn op e1) d1 hr
        refine ⟨m2, ?_, n2, d2⟩
        unfold run
        rw [e1]
        exact e2
  obtain ⟨m, e, hN, hd⟩ := hm ops hv _ _ _ (fun a ha => null_ne ha) C07_initial_null hr
  refine ⟨m, e, fun a ha => (hd a ha).2, ?_, ?_⟩
  · intro a ha
    obtain ⟨h1, h2⟩ := hd a ha
    by_cases h0 : r a = 0
    · rw [h0] at h2
      have : m a = NULLPTR_OFFSET := by
        unfold get at h2
        split at h2
        · assumption
        · next hn =>
          split at h2
          · cases h2
          · next ho =>
            exfalso
            have h3 := Except.ok.inj h2
            exact hN a ha (by bv_omega)
      simp [toBool, this, h0]
    · have : m a ≠ NULLPTR_OFFSET := by
        intro h
        rw [h] at h2
        simp [get] at h2
        exact h0 h2.symm
      simp [toBool, this]
      exact h0
  · intro a b ha hb
    rw [(hd a ha).2, (hd b hb).2]
    exact ⟨fun h => Except.ok.inj h, fun h => by rw [h]⟩

/-- A pointer is set, copied to another place, advanced there, swapped and reset. -/
def sampleOps : List Op := [.setRaw 4096 8192, .copy 100 4096, .step 100 8 1, .swap 100 4096 64, .setNull 100]

example : (∀ op ∈ sampleOps, op.Valid) ∧
    (match specRun (fun _ => 0) sampleOps with
    | .ok r => decide (r 4096 = 8200 ∧ r 100 = 0)
    | .error _ => false) = true := by
  refine ⟨?_, by decide⟩
  intro op h
  simp only [sampleOps, List.mem_cons, List.not_mem_nil, or_false] at h
  rcases h with rfl | rfl | rfl | rfl | rfl <;> simp [Op.Valid, Low]

end Cista.OffsetPtr

namespace Cista.Conc

/-- C93: whatever the interleaving of any number of `fetch_min` calls, they take effect one after the other in the order in which they
finish (each returns the value the cell held before its effect), and when all have returned the cell holds the minimum of its initial
value and all the values passed. -/
theorem C93_fetch_min (c : Int) (evs : List ExEv) :
    let s := exRun min (.init c) evs
    replay min c s.finished = some s.cell ∧
    ((∀ t, s.pc t = .idle) → s.cell ≤ c ∧ (∀ v ∈ s.started, s.cell ≤ v) ∧ (s.cell = c ∨ s.cell ∈ s.started)) :=
  ⟨C14_fetch_min_linearizable c evs, fun hq => C14_fetch_min c evs hq⟩

example : (exRun min (.init 9)
      [.call 0 5, .call 1 7, .step 0 false, .step 1 false, .step 1 true, .step 1 false, .step 0 false, .step 0 false]).cell = 5 := by decide

end Cista.Conc

namespace Cista.Multi.Fws

variable {α : Type}

/-- C94: an `fws_multimap` filled key by key, with iterators moved by `++`, `+`, `+=`, `-=`: every entry is the group of its key, iterating
visits the groups in order, `begin() + k` is the iterator to key `k`, going back with `-=` returns, and the difference of two iterators is
the distance of their keys. -/
theorem C94_groups (W : Nat) (gs : List (List α)) (h : gs.flatten.length < 2 ^ W) (hW : gs.length < 2 ^ W) (h31 : gs.length < 2 ^ 31)
    (hW32 : 32 ≤ W) :
    (∀ k g, gs[k]? = some g → (build W gs).entry k = .ok g ∧ ∀ i x, g[i]? = some x → (build W gs).entryAt k i = .ok x) ∧
    (build W gs).iterate W = .ok gs ∧ (build W gs).index.length = gs.length + 1 ∧ (build W gs).data = gs.flatten ∧
    (∀ i k g, i ≤ k → gs[k]? = some g → (build W gs).entry (iterAdd W i ((k : Int) - i)) = .ok g) ∧
    (∀ i j, i ≤ gs.length → j ≤ gs.length → iterAdd W i ((j : Int) - i) = j ∧ iterSubAssign W i ((i : Int) - j) = j ∧
      iterDiff W i j = (i : Int) - j) := by
  obtain ⟨h1, h2, h3, h4, _⟩ := C21_groups W gs h hW (by omega)
  have move : ∀ i j, i ≤ gs.length → j ≤ gs.length → iterAdd W i ((j : Int) - i) = j ∧ iterSubAssign W i ((i : Int) - j) = j ∧
      iterDiff W i j = (i : Int) - j := by
    intro i j hi hj
    have hj' : (j : Int) < 2 ^ W := by exact_mod_cast Nat.lt_of_le_of_lt hj hW
    have a := (C21_iterator_partial W i ((j : Int) - i)).1 (by omega) (by omega)
    have b := (C21_iterator_partial W i ((i : Int) - j)).2.1 (by omega) (by omega)
    have d := (C21_iterator_partial W i 0).2.2 j hW32 (by omega) (by omega) (by omega) (by omega)
    exact ⟨by omega, by omega, d⟩
  refine ⟨h1, h2, h3, h4, ?_, move⟩
  intro i k g hik hk
  have hlt : k < gs.length := (List.getElem?_eq_some_iff.1 hk).1
  rw [(move i k (by omega) (by omega)).1]
  exact (h1 k g hk).1

example : let gs := [[1, 2], [], [3], [4, 5, 6]]
    gs.flatten.length < 2 ^ 32 ∧ (build 32 gs).entry (iterAdd 32 1 2) = .ok [4, 5, 6] ∧ iterDiff 32 3 1 = 2 := by decide

end Cista.Multi.Fws

namespace Cista.Multi.NVec

variable {α : Type}

/-- C95: an `nvec` of any depth of at least two read through `operator[]`, `size()`, `front()`, `back()` and iteration holds exactly the emplaced nested
containers; out of range indices do not occur. -/
theorem C95_nvec (W L : Nat) (C : List (Nest α (L + 1))) (hf : Fits W (L + 1) C) (hd : (build W (L + 1) C).data.length < 2 ^ 64) :
    (build W (L + 1) C).size W (L + 1) = C.length ∧
    (build W (L + 1) C).iterate W (L + 1) = .ok C ∧
    (∀ i c path K (d : Nest α K), C[i]? = some c → Nest.sub (L + 1) c path = some ⟨K, d⟩ →
      ∃ k, (build W (L + 1) C).follow (L + 1) i path = .ok (K, k) ∧
        (build W (L + 1) C).bucketSize K k = .ok (Nest.count K d) ∧ (build W (L + 1) C).toNest K k = .ok d) ∧
    (∀ i c path (d : List α), C[i]? = some c → Nest.sub (L + 1) c path = some ⟨0, d⟩ →
      ∃ k, (build W (L + 1) C).follow (L + 1) i path = .ok (0, k) ∧ Accessors (build W (L + 1) C) k d) ∧
    (C ≠ [] → (build W (L + 1) C).front = 0 ∧ (build W (L + 1) C).back W (L + 1) = C.length - 1) := by
  obtain ⟨a, b, c⟩ := C23_content W L C hf
  obtain ⟨d, e⟩ := C23_accessors W L C hf hd
  exact ⟨a, b, c, d, e⟩

example : Fits 32 2 exC ∧ (build 32 2 exC).data.length < 2 ^ 64 ∧ exC.length = (build 32 2 exC).size 32 2 :=
  ⟨by simp [Fits, exC], by decide, by decide⟩

end Cista.Multi.NVec

namespace Cista.Paged

/-- C96: a `paged_vecvec` whose buckets never exceed `MaxPageSize` elements and whose bucket insertions do not take references into the
container is a list of lists, seen through sizes, buckets, elements, the accessors and (when there is at least one bucket) iteration. -/
theorem C96_paged_vecvec {c : Cfg} (ok : c.Ok) (W : Nat) (ops : List VOp) (ha : VAllowed c [] ops) (hb : vcost c [] ops ≤ c.sentinel)
    (hl : (vspec [] ops).length < 2 ^ W) :
    ∃ v, vrun c (PV.empty c) ops = .ok v ∧ VGood c v (vspec [] ops) ∧ Accessors c W v (vspec [] ops) := by
  obtain ⟨v, e, h⟩ := C25_history_partial ok ops ha hb
  exact ⟨v, e, h, h.accessors W hl⟩

example : cfg4.Ok ∧ vcost cfg4 [] sampleV ≤ cfg4.sentinel ∧ (vspec [] sampleV).length = 4 :=
  ⟨⟨by decide, by decide, by decide, by decide, by decide, by decide⟩, by decide +kernel, by decide⟩

end Cista.Paged

namespace Cista.FlatMatrix

variable {α : Type}

/-- C97: a matrix whose number of cells always fits the size type is a function from in-range index pairs to values: after any history of
cell writes, resets and changes of the numbers of rows and columns (which keep the values in the order of the rows) every access path
reads what was written last to exactly that cell, and `at` throws for rows out of range. -/
theorem C97_matrix {W n m : Nat} (hm : m < 2 ^ W) (hnm : n * m < 2 ^ W) (x d : α) (ops : List (ROp α))
    (ha : RAllowed W d ⟨n, m, fun _ _ => x⟩ ops) :
    let s := rspecRun d ⟨n, m, fun _ _ => x⟩ ops
    ∃ a, rrun W d (make W n m x) ops = .ok a ∧
      (∀ i j, i < s.rows → j < s.cols → a.get W i j = .ok (s.cell i j) ∧ a.at W i j = .ok (s.cell i j)) ∧
      (∀ i, i < s.rows → a.row W i = .ok ((List.range s.cols).map fun j => s.cell i j)) ∧
      (∀ i j, s.rows ≤ i → a.at W i j = .error .exn) := C45_resize_partial hm hnm x d ops ha

/-- C97: a change of the number of rows alone keeps every cell where it was. -/
theorem C97_rows (d : α) (s : RSpec α) (n i j : Nat) (hj : j < s.cols) :
    (reshape d s n s.cols).cell i j = if i < s.rows then s.cell i j else d := by
  simp only [reshape]
  have h1 : (s.cols * i + j) / s.cols = i := by
    rw [Nat.mul_add_div (by omega), Nat.div_eq_of_lt hj]; omega
  have h2 : (s.cols * i + j) % s.cols = j := by rw [Nat.mul_add_mod, Nat.mod_eq_of_lt hj]
  by_cases hr : i < s.rows
  · rw [if_pos hr, if_pos (cell_lt hr hj), h1, h2]
  · rw [if_neg hr, if_neg]
    have : s.cols * s.rows ≤ s.cols * i := Nat.mul_le_mul_left _ (by omega)
    rw [Nat.mul_comm s.rows]; omega

example : RAllowed (α := Nat) 32 0 ⟨2, 3, fun _ _ => 7⟩ [.put 1 2 5, .resize 4 3, .put 3 0 9] ∧
    (rspecRun (α := Nat) 0 ⟨2, 3, fun _ _ => 7⟩ [.put 1 2 5, .resize 4 3, .put 3 0 9]).cell 1 2 = 5 := by
  refine ⟨?_, by decide⟩
  simp [RAllowed, ROp.Pre, ROp.spec, reshape]

end Cista.FlatMatrix

namespace Cista.Target

/-- Alignments the allocator guarantees: at most 16 bytes, powers of two. -/
def SmallAlign (ops : List Op) : Prop := ∀ bs al, Op.block bs al ∈ ops → al ∣ 16

/-- C98: non-empty blocks with alignments up to 16 and patches inside of what was written, sent to a file and to a memory buffer at
16-byte aligned addresses (whatever the reallocations), give the same bytes and the same offsets. -/
theorem C98_targets (bases : Nat → Nat) (hbase : ∀ k, 16 ∣ bases k) (ops : List Op) (hne : NonEmptyBlocks ops) (hal : SmallAlign ops)
    {out : List Byte} {offs : List Nat} (hs : specRun [] ops = some (out, offs)) :
    runFile ⟨[], 0⟩ ops = (⟨out, out.length⟩, offs) ∧ runBuf bases 0 [] ops = .ok (out, offs) := by
  refine ⟨C44_file_target ops hne ⟨[], 0⟩ rfl out offs hs, ?_⟩
  rw [C44_buf_target_partial bases ops hne ?_ 0 [], hs]
  intro bs al h k _
  exact Nat.mod_eq_zero_of_dvd (Nat.dvd_trans (hal bs al h) (hbase k))

example : (∀ k : Nat, 16 ∣ 4096 * k + 32) ∧
    NonEmptyBlocks [.block [1#8] 1, .block [2#8, 3#8] 8, .patch 0 [9#8], .block [4#8] 2] ∧
    SmallAlign [.block [1#8] 1, .block [2#8, 3#8] 8, .patch 0 [9#8], .block [4#8] 2] ∧
    specRun [] [.block [1#8] 1, .block [2#8, 3#8] 8, .patch 0 [9#8], .block [4#8] 2] =
      some ([9#8, 0#8, 0#8, 0#8, 0#8, 0#8, 0#8, 0#8, 2#8, 3#8, 4#8], [0, 8, 10]) := by
  refine ⟨fun k => by omega, ?_, ?_, by decide⟩
  · intro bs al h
    simp at h
    rcases h with ⟨rfl, rfl⟩ | ⟨rfl, rfl⟩ | ⟨rfl, rfl⟩ <;> simp
  · intro bs al h
    simp at h
    rcases h with ⟨rfl, rfl⟩ | ⟨rfl, rfl⟩ | ⟨rfl, rfl⟩ <;> decide

end Cista.Target

namespace Cista.Vector

open Cista.Mem

variable {α : Type}

/-- C99: after `reserve(size() + 1)`, `push_back`/`emplace_back`/`insert` of a reference to one of the vector's own elements (obtained after
the `reserve`) append or insert a copy of that element, in every state of a vector. -/
theorem C99_own_element {W : Nat} {strict : Bool} (h : Heap α) (v : Vec) (l : List α) (r : Rep strict h v l) (hf : Fresh h)
    (hl : Lim W (l.length + 1)) (j : Nat) (hj : j < l.length) :
    ∃ h1 v1 b, reserve W strict h v (l.length + 1) = .ok (h1, v1) ∧ v1.ptr = some b ∧
      (∃ h2 v2, pushBackRef W strict h1 v1 b j = .ok (h2, v2) ∧ Rep strict h2 v2 (l ++ [l[j]])) ∧
      ∀ off, off ≤ l.length → ∃ h2 v2, insertOneRef W strict h1 v1 off b j = .ok (h2, v2, off + 1) ∧
        Rep strict h2 v2 (l.take off ++ [l[j]] ++ l.drop off) := by
  obtain ⟨h1, v1, e1, r1, hc, _, f1⟩ := reserve_ok r hf hl
  obtain ⟨b, _, hb, _⟩ := r1.toBlk (Or.inl (by omega))
  · obtain ⟨p1, p2⟩ := C10_spare_capacity_partial hl.std h1 v1 l r1 hl.le hc b j hb hj
    refine ⟨h1, v1, b, e1, hb, ?_, ?_⟩
    · obtain ⟨h2, v2, e2, r2, _⟩ := pushBack_ok r1 f1.fresh hl l[j]
      exact ⟨h2, v2, by rw [p1]; exact e2, r2⟩
    · intro off ho
      obtain ⟨h2, v2, e2, r2, _⟩ := insertOne_ok r1 f1.fresh hl ho l[j]
      exact ⟨h2, v2, by rw [p2]; exact e2, r2⟩

/-- A full vector of two elements with 32-bit sizes. -/
example : let h : Heap Nat := { blocks := fun b => if b = 0 then some [.val 7, .val 8] else none, next := 1 }
    let v : Vec := { ptr := some 0, used := 2, alloc := 2, self := true }
    Rep true h v [7, 8] ∧ Fresh h ∧ Lim 32 3 ∧ (pushBackRef 32 true h v 0 1).map (fun p => p.1.blocks 1) = .error .ub ∧
      (reserve 32 true h v 3 >>= fun p => pushBackRef 32 true p.1 p.2 1 1).map (fun p => p.1.blocks 1) =
        .ok (some [.val 7, .val 8, .val 8, .raw]) := by
  refine ⟨.blk 0 [] rfl (by decide) rfl rfl rfl (by simp), ?_, ⟨by simp [Arith.StdWidth], by decide⟩, by decide, by decide⟩
  intro b hb
  have : b ≠ 0 := by simp at hb; omega
  simp [this]

end Cista.Vector

namespace Cista.MM

variable {α : Type}

/-- C100: bucket iterators of a mutable multimap with fewer than `2^31` buckets that are never moved by `--`: moves by `++`, `+`, `-` are
inverse to each other and reach the bucket at the stated distance, differences and comparisons are those of the positions. -/
theorem C100_iterators {W : Nat} (hW : W = 32 ∨ W = 64) (m : Map α) (hm : m.index.length < 2 ^ 31)
    {a b : Nat} (ha : a ≤ m.index.length) (hb : b ≤ m.index.length) :
    (∀ n, iterSub (iterAdd (BitVec.ofNat W a) n) n = BitVec.ofNat W a ∧ iterAdd (iterSub (BitVec.ofNat W a) n) n = BitVec.ofNat W a) ∧
    iterSub (iterInc (BitVec.ofNat W a)) 1 = BitVec.ofNat W a ∧
    iterDiff (BitVec.ofNat W a) (BitVec.ofNat W b) = .ok ((a : Int) - b) ∧
    iterAdd (BitVec.ofNat W a) ((b : Int) - a) = BitVec.ofNat W b ∧
    m.iterGet (BitVec.ofNat W a) ((b : Int) - a) = m.at b ∧
    iterLt (BitVec.ofNat W a) (BitVec.ofNat W b) = decide (a < b) ∧
    iterLe (BitVec.ofNat W a) (BitVec.ofNat W b) = decide (a ≤ b) ∧
    iterGt (BitVec.ofNat W a) (BitVec.ofNat W b) = decide (b < a) ∧
    iterGe (BitVec.ofNat W a) (BitVec.ofNat W b) = decide (b ≤ a) := by
  obtain ⟨h1, h2, h3, h4, h5, h6, h7, _⟩ := C52_iterator_distance hW m hm ha hb
  exact ⟨fun n => ⟨(C52_iterator_moves_partial _ n).1, (C52_iterator_moves_partial _ n).2.1⟩,
    (C52_iterator_moves_partial (BitVec.ofNat W a) 0).2.2, h1, h2, h3, h4, h5, h6, h7⟩

example : iterDiff (BitVec.ofNat 32 1) (BitVec.ofNat 32 3) = .ok (-2) ∧ iterAdd (BitVec.ofNat 32 3) (-2) = 1#32 := by decide

end Cista.MM
