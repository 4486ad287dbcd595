import Verif.HS.Props

set_option linter.unusedSimpArgs false

/-!
# C105 — hash tables when memory runs out

`fail` says that the allocation of `initialize_entries` (hash_storage.h:596-600) returns null.  The index
of the slot is `none` if the call ended with `std::bad_alloc`.
-/
namespace Cista.HS

variable {K V : Type} [DecidableEq K]

/-- hash_storage.h:592-600, 617-618: `capacity_`, `self_allocated_` and `entries_` are overwritten before
the allocation is known to have failed; `ctrl_` still points behind the old entries. -/
def abandoned (st : HS K V) (ncap : Nat) : HS K V :=
  { st with entries := [], cap := ncap, block := false, self := true }

/-- hash_storage.h:611-634. -/
def resizeF (hash : K → Nat) (fail : Bool) (st : HS K V) (ncap : Nat) : Res (HS K V × Bool) :=
  if fail then .ok (abandoned st ncap, true) else (resize hash st ncap).map fun s => (s, false)

/-- hash_storage.h:579-581. -/
def growF (hash : K → Nat) (fail : Bool) (st : HS K V) : Res (HS K V × Bool) :=
  resizeF hash fail st (if st.cap = 0 then 1 else st.cap * 2 + 1)

/-- hash_storage.h:565-570: what follows growing. -/
def afterGrow (h : Nat) (r : HS K V × Bool) : Res (HS K V × Option Nat) :=
  if r.2 then .ok (r.1, none) else do
    let t ← findFirst r.1.ctrl r.1.cap h
    (takeSlot r.1 t (h2 h)).map fun p => (p.1, some p.2)

/-- hash_storage.h:561-571. -/
def prepareInsertF (hash : K → Nat) (fail : Bool) (st : HS K V) (h : Nat) : Res (HS K V × Option Nat) := do
  let t ← findFirst st.ctrl st.cap h
  let c ← ctrlAt st.ctrl t
  if st.growth = 0 ∧ c ≠ DELETED then do
    let r ← growF hash fail st
    afterGrow h r
  else (takeSlot st t (h2 h)).map fun p => (p.1, some p.2)

/-- hash_storage.h:535-550. -/
def findOrPrepareF (hash : K → Nat) (fail : Bool) (st : HS K V) (k : K) : Res (HS K V × Option (Nat × Bool)) := do
  let r ← find hash st k
  match r with
  | some i => .ok (st, some (i, false))
  | none => do
    let p ← prepareInsertF hash fail st (hash k)
    .ok (p.1, p.2.map fun i => (i, true))

/-- hash_storage.h:439-449. -/
def emplaceF (hash : K → Nat) (fail : Bool) (st : HS K V) (e : K × V) : Res (HS K V × Option (Nat × Bool)) := do
  let r ← findOrPrepareF hash fail st e.1
  match r.2 with
  | some (i, true) => do
    let es ← construct r.1.entries i e
    .ok ({ r.1 with entries := es }, r.2)
  | _ => .ok r

/-! ## What still holds -/

theorem prepareInsertF_ok (hash : K → Nat) (st : HS K V) (h : Nat) :
    prepareInsertF hash false st h = (prepareInsert hash st h).map fun p => (p.1, some p.2) := by
  unfold prepareInsertF prepareInsert growF resizeF grow
  cases findFirst st.ctrl st.cap h with
  | error e => rfl
  | ok t =>
    simp only [ok_bind]
    cases ctrlAt st.ctrl t with
    | error e => rfl
    | ok c =>
      simp only [ok_bind]
      by_cases hc : st.growth = 0 ∧ c ≠ DELETED
      · simp only [if_pos hc, Bool.false_eq_true, if_false]
        cases resize hash st (if st.cap = 0 then 1 else st.cap * 2 + 1) with
        | error e => rfl
        | ok s =>
          simp only [Except.map, ok_bind, afterGrow, Bool.false_eq_true, if_false]
          cases findFirst s.ctrl s.cap h <;> rfl
      · simp only [if_neg hc]

theorem emplaceF_ok (hash : K → Nat) (st : HS K V) (e : K × V) :
    emplaceF hash false st e = (emplace hash st e).map fun r => (r.1, some r.2) := by
  unfold emplaceF emplace findOrPrepareF findOrPrepare
  cases find hash st e.1 with
  | error e => rfl
  | ok r =>
    simp only [ok_bind]
    cases r with
    | some i => rfl
    | none =>
      simp only [prepareInsertF_ok]
      cases prepareInsert hash st (hash e.1) with
      | error e => rfl
      | ok p =>
        simp only [Except.map, ok_bind, Option.map_some, if_true]
        cases construct p.1.entries p.2 e <;> rfl

/-- **C105** (partial): insertions that need no new storage — the key is present or `growth_left_` is
not zero — do not allocate, so they succeed whatever the allocator does.

Missing: insertions that have to grow the table, after whose failure the table is unusable
(`C105_nonempty_violated`, `C105_empty_violated`). -/
theorem C105_no_growth_partial {hash : K → Nat} {N : Nat} {st : HS K V} {m : List (K × V)} (h : Rep hash N st m)
    (hN : N < 2 ^ 60) (e : K × V) (hg : (lookup m e.1).isSome ∨ 0 < st.growth) :
    ∃ st' i b, emplaceF hash true st e = .ok (st', some (i, b)) ∧ Rep hash (N + 1) st' (if b then e :: m else m) ∧
      (b = true ↔ lookup m e.1 = none) := by
  rcases h.cases e.1 with ⟨i, v, hf, he, hl⟩ | ⟨hf, habs, hl⟩
  · refine ⟨st, i, false, ?_, by simpa using h.mono (Nat.le_succ N), by simp [hl]⟩
    unfold emplaceF findOrPrepareF
    rw [hf]
    rfl
  · rw [hl] at hg
    have hg : 0 < st.growth := by simpa using hg
    have hsame : emplaceF hash true st e = emplaceF hash false st e := by
      unfold emplaceF findOrPrepareF prepareInsertF
      rw [hf]
      simp only [ok_bind, show ¬ (st.growth = 0) by omega, false_and, if_false]
    obtain ⟨S, hi, hp⟩ := h
    obtain ⟨st', S', i, h1, h2, _, h4, _⟩ := emplace_absent hi hN habs
    refine ⟨st', i, true, ?_, ⟨S', h2, ?_⟩, by simp [hl]⟩
    · rw [hsame, emplaceF_ok, h1]; rfl
    · simpa using h4.trans (hp.cons e)

/-- Non-vacuity (C105): with eight keys there is room for more. -/
example : ∃ st, insertAll (fun n : Nat => n) ((List.range 8).map fun i => (i, i)) (HS.init : HS Nat Nat) = .ok st ∧
    st.growth = 6 ∧ (emplaceF (fun n : Nat => n) true st (9, 9)).toOption.isSome = true := ⟨_, rfl, by decide +kernel, by decide +kernel⟩

/-! ## What does not hold -/

/-- The state of a never filled table after its first insertion failed. -/
def failedFirst (K V : Type) : HS K V := ⟨emptyGroup, [], 0, 1, 0, false, true⟩

theorem and_one (x : Nat) : x &&& 1 = 0 ∨ x &&& 1 = 1 := by
  rw [Nat.and_one_is_mod]; omega

theorem failedFirst_find (hash : K → Nat) (k : K) : find hash (failedFirst K V) k = .ok none := by
  unfold find findN
  have hm : ∀ n, n < 128 → matchIdx ((emptyGroup.drop 0).take 8) n = [] ∧
      matchIdx ((emptyGroup.drop 1).take 8) n = [] := by decide +kernel
  have hl := hm _ (h2_lt (hash k))
  show findLoop (failedFirst K V) k _ 2 (h1 (hash k) &&& 1) 0 = _
  rcases and_one (h1 (hash k)) with e | e
  · rw [e]
    unfold findLoop
    rw [show group (failedFirst K V).ctrl 0 = .ok ((emptyGroup.drop 0).take 8) from rfl]
    simp only [ok_bind]
    rw [hl.1]
    rfl
  · rw [e]
    unfold findLoop
    rw [show group (failedFirst K V).ctrl 1 = .ok ((emptyGroup.drop 1).take 8) from rfl]
    simp only [ok_bind]
    rw [hl.2]
    rfl

/-- **C105** (partial): after the first insertion into an empty table failed, lookups find nothing, the
table can be cleared and destroyed, and the next insertion works.

Missing: iteration (`C105_empty_violated`). -/
theorem C105_retry_partial (hash : K → Nat) (e : K × V) :
    emplaceF hash true HS.init e = .ok (failedFirst K V, none) ∧
    (∀ k, get hash (failedFirst K V) k = .ok none) ∧ destroy (failedFirst K V) = .ok () ∧
    (∃ st, clear (failedFirst K V) = .ok st ∧ Rep hash 0 st []) ∧
    ∀ e', ∃ st i, emplaceF hash false (failedFirst K V) e' = .ok (st, some (i, true)) ∧ Rep hash 1 st [e'] := by
  refine ⟨?_, ?_, rfl, ⟨_, rfl, [], Inv.init hash true, List.Perm.refl _⟩, ?_⟩
  · have hf : find hash (HS.init : HS K V) e.1 = .ok none := (Inv.init hash false).find_none (by simp [HS.init, live])
    have hff : findFirst (HS.init : HS K V).ctrl 0 (hash e.1) = .ok 0 := by
      have := findFirst_full (S := []) (List.replicate 7 EMPTY) pcap_zero (fun c hc => by simp at hc) (hash e.1) (by simp)
        (fun c hc => by simp at hc)
      exact this
    unfold emplaceF findOrPrepareF prepareInsertF
    rw [hf]
    simp only [ok_bind]
    show ((findFirst (HS.init : HS K V).ctrl 0 (hash e.1)).bind _ >>= _) >>= _ = _
    rw [hff]
    rfl
  · intro k
    unfold get
    rw [failedFirst_find]
    rfl
  · intro e'
    obtain ⟨s3, S3, hr, hi3, _, hp3, _, hg3, _⟩ := resize_ok (Inv.init hash (V := V) true) (ncap := 3) ⟨2, by omega, by omega⟩
      (by omega) (by simp [HS.init, growthOf]) (by omega)
    have hs3 : resize hash (failedFirst K V) 3 = .ok s3 := by rw [← hr]; rfl
    have habs : ∀ f ∈ live s3.entries, f.1 ≠ e'.1 := by
      intro f hf
      have := hp3.mem_iff.1 hf
      simp [HS.init, live] at this
    obtain ⟨st', S', i, h1, h2, _, h4, _⟩ := emplace_absent (hi3.mono (Nat.zero_le 0)) (by omega) habs
    refine ⟨st', i, ?_, S', h2, h4.trans (hp3.cons e')⟩
    rw [emplaceF_ok]
    suffices emplace hash (failedFirst K V) e' = emplace hash s3 e' by rw [this, h1]; rfl
    have hgp : ¬ s3.growth = 0 := by rw [hg3]; simp [HS.init, growthOf]
    unfold emplace findOrPrepare
    rw [failedFirst_find, hi3.find_none habs]
    simp only [ok_bind]
    have : prepareInsert hash (failedFirst K V) (hash e'.1) = prepareInsert hash s3 (hash e'.1) := by
      unfold prepareInsert grow
      have h1' : ∃ t, findFirst (failedFirst K V).ctrl (failedFirst K V).cap (hash e'.1) = .ok t ∧
          ∃ c, ctrlAt (failedFirst K V).ctrl t = .ok c ∧ c ≠ DELETED := by
        unfold findFirst
        show ∃ t, ffLoop emptyGroup 1 2 (HS.h1 (hash e'.1) &&& 1) 0 = .ok t ∧ _
        rcases and_one (HS.h1 (hash e'.1)) with e | e <;> rw [e]
        · exact ⟨1, by decide, EMPTY, rfl, by decide⟩
        · exact ⟨1, by decide, EMPTY, rfl, by decide⟩
      obtain ⟨t, ht, c, hc, hcd⟩ := h1'
      rw [ht]
      simp only [ok_bind, hc]
      rw [if_pos ⟨rfl, hcd⟩]
      show (resize hash (failedFirst K V) 3 >>= _) = _
      rw [hs3]
      simp only [ok_bind, hgp, false_and, if_false]
      obtain ⟨t3, ht3⟩ : ∃ t3, findFirst s3.ctrl s3.cap (hash e'.1) = .ok t3 := by
        cases hq : findFirst s3.ctrl s3.cap (hash e'.1) with
        | ok t3 => exact ⟨t3, rfl⟩
        | error er =>
          exfalso
          unfold emplace findOrPrepare prepareInsert at h1
          rw [hi3.find_none habs] at h1
          simp only [ok_bind, hq, error_bind] at h1
          cases h1
      rw [ht3]
      simp only [ok_bind]
      cases hq : ctrlAt s3.ctrl t3 with
      | ok c3 => rfl
      | error er =>
        unfold takeSlot
        rw [hq]
        rfl
    rw [this]

/-- **C105** (violated): after the first insertion into an empty table failed, iterating over the still
empty table has undefined behaviour: `begin()` is not `end()`. -/
theorem C105_empty_violated (hash : K → Nat) (e : K × V) :
    ∃ st, emplaceF hash true HS.init e = .ok (st, none) ∧ st.size = 0 ∧ iterate st = .error .ub :=
  ⟨_, (C105_retry_partial hash e).1, rfl, by
    unfold iterate
    rw [show skip (failedFirst K V).ctrl ((failedFirst K V).cap + 1) 0 = .ok 0 from rfl]
    simp only [ok_bind]
    unfold positions
    rw [if_neg (show ¬ 0 = (failedFirst K V).cap from Nat.zero_ne_one),
      show skip (failedFirst K V).ctrl ((failedFirst K V).cap + 1) (0 + 1) = .error .ub from
        show skip emptyGroup 2 1 = .error .ub by decide]
    rfl⟩

theorem destroyLoop_ub {ctrl : List Nat} : ∀ (n i j : Nat), i ≤ j → j < i + n → j < ctrl.length →
    isFull (ctrl.getD j EMPTY) = true → destroyLoop ctrl n i ([] : List (Option (K × V))) = .error .ub
  | 0, i, j, h1, h2, _, _ => by omega
  | n + 1, i, j, h1, h2, h3, h4 => by
    unfold destroyLoop ctrlAt
    rw [List.getElem?_eq_getElem (show i < ctrl.length by omega)]
    simp only [ok_bind]
    by_cases hfull : isFull ctrl[i] = true
    · rw [if_pos hfull]; rfl
    · rw [if_neg hfull]
      have hij : i ≠ j := by
        rintro rfl
        rw [List.getD_eq_getElem?_getD, List.getElem?_eq_getElem h3] at h4
        exact hfull h4
      exact destroyLoop_ub n (i + 1) j (by omega) (by omega) h3 h4

/-- **C105** (violated): after an insertion into any non-empty table failed because the table had to
grow, all its elements are lost, their storage is not referenced any more (leaked), and already the
destructor of the table has undefined behaviour. -/
theorem C105_nonempty_violated {hash : K → Nat} {N : Nat} {st : HS K V} {m : List (K × V)} (h : Rep hash N st m)
    (hm : m ≠ []) :
    ∃ st', growF hash true st = .ok (st', true) ∧ st'.block = false ∧ st'.size = m.length ∧ st'.entries = [] ∧
      destroy st' = .error .ub := by
  obtain ⟨S, hi, hp⟩ := h
  obtain ⟨t, ht⟩ := hi.lay
  refine ⟨_, rfl, rfl, hi.size.trans hp.length_eq, rfl, ?_⟩
  obtain ⟨e, he⟩ := List.exists_mem_of_ne_nil m hm
  obtain ⟨j, hj⟩ := mem_live.1 (hp.mem_iff.2 he)
  have htag := hi.core.tag j e hj
  have hjl : j < S.length := (List.getElem?_eq_some_iff.1 htag).1
  have hcap := hi.cap
  have hc0 : st.cap ≠ 0 := by omega
  have hloop : destroyLoop st.ctrl (st.cap * 2 + 1) 0 ([] : List (Option (K × V))) = .error .ub := by
    have hget : st.ctrl[j]? = some (h2 (hash e.1)) := by
      rw [ht, layout, List.append_assoc, List.getElem?_append_left hjl, htag]
    apply destroyLoop_ub _ 0 j (by omega) (by omega) (List.getElem?_eq_some_iff.1 hget).1
    rw [List.getD_eq_getElem?_getD, hget]
    exact isFull_h2 _
  simp only [hc0, if_false]
  unfold destroy clear abandoned
  simp only [if_neg (show ¬ st.cap * 2 + 1 = 0 by omega), hloop, error_bind]

/-- Non-vacuity (C105): one entry, the second insertion has to grow the table. -/
example : ∃ st, emplace (fun n : Nat => n) (HS.init : HS Nat Nat) (1, 2) = .ok (st, 0, true) ∧
    ∃ st', emplaceF (fun n : Nat => n) true st (3, 4) = .ok (st', none) ∧ destroy st' = .error .ub :=
  ⟨_, rfl, _, rfl, rfl⟩

end Cista.HS
