import Verif.Fail.HS

set_option linter.unusedSimpArgs false

/-!
# C111 — hash tables when constructing an entry throws

`emplace` (hash_storage.h:441-449) marks the slot as full and counts the entry (`prepare_insert`, 567-570)
before it moves the entry into the slot (line 446); if that constructor throws (a move constructor, or the copy
constructor of a type that has only that one), the state remains.  A throw of the constructor of the local `entry`
(443) happens before anything is changed.
-/
namespace Cista.HS

variable {K V : Type} [DecidableEq K]

/-- hash_storage.h:439-449; `throws`: the constructor of the entry in the slot throws.  The slot is `none` if the call
ended with an exception. -/
def emplaceT (hash : K → Nat) (throws : Bool) (st : HS K V) (e : K × V) : Res (HS K V × Option (Nat × Bool)) := do
  let r ← findOrPrepare hash st e.1
  if r.2.2 then
    if throws then .ok (r.1, none) else do
      let es ← construct r.1.entries r.2.1 e
      .ok ({ r.1 with entries := es }, some (r.2.1, true))
  else .ok (r.1, some r.2)

theorem emplaceT_calm (hash : K → Nat) (st : HS K V) (e : K × V) :
    emplaceT hash false st e = (emplace hash st e).map fun r => (r.1, some r.2) := by
  unfold emplaceT emplace
  cases findOrPrepare hash st e.1 with
  | error e => rfl
  | ok r =>
    simp only [ok_bind, Bool.false_eq_true, if_false]
    by_cases hr : r.2.2 = true
    · simp only [if_pos hr]
      cases construct r.1.entries r.2.1 e <;> rfl
    · simp only [if_neg hr]
      rfl

/-- **C111** (partial): if the key is present nothing is constructed, so nothing can throw and the table is unchanged;
if it is absent and nothing throws, the entry is inserted.

Missing: a constructor that throws (`C111_throw_violated`). -/
theorem C111_calm_partial {hash : K → Nat} {N : Nat} {st : HS K V} {m : List (K × V)} (h : Rep hash N st m)
    (hN : N < 2 ^ 60) (e : K × V) :
    ((lookup m e.1).isSome → ∀ throws, ∃ i, emplaceT hash throws st e = .ok (st, some (i, false))) ∧
    (lookup m e.1 = none → ∃ st' i, emplaceT hash false st e = .ok (st', some (i, true)) ∧ Rep hash (N + 1) st' (e :: m)) := by
  constructor
  · intro hl throws
    rcases h.cases e.1 with ⟨i, v, hf, he, hl'⟩ | ⟨hf, habs, hl'⟩
    · refine ⟨i, ?_⟩
      unfold emplaceT findOrPrepare
      rw [hf]
      rfl
    · rw [hl'] at hl; cases hl
  · intro hl
    rcases h.cases e.1 with ⟨i, v, hf, he, hl'⟩ | ⟨hf, habs, hl'⟩
    · rw [hl'] at hl; cases hl
    · obtain ⟨S, hi, hp⟩ := h
      obtain ⟨st', S', i, h1, h2, _, h4, _⟩ := emplace_absent hi hN habs
      exact ⟨st', i, by rw [emplaceT_calm, h1]; rfl, S', h2, h4.trans (hp.cons e)⟩

/-- Destroying the entries reaches a full slot without an entry. -/
theorem destroyLoop_hole {ctrl : List Nat} : ∀ (n i j : Nat) (es : List (Option (K × V))), i ≤ j → j < i + n →
    ctrl[j]? = some c → isFull c = true → es[j]? = some none → destroyLoop ctrl n i es = .error .ub
  | 0, i, j, _, h1, h2, _, _, _ => by omega
  | n + 1, i, j, es, h1, h2, h3, h4, h5 => by
    unfold destroyLoop
    by_cases hij : i = j
    · subst hij
      unfold ctrlAt
      rw [h3]
      simp only [ok_bind, if_pos h4]
      unfold entryAt
      rw [h5]
      rfl
    · unfold ctrlAt
      cases hc : ctrl[i]? with
      | none => rfl
      | some d =>
        simp only [ok_bind]
        by_cases hfull : isFull d = true
        · rw [if_pos hfull]
          have hcases : (∃ x, entryAt es i = .ok x) ∨ entryAt es i = .error .ub := by
            unfold entryAt
            cases es[i]? with
            | none => right; rfl
            | some o =>
              cases o with
              | none => right; rfl
              | some x => left; exact ⟨x, rfl⟩
          rcases hcases with ⟨x, hx⟩ | hx
          · rw [hx]
            simp only [ok_bind]
            exact destroyLoop_hole n (i + 1) j _ (by omega) (by omega) h3 h4 (by
              rw [List.getElem?_set_ne hij]; exact h5)
          · rw [hx]; rfl
        · rw [if_neg hfull]
          exact destroyLoop_hole n (i + 1) j es (by omega) (by omega) h3 h4 h5

/-- **C111** (violated): whenever the constructor of a new entry throws, the table counts an entry that does not exist,
and already the destructor of the table has undefined behaviour (it destroys the missing entry). -/
theorem C111_throw_violated {hash : K → Nat} {N : Nat} {st : HS K V} {m : List (K × V)} (h : Rep hash N st m)
    (hN : N < 2 ^ 60) (e : K × V) (hl : lookup m e.1 = none) :
    ∃ st', emplaceT hash true st e = .ok (st', none) ∧ st'.size = m.length + 1 ∧ destroy st' = .error .ub := by
  rcases h.cases e.1 with ⟨i, v, hf, he, hl'⟩ | ⟨hf, habs, _⟩
  · rw [hl'] at hl; cases hl
  · obtain ⟨S, hi, hp⟩ := h
    obtain ⟨st', S', i, h1, h2', _, h4, _⟩ := emplace_absent hi hN habs
    have hsize : st'.size = m.length + 1 := by
      rw [h2'.size, (h4.trans (hp.cons e)).length_eq]; rfl
    unfold emplace at h1
    unfold emplaceT
    revert h1
    cases findOrPrepare hash st e.1 with
    | error er => intro h1; cases h1
    | ok r =>
      simp only [ok_bind]
      by_cases hr : r.2.2 = true
      · simp only [if_pos hr, if_true]
        intro h1
        refine ⟨r.1, rfl, ?_⟩
        revert h1
        unfold construct
        cases hr2 : r.1.entries[r.2.1]? with
        | none => intro h1; cases h1
        | some o =>
          cases o with
          | some x => intro h1; cases h1
          | none =>
            simp only [ok_bind]
            intro h1
            cases h1
            refine ⟨hsize, ?_⟩
            obtain ⟨t, ht⟩ := h2'.lay
            have hlt : r.2.1 < r.1.entries.length := (List.getElem?_eq_some_iff.1 hr2).1
            have hget : (r.1.entries.set r.2.1 (some e))[r.2.1]? = some (some e) := by
              rw [List.getElem?_set_self hlt]
            have htag := h2'.core.tag r.2.1 e hget
            have hjl : r.2.1 < S'.length := (List.getElem?_eq_some_iff.1 htag).1
            have hcap := h2'.cap
            simp only at hcap ht
            have hc : r.1.ctrl[r.2.1]? = some (h2 (hash e.1)) := by
              rw [ht, layout, List.append_assoc, List.getElem?_append_left hjl, htag]
            unfold destroy clear
            rw [if_neg (show ¬ r.1.cap = 0 by omega), destroyLoop_hole _ 0 r.2.1 _ (by omega) (by omega) hc
              (isFull_h2 _) hr2]
            rfl
      · simp only [if_neg hr]
        intro h1
        cases h1
        exact absurd rfl hr

/-- Non-vacuity (C111): the second of two insertions throws. -/
example : ∃ st, emplace (fun n : Nat => n) (HS.init : HS Nat Nat) (1, 2) = .ok (st, 0, true) ∧
    ∃ st', emplaceT (fun n : Nat => n) true st (3, 4) = .ok (st', none) ∧ st'.size = 2 ∧ destroy st' = .error .ub :=
  ⟨_, rfl, _, rfl, rfl, rfl⟩

end Cista.HS
