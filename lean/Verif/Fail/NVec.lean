import Verif.Multi.NVec
import Verif.Fail.Prog

set_option linter.unusedSimpArgs false

/-!
# C134 — `nvec` when memory runs out

A vector operation that throws leaves its vector as it was (C101).  The calls of `emplace_back` are vector operations in
a fixed order; `k` is the number of vector operations that succeed before the one that fails.
-/
namespace Cista.Multi.NVec

open Cista.Fail (Prog)

variable {α : Type}

/-- nvec.h:540-553 `add<L>(c)`; the result has `none` if it threw, else the operations that may still succeed.  The
insertion of an empty leaf into the data does not allocate and cannot fail (vector.h:255-283, 345-350). -/
def addF (W : Nat) : (L : Nat) → Nest α L → Nat → NV α → NV α × Option Nat
  | 0, _, 0, v => (v, none)
  | 0, c, 1, v =>
    if List.length (α := α) c = 0 then (add W 0 c v, some 0)
    else (v.push 0 ((v.data.length + List.length (α := α) c) % 2 ^ W), none)
  | 0, c, k + 2, v => (add W 0 c v, some (if List.length (α := α) c = 0 then k + 1 else k))
  | _ + 1, _, 0, v => (v, none)
  | L + 1, c, k + 1, v =>
    let c : List (Nest α L) := c
    c.foldl (fun s x => match s.2 with
      | none => s
      | some k => addF W L x k s.1) (v.push (L + 1) (((v.index L).length + c.length - 1) % 2 ^ W), some k)

/-- nvec.h:470-478 `emplace_back`, `N = L + 1`: leading zeros level by level, then `add`.  `none`: nothing fails. -/
def emplaceBackF (W L : Nat) (fail : Option Nat) (v : NV α) (c : Nest α L) : NV α × Bool :=
  match fail with
  | none => (emplaceBack W L v c, false)
  | some k =>
    if (v.index 0).length = 0 then
      if k ≤ L then ({ v with index := fun j => if j < k then v.index j ++ [0] else v.index j }, true)
      else
        let r := addF W L c (k - (L + 1)) { v with index := fun j => if j ≤ L then v.index j ++ [0] else v.index j }
        (r.1, r.2.isNone)
    else
      let r := addF W L c k v
      (r.1, r.2.isNone)

/-- Run a program that catches the exceptions. -/
def runF (W L : Nat) : Prog (Nest α L) (Option Nat) → NV α → NV α × List Bool
  | .done, v => (v, [])
  | .step c fail next, v =>
    let r := emplaceBackF W L fail v c
    let q := runF W L (next r.2) r.1
    (q.1, r.2 :: q.2)

/-! ## Specification -/

/-- What the program has added: calls that threw are skipped. -/
def outcome {L : Nat} : Prog (Nest α L) (Option Nat) → List (Nest α L) → List Bool → List (Nest α L)
  | .step c _ next, C, t :: ts => outcome (next t) (if t then C else C ++ [c]) ts
  | _, C, _ => C

/-- All counts fit, and only the first vector operation of a call fails. -/
def AllowedF (W L : Nat) : Prog (Nest α L) (Option Nat) → List (Nest α L) → Prop
  | .done, _ => True
  | .step c fail next, C => (fail = none ∨ fail = some 0) ∧ Fits W L (C ++ [c]) ∧
      AllowedF W L (next true) C ∧ AllowedF W L (next false) (C ++ [c])

/-- Vector operations that may allocate when a container is added: one entry of an index for it and for each container inside, and one
insertion of the elements of each leaf that has any. -/
def opCount : (L : Nat) → Nest α L → Nat
  | 0, c => 1 + min 1 (List.length (α := α) c)
  | L + 1, c => 1 + (List.map (α := Nest α L) (opCount L) c).sum

/-! ## Proofs -/

/-- How far an `add` comes. -/
theorem addF_left (W : Nat) : (L : Nat) → (c : Nest α L) → (k : Nat) → (v : NV α) →
    (addF W L c k v).2 = if k < opCount L c then none else some (k - opCount L c)
  | 0, c, 0, v => by
    have : 0 < opCount 0 c := by unfold opCount; omega
    rw [if_pos this]; rfl
  | 0, c, 1, v => by
    unfold addF opCount
    by_cases hc : List.length (α := α) c = 0
    · rw [if_pos hc, hc]; rfl
    · rw [if_neg hc, if_pos (by omega)]
  | 0, c, k + 2, v => by
    unfold addF opCount
    by_cases hc : List.length (α := α) c = 0
    · simp only [hc, if_true]
      rw [if_neg (by omega)]
      exact congrArg some (by omega)
    · simp only [hc, if_false]
      rw [if_neg (by omega)]
      exact congrArg some (by omega)
  | L + 1, c, 0, v => by
    have : 0 < opCount (L + 1) c := by unfold opCount; omega
    rw [if_pos this]; rfl
  | L + 1, c, k + 1, v => by
    have gen : ∀ (l : List (Nest α L)) (v : NV α) (k : Nat),
        (l.foldl (fun s x => match s.2 with
          | none => s
          | some k => addF W L x k s.1) (v, some k)).2 =
        if k < (l.map (opCount L)).sum then none else some (k - (l.map (opCount L)).sum) := by
      intro l
      induction l with
      | nil => intro v k; rfl
      | cons x l ih =>
        intro v k
        rw [List.foldl_cons, List.map_cons, List.sum_cons]
        have hx := addF_left W L x k v
        show (l.foldl _ (addF W L x k v)).2 = _
        generalize addF W L x k v = wr at hx
        obtain ⟨w, r⟩ := wr
        simp only at hx
        by_cases hk : k < opCount L x
        · rw [if_pos hk] at hx
          rw [hx, if_pos (by omega)]
          have : ∀ (l : List (Nest α L)), (l.foldl (fun s x => match s.2 with
              | none => s
              | some k => addF W L x k s.1) ((w, none) : NV α × Option Nat)) = (w, none) := by
            intro l
            induction l with
            | nil => rfl
            | cons y l ih => rw [List.foldl_cons]; exact ih
          rw [this]
        · rw [if_neg hk] at hx
          rw [hx, ih]
          by_cases h2 : k - opCount L x < (l.map (opCount L)).sum
          · rw [if_pos h2, if_pos (by omega)]
          · rw [if_neg h2, if_neg (by omega)]
            exact congrArg some (by omega)
    have h := gen c (v.push (L + 1) (((v.index L).length + List.length (α := Nest α L) c - 1) % 2 ^ W)) k
    have e : opCount (L + 1) c = 1 + (@List.map (Nest α L) Nat (opCount L) c).sum := rfl
    rw [e]
    refine Eq.trans h ?_
    by_cases h2 : k < (@List.map (Nest α L) Nat (opCount L) c).sum
    · rw [if_pos h2, if_pos (by omega)]
    · rw [if_neg h2, if_neg (by omega)]
      exact congrArg some (by omega)

/-- **C134** A call throws exactly if one of its vector operations fails: one for each level of an `nvec` without entries, one for each
container in the argument and one for each leaf with elements. -/
theorem C134_throws_iff (W L : Nat) (fail : Option Nat) (v : NV α) (c : Nest α L) :
    (emplaceBackF W L fail v c).2 = true ↔
      ∃ k, fail = some k ∧ k < (if (v.index 0).length = 0 then L + 1 else 0) + opCount L c := by
  cases fail with
  | none => simp [emplaceBackF]
  | some k =>
    have hl : ∀ k' w, (addF W L c k' w).2.isNone = true ↔ k' < opCount L c := by
      intro k' w
      rw [addF_left]
      split <;> simp [*]
    simp only [emplaceBackF, Option.some.injEq, exists_eq_left']
    by_cases h0 : (v.index 0).length = 0
    · rw [if_pos h0, if_pos h0]
      by_cases hk : k ≤ L
      · rw [if_pos hk]; exact ⟨fun _ => by omega, fun _ => rfl⟩
      · rw [if_neg hk]
        simp only [hl]
        omega
    · rw [if_neg h0, if_neg h0]
      simp only [hl]
      omega

example : opCount 2 ([[[1, 2], []], []] : Nest Nat 2) = 6 := rfl
example : (emplaceBackF 32 1 (some 3) (.empty : NV Nat) ([[1], []] : Nest Nat 1)).2 = true ∧
    (emplaceBackF 32 1 (some 6) (.empty : NV Nat) ([[1], []] : Nest Nat 1)).2 = false := by decide

/-- An `add` that does not throw does what it does without failures. -/
theorem addF_some (W : Nat) : (L : Nat) → (c : Nest α L) → (k : Nat) → (v : NV α) → (k' : Nat) →
    (addF W L c k v).2 = some k' → (addF W L c k v).1 = add W L c v
  | 0, c, 0, v, k', h => by simp [addF] at h
  | 0, c, 1, v, k', h => by
    unfold addF at h ⊢
    split
    · rfl
    · rename_i hc; rw [if_neg hc] at h; cases h
  | 0, c, k + 2, v, k', _ => rfl
  | L + 1, c, 0, v, k', h => by simp [addF] at h
  | L + 1, c, k + 1, v, k', h => by
    have gen : ∀ (l : List (Nest α L)) (s : NV α × Option Nat) (w : NV α), (s.2.isSome → s.1 = w) →
        (l.foldl (fun s x => match s.2 with
          | none => s
          | some k => addF W L x k s.1) s).2 = some k' →
        (l.foldl (fun s x => match s.2 with
          | none => s
          | some k => addF W L x k s.1) s).1 = l.foldl (fun v x => add W L x v) w := by
      intro l
      induction l with
      | nil => intro s w hs h; exact hs (by simp only [List.foldl_nil] at h; rw [h]; rfl)
      | cons x l ih =>
        intro s w hs h
        simp only [List.foldl_cons] at h ⊢
        refine ih _ _ ?_ h
        obtain ⟨s1, s2⟩ := s
        cases s2 with
        | none => intro h; simp at h
        | some k =>
          intro hx
          simp only at hx ⊢
          obtain ⟨k2, hk2⟩ := Option.isSome_iff_exists.1 hx
          rw [addF_some W L x k s1 k2 hk2, show s1 = w from hs rfl]
    simp only [addF] at h ⊢
    exact gen c _ _ (fun _ => rfl) h

/-- **C134** A call of `emplace_back` that returns has added its container. -/
theorem C134_returns (W L : Nat) (fail : Option Nat) (v : NV α) (c : Nest α L)
    (h : (emplaceBackF W L fail v c).2 = false) : (emplaceBackF W L fail v c).1 = emplaceBack W L v c := by
  cases fail with
  | none => rfl
  | some k =>
    unfold emplaceBackF at h ⊢
    unfold emplaceBack
    by_cases h0 : (v.index 0).length = 0
    · simp only [if_pos h0] at h ⊢
      by_cases hk : k ≤ L
      · simp only [if_pos hk] at h; cases h
      · simp only [if_neg hk, Option.isNone_eq_false_iff] at h ⊢
        obtain ⟨k', hk'⟩ := Option.isSome_iff_exists.1 h
        exact addF_some W L c _ _ k' hk'
    · simp only [if_neg h0, Option.isNone_eq_false_iff] at h ⊢
      obtain ⟨k', hk'⟩ := Option.isSome_iff_exists.1 h
      exact addF_some W L c _ _ k' hk'

example : (emplaceBackF 32 1 (some 9) (build 32 1 exC2) ([[7]] : Nest Nat 1)).2 = false := by decide

theorem addF_zero (W : Nat) : (L : Nat) → (c : Nest α L) → (v : NV α) → addF W L c 0 v = (v, none)
  | 0, _, _ => rfl
  | _ + 1, _, _ => rfl

theorem emplaceBackF_zero (W L : Nat) (v : NV α) (c : Nest α L) : emplaceBackF W L (some 0) v c = (v, true) := by
  unfold emplaceBackF
  by_cases h0 : (v.index 0).length = 0
  · simp [h0]
  · simp [h0, addF_zero]

theorem runF_ok {W L : Nat} (p : Prog (Nest α L) (Option Nat)) : ∀ {v : NV α} {C : List (Nest α L)}, Inv L v C →
    Fits W L C → AllowedF W L p C →
    Inv L (runF W L p v).1 (outcome p C (runF W L p v).2) ∧ Fits W L (outcome p C (runF W L p v).2) := by
  induction p with
  | done => intro v C h hf _; exact ⟨h, hf⟩
  | step c fail next ih =>
    intro v C h hC ⟨hk, hf, ht, hn⟩
    rcases hk with rfl | rfl
    · simp only [runF, emplaceBackF, outcome, Bool.false_eq_true, if_false]
      exact ih false (Or.inr (emplaceBack_inv hf h)) hf hn
    · simp only [runF, emplaceBackF_zero, outcome, if_true]
      exact ih true h hC ht

/-- Reading an nvec that holds `C`. -/
theorem read_inv {W L : Nat} {v : NV α} {C : List (Nest α (L + 1))} (hI : Inv (L + 1) v C) (hf : Fits W (L + 1) C) :
    v.size W (L + 1) = C.length ∧ v.iterate W (L + 1) = .ok C ∧ ∀ i c, C[i]? = some c → v.toNest (L + 1) i = .ok c := by
  have hs := size_inv hI (fits_len (L + 1) C hf)
  have hget : ∀ i c, C[i]? = some c → v.toNest (L + 1) i = .ok c := by
    intro i c hc
    obtain ⟨hi, rfl⟩ := List.getElem?_eq_some_iff.1 hc
    rcases hI with ⟨h1, _, _⟩ | h
    · subst h1; simp at hi
    · exact toNest_holds (L + 1) h hi
  refine ⟨hs, ?_, hget⟩
  unfold NV.iterate
  rw [hs]
  have hm : ∀ (n b : Nat), b + n = C.length → (List.range' b n).mapM (v.toMeta (L + 1)) = .ok (C.drop b) := by
    intro n
    induction n with
    | zero => intro b hb; rw [List.drop_of_length_le (i := b) (l := C) (by omega)]; rfl
    | succ n ihn =>
      intro b hb
      have hb' : b < C.length := by omega
      rw [List.range'_succ, List.mapM_cons, show v.toMeta (L + 1) b = _ from hget b C[b] (List.getElem?_eq_getElem hb'), ihn (b + 1) (by omega),
        List.drop_eq_getElem_cons hb']
      rfl
  rw [List.range_eq_range', hm C.length 0 (by omega)]
  rfl

/-- **C134 (partial)** A program that builds an nvec of any depth of at least two while memory runs out, catches `std::bad_alloc` and
goes on: if it is always the first vector operation of a call that fails, the nvec holds exactly the containers of
the calls that did not throw.  Missing: failures of later vector operations of a call (`C134_index_violated`,
`C134_retry_violated`, `C134_first_violated`). -/
theorem C134_history_partial (W L : Nat) (p : Prog (Nest α (L + 1)) (Option Nat)) (ha : AllowedF W (L + 1) p [])
    (h0 : Fits W (L + 1) ([] : List (Nest α (L + 1)))) :
    let r := runF W (L + 1) p .empty
    let C := outcome p [] r.2
    r.1.size W (L + 1) = C.length ∧ r.1.iterate W (L + 1) = .ok C ∧ ∀ i c, C[i]? = some c → r.1.toNest (L + 1) i = .ok c := by
  intro r C
  obtain ⟨h, hf⟩ := runF_ok p (v := .empty) (C := []) (Or.inl ⟨rfl, rfl, fun _ _ => rfl⟩) h0 ha
  exact read_inv h hf

/-- The second container fails and is repeated. -/
def retryProg : Prog (Nest Nat 1) (Option Nat) :=
  .step [[1, 2], []] none fun _ => .step [[3]] (some 0) fun t =>
    if t then .step [[3]] none fun _ => .done else .done

example : Fits 32 1 ([] : List (Nest Nat 1)) ∧ AllowedF 32 1 retryProg [] ∧
    (runF 32 1 retryProg .empty).1.iterate 32 1 = .ok [[[1, 2], []], [[3]]] ∧
    (runF 32 1 retryProg .empty).2 = [false, true, false] := by
  refine ⟨by simp [Fits], ⟨.inl rfl, by simp [Fits], ?_, ?_⟩, by decide, by decide⟩
  · exact ⟨.inr rfl, by simp [Fits], ⟨.inl rfl, by simp [Fits], trivial, trivial⟩, trivial⟩
  · exact ⟨.inr rfl, by simp [Fits], ⟨.inl rfl, by simp [Fits], trivial, trivial⟩, trivial⟩

theorem holds_ne {L : Nat} {v : NV α} {C : List (Nest α L)} (h : Holds L v C) : ¬ (v.index 0).length = 0 := by
  rw [h.1 0 (Nat.zero_le _)]; exact offsAt_zero_ne L C

theorem mapM_ub {β γ : Type} (f : β → Res γ) : ∀ (l : List β) (x : β), x ∈ l → f x = .error .ub →
    (∀ y ∈ l, ∀ e, f y = .error e → e = .ub) → l.mapM f = .error .ub
  | [], x, hx, _, _ => by simp at hx
  | y :: l, x, hx, h, hall => by
    rw [List.mapM_cons]
    cases hy : f y with
    | error e => rw [hall y (by simp) e hy]; rfl
    | ok z =>
      rcases List.mem_cons.1 hx with rfl | hx
      · rw [h] at hy; cases hy
      · rw [ok_bind, mapM_ub f l x hx h fun y hy => hall y (by simp [hy])]; rfl

theorem mapM_err {β γ : Type} (f : β → Res γ) : ∀ (l : List β) (e : Err),
    (∀ y ∈ l, ∀ e, f y = .error e → e = .ub) → l.mapM f = .error e → e = .ub
  | [], e, _, h => by simp [pure, Except.pure] at h
  | y :: l, e, hall, h => by
    rw [List.mapM_cons] at h
    cases hy : f y with
    | error e' => rw [hy] at h; cases h; exact hall y (by simp) _ hy
    | ok z =>
      rw [hy, ok_bind] at h
      cases hl : l.mapM f with
      | error e' => rw [hl] at h; cases h; exact mapM_err f l _ (fun y hy => hall y (by simp [hy])) hl
      | ok zs => rw [hl] at h; cases h

theorem idx_err {v : NV α} {L i : Nat} {e : Err} (h : v.idx L i = .error e) : e = .ub := by
  unfold NV.idx at h
  split at h <;> cases h
  rfl

/-- Reading either succeeds or is undefined. -/
theorem toNest_err (v : NV α) : (L : Nat) → (i : Nat) → (e : Err) → v.toNest L i = .error e → e = .ub
  | 0, i, e, h => by
    have h : v.leaf i = .error e := h
    unfold NV.leaf at h
    cases h1 : v.idx 0 i with
    | error x => rw [h1] at h; cases h; exact idx_err h1
    | ok b =>
      rw [h1, ok_bind] at h
      cases h2 : v.idx 0 (i + 1) with
      | error x => rw [h2] at h; cases h; exact idx_err h2
      | ok b2 =>
        rw [h2, ok_bind] at h
        cases h3 : (decide (b ≤ b2) && decide (b2 ≤ v.data.length)) with
        | true => rw [h3] at h; cases h
        | false => rw [h3] at h; cases h; rfl
  | L + 1, i, e, h => by
    unfold NV.toNest at h
    cases h1 : v.idx (L + 1) i with
    | error x => rw [h1] at h; cases h; exact idx_err h1
    | ok b =>
      cases h2 : v.idx (L + 1) (i + 1) with
      | error x => rw [h1, h2] at h; cases h; exact idx_err h2
      | ok b2 =>
        rw [h1, h2] at h
        cases h3 : decide (b ≤ b2) with
        | false => simp only [Except.bind, h3] at h; cases h; rfl
        | true =>
          simp only [Except.bind, h3, require_true] at h
          exact mapM_err _ _ _ (fun y _ e he => toNest_err v L y e he) h

theorem toNest_end (v : NV α) : (L i : Nat) → (v.index L).length ≤ i + 1 → v.toNest L i = .error .ub
  | 0, i, h => by
    have e : v.idx 0 (i + 1) = .error .ub := by simp only [NV.idx, List.getElem?_eq_none h]
    show v.leaf i = _
    unfold NV.leaf
    rw [e]
    cases h1 : v.idx 0 i with
    | error x => rw [idx_err h1]; rfl
    | ok b => rfl
  | L + 1, i, h => by
    have e : v.idx (L + 1) (i + 1) = .error .ub := by simp only [NV.idx, List.getElem?_eq_none h]
    unfold NV.toNest
    rw [e]
    cases h1 : v.idx (L + 1) i with
    | error x => rw [idx_err h1]; rfl
    | ok b => rfl

theorem foldl_none (W L : Nat) (l : List (Nest α L)) (v : NV α) :
    l.foldl (fun s x => match s.2 with
      | none => s
      | some k => addF W L x k s.1) (v, none) = (v, none) := by
  induction l with
  | nil => rfl
  | cons x l ih => exact ih

theorem addF_one (W L : Nat) (c : Nest α (L + 1)) (v : NV α) (hc : Nest.count (L + 1) c ≠ 0) :
    addF W (L + 1) c 1 v =
      (v.push (L + 1) (((v.index L).length + List.length (α := Nest α L) c - 1) % 2 ^ W), none) := by
  have c' : List (Nest α L) := c
  show List.foldl _ _ (c : List (Nest α L)) = _
  cases hcc : (c : List (Nest α L)) with
  | nil => rw [hcc] at hc; exact absurd rfl hc
  | cons x l =>
    simp only [List.foldl_cons]
    rw [addF_zero]
    exact foldl_none W L l _

theorem addF_index_gt (W : Nat) : (L : Nat) → (c : Nest α L) → (k : Nat) → (v : NV α) → (j : Nat) → L < j →
    (addF W L c k v).1.index j = v.index j
  | 0, c, 0, v, j, h => rfl
  | 0, c, 1, v, j, h => by
    unfold addF
    split
    · exact add_index_gt W 0 c v j h
    · rw [push_index, if_neg (by omega)]
  | 0, c, k + 2, v, j, h => add_index_gt W 0 c v j h
  | L + 1, c, 0, v, j, h => rfl
  | L + 1, c, k + 1, v, j, h => by
    have key : ∀ (cs : List (Nest α L)) (s : NV α × Option Nat),
        (cs.foldl (fun s x => match s.2 with
          | none => s
          | some k => addF W L x k s.1) s).1.index j = s.1.index j := by
      intro cs
      induction cs with
      | nil => intro s; rfl
      | cons d cs ih =>
        intro s
        rw [List.foldl_cons, ih]
        obtain ⟨s1, s2⟩ := s
        cases s2 with
        | none => rfl
        | some k => exact addF_index_gt W L d k s1 j (by omega)
    unfold addF
    rw [key, push_index, if_neg (by omega)]

/-- An `add` that throws leaves a container that cannot be read at the position of the new one. -/
theorem addF_unreadable {W : Nat} : (L : Nat) → (C : List (Nest α L)) → (c : Nest α L) → (k : Nat) → (v : NV α) →
    Fits W L (C ++ [c]) → Holds L v C → (addF W L c k v).2 = none → (addF W L c k v).1.toNest L C.length = .error .ub
  | 0, C, c, 0, v, hf, h, hn => toNest_end _ 0 _ (by rw [addF_zero, h.1 0 (Nat.le_refl _), offsAt_len]; exact Nat.le_refl _)
  | 0, C, c, 1, v, hf, h, hn => by
    by_cases hc : List.length (α := α) c = 0
    · simp [addF, hc] at hn
    · have hd : v.data = List.flatten (α := α) C := h.2
      have e : v.index 0 = offs (C : List (List α)) := by simpa [offsAt] using h.1 0 (Nat.le_refl _)
      have hfit : (List.flatten (α := α) C).length + List.length (α := α) c < 2 ^ W := by
        have h3 := flatten_append_length (α := α) C [c]
        have e : (List.flatten (α := α) [c]).length = List.length (α := α) c := by simp
        have h2 := hf.2
        rw [h3, e] at h2
        exact h2
      have e1 : (offs (C : List (List α)) ++ [(List.flatten (α := α) C).length + List.length (α := α) c])[C.length]? =
          some (List.flatten (α := α) C).length := by
        rw [List.getElem?_append_left (by simp), offs_get? (Nat.le_refl _), List.take_length]
      have e2 : (offs (C : List (List α)) ++ [(List.flatten (α := α) C).length + List.length (α := α) c])[C.length + 1]? =
          some ((List.flatten (α := α) C).length + List.length (α := α) c) := by
        rw [List.getElem?_append_right (by simp)]; simp
      unfold addF
      rw [if_neg hc, hd, Nat.mod_eq_of_lt hfit]
      show NV.leaf _ _ = _
      unfold NV.leaf
      simp only [NV.idx, NV.push, if_true, e, e1, e2, ok_bind, hd]
      rw [show (decide ((List.flatten (α := α) C).length ≤ (List.flatten (α := α) C).length + List.length (α := α) c) &&
        decide ((List.flatten (α := α) C).length + List.length (α := α) c ≤ (List.flatten (α := α) C).length)) = false by
          simp; omega]
      rfl
  | 0, C, c, k + 2, v, hf, h, hn => by simp [addF] at hn
  | L + 1, C, c, 0, v, hf, h, hn =>
    toNest_end _ (L + 1) _ (by rw [addF_zero, h.1 (L + 1) (Nat.le_refl _), offsAt_len]; exact Nat.le_refl _)
  | L + 1, C, c, k + 1, v, hf, h, hn => by
    have hl : (v.index L).length = (List.flatten (α := Nest α L) C).length + 1 := by
      rw [(holds_down h).1 L (Nat.le_refl _), offsAt_len]
    have hfl : List.flatten (α := Nest α L) (C ++ [c]) = List.flatten (α := Nest α L) C ++ c := by
      rw [List.flatten_append (L₁ := C)]; simp
    have hf2 : Fits W L (List.flatten (α := Nest α L) C ++ c) := by rw [← hfl]; exact hf.2
    have hfit : (List.flatten (α := Nest α L) C).length + List.length (α := Nest α L) c < 2 ^ W := by
      have := fits_len L _ hf2
      rwa [List.length_append] at this
    have hx : ((v.index L).length + List.length (α := Nest α L) c - 1) % 2 ^ W =
        (List.flatten (α := Nest α L) C).length + List.length (α := Nest α L) c := by
      rw [hl, show ∀ a b : Nat, a + 1 + b - 1 = a + b by omega, Nat.mod_eq_of_lt hfit]
    have hv : Holds L (v.push (L + 1) ((List.flatten (α := Nest α L) C).length + List.length (α := Nest α L) c))
        (List.flatten (α := Nest α L) C) := by
      constructor
      · intro j hj
        rw [push_index, if_neg (by omega), (holds_down h).1 j hj]
      · exact h.2
    have key : ∀ (cs D : List (Nest α L)) (s : NV α) (k : Nat), Fits W L (D ++ cs) → Holds L s D →
        (cs.foldl (fun s x => match s.2 with
          | none => s
          | some k => addF W L x k s.1) (s, some k)).2 = none →
        ∃ i, i < cs.length ∧ (cs.foldl (fun s x => match s.2 with
          | none => s
          | some k => addF W L x k s.1) (s, some k)).1.toNest L (D.length + i) = .error .ub := by
      intro cs
      induction cs with
      | nil => intro D s k _ _ hn; simp at hn
      | cons d cs ih =>
        intro D s k hf hs hn
        have e : D ++ d :: cs = (D ++ [d]) ++ cs := by simp
        rw [e] at hf
        simp only [List.foldl_cons] at hn ⊢
        cases hr : (addF W L d k s).2 with
        | none =>
          have hp : addF W L d k s = ((addF W L d k s).1, none) := by rw [← hr]
          refine ⟨0, by simp, ?_⟩
          rw [hp, foldl_none]
          exact addF_unreadable L D d k s (fits_append L _ _ hf) hs hr
        | some k2 =>
          have hp : addF W L d k s = (add W L d s, some k2) := by rw [← addF_some W L d k s k2 hr, ← hr]
          rw [hp] at hn ⊢
          obtain ⟨i, hi, hu⟩ := ih (D ++ [d]) _ k2 hf (add_holds L D d s (fits_append L _ _ hf) hs) hn
          refine ⟨i + 1, by simpa using hi, ?_⟩
          rw [List.length_append, List.length_singleton, show D.length + 1 + i = D.length + (i + 1) by omega] at hu
          exact hu
    have hg := addF_index_gt (α := α) W L
    have hix : (addF W (L + 1) c (k + 1) v).1.index (L + 1) = v.index (L + 1) ++
        [(List.flatten (α := Nest α L) C).length + List.length (α := Nest α L) c] := by
      have keyi : ∀ (cs : List (Nest α L)) (s : NV α × Option Nat),
          (cs.foldl (fun s x => match s.2 with
            | none => s
            | some k => addF W L x k s.1) s).1.index (L + 1) = s.1.index (L + 1) := by
        intro cs
        induction cs with
        | nil => intro s; rfl
        | cons d cs ih =>
          intro s
          rw [List.foldl_cons, ih]
          obtain ⟨s1, s2⟩ := s
          cases s2 with
          | none => rfl
          | some k => exact hg d k s1 (L + 1) (by omega)
      unfold addF
      rw [keyi, push_index, if_pos rfl, hx]
    have hn' := hn
    unfold addF at hn'
    simp only [hx] at hn'
    obtain ⟨i, hi, hu⟩ := key c _ _ k hf2 hv hn'
    have hu' : (addF W (L + 1) c (k + 1) v).1.toNest L ((List.flatten (α := Nest α L) C).length + i) = .error .ub := by
      unfold addF
      simp only [hx]
      exact hu
    have e : v.index (L + 1) = offs (C : List (List (Nest α L))) := by
      simpa [offsAt] using h.1 (L + 1) (Nat.le_refl _)
    have e1 : (offs (C : List (List (Nest α L))) ++ [(List.flatten (α := Nest α L) C).length + List.length (α := Nest α L) c])[C.length]? =
        some (List.flatten (α := Nest α L) C).length := by
      rw [List.getElem?_append_left (by simp), offs_get? (Nat.le_refl _), List.take_length]
    have e2 : (offs (C : List (List (Nest α L))) ++ [(List.flatten (α := Nest α L) C).length + List.length (α := Nest α L) c])[C.length + 1]? =
        some ((List.flatten (α := Nest α L) C).length + List.length (α := Nest α L) c) := by
      rw [List.getElem?_append_right (by simp)]; simp
    unfold NV.toNest
    simp only [NV.idx, hix, e, e1, e2, Except.bind]
    rw [show decide ((List.flatten (α := Nest α L) C).length ≤
      (List.flatten (α := Nest α L) C).length + List.length (α := Nest α L) c) = true by simp, require_true]
    simp only []
    exact mapM_ub _ _ ((List.flatten (α := Nest α L) C).length + i) (by simp [List.mem_range']; omega) hu'
      (fun y _ e he => toNest_err _ L y e he)

theorem addF_index_top (W : Nat) : (L : Nat) → (c : Nest α L) → (k : Nat) → (v : NV α) →
    ∃ x, (addF W L c (k + 1) v).1.index L = v.index L ++ [x]
  | 0, c, 0, v => by
    unfold addF
    split
    · exact ⟨_, by simp [add, push_index]; rfl⟩
    · exact ⟨_, by rw [push_index, if_pos rfl]⟩
  | 0, c, k + 1, v => ⟨_, by simp [addF, add, push_index]; rfl⟩
  | L + 1, c, k, v => by
    have keyi : ∀ (cs : List (Nest α L)) (s : NV α × Option Nat),
        (cs.foldl (fun s x => match s.2 with
          | none => s
          | some k => addF W L x k s.1) s).1.index (L + 1) = s.1.index (L + 1) := by
      intro cs
      induction cs with
      | nil => intro s; rfl
      | cons d cs ih =>
        intro s
        rw [List.foldl_cons, ih]
        obtain ⟨s1, s2⟩ := s
        cases s2 with
        | none => rfl
        | some k => exact addF_index_gt W L d k s1 (L + 1) (by omega)
    unfold addF
    exact ⟨_, by rw [keyi, push_index, if_pos rfl]⟩

/-- **C134 violated** The index is pushed before what it points to.  If a call of `emplace_back` throws at any later point, the
nvec has one more container than before, and reading this container, or iterating over the nvec, is undefined behaviour — for
every depth of at least two, every content and every vector operation that can fail but the first. -/
theorem C134_index_violated {W L : Nat} {v : NV α} {C : List (Nest α (L + 1))} (h : Holds (L + 1) v C) (c : Nest α (L + 1))
    (k : Nat) (hk : (emplaceBackF W (L + 1) (some (k + 1)) v c).2 = true) (hf : Fits W (L + 1) (C ++ [c])) :
    let r := emplaceBackF W (L + 1) (some (k + 1)) v c
    r.1.size W (L + 1) = C.length + 1 ∧ r.1.toNest (L + 1) C.length = .error .ub ∧ r.1.iterate W (L + 1) = .error .ub := by
  intro r
  have hlen : C.length + 1 < 2 ^ W := by simpa using fits_len (L + 1) _ hf
  have hr : r = ((addF W (L + 1) c (k + 1) v).1, (addF W (L + 1) c (k + 1) v).2.isNone) := by
    simp only [r, emplaceBackF, if_neg (holds_ne h)]
  have hn : (addF W (L + 1) c (k + 1) v).2 = none := by
    have : r.2 = true := hk
    rw [hr] at this
    simpa using this
  have hu : r.1.toNest (L + 1) C.length = .error .ub := by rw [hr]; exact addF_unreadable (L + 1) C c _ v hf h hn
  have hs : r.1.size W (L + 1) = C.length + 1 := by
    obtain ⟨x, hx⟩ := addF_index_top W (L + 1) c k v
    rw [hr]
    simp only [NV.size, hx, List.length_append, h.1 (L + 1) (Nat.le_refl _), offsAt_len]
    rw [if_neg (by simp), Nat.mod_eq_of_lt (by simpa using hlen)]
    simp
  refine ⟨hs, hu, ?_⟩
  unfold NV.iterate
  rw [hs]
  exact mapM_ub _ _ C.length (by simp) hu fun y _ e he => toNest_err _ (L + 1) y e he

/-- `v'` is `v` with elements appended to its vectors. -/
def NV.Ext (v v' : NV α) : Prop := v.data <+: v'.data ∧ ∀ j, v.index j <+: v'.index j

theorem NV.Ext.refl (v : NV α) : v.Ext v := ⟨List.prefix_refl _, fun _ => List.prefix_refl _⟩

theorem NV.Ext.trans {a b c : NV α} (h : a.Ext b) (g : b.Ext c) : a.Ext c :=
  ⟨h.1.trans g.1, fun j => (h.2 j).trans (g.2 j)⟩

theorem push_ext (v : NV α) (L x : Nat) : v.Ext (v.push L x) := by
  refine ⟨List.prefix_refl _, fun j => ?_⟩
  rw [push_index]
  split
  · exact List.prefix_append _ _
  · exact List.prefix_refl _

theorem add_zero_ext (W : Nat) (c : Nest α 0) (v : NV α) : v.Ext (add W 0 c v) :=
  (push_ext v 0 _).trans ⟨List.prefix_append _ _, fun _ => List.prefix_refl _⟩

theorem addF_ext (W : Nat) : (L : Nat) → (c : Nest α L) → (k : Nat) → (v : NV α) → v.Ext (addF W L c k v).1
  | 0, c, 0, v => .refl v
  | 0, c, 1, v => by
    unfold addF
    split
    · exact add_zero_ext W c v
    · exact push_ext v 0 _
  | 0, c, k + 2, v => add_zero_ext W c v
  | L + 1, c, 0, v => .refl v
  | L + 1, c, k + 1, v => by
    have key : ∀ (cs : List (Nest α L)) (s : NV α × Option Nat),
        s.1.Ext (cs.foldl (fun s x => match s.2 with
          | none => s
          | some k => addF W L x k s.1) s).1 := by
      intro cs
      induction cs with
      | nil => intro s; exact .refl _
      | cons d cs ih =>
        intro s
        rw [List.foldl_cons]
        refine .trans ?_ (ih _)
        obtain ⟨s1, s2⟩ := s
        cases s2 with
        | none => exact .refl _
        | some k => exact addF_ext W L d k s1
    exact (push_ext v (L + 1) _).trans
      (key c (v.push (L + 1) (((v.index L).length + List.length (α := Nest α L) c - 1) % 2 ^ W), some k))

theorem idx_ext {v v' : NV α} (h : v.Ext v') {L i x : Nat} (hi : v.idx L i = .ok x) : v'.idx L i = .ok x := by
  unfold NV.idx at hi ⊢
  obtain ⟨t, ht⟩ := h.2 L
  cases hg : (v.index L)[i]? with
  | none => rw [hg] at hi; cases hi
  | some y =>
    rw [hg] at hi
    have : i < (v.index L).length := (List.getElem?_eq_some_iff.1 hg).1
    rw [← ht, List.getElem?_append_left this, hg]
    exact hi

theorem mapM_mono {β γ : Type} (f g : β → Res γ) : ∀ (l : List β) (r : List γ),
    (∀ x y, f x = .ok y → g x = .ok y) → l.mapM f = .ok r → l.mapM g = .ok r
  | [], r, _, h => h
  | x :: l, r, hm, h => by
    rw [List.mapM_cons] at h ⊢
    cases hx : f x with
    | error e => rw [hx] at h; cases h
    | ok y =>
      rw [hx, ok_bind] at h
      cases hl : l.mapM f with
      | error e => rw [hl] at h; cases h
      | ok ys => rw [hl] at h; rw [hm x y hx, ok_bind, mapM_mono f g l ys hm hl]; exact h

/-- What could be read can be read after elements are appended. -/
theorem toNest_ext {v v' : NV α} (h : v.Ext v') : (L : Nat) → (i : Nat) → (c : Nest α L) → v.toNest L i = .ok c →
    v'.toNest L i = .ok c
  | 0, i, c, hc => by
    have hc : v.leaf i = .ok c := hc
    show v'.leaf i = .ok c
    unfold NV.leaf at hc ⊢
    cases h1 : v.idx 0 i with
    | error x => rw [h1] at hc; cases hc
    | ok b =>
      rw [h1, ok_bind] at hc
      cases h2 : v.idx 0 (i + 1) with
      | error x => rw [h2] at hc; cases hc
      | ok b2 =>
        rw [h2, ok_bind] at hc
        cases h3 : (decide (b ≤ b2) && decide (b2 ≤ v.data.length)) with
        | false => rw [h3] at hc; cases hc
        | true =>
          rw [h3] at hc
          rw [idx_ext h h1, idx_ext h h2]
          simp only [Bool.and_eq_true, decide_eq_true_eq] at h3
          obtain ⟨t, ht⟩ := h.1
          simp only [ok_bind]
          rw [show (decide (b ≤ b2) && decide (b2 ≤ v'.data.length)) = true by
            simp [h3.1, ← ht, List.length_append]; omega]
          rw [← hc, ← ht, List.drop_append_of_le_length (by omega), List.take_append_of_le_length (by simp; omega)]
  | L + 1, i, c, hc => by
    unfold NV.toNest at hc ⊢
    cases h1 : v.idx (L + 1) i with
    | error x => rw [h1] at hc; cases hc
    | ok b =>
      cases h2 : v.idx (L + 1) (i + 1) with
      | error x => rw [h1, h2] at hc; cases hc
      | ok b2 =>
        rw [h1, h2] at hc
        rw [idx_ext h h1, idx_ext h h2]
        simp only [Except.bind] at hc ⊢
        cases h3 : decide (b ≤ b2) with
        | false => rw [h3] at hc; cases hc
        | true =>
          rw [h3, require_true] at hc
          rw [require_true]
          exact mapM_mono _ _ _ _ (fun x y hy => toNest_ext h L x y hy) hc

/-- **C134** Wherever a call of `emplace_back` fails, the containers that the nvec held before can still be read at
their positions and have their content. -/
theorem C134_earlier {W L : Nat} {v : NV α} {C : List (Nest α L)} (h : Holds L v C) (c : Nest α L) (k i : Nat)
    (hi : i < C.length) : (emplaceBackF W L (some k) v c).1.toNest L i = .ok C[i] := by
  simp only [emplaceBackF, if_neg (holds_ne h)]
  exact toNest_ext (addF_ext W L c k v) L i _ (toNest_holds L h hi)

example : Holds 1 (build 32 1 exC2) exC2 ∧ 2 < exC2.length ∧
    (emplaceBackF 32 1 (some 4) (build 32 1 exC2) ([[7], [8]] : Nest Nat 1)).1.toNest 1 2 = .ok exC2[2] := by
  refine ⟨?_, by decide, by decide⟩
  rcases build_inv (W := 32) (L := 1) exC2 (by simp [Fits, exC2]) with ⟨h, _⟩ | h
  · cases h
  · exact h

/-- The index of the last leaf is there, its elements are not. -/
example : (emplaceBackF 32 1 (some 4) (build 32 1 exC2) ([[7], [8]] : Nest Nat 1)).2 = true ∧
    (emplaceBackF 32 1 (some 4) (build 32 1 exC2) ([[7], [8]] : Nest Nat 1)).1.size 32 1 = 4 ∧
    (emplaceBackF 32 1 (some 5) (build 32 1 exC2) ([[7], [8]] : Nest Nat 1)).2 = false := by decide

example : Holds 1 (build 32 1 exC2) exC2 ∧ Nest.count 1 ([[7]] : Nest Nat 1) ≠ 0 ∧ Fits 32 1 (exC2 ++ [[[7]]]) ∧
    (emplaceBackF 32 1 (some 1) (build 32 1 exC2) ([[7]] : Nest Nat 1)).1.size 32 1 = 4 := by
  refine ⟨?_, by decide, by simp [Fits, exC2], by decide⟩
  rcases build_inv (W := 32) (L := 1) exC2 (by simp [Fits, exC2]) with ⟨h, _⟩ | h
  · cases h
  · exact h

theorem fold_holds {W L : Nat} : ∀ (cs D : List (Nest α L)) (v : NV α), Fits W L (D ++ cs) → Holds L v D →
    Holds L (cs.foldl (fun v x => add W L x v) v) (D ++ cs)
  | [], D, v, _, h => by simpa using h
  | d :: cs, D, v, hf, h => by
    rw [List.foldl_cons]
    have e : D ++ d :: cs = (D ++ [d]) ++ cs := by simp
    rw [e] at hf ⊢
    exact fold_holds cs _ _ hf (add_holds L D d v (fits_append L _ _ hf) h)

theorem fold_index (W L : Nat) : ∀ (cs : List (Nest α L)) (v : NV α),
    (cs.foldl (fun v x => add W L x v) v).index (L + 1) = v.index (L + 1)
  | [], _ => rfl
  | d :: cs, v => by rw [List.foldl_cons, fold_index W L cs, add_index_gt W L d v _ (by omega)]

/-- **C134 violated** The caller catches the exception and repeats the call, which now succeeds: the container is in the
nvec, but at the position of the failed call, and an empty container follows it — for every depth of at least two. -/
theorem C134_retry_violated {W L : Nat} {v : NV α} {C : List (Nest α (L + 1))} (h : Holds (L + 1) v C)
    (c : Nest α (L + 1)) (hc : Nest.count (L + 1) c ≠ 0) (hf : Fits W (L + 1) (C ++ [c] ++ [([] : List (Nest α L))])) :
    let r := emplaceBackF W (L + 1) (some 1) v c
    r.2 = true ∧ (emplaceBack W (L + 1) r.1 c).size W (L + 1) = C.length + 2 ∧
      (emplaceBack W (L + 1) r.1 c).iterate W (L + 1) = .ok (C ++ [c] ++ [([] : List (Nest α L))]) := by
  intro r
  have hfc : Fits W (L + 1) (C ++ [c]) := fits_append (L + 1) _ _ hf
  generalize hx : ((v.index L).length + List.length (α := Nest α L) c - 1) % 2 ^ W = x
  have hr : r = (v.push (L + 1) x, true) := by
    simp only [r, emplaceBackF, if_neg (holds_ne h)]; rw [addF_one W L c v hc, hx]; rfl
  have e : v.index (L + 1) = offs (C : List (List (Nest α L))) := by
    simpa [offsAt] using h.1 (L + 1) (Nat.le_refl _)
  have hl : (v.index L).length = (List.flatten (α := Nest α L) C).length + 1 := by
    rw [(holds_down h).1 L (Nat.le_refl _), offsAt_len]
  have hfl : List.flatten (α := Nest α L) (C ++ [c]) = List.flatten (α := Nest α L) C ++ c := by
    rw [List.flatten_append (L₁ := C)]; simp
  have hf2 : Fits W L (List.flatten (α := Nest α L) C ++ c) := by rw [← hfl]; exact hfc.2
  have hfit := fits_len L _ hf2
  rw [List.length_append] at hfit
  have hxv : x = (List.flatten (α := Nest α L) C).length + List.length (α := Nest α L) c := by
    rw [← hx, hl, show ∀ a b : Nat, a + 1 + b - 1 = a + b by omega, Nat.mod_eq_of_lt hfit]
  have hI : Holds (L + 1) (emplaceBack W (L + 1) r.1 c) (C ++ [c] ++ [([] : List (Nest α L))]) := by
    rw [hr]
    unfold emplaceBack
    have hne : ¬ ((v.push (L + 1) x).index 0).length = 0 := by
      rw [push_index, if_neg (by omega)]; exact holds_ne h
    rw [if_neg hne]
    have hidx : (v.push (L + 1) x).index L = v.index L := by rw [push_index, if_neg (by omega)]
    have hdown : Holds L ((v.push (L + 1) x).push (L + 1) x) (List.flatten (α := Nest α L) C) := by
      refine ⟨fun k hk => ?_, (holds_down h).2⟩
      rw [push_index, if_neg (by omega), push_index, if_neg (by omega)]
      exact (holds_down h).1 k hk
    have hh := fold_holds (W := W) c _ _ hf2 hdown
    have hfl2 : List.flatten (α := Nest α L) (C ++ [c] ++ [([] : List (Nest α L))]) =
        List.flatten (α := Nest α L) C ++ c := by
      rw [List.flatten_append (L₁ := C ++ [c]), hfl]; simp
    have hadd : add W (L + 1) c (v.push (L + 1) x) =
        List.foldl (fun v x => add W L x v) ((v.push (L + 1) x).push (L + 1) x) (c : List (Nest α L)) := by
      simp only [add, hidx, hx]
    rw [hadd]
    refine ⟨fun k hk => ?_, ?_⟩
    · by_cases hk1 : k = L + 1
      · subst hk1
        rw [fold_index, push_index, if_pos rfl, push_index, if_pos rfl, e, hxv]
        simp only [offsAt, if_true]
        have h1 := offs_snoc (α := Nest α L) C c
        have h2 := offs_snoc (α := Nest α L) (C ++ [c]) []
        rw [hfl, List.length_append] at h2
        simp only [List.length_nil, Nat.add_zero] at h2
        exact (h2.trans (congrArg (· ++ _) h1)).symm
      · rw [hh.1 k (by omega)]
        simp only [offsAt]
        rw [if_neg hk1, hfl2]
    · rw [hh.2]
      show _ = dataOf L (List.flatten (α := Nest α L) (C ++ [c] ++ [([] : List (Nest α L))]))
      rw [hfl2]
  have hread := read_inv (Or.inr hI) hf
  refine ⟨by rw [hr], ?_, hread.2.1⟩
  rw [hread.1]; simp

example : Nest.count 1 ([[3, 4], []] : Nest Nat 1) ≠ 0 ∧ Holds 1 (build 32 1 [[[1], [2]]]) ([[[1], [2]]] : List (Nest Nat 1)) ∧
    (emplaceBack 32 1 (emplaceBackF 32 1 (some 1) (build 32 1 [[[1], [2]]]) ([[3, 4], []] : Nest Nat 1)).1
      ([[3, 4], []] : Nest Nat 1)).iterate 32 1 = .ok [[[1], [2]], [[3, 4], []], []] := by
  refine ⟨by decide, ?_, by decide⟩
  rcases build_inv (W := 32) (L := 1) ([[[1], [2]]] : List (Nest Nat 1)) (by simp [Fits]) with ⟨h, _⟩ | h
  · cases h
  · exact h

/-- **C134 violated** (two levels or more) The first call throws after the leading zero of level 0 is stored.  The caller
repeats it and it succeeds, but the other levels lack their leading zeros: the nvec reports to be empty. -/
theorem C134_first_violated (W L : Nat) (c : Nest α (L + 1)) :
    let r := emplaceBackF W (L + 1) (some 1) (.empty : NV α) c
    r.2 = true ∧ (emplaceBack W (L + 1) r.1 c).size W (L + 1) = 0 ∧
      (emplaceBack W (L + 1) r.1 c).iterate W (L + 1) = .ok [] := by
  intro r
  have hr : r = (⟨[], fun j => if j < 1 then [0] else []⟩, true) := by
    show emplaceBackF W (L + 1) (some 1) (.empty : NV α) c = _
    unfold emplaceBackF
    simp only []
    rw [if_pos (show ((NV.empty : NV α).index 0).length = 0 from rfl), if_pos (show 1 ≤ L + 1 by omega)]
    rfl
  have hs : (emplaceBack W (L + 1) r.1 c).size W (L + 1) = 0 := by
    rw [hr]
    unfold emplaceBack
    rw [if_neg (by simp)]
    have hidx : ((add W (L + 1) c ⟨([] : List α), fun j => if j < 1 then [0] else []⟩).index (L + 1)).length = 1 := by
      have fold : ∀ (l : List (Nest α L)) (v : NV α),
          (l.foldl (fun v x => add W L x v) v).index (L + 1) = v.index (L + 1) := by
        intro l
        induction l with
        | nil => intro v; rfl
        | cons x l ih => intro v; rw [List.foldl_cons, ih, add_index_gt W L x v (L + 1) (by omega)]
      simp only [add]
      rw [fold]
      simp [NV.push]
    unfold NV.size
    rw [hidx]
    simp
  refine ⟨by rw [hr], hs, ?_⟩
  unfold NV.iterate
  rw [hs]
  rfl

example : (emplaceBack 32 1 (emplaceBackF 32 1 (some 1) (.empty : NV Nat) ([[1], [2, 3]] : Nest Nat 1)).1
    ([[1], [2, 3]] : Nest Nat 1)).data = [1, 2, 3] := by decide

end Cista.Multi.NVec
