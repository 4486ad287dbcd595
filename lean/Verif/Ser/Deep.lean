import Verif.Ser.Check
import Mathlib.Data.List.Perm.Subperm
import Mathlib.Data.List.ProdSigma

/-!
# Deep check

Second phase of deserialization (`mode::DEEP_CHECK`): nothing is converted any more, all checks are repeated, and pointer members
are followed.  `tys n` is the type of the pointees numbered `n`; pointees of `void` pointers are not inspected.
-/
set_option linter.unusedSimpArgs false
set_option linter.unusedSectionVars false

namespace Cista.Ser

/-! ## Model -/

/-- serialization.h:653-665 `checked_`: hash of the pointer type and address of the pointer object. -/
abbrev Vis := List (BitVec 64 × Nat)

/-- serialization.h:736-746 `deserialize(c, el)` with `_PHASE_II`: no conversion, `check_state`, `recurse`; `rec n x` deserializes
the pointee of type `n` at address `x`. -/
def deepT (d : DEnv) (m : Mem) (rec : Nat → Nat → Vis → Res Vis) : Ty → Nat → Vis → Res Vis
  | .int w, a, vis => do
    checkAddr d a w w
    .ok vis
  | .blob s al, a, vis => do
    checkAddr d a s al
    .ok vis
  -- 718-734, 767-783: a raw `void*` is only checked when it is followed
  | .ptr .void, a, vis => do
    checkAddr d a 8 8
    chk d.unchecked (checkPtrAt d m a 0 0)
    .ok vis
  | .ptr (.obj n), a, vis => do
    checkAddr d a 8 8
    chk d.unchecked (checkPtrAt d m a (d.obj n).1 (d.obj n).2)
    let x ← loadPtr d m a
    if x = 0 then .ok vis
    else if vis.contains (d.key n, a) then .ok vis
    else do
      let y ← toAddr x
      rec n y ((d.key n, a) :: vis)
  -- 795-815
  | .vec sw ix t, a, vis => do
    checkAddr d a (Ty.vec sw ix t).sizeof 8
    chk d.unchecked (checkVec d sw t.sizeof t.alignof a m)
    let x ← loadPtr d m a
    let n ← ldN d m (a + 8) sw
    if n = 0 then .ok vis
    else do
      let el ← toAddr x
      forFrom (fun i vis => deepT d m rec t (el + i * t.sizeof) vis) 0 n vis
  -- 826-849
  | .str, a, vis => do
    checkAddr d a 16 8
    chk d.unchecked (checkStr d a m)
    .ok vis
  -- 886-898; the first step of the callee is written here, before the address is taken as a natural number
  | .uptr t, a, vis => do
    checkAddr d a 16 8
    chk d.unchecked (checkNotOwned d m (a + 8))
    let x ← loadPtr d m a
    checkAddr d x t.sizeof t.alignof
    if x = 0 then .ok vis
    else do
      let el ← toAddr x
      deepT d m rec t el vis
  -- 926-999
  | .hash t, a, vis => do
    checkAddr d a 48 8
    chk d.unchecked (checkHash d t.sizeof t.alignof a m)
    hashFor d (fun _ => m) (fun x vis => deepT d m rec t x vis) t.sizeof a vis
  | .opt t, a, vis => do
    checkAddr d a (Ty.opt t).sizeof (Ty.opt t).alignof
    chk d.unchecked (checkBool d m a)
    let b ← ldN d m a 1
    if b = 0 then .ok vis else deepT d m rec t (a + t.alignof) vis
  | .var ib so s al n t, a, vis => do
    checkAddr d a s al
    let i ← ldN d m a ib
    chk d.unchecked (verify (decide (i < n)))
    if h : i < n then deepT d m rec (t ⟨i, h⟩) (a + so) vis else .error .exn
  | .arr n t, a, vis => do
    checkAddr d a (Ty.arr n t).sizeof t.alignof
    forFrom (fun i vis => deepT d m rec t (a + i * t.sizeof) vis) 0 n vis
  | .idx t, a, vis => do
    checkAddr d a t.sizeof t.alignof
    deepT d m rec t a vis
  | .agg s al n off t, a, vis => do
    checkAddr d a s al
    forFrom (fun i vis => if h : i < n then deepT d m rec (t ⟨i, h⟩) (a + off ⟨i, h⟩) vis else .ok vis) 0 n vis

/-- Following pointers, with a bound on the number of pointer hops on a path (`Err.diverge` when it is exceeded). -/
def deep (d : DEnv) (m : Mem) (tys : Nat → Ty) : Nat → Nat → Nat → Vis → Res Vis
  | 0, _, _, _ => .error .diverge
  | f + 1, n, x, vis => deepT d m (deep d m tys f) (tys n) x vis

/-! ## Specification -/

/-- The value at `a` contains a pointer member with pointee type `n` at address `fa`. -/
def Field (d : DEnv) (m : Mem) : Ty → (a n fa : Nat) → Prop
  | .ptr (.obj k), a, n, fa => n = k ∧ fa = a
  | .vec sw _ t, a, n, fa => ∃ el, ptrAt d.host d.raw m a = some el ∧ ∃ i, i < rdN d.host m (a + 8) sw ∧
      Field d m t (el + i * t.sizeof) n fa
  | .uptr t, a, n, fa => ∃ el, ptrAt d.host d.raw m a = some el ∧ Field d m t el n fa
  | .hash t, a, n, fa => ∃ el c, ptrAt d.host d.raw m a = some el ∧ ptrAt d.host d.raw m (a + 8) = some c ∧
      ∃ i, i < rdN d.host m (a + 24) 8 ∧ Full m c i ∧ Field d m t (el + i * t.sizeof) n fa
  | .opt t, a, n, fa => m a = 1#8 ∧ Field d m t (a + t.alignof) n fa
  | .var ib so _ _ k t, a, n, fa => ∃ i : Fin k, rdN d.host m a ib = i.1 ∧ Field d m (t i) (a + so) n fa
  | .arr k t, a, n, fa => ∃ i, i < k ∧ Field d m t (a + i * t.sizeof) n fa
  | .idx t, a, n, fa => Field d m t a n fa
  | .agg _ _ k off t, a, n, fa => ∃ i : Fin k, Field d m (t i) (a + off i) n fa
  | .ptr .void, _, _, _ => False
  | .int _, _, _, _ => False
  | .blob _ _, _, _, _ => False
  | .str, _, _, _ => False

/-- The value at `a` contains a pointer to an object of type `n` at `x`. -/
def Points (d : DEnv) (m : Mem) (t : Ty) (a n x : Nat) : Prop := ∃ fa, Field d m t a n fa ∧ ptrAt d.host d.raw m fa = some x

/-- Objects reachable from the value at `a` by following pointer members. -/
inductive Reach (d : DEnv) (m : Mem) (tys : Nat → Ty) (t : Ty) (a : Nat) : Nat → Nat → Prop
  | start {n x : Nat} : Points d m t a n x → Reach d m tys t a n x
  | step {n x n' x' : Nat} : Reach d m tys t a n x → Points d m (tys n) x n' x' → Reach d m tys t a n' x'

/-- Pointee types are numbered below `K`. -/
def Ty.Below (K : Nat) : Ty → Prop
  | .ptr (.obj n) => n < K
  | .vec _ _ t => t.Below K
  | .uptr t => t.Below K
  | .hash t => t.Below K
  | .opt t => t.Below K
  | .var _ _ _ _ _ t => ∀ i, (t i).Below K
  | .arr _ t => t.Below K
  | .idx t => t.Below K
  | .agg _ _ _ _ t => ∀ i, (t i).Below K
  | .ptr .void => True
  | .int _ => True
  | .blob _ _ => True
  | .str => True

/-- A finite table of types describes the pointees. -/
structure Table (d : DEnv) (tys : Nat → Ty) (K : Nat) : Prop where
  wf : ∀ n, n < K → (tys n).WF ∧ (tys n).Fits ∧ (tys n).Below K
  obj : ∀ n, n < K → d.obj n = ((tys n).sizeof, (tys n).alignof)

/-- Pointee types with the same hash are the same. -/
def Keyed (d : DEnv) (tys : Nat → Ty) (K : Nat) : Prop := ∀ n k, n < K → k < K → d.key n = d.key k → tys n = tys k

/-! ## Proof -/

variable {d : DEnv} {m : Mem} {tys : Nat → Ty} {K : Nat}

theorem loadPtr_tri (hd : d.Checked) {a size al : Nat} (ha : InB d a 8 8) (hal : 0 < al) {α : Type} {f : Int → Res α} {Q : α → Prop}
    (h0 : ptrAt d.host d.raw m a = none → Tri (f 0) Q)
    (hx : ∀ x : Nat, 0 < x → ptrAt d.host d.raw m a = some x → InB d x size al → Tri (f (x : Int)) Q) :
    Tri (do let x ← loadPtr d m a
            checkAddr d x size al
            f x) Q := by
  have hhi := hd.hi
  have hlo := hd.lo
  obtain ⟨ha1, ha2, ha3⟩ := id ha
  cases hr : d.raw with
  | true =>
    have := checkPtrAt_raw (m := m) (size := size) hd hr ha hal
    have e : loadPtr d m a = .ok (decI d.host (rd m a 8)) := by
      unfold loadPtr
      rw [ld_ok ha, ok_bind, if_pos hr]
    unfold checkPtrAt at this
    rw [if_pos hr, e, ok_bind] at this
    rw [e, ok_bind]
    refine Tri.bind this fun _ _ hp => ?_
    rcases hp with ⟨p1, p2⟩ | ⟨x, p0, p1, p2, p3⟩
    · rw [e] at p1
      injection p1 with p1
      rw [p1]
      exact h0 p2
    · rw [e] at p1
      injection p1 with p1
      rw [p1]
      exact hx x p0 p2 p3
  | false =>
    have hrg := decI_range d.host (rd m a 8)
    have e : loadPtr d m a = (if decI d.host (rd m a 8) = NULLO then .ok 0
        else if (a : Int) + decI d.host (rd m a 8) < 2 ^ 63 then .ok ((a : Int) + decI d.host (rd m a 8))
        else .ok ((a : Int) + decI d.host (rd m a 8) - 2 ^ 64) : Res Int) := by
      unfold loadPtr
      rw [ld_ok ha, ok_bind, hr, hd.wrap]
      simp only [Bool.false_eq_true, if_false]
    have ep : ptrAt d.host d.raw m a = (if decI d.host (rd m a 8) = NULLO then none
        else if (a : Int) + decI d.host (rd m a 8) ≤ 0 then none
        else some ((a : Int) + decI d.host (rd m a 8)).toNat) := by
      unfold ptrAt
      rw [hr]
      simp only [Bool.false_eq_true, if_false]
    generalize ho : decI d.host (rd m a 8) = o at hrg e ep
    rw [NULLO_eq] at e ep
    by_cases h1 : o = -(2 ^ 63)
    · rw [if_pos h1] at e ep
      rw [e, ok_bind]
      refine Tri.bind (checkAddr_tri hd (by omega) size al) fun _ _ _ => h0 ep
    · rw [if_neg h1] at e ep
      by_cases h2 : (a : Int) + o < 2 ^ 63
      · rw [if_pos h2] at e
        rw [e, ok_bind]
        refine Tri.bind (checkAddr_tri hd (by omega) size al) fun _ _ h => ?_
        rcases h with h | ⟨g1, g2, g3, g4⟩
        · rw [h]
          exact h0 (by rw [ep, if_pos (by omega)])
        · have := hx ((a : Int) + o).toNat (by omega) (by rw [ep, if_neg (by omega)]) ⟨g2, g3, by omega⟩
          rw [Int.toNat_of_nonneg (by omega)] at this
          exact this
      · rw [if_neg h2] at e
        rw [e, ok_bind]
        refine Tri.bind (checkAddr_tri hd (by omega) size al) fun _ _ h => ?_
        omega

/-- Keys are distinct and come from the buffer. -/
def Valid (d : DEnv) (K : Nat) (vis : Vis) : Prop := vis.Nodup ∧ ∀ k ∈ vis, (∃ n, n < K ∧ d.key n = k.1) ∧ d.lo ≤ k.2 ∧ k.2 < d.hi

theorem Valid.length {vis : Vis} (h : Valid d K vis) : vis.length ≤ K * (d.hi - d.lo) := by
  have hs : vis ⊆ ((List.range K).map d.key).product (List.range' d.lo (d.hi - d.lo)) := by
    intro k hk
    have := h.2 k hk
    obtain ⟨n, a⟩ := k
    rw [List.pair_mem_product]
    obtain ⟨i, hi, hk⟩ := this.1
    refine ⟨List.mem_map.2 ⟨i, List.mem_range.2 hi, hk⟩, List.mem_range'_1.2 ⟨this.2.1, ?_⟩⟩
    simp only at this
    omega
  have := (List.subperm_of_subset h.1 hs).length_le
  exact Nat.le_trans this (Nat.le_of_eq ((List.length_product _ _).trans (by rw [List.length_map, List.length_range, List.length_range'])))

/-- The target of a visited pointer is safe and its own pointers are visited, provided the type hashes tell the pointees apart. -/
def Closed (d : DEnv) (m : Mem) (tys : Nat → Ty) (K : Nat) (vis : Vis) (k : BitVec 64 × Nat) : Prop :=
  Keyed d tys K → ∀ n, n < K → d.key n = k.1 → ∃ x, ptrAt d.host d.raw m k.2 = some x ∧ Safe d m (tys n) x ∧
    ∀ n' fa y, Field d m (tys n) x n' fa → ptrAt d.host d.raw m fa = some y → (d.key n', fa) ∈ vis

/-- Outcome of a deep check of the value at `a`. -/
structure Deep (d : DEnv) (m : Mem) (tys : Nat → Ty) (K : Nat) (t : Ty) (a : Nat) (vis vis' : Vis) : Prop where
  valid : Valid d K vis'
  ext : vis ⊆ vis'
  len : vis.length ≤ vis'.length
  safe : Safe d m t a
  fields : ∀ n fa y, Field d m t a n fa → ptrAt d.host d.raw m fa = some y → (d.key n, fa) ∈ vis'
  closed : ∀ k ∈ vis', k ∈ vis ∨ Closed d m tys K vis' k

theorem Closed.mono {vis vis' : Vis} (h : vis ⊆ vis') {k : BitVec 64 × Nat} (hc : Closed d m tys K vis k) : Closed d m tys K vis' k := by
  intro hkey n hn he
  obtain ⟨x, h1, h2, h3⟩ := hc hkey n hn he
  exact ⟨x, h1, h2, fun n fa y hf hp => h (h3 n fa y hf hp)⟩

/-- Nothing to follow. -/
theorem Deep.leaf {t : Ty} {a : Nat} {vis : Vis} (hv : Valid d K vis) (hs : Safe d m t a) (hf : ∀ n fa, ¬ Field d m t a n fa) :
    Deep d m tys K t a vis vis :=
  ⟨hv, fun _ h => h, Nat.le_refl _, hs, fun n fa y h => absurd h (hf n fa), fun _ h => Or.inl h⟩

/-- State of a loop over parts. -/
structure Loop (d : DEnv) (m : Mem) (tys : Nat → Ty) (K : Nat) (S : Nat → Prop) (F : Nat → Nat → Nat → Prop) (i : Nat) (vis vis' : Vis) : Prop where
  valid : Valid d K vis'
  ext : vis ⊆ vis'
  len : vis.length ≤ vis'.length
  safe : ∀ j, j < i → S j
  fields : ∀ j, j < i → ∀ n fa y, F j n fa → ptrAt d.host d.raw m fa = some y → (d.key n, fa) ∈ vis'
  closed : ∀ k ∈ vis', k ∈ vis ∨ Closed d m tys K vis' k

theorem Loop.init {S : Nat → Prop} {F : Nat → Nat → Nat → Prop} {vis : Vis} (hv : Valid d K vis) : Loop d m tys K S F 0 vis vis :=
  ⟨hv, fun _ h => h, Nat.le_refl _, (fun j hj => by omega), (fun j hj => by omega), fun _ h => Or.inl h⟩

theorem Loop.next {S : Nat → Prop} {F : Nat → Nat → Nat → Prop} {i : Nat} {vis vis1 vis2 : Vis} (h1 : Loop d m tys K S F i vis vis1)
    {t : Ty} {a : Nat} (h2 : Deep d m tys K t a vis1 vis2) (hS : Safe d m t a → S i) (hF : ∀ n fa, F i n fa → Field d m t a n fa) :
    Loop d m tys K S F (i + 1) vis vis2 := by
  refine ⟨h2.valid, fun k hk => h2.ext (h1.ext hk), Nat.le_trans h1.len h2.len, fun j hj => ?_, fun j hj n fa y hf hp => ?_, fun k hk => ?_⟩
  · rcases Nat.lt_succ_iff_lt_or_eq.1 hj with hj | hj
    · exact h1.safe j hj
    · subst hj; exact hS h2.safe
  · rcases Nat.lt_succ_iff_lt_or_eq.1 hj with hj | hj
    · exact h2.ext (h1.fields j hj n fa y hf hp)
    · subst hj; exact h2.fields n fa y (hF n fa hf) hp
  · rcases h2.closed k hk with h | h
    · rcases h1.closed k h with h | h
      · exact Or.inl h
      · exact Or.inr (h.mono h2.ext)
    · exact Or.inr h

/-- A part that is not inspected. -/
theorem Loop.skip {S : Nat → Prop} {F : Nat → Nat → Nat → Prop} {i : Nat} {vis vis1 : Vis} (h1 : Loop d m tys K S F i vis vis1)
    (hS : S i) (hF : ∀ n fa, ¬ F i n fa) : Loop d m tys K S F (i + 1) vis vis1 := by
  refine ⟨h1.valid, h1.ext, h1.len, fun j hj => ?_, fun j hj n fa y hf hp => ?_, h1.closed⟩
  · rcases Nat.lt_succ_iff_lt_or_eq.1 hj with hj | hj
    · exact h1.safe j hj
    · subst hj; exact hS
  · rcases Nat.lt_succ_iff_lt_or_eq.1 hj with hj | hj
    · exact h1.fields j hj n fa y hf hp
    · subst hj; exact absurd hf (hF n fa)

theorem deepT_tri (hd : d.Checked) (hT : Table d tys K) {rec : Nat → Nat → Vis → Res Vis} {f : Nat}
    (hrec : ∀ n x vis, n < K → 0 < x ∧ x < 2 ^ 63 → Valid d K vis → K * (d.hi - d.lo) < vis.length + f →
      Tri (rec n x vis) (Deep d m tys K (tys n) x vis)) :
    ∀ t : Ty, t.WF → t.Fits → t.Below K → ∀ a, 0 < a ∧ a < 2 ^ 63 → ∀ vis, Valid d K vis → K * (d.hi - d.lo) < vis.length + (f + 1) →
      Tri (deepT d m rec t a vis) (Deep d m tys K t a vis) := by
  have hhi := hd.hi
  have hlo := hd.lo
  intro t
  induction t with
  | int w =>
    intro hw _ _ a ha vis hv _
    unfold deepT
    refine Tri.bind (checkAddr_nat hd ha (Ty.pos_of_WF hw).1) fun _ _ h1 => ?_
    exact Deep.leaf hv h1 fun _ _ h => h
  | blob s al =>
    intro hw _ _ a ha vis hv _
    unfold deepT
    refine Tri.bind (checkAddr_nat hd ha hw.2.1) fun _ _ h1 => ?_
    exact Deep.leaf hv h1 fun _ _ h => h
  | ptr p =>
    intro _ _ hb a ha vis hv hfu
    cases p with
    | void =>
      unfold deepT
      refine Tri.bind (checkAddr_nat hd ha (by decide)) fun _ _ h1 => ?_
      rw [hd.chk]
      have hvoid : Tri (checkPtrAt d m a 0 0) fun _ => True := by
        have ht := deserPtr_void (m := m) hd ha
        obtain ⟨ha1, ha2, _⟩ := id h1
        unfold checkPtrAt
        cases hr : d.raw with
        | true =>
          rw [if_pos rfl]
          have e : loadPtr d m a = .ok (decI d.host (rd m a 8)) := by
            unfold loadPtr
            rw [ld_ok h1, ok_bind, if_pos hr]
          rw [e, ok_bind]
          exact Tri.mono (checkAddr_tri hd (decI_range _ _) 0 0) fun _ _ => trivial
        | false =>
          rw [if_neg (by decide), if_pos rfl, ld_ok h1, ok_bind]
          have hrg := decI_range d.host (rd m a 8)
          split
          · exact trivial
          · rename_i h3
            rw [add64 hrg (by omega)]
            split
            · rename_i h4
              rw [ok_bind]
              have e : loadPtr d m a = .ok ((a : Int) + decI d.host (rd m a 8)) := by
                unfold loadPtr
                rw [ld_ok h1, ok_bind, hr]
                simp only [Bool.false_eq_true, if_false]
                rw [if_neg h3, if_pos (by omega)]
              rw [e, ok_bind]
              exact Tri.mono (checkAddr_tri hd (by omega) 0 0) fun _ _ => trivial
            · rw [error_bind]; exact Tri.exn
      refine Tri.bind (show Tri (chk false (checkPtrAt d m a 0 0)) fun _ => True from hvoid) fun _ _ _ => ?_
      exact Deep.leaf hv ⟨h1, trivial⟩ fun _ _ h => h
    | obj n =>
      have hb : n < K := hb
      have ho := hT.obj n hb
      have htp := Ty.pos_of_WF (hT.wf n hb).1
      unfold deepT
      refine Tri.bind (checkAddr_nat hd ha (by decide)) fun _ _ h1 => ?_
      rw [hd.chk]
      have hal : 0 < (d.obj n).2 := by rw [ho]; exact htp.1
      refine Tri.bind (show Tri (chk false _) _ from checkPtrAt_tri (m := m) hd h1 hal) fun _ _ hp => ?_
      rcases hp with ⟨p1, p2⟩ | ⟨x, hx, p1, p2, p3⟩
      · rw [p1, ok_bind, if_pos rfl]
        refine ⟨hv, fun _ h => h, Nat.le_refl _, ⟨h1, by rw [p2]; exact trivial⟩, ?_, fun _ h => Or.inl h⟩
        rintro k fa y ⟨rfl, rfl⟩ hp
        rw [p2] at hp; cases hp
      · have hs : Safe d m (.ptr (.obj n)) a := ⟨h1, by rw [p2]; exact p3⟩
        rw [p1, ok_bind, if_neg (by omega)]
        by_cases hc : vis.contains (d.key n, a)
        · rw [if_pos hc]
          refine ⟨hv, fun _ h => h, Nat.le_refl _, hs, ?_, fun _ h => Or.inl h⟩
          rintro k fa y ⟨rfl, rfl⟩ _
          simpa using hc
        · rw [if_neg hc]
          have ea : toAddr (x : Int) = .ok x := by
            unfold toAddr
            rw [if_neg (by omega)]
            simp
          rw [ea, ok_bind]
          obtain ⟨r1, r2, _⟩ := id p3
          rw [ho] at r2
          simp only at r2
          obtain ⟨q1, q2, _⟩ := id h1
          have hv' : Valid d K ((d.key n, a) :: vis) := by
            refine ⟨List.nodup_cons.2 ⟨by simpa using hc, hv.1⟩, fun k hk => ?_⟩
            rcases List.mem_cons.1 hk with hk | hk
            · subst hk; exact ⟨⟨n, hb, rfl⟩, q1, by simp only; omega⟩
            · exact hv.2 k hk
          refine Tri.mono (hrec n x ((d.key n, a) :: vis) hb ⟨hx, by have := htp.2.1; omega⟩ hv' (by simp only [List.length_cons]; omega)) fun vis' hq => ?_
          refine ⟨hq.valid, fun k hk => hq.ext (List.mem_cons_of_mem _ hk), ?_, hs, ?_, fun k hk => ?_⟩
          · have := hq.len
            simp only [List.length_cons] at this
            omega
          · rintro k fa y ⟨rfl, rfl⟩ _
            exact hq.ext List.mem_cons_self
          · rcases hq.closed k hk with h | h
            · rcases List.mem_cons.1 h with h | h
              · subst h
                refine Or.inr fun hkey n' hn' he => ?_
                rw [hkey n' n hn' hb he]
                exact ⟨x, p2, hq.safe, hq.fields⟩
              · exact Or.inl h
            · exact Or.inr h
  | vec sw ix t ih =>
    intro hw hf hb a ha vis hv hfu
    have htp := Ty.pos_of_WF hw.2
    have hsw := hw.1
    unfold deepT
    refine Tri.bind (checkAddr_nat hd ha (by decide)) fun _ _ h1 => ?_
    have h1 : InB d a (16 + 2 * sw) 8 := h1
    have hi2 : InB d (a + 8) sw sw := h1.sub (by omega) (by rcases hsw with e | e <;> subst e <;> decide)
      (by rcases hsw with e | e <;> subst e <;> decide)
    rw [hd.chk]
    refine Tri.bind (checkVec_tri hd (m := m) (size := t.sizeof) hsw (by have := hf.1; omega) htp.1 h1) fun _ _ hvv => ?_
    obtain ⟨h0, heq, hvv⟩ := hvv
    rcases hvv with ⟨p1, p2, p3⟩ | ⟨x, hx, p1, p2, p3, p4⟩
    · rw [p1, ok_bind, ldN_ok hi2, ok_bind, if_pos p3]
      refine Deep.leaf hv ⟨h1, h0, heq, by rw [p2]; exact p3⟩ ?_
      rintro n fa ⟨el, hel, _⟩
      rw [p2] at hel; cases hel
    · rw [p1, ok_bind, ldN_ok hi2, ok_bind, if_neg (by omega)]
      have ea : toAddr (x : Int) = .ok x := by
        unfold toAddr
        rw [if_neg (by omega)]
        simp
      rw [ea, ok_bind]
      obtain ⟨q1, q2, q3⟩ := id p4
      have := Tri.forFrom (f := fun i vis => deepT d m rec t (x + i * t.sizeof) vis)
        (P := fun i vis' => Loop d m tys K (fun j => Safe d m t (x + j * t.sizeof)) (fun j => Field d m t (x + j * t.sizeof)) i vis vis')
        (rdN d.host m (a + 8) sw) 0 vis (Loop.init hv) (fun j s _ hj hp => by
          have hjb : j * t.sizeof + t.sizeof ≤ rdN d.host m (a + 8) sw * t.sizeof := by
            have := Nat.mul_le_mul_right t.sizeof (show j + 1 ≤ rdN d.host m (a + 8) sw by omega)
            rw [Nat.add_mul, Nat.one_mul] at this
            exact this
          refine Tri.mono (ih hw.2 hf.2 hb (x + j * t.sizeof) ⟨by omega, by omega⟩ s hp.valid (by have := hp.len; omega)) fun m' hq => ?_
          exact hp.next hq (fun h => h) fun _ _ h => h)
      rw [Nat.zero_add] at this
      refine Tri.mono this fun vis' hq => ⟨hq.valid, hq.ext, hq.len, ⟨h1, h0, heq, by rw [p2]; exact ⟨p3, p4, hq.safe⟩⟩, ?_, hq.closed⟩
      rintro n fa y ⟨el, hel, i, hi, hfi⟩ hp
      rw [p2] at hel
      injection hel with hel
      subst hel
      exact hq.fields i hi n fa y hfi hp
  | str =>
    intro _ _ _ a ha vis hv _
    unfold deepT
    refine Tri.bind (checkAddr_nat hd ha (by decide)) fun _ _ h1 => ?_
    rw [hd.chk]
    refine Tri.bind (checkStr_tri hd (m := m) h1) fun _ _ hs => ?_
    exact Deep.leaf hv ⟨h1, hs⟩ fun _ _ h => h
  | uptr t ih =>
    intro hw hf hb a ha vis hv hfu
    have htp := Ty.pos_of_WF (t := t) hw
    unfold deepT
    refine Tri.bind (checkAddr_nat hd ha (by decide)) fun _ _ h1 => ?_
    have hi3 : InB d (a + 8) 1 1 := h1.sub (by omega) (by decide) (by decide)
    rw [hd.chk]
    refine Tri.bind (checkNotOwned_tri (m := m) hi3) fun _ _ h0 => ?_
    refine loadPtr_tri hd (h1.head (by omega) (Nat.dvd_refl _)) htp.1 (fun p2 => ?_) fun x hx p2 p3 => ?_
    · rw [if_pos rfl]
      refine Deep.leaf hv ⟨h1, h0, by rw [p2]; exact trivial⟩ ?_
      rintro n fa ⟨el, hel, _⟩
      rw [p2] at hel; cases hel
    · rw [if_neg (by omega)]
      have ea : toAddr (x : Int) = .ok x := by
        unfold toAddr
        rw [if_neg (by omega)]
        simp
      rw [ea, ok_bind]
      obtain ⟨r1, r2, _⟩ := id p3
      refine Tri.mono (ih hw hf hb x ⟨by omega, by omega⟩ vis hv hfu) fun vis' hq => ?_
      refine ⟨hq.valid, hq.ext, hq.len, ⟨h1, h0, by rw [p2]; exact hq.safe⟩, ?_, hq.closed⟩
      rintro n fa y ⟨el, hel, hfi⟩ hp
      rw [p2] at hel
      injection hel with hel
      subst hel
      exact hq.fields n fa y hfi hp
  | hash t ih =>
    intro hw hf hb a ha vis hv hfu
    have hw : t.WF := hw
    have htp := Ty.pos_of_WF hw
    have hhi2 := hhi
    unfold deepT
    refine Tri.bind (checkAddr_nat hd ha (by decide)) fun _ _ h1 => ?_
    have hi24 : InB d (a + 24) 8 8 := h1.sub (by omega) (by decide) (by decide)
    rw [hd.chk]
    refine Tri.bind (checkHash_tri hd (m := m) (size := t.sizeof) (by have := hf.1; omega) htp.1 h1) fun _ _ hh => ?_
    obtain ⟨h40, c, hc0, c1, c2, c3, c4, hh⟩ := hh
    obtain ⟨b1, b2, _⟩ := id c3
    rcases hh with ⟨p1, p2, p3, p4⟩ | ⟨x, hx, p1, p2, p3, p4, p5⟩
    · rw [hashFor_nil (mem := fun _ => m) c1 hc0 p1 (by rw [ldN_ok hi24, p3]) b1 (by omega) (by rw [p3] at c4; exact c4.toCtrl)]
      refine Deep.leaf hv ⟨h1, h40, c, c2, c3, c4, by rw [p2]; exact ⟨p3, p4⟩⟩ ?_
      rintro n fa ⟨el, c', hel, _⟩
      rw [p2] at hel; cases hel
    · obtain ⟨q1, q2, q3⟩ := id p5
      rw [hashFor_eq (mem := fun _ => m) (el := x) (P := fun _ _ => True) c1 hc0 p1 hx (ldN_ok hi24) b1 b2 c4.toCtrl
        (fun _ _ _ => rfl) (fun _ _ _ _ _ _ _ => trivial) (fun _ _ _ _ _ => trivial) trivial]
      have := Tri.forFrom (f := fun i vis => if Full m c i then deepT d m rec t (x + i * t.sizeof) vis else .ok vis)
        (P := fun i vis' => Loop d m tys K (fun j => Full m c j → Safe d m t (x + j * t.sizeof))
          (fun j n fa => Full m c j ∧ Field d m t (x + j * t.sizeof) n fa) i vis vis')
        (rdN d.host m (a + 24) 8) 0 vis (Loop.init hv) (fun j s _ hj hp => by
          have hjb : j * t.sizeof + t.sizeof ≤ rdN d.host m (a + 24) 8 * t.sizeof := by
            have := Nat.mul_le_mul_right t.sizeof (show j + 1 ≤ rdN d.host m (a + 24) 8 by omega)
            rw [Nat.add_mul, Nat.one_mul] at this
            exact this
          by_cases hfu : Full m c j
          · rw [if_pos hfu]
            refine Tri.mono (ih hw hf.2 hb (x + j * t.sizeof) ⟨by omega, by omega⟩ s hp.valid (by have := hp.len; omega)) fun m' hq => ?_
            exact hp.next hq (fun h _ => h) fun _ _ h => h.2
          · rw [if_neg hfu]
            exact hp.skip (fun h => absurd h hfu) fun _ _ h => hfu h.1)
      rw [Nat.zero_add] at this
      refine Tri.mono this fun vis' hq => ⟨hq.valid, hq.ext, hq.len,
        ⟨h1, h40, c, c2, c3, c4, by rw [p2]; exact ⟨p3, p4, p5, hq.safe⟩⟩, ?_, hq.closed⟩
      rintro n fa y ⟨el, c', hel, hc', i, hi, hfull, hfi⟩ hp
      rw [p2] at hel
      rw [c2] at hc'
      injection hel with hel
      injection hc' with hc'
      subst hel; subst hc'
      exact hq.fields i hi n fa y ⟨hfull, hfi⟩ hp
  | opt t ih =>
    intro hw hf hb a ha vis hv hfu
    have htp := Ty.pos_of_WF (t := t) hw
    unfold deepT
    refine Tri.bind (checkAddr_nat hd ha (show 0 < (Ty.opt t).alignof from htp.1)) fun _ _ h1 => ?_
    have h1 : InB d a (t.alignof + t.sizeof) t.alignof := h1
    have hi1 : InB d a 1 1 := h1.head (by omega) (Nat.one_dvd _)
    rw [hd.chk]
    refine Tri.bind (checkBool_tri (m := m) hi1) fun _ _ hb' => ?_
    rw [ldN_ok hi1, ok_bind, rdN_one]
    obtain ⟨q1, q2, _⟩ := id h1
    rcases hb' with hb' | hb'
    · rw [hb', if_pos (by rfl)]
      refine Deep.leaf hv ⟨h1, Or.inl hb'⟩ ?_
      rintro n fa ⟨h, _⟩
      rw [hb'] at h; cases h
    · rw [hb', if_neg (by decide)]
      refine Tri.mono (ih hw hf hb (a + t.alignof) ⟨by omega, by omega⟩ vis hv hfu) fun vis' hq => ?_
      exact ⟨hq.valid, hq.ext, hq.len, ⟨h1, Or.inr ⟨hb', hq.safe⟩⟩, fun n fa y h hp => hq.fields n fa y h.2 hp, hq.closed⟩
  | var ib so s al n t ih =>
    intro hw hf hb a ha vis hv hfu
    simp only [Ty.WF] at hw
    obtain ⟨hib, hn, hso, hal, hdv, hia, hso', hs0, hti⟩ := hw
    unfold deepT
    refine Tri.bind (checkAddr_nat hd ha hal) fun _ _ h1 => ?_
    have hi1 : InB d a ib ib := h1.head (by omega) hia
    rw [ldN_ok hi1, ok_bind, hd.chk]
    refine Tri.bind (Tri.verify _) fun _ _ hvv => ?_
    have hvv := of_decide_eq_true hvv
    rw [dif_pos hvv]
    obtain ⟨q1, q2, _⟩ := id h1
    have htv := hti ⟨_, hvv⟩
    have htp := Ty.pos_of_WF htv.1
    refine Tri.mono (ih ⟨_, hvv⟩ htv.1 (hf _) (hb _) (a + so) ⟨by omega, by omega⟩ vis hv hfu) fun vis' hq => ?_
    refine ⟨hq.valid, hq.ext, hq.len, ⟨h1, ⟨_, hvv⟩, rfl, hq.safe⟩, ?_, hq.closed⟩
    rintro k fa y ⟨i, hi, hfi⟩ hp
    have : i = ⟨_, hvv⟩ := Fin.ext hi.symm
    subst this
    exact hq.fields k fa y hfi hp
  | arr n t ih =>
    intro hw hf hb a ha vis hv hfu
    have htp := Ty.pos_of_WF hw.2
    unfold deepT
    refine Tri.bind (checkAddr_nat hd ha htp.1) fun _ _ h1 => ?_
    have h1 : InB d a (n * t.sizeof) t.alignof := h1
    obtain ⟨q1, q2, _⟩ := id h1
    have := Tri.forFrom (f := fun i vis => deepT d m rec t (a + i * t.sizeof) vis)
      (P := fun i vis' => Loop d m tys K (fun j => Safe d m t (a + j * t.sizeof)) (fun j => Field d m t (a + j * t.sizeof)) i vis vis')
      n 0 vis (Loop.init hv) (fun j s _ hj hp => by
        have hjb : j * t.sizeof + t.sizeof ≤ n * t.sizeof := by
          have := Nat.mul_le_mul_right t.sizeof (show j + 1 ≤ n by omega)
          rw [Nat.add_mul, Nat.one_mul] at this
          exact this
        refine Tri.mono (ih hw.2 hf hb (a + j * t.sizeof) ⟨by omega, by omega⟩ s hp.valid (by have := hp.len; omega)) fun m' hq => ?_
        exact hp.next hq (fun h => h) fun _ _ h => h)
    rw [Nat.zero_add] at this
    refine Tri.mono this fun vis' hq => ⟨hq.valid, hq.ext, hq.len, ⟨h1, hq.safe⟩, ?_, hq.closed⟩
    rintro k fa y ⟨i, hi, hfi⟩ hp
    exact hq.fields i hi k fa y hfi hp
  | idx t ih =>
    intro hw hf hb a ha vis hv hfu
    have htp := Ty.pos_of_WF (t := t) hw
    unfold deepT
    refine Tri.bind (checkAddr_nat hd ha htp.1) fun _ _ h1 => ?_
    exact Tri.mono (ih hw hf hb a ha vis hv hfu) fun vis' hq => ⟨hq.valid, hq.ext, hq.len, hq.safe, hq.fields, hq.closed⟩
  | agg s al n off t ih =>
    intro hw hf hb a ha vis hv hfu
    simp only [Ty.WF] at hw
    obtain ⟨hs0, hal, hdv, hti, _⟩ := hw
    unfold deepT
    refine Tri.bind (checkAddr_nat hd ha hal) fun _ _ h1 => ?_
    obtain ⟨q1, q2, _⟩ := id h1
    have := Tri.forFrom (f := fun i vis => if h : i < n then deepT d m rec (t ⟨i, h⟩) (a + off ⟨i, h⟩) vis else .ok vis)
      (P := fun i vis' => Loop d m tys K (fun j => ∀ hj : j < n, Safe d m (t ⟨j, hj⟩) (a + off ⟨j, hj⟩))
        (fun j k fa => ∃ hj : j < n, Field d m (t ⟨j, hj⟩) (a + off ⟨j, hj⟩) k fa) i vis vis')
      n 0 vis (Loop.init hv) (fun j s _ hj hp => by
        have hjn : j < n := by omega
        rw [dif_pos hjn]
        have htj := hti ⟨j, hjn⟩
        have htp := Ty.pos_of_WF htj.1
        refine Tri.mono (ih ⟨j, hjn⟩ htj.1 (hf _) (hb _) (a + off ⟨j, hjn⟩) ⟨by omega, by omega⟩ s hp.valid (by have := hp.len; omega))
          fun m' hq => ?_
        exact hp.next hq (fun h _ => h) fun _ _ ⟨_, h⟩ => h)
    rw [Nat.zero_add] at this
    refine Tri.mono this fun vis' hq => ⟨hq.valid, hq.ext, hq.len, ⟨h1, fun i => hq.safe i.1 i.2 i.2⟩, ?_, hq.closed⟩
    rintro k fa y ⟨i, hfi⟩ hp
    exact hq.fields i.1 i.2 k fa y ⟨i.2, hfi⟩ hp

theorem deep_tri (hd : d.Checked) (hT : Table d tys K) : ∀ f n x vis, n < K → 0 < x ∧ x < 2 ^ 63 → Valid d K vis →
    K * (d.hi - d.lo) < vis.length + f → Tri (deep d m tys f n x vis) (Deep d m tys K (tys n) x vis)
  | 0, n, x, vis, _, _, hv, hf => by have := hv.length; omega
  | f + 1, n, x, vis, hn, hx, hv, hf => by
    obtain ⟨h1, h2, h3⟩ := hT.wf n hn
    exact deepT_tri hd hT (deep_tri hd hT f) (tys n) h1 h2 h3 x hx vis hv hf

theorem field_below : ∀ {t : Ty} {a n fa : Nat}, t.Below K → Field d m t a n fa → n < K := by
  intro t
  induction t with
  | int w => exact fun _ h => h.elim
  | blob s al => exact fun _ h => h.elim
  | ptr p =>
    cases p with
    | void => exact fun _ h => h.elim
    | obj k => rintro a n fa hb ⟨rfl, _⟩; exact hb
  | vec sw ix t ih => rintro a n fa hb ⟨_, _, _, _, h⟩; exact ih hb h
  | str => exact fun _ h => h.elim
  | uptr t ih => rintro a n fa hb ⟨_, _, h⟩; exact ih hb h
  | hash t ih => rintro a n fa hb ⟨_, _, _, _, _, _, _, h⟩; exact ih hb h
  | opt t ih => rintro a n fa hb ⟨_, h⟩; exact ih hb h
  | var ib so s al k t ih => rintro a n fa hb ⟨i, _, h⟩; exact ih i (hb i) h
  | arr k t ih => rintro a n fa hb ⟨_, _, h⟩; exact ih hb h
  | idx t ih => exact fun hb h => ih hb h
  | agg s al k off t ih => rintro a n fa hb ⟨i, h⟩; exact ih i (hb i) h

/-- Everything reachable is safe once the visited set is closed. -/
theorem reach_safe (hT : Table d tys K) (hkey : Keyed d tys K) {t : Ty} {a : Nat} {vis : Vis} (hb : t.Below K)
    (h : Deep d m tys K t a [] vis) {n x : Nat} (hr : Reach d m tys t a n x) :
    n < K ∧ Safe d m (tys n) x ∧ ∀ k fa y, Field d m (tys n) x k fa → ptrAt d.host d.raw m fa = some y → (d.key k, fa) ∈ vis := by
  have hcl : ∀ k ∈ vis, Closed d m tys K vis k := fun k hk => by
    rcases h.closed k hk with h | h
    · simp at h
    · exact h
  induction hr with
  | start hp =>
    obtain ⟨fa, h1, h2⟩ := hp
    have hn := field_below hb h1
    obtain ⟨y, k1, k2, k3⟩ := hcl _ (h.fields _ _ _ h1 h2) hkey _ hn rfl
    rw [h2] at k1
    injection k1 with k1
    subst k1
    exact ⟨hn, k2, k3⟩
  | step hr hp ih =>
    obtain ⟨fa, h1, h2⟩ := hp
    have hn := field_below (hT.wf _ ih.1).2.2 h1
    obtain ⟨y, k1, k2, k3⟩ := hcl _ (ih.2.2 _ _ _ h1 h2) hkey _ hn rfl
    rw [h2] at k1
    injection k1 with k1
    subst k1
    exact ⟨hn, k2, k3⟩

/-! ## The bound on pointer hops does not matter -/

theorem bind_mono {α β : Type} {r r' : Res α} {g g' : α → Res β} (hr : r ≠ .error .diverge → r' = r)
    (hg : ∀ v, g v ≠ .error .diverge → g' v = g v) (h : (r >>= g) ≠ .error .diverge) : (r' >>= g') = (r >>= g) := by
  have h1 : r ≠ .error .diverge := by
    intro he
    subst he
    exact h rfl
  rw [hr h1]
  cases r with
  | error x => rfl
  | ok v => exact hg v h

theorem forFrom_mono {σ : Type} {g g' : Nat → σ → Res σ} (hg : ∀ i s, g i s ≠ .error .diverge → g' i s = g i s) :
    ∀ k i s, forFrom g i k s ≠ .error .diverge → forFrom g' i k s = forFrom g i k s
  | 0, _, _, _ => rfl
  | k + 1, i, s, h => by
    rw [forFrom_succ] at h ⊢
    rw [forFrom_succ]
    exact bind_mono (hg i s) (fun v hv => forFrom_mono hg k (i + 1) v hv) h

theorem bind_mono' {α β : Type} {r : Res α} {g g' : α → Res β} (hg : ∀ v, g v ≠ .error .diverge → g' v = g v)
    (h : (r >>= g) ≠ .error .diverge) : (r >>= g') = (r >>= g) := bind_mono (fun _ => rfl) hg h

theorem hashIter_mono {σ : Type} {mem : σ → Mem} {g g' : Nat → σ → Res σ} {c cap : Nat} (hg : ∀ i s, g i s ≠ .error .diverge → g' i s = g i s) :
    ∀ f i s, hashIter d mem g c cap f i s ≠ .error .diverge → hashIter d mem g' c cap f i s = hashIter d mem g c cap f i s
  | 0, _, _, _ => rfl
  | f + 1, i, s, h => by
    unfold hashIter at h ⊢
    split
    · rfl
    · rename_i hne
      rw [if_neg hne] at h
      exact bind_mono (hg i s) (fun v => bind_mono' fun j => hashIter_mono hg f j v) h

theorem hashFor_mono {σ : Type} {mem : σ → Mem} {g g' : Nat → σ → Res σ} {size a : Nat} (hg : ∀ i s, g i s ≠ .error .diverge → g' i s = g i s)
    (s : σ) : hashFor d mem g size a s ≠ .error .diverge → hashFor d mem g' size a s = hashFor d mem g size a s := by
  unfold hashFor
  refine bind_mono' fun ct => bind_mono' fun en => bind_mono' fun cap => bind_mono' fun c => bind_mono' fun b => ?_
  exact hashIter_mono (fun i s => bind_mono' fun el => hg _ _) _ _ _

theorem deepT_mono {rec rec' : Nat → Nat → Vis → Res Vis} (hr : ∀ n x vis, rec n x vis ≠ .error .diverge → rec' n x vis = rec n x vis) :
    ∀ (t : Ty) (a : Nat) (vis : Vis), deepT d m rec t a vis ≠ .error .diverge → deepT d m rec' t a vis = deepT d m rec t a vis := by
  intro t
  induction t with
  | int w => intro a vis _; rfl
  | blob s al => intro a vis _; rfl
  | ptr p =>
    intro a vis
    cases p with
    | void => intro _; rfl
    | obj n =>
      unfold deepT
      refine bind_mono' fun _ => bind_mono' fun _ => bind_mono' fun x => ?_
      split
      · exact fun _ => rfl
      · split
        · exact fun _ => rfl
        · exact bind_mono' fun y => hr _ _ _
  | vec sw ix t ih =>
    intro a vis
    unfold deepT
    refine bind_mono' fun _ => bind_mono' fun _ => bind_mono' fun x => bind_mono' fun n => ?_
    split
    · exact fun _ => rfl
    · exact bind_mono' fun el => forFrom_mono (fun i s => ih _ _) _ _ _
  | str => intro a vis _; rfl
  | uptr t ih =>
    intro a vis
    unfold deepT
    refine bind_mono' fun _ => bind_mono' fun _ => bind_mono' fun x => bind_mono' fun _ => ?_
    split
    · exact fun _ => rfl
    · exact bind_mono' fun el => ih _ _
  | hash t ih =>
    intro a vis
    unfold deepT
    exact bind_mono' fun _ => bind_mono' fun _ => hashFor_mono (fun i s => ih _ _) _
  | opt t ih =>
    intro a vis
    unfold deepT
    refine bind_mono' fun _ => bind_mono' fun _ => bind_mono' fun b => ?_
    split
    · exact fun _ => rfl
    · exact ih _ _
  | var ib so s al n t ih =>
    intro a vis
    unfold deepT
    refine bind_mono' fun _ => bind_mono' fun i => bind_mono' fun _ => ?_
    split
    · exact ih _ _ _
    · exact fun _ => rfl
  | arr n t ih =>
    intro a vis
    unfold deepT
    exact bind_mono' fun _ => forFrom_mono (fun i s => ih _ _) _ _ _
  | idx t ih =>
    intro a vis
    unfold deepT
    exact bind_mono' fun _ => ih _ _
  | agg s al n off t ih =>
    intro a vis
    unfold deepT
    refine bind_mono' fun _ => forFrom_mono (fun i s => ?_) _ _ _
    split
    · exact ih _ _ _
    · exact fun _ => rfl

theorem deep_mono : ∀ f n x vis, deep d m tys f n x vis ≠ .error .diverge → deep d m tys (f + 1) n x vis = deep d m tys f n x vis
  | 0, _, _, _, h => absurd rfl h
  | f + 1, n, x, vis, h => deepT_mono (fun n x vis => deep_mono f n x vis) (tys n) x vis h

theorem deepT_stable {t : Ty} {a : Nat} {vis : Vis} {f : Nat} (h : deepT d m (deep d m tys f) t a vis ≠ .error .diverge) :
    ∀ k, deepT d m (deep d m tys (f + k)) t a vis = deepT d m (deep d m tys f) t a vis
  | 0 => rfl
  | k + 1 => by
    have ih := deepT_stable h k
    rw [← ih]
    exact deepT_mono (fun n x vis => deep_mono (f + k) n x vis) t a vis (by rw [ih]; exact h)

end Cista.Ser
