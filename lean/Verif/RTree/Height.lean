import Verif.RTree.Props
import Mathlib.Data.List.Perm.Subperm

/-!
# R-tree: height and balance
-/
set_option linter.unusedSectionVars false

namespace Cista.RTree
open Coord

variable {N T : Type} [Coord N] {D : Nat}

/-- Node `j` is `d` steps below node `i`. -/
inductive Below (ns : List (Node N T D)) (i : Nat) : Nat → Nat → Prop
  | self : Below ns i 0 i
  | child {d j : Nat} {n : Node N T D} {s : Slot N T D} {h c : Nat} (hr : Below ns i d j) (hn : ns[j]? = some n) (hk : n.kind = .branch)
      (hh : h < n.count) (hs : n.slots[h]? = some s) (hc : s.2 = .child c) : Below ns i (d + 1) c

section
variable [Mode]

theorem below_level {M : Nat} {ns : List (Node N T D)} {k i d j : Nat} {n : Node N T D} (h : NOk M ns k i n) (h1 : 1 ≤ n.count)
    (hr : Below ns i d j) : d ≤ k ∧ ∃ n', NOk M ns (k - d) j n' ∧ 1 ≤ n'.count := by
  induction hr with
  | self => exact ⟨Nat.zero_le _, n, h, h1⟩
  | @child d j n1 s hd c hr hn hk hh hs hc ih =>
    obtain ⟨q0, n', q1, _⟩ := ih
    have : n1 = n' := by have := q1.get; rw [hn] at this; exact Option.some.inj this
    subst this
    cases hkd : k - d with
    | zero => rw [hkd] at q1; have := q1.kind; rw [hk] at this; simp [kindOf] at this
    | succ k' =>
      rw [hkd] at q1
      obtain ⟨s', c', cn, R, hs', hsc, hcn, hc1, _⟩ := q1.pick hh
      rw [hs] at hs'; injection hs' with hs'; subst hs'
      rw [hc] at hsc; injection hsc with hsc; subst hsc
      refine ⟨by omega, cn, ?_, hc1⟩
      rw [show k - (d + 1) = k' by omega]
      exact hcn

/-- A node that has entries below it has at most as many nodes below it as entries, on each level. -/
theorem nIds_le {M : Nat} {ns : List (Node N T D)} : ∀ (k i : Nat) (n : Node N T D), NOk M ns k i n → 1 ≤ n.count →
    (nIds ns k i).length ≤ (k + 1) * (nEnts ns k i).length
  | k, i, n, h, h1 => by
    have hpos : 1 ≤ (nEnts ns k i).length := by
      have := (live_le_ents h).1
      rw [h.live_length] at this
      omega
    have hsl : ∀ L : List (Slot N T D), (∀ s ∈ L, s ∈ live n) → (L.flatMap (sIds ns k)).length ≤ k * (L.flatMap (sEnts ns k)).length := by
      intro L
      induction L with
      | nil => intro _; simp
      | cons s L ih =>
        intro hL
        have ih := ih fun x hx => hL x (by simp [hx])
        rw [List.flatMap_cons, List.length_append, List.flatMap_cons, List.length_append, Nat.mul_add]
        refine Nat.add_le_add ?_ ih
        have hs := h.slots s (hL s (by simp))
        cases k with
        | zero => simp [sIds]
        | succ k =>
          obtain ⟨c, cn, q1, q2, q3, _⟩ := sOk_succ.1 hs
          rw [sIds_succ, sEnts_succ, cd_child q1]
          exact nIds_le k c cn q2 q3
    have h2 := hsl (live n) fun s hs => hs
    have e1 : (nIds ns k i).length = ((live n).flatMap (sIds ns k)).length + 1 := by unfold nIds; rw [liveAt_of h.get]; rfl
    have e2 : (nEnts ns k i).length = ((live n).flatMap (sEnts ns k)).length := by unfold nEnts; rw [liveAt_of h.get]
    rw [e1, Nat.add_mul, Nat.one_mul]
    rw [← e2] at h2
    omega

theorem addFree_count {st st' : RT N T D} {i : Nat} (h : addFree st i = .ok st') : st'.count = st.count := by
  unfold addFree at h
  cases hg : getNode st i with
  | error _ => rw [hg] at h; cases h
  | ok n =>
    rw [hg, ok_bind] at h
    split at h <;> (injection h with h; rw [← h])

theorem collapse_count : ∀ {f : Nat} {st : RT N T D} {root : Nat} {st' : RT N T D} {root' : Nat}, collapse f st root = .ok (st', root') →
    st'.count = st.count ∧ (st.count ≠ 1 → st' = st)
  | 0, _, _, _, _, hc => by cases hc
  | f + 1, st, root, st', root', hc => by
    unfold collapse at hc
    cases hg : getNode st root with
    | error e => rw [hg] at hc; cases hc
    | ok n =>
      rw [hg, ok_bind] at hc
      by_cases hb : n.kind = .branch ∧ st.count = 1
      · rw [if_pos hb] at hc
        refine ⟨?_, fun h => absurd hb.2 h⟩
        cases h1 : slotAt n 0 with
        | error e => rw [h1] at hc; cases hc
        | ok s =>
          rw [h1, ok_bind] at hc
          cases h2 : childOf s with
          | error e => rw [h2] at hc; cases hc
          | ok c =>
            rw [h2, ok_bind] at hc
            cases h3 : addFree (setNode st root { n with count := 0 }) root with
            | error e => rw [h3] at hc; cases hc
            | ok st1 =>
              rw [h3, ok_bind] at hc
              have h4 := (collapse_count hc).1
              have h5 := addFree_count h3
              exact h4.trans h5
      · rw [if_neg hb] at hc
        injection hc with hc
        injection hc with hc
        exact ⟨by rw [hc], fun _ => hc.symm⟩

end

section
local instance heightMode : Mode := ⟨False⟩

/-- **C136** After every history with fewer than `limit M` insertions: the nodes below the root are `height_` levels deep, exactly those of the last
level are leaves and hold entries, all of them hold something, and there are at most `height_` times as many nodes in use as entries. -/
theorem C136_balanced [NeZero D] [DecidableEq T] {M : Nat} (hM : 3 ≤ M) (ops : List (Op N T D)) (hn : inserts ops < limit M) :
    ∃ st os m, run M (RT.init : RT N T D) ops = .ok (st, os) ∧ Steps [] ops os m ∧ (m = [] → st.height = 0) ∧
      ∀ root, st.root = some root →
        (∀ d j, Below st.nodes root d j → ∃ n, st.nodes[j]? = some n ∧ 1 ≤ n.count ∧ n.count ≤ M ∧ d < st.height ∧
          (n.kind = .leaf ↔ d + 1 = st.height) ∧ (n.kind = .branch ↔ d + 1 < st.height)) ∧
        ∀ I : List Nat, I.Nodup → (∀ i ∈ I, Reach st.nodes root i) → I.length ≤ st.height * m.length := by
  rw [limit_eq] at hn
  obtain ⟨st, os, m, h1, h2, h3⟩ := run_ok hM ops (B := 0) (by omega) (Rep.init M) (nomatch ·) (nomatch ·)
  refine ⟨st, os, m, h1, h2, ?_⟩
  rcases h3 with ⟨r1, r2, r3, r4, _⟩ | ⟨k, root, nd, fl, r1, r2, r3, r4, r5, r6⟩
  · exact ⟨fun _ => r3, fun root hr => by rw [r1] at hr; cases hr⟩
  · refine ⟨fun hm => ?_, fun root' hr => ?_⟩
    · have := (live_le_ents r1.ok).1
      rw [r4.length_eq, r1.ok.live_length, hm] at this
      simp at this
      omega
    · rw [r1.root] at hr; injection hr with hr; subst hr
      refine ⟨fun d j hj => ?_, fun I hnd hI => ?_⟩
      · obtain ⟨q0, n, q1, q2⟩ := below_level r1.ok r2 hj
        refine ⟨n, q1.get, q2, q1.cnt, by rw [r1.height]; omega, ?_, ?_⟩
        · rw [q1.kind, r1.height]
          cases hkd : k - d with
          | zero => simp only [kindOf, true_iff]; omega
          | succ x => simp only [kindOf, reduceCtorEq, false_iff]; omega
        · rw [q1.kind, r1.height]
          cases hkd : k - d with
          | zero => simp only [kindOf, reduceCtorEq, false_iff]; omega
          | succ x => simp only [kindOf, true_iff]; omega
      · have hs : I.length ≤ (nIds st.nodes k root).length := by
          refine List.Subperm.length_le (List.subperm_of_subset hnd fun i hi => ?_)
          obtain ⟨_, _, _, h, _⟩ := reach_level r1.ok (hI i hi)
          exact h
        have := nIds_le k root nd r1.ok r2
        rw [r4.length_eq] at this
        rw [r1.height]
        exact Nat.le_trans hs this

/-- **C136** The height is logarithmic in the number of insertions: a tree of height `h + 1` has seen at least `m + m² + … + mʰ` of them, where `m` is
the least number of entries of a new node.  Missing: the number of entries that are still stored, see `C136_shrink_violated`. -/
theorem C136_height_partial [NeZero D] [DecidableEq T] {M : Nat} (hM : 3 ≤ M) (ops : List (Op N T D)) (hn : inserts ops < limit M) :
    ∃ st os, run M (RT.init : RT N T D) ops = .ok (st, os) ∧
      ∀ h, h < st.height → ((List.range h).map fun j => (M / 10 + 1) ^ (j + 1)).sum ≤ inserts ops := by
  rw [limit_eq] at hn
  obtain ⟨st, os, m, h1, h2, h3⟩ := run_ok hM ops (B := 0) (by omega) (Rep.init M) (nomatch ·) (nomatch ·)
  refine ⟨st, os, h1, fun h hh => ?_⟩
  have hg : ∀ h, ((List.range h).map fun j => minItems M ^ (j + 1)).sum = geo (minItems M) h := by
    intro h
    induction h with
    | zero => rfl
    | succ h ih => rw [List.range_succ, List.map_append, List.sum_append, ih]; simp [geo]
  rw [show M / 10 + 1 = minItems M by unfold minItems; omega, hg]
  rcases h3 with ⟨_, _, r3, _⟩ | ⟨k, root, nd, fl, r1, _, _, _, r5, _⟩
  · omega
  · rw [r1.height] at hh
    have := geo_mono (minItems M) (show h ≤ k by omega)
    omega

/-- Operations that remove nothing. -/
def Op.Keeps : Op N T D → Prop
  | .delete _ _ | .deleteFn _ _ => False
  | _ => True

theorem Steps.keeps {m m' : List (Ent N T D)} {ops : List (Op N T D)} {os : List (Out N T D)} (h : Steps m ops os m')
    (hk : ∀ op ∈ ops, op.Keeps) : m'.length = m.length + inserts ops := by
  induction h with
  | nil m => rfl
  | @cons m op o m1 ops os m2 h1 h2 ih =>
    have ih := ih fun x hx => hk x (by simp [hx])
    have ho := hk op (by simp)
    rw [ih, inserts_cons op ops]
    cases h1 with
    | insert => simp [inserts]; omega
    | search => simp [inserts]
    | size => simp [inserts]
    | _ => exact ho.elim

/-- **C136** If nothing was deleted, the height is logarithmic in the number of stored entries. -/
theorem C136_growing [NeZero D] [DecidableEq T] {M : Nat} (hM : 3 ≤ M) (ops : List (Op N T D)) (hn : inserts ops < limit M)
    (hk : ∀ op ∈ ops, op.Keeps) :
    ∃ st os m, run M (RT.init : RT N T D) ops = .ok (st, os) ∧ Steps [] ops os m ∧
      ∀ h, h < st.height → ((List.range h).map fun j => (M / 10 + 1) ^ (j + 1)).sum ≤ m.length := by
  obtain ⟨st, os, m, h1, h2, _⟩ := C136_balanced hM ops hn
  obtain ⟨st', os', h3, h4⟩ := C136_height_partial hM ops hn
  rw [h1] at h3
  injection h3 with h3
  rw [Prod.mk.injEq] at h3
  refine ⟨st, os, m, h1, h2, ?_⟩
  rw [h2.keeps hk, h3.1]
  simpa using h4

/-- **C136 (violated)** Deleting never lowers a tree in which at least two entries are left, however few there are: the loop that removes needless roots
(rtree.h:572) looks at the number of entries of the tree, not at that of the root. -/
theorem C136_shrink_violated [NeZero D] [DecidableEq T] {M : Nat} (hM : 3 ≤ M) (ops : List (Op N T D)) (hn : inserts ops < limit M)
    {st : RT N T D} {os : List (Out N T D)} (hr : run M (RT.init : RT N T D) ops = .ok (st, os)) (input : Rect N D) (fn : Rect N D → T → Bool) :
    ∃ st', deleteFn st input fn = .ok st' ∧ (2 ≤ st'.count → st'.height = st.height) := by
  rw [limit_eq] at hn
  obtain ⟨st0, os0, m, h1, h2, h3⟩ := run_ok hM ops (B := 0) (by omega) (Rep.init M) (nomatch ·) (nomatch ·)
  rw [hr] at h1
  injection h1 with h1
  rw [Prod.mk.injEq] at h1
  obtain ⟨rfl, rfl⟩ := h1
  obtain ⟨st', e, _⟩ := deleteFn_ok (by omega) (by omega) h3 input fn (fun h => False.elim h) (fun h => False.elim h)
  refine ⟨st', e, fun hc => ?_⟩
  unfold deleteFn at e
  rcases h3 with ⟨r1, _⟩ | ⟨k, root, nd, fl, r1, _, _, r4, r5, r6⟩
  · rw [r1] at e
    injection e with e
    rw [e]
  · rw [r1.root] at e
    simp only at e
    have hk : k ≤ 16 := by
      rcases Nat.lt_or_ge 16 k with h | h
      · have := geo_mono (minItems M) (show 17 ≤ k by omega)
        omega
      · exact h
    obtain ⟨x, e1, hno, hyes⟩ := nodeDelete_ok (M := M) (by omega) fn input (fun h => False.elim h) k st.height 0 (by rw [r1.height]; omega) (by omega) st st.rect
      root nd fl r1.good r1.ok (fun h => False.elim h) (r6.perm r4.symm)
    rw [e1, ok_bind] at e
    cases hrm : x.removed with
    | false =>
      obtain ⟨q1, q2, _⟩ := hno hrm
      rw [hrm] at e
      simp only [Bool.false_eq_true, if_false] at e
      injection e with e
      rw [← e, q1]
    | true =>
      obtain ⟨_, _, _, _, _, _, u1, _⟩ := hyes hrm
      have hh : x.st.height = st.height := u1.same.2.2.2
      rw [hrm] at e
      simp only [if_true] at e
      unfold afterDelete at e
      by_cases hz : ({ x.st with rect := x.rect, count := x.st.count - 1 } : RT N T D).count = 0
      · rw [if_pos hz] at e
        cases ha : addFree ({ x.st with rect := x.rect, count := x.st.count - 1 } : RT N T D) root with
        | error _ => rw [ha] at e; cases e
        | ok st3 =>
          rw [ha, ok_bind] at e
          injection e with e
          have h0 := (addFree_count ha).trans hz
          rw [← e] at hc
          have : 2 ≤ st3.count := hc
          omega
      · rw [if_neg hz] at e
        cases hcol : collapse (({ x.st with rect := x.rect, count := x.st.count - 1 } : RT N T D).height + 1)
            { x.st with rect := x.rect, count := x.st.count - 1 } root with
        | error _ => rw [hcol] at e; cases e
        | ok p =>
          obtain ⟨st3, root3⟩ := p
          rw [hcol, ok_bind] at e
          simp only at e
          obtain ⟨c1, c2⟩ := collapse_count hcol
          have hs : st'.count = st3.count ∧ st'.height = st3.height := by
            cases hsh : x.shrunk with
            | false =>
              rw [hsh] at e
              injection e with e
              rw [← e]
              exact ⟨rfl, rfl⟩
            | true =>
              rw [hsh] at e
              simp only [if_true] at e
              cases hg : getNode st3 root3 with
              | error _ => rw [hg] at e; cases e
              | ok n =>
                rw [hg, ok_bind] at e
                cases hb : boundingBox n with
                | error _ => rw [hb] at e; cases e
                | ok b =>
                  rw [hb, ok_bind] at e
                  injection e with e
                  rw [← e]
                  exact ⟨rfl, rfl⟩
          rw [hs.2, c2 (by omega)]
          exact hh

/-! ## Examples -/


/-- Nine points, and then all but two of them removed. -/
def tallOps : List (Op Nat Nat 1) :=
  (List.range 9).map (fun i => .insert (box i i) i) ++ ((List.range 9).drop 2).map fun i => .delete (box i i) i

/-- Height and number of entries after a history. -/
def sizes (M : Nat) (ops : List (Op Nat Nat 1)) : Option (Nat × Nat) :=
  match run M RT.init ops with
  | .ok (st, _) => some (st.height, st.count)
  | .error _ => none

/-- The hypotheses of the theorems hold for `tallOps`; for the default capacity they allow more than `2^47` insertions. -/
example : inserts tallOps < limit 3 := by decide +kernel
example : limit 64 > 2 ^ 47 := by decide +kernel

/-- `C136_balanced` and `C136_height_partial`: nine entries, `m = 1`, height 3; with capacity 10 (`m = 2`) height 1. -/
example : sizes 3 (tallOps.take 9) = some (3, 9) ∧ sizes 10 (tallOps.take 9) = some (1, 9) := by decide +kernel

/-- `C136_shrink_violated`: a tree of the two remaining entries alone has height 1. -/
example : sizes 3 tallOps = some (3, 2) ∧ sizes 3 (tallOps.take 2) = some (1, 2) := by decide +kernel

/-- `C136_growing` applies to the insertions. -/
example : ∀ op ∈ tallOps.take 9, op.Keeps := by
  intro op h
  rw [show tallOps.take 9 = (List.range 9).map (fun i => .insert (box i i) i) from rfl, List.mem_map] at h
  obtain ⟨i, _, rfl⟩ := h
  trivial

/-- The last but one entry removed, the tree is as low as possible. -/
example : sizes 3 (tallOps ++ [.delete (box 0 0) 0]) = some (1, 1) := by decide +kernel

end
end Cista.RTree
