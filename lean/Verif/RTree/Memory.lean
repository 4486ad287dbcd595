import Verif.RTree.Height

/-!
# R-tree: insertions that run out of memory

The only allocation of an R-tree is `nodes_.emplace_back()` (rtree.h:411).  It happens only if no node is free, and leaves the vector as it was if it
throws.  The functions below are those of `Model.lean` with a limit on the number of nodes; an allocation beyond the limit ends the operation
and leaves the tree as it is at that point.  As an insertion ends at the first allocation that fails, a limit covers every way in which allocations
can fail during one insertion.
-/
set_option linter.unusedSimpArgs false
set_option linter.unusedSectionVars false

namespace Cista.RTree
open Coord

variable {N T : Type} [Coord N] {D : Nat}

/-! ## The model -/

/-- What ends an operation early: an error, or a failed allocation, with the tree it leaves behind. -/
inductive Stop (N T : Type) (D : Nat)
  | err (e : Err)
  | oom (st : RT N T D)

abbrev ResM (N T : Type) (D : Nat) (α : Type) := Except (Stop N T D) α

/-- A part of an operation that allocates nothing. -/
def up {α : Type} : Res α → ResM N T D α
  | .ok a => .ok a
  | .error e => .error (.err e)

/-- rtree.h:409-426 `node_new` with memory for `cap` nodes. -/
def nodeNewM (cap M : Nat) (st : RT N T D) (k : Kind) : ResM N T D (RT N T D × Nat) :=
  match st.free with
  | none => if cap ≤ st.nodes.length then .error (.oom st) else up (nodeNew M st k)
  | some _ => up (nodeNew M st k)

/-- rtree.h:343-379 `node_split`. -/
def nodeSplitM [NeZero D] (cap M : Nat) (st : RT N T D) (r : Rect N D) (i : Nat) : ResM N T D (RT N T D × Nat) := do
  let n ← up (getNode st i)
  let (st1, j) ← nodeNewM cap M st n.kind
  let a ← up (getNode st1 i)
  let b ← up (getNode st1 j)
  let (a1, b1) ← up (splitLoop r r.largestAxis (2 * M + 1) 0 a b)
  let (a2, b2) ← up (balance M r.largestAxis a1 b1)
  let (a3, b3) ← up (finalSort a2 b2)
  .ok (setNode (setNode st1 i a3) j b3, j)

/-- rtree.h:331-339. -/
def splitChildM [NeZero D] (cap M : Nat) (st : RT N T D) (n i : Nat) : ResM N T D (RT N T D) := do
  let nd ← up (getNode st n)
  let s ← up (slotAt nd i)
  let c ← up (childOf s)
  let (st1, right) ← nodeSplitM cap M st s.1 c
  let nd1 ← up (getNode st1 n)
  let s1 ← up (slotAt nd1 i)
  let c1 ← up (childOf s1)
  let cn ← up (getNode st1 c1)
  let b1 ← up (boundingBox cn)
  let rn ← up (getNode st1 right)
  let b2 ← up (boundingBox rn)
  let nd2 ← up (appendSlot { nd1 with slots := nd1.slots.set i (b1, s1.2) } (b2, .child right))
  .ok (setNode st1 n nd2)

/-- rtree.h:299-341 `node_insert`. -/
def nodeInsertM [NeZero D] (cap M : Nat) : Nat → RT N T D → Nat → Rect N D → T → Nat → ResM N T D (RT N T D × Bool)
  | 0, _, _, _, _, _ => .error (.err .diverge)
  | f + 1, st, n, r, d, depth => do
    let nd ← up (getNode st n)
    if nd.kind = .leaf then
      if nd.count = M then .ok (st, true)
      else do
        let nd1 ← up (appendSlot nd (r, .item d))
        .ok (setNode st n nd1, false)
    else do
      let (st1, i) ← up (nodeChoose st nd r depth)
      let s ← up (slotAt nd i)
      let c ← up (childOf s)
      let (st2, split) ← nodeInsertM cap M f st1 c r d (depth + 1)
      if split then do
        let nd2 ← up (getNode st2 n)
        if nd2.count = M then .ok (st2, true)
        else do
          let st3 ← splitChildM cap M st2 n i
          nodeInsertM cap M f st3 n r d depth
      else do
        let st3 ← up (expandSlot st2 n i r)
        .ok (st3, false)

/-- rtree.h:282-295. -/
def splitRootM [NeZero D] (cap M : Nat) (st : RT N T D) (root : Nat) : ResM N T D (RT N T D) := do
  let (st1, nr) ← nodeNewM cap M st .branch
  let (st2, right) ← nodeSplitM cap M st1 st1.rect root
  let rn ← up (getNode st2 nr)
  let on ← up (getNode st2 root)
  let b1 ← up (boundingBox on)
  let tn ← up (getNode st2 right)
  let b2 ← up (boundingBox tn)
  if 2 ≤ rn.slots.length then
    .ok { st2 with nodes := st2.nodes.set nr { rn with slots := (rn.slots.set 0 (b1, .child root)).set 1 (b2, .child right), count := 2 }, root := some nr, height := st2.height + 1 }
  else .error (.err .ub)

/-- rtree.h:268-272. -/
def ensureRootM (cap M : Nat) (st : RT N T D) (r : Rect N D) : ResM N T D (RT N T D × Nat) :=
  match st.root with
  | some i => .ok (st, i)
  | none => do
    let (st1, i) ← nodeNewM cap M st .leaf
    .ok ({ st1 with root := some i, rect := r, height := 1 }, i)

/-- rtree.h:267-296. -/
def insertLoopM [NeZero D] (cap M : Nat) (r : Rect N D) (d : T) : Nat → RT N T D → ResM N T D (RT N T D)
  | 0, _ => .error (.err .diverge)
  | f + 1, st => do
    let (st1, root) ← ensureRootM cap M st r
    let (st2, split) ← nodeInsertM cap M (st1.height * (M + 2)) st1 root r d 0
    if split then do
      let st3 ← splitRootM cap M st2 root
      insertLoopM cap M r d f st3
    else .ok { st2 with rect := st2.rect.expand r, count := st2.count + 1 }

/-- rtree.h:265-297 `insert` with memory for `room` more nodes. -/
def insertM [NeZero D] (room M : Nat) (st : RT N T D) (r : Rect N D) (d : T) : ResM N T D (RT N T D) :=
  insertLoopM (st.nodes.length + room) M r d (st.nodes.length * minItems M ^ st.height + 2) st

/-! ## Comparison with insertions that never fail -/

theorem up_bind {α β : Type} (x : Res α) (f : α → Res β) : (up (x >>= f) : ResM N T D β) = up x >>= fun a => up (f a) := by
  cases x <;> rfl
theorem up_ok {α : Type} (a : α) : (up (.ok a) : ResM N T D α) = .ok a := rfl
theorem up_error {α : Type} (e : Err) : (up (.error e) : ResM N T D α) = .error (.err e) := rfl
theorem okM {α β : Type} (a : α) (f : α → ResM N T D β) : ((Except.ok a : ResM N T D α) >>= f) = f a := rfl
theorem errM {α β : Type} (e : Stop N T D) (f : α → ResM N T D β) : ((Except.error e : ResM N T D α) >>= f) = .error e := rfl

/-- No node is free and there is no memory for another. -/
def Spent (cap : Nat) (st : RT N T D) : Prop := st.free = none ∧ cap ≤ st.nodes.length

theorem nodeNewM_cases (cap M : Nat) (st : RT N T D) (k : Kind) :
    nodeNewM cap M st k = up (nodeNew M st k) ∨ nodeNewM cap M st k = .error (.oom st) ∧ Spent cap st := by
  unfold nodeNewM
  cases hf : st.free with
  | none =>
    simp only
    by_cases h : cap ≤ st.nodes.length
    · exact Or.inr ⟨if_pos h, hf, h⟩
    · exact Or.inl (if_neg h)
  | some i => exact Or.inl rfl

theorem nodeSplitM_cases [NeZero D] (cap M : Nat) (st : RT N T D) (r : Rect N D) (i : Nat) :
    nodeSplitM cap M st r i = up (nodeSplit M st r i) ∨ nodeSplitM cap M st r i = .error (.oom st) ∧ Spent cap st := by
  unfold nodeSplitM nodeSplit
  cases h : getNode st i with
  | error e => exact Or.inl rfl
  | ok n =>
    rw [ok_bind, up_ok, okM]
    rcases nodeNewM_cases cap M st n.kind with e | ⟨e, hs⟩
    · left
      rw [e]
      simp only [up_bind, up_ok]
    · right
      rw [e]
      exact ⟨rfl, hs⟩

theorem splitChildM_cases [NeZero D] (cap M : Nat) (st : RT N T D) (n i : Nat) :
    splitChildM cap M st n i = up (splitChild M st n i) ∨ splitChildM cap M st n i = .error (.oom st) ∧ Spent cap st := by
  unfold splitChildM splitChild
  cases h : getNode st n with
  | error e => exact Or.inl rfl
  | ok nd =>
    rw [ok_bind, up_ok, okM]
    cases h : slotAt nd i with
    | error e => exact Or.inl rfl
    | ok s =>
      rw [ok_bind, up_ok, okM]
      cases h : childOf s with
      | error e => exact Or.inl rfl
      | ok c =>
        rw [ok_bind, up_ok, okM]
        rcases nodeSplitM_cases cap M st s.1 c with e | ⟨e, hs⟩
        · left
          rw [e]
          simp only [up_bind, up_ok]
        · right
          rw [e]
          exact ⟨rfl, hs⟩

theorem splitRootM_cases [NeZero D] (cap M : Nat) (st : RT N T D) (root : Nat) :
    splitRootM cap M st root = up (splitRoot M st root) ∨ (splitRootM cap M st root = .error (.oom st) ∧ Spent cap st) ∨
      ∃ st1 nr, nodeNew M st .branch = .ok (st1, nr) ∧ splitRootM cap M st root = .error (.oom st1) ∧ Spent cap st1 := by
  unfold splitRootM splitRoot
  rcases nodeNewM_cases cap M st .branch with e | ⟨e, hs⟩
  · rw [e]
    cases h : nodeNew M st .branch with
    | error e => exact Or.inl rfl
    | ok x =>
      obtain ⟨st1, nr⟩ := x
      rw [ok_bind, up_ok, okM]
      simp only
      rcases nodeSplitM_cases cap M st1 st1.rect root with e | ⟨e, hs⟩
      · left
        rw [e]
        simp only [up_bind]
        congr; funext x; congr; funext rn; congr; funext a; congr; funext b; congr; funext c; congr; funext e
        split <;> rfl
      · right; right
        rw [e]
        exact ⟨st1, nr, rfl, rfl, hs⟩
  · rw [e]
    exact Or.inr (Or.inl ⟨rfl, hs⟩)

section
variable [Mode]

/-- Splitting a full child keeps the entries. -/
theorem splitChild_ok [NeZero D] {M : Nat} (hM : 3 ≤ M) {st : RT N T D} {k n i c : Nat} {nd cn : Node N T D} {s : Slot N T D} {fl : List Nat}
    (g : Good M st (nIds st.nodes (k + 1) n) fl) (h : NOk M st.nodes (k + 1) n nd) (hi : i < nd.count) (hfull : nd.count ≠ M)
    (hs : nd.slots[i]? = some s) (hsc : s.2 = .child c) (hcn : NOk M st.nodes k c cn) (hcM : cn.count = M) :
    ∃ st' fl' nd', splitChild M st n i = .ok st' ∧ NOk M st'.nodes (k + 1) n nd' ∧
      Upd M st (nIds st.nodes (k + 1) n) fl st' (nIds st'.nodes (k + 1) n) fl' ∧
      (nEnts st'.nodes (k + 1) n).Perm (nEnts st.nodes (k + 1) n) ∧ nPot M st'.nodes (k + 1) n ≤ nPot M st.nodes (k + 1) n ∧
      nd'.count = nd.count + 1 := by
  obtain ⟨s', c', cn', R, hs', hsc', hcn', hcn1, hcont, hperm, hRok, hset⟩ := h.pick hi
  rw [hs] at hs'; injection hs' with hs'; subst hs'
  rw [hsc] at hsc'; injection hsc' with hsc'; subst hsc'
  have hcd := cd_child hsc
  obtain ⟨pi, pe, pp⟩ := via_perm (M := M) (k := k + 1) h.get hperm
  rw [List.flatMap_cons, sIds_succ, hcd] at pi
  rw [List.flatMap_cons, sEnts_succ, hcd] at pe
  rw [List.map_cons, List.sum_cons, sPot_succ, hcd, List.length_cons] at pp
  have hRlen : R.length + 1 = nd.count := by rw [← h.live_length, hperm.length_eq, List.length_cons]
  have pi' : (nIds st.nodes (k + 1) n).Perm ((n :: R.flatMap (sIds st.nodes (k + 1))) ++ nIds st.nodes k c) := by
    refine pi.trans ?_
    rw [List.cons_append]
    exact List.Perm.cons _ List.perm_append_comm
  have g2 : Good M st ((n :: R.flatMap (sIds st.nodes (k + 1))) ++ nIds st.nodes k c) fl := g.perm pi'
  obtain ⟨st3, j, fl3, a, b, e3, ha, hb, u3, en3, ma, mb, po3, _⟩ := nodeSplit_ok (by omega) s.1 g2.right hcn hcM
  have hm := minItems_bounds (M := M) (by omega)
  have hn3 : st3.nodes[n]? = some nd := (u3.untouched g2 (by simp)).trans h.get
  have hfR3 : ∀ x ∈ R, _ := fun x hx => frame (M := M) (ns := st.nodes) (ns' := st3.nodes) (k + 1) x fun y hy =>
    u3.untouched g2 (by
      rw [List.mem_cons, List.mem_flatMap]
      exact Or.inr ⟨x, hx, hy⟩)
  have eI3 : R.flatMap (sIds st3.nodes (k + 1)) = R.flatMap (sIds st.nodes (k + 1)) := flatMap_congr fun x hx => (hfR3 x hx).2.1
  have eE3 : R.flatMap (sEnts st3.nodes (k + 1)) = R.flatMap (sEnts st.nodes (k + 1)) := flatMap_congr fun x hx => (hfR3 x hx).1
  have eP3 : R.map (sPot M st3.nodes (k + 1)) = R.map (sPot M st.nodes (k + 1)) := List.map_congr_left fun x hx => (hfR3 x hx).2.2.1
  obtain ⟨bb1, hbb1, hin1⟩ := boundingBox_ok (n := a) (by rw [ha.len]; omega)
  obtain ⟨bb2, hbb2, hin2⟩ := boundingBox_ok (n := b) (by rw [hb.len]; omega)
  obtain ⟨nd2, e4, k4, l4, c4, lv4⟩ := appendSlot_ok (n := { nd with slots := nd.slots.set i (bb1, s.2) }) (bb2, .child j)
    (by show nd.count < _; simp; have := h.len; have := h.cnt; omega)
  have hsplit : splitChild M st n i = .ok (setNode st3 n nd2) := by
    unfold splitChild
    rw [getNode_of h.get, ok_bind, slotAt_of hs, ok_bind, childOf_ok hsc, ok_bind, e3, ok_bind]
    simp only
    rw [getNode_of hn3, ok_bind, slotAt_of hs, ok_bind, childOf_ok hsc, ok_bind, getNode_of ha.get, ok_bind, hbb1, ok_bind,
      getNode_of hb.get, ok_bind, hbb2, ok_bind, e4, ok_bind]
  have u3' : Upd M st (nIds st.nodes (k + 1) n) fl st3 ((n :: R.flatMap (sIds st3.nodes (k + 1))) ++ (nIds st3.nodes k c ++ nIds st3.nodes k j)) fl3 := by
    rw [eI3]
    exact (u3.context (K := n :: R.flatMap (sIds st.nodes (k + 1)))).perm' pi'.symm (List.Perm.refl _)
  have g3 := u3'.good g
  have hP3 : ((n :: R.flatMap (sIds st3.nodes (k + 1))) ++ (nIds st3.nodes k c ++ nIds st3.nodes k j)).Perm
      (n :: ((bb1, s.2) :: (bb2, Pay.child j) :: R).flatMap (sIds st3.nodes (k + 1))) := by
    rw [List.flatMap_cons, List.flatMap_cons, sIds_succ, sIds_succ, cd_child (s := (bb1, s.2)) hsc, cd_child (s := (bb2, Pay.child j)) rfl,
      List.cons_append, ← List.append_assoc (nIds st3.nodes k c)]
    exact List.Perm.cons _ List.perm_append_comm
  have hlv : (live nd2).Perm ((bb1, s.2) :: (bb2, Pay.child j) :: R) := by
    rw [lv4]
    refine ((hset (bb1, s.2)).append_right _).trans ?_
    rw [List.cons_append]
    exact (List.perm_append_singleton _ _).cons _
  obtain ⟨f1, f2, f3, f4, f5⟩ := assemble (nd' := nd2) (g3.perm hP3) (by
    intro x hx
    rcases List.mem_cons.1 hx with rfl | hx
    · exact sOk_succ.2 ⟨c, a, hsc, ha, by omega, hbox ha hbb1 hin1⟩
    rcases List.mem_cons.1 hx with rfl | hx
    · exact sOk_succ.2 ⟨j, b, rfl, hb, by omega, hbox hb hbb2 hin2⟩
    · exact (hfR3 x hx).2.2.2 (hRok x hx)) hn3 (by rw [k4]; exact h.kind) (by rw [l4]; simpa using h.len)
      (by rw [c4]; show nd.count + 1 ≤ M; have := h.cnt; omega) hlv
  refine ⟨_, fl3, nd2, hsplit, f1, u3'.trans g (f5.perm' hP3.symm (List.Perm.refl _)), ?_, ?_, c4⟩
  · refine f3.trans ?_
    rw [List.flatMap_cons, List.flatMap_cons, sEnts_succ, sEnts_succ, cd_child (s := (bb1, s.2)) hsc,
      cd_child (s := (bb2, Pay.child j)) rfl, ← List.append_assoc, eE3]
    exact (en3.append_right _).trans pe.symm
  · rw [f4, pp, List.map_cons, List.map_cons, List.sum_cons, List.sum_cons, sPot_succ, sPot_succ, cd_child (s := (bb1, s.2)) hsc,
      cd_child (s := (bb2, Pay.child j)) rfl, List.length_cons, List.length_cons, eP3]
    have := pot_grow (R.length + 1) (M - minItems M) (minItems M ^ (k + 1))
    omega

theorem nodeInsertM_ok [NeZero D] {M : Nat} (hM : 3 ≤ M) (cap : Nat) (r : Rect N D) (d : T) : ∀ (f k : Nat) (st : RT N T D) (n depth : Nat)
    (fl : List Nat) (nd : Node N T D), Good M st (nIds st.nodes k n) fl → NOk M st.nodes k n nd → (k = 0 ∨ 1 ≤ nd.count) →
    depth + k ≤ 16 → k * (M + 2) + (M - nd.count) + 1 ≤ f →
    nodeInsertM cap M f st n r d depth = up (nodeInsert M f st n r d depth) ∨
    ∃ st' fl' nd', nodeInsertM cap M f st n r d depth = .error (.oom st') ∧ Spent cap st' ∧ NOk M st'.nodes k n nd' ∧
      Upd M st (nIds st.nodes k n) fl st' (nIds st'.nodes k n) fl' ∧ (nEnts st'.nodes k n).Perm (nEnts st.nodes k n) ∧
      nPot M st'.nodes k n ≤ nPot M st.nodes k n ∧ 1 ≤ nd'.count
  | 0, k, st, n, depth, fl, nd, g, h, h0, hd, hf => by omega
  | f + 1, k, st, n, depth, fl, nd, g, h, h0, hd, hf => by
    unfold nodeInsertM nodeInsert
    rw [getNode_of h.get, ok_bind, up_ok, okM]
    cases k with
    | zero =>
      left
      rw [if_pos (show nd.kind = .leaf from h.kind), if_pos (show nd.kind = .leaf from h.kind)]
      by_cases hfull : nd.count = M
      · rw [if_pos hfull, if_pos hfull]; rfl
      · rw [if_neg hfull, if_neg hfull, up_bind]; rfl
    | succ k =>
      have hcnt : 1 ≤ nd.count := by rcases h0 with h0 | h0 <;> omega
      have hkind : nd.kind ≠ .leaf := by rw [h.kind]; simp [kindOf]
      rw [if_neg hkind, if_neg hkind]
      obtain ⟨hint, i, e1, hhl, hi⟩ := nodeChoose_ok (st := st) (n := nd) r (d := depth) (by rw [g.world.hint]; omega)
        (by rw [h.len]; exact h.cnt) hcnt
      rw [e1, ok_bind, up_ok, okM]
      simp only
      obtain ⟨s, c, cn, R, hs, hsc, hcn, hcn1, hcont, hperm, hRok, hset⟩ := h.pick hi
      rw [slotAt_of hs, ok_bind, up_ok, okM, childOf_ok hsc, ok_bind, up_ok, okM]
      have hcd := cd_child hsc
      obtain ⟨pi, pe, pp⟩ := via_perm (M := M) (k := k + 1) h.get hperm
      rw [List.flatMap_cons, sIds_succ, hcd] at pi
      rw [List.flatMap_cons, sEnts_succ, hcd] at pe
      rw [List.map_cons, List.sum_cons, sPot_succ, hcd, List.length_cons] at pp
      have hRlen : R.length + 1 = nd.count := by rw [← h.live_length, hperm.length_eq, List.length_cons]
      have pi' : (nIds st.nodes (k + 1) n).Perm ((n :: R.flatMap (sIds st.nodes (k + 1))) ++ nIds st.nodes k c) := by
        refine pi.trans ?_
        rw [List.cons_append]
        exact List.Perm.cons _ List.perm_append_comm
      have gK : Good M st ((n :: R.flatMap (sIds st.nodes (k + 1))) ++ nIds st.nodes k c) fl := g.perm pi'
      have uh : Upd M st (nIds st.nodes (k + 1) n) fl { st with hint := hint } (nIds st.nodes (k + 1) n) fl := Upd.hint g.world hhl
      have gKh : Good M { st with hint := hint } ((n :: R.flatMap (sIds st.nodes (k + 1))) ++ nIds st.nodes k c) fl := (uh.good g).perm pi'
      have hmul : (k + 1) * (M + 2) = k * (M + 2) + (M + 2) := by rw [Nat.add_mul, Nat.one_mul]
      -- the branch after a step inside the child that keeps the entries
      have kept : ∀ (st2 : RT N T D) (fl2 : List Nat) (cn2 : Node N T D), NOk M st2.nodes k c cn2 → 1 ≤ cn2.count →
          Upd M { st with hint := hint } (nIds st.nodes k c) fl st2 (nIds st2.nodes k c) fl2 →
          (nEnts st2.nodes k c).Perm (nEnts st.nodes k c) → nPot M st2.nodes k c ≤ nPot M st.nodes k c →
          NOk M st2.nodes (k + 1) n nd ∧ Upd M st (nIds st.nodes (k + 1) n) fl st2 (nIds st2.nodes (k + 1) n) fl2 ∧
          (nEnts st2.nodes (k + 1) n).Perm (nEnts st.nodes (k + 1) n) ∧ nPot M st2.nodes (k + 1) n ≤ nPot M st.nodes (k + 1) n := by
        intro st2 fl2 cn2 hc2 cnt2 u2 en2 po2
        have hn2 : st2.nodes[n]? = some nd := (u2.untouched gKh (by simp)).trans h.get
        have hfR : ∀ x ∈ R, _ := fun x hx => frame (M := M) (ns := st.nodes) (ns' := st2.nodes) (k + 1) x fun j hj =>
          u2.untouched gKh (by
            rw [List.mem_cons, List.mem_flatMap]
            exact Or.inr ⟨x, hx, hj⟩)
        have eI : R.flatMap (sIds st2.nodes (k + 1)) = R.flatMap (sIds st.nodes (k + 1)) := flatMap_congr fun x hx => (hfR x hx).2.1
        have eE : R.flatMap (sEnts st2.nodes (k + 1)) = R.flatMap (sEnts st.nodes (k + 1)) := flatMap_congr fun x hx => (hfR x hx).1
        have eP : R.map (sPot M st2.nodes (k + 1)) = R.map (sPot M st.nodes (k + 1)) := List.map_congr_left fun x hx => (hfR x hx).2.2.1
        have u2' : Upd M st (nIds st.nodes (k + 1) n) fl st2 ((n :: R.flatMap (sIds st2.nodes (k + 1))) ++ nIds st2.nodes k c) fl2 := by
          rw [eI]
          refine uh.trans g ?_
          exact (u2.context (K := n :: R.flatMap (sIds st.nodes (k + 1)))).perm' pi'.symm (List.Perm.refl _)
        have g2 := u2'.good g
        have gg : Good M st2 (n :: (s :: R).flatMap (sIds st2.nodes (k + 1))) fl2 := g2.perm (by
          rw [List.flatMap_cons, sIds_succ, hcd, List.cons_append]
          exact List.Perm.cons _ List.perm_append_comm)
        obtain ⟨a1, a2, a3, a4, a5⟩ := assemble (nd' := nd) gg (by
          intro x hx
          rcases List.mem_cons.1 hx with rfl | hx
          · exact sOk_succ.2 ⟨c, cn2, hsc, hc2, cnt2, hcont.perm en2.symm⟩
          · exact (hfR x hx).2.2.2 (hRok x hx)) hn2 h.kind h.len h.cnt hperm
        rw [setNode_self hn2] at a1 a2 a3 a4 a5
        refine ⟨a1, ?_, ?_, ?_⟩
        · refine u2'.trans g (a5.perm' ?_ (List.Perm.refl _))
          rw [List.flatMap_cons, sIds_succ, hcd, List.cons_append]
          exact List.Perm.cons _ List.perm_append_comm
        · rw [List.flatMap_cons, sEnts_succ, hcd, eE] at a3
          exact a3.trans ((en2.append_right _).trans pe.symm)
        · rw [List.map_cons, List.sum_cons, sPot_succ, hcd, List.length_cons, eP] at a4
          rw [a4, pp]
          omega
      rcases nodeInsertM_ok hM cap r d f k { st with hint := hint } c (depth + 1) fl cn gKh.right hcn (Or.inr hcn1) (by omega) (by omega)
        with e2 | ⟨st2, fl2, cn2, e2, sp2, hc2, u2, en2, po2, cnt2⟩
      · rw [e2]
        obtain ⟨st2, split, fl2, cn2, e2, hc2, u2, en2, po2, sp2, cnt2⟩ := nodeInsert_ok hM r d f k { st with hint := hint } c (depth + 1)
          fl cn gKh.right hcn (Or.inr hcn1) (by omega) (by omega)
        rw [e2, ok_bind, up_ok, okM]
        simp only
        cases split with
        | false =>
          left
          simp only [Bool.false_eq_true, if_false]
          rw [up_bind]
          rfl
        | true =>
          simp only [if_true] at en2 po2 ⊢
          obtain ⟨b1, b2, b3, b4⟩ := kept st2 fl2 cn2 hc2 cnt2 u2 en2 po2
          rw [getNode_of b1.get, ok_bind, up_ok, okM]
          by_cases hfull : nd.count = M
          · left
            rw [if_pos hfull, if_pos hfull]
            rfl
          · rw [if_neg hfull, if_neg hfull]
            rcases splitChildM_cases cap M st2 n i with e3 | ⟨e3, sp3⟩
            · rw [e3, up_bind]
              obtain ⟨st3, fl3, nd3, e3, f1, u3, en3, po3, c3⟩ := splitChild_ok hM (b2.good g) b1 hi hfull hs hsc hc2 (sp2 rfl)
              rw [e3, up_ok, okM, okM]
              have u4 := b2.trans g u3
              rcases nodeInsertM_ok hM cap r d f (k + 1) st3 n depth fl3 nd3 (u4.good g) f1 (Or.inr (by omega)) hd (by have := h.cnt; omega)
                with e4 | ⟨st4, fl4, nd4, e4, sp4, f4, u5, en5, po5, c5⟩
              · exact Or.inl e4
              · exact Or.inr ⟨st4, fl4, nd4, e4, sp4, f4, u4.trans g u5, en5.trans (en3.trans b3), by omega, c5⟩
            · right
              rw [e3]
              exact ⟨st2, fl2, nd, rfl, sp3, b1, b2, b3, b4, hcnt⟩
      · right
        rw [e2]
        obtain ⟨b1, b2, b3, b4⟩ := kept st2 fl2 cn2 hc2 cnt2 u2 en2 po2
        exact ⟨st2, fl2, nd, rfl, sp2, b1, b2, b3, b4, hcnt⟩

/-- The tree after a step that kept the entries. -/
def Kept (M : Nat) (m : List (Ent N T D)) (B : Nat) (lost : List Nat) (st0 st : RT N T D) : Prop :=
  ∃ k root nd fl, TreeAt M lost st k root nd fl ∧ 1 ≤ nd.count ∧ (nEnts st.nodes k root).Perm m ∧
    nPot M st.nodes k root + geo (minItems M) k ≤ B ∧ st.count = st0.count ∧ st.rect = st0.rect

theorem insertLoopM_ok [NeZero D] {M : Nat} (hM : 3 ≤ M) (cap : Nat) (r : Rect N D) (d : T) (B : Nat) (hB : B < geo (minItems M) 17)
    {lost : List Nat} : ∀ (f : Nat) (st : RT N T D) (k root : Nat) (nd : Node N T D) (fl : List Nat),
      TreeAt M lost st k root nd fl → (k = 0 ∨ 1 ≤ nd.count) →
      nPot M st.nodes k root + geo (minItems M) k ≤ B → nPot M st.nodes k root < f →
      insertLoopM cap M r d f st = up (insertLoop M r d f st) ∨
      ∃ st' lost', insertLoopM cap M r d f st = .error (.oom st') ∧ Spent cap st' ∧
        (lost' = lost ∨ ∃ i, lost' = i :: lost) ∧ Kept M (nEnts st.nodes k root) B lost' st st'
  | 0, st, k, root, nd, fl, t, h0, h1, h2 => by omega
  | f + 1, st, k, root, nd, fl, t, h0, h1, h2 => by
    have hk : k ≤ 16 := by
      rcases Nat.lt_or_ge 16 k with h | h
      · have := geo_mono (minItems M) (show 17 ≤ k by omega)
        omega
      · exact h
    unfold insertLoopM insertLoop ensureRootM ensureRoot
    rw [t.root]
    simp only
    rw [ok_bind, okM]
    simp only
    rcases nodeInsertM_ok hM cap r d (st.height * (M + 2)) k st root 0 fl nd t.good t.ok h0
      (by omega) (by rw [t.height, Nat.add_mul, Nat.one_mul]; omega) with e2 | ⟨st2, fl2, nd2, e2, sp2, ok2, u2, en2, po2, c2⟩
    · rw [e2]
      obtain ⟨st2, split, fl2, nd2, e2, ok2, u2, en2, po2, sp2, c2⟩ := nodeInsert_ok hM r d (st.height * (M + 2)) k st root 0 fl nd t.good t.ok h0
        (by omega) (by rw [t.height, Nat.add_mul, Nat.one_mul]; omega)
      rw [e2, ok_bind, up_ok, okM]
      simp only
      have t2 : TreeAt M lost st2 k root nd2 fl2 := t.step u2 ok2 rfl rfl rfl (u2.same.1.trans t.root) (u2.same.2.2.2.trans t.height)
      cases split with
      | false => exact Or.inl rfl
      | true =>
        simp only [if_true] at en2 po2 ⊢
        rcases splitRootM_cases cap M st2 root with e3 | ⟨e3, sp3⟩ | ⟨st3, nr, e3, e4, sp3⟩
        · rw [e3, up_bind]
          obtain ⟨st3, nr, nd3, fl3, e3, t3, c3, en3, po3, ct3, rc3⟩ := splitRoot_ok hM t2 (sp2 rfl)
          rw [e3, up_ok, okM, okM]
          have hpos : 0 < minItems M ^ (k + 1) := Nat.pow_pos (minItems_bounds (M := M) (by omega)).1
          rcases insertLoopM_ok hM cap r d B hB f st3 (k + 1) nr nd3 fl3 t3 (Or.inr c3) (by rw [geo]; omega) (by omega)
            with e4 | ⟨st4, lost', e4, sp4, hl, k4, root4, nd4, fl4, t4, c4, en4, po4, ct4, rc4⟩
          · exact Or.inl e4
          · exact Or.inr ⟨st4, lost', e4, sp4, hl, k4, root4, nd4, fl4, t4, c4, en4.trans (en3.trans en2), po4,
              by rw [ct4, ct3, u2.same.2.2.1], by rw [rc4, rc3, u2.same.2.1]⟩
        · right
          rw [e3]
          exact ⟨st2, lost, rfl, sp3, Or.inl rfl, k, root, nd2, fl2, t2, c2, en2, by omega, u2.same.2.2.1, u2.same.2.1⟩
        · right
          rw [e4]
          obtain ⟨st3', nr', fl3, n0, e3', u3, hn0, nk, nc, nl, _⟩ := nodeNew_ok t2.all .branch
          rw [e3] at e3'
          injection e3' with e3'
          rw [Prod.mk.injEq] at e3'
          obtain ⟨rfl, rfl⟩ := e3'
          have same : ∀ x ∈ nIds st2.nodes k root, st3.nodes[x]? = st2.nodes[x]? := fun x hx =>
            u3.untouched (K := nIds st2.nodes k root) (by rw [List.append_nil]; exact t2.good) hx
          obtain ⟨fe, fi, fp, fo⟩ := nframe (M := M) same
          have u3' : Upd M st2 (lost ++ nIds st2.nodes k root) fl2 st3 ((nr :: lost) ++ nIds st3.nodes k root) fl3 := by
            have := u3.context (K := lost ++ nIds st2.nodes k root)
            rw [List.append_nil] at this
            rw [fi]
            exact this.perm' (List.Perm.refl _) List.perm_append_comm
          refine ⟨st3, nr :: lost, rfl, sp3, Or.inr ⟨nr, rfl⟩, k, root, nd2, fl3,
            ⟨u3'.good t2.all, u3'.full t2.full, fo nd2 t2.ok, u3.same.1.trans t2.root, u3.same.2.2.2.trans t2.height⟩, c2, ?_, ?_, ?_, ?_⟩
          · rw [fe]; exact en2
          · rw [fp]; omega
          · rw [u3.same.2.2.1, u2.same.2.2.1]
          · rw [u3.same.2.1, u2.same.2.1]
    · right
      rw [e2]
      exact ⟨st2, lost, rfl, sp2, Or.inl rfl, k, root, nd2, fl2,
        t.step u2 ok2 rfl rfl rfl (u2.same.1.trans t.root) (u2.same.2.2.2.trans t.height), c2, en2, by omega, u2.same.2.2.1, u2.same.2.1⟩

theorem insertM_ok [NeZero D] {M : Nat} (hM : 3 ≤ M) {B : Nat} (hB : B < geo (minItems M) 17) {lost : List Nat} {st : RT N T D}
    {m : List (Ent N T D)} (h : RepL M B lost st m) (room : Nat) (r : Rect N D) (d : T) :
    insertM room M st r d = up (insert M st r d) ∨
    ∃ st' lost', insertM room M st r d = .error (.oom st') ∧ Spent (st.nodes.length + room) st' ∧
      (lost' = lost ∨ ∃ i, lost' = i :: lost) ∧ RepL M B lost' st' m ∧ st'.count = st.count ∧ st'.rect = st.rect := by
  unfold insertM insert
  rcases h with ⟨h1, h2, h3, h4, fl, h5, h6⟩ | ⟨k, root, nd, fl, h1, h2, h3, h4, h5, h6⟩
  · subst h4
    generalize st.nodes.length + room = cap
    rcases nodeNewM_cases cap M st .leaf with e0 | ⟨e0, sp⟩
    · left
      obtain ⟨st1, j, fl1, n, e1, u1, hj, hjk, hjc, hjs, hjh⟩ := nodeNew_ok h5 .leaf
      rw [e1] at e0
      have hlv : liveAt st1.nodes j = [] := by rw [liveAt_of hj]; unfold live; rw [hjc]; rfl
      generalize st.nodes.length * minItems M ^ st.height + 1 = F
      unfold insertLoopM insertLoop ensureRootM ensureRoot
      rw [h1]
      simp only
      rw [e0, e1, ok_bind, up_ok, okM, okM, ok_bind]
      simp only
      rw [Nat.one_mul]
      unfold nodeInsertM nodeInsert
      rw [getNode_of (st := { st1 with root := some j, rect := r, height := 1 }) hj, ok_bind, up_ok, okM, if_pos hjk, if_pos hjk,
        if_neg (by omega), if_neg (by omega)]
      obtain ⟨nd1, e, k1, l1, c1, lv⟩ := appendSlot_ok (n := n) (r, .item d) (by omega)
      rw [e]
      rfl
    · right
      unfold insertLoopM ensureRootM
      rw [h1]
      simp only
      rw [e0]
      exact ⟨st, lost, rfl, sp, Or.inl rfl, Or.inl ⟨h1, h2, h3, rfl, fl, h5, h6⟩, rfl, rfl⟩
  · have hids : (nIds st.nodes k root).length ≤ st.nodes.length := by
      have := h1.full.length_eq
      rw [List.length_append, List.length_append, List.length_range] at this
      omega
    have hp := nPot_le (by omega) k root nd h1.ok
    have hp2 := Nat.mul_le_mul_right (minItems M ^ (k + 1)) hids
    rcases insertLoopM_ok hM (st.nodes.length + room) r d B hB (st.nodes.length * minItems M ^ st.height + 2)
      st k root nd fl h1 (Or.inr h2) h5 (by rw [h1.height]; omega) with e | ⟨st', lost', e, sp, hl, k', root', nd', fl', q1, q2, q3, q4, q5, q6⟩
    · exact Or.inl e
    · exact Or.inr ⟨st', lost', e, sp, hl, Or.inr ⟨k', root', nd', fl', q1, q2, by rw [q5, h3], q3.trans h4, q4, by rw [q6]; exact h6⟩, q5, q6⟩

end

/-! ## What an insertion that fails may do -/

/-- Operations, among them insertions during which there is memory for at most `room` more nodes. -/
inductive OpM (N T : Type) (D : Nat)
  | op (o : Op N T D)
  | insert (room : Nat) (r : Rect N D) (d : T)

/-- What a caller sees: the result of an operation, or `std::bad_alloc`. -/
inductive OutM (N T : Type) (D : Nat)
  | out (o : Out N T D)
  | failed

/-- A multiset of entries changes as by operations that have all the memory they want, except that an insertion may fail without changing it. -/
inductive StepM : List (Ent N T D) → OpM N T D → OutM N T D → List (Ent N T D) → Prop
  | op {m o out m'} (h : Step m o out m') : StepM m (.op o) (.out out) m'
  | insert (m room r d) : StepM m (.insert room r d) (.out .none) ((r, d) :: m)
  | failed (m room r d) : StepM m (.insert room r d) .failed m

inductive StepsM : List (Ent N T D) → List (OpM N T D) → List (OutM N T D) → List (Ent N T D) → Prop
  | nil (m) : StepsM m [] [] m
  | cons {m op o m1 ops os m2} (h1 : StepM m op o m1) (h2 : StepsM m1 ops os m2) : StepsM m (op :: ops) (o :: os) m2

/-! ## Running the model -/

def OpM.exec [NeZero D] [DecidableEq T] (M : Nat) (st : RT N T D) : OpM N T D → Res (RT N T D × OutM N T D)
  | .op o => do
    let (st', out) ← o.exec M st
    .ok (st', .out out)
  | .insert room r d =>
    match insertM room M st r d with
    | .ok st' => .ok (st', .out .none)
    | .error (.oom st') => .ok (st', .failed)
    | .error (.err e) => .error e

def runM [NeZero D] [DecidableEq T] (M : Nat) : RT N T D → List (OpM N T D) → Res (RT N T D × List (OutM N T D))
  | st, [] => .ok (st, [])
  | st, op :: ops => do
    let (st1, o) ← op.exec M st
    let (st2, os) ← runM M st1 ops
    .ok (st2, o :: os)

/-- Insertions tried. -/
def tried : List (OpM N T D) → Nat
  | [] => 0
  | .op o :: ops => inserts [o] + tried ops
  | .insert _ _ _ :: ops => 1 + tried ops

/-- Insertions that failed. -/
def failures : List (OutM N T D) → Nat
  | [] => 0
  | .out _ :: os => failures os
  | .failed :: os => failures os + 1

theorem tried_cons (op : OpM N T D) (ops : List (OpM N T D)) : tried (op :: ops) = tried [op] + tried ops := by
  cases op <;> simp [tried]

theorem failures_cons (o : OutM N T D) (os : List (OutM N T D)) : failures (o :: os) = failures [o] + failures os := by
  cases o <;> simp [failures]; omega

section
local instance memMode : Mode := ⟨False⟩

theorem execM_ok [NeZero D] [DecidableEq T] {M : Nat} (hM : 3 ≤ M) {B : Nat} (hB : B < geo (minItems M) 17) {lost : List Nat} {st : RT N T D}
    {m : List (Ent N T D)} (h : RepL M B lost st m) (op : OpM N T D) :
    ∃ st' o m' lost', op.exec M st = .ok (st', o) ∧ StepM m op o m' ∧ RepL M (B + tried [op]) lost' st' m' ∧ (∀ i ∈ lost, i ∈ lost') ∧
      lost'.length ≤ lost.length + failures [o] := by
  cases op with
  | op o =>
    obtain ⟨st', out, m', h1, h2, h3⟩ := exec_ok hM hB h o (fun h => False.elim h) (fun h => False.elim h)
    exact ⟨st', .out out, m', lost, by simp only [OpM.exec, h1, ok_bind], .op h2, h3, fun _ h => h, Nat.le_add_right _ _⟩
  | insert room r d =>
    rcases insertM_ok hM hB h room r d with e | ⟨st', lost', e, _, hl, hr, _, _⟩
    · obtain ⟨st', h1, h2⟩ := insert_ok hM hB h r d
      rw [h1] at e
      exact ⟨st', .out .none, _, lost, by simp only [OpM.exec, e, up], .insert m room r d, h2, fun _ h => h, Nat.le_add_right _ _⟩
    · refine ⟨st', .failed, m, lost', by simp only [OpM.exec, e], .failed m room r d, ?_, ?_, ?_⟩
      · rcases hr with h | ⟨k, root, nd, fl, h1, h2, h3, h4, h5, h6⟩
        · exact Or.inl h
        · exact Or.inr ⟨k, root, nd, fl, h1, h2, h3, h4, by omega, h6⟩
      · rcases hl with rfl | ⟨i, rfl⟩
        · exact fun _ h => h
        · exact fun _ h => List.mem_cons_of_mem _ h
      · rcases hl with rfl | ⟨i, rfl⟩
        · exact Nat.le_add_right _ _
        · exact Nat.le_refl _

theorem runM_ok [NeZero D] [DecidableEq T] {M : Nat} (hM : 3 ≤ M) : ∀ (ops : List (OpM N T D)) {B : Nat} {lost : List Nat} {st : RT N T D}
    {m : List (Ent N T D)}, B + tried ops < geo (minItems M) 17 → RepL M B lost st m →
    ∃ st' os m' lost', runM M st ops = .ok (st', os) ∧ StepsM m ops os m' ∧ RepL M (B + tried ops) lost' st' m' ∧ (∀ i ∈ lost, i ∈ lost') ∧
      lost'.length ≤ lost.length + failures os
  | [], B, lost, st, m, _, h => ⟨st, [], m, lost, rfl, .nil m, h, fun _ h => h, Nat.le_refl _⟩
  | op :: ops, B, lost, st, m, hB, h => by
    rw [tried_cons] at hB
    obtain ⟨st1, o, m1, lost1, h1, h2, h3, h4, h5⟩ := execM_ok hM (by omega) h op
    obtain ⟨st2, os, m2, lost2, q1, q2, q3, q4, q5⟩ := runM_ok hM ops (by omega) h3
    refine ⟨st2, o :: os, m2, lost2, ?_, .cons h2 q2, by rw [tried_cons, ← Nat.add_assoc]; exact q3, fun i hi => q4 i (h4 i hi), ?_⟩
    · unfold runM
      rw [h1, ok_bind]
      simp only
      rw [q1, ok_bind]
    · rw [failures_cons]; omega

/-- Where the nodes of a tree are. -/
theorem RepL.parts {M B : Nat} {lost : List Nat} {st : RT N T D} {m : List (Ent N T D)} (h : RepL M B lost st m) :
    st.count = m.length ∧ lost.Nodup ∧
    (∀ i, i < st.nodes.length ↔ (∃ root, st.root = some root ∧ Reach st.nodes root i) ∨ OnFree st i ∨ i ∈ lost) ∧
    ∀ i ∈ lost, ¬OnFree st i ∧ ∀ root, st.root = some root → ¬Reach st.nodes root i := by
  have hfree : ∀ {fl : List Nat} {I : List Nat}, Good M st I fl → ∀ i, OnFree st i ↔ i ∈ fl := by
    intro fl I g i
    refine ⟨fun hi => ?_, fun hi => free_onFree _ _ g.world.free (fun i hi => .head hi) i hi⟩
    have hm := free_mem fl _ g.world.free
    induction hi with
    | head h => exact hm.1 _ h
    | next _ hn hk ih => exact hm.2 _ ih _ hn hk
  rcases h with ⟨r1, r2, r3, r4, fl, r5, r6⟩ | ⟨k, root, nd, fl, r1, r2, r3, r4, r5, r6⟩
  · have hnd := r5.nodup
    rw [List.nodup_append] at hnd
    refine ⟨by rw [r2, r4]; rfl, hnd.1, fun i => ?_, fun i hi => ⟨fun hf => ?_, fun root hr => by rw [r1] at hr; cases hr⟩⟩
    · have := r6.mem_iff (a := i)
      rw [List.mem_append, List.mem_range] at this
      rw [← this, hfree r5]
      constructor
      · rintro (h | h)
        · exact Or.inr (Or.inr h)
        · exact Or.inr (Or.inl h)
      · rintro (⟨root, hr, _⟩ | h | h)
        · rw [r1] at hr; cases hr
        · exact Or.inr h
        · exact Or.inl h
    · exact hnd.2.2 i hi i ((hfree r5 i).1 hf) rfl
  · have hnd := r1.all.nodup
    rw [List.nodup_append, List.nodup_append] at hnd
    have hreach : ∀ i, Reach st.nodes root i ↔ i ∈ nIds st.nodes k root := fun i => by
      refine ⟨fun h => ?_, ids_reach k root nd r1.ok i⟩
      obtain ⟨_, _, _, h, _⟩ := reach_level r1.ok h
      exact h
    refine ⟨r3, hnd.1.1, fun i => ?_, fun i hi => ⟨fun hf => ?_, fun root' hr => ?_⟩⟩
    · have := r1.full.mem_iff (a := i)
      rw [List.mem_append, List.mem_append, List.mem_range] at this
      rw [← this, hfree r1.all]
      constructor
      · rintro ((h | h) | h)
        · exact Or.inr (Or.inr h)
        · exact Or.inl ⟨root, r1.root, (hreach i).2 h⟩
        · exact Or.inr (Or.inl h)
      · rintro (⟨root', hr, h⟩ | h | h)
        · rw [r1.root] at hr; injection hr with hr; subst hr
          exact Or.inl (Or.inr ((hreach i).1 h))
        · exact Or.inr h
        · exact Or.inl (Or.inl h)
    · exact hnd.2.2 i (by simp [hi]) i ((hfree r1.all i).1 hf) rfl
    · rw [r1.root] at hr; injection hr with hr; subst hr
      intro hr'
      exact hnd.1.2.2 i hi i ((hreach i).1 hr') rfl

/-! ## Claims -/

/-- **C138** Every history in which insertions run out of memory, with fewer than `limit M` insertions tried, runs without undefined behaviour and
without hanging, and its outputs are those of a multiset of entries that failed insertions do not change. -/
theorem C138_history_partial [NeZero D] [DecidableEq T] {M : Nat} (hM : 3 ≤ M) (ops : List (OpM N T D)) (hn : tried ops < limit M) :
    ∃ st os m, runM M (RT.init : RT N T D) ops = .ok (st, os) ∧ StepsM [] ops os m ∧ st.count = m.length := by
  rw [limit_eq] at hn
  obtain ⟨st, os, m, lost, h1, h2, h3, _⟩ := runM_ok hM ops (B := 0) (by omega) (Rep.init M)
  exact ⟨st, os, m, h1, h2, h3.parts.1⟩

/-- **C138** An insertion after such a history either does what it would do with unlimited memory, or fails; then no node is free and all the memory
there was is used, the count and the rectangle of the tree are as before, and every search finds what it found before. -/
theorem C138_failure_partial [NeZero D] [DecidableEq T] {M : Nat} (hM : 3 ≤ M) (ops : List (OpM N T D)) (hn : tried ops < limit M)
    (room : Nat) (r : Rect N D) (d : T) :
    ∃ st os, runM M (RT.init : RT N T D) ops = .ok (st, os) ∧
      ((∃ st', insertM room M st r d = .ok st' ∧ insert M st r d = .ok st') ∨
       ∃ st', insertM room M st r d = .error (.oom st') ∧ st'.free = none ∧ st.nodes.length + room ≤ st'.nodes.length ∧
        st'.count = st.count ∧ st'.rect = st.rect ∧
        ∀ q, ∃ a b, search st q (fun _ _ => true) = .ok a ∧ search st' q (fun _ _ => true) = .ok b ∧ a.Perm b) := by
  rw [limit_eq] at hn
  obtain ⟨st, os, m, lost, h1, h2, h3, _⟩ := runM_ok hM ops (B := 0) (by omega) (Rep.init M)
  refine ⟨st, os, h1, ?_⟩
  rcases insertM_ok hM (by omega) h3 room r d with e | ⟨st', lost', e, sp, hl, hr, q1, q2⟩
  · left
    obtain ⟨st', g1, g2⟩ := insert_ok hM (by omega) h3 r d
    rw [g1] at e
    exact ⟨st', e, g1⟩
  · right
    refine ⟨st', e, sp.1, sp.2, q1, q2, fun q => ?_⟩
    have all : ∀ L acc : List (Ent N T D), (stopFold (fun _ _ => true) acc L).1 = acc ++ L := by
      intro L
      induction L with
      | nil => intro acc; simp [stopFold]
      | cons x L ih => intro acc; unfold stopFold; rw [if_pos rfl, ih]; simp
    obtain ⟨L, p1, p2⟩ := search_ok h3
    obtain ⟨L', p3, p4⟩ := search_ok hr
    refine ⟨_, _, p2 q _, p4 q _, ?_⟩
    rw [all, all, List.nil_append, List.nil_append]
    exact (p1.trans p3.symm).filter _

/-- **C138** After such a history every node is in the tree, free or lost, and at most one node is lost for every insertion that failed. -/
theorem C138_nodes_partial [NeZero D] [DecidableEq T] {M : Nat} (hM : 3 ≤ M) (ops : List (OpM N T D)) (hn : tried ops < limit M) :
    ∃ (st : RT N T D) (os : List (OutM N T D)) (lost : List Nat), runM M (RT.init : RT N T D) ops = .ok (st, os) ∧ lost.length ≤ failures os ∧
      ∀ i, i < st.nodes.length ↔ (∃ root, st.root = some root ∧ Reach st.nodes root i) ∨ OnFree st i ∨ i ∈ lost := by
  rw [limit_eq] at hn
  obtain ⟨st, os, m, lost, h1, h2, h3, _, h5⟩ := runM_ok hM ops (B := 0) (by omega) (Rep.init M)
  exact ⟨st, os, lost, h1, by simpa using h5, h3.parts.2.2.1⟩

/-! ## A lost node -/

/-- A tree that is a single leaf. -/
structure Single (M c : Nat) (st : RT N T D) : Prop where
  nodes : ∃ nd : Node N T D, st.nodes = [nd] ∧ nd.kind = .leaf ∧ nd.count = c ∧ nd.slots.length = M
  root : st.root = some 0
  free : st.free = none
  height : st.height = 1

theorem Single.insert [NeZero D] {M c : Nat} {st : RT N T D} (h : Single M c st) (hc : c < M) (r : Rect N D) (d : T) :
    ∃ st', RTree.insert M st r d = .ok st' ∧ Single M (c + 1) st' := by
  obtain ⟨⟨nd, h1, h2, h3, h4⟩, h5, h6, h7⟩ := h
  have hg : getNode st 0 = .ok nd := getNode_of (by rw [h1]; rfl)
  unfold RTree.insert insertLoop ensureRoot
  rw [h5]
  simp only
  rw [ok_bind, h7, Nat.one_mul]
  simp only
  unfold nodeInsert
  rw [hg, ok_bind, if_pos h2, if_neg (by omega), appendSlot, if_pos (by omega), ok_bind, ok_bind]
  simp only [Bool.false_eq_true, if_false]
  refine ⟨_, rfl, ⟨{ nd with slots := nd.slots.set nd.count (r, .item d), count := nd.count + 1 }, ?_, h2, ?_, ?_⟩, h5, h6, h7⟩
  · show st.nodes.set 0 _ = _
    rw [h1]; rfl
  · show nd.count + 1 = _
    rw [h3]
  · show (nd.slots.set _ _).length = M
    rw [List.length_set, h4]

theorem Single.first [NeZero D] {M : Nat} (hM : 1 ≤ M) (r : Rect N D) (d : T) :
    ∃ st', RTree.insert M (RT.init : RT N T D) r d = .ok st' ∧ Single M 1 st' := by
  unfold RTree.insert insertLoop ensureRoot nodeNew
  simp only [RT.init]
  rw [ok_bind]
  simp only
  rw [ok_bind]
  simp only [Nat.one_mul]
  unfold nodeInsert
  rw [getNode_of (n := zeroNode M .leaf) rfl, ok_bind, if_pos (show (zeroNode M .leaf : Node N T D).kind = .leaf from rfl),
    if_neg (show ¬(zeroNode M .leaf : Node N T D).count = M by show ¬(0 = M); omega), appendSlot,
    if_pos (by show 0 < (List.replicate M _).length; rw [List.length_replicate]; omega), ok_bind, ok_bind]
  simp only [Bool.false_eq_true, if_false]
  exact ⟨_, rfl, ⟨_, rfl, rfl, rfl, by show ((List.replicate M _).set _ _).length = M; simp⟩, rfl, rfl, rfl⟩

theorem Single.run [NeZero D] [DecidableEq T] {M : Nat} : ∀ (es : List (Ent N T D)) {c : Nat} {st : RT N T D}, Single M c st → c + es.length ≤ M →
    ∃ st' os, run M st (es.map fun e => .insert e.1 e.2) = .ok (st', os) ∧ Single M (c + es.length) st'
  | [], c, st, h, _ => ⟨st, [], rfl, h⟩
  | e :: es, c, st, h, hc => by
    rw [List.length_cons] at hc
    obtain ⟨st1, h1, h2⟩ := h.insert (by omega) e.1 e.2
    obtain ⟨st2, os, h3, h4⟩ := Single.run es h2 (by omega)
    refine ⟨st2, .none :: os, ?_, by rw [List.length_cons, show c + (es.length + 1) = c + 1 + es.length by omega]; exact h4⟩
    rw [List.map_cons]
    unfold RTree.run
    simp only [Op.exec, h1, ok_bind, h3]

/-- With memory for one more node, an insertion into a full leaf takes the node for the new root and fails. -/
theorem Single.fail [NeZero D] {M : Nat} {st : RT N T D} (h : Single M M st) (r : Rect N D) (d : T) :
    ∃ st', insertM 1 M st r d = .error (.oom st') ∧ st'.nodes.length = 2 ∧ st'.root = some 0 ∧ st'.free = none ∧ ¬Reach st'.nodes 0 1 := by
  obtain ⟨⟨nd, h1, h2, h3, h4⟩, h5, h6, h7⟩ := h
  have hg : getNode st 0 = .ok nd := getNode_of (by rw [h1]; rfl)
  unfold insertM insertLoopM ensureRootM
  rw [h5]
  simp only
  rw [okM]
  simp only
  rw [h7, Nat.one_mul]
  unfold nodeInsertM
  rw [hg, up_ok, okM, if_pos h2, if_pos h3, okM]
  simp only [if_true]
  have hnew : nodeNewM (st.nodes.length + 1) M st .branch =
      .ok ({ st with nodes := st.nodes ++ [zeroNode M .branch] }, st.nodes.length) := by
    unfold nodeNewM nodeNew
    rw [h6]
    simp only
    rw [if_neg (by omega)]
    rfl
  unfold splitRootM
  rw [hnew, okM]
  simp only
  have hg' : getNode ({ st with nodes := st.nodes ++ [zeroNode M .branch] } : RT N T D) 0 = .ok nd :=
    getNode_of (by show (st.nodes ++ _)[0]? = _; rw [h1]; rfl)
  unfold nodeSplitM
  rw [hg', up_ok, okM]
  have hnew2 : nodeNewM (st.nodes.length + 1) M ({ st with nodes := st.nodes ++ [zeroNode M .branch] } : RT N T D) nd.kind =
      .error (.oom { st with nodes := st.nodes ++ [zeroNode M .branch] }) := by
    unfold nodeNewM
    show (match st.free with
      | none => _
      | some _ => _) = _
    rw [h6]
    simp only
    exact if_pos (by rw [List.length_append]; exact Nat.le_refl _)
  rw [hnew2, errM, errM, errM]
  refine ⟨_, rfl, by show (st.nodes ++ _).length = 2; rw [h1]; rfl, h5, h6, fun hr => ?_⟩
  have key : ∀ j, Reach (st.nodes ++ [zeroNode M .branch]) 0 j → j = 0 := by
    intro j hj
    induction hj with
    | self => rfl
    | child _ hn hk _ _ _ ih =>
      subst ih
      rw [h1] at hn
      injection hn with hn
      rw [← hn, h2] at hk
      cases hk
  exact absurd (key 1 hr) (by decide)

/-- **C138** A node can be lost: for every capacity and whatever the entries, if there is memory for one more node when an insertion finds a single full
leaf, then the insertion takes that node and fails, and the node is neither in the tree nor free, ever again. -/
theorem C138_node_lost_violated [NeZero D] [DecidableEq T] {M : Nat} (hM : 3 ≤ M) (es : List (Ent N T D)) (hl : es.length = M) (r : Rect N D) (d : T) :
    ∃ st os st1, run M (RT.init : RT N T D) (es.map fun e => .insert e.1 e.2) = .ok (st, os) ∧ insertM 1 M st r d = .error (.oom st1) ∧
      ∀ ops : List (OpM N T D), M + tried ops < limit M → ∃ st' os' m', runM M st1 ops = .ok (st', os') ∧ StepsM es.reverse ops os' m' ∧
        1 < st'.nodes.length ∧ ¬OnFree st' 1 ∧ ∀ root, st'.root = some root → ¬Reach st'.nodes root 1 := by
  have hinit : ∀ L : List (Ent N T D), inserts (L.map fun e => Op.insert e.1 e.2) = L.length := by
    intro L
    induction L with
    | nil => rfl
    | cons e L ih => rw [List.map_cons, inserts_cons, ih, List.length_cons]; exact Nat.add_comm 1 _
  have hsteps : ∀ (L m : List (Ent N T D)) (os : List (Out N T D)) (m' : List (Ent N T D)),
      Steps m (L.map fun e => Op.insert e.1 e.2) os m' → m' = L.reverse ++ m := by
    intro L
    induction L with
    | nil => intro m os m' h; cases h; rfl
    | cons e L ih =>
      intro m os m' h
      cases h with
      | cons h1 h2 =>
        cases h1
        rw [ih _ _ _ h2]; simp
  have hlim : M < geo (minItems M) 17 := by
    have h4 : M < 10 * minItems M := by unfold minItems; omega
    generalize minItems M = k at h4
    rcases Nat.lt_or_ge k 2 with h | h
    · have : geo 0 17 = 0 ∧ geo 1 17 = 17 := by decide
      obtain rfl | rfl : k = 0 ∨ k = 1 := by omega
      · omega
      · omega
    · have h5 := geo_mono k (show 4 ≤ 17 by omega)
      simp only [geo, Nat.pow_succ, Nat.pow_zero, Nat.one_mul, Nat.zero_add] at h5
      have h6 : 2 * k ≤ k * k := Nat.mul_le_mul_right k h
      have h7 : 2 * k * k ≤ k * k * k := Nat.mul_le_mul_right k h6
      have h8 : 2 * k * k * k ≤ k * k * k * k := Nat.mul_le_mul_right k h7
      rw [Nat.mul_assoc 2] at h7
      rw [Nat.mul_assoc 2, Nat.mul_assoc 2] at h8
      simp only [geo, Nat.pow_succ, Nat.pow_zero, Nat.one_mul, Nat.zero_add]
      omega
  obtain ⟨st, os, m, e1, s1, r1⟩ := run_ok hM (es.map fun e => Op.insert e.1 e.2) (B := 0) (by rw [hinit, hl]; omega) (Rep.init M)
    (fun h => False.elim h) (fun h => False.elim h)
  have hm : m = es.reverse := by rw [hsteps _ _ _ _ s1, List.append_nil]
  subst hm
  rw [hinit, hl, Nat.zero_add] at r1
  have hsing : Single M M st := by
    cases es with
    | nil => simp at hl; omega
    | cons e es =>
      obtain ⟨st0, q1, q2⟩ := Single.first (M := M) (by omega) e.1 e.2
      obtain ⟨st', os', q3, q4⟩ := Single.run es q2 (by rw [List.length_cons] at hl; omega)
      rw [List.map_cons] at e1
      unfold run at e1
      simp only [Op.exec, q1, ok_bind, q3] at e1
      injection e1 with e1
      rw [Prod.mk.injEq] at e1
      rw [List.length_cons, Nat.add_comm] at hl
      rw [hl] at q4
      rw [← e1.1]
      exact q4
  obtain ⟨st1, f1, f2, f3, f4, f5⟩ := hsing.fail r d
  refine ⟨st, os, st1, e1, f1, fun ops hn => ?_⟩
  rw [limit_eq] at hn
  rcases insertM_ok hM (by omega) r1 1 r d with e | ⟨st1', lost', e, sp, hl', hr, _, _⟩
  · obtain ⟨st', g1, _⟩ := insert_ok hM (by omega) r1 r d
    rw [f1, g1] at e
    cases e
  · rw [f1] at e
    injection e with e
    injection e with e
    subst e
    have hin : 1 ∈ lost' := by
      rcases (hr.parts.2.2.1 1).1 (by omega) with ⟨root, h1, h2⟩ | h | h
      · rw [f3] at h1; injection h1 with h1; subst h1
        exact absurd h2 f5
      · exfalso
        have : ∀ i, ¬OnFree st1 i := by
          intro i hi
          induction hi with
          | head h => rw [f4] at h; cases h
          | next _ _ _ ih => exact ih
        exact this 1 h
      · exact h
    obtain ⟨st', os', m', lost2, g1, g2, g3, g4, _⟩ := runM_ok hM ops hn hr
    have hp := g3.parts
    exact ⟨st', os', m', g1, g2, (hp.2.2.1 1).2 (Or.inr (Or.inr (g4 1 hin))), hp.2.2.2 1 (g4 1 hin)⟩

/-! ## Examples -/

/-- Twelve entries, then a search; there is memory for `room` nodes in each insertion. -/
def scarceOps (room : Nat) : List (OpM Nat Nat 1) :=
  (List.range 12).map (fun i => .insert room (box i i) i) ++ [.op (.search (box 0 20) fun _ _ => true)]

/-- Failures, the count, the number of nodes and the height. -/
def scarce (ops : List (OpM Nat Nat 1)) : Option (Nat × Nat × Nat × Nat) :=
  match runM 3 (RT.init : RT Nat Nat 1) ops with
  | .ok (st, os) => some (failures os, st.count, st.nodes.length, st.height)
  | .error _ => none

/-- The hypotheses of the claims. -/
example : tried (scarceOps 1) < limit 3 := by decide +kernel


/-- With memory for nine nodes nothing fails; with two nodes for each insertion one fails; with one node for each insertion all but three fail and lose
a node each; with none all fail. -/
example : scarce (scarceOps 9) = some (0, 12, 10, 3) ∧ scarce (scarceOps 2) = some (1, 11, 10, 3) ∧
    scarce (scarceOps 1) = some (9, 3, 10, 1) ∧ scarce (scarceOps 0) = some (12, 0, 0, 0) := by decide +kernel

/-- `C138_node_lost_violated`: three entries fill a leaf of capacity three. -/
example : ([(box 0 0, 0), (box 1 1, 1), (box 2 2, 2)] : List (Ent Nat Nat 1)).length = 3 := rfl

end

end Cista.RTree
