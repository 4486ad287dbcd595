import Verif.RTree.Inv

/-!
# R-tree: insertion
-/
set_option linter.unusedSimpArgs false
set_option linter.unusedSectionVars false

namespace Cista.RTree
open Coord

variable {N T : Type} [Coord N] {D : Nat} [Mode]

theorem via_perm {M : Nat} {ns : List (Node N T D)} {k i : Nat} {n : Node N T D} {L : List (Slot N T D)} (hg : ns[i]? = some n)
    (hp : (live n).Perm L) : (nIds ns k i).Perm (i :: L.flatMap (sIds ns k)) ∧ (nEnts ns k i).Perm (L.flatMap (sEnts ns k)) ∧
      nPot M ns k i = (L.length - (M - minItems M)) * minItems M ^ k + (L.map (sPot M ns k)).sum := by
  unfold nIds nEnts nPot
  rw [liveAt_of hg]
  exact ⟨(hp.flatMap_right _).cons _, hp.flatMap_right _, by rw [hp.length_eq, sum_perm _ hp]⟩

/-- Replacing the contents of a branch by well formed slots. -/
theorem assemble {M : Nat} {st : RT N T D} {k n : Nat} {nd nd' : Node N T D} {L : List (Slot N T D)} {fl : List Nat}
    (g : Good M st (n :: L.flatMap (sIds st.nodes k)) fl) (hL : ∀ s ∈ L, sOk M st.nodes k s)
    (hget : st.nodes[n]? = some nd) (hk : nd'.kind = kindOf k) (hl : nd'.slots.length = M) (hc : nd'.count ≤ M)
    (hp : (live nd').Perm L) :
    NOk M (setNode st n nd').nodes k n nd' ∧ (nIds (setNode st n nd').nodes k n).Perm (n :: L.flatMap (sIds st.nodes k)) ∧
      (nEnts (setNode st n nd').nodes k n).Perm (L.flatMap (sEnts st.nodes k)) ∧
      nPot M (setNode st n nd').nodes k n = (L.length - (M - minItems M)) * minItems M ^ k + (L.map (sPot M st.nodes k)).sum ∧
      Upd M st (n :: L.flatMap (sIds st.nodes k)) fl (setNode st n nd') (nIds (setNode st n nd').nodes k n) fl := by
  have hnl : n < st.nodes.length := (List.getElem?_eq_some_iff.1 hget).1
  have hget' : (setNode st n nd').nodes[n]? = some nd' := List.getElem?_set_self hnl
  have hnot : n ∉ L.flatMap (sIds st.nodes k) := by
    have := g.nodup
    rw [List.nodup_append] at this
    exact (List.nodup_cons.1 this.1).1
  have hfr : ∀ s ∈ L, _ := fun s hs => frame (M := M) (ns := st.nodes) (ns' := (setNode st n nd').nodes) k s fun j hj => by
    show (st.nodes.set n nd')[j]? = _
    rw [List.getElem?_set_ne]
    rintro rfl
    exact hnot (List.mem_flatMap.2 ⟨s, hs, hj⟩)
  obtain ⟨v1, v2, v3⟩ := via_perm (M := M) (k := k) hget' hp
  rw [flatMap_congr fun s hs => (hfr s hs).2.1] at v1
  rw [flatMap_congr fun s hs => (hfr s hs).1] at v2
  rw [List.map_congr_left fun s hs => (hfr s hs).2.2.1] at v3
  refine ⟨⟨hget', hk, hl, hc, fun s hs => ?_⟩, v1, v2, v3, (Upd.set g (by simp) hl).perm' (List.Perm.refl _) v1.symm⟩
  exact (hfr s (hp.mem_iff.1 hs)).2.2.2 (hL s (hp.mem_iff.1 hs))

theorem setNode_self {st : RT N T D} {n : Nat} {nd : Node N T D} (h : st.nodes[n]? = some nd) : setNode st n nd = st := by
  unfold setNode
  obtain ⟨hl, h⟩ := List.getElem?_eq_some_iff.1 h
  rw [← h, List.set_getElem_self]

/-- A chosen child and the rest of a branch. -/
theorem NOk.pick {M : Nat} {ns : List (Node N T D)} {k n : Nat} {nd : Node N T D} (h : NOk M ns (k + 1) n nd) {i : Nat}
    (hi : i < nd.count) : ∃ s c cn R, nd.slots[i]? = some s ∧ s.2 = .child c ∧ NOk M ns k c cn ∧ 1 ≤ cn.count ∧
      Bd s.1 (nEnts ns k c) ∧ (live nd).Perm (s :: R) ∧ (∀ x ∈ R, sOk M ns (k + 1) x) ∧
      (∀ s', (live { nd with slots := nd.slots.set i s' }).Perm (s' :: R)) := by
  have hil : i < nd.slots.length := by have := h.len; have := h.cnt; omega
  have hs : nd.slots[i]? = some nd.slots[i] := List.getElem?_eq_getElem hil
  have hlive : (live nd)[i]? = some nd.slots[i] := by rw [live_get hi]; exact hs
  have hp := Paged.getElem?_perm hlive
  obtain ⟨c, cn, h1, h2, h3, h4⟩ := sOk_succ.1 (h.slots _ (List.mem_of_getElem? hlive))
  refine ⟨_, c, cn, _, hs, h1, h2, h3, h4, hp, fun x hx => h.slots x (hp.mem_iff.2 (by simp [hx])), fun s' => ?_⟩
  show ((nd.slots.set i s').take nd.count).Perm _
  rw [List.take_set]
  exact Paged.set_perm (l := live nd) (by rw [h.live_length]; exact hi) s'

theorem sEnts_pos {M : Nat} {ns : List (Node N T D)} : ∀ (k : Nat) (s : Slot N T D), sOk M ns k s → 1 ≤ (sEnts ns k s).length
  | 0, s, h => by
    obtain ⟨d, hd⟩ := h
    simp only [sEnts, hd]
    simp
  | k + 1, s, h => by
    obtain ⟨c, cn, q1, q2, q3, _⟩ := sOk_succ.1 h
    rw [sEnts_succ, cd_child q1]
    unfold nEnts
    rw [liveAt_of q2.get]
    have hl := q2.live_length
    cases hL : live cn with
    | nil => rw [hL] at hl; simp at hl; omega
    | cons x L =>
      have := sEnts_pos k x (q2.slots x (by rw [hL]; simp))
      rw [List.flatMap_cons, List.length_append]
      omega

theorem nEnts_ne {M : Nat} {ns : List (Node N T D)} {k c : Nat} {cn : Node N T D} (h : NOk M ns k c cn) (h1 : 1 ≤ cn.count) :
    nEnts ns k c ≠ [] := by
  unfold nEnts
  rw [liveAt_of h.get]
  have hl := h.live_length
  cases hL : live cn with
  | nil => rw [hL] at hl; simp at hl; omega
  | cons x L =>
    have := sEnts_pos k x (h.slots x (by rw [hL]; simp))
    intro h0
    rw [List.flatMap_cons] at h0
    have := congrArg List.length h0
    rw [List.length_append, List.length_nil] at this
    omega

/-- The bounding box of a node bounds its entries. -/
theorem hbox {M : Nat} {ns : List (Node N T D)} {k x : Nat} {xn : Node N T D} {bb : Rect N D} (hx : NOk M ns k x xn)
    (hbb : boundingBox xn = .ok bb) (hin : ∀ s ∈ live xn, bb.contains s.1 = true) : Bd bb (nEnts ns k x) := by
  have hmem : ∀ e, e ∈ nEnts ns k x ↔ ∃ s ∈ live xn, e ∈ sEnts ns k s := by
    intro e
    unfold nEnts
    rw [liveAt_of hx.get, List.mem_flatMap]
  constructor
  · intro e he
    obtain ⟨s', hs', he⟩ := (hmem e).1 he
    refine contains_trans (hin s' hs') ?_
    have hok := hx.slots s' hs'
    cases k with
    | zero =>
      obtain ⟨d', hd'⟩ := hok
      simp only [sEnts, hd', List.mem_singleton] at he
      rw [he]; exact contains_refl _
    | succ k =>
      obtain ⟨c', _, q1, _, _, q2⟩ := sOk_succ.1 hok
      rw [sEnts_succ, cd_child q1] at he
      exact q2.1 e he
  · intro ht hne q hq
    refine boundingBox_least hbb ?_ fun s' hs' => ?_
    · intro h0
      obtain ⟨e, he⟩ := List.exists_mem_of_ne_nil _ hne
      obtain ⟨s', hs', _⟩ := (hmem e).1 he
      rw [h0] at hs'
      cases hs'
    · have hok := hx.slots s' hs'
      cases k with
      | zero =>
        obtain ⟨d', hd'⟩ := hok
        exact hq (s'.1, d') ((hmem _).2 ⟨s', hs', by simp only [sEnts, hd', List.mem_singleton]⟩)
      | succ k =>
        obtain ⟨c', cn, q1, q3, q4, q2⟩ := sOk_succ.1 hok
        refine q2.2 ht (nEnts_ne q3 q4) q fun e he => hq e ((hmem e).2 ⟨s', hs', ?_⟩)
        rw [sEnts_succ, cd_child q1]
        exact he

theorem Bd.expand {R r : Rect N D} {d : T} {es : List (Ent N T D)} (h : Bd R es) (hne : es ≠ []) : Bd (R.expand r) ((r, d) :: es) := by
  refine ⟨fun e he => ?_, fun ht _ q hq => expand_least (h.2 ht hne q fun e he => hq e (by simp [he])) (hq (r, d) (by simp))⟩
  rcases List.mem_cons.1 he with rfl | he
  · exact expand_right _ _
  · exact contains_trans (expand_left _ _) (h.1 e he)

theorem nodeInsert_ok [NeZero D] {M : Nat} (hM : 3 ≤ M) (r : Rect N D) (d : T) : ∀ (f k : Nat) (st : RT N T D) (n depth : Nat)
    (fl : List Nat) (nd : Node N T D), Good M st (nIds st.nodes k n) fl → NOk M st.nodes k n nd → (k = 0 ∨ 1 ≤ nd.count) →
    depth + k ≤ 16 → k * (M + 2) + (M - nd.count) + 1 ≤ f →
    ∃ st' split fl' nd', nodeInsert M f st n r d depth = .ok (st', split) ∧ NOk M st'.nodes k n nd' ∧
      Upd M st (nIds st.nodes k n) fl st' (nIds st'.nodes k n) fl' ∧
      (nEnts st'.nodes k n).Perm (if split then nEnts st.nodes k n else (r, d) :: nEnts st.nodes k n) ∧
      nPot M st'.nodes k n ≤ nPot M st.nodes k n + (if split then 0 else 1) ∧ (split = true → nd'.count = M) ∧ 1 ≤ nd'.count
  | 0, k, st, n, depth, fl, nd, g, h, h0, hd, hf => by omega
  | f + 1, k, st, n, depth, fl, nd, g, h, h0, hd, hf => by
    unfold nodeInsert
    rw [getNode_of h.get, ok_bind]
    cases k with
    | zero =>
      rw [if_pos (show nd.kind = .leaf from h.kind)]
      by_cases hfull : nd.count = M
      · rw [if_pos hfull]
        exact ⟨st, true, fl, nd, rfl, h, Upd.refl g.world, List.Perm.refl _, Nat.le_refl _, fun _ => hfull, by omega⟩
      · rw [if_neg hfull]
        obtain ⟨nd1, e, k1, l1, c1, lv⟩ := appendSlot_ok (n := nd) (r, .item d) (by have := h.len; have := h.cnt; omega)
        rw [e, ok_bind]
        have hids : nIds st.nodes 0 n = n :: (live nd ++ [(r, Pay.item d)]).flatMap (sIds st.nodes 0) := by
          rw [nIds_zero]; simp [sIds]
        have g' := g
        rw [hids] at g'
        obtain ⟨a1, a2, a3, a4, a5⟩ := assemble (nd' := nd1) g' (by
          intro s hs
          rcases List.mem_append.1 hs with hs | hs
          · exact h.slots s hs
          · rw [List.mem_singleton] at hs; subst hs; exact ⟨d, rfl⟩) h.get (by rw [k1]; exact h.kind) (by rw [l1]; exact h.len)
          (by have := h.cnt; omega) (by rw [lv])
        refine ⟨_, false, fl, nd1, rfl, a1, by rw [hids]; exact a5, ?_, ?_, (fun h => by cases h), by omega⟩
        · refine a3.trans ?_
          rw [List.flatMap_append]
          simp only [Bool.false_eq_true, if_false]
          unfold nEnts
          rw [liveAt_of h.get]
          refine List.perm_append_comm.trans ?_
          simp [sEnts]
        · rw [a4]
          have hx : ∀ L : List (Slot N T D), (L.map (sPot M st.nodes 0)).sum = 0 := by
            intro L; induction L with
            | nil => rfl
            | cons a L ih => rw [List.map_cons, List.sum_cons, ih]; rfl
          unfold nPot
          rw [hx, hx, liveAt_of h.get]
          simp only [Nat.pow_zero, Nat.mul_one, List.length_append, List.length_cons, List.length_nil, Bool.false_eq_true, if_false]
          omega
    | succ k =>
      have hcnt : 1 ≤ nd.count := by rcases h0 with h0 | h0 <;> omega
      have hkind : nd.kind ≠ .leaf := by rw [h.kind]; simp [kindOf]
      rw [if_neg hkind]
      obtain ⟨hint, i, e1, hhl, hi⟩ := nodeChoose_ok (st := st) (n := nd) r (d := depth) (by rw [g.world.hint]; omega)
        (by rw [h.len]; exact h.cnt) hcnt
      rw [e1, ok_bind]
      simp only
      obtain ⟨s, c, cn, R, hs, hsc, hcn, hcn1, hcont, hperm, hRok, hset⟩ := h.pick hi
      rw [slotAt_of hs, ok_bind, childOf_ok hsc, ok_bind]
      have hcd := cd_child hsc
      -- nodes of the branch: K and the child's
      obtain ⟨pi, pe, pp⟩ := via_perm (M := M) (k := k + 1) h.get hperm
      rw [List.flatMap_cons, sIds_succ, hcd] at pi
      rw [List.flatMap_cons, sEnts_succ, hcd] at pe
      rw [List.map_cons, List.sum_cons, sPot_succ, hcd, List.length_cons] at pp
      have hRlen : R.length + 1 = nd.count := by rw [← h.live_length, hperm.length_eq, List.length_cons]
      have pi' : (nIds st.nodes (k + 1) n).Perm ((n :: R.flatMap (sIds st.nodes (k + 1))) ++ nIds st.nodes k c) := by
        refine pi.trans ?_
        rw [List.cons_append]
        exact List.Perm.cons _ List.perm_append_comm
      have gK : Good M st ((n :: R.flatMap (sIds st.nodes (k + 1))) ++ nIds st.nodes k c) fl := g.perm pi'
      have uh : Upd M st (nIds st.nodes (k + 1) n) fl { st with hint := hint } (nIds st.nodes (k + 1) n) fl := Upd.hint g.world hhl
      have gKh : Good M { st with hint := hint } ((n :: R.flatMap (sIds st.nodes (k + 1))) ++ nIds st.nodes k c) fl := (uh.good g).perm pi'
      have hmul : (k + 1) * (M + 2) = k * (M + 2) + (M + 2) := by rw [Nat.add_mul, Nat.one_mul]
      obtain ⟨st2, split, fl2, cn2, e2, hc2, u2, en2, po2, sp2, cnt2⟩ := nodeInsert_ok hM r d f k { st with hint := hint } c (depth + 1)
        fl cn gKh.right hcn (Or.inr hcn1) (by omega) (by omega)
      rw [e2, ok_bind]
      simp only
      have hn2 : st2.nodes[n]? = some nd := (u2.untouched gKh (by simp)).trans h.get
      have hfR : ∀ x ∈ R, _ := fun x hx => frame (M := M) (ns := st.nodes) (ns' := st2.nodes) (k + 1) x fun j hj =>
        u2.untouched gKh (by
          rw [List.mem_cons, List.mem_flatMap]
          exact Or.inr ⟨x, hx, hj⟩)
      have eI : R.flatMap (sIds st2.nodes (k + 1)) = R.flatMap (sIds st.nodes (k + 1)) := flatMap_congr fun x hx => (hfR x hx).2.1
      have eE : R.flatMap (sEnts st2.nodes (k + 1)) = R.flatMap (sEnts st.nodes (k + 1)) := flatMap_congr fun x hx => (hfR x hx).1
      have eP : R.map (sPot M st2.nodes (k + 1)) = R.map (sPot M st.nodes (k + 1)) := List.map_congr_left fun x hx => (hfR x hx).2.2.1
      have u2' : Upd M st (nIds st.nodes (k + 1) n) fl st2 ((n :: R.flatMap (sIds st2.nodes (k + 1))) ++ nIds st2.nodes k c) fl2 := by
        rw [eI]
        refine uh.trans g ?_
        exact (u2.context (K := n :: R.flatMap (sIds st.nodes (k + 1)))).perm' pi'.symm (List.Perm.refl _)
      have g2 := u2'.good g
      have hR2 : ∀ x ∈ R, sOk M st2.nodes (k + 1) x := fun x hx => (hfR x hx).2.2.2 (hRok x hx)
      -- putting back one slot for the child
      have one : ∀ (s' : Slot N T D) (nd' : Node N T D), s'.2 = .child c → Bd s'.1 (nEnts st2.nodes k c) →
          nd'.kind = kindOf (k + 1) → nd'.slots.length = M → nd'.count = nd.count → (live nd').Perm (s' :: R) →
          NOk M (setNode st2 n nd').nodes (k + 1) n nd' ∧
          Upd M st (nIds st.nodes (k + 1) n) fl (setNode st2 n nd') (nIds (setNode st2 n nd').nodes (k + 1) n) fl2 ∧
          (nEnts (setNode st2 n nd').nodes (k + 1) n).Perm (nEnts st2.nodes k c ++ R.flatMap (sEnts st.nodes (k + 1))) ∧
          nPot M (setNode st2 n nd').nodes (k + 1) n = (R.length + 1 - (M - minItems M)) * minItems M ^ (k + 1) +
            (nPot M st2.nodes k c + (R.map (sPot M st.nodes (k + 1))).sum) := by
        intro s' nd' hs' hct hk' hl' hc' hp'
        have hcd' := cd_child hs'
        have gg : Good M st2 (n :: (s' :: R).flatMap (sIds st2.nodes (k + 1))) fl2 := g2.perm (by
          rw [List.flatMap_cons, sIds_succ, hcd', List.cons_append]
          exact List.Perm.cons _ List.perm_append_comm)
        obtain ⟨a1, a2, a3, a4, a5⟩ := assemble (nd' := nd') gg (by
          intro x hx
          rcases List.mem_cons.1 hx with rfl | hx
          · exact sOk_succ.2 ⟨c, cn2, hs', hc2, cnt2, hct⟩
          · exact hR2 x hx) hn2 hk' hl' (by rw [hc']; exact h.cnt) hp'
        refine ⟨a1, ?_, ?_, ?_⟩
        · refine u2'.trans g (a5.perm' ?_ (List.Perm.refl _))
          rw [List.flatMap_cons, sIds_succ, hcd', List.cons_append]
          exact List.Perm.cons _ List.perm_append_comm
        · rw [List.flatMap_cons, sEnts_succ, hcd', eE] at a3; exact a3
        · rw [List.map_cons, List.sum_cons, sPot_succ, hcd', List.length_cons, eP] at a4; exact a4
      cases split with
      | false =>
        simp only [Bool.false_eq_true, if_false] at en2 po2 ⊢
        unfold expandSlot
        rw [getNode_of hn2, ok_bind, slotAt_of hs, ok_bind]
        obtain ⟨b1, b2, b3, b4⟩ := one (s.1.expand r, s.2) { nd with slots := nd.slots.set i (s.1.expand r, s.2) } hsc
            ((hcont.expand (nEnts_ne hcn hcn1)).perm en2.symm) h.kind (by simpa using h.len) rfl (hset _)
        rw [ok_bind]
        refine ⟨_, false, fl2, _, rfl, b1, b2, ?_, ?_, (fun h => by cases h), hcnt⟩
        · simp only [Bool.false_eq_true, if_false]
          refine b3.trans ((en2.append_right _).trans ?_)
          rw [List.cons_append]
          exact (pe.symm).cons _
        · simp only [Bool.false_eq_true, if_false]
          rw [b4, pp]
          have : nPot M ({ st with hint := hint } : RT N T D).nodes k c = nPot M st.nodes k c := rfl
          omega
      | true =>
        simp only [if_true] at en2 po2 ⊢
        rw [getNode_of hn2, ok_bind]
        by_cases hfull : nd.count = M
        · rw [if_pos hfull]
          obtain ⟨b1, b2, b3, b4⟩ := one s nd hsc (hcont.perm en2.symm) h.kind h.len rfl hperm
          rw [setNode_self hn2] at b1 b2 b3 b4
          refine ⟨st2, true, fl2, nd, rfl, b1, b2, ?_, ?_, fun _ => hfull, hcnt⟩
          · simp only [if_true]
            exact b3.trans ((en2.append_right _).trans pe.symm)
          · simp only [if_true]
            rw [b4, pp]
            have : nPot M ({ st with hint := hint } : RT N T D).nodes k c = nPot M st.nodes k c := rfl
            omega
        · rw [if_neg hfull]
          -- split the child
          obtain ⟨st3, j, fl3, a, b, e3, ha, hb, u3, en3, ma, mb, po3, _⟩ := nodeSplit_ok (by omega) s.1 g2.right hc2 (sp2 rfl)
          have hm := minItems_bounds (M := M) (by omega)
          have hn3 : st3.nodes[n]? = some nd := (u3.untouched g2 (by simp)).trans hn2
          have hfR3 : ∀ x ∈ R, _ := fun x hx => frame (M := M) (ns := st2.nodes) (ns' := st3.nodes) (k + 1) x fun y hy =>
            u3.untouched g2 (by
              rw [List.mem_cons, List.mem_flatMap]
              exact Or.inr ⟨x, hx, hy⟩)
          have eI3 : R.flatMap (sIds st3.nodes (k + 1)) = R.flatMap (sIds st2.nodes (k + 1)) := flatMap_congr fun x hx => (hfR3 x hx).2.1
          have eE3 : R.flatMap (sEnts st3.nodes (k + 1)) = R.flatMap (sEnts st2.nodes (k + 1)) := flatMap_congr fun x hx => (hfR3 x hx).1
          have eP3 : R.map (sPot M st3.nodes (k + 1)) = R.map (sPot M st2.nodes (k + 1)) := List.map_congr_left fun x hx => (hfR3 x hx).2.2.1
          obtain ⟨bb1, hbb1, hin1⟩ := boundingBox_ok (n := a) (by rw [ha.len]; omega)
          obtain ⟨bb2, hbb2, hin2⟩ := boundingBox_ok (n := b) (by rw [hb.len]; omega)
          obtain ⟨nd2, e4, k4, l4, c4, lv4⟩ := appendSlot_ok (n := { nd with slots := nd.slots.set i (bb1, s.2) }) (bb2, .child j)
            (by show nd.count < _; simp; have := h.len; have := h.cnt; omega)
          have hsplit : splitChild M st2 n i = .ok (setNode st3 n nd2) := by
            unfold splitChild
            rw [getNode_of hn2, ok_bind, slotAt_of hs, ok_bind, childOf_ok hsc, ok_bind, e3, ok_bind]
            simp only
            rw [getNode_of hn3, ok_bind, slotAt_of hs, ok_bind, childOf_ok hsc, ok_bind, getNode_of ha.get, ok_bind, hbb1, ok_bind,
              getNode_of hb.get, ok_bind, hbb2, ok_bind, e4, ok_bind]
          rw [hsplit, ok_bind]
          have u3' : Upd M st (nIds st.nodes (k + 1) n) fl st3 ((n :: R.flatMap (sIds st3.nodes (k + 1))) ++ (nIds st3.nodes k c ++ nIds st3.nodes k j)) fl3 := by
            rw [eI3]
            exact u2'.trans g (u3.context (K := n :: R.flatMap (sIds st2.nodes (k + 1))))
          have g3 := u3'.good g
          have hP3 : ((n :: R.flatMap (sIds st3.nodes (k + 1))) ++ (nIds st3.nodes k c ++ nIds st3.nodes k j)).Perm
              (n :: ((bb1, s.2) :: (bb2, Pay.child j) :: R).flatMap (sIds st3.nodes (k + 1))) := by
            rw [List.flatMap_cons, List.flatMap_cons, sIds_succ, sIds_succ, cd_child (s := (bb1, s.2)) hsc, cd_child (s := (bb2, Pay.child j)) rfl,
              List.cons_append, ← List.append_assoc (nIds st3.nodes k c)]
            exact List.Perm.cons _ List.perm_append_comm
          have hlv : (live nd2).Perm ((bb1, s.2) :: (bb2, Pay.child j) :: R) := by
            rw [lv4]
            refine ((hset (bb1, s.2)).append_right _).trans ?_
            rw [List.cons_append]
            exact (List.perm_append_singleton _ _).cons _
          obtain ⟨f1, f2, f3, f4, f5⟩ := assemble (nd' := nd2) (g3.perm hP3) (by
            intro x hx
            rcases List.mem_cons.1 hx with rfl | hx
            · exact sOk_succ.2 ⟨c, a, hsc, ha, by omega, hbox ha hbb1 hin1⟩
            rcases List.mem_cons.1 hx with rfl | hx
            · exact sOk_succ.2 ⟨j, b, rfl, hb, by omega, hbox hb hbb2 hin2⟩
            · exact (hfR3 x hx).2.2.2 (hR2 x hx)) hn3 (by rw [k4]; exact h.kind) (by rw [l4]; simpa using h.len)
              (by rw [c4]; show nd.count + 1 ≤ M; have := h.cnt; omega) hlv
          have u4 : Upd M st (nIds st.nodes (k + 1) n) fl (setNode st3 n nd2) (nIds (setNode st3 n nd2).nodes (k + 1) n) fl3 :=
            u3'.trans g (f5.perm' hP3.symm (List.Perm.refl _))
          have g4 := u4.good g
          have hc4 : nd2.count = nd.count + 1 := c4
          obtain ⟨st5, sp5, fl5, nd5, e5, h5, u5, en5, po5, sp5', cnt5⟩ := nodeInsert_ok hM r d f (k + 1) (setNode st3 n nd2) n depth fl3 nd2
            g4 f1 (Or.inr (by omega)) hd (by have := h.cnt; omega)
          have hent : (nEnts (setNode st3 n nd2).nodes (k + 1) n).Perm (nEnts st.nodes (k + 1) n) := by
            refine f3.trans ?_
            rw [List.flatMap_cons, List.flatMap_cons, sEnts_succ, sEnts_succ, cd_child (s := (bb1, s.2)) hsc,
              cd_child (s := (bb2, Pay.child j)) rfl, ← List.append_assoc, eE3, eE]
            exact ((en3.append_right _).trans (en2.append_right _)).trans pe.symm
          have hpot : nPot M (setNode st3 n nd2).nodes (k + 1) n ≤ nPot M st.nodes (k + 1) n := by
            rw [f4, pp, List.map_cons, List.map_cons, List.sum_cons, List.sum_cons, sPot_succ, sPot_succ, cd_child (s := (bb1, s.2)) hsc,
              cd_child (s := (bb2, Pay.child j)) rfl, List.length_cons, List.length_cons, eP3, eP]
            have := pot_grow (R.length + 1) (M - minItems M) (minItems M ^ (k + 1))
            have : nPot M ({ st with hint := hint } : RT N T D).nodes k c = nPot M st.nodes k c := rfl
            omega
          refine ⟨st5, sp5, fl5, nd5, e5, h5, u4.trans g u5, ?_, by omega, sp5', cnt5⟩
          cases sp5 with
          | true => simp only [if_true] at en5 ⊢; exact en5.trans hent
          | false => simp only [Bool.false_eq_true, if_false] at en5 ⊢; exact en5.trans (hent.cons _)

/-! ## `insert` -/

/-- `m + m² + … + mᵏ`. -/
def geo (m : Nat) : Nat → Nat
  | 0 => 0
  | k + 1 => geo m k + m ^ (k + 1)

theorem geo_mono (m : Nat) {a b : Nat} (h : a ≤ b) : geo m a ≤ geo m b := by
  induction h with
  | refl => exact Nat.le_refl _
  | step _ ih => exact Nat.le_trans ih (Nat.le_add_right _ _)

/-- Every node is in use or free. -/
def Full (st : RT N T D) (I fl : List Nat) : Prop := (I ++ fl).Perm (List.range st.nodes.length)

theorem Upd.full {M : Nat} {st st' : RT N T D} {I fl I' fl' : List Nat} (h : Upd M st I fl st' I' fl') (hf : Full st I fl) : Full st' I' fl' := by
  refine h.perm.trans ((hf.append_right _).trans ?_)
  have := h.len
  rw [List.range_eq_range', List.range_eq_range']
  have hx := List.range'_append_1 (s := 0) (m := st.nodes.length) (n := st'.nodes.length - st.nodes.length)
  rw [Nat.zero_add] at hx
  rw [hx, show st.nodes.length + (st'.nodes.length - st.nodes.length) = st'.nodes.length by omega]

/-- The tree below a root; the nodes `lost` are neither in it nor free. -/
structure TreeAt (M : Nat) (lost : List Nat) (st : RT N T D) (k root : Nat) (nd : Node N T D) (fl : List Nat) : Prop where
  all : Good M st (lost ++ nIds st.nodes k root) fl
  full : Full st (lost ++ nIds st.nodes k root) fl
  ok : NOk M st.nodes k root nd
  root : st.root = some root
  height : st.height = k + 1

theorem Good.change {M : Nat} {st st' : RT N T D} {I fl : List Nat} (g : Good M st I fl) (h1 : st'.nodes = st.nodes) (h2 : st'.free = st.free)
    (h3 : st'.hint = st.hint) : Good M st' I fl :=
  ⟨g.nodup, by rw [h1]; exact g.bnd, ⟨by rw [h1]; exact g.world.slots, by rw [h1, h2]; exact g.world.free, by rw [h3]; exact g.world.hint⟩⟩

theorem TreeAt.good {M : Nat} {lost : List Nat} {st : RT N T D} {k root : Nat} {nd : Node N T D} {fl : List Nat} (t : TreeAt M lost st k root nd fl) :
    Good M st (nIds st.nodes k root) fl := t.all.right

/-- A step inside the tree. -/
theorem TreeAt.step {M : Nat} {lost : List Nat} {st st' : RT N T D} {k root k' root' : Nat} {nd nd' : Node N T D} {fl fl' : List Nat}
    (t : TreeAt M lost st k root nd fl) (u : Upd M st (nIds st.nodes k root) fl st' (nIds st'.nodes k' root') fl') (ok : NOk M st'.nodes k' root' nd')
    {st'' : RT N T D} (h1 : st''.nodes = st'.nodes) (h2 : st''.free = st'.free) (h3 : st''.hint = st'.hint) (h4 : st''.root = some root')
    (h5 : st''.height = k' + 1) : TreeAt M lost st'' k' root' nd' fl' :=
  ⟨by rw [h1]; exact ((u.context (K := lost)).good t.all).change h1 h2 h3, by rw [Full, h1]; exact (u.context (K := lost)).full t.full,
    by rw [h1]; exact ok, h4, h5⟩

theorem TreeAt.change {M : Nat} {lost : List Nat} {st st' : RT N T D} {k root : Nat} {nd : Node N T D} {fl : List Nat} (t : TreeAt M lost st k root nd fl)
    (h1 : st'.nodes = st.nodes) (h2 : st'.free = st.free) (h3 : st'.hint = st.hint) (h4 : st'.root = some root) (h5 : st'.height = k + 1) :
    TreeAt M lost st' k root nd fl :=
  ⟨by rw [h1]; exact t.all.change h1 h2 h3, by rw [Full, h1]; exact t.full, by rw [h1]; exact t.ok, h4, h5⟩

theorem splitRoot_ok [NeZero D] {M : Nat} (hM : 3 ≤ M) {lost : List Nat} {st : RT N T D} {k root : Nat} {nd : Node N T D} {fl : List Nat}
    (t : TreeAt M lost st k root nd fl) (hfull : nd.count = M) :
    ∃ st' nr nd' fl', splitRoot M st root = .ok st' ∧ TreeAt M lost st' (k + 1) nr nd' fl' ∧ 1 ≤ nd'.count ∧
      (nEnts st'.nodes (k + 1) nr).Perm (nEnts st.nodes k root) ∧
      nPot M st'.nodes (k + 1) nr + minItems M ^ (k + 1) = nPot M st.nodes k root ∧ st'.count = st.count ∧ st'.rect = st.rect := by
  have hm := minItems_bounds (M := M) (by omega)
  obtain ⟨st1, nr, fl1, n0, e1, u1, hn0, nk, nc, nl, _⟩ := nodeNew_ok t.good .branch
  have same : ∀ x ∈ nIds st.nodes k root, st1.nodes[x]? = st.nodes[x]? := fun x hx =>
    u1.untouched (K := nIds st.nodes k root) (by rw [List.append_nil]; exact t.good) hx
  obtain ⟨fe, fi, fp, fo⟩ := nframe (M := M) same
  have u1' : Upd M st (nIds st.nodes k root) fl st1 ([nr] ++ nIds st1.nodes k root) fl1 := by
    have := u1.context (K := nIds st.nodes k root)
    rw [List.append_nil] at this
    rw [fi]
    exact this.perm' (List.Perm.refl _) List.perm_append_comm
  have g1 := u1'.good t.good
  obtain ⟨st2, right, fl2, a, b, e2, ha, hb, u2, en2, ma, mb, po2, _⟩ := nodeSplit_ok (by omega) st1.rect g1.right (fo nd t.ok) hfull
  have hn2 : st2.nodes[nr]? = some n0 := (u2.untouched g1 (by simp)).trans hn0
  obtain ⟨bb1, hbb1, hin1⟩ := boundingBox_ok (n := a) (by rw [ha.len]; omega)
  obtain ⟨bb2, hbb2, hin2⟩ := boundingBox_ok (n := b) (by rw [hb.len]; omega)
  have u2' : Upd M st (nIds st.nodes k root) fl st2 ([nr] ++ (nIds st2.nodes k root ++ nIds st2.nodes k right)) fl2 :=
    u1'.trans t.good (u2.context (K := [nr]))
  have g2 := u2'.good t.good
  have hL : nr :: ([(bb1, Pay.child root), (bb2, Pay.child right)] : List (Slot N T D)).flatMap (sIds st2.nodes (k + 1)) =
      [nr] ++ (nIds st2.nodes k root ++ nIds st2.nodes k right) := by
    simp [sIds_succ, cd]
  obtain ⟨f1, f2, f3, f4, f5⟩ := assemble (L := [(bb1, Pay.child root), (bb2, Pay.child right)]) (k := k + 1)
    (nd' := { n0 with slots := (n0.slots.set 0 (bb1, Pay.child root)).set 1 (bb2, Pay.child right), count := 2 })
    (by rw [hL]; exact g2) (by
      intro x hx
      rcases List.mem_cons.1 hx with rfl | hx
      · exact sOk_succ.2 ⟨root, a, rfl, ha, by omega, hbox ha hbb1 hin1⟩
      · rw [List.mem_singleton] at hx
        subst hx
        exact sOk_succ.2 ⟨right, b, rfl, hb, by omega, hbox hb hbb2 hin2⟩) hn2 nk (by simpa using nl) (by show 2 ≤ M; omega) (by
      show ((((n0.slots.set 0 _).set 1 _)).take 2).Perm _
      cases hsl : n0.slots with
      | nil => rw [hsl] at nl; simp at nl; omega
      | cons x L1 =>
        cases L1 with
        | nil => rw [hsl] at nl; simp at nl; omega
        | cons y L2 => simp)
  rw [hL] at f5
  have u3 := u2'.trans t.good f5
  have hsame := u2'.same
  refine ⟨{ setNode st2 nr { n0 with slots := (n0.slots.set 0 (bb1, Pay.child root)).set 1 (bb2, Pay.child right), count := 2 } with root := some nr, height := st2.height + 1 }, nr, { n0 with slots := (n0.slots.set 0 (bb1, Pay.child root)).set 1 (bb2, Pay.child right), count := 2 }, fl2, ?_,
    t.step u3 f1 rfl rfl rfl rfl ?_, by show 1 ≤ 2; omega, ?_, ?_, ?_⟩
  · unfold splitRoot
    rw [e1, ok_bind]
    simp only
    rw [e2, ok_bind]
    simp only
    rw [getNode_of hn2, ok_bind, getNode_of ha.get, ok_bind, hbb1, ok_bind, getNode_of hb.get, ok_bind, hbb2, ok_bind,
      if_pos (by omega)]
    rfl
  · show st2.height + 1 = k + 1 + 1
    rw [hsame.2.2.2, t.height]
  · refine f3.trans ?_
    rw [← fe]
    refine List.Perm.trans ?_ en2
    simp [sEnts_succ, cd]
  · rw [← fp, ← po2]
    show nPot M (setNode st2 nr _).nodes (k + 1) nr + _ = _
    rw [f4]
    have hz : 2 - (M - minItems M) = 0 := by unfold minItems; omega
    simp only [List.length_cons, List.length_nil, List.map_cons, List.map_nil, List.sum_cons, List.sum_nil, sPot_succ, cd]
    rw [hz]
    omega
  · exact ⟨hsame.2.2.1, hsame.2.1⟩

theorem insertLoop_ok [NeZero D] {M : Nat} (hM : 3 ≤ M) (r : Rect N D) (d : T) (B : Nat) (hB : B < geo (minItems M) 17) {lost : List Nat} :
    ∀ (f : Nat) (st : RT N T D) (k root : Nat) (nd : Node N T D) (fl : List Nat), TreeAt M lost st k root nd fl → (k = 0 ∨ 1 ≤ nd.count) →
      nPot M st.nodes k root + geo (minItems M) k ≤ B → nPot M st.nodes k root < f →
      ∃ st' k' root' nd' fl', insertLoop M r d f st = .ok st' ∧ TreeAt M lost st' k' root' nd' fl' ∧ 1 ≤ nd'.count ∧
        (nEnts st'.nodes k' root').Perm ((r, d) :: nEnts st.nodes k root) ∧ st'.count = st.count + 1 ∧ st'.rect = st.rect.expand r ∧
        nPot M st'.nodes k' root' + geo (minItems M) k' ≤ B + 1
  | 0, st, k, root, nd, fl, t, h0, h1, h2 => by omega
  | f + 1, st, k, root, nd, fl, t, h0, h1, h2 => by
    have hk : k ≤ 16 := by
      rcases Nat.lt_or_ge 16 k with h | h
      · have := geo_mono (minItems M) (show 17 ≤ k by omega)
        omega
      · exact h
    unfold insertLoop ensureRoot
    rw [t.root]
    simp only
    rw [ok_bind]
    simp only
    obtain ⟨st2, split, fl2, nd2, e2, ok2, u2, en2, po2, sp2, c2⟩ := nodeInsert_ok hM r d (st.height * (M + 2)) k st root 0 fl nd t.good t.ok h0
      (by omega) (by rw [t.height, Nat.add_mul, Nat.one_mul]; omega)
    rw [e2, ok_bind]
    simp only
    have t2 : TreeAt M lost st2 k root nd2 fl2 := t.step u2 ok2 rfl rfl rfl (u2.same.1.trans t.root) (u2.same.2.2.2.trans t.height)
    cases split with
    | false =>
      simp only [Bool.false_eq_true, if_false] at en2 po2 ⊢
      exact ⟨_, k, root, nd2, fl2, rfl, t2.change rfl rfl rfl t2.root t2.height, c2, en2, by show st2.count + 1 = _; rw [u2.same.2.2.1],
        by show st2.rect.expand r = _; rw [u2.same.2.1], by show nPot M st2.nodes k root + _ ≤ _; omega⟩
    | true =>
      simp only [if_true] at en2 po2 ⊢
      obtain ⟨st3, nr, nd3, fl3, e3, t3, c3, en3, po3, ct3, rc3⟩ := splitRoot_ok hM t2 (sp2 rfl)
      rw [e3, ok_bind]
      have hpos : 0 < minItems M ^ (k + 1) := Nat.pow_pos (minItems_bounds (M := M) (by omega)).1
      obtain ⟨st', k', root', nd', fl', e4, t4, c4, en4, ct4, rc4, po4⟩ := insertLoop_ok hM r d B hB f st3 (k + 1) nr nd3 fl3 t3 (Or.inr c3)
        (by rw [geo]; omega) (by omega)
      exact ⟨st', k', root', nd', fl', e4, t4, c4, en4.trans ((en3.trans en2).cons _), by rw [ct4, ct3, u2.same.2.2.1], by rw [rc4, rc3, u2.same.2.1], po4⟩

/-- The potential is bounded by the number of nodes. -/
theorem nPot_le {M : Nat} {ns : List (Node N T D)} (hM : 2 ≤ M) : ∀ (k i : Nat) (n : Node N T D), NOk M ns k i n →
    nPot M ns k i ≤ (nIds ns k i).length * minItems M ^ (k + 1)
  | k, i, n, h => by
    have hm := minItems_bounds hM
    have hsl : ∀ L : List (Slot N T D), (∀ s ∈ L, s ∈ live n) →
        (L.map (sPot M ns k)).sum ≤ (L.flatMap (sIds ns k)).length * minItems M ^ (k + 1) := by
      intro L
      induction L with
      | nil => intro _; simp
      | cons s L ih =>
        intro hL
        have ih := ih fun x hx => hL x (by simp [hx])
        rw [List.map_cons, List.sum_cons, List.flatMap_cons, List.length_append, Nat.add_mul]
        refine Nat.add_le_add ?_ ih
        have hs := h.slots s (hL s (by simp))
        cases k with
        | zero => simp [sPot]
        | succ k =>
          obtain ⟨c, cn, q1, q2, _, _⟩ := sOk_succ.1 hs
          have := nPot_le hM k c cn q2
          rw [sPot_succ, sIds_succ, cd_child q1]
          refine Nat.le_trans this (Nat.mul_le_mul_left _ ?_)
          exact Nat.pow_le_pow_right hm.1 (by omega)
    have h1 := hsl (live n) fun s hs => hs
    unfold nPot nIds
    rw [liveAt_of h.get, List.length_cons, h.live_length, Nat.add_mul, Nat.one_mul]
    have h2 : (n.count - (M - minItems M)) * minItems M ^ k ≤ minItems M ^ (k + 1) := by
      rw [Nat.pow_succ, Nat.mul_comm (minItems M ^ k)]
      refine Nat.mul_le_mul_right _ ?_
      have := h.cnt
      omega
    omega

end Cista.RTree
