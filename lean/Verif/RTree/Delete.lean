import Verif.RTree.Insert

/-!
# R-tree: search and deletion
-/
set_option linter.unusedSimpArgs false
set_option linter.unusedSectionVars false

namespace Cista.RTree
open Coord

variable {N T : Type} [Coord N] {D : Nat} [Mode]

/-! ## Search -/

/-- Report the entries of a list in order until the callback asks to stop. -/
def stopFold (fn : Callback N T D) : List (Ent N T D) → List (Ent N T D) → List (Ent N T D) × Bool
  | acc, [] => (acc, true)
  | acc, e :: L => if fn acc e then stopFold fn (acc ++ [e]) L else (acc ++ [e], false)

theorem stopFold_append (fn : Callback N T D) (L1 L2 : List (Ent N T D)) : ∀ acc, stopFold fn acc (L1 ++ L2) =
    if (stopFold fn acc L1).2 then stopFold fn (stopFold fn acc L1).1 L2 else ((stopFold fn acc L1).1, false) := by
  induction L1 with
  | nil => intro acc; simp [stopFold]
  | cons e L ih =>
    intro acc
    rw [List.cons_append]
    have hu : ∀ X, stopFold fn acc (e :: X) = if fn acc e then stopFold fn (acc ++ [e]) X else (acc ++ [e], false) := fun X => rfl
    rw [hu, hu]
    by_cases h : fn acc e = true
    · rw [if_pos h, if_pos h]; exact ih _
    · rw [if_neg h, if_neg h]; rfl

theorem leafSearch_ok (r : Rect N D) (fn : Callback N T D) (ns : List (Node N T D)) : ∀ (L : List (Slot N T D)) (acc : List (Ent N T D)),
    (∀ s ∈ L, sOk 0 ns 0 s) → leafSearch r fn L acc = .ok (stopFold fn acc ((L.flatMap (sEnts ns 0)).filter fun e => e.1.intersects r))
  | [], acc, _ => rfl
  | s :: L, acc, h => by
    obtain ⟨d, hd⟩ := h s (by simp)
    have ih := fun a => leafSearch_ok r fn ns L a fun x hx => h x (by simp [hx])
    have hs : sEnts ns 0 s = [(s.1, d)] := by simp only [sEnts, hd]
    unfold leafSearch
    rw [List.flatMap_cons, hs, List.cons_append, List.nil_append, List.filter_cons]
    by_cases hi : s.1.intersects r = true
    · rw [if_pos hi, if_pos hi, hd]
      simp only
      unfold stopFold
      by_cases hf : fn acc (s.1, d) = true
      · rw [if_pos hf, if_pos hf]; exact ih _
      · rw [if_neg hf, if_neg hf]
    · rw [if_neg hi, if_neg hi]; exact ih acc

theorem nodeSearch_ok {M : Nat} {st : RT N T D} (r : Rect N D) (fn : Callback N T D) : ∀ (k f i : Nat) (n : Node N T D) (acc : List (Ent N T D)),
    NOk M st.nodes k i n → k < f →
    nodeSearch st r fn f i acc = .ok (stopFold fn acc ((nEnts st.nodes k i).filter fun e => e.1.intersects r))
  | k, 0, i, n, acc, h, hf => by omega
  | k, f + 1, i, n, acc, h, hf => by
    unfold nodeSearch
    rw [getNode_of h.get, ok_bind, if_neg (by have := h.len; have := h.cnt; omega)]
    unfold nEnts
    rw [liveAt_of h.get]
    cases k with
    | zero =>
      rw [if_pos (show n.kind = .leaf from h.kind)]
      exact leafSearch_ok r fn st.nodes (live n) acc h.slots
    | succ k =>
      rw [if_neg (by rw [h.kind]; simp [kindOf])]
      have hL : ∀ (L : List (Slot N T D)) (acc : List (Ent N T D)), (∀ s ∈ L, s ∈ live n) →
          branchSearch (nodeSearch st r fn f) r L acc =
            .ok (stopFold fn acc ((L.flatMap (sEnts st.nodes (k + 1))).filter fun e => e.1.intersects r)) := by
        intro L
        induction L with
        | nil => intro acc _; rfl
        | cons s L ih =>
          intro acc hm
          have ih := fun a => ih a fun x hx => hm x (by simp [hx])
          obtain ⟨c, cn, q1, q2, _, q4⟩ := sOk_succ.1 (h.slots s (hm s (by simp)))
          rw [List.flatMap_cons, List.filter_append, sEnts_succ, cd_child q1]
          unfold branchSearch
          by_cases hi : s.1.intersects r = true
          · rw [if_pos hi, childOf_ok q1, ok_bind, nodeSearch_ok r fn k f c cn acc q2 (by omega), ok_bind, stopFold_append]
            simp only
            split
            · exact ih _
            · rfl
          · rw [if_neg hi]
            have : (nEnts st.nodes k c).filter (fun e => e.1.intersects r) = [] := by
              rw [List.filter_eq_nil_iff]
              exact fun e he hx => hi (intersects_mono (q4.1 e he) hx)
            rw [this, List.nil_append]
            exact ih acc
      exact hL (live n) acc fun s hs => hs

/-! ## Deletion -/

theorem findItem_ok (fn : Rect N D → T → Bool) (ns : List (Node N T D)) : ∀ (L : List (Slot N T D)) (i : Nat), (∀ s ∈ L, sOk 0 ns 0 s) →
    (findItem fn L i = .ok none ∧ ∀ e ∈ L.flatMap (sEnts ns 0), fn e.1 e.2 = false) ∨
    ∃ j s d, findItem fn L i = .ok (some (i + j)) ∧ L[j]? = some s ∧ s.2 = .item d ∧ fn s.1 d = true
  | [], i, _ => Or.inl ⟨rfl, fun e he => by simp at he⟩
  | s :: L, i, h => by
    obtain ⟨d, hd⟩ := h s (by simp)
    have hs : sEnts ns 0 s = [(s.1, d)] := by simp only [sEnts, hd]
    unfold findItem
    rw [hd]
    simp only
    by_cases hf : fn s.1 d = true
    · rw [if_pos hf]
      exact Or.inr ⟨0, s, d, rfl, rfl, hd, hf⟩
    · rw [if_neg hf]
      rcases findItem_ok fn ns L (i + 1) fun x hx => h x (by simp [hx]) with ⟨h1, h2⟩ | ⟨j, s', d', h1, h2, h3, h4⟩
      · refine Or.inl ⟨h1, fun e he => ?_⟩
        rw [List.flatMap_cons, hs, List.mem_append, List.mem_singleton] at he
        rcases he with rfl | he
        · simpa using hf
        · exact h2 e he
      · exact Or.inr ⟨j + 1, s', d', by rw [h1]; congr 2; omega, by simpa using h2, h3, h4⟩

/-- Removing an entry that does not reach the edge leaves the rectangle least. -/
theorem onedge_least {input nr r q : Rect N D} (ho : ¬ input.onedge nr = true) (he : input.equals r = true) (hc : nr.contains r = true)
    (hq : (q.expand r).contains nr = true) : q.contains nr = true := by
  rw [contains_iff] at hc hq ⊢
  simp only [Rect.onedge, List.any_eq_true, List.mem_finRange, true_and, not_exists, Bool.or_eq_true, feq, Bool.not_eq_true', Bool.or_eq_false_iff,
    not_or] at ho
  simp only [Rect.equals, coordEq, Bool.and_eq_true, List.all_eq_true, List.mem_finRange, true_implies, feq, Bool.not_eq_true',
    Bool.or_eq_false_iff] at he
  intro i
  have h1 := ho i
  have h2 := he.1 i
  have h3 := he.2 i
  have h4 := hc i
  have h5 := hq i
  simp only [Rect.expand, cmin, cmax] at h5
  refine ⟨?_, ?_⟩
  · have h5 := h5.1
    split at h5
    · exact absurd ⟨ntrans h2.1 h4.1, ntrans h5 h2.2⟩ h1.1
    · exact h5
  · have h5 := h5.2
    split at h5
    · exact absurd ⟨ntrans h3.1 h5, ntrans h4.2 h3.2⟩ h1.2
    · exact h5

/-- What holds after an entry was removed below node `id`. -/
def Removed (M : Nat) (fn : Rect N D → T → Bool) (st : RT N T D) (nr : Rect N D) (fl : List Nat) (k id : Nat) (x : Del N T D) : Prop :=
  ∃ n' e fl', fn e.1 e.2 = true ∧ (nEnts st.nodes k id).Perm (e :: nEnts x.st.nodes k id) ∧ NOk M x.st.nodes k id n' ∧
    Upd M st (nIds st.nodes k id) fl x.st (nIds x.st.nodes k id) fl' ∧ nPot M x.st.nodes k id ≤ nPot M st.nodes k id ∧
    Bd x.rect (nEnts x.st.nodes k id) ∧ (x.shrunk = false → x.rect = nr)

/-- Only entries with the given rectangle are selected. -/
def Fits (fn : Rect N D → T → Bool) (input : Rect N D) : Prop := ∀ r d, fn r d = true → input.equals r = true

/-- No entry is the origin. -/
def Off0 (es : List (Ent N T D)) : Prop := ∀ e ∈ es, (Rect.zero : Rect N D).contains e.1 = false

theorem leafDelete_ok {M : Nat} (hM : 1 ≤ M) (fn : Rect N D → T → Bool) {st : RT N T D} {nr : Rect N D} {id : Nat} {n : Node N T D} {fl : List Nat}
    (input : Rect N D) (hfit : Mode.tight → Fits fn input) (g : Good M st (nIds st.nodes 0 id) fl) (h : NOk M st.nodes 0 id n)
    (hnr : Bd nr (nEnts st.nodes 0 id)) :
    ∃ x, leafDelete fn st nr id n input = .ok x ∧
      (x.removed = false → x.st = st ∧ x.rect = nr ∧ ∀ e ∈ nEnts st.nodes 0 id, fn e.1 e.2 = false) ∧
      (x.removed = true → Removed M fn st nr fl 0 id x) := by
  unfold leafDelete
  rcases findItem_ok fn st.nodes (live n) 0 h.slots with ⟨h1, h2⟩ | ⟨j, s, d, h1, h2, h3, h4⟩
  · rw [h1, ok_bind]
    refine ⟨_, rfl, fun _ => ⟨rfl, rfl, ?_⟩, fun h => by cases h⟩
    unfold nEnts; rw [liveAt_of h.get]; exact h2
  · rw [h1, ok_bind, Nat.zero_add]
    simp only
    have hj : j < n.count := by
      have := (List.getElem?_eq_some_iff.1 h2).1
      rw [h.live_length] at this; exact this
    rw [live_get hj] at h2
    obtain ⟨n1, e1, k1, l1, c1, p1⟩ := dropSlot_ok (by rw [h.len]; exact h.cnt) hj h2
    rw [e1, ok_bind]
    have hids : nIds st.nodes 0 id = id :: (live n1).flatMap (sIds st.nodes 0) := by rw [nIds_zero]; simp [sIds]
    obtain ⟨a1, a2, a3, a4, a5⟩ := assemble (nd' := n1) (L := live n1) (by rw [← hids]; exact g)
      (fun s hs => h.slots s (p1.mem_iff.1 (by simp [hs]))) h.get (by rw [k1]; exact h.kind) (by rw [l1]; exact h.len)
      (by have := h.cnt; omega) (List.Perm.refl _)
    have hE : (nEnts st.nodes 0 id).Perm ((s.1, d) :: nEnts (setNode st id n1).nodes 0 id) := by
      have : (nEnts st.nodes 0 id).Perm ((s :: live n1).flatMap (sEnts st.nodes 0)) := by
        unfold nEnts; rw [liveAt_of h.get]; exact (p1.flatMap_right _).symm
      refine this.trans ?_
      rw [List.flatMap_cons]
      have hs : sEnts st.nodes 0 s = [(s.1, d)] := by simp only [sEnts, h3]
      rw [hs, List.cons_append, List.nil_append]
      exact (a3.symm).cons _
    have hrem : ∀ rc b, Bd rc (nEnts (setNode st id n1).nodes 0 id) → (b = false → rc = nr) →
        Removed M fn st nr fl 0 id ⟨setNode st id n1, rc, true, b⟩ := by
      intro rc b hrc hb
      refine ⟨n1, (s.1, d), fl, h4, hE, a1, by rw [hids]; exact a5, ?_, hrc, hb⟩
      show nPot M (setNode st id n1).nodes 0 id ≤ _
      rw [a4]
      have hx : ∀ L : List (Slot N T D), (L.map (sPot M st.nodes 0)).sum = 0 := by
        intro L; induction L with
        | nil => rfl
        | cons a L ih => rw [List.map_cons, List.sum_cons, ih]; rfl
      unfold nPot
      rw [hx, hx, liveAt_of h.get, ← p1.length_eq, List.length_cons]
      refine Nat.add_le_add_right (Nat.mul_le_mul_right _ (by omega)) _
    by_cases ho : input.onedge nr = true
    · rw [if_pos ho]
      obtain ⟨b, hb, hin⟩ := boundingBox_ok (n := n1) (by rw [l1, h.len]; omega)
      rw [hb, ok_bind]
      exact ⟨_, rfl, (fun h => by cases h), fun _ => hrem _ _ (hbox a1 hb hin) (nomatch ·)⟩
    · rw [if_neg ho]
      have hsub : Bd nr (nEnts (setNode st id n1).nodes 0 id) := by
        refine ⟨fun e he => hnr.1 e (hE.mem_iff.2 (by simp [he])), fun ht hne q hq => ?_⟩
        refine onedge_least ho (hfit ht _ _ h4) (hnr.1 (s.1, d) (hE.mem_iff.2 (by simp)))
          (hnr.2 ht (fun h0 => by rw [h0] at hE; exact absurd hE.nil_eq (by simp)) _ fun e he => ?_)
        rcases List.mem_cons.1 (hE.mem_iff.1 he) with rfl | he
        · exact expand_right _ _
        · exact contains_trans (expand_left _ _) (hq e he)
      exact ⟨_, rfl, (fun h => by cases h), fun _ => hrem _ _ hsub fun _ => rfl⟩

/-- The recursive call. -/
def RecOk (M : Nat) (fn : Rect N D → T → Bool) (input : Rect N D) (k : Nat) (rec : RT N T D → Rect N D → Nat → Res (Del N T D)) : Prop :=
  ∀ (st : RT N T D) (nr : Rect N D) (id : Nat) (n : Node N T D) (fl : List Nat), Good M st (nIds st.nodes k id) fl →
    NOk M st.nodes k id n → (Mode.tight → Off0 (nEnts st.nodes k id)) → Bd nr (nEnts st.nodes k id) →
    ∃ x, rec st nr id = .ok x ∧
      (x.removed = false → x.st = st ∧ x.rect = nr ∧ ∀ e ∈ nEnts st.nodes k id, e.1.contains input = true → fn e.1 e.2 = false) ∧
      (x.removed = true → Removed M fn st nr fl k id x)

/-- Descending into slot `h` and what follows. -/
theorem descend_ok {M : Nat} (hM : 1 ≤ M) (fn : Rect N D → T → Bool) {input : Rect N D} {k : Nat}
    {rec : RT N T D → Rect N D → Nat → Res (Del N T D)} (hrec : RecOk M fn input k rec) {st : RT N T D} {nr : Rect N D} {id : Nat}
    {n : Node N T D} {fl : List Nat} (g : Good M st (nIds st.nodes (k + 1) id) fl) (h : NOk M st.nodes (k + 1) id n)
    (h0 : Mode.tight → Off0 (nEnts st.nodes (k + 1) id)) (hnr : Bd nr (nEnts st.nodes (k + 1) id)) {hd : Nat} (hhd : hd < n.count) (depth : Nat) :
    ∃ x, descend rec st id hd = .ok x ∧
      (x.removed = false → x.st = st ∧
        ∀ s, n.slots[hd]? = some s → ∀ e ∈ sEnts st.nodes (k + 1) s, e.1.contains input = true → fn e.1 e.2 = false) ∧
      (x.removed = true → ∀ crect, (crect = Rect.zero ∨ n.slots[hd]?.map (·.1) = some crect) → ∃ y, afterRemove x.st nr id hd crect depth x.shrunk = .ok y ∧ y.removed = true ∧
        Removed M fn st nr fl (k + 1) id y) := by
  obtain ⟨s, c, cn, R, hs, hsc, hcn, hcn1, hcont, hperm, hRok, hset⟩ := h.pick hhd
  have hcd := cd_child hsc
  obtain ⟨pi, pe, pp⟩ := via_perm (M := M) (k := k + 1) h.get hperm
  rw [List.flatMap_cons, sIds_succ, hcd] at pi
  rw [List.flatMap_cons, sEnts_succ, hcd] at pe
  rw [List.map_cons, List.sum_cons, sPot_succ, hcd, List.length_cons] at pp
  have pi' : (nIds st.nodes (k + 1) id).Perm ((id :: R.flatMap (sIds st.nodes (k + 1))) ++ nIds st.nodes k c) := by
    refine pi.trans ?_
    rw [List.cons_append]
    exact List.Perm.cons _ List.perm_append_comm
  have gK : Good M st ((id :: R.flatMap (sIds st.nodes (k + 1))) ++ nIds st.nodes k c) fl := g.perm pi'
  have h0c : Mode.tight → Off0 (nEnts st.nodes k c) := fun ht e he => h0 ht e (pe.mem_iff.2 (by simp [he]))
  obtain ⟨x0, e0, hno, hyes⟩ := hrec st s.1 c cn fl gK.right hcn h0c hcont
  unfold descend
  rw [getNode_of h.get, ok_bind, slotAt_of hs, ok_bind, childOf_ok hsc, ok_bind, e0, ok_bind]
  cases hr : x0.removed with
  | false =>
    obtain ⟨q1, q2, q3⟩ := hno hr
    rw [q1, getNode_of h.get, ok_bind]
    refine ⟨_, rfl, fun _ => ⟨?_, fun s' hs' e he => ?_⟩, fun hx => ?_⟩
    · show setNode st id _ = st
      have : n.slots.set hd (x0.rect, s.2) = n.slots := by
        obtain ⟨hl, hs0⟩ := List.getElem?_eq_some_iff.1 hs
        have : (x0.rect, s.2) = n.slots[hd] := by rw [q2, hs0]
        rw [this, List.set_getElem_self]
      rw [this]
      exact setNode_self h.get
    · rw [hs] at hs'; injection hs' with hs'; subst hs'
      rw [sEnts_succ, hcd] at he
      exact q3 e he
    · cases hx
  | true =>
    obtain ⟨cn', e, fl1, hfe, hE, hcn', u1, po1, hrect, hshr⟩ := hyes hr
    have hn1 : x0.st.nodes[id]? = some n := (u1.untouched gK (by simp)).trans h.get
    rw [getNode_of hn1, ok_bind]
    refine ⟨_, rfl, fun hx => ?_, fun _ crect hcr => ?_⟩
    · cases hx
    · have u1' : Upd M st (nIds st.nodes (k + 1) id) fl x0.st ((id :: R.flatMap (sIds st.nodes (k + 1))) ++ nIds x0.st.nodes k c) fl1 :=
        (u1.context (K := id :: R.flatMap (sIds st.nodes (k + 1)))).perm' pi'.symm (List.Perm.refl _)
      have g1 := u1'.good g
      have hfR : ∀ y ∈ R, _ := fun y hy => frame (M := M) (ns := st.nodes) (ns' := x0.st.nodes) (k + 1) y fun j hj =>
        u1.untouched gK (by
          rw [List.mem_cons, List.mem_flatMap]
          exact Or.inr ⟨y, hy, hj⟩)
      have eI : R.flatMap (sIds x0.st.nodes (k + 1)) = R.flatMap (sIds st.nodes (k + 1)) := flatMap_congr fun y hy => (hfR y hy).2.1
      have eE : R.flatMap (sEnts x0.st.nodes (k + 1)) = R.flatMap (sEnts st.nodes (k + 1)) := flatMap_congr fun y hy => (hfR y hy).1
      have eP : R.map (sPot M x0.st.nodes (k + 1)) = R.map (sPot M st.nodes (k + 1)) := List.map_congr_left fun y hy => (hfR y hy).2.2.1
      have hidl : id < x0.st.nodes.length := (List.getElem?_eq_some_iff.1 hn1).1
      have hidc : id ≠ c := by
        have hnd := g1.nodup
        rw [List.append_assoc, List.cons_append, List.nodup_cons] at hnd
        rintro rfl
        exact hnd.1 (by simp [nIds])
      have hdl : hd < n.slots.length := (List.getElem?_eq_some_iff.1 hs).1
      -- the node with the updated rectangle
      have hgn : (setNode x0.st id { n with slots := n.slots.set hd (x0.rect, s.2) }).nodes[id]? =
          some { n with slots := n.slots.set hd (x0.rect, s.2) } := List.getElem?_set_self hidl
      have hgc : (setNode x0.st id { n with slots := n.slots.set hd (x0.rect, s.2) }).nodes[c]? = some cn' := by
        show (x0.st.nodes.set id _)[c]? = _
        rw [List.getElem?_set_ne hidc]; exact hcn'.get
      have hsl : ({ n with slots := n.slots.set hd (x0.rect, s.2) } : Node N T D).slots[hd]? = some (x0.rect, s.2) := List.getElem?_set_self hdl
      have u2 : Upd M x0.st ((id :: R.flatMap (sIds st.nodes (k + 1))) ++ nIds x0.st.nodes k c) fl1
          (setNode x0.st id { n with slots := n.slots.set hd (x0.rect, s.2) })
          ((id :: R.flatMap (sIds st.nodes (k + 1))) ++ nIds x0.st.nodes k c) fl1 := Upd.set g1 (by simp) (by simpa using h.len)
      have hent : (nEnts st.nodes (k + 1) id).Perm (e :: (nEnts x0.st.nodes k c ++ R.flatMap (sEnts st.nodes (k + 1)))) := by
        refine pe.trans ?_
        rw [← List.cons_append]
        exact hE.append_right _
      have hR1 : ∀ y ∈ R, sOk M x0.st.nodes (k + 1) y := fun y hy => (hfR y hy).2.2.2 (hRok y hy)
      unfold afterRemove
      show ∃ y, (getNode (setNode x0.st id { n with slots := n.slots.set hd (x0.rect, s.2) }) id >>= _) = .ok y ∧ _
      rw [getNode_of hgn, ok_bind, slotAt_of hsl, ok_bind, childOf_ok (s := (x0.rect, s.2)) hsc, ok_bind, getNode_of hgc, ok_bind]
      by_cases hz : cn'.count = 0
      · -- the child is empty and freed
        rw [if_pos hz]
        have hlv : liveAt x0.st.nodes c = [] := by rw [liveAt_of hcn'.get]; unfold live; rw [hz]; rfl
        have hcI : nIds x0.st.nodes k c = [c] := by unfold nIds; rw [hlv]; rfl
        have hcE : nEnts x0.st.nodes k c = [] := by unfold nEnts; rw [hlv]; rfl
        have hcP : nPot M x0.st.nodes k c = 0 := by unfold nPot; rw [hlv]; simp
        have g2 := u2.good g1
        rw [hcI] at g2
        obtain ⟨st3, e3, u3, hh3, hl3⟩ := addFree_ok g2 (by
          intro n' hn'
          rw [hgc] at hn'; injection hn' with hn'
          rw [← hn', hcn'.kind]
          cases k <;> simp [kindOf])
        rw [e3, ok_bind]
        obtain ⟨n2, e4, k4, l4, c4, p4⟩ := dropSlot_ok (n := { n with slots := n.slots.set hd (x0.rect, s.2) }) (i := hd)
          (by simpa using (by rw [h.len]; exact h.cnt : n.count ≤ n.slots.length)) hhd hsl
        rw [e4, ok_bind]
        have hlR : (live n2).Perm R := (p4.trans (hset _)).cons_inv
        have hn3 : st3.nodes[id]? = some { n with slots := n.slots.set hd (x0.rect, s.2) } := (u3.untouched g2 (by simp)).trans hgn
        have hfR3 : ∀ y ∈ R, _ := fun y hy => frame (M := M) (ns := x0.st.nodes) (ns' := st3.nodes) (k + 1) y fun j hj => by
          have hjR : j ∈ R.flatMap (sIds st.nodes (k + 1)) := by rw [← eI, List.mem_flatMap]; exact ⟨y, hy, hj⟩
          have hjne : j ≠ id := by
            have hnd := g1.nodup
            rw [List.append_assoc, List.cons_append, List.nodup_cons] at hnd
            rintro rfl
            exact hnd.1 (by simp only [List.mem_append]; exact Or.inl hjR)
          rw [u3.untouched g2 (by rw [List.mem_cons]; exact Or.inr hjR)]
          show (x0.st.nodes.set id _)[j]? = _
          rw [List.getElem?_set_ne (fun h => hjne h.symm)]
        have eI3 : R.flatMap (sIds st3.nodes (k + 1)) = R.flatMap (sIds st.nodes (k + 1)) :=
          (flatMap_congr fun y hy => (hfR3 y hy).2.1).trans eI
        have eE3 : R.flatMap (sEnts st3.nodes (k + 1)) = R.flatMap (sEnts st.nodes (k + 1)) :=
          (flatMap_congr fun y hy => (hfR3 y hy).1).trans eE
        have eP3 : R.map (sPot M st3.nodes (k + 1)) = R.map (sPot M st.nodes (k + 1)) :=
          (List.map_congr_left fun y hy => (hfR3 y hy).2.2.1).trans eP
        have u2c := u2
        rw [hcI] at u2c
        have u1c := u1'
        rw [hcI] at u1c
        have u3' : Upd M st (nIds st.nodes (k + 1) id) fl st3 (id :: R.flatMap (sIds st3.nodes (k + 1))) (c :: fl1) := by
          rw [eI3]
          have h3 := u3.context (K := id :: R.flatMap (sIds st.nodes (k + 1)))
          rw [List.append_nil] at h3
          exact u1c.trans g (u2c.trans (u1c.good g) h3)
        obtain ⟨a1, a2, a3, a4, a5⟩ := assemble (nd' := n2) (u3'.good g) (fun y hy => (hfR3 y hy).2.2.2 (hR1 y hy)) hn3
          (by rw [k4]; exact h.kind) (by rw [l4]; simpa using h.len) (by have : n2.count + 1 = n.count := c4; have := h.cnt; omega) hlR
        obtain ⟨bb, hbb, hin⟩ := boundingBox_ok (n := n2) (by rw [l4]; simp; rw [h.len]; omega)
        rw [hbb, ok_bind]
        refine ⟨_, rfl, rfl, n2, e, c :: fl1, hfe, ?_, a1, u3'.trans g a5, ?_, hbox a1 hbb hin, (nomatch ·)⟩
        · refine hent.trans (List.Perm.cons _ ?_)
          rw [hcE, List.nil_append, ← eE3]
          exact a3.symm
        · show nPot M (setNode st3 id n2).nodes (k + 1) id ≤ _
          rw [a4, pp, eP3]
          have : (R.length - (M - minItems M)) * minItems M ^ (k + 1) ≤ (R.length + 1 - (M - minItems M)) * minItems M ^ (k + 1) :=
            Nat.mul_le_mul_right _ (by omega)
          omega
      · -- the child stays
        rw [if_neg hz]
        have hs' : ((x0.rect, s.2) : Slot N T D).2 = .child c := hsc
        have hids : ((id :: R.flatMap (sIds st.nodes (k + 1))) ++ nIds x0.st.nodes k c).Perm
            (id :: ((x0.rect, s.2) :: R).flatMap (sIds x0.st.nodes (k + 1))) := by
          rw [List.flatMap_cons, sIds_succ, cd_child hs', eI, List.cons_append]
          exact List.Perm.cons _ List.perm_append_comm
        obtain ⟨a1, a2, a3, a4, a5⟩ := assemble (nd' := { n with slots := n.slots.set hd (x0.rect, s.2) }) (g1.perm hids) (by
          intro y hy
          rcases List.mem_cons.1 hy with rfl | hy
          · exact sOk_succ.2 ⟨c, cn', hs', hcn', by omega, hrect⟩
          · exact hR1 y hy) hn1 h.kind (by simpa using h.len) h.cnt (hset _)
        rw [List.flatMap_cons, sEnts_succ, cd_child hs', eE] at a3
        rw [List.map_cons, List.sum_cons, sPot_succ, cd_child hs', List.length_cons, eP] at a4
        have hE3 := hent.trans (a3.symm.cons e)
        have u3 := u1'.trans g (a5.perm' hids.symm (List.Perm.refl _))
        have hpot : nPot M (setNode x0.st id { n with slots := n.slots.set hd (x0.rect, s.2) }).nodes (k + 1) id ≤ nPot M st.nodes (k + 1) id := by
          rw [a4, pp]; omega
        have fin : ∀ (rc : Rect N D) (b : Bool), Bd rc (nEnts (setNode x0.st id { n with slots := n.slots.set hd (x0.rect, s.2) }).nodes (k + 1) id) →
            (b = false → rc = nr) →
            Removed M fn st nr fl (k + 1) id ⟨{ setNode x0.st id { n with slots := n.slots.set hd (x0.rect, s.2) } with hint := x0.st.hint.set depth hd }, rc, true, b⟩ := by
          intro rc b hrc hb
          refine ⟨_, e, fl1, hfe, hE3, a1, u3.trans g (Upd.hint u3.world ?_), hpot, hrc, hb⟩
          show (x0.st.hint.set depth hd).length = x0.st.hint.length
          simp
        split
        · obtain ⟨bb, hbb, hin⟩ := boundingBox_ok (n := { n with slots := n.slots.set hd (x0.rect, s.2) }) (by simp; rw [h.len]; omega)
          rw [hbb, ok_bind]
          exact ⟨_, rfl, rfl, fin bb true (hbox a1 hbb hin) (nomatch ·)⟩
        · rename_i hns
          refine ⟨_, rfl, rfl, fin nr false ⟨fun e' he' => hnr.1 e' (hE3.mem_iff.2 (by simp [he'])), fun ht _ q hq => ?_⟩ fun _ => rfl⟩
          have hne := nEnts_ne hcn' (by omega)
          have hqc : ∀ e' ∈ nEnts x0.st.nodes k c, q.contains e'.1 = true := fun e' he' => hq e' (a3.mem_iff.2 (by simp [he']))
          have hq0 : q.contains x0.rect = true := hrect.2 ht hne q hqc
          have hqs : q.contains s.1 = true := by
            cases hsh : x0.shrunk with
            | false => rw [← hshr hsh]; exact hq0
            | true =>
              have heq : x0.rect.equals crect = true := by simpa [hsh] using hns
              simp only [Rect.equals, Bool.and_eq_true] at heq
              rcases hcr with rfl | hcr
              · exfalso
                obtain ⟨e', he'⟩ := List.exists_mem_of_ne_nil _ hne
                have h1 := contains_trans (coordEq_contains heq.1 heq.2) (hrect.1 e' he')
                rw [h0c ht e' (hE.mem_iff.2 (by simp [he']))] at h1
                cases h1
              · rw [hs] at hcr
                simp only [Option.map_some, Option.some.injEq] at hcr
                subst hcr
                exact contains_trans hq0 (coordEq_contains' heq.1 heq.2)
          refine hnr.2 ht (fun h0 => by rw [h0] at hE3; exact absurd hE3.nil_eq (by simp)) q fun e' he' => ?_
          rcases List.mem_append.1 (pe.mem_iff.1 he') with he' | he'
          · exact contains_trans hqs (hcont.1 e' he')
          · exact hq e' (a3.mem_iff.2 (by simp [he']))

theorem tryAll_ok {M : Nat} (hM : 1 ≤ M) (fn : Rect N D → T → Bool) {input : Rect N D} {k : Nat}
    {rec : RT N T D → Rect N D → Nat → Res (Del N T D)} (hrec : RecOk M fn input k rec) {st : RT N T D} {nr : Rect N D} {id : Nat}
    {n : Node N T D} {fl : List Nat} (g : Good M st (nIds st.nodes (k + 1) id) fl) (h : NOk M st.nodes (k + 1) id n)
    (h0 : Mode.tight → Off0 (nEnts st.nodes (k + 1) id)) (hnr : Bd nr (nEnts st.nodes (k + 1) id)) (depth : Nat) :
    ∀ (cnt hd : Nat), hd + cnt = n.count → ∃ x, tryAll rec nr id input depth cnt hd st = .ok x ∧
      (x.removed = false → x.st = st ∧ x.rect = nr ∧ ∀ (j : Nat) (s : Slot N T D), hd ≤ j → j < n.count → n.slots[j]? = some s →
        ∀ e ∈ sEnts st.nodes (k + 1) s, e.1.contains input = true → fn e.1 e.2 = false) ∧
      (x.removed = true → Removed M fn st nr fl (k + 1) id x)
  | 0, hd, hc => ⟨_, rfl, fun _ => ⟨rfl, rfl, fun j s h1 h2 => by omega⟩, fun h => by cases h⟩
  | cnt + 1, hd, hc => by
    have hhd : hd < n.count := by omega
    have hs : n.slots[hd]? = some (n.slots[hd]'(by rw [h.len]; have := h.cnt; omega)) := List.getElem?_eq_getElem _
    generalize n.slots[hd]'(by rw [h.len]; have := h.cnt; omega) = s at hs
    obtain ⟨x1, t1, t2, t3⟩ := tryAll_ok hM fn hrec g h h0 hnr depth cnt (hd + 1) (by omega)
    unfold tryAll
    rw [getNode_of h.get, ok_bind, slotAt_of hs, ok_bind]
    by_cases hci : s.1.contains input = true
    · rw [if_pos hci]
      obtain ⟨x, e1, hno, hyes⟩ := descend_ok hM fn hrec g h h0 hnr hhd depth
      rw [e1, ok_bind]
      cases hr : x.removed with
      | true =>
        obtain ⟨y, e2, hy, hrem⟩ := hyes hr s.1 (.inr (by rw [hs]; rfl))
        rw [if_pos rfl, e2]
        exact ⟨y, rfl, (fun h => by rw [hy] at h; cases h), fun _ => hrem⟩
      | false =>
        obtain ⟨q1, q2⟩ := hno hr
        simp only [Bool.false_eq_true, if_false]
        rw [q1, t1]
        refine ⟨x1, rfl, fun hf => ?_, t3⟩
        obtain ⟨r1, r2, r3⟩ := t2 hf
        refine ⟨r1, r2, fun j s' h1 h2 hs' => ?_⟩
        by_cases hj : j = hd
        · subst hj; exact q2 s' hs'
        · exact r3 j s' (by omega) h2 hs'
    · rw [if_neg hci, t1]
      refine ⟨x1, rfl, fun hf => ?_, t3⟩
      obtain ⟨r1, r2, r3⟩ := t2 hf
      refine ⟨r1, r2, fun j s' h1 h2 hs' e he hx => ?_⟩
      by_cases hj : j = hd
      · subst hj
        rw [hs] at hs'; injection hs' with hs'; subst hs'
        exfalso
        have hm : s ∈ live n := List.mem_of_getElem? (i := j) (by rw [live_get hhd]; exact hs)
        obtain ⟨c, _, w1, _, _, w4⟩ := sOk_succ.1 (h.slots s hm)
        rw [sEnts_succ, cd_child w1] at he
        exact hci (contains_trans (w4.1 e he) hx)
      · exact r3 j s' (by omega) h2 hs' e he hx

theorem nodeDelete_ok {M : Nat} (hM : 1 ≤ M) (fn : Rect N D → T → Bool) (input : Rect N D) (hfit : Mode.tight → Fits fn input) : ∀ (k f depth : Nat), k < f → depth + k ≤ 16 →
    RecOk M fn input k (nodeDelete fn input f depth)
  | k, 0, depth, hf, hd => by omega
  | 0, f + 1, depth, hf, hd => by
    intro st nr id n fl g h h0 hnr
    unfold nodeDelete
    rw [getNode_of h.get, ok_bind, if_neg (by have := h.len; have := h.cnt; omega), if_pos (show n.kind = .leaf from h.kind)]
    obtain ⟨x, e, h1, h2⟩ := leafDelete_ok hM fn input hfit g h hnr
    exact ⟨x, e, fun hx => ⟨(h1 hx).1, (h1 hx).2.1, fun e he _ => (h1 hx).2.2 e he⟩, h2⟩
  | k + 1, f + 1, depth, hf, hd => by
    intro st nr id n fl g h h0 hnr
    have hrec := nodeDelete_ok hM fn input hfit k f (depth + 1) (by omega) (by omega)
    unfold nodeDelete
    rw [getNode_of h.get, ok_bind, if_neg (by have := h.len; have := h.cnt; omega), if_neg (by rw [h.kind]; simp [kindOf])]
    unfold branchDelete hintAt
    have hh : st.hint[depth]? = some (st.hint[depth]'(by rw [g.world.hint]; omega)) := List.getElem?_eq_getElem _
    rw [hh]
    simp only
    rw [ok_bind]
    generalize st.hint[depth]'(by rw [g.world.hint]; omega) = hp
    obtain ⟨b, eb, hb⟩ := hinted_ok (n := n) hp input (by rw [h.len]; exact h.cnt)
    rw [eb, ok_bind]
    obtain ⟨x1, t1, t2, t3⟩ := tryAll_ok hM fn hrec g h h0 hnr depth n.count 0 (by omega)
    have hall : x1.removed = false → x1.st = st ∧ x1.rect = nr ∧
        ∀ e ∈ nEnts st.nodes (k + 1) id, e.1.contains input = true → fn e.1 e.2 = false := by
      intro hf
      obtain ⟨r1, r2, r3⟩ := t2 hf
      refine ⟨r1, r2, fun e he => ?_⟩
      unfold nEnts at he
      rw [liveAt_of h.get, List.mem_flatMap] at he
      obtain ⟨s, hs, he⟩ := he
      obtain ⟨j, hj⟩ := List.mem_iff_getElem?.1 hs
      have hjl : j < n.count := by
        have := (List.getElem?_eq_some_iff.1 hj).1
        rwa [h.live_length] at this
      rw [live_get hjl] at hj
      exact r3 j s (by omega) hjl hj e he
    cases b with
    | false =>
      simp only [Bool.false_eq_true, if_false]
      rw [t1]
      exact ⟨x1, rfl, hall, t3⟩
    | true =>
      simp only [if_true]
      obtain ⟨x, e1, hno, hyes⟩ := descend_ok hM fn hrec g h h0 hnr (hb rfl).1 depth
      rw [e1, ok_bind]
      cases hr : x.removed with
      | true =>
        obtain ⟨y, e2, hy, hrem⟩ := hyes hr Rect.zero (.inl rfl)
        rw [if_pos rfl, e2]
        exact ⟨y, rfl, (fun h => by rw [hy] at h; cases h), fun _ => hrem⟩
      | false =>
        simp only [Bool.false_eq_true, if_false]
        rw [(hno hr).1, t1]
        exact ⟨x1, rfl, hall, t3⟩

end Cista.RTree
