import Verif.RTree.Delete

/-!
# R-tree: the public operations
-/
set_option linter.unusedSimpArgs false
set_option linter.unusedSectionVars false

namespace Cista.RTree
open Coord

variable {N T : Type} [Coord N] {D : Nat} [Mode]

/-- The tree holds the entries `m`; `B` bounds the number of insertions so far; the nodes `lost` are neither in the tree nor free. -/
def RepL (M B : Nat) (lost : List Nat) (st : RT N T D) (m : List (Ent N T D)) : Prop :=
  (st.root = none ∧ st.count = 0 ∧ st.height = 0 ∧ m = [] ∧ ∃ fl, Good M st lost fl ∧ Full st lost fl) ∨
  ∃ k root nd fl, TreeAt M lost st k root nd fl ∧ 1 ≤ nd.count ∧ st.count = m.length ∧ (nEnts st.nodes k root).Perm m ∧
    nPot M st.nodes k root + geo (minItems M) k ≤ B ∧ Bd st.rect m

/-- The same, with no node lost. -/
abbrev Rep (M B : Nat) (st : RT N T D) (m : List (Ent N T D)) : Prop := RepL M B [] st m

theorem Rep.init (M : Nat) : Rep M 0 (RT.init : RT N T D) [] :=
  Or.inl ⟨rfl, rfl, rfl, rfl, [], ⟨by simp, by simp, ⟨by simp [RT.init], by simp [RT.init, Free], by simp [RT.init]⟩⟩, by simp [Full, RT.init]⟩

theorem RepL.perm {M B : Nat} {lost : List Nat} {st : RT N T D} {m m' : List (Ent N T D)} (h : RepL M B lost st m) (hp : m.Perm m') : RepL M B lost st m' := by
  rcases h with ⟨h1, h2, h3, h4, h5⟩ | ⟨k, root, nd, fl, h1, h2, h3, h4, h5, h6⟩
  · subst h4
    exact Or.inl ⟨h1, h2, h3, hp.nil_eq.symm, h5⟩
  · exact Or.inr ⟨k, root, nd, fl, h1, h2, by rw [h3, hp.length_eq], h4.trans hp, h5, h6.perm hp⟩

theorem insertLoop_ensure [NeZero D] {M : Nat} {r : Rect N D} {d : T} {f : Nat} {st st1 : RT N T D} {i : Nat}
    (h1 : ensureRoot M st r = .ok (st1, i)) (h2 : ensureRoot M st1 r = .ok (st1, i)) :
    insertLoop M r d (f + 1) st = insertLoop M r d (f + 1) st1 := by
  unfold insertLoop
  rw [h1, h2]

theorem insert_ok [NeZero D] {M : Nat} (hM : 3 ≤ M) {B : Nat} (hB : B < geo (minItems M) 17) {lost : List Nat} {st : RT N T D} {m : List (Ent N T D)}
    (h : RepL M B lost st m) (r : Rect N D) (d : T) : ∃ st', insert M st r d = .ok st' ∧ RepL M (B + 1) lost st' ((r, d) :: m) := by
  unfold insert
  rcases h with ⟨h1, h2, h3, h4, fl, h5, h6⟩ | ⟨k, root, nd, fl, h1, h2, h3, h4, h5, h6⟩
  · subst h4
    obtain ⟨st1, j, fl1, n, e1, u1, hj, hjk, hjc, hjs, hjh⟩ := nodeNew_ok h5 .leaf
    have u1' : Upd M st lost fl st1 (lost ++ [j]) fl1 := by
      have := u1.context (K := lost)
      rwa [List.append_nil] at this
    have hE : ensureRoot M st r = .ok ({ st1 with root := some j, rect := r, height := 1 }, j) := by
      unfold ensureRoot
      rw [h1]
      simp only
      rw [e1, ok_bind]
    rw [insertLoop_ensure hE rfl]
    have hlv : liveAt st1.nodes j = [] := by rw [liveAt_of hj]; unfold live; rw [hjc]; rfl
    have hI : nIds st1.nodes 0 j = [j] := by unfold nIds; rw [hlv]; rfl
    have hP : nPot M st1.nodes 0 j = 0 := by unfold nPot; rw [hlv]; simp
    have hEn : nEnts st1.nodes 0 j = [] := by unfold nEnts; rw [hlv]; rfl
    have t : TreeAt M lost ({ st1 with root := some j, rect := r, height := 1 } : RT N T D) 0 j n fl1 := by
      refine ⟨?_, ?_, ⟨hj, hjk, hjs, by omega, ?_⟩, rfl, rfl⟩
      · show Good M _ (lost ++ nIds st1.nodes 0 j) fl1
        rw [hI]; exact (u1'.good h5).change rfl rfl rfl
      · show ((lost ++ nIds st1.nodes 0 j) ++ fl1).Perm (List.range st1.nodes.length)
        rw [hI]; exact u1'.full h6
      · intro s hs
        rw [← liveAt_of hj, hlv] at hs
        cases hs
    obtain ⟨st', k', root', nd', fl', q1, q2, q3, q4, q5, q6, q7⟩ := insertLoop_ok hM r d B hB (st.nodes.length * minItems M ^ st.height + 1 + 1)
      _ 0 j n fl1 t (Or.inl rfl) (by show nPot M st1.nodes 0 j + 0 ≤ B; rw [hP]; omega) (by show nPot M st1.nodes 0 j < _; rw [hP]; omega)
    have q4' : (nEnts st'.nodes k' root').Perm [(r, d)] := by
      have : nEnts ({ st1 with root := some j, rect := r, height := 1 } : RT N T D).nodes 0 j = [] := hEn
      rw [this] at q4; exact q4
    refine ⟨st', q1, Or.inr ⟨k', root', nd', fl', q2, q3, ?_, q4', q7, ?_⟩⟩
    · rw [q5]
      show st1.count + 1 = 1
      rw [u1.same.2.2.1, h2]
    · rw [q6]
      refine ⟨fun e he => ?_, fun _ _ q hq => expand_least (hq (r, d) (by simp)) (hq (r, d) (by simp))⟩
      rw [List.mem_singleton] at he
      subst he
      exact expand_right _ _
  · have hids : (nIds st.nodes k root).length ≤ st.nodes.length := by
      have := h1.full.length_eq
      rw [List.length_append, List.length_append, List.length_range] at this
      omega
    have hp := nPot_le (by omega) k root nd h1.ok
    have hp2 := Nat.mul_le_mul_right (minItems M ^ (k + 1)) hids
    obtain ⟨st', k', root', nd', fl', q1, q2, q3, q4, q5, q6, q7⟩ := insertLoop_ok hM r d B hB (st.nodes.length * minItems M ^ st.height + 2)
      st k root nd fl h1 (Or.inr h2) h5 (by rw [h1.height]; omega)
    refine ⟨st', q1, Or.inr ⟨k', root', nd', fl', q2, q3, ?_, q4.trans (h4.cons _), q7, ?_⟩⟩
    · rw [q5, h3]; rfl
    · rw [q6]
      exact h6.expand fun h0 => by
        rw [h0] at h4
        exact nEnts_ne h1.ok h2 h4.eq_nil

theorem search_ok {M B : Nat} {lost : List Nat} {st : RT N T D} {m : List (Ent N T D)} (h : RepL M B lost st m) :
    ∃ L : List (Ent N T D), L.Perm m ∧ ∀ (r : Rect N D) (fn : Callback N T D),
      search st r fn = .ok (stopFold fn [] (L.filter fun e => e.1.intersects r)).1 := by
  rcases h with ⟨h1, h2, h3, h4, fl, h5, h6⟩ | ⟨k, root, nd, fl, h1, h2, h3, h4, h5, h6⟩
  · refine ⟨[], by rw [h4], fun r fn => ?_⟩
    unfold search
    rw [h1]
    rfl
  · refine ⟨_, h4, fun r fn => ?_⟩
    unfold search
    rw [h1.root]
    simp only
    rw [nodeSearch_ok r fn k st.height root nd [] h1.ok (by rw [h1.height]; omega), ok_bind]

/-! ## Deletion -/

theorem live_le_ents {M : Nat} {ns : List (Node N T D)} {k i : Nat} {n : Node N T D} (h : NOk M ns k i n) :
    (live n).length ≤ (nEnts ns k i).length ∧ (1 ≤ (nEnts ns k i).length → 1 ≤ n.count) := by
  have key : ∀ L : List (Slot N T D), (∀ s ∈ L, s ∈ live n) → L.length ≤ (L.flatMap (sEnts ns k)).length := by
    intro L
    induction L with
    | nil => simp
    | cons s L ih =>
      intro hm
      have := ih fun x hx => hm x (by simp [hx])
      have := sEnts_pos k s (h.slots s (hm s (by simp)))
      rw [List.flatMap_cons, List.length_append, List.length_cons]
      omega
  unfold nEnts
  rw [liveAt_of h.get]
  refine ⟨key _ fun s hs => hs, fun h1 => ?_⟩
  rw [← h.live_length]
  cases hL : live n with
  | nil => rw [hL] at h1; simp at h1
  | cons a L => simp

theorem collapse_ok {M B : Nat} {lost : List Nat} {m : List (Ent N T D)} (hm : 1 ≤ m.length) : ∀ (f : Nat) (st : RT N T D) (k root : Nat) (nd : Node N T D) (fl : List Nat),
    TreeAt M lost st k root nd fl → st.count = m.length → (nEnts st.nodes k root).Perm m →
    nPot M st.nodes k root + geo (minItems M) k ≤ B → k < f →
    ∃ st' k' root' nd' fl', collapse f st root = .ok (st', root') ∧ TreeAt M lost st' k' root' nd' fl' ∧ 1 ≤ nd'.count ∧ st'.count = m.length ∧
      (nEnts st'.nodes k' root').Perm m ∧ nPot M st'.nodes k' root' + geo (minItems M) k' ≤ B ∧ st'.rect = st.rect
  | 0, st, k, root, nd, fl, t, hc, he, hp, hf => by omega
  | f + 1, st, k, root, nd, fl, t, hc, he, hp, hf => by
    have hl := live_le_ents t.ok
    unfold collapse
    rw [getNode_of t.ok.get, ok_bind]
    by_cases hb : nd.kind = .branch ∧ st.count = 1
    · rw [if_pos hb]
      obtain ⟨k, rfl⟩ : ∃ k', k = k' + 1 := by
        cases k with
        | zero => have := t.ok.kind; rw [hb.1] at this; simp [kindOf] at this
        | succ k => exact ⟨k, rfl⟩
      have hcnt : nd.count = 1 := by
        have h1 := hl.1
        rw [t.ok.live_length, he.length_eq, ← hc, hb.2] at h1
        have h2 := hl.2 (by rw [he.length_eq]; exact hm)
        omega
      obtain ⟨s, c, cn, R, hs, hsc, hcn, hcn1, hcont, hperm, hRok, hset⟩ := t.ok.pick (i := 0) (by omega)
      have hR : R = [] := by
        have := hperm.length_eq
        rw [t.ok.live_length, hcnt, List.length_cons] at this
        exact List.eq_nil_of_length_eq_zero (by omega)
      subst hR
      have hcd := cd_child hsc
      obtain ⟨pi, pe, pp⟩ := via_perm (M := M) (k := k + 1) t.ok.get hperm
      rw [List.flatMap_cons, sIds_succ, hcd, List.flatMap_nil, List.append_nil] at pi
      rw [List.flatMap_cons, sEnts_succ, hcd, List.flatMap_nil, List.append_nil] at pe
      rw [List.map_cons, List.sum_cons, sPot_succ, hcd] at pp
      rw [slotAt_of hs, ok_bind, childOf_ok hsc, ok_bind]
      have pi' : (nIds st.nodes (k + 1) root).Perm (nIds st.nodes k c ++ [root]) := pi.trans (List.perm_append_comm (l₁ := [root]))
      have g1 : Good M st (nIds st.nodes k c ++ [root]) fl := t.good.perm pi'
      have hrl : root < st.nodes.length := (List.getElem?_eq_some_iff.1 t.ok.get).1
      have u2 : Upd M st (nIds st.nodes k c ++ [root]) fl (setNode st root { nd with count := 0 }) (nIds st.nodes k c ++ [root]) fl :=
        Upd.set g1 (by simp) t.ok.len
      have g2 := u2.good g1
      obtain ⟨st3, e3, u3, hh3, hl3⟩ := addFree_ok g2 (by
        intro n' hn'
        rw [show (setNode st root { nd with count := 0 }).nodes[root]? = some { nd with count := 0 } from List.getElem?_set_self hrl] at hn'
        injection hn' with hn'
        rw [← hn']
        show nd.kind ≠ _
        rw [hb.1]; simp)
      rw [e3, ok_bind]
      have u3' : Upd M st (nIds st.nodes (k + 1) root) fl st3 (nIds st.nodes k c) (root :: fl) := by
        have h3 := u3.context (K := nIds st.nodes k c)
        rw [List.append_nil] at h3
        exact (u2.trans g1 h3).perm' pi'.symm (List.Perm.refl _)
      have hframe := nframe (M := M) (ns := st.nodes) (ns' := st3.nodes) (k := k) (i := c) fun j hj => by
        have hjne : j ≠ root := by
          rintro rfl
          have hnd := g1.nodup
          rw [List.nodup_append, List.nodup_append] at hnd
          exact hnd.1.2.2 j hj j (by simp) rfl
        rw [u3.untouched g2 hj]
        show (st.nodes.set root _)[j]? = _
        rw [List.getElem?_set_ne (fun h => hjne h.symm)]
      have t' : TreeAt M lost ({ st3 with root := some c, height := st3.height - 1 } : RT N T D) k c cn (root :: fl) := by
        refine t.step (st' := st3) (by rw [hframe.2.1]; exact u3') (hframe.2.2.2 cn hcn) rfl rfl rfl rfl ?_
        · show st3.height - 1 = k + 1
          rw [u3'.same.2.2.2, t.height]; omega
      have hg : geo (minItems M) k ≤ geo (minItems M) (k + 1) := geo_mono _ (by omega)
      obtain ⟨st', k', root', nd', fl', q1, q2, q3, q4, q5, q6, q7⟩ := collapse_ok (B := B) hm f _ k c cn (root :: fl) t'
        (by show st3.count = _; rw [u3'.same.2.2.1, hc])
        (by show (nEnts st3.nodes k c).Perm m; rw [hframe.1]; exact pe.symm.trans he)
        (by show nPot M st3.nodes k c + _ ≤ B; rw [hframe.2.2.1]; omega) (by omega)
      exact ⟨st', k', root', nd', fl', q1, q2, q3, q4, q5, q6, by rw [q7]; exact u3'.same.2.1⟩
    · rw [if_neg hb]
      exact ⟨st, k, root, nd, fl, rfl, t, hl.2 (by rw [he.length_eq]; exact hm), hc, he, hp, rfl⟩

/-- Deletion removes one entry satisfying the predicate, or finds none whose rectangle contains the input. -/
theorem deleteFn_ok {M : Nat} (hM : 1 ≤ M) {B : Nat} (hB : B < geo (minItems M) 17) {lost : List Nat} {st : RT N T D} {m : List (Ent N T D)}
    (h : RepL M B lost st m) (input : Rect N D) (fn : Rect N D → T → Bool) (hfit : Mode.tight → Fits fn input) (h0 : Mode.tight → Off0 m) :
    ∃ st', deleteFn st input fn = .ok st' ∧
      ((RepL M B lost st' m ∧ ∀ e ∈ m, e.1.contains input = true → fn e.1 e.2 = false) ∨
       ∃ e m', m.Perm (e :: m') ∧ fn e.1 e.2 = true ∧ RepL M B lost st' m') := by
  unfold deleteFn
  rcases h with ⟨h1, h2, h3, h4, h5⟩ | ⟨k, root, nd, fl, h1, h2, h3, h4, h5, h6⟩
  · rw [h1]
    exact ⟨st, rfl, Or.inl ⟨Or.inl ⟨h1, h2, h3, h4, h5⟩, by rw [h4]; simp⟩⟩
  · rw [h1.root]
    simp only
    have hk : k ≤ 16 := by
      rcases Nat.lt_or_ge 16 k with h | h
      · have := geo_mono (minItems M) (show 17 ≤ k by omega)
        omega
      · exact h
    obtain ⟨x, e1, hno, hyes⟩ := nodeDelete_ok hM fn input hfit k st.height 0 (by rw [h1.height]; omega) (by omega) st st.rect root nd fl h1.good h1.ok
      (fun ht e he => h0 ht e (h4.mem_iff.1 he)) (h6.perm h4.symm)
    rw [e1, ok_bind]
    cases hr : x.removed with
    | false =>
      obtain ⟨q1, q2, q3⟩ := hno hr
      simp only [Bool.false_eq_true, if_false]
      rw [q1, q2]
      exact ⟨st, rfl, Or.inl ⟨Or.inr ⟨k, root, nd, fl, h1, h2, h3, h4, h5, h6⟩, fun e he => q3 e (h4.mem_iff.2 he)⟩⟩
    | true =>
      obtain ⟨nd1, e, fl1, hfe, hE, hnd1, u1, po1, hrc, _⟩ := hyes hr
      simp only [if_true]
      have hmE : m.Perm (e :: nEnts x.st.nodes k root) := h4.symm.trans hE
      have hlen : m.length = (nEnts x.st.nodes k root).length + 1 := by rw [hmE.length_eq, List.length_cons]
      have hcount : x.st.count - 1 = (nEnts x.st.nodes k root).length := by rw [u1.same.2.2.1, h3, hlen]; rfl
      have t1 : TreeAt M lost ({ x.st with rect := x.rect, count := x.st.count - 1 } : RT N T D) k root nd1 fl1 :=
        h1.step u1 hnd1 rfl rfl rfl (u1.same.1.trans h1.root) (u1.same.2.2.2.trans h1.height)
      unfold afterDelete
      by_cases hz : x.st.count - 1 = 0
      · rw [if_pos (show ({ x.st with rect := x.rect, count := x.st.count - 1 } : RT N T D).count = 0 from hz)]
        have hl := (live_le_ents hnd1).1
        have hn0 : nEnts x.st.nodes k root = [] := List.eq_nil_of_length_eq_zero (by omega)
        have hlv : liveAt x.st.nodes root = [] := by
          rw [liveAt_of hnd1.get]; exact List.eq_nil_of_length_eq_zero (by rw [hn0] at hl; simpa using hl)
        have hI : nIds x.st.nodes k root = [root] := by unfold nIds; rw [hlv]; rfl
        have g1 := t1.all
        rw [show nIds ({ x.st with rect := x.rect, count := x.st.count - 1 } : RT N T D).nodes k root = [root] from hI] at g1
        obtain ⟨st3, e3, u3, hh3, hl3⟩ := addFree_ok g1 (by
          intro n' hn'
          rw [show ({ x.st with rect := x.rect, count := x.st.count - 1 } : RT N T D).nodes[root]? = some nd1 from hnd1.get] at hn'
          injection hn' with hn'
          rw [← hn', hnd1.kind]
          cases k <;> simp [kindOf])
        rw [e3, ok_bind]
        have u3' : Upd M ({ x.st with rect := x.rect, count := x.st.count - 1 } : RT N T D) (lost ++ [root]) fl1 st3 lost (root :: fl1) := by
          have := u3.context (K := lost)
          rwa [List.append_nil] at this
        have hf1 := t1.full
        rw [show nIds ({ x.st with rect := x.rect, count := x.st.count - 1 } : RT N T D).nodes k root = [root] from hI] at hf1
        refine ⟨_, rfl, Or.inr ⟨e, [], by rw [← hn0]; exact hmE, hfe, Or.inl ⟨rfl, ?_, rfl, rfl, root :: fl1, ?_, ?_⟩⟩⟩
        · show st3.count = 0
          rw [u3.same.2.2.1]; exact hz
        · exact (u3'.good g1).change rfl rfl rfl
        · exact u3'.full hf1
      · rw [if_neg (show ¬({ x.st with rect := x.rect, count := x.st.count - 1 } : RT N T D).count = 0 from hz)]
        obtain ⟨st', k', root', nd', fl', q1, q2, q3, q4, q5, q6, q7⟩ := collapse_ok (B := B) (m := nEnts x.st.nodes k root) (by omega)
          (({ x.st with rect := x.rect, count := x.st.count - 1 } : RT N T D).height + 1) _ k root nd1 fl1 t1 hcount (List.Perm.refl _)
          (by show nPot M x.st.nodes k root + _ ≤ B; omega) (by rw [t1.height]; omega)
        rw [q1, ok_bind]
        simp only
        cases x.shrunk with
        | false =>
          simp only [Bool.false_eq_true, if_false]
          refine ⟨st', rfl, Or.inr ⟨e, _, hmE, hfe, Or.inr ⟨k', root', nd', fl', q2, q3, q4, q5, q6, ?_⟩⟩⟩
          rw [q7]
          exact hrc
        | true =>
          simp only [if_true]
          rw [getNode_of q2.ok.get, ok_bind]
          obtain ⟨bb, hbb, hin⟩ := boundingBox_ok (n := nd') (by rw [q2.ok.len]; omega)
          rw [hbb, ok_bind]
          refine ⟨_, rfl, Or.inr ⟨e, _, hmE, hfe, Or.inr ⟨k', root', nd', fl', q2.change rfl rfl rfl q2.root q2.height, q3, q4, q5, q6, ?_⟩⟩⟩
          exact (hbox q2.ok hbb hin).perm q5

end Cista.RTree
