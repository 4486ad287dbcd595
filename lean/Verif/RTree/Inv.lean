import Verif.RTree.Local

/-!
# R-tree: the node arena as a tree

A node at level `k` (leaves are level 0) holds slots of level `k`; a slot of level 0 is an entry, a slot of level `k + 1` is a node of
level `k` with its bounding rectangle.
-/
set_option linter.unusedSimpArgs false
set_option linter.unusedSectionVars false

namespace Cista.RTree
open Coord

variable {N T : Type} [Coord N] {D : Nat}

/-- Whether the invariant demands that rectangles are as small as possible. -/
class Mode where
  tight : Prop

variable [Mode]

abbrev Ent (N T : Type) (D : Nat) := Rect N D × T

/-- Child index of a slot. -/
def cd (s : Slot N T D) : Nat :=
  match s.2 with
  | .child c => c
  | _ => 0

/-- Occupied slots of a node. -/
def liveAt (ns : List (Node N T D)) (i : Nat) : List (Slot N T D) :=
  match ns[i]? with
  | some n => live n
  | none => []

/-- Entries below a slot. -/
def sEnts (ns : List (Node N T D)) : Nat → Slot N T D → List (Ent N T D)
  | 0, s =>
    match s.2 with
    | .item d => [(s.1, d)]
    | _ => []
  | k + 1, s => (liveAt ns (cd s)).flatMap (sEnts ns k)

/-- Nodes below a slot. -/
def sIds (ns : List (Node N T D)) : Nat → Slot N T D → List Nat
  | 0, _ => []
  | k + 1, s => cd s :: (liveAt ns (cd s)).flatMap (sIds ns k)

/-- Potential: how much insertions have filled the nodes beyond what a split leaves. -/
def sPot (M : Nat) (ns : List (Node N T D)) : Nat → Slot N T D → Nat
  | 0, _ => 0
  | k + 1, s => ((liveAt ns (cd s)).length - (M - minItems M)) * minItems M ^ k + ((liveAt ns (cd s)).map (sPot M ns k)).sum

def nEnts (ns : List (Node N T D)) (k i : Nat) : List (Ent N T D) := (liveAt ns i).flatMap (sEnts ns k)
def nIds (ns : List (Node N T D)) (k i : Nat) : List Nat := i :: (liveAt ns i).flatMap (sIds ns k)
def nPot (M : Nat) (ns : List (Node N T D)) (k i : Nat) : Nat :=
  ((liveAt ns i).length - (M - minItems M)) * minItems M ^ k + ((liveAt ns i).map (sPot M ns k)).sum

def kindOf : Nat → Kind
  | 0 => .leaf
  | _ + 1 => .branch

/-- Every rectangle that contains the entries contains `r`. -/
def Least (r : Rect N D) (es : List (Ent N T D)) : Prop :=
  es ≠ [] → ∀ q : Rect N D, (∀ e ∈ es, q.contains e.1 = true) → q.contains r = true

/-- A rectangle bounds entries. -/
def Bd (r : Rect N D) (es : List (Ent N T D)) : Prop := (∀ e ∈ es, r.contains e.1 = true) ∧ (Mode.tight → Least r es)

theorem Bd.perm {r : Rect N D} {es es' : List (Ent N T D)} (h : Bd r es) (hp : es.Perm es') : Bd r es' :=
  ⟨fun e he => h.1 e (hp.mem_iff.2 he), fun ht hn q hq =>
    h.2 ht (fun h0 => hn (by rw [h0] at hp; exact hp.nil_eq.symm)) q fun e he => hq e (hp.mem_iff.1 he)⟩

/-- A slot of level `k` is well formed: nodes are occupied, and the rectangle bounds everything below. -/
def sOk (M : Nat) (ns : List (Node N T D)) : Nat → Slot N T D → Prop
  | 0, s => ∃ d, s.2 = .item d
  | k + 1, s => ∃ c n, s.2 = .child c ∧ ns[c]? = some n ∧ n.kind = kindOf k ∧ n.slots.length = M ∧ 1 ≤ n.count ∧ n.count ≤ M ∧
      (∀ s' ∈ live n, sOk M ns k s') ∧ Bd s.1 (nEnts ns k c)

/-- A node of level `k` is well formed (it may be empty). -/
structure NOk (M : Nat) (ns : List (Node N T D)) (k i : Nat) (n : Node N T D) : Prop where
  get : ns[i]? = some n
  kind : n.kind = kindOf k
  len : n.slots.length = M
  cnt : n.count ≤ M
  slots : ∀ s ∈ live n, sOk M ns k s

theorem sOk_succ {M : Nat} {ns : List (Node N T D)} {k : Nat} {s : Slot N T D} :
    sOk M ns (k + 1) s ↔ ∃ c n, s.2 = .child c ∧ NOk M ns k c n ∧ 1 ≤ n.count ∧ Bd s.1 (nEnts ns k c) := by
  constructor
  · rintro ⟨c, n, h1, h2, h3, h4, h5, h6, h7, h8⟩
    exact ⟨c, n, h1, ⟨h2, h3, h4, h6, h7⟩, h5, h8⟩
  · rintro ⟨c, n, h1, h2, h5, h8⟩
    exact ⟨c, n, h1, h2.get, h2.kind, h2.len, h5, h2.cnt, h2.slots, h8⟩

theorem cd_child {s : Slot N T D} {c : Nat} (h : s.2 = .child c) : cd s = c := by
  unfold cd; rw [h]

theorem childOf_ok {s : Slot N T D} {c : Nat} (h : s.2 = .child c) : childOf s = .ok c := by
  unfold childOf; rw [h]

theorem sEnts_succ (ns : List (Node N T D)) (k : Nat) (s : Slot N T D) : sEnts ns (k + 1) s = nEnts ns k (cd s) := rfl
theorem sIds_succ (ns : List (Node N T D)) (k : Nat) (s : Slot N T D) : sIds ns (k + 1) s = nIds ns k (cd s) := rfl
theorem sPot_succ (M : Nat) (ns : List (Node N T D)) (k : Nat) (s : Slot N T D) : sPot M ns (k + 1) s = nPot M ns k (cd s) := rfl

theorem liveAt_of {ns : List (Node N T D)} {i : Nat} {n : Node N T D} (h : ns[i]? = some n) : liveAt ns i = live n := by
  unfold liveAt; rw [h]

theorem getNode_of {st : RT N T D} {i : Nat} {n : Node N T D} (h : st.nodes[i]? = some n) : getNode st i = .ok n := by
  unfold getNode; rw [h]

theorem flatMap_congr {α β : Type _} {L : List α} {f g : α → List β} (h : ∀ a ∈ L, f a = g a) : L.flatMap f = L.flatMap g := by
  induction L with
  | nil => rfl
  | cons a L ih => rw [List.flatMap_cons, List.flatMap_cons, h a (by simp), ih fun x hx => h x (by simp [hx])]

/-- Changing nodes that are not below a slot changes nothing about the slot. -/
theorem frame {M : Nat} {ns ns' : List (Node N T D)} : ∀ (k : Nat) (s : Slot N T D), (∀ j ∈ sIds ns k s, ns'[j]? = ns[j]?) →
    sEnts ns' k s = sEnts ns k s ∧ sIds ns' k s = sIds ns k s ∧ sPot M ns' k s = sPot M ns k s ∧ (sOk M ns k s → sOk M ns' k s)
  | 0, s, _ => ⟨rfl, rfl, rfl, fun h => h⟩
  | k + 1, s, h => by
    have h0 : ns'[cd s]? = ns[cd s]? := h _ (by simp [sIds])
    have hl : liveAt ns' (cd s) = liveAt ns (cd s) := by unfold liveAt; rw [h0]
    have ih : ∀ x ∈ liveAt ns (cd s), _ := fun x hx => frame (M := M) (ns := ns) (ns' := ns') k x fun j hj => h j (by
      simp only [sIds, List.mem_cons, List.mem_flatMap]
      exact Or.inr ⟨x, hx, hj⟩)
    have hE : (liveAt ns (cd s)).flatMap (sEnts ns' k) = (liveAt ns (cd s)).flatMap (sEnts ns k) :=
      flatMap_congr fun x hx => (ih x hx).1
    refine ⟨?_, ?_, ?_, ?_⟩
    · simp only [sEnts]; rw [hl, hE]
    · simp only [sIds]; rw [hl, flatMap_congr fun x hx => (ih x hx).2.1]
    · simp only [sPot]; rw [hl]
      congr 2
      exact List.map_congr_left fun x hx => (ih x hx).2.2.1
    · rintro ⟨c, n, h1, h2, h3, h4, h5, h6, h7, h8⟩
      have hc := cd_child h1
      rw [hc] at h0 hl hE
      refine ⟨c, n, h1, by rw [h0]; exact h2, h3, h4, h5, h6, fun s' hs' => ?_, ?_⟩
      · exact (ih s' (by rw [hc, liveAt_of h2]; exact hs')).2.2.2 (h7 s' hs')
      · show Bd s.1 ((liveAt ns' c).flatMap (sEnts ns' k))
        rw [hl, hE]
        exact h8

/-- The same for a node. -/
theorem nframe {M : Nat} {ns ns' : List (Node N T D)} {k i : Nat} (h : ∀ j ∈ nIds ns k i, ns'[j]? = ns[j]?) :
    nEnts ns' k i = nEnts ns k i ∧ nIds ns' k i = nIds ns k i ∧ nPot M ns' k i = nPot M ns k i ∧
      (∀ n, NOk M ns k i n → NOk M ns' k i n) := by
  have h0 : ns'[i]? = ns[i]? := h i (by simp [nIds])
  have hl : liveAt ns' i = liveAt ns i := by unfold liveAt; rw [h0]
  have ih : ∀ x ∈ liveAt ns i, _ := fun x hx => frame (M := M) (ns := ns) (ns' := ns') k x fun j hj => h j (by
    simp only [nIds, List.mem_cons, List.mem_flatMap]
    exact Or.inr ⟨x, hx, hj⟩)
  refine ⟨?_, ?_, ?_, ?_⟩
  · simp only [nEnts]; rw [hl, flatMap_congr fun x hx => (ih x hx).1]
  · simp only [nIds]; rw [hl, flatMap_congr fun x hx => (ih x hx).2.1]
  · simp only [nPot]; rw [hl]
    congr 2
    exact List.map_congr_left fun x hx => (ih x hx).2.2.1
  · intro n hn
    refine ⟨by rw [h0]; exact hn.get, hn.kind, hn.len, hn.cnt, fun s hs => ?_⟩
    exact (ih s (by rw [liveAt_of hn.get]; exact hs)).2.2.2 (hn.slots s hs)

theorem nIds_zero (ns : List (Node N T D)) (i : Nat) : nIds ns 0 i = [i] := by
  unfold nIds
  rw [show (liveAt ns i).flatMap (sIds ns 0) = [] by simp [sIds]]

theorem NOk.live_length {M : Nat} {ns : List (Node N T D)} {k i : Nat} {n : Node N T D} (h : NOk M ns k i n) :
    (live n).length = n.count := RTree.live_length (by rw [h.len]; exact h.cnt)

/-! ## The free list -/

/-- The chain of freed nodes. -/
def Free (ns : List (Node N T D)) : Option Nat → List Nat → Prop
  | none, fl => fl = []
  | some i, [] => False
  | some i, j :: fl => j = i ∧ ∃ n, ns[i]? = some n ∧ Free ns (if n.kind = .endFree then none else some n.count) fl

theorem Free.frame {ns ns' : List (Node N T D)} : ∀ {fl : List Nat} {o : Option Nat}, Free ns o fl → (∀ j ∈ fl, ns'[j]? = ns[j]?) →
    Free ns' o fl
  | [], none, h, _ => h
  | [], some i, h, _ => h.elim
  | j :: fl, none, h, _ => by simp [Free] at h
  | j :: fl, some i, h, hf => by
    obtain ⟨rfl, n, h1, h2⟩ := h
    exact ⟨rfl, n, by rw [hf j (by simp)]; exact h1, h2.frame fun x hx => hf x (by simp [hx])⟩

structure World (M : Nat) (st : RT N T D) (fl : List Nat) : Prop where
  slots : ∀ n ∈ st.nodes, n.slots.length = M
  free : Free st.nodes st.free fl
  hint : st.hint.length = 16

/-- The nodes `I` are in use and `fl` are free. -/
structure Good (M : Nat) (st : RT N T D) (I fl : List Nat) : Prop where
  nodup : (I ++ fl).Nodup
  bnd : ∀ j ∈ I ++ fl, j < st.nodes.length
  world : World M st fl

/-- A step that only touches the nodes `I`, free nodes and new nodes, after which `I'` are in use and `fl'` are free. -/
structure Upd (M : Nat) (st : RT N T D) (I fl : List Nat) (st' : RT N T D) (I' fl' : List Nat) : Prop where
  frame : ∀ j, j < st.nodes.length → j ∉ I → j ∉ fl → st'.nodes[j]? = st.nodes[j]?
  len : st.nodes.length ≤ st'.nodes.length
  perm : (I' ++ fl').Perm (I ++ fl ++ List.range' st.nodes.length (st'.nodes.length - st.nodes.length))
  world : World M st' fl'
  same : st'.root = st.root ∧ st'.rect = st.rect ∧ st'.count = st.count ∧ st'.height = st.height

theorem Good.perm {M : Nat} {st : RT N T D} {I J fl : List Nat} (h : Good M st I fl) (hp : I.Perm J) : Good M st J fl :=
  ⟨(hp.append_right fl).nodup_iff.1 h.nodup, fun j hj => h.bnd j ((hp.append_right fl).mem_iff.2 hj), h.world⟩

theorem Upd.perm' {M : Nat} {st st' : RT N T D} {I J I' J' fl fl' : List Nat} (h : Upd M st I fl st' I' fl') (hp : I.Perm J)
    (hp' : I'.Perm J') : Upd M st J fl st' J' fl' :=
  ⟨fun j h1 h2 h3 => h.frame j h1 (fun hj => h2 (hp.mem_iff.1 hj)) h3, h.len,
    ((hp'.append_right fl').symm.trans h.perm).trans ((hp.append_right fl).append_right _), h.world, h.same⟩

theorem Upd.refl {M : Nat} {st : RT N T D} {I fl : List Nat} (h : World M st fl) : Upd M st I fl st I fl :=
  ⟨fun _ _ _ _ => rfl, Nat.le_refl _, by simp, h, rfl, rfl, rfl, rfl⟩

theorem Upd.mem {M : Nat} {st st' : RT N T D} {I I' fl fl' : List Nat} (h : Upd M st I fl st' I' fl') {j : Nat} (hj : j ∈ I' ++ fl') :
    j ∈ I ++ fl ∨ (st.nodes.length ≤ j ∧ j < st'.nodes.length) := by
  have := h.perm.mem_iff.1 hj
  rw [List.mem_append, List.mem_range'_1] at this
  have := h.len
  rcases ‹_ ∨ _› with h1 | h1
  · exact Or.inl h1
  · exact Or.inr (by omega)

theorem Upd.good {M : Nat} {st st' : RT N T D} {I I' fl fl' : List Nat} (g : Good M st I fl) (h : Upd M st I fl st' I' fl') :
    Good M st' I' fl' := by
  refine ⟨h.perm.nodup_iff.2 ?_, fun j hj => ?_, h.world⟩
  · rw [List.nodup_append]
    refine ⟨g.nodup, List.nodup_range', fun a ha b hb => ?_⟩
    have := g.bnd a ha
    rw [List.mem_range'_1] at hb
    omega
  · rcases h.mem hj with h1 | h1
    · have := g.bnd j h1; have := h.len; omega
    · exact h1.2

theorem Upd.trans {M : Nat} {st st1 st2 : RT N T D} {I I1 I2 fl fl1 fl2 : List Nat} (g : Good M st I fl)
    (h : Upd M st I fl st1 I1 fl1) (h' : Upd M st1 I1 fl1 st2 I2 fl2) : Upd M st I fl st2 I2 fl2 := by
  have hl := h.len
  have hl' := h'.len
  refine ⟨fun j h1 h2 h3 => ?_, by omega, ?_, h'.world, ?_⟩
  · have hn : j ∉ I1 ++ fl1 := fun hj => by
      rcases h.mem hj with hx | hx
      · rw [List.mem_append] at hx
        rcases hx with hx | hx
        · exact h2 hx
        · exact h3 hx
      · omega
    rw [List.mem_append] at hn
    rw [h'.frame j (by omega) (fun hj => hn (Or.inl hj)) (fun hj => hn (Or.inr hj)), h.frame j h1 h2 h3]
  · refine h'.perm.trans ((h.perm.append_right _).trans ?_)
    rw [List.append_assoc]
    refine List.Perm.append_left _ ?_
    rw [show st2.nodes.length - st.nodes.length = (st1.nodes.length - st.nodes.length) + (st2.nodes.length - st1.nodes.length) by omega,
      List.range'_append_1.symm, show st.nodes.length + (st1.nodes.length - st.nodes.length) = st1.nodes.length by omega]
  · obtain ⟨a1, a2, a3, a4⟩ := h.same
    obtain ⟨b1, b2, b3, b4⟩ := h'.same
    exact ⟨b1.trans a1, b2.trans a2, b3.trans a3, b4.trans a4⟩

/-- More nodes in use that the step does not touch. -/
theorem Upd.context {M : Nat} {st st' : RT N T D} {K I I' fl fl' : List Nat} (h : Upd M st I fl st' I' fl') :
    Upd M st (K ++ I) fl st' (K ++ I') fl' := by
  refine ⟨fun j h1 h2 h3 => h.frame j h1 (fun hj => h2 (by simp [hj])) h3, h.len, ?_, h.world, h.same⟩
  rw [List.append_assoc, List.append_assoc, List.append_assoc, ← List.append_assoc I]
  exact h.perm.append_left K

theorem Upd.untouched {M : Nat} {st st' : RT N T D} {K I I' fl fl' : List Nat} (g : Good M st (K ++ I) fl)
    (h : Upd M st I fl st' I' fl') {j : Nat} (hj : j ∈ K) : st'.nodes[j]? = st.nodes[j]? := by
  have hn := g.nodup
  rw [List.append_assoc, List.nodup_append] at hn
  refine h.frame j (g.bnd j (by simp [hj])) (fun h1 => ?_) (fun h1 => ?_)
  · exact hn.2.2 j hj j (by simp [h1]) rfl
  · exact hn.2.2 j hj j (by simp [h1]) rfl

theorem Good.right {M : Nat} {st : RT N T D} {K I fl : List Nat} (g : Good M st (K ++ I) fl) : Good M st I fl := by
  refine ⟨?_, fun j hj => g.bnd j (by rw [List.append_assoc, List.mem_append]; exact Or.inr hj), g.world⟩
  have hn := g.nodup
  rw [List.append_assoc, List.nodup_append] at hn
  exact hn.2.1

/-- Overwriting a node in use. -/
theorem Upd.set {M : Nat} {st : RT N T D} {I fl : List Nat} (g : Good M st I fl) {i : Nat} (hi : i ∈ I) {n : Node N T D}
    (hn : n.slots.length = M) : Upd M st I fl (setNode st i n) I fl := by
  refine ⟨fun j h1 h2 h3 => ?_, by simp [setNode], by simp [setNode], ⟨?_, ?_, g.world.hint⟩, rfl, rfl, rfl, rfl⟩
  · show (st.nodes.set i n)[j]? = _
    rw [List.getElem?_set_ne]
    rintro rfl; exact h2 hi
  · intro x hx
    rcases List.mem_or_eq_of_mem_set hx with h | h
    · exact g.world.slots x h
    · rw [h]; exact hn
  · refine g.world.free.frame fun j hj => ?_
    show (st.nodes.set i n)[j]? = _
    rw [List.getElem?_set_ne]
    rintro rfl
    exact (List.nodup_append.1 g.nodup).2.2 i hi i hj rfl

theorem Upd.hint {M : Nat} {st : RT N T D} {I fl hint : List Nat} (h : World M st fl) (hl : hint.length = st.hint.length) :
    Upd M st I fl { st with hint := hint } I fl :=
  ⟨fun _ _ _ _ => rfl, Nat.le_refl _, by simp, ⟨h.slots, h.free, by rw [hl]; exact h.hint⟩, rfl, rfl, rfl, rfl⟩

/-! ## Allocation -/

theorem nodeNew_ok {M : Nat} {st : RT N T D} {I fl : List Nat} (g : Good M st I fl) (k : Kind) :
    ∃ st' j fl' n, nodeNew M st k = .ok (st', j) ∧ Upd M st [] fl st' [j] fl' ∧ st'.nodes[j]? = some n ∧ n.kind = k ∧ n.count = 0 ∧
      n.slots.length = M ∧ st'.hint = st.hint := by
  unfold nodeNew
  cases hf : st.free with
  | none =>
    have hfl : fl = [] := by have := g.world.free; rw [hf] at this; cases fl <;> simp_all [Free]
    subst hfl
    refine ⟨_, _, [], zeroNode M k, rfl, ⟨fun j h1 _ _ => ?_, by simp, by simp, ⟨?_, ?_, g.world.hint⟩, rfl, rfl, rfl, rfl⟩, ?_,
      rfl, rfl, by simp [zeroNode], rfl⟩
    · show (st.nodes ++ _)[j]? = _
      rw [List.getElem?_append_left h1]
    · intro n hn
      rcases List.mem_append.1 hn with h | h
      · exact g.world.slots n h
      · rw [List.mem_singleton] at h; rw [h]; simp [zeroNode]
    · simp [Free]
    · show (st.nodes ++ _)[st.nodes.length]? = _
      rw [List.getElem?_append_right (Nat.le_refl _)]; simp
  | some i =>
    have hfree := g.world.free
    rw [hf] at hfree
    cases fl with
    | nil => exact hfree.elim
    | cons j rest =>
      obtain ⟨rfl, n, h1, h2⟩ := hfree
      have hjl : j < st.nodes.length := (List.getElem?_eq_some_iff.1 h1).1
      simp only
      rw [getNode_of h1, ok_bind]
      have hnm : j ∉ rest := by
        have := g.nodup
        rw [List.nodup_append] at this
        exact (List.nodup_cons.1 this.2.1).1
      refine ⟨_, _, rest, _, rfl, ⟨fun x hx _ hx2 => ?_, by simp, by simp, ⟨?_, ?_, g.world.hint⟩, rfl, rfl, rfl, rfl⟩,
        List.getElem?_set_self hjl, rfl, rfl, ?_, rfl⟩
      · show (st.nodes.set j _)[x]? = _
        rw [List.getElem?_set_ne]
        rintro rfl; exact hx2 (by simp)
      · intro x hx
        rcases List.mem_or_eq_of_mem_set hx with h | h
        · exact g.world.slots x h
        · rw [h]; exact g.world.slots n (List.mem_of_getElem? h1)
      · refine Free.frame h2 fun x hx => ?_
        show (st.nodes.set j _)[x]? = _
        rw [List.getElem?_set_ne]
        rintro rfl; exact hnm hx
      · exact g.world.slots n (List.mem_of_getElem? h1)

theorem addFree_ok {M : Nat} {st : RT N T D} {K fl : List Nat} {c : Nat} (g : Good M st (K ++ [c]) fl)
    (hk : ∀ n, st.nodes[c]? = some n → n.kind ≠ .endFree) :
    ∃ st', addFree st c = .ok st' ∧ Upd M st [c] fl st' [] (c :: fl) ∧ st'.hint = st.hint ∧ st'.nodes.length = st.nodes.length := by
  have hcl : c < st.nodes.length := g.bnd c (by simp)
  have hc : st.nodes[c]? = some st.nodes[c] := List.getElem?_eq_getElem hcl
  have hnm : c ∉ fl := fun h => by
    have := g.nodup
    rw [List.nodup_append] at this
    exact this.2.2 c (by simp) c h rfl
  have key : ∀ (n : Node N T D) (o : Option Nat), n.slots.length = M → o = some c →
      Free (st.nodes.set c n) (if n.kind = .endFree then none else some n.count) fl →
      Upd M st [c] fl { st with nodes := st.nodes.set c n, free := o } [] (c :: fl) := by
    intro n o hn ho hf
    refine ⟨fun j h1 h2 h3 => ?_, by simp, by simp, ⟨fun x hx => ?_, ?_, g.world.hint⟩, rfl, rfl, rfl, rfl⟩
    · show (st.nodes.set c n)[j]? = _
      rw [List.getElem?_set_ne]
      rintro rfl; exact h2 (by simp)
    · rcases List.mem_or_eq_of_mem_set hx with h | h
      · exact g.world.slots x h
      · rw [h]; exact hn
    · rw [ho]
      exact ⟨rfl, n, List.getElem?_set_self hcl, hf⟩
  have fr : ∀ (n : Node N T D), Free (st.nodes.set c n) st.free fl := fun n => g.world.free.frame fun j hj => by
    rw [List.getElem?_set_ne]
    rintro rfl; exact hnm hj
  have hlen := g.world.slots _ (List.mem_of_getElem? hc)
  unfold addFree
  rw [getNode_of hc, ok_bind]
  cases hf : st.free with
  | none =>
    refine ⟨_, rfl, key _ _ hlen rfl ?_, rfl, by simp⟩
    rw [if_pos rfl, ← hf]; exact fr _
  | some j =>
    refine ⟨_, rfl, key _ _ hlen rfl ?_, rfl, by simp⟩
    show Free _ (if st.nodes[c].kind = .endFree then none else some j) fl
    rw [if_neg (hk _ hc), ← hf]; exact fr _

/-! ## Splitting -/

theorem range_sub {a b : Nat} (h : a ≤ b) : (b - a) + a = b := by omega

theorem pot_grow (l x y : Nat) : (l + 1 - x) * y ≤ (l - x) * y + y := by
  have : l + 1 - x ≤ (l - x) + 1 := by omega
  calc (l + 1 - x) * y ≤ ((l - x) + 1) * y := Nat.mul_le_mul_right _ this
    _ = (l - x) * y + y := by rw [Nat.add_mul, Nat.one_mul]

theorem sum_perm {α : Type _} {a b : List α} (f : α → Nat) (h : a.Perm b) : (a.map f).sum = (b.map f).sum := (h.map f).sum_nat

/-- rtree.h:343-379: a full node becomes two. -/
theorem nodeSplit_ok [NeZero D] {M : Nat} (hM : 2 ≤ M) {st : RT N T D} {fl : List Nat} {k i : Nat} {n : Node N T D} (r : Rect N D)
    (g : Good M st (nIds st.nodes k i) fl) (h : NOk M st.nodes k i n) (hfull : n.count = M) :
    ∃ st' j fl' a b, nodeSplit M st r i = .ok (st', j) ∧ NOk M st'.nodes k i a ∧ NOk M st'.nodes k j b ∧
      Upd M st (nIds st.nodes k i) fl st' (nIds st'.nodes k i ++ nIds st'.nodes k j) fl' ∧
      (nEnts st'.nodes k i ++ nEnts st'.nodes k j).Perm (nEnts st.nodes k i) ∧ minItems M ≤ a.count ∧ minItems M ≤ b.count ∧
      nPot M st'.nodes k i + nPot M st'.nodes k j + minItems M ^ (k + 1) = nPot M st.nodes k i ∧ st'.hint = st.hint := by
  obtain ⟨st1, j, fl1, b0, e1, u1, hb0, bk, bc, bl, hh⟩ := nodeNew_ok g n.kind
  have hctx : Upd M st (nIds st.nodes k i) fl st1 (nIds st.nodes k i ++ [j]) fl1 := by
    have := u1.context (K := nIds st.nodes k i)
    rwa [List.append_nil] at this
  have g1 := hctx.good g
  have same : ∀ x ∈ nIds st.nodes k i, st1.nodes[x]? = st.nodes[x]? := fun x hx =>
    u1.untouched (K := nIds st.nodes k i) (by rw [List.append_nil]; exact g) hx
  obtain ⟨fe, fi, fp, fo⟩ := nframe (M := M) same
  have h1 := fo n h
  obtain ⟨a1, b1, a2, b2, a3, b3, s1, s2, s3, rd, m1, m2⟩ := splitCore hM r h1.len bl hfull bc
  have hij : i ≠ j := by
    rintro rfl
    have := g1.nodup
    rw [List.append_assoc, List.nodup_append] at this
    exact this.2.2 i (by simp [nIds]) i (by simp) rfl
  refine ⟨setNode (setNode st1 i a3) j b3, j, fl1, a3, b3, ?_, ?_⟩
  · unfold nodeSplit
    rw [getNode_of h.get, ok_bind, e1, ok_bind]
    simp only
    rw [getNode_of h1.get, ok_bind, getNode_of hb0, ok_bind, s1, ok_bind]
    simp only
    rw [s2, ok_bind]
    simp only
    rw [s3, ok_bind]
  · have il : i < st1.nodes.length := (List.getElem?_eq_some_iff.1 h1.get).1
    have jl : j < st1.nodes.length := (List.getElem?_eq_some_iff.1 hb0).1
    have ga : (setNode (setNode st1 i a3) j b3).nodes[i]? = some a3 := by
      show ((st1.nodes.set i a3).set j b3)[i]? = _
      rw [List.getElem?_set_ne (fun h => hij h.symm), List.getElem?_set_self il]
    have gb : (setNode (setNode st1 i a3) j b3).nodes[j]? = some b3 := by
      show ((st1.nodes.set i a3).set j b3)[j]? = _
      rw [List.getElem?_set_self (by simpa using jl)]
    have hother : ∀ x, x ≠ i → x ≠ j → (setNode (setNode st1 i a3) j b3).nodes[x]? = st1.nodes[x]? := by
      intro x h1 h2
      show ((st1.nodes.set i a3).set j b3)[x]? = _
      rw [List.getElem?_set_ne (fun h => h2 h.symm), List.getElem?_set_ne (fun h => h1 h.symm)]
    have lp : (live a3 ++ live b3).Perm (live n) := by
      have : live b0 = [] := by unfold live; rw [bc]; rfl
      have hp := rd.perm
      rwa [this, List.append_nil] at hp
    -- the slots are not affected
    have hnd := g1.nodup
    have hfr : ∀ s ∈ live n, _ := fun s hs => frame (M := M) (ns := st.nodes) (ns' := (setNode (setNode st1 i a3) j b3).nodes) k s
      fun x hx => by
        have hmem : x ∈ (liveAt st.nodes i).flatMap (sIds st.nodes k) := by
          rw [liveAt_of h.get, List.mem_flatMap]; exact ⟨s, hs, hx⟩
        have hx1 : x ∈ nIds st.nodes k i := by simp [nIds, List.mem_cons, hmem]
        have hnn := g.nodup
        rw [List.nodup_append] at hnn
        rw [hother x, same x hx1]
        · rintro rfl
          exact (List.nodup_cons.1 hnn.1).1 hmem
        · rintro rfl
          rw [List.append_assoc, List.nodup_append] at hnd
          exact hnd.2.2 x hx1 x (by simp) rfl
    have hmemL : ∀ s, s ∈ live a3 ∨ s ∈ live b3 → s ∈ live n := fun s hs => lp.mem_iff.1 (by rw [List.mem_append]; exact hs)
    have cA : (live a3).length = a3.count := live_length (by have := rd.la; have := rd.cnt; omega)
    have cB : (live b3).length = b3.count := live_length (by have := rd.lb; have := rd.cnt; omega)
    have hcnt := rd.cnt
    have hlA := liveAt_of ga
    have hlB := liveAt_of gb
    have hlN := liveAt_of h.get
    have eqE : ∀ L : List (Slot N T D), (∀ s ∈ L, s ∈ live n) →
        L.flatMap (sEnts (setNode (setNode st1 i a3) j b3).nodes k) = L.flatMap (sEnts st.nodes k) ∧
        L.flatMap (sIds (setNode (setNode st1 i a3) j b3).nodes k) = L.flatMap (sIds st.nodes k) ∧
        L.map (sPot M (setNode (setNode st1 i a3) j b3).nodes k) = L.map (sPot M st.nodes k) := fun L hL =>
      ⟨flatMap_congr fun s hs => (hfr s (hL s hs)).1, flatMap_congr fun s hs => (hfr s (hL s hs)).2.1,
        List.map_congr_left fun s hs => (hfr s (hL s hs)).2.2.1⟩
    obtain ⟨ea1, ea2, ea3⟩ := eqE (live a3) fun s hs => hmemL s (Or.inl hs)
    obtain ⟨eb1, eb2, eb3⟩ := eqE (live b3) fun s hs => hmemL s (Or.inr hs)
    refine ⟨⟨ga, rd.ka.trans h.kind, rd.la, by omega, fun s hs => (hfr s (hmemL s (Or.inl hs))).2.2.2 (h.slots s (hmemL s (Or.inl hs)))⟩,
      ⟨gb, by rw [rd.kb, bk]; exact h.kind, rd.lb, by omega,
        fun s hs => (hfr s (hmemL s (Or.inr hs))).2.2.2 (h.slots s (hmemL s (Or.inr hs)))⟩, ?_, ?_, m1, m2, ?_, ?_⟩
    · have u2 : Upd M st1 (nIds st.nodes k i ++ [j]) fl1 (setNode st1 i a3) (nIds st.nodes k i ++ [j]) fl1 :=
        Upd.set g1 (by simp [nIds]) rd.la
      have g2 := u2.good g1
      have u3 : Upd M (setNode st1 i a3) (nIds st.nodes k i ++ [j]) fl1 (setNode (setNode st1 i a3) j b3) (nIds st.nodes k i ++ [j]) fl1 :=
        Upd.set g2 (by simp) rd.lb
      refine (hctx.trans g (u2.trans g1 u3)).perm' (List.Perm.refl _) ?_
      unfold nIds
      rw [hlA, hlB, ea2, eb2, hlN, List.cons_append, List.cons_append]
      refine List.Perm.cons _ ?_
      refine (List.perm_append_singleton j _).trans ?_
      refine List.Perm.trans ?_ List.perm_middle.symm
      refine List.Perm.cons _ ?_
      rw [← List.flatMap_append]
      exact (lp.flatMap_right _).symm
    · unfold nEnts
      rw [hlA, hlB, ea1, eb1, hlN, ← List.flatMap_append]
      exact lp.flatMap_right _
    · unfold nPot
      rw [hlA, hlB, ea3, eb3, hlN, cA, cB, h.live_length, hfull]
      have hz1 : a3.count - (M - minItems M) = 0 := by omega
      have hz2 : b3.count - (M - minItems M) = 0 := by omega
      have hb := minItems_bounds hM
      have hz3 : M - (M - minItems M) = minItems M := by omega
      rw [hz1, hz2, hz3, Nat.zero_mul, Nat.zero_add, Nat.zero_add, Nat.pow_succ, Nat.mul_comm (minItems M ^ k)]
      have := sum_perm (sPot M st.nodes k) lp
      rw [List.map_append, List.sum_append] at this
      omega
    · exact hh

end Cista.RTree
